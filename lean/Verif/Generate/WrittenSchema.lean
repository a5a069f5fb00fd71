import Verif.Generate.WrittenValid
import Verif.Generate.FromSchema
import Verif.Opt.PipelineExact
/-!
# From the value back to the schema: what is written is valid for the schema (C77)

The components of a schema are interpreted (C72), the type information is optimized by passes that accept no more than
before (C69), and code is generated for it. Together: what the generated types describe, and what is written for their
values, is valid for the schema.
-/
namespace Verif.Generate

open Verif.Meta Verif.Opt Verif.Interp
open Verif.Rt hiding Node
open Verif.Gen
open Verif.Gen.Tab

variable {X : Type}

/-- **C77.** The components `defs` of a schema, whose simple types are in the table `T₀`, are interpreted without an error.
Then the optimizer ends without an error, and every document that the type generated for the component `i` describes is
valid for `i` in the schema. What is missing in `C72_table_exact_partial`, `C69_same_documents_partial` and
`C77_described_document_valid_partial` is missing here. -/
theorem C77_schema_document_described_partial (P : Lex) (groups : Ident → GKind × List Part) (T₀ T : Types)
    (defs : List Def) (interpreted : interpret defs T₀ = .ok T) (simple : SimpleTable T₀) (apart : NamesApart T₀ defs)
    (ok : ∀ d ∈ defs, d.Ok groups T₀ defs) (F : OptFlags) (env : Env) (exact : F.Exact)
    (closed : ClosedSchema T₀ defs) (wf : WellFormed T₀) (plain : PlainUnions P T₀)
    (literals : F.removeEmptyEnumVariants → NoEmptyLiteral T₀)
    (fuel : Nat) (hfuel : (T.length + 1) * (T.length + 1) < fuel) :
    ∃ T', execOptimizer fuel F env T = .ok T' ∧ ∀ S : Setup X, S.types = T' → S.Supported → Tidy T' → S.Regular →
      S.XsiFree → S.SoundTexts P → ∀ (i : Ident) (k : Nat), S.tyRef i = some (.struct k) →
      ∀ (name : PropIdent) (p : Pos) (evs : List Event) (v : Val X), Doc S.compile (.struct k) p evs v →
      Opens p evs (S.elementName name) →
      ∃ as kids, Renders S p (.elem name none as kids) evs ∧ SchemaValid P T₀ defs i none as kids := by
  have H := Interp.interpreted interpreted simple apart ok
  obtain ⟨T', h1, -, -, -, h2⟩ := C69_same_documents_partial P F env T exact
    (C72_table_well_formed_partial interpreted simple apart ok closed wf) (H.plainUnions plain)
    (fun h => H.noEmptyLiteral (literals h)) (fun _ => H.keysByCount) fuel hfuel
  refine ⟨T', h1, ?_⟩
  intro S hS hsup htidy hreg hfree hsound i k hk name p evs v hd ho
  subst hS
  obtain ⟨as, kids, h3, h4⟩ :=
    C77_described_document_valid_partial S P hsup htidy hreg hfree hsound i k hk name p evs v hd ho
  exact ⟨as, kids, h3, (C72_table_exact_partial interpreted simple apart ok i none as kids).1 ((h2 _).1 h4)⟩

/-- **C77.** The same for documents that are written: every value of the type generated for the component `i` of the schema
is written by its serializer, and what is written is valid for `i` in the schema. -/
theorem C77_schema_document_written_partial (P : Lex) (groups : Ident → GKind × List Part) (T₀ T : Types)
    (defs : List Def) (interpreted : interpret defs T₀ = .ok T) (simple : SimpleTable T₀) (apart : NamesApart T₀ defs)
    (ok : ∀ d ∈ defs, d.Ok groups T₀ defs) (F : OptFlags) (env : Env) (exact : F.Exact)
    (closed : ClosedSchema T₀ defs) (wf : WellFormed T₀) (plain : PlainUnions P T₀)
    (literals : F.removeEmptyEnumVariants → NoEmptyLiteral T₀)
    (fuel : Nat) (hfuel : (T.length + 1) * (T.length + 1) < fuel) :
    ∃ T', execOptimizer fuel F env T = .ok T' ∧ ∀ S : Setup X, S.types = T' → S.Supported → Tidy T' → S.XsiFree →
      S.SoundTexts P → ∀ (G : Schema X), S.WrittenBy G → ∀ (d : Nat) (binds : Str → Str) (need : List (Str × Str)),
      G.NestedGood d binds need → ∀ (i : Ident) (k : Nat), S.tyRef i = some (.struct k) →
      ∀ (name : PropIdent), Plain (S.elementName name) → ∀ (D : StructSpec X), G.structs[k]? = some D →
      ∀ (v : Val X), Holds G (.struct k) v → AllNamed G need (.struct k) v →
      (∀ b ∈ need, b ∈ D.declares v (S.elementName name).text true) →
      Agrees binds (D.declares v (S.elementName name).text true) →
      AttrsNamed G need (.struct k) v (S.elementName name).text true →
      Resolvable (D.declares v (S.elementName name).text true) (S.elementName name) → ∀ n, depth v < n →
      ∃ out evs as kids, (ser G n).Emits (.struct k (.init v (S.elementName name).text true)) {} out {} ∧
        reread out = some evs ∧ Renders S {} (.elem name none as kids) evs ∧
        SchemaValid P T₀ defs i none as kids := by
  have H := Interp.interpreted interpreted simple apart ok
  obtain ⟨T', h1, -, -, -, h2⟩ := C69_same_documents_partial P F env T exact
    (C72_table_well_formed_partial interpreted simple apart ok closed wf) (H.plainUnions plain)
    (fun h => H.noEmptyLiteral (literals h)) (fun _ => H.keysByCount) fuel hfuel
  refine ⟨T', h1, ?_⟩
  intro S hS hsup htidy hfree hsound G hG d binds need good i k hk name hplain D hD v hv hnm hneed hag han hres n hn
  subst hS
  obtain ⟨out, evs, as, kids, g1, g2, g3, g4⟩ := C77_written_document_valid_partial S P hsup htidy hfree hsound G hG d binds
    need good i k hk name hplain D hD v hv hnm hneed hag han hres n hn
  exact ⟨out, evs, as, kids, g1, g2, g3,
    (C72_table_exact_partial interpreted simple apart ok i none as kids).1 ((h2 _).1 g4)⟩

end Verif.Generate

import Verif.Generate.EndToEnd
import Verif.Interp.WellFormed
/-!
# From the schema to the value: valid documents are read (C72)

The components of a schema are interpreted (C72, C59), the type information is optimized (C69), code is generated for it
and reads a document (C71). Together: what is valid for the schema is read by the code generated from it.
-/
namespace Verif.Generate

open Verif.Meta Verif.Opt Verif.Interp
open Verif.Rt hiding Node
open Verif.Gen
open Verif.Gen.Tab

variable {X : Type}

/-- **C72.** The components `defs` of a schema, whose simple types are in the table `T₀`, are interpreted without an error.
Then the optimizer ends without an error, and every element that is valid for the component `i` of the schema is read by
the deserializer generated for `i`, whichever prefixes, padding and splitting of text the document uses. What the optimizer
needs is asked of the simple types only: none is defined in terms of itself or of something that is not defined (`wf`),
and the conditions of C69 for the chosen flags; the restrictions of complex types must be restrictions if they are replaced
by their base (`restricting`); the elements of the schema must have types that exist (`closed`). What is missing
in `C72_table_exact_partial`, `C69_accepts_no_less_partial` and `C71_valid_document_read_partial` is missing here. -/
theorem C72_schema_document_read_partial (P : Lex) (groups : Ident → GKind × List Part) (T₀ T : Types) (defs : List Def)
    (interpreted : interpret defs T₀ = .ok T) (simple : SimpleTable T₀) (apart : NamesApart T₀ defs)
    (ok : ∀ d ∈ defs, d.Ok groups T₀ defs) (F : OptFlags) (env : Env) (plain : F.Plain)
    (closed : ClosedSchema T₀ defs) (wf : WellFormed T₀) (hP : ∀ s, P.facets .default s)
    (narrows : F.unrestrictedComplex ∨ F.unrestrictedSimple ∨ F.unrestrictedEnum ∨ F.unrestrictedUnion →
      Narrows P F.bases T₀ ∧ NoListBase T₀)
    (restricting : F.unrestrictedComplex → Restricting P T₀ (SchemaValid P T₀ defs) defs)
    (literals : F.removeEmptyEnumVariants → NoEmptyLiteral T₀)
    (fuel : Nat) (hfuel : (T.length + 1) * (T.length + 1) < fuel) :
    ∃ T', execOptimizer fuel F env T = .ok T' ∧ ∀ S : Setup X, S.types = T' → S.Supported → S.Filled →
      ∀ d, S.compile.Nested d → S.XsiFree → S.ReadsTexts P → (∀ n as kids, ¬ P.customValue n as kids) →
      ∀ (i : Ident) (k : Nat), S.tyRef i = some (.struct k) →
      ∀ (name : PropIdent) (as : List (PropIdent × Txt)) (kids : List Node), SchemaValid P T₀ defs i none as kids →
      ∀ evs, Renders S {} (.elem name none as kids) evs →
      ∃ v, ∀ n, depth v + d < n → ∀ rest,
        Drv.run (genEnv posTrack) (de S.compile n (.struct k)).toDeser { helper := {} } (evs ++ rest) = .done v rest := by
  have H := Interp.interpreted interpreted simple apart ok
  have same : SchemaValid P T₀ defs = Val P T := by
    funext i x as kids
    exact propext (C72_table_exact_partial interpreted simple apart ok i x as kids).symm
  obtain ⟨T', h1, h2⟩ := C71_optimized_document_read_partial (X := X) P F env T plain
    (C72_table_well_formed_partial interpreted simple apart ok closed wf) hP
    (fun h => ⟨H.narrows apart.fresh wf (narrows h).1 fun hf => same ▸ restricting hf, H.noListBase (narrows h).2⟩) (fun h => H.noEmptyLiteral (literals h))
    (fun _ => H.keysByCount) fuel hfuel
  refine ⟨T', h1, ?_⟩
  intro S hS hsup hfill d hshape hfree hp hcustom i k hk name as kids hv evs hr
  exact h2 S hS hsup hfill d hshape hfree hp hcustom i k hk name as kids
    ((C72_table_exact_partial interpreted simple apart ok i none as kids).2 hv) evs hr

end Verif.Generate

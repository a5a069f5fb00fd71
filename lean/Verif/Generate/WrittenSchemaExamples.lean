import Verif.Generate.WrittenSchema
import Verif.Generate.WrittenValidExamples
import Verif.Generate.FromSchemaExamples
/-!
# What is written is valid for the schema: an example (C77)
-/
namespace Verif.Generate

open Verif.Meta Verif.Opt Verif.Interp
open Verif.Rt hiding Node
open Verif.Gen
open Verif.Gen.Tab

/-! ## The hypotheses, for the schema of `Verif.Generate.FromSchemaExamples` -/

theorem simpleTypes_kinds {i : Ident} {v : Variant} (h : look simpleTypes i = some v) :
    (∀ u, v ≠ .union u) ∧ ∀ e, v ≠ .enumeration e := by
  rcases simpleTypes_at h with rfl | ⟨-, rfl⟩ <;> simp

theorem simpleTypes_plain : PlainUnions anyText simpleTypes :=
  ⟨⟨fun _ => trivial, fun _ u h => absurd rfl ((simpleTypes_kinds h).1 u)⟩,
    fun _ e h => absurd rfl ((simpleTypes_kinds h).2 e), fun _ u h => absurd rfl ((simpleTypes_kinds h).1 u),
    fun _ u _ h => absurd rfl ((simpleTypes_kinds h).1 u)⟩

theorem simpleTypes_literals : NoEmptyLiteral simpleTypes :=
  fun _ x _ h => absurd rfl ((simpleTypes_kinds h).2 x)

theorem schemaTypes_interpreted : Interpreted (fun _ => (.sequence, [])) simpleTypes orderSchema (schemaTypes "Text") :=
  interpreted orderSchema_interpreted simpleTypes_simple orderSchema_apart orderSchema_ok

theorem schemaTypes_tidy : Tidy (schemaTypes "string") := tidyCheck_sound _ (by decide +kernel)

theorem schemaSetup_sound : schemaSetup.SoundTexts anyText := by
  intro i k h s x _
  unfold Setup.tyRef at h
  cases hd : denotes (schemaTypes "string") i with
  | none => rw [show denotes schemaSetup.types i = none from hd] at h; cases h
  | some v =>
    rw [show denotes schemaSetup.types i = some v from hd] at h
    obtain ⟨ty, hg, rfl⟩ := get_of_denotes hd
    have := List.mem_of_getElem? (indexOf_get hg)
    simp only [schemaTypes, ordersWith, List.cons_append, List.nil_append, List.mem_cons, Prod.mk.injEq,
      List.not_mem_nil, or_false] at this
    rcases this with ⟨_, rfl⟩ | ⟨_, rfl⟩ | ⟨_, rfl⟩ | ⟨_, rfl⟩ | ⟨_, rfl⟩ | ⟨_, rfl⟩
    · exact (Valid.of_res i).1 _ (.builtInText hg rfl trivial)
    · cases h
    · cases h
    · cases h
    · simp only [orderDef, MetaType.new] at h
      split at h <;> cases h
    · cases h

/-- The table for writing: the root declares the prefix of the names. -/
def schemaTable : Schema Str :=
  { schemaSetup.compile with
    structs := schemaSetup.compile.structs.map fun D =>
      { D with xmlns := some fun _ _ root => if root then [(['p'], "urn:a".toList)] else [] }
    print := fun _ s => some s }

theorem schemaTable_written : schemaSetup.WrittenBy schemaTable := by
  refine ⟨?_, rfl, rfl⟩
  simp only [schemaTable, List.map_map]
  rfl

theorem schema_declares {D : StructSpec Str} (hD : D ∈ schemaTable.structs) (w : Val Str) (name : Str) (root : Bool) :
    D.declares w name root = if root then [(['p'], "urn:a".toList)] else [] := by
  obtain ⟨D', _, rfl⟩ := List.mem_map.1 hD
  rfl

theorem schemaTable_good : schemaTable.NestedGood 1 orderBinds [(['p'], "urn:a".toList)] where
  toNested := nestedCheck_sound _ _ (by decide +kernel)
  root := order_agrees true
  decls := by
    intro D hD f hf x root
    unfold tyDeclares
    split
    · rename_i k _
      cases hk : schemaTable.structs[k]? with
      | none => intro b hb; cases hb
      | some U =>
        simp only [Option.map_some, Option.getD_some]
        rw [schema_declares (List.mem_of_getElem? hk)]
        exact order_agrees root
    · intro b hb; cases hb

theorem schema_names : ∀ D ∈ schemaTable.structs,
    (∀ a ∈ D.attrs, a.name.pfx = []) ∧ ∀ f ∈ D.body.elements, f.name.pfx = ['p'] ∧ f.name.ns = some "urn:a".toList := by
  decide +kernel

theorem schemaTable_attrs (ty : TyRef) (w : Val Str) (name : Str) (root : Bool) :
    AttrsNamed schemaTable [(['p'], "urn:a".toList)] ty w name root :=
  fun _ _ _ hD _ ha => Or.inl ((schema_names _ (List.mem_of_getElem? hD)).1 _ ha)

theorem schemaTable_declared : schemaTable.Declared [(['p'], "urn:a".toList)] := by
  intro D hD f hf x root
  obtain ⟨h1, h2⟩ := (schema_names D hD).2 f hf
  refine ⟨Or.inr fun ns hns => ?_, schemaTable_attrs _ _ _ _⟩
  rw [h2] at hns
  cases hns
  rw [h1]
  simp

theorem schema_text (s : String) (h : hasCdataEnd s.toList = false ∧ trimAscii s.toList = s.toList) :
    SimpleOk schemaTable 0 s.toList := by
  refine ⟨h.1, ?_⟩
  rw [h.2]
  rfl

/-- An order with a note. -/
def notedOrder : Val Str := .struct [some "7".toList] [[.simple "cake".toList], [.alt 0 [.simple "big".toList]]]

theorem notedOrder_holds : Holds schemaTable (.struct 4) notedOrder := by
  refine .fields (D := { schemaSetup.structOf orderDef with xmlns := some fun _ _ root =>
      if root then [(['p'], "urn:a".toList)] else [] })
    (es := [⟨⟨['p'], "name".toList, some "urn:a".toList⟩, 1, .bounded 1, .simple 0⟩,
      ⟨⟨['p'], "parts".toList, some "urn:a".toList⟩, 0, .unbounded, .variant 2⟩]) rfl ⟨by rfl, ?_⟩ (Or.inl (by rfl)) rfl ?_ ?_
  · intro j a v ha hv
    rcases j with _ | j
    · simp only [List.getElem?_cons_zero, Option.some.injEq] at hv
      subst hv
      have hty : a.ty = 0 := (by decide +kernel : ∀ a ∈ (schemaSetup.structOf orderDef).attrs, a.ty = 0) a
        (List.mem_of_getElem? ha)
      refine ⟨"7".toList, rfl, ?_⟩
      rw [hty]
      rfl
    · simp at hv
  · intro j f hf
    rcases j with _ | _ | j <;> simp at hf <;> subst hf
    · exact ⟨Nat.le_refl _, by intro b hb; cases hb; simp⟩
    · exact ⟨Nat.zero_le _, by intro b hb; cases hb⟩
  · intro j f v hf hv
    rcases j with _ | _ | j <;> simp at hf <;> subst hf <;> simp at hv
    · subst hv; exact .simple (schema_text "cake" (by decide +kernel))
    · subst hv
      have hD : schemaTable.structs[2]? = some { schemaSetup.structOf partDef with xmlns := some fun _ _ root =>
          if root then [(['p'], "urn:a".toList)] else [] } := rfl
      have hb : (schemaSetup.structOf partDef).body =
          .choice [⟨⟨['p'], "note".toList, some "urn:a".toList⟩, 1, .bounded 1, .simple 0⟩,
            ⟨⟨['p'], "order".toList, some "urn:a".toList⟩, 1, .bounded 1, .struct 4⟩] 1 (.bounded 1) := by rfl
      exact .variant (i := 0) hD hb rfl (.simple (schema_text "big" (by decide +kernel)))

theorem schema_optimized : execOptimizer 50 exactFlags ⟨anyTypeIdent [], fun _ => .named [], fun _ => []⟩
    (schemaTypes "Text") = .ok (schemaTypes "string") := by decide +kernel

/-- The hypotheses of `C77_schema_document_written_partial` hold for the schema, all exact passes and this value: what is
written for it is valid for the element `order` of the schema. -/
example : ∃ out evs as kids, (ser schemaTable 9).Emits (.struct 4 (.init notedOrder "p:order".toList true)) {} out {} ∧
    reread out = some evs ∧ Renders schemaSetup {} (.elem (nm "order") none as kids) evs ∧
    SchemaValid anyText simpleTypes orderSchema orderElement none as kids := by
  obtain ⟨T', h1, h2⟩ := C77_schema_document_written_partial (X := Str) anyText (fun _ => (.sequence, [])) simpleTypes
    (schemaTypes "Text") orderSchema orderSchema_interpreted simpleTypes_simple orderSchema_apart orderSchema_ok
    exactFlags ⟨anyTypeIdent [], fun _ => .named [], fun _ => []⟩ (by simp [OptFlags.Exact, OptFlags.Plain, exactFlags])
    orderSchema_closed simpleTypes_wellFormed simpleTypes_plain (fun _ => simpleTypes_literals) 50 (by decide)
  rw [schema_optimized] at h1
  cases h1
  have hD : schemaTable.structs[4]? = some { schemaSetup.structOf orderDef with xmlns := some fun _ _ root =>
      if root then [(['p'], "urn:a".toList)] else [] } := rfl
  refine h2 schemaSetup rfl schemaSetup_supported schemaTypes_tidy schemaSetup_xsiFree schemaSetup_sound schemaTable
    schemaTable_written 1 orderBinds _ schemaTable_good orderElement 4 (by decide +kernel) (nm "order")
    ⟨by decide +kernel, by decide +kernel⟩ _ hD notedOrder notedOrder_holds (schemaTable_declared.allNamed _ _)
    (fun b hb => hb) (order_agrees true) (schemaTable_attrs _ _ _ _) (Or.inr fun ns hns => ?_) 9 (by decide +kernel)
  cases hns
  simp [schemaSetup, orderSetup, Setup.elementName, StructSpec.declares]

/-- The hypotheses of `C77_schema_document_described_partial` hold for the document of C71. -/
example : ∃ as kids, Renders schemaSetup {} (.elem (nm "order") none as kids) orderDocument ∧
    SchemaValid anyText simpleTypes orderSchema orderElement none as kids := by
  obtain ⟨T', h1, h2⟩ := C77_schema_document_described_partial (X := Str) anyText (fun _ => (.sequence, [])) simpleTypes
    (schemaTypes "Text") orderSchema orderSchema_interpreted simpleTypes_simple orderSchema_apart orderSchema_ok
    exactFlags ⟨anyTypeIdent [], fun _ => .named [], fun _ => []⟩ (by simp [OptFlags.Exact, OptFlags.Plain, exactFlags])
    orderSchema_closed simpleTypes_wellFormed simpleTypes_plain (fun _ => simpleTypes_literals) 50 (by decide)
  rw [schema_optimized] at h1
  cases h1
  have hr := names_same _ _ _ orderDocument_renders
  have hval : Valid anyText (schemaTypes "string") (.value orderElement none orderAttrs orderKids) := by
    obtain ⟨T', g1, -, -, -, g2⟩ := C69_same_documents_partial anyText exactFlags ⟨anyTypeIdent [], fun _ => .named [], fun _ => []⟩
      (schemaTypes "Text") (by simp [OptFlags.Exact, OptFlags.Plain, exactFlags]) schemaTypes_wellFormed
      (schemaTypes_interpreted.plainUnions simpleTypes_plain)
      (fun _ => schemaTypes_interpreted.noEmptyLiteral simpleTypes_literals)
      (fun _ => schemaTypes_interpreted.keysByCount) 50 (by decide)
    rw [schema_optimized] at g1
    cases g1
    exact (g2 _).2 ((C72_table_exact_partial orderSchema_interpreted simpleTypes_simple orderSchema_apart orderSchema_ok
      _ _ _ _).2 order_schemaValid)
  obtain ⟨v, hd, _⟩ := C71_valid_document_read_partial schemaSetup anyText schemaSetup_acyclic schemaSetup_supported
    schemaSetup_filled 1 schemaSetup_shape schemaSetup_xsiFree schemaSetup_reads (fun _ _ _ h => h) orderElement 4
    (by decide +kernel) (nm "order") _ _ hval _ hr
  exact h2 schemaSetup rfl schemaSetup_supported schemaTypes_tidy (nested_regular schemaSetup_shape) schemaSetup_xsiFree
    schemaSetup_sound orderElement 4 (by decide +kernel) (nm "order") {} orderDocument v hd (renders_inv hr).2.1

end Verif.Generate

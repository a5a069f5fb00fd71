import Verif.Generate.WrittenValid
import Verif.Generate.NestedExamples
/-!
# Documents of the generated types are valid: examples (C77)
-/
namespace Verif.Generate

open Verif.Meta
open Verif.Occurs (MaxOccurs Container fromOccurs Allows)
open Verif.Rt hiding Node
open Verif.Gen
open Verif.Gen.Tab

variable {X : Type}

/-! ## A check for `Tidy` -/

def occursCheck (mn : Nat) : MaxOccurs → Bool
  | .unbounded => true
  | .bounded b => decide (mn ≤ b)

theorem occursCheck_sound {mn : Nat} {mx : MaxOccurs} (h : occursCheck mn mx = true) : ∀ b, mx = .bounded b → mn ≤ b := by
  intro b hb
  subst hb
  exact of_decide_eq_true h

def particleCheck (T : Types) (e : Element) : Bool :=
  occursCheck e.min e.max &&
    match e.variant with
    | .type_ j .group => (Assoc.get T j).isSome
    | _ => true

theorem particleCheck_sound {T : Types} {e : Element} (h : particleCheck T e = true) :
    (∀ b, e.max = .bounded b → e.min ≤ b) ∧ ∀ j, e.variant = .type_ j .group → Defined T j := by
  simp only [particleCheck, Bool.and_eq_true] at h
  refine ⟨occursCheck_sound h.1, fun j hj => ?_⟩
  have := h.2
  rw [hj] at this
  exact Option.isSome_iff_exists.1 this

def choiceCheck (c : Complex) : Option Variant → Bool
  | some (.choice x) => c.min == 0 || !x.elements.isEmpty
  | v => v.isSome

def complexCheck (T : Types) (c : Complex) : Bool :=
  (match c.content with
    | none => true
    | some g => occursCheck c.min c.max && choiceCheck c (denotes T g)) &&
  c.attributes.all (fun a => decide (a.use_ = .required → a.default_ = none)) &&
  c.attributes.all fun a => c.attributes.all fun b => decide (a.ident = b.ident → a = b)

def tidyCheck (T : Types) : Bool :=
  T.all fun x =>
    match x.2.variant with
    | .all g => g.elements.all (particleCheck T) &&
        g.elements.all fun e => decide (e.max = .bounded 0) || decide (e.max = .bounded 1)
    | .choice g | .sequence g => g.elements.all (particleCheck T)
    | .complex c => complexCheck T c
    | _ => true

theorem tidyCheck_sound (T : Types) (h : tidyCheck T = true) : Tidy T := by
  have key := List.all_eq_true.1 h
  refine ⟨fun i ty g hm hg e he => ?_, fun i ty g hm hg e he => ?_, fun i ty c g hm hv hg => ?_, fun i ty c hm hv => ?_⟩
  · have := key _ hm
    rcases hg with hg | hg | hg <;> simp only [hg, Bool.and_eq_true, List.all_eq_true] at this
    · exact particleCheck_sound (this.1 e he)
    · exact particleCheck_sound (this e he)
    · exact particleCheck_sound (this e he)
  · have := key _ hm
    simp only [hg, Bool.and_eq_true, List.all_eq_true, Bool.or_eq_true, decide_eq_true_eq] at this
    exact this.2 e he
  · have := key _ hm
    simp only [hv, complexCheck, hg, Bool.and_eq_true] at this
    obtain ⟨⟨⟨h1, h2⟩, _⟩, _⟩ := this
    refine ⟨?_, occursCheck_sound h1, fun x hx => ?_⟩
    · cases hd : denotes T g with
      | none => rw [hd] at h2; cases h2
      | some v => rfl
    · rw [hx] at h2
      simp only [choiceCheck, Bool.or_eq_true, beq_iff_eq, Bool.not_eq_true', List.isEmpty_eq_false_iff] at h2
      exact h2
  · have := key _ hm
    simp only [hv, complexCheck, Bool.and_eq_true, List.all_eq_true, decide_eq_true_eq] at this
    exact ⟨this.1.2, this.2⟩

theorem nested_regular {S : Setup X} {d : Nat} (h : S.compile.Nested d) : S.Regular :=
  ⟨h.fits, fun D hD a ha => (h.attrPlain D hD a ha).1, h.attrDistinct⟩

/-! ## A report -/

theorem reportTypes_tidy : Tidy reportTypes := tidyCheck_sound _ (by decide +kernel)

theorem report_texts : ∀ i k, reportSetup.tyRef i = some (.simple k) → ∀ s, Valid anyText reportTypes (.text i s) := by
  intro i k h s
  unfold Setup.tyRef at h
  cases hd : denotes reportTypes i with
  | none => rw [show denotes reportSetup.types i = none from hd] at h; cases h
  | some v =>
    rw [show denotes reportSetup.types i = some v from hd] at h
    obtain ⟨ty, hg, rfl⟩ := get_of_denotes hd
    have := List.mem_of_getElem? (indexOf_get hg)
    simp only [reportTypes, List.mem_cons, Prod.mk.injEq, List.not_mem_nil, or_false] at this
    rcases this with ⟨_, rfl⟩ | ⟨_, rfl⟩ | ⟨_, rfl⟩ | ⟨_, rfl⟩ | ⟨_, rfl⟩
    · exact (Valid.of_res i).1 _ (.builtInText hg rfl trivial)
    · cases h
    · cases h
    · cases h
    · simp only [reportDef, MetaType.new] at h
      split at h <;> cases h

theorem reportSetup_sound : reportSetup.SoundTexts anyText := fun i k h s _ _ => report_texts i k h s

/-- The hypotheses of `C77_described_document_valid_partial` hold for the report of `Verif.Generate.NestedExamples`: the
generated type describes it. -/
example : ∃ as kids, Renders reportSetup {} (.elem (nm "report") none as kids) reportDocument ∧
    Valid anyText reportTypes (.value (tid "Report") none as kids) := by
  obtain ⟨v, hd, _⟩ := C71_valid_document_read_partial reportSetup anyText reportTypes_acyclic reportSetup_supported
    reportSetup_filled 2 reportSetup_nested reportSetup_xsiFree (fun _ s _ => ⟨⟨s, rfl⟩, _, rfl⟩) (fun _ _ _ h => h)
    (tid "Report") 4 (by decide +kernel) (nm "report") _ _ report_valid _ reportDocument_renders
  exact C77_described_document_valid_partial reportSetup anyText reportSetup_supported reportTypes_tidy
    (nested_regular reportSetup_nested) reportSetup_xsiFree reportSetup_sound (tid "Report") 4 (by decide +kernel) (nm "report")
    {} reportDocument v hd (renders_inv reportDocument_renders).2.1

/-! ## An order that is written -/

theorem orderTypes_tidy : Tidy orderTypes := tidyCheck_sound _ (by decide +kernel)

theorem orderSetup_sound : orderSetup.SoundTexts anyText := by
  intro i k h s x _
  unfold Setup.tyRef at h
  cases hd : denotes orderTypes i with
  | none => rw [show denotes orderSetup.types i = none from hd] at h; cases h
  | some v =>
    rw [show denotes orderSetup.types i = some v from hd] at h
    obtain ⟨ty, hg, rfl⟩ := get_of_denotes hd
    have := List.mem_of_getElem? (indexOf_get hg)
    simp only [orderTypes, ordersWith, List.mem_cons, Prod.mk.injEq, List.not_mem_nil, or_false] at this
    rcases this with ⟨_, rfl⟩ | ⟨_, rfl⟩ | ⟨_, rfl⟩ | ⟨_, rfl⟩ | ⟨_, rfl⟩
    · exact (Valid.of_res i).1 _ (.builtInText hg rfl trivial)
    · cases h
    · cases h
    · cases h
    · simp only [orderDef, MetaType.new] at h
      split at h <;> cases h

/-- The order table for writing: the root declares the prefix of the names. -/
def orderTable : Schema Str :=
  { orderSetup.compile with
    structs := orderSetup.compile.structs.map fun D =>
      { D with xmlns := some fun _ _ root => if root then [(['p'], "urn:a".toList)] else [] }
    print := fun _ s => some s }

theorem orderTable_written : orderSetup.WrittenBy orderTable := by
  refine ⟨?_, rfl, rfl⟩
  simp only [orderTable, List.map_map]
  rfl

def orderBinds : Str → Str := fun _ => "urn:a".toList

theorem order_agrees (root : Bool) :
    Agrees orderBinds (if root then [(['p'], "urn:a".toList)] else []) := by
  cases root
  · intro b hb; cases hb
  · intro b hb hne
    simp only [if_true, List.mem_singleton] at hb
    subst hb
    exact ⟨rfl, by decide⟩

theorem order_declares {D : StructSpec Str} (hD : D ∈ orderTable.structs) (w : Val Str) (name : Str) (root : Bool) :
    D.declares w name root = if root then [(['p'], "urn:a".toList)] else [] := by
  obtain ⟨D', _, rfl⟩ := List.mem_map.1 hD
  rfl

theorem orderTable_good : orderTable.NestedGood 1 orderBinds [(['p'], "urn:a".toList)] where
  toNested := nestedCheck_sound _ _ (by decide +kernel)
  root := order_agrees true
  decls := by
    intro D hD f hf x root
    unfold tyDeclares
    split
    · rename_i k _
      cases hk : orderTable.structs[k]? with
      | none => intro b hb; cases hb
      | some U =>
        simp only [Option.map_some, Option.getD_some]
        rw [order_declares (List.mem_of_getElem? hk)]
        exact order_agrees root
    · intro b hb; cases hb

theorem order_names : ∀ D ∈ orderTable.structs,
    (∀ a ∈ D.attrs, a.name.pfx = []) ∧ ∀ f ∈ D.body.elements, f.name.pfx = ['p'] ∧ f.name.ns = some "urn:a".toList := by
  decide +kernel

theorem orderTable_attrs (ty : TyRef) (w : Val Str) (name : Str) (root : Bool) :
    AttrsNamed orderTable [(['p'], "urn:a".toList)] ty w name root :=
  fun _ _ _ hD _ ha => Or.inl ((order_names _ (List.mem_of_getElem? hD)).1 _ ha)

theorem orderTable_declared : orderTable.Declared [(['p'], "urn:a".toList)] := by
  intro D hD f hf x root
  obtain ⟨h1, h2⟩ := (order_names D hD).2 f hf
  refine ⟨Or.inr fun ns hns => ?_, orderTable_attrs _ _ _ _⟩
  rw [h2] at hns
  cases hns
  rw [h1]
  simp

/-- An order with a note and another order inside. -/
def innerOrder : Val Str := .struct [some "8".toList] [[.simple "jam".toList], []]
def anOrder : Val Str :=
  .struct [some "7".toList] [[.simple "cake".toList], [.alt 0 [.simple "big".toList], .alt 1 [innerOrder]]]

theorem order_holds (i s : String) (hs : SimpleOk orderTable 0 s.toList) (vs : List (Val Str))
    (h : ∀ v ∈ vs, Holds orderTable (.variant 2) v) :
    Holds orderTable (.struct 4) (.struct [some i.toList] [[.simple s.toList], vs]) := by
  refine .fields (D := { orderSetup.structOf orderDef with xmlns := some fun _ _ root =>
      if root then [(['p'], "urn:a".toList)] else [] })
    (es := [⟨⟨['p'], "name".toList, some "urn:a".toList⟩, 1, .bounded 1, .simple 0⟩,
      ⟨⟨['p'], "parts".toList, some "urn:a".toList⟩, 0, .unbounded, .variant 2⟩]) rfl ⟨by rfl, ?_⟩ (Or.inl (by rfl)) rfl ?_ ?_
  · intro j a v ha hv
    rcases j with _ | j
    · simp only [List.getElem?_cons_zero, Option.some.injEq] at hv
      subst hv
      have hty : a.ty = 0 := (by decide +kernel : ∀ a ∈ (orderSetup.structOf orderDef).attrs, a.ty = 0) a
        (List.mem_of_getElem? ha)
      refine ⟨i.toList, rfl, ?_⟩
      rw [hty]
      rfl
    · simp at hv
  · intro j f hf
    rcases j with _ | _ | j <;> simp at hf <;> subst hf
    · exact ⟨Nat.le_refl _, by intro b hb; cases hb; simp⟩
    · exact ⟨Nat.zero_le _, by intro b hb; cases hb⟩
  · intro j f v hf hv
    rcases j with _ | _ | j <;> simp at hf <;> subst hf <;> simp at hv
    · subst hv; exact .simple hs
    · exact h v hv

theorem order_text (s : String) (h : hasCdataEnd s.toList = false ∧ trimAscii s.toList = s.toList) :
    SimpleOk orderTable 0 s.toList := by
  refine ⟨h.1, ?_⟩
  rw [h.2]
  rfl

theorem anOrder_holds : Holds orderTable (.struct 4) anOrder := by
  refine order_holds "7" "cake" (order_text _ (by decide +kernel)) _ fun v hv => ?_
  simp only [List.mem_cons, List.not_mem_nil, or_false] at hv
  have hD : orderTable.structs[2]? = some { orderSetup.structOf partDef with xmlns := some fun _ _ root =>
      if root then [(['p'], "urn:a".toList)] else [] } := rfl
  have hb : (orderSetup.structOf partDef).body = .choice [⟨⟨['p'], "note".toList, some "urn:a".toList⟩, 1, .bounded 1, .simple 0⟩,
      ⟨⟨['p'], "order".toList, some "urn:a".toList⟩, 1, .bounded 1, .struct 4⟩] 1 (.bounded 1) := by rfl
  rcases hv with rfl | rfl
  · exact .variant (i := 0) hD hb rfl (.simple (order_text "big" (by decide +kernel)))
  · exact .variant (i := 1) hD hb rfl
      (order_holds "8" "jam" (order_text _ (by decide +kernel)) [] fun v hv => by cases hv)

/-- The hypotheses of `C77_written_document_valid_partial` hold for this value: it is written as a valid document. -/
example : ∃ out evs as kids, (ser orderTable 9).Emits (.struct 4 (.init anOrder "p:order".toList true)) {} out {} ∧
    reread out = some evs ∧ Renders orderSetup {} (.elem (nm "order") none as kids) evs ∧
    Valid anyText orderTypes (.value (tid "Order") none as kids) :=
  C77_written_document_valid_partial orderSetup anyText orderSetup_supported orderTypes_tidy orderSetup_xsiFree
    orderSetup_sound orderTable orderTable_written 1 orderBinds _ orderTable_good (tid "Order") 4 (by decide +kernel)
    (nm "order") ⟨by decide +kernel, by decide +kernel⟩ _ rfl anOrder anOrder_holds (orderTable_declared.allNamed _ _)
    (fun b hb => by rw [order_declares (List.mem_of_getElem? (i := 4) rfl)]; exact hb)
    (by rw [order_declares (List.mem_of_getElem? (i := 4) rfl)]; exact order_agrees true)
    (orderTable_attrs _ _ _ _)
    (by
      rw [order_declares (List.mem_of_getElem? (i := 4) rfl)]
      refine Or.inr fun ns hns => ?_
      cases hns
      simp [orderSetup, Setup.elementName])
    9 (by decide +kernel)

/-! ## What the hypothesis about choices is for -/

def noneDef : MetaType := .new (.choice ⟨false, []⟩)
def boxDef : MetaType := .new (.complex ⟨.none, some (tid "None"), 1, .unbounded, false, false, []⟩)

/-- `<xs:choice maxOccurs="unbounded"/>`: it must occur, and has no alternative. -/
def boxTypes : Types := [(tid "None", noneDef), (tid "Box", boxDef)]
def boxSetup : Setup Str := { orderSetup with types := boxTypes }

theorem none_never {j : Judge} (h : Valid anyText boxTypes j) :
    (∀ s, j ≠ .text (tid "None") s) ∧ (∀ ns, j ≠ .group (tid "None") ns) := by
  have hg : Assoc.get boxTypes (tid "None") = some noneDef := by decide +kernel
  refine ⟨fun s hj => ?_, fun ns hj => ?_⟩ <;> subst hj
  · cases h <;> simp_all [noneDef, MetaType.new]
  · cases h <;> simp_all [noneDef, MetaType.new]
    rename_i h _ _ _ _
    subst h
    simp_all

theorem box_never (as : List (PropIdent × Txt)) (kids : List Node) :
    ¬ Valid anyText boxTypes (.value (tid "Box") none as kids) := by
  intro h
  have hg : Assoc.get boxTypes (tid "Box") = some boxDef := by decide +kernel
  have key : ∀ {ty c}, Assoc.get boxTypes (tid "Box") = some ty → ty.variant = .complex c →
      c = ⟨.none, some (tid "None"), 1, .unbounded, false, false, []⟩ := by
    intro ty c h1 h2
    rw [hg] at h1
    cases h1
    cases h2
    rfl
  cases h with
  | refValue h1 h2 => rw [hg] at h1; cases h1; cases h2
  | textValue h => cases h <;> simp_all [boxDef, MetaType.new]
  | customValue h1 h2 => rw [hg] at h1; cases h1; cases h2
  | dynamicValue h1 h2 => rw [hg] at h1; cases h1; cases h2
  | emptyValue h1 h2 h3 => rw [key h1 h2] at h3; cases h3
  | simpleValue h1 h2 h3 _ _ h4 =>
    rw [key h1 h2] at h3
    cases h3
    exact (none_never h4).1 _ rfl
  | complexValue h1 h2 h3 _ _ h4 h5 =>
    rw [key h1 h2] at h3 h4 h5
    cases h3
    cases h5 with
    | noTimes => exact absurd h4.1 (by decide)
    | oneMore h6 _ => exact (none_never h6).2 _ rfl

def boxTag : Tag := ⟨"p:box".toList, [⟨"xmlns:p".toList, "urn:a".toList⟩]⟩

/-- **C77**, finding: for a type whose content is a choice without alternatives that must occur, the generated type reads an
empty element, although nothing is valid for it. All other hypotheses hold. -/
theorem C77_choice_without_alternatives_read :
    boxSetup.Supported ∧ boxSetup.Regular ∧ boxSetup.XsiFree ∧ boxSetup.tyRef (tid "Box") = some (.struct 1) ∧
      (∃ v, Doc boxSetup.compile (.struct 1) {} [.empty boxTag] v ∧ ∀ n, depth v < n → ∀ rest,
        Drv.run (genEnv posTrack) (de boxSetup.compile n (.struct 1)).toDeser { helper := {} } (.empty boxTag :: rest) =
          .done v rest) ∧
      ∀ as kids, ¬ Valid anyText boxTypes (.value (tid "Box") none as kids) := by
  have hnest : boxSetup.compile.Nested 0 := nestedCheck_sound _ _ (by decide +kernel)
  have hdoc : Doc boxSetup.compile (.struct 1) {} [.empty boxTag] (.struct [] []) := by
    refine .fieldsEmpty (D := ⟨[], .seq [], none⟩) (es := []) rfl (Or.inl rfl) ⟨?_, ?_⟩ fun f hf => by cases hf
    · refine ⟨rfl, fun i d h => (by simp [attrTable] at h), fun _ a ha => ?_, fun h => (by cases h)⟩
      revert a
      decide +kernel
    · intro a ha
      exact Or.inl ((by decide +kernel : ∀ a ∈ boxTag.attrs, isXmlnsKey a.key = true) a ha)
  refine ⟨supportedCheck_sound _ (by decide +kernel), nested_regular hnest, ?_, by decide +kernel,
    ⟨_, hdoc, fun n hn rest => ?_⟩, box_never⟩
  · intro D hD a ha
    exact Or.inl ((by decide +kernel : ∀ D ∈ boxSetup.compile.structs, ∀ a ∈ D.attrs, a.name.local_ ∉
      ["schemaLocation".toList, "noNamespaceSchemaLocation".toList, "type".toList, "nil".toList]) D hD a ha)
  · exact C71_described_document_read_partial boxSetup.compile 0 hnest 1 _ _ hdoc n hn rest

end Verif.Generate

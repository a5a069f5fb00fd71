import Verif.Generate.SerdeNames
/-!
# Enumerations and unions generated for `serde` (C94)

* `EnumerationDataVariant::render_variant_serde_*` (xsd-parser/src/pipeline/renderer/steps/serde/quick_xml.rs 219-253,
  serde_xml_rs_v7.rs 219-253, serde_xml_rs_v8.rs 292-318);
* `UnionTypeVariant::render_variant_serde_*` (quick_xml.rs 78-95, serde_xml_rs_v7.rs 78-95, serde_xml_rs_v8.rs 106-123);
* the values of an enumeration (generator/data/enumeration.rs 59-92).

What `serde` makes of the attributes is part of the specification: from "Variant attributes" and "Enum representations" of its manual.
-/
namespace Verif.Generate.Serde

open Verif.Meta

/-! ## Model -/

/-- A variant of a generated enum: the name (`rename`, or the identifier), `#[serde(other)]`, and whether it has a field. -/
structure SVar where
  name : Txt
  other : Bool
  field : Bool
deriving DecidableEq, Repr

/-- `EnumerationMetaVariant::make_variant`, enumeration.rs 66-68, 92: variants that are not prohibited, `s_name` is the name of the
variant. `ident` gives the identifier of a variant. -/
def enumVar (c : Crate) (ident : EnumVariant → Txt) (v : EnumVariant) : Option SVar :=
  if v.use_ = .prohibited then none
  else
    match c with
    | .quickXml | .v7 =>
      if v.type_.isSome then some ⟨ident v, true, true⟩ else some ⟨v.ident.name.str, false, false⟩
    | .v8 => some ⟨v.ident.name.str, false, v.type_.isSome⟩

/-- The variants of an enumeration. -/
def enumVars (c : Crate) (ident : EnumVariant → Txt) (e : Enumeration) : List SVar := e.variants.filterMap (enumVar c ident)

/-- The variants of a union; `idents` are the identifiers. There is no attribute. -/
def unionVars (idents : List Txt) : List SVar := idents.map fun n => ⟨n, false, true⟩

/-! ## Specification: `serde` -/

/-- `#[derive(Deserialize)]` accepts the enum: `other` is only possible for the last variant, and only without a field. -/
def Derivable (vs : List SVar) : Prop :=
  ∀ (i : Nat) (v : SVar), vs[i]? = some v → v.other = true → v.field = false ∧ i + 1 = vs.length

/-- The text `s` (of an attribute or of an element) is read as the variant with number `i`: its name is `s`, or no name is `s` and it is
the variant for everything else. A text has no place for the field of a variant. (If names are equal the first one counts.) -/
def ReadsAs (vs : List SVar) (s : Txt) (i : Nat) : Prop :=
  ∃ v, vs[i]? = some v ∧ v.field = false ∧
    ((v.other = false ∧ v.name = s ∧ ∀ (j : Nat) (w : SVar), j < i → vs[j]? = some w → w.other = true ∨ w.name ≠ s) ∨
     (v.other = true ∧ ∀ (j : Nat) (w : SVar), vs[j]? = some w → w.other = true ∨ w.name ≠ s))

/-- The values of the enumeration in the schema, in order. -/
def values (e : Enumeration) : List Txt := (e.variants.filter fun v => v.use_ ≠ .prohibited).map fun v => v.ident.name.str

/-! ## C94 -/

theorem enumVars_plain (c : Crate) (ident : EnumVariant → Txt) (e : Enumeration) (h : ∀ v ∈ e.variants, v.type_ = none) :
    enumVars c ident e = (values e).map fun s => ⟨s, false, false⟩ := by
  unfold enumVars values
  generalize e.variants = l at h
  induction l with
  | nil => rfl
  | cons v l ih =>
    have ih := ih fun x hx => h x (by simp [hx])
    have ht := h v (by simp)
    by_cases hu : v.use_ = .prohibited
    · simp [enumVar, hu, ih]
    · cases c <;> simp [enumVar, hu, ht, ih]

/-- **C94** (partial). An enumeration without typed variants can be derived, and a text is read as the variant of exactly this value.
Missing: typed variants (`C94_catch_all_not_derivable`, `C94_catch_all_never_read`) and unions (`C94_union_never_read`). -/
theorem C94_enumeration_partial (c : Crate) (ident : EnumVariant → Txt) (e : Enumeration) (h : ∀ v ∈ e.variants, v.type_ = none) :
    Derivable (enumVars c ident e) ∧
    ∀ (s : Txt) (i : Nat), ReadsAs (enumVars c ident e) s i ↔
      (values e)[i]? = some s ∧ ∀ (j : Nat), j < i → (values e)[j]? ≠ some s := by
  rw [enumVars_plain c ident e h]
  constructor
  · intro i v hv ho
    simp only [List.getElem?_map, Option.map_eq_some_iff] at hv
    obtain ⟨s, -, rfl⟩ := hv
    cases ho
  · intro s i
    simp only [ReadsAs, List.getElem?_map, Option.map_eq_some_iff]
    constructor
    · rintro ⟨v, ⟨t, ht, rfl⟩, -, ⟨-, rfl, hj⟩ | ⟨ho, -⟩⟩
      · refine ⟨ht, fun j hji hjs => ?_⟩
        rcases hj j ⟨t, false, false⟩ hji ⟨t, hjs, rfl⟩ with h | h
        · cases h
        · exact h rfl
      · cases ho
    · rintro ⟨hi, hj⟩
      refine ⟨⟨s, false, false⟩, ⟨s, hi, rfl⟩, rfl, .inl ⟨rfl, rfl, ?_⟩⟩
      rintro j w hji ⟨t, ht, rfl⟩
      exact .inr fun hts => hj j hji (by rw [ht]; exact congrArg some hts)

/-- **C94.** What is written for a value (the name of the variant) is the value, and is read as the same variant if all values differ. -/
theorem C94_enumeration_round_trip (c : Crate) (ident : EnumVariant → Txt) (e : Enumeration) (h : ∀ v ∈ e.variants, v.type_ = none)
    (hd : (values e).Nodup) (i : Nat) (v : SVar) (hv : (enumVars c ident e)[i]? = some v) :
    (values e)[i]? = some v.name ∧ ∀ (j : Nat), ReadsAs (enumVars c ident e) v.name j ↔ j = i := by
  have hi : (values e)[i]? = some v.name := by
    rw [enumVars_plain c ident e h, List.getElem?_map, Option.map_eq_some_iff] at hv
    obtain ⟨s, hs, rfl⟩ := hv
    exact hs
  refine ⟨hi, fun j => ?_⟩
  rw [(C94_enumeration_partial c ident e h).2]
  have inj : ∀ (k : Nat), (values e)[k]? = some v.name → k = i := by
    intro k hk
    obtain ⟨hk1, hk2⟩ := List.getElem?_eq_some_iff.mp hk
    obtain ⟨hi1, hi2⟩ := List.getElem?_eq_some_iff.mp hi
    have hp := List.pairwise_iff_getElem.mp hd
    rcases Nat.lt_trichotomy k i with hlt | heq | hgt
    · exact absurd (hk2.trans hi2.symm) (hp k i hk1 hi1 hlt)
    · exact heq
    · exact absurd (hi2.trans hk2.symm) (hp i k hi1 hk1 hgt)
  constructor
  · exact fun hj => inj j hj.1
  · rintro rfl
    exact ⟨hi, fun k hk hks => by have := inj k hks; omega⟩

def exVariant (s : String) (u : Use) (t : Option Ident) : EnumVariant :=
  { ident := { ns := 0, name := .named s.toList }, use_ := u, type_ := t, displayName := none, documentation := [], namespaces := none }

/-- Two values, one in between is prohibited. -/
def exPlain : Enumeration :=
  { base := .none, variants := [exVariant "on" .required none, exVariant "x" .prohibited none, exVariant "off" .required none],
    constrains := .default }

example : (∀ v ∈ exPlain.variants, v.type_ = none) ∧ values exPlain = ["on".toList, "off".toList] ∧ (values exPlain).Nodup := by
  decide +kernel

/-- **C94** (negation). With a typed variant (which `merge_enum_unions` makes, and `OptimizerFlags::SERDE` asks for) the enum for
`quick-xml` or `serde-xml-rs` up to 0.7 cannot be derived: `other` stands at a variant with a field. -/
theorem C94_catch_all_not_derivable (c : Crate) (hc : c ≠ .v8) (ident : EnumVariant → Txt) (e : Enumeration) (v : EnumVariant)
    (hv : v ∈ e.variants) (hu : v.use_ ≠ .prohibited) (ht : v.type_.isSome = true) : ¬ Derivable (enumVars c ident e) := by
  intro hd
  have hm : (⟨ident v, true, true⟩ : SVar) ∈ enumVars c ident e := by
    refine List.mem_filterMap.mpr ⟨v, hv, ?_⟩
    cases c <;> simp_all [enumVar]
  obtain ⟨i, hi⟩ := List.getElem?_of_mem hm
  cases (hd i _ hi rfl).1

/-- **C94** (negation). For `serde-xml-rs` from 0.8 the enum can be derived, but a text that is no value of the enumeration is never
read: nothing marks the typed variant. -/
theorem C94_catch_all_never_read (ident : EnumVariant → Txt) (e : Enumeration) :
    Derivable (enumVars .v8 ident e) ∧
    ∀ (s : Txt) (i : Nat), ReadsAs (enumVars .v8 ident e) s i →
      ∃ v ∈ e.variants, v.use_ ≠ .prohibited ∧ v.type_ = none ∧ v.ident.name.str = s := by
  have hmem : ∀ w ∈ enumVars .v8 ident e, w.other = false ∧
      ∃ v ∈ e.variants, v.use_ ≠ .prohibited ∧ w.name = v.ident.name.str ∧ w.field = v.type_.isSome := by
    intro w hw
    obtain ⟨v, hv, h⟩ := List.mem_filterMap.mp hw
    unfold enumVar at h
    by_cases hu : v.use_ = .prohibited
    · rw [if_pos hu] at h; cases h
    · rw [if_neg hu] at h
      cases h
      exact ⟨rfl, v, hv, hu, rfl, rfl⟩
  constructor
  · intro i w hw ho
    rw [(hmem w (List.mem_of_getElem? hw)).1] at ho
    cases ho
  · rintro s i ⟨w, hw, hf, ⟨-, rfl, -⟩ | ⟨ho, -⟩⟩
    · obtain ⟨-, v, hv, hu, hn, hf'⟩ := hmem w (List.mem_of_getElem? hw)
      refine ⟨v, hv, hu, ?_, hn.symm⟩
      rw [hf] at hf'
      cases ht : v.type_ with
      | none => rfl
      | some t => rw [ht] at hf'; cases hf'
    · rw [(hmem w (List.mem_of_getElem? hw)).1] at ho
      cases ho

/-- A type. -/
def exType : Ident := { ns := 0, schema := 0, name := .named "string".toList, kind := .type_ }

/-- The union of an enumeration and a text type, merged. -/
def exMerged : Enumeration :=
  { base := .none, variants := [exVariant "on" .required none, exVariant "string" .required (some exType)], constrains := .default }

example : exVariant "string" .required (some exType) ∈ exMerged.variants ∧
    ¬ ∃ v ∈ exMerged.variants, v.use_ ≠ .prohibited ∧ v.type_ = none ∧ v.ident.name.str = "other text".toList := by
  decide +kernel

/-- **C94** (negation). No text at all is read as a value of a union: its variants have fields and there is no `untagged`. -/
theorem C94_union_never_read (idents : List Txt) (s : Txt) (i : Nat) : ¬ ReadsAs (unionVars idents) s i := by
  rintro ⟨v, hv, hf, -⟩
  simp only [unionVars, List.getElem?_map, Option.map_eq_some_iff] at hv
  obtain ⟨n, -, rfl⟩ := hv
  cases hf

end Verif.Generate.Serde

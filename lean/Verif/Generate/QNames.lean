import Verif.Runtime.AnySimple

/-!
# Qualified names as constants and defaults (C95)

* `misc::qname_default` (xsd-parser/src/misc/qname.rs 10-56): the constant for a value of `xs:QName` (enumerations with
  `ADVANCED_ENUMS`, defaults of attributes), with the namespaces in scope in the schema (generator/data/enumeration.rs 98-100,
  generator/data/complex.rs 804-806);
* `QName::from_helper` (xsd-parser-types/src/xml/qname.rs 61-71): how a name is read, with the namespaces in scope in the document;
* the comparison with the constants in the generated deserializer (renderer/steps/quick_xml/deserialize.rs 771-784).

Bindings are functions from prefixes to namespaces; the empty prefix stands for the default namespace (`Namespaces` and the resolver of
quick_xml do the same). Blanks around a name are left out (see C86). An undeclared default namespace (`xmlns=""`) is `none`.
-/

namespace Verif.Generate.QNames

open Verif.Rt Verif.Rt.AnySimple

abbrev Bindings := Str → Option Str

/-- `misc::qname_default`, qname.rs 24-29: only a prefix is looked up. -/
def qnameConst (B : Bindings) (s : Str) : QName := ⟨s, if ':' ∈ s then B (prefixOf s) else none⟩

/-- `QName::from_helper`: names without prefix are in the default namespace (`resolve(…, false)`, deserialize.rs 681-687). -/
def qnameRead (D : Bindings) (s : Str) : QName := ⟨s, if ':' ∈ s then D (prefixOf s) else D []⟩

/-- The generated comparisons: the first constant that is equal. -/
def qnameEnum (B : Bindings) (values : List Str) (D : Bindings) (s : Str) : Option Nat :=
  values.findIdx? fun v => (qnameRead D s).eq (qnameConst B v)

/-! ## Specification: names in XML Schema part 2, 3.2.18 -/

/-- The text `s` means the local name `l` in the namespace `ns`. -/
def Means (B : Bindings) (s : Str) (ns : Option Str) (l : Str) : Prop :=
  (∃ p u, s = p ++ ':' :: l ∧ p ≠ [] ∧ ':' ∉ p ∧ ':' ∉ l ∧ B p = some u ∧ ns = some u) ∨
  (s = l ∧ ':' ∉ l ∧ ns = B [])

/-! ## Proofs -/

theorem takeWhile_prefix {p l : Str} (hp : ':' ∉ p) : (p ++ ':' :: l).takeWhile (fun c => c != ':') = p := by
  induction p with
  | nil => rfl
  | cons c p ih =>
    have h1 : c ≠ ':' := by rintro rfl; exact hp (by simp)
    have h2 : ':' ∉ p := fun h => hp (by simp [h])
    simp [h1, ih h2]

theorem dropWhile_prefix {p l : Str} (hp : ':' ∉ p) : (p ++ ':' :: l).dropWhile (fun c => c != ':') = ':' :: l := by
  induction p with
  | nil => rfl
  | cons c p ih =>
    have h1 : c ≠ ':' := by rintro rfl; exact hp (by simp)
    have h2 : ':' ∉ p := fun h => hp (by simp [h])
    simp [h1, ih h2]

theorem prefixOf_eq {p l : Str} (hp : ':' ∉ p) : prefixOf (p ++ ':' :: l) = p := by
  unfold prefixOf
  rw [if_pos (by simp), takeWhile_prefix hp]

theorem localName_eq {p l : Str} (hp : ':' ∉ p) : localName (p ++ ':' :: l) = l := by
  unfold localName
  rw [if_pos (by simp), dropWhile_prefix hp]
  rfl

theorem localName_plain {l : Str} (hl : ':' ∉ l) : localName l = l := by
  unfold localName; rw [if_neg hl]

/-- A name means only one thing. -/
theorem Means.unique {B : Bindings} {s : Str} {ns ns' : Option Str} {l l' : Str} (h : Means B s ns l) (h' : Means B s ns' l') :
    ns = ns' ∧ l = l' := by
  rcases h with ⟨p, u, rfl, -, hp, hl, hu, rfl⟩ | ⟨rfl, hl, rfl⟩
  · rcases h' with ⟨p', u', he, -, hp', hl', hu', rfl⟩ | ⟨he, hl', -⟩
    · have h1 : p = p' := by rw [← prefixOf_eq (l := l) hp, he, prefixOf_eq hp']
      have h2 : l = l' := by rw [← localName_eq (l := l) hp, he, localName_eq hp']
      subst h1
      exact ⟨by rw [← hu, hu'], h2⟩
    · exact absurd (by rw [← he]; simp) hl'
  · rcases h' with ⟨p', u', he, -, hp', hl', hu', rfl⟩ | ⟨rfl, -, rfl⟩
    · exact absurd (by rw [he]; simp) hl
    · exact ⟨rfl, rfl⟩

theorem eq_iff {B D : Bindings} {v s : Str} {u : Str} {ns : Option Str} {l l' : Str} (hv : ':' ∈ v) (hm : Means B v (some u) l')
    (hs : Means D s ns l) : (qnameRead D s).eq (qnameConst B v) = true ↔ ns = some u ∧ l = l' := by
  rcases hm with ⟨p, u', rfl, -, hp, hl', hu', hns⟩ | ⟨rfl, hl', -⟩
  · cases hns
    have hc : qnameConst B (p ++ ':' :: l') = ⟨p ++ ':' :: l', some u⟩ := by
      simp [qnameConst, prefixOf_eq hp, hu']
    rcases hs with ⟨q, w, rfl, -, hq, hl, hw, rfl⟩ | ⟨rfl, hl, rfl⟩
    · have hr : qnameRead D (q ++ ':' :: l) = ⟨q ++ ':' :: l, some w⟩ := by
        simp [qnameRead, prefixOf_eq hq, hw]
      rw [hc, hr, C20_resolved_eq_iff _ _ w u rfl rfl, localName_eq hq, localName_eq hp]
      simp
    · have hr : qnameRead D s = ⟨s, D []⟩ := by simp [qnameRead, hl]
      rw [hc, hr]
      cases hd : D [] with
      | some w =>
        rw [C20_resolved_eq_iff _ _ w u rfl rfl, localName_eq hp, localName_plain hl]
        simp
      | none =>
        have hne : s ≠ p ++ ':' :: l' := fun h => hl (by rw [h]; simp)
        simp [QName.eq, hne]
  · exact absurd hv hl'

/-! ## C95 -/

/-- **C95** (partial). If all values of an enumeration of names have a prefix that is declared in the schema, then a text of a document
is read as the value that means the same namespace and local name, whatever the prefixes are; a text that means none of them is not
read. Missing: values without prefix (`C95_default_namespace_lost`, `C95_other_namespace_accepted`) and texts that mean nothing
(`C95_unbound_prefix_accepted`). -/
theorem C95_enumeration_partial (B D : Bindings) (values : List Str) (hv : ∀ v ∈ values, ':' ∈ v ∧ ∃ u l, Means B v (some u) l)
    (s : Str) (ns : Option Str) (l : Str) (hs : Means D s ns l) (i : Nat) :
    qnameEnum B values D s = some i ↔
      ∃ v, values[i]? = some v ∧ Means B v ns l ∧ ∀ (j : Nat) (w : Str), j < i → values[j]? = some w → ¬ Means B w ns l := by
  have key : ∀ v ∈ values, (qnameRead D s).eq (qnameConst B v) = true ↔ Means B v ns l := by
    intro v hmem
    obtain ⟨hc, u, l', hm⟩ := hv v hmem
    rw [eq_iff hc hm hs]
    constructor
    · rintro ⟨rfl, rfl⟩; exact hm
    · intro h
      obtain ⟨h1, h2⟩ := h.unique hm
      exact ⟨h1, h2⟩
  unfold qnameEnum
  rw [List.findIdx?_eq_some_iff_getElem]
  constructor
  · rintro ⟨hi, h1, h2⟩
    refine ⟨values[i], List.getElem?_eq_getElem hi, (key _ (List.getElem_mem hi)).mp h1, ?_⟩
    intro j w hj hw hmw
    obtain ⟨hj', rfl⟩ := List.getElem?_eq_some_iff.mp hw
    exact h2 j hj ((key _ (List.getElem_mem hj')).mpr hmw)
  · rintro ⟨v, hi, hm, hmin⟩
    obtain ⟨hi', rfl⟩ := List.getElem?_eq_some_iff.mp hi
    refine ⟨hi', (key _ (List.getElem_mem hi')).mpr hm, fun j hj h => ?_⟩
    have hj' : j < values.length := by omega
    exact hmin j _ hj (List.getElem?_eq_getElem hj') ((key _ (List.getElem_mem hj')).mp h)

/-- The bindings of a schema and of a document. -/
def exB : Bindings := fun p => if p = "tns".toList then some "urn:a".toList else if p = [] then some "urn:d".toList else none
def exD : Bindings := fun p => if p = "x".toList then some "urn:a".toList else if p = [] then some "urn:a".toList else none

example : (∀ v ∈ ["tns:foo".toList, "tns:bar".toList], ':' ∈ v ∧ ∃ u l, Means exB v (some u) l) ∧
    Means exD "x:bar".toList (some "urn:a".toList) "bar".toList ∧ Means exD "bar".toList (some "urn:a".toList) "bar".toList ∧
    qnameEnum exB ["tns:foo".toList, "tns:bar".toList] exD "x:bar".toList = some 1 ∧
    qnameEnum exB ["tns:foo".toList, "tns:bar".toList] exD "bar".toList = some 1 := by
  refine ⟨?_, .inl ⟨"x".toList, "urn:a".toList, rfl, by decide, by decide, by decide, rfl, rfl⟩, .inr ⟨rfl, by decide, rfl⟩, by
    decide +kernel, by decide +kernel⟩
  intro v hv
  simp only [List.mem_cons, List.not_mem_nil, or_false] at hv
  rcases hv with rfl | rfl
  · exact ⟨by decide, "urn:a".toList, "foo".toList,
      .inl ⟨"tns".toList, "urn:a".toList, rfl, by decide, by decide, by decide, rfl, rfl⟩⟩
  · exact ⟨by decide, "urn:a".toList, "bar".toList,
      .inl ⟨"tns".toList, "urn:a".toList, rfl, by decide, by decide, by decide, rfl, rfl⟩⟩

/-- **C95** (partial). The default of an attribute that has a declared prefix is the name that it means in the schema. Missing: defaults
without prefix (`C95_default_namespace_lost`). -/
theorem C95_default_partial (B : Bindings) (s : Str) (ns : Option Str) (l : Str) (h : Means B s ns l) (hp : ':' ∈ s) :
    (qnameConst B s).ns = ns ∧ localName (qnameConst B s).raw = l ∧ (qnameConst B s).raw = s := by
  rcases h with ⟨p, u, rfl, -, hq, hl, hu, rfl⟩ | ⟨rfl, hl, -⟩
  · refine ⟨?_, localName_eq hq, rfl⟩
    simp [qnameConst, prefixOf_eq hq, hu]
  · exact absurd hp hl

/-- **C95** (negation). A value without prefix means a name in the default namespace of the schema, but its constant has no namespace. A
document that writes the same name with a prefix is refused. -/
theorem C95_default_namespace_lost (B D : Bindings) (u l q : Str) (hl : ':' ∉ l) (hB : B [] = some u) (hq : ':' ∉ q) (hq0 : q ≠ [])
    (hD : D q = some u) : Means B l (some u) l ∧ (qnameConst B l).ns = none ∧ Means D (q ++ ':' :: l) (some u) l ∧
    qnameEnum B [l] D (q ++ ':' :: l) = none := by
  have hc : qnameConst B l = ⟨l, none⟩ := by simp [qnameConst, hl]
  refine ⟨.inr ⟨rfl, hl, hB.symm⟩, by rw [hc], .inl ⟨q, u, rfl, hq0, hq, hl, hD, rfl⟩, ?_⟩
  have hr : qnameRead D (q ++ ':' :: l) = ⟨q ++ ':' :: l, some u⟩ := by
    simp [qnameRead, prefixOf_eq hq, hD]
  have hne : q ++ ':' :: l ≠ l := fun h => hl (by rw [← h]; simp)
  simp [qnameEnum, hc, hr, QName.eq, hne]

example : exB [] = some "urn:d".toList ∧ ':' ∉ "foo".toList ∧ (fun p => if p = "y".toList then some "urn:d".toList else none : Bindings)
    "y".toList = some "urn:d".toList := by decide +kernel

/-- **C95** (negation). And a name without prefix is accepted in every document, whatever the default namespaces of the schema and of the
document are. -/
theorem C95_other_namespace_accepted (B D : Bindings) (l : Str) (hl : ':' ∉ l) :
    qnameEnum B [l] D l = some 0 ∧ ∀ ns ns', Means B l ns l → Means D l ns' l → ns = B [] ∧ ns' = D [] := by
  have hc : qnameConst B l = ⟨l, none⟩ := by simp [qnameConst, hl]
  have hr : qnameRead D l = ⟨l, D []⟩ := by simp [qnameRead, hl]
  refine ⟨?_, fun ns ns' h h' => ⟨(h.unique (.inr ⟨rfl, hl, rfl⟩)).1, (h'.unique (.inr ⟨rfl, hl, rfl⟩)).1⟩⟩
  cases hd : D [] <;> simp [qnameEnum, hc, hr, hd, QName.eq, List.findIdx?_cons]

example : exB [] ≠ exD [] ∧ ':' ∉ "foo".toList := by decide +kernel

/-- **C95** (negation). A text with an undeclared prefix means nothing, but is accepted if the schema writes the value with the same
prefix. -/
theorem C95_unbound_prefix_accepted (B D : Bindings) (p l : Str) (hp : ':' ∉ p) (hp0 : p ≠ []) (hl : ':' ∉ l) (hD : D p = none) :
    qnameEnum B [p ++ ':' :: l] D (p ++ ':' :: l) = some 0 ∧ ∀ ns l', ¬ Means D (p ++ ':' :: l) ns l' := by
  have hr : qnameRead D (p ++ ':' :: l) = ⟨p ++ ':' :: l, none⟩ := by
    simp [qnameRead, prefixOf_eq hp, hD]
  constructor
  · cases hb : B p <;> simp [qnameEnum, qnameConst, prefixOf_eq hp, hr, hb, QName.eq, List.findIdx?_cons]
  · rintro ns l' (⟨q, u, he, -, hq, -, hu, -⟩ | ⟨he, hl', -⟩)
    · have h1 : p = q := by rw [← prefixOf_eq (l := l) hp, he, prefixOf_eq hq]
      rw [h1, hu] at hD
      cases hD
    · exact hl' (by rw [← he]; simp)

example : exD "tns".toList = none ∧ ':' ∉ "tns".toList := by decide +kernel

end Verif.Generate.QNames

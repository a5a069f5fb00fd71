import Verif.Gen.ChoiceExamples
import Verif.Gen.Tables
import Verif.Runtime.Wrappers

/-!
# Reading and writing dynamic types: names and `xsi:type` (C66)

The generated code of a dynamic type: `DynamicData::render_deserializer_impls`
(xsd-parser/src/pipeline/renderer/steps/quick_xml/deserialize.rs 239-520), `make_type_element_matcher`
(4589-4616) and `DynamicData::render_serializer` (serialize.rs 217-310, `filter_dynamic_types` 1824-1856), with
`get_dynamic_type_from_attrib` (xsd-parser-types/src/quick_xml/deserialize.rs 986-1027) and
`XsiTypeSerializer` (`Verif.Runtime.Wrappers`).
-/

namespace Verif.Gen

open Verif.Rt

section
variable {Ty : Type} [DecidableEq Ty] {H C V S E : Type}

/-! ## Model -/

/-- `IdentType` of the key of a derived type. Other kinds of keys do not occur (`Verif.Interp.Substitution`). -/
inductive MKind where
  | type_
  | element
deriving DecidableEq, Repr

/-- `DerivedType`, models/data/dynamic.rs. `ns` is the namespace constant of the module of the key, if there is one;
`tag` is `tag_name.get_for_default_namespace(…)`; `target` is the Rust type of the values; `concrete` stands for
`DeriveRelationship::ConcreteType`. -/
structure Member (Ty : Type) where
  kind : MKind
  ns : Option Str
  name : Str
  tag : Str
  target : Ty
  concrete : Bool
deriving DecidableEq, Repr

/-- `DynamicData`, models/data/dynamic.rs, with the identifier of the type. -/
structure DynTy (Ty : Type) where
  ns : Option Str
  name : Str
  tag : Str
  members : List (Member Ty)
deriving DecidableEq, Repr

/-- The comparison of a name with a declared one, deserialize.rs:493-520 and 4604-4614. -/
def nameIs (scope : Str → Option Str) (ns : Option Str) (name v : Str) : Bool :=
  match ns with
  | some n => resolveLocalName scope v n == some name
  | none => v == name

/-- The condition of `get_dynamic_type_from_attrib_bytes`, types deserialize.rs:1013-1023. -/
def isTypeAttr (scope : Str → Option Str) (a : Attr) : Bool :=
  match resolveAttr scope a.key with
  | (.unbound, l) => l == "type".toList
  | (.bound n, l) => n == xsiNs && l == "type".toList
  | (.unknown, _) => false

/-- `get_dynamic_type_from_attrib`, types deserialize.rs:986-1027. (Items of the iterator that are errors are passed
over.) -/
def dynTypeFromAttrib (scope : Str → Option Str) (as : List Attr) : Option Str :=
  (as.find? (isTypeAttr scope)).map (·.value)

/-- `get_default_type_name`, deserialize.rs:398-414. -/
def DynTy.defaultType (D : DynTy Ty) : Option Str :=
  (D.members.find? fun m => m.kind == .type_ && m.concrete).map (·.name)

def DynTy.hasTypes (D : DynTy Ty) : Bool := D.members.any fun m => m.kind == .type_

/-- The name of the type to be read: the attribute, or the default, deserialize.rs:289-306. -/
def DynTy.typeName (D : DynTy Ty) (scope : Str → Option Str) (t : Tag) : Option Str :=
  match dynTypeFromAttrib scope t.attrs with
  | some v => some v
  | none => D.defaultType

/-- The block `variants_init_type`, deserialize.rs:279-313: the index of the derived type whose `init` is called. -/
def DynTy.selectType (D : DynTy Ty) (scope : Str → Option Str) (t : Tag) : Option Nat :=
  if D.hasTypes && nameIs scope D.ns D.name t.name then
    match D.typeName scope t with
    | none => none
    | some v => D.members.findIdx? fun m => m.kind == .type_ && nameIs scope m.ns m.name v
  else none

/-- `variants_init_element`, deserialize.rs:275-278. -/
def DynTy.selectElement (D : DynTy Ty) (scope : Str → Option Str) (t : Tag) : Option Nat :=
  D.members.findIdx? fun m => m.kind == .element && nameIs scope m.ns m.name t.name

def DynTy.select (D : DynTy Ty) (scope : Str → Option Str) (t : Tag) : Option Nat :=
  match D.selectType scope t with
  | some i => some i
  | none => D.selectElement scope t

/-- The deserializer of a dynamic type, deserialize.rs:344-395; `des` are the deserializers of the derived types,
`scopeOf` the namespaces in scope. -/
def DynTy.de (D : DynTy Ty) (scopeOf : H → Str → Option Str) (des : Ty → GDe H C V) : GDe H (Nat × C) V where
  init h e :=
    match tagOf e with
    | none => .ok ⟨.none, .none, false⟩
    | some t =>
      match D.select (scopeOf h) t with
      | none => .ok ⟨.none, .brk e, false⟩
      | some i =>
        match D.members[i]? with
        | none => .error .panic
        | some m =>
          match (des m.target).init h e with
          | .error err => .error err
          | .ok out => .ok ⟨out.artifact.map (fun c => (i, c)) id, out.event, out.allowAny⟩
  next s h e :=
    match D.members[s.1]? with
    | none => .error .panic
    | some m =>
      match (des m.target).next s.2 h e with
      | .error err => .error err
      | .ok out => .ok ⟨out.artifact.map (fun c => (s.1, c)) id, out.event, out.allowAny⟩
  finish s h :=
    match D.members[s.1]? with
    | none => .error .panic
    | some m => (des m.target).finish s.2 h

/-- `filter_dynamic_types`, serialize.rs:1824-1856. -/
def DynTy.xsiMembers (D : DynTy Ty) : List (Member Ty) :=
  D.members.filter fun m => m.kind == .type_ && !m.concrete &&
    !(D.members.any fun m' => m'.kind == .element && m'.target == m.target)

/-- How a value is written, serialize.rs:232-247. -/
inductive Written where
  /-- `XsiTypeSerializer` around the serializer of the value -/
  | xsi
  /-- the serializer of the value with the given name -/
  | named (tag : Str)
  /-- the serializer of the value with its own name -/
  | own
deriving DecidableEq, Repr

/-- The chain of tests of the Rust type of the value, serialize.rs:252-310. -/
def DynTy.written (D : DynTy Ty) (ty : Ty) : Written :=
  if D.xsiMembers.any fun m => m.target == ty then .xsi
  else
    match D.members.find? fun m => m.kind == .element && m.target == ty with
    | some m => .named m.tag
    | none => .own

/-- `BoxedSerializer` of a dynamic type. -/
inductive DSt (S : Type) where
  | plain (s : S)
  | xsi (s : XSt S)

def dynZ (z : Zer S E) : Zer (DSt S) E where
  step := fun s h =>
    match s with
    | .plain s =>
      match z.step s h with
      | (.emit ev s, h) => (.emit ev (.plain s), h)
      | (.again s, h) => (.again (.plain s), h)
      | (.fail e, h) => (.fail e, h)
      | (.done, h) => (.done, h)
    | .xsi s =>
      match (xsiZ z).step s h with
      | (.emit ev s, h) => (.emit ev (.xsi s), h)
      | (.again s, h) => (.again (.xsi s), h)
      | (.fail e, h) => (.fail e, h)
      | (.done, h) => (.done, h)

/-- `WithSerializer::serializer` of a dynamic type, serialize.rs:232-247. `inner` is `self.0.serializer(…)`. -/
def DynTy.serializer (D : DynTy Ty) (ty : Ty) (inner : Option Str → Bool → S) (name : Option Str) (isRoot : Bool) :
    DSt S :=
  match D.written ty with
  | .xsi => .xsi ⟨inner none isRoot, name.getD D.tag, isRoot, .init⟩
  | .named n => .plain (inner (some n) isRoot)
  | .own => .plain (inner none isRoot)

/-! ## Specification -/

/-- The qualified name `v` stands for the name `name` in the namespace `ns`, with the namespaces in scope (the
default namespace has the empty prefix). -/
def Denotes (scope : Str → Option Str) (v : Str) (ns : Option Str) (name : Str) : Prop :=
  match splitName v with
  | (none, l) => scope [] = ns ∧ l = name
  | (some p, l) => ns.isSome ∧ scope p = ns ∧ l = name

/-- An attribute `xsi:type`, whatever its prefix is. -/
def IsXsiType (scope : Str → Option Str) (a : Attr) : Prop :=
  ∃ p, splitName a.key = (some p, "type".toList) ∧ scope p = some xsiNs

/-- An attribute that is called `type`, without a prefix. -/
def IsPlainType (a : Attr) : Prop := splitName a.key = (none, "type".toList)

/-- The first event a serializer writes. -/
inductive First (z : Zer S E) : S → SerHelper → Event → SerHelper → Prop
  | emit {s h ev s' h'} : z.step s h = (.emit ev s', h') → First z s h ev h'
  | again {s h s' h' ev h''} : z.step s h = (.again s', h') → First z s' h' ev h'' → First z s h ev h''

/-! ## Lemmas -/

theorem nameIs_of_denotes {scope : Str → Option Str} {v name : Str} {ns : Option Str}
    (h : Denotes scope v ns name) : nameIs scope ns name v = true := by
  unfold Denotes at h
  unfold nameIs resolveLocalName resolveAttr
  cases hs : splitName v with
  | mk p l =>
    rw [hs] at h
    cases p with
    | none =>
      simp only at h
      cases ns with
      | some n => simp [h.2]
      | none =>
        have : v = l := by
          unfold splitName at hs
          split at hs
          · cases hs; rfl
          · cases hs
        simp [this, h.2]
    | some p =>
      simp only at h
      cases ns with
      | none => exact absurd h.1 (by simp)
      | some n => simp [h.2.1, h.2.2]

/-- A name is only accepted if the local part agrees. -/
theorem local_of_nameIs {scope : Str → Option Str} {v name n : Str} (h : nameIs scope (some n) name v = true) :
    (splitName v).2 = name := by
  unfold nameIs resolveLocalName resolveAttr at h
  cases hs : splitName v with
  | mk p l =>
    rw [hs] at h
    cases p with
    | none => simpa using h
    | some p =>
      simp only at h ⊢
      cases hp : scope p with
      | none => rw [hp] at h; simp at h
      | some x =>
        rw [hp] at h
        simp only at h
        by_cases hx : x = n
        · rw [if_pos hx] at h; simpa using h
        · rw [if_neg hx] at h; simp at h

theorem isTypeAttr_iff {scope : Str → Option Str} {a : Attr} :
    isTypeAttr scope a = true ↔ IsXsiType scope a ∨ IsPlainType a := by
  unfold isTypeAttr IsXsiType IsPlainType resolveAttr
  cases hs : splitName a.key with
  | mk p l =>
    cases p with
    | none => simp
    | some p =>
      simp only
      cases hp : scope p with
      | none => simp [hp]
      | some x =>
        simp only [Bool.and_eq_true, beq_iff_eq, Prod.mk.injEq, Option.some.injEq, reduceCtorEq, false_and, or_false]
        constructor
        · rintro ⟨rfl, rfl⟩; exact ⟨p, ⟨rfl, rfl⟩, hp⟩
        · rintro ⟨p', ⟨rfl, rfl⟩, h⟩
          rw [hp] at h
          exact ⟨Option.some.inj h, rfl⟩

theorem findIdx_first {α : Type} {p : α → Bool} {l : List α} {i : Nat} :
    l.findIdx? p = some i ↔ (∃ a, l[i]? = some a ∧ p a = true) ∧ ∀ j a, j < i → l[j]? = some a → p a = false := by
  rw [List.findIdx?_eq_some_iff_getElem]
  constructor
  · rintro ⟨hi, h1, h2⟩
    refine ⟨⟨l[i], by simp, h1⟩, ?_⟩
    intro j a hj ha
    have := h2 j hj
    rw [List.getElem?_eq_getElem (by omega)] at ha
    cases ha
    simpa using this
  · rintro ⟨⟨a, ha, hp⟩, h2⟩
    obtain ⟨hi, rfl⟩ := List.getElem?_eq_some_iff.mp ha
    refine ⟨hi, hp, ?_⟩
    intro j hj
    simpa using h2 j l[j] hj (by simp)

/-! ## Reading -/

/-- The derived type `i` is chosen by its type: the tag has the name of the dynamic type, and `v`, the value of
`xsi:type` or the default, is the name of this type, and of no one before it. -/
def ByType (D : DynTy Ty) (scope : Str → Option Str) (t : Tag) (i : Nat) : Prop :=
  nameIs scope D.ns D.name t.name = true ∧ ∃ v m, D.typeName scope t = some v ∧ D.members[i]? = some m ∧
    m.kind = .type_ ∧ nameIs scope m.ns m.name v = true ∧
    ∀ j m', j < i → D.members[j]? = some m' → m'.kind = .type_ → nameIs scope m'.ns m'.name v = false

/-- The derived type `i` is chosen by the tag. -/
def ByTag (D : DynTy Ty) (scope : Str → Option Str) (t : Tag) (i : Nat) : Prop :=
  ∃ m, D.members[i]? = some m ∧ m.kind = .element ∧ nameIs scope m.ns m.name t.name = true ∧
    ∀ j m', j < i → D.members[j]? = some m' → m'.kind = .element → nameIs scope m'.ns m'.name t.name = false

theorem selectType_iff {D : DynTy Ty} {scope : Str → Option Str} {t : Tag} {i : Nat} :
    D.selectType scope t = some i ↔ ByType D scope t i := by
  unfold DynTy.selectType ByType
  constructor
  · intro h
    split at h
    · rename_i hc
      simp only [Bool.and_eq_true] at hc
      split at h
      · cases h
      · rename_i v hv
        obtain ⟨⟨m, hm, hp⟩, hno⟩ := findIdx_first.mp h
        simp only [Bool.and_eq_true, beq_iff_eq] at hp
        refine ⟨hc.2, v, m, hv, hm, hp.1, hp.2, ?_⟩
        intro j m' hj hm' hk
        have := hno j m' hj hm'
        simpa [hk] using this
    · cases h
  · rintro ⟨hn, v, m, hv, hm, hk, hname, hno⟩
    have ht : D.hasTypes = true := by
      unfold DynTy.hasTypes
      rw [List.any_eq_true]
      exact ⟨m, List.mem_of_getElem? hm, by simp [hk]⟩
    rw [ht, hn, hv]
    simp only [Bool.and_true, if_true]
    refine findIdx_first.mpr ⟨⟨m, hm, by simp [hk, hname]⟩, ?_⟩
    intro j m' hj hm'
    by_cases hk' : m'.kind = .type_
    · simp [hk', hno j m' hj hm' hk']
    · simp [hk']

theorem selectElement_iff {D : DynTy Ty} {scope : Str → Option Str} {t : Tag} {i : Nat} :
    D.selectElement scope t = some i ↔ ByTag D scope t i := by
  unfold DynTy.selectElement ByTag
  rw [findIdx_first]
  constructor
  · rintro ⟨⟨m, hm, hp⟩, hno⟩
    simp only [Bool.and_eq_true, beq_iff_eq] at hp
    refine ⟨m, hm, hp.1, hp.2, ?_⟩
    intro j m' hj hm' hk
    have := hno j m' hj hm'
    simpa [hk] using this
  · rintro ⟨m, hm, hk, hn, hno⟩
    refine ⟨⟨m, hm, by simp [hk, hn]⟩, ?_⟩
    intro j m' hj hm'
    by_cases hk' : m'.kind = .element
    · simp [hk', hno j m' hj hm' hk']
    · simp [hk']

/-- **C66.** Exactly which derived type reads an element: the one chosen by its type, and if there is none the one
chosen by the tag. -/
theorem C66_selected_iff (D : DynTy Ty) (scope : Str → Option Str) (t : Tag) (i : Nat) :
    D.select scope t = some i ↔ ByType D scope t i ∨ ((∀ j, ¬ ByType D scope t j) ∧ ByTag D scope t i) := by
  unfold DynTy.select
  cases h : D.selectType scope t with
  | some j =>
    simp only
    have hj := selectType_iff.mp h
    constructor
    · intro he; cases he; exact Or.inl hj
    · rintro (hi | ⟨hno, _⟩)
      · rw [selectType_iff.mpr hi] at h; rw [h]
      · exact absurd hj (hno j)
  | none =>
    simp only
    rw [selectElement_iff]
    have hno : ∀ j, ¬ ByType D scope t j := by
      intro j hj
      rw [selectType_iff.mpr hj] at h
      cases h
    exact ⟨fun h => Or.inr ⟨hno, h⟩, fun h => h.elim (fun h => absurd h (hno i)) (·.2)⟩

theorem dynamic_running {D : DynTy Ty} {scopeOf : H → Str → Option Str} {des : Ty → GDe H C V} {track : H → Event → H}
    {i : Nat} {m : Member Ty} (hm : D.members[i]? = some m) {st : Option C} {h : H} {evs : List Event} {v : V}
    (fd : Feeds track (des m.target) st h evs v) :
    ∀ c, st = some c → Feeds track (D.de scopeOf des) (some (i, c)) h evs v := by
  induction fd with
  | @last st h e v a hc =>
    intro c hst
    subst hst
    refine .last (a := a) ?_
    have hc : (des m.target).next c (track h e) e = .ok ⟨.data v, .none, a⟩ := hc
    show (D.de scopeOf des).next (i, c) (track h e) e = _
    simp [DynTy.de, hm, hc, Artifact.map]
  | @step st h e es v c' ev a hc hq _ ih =>
    intro c hst
    subst hst
    refine .step (ev := ev) (a := a) (c := (i, c')) ?_ hq (ih c' rfl)
    have hc : (des m.target).next c (track h e) e = .ok ⟨.deser c', ev, a⟩ := hc
    show (D.de scopeOf des).next (i, c) (track h e) e = _
    simp [DynTy.de, hm, hc, Artifact.map]

/-- **C66.** What is chosen reads the element: if the chosen derived type reads the events of the element as `v`, so
does the dynamic type. -/
theorem C66_selected_reads (D : DynTy Ty) (scopeOf : H → Str → Option Str) (des : Ty → GDe H C V)
    (track : H → Event → H) {h : H} {e : Event} {es : List Event} {t : Tag} {i : Nat} {m : Member Ty} {v : V}
    (he : tagOf e = some t) (hs : D.select (scopeOf (track h e)) t = some i) (hm : D.members[i]? = some m)
    (hf : Feeds track (des m.target) none h (e :: es) v) :
    Feeds track (D.de scopeOf des) none h (e :: es) v := by
  cases hf with
  | @last _ _ _ _ a hc =>
    refine .last (a := a) ?_
    have hc : (des m.target).init (track h e) e = .ok ⟨.data v, .none, a⟩ := hc
    show (D.de scopeOf des).init (track h e) e = _
    simp [DynTy.de, he, hs, hm, hc, Artifact.map]
  | @step _ _ _ _ _ c ev a hc hq fd =>
    refine .step (ev := ev) (a := a) (c := (i, c)) ?_ hq (dynamic_running hm fd c rfl)
    have hc : (des m.target).init (track h e) e = .ok ⟨.deser c, ev, a⟩ := hc
    show (D.de scopeOf des).init (track h e) e = _
    simp [DynTy.de, he, hs, hm, hc, Artifact.map]

/-- **C66.** If nothing is chosen, the tag is handed back and nothing is read. -/
theorem C66_not_selected (D : DynTy Ty) (scopeOf : H → Str → Option Str) (des : Ty → GDe H C V) {h : H} {e : Event}
    {t : Tag} (he : tagOf e = some t) (hs : D.select (scopeOf h) t = none) :
    (D.de scopeOf des).init h e = .ok ⟨.none, .brk e, false⟩ := by
  simp [DynTy.de, he, hs]

/-- **C66.** Substitution groups: a tag with the name of a member is read as that member, if all members have
different local names, and there are no derived types that are chosen by `xsi:type`. -/
theorem C66_by_tag_partial {D : DynTy Ty} {scope : Str → Option Str} {t : Tag} {i : Nat} {m : Member Ty}
    (hm : D.members[i]? = some m) (hk : m.kind = .element) (ht : Denotes scope t.name m.ns m.name)
    (hns : ∀ m' ∈ D.members, m'.ns.isSome)
    (hdist : ∀ (j : Nat) m', D.members[j]? = some m' → m'.kind = .element → m'.name = m.name → j = i)
    (hself : D.hasTypes = false ∨ nameIs scope D.ns D.name t.name = false) :
    D.select scope t = some i := by
  have hname := nameIs_of_denotes ht
  refine (C66_selected_iff D scope t i).mpr (Or.inr ⟨?_, m, hm, hk, hname, ?_⟩)
  · rintro j ⟨hn, v, m', _, hm', hk', _⟩
    rcases hself with hs | hs
    · unfold DynTy.hasTypes at hs
      rw [List.any_eq_false] at hs
      exact absurd (by simp [hk']) (hs m' (List.mem_of_getElem? hm'))
    · rw [hs] at hn; cases hn
  · intro j m' hj hm' hk'
    cases hn : nameIs scope m'.ns m'.name t.name with
    | false => rfl
    | true =>
      obtain ⟨n', hn'⟩ := Option.isSome_iff_exists.mp (hns m' (List.mem_of_getElem? hm'))
      obtain ⟨n, hn1⟩ := Option.isSome_iff_exists.mp (hns m (List.mem_of_getElem? hm))
      rw [hn'] at hn
      rw [hn1] at hname
      have h1 := local_of_nameIs hn
      have h2 := local_of_nameIs hname
      have := hdist j m' hm' hk' (h1.symm.trans h2)
      omega

theorem typeName_of_attr {D : DynTy Ty} {scope : Str → Option Str} {t : Tag} {pre post : List Attr} {a : Attr}
    (hattrs : t.attrs = pre ++ a :: post) (ha : IsXsiType scope a) (hpre : ∀ b ∈ pre, ¬ IsXsiType scope b ∧ ¬ IsPlainType b) :
    D.typeName scope t = some a.value := by
  unfold DynTy.typeName dynTypeFromAttrib
  have : t.attrs.find? (isTypeAttr scope) = some a := by
    rw [hattrs, List.find?_append]
    have h1 : pre.find? (isTypeAttr scope) = none := by
      rw [List.find?_eq_none]
      intro b hb hc
      rcases isTypeAttr_iff.mp hc with h | h
      · exact (hpre b hb).1 h
      · exact (hpre b hb).2 h
    rw [h1, Option.none_or, List.find?_cons]
    rw [isTypeAttr_iff.mpr (Or.inl ha)]
  rw [this]
  rfl

/-- **C66.** Derived types: an element with the name of the dynamic type and the name of a derived type in `xsi:type`
is read as that type, if all derived types have different local names and no attribute before is called `type`. -/
theorem C66_by_xsi_type_partial {D : DynTy Ty} {scope : Str → Option Str} {t : Tag} {i : Nat} {m : Member Ty}
    (hm : D.members[i]? = some m) (hk : m.kind = .type_) (ht : Denotes scope t.name D.ns D.name)
    {pre post : List Attr} {a : Attr} (hattrs : t.attrs = pre ++ a :: post) (ha : IsXsiType scope a)
    (hpre : ∀ b ∈ pre, ¬ IsXsiType scope b ∧ ¬ IsPlainType b) (hv : Denotes scope a.value m.ns m.name)
    (hns : ∀ m' ∈ D.members, m'.ns.isSome)
    (hdist : ∀ (j : Nat) m', D.members[j]? = some m' → m'.kind = .type_ → m'.name = m.name → j = i) :
    D.select scope t = some i := by
  have hname := nameIs_of_denotes hv
  refine (C66_selected_iff D scope t i).mpr (Or.inl ⟨nameIs_of_denotes ht, a.value, m,
    typeName_of_attr hattrs ha hpre, hm, hk, hname, ?_⟩)
  intro j m' hj hm' hk'
  cases hn : nameIs scope m'.ns m'.name a.value with
  | false => rfl
  | true =>
    obtain ⟨n', hn'⟩ := Option.isSome_iff_exists.mp (hns m' (List.mem_of_getElem? hm'))
    obtain ⟨n, hn1⟩ := Option.isSome_iff_exists.mp (hns m (List.mem_of_getElem? hm))
    rw [hn'] at hn
    rw [hn1] at hname
    have := hdist j m' hm' hk' ((local_of_nameIs hn).symm.trans (local_of_nameIs hname))
    omega

/-- **C66.** An element with the name of the dynamic type and without any `type` attribute is read as the type
itself, if that is not abstract. -/
theorem C66_default_partial {D : DynTy Ty} {scope : Str → Option Str} {t : Tag} {i : Nat} {m : Member Ty}
    (hm : D.members[i]? = some m) (hk : m.kind = .type_) (hc : m.concrete = true)
    (ht : Denotes scope t.name D.ns D.name) (hno : ∀ a ∈ t.attrs, ¬ IsXsiType scope a ∧ ¬ IsPlainType a)
    (hplain : ':' ∉ m.name) (hns : ∀ m' ∈ D.members, m'.ns.isSome)
    (hone : ∀ (j : Nat) m', D.members[j]? = some m' → m'.kind = .type_ → m'.concrete = true → j = i)
    (hdist : ∀ (j : Nat) m', D.members[j]? = some m' → m'.kind = .type_ → m'.name = m.name → j = i) :
    D.select scope t = some i := by
  have hdef : D.typeName scope t = some m.name := by
    unfold DynTy.typeName dynTypeFromAttrib
    have h1 : t.attrs.find? (isTypeAttr scope) = none := by
      rw [List.find?_eq_none]
      intro b hb hc
      rcases isTypeAttr_iff.mp hc with h | h
      · exact (hno b hb).1 h
      · exact (hno b hb).2 h
    rw [h1]
    simp only [Option.map_none]
    unfold DynTy.defaultType
    cases hf : D.members.find? fun m => m.kind == .type_ && m.concrete with
    | none =>
      have := List.find?_eq_none.mp hf m (List.mem_of_getElem? hm)
      simp [hk, hc] at this
    | some m' =>
      have h2 := List.find?_some hf
      simp only [Bool.and_eq_true, beq_iff_eq] at h2
      obtain ⟨j, hj⟩ := List.getElem?_of_mem (List.mem_of_find?_eq_some hf)
      have := hone j m' hj h2.1 h2.2
      subst this
      rw [hm] at hj
      cases hj
      rfl
  have hname : ∀ n, nameIs scope (some n) m.name m.name = true := by
    intro n
    unfold nameIs resolveLocalName resolveAttr
    rw [Tab.split_plain _ hplain]
    simp
  obtain ⟨n, hn⟩ := Option.isSome_iff_exists.mp (hns m (List.mem_of_getElem? hm))
  refine (C66_selected_iff D scope t i).mpr (Or.inl ⟨nameIs_of_denotes ht, m.name, m, hdef, hm, hk, by rw [hn]; exact hname n, ?_⟩)
  intro j m' hj hm' hk'
  cases hn : nameIs scope m'.ns m'.name m.name with
  | false => rfl
  | true =>
    obtain ⟨n', hn'⟩ := Option.isSome_iff_exists.mp (hns m' (List.mem_of_getElem? hm'))
    rw [hn'] at hn
    have h1 := local_of_nameIs hn
    rw [Tab.split_plain _ hplain] at h1
    have := hdist j m' hm' hk' h1.symm
    omega

/-- **C66** (negation, for every dynamic type without members that are chosen by the tag). An element whose name is
not the name of the dynamic type is not read, whatever its `xsi:type` is: the schema may declare elements of any name
with the dynamic type. -/
theorem C66_other_name_unread (D : DynTy Ty) (scope : Str → Option Str) (t : Tag)
    (hk : ∀ m ∈ D.members, m.kind = .type_) (hn : nameIs scope D.ns D.name t.name = false) :
    D.select scope t = none := by
  cases h : D.select scope t with
  | none => rfl
  | some i =>
    rcases (C66_selected_iff D scope t i).mp h with ⟨h1, _⟩ | ⟨_, m, hm, hke, _⟩
    · rw [hn] at h1; cases h1
    · rw [hk m (List.mem_of_getElem? hm)] at hke; cases hke

/-! ## Writing -/

theorem first_plain {z : Zer S E} {s : S} {h h' : SerHelper} {ev : Event} (hf : First z s h ev h') :
    First (dynZ z) (.plain s) h ev h' := by
  induction hf with
  | @emit s h ev s' h' hs => exact .emit (s' := .plain s') (by simp only [dynZ, hs])
  | @again s h s' h' ev h'' hs _ ih => exact .again (s' := .plain s') (h' := h') (by simp only [dynZ, hs]) ih

theorem first_xsi {z : Zer S E} {s : S} {h h' : SerHelper} {ev : Event} {name : Str} {root : Bool}
    (hf : First z s h ev h') : First (dynZ z) (.xsi ⟨s, name, root, .init⟩) h (xsiEvent name root .init ev h').1
      (xsiEvent name root .init ev h').2.2 := by
  induction hf with
  | @emit s h ev s' h' hs =>
    exact .emit (s' := .xsi ⟨s', name, root, (xsiEvent name root .init ev h').2.1⟩) (by simp only [dynZ, xsiZ, hs])
  | @again s h s' h' ev h'' hs _ ih =>
    exact .again (s' := .xsi ⟨s', name, root, .init⟩) (h' := h') (by simp only [dynZ, xsiZ, hs]) ih

theorem First.unique {z : Zer S E} {s : S} {h h1 h2 : SerHelper} {e1 e2 : Event} (hf : First z s h e1 h1)
    (hg : First z s h e2 h2) : e1 = e2 ∧ h1 = h2 := by
  induction hf with
  | emit hs =>
    cases hg with
    | emit hs' => rw [hs] at hs'; cases hs'; exact ⟨rfl, rfl⟩
    | again hs' _ => rw [hs] at hs'; cases hs'
  | again hs _ ih =>
    cases hg with
    | emit hs' => rw [hs] at hs'; cases hs'
    | again hs' hg => rw [hs] at hs'; cases hs'; exact ih hg

/-- The conditions under which the names that are written can be told apart when they are read. -/
structure Readable (D : DynTy Ty) (own : Ty → Str) (scope : Str → Option Str) : Prop where
  /-- `xsi` is declared -/
  xsi : scope xsiPfx = some xsiNs
  /-- the tag of a member is read as its name, and as the name of no other member -/
  element : ∀ m ∈ D.members, m.kind = .element → nameIs scope m.ns m.name m.tag = true
  elements : ∀ (i j : Nat) m m', D.members[i]? = some m → D.members[j]? = some m' → m.kind = .element → m'.kind = .element →
    nameIs scope m'.ns m'.name m.tag = true → i = j
  /-- the same for the name of a derived type -/
  type_ : ∀ m ∈ D.members, m.kind = .type_ → nameIs scope m.ns m.name (own m.target) = true
  types : ∀ (i j : Nat) m m', D.members[i]? = some m → D.members[j]? = some m' → m.kind = .type_ → m'.kind = .type_ →
    nameIs scope m'.ns m'.name (own m.target) = true → i = j
  /-- the members have different types -/
  targets : ∀ (i j : Nat) m m', D.members[i]? = some m → D.members[j]? = some m' → m.kind = m'.kind →
    m.target = m'.target → i = j
  /-- the type itself is unprefixed -/
  default : ∀ m ∈ D.members, m.kind = .type_ → m.concrete = true → nameIs scope m.ns m.name m.name = true ∧
    nameIs scope D.ns D.name (own m.target) = true
  defaults : ∀ (i j : Nat) m m', D.members[i]? = some m → D.members[j]? = some m' → m.kind = .type_ → m'.kind = .type_ →
    m.concrete = true → (m'.concrete = true ∨ nameIs scope m'.ns m'.name m.name = true) → i = j
  /-- the name of the dynamic type is not the name of a member -/
  apart : D.hasTypes = true → ∀ m ∈ D.members, m.kind = .element → nameIs scope D.ns D.name m.tag = false

theorem rewrite_attrs (name : Str) (root : Bool) (t : Tag) (h : SerHelper) (hn : t.name ≠ name) :
    (xsiRewrite name root t h).1.name = name ∧ ∃ pre, (xsiRewrite name root t h).1.attrs = pre ++ ⟨xsiType, t.name⟩ ::
      (t.attrs.filter fun a => a.key ≠ xsiType && a.key ≠ SerHelper.xmlnsKey xsiPfx) ∧
      (pre = [] ∨ pre = [⟨SerHelper.xmlnsKey xsiPfx, xsiNs⟩]) := by
  unfold xsiRewrite
  rw [if_neg hn]
  refine ⟨rfl, ?_⟩
  cases root with
  | false => exact ⟨[], by simp, Or.inl rfl⟩
  | true =>
    simp only [if_true]
    unfold SerHelper.writeXmlns
    split
    · split
      · exact ⟨[], by simp, Or.inl rfl⟩
      · exact ⟨[⟨SerHelper.xmlnsKey xsiPfx, xsiNs⟩], by simp [SerHelper.addEntry], Or.inr rfl⟩
    · exact ⟨[⟨SerHelper.xmlnsKey xsiPfx, xsiNs⟩], by simp [SerHelper.addEntry], Or.inr rfl⟩

theorem xsiType_isXsiType {scope : Str → Option Str} (hx : scope xsiPfx = some xsiNs) (v : Str) :
    IsXsiType scope ⟨xsiType, v⟩ :=
  ⟨xsiPfx, by show splitName xsiType = _; decide, hx⟩

theorem xmlns_not_type (scope : Str → Option Str) (v : Str) :
    ¬ IsXsiType scope ⟨SerHelper.xmlnsKey xsiPfx, v⟩ ∧ ¬ IsPlainType ⟨SerHelper.xmlnsKey xsiPfx, v⟩ := by
  have : splitName (SerHelper.xmlnsKey xsiPfx) = (some xmlnsStr, xsiPfx) := by decide
  constructor
  · rintro ⟨p, h, _⟩
    simp only [this] at h
    exact absurd (congrArg Prod.snd h) (by show ¬ xsiPfx = "type".toList; decide)
  · intro h
    unfold IsPlainType at h
    simp only [this] at h
    cases h

/-- **C66.** Whatever is written is read as the same derived type. `inner` is the serializer of a value of the Rust
type `ty`, the type of one of the members; with a name it writes a tag of that name, without one the tag `own ty`.
The field may prescribe a name (`name`). Then the first tag that is written is read as a derived type with the same
Rust type. What is needed besides `Readable`: the prescribed name is read as the name of the dynamic type, but is not
the tag of the type of the value (cf. the findings below), and no attribute of the value is called `type`. -/
theorem C66_round_trip_partial {D : DynTy Ty} {own : Ty → Str} {scope : Str → Option Str} (hR : Readable D own scope)
    {z : Zer S E} {ty : Ty} {inner : Option Str → Bool → S} {name : Option Str} {root : Bool} {h : SerHelper}
    {attrs : List Attr} (hattrs : ∀ a ∈ attrs, ¬ IsXsiType scope a ∧ ¬ IsPlainType a)
    (hz : ∀ n, ∃ ev h', First z (inner n root) h ev h' ∧ tagOf ev = some ⟨n.getD (own ty), attrs⟩)
    (hty : ∃ m ∈ D.members, m.target = ty)
    (hname : D.hasTypes = true → nameIs scope D.ns D.name (name.getD D.tag) = true)
    (hown : ∀ m ∈ D.members, m.target = ty → m.kind = .type_ → m.concrete = false → own ty ≠ name.getD D.tag) :
    ∃ ev h' t i m, First (dynZ z) (D.serializer ty inner name root) h ev h' ∧ tagOf ev = some t ∧
      D.select scope t = some i ∧ D.members[i]? = some m ∧ m.target = ty := by
  unfold DynTy.serializer
  cases hw : D.written ty with
  | xsi =>
    simp only
    unfold DynTy.written at hw
    split at hw
    · rename_i hany
      obtain ⟨m, hmem, hmt⟩ := List.any_eq_true.mp hany
      unfold DynTy.xsiMembers at hmem
      rw [List.mem_filter] at hmem
      obtain ⟨hmem, hp⟩ := hmem
      simp only [Bool.and_eq_true, beq_iff_eq] at hp hmt
      have hk := hp.1.1
      obtain ⟨i, hi⟩ := List.getElem?_of_mem hmem
      obtain ⟨ev, h', hf, htag⟩ := hz none
      simp only [Option.getD_none] at htag
      refine ⟨_, _, (xsiRewrite (name.getD D.tag) root ⟨own ty, attrs⟩ h'.beginScope).1, i, m, first_xsi hf, ?_, ?_, hi, hmt⟩
      · cases ev with
        | start t => simp only [tagOf, Option.some.injEq] at htag; rw [htag]; rfl
        | empty t => simp only [tagOf, Option.some.injEq] at htag; rw [htag]; rfl
        | _ => simp [tagOf] at htag
      · obtain ⟨h1, pre, h2, h3⟩ := rewrite_attrs (name.getD D.tag) root ⟨own ty, attrs⟩ h'.beginScope
          (hown m hmem hmt hk (by simpa using hp.1.2))
        have htypes : D.hasTypes = true := by
          unfold DynTy.hasTypes
          rw [List.any_eq_true]
          exact ⟨m, hmem, by simp [hk]⟩
        have htn : D.typeName scope _ = some (own ty) := typeName_of_attr h2 (xsiType_isXsiType hR.xsi (own ty)) (by
          intro b hb
          rcases h3 with rfl | rfl
          · cases hb
          · simp only [List.mem_singleton] at hb
            subst hb
            exact xmlns_not_type scope xsiNs)
        refine (C66_selected_iff _ _ _ _).mpr (Or.inl ⟨by rw [h1]; exact hname htypes, own ty, m, htn, hi, hk, ?_, ?_⟩)
        · rw [← hmt]; exact hR.type_ m hmem hk
        · intro j m' hj hm' hk'
          cases hn : nameIs scope m'.ns m'.name (own ty) with
          | false => rfl
          | true =>
            have := hR.types i j m m' hi hm' hk hk' (by rw [hmt]; exact hn)
            omega
    · split at hw <;> cases hw
  | named n =>
    simp only
    unfold DynTy.written at hw
    split at hw
    · cases hw
    · split at hw
      · rename_i m hfind
        cases hw
        have hp := List.find?_some hfind
        have hmem := List.mem_of_find?_eq_some hfind
        simp only [Bool.and_eq_true, beq_iff_eq] at hp
        obtain ⟨i, hi⟩ := List.getElem?_of_mem hmem
        obtain ⟨ev, h', hf, htag⟩ := hz (some m.tag)
        simp only [Option.getD_some] at htag
        refine ⟨ev, h', _, i, m, first_plain hf, htag, ?_, hi, hp.2⟩
        refine (C66_selected_iff _ _ _ _).mpr (Or.inr ⟨?_, m, hi, hp.1, hR.element m hmem hp.1, ?_⟩)
        · rintro j ⟨h1, v, m', _, hm', hk', _⟩
          have htypes : D.hasTypes = true := by
            unfold DynTy.hasTypes
            rw [List.any_eq_true]
            exact ⟨m', List.mem_of_getElem? hm', by simp [hk']⟩
          have := hR.apart htypes m hmem hp.1
          rw [this] at h1
          cases h1
        · intro j m' hj hm' hk'
          cases hn : nameIs scope m'.ns m'.name m.tag with
          | false => rfl
          | true =>
            have := hR.elements i j m m' hi hm' hp.1 hk' hn
            omega
      · cases hw
  | own =>
    simp only
    obtain ⟨ev, h', hf, htag⟩ := hz none
    simp only [Option.getD_none] at htag
    unfold DynTy.written at hw
    split at hw
    · cases hw
    · rename_i hany
      split at hw
      · cases hw
      · rename_i hfind
        obtain ⟨m, hmem, hmt⟩ := hty
        have hnotel : ∀ m' ∈ D.members, m'.kind = .element → m'.target ≠ ty := by
          intro m' hm' hk' ht'
          have := List.find?_eq_none.mp hfind m' hm'
          simp [hk', ht'] at this
        have hk : m.kind = .type_ := by
          cases hk : m.kind with
          | type_ => rfl
          | element => exact absurd hmt (hnotel m hmem hk)
        have hc : m.concrete = true := by
          cases hc : m.concrete with
          | true => rfl
          | false =>
            exfalso
            apply hany
            rw [List.any_eq_true]
            refine ⟨m, ?_, by simp [hmt]⟩
            unfold DynTy.xsiMembers
            rw [List.mem_filter]
            refine ⟨hmem, ?_⟩
            simp only [hk, hc, Bool.not_false, Bool.and_true, beq_self_eq_true, Bool.true_and, Bool.not_eq_true',
              List.any_eq_false, Bool.and_eq_true, beq_iff_eq, not_and]
            intro m' hm' hk' ht'
            exact hnotel m' hm' hk' (ht'.trans hmt)
        obtain ⟨i, hi⟩ := List.getElem?_of_mem hmem
        obtain ⟨hd1, hd2⟩ := hR.default m hmem hk hc
        refine ⟨ev, h', _, i, m, first_plain hf, htag, ?_, hi, hmt⟩
        have hdef : D.typeName scope ⟨own ty, attrs⟩ = some m.name := by
          unfold DynTy.typeName dynTypeFromAttrib
          have h1 : attrs.find? (isTypeAttr scope) = none := by
            rw [List.find?_eq_none]
            intro b hb hcc
            rcases isTypeAttr_iff.mp hcc with hx | hx
            · exact (hattrs b hb).1 hx
            · exact (hattrs b hb).2 hx
          simp only [h1, Option.map_none]
          unfold DynTy.defaultType
          cases hf : D.members.find? fun m => m.kind == .type_ && m.concrete with
          | none =>
            have := List.find?_eq_none.mp hf m hmem
            simp [hk, hc] at this
          | some m' =>
            have h2 := List.find?_some hf
            simp only [Bool.and_eq_true, beq_iff_eq] at h2
            obtain ⟨j, hj⟩ := List.getElem?_of_mem (List.mem_of_find?_eq_some hf)
            have := hR.defaults i j m m' hi hj hk h2.1 hc (Or.inl h2.2)
            subst this
            rw [hi] at hj
            cases hj
            rfl
        refine (C66_selected_iff _ _ _ _).mpr (Or.inl ⟨by rw [← hmt]; exact hd2, m.name, m, hdef, hi, hk, hd1, ?_⟩)
        intro j m' hj hm' hk'
        cases hn : nameIs scope m'.ns m'.name m.name with
        | false => rfl
        | true =>
          have := hR.defaults i j m m' hi hm' hk hk' hc (Or.inr hn)
          omega

/-! ## The attributes of a derived type -/

theorem readAttrs_cons_skip {Er Vl : Type} {scope : Str → Option Str} {T : AttrTable Er Vl} {st : Slots Vl} {a : Attr}
    {rest : List (Except Er Attr)} (h : isXmlnsKey a.key = true ∨ readAttr scope T st a = .ok st) :
    readAttrs scope T st (.ok a :: rest) = readAttrs scope T st rest := by
  rw [readAttrs]
  by_cases hx : isXmlnsKey a.key = true
  · rw [if_pos hx]
  · rw [if_neg hx]
    rcases h with h | h
    · exact absurd h hx
    · rw [h]

theorem readAttrs_filter {Er Vl : Type} {scope : Str → Option Str} {T : AttrTable Er Vl} {as : List Attr}
    {p : Attr → Bool} (hp : ∀ a ∈ as, p a = false → ∀ st, isXmlnsKey a.key = true ∨ readAttr scope T st a = .ok st) :
    ∀ st : Slots Vl, readAttrs scope T st ((as.filter p).map .ok) = readAttrs scope T st (as.map .ok) := by
  induction as with
  | nil => intro st; rfl
  | cons a as ih =>
    intro st
    have ih' := ih (fun b hb => hp b (List.mem_cons_of_mem _ hb))
    cases hpa : p a with
    | false =>
      rw [List.filter_cons, hpa]
      simp only [Bool.false_eq_true, if_false, List.map_cons]
      rw [readAttrs_cons_skip (hp a List.mem_cons_self hpa st), ih' st]
    | true =>
      rw [List.filter_cons, hpa]
      simp only [if_true, List.map_cons]
      rw [readAttrs, readAttrs]
      split
      · exact ih' st
      · split
        · rfl
        · exact ih' _

/-- **C66.** The attributes of the value are not changed by the `xsi:type` that is written with them: the type reads
the same attributes from the tag that is written as from its own tag, if it declares no attribute that accepts
`xsi:type` and does not store unknown attributes. -/
theorem C66_attributes_kept_partial {Er Vl : Type} (scope : Str → Option Str) (T : AttrTable Er Vl)
    (hx : scope xsiPfx = some xsiNs) (hany : T.any ≠ .store)
    (hdecl : ∀ d ∈ T.decls, ∀ v, d.accepts scope ⟨xsiType, v⟩ = false) (name : Str) (root : Bool) (t : Tag) (h : SerHelper) :
    fromBytesStart scope T ((xsiRewrite name root t h).1.attrs.map .ok) = fromBytesStart scope T (t.attrs.map .ok) := by
  by_cases hn : t.name = name
  · unfold xsiRewrite
    rw [if_pos hn]
  · obtain ⟨_, pre, h2, h3⟩ := rewrite_attrs name root t h hn
    have hskip : ∀ v (st : Slots Vl), readAttr scope T st ⟨xsiType, v⟩ = .ok st := by
      intro v st
      unfold readAttr
      have hfind : findDecl scope ⟨xsiType, v⟩ T.decls 0 = none := by
        generalize (0 : Nat) = k
        generalize hd : T.decls = ds at hdecl
        clear hd
        induction ds generalizing k with
        | nil => rfl
        | cons d ds ih =>
          rw [findDecl, hdecl d List.mem_cons_self v]
          simp only [Bool.false_eq_true, if_false]
          exact ih _ (fun d' hd' => hdecl d' (List.mem_cons_of_mem _ hd'))
      rw [hfind]
      simp only
      have hga : globallyAllowed scope ⟨xsiType, v⟩ = true := by
        unfold globallyAllowed resolveAttr
        have : splitName xsiType = (some xsiPfx, "type".toList) := by decide
        simp only [this, hx]
        decide
      cases hT : T.any with
      | checked => simp [hga]
      | store => exact absurd hT hany
      | ignore => rfl
    have hloop : ∀ st : Slots Vl, readAttrs scope T st ((xsiRewrite name root t h).1.attrs.map .ok)
        = readAttrs scope T st (t.attrs.map .ok) := by
      intro st
      rw [h2]
      have hfil := readAttrs_filter (scope := scope) (T := T) (as := t.attrs)
        (p := fun a => a.key ≠ xsiType && a.key ≠ SerHelper.xmlnsKey xsiPfx) (by
          intro a ha hpa st
          by_cases hk : a.key = xsiType
          · right
            have := hskip a.value st
            rw [← hk] at this
            exact this
          · left
            have hk2 : a.key = SerHelper.xmlnsKey xsiPfx := by
              simpa [hk] using hpa
            rw [hk2]
            decide) st
      have hmid : readAttrs scope T st ((⟨xsiType, t.name⟩ :: t.attrs.filter fun a =>
          a.key ≠ xsiType && a.key ≠ SerHelper.xmlnsKey xsiPfx).map .ok) = readAttrs scope T st (t.attrs.map .ok) := by
        rw [List.map_cons, readAttrs_cons_skip (Or.inr (hskip t.name st)), hfil]
      rcases h3 with rfl | rfl
      · exact hmid
      · rw [List.singleton_append, List.map_cons, readAttrs_cons_skip (Or.inl (by decide))]
        exact hmid
    unfold fromBytesStart
    simp only [hloop]

end

/-! ## Examples

The schema of tests/feature/dynamic_type: the type `animal` with the derived types `dog` and `labrador`; and of
tests/feature/dynamic_type_substitution_group: the element `animal` with the members `cat` and `dog`. -/

namespace DispatchEx

def ns : Str := "http://example.com".toList

def scope (p : Str) : Option Str :=
  if p = "tns".toList then some ns else if p = xsiPfx then some xsiNs else none

def own (n : Nat) : Str :=
  match n with
  | 0 => "tns:animal".toList
  | 1 => "tns:dog".toList
  | _ => "tns:labrador".toList

def animal : DynTy Nat := ⟨some ns, "animal".toList, "tns:animal".toList,
  [⟨.type_, some ns, "animal".toList, "tns:animal".toList, 0, true⟩,
   ⟨.type_, some ns, "dog".toList, "tns:dog".toList, 1, false⟩,
   ⟨.type_, some ns, "labrador".toList, "tns:labrador".toList, 2, false⟩]⟩

def group : DynTy Nat := ⟨some ns, "animal".toList, "tns:animal".toList,
  [⟨.element, some ns, "cat".toList, "tns:cat".toList, 1, false⟩,
   ⟨.element, some ns, "dog".toList, "tns:dog".toList, 2, false⟩]⟩

/-- A serializer that writes one empty tag. -/
def tagZ : Zer (Option Tag) Unit where
  step := fun s h =>
    match s with
    | some t => (.emit (.empty t) none, h)
    | none => (.done, h)

def inner (own : Str) (attrs : List Attr) (n : Option Str) (_ : Bool) : Option Tag := some ⟨n.getD own, attrs⟩

/-- A deserializer that reads one empty tag of the given type. -/
def tagDe (ty : Nat) : GDe Unit Unit Nat where
  init _ _ := .ok ⟨.data ty, .none, false⟩
  next _ _ _ := .error .panic
  finish _ _ := .error .panic

def idAttr : Attr := ⟨"id".toList, "1".toList⟩

def dogTag : Tag := ⟨"tns:animal".toList, [idAttr, ⟨xsiType, "tns:dog".toList⟩]⟩

/-- `xsi:type` chooses the derived type, and the derived type reads the element. -/
example : animal.select scope dogTag = some 1 :=
  C66_by_xsi_type_partial (m := ⟨.type_, some ns, "dog".toList, "tns:dog".toList, 1, false⟩) rfl rfl ⟨rfl, by decide, rfl⟩
    (pre := [idAttr]) (post := []) rfl ⟨xsiPfx, by decide, by decide⟩
    (by
      intro b hb
      simp only [List.mem_singleton] at hb
      subst hb
      refine ⟨?_, by unfold IsPlainType; decide⟩
      rintro ⟨p, h, _⟩
      exact absurd h (by simp [idAttr, splitName]))
    ⟨rfl, by decide, rfl⟩ (by decide)
    (by
      intro j m' hm' _ hn
      match j with
      | 0 => simp [animal] at hm'; subst hm'; exact absurd hn (by decide)
      | 1 => rfl
      | 2 => simp [animal] at hm'; subst hm'; exact absurd hn (by decide)
      | n + 3 => simp [animal] at hm')

example : Feeds (fun _ _ => ()) (animal.de (fun _ => scope) tagDe) none () [.empty dogTag] 1 :=
  C66_selected_reads animal (fun _ => scope) tagDe (fun _ _ => ()) (t := dogTag) (i := 1)
    (m := ⟨.type_, some ns, "dog".toList, "tns:dog".toList, 1, false⟩) rfl (by decide) rfl (.last (a := false) rfl)

/-- Without `xsi:type` the element is read as the type itself. -/
example : animal.select scope ⟨"tns:animal".toList, [idAttr]⟩ = some 0 :=
  C66_default_partial (m := ⟨.type_, some ns, "animal".toList, "tns:animal".toList, 0, true⟩) rfl rfl rfl ⟨rfl, by decide, rfl⟩
    (by
      intro b hb
      simp only [List.mem_singleton] at hb
      subst hb
      refine ⟨?_, by unfold IsPlainType; decide⟩
      rintro ⟨p, h, _⟩
      exact absurd h (by simp [idAttr, splitName]))
    (by decide) (by decide)
    (by
      intro j m' hm' _ hn
      match j with
      | 0 => rfl
      | 1 => simp [animal] at hm'; subst hm'; exact absurd hn (by decide)
      | 2 => simp [animal] at hm'; subst hm'; exact absurd hn (by decide)
      | n + 3 => simp [animal] at hm')
    (by
      intro j m' hm' _ hn
      match j with
      | 0 => rfl
      | 1 => simp [animal] at hm'; subst hm'; exact absurd hn (by decide)
      | 2 => simp [animal] at hm'; subst hm'; exact absurd hn (by decide)
      | n + 3 => simp [animal] at hm')

/-- The tag chooses the member of a substitution group. -/
example : group.select scope ⟨"tns:dog".toList, [idAttr]⟩ = some 1 :=
  C66_by_tag_partial (m := ⟨.element, some ns, "dog".toList, "tns:dog".toList, 2, false⟩) rfl rfl ⟨rfl, by decide, rfl⟩ (by decide)
    (by
      intro j m' hm' _ hn
      match j with
      | 0 => simp [group] at hm'; subst hm'; exact absurd hn (by decide)
      | 1 => rfl
      | n + 2 => simp [group] at hm')
    (Or.inl rfl)

theorem animal_index {i : Nat} {m : Member Nat} (h : animal.members[i]? = some m) :
    (i = 0 ∧ m = ⟨.type_, some ns, "animal".toList, "tns:animal".toList, 0, true⟩) ∨
    (i = 1 ∧ m = ⟨.type_, some ns, "dog".toList, "tns:dog".toList, 1, false⟩) ∨
    (i = 2 ∧ m = ⟨.type_, some ns, "labrador".toList, "tns:labrador".toList, 2, false⟩) := by
  match i with
  | 0 => simp [animal] at h; exact Or.inl ⟨rfl, h.symm⟩
  | 1 => simp [animal] at h; exact Or.inr (Or.inl ⟨rfl, h.symm⟩)
  | 2 => simp [animal] at h; exact Or.inr (Or.inr ⟨rfl, h.symm⟩)
  | n + 3 => simp [animal] at h

theorem readable : Readable animal own scope where
  xsi := by decide
  element := by decide
  elements := by
    intro i j m m' hm _ hk
    rcases animal_index hm with ⟨_, rfl⟩ | ⟨_, rfl⟩ | ⟨_, rfl⟩ <;> cases hk
  type_ := by decide
  types := by
    intro i j m m' hm hm' _ _ hn
    rcases animal_index hm with ⟨rfl, rfl⟩ | ⟨rfl, rfl⟩ | ⟨rfl, rfl⟩ <;>
      rcases animal_index hm' with ⟨rfl, rfl⟩ | ⟨rfl, rfl⟩ | ⟨rfl, rfl⟩ <;>
      first | rfl | exact absurd hn (by decide)
  targets := by
    intro i j m m' hm hm' _ hn
    rcases animal_index hm with ⟨rfl, rfl⟩ | ⟨rfl, rfl⟩ | ⟨rfl, rfl⟩ <;>
      rcases animal_index hm' with ⟨rfl, rfl⟩ | ⟨rfl, rfl⟩ | ⟨rfl, rfl⟩ <;>
      first | rfl | exact absurd hn (by decide)
  default := by decide
  defaults := by
    intro i j m m' hm hm' _ _ hc hn
    rcases animal_index hm with ⟨rfl, rfl⟩ | ⟨rfl, rfl⟩ | ⟨rfl, rfl⟩ <;>
      rcases animal_index hm' with ⟨rfl, rfl⟩ | ⟨rfl, rfl⟩ | ⟨rfl, rfl⟩ <;>
      first | rfl | exact absurd hn (by decide) | exact absurd hc (by decide)
  apart := by decide

/-- A labrador is written and read as a labrador; the type itself as well. -/
example (ty : Nat) (hty : ty < 3) : ∃ ev h' t i m,
    First (dynZ tagZ) (animal.serializer ty (inner (own ty) [idAttr]) none true) {} ev h' ∧ tagOf ev = some t ∧
      animal.select scope t = some i ∧ animal.members[i]? = some m ∧ m.target = ty :=
  C66_round_trip_partial readable (attrs := [idAttr])
    (by
      intro b hb
      simp only [List.mem_singleton] at hb
      subst hb
      refine ⟨?_, by unfold IsPlainType; decide⟩
      rintro ⟨p, h, _⟩
      exact absurd h (by simp [idAttr, splitName]))
    (fun n => ⟨_, _, .emit rfl, rfl⟩)
    (by
      match ty, hty with
      | 0, _ => decide
      | 1, _ => decide
      | 2, _ => decide)
    (by decide)
    (by
      match ty, hty with
      | 0, _ => decide
      | 1, _ => decide
      | 2, _ => decide)

/-- The tag of a labrador as it is written. -/
example : ∃ h', First (dynZ tagZ) (animal.serializer 2 (inner (own 2) [idAttr]) none false) {}
    (.empty ⟨"tns:animal".toList, [⟨xsiType, "tns:labrador".toList⟩, idAttr]⟩) h' := ⟨_, .emit rfl⟩

/-- **C66** (negation). A schema may declare an element `pet` of the type `animal`. The field for it writes a dog as
`<tns:pet xsi:type="tns:dog">`, but this element is not read. -/
theorem C66_element_name_lost : ∃ ev h' t,
    First (dynZ tagZ) (animal.serializer 1 (inner (own 1) [idAttr]) (some "tns:pet".toList) false) {} ev h' ∧
      tagOf ev = some t ∧ t.name = "tns:pet".toList ∧ (∃ a ∈ t.attrs, IsXsiType scope a ∧ a.value = "tns:dog".toList) ∧
      animal.select scope t = none :=
  ⟨_, _, _, .emit rfl, rfl, rfl, ⟨⟨xsiType, "tns:dog".toList⟩, List.mem_cons_self, ⟨xsiPfx, by decide, by decide⟩, rfl⟩,
    C66_other_name_unread _ _ _ (by decide) (by decide)⟩

/-- **C66** (negation). The name of the field is ignored for values of the type itself: they are written as `animal`. -/
theorem C66_concrete_name_ignored : ∃ ev h' t,
    First (dynZ tagZ) (animal.serializer 0 (inner (own 0) [idAttr]) (some "tns:pet".toList) false) {} ev h' ∧
      tagOf ev = some t ∧ t.name = "tns:animal".toList :=
  ⟨_, _, _, .emit rfl, rfl, rfl⟩

/-- **C66** (negation). An attribute `type` without a prefix, which is not `xsi:type`, is taken for it: the element is
not read, although without the attribute it is. -/
theorem C66_plain_type_attribute :
    ¬ IsXsiType scope ⟨"type".toList, "wild".toList⟩ ∧
    animal.select scope ⟨"tns:animal".toList, [⟨"type".toList, "wild".toList⟩]⟩ = none ∧
    animal.select scope ⟨"tns:animal".toList, []⟩ = some 0 := by
  refine ⟨?_, by decide, by decide⟩
  rintro ⟨p, h, _⟩
  exact absurd h (by simp [splitName])

/-- A type that is derived from a type with the same local name in another namespace; the generated code has no
prefixes for them. -/
def twoNs : DynTy Nat := ⟨some ns, "animal".toList, "animal".toList,
  [⟨.type_, some ns, "animal".toList, "animal".toList, 0, true⟩,
   ⟨.type_, some "urn:other".toList, "animal".toList, "animal".toList, 1, false⟩]⟩

/-- **C66** (negation). If the tag of the value is already the prescribed name, `xsi:type` is left out: the value of the
derived type is read as the type itself. -/
theorem C66_same_name_no_xsi_type : ∃ ev h' t,
    First (dynZ tagZ) (twoNs.serializer 1 (inner "animal".toList [idAttr]) none false) {} ev h' ∧ tagOf ev = some t ∧
      dynTypeFromAttrib scope t.attrs = none ∧ twoNs.select scope t = some 0 ∧
      (twoNs.members[0]?).map (·.target) = some 0 :=
  ⟨_, _, _, .emit rfl, rfl, by decide, by decide, rfl⟩

/-- Two members of a substitution group that have the same type. -/
def sameType : DynTy Nat := ⟨some ns, "animal".toList, "tns:animal".toList,
  [⟨.element, some ns, "cat".toList, "tns:cat".toList, 0, false⟩,
   ⟨.element, some ns, "dog".toList, "tns:dog".toList, 0, false⟩]⟩

/-- **C66** (negation). Two members of a substitution group with the same type: a document with the second one is
written with the tag of the first one. -/
theorem C66_same_type_wrong_tag : sameType.select scope ⟨"tns:dog".toList, [idAttr]⟩ = some 1 ∧
    (sameType.members[1]?).map (·.target) = some 0 ∧ ∃ ev h',
      First (dynZ tagZ) (sameType.serializer 0 (inner "tns:animal".toList [idAttr]) none false) {} ev h' ∧
      tagOf ev = some ⟨"tns:cat".toList, [idAttr]⟩ :=
  ⟨by decide, rfl, _, _, .emit rfl, rfl⟩

/-- The attributes of `dog`. -/
def dogAttrs (any : AnyAttr) : AttrTable Unit Str :=
  ⟨[⟨some ns, "id".toList, true, none, .ok⟩, ⟨some ns, "name".toList, false, none, .ok⟩], any⟩

/-- `C66_attributes_kept_partial` applies to `dog`, and the attributes are valid. -/
example : fromBytesStart scope (dogAttrs .checked)
    ((xsiRewrite "tns:animal".toList false ⟨"tns:dog".toList, [idAttr]⟩ {}).1.attrs.map .ok)
      = .ok ([some "1".toList, none], []) := by
  rw [C66_attributes_kept_partial scope (dogAttrs .checked) (by decide) (by decide)
    (by
      intro d hd v
      simp only [dogAttrs, List.mem_cons, List.not_mem_nil, or_false] at hd
      rcases hd with rfl | rfl
      · show (resolveLocalName scope xsiType ns == some "id".toList) = false
        decide
      · show (resolveLocalName scope xsiType ns == some "name".toList) = false
        decide)]
  rfl

/-- **C66** (negation). A derived type that stores unknown attributes stores `xsi:type` as well: the value that is read is
not the value that was written. -/
theorem C66_xsi_type_stored :
    fromBytesStart scope (dogAttrs .store) ([idAttr].map .ok) = .ok ([some "1".toList, none], []) ∧
    fromBytesStart scope (dogAttrs .store)
      ((xsiRewrite "tns:animal".toList false ⟨"tns:dog".toList, [idAttr]⟩ {}).1.attrs.map .ok)
        = .ok ([some "1".toList, none], [(xsiType, "tns:dog".toList)]) := ⟨rfl, rfl⟩

/-- A type without a namespace that has an optional attribute `type`. -/
def typeAttrs : AttrTable Unit Str := ⟨[⟨none, "type".toList, false, none, .ok⟩], .checked⟩

/-- **C66** (negation). If the schema has no target namespace, `xsi:type` is read as the attribute `type` of the derived
type. -/
theorem C66_xsi_type_as_attribute :
    fromBytesStart scope typeAttrs [] = .ok ([none], []) ∧
    fromBytesStart scope typeAttrs ((xsiRewrite "animal".toList false ⟨"dog".toList, []⟩ {}).1.attrs.map .ok)
      = .ok ([some "dog".toList], []) := ⟨rfl, rfl⟩

end DispatchEx

end Verif.Gen

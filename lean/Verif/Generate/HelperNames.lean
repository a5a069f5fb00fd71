import Verif.Meta.Types

/-!
# Names of the types that are written beside a type (C98)

For a type `Foo` the generator also writes `FooContent` and `FooTrait` into the same module, and serializers and deserializers with
their states into the modules `quick_xml_serialize` and `quick_xml_deserialize` below it: `new_enum`, `new_struct` and
`ComplexBase::new_empty` (pipeline/generator/data/complex.rs 274, 432, 536-557), `DynamicData::new` (pipeline/generator/data/dynamic.rs
15-46) and `Context::quick_xml_serialize`, `Context::quick_xml_deserialize` (pipeline/renderer/context.rs 266-272), in `xsd-parser/src`.
All types of one module are considered. Types of `serde-xml-rs` 0.8 (`FooValue`) are left out.
-/

namespace Verif.Generate.HelperNames

abbrev Str := List Char

/-! ## Model -/

/-- A type of a module: its Rust name, whether it is complex (a struct or an enum with elements or attributes), whether it has a type for
its content, and whether it is dynamic. -/
structure Ty where
  name : Str
  complex : Bool
  content : Bool
  dynamic : Bool
deriving DecidableEq, Repr

/-- `{type_ident}Content`, complex.rs 274 and 432. -/
def contentName (n : Str) : Str := n ++ "Content".toList

/-- `{type_ident}Trait`, dynamic.rs 20. -/
def traitName (n : Str) : Str := n ++ "Trait".toList

/-- What is written into the module of the type. -/
def Ty.items (t : Ty) : List Str :=
  t.name :: ((if t.content then [contentName t.name] else []) ++ if t.dynamic then [traitName t.name] else [])

/-- `ComplexBase::new_empty`, complex.rs 537-538: for the type and for its content. -/
def serializers (n : Str) : List Str := [n ++ "Serializer".toList, n ++ "SerializerState".toList]

/-- `ComplexBase::new_empty`, complex.rs 540-541. -/
def deserializers (n : Str) : List Str := [n ++ "Deserializer".toList, n ++ "DeserializerState".toList]

/-- What is written into `quick_xml_serialize`. -/
def Ty.serItems (t : Ty) : List Str :=
  (if t.complex then serializers t.name else []) ++ if t.content then serializers (contentName t.name) else []

/-- What is written into `quick_xml_deserialize`; the deserializer of a dynamic type has no state (dynamic.rs 33). -/
def Ty.deItems (t : Ty) : List Str :=
  (if t.complex then deserializers t.name else if t.dynamic then [t.name ++ "Deserializer".toList] else []) ++
    if t.content then deserializers (contentName t.name) else []

/-! ## Specification -/

/-- No type is called like the content or the trait of another one. -/
def Separate (ts : List Ty) : Prop :=
  ∀ t ∈ ts, ∀ u ∈ ts, (t.content = true → u.name ≠ t.name ++ "Content".toList) ∧ (t.dynamic = true → u.name ≠ t.name ++ "Trait".toList)

/-! ## Proofs -/

theorem getLast_append {a b x y : Str} (hx : x ≠ []) (hy : y ≠ []) (h : a ++ x = b ++ y) : x.getLast? = y.getLast? := by
  have h1 := congrArg List.getLast? h
  rw [List.getLast?_append, List.getLast?_append] at h1
  cases hx' : x.getLast? with
  | none => exact absurd (List.getLast?_eq_none_iff.mp hx') hx
  | some c =>
    cases hy' : y.getLast? with
    | none => exact absurd (List.getLast?_eq_none_iff.mp hy') hy
    | some d => rw [hx', hy'] at h1; simpa using h1

theorem content_ne_trait (a b : Str) : contentName a ≠ traitName b := fun h => by
  have hs : (a ++ "Conten".toList ++ ['t']) = (b ++ "Trai".toList ++ ['t']) := by simpa [contentName, traitName] using h
  have h1 := List.append_cancel_right hs
  exact absurd (getLast_append (by decide) (by decide) h1) (by decide)

theorem append_ne (x y : Str) (hx : x ≠ []) (hy : y ≠ []) (h : x.getLast? ≠ y.getLast?) (a b : Str) : a ++ x ≠ b ++ y :=
  fun e => h (getLast_append hx hy e)

theorem flatMap_sublist {α β : Type} {f g : α → List β} {l : List α} (h : ∀ a, (f a).Sublist (g a)) : (l.flatMap f).Sublist (l.flatMap g) := by
  induction l with
  | nil => exact List.Sublist.refl _
  | cons a l ih => exact (h a).append ih

/-- The types that have serializers, with the content types. -/
def Ty.bases (t : Ty) : List Str := t.name :: if t.content then [contentName t.name] else []

theorem bases_sublist (t : Ty) : t.bases.Sublist t.items := by
  unfold Ty.bases Ty.items
  exact (List.sublist_append_left _ _).cons_cons _

theorem two_nodup {p q : Str} (hp : p ≠ []) (hq : q ≠ []) (hpq : p.getLast? ≠ q.getLast?) {l : List Str} (h : l.Nodup) :
    (l.flatMap fun n => [n ++ p, n ++ q]).Nodup := by
  induction l with
  | nil => simp
  | cons n l ih =>
    rw [List.nodup_cons] at h
    have h2 : ∀ m ∈ l, m ≠ n := fun m hm e => h.1 (e ▸ hm)
    rw [List.flatMap_cons, List.nodup_append]
    refine ⟨?_, ih h.2, ?_⟩
    · simp only [List.nodup_cons, List.mem_singleton, List.not_mem_nil, not_false_eq_true, List.nodup_nil, and_true]
      exact append_ne p q hp hq hpq n n
    · intro x hx y hy hxy
      subst hxy
      obtain ⟨m, hm, hx'⟩ := List.mem_flatMap.mp hy
      simp only [List.mem_cons, List.not_mem_nil, or_false] at hx hx'
      rcases hx with rfl | rfl <;> rcases hx' with e | e
      · exact h2 m hm (List.append_cancel_right e).symm
      · exact append_ne p q hp hq hpq _ _ e
      · exact append_ne p q hp hq hpq _ _ e.symm
      · exact h2 m hm (List.append_cancel_right e).symm

theorem items_nodup_of {ts : List Ty} (hn : (ts.map Ty.name).Nodup) (hs : Separate ts) : (ts.flatMap Ty.items).Nodup := by
  induction ts with
  | nil => simp
  | cons t ts ih =>
    rw [List.map_cons, List.nodup_cons] at hn
    rw [List.flatMap_cons, List.nodup_append]
    have hne : ∀ u ∈ ts, u.name ≠ t.name := fun u hu e => hn.1 (List.mem_map.mpr ⟨u, hu, e⟩)
    have hlen : ∀ p : Str, p ≠ [] → t.name ≠ t.name ++ p := fun p hp e => hp (by simpa using e)
    refine ⟨?_, ih hn.2 fun a ha b hb => hs a (by simp [ha]) b (by simp [hb]), ?_⟩
    · unfold Ty.items
      have h1 := hlen "Content".toList (by decide)
      have h2 := hlen "Trait".toList (by decide)
      have h3 := content_ne_trait t.name t.name
      cases t.content <;> cases t.dynamic <;> simp_all [contentName, traitName]
    · intro x hx y hy hxy
      subst hxy
      obtain ⟨u, hu, hx'⟩ := List.mem_flatMap.mp hy
      obtain ⟨s1, s2⟩ := hs t (by simp) u (by simp [hu])
      obtain ⟨r1, r2⟩ := hs u (by simp [hu]) t (by simp)
      have cases_ : ∀ (v : Ty) {z : Str}, z ∈ v.items →
          z = v.name ∨ (v.content = true ∧ z = contentName v.name) ∨ (v.dynamic = true ∧ z = traitName v.name) := by
        intro v z hz
        unfold Ty.items at hz
        rcases List.mem_cons.mp hz with h | h
        · exact .inl h
        · rcases List.mem_append.mp h with h | h
          · split at h
            · rename_i hc; exact .inr (.inl ⟨hc, by simpa using h⟩)
            · cases h
          · split at h
            · rename_i hc; exact .inr (.inr ⟨hc, by simpa using h⟩)
            · cases h
      rcases cases_ t hx with rfl | ⟨c1, rfl⟩ | ⟨c1, rfl⟩ <;> rcases cases_ u hx' with e | ⟨c2, e⟩ | ⟨c2, e⟩
      · exact hne u hu e.symm
      · exact r1 c2 e
      · exact r2 c2 e
      · exact s1 c1 e.symm
      · exact hne u hu (List.append_cancel_right e).symm
      · exact content_ne_trait _ _ e
      · exact s2 c1 e.symm
      · exact content_ne_trait _ _ e.symm
      · exact hne u hu (List.append_cancel_right e).symm

/-! ## C98 -/

/-- **C98** (partial). The items written into one module have different names exactly if the types have, and no type is called like the
content (`FooContent`) or the trait (`FooTrait`) of another one. Missing: that the latter never happens, see `C98_content_clash` and
`C98_trait_clash`. -/
theorem C98_items_distinct_iff_partial (ts : List Ty) :
    (ts.flatMap Ty.items).Nodup ↔ (ts.map Ty.name).Nodup ∧ Separate ts := by
  constructor
  · intro h
    have hn : (ts.map Ty.name).Nodup := by
      have : (ts.flatMap fun t => [t.name]).Sublist (ts.flatMap Ty.items) :=
        flatMap_sublist fun t => by unfold Ty.items; exact (List.nil_sublist _).cons_cons _
      have h2 := this.nodup h
      rwa [← List.map_eq_flatMap] at h2
    refine ⟨hn, fun t ht u hu => ?_⟩
    have key : ∀ p : Str, p ≠ [] → t.name ++ p ∈ t.items → u.name ≠ t.name ++ p := by
      intro p hp hm e
      by_cases htu : t = u
      · subst htu; exact hp (by simpa using e)
      · obtain ⟨i, hi, hti⟩ := List.getElem_of_mem ht
        obtain ⟨j, hj, huj⟩ := List.getElem_of_mem hu
        have hij : i ≠ j := by rintro rfl; exact htu (hti.symm.trans huj)
        have hp2 : ts.Pairwise fun a b => ∀ x ∈ a.items, ∀ y ∈ b.items, x ≠ y := (List.pairwise_flatMap.mp h).2
        rw [List.pairwise_iff_getElem] at hp2
        have hu' : t.name ++ p ∈ u.items := by rw [← e]; unfold Ty.items; simp
        rcases Nat.lt_or_gt_of_ne hij with hlt | hlt
        · have := hp2 i j hi hj hlt
          rw [hti, huj] at this
          exact this _ hm _ hu' rfl
        · have := hp2 j i hj hi hlt
          rw [hti, huj] at this
          exact this _ hu' _ hm rfl
    exact ⟨fun hc => key _ (by decide) (by unfold Ty.items contentName; simp [hc]),
      fun hd => key _ (by decide) (by unfold Ty.items traitName; simp [hd])⟩
  · rintro ⟨hn, hs⟩
    exact items_nodup_of hn hs

/-- **C98**. The serializers, deserializers and their states never clash with one another: if the items of the module have different
names, so have those of the modules `quick_xml_serialize` and `quick_xml_deserialize`, whatever the types are called. -/
theorem C98_helpers_distinct (ts : List Ty) (h : (ts.flatMap Ty.items).Nodup) :
    (ts.flatMap Ty.serItems).Nodup ∧ (ts.flatMap Ty.deItems).Nodup := by
  have hb : (ts.flatMap Ty.bases).Nodup := (flatMap_sublist bases_sublist).nodup h
  have s1 : ∀ t : Ty, t.serItems.Sublist (t.bases.flatMap serializers) := by
    intro t
    unfold Ty.serItems Ty.bases
    rw [List.flatMap_cons]
    refine List.Sublist.append ?_ ?_
    · split
      · exact List.Sublist.refl _
      · exact List.nil_sublist _
    · split <;> simp
  have s2 : ∀ t : Ty, t.deItems.Sublist (t.bases.flatMap deserializers) := by
    intro t
    unfold Ty.deItems Ty.bases
    rw [List.flatMap_cons]
    refine List.Sublist.append ?_ ?_
    · split
      · exact List.Sublist.refl _
      · split
        · unfold deserializers; exact (List.nil_sublist _).cons_cons _
        · exact List.nil_sublist _
    · split <;> simp
  have a1 : (ts.flatMap fun t => t.bases.flatMap serializers).Nodup := by
    have := two_nodup (p := "Serializer".toList) (q := "SerializerState".toList) (by decide) (by decide) (by decide) hb
    rw [List.flatMap_assoc] at this
    exact this
  have a2 : (ts.flatMap fun t => t.bases.flatMap deserializers).Nodup := by
    have := two_nodup (p := "Deserializer".toList) (q := "DeserializerState".toList) (by decide) (by decide) (by decide) hb
    rw [List.flatMap_assoc] at this
    exact this
  exact ⟨(flatMap_sublist s1).nodup a1, (flatMap_sublist s2).nodup a2⟩

def exFoo : Ty := ⟨"FooType".toList, true, true, false⟩
def exBase : Ty := ⟨"Base".toList, false, false, true⟩
def exSer : Ty := ⟨"FooTypeSerializer".toList, true, false, false⟩

/-- Three types, one of them called like a serializer. -/
example : ([exFoo, exBase, exSer].flatMap Ty.items).Nodup ∧ [exFoo, exBase, exSer].flatMap Ty.deItems =
    ["FooTypeDeserializer".toList, "FooTypeDeserializerState".toList, "FooTypeContentDeserializer".toList,
      "FooTypeContentDeserializerState".toList, "BaseDeserializer".toList, "FooTypeSerializerDeserializer".toList,
      "FooTypeSerializerDeserializerState".toList] := by decide +kernel

example : [exFoo, exBase].flatMap Ty.items = ["FooType".toList, "FooTypeContent".toList, "Base".toList, "BaseTrait".toList] ∧
    [exFoo, exBase].flatMap Ty.serItems = ["FooTypeSerializer".toList, "FooTypeSerializerState".toList, "FooTypeContentSerializer".toList,
      "FooTypeContentSerializerState".toList] := by decide +kernel

/-- **C98** (negation). A type that is called like the content of another one is written twice under this name, for all names: for instance
the element `FooTypeContent` beside the type `Foo`, which becomes `FooType`. -/
theorem C98_content_clash (ts : List Ty) (t u : Ty) (ht : t ∈ ts) (hu : u ∈ ts) (hc : t.content = true)
    (h : u.name = t.name ++ "Content".toList) : ¬ (ts.flatMap Ty.items).Nodup := fun hn =>
  ((C98_items_distinct_iff_partial ts).mp hn).2 t ht u hu |>.1 hc h

example : exFoo.content = true ∧ (⟨"FooTypeContent".toList, false, false, false⟩ : Ty).name = exFoo.name ++ "Content".toList := by
  decide +kernel

/-- **C98** (negation). The same for traits: the element `BaseTrait` beside the head `Base` of a substitution group. -/
theorem C98_trait_clash (ts : List Ty) (t u : Ty) (ht : t ∈ ts) (hu : u ∈ ts) (hd : t.dynamic = true)
    (h : u.name = t.name ++ "Trait".toList) : ¬ (ts.flatMap Ty.items).Nodup := fun hn =>
  ((C98_items_distinct_iff_partial ts).mp hn).2 t ht u hu |>.2 hd h

example : exBase.dynamic = true ∧ (⟨"BaseTrait".toList, false, false, false⟩ : Ty).name = exBase.name ++ "Trait".toList := by
  decide +kernel

end Verif.Generate.HelperNames

import Verif.Gen.Modes

/-!
# The modes of `NamespaceSerialization`: examples, and documents that do not survive (C13, C62)
-/

namespace Verif.Gen.Tab

open Verif.Rt Verif.Occurs

/-- A name of the namespace `urn:a` or `urn:b`. -/
def named (p l : String) (q : Bool := true) : NameSpec :=
  ⟨l.toList, q, some p.toList, some ("urn:" ++ p).toList⟩

/-- A type of `urn:a` whose elements are of a type of `urn:b`; both have attributes of `urn:b`. The
elements of simple type are not qualified. -/
def duo (q : Bool) : Decls Str where
  types := [
    { tag := named "a" "o" q
      attrs := [⟨named "b" "lang" q, true, none, 0⟩, ⟨named "a" "id" false, false, none, 0⟩]
      body := .seq [⟨named "b" "part" q, 1, .unbounded, .struct 1⟩,
        ⟨named "a" "note" false, 0, .bounded 1, .simple 0⟩] },
    { tag := named "b" "part" q
      attrs := [⟨named "b" "kind" q, true, none, 0⟩]
      body := .seq [⟨named "b" "sub" q, 0, .unbounded, .struct 1⟩] }]
  print := fun _ s => some s
  parse := fun _ s => .ok s
  num := fun _ => none

def duoBinds (p : Str) : Str := "urn:".toList ++ p

theorem duo_shape (m : Mode) (q : Bool) : ((duo q).schema m none).Shape where
  fits := by
    intro D hD
    obtain ⟨k, T, hT, rfl⟩ := mem_schema hD
    rcases k with _ | _ | k <;> simp [duo] at hT <;> subst hT <;> trivial
  max := by
    intro D hD f hf
    obtain ⟨k, T, e, hT, he, rfl⟩ := mem_elements hD hf
    rcases k with _ | _ | k <;> simp [duo] at hT <;> subst hT <;>
      simp [BodyDecl.elements] at he
    · rcases he with rfl | rfl <;> simp [ElemDecl.spec]
    · subst he; simp [ElemDecl.spec]
  tys := by
    intro D hD f hf j
    obtain ⟨k, T, e, hT, he, rfl⟩ := mem_elements hD hf
    rcases k with _ | _ | k <;> simp [duo] at hT <;> subst hT <;>
      simp [BodyDecl.elements] at he
    · rcases he with rfl | rfl <;> simp [ElemDecl.spec]
    · subst he; simp [ElemDecl.spec]
  fieldPlain := by
    intro D hD f hf
    obtain ⟨k, T, e, hT, he, rfl⟩ := mem_elements hD hf
    cases q <;> rcases k with _ | _ | k <;> simp [duo] at hT <;> subst hT <;>
      simp [BodyDecl.elements] at he <;>
      first
      | (rcases he with rfl | rfl <;> exact ⟨by decide +kernel, by decide +kernel⟩; done)
      | (subst he; exact ⟨by decide +kernel, by decide +kernel⟩)
  fieldDistinct := by
    intro D hD i j f g hf hg hij _
    obtain ⟨k, T, hT, rfl⟩ := mem_schema hD
    change (T.body.spec none).elements[i]? = _ at hf
    change (T.body.spec none).elements[j]? = _ at hg
    rcases k with _ | _ | k <;> simp [duo] at hT <;> subst hT <;>
      simp only [BodyDecl.spec, Body.elements, List.map_cons, List.map_nil] at hf hg
    · rcases i with _ | _ | i <;> rcases j with _ | _ | j <;> simp at hf hg hij <;> subst hf hg <;>
        (intro a ha b hb
         simp only [FieldSpec.expand, ElemDecl.spec, List.mem_singleton] at ha hb
         subst ha hb
         exact Or.inl (by cases q <;> decide +kernel))
    · rcases i with _ | i <;> rcases j with _ | j <;> simp at hf hg hij
  attrPlain := by
    intro D hD a ha
    obtain ⟨k, T, hT, rfl⟩ := mem_schema hD
    obtain ⟨a', ha', rfl⟩ := List.mem_map.mp ha
    cases q <;> rcases k with _ | _ | k <;> simp [duo] at hT <;> subst hT <;> simp at ha' <;>
      first
      | (rcases ha' with rfl | rfl <;> exact ⟨⟨by decide +kernel, by decide +kernel⟩, by decide +kernel⟩; done)
      | (subst ha'; exact ⟨⟨by decide +kernel, by decide +kernel⟩, by decide +kernel⟩)
  attrDistinct := by
    intro D hD i j f g hf hg hij
    obtain ⟨k, T, hT, rfl⟩ := mem_schema hD
    change (T.attrs.map (·.spec))[i]? = _ at hf
    change (T.attrs.map (·.spec))[j]? = _ at hg
    rcases k with _ | _ | k <;> simp [duo] at hT <;> subst hT
    · rcases i with _ | _ | i <;> rcases j with _ | _ | j <;> simp at hf hg hij <;> subst hf hg <;>
        exact Or.inl (by cases q <;> decide +kernel)
    · rcases i with _ | i <;> rcases j with _ | j <;> simp at hf hg hij

/-- `<a:o b:lang="en"><b:part b:kind="x"><b:sub b:kind="y"/></b:part><note>hi</note></a:o>`. -/
def aDuo : Val Str :=
  .struct [some "en".toList, none]
    [[.struct [some "x".toList] [[.struct [some "y".toList] [[]]]]], [.simple "hi".toList]]

theorem duo_part (m : Mode) (q : Bool) (s : Str) (subs : List (Val Str))
    (h : ∀ v ∈ subs, HasTy ((duo q).schema m none) (.struct 1) v) :
    HasTy ((duo q).schema m none) (.struct 1) (.struct [some s] [subs]) := by
  refine .fields rfl ⟨rfl, ?_⟩ (Or.inl rfl) rfl ?_ ?_
  · intro i a v ha hv
    rcases i with _ | i <;> simp [duo, Decls.spec] at ha hv
    subst ha hv
    exact ⟨_, rfl, rfl⟩
  · intro i f hf
    rcases i with _ | i <;> simp at hf
    subst hf
    exact ⟨Nat.zero_le _, by intro b hb; cases hb⟩
  · intro i f v hf hv
    rcases i with _ | i <;> simp at hf
    subst hf
    exact h v hv

theorem aDuo_hasTy (m : Mode) (q : Bool) : HasTy ((duo q).schema m none) (.struct 0) aDuo := by
  refine .fields rfl ⟨rfl, ?_⟩ (Or.inl rfl) rfl ?_ ?_
  · intro i a v ha hv
    rcases i with _ | _ | i <;> simp [duo, Decls.spec] at ha hv <;> subst ha hv
    · exact ⟨_, rfl, rfl⟩
    · exact ⟨rfl, rfl⟩
  · intro i f hf
    rcases i with _ | _ | i <;> simp at hf <;> subst hf
    · exact ⟨by cases q <;> decide, by intro b hb; cases hb⟩
    · exact ⟨by decide, by intro b hb; cases hb; decide⟩
  · intro i f v hf hv
    rcases i with _ | _ | i <;> simp at hf <;> subst hf <;> simp at hv <;> subst hv
    · refine duo_part m q _ _ ?_
      intro v hv
      simp only [List.mem_singleton] at hv
      subst hv
      exact duo_part m q _ _ (by simp)
    · exact .simple ⟨by decide +kernel, rfl⟩

theorem duo_types {T : TypeDecl Str} (h : T ∈ (duo true).types) :
    (duo true).types[0]? = some T ∨ (duo true).types[1]? = some T := by
  simp only [duo, List.mem_cons, List.not_mem_nil, or_false] at h
  rcases h with rfl | rfl
  · exact Or.inl rfl
  · exact Or.inr rfl

theorem uses_b {n : NameSpec} {b : Str × Str} (h : n.Uses b) (hn : n.pfx = some "b".toList)
    (hs : n.ns = some "urn:b".toList) : b = ("b".toList, "urn:b".toList) := by
  obtain ⟨_, h1, h2⟩ := h
  rw [hn] at h1
  rw [hs] at h2
  cases b
  simp only [Option.some.injEq] at h1 h2
  subst h1 h2
  rfl

theorem uses_a {n : NameSpec} {b : Str × Str} (h : n.Uses b) (hn : n.pfx = some "a".toList)
    (hs : n.ns = some "urn:a".toList) : b = ("a".toList, "urn:a".toList) := by
  obtain ⟨_, h1, h2⟩ := h
  rw [hn] at h1
  rw [hs] at h2
  cases b
  simp only [Option.some.injEq] at h1 h2
  subst h1 h2
  rfl

theorem duo_dynamic : (duo true).DynamicOk none duoBinds where
  uses := by
    intro T hT b hu _
    rcases duo_types hT with h | h <;> simp [duo] at h <;> subst h
    · rcases hu with hu | ⟨a, ha, hu⟩
      · rw [uses_a hu rfl (by decide +kernel)]; decide +kernel
      · simp only [List.mem_cons, List.not_mem_nil, or_false] at ha
        rcases ha with rfl | rfl
        · rw [uses_b hu rfl (by decide +kernel)]; decide +kernel
        · rw [uses_a hu rfl (by decide +kernel)]; decide +kernel
    · rcases hu with hu | ⟨a, ha, hu⟩
      · rw [uses_b hu rfl (by decide +kernel)]; decide +kernel
      · simp only [List.mem_cons, List.not_mem_nil, or_false] at ha
        subst ha
        rw [uses_b hu rfl (by decide +kernel)]; decide +kernel
  tags := by
    intro T e he j U hty hU
    have : U.tag.xmlns (e.name.element none).text ++ U.tag.rootXmlns (e.name.element none).text = [] := by
      rcases duo_types (List.mem_of_getElem? hU) with h | h <;> simp [duo] at h <;> subst h <;> rfl
    rw [this]
    exact agrees_nil
  near := by
    intro T e ⟨hT, he⟩ hp
    rcases duo_types hT with h | h <;> simp [duo] at h <;> subst h <;>
      simp [Decls.elements, ElemDecl.expand, BodyDecl.elements] at he
    · rcases he with rfl | rfl
      · exact Or.inr ⟨1, _, rfl, rfl, rfl, rfl, rfl⟩
      · exact absurd rfl hp
    · subst he
      exact Or.inl ⟨rfl, rfl, rfl⟩

/-- The hypotheses of `C13_dynamic_round_trip_partial` are met; both namespaces are collected. -/
example (rest : List Event) : ∃ out evs,
    (ser ((duo true).schema .dynamic none) 4).Emits (.struct 0 (.init aDuo "a:o".toList true)) {} out {} ∧
      reread out = some evs ∧
      Drv.run (genEnv posTrack) (de ((duo true).schema .dynamic none) 4 (.struct 0)).toDeser
        { helper := {} } (evs ++ rest) = .done aDuo rest :=
  C13_dynamic_round_trip_partial (duo true) none duoBinds (duo_shape _ _) duo_dynamic 0 _ rfl aDuo
    (aDuo_hasTy _ _) _ (by intro b hb; cases hb) 4 (by decide +kernel) rest

example : ("b".toList, "urn:b".toList) ∈ collect (duo true) (.struct 0) aDuo :=
  (C62_collected_exact (duo true) .dynamic none (duo_shape _ _) 0 aDuo (aDuo_hasTy _ _) _).mpr
    ⟨0, aDuo, _, .refl _ _, rfl, Or.inr ⟨⟨named "b" "lang", true, none, 0⟩, by simp, rfl, rfl, by decide +kernel⟩⟩

def duoFound : Nat → List (Str × Str) := fun _ => [("a".toList, "urn:a".toList), ("b".toList, "urn:b".toList)]

theorem duo_global : (duo true).GlobalOk none duoBinds duoFound 0 where
  agree := by
    intro j b hb _
    exact (by decide +kernel : ∀ b ∈ duoFound 0, duoBinds b.1 = b.2 ∧ b.2 ≠ []) b hb
  tags := duo_dynamic.tags
  elems := by
    intro i T e _ hT he hp b hu
    rcases duo_types (List.mem_of_getElem? hT) with h | h <;> simp [duo] at h <;> subst h <;>
      simp [Decls.elements, ElemDecl.expand, BodyDecl.elements] at he
    · rcases he with rfl | rfl
      · rw [uses_b hu rfl (by decide +kernel)]; decide +kernel
      · exact absurd rfl hp
    · subst he
      rw [uses_b hu rfl (by decide +kernel)]; decide +kernel
  attrs := by
    intro i T a _ hT ha b hu
    rcases duo_types (List.mem_of_getElem? hT) with h | h <;> simp [duo] at h <;> subst h <;>
      simp at ha
    · rcases ha with rfl | rfl
      · rw [uses_b hu rfl (by decide +kernel)]; decide +kernel
      · rw [uses_a hu rfl (by decide +kernel)]; decide +kernel
    · subst ha
      rw [uses_b hu rfl (by decide +kernel)]; decide +kernel

/-- The hypotheses of `C13_global_round_trip_partial` are met. -/
example (rest : List Event) : ∃ out evs,
    (ser ((duo true).schema (.global duoFound) none) 4).Emits (.struct 0 (.init aDuo "a:o".toList true)) {}
      out {} ∧ reread out = some evs ∧
      Drv.run (genEnv posTrack) (de ((duo true).schema (.global duoFound) none) 4 (.struct 0)).toDeser
        { helper := {} } (evs ++ rest) = .done aDuo rest :=
  C13_global_round_trip_partial (duo true) none duoBinds duoFound (duo_shape _ _) 0 duo_global _ rfl aDuo
    (aDuo_hasTy _ _) _ (by intro b hb; cases hb) 4 (by decide +kernel) rest

theorem part_local : ∀ U, (duo true).types[1]? = some U → U.LocalOk none duoBinds "b".toList := by
  intro U hU
  simp [duo] at hU
  subst hU
  refine ⟨?_, ?_, ?_, ?_⟩
  · intro _ ns h _
    cases h
    decide +kernel
  · intro a ha b hu _
    simp only [List.mem_cons, List.not_mem_nil, or_false] at ha
    subst ha
    rw [uses_b hu rfl (by decide +kernel)]; decide +kernel
  · intro a ha a' ha' _ _ _
    simp only [List.mem_cons, List.not_mem_nil, or_false] at ha ha'
    subst ha ha'
    rfl
  · intro _ a ha _ _
    simp only [List.mem_cons, List.not_mem_nil, or_false] at ha
    subst ha
    rfl

theorem duo_local : (duo true).LocalOk none duoBinds where
  types := by
    intro T e ⟨hT, he⟩ j U hty hU
    rcases duo_types hT with h | h <;> simp [duo] at h <;> subst h <;>
      simp [Decls.elements, ElemDecl.expand, BodyDecl.elements] at he
    · rcases he with rfl | rfl
      · cases hty; exact part_local U hU
      · cases hty
    · subst he
      cases hty; exact part_local U hU
  elems := by
    intro T e ⟨hT, he⟩ hp _
    rcases duo_types hT with h | h <;> simp [duo] at h <;> subst h <;>
      simp [Decls.elements, ElemDecl.expand, BodyDecl.elements] at he
    · rcases he with rfl | rfl
      · exact ⟨1, _, rfl, rfl, Or.inl rfl, rfl⟩
      · exact absurd rfl hp
    · subst he
      exact ⟨1, _, rfl, rfl, Or.inl rfl, rfl⟩

theorem root_local : ∀ T, (duo true).types[0]? = some T → T.LocalOk none duoBinds "a".toList := by
  intro U hU
  simp [duo] at hU
  subst hU
  refine ⟨?_, ?_, ?_, ?_⟩
  · intro _ ns h _
    cases h
    decide +kernel
  · intro a ha b hu _
    simp only [List.mem_cons, List.not_mem_nil, or_false] at ha
    rcases ha with rfl | rfl
    · rw [uses_b hu rfl (by decide +kernel)]; decide +kernel
    · rw [uses_a hu rfl (by decide +kernel)]; decide +kernel
  · intro a ha a' ha' h1 h2 _
    simp only [List.mem_cons, List.not_mem_nil, or_false] at ha ha'
    rcases ha with rfl | rfl <;> rcases ha' with rfl | rfl <;>
      first | rfl | (cases h1; done) | (cases h2; done)
  · intro _ a ha h1 h2
    simp only [List.mem_cons, List.not_mem_nil, or_false] at ha
    rcases ha with rfl | rfl
    · exact absurd h2 (by decide +kernel)
    · cases h1

/-- The hypotheses of `C13_local_round_trip_partial` are met. -/
example (rest : List Event) : ∃ out evs,
    (ser ((duo true).schema .local_ none) 4).Emits (.struct 0 (.init aDuo "a:o".toList true)) {} out {} ∧
      reread out = some evs ∧
      Drv.run (genEnv posTrack) (de ((duo true).schema .local_ none) 4 (.struct 0)).toDeser
        { helper := {} } (evs ++ rest) = .done aDuo rest :=
  C13_local_round_trip_partial (duo true) none duoBinds (duo_shape _ _) duo_local 0 _ rfl aDuo
    (aDuo_hasTy _ _) _
    (by rw [show tagPrefix "a:o".toList = "a".toList by decide +kernel]; exact root_local _ rfl) 4 (by decide +kernel) rest

/-- The hypotheses of `C13_none_round_trip_partial` are met. -/
example (rest : List Event) : ∃ out evs,
    (ser ((duo false).schema .none none) 4).Emits (.struct 0 (.init aDuo "o".toList true)) {} out {} ∧
      reread out = some evs ∧
      Drv.run (genEnv posTrack) (de ((duo false).schema .none none) 4 (.struct 0)).toDeser
        { helper := {} } (evs ++ rest) = .done aDuo rest := by
  refine C13_none_round_trip_partial (duo false) none (duo_shape _ _) ?_ ?_ 0 _ rfl aDuo
    (aDuo_hasTy _ _) _ 4 (by decide +kernel) rest
  · intro T e ⟨hT, he⟩ hp
    simp only [duo, List.mem_cons, List.not_mem_nil, or_false] at hT
    rcases hT with rfl | rfl <;> simp [Decls.elements, ElemDecl.expand, BodyDecl.elements] at he
    · rcases he with rfl | rfl <;> exact absurd rfl hp
    · subst he; exact absurd rfl hp
  · intro T hT a ha hp
    simp only [duo, List.mem_cons, List.not_mem_nil, or_false] at hT
    rcases hT with rfl | rfl <;> simp at ha
    · rcases ha with rfl | rfl <;> exact absurd rfl hp
    · subst ha; exact absurd rfl hp

/-! ## Documents that do not survive -/

/-- A type of `urn:a` with one element of `urn:b`. -/
def foreign (ty : TyRef) : Decls Str where
  types := [
    { tag := named "a" "o"
      attrs := []
      body := .seq [⟨named "b" "x", 1, .bounded 1, ty⟩] },
    { tag := named "a" "t"
      attrs := []
      body := .seq [] }]
  print := fun _ s => some s
  parse := fun _ s => .ok s
  num := fun _ => none

theorem foreign_hasTy (m : Mode) (ty : TyRef) (v : Val Str)
    (h : HasTy ((foreign ty).schema m none) ty v) :
    HasTy ((foreign ty).schema m none) (.struct 0) (.struct [] [[v]]) := by
  refine .fields rfl ⟨rfl, by intro i a v h; simp [Decls.spec] at h⟩ (Or.inl rfl) rfl ?_ ?_
  · intro i f hf
    rcases i with _ | i <;> simp at hf
    subst hf
    exact ⟨by simp [ElemDecl.spec], by intro b hb; cases hb; simp⟩
  · intro i f w hf hw
    rcases i with _ | i <;> simp at hf
    subst hf
    simp only [List.getD_cons_zero, List.mem_singleton] at hw
    subst hw
    exact h

def foreignOut : List Event :=
  [.start ⟨"a:o".toList, [⟨"xmlns:a".toList, "urn:a".toList⟩]⟩,
    .empty ⟨"b:x".toList, [⟨"xmlns:b".toList, "urn:a".toList⟩]⟩, .end_ "a:o".toList]

/-- **C13 fails** for `NamespaceSerialization::Local` when an element of another namespace has a
type of the own namespace (`<xs:element name="x" type="a:t"/>` in the schema of `urn:b`): the type
declares the prefix of the element for its own namespace, and the deserializer rejects the
document. -/
theorem C13_local_foreign_type_unreadable (n : Nat) :
    HasTy ((foreign (.struct 1)).schema .local_ none) (.struct 0) (.struct [] [[.struct [] []]]) ∧
    (ser ((foreign (.struct 1)).schema .local_ none) (n + 2)).Emits
      (.struct 0 (.init (.struct [] [[.struct [] []]]) "a:o".toList true)) {} foreignOut {} ∧
    ∃ e rest, Drv.run (genEnv posTrack)
      (de ((foreign (.struct 1)).schema .local_ none) (n + 2) (.struct 0)).toDeser { helper := {} }
      foreignOut = .fail e rest := by
  refine ⟨foreign_hasTy _ _ _ ?_, ?_, ?_⟩
  · exact .fields rfl ⟨rfl, by intro i a v h; simp [Decls.spec] at h⟩ (Or.inl rfl) rfl
      (by intro i f hf; simp at hf) (by intro i f v hf; simp at hf)
  · exact .emit rfl (.emit rfl (.again rfl (.emit rfl (.done rfl))))
  · exact ⟨_, _, rfl⟩

/-- A type with a qualified attribute of its own namespace. -/
def ownAttr : Decls Str where
  types := [
    { tag := named "a" "o"
      attrs := [⟨named "a" "id", true, none, 0⟩]
      body := .seq [] }]
  print := fun _ s => some s
  parse := fun _ s => .ok s
  num := fun _ => none

def ownAttrOut : List Event :=
  [.empty ⟨"o".toList, [⟨"xmlns".toList, "urn:a".toList⟩, ⟨"a:id".toList, "1".toList⟩]⟩]

/-- **C13 fails** for `NamespaceSerialization::Local` with a default namespace when a type has a
qualified attribute of that namespace: the tag declares the default namespace, which does not
apply to attributes, and the prefix of the attribute is not declared. -/
theorem C13_local_attribute_unreadable (n : Nat) :
    HasTy (ownAttr.schema .local_ (some "urn:a".toList)) (.struct 0) (.struct [some "1".toList] []) ∧
    (ser (ownAttr.schema .local_ (some "urn:a".toList)) (n + 2)).Emits
      (.struct 0 (.init (.struct [some "1".toList] []) "o".toList true)) {} ownAttrOut {} ∧
    ∃ e rest, Drv.run (genEnv posTrack)
      (de (ownAttr.schema .local_ (some "urn:a".toList)) (n + 2) (.struct 0)).toDeser { helper := {} }
      ownAttrOut = .fail e rest := by
  refine ⟨?_, ?_, ?_⟩
  · refine .fields rfl ⟨rfl, ?_⟩ (Or.inl rfl) rfl
      (by intro i f hf; simp at hf) (by intro i f v hf; simp at hf)
    intro i a v ha hv
    rcases i with _ | i <;> simp [ownAttr, Decls.spec] at ha hv
    subst ha hv
    exact ⟨_, rfl, rfl⟩
  · exact .emit rfl (.done rfl)
  · exact ⟨_, _, rfl⟩

def foreignSimpleOut : List Event :=
  [.start ⟨"a:o".toList, [⟨"xmlns:a".toList, "urn:a".toList⟩]⟩, .start ⟨"b:x".toList, []⟩,
    .text "1".toList, .end_ "b:x".toList, .end_ "a:o".toList]

/-- **C62 fails** for elements of simple type of another namespace: simple types do not collect
the namespace of the element, its prefix is not declared, and the deserializer rejects the
document. -/
theorem C62_dynamic_foreign_simple_undeclared (n : Nat) :
    HasTy ((foreign (.simple 0)).schema .dynamic none) (.struct 0) (.struct [] [[.simple "1".toList]]) ∧
    (ser ((foreign (.simple 0)).schema .dynamic none) (n + 2)).Emits
      (.struct 0 (.init (.struct [] [[.simple "1".toList]]) "a:o".toList true)) {} foreignSimpleOut {} ∧
    (∀ t, .start t ∈ foreignSimpleOut → ∀ a ∈ t.attrs, a.key ≠ "xmlns:b".toList) ∧
    ∃ e rest, Drv.run (genEnv posTrack)
      (de ((foreign (.simple 0)).schema .dynamic none) (n + 2) (.struct 0)).toDeser { helper := {} }
      foreignSimpleOut = .fail e rest := by
  refine ⟨foreign_hasTy _ _ _ (.simple ⟨by decide +kernel, rfl⟩), ?_, ?_, ?_⟩
  · exact .emit rfl (.emit rfl (.emit rfl (.emit rfl (.again rfl (.emit rfl (.done rfl))))))
  · intro t ht a ha
    simp only [foreignSimpleOut, List.mem_cons, Event.start.injEq, reduceCtorEq, List.not_mem_nil,
      or_false] at ht
    rcases ht with rfl | rfl
    · simp only [List.mem_singleton] at ha
      subst ha
      decide
    · cases ha
  · exact ⟨_, _, rfl⟩

def defaultOut : List Event :=
  [.empty ⟨"o".toList, [⟨"xmlns:a".toList, "urn:a".toList⟩, ⟨"a:id".toList, "1".toList⟩]⟩]

/-- **C62 fails** for the default namespace: with `Dynamic` and the default namespace `urn:a`, the
element `o` of `urn:a` is written without prefix, and the default namespace is not declared, so
that the element is in no namespace. -/
theorem C62_dynamic_default_undeclared (n : Nat) :
    (ownAttr.types.map fun T => (T.tag.qualified, (T.tag.element (some "urn:a".toList)).text, T.tag.ns)) =
      [(true, "o".toList, some "urn:a".toList)] ∧
    (ser (ownAttr.schema .dynamic (some "urn:a".toList)) (n + 2)).Emits
      (.struct 0 (.init (.struct [some "1".toList] []) "o".toList true)) {} defaultOut {} ∧
    (∀ t, .empty t ∈ defaultOut → ∀ a ∈ t.attrs, a.key ≠ "xmlns".toList) := by
  refine ⟨by decide +kernel, .emit rfl (.done rfl), ?_⟩
  intro t ht a ha
  simp only [defaultOut, List.mem_cons, Event.empty.injEq, List.not_mem_nil, or_false] at ht
  subst ht
  simp only [List.mem_cons, List.not_mem_nil, or_false] at ha
  rcases ha with rfl | rfl <;> decide

end Verif.Gen.Tab

import Verif.Gen.NestedModes
import Verif.Gen.ModesExamples
import Verif.Generate.Checks

/-!
# Values with nested groups that are written and read back: examples (C13, C62)
-/

namespace Verif.Gen.Tab

open Verif.Rt Verif.Occurs

/-- An order of `urn:a`: any number of entries and perhaps a note. An entry is a key, or a part of `urn:b` and perhaps a
value. The types 1 and 2 are the nested choice and the nested sequence. -/
def trio (q : Bool) : Decls Str where
  types := [
    { tag := named "a" "o"
      attrs := [⟨named "b" "lang", true, none, 0⟩]
      body := .seq [⟨named "a" "entry", 0, .unbounded, .variant 1⟩, ⟨named "a" "note" false, 0, .bounded 1, .simple 0⟩] },
    { tag := named "a" "entry"
      attrs := []
      body := .choice [⟨named "a" "key" q, 1, .bounded 1, .simple 0⟩, ⟨named "a" "pair", 1, .bounded 1, .variant 2⟩] 1
        (.bounded 1) },
    { tag := named "a" "pair"
      attrs := []
      body := .seq [⟨named "b" "part", 1, .bounded 1, .struct 3⟩, ⟨named "a" "val" q, 0, .bounded 1, .simple 0⟩] },
    { tag := named "b" "part"
      attrs := [⟨named "b" "kind", true, none, 0⟩]
      body := .seq [] }]
  print := fun _ s => some s
  parse := fun _ s => .ok s
  num := fun _ => none

/-- `<a:o b:lang="en"><a:key>k</a:key><b:part b:kind="x"/><a:val>v</a:val><b:part b:kind="y"/></a:o>`. -/
def aTrio : Val Str :=
  .struct [some "en".toList]
    [[.alt 0 [.simple "k".toList],
      .alt 1 [.struct [] [[.struct [some "x".toList] []], [.simple "v".toList]]],
      .alt 1 [.struct [] [[.struct [some "y".toList] []], []]]], []]

theorem trio_nested_dynamic (q : Bool) : ((trio q).schema .dynamic none).Nested 2 :=
  Verif.Generate.nestedCheck_sound _ _ (by cases q <;> decide +kernel)

theorem trio_nested_local (q : Bool) : ((trio q).schema .local_ none).Nested 2 :=
  Verif.Generate.nestedCheck_sound _ _ (by cases q <;> decide +kernel)

theorem trio_nested_global (q : Bool) : ((trio q).schema (.global duoFound) none).Nested 2 :=
  Verif.Generate.nestedCheck_sound _ _ (by cases q <;> decide +kernel)

theorem trio_part (m : Mode) (q : Bool) (s : Str) : Holds ((trio q).schema m none) (.struct 3) (.struct [some s] []) := by
  refine .fields rfl ⟨rfl, ?_⟩ (Or.inl rfl) rfl ?_ ?_
  · intro i a v ha hv
    rcases i with _ | i <;> simp [trio, Decls.spec] at ha hv
    subst ha hv
    exact ⟨_, rfl, rfl⟩
  · intro i f hf
    simp at hf
  · intro i f v hf hv
    simp at hf

theorem trio_pair (m : Mode) (q : Bool) (s : Str) (vs : List (Val Str)) (h : vs = [] ∨ vs = [.simple "v".toList]) :
    Holds ((trio q).schema m none) (.variant 2) (.struct [] [[.struct [some s] []], vs]) := by
  refine .group rfl rfl rfl ⟨_, List.mem_cons_self, by simp⟩ ?_ ?_
  · intro i f hf
    rcases i with _ | _ | i <;> simp at hf <;> subst hf
    · exact ⟨Nat.le_refl _, by intro b hb; cases hb; simp⟩
    · rcases h with rfl | rfl <;> exact ⟨Nat.zero_le _, by intro b hb; cases hb; simp⟩
  · intro i f v hf hv
    rcases i with _ | _ | i <;> simp at hf <;> subst hf <;> simp at hv
    · subst hv; exact trio_part m q s
    · rcases h with rfl | rfl <;> simp at hv
      subst hv
      exact .simple ⟨by decide +kernel, rfl⟩

theorem aTrio_holds (m : Mode) (q : Bool) : Holds ((trio q).schema m none) (.struct 0) aTrio := by
  refine .fields rfl ⟨rfl, ?_⟩ (Or.inl rfl) rfl ?_ ?_
  · intro i a v ha hv
    rcases i with _ | i <;> simp [trio, Decls.spec] at ha hv
    subst ha hv
    exact ⟨_, rfl, rfl⟩
  · intro i f hf
    rcases i with _ | _ | i <;> simp at hf <;> subst hf
    · exact ⟨Nat.zero_le _, by intro b hb; cases hb⟩
    · exact ⟨Nat.zero_le _, by intro b hb; cases hb; decide⟩
  · intro i f v hf hv
    rcases i with _ | _ | i <;> simp at hf <;> subst hf <;> simp at hv
    rcases hv with rfl | rfl | rfl
    · exact .variant rfl rfl rfl (.simple ⟨by decide +kernel, rfl⟩)
    · exact .variant rfl rfl rfl (trio_pair m q _ _ (Or.inr rfl))
    · exact .variant rfl rfl rfl (trio_pair m q _ _ (Or.inl rfl))

theorem trio_types {q : Bool} {T : TypeDecl Str} (h : T ∈ (trio q).types) :
    (trio q).types[0]? = some T ∨ (trio q).types[1]? = some T ∨ (trio q).types[2]? = some T ∨ (trio q).types[3]? = some T := by
  simp only [trio, List.mem_cons, List.not_mem_nil, or_false] at h
  rcases h with rfl | rfl | rfl | rfl
  · exact Or.inl rfl
  · exact Or.inr (Or.inl rfl)
  · exact Or.inr (Or.inr (Or.inl rfl))
  · exact Or.inr (Or.inr (Or.inr rfl))

/-- The elements of the example that are not groups. -/
theorem trio_own {q : Bool} {e : ElemDecl} (h : (trio q).Own e) :
    e.Prefixed none → (e = ⟨named "a" "key" q, 1, .bounded 1, .simple 0⟩ ∨ e = ⟨named "a" "val" q, 0, .bounded 1, .simple 0⟩ ∨
      e = ⟨named "b" "part", 1, .bounded 1, .struct 3⟩) := by
  obtain ⟨T, hT, he, hne⟩ := h
  intro hp
  rcases trio_types hT with h | h | h | h <;> simp [trio] at h <;> subst h <;> simp [BodyDecl.elements] at he
  · rcases he with rfl | rfl
    · exact absurd rfl (hne _)
    · exact absurd rfl hp
  · rcases he with rfl | rfl
    · exact Or.inl rfl
    · exact absurd rfl (hne _)
  · rcases he with rfl | rfl
    · exact Or.inr (Or.inr rfl)
    · exact Or.inr (Or.inl rfl)

theorem trio_tags {q : Bool} {U : TypeDecl Str} (hU : U ∈ (trio q).types) (name : Str) :
    U.tag.xmlns name ++ U.tag.rootXmlns name = [] := by
  rcases trio_types hU with h | h | h | h <;> simp [trio] at h <;> subst h <;> rfl

theorem trio_uses {q : Bool} {T : TypeDecl Str} (hT : T ∈ (trio q).types) {b : Str × Str} (hu : T.Uses b) :
    b = ("a".toList, "urn:a".toList) ∨ b = ("b".toList, "urn:b".toList) := by
  rcases trio_types hT with h | h | h | h <;> simp [trio] at h <;> subst h <;> rcases hu with hu | ⟨a, ha, hu⟩
  · exact Or.inl (uses_a hu rfl (show (named "a" "x").ns = _ by decide +kernel))
  · simp only [List.mem_cons, List.not_mem_nil, or_false] at ha
    subst ha
    exact Or.inr (uses_b hu rfl (by decide +kernel))
  · exact Or.inl (uses_a hu rfl (show (named "a" "x").ns = _ by decide +kernel))
  · cases ha
  · exact Or.inl (uses_a hu rfl (show (named "a" "x").ns = _ by decide +kernel))
  · cases ha
  · exact Or.inr (uses_b hu rfl (by decide +kernel))
  · simp only [List.mem_cons, List.not_mem_nil, or_false] at ha
    subst ha
    exact Or.inr (uses_b hu rfl (by decide +kernel))

/-- What has no content has no elements. -/
theorem trio_last {q : Bool} {e : ElemDecl} {U : TypeDecl Str} (hU : (trio q).types[3]? = some U)
    (h : (trio q).InContent U e) : False := by
  simp [trio] at hU
  subst hU
  cases h with
  | own he => cases he
  | group hg => cases hg

theorem trio_dynamic : (trio true).NestedDynamicOk none duoBinds where
  uses := by
    intro T hT b hu _
    rcases trio_uses hT hu with rfl | rfl <;> decide +kernel
  tags := by
    intro e _ j U _ hU
    rw [trio_tags (List.mem_of_getElem? hU)]
    exact agrees_nil
  near := by
    intro T hT e he hp
    rcases trio_own (inContent_own hT he) hp with rfl | rfl | rfl
    · rcases trio_types hT with h | h | h | h
      · simp [trio] at h; subst h; exact Or.inl ⟨rfl, rfl, rfl⟩
      · simp [trio] at h; subst h; exact Or.inl ⟨rfl, rfl, rfl⟩
      · simp [trio] at h; subst h; exact Or.inl ⟨rfl, rfl, rfl⟩
      · exact absurd he (fun h' => trio_last h h')
    · rcases trio_types hT with h | h | h | h
      · simp [trio] at h; subst h; exact Or.inl ⟨rfl, rfl, rfl⟩
      · simp [trio] at h; subst h; exact Or.inl ⟨rfl, rfl, rfl⟩
      · simp [trio] at h; subst h; exact Or.inl ⟨rfl, rfl, rfl⟩
      · exact absurd he (fun h' => trio_last h h')
    · exact Or.inr ⟨3, _, rfl, rfl, rfl, rfl, rfl⟩

/-- The hypotheses of `C13_nested_dynamic_round_trip_partial` are met. -/
example (rest : List Event) : ∃ out evs,
    (ser ((trio true).schema .dynamic none) 9).Emits (.struct 0 (.init aTrio "a:o".toList true)) {} out {} ∧
      reread out = some evs ∧ Doc ((trio true).schema .dynamic none) (.struct 0) {} evs aTrio ∧
      Drv.run (genEnv posTrack) (de ((trio true).schema .dynamic none) 9 (.struct 0)).toDeser
        { helper := {} } (evs ++ rest) = .done aTrio rest :=
  C13_nested_dynamic_round_trip_partial (trio true) none duoBinds 2 (trio_nested_dynamic _) trio_dynamic 0 _ rfl aTrio
    (aTrio_holds _ _) _ (by intro b hb; cases hb) 9 (by decide +kernel) rest

/-- The namespace of the parts is collected through the groups. -/
example : ("b".toList, "urn:b".toList) ∈
    collect (trio true) (.variant 1) (.alt 1 [.struct [] [[.struct [some "x".toList] []], []]]) := by decide +kernel

theorem trio_global : (trio true).NestedGlobalOk none duoBinds duoFound 0 where
  agree := by
    intro j b hb _
    exact (by decide +kernel : ∀ b ∈ duoFound 0, duoBinds b.1 = b.2 ∧ b.2 ≠ []) b hb
  tags := trio_dynamic.tags
  elems := by
    intro i T e _ hT he hp b hu
    rcases trio_own (inContent_own (List.mem_of_getElem? hT) he) hp with rfl | rfl | rfl
    · rw [uses_a hu rfl (by decide +kernel)]; decide +kernel
    · rw [uses_a hu rfl (by decide +kernel)]; decide +kernel
    · rw [uses_b hu rfl (by decide +kernel)]; decide +kernel
  attrs := by
    intro i T a _ hT ha b hu
    rcases trio_uses (List.mem_of_getElem? hT) (Or.inr ⟨a, ha, hu⟩) with rfl | rfl <;> decide +kernel

/-- The hypotheses of `C13_nested_global_round_trip_partial` are met. -/
example (rest : List Event) : ∃ out evs,
    (ser ((trio true).schema (.global duoFound) none) 9).Emits (.struct 0 (.init aTrio "a:o".toList true)) {} out {} ∧
      reread out = some evs ∧ Doc ((trio true).schema (.global duoFound) none) (.struct 0) {} evs aTrio ∧
      Drv.run (genEnv posTrack) (de ((trio true).schema (.global duoFound) none) 9 (.struct 0)).toDeser
        { helper := {} } (evs ++ rest) = .done aTrio rest :=
  C13_nested_global_round_trip_partial (trio true) none duoBinds duoFound 2 (trio_nested_global _) 0 trio_global _ rfl
    aTrio (aTrio_holds _ _) _ (by intro b hb; cases hb) 9 (by decide +kernel) rest

theorem trio_part_local : ∀ U, (trio false).types[3]? = some U → U.LocalOk none duoBinds "b".toList := by
  intro U hU
  simp [trio] at hU
  subst hU
  refine ⟨?_, ?_, ?_, ?_⟩
  · intro _ ns h _
    cases h
    decide +kernel
  · intro a ha b hu _
    simp only [List.mem_cons, List.not_mem_nil, or_false] at ha
    subst ha
    rw [uses_b hu rfl (by decide +kernel)]; decide +kernel
  · intro a ha a' ha' _ _ _
    simp only [List.mem_cons, List.not_mem_nil, or_false] at ha ha'
    subst ha ha'
    rfl
  · intro _ a ha _ _
    simp only [List.mem_cons, List.not_mem_nil, or_false] at ha
    subst ha
    rfl

theorem trio_local : (trio false).NestedLocalOk none duoBinds where
  types := by
    rintro e ⟨T, hT, he, hne⟩ j U hty hU
    rcases trio_types hT with h | h | h | h <;> simp [trio] at h <;> subst h <;> simp [BodyDecl.elements] at he <;>
      rcases he with rfl | rfl <;> cases hty
    exact trio_part_local U hU
  elems := by
    intro e he hp _
    rcases trio_own he hp with rfl | rfl | rfl
    · exact absurd rfl hp
    · exact absurd rfl hp
    · exact ⟨3, _, rfl, rfl, Or.inl rfl, rfl⟩

theorem trio_root_local : ∀ T, (trio false).types[0]? = some T → T.LocalOk none duoBinds "a".toList := by
  intro U hU
  simp [trio] at hU
  subst hU
  refine ⟨?_, ?_, ?_, ?_⟩
  · intro _ ns h _
    cases h
    decide +kernel
  · intro a ha b hu _
    simp only [List.mem_cons, List.not_mem_nil, or_false] at ha
    subst ha
    rw [uses_b hu rfl (by decide +kernel)]; decide +kernel
  · intro a ha a' ha' _ _ _
    simp only [List.mem_cons, List.not_mem_nil, or_false] at ha ha'
    subst ha ha'
    rfl
  · intro _ a ha _ h2
    simp only [List.mem_cons, List.not_mem_nil, or_false] at ha
    subst ha
    exact absurd h2 (by decide +kernel)

/-- The hypotheses of `C13_nested_local_round_trip_partial` are met. -/
example (rest : List Event) : ∃ out evs,
    (ser ((trio false).schema .local_ none) 9).Emits (.struct 0 (.init aTrio "a:o".toList true)) {} out {} ∧
      reread out = some evs ∧ Doc ((trio false).schema .local_ none) (.struct 0) {} evs aTrio ∧
      Drv.run (genEnv posTrack) (de ((trio false).schema .local_ none) 9 (.struct 0)).toDeser
        { helper := {} } (evs ++ rest) = .done aTrio rest :=
  C13_nested_local_round_trip_partial (trio false) none duoBinds 2 (trio_nested_local _) trio_local 0 _ rfl aTrio
    (aTrio_holds _ _) "a:o".toList (trio_root_local _ rfl) 9 (by decide +kernel) rest

/-- A name without a prefix. -/
def bare (l : String) : NameSpec := ⟨l.toList, true, none, some "urn:a".toList⟩

/-- Any number of pairs of a key and perhaps a value, without prefixes. -/
def pairs : Decls Str where
  types := [
    { tag := bare "pairs"
      attrs := [⟨bare "lang", true, none, 0⟩]
      body := .seq [⟨bare "pair", 0, .unbounded, .variant 1⟩] },
    { tag := bare "pair"
      attrs := []
      body := .seq [⟨bare "key", 1, .bounded 1, .simple 0⟩, ⟨bare "val", 0, .bounded 1, .simple 0⟩] }]
  print := fun _ s => some s
  parse := fun _ s => .ok s
  num := fun _ => none

theorem bare_pfx (l : String) : ((bare l).element none).pfx = [] := rfl

/-- `<pairs lang="en"><key>k</key><key>l</key><val>v</val></pairs>`. -/
def aPairs : Val Str :=
  .struct [some "en".toList]
    [[.struct [] [[.simple "k".toList], []], .struct [] [[.simple "l".toList], [.simple "v".toList]]]]

theorem pair_holds (s : Str) (hs : SimpleOk (pairs.schema .none none) 0 s) (vs : List (Val Str))
    (h : vs = [] ∨ vs = [.simple "v".toList]) :
    Holds (pairs.schema .none none) (.variant 1) (.struct [] [[.simple s], vs]) := by
  refine .group rfl rfl rfl ⟨_, List.mem_cons_self, by simp⟩ ?_ ?_
  · intro i f hf
    rcases i with _ | _ | i <;> simp at hf <;> subst hf
    · exact ⟨Nat.le_refl _, by intro b hb; cases hb; simp⟩
    · rcases h with rfl | rfl <;> exact ⟨Nat.zero_le _, by intro b hb; cases hb; simp⟩
  · intro i f v hf hv
    rcases i with _ | _ | i <;> simp at hf <;> subst hf <;> simp at hv
    · subst hv; exact .simple hs
    · rcases h with rfl | rfl <;> simp at hv
      subst hv
      exact .simple ⟨by decide +kernel, rfl⟩

theorem aPairs_holds : Holds (pairs.schema .none none) (.struct 0) aPairs := by
  refine .fields rfl ⟨rfl, ?_⟩ (Or.inl rfl) rfl ?_ ?_
  · intro i a v ha hv
    rcases i with _ | i <;> simp [pairs, Decls.spec] at ha hv
    subst ha hv
    exact ⟨_, rfl, rfl⟩
  · intro i f hf
    rcases i with _ | i <;> simp at hf
    subst hf
    exact ⟨Nat.zero_le _, by intro b hb; cases hb⟩
  · intro i f v hf hv
    rcases i with _ | i <;> simp at hf
    subst hf
    simp at hv
    rcases hv with rfl | rfl
    · exact pair_holds _ ⟨by decide +kernel, rfl⟩ _ (Or.inl rfl)
    · exact pair_holds _ ⟨by decide +kernel, rfl⟩ _ (Or.inr rfl)

/-- The hypotheses of `C13_nested_none_round_trip_partial` are met. -/
example (rest : List Event) : ∃ out evs,
    (ser (pairs.schema .none none) 9).Emits (.struct 0 (.init aPairs "pairs".toList true)) {} out {} ∧
      reread out = some evs ∧ Doc (pairs.schema .none none) (.struct 0) {} evs aPairs ∧
      Drv.run (genEnv posTrack) (de (pairs.schema .none none) 9 (.struct 0)).toDeser
        { helper := {} } (evs ++ rest) = .done aPairs rest := by
  refine C13_nested_none_round_trip_partial pairs none 2 (Verif.Generate.nestedCheck_sound _ _ (by decide +kernel)) ?_ ?_ 0
    _ rfl aPairs aPairs_holds _ 9 (by decide +kernel) rest
  · rintro e ⟨T, hT, he, _⟩ hp
    simp only [pairs, List.mem_cons, List.not_mem_nil, or_false] at hT
    rcases hT with rfl | rfl <;> simp [BodyDecl.elements] at he
    · subst he; exact absurd rfl hp
    · rcases he with rfl | rfl <;> exact absurd rfl hp
  · intro T hT a ha hp
    simp only [pairs, List.mem_cons, List.not_mem_nil, or_false] at hT
    rcases hT with rfl | rfl <;> simp at ha
    subst ha
    exact absurd rfl hp

end Verif.Gen.Tab

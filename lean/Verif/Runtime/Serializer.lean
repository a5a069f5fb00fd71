import Verif.Runtime.SerHelper

/-!
# The serializer interface (C14)

`Serializer` (xsd-parser-types/src/quick_xml/serialize.rs 96-110) produces events one by one;
`SerializeImpl` (951-1003) writes them until there is no more or an error occurs.
-/

namespace Verif.Rt

/-- The trait `Serializer`: a state, and a function that returns the next event or an error,
or nothing when it is done; it may change the helper. -/
structure Ser (S E : Type) where
  next : S → SerHelper → Option (Except E Event) × S × SerHelper

/-- `SerializeImpl`: what is written, from state `s` and helper `h` on, and the
helper at the end, if there is no error. -/
inductive Ser.Emits {S E : Type} (z : Ser S E) : S → SerHelper → List Event → SerHelper → Prop
  | done {s h s' h'} (hn : z.next s h = (none, s', h')) : Emits z s h [] h'
  | step {s h ev s' h' evs h''} (hn : z.next s h = (some (.ok ev), s', h'))
      (rest : Emits z s' h' evs h'') : Emits z s h (ev :: evs) h''

/-- The output is unique. -/
theorem Ser.Emits.unique {S E : Type} {z : Ser S E} {s : S} {h h1 h2 : SerHelper}
    {es1 es2 : List Event} (a : z.Emits s h es1 h1) (b : z.Emits s h es2 h2) :
    es1 = es2 ∧ h1 = h2 := by
  induction a generalizing es2 h2 with
  | done hn =>
    cases b with
    | done hn' => rw [hn] at hn'; cases hn'; exact ⟨rfl, rfl⟩
    | step hn' _ => rw [hn] at hn'; cases hn'
  | step hn _ ih =>
    cases b with
    | done hn' => rw [hn] at hn'; cases hn'
    | step hn' r' =>
      rw [hn] at hn'; cases hn'
      obtain ⟨h1, h2⟩ := ih r'
      exact ⟨by rw [h1], h2⟩

/-- A part of a run: some events are written and the serializer has reached another state. -/
inductive Ser.Steps {S E : Type} (z : Ser S E) : S → SerHelper → List Event → S → SerHelper → Prop
  | refl {s h} : Steps z s h [] s h
  | step {s h ev s' h' evs s'' h''} (hn : z.next s h = (some (.ok ev), s', h'))
      (rest : Steps z s' h' evs s'' h'') : Steps z s h (ev :: evs) s'' h''

theorem Ser.Steps.trans {S E : Type} {z : Ser S E} {s1 s2 s3 : S} {h1 h2 h3 : SerHelper}
    {xs ys : List Event} (a : z.Steps s1 h1 xs s2 h2) (b : z.Steps s2 h2 ys s3 h3) :
    z.Steps s1 h1 (xs ++ ys) s3 h3 := by
  induction a with
  | refl => exact b
  | step hn _ ih => exact .step hn (ih b)

theorem Ser.Steps.emits {S E : Type} {z : Ser S E} {s1 s2 : S} {h1 h2 h3 : SerHelper}
    {xs ys : List Event} (a : z.Steps s1 h1 xs s2 h2) (b : z.Emits s2 h2 ys h3) :
    z.Emits s1 h1 (xs ++ ys) h3 := by
  induction a with
  | refl => exact b
  | step hn _ ih => exact .step hn (ih b)

/-- The entries of the helper belong to open scopes; true initially and preserved by all
operations (`SAgrees`). -/
def SerHelper.Ok (h : SerHelper) : Prop := ∀ e ∈ h.entries, e.level ≤ h.level

theorem SAgrees.ok {s : SState} (a : SAgrees s) : s.helper.Ok := by
  intro e he
  rw [a.entries] at he
  rw [a.level]
  exact flatEntries_level e he

/-- The helper after some declarations in a fresh scope. -/
structure InnerOf (h h' : SerHelper) : Prop where
  level : h'.level = h.level + 1
  entries : ∃ new, h'.entries = new ++ h.entries ∧ ∀ e ∈ new, e.level = h.level + 1

theorem innerOf_begin (h : SerHelper) : InnerOf h h.beginScope :=
  ⟨rfl, [], rfl, by simp⟩

theorem innerOf_add {h h' : SerHelper} (i : InnerOf h h') (t : Tag) (p ns : Str) :
    InnerOf h (h'.addEntry t p ns).2 := by
  obtain ⟨new, hn, hl⟩ := i.entries
  refine ⟨i.level, ⟨h'.level, p, ns⟩ :: new, by simp [SerHelper.addEntry, hn], ?_⟩
  intro e he
  rcases List.mem_cons.mp he with rfl | he
  · exact i.level
  · exact hl e he

theorem innerOf_xmlns {h h' : SerHelper} (i : InnerOf h h') (t : Tag) (p ns : Str) :
    InnerOf h (h'.writeXmlns t p ns).2 := by
  unfold SerHelper.writeXmlns
  cases h'.entries.find? fun e => e.ns == ns with
  | none => exact innerOf_add i t p ns
  | some e =>
    simp only
    by_cases hp : e.pfx = p
    · simp only [if_pos hp]; exact i
    · simp only [if_neg hp]; exact innerOf_add i t p ns

theorem innerOf_qname {h h' : SerHelper} (i : InnerOf h h') (t : Tag) (p ns : Str) :
    InnerOf h (h'.addQName t p ns).2.2 := by
  unfold SerHelper.addQName
  cases h'.entries.find? fun e => e.ns == ns with
  | none => exact innerOf_add i t p ns
  | some e => exact i

theorem innerOf_ok {h h' : SerHelper} (ok : h.Ok) (i : InnerOf h h') : h'.Ok := by
  obtain ⟨new, hn, hl⟩ := i.entries
  intro e he
  rw [hn, List.mem_append] at he
  rw [i.level]
  rcases he with he | he
  · rw [hl e he]; exact Nat.le_refl _
  · exact Nat.le_succ_of_le (ok e he)

theorem innerOf_end {h h' : SerHelper} (ok : h.Ok) (i : InnerOf h h') : h'.endScope = h := by
  obtain ⟨new, hn, hl⟩ := i.entries
  unfold SerHelper.endScope
  simp only [i.level, Nat.add_sub_cancel, hn]
  rw [dropWhile_append_all _ _ _ (fun e he => by simp [hl e he]),
    dropWhile_none _ _ (fun e he => by have := ok e he; simp; omega)]

end Verif.Rt

import Verif.Util.Decimal
/-!
# Automatically numbered names (C45)

Models `NameBuilder` of `xsd-parser/src/models/naming/default.rs` (74-253). The counter is shared by all builders and
all clones of one `Naming` (`Arc<AtomicUsize>`), so one `World` has one counter; every atomic `fetch_add` is one step.
Strings are lists of characters. `unify` is a parameter (it depends on the `inflector` crate). `usize` is `Nat`.
-/
namespace Verif.Naming

open Verif.Decimal (dec)

/-- `NameBuilder`, default.rs:77-87 (without the shared `id` and the `naming` object). -/
structure Builder where
  myId : Option Nat
  withId : Bool
  generated : Bool
  name : Option (List Char)
  ext : Option (List Char)
deriving DecidableEq, Repr

/-- `Name`, models/name.rs. -/
inductive Name where
  | named (s : List Char)
  | generated (s : List Char)
deriving DecidableEq, Repr

/-- `Name::as_str`. -/
def Name.str : Name → List Char
  | .named s | .generated s => s

/-- `NameBuilder::new`, default.rs:93-103. -/
def Builder.new : Builder := ⟨none, true, false, none, none⟩

/-- The text without number computed by `finish`, default.rs:132-149. -/
def Builder.base (unify : List Char → List Char) (b : Builder) : List Char :=
  let ret := match b.ext with
    | some s => unify s
    | none => []
  let ret := match b.name with
    | some s => if ret.isEmpty then ret ++ s else ret ++ unify s
    | none => ret
  if ret.isEmpty then "Unnamed".toList else ret

/-- `NameBuilder::finish`, default.rs:121-162: returns the name and the new value of the shared counter. -/
def Builder.finish (unify : List Char → List Char) (counter : Nat) (b : Builder) : Name × Nat :=
  let ret := b.base unify
  let raw := match b.ext with
    | some s => unify s
    | none => []
  let raw' := match b.name with
    | some s => if raw.isEmpty then raw ++ s else raw ++ unify s
    | none => raw
  let generated := b.generated || b.ext.isSome || raw'.isEmpty || b.withId
  if b.withId then
    match b.myId with
    | some id => (.generated (ret ++ dec id), counter)
    | none => (.generated (ret ++ dec counter), counter + 1)
  else (if generated then .generated ret else .named ret, counter)

/-- `NameBuilder::merge`, default.rs:164-181. -/
def Builder.merge (self other : Builder) : Builder :=
  match other.name with
  | none => self
  | some name =>
    let self := { self with
      name := some (self.name.getD name), withId := other.withId, generated := other.generated }
    let self := match other.myId with
      | some id => { self with withId := other.withId, myId := some (self.myId.getD id) }
      | none => self
    match other.ext with
    | some e => { self with ext := some (self.ext.getD e) }
    | none => self

/-- `NameBuilder::add_extension`, default.rs:207-217. -/
def Builder.addExtension (unify : List Char → List Char) (b : Builder) (replace : Bool) (e : List Char) : Builder :=
  let s := unify e
  if replace then { b with ext := some s } else
  match b.ext with
  | some p => { b with ext := some (s ++ p) }
  | none => { b with ext := some s }

/-- `str::strip_suffix` with the fallback to the unchanged string. -/
def stripSuf (s suf : List Char) : List Char :=
  if suf.isSuffixOf s then s.take (s.length - suf.length) else s

/-- `NameBuilder::strip_suffix`, default.rs:219-231 (`prepare_*`, 239-252, are two such calls). -/
def Builder.stripSuffix (b : Builder) (suf : List Char) : Builder :=
  { b with name := b.name.map (stripSuf · suf), ext := b.ext.map (stripSuf · suf) }

/-- The state: the shared counter and all builders alive. -/
structure World where
  counter : Nat
  builders : List Builder
deriving Repr

/-- One call of the builder API. `i`, `j` select builders. -/
inductive Op where
  /-- `naming.builder()` (on any clone of the naming object) -/
  | new
  /-- `builder.clone()` -/
  | clone (i : Nat)
  | merge (i j : Nat)
  | setName (i : Nat) (s : List Char)
  | setWithId (i : Nat) (v : Bool)
  | setGenerated (i : Nat) (v : Bool)
  | addExtension (i : Nat) (replace : Bool) (s : List Char)
  | stripSuffix (i : Nat) (s : List Char)
  | generateUniqueId (i : Nat)
  | finish (i : Nat)
deriving Repr

/-- What a `finish` call that appends a number is observed to do. -/
structure Numbered where
  /-- the text before the number -/
  base : List Char
  /-- the id fixed in the builder beforehand by `generate_unique_id`, if any -/
  pinned : Option Nat
  /-- the resulting name -/
  name : Name
deriving DecidableEq, Repr

/-- One API call: new state and, for a numbering `finish`, the observation. -/
def step (unify : List Char → List Char) (w : World) : Op → World × Option Numbered
  | .new => ({ w with builders := w.builders ++ [Builder.new] }, none)
  | .clone i => match w.builders[i]? with
    | some b => ({ w with builders := w.builders ++ [b] }, none)
    | none => (w, none)
  | .merge i j => match w.builders[i]?, w.builders[j]? with
    | some a, some b => ({ w with builders := w.builders.set i (a.merge b) }, none)
    | _, _ => (w, none)
  | .setName i s => match w.builders[i]? with
    | some b => ({ w with builders := w.builders.set i { b with name := some s } }, none)
    | none => (w, none)
  | .setWithId i v => match w.builders[i]? with
    | some b => ({ w with builders := w.builders.set i { b with withId := v } }, none)
    | none => (w, none)
  | .setGenerated i v => match w.builders[i]? with
    | some b => ({ w with builders := w.builders.set i { b with generated := v } }, none)
    | none => (w, none)
  | .addExtension i r s => match w.builders[i]? with
    | some b => ({ w with builders := w.builders.set i (b.addExtension unify r s) }, none)
    | none => (w, none)
  | .stripSuffix i s => match w.builders[i]? with
    | some b => ({ w with builders := w.builders.set i (b.stripSuffix s) }, none)
    | none => (w, none)
  -- default.rs:233-237
  | .generateUniqueId i => match w.builders[i]? with
    | some b => if b.myId.isNone then
        ({ counter := w.counter + 1, builders := w.builders.set i { b with myId := some w.counter } }, none)
      else (w, none)
    | none => (w, none)
  | .finish i => match w.builders[i]? with
    | some b =>
      let (n, c) := b.finish unify w.counter
      ({ w with counter := c },
        if b.withId then some { base := b.base unify, pinned := b.myId, name := n } else none)
    | none => (w, none)

/-- Runs a history of calls and collects the numbered names in order. -/
def run (unify : List Char → List Char) (w : World) : List Op → World × List Numbered
  | [] => (w, [])
  | op :: ops =>
    let (w', o) := step unify w op
    let (w'', os) := run unify w' ops
    (w'', o.toList ++ os)

/-- The initial state: `Naming::default()`. -/
def World.init : World := ⟨0, []⟩

/-! ## Proofs -/

/-- Every id pinned in some builder satisfies `P`. -/
def PinnedIn (w : World) (P : Nat → Prop) : Prop := ∀ b ∈ w.builders, ∀ id, b.myId = some id → P id

theorem pinned_set {w : World} {P : Nat → Prop} (h : PinnedIn w P) (i : Nat) (b : Builder)
    (hb : ∀ id, b.myId = some id → P id) (c : Nat) : PinnedIn ⟨c, w.builders.set i b⟩ P := by
  intro b' hb' id hid
  rcases List.mem_or_eq_of_mem_set hb' with h' | rfl
  · exact h b' h' id hid
  · exact hb id hid

theorem pinned_append {w : World} {P : Nat → Prop} (h : PinnedIn w P) (b : Builder)
    (hb : ∀ id, b.myId = some id → P id) (c : Nat) : PinnedIn ⟨c, w.builders ++ [b]⟩ P := by
  intro b' hb' id hid
  simp only [List.mem_append, List.mem_singleton] at hb'
  rcases hb' with h' | rfl
  · exact h b' h' id hid
  · exact hb id hid

theorem merge_myId (a b : Builder) (id : Nat) (h : (a.merge b).myId = some id) :
    a.myId = some id ∨ b.myId = some id := by
  unfold Builder.merge at h
  cases hn : b.name with
  | none => simp [hn] at h; exact Or.inl h
  | some n =>
    cases hb : b.myId with
    | none => cases he : b.ext <;> simp [hn, hb, he] at h <;> exact Or.inl h
    | some k =>
      cases ha : a.myId with
      | none => cases he : b.ext <;> simp [hn, hb, he, ha] at h <;> exact Or.inr (by rw [h])
      | some m => cases he : b.ext <;> simp [hn, hb, he, ha] at h <;> exact Or.inl (by rw [h])

/-- The effect of a step on pinned ids and the counter. `P` holds of ids pinned so far. -/
theorem step_spec (unify : List Char → List Char) (w : World) (op : Op) (P : Nat → Prop)
    (hP : PinnedIn w P) :
    w.counter ≤ (step unify w op).1.counter ∧
    (∀ o, (step unify w op).2 = some o →
      (∃ id, o.pinned = some id ∧ P id ∧ o.name = .generated (o.base ++ dec id)) ∨
      (o.pinned = none ∧ o.name = .generated (o.base ++ dec w.counter) ∧
        (step unify w op).1.counter = w.counter + 1 ∧ PinnedIn (step unify w op).1 P)) ∧
    PinnedIn (step unify w op).1 (fun id => P id ∨ (id = w.counter ∧ id < (step unify w op).1.counter ∧
      (step unify w op).2 = none)) := by
  have weaken : ∀ w' (Q : Nat → Prop), PinnedIn w' P → PinnedIn w' (fun id => P id ∨ Q id) :=
    fun w' Q h b hb id hid => Or.inl (h b hb id hid)
  have get : ∀ (i : Nat) (b : Builder), w.builders[i]? = some b → ∀ id, b.myId = some id → P id :=
    fun i b hi id hid => hP b (List.mem_of_getElem? hi) id hid
  cases op with
  | new =>
    refine ⟨Nat.le_refl _, by simp [step], weaken _ _ (pinned_append hP _ (by simp [Builder.new]) _)⟩
  | clone i =>
    simp only [step]
    cases hi : w.builders[i]? with
    | none => exact ⟨Nat.le_refl _, by simp, weaken _ _ hP⟩
    | some b => exact ⟨Nat.le_refl _, by simp, weaken _ _ (pinned_append hP _ (get i b hi) _)⟩
  | merge i j =>
    simp only [step]
    cases hi : w.builders[i]? with
    | none => exact ⟨Nat.le_refl _, by simp, weaken _ _ hP⟩
    | some a =>
      cases hj : w.builders[j]? with
      | none => exact ⟨Nat.le_refl _, by simp, weaken _ _ hP⟩
      | some b =>
        refine ⟨Nat.le_refl _, by simp, weaken _ _ (pinned_set hP _ _ ?_ _)⟩
        intro id hid
        rcases merge_myId a b id hid with h | h
        · exact get i a hi id h
        · exact get j b hj id h
  | setName i s =>
    simp only [step]
    cases hi : w.builders[i]? with
    | none => exact ⟨Nat.le_refl _, by simp, weaken _ _ hP⟩
    | some b => exact ⟨Nat.le_refl _, by simp, weaken _ _ (pinned_set hP _ _ (by exact get i b hi) _)⟩
  | setWithId i v =>
    simp only [step]
    cases hi : w.builders[i]? with
    | none => exact ⟨Nat.le_refl _, by simp, weaken _ _ hP⟩
    | some b => exact ⟨Nat.le_refl _, by simp, weaken _ _ (pinned_set hP _ _ (by exact get i b hi) _)⟩
  | setGenerated i v =>
    simp only [step]
    cases hi : w.builders[i]? with
    | none => exact ⟨Nat.le_refl _, by simp, weaken _ _ hP⟩
    | some b => exact ⟨Nat.le_refl _, by simp, weaken _ _ (pinned_set hP _ _ (by exact get i b hi) _)⟩
  | addExtension i r s =>
    simp only [step]
    cases hi : w.builders[i]? with
    | none => exact ⟨Nat.le_refl _, by simp, weaken _ _ hP⟩
    | some b =>
      refine ⟨Nat.le_refl _, by simp, weaken _ _ (pinned_set hP _ _ ?_ _)⟩
      have : (b.addExtension unify r s).myId = b.myId := by
        unfold Builder.addExtension
        cases r <;> cases b.ext <;> rfl
      rw [this]; exact get i b hi
  | stripSuffix i s =>
    simp only [step]
    cases hi : w.builders[i]? with
    | none => exact ⟨Nat.le_refl _, by simp, weaken _ _ hP⟩
    | some b => exact ⟨Nat.le_refl _, by simp, weaken _ _ (pinned_set hP _ _ (by exact get i b hi) _)⟩
  | generateUniqueId i =>
    simp only [step]
    cases hi : w.builders[i]? with
    | none => exact ⟨Nat.le_refl _, by simp, weaken _ _ hP⟩
    | some b =>
      by_cases hm : b.myId.isNone = true
      · simp only [hm, if_true]
        refine ⟨Nat.le_succ _, by simp, pinned_set (w := w) (weaken _ _ hP) _ _ ?_ _⟩
        intro id hid
        simp at hid
        exact Or.inr ⟨hid.symm, by simp [← hid], trivial⟩
      · simp only [hm, if_false]
        exact ⟨Nat.le_refl _, by simp, weaken _ _ hP⟩
  | finish i =>
    simp only [step]
    cases hi : w.builders[i]? with
    | none => exact ⟨Nat.le_refl _, by simp, weaken _ _ hP⟩
    | some b =>
      have hbuilders : ∀ c, PinnedIn ⟨c, w.builders⟩ P := fun _ => hP
      by_cases hw : b.withId = true
      · cases hm : b.myId with
        | some id =>
          simp only [Builder.finish, hw, hm, if_true]
          refine ⟨Nat.le_refl _, ?_, weaken _ _ hP⟩
          intro o ho
          injection ho with ho
          subst ho
          exact Or.inl ⟨id, rfl, get i b hi id hm, rfl⟩
        | none =>
          simp only [Builder.finish, hw, hm, if_true]
          refine ⟨Nat.le_succ _, ?_, weaken _ _ (hbuilders _)⟩
          intro o ho
          injection ho with ho
          subst ho
          exact Or.inr ⟨rfl, rfl, trivial, hbuilders _⟩
      · simp only [Builder.finish, hw, if_false]
        exact ⟨Nat.le_refl _, by simp, weaken _ _ (hbuilders _)⟩

/-- The id used for an observation that did not pin one is at least the counter before the run. -/
theorem run_spec (unify : List Char → List Char) (ops : List Op) :
    ∀ (w : World) (P : Nat → Prop), PinnedIn w P → (∀ id, P id → id < w.counter) →
    ∃ ids : List Nat, ids.length = (run unify w ops).2.length ∧
      (∀ p ∈ (run unify w ops).2.zip ids, p.1.name = .generated (p.1.base ++ dec p.2)) ∧
      (∀ p ∈ (run unify w ops).2.zip ids, ∀ id, p.1.pinned = some id → p.2 = id) ∧
      (∀ p ∈ (run unify w ops).2.zip ids, p.1.pinned = none → w.counter ≤ p.2) ∧
      (∀ p ∈ (run unify w ops).2.zip ids, P p.2 ∨ w.counter ≤ p.2) ∧
      ((run unify w ops).2.zip ids).Pairwise
        (fun p q => p.2 = q.2 → p.1.pinned = some p.2 ∧ q.1.pinned = some q.2) := by
  induction ops with
  | nil => intro w P _ _; exact ⟨[], by simp [run]⟩
  | cons op ops ih =>
    intro w P hP hlt
    obtain ⟨hle, hobs, hpin⟩ := step_spec unify w op P hP
    generalize hs : step unify w op = r at *
    obtain ⟨w', o⟩ := r
    have hrun : run unify w (op :: ops) = ((run unify w' ops).1, o.toList ++ (run unify w' ops).2) := by
      simp [run, hs]
    rw [hrun]
    cases o with
    | none =>
      obtain ⟨ids, h1, h2, h3, h4, h5, h6⟩ := ih w' _ hpin (by
        rintro id (h | ⟨rfl, h, _⟩)
        · exact Nat.lt_of_lt_of_le (hlt id h) hle
        · exact h)
      refine ⟨ids, by simpa using h1, by simpa using h2, by simpa using h3, ?_, ?_, by simpa using h6⟩
      · intro p hp hpn
        exact Nat.le_trans hle (h4 p (by simpa using hp) hpn)
      · intro p hp
        rcases h5 p (by simpa using hp) with (h | ⟨h, _⟩) | h
        · exact Or.inl h
        · exact Or.inr (by omega)
        · exact Or.inr (Nat.le_trans hle h)
    | some o =>
      rcases hobs o rfl with ⟨id, hid, hPid, hname⟩ | ⟨hnone, hname, hc, hpin'⟩
      · obtain ⟨ids, h1, h2, h3, h4, h5, h6⟩ := ih w' P (by
          intro b hb id' hid'
          rcases hpin b hb id' hid' with h | ⟨_, _, h⟩
          · exact h
          · simp at h) (fun id h => Nat.lt_of_lt_of_le (hlt id h) hle)
        refine ⟨id :: ids, by simp [h1], ?_, ?_, ?_, ?_, ?_⟩
        · intro p hp
          simp at hp
          rcases hp with rfl | hp
          · exact hname
          · exact h2 p hp
        · intro p hp
          simp at hp
          rcases hp with rfl | hp
          · intro id' h; simp [hid] at h; exact h
          · exact h3 p hp
        · intro p hp hpn
          simp at hp
          rcases hp with rfl | hp
          · simp [hid] at hpn
          · exact Nat.le_trans hle (h4 p hp hpn)
        · intro p hp
          simp at hp
          rcases hp with rfl | hp
          · exact Or.inl hPid
          · rcases h5 p hp with h | h
            · exact Or.inl h
            · exact Or.inr (Nat.le_trans hle h)
        · simp only [Option.toList_some, List.singleton_append, List.zip_cons_cons, List.pairwise_cons]
          refine ⟨?_, h6⟩
          intro q hq heq
          refine ⟨hid, ?_⟩
          cases hqp : q.1.pinned with
          | some k => rw [h3 q hq k hqp]
          | none =>
            have := h4 q hq hqp; have heq : id = q.2 := heq; have hle : w.counter ≤ w'.counter := hle
            have := hlt id hPid
            omega
      · obtain ⟨ids, h1, h2, h3, h4, h5, h6⟩ := ih w' P hpin' (fun id h => Nat.lt_of_lt_of_le (hlt id h) hle)
        refine ⟨w.counter :: ids, by simp [h1], ?_, ?_, ?_, ?_, ?_⟩
        · intro p hp
          simp at hp
          rcases hp with rfl | hp
          · exact hname
          · exact h2 p hp
        · intro p hp
          simp at hp
          rcases hp with rfl | hp
          · intro id' h; simp [hnone] at h
          · exact h3 p hp
        · intro p hp hpn
          simp at hp
          rcases hp with rfl | hp
          · exact Nat.le_refl _
          · exact Nat.le_trans hle (h4 p hp hpn)
        · intro p hp
          simp at hp
          rcases hp with rfl | hp
          · exact Or.inr (Nat.le_refl _)
          · rcases h5 p hp with h | h
            · exact Or.inl h
            · exact Or.inr (Nat.le_trans hle h)
        · simp only [Option.toList_some, List.singleton_append, List.zip_cons_cons, List.pairwise_cons]
          refine ⟨?_, h6⟩
          intro q hq heq
          exfalso
          simp at heq hc
          rcases h5 q hq with h | h
          · have := hlt _ h; omega
          · omega

/-- C45: in every history of builder calls on one naming object, two numbered names with the same text before the
number coincide only if both took the number from the same earlier `generate_unique_id` call (`pinned`). In
particular a `finish` call that has to draw its number never repeats any other numbered name of that text. -/
theorem C45_numbered_names_unique (unify : List Char → List Char) (ops : List Op) :
    (run unify World.init ops).2.Pairwise (fun o₁ o₂ =>
      o₁.base = o₂.base → o₁.name.str = o₂.name.str → o₁.pinned.isSome ∧ o₁.pinned = o₂.pinned) := by
  obtain ⟨ids, h1, h2, h3, h4, h5, h6⟩ := run_spec unify ops World.init (fun _ => False)
    (by simp [PinnedIn, World.init]) (by simp)
  have hz : (run unify World.init ops).2 = ((run unify World.init ops).2.zip ids).map (·.1) := by
    rw [List.map_fst_zip]; omega
  rw [hz, List.pairwise_map]
  refine List.Pairwise.imp_of_mem ?_ h6
  intro p q hp hq hpq hb hn
  rw [h2 p hp, h2 q hq] at hn
  simp only [Name.str, hb] at hn
  have hid := Verif.Decimal.dec_inj (List.append_cancel_left hn)
  obtain ⟨e1, e2⟩ := hpq hid
  exact ⟨by simp [e1], by rw [e1, e2, hid]⟩

/-- Non-vacuity: three builders for the same text, one of them cloned after fixing its number. -/
example :
    let ops := [Op.new, .setName 0 "A".toList, .finish 0, .new, .setName 1 "A".toList, .generateUniqueId 1,
      .clone 1, .finish 1, .finish 2, .finish 0]
    (run id World.init ops).2.map (fun o => (String.ofList o.name.str, o.pinned)) =
      [("A0", none), ("A1", some 1), ("A1", some 1), ("A2", none)] := by
  decide +kernel

/-- Finding: across different texts numbered names can coincide: `A1` with number `0` and `A` with number `10`. -/
theorem C45_collision_across_texts : ∃ ops : List Op, ∃ o₁ o₂,
    o₁ ∈ (run id World.init ops).2 ∧ o₂ ∈ (run id World.init ops).2 ∧ o₁.pinned = none ∧ o₂.pinned = none ∧
    o₁.base ≠ o₂.base ∧ o₁.name = o₂.name := by
  refine ⟨[.new, .setName 0 "A1".toList, .new, .setName 1 "A".toList, .finish 0] ++ List.replicate 10 (.finish 1),
    ⟨"A1".toList, none, .generated "A10".toList⟩, ⟨"A".toList, none, .generated "A10".toList⟩, ?_, ?_, rfl, rfl, ?_, rfl⟩
  · decide +kernel
  · decide +kernel
  · decide

end Verif.Naming

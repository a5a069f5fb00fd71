import Verif.Generate.Worklist
import Verif.Opt.Duplicates

/-!
# Boxes for recursive types (C49)

Rust rejects a type that contains itself by value. The generator (model: `Verif.Generate.Worklist`)
avoids this with a box for an element whose type reaches the current type. What a type is reached
from is recorded when the containing type is generated, so the result depends on the order in which
types are generated.
-/

namespace Verif.Generate

open Verif.Meta Verif.Occurs
open Verif.Opt (exElem)

/-! ## Specification -/

/-- The generated type `i` stores a `j` by value, for an element or a value. (Attributes and
the bases of simple types are also stored by value, but these are simple types.) -/
def Holds (items : List (Ident × List Mention)) (i j : Ident) : Prop :=
  ∃ ms, (i, ms) ∈ items ∧ ∃ m ∈ ms, m.target = j ∧ m.inline_ = true ∧ m.via ≠ .plain

/-- … for an element. -/
def HoldsElement (items : List (Ident × List Mention)) (i j : Ident) : Prop :=
  ∃ ms, (i, ms) ∈ items ∧ ∃ m ∈ ms, m.target = j ∧ m.inline_ = true ∧ m.via = .element

theorem HoldsElement.holds {items : List (Ident × List Mention)} {i j : Ident}
    (h : HoldsElement items i j) : Holds items i j := by
  obtain ⟨ms, h1, m, h2, h3, h4, h5⟩ := h
  exact ⟨ms, h1, m, h2, h3, h4, by rw [h5]; decide⟩

/-- A path from `a` to `b`; the list has the types in between. -/
def Path (R : Ident → Ident → Prop) : Ident → List Ident → Ident → Prop
  | a, [], b => R a b
  | a, x :: l, b => R a x ∧ Path R x l b

/-- From `u` values lead back to `L`: `u` is `L`, or there is a path on which all types before
`L` were generated before `L` (the last one), and in the order of the path with at most one
exception. `order` is the order of generation. -/
inductive Comeback (R : Ident → Ident → Prop) (order : List Ident) (L : Ident) : Ident → Prop
  | self : Comeback R order L L
  | up {u p} (h : Path R u p L) (ho : List.Sublist (u :: p ++ [L]) order) : Comeback R order L u
  | down {u p v q} (h : Path R u p v) (ho : List.Sublist (u :: p ++ [L]) order)
      (h' : Path R v q L) (ho' : List.Sublist (v :: q ++ [L]) order) : Comeback R order L u

/-! ## Lemmas -/

theorem Path.imp {R R' : Ident → Ident → Prop} {p : List Ident} :
    ∀ {a b : Ident}, (∀ x ∈ a :: p, ∀ y, R x y → R' x y) → Path R a p b → Path R' a p b := by
  induction p with
  | nil => intro a b h hp; exact h a (by simp) b hp
  | cons x p ih =>
    intro a b h hp
    exact ⟨h a (by simp) x hp.1, ih (fun y hy => h y (by simp at hy ⊢; exact Or.inr hy)) hp.2⟩

theorem Path.snoc {R : Ident → Ident → Prop} {p : List Ident} {x : Ident} :
    ∀ {a b : Ident}, Path R a (p ++ [x]) b → Path R a p x ∧ R x b := by
  induction p with
  | nil => intro a b h; exact h
  | cons y p ih => intro a b h; obtain ⟨h1, h2⟩ := ih h.2; exact ⟨⟨h.1, h1⟩, h2⟩

theorem sublist_snoc {α : Type} {w l : List α} {i : α} (h : List.Sublist w (l ++ [i])) :
    List.Sublist w l ∨ ∃ w', w = w' ++ [i] ∧ List.Sublist w' l := by
  obtain ⟨l1, l2, rfl, h1, h2⟩ := List.sublist_append_iff.mp h
  cases l2 with
  | nil => exact Or.inl (by simpa using h1)
  | cons x l2 =>
    right
    have hlen := h2.length_le
    simp at hlen
    subst hlen
    have : x = i := by simpa using h2.subset (List.mem_cons_self ..)
    subst this
    exact ⟨l1, rfl, h1⟩

/-- What requests record. -/
structure Marks (T : Types) (reach : List Nat) (s s' : State) (ms : List Mention) : Prop where
  record : ∀ m ∈ ms, m.inline_ = true → m.via ≠ .plain →
    ∃ r', Assoc.get s'.cache m.target = some r' ∧ ∀ x ∈ reach, x ∈ r'.reachable
  check : ∀ m ∈ ms, m.inline_ = true → m.via = .element →
    ∀ r, Assoc.get s.cache m.target = some r → m.target ∈ Assoc.keys T → r.id ∉ reach

theorem addReach_marks {s : State} {i : Ident} {reach : List Nat} (hi : i ∈ Assoc.keys s.cache) :
    ∃ r', Assoc.get (addReach s i reach).cache i = some r' ∧ ∀ x ∈ reach, x ∈ r'.reachable := by
  obtain ⟨r, hr⟩ := Option.isSome_iff_exists.mp ((Assoc.get_isSome s.cache i).mpr hi)
  unfold addReach
  simp only
  rw [Assoc.get_upsert, if_pos rfl, hr]
  exact ⟨_, rfl, fun x hx => List.mem_append_right _ hx⟩

theorem getOrCreate_mem {T : Types} {s s' : State} {i : Ident} (h : getOrCreate T s i = .ok s') :
    i ∈ Assoc.keys s'.cache := by
  unfold getOrCreate at h
  cases hc : Assoc.get s.cache i with
  | some r =>
    rw [hc] at h
    cases h
    exact (Assoc.get_isSome _ _).mp (by rw [hc]; rfl)
  | none =>
    rw [hc] at h
    cases ht : Assoc.get T i with
    | none => rw [ht] at h; cases h
    | some ty =>
      rw [ht] at h
      cases h
      exact (Assoc.mem_keys_upsert _ _ _ _).mpr (Or.inl rfl)

/-- An element is not boxed only if its type is unknown so far or does not reach the current one. -/
theorem needBox_false {T : Types} {s : State} {reach : List Nat} {i : Ident}
    (h : needBox T s reach i = some false) {r : TypeRef} (hr : Assoc.get s.cache i = some r)
    (hi : i ∈ Assoc.keys T) : r.id ∉ reach := by
  obtain ⟨ty, hty⟩ := Option.isSome_iff_exists.mp ((Assoc.get_isSome T i).mpr hi)
  intro hm
  unfold needBox at h
  rw [needBoxF, hty, hr] at h
  simp only at h
  rw [if_pos hm] at h
  cases h

theorem stepReq_marks {T : Types} {s s' : State} {cur : Ident} {reach : List Nat} {r : Req}
    {ms : List Mention} (h : stepReq T cur reach s r = .ok (s', ms)) : Marks T reach s s' ms := by
  cases r with
  | plain i inl =>
    simp only [stepReq] at h
    cases hg : getOrCreate T s i with
    | error e => rw [hg] at h; cases h
    | ok s1 =>
      rw [hg] at h
      cases h
      constructor
      · intro m hm _ hv; simp at hm; subst hm; exact absurd rfl hv
      · intro m hm _ hv; simp at hm; subst hm; cases hv
  | value i byValue =>
    simp only [stepReq] at h
    cases hg : getOrCreate T s i with
    | error e => rw [hg] at h; cases h
    | ok s1 =>
      rw [hg] at h
      cases h
      constructor
      · intro m hm hi _
        simp at hm; subst hm
        simp only at hi
        subst hi
        exact addReach_marks (getOrCreate_mem hg)
      · intro m hm _ hv; simp at hm; subst hm; cases hv
  | element i d o f =>
    simp only [stepReq] at h
    cases hn : (if !f && d && o then needBox T s reach i else some false) with
    | none => rw [hn] at h; cases h
    | some boxed =>
      rw [hn] at h
      simp only at h
      cases hg : getOrCreate T s i with
      | error e => rw [hg] at h; cases h
      | ok s1 =>
        rw [hg] at h
        cases h
        have key : ∀ m ∈ [(⟨i, d && o && !((d && boxed) || f), .element⟩ : Mention)],
            m.inline_ = true → m.target = i ∧ boxed = false ∧ f = false ∧ d = true ∧ o = true := by
          intro m hm hi
          simp at hm; subst hm
          simp only at hi
          cases d <;> cases o <;> cases boxed <;> cases f <;> simp at hi ⊢
        constructor
        · intro m hm hi _
          obtain ⟨h1, rfl, _, _⟩ := key m hm hi
          rw [h1]
          exact addReach_marks (getOrCreate_mem hg)
        · intro m hm hi _ r hr hk
          obtain ⟨h1, rfl, rfl, rfl, rfl⟩ := key m hm hi
          rw [h1] at hr hk
          exact needBox_false hn hr hk
  | traitImpls =>
    simp only [stepReq] at h
    cases hg : requestAll T s (traitsOf s cur).impls with
    | error e => rw [hg] at h; cases h
    | ok s1 =>
      rw [hg] at h
      cases h
      constructor
      · intro m hm hi; obtain ⟨_, _, rfl⟩ := List.mem_map.mp hm; cases hi
      · intro m hm hi; obtain ⟨_, _, rfl⟩ := List.mem_map.mp hm; cases hi
  | traitDerives =>
    simp only [stepReq] at h
    cases hg : requestAll T s (traitsOf s cur).derives with
    | error e => rw [hg] at h; cases h
    | ok s1 =>
      rw [hg] at h
      cases h
      constructor
      · intro m hm hi; obtain ⟨_, _, rfl⟩ := List.mem_map.mp hm; cases hi
      · intro m hm hi; obtain ⟨_, _, rfl⟩ := List.mem_map.mp hm; cases hi
  | fail => cases h

variable {cfg : Cfg} {T : Types} {fixed roots now : List Ident}

theorem runReqs_marks {cur : Ident} {reach : List Nat} {rs : List Req} :
    ∀ {s s' : State} {ms : List Mention}, Inv cfg T fixed roots now s →
    (∀ x ∈ reach, ValidId s x) →
    (∀ r ∈ rs, ∀ j, r.target = some j → Needed cfg T fixed roots j) →
    runReqs T cur reach s rs = .ok (s', ms) → Marks T reach s s' ms := by
  induction rs with
  | nil =>
    intro s s' ms _ _ _ h
    cases h
    exact ⟨by simp, by simp⟩
  | cons r rs ih =>
    intro s s' ms hinv hreach hr h
    rw [runReqs] at h
    cases hs : stepReq T cur reach s r with
    | error e => rw [hs] at h; cases h
    | ok p =>
      obtain ⟨s1, ms1⟩ := p
      rw [hs] at h
      simp only at h
      obtain ⟨h1, h2, _, _⟩ := stepReq_ok hinv hreach (hr r (by simp)) hs
      have hm := stepReq_marks hs
      cases hrs : runReqs T cur reach s1 rs with
      | error e => rw [hrs] at h; cases h
      | ok q =>
        obtain ⟨s2, ms2⟩ := q
        rw [hrs] at h
        cases h
        have hv1 := fun x hx => (hreach x hx).grows h2
        have hr1 := fun r' (hr' : r' ∈ rs) => hr r' (List.mem_cons_of_mem _ hr')
        have hm2 := ih h1 hv1 hr1 hrs
        obtain ⟨_, h3, _, _⟩ := runReqs_ok h1 hv1 hr1 hrs
        constructor
        · intro m hmem hi hvia
          rcases List.mem_append.mp hmem with hmem | hmem
          · obtain ⟨r1, hr1, hsub⟩ := hm.record m hmem hi hvia
            obtain ⟨r2, hr2, _, hsub2⟩ := h3.refs _ _ hr1
            exact ⟨r2, hr2, fun x hx => hsub2 x (hsub x hx)⟩
          · exact hm2.record m hmem hi hvia
        · intro m hmem hi hvia r hr hk
          rcases List.mem_append.mp hmem with hmem | hmem
          · exact hm.check m hmem hi hvia r hr hk
          · obtain ⟨r1, hr1, hid, _⟩ := h2.refs _ _ hr
            rw [← hid]
            exact hm2.check m hmem hi hvia r1 hr1 hk

theorem reachOf_mem {s : State} {xs ys : List Nat} (h : reachOf s xs = some ys) :
    (∀ x ∈ xs, x ∈ ys) ∧ ∀ x ∈ xs, ∀ j r, s.types[x]? = some j → Assoc.get s.cache j = some r →
      ∀ y ∈ r.reachable, y ∈ ys := by
  induction xs generalizing ys with
  | nil => exact ⟨by simp, by simp⟩
  | cons x xs ih =>
    rw [reachOf] at h
    cases hb : s.types[x]?.bind (Assoc.get s.cache) with
    | none => rw [hb] at h; cases h
    | some r0 =>
      rw [hb] at h
      simp only at h
      cases hy : reachOf s xs with
      | none => rw [hy] at h; cases h
      | some zs =>
        rw [hy] at h
        cases h
        obtain ⟨h1, h2⟩ := ih hy
        constructor
        · intro a ha
          rcases List.mem_cons.mp ha with rfl | ha
          · simp
          · simp [h1 a ha]
        · intro a ha j r hj hr y hyr
          rcases List.mem_cons.mp ha with rfl | ha
          · rw [hj, Option.bind_some, hr] at hb
            cases hb
            simp [hyr]
          · simp [h2 a ha j r hj hr y hyr]

/-- `LoopDetection::get_reachable`: the type, what it is reached from, and what these are reached
from. -/
theorem getReachable_mem {s : State} {i : Ident} {ys : List Nat} (h : getReachable s i = some ys)
    {r : TypeRef} (hr : Assoc.get s.cache i = some r) :
    r.id ∈ ys ∧ (∀ x ∈ r.reachable, x ∈ ys) ∧
      ∀ x ∈ r.reachable, ∀ j r', s.types[x]? = some j → Assoc.get s.cache j = some r' →
        ∀ y ∈ r'.reachable, y ∈ ys := by
  rw [getReachable, hr] at h
  simp only at h
  cases hz : reachOf s r.reachable with
  | none => rw [hz] at h; cases h
  | some zs =>
    rw [hz] at h
    cases h
    obtain ⟨h1, h2⟩ := reachOf_mem hz
    exact ⟨by simp, fun x hx => by simp [h1 x hx],
      fun x hx j r' hj hr' y hy => by simp [h2 x hx j r' hj hr' y hy]⟩

/-! ## Invariant -/

structure BInv (s : State) : Prop where
  chain : ∀ u p v, Path (Holds s.items) u p v → List.Sublist (u :: p) (Assoc.keys s.items) →
    ∃ ru rv, Assoc.get s.cache u = some ru ∧ Assoc.get s.cache v = some rv ∧ ru.id ∈ rv.reachable
  clean : ∀ L u, HoldsElement s.items L u → ¬ Comeback (Holds s.items) (Assoc.keys s.items) L u

theorem BInv.grows {s s' : State} (h : Grows T s s') (hb : BInv s) : BInv s' := by
  constructor
  · intro u p v hp ho
    rw [h.items] at hp ho
    obtain ⟨ru, rv, h1, h2, h3⟩ := hb.chain u p v hp ho
    obtain ⟨ru', h4, h5, _⟩ := h.refs u ru h1
    obtain ⟨rv', h6, _, h7⟩ := h.refs v rv h2
    exact ⟨ru', rv', h4, h6, by rw [h5]; exact h7 _ h3⟩
  · rw [h.items]
    exact hb.clean

theorem generateOne_boxes {s s' : State} {i : Ident} {ty : MetaType}
    (hinv : Inv cfg T fixed roots [i] s) (hb : BInv s) (hty : Assoc.get T i = some ty)
    (h : generateOne cfg T s i ty = .ok s') : BInv s' := by
  have hik : i ∈ Assoc.keys s.cache := (hinv.keysIff i).mpr (Or.inr (Or.inr (Or.inl (by simp))))
  obtain ⟨ri, hri⟩ := Option.isSome_iff_exists.mp ((Assoc.get_isSome s.cache i).mpr hik)
  obtain ⟨reach, hre, hval⟩ := getReachable_ok hinv hik
  obtain ⟨hself, hdirect, hind⟩ := getReachable_mem hre hri
  have hneed : ∀ r ∈ reqsOf cfg T ty.variant, ∀ j, r.target = some j → Needed cfg T fixed roots j := by
    intro r hr j hj
    exact .step (hinv.needed i (Or.inr (Or.inl (by simp)))) (hinv.notFixed i (Or.inr (Or.inl (by simp))))
      hty (refersTo_of_req hr hj)
  have hfresh : i ∉ Assoc.keys s.items := by
    intro hi
    have := (List.nodup_append.mp hinv.nodup).2.2 i hi i (by simp)
    exact this rfl
  unfold generateOne at h
  rw [hre] at h
  simp only at h
  cases hr : runReqs T i reach s (reqsOf cfg T ty.variant) with
  | error e => rw [hr] at h; cases h
  | ok p =>
    obtain ⟨s1, ms⟩ := p
    rw [hr] at h
    cases h
    obtain ⟨h1, h2, h3, h4⟩ := runReqs_ok hinv hval hneed hr
    have hmarks := runReqs_marks hinv hval hneed hr
    have hb1 := hb.grows h2
    have hfresh1 : i ∉ Assoc.keys s1.items := by rw [h2.items]; exact hfresh
    have hkeys : Assoc.keys (s1.items ++ [(i, ms)]) = Assoc.keys s1.items ++ [i] := by simp [Assoc.keys]
    have hold : ∀ a ∈ Assoc.keys s1.items, ∀ b, Holds (s1.items ++ [(i, ms)]) a b → Holds s1.items a b := by
      rintro a ha b ⟨ms', hm, hrest⟩
      rcases List.mem_append.mp hm with hm | hm
      · exact ⟨ms', hm, hrest⟩
      · simp at hm; rw [hm.1] at ha; exact absurd ha hfresh1
    have hcur : ∀ b, Holds (s1.items ++ [(i, ms)]) i b →
        ∃ r', Assoc.get s1.cache b = some r' ∧ ∀ x ∈ reach, x ∈ r'.reachable := by
      rintro b ⟨ms', hm, m, hmm, rfl, hi, hv⟩
      rcases List.mem_append.mp hm with hm | hm
      · exact absurd (List.mem_map.mpr ⟨_, hm, rfl⟩) hfresh1
      · simp at hm; subst hm; exact hmarks.record m hmm hi hv
    -- a chain in the old items
    have hchain : ∀ u p v, Path (Holds (s1.items ++ [(i, ms)])) u p v →
        List.Sublist (u :: p) (Assoc.keys s.items) →
        ∃ ru rv, Assoc.get s.cache u = some ru ∧ Assoc.get s.cache v = some rv ∧ ru.id ∈ rv.reachable := by
      intro u p v hp ho
      refine hb.chain u p v (Path.imp ?_ hp) ho
      intro x hx y hxy
      rw [← h2.items]
      exact hold x (by rw [h2.items]; exact ho.subset hx) y hxy
    constructor
    · intro u p v hp ho
      simp only at hp ho ⊢
      rw [hkeys] at ho
      rcases sublist_snoc ho with ho | ⟨w, hw, ho2⟩
      · refine hb1.chain u p v (Path.imp ?_ hp) ho
        intro x hx y hxy
        exact hold x (ho.subset hx) y hxy
      · rw [h2.items] at ho2
        cases w with
        | nil =>
          simp at hw
          obtain ⟨rfl, rfl⟩ := hw
          obtain ⟨r', hr', hsub⟩ := hcur v hp
          obtain ⟨ru', hru', hid, _⟩ := h2.refs _ _ hri
          exact ⟨ru', r', hru', hr', by rw [hid]; exact hsub _ hself⟩
        | cons u' w =>
          simp at hw
          obtain ⟨rfl, rfl⟩ := hw
          obtain ⟨hp1, hp2⟩ := hp.snoc
          obtain ⟨ru, rv, hru, hrv, hmem⟩ := hchain u w i hp1 ho2
          rw [hri] at hrv
          cases hrv
          obtain ⟨r', hr', hsub⟩ := hcur v hp2
          obtain ⟨ru', hru', hid, _⟩ := h2.refs _ _ hru
          exact ⟨ru', r', hru', hr', by rw [hid]; exact hsub _ (hdirect _ hmem)⟩
    · intro L u hLu hcome
      simp only at hLu hcome
      rw [hkeys] at hcome
      obtain ⟨ms', hm, m, hmm, rfl, hi, hv⟩ := hLu
      -- the order up to `L` has no `i` before `L`
      have hsub : ∀ w : List Ident, List.Sublist (w ++ [L]) (Assoc.keys s1.items ++ [i]) →
          (L ≠ i → List.Sublist (w ++ [L]) (Assoc.keys s1.items)) ∧ List.Sublist w (Assoc.keys s1.items) := by
        intro w hw
        rcases sublist_snoc hw with hw | ⟨w', he, hw'⟩
        · exact ⟨fun _ => hw, (List.sublist_append_left w [L]).trans hw⟩
        · obtain ⟨rfl, he⟩ := List.append_inj' he rfl
          simp at he
          exact ⟨fun hne => absurd he hne, hw'⟩
      rcases List.mem_append.mp hm with hm | hm
      · have hL : L ∈ Assoc.keys s1.items := List.mem_map.mpr ⟨_, hm, rfl⟩
        have hne : L ≠ i := by rintro rfl; exact hfresh1 hL
        apply hb1.clean L m.target ⟨ms', hm, m, hmm, rfl, hi, hv⟩
        generalize m.target = u at hcome
        cases hcome with
        | self => exact .self
        | up hp ho =>
          have ho1 := hsub _ ho
          exact .up (Path.imp (fun x hx y hxy => hold x (ho1.2.subset hx) y hxy) hp) (ho1.1 hne)
        | down hp ho hp' ho' =>
          have ho1 := hsub _ ho
          have ho1' := hsub _ ho'
          exact .down (Path.imp (fun x hx y hxy => hold x (ho1.2.subset hx) y hxy) hp) (ho1.1 hne)
            (Path.imp (fun x hx y hxy => hold x (ho1'.2.subset hx) y hxy) hp') (ho1'.1 hne)
      · simp at hm
        obtain ⟨rfl, rfl⟩ := hm
        have hcheck := hmarks.check m hmm hi hv
        generalize m.target = u at hcome hcheck
        have inT : ∀ {p : List Ident}, List.Sublist (u :: p) (Assoc.keys s.items) → u ∈ Assoc.keys T :=
          fun ho => hinv.known u (Or.inl (ho.subset (by simp)))
        cases hcome with
        | self =>
          exact hcheck ri hri ((Assoc.get_isSome _ _).mp (by rw [hty]; rfl)) hself
        | up hp ho =>
          have ho1 := (hsub _ ho).2
          rw [h2.items] at ho1
          obtain ⟨ru, rv, hru, hrv, hmem⟩ := hchain _ _ _ hp ho1
          rw [hri] at hrv
          cases hrv
          exact hcheck ru hru (inT ho1) (hdirect _ hmem)
        | down hp ho hp' ho' =>
          have ho1 := (hsub _ ho).2
          have ho1' := (hsub _ ho').2
          rw [h2.items] at ho1 ho1'
          obtain ⟨ru, rv, hru, hrv, hmem⟩ := hchain _ _ _ hp ho1
          obtain ⟨rv', rL, hrv', hrL, hmem'⟩ := hchain _ _ _ hp' ho1'
          rw [hri] at hrL
          cases hrL
          rw [hrv] at hrv'
          cases hrv'
          exact hcheck ru hru (inT ho1) (hind _ hmem' _ _ (hinv.ids _ _ hrv).1 hrv _ hmem)

theorem pendingF_boxes (fuel : Nat) :
    ∀ {s s' : State}, Inv cfg T fixed roots [] s → BInv s → pendingF cfg T fuel s = .ok s' → BInv s' := by
  induction fuel with
  | zero => intro s s' _ _ h; cases h
  | succ fuel ih =>
    intro s s' hinv hb h
    rw [pendingF] at h
    cases hp : s.pending with
    | nil => rw [hp] at h; cases h; exact hb
    | cons p rest =>
      obtain ⟨i, ty⟩ := p
      rw [hp] at h
      simp only at h
      obtain ⟨h1, hty⟩ := hinv.pop hp
      cases hg : generateOne cfg T { s with pending := rest } i ty with
      | error e => rw [hg] at h; cases h
      | ok s1 =>
        rw [hg] at h
        obtain ⟨h2, _, _, _⟩ := generateOne_ok h1 hty hg
        exact ih h2 (generateOne_boxes h1 ⟨hb.chain, hb.clean⟩ hty hg) h

theorem calls_boxes {calls : List (List Ident)} :
    ∀ {roots : List Ident} {s s' : State}, Inv cfg T fixed roots [] s → BInv s →
    generateCalls cfg T s calls = .ok s' → BInv s' := by
  induction calls with
  | nil => intro roots s s' _ hb h; cases h; exact hb
  | cons c calls ih =>
    intro roots s s' hinv hb h
    rw [generateCalls] at h
    cases hg : generate cfg T s c with
    | error e => rw [hg] at h; cases h
    | ok s1 =>
      rw [hg] at h
      obtain ⟨h1, _, _, _⟩ := generate_ok hinv c hg
      refine ih h1 ?_ h
      unfold generate at hg
      cases hr : requestAll T s c with
      | error e => rw [hr] at hg; cases hg
      | ok s2 =>
        rw [hr] at hg
        have hinv' := hinv.mono (roots' := roots ++ c) (fun i hi => List.mem_append_left _ hi)
        obtain ⟨h4, h5, _⟩ := requestAll_ok hinv'
          (fun i hi => Or.inl (.root (List.mem_append_right _ hi))) hr
        exact pendingF_boxes _ h4 (hb.grows h5) hg

theorem pendingF_items {P : Mention → Prop}
    (hP : ∀ cur reach s s' v ms, runReqs T cur reach s (reqsOf cfg T v) = .ok (s', ms) → ∀ m ∈ ms, P m)
    (fuel : Nat) :
    ∀ {s s' : State}, Inv cfg T fixed roots [] s → (∀ i ms, (i, ms) ∈ s.items → ∀ m ∈ ms, P m) →
    pendingF cfg T fuel s = .ok s' → ∀ i ms, (i, ms) ∈ s'.items → ∀ m ∈ ms, P m := by
  induction fuel with
  | zero => intro s s' _ _ h; cases h
  | succ fuel ih =>
    intro s s' hinv hb h
    rw [pendingF] at h
    cases hp : s.pending with
    | nil => rw [hp] at h; cases h; exact hb
    | cons p rest =>
      obtain ⟨i, ty⟩ := p
      rw [hp] at h
      simp only at h
      obtain ⟨h1, hty⟩ := hinv.pop hp
      cases hg : generateOne cfg T { s with pending := rest } i ty with
      | error e => rw [hg] at h; cases h
      | ok s1 =>
        rw [hg] at h
        obtain ⟨h2, ⟨ms0, hms0⟩, _, _⟩ := generateOne_ok h1 hty hg
        refine ih h2 ?_ h
        intro j ms hj
        rw [hms0] at hj
        rcases List.mem_append.mp hj with hj | hj
        · exact hb j ms hj
        · simp at hj
          obtain ⟨rfl, rfl⟩ := hj
          unfold generateOne at hg
          split at hg
          · cases hg
          · rename_i reach hre
            cases hr : runReqs T j reach { s with pending := rest } (reqsOf cfg T ty.variant) with
            | error e => rw [hr] at hg; cases hg
            | ok q =>
              obtain ⟨s2, ms2⟩ := q
              rw [hr] at hg
              cases hg
              have : ms2 = ms := by
                simp only at hms0
                have := List.append_inj' hms0 rfl
                simpa using this.2
              subst this
              exact hP _ _ _ _ _ _ hr

theorem calls_items {P : Mention → Prop}
    (hP : ∀ cur reach s s' v ms, runReqs T cur reach s (reqsOf cfg T v) = .ok (s', ms) → ∀ m ∈ ms, P m)
    {calls : List (List Ident)} :
    ∀ {roots : List Ident} {s s' : State}, Inv cfg T fixed roots [] s →
    (∀ i ms, (i, ms) ∈ s.items → ∀ m ∈ ms, P m) →
    generateCalls cfg T s calls = .ok s' → ∀ i ms, (i, ms) ∈ s'.items → ∀ m ∈ ms, P m := by
  induction calls with
  | nil => intro roots s s' _ hb h; cases h; exact hb
  | cons c calls ih =>
    intro roots s s' hinv hb h
    rw [generateCalls] at h
    cases hg : generate cfg T s c with
    | error e => rw [hg] at h; cases h
    | ok s1 =>
      rw [hg] at h
      obtain ⟨h1, _, _, _⟩ := generate_ok hinv c hg
      refine ih h1 ?_ h
      unfold generate at hg
      cases hr : requestAll T s c with
      | error e => rw [hr] at hg; cases hg
      | ok s2 =>
        rw [hr] at hg
        have hinv' := hinv.mono (roots' := roots ++ c) (fun i hi => List.mem_append_left _ hi)
        obtain ⟨h4, h5, _⟩ := requestAll_ok hinv'
          (fun i hi => Or.inl (.root (List.mem_append_right _ hi))) hr
        exact pendingF_items hP _ h4 (by rw [h5.items]; exact hb) hg

/-! ## Theorems -/

/-- **C49** (partial). Look at the last type `L` of a cycle of values to be generated. If `L`
holds the next type of the cycle for an element, then on the way back to `L` the order of generation
is broken at least twice. Missing: cycles that break it twice or more, see `C49_long_cycle_unboxed`,
and cycles whose last type holds the next one as a value, see `C49_alias_cycle_unboxed`. -/
theorem C49_cycle_boxed_partial {cfg : Cfg} {T : Types} {fixed : List Ident}
    {calls : List (List Ident)} {s : State}
    (h : generateCalls cfg T (start fixed) calls = .ok s) {L u : Ident}
    (hu : HoldsElement s.items L u) : ¬ Comeback (Holds s.items) (Assoc.keys s.items) L u := by
  obtain ⟨hinv, hi, _⟩ := start_inv cfg T fixed
  refine (calls_boxes hinv ⟨?_, ?_⟩ h).clean L u hu
  · intro u p v _ ho
    rw [hi] at ho
    cases ho
  · rintro L u ⟨ms, hm, _⟩
    rw [hi] at hm
    cases hm

theorem HoldsElement.mem {items : List (Ident × List Mention)} {i j : Ident}
    (h : HoldsElement items i j) : i ∈ Assoc.keys items := by
  obtain ⟨ms, hm, _⟩ := h
  exact List.mem_map.mpr ⟨_, hm, rfl⟩

/-- Two different members of a list are in some order. -/
theorem sublist_pair {α : Type} [DecidableEq α] {l : List α} {a b : α} (ha : a ∈ l) (hb : b ∈ l)
    (hne : a ≠ b) : List.Sublist [a, b] l ∨ List.Sublist [b, a] l := by
  induction l with
  | nil => cases ha
  | cons x l ih =>
    by_cases hxa : x = a
    · subst hxa
      left
      have hb' := (List.mem_cons.mp hb).resolve_left (Ne.symm hne)
      exact (List.singleton_sublist.mpr hb').cons_cons x
    · by_cases hxb : x = b
      · subst hxb
        right
        have ha' := (List.mem_cons.mp ha).resolve_left hne
        exact (List.singleton_sublist.mpr ha').cons_cons x
      · have ha' := (List.mem_cons.mp ha).resolve_left (Ne.symm hxa)
        have hb' := (List.mem_cons.mp hb).resolve_left (Ne.symm hxb)
        exact (ih ha' hb').imp (fun h => h.cons x) (fun h => h.cons x)

theorem sublist_triple {α : Type} [DecidableEq α] {l : List α} {a b c : α} (hn : l.Nodup)
    (h1 : List.Sublist [a, b] l) (h2 : List.Sublist [b, c] l) : List.Sublist [a, b, c] l := by
  induction l with
  | nil => cases h1
  | cons x l ih =>
    obtain ⟨hx, hn⟩ := List.nodup_cons.mp hn
    cases h1 with
    | cons _ h1 =>
      cases h2 with
      | cons _ h2 => exact (ih hn h1 h2).cons x
      | cons_cons _ h2 => exact absurd (h1.subset (by simp)) hx
    | cons_cons _ h1 =>
      cases h2 with
      | cons _ h2 => exact h2.cons_cons a
      | cons_cons _ h2 => exact absurd (h1.subset (by simp)) hx

/-- **C49** (partial). Elements do not make a type contain itself by value, neither directly nor
through one or two other types, whatever the order of generation is. Missing: longer cycles, see
`C49_long_cycle_unboxed`. -/
theorem C49_short_cycles_boxed_partial {cfg : Cfg} {T : Types} {fixed : List Ident}
    {calls : List (List Ident)} {s : State}
    (h : generateCalls cfg T (start fixed) calls = .ok s) (a b c : Ident) :
    ¬ HoldsElement s.items a a ∧
    ¬ (HoldsElement s.items a b ∧ HoldsElement s.items b a) ∧
    ¬ (HoldsElement s.items a b ∧ HoldsElement s.items b c ∧ HoldsElement s.items c a) := by
  have hclean : ∀ L u, HoldsElement s.items L u → ¬ Comeback (Holds s.items) (Assoc.keys s.items) L u :=
    fun L u hu => C49_cycle_boxed_partial h hu
  have hn := (C50_once h).1
  have self : ∀ a, ¬ HoldsElement s.items a a := fun a ha => hclean a a ha .self
  have two : ∀ a b, ¬ (HoldsElement s.items a b ∧ HoldsElement s.items b a) := by
    rintro a b ⟨hab, hba⟩
    by_cases hne : a = b
    · subst hne; exact self a hab
    · rcases sublist_pair hab.mem hba.mem hne with hs | hs
      · exact hclean b a hba (.up (p := []) hab.holds hs)
      · exact hclean a b hab (.up (p := []) hba.holds hs)
  refine ⟨self a, two a b, ?_⟩
  -- if `c` is the last one
  have last : ∀ a b c, HoldsElement s.items a b → HoldsElement s.items b c → HoldsElement s.items c a →
      List.Sublist [a, c] (Assoc.keys s.items) → List.Sublist [b, c] (Assoc.keys s.items) → False := by
    intro a b c hab hbc hca hac hbc'
    exact hclean c a hca (.down (p := []) (v := b) (q := []) hab.holds hac hbc.holds hbc')
  rintro ⟨hab, hbc, hca⟩
  by_cases h1 : a = b
  · subst h1; exact self a hab
  by_cases h2 : b = c
  · subst h2; exact self b hbc
  by_cases h3 : a = c
  · subst h3; exact self a hca
  rcases sublist_pair hab.mem hbc.mem h1 with s1 | s1 <;>
  rcases sublist_pair hbc.mem hca.mem h2 with s2 | s2
  · exact last a b c hab hbc hca ((List.Sublist.cons_cons a (List.sublist_cons_self b [c])).trans (sublist_triple hn s1 s2)) s2
  · exact last c a b hca hab hbc s2 s1
  · rcases sublist_pair hab.mem hca.mem h3 with s3 | s3
    · exact last a b c hab hbc hca s3 s2
    · exact last b c a hbc hca hab s1 s3
  · exact last b c a hbc hca hab s1 ((List.Sublist.cons_cons c (List.sublist_cons_self b [a])).trans (sublist_triple hn s2 s1))

/-- **C49.** If boxes are requested for all elements, no element is stored by value. -/
theorem C49_forced_boxes {cfg : Cfg} {T : Types} {fixed : List Ident} {calls : List (List Ident)}
    {s : State} (hs : cfg.boxStruct = true) (he : cfg.boxEnum = true)
    (h : generateCalls cfg T (start fixed) calls = .ok s) (i j : Ident) :
    ¬ HoldsElement s.items i j := by
  have hreq : ∀ v r, r ∈ reqsOf cfg T v → ∀ j d o f, r = Req.element j d o f → f = true := by
    have hval : ∀ i v (r : Req), r ∈ valueReqs cfg i v → ∀ j d o f, r = Req.element j d o f → f = true := by
      intro i v r hr j d o f he
      subst he
      unfold valueReqs at hr
      rcases List.mem_append.mp hr with hr | hr
      · obtain ⟨_, _, hc⟩ := List.mem_map.mp hr; cases hc
      · split at hr <;> simp at hr
    have hattr : ∀ a (r : Req), r ∈ attrReqs cfg a → ∀ j d o f, r = Req.element j d o f → f = true := by
      intro a r hr j d o f he
      unfold attrReqs at hr
      split at hr
      · cases hr
      · split at hr
        · cases hr
        · rcases List.mem_cons.mp hr with hr | hr
          · subst he; cases hr
          · split at hr
            · cases hr
            · exact hval _ _ r hr j d o f he
    have hgroup : ∀ d0 as es (r : Req), r ∈ groupReqs cfg d0 true as es →
        ∀ j d o f, r = Req.element j d o f → f = true := by
      intro d0 as es r hr j d o f he
      unfold groupReqs at hr
      simp only [List.mem_cons, List.mem_append, List.mem_flatMap] at hr
      rcases hr with hr | ⟨a, _, hr⟩ | ⟨e, _, hr⟩
      · subst he; cases hr
      · exact hattr a r hr j d o f he
      · unfold elemReqs at hr
        split at hr
        · cases hr
        · split at hr
          · simp at hr; subst he; cases hr; rfl
          · cases hr
          · cases hr
    intro v r hr j d o f heq
    cases v with
    | buildIn _ => cases hr
    | custom n => obtain ⟨_, _, hc⟩ := List.mem_map.mp hr; subst heq; cases hc
    | union x => subst heq; simp [reqsOf] at hr
    | dynamic x => subst heq; simp [reqsOf] at hr
    | reference x => subst heq; simp [reqsOf] at hr
    | enumeration x =>
      subst heq
      simp only [reqsOf, List.mem_cons, List.mem_append, List.mem_flatMap] at hr
      rcases hr with h | ⟨v, _, h⟩ | h
      · cases h
      · unfold variantReqs at h
        split at h
        · cases h
        · rcases List.mem_append.mp h with h | h
          · split at h <;> simp at h
          · obtain ⟨_, _, hc⟩ := List.mem_map.mp h; cases hc
      · split at h <;> simp at h
    | all g => simp only [reqsOf, hs] at hr; exact hgroup _ _ _ r hr j d o f heq
    | choice g => simp only [reqsOf, he] at hr; exact hgroup _ _ _ r hr j d o f heq
    | sequence g => simp only [reqsOf, hs] at hr; exact hgroup _ _ _ r hr j d o f heq
    | complex x =>
      have value : ∀ k d0, r ∈ Req.traitImpls :: Req.value k d0 :: x.attributes.flatMap (attrReqs cfg) →
          f = true := by
        intro k d0 h
        simp only [List.mem_cons, List.mem_flatMap] at h
        rcases h with h | h | ⟨a, _, h⟩
        · subst heq; cases h
        · subst heq; cases h
        · exact hattr a r h j d o f heq
      simp only [reqsOf, complexReqs, hs, he] at hr
      split at hr
      · exact hgroup _ _ _ r hr j d o f heq
      · split at hr
        all_goals first
          | exact hgroup _ _ _ r hr j d o f heq
          | exact value _ _ hr
    | simple x =>
      have bnd : ∀ b, r ∈ boundReqs cfg (res T x.base) b → f = true := by
        intro b hb
        cases b with
        | unbounded => cases hb
        | included v => exact hval _ _ r hb j d o f heq
        | excluded v => exact hval _ _ r hb j d o f heq
      simp only [reqsOf, List.mem_append, List.mem_cons, List.not_mem_nil, or_false] at hr
      rcases hr with (h | h) | h | h
      · exact bnd _ h
      · exact bnd _ h
      · subst heq; cases h
      · subst heq; cases h
  have hstep : ∀ cur reach s s' r ms, (∀ j d o f, r = Req.element j d o f → f = true) →
      stepReq T cur reach s r = .ok (s', ms) → ∀ m ∈ ms, ¬ (m.inline_ = true ∧ m.via = .element) := by
    intro cur reach s s' r ms hf hstep m hm ⟨hin, hvia⟩
    cases r with
    | plain i inl =>
      simp only [stepReq] at hstep
      cases hg : getOrCreate T s i with
      | error e => rw [hg] at hstep; cases hstep
      | ok s1 => rw [hg] at hstep; cases hstep; simp at hm; subst hm; cases hvia
    | value i b =>
      simp only [stepReq] at hstep
      cases hg : getOrCreate T s i with
      | error e => rw [hg] at hstep; cases hstep
      | ok s1 => rw [hg] at hstep; cases hstep; simp at hm; subst hm; cases hvia
    | element i d o f =>
      have := hf i d o f rfl
      subst this
      simp only [stepReq] at hstep
      cases hg : getOrCreate T s i with
      | error e => simp [hg, Except.map] at hstep
      | ok s1 =>
        simp [hg, Except.map] at hstep
        rw [← hstep.2] at hm
        simp at hm; subst hm; cases hin
    | traitImpls =>
      simp only [stepReq] at hstep
      cases hg : requestAll T s (traitsOf s cur).impls with
      | error e => rw [hg] at hstep; cases hstep
      | ok s1 => rw [hg] at hstep; cases hstep; obtain ⟨_, _, rfl⟩ := List.mem_map.mp hm; cases hin
    | traitDerives =>
      simp only [stepReq] at hstep
      cases hg : requestAll T s (traitsOf s cur).derives with
      | error e => rw [hg] at hstep; cases hstep
      | ok s1 => rw [hg] at hstep; cases hstep; obtain ⟨_, _, rfl⟩ := List.mem_map.mp hm; cases hin
    | fail => cases hstep
  have hrun : ∀ cur reach rs s s' ms, (∀ r ∈ rs, ∀ j d o f, r = Req.element j d o f → f = true) →
      runReqs T cur reach s rs = .ok (s', ms) → ∀ m ∈ ms, ¬ (m.inline_ = true ∧ m.via = .element) := by
    intro cur reach rs
    induction rs with
    | nil => intro s s' ms _ h; cases h; simp
    | cons r rs ih =>
      intro s s' ms hf h
      rw [runReqs] at h
      cases hs : stepReq T cur reach s r with
      | error e => rw [hs] at h; cases h
      | ok p =>
        obtain ⟨s1, ms1⟩ := p
        rw [hs] at h
        simp only at h
        cases hrs : runReqs T cur reach s1 rs with
        | error e => rw [hrs] at h; cases h
        | ok q =>
          obtain ⟨s2, ms2⟩ := q
          rw [hrs] at h
          cases h
          intro m hm
          rcases List.mem_append.mp hm with hm | hm
          · exact hstep _ _ _ _ _ _ (hf r (by simp)) hs m hm
          · exact ih _ _ _ (fun r' hr' => hf r' (by simp [hr'])) hrs m hm
  rintro ⟨ms, hm, m, hmm, _, hin, hvia⟩
  exact calls_items (P := fun m => ¬ (m.inline_ = true ∧ m.via = .element))
    (fun cur reach s s' v ms h => hrun cur reach _ s s' ms (hreq v) h)
    (start_inv cfg T fixed).1 (by rw [(start_inv cfg T fixed).2.1]; simp) h _ _ hm m hmm ⟨hin, hvia⟩

/-! ## Examples and findings -/

/-- No flags, no other requests. -/
def exCfg : Cfg := ⟨false, false, fun _ _ => ([], true), fun _ _ => [], fun _ => none, fun _ => []⟩

/-- A sequence of one optional element. -/
def exOpt (t : String) : MetaType := .new (.sequence ⟨false, [{ exElem "x" t with min := 0 }]⟩)

/-- The generated types with the types they hold by value; `none` if generation fails. -/
def heldBy (cfg : Cfg) (T : Types) (calls : List (List Ident)) : Option (List (Ident × List Ident)) :=
  match generateCalls cfg T (start []) calls with
  | .error _ => none
  | .ok s => some (s.items.map fun p => (p.1, (p.2.filter fun m => m.inline_).map fun m => m.target))

/-- A list: `N { x: Option<Box<N>> }`. -/
example : heldBy exCfg [(exId "N", exOpt "N")] [[exId "N"]] = some [(exId "N", [])] := by decide +kernel

/-- A cycle of three types, one box. -/
example : heldBy exCfg [(exId "A", exOpt "B"), (exId "B", exOpt "C"), (exId "C", exOpt "A")]
      [[exId "A"]] =
    some [(exId "A", [exId "B"]), (exId "B", [exId "C"]), (exId "C", [])] := by decide +kernel

/-- … also if a `Comeback` has to go down once. -/
example : heldBy exCfg [(exId "A", exOpt "C"), (exId "B", exOpt "A"), (exId "C", exOpt "B")]
      [[exId "A"], [exId "B"], [exId "C"]] =
    some [(exId "A", [exId "C"]), (exId "C", [exId "B"]), (exId "B", [])] := by decide +kernel

def elementHeld (s : State) (i j : Ident) : Bool :=
  s.items.any fun p => p.1 == i && p.2.any fun m => m.target == j && m.inline_ && m.via == .element

def valueHeld (s : State) (i j : Ident) : Bool :=
  s.items.any fun p => p.1 == i && p.2.any fun m => m.target == j && m.inline_ && m.via == .value

theorem elementHeld_iff {s : State} {i j : Ident} : elementHeld s i j = true ↔ HoldsElement s.items i j := by
  unfold elementHeld HoldsElement
  simp only [List.any_eq_true, Bool.and_eq_true, beq_iff_eq]
  constructor
  · rintro ⟨⟨k, ms⟩, hm, rfl, m, hmm, ⟨h1, h2⟩, h3⟩
    exact ⟨ms, hm, m, hmm, h1, h2, h3⟩
  · rintro ⟨ms, hm, m, hmm, h1, h2, h3⟩
    exact ⟨(i, ms), hm, rfl, m, hmm, ⟨h1, h2⟩, h3⟩

theorem valueHeld_holds {s : State} {i j : Ident} (h : valueHeld s i j = true) : Holds s.items i j := by
  unfold valueHeld at h
  simp only [List.any_eq_true, Bool.and_eq_true, beq_iff_eq] at h
  obtain ⟨⟨k, ms⟩, hm, rfl, m, hmm, ⟨h1, h2⟩, h3⟩ := h
  exact ⟨ms, hm, m, hmm, h1, h2, by rw [h3]; decide⟩

/-- The generation succeeds with a property. -/
def succeeds (r : Except GenErr State) (P : State → Bool) : Bool :=
  match r with
  | .ok s => P s
  | .error _ => false

theorem of_succeeds {r : Except GenErr State} {P : State → Bool} (h : succeeds r P = true) :
    ∃ s, r = .ok s ∧ P s = true := by
  unfold succeeds at h
  cases r with
  | ok s => exact ⟨s, rfl, h⟩
  | error e => cases h

/-- Several calls, a type requested twice, one type provided by the user. -/
example : succeeds (generateCalls exCfg [(exId "A", exOpt "B"), (exId "B", exOpt "S")] (start [exId "S"])
      [[exId "B"], [exId "A"], [exId "B"]]) (fun s => Assoc.keys s.items == [exId "B", exId "A"]) = true := by
  decide +kernel

/-- An unknown type. -/
example : (match generateCalls exCfg [(exId "A", exOpt "B")] (start []) [[exId "A"]] with
    | .error (.unknownType j) => j == exId "B"
    | _ => false) = true := by decide +kernel

/-- Forced boxes. -/
example : heldBy { exCfg with boxStruct := true } [(exId "A", exOpt "B"), (exId "B", exOpt "S"), (exId "S", .new (.buildIn .string))]
      [[exId "A"]] =
    some [(exId "A", []), (exId "B", []), (exId "S", [])] := by decide +kernel

def exLong : Types :=
  [(exId "A", exOpt "D"), (exId "B", exOpt "A"), (exId "C", exOpt "B"), (exId "D", exOpt "C")]

/-- **C49** (negation). `generate_all_types` for `A → D → C → B → A`, four types with an optional
element each: all of them are stored by value, the generated code does not compile. -/
theorem C49_long_cycle_unboxed :
    ∃ s, generateCalls exCfg exLong (start []) [allRoots exLong] = .ok s ∧
      HoldsElement s.items (exId "A") (exId "D") ∧ HoldsElement s.items (exId "D") (exId "C") ∧
      HoldsElement s.items (exId "C") (exId "B") ∧ HoldsElement s.items (exId "B") (exId "A") := by
  obtain ⟨s, hs, h⟩ := of_succeeds (r := generateCalls exCfg exLong (start []) [allRoots exLong])
    (P := fun s => elementHeld s (exId "A") (exId "D") && (elementHeld s (exId "D") (exId "C") &&
      (elementHeld s (exId "C") (exId "B") && elementHeld s (exId "B") (exId "A")))) (by decide +kernel)
  simp only [Bool.and_eq_true, elementHeld_iff] at h
  exact ⟨s, hs, h⟩

def exAlias : Types :=
  [(exId "R", .new (.reference (.new (exId "X")))), (exId "X", exOpt "R")]

/-- **C49** (negation). A type that refers to itself through an alias: `X { x: Option<R> }` and
`type R = X`. The alias is not known when `X` is generated, so there is no box. -/
theorem C49_alias_cycle_unboxed :
    ∃ s, generateCalls exCfg exAlias (start []) [[exId "X"]] = .ok s ∧
      HoldsElement s.items (exId "X") (exId "R") ∧ Holds s.items (exId "R") (exId "X") := by
  obtain ⟨s, hs, h⟩ := of_succeeds (r := generateCalls exCfg exAlias (start []) [[exId "X"]])
    (P := fun s => elementHeld s (exId "X") (exId "R") && valueHeld s (exId "R") (exId "X")) (by decide +kernel)
  simp only [Bool.and_eq_true] at h
  exact ⟨s, hs, elementHeld_iff.mp h.1, valueHeld_holds h.2⟩

end Verif.Generate

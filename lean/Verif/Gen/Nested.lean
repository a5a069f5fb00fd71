import Verif.Gen.SequenceComplete

/-!
# Nested groups in generated sequences (C09, C12)

A group, that is a sequence or a choice inside of the content of an element, has no tags of its own. Its deserializer does
not know that it has got its last element; it keeps its state until an element comes that it does not take, or until the end
tag of the element around it. This file says what the deserializers around it rely on (`Stays`, `Lingers`), and proves it
for sequences whose fields are elements and groups. The model is the one in `Sequence.lean`; `SeqTy.isElement` is `false`
for groups.
-/

namespace Verif.Gen

open Verif.Rt Verif.Occurs

section
variable {H A C V W : Type}

/-! ## Specification -/

/-- Fed with the events `evs` one by one, the deserializer, in state `st` (`none`: not yet initialised), consumes all of
them, except for padding that it leaves to the driver, and is in state `c` then. -/
inductive Stays (track : H → Event → H) (d : GDe H C V) : Option C → H → List Event → C → Prop
  | nil {h c} : Stays track d (some c) h [] c
  | step {st h e es c' c ev a} (hc : d.call st (track h e) e = .ok ⟨.deser c', ev, a⟩) (hq : Quiet e ev)
      (rest : Stays track d (some c') (track h e) es c) : Stays track d st h (e :: es) c

/-- The states in `P` are those of a group that has got the value `v`, and that would only go on with elements whose tags
are in `own`: it skips padding, hands back the tags of other elements, gives its value if it is finished, and gives its
value at the end tag of the element around it. -/
structure LingerStep (d : GDe H C V) (own : H → Tag → Prop) (v : V) (P : C → Prop) : Prop where
  finish : ∀ c, P c → ∀ h, d.finish c h = .ok v
  pad : ∀ c, P c → ∀ h e, Padding e = true →
    ∃ c' ev a, d.next c h e = .ok ⟨.deser c', ev, a⟩ ∧ Quiet e ev ∧ P c'
  other : ∀ c, P c → ∀ h e t, tagOf e = some t → ¬ own h t →
    ∃ c' a, d.next c h e = .ok ⟨.deser c', .cont e, a⟩ ∧ P c'
  end_ : ∀ c, P c → ∀ h n, ∃ a, d.next c h (.end_ n) = .ok ⟨.data v, .cont (.end_ n), a⟩

/-- A group in the state `c` has got the value `v`, see `LingerStep`. -/
def Lingers (d : GDe H C V) (own : H → Tag → Prop) (v : V) (c : C) : Prop :=
  ∃ P : C → Prop, P c ∧ LingerStep d own v P

/-- The events are read as the value `v`: the deserializer returns it at the last event (elements), or it waits for more
elements with tags in `own` (groups). -/
def GroupReads (track : H → Event → H) (d : GDe H C V) (h : H) (evs : List Event) (v : V) (own : H → Tag → Prop) : Prop :=
  Feeds track d none h evs v ∨ ∃ c, Stays track d none h evs c ∧ Lingers d own v c

/-- `evs` belongs to the particle `i` and is read as `v`. The first tag is not one that the group before it (`own`) would
take. -/
def ValidPart (track : H → Event → H) (fs : List (Field H C V)) (past : Nat → Prop) (own : H → Tag → Prop) (h : H)
    (i : Nat) (evs : List Event) (v : V) (own' : H → Tag → Prop) : Prop :=
  ∃ f e es t, fs[i]? = some f ∧ evs = e :: es ∧ tagOf e = some t ∧ Picks fs i past (track h e) t ∧
    ¬ own (track h e) t ∧ GroupReads track f.de h evs v own'

/-- `ItemsOk` with groups: every item is padding, an element or the elements of a group. `own` are the tags that the last
group could still take, and `ownF` those at the end. -/
def PartsOk (track : H → Event → H) (fs : List (Field H C V)) (ownF : H → Tag → Prop) :
    List Nat → (H → Tag → Prop) → H → List (Item V) → Prop
  | _, own, _, [] => ownF = own
  | seen, own, h, .pad e :: r => Padding e = true ∧ PartsOk track fs ownF seen own (track h e) r
  | seen, own, h, .child i evs v :: r =>
    ∃ own', ValidPart track fs (Past fs seen) own h i evs v own' ∧
      PartsOk track fs ownF (i :: seen) own' (evs.foldl track h) r

/-! ## Lemmas -/

/-- If the running child is finished, the state is `s'`. -/
def Settles (T : SeqTy H A C V W) (fb : Option (SPos C)) (s s' : SeqSt A C V) : Prop :=
  ∀ h, T.flush h fb s = .ok s'

theorem store_pos (f : Field H C V) (i : Nat) (v : V) (s : SeqSt A C V) (q : SPos C) :
    store f i v { s with pos := q } = (store f i v s).map fun s => { s with pos := q } := by
  unfold store
  cases f.occurs <;> simp only <;> first | rfl | (split <;> rfl)

theorem flush_pos (T : SeqTy H A C V W) (h : H) (fb : Option (SPos C)) (s : SeqSt A C V) (q : SPos C) :
    T.flush h fb { s with pos := q } = (T.flush h fb s).map fun s => { s with pos := q } := by
  cases fb with
  | none => rfl
  | some p =>
    unfold SeqTy.flush SeqTy.finishState
    simp only
    cases p with
    | init => rfl
    | done => rfl
    | at_ i c =>
      cases c with
      | none => rfl
      | some c =>
        simp only
        cases T.fields[i]? with
        | none => rfl
        | some f =>
          simp only
          cases f.de.finish c h with
          | error e => rfl
          | ok v => exact store_pos f i v s q

theorem Settles.move {T : SeqTy H A C V W} {fb : Option (SPos C)} {s s' : SeqSt A C V} (hs : Settles T fb s s')
    (q : SPos C) : Settles T fb { s with pos := q } { s' with pos := q } := by
  intro h
  rw [flush_pos, hs h]
  rfl

theorem settles_none (T : SeqTy H A C V W) (s : SeqSt A C V) : Settles T none s s := fun _ => rfl

theorem settles_init (T : SeqTy H A C V W) (s : SeqSt A C V) : Settles T (some .init) s s := fun _ => rfl

/-- What a field takes is handled as if the running child had been finished before. -/
theorem handle_settled {T : SeqTy H A C V W} {fb : Option (SPos C)} {s s' : SeqSt A C V} (hs : Settles T fb s s')
    (f : Field H C V) (j : Nat) (out : Output C V) (h : H) (ho : out.artifact ≠ .none) :
    T.handle f j out h s fb = T.handle f j out h s' none := by
  unfold SeqTy.handle
  cases ha : out.artifact with
  | none => exact absurd ha ho
  | data v => simp only [hs h, settles_none T s' h]
  | deser c => simp only [hs h, settles_none T s' h]

theorem create_declines {T : SeqTy H A C V W} {f : Field H C V} {h : H} {e : Event} {t : Tag} (he : tagOf e = some t)
    (hdec : f.Declines h t) : ∃ a, f.create T.allowAny h e = .ok ⟨.none, .cont e, a⟩ := by
  unfold Field.Declines at hdec
  cases hw : f.want with
  | none =>
    rw [hw] at hdec
    simpa [Field.create, hw] using hdec e he
  | some want =>
    rw [hw] at hdec
    exact ⟨T.allowAny || f.allowAny,
      by simp [Field.create, hw, initStartTag, he, show want h t = false from hdec]⟩

theorem fromEvent_tag {e : Event} {t : Tag} (he : tagOf e = some t) (a : Bool) :
    EHO.fromEvent (.cont e) a = .cont e a := by
  cases e <;> simp [tagOf] at he <;> rfl

/-- Passing over a field that has got all its values, with a running child. -/
theorem skip_one (T : SeqTy H A C V W) (h : H) (k : Nat) (e : Event) (t : Tag)
    (he : tagOf e = some t) (s s' : SeqSt A C V) (fb : Option (SPos C)) (hs : Settles T fb s s') (any : Bool) (p : Nat)
    (f : Field H C V) (hf : T.fields[p]? = some f) (hp : s.pos = .at_ p none)
    (hdec : f.Declines h t)
    (hmin : f.min ≤ (s'.vals.getD p []).length)
    (hroom : ∀ b, f.max = .bounded b → (s'.vals.getD p []).length < b)
    (hfb : fb = some .init → f.min = 0) :
    ∃ any' fb' s'', T.loop h (k + 1) e s fb any = T.loop h k e s'' fb' any' ∧ s''.pos = T.nextPos p ∧
      Settles T fb' s'' { s' with pos := T.nextPos p } ∧
      ((fb' = fb ∧ s'' = { s with pos := T.nextPos p }) ∨ (fb' = none ∧ s'' = { s' with pos := T.nextPos p })) := by
  obtain ⟨a, hcreate⟩ := create_declines (T := T) he hdec
  have hev : EHO.fromEvent (.cont e) a = .cont e a := fromEvent_tag he a
  have hstep : ∀ s'' fb', T.handle f p ⟨.none, .cont e, a⟩ h s fb = .ok (.cont e a, s'', fb') →
      T.loop h (k + 1) e s fb any = T.loop h k e s'' fb' (any || a) := by
    intro s'' fb' hh
    have hr : T.round h e s fb any = .ok (.again e s'' fb' (any || a)) := by
      unfold SeqTy.round
      simp only [hp]
      cases e <;> simp [tagOf] at he <;> simp only [tagOf, hf, hcreate, hh, SeqTy.after]
    simp only [SeqTy.loop, hr]
  have hkeep : T.handle f p ⟨.none, .cont e, a⟩ h s fb = .ok (.cont e a, { s with pos := T.nextPos p }, fb) →
      ∃ any' fb' s'', T.loop h (k + 1) e s fb any = T.loop h k e s'' fb' any' ∧ s''.pos = T.nextPos p ∧
      Settles T fb' s'' { s' with pos := T.nextPos p } ∧
      ((fb' = fb ∧ s'' = { s with pos := T.nextPos p }) ∨ (fb' = none ∧ s'' = { s' with pos := T.nextPos p })) :=
    fun hh => ⟨_, fb, { s with pos := T.nextPos p }, hstep _ _ hh, rfl, hs.move _, Or.inl ⟨rfl, rfl⟩⟩
  by_cases h1 : f.min = 0 ∨ f.occurs = .optional
  · exact hkeep (by simp only [SeqTy.handle, SeqTy.handleNone, hev]; rw [if_pos h1])
  · by_cases h2 : f.isDefaultable = true
    · exact hkeep (by simp only [SeqTy.handle, SeqTy.handleNone, hev]; rw [if_neg h1, if_pos h2])
    · by_cases h3 : f.occurs = .single
      · obtain ⟨hs1, hs2⟩ := occurs_single h3
        have := hroom 1 hs2
        omega
      · refine ⟨any || a, none, { s' with pos := T.nextPos p }, hstep _ _ ?_, rfl, settles_none _ _, Or.inr ⟨rfl, rfl⟩⟩
        simp only [SeqTy.handle, SeqTy.handleNone, hev]
        rw [if_neg h1, if_neg h2, if_neg h3]
        have hni : fb ≠ some .init := fun hb => h1 (Or.inl (hfb hb))
        have hlen : ¬ (s'.vals.getD p []).length < f.min := by omega
        split
        · exact absurd rfl hni
        · simp only [hs h, if_neg hlen]

/-- Passing over several fields, with a running child. -/
theorem skip_many (T : SeqTy H A C V W) (h : H) (e : Event) (t : Tag)
    (he : tagOf e = some t) (j : Nat) (hj : j < T.fields.length) (h0 : ∀ f ∈ T.fields, f.max ≠ .bounded 0)
    (d k p : Nat) (hpj : p + d = j) :
    ∀ (s s' : SeqSt A C V) (fb : Option (SPos C)) (any : Bool), Settles T fb s s' → s.pos = .at_ p none →
    (∀ q f, p ≤ q → q < j → T.fields[q]? = some f → f.Declines h t) →
    (∀ q f, p ≤ q → q < j → T.fields[q]? = some f → f.min ≤ (s'.vals.getD q []).length) →
    (∀ q, p < q → s'.vals.getD q [] = []) →
    (∀ f, T.fields[p]? = some f → ∀ b, f.max = .bounded b → (s'.vals.getD p []).length < b) →
    (fb = some .init → ∀ q, s'.vals.getD q [] = []) →
    ∃ any' fb' s'', T.loop h (d + k) e s fb any = T.loop h k e s'' fb' any' ∧ s''.pos = .at_ j none ∧
      Settles T fb' s'' { s' with pos := .at_ j none } ∧
      ((fb' = fb ∧ s'' = { s with pos := .at_ j none }) ∨ (fb' = none ∧ s'' = { s' with pos := .at_ j none })) := by
  induction d generalizing p with
  | zero =>
    intro s s' fb any hs hp _ _ _ _ _
    have : p = j := by omega
    subst this
    have e1 : { s with pos := .at_ p none } = s := by cases s; simp only at hp; subst hp; rfl
    refine ⟨any, fb, s, by rw [Nat.zero_add], hp, ?_, Or.inl ⟨rfl, e1.symm⟩⟩
    have := hs.move (.at_ p none)
    rwa [e1] at this
  | succ d ih =>
    intro s s' fb any hs hp hdec hmin hlater hroom hfb
    have hpl : p < T.fields.length := by omega
    have hf : T.fields[p]? = some (T.fields[p]) := List.getElem?_eq_getElem hpl
    have hd := hdec p _ (Nat.le_refl _) (by omega) hf
    have hm := hmin p _ (Nat.le_refl _) (by omega) hf
    have hfb' : fb = some .init → (T.fields[p]).min = 0 := by
      intro hb
      rw [hfb hb p] at hm; simpa using hm
    obtain ⟨a1, fb1, s1, h1, hp1, hs1, hc1⟩ := skip_one T h (d + k) e t he s s' fb hs any p _ hf hp hd hm
      (hroom _ hf) hfb'
    have hnext : T.nextPos p = .at_ (p + 1) none := by
      rcases nextPos_cases T p with ⟨_, h⟩ | ⟨hle, _⟩
      · exact h
      · omega
    rw [hnext] at hp1 hs1 hc1
    obtain ⟨a2, fb2, s2, h2, hp2, hs2, hc2⟩ := ih (p + 1) (by omega) s1 { s' with pos := .at_ (p + 1) none } fb1 a1 hs1 hp1
      (fun q f hq1 hq2 hf => hdec q f (by omega) hq2 hf)
      (fun q f hq1 hq2 hf => hmin q f (by omega) hq2 hf)
      (fun q hq => hlater q (by omega))
      (fun f hf b hb => by
        simp only
        rw [hlater (p + 1) (by omega)]
        have : b ≠ 0 := fun hb0 => h0 f (List.mem_of_getElem? hf) (by rw [hb, hb0])
        simp; omega)
      (fun hb => by
        rcases hc1 with ⟨rfl, _⟩ | ⟨rfl, _⟩
        · exact hfb hb
        · cases hb)
    refine ⟨a2, fb2, s2, ?_, hp2, hs2, ?_⟩
    · rw [show d + 1 + k = (d + k) + 1 by omega, h1, h2]
    · rcases hc2 with ⟨rfl, rfl⟩ | ⟨rfl, rfl⟩
      · rcases hc1 with ⟨rfl, rfl⟩ | ⟨rfl, rfl⟩
        · exact Or.inl ⟨rfl, rfl⟩
        · exact Or.inr ⟨rfl, rfl⟩
      · exact Or.inr ⟨rfl, rfl⟩

/-- `s'` is the state once the running child, which has got its value, is finished. -/
inductive Open (T : SeqTy H A C V W) (own : H → Tag → Prop) (s s' : SeqSt A C V) : Prop
  | closed (h : s = s')
  | running (j : Nat) (f : Field H C V) (c : C) (v : V) (hp : s.pos = .at_ j (some c)) (hf : T.fields[j]? = some f)
      (hl : Lingers f.de own v c) (hj : j < s.vals.length)
      (hroom : ∀ b, f.max = .bounded b → (s.vals.getD j []).length < b)
      (hs : s' = { s with vals := s.vals.modify j (· ++ [v]), pos := T.posAfter f j ((s.vals.getD j []).length + 1) })

/-- Where the loop goes on when a running child hands back its event. -/
theorem handle_back (T : SeqTy H A C V W) (f : Field H C V) (j : Nat) (c : C) (a : Bool) (h : H)
    (e : Event) (t : Tag) (he : tagOf e = some t) (s : SeqSt A C V)
    (hroom : ∀ b, f.max = .bounded b → (s.vals.getD j []).length < b) :
    T.handle f j ⟨.deser c, .cont e, a⟩ h s none
      = .ok (.cont e a, { s with pos := T.posAfter f j ((s.vals.getD j []).length + 1) }, some (.at_ j (some c))) := by
  simp only [SeqTy.handle, SeqTy.flush, fromEvent_tag he, SeqTy.posAfter]
  cases ho : f.occurs <;> cases hm : f.max <;> try rfl
  all_goals
    rename_i b
    have := hroom b hm
    simp only
    by_cases hlt : (s.vals.getD j []).length < b - 1
    · rw [if_pos hlt, if_pos (by omega)]
    · rw [if_neg hlt, if_neg (by omega)]

theorem settles_running {T : SeqTy H A C V W} {f : Field H C V} {j : Nat} {c : C} {v : V} {s : SeqSt A C V}
    (hf : T.fields[j]? = some f) (hfin : ∀ h, f.de.finish c h = .ok v)
    (hroom : ∀ b, f.max = .bounded b → (s.vals.getD j []).length < b) :
    Settles T (some (.at_ j (some c))) s { s with vals := s.vals.modify j (· ++ [v]) } := by
  intro h
  simp only [SeqTy.flush, SeqTy.finishState, hf, hfin h, store_ok f j v s hroom]

/-- With a tag that the running child does not take, the loop goes on at the position of the finished state. -/
theorem open_enter (T : SeqTy H A C V W) (own : H → Tag → Prop) (s s' : SeqSt A C V) (o : Open T own s s')
    (clean : s'.pos = .init ∨ (∃ p, s'.pos = .at_ p none ∧ p < T.fields.length) ∨ s'.pos = .done)
    (h : H) (e : Event) (t : Tag) (he : tagOf e = some t) (hown : ¬ own h t) :
    ∃ k fb s1 any, T.next s h e = T.loop h k e s1 fb any ∧ 2 * T.fields.length + 3 ≤ k ∧
      s1.pos = (if s'.pos.isInit then .at_ 0 none else s'.pos) ∧
      Settles T fb s1 { s' with pos := s1.pos } ∧ (fb = some .init ↔ s'.pos = .init) ∧
      Open T own { s1 with pos := fb.getD s1.pos } s' := by
  cases o with
  | closed hss =>
    subst hss
    rcases clean with hp | ⟨p, hp, hpl⟩ | hp
    · refine ⟨2 * T.fields.length + 3, some .init, { s with pos := .at_ 0 none }, false || T.allowAny, ?_, Nat.le_refl _,
        by rw [hp]; rfl, (settles_init T s).move _, by simp [hp], .closed ?_⟩
      · unfold SeqTy.next SeqTy.fuel
        simp only [SeqTy.loop, SeqTy.round, hp]
        cases e <;> simp [tagOf] at he <;> rfl
      · cases s; simp only at hp; subst hp; rfl
    · exact ⟨T.fuel, none, s, false, rfl, by unfold SeqTy.fuel; omega, by rw [hp]; rfl, settles_none T s, by simp [hp],
        .closed rfl⟩
    · exact ⟨T.fuel, none, s, false, rfl, by unfold SeqTy.fuel; omega, by rw [hp]; rfl, settles_none T s, by simp [hp],
        .closed rfl⟩
  | running j f c v hp hf hl hj hroom hs =>
    obtain ⟨P, hPc, hP⟩ := hl
    obtain ⟨c', a, hc, hPc'⟩ := hP.other c hPc h e t he hown
    have hnp : T.posAfter f j ((s.vals.getD j []).length + 1) ≠ .init := by
      rw [posAfter_eq _ _ _ _ (by omega)]
      have hni : T.nextPos j ≠ .init := by unfold SeqTy.nextPos; split <;> simp
      split
      · split
        · simp
        · exact hni
      · simp
    refine ⟨2 * T.fields.length + 3, some (.at_ j (some c')),
      { s with pos := T.posAfter f j ((s.vals.getD j []).length + 1) }, false || a, ?_, Nat.le_refl _, ?_, ?_, ?_, ?_⟩
    · rw [next_running T f j c h e s hp hf _ hc, handle_back T f j c' a h e t he s hroom]
    · subst hs
      simp only
      split
      · next hi =>
        exfalso
        revert hi
        cases hpa : T.posAfter f j ((s.vals.getD j []).length + 1) <;> simp_all [SPos.isInit]
      · rfl
    · subst hs
      exact (settles_running hf (hP.finish c' hPc') hroom).move _
    · subst hs
      simp only [Option.some.injEq, reduceCtorEq, false_iff]
      exact hnp
    · subst hs
      exact .running j f c' v rfl hf ⟨P, hPc', hP⟩ hj hroom rfl

/-- The loop reaches the field of the child, with or without a running group. -/
theorem open_reach (T : SeqTy H A C V W) (h : H) (e : Event) (t : Tag) (he : tagOf e = some t)
    (j : Nat) (evs : List Event) (v : V) (items : List (Item V))
    (f : Field H C V) (hf : T.fields[j]? = some f) (seen : List Nat)
    (hpick : Picks T.fields j (Past T.fields seen) h t) (h0 : ∀ f ∈ T.fields, f.max ≠ .bounded 0)
    (own : H → Tag → Prop) (hown : ¬ own h t) (s s' : SeqSt A C V) (o : Open T own s s')
    (rd : Ready T s' seen (.child j evs v :: items)) :
    ∃ k fb s2 any, T.next s h e = T.loop h (k + 1) e s2 fb any ∧ s2.pos = .at_ j none ∧
      Settles T fb s2 { s' with pos := .at_ j none } := by
  have hj : j < T.fields.length := by
    rcases Nat.lt_or_ge j T.fields.length with h | h
    · exact h
    · rw [List.getElem?_eq_none h] at hf; cases hf
  have hle : s'.pos.index T ≤ j := rd.rest j (by simp [childFields])
  have hord := rd.order
  have hge : ∀ i ∈ childFields items, j ≤ i := by
    have : childFields (.child j evs v :: items) = j :: childFields items := rfl
    rw [this, List.pairwise_cons] at hord
    exact hord.1
  have hv0 : ∀ q, q < j → valuesOf q (.child j evs v :: items) = [] := by
    intro q hq
    apply valuesOf_eq_nil
    intro i hi
    have : childFields (.child j evs v :: items) = j :: childFields items := rfl
    rw [this, List.mem_cons] at hi
    rcases hi with rfl | hi
    · exact hq
    · exact Nat.lt_of_lt_of_le hq (hge i hi)
  have hmin : ∀ q f, q < j → T.fields[q]? = some f → f.min ≤ (s'.vals.getD q []).length := by
    intro q f hq hf
    have := (rd.counts q f hf).1
    rw [hv0 q hq] at this
    simpa using this
  have hdec : ∀ q f, s'.pos.index T ≤ q → q < j → T.fields[q]? = some f → f.Declines h t := by
    intro q f hq hqj hf
    refine hpick.2 q f hqj ?_ hf
    rintro (⟨k, hk, hlt⟩ | hfull)
    · have := rd.past k hk
      omega
    · have hm := hfull f hf
      rw [← rd.given q] at hm
      rcases Nat.lt_or_eq_of_le hq with h1 | h1
      · rw [rd.later q h1] at hm
        exact h0 f (List.mem_of_getElem? hf) hm
      · subst h1
        have := rd.room f hf _ hm
        omega
  obtain ⟨k, fb, s1, any, hn, hk, hp1, hs1, hfi, _⟩ := open_enter T own s s' o rd.clean h e t he hown
  obtain ⟨p, hp, hpj, hpi⟩ : ∃ p, s1.pos = .at_ p none ∧ p ≤ j ∧ s'.pos.index T = p := by
    rcases rd.clean with hp | ⟨p, hp, hpl⟩ | hp
    · exact ⟨0, by rw [hp1, hp]; rfl, Nat.zero_le _, by rw [hp]; rfl⟩
    · exact ⟨p, by rw [hp1, hp]; rfl, by rw [hp] at hle; exact hle, by rw [hp]; rfl⟩
    · rw [hp] at hle
      simp only [SPos.index] at hle
      omega
  obtain ⟨any', fb', s2, h2, hp2, hs2, _⟩ := skip_many T h e t he j hj h0 (j - p) (k - (j - p)) p (by omega)
    s1 { s' with pos := s1.pos } fb any hs1 hp
    (fun q f hq1 hq hf => hdec q f (by omega) hq hf) (fun q f _ hq hf => hmin q f hq hf)
    (fun q hq => rd.later q (by omega))
    (fun f hf b hb => by have := rd.room f (by rw [hpi]; exact hf) b hb; rwa [hpi] at this)
    (fun hb q => rd.init (hfi.mp hb) q)
  refine ⟨k - (j - p) - 1, fb', s2, any', ?_, hp2, hs2⟩
  rw [hn, show k = j - p + (k - (j - p)) by omega, h2]
  congr 1
  omega

theorem Stays.append {track : H → Event → H} {d : GDe H C V} {st : Option C} {h : H} {es es' : List Event} {c c' : C}
    (s : Stays track d st h es c) : Stays track d (some c) (es.foldl track h) es' c' →
    Stays track d st h (es ++ es') c' := by
  induction s with
  | nil => exact id
  | step hc hq _ ih => exact fun h => .step hc hq (ih h)

theorem Stays.feeds {track : H → Event → H} {d : GDe H C V} {st : Option C} {h : H} {es es' : List Event} {c : C} {v : V}
    (s : Stays track d st h es c) : Feeds track d (some c) (es.foldl track h) es' v →
    Feeds track d st h (es ++ es') v := by
  induction s with
  | nil => exact id
  | step hc hq _ ih => exact fun h => .step hc hq (ih h)

/-- A running child until it returns its value. -/
theorem running_feeds (track : H → Event → H) (T : SeqTy H A C V W) (f : Field H C V) (j : Nat)
    (hf : T.fields[j]? = some f) (s : SeqSt A C V) (hj : j < s.vals.length)
    (hroom : ∀ b, f.max = .bounded b → (s.vals.getD j []).length < b)
    {st : Option C} {h : H} {evs : List Event} {v : V} (fd : Feeds track f.de st h evs v) :
    ∀ c, st = some c →
    Stays track T.de (some { s with pos := .at_ j (some c) }) h evs
      { s with vals := s.vals.modify j (· ++ [v]), pos := T.posAfter f j ((s.vals.getD j []).length + 1) } := by
  induction fd with
  | @last st h e v a hc =>
    intro c hst
    subst hst
    refine .step (ev := .none) (a := a) ?_ (Or.inl rfl) .nil
    show T.next { s with pos := .at_ j (some c) } (track h e) e = _
    rw [next_running T f j c (track h e) e _ rfl hf _ hc,
      handle_data T f j v a _ { s with pos := .at_ j (some c) } none (Or.inl rfl) hj hroom]
    rfl
  | @step st h e es v c' ev a hc hq _ ih =>
    intro c hst
    subst hst
    refine .step (ev := ev) (a := a) ?_ hq (ih c' rfl)
    show T.next { s with pos := .at_ j (some c) } (track h e) e = _
    obtain ⟨pos, hh⟩ := handle_deser T f j c' a (track h e) e ev hq { s with pos := .at_ j (some c) } none (Or.inl rfl)
    rw [next_running T f j c (track h e) e _ rfl hf _ hc, hh]
    rfl

/-- A running group. -/
theorem running_stays (track : H → Event → H) (T : SeqTy H A C V W) (f : Field H C V) (j : Nat)
    (hf : T.fields[j]? = some f) (s : SeqSt A C V)
    {st : Option C} {h : H} {evs : List Event} {c' : C} (fd : Stays track f.de st h evs c') :
    ∀ c, st = some c →
    Stays track T.de (some { s with pos := .at_ j (some c) }) h evs { s with pos := .at_ j (some c') } := by
  induction fd with
  | nil =>
    intro c hst
    cases hst
    exact .nil
  | @step st h e es c1 c2 ev a hc hq _ ih =>
    intro c hst
    subst hst
    refine .step (ev := ev) (a := a) ?_ hq (ih c1 rfl)
    show T.next { s with pos := .at_ j (some c) } (track h e) e = _
    obtain ⟨pos, hh⟩ := handle_deser T f j c1 a (track h e) e ev hq { s with pos := .at_ j (some c) } none (Or.inl rfl)
    rw [next_running T f j c (track h e) e _ rfl hf _ hc, hh]
    rfl

theorem posAfter_not_init (T : SeqTy H A C V W) (f : Field H C V) (j n : Nat) (hn : 0 < n) :
    (T.posAfter f j n).isInit = false := by
  have hni : (T.nextPos j).isInit = false := by unfold SeqTy.nextPos; split <;> rfl
  rw [posAfter_eq _ _ _ _ hn]
  split
  · split
    · rfl
    · exact hni
  · rfl

/-- One element or group. -/
theorem child_stays (track : H → Event → H) (T : SeqTy H A C V W) (h0 : ∀ f ∈ T.fields, f.max ≠ .bounded 0)
    (h : H) (j : Nat) (evs : List Event) (v : V) (items : List (Item V)) (seen : List Nat) (own own' : H → Tag → Prop)
    (s s' : SeqSt A C V) (o : Open T own s s') (rd : Ready T s' seen (.child j evs v :: items))
    (vp : ValidPart track T.fields (Past T.fields seen) own h j evs v own') :
    ∃ f e es s1 ev a sf, T.fields[j]? = some f ∧ evs = e :: es ∧
      T.next s (track h e) e = .ok ⟨.deser s1, ev, a⟩ ∧ Quiet e ev ∧ s1.pos.isInit = false ∧
      Stays track T.de (some s1) (track h e) es sf ∧
      Open T own' sf { s' with vals := s'.vals.modify j (· ++ [v]),
                               pos := T.posAfter f j ((s'.vals.getD j []).length + 1) } := by
  obtain ⟨f, e, es, t, hf, rfl, he, hpick, hown, hread⟩ := vp
  have hj : j < s'.vals.length := by rw [rd.len]; exact rd.valid j (by simp [childFields])
  have hroom : ∀ b, f.max = .bounded b → (s'.vals.getD j []).length < b := by
    intro b hb
    have := (rd.counts j f hf).2 b hb
    have hv : valuesOf j (.child j (e :: es) v :: items) = v :: valuesOf j items := by
      simp [valuesOf]
    rw [hv] at this
    simp at this ⊢
    omega
  obtain ⟨k, fb, s2, any, hn, hp2, hs2⟩ :=
    open_reach T (track h e) e t he j _ v items f hf seen hpick h0 own hown s s' o rd
  have hmatch : f.create T.allowAny (track h e) e = f.de.init (track h e) e := by
    cases hw : f.want with
    | none => simp [Field.create, hw]
    | some want => simp [Field.create, hw, initStartTag, he, hpick.1 f want hf hw]
  have hround : ∀ out, f.de.init (track h e) e = .ok out → out.artifact ≠ .none →
      T.next s (track h e) e = (match T.handle f j out (track h e) { s' with pos := .at_ j none } none with
        | .error err => .error err
        | .ok (.cont e' a, s, fb) => T.loop (track h e) k e' s fb (any || a)
        | .ok (.brk ev a, s, fb) => .ok ⟨.deser { s with pos := fb.getD s.pos }, ev, a⟩) := by
    intro out ho hart
    rw [hn]
    have hr : T.round (track h e) e s2 fb any
        = T.after (track h e) s2 fb any f j (.ok out) := by
      unfold SeqTy.round
      cases e <;> simp [tagOf] at he <;> simp only [tagOf, hf, hmatch, ho, hp2]
    simp only [SeqTy.loop, hr, SeqTy.after, handle_settled hs2 f j out (track h e) hart]
    cases T.handle f j out (track h e) { s' with pos := .at_ j none } none with
    | error err => rfl
    | ok r =>
      obtain ⟨x, s', fb'⟩ := r
      cases x <;> rfl
  rcases hread with fd | ⟨c, st, hl⟩
  · cases fd with
    | @last _ _ _ _ a hc =>
      have hn := hround _ hc (by simp)
      rw [handle_data T f j v a _ { s' with pos := .at_ j none } none (Or.inl rfl) hj hroom] at hn
      exact ⟨f, e, [], _, _, _, _, hf, rfl, hn, Or.inl rfl, posAfter_not_init T f j _ (by omega), .nil, .closed rfl⟩
    | @step _ _ _ _ _ c ev a hc hq fd =>
      have hn := hround _ hc (by simp)
      obtain ⟨pos, hh⟩ := handle_deser T f j c a (track h e) e ev hq { s' with pos := .at_ j none } none (Or.inl rfl)
      rw [hh] at hn
      exact ⟨f, e, es, _, _, _, _, hf, rfl, hn, hq, rfl,
        running_feeds track T f j hf { s' with pos := pos } hj hroom fd c rfl, .closed rfl⟩
  · cases st with
    | @step _ _ _ _ c1 _ ev a hc hq st =>
      have hn := hround _ hc (by simp)
      obtain ⟨pos, hh⟩ := handle_deser T f j c1 a (track h e) e ev hq { s' with pos := .at_ j none } none (Or.inl rfl)
      rw [hh] at hn
      exact ⟨f, e, es, _, _, _, _, hf, rfl, hn, hq, rfl,
        running_stays track T f j hf { s' with pos := pos } st c1 rfl,
        .running j f c v rfl hf hl hj hroom rfl⟩

/-- Padding between children. -/
theorem open_padding (T : SeqTy H A C V W) (own : H → Tag → Prop) (s s' : SeqSt A C V) (o : Open T own s s')
    (seen : List Nat) (items : List (Item V)) (rd : Ready T s' seen items) (h : H) (e : Event) (he : Padding e = true) :
    ∃ s1 ev a, T.next s h e = .ok ⟨.deser s1, ev, a⟩ ∧ Quiet e ev ∧ Open T own s1 s' := by
  cases o with
  | closed hs =>
    subst hs
    obtain ⟨ev, a, hn, hq⟩ := next_padding T s seen items rd h e he
    exact ⟨s, ev, a, hn, hq, .closed rfl⟩
  | running j f c v hp hf hl hj hroom hs =>
    obtain ⟨P, hPc, hP⟩ := hl
    obtain ⟨c', ev, a, hc, hq, hPc'⟩ := hP.pad c hPc h e he
    obtain ⟨pos, hh⟩ := handle_deser T f j c' a h e ev hq s none (Or.inl rfl)
    refine ⟨{ s with pos := .at_ j (some c') }, ev, a, ?_, hq, ?_⟩
    · rw [next_running T f j c h e s hp hf _ hc, hh]
      rfl
    · subst hs
      exact .running j f c' v rfl hf ⟨P, hPc', hP⟩ hj hroom rfl

/-- The content of a sequence. -/
theorem stays_items (track : H → Event → H) (T : SeqTy H A C V W) (h0 : ∀ f ∈ T.fields, f.max ≠ .bounded 0)
    (ownF : H → Tag → Prop) (items : List (Item V)) :
    ∀ (seen : List Nat) (own : H → Tag → Prop) (s s' : SeqSt A C V) (h : H), Open T own s s' → Ready T s' seen items →
    PartsOk track T.fields ownF seen own h items →
    ∃ sf s1, Stays track T.de (some s) h (itemEvents items) sf ∧ Open T ownF sf s1 ∧
      Ready T s1 ((childFields items).reverse ++ seen) [] ∧ s1.attrs = s'.attrs ∧ s1.vals = merge s'.vals items ∧
      (childFields items = [] → s1 = s') := by
  induction items with
  | nil =>
    intro seen own s s' h o rd ok
    cases ok
    exact ⟨s, s', .nil, o, rd, rfl, (merge_nil _).symm, fun _ => rfl⟩
  | cons it items ih =>
    intro seen own s s' h o rd ok
    cases it with
    | pad e =>
      obtain ⟨he, ok⟩ := ok
      obtain ⟨s2, ev, a, hn, hq, o'⟩ := open_padding T own s s' o seen _ rd (track h e) e he
      have rd' : Ready T s' seen items :=
        ⟨rd.given, rd.past, rd.len, rd.clean, rd.init, rd.later, rd.room, rd.rest, rd.valid, rd.order, rd.counts⟩
      obtain ⟨sf, s1, st, o1, rd1, ha, hv, hc⟩ := ih seen own s2 s' (track h e) o' rd' ok
      exact ⟨sf, s1, .step hn hq st, o1, rd1, ha, by rw [hv, merge_pad], hc⟩
    | child j evs v =>
      obtain ⟨own', vp, ok⟩ := ok
      obtain ⟨f, e, es, s2, ev, a, s3, hf, rfl, hn, hq, _, st, o'⟩ :=
        child_stays track T h0 h j evs v items seen own own' s s' o rd vp
      have rd' := ready_after T s' j _ v items f hf seen rd h0
      obtain ⟨sf, s1, st1, o1, rd1, ha, hv, _⟩ := ih (j :: seen) own' s3 _ _ o' rd' ok
      refine ⟨sf, s1, ?_, o1, ?_, ha, by rw [hv, merge_child], by simp [childFields]⟩
      · exact Stays.step (es := es ++ itemEvents items) hn hq (st.append st1)
      · have : childFields (.child j (e :: es) v :: items) = j :: childFields items := rfl
        rw [this, List.reverse_cons, List.append_assoc]
        exact rd1

theorem flush_open {T : SeqTy H A C V W} {own : H → Tag → Prop} {s s' : SeqSt A C V} (o : Open T own s s') (h : H)
    (clean : s'.pos = .init ∨ (∃ p, s'.pos = .at_ p none ∧ p < T.fields.length) ∨ s'.pos = .done) :
    T.finishState h s.pos s = .ok { s' with pos := s.pos } := by
  cases o with
  | closed hs =>
    subst hs
    rcases clean with hp | ⟨p, hp, _⟩ | hp <;> rw [hp] <;> simp only [SeqTy.finishState] <;>
      (congr 1; cases s; simp only at hp; subst hp; rfl)
  | running j f c v hp hf hl hj hroom hs =>
    obtain ⟨P, hPc, hP⟩ := hl
    have := settles_running (T := T) hf (hP.finish c hPc) hroom h
    rw [hp]
    unfold SeqTy.flush at this
    simp only at this
    rw [this, hs]
    congr 1
    cases s; simp only at hp; subst hp; rfl

/-- The end tag when all counts are reached. -/
theorem open_end (T : SeqTy H A C V W) (own : H → Tag → Prop) (s s' : SeqSt A C V) (o : Open T own s s')
    (seen : List Nat) (rd : Ready T s' seen []) (h0 : ∀ f ∈ T.fields, f.max ≠ .bounded 0) (h : H) (n : Str) :
    T.next s h (.end_ n) = .ok ⟨.data (T.build s'.attrs s'.vals),
      if T.isElement then .none else .cont (.end_ n), false⟩ := by
  have hf := finishFields_ok h T.fields s'.vals rd.len h0
    (fun i f hf => by simpa [valuesOf] using rd.counts i f hf)
  have hend : ∀ k any, T.loop h (k + 1) (.end_ n) s' none any = .ok ⟨.data (T.build s'.attrs s'.vals),
      if T.isElement then .none else .cont (.end_ n), false⟩ := by
    intro k any
    have hr : T.round h (.end_ n) s' none any
        = .ok (.ret ⟨.data (T.build s'.attrs s'.vals), if T.isElement then .none else .cont (.end_ n), false⟩) := by
      have : T.atEnd h n s' none = .ok (.ret ⟨.data (T.build s'.attrs s'.vals),
          if T.isElement then .none else .cont (.end_ n), false⟩) := by
        simp [SeqTy.atEnd, SeqTy.flush, hf]
      unfold SeqTy.round
      rcases rd.clean with hp | ⟨p, hp, hpl⟩ | hp <;> simp only [hp, this]
    simp only [SeqTy.loop, hr]
  cases o with
  | closed hs =>
    subst hs
    exact hend _ _
  | running j f c v hp hfj hl hj hroom hs =>
    obtain ⟨P, hPc, hP⟩ := hl
    obtain ⟨a, hc⟩ := hP.end_ c hPc h n
    have hh : T.handle f j ⟨.data v, .cont (.end_ n), a⟩ h s none = .ok (.cont (.end_ n) a, s', none) := by
      have hl : ((s.vals.modify j (· ++ [v])).getD j []).length = (s.vals.getD j []).length + 1 := by
        rw [getD_modify _ _ _ _ hj, if_pos rfl]; simp
      simp only [SeqTy.handle, SeqTy.flush, store_ok f j v s hroom, EHO.fromEvent, hl]
      rw [hs]
      rfl
    rw [next_running T f j c h _ s hp hfj _ hc, hh]
    exact hend _ _

/-- Finishing the deserializer. -/
theorem open_finish (T : SeqTy H A C V W) (own : H → Tag → Prop) (s s' : SeqSt A C V) (o : Open T own s s')
    (seen : List Nat) (rd : Ready T s' seen []) (h0 : ∀ f ∈ T.fields, f.max ≠ .bounded 0) (h : H) :
    T.finish s h = .ok (T.build s'.attrs s'.vals) := by
  have hf := finishFields_ok h T.fields s'.vals rd.len h0
    (fun i f hf => by simpa [valuesOf] using rd.counts i f hf)
  simp only [SeqTy.finish, flush_open o h rd.clean, hf]

/-- The fields from the position on can still get children. -/
theorem Ready.not_past {T : SeqTy H A C V W} {s : SeqSt A C V} {seen : List Nat} {items : List (Item V)}
    (rd : Ready T s seen items) (h0 : ∀ f ∈ T.fields, f.max ≠ .bounded 0) {q : Nat} {f : Field H C V}
    (hq : s.pos.index T ≤ q) (hf : T.fields[q]? = some f) : ¬ Past T.fields seen q := by
  rintro (⟨k, hk, hlt⟩ | hfull)
  · have := rd.past k hk
    omega
  · have hm := hfull f hf
    rw [← rd.given q] at hm
    rcases Nat.lt_or_eq_of_le hq with h1 | h1
    · rw [rd.later q h1] at hm
      exact h0 f (List.mem_of_getElem? hf) hm
    · subst h1
      have := rd.room f hf _ hm
      omega

theorem Ready.atDone {T : SeqTy H A C V W} {s : SeqSt A C V} {seen : List Nat} (rd : Ready T s seen []) :
    Ready T { s with pos := .done } seen [] := by
  refine ⟨rd.given, ?_, rd.len, Or.inr (Or.inr rfl), by simp, ?_, ?_, by simp [childFields], by simp [childFields],
    rd.order, rd.counts⟩
  · intro k hk
    have := rd.past k hk
    show k ≤ T.fields.length
    rcases rd.clean with hp | ⟨p, hp, hpl⟩ | hp
    · rw [hp] at this; exact Nat.le_trans this (Nat.zero_le _)
    · rw [hp] at this; exact Nat.le_trans this (Nat.le_of_lt hpl)
    · rw [hp] at this; exact this
  · intro i hi
    simp only [SPos.index] at hi
    rw [List.getD_eq_getElem?_getD, List.getElem?_eq_none (by rw [rd.len]; omega)]
    rfl
  · intro f hf
    simp only [SPos.index] at hf
    rw [List.getElem?_eq_none (Nat.le_refl _)] at hf
    cases hf

/-- A tag that no remaining field takes is handed back. -/
theorem open_other (T : SeqTy H A C V W) (own : H → Tag → Prop) (s s' : SeqSt A C V) (o : Open T own s s')
    (seen : List Nat) (rd : Ready T s' seen []) (hni : s'.pos ≠ .init) (h0 : ∀ f ∈ T.fields, f.max ≠ .bounded 0)
    (h : H) (e : Event) (t : Tag) (he : tagOf e = some t) (hown : ¬ own h t)
    (hdec : ∀ q f, s'.pos.index T ≤ q → T.fields[q]? = some f → f.Declines h t) :
    ∃ s1 a, T.next s h e = .ok ⟨.deser s1, .cont e, a⟩ ∧ (Open T own s1 s' ∨ s1 = { s' with pos := .done }) := by
  obtain ⟨k, fb, s1, any, hn, hk, hp1, hs1, hfi, ho1⟩ := open_enter T own s s' o rd.clean h e t he hown
  have hdone : ∀ k s2 fb any, s2.pos = .done →
      T.loop h (k + 1) e s2 fb any = .ok ⟨.deser { s2 with pos := fb.getD s2.pos }, .cont e, T.allowAny || any⟩ := by
    intro k s2 fb any hp
    have : T.round h e s2 fb any = .ok (.stop s2 fb (.cont e) (T.allowAny || any)) := by
      unfold SeqTy.round
      simp only [hp]
      cases e <;> simp [tagOf] at he <;> rfl
    simp only [SeqTy.loop, this, Round.stop]
  have hp1 : s1.pos = s'.pos := by
    rw [hp1]
    have : s'.pos.isInit = false := by
      revert hni; cases s'.pos <;> simp [SPos.isInit]
    rw [this]
    rfl
  rcases rd.clean with hp | ⟨p, hp, hpl⟩ | hp
  · exact absurd hp hni
  · have hidx : s'.pos.index T = p := by rw [hp]; rfl
    have hmin : ∀ q f, T.fields[q]? = some f → f.min ≤ (s'.vals.getD q []).length := by
      intro q f hf
      simpa [valuesOf] using (rd.counts q f hf).1
    have hfb0 : fb ≠ some .init := fun hb => hni (hfi.mp hb)
    obtain ⟨any', fb', s2, h2, hp2, hs2, hc2⟩ := skip_many T h e t he (T.fields.length - 1) (by omega) h0
      (T.fields.length - 1 - p) (k - (T.fields.length - 1 - p)) p (by omega)
      s1 { s' with pos := s1.pos } fb any hs1 (by rw [hp1, hp])
      (fun q f hq1 hq hf => hdec q f (by omega) hf) (fun q f _ hq hf => hmin q f hf)
      (fun q hq => rd.later q (by omega))
      (fun f hf b hb => by have := rd.room f (by rw [hidx]; exact hf) b hb; rwa [hidx] at this)
      (fun hb => absurd hb hfb0)
    obtain ⟨fl, hlast⟩ : ∃ fl, T.fields[T.fields.length - 1]? = some fl :=
      ⟨_, List.getElem?_eq_getElem (by omega)⟩
    obtain ⟨any2, fb2, s3, h3, hp3, hs3, hc3⟩ := skip_one T h (k - (T.fields.length - 1 - p) - 1) e t he s2
      { s' with pos := .at_ (T.fields.length - 1) none } fb' hs2 any' (T.fields.length - 1) _ hlast hp2
      (hdec _ _ (by omega) hlast) (hmin _ _ hlast)
      (fun b hb => by
        rcases Nat.lt_or_eq_of_le (show p ≤ T.fields.length - 1 by omega) with h1 | h1
        · show (s'.vals.getD (T.fields.length - 1) []).length < b
          rw [rd.later _ (by rw [hidx]; exact h1)]
          have : b ≠ 0 := fun hb0 => h0 _ (List.mem_of_getElem? hlast) (by rw [hb, hb0])
          simp; omega
        · have := rd.room fl (by rw [hidx, h1]; exact hlast) b hb
          rw [hidx, h1] at this
          exact this)
      (fun hb => by
        rcases hc2 with ⟨rfl, _⟩ | ⟨rfl, _⟩
        · exact absurd hb hfb0
        · cases hb)
    have hnd : T.nextPos (T.fields.length - 1) = .done := by
      unfold SeqTy.nextPos
      rw [if_neg (by omega)]
    rw [hnd] at hp3 hc3
    have hrun : T.next s h e = .ok ⟨.deser { s3 with pos := fb2.getD s3.pos }, .cont e, T.allowAny || any2⟩ := by
      rw [hn, show k = (T.fields.length - 1 - p) + (k - (T.fields.length - 1 - p)) by omega, h2,
        show k - (T.fields.length - 1 - p) = (k - (T.fields.length - 1 - p) - 1) + 1 by omega, h3]
      have : k - (T.fields.length - 1 - p) - 1 = (k - (T.fields.length - 1 - p) - 2) + 1 := by omega
      rw [this, hdone _ _ _ _ hp3]
    refine ⟨_, _, hrun, ?_⟩
    have hfromS' : fb2 = none ∧ s3 = { s' with pos := .done } →
        Open T own { s3 with pos := fb2.getD s3.pos } s' ∨
          ({ s3 with pos := fb2.getD s3.pos } : SeqSt A C V) = { s' with pos := .done } := by
      rintro ⟨rfl, rfl⟩
      exact Or.inr rfl
    rcases hc3 with ⟨hfb2, h3'⟩ | ⟨hfb2, h3'⟩
    · rcases hc2 with ⟨hfb', h2'⟩ | ⟨hfb', h2'⟩
      · subst hfb2 hfb' h2' h3'
        cases fb2 with
        | none =>
          have hcl : s1 = s' := by
            cases ho1 with
            | closed hs => exact hs
            | running j f c v hpp _ _ _ _ _ =>
              simp only [Option.getD_none] at hpp
              rw [hp1, hp] at hpp
              cases hpp
          subst hcl
          exact Or.inr rfl
        | some q => exact Or.inl ho1
      · subst hfb2 hfb' h2' h3'
        exact hfromS' ⟨rfl, rfl⟩
    · exact hfromS' ⟨hfb2, h3'⟩
  · rw [show k = k - 1 + 1 by omega, hdone _ _ _ _ (by rw [hp1, hp])] at hn
    exact ⟨_, _, hn, Or.inl ho1⟩

/-- The tags that a sequence could still take after the given items: those that the last group could take (`ownF`), and
those of the fields that may get more. -/
def ownTags (fs : List (Field H C V)) (items : List (Item V)) (ownF : H → Tag → Prop) : H → Tag → Prop :=
  fun h t => ownF h t ∨ ∃ j f, ¬ Past fs (childFields items) j ∧ fs[j]? = some f ∧ ¬ f.Declines h t

theorem past_reverse (fs : List (Field H C V)) (seen : List Nat) (j : Nat) :
    Past fs seen.reverse j ↔ Past fs seen j := by
  unfold Past
  simp [List.mem_reverse, List.count_reverse]

/-- The same for `PartsOk`. -/
theorem parts_valid (track : H → Event → H) (fs : List (Field H C V)) (ownF : H → Tag → Prop) :
    ∀ (items : List (Item V)) (seen : List Nat) (own : H → Tag → Prop) (h : H), PartsOk track fs ownF seen own h items →
    ∀ i ∈ childFields items, i < fs.length := by
  intro items
  induction items with
  | nil => intro _ _ h _ i hi; simp [childFields] at hi
  | cons it items ih =>
    intro seen own h ok i hi
    cases it with
    | pad e => exact ih _ _ _ ok.2 i hi
    | child j evs v =>
      obtain ⟨own', vp, ok⟩ := ok
      have : childFields (.child j evs v :: items) = j :: childFields items := rfl
      rw [this, List.mem_cons] at hi
      rcases hi with rfl | hi
      · obtain ⟨f, _, _, _, hf, _⟩ := vp
        rcases Nat.lt_or_ge i fs.length with h | h
        · exact h
        · rw [List.getElem?_eq_none h] at hf; cases hf
      · exact ih _ _ _ ok i hi

theorem ready_begin (T : SeqTy H A C V W) (a : A) (items : List (Item V))
    (h0 : ∀ f ∈ T.fields, f.max ≠ .bounded 0)
    (hvalid : ∀ i ∈ childFields items, i < T.fields.length) (sq : InSequence T.fields items) :
    Ready T (T.start a) [] items := by
  have hg : ∀ i, (T.start a).vals.getD i [] = [] := by
    intro i
    simp only [SeqTy.start, List.getD_eq_getElem?_getD, List.getElem?_map]
    cases T.fields[i]? <;> rfl
  refine ⟨fun i => by rw [hg]; rfl, by simp, by simp [SeqTy.start], Or.inl rfl, fun _ => hg, fun i _ => hg i, ?_, ?_,
    hvalid, sq.order, ?_⟩
  · intro f hf b hb
    rw [hg]
    have : b ≠ 0 := fun hb0 => h0 f (List.mem_of_getElem? hf) (by rw [hb, hb0])
    simp; omega
  · intro i _; exact Nat.zero_le _
  · intro i f hf
    rw [hg]
    simpa using sq.counts i f hf

/-! ## Theorems -/

/-- **C09** with nested groups: let the start tag have valid attributes, let the content be padding, elements and groups,
in the order of the fields, the number for each field within its bounds. Then the generated deserializer consumes exactly
the element and returns the struct whose fields hold exactly the values of the elements and groups, in document order. -/
theorem C09_nested_sequence_feeds (track : H → Event → H) (T : SeqTy H A C V W)
    (hT : T.isElement = true) (h0 : ∀ f ∈ T.fields, f.max ≠ .bounded 0)
    (h : H) (t : Tag) (a : A) (ha : T.ofTag (track h (.start t)) t = .ok a)
    (items : List (Item V)) (ownF : H → Tag → Prop)
    (ok : PartsOk track T.fields ownF [] (fun _ _ => False) (track h (.start t)) items)
    (sq : InSequence T.fields items) :
    Feeds track T.de none h (.start t :: (itemEvents items ++ [.end_ t.name]))
      (T.build a ((List.range T.fields.length).map (valuesOf · items))) := by
  have hi : T.de.call none (track h (.start t)) (.start t)
      = .ok ⟨.deser (T.start a), .none, false⟩ := by
    show T.init _ _ = _
    simp [SeqTy.init, hT, initFromStart, ha, Except.map]
  obtain ⟨sf, s1, st, o, rd, hat, hv, _⟩ := stays_items track T h0 ownF items [] _ (T.start a) (T.start a)
    (track h (.start t)) (.closed rfl) (ready_begin T a items h0 (parts_valid track _ _ _ _ _ _ ok) sq) ok
  refine .step hi (Or.inl rfl) (st.feeds (.last (a := false) ?_))
  rw [show (T.start a).vals = T.fields.map fun _ => [] from rfl, merge_start] at hv
  show T.next _ _ _ = _
  rw [open_end T ownF sf s1 o _ rd h0, hT, hat, hv]
  rfl

/-- **C09** for a nested sequence: the elements that belong to it are consumed exactly, and the group has the value that
holds the values of the elements. -/
theorem C09_nested_group_reads (track : H → Event → H) (T : SeqTy H A C V W)
    (hT : T.isElement = false) (h0 : ∀ f ∈ T.fields, f.max ≠ .bounded 0)
    (h : H) (items : List (Item V)) (ownF : H → Tag → Prop)
    (ok : PartsOk track T.fields ownF [] (fun _ _ => False) h items) (sq : InSequence T.fields items)
    (hfirst : ∃ i evs v r, items = .child i evs v :: r) :
    GroupReads track T.de h (itemEvents items)
      (T.build T.attrs0 ((List.range T.fields.length).map (valuesOf · items))) (ownTags T.fields items ownF) := by
  obtain ⟨i, evs, v, r, rfl⟩ := hfirst
  have rd0 := ready_begin T T.attrs0 _ h0 (parts_valid track _ _ _ _ _ _ ok) sq
  obtain ⟨own', vp, ok⟩ := ok
  obtain ⟨f, e, es, s1, ev, a, sf, hf, rfl, hn, hq, hni, st, o⟩ := child_stays track T h0 h i evs v r [] _ own'
    (T.start T.attrs0) (T.start T.attrs0) (.closed rfl) rd0 vp
  have rd1 := ready_after T _ i _ v r f hf [] rd0 h0
  obtain ⟨sf', s2, st', o', rd2, hat, hv, _⟩ := stays_items track T h0 ownF r [i] own' sf _ _ o rd1 ok
  have hinit : T.de.call none (track h e) e = .ok ⟨.deser s1, ev, a⟩ := by
    show T.init _ _ = _
    simp [SeqTy.init, hT, hn, hni]
  refine Or.inr ⟨sf', .step (es := es ++ itemEvents r) hinit hq (st.append st'), ?_⟩
  have hval : T.build s2.attrs s2.vals = T.build T.attrs0
      ((List.range T.fields.length).map (valuesOf · (.child i (e :: es) v :: r))) := by
    rw [hat, hv, ← merge_child (evs := e :: es), show (T.start T.attrs0).vals = T.fields.map fun _ => [] from rfl, merge_start]
    rfl
  have hrev : (childFields r).reverse ++ [i] = (childFields (.child i (e :: es) v :: r)).reverse := by
    rw [show childFields (.child i (e :: es) v :: r) = i :: childFields r from rfl, List.reverse_cons]
  rw [hrev] at rd2
  have hni2 : s2.pos ≠ .init := by
    intro hp
    have h1 := rd2.given i
    rw [rd2.init hp i, List.count_reverse,
      show childFields (.child i (e :: es) v :: r) = i :: childFields r from rfl, List.count_cons_self] at h1
    simp at h1
  refine ⟨fun s => ∃ s', Open T ownF s s' ∧ Ready T s' (childFields (.child i (e :: es) v :: r)).reverse [] ∧
    s'.pos ≠ .init ∧ s'.attrs = s2.attrs ∧ s'.vals = s2.vals, ⟨s2, o', rd2, hni2, rfl, rfl⟩, ?_, ?_, ?_, ?_⟩
  · rintro s ⟨s', o, rd, _, h1, h2⟩ h
    have := open_finish T ownF s s' o _ rd h0 h
    rw [h1, h2, hval] at this
    exact this
  · rintro s ⟨s', o, rd, hp, h1, h2⟩ h e he
    obtain ⟨s1, ev, a, hn, hq, o'⟩ := open_padding T ownF s s' o _ _ rd h e he
    exact ⟨s1, ev, a, hn, hq, s', o', rd, hp, h1, h2⟩
  · rintro s ⟨s', o, rd, hp, h1, h2⟩ h e t he hown
    have hdec : ∀ q f, s'.pos.index T ≤ q → T.fields[q]? = some f → f.Declines h t := by
      intro q f hq hf
      have := rd.not_past h0 hq hf
      rw [past_reverse] at this
      exact Classical.byContradiction fun hd => hown (Or.inr ⟨q, f, this, hf, hd⟩)
    obtain ⟨s1, a, hn, h3⟩ := open_other T ownF s s' o _ rd hp h0 h e t he (fun hh => hown (Or.inl hh)) hdec
    refine ⟨s1, a, hn, ?_⟩
    rcases h3 with o' | rfl
    · exact ⟨s', o', rd, hp, h1, h2⟩
    · exact ⟨{ s' with pos := .done }, .closed rfl, rd.atDone, by simp, h1, h2⟩
  · rintro s ⟨s', o, rd, hp, h1, h2⟩ h n
    have := open_end T ownF s s' o _ rd h0 h n
    rw [h1, h2, hval, hT] at this
    exact ⟨false, this⟩

end
end Verif.Gen

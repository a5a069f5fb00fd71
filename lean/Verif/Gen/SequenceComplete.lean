import Verif.Gen.Sequence

/-!
# Generated sequence deserializers accept every valid document (C09)
-/

namespace Verif.Gen

open Verif.Rt Verif.Occurs

/-! ## Specification -/

section
variable {H A C V W : Type}

/-- The content of a sequence element: padding, and children; `child i evs v` is a child
element for field `i`, with the events `evs` and the value `v`. -/
inductive Item (V : Type) where
  | pad (e : Event)
  | child (i : Nat) (evs : List Event) (v : V)

def Item.events : Item V → List Event
  | .pad e => [e]
  | .child _ evs _ => evs

def itemEvents (items : List (Item V)) : List Event := items.flatMap Item.events

/-- The values of the children for field `i`, in document order. -/
def valuesOf (i : Nat) (items : List (Item V)) : List V :=
  items.filterMap fun
    | .child j _ v => if j = i then some v else none
    | .pad _ => none

/-- The fields the children belong to, in document order. -/
def childFields (items : List (Item V)) : List Nat :=
  items.filterMap fun
    | .child j _ _ => some j
    | .pad _ => none

/-- A particle does not take an element with this tag: an element particle with another name, or a
group whose deserializer hands the tag back. -/
def Field.Declines (f : Field H C V) (h : H) (t : Tag) : Prop :=
  match f.want with
  | some want => want h t = false
  | none => ∀ e, tagOf e = some t → ∃ a, f.de.init h e = .ok ⟨.none, .cont e, a⟩

/-- The tag belongs to particle `i`: it has its name (if the particle is an element), and the
particles before it that can still take an element (those not in `past`) do not take it. -/
def Picks (fs : List (Field H C V)) (i : Nat) (past : Nat → Prop) (h : H) (t : Tag) : Prop :=
  (∀ f want, fs[i]? = some f → f.want = some want → want h t = true) ∧
  ∀ j f, j < i → ¬ past j → fs[j]? = some f → f.Declines h t

/-- After children for the fields `seen`: field `j` does not get any more, because there was a
child for a later field, or because it has got as many as it may. -/
def Past (fs : List (Field H C V)) (seen : List Nat) (j : Nat) : Prop :=
  (∃ k ∈ seen, j < k) ∨ ∀ f, fs[j]? = some f → f.max = .bounded (seen.count j)

/-- `evs` is an element that belongs to field `i`, and its type reads it as `v`. -/
def ValidChild (track : H → Event → H) (fs : List (Field H C V)) (past : Nat → Prop) (h : H)
    (i : Nat) (evs : List Event) (v : V) : Prop :=
  ∃ f e es t, fs[i]? = some f ∧ evs = e :: es ∧ tagOf e = some t ∧
    Picks fs i past (track h e) t ∧ Feeds track f.de none h evs v

/-- Every item is padding or a valid child, the helper following the events; `seen` are the
fields of the children so far. -/
def ItemsOk (track : H → Event → H) (fs : List (Field H C V)) :
    List Nat → H → List (Item V) → Prop
  | _, _, [] => True
  | seen, h, .pad e :: r => Padding e = true ∧ ItemsOk track fs seen (track h e) r
  | seen, h, .child i evs v :: r =>
    ValidChild track fs (Past fs seen) h i evs v ∧ ItemsOk track fs (i :: seen) (evs.foldl track h) r

/-- The children stand in the order of the fields, and their number is within the bounds of
each field. -/
structure InSequence (fs : List (Field H C V)) (items : List (Item V)) : Prop where
  order : (childFields items).Pairwise (· ≤ ·)
  counts : ∀ i f, fs[i]? = some f → Allows f.min f.max (valuesOf i items).length

/-! ## Lemmas -/

theorem nextPos_cases (T : SeqTy H A C V W) (i : Nat) :
    (i + 1 < T.fields.length ∧ T.nextPos i = .at_ (i + 1) none) ∨
    (T.fields.length ≤ i + 1 ∧ T.nextPos i = .done) := by
  unfold SeqTy.nextPos
  by_cases h : i + 1 < T.fields.length
  · exact Or.inl ⟨h, if_pos h⟩
  · exact Or.inr ⟨by omega, if_neg h⟩

theorem occurs_single {f : Field H C V} (h : f.occurs = .single) :
    f.min = 1 ∧ f.max = .bounded 1 := by
  unfold Field.occurs fromOccurs at h
  split at h <;> first | (split at h <;> simp at h; done) | (simp at h; done) | (constructor <;> assumption)

theorem occurs_optional {f : Field H C V} (h : f.occurs = .optional) :
    f.min = 0 ∧ f.max = .bounded 1 := by
  unfold Field.occurs fromOccurs at h
  split at h <;> first | (split at h <;> simp at h; done) | (simp at h; done) | (constructor <;> assumption)

theorem occurs_static {f : Field H C V} {n : Nat} (h : f.occurs = .staticList n) :
    f.min = n ∧ f.max = .bounded n := by
  unfold Field.occurs fromOccurs at h
  split at h
  · simp at h
  · simp at h
  · simp at h
  · split at h
    · next hm _ _ _ he => simp at h; subst h; subst he; exact ⟨rfl, hm⟩
    · simp at h
  · simp at h

theorem occurs_none {f : Field H C V} (h : f.occurs = .none) :
    f.min = 0 ∧ f.max = .bounded 0 := by
  unfold Field.occurs fromOccurs at h
  split at h <;> first | (split at h <;> simp at h; done) | (simp at h; done) | (constructor <;> assumption)

/-- Finishing a field whose number of values is within the bounds changes nothing. -/
theorem finishField_ok (f : Field H C V) (h : H) (vs : List V)
    (ha : Allows f.min f.max vs.length) (h0 : f.max ≠ .bounded 0) :
    finishField f h vs = .ok vs := by
  obtain ⟨hmin, hmax⟩ := ha
  unfold finishField
  cases ho : f.occurs with
  | none => exact absurd (occurs_none ho).2 h0
  | single =>
    have := (occurs_single ho).1
    have h1 : 1 - vs.length = 0 := by omega
    have h2 : vs.isEmpty = false := by
      cases vs with
      | nil => simp at hmin; omega
      | cons => rfl
    simp [h1, h2, fillDefault]
  | optional => rfl
  | dynamicList =>
    have h1 : f.min - vs.length = 0 := by omega
    have h2 : ¬ vs.length < f.min := by omega
    simp [h1, h2, fillDefault]
  | staticList n =>
    obtain ⟨h1, h2⟩ := occurs_static ho
    have h3 := hmax n h2
    have h4 : vs.length = n := by omega
    simp [h4, fillDefault]

/-- The positions of the fields. -/
def SPos.index (T : SeqTy H A C V W) : SPos C → Nat
  | .init => 0
  | .at_ i _ => i
  | .done => T.fields.length

/-- Between two children: nothing is running, the fields after the position are still empty,
the current one has room, and the remaining items fit. -/
structure Ready (T : SeqTy H A C V W) (s : SeqSt A C V) (seen : List Nat) (items : List (Item V)) :
    Prop where
  given : ∀ i, (s.vals.getD i []).length = seen.count i
  past : ∀ k ∈ seen, k ≤ s.pos.index T
  len : s.vals.length = T.fields.length
  clean : s.pos = .init ∨ (∃ p, s.pos = .at_ p none ∧ p < T.fields.length) ∨ s.pos = .done
  init : s.pos = .init → ∀ i, s.vals.getD i [] = []
  later : ∀ i, s.pos.index T < i → s.vals.getD i [] = []
  room : ∀ f, T.fields[s.pos.index T]? = some f → ∀ b, f.max = .bounded b →
    (s.vals.getD (s.pos.index T) []).length < b
  rest : ∀ i ∈ childFields items, s.pos.index T ≤ i
  valid : ∀ i ∈ childFields items, i < T.fields.length
  order : (childFields items).Pairwise (· ≤ ·)
  counts : ∀ i f, T.fields[i]? = some f →
    Allows f.min f.max ((s.vals.getD i []).length + (valuesOf i items).length)

theorem valuesOf_eq_nil {i : Nat} {items : List (Item V)} (h : ∀ j ∈ childFields items, i < j) :
    valuesOf i items = [] := by
  unfold valuesOf
  rw [List.filterMap_eq_nil_iff]
  intro x hx
  cases x with
  | pad e => rfl
  | child j evs v =>
    have : j ∈ childFields items := List.mem_filterMap.mpr ⟨_, hx, rfl⟩
    have := h j this
    simp only
    rw [if_neg (by omega)]

/-- Passing over a field that has got all its values. -/
theorem loop_skip (T : SeqTy H A C V W) (h : H) (k : Nat) (e : Event) (t : Tag)
    (he : tagOf e = some t) (s : SeqSt A C V) (fb : Option (SPos C)) (any : Bool) (p : Nat)
    (f : Field H C V) (hf : T.fields[p]? = some f) (hp : s.pos = .at_ p none)
    (hdec : f.Declines h t)
    (hmin : f.min ≤ (s.vals.getD p []).length)
    (hroom : ∀ b, f.max = .bounded b → (s.vals.getD p []).length < b)
    (hfb : fb = none ∨ (fb = some .init ∧ f.min = 0)) :
    ∃ any', T.loop h (k + 1) e s fb any
      = T.loop h k e { s with pos := T.nextPos p } fb any' := by
  have hcreate : ∃ a, f.create T.allowAny h e = .ok ⟨.none, .cont e, a⟩ := by
    unfold Field.Declines at hdec
    cases hw : f.want with
    | none =>
      rw [hw] at hdec
      simpa [Field.create, hw] using hdec e he
    | some want =>
      rw [hw] at hdec
      exact ⟨T.allowAny || f.allowAny, by simp [Field.create, hw, initStartTag, he, show want h t = false from hdec]⟩
  obtain ⟨a, hcreate⟩ := hcreate
  have hev : ∀ a, EHO.fromEvent (.cont e) a = .cont e a := by
    intro a; cases e <;> simp [tagOf] at he <;> rfl
  have hh : T.handle f p ⟨.none, .cont e, a⟩ h s fb
      = .ok (.cont e a, { s with pos := T.nextPos p }, fb) := by
    simp only [SeqTy.handle, SeqTy.handleNone, hev]
    by_cases h1 : f.min = 0 ∨ f.occurs = .optional
    · rw [if_pos h1]
    · rw [if_neg h1]
      by_cases h2 : f.isDefaultable = true
      · rw [if_pos h2]
      · rw [if_neg h2]
        by_cases h3 : f.occurs = .single
        · obtain ⟨hs1, hs2⟩ := occurs_single h3
          have := hroom 1 hs2
          omega
        · rw [if_neg h3]
          rcases hfb with rfl | ⟨_, h4⟩
          · simp only [SeqTy.flush]
            rw [if_neg (by omega)]
          · exact absurd (Or.inl h4) h1
  refine ⟨any || a, ?_⟩
  have hr : T.round h e s fb any = .ok (.again e { s with pos := T.nextPos p } fb
      (any || a)) := by
    unfold SeqTy.round
    simp only [hp]
    cases e <;> simp [tagOf] at he <;> simp only [tagOf, hf, hcreate, hh, SeqTy.after]
  simp only [SeqTy.loop, hr]

/-- Passing over several fields. -/
theorem loop_skips (T : SeqTy H A C V W) (h : H) (e : Event) (t : Tag)
    (he : tagOf e = some t) (fb : Option (SPos C)) (j : Nat) (hj : j < T.fields.length)
    (d k p : Nat) (hpj : p + d = j) :
    ∀ (s : SeqSt A C V) (any : Bool), s.pos = .at_ p none →
    (∀ q f, p ≤ q → q < j → T.fields[q]? = some f → f.Declines h t) →
    (∀ q f, p ≤ q → q < j → T.fields[q]? = some f → f.min ≤ (s.vals.getD q []).length) →
    (∀ q, p < q → s.vals.getD q [] = []) →
    (∀ f, T.fields[p]? = some f → ∀ b, f.max = .bounded b → (s.vals.getD p []).length < b) →
    (∀ f ∈ T.fields, f.max ≠ .bounded 0) →
    (fb = none ∨ (fb = some .init ∧ ∀ q, s.vals.getD q [] = [])) →
    ∃ any', T.loop h (d + k) e s fb any
      = T.loop h k e { s with pos := .at_ j none } fb any' := by
  induction d generalizing p with
  | zero =>
    intro s any hp _ _ _ _ _ _
    have : p = j := by omega
    subst this
    refine ⟨any, ?_⟩
    rw [Nat.zero_add]
    congr 1
    cases s; simp only at hp; subst hp; rfl
  | succ d ih =>
    intro s any hp hdec hmin hlater hroom h0 hfb
    have hpl : p < T.fields.length := by omega
    have hf : T.fields[p]? = some (T.fields[p]) := List.getElem?_eq_getElem hpl
    have hd := hdec p _ (Nat.le_refl _) (by omega) hf
    have hm := hmin p _ (Nat.le_refl _) (by omega) hf
    have hfb' : fb = none ∨ (fb = some .init ∧ (T.fields[p]).min = 0) := by
      rcases hfb with rfl | ⟨rfl, hv⟩
      · exact Or.inl rfl
      · refine Or.inr ⟨rfl, ?_⟩
        rw [hv p] at hm; simpa using hm
    obtain ⟨a1, h1⟩ := loop_skip T h (d + k) e t he s fb any p _ hf hp hd hm
      (hroom _ hf) hfb'
    have hnext : T.nextPos p = .at_ (p + 1) none := by
      rcases nextPos_cases T p with ⟨_, h⟩ | ⟨hle, _⟩
      · exact h
      · omega
    rw [show d + 1 + k = (d + k) + 1 by omega, h1, hnext]
    obtain ⟨a2, h2⟩ := ih (p + 1) (by omega) { s with pos := .at_ (p + 1) none } a1 rfl
      (fun q f hq1 hq2 hf => hdec q f (by omega) hq2 hf)
      (fun q f hq1 hq2 hf => hmin q f (by omega) hq2 hf)
      (fun q hq => hlater q (by omega))
      (fun f hf b hb => by
        simp only
        rw [hlater (p + 1) (by omega)]
        have : b ≠ 0 := fun hb0 => h0 f (List.mem_of_getElem? hf) (by rw [hb, hb0])
        simp; omega)
      h0 hfb
    exact ⟨a2, h2⟩

/-- The state after a value has been stored in field `j`. -/
def SeqTy.posAfter (T : SeqTy H A C V W) (f : Field H C V) (j n : Nat) : SPos C :=
  match f.occurs, f.max with
  | .single, _ | .optional, _ => T.nextPos j
  | _, .bounded b => if n < b then .at_ j none else T.nextPos j
  | _, .unbounded => .at_ j none

theorem posAfter_eq (T : SeqTy H A C V W) (f : Field H C V) (j n : Nat) (hn : 0 < n) :
    T.posAfter f j n
      = (match f.max with
         | .bounded b => if n < b then .at_ j none else T.nextPos j
         | .unbounded => .at_ j none) := by
  unfold SeqTy.posAfter
  split
  · next h => rw [(occurs_single h).2]; simp only; rw [if_neg (by omega)]
  · next h => rw [(occurs_optional h).2]; simp only; rw [if_neg (by omega)]
  · next hm _ _ => rw [hm]
  · next hm _ _ => rw [hm]

theorem getD_modify (l : List (List V)) (i j : Nat) (v : V) (hi : i < l.length) :
    (l.modify i (· ++ [v])).getD j [] = if i = j then l.getD j [] ++ [v] else l.getD j [] := by
  simp only [List.getD_eq_getElem?_getD, List.getElem?_modify]
  by_cases h : i = j
  · subst h
    simp [List.getElem?_eq_getElem hi]
  · simp [h]

/-- Storing a value in a field with room. -/
theorem store_ok (f : Field H C V) (j : Nat) (v : V) (s : SeqSt A C V)
    (hroom : ∀ b, f.max = .bounded b → (s.vals.getD j []).length < b) :
    store f j v s = .ok { s with vals := s.vals.modify j (· ++ [v]) } := by
  have key : f.max = .bounded 1 → (s.vals.getD j []).isEmpty = true := by
    intro h
    have := hroom 1 h
    cases hl : s.vals.getD j [] with
    | nil => rfl
    | cons a b => rw [hl] at this; simp at this
  unfold store
  simp only
  split
  · next h => rw [if_pos (key (occurs_single h).2)]
  · next h => rw [if_pos (key (occurs_optional h).2)]
  · rfl

theorem fromEvent_quiet {e : Event} {ev : DEvent} (q : Quiet e ev) (a : Bool) :
    EHO.fromEvent ev a = .brk ev a := by
  rcases q with rfl | ⟨hp, rfl | rfl⟩
  · rfl
  · rfl
  · cases e <;> first | rfl | (simp [Padding] at hp; done)

/-- The child returns its value. -/
theorem handle_data (T : SeqTy H A C V W) (f : Field H C V) (j : Nat) (v : V) (a : Bool) (h : H)
    (s : SeqSt A C V) (fb : Option (SPos C)) (hfb : fb = none ∨ fb = some .init)
    (hj : j < s.vals.length)
    (hroom : ∀ b, f.max = .bounded b → (s.vals.getD j []).length < b) :
    T.handle f j ⟨.data v, .none, a⟩ h s fb
      = .ok (.brk .none a,
          { s with vals := s.vals.modify j (· ++ [v]),
                   pos := T.posAfter f j ((s.vals.getD j []).length + 1) }, none) := by
  have hfl : T.flush h fb s = .ok s := by rcases hfb with rfl | rfl <;> rfl
  simp only [SeqTy.handle, hfl, store_ok f j v s hroom, EHO.fromEvent]
  have hl : ((s.vals.modify j (· ++ [v])).getD j []).length = (s.vals.getD j []).length + 1 := by
    rw [getD_modify _ _ _ _ hj, if_pos rfl]; simp
  simp only [hl]
  rfl

/-- The child goes on. -/
theorem handle_deser (T : SeqTy H A C V W) (f : Field H C V) (j : Nat) (c : C) (a : Bool) (h : H)
    (e : Event) (ev : DEvent) (q : Quiet e ev)
    (s : SeqSt A C V) (fb : Option (SPos C)) (hfb : fb = none ∨ fb = some .init) :
    ∃ pos, T.handle f j ⟨.deser c, ev, a⟩ h s fb
      = .ok (.brk ev a, { s with pos }, some (.at_ j (some c))) := by
  have hfl : T.flush h fb s = .ok s := by rcases hfb with rfl | rfl <;> rfl
  simp only [SeqTy.handle, hfl, fromEvent_quiet q]
  exact ⟨_, rfl⟩

/-- A running child receives the event. -/
theorem next_running (T : SeqTy H A C V W) (f : Field H C V) (j : Nat) (c : C) (h : H)
    (e : Event) (s : SeqSt A C V) (hp : s.pos = .at_ j (some c)) (hf : T.fields[j]? = some f)
    (out : Output C V) (hc : f.de.next c h e = .ok out) :
    T.next s h e = (match T.handle f j out h s none with
      | .error err => .error err
      | .ok (.cont e a, s, fb) => T.loop h (2 * T.fields.length + 3) e s fb (false || a)
      | .ok (.brk ev a, s, fb) => .ok ⟨.deser { s with pos := fb.getD s.pos }, ev, a⟩) := by
  unfold SeqTy.next SeqTy.fuel
  simp only [SeqTy.loop, SeqTy.round, hp, hf, hc, SeqTy.after]
  cases T.handle f j out h s none with
  | error err => rfl
  | ok r =>
    obtain ⟨e, s', fb'⟩ := r
    cases e <;> rfl

/-- A running child until it returns its value. -/
theorem feeds_running (track : H → Event → H) (T : SeqTy H A C V W) (f : Field H C V) (j : Nat)
    (hf : T.fields[j]? = some f) (s : SeqSt A C V) (hj : j < s.vals.length)
    (hroom : ∀ b, f.max = .bounded b → (s.vals.getD j []).length < b)
    (rest : List Event) (w : W) {st : Option C} {h : H} {evs : List Event} {v : V}
    (fd : Feeds track f.de st h evs v) :
    ∀ c, st = some c →
    Feeds track T.de (some { s with vals := s.vals.modify j (· ++ [v]), pos := T.posAfter f j ((s.vals.getD j []).length + 1) }) (evs.foldl track h) rest w →
    Feeds track T.de (some { s with pos := .at_ j (some c) }) h (evs ++ rest) w := by
  induction fd with
  | @last st h e v a hc =>
    intro c hst hr
    subst hst
    refine .step (ev := .none) (a := a) ?_ (Or.inl rfl) hr
    show T.next { s with pos := .at_ j (some c) } (track h e) e = _
    rw [next_running T f j c (track h e) e _ rfl hf _ hc, handle_data T f j v a _ { s with pos := .at_ j (some c) } none (Or.inl rfl) hj hroom]
    rfl
  | @step st h e es v c' ev a hc hq _ ih =>
    intro c hst hr
    subst hst
    refine .step (ev := ev) (a := a) ?_ hq (ih c' rfl hr)
    show T.next { s with pos := .at_ j (some c) } (track h e) e = _
    obtain ⟨pos, hh⟩ := handle_deser T f j c' a (track h e) e ev hq { s with pos := .at_ j (some c) } none (Or.inl rfl)
    rw [next_running T f j c (track h e) e _ rfl hf _ hc, hh]
    rfl

/-- The loop reaches the field of the child: the first event of a child element, in a ready
state. -/
theorem next_reach (T : SeqTy H A C V W) (h : H) (e : Event) (t : Tag) (he : tagOf e = some t)
    (j : Nat) (evs : List Event) (v : V) (items : List (Item V))
    (f : Field H C V) (hf : T.fields[j]? = some f) (seen : List Nat)
    (hpick : Picks T.fields j (Past T.fields seen) h t) (h0 : ∀ f ∈ T.fields, f.max ≠ .bounded 0)
    (s : SeqSt A C V) (rd : Ready T s seen (.child j evs v :: items)) :
    ∃ k fb any, (fb = none ∨ fb = some SPos.init) ∧
      T.next s h e = T.loop h (k + 1) e { s with pos := .at_ j none } fb any := by
  have hj : j < T.fields.length := by
    rcases Nat.lt_or_ge j T.fields.length with h | h
    · exact h
    · rw [List.getElem?_eq_none h] at hf; cases hf
  have hle : s.pos.index T ≤ j := rd.rest j (by simp [childFields])
  have hord := rd.order
  have hge : ∀ i ∈ childFields items, j ≤ i := by
    have : childFields (.child j evs v :: items) = j :: childFields items := rfl
    rw [this, List.pairwise_cons] at hord
    exact hord.1
  have hv0 : ∀ q, q < j → valuesOf q (.child j evs v :: items) = [] := by
    intro q hq
    apply valuesOf_eq_nil
    intro i hi
    have : childFields (.child j evs v :: items) = j :: childFields items := rfl
    rw [this, List.mem_cons] at hi
    rcases hi with rfl | hi
    · exact hq
    · exact Nat.lt_of_lt_of_le hq (hge i hi)
  have hmin : ∀ q f, q < j → T.fields[q]? = some f → f.min ≤ (s.vals.getD q []).length := by
    intro q f hq hf
    have := (rd.counts q f hf).1
    rw [hv0 q hq] at this
    simpa using this
  have hdec : ∀ q f, s.pos.index T ≤ q → q < j → T.fields[q]? = some f → f.Declines h t := by
    intro q f hq hqj hf
    refine hpick.2 q f hqj ?_ hf
    rintro (⟨k, hk, hlt⟩ | hfull)
    · have := rd.past k hk
      omega
    · have hm := hfull f hf
      rw [← rd.given q] at hm
      rcases Nat.lt_or_eq_of_le hq with h1 | h1
      · rw [rd.later q h1] at hm
        exact h0 f (List.mem_of_getElem? hf) hm
      · subst h1
        have := rd.room f hf _ hm
        omega
  rcases rd.clean with hp | ⟨p, hp, hpl⟩ | hp
  · -- nothing read so far
    have hempty := rd.init hp
    have hstep : T.next s h e
        = T.loop h (2 * T.fields.length + 3) e { s with pos := .at_ 0 none } (some .init)
            (false || T.allowAny) := by
      unfold SeqTy.next SeqTy.fuel
      simp only [SeqTy.loop, SeqTy.round, hp]
      cases e <;> simp [tagOf] at he <;> rfl
    have hidx : s.pos.index T = 0 := by rw [hp]; rfl
    obtain ⟨any', h1⟩ := loop_skips T h e t he (some .init) j hj j
      (2 * T.fields.length + 3 - j) 0 (by omega) { s with pos := .at_ 0 none }
      (false || T.allowAny) rfl (fun q f _ hq hf => hdec q f (by omega) hq hf) (fun q f _ hq hf => hmin q f hq hf) (fun q _ => hempty q)
      (fun f hf b hb => by
        simp only
        rw [hempty 0]
        have : b ≠ 0 := fun hb0 => h0 f (List.mem_of_getElem? hf) (by rw [hb, hb0])
        simp; omega)
      h0 (Or.inr ⟨rfl, hempty⟩)
    rw [show j + (2 * T.fields.length + 3 - j) = 2 * T.fields.length + 3 by omega] at h1
    refine ⟨2 * T.fields.length + 2 - j, some .init, any', Or.inr rfl, ?_⟩
    rw [hstep, h1, show 2 * T.fields.length + 2 - j + 1 = 2 * T.fields.length + 3 - j by omega]
  · have hidx : s.pos.index T = p := by rw [hp]; rfl
    rw [hidx] at hle
    obtain ⟨any', h1⟩ := loop_skips T h e t he none j hj (j - p)
      (T.fuel - (j - p)) p (by omega) s false hp
      (fun q f hq1 hq hf => hdec q f (by omega) hq hf) (fun q f _ hq hf => hmin q f hq hf)
      (fun q hq => rd.later q (by rw [hidx]; exact hq))
      (fun f hf b hb => by have := rd.room f (by rw [hidx]; exact hf) b hb; rwa [hidx] at this)
      h0 (Or.inl rfl)
    have hfu : j - p + (T.fuel - (j - p)) = T.fuel := by unfold SeqTy.fuel; omega
    rw [hfu] at h1
    refine ⟨T.fuel - (j - p) - 1, none, any', Or.inl rfl, ?_⟩
    unfold SeqTy.next
    rw [h1]
    congr 1
    unfold SeqTy.fuel; omega
  · have hidx : s.pos.index T = T.fields.length := by rw [hp]; rfl
    omega

/-- After a child has been stored the state is ready for the remaining items. -/
theorem ready_after (T : SeqTy H A C V W) (s : SeqSt A C V) (j : Nat) (evs : List Event) (v : V)
    (items : List (Item V)) (f : Field H C V) (hf : T.fields[j]? = some f) (seen : List Nat)
    (rd : Ready T s seen (.child j evs v :: items)) (h0 : ∀ f ∈ T.fields, f.max ≠ .bounded 0) :
    Ready T { s with vals := s.vals.modify j (· ++ [v]), pos := T.posAfter f j ((s.vals.getD j []).length + 1) }
      (j :: seen) items := by
  have hj : j < T.fields.length := by
    rcases Nat.lt_or_ge j T.fields.length with h | h
    · exact h
    · rw [List.getElem?_eq_none h] at hf; cases hf
  have hjs : j < s.vals.length := by rw [rd.len]; exact hj
  have hle : s.pos.index T ≤ j := rd.rest j (by simp [childFields])
  have hord := rd.order
  have hcf : childFields (.child j evs v :: items) = j :: childFields items := rfl
  rw [hcf, List.pairwise_cons] at hord
  have hcounts : ∀ i f, T.fields[i]? = some f → Allows f.min f.max
      (((s.vals.modify j (· ++ [v])).getD i []).length + (valuesOf i items).length) := by
    intro i f hf
    have := rd.counts i f hf
    rw [getD_modify _ _ _ _ hjs]
    by_cases hi : j = i
    · subst hi
      rw [if_pos rfl]
      have hv : valuesOf j (.child j evs v :: items) = v :: valuesOf j items := by
        simp [valuesOf]
      rw [hv] at this
      simpa [Nat.add_assoc, Nat.add_comm 1] using this
    · rw [if_neg hi]
      have hv : valuesOf i (.child j evs v :: items) = valuesOf i items := by
        simp [valuesOf, hi]
      rw [hv] at this
      exact this
  have hvalid : ∀ i ∈ childFields items, i < T.fields.length :=
    fun i hi => rd.valid i (by rw [hcf]; exact List.mem_cons_of_mem _ hi)
  have hlater : ∀ i, j < i → (s.vals.modify j (· ++ [v])).getD i [] = [] := by
    intro i hi
    rw [getD_modify _ _ _ _ hjs, if_neg (by omega)]
    exact rd.later i (by omega)
  have hseen : ∀ i, ((s.vals.modify j (· ++ [v])).getD i []).length = (j :: seen).count i := by
    intro i
    rw [getD_modify _ _ _ _ hjs, List.count_cons]
    by_cases hi : j = i
    · subst hi
      rw [if_pos rfl, List.length_append, rd.given j]
      simp
    · rw [if_neg hi, rd.given i]
      simp [hi]
  have hpast : ∀ k ∈ j :: seen, k ≤ j := by
    intro k hk
    rcases List.mem_cons.mp hk with rfl | hk
    · exact Nat.le_refl _
    · exact Nat.le_trans (rd.past k hk) hle
  have hn1 : 0 < (s.vals.getD j []).length + 1 := by omega
  have hgd : ((s.vals.modify j (· ++ [v])).getD j []).length = (s.vals.getD j []).length + 1 := by
    rw [getD_modify _ _ _ _ hjs, if_pos rfl]; simp
  -- the position stays, or moves on when the field is full
  have hcase : (T.posAfter f j ((s.vals.getD j []).length + 1) = .at_ j none ∧
        ∀ b, f.max = .bounded b → (s.vals.getD j []).length + 1 < b) ∨
      (T.posAfter f j ((s.vals.getD j []).length + 1) = T.nextPos j ∧
        ∃ b, f.max = .bounded b ∧ b ≤ (s.vals.getD j []).length + 1) := by
    rw [posAfter_eq _ _ _ _ hn1]
    cases hm : f.max with
    | unbounded => exact Or.inl ⟨rfl, by simp⟩
    | bounded b =>
      simp only
      by_cases hb : (s.vals.getD j []).length + 1 < b
      · rw [if_pos hb]; exact Or.inl ⟨rfl, by intro b' h'; cases h'; exact hb⟩
      · rw [if_neg hb]; exact Or.inr ⟨rfl, b, rfl, by omega⟩
  rcases hcase with ⟨hpos, hroom⟩ | ⟨hpos, b, hb, hfull⟩
  · rw [hpos]
    refine ⟨hseen, hpast, by simp [rd.len], Or.inr (Or.inl ⟨j, rfl, hj⟩), by simp, ?_, ?_, ?_, hvalid, hord.2, hcounts⟩
    · exact fun i hi => hlater i hi
    · intro f' hf' b hb
      have : f' = f := by
        have := hf.symm.trans hf'
        simpa using this.symm
      subst this
      show ((s.vals.modify j (· ++ [v])).getD j []).length < b
      rw [hgd]
      exact hroom b hb
    · exact fun i hi => hord.1 i hi
  · -- full: no further child for this field
    have hnone : ∀ i ∈ childFields items, j < i := by
      intro i hi
      rcases Nat.lt_or_ge j i with h | h
      · exact h
      · have hij : i = j := by have := hord.1 i hi; omega
        subst hij
        have hc := (hcounts i f hf).2 b hb
        rw [hgd] at hc
        have : valuesOf i items ≠ [] := by
          unfold childFields at hi
          obtain ⟨x, hx, hxi⟩ := List.mem_filterMap.mp hi
          intro hnil
          unfold valuesOf at hnil
          rw [List.filterMap_eq_nil_iff] at hnil
          have := hnil x hx
          cases x with
          | pad e => simp at hxi
          | child q evs' v' => simp at hxi; subst hxi; simp at this
        have : 0 < (valuesOf i items).length := List.length_pos_iff.mpr this
        omega
    have hroom' : ∀ i, j < i → ∀ f, T.fields[i]? = some f → ∀ b, f.max = .bounded b →
        ((s.vals.modify j (· ++ [v])).getD i []).length < b := by
      intro i hi f hf b hb
      rw [hlater i hi]
      have : b ≠ 0 := fun hb0 => h0 f (List.mem_of_getElem? hf) (by rw [hb, hb0])
      simp; omega
    rcases nextPos_cases T j with ⟨hlt, hnx⟩ | ⟨hge, hnx⟩
    · rw [hpos, hnx]
      exact ⟨hseen, fun k hk => Nat.le_trans (hpast k hk) (Nat.le_succ j), by simp [rd.len],
        Or.inr (Or.inl ⟨j + 1, rfl, hlt⟩), by simp,
        fun i hi => hlater i (Nat.lt_of_succ_lt hi), fun f hf b hb => hroom' (j + 1) (by omega) f hf b hb,
        fun i hi => hnone i hi, hvalid, hord.2, hcounts⟩
    · rw [hpos, hnx]
      refine ⟨hseen, fun k hk => Nat.le_trans (hpast k hk) (Nat.le_of_lt hj), by simp [rd.len],
        Or.inr (Or.inr rfl), by simp,
        fun i hi => hlater i (by simp only [SPos.index] at hi; omega), ?_, ?_, hvalid, hord.2, hcounts⟩
      · intro f hf b hb
        simp only [SPos.index] at hf
        rw [List.getElem?_eq_none (Nat.le_refl _)] at hf
        cases hf
      · intro i hi
        have := hnone i hi
        have := hvalid i hi
        omega

/-- The collected values together with those of the remaining items. -/
def merge (vals : List (List V)) (items : List (Item V)) : List (List V) :=
  vals.mapIdx fun i vs => vs ++ valuesOf i items

theorem merge_nil (vals : List (List V)) : merge vals [] = vals := by
  unfold merge
  apply List.ext_getElem?
  intro i
  simp [valuesOf]

theorem merge_pad (vals : List (List V)) (e : Event) (items : List (Item V)) :
    merge vals (.pad e :: items) = merge vals items := rfl

theorem merge_child (vals : List (List V)) (j : Nat) (evs : List Event) (v : V)
    (items : List (Item V)) :
    merge vals (.child j evs v :: items) = merge (vals.modify j (· ++ [v])) items := by
  unfold merge
  apply List.ext_getElem?
  intro i
  simp only [List.getElem?_mapIdx, List.getElem?_modify]
  cases vals[i]? with
  | none => rfl
  | some vs =>
    by_cases h : j = i
    · subst h; simp [valuesOf]
    · simp [valuesOf, h]

theorem merge_start (fs : List (Field H C V)) (items : List (Item V)) :
    merge (fs.map fun _ => []) items = (List.range fs.length).map (valuesOf · items) := by
  unfold merge
  apply List.ext_getElem?
  intro i
  simp only [List.getElem?_mapIdx, List.getElem?_map]
  by_cases h : i < fs.length
  · rw [List.getElem?_eq_getElem h, List.getElem?_range h]
    simp
  · rw [List.getElem?_eq_none (by omega), List.getElem?_eq_none (by simp; omega)]
    rfl

theorem finishFields_ok (h : H) (fs : List (Field H C V)) (vals : List (List V))
    (hl : vals.length = fs.length) (h0 : ∀ f ∈ fs, f.max ≠ .bounded 0)
    (hc : ∀ i f, fs[i]? = some f → Allows f.min f.max (vals.getD i []).length) :
    finishFields h fs vals = .ok vals := by
  induction fs generalizing vals with
  | nil =>
    cases vals with
    | nil => rfl
    | cons => simp at hl
  | cons f fs ih =>
    cases vals with
    | nil => simp at hl
    | cons vs vals =>
      have h1 := finishField_ok f h vs (by simpa using hc 0 f rfl) (h0 f (by simp))
      have h2 := ih vals (by simpa using hl) (fun f hf => h0 f (by simp [hf]))
        (fun i f hf => by simpa using hc (i + 1) f (by simpa using hf))
      simp [finishFields, h1, h2]

/-- Padding does not change the state. -/
theorem next_padding (T : SeqTy H A C V W) (s : SeqSt A C V) (seen : List Nat)
    (items : List (Item V)) (rd : Ready T s seen items) (h : H) (e : Event) (he : Padding e = true) :
    ∃ ev a, T.next s h e = .ok ⟨.deser s, ev, a⟩ ∧ Quiet e ev := by
  have hs : ∀ p, s.pos = p → { s with pos := p } = s := by intro p hp; cases s; simp at hp; subst hp; rfl
  have ht : tagOf e = none := by cases e <;> simp_all [tagOf, Padding]
  unfold SeqTy.next SeqTy.fuel
  rcases rd.clean with hp | ⟨p, hp, hpl⟩ | hp
  · refine ⟨.brk e, false, ?_, Or.inr ⟨he, Or.inl rfl⟩⟩
    rw [show 2 * T.fields.length + 4 = (2 * T.fields.length + 2) + 2 from rfl]
    have h1 : T.round h e s none false
        = .ok (.again e { s with pos := .at_ 0 none } (some .init) (false || T.allowAny)) := by
      simp only [SeqTy.round, hp]
      cases e <;> first | rfl | (simp [Padding] at he; done)
    have h2 : T.round h e { s with pos := .at_ 0 none } (some .init) (false || T.allowAny)
        = .ok (.ret ⟨.deser s, .brk e, false⟩) := by
      simp only [SeqTy.round]
      cases e <;> first | (simp [Padding] at he; done) | simp [Round.stop, tagOf, hs .init hp]
    simp only [SeqTy.loop, h1, h2]
  · refine ⟨.brk e, false, ?_, Or.inr ⟨he, Or.inl rfl⟩⟩
    have h2 : T.round h e s none false
        = .ok (.ret ⟨.deser s, .brk e, false⟩) := by
      simp only [SeqTy.round, hp]
      cases e <;> first | (simp [Padding] at he; done) | simp [Round.stop, tagOf]
    simp only [SeqTy.loop, h2]
  · refine ⟨.cont e, T.allowAny || false, ?_, Or.inr ⟨he, Or.inr rfl⟩⟩
    have h2 : T.round h e s none false
        = .ok (.ret ⟨.deser s, .cont e, T.allowAny || false⟩) := by
      simp only [SeqTy.round, hp]
      cases e <;> first | (simp [Padding] at he; done) | simp [Round.stop]
    simp only [SeqTy.loop, h2]

/-- The end tag when all counts are reached. -/
theorem next_end (T : SeqTy H A C V W) (hT : T.isElement = true) (s : SeqSt A C V)
    (seen : List Nat) (rd : Ready T s seen []) (h0 : ∀ f ∈ T.fields, f.max ≠ .bounded 0) (h : H) (n : Str) :
    T.next s h (.end_ n) = .ok ⟨.data (T.build s.attrs s.vals), .none, false⟩ := by
  have hf := finishFields_ok h T.fields s.vals rd.len h0
    (fun i f hf => by simpa [valuesOf] using rd.counts i f hf)
  have hr : T.round h (.end_ n) s none false
      = .ok (.ret ⟨.data (T.build s.attrs s.vals), .none, false⟩) := by
    have : T.atEnd h n s none = .ok (.ret ⟨.data (T.build s.attrs s.vals), .none, false⟩) := by
      simp [SeqTy.atEnd, SeqTy.flush, hf, hT]
    unfold SeqTy.round
    rcases rd.clean with hp | ⟨p, hp, hpl⟩ | hp <;> simp only [hp, this]
  unfold SeqTy.next SeqTy.fuel
  simp only [SeqTy.loop, hr]

/-- From a ready state on, the remaining content is read. -/
theorem feeds_items (track : H → Event → H) (T : SeqTy H A C V W) (hT : T.isElement = true)
    (h0 : ∀ f ∈ T.fields, f.max ≠ .bounded 0) (n : Str) (items : List (Item V)) :
    ∀ (seen : List Nat) (s : SeqSt A C V) (h : H), Ready T s seen items →
    ItemsOk track T.fields seen h items →
    Feeds track T.de (some s) h (itemEvents items ++ [.end_ n])
      (T.build s.attrs (merge s.vals items)) := by
  induction items with
  | nil =>
    intro seen s h rd _
    rw [merge_nil]
    exact .last (next_end T hT s seen rd h0 _ n)
  | cons it items ih =>
    intro seen s h rd ok
    cases it with
    | pad e =>
      obtain ⟨he, ok⟩ := ok
      obtain ⟨ev, a, hn, hq⟩ := next_padding T s seen _ rd (track h e) e he
      have rd' : Ready T s seen items :=
        ⟨rd.given, rd.past, rd.len, rd.clean, rd.init, rd.later, rd.room, rd.rest, rd.valid, rd.order, rd.counts⟩
      exact .step hn hq (ih seen s (track h e) rd' ok)
    | child j evs v =>
      obtain ⟨⟨f, e, es, t, hf, rfl, he, hpick, fd⟩, ok⟩ := ok
      have rd' := ready_after T s j _ v items f hf seen rd h0
      have hj : j < s.vals.length := by rw [rd.len]; exact rd.valid j (by simp [childFields])
      have hroom : ∀ b, f.max = .bounded b → (s.vals.getD j []).length < b := by
        intro b hb
        have := (rd.counts j f hf).2 b hb
        have hv : valuesOf j (.child j (e :: es) v :: items) = v :: valuesOf j items := by
          simp [valuesOf]
        rw [hv] at this
        simp at this ⊢
        omega
      obtain ⟨k, fb, any, hfb, hreach⟩ :=
        next_reach T (track h e) e t he j _ v items f hf seen hpick h0 s rd
      have hmatch : f.create T.allowAny (track h e) e = f.de.init (track h e) e := by
        cases hw : f.want with
        | none => simp [Field.create, hw]
        | some want => simp [Field.create, hw, initStartTag, he, hpick.1 f want hf hw]
      have hround : ∀ out, f.de.init (track h e) e = .ok out →
          T.next s (track h e) e = (match T.handle f j out (track h e) { s with pos := .at_ j none } fb with
            | .error err => .error err
            | .ok (.cont e' a, s, fb) => T.loop (track h e) k e' s fb (any || a)
            | .ok (.brk ev a, s, fb) => .ok ⟨.deser { s with pos := fb.getD s.pos }, ev, a⟩) := by
        intro out ho
        rw [hreach]
        have hr : T.round (track h e) e { s with pos := .at_ j none } fb any
            = T.after (track h e) { s with pos := .at_ j none } fb any f j (.ok out) := by
          unfold SeqTy.round
          cases e <;> simp [tagOf] at he <;> simp only [tagOf, hf, hmatch, ho]
        simp only [SeqTy.loop, hr, SeqTy.after]
        cases T.handle f j out (track h e) { s with pos := .at_ j none } fb with
        | error err => rfl
        | ok r =>
          obtain ⟨x, s', fb'⟩ := r
          cases x <;> rfl
      rw [merge_child]
      have hrest := ih _ _ (List.foldl track h (e :: es)) rd' ok
      show Feeds track T.de (some s) h ((e :: es) ++ itemEvents items ++ [.end_ n]) _
      rw [List.append_assoc]
      cases fd with
      | @last _ _ _ _ a hc =>
        have hn := hround _ hc
        rw [handle_data T f j v a _ { s with pos := .at_ j none } fb hfb hj hroom] at hn
        exact .step hn (Or.inl rfl) hrest
      | @step _ _ _ _ _ c ev a hc hq fd =>
        have hn := hround _ hc
        obtain ⟨pos, hh⟩ := handle_deser T f j c a (track h e) e ev hq { s with pos := .at_ j none } fb hfb
        rw [hh] at hn
        refine .step hn hq ?_
        exact feeds_running track T f j hf { s with pos := pos } hj hroom _ _ fd c rfl hrest

theorem ready_start (track : H → Event → H) (T : SeqTy H A C V W) (a : A) (items : List (Item V)) (h : H)
    (h0 : ∀ f ∈ T.fields, f.max ≠ .bounded 0)
    (ok : ItemsOk track T.fields [] h items) (sq : InSequence T.fields items) :
    Ready T (T.start a) [] items := by
  have hg : ∀ i, (T.start a).vals.getD i [] = [] := by
    intro i
    simp only [SeqTy.start, List.getD_eq_getElem?_getD, List.getElem?_map]
    cases T.fields[i]? <;> rfl
  refine ⟨fun i => by rw [hg]; rfl, by simp, by simp [SeqTy.start], Or.inl rfl, fun _ => hg, fun i _ => hg i, ?_, ?_, ?_, sq.order, ?_⟩
  · intro f hf b hb
    rw [hg]
    have : b ≠ 0 := fun hb0 => h0 f (List.mem_of_getElem? hf) (by rw [hb, hb0])
    simp; omega
  · intro i _; exact Nat.zero_le _
  · have key : ∀ (items : List (Item V)) (seen : List Nat) (h : H), ItemsOk track T.fields seen h items →
        ∀ i ∈ childFields items, i < T.fields.length := by
      intro items
      induction items with
      | nil => intro _ h _ i hi; simp [childFields] at hi
      | cons it items ih =>
        intro seen h ok i hi
        cases it with
        | pad e => exact ih _ _ ok.2 i hi
        | child j evs v =>
          have : childFields (.child j evs v :: items) = j :: childFields items := rfl
          rw [this, List.mem_cons] at hi
          rcases hi with rfl | hi
          · obtain ⟨f, _, _, _, hf, _⟩ := ok.1
            rcases Nat.lt_or_ge i T.fields.length with h | h
            · exact h
            · rw [List.getElem?_eq_none h] at hf; cases hf
          · exact ih _ _ ok.2 i hi
    exact key items [] h ok
  · intro i f hf
    rw [hg]
    simpa using sq.counts i f hf

/-- **C09.** Every valid element is accepted: let the start tag have valid attributes, let the
content be padding and valid children, in the order of the fields, the number of children of
each field within its bounds. Then the generated deserializer consumes exactly the element and
returns the struct whose fields hold exactly the values of the children, in document order. -/
theorem C09_sequence_feeds (track : H → Event → H) (T : SeqTy H A C V W)
    (hT : T.isElement = true) (h0 : ∀ f ∈ T.fields, f.max ≠ .bounded 0)
    (h : H) (t : Tag) (a : A) (ha : T.ofTag (track h (.start t)) t = .ok a)
    (items : List (Item V)) (ok : ItemsOk track T.fields [] (track h (.start t)) items)
    (sq : InSequence T.fields items) :
    Feeds track T.de none h (.start t :: (itemEvents items ++ [.end_ t.name]))
      (T.build a ((List.range T.fields.length).map (valuesOf · items))) := by
  have hi : T.de.call none (track h (.start t)) (.start t)
      = .ok ⟨.deser (T.start a), .none, false⟩ := by
    show T.init _ _ = _
    simp [SeqTy.init, hT, initFromStart, ha, Except.map]
  refine .step hi (Or.inl rfl) ?_
  have := feeds_items track T hT h0 t.name items [] (T.start a) (track h (.start t))
    (ready_start track T a items _ h0 ok sq) ok
  rw [show (T.start a).vals = T.fields.map fun _ => [] from rfl, merge_start] at this
  exact this

/-- **C09** for elements written `<t/>`: accepted if no child is required. -/
theorem C09_empty_tag_feeds (track : H → Event → H) (T : SeqTy H A C V W)
    (hT : T.isElement = true) (h0 : ∀ f ∈ T.fields, f.max ≠ .bounded 0)
    (h : H) (t : Tag) (a : A) (ha : T.ofTag (track h (.empty t)) t = .ok a)
    (hmin : ∀ f ∈ T.fields, f.min = 0) :
    Feeds track T.de none h [.empty t] (T.build a (T.fields.map fun _ => [])) := by
  refine .last (a := false) ?_
  show T.init _ _ = _
  have hf := finishFields_ok (track h (.empty t)) T.fields (T.fields.map fun _ => ([] : List V))
    (by simp) h0 (by
      intro i f hf
      have : (T.fields.map fun _ => ([] : List V)).getD i [] = [] := by
        simp only [List.getD_eq_getElem?_getD, List.getElem?_map]
        cases T.fields[i]? <;> rfl
      rw [this, hmin f (List.mem_of_getElem? hf)]
      exact ⟨Nat.le_refl _, fun b _ => Nat.zero_le _⟩)
  simp [SeqTy.init, hT, initFromStart, ha, Except.map, SeqTy.finish, SeqTy.start,
    SeqTy.finishState, hf]

/-- **C09**, seen from `T::deserialize(reader)`: the driver returns the struct and stops
right after the end tag. -/
theorem C09_sequence_accepts (track : H → Event → H) (T : SeqTy H A C V W)
    (hT : T.isElement = true) (h0 : ∀ f ∈ T.fields, f.max ≠ .bounded 0)
    (h : H) (t : Tag) (a : A) (ha : T.ofTag (track h (.start t)) t = .ok a)
    (items : List (Item V)) (ok : ItemsOk track T.fields [] (track h (.start t)) items)
    (sq : InSequence T.fields items) (rest : List Event) :
    Drv.run (genEnv track) T.de.toDeser { helper := h }
        (.start t :: (itemEvents items ++ [.end_ t.name]) ++ rest)
      = .done (T.build a ((List.range T.fields.length).map (valuesOf · items))) rest :=
  (C09_sequence_feeds track T hT h0 h t a ha items ok sq).run rest

end
end Verif.Gen

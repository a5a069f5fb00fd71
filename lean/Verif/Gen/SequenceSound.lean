import Verif.Gen.SequenceComplete

/-!
# What generated sequence deserializers accept (C10)

If the children have simple content (more generally: if their deserializers never hand a tag
back to the parent), everything that is accepted is a valid sequence, up to the lower bound of
lists. For children with complex content this is false (`Verif.Gen.Leaf`).
-/

namespace Verif.Gen

open Verif.Rt Verif.Occurs

section
variable {H A C V W : Type}

/-! ## Specification -/

/-- Content the driver ignores: padding, and (a finding) entity references. -/
def Ignored (e : Event) : Bool :=
  match e with
  | .ref _ => true
  | e => Padding e

/-- `evs` is an element with a name accepted by field `i`, and its type reads it as `v`. -/
def ReadChild (track : H → Event → H) (fs : List (Field H C V)) (h : H) (i : Nat)
    (evs : List Event) (v : V) : Prop :=
  ∃ f e es t want, fs[i]? = some f ∧ evs = e :: es ∧ tagOf e = some t ∧
    f.want = some want ∧ want (track h e) t = true ∧ Consumes track f.de none h evs v
where
  /-- Like `Feeds`, but any content the driver ignores may be left over. -/
  Consumes (track : H → Event → H) (d : GDe H C V) : Option C → H → List Event → V → Prop
    | _, _, [], _ => False
    | st, h, e :: es, v =>
      ∃ out, d.call st (track h e) e = .ok out ∧
        ((es = [] ∧ out.artifact = .data v ∧ out.event = .none) ∨
         ∃ c, out.artifact = .deser c ∧
          (out.event = .none ∨ Ignored e = true) ∧ Consumes track d (some c) (track h e) es v)

/-- Every item is ignored content or a child that was read. -/
def ItemsRead (track : H → Event → H) (fs : List (Field H C V)) : H → List (Item V) → Prop
  | _, [] => True
  | h, .pad e :: r => Ignored e = true ∧ ItemsRead track fs (track h e) r
  | h, .child i evs v :: r =>
    ReadChild track fs h i evs v ∧ ItemsRead track fs (evs.foldl track h) r

/-- A child deserializer that never hands back a tag: at a start tag it begins, at an empty
tag and at the end tag it returns its value, other content it consumes or leaves to the
driver, and tags it does not know it leaves to the driver, not allowing them. -/
structure Tame (d : GDe H C V) : Prop where
  start : ∀ h t out, d.init h (.start t) = .ok out →
    (∃ c, out.artifact = .deser c) ∧ out.event = .none
  empty : ∀ h t out, d.init h (.empty t) = .ok out →
    (∃ v, out.artifact = .data v) ∧ out.event = .none
  end_ : ∀ c h n out, d.next c h (.end_ n) = .ok out →
    (∃ v, out.artifact = .data v) ∧ out.event = .none
  other : ∀ c h e out, d.next c h e = .ok out → (∀ n, e ≠ .end_ n) →
    (∃ c', out.artifact = .deser c') ∧
      ((out.event = .none ∧ e.isLeaf = true) ∨ (out.event = .brk e ∧ out.allowAny = false))

/-! ## Lemmas -/

/-- One step of the driver. -/
theorem run_cons_done {track : H → Event → H} {S : Type} {d : GDe H S W} {st : Option S} {h : H}
    {e : Event} {es rest : List Event} {w : W}
    (hr : Drv.run (genEnv track) d.toDeser { helper := h, deser := st } (e :: es) = .done w rest) :
    ∃ out k, d.call st (track h e) e = .ok out ∧
      leftover none out.event.event out.allowAny = some k ∧
      ((out.artifact = .data w ∧ rest = es) ∨
       ((∀ v, out.artifact ≠ .data v) ∧
        Drv.run (genEnv track) d.toDeser
          { helper := track h e, deser := out.artifact.deserOf, skip := k } es = .done w rest)) := by
  have hcall : callDeser d.toDeser st (track h e) e
      = (d.call st (track h e) e).map (·, track h e) := by
    cases st <;> rfl
  simp only [Drv.run, Drv.handleEvent, handleSkip, genEnv, hcall] at hr
  cases hc : d.call st (track h e) e with
  | error err => rw [hc] at hr; simp [Except.map] at hr
  | ok out =>
    rw [hc] at hr
    simp only [Except.map] at hr
    cases hl : leftover none out.event.event out.allowAny with
    | none => rw [hl] at hr; simp at hr
    | some k =>
      rw [hl] at hr
      refine ⟨out, k, rfl, hl, ?_⟩
      cases ha : out.artifact with
      | data v =>
        rw [ha] at hr
        simp [Artifact.dataOf] at hr
        exact Or.inl ⟨by rw [hr.1], hr.2.symm⟩
      | none =>
        rw [ha] at hr
        exact Or.inr ⟨by simp, hr⟩
      | deser c =>
        rw [ha] at hr
        exact Or.inr ⟨by simp, hr⟩

/-- If any content is not allowed, only ignored content may be left over. -/
theorem leftover_ignored {e : Event} {k : Option Nat} (h : leftover none (some e) false = some k) :
    Ignored e = true ∧ k = none := by
  cases e <;> simp [leftover] at h <;> simp_all [Ignored, Padding]

/-- Invariant between two children. -/
structure Sound (T : SeqTy H A C V W) (s : SeqSt A C V) : Prop where
  len : s.vals.length = T.fields.length
  clean : s.pos = .init ∨ (∃ p, s.pos = .at_ p none ∧ p < T.fields.length) ∨ s.pos = .done
  later : ∀ i, s.pos.index T < i → s.vals.getD i [] = []
  room : ∀ f, T.fields[s.pos.index T]? = some f → ∀ b, f.max = .bounded b →
    (s.vals.getD (s.pos.index T) []).length < b
  passed : ∀ q f, q < s.pos.index T → T.fields[q]? = some f → f.min ≤ (s.vals.getD q []).length
  upper : ∀ i f b, T.fields[i]? = some f → f.max = .bounded b → (s.vals.getD i []).length ≤ b

/-- The conditions on the type: only elements, nothing skipped, consistent bounds. -/
structure Strict (T : SeqTy H A C V W) : Prop where
  elem : T.isElement = true
  any : T.allowAny = false
  nonempty : T.fields ≠ []
  field : ∀ f ∈ T.fields, f.want.isSome = true ∧ f.defaultable = false ∧ f.allowAny = false ∧
    f.max ≠ .bounded 0 ∧ (∀ b, f.max = .bounded b → f.min ≤ b) ∧ Tame f.de

theorem getD_start (T : SeqTy H A C V W) (a : A) (i : Nat) : (T.start a).vals.getD i [] = [] := by
  simp only [SeqTy.start, List.getD_eq_getElem?_getD, List.getElem?_map]
  cases T.fields[i]? <;> rfl

theorem sound_start (T : SeqTy H A C V W) (st : Strict T) (a : A) : Sound T (T.start a) := by
  refine ⟨by simp [SeqTy.start], Or.inl rfl, fun i _ => getD_start T a i, ?_, ?_, ?_⟩
  · intro f hf b hb
    rw [getD_start]
    have := (st.field f (List.mem_of_getElem? hf)).2.2.2.1
    have : b ≠ 0 := fun hb0 => this (by rw [hb, hb0])
    simp; omega
  · intro q f hq; simp [SPos.index, SeqTy.start] at hq
  · intro i f b _ _; rw [getD_start]; simp

/-- The tag belongs to field `j ≥ p`, all fields between have got their minimum, `j` has room,
and its child has been started (or, for an empty tag, its value stored). -/
def Found (T : SeqTy H A C V W) (h : H) (e : Event) (t : Tag) (s : SeqSt A C V) (p : Nat)
    (out : Output (SeqSt A C V) W) : Prop :=
  ∃ j f want, p ≤ j ∧ T.fields[j]? = some f ∧ f.want = some want ∧ want h t = true ∧
    (∀ q f, p ≤ q → q < j → T.fields[q]? = some f → f.min ≤ (s.vals.getD q []).length) ∧
    (∀ b, f.max = .bounded b → (s.vals.getD j []).length < b) ∧
    ((∃ c a, f.de.init h e = .ok ⟨.deser c, .none, a⟩ ∧
        out = ⟨.deser { s with pos := .at_ j (some c) }, .none, a⟩) ∨
     (∃ v a, f.de.init h e = .ok ⟨.data v, .none, a⟩ ∧
        out = ⟨.deser { s with vals := s.vals.modify j (· ++ [v]),
                               pos := T.posAfter f j ((s.vals.getD j []).length + 1) }, .none, a⟩))

/-- The loop at a tag, in a state without running child: it finds the field of the tag, all
fields passed over have got their minimum; or the tag is left over and not allowed. -/
theorem loop_tag (T : SeqTy H A C V W) (st : Strict T) (h : H) (e : Event) (t : Tag)
    (he : tagOf e = some t) (out : Output (SeqSt A C V) W) (k : Nat) :
    ∀ (s : SeqSt A C V) (fb : Option (SPos C)) (p : Nat), s.vals.length = T.fields.length →
    s.pos = .at_ p none → p < T.fields.length → (fb = none ∨ fb = some .init) →
    (∀ i, p < i → s.vals.getD i [] = []) →
    (∀ f, T.fields[p]? = some f → ∀ b, f.max = .bounded b → (s.vals.getD p []).length < b) →
    T.loop h k e s fb false = .ok out →
    Found T h e t s p out ∨
    (out.event.event = some e ∧ out.allowAny = false ∧ ∀ v, out.artifact ≠ .data v) := by
  induction k with
  | zero => intro s fb p _ _ _ _ _ _ h; cases h
  | succ k ih =>
    intro s fb p hlen hp hpl hfb hlater hroom hl
    have hf : T.fields[p]? = some (T.fields[p]) := List.getElem?_eq_getElem hpl
    obtain ⟨hw, hd, ha, h0, hcons, htame⟩ := st.field _ (List.getElem_mem hpl)
    obtain ⟨want, hw⟩ := Option.isSome_iff_exists.mp hw
    have hround : T.round h e s fb false
        = T.after h s fb false T.fields[p] p ((T.fields[p]).create T.allowAny h e) := by
      unfold SeqTy.round
      cases e <;> simp [tagOf] at he <;> simp only [hp, tagOf, hf]
    by_cases hm : want h t = true
    · left
      have hcr : (T.fields[p]).create T.allowAny h e = (T.fields[p]).de.init h e := by
        simp [Field.create, hw, initStartTag, he, hm]
      have hroom' := hroom _ hf
      refine ⟨p, _, want, Nat.le_refl _, hf, hw, hm,
        fun q f h1 h2 => absurd h2 (by omega), hroom', ?_⟩
      rw [hcr] at hround
      cases hi : (T.fields[p]).de.init h e with
      | error err => simp only [SeqTy.loop, hround, hi, SeqTy.after] at hl; cases hl
      | ok o =>
        obtain ⟨oa, oe, oany⟩ := o
        simp only [SeqTy.loop, hround, hi, SeqTy.after] at hl
        cases e with
        | start t' =>
          obtain ⟨⟨c, hc⟩, hn⟩ := htame.start h t' _ hi
          simp only at hc hn
          subst hc; subst hn
          obtain ⟨pos, hh⟩ := handle_deser T (T.fields[p]) p c oany h (.start t') .none (Or.inl rfl) s fb hfb
          rw [hh] at hl
          simp only [Round.stop] at hl
          cases hl
          exact Or.inl ⟨c, oany, rfl, rfl⟩
        | empty t' =>
          obtain ⟨⟨v, hc⟩, hn⟩ := htame.empty h t' _ hi
          simp only at hc hn
          subst hc; subst hn
          rw [handle_data T (T.fields[p]) p v oany h s fb hfb (by omega) hroom'] at hl
          simp only [Round.stop] at hl
          cases hl
          exact Or.inr ⟨v, oany, rfl, rfl⟩
        | _ => simp [tagOf] at he
    · have hm : want h t = false := by simpa using hm
      have hcr : (T.fields[p]).create T.allowAny h e = .ok ⟨.none, .cont e, false⟩ := by
        simp [Field.create, hw, initStartTag, he, hm, ha, st.any]
      have hev : ∀ a, EHO.fromEvent (.cont e) a = .cont e a := by
        intro a; cases e <;> simp [tagOf] at he <;> rfl
      simp only [SeqTy.loop, hround, hcr, SeqTy.after, SeqTy.handle, SeqTy.handleNone, hev] at hl
      have goOn : ∀ fb', (fb' = none ∨ fb' = some SPos.init) →
          (T.fields[p]).min ≤ (s.vals.getD p []).length →
          T.loop h k e { s with pos := T.nextPos p } fb' false = .ok out →
          Found T h e t s p out ∨
          (out.event.event = some e ∧ out.allowAny = false ∧ ∀ v, out.artifact ≠ .data v) := by
        intro fb' hfb' hmin hl
        rcases nextPos_cases T p with ⟨hlt, hnx⟩ | ⟨hge, hnx⟩
        · rw [hnx] at hl
          rcases ih { s with pos := .at_ (p + 1) none } fb' (p + 1) hlen rfl hlt hfb'
            (fun i hi => hlater i (by omega))
            (fun f hf b hb => by
              simp only
              rw [hlater (p + 1) (by omega)]
              have := (st.field f (List.mem_of_getElem? hf)).2.2.2.1
              have : b ≠ 0 := fun hb0 => this (by rw [hb, hb0])
              simp; omega) hl with
            ⟨j, f, want, hpj, hj, hw, hwt, hpass, hroom2, hres⟩ | hres
          · left
            refine ⟨j, f, want, by omega, hj, hw, hwt, ?_, hroom2, hres⟩
            intro q f' h1 h2 h3
            rcases Nat.lt_or_ge p q with hq | hq
            · exact hpass q f' (by omega) h2 h3
            · have : q = p := by omega
              subst this
              have : f' = T.fields[q] := by rw [hf] at h3; simpa using h3.symm
              rw [this]; exact hmin
          · exact Or.inr hres
        · right
          rw [hnx] at hl
          cases k with
          | zero => cases hl
          | succ k =>
            have hr : T.round h e { s with pos := .done } fb' false
                = .ok (.stop { s with pos := .done } fb' (.cont e) false) := by
              unfold SeqTy.round
              cases e <;> simp [tagOf] at he <;> simp [st.any]
            simp only [SeqTy.loop, hr, Round.stop] at hl
            cases hl
            exact ⟨rfl, rfl, by simp⟩
      have hnd : (T.fields[p]).isDefaultable = ((T.fields[p]).min == 0) := by
        simp [Field.isDefaultable, hd]
      by_cases h1 : (T.fields[p]).min = 0 ∨ (T.fields[p]).occurs = .optional
      · rw [if_pos h1] at hl
        have : (T.fields[p]).min = 0 := by
          rcases h1 with h1 | h1
          · exact h1
          · exact (occurs_optional h1).1
        exact goOn fb hfb (by omega) (by simpa using hl)
      · rw [if_neg h1] at hl
        have h1' : ¬ (T.fields[p]).min = 0 := fun hh => h1 (Or.inl hh)
        rw [hnd, if_neg (by simpa using h1')] at hl
        by_cases h3 : (T.fields[p]).occurs = .single
        · rw [if_pos h3] at hl
          right
          rcases hfb with rfl | rfl
          · simp only [EHO.toRoot, intoBreak, Round.stop] at hl
            cases hl
            exact ⟨rfl, rfl, by simp⟩
          · simp only [Round.stop] at hl
            cases hl
            exact ⟨rfl, rfl, by simp⟩
        · rw [if_neg h3] at hl
          rcases hfb with rfl | rfl
          · simp only [SeqTy.flush] at hl
            by_cases h4 : (s.vals.getD p []).length < (T.fields[p]).min
            · rw [if_pos h4] at hl
              simp only [EHO.toRoot, intoBreak, Round.stop] at hl
              right
              cases hl
              exact ⟨rfl, rfl, by simp⟩
            · rw [if_neg h4] at hl
              exact goOn none (Or.inl rfl) (by omega) (by simpa using hl)
          · simp only [Round.stop] at hl
            right
            cases hl
            exact ⟨rfl, rfl, by simp⟩

/-- The same for `next`. -/
theorem next_tag (T : SeqTy H A C V W) (st : Strict T) (s : SeqSt A C V) (sd : Sound T s) (h : H)
    (e : Event) (t : Tag) (he : tagOf e = some t) (out : Output (SeqSt A C V) W)
    (hn : T.next s h e = .ok out) :
    Found T h e t s (s.pos.index T) out ∨
    (out.event.event = some e ∧ out.allowAny = false ∧ ∀ v, out.artifact ≠ .data v) := by
  unfold SeqTy.next SeqTy.fuel at hn
  rcases sd.clean with hp | ⟨p, hp, hpl⟩ | hp
  · have hidx : s.pos.index T = 0 := by rw [hp]; rfl
    have hlen : 0 < T.fields.length := List.length_pos_iff.mpr st.nonempty
    have hr : T.round h e s none false
        = .ok (.again e { s with pos := .at_ 0 none } (some .init) false) := by
      unfold SeqTy.round
      cases e <;> simp [tagOf] at he <;> simp [hp, st.any]
    rw [show 2 * T.fields.length + 4 = (2 * T.fields.length + 3) + 1 from rfl, SeqTy.loop, hr] at hn
    simp only at hn
    have := loop_tag T st h e t he out _ { s with pos := .at_ 0 none } (some .init) 0 sd.len rfl hlen
      (Or.inr rfl) (fun i hi => sd.later i (by rw [hidx]; exact hi))
      (fun f hf b hb => by have := sd.room f (by rw [hidx]; exact hf) b hb; rwa [hidx] at this) hn
    rw [hidx]
    exact this
  · have hidx : s.pos.index T = p := by rw [hp]; rfl
    have := loop_tag T st h e t he out _ s none p sd.len hp hpl
      (Or.inl rfl) (fun i hi => sd.later i (by rw [hidx]; exact hi))
      (fun f hf b hb => by have := sd.room f (by rw [hidx]; exact hf) b hb; rwa [hidx] at this) hn
    rw [hidx]
    exact this
  · right
    have hr : T.round h e s none false = .ok (.stop s none (.cont e) false) := by
      unfold SeqTy.round
      cases e <;> simp [tagOf] at he <;> simp [hp, st.any]
    simp only [SeqTy.loop, hr, Round.stop] at hn
    cases hn
    exact ⟨rfl, rfl, by simp⟩

/-- After a child has been stored. -/
theorem sound_after (T : SeqTy H A C V W) (st : Strict T) (s : SeqSt A C V) (sd : Sound T s)
    (j : Nat) (f : Field H C V) (hf : T.fields[j]? = some f) (hpj : s.pos.index T ≤ j) (v : V)
    (hpass : ∀ q f, s.pos.index T ≤ q → q < j → T.fields[q]? = some f →
      f.min ≤ (s.vals.getD q []).length)
    (hroom : ∀ b, f.max = .bounded b → (s.vals.getD j []).length < b) :
    Sound T { s with vals := s.vals.modify j (· ++ [v]),
                     pos := T.posAfter f j ((s.vals.getD j []).length + 1) } ∧
    j ≤ (T.posAfter f j ((s.vals.getD j []).length + 1)).index T := by
  have hj : j < T.fields.length := by
    rcases Nat.lt_or_ge j T.fields.length with h | h
    · exact h
    · rw [List.getElem?_eq_none h] at hf; cases hf
  have hjs : j < s.vals.length := by rw [sd.len]; exact hj
  have hlater : ∀ i, j < i → (s.vals.modify j (· ++ [v])).getD i [] = [] := by
    intro i hi
    rw [getD_modify _ _ _ _ hjs, if_neg (by omega)]
    exact sd.later i (by omega)
  have hpassed : ∀ q f, q < j → T.fields[q]? = some f →
      f.min ≤ ((s.vals.modify j (· ++ [v])).getD q []).length := by
    intro q f hq hf
    rw [getD_modify _ _ _ _ hjs, if_neg (by omega)]
    rcases Nat.lt_or_ge q (s.pos.index T) with h | h
    · exact sd.passed q f h hf
    · exact hpass q f h hq hf
  have hgd : ((s.vals.modify j (· ++ [v])).getD j []).length = (s.vals.getD j []).length + 1 := by
    rw [getD_modify _ _ _ _ hjs, if_pos rfl]; simp
  have huniq : ∀ f', T.fields[j]? = some f' → f' = f := by
    intro f' hf'; have := hf.symm.trans hf'; simpa using this.symm
  have hupper : ∀ i f b, T.fields[i]? = some f → f.max = .bounded b →
      ((s.vals.modify j (· ++ [v])).getD i []).length ≤ b := by
    intro i f' b hf' hb
    by_cases hij : j = i
    · subst hij
      rw [huniq f' hf'] at hb
      rw [hgd]
      exact hroom b hb
    · rw [getD_modify _ _ _ _ hjs, if_neg hij]
      exact sd.upper i f' b hf' hb
  have hroom0 : ∀ i, j < i → ∀ f, T.fields[i]? = some f → ∀ b, f.max = .bounded b →
      ((s.vals.modify j (· ++ [v])).getD i []).length < b := by
    intro i hi f hf b hb
    rw [hlater i hi]
    have := (st.field f (List.mem_of_getElem? hf)).2.2.2.1
    have : b ≠ 0 := fun hb0 => this (by rw [hb, hb0])
    simp; omega
  have hcase : (T.posAfter f j ((s.vals.getD j []).length + 1) = .at_ j none ∧
        ∀ b, f.max = .bounded b → (s.vals.getD j []).length + 1 < b) ∨
      (T.posAfter f j ((s.vals.getD j []).length + 1) = T.nextPos j ∧
        ∃ b, f.max = .bounded b ∧ b ≤ (s.vals.getD j []).length + 1) := by
    rw [posAfter_eq _ _ _ _ (by omega)]
    cases hm : f.max with
    | unbounded => exact Or.inl ⟨rfl, by simp⟩
    | bounded b =>
      simp only
      by_cases hb : (s.vals.getD j []).length + 1 < b
      · rw [if_pos hb]; exact Or.inl ⟨rfl, by intro b' h'; cases h'; exact hb⟩
      · rw [if_neg hb]; exact Or.inr ⟨rfl, b, rfl, by omega⟩
  rcases hcase with ⟨hpos, hr⟩ | ⟨hpos, b, hb, hfull⟩
  · rw [hpos]
    refine ⟨⟨by simp [sd.len], Or.inr (Or.inl ⟨j, rfl, hj⟩), fun i hi => hlater i hi, ?_,
      fun q f hq hf => hpassed q f hq hf, hupper⟩, Nat.le_refl _⟩
    intro f' hf' b hb
    rw [huniq f' hf'] at hb
    show ((s.vals.modify j (· ++ [v])).getD j []).length < b
    rw [hgd]
    exact hr b hb
  · have hjmin : f.min ≤ ((s.vals.modify j (· ++ [v])).getD j []).length := by
      rw [hgd]
      have := (st.field f (List.mem_of_getElem? hf)).2.2.2.2.1 b hb
      omega
    have hpassed' : ∀ q f, q < j + 1 → T.fields[q]? = some f →
        f.min ≤ ((s.vals.modify j (· ++ [v])).getD q []).length := by
      intro q f' hq hf'
      rcases Nat.lt_or_ge q j with h | h
      · exact hpassed q f' h hf'
      · have : q = j := by omega
        subst this
        rw [huniq f' hf']; exact hjmin
    rcases nextPos_cases T j with ⟨hlt, hnx⟩ | ⟨hge, hnx⟩
    · rw [hpos, hnx]
      exact ⟨⟨by simp [sd.len], Or.inr (Or.inl ⟨j + 1, rfl, hlt⟩),
        fun i hi => hlater i (Nat.lt_of_succ_lt hi),
        fun f hf b hb => hroom0 (j + 1) (by omega) f hf b hb,
        fun q f hq hf => hpassed' q f hq hf, hupper⟩, Nat.le_succ _⟩
    · rw [hpos, hnx]
      have hn : T.fields.length = j + 1 := by omega
      refine ⟨⟨by simp [sd.len], Or.inr (Or.inr rfl),
        fun i hi => hlater i (by simp only [SPos.index] at hi; omega), ?_,
        fun q f hq hf => hpassed' q f (by simp only [SPos.index] at hq; omega) hf, hupper⟩,
        by simp only [SPos.index]; omega⟩
      intro f hf b hb
      simp only [SPos.index] at hf
      rw [List.getElem?_eq_none (Nat.le_refl _)] at hf
      cases hf

theorem handle_deser' (T : SeqTy H A C V W) (f : Field H C V) (j : Nat) (c : C) (a : Bool) (h : H)
    (ev : DEvent) (q : EHO.fromEvent ev a = .brk ev a) (s : SeqSt A C V) :
    ∃ pos, T.handle f j ⟨.deser c, ev, a⟩ h s none
      = .ok (.brk ev a, { s with pos }, some (.at_ j (some c))) := by
  simp only [SeqTy.handle, SeqTy.flush, q]
  exact ⟨_, rfl⟩

/-- A running tame child goes on until its end tag. -/
theorem running_child (track : H → Event → H) (T : SeqTy H A C V W) (f : Field H C V) (j : Nat)
    (hf : T.fields[j]? = some f) (tm : Tame f.de) (s : SeqSt A C V) (hj : j < s.vals.length)
    (hroom : ∀ b, f.max = .bounded b → (s.vals.getD j []).length < b) (rest : List Event) (w : W)
    (evs : List Event) :
    ∀ (h : H) (c : C),
    Drv.run (genEnv track) T.de.toDeser
      { helper := h, deser := some { s with pos := .at_ j (some c) } } evs = .done w rest →
    ∃ evs1 evs2 v, evs = evs1 ++ evs2 ∧ evs1 ≠ [] ∧
      ReadChild.Consumes track f.de (some c) h evs1 v ∧
      Drv.run (genEnv track) T.de.toDeser
        { helper := evs1.foldl track h,
          deser := some { s with vals := s.vals.modify j (· ++ [v]),
                                 pos := T.posAfter f j ((s.vals.getD j []).length + 1) } }
        evs2 = .done w rest := by
  induction evs with
  | nil => intro h c hr; cases hr
  | cons e es ih =>
    intro h c hr
    obtain ⟨out, k, hcall, hleft, hres⟩ := run_cons_done (d := T.de) hr
    have hcall : T.next { s with pos := .at_ j (some c) } (track h e) e = .ok out := hcall
    cases hc : f.de.next c (track h e) e with
    | error err =>
      unfold SeqTy.next SeqTy.fuel at hcall
      simp only [SeqTy.loop, SeqTy.round, hf, hc, SeqTy.after] at hcall
      cases hcall
    | ok o =>
      rw [next_running T f j c (track h e) e _ rfl hf _ hc] at hcall
      obtain ⟨oa, oe, oany⟩ := o
      by_cases hend : ∃ n, e = .end_ n
      · obtain ⟨n, rfl⟩ := hend
        obtain ⟨⟨v, hv⟩, he⟩ := tm.end_ c _ n _ hc
        simp only at hv he
        subst hv; subst he
        rw [handle_data T f j v oany _ { s with pos := .at_ j (some c) } none (Or.inl rfl) hj hroom] at hcall
        simp only [Option.getD_none] at hcall
        cases hcall
        rcases hres with ⟨h1, _⟩ | ⟨_, h1⟩
        · cases h1
        · have hk : k = none := by
            simp [DEvent.event, leftover] at hleft; exact hleft.symm
          subst hk
          exact ⟨[.end_ n], es, v, rfl, by simp, ⟨_, hc, Or.inl ⟨rfl, rfl, rfl⟩⟩, h1⟩
      · have hne : ∀ n, e ≠ .end_ n := fun n hn => hend ⟨n, hn⟩
        obtain ⟨⟨c', hc'⟩, hev⟩ := tm.other c _ e _ hc hne
        simp only at hc' hev
        subst hc'
        have hfe : EHO.fromEvent oe oany = .brk oe oany := by
          rcases hev with ⟨h1, _⟩ | ⟨h1, _⟩ <;> rw [h1] <;> rfl
        obtain ⟨pos, hh⟩ := handle_deser' T f j c' oany (track h e) oe hfe { s with pos := .at_ j (some c) }
        rw [hh] at hcall
        simp only [Option.getD_some] at hcall
        cases hcall
        have hig : (oe = .none ∨ Ignored e = true) ∧ k = none := by
          rcases hev with ⟨h1, _⟩ | ⟨h1, h2⟩
          · rw [h1] at hleft
            simp [DEvent.event, leftover] at hleft
            exact ⟨Or.inl h1, hleft.symm⟩
          · rw [h1, h2] at hleft
            obtain ⟨h3, h4⟩ := leftover_ignored (e := e) hleft
            exact ⟨Or.inr h3, h4⟩
        obtain ⟨hig, rfl⟩ := hig
        rcases hres with ⟨h1, _⟩ | ⟨_, h1⟩
        · cases h1
        · obtain ⟨evs1, evs2, v, he, _, hcs, hrun⟩ := ih (track h e) c' h1
          refine ⟨e :: evs1, evs2, v, by rw [he]; rfl, by simp, ?_, hrun⟩
          exact ⟨_, hc, Or.inr ⟨c', rfl, hig, hcs⟩⟩

theorem finishFields_inv (h : H) (fs : List (Field H C V)) (vals vss : List (List V))
    (hl : vals.length = fs.length) (hd : ∀ f ∈ fs, f.defaultable = false)
    (hok : finishFields h fs vals = .ok vss) :
    vss = vals ∧ ∀ i f, fs[i]? = some f →
      (f.occurs = .single → 1 ≤ (vals.getD i []).length) ∧
      (∀ n, f.occurs = .staticList n → (vals.getD i []).length = n) := by
  induction fs generalizing vals vss with
  | nil =>
    cases vals with
    | nil => simp [finishFields] at hok; exact ⟨hok, by simp⟩
    | cons => simp at hl
  | cons f fs ih =>
    cases vals with
    | nil => simp at hl
    | cons vs vals =>
      simp only [finishFields, List.headD_cons, List.tail_cons] at hok
      cases h1 : finishField f h vs with
      | error err => rw [h1] at hok; cases hok
      | ok vs' =>
        rw [h1] at hok
        simp only at hok
        cases h2 : finishFields h fs vals with
        | error err => rw [h2] at hok; cases hok
        | ok vss' =>
          rw [h2] at hok
          simp only [Except.ok.injEq] at hok
          obtain ⟨h3, h4⟩ := ih vals vss' (by simpa using hl) (fun f hf => hd f (by simp [hf])) h2
          have hdf := hd f (by simp)
          have key : vs' = vs ∧ (f.occurs = .single → 1 ≤ vs.length) ∧
              (∀ n, f.occurs = .staticList n → vs.length = n) := by
            unfold finishField at h1
            cases ho : f.occurs with
            | none => rw [ho] at h1; cases h1
            | single =>
              rw [ho] at h1
              have : f.isDefaultable = false := by
                simp [Field.isDefaultable, hdf, (occurs_single ho).1]
              simp only [this, Bool.false_eq_true, if_false] at h1
              cases vs with
              | nil => simp at h1
              | cons a b => simp at h1; simp [← h1]
            | optional => rw [ho] at h1; simp at h1; simp [← h1]
            | dynamicList =>
              rw [ho] at h1
              simp only at h1
              by_cases hm : f.min = 0
              · rw [if_pos hm] at h1; simp at h1; simp [← h1]
              · have : f.isDefaultable = false := by simp [Field.isDefaultable, hdf, hm]
                rw [if_neg hm, this] at h1
                simp only [Bool.false_eq_true, if_false] at h1
                split at h1
                · cases h1
                · simp at h1; simp [← h1]
            | staticList n =>
              rw [ho] at h1
              simp only at h1
              have hsn : ∀ m : Nat, Container.staticList n = .staticList m → n = m := by
                intro m hm; cases hm; rfl
              by_cases hdd : f.isDefaultable = true
              · have hm : f.min = 0 := by simpa [Field.isDefaultable, hdf] using hdd
                have := (occurs_static ho).1
                have hn0 : n = 0 := by omega
                subst hn0
                rw [if_pos hdd, Nat.zero_sub] at h1
                simp only [fillDefault] at h1
                by_cases hv : vs.length = 0
                · rw [if_pos hv] at h1
                  cases h1
                  exact ⟨rfl, by simp, fun m hm => by rw [hv]; exact hsn m hm⟩
                · rw [if_neg hv] at h1; cases h1
              · rw [if_neg hdd] at h1
                by_cases hv : vs.length = n
                · rw [if_pos hv] at h1
                  cases h1
                  exact ⟨rfl, by simp, fun m hm => by rw [hv]; exact hsn m hm⟩
                · rw [if_neg hv] at h1; cases h1
          refine ⟨by rw [← hok, h3, key.1], ?_⟩
          intro i g hg
          cases i with
          | zero =>
            simp at hg
            subst hg
            exact key.2
          | succ i =>
            have := h4 i g (by simpa using hg)
            simpa using this

/-- What an accepted content looks like, given the values collected so far. -/
structure ReadAs (track : H → Event → H) (T : SeqTy H A C V W) (s : SeqSt A C V) (h : H)
    (items : List (Item V)) (w : W) : Prop where
  read : ItemsRead track T.fields h items
  from_ : ∀ i ∈ childFields items, s.pos.index T ≤ i
  order : (childFields items).Pairwise (· ≤ ·)
  upper : ∀ i f b, T.fields[i]? = some f → f.max = .bounded b →
    (s.vals.getD i []).length + (valuesOf i items).length ≤ b
  exact_ : ∀ i f, T.fields[i]? = some f → (f.occurs = .single ∨ ∃ n, f.occurs = .staticList n) →
    f.min ≤ (s.vals.getD i []).length + (valuesOf i items).length
  lower : ∀ i f, T.fields[i]? = some f →
    f.min ≤ (s.vals.getD i []).length + (valuesOf i items).length ∨
      ∀ x ∈ childFields items, x ≤ i
  value : w = T.build s.attrs (merge s.vals items)

/-- Everything read from a state between two children. -/
theorem run_sound (track : H → Event → H) (T : SeqTy H A C V W) (st : Strict T) (w : W)
    (rest : List Event) (n : Nat) :
    ∀ (evs : List Event) (s : SeqSt A C V) (h : H), evs.length ≤ n → Sound T s →
    Drv.run (genEnv track) T.de.toDeser { helper := h, deser := some s } evs = .done w rest →
    ∃ items m, evs = itemEvents items ++ .end_ m :: rest ∧ ReadAs track T s h items w := by
  induction n with
  | zero =>
    intro evs s h hn _ hr
    have : evs = [] := List.eq_nil_of_length_eq_zero (by omega)
    subst this
    cases hr
  | succ n ih =>
    intro evs s h hn sd hr
    cases evs with
    | nil => cases hr
    | cons e es =>
      simp only [List.length_cons] at hn
      obtain ⟨out, k, hcall, hleft, hres⟩ := run_cons_done (d := T.de) hr
      have hcall : T.next s (track h e) e = .ok out := hcall
      -- a child that has been read
      have child : ∀ (j : Nat) (f : Field H C V) (evs1 evs2 : List Event) (v : V),
          T.fields[j]? = some f → s.pos.index T ≤ j →
          (∀ q f, s.pos.index T ≤ q → q < j → T.fields[q]? = some f →
            f.min ≤ (s.vals.getD q []).length) →
          (∀ b, f.max = .bounded b → (s.vals.getD j []).length < b) →
          ReadChild track T.fields h j evs1 v → e :: es = evs1 ++ evs2 → evs1 ≠ [] →
          Drv.run (genEnv track) T.de.toDeser
            { helper := evs1.foldl track h,
              deser := some { s with vals := s.vals.modify j (· ++ [v]),
                                     pos := T.posAfter f j ((s.vals.getD j []).length + 1) } }
            evs2 = .done w rest →
          ∃ items m, e :: es = itemEvents items ++ .end_ m :: rest ∧
            ReadAs track T s h items w := by
        intro j f evs1 evs2 v hf hpj hpass hroom hrc hsplit hne hrun
        obtain ⟨sd', hidx⟩ := sound_after T st s sd j f hf hpj v hpass hroom
        have hlen2 : evs2.length ≤ n := by
          have h1 := congrArg List.length hsplit
          simp only [List.length_cons, List.length_append] at h1
          have := List.length_pos_iff.mpr hne
          omega
        have hj : j < s.vals.length := by
          rw [sd.len]
          rcases Nat.lt_or_ge j T.fields.length with h | h
          · exact h
          · rw [List.getElem?_eq_none h] at hf; cases hf
        obtain ⟨items, m, hev, ra⟩ := ih evs2 _ _ hlen2 sd' hrun
        have hcount : ∀ i, (s.vals.getD i []).length
              + (valuesOf i (.child j evs1 v :: items)).length
            = ((s.vals.modify j (· ++ [v])).getD i []).length + (valuesOf i items).length := by
          intro i
          rw [getD_modify _ _ _ _ hj]
          by_cases hij : j = i
          · subst hij
            have : valuesOf j (.child j evs1 v :: items) = v :: valuesOf j items := by
              simp [valuesOf]
            rw [this, if_pos rfl]; simp; omega
          · have : valuesOf i (.child j evs1 v :: items) = valuesOf i items := by
              simp [valuesOf, hij]
            rw [this, if_neg hij]
        have hcf : childFields (.child j evs1 v :: items) = j :: childFields items := rfl
        refine ⟨.child j evs1 v :: items, m, ?_, ⟨⟨hrc, ra.read⟩, ?_, ?_, ?_, ?_, ?_, ?_⟩⟩
        · rw [hsplit, hev]
          simp [itemEvents, Item.events]
        · intro i hi
          rw [hcf, List.mem_cons] at hi
          rcases hi with rfl | hi
          · exact hpj
          · exact Nat.le_trans hpj (Nat.le_trans hidx (ra.from_ i hi))
        · rw [hcf, List.pairwise_cons]
          exact ⟨fun i hi => Nat.le_trans hidx (ra.from_ i hi), ra.order⟩
        · intro i g b hg hb
          rw [hcount]; exact ra.upper i g b hg hb
        · intro i g hg ho
          rw [hcount]; exact ra.exact_ i g hg ho
        · intro i g hg
          rw [hcount]
          rcases Nat.lt_or_ge i j with hij | hij
          · left
            have : g.min ≤ (s.vals.getD i []).length := by
              rcases Nat.lt_or_ge i (s.pos.index T) with h | h
              · exact sd.passed i g h hg
              · exact hpass i g h hij hg
            rw [getD_modify _ _ _ _ hj, if_neg (by omega)]
            omega
          · rcases ra.lower i g hg with h | h
            · exact Or.inl h
            · right
              intro x hx
              rw [hcf, List.mem_cons] at hx
              rcases hx with rfl | hx
              · exact hij
              · exact h x hx
        · rw [merge_child]; exact ra.value
      cases ht : tagOf e with
      | some t =>
        rcases next_tag T st s sd (track h e) e t ht out hcall with hfound | ⟨h1, h2, _⟩
        · obtain ⟨j, f, want, hpj, hf, hw, hwt, hpass, hroom, hx⟩ := hfound
          have hj : j < s.vals.length := by
            rw [sd.len]
            rcases Nat.lt_or_ge j T.fields.length with h | h
            · exact h
            · rw [List.getElem?_eq_none h] at hf; cases hf
          have tm : Tame f.de := (st.field f (List.mem_of_getElem? hf)).2.2.2.2.2
          rcases hx with ⟨c, a, hi, rfl⟩ | ⟨v, a, hi, rfl⟩
          · have hk : k = none := by simp [DEvent.event, leftover] at hleft; exact hleft.symm
            subst hk
            rcases hres with ⟨hx, _⟩ | ⟨_, hx⟩
            · cases hx
            · obtain ⟨evs1, evs2, v, hev, hne, hcs, hrun⟩ :=
                running_child track T f j hf tm s hj hroom rest w es (track h e) c hx
              refine child j f (e :: evs1) evs2 v hf hpj hpass hroom ?_ (by rw [hev]; rfl)
                (by simp) hrun
              exact ⟨f, e, evs1, t, want, hf, rfl, ht, hw, hwt, _, hi,
                Or.inr ⟨c, rfl, Or.inl rfl, hcs⟩⟩
          · have hk : k = none := by simp [DEvent.event, leftover] at hleft; exact hleft.symm
            subst hk
            rcases hres with ⟨hx, _⟩ | ⟨_, hx⟩
            · cases hx
            · refine child j f [e] es v hf hpj hpass hroom ?_ rfl (by simp) hx
              exact ⟨f, e, [], t, want, hf, rfl, ht, hw, hwt, _, hi, Or.inl ⟨rfl, rfl, rfl⟩⟩
        · rw [h1, h2] at hleft
          obtain ⟨h3, _⟩ := leftover_ignored hleft
          cases e <;> simp [tagOf] at ht <;> simp [Ignored, Padding] at h3
      | none =>
        by_cases hend : ∃ m, e = .end_ m
        · obtain ⟨m, rfl⟩ := hend
          have hround : T.round (track h (.end_ m)) (.end_ m) s none false
              = T.atEnd (track h (.end_ m)) m s none := by
            unfold SeqTy.round
            rcases sd.clean with hp | ⟨p, hp, _⟩ | hp <;> simp only [hp]
          unfold SeqTy.next SeqTy.fuel at hcall
          simp only [SeqTy.loop, hround, SeqTy.atEnd, SeqTy.flush] at hcall
          cases hff : finishFields (track h (.end_ m)) T.fields s.vals with
          | error err => rw [hff] at hcall; simp at hcall
          | ok vss =>
            rw [hff] at hcall
            simp only [st.elem, if_true, Except.ok.injEq] at hcall
            subst hcall
            obtain ⟨hv, hex⟩ := finishFields_inv _ _ _ _ sd.len
              (fun f hf => (st.field f hf).2.1) hff
            rcases hres with ⟨h1, h2⟩ | ⟨h1, _⟩
            · simp only [Artifact.data.injEq] at h1
              subst h2
              refine ⟨[], m, rfl, ⟨trivial, by simp [childFields], by simp [childFields],
                ?_, ?_, ?_, ?_⟩⟩
              · intro i f b hf hb
                simpa [valuesOf] using sd.upper i f b hf hb
              · intro i f hf ho
                rcases ho with ho | ⟨k, ho⟩
                · have := (hex i f hf).1 ho
                  rw [(occurs_single ho).1]
                  simpa [valuesOf] using this
                · have := (hex i f hf).2 k ho
                  rw [(occurs_static ho).1, this]
                  exact Nat.le_add_right _ _
              · intro i f _
                right; intro x hx; simp [childFields] at hx
              · rw [merge_nil, ← h1, hv]
            · exact absurd rfl (h1 _)
        · -- other content
          have hout : (out.event = .brk e ∨ out.event = .cont e) ∧ out.allowAny = false ∧
              out.artifact = .deser s := by
            have hs : ∀ p, s.pos = p → { s with pos := p } = s := by
              intro p hp; cases s; simp at hp; subst hp; rfl
            unfold SeqTy.next SeqTy.fuel at hcall
            rcases sd.clean with hp | ⟨p, hp, hpl⟩ | hp
            · have h1 : T.round (track h e) e s none false
                  = .ok (.again e { s with pos := .at_ 0 none } (some .init) false) := by
                unfold SeqTy.round
                cases e <;> first | (simp [hp, st.any]; done) | (exact absurd ⟨_, rfl⟩ hend)
              have h2 : T.round (track h e) e { s with pos := .at_ 0 none } (some .init) false
                  = .ok (.ret ⟨.deser s, .brk e, false⟩) := by
                unfold SeqTy.round
                cases e <;> first | (simp [tagOf] at ht; done) | (simp [tagOf, Round.stop, hs .init hp]; done) | (exact absurd ⟨_, rfl⟩ hend)
              simp only [SeqTy.loop, h1, h2] at hcall
              cases hcall
              exact ⟨Or.inl rfl, rfl, rfl⟩
            · have h2 : T.round (track h e) e s none false
                  = .ok (.ret ⟨.deser s, .brk e, false⟩) := by
                unfold SeqTy.round
                simp only [hp]
                cases e <;> first | (simp [tagOf] at ht; done) | (simp [tagOf, Round.stop]; done) | (exact absurd ⟨_, rfl⟩ hend)
              simp only [SeqTy.loop, h2] at hcall
              cases hcall
              exact ⟨Or.inl rfl, rfl, rfl⟩
            · have h2 : T.round (track h e) e s none false
                  = .ok (.ret ⟨.deser s, .cont e, false⟩) := by
                unfold SeqTy.round
                simp only [hp, st.any]
                cases e <;> first | (simp [Round.stop]; done) | (exact absurd ⟨_, rfl⟩ hend)
              simp only [SeqTy.loop, h2] at hcall
              cases hcall
              exact ⟨Or.inr rfl, rfl, rfl⟩
          obtain ⟨h1, h2, h3⟩ := hout
          have hig : Ignored e = true ∧ k = none := by
            rcases h1 with h1 | h1 <;> rw [h1, h2] at hleft <;> exact leftover_ignored hleft
          obtain ⟨hig, rfl⟩ := hig
          rcases hres with ⟨h4, _⟩ | ⟨_, h4⟩
          · rw [h3] at h4; cases h4
          · rw [h3] at h4
            obtain ⟨items, m, hev, ra⟩ := ih es s (track h e) (by omega) sd h4
            exact ⟨.pad e :: items, m, by rw [hev]; rfl,
              ⟨⟨hig, ra.read⟩, ra.from_, ra.order, ra.upper, ra.exact_, ra.lower, ra.value⟩⟩

/-- **C10** (partial). If the children have simple content (`Tame`) and the deserializer returns
a value after the start tag `t`, then the events read are the content of a valid sequence:
ignored content and children, each child an element with the name of its field that its type
reads, the children in the order of the fields, the number of children of a field at most
`maxOccurs`, exactly one for single elements, exactly `N` for fixed-size arrays and at least
`minOccurs` if any child of a later field follows; and the value holds exactly the values of
the children.

Missing from the full property, and false: `minOccurs` of lists at the end of the content
(`C10_list_minimum_not_enforced`), nesting for children with complex content
(`C10_nesting_leak`), and entity references (`Ignored` counts them as padding,
`C10_reference_ignored`). -/
theorem C10_sequence_sound_partial (track : H → Event → H) (T : SeqTy H A C V W) (st : Strict T)
    (h : H) (t : Tag) (evs rest : List Event) (w : W)
    (hr : Drv.run (genEnv track) T.de.toDeser { helper := h } (.start t :: evs) = .done w rest) :
    ∃ a items n, T.ofTag (track h (.start t)) t = .ok a ∧
      evs = itemEvents items ++ .end_ n :: rest ∧
      ItemsRead track T.fields (track h (.start t)) items ∧
      (childFields items).Pairwise (· ≤ ·) ∧
      (∀ i f, T.fields[i]? = some f →
        (∀ b, f.max = .bounded b → (valuesOf i items).length ≤ b) ∧
        (f.occurs = .single ∨ (∃ n, f.occurs = .staticList n) ∨ (∃ x ∈ childFields items, i < x) →
          f.min ≤ (valuesOf i items).length)) ∧
      w = T.build a ((List.range T.fields.length).map (valuesOf · items)) := by
  obtain ⟨out, k, hcall, hleft, hres⟩ := run_cons_done (d := T.de) hr
  have hcall : T.init (track h (.start t)) (.start t) = .ok out := hcall
  simp only [SeqTy.init, st.elem, if_true, initFromStart] at hcall
  cases ha : T.ofTag (track h (.start t)) t with
  | error err => rw [ha] at hcall; simp [Except.map] at hcall
  | ok a =>
    rw [ha] at hcall
    simp only [Except.map, Except.ok.injEq] at hcall
    subst hcall
    have hk : k = none := by simp [DEvent.event, leftover] at hleft; exact hleft.symm
    subst hk
    rcases hres with ⟨h1, _⟩ | ⟨_, h1⟩
    · cases h1
    · obtain ⟨items, n, hev, ra⟩ := run_sound track T st w rest evs.length evs (T.start a)
        (track h (.start t)) (Nat.le_refl _) (sound_start T st a) h1
      refine ⟨a, items, n, rfl, hev, ra.read, ra.order, ?_, ?_⟩
      · intro i f hf
        have hg := getD_start T a i
        refine ⟨fun b hb => by have := ra.upper i f b hf hb; rw [hg] at this; simpa using this, ?_⟩
        intro ho
        have key : f.min ≤ ((T.start a).vals.getD i []).length + (valuesOf i items).length := by
          rcases ho with ho | ho | ⟨x, hx, hix⟩
          · exact ra.exact_ i f hf (Or.inl ho)
          · exact ra.exact_ i f hf (Or.inr ho)
          · rcases ra.lower i f hf with h | h
            · exact h
            · have := h x hx; omega
        rw [hg] at key
        simpa using key
      · rw [ra.value, show (T.start a).vals = T.fields.map fun _ => [] from rfl, merge_start]
        rfl

end
end Verif.Gen

import Verif.Gen.Content

/-!
# Generated choice deserializers: termination, dynamic alternatives, findings (C12)
-/

namespace Verif.Gen

open Verif.Rt Verif.Occurs

section
variable {H C V W : Type}

theorem EHO.fromEventEnd_cont {ev : DEvent} {a b : Bool} {e : Event}
    (h : EHO.fromEventEnd ev a = .cont e b) : ∃ n, e = .end_ n ∧ ev = .cont (.end_ n) := by
  unfold EHO.fromEventEnd EHO.toParent at h
  split at h
  · next n =>
    simp only [EHO.cont.injEq] at h
    exact ⟨n, h.1.symm, rfl⟩
  · simp at h
  · simp at h

theorem EnumTy.breakOrEnd_cont {T : EnumTy H C V W} {ev : DEvent} {a b : Bool} {e : Event}
    (h : T.breakOrEnd ev a = .cont e b) : ∃ n, e = .end_ n ∧ ev = .cont (.end_ n) := by
  unfold EnumTy.breakOrEnd at h
  split at h
  · exact EHO.fromEventEnd_cont h
  · cases h

/-- The handler goes on only with an event that the child has handed back. -/
theorem EnumTy.handle_cont {T : EnumTy H C V W} {f : Field H C V} (hf : f.want.isSome = true)
    {i : Nat} {h : H} {st st' : CPos C V W} {vs : List V} {fb : Option C} {out : Output C V}
    {e : Event} {a : Bool} (hh : T.handle f i h st vs fb out = .ok (.cont e a, st')) :
    out.event = .cont e ∧ (out.artifact = .none → ∃ n, e = .end_ n) := by
  have hno : f.want.isNone = false := by cases hw : f.want <;> simp_all
  unfold EnumTy.handle at hh
  split at hh
  · simp only [EnumTy.handleNone, contOrReturn, hno, Bool.false_eq_true, if_false, EHO.toRoot,
      Except.ok.injEq] at hh
    split at hh
    · split at hh
      · simp at hh
      · by_cases hc : (!f.isDefaultable && decide (vs.length + (if fb.isSome then 1 else 0) < f.min))
            = true
        · rw [if_pos hc] at hh; simp at hh
        · rw [if_neg hc] at hh
          simp only [Prod.mk.injEq] at hh
          obtain ⟨n, rfl, h2⟩ := EnumTy.breakOrEnd_cont hh.1
          exact ⟨h2, fun _ => ⟨n, rfl⟩⟩
    · simp at hh
  · next v hv =>
    have key : ∀ x : CPos C V W, (Except.ok (EHO.fromEvent out.event out.allowAny, x) : Except GErr _)
        = .ok (.cont e a, st') → out.event = .cont e := by
      intro x hx
      simp only [Except.ok.injEq, Prod.mk.injEq] at hx
      exact EHO.fromEvent_cont hx.1
    have fin : ∀ vs, (match T.finishState h (.at_ i vs none none) with
          | .error e => .error e
          | .ok w => .ok (EHO.brk out.event out.allowAny, CPos.done w) : Except GErr _)
        ≠ .ok (.cont e a, st') := by
      intro vs
      cases T.finishState h (.at_ i vs none none) <;> simp
    refine ⟨?_, fun h => by rw [hv] at h; cases h⟩
    cases hfl : flushAlt f h fb vs with
    | error err => rw [hfl] at hh; simp at hh
    | ok vs1 =>
      rw [hfl] at hh
      simp only at hh
      cases hs : storeAlt f vs1 v with
      | error err => rw [hs] at hh; simp at hh
      | ok vs2 =>
        rw [hs] at hh
        simp only at hh
        split at hh
        · exact key _ hh
        · split at hh
          · split at hh
            · split at hh
              · exact key _ hh
              · exact absurd hh (fin _)
            · exact key _ hh
          · exact absurd hh (fin _)
  · next c hc =>
    refine ⟨?_, fun h => by rw [hc] at h; cases h⟩
    cases hfl : flushAlt f h fb vs with
    | error err => rw [hfl] at hh; simp at hh
    | ok vs1 =>
      rw [hfl] at hh
      simp only at hh
      have key : ∀ b : Bool, (if b = true then EHO.fromEvent out.event out.allowAny
          else T.breakOrEnd out.event out.allowAny) = .cont e a → out.event = .cont e := by
        intro b hb
        cases b
        · obtain ⟨n, rfl, h2⟩ := EnumTy.breakOrEnd_cont hb; exact h2
        · exact EHO.fromEvent_cont hb
      by_cases hl : isList f.occurs = true
      · rw [if_pos hl] at hh
        have pick : ∀ (q : Bool) (r : EHO) (x y : CPos C V W),
            (if q = true then .ok (r, x) else .ok (r, y) : Except GErr _) = .ok (.cont e a, st') →
            r = .cont e a := by
          intro q r x y h
          cases q <;> simp at h <;> exact h.1
        exact key _ (pick _ _ _ _ hh)
      · rw [if_neg hl] at hh
        simp only [Except.ok.injEq, Prod.mk.injEq] at hh
        exact key false hh.1

theorem tame_init_event {d : GDe H C V} (ht : Tame d) {h : H} {e : Event} {t : Tag}
    (he : tagOf e = some t) {out : Output C V} (hi : d.init h e = .ok out) :
    out.event = .none := by
  cases e <;> simp [tagOf] at he
  · exact (ht.start _ _ _ hi).2
  · exact (ht.empty _ _ _ hi).2

theorem EnumTy.atEnd_no_again {T : EnumTy H C V W} {h : H} {n : Str} {st st' : CPos C V W}
    {e' : Event} : T.atEnd h n st ≠ .ok (.again e' st') := by
  unfold EnumTy.atEnd
  cases T.finishState h st <;> simp

theorem CRound.stop_no_again {st st' : CPos C V W} {ev : DEvent} {a : Bool} {e' : Event} :
    CRound.stop st ev a ≠ .again e' st' := by
  unfold CRound.stop
  split <;> simp

theorem CRound.after_again {r : Except GErr (EHO × CPos C V W)} {e' : Event} {st' : CPos C V W}
    (h : CRound.after r = .ok (.again e' st')) : ∃ a, r = .ok (.cont e' a, st') := by
  unfold CRound.after at h
  split at h
  · simp at h
  · next a _ => simp only [Except.ok.injEq, CRound.again.injEq] at h; exact ⟨a, by rw [h.1, h.2]⟩
  · simp only [Except.ok.injEq] at h; exact absurd h CRound.stop_no_again

/-- If all alternatives are elements with simple content, the loop of `next` needs one round
only, so that the bound on the number of rounds in the model is no restriction. -/
theorem EnumTy.round_once {T : EnumTy H C V W}
    (ht : ∀ f ∈ T.alts, f.want.isSome = true ∧ Tame f.de) (h : H) (e e' : Event)
    (st st' : CPos C V W) : T.round h e st ≠ .ok (.again e' st') := by
  intro hr
  have noCont : ∀ (f : Field H C V) (i : Nat) (vs : List V) (fb : Option C)
      (r : Except GErr (Output C V)), f ∈ T.alts →
      (∀ out, r = .ok out → (∀ x, out.event ≠ .cont x) ∨
        (out.artifact = .none ∧ ∀ n, out.event ≠ .cont (.end_ n))) →
      CRound.after (T.enter f i h vs fb r) ≠ .ok (.again e' st') := by
    intro f i vs fb r hf hout hr
    obtain ⟨a, hr⟩ := CRound.after_again hr
    unfold EnumTy.enter at hr
    split at hr
    · cases hr
    · rename_i out _
      obtain ⟨h1, h2⟩ := EnumTy.handle_cont (ht f hf).1 hr
      rcases hout out rfl with h3 | ⟨h3, h4⟩
      · exact h3 _ h1
      · obtain ⟨n, rfl⟩ := h2 h3
        exact h4 n h1
  have stopc : ∀ (st : CPos C V W) ev a, (Except.ok (CRound.stop st ev a) : Except GErr _)
      ≠ .ok (.again e' st') := by
    intro st ev a hx
    simp only [Except.ok.injEq] at hx
    exact CRound.stop_no_again hx
  unfold EnumTy.round at hr
  split at hr
  · cases hr
  · next i vs fb c =>
    split at hr
    · cases hr
    · next f hf =>
      refine noCont f i vs fb _ (List.mem_of_getElem? hf) ?_ hr
      intro out hout
      left
      intro x hx
      have tm := (ht f (List.mem_of_getElem? hf)).2
      by_cases hend : ∃ n, e = .end_ n
      · obtain ⟨n, rfl⟩ := hend
        rw [(tm.end_ _ _ _ _ hout).2] at hx; cases hx
      · rcases (tm.other _ _ _ _ hout (fun n hn => hend ⟨n, hn⟩)).2 with ⟨h1, _⟩ | ⟨h1, _⟩ <;>
          (rw [h1] at hx; cases hx)
  · split at hr
    · exact EnumTy.atEnd_no_again hr
    · obtain ⟨a, hr⟩ := CRound.after_again hr
      unfold EnumTy.findSuitable at hr
      split at hr
      · simp [EHO.toParent] at hr
      · next t htag =>
        split at hr
        · next i f hfa =>
          have hmem : f ∈ T.alts := List.mem_of_getElem? (findAlt_some hfa).2.1
          exact noCont f i [] none (f.de.init h e) hmem
            (fun out hout => Or.inl (fun x hx => by
              rw [tame_init_event (ht f hmem).2 htag hout] at hx; cases hx))
            (by simp only [hr, CRound.after])
        · rw [findGroups_elements T h e false .unknown T.alts (fun f hf => (ht f hf).1) 0] at hr
          simp [EHO.toParent] at hr
  · next i vs fb =>
    split at hr
    · exact EnumTy.atEnd_no_again hr
    · split at hr
      · exact stopc _ _ _ hr
      · next t htag =>
        split at hr
        · cases hr
        · next f hf =>
          have hmem := List.mem_of_getElem? hf
          refine noCont f i vs fb _ hmem ?_ hr
          intro out hout
          unfold Field.create at hout
          split at hout
          · unfold initStartTag at hout
            rw [htag] at hout
            simp only at hout
            split at hout
            · exact Or.inl (fun x hx => by
                rw [tame_init_event (ht f hmem).2 htag hout] at hx; cases hx)
            · cases hout
              refine Or.inr ⟨rfl, fun n hn => ?_⟩
              simp only [DEvent.cont.injEq] at hn
              rw [hn] at htag; simp [tagOf] at htag
          · next hw => have := (ht f hmem).1; rw [hw] at this; cases this
  · split at hr
    · exact EnumTy.atEnd_no_again hr
    · exact stopc _ _ _ hr

/-- The number of rounds granted does not matter. -/
theorem EnumTy.loop_decides {T : EnumTy H C V W}
    (ht : ∀ f ∈ T.alts, f.want.isSome = true ∧ Tame f.de) (h : H) (n m : Nat) (e : Event)
    (st : CPos C V W) : T.loop h (n + 1) e st = T.loop h (m + 1) e st := by
  simp only [EnumTy.loop]
  cases hr : T.round h e st with
  | error err => rfl
  | ok r =>
    cases r with
    | ret out => rfl
    | again e' st' => exact absurd hr (EnumTy.round_once ht h e e' st st')

end

section
variable {H C V : Type}

/-- The deserializer of a dynamic type, `DynamicData::render_deserializer_impls`,
deserialize.rs:239-420: the derived types in order, each with the test of the name of the tag
and of its `xsi:type`. The state is the index of the derived type with its deserializer. -/
def dynInit (h : H) (e : Event) (t : Tag) :
    List ((H → Tag → Bool) × GDe H C V) → Nat → Except GErr (Output (Nat × C) V)
  | [], _ => .ok ⟨.none, .brk e, false⟩
  | (want, d) :: ds, i =>
    if want h t then
      match d.init h e with
      | .error err => .error err
      | .ok out => .ok ⟨out.artifact.map (fun c => (i, c)) id, out.event, out.allowAny⟩
    else dynInit h e t ds (i + 1)

def dynDe (ds : List ((H → Tag → Bool) × GDe H C V)) : GDe H (Nat × C) V where
  init h e :=
    match tagOf e with
    | none => .ok ⟨.none, .none, false⟩
    | some t => dynInit h e t ds 0
  next s h e :=
    match ds[s.1]? with
    | none => .error .panic
    | some d =>
      match d.2.next s.2 h e with
      | .error err => .error err
      | .ok out => .ok ⟨out.artifact.map (fun c => (s.1, c)) id, out.event, out.allowAny⟩
  finish s h :=
    match ds[s.1]? with
    | none => .error .panic
    | some d => d.2.finish s.2 h

theorem dynInit_first {ds : List ((H → Tag → Bool) × GDe H C V)} {i : Nat}
    {d : (H → Tag → Bool) × GDe H C V} (hd : ds[i]? = some d) {h : H} {e : Event} {t : Tag}
    (hw : d.1 h t = true) (hno : ∀ j d', j < i → ds[j]? = some d' → d'.1 h t = false)
    {out : Output C V} (ho : d.2.init h e = .ok out) (k : Nat) :
    dynInit h e t ds k
      = .ok ⟨out.artifact.map (fun c => (k + i, c)) id, out.event, out.allowAny⟩ := by
  induction ds generalizing i k with
  | nil => simp at hd
  | cons g ds ih =>
    cases i with
    | zero =>
      simp at hd; subst hd
      simp [dynInit, hw, ho]
    | succ i =>
      have h0 := hno 0 g (by omega) rfl
      simp only [dynInit, h0, Bool.false_eq_true, if_false]
      rw [ih (i := i) (by simpa using hd)
        (fun j d' hj hjd => hno (j + 1) d' (by omega) (by simpa using hjd))]
      rw [show k + 1 + i = k + (i + 1) by omega]

theorem dyn_feeds_running (track : H → Event → H) (ds : List ((H → Tag → Bool) × GDe H C V))
    (i : Nat) (d : (H → Tag → Bool) × GDe H C V) (hd : ds[i]? = some d) {st : Option C} {h : H}
    {evs : List Event} {v : V} (fd : Feeds track d.2 st h evs v) :
    ∀ c, st = some c → Feeds track (dynDe ds) (some (i, c)) h evs v := by
  induction fd with
  | @last st h e v a hc =>
    intro c hst
    subst hst
    refine .last (a := a) ?_
    have hc : d.2.next c (track h e) e = .ok ⟨.data v, .none, a⟩ := hc
    show (dynDe ds).next (i, c) (track h e) e = _
    simp [dynDe, hd, hc, Artifact.map]
  | @step st h e es v c' ev a hc hq _ ih =>
    intro c hst
    subst hst
    refine .step (ev := ev) (a := a) (c := (i, c')) ?_ hq (ih c' rfl)
    have hc : d.2.next c (track h e) e = .ok ⟨.deser c', ev, a⟩ := hc
    show (dynDe ds).next (i, c) (track h e) e = _
    simp [dynDe, hd, hc, Artifact.map]

/-- **C12.** A dynamic type reads the elements of its derived types: the first one whose name
(and `xsi:type`) the tag has. -/
theorem C12_dynamic_feeds (track : H → Event → H) (ds : List ((H → Tag → Bool) × GDe H C V))
    (i : Nat) (d : (H → Tag → Bool) × GDe H C V) (hd : ds[i]? = some d) (h : H) (e : Event)
    (es : List Event) (t : Tag) (he : tagOf e = some t) (hw : d.1 (track h e) t = true)
    (hno : ∀ j d', j < i → ds[j]? = some d' → d'.1 (track h e) t = false) (v : V)
    (fd : Feeds track d.2 none h (e :: es) v) :
    Feeds track (dynDe ds) none h (e :: es) v := by
  cases fd with
  | @last _ _ _ _ a hc =>
    refine .last (a := a) ?_
    have hc : d.2.init (track h e) e = .ok ⟨.data v, .none, a⟩ := hc
    show (dynDe ds).init (track h e) e = _
    simp only [dynDe, he, dynInit_first hd hw hno hc 0, Artifact.map, id]
  | @step _ _ _ _ _ c ev a hc hq fd =>
    refine .step (ev := ev) (a := a) (c := (i, c)) ?_ hq (dyn_feeds_running track ds i d hd fd c rfl)
    have hc : d.2.init (track h e) e = .ok ⟨.deser c, ev, a⟩ := hc
    show (dynDe ds).init (track h e) e = _
    simp only [dynDe, he, dynInit_first hd hw hno hc 0, Artifact.map, Nat.zero_add]

end

/-! ## Ends of groups -/

/-- **C12.** An enum as a group, after some children of alternative `i`: at the end tag of the
element around it, it returns its variant and hands the end tag back. -/
theorem C12_group_returns_end (T : EnumTy H C V W) (hT : T.isElement = false) (f : Field H C V)
    (i : Nat) (hf : T.alts[i]? = some f) (vs : List V) (ha : Allows f.min f.max vs.length)
    (h0 : f.max ≠ .bounded 0) (h : H) (n : Str) :
    T.de.next (.at_ i vs none none) h (.end_ n)
      = .ok ⟨.data (T.build i vs), .cont (.end_ n), false⟩ := by
  show T.next _ _ _ = _
  simp [EnumTy.next, EnumTy.loop, EnumTy.round, EnumTy.atEnd, EnumTy.finishState, hf, flushAlt,
    finishField_ok f h vs ha h0, Except.map, hT, CRound.resume]

/-- **C12.** The content of an element is running and could go on (`c`), but the next tag belongs
to a new occurrence of the content. Then the running occurrence is finished and stored before
the new one: the values are in document order. -/
theorem C12_content_in_order (T : ContentTy H A C V W) (hT : T.isElement = true) (a : A)
    (vs : List V) (hm : T.more vs.length = true)
    (hl : T.content.occurs ≠ .single ∧ T.content.occurs ≠ .optional) (c c' : C) (h : H)
    (e : Event) (t : Tag) (he : tagOf e = some t) (x y : Bool) (v1 v2 : V)
    (hc : T.content.de.next c h e = .ok ⟨.deser c', .cont e, x⟩)
    (hfin : T.content.de.finish c' h = .ok v1)
    (hi : T.content.de.init h e = .ok ⟨.data v2, .none, y⟩) :
    T.de.next ⟨a, vs, .content c⟩ h e = .ok ⟨.deser ⟨a, vs ++ [v1, v2], .next⟩, .none, y⟩ := by
  have hstore : ∀ vs v, storeAlt T.content vs v = .ok (vs ++ [v]) := by
    intro vs v
    unfold storeAlt
    split
    · next h => exact absurd h hl.1
    · next h => exact absurd h hl.2
    · rfl
  show T.next _ _ _ = _
  cases e <;> simp [tagOf] at he <;>
    simp [ContentTy.next, ContentTy.loop, ContentTy.round, hc, ContentTy.after, ContentTy.handle,
      ContentTy.flush, hm, EHO.fromEvent, hi, hfin, hstore, hT, ContentTy.stop]

namespace Ex

/-- `r = choice(a, b{1..2}, c?)` -/
def tyE : EnumTy Unit Str Val Val :=
  { alts := [leafField 'a' 1 (.bounded 1), leafField 'b' 1 (.bounded 2),
      leafField 'c' 0 (.bounded 1)]
    check := fun _ _ => .ok ()
    build := fun i vs => .node [[.txt (List.replicate i 'x')], vs] }

theorem tyE_strict : StrictChoice tyE where
  elem := rfl
  any := rfl
  dflt := rfl
  alt := by
    intro f hf
    have ht : Tame txt := simpleDe_tame _ _ _
    simp [tyE] at hf
    rcases hf with rfl | rfl | rfl <;> exact ⟨rfl, rfl, rfl, by simp [leafField], ht⟩

/-- `<b>1</b> <b>2</b>` -/
def itemsE : List (Item Val) :=
  [.child 1 (elem 'b' ['1']) (.txt ['1']), .pad (.text [' ']),
   .child 1 (elem 'b' ['2']) (.txt ['2'])]

theorem leaf_feeds (c : Char) (s : Str) (hcc : charContent (fun _ => none) [.text s] = some s)
    (htr : trimAscii s = s) : Feeds track txt none () (elem c s) (.txt s) :=
  simple_feeds track _ _ _ (tag c) [c] (Val.txt s) [.text s] () s (by simp [Event.isLeaf]) hcc
    (by rw [htr])

theorem tyE_named (i : Nat) (c : Char) (hc : [c] = ([['a'], ['b'], ['c']].getD i [])) (hi : i < 3) :
    FirstNamed tyE.alts i () (tag c) := by
  match i, hi with
  | 0, _ =>
    simp at hc; subst hc
    exact ⟨⟨_, _, rfl, rfl, by decide⟩, fun j _ _ hj => by omega⟩
  | 1, _ =>
    simp at hc; subst hc
    refine ⟨⟨_, _, rfl, rfl, by decide⟩, fun j f w hj hf hw => ?_⟩
    match j, hj with
    | 0, _ => simp [tyE] at hf; subst hf; simp [leafField] at hw; subst hw; decide
  | 2, _ =>
    simp at hc; subst hc
    refine ⟨⟨_, _, rfl, rfl, by decide⟩, fun j f w hj hf hw => ?_⟩
    match j, hj with
    | 0, _ | 1, _ => simp [tyE] at hf; subst hf; simp [leafField] at hw; subst hw; decide

/-- Non-vacuity of `C12_choice_feeds`. -/
example : OneOf track tyE.alts 1 () itemsE ∧ valuesOf 1 itemsE ≠ [] ∧
    Allows 1 (.bounded 2) (valuesOf 1 itemsE).length := by
  have ch : ∀ s, charContent (fun _ => none) [.text s] = some s → trimAscii s = s →
      ∃ f e es t, tyE.alts[1]? = some f ∧ elem 'b' s = e :: es ∧ tagOf e = some t ∧
        FirstNamed tyE.alts 1 (track () e) t ∧ Feeds track f.de none () (elem 'b' s) (.txt s) :=
    fun s h1 h2 => ⟨_, _, _, _, rfl, rfl, rfl, tyE_named 1 'b' rfl (by omega), leaf_feeds _ _ h1 h2⟩
  refine ⟨⟨rfl, ch ['1'] (by decide) (by decide), rfl, rfl, ch ['2'] (by decide) (by decide),
    trivial⟩, by simp [valuesOf, itemsE], ⟨by simp [valuesOf, itemsE], ?_⟩⟩
  intro b hb; cases hb; simp [valuesOf, itemsE]

/-- Non-vacuity of `C12_choice_sound_partial` and `C12_missing_content`: `tyE` meets the
conditions (`tyE_strict`); the document above is accepted, children of two alternatives, two
children of a single alternative and no children are rejected. -/
example :
    verdict (Drv.run (genEnv track) tyE.de.toDeser { helper := () }
      (.start (tag 'r') :: (itemEvents itemsE ++ [.end_ ['r']]) ++ [.eof]))
      (.node [[.txt ['x']], [.txt ['1'], .txt ['2']]]) [.eof] = true ∧
    fails (Drv.run (genEnv track) tyE.de.toDeser { helper := () }
      [.start (tag 'r'), .empty (tag 'b'), .empty (tag 'a'), .end_ ['r']]) = true ∧
    fails (Drv.run (genEnv track) tyE.de.toDeser { helper := () }
      [.start (tag 'r'), .empty (tag 'a'), .empty (tag 'a'), .end_ ['r']]) = true ∧
    fails (Drv.run (genEnv track) tyE.de.toDeser { helper := () }
      [.start (tag 'r'), .end_ ['r']]) = true := by
  decide +kernel

/-- **C12, finding.** The upper bound of a repeated alternative is not enforced:
`<r><b/><b/><b/></r>` is accepted for `b{1..2}`. -/
theorem C12_maximum_not_enforced :
    StrictChoice tyE ∧
    verdict (Drv.run (genEnv track) tyE.de.toDeser { helper := () }
      [.start (tag 'r'), .empty (tag 'b'), .empty (tag 'b'), .empty (tag 'b'), .end_ ['r']])
      (.node [[.txt ['x']], [.txt [], .txt [], .txt []]]) [] = true ∧
    ¬ Allows 1 (.bounded 2) 3 := by
  refine ⟨tyE_strict, by decide +kernel, ?_⟩
  rintro ⟨_, h⟩
  have := h 2 rfl
  omega

/-! ## Repeated choices -/

/-- `choice(a, b, c?)` as a group. -/
def tyG : EnumTy Unit Str Val Val :=
  { tyE with
    alts := [leafField 'a' 1 (.bounded 1), leafField 'b' 1 (.bounded 1),
      leafField 'c' 0 (.bounded 1)]
    isElement := false }

/-- `r = choice(a, b, c?){1..3}` -/
def tyK : ContentTy Unit Unit (CPos Str Val Val) Val Val :=
  { content := { name := ['k'], want := none, min := 1, max := .bounded 3, de := tyG.de }
    ofTag := fun _ _ => .ok ()
    attrs0 := ()
    build := fun _ vs => .node [vs] }

/-- `<b>1</b> <a>2</a>` -/
def itemsK : List (Item Val) :=
  [.child 1 (elem 'b' ['1']) (.txt ['1']), .pad (.text [' ']),
   .child 0 (elem 'a' ['2']) (.txt ['2'])]

theorem tyG_named (i : Nat) (c : Char) (hc : [c] = ([['a'], ['b'], ['c']].getD i [])) (hi : i < 3) :
    FirstNamed tyG.alts i () (tag c) := by
  match i, hi with
  | 0, _ =>
    simp at hc; subst hc
    exact ⟨⟨_, _, rfl, rfl, by decide⟩, fun j _ _ hj => by omega⟩
  | 1, _ =>
    simp at hc; subst hc
    refine ⟨⟨_, _, rfl, rfl, by decide⟩, fun j f w hj hf hw => ?_⟩
    match j, hj with
    | 0, _ => simp [tyG] at hf; subst hf; simp [leafField] at hw; subst hw; decide
  | 2, _ =>
    simp at hc; subst hc
    refine ⟨⟨_, _, rfl, rfl, by decide⟩, fun j f w hj hf hw => ?_⟩
    match j, hj with
    | 0, _ | 1, _ => simp [tyG] at hf; subst hf; simp [leafField] at hw; subst hw; decide

/-- Non-vacuity of `C12_repeated_choice_feeds`. -/
example : ChoiceItems track tyG.alts () itemsK ∧
    (∀ f ∈ tyG.alts, f.want.isSome = true ∧ (f.occurs = .single ∨ f.occurs = .optional)) ∧
    Allows 1 (.bounded 3) (variantsOf tyG.build itemsK).length ∧
    variantsOf tyG.build itemsK
      = [.node [[.txt ['x']], [.txt ['1']]], .node [[.txt []], [.txt ['2']]]] := by
  refine ⟨⟨⟨_, _, _, _, rfl, rfl, rfl, tyG_named 1 'b' rfl (by omega),
      leaf_feeds 'b' ['1'] (by decide) (by decide)⟩, rfl,
    ⟨_, _, _, _, rfl, rfl, rfl, tyG_named 0 'a' rfl (by omega),
      leaf_feeds 'a' ['2'] (by decide) (by decide)⟩, trivial⟩, ?_, ⟨by decide, ?_⟩, rfl⟩
  · intro f hf
    simp [tyG] at hf
    rcases hf with rfl | rfl | rfl <;> simp [leafField, Field.occurs, fromOccurs]
  · intro b hb; cases hb; decide

example :
    verdict (Drv.run (genEnv track) tyK.de.toDeser { helper := () }
      (.start (tag 'r') :: (itemEvents itemsK ++ [.end_ ['r']]) ++ [.eof]))
      (.node [[.node [[.txt ['x']], [.txt ['1']]], .node [[.txt []], [.txt ['2']]]]]) [.eof] = true ∧
    fails (Drv.run (genEnv track) tyK.de.toDeser { helper := () }
      [.start (tag 'r'), .empty (tag 'b'), .empty (tag 'x'), .end_ ['r']]) = true := by
  decide +kernel

/-- Was a node with one field of `n` values read? -/
def countIs (n : Nat) (r : Run Unit S GErr Val) : Bool :=
  match r with
  | .done (.node [vs]) [] => vs.length == n
  | _ => false

/-- Did the run end in a panic? -/
def panics (r : Run Unit S GErr Val) : Bool :=
  match r with
  | .fail .panic _ => true
  | _ => false

/-- **C12, finding.** The bounds of a repeated choice are not enforced: four children and no
children are accepted for `choice(…){1..3}`. -/
theorem C12_repeated_bounds_not_enforced :
    countIs 4 (Drv.run (genEnv track) tyK.de.toDeser { helper := () }
      [.start (tag 'r'), .empty (tag 'b'), .empty (tag 'a'), .empty (tag 'b'), .empty (tag 'c'),
        .end_ ['r']]) = true ∧ ¬ Allows 1 (.bounded 3) 4 ∧
    countIs 0 (Drv.run (genEnv track) tyK.de.toDeser { helper := () }
      [.start (tag 'r'), .end_ ['r']]) = true ∧ ¬ Allows 1 (.bounded 3) 0 := by
  refine ⟨by decide +kernel, ?_, by decide +kernel, ?_⟩
  · rintro ⟨_, h⟩
    have := h 3 rfl
    omega
  · rintro ⟨h, _⟩
    omega

/-- `r = choice(a, b{1..2}){0..*}` -/
def tyKL : ContentTy Unit Unit (CPos Str Val Val) Val Val :=
  { tyK with
    content := { name := ['k'], want := none, min := 0, max := .unbounded,
                 de := ({ tyE with isElement := false } : EnumTy Unit Str Val Val).de } }

/-- Non-vacuity of `C12_content_in_order` and `C12_group_returns_end`: the children of a
repeated alternative are collected in one variant, in document order with the others. -/
example :
    verdict (Drv.run (genEnv track) tyKL.de.toDeser { helper := () }
      (.start (tag 'r') :: (elem 'b' ['1'] ++ elem 'a' ['2'] ++ elem 'b' ['3'] ++ elem 'b' ['4']
        ++ elem 'b' ['5'] ++ [.end_ ['r']])))
      (.node [[.node [[.txt ['x']], [.txt ['1']]], .node [[.txt []], [.txt ['2']]],
        .node [[.txt ['x']], [.txt ['3'], .txt ['4']]], .node [[.txt ['x']], [.txt ['5']]]]])
      [] = true := by
  decide +kernel

/-! ## Further findings -/

/-- `a = seq(z?)`, other elements are skipped. -/
def tyAny : SeqTy Unit Unit Str Val Val :=
  { (seqOf [leafField 'z' 0 (.bounded 1)]) with allowAny := true }

/-- `r = choice(a)`, with `a` as above. -/
def tyP : EnumTy Unit (SeqSt Unit Str Val) Val Val :=
  { alts := [{ name := ['a'], want := some (fun _ t => t.name == ['a']), min := 1,
                max := .bounded 1, allowAny := true, de := tyAny.de }]
    check := fun _ _ => .ok ()
    build := fun _ vs => .node [vs] }

/-- **C12, finding.** An element `<x/>` after the child of an alternative whose type allows
arbitrary elements: the deserializer is left in the state `Unknown__`, the driver skips the
element, and the next event makes the generated code panic (`unreachable!`). Without `<x/>` the
document is read. -/
theorem C12_skip_panics :
    panics (Drv.run (genEnv track) tyP.de.toDeser { helper := () }
      [.start (tag 'r'), .empty (tag 'a'), .empty (tag 'x'), .end_ ['r']]) = true ∧
    verdict (Drv.run (genEnv track) tyP.de.toDeser { helper := () }
      [.start (tag 'r'), .empty (tag 'a'), .end_ ['r']]) (.node [[.node [[]]]]) [] = true := by
  decide +kernel

/-- A dynamic type with one derived element. -/
def dyn (c : Char) : GDe Unit (Nat × Str) Val := dynDe [(fun _ t => t.name == [c], txt)]

def dynField (c : Char) (min : Nat) : Field Unit (Nat × Str) Val :=
  { name := [c], want := none, min, max := .bounded 1, de := dyn c }

/-- `r = choice(a, b)`, where `a` and `b` are heads of substitution groups. -/
def tyD : EnumTy Unit (Nat × Str) Val Val :=
  { alts := [dynField 'a' 1, dynField 'b' 1]
    check := fun _ _ => .ok ()
    build := fun i vs => .node [[.txt (List.replicate i 'x')], vs] }

/-- **C12, finding.** In a choice of two dynamic alternatives the second one is never read: the
valid document `<r><b/></r>` is rejected, `<r><a/></r>` is accepted. -/
theorem C12_second_dynamic_unreachable :
    fails (Drv.run (genEnv track) tyD.de.toDeser { helper := () }
      [.start (tag 'r'), .empty (tag 'b'), .end_ ['r']]) = true ∧
    verdict (Drv.run (genEnv track) tyD.de.toDeser { helper := () }
      [.start (tag 'r'), .empty (tag 'a'), .end_ ['r']]) (.node [[.txt []], [.txt []]]) [] = true := by
  decide +kernel

/-- `r = seq(a?, b)`, where `a` is the head of a substitution group. -/
def tyS : SeqTy Unit Unit (Nat × Str) Val Val :=
  { fields := [dynField 'a' 0, dynField 'b' 1]
    ofTag := fun _ _ => .ok (), attrs0 := (), build := fun _ vs => .node vs }

/-- **C09, finding.** An absent optional dynamic element: the valid document `<r><b/></r>` is
rejected, since the dynamic type does not hand on the tag it does not know. -/
theorem C09_optional_dynamic_rejected :
    fails (Drv.run (genEnv track) tyS.de.toDeser { helper := () }
      [.start (tag 'r'), .empty (tag 'b'), .end_ ['r']]) = true ∧
    verdict (Drv.run (genEnv track) tyS.de.toDeser { helper := () }
      [.start (tag 'r'), .empty (tag 'a'), .empty (tag 'b'), .end_ ['r']])
      (.node [[.txt []], [.txt []]]) [] = true := by
  decide +kernel

end Ex
end Verif.Gen

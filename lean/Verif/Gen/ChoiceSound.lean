import Verif.Gen.Choice

/-!
# What generated choice deserializers accept (C12)
-/

namespace Verif.Gen

open Verif.Rt Verif.Occurs

section
variable {H C V W : Type}

/-- The conditions on the type: only elements with simple content, nothing skipped, no default
values. -/
structure StrictChoice (T : EnumTy H C V W) : Prop where
  elem : T.isElement = true
  any : T.allowAny = false
  dflt : T.defaultable = false
  alt : ∀ f ∈ T.alts, f.want.isSome = true ∧ f.defaultable = false ∧ f.allowAny = false ∧
    f.max ≠ .bounded 0 ∧ Tame f.de

theorem storeAlt_inv {f : Field H C V} {vs vs' : List V} {v : V}
    (h : storeAlt f vs v = .ok vs') :
    vs' = vs ++ [v] ∧ (f.occurs = .single ∨ f.occurs = .optional → vs = []) := by
  unfold storeAlt at h
  split at h
  · next ho =>
    split at h
    · next he => cases h; exact ⟨rfl, fun _ => by simpa using he⟩
    · cases h
  · next ho =>
    split at h
    · next he => cases h; exact ⟨rfl, fun _ => by simpa using he⟩
    · cases h
  · next h1 h2 =>
    cases h
    exact ⟨rfl, fun h => h.elim (fun h => absurd h h1) (fun h => absurd h h2)⟩

theorem finishField_inv {f : Field H C V} {h : H} {vs vs' : List V} (hd : f.defaultable = false)
    (hok : finishField f h vs = .ok vs') :
    vs' = vs ∧ (f.occurs = .single → 1 ≤ vs.length) ∧
      (∀ n, f.occurs = .staticList n → vs.length = n) := by
  have h1 : finishFields h [f] [vs] = .ok [vs'] := by simp [finishFields, hok]
  obtain ⟨h2, h3⟩ := finishFields_inv h [f] [vs] [vs'] rfl (by simpa using hd) h1
  refine ⟨by simpa using h2, ?_⟩
  have := h3 0 f rfl
  simpa using this

theorem choice_handle_deser' (T : EnumTy H C V W) (f : Field H C V) (i : Nat) (h : H)
    (st : CPos C V W) (vs : List V) (c : C) {ev : DEvent} (q : ∀ e, ev ≠ .cont e) (a : Bool) :
    T.handle f i h st vs none ⟨.deser c, ev, a⟩ = .ok (.brk ev a, .at_ i vs none (some c)) := by
  have h1 : EHO.fromEvent ev a = .brk ev a := by
    cases ev with
    | cont e => exact absurd rfl (q e)
    | _ => rfl
  have h2 : T.breakOrEnd ev a = .brk ev a := by
    unfold EnumTy.breakOrEnd
    split
    · cases ev with
      | cont e => exact absurd rfl (q e)
      | _ => rfl
    · rfl
  simp only [EnumTy.handle, flushAlt]
  split
  · simp only [h1, h2, ite_self]
    rw [if_neg (by simp [EHO.isContStart])]
  · rw [h2]

/-- The end of a child in an element. -/
theorem choice_data_inv (T : EnumTy H C V W) (hT : T.isElement = true) (f : Field H C V)
    (i : Nat) (h : H) (vs : List V) (v : V) (a : Bool) (out : Output (CPos C V W) W)
    (hr : CRound.resume (T.loop h 3)
      (CRound.after (T.enter f i h vs none (.ok ⟨.data v, .none, a⟩))) = .ok out) :
    storeAlt f vs v = .ok (vs ++ [v]) ∧ out = ⟨.deser (.at_ i (vs ++ [v]) none none), .none, a⟩ := by
  simp only [EnumTy.enter, EnumTy.handle, flushAlt, hT, if_true] at hr
  cases hs : storeAlt f vs v with
  | error err => rw [hs] at hr; simp [CRound.after, CRound.resume] at hr
  | ok vs' =>
    rw [hs] at hr
    obtain ⟨rfl, _⟩ := storeAlt_inv hs
    simp only [EHO.fromEvent, CRound.after, CRound.stop, CRound.resume] at hr
    cases hr
    exact ⟨rfl, rfl⟩

/-- A running tame child goes on until its end tag. -/
theorem choice_running_child (track : H → Event → H) (T : EnumTy H C V W)
    (hT : T.isElement = true) (f : Field H C V) (i : Nat) (hf : T.alts[i]? = some f)
    (tm : Tame f.de) (vs : List V) (rest : List Event) (w : W) (evs : List Event) :
    ∀ (h : H) (c : C),
    Drv.run (genEnv track) T.de.toDeser
      { helper := h, deser := some (.at_ i vs none (some c)) } evs = .done w rest →
    ∃ evs1 evs2 v, evs = evs1 ++ evs2 ∧ evs1 ≠ [] ∧
      ReadChild.Consumes track f.de (some c) h evs1 v ∧ storeAlt f vs v = .ok (vs ++ [v]) ∧
      Drv.run (genEnv track) T.de.toDeser
        { helper := evs1.foldl track h, deser := some (.at_ i (vs ++ [v]) none none) }
        evs2 = .done w rest := by
  induction evs with
  | nil => intro h c hr; cases hr
  | cons e es ih =>
    intro h c hr
    obtain ⟨out, k, hcall, hleft, hres⟩ := run_cons_done (d := T.de) hr
    have hcall : T.next (.at_ i vs none (some c)) (track h e) e = .ok out := hcall
    unfold EnumTy.next at hcall
    simp only [EnumTy.loop, EnumTy.round, hf] at hcall
    cases hc : f.de.next c (track h e) e with
    | error err => rw [hc] at hcall; cases hcall
    | ok o =>
      rw [hc] at hcall
      obtain ⟨oa, oe, oany⟩ := o
      by_cases hend : ∃ n, e = .end_ n
      · obtain ⟨n, rfl⟩ := hend
        obtain ⟨⟨v, hv⟩, he⟩ := tm.end_ c _ n _ hc
        simp only at hv he
        subst hv; subst he
        obtain ⟨hs, rfl⟩ := choice_data_inv T hT f i _ vs v oany out hcall
        rcases hres with ⟨h1, _⟩ | ⟨_, h1⟩
        · cases h1
        · have hk : k = none := by
            simp [DEvent.event, leftover] at hleft; exact hleft.symm
          subst hk
          exact ⟨[.end_ n], es, v, rfl, by simp, ⟨_, hc, Or.inl ⟨rfl, rfl, rfl⟩⟩, hs, h1⟩
      · have hne : ∀ n, e ≠ .end_ n := fun n hn => hend ⟨n, hn⟩
        obtain ⟨⟨c', hc'⟩, hev⟩ := tm.other c _ e _ hc hne
        simp only at hc' hev
        subst hc'
        have hq : ∀ e, oe ≠ .cont e := by
          rcases hev with ⟨h1, _⟩ | ⟨h1, _⟩ <;> rw [h1] <;> simp
        simp only [EnumTy.enter, choice_handle_deser' T f i _ _ vs c' hq oany, CRound.after,
          CRound.stop, CRound.resume] at hcall
        cases hcall
        have hig : (oe = .none ∨ Ignored e = true) ∧ k = none := by
          rcases hev with ⟨h1, _⟩ | ⟨h1, h2⟩
          · rw [h1] at hleft
            simp [DEvent.event, leftover] at hleft
            exact ⟨Or.inl h1, hleft.symm⟩
          · rw [h1, h2] at hleft
            obtain ⟨h3, h4⟩ := leftover_ignored (e := e) hleft
            exact ⟨Or.inr h3, h4⟩
        obtain ⟨hig, rfl⟩ := hig
        rcases hres with ⟨h1, _⟩ | ⟨_, h1⟩
        · cases h1
        · obtain ⟨evs1, evs2, v, he, _, hcs, hs, hrun⟩ := ih (track h e) c' h1
          refine ⟨e :: evs1, evs2, v, by rw [he]; rfl, by simp, ?_, hs, hrun⟩
          exact ⟨_, hc, Or.inr ⟨c', rfl, hig, hcs⟩⟩

/-- A child of alternative `i` begins at a tag. -/
theorem choice_begin (track : H → Event → H) (T : EnumTy H C V W) (st : StrictChoice T)
    (f : Field H C V) (i : Nat) (hf : T.alts[i]? = some f) (want : H → Tag → Bool)
    (hw : f.want = some want) (vs : List V) (rest : List Event) (w : W) (h : H) (e : Event)
    (t : Tag) (he : tagOf e = some t) (hwt : want (track h e) t = true) (es : List Event)
    (out : Output (CPos C V W) W) (k : Option Nat)
    (hleft : leftover none out.event.event out.allowAny = some k)
    (hres : (out.artifact = .data w ∧ rest = es) ∨
       ((∀ v, out.artifact ≠ .data v) ∧
        Drv.run (genEnv track) T.de.toDeser
          { helper := track h e, deser := out.artifact.deserOf, skip := k } es = .done w rest))
    (hcall : CRound.resume (T.loop (track h e) 3)
      (CRound.after (T.enter f i (track h e) vs none (f.de.init (track h e) e))) = .ok out) :
    ∃ evs1 evs2 v, e :: es = evs1 ++ evs2 ∧ evs1 ≠ [] ∧ ReadChild track T.alts h i evs1 v ∧
      storeAlt f vs v = .ok (vs ++ [v]) ∧
      Drv.run (genEnv track) T.de.toDeser
        { helper := evs1.foldl track h, deser := some (.at_ i (vs ++ [v]) none none) }
        evs2 = .done w rest := by
  have tm : Tame f.de := (st.alt f (List.mem_of_getElem? hf)).2.2.2.2
  cases hi : f.de.init (track h e) e with
  | error err => rw [hi] at hcall; cases hcall
  | ok o =>
    rw [hi] at hcall
    obtain ⟨oa, oe, oany⟩ := o
    cases e with
    | start t' =>
      obtain ⟨⟨c, hc⟩, hn⟩ := tm.start _ t' _ hi
      simp only at hc hn
      subst hc; subst hn
      simp only [EnumTy.enter, choice_handle_deser T f i _ _ vs c (e := .start t') (Or.inl rfl) oany,
        CRound.after, CRound.stop, CRound.resume] at hcall
      cases hcall
      have hk : k = none := by simp [DEvent.event, leftover] at hleft; exact hleft.symm
      subst hk
      rcases hres with ⟨hx, _⟩ | ⟨_, hx⟩
      · cases hx
      · obtain ⟨evs1, evs2, v, hev, hne, hcs, hs, hrun⟩ :=
          choice_running_child track T st.elem f i hf tm vs rest w es _ c hx
        exact ⟨.start t' :: evs1, evs2, v, by rw [hev]; rfl, by simp,
          ⟨f, _, evs1, t, want, hf, rfl, he, hw, hwt, _, hi, Or.inr ⟨c, rfl, Or.inl rfl, hcs⟩⟩,
          hs, hrun⟩
    | empty t' =>
      obtain ⟨⟨v, hc⟩, hn⟩ := tm.empty _ t' _ hi
      simp only at hc hn
      subst hc; subst hn
      obtain ⟨hs, rfl⟩ := choice_data_inv T st.elem f i _ vs v oany out hcall
      have hk : k = none := by simp [DEvent.event, leftover] at hleft; exact hleft.symm
      subst hk
      rcases hres with ⟨hx, _⟩ | ⟨_, hx⟩
      · cases hx
      · exact ⟨[.empty t'], es, v, rfl, by simp,
          ⟨f, _, [], t, want, hf, rfl, he, hw, hwt, _, hi, Or.inl ⟨rfl, rfl, rfl⟩⟩, hs, hx⟩
    | _ => simp [tagOf] at he

/-- What an accepted content looks like, given the values collected so far. -/
structure ReadAlt (track : H → Event → H) (T : EnumTy H C V W) (i : Nat) (f : Field H C V)
    (vs : List V) (h : H) (items : List (Item V)) (w : W) : Prop where
  read : ItemsRead track T.alts h items
  one : ∀ j ∈ childFields items, j = i
  upper : f.occurs = .single ∨ f.occurs = .optional → valuesOf i items ≠ [] →
    (vs ++ valuesOf i items).length ≤ 1
  exact_ : ∀ n, f.occurs = .staticList n → (vs ++ valuesOf i items).length = n
  value : w = T.build i (vs ++ valuesOf i items)

/-- Everything read after the first child. -/
theorem choice_run_sound (track : H → Event → H) (T : EnumTy H C V W) (st : StrictChoice T)
    (f : Field H C V) (i : Nat) (hf : T.alts[i]? = some f) (w : W) (rest : List Event) (n : Nat) :
    ∀ (evs : List Event) (vs : List V) (h : H), evs.length ≤ n → vs ≠ [] →
    Drv.run (genEnv track) T.de.toDeser
      { helper := h, deser := some (.at_ i vs none none) } evs = .done w rest →
    ∃ items m, evs = itemEvents items ++ .end_ m :: rest ∧ ReadAlt track T i f vs h items w := by
  induction n with
  | zero =>
    intro evs vs h hn _ hr
    have : evs = [] := List.eq_nil_of_length_eq_zero (by omega)
    subst this
    cases hr
  | succ n ih =>
    intro evs vs h hn hvs hr
    obtain ⟨hws, hd, hany, h0, tm⟩ := st.alt f (List.mem_of_getElem? hf)
    obtain ⟨want, hw⟩ := Option.isSome_iff_exists.mp hws
    cases evs with
    | nil => cases hr
    | cons e es =>
      simp only [List.length_cons] at hn
      obtain ⟨out, k, hcall, hleft, hres⟩ := run_cons_done (d := T.de) hr
      have hcall : T.next (.at_ i vs none none) (track h e) e = .ok out := hcall
      unfold EnumTy.next at hcall
      simp only [EnumTy.loop] at hcall
      cases ht : tagOf e with
      | some t =>
        have hround : T.round (track h e) e (.at_ i vs none none)
            = CRound.after (T.enter f i (track h e) vs none (f.create false (track h e) e)) := by
          unfold EnumTy.round
          cases e <;> simp [tagOf] at ht <;> simp only [tagOf, hf]
        rw [hround] at hcall
        by_cases hm : want (track h e) t = true
        · have hcr : f.create false (track h e) e = f.de.init (track h e) e := by
            simp [Field.create, hw, initStartTag, ht, hm]
          rw [hcr] at hcall
          obtain ⟨evs1, evs2, v, hsplit, hne, hrc, hs, hrun⟩ :=
            choice_begin track T st f i hf want hw vs rest w h e t ht hm es out k hleft hres hcall
          obtain ⟨_, hempty⟩ := storeAlt_inv hs
          have hlen2 : evs2.length ≤ n := by
            have h1 := congrArg List.length hsplit
            simp only [List.length_cons, List.length_append] at h1
            have := List.length_pos_iff.mpr hne
            omega
          obtain ⟨items, m, hev, ra⟩ := ih evs2 (vs ++ [v]) _ hlen2 (by simp) hrun
          have hv : valuesOf i (.child i evs1 v :: items) = v :: valuesOf i items := by
            simp [valuesOf]
          have happ : vs ++ v :: valuesOf i items = (vs ++ [v]) ++ valuesOf i items := by simp
          refine ⟨.child i evs1 v :: items, m, ?_, ⟨hrc, ra.read⟩, ?_, ?_, ?_, ?_⟩
          · rw [hsplit, hev]; simp [itemEvents, Item.events]
          · intro j hj
            have hcf : childFields (.child i evs1 v :: items) = i :: childFields items := rfl
            rw [hcf, List.mem_cons] at hj
            rcases hj with rfl | hj
            · rfl
            · exact ra.one j hj
          · intro ho _
            exact absurd (hempty ho) hvs
          · intro q hq
            rw [hv, happ]; exact ra.exact_ q hq
          · rw [hv, happ]; exact ra.value
        · exfalso
          have hm : want (track h e) t = false := by simpa using hm
          have hcr : f.create false (track h e) e = .ok ⟨.none, .cont e, false⟩ := by
            simp [Field.create, hw, initStartTag, ht, hm, hany]
          have hfee : ∀ a, EHO.fromEventEnd (.cont e) a = .brk (.cont e) a := by
            intro a; cases e <;> simp [tagOf] at ht <;> rfl
          have hvs' : vs.isEmpty = false := by
            cases vs with
            | nil => exact absurd rfl hvs
            | cons => rfl
          have hnoteq : (out.event = .brk e ∨ out.event = .cont e) ∧ out.allowAny = false := by
            have hh : ∃ ev st', T.handle f i (track h e) .unknown vs none ⟨.none, .cont e, false⟩
                = .ok (.brk ev false, st') ∧ (ev = .brk e ∨ ev = .cont e) ∧ ∀ w, st' ≠ .done w := by
              simp only [EnumTy.handle, EnumTy.handleNone, contOrReturn, hw, EHO.toRoot, intoBreak,
                EnumTy.breakOrEnd, st.elem, hfee, hvs', Bool.and_false, Bool.false_eq_true,
                if_false, if_true, Option.isNone_some, Option.isSome_none, Nat.add_zero]
              split
              · split
                · exact ⟨_, _, rfl, Or.inl rfl, by simp⟩
                · exact ⟨_, _, rfl, Or.inr rfl, by simp⟩
              · exact ⟨_, _, rfl, Or.inl rfl, by simp⟩
            obtain ⟨ev, st', hh, hev, hd⟩ := hh
            rw [hcr] at hcall
            simp only [EnumTy.enter, hh, CRound.after] at hcall
            cases st' with
            | done w => exact absurd rfl (hd w)
            | _ =>
              simp only [CRound.stop, CRound.resume] at hcall
              cases hcall
              exact ⟨hev, rfl⟩
          obtain ⟨h1, h2⟩ := hnoteq
          have hig : Ignored e = true := by
            rcases h1 with h1 | h1 <;> rw [h1, h2] at hleft <;> exact (leftover_ignored hleft).1
          cases e <;> simp [tagOf] at ht <;> simp [Ignored, Padding] at hig
      | none =>
        by_cases hend : ∃ m, e = .end_ m
        · obtain ⟨m, rfl⟩ := hend
          simp only [EnumTy.round, EnumTy.atEnd, EnumTy.finishState, hf, flushAlt] at hcall
          cases hff : finishField f (track h (.end_ m)) vs with
          | error err => rw [hff] at hcall; simp [Except.map, CRound.resume] at hcall
          | ok vs' =>
            rw [hff] at hcall
            simp only [Except.map, st.elem, if_true, CRound.resume, Except.ok.injEq] at hcall
            subst hcall
            obtain ⟨rfl, hsingle, hstatic⟩ := finishField_inv hd hff
            rcases hres with ⟨h1, h2⟩ | ⟨h1, _⟩
            · simp only [Artifact.data.injEq] at h1
              subst h2
              refine ⟨[], m, rfl, trivial, by simp [childFields], by simp [valuesOf], ?_, ?_⟩
              · intro q hq; simpa [valuesOf] using hstatic q hq
              · rw [← h1]; simp [valuesOf]
            · exact absurd rfl (h1 _)
        · have hround : T.round (track h e) e (.at_ i vs none none)
              = .ok (.ret ⟨.deser (.at_ i vs none none), .cont e, false⟩) := by
            unfold EnumTy.round
            cases e <;> first | (simp [tagOf] at ht; done) | rfl | (exact absurd ⟨_, rfl⟩ hend)
          rw [hround] at hcall
          cases hcall
          obtain ⟨hig, rfl⟩ := leftover_ignored (e := e) hleft
          rcases hres with ⟨h4, _⟩ | ⟨_, h4⟩
          · cases h4
          · obtain ⟨items, m, hev, ra⟩ := ih es vs (track h e) (by omega) hvs h4
            exact ⟨.pad e :: items, m, by rw [hev]; rfl,
              ⟨hig, ra.read⟩, ra.one, ra.upper, ra.exact_, ra.value⟩

theorem findAlt_some {h : H} {t : Tag} {alts : List (Field H C V)} {i k : Nat} {f : Field H C V}
    (hf : findAlt h t alts k = some (i, f)) :
    k ≤ i ∧ alts[i - k]? = some f ∧ FirstNamed alts (i - k) h t := by
  induction alts generalizing k with
  | nil => simp [findAlt] at hf
  | cons g alts ih =>
    simp only [findAlt] at hf
    have step : findAlt h t alts (k + 1) = some (i, f) →
        (∀ want, g.want = some want → want h t = false) →
        k ≤ i ∧ (g :: alts)[i - k]? = some f ∧ FirstNamed (g :: alts) (i - k) h t := by
      intro hr hg
      obtain ⟨h1, h2, ⟨f', want, h3, h4, h5⟩, h6⟩ := ih hr
      have hik : i - k = (i - (k + 1)) + 1 := by omega
      rw [hik]
      refine ⟨by omega, by simpa using h2, ⟨f', want, by simpa using h3, h4, h5⟩, ?_⟩
      intro j f'' want' hj hjf hjw
      cases j with
      | zero => simp at hjf; subst hjf; exact hg _ hjw
      | succ j => exact h6 j f'' want' (by omega) (by simpa using hjf) hjw
    cases hg : g.want with
    | none => rw [hg] at hf; exact step hf (by simp [hg])
    | some want =>
      rw [hg] at hf
      simp only at hf
      by_cases hw : want h t = true
      · rw [if_pos hw] at hf
        simp only [Option.some.injEq, Prod.mk.injEq] at hf
        obtain ⟨rfl, rfl⟩ := hf
        rw [Nat.sub_self]
        exact ⟨Nat.le_refl _, rfl, ⟨g, want, rfl, hg, hw⟩, fun j _ _ hj => absurd hj (by omega)⟩
      · rw [if_neg hw] at hf
        refine step hf ?_
        intro want' hw'
        rw [hg] at hw'
        cases hw'
        simpa using hw

theorem findGroups_elements (T : EnumTy H C V W) (h : H) (e : Event) (any : Bool)
    (st : CPos C V W) (fs : List (Field H C V)) (hfs : ∀ f ∈ fs, f.want.isSome = true) (i : Nat) :
    T.findGroups h fs i e any st = .ok (.toParent e (T.allowAny || any), .init) := by
  induction fs generalizing i with
  | nil => rfl
  | cons f fs ih =>
    simp only [EnumTy.findGroups, hfs f (by simp), if_true]
    exact ih (fun f hf => hfs f (by simp [hf])) (i + 1)

/-- The children before the first one. -/
theorem choice_run_first (track : H → Event → H) (T : EnumTy H C V W) (st : StrictChoice T)
    (w : W) (rest : List Event) (evs : List Event) :
    ∀ (h : H),
    Drv.run (genEnv track) T.de.toDeser { helper := h, deser := some .init } evs = .done w rest →
    ∃ i f items m, T.alts[i]? = some f ∧ evs = itemEvents items ++ .end_ m :: rest ∧
      valuesOf i items ≠ [] ∧ ReadAlt track T i f [] h items w := by
  induction evs with
  | nil => intro h hr; cases hr
  | cons e es ih =>
    intro h hr
    obtain ⟨out, k, hcall, hleft, hres⟩ := run_cons_done (d := T.de) hr
    have hcall : T.next .init (track h e) e = .ok out := hcall
    unfold EnumTy.next at hcall
    simp only [EnumTy.loop] at hcall
    cases ht : tagOf e with
    | some t =>
      have hround : T.round (track h e) e .init = CRound.after (T.findSuitable (track h e) e) := by
        unfold EnumTy.round
        cases e <;> simp [tagOf] at ht <;> rfl
      rw [hround] at hcall
      simp only [EnumTy.findSuitable, ht] at hcall
      cases hfa : findAlt (track h e) t T.alts 0 with
      | some p =>
        obtain ⟨i, f⟩ := p
        rw [hfa] at hcall
        obtain ⟨_, hf, ⟨f', want, hf', hw, hwt⟩, hfirst⟩ := findAlt_some hfa
        rw [Nat.sub_zero] at hf hf'
        have : f' = f := by rw [hf] at hf'; simpa using hf'.symm
        subst this
        obtain ⟨evs1, evs2, v, hsplit, hne, hrc, hs, hrun⟩ :=
          choice_begin track T st f' i hf want hw [] rest w h e t ht hwt es out k hleft hres hcall
        obtain ⟨items, m, hev, ra⟩ := choice_run_sound track T st f' i hf w rest evs2.length evs2
          ([] ++ [v]) _ (Nat.le_refl _) (by simp) hrun
        have hv : valuesOf i (.child i evs1 v :: items) = v :: valuesOf i items := by
          simp [valuesOf]
        refine ⟨i, f', .child i evs1 v :: items, m, hf, ?_, by rw [hv]; simp,
          ⟨hrc, ra.read⟩, ?_, ?_, ?_, ?_⟩
        · rw [hsplit, hev]; simp [itemEvents, Item.events]
        · intro j hj
          have hcf : childFields (.child i evs1 v :: items) = i :: childFields items := rfl
          rw [hcf, List.mem_cons] at hj
          rcases hj with rfl | hj
          · rfl
          · exact ra.one j hj
        · intro ho _
          rw [hv]
          cases hvi : valuesOf i items with
          | nil => simp
          | cons a b =>
            have := ra.upper ho (by rw [hvi]; simp)
            rw [hvi] at this; simp at this
        · intro q hq
          rw [hv]; exact ra.exact_ q hq
        · rw [hv]; exact ra.value
      | none =>
        exfalso
        rw [hfa] at hcall
        simp only [findGroups_elements T _ e false .unknown T.alts
          (fun f hf => (st.alt f hf).1) 0, EHO.toParent, CRound.after, CRound.stop, st.any,
          CRound.resume] at hcall
        cases hcall
        have hig := (leftover_ignored (e := e) hleft).1
        cases e <;> simp [tagOf] at ht <;> simp [Ignored, Padding] at hig
    | none =>
      by_cases hend : ∃ m, e = .end_ m
      · obtain ⟨m, rfl⟩ := hend
        simp only [EnumTy.round, EnumTy.atEnd, EnumTy.finishState, st.dflt] at hcall
        cases hcall
      · have hround : T.round (track h e) e .init
            = .ok (.ret ⟨.deser .init, .cont e, false⟩) := by
          unfold EnumTy.round
          cases e <;> first
            | (simp [tagOf] at ht; done)
            | (exact absurd ⟨_, rfl⟩ hend)
            | (simp [EnumTy.findSuitable, tagOf, CRound.after, CRound.stop, EHO.toParent, st.any]; done)
        rw [hround] at hcall
        cases hcall
        obtain ⟨hig, rfl⟩ := leftover_ignored (e := e) hleft
        rcases hres with ⟨h4, _⟩ | ⟨_, h4⟩
        · cases h4
        · obtain ⟨i, f, items, m, hf, hev, hne, ra⟩ := ih (track h e) h4
          exact ⟨i, f, .pad e :: items, m, hf, by rw [hev]; rfl, hne,
            ⟨hig, ra.read⟩, ra.one, ra.upper, ra.exact_, ra.value⟩

/-- **C12** (partial). If the alternatives have simple content and the deserializer returns a
value after the start tag `t`, then the events read are ignored content and children of *one*
alternative, at least one, each an element with the name of the alternative that its type
reads; the value is the variant of that alternative with exactly the values of the children;
there is exactly one child if the alternative is a single element and exactly `N` if it is a
fixed-size array. In particular children of two alternatives and missing content are rejected.

Missing from the full property, and false: the bounds of repeated alternatives
(`C12_maximum_not_enforced`). -/
theorem C12_choice_sound_partial (track : H → Event → H) (T : EnumTy H C V W)
    (st : StrictChoice T) (h : H) (t : Tag) (evs rest : List Event) (w : W)
    (hr : Drv.run (genEnv track) T.de.toDeser { helper := h } (.start t :: evs) = .done w rest) :
    ∃ i f items n, T.check (track h (.start t)) t = .ok () ∧ T.alts[i]? = some f ∧
      evs = itemEvents items ++ .end_ n :: rest ∧
      ItemsRead track T.alts (track h (.start t)) items ∧
      (∀ j ∈ childFields items, j = i) ∧ valuesOf i items ≠ [] ∧
      (f.occurs = .single ∨ f.occurs = .optional → (valuesOf i items).length = 1) ∧
      (∀ n, f.occurs = .staticList n → (valuesOf i items).length = n) ∧
      w = T.build i (valuesOf i items) := by
  obtain ⟨out, k, hcall, hleft, hres⟩ := run_cons_done (d := T.de) hr
  have hcall : T.init (track h (.start t)) (.start t) = .ok out := hcall
  simp only [EnumTy.init, st.elem, if_true, initFromStart] at hcall
  cases ha : T.check (track h (.start t)) t with
  | error err => rw [ha] at hcall; simp [Except.map] at hcall
  | ok a =>
    rw [ha] at hcall
    simp only [Except.map, Except.ok.injEq] at hcall
    subst hcall
    have hk : k = none := by simp [DEvent.event, leftover] at hleft; exact hleft.symm
    subst hk
    rcases hres with ⟨h1, _⟩ | ⟨_, h1⟩
    · cases h1
    · obtain ⟨i, f, items, n, hf, hev, hne, ra⟩ := choice_run_first track T st w rest evs _ h1
      refine ⟨i, f, items, n, rfl, hf, hev, ra.read, ra.one, hne, ?_, ?_, ra.value⟩
      · intro ho
        have := ra.upper ho hne
        have := List.length_pos_iff.mpr hne
        simp only [List.nil_append] at *
        omega
      · intro q hq; exact ra.exact_ q hq

/-- **C12.** Missing content is an error: between the tags there is only padding, or the
element is written `<t/>`. -/
theorem C12_missing_content (track : H → Event → H) (T : EnumTy H C V W)
    (hT : T.isElement = true) (hd : T.defaultable = false) (h : H) (t : Tag)
    (pads : List Event) (hp : ∀ e ∈ pads, Padding e = true) (rest : List Event) :
    (∀ (hc : T.check (track h (.start t)) t = .ok ()),
      Drv.run (genEnv track) T.de.toDeser { helper := h }
        (.start t :: (pads ++ .end_ t.name :: rest)) = .fail .missingContent rest) ∧
    (∀ (hc : T.check (track h (.empty t)) t = .ok ()),
      Drv.run (genEnv track) T.de.toDeser { helper := h } (.empty t :: rest)
        = .fail .missingContent rest) := by
  constructor
  · intro hc
    have hi : callDeser T.de.toDeser none (track h (.start t)) (.start t)
        = .ok (⟨.deser .init, .none, false⟩, track h (.start t)) := by
      show (T.init _ _).map _ = _
      simp [EnumTy.init, hT, initFromStart, hc, Except.map]
      rfl
    simp only [Drv.run, Drv.handleEvent, handleSkip, genEnv, hi, DEvent.event, leftover,
      Artifact.dataOf, Artifact.deserOf]
    generalize track h (.start t) = h'
    induction pads generalizing h' with
    | nil =>
      have : callDeser T.de.toDeser (some .init) (track h' (.end_ t.name)) (.end_ t.name)
          = .error .missingContent := by
        show (T.next _ _ _).map _ = _
        simp [EnumTy.next, EnumTy.loop, EnumTy.round, EnumTy.atEnd, EnumTy.finishState, hd,
          Except.map, CRound.resume]
        rfl
      simp only [List.nil_append, Drv.run, Drv.handleEvent, handleSkip, this]
    | cons e es ih =>
      have he := hp e (by simp)
      obtain ⟨a, hn⟩ := choice_next_padding T 0 [] .init (Or.inl ⟨rfl, rfl⟩) (track h' e) e he
      have : callDeser T.de.toDeser (some .init) (track h' e) e
          = .ok (⟨.deser .init, .cont e, a⟩, track h' e) := by
        show (T.next _ _ _).map _ = _
        rw [hn]; rfl
      have hl := leftover_quiet (e := e) (ev := .cont e) (Or.inr ⟨he, Or.inr rfl⟩) a
      simp only [List.cons_append, Drv.run, Drv.handleEvent, handleSkip, this, hl,
        Artifact.dataOf, Artifact.deserOf]
      exact ih (fun e' he' => hp e' (by simp [he'])) (track h' e)
  · intro hc
    have hi : callDeser T.de.toDeser none (track h (.empty t)) (.empty t)
        = .error .missingContent := by
      show (T.init _ _).map _ = _
      simp [EnumTy.init, hT, initFromStart, hc, Except.map, EnumTy.finish, EnumTy.finishState, hd]
      rfl
    simp only [Drv.run, Drv.handleEvent, handleSkip, genEnv, hi]

end
end Verif.Gen

import Verif.Gen.Tables

/-!
# Generated deserializers always end (C03)

Every call of a generated deserializer returns, and at the end of the file it hands the event back
and allows nothing, so that the driver stops. This holds for every list of events, also for those
of broken or truncated documents.
-/

namespace Verif.Gen

open Verif.Rt Verif.Occurs

section
variable {H A C V W : Type}

/-- The result is not that of an endless loop. -/
def Live {α : Type} (r : Except GErr α) : Prop := r ≠ .error .diverged

/-- What makes loops around a deserializer end. -/
structure GDe.Ends (d : GDe H C V) : Prop where
  /-- only the event that was given is handed on -/
  same : ∀ st h e out, d.call st h e = .ok out → ∀ x, out.event = .cont x → x = e
  /-- what has been begun with an event does not hand it on -/
  tidy : ∀ h e out, (∀ n, e ≠ .end_ n) → d.init h e = .ok out → out.artifact ≠ .none →
    ∀ x, out.event ≠ .cont x
  /-- an end tag is only handed on with a value -/
  ended : ∀ c h n out, d.next c h (.end_ n) = .ok out → ∀ x, out.event = .cont x →
    ∃ v, out.artifact = .data v
  /-- the end of the file is handed back -/
  eof : ∀ st h out, d.call st h .eof = .ok out → out.event.event = some .eof ∧ out.allowAny = false
  live : ∀ st h e, Live (d.call st h e)
  fin : ∀ c h, Live (d.finish c h)

/-- A field of a type that ends. -/
structure Field.Ends (f : Field H C V) : Prop where
  de : f.de.Ends
  dflt : ∀ h, Live (f.dflt h)
  any : f.allowAny = false

/-! ## Values -/

theorem live_ok {α : Type} (a : α) : Live (.ok a : Except GErr α) := by intro h; cases h

theorem live_map {α β : Type} {r : Except GErr α} (h : Live r) (f : α → β) : Live (r.map f) := by
  cases r with
  | error e => intro h'; apply h; simp only [Except.map, Except.error.injEq] at h'; rw [h']
  | ok a => exact live_ok _

theorem live_err {e : GErr} {α : Type} (h : e ≠ .diverged) : Live (.error e : Except GErr α) := by
  intro h'; exact h (by cases h'; rfl)

theorem fillDefault_live {f : Field H C V} (hf : f.Ends) (h : H) : ∀ n vs, Live (fillDefault f h n vs) := by
  intro n
  induction n with
  | zero => intro vs; exact live_ok _
  | succ n ih =>
    intro vs
    unfold fillDefault
    cases hd : f.dflt h with
    | error e => exact live_err fun he => hf.dflt h (by rw [hd, he])
    | ok v => exact ih _

theorem finishField_live {f : Field H C V} (hf : f.Ends) (h : H) (vs : List V) :
    Live (finishField f h vs) := by
  unfold finishField
  split
  · exact live_err (by simp)
  · split
    · exact fillDefault_live hf h _ _
    · split
      · exact live_err (by simp)
      · exact live_ok _
  · exact live_ok _
  · split
    · exact live_ok _
    · split
      · exact fillDefault_live hf h _ _
      · split
        · exact live_err (by simp)
        · exact live_ok _
  · next n _ =>
    split
    · have := fillDefault_live hf h (n - vs.length) vs
      cases hd : fillDefault f h (n - vs.length) vs with
      | error e => exact live_err fun he => this (by rw [hd, he])
      | ok v =>
        simp only
        split
        · exact live_ok _
        · exact live_err (by simp)
    · split
      · exact live_ok _
      · exact live_err (by simp)

theorem finishFields_live (h : H) : ∀ (fs : List (Field H C V)) (vals : List (List V)),
    (∀ f ∈ fs, f.Ends) → Live (finishFields h fs vals) := by
  intro fs
  induction fs with
  | nil => intro vals _; exact live_ok _
  | cons f fs ih =>
    intro vals hf
    unfold finishFields
    have h1 := finishField_live (hf f List.mem_cons_self) h (vals.headD [])
    have h2 := ih vals.tail fun g hg => hf g (List.mem_cons_of_mem _ hg)
    cases hd : finishField f h (vals.headD []) with
    | error e => exact live_err fun he => h1 (by rw [hd, he])
    | ok v =>
      simp only
      cases hd' : finishFields h fs vals.tail with
      | error e => exact live_err fun he => h2 (by rw [hd', he])
      | ok v => exact live_ok _

/-! ## Elements -/

theorem initFromStart_live {f : H → Tag → Except GErr C} {fin : C → H → Except GErr V}
    (hf : ∀ h t, Live (f h t)) (hfin : ∀ c h, Live (fin c h)) (h : H) (e : Event) :
    Live (initFromStart f fin h e) := by
  unfold initFromStart
  split
  · next t =>
    have := hf h t
    cases hd : f h t with
    | error e => exact live_err fun he => this (by rw [hd, he])
    | ok c => exact live_ok _
  · next t =>
    have := hf h t
    cases hd : f h t with
    | error e => exact live_err fun he => this (by rw [hd, he])
    | ok c =>
      have := hfin c h
      simp only
      cases hd : fin c h with
      | error e => exact live_err fun he => this (by rw [hd, he])
      | ok v => exact live_ok _
  · exact live_ok _

/-- The three things about `init` that hold for every element. -/
theorem initFromStart_out {f : H → Tag → Except GErr C} {fin : C → H → Except GErr V} {h : H}
    {e : Event} {out : Output C V} (ho : initFromStart f fin h e = .ok out) :
    out.allowAny = false ∧ ((out.artifact = .none ∧ out.event = .cont e) ∨ (out.event = .none ∧ e ≠ .eof)) := by
  unfold initFromStart at ho
  split at ho
  · next t =>
    cases hd : f h t with
    | error e => rw [hd] at ho; cases ho
    | ok c => rw [hd] at ho; cases ho; exact ⟨rfl, .inr ⟨rfl, by simp⟩⟩
  · next t =>
    cases hd : f h t with
    | error e => rw [hd] at ho; cases ho
    | ok c =>
      rw [hd] at ho
      simp only at ho
      cases hd : fin c h with
      | error e => rw [hd] at ho; cases ho
      | ok v => rw [hd] at ho; cases ho; exact ⟨rfl, .inr ⟨rfl, by simp⟩⟩
  · cases ho; exact ⟨rfl, .inl ⟨rfl, rfl⟩⟩

/-- A deserializer whose `init` is that of elements. -/
theorem ends_of_element {d : GDe H C V} {f : H → Tag → Except GErr C} {fin : C → H → Except GErr V}
    (hi : ∀ h e, d.init h e = initFromStart f fin h e)
    (hf : ∀ h t, Live (f h t)) (hfin : ∀ c h, Live (fin c h)) (hd : ∀ c h, Live (d.finish c h))
    (same : ∀ c h e out, d.next c h e = .ok out → ∀ x, out.event = .cont x → x = e)
    (ended : ∀ c h n out, d.next c h (.end_ n) = .ok out → ∀ x, out.event = .cont x →
      ∃ v, out.artifact = .data v)
    (eof : ∀ c h out, d.next c h .eof = .ok out → out.event.event = some .eof ∧ out.allowAny = false)
    (live : ∀ c h e, Live (d.next c h e)) : d.Ends where
  same := by
    intro st h e out ho x hx
    cases st with
    | some c => exact same c h e out ho x hx
    | none =>
      simp only [GDe.call, hi] at ho
      obtain ⟨-, ⟨-, h1⟩ | ⟨h1, -⟩⟩ := initFromStart_out ho
      · rw [h1] at hx; cases hx; rfl
      · rw [h1] at hx; cases hx
  tidy := by
    intro h e out _ ho hn x hx
    rw [hi] at ho
    obtain ⟨-, ⟨h0, -⟩ | ⟨h1, -⟩⟩ := initFromStart_out ho
    · exact hn h0
    · rw [h1] at hx; cases hx
  ended := ended
  eof := by
    intro st h out ho
    cases st with
    | some c => exact eof c h out ho
    | none =>
      simp only [GDe.call, hi] at ho
      obtain ⟨h0, ⟨-, h1⟩ | ⟨-, h1⟩⟩ := initFromStart_out ho
      · exact ⟨by rw [h1]; rfl, h0⟩
      · exact absurd rfl h1
  live := by
    intro st h e
    cases st with
    | some c => exact live c h e
    | none => simp only [GDe.call, hi]; exact initFromStart_live hf hfin h e
  fin := hd

theorem fromEvent_eof {ev : DEvent} {a : Bool} (h : ev.event = some .eof) :
    EHO.fromEvent ev a = .brk ev a := by
  cases ev with
  | none => cases h
  | brk e => rfl
  | cont e => simp only [DEvent.event, Option.some.injEq] at h; subst h; rfl

/-! ## Sequences -/

theorem create_ends {f : Field H C V} (hf : f.Ends) {h : H} {e : Event} (he : ∀ n, e ≠ .end_ n)
    {out : Output C V} (ho : f.create false h e = .ok out) :
    (∀ x, out.event = .cont x → x = e) ∧ (out.artifact ≠ .none → ∀ x, out.event ≠ .cont x) := by
  unfold Field.create at ho
  cases hw : f.want with
  | none =>
    rw [hw] at ho
    exact ⟨hf.de.same none h e out ho, hf.de.tidy h e out he ho⟩
  | some w =>
    rw [hw] at ho
    simp only [initStartTag] at ho
    split at ho
    · cases ho
      exact ⟨fun x hx => by cases hx; rfl, fun hn => absurd rfl hn⟩
    · split at ho
      · exact ⟨hf.de.same none h e out ho, hf.de.tidy h e out he ho⟩
      · cases ho
        exact ⟨fun x hx => by cases hx; rfl, fun hn => absurd rfl hn⟩

theorem create_live {f : Field H C V} (hf : f.Ends) (h : H) (e : Event) : Live (f.create false h e) := by
  unfold Field.create
  cases hw : f.want with
  | none => exact hf.de.live none h e
  | some w =>
    simp only [initStartTag]
    split
    · exact live_ok _
    · split
      · exact hf.de.live none h e
      · exact live_ok _

theorem store_live (f : Field H C V) (i : Nat) (v : V) (s : SeqSt A C V) : Live (store f i v s) := by
  unfold store
  simp only
  split
  · split
    · exact live_ok _
    · exact live_err (by simp)
  · split
    · exact live_ok _
    · exact live_err (by simp)
  · exact live_ok _

theorem SeqTy.flush_live {T : SeqTy H A C V W} (hT : ∀ f ∈ T.fields, f.Ends) (h : H)
    (fb : Option (SPos C)) (s : SeqSt A C V) : Live (T.flush h fb s) := by
  unfold SeqTy.flush
  split
  · exact live_ok _
  · unfold SeqTy.finishState
    split
    · next i c =>
      cases hf : T.fields[i]? with
      | none => exact live_err (by simp)
      | some f =>
        have := (hT f (List.mem_of_getElem? hf)).de.fin c h
        simp only
        cases hd : f.de.finish c h with
        | error e => exact live_err fun he => this (by rw [hd, he])
        | ok v => exact store_live f i v s
    · exact live_ok _

theorem SeqTy.handle_live {T : SeqTy H A C V W} (hT : ∀ f ∈ T.fields, f.Ends) (f : Field H C V)
    (i : Nat) (out : Output C V) (h : H) (s : SeqSt A C V) (fb : Option (SPos C)) :
    Live (T.handle f i out h s fb) := by
  have hfl := fun fb s => SeqTy.flush_live hT h fb s
  unfold SeqTy.handle
  split
  · unfold SeqTy.handleNone
    simp only
    split
    · exact live_ok _
    · split
      · exact live_ok _
      · split
        · split <;> exact live_ok _
        · split
          · exact live_ok _
          · split
            · next e he => exact live_err fun h' => hfl _ _ (by rw [he, h'])
            · split <;> exact live_ok _
  · split
    · next e he => exact live_err fun h' => hfl _ _ (by rw [he, h'])
    · split
      · next e he => exact live_err fun h' => store_live _ _ _ _ (by rw [he, h'])
      · exact live_ok _
  · split
    · next e he => exact live_err fun h' => hfl _ _ (by rw [he, h'])
    · exact live_ok _

theorem SeqTy.after_live {T : SeqTy H A C V W} (hT : ∀ f ∈ T.fields, f.Ends) (h : H)
    (s : SeqSt A C V) (fb : Option (SPos C)) (any : Bool) (f : Field H C V) (i : Nat)
    {r : Except GErr (Output C V)} (hr : Live r) : Live (T.after h s fb any f i r) := by
  unfold SeqTy.after
  cases r with
  | error e => exact live_err fun he => hr (by rw [he])
  | ok out =>
    have := SeqTy.handle_live hT f i out h s fb
    simp only
    split
    · next e he => exact live_err fun h' => this (by rw [he, h'])
    · exact live_ok _
    · exact live_ok _

theorem SeqTy.atEnd_live {T : SeqTy H A C V W} (hT : ∀ f ∈ T.fields, f.Ends) (h : H) (n : Str)
    (s : SeqSt A C V) (fb : Option (SPos C)) : Live (T.atEnd h n s fb) := by
  unfold SeqTy.atEnd
  split
  · next e he => exact live_err fun h' => SeqTy.flush_live hT _ _ _ (by rw [he, h'])
  · split
    · next e he => exact live_err fun h' => finishFields_live _ _ _ hT (by rw [he, h'])
    · exact live_ok _

/-- The type allows nothing else, and its fields end. -/
structure SeqTy.Fine (T : SeqTy H A C V W) : Prop where
  fields : ∀ f ∈ T.fields, f.Ends
  any : T.allowAny = false
  tag : ∀ h t, Live (T.ofTag h t)

theorem SeqTy.round_live {T : SeqTy H A C V W} (hT : T.Fine) (h : H) (e : Event)
    (s : SeqSt A C V) (fb : Option (SPos C)) (any : Bool) : Live (T.round h e s fb any) := by
  unfold SeqTy.round
  split
  · next i c _ =>
    cases hf : T.fields[i]? with
    | none => exact live_err (by simp)
    | some f => exact SeqTy.after_live hT.fields _ _ _ _ _ _ ((hT.fields f (List.mem_of_getElem? hf)).de.live (some c) h e)
  · split
    · exact SeqTy.atEnd_live hT.fields _ _ _ _
    · exact live_ok _
  · next i _ =>
    split
    · exact SeqTy.atEnd_live hT.fields _ _ _ _
    · split
      · exact live_ok _
      · cases hf : T.fields[i]? with
        | none => exact live_err (by simp)
        | some f =>
          refine SeqTy.after_live hT.fields _ _ _ _ _ _ ?_
          rw [hT.any]
          exact create_live (hT.fields f (List.mem_of_getElem? hf)) h e
  · split
    · exact SeqTy.atEnd_live hT.fields _ _ _ _
    · exact live_ok _

/-- A round that goes on keeps the event, and gets closer to the end; at an end tag no child is
running then. -/
theorem SeqTy.round_again {T : SeqTy H A C V W} (hT : T.Fine) {h : H} {e e' : Event}
    {s s' : SeqSt A C V} {fb fb' : Option (SPos C)} {any a : Bool}
    (hr : T.round h e s fb any = .ok (.again e' s' fb' a)) :
    e' = e ∧ T.rank s'.pos < T.rank s.pos ∧ ∀ i c, s'.pos ≠ .at_ i (some c) := by
  have noEnd : ∀ n, T.atEnd h n s fb ≠ .ok (.again e' s' fb' a) := by
    intro n hn
    unfold SeqTy.atEnd at hn
    repeat' split at hn
    all_goals simp at hn
  have nn : ∀ i, ∀ j c, T.nextPos i ≠ .at_ j (some c) := by
    intro i j c
    unfold SeqTy.nextPos
    split <;> simp
  unfold SeqTy.round at hr
  split at hr
  · rename_i i c hp
    rw [hp]
    split at hr
    · cases hr
    · rename_i f hf
      obtain ⟨out, ho, hev, h1 | ⟨h1, -⟩⟩ := SeqTy.after_again hr
      · refine ⟨(hT.fields f (List.mem_of_getElem? hf)).de.same (some c) h e out ho _ hev, ?_, ?_⟩
        · rw [h1]; refine Nat.lt_of_le_of_lt (T.rank_nextPos i) ?_; simp only [SeqTy.rank]; omega
        · rw [h1]; exact nn i
      · refine ⟨(hT.fields f (List.mem_of_getElem? hf)).de.same (some c) h e out ho _ hev, ?_, ?_⟩
        · rw [h1]; simp only [SeqTy.rank]; omega
        · rw [h1]; simp
  · rename_i hp
    rw [hp]
    split at hr
    · exact absurd hr (noEnd _)
    · simp only [Except.ok.injEq, Round.again.injEq] at hr
      obtain ⟨h1, h2, -, -⟩ := hr
      refine ⟨h1.symm, ?_, ?_⟩
      · rw [← h2]; simp only [SeqTy.rank]; omega
      · rw [← h2]; simp
  · rename_i i hp
    rw [hp]
    split at hr
    · exact absurd hr (noEnd _)
    · rename_i hne
      split at hr
      · simp [Round.stop] at hr
      · rename_i t ht
        split at hr
        · cases hr
        · rename_i f hf
          have hi : i < T.fields.length := by
            rcases Nat.lt_or_ge i T.fields.length with h' | h'
            · exact h'
            · rw [List.getElem?_eq_none h'] at hf; cases hf
          rw [hT.any] at hr
          obtain ⟨out, h0, h1, h2⟩ := SeqTy.after_again hr
          obtain ⟨c1, c2⟩ := create_ends (hT.fields f (List.mem_of_getElem? hf)) (fun n hn => hne n hn) h0
          rcases h2 with h2 | ⟨h2, h3⟩
          · refine ⟨c1 _ h1, ?_, ?_⟩
            · rw [h2]; refine Nat.lt_of_le_of_lt (T.rank_nextPos i) ?_; simp only [SeqTy.rank]; omega
            · rw [h2]; exact nn i
          · exact absurd h1 (c2 h3 _)
  · split at hr
    · exact absurd hr (noEnd _)
    · simp [Round.stop] at hr

/-- The result of `handle` when it stops, hands on what the child handed on. -/
theorem SeqTy.handle_brk {T : SeqTy H A C V W} {f : Field H C V} {i : Nat} {out : Output C V}
    {h : H} {s s' : SeqSt A C V} {fb fb' : Option (SPos C)} {ev : DEvent} {a : Bool}
    (hh : T.handle f i out h s fb = .ok (.brk ev a, s', fb')) :
    (ev = out.event ∨ ev = intoBreak out.event) ∧ a = out.allowAny := by
  have key : ∀ {b : Bool}, EHO.fromEvent out.event b = .brk ev a → ev = out.event ∧ a = b := by
    intro b h
    unfold EHO.fromEvent at h
    split at h <;> simp_all
  unfold SeqTy.handle at hh
  split at hh
  · unfold SeqTy.handleNone at hh
    simp only at hh
    repeat' split at hh
    all_goals first
      | (cases hh; done)
      | (simp only [Except.ok.injEq, Prod.mk.injEq] at hh
         obtain ⟨h1, h2, h3⟩ := hh
         first
          | (have := key h1; exact ⟨.inl this.1, this.2⟩)
          | (simp only [EHO.toRoot, EHO.brk.injEq] at h1; exact ⟨.inr h1.1.symm, h1.2.symm⟩)
          | (simp only [EHO.brk.injEq] at h1; exact ⟨.inl h1.1.symm, h1.2.symm⟩))
  · split at hh
    · cases hh
    · split at hh
      · cases hh
      · simp only [Except.ok.injEq, Prod.mk.injEq] at hh
        have := key hh.1
        exact ⟨.inl this.1, this.2⟩
  · split at hh
    · cases hh
    · simp only [Except.ok.injEq, Prod.mk.injEq] at hh
      have := key hh.1
      exact ⟨.inl this.1, this.2⟩

theorem intoBreak_cont (ev : DEvent) (x : Event) : intoBreak ev ≠ .cont x := by
  cases ev <;> simp [intoBreak]

theorem intoBreak_event (ev : DEvent) : (intoBreak ev).event = ev.event := by
  cases ev <;> rfl

theorem SeqTy.after_ret {T : SeqTy H A C V W} {f : Field H C V} {i : Nat}
    {r : Except GErr (Output C V)} {h : H} {s : SeqSt A C V} {fb : Option (SPos C)}
    {any : Bool} {out : Output (SeqSt A C V) W} (hh : T.after h s fb any f i r = .ok (.ret out)) :
    ∃ o s' fb', r = .ok o ∧ T.handle f i o h s fb = .ok (.brk out.event out.allowAny, s', fb') ∧
      out.artifact = .deser { s' with pos := fb'.getD s'.pos } := by
  unfold SeqTy.after at hh
  split at hh
  · cases hh
  · next o =>
    split at hh
    · cases hh
    · cases hh
    · next hk =>
      simp only [Round.stop, Except.ok.injEq, Round.ret.injEq] at hh
      subst hh
      exact ⟨o, _, _, rfl, hk, rfl⟩

/-- What a round returns. -/
theorem SeqTy.round_ret {T : SeqTy H A C V W} (hT : T.Fine) {h : H} {e : Event}
    {s : SeqSt A C V} {fb : Option (SPos C)} {any : Bool} {out : Output (SeqSt A C V) W}
    (hr : T.round h e s fb any = .ok (.ret out)) :
    (∀ x, out.event = .cont x → x = e) ∧
    (∀ n, e = .end_ n → (∀ x, out.event ≠ .cont x) ∨ ∃ v, out.artifact = .data v) ∧
    (e = .eof → out.event.event = some .eof ∧ (any = false → out.allowAny = false)) := by
  have atEnd : ∀ n, e = .end_ n → T.atEnd h n s fb = .ok (.ret out) →
      (∀ x, out.event = .cont x → x = e) ∧
      (∀ n, e = .end_ n → (∀ x, out.event ≠ .cont x) ∨ ∃ v, out.artifact = .data v) ∧
      (e = .eof → out.event.event = some .eof ∧ (any = false → out.allowAny = false)) := by
    intro n he hn
    unfold SeqTy.atEnd at hn
    split at hn
    · cases hn
    · split at hn
      · cases hn
      · simp only [Except.ok.injEq, Round.ret.injEq] at hn
        subst hn
        refine ⟨?_, ?_, ?_⟩
        · intro x hx
          simp only at hx
          split at hx
          · cases hx
          · cases hx; exact he.symm
        · intro m _; exact .inr ⟨_, rfl⟩
        · intro h'; rw [he] at h'; cases h'
  unfold SeqTy.round at hr
  split at hr
  · rename_i i c hp
    split at hr
    · cases hr
    · rename_i f hf
      have hfe := (hT.fields f (List.mem_of_getElem? hf)).de
      obtain ⟨o, s', fb', ho, hh, -⟩ := SeqTy.after_ret hr
      obtain ⟨h1, h2⟩ := SeqTy.handle_brk hh
      refine ⟨?_, ?_, ?_⟩
      · intro x hx
        rcases h1 with h1 | h1
        · exact hfe.same (some c) h e o ho x (by rw [← h1, hx])
        · exact absurd (h1 ▸ hx) (intoBreak_cont _ _)
      · intro n he
        left
        intro x hx
        rcases h1 with h1 | h1
        · subst he
          rw [hx] at h1
          have hx' := hfe.same (some c) h _ o ho x h1.symm
          obtain ⟨v, hv⟩ := hfe.ended c h n o ho x h1.symm
          subst hx'
          unfold SeqTy.handle at hh
          rw [hv, ← h1] at hh
          simp only at hh
          split at hh
          · cases hh
          · split at hh
            · cases hh
            · simp [EHO.fromEvent] at hh
        · exact absurd (h1 ▸ hx) (intoBreak_cont _ _)
      · intro he
        subst he
        obtain ⟨e1, e2⟩ := hfe.eof (some c) h o ho
        refine ⟨?_, fun _ => by rw [h2, e2]⟩
        rcases h1 with h1 | h1
        · rw [h1, e1]
        · rw [h1, intoBreak_event, e1]
  · split at hr
    · exact atEnd _ rfl hr
    · cases hr
  · rename_i i hp
    split at hr
    · exact atEnd _ rfl hr
    · rename_i hne
      split at hr
      · simp only [Round.stop, Except.ok.injEq, Round.ret.injEq] at hr
        subst hr
        exact ⟨(fun x hx => by cases hx), fun n hn => absurd hn (hne n), fun he => ⟨by rw [he]; rfl, fun _ => rfl⟩⟩
      · rename_i t ht
        split at hr
        · cases hr
        · rename_i f hf
          rw [hT.any] at hr
          obtain ⟨o, s', fb', ho, hh, -⟩ := SeqTy.after_ret hr
          obtain ⟨h1, h2⟩ := SeqTy.handle_brk hh
          obtain ⟨c1, c2⟩ := create_ends (hT.fields f (List.mem_of_getElem? hf)) (fun n hn => hne n hn) ho
          refine ⟨?_, fun n hn => absurd hn (hne n), fun he => by subst he; cases ht⟩
          intro x hx
          rcases h1 with h1 | h1
          · exact c1 x (by rw [← h1, hx])
          · exact absurd (h1 ▸ hx) (intoBreak_cont _ _)
  · split at hr
    · exact atEnd _ rfl hr
    · rename_i hne
      simp only [Round.stop, Except.ok.injEq, Round.ret.injEq] at hr
      subst hr
      refine ⟨fun x hx => by cases hx; rfl, fun n hn => absurd hn (hne n), fun he => ⟨by rw [he]; rfl, ?_⟩⟩
      intro ha
      simp only [hT.any, ha, Bool.or_self]

theorem SeqTy.loop_ends {T : SeqTy H A C V W} (hT : T.Fine) (h : H) : ∀ (n : Nat) (e : Event)
    (s : SeqSt A C V) (fb : Option (SPos C)) (any : Bool), T.rank s.pos < n →
    Live (T.loop h n e s fb any) ∧ ∀ out, T.loop h n e s fb any = .ok out →
    (∀ x, out.event = .cont x → x = e) ∧
    (∀ n, e = .end_ n → (∀ x, out.event ≠ .cont x) ∨ ∃ v, out.artifact = .data v) ∧
    (e = .eof → out.event.event = some .eof ∧ (any = false → out.allowAny = false)) := by
  intro n
  induction n with
  | zero => intro e s fb any hn; omega
  | succ n ih =>
    intro e s fb any hn
    simp only [SeqTy.loop]
    have hl := SeqTy.round_live hT h e s fb any
    cases hr : T.round h e s fb any with
    | error err => exact ⟨live_err fun he => hl (by rw [hr, he]), fun out ho => by cases ho⟩
    | ok r =>
      cases r with
      | ret out =>
        refine ⟨live_ok _, fun o ho => ?_⟩
        simp only [Except.ok.injEq] at ho
        subst ho
        exact SeqTy.round_ret hT hr
      | again e' s' fb' a =>
        obtain ⟨rfl, h2, -⟩ := SeqTy.round_again hT hr
        obtain ⟨i1, i2⟩ := ih e' s' fb' a (by omega)
        refine ⟨i1, fun out ho => ?_⟩
        obtain ⟨j1, j2, j3⟩ := i2 out ho
        refine ⟨j1, j2, fun he => ⟨(j3 he).1, fun ha => (j3 he).2 ?_⟩⟩
        subst he
        -- only the first round goes on with the end of the file
        unfold SeqTy.round at hr
        split at hr
        · split at hr
          · cases hr
          · rename_i i c _ _ f hf
            obtain ⟨o, ho, hev, -⟩ := SeqTy.after_again hr
            have := (hT.fields f (List.mem_of_getElem? hf)).de.eof (some c) h o ho
            unfold SeqTy.after at hr
            rw [ho] at hr
            simp only at hr
            split at hr
            · cases hr
            · next hk =>
              exfalso
              unfold SeqTy.handle at hk
              have fe := fun b => fromEvent_eof (a := b) this.1
              split at hk
              · unfold SeqTy.handleNone at hk
                simp only [fe] at hk
                repeat' split at hk
                all_goals simp [EHO.toRoot] at hk
              · simp only [fe] at hk
                repeat' split at hk
                all_goals simp at hk
              · simp only [fe] at hk
                repeat' split at hk
                all_goals simp at hk
            · cases hr
        · simp only [Except.ok.injEq, Round.again.injEq] at hr
          rw [← hr.2.2.2, ha, hT.any]
          rfl
        · simp [tagOf, Round.stop] at hr
        · simp [Round.stop] at hr

theorem SeqTy.next_ends {T : SeqTy H A C V W} (hT : T.Fine) (s : SeqSt A C V) (h : H) (e : Event) :
    Live (T.next s h e) ∧ ∀ out, T.next s h e = .ok out →
    (∀ x, out.event = .cont x → x = e) ∧
    (∀ n, e = .end_ n → (∀ x, out.event ≠ .cont x) ∨ ∃ v, out.artifact = .data v) ∧
    (e = .eof → out.event.event = some .eof ∧ out.allowAny = false) := by
  obtain ⟨h1, h2⟩ := SeqTy.loop_ends hT h T.fuel e s none false (T.rank_lt_fuel _)
  exact ⟨h1, fun out ho => ⟨(h2 out ho).1, (h2 out ho).2.1, fun he =>
    ⟨((h2 out ho).2.2 he).1, ((h2 out ho).2.2 he).2 rfl⟩⟩⟩

theorem SeqTy.finish_live {T : SeqTy H A C V W} (hT : T.Fine) (s : SeqSt A C V) (h : H) :
    Live (T.finish s h) := by
  have h1 : Live (T.finishState h s.pos s) := SeqTy.flush_live hT.fields h (some s.pos) s
  unfold SeqTy.finish
  split
  · next e he => exact live_err fun h' => h1 (by rw [he, h'])
  · split
    · next e he => exact live_err fun h' => finishFields_live _ _ _ hT.fields (by rw [he, h'])
    · exact live_ok _

/-- A group that has not begun: it either stays so, or does not hand on the event. -/
theorem SeqTy.loop_tidy {T : SeqTy H A C V W} (hT : T.Fine) (h : H) : ∀ (n : Nat) (e : Event)
    (_ : ∀ n, e ≠ .end_ n) (s : SeqSt A C V) (fb : Option (SPos C)) (any : Bool)
    (_ : ∀ i c, s.pos ≠ .at_ i (some c)) (_ : fb = some .init ∨ fb = none ∧ s.pos = .init)
    (out : Output (SeqSt A C V) W), T.loop h n e s fb any = .ok out →
    (∃ s', out.artifact = .deser s' ∧ s'.pos = .init) ∨ ∀ x, out.event ≠ .cont x := by
  intro n
  induction n with
  | zero => intro e _ s fb any _ _ out ho; cases ho
  | succ n ih =>
    intro e hne s fb any hrun hfb out ho
    simp only [SeqTy.loop] at ho
    cases hr : T.round h e s fb any with
    | error err => rw [hr] at ho; cases ho
    | ok r =>
      rw [hr] at ho
      cases r with
      | again e' s' fb' a =>
        simp only at ho
        obtain ⟨rfl, -, h3⟩ := SeqTy.round_again hT hr
        refine ih e' hne s' fb' a h3 ?_ out ho
        unfold SeqTy.round at hr
        split at hr
        · next i c hp => exact absurd hp (hrun i c)
        · split at hr
          · exact absurd rfl (hne _)
          · simp only [Except.ok.injEq, Round.again.injEq] at hr
            left
            rw [← hr.2.2.1]
            rcases hfb with rfl | ⟨rfl, -⟩ <;> rfl
        · next i hp =>
          have hfb : fb = some .init := by
            rcases hfb with h | ⟨-, h⟩
            · exact h
            · rw [hp] at h; cases h
          subst hfb
          split at hr
          · exact absurd rfl (hne _)
          · split at hr
            · simp [Round.stop] at hr
            · split at hr
              · cases hr
              · next f hf =>
                rw [hT.any] at hr
                obtain ⟨o, ho', hev, -⟩ := SeqTy.after_again hr
                obtain ⟨c1, c2⟩ := create_ends (hT.fields f (List.mem_of_getElem? hf)) hne ho'
                have hnone : o.artifact = .none := Classical.byContradiction fun h => c2 h _ hev
                unfold SeqTy.after at hr
                rw [ho'] at hr
                simp only [SeqTy.handle, hnone] at hr
                left
                split at hr
                · cases hr
                · next hk =>
                  simp only [Except.ok.injEq, Round.again.injEq] at hr
                  obtain ⟨-, -, hfb', -⟩ := hr
                  subst hfb'
                  unfold SeqTy.handleNone at hk
                  simp only at hk
                  repeat' split at hk
                  all_goals first
                    | (cases hk; done)
                    | (simp only [Except.ok.injEq, Prod.mk.injEq] at hk; exact hk.2.2.symm)
                    | (simp only [Except.ok.injEq, Prod.mk.injEq, EHO.toRoot] at hk; exact absurd hk.1 (by simp))
                    | simp_all
                · simp [Round.stop] at hr
        · split at hr
          · exact absurd rfl (hne _)
          · simp [Round.stop] at hr
      | ret o =>
        simp only [Except.ok.injEq] at ho
        subst ho
        unfold SeqTy.round at hr
        split at hr
        · next i c hp => exact absurd hp (hrun i c)
        · split at hr
          · exact absurd rfl (hne _)
          · cases hr
        · next i hp =>
          have hfb : fb = some .init := by
            rcases hfb with h | ⟨-, h⟩
            · exact h
            · rw [hp] at h; cases h
          subst hfb
          split at hr
          · exact absurd rfl (hne _)
          · split at hr
            · simp only [Round.stop, Except.ok.injEq, Round.ret.injEq] at hr
              subst hr
              exact .inl ⟨_, rfl, rfl⟩
            · split at hr
              · cases hr
              · next f hf =>
                rw [hT.any] at hr
                obtain ⟨o', s', fb', ho', hh, ha⟩ := SeqTy.after_ret hr
                obtain ⟨c1, c2⟩ := create_ends (hT.fields f (List.mem_of_getElem? hf)) hne ho'
                by_cases hnone : o'.artifact = .none
                · simp only [SeqTy.handle, hnone] at hh
                  left
                  refine ⟨_, ha, ?_⟩
                  have : fb' = some .init := by
                    unfold SeqTy.handleNone at hh
                    simp only at hh
                    repeat' split at hh
                    all_goals first
                      | (cases hh; done)
                      | (simp only [Except.ok.injEq, Prod.mk.injEq] at hh; exact hh.2.2.symm)
                      | simp_all
                  rw [this]
                  rfl
                · right
                  intro x hx
                  obtain ⟨h1, -⟩ := SeqTy.handle_brk hh
                  rcases h1 with h1 | h1
                  · exact c2 hnone x (by rw [← h1, hx])
                  · exact absurd (h1 ▸ hx) (intoBreak_cont _ _)
        · next hp =>
          have hfb : fb = some .init := by
            rcases hfb with h | ⟨-, h⟩
            · exact h
            · rw [hp] at h; cases h
          subst hfb
          split at hr
          · exact absurd rfl (hne _)
          · simp only [Round.stop, Except.ok.injEq, Round.ret.injEq] at hr
            subst hr
            exact .inl ⟨_, rfl, rfl⟩

theorem SeqTy.de_ends {T : SeqTy H A C V W} (hT : T.Fine) : T.de.Ends := by
  have hn := fun s h e => SeqTy.next_ends hT s h e
  by_cases hel : T.isElement = true
  · refine ends_of_element (d := T.de) (f := fun h t => (T.ofTag h t).map T.start) (fin := T.finish) ?_
      (fun h t => live_map (hT.tag h t) _) (fun c h => SeqTy.finish_live hT c h)
      (fun c h => SeqTy.finish_live hT c h) (fun c h e out ho => ((hn c h e).2 out ho).1) ?_
      (fun c h out ho => ((hn c h .eof).2 out ho).2.2 rfl) (fun c h e => (hn c h e).1)
    · intro h e
      simp only [SeqTy.de, SeqTy.init, hel, if_true]
    · intro c h n out ho x hx
      rcases ((hn c h _).2 out ho).2.1 n rfl with h1 | h1
      · exact absurd hx (h1 x)
      · exact h1
  · have hi : ∀ h e out, T.de.init h e = .ok out → ∃ o, T.next (T.start T.attrs0) h e = .ok o ∧
        out.event = o.event ∧ out.allowAny = o.allowAny ∧
        ((∃ s, o.artifact = .deser s ∧ s.pos = .init) → out.artifact = .none) := by
      intro h e out ho
      simp only [SeqTy.de, SeqTy.init, hel, Bool.false_eq_true, if_false] at ho
      cases hx : T.next (T.start T.attrs0) h e with
      | error err => rw [hx] at ho; cases ho
      | ok o =>
        rw [hx] at ho
        simp only [Except.ok.injEq] at ho
        subst ho
        refine ⟨o, rfl, rfl, rfl, ?_⟩
        rintro ⟨s, hs, hp⟩
        simp only [hs, SPos.isInit, hp, if_true]
    refine ⟨?_, ?_, ?_, ?_, ?_, fun c h => SeqTy.finish_live hT c h⟩
    · intro st h e out ho x hx
      cases st with
      | some c => exact ((hn c h e).2 out ho).1 x hx
      | none =>
        obtain ⟨o, h1, h2, -⟩ := hi h e out ho
        exact ((hn _ h e).2 o h1).1 x (by rw [← h2, hx])
    · intro h e out hne ho hna x hx
      obtain ⟨o, h1, h2, -, h4⟩ := hi h e out ho
      rcases SeqTy.loop_tidy hT h T.fuel e hne _ none false (by simp [SeqTy.start])
        (.inr ⟨rfl, rfl⟩) o h1 with h5 | h5
      · exact hna (h4 h5)
      · exact h5 x (by rw [← h2, hx])
    · intro c h n out ho x hx
      rcases ((hn c h _).2 out ho).2.1 n rfl with h1 | h1
      · exact absurd hx (h1 x)
      · exact h1
    · intro st h out ho
      cases st with
      | some c => exact ((hn c h _).2 out ho).2.2 rfl
      | none =>
        obtain ⟨o, h1, h2, h3, -⟩ := hi h _ out ho
        rw [h2, h3]
        exact ((hn _ h _).2 o h1).2.2 rfl
    · intro st h e
      cases st with
      | some c => exact (hn c h e).1
      | none =>
        simp only [GDe.call, SeqTy.de, SeqTy.init, hel, Bool.false_eq_true, if_false]
        cases hx : T.next (T.start T.attrs0) h e with
        | error err => exact live_err fun he => (hn _ h e).1 (by rw [hx, he])
        | ok o => exact live_ok _

/-! ## What handlers hand on -/

theorem fromEvent_brk {ev ev' : DEvent} {a b : Bool} (h : EHO.fromEvent ev a = .brk ev' b) :
    ev' = ev ∧ b = a ∧ ∀ x, ev = .cont x → tagOf x = none ∧ ∀ n, x ≠ .end_ n := by
  unfold EHO.fromEvent at h
  split at h
  · cases h
  · cases h
  · cases h
  · next h1 h2 h3 =>
    simp only [EHO.brk.injEq] at h
    refine ⟨h.1.symm, h.2.symm, fun x hx => ⟨?_, fun n hn => h3 n (by rw [hx, hn])⟩⟩
    cases x with
    | start t => exact absurd hx (h1 t)
    | empty t => exact absurd hx (h2 t)
    | _ => rfl

theorem fromEventEnd_cont {ev : DEvent} {a b : Bool} {x : Event}
    (h : EHO.fromEventEnd ev a = .cont x b) : ev = .cont x ∧ ∃ n, x = .end_ n := by
  unfold EHO.fromEventEnd at h
  split at h
  · simp only [EHO.cont.injEq] at h; exact ⟨by rw [h.1], _, h.1.symm⟩
  · cases h
  · cases h

theorem fromEventEnd_brk {ev ev' : DEvent} {a b : Bool} (h : EHO.fromEventEnd ev a = .brk ev' b) :
    ev' = ev ∧ b = a ∧ ∀ n, ev ≠ .cont (.end_ n) := by
  unfold EHO.fromEventEnd at h
  split at h
  · cases h
  · next hn =>
    simp only [EHO.toParent, EHO.brk.injEq] at h
    exact ⟨h.1.symm, h.2.symm, fun n he => hn n (by simpa using he)⟩
  · next h1 h2 =>
    simp only [EHO.brk.injEq] at h
    exact ⟨h.1.symm, h.2.symm, fun n he => h1 n he⟩

theorem contOrReturn_cont {f : Field H C V} {ev : DEvent} {a b : Bool} {x : Event}
    (h : contOrReturn f ev a = .cont x b) : ev = .cont x ∧ f.want.isNone = true := by
  unfold contOrReturn at h
  split at h
  · next hw => exact ⟨EHO.fromEvent_cont h, hw⟩
  · cases h

theorem contOrReturn_brk {f : Field H C V} {ev ev' : DEvent} {a b : Bool}
    (h : contOrReturn f ev a = .brk ev' b) :
    (ev' = ev ∨ ev' = intoBreak ev) ∧ b = a ∧
      ∀ x, ev' = .cont x → tagOf x = none ∧ ∀ n, x ≠ .end_ n := by
  unfold contOrReturn at h
  split at h
  · obtain ⟨h1, h2, h3⟩ := fromEvent_brk h
    exact ⟨.inl h1, h2, fun x hx => h3 x (by rw [← h1, hx])⟩
  · simp only [EHO.toRoot, EHO.brk.injEq] at h
    exact ⟨.inr h.1.symm, h.2.symm, fun x hx => absurd (h.1.trans hx) (intoBreak_cont _ _)⟩

/-! ## Enums -/

theorem storeAlt_live (f : Field H C V) (vs : List V) (v : V) : Live (storeAlt f vs v) := by
  unfold storeAlt
  split
  · split
    · exact live_ok _
    · exact live_err (by simp)
  · split
    · exact live_ok _
    · exact live_err (by simp)
  · exact live_ok _

theorem flushAlt_live {f : Field H C V} (hf : f.Ends) (h : H) (c : Option C) (vs : List V) :
    Live (flushAlt f h c vs) := by
  unfold flushAlt
  split
  · exact live_ok _
  · next c =>
    split
    · next e he => exact live_err fun h' => hf.de.fin c h (by rw [he, h'])
    · exact storeAlt_live _ _ _

/-- The type allows nothing else, and its alternatives end. -/
structure EnumTy.Fine (T : EnumTy H C V W) : Prop where
  alts : ∀ f ∈ T.alts, f.Ends
  any : T.allowAny = false
  check : ∀ h t, Live (T.check h t)

theorem defaultAlt_live {f : Field H C V} (hf : f.Ends) (h : H) : Live (defaultAlt f h) := by
  unfold defaultAlt
  split
  · exact live_err (by simp)
  · exact fillDefault_live hf _ _ _
  · exact live_ok _
  · exact fillDefault_live hf _ _ _
  · exact fillDefault_live hf _ _ _

theorem EnumTy.finishState_live {T : EnumTy H C V W} (hT : T.Fine) (h : H) (st : CPos C V W) :
    Live (T.finishState h st) := by
  unfold EnumTy.finishState
  split
  · split
    · split
      · exact live_err (by simp)
      · next f hf => exact live_map (defaultAlt_live (hT.alts f (List.mem_of_getElem? hf)) h) _
    · exact live_err (by simp)
  · split
    · exact live_err (by simp)
    · next f hf =>
      have hf := hT.alts f (List.mem_of_getElem? hf)
      split
      · next e he => exact live_err fun h' => flushAlt_live hf _ _ _ (by rw [he, h'])
      · exact live_map (finishField_live hf _ _) _
  · exact live_ok _
  · exact live_err (by simp)
  · exact live_err (by simp)

theorem EnumTy.handle_live {T : EnumTy H C V W} (hT : T.Fine) {f : Field H C V} (hf : f.Ends)
    (i : Nat) (h : H) (st : CPos C V W) (vs : List V) (fb : Option C) (out : Output C V) :
    Live (T.handle f i h st vs fb out) := by
  unfold EnumTy.handle
  split
  · exact live_ok _
  · split
    · next e he => exact live_err fun h' => flushAlt_live hf _ _ _ (by rw [he, h'])
    · split
      · next e he => exact live_err fun h' => storeAlt_live _ _ _ (by rw [he, h'])
      · next vs' _ =>
        have hd : Live (match T.finishState h (.at_ i vs' none none) with
          | .error e => .error e
          | .ok w => .ok (EHO.brk out.event out.allowAny, (.done w : CPos C V W))) := by
          split
          · next e he => exact live_err fun h' => EnumTy.finishState_live hT _ _ (by rw [he, h'])
          · exact live_ok _
        simp only
        split
        · exact live_ok _
        · split
          · split
            · split
              · exact live_ok _
              · exact hd
            · exact live_ok _
          · exact hd
  · split
    · next e he => exact live_err fun h' => flushAlt_live hf _ _ _ (by rw [he, h'])
    · split
      · simp only
        repeat' split
        all_goals exact live_ok _
      · exact live_ok _

/-- A handler that goes on. -/
theorem EnumTy.handle_goes {T : EnumTy H C V W} {f : Field H C V} {i : Nat} {h : H}
    {st st' : CPos C V W} {vs : List V} {fb : Option C} {out : Output C V} {x : Event} {b : Bool}
    (hh : T.handle f i h st vs fb out = .ok (.cont x b, st')) :
    out.event = .cont x ∧
    (((∃ n, x = .end_ n) ∧ ∀ v, out.artifact ≠ .data v) ∨
     (out.artifact = .none ∧ (st' = .init ∨ st' = st) ∧ f.want.isNone = true) ∨
     (out.artifact ≠ .none ∧ ∃ i vs fb, st' = .at_ i vs fb none)) := by
  have boe : ∀ {b' : Bool}, T.breakOrEnd out.event b' = .cont x b →
      out.event = .cont x ∧ ∃ n, x = .end_ n := by
    intro b' hb
    unfold EnumTy.breakOrEnd at hb
    split at hb
    · exact fromEventEnd_cont hb
    · cases hb
  unfold EnumTy.handle at hh
  split at hh
  · next ha =>
    simp only [Except.ok.injEq] at hh
    unfold EnumTy.handleNone at hh
    generalize (if fb.isSome = true then 1 else 0) = k at hh
    split at hh
    · split at hh
      · simp only [Prod.mk.injEq] at hh
        obtain ⟨h1, h2⟩ := contOrReturn_cont hh.1
        exact ⟨h1, .inr (.inl ⟨ha, .inl hh.2.symm, h2⟩)⟩
      · split at hh
        · cases hh
        · simp only [Prod.mk.injEq] at hh
          obtain ⟨h1, h2⟩ := boe hh.1
          exact ⟨h1, .inl ⟨h2, by rw [ha]; simp⟩⟩
    · simp only [Prod.mk.injEq] at hh
      obtain ⟨h1, h2⟩ := contOrReturn_cont hh.1
      exact ⟨h1, .inr (.inl ⟨ha, .inr hh.2.symm, h2⟩)⟩
  · next v ha =>
    split at hh
    · cases hh
    · split at hh
      · cases hh
      · simp only at hh
        have stay : ∀ vs' : List V, (.ok (EHO.fromEvent out.event out.allowAny, CPos.at_ i vs' none none) :
            Except GErr (EHO × CPos C V W)) = .ok (.cont x b, st') → _ := fun vs' hs => by
          simp only [Except.ok.injEq, Prod.mk.injEq] at hs
          exact (⟨EHO.fromEvent_cont hs.1, .inr (.inr ⟨by rw [ha]; simp, _, _, _, hs.2.symm⟩)⟩ :
            out.event = .cont x ∧
            (((∃ n, x = .end_ n) ∧ ∀ v, out.artifact ≠ .data v) ∨
             (out.artifact = .none ∧ (st' = .init ∨ st' = st) ∧ f.want.isNone = true) ∨
             (out.artifact ≠ .none ∧ ∃ i vs fb, st' = .at_ i vs fb none)))
        repeat' split at hh
        all_goals first
          | exact stay _ hh
          | (cases hh; done)
  · next c ha =>
    split at hh
    · cases hh
    · next vs' _ =>
      split at hh
      · have step : ∀ more : Bool,
            (if (more && (if more = true then EHO.fromEvent out.event out.allowAny
                else T.breakOrEnd out.event out.allowAny).isContStart) = true then
              (.ok (if more = true then EHO.fromEvent out.event out.allowAny
                else T.breakOrEnd out.event out.allowAny, CPos.at_ i vs' (some c) none) :
                Except GErr (EHO × CPos C V W))
            else .ok (if more = true then EHO.fromEvent out.event out.allowAny
                else T.breakOrEnd out.event out.allowAny, CPos.at_ i vs' none (some c)))
              = .ok (.cont x b, st') →
            out.event = .cont x ∧
            (((∃ n, x = .end_ n) ∧ ∀ v, out.artifact ≠ .data v) ∨
             (out.artifact = .none ∧ (st' = .init ∨ st' = st) ∧ f.want.isNone = true) ∨
             (out.artifact ≠ .none ∧ ∃ i vs fb, st' = .at_ i vs fb none)) := by
          intro more hh
          cases more with
          | false =>
            simp only [Bool.false_and, Bool.false_eq_true, if_false, Except.ok.injEq, Prod.mk.injEq] at hh
            obtain ⟨h1, h2⟩ := boe hh.1
            exact ⟨h1, .inl ⟨h2, by rw [ha]; simp⟩⟩
          | true =>
            simp only [Bool.true_and, if_true] at hh
            split at hh
            · simp only [Except.ok.injEq, Prod.mk.injEq] at hh
              exact ⟨EHO.fromEvent_cont hh.1, .inr (.inr ⟨by rw [ha]; simp, _, _, _, hh.2.symm⟩)⟩
            · next hs =>
              simp only [Except.ok.injEq, Prod.mk.injEq] at hh
              refine ⟨EHO.fromEvent_cont hh.1, .inl ⟨?_, by rw [ha]; simp⟩⟩
              rw [hh.1] at hs
              have h1 := EHO.fromEvent_cont hh.1
              have h2 := hh.1
              rw [h1] at h2
              unfold EHO.fromEvent at h2
              cases x <;> simp_all [EHO.isContStart, tagOf]
        simp only at hh
        split at hh
        · exact step _ hh
        · exact step _ hh
      · simp only [Except.ok.injEq, Prod.mk.injEq] at hh
        obtain ⟨h1, h2⟩ := boe hh.1
        exact ⟨h1, .inl ⟨h2, by rw [ha]; simp⟩⟩

/-- A handler that stops. -/
theorem EnumTy.handle_stops {T : EnumTy H C V W} {f : Field H C V} {i : Nat} {h : H}
    {st st' : CPos C V W} {vs : List V} {fb : Option C} {out : Output C V} {ev : DEvent} {b : Bool}
    (hh : T.handle f i h st vs fb out = .ok (.brk ev b, st')) :
    (ev = out.event ∨ ev = intoBreak out.event) ∧ b = out.allowAny ∧
    (∀ v, out.artifact = .data v → (∃ w, st' = .done w) ∨ ∀ n, ev ≠ .cont (.end_ n)) ∧
    (out.artifact = .none → vs = [] → fb = none →
      ∀ x, ev = .cont x → tagOf x = none) := by
  have boe : ∀ {b' : Bool}, T.breakOrEnd out.event b' = .brk ev b → ev = out.event ∧ b = b' := by
    intro b' hb
    unfold EnumTy.breakOrEnd at hb
    split at hb
    · exact ⟨(fromEventEnd_brk hb).1, (fromEventEnd_brk hb).2.1⟩
    · simp only [EHO.brk.injEq] at hb; exact ⟨hb.1.symm, hb.2.symm⟩
  unfold EnumTy.handle at hh
  split at hh
  · next ha =>
    simp only [Except.ok.injEq] at hh
    unfold EnumTy.handleNone at hh
    generalize (if fb.isSome = true then 1 else 0) = k at hh
    split at hh
    · split at hh
      · simp only [Prod.mk.injEq] at hh
        obtain ⟨h1, h2, h3⟩ := contOrReturn_brk hh.1
        exact ⟨h1, h2, by rw [ha]; simp, fun _ _ _ x hx => (h3 x hx).1⟩
      · next hne =>
        split at hh
        · simp only [Prod.mk.injEq, EHO.toRoot, EHO.brk.injEq] at hh
          exact ⟨.inr hh.1.1.symm, hh.1.2.symm, by rw [ha]; simp,
            fun _ _ _ x hx => absurd (hh.1.1.trans hx) (intoBreak_cont _ _)⟩
        · simp only [Prod.mk.injEq] at hh
          obtain ⟨h1, h2⟩ := boe hh.1
          exact ⟨.inl h1, h2, by rw [ha]; simp, fun _ h3 h4 => absurd (by rw [h3, h4]; rfl) hne⟩
    · simp only [Prod.mk.injEq] at hh
      obtain ⟨h1, h2, h3⟩ := contOrReturn_brk hh.1
      exact ⟨h1, h2, by rw [ha]; simp, fun _ _ _ x hx => (h3 x hx).1⟩
  · next v ha =>
    split at hh
    · cases hh
    · split at hh
      · cases hh
      · simp only at hh
        have stay : ∀ vs' : List V, (.ok (EHO.fromEvent out.event out.allowAny, CPos.at_ i vs' none none) :
            Except GErr (EHO × CPos C V W)) = .ok (.brk ev b, st') → _ := fun vs' hs => by
          simp only [Except.ok.injEq, Prod.mk.injEq] at hs
          obtain ⟨h1, h2, h3⟩ := fromEvent_brk hs.1
          exact (⟨.inl h1, h2, fun _ _ => .inr fun n hn => (h3 (.end_ n) (by rw [← h1, hn])).2 n rfl,
            by rw [ha]; simp⟩ :
            (ev = out.event ∨ ev = intoBreak out.event) ∧ b = out.allowAny ∧
            (∀ v, out.artifact = .data v → (∃ w, st' = .done w) ∨ ∀ n, ev ≠ .cont (.end_ n)) ∧
            (out.artifact = .none → vs = [] → fb = none →
              ∀ x, ev = .cont x → tagOf x = none))
        repeat' split at hh
        all_goals first
          | exact stay _ hh
          | (cases hh; done)
          | (simp only [Except.ok.injEq, Prod.mk.injEq, EHO.brk.injEq] at hh
             exact ⟨.inl hh.1.1.symm, hh.1.2.symm, fun _ _ => .inl ⟨_, hh.2.symm⟩, by rw [ha]; simp⟩)
  · next c ha =>
    split at hh
    · cases hh
    · next vs' _ =>
      split at hh
      · have step : ∀ more : Bool,
            (if (more && (if more = true then EHO.fromEvent out.event out.allowAny
                else T.breakOrEnd out.event out.allowAny).isContStart) = true then
              (.ok (if more = true then EHO.fromEvent out.event out.allowAny
                else T.breakOrEnd out.event out.allowAny, CPos.at_ i vs' (some c) none) :
                Except GErr (EHO × CPos C V W))
            else .ok (if more = true then EHO.fromEvent out.event out.allowAny
                else T.breakOrEnd out.event out.allowAny, CPos.at_ i vs' none (some c)))
              = .ok (.brk ev b, st') →
            (ev = out.event ∨ ev = intoBreak out.event) ∧ b = out.allowAny ∧
            (∀ v, out.artifact = .data v → (∃ w, st' = .done w) ∨ ∀ n, ev ≠ .cont (.end_ n)) ∧
            (out.artifact = .none → vs = [] → fb = none →
              ∀ x, ev = .cont x → tagOf x = none) := by
          intro more hh
          cases more with
          | false =>
            simp only [Bool.false_and, Bool.false_eq_true, if_false, Except.ok.injEq, Prod.mk.injEq] at hh
            obtain ⟨h1, h2⟩ := boe hh.1
            exact ⟨.inl h1, h2, by rw [ha]; simp, by rw [ha]; simp⟩
          | true =>
            simp only [Bool.true_and, if_true] at hh
            split at hh
            all_goals
              simp only [Except.ok.injEq, Prod.mk.injEq] at hh
              obtain ⟨h1, h2, h3⟩ := fromEvent_brk hh.1
              exact ⟨.inl h1, h2, by rw [ha]; simp, by rw [ha]; simp⟩
        simp only at hh
        split at hh
        · exact step _ hh
        · exact step _ hh
      · simp only [Except.ok.injEq, Prod.mk.injEq] at hh
        obtain ⟨h1, h2⟩ := boe hh.1
        exact ⟨.inl h1, h2, by rw [ha]; simp, by rw [ha]; simp⟩

/-- How many rounds there may still be. -/
def CPos.rounds : CPos C V W → Nat
  | .at_ _ _ _ (some _) => 3
  | .at_ _ _ _ none => 2
  | .init => 1
  | _ => 0

theorem EnumTy.findGroups_ends {T : EnumTy H C V W} (hT : T.Fine) (h : H) {e : Event} {t : Tag}
    (he : tagOf e = some t) : ∀ (fs : List (Field H C V)), (∀ f ∈ fs, f.Ends) → ∀ (i : Nat) (any : Bool)
    (st : CPos C V W), Live (T.findGroups h fs i e any st) ∧
    ∀ r st', T.findGroups h fs i e any st = .ok (r, st') → ∃ ev a, r = .brk ev a ∧
      (∀ x, ev = .cont x → x = e) ∧ (st' = .init ∨ ∀ x, ev ≠ .cont x) := by
  have hne : ∀ n, e ≠ .end_ n := by intro n hn; rw [hn] at he; cases he
  intro fs
  induction fs with
  | nil =>
    intro _ i any st
    refine ⟨live_ok _, fun r st' hr => ?_⟩
    simp only [EnumTy.findGroups, Except.ok.injEq, Prod.mk.injEq] at hr
    refine ⟨_, _, hr.1.symm, fun x hx => by cases hx; rfl, .inl hr.2.symm⟩
  | cons f fs ih =>
    intro hfs i any st
    have ih := ih fun g hg => hfs g (List.mem_cons_of_mem _ hg)
    have hf := hfs f List.mem_cons_self
    unfold EnumTy.findGroups
    split
    · exact ih _ _ _
    · have hl := hf.de.live none h e
      cases ho : f.de.init h e with
      | error err => exact ⟨live_err fun h' => hl (by rw [h'] at ho; exact ho), fun r st' hr => by cases hr⟩
      | ok out =>
        simp only
        have hs := hf.de.same none h e out ho
        cases hh : T.handle f i h st [] none out with
        | error err =>
          exact ⟨live_err fun h' => EnumTy.handle_live hT hf i h st [] none out (by rw [hh, h']),
            fun r st' hr => by cases hr⟩
        | ok p =>
          obtain ⟨r, st1⟩ := p
          cases r with
          | cont x b =>
            simp only
            have := hs x (EnumTy.handle_goes hh).1
            subst this
            exact ih _ _ _
          | brk ev b =>
            simp only
            refine ⟨live_ok _, fun r st' hr => ?_⟩
            simp only [Except.ok.injEq, Prod.mk.injEq] at hr
            obtain ⟨h1, h2, h3, h4⟩ := EnumTy.handle_stops hh
            have h5 : ∀ x, ev = .cont x → out.event = .cont x := by
              intro x hx
              rcases h1 with h1 | h1
              · rw [← h1, hx]
              · exact absurd (h1 ▸ hx) (intoBreak_cont _ _)
            refine ⟨_, _, hr.1.symm, fun x hx => hs x (h5 x hx), ?_⟩
            right
            intro x hx
            by_cases ha : out.artifact = .none
            · have := h4 ha rfl rfl x hx
              rw [hs x (h5 x hx), he] at this
              cases this
            · exact hf.de.tidy h e out hne ho ha x (h5 x hx)

theorem findAlt_mem (h : H) (t : Tag) : ∀ (fs : List (Field H C V)) (k i : Nat) (f : Field H C V),
    findAlt h t fs k = some (i, f) → f ∈ fs ∧ f.want.isSome = true := by
  intro fs
  induction fs with
  | nil => intro k i f hf; cases hf
  | cons g fs ih =>
    intro k i f hf
    unfold findAlt at hf
    split at hf
    · next w hw =>
      split at hf
      · simp only [Option.some.injEq, Prod.mk.injEq] at hf
        rw [← hf.2]
        exact ⟨List.mem_cons_self, by rw [hw]; rfl⟩
      · exact ⟨List.mem_cons_of_mem _ (ih _ _ _ hf).1, (ih _ _ _ hf).2⟩
    · exact ⟨List.mem_cons_of_mem _ (ih _ _ _ hf).1, (ih _ _ _ hf).2⟩

theorem EnumTy.findSuitable_ends {T : EnumTy H C V W} (hT : T.Fine) (h : H) {e : Event}
    (hne : ∀ n, e ≠ .end_ n) : Live (T.findSuitable h e) ∧
    ∀ r st', T.findSuitable h e = .ok (r, st') → ∃ ev a, r = .brk ev a ∧
      (∀ x, ev = .cont x → x = e) ∧ (st' = .init ∨ ∀ x, ev ≠ .cont x) ∧
      (e = .eof → ev.event = some .eof ∧ a = false) := by
  unfold EnumTy.findSuitable
  cases he : tagOf e with
  | none =>
    refine ⟨live_ok _, fun r st' hr => ?_⟩
    simp only [Except.ok.injEq, Prod.mk.injEq] at hr
    exact ⟨_, _, hr.1.symm, fun x hx => by cases hx; rfl, .inl hr.2.symm,
      fun he => ⟨by rw [he]; rfl, hT.any⟩⟩
  | some t =>
    have hnf : e ≠ .eof := by intro h'; rw [h'] at he; cases he
    simp only
    cases ha : findAlt h t T.alts 0 with
    | none =>
      obtain ⟨h1, h2⟩ := EnumTy.findGroups_ends hT h he T.alts hT.alts 0 false .unknown
      refine ⟨h1, fun r st' hr => ?_⟩
      obtain ⟨ev, a, h3, h4, h5⟩ := h2 r st' hr
      exact ⟨ev, a, h3, h4, h5, fun h' => absurd h' hnf⟩
    | some p =>
      obtain ⟨i, f⟩ := p
      obtain ⟨hm, hw⟩ := findAlt_mem h t _ _ _ _ ha
      have hf := hT.alts f hm
      simp only [EnumTy.enter]
      have hl := hf.de.live none h e
      cases ho : f.de.init h e with
      | error err => exact ⟨live_err fun h' => hl (by rw [h'] at ho; exact ho), fun r st' hr => by cases hr⟩
      | ok out =>
        simp only
        have hs := hf.de.same none h e out ho
        refine ⟨EnumTy.handle_live hT hf _ _ _ _ _ _, fun r st' hh => ?_⟩
        cases r with
        | cont x b =>
          exfalso
          obtain ⟨h1, h2⟩ := EnumTy.handle_goes hh
          rcases h2 with ⟨⟨n, hn⟩, -⟩ | ⟨h2, -, h3⟩ | ⟨h2, -⟩
          · exact hne n ((hs x h1).symm.trans hn)
          · cases hww : f.want with
            | none => rw [hww] at hw; cases hw
            | some w => rw [hww] at h3; cases h3
          · exact hf.de.tidy h e out hne ho h2 x h1
        | brk ev b =>
          obtain ⟨h1, h2, h3, h4⟩ := EnumTy.handle_stops hh
          have h5 : ∀ x, ev = .cont x → out.event = .cont x := by
            intro x hx
            rcases h1 with h1 | h1
            · rw [← h1, hx]
            · exact absurd (h1 ▸ hx) (intoBreak_cont _ _)
          refine ⟨_, _, rfl, fun x hx => hs x (h5 x hx), ?_, fun h' => absurd h' hnf⟩
          right
          intro x hx
          by_cases ha : out.artifact = .none
          · have := h4 ha rfl rfl x hx
            rw [hs x (h5 x hx), he] at this
            cases this
          · exact hf.de.tidy h e out hne ho ha x (h5 x hx)

/-- What a returned output has to satisfy. -/
def Fits (e : Event) {C' W' : Type} (out : Output C' W') : Prop :=
  (∀ x, out.event = .cont x → x = e) ∧
  (∀ n, e = .end_ n → (∀ x, out.event ≠ .cont x) ∨ ∃ v, out.artifact = .data v) ∧
  (e = .eof → out.event.event = some .eof ∧ out.allowAny = false)

theorem CRound.stop_ret (st : CPos C V W) (ev : DEvent) (a : Bool) :
    ∃ out : Output (CPos C V W) W, CRound.stop st ev a = .ret out ∧ out.event = ev ∧ out.allowAny = a ∧
      ((∃ w, st = .done w ∧ out.artifact = .data w) ∨ out.artifact = .deser st) := by
  cases st with
  | done w => exact ⟨_, rfl, rfl, rfl, .inl ⟨w, rfl, rfl⟩⟩
  | init => exact ⟨_, rfl, rfl, rfl, .inr rfl⟩
  | at_ i vs fb c => exact ⟨_, rfl, rfl, rfl, .inr rfl⟩
  | unknown => exact ⟨_, rfl, rfl, rfl, .inr rfl⟩

theorem EnumTy.atEnd_ends {T : EnumTy H C V W} (hT : T.Fine) (h : H) (n : Str) (st : CPos C V W) :
    Live (T.atEnd h n st) ∧ ∀ r, T.atEnd h n st = .ok r → ∃ out, r = .ret out ∧ Fits (.end_ n) out := by
  unfold EnumTy.atEnd
  have := EnumTy.finishState_live hT h st
  split
  · next e he => exact ⟨live_err fun h' => this (by rw [he, h']), fun r hr => by cases hr⟩
  · refine ⟨live_ok _, fun r hr => ?_⟩
    simp only [Except.ok.injEq] at hr
    refine ⟨_, hr.symm, ?_, fun _ _ => .inr ⟨_, rfl⟩, fun h' => by cases h'⟩
    intro x hx
    simp only at hx
    split at hx
    · cases hx
    · cases hx; rfl

/-- One round. -/
theorem EnumTy.round_ends {T : EnumTy H C V W} (hT : T.Fine) (h : H) (e : Event) (st : CPos C V W) :
    Live (T.round h e st) ∧ ∀ r, T.round h e st = .ok r →
      (∃ st', r = .again e st' ∧ st'.rounds < st.rounds ∧ e ≠ .eof) ∨ (∃ out, r = .ret out ∧ Fits e out) := by
  have enter : ∀ (f : Field H C V) (hf : f.Ends) (i : Nat) (vs : List V) (fb : Option C)
      (q : Except GErr (Output C V)) (hq : Live q)
      (hs : ∀ out, q = .ok out → ∀ x, out.event = .cont x → x = e)
      (hc : (∀ n, e ≠ .end_ n) ∧ (∀ out, q = .ok out → out.artifact ≠ .none → ∀ x, out.event ≠ .cont x) ∧ 1 < st.rounds ∨
        (∀ n, e = .end_ n → ∀ out, q = .ok out → ∀ x, out.event = .cont x → ∃ v, out.artifact = .data v) ∧ 2 < st.rounds)
      (heof : e = .eof → ∀ out, q = .ok out → out.event.event = some .eof ∧ out.allowAny = false),
      Live (CRound.after (T.enter f i h vs fb q)) ∧ ∀ r, CRound.after (T.enter f i h vs fb q) = .ok r →
      (∃ st', r = .again e st' ∧ st'.rounds < st.rounds ∧ e ≠ .eof) ∨ (∃ out, r = .ret out ∧ Fits e out) := by
    intro f hf i vs fb q hq hs hc heof
    unfold EnumTy.enter
    cases q with
    | error err => exact ⟨live_err fun h' => hq (by rw [h']), fun r hr => by cases hr⟩
    | ok out =>
      simp only
      have hl := EnumTy.handle_live hT hf i h .unknown vs fb out
      cases hh : T.handle f i h .unknown vs fb out with
      | error err => exact ⟨live_err fun h' => hl (by rw [hh, h']), fun r hr => by cases hr⟩
      | ok p =>
        obtain ⟨r, st'⟩ := p
        cases r with
        | cont x b =>
          simp only [CRound.after]
          refine ⟨live_ok _, fun r hr => ?_⟩
          simp only [Except.ok.injEq] at hr
          obtain ⟨h1, h2⟩ := EnumTy.handle_goes hh
          have hx := hs out rfl x h1
          subst hx
          refine .inl ⟨st', hr.symm, ?_, ?_⟩
          · rcases h2 with ⟨⟨n, hn⟩, h2⟩ | ⟨h2, h3, -⟩ | ⟨h2, j, us, fb', h3⟩
            · exfalso
              rcases hc with ⟨hc, -⟩ | ⟨hc, -⟩
              · exact hc n hn
              · obtain ⟨v, hv⟩ := hc n hn out rfl x h1
                exact h2 v hv
            · have : st'.rounds ≤ 1 := by
                rcases h3 with h3 | h3 <;> rw [h3] <;> simp [CPos.rounds]
              rcases hc with ⟨-, -, hc⟩ | ⟨-, hc⟩ <;> omega
            · rw [h3]
              rcases hc with ⟨-, hc, -⟩ | ⟨-, hc⟩
              · exact absurd h1 (hc out rfl h2 x)
              · exact hc
          · intro he
            subst he
            have := (heof rfl out rfl).1
            unfold EnumTy.handle at hh
            have fe := fun b => fromEvent_eof (a := b) this
            rcases h2 with ⟨⟨n, hn⟩, -⟩ | ⟨h2, -, h3⟩ | ⟨h2, -⟩
            · cases hn
            · have hcr : ∀ b, contOrReturn f out.event b = .brk out.event b := by
                intro b; unfold contOrReturn; rw [if_pos h3, fe]
              have hbe : ∀ b, ∀ x b', T.breakOrEnd out.event b ≠ .cont x b' := by
                intro b x b' hb
                unfold EnumTy.breakOrEnd at hb
                split at hb
                · obtain ⟨h5, n, h6⟩ := fromEventEnd_cont hb
                  rw [h5, h6] at this; cases this
                · cases hb
              rw [h2] at hh
              simp only [EnumTy.handleNone, hcr, Except.ok.injEq] at hh
              repeat' split at hh
              all_goals first
                | (cases hh; done)
                | (simp only [Prod.mk.injEq] at hh; exact absurd hh.1 (hbe _ _ _))
            · have hbe : ∀ b, ∀ x b', T.breakOrEnd out.event b ≠ .cont x b' := by
                intro b x b' hb
                unfold EnumTy.breakOrEnd at hb
                split at hb
                · obtain ⟨h5, n, h6⟩ := fromEventEnd_cont hb
                  rw [h5, h6] at this; cases this
                · cases hb
              simp only [fe] at hh
              split at hh
              · next ha => exact h2 ha
              · repeat' split at hh
                all_goals (cases hh; done)
              · repeat' split at hh
                all_goals first
                  | (cases hh; done)
                  | (simp only [Except.ok.injEq, Prod.mk.injEq] at hh; exact absurd hh.1 (hbe _ _ _))
        | brk ev b =>
          simp only [CRound.after]
          refine ⟨live_ok _, fun r hr => ?_⟩
          simp only [Except.ok.injEq] at hr
          obtain ⟨h1, h2, h3, h4⟩ := EnumTy.handle_stops hh
          obtain ⟨o, ho, hoe, hoa, hod⟩ := CRound.stop_ret st' ev b
          have h5 : ∀ x, ev = .cont x → out.event = .cont x := by
            intro x hx
            rcases h1 with h1 | h1
            · rw [← h1, hx]
            · exact absurd (h1 ▸ hx) (intoBreak_cont _ _)
          refine .inr ⟨o, hr.symm.trans ho, ?_, ?_, ?_⟩
          · intro x hx; exact hs out rfl x (h5 x (hoe ▸ hx))
          · intro n hn
            rcases hc with ⟨hc, -⟩ | ⟨hc, -⟩
            · exact absurd hn (hc n)
            · by_cases hex : ∃ x, ev = .cont x
              · obtain ⟨x, hx⟩ := hex
                obtain ⟨v, hv⟩ := hc n hn out rfl x (h5 x hx)
                have hxe := hs out rfl x (h5 x hx)
                rcases h3 v hv with ⟨w, hw⟩ | h3
                · rcases hod with ⟨w', -, hod⟩ | hod
                  · exact .inr ⟨w', hod⟩
                  · subst hw
                    rw [CRound.stop] at ho
                    simp only [CRound.ret.injEq] at ho
                    rw [← ho] at hod
                    cases hod
                · exact absurd (by rw [hx, hxe, hn]) (h3 n)
              · left
                intro x hx
                exact hex ⟨x, hoe ▸ hx⟩
          · intro he
            obtain ⟨e1, e2⟩ := heof he out rfl
            refine ⟨?_, by rw [hoa, h2, e2]⟩
            rw [hoe]
            rcases h1 with h1 | h1
            · rw [h1, e1]
            · rw [h1, intoBreak_event, e1]
  unfold EnumTy.round
  split
  · exact ⟨live_err (by simp), fun r hr => by cases hr⟩
  · next i vs fb c =>
    cases hf : T.alts[i]? with
    | none => exact ⟨live_err (by simp), fun r hr => by cases hr⟩
    | some f =>
      have hf := hT.alts f (List.mem_of_getElem? hf)
      exact enter f hf i vs fb _ (hf.de.live (some c) h e) (hf.de.same (some c) h e)
        (.inr ⟨fun n hn out ho x hx => hf.de.ended c h n out (by subst hn; exact ho) x hx, by simp [CPos.rounds]⟩)
        (fun he out ho => hf.de.eof (some c) h out (by subst he; exact ho))
  · split
    · obtain ⟨h1, h2⟩ := EnumTy.atEnd_ends hT h (by assumption) .init
      exact ⟨h1, fun r hr => .inr (h2 r hr)⟩
    · next hne =>
      obtain ⟨h1, h2⟩ := EnumTy.findSuitable_ends hT h (fun n hn => hne n hn)
      cases hr : T.findSuitable h e with
      | error err => exact ⟨live_err fun h' => h1 (by rw [hr, h']), fun r hr => by cases hr⟩
      | ok p =>
        obtain ⟨r, st'⟩ := p
        obtain ⟨ev, a, rfl, h3, h4, h5⟩ := h2 r st' hr
        simp only [CRound.after]
        refine ⟨live_ok _, fun r hr => ?_⟩
        simp only [Except.ok.injEq] at hr
        obtain ⟨o, ho, hoe, hoa, hod⟩ := CRound.stop_ret st' ev a
        refine .inr ⟨o, hr.symm.trans ho, by rw [hoe]; exact h3, fun n hn => absurd hn (hne n), ?_⟩
        rw [hoe, hoa]; exact h5
  · next i vs fb =>
    split
    · obtain ⟨h1, h2⟩ := EnumTy.atEnd_ends hT h (by assumption) (.at_ i vs fb none)
      exact ⟨h1, fun r hr => .inr (h2 r hr)⟩
    · next hne =>
      split
      · refine ⟨live_ok _, fun r hr => ?_⟩
        simp only [Except.ok.injEq, CRound.stop] at hr
        exact .inr ⟨_, hr.symm, fun x hx => by cases hx; rfl, fun n hn => absurd hn (hne n),
          fun he => ⟨by rw [he]; rfl, rfl⟩⟩
      · next t ht =>
        split
        · exact ⟨live_err (by simp), fun r hr => by cases hr⟩
        · next f hf =>
          have hf := hT.alts f (List.mem_of_getElem? hf)
          refine enter f hf i vs fb _ (create_live hf h e)
            (fun out ho => (create_ends hf (fun n hn => hne n hn) ho).1)
            (.inl ⟨fun n hn => hne n hn, fun out ho => (create_ends hf (fun n hn => hne n hn) ho).2, by simp [CPos.rounds]⟩)
            (fun he => by subst he; cases ht)
  · next w =>
    split
    · obtain ⟨h1, h2⟩ := EnumTy.atEnd_ends hT h (by assumption) (.done w)
      exact ⟨h1, fun r hr => .inr (h2 r hr)⟩
    · next hne =>
      refine ⟨live_ok _, fun r hr => ?_⟩
      simp only [Except.ok.injEq, CRound.stop] at hr
      exact .inr ⟨_, hr.symm, fun x hx => by cases hx; rfl, fun n hn => absurd hn (hne n),
        fun he => ⟨by rw [he]; rfl, rfl⟩⟩

theorem EnumTy.loop_ends {T : EnumTy H C V W} (hT : T.Fine) (h : H) (e : Event) : ∀ (n : Nat)
    (st : CPos C V W), st.rounds < n →
    Live (T.loop h n e st) ∧ ∀ out, T.loop h n e st = .ok out → Fits e out := by
  intro n
  induction n with
  | zero => intro st hn; omega
  | succ n ih =>
    intro st hn
    simp only [EnumTy.loop]
    obtain ⟨h1, h2⟩ := EnumTy.round_ends hT h e st
    cases hr : T.round h e st with
    | error err => exact ⟨live_err fun h' => h1 (by rw [hr, h']), fun r hr => by cases hr⟩
    | ok r =>
      rcases h2 r hr with ⟨st', rfl, h3, -⟩ | ⟨out, rfl, h3⟩
      · exact ih st' (by omega)
      · exact ⟨live_ok _, fun o ho => by cases ho; exact h3⟩

theorem EnumTy.next_ends {T : EnumTy H C V W} (hT : T.Fine) (st : CPos C V W) (h : H) (e : Event) :
    Live (T.next st h e) ∧ ∀ out, T.next st h e = .ok out → Fits e out :=
  EnumTy.loop_ends hT h e 4 st (by
    unfold CPos.rounds
    split <;> omega)

theorem EnumTy.de_ends {T : EnumTy H C V W} (hT : T.Fine) : T.de.Ends := by
  have hn := fun s h e => EnumTy.next_ends hT s h e
  by_cases hel : T.isElement = true
  · refine ends_of_element (d := T.de) (f := fun h t => (T.check h t).map fun _ => .init) (fin := T.finish) ?_
      (fun h t => live_map (hT.check h t) _) (fun c h => EnumTy.finishState_live hT h c)
      (fun c h => EnumTy.finishState_live hT h c) (fun c h e out ho => ((hn c h e).2 out ho).1) ?_
      (fun c h out ho => ((hn c h .eof).2 out ho).2.2 rfl) (fun c h e => (hn c h e).1)
    · intro h e
      simp only [EnumTy.de, EnumTy.init, hel, if_true]
    · intro c h n out ho x hx
      rcases ((hn c h _).2 out ho).2.1 n rfl with h1 | h1
      · exact absurd hx (h1 x)
      · exact h1
  · have hi : ∀ h e out, T.de.init h e = .ok out → ∃ o, T.next .init h e = .ok o ∧
        out.event = o.event ∧ out.allowAny = o.allowAny ∧ out.artifact = CPos.begun o.artifact := by
      intro h e out ho
      simp only [EnumTy.de, EnumTy.init, hel, Bool.false_eq_true, if_false] at ho
      cases hx : T.next .init h e with
      | error err => rw [hx] at ho; cases ho
      | ok o =>
        rw [hx] at ho
        simp only [Except.ok.injEq] at ho
        subst ho
        exact ⟨o, rfl, rfl, rfl, rfl⟩
    refine ⟨?_, ?_, ?_, ?_, ?_, fun c h => EnumTy.finishState_live hT h c⟩
    · intro st h e out ho x hx
      cases st with
      | some c => exact ((hn c h e).2 out ho).1 x hx
      | none =>
        obtain ⟨o, h1, h2, -⟩ := hi h e out ho
        exact ((hn _ h e).2 o h1).1 x (by rw [← h2, hx])
    · intro h e out hne ho hna x hx
      obtain ⟨o, h1, h2, -, h4⟩ := hi h e out ho
      have h1 : T.loop h 4 e .init = .ok o := h1
      obtain ⟨-, g2⟩ := EnumTy.findSuitable_ends hT h hne
      have hround : T.round h e .init = CRound.after (T.findSuitable h e) := by
        cases e <;> first | rfl | exact absurd rfl (hne _)
      rw [EnumTy.loop, hround] at h1
      cases hs : T.findSuitable h e with
      | error err => rw [hs] at h1; cases h1
      | ok p =>
        obtain ⟨r, st'⟩ := p
        obtain ⟨ev, a, rfl, -, g3, -⟩ := g2 r st' hs
        rw [hs] at h1
        obtain ⟨o', ho', hoe, hoa, hod⟩ := CRound.stop_ret st' ev a
        simp only [CRound.after, ho', CRound.resume, Except.ok.injEq] at h1
        subst h1
        rcases g3 with rfl | g3
        · simp only [CRound.stop, CRound.ret.injEq] at ho'
          rw [← ho'] at h4
          exact hna h4
        · exact g3 x (by rw [← hoe, ← h2, hx])
    · intro c h n out ho x hx
      rcases ((hn c h _).2 out ho).2.1 n rfl with h1 | h1
      · exact absurd hx (h1 x)
      · exact h1
    · intro st h out ho
      cases st with
      | some c => exact ((hn c h _).2 out ho).2.2 rfl
      | none =>
        obtain ⟨o, h1, h2, h3, -⟩ := hi h _ out ho
        rw [h2, h3]
        exact ((hn _ h _).2 o h1).2.2 rfl
    · intro st h e
      cases st with
      | some c => exact (hn c h e).1
      | none =>
        simp only [GDe.call, EnumTy.de, EnumTy.init, hel, Bool.false_eq_true, if_false]
        cases hx : T.next .init h e with
        | error err => exact live_err fun he => (hn _ h e).1 (by rw [hx, he])
        | ok o => exact live_ok _

/-! ## `xs:all` -/

theorem allStore_live (f : Field H C V) (i : Nat) (v : V) (s : ASt A C V) : Live (allStore f i v s) := by
  unfold allStore
  split
  · next e he => exact live_err fun h' => storeAlt_live _ _ _ (by rw [he, h'])
  · exact live_ok _

theorem SeqTy.allFlush_live {T : SeqTy H A C V W} (hT : ∀ f ∈ T.fields, f.Ends) (h : H)
    (fb : Option (APos C)) (s : ASt A C V) : Live (T.allFlush h fb s) := by
  unfold SeqTy.allFlush
  split
  · next i c =>
    split
    · exact live_err (by simp)
    · next f hf =>
      split
      · next e he => exact live_err fun h' => (hT f (List.mem_of_getElem? hf)).de.fin c h (by rw [he, h'])
      · exact allStore_live _ _ _ _
  · exact live_ok _

theorem SeqTy.allFinishVals_live {T : SeqTy H A C V W} (hT : ∀ f ∈ T.fields, f.Ends) (s : ASt A C V)
    (h : H) : Live (T.allFinishVals s h) :=
  live_map (finishFields_live h T.fields s.vals hT) _

theorem SeqTy.allFinish_live {T : SeqTy H A C V W} (hT : ∀ f ∈ T.fields, f.Ends) (s : ASt A C V)
    (h : H) : Live (T.allFinish s h) := by
  unfold SeqTy.allFinish
  split
  · next e he => exact live_err fun h' => SeqTy.allFlush_live hT _ _ _ (by rw [he, h'])
  · exact SeqTy.allFinishVals_live hT _ _

theorem SeqTy.allHandle_live {T : SeqTy H A C V W} (hT : ∀ f ∈ T.fields, f.Ends) (f : Field H C V)
    (i : Nat) (out : Output C V) (h : H) (s : ASt A C V) (fb : Option (APos C)) :
    Live (T.allHandle f i out h s fb) := by
  unfold SeqTy.allHandle
  split
  · exact live_ok _
  · split
    · next e he => exact live_err fun h' => SeqTy.allFlush_live hT _ _ _ (by rw [he, h'])
    · split
      · next e he => exact live_err fun h' => allStore_live _ _ _ _ (by rw [he, h'])
      · exact live_ok _
  · split
    · next e he => exact live_err fun h' => SeqTy.allFlush_live hT _ _ _ (by rw [he, h'])
    · exact live_ok _

theorem SeqTy.allHandle_goes {T : SeqTy H A C V W} {f : Field H C V} {i : Nat} {out : Output C V}
    {h : H} {s s' : ASt A C V} {fb fb' : Option (APos C)} {x : Event} {b : Bool}
    (hh : T.allHandle f i out h s fb = .ok (.cont x b, s', fb')) :
    out.event = .cont x ∧ s'.pos = .next ∧ (out.artifact = .none → f.want.isNone = true) := by
  unfold SeqTy.allHandle at hh
  split at hh
  · simp only [Except.ok.injEq, Prod.mk.injEq] at hh
    obtain ⟨h1, h2⟩ := contOrReturn_cont hh.1
    exact ⟨h1, by rw [← hh.2.1], fun _ => h2⟩
  · next ha =>
    split at hh
    · cases hh
    · split at hh
      · cases hh
      · simp only [Except.ok.injEq, Prod.mk.injEq] at hh
        exact ⟨EHO.fromEvent_cont hh.1, by rw [← hh.2.1], by rw [ha]; simp⟩
  · next ha =>
    split at hh
    · cases hh
    · simp only [Except.ok.injEq, Prod.mk.injEq] at hh
      exact ⟨EHO.fromEvent_cont hh.1, by rw [← hh.2.1], by rw [ha]; simp⟩

theorem SeqTy.allHandle_stops {T : SeqTy H A C V W} {f : Field H C V} {i : Nat} {out : Output C V}
    {h : H} {s s' : ASt A C V} {fb fb' : Option (APos C)} {ev : DEvent} {b : Bool}
    (hh : T.allHandle f i out h s fb = .ok (.brk ev b, s', fb')) :
    (ev = out.event ∨ ev = intoBreak out.event) ∧ b = out.allowAny ∧ ∀ n, ev ≠ .cont (.end_ n) := by
  have fe : EHO.fromEvent out.event out.allowAny = .brk ev b →
      (ev = out.event ∨ ev = intoBreak out.event) ∧ b = out.allowAny ∧ ∀ n, ev ≠ .cont (.end_ n) := by
    intro h
    obtain ⟨h1, h2, h3⟩ := fromEvent_brk h
    exact ⟨.inl h1, h2, fun n hn => (h3 _ (h1 ▸ hn)).2 n rfl⟩
  unfold SeqTy.allHandle at hh
  split at hh
  · simp only [Except.ok.injEq, Prod.mk.injEq] at hh
    obtain ⟨h1, h2, h3⟩ := contOrReturn_brk hh.1
    exact ⟨h1, h2, fun n hn => (h3 _ hn).2 n rfl⟩
  · split at hh
    · cases hh
    · split at hh
      · cases hh
      · simp only [Except.ok.injEq, Prod.mk.injEq] at hh
        exact fe hh.1
  · split at hh
    · cases hh
    · simp only [Except.ok.injEq, Prod.mk.injEq] at hh
      exact fe hh.1

theorem SeqTy.allGroups_ends {T : SeqTy H A C V W} (hT : ∀ f ∈ T.fields, f.Ends) (h : H) (e : Event) :
    ∀ (fs : List (Field H C V)), (∀ f ∈ fs, f.Ends) → ∀ (i : Nat) (any : Bool)
    (s : ASt A C V) (fb : Option (APos C)), Live (T.allGroups h fs i e any s fb) ∧
    ∀ r s' fb', T.allGroups h fs i e any s fb = .ok (r, s', fb') → ∃ ev a, r = .brk ev a ∧
      ∀ x, ev = .cont x → x = e := by
  intro fs
  induction fs with
  | nil =>
    intro _ i any s fb
    refine ⟨live_ok _, fun r s' fb' hr => ?_⟩
    simp only [SeqTy.allGroups, Except.ok.injEq, Prod.mk.injEq] at hr
    exact ⟨_, _, hr.1.symm, fun x hx => by cases hx; rfl⟩
  | cons f fs ih =>
    intro hfs i any s fb
    have ih := ih fun g hg => hfs g (List.mem_cons_of_mem _ hg)
    have hf := hfs f List.mem_cons_self
    unfold SeqTy.allGroups
    split
    · exact ih _ _ _ _
    · have hl := hf.de.live none h e
      cases ho : f.de.init h e with
      | error err => exact ⟨live_err fun h' => hl (by rw [h'] at ho; exact ho), fun r s' fb' hr => by cases hr⟩
      | ok out =>
        simp only [SeqTy.allEnter]
        have hs := hf.de.same none h e out ho
        cases hh : T.allHandle f i out h s fb with
        | error err =>
          exact ⟨live_err fun h' => SeqTy.allHandle_live hT f i out h s fb (by rw [hh, h']),
            fun r s' fb' hr => by cases hr⟩
        | ok p =>
          obtain ⟨r, s1, fb1⟩ := p
          cases r with
          | cont x b =>
            simp only
            have := hs x (SeqTy.allHandle_goes hh).1
            subst this
            exact ih _ _ _ _
          | brk ev b =>
            simp only
            refine ⟨live_ok _, fun r s' fb' hr => ?_⟩
            simp only [Except.ok.injEq, Prod.mk.injEq] at hr
            obtain ⟨h1, -, -⟩ := SeqTy.allHandle_stops hh
            refine ⟨_, _, hr.1.symm, fun x hx => hs x ?_⟩
            rcases h1 with h1 | h1
            · rw [← h1, hx]
            · exact absurd (h1 ▸ hx) (intoBreak_cont _ _)

theorem SeqTy.allFind_ends {T : SeqTy H A C V W} (hT : T.Fine) (h : H) {e : Event}
    (hne : ∀ n, e ≠ .end_ n) (s : ASt A C V) (fb : Option (APos C)) : Live (T.allFind h e s fb) ∧
    ∀ r s' fb', T.allFind h e s fb = .ok (r, s', fb') → ∃ ev a, r = .brk ev a ∧
      (∀ x, ev = .cont x → x = e) ∧ (e = .eof → ev.event = some .eof ∧ a = false) := by
  unfold SeqTy.allFind
  cases he : tagOf e with
  | none =>
    refine ⟨live_ok _, fun r s' fb' hr => ?_⟩
    simp only [Except.ok.injEq, Prod.mk.injEq] at hr
    exact ⟨_, _, hr.1.symm, fun x hx => by cases hx; rfl, fun he => ⟨by rw [he]; rfl, hT.any⟩⟩
  | some t =>
    have hnf : e ≠ .eof := by intro h'; rw [h'] at he; cases he
    simp only
    cases ha : findAlt h t T.fields 0 with
    | none =>
      obtain ⟨h1, h2⟩ := SeqTy.allGroups_ends hT.fields h e T.fields hT.fields 0 false s fb
      refine ⟨h1, fun r s' fb' hr => ?_⟩
      obtain ⟨ev, a, h3, h4⟩ := h2 r s' fb' hr
      exact ⟨ev, a, h3, h4, fun h' => absurd h' hnf⟩
    | some p =>
      obtain ⟨i, f⟩ := p
      obtain ⟨hm, hw⟩ := findAlt_mem h t _ _ _ _ ha
      have hf := hT.fields f hm
      simp only [SeqTy.allEnter]
      have hl := hf.de.live none h e
      cases ho : f.de.init h e with
      | error err => exact ⟨live_err fun h' => hl (by rw [h'] at ho; exact ho), fun r s' fb' hr => by cases hr⟩
      | ok out =>
        simp only
        have hs := hf.de.same none h e out ho
        refine ⟨SeqTy.allHandle_live hT.fields _ _ _ _ _ _, fun r s' fb' hh => ?_⟩
        cases r with
        | cont x b =>
          exfalso
          obtain ⟨h1, -, h3⟩ := SeqTy.allHandle_goes hh
          by_cases ha : out.artifact = .none
          · have := h3 ha
            cases hww : f.want with
            | none => rw [hww] at hw; cases hw
            | some w => rw [hww] at this; cases this
          · exact hf.de.tidy h e out hne ho ha x h1
        | brk ev b =>
          obtain ⟨h1, -, -⟩ := SeqTy.allHandle_stops hh
          refine ⟨_, _, rfl, fun x hx => hs x ?_, fun h' => absurd h' hnf⟩
          rcases h1 with h1 | h1
          · rw [← h1, hx]
          · exact absurd (h1 ▸ hx) (intoBreak_cont _ _)

/-- One round: it goes on at most once, after a running child. -/
theorem SeqTy.allRound_ends {T : SeqTy H A C V W} (hT : T.Fine) (h : H) (e : Event) (s : ASt A C V)
    (fb : Option (APos C)) :
    Live (T.allRound h e s fb) ∧ ∀ r, T.allRound h e s fb = .ok r →
      (∃ s' fb', r = .again e s' fb' ∧ s'.pos = .next ∧ ∃ i c, s.pos = .at_ i c) ∨
      (∃ out, r = .ret out ∧ Fits e out) := by
  have off : (∀ i c, s.pos ≠ .at_ i c) → ∀ pos : APos C,
      Live (match e with
        | .end_ n =>
          match T.allFinishVals s h with
          | .error err => .error err
          | .ok w => .ok (ARound.ret ⟨.data w, if T.isElement then .none else .cont (.end_ n), false⟩)
        | e => ARound.after (T.allFind h e s (some (fb.getD pos))) : Except GErr (ARound A C V W)) ∧
      ∀ r, (match e with
        | .end_ n =>
          match T.allFinishVals s h with
          | .error err => .error err
          | .ok w => .ok (ARound.ret ⟨.data w, if T.isElement then .none else .cont (.end_ n), false⟩)
        | e => ARound.after (T.allFind h e s (some (fb.getD pos))) : Except GErr (ARound A C V W)) = .ok r →
        (∃ out, r = .ret out ∧ Fits e out) := by
    intro _ pos
    split
    · next n =>
      have := SeqTy.allFinishVals_live hT.fields s h
      split
      · next err he => exact ⟨live_err fun h' => this (by rw [he, h']), fun r hr => by cases hr⟩
      · refine ⟨live_ok _, fun r hr => ?_⟩
        simp only [Except.ok.injEq] at hr
        refine ⟨_, hr.symm, ?_, fun _ _ => .inr ⟨_, rfl⟩, fun h' => by cases h'⟩
        intro x hx
        simp only at hx
        split at hx
        · cases hx
        · cases hx; rfl
    · next hne =>
      obtain ⟨h1, h2⟩ := SeqTy.allFind_ends hT h (fun n hn => hne n hn) s (some (fb.getD pos))
      cases hr : T.allFind h e s (some (fb.getD pos)) with
      | error err => exact ⟨live_err fun h' => h1 (by rw [hr, h']), fun r hr => by cases hr⟩
      | ok p =>
        obtain ⟨r, s', fb'⟩ := p
        obtain ⟨ev, a, rfl, h3, h4⟩ := h2 r s' fb' hr
        simp only [ARound.after]
        refine ⟨live_ok _, fun r hr => ?_⟩
        simp only [Except.ok.injEq] at hr
        exact ⟨_, hr.symm, h3, fun n hn => absurd hn (hne n), h4⟩
  unfold SeqTy.allRound
  split
  · next i c hp =>
    split
    · exact ⟨live_err (by simp), fun r hr => by cases hr⟩
    · next f hf =>
      have hf := hT.fields f (List.mem_of_getElem? hf)
      have hl := hf.de.live (some c) h e
      simp only [SeqTy.allEnter]
      cases ho : f.de.next c h e with
      | error err => exact ⟨live_err fun h' => hl (by rw [h'] at ho; exact ho), fun r hr => by cases hr⟩
      | ok out =>
        have hs := hf.de.same (some c) h e out ho
        simp only
        have hl := SeqTy.allHandle_live hT.fields f i out h s fb
        cases hh : T.allHandle f i out h s fb with
        | error err => exact ⟨live_err fun h' => hl (by rw [hh, h']), fun r hr => by cases hr⟩
        | ok p =>
          obtain ⟨r, s', fb'⟩ := p
          cases r with
          | cont x b =>
            simp only [ARound.after]
            refine ⟨live_ok _, fun r hr => ?_⟩
            simp only [Except.ok.injEq] at hr
            obtain ⟨h1, h2, -⟩ := SeqTy.allHandle_goes hh
            have := hs x h1
            subst this
            exact .inl ⟨s', fb', hr.symm, h2, i, c, hp⟩
          | brk ev b =>
            simp only [ARound.after]
            refine ⟨live_ok _, fun r hr => ?_⟩
            simp only [Except.ok.injEq] at hr
            obtain ⟨h1, h2, h3⟩ := SeqTy.allHandle_stops hh
            have h5 : ∀ x, ev = .cont x → x = e := by
              intro x hx
              rcases h1 with h1 | h1
              · exact hs x (by rw [← h1, hx])
              · exact absurd (h1 ▸ hx) (intoBreak_cont _ _)
            refine .inr ⟨_, hr.symm, h5, fun n hn => .inl fun x hx => ?_, fun he => ?_⟩
            · have hx : ev = .cont x := hx
              exact h3 n (by rw [hx, h5 x hx, hn])
            · subst he
              obtain ⟨e1, e2⟩ := hf.de.eof (some c) h out ho
              refine ⟨?_, by rw [← e2]; exact h2⟩
              show ev.event = _
              rcases h1 with h1 | h1
              · rw [h1, e1]
              · rw [h1, intoBreak_event, e1]
  · next hp =>
    obtain ⟨h1, h2⟩ := off (fun i c hc => hp i c hc) s.pos
    exact ⟨h1, fun r hr => .inr (h2 r hr)⟩

theorem SeqTy.allNext_ends {T : SeqTy H A C V W} (hT : T.Fine) (s : ASt A C V) (h : H) (e : Event) :
    Live (T.allNext s h e) ∧ ∀ out, T.allNext s h e = .ok out → Fits e out := by
  unfold SeqTy.allNext
  rw [SeqTy.allLoop]
  obtain ⟨h1, h2⟩ := SeqTy.allRound_ends hT h e s none
  cases hr : T.allRound h e s none with
  | error err => exact ⟨live_err fun h' => h1 (by rw [hr, h']), fun r hr => by cases hr⟩
  | ok r =>
    rcases h2 r hr with ⟨s', fb', rfl, h3, -⟩ | ⟨out, rfl, h3⟩
    · simp only
      rw [SeqTy.allLoop]
      obtain ⟨h1, h2⟩ := SeqTy.allRound_ends hT h e s' fb'
      cases hr : T.allRound h e s' fb' with
      | error err => exact ⟨live_err fun h' => h1 (by rw [hr, h']), fun r hr => by cases hr⟩
      | ok r =>
        rcases h2 r hr with ⟨_, _, rfl, -, i, c, h4⟩ | ⟨out, rfl, h3⟩
        · rw [h3] at h4; cases h4
        · exact ⟨live_ok _, fun o ho => by cases ho; exact h3⟩
    · exact ⟨live_ok _, fun o ho => by cases ho; exact h3⟩

theorem SeqTy.allDe_ends {T : SeqTy H A C V W} (hT : T.Fine) (hel : T.isElement = true) :
    T.allDe.Ends := by
  have hn := fun s h e => SeqTy.allNext_ends hT s h e
  refine ends_of_element (d := T.allDe) (f := fun h t => (T.ofTag h t).map T.allStart) (fin := T.allFinish) ?_
    (fun h t => live_map (hT.tag h t) _) (fun c h => SeqTy.allFinish_live hT.fields c h)
    (fun c h => SeqTy.allFinish_live hT.fields c h) (fun c h e out ho => ((hn c h e).2 out ho).1) ?_
    (fun c h out ho => ((hn c h .eof).2 out ho).2.2 rfl) (fun c h e => (hn c h e).1)
  · intro h e
    simp only [SeqTy.allDe, SeqTy.allInit, hel, if_true]
  · intro c h n out ho x hx
    rcases ((hn c h _).2 out ho).2.1 n rfl with h1 | h1
    · exact absurd hx (h1 x)
    · exact h1

/-! ## Structs with content -/

/-- The content ends. -/
structure ContentTy.Fine (T : ContentTy H A C V W) : Prop where
  content : T.content.Ends
  tag : ∀ h t, Live (T.ofTag h t)
  element : T.isElement = true

theorem ContentTy.flush_live {T : ContentTy H A C V W} (hT : T.Fine) (h : H)
    (fb : Option (KPos C)) (s : KSt A C V) : Live (T.flush h fb s) := by
  unfold ContentTy.flush
  split
  · split
    · next e he => exact live_err fun h' => hT.content.de.fin _ h (by rw [he, h'])
    · split
      · next e he => exact live_err fun h' => storeAlt_live _ _ _ (by rw [he, h'])
      · exact live_ok _
  · exact live_ok _

theorem ContentTy.finishVals_live {T : ContentTy H A C V W} (hT : T.Fine) (s : KSt A C V) (h : H) :
    Live (T.finishVals s h) := live_map (finishField_live hT.content _ _) _

theorem ContentTy.finish_live {T : ContentTy H A C V W} (hT : T.Fine) (s : KSt A C V) (h : H) :
    Live (T.finish s h) := by
  unfold ContentTy.finish
  split
  · next e he => exact live_err fun h' => ContentTy.flush_live hT _ _ _ (by rw [he, h'])
  · exact ContentTy.finishVals_live hT _ _

theorem ContentTy.handle_live {T : ContentTy H A C V W} (hT : T.Fine) (out : Output C V) (h : H)
    (s : KSt A C V) (fb : Option (KPos C)) : Live (T.handle out h s fb) := by
  unfold ContentTy.handle
  split
  · exact live_ok _
  · split
    · next e he => exact live_err fun h' => ContentTy.flush_live hT _ _ _ (by rw [he, h'])
    · split
      · next e he => exact live_err fun h' => storeAlt_live _ _ _ (by rw [he, h'])
      · simp only [hT.element, if_true]
        exact live_ok _
  · split
    · next e he => exact live_err fun h' => ContentTy.flush_live hT _ _ _ (by rw [he, h'])
    · split <;> exact live_ok _

theorem ContentTy.handle_goes {T : ContentTy H A C V W} (hT : T.Fine) {out : Output C V}
    {h : H} {s s' : KSt A C V} {fb fb' : Option (KPos C)} {x : Event} {b : Bool}
    (hh : T.handle out h s fb = .ok (.cont x b, s', fb')) :
    out.event = .cont x ∧ (((∃ n, x = .end_ n) ∧ ∀ v, out.artifact ≠ .data v) ∨
      (out.artifact ≠ .none ∧ s'.pos = .next)) := by
  unfold ContentTy.handle at hh
  split at hh
  · next ha =>
    simp only [ContentTy.handleNone, hT.element, if_true, Except.ok.injEq, Prod.mk.injEq] at hh
    obtain ⟨h1, h2⟩ := fromEventEnd_cont hh.1
    exact ⟨h1, .inl ⟨h2, by rw [ha]; simp⟩⟩
  · next ha =>
    split at hh
    · cases hh
    · split at hh
      · cases hh
      · simp only [hT.element, if_true, Except.ok.injEq, Prod.mk.injEq] at hh
        exact ⟨EHO.fromEvent_cont hh.1, .inr ⟨by rw [ha]; simp, by rw [← hh.2.1]⟩⟩
  · next ha =>
    split at hh
    · cases hh
    · split at hh
      · simp only [Except.ok.injEq, Prod.mk.injEq] at hh
        exact ⟨EHO.fromEvent_cont hh.1, .inr ⟨by rw [ha]; simp, by rw [← hh.2.1]⟩⟩
      · simp only [ContentTy.breakOrEnd, hT.element, if_true, Except.ok.injEq, Prod.mk.injEq] at hh
        obtain ⟨h1, h2⟩ := fromEventEnd_cont hh.1
        exact ⟨h1, .inl ⟨h2, by rw [ha]; simp⟩⟩

theorem ContentTy.handle_stops {T : ContentTy H A C V W} (hT : T.Fine) {out : Output C V}
    {h : H} {s s' : KSt A C V} {fb fb' : Option (KPos C)} {ev : DEvent} {b : Bool}
    (hh : T.handle out h s fb = .ok (.brk ev b, s', fb')) :
    ev = out.event ∧ b = out.allowAny ∧ ∀ n, ev ≠ .cont (.end_ n) := by
  have fe : EHO.fromEvent out.event out.allowAny = .brk ev b →
      ev = out.event ∧ b = out.allowAny ∧ ∀ n, ev ≠ .cont (.end_ n) := by
    intro h
    obtain ⟨h1, h2, h3⟩ := fromEvent_brk h
    exact ⟨h1, h2, fun n hn => (h3 _ (h1 ▸ hn)).2 n rfl⟩
  have fee : EHO.fromEventEnd out.event out.allowAny = .brk ev b →
      ev = out.event ∧ b = out.allowAny ∧ ∀ n, ev ≠ .cont (.end_ n) := by
    intro h
    obtain ⟨h1, h2, h3⟩ := fromEventEnd_brk h
    exact ⟨h1, h2, fun n hn => h3 n (h1 ▸ hn)⟩
  unfold ContentTy.handle at hh
  split at hh
  · simp only [ContentTy.handleNone, hT.element, if_true, Except.ok.injEq, Prod.mk.injEq] at hh
    exact fee hh.1
  · split at hh
    · cases hh
    · split at hh
      · cases hh
      · simp only [hT.element, if_true, Except.ok.injEq, Prod.mk.injEq] at hh
        exact fe hh.1
  · split at hh
    · cases hh
    · split at hh
      · simp only [Except.ok.injEq, Prod.mk.injEq] at hh
        exact fe hh.1
      · simp only [ContentTy.breakOrEnd, hT.element, if_true, Except.ok.injEq, Prod.mk.injEq] at hh
        exact fee hh.1

theorem ContentTy.stop_ends {T : ContentTy H A C V W} (hT : T.Fine) (h : H) (s : KSt A C V)
    (fb : Option (KPos C)) (ev : DEvent) (a : Bool) : Live (T.stop h s fb ev a) ∧
    ∀ r, T.stop h s fb ev a = .ok r → ∃ out, r = .ret out ∧ out.event = ev ∧ out.allowAny = a := by
  unfold ContentTy.stop
  simp only
  split
  · split
    · next e he =>
      exact ⟨live_err fun h' => ContentTy.finish_live hT _ _ (by rw [he, h']), fun r hr => by cases hr⟩
    · exact ⟨live_ok _, fun r hr => by cases hr; exact ⟨_, rfl, rfl, rfl⟩⟩
  · exact ⟨live_ok _, fun r hr => by cases hr; exact ⟨_, rfl, rfl, rfl⟩⟩

theorem ContentTy.round_ends {T : ContentTy H A C V W} (hT : T.Fine) (h : H) (e : Event)
    (s : KSt A C V) (fb : Option (KPos C)) :
    Live (T.round h e s fb) ∧ ∀ r, T.round h e s fb = .ok r →
      (∃ s' fb', r = .again e s' fb' ∧ s'.pos = .next ∧ ∃ c, s.pos = .content c) ∨
      (∃ out, r = .ret out ∧ Fits e out) := by
  have hf := hT.content
  have after : ∀ (fb : Option (KPos C)) (st : Option C), (st = none → ∀ n, e ≠ .end_ n) →
      (∀ c, st = some c → s.pos = .content c) →
      Live (T.after h s fb (T.content.de.call st h e)) ∧
      ∀ r, T.after h s fb (T.content.de.call st h e) = .ok r →
      (∃ s' fb', r = .again e s' fb' ∧ s'.pos = .next ∧ ∃ c, s.pos = .content c) ∨
      (∃ out, r = .ret out ∧ Fits e out) := by
    intro fb st hst hpos
    have hl := hf.de.live st h e
    have hs := hf.de.same st h e
    unfold ContentTy.after
    cases ho : T.content.de.call st h e with
    | error err => exact ⟨live_err fun h' => hl (by rw [ho, h']), fun r hr => by cases hr⟩
    | ok out =>
      have hs := hs out ho
      simp only
      have hl := ContentTy.handle_live hT out h s fb
      cases hh : T.handle out h s fb with
      | error err => exact ⟨live_err fun h' => hl (by rw [hh, h']), fun r hr => by cases hr⟩
      | ok p =>
        obtain ⟨r, s', fb'⟩ := p
        cases r with
        | cont x b =>
          simp only
          refine ⟨live_ok _, fun r hr => ?_⟩
          simp only [Except.ok.injEq] at hr
          obtain ⟨h1, h2⟩ := ContentTy.handle_goes hT hh
          have hx := hs x h1
          subst hx
          left
          rcases h2 with ⟨⟨n, hn⟩, h2⟩ | ⟨h2, h3⟩
          · exfalso
            subst hn
            cases st with
            | none => exact hst rfl n rfl
            | some c =>
              obtain ⟨v, hv⟩ := hf.de.ended c h n out ho _ h1
              exact h2 v hv
          · cases st with
            | none => exact absurd h1 (hf.de.tidy h x out (hst rfl) ho h2 x)
            | some c => exact ⟨s', fb', hr.symm, h3, c, hpos c rfl⟩
        | brk ev b =>
          simp only
          obtain ⟨h1, h2, h3⟩ := ContentTy.handle_stops hT hh
          obtain ⟨g1, g2⟩ := ContentTy.stop_ends hT h s' fb' ev b
          refine ⟨g1, fun r hr => ?_⟩
          obtain ⟨o, ho', hoe, hoa⟩ := g2 r hr
          refine .inr ⟨o, ho', ?_, fun n hn => .inl fun x hx => ?_, fun he => ?_⟩
          · intro x hx
            exact hs x (by rw [← h1, ← hoe, hx])
          · rw [hoe] at hx
            have := hs x (by rw [← h1, hx])
            exact h3 n (by rw [hx, this, hn])
          · subst he
            obtain ⟨e1, e2⟩ := hf.de.eof st h out ho
            exact ⟨by rw [hoe, h1, e1], by rw [hoa, h2, e2]⟩
  have off : ∀ pos : KPos C, (∀ c, pos ≠ .content c) → s.pos = pos → ∀ n, e = .end_ n →
      Live (T.round h (.end_ n) s fb) ∧ ∀ r, T.round h (.end_ n) s fb = .ok r →
      (∃ out, r = .ret out ∧ Fits (.end_ n) out) := by
    intro pos hp hsp n _
    have hr : T.round h (.end_ n) s fb = (match T.finishVals s h with
      | .error err => .error err
      | .ok w => .ok (.ret ⟨.data w, if T.isElement then .none else .cont (.end_ n), false⟩)) := by
      unfold ContentTy.round
      cases pos with
      | content c => exact absurd rfl (hp c)
      | _ => rw [hsp]; rfl
    rw [hr]
    have := ContentTy.finishVals_live hT s h
    split
    · next err he => exact ⟨live_err fun h' => this (by rw [he, h']), fun r hr => by cases hr⟩
    · refine ⟨live_ok _, fun r hr => ?_⟩
      simp only [Except.ok.injEq] at hr
      refine ⟨_, hr.symm, ?_, fun _ _ => .inr ⟨_, rfl⟩, fun h' => by cases h'⟩
      intro x hx
      simp only [hT.element, if_true] at hx
      cases hx
  by_cases hc : ∃ c, s.pos = .content c
  · obtain ⟨c, hc⟩ := hc
    have : T.round h e s fb = T.after h s fb (T.content.de.call (some c) h e) := by
      unfold ContentTy.round; rw [hc]; rfl
    rw [this]
    exact after fb (some c) (by simp) (fun c' h' => by cases h'; exact hc)
  · by_cases he : ∃ n, e = .end_ n
    · obtain ⟨n, rfl⟩ := he
      obtain ⟨h1, h2⟩ := off s.pos (fun c h' => hc ⟨c, h'⟩) rfl n rfl
      exact ⟨h1, fun r hr => .inr (h2 r hr)⟩
    · have hne : ∀ n, e ≠ .end_ n := fun n hn => he ⟨n, hn⟩
      by_cases hd : s.pos = .done
      · have : T.round h e s fb = T.stop h s fb (.cont e) false := by
          unfold ContentTy.round
          rw [hd]
          cases e <;> first | rfl | exact absurd rfl (hne _)
        rw [this]
        obtain ⟨g1, g2⟩ := ContentTy.stop_ends hT h s fb (.cont e) false
        refine ⟨g1, fun r hr => ?_⟩
        obtain ⟨o, ho', hoe, hoa⟩ := g2 r hr
        refine .inr ⟨o, ho', fun x hx => ?_, fun n hn => absurd hn (hne n), fun h' => ⟨by rw [hoe, h']; rfl, hoa⟩⟩
        rw [hoe] at hx; cases hx; rfl
      · have : T.round h e s fb = T.after h s (some (fb.getD s.pos)) (T.content.de.call none h e) := by
          unfold ContentTy.round
          cases hp : s.pos with
          | content c => exact absurd ⟨c, hp⟩ hc
          | done => exact absurd hp hd
          | init => cases e <;> first | rfl | exact absurd rfl (hne _)
          | next => cases e <;> first | rfl | exact absurd rfl (hne _)
        rw [this]
        exact after _ none (fun _ => hne) (fun c h' => by cases h')

theorem ContentTy.next_ends {T : ContentTy H A C V W} (hT : T.Fine) (s : KSt A C V) (h : H)
    (e : Event) : Live (T.next s h e) ∧ ∀ out, T.next s h e = .ok out → Fits e out := by
  unfold ContentTy.next
  rw [ContentTy.loop]
  obtain ⟨h1, h2⟩ := ContentTy.round_ends hT h e s none
  cases hr : T.round h e s none with
  | error err => exact ⟨live_err fun h' => h1 (by rw [hr, h']), fun r hr => by cases hr⟩
  | ok r =>
    rcases h2 r hr with ⟨s', fb', rfl, h3, -⟩ | ⟨out, rfl, h3⟩
    · simp only
      rw [ContentTy.loop]
      obtain ⟨h1, h2⟩ := ContentTy.round_ends hT h e s' fb'
      cases hr : T.round h e s' fb' with
      | error err => exact ⟨live_err fun h' => h1 (by rw [hr, h']), fun r hr => by cases hr⟩
      | ok r =>
        rcases h2 r hr with ⟨_, _, rfl, -, c, h4⟩ | ⟨out, rfl, h3⟩
        · rw [h3] at h4; cases h4
        · exact ⟨live_ok _, fun o ho => by cases ho; exact h3⟩
    · exact ⟨live_ok _, fun o ho => by cases ho; exact h3⟩

theorem ContentTy.de_ends {T : ContentTy H A C V W} (hT : T.Fine) : T.de.Ends := by
  have hn := fun s h e => ContentTy.next_ends hT s h e
  refine ends_of_element (d := T.de) (f := fun h t => (T.ofTag h t).map ContentTy.start) (fin := T.finish) ?_
    (fun h t => live_map (hT.tag h t) _) (fun c h => ContentTy.finish_live hT c h)
    (fun c h => ContentTy.finish_live hT c h) (fun c h e out ho => ((hn c h e).2 out ho).1) ?_
    (fun c h out ho => ((hn c h .eof).2 out ho).2.2 rfl) (fun c h e => (hn c h e).1)
  · intro h e
    simp only [ContentTy.de, ContentTy.init, hT.element, if_true]
  · intro c h n out ho x hx
    rcases ((hn c h _).2 out ho).2.1 n rfl with h1 | h1
    · exact absurd hx (h1 x)
    · exact h1

/-! ## Simple types -/

theorem simpleDe_ends (num : Str → Option Str) (bad : GErr) (hb : bad ≠ .diverged)
    (parse : H → Str → Except GErr V) (hp : ∀ h s, Live (parse h s)) :
    (simpleDe num bad parse).Ends := by
  have init : ∀ h e, Live ((simpleDe num bad parse).init h e) ∧
      ∀ out, (simpleDe num bad parse).init h e = .ok out → out.allowAny = false ∧
        ((out.artifact = .none ∧ out.event = .cont e) ∨ (out.event = .none ∧ e ≠ .eof)) := by
    intro h e
    cases e with
    | start t => exact ⟨live_ok _, fun out ho => by cases ho; exact ⟨rfl, .inr ⟨rfl, by simp⟩⟩⟩
    | empty t =>
      simp only [simpleDe]
      have := hp h []
      cases hq : parse h [] with
      | error e => exact ⟨live_err fun h' => this (by rw [hq, h']), fun out ho => by cases ho⟩
      | ok v => exact ⟨live_ok _, fun out ho => by cases ho; exact ⟨rfl, .inr ⟨rfl, by simp⟩⟩⟩
    | _ => exact ⟨live_ok _, fun out ho => by cases ho; exact ⟨rfl, .inl ⟨rfl, rfl⟩⟩⟩
  have next : ∀ c h e, Live ((simpleDe num bad parse).next c h e) ∧
      ∀ out, (simpleDe num bad parse).next c h e = .ok out → (∀ x, out.event ≠ .cont x) ∧
        (e = .eof → out.event.event = some .eof ∧ out.allowAny = false) := by
    intro c h e
    cases e with
    | text s =>
      simp only [simpleDe]
      split
      · exact ⟨live_ok _, fun out ho => by cases ho; exact ⟨by simp, by simp⟩⟩
      · exact ⟨live_err hb, fun out ho => by cases ho⟩
    | ref s =>
      simp only [simpleDe]
      split
      · exact ⟨live_ok _, fun out ho => by cases ho; exact ⟨by simp, by simp⟩⟩
      · exact ⟨live_err hb, fun out ho => by cases ho⟩
    | end_ n =>
      simp only [simpleDe]
      have := hp h (trimAscii c)
      cases hq : parse h (trimAscii c) with
      | error e => exact ⟨live_err fun h' => this (by rw [hq, h']), fun out ho => by cases ho⟩
      | ok v => exact ⟨live_ok _, fun out ho => by cases ho; exact ⟨by simp, by simp⟩⟩
    | eof => exact ⟨live_ok _, fun out ho => by cases ho; exact ⟨by simp, fun _ => ⟨rfl, rfl⟩⟩⟩
    | _ => exact ⟨live_ok _, fun out ho => by cases ho; exact ⟨by simp, by simp⟩⟩
  refine ⟨?_, ?_, ?_, ?_, ?_, fun c h => hp h _⟩
  · intro st h e out ho x hx
    cases st with
    | some c => exact absurd hx (((next c h e).2 out ho).1 x)
    | none =>
      obtain ⟨-, ⟨-, h1⟩ | ⟨h1, -⟩⟩ := (init h e).2 out ho
      · rw [h1] at hx; cases hx; rfl
      · rw [h1] at hx; cases hx
  · intro h e out _ ho hn x hx
    obtain ⟨-, ⟨h0, -⟩ | ⟨h1, -⟩⟩ := (init h e).2 out ho
    · exact hn h0
    · rw [h1] at hx; cases hx
  · intro c h n out ho x hx
    exact absurd hx (((next c h _).2 out ho).1 x)
  · intro st h out ho
    cases st with
    | some c => exact ((next c h _).2 out ho).2 rfl
    | none =>
      obtain ⟨h0, ⟨-, h1⟩ | ⟨-, h1⟩⟩ := (init h _).2 out ho
      · exact ⟨by rw [h1]; rfl, h0⟩
      · exact absurd rfl h1
  · intro st h e
    cases st with
    | some c => exact (next c h e).1
    | none => exact (init h e).1

theorem SimpleTy.de_ends (T : SimpleTy H A V W) (hb : T.bad ≠ .diverged)
    (hp : ∀ h s, Live (T.parse h s)) (ht : ∀ h t, Live (T.ofTag h t)) : T.de.Ends := by
  have hc := simpleDe_ends T.num T.bad hb T.parse hp
  have handle : ∀ a st h e, Live (T.handle a (T.content.call st h e)) ∧
      ∀ out, T.handle a (T.content.call st h e) = .ok out → ∃ o, T.content.call st h e = .ok o ∧
        out.event = o.event ∧ out.allowAny = o.allowAny ∧ (out.artifact ≠ .none → o.artifact ≠ .none) ∧
        ((∃ v, o.artifact = .data v) → ∃ v, out.artifact = .data v) := by
    intro a st h e
    unfold SimpleTy.handle
    have hl := hc.live st h e
    cases ho : T.content.call st h e with
    | error err => exact ⟨live_err fun h' => hl (by rw [h'] at ho; exact ho), fun out h' => by cases h'⟩
    | ok o =>
      simp only
      split
      · next ha =>
        exact ⟨live_ok _, fun out h' => by
          cases h'
          exact ⟨o, rfl, rfl, rfl, fun h => absurd rfl h, fun ⟨v, hv⟩ => by rw [ha] at hv; cases hv⟩⟩
      · next ha =>
        exact ⟨live_ok _, fun out h' => by
          cases h'
          exact ⟨o, rfl, rfl, rfl, fun _ => by rw [ha]; simp, fun _ => ⟨_, rfl⟩⟩⟩
      · next ha =>
        exact ⟨live_ok _, fun out h' => by
          cases h'
          exact ⟨o, rfl, rfl, rfl, fun _ => by rw [ha]; simp, fun ⟨v, hv⟩ => by rw [ha] at hv; cases hv⟩⟩
  have init : ∀ h e, Live (T.de.init h e) ∧ ∀ out, T.de.init h e = .ok out →
      (out = ⟨.none, .brk e, false⟩) ∨
      ∃ o, T.content.call none h e = .ok o ∧ out.event = o.event ∧ out.allowAny = o.allowAny ∧
        (out.artifact ≠ .none → o.artifact ≠ .none) := by
    intro h e
    simp only [SimpleTy.de]
    split
    · exact ⟨live_ok _, fun out ho => by cases ho; exact .inl rfl⟩
    · next t _ =>
      have := ht h t
      cases hq : T.ofTag h t with
      | error e => exact ⟨live_err fun h' => this (by rw [hq, h']), fun out ho => by cases ho⟩
      | ok a =>
        obtain ⟨h1, h2⟩ := handle a none h e
        refine ⟨h1, fun out ho => .inr ?_⟩
        obtain ⟨o, g1, g2, g3, g4, -⟩ := h2 out ho
        exact ⟨o, g1, g2, g3, g4⟩
  refine ⟨?_, ?_, ?_, ?_, ?_, ?_⟩
  · intro st h e out ho x hx
    cases st with
    | some c =>
      obtain ⟨o, g1, g2, -⟩ := (handle c.1 (some c.2) h e).2 out ho
      exact hc.same (some c.2) h e o g1 x (by rw [← g2, hx])
    | none =>
      rcases (init h e).2 out ho with rfl | ⟨o, g1, g2, -⟩
      · cases hx
      · exact hc.same none h e o g1 x (by rw [← g2, hx])
  · intro h e out hne ho hn x hx
    rcases (init h e).2 out ho with rfl | ⟨o, g1, g2, -, g4⟩
    · cases hx
    · exact hc.tidy h e o hne g1 (g4 hn) x (by rw [← g2, hx])
  · intro c h n out ho x hx
    obtain ⟨o, g1, g2, -, -, g5⟩ := (handle c.1 (some c.2) h _).2 out ho
    exact g5 (hc.ended c.2 h n o g1 x (by rw [← g2, hx]))
  · intro st h out ho
    cases st with
    | some c =>
      obtain ⟨o, g1, g2, g3, -⟩ := (handle c.1 (some c.2) h .eof).2 out ho
      rw [g2, g3]
      exact hc.eof (some c.2) h o g1
    | none =>
      rcases (init h .eof).2 out ho with rfl | ⟨o, g1, g2, g3, -⟩
      · exact ⟨rfl, rfl⟩
      · rw [g2, g3]
        exact hc.eof none h o g1
  · intro st h e
    cases st with
    | some c => exact (handle c.1 (some c.2) h e).1
    | none => exact (init h e).1
  · intro c h
    exact live_map (hc.fin c.2 h) _

end

/-! ## The types of a table -/

section
open Tab
variable {H C V : Type}

theorem embed_ends {C' V' : Type} {d : GDe H C V} (hd : d.Ends) (f : C → C') (g : C' → Option C)
    (m : V → V') : (embed d f g m).Ends := by
  have call : ∀ st h e, (embed d f g m).call st h e = .error .panic ∨
      ∃ st', (st = none → st' = none) ∧ (∀ c, st = some c → ∃ c', st' = some c') ∧
        (embed d f g m).call st h e = (d.call st' h e).map (bimap f m) := by
    intro st h e
    cases st with
    | none => exact .inr ⟨none, fun _ => rfl, (fun c hc => by cases hc), rfl⟩
    | some c =>
      cases hg : g c with
      | none => left; simp only [GDe.call, embed, hg]
      | some c' =>
        exact .inr ⟨some c', (fun h => by cases h), fun _ _ => ⟨c', rfl⟩, by simp only [GDe.call, embed, hg]⟩
  have out : ∀ st h e o, (embed d f g m).call st h e = .ok o → ∃ st' o', (st = none → st' = none) ∧
      (∀ c, st = some c → ∃ c', st' = some c') ∧ d.call st' h e = .ok o' ∧ o = bimap f m o' := by
    intro st h e o ho
    rcases call st h e with h1 | ⟨st', h1, h2, h3⟩
    · rw [h1] at ho; cases ho
    · rw [h3] at ho
      cases hq : d.call st' h e with
      | error err => rw [hq] at ho; cases ho
      | ok o' => rw [hq] at ho; cases ho; exact ⟨st', o', h1, h2, hq, rfl⟩
  have bev : ∀ o : Output C V, (bimap f m o).event = o.event ∧ (bimap f m o).allowAny = o.allowAny ∧
      ((bimap f m o).artifact ≠ .none → o.artifact ≠ .none) ∧
      ((∃ v, o.artifact = .data v) → ∃ v, (bimap f m o).artifact = .data v) := by
    intro o
    obtain ⟨art, ev, a⟩ := o
    cases art with
    | none => exact ⟨rfl, rfl, fun h => absurd rfl h, fun ⟨v, hv⟩ => by cases hv⟩
    | data v => exact ⟨rfl, rfl, fun _ => by simp, fun _ => ⟨_, rfl⟩⟩
    | deser c => exact ⟨rfl, rfl, fun _ => by simp, fun ⟨v, hv⟩ => by cases hv⟩
  refine ⟨?_, ?_, ?_, ?_, ?_, ?_⟩
  · intro st h e o ho x hx
    obtain ⟨st', o', -, -, h3, rfl⟩ := out st h e o ho
    exact hd.same st' h e o' h3 x (by rw [← (bev o').1, hx])
  · intro h e o hne ho hn x hx
    obtain ⟨st', o', h1, -, h3, rfl⟩ := out none h e o ho
    rw [h1 rfl] at h3
    exact hd.tidy h e o' hne h3 ((bev o').2.2.1 hn) x (by rw [← (bev o').1, hx])
  · intro c h n o ho x hx
    obtain ⟨st', o', -, h2, h3, rfl⟩ := out (some c) h _ o ho
    obtain ⟨c', rfl⟩ := h2 c rfl
    exact (bev o').2.2.2 (hd.ended c' h n o' h3 x (by rw [← (bev o').1, hx]))
  · intro st h o ho
    obtain ⟨st', o', -, -, h3, rfl⟩ := out st h _ o ho
    rw [(bev o').1, (bev o').2.1]
    exact hd.eof st' h o' h3
  · intro st h e
    rcases call st h e with h1 | ⟨st', -, -, h3⟩
    · rw [h1]; exact live_err (by simp)
    · rw [h3]; exact live_map (hd.live st' h e) _
  · intro c h
    simp only [embed]
    split
    · exact live_map (hd.fin _ _) _
    · exact live_err (by simp)

end

section
open Tab
variable {X : Type}

theorem noDe_ends : (noDe : GDe Pos (DSt X) (Val X)).Ends := by
  have call : ∀ st h e, (noDe : GDe Pos (DSt X) (Val X)).call st h e = .error .panic := by
    intro st h e; cases st <;> rfl
  refine ⟨?_, ?_, ?_, ?_, ?_, fun c h => live_err (by simp)⟩
  · intro st h e o ho; rw [call] at ho; cases ho
  · intro h e o _ ho; cases ho
  · intro c h n o ho; cases ho
  · intro st h o ho; rw [call] at ho; cases ho
  · intro st h e; rw [call]; exact live_err (by simp)

/-- The functions that parse simple values return. -/
def Tab.Schema.Returns (G : Schema X) : Prop := ∀ k s, G.parse k s ≠ .error .diverged

theorem findDecl_mem {E : Type} {scope : Str → Option Str} {a : Attr} : ∀ (ds : List (AttrDecl E X)) (k i : Nat)
    (d : AttrDecl E X), findDecl scope a ds k = some (i, d) → d ∈ ds := by
  intro ds
  induction ds with
  | nil => intro k i d h; cases h
  | cons x ds ih =>
    intro k i d h
    unfold findDecl at h
    split at h
    · cases h; exact List.mem_cons_self
    · exact List.mem_cons_of_mem _ (ih _ _ _ h)

theorem readAttrs_invalid {E : Type} {scope : Str → Option Str} {t : AttrTable E X} {bad : E}
    (ht : ∀ d ∈ t.decls, ∀ s, d.parse s ≠ .error bad) : ∀ (as : List Attr) (st : Slots X),
    readAttrs scope t st (as.map .ok) ≠ .error (.invalid bad) := by
  intro as
  induction as with
  | nil => intro st h; cases h
  | cons a as ih =>
    intro st h
    simp only [List.map_cons, readAttrs] at h
    split at h
    · exact ih _ h
    · split at h
      · next e he =>
        cases h
        unfold readAttr at he
        split at he
        · next i d hd =>
          split at he
          · cases he
          · split at he
            · next e hp =>
              cases he
              exact ht d (findDecl_mem _ _ _ _ hd) _ hp
            · cases he
        · repeat' split at he
          all_goals cases he
      · exact ih _ h

theorem initFields_invalid {E : Type} {val : Nat → Option X} {bad : E} : ∀ (ds : List (AttrDecl E X)) (i : Nat),
    initFields val ds i ≠ .error (.invalid bad) := by
  intro ds
  induction ds with
  | nil => intro i h; cases h
  | cons d ds ih =>
    intro i h
    unfold initFields at h
    split at h
    · next e he =>
      cases h
      unfold initField at he
      repeat' split at he
      all_goals cases he
    · split at h
      · next e he => cases h; exact ih _ he
      · cases h

theorem readTag_live {G : Schema X} (hG : G.Returns) (as : List (AttrSpec X)) (p : Pos) (t : Tag) :
    Live (readTag G as p t) := by
  have hd : ∀ d ∈ (attrTable G as).decls, ∀ s, d.parse s ≠ .error .diverged := by
    intro d hd s h
    simp only [attrTable, List.mem_map] at hd
    obtain ⟨a, -, rfl⟩ := hd
    simp only at h
    split at h
    · exact hG _ _ h
    · cases h
  unfold readTag
  split
  · exact live_ok _
  · next e he =>
    refine live_err fun h' => ?_
    subst h'
    unfold fromBytesStart at he
    simp only at he
    split at he
    · next e' he' =>
      cases he
      split at he'
      · cases he'
      · exact readAttrs_invalid hd _ _ he'
    · split at he
      · next e' he' => cases he; exact initFields_invalid _ _ he'
      · cases he
  · exact live_err (by simp)

theorem elemField_ends {d : TyRef → GDe Pos (DSt X) (Val X)} (hd : ∀ ty, (d ty).Ends) (f : FieldSpec) :
    (elemField d f).Ends := ⟨hd f.ty, fun _ => live_err (by simp), rfl⟩

theorem elemFields_ends {d : TyRef → GDe Pos (DSt X) (Val X)} (hd : ∀ ty, (d ty).Ends)
    (fs : List FieldSpec) : ∀ f ∈ fs.map (elemField d), f.Ends := by
  intro f hf
  obtain ⟨g, -, rfl⟩ := List.mem_map.1 hf
  exact elemField_ends hd g

theorem deBody_ends {G : Schema X} (hG : G.Returns) {d : TyRef → GDe Pos (DSt X) (Val X)}
    (hd : ∀ ty, (d ty).Ends) (k : Nat) (D : StructSpec X) : (deBody G d k D).Ends := by
  unfold deBody
  split
  · next fs _ =>
    exact embed_ends (SeqTy.de_ends ⟨elemFields_ends hd fs, rfl, readTag_live hG D.attrs⟩) _ _ _
  · next fs _ =>
    exact embed_ends (SeqTy.allDe_ends ⟨elemFields_ends hd fs, rfl, readTag_live hG D.attrs⟩ rfl) _ _ _
  · exact embed_ends (ContentTy.de_ends
      ⟨⟨hd _, fun _ => live_err (by simp), rfl⟩, readTag_live hG D.attrs, rfl⟩) _ _ _
  · next alts _ =>
    exact embed_ends (EnumTy.de_ends ⟨elemFields_ends hd alts, rfl, fun p t => live_map (readTag_live hG [] p t) _⟩) _ _ _
  · next j _ =>
    exact embed_ends (SimpleTy.de_ends (textTy G D.attrs j) (by simp [textTy]) (fun _ s => hG _ s) (readTag_live hG D.attrs)) _ _ _

theorem groupDe_ends {G : Schema X} (hG : G.Returns) {d : TyRef → GDe Pos (DSt X) (Val X)}
    (hd : ∀ ty, (d ty).Ends) (k : Nat) (D : StructSpec X) : (groupDe G d k D).Ends := by
  unfold groupDe
  split
  · next fs _ =>
    exact embed_ends (SeqTy.de_ends ⟨elemFields_ends hd fs, rfl, readTag_live hG []⟩) _ _ _
  · exact embed_ends (EnumTy.de_ends ⟨elemFields_ends hd _, rfl, fun p t => live_map (readTag_live hG [] p t) _⟩) _ _ _

theorem de_ends {G : Schema X} (hG : G.Returns) : ∀ (n : Nat) (ty : TyRef), (de G n ty).Ends := by
  intro n
  induction n with
  | zero => intro ty; exact noDe_ends
  | succ n ih =>
    intro ty
    cases ty with
    | simple k =>
      exact embed_ends (simpleDe_ends _ _ (by simp) _ (fun _ s => hG k s)) _ _ _
    | struct k =>
      simp only [de]
      split
      · exact deBody_ends hG ih k _
      · exact noDe_ends
    | variant k =>
      simp only [de]
      split
      · exact groupDe_ends hG ih k _
      · exact noDe_ends

end

/-! ## Properties -/

section
variable {H C V : Type}

theorem GDe.Ends.atEof {d : GDe H C V} (hd : d.Ends) : EndsAtEof d.toDeser := by
  intro st h
  have key : callDeser d.toDeser st h .eof = (d.call st h .eof).map (·, h) := by
    cases st <;> rfl
  rw [key]
  cases hc : d.call st h .eof with
  | error e => trivial
  | ok out => exact .inr (hd.eof st h out hc)

/-- No call within a run is an endless loop. -/
theorem GDe.Ends.run {d : GDe H C V} (hd : d.Ends) (track : H → Event → H) : ∀ (doc : List Event)
    (st : Drv H C) (rest : List Event),
    Drv.run (genEnv track) d.toDeser st doc ≠ .fail .diverged rest := by
  intro doc
  induction doc with
  | nil => intro st rest h; cases h
  | cons e es ih =>
    intro st rest h
    have hk : ∀ (h : H) (e : Event), callDeser d.toDeser st.deser h e = (d.call st.deser h e).map (·, h) := by
      intro h e; cases st.deser <;> rfl
    simp only [Drv.run] at h
    cases hh : st.handleEvent (genEnv track) d.toDeser e with
    | error err =>
      rw [hh] at h
      have hb : err = .diverged := by cases h; rfl
      subst hb
      unfold Drv.handleEvent at hh
      simp only at hh
      split at hh
      · cases hh
      · next e' _ =>
        rw [hk] at hh
        have hl := hd.live st.deser ((genEnv track).track st.helper e) e'
        cases hc : d.call st.deser ((genEnv track).track st.helper e) e' with
        | error err => rw [hc] at hh; cases hh; exact hl hc
        | ok out =>
          rw [hc] at hh
          simp only [Except.map] at hh
          split at hh
          · simp [genEnv] at hh
          · cases hh
    | ok r =>
      rw [hh] at h
      obtain ⟨v, st'⟩ := r
      cases v with
      | some v => cases h
      | none => exact ih st' rest h

end

section
open Tab
variable {X : Type}

/-- **C03.** Reading a value of a type of a table always ends: for every table of types (with
sequences, `xs:all`, choices, nested groups, enums and simple content, nested and recursive),
every type, every state of the driver and every list of events, well-formed or not, the driver
returns a value or an error at the latest when the file is over, and none of the calls of the
generated code loops forever. -/
theorem C03_generated_terminates (G : Schema X) (hG : G.Returns) (n : Nat) (ty : TyRef)
    (track : Pos → Event → Pos) (st : Drv Pos (DSt X)) (doc : List Event) :
    (Drv.run (genEnv track) (de G n ty).toDeser st (doc ++ [.eof])).decided = true ∧
    ∀ rest, Drv.run (genEnv track) (de G n ty).toDeser st (doc ++ [.eof]) ≠ .fail .diverged rest :=
  ⟨C03_deserialize_terminates_partial _ _ (de_ends hG n ty).atEof st doc,
    fun rest => (de_ends hG n ty).run track _ st rest⟩

/-- **C03.** The calls of the generated code themselves: the loop of `next` is left after finitely
many rounds for every state and event, whether or not this state can be reached. -/
theorem C03_generated_calls_return (G : Schema X) (hG : G.Returns) (n : Nat) (ty : TyRef)
    (st : Option (DSt X)) (p : Pos) (e : Event) :
    (de G n ty).call st p e ≠ .error .diverged ∧ ∀ c, (de G n ty).finish c p ≠ .error .diverged :=
  ⟨(de_ends hG n ty).live st p e, fun c => (de_ends hG n ty).fin c p⟩

end

/-! ## Types that allow any content -/

section
variable {H A C V W : Type}

/-- At the end of the file nothing changes. -/
theorem SeqTy.open_done (T : SeqTy H A C V W) (ha : T.allowAny = true) (s : SeqSt A C V)
    (hs : s.pos = .done) (h : H) : T.next s h .eof = .ok ⟨.deser s, .cont .eof, true⟩ := by
  simp only [SeqTy.next, SeqTy.fuel, SeqTy.loop, SeqTy.round, hs, Round.stop, ha, Bool.true_or, Option.getD_none]
  cases s
  simp only at hs
  subst hs
  rfl

/-- **C03, finding.** A struct with a sequence that contains `xs:any`, generated without a type for
the wildcard: once its last element has been read, the end of the file does not end the reading.
The driver asks for the next event again and again. -/
theorem C03_open_sequence_diverges_on_truncated (T : SeqTy H A C V W) (ha : T.allowAny = true)
    (track : H → Event → H) (s : SeqSt A C V) (hs : s.pos = .done) (h : H) (k : Nat) :
    (Drv.run (genEnv track) T.de.toDeser { helper := h, deser := some s }
      (List.replicate k .eof)).decided = false := by
  induction k generalizing h with
  | zero => rfl
  | succ k ih =>
    have h1 : callDeser T.de.toDeser (some s) (track h .eof) .eof
        = .ok (⟨.deser s, .cont .eof, true⟩, track h .eof) := by
      show (T.next s (track h .eof) .eof).map _ = _
      rw [SeqTy.open_done T ha s hs]
      rfl
    simp only [List.replicate_succ, Drv.run, Drv.handleEvent, handleSkip, genEnv, h1, leftover,
      DEvent.event, if_true, Artifact.dataOf, Artifact.deserOf]
    exact ih (track h .eof)

end

/-- `<xs:sequence><xs:element name="a"/><xs:any/></xs:sequence>`. -/
def openTy : SeqTy Unit Unit Str Str (List (List Str)) where
  fields :=
    [{ name := "a".toList
       want := some fun _ t => t.name == "a".toList
       «min» := 1
       «max» := .bounded 1
       de := simpleDe (fun _ => none) (.value 2) fun _ s => .ok s }]
  allowAny := true
  ofTag := fun _ _ => .ok ()
  attrs0 := ()
  build := fun _ vs => vs

/-- **C03, finding**, from the start of the document: `<r><a></a>` and no more. -/
theorem C03_open_sequence_truncated_document (k : Nat) :
    (Drv.run (genEnv fun h _ => h) openTy.de.toDeser { helper := () }
      ([.start ⟨"r".toList, []⟩, .start ⟨"a".toList, []⟩, .end_ "a".toList]
        ++ List.replicate k .eof)).decided = false := by
  have h : Drv.run (genEnv fun h _ => h) openTy.de.toDeser { helper := () }
      ([.start ⟨"r".toList, []⟩, .start ⟨"a".toList, []⟩, .end_ "a".toList]
        ++ List.replicate k .eof)
      = Drv.run (genEnv fun h _ => h) openTy.de.toDeser
        { helper := (), deser := some (⟨(), [[[]]], .done⟩ : SeqSt Unit Str Str) }
        (List.replicate k .eof) := by rfl
  rw [h]
  exact C03_open_sequence_diverges_on_truncated openTy rfl _ _ rfl _ k

/-- `<r>` with a choice of `a`, a text, and `r`, any number of them. -/
def treeSchema : Tab.Schema Str where
  structs := [⟨[], .choice [⟨⟨[], "a".toList, none⟩, 0, .unbounded, .simple 0⟩,
    ⟨⟨[], "r".toList, none⟩, 1, .bounded 1, .struct 0⟩] 0 .unbounded, none⟩]
  print := fun _ s => some s
  parse := fun _ s => .ok s
  num := fun _ => none

/-- Non-vacuity of `C03_generated_terminates`: a recursive type; the document ends within the
inner element, and the end of the file is the unexpected event. -/
example : treeSchema.Returns ∧
    (match Drv.run (genEnv posTrack) (Tab.de treeSchema 9 (.struct 0)).toDeser { helper := {} }
      ([.start ⟨"r".toList, []⟩, .start ⟨"a".toList, []⟩, .end_ "a".toList,
        .start ⟨"r".toList, []⟩, .start ⟨"a".toList, []⟩] ++ [.eof]) with
    | .fail (.unexpected .eof) [] => true
    | _ => false) = true :=
  ⟨(fun _ _ h => by cases h), by decide +kernel⟩

end Verif.Gen

import Verif.Gen.All

/-!
# What generated deserializers of `xs:all` content accept (C11)
-/

namespace Verif.Gen

open Verif.Rt Verif.Occurs

section
variable {H A C V W : Type}

/-- The conditions on the type: only elements with simple content, nothing skipped, no default
values. -/
structure StrictAll (T : SeqTy H A C V W) : Prop where
  elem : T.isElement = true
  any : T.allowAny = false
  field : ∀ f ∈ T.fields, f.want.isSome = true ∧ f.defaultable = false ∧ Tame f.de

theorem allStore_inv {f : Field H C V} {i : Nat} {v : V} {s s' : ASt A C V}
    (h : allStore f i v s = .ok s') :
    s' = { s with vals := s.vals.modify i (· ++ [v]) } ∧
      (f.occurs = .single ∨ f.occurs = .optional → s.vals.getD i [] = []) := by
  unfold allStore at h
  cases hs : storeAlt f (s.vals.getD i []) v with
  | error e => rw [hs] at h; cases h
  | ok vs =>
    rw [hs] at h
    obtain ⟨rfl, hv⟩ := storeAlt_inv hs
    simp only [Except.ok.injEq] at h
    rw [modify_const] at h
    exact ⟨h.symm, hv⟩

/-- The end of a child. -/
theorem all_data_inv (T : SeqTy H A C V W) (f : Field H C V) (i : Nat) (h : H) (s : ASt A C V)
    (fb : Option (APos C)) (hfb : T.allFlush h fb s = .ok s) (v : V) (a : Bool) {r}
    (hr : ARound.after (W := W) (T.allEnter f i h s fb (.ok ⟨.data v, .none, a⟩)) = .ok r) :
    r = .ret ⟨.deser ⟨s.attrs, s.vals.modify i (· ++ [v]), .next⟩, .none, a⟩ ∧
      (f.occurs = .single ∨ f.occurs = .optional → s.vals.getD i [] = []) := by
  simp only [SeqTy.allEnter, SeqTy.allHandle, hfb] at hr
  cases hs : allStore f i v s with
  | error err => rw [hs] at hr; simp [ARound.after] at hr
  | ok s' =>
    rw [hs] at hr
    obtain ⟨rfl, hv⟩ := allStore_inv hs
    simp only [EHO.fromEvent, ARound.after, Option.getD_none, Except.ok.injEq] at hr
    exact ⟨hr.symm, hv⟩

theorem all_deser_inv (T : SeqTy H A C V W) (f : Field H C V) (i : Nat) (h : H) (s : ASt A C V)
    (fb : Option (APos C)) (hfb : T.allFlush h fb s = .ok s) (c : C) {ev : DEvent}
    (q : ∀ e, ev ≠ .cont e) (a : Bool) :
    ARound.after (W := W) (T.allEnter f i h s fb (.ok ⟨.deser c, ev, a⟩))
      = .ok (.ret ⟨.deser { s with pos := .at_ i c }, ev, a⟩) := by
  have h1 : EHO.fromEvent ev a = .brk ev a := by
    cases ev with
    | cont e => exact absurd rfl (q e)
    | _ => rfl
  simp only [SeqTy.allEnter, SeqTy.allHandle, hfb, h1, ARound.after, Option.getD_some]

/-- A running tame child goes on until its end tag. -/
theorem all_running_child (track : H → Event → H) (T : SeqTy H A C V W) (f : Field H C V)
    (i : Nat) (hf : T.fields[i]? = some f) (tm : Tame f.de) (s : ASt A C V) (rest : List Event)
    (w : W) (evs : List Event) :
    ∀ (h : H) (c : C),
    Drv.run (genEnv track) T.allDe.toDeser
      { helper := h, deser := some { s with pos := .at_ i c } } evs = .done w rest →
    ∃ evs1 evs2 v, evs = evs1 ++ evs2 ∧ evs1 ≠ [] ∧
      ReadChild.Consumes track f.de (some c) h evs1 v ∧
      (f.occurs = .single ∨ f.occurs = .optional → s.vals.getD i [] = []) ∧
      Drv.run (genEnv track) T.allDe.toDeser
        { helper := evs1.foldl track h,
          deser := some ⟨s.attrs, s.vals.modify i (· ++ [v]), .next⟩ } evs2 = .done w rest := by
  induction evs with
  | nil => intro h c hr; cases hr
  | cons e es ih =>
    intro h c hr
    obtain ⟨out, k, hcall, hleft, hres⟩ := run_cons_done (d := T.allDe) hr
    have hcall : T.allNext { s with pos := .at_ i c } (track h e) e = .ok out := hcall
    simp only [SeqTy.allNext, SeqTy.allLoop, SeqTy.allRound, hf] at hcall
    cases hc : f.de.next c (track h e) e with
    | error err => rw [hc] at hcall; cases hcall
    | ok o =>
      rw [hc] at hcall
      obtain ⟨oa, oe, oany⟩ := o
      by_cases hend : ∃ n, e = .end_ n
      · obtain ⟨n, rfl⟩ := hend
        obtain ⟨⟨v, hv⟩, he⟩ := tm.end_ c _ n _ hc
        simp only at hv he
        subst hv; subst he
        cases hx : ARound.after (W := W) (T.allEnter f i (track h (.end_ n))
            { s with pos := .at_ i c } none (.ok ⟨.data v, .none, oany⟩)) with
        | error err => rw [hx] at hcall; cases hcall
        | ok r =>
          rw [hx] at hcall
          obtain ⟨rfl, hs⟩ := all_data_inv T f i _ { s with pos := .at_ i c } none rfl v oany hx
          simp only [Except.ok.injEq] at hcall
          subst hcall
          have hk : k = none := by
            simp [DEvent.event, leftover] at hleft; exact hleft.symm
          subst hk
          rcases hres with ⟨h1, _⟩ | ⟨_, h1⟩
          · cases h1
          · exact ⟨[.end_ n], es, v, rfl, by simp, ⟨_, hc, Or.inl ⟨rfl, rfl, rfl⟩⟩, hs, h1⟩
      · have hne : ∀ n, e ≠ .end_ n := fun n hn => hend ⟨n, hn⟩
        obtain ⟨⟨c', hc'⟩, hev⟩ := tm.other c _ e _ hc hne
        simp only at hc' hev
        subst hc'
        have hq : ∀ e, oe ≠ .cont e := by
          rcases hev with ⟨h1, _⟩ | ⟨h1, _⟩ <;> rw [h1] <;> simp
        rw [all_deser_inv T f i _ { s with pos := .at_ i c } none rfl c' hq oany] at hcall
        simp only [Except.ok.injEq] at hcall
        subst hcall
        have hig : (oe = .none ∨ Ignored e = true) ∧ k = none := by
          rcases hev with ⟨h1, _⟩ | ⟨h1, h2⟩
          · rw [h1] at hleft
            simp [DEvent.event, leftover] at hleft
            exact ⟨Or.inl h1, hleft.symm⟩
          · rw [h1, h2] at hleft
            obtain ⟨h3, h4⟩ := leftover_ignored (e := e) hleft
            exact ⟨Or.inr h3, h4⟩
        obtain ⟨hig, rfl⟩ := hig
        rcases hres with ⟨h1, _⟩ | ⟨_, h1⟩
        · cases h1
        · obtain ⟨evs1, evs2, v, he, _, hcs, hs, hrun⟩ := ih (track h e) c' h1
          refine ⟨e :: evs1, evs2, v, by rw [he]; rfl, by simp, ?_, hs, hrun⟩
          exact ⟨_, hc, Or.inr ⟨c', rfl, hig, hcs⟩⟩

/-- A child of field `i` begins at a tag. -/
theorem all_begin (track : H → Event → H) (T : SeqTy H A C V W) (st : StrictAll T)
    (f : Field H C V) (i : Nat) (hf : T.fields[i]? = some f) (want : H → Tag → Bool)
    (hw : f.want = some want) (s : ASt A C V) (hsp : s.pos.idle) (rest : List Event) (w : W)
    (h : H) (e : Event) (t : Tag) (he : tagOf e = some t) (hwt : want (track h e) t = true)
    (es : List Event) (out : Output (ASt A C V) W) (k : Option Nat)
    (hleft : leftover none out.event.event out.allowAny = some k)
    (hres : (out.artifact = .data w ∧ rest = es) ∨
       ((∀ v, out.artifact ≠ .data v) ∧
        Drv.run (genEnv track) T.allDe.toDeser
          { helper := track h e, deser := out.artifact.deserOf, skip := k } es = .done w rest))
    (hcall : ARound.after (T.allEnter f i (track h e) s (some s.pos) (f.de.init (track h e) e))
      = .ok (.ret out) ∨
      ∃ e' s' fb', ARound.after (W := W)
        (T.allEnter f i (track h e) s (some s.pos) (f.de.init (track h e) e))
        = .ok (.again e' s' fb')) :
    ∃ evs1 evs2 v, e :: es = evs1 ++ evs2 ∧ evs1 ≠ [] ∧ ReadChild track T.fields h i evs1 v ∧
      (f.occurs = .single ∨ f.occurs = .optional → s.vals.getD i [] = []) ∧
      Drv.run (genEnv track) T.allDe.toDeser
        { helper := evs1.foldl track h,
          deser := some ⟨s.attrs, s.vals.modify i (· ++ [v]), .next⟩ } evs2 = .done w rest := by
  have tm : Tame f.de := (st.field f (List.mem_of_getElem? hf)).2.2
  cases hi : f.de.init (track h e) e with
  | error err =>
    rw [hi] at hcall
    rcases hcall with hcall | ⟨_, _, _, hcall⟩ <;> cases hcall
  | ok o =>
    rw [hi] at hcall
    obtain ⟨oa, oe, oany⟩ := o
    have hfl := T.allFlush_idle (track h e) hsp s
    cases e with
    | start t' =>
      obtain ⟨⟨c, hc⟩, hn⟩ := tm.start _ t' _ hi
      simp only at hc hn
      subst hc; subst hn
      rw [all_deser_inv T f i _ s _ hfl c (by simp) oany] at hcall
      rcases hcall with hcall | ⟨_, _, _, hcall⟩
      · cases hcall
        have hk : k = none := by simp [DEvent.event, leftover] at hleft; exact hleft.symm
        subst hk
        rcases hres with ⟨hx, _⟩ | ⟨_, hx⟩
        · cases hx
        · obtain ⟨evs1, evs2, v, hev, hne, hcs, hs, hrun⟩ :=
            all_running_child track T f i hf tm s rest w es _ c hx
          exact ⟨.start t' :: evs1, evs2, v, by rw [hev]; rfl, by simp,
            ⟨f, _, evs1, t, want, hf, rfl, he, hw, hwt, _, hi, Or.inr ⟨c, rfl, Or.inl rfl, hcs⟩⟩,
            hs, hrun⟩
      · cases hcall
    | empty t' =>
      obtain ⟨⟨v, hc⟩, hn⟩ := tm.empty _ t' _ hi
      simp only at hc hn
      subst hc; subst hn
      rcases hcall with hcall | ⟨_, _, _, hcall⟩
      · obtain ⟨hr, hs⟩ := all_data_inv T f i _ s _ hfl v oany hcall
        cases hr
        have hk : k = none := by simp [DEvent.event, leftover] at hleft; exact hleft.symm
        subst hk
        rcases hres with ⟨hx, _⟩ | ⟨_, hx⟩
        · cases hx
        · exact ⟨[.empty t'], es, v, rfl, by simp,
            ⟨f, _, [], t, want, hf, rfl, he, hw, hwt, _, hi, Or.inl ⟨rfl, rfl, rfl⟩⟩, hs, hx⟩
      · obtain ⟨hr, _⟩ := all_data_inv T f i _ s _ hfl v oany hcall
        cases hr
    | _ => simp [tagOf] at he

theorem allGroups_elements (T : SeqTy H A C V W) (h : H) (e : Event) (any : Bool)
    (s : ASt A C V) (fb : Option (APos C)) (fs : List (Field H C V))
    (hfs : ∀ f ∈ fs, f.want.isSome = true) (i : Nat) :
    T.allGroups h fs i e any s fb
      = .ok (.toParent e (T.allowAny || any), { s with pos := fb.getD .init }, none) := by
  induction fs generalizing i with
  | nil => rfl
  | cons f fs ih =>
    simp only [SeqTy.allGroups, hfs f (by simp), if_true]
    exact ih (fun f hf => hfs f (by simp [hf])) (i + 1)

/-- What an accepted content looks like, given the values collected so far. -/
structure ReadAll (track : H → Event → H) (T : SeqTy H A C V W) (s : ASt A C V) (h : H)
    (items : List (Item V)) (w : W) : Prop where
  read : ItemsRead track T.fields h items
  upper : ∀ i f, T.fields[i]? = some f → f.occurs = .single ∨ f.occurs = .optional →
    valuesOf i items ≠ [] → (s.vals.getD i [] ++ valuesOf i items).length ≤ 1
  lower : ∀ i f, T.fields[i]? = some f → f.occurs = .single →
    1 ≤ (s.vals.getD i [] ++ valuesOf i items).length
  exact_ : ∀ i f n, T.fields[i]? = some f → f.occurs = .staticList n →
    (s.vals.getD i [] ++ valuesOf i items).length = n
  value : w = T.build s.attrs (merge s.vals items)

theorem all_run_sound (track : H → Event → H) (T : SeqTy H A C V W) (st : StrictAll T) (w : W)
    (rest : List Event) (n : Nat) :
    ∀ (evs : List Event) (s : ASt A C V) (h : H), evs.length ≤ n → s.pos.idle →
    s.vals.length = T.fields.length →
    Drv.run (genEnv track) T.allDe.toDeser { helper := h, deser := some s } evs = .done w rest →
    ∃ items m, evs = itemEvents items ++ .end_ m :: rest ∧ ReadAll track T s h items w := by
  induction n with
  | zero =>
    intro evs s h hn _ _ hr
    have : evs = [] := List.eq_nil_of_length_eq_zero (by omega)
    subst this
    cases hr
  | succ n ih =>
    intro evs s h hn hsp hlen hr
    cases evs with
    | nil => cases hr
    | cons e es =>
      simp only [List.length_cons] at hn
      obtain ⟨out, k, hcall, hleft, hres⟩ := run_cons_done (d := T.allDe) hr
      have hcall : T.allNext s (track h e) e = .ok out := hcall
      unfold SeqTy.allNext at hcall
      unfold SeqTy.allLoop at hcall
      have hround : (∀ n, e ≠ .end_ n) → T.allRound (track h e) e s none
          = ARound.after (T.allFind (track h e) e s (some s.pos)) := by
        intro hne
        unfold SeqTy.allRound
        cases hp : s.pos with
        | at_ i c => rw [hp] at hsp; exact hsp.elim
        | _ =>
          cases e <;> first
            | (exact absurd rfl (hne _))
            | rfl
      by_cases hend : ∃ m, e = .end_ m
      · obtain ⟨m, rfl⟩ := hend
        have hr2 : T.allRound (track h (.end_ m)) (.end_ m) s none
            = (T.allFinishVals s (track h (.end_ m))).map
                fun w => .ret ⟨.data w, .none, false⟩ := by
          unfold SeqTy.allRound
          cases hp : s.pos with
          | at_ i c => rw [hp] at hsp; exact hsp.elim
          | _ => cases T.allFinishVals s (track h (.end_ m)) <;> simp [st.elem, Except.map]
        rw [hr2] at hcall
        unfold SeqTy.allFinishVals at hcall
        cases hff : finishFields (track h (.end_ m)) T.fields s.vals with
        | error err => rw [hff] at hcall; simp [Except.map] at hcall
        | ok vss =>
          rw [hff] at hcall
          simp only [Except.map, Except.ok.injEq] at hcall
          subst hcall
          obtain ⟨rfl, hb⟩ := finishFields_inv _ T.fields s.vals vss hlen
            (fun f hf => (st.field f hf).2.1) hff
          rcases hres with ⟨h1, h2⟩ | ⟨h1, _⟩
          · simp only [Artifact.data.injEq] at h1
            subst h2
            refine ⟨[], m, rfl, trivial, by simp [valuesOf], ?_, ?_, ?_⟩
            · intro i f hf ho; simpa [valuesOf] using (hb i f hf).1 ho
            · intro i f q hf ho; simpa [valuesOf] using (hb i f hf).2 q ho
            · rw [← h1, merge_nil]
          · exact absurd rfl (h1 _)
      · have hne : ∀ m, e ≠ .end_ m := fun m hm => hend ⟨m, hm⟩
        rw [hround hne] at hcall
        unfold SeqTy.allFind at hcall
        cases ht : tagOf e with
        | none =>
          rw [ht] at hcall
          simp only [EHO.toParent, ARound.after, st.any, Option.getD_some, Option.getD_none,
            Except.ok.injEq] at hcall
          subst hcall
          obtain ⟨hig, rfl⟩ := leftover_ignored (e := e) hleft
          rcases hres with ⟨h4, _⟩ | ⟨_, h4⟩
          · cases h4
          · obtain ⟨items, m, hev, ra⟩ := ih es s (track h e) (by omega) hsp hlen h4
            exact ⟨.pad e :: items, m, by rw [hev]; rfl,
              ⟨hig, ra.read⟩, ra.upper, ra.lower, ra.exact_, ra.value⟩
        | some t =>
          rw [ht] at hcall
          simp only at hcall
          cases hfa : findAlt (track h e) t T.fields 0 with
          | none =>
            exfalso
            rw [hfa] at hcall
            simp only [allGroups_elements T _ e false s (some s.pos) T.fields
              (fun f hf => (st.field f hf).1) 0, EHO.toParent, ARound.after, st.any,
              Except.ok.injEq] at hcall
            subst hcall
            have hig := (leftover_ignored (e := e) hleft).1
            cases e <;> simp [tagOf] at ht <;> simp [Ignored, Padding] at hig
          | some p =>
            obtain ⟨i, f⟩ := p
            rw [hfa] at hcall
            obtain ⟨_, hf, ⟨f', want, hf', hw, hwt⟩, _⟩ := findAlt_some hfa
            rw [Nat.sub_zero] at hf hf'
            have : f' = f := by rw [hf] at hf'; simpa using hf'.symm
            subst this
            simp only at hcall
            obtain ⟨evs1, evs2, v, hsplit, hne1, hrc, hs, hrun⟩ :=
              all_begin track T st f' i hf want hw s hsp rest w h e t ht hwt es out k hleft hres
                (by
                  cases hx : ARound.after (W := W)
                      (T.allEnter f' i (track h e) s (some s.pos) (f'.de.init (track h e) e)) with
                  | error err => rw [hx] at hcall; cases hcall
                  | ok r =>
                    rw [hx] at hcall
                    cases r with
                    | again e' s' fb' => exact Or.inr ⟨_, _, _, rfl⟩
                    | ret o =>
                      simp only [Except.ok.injEq] at hcall
                      subst hcall
                      exact Or.inl rfl)
            have hlen2 : evs2.length ≤ n := by
              have h1 := congrArg List.length hsplit
              simp only [List.length_cons, List.length_append] at h1
              have := List.length_pos_iff.mpr hne1
              omega
            have hi : i < s.vals.length := by
              rw [hlen]
              rcases Nat.lt_or_ge i T.fields.length with h | h
              · exact h
              · rw [List.getElem?_eq_none h] at hf; cases hf
            obtain ⟨items, m, hev, ra⟩ := ih evs2 ⟨s.attrs, s.vals.modify i (· ++ [v]), .next⟩ _
              hlen2 trivial (by simpa using hlen) hrun
            have hsame : ∀ j, (s.vals.modify i (· ++ [v])).getD j [] ++ valuesOf j items
                = s.vals.getD j [] ++ valuesOf j (.child i evs1 v :: items) := by
              intro j
              rw [getD_modify _ _ _ _ hi]
              by_cases hij : i = j
              · subst hij
                have : valuesOf i (.child i evs1 v :: items) = v :: valuesOf i items := by
                  simp [valuesOf]
                rw [if_pos rfl, this]; simp
              · have : valuesOf j (.child i evs1 v :: items) = valuesOf j items := by
                  simp [valuesOf, hij]
                rw [if_neg hij, this]
            refine ⟨.child i evs1 v :: items, m, ?_, ⟨hrc, ra.read⟩, ?_, ?_, ?_, ?_⟩
            · rw [hsplit, hev]; simp [itemEvents, Item.events]
            · intro j g hg ho _
              rw [← hsame j]
              by_cases hv : valuesOf j items = []
              · rw [hv, List.append_nil, getD_modify _ _ _ _ hi]
                by_cases hij : i = j
                · subst hij
                  have : g = f' := by rw [hf] at hg; simpa using hg.symm
                  subst this
                  rw [if_pos rfl, hs ho]; simp
                · have hvv : valuesOf j (.child i evs1 v :: items) = valuesOf j items := by
                    simp [valuesOf, hij]
                  rename_i hne2
                  rw [hvv] at hne2
                  exact absurd hv hne2
              · exact ra.upper j g hg ho hv
            · intro j g hg ho
              rw [← hsame j]; exact ra.lower j g hg ho
            · intro j g q hg ho
              rw [← hsame j]; exact ra.exact_ j g q hg ho
            · rw [merge_child]; exact ra.value

/-- **C11** (partial). If the fields have simple content and the deserializer returns a value
after the start tag `t`, then the events read are ignored content and children, in some order,
each an element with the name of its field that its type reads; every field holds exactly the
values of its children in document order; a required element occurs exactly once, an optional
one at most once and a fixed-size array has exactly its size.

Missing from the full property, and false: the bounds of elements that may be repeated
(`C11_maximum_not_enforced`). -/
theorem C11_all_sound_partial (track : H → Event → H) (T : SeqTy H A C V W) (st : StrictAll T)
    (h : H) (t : Tag) (evs rest : List Event) (w : W)
    (hr : Drv.run (genEnv track) T.allDe.toDeser { helper := h } (.start t :: evs)
      = .done w rest) :
    ∃ a items n, T.ofTag (track h (.start t)) t = .ok a ∧
      evs = itemEvents items ++ .end_ n :: rest ∧
      ItemsRead track T.fields (track h (.start t)) items ∧
      (∀ i f, T.fields[i]? = some f →
        (f.occurs = .single → (valuesOf i items).length = 1) ∧
        (f.occurs = .optional → (valuesOf i items).length ≤ 1) ∧
        (∀ n, f.occurs = .staticList n → (valuesOf i items).length = n)) ∧
      w = T.build a ((List.range T.fields.length).map (valuesOf · items)) := by
  obtain ⟨out, k, hcall, hleft, hres⟩ := run_cons_done (d := T.allDe) hr
  have hcall : T.allInit (track h (.start t)) (.start t) = .ok out := hcall
  simp only [SeqTy.allInit, st.elem, if_true, initFromStart] at hcall
  cases ha : T.ofTag (track h (.start t)) t with
  | error err => rw [ha] at hcall; simp [Except.map] at hcall
  | ok a =>
    rw [ha] at hcall
    simp only [Except.map, Except.ok.injEq] at hcall
    subst hcall
    have hk : k = none := by simp [DEvent.event, leftover] at hleft; exact hleft.symm
    subst hk
    rcases hres with ⟨h1, _⟩ | ⟨_, h1⟩
    · cases h1
    · obtain ⟨items, n, hev, ra⟩ := all_run_sound track T st w rest evs.length evs (T.allStart a) _
        (Nat.le_refl _) trivial (by simp [SeqTy.allStart]) h1
      have hg : ∀ i, (T.allStart a).vals.getD i [] = [] := getD_start T a
      refine ⟨a, items, n, rfl, hev, ra.read, ?_, ?_⟩
      · intro i f hf
        have hu := ra.upper i f hf
        have hl := ra.lower i f hf
        have hx := fun q => ra.exact_ i f q hf
        rw [hg i, List.nil_append] at hu hl hx
        have hle : f.occurs = .single ∨ f.occurs = .optional → (valuesOf i items).length ≤ 1 := by
          intro ho
          by_cases hv : valuesOf i items = []
          · rw [hv]; simp
          · exact hu ho hv
        exact ⟨fun ho => Nat.le_antisymm (hle (Or.inl ho)) (hl ho), fun ho => hle (Or.inr ho), hx⟩
      · rw [← merge_start]; exact ra.value

/-! ## Examples -/

namespace Ex

/-- `r = all(a, b?, c)` -/
def tyL : SeqTy Unit Unit Str Val Val :=
  seqOf [leafField 'a' 1 (.bounded 1), leafField 'b' 0 (.bounded 1), leafField 'c' 1 (.bounded 1)]

theorem tyL_strict : StrictAll tyL where
  elem := rfl
  any := rfl
  field := by
    intro f hf
    have ht : Tame txt := simpleDe_tame _ _ _
    simp [tyL, seqOf] at hf
    rcases hf with rfl | rfl | rfl <;> exact ⟨rfl, rfl, ht⟩

/-- `<c>1</c> <a>2</a>` -/
def itemsL : List (Item Val) :=
  [.child 2 (elem 'c' ['1']) (.txt ['1']), .pad (.text [' ']),
   .child 0 (elem 'a' ['2']) (.txt ['2'])]

theorem tyL_named (i : Nat) (c : Char) (hc : [c] = ([['a'], ['b'], ['c']].getD i [])) (hi : i < 3) :
    FirstNamed tyL.fields i () (tag c) := by
  match i, hi with
  | 0, _ =>
    simp at hc; subst hc
    exact ⟨⟨_, _, rfl, rfl, by decide⟩, fun j _ _ hj => by omega⟩
  | 1, _ =>
    simp at hc; subst hc
    refine ⟨⟨_, _, rfl, rfl, by decide⟩, fun j f w hj hf hw => ?_⟩
    match j, hj with
    | 0, _ => simp [tyL, seqOf] at hf; subst hf; simp [leafField] at hw; subst hw; decide
  | 2, _ =>
    simp at hc; subst hc
    refine ⟨⟨_, _, rfl, rfl, by decide⟩, fun j f w hj hf hw => ?_⟩
    match j, hj with
    | 0, _ | 1, _ => simp [tyL, seqOf] at hf; subst hf; simp [leafField] at hw; subst hw; decide

/-- Non-vacuity of `C11_all_feeds` and `C11_order_independent`. -/
example : AllItems track tyL.fields () itemsL ∧ Balanced track () itemsL ∧
    (∀ f ∈ tyL.fields, f.max = .bounded 1) ∧
    (∀ i f, tyL.fields[i]? = some f → Allows f.min f.max (valuesOf i itemsL).length) ∧
    itemsL.Perm itemsL.reverse ∧ itemsL ≠ itemsL.reverse := by
  refine ⟨⟨⟨_, _, _, rfl, rfl, ⟨_, rfl, Or.inl (tyL_named 2 'c' rfl (by omega))⟩,
      leaf_feeds 'c' ['1'] (by decide) (by decide)⟩, rfl,
    ⟨_, _, _, rfl, rfl, ⟨_, rfl, Or.inl (tyL_named 0 'a' rfl (by omega))⟩,
      leaf_feeds 'a' ['2'] (by decide) (by decide)⟩, trivial⟩, fun _ _ => rfl, ?_, ?_,
      (List.reverse_perm _).symm, ?_⟩
  · intro f hf
    simp [tyL, seqOf] at hf
    rcases hf with rfl | rfl | rfl <;> rfl
  · intro i f hf
    match i with
    | 0 | 1 | 2 =>
      simp [tyL, seqOf] at hf; subst hf
      refine ⟨by decide, fun b hb => ?_⟩
      simp [leafField] at hb; subst hb; decide
    | i + 3 => simp [tyL, seqOf] at hf
  · intro h
    simp [itemsL] at h

/-- Non-vacuity of `C11_all_sound_partial` (`tyL` meets the conditions, `tyL_strict`): both
orders are accepted with the same value; a missing `c`, two `a` and an unknown element are
rejected. -/
example :
    verdict (Drv.run (genEnv track) tyL.allDe.toDeser { helper := () }
      (.start (tag 'r') :: (itemEvents itemsL ++ [.end_ ['r']]) ++ [.eof]))
      (.node [[.txt ['2']], [], [.txt ['1']]]) [.eof] = true ∧
    verdict (Drv.run (genEnv track) tyL.allDe.toDeser { helper := () }
      (.start (tag 'r') :: (itemEvents itemsL.reverse ++ [.end_ ['r']]) ++ [.eof]))
      (.node [[.txt ['2']], [], [.txt ['1']]]) [.eof] = true ∧
    fails (Drv.run (genEnv track) tyL.allDe.toDeser { helper := () }
      [.start (tag 'r'), .empty (tag 'b'), .empty (tag 'a'), .end_ ['r']]) = true ∧
    fails (Drv.run (genEnv track) tyL.allDe.toDeser { helper := () }
      [.start (tag 'r'), .empty (tag 'a'), .empty (tag 'c'), .empty (tag 'a'), .end_ ['r']]) = true ∧
    fails (Drv.run (genEnv track) tyL.allDe.toDeser { helper := () }
      [.start (tag 'r'), .empty (tag 'a'), .empty (tag 'c'), .empty (tag 'x'), .end_ ['r']]) = true := by
  decide +kernel

/-- `r = all(b{2..3})` (XML Schema 1.1 allows repeated elements in `xs:all`). -/
def tyLList : SeqTy Unit Unit Str Val Val := seqOf [leafField 'b' 2 (.bounded 3)]

/-- **C11, finding.** The bounds of a repeated element in `xs:all` are not enforced: four, one
and no elements are accepted for `b{2..3}`. -/
theorem C11_maximum_not_enforced :
    countIs 4 (Drv.run (genEnv track) tyLList.allDe.toDeser { helper := () }
      [.start (tag 'r'), .empty (tag 'b'), .empty (tag 'b'), .empty (tag 'b'), .empty (tag 'b'),
        .end_ ['r']]) = true ∧ ¬ Allows 2 (.bounded 3) 4 ∧
    countIs 1 (Drv.run (genEnv track) tyLList.allDe.toDeser { helper := () }
      [.start (tag 'r'), .empty (tag 'b'), .end_ ['r']]) = true ∧ ¬ Allows 2 (.bounded 3) 1 := by
  refine ⟨by decide +kernel, ?_, by decide +kernel, ?_⟩
  · rintro ⟨_, h⟩
    have := h 3 rfl
    omega
  · rintro ⟨h, _⟩
    omega

/-- `r = all(a, b, c)` where `a` and `b` are heads of substitution groups. -/
def tyLD : SeqTy Unit Unit (Nat × Str) Val Val :=
  { fields := [dynField 'a' 1, dynField 'b' 1]
    ofTag := fun _ _ => .ok (), attrs0 := (), build := fun _ vs => .node vs }

/-- **C11, finding.** In an `xs:all` with two substitution groups no document is read: the
second group never sees a tag, since the first one does not hand it on. -/
theorem C11_second_dynamic_unreachable :
    fails (Drv.run (genEnv track) tyLD.allDe.toDeser { helper := () }
      [.start (tag 'r'), .empty (tag 'a'), .empty (tag 'b'), .end_ ['r']]) = true ∧
    fails (Drv.run (genEnv track) tyLD.allDe.toDeser { helper := () }
      [.start (tag 'r'), .empty (tag 'b'), .empty (tag 'a'), .end_ ['r']]) = true := by
  decide +kernel

/-- A field whose type is a choice used as a group. -/
def groupField (c : Char) (T : EnumTy Unit Str Val Val) (min : Nat) (max : MaxOccurs) :
    Field Unit (CPos Str Val Val) Val :=
  { name := [c], want := none, min, max, de := { T with isElement := false : EnumTy .. }.de }

/-- Two groups in an `xs:all`: `all(choice(a, b{1..2}, c?), choice(x))`. -/
def tyLG : SeqTy Unit Unit (CPos Str Val Val) Val Val :=
  { fields := [groupField '1' tyE 1 (.bounded 1),
      groupField '2' { tyE with alts := [leafField 'x' 1 (.bounded 1)] } 1 (.bounded 1)]
    ofTag := fun _ _ => .ok (), attrs0 := (), build := fun _ vs => .node vs }

/-- Non-vacuity of the second case of `Chosen` and of `C11_interrupted_child_stored`: the groups
in both orders. -/
example :
    verdict (Drv.run (genEnv track) tyLG.allDe.toDeser { helper := () }
      (.start (tag 'r') :: (elem 'b' ['1'] ++ [.empty (tag 'x')] ++ [.end_ ['r']])))
      (.node [[.node [[.txt ['x']], [.txt ['1']]]], [.node [[.txt []], [.txt []]]]]) [] = true ∧
    verdict (Drv.run (genEnv track) tyLG.allDe.toDeser { helper := () }
      (.start (tag 'r') :: ([.empty (tag 'x')] ++ elem 'a' ['1'] ++ [.end_ ['r']])))
      (.node [[.node [[.txt []], [.txt ['1']]]], [.node [[.txt []], [.txt []]]]]) [] = true := by
  decide +kernel

end Ex

end
end Verif.Gen

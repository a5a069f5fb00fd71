import Verif.Gen.ChoiceExamples

/-!
# Generated deserializers of `xs:all` content (C11)

Structs whose content is `xs:all`, renderer/steps/quick_xml/deserialize.rs: `next`
(`render_deserializer_fn_next_all`, 2289-2346), `find_suitable` (1745-1812), the handlers
(`deserializer_struct_field_fn_handle_all`, 3982-4059), `store_…` (3934-3980), `finish`
(3883-3932) and `finish_state` (1915-1978). The fields and the shape of the type are those of
`SeqTy`.

Not modelled: text fields, `xs:any` and mixed content.
-/

namespace Verif.Gen

open Verif.Rt Verif.Occurs

/-- The state enum: `at_ i c` is the variant of the `i`-th field with its deserializer. -/
inductive APos (C : Type) where
  | init
  | next
  | at_ (i : Nat) (c : C)
deriving DecidableEq, Repr

/-- The deserializer struct. -/
structure ASt (A C V : Type) where
  attrs : A
  vals : List (List V)
  pos : APos C
deriving Repr

section
variable {H A C V W : Type}

/-- `store_…`, 3934-3980. -/
def allStore (f : Field H C V) (i : Nat) (v : V) (s : ASt A C V) : Except GErr (ASt A C V) :=
  match storeAlt f (s.vals.getD i []) v with
  | .error e => .error e
  | .ok vs => .ok { s with vals := s.vals.modify i fun _ => vs }

/-- `finish_state`, 1915-1978: a running child is finished and stored. -/
def SeqTy.allFlush (T : SeqTy H A C V W) (h : H) (fb : Option (APos C)) (s : ASt A C V) :
    Except GErr (ASt A C V) :=
  match fb with
  | some (.at_ i c) =>
    match T.fields[i]? with
    | none => .error .panic
    | some f =>
      match f.de.finish c h with
      | .error e => .error e
      | .ok v => allStore f i v s
  | _ => .ok s

/-- `finish`, without a running child. -/
def SeqTy.allFinishVals (T : SeqTy H A C V W) (s : ASt A C V) (h : H) : Except GErr W :=
  (finishFields h T.fields s.vals).map (T.build s.attrs)

/-- `finish`. -/
def SeqTy.allFinish (T : SeqTy H A C V W) (s : ASt A C V) (h : H) : Except GErr W :=
  match T.allFlush h (some s.pos) s with
  | .error e => .error e
  | .ok s => T.allFinishVals s h

/-- The handlers, 3982-4059. -/
def SeqTy.allHandle (T : SeqTy H A C V W) (f : Field H C V) (i : Nat) (out : Output C V) (h : H)
    (s : ASt A C V) (fb : Option (APos C)) :
    Except GErr (EHO × ASt A C V × Option (APos C)) :=
  match out.artifact with
  | .none => .ok (contOrReturn f out.event out.allowAny, { s with pos := .next }, fb)
  | .data v =>
    match T.allFlush h fb s with
    | .error e => .error e
    | .ok s =>
      match allStore f i v s with
      | .error e => .error e
      | .ok s => .ok (.fromEvent out.event out.allowAny, { s with pos := .next }, none)
  | .deser c =>
    match T.allFlush h fb s with
    | .error e => .error e
    | .ok s => .ok (.fromEvent out.event out.allowAny, { s with pos := .next }, some (.at_ i c))

/-- The handler, applied to the result of a call of the child. -/
def SeqTy.allEnter (T : SeqTy H A C V W) (f : Field H C V) (i : Nat) (h : H) (s : ASt A C V)
    (fb : Option (APos C)) (r : Except GErr (Output C V)) :
    Except GErr (EHO × ASt A C V × Option (APos C)) :=
  match r with
  | .error err => .error err
  | .ok out => T.allHandle f i out h s fb

/-- The groups in `find_suitable`, and the way back if nothing fits. -/
def SeqTy.allGroups (T : SeqTy H A C V W) (h : H) :
    List (Field H C V) → Nat → Event → Bool → ASt A C V → Option (APos C) →
    Except GErr (EHO × ASt A C V × Option (APos C))
  | [], _, e, any, s, fb =>
    .ok (.toParent e (T.allowAny || any), { s with pos := fb.getD .init }, none)
  | f :: fs, i, e, any, s, fb =>
    if f.want.isSome then SeqTy.allGroups T h fs (i + 1) e any s fb
    else
      match T.allEnter f i h s fb (f.de.init h e) with
      | .error err => .error err
      | .ok (.cont e a, s, fb) => SeqTy.allGroups T h fs (i + 1) e (any || a) s fb
      | .ok r => .ok r

/-- `find_suitable`, 1745-1812. -/
def SeqTy.allFind (T : SeqTy H A C V W) (h : H) (e : Event) (s : ASt A C V)
    (fb : Option (APos C)) : Except GErr (EHO × ASt A C V × Option (APos C)) :=
  match tagOf e with
  | none => .ok (.toParent e T.allowAny, { s with pos := fb.getD .init }, none)
  | some t =>
    match findAlt h t T.fields 0 with
    | some (i, f) => T.allEnter f i h s fb (f.de.init h e)
    | none => T.allGroups h T.fields 0 e false s fb

/-- One round of the `loop` of `next`. -/
inductive ARound (A C V W : Type) where
  | again (e : Event) (s : ASt A C V) (fb : Option (APos C))
  | ret (out : Output (ASt A C V) W)

/-- Leave the loop, 2336-2345. -/
def ARound.after (r : Except GErr (EHO × ASt A C V × Option (APos C))) :
    Except GErr (ARound A C V W) :=
  match r with
  | .error err => .error err
  | .ok (.cont e _, s, fb) => .ok (.again e s fb)
  | .ok (.brk ev a, s, fb) => .ok (.ret ⟨.deser { s with pos := fb.getD s.pos }, ev, a⟩)

/-- The body of the `loop` of `next`, 2315-2334. -/
def SeqTy.allRound (T : SeqTy H A C V W) (h : H) (e : Event) (s : ASt A C V)
    (fb : Option (APos C)) : Except GErr (ARound A C V W) :=
  match s.pos with
  | .at_ i c =>
    match T.fields[i]? with
    | none => .error .panic
    | some f => ARound.after (T.allEnter f i h s fb (f.de.next c h e))
  | pos =>
    match e with
    | .end_ n =>
      match T.allFinishVals s h with
      | .error err => .error err
      | .ok w => .ok (.ret ⟨.data w, if T.isElement then .none else .cont (.end_ n), false⟩)
    | e => ARound.after (T.allFind h e s (some (fb.getD pos)))

/-- The `loop` of `next`; `fuel` bounds the number of rounds. -/
def SeqTy.allLoop (T : SeqTy H A C V W) (h : H) :
    Nat → Event → ASt A C V → Option (APos C) → Except GErr (Output (ASt A C V) W)
  | 0, _, _, _ => .error .diverged
  | fuel + 1, e, s, fb =>
    match T.allRound h e s fb with
    | .error err => .error err
    | .ok (.again e s fb) => SeqTy.allLoop T h fuel e s fb
    | .ok (.ret out) => .ok out

/-- `next`. -/
def SeqTy.allNext (T : SeqTy H A C V W) (s : ASt A C V) (h : H) (e : Event) :
    Except GErr (Output (ASt A C V) W) :=
  T.allLoop h 4 e s none

def SeqTy.allStart (T : SeqTy H A C V W) (a : A) : ASt A C V :=
  ⟨a, T.fields.map fun _ => [], .init⟩

/-- `init` for elements (1041-1052) and groups (2054-2097). -/
def SeqTy.allInit (T : SeqTy H A C V W) (h : H) (e : Event) :
    Except GErr (Output (ASt A C V) W) :=
  if T.isElement then
    initFromStart (fun h t => (T.ofTag h t).map T.allStart) T.allFinish h e
  else
    match T.allNext (T.allStart T.attrs0) h e with
    | .error err => .error err
    | .ok out =>
      .ok { out with artifact :=
        match out.artifact with
        | .deser s =>
          match s.pos with
          | .init => .none
          | _ => .deser s
        | a => a }

/-- The generated deserializer of a struct with `xs:all` content. -/
def SeqTy.allDe (T : SeqTy H A C V W) : GDe H (ASt A C V) W :=
  ⟨T.allInit, T.allNext, T.allFinish⟩

/-! ## Completeness -/

/-- No child is running. -/
def APos.idle : APos C → Prop
  | .at_ _ _ => False
  | _ => True

theorem SeqTy.allFlush_idle (T : SeqTy H A C V W) (h : H) {p : APos C} (hp : p.idle)
    (s : ASt A C V) : T.allFlush h (some p) s = .ok s := by
  cases p <;> first | rfl | exact hp.elim

theorem modify_const (l : List (List V)) (i : Nat) (v : V) :
    (l.modify i fun _ => l.getD i [] ++ [v]) = l.modify i (· ++ [v]) := by
  apply List.ext_getElem?
  intro j
  simp only [List.getElem?_modify]
  by_cases h : i = j
  · subst h
    cases hl : l[i]? <;> simp [hl]
  · simp [h]

theorem allStore_ok (f : Field H C V) (i : Nat) (v : V) (s : ASt A C V)
    (hr : Room f (s.vals.getD i []).length) :
    allStore f i v s = .ok { s with vals := s.vals.modify i (· ++ [v]) } := by
  simp only [allStore, storeAlt_ok hr, modify_const]

theorem all_next_running (T : SeqTy H A C V W) (f : Field H C V) (i : Nat) (c : C) (h : H)
    (e : Event) (s : ASt A C V) (hp : s.pos = .at_ i c) (hf : T.fields[i]? = some f)
    (out : Output C V) (hc : f.de.next c h e = .ok out) (ev : DEvent) (a : Bool)
    (s' : ASt A C V) (fb : Option (APos C))
    (hh : T.allHandle f i out h s none = .ok (.brk ev a, s', fb)) :
    T.allNext s h e = .ok ⟨.deser { s' with pos := fb.getD s'.pos }, ev, a⟩ := by
  simp only [SeqTy.allNext, SeqTy.allLoop, SeqTy.allRound, hp, hf, hc, SeqTy.allEnter, hh,
    ARound.after]

theorem findAlt_none {h : H} {t : Tag} {fs : List (Field H C V)}
    (hno : ∀ f ∈ fs, ∀ want, f.want = some want → want h t = false) (k : Nat) :
    findAlt h t fs k = none := by
  induction fs generalizing k with
  | nil => rfl
  | cons f fs ih =>
    have ih := ih (fun f hf => hno f (by simp [hf])) (k + 1)
    unfold findAlt
    cases hw : f.want with
    | none => simpa using ih
    | some want => simpa [hno f (by simp) want hw] using ih

theorem fromEvent_tag {e : Event} {t : Tag} (he : tagOf e = some t) (x : Bool) :
    EHO.fromEvent (.cont e) x = .cont e x := by
  cases e <;> simp [tagOf] at he <;> rfl

theorem allGroups_first (T : SeqTy H A C V W) (f : Field H C V) (h : H) (e : Event) (t : Tag)
    (he : tagOf e = some t) (i : Nat)
    (hw : f.want = none) (out : Output C V) (hc : f.de.init h e = .ok out) (fb : Option (APos C))
    (sa : A) (sv : List (List V)) (ev : DEvent) (a : Bool) (s' : ASt A C V)
    (fb' : Option (APos C)) (k : Nat)
    (hh : ∀ p, T.allHandle f (k + i) out h ⟨sa, sv, p⟩ fb = .ok (.brk ev a, s', fb'))
    (fs : List (Field H C V)) (hf : fs[i]? = some f)
    (hd : ∀ j g, j < i → fs[j]? = some g → g.want = none →
      ∃ x, g.de.init h e = .ok ⟨.none, .cont e, x⟩) (any : Bool) (p : APos C) :
    T.allGroups h fs k e any ⟨sa, sv, p⟩ fb = .ok (.brk ev a, s', fb') := by
  induction fs generalizing i k any p with
  | nil => simp at hf
  | cons g fs ih =>
    unfold SeqTy.allGroups
    cases i with
    | zero =>
      simp at hf
      subst hf
      have h0 := hh p
      rw [Nat.add_zero] at h0
      simp [hw, SeqTy.allEnter, hc, h0]
    | succ i =>
      have hrest := ih i (k + 1) (by
          intro p
          rw [show k + 1 + i = k + (i + 1) by omega]
          exact hh p) (by simpa using hf)
        (fun j g hj hg => hd (j + 1) g (by omega) (by simpa using hg))
      cases hg : g.want with
      | some want => simpa using hrest any p
      | none =>
        obtain ⟨x, hx⟩ := hd 0 g (by omega) rfl hg
        simp only [Option.isSome_none, Bool.false_eq_true, if_false, SeqTy.allEnter, hx,
          SeqTy.allHandle, contOrReturn, hg, Option.isNone_none, if_true, fromEvent_tag he]
        exact hrest _ _

/-- **Specification**: the field that reads a tag. This is the first element with its name; a
tag that is the name of no element goes to the first field without a name of its own (a
substitution group, say) that does not decline it. -/
def Chosen (fs : List (Field H C V)) (i : Nat) (h : H) (e : Event) : Prop :=
  ∃ t, tagOf e = some t ∧
    (FirstNamed fs i h t ∨
      ((∀ f ∈ fs, ∀ want, f.want = some want → want h t = false) ∧
       (∀ f, fs[i]? = some f → f.want = none) ∧
       ∀ j g, j < i → fs[j]? = some g → g.want = none →
         ∃ x, g.de.init h e = .ok ⟨.none, .cont e, x⟩))

/-- **Specification** of the content: padding, and elements that the chosen field reads. -/
def AllItems (track : H → Event → H) (fs : List (Field H C V)) : H → List (Item V) → Prop
  | _, [] => True
  | h, .pad e :: r => Padding e = true ∧ AllItems track fs (track h e) r
  | h, .child i evs v :: r =>
    (∃ f e es, fs[i]? = some f ∧ evs = e :: es ∧ Chosen fs i (track h e) e ∧
      Feeds track f.de none h evs v) ∧
    AllItems track fs (evs.foldl track h) r

theorem all_next_tag (T : SeqTy H A C V W) (f : Field H C V) (i : Nat)
    (hf : T.fields[i]? = some f) (h : H) (e : Event)
    (fn : Chosen T.fields i h e) (s : ASt A C V) (hs : s.pos.idle) (out : Output C V)
    (hc : f.de.init h e = .ok out) (ev : DEvent) (a : Bool) (s' : ASt A C V)
    (fb : Option (APos C))
    (hh : ∀ p, T.allHandle f i out h { s with pos := p } (some s.pos) = .ok (.brk ev a, s', fb)) :
    T.allNext s h e = .ok ⟨.deser { s' with pos := fb.getD s'.pos }, ev, a⟩ := by
  obtain ⟨t, he, fn⟩ := fn
  have h1 : T.allFind h e s (some s.pos) = .ok (.brk ev a, s', fb) := by
    rcases fn with fn | ⟨hno, hw, hd⟩
    · simp only [SeqTy.allFind, he, findAlt_first hf fn 0, hc, SeqTy.allEnter, hh s.pos,
        Nat.zero_add]
    · simp only [SeqTy.allFind, he, findAlt_none hno 0]
      exact allGroups_first T f h e t he i (hw f hf) out hc (some s.pos) s.attrs s.vals ev a s' fb 0
        (fun p => by rw [Nat.zero_add]; exact hh p) T.fields hf hd false s.pos
  have h2 : T.allRound h e s none = .ok (.ret ⟨.deser { s' with pos := fb.getD s'.pos }, ev, a⟩) := by
    unfold SeqTy.allRound
    cases hp : s.pos with
    | at_ i c => rw [hp] at hs; exact hs.elim
    | _ =>
      rw [hp] at h1
      cases e <;> simp [tagOf] at he <;> simp only [Option.getD_none, h1, ARound.after]
  simp only [SeqTy.allNext, SeqTy.allLoop, h2]

theorem all_handle_data (T : SeqTy H A C V W) (f : Field H C V) (i : Nat) (v : V) (a : Bool)
    (h : H) (s : ASt A C V) (fb : Option (APos C)) (hfb : T.allFlush h fb s = .ok s)
    (hr : Room f (s.vals.getD i []).length) :
    T.allHandle f i ⟨.data v, .none, a⟩ h s fb
      = .ok (.brk .none a, ⟨s.attrs, s.vals.modify i (· ++ [v]), .next⟩, none) := by
  simp only [SeqTy.allHandle, hfb, allStore_ok f i v s hr, EHO.fromEvent]

theorem all_handle_deser (T : SeqTy H A C V W) (f : Field H C V) (i : Nat) (c : C) (a : Bool)
    (h : H) {e : Event} {ev : DEvent} (q : Quiet e ev) (s : ASt A C V) (fb : Option (APos C))
    (hfb : T.allFlush h fb s = .ok s) :
    T.allHandle f i ⟨.deser c, ev, a⟩ h s fb
      = .ok (.brk ev a, { s with pos := .next }, some (.at_ i c)) := by
  simp only [SeqTy.allHandle, hfb, fromEvent_quiet q]

theorem all_feeds_running (track : H → Event → H) (T : SeqTy H A C V W) (f : Field H C V)
    (i : Nat) (hf : T.fields[i]? = some f) (s : ASt A C V)
    (hr : Room f (s.vals.getD i []).length) (rest : List Event) (w : W) {st : Option C} {h : H}
    {evs : List Event} {v : V} (fd : Feeds track f.de st h evs v) :
    ∀ c, st = some c →
    Feeds track T.allDe (some ⟨s.attrs, s.vals.modify i (· ++ [v]), .next⟩) (evs.foldl track h)
      rest w →
    Feeds track T.allDe (some { s with pos := .at_ i c }) h (evs ++ rest) w := by
  induction fd with
  | @last st h e v a hc =>
    intro c hst hrest
    subst hst
    refine .step (ev := .none) (a := a) ?_ (Or.inl rfl) hrest
    exact all_next_running T f i c _ e { s with pos := .at_ i c } rfl hf _ hc _ _ _ _
      (all_handle_data T f i v a _ { s with pos := .at_ i c } none rfl hr)
  | @step st h e es v c' ev a hc hq _ ih =>
    intro c hst hrest
    subst hst
    refine .step (ev := ev) (a := a) ?_ hq (ih c' rfl hrest)
    exact all_next_running T f i c _ e { s with pos := .at_ i c } rfl hf _ hc _ _ _ _
      (all_handle_deser T f i c' a _ hq { s with pos := .at_ i c } none rfl)

theorem all_next_padding (T : SeqTy H A C V W) (s : ASt A C V) (hs : s.pos.idle) (h : H)
    (e : Event) (he : Padding e = true) :
    T.allNext s h e = .ok ⟨.deser s, .cont e, T.allowAny⟩ := by
  have ht : tagOf e = none := by cases e <;> simp_all [tagOf, Padding]
  have : T.allRound h e s none = .ok (.ret ⟨.deser s, .cont e, T.allowAny⟩) := by
    obtain ⟨sa, sv, sp⟩ := s
    cases sp with
    | at_ i c => exact hs.elim
    | _ =>
      unfold SeqTy.allRound
      cases e <;> first | (simp [Padding] at he; done) | rfl
  simp only [SeqTy.allNext, SeqTy.allLoop, this]

theorem all_feeds_items (track : H → Event → H) (T : SeqTy H A C V W) (hT : T.isElement = true)
    (h0 : ∀ f ∈ T.fields, f.max ≠ .bounded 0) (n : Str) (items : List (Item V)) :
    ∀ (s : ASt A C V) (h : H), s.pos.idle → s.vals.length = T.fields.length →
    AllItems track T.fields h items →
    (∀ i f, T.fields[i]? = some f →
      Allows f.min f.max ((s.vals.getD i []).length + (valuesOf i items).length)) →
    Feeds track T.allDe (some s) h (itemEvents items ++ [.end_ n])
      (T.build s.attrs (merge s.vals items)) := by
  induction items with
  | nil =>
    intro s h hs hlen _ hc
    rw [merge_nil]
    refine .last (a := false) ?_
    have hf := finishFields_ok (track h (.end_ n)) T.fields s.vals hlen h0
      (fun i f hf => by simpa [valuesOf] using hc i f hf)
    show T.allNext _ _ _ = _
    have : T.allRound (track h (.end_ n)) (.end_ n) s none
        = .ok (.ret ⟨.data (T.build s.attrs s.vals), .none, false⟩) := by
      unfold SeqTy.allRound
      cases hp : s.pos with
      | at_ i c => rw [hp] at hs; exact hs.elim
      | _ => simp [SeqTy.allFinishVals, hf, Except.map, hT]
    simp only [SeqTy.allNext, SeqTy.allLoop, this]
  | cons it items ih =>
    intro s h hs hlen ok hc
    cases it with
    | pad e =>
      obtain ⟨he, ok⟩ := ok
      exact .step (all_next_padding T s hs (track h e) e he) (Or.inr ⟨he, Or.inr rfl⟩)
        (ih s (track h e) hs hlen ok hc)
    | child i evs v =>
      obtain ⟨⟨f, e, es, hf, rfl, fn, fd⟩, ok⟩ := ok
      have hi : i < T.fields.length := by
        rcases Nat.lt_or_ge i T.fields.length with h | h
        · exact h
        · rw [List.getElem?_eq_none h] at hf; cases hf
      have hv : valuesOf i (.child i (e :: es) v :: items) = v :: valuesOf i items := by
        simp [valuesOf]
      have hroom : Room f (s.vals.getD i []).length := by
        apply room_of_allows (h0 f (List.mem_of_getElem? hf)) (m := (valuesOf i items).length)
        have := hc i f hf
        rw [hv] at this
        simpa [Nat.add_assoc, Nat.add_comm 1] using this
      have hrest := ih ⟨s.attrs, s.vals.modify i (· ++ [v]), .next⟩ (List.foldl track h (e :: es))
        trivial (by simpa using hlen) ok (by
          intro j g hg
          have := hc j g hg
          rw [getD_modify _ _ _ _ (by omega)]
          by_cases hij : i = j
          · subst hij
            rw [if_pos rfl]
            rw [hv] at this
            simpa [Nat.add_assoc, Nat.add_comm 1] using this
          · rw [if_neg hij]
            have hv' : valuesOf j (.child i (e :: es) v :: items) = valuesOf j items := by
              simp [valuesOf, hij]
            rwa [hv'] at this)
      rw [merge_child]
      show Feeds track T.allDe (some s) h ((e :: es) ++ itemEvents items ++ [.end_ n]) _
      rw [List.append_assoc]
      cases fd with
      | @last _ _ _ _ a hcall =>
        refine .step (ev := .none) (a := a) ?_ (Or.inl rfl) hrest
        exact all_next_tag T f i hf _ e fn s hs _ hcall .none a
          ⟨s.attrs, s.vals.modify i (· ++ [v]), .next⟩ none
          (fun p => all_handle_data T f i v a _ { s with pos := p } _ (T.allFlush_idle _ hs _) hroom)
      | @step _ _ _ _ _ c ev a hcall hq fd =>
        refine .step (ev := ev) (a := a) ?_ hq
          (all_feeds_running track T f i hf s hroom _ _ fd c rfl hrest)
        exact all_next_tag T f i hf _ e fn s hs _ hcall ev a { s with pos := .next }
          (some (.at_ i c))
          (fun p => all_handle_deser T f i c a _ hq { s with pos := p } _ (T.allFlush_idle _ hs _))

/-- **C11.** An element with `xs:all` content: let the start tag have valid attributes and the
content be padding and children in *any* order, each an element that its field (`Chosen`) reads,
their number within the bounds of each field. Then the generated deserializer
consumes exactly the element, and the struct holds in each field exactly the values of its
children. -/
theorem C11_all_feeds (track : H → Event → H) (T : SeqTy H A C V W) (hT : T.isElement = true)
    (h0 : ∀ f ∈ T.fields, f.max ≠ .bounded 0) (h : H) (t : Tag) (a : A)
    (ha : T.ofTag (track h (.start t)) t = .ok a) (items : List (Item V))
    (ok : AllItems track T.fields (track h (.start t)) items)
    (hc : ∀ i f, T.fields[i]? = some f → Allows f.min f.max (valuesOf i items).length) :
    Feeds track T.allDe none h (.start t :: (itemEvents items ++ [.end_ t.name]))
      (T.build a ((List.range T.fields.length).map (valuesOf · items))) := by
  have hi : T.allDe.call none (track h (.start t)) (.start t)
      = .ok ⟨.deser (T.allStart a), .none, false⟩ := by
    show T.allInit _ _ = _
    simp [SeqTy.allInit, hT, initFromStart, ha, Except.map]
  refine .step hi (Or.inl rfl) ?_
  have hg : ∀ i, (T.allStart a).vals.getD i [] = [] := by
    intro i
    simp only [SeqTy.allStart, List.getD_eq_getElem?_getD, List.getElem?_map]
    cases T.fields[i]? <;> rfl
  have := all_feeds_items track T hT h0 t.name items (T.allStart a) (track h (.start t)) trivial
    (by simp [SeqTy.allStart]) ok (fun i f hf => by rw [hg i]; simpa using hc i f hf)
  rw [show (T.allStart a).vals = T.fields.map fun _ => [] from rfl, merge_start] at this
  exact this

/-- **C11**, seen from `T::deserialize(reader)`. -/
theorem C11_all_accepts (track : H → Event → H) (T : SeqTy H A C V W) (hT : T.isElement = true)
    (h0 : ∀ f ∈ T.fields, f.max ≠ .bounded 0) (h : H) (t : Tag) (a : A)
    (ha : T.ofTag (track h (.start t)) t = .ok a) (items : List (Item V))
    (ok : AllItems track T.fields (track h (.start t)) items)
    (hc : ∀ i f, T.fields[i]? = some f → Allows f.min f.max (valuesOf i items).length)
    (rest : List Event) :
    Drv.run (genEnv track) T.allDe.toDeser { helper := h }
        (.start t :: (itemEvents items ++ [.end_ t.name]) ++ rest)
      = .done (T.build a ((List.range T.fields.length).map (valuesOf · items))) rest :=
  (C11_all_feeds track T hT h0 h t a ha items ok hc).run rest

/-- **C11.** An `xs:all` content used as a group: at the end tag of the element around it, it
returns its value and hands the end tag back. -/
theorem C11_group_returns_end (T : SeqTy H A C V W) (hT : T.isElement = false)
    (h0 : ∀ f ∈ T.fields, f.max ≠ .bounded 0) (s : ASt A C V) (hs : s.pos.idle)
    (hlen : s.vals.length = T.fields.length)
    (ha : ∀ i f, T.fields[i]? = some f → Allows f.min f.max (s.vals.getD i []).length)
    (h : H) (n : Str) :
    T.allDe.next s h (.end_ n)
      = .ok ⟨.data (T.build s.attrs s.vals), .cont (.end_ n), false⟩ := by
  have hf := finishFields_ok h T.fields s.vals hlen h0 ha
  show T.allNext _ _ _ = _
  have : T.allRound h (.end_ n) s none
      = .ok (.ret ⟨.data (T.build s.attrs s.vals), .cont (.end_ n), false⟩) := by
    unfold SeqTy.allRound
    cases hp : s.pos with
    | at_ i c => rw [hp] at hs; exact hs.elim
    | _ => simp [SeqTy.allFinishVals, hf, Except.map, hT]
  simp only [SeqTy.allNext, SeqTy.allLoop, this]

/-- **C11.** A child that could go on (a repeated group) and meets the tag of another field is
finished and stored in its own field, before the value of the other one. -/
theorem C11_interrupted_child_stored (T : SeqTy H A C V W) (f g : Field H C V) (i j : Nat)
    (hf : T.fields[i]? = some f) (hg : T.fields[j]? = some g) (c c' : C) (h : H) (e : Event)
    (fn : Chosen T.fields j h e) (s : ASt A C V) (hp : s.pos = .at_ i c) (x y : Bool)
    (v1 v2 : V) (hc : f.de.next c h e = .ok ⟨.deser c', .cont e, x⟩)
    (hfin : f.de.finish c' h = .ok v1) (hi : g.de.init h e = .ok ⟨.data v2, .none, y⟩)
    (hr1 : Room f (s.vals.getD i []).length)
    (hr2 : Room g ((s.vals.modify i (· ++ [v1])).getD j []).length) :
    T.allDe.next s h e = .ok ⟨.deser ⟨s.attrs,
        (s.vals.modify i (· ++ [v1])).modify j (· ++ [v2]), .next⟩, .none, y⟩ := by
  obtain ⟨t, he, fn⟩ := fn
  have hne : ∀ n, e ≠ .end_ n := by intro n hn; subst hn; simp [tagOf] at he
  have hh : ∀ p, T.allHandle g j ⟨.data v2, .none, y⟩ h ⟨s.attrs, s.vals, p⟩ (some (.at_ i c'))
      = .ok (.brk .none y, ⟨s.attrs, (s.vals.modify i (· ++ [v1])).modify j (· ++ [v2]), .next⟩,
        none) := by
    intro p
    simp only [SeqTy.allHandle, SeqTy.allFlush, hf, hfin]
    rw [allStore_ok f i v1 ⟨s.attrs, s.vals, p⟩ hr1]
    simp only
    rw [allStore_ok g j v2 ⟨s.attrs, s.vals.modify i (· ++ [v1]), p⟩ hr2]
    rfl
  have h2 : T.allFind h e { s with pos := .next } (some (.at_ i c'))
      = .ok (.brk .none y, ⟨s.attrs, (s.vals.modify i (· ++ [v1])).modify j (· ++ [v2]), .next⟩,
        none) := by
    rcases fn with fn | ⟨hno, hw, hd⟩
    · simp only [SeqTy.allFind, he, findAlt_first hg fn 0, hi, SeqTy.allEnter, hh .next,
        Nat.zero_add]
    · simp only [SeqTy.allFind, he, findAlt_none hno 0]
      exact allGroups_first T g h e t he j (hw g hg) _ hi (some (.at_ i c')) s.attrs s.vals .none y _ none
        0 (fun p => by rw [Nat.zero_add]; exact hh p) T.fields hg hd false .next
  have h1 : T.allRound h e s none = .ok (.again e { s with pos := .next } (some (.at_ i c'))) := by
    simp only [SeqTy.allRound, hp, hf, hc, SeqTy.allEnter, SeqTy.allHandle, SeqTy.allFlush,
      fromEvent_tag he, ARound.after]
  have h3 : T.allRound h e { s with pos := .next } (some (.at_ i c'))
      = .ok (.ret ⟨.deser ⟨s.attrs, (s.vals.modify i (· ++ [v1])).modify j (· ++ [v2]), .next⟩,
        .none, y⟩) := by
    unfold SeqTy.allRound
    cases e <;> first
      | (exact absurd rfl (hne _))
      | (simp only [Option.getD_some, h2, ARound.after, Option.getD_none]; done)
  show T.allNext _ _ _ = _
  simp only [SeqTy.allNext, SeqTy.allLoop, h1, h3]

/-! ## Permutations -/

/-- Every element leaves the helper as it was (scopes that are opened are closed). -/
def Balanced (track : H → Event → H) (h : H) (items : List (Item V)) : Prop :=
  ∀ it ∈ items, it.events.foldl track h = h

/-- One item, with the helper as it is between the children. -/
def ItemFits (track : H → Event → H) (fs : List (Field H C V)) (h : H) : Item V → Prop
  | .pad e => Padding e = true
  | .child i evs v => ∃ f e es, fs[i]? = some f ∧ evs = e :: es ∧
      Chosen fs i (track h e) e ∧ Feeds track f.de none h evs v

theorem allItems_balanced (track : H → Event → H) (fs : List (Field H C V)) (h : H)
    (items : List (Item V)) (hb : Balanced track h items) :
    AllItems track fs h items ↔ ∀ it ∈ items, ItemFits track fs h it := by
  induction items with
  | nil => simp [AllItems]
  | cons it items ih =>
    have hb' : Balanced track h items := fun x hx => hb x (List.mem_cons_of_mem _ hx)
    have h1 := hb it (List.mem_cons_self ..)
    cases it with
    | pad e =>
      simp only [Item.events, List.foldl_cons, List.foldl_nil] at h1
      simp only [AllItems, h1, ih hb', List.forall_mem_cons, ItemFits]
    | child i evs v =>
      simp only [Item.events] at h1
      simp only [AllItems, h1, ih hb', List.forall_mem_cons, ItemFits]

theorem valuesOf_perm {items items' : List (Item V)} (p : items.Perm items') (i : Nat) :
    (valuesOf i items).Perm (valuesOf i items') := p.filterMap _

theorem perm_short {l l' : List V} (p : l.Perm l') (h : l.length ≤ 1) : l = l' := by
  match l, h with
  | [], _ => exact (List.perm_nil.mp p.symm).symm
  | [x], _ => exact (List.perm_singleton.mp p.symm).symm

/-- **C11.** The children may come in any order: if a document with single and optional
children (`maxOccurs` at most one) is valid, every permutation of its children and of the
padding between them is accepted with the same value. -/
theorem C11_order_independent (track : H → Event → H) (T : SeqTy H A C V W)
    (hT : T.isElement = true) (h0 : ∀ f ∈ T.fields, f.max = .bounded 1) (h : H) (t : Tag) (a : A)
    (ha : T.ofTag (track h (.start t)) t = .ok a) (items items' : List (Item V))
    (hb : Balanced track (track h (.start t)) items)
    (ok : AllItems track T.fields (track h (.start t)) items)
    (hc : ∀ i f, T.fields[i]? = some f → Allows f.min f.max (valuesOf i items).length)
    (p : items.Perm items') (rest : List Event) :
    ∃ w, Drv.run (genEnv track) T.allDe.toDeser { helper := h }
          (.start t :: (itemEvents items ++ [.end_ t.name]) ++ rest) = .done w rest ∧
      Drv.run (genEnv track) T.allDe.toDeser { helper := h }
          (.start t :: (itemEvents items' ++ [.end_ t.name]) ++ rest) = .done w rest := by
  have h0' : ∀ f ∈ T.fields, f.max ≠ .bounded 0 := fun f hf hx => by
    rw [h0 f hf] at hx; cases hx
  have ok' : AllItems track T.fields (track h (.start t)) items' := by
    rw [allItems_balanced track _ _ _ hb] at ok
    rw [allItems_balanced track _ _ _ (fun x hx => hb x (p.mem_iff.mpr hx))]
    exact fun x hx => ok x (p.mem_iff.mpr hx)
  have hv : ∀ i, i < T.fields.length → valuesOf i items = valuesOf i items' := by
    intro i hi
    have hf : T.fields[i]? = some (T.fields[i]) := List.getElem?_eq_getElem hi
    refine perm_short (valuesOf_perm p i) ?_
    exact (hc i _ hf).2 1 (h0 _ (List.getElem_mem hi))
  have heq : (List.range T.fields.length).map (valuesOf · items)
      = (List.range T.fields.length).map (valuesOf · items') := by
    apply List.map_congr_left
    intro i hi
    exact hv i (List.mem_range.mp hi)
  refine ⟨_, C11_all_accepts track T hT h0' h t a ha items ok hc rest, ?_⟩
  rw [heq]
  refine C11_all_accepts track T hT h0' h t a ha items' ok' ?_ rest
  intro i f hf
  have hi : i < T.fields.length := by
    rcases Nat.lt_or_ge i T.fields.length with h | h
    · exact h
    · rw [List.getElem?_eq_none h] at hf; cases hf
  rw [← hv i hi]
  exact hc i f hf

/-- **C11.** More generally the order across fields is irrelevant: two valid documents with the
same children for each field, in the same order within each field, give the same value. -/
theorem C11_order_across_fields (track : H → Event → H) (T : SeqTy H A C V W)
    (hT : T.isElement = true) (h0 : ∀ f ∈ T.fields, f.max ≠ .bounded 0) (h : H) (t : Tag) (a : A)
    (ha : T.ofTag (track h (.start t)) t = .ok a) (items items' : List (Item V))
    (ok : AllItems track T.fields (track h (.start t)) items)
    (ok' : AllItems track T.fields (track h (.start t)) items')
    (hc : ∀ i f, T.fields[i]? = some f → Allows f.min f.max (valuesOf i items).length)
    (hsame : ∀ i, i < T.fields.length → valuesOf i items = valuesOf i items')
    (rest : List Event) :
    ∃ w, Drv.run (genEnv track) T.allDe.toDeser { helper := h }
          (.start t :: (itemEvents items ++ [.end_ t.name]) ++ rest) = .done w rest ∧
      Drv.run (genEnv track) T.allDe.toDeser { helper := h }
          (.start t :: (itemEvents items' ++ [.end_ t.name]) ++ rest) = .done w rest := by
  refine ⟨_, C11_all_accepts track T hT h0 h t a ha items ok hc rest, ?_⟩
  have heq : (List.range T.fields.length).map (valuesOf · items)
      = (List.range T.fields.length).map (valuesOf · items') := by
    apply List.map_congr_left
    intro i hi
    exact hsame i (List.mem_range.mp hi)
  rw [heq]
  refine C11_all_accepts track T hT h0 h t a ha items' ok' ?_ rest
  intro i f hf
  have hi : i < T.fields.length := by
    rcases Nat.lt_or_ge i T.fields.length with h | h
    · exact h
    · rw [List.getElem?_eq_none h] at hf; cases hf
  rw [← hsame i hi]
  exact hc i f hf

end
end Verif.Gen

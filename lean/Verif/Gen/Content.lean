import Verif.Gen.ChoiceSound

/-!
# Choices as content of other types (C12)

* A generated enum used as a *group*: it reads one alternative and returns without waiting
  for an end tag.
* Structs with a `content` field, renderer/steps/quick_xml/deserialize.rs:
  `render_deserializer_fn_next_content_complex` (2191-2287), `…_fn_handle_complex` (2730-2913),
  `store_content` (2609-2644), `…_finish` (2570-2607), `finish_state` (1915-1978),
  `fn_finish` (2490-2520). This is what a repeated choice becomes.

Not modelled: `handle_simple` (simple content, see `Verif.Gen.Leaf`) and mixed content.
-/

namespace Verif.Gen

open Verif.Rt Verif.Occurs

/-- The state enum of a struct with content. -/
inductive KPos (C : Type) where
  | init
  | next
  | content (c : C)
  | done
deriving DecidableEq, Repr

/-- The deserializer struct. -/
structure KSt (A C V : Type) where
  attrs : A
  vals : List V
  pos : KPos C
deriving Repr

/-- A struct with the field `content`. `content.want` is not used; the errors
`DuplicateContent` and `MissingContent` are represented by those of a field named
`content.name`. -/
structure ContentTy (H A C V W : Type) where
  content : Field H C V
  isElement : Bool := true
  ofTag : H → Tag → Except GErr A
  attrs0 : A
  build : A → List V → W

section
variable {H A C V W : Type}

/-- `finish_state`, 1960-1966: a running content deserializer is finished and stored. -/
def ContentTy.flush (T : ContentTy H A C V W) (h : H) (fb : Option (KPos C))
    (s : KSt A C V) : Except GErr (KSt A C V) :=
  match fb with
  | some (.content c) =>
    match T.content.de.finish c h with
    | .error e => .error e
    | .ok v =>
      match storeAlt T.content s.vals v with
      | .error e => .error e
      | .ok vs => .ok { s with vals := vs }
  | _ => .ok s

/-- `finish`, 2490-2520, for a state without running content. -/
def ContentTy.finishVals (T : ContentTy H A C V W) (s : KSt A C V) (h : H) : Except GErr W :=
  (finishField T.content h s.vals).map (T.build s.attrs)

/-- `finish`, 2490-2520. -/
def ContentTy.finish (T : ContentTy H A C V W) (s : KSt A C V) (h : H) : Except GErr W :=
  match T.flush h (some s.pos) s with
  | .error e => .error e
  | .ok s => T.finishVals s h

def ContentTy.breakOrEnd (T : ContentTy H A C V W) (ev : DEvent) (a : Bool) : EHO :=
  if T.isElement then .fromEventEnd ev a else .brk ev a

def KPos.isContent : KPos C → Bool
  | .content _ => true
  | _ => false

/-- The handler for `DeserializerArtifact::None`, 2755-2800. -/
def ContentTy.handleNone (T : ContentTy H A C V W) (ev : DEvent) (any : Bool) (s : KSt A C V)
    (fb : Option (KPos C)) : EHO × KSt A C V × Option (KPos C) :=
  let pos := fb.getD .next
  if T.isElement then (.fromEventEnd ev any, { s with pos }, none)
  else if T.content.isDefaultable then (.brk ev any, { s with pos }, none)
  else if isList T.content.occurs then
    if s.vals.length + (if pos.isContent then 1 else 0) < T.content.min then
      (.toRoot ev any, { s with pos }, none)
    else (.brk ev any, { s with pos }, none)
  else (.brk ev any, { s with pos := .init }, fb)

/-- 2868-2896: after a running child there may be another one (`n`: stored so far). -/
def ContentTy.more (T : ContentTy H A C V W) (n : Nat) : Bool :=
  isList T.content.occurs &&
    match T.content.max with
    | .bounded b => decide (n < b - 1)
    | .unbounded => true

/-- `handle_content`, 2730-2913. -/
def ContentTy.handle (T : ContentTy H A C V W) (out : Output C V) (h : H) (s : KSt A C V)
    (fb : Option (KPos C)) : Except GErr (EHO × KSt A C V × Option (KPos C)) :=
  match out.artifact with
  | .none => .ok (T.handleNone out.event out.allowAny s fb)
  | .data v =>
    match T.flush h fb s with
    | .error e => .error e
    | .ok s =>
      match storeAlt T.content s.vals v with
      | .error e => .error e
      | .ok vs =>
        let stay := .ok (EHO.fromEvent out.event out.allowAny, ⟨s.attrs, vs, .next⟩, none)
        let finish := .ok (EHO.brk out.event out.allowAny, ⟨s.attrs, vs, .done⟩, none)
        if T.isElement then stay
        else if isList T.content.occurs then
          match T.content.max with
          | .bounded b => if vs.length < b then stay else finish
          | .unbounded => stay
        else finish
  | .deser c =>
    match T.flush h fb s with
    | .error e => .error e
    | .ok s =>
      if T.more s.vals.length then
        .ok (.fromEvent out.event out.allowAny, { s with pos := .next }, some (.content c))
      else .ok (T.breakOrEnd out.event out.allowAny, { s with pos := .content c }, none)

/-- One round of the `loop` of `next`. -/
inductive KRound (A C V W : Type) where
  | again (e : Event) (s : KSt A C V) (fb : Option (KPos C))
  | ret (out : Output (KSt A C V) W)

/-- Leave the loop, 2274-2286: the fallback state replaces the state; in the state `Done__` the
value is returned. -/
def ContentTy.stop (T : ContentTy H A C V W) (h : H) (s : KSt A C V) (fb : Option (KPos C))
    (ev : DEvent) (a : Bool) : Except GErr (KRound A C V W) :=
  let s := { s with pos := fb.getD s.pos }
  match s.pos with
  | .done =>
    match T.finish s h with
    | .error err => .error err
    | .ok w => .ok (.ret ⟨.data w, ev, a⟩)
  | _ => .ok (.ret ⟨.deser s, ev, a⟩)

/-- After a call of the content deserializer. -/
def ContentTy.after (T : ContentTy H A C V W) (h : H) (s : KSt A C V) (fb : Option (KPos C))
    (r : Except GErr (Output C V)) : Except GErr (KRound A C V W) :=
  match r with
  | .error err => .error err
  | .ok out =>
    match T.handle out h s fb with
    | .error err => .error err
    | .ok (.cont e _, s, fb) => .ok (.again e s fb)
    | .ok (.brk ev a, s, fb) => T.stop h s fb ev a

/-- The body of the `loop` of `next`, 2243-2270. At the end tag the state is `Unknown__`, so
that nothing is flushed. -/
def ContentTy.round (T : ContentTy H A C V W) (h : H) (e : Event) (s : KSt A C V)
    (fb : Option (KPos C)) : Except GErr (KRound A C V W) :=
  match s.pos with
  | .content c => T.after h s fb (T.content.de.next c h e)
  | pos =>
    match e with
    | .end_ n =>
      match T.finishVals s h with
      | .error err => .error err
      | .ok w => .ok (.ret ⟨.data w, if T.isElement then .none else .cont (.end_ n), false⟩)
    | e =>
      match pos with
      | .done => T.stop h s fb (.cont e) false
      | pos => T.after h s (some (fb.getD pos)) (T.content.de.init h e)

/-- The `loop` of `next`; `fuel` bounds the number of rounds. -/
def ContentTy.loop (T : ContentTy H A C V W) (h : H) :
    Nat → Event → KSt A C V → Option (KPos C) → Except GErr (Output (KSt A C V) W)
  | 0, _, _, _ => .error .diverged
  | fuel + 1, e, s, fb =>
    match T.round h e s fb with
    | .error err => .error err
    | .ok (.again e s fb) => ContentTy.loop T h fuel e s fb
    | .ok (.ret out) => .ok out

/-- `next`, 2191-2287. -/
def ContentTy.next (T : ContentTy H A C V W) (s : KSt A C V) (h : H) (e : Event) :
    Except GErr (Output (KSt A C V) W) :=
  T.loop h 4 e s none

def ContentTy.start (a : A) : KSt A C V := ⟨a, [], .init⟩

/-- `init` for elements (1041-1052) and groups (2054-2097). -/
def ContentTy.init (T : ContentTy H A C V W) (h : H) (e : Event) :
    Except GErr (Output (KSt A C V) W) :=
  if T.isElement then
    initFromStart (fun h t => (T.ofTag h t).map ContentTy.start) T.finish h e
  else
    match T.next (ContentTy.start T.attrs0) h e with
    | .error err => .error err
    | .ok out =>
      .ok { out with artifact :=
        match out.artifact with
        | .deser s =>
          match s.pos with
          | .init => .none
          | _ => .deser s
        | a => a }

/-- The generated deserializer of a struct with content. -/
def ContentTy.de (T : ContentTy H A C V W) : GDe H (KSt A C V) W := ⟨T.init, T.next, T.finish⟩

/-! ## An enum as a group -/

/-- A running child of a group. -/
theorem group_feeds_running (track : H → Event → H) (T : EnumTy H C V W)
    (hT : T.isElement = false) (f : Field H C V) (i : Nat) (hf : T.alts[i]? = some f)
    (ho : f.occurs = .single ∨ f.occurs = .optional)
    {st : Option C} {h : H} {evs : List Event} {v : V} (fd : Feeds track f.de st h evs v) :
    ∀ c, st = some c →
    Feeds track T.de (some (.at_ i [] none (some c))) h evs (T.build i [v]) := by
  have hl : isList f.occurs = false := by rcases ho with ho | ho <;> rw [ho] <;> rfl
  have hmax : f.max = .bounded 1 ∧ f.min ≤ 1 := by
    rcases ho with ho | ho
    · exact ⟨(occurs_single ho).2, by rw [(occurs_single ho).1]; omega⟩
    · exact ⟨(occurs_optional ho).2, by rw [(occurs_optional ho).1]; omega⟩
  have hdata : ∀ h v a, T.handle f i h .unknown [] none ⟨.data v, .none, a⟩
      = .ok (.brk .none a, .done (T.build i [v])) := by
    intro h v a
    have h1 : storeAlt f [] v = .ok [v] := by
      unfold storeAlt; rcases ho with ho | ho <;> simp [ho]
    have h2 : finishField f h [v] = .ok [v] := by
      apply finishField_ok
      · exact ⟨by simpa using hmax.2, fun b hb => by rw [hmax.1] at hb; cases hb; simp⟩
      · rw [hmax.1]; simp
    simp [EnumTy.handle, flushAlt, h1, hT, hl, EnumTy.finishState, hf, h2, Except.map]
  induction fd with
  | @last st h e v a hc =>
    intro c hst
    subst hst
    refine .last (a := a) ?_
    show T.next _ _ _ = _
    have hc : f.de.next c (track h e) e = .ok ⟨.data v, .none, a⟩ := hc
    simp only [EnumTy.next, EnumTy.loop, EnumTy.round, hf, hc, EnumTy.enter, hdata, CRound.after,
      CRound.stop, CRound.resume]
  | @step st h e es v c' ev a hc hq _ ih =>
    intro c hst
    subst hst
    refine .step (ev := ev) (a := a) ?_ hq (ih c' rfl)
    exact choice_next_running T f i hf _ e [] c _ hc _ _ _
      (choice_handle_deser T f i _ _ [] c' hq a) (by simp)

/-- **C12.** An enum as a group whose alternative occurs at most once: an element with the name
of an alternative is consumed exactly, giving the variant of the first alternative with that
name. -/
theorem C12_group_feeds (track : H → Event → H) (T : EnumTy H C V W) (hT : T.isElement = false)
    (f : Field H C V) (i : Nat) (hf : T.alts[i]? = some f)
    (ho : f.occurs = .single ∨ f.occurs = .optional) (h : H) (e : Event) (es : List Event)
    (t : Tag) (he : tagOf e = some t) (fn : FirstNamed T.alts i (track h e) t) (v : V)
    (fd : Feeds track f.de none h (e :: es) v) :
    Feeds track T.de none h (e :: es) (T.build i [v]) := by
  have hl : isList f.occurs = false := by rcases ho with ho | ho <;> rw [ho] <;> rfl
  have hmax : f.max = .bounded 1 ∧ f.min ≤ 1 := by
    rcases ho with ho | ho
    · exact ⟨(occurs_single ho).2, by rw [(occurs_single ho).1]; omega⟩
    · exact ⟨(occurs_optional ho).2, by rw [(occurs_optional ho).1]; omega⟩
  cases fd with
  | @last _ _ _ _ a hc =>
    refine .last (a := a) ?_
    have hh : T.handle f i (track h e) .unknown [] none ⟨.data v, .none, a⟩
        = .ok (.brk .none a, .done (T.build i [v])) := by
      have h1 : storeAlt f [] v = .ok [v] := by
        unfold storeAlt; rcases ho with ho | ho <;> simp [ho]
      have h2 : finishField f (track h e) [v] = .ok [v] := by
        apply finishField_ok
        · exact ⟨by simpa using hmax.2, fun b hb => by rw [hmax.1] at hb; cases hb; simp⟩
        · rw [hmax.1]; simp
      simp [EnumTy.handle, flushAlt, h1, hT, hl, EnumTy.finishState, hf, h2, Except.map]
    have hn := choice_next_tag T f i hf (track h e) e t he fn [] .init (Or.inl ⟨rfl, rfl⟩) _ hc
      _ _ _ hh
    show T.init _ _ = _
    simp only [EnumTy.init, hT, Bool.false_eq_true, if_false, hn, CRound.stop, CRound.resume,
      CPos.begun]
  | @step _ _ _ _ _ c ev a hc hq fd =>
    refine .step (ev := ev) (a := a) ?_ hq (group_feeds_running track T hT f i hf ho fd c rfl)
    have hn := choice_next_tag T f i hf (track h e) e t he fn [] .init (Or.inl ⟨rfl, rfl⟩) _ hc
      _ _ _ (choice_handle_deser T f i (track h e) .unknown [] c hq a)
    show T.init _ _ = _
    simp only [EnumTy.init, hT, Bool.false_eq_true, if_false, hn, CRound.stop, CRound.resume,
      CPos.begun, CPos.isInit]

/-- What is not the tag of an alternative, a group hands back unchanged. -/
theorem group_declines (T : EnumTy H C V W) (hT : T.isElement = false)
    (hel : ∀ f ∈ T.alts, f.want.isSome = true) (h : H) (e : Event)
    (hno : ∀ t, tagOf e = some t → findAlt h t T.alts 0 = none) (hend : ∀ n, e ≠ .end_ n) :
    T.de.init h e = .ok ⟨.none, .cont e, T.allowAny⟩ := by
  have hs : T.findSuitable h e = .ok (.toParent e T.allowAny, .init) := by
    unfold EnumTy.findSuitable
    cases ht : tagOf e with
    | none => rfl
    | some t =>
      simp only [hno t ht, findGroups_elements T h e false .unknown T.alts hel 0, Bool.or_false]
  have hr : T.round h e .init = .ok (.ret ⟨.deser .init, .cont e, T.allowAny⟩) := by
    unfold EnumTy.round
    cases e <;> first
      | (exact absurd rfl (hend _))
      | (simp only [hs, CRound.after, EHO.toParent, CRound.stop]; done)
  show T.init h e = _
  simp only [EnumTy.init, hT, Bool.false_eq_true, if_false, EnumTy.next, EnumTy.loop, hr,
    CRound.resume, CPos.begun, CPos.isInit, if_true]

/-! ## Structs with content -/

/-- The values of all children, in document order. -/
def allValues (items : List (Item V)) : List V :=
  items.filterMap fun
    | .child _ _ v => some v
    | .pad _ => none

/-- The content is padding, which the content deserializer does not take, and children, which
it reads. -/
def ContentOk (track : H → Event → H) (d : GDe H C V) : H → List (Item V) → Prop
  | _, [] => True
  | h, .pad e :: r =>
    Padding e = true ∧ (∃ a, d.init (track h e) e = .ok ⟨.none, .cont e, a⟩) ∧
    ContentOk track d (track h e) r
  | h, .child _ evs v :: r =>
    (∃ e es t, evs = e :: es ∧ tagOf e = some t ∧ Feeds track d none h evs v) ∧
    ContentOk track d (evs.foldl track h) r

theorem ContentTy.breakOrEnd_quiet (T : ContentTy H A C V W) {e : Event} {ev : DEvent}
    (q : Quiet e ev) (a : Bool) : T.breakOrEnd ev a = .brk ev a := by
  unfold ContentTy.breakOrEnd
  split
  · rcases q with rfl | ⟨hp, rfl | rfl⟩
    · rfl
    · rfl
    · cases e <;> first | rfl | (simp [Padding] at hp; done)
  · rfl

/-- Nothing is running in the fallback state. -/
def Idle (fb : Option (KPos C)) : Prop := fb = none ∨ fb = some .init ∨ fb = some .next

theorem ContentTy.flush_idle (T : ContentTy H A C V W) (h : H) {fb : Option (KPos C)}
    (hfb : Idle fb) (s : KSt A C V) : T.flush h fb s = .ok s := by
  rcases hfb with rfl | rfl | rfl <;> rfl

/-- The content goes on. -/
theorem content_handle_deser (T : ContentTy H A C V W) (h : H) (s : KSt A C V)
    (fb : Option (KPos C)) (hfb : Idle fb) (c : C) {e : Event} {ev : DEvent} (q : Quiet e ev)
    (a : Bool) :
    T.after h s fb (.ok ⟨.deser c, ev, a⟩) = .ok (.ret ⟨.deser { s with pos := .content c }, ev, a⟩) := by
  cases hm : T.more s.vals.length <;>
    simp [ContentTy.after, ContentTy.handle, T.flush_idle h hfb, fromEvent_quiet q,
      T.breakOrEnd_quiet q, hm, ContentTy.stop]

/-- The content returns its value, in an element. -/
theorem content_handle_data (T : ContentTy H A C V W) (hT : T.isElement = true) (h : H)
    (s : KSt A C V) (fb : Option (KPos C)) (hfb : Idle fb) (v : V) (a : Bool)
    (hr : Room T.content s.vals.length) :
    T.after h s fb (.ok ⟨.data v, .none, a⟩)
      = .ok (.ret ⟨.deser ⟨s.attrs, s.vals ++ [v], .next⟩, .none, a⟩) := by
  simp [ContentTy.after, ContentTy.handle, T.flush_idle h hfb, storeAlt_ok hr, hT, EHO.fromEvent,
    ContentTy.stop]

theorem content_feeds_running (track : H → Event → H) (T : ContentTy H A C V W)
    (hT : T.isElement = true) (s : KSt A C V) (hr : Room T.content s.vals.length)
    (rest : List Event) (w : W) {st : Option C} {h : H} {evs : List Event} {v : V}
    (fd : Feeds track T.content.de st h evs v) :
    ∀ c, st = some c →
    Feeds track T.de (some ⟨s.attrs, s.vals ++ [v], .next⟩) (evs.foldl track h) rest w →
    Feeds track T.de (some { s with pos := .content c }) h (evs ++ rest) w := by
  induction fd with
  | @last st h e v a hc =>
    intro c hst hrest
    subst hst
    refine .step (ev := .none) (a := a) ?_ (Or.inl rfl) hrest
    show T.next _ _ _ = _
    have hc : T.content.de.next c (track h e) e = .ok ⟨.data v, .none, a⟩ := hc
    simp only [ContentTy.next, ContentTy.loop, ContentTy.round, hc,
      content_handle_data T hT _ { s with pos := .content c } none (Or.inl rfl) v a hr]
  | @step st h e es v c' ev a hc hq _ ih =>
    intro c hst hrest
    subst hst
    refine .step (ev := ev) (a := a) ?_ hq (ih c' rfl hrest)
    show T.next _ _ _ = _
    have hc : T.content.de.next c (track h e) e = .ok ⟨.deser c', ev, a⟩ := hc
    simp only [ContentTy.next, ContentTy.loop, ContentTy.round, hc,
      content_handle_deser T _ { s with pos := .content c } none (Or.inl rfl) c' hq a]

theorem content_feeds_items (track : H → Event → H) (T : ContentTy H A C V W)
    (hT : T.isElement = true) (h0 : T.content.max ≠ .bounded 0) (n : Str)
    (items : List (Item V)) :
    ∀ (s : KSt A C V) (h : H), (s.pos = .init ∨ s.pos = .next) →
    ContentOk track T.content.de h items →
    Allows T.content.min T.content.max (s.vals ++ allValues items).length →
    Feeds track T.de (some s) h (itemEvents items ++ [.end_ n])
      (T.build s.attrs (s.vals ++ allValues items)) := by
  induction items with
  | nil =>
    intro s h hs _ ha
    have hv : allValues ([] : List (Item V)) = [] := rfl
    rw [hv, List.append_nil] at ha ⊢
    refine .last (a := false) ?_
    show T.next _ _ _ = _
    have hf := finishField_ok T.content (track h (.end_ n)) s.vals ha h0
    rcases hs with hs | hs <;>
      simp [ContentTy.next, ContentTy.loop, ContentTy.round, hs, ContentTy.finishVals, hf,
        Except.map, hT]
  | cons it items ih =>
    intro s h hs ok ha
    have hround : ∀ e, (∀ n, e ≠ .end_ n) → T.round (track h e) e s none
        = T.after (track h e) s (some s.pos) (T.content.de.init (track h e) e) := by
      intro e he
      unfold ContentTy.round
      rcases hs with hs | hs <;> rw [hs] <;> cases e <;> first
        | (exact absurd rfl (he _))
        | rfl
    have hidle : Idle (some s.pos) := by
      rcases hs with hs | hs <;> rw [hs] <;> simp [Idle]
    have hself : { s with pos := s.pos } = s := rfl
    cases it with
    | pad e =>
      obtain ⟨he, ⟨a, hi⟩, ok⟩ := ok
      have hne : ∀ n, e ≠ .end_ n := by intro n hn; subst hn; simp [Padding] at he
      refine .step (c := s) (ev := .cont e) (a := a) ?_ (Or.inr ⟨he, Or.inr rfl⟩)
        (ih s (track h e) hs ok ha)
      show T.next _ _ _ = _
      have hfe : EHO.fromEventEnd (.cont e) a = .brk (.cont e) a := by
        cases e <;> first | rfl | (exact absurd rfl (hne _))
      have : T.after (track h e) s (some s.pos) (T.content.de.init (track h e) e)
          = .ok (.ret ⟨.deser s, .cont e, a⟩) := by
        rw [hi]
        simp only [ContentTy.after, ContentTy.handle, ContentTy.handleNone, hT, if_true, hfe,
          Option.getD_some, ContentTy.stop, Option.getD_none]
        rcases hs with hs | hs <;> simp only [hs] <;> rw [← hs]
      simp only [ContentTy.next, ContentTy.loop, hround e hne, this]
    | child j evs v =>
      obtain ⟨⟨e, es, t, rfl, he, fd⟩, ok⟩ := ok
      have hne : ∀ n, e ≠ .end_ n := by intro n hn; subst hn; simp [tagOf] at he
      have hv : allValues (.child j (e :: es) v :: items) = v :: allValues items := rfl
      rw [hv] at ha ⊢
      have hroom : Room T.content s.vals.length := by
        apply room_of_allows h0 (m := (allValues items).length)
        have : (s.vals ++ v :: allValues items).length
            = s.vals.length + 1 + (allValues items).length := by simp; omega
        rwa [this] at ha
      have hrest := ih ⟨s.attrs, s.vals ++ [v], .next⟩ (List.foldl track h (e :: es))
        (Or.inr rfl) ok (by simpa [List.append_assoc] using ha)
      rw [List.append_assoc, List.singleton_append] at hrest
      show Feeds track T.de (some s) h ((e :: es) ++ itemEvents items ++ [.end_ n]) _
      rw [List.append_assoc]
      cases fd with
      | @last _ _ _ _ a hc =>
        have hc : T.content.de.init (track h e) e = .ok ⟨.data v, .none, a⟩ := hc
        refine .step (ev := .none) (a := a) ?_ (Or.inl rfl) hrest
        show T.next _ _ _ = _
        simp only [ContentTy.next, ContentTy.loop, hround e hne, hc,
          content_handle_data T hT _ s _ hidle v a hroom]
      | @step _ _ _ _ _ c ev a hc hq fd =>
        have hc : T.content.de.init (track h e) e = .ok ⟨.deser c, ev, a⟩ := hc
        refine .step (ev := ev) (a := a) ?_ hq
          (content_feeds_running track T hT s hroom _ _ fd c rfl hrest)
        show T.next _ _ _ = _
        simp only [ContentTy.next, ContentTy.loop, hround e hne, hc,
          content_handle_deser T _ s _ hidle c hq a]

/-- **C12.** A struct with content: an element whose children the content type reads one by
one, their number within the bounds, is consumed exactly and gives the struct with the values
of the children in document order. -/
theorem C12_content_feeds (track : H → Event → H) (T : ContentTy H A C V W)
    (hT : T.isElement = true) (h0 : T.content.max ≠ .bounded 0) (h : H) (t : Tag) (a : A)
    (ha : T.ofTag (track h (.start t)) t = .ok a) (items : List (Item V))
    (ok : ContentOk track T.content.de (track h (.start t)) items)
    (hc : Allows T.content.min T.content.max (allValues items).length) :
    Feeds track T.de none h (.start t :: (itemEvents items ++ [.end_ t.name]))
      (T.build a (allValues items)) := by
  have hi : T.de.call none (track h (.start t)) (.start t)
      = .ok ⟨.deser (ContentTy.start a), .none, false⟩ := by
    show T.init _ _ = _
    simp [ContentTy.init, hT, initFromStart, ha, Except.map]
  refine .step hi (Or.inl rfl) ?_
  exact content_feeds_items track T hT h0 t.name items (ContentTy.start a) (track h (.start t))
    (Or.inl rfl) ok hc

/-- **Specification** of the content of a repeated choice: padding, and elements with the name
of an alternative (`child i`: the `i`-th is the first with that name), which its type reads. -/
def ChoiceItems (track : H → Event → H) (alts : List (Field H C V)) : H → List (Item V) → Prop
  | _, [] => True
  | h, .pad e :: r => Padding e = true ∧ ChoiceItems track alts (track h e) r
  | h, .child i evs v :: r =>
    (∃ f e es t, alts[i]? = some f ∧ evs = e :: es ∧ tagOf e = some t ∧
      FirstNamed alts i (track h e) t ∧ Feeds track f.de none h evs v) ∧
    ChoiceItems track alts (evs.foldl track h) r

/-- The variants of the children, in document order. -/
def variantsOf (build : Nat → List V → W) (items : List (Item V)) : List W :=
  items.filterMap fun
    | .child i _ v => some (build i [v])
    | .pad _ => none

/-- **C12.** A repeated choice of elements that occur at most once each: let the children be
elements with the names of alternatives, in any order, their number within the bounds of the
choice. Then the element is consumed exactly, and the value is the list of their variants in
document order. -/
theorem C12_repeated_choice_feeds {X : Type} (track : H → Event → H) (E : EnumTy H C V W)
    (hE : E.isElement = false)
    (hel : ∀ f ∈ E.alts, f.want.isSome = true ∧ (f.occurs = .single ∨ f.occurs = .optional))
    (T : ContentTy H A (CPos C V W) W X) (hde : T.content.de = E.de)
    (hT : T.isElement = true) (h0 : T.content.max ≠ .bounded 0) (h : H) (t : Tag) (a : A)
    (ha : T.ofTag (track h (.start t)) t = .ok a) (items : List (Item V))
    (ok : ChoiceItems track E.alts (track h (.start t)) items)
    (hc : Allows T.content.min T.content.max (variantsOf E.build items).length) :
    Feeds track T.de none h (.start t :: (itemEvents items ++ [.end_ t.name]))
      (T.build a (variantsOf E.build items)) := by
  let conv : List (Item V) → List (Item W) := fun l => l.map fun
    | .pad e => .pad e
    | .child i evs v => .child i evs (E.build i [v])
  have hev : ∀ l, itemEvents (conv l) = itemEvents l := by
    intro l
    induction l with
    | nil => rfl
    | cons x l ih =>
      cases x <;> (simp only [conv, List.map_cons, itemEvents, List.flatMap_cons, Item.events] at ih ⊢; rw [ih])
  have hval : ∀ l, allValues (conv l) = variantsOf E.build l := by
    intro l
    induction l with
    | nil => rfl
    | cons x l ih =>
      cases x with
      | pad e => exact ih
      | child i evs v =>
        show E.build i [v] :: allValues (conv l) = E.build i [v] :: variantsOf E.build l
        rw [ih]
  have hok : ∀ l h, ChoiceItems track E.alts h l → ContentOk track T.content.de h (conv l) := by
    intro l
    induction l with
    | nil => intro h _; trivial
    | cons x l ih =>
      intro h ok
      cases x with
      | pad e =>
        refine ⟨ok.1, ⟨E.allowAny, ?_⟩, ih _ ok.2⟩
        rw [hde]
        refine group_declines E hE (fun f hf => (hel f hf).1) _ e ?_ ?_
        · intro t ht
          have := ok.1
          cases e <;> simp [tagOf] at ht <;> simp [Padding] at this
        · intro n hn
          have := ok.1
          subst hn; simp [Padding] at this
      | child i evs v =>
        obtain ⟨⟨f, e, es, t, hf, rfl, he, fn, fd⟩, ok⟩ := ok
        refine ⟨⟨e, es, t, rfl, he, ?_⟩, ih _ ok⟩
        rw [hde]
        exact C12_group_feeds track E hE f i hf (hel f (List.mem_of_getElem? hf)).2 h e es t he fn v fd
  have := C12_content_feeds track T hT h0 h t a ha (conv items) (hok items _ ok)
    (by rw [hval]; exact hc)
  rw [hev, hval] at this
  exact this

/-- **C12**, seen from `T::deserialize(reader)`. -/
theorem C12_repeated_choice_accepts {X : Type} (track : H → Event → H) (E : EnumTy H C V W)
    (hE : E.isElement = false)
    (hel : ∀ f ∈ E.alts, f.want.isSome = true ∧ (f.occurs = .single ∨ f.occurs = .optional))
    (T : ContentTy H A (CPos C V W) W X) (hde : T.content.de = E.de)
    (hT : T.isElement = true) (h0 : T.content.max ≠ .bounded 0) (h : H) (t : Tag) (a : A)
    (ha : T.ofTag (track h (.start t)) t = .ok a) (items : List (Item V))
    (ok : ChoiceItems track E.alts (track h (.start t)) items)
    (hc : Allows T.content.min T.content.max (variantsOf E.build items).length)
    (rest : List Event) :
    Drv.run (genEnv track) T.de.toDeser { helper := h }
        (.start t :: (itemEvents items ++ [.end_ t.name]) ++ rest)
      = .done (T.build a (variantsOf E.build items)) rest :=
  (C12_repeated_choice_feeds track E hE hel T hde hT h0 h t a ha items ok hc).run rest

end
end Verif.Gen

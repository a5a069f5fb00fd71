import Verif.Gen.Leaf

/-!
# Generated choice deserializers (C12)

The deserializer generated for an enum, i.e. for `xs:choice` content,
renderer/steps/quick_xml/deserialize.rs: `ComplexDataEnum` (1054-1541) and the functions
`deserializer_enum_variant_…` of its alternatives (3193-3803).

Not modelled: alternatives chosen by `xsi:type` (`init_element_by_type`), `xs:any` and text
alternatives, mixed content, and `Occurs::None` (rejected by the generator).
-/

namespace Verif.Gen

open Verif.Rt Verif.Occurs

/-- The state enum, 1085-1103: `at_ i vals fallback deserializer` is the variant of the `i`-th
alternative (decl 3193-3226). -/
inductive CPos (C V W : Type) where
  | init
  | at_ (i : Nat) (vals : List V) (fb : Option C) (c : Option C)
  | done (w : W)
  | unknown
deriving DecidableEq, Repr

/-- An enum type. `check` is the attribute loop of `from_bytes_start` (1272-1319),
`defaultable` is `is_defaultable_type`; `build i vs` makes the value of the `i`-th variant. -/
structure EnumTy (H C V W : Type) where
  alts : List (Field H C V)
  allowAny : Bool := false
  isElement : Bool := true
  defaultable : Bool := false
  check : H → Tag → Except GErr Unit
  build : Nat → List V → W

section
variable {H C V W : Type}

/-- The `store_…` function of an alternative, 3425-3472. -/
def storeAlt (f : Field H C V) (vs : List V) (v : V) : Except GErr (List V) :=
  match f.occurs with
  | .single | .optional => if vs.isEmpty then .ok (vs ++ [v]) else .error (.duplicate f.name)
  | _ => .ok (vs ++ [v])

/-- `deserializer_enum_variant_default`, 3312-3362: the default value of an alternative. -/
def defaultAlt (f : Field H C V) (h : H) : Except GErr (List V) :=
  match f.occurs with
  | .none => .error .panic
  | .single => fillDefault f h 1 []
  | .optional => .ok []
  | .dynamicList => fillDefault f h f.min []
  | .staticList n => fillDefault f h n []

/-- Finish and store a running child deserializer, if there is one. -/
def flushAlt (f : Field H C V) (h : H) (c : Option C) (vs : List V) : Except GErr (List V) :=
  match c with
  | none => .ok vs
  | some c =>
    match f.de.finish c h with
    | .error e => .error e
    | .ok v => storeAlt f vs v

/-- `finish_state`, 1321-1366, with the finishing of the alternatives, 3364-3423 (whose
conversions are those of struct fields, `finishField`). -/
def EnumTy.finishState (T : EnumTy H C V W) (h : H) : CPos C V W → Except GErr W
  | .init =>
    if T.defaultable then
      match T.alts[0]? with
      | none => .error .panic
      | some f => (defaultAlt f h).map (T.build 0)
    else .error .missingContent
  | .at_ i vs none c =>
    match T.alts[i]? with
    | none => .error .panic
    | some f =>
      match flushAlt f h c vs with
      | .error e => .error e
      | .ok vs => (finishField f h vs).map (T.build i)
  | .done w => .ok w
  | .at_ _ _ (some _) _ => .error .panic
  | .unknown => .error .panic

/-- `break_or_end`: `from_event_end` for elements, `break_` for groups. -/
def EnumTy.breakOrEnd (T : EnumTy H C V W) (ev : DEvent) (a : Bool) : EHO :=
  if T.isElement then .fromEventEnd ev a else .brk ev a

/-- `continue_or_return`: `from_event` for groups and dynamic alternatives, `return_to_root`
for elements. -/
def contOrReturn (f : Field H C V) (ev : DEvent) (a : Bool) : EHO :=
  if f.want.isNone then .fromEvent ev a else .toRoot ev a

/-- `is_continue_start_or_empty`, types deserialize.rs:180-190. -/
def EHO.isContStart : EHO → Bool
  | .cont e _ => (tagOf e).isSome
  | .brk _ _ => false

/-- Is the container a list? -/
def isList : Container → Bool
  | .dynamicList | .staticList _ => true
  | _ => false

/-- The handler for `DeserializerArtifact::None`, 3530-3583. For `Single` and `Optional` the
state is left as it is. -/
def EnumTy.handleNone (T : EnumTy H C V W) (f : Field H C V) (i : Nat) (st : CPos C V W)
    (vs : List V) (fb : Option C) (ev : DEvent) (a : Bool) : EHO × CPos C V W :=
  if isList f.occurs then
    if fb.isNone && vs.isEmpty then (contOrReturn f ev a, .init)
    else if !f.isDefaultable && decide (vs.length + (if fb.isSome then 1 else 0) < f.min) then
      (.toRoot ev a, .at_ i vs none fb)
    else (T.breakOrEnd ev a, .at_ i vs none fb)
  else (contOrReturn f ev a, st)

/-- `deserializer_enum_variant_fn_handle`, 3476-3693. `st` is the state of the deserializer
when the handler is called. -/
def EnumTy.handle (T : EnumTy H C V W) (f : Field H C V) (i : Nat) (h : H) (st : CPos C V W)
    (vs : List V) (fb : Option C) (out : Output C V) : Except GErr (EHO × CPos C V W) :=
  match out.artifact with
  | .none => .ok (T.handleNone f i st vs fb out.event out.allowAny)
  | .data v =>
    match flushAlt f h fb vs with
    | .error e => .error e
    | .ok vs =>
      match storeAlt f vs v with
      | .error e => .error e
      | .ok vs =>
        let stay := .ok (EHO.fromEvent out.event out.allowAny, .at_ i vs none none)
        let finish :=
          match T.finishState h (.at_ i vs none none) with
          | .error e => .error e
          | .ok w => .ok (EHO.brk out.event out.allowAny, .done w)
        if T.isElement then stay
        else if isList f.occurs then
          match f.max with
          | .bounded b => if vs.length < b then stay else finish
          | .unbounded => stay
        else finish
  | .deser c =>
    match flushAlt f h fb vs with
    | .error e => .error e
    | .ok vs =>
      if isList f.occurs then
        let more :=
          match f.max with
          | .bounded b => decide (vs.length < b - 1)
          | .unbounded => true
        let ret := if more then EHO.fromEvent out.event out.allowAny
          else T.breakOrEnd out.event out.allowAny
        if more && ret.isContStart then .ok (ret, .at_ i vs (some c) none)
        else .ok (ret, .at_ i vs none (some c))
      else .ok (T.breakOrEnd out.event out.allowAny, .at_ i vs none (some c))

/-- The handler, applied to the result of a call of the child. -/
def EnumTy.enter (T : EnumTy H C V W) (f : Field H C V) (i : Nat) (h : H) (vs : List V)
    (fb : Option C) (r : Except GErr (Output C V)) : Except GErr (EHO × CPos C V W) :=
  match r with
  | .error err => .error err
  | .ok out => T.handle f i h .unknown vs fb out

/-- The groups and dynamic alternatives in `find_suitable`, 3153-3191: each is tried with the
event the one before has handed on. -/
def EnumTy.findGroups (T : EnumTy H C V W) (h : H) :
    List (Field H C V) → Nat → Event → Bool → CPos C V W → Except GErr (EHO × CPos C V W)
  | [], _, e, any, _ => .ok (.toParent e (T.allowAny || any), .init)
  | f :: fs, i, e, any, st =>
    if f.want.isSome then EnumTy.findGroups T h fs (i + 1) e any st
    else
      match f.de.init h e with
      | .error err => .error err
      | .ok out =>
        match T.handle f i h st [] none out with
        | .error err => .error err
        | .ok (.cont e a, st) => EnumTy.findGroups T h fs (i + 1) e (any || a) st
        | .ok (.brk ev a, st) => .ok (.brk ev a, st)

/-- The first element alternative whose name the tag has, 3101-3151. -/
def findAlt (h : H) (t : Tag) : List (Field H C V) → Nat → Option (Nat × Field H C V)
  | [], _ => none
  | f :: fs, i =>
    match f.want with
    | some want => if want h t then some (i, f) else findAlt h t fs (i + 1)
    | none => findAlt h t fs (i + 1)

/-- `find_suitable`, 1149-1254: elements first, then groups; otherwise back to `Init__`. -/
def EnumTy.findSuitable (T : EnumTy H C V W) (h : H) (e : Event) :
    Except GErr (EHO × CPos C V W) :=
  match tagOf e with
  | none => .ok (.toParent e T.allowAny, .init)
  | some t =>
    match findAlt h t T.alts 0 with
    | some (i, f) => T.enter f i h [] none (f.de.init h e)
    | none => T.findGroups h T.alts 0 e false .unknown

/-- One round of the `loop` of `next`. -/
inductive CRound (C V W : Type) where
  | again (e : Event) (st : CPos C V W)
  | ret (out : Output (CPos C V W) W)

/-- Leave the loop, 1518-1528: in the state `Done__` the value is returned. -/
def CRound.stop (st : CPos C V W) (ev : DEvent) (a : Bool) : CRound C V W :=
  match st with
  | .done w => .ret ⟨.data w, ev, a⟩
  | st => .ret ⟨.deser st, ev, a⟩

def CRound.after (r : Except GErr (EHO × CPos C V W)) : Except GErr (CRound C V W) :=
  match r with
  | .error err => .error err
  | .ok (.cont e _, st) => .ok (.again e st)
  | .ok (.brk ev a, st) => .ok (.stop st ev a)

/-- Go on with the loop, or return. -/
def CRound.resume (k : Event → CPos C V W → Except GErr (Output (CPos C V W) W))
    (r : Except GErr (CRound C V W)) : Except GErr (Output (CPos C V W) W) :=
  match r with
  | .error err => .error err
  | .ok (.again e st) => k e st
  | .ok (.ret out) => .ok out

/-- The end tag, 1486-1492. -/
def EnumTy.atEnd (T : EnumTy H C V W) (h : H) (n : Str) (st : CPos C V W) :
    Except GErr (CRound C V W) :=
  match T.finishState h st with
  | .error err => .error err
  | .ok w => .ok (.ret ⟨.data w, if T.isElement then .none else .cont (.end_ n), false⟩)

/-- The body of the `loop` of `next`, 1480-1515, with `next_continue` (3696-3702) and
`next_create` (3704-3765). -/
def EnumTy.round (T : EnumTy H C V W) (h : H) (e : Event) (st : CPos C V W) :
    Except GErr (CRound C V W) :=
  match st with
  | .unknown => .error .panic
  | .at_ i vs fb (some c) =>
    match T.alts[i]? with
    | none => .error .panic
    | some f => CRound.after (T.enter f i h vs fb (f.de.next c h e))
  | .init =>
    match e with
    | .end_ n => T.atEnd h n .init
    | e => CRound.after (T.findSuitable h e)
  | .at_ i vs fb none =>
    match e with
    | .end_ n => T.atEnd h n (.at_ i vs fb none)
    | e =>
      match tagOf e with
      | none => .ok (.stop (.at_ i vs fb none) (.cont e) false)
      | some _ =>
        match T.alts[i]? with
        | none => .error .panic
        | some f => CRound.after (T.enter f i h vs fb (f.create false h e))
  | .done w =>
    match e with
    | .end_ n => T.atEnd h n (.done w)
    | e => .ok (.stop (.done w) (.cont e) false)

/-- The `loop` of `next`, 1477-1516. `fuel` bounds the number of rounds (`diverged` if there
are more; one suffices if all alternatives are elements, see `EnumTy.loop_decides`). -/
def EnumTy.loop (T : EnumTy H C V W) (h : H) :
    Nat → Event → CPos C V W → Except GErr (Output (CPos C V W) W)
  | 0, _, _ => .error .diverged
  | fuel + 1, e, st => CRound.resume (EnumTy.loop T h fuel) (T.round h e st)

/-- `next`, 1444-1530. -/
def EnumTy.next (T : EnumTy H C V W) (st : CPos C V W) (h : H) (e : Event) :
    Except GErr (Output (CPos C V W) W) :=
  T.loop h 4 e st

/-- `finish`, 1532-1540. -/
def EnumTy.finish (T : EnumTy H C V W) (st : CPos C V W) (h : H) : Except GErr W :=
  T.finishState h st

def CPos.isInit : CPos C V W → Bool
  | .init => true
  | _ => false

/-- In the state `Init__` a group has not begun, 1435-1438. -/
def CPos.begun : Artifact (CPos C V W) W → Artifact (CPos C V W) W
  | .deser st => if st.isInit then .none else .deser st
  | a => a

/-- `init` for types that represent an element (1041-1052) and for groups (1406-1442). -/
def EnumTy.init (T : EnumTy H C V W) (h : H) (e : Event) :
    Except GErr (Output (CPos C V W) W) :=
  if T.isElement then
    initFromStart (fun h t => (T.check h t).map fun _ => .init) T.finish h e
  else
    match T.next .init h e with
    | .error err => .error err
    | .ok out => .ok { out with artifact := CPos.begun out.artifact }

/-- The generated deserializer of an enum type. -/
def EnumTy.de (T : EnumTy H C V W) : GDe H (CPos C V W) W := ⟨T.init, T.next, T.finish⟩

/-! ## Specification -/

/-- The `i`-th alternative is the first one whose name the tag has. -/
def FirstNamed (alts : List (Field H C V)) (i : Nat) (h : H) (t : Tag) : Prop :=
  (∃ f want, alts[i]? = some f ∧ f.want = some want ∧ want h t = true) ∧
  ∀ j f want, j < i → alts[j]? = some f → f.want = some want → want h t = false

/-- The content is padding and children for the `i`-th alternative: elements of which it is
the first alternative with that name, and which its type reads. -/
def OneOf (track : H → Event → H) (alts : List (Field H C V)) (i : Nat) :
    H → List (Item V) → Prop
  | _, [] => True
  | h, .pad e :: r => Padding e = true ∧ OneOf track alts i (track h e) r
  | h, .child j evs v :: r =>
    j = i ∧ (∃ f e es t, alts[i]? = some f ∧ evs = e :: es ∧ tagOf e = some t ∧
      FirstNamed alts i (track h e) t ∧ Feeds track f.de none h evs v) ∧
    OneOf track alts i (evs.foldl track h) r

/-! ## Lemmas -/

theorem findAlt_first {h : H} {t : Tag} {alts : List (Field H C V)} {i : Nat} {f : Field H C V}
    (hf : alts[i]? = some f) (fn : FirstNamed alts i h t) (k : Nat) :
    findAlt h t alts k = some (k + i, f) := by
  induction alts generalizing i k with
  | nil => simp at hf
  | cons g alts ih =>
    obtain ⟨⟨f', want, hf', hw, hwt⟩, hno⟩ := fn
    cases i with
    | zero =>
      simp at hf hf'
      subst hf; subst hf'
      simp [findAlt, hw, hwt]
    | succ i =>
      simp at hf hf'
      have hrec := ih (i := i) hf ⟨⟨f', want, hf', hw, hwt⟩, fun j f want hj hjf hjw =>
        hno (j + 1) f want (by omega) (by simpa using hjf) hjw⟩ (k + 1)
      rw [show k + 1 + i = k + (i + 1) by omega] at hrec
      simp only [findAlt]
      cases hg : g.want with
      | none => exact hrec
      | some w =>
        have := hno 0 g w (by omega) rfl hg
        simp only [this, Bool.false_eq_true, if_false]
        exact hrec

theorem breakOrEnd_quiet (T : EnumTy H C V W) {e : Event} {ev : DEvent} (q : Quiet e ev)
    (a : Bool) : T.breakOrEnd ev a = .brk ev a := by
  unfold EnumTy.breakOrEnd
  split
  · rcases q with rfl | ⟨hp, rfl | rfl⟩
    · rfl
    · rfl
    · cases e <;> first | rfl | (simp [Padding] at hp; done)
  · rfl

/-- The alternative has room for one more value. -/
def Room (f : Field H C V) (n : Nat) : Prop :=
  f.max ≠ .bounded 0 ∧ (f.occurs = .single ∨ f.occurs = .optional → n = 0)

theorem storeAlt_ok {f : Field H C V} {vs : List V} (hr : Room f vs.length) (v : V) :
    storeAlt f vs v = .ok (vs ++ [v]) := by
  have key : f.occurs = .single ∨ f.occurs = .optional → vs.isEmpty = true := by
    intro h
    have := hr.2 h
    cases vs with
    | nil => rfl
    | cons a b => simp at this
  unfold storeAlt
  split
  · next h => rw [if_pos (key (Or.inl h))]
  · next h => rw [if_pos (key (Or.inr h))]
  · rfl

theorem room_of_allows {f : Field H C V} {n m : Nat} (h0 : f.max ≠ .bounded 0)
    (ha : Allows f.min f.max (n + 1 + m)) : Room f n := by
  refine ⟨h0, fun ho => ?_⟩
  have : f.max = .bounded 1 := by
    rcases ho with ho | ho
    · exact (occurs_single ho).2
    · exact (occurs_optional ho).2
  have := ha.2 1 this
  omega

/-- A child that goes on, in an element or a group. -/
theorem choice_handle_deser (T : EnumTy H C V W) (f : Field H C V) (i : Nat) (h : H)
    (st : CPos C V W) (vs : List V) (c : C) {e : Event} {ev : DEvent} (q : Quiet e ev) (a : Bool) :
    T.handle f i h st vs none ⟨.deser c, ev, a⟩ = .ok (.brk ev a, .at_ i vs none (some c)) := by
  simp only [EnumTy.handle, flushAlt]
  have h1 := fromEvent_quiet q a
  have h2 := breakOrEnd_quiet T q a
  split
  · simp only [h1, h2, ite_self]
    rw [if_neg (by simp [EHO.isContStart])]
  · rw [h2]

/-- A child that returns its value, in an element. -/
theorem choice_handle_data (T : EnumTy H C V W) (hT : T.isElement = true) (f : Field H C V)
    (i : Nat) (h : H) (st : CPos C V W) (vs : List V) (v : V) (a : Bool)
    (hr : Room f vs.length) :
    T.handle f i h st vs none ⟨.data v, .none, a⟩
      = .ok (.brk .none a, .at_ i (vs ++ [v]) none none) := by
  simp only [EnumTy.handle, flushAlt, storeAlt_ok hr, hT, if_true]
  rfl

theorem choice_next_running (T : EnumTy H C V W) (f : Field H C V) (i : Nat)
    (hf : T.alts[i]? = some f) (h : H) (e : Event) (vs : List V) (c : C) (out : Output C V)
    (hc : f.de.next c h e = .ok out) (ev : DEvent) (a : Bool) (st' : CPos C V W)
    (hh : T.handle f i h .unknown vs none out = .ok (.brk ev a, st'))
    (hd : ∀ w, st' ≠ .done w) :
    T.next (.at_ i vs none (some c)) h e = .ok ⟨.deser st', ev, a⟩ := by
  unfold EnumTy.next
  simp only [EnumTy.loop, EnumTy.round, hf, hc, hh, CRound.after, EnumTy.enter, CRound.resume]
  cases st' with
  | done w => exact absurd rfl (hd w)
  | _ => rfl

/-- A running child until it returns its value. -/
theorem choice_feeds_running (track : H → Event → H) (T : EnumTy H C V W)
    (hT : T.isElement = true) (f : Field H C V) (i : Nat) (hf : T.alts[i]? = some f)
    (vs : List V) (hr : Room f vs.length) (rest : List Event) (w : W)
    {st : Option C} {h : H} {evs : List Event} {v : V} (fd : Feeds track f.de st h evs v) :
    ∀ c, st = some c →
    Feeds track T.de (some (.at_ i (vs ++ [v]) none none)) (evs.foldl track h) rest w →
    Feeds track T.de (some (.at_ i vs none (some c))) h (evs ++ rest) w := by
  induction fd with
  | @last st h e v a hc =>
    intro c hst hrest
    subst hst
    refine .step (ev := .none) (a := a) ?_ (Or.inl rfl) hrest
    exact choice_next_running T f i hf _ e vs c _ hc _ _ _
      (choice_handle_data T hT f i _ _ vs v a hr) (by simp)
  | @step st h e es v c' ev a hc hq _ ih =>
    intro c hst hrest
    subst hst
    refine .step (ev := ev) (a := a) ?_ hq (ih c' rfl hrest)
    exact choice_next_running T f i hf _ e vs c _ hc _ _ _
      (choice_handle_deser T f i _ _ vs c' hq a) (by simp)

/-- Between two children: nothing has been read, or values of one alternative. -/
def Between (i : Nat) (vs : List V) (st : CPos C V W) : Prop :=
  (st = .init ∧ vs = []) ∨ (st = .at_ i vs none none ∧ vs ≠ [])

theorem choice_next_tag (T : EnumTy H C V W) (f : Field H C V) (i : Nat)
    (hf : T.alts[i]? = some f) (h : H) (e : Event) (t : Tag) (he : tagOf e = some t)
    (fn : FirstNamed T.alts i h t) (vs : List V) (st : CPos C V W) (hst : Between i vs st)
    (out : Output C V) (hc : f.de.init h e = .ok out) (ev : DEvent) (a : Bool)
    (st' : CPos C V W) (hh : T.handle f i h .unknown vs none out = .ok (.brk ev a, st')) :
    T.next st h e = CRound.resume (T.loop h 3) (.ok (CRound.stop st' ev a)) := by
  have hr : T.round h e st = .ok (CRound.stop st' ev a) := by
    rcases hst with ⟨rfl, rfl⟩ | ⟨rfl, _⟩
    · have h1 : T.findSuitable h e = .ok (.brk ev a, st') := by
        simp only [EnumTy.findSuitable, he, findAlt_first hf fn 0, hc, Nat.zero_add, hh,
          EnumTy.enter]
      unfold EnumTy.round
      cases e <;> simp [tagOf] at he <;> simp only [h1, CRound.after]
    · obtain ⟨⟨f', want, hf', hw, hwt⟩, _⟩ := fn
      have : f' = f := by rw [hf] at hf'; simpa using hf'.symm
      subst this
      have h1 : f'.create false h e = f'.de.init h e := by
        simp [Field.create, hw, initStartTag, he, hwt]
      unfold EnumTy.round
      cases e <;> simp [tagOf] at he <;> simp only [hf, tagOf, h1, hc, hh, CRound.after, EnumTy.enter]
  unfold EnumTy.next
  simp only [EnumTy.loop, hr]

theorem choice_next_padding (T : EnumTy H C V W) (i : Nat) (vs : List V) (st : CPos C V W)
    (hst : Between i vs st) (h : H) (e : Event) (he : Padding e = true) :
    ∃ a, T.next st h e = .ok ⟨.deser st, .cont e, a⟩ := by
  have ht : tagOf e = none := by cases e <;> simp_all [tagOf, Padding]
  rcases hst with ⟨rfl, rfl⟩ | ⟨rfl, _⟩
  · refine ⟨T.allowAny, ?_⟩
    unfold EnumTy.next
    have : T.round h e .init = .ok (.ret ⟨.deser .init, .cont e, T.allowAny⟩) := by
      unfold EnumTy.round
      cases e <;> first | (simp [Padding] at he; done) | rfl
    simp only [EnumTy.loop, this, CRound.resume]
  · refine ⟨false, ?_⟩
    unfold EnumTy.next
    have : T.round h e (.at_ i vs none none)
        = .ok (.ret ⟨.deser (.at_ i vs none none), .cont e, false⟩) := by
      unfold EnumTy.round
      cases e <;> first | (simp [Padding] at he; done) | rfl
    simp only [EnumTy.loop, this, CRound.resume]

theorem choice_feeds_items (track : H → Event → H) (T : EnumTy H C V W)
    (hT : T.isElement = true) (f : Field H C V) (i : Nat) (hf : T.alts[i]? = some f)
    (h0 : f.max ≠ .bounded 0) (n : Str) (items : List (Item V)) :
    ∀ (vs : List V) (st : CPos C V W) (h : H), Between i vs st → OneOf track T.alts i h items →
    vs ++ valuesOf i items ≠ [] → Allows f.min f.max (vs ++ valuesOf i items).length →
    Feeds track T.de (some st) h (itemEvents items ++ [.end_ n])
      (T.build i (vs ++ valuesOf i items)) := by
  induction items with
  | nil =>
    intro vs st h hst _ hne ha
    have hv : valuesOf i ([] : List (Item V)) = [] := rfl
    rw [hv, List.append_nil] at hne ha ⊢
    rcases hst with ⟨_, rfl⟩ | ⟨rfl, _⟩
    · exact absurd rfl hne
    · refine .last (a := false) ?_
      show T.next _ _ _ = _
      unfold EnumTy.next
      have : T.round (track h (.end_ n)) (.end_ n) (.at_ i vs none none)
          = .ok (.ret ⟨.data (T.build i vs), .none, false⟩) := by
        simp [EnumTy.round, EnumTy.atEnd, EnumTy.finishState, hf, flushAlt,
          finishField_ok f _ vs ha h0, Except.map, hT]
      simp only [EnumTy.loop, this, CRound.resume]
  | cons it items ih =>
    intro vs st h hst ok hne ha
    cases it with
    | pad e =>
      obtain ⟨he, ok⟩ := ok
      obtain ⟨a, hn⟩ := choice_next_padding T i vs st hst (track h e) e he
      exact .step hn (Or.inr ⟨he, Or.inr rfl⟩) (ih vs st (track h e) hst ok hne ha)
    | child j evs v =>
      obtain ⟨rfl, ⟨f', e, es, t, hf', rfl, he, fn, fd⟩, ok⟩ := ok
      have : f' = f := by rw [hf] at hf'; simpa using hf'.symm
      subst this
      have hv : valuesOf j (.child j (e :: es) v :: items) = v :: valuesOf j items := by
        simp [valuesOf]
      rw [hv] at ha ⊢
      have hroom : Room f' vs.length := by
        apply room_of_allows h0 (m := (valuesOf j items).length)
        have : (vs ++ v :: valuesOf j items).length
            = vs.length + 1 + (valuesOf j items).length := by simp; omega
        rwa [this] at ha
      have hrest := ih (vs ++ [v]) (.at_ j (vs ++ [v]) none none) (List.foldl track h (e :: es))
        (Or.inr ⟨rfl, by simp⟩) ok (by simp) (by simpa [List.append_assoc] using ha)
      rw [List.append_assoc, List.singleton_append] at hrest
      show Feeds track T.de (some st) h ((e :: es) ++ itemEvents items ++ [.end_ n]) _
      rw [List.append_assoc]
      cases fd with
      | @last _ _ _ _ a hc =>
        have hn := choice_next_tag T f' j hf _ e t he fn vs st hst _ hc _ _ _
          (choice_handle_data T hT f' j _ _ vs v a hroom)
        exact .step hn (Or.inl rfl) hrest
      | @step _ _ _ _ _ c ev a hc hq fd =>
        have hn := choice_next_tag T f' j hf _ e t he fn vs st hst _ hc _ _ _
          (choice_handle_deser T f' j _ _ vs c hq a)
        exact .step hn hq
          (choice_feeds_running track T hT f' j hf vs hroom _ _ fd c rfl hrest)

/-- **C12.** An element with choice content: let the start tag have valid attributes and the
content be padding and children of one alternative, the first one with that name, at least one
child, their number within the bounds of the alternative. Then the generated deserializer
consumes exactly the element and returns the variant of that alternative, with exactly the
values of the children, in document order. -/
theorem C12_choice_feeds (track : H → Event → H) (T : EnumTy H C V W)
    (hT : T.isElement = true) (h : H) (t : Tag) (hc : T.check (track h (.start t)) t = .ok ())
    (i : Nat) (f : Field H C V) (hf : T.alts[i]? = some f) (h0 : f.max ≠ .bounded 0)
    (items : List (Item V)) (ok : OneOf track T.alts i (track h (.start t)) items)
    (hne : valuesOf i items ≠ []) (ha : Allows f.min f.max (valuesOf i items).length) :
    Feeds track T.de none h (.start t :: (itemEvents items ++ [.end_ t.name]))
      (T.build i (valuesOf i items)) := by
  have hi : T.de.call none (track h (.start t)) (.start t) = .ok ⟨.deser .init, .none, false⟩ := by
    show T.init _ _ = _
    simp [EnumTy.init, hT, initFromStart, hc, Except.map]
  refine .step hi (Or.inl rfl) ?_
  exact choice_feeds_items track T hT f i hf h0 t.name items [] .init (track h (.start t))
    (Or.inl ⟨rfl, rfl⟩) ok hne ha

/-- **C12**, seen from `T::deserialize(reader)`. -/
theorem C12_choice_accepts (track : H → Event → H) (T : EnumTy H C V W)
    (hT : T.isElement = true) (h : H) (t : Tag) (hc : T.check (track h (.start t)) t = .ok ())
    (i : Nat) (f : Field H C V) (hf : T.alts[i]? = some f) (h0 : f.max ≠ .bounded 0)
    (items : List (Item V)) (ok : OneOf track T.alts i (track h (.start t)) items)
    (hne : valuesOf i items ≠ []) (ha : Allows f.min f.max (valuesOf i items).length)
    (rest : List Event) :
    Drv.run (genEnv track) T.de.toDeser { helper := h }
        (.start t :: (itemEvents items ++ [.end_ t.name]) ++ rest)
      = .done (T.build i (valuesOf i items)) rest :=
  (C12_choice_feeds track T hT h t hc i f hf h0 items ok hne ha).run rest

end
end Verif.Gen

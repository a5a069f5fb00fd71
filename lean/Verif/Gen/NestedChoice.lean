import Verif.Gen.Nested
import Verif.Gen.Content

/-!
# Nested groups in generated choices and in repeated content (C12)

Choices whose alternatives are elements and groups, and structs with the field `content` whose type is a group, see
`Nested.lean`. The models are those in `Choice.lean` and `Content.lean`.
-/

namespace Verif.Gen

open Verif.Rt Verif.Occurs

section
variable {H A C V W : Type}

/-! ## Specification -/

/-- The tag belongs to the alternative `i`: it is the first alternative with that name, or no alternative has that name,
and the `i`-th alternative is a group, and the groups before it do not take the tag. -/
def Selects (alts : List (Field H C V)) (i : Nat) (h : H) (t : Tag) : Prop :=
  FirstNamed alts i h t ∨
  ((∃ f, alts[i]? = some f ∧ f.want = none) ∧
    (∀ g ∈ alts, ∀ want, g.want = some want → want h t = false) ∧
    ∀ j g, j < i → alts[j]? = some g → g.want = none → g.Declines h t)

/-- The content of a struct with the field `content` is padding, which the content deserializer does not take, and
groups. `own` are the tags that the last group could still take. -/
def ContentParts (track : H → Event → H) (d : GDe H C V) : (H → Tag → Prop) → H → List (Item V) → Prop
  | _, _, [] => True
  | own, h, .pad e :: r =>
    Padding e = true ∧ (∃ ev a, d.init (track h e) e = .ok ⟨.none, ev, a⟩ ∧ Quiet e ev) ∧
      ContentParts track d own (track h e) r
  | own, h, .child _ evs v :: r =>
    ∃ own' e es t, evs = e :: es ∧ tagOf e = some t ∧ ¬ own (track h e) t ∧ GroupReads track d h evs v own' ∧
      ContentParts track d own' (evs.foldl track h) r

/-! ## Sequences as groups -/

/-- A nested sequence hands back the tag of an element with which it cannot begin. -/
theorem nested_declines (T : SeqTy H A C V W) (hT : T.isElement = false) (hne : T.fields ≠ [])
    (hd : ∀ f ∈ T.fields, f.defaultable = false) (h : H) (e : Event) (t : Tag) (he : tagOf e = some t)
    (hdec : ∀ (j : Nat) (f : Field H C V), T.fields[j]? = some f →
      (∀ (i : Nat) (g : Field H C V), i < j → T.fields[i]? = some g → g.min = 0) → f.Declines h t) :
    ∃ a, T.de.init h e = .ok ⟨.none, .cont e, a⟩ := by
  have hloop : ∀ d p k (s : SeqSt A C V) any, p + d = T.fields.length → 0 < d → s.pos = .at_ p none →
      (∀ i g, i < p → T.fields[i]? = some g → g.min = 0) →
      ∃ a, T.loop h (d + 1 + k) e s (some .init) any = .ok ⟨.deser { s with pos := .init }, .cont e, a⟩ := by
    intro d
    induction d with
    | zero => intro p k s any _ h0; omega
    | succ d ih =>
      intro p k s any hpd _ hp hmin
      obtain ⟨f, hf⟩ : ∃ f, T.fields[p]? = some f := ⟨_, List.getElem?_eq_getElem (by omega)⟩
      obtain ⟨a, hcreate⟩ := create_declines (T := T) he (hdec p f hf hmin)
      have hdf : f.defaultable = false := hd f (List.mem_of_getElem? hf)
      by_cases hm : f.min = 0
      · have hh : T.handle f p ⟨.none, .cont e, a⟩ h s (some .init)
            = .ok (.cont e a, { s with pos := T.nextPos p }, some .init) := by
          simp only [SeqTy.handle, SeqTy.handleNone, fromEvent_tag he]
          rw [if_pos (Or.inl hm)]
        have hr : T.round h e s (some .init) any
            = .ok (.again e { s with pos := T.nextPos p } (some .init) (any || a)) := by
          unfold SeqTy.round
          simp only [hp]
          cases e <;> simp [tagOf] at he <;> simp only [tagOf, hf, hcreate, hh, SeqTy.after]
        have hl : T.loop h (d + 1 + 1 + k) e s (some .init) any
            = T.loop h (d + 1 + k) e { s with pos := T.nextPos p } (some .init) (any || a) := by
          rw [show d + 1 + 1 + k = (d + 1 + k) + 1 by omega]
          simp only [SeqTy.loop, hr]
        rw [hl]
        rcases nextPos_cases T p with ⟨hlt, hnx⟩ | ⟨hge, hnx⟩
        · obtain ⟨a', h'⟩ := ih (p + 1) k { s with pos := T.nextPos p } (any || a) (by omega) (by omega) hnx
            (fun i g hi hg => by
              rcases Nat.lt_or_eq_of_le (Nat.le_of_lt_succ hi) with h1 | h1
              · exact hmin i g h1 hg
              · subst h1; rw [hf] at hg; cases hg; exact hm)
          exact ⟨a', h'⟩
        · have hd0 : d = 0 := by omega
          subst hd0
          have hr : T.round h e { s with pos := T.nextPos p } (some .init) (any || a)
              = .ok (.stop { s with pos := T.nextPos p } (some .init) (.cont e) (T.allowAny || (any || a))) := by
            unfold SeqTy.round
            simp only [hnx]
            cases e <;> simp [tagOf] at he <;> rfl
          refine ⟨T.allowAny || (any || a), ?_⟩
          rw [show 0 + 1 + k = k + 1 by omega]
          simp only [SeqTy.loop, hr, Round.stop]
          rfl
      · have hh : T.handle f p ⟨.none, .cont e, a⟩ h s (some .init)
            = .ok (.brk (.cont e) a, s, some .init) := by
          simp only [SeqTy.handle, SeqTy.handleNone]
          have h1 : ¬ (f.min = 0 ∨ f.occurs = .optional) := by
            rintro (h1 | h1)
            · exact hm h1
            · exact hm (occurs_optional h1).1
          have h2 : ¬ f.isDefaultable = true := by
            simp [Field.isDefaultable, hdf, hm]
          rw [if_neg h1, if_neg h2]
          split <;> rfl
        refine ⟨a, ?_⟩
        have hr : T.round h e s (some .init) any = .ok (.stop s (some .init) (.cont e) a) := by
          unfold SeqTy.round
          simp only [hp]
          cases e <;> simp [tagOf] at he <;> simp only [tagOf, hf, hcreate, hh, SeqTy.after]
        rw [show d + 1 + 1 + k = (d + 1 + k) + 1 by omega]
        simp only [SeqTy.loop, hr, Round.stop]
        rfl
  have hlen : 0 < T.fields.length := List.length_pos_iff.mpr hne
  obtain ⟨a, hl⟩ := hloop T.fields.length 0 (T.fields.length + 2) { T.start T.attrs0 with pos := .at_ 0 none }
    (false || T.allowAny) (by omega) hlen rfl (by omega)
  have hn : T.next (T.start T.attrs0) h e = .ok ⟨.deser { T.start T.attrs0 with pos := .init }, .cont e, a⟩ := by
    rw [← hl]
    unfold SeqTy.next SeqTy.fuel
    rw [show 2 * T.fields.length + 4 = (T.fields.length + 1 + (T.fields.length + 2)) + 1 by omega]
    simp only [SeqTy.loop, SeqTy.round, SeqTy.start]
    cases e <;> simp [tagOf] at he <;> rfl
  refine ⟨a, ?_⟩
  show T.init h e = _
  simp [SeqTy.init, hT, hn, SPos.isInit]

/-- Padding is not for a nested sequence that has not begun. -/
theorem nested_padding (T : SeqTy H A C V W) (hT : T.isElement = false) (h : H) (e : Event) (he : Padding e = true) :
    ∃ a, T.de.init h e = .ok ⟨.none, .brk e, a⟩ := by
  have h1 : T.round h e (T.start T.attrs0) none false
      = .ok (.again e { T.start T.attrs0 with pos := .at_ 0 none } (some .init) (false || T.allowAny)) := by
    simp only [SeqTy.round, SeqTy.start]
    cases e <;> first | rfl | (simp [Padding] at he; done)
  have h2 : T.round h e { T.start T.attrs0 with pos := .at_ 0 none } (some .init) (false || T.allowAny)
      = .ok (.ret ⟨.deser { T.start T.attrs0 with pos := .init }, .brk e, false⟩) := by
    simp only [SeqTy.round]
    cases e <;> first | (simp [Padding] at he; done) | simp [Round.stop, tagOf]
  have hn : T.next (T.start T.attrs0) h e = .ok ⟨.deser { T.start T.attrs0 with pos := .init }, .brk e, false⟩ := by
    unfold SeqTy.next SeqTy.fuel
    rw [show 2 * T.fields.length + 4 = (2 * T.fields.length + 2) + 2 from rfl]
    simp only [SeqTy.loop, h1, h2]
  refine ⟨false, ?_⟩
  show T.init h e = _
  simp [SeqTy.init, hT, hn, SPos.isInit]

/-! ## Choices -/

theorem findAlt_none {h : H} {t : Tag} {alts : List (Field H C V)}
    (hno : ∀ g ∈ alts, ∀ want, g.want = some want → want h t = false) (k : Nat) : findAlt h t alts k = none := by
  induction alts generalizing k with
  | nil => rfl
  | cons g alts ih =>
    have hrec := ih (fun g hg => hno g (by simp [hg])) (k + 1)
    simp only [findAlt]
    cases hg : g.want with
    | none => exact hrec
    | some w => simp only [hno g (by simp) w hg, Bool.false_eq_true, if_false, hrec]

theorem contOrReturn_group {f : Field H C V} (hw : f.want = none) {e : Event} {t : Tag} (he : tagOf e = some t)
    (a : Bool) : contOrReturn f (.cont e) a = .cont e a := by
  simp [contOrReturn, hw, fromEvent_tag he]

theorem handle_declined (T : EnumTy H C V W) {f : Field H C V} (hw : f.want = none) (i : Nat) (h : H) (st : CPos C V W)
    {e : Event} {t : Tag} (he : tagOf e = some t) (a : Bool) :
    ∃ st', T.handle f i h st [] none ⟨.none, .cont e, a⟩ = .ok (.cont e a, st') := by
  simp only [EnumTy.handle, EnumTy.handleNone, contOrReturn_group hw he]
  split
  · exact ⟨_, rfl⟩
  · exact ⟨_, rfl⟩

/-- The groups before the one that takes the tag. -/
theorem findGroups_reach (T : EnumTy H C V W) (h : H) (e : Event) (t : Tag) (he : tagOf e = some t)
    (f : Field H C V) (hw : f.want = none) (out : Output C V) (hc : f.de.init h e = .ok out)
    (r : Except GErr (EHO × CPos C V W)) :
    ∀ (alts : List (Field H C V)) (k i : Nat) (any : Bool) (st : CPos C V W), alts[i]? = some f →
    (∀ st, T.handle f (k + i) h st [] none out = r) →
    (∀ j g, j < i → alts[j]? = some g → g.want = none → g.Declines h t) →
    (∃ ev a st', r = .ok (.brk ev a, st')) →
    T.findGroups h alts k e any st = r := by
  intro alts
  induction alts with
  | nil => intro k i any st hf; simp at hf
  | cons g alts ih =>
    intro k i any st hf hh hdec hr
    cases i with
    | zero =>
      simp at hf
      subst hf
      obtain ⟨ev, a, st', rfl⟩ := hr
      simp only [EnumTy.findGroups, hw, Option.isSome_none, Bool.false_eq_true, if_false, hc]
      rw [show k = k + 0 by omega, hh st]
    | succ i =>
      simp at hf
      have hrec := fun any st => ih (k + 1) i any st hf (fun st => by rw [← hh st]; congr 1; omega)
        (fun j g hj hg => hdec (j + 1) g (by omega) (by simpa using hg)) hr
      cases hg : g.want with
      | some w => simp only [EnumTy.findGroups, hg, Option.isSome_some, if_true]; exact hrec _ _
      | none =>
        have hd := hdec 0 g (by omega) (by simp) hg
        simp only [Field.Declines, hg] at hd
        obtain ⟨a, hi⟩ := hd e he
        obtain ⟨st', hh'⟩ := handle_declined T hg k h st he a
        simp only [EnumTy.findGroups, hg, Option.isSome_none, Bool.false_eq_true, if_false, hi, hh']
        exact hrec _ _

/-- A tag that belongs to an alternative, in the initial state. -/
theorem select_next (T : EnumTy H C V W) (f : Field H C V) (i : Nat) (hf : T.alts[i]? = some f) (h : H) (e : Event)
    (t : Tag) (he : tagOf e = some t) (sel : Selects T.alts i h t) (out : Output C V) (hc : f.de.init h e = .ok out)
    (ev : DEvent) (a : Bool) (st' : CPos C V W)
    (hh : ∀ st, T.handle f i h st [] none out = .ok (.brk ev a, st')) :
    T.next .init h e = CRound.resume (T.loop h 3) (.ok (CRound.stop st' ev a)) := by
  rcases sel with fn | ⟨⟨f', hf', hw⟩, hno, hdec⟩
  · exact choice_next_tag T f i hf h e t he fn [] .init (Or.inl ⟨rfl, rfl⟩) out hc ev a st' (hh _)
  · rw [hf] at hf'
    cases hf'
    have h1 : T.findSuitable h e = .ok (.brk ev a, st') := by
      simp only [EnumTy.findSuitable, he, findAlt_none hno]
      exact findGroups_reach T h e t he f hw out hc _ T.alts 0 i false .unknown hf (by simpa using hh) hdec
        ⟨ev, a, st', rfl⟩
    have hr : T.round h e .init = .ok (CRound.stop st' ev a) := by
      unfold EnumTy.round
      cases e <;> simp [tagOf] at he <;> simp only [h1, CRound.after]
    unfold EnumTy.next
    simp only [EnumTy.loop, hr]

/-- A running group in a choice. -/
theorem choice_stays (track : H → Event → H) (T : EnumTy H C V W) (f : Field H C V) (i : Nat)
    (hf : T.alts[i]? = some f) {st : Option C} {h : H} {evs : List Event} {c' : C}
    (s : Stays track f.de st h evs c') :
    ∀ c, st = some c → Stays track T.de (some (.at_ i [] none (some c))) h evs (.at_ i [] none (some c')) := by
  induction s with
  | nil =>
    intro c hst
    cases hst
    exact .nil
  | @step st h e es c1 c2 ev a hc hq _ ih =>
    intro c hst
    subst hst
    refine .step (ev := ev) (a := a) ?_ hq (ih c1 rfl)
    exact choice_next_running T f i hf _ e [] c _ hc _ _ _ (choice_handle_deser T f i _ _ [] c1 hq a) (by simp)

theorem storeAlt_single {f : Field H C V} (ho : f.occurs = .single ∨ f.occurs = .optional) (v : V) :
    storeAlt f [] v = .ok [v] := by
  unfold storeAlt; rcases ho with ho | ho <;> simp [ho]

theorem finishField_single {f : Field H C V} (ho : f.occurs = .single ∨ f.occurs = .optional) (h : H) (v : V) :
    finishField f h [v] = .ok [v] := by
  apply finishField_ok
  · rcases ho with ho | ho
    · rw [(occurs_single ho).1, (occurs_single ho).2]; exact ⟨Nat.le_refl _, fun b hb => by cases hb; simp⟩
    · rw [(occurs_optional ho).1, (occurs_optional ho).2]; exact ⟨by simp, fun b hb => by cases hb; simp⟩
  · rcases ho with ho | ho
    · rw [(occurs_single ho).2]; simp
    · rw [(occurs_optional ho).2]; simp

theorem isList_single {f : Field H C V} (ho : f.occurs = .single ∨ f.occurs = .optional) : isList f.occurs = false := by
  rcases ho with ho | ho <;> rw [ho] <;> rfl

/-- **C12** for a nested choice whose alternatives are elements and groups, each at most once: what belongs to an
alternative is consumed exactly, and gives the variant of that alternative. -/
theorem C12_nested_group_reads (track : H → Event → H) (T : EnumTy H C V W) (hT : T.isElement = false)
    (f : Field H C V) (i : Nat) (hf : T.alts[i]? = some f)
    (ho : f.occurs = .single ∨ f.occurs = .optional) (h : H) (e : Event) (es : List Event)
    (t : Tag) (he : tagOf e = some t) (sel : Selects T.alts i (track h e) t) (v : V) (own : H → Tag → Prop)
    (rd : GroupReads track f.de h (e :: es) v own) :
    GroupReads track T.de h (e :: es) (T.build i [v]) own := by
  have hl := isList_single ho
  have hdata : ∀ h st a ev, T.handle f i h st [] none ⟨.data v, ev, a⟩ = .ok (.brk ev a, .done (T.build i [v])) := by
    intro h st a ev
    simp [EnumTy.handle, flushAlt, storeAlt_single ho, hT, hl, EnumTy.finishState, hf, finishField_single ho, Except.map]
  rcases rd with fd | ⟨c, st, P, hPc, hP⟩
  · left
    cases fd with
    | @last _ _ _ _ a hc =>
      refine .last (a := a) ?_
      have hn := select_next T f i hf (track h e) e t he sel _ hc _ _ _ (fun st => hdata _ st a _)
      show T.init _ _ = _
      simp only [EnumTy.init, hT, Bool.false_eq_true, if_false, hn, CRound.stop, CRound.resume, CPos.begun]
    | @step _ _ _ _ _ c ev a hc hq fd =>
      refine .step (ev := ev) (a := a) ?_ hq (group_feeds_running track T hT f i hf ho fd c rfl)
      have hn := select_next T f i hf (track h e) e t he sel _ hc _ _ _
        (fun st => choice_handle_deser T f i (track h e) st [] c hq a)
      show T.init _ _ = _
      simp only [EnumTy.init, hT, Bool.false_eq_true, if_false, hn, CRound.stop, CRound.resume,
        CPos.begun, CPos.isInit]
  · right
    cases st with
    | @step _ _ _ _ c1 _ ev a hc hq st =>
      refine ⟨.at_ i [] none (some c), .step (ev := ev) (a := a) ?_ hq (choice_stays track T f i hf st c1 rfl), ?_⟩
      · have hn := select_next T f i hf (track h e) e t he sel _ hc _ _ _
          (fun st => choice_handle_deser T f i (track h e) st [] c1 hq a)
        show T.init _ _ = _
        simp only [EnumTy.init, hT, Bool.false_eq_true, if_false, hn, CRound.stop, CRound.resume,
          CPos.begun, CPos.isInit]
      · refine ⟨fun s => ∃ c, P c ∧ s = .at_ i [] none (some c), ⟨c, hPc, rfl⟩, ?_, ?_, ?_, ?_⟩
        · rintro s ⟨c, hc, rfl⟩ h
          simp [EnumTy.de, EnumTy.finish, EnumTy.finishState, hf, flushAlt, hP.finish c hc h, storeAlt_single ho, finishField_single ho, Except.map]
        · rintro s ⟨c, hc, rfl⟩ h e he
          obtain ⟨c', ev, a, hn, hq, hPc'⟩ := hP.pad c hc h e he
          exact ⟨_, ev, a, choice_next_running T f i hf _ e [] c _ hn _ _ _
            (choice_handle_deser T f i _ _ [] c' hq a) (by simp), hq, c', hPc', rfl⟩
        · rintro s ⟨c, hc, rfl⟩ h e t he hown
          obtain ⟨c', a, hn, hPc'⟩ := hP.other c hc h e t he hown
          refine ⟨.at_ i [] none (some c'), a, ?_, c', hPc', rfl⟩
          refine choice_next_running T f i hf _ e [] c _ hn _ _ _ ?_ (by simp)
          simp [EnumTy.handle, flushAlt, hl, EnumTy.breakOrEnd, hT]
        · rintro s ⟨c, hc, rfl⟩ h n
          obtain ⟨a, hn⟩ := hP.end_ c hc h n
          refine ⟨a, ?_⟩
          show T.next _ _ _ = _
          simp only [EnumTy.next, EnumTy.loop, EnumTy.round, hf, hn, EnumTy.enter, hdata, CRound.after, CRound.stop,
            CRound.resume]

/-- A nested choice hands back the tag of an element with which it cannot begin. -/
theorem choice_declines (T : EnumTy H C V W) (hT : T.isElement = false) (h : H) (e : Event) (t : Tag)
    (he : tagOf e = some t) (hdec : ∀ f ∈ T.alts, f.Declines h t) : ∃ a, T.de.init h e = .ok ⟨.none, .cont e, a⟩ := by
  have hg : ∀ (alts : List (Field H C V)) k any st, (∀ f ∈ alts, f.Declines h t) →
      ∃ a, T.findGroups h alts k e any st = .ok (.toParent e a, .init) := by
    intro alts
    induction alts with
    | nil => intro k any st _; exact ⟨_, rfl⟩
    | cons g alts ih =>
      intro k any st hd
      have hrec := fun any st => ih (k + 1) any st (fun f hf => hd f (by simp [hf]))
      cases hg : g.want with
      | some w => simp only [EnumTy.findGroups, hg, Option.isSome_some, if_true]; exact hrec _ _
      | none =>
        have hd := hd g (by simp)
        simp only [Field.Declines, hg] at hd
        obtain ⟨a, hi⟩ := hd e he
        obtain ⟨st', hh'⟩ := handle_declined T hg k h st he a
        simp only [EnumTy.findGroups, hg, Option.isSome_none, Bool.false_eq_true, if_false, hi, hh']
        exact hrec _ _
  obtain ⟨a, hfg⟩ := hg T.alts 0 false .unknown hdec
  have hs : T.findSuitable h e = .ok (.toParent e a, .init) := by
    simp only [EnumTy.findSuitable, he]
    rw [findAlt_none (fun g hg w hw => by have := hdec g hg; rw [Field.Declines, hw] at this; exact this) 0]
    exact hfg
  have hr : T.round h e .init = .ok (.ret ⟨.deser .init, .cont e, a⟩) := by
    unfold EnumTy.round
    cases e <;> simp [tagOf] at he <;> simp only [hs, CRound.after, EHO.toParent, CRound.stop]
  refine ⟨a, ?_⟩
  show T.init h e = _
  simp only [EnumTy.init, hT, Bool.false_eq_true, if_false, EnumTy.next, EnumTy.loop, hr,
    CRound.resume, CPos.begun, CPos.isInit, if_true]

/-- Padding is not for a nested choice. -/
theorem choice_padding (T : EnumTy H C V W) (hT : T.isElement = false) (h : H) (e : Event) (he : Padding e = true) :
    T.de.init h e = .ok ⟨.none, .cont e, T.allowAny⟩ := by
  have ht : tagOf e = none := by cases e <;> simp_all [tagOf, Padding]
  have hr : T.round h e .init = .ok (.ret ⟨.deser .init, .cont e, T.allowAny⟩) := by
    unfold EnumTy.round
    cases e <;> first | (simp [Padding] at he; done) | rfl
  show T.init h e = _
  simp only [EnumTy.init, hT, Bool.false_eq_true, if_false, EnumTy.next, EnumTy.loop, hr,
    CRound.resume, CPos.begun, CPos.isInit, if_true]

theorem choice_stays_padding (track : H → Event → H) (T : EnumTy H C V W) (pads : List Event) :
    ∀ h, (∀ e ∈ pads, Padding e = true) → Stays track T.de (some .init) h pads .init := by
  induction pads with
  | nil => intro h _; exact .nil
  | cons e pads ih =>
    intro h hp
    obtain ⟨a, hn⟩ := choice_next_padding T 0 [] .init (Or.inl ⟨rfl, rfl⟩) (track h e) e (hp e (by simp))
    exact .step hn (Or.inr ⟨hp e (by simp), Or.inr rfl⟩) (ih _ fun e he => hp e (by simp [he]))

/-- **C12** for an element with choice content whose alternatives are elements and groups, each at most once: the element
is consumed exactly, and gives the variant of the alternative that is there. -/
theorem C12_nested_choice_feeds (track : H → Event → H) (T : EnumTy H C V W) (hT : T.isElement = true)
    (h : H) (t : Tag) (hc : T.check (track h (.start t)) t = .ok ())
    (f : Field H C V) (i : Nat) (hf : T.alts[i]? = some f)
    (ho : f.occurs = .single ∨ f.occurs = .optional)
    (pads pads' : List Event) (hp : ∀ e ∈ pads, Padding e = true) (hp' : ∀ e ∈ pads', Padding e = true)
    (e : Event) (es : List Event) (t' : Tag) (he : tagOf e = some t')
    (sel : Selects T.alts i (track (pads.foldl track (track h (.start t))) e) t') (v : V) (own : H → Tag → Prop)
    (rd : GroupReads track f.de (pads.foldl track (track h (.start t))) (e :: es) v own) :
    Feeds track T.de none h (.start t :: (pads ++ ((e :: es) ++ (pads' ++ [.end_ t.name])))) (T.build i [v]) := by
  have hi : T.de.call none (track h (.start t)) (.start t) = .ok ⟨.deser .init, .none, false⟩ := by
    show T.init _ _ = _
    simp [EnumTy.init, hT, initFromStart, hc, Except.map]
  refine .step hi (Or.inl rfl) ((choice_stays_padding track T pads _ hp).feeds ?_)
  have hl := isList_single ho
  have hr : Room f ([] : List V).length := ⟨by
    rcases ho with ho | ho
    · rw [(occurs_single ho).2]; simp
    · rw [(occurs_optional ho).2]; simp, fun _ => rfl⟩
  have hr' : ∀ h, T.round h (.end_ t.name) (.at_ i [v] none none) = .ok (.ret ⟨.data (T.build i [v]), .none, false⟩) := by
    intro h
    simp [EnumTy.round, EnumTy.atEnd, EnumTy.finishState, hf, flushAlt, finishField_single ho, Except.map, hT]
  have hpads : ∀ (pads : List Event) h, (∀ e ∈ pads, Padding e = true) →
      Feeds track T.de (some (.at_ i [v] none none)) h (pads ++ [.end_ t.name]) (T.build i [v]) := by
    intro pads
    induction pads with
    | nil =>
      intro h _
      refine .last (a := false) ?_
      show T.next _ _ _ = _
      simp only [EnumTy.next, EnumTy.loop, hr', CRound.resume]
    | cons e pads ih =>
      intro h hp
      obtain ⟨a, hn⟩ := choice_next_padding T i [v] (.at_ i [v] none none) (Or.inr ⟨rfl, by simp⟩) (track h e) e
        (hp e (by simp))
      exact .step hn (Or.inr ⟨hp e (by simp), Or.inr rfl⟩) (ih _ fun e he => hp e (by simp [he]))
  rcases rd with fd | ⟨c, st, P, hPc, hP⟩
  · cases fd with
    | @last _ _ _ _ a hc =>
      have hn := select_next T f i hf _ e t' he sel _ hc _ _ _ (fun st => choice_handle_data T hT f i _ st [] v a hr)
      exact .step hn (Or.inl rfl) (hpads pads' _ hp')
    | @step _ _ _ _ _ c ev a hc hq fd =>
      have hn := select_next T f i hf _ e t' he sel _ hc _ _ _ (fun st => choice_handle_deser T f i _ st [] c hq a)
      exact .step hn hq (choice_feeds_running track T hT f i hf [] hr _ _ fd c rfl (hpads pads' _ hp'))
  · cases st with
    | @step _ _ _ _ c1 _ ev a hc hq st =>
      have hn := select_next T f i hf _ e t' he sel _ hc _ _ _ (fun st => choice_handle_deser T f i _ st [] c1 hq a)
      refine .step hn hq ((choice_stays track T f i hf st c1 rfl).feeds ?_)
      have hlast : ∀ (pads : List Event) h c, P c → (∀ e ∈ pads, Padding e = true) →
          Feeds track T.de (some (.at_ i [] none (some c))) h (pads ++ [.end_ t.name]) (T.build i [v]) := by
        intro pads
        induction pads with
        | nil =>
          intro h c hPc _
          obtain ⟨a, hn⟩ := hP.end_ c hPc (track h (.end_ t.name)) t.name
          refine .last (a := false) ?_
          have h1 : T.round (track h (.end_ t.name)) (.end_ t.name) (.at_ i [] none (some c))
              = .ok (.again (.end_ t.name) (.at_ i [v] none none)) := by
            simp [EnumTy.round, hf, hn, EnumTy.enter, EnumTy.handle, flushAlt, storeAlt_single ho, hT, EHO.fromEvent,
              CRound.after]
          show T.next _ _ _ = _
          simp only [EnumTy.next, EnumTy.loop, h1, hr', CRound.resume]
        | cons e pads ih =>
          intro h c hPc hp
          obtain ⟨c', ev, a, hn, hq, hPc'⟩ := hP.pad c hPc (track h e) e (hp e (by simp))
          refine .step (ev := ev) (a := a) ?_ hq (ih _ c' hPc' fun e he => hp e (by simp [he]))
          exact choice_next_running T f i hf _ e [] c _ hn _ _ _ (choice_handle_deser T f i _ _ [] c' hq a) (by simp)
      exact hlast pads' _ c hPc hp'

/-! ## Structs with content -/

/-- `s'` is the state once the running group is finished. -/
inductive KOpen (T : ContentTy H A C V W) (own : H → Tag → Prop) (s s' : KSt A C V) : Prop
  | closed (h : s = s')
  | running (c : C) (v : V) (hp : s.pos = .content c) (hl : Lingers T.content.de own v c)
      (hroom : Room T.content s.vals.length) (hs : s' = ⟨s.attrs, s.vals ++ [v], .next⟩)

theorem content_running_feeds (track : H → Event → H) (T : ContentTy H A C V W)
    (hT : T.isElement = true) (s : KSt A C V) (hr : Room T.content s.vals.length)
    {st : Option C} {h : H} {evs : List Event} {v : V} (fd : Feeds track T.content.de st h evs v) :
    ∀ c, st = some c →
    Stays track T.de (some { s with pos := .content c }) h evs ⟨s.attrs, s.vals ++ [v], .next⟩ := by
  induction fd with
  | @last st h e v a hc =>
    intro c hst
    subst hst
    refine .step (ev := .none) (a := a) ?_ (Or.inl rfl) .nil
    show T.next _ _ _ = _
    have hc : T.content.de.next c (track h e) e = .ok ⟨.data v, .none, a⟩ := hc
    simp only [ContentTy.next, ContentTy.loop, ContentTy.round, hc,
      content_handle_data T hT _ { s with pos := .content c } none (Or.inl rfl) v a hr]
  | @step st h e es v c' ev a hc hq _ ih =>
    intro c hst
    subst hst
    refine .step (ev := ev) (a := a) ?_ hq (ih c' rfl)
    show T.next _ _ _ = _
    have hc : T.content.de.next c (track h e) e = .ok ⟨.deser c', ev, a⟩ := hc
    simp only [ContentTy.next, ContentTy.loop, ContentTy.round, hc,
      content_handle_deser T _ { s with pos := .content c } none (Or.inl rfl) c' hq a]

theorem content_running_stays (track : H → Event → H) (T : ContentTy H A C V W) (s : KSt A C V)
    {st : Option C} {h : H} {evs : List Event} {c' : C} (fd : Stays track T.content.de st h evs c') :
    ∀ c, st = some c →
    Stays track T.de (some { s with pos := .content c }) h evs { s with pos := .content c' } := by
  induction fd with
  | nil =>
    intro c hst
    cases hst
    exact .nil
  | @step st h e es c1 c2 ev a hc hq _ ih =>
    intro c hst
    subst hst
    refine .step (ev := ev) (a := a) ?_ hq (ih c1 rfl)
    show T.next _ _ _ = _
    have hc : T.content.de.next c (track h e) e = .ok ⟨.deser c1, ev, a⟩ := hc
    simp only [ContentTy.next, ContentTy.loop, ContentTy.round, hc,
      content_handle_deser T _ { s with pos := .content c } none (Or.inl rfl) c1 hq a]

theorem more_of_allows {T : ContentTy H A C V W} {n m : Nat}
    (ha : Allows T.content.min T.content.max (n + 2 + m)) : T.more n = true := by
  unfold ContentTy.more
  have hl : isList T.content.occurs = true := by
    cases ho : T.content.occurs with
    | none => have := ha.2 0 (occurs_none ho).2; omega
    | single => have := ha.2 1 (occurs_single ho).2; omega
    | optional => have := ha.2 1 (occurs_optional ho).2; omega
    | dynamicList => rfl
    | staticList n => rfl
  rw [hl, Bool.true_and]
  split
  · next b hb =>
    have := ha.2 b hb
    simp; omega
  · rfl

/-- What the content takes is handled as if the running group had been finished before. -/
theorem content_after_settled (T : ContentTy H A C V W) (h : H) (s s' : KSt A C V) (fb : Option (KPos C))
    (hs : T.flush h fb s = .ok s') (fb' : Option (KPos C)) (hfb' : Idle fb') (out : Output C V)
    (ho : out.artifact ≠ .none) : T.after h s fb (.ok out) = T.after h s' fb' (.ok out) := by
  have hh : T.handle out h s fb = T.handle out h s' fb' := by
    unfold ContentTy.handle
    cases ha : out.artifact with
    | none => exact absurd ha ho
    | data v => simp only [hs, T.flush_idle h hfb' s']
    | deser c => simp only [hs, T.flush_idle h hfb' s']
  simp only [ContentTy.after, hh]

/-- With a tag that the running group does not take, the loop goes on in the finished state. -/
theorem content_enter (T : ContentTy H A C V W) (own : H → Tag → Prop) (s s' : KSt A C V) (o : KOpen T own s s')
    (hs' : s'.pos = .init ∨ s'.pos = .next) (m : Nat)
    (ha : Allows T.content.min T.content.max (s'.vals.length + 1 + m))
    (h : H) (e : Event) (t : Tag) (he : tagOf e = some t) (hown : ¬ own h t) (out : Output C V)
    (hc : T.content.de.init h e = .ok out) (ho : out.artifact ≠ .none) (ret : Output (KSt A C V) W)
    (hr : T.after h s' (some s'.pos) (.ok out) = .ok (.ret ret)) :
    T.next s h e = .ok ret := by
  have hidle : Idle (some s'.pos) := by
    rcases hs' with hs | hs <;> rw [hs] <;> simp [Idle]
  have hne : ∀ n, e ≠ .end_ n := by intro n hn; subst hn; simp [tagOf] at he
  cases o with
  | closed hs =>
    subst hs
    have hround : T.round h e s none = .ok (.ret ret) := by
      rw [← hr, ← hc]
      unfold ContentTy.round
      rcases hs' with hs | hs <;> rw [hs] <;> cases e <;> first
        | (exact absurd rfl (hne _))
        | rfl
    unfold ContentTy.next
    simp only [ContentTy.loop, hround]
  | running c v hp hl hroom hs =>
    subst hs
    obtain ⟨P, hPc, hP⟩ := hl
    obtain ⟨c', a, hn, hPc'⟩ := hP.other c hPc h e t he hown
    have hm : T.more s.vals.length = true := more_of_allows (m := m) (by simpa using ha)
    have h1 : T.round h e s none = .ok (.again e { s with pos := .next } (some (.content c'))) := by
      unfold ContentTy.round
      simp only [hp, hn, ContentTy.after, ContentTy.handle, ContentTy.flush, hm, if_true, fromEvent_tag he]
    have hfl : T.flush h (some (.content c')) { s with pos := .next } = .ok ⟨s.attrs, s.vals ++ [v], .next⟩ := by
      simp only [ContentTy.flush, hP.finish c' hPc' h, storeAlt_ok hroom]
    have h2 : T.round h e { s with pos := .next } (some (.content c')) = .ok (.ret ret) := by
      rw [← hr, ← content_after_settled T h _ _ _ hfl _ hidle out ho]
      unfold ContentTy.round
      cases e <;> first
        | (exact absurd rfl (hne _))
        | (simp only [hc, Option.getD_some])
    unfold ContentTy.next
    simp only [ContentTy.loop, h1, h2]

theorem content_feeds_parts (track : H → Event → H) (T : ContentTy H A C V W)
    (hT : T.isElement = true) (h0 : T.content.max ≠ .bounded 0) (n : Str)
    (items : List (Item V)) :
    ∀ (s s' : KSt A C V) (own : H → Tag → Prop) (h : H), KOpen T own s s' → (s'.pos = .init ∨ s'.pos = .next) →
    ContentParts track T.content.de own h items →
    Allows T.content.min T.content.max (s'.vals ++ allValues items).length →
    Feeds track T.de (some s) h (itemEvents items ++ [.end_ n])
      (T.build s'.attrs (s'.vals ++ allValues items)) := by
  induction items with
  | nil =>
    intro s s' own h o hs _ ha
    have hv : allValues ([] : List (Item V)) = [] := rfl
    rw [hv, List.append_nil] at ha ⊢
    refine .last (a := false) ?_
    show T.next _ _ _ = _
    have hf := finishField_ok T.content (track h (.end_ n)) s'.vals ha h0
    have hr : T.round (track h (.end_ n)) (.end_ n) s' none = .ok (.ret ⟨.data (T.build s'.attrs s'.vals), .none, false⟩) := by
      rcases hs with hs | hs <;>
        simp [ContentTy.round, hs, ContentTy.finishVals, hf, Except.map, hT]
    cases o with
    | closed hss =>
      subst hss
      simp only [ContentTy.next, ContentTy.loop, hr]
    | running c v hp hl hroom hs =>
      subst hs
      obtain ⟨P, hPc, hP⟩ := hl
      obtain ⟨a, hn⟩ := hP.end_ c hPc (track h (.end_ n)) n
      have h1 : T.round (track h (.end_ n)) (.end_ n) s none
          = .ok (.again (.end_ n) ⟨s.attrs, s.vals ++ [v], .next⟩ none) := by
        unfold ContentTy.round
        simp only [hp, hn, ContentTy.after, ContentTy.handle, ContentTy.flush, storeAlt_ok hroom, hT, if_true,
          EHO.fromEvent]
      simp only [ContentTy.next, ContentTy.loop, h1, hr]
  | cons it items ih =>
    intro s s' own h o hs ok ha
    have hidle : Idle (some s'.pos) := by
      rcases hs with hs | hs <;> rw [hs] <;> simp [Idle]
    cases it with
    | pad e =>
      obtain ⟨he, ⟨ev, a, hi, hq⟩, ok⟩ := ok
      have hne : ∀ n, e ≠ .end_ n := by intro n hn; subst hn; simp [Padding] at he
      cases o with
      | closed hss =>
        subst hss
        refine .step (c := s) (ev := ev) (a := a) ?_ hq (ih s s own (track h e) (.closed rfl) hs ok ha)
        show T.next _ _ _ = _
        have hround : T.round (track h e) e s none
            = T.after (track h e) s (some s.pos) (T.content.de.init (track h e) e) := by
          unfold ContentTy.round
          rcases hs with hs | hs <;> rw [hs] <;> cases e <;> first
            | (exact absurd rfl (hne _))
            | rfl
        have hfe : EHO.fromEventEnd ev a = .brk ev a := by
          rcases hq with rfl | ⟨_, rfl | rfl⟩
          · rfl
          · rfl
          · cases e <;> first | rfl | (exact absurd rfl (hne _))
        have : T.after (track h e) s (some s.pos) (T.content.de.init (track h e) e)
            = .ok (.ret ⟨.deser s, ev, a⟩) := by
          rw [hi]
          simp only [ContentTy.after, ContentTy.handle, ContentTy.handleNone, hT, if_true, hfe,
            Option.getD_some, ContentTy.stop, Option.getD_none]
          rcases hs with hs | hs <;> simp only [hs] <;> rw [← hs]
        simp only [ContentTy.next, ContentTy.loop, hround, this]
      | running c v hp hl hroom hss =>
        obtain ⟨P, hPc, hP⟩ := hl
        obtain ⟨c', ev, a, hn, hq, hPc'⟩ := hP.pad c hPc (track h e) e he
        refine .step (c := { s with pos := .content c' }) (ev := ev) (a := a) ?_ hq
          (ih _ s' own (track h e) (.running c' v rfl ⟨P, hPc', hP⟩ hroom hss) hs ok ha)
        show T.next _ _ _ = _
        simp only [ContentTy.next, ContentTy.loop, ContentTy.round, hp, hn,
          content_handle_deser T _ s none (Or.inl rfl) c' hq a]
    | child j evs v =>
      obtain ⟨own', e, es, t, rfl, he, hown, rd, ok⟩ := ok
      have hv : allValues (.child j (e :: es) v :: items) = v :: allValues items := rfl
      rw [hv] at ha ⊢
      have hlen : (s'.vals ++ v :: allValues items).length
          = s'.vals.length + 1 + (allValues items).length := by simp; omega
      have hroom : Room T.content s'.vals.length :=
        room_of_allows h0 (m := (allValues items).length) (by rwa [hlen] at ha)
      have hent := content_enter T own s s' o hs (allValues items).length (by rwa [hlen] at ha) (track h e) e t he hown
      have hrest := fun sf o => ih sf ⟨s'.attrs, s'.vals ++ [v], .next⟩ own' (List.foldl track h (e :: es)) o
        (Or.inr rfl) ok (by simpa [List.append_assoc] using ha)
      simp only [List.append_assoc, List.singleton_append] at hrest
      show Feeds track T.de (some s) h ((e :: es) ++ itemEvents items ++ [.end_ n]) _
      rw [List.append_assoc]
      rcases rd with fd | ⟨c, st, hl⟩
      · cases fd with
        | @last _ _ _ _ a hc =>
          have hc : T.content.de.init (track h e) e = .ok ⟨.data v, .none, a⟩ := hc
          refine .step (ev := .none) (a := a) ?_ (Or.inl rfl) (hrest _ (.closed rfl))
          exact hent _ hc (by simp) _ (content_handle_data T hT _ s' _ hidle v a hroom)
        | @step _ _ _ _ _ c ev a hc hq fd =>
          have hc : T.content.de.init (track h e) e = .ok ⟨.deser c, ev, a⟩ := hc
          refine .step (ev := ev) (a := a) (hent _ hc (by simp) _ (content_handle_deser T _ s' _ hidle c hq a)) hq ?_
          exact (content_running_feeds track T hT s' hroom fd c rfl).feeds (hrest _ (.closed rfl))
      · cases st with
        | @step _ _ _ _ c1 _ ev a hc hq st =>
          have hc : T.content.de.init (track h e) e = .ok ⟨.deser c1, ev, a⟩ := hc
          refine .step (ev := ev) (a := a) (hent _ hc (by simp) _ (content_handle_deser T _ s' _ hidle c1 hq a)) hq ?_
          exact (content_running_stays track T s' st c1 rfl).feeds
            (hrest _ (.running c v rfl hl hroom rfl))

/-- **C12** for a struct with content: an element whose content consists of groups, their number within the bounds, is
consumed exactly and gives the struct with the values of the groups in document order. -/
theorem C12_nested_content_feeds (track : H → Event → H) (T : ContentTy H A C V W)
    (hT : T.isElement = true) (h0 : T.content.max ≠ .bounded 0) (h : H) (t : Tag) (a : A)
    (ha : T.ofTag (track h (.start t)) t = .ok a) (items : List (Item V))
    (ok : ContentParts track T.content.de (fun _ _ => False) (track h (.start t)) items)
    (hc : Allows T.content.min T.content.max (allValues items).length) :
    Feeds track T.de none h (.start t :: (itemEvents items ++ [.end_ t.name]))
      (T.build a (allValues items)) := by
  have hi : T.de.call none (track h (.start t)) (.start t)
      = .ok ⟨.deser (ContentTy.start a), .none, false⟩ := by
    show T.init _ _ = _
    simp [ContentTy.init, hT, initFromStart, ha, Except.map]
  refine .step hi (Or.inl rfl) ?_
  exact content_feeds_parts track T hT h0 t.name items (ContentTy.start a) (ContentTy.start a) _ (track h (.start t))
    (.closed rfl) (Or.inl rfl) ok hc

end
end Verif.Gen

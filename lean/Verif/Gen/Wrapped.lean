import Verif.Gen.Leaf
import Verif.Runtime.Wrappers
import Verif.Runtime.Attributes

/-!
# Text, mixed and nillable wrappers (C19)

The deserializers of `Text` (xsd-parser-types/src/xml/text.rs), `Mixed<T>` (xml/mixed.rs) and
`Nillable<T>` (xml/nillable.rs) for arbitrary inner deserializers, and what becomes of a value
that is written by the serializers in `Verif.Runtime.Wrappers` and read back.
-/

namespace Verif.Gen

open Verif.Rt

section
variable {H C V S E : Type}

/-! ## Model: `TextDeserializer` -/

/-- `TextDeserializer::next`, text.rs:131-191; `none` is the state `Init`, `bad` the error for
text that cannot be unescaped. -/
def textNext (num : Str → Option Str) (bad : GErr) (s : Option Str) (e : Event) :
    Except GErr (Output (Option Str) Str) :=
  let push (t : Option Str) : Except GErr (Output (Option Str) Str) :=
    match t with
    | none => .error bad
    | some t => .ok ⟨.deser (some (s.getD [] ++ t)), .none, false⟩
  match e with
  | .text x => push (unescape num x)
  | .cdata x => push (some x)
  | .ref x => push (unescape num (['&'] ++ x ++ [';']))
  | .start _ | .empty _ | .end_ _ =>
    match s with
    | none => .ok ⟨.none, .cont e, false⟩
    | some v => .ok ⟨.data v, .cont e, false⟩
  | e =>
    match s with
    | none => .ok ⟨.none, .brk e, false⟩
    | some v => .ok ⟨.deser (some v), .brk e, false⟩

/-- `TextDeserializer`, text.rs:126-201. -/
def textDe (num : Str → Option Str) (bad : GErr) : GDe H (Option Str) Str where
  init := fun _ e => textNext num bad none e
  next := fun s _ e => textNext num bad s e
  finish := fun s _ =>
    match s with
    | none => .error .missingContent
    | some v => .ok v

/-! ## Model: `MixedDeserializer` -/

/-- `MixedDeserializer`, mixed.rs:179-203, without `Init`, which is not returned. -/
inductive MixSt (C V : Type) where
  | inner (c : C)
  | after (v : V) (allowAny : Bool) (text : Option (Option Str))

/-- State `TextAfter`, mixed.rs:298-349. -/
def mixedAfter (num : Str → Option Str) (bad : GErr) (v : V) (any : Bool)
    (text : Option (Option Str)) (e : Event) : Except GErr (Output (MixSt C V) (V × Option Str)) :=
  match textNext num bad (text.getD none) e with
  | .error err => .error err
  | .ok out =>
    match out.artifact with
    | .none => .ok ⟨.deser (.after v any none), out.event, any⟩
    | .data t => .ok ⟨.data (v, some t), out.event, any⟩
    | .deser t => .ok ⟨.deser (.after v any (some t)), out.event, any⟩

/-- States `Init` and `Inner`, mixed.rs:245-297, with the result of the inner deserializer. -/
def mixedInner (num : Str → Option Str) (bad : GErr) (r : Except GErr (Output C V)) :
    Except GErr (Output (MixSt C V) (V × Option Str)) :=
  match r with
  | .error err => .error err
  | .ok out =>
    match out.artifact with
    | .none => .ok ⟨.none, out.event, out.allowAny⟩
    | .deser c => .ok ⟨.deser (.inner c), out.event, out.allowAny⟩
    | .data v =>
      match out.event with
      | .cont e => mixedAfter num bad v out.allowAny none e
      | ev => .ok ⟨.deser (.after v out.allowAny none), ev, out.allowAny⟩

/-- `MixedDeserializer`, mixed.rs:226-379. The value is a pair of the inner value and the text
after it. -/
def mixedDe (num : Str → Option Str) (bad : GErr) (d : GDe H C V) :
    GDe H (MixSt C V) (V × Option Str) where
  init := fun h e => mixedInner num bad (d.init h e)
  next := fun s h e =>
    match s with
    | .inner c => mixedInner num bad (d.next c h e)
    | .after v any text => mixedAfter num bad v any text e
  finish := fun s h =>
    match s with
    | .inner c =>
      match d.finish c h with
      | .error err => .error err
      | .ok v => .ok (v, none)
    | .after v _ none => .ok (v, none)
    | .after v _ (some t) =>
      match (textDe num bad).finish t h with
      | .error err => .error err
      | .ok t => .ok (v, some t)

/-! ## Model: `NillableDeserializer` -/

/-- The accepted values of `xsi:nil`, nillable.rs:277-280. -/
def nilValues : List Str :=
  ["TRUE".toList, "True".toList, "true".toList, "YES".toList, "Yes".toList, "yes".toList, ['1']]

/-- Is the attribute an `xsi:nil` that is set? nillable.rs:273-280; `scope` are the namespaces
in scope. -/
def isNilAttr (scope : Str → Option Str) (a : Attr) : Bool :=
  resolveLocalName scope a.key xsiNs = some ['n', 'i', 'l'] && nilValues.contains a.value

/-- `NillableDeserializer`, nillable.rs:234-244: `none` is `EndTag`. -/
abbrev NilSt (C : Type) := Option C

/-- How the result of the inner deserializer is wrapped, nillable.rs:304-317 and 332-348. -/
def nilMap (r : Except GErr (Output C V)) : Except GErr (Output (NilSt C) (Option V)) :=
  match r with
  | .error err => .error err
  | .ok out => .ok ⟨out.artifact.map some some, out.event, out.allowAny⟩

/-- `NillableDeserializer`, nillable.rs:260-385. The attributes of a tag are distinct (errors of
the attribute iterator are not modelled here). -/
def nillableDe (scope : H → Str → Option Str) (d : GDe H C V) : GDe H (NilSt C) (Option V) where
  init := fun h e =>
    match e with
    | .start t =>
      if t.attrs.any (isNilAttr (scope h)) then .ok ⟨.deser none, .none, false⟩
      else nilMap (d.init h e)
    | .empty t =>
      if t.attrs.any (isNilAttr (scope h)) then .ok ⟨.data none, .none, false⟩
      else nilMap (d.init h e)
    | e => .ok ⟨.none, .cont e, false⟩
  next := fun s h e =>
    match s with
    | some c => nilMap (d.next c h e)
    | none =>
      match e with
      | .end_ _ => .ok ⟨.data none, .none, false⟩
      | e => .ok ⟨.deser none, .brk e, false⟩
  finish := fun s h =>
    match s with
    | some c => (d.finish c h).map some
    | none => .error .missingContent

/-! ## Specification -/

/-- Fed with the events `evs` one by one, the deserializer consumes all of them, except for
padding that it leaves to the driver, and is then in state `st'`. -/
inductive Takes (track : H → Event → H) (d : GDe H C V) :
    Option C → H → List Event → Option C → H → Prop
  | nil {st h} : Takes track d st h [] st h
  | step {st h e es c ev a st' h'} (hc : d.call st (track h e) e = .ok ⟨.deser c, ev, a⟩)
      (hq : Quiet e ev) (rest : Takes track d (some c) (track h e) es st' h') :
      Takes track d st h (e :: es) st' h'

/-- Given the event `e`, the deserializer passes it on to its parent and has the value `v`:
it returns it, or it returns a state whose `finish` yields it. -/
def HandsOver (track : H → Event → H) (d : GDe H C V) (st : Option C) (h : H) (e : Event)
    (v : V) : Prop :=
  ∃ a any, d.call st (track h e) e = .ok ⟨a, .cont e, any⟩ ∧
    (a = .data v ∨ ∃ c, a = .deser c ∧ ∀ h', d.finish c h' = .ok v)

/-- **Specification** (C19): the events `evs`, followed by a tag or end tag `e` of the parent,
are read as the value `v`. -/
def ReadsBefore (track : H → Event → H) (d : GDe H C V) (h : H) (evs : List Event) (e : Event)
    (v : V) : Prop :=
  ∃ c h', Takes track d none h evs (some c) h' ∧ HandsOver track d (some c) h' e v

/-- A start tag, an empty tag or an end tag. -/
def IsTag : Event → Prop
  | .start _ | .empty _ | .end_ _ => True
  | _ => False

/-- **Specification**: the text in some events between two tags: all character data, in order;
`none` if there is no character data at all (comments do not count). -/
def textOf (num : Str → Option Str) (evs : List Event) : Option (Option Str) :=
  if evs.any Event.isChars then (charContent num evs).map some else some none

/-! ## Theorems: reading -/

theorem Takes.trans {track : H → Event → H} {d : GDe H C V} {s1 s2 s3 : Option C} {h1 h2 h3 : H}
    {xs ys : List Event} (a : Takes track d s1 h1 xs s2 h2) (b : Takes track d s2 h2 ys s3 h3) :
    Takes track d s1 h1 (xs ++ ys) s3 h3 := by
  induction a with
  | nil => exact b
  | step hc hq _ ih => exact .step hc hq (ih b)

theorem charContent_nochars (num : Str → Option Str) (evs : List Event)
    (h : evs.any Event.isChars = false) : charContent num evs = some [] := by
  induction evs with
  | nil => rfl
  | cons e es ih =>
    simp only [List.any_cons, Bool.or_eq_false_iff] at h
    simp only [charContent, ih h.2]
    cases e <;> first | rfl | (simp [Event.isChars] at h; done)

/-- The text after the value so far, with or without a text deserializer. -/
theorem after_takes (track : H → Event → H) (num : Str → Option Str) (bad : GErr) (d : GDe H C V)
    (v : V) (any : Bool) (evs : List Event) (hl : ∀ e ∈ evs, e.isLeaf = true) (acc : Option Str)
    (h : H) (s : Str) (hs : charContent num evs = some s)
    (text : Option (Option Str)) (ht : text.getD none = acc) :
    ∃ text' h', Takes track (mixedDe num bad d) (some (.after v any text)) h evs
        (some (.after v any text')) h' ∧
      text'.getD none = (if evs.any Event.isChars then some (acc.getD [] ++ s) else acc) ∧
      ((acc = none ∧ evs.any Event.isChars = false ∧ evs ≠ []) → text' = none) ∧
      (evs = [] → text' = text) := by
  induction evs generalizing acc h s text with
  | nil =>
    simp only [charContent, Option.some.injEq] at hs
    subst hs
    exact ⟨text, h, .nil, by simpa using ht, by simp, fun _ => rfl⟩
  | cons e es ih =>
    simp only [charContent] at hs
    cases hp : pieceText num e with
    | none => rw [hp] at hs; simp at hs
    | some p =>
      cases hr : charContent num es with
      | none => rw [hp, hr] at hs; simp at hs
      | some r =>
        rw [hp, hr] at hs
        simp only [Option.some.injEq] at hs
        subst hs
        have hes : ∀ e ∈ es, e.isLeaf = true := fun x hx => hl x (List.mem_cons_of_mem _ hx)
        have hleaf := hl e (by simp)
        have push : ∀ (_ : e.isChars = true)
            (_ : textNext num bad acc e = .ok ⟨.deser (some (acc.getD [] ++ p)), .none, false⟩),
            ∃ text' h', Takes track (mixedDe num bad d) (some (.after v any text)) h (e :: es)
              (some (.after v any text')) h' ∧
              text'.getD none = (if (e :: es).any Event.isChars
                then some (acc.getD [] ++ (p ++ r)) else acc) ∧
              ((acc = none ∧ (e :: es).any Event.isChars = false ∧ e :: es ≠ []) → text' = none) ∧
              (e :: es = [] → text' = text) := by
          intro hch hn
          obtain ⟨t', h', a, b, _, _⟩ := ih hes (some (acc.getD [] ++ p)) (track h e) r hr
            (some (some (acc.getD [] ++ p))) rfl
          refine ⟨t', h', .step (c := .after v any (some (some (acc.getD [] ++ p)))) (ev := .none)
            (a := any) ?_ (Or.inl rfl) a, ?_, by simp [hch], by simp⟩
          · simp [GDe.call, mixedDe, mixedAfter, ht, hn]
          · rw [b]
            cases ha : es.any Event.isChars with
            | true => simp [hch]
            | false =>
              have := charContent_nochars num es ha
              rw [hr] at this
              simp only [Option.some.injEq] at this
              simp [hch, this]
        have skip : ∀ (_ : e.isChars = false) (_ : Padding e = true) (_ : p = [])
            (_ : textNext num bad acc e
              = .ok ⟨match acc with | none => .none | some v => .deser (some v), .brk e, false⟩),
            ∃ text' h', Takes track (mixedDe num bad d) (some (.after v any text)) h (e :: es)
              (some (.after v any text')) h' ∧
              text'.getD none = (if (e :: es).any Event.isChars
                then some (acc.getD [] ++ (p ++ r)) else acc) ∧
              ((acc = none ∧ (e :: es).any Event.isChars = false ∧ e :: es ≠ []) → text' = none) ∧
              (e :: es = [] → text' = text) := by
          intro hch hpad hp0 hn
          subst hp0
          cases acc with
          | none =>
            obtain ⟨t', h', a, b, c, c'⟩ := ih hes none (track h e) r hr none rfl
            refine ⟨t', h', .step (c := .after v any none) (ev := .brk e)
              (a := any) ?_ (Or.inr ⟨hpad, Or.inl rfl⟩) a, ?_, ?_, by simp⟩
            · simp [GDe.call, mixedDe, mixedAfter, ht, hn]
            · rw [b]; simp [hch]
            · rintro ⟨_, h2, _⟩
              by_cases hn' : es = []
              · exact c' hn'
              · exact c ⟨rfl, by simpa [hch] using h2, hn'⟩
          | some acc =>
            obtain ⟨t', h', a, b, _, _⟩ := ih hes (some acc) (track h e) r hr (some (some acc)) rfl
            refine ⟨t', h', .step (c := .after v any (some (some acc))) (ev := .brk e)
              (a := any) ?_ (Or.inr ⟨hpad, Or.inl rfl⟩) a, ?_, by simp, by simp⟩
            · simp [GDe.call, mixedDe, mixedAfter, ht, hn]
            · rw [b]; simp [hch]
        cases e with
        | text x =>
          simp only [pieceText] at hp
          exact push rfl (by simp [textNext, hp])
        | cdata x =>
          simp only [pieceText, Option.some.injEq] at hp
          exact push rfl (by simp [textNext, hp])
        | ref x =>
          simp only [pieceText] at hp
          exact push rfl (by simp only [textNext, hp])
        | comment x | pi x | decl x | docType x =>
          simp only [pieceText, Option.some.injEq] at hp
          exact skip rfl rfl hp.symm (by cases acc <;> rfl)
        | start _ | empty _ | end_ _ | eof => simp [Event.isLeaf] at hleaf

/-- After the value, `Mixed<T>` waits for text. -/
theorem mixed_takes {track : H → Event → H} (num : Str → Option Str) (bad : GErr) {d : GDe H C V}
    {st : Option C} {h : H} {evs : List Event} {v : V} (f : Feeds track d st h evs v) :
    ∃ any h', Takes track (mixedDe num bad d) (st.map .inner) h evs (some (.after v any none)) h' := by
  induction f with
  | @last st h e v a hc =>
    refine ⟨a, track h e, .step (ev := .none) (a := a) ?_ (Or.inl rfl) .nil⟩
    cases st <;> simp only [GDe.call] at hc <;> simp [GDe.call, mixedDe, mixedInner, hc]
  | @step st h e es v c ev a hc hq _ ih =>
    obtain ⟨any, h', r⟩ := ih
    have r : Takes track (mixedDe num bad d) (some (.inner c)) (track h e) es
      (some (.after v any none)) h' := r
    refine ⟨any, h', .step (c := .inner c) (ev := ev) (a := a) ?_ hq r⟩
    cases st <;> simp only [GDe.call] at hc <;> simp [GDe.call, mixedDe, mixedInner, hc]

/-- **C19**, reading `Mixed<T>`: if the events `evs` are read as a value of `T`, and character
data, comments and processing instructions follow, up to the next tag of the parent, then the
value is read together with exactly that text, whatever the chunks it comes in. -/
theorem C19_mixed_text_attribution (track : H → Event → H) (num : Str → Option Str) (bad : GErr)
    (d : GDe H C V) (h : H) (evs texts : List Event) (e : Event) (v : V) (t : Option Str)
    (f : Feeds track d none h evs v) (hl : ∀ x ∈ texts, x.isLeaf = true)
    (ht : textOf num texts = some t) (he : IsTag e) :
    ReadsBefore track (mixedDe num bad d) h (evs ++ texts) e (v, t) := by
  obtain ⟨any, h1, a⟩ := mixed_takes num bad f
  have hcc : ∃ s, charContent num texts = some s ∧
      t = (if texts.any Event.isChars then some s else none) := by
    unfold textOf at ht
    cases hany : texts.any Event.isChars with
    | true =>
      rw [hany, if_pos rfl] at ht
      cases hc : charContent num texts with
      | none => rw [hc] at ht; cases ht
      | some s =>
        rw [hc] at ht
        simp only [Option.map_some, Option.some.injEq] at ht
        exact ⟨s, rfl, by rw [if_pos rfl, ht]⟩
    | false =>
      rw [hany] at ht
      simp only [Bool.false_eq_true, if_false, Option.some.injEq] at ht
      exact ⟨[], charContent_nochars num texts hany, by simp [ht]⟩
  obtain ⟨s, hs, ht'⟩ := hcc
  obtain ⟨text', h2, b, c, c1, c2⟩ := after_takes track num bad d v any texts hl none h1 s hs none rfl
  refine ⟨.after v any text', h2, a.trans b, ?_⟩
  cases hany : texts.any Event.isChars with
  | true =>
    rw [hany, if_pos rfl] at c ht'
    simp only [Option.getD_none, List.nil_append] at c
    subst ht'
    refine ⟨.data (v, some s), any, ?_, Or.inl rfl⟩
    cases e <;> first
      | (simp [GDe.call, mixedDe, mixedAfter, c, textNext]; done)
      | (simp [IsTag] at he; done)
  | false =>
    rw [hany] at ht'
    simp only [Bool.false_eq_true, if_false] at ht'
    subst ht'
    have hn : text' = none := by
      by_cases hx : texts = []
      · exact c2 hx
      · exact c1 ⟨rfl, hany, hx⟩
    subst hn
    refine ⟨.deser (.after v any none), any, ?_, Or.inr ⟨_, rfl, fun _ => rfl⟩⟩
    cases e <;> first
      | (simp [GDe.call, mixedDe, mixedAfter, textNext]; done)
      | (simp [IsTag] at he; done)

/-! ## Theorems: writing and reading back -/

/-- What a reader delivers for a text that was written. -/
theorem reread_text (num : Str → Option Str) (t : Str) :
    ∃ evs, chunks (escape t) = some evs ∧ reread [.text (escape t)] = some evs ∧
      charContent num evs = some t ∧ ∀ e ∈ evs, e.isLeaf = true := by
  have h2 := unescape_escape num t
  unfold unescape at h2
  have h1 : (chunks (escape t)).isSome = true := (chunksGo_some num (escape t)).1 [] (by rw [h2]; rfl)
  obtain ⟨evs, hch⟩ := Option.isSome_iff_exists.mp h1
  refine ⟨evs, hch, by simp [reread, hch], ?_, chunksGo_leaf _ _ _ _ hch⟩
  rw [(charContent_chunksGo num (escape t)).1 [] evs (by simp) hch, h2]
  rfl

theorem textOf_of (num : Str → Option Str) (t : Str) (evs : List Event)
    (h : charContent num evs = some t) (hn : t ≠ []) : textOf num evs = some (some t) := by
  unfold textOf
  cases ha : evs.any Event.isChars with
  | true => simp [h]
  | false =>
    rw [charContent_nochars num evs ha] at h
    simp only [Option.some.injEq] at h
    exact absurd h.symm hn

theorem reread_append (xs ys xs' ys' : List Event) (hx : reread xs = some xs')
    (hy : reread ys = some ys') : reread (xs ++ ys) = some (xs' ++ ys') := by
  induction xs generalizing xs' with
  | nil => simp only [reread, Option.some.injEq] at hx; subst hx; exact hy
  | cons e es ih =>
    cases e with
    | text raw =>
      simp only [reread] at hx
      cases hc : chunks raw with
      | none => rw [hc] at hx; simp at hx
      | some cs =>
        cases hr : reread es with
        | none => rw [hc, hr] at hx; simp at hx
        | some rs =>
          rw [hc, hr] at hx
          simp only [Option.some.injEq] at hx
          subst hx
          simp [reread, hc, ih rs hr]
    | _ =>
      simp only [reread] at hx
      cases hr : reread es with
      | none => rw [hr] at hx; simp at hx
      | some rs =>
        rw [hr] at hx
        simp only [Option.map_some, Option.some.injEq] at hx
        subst hx
        simp [reread, ih rs hr]

theorem chunks_chars (raw : Str) : ∀ cur pend evs, chunksGo cur pend raw = some evs →
    ∀ e ∈ evs, e.isChars = true := by
  have hf : ∀ cur evs, (∀ e ∈ evs, e.isChars = true) →
      ∀ e ∈ flushText cur evs, e.isChars = true := by
    intro cur evs h e he
    cases cur with
    | nil => exact h e he
    | cons c cur =>
      simp only [flushText, List.mem_cons] at he
      rcases he with rfl | he
      · rfl
      · exact h e he
  induction raw with
  | nil =>
    intro cur pend evs h
    cases pend with
    | none => simp only [chunksGo, Option.some.injEq] at h; subst h; exact hf cur [] (by simp)
    | some n => simp [chunksGo] at h
  | cons c r ih =>
    intro cur pend evs h
    cases pend with
    | none =>
      simp only [chunksGo] at h
      split at h
      · cases he : chunksGo [] (some []) r with
        | none => rw [he] at h; cases h
        | some evs' =>
          rw [he] at h; simp only [Option.map_some, Option.some.injEq] at h; subst h
          exact hf cur evs' (ih _ _ _ he)
      · exact ih _ _ _ h
    | some n =>
      simp only [chunksGo] at h
      split at h
      · cases he : chunksGo [] none r with
        | none => rw [he] at h; cases h
        | some evs' =>
          rw [he] at h; simp only [Option.map_some, Option.some.injEq] at h; subst h
          intro e hm
          rcases List.mem_cons.mp hm with rfl | hm
          · rfl
          · exact ih _ _ _ he e hm
      · split at h
        · cases h
        · exact ih _ _ _ h

/-- **C19**, `Text`: a text that is not empty is read back as it was written, up to the next
tag of the parent. -/
theorem C19_text_round_trip (track : H → Event → H) (num : Str → Option Str) (bad : GErr)
    (sh : SerHelper) (h : H) (t : Str) (hn : t ≠ []) (e : Event) (he : IsTag e) :
    ∃ out out', (textZ (E := E)).Emits (some t) sh out sh ∧ reread out = some out' ∧
      ReadsBefore track (textDe num bad) h out' e t := by
  obtain ⟨evs, hch, hr, hcc, hl⟩ := reread_text num t
  refine ⟨_, evs, .emit rfl (.done rfl), hr, ?_⟩
  have hchars := chunks_chars _ _ _ _ hch
  have go : ∀ (evs : List Event) (acc : Option Str) (h : H) (s : Str),
      (∀ e ∈ evs, e.isChars = true) → charContent num evs = some s → (evs ≠ [] ∨ acc.isSome = true) →
      ∃ h', Takes track (textDe num bad) (acc.map some) h evs (some (some (acc.getD [] ++ s))) h' := by
    intro evs
    induction evs with
    | nil =>
      intro acc h s _ hs ha
      simp only [charContent, Option.some.injEq] at hs
      subst hs
      cases acc with
      | none => simp at ha
      | some a => exact ⟨h, by simpa using .nil⟩
    | cons e es ih =>
      intro acc h s hc hs _
      simp only [charContent] at hs
      cases hp : pieceText num e with
      | none => rw [hp] at hs; simp at hs
      | some p =>
        cases hr : charContent num es with
        | none => rw [hp, hr] at hs; simp at hs
        | some r =>
          rw [hp, hr] at hs
          simp only [Option.some.injEq] at hs
          subst hs
          obtain ⟨h', rest⟩ := ih (some (acc.getD [] ++ p)) (track h e) r
            (fun x hx => hc x (List.mem_cons_of_mem _ hx)) hr (Or.inr rfl)
          simp only [Option.map_some, Option.getD_some, List.append_assoc] at rest
          refine ⟨h', .step (ev := .none) (a := false) ?_ (Or.inl rfl) rest⟩
          have := hc e (by simp)
          cases e <;> first
            | (simp [Event.isChars] at this; done)
            | (simp only [pieceText, Option.some.injEq] at hp
               cases acc <;> simp only [Option.map, GDe.call, textDe, textNext, hp] <;> rfl)
  have hne : evs ≠ [] := by
    rintro rfl
    simp only [charContent, Option.some.injEq] at hcc
    exact hn hcc.symm
  obtain ⟨h', r⟩ := go evs none h t hchars hcc (Or.inl hne)
  refine ⟨some t, h', by simpa using r, .data t, false, ?_, Or.inl rfl⟩
  cases e <;> first | rfl | (simp [IsTag] at he; done)

/-- **C19**, `Mixed<T>` (partial): if the value of `T` is read back from what is written for it,
then so is the value together with the text after it. Missing: an empty text, see
`C19_mixed_empty_text_lost`, and values at the root, see `C19_mixed_root_rejected`. -/
theorem C19_mixed_round_trip_partial (track : H → Event → H) (num : Str → Option Str) (bad : GErr)
    (d : GDe H C V) (z : Zer S E) (s : S) (sh sh' : SerHelper) (h : H) (out out' : List Event)
    (v : V) (t : Option Str) (e : Event)
    (w : z.Emits s sh out sh') (rr : reread out = some out') (f : Feeds track d none h out' v)
    (ht : t ≠ some []) (he : IsTag e) :
    ∃ all all', (mixedZ z).Emits (.inner t s) sh all sh' ∧ reread all = some all' ∧
      ReadsBefore track (mixedDe num bad d) h all' e (v, t) := by
  obtain ⟨s1, h1, a, b⟩ := Zer.lift (z' := mixedZ z) (f := MSt.inner t)
    (by intro s h ev s1 h1 he; simp [mixedZ, he])
    (by intro s h s1 h1 he; simp [mixedZ, he]) w
  have mid : (mixedZ z).step (.inner t s1) h1 = (.again (.after (.pending none t.toList)), sh') := by
    simp [mixedZ, b]
  cases t with
  | none =>
    refine ⟨out, out', ?_, rr, ?_⟩
    · have := a.emits (ys := []) (h3 := sh') (.again mid (.done rfl))
      rwa [List.append_nil] at this
    · have := C19_mixed_text_attribution track num bad d h out' [] e v none f (by simp) rfl he
      rwa [List.append_nil] at this
  | some t =>
    obtain ⟨evs, hch, hr, hcc, hl⟩ := reread_text num t
    refine ⟨out ++ [.text (escape t)], out' ++ evs, ?_, reread_append _ _ _ _ rr hr, ?_⟩
    · exact a.emits (.again mid (.again rfl (.emit rfl (.again rfl (.done rfl)))))
    · exact C19_mixed_text_attribution track num bad d h out' evs e v (some t) f hl
        (textOf_of num t evs hcc (by simpa using ht)) he

/-- **C19** is false for `Mixed<T>` with an empty text after the value: it is written and read
back as no text, whatever the value. -/
theorem C19_mixed_empty_text_lost (track : H → Event → H) (num : Str → Option Str) (bad : GErr)
    (d : GDe H C V) (z : Zer S E) (s : S) (sh sh' : SerHelper) (h : H) (out out' : List Event)
    (v : V) (e : Event)
    (w : z.Emits s sh out sh') (rr : reread out = some out') (f : Feeds track d none h out' v)
    (he : IsTag e) :
    ∃ all all', (mixedZ z).Emits (.inner (some []) s) sh all sh' ∧ reread all = some all' ∧
      ReadsBefore track (mixedDe num bad d) h all' e (v, none) := by
  obtain ⟨s1, h1, a, b⟩ := Zer.lift (z' := mixedZ z) (f := MSt.inner (some []))
    (by intro s h ev s1 h1 he; simp [mixedZ, he])
    (by intro s h s1 h1 he; simp [mixedZ, he]) w
  have mid : (mixedZ z).step (.inner (some []) s1) h1
      = (.again (.after (.pending none [[]])), sh') := by simp [mixedZ, b]
  refine ⟨out ++ [.text (escape [])], out' ++ [], ?_, reread_append _ _ _ _ rr rfl, ?_⟩
  · exact a.emits (.again mid (.again rfl (.emit rfl (.again rfl (.done rfl)))))
  · exact C19_mixed_text_attribution track num bad d h out' [] e v none f (by simp) rfl he

/-- The driver on events that are taken. -/
theorem Takes.run {track : H → Event → H} {d : GDe H C V} {s1 s2 : Option C} {h1 h2 : H}
    {evs : List Event} (t : Takes track d s1 h1 evs s2 h2) (rest : List Event) :
    Drv.run (genEnv track) d.toDeser { helper := h1, deser := s1 } (evs ++ rest)
      = Drv.run (genEnv track) d.toDeser { helper := h2, deser := s2 } rest := by
  induction t with
  | nil => rfl
  | @step st h e es c ev a st' h' hc hq _ ih =>
    have : callDeser d.toDeser st (track h e) e = .ok (⟨.deser c, ev, a⟩, track h e) := by
      cases st <;> simp only [GDe.call] at hc <;>
        simp [callDeser, GDe.toDeser, hc, Except.map]
    have hl := leftover_quiet hq a
    simp only [List.cons_append, Drv.run, Drv.handleEvent, handleSkip, genEnv,
      this, hl, Artifact.dataOf, Artifact.deserOf]
    exact ih

theorem run_eof {track : H → Event → H} {d : GDe H C V} {st : Option C} {h : H} {c : C} {a : Bool}
    (hc : d.call st (track h .eof) .eof = .ok ⟨.deser c, .brk .eof, a⟩) (es : List Event) :
    Drv.run (genEnv track) d.toDeser { helper := h, deser := st } (.eof :: es)
      = if a then Drv.run (genEnv track) d.toDeser { helper := track h .eof, deser := some c } es
        else .fail (.unexpected .eof) es := by
  have : callDeser d.toDeser st (track h .eof) .eof = .ok (⟨.deser c, .brk .eof, a⟩, track h .eof) := by
    cases st <;> simp only [GDe.call] at hc <;>
      simp [callDeser, GDe.toDeser, hc, Except.map]
  simp only [Drv.run, Drv.handleEvent, handleSkip, genEnv, this, DEvent.event, leftover]
  cases a <;> rfl

/-- **C19** is false for `Mixed<T>` as the type of the document element: whatever is read as a
value of `T`, and whatever text, comments, … follow it, at the end of the document no value is
returned, however often the end is reported. -/
theorem C19_mixed_root_rejected (track : H → Event → H) (num : Str → Option Str) (bad : GErr)
    (d : GDe H C V) (h : H) (evs texts : List Event) (v : V) (t : Str) (k : Nat)
    (f : Feeds track d none h evs v) (hl : ∀ x ∈ texts, x.isLeaf = true)
    (ht : charContent num texts = some t) (w : V × Option Str) (rest : List Event) :
    Drv.run (genEnv track) (mixedDe num bad d).toDeser { helper := h }
      (evs ++ texts ++ List.replicate k .eof) ≠ .done w rest := by
  obtain ⟨any, h1, a⟩ := mixed_takes num bad f
  obtain ⟨text', h2, b, hdrop⟩ := after_takes track num bad d v any texts hl none h1 t ht none rfl
  clear hdrop
  have a : Takes track (mixedDe num bad d) none h evs (some (.after v any none)) h1 := a
  intro hh
  replace hh := ((a.trans b).run _).symm.trans hh
  revert hh
  generalize hs : (MixSt.after v any text' : MixSt C V) = st
  clear b
  induction k generalizing text' h2 st with
  | zero => intro hh; cases hh
  | succ k ih =>
    subst hs
    have key : ∃ tx, mixedAfter (C := C) num bad v any text' .eof
        = .ok ⟨.deser (.after v any tx), .brk .eof, any⟩ := by
      cases hg : text'.getD none with
      | none => exact ⟨none, by simp [mixedAfter, hg, textNext]⟩
      | some x => exact ⟨some (some x), by simp [mixedAfter, hg, textNext]⟩
    obtain ⟨tx, hk⟩ := key
    intro hh
    rw [List.replicate_succ] at hh
    replace hh := (run_eof (d := mixedDe num bad d) (st := some (.after v any text')) hk _).symm.trans hh
    cases any with
    | false => cases hh
    | true => exact ih tx _ _ rfl hh

/-! ### `Nillable<T>` -/

/-- **C19**, reading `Nillable<T>`: an element whose tag has no `nil` attribute that is set is
read as the value of `T`. -/
theorem C19_nillable_value (track : H → Event → H) (scope : H → Str → Option Str) (d : GDe H C V)
    (h : H) (e : Event) (t : Tag) (evs : List Event) (v : V) (he : tagOf e = some t)
    (ht : t.attrs.any (isNilAttr (scope (track h e))) = false)
    (f : Feeds track d none h (e :: evs) v) :
    Feeds track (nillableDe scope d) none h (e :: evs) (some v) := by
  have rest : ∀ st h evs v, Feeds track d st h evs v → ∀ c, st = some c →
      Feeds track (nillableDe scope d) (some (some c)) h evs (some v) := by
    intro st h evs v f
    induction f with
    | @last st h e v a hc =>
      rintro c rfl
      simp only [GDe.call] at hc
      exact .last (a := a) (by simp [GDe.call, nillableDe, nilMap, hc, Artifact.map])
    | @step st h e es v c' ev a hc hq _ ih =>
      rintro c rfl
      simp only [GDe.call] at hc
      exact .step (c := some c') (ev := ev) (a := a)
        (by simp [GDe.call, nillableDe, nilMap, hc, Artifact.map]) hq (ih c' rfl)
  have hinit : (nillableDe scope d).call none (track h e) e = nilMap (d.init (track h e) e) := by
    cases e <;> simp only [tagOf, Option.some.injEq, reduceCtorEq] at he <;> subst he <;>
      simp only [GDe.call, nillableDe, ht] <;> rfl
  cases f with
  | @last _ _ _ _ a hc =>
    simp only [GDe.call] at hc
    exact .last (a := a) (by rw [hinit]; simp [nilMap, hc, Artifact.map])
  | @step _ _ _ _ _ c ev a hc hq r =>
    simp only [GDe.call] at hc
    exact .step (c := some c) (ev := ev) (a := a) (by rw [hinit]; simp [nilMap, hc, Artifact.map]) hq
      (rest _ _ _ _ r c rfl)

/-- **C19**, `Nillable<T>` with a value: it is written and read back as a value of `T` is. -/
theorem C19_nillable_value_round_trip (track : H → Event → H) (scope : H → Str → Option Str)
    (d : GDe H C V) (z : Zer S E) (s : S) (sh sh' : SerHelper) (h : H) (e : Event) (t : Tag)
    (out out' : List Event) (v : V)
    (w : z.Emits s sh out sh') (rr : reread out = some (e :: out')) (he : tagOf e = some t)
    (ht : t.attrs.any (isNilAttr (scope (track h e))) = false)
    (f : Feeds track d none h (e :: out') v) :
    (nillableZ z).Emits (.some_ s) sh out sh' ∧ reread out = some (e :: out') ∧
      Feeds track (nillableDe scope d) none h (e :: out') (some v) := by
  refine ⟨?_, rr, C19_nillable_value track scope d h e t out' v he ht f⟩
  obtain ⟨s1, h1, a, b⟩ := Zer.lift (z' := nillableZ z) (f := NSt.some_)
    (by intro s h ev s1 h1 he; simp [nillableZ, he])
    (by intro s h s1 h1 he; simp [nillableZ, he]) w
  have := a.emits (ys := []) (h3 := sh') (.done (by simp [nillableZ, b]))
  rwa [List.append_nil] at this

/-- **C19**, reading a nil element: a start tag or an empty tag with a `nil` attribute that is
set is read as nil; between the tags there may be anything the driver ignores. -/
theorem C19_nil_element (track : H → Event → H) (scope : H → Str → Option Str) (d : GDe H C V)
    (h : H) (t : Tag) (body : List Event) (n : Str) :
    (t.attrs.any (isNilAttr (scope (track h (.empty t)))) = true →
      Feeds track (nillableDe scope d) none h [.empty t] none) ∧
    (t.attrs.any (isNilAttr (scope (track h (.start t)))) = true →
      (∀ e ∈ body, Padding e = true) →
      Feeds track (nillableDe scope d) none h (.start t :: (body ++ [.end_ n])) none) := by
  constructor
  · intro ht
    exact .last (a := false) (by simp only [GDe.call, nillableDe, ht, if_true])
  · intro ht hb
    refine .step (c := none) (ev := .none) (a := false) (by simp only [GDe.call, nillableDe, ht, if_true])
      (Or.inl rfl) ?_
    generalize track h (.start t) = h
    induction body generalizing h with
    | nil => exact .last (a := false) rfl
    | cons e es ih =>
      have hp := hb e (by simp)
      refine .step (c := none) (ev := .brk e) (a := false) ?_ (Or.inr ⟨hp, Or.inl rfl⟩)
        (ih (fun x hx => hb x (List.mem_cons_of_mem _ hx)) _)
      cases e <;> first | rfl | (simp [Padding] at hp; done)

/-- The reader's view of the namespaces: the position in the document (`Verif.Runtime.Namespaces`). -/
def posTrack (p : Pos) (e : Event) : Pos := (p.after e).getD p

/-- The namespaces in scope at a position. -/
def posScope (p : Pos) (pre : Str) : Option Str := inScope pre p.opened

/-- The open elements around the next element. -/
def Pos.around (p : Pos) : List Tag := if p.closing then p.opened.tail else p.opened

theorem nil_tag_attrs (name : Str) (sh : SerHelper) :
    (nilTag name sh).1 = ⟨name, (if sh.getPrefix xsiNs = some xsiPfx then []
      else [⟨SerHelper.xmlnsKey xsiPfx, xsiNs⟩]) ++ [⟨xsiNil, ['t', 'r', 'u', 'e']⟩]⟩ := by
  unfold nilTag SerHelper.writeXmlns SerHelper.getPrefix
  cases hf : sh.entries.find? fun e => e.ns == xsiNs with
  | none => simp [SerHelper.addEntry]
  | some e =>
    by_cases hp : e.pfx = xsiPfx
    · simp [hp]
    · simp [hp, SerHelper.addEntry]

/-- **C19**, `Nillable<T>` without a value, exactly when it survives: the element that is written
is read back as nil if and only if it was written with a declaration of the prefix `xsi`, or
where it is read the prefix `xsi` is bound to the namespace of schema instances. -/
theorem C19_nil_round_trip_iff (d : GDe Pos C V) (z : Zer S E) (name : Str) (sh : SerHelper)
    (p : Pos) :
    ∃ t sh', (nillableZ z).Emits (.nil name) sh [.empty t] sh' ∧
      reread [.empty t] = some [.empty t] ∧
      (Feeds posTrack (nillableDe posScope d) none p [.empty t] none ↔
        sh.getPrefix xsiNs ≠ some xsiPfx ∨ inScope xsiPfx (Pos.around p) = some xsiNs) := by
  refine ⟨(nilTag name sh).1, (nilTag name sh).2, .emit rfl (.done rfl), rfl, ?_⟩
  have hpos : posTrack p (.empty (nilTag name sh).1)
      = ⟨(nilTag name sh).1 :: Pos.around p, true⟩ := rfl
  have hany : (nilTag name sh).1.attrs.any (isNilAttr (posScope (posTrack p (.empty (nilTag name sh).1))))
      = true ↔ (sh.getPrefix xsiNs ≠ some xsiPfx ∨ inScope xsiPfx (Pos.around p) = some xsiNs) := by
    rw [hpos, nil_tag_attrs]
    have hk : ∀ scope : Str → Option Str,
        isNilAttr scope ⟨xsiNil, ['t', 'r', 'u', 'e']⟩ = true ↔ scope xsiPfx = some xsiNs := by
      intro scope
      have : splitName xsiNil = (some xsiPfx, ['n', 'i', 'l']) := by decide
      have h2 : nilValues.contains ['t', 'r', 'u', 'e'] = true := by decide
      simp only [isNilAttr, resolveLocalName, resolveAttr, this, h2]
      cases hs : scope xsiPfx with
      | none => simp
      | some x => by_cases hx : x = xsiNs <;> simp [hx]
    have hd : ∀ scope : Str → Option Str,
        isNilAttr scope ⟨SerHelper.xmlnsKey xsiPfx, xsiNs⟩ = false := by
      intro scope
      have h2 : nilValues.contains xsiNs = false := by decide
      simp only [isNilAttr, h2, Bool.and_false]
    by_cases hg : sh.getPrefix xsiNs = some xsiPfx
    · have hs : lastDecl xsiPfx (Tag.decls ⟨name, [⟨xsiNil, ['t', 'r', 'u', 'e']⟩]⟩) = none := by
        show lastDecl xsiPfx ([] : List Binding) = none
        rfl
      simp only [hg, if_true, List.nil_append, List.any_cons, List.any_nil, Bool.or_false, hk,
        posScope, inScope, hs, ne_eq, not_true, false_or]
    · have hs : lastDecl xsiPfx (Tag.decls ⟨name, [⟨SerHelper.xmlnsKey xsiPfx, xsiNs⟩,
          ⟨xsiNil, ['t', 'r', 'u', 'e']⟩]⟩) = some xsiNs := by
        show lastDecl xsiPfx [(xsiPfx, xsiNs)] = some xsiNs
        decide
      have hne : xsiNs ≠ [] := by decide
      simp only [hg, if_false, List.cons_append, List.nil_append, List.any_cons, List.any_nil,
        Bool.or_false, hd, Bool.false_or, hk, posScope, inScope, hs, ne_eq, not_false_eq_true,
        true_or, hne]
  constructor
  · intro f
    cases f with
    | @last _ _ _ _ a hc =>
      apply hany.mp
      cases hx : (nilTag name sh).1.attrs.any
        (isNilAttr (posScope (posTrack p (.empty (nilTag name sh).1)))) with
      | true => rfl
      | false =>
        simp only [GDe.call, nillableDe, hx] at hc
        cases hd : d.init (posTrack p (.empty (nilTag name sh).1)) (.empty (nilTag name sh).1) with
        | error e => simp [nilMap, hd] at hc
        | ok o =>
          obtain ⟨ar, ev, an⟩ := o
          cases ar <;> simp [nilMap, hd, Artifact.map] at hc
    | step _ _ r => cases r
  · intro hh
    exact (C19_nil_element posTrack posScope d p _ [] []).1 (hany.mpr hh)

/-- **C19** is false for attributes called `nil` that are not `xsi:nil`: whatever `T` is and
whatever namespaces are in scope, an element with an attribute `nil="true"` without a prefix is
read as nil, and its value is lost. -/
theorem C19_unqualified_nil (track : H → Event → H) (scope : H → Str → Option Str) (d : GDe H C V)
    (h : H) (t : Tag) (body : List Event) (n : Str) (ht : ⟨['n', 'i', 'l'], "true".toList⟩ ∈ t.attrs)
    (hb : ∀ e ∈ body, Padding e = true) :
    Feeds track (nillableDe scope d) none h [.empty t] none ∧
    Feeds track (nillableDe scope d) none h (.start t :: (body ++ [.end_ n])) none := by
  have ha : ∀ sc, t.attrs.any (isNilAttr sc) = true := by
    intro sc
    refine List.any_eq_true.mpr ⟨_, ht, ?_⟩
    have : splitName ['n', 'i', 'l'] = (none, ['n', 'i', 'l']) := by decide
    have h2 : nilValues.contains "true".toList = true := by decide
    simp only [isNilAttr, resolveLocalName, resolveAttr, this, h2]
    decide
  exact ⟨(C19_nil_element track scope d h t body n).1 (ha _),
    (C19_nil_element track scope d h t body n).2 (ha _) hb⟩

end

/-! ## Examples -/

namespace Ex

/-- Strings as content, with the position in the document as helper. -/
def str : GDe Pos Str Str := simpleDe (fun _ => none) (.value 0) (fun _ s => .ok s)

/-- **C19** is false for lists of nil elements: of two nil elements in a row below an element
that does not declare `xsi`, the second one is read back as an empty string. -/
theorem C19_second_nil_lost :
    ∃ t1 t2 sh', (iterZ (E := Unit) (nillableCreate fun (_ : Unit) _ => .ok none)
        (nillableZ textZ)).Emits (.pending (some ['b']) [none, none]) {} [.empty t1, .empty t2] sh' ∧
      Feeds posTrack (nillableDe posScope str) none ⟨[⟨['r'], []⟩], false⟩ [.empty t1] none ∧
      Feeds posTrack (nillableDe posScope str) none
        (posTrack ⟨[⟨['r'], []⟩], false⟩ (.empty t1)) [.empty t2] (some []) := by
  obtain ⟨sh', h, _⟩ := C14_nil_leaks_scope
  refine ⟨_, _, sh', h, ?_, ?_⟩
  · exact (C19_nil_element _ _ _ _ _ [] []).1 (by decide +kernel)
  · exact C19_nillable_value _ _ _ _ _ _ [] [] rfl (by decide +kernel) (.last (a := false) rfl)

/-- Non-vacuity of `C19_nil_round_trip_iff`: both sides occur. -/
example : (({} : SerHelper).getPrefix xsiNs ≠ some xsiPfx) ∧
    (({ entries := [⟨1, xsiPfx, xsiNs⟩], level := 1 } : SerHelper).getPrefix xsiNs = some xsiPfx ∧
      inScope xsiPfx (Pos.around {}) ≠ some xsiNs) := by
  refine ⟨by decide +kernel, by decide +kernel, by decide +kernel⟩

/-- The value `x` in an element `b`. -/
theorem str_feeds (p : Pos) :
    Feeds posTrack str none p [.start ⟨['b'], []⟩, .text ['x'], .end_ ['b']] ['x'] :=
  .step (ev := .none) (a := false) rfl (Or.inl rfl)
    (.step (ev := .none) (a := false) rfl (Or.inl rfl) (.last (a := false) rfl))

/-- Non-vacuity of `C19_mixed_text_attribution`: `<b>x</b>a<!-- c -->&lt;<d>`. -/
example : ReadsBefore posTrack (mixedDe (fun _ => none) (.value 0) str) {}
    ([.start ⟨['b'], []⟩, .text ['x'], .end_ ['b']] ++ [.text ['a'], .comment ['c'], .ref "lt".toList])
    (.start ⟨['d'], []⟩) (['x'], some ['a', '<']) :=
  C19_mixed_text_attribution _ _ _ _ _ _ _ _ _ _ (str_feeds {}) (by decide) (by decide +kernel) trivial

/-- Non-vacuity of `C19_mixed_round_trip_partial`, with `C19_nillable_value_round_trip` inside:
the value `x` with the text `<` after it. -/
example : ∃ all all', (mixedZ (nillableZ (contentZ (E := Unit)
      (fun (v : Str) _ => .ok (some v)) fun _ => ()))).Emits
      (.inner (some ['<']) (.some_ (.begin (some ['b']) ['x']))) {} all {} ∧
    reread all = some all' ∧
    ReadsBefore posTrack (mixedDe (fun _ => none) (.value 0) (nillableDe posScope str)) {} all'
      (.end_ ['r']) (some ['x'], some ['<']) := by
  obtain ⟨w, r, f⟩ := C19_nillable_value_round_trip posTrack posScope str
    (contentZ (E := Unit) (fun (v : Str) _ => .ok (some v)) fun _ => ()) (.begin (some ['b']) ['x'])
    {} {} {} (.start ⟨['b'], []⟩) ⟨['b'], []⟩
    [.start ⟨['b'], []⟩, .text ['x'], .end_ ['b']] [.text ['x'], .end_ ['b']] ['x']
    (.emit rfl (.emit rfl (.emit rfl (.done rfl)))) (by decide +kernel) rfl rfl (str_feeds {})
  exact C19_mixed_round_trip_partial _ _ _ _ _ _ _ _ _ _ _ _ _ _ w r f (by decide) trivial

/-- Non-vacuity of `C19_mixed_root_rejected`. -/
example (w : Str × Option Str) (rest : List Event) :
    Drv.run (genEnv posTrack) (mixedDe (fun _ => none) (.value 0) str).toDeser { helper := {} }
      ([.start ⟨['b'], []⟩, .text ['x'], .end_ ['b']] ++ [.text ['\n']] ++ List.replicate 1 .eof)
      ≠ .done w rest :=
  C19_mixed_root_rejected _ _ _ _ _ _ _ _ ['\n'] 1 (str_feeds {}) (by decide) (by decide +kernel) _ _

/-- Non-vacuity of `C19_text_round_trip` and `C19_nil_element`. -/
example : (∃ out out', (textZ (E := Unit)).Emits (some ['<', 'a']) {} out {} ∧
      reread out = some out' ∧
      ReadsBefore posTrack (textDe (fun _ => none) (.value 0)) {} out' (.end_ ['r']) ['<', 'a']) ∧
    Feeds posTrack (nillableDe posScope str) none {}
      (.start ⟨['b'], [⟨SerHelper.xmlnsKey ['i'], xsiNs⟩, ⟨"i:nil".toList, ['1']⟩]⟩ ::
        ([.text [' ']] ++ [.end_ ['b']])) none :=
  ⟨C19_text_round_trip _ _ _ _ _ _ (by decide) _ trivial,
    (C19_nil_element _ _ _ _ _ _ _).2 (by decide +kernel) (by decide)⟩

end Ex

end Verif.Gen

import Verif.Gen.Interface

/-!
# Generated sequence deserializers (C09, C10)

The deserializer generated for a struct with `xs:sequence` content,
renderer/steps/quick_xml/deserialize.rs: `render_deserializer_fn_next_sequence` (2349-2488),
`…_fn_next_sequence_continue` (4271-4298), `…_fn_next_sequence_create` (4300-4385),
`…_fn_handle_sequence` (4062-4248), `…_fn_store` (3934-3980), `…_finish` (3883-3932),
`finish_state` (1915-1978), `fn_finish` (2490-2520), `init_for_element` (1041-1052),
`init_for_group` (2054-2097).

Not modelled here: `xs:any` particles (`any_fallback`), text particles and mixed content.
-/

namespace Verif.Gen

open Verif.Rt Verif.Occurs

/-- One field of the struct (`ComplexDataElement`). `want` is the name test of an element
particle; `none` for group and dynamic particles, whose deserializer is initialised directly.
`dflt` is `T::default_value`, used if the particle is defaultable. -/
structure Field (H C V : Type) where
  name : Str
  want : Option (H → Tag → Bool)
  min : Nat
  max : MaxOccurs
  defaultable : Bool := false
  dflt : H → Except GErr V := fun _ => .error .missingContent
  allowAny : Bool := false
  de : GDe H C V

/-- The container chosen for the field. -/
def Field.occurs {H C V : Type} (f : Field H C V) : Container := fromOccurs f.min f.max

/-- `is_defaultable_element` (4483-4496): optional particles count as defaultable. -/
def Field.isDefaultable {H C V : Type} (f : Field H C V) : Bool := f.min == 0 || f.defaultable

/-- The state enum of the deserializer; `Unknown__` only exists inside of `next`. -/
inductive SPos (C : Type) where
  | init
  /-- the variant of field `i`, with or without a running child deserializer -/
  | at_ (i : Nat) (c : Option C)
  | done
deriving DecidableEq, Repr

/-- The deserializer struct: attributes, collected values per field, state. -/
structure SeqSt (A C V : Type) where
  attrs : A
  vals : List (List V)
  pos : SPos C
deriving Repr

/-- A struct type with sequence content. `ofTag` reads the attributes (C07), `build` makes the
struct; `isElement` is `represents_element`. -/
structure SeqTy (H A C V W : Type) where
  fields : List (Field H C V)
  allowAny : Bool := false
  isElement : Bool := true
  ofTag : H → Tag → Except GErr A
  attrs0 : A
  build : A → List (List V) → W

section
variable {H A C V W : Type}

/-- The `store_…` function of a field, 3934-3980. -/
def store (f : Field H C V) (i : Nat) (v : V) (s : SeqSt A C V) : Except GErr (SeqSt A C V) :=
  let push := { s with vals := s.vals.modify i (· ++ [v]) }
  match f.occurs with
  | .single | .optional =>
    if (s.vals.getD i []).isEmpty then .ok push else .error (.duplicate f.name)
  | _ => .ok push

/-- `finish_state`, 1915-1978: a running child deserializer is finished and its value stored. -/
def SeqTy.finishState (T : SeqTy H A C V W) (h : H) (pos : SPos C) (s : SeqSt A C V) :
    Except GErr (SeqSt A C V) :=
  match pos with
  | .at_ i (some c) =>
    match T.fields[i]? with
    | none => .error .panic
    | some f =>
      match f.de.finish c h with
      | .error e => .error e
      | .ok v => store f i v s
  | _ => .ok s

/-- `matches!(max, Some(max) if n > max)`. -/
def Field.exceeds (f : Field H C V) (n : Nat) : Bool :=
  match f.max with
  | .unbounded => false
  | .bounded b => b < n

/-- Fill up with default values. -/
def fillDefault (f : Field H C V) (h : H) : Nat → List V → Except GErr (List V)
  | 0, vs => .ok vs
  | n + 1, vs =>
    match f.dflt h with
    | .error e => .error e
    | .ok v => fillDefault f h n (vs ++ [v])

/-- The conversion of one field in `finish`, 3883-3932 (`finish_vec` has the condition it has
in the run-time library, deserialize.rs:1126-1141). -/
def finishField (f : Field H C V) (h : H) (vs : List V) : Except GErr (List V) :=
  match f.occurs with
  | .none => .error .panic
  | .single =>
    if f.isDefaultable then fillDefault f h (1 - vs.length) vs
    else if vs.isEmpty then .error (.missing f.name) else .ok vs
  | .optional => .ok vs
  | .dynamicList =>
    if f.min = 0 then .ok vs
    else if f.isDefaultable then fillDefault f h (f.min - vs.length) vs
    else if vs.length < f.min ∧ f.exceeds vs.length then .error .size
    else .ok vs
  | .staticList n =>
    if f.isDefaultable then
      match fillDefault f h (n - vs.length) vs with
      | .error e => .error e
      | .ok vs => if vs.length = n then .ok vs else .error .panic
    else if vs.length = n then .ok vs else .error .size

/-- All fields of the struct. -/
def finishFields (h : H) : List (Field H C V) → List (List V) → Except GErr (List (List V))
  | [], _ => .ok []
  | f :: fs, vals =>
    match finishField f h (vals.headD []) with
    | .error e => .error e
    | .ok vs =>
      match finishFields h fs vals.tail with
      | .error e => .error e
      | .ok vss => .ok (vs :: vss)

/-- `finish`, 2490-2520. -/
def SeqTy.finish (T : SeqTy H A C V W) (s : SeqSt A C V) (h : H) : Except GErr W :=
  match T.finishState h s.pos s with
  | .error e => .error e
  | .ok s =>
    match finishFields h T.fields s.vals with
    | .error e => .error e
    | .ok vss => .ok (T.build s.attrs vss)

/-- The state after field `i`. -/
def SeqTy.nextPos (T : SeqTy H A C V W) (i : Nat) : SPos C :=
  if i + 1 < T.fields.length then .at_ (i + 1) none else .done

/-- Finish the fallback state, if there is one. -/
def SeqTy.flush (T : SeqTy H A C V W) (h : H) (fb : Option (SPos C)) (s : SeqSt A C V) :
    Except GErr (SeqSt A C V) :=
  match fb with
  | none => .ok s
  | some p => T.finishState h p s

def SPos.isInit : SPos C → Bool
  | .init => true
  | _ => false

/-- `handler_none` of `…_fn_handle_sequence`, 4092-4150: the child did not take the event. -/
def SeqTy.handleNone (T : SeqTy H A C V W) (f : Field H C V) (i : Nat) (ev : DEvent)
    (any : Bool) (h : H) (s : SeqSt A C V) (fb : Option (SPos C)) :
    Except GErr (EHO × SeqSt A C V × Option (SPos C)) :=
  let goOn (s : SeqSt A C V) (fb : Option (SPos C)) :=
    (EHO.fromEvent ev any, { s with pos := T.nextPos i }, fb)
  if f.min = 0 ∨ f.occurs = .optional then .ok (goOn s fb)
  else if f.isDefaultable then .ok (goOn s fb)
  else if f.occurs = .single then
    match fb with
    | some .init => .ok (.brk ev any, s, some .init)
    | some p => .ok (.toRoot ev any, s, some p)
    | none => .ok (.toRoot ev any, s, some (.at_ i none))
  else
    match fb with
    | some .init => .ok (.brk ev any, s, some .init)
    | fb =>
      match T.flush h fb s with
      | .error e => .error e
      | .ok s =>
        if (s.vals.getD i []).length < f.min then
          .ok (.toRoot ev any, s, some (.at_ i none))
        else .ok (goOn s none)

/-- `…_fn_handle_sequence`, 4062-4248. -/
def SeqTy.handle (T : SeqTy H A C V W) (f : Field H C V) (i : Nat) (out : Output C V)
    (h : H) (s : SeqSt A C V) (fb : Option (SPos C)) :
    Except GErr (EHO × SeqSt A C V × Option (SPos C)) :=
  match out.artifact with
  | .none => T.handleNone f i out.event out.allowAny h s fb
  | .data v =>
    match T.flush h fb s with
    | .error e => .error e
    | .ok s =>
      match store f i v s with
      | .error e => .error e
      | .ok s =>
        let pos : SPos C :=
          match f.occurs, f.max with
          | .single, _ | .optional, _ => T.nextPos i
          | _, .bounded b => if (s.vals.getD i []).length < b then .at_ i none else T.nextPos i
          | _, .unbounded => .at_ i none
        .ok (.fromEvent out.event out.allowAny, { s with pos }, none)
  | .deser c =>
    match T.flush h fb s with
    | .error e => .error e
    | .ok s =>
      let pos : SPos C :=
        match f.occurs, f.max with
        | .single, _ | .optional, _ => T.nextPos i
        | _, .bounded b =>
          if (s.vals.getD i []).length < b - 1 then .at_ i none else T.nextPos i
        | _, .unbounded => .at_ i none
      .ok (.fromEvent out.event out.allowAny, { s with pos }, some (.at_ i (some c)))

/-- Initialise the child deserializer of a field, 4300-4385. -/
def Field.create (f : Field H C V) (seqAny : Bool) (h : H) (e : Event) :
    Except GErr (Output C V) :=
  match f.want with
  | some want => initStartTag want f.de (seqAny || f.allowAny) h e
  | none => f.de.init h e

/-- One round of the `loop` of `next`: go on with an event, or return. -/
inductive Round (A C V W : Type) where
  | again (e : Event) (s : SeqSt A C V) (fb : Option (SPos C)) (any : Bool)
  | ret (out : Output (SeqSt A C V) W)

/-- Leave the loop, 2475-2487: the fallback state, if there is one, replaces the state. -/
def Round.stop (s : SeqSt A C V) (fb : Option (SPos C)) (ev : DEvent) (a : Bool) :
    Round A C V W :=
  .ret ⟨.deser { s with pos := fb.getD s.pos }, ev, a⟩

/-- What happens after the child of field `i` has been called, 4284-4293 and 4336-4345. -/
def SeqTy.after (T : SeqTy H A C V W) (h : H) (s : SeqSt A C V) (fb : Option (SPos C))
    (any : Bool) (f : Field H C V) (i : Nat) (r : Except GErr (Output C V)) :
    Except GErr (Round A C V W) :=
  match r with
  | .error err => .error err
  | .ok out =>
    match T.handle f i out h s fb with
    | .error err => .error err
    | .ok (.cont e a, s, fb) => .ok (.again e s fb (any || a))
    | .ok (.brk ev a, s, fb) => .ok (.stop s fb ev a)

/-- The end tag, 2447-2457: finish everything. -/
def SeqTy.atEnd (T : SeqTy H A C V W) (h : H) (n : Str) (s : SeqSt A C V)
    (fb : Option (SPos C)) : Except GErr (Round A C V W) :=
  match T.flush h fb s with
  | .error err => .error err
  | .ok s =>
    match finishFields h T.fields s.vals with
    | .error err => .error err
    | .ok vss =>
      .ok (.ret ⟨.data (T.build s.attrs vss),
        if T.isElement then .none else .cont (.end_ n), false⟩)

/-- The body of the `loop` of `next`, 2442-2472. -/
def SeqTy.round (T : SeqTy H A C V W) (h : H) (e : Event) (s : SeqSt A C V)
    (fb : Option (SPos C)) (any : Bool) : Except GErr (Round A C V W) :=
  match s.pos with
  | .at_ i (some c) =>
    match T.fields[i]? with
    | none => .error .panic
    | some f => T.after h s fb any f i (f.de.next c h e)
  | .init =>
    match e with
    | .end_ n => T.atEnd h n s fb
    | e => .ok (.again e { s with pos := .at_ 0 none } (some (fb.getD .init)) (any || T.allowAny))
  | .at_ i none =>
    match e with
    | .end_ n => T.atEnd h n s fb
    | e =>
      match tagOf e with
      | none => .ok (.stop s fb (.brk e) false)
      | some _ =>
        match T.fields[i]? with
        | none => .error .panic
        | some f => T.after h s fb any f i (f.create T.allowAny h e)
  | .done =>
    match e with
    | .end_ n => T.atEnd h n s fb
    | e => .ok (.stop s fb (.cont e) (T.allowAny || any))

/-- The `loop` of `next`, 2439-2473. `fuel` bounds the number of rounds (`diverged` if there
are more; `fuel` suffices if all particles are elements, see `SeqTy.loop_decides`). -/
def SeqTy.loop (T : SeqTy H A C V W) (h : H) :
    Nat → Event → SeqSt A C V → Option (SPos C) → Bool → Except GErr (Output (SeqSt A C V) W)
  | 0, _, _, _, _ => .error .diverged
  | fuel + 1, e, s, fb, any =>
    match T.round h e s fb any with
    | .error err => .error err
    | .ok (.again e s fb any) => SeqTy.loop T h fuel e s fb any
    | .ok (.ret out) => .ok out

/-- The bound on the rounds. -/
def SeqTy.fuel (T : SeqTy H A C V W) : Nat := 2 * T.fields.length + 4

/-- `next`, 2349-2488. -/
def SeqTy.next (T : SeqTy H A C V W) (s : SeqSt A C V) (h : H) (e : Event) :
    Except GErr (Output (SeqSt A C V) W) :=
  T.loop h T.fuel e s none false

/-- The deserializer in its initial state. -/
def SeqTy.start (T : SeqTy H A C V W) (a : A) : SeqSt A C V :=
  ⟨a, T.fields.map fun _ => [], .init⟩

/-- `init` for types that represent an element (1041-1052) and for groups (2054-2097). -/
def SeqTy.init (T : SeqTy H A C V W) (h : H) (e : Event) : Except GErr (Output (SeqSt A C V) W) :=
  if T.isElement then
    initFromStart (fun h t => (T.ofTag h t).map T.start) T.finish h e
  else
    match T.next (T.start T.attrs0) h e with
    | .error err => .error err
    | .ok out =>
      .ok { out with artifact :=
        match out.artifact with
        | .deser s => if s.pos.isInit then .none else .deser s
        | a => a }

/-! ### The bound on the rounds suffices -/

/-- The rounds left: a running child first, then the fields from left to right. -/
def SeqTy.rank (T : SeqTy H A C V W) : SPos C → Nat
  | .at_ _ (some _) => T.fields.length + 2
  | .init => T.fields.length + 1
  | .at_ i none => T.fields.length - i
  | .done => 0

/-- A field whose child deserializer, once it has taken a tag, keeps it. True for elements
(`initFromStart`). -/
def Field.Keeps (f : Field H C V) : Prop :=
  f.want.isSome = true ∧
  ∀ h e out, f.de.init h e = .ok out → out.artifact ≠ .none → ∀ x, out.event ≠ .cont x

theorem SeqTy.rank_nextPos (T : SeqTy H A C V W) (i : Nat) :
    T.rank (T.nextPos i) ≤ T.fields.length - (i + 1) := by
  unfold SeqTy.nextPos
  split <;> simp [SeqTy.rank]

theorem EHO.fromEvent_cont {ev : DEvent} {a b : Bool} {e : Event}
    (h : EHO.fromEvent ev a = .cont e b) : ev = .cont e := by
  unfold EHO.fromEvent at h
  split at h <;> simp_all

/-- What `handle` leaves: a field without running child; if it took nothing, a later one. -/
theorem SeqTy.handle_cont {T : SeqTy H A C V W} {f : Field H C V} {i : Nat} {out : Output C V}
    {h : H} {s s' : SeqSt A C V} {fb fb' : Option (SPos C)} {e : Event} {a : Bool}
    (hh : T.handle f i out h s fb = .ok (.cont e a, s', fb')) :
    out.event = .cont e ∧ (s'.pos = T.nextPos i ∨ (s'.pos = .at_ i none ∧ out.artifact ≠ .none)) := by
  unfold SeqTy.handle at hh
  split at hh
  · rename_i hn
    unfold SeqTy.handleNone at hh
    simp only at hh
    repeat' split at hh
    all_goals first
      | (cases hh; done)
      | (simp only [Except.ok.injEq, Prod.mk.injEq] at hh
         obtain ⟨h1, h2, h3⟩ := hh
         first
          | (simp [EHO.toRoot] at h1; done)
          | (subst h2; exact ⟨EHO.fromEvent_cont h1, Or.inl rfl⟩))
  · rename_i v hv
    split at hh
    · cases hh
    · split at hh
      · cases hh
      · simp only [Except.ok.injEq, Prod.mk.injEq] at hh
        obtain ⟨h1, h2, h3⟩ := hh
        refine ⟨EHO.fromEvent_cont h1, ?_⟩
        subst h2
        simp only
        split
        · exact Or.inl rfl
        · exact Or.inl rfl
        · split
          · exact Or.inr ⟨rfl, by simp [hv]⟩
          · exact Or.inl rfl
        · exact Or.inr ⟨rfl, by simp [hv]⟩
  · rename_i c hc
    split at hh
    · cases hh
    · simp only [Except.ok.injEq, Prod.mk.injEq] at hh
      obtain ⟨h1, h2, h3⟩ := hh
      refine ⟨EHO.fromEvent_cont h1, ?_⟩
      subst h2
      simp only
      split
      · exact Or.inl rfl
      · exact Or.inl rfl
      · split
        · exact Or.inr ⟨rfl, by simp [hc]⟩
        · exact Or.inl rfl
      · exact Or.inr ⟨rfl, by simp [hc]⟩

theorem SeqTy.after_again {T : SeqTy H A C V W} {f : Field H C V} {i : Nat}
    {r : Except GErr (Output C V)} {h : H} {s s' : SeqSt A C V} {fb fb' : Option (SPos C)}
    {e : Event} {any a : Bool} (hh : T.after h s fb any f i r = .ok (.again e s' fb' a)) :
    ∃ out, r = .ok out ∧ out.event = .cont e ∧
      (s'.pos = T.nextPos i ∨ (s'.pos = .at_ i none ∧ out.artifact ≠ .none)) := by
  unfold SeqTy.after at hh
  split at hh
  · cases hh
  · split at hh
    · cases hh
    · rename_i hk
      simp only [Except.ok.injEq, Round.again.injEq] at hh
      obtain ⟨rfl, rfl, rfl, -⟩ := hh
      exact ⟨_, rfl, SeqTy.handle_cont hk⟩
    · simp [Round.stop] at hh

/-- Every round that goes on gets closer to the end. -/
theorem SeqTy.round_rank {T : SeqTy H A C V W} (hk : ∀ f ∈ T.fields, f.Keeps) {h : H}
    {e e' : Event} {s s' : SeqSt A C V} {fb fb' : Option (SPos C)} {any a : Bool}
    (hr : T.round h e s fb any = .ok (.again e' s' fb' a)) : T.rank s'.pos < T.rank s.pos := by
  have noEnd : ∀ n, T.atEnd h n s fb ≠ .ok (.again e' s' fb' a) := by
    intro n hn
    unfold SeqTy.atEnd at hn
    repeat' split at hn
    all_goals simp at hn
  unfold SeqTy.round at hr
  split at hr
  · rename_i i c hp
    rw [hp]
    split at hr
    · cases hr
    · obtain ⟨out, -, -, h1 | ⟨h1, -⟩⟩ := SeqTy.after_again hr
      · rw [h1]; refine Nat.lt_of_le_of_lt (T.rank_nextPos i) ?_; simp only [SeqTy.rank]; omega
      · rw [h1]; simp only [SeqTy.rank]; omega
  · rename_i hp
    rw [hp]
    split at hr
    · exact absurd hr (noEnd _)
    · simp only [Except.ok.injEq, Round.again.injEq] at hr
      obtain ⟨-, h2, -, -⟩ := hr
      rw [← h2]; simp only [SeqTy.rank]; omega
  · rename_i i hp
    rw [hp]
    split at hr
    · exact absurd hr (noEnd _)
    · split at hr
      · simp [Round.stop] at hr
      · rename_i t ht
        split at hr
        · cases hr
        · rename_i f hf
          have hi : i < T.fields.length := by
            rcases Nat.lt_or_ge i T.fields.length with h' | h'
            · exact h'
            · rw [List.getElem?_eq_none h'] at hf; cases hf
          obtain ⟨hw, hkf⟩ := hk f (List.mem_of_getElem? hf)
          obtain ⟨out, h0, h1, h2 | ⟨h2, h3⟩⟩ := SeqTy.after_again hr
          · rw [h2]; refine Nat.lt_of_le_of_lt (T.rank_nextPos i) ?_; simp only [SeqTy.rank]; omega
          · exfalso
            unfold Field.create at h0
            cases hwe : f.want with
            | none => rw [hwe] at hw; cases hw
            | some w =>
              rw [hwe] at h0
              simp only [initStartTag, ht] at h0
              split at h0
              · exact hkf _ _ _ h0 h3 _ h1
              · simp only [Except.ok.injEq] at h0
                rw [← h0] at h3; exact h3 rfl
  · split at hr
    · exact absurd hr (noEnd _)
    · simp [Round.stop] at hr

/-- The `loop` of `next` always ends: more rounds than `fuel` are never needed. -/
theorem SeqTy.loop_decides {T : SeqTy H A C V W} (hk : ∀ f ∈ T.fields, f.Keeps) (h : H) :
    ∀ (n k : Nat) (e : Event) (s : SeqSt A C V) (fb : Option (SPos C)) (any : Bool),
    T.rank s.pos < n → T.loop h (n + k) e s fb any = T.loop h n e s fb any := by
  intro n
  induction n with
  | zero => intro k e s fb any hn; omega
  | succ n ih =>
    intro k e s fb any hn
    rw [show n + 1 + k = n + k + 1 by omega]
    simp only [SeqTy.loop]
    cases hr : T.round h e s fb any with
    | error err => rfl
    | ok r =>
      cases r with
      | ret out => rfl
      | again e' s' fb' a =>
        have := SeqTy.round_rank hk hr
        exact ih k e' s' fb' a (by omega)

theorem SeqTy.rank_lt_fuel (T : SeqTy H A C V W) (p : SPos C) : T.rank p < T.fuel := by
  unfold SeqTy.fuel
  match p with
  | .init | .at_ _ none | .done | .at_ _ (some _) => simp only [SeqTy.rank]; omega

/-- The generated deserializer of a sequence type. -/
def SeqTy.de (T : SeqTy H A C V W) : GDe H (SeqSt A C V) W := ⟨T.init, T.next, T.finish⟩

end

end Verif.Gen

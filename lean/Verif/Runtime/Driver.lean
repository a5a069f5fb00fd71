import Verif.Runtime.Events

/-!
# The deserialization driver (C02, C03)

`DeserializeImpl` (xsd-parser-types/src/quick_xml/deserialize.rs 1259-1381) reads events,
feeds them to a deserializer, keeps the intermediate deserializer and deals with events
the deserializer did not consume: it skips whole elements if the deserializer allows any
content, ignores comments and blank text and reports everything else as an error.

The deserializer is an arbitrary one: it is given by its `init` and `next` functions, which
may use and change a helper state of an arbitrary type.
-/

namespace Verif.Rt

/-! ## The deserializer interface -/

/-- `DeserializerArtifact`, deserialize.rs:218-230. -/
inductive Artifact (S V : Type) where
  | none
  | data (v : V)
  | deser (s : S)
deriving DecidableEq, Repr

namespace Artifact
variable {S V : Type}

/-- `into_parts`, deserialize.rs:249-256. -/
def dataOf : Artifact S V → Option V
  | data v => some v
  | _ => Option.none

def deserOf : Artifact S V → Option S
  | deser s => some s
  | _ => Option.none

/-- `map`, deserialize.rs:281-293. -/
def map {S' V' : Type} (f : S → S') (g : V → V') : Artifact S V → Artifact S' V'
  | none => none
  | data v => data (g v)
  | deser s => deser (f s)

end Artifact

/-- `DeserializerEvent`, deserialize.rs:298-344. -/
inductive DEvent where
  | none
  | brk (e : Event)
  | cont (e : Event)
deriving DecidableEq, Repr

/-- `DeserializerEvent::into_event`, deserialize.rs:329-335. -/
def DEvent.event : DEvent → Option Event
  | .none => Option.none
  | .brk e => some e
  | .cont e => some e

/-- `DeserializerOutput`, deserialize.rs:197-214. -/
structure Output (S V : Type) where
  artifact : Artifact S V
  event : DEvent
  allowAny : Bool
deriving Repr

/-- The trait `Deserializer`, deserialize.rs:77-103: an intermediate state type `S`, a value
type `V`, errors `E`, and a helper state `H` that both functions may read and change. -/
structure Deser (H E V : Type) where
  S : Type
  init : H → Event → Except E (Output S V × H)
  next : S → H → Event → Except E (Output S V × H)
  finish : S → H → Except E V

/-! ## The driver -/

/-- Characters removed by `str::trim` (the Unicode `White_Space` property). -/
def isUnicodeWs (c : Char) : Bool :=
  let n := c.toNat
  (9 ≤ n && n ≤ 13) || n == 32 || n == 0x85 || n == 0xA0 || n == 0x1680 ||
    (0x2000 ≤ n && n ≤ 0x200A) || n == 0x2028 || n == 0x2029 || n == 0x202F ||
    n == 0x205F || n == 0x3000

/-- What the helper does with every event and how an unexpected event is reported. -/
structure Env (H E : Type) where
  track : H → Event → H
  unexpected : Event → E

/-- `DeserializeImpl`, deserialize.rs:1259-1268. -/
structure Drv (H S : Type) where
  helper : H
  deser : Option S := none
  skip : Option Nat := none

section
variable {H E V : Type}

/-- `handle_skip`, deserialize.rs:1330-1348: the new skip depth and the event to process. -/
def handleSkip (skip : Option Nat) (e : Event) : Option Nat × Option Event :=
  match skip with
  | none => (none, some e)
  | some n =>
    match e with
    | .start _ => (some (n + 1), none)
    | .end_ _ => if n = 1 then (none, none) else (some (n - 1), none)
    | .eof => (some n, some .eof)
    | _ => (some n, none)

/-- The treatment of the event left over by the deserializer, deserialize.rs:1307-1325:
`none` is the error case, otherwise the new skip depth. -/
def leftover (skip : Option Nat) (ev : Option Event) (allowAny : Bool) : Option (Option Nat) :=
  match ev with
  | none => some skip
  | some (.decl _) | some (.comment _) | some (.docType _) | some (.ref _) | some (.pi _) =>
    some skip
  | some e =>
    if allowAny then
      match e with
      | .start _ => some (some 1)
      | _ => some skip
    else
      match e with
      | .text s => if s.all isUnicodeWs then some skip else none
      | _ => none

/-- Call of `init` or `next`, deserialize.rs:1294-1297. -/
def callDeser (d : Deser H E V) (st : Option d.S) (h : H) (e : Event) :
    Except E (Output d.S V × H) :=
  match st with
  | none => d.init h e
  | some s => d.next s h e

/-- `DeserializeImpl::handle_event`, deserialize.rs:1285-1328. -/
def Drv.handleEvent (env : Env H E) (d : Deser H E V) (st : Drv H d.S) (e : Event) :
    Except E (Option V × Drv H d.S) :=
  let helper := env.track st.helper e
  match handleSkip st.skip e with
  | (skip, none) => .ok (none, { st with helper, skip })
  | (skip, some e) =>
    match callDeser d st.deser helper e with
    | .error err => .error err
    | .ok (out, helper) =>
      match leftover skip out.event.event out.allowAny with
      | none => .error (env.unexpected (out.event.event.getD e))
      | some skip => .ok (out.artifact.dataOf, { helper, deser := out.artifact.deserOf, skip })

/-- What became of a run over a list of events. -/
inductive Run (H S E V : Type) where
  /-- A value was returned; the remaining events were not read. -/
  | done (v : V) (rest : List Event)
  /-- An error was returned. -/
  | fail (e : E) (rest : List Event)
  /-- All events were read, the driver waits for the next one. -/
  | more (st : Drv H S)

/-- `deserialize_sync`, deserialize.rs:1356-1364, on a list of events. -/
def Drv.run (env : Env H E) (d : Deser H E V) (st : Drv H d.S) : List Event → Run H d.S E V
  | [] => .more st
  | e :: es =>
    match st.handleEvent env d e with
    | .error err => .fail err es
    | .ok (some v, _) => .done v es
    | .ok (none, st) => Drv.run env d st es

/-- Has the run returned (a value or an error)? -/
def Run.decided {S : Type} : Run H S E V → Bool
  | .more _ => false
  | _ => true

/-! ## Properties -/

variable (env : Env H E) (d : Deser H E V)

/-- The helper after a list of events. -/
def trackAll (h : H) (es : List Event) : H := es.foldl env.track h

theorem trackAll_append (h : H) (xs ys : List Event) :
    trackAll env h (xs ++ ys) = trackAll env (trackAll env h xs) ys := by
  simp [trackAll, List.foldl_append]

theorem run_skipped {st : Drv H d.S} {e : Event} {k' : Option Nat}
    (h : handleSkip st.skip e = (k', none)) (es : List Event) :
    Drv.run env d st (e :: es)
      = Drv.run env d { st with helper := env.track st.helper e, skip := k' } es := by
  simp only [Drv.run, Drv.handleEvent, h]

mutual

theorem skip_node (n : Node) (st : Drv H d.S) (k : Nat) (hk : st.skip = some (k + 1))
    (rest : List Event) :
    Drv.run env d st (n.events ++ rest)
      = Drv.run env d { st with helper := trackAll env st.helper n.events } rest := by
  match n with
  | .elem t ch =>
    simp only [Node.events, List.cons_append, List.append_assoc, List.nil_append]
    rw [run_skipped env d (k' := some (k + 2)) (by simp [hk, handleSkip])]
    rw [skip_nodes ch _ (k + 1) rfl]
    rw [run_skipped env d (k' := some (k + 1)) (by simp [handleSkip])]
    cases st
    simp only at hk
    subst hk
    simp [trackAll, List.foldl_append]
  | .emptyElem t =>
    simp only [Node.events, List.cons_append, List.nil_append]
    rw [run_skipped env d (k' := some (k + 1)) (by simp [hk, handleSkip])]
    cases st; simp only at hk; subst hk; simp [trackAll]
  | .leaf e he =>
    simp only [Node.events, List.cons_append, List.nil_append]
    rw [run_skipped env d (k' := some (k + 1)) (by
      rw [hk]; cases e <;> simp_all [handleSkip, Event.isLeaf])]
    cases st; simp only at hk; subst hk; simp [trackAll]

theorem skip_nodes (ns : Nodes) (st : Drv H d.S) (k : Nat) (hk : st.skip = some (k + 1))
    (rest : List Event) :
    Drv.run env d st (ns.events ++ rest)
      = Drv.run env d { st with helper := trackAll env st.helper ns.events } rest := by
  match ns with
  | .nil => cases st; simp [Nodes.events, trackAll]
  | .cons n ns =>
    simp only [Nodes.events, List.append_assoc]
    rw [skip_node n st k hk,
      skip_nodes ns { st with helper := trackAll env st.helper n.events } k hk]
    simp [trackAll, List.foldl_append]

end

/-- **C02.** Suppose the deserializer, given the start tag `t`, does not consume it (it is
left over), allows any content and has not produced a value. Then reading the whole element
— start tag, any content of any depth, end tag — has exactly the effect of keeping the
returned intermediate deserializer: it is not called for any event of the element, skipping
is over, the helper has seen all events, and the run continues with the next event. -/
theorem C02_skip_exactly_one_element (st : Drv H d.S) (t t' : Tag) (body : Nodes)
    (rest : List Event) (out : Output d.S V) (h' : H)
    (hskip : st.skip = none)
    (hcall : callDeser d st.deser (env.track st.helper (.start t)) (.start t) = .ok (out, h'))
    (hleft : out.event.event = some (.start t')) (hany : out.allowAny = true)
    (hnodata : out.artifact.dataOf = none) :
    Drv.run env d st ((Node.elem t body).events ++ rest)
      = Drv.run env d
          { helper := trackAll env h' (body.events ++ [.end_ t.name])
            deser := out.artifact.deserOf
            skip := none } rest := by
  simp only [Node.events, List.cons_append, List.append_assoc, List.nil_append]
  simp only [Drv.run, Drv.handleEvent, hskip, handleSkip, hcall, hleft, hany, leftover,
    if_true, hnodata]
  rw [skip_nodes env d body _ 0 rfl]
  rw [run_skipped env d (k' := none) (by simp [handleSkip])]
  simp [trackAll, List.foldl_append]

/-- **C02**, elements written `<t/>`: only that one event is dropped. -/
theorem C02_skip_empty_element (st : Drv H d.S) (t t' : Tag) (rest : List Event)
    (out : Output d.S V) (h' : H)
    (hskip : st.skip = none)
    (hcall : callDeser d st.deser (env.track st.helper (.empty t)) (.empty t) = .ok (out, h'))
    (hleft : out.event.event = some (.empty t')) (hany : out.allowAny = true)
    (hnodata : out.artifact.dataOf = none) :
    Drv.run env d st ((Node.emptyElem t).events ++ rest)
      = Drv.run env d { helper := h', deser := out.artifact.deserOf, skip := none } rest := by
  simp only [Node.events, List.cons_append, List.nil_append, Drv.run, Drv.handleEvent, hskip,
    handleSkip, hcall, hleft, hany, leftover, if_true, hnodata]

/-- **C02**, the other direction: if any content is *not* allowed, an unconsumed start tag is
an error, nothing is skipped. -/
theorem C02_unknown_element_rejected (st : Drv H d.S) (t t' : Tag) (rest : List Event)
    (out : Output d.S V) (h' : H)
    (hskip : st.skip = none)
    (hcall : callDeser d st.deser (env.track st.helper (.start t)) (.start t) = .ok (out, h'))
    (hleft : out.event.event = some (.start t')) (hany : out.allowAny = false) :
    Drv.run env d st (.start t :: rest) = .fail (env.unexpected (.start t')) rest := by
  simp only [Drv.run, Drv.handleEvent, hskip, handleSkip, hcall, hleft, hany, leftover,
    Bool.false_eq_true, if_false, Option.getD_some]

/-- A deserializer *gives up at the end of the file*: in every state the end-of-file event
leads to an error, to a value, or is left over by a deserializer that does not allow any
content. -/
def EndsAtEof : Prop :=
  ∀ (st : Option d.S) (h : H),
    match callDeser d st h .eof with
    | .error _ => True
    | .ok (out, _) =>
      out.artifact.dataOf.isSome = true ∨ (out.event.event = some .eof ∧ out.allowAny = false)

theorem eof_decides (hd : EndsAtEof d) (st : Drv H d.S) (es : List Event) :
    (Drv.run env d st (.eof :: es)).decided = true := by
  have hs : ∃ k, handleSkip st.skip .eof = (k, some .eof) := by
    cases st.skip with
    | none => exact ⟨none, rfl⟩
    | some n => exact ⟨some n, rfl⟩
  obtain ⟨k, hk⟩ := hs
  have h1 := hd st.deser (env.track st.helper .eof)
  simp only [Drv.run, Drv.handleEvent, hk]
  cases hc : callDeser d st.deser (env.track st.helper .eof) .eof with
  | error e => simp [Run.decided]
  | ok r =>
    obtain ⟨out, h'⟩ := r
    rw [hc] at h1
    simp only at h1 ⊢
    cases hl : leftover k out.event.event out.allowAny with
    | none => simp [Run.decided]
    | some k' =>
      rcases h1 with h1 | ⟨h1, h2⟩
      · cases hv : out.artifact.dataOf with
        | none => rw [hv] at h1; cases h1
        | some v => simp [Run.decided]
      · rw [h1, h2] at hl
        simp [leftover] at hl

/-- **C03** (partial). A deserializer that gives up at the end of the file returns after at
most `n + 1` events of a document of `n` events (the reader reports the end of the file
forever), whatever the events are and whatever is being skipped at that time.
Missing from the full property: deserializers that allow any content at the end of the file,
for which it is false (`C03_element_diverges_on_truncated` in `Verif.Runtime.Element`). -/
theorem C03_deserialize_terminates_partial (hd : EndsAtEof d) (st : Drv H d.S)
    (doc : List Event) : (Drv.run env d st (doc ++ [.eof])).decided = true := by
  induction doc generalizing st with
  | nil => exact eof_decides env d hd st []
  | cons e es ih =>
    simp only [List.cons_append, Drv.run]
    cases st.handleEvent env d e with
    | error err => rfl
    | ok r =>
      obtain ⟨v, st'⟩ := r
      cases v with
      | some v => rfl
      | none => exact ih st'

/-- A run that has returned does not depend on later events: in particular the driver reads
nothing after it has its value. -/
theorem run_append_of_done {st : Drv H d.S} {xs : List Event} {v : V} {r : List Event}
    (h : Drv.run env d st xs = .done v r) (ys : List Event) :
    Drv.run env d st (xs ++ ys) = .done v (r ++ ys) := by
  induction xs generalizing st with
  | nil => simp [Drv.run] at h
  | cons e es ih =>
    simp only [List.cons_append, Drv.run] at h ⊢
    cases hs : st.handleEvent env d e with
    | error err => rw [hs] at h; cases h
    | ok p =>
      obtain ⟨v', st'⟩ := p
      rw [hs] at h
      cases v' with
      | some v' => simp only at h ⊢; cases h; rfl
      | none => exact ih h

end

/-- Non-vacuity of C02: a deserializer that collects the names of the tags it sees and
leaves the tag `x` unconsumed. The whole element `x`, nested occurrences included, is
skipped, the following element is delivered. -/
def exampleDeser : Deser Unit String (List Str) where
  S := List Str
  init := fun h _ => .ok (⟨.deser [], .none, true⟩, h)
  next := fun s h e =>
    match e with
    | .start t => if t.name = ['x'] then .ok (⟨.deser s, .brk e, true⟩, h)
                  else .ok (⟨.deser (s ++ [t.name]), .none, true⟩, h)
    | .eof => .ok (⟨.data s, .none, true⟩, h)
    | _ => .ok (⟨.deser s, .none, true⟩, h)
  finish := fun s _ => .ok s

def exampleEnv : Env Unit String := ⟨fun h _ => h, fun _ => "unexpected"⟩

example :
    let tag : Char → Tag := fun c => ⟨[c], []⟩
    (match Drv.run exampleEnv exampleDeser { helper := () }
      [.decl [], .start (tag 'a'), .start (tag 'x'), .start (tag 'b'), .start (tag 'x'),
       .end_ ['x'], .end_ ['b'], .text ['?'], .end_ ['x'], .start (tag 'c'), .end_ ['c'],
       .end_ ['a'], .eof] with
     | .done v _ => v == [['a'], ['c']]
     | _ => false) = true := by decide

/-- Non-vacuity of C03: the example deserializer gives up at the end of the file once it is
initialised; one that never does so from the start is given in `Verif.Runtime.Element`. -/
example : (Drv.run exampleEnv exampleDeser { helper := (), deser := some [], skip := some 3 }
    ([.start ⟨['a'], []⟩] ++ [.eof])).decided = true := by decide

end Verif.Rt

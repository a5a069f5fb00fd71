import Verif.Runtime.Text
import Verif.Occurs

/-!
# The interface of generated deserializers

The code generator writes, for every complex type, an implementation of the trait
`Deserializer` (xsd-parser-types/src/quick_xml/deserialize.rs 77-103). The modules
`Verif.Gen.*` model the templates in
xsd-parser/src/pipeline/renderer/steps/quick_xml/deserialize.rs as functions of the type they
are generated for.

Generated deserializers only read the helper, so the functions below do not return it. The
state type `C` is a parameter, so that all children of a type share one state type.
-/

namespace Verif.Gen

open Verif.Rt

/-- The errors of generated code. `panic` is an `unreachable!`, `diverged` an endless loop. -/
inductive GErr where
  | unexpected (e : Event)
  | duplicate (name : Str)
  | missing (name : Str)
  | missingContent
  | size
  | panic
  | diverged
  /-- an error of user data: attributes, simple values -/
  | value (code : Nat)
deriving DecidableEq, Repr

/-- An implementation of `Deserializer` with intermediate states `C` and values `V`. -/
structure GDe (H C V : Type) where
  init : H → Event → Except GErr (Output C V)
  next : C → H → Event → Except GErr (Output C V)
  finish : C → H → Except GErr V

section
variable {H C V : Type}

/-- Seen as a deserializer of the run-time library (`Verif.Runtime.Driver`): the helper is
returned unchanged. -/
def GDe.toDeser (d : GDe H C V) : Deser H GErr V where
  S := C
  init := fun h e => (d.init h e).map (·, h)
  next := fun s h e => (d.next s h e).map (·, h)
  finish := d.finish

/-- Call of `init` or `next`. -/
def GDe.call (d : GDe H C V) (st : Option C) (h : H) (e : Event) : Except GErr (Output C V) :=
  match st with
  | none => d.init h e
  | some s => d.next s h e

/-- The environment of generated code: how the helper follows the events. -/
def genEnv (track : H → Event → H) : Env H GErr := ⟨track, .unexpected⟩

/-! ## Event classes -/

/-- `Event::Start(_) | Event::Empty(_)`. -/
def tagOf : Event → Option Tag
  | .start t | .empty t => some t
  | _ => none

/-- **Specification**: events that may stand between the children of an element without being
content: comments, processing instructions, … and blank text. -/
def Padding (e : Event) : Bool :=
  match e with
  | .comment _ | .pi _ | .decl _ | .docType _ => true
  | .text s => s.all isUnicodeWs
  | _ => false

/-- The driver ignores the leftover event, whatever the deserializer allows. -/
def Quiet (e : Event) (ev : DEvent) : Prop :=
  ev = .none ∨ (Padding e = true ∧ (ev = .brk e ∨ ev = .cont e))

theorem leftover_quiet {e : Event} {ev : DEvent} (q : Quiet e ev) (a : Bool) :
    leftover none ev.event a = some none := by
  rcases q with rfl | ⟨hp, rfl | rfl⟩
  · rfl
  all_goals
    cases e with
    | text s =>
      simp only [Padding] at hp
      cases a
      · simp [DEvent.event, leftover, hp]
      · rfl
    | _ => first | rfl | (simp [Padding] at hp; done)

/-! ## Reading a whole element -/

/-- Fed with the events `evs` one by one (the helper following them), the deserializer, in
state `st` (`none`: not yet initialised), consumes all of them, except for padding that it
leaves to the driver, and returns the value `v` exactly at the last one. -/
inductive Feeds (track : H → Event → H) (d : GDe H C V) :
    Option C → H → List Event → V → Prop
  | last {st h e v a} (hc : d.call st (track h e) e = .ok ⟨.data v, .none, a⟩) :
      Feeds track d st h [e] v
  | step {st h e es v c ev a} (hc : d.call st (track h e) e = .ok ⟨.deser c, ev, a⟩)
      (hq : Quiet e ev) (rest : Feeds track d (some c) (track h e) es v) :
      Feeds track d st h (e :: es) v

/-- What is fed successfully is read by the driver: it returns the value and stops right
after the last event. -/
theorem Feeds.run {track : H → Event → H} {d : GDe H C V} {st : Option C} {h : H}
    {evs : List Event} {v : V} (f : Feeds track d st h evs v) (rest : List Event) :
    Drv.run (genEnv track) d.toDeser { helper := h, deser := st } (evs ++ rest)
      = .done v rest := by
  induction f with
  | @last st h e v a hc =>
    have : callDeser d.toDeser st (track h e) e = .ok (⟨.data v, .none, a⟩, track h e) := by
      cases st <;> simp only [GDe.call] at hc <;>
        simp [callDeser, GDe.toDeser, hc, Except.map]
    simp only [List.cons_append, List.nil_append, Drv.run, Drv.handleEvent, handleSkip, genEnv,
      this, DEvent.event, leftover, Artifact.dataOf]
  | @step st h e es v c ev a hc hq _ ih =>
    have : callDeser d.toDeser st (track h e) e = .ok (⟨.deser c, ev, a⟩, track h e) := by
      cases st <;> simp only [GDe.call] at hc <;>
        simp [callDeser, GDe.toDeser, hc, Except.map]
    have hl := leftover_quiet hq a
    simp only [List.cons_append, Drv.run, Drv.handleEvent, handleSkip, genEnv,
      this, hl, Artifact.dataOf, Artifact.deserOf]
    exact ih

/-! ## `ElementHandlerOutput` -/

/-- `ElementHandlerOutput`, types deserialize.rs:107-127. -/
inductive EHO where
  | cont (e : Event) (any : Bool)
  | brk (e : DEvent) (any : Bool)
deriving DecidableEq, Repr

/-- `DeserializerEvent::into_break`, deserialize.rs:336-344. -/
def intoBreak : DEvent → DEvent
  | .cont e => .brk e
  | e => e

/-- `return_to_root`, deserialize.rs:151-153. -/
def EHO.toRoot (e : DEvent) (any : Bool) : EHO := .brk (intoBreak e) any

/-- `return_to_parent`, deserialize.rs:144-146. -/
def EHO.toParent (e : Event) (any : Bool) : EHO := .brk (.cont e) any

/-- `from_event`, deserialize.rs:159-166. -/
def EHO.fromEvent (e : DEvent) (any : Bool) : EHO :=
  match e with
  | .cont (.start t) => .cont (.start t) any
  | .cont (.empty t) => .cont (.empty t) any
  | .cont (.end_ n) => .cont (.end_ n) any
  | e => .brk e any

/-- `from_event_end`, deserialize.rs:171-177. -/
def EHO.fromEventEnd (e : DEvent) (any : Bool) : EHO :=
  match e with
  | .cont (.end_ n) => .cont (.end_ n) any
  | .cont e => .toParent e any
  | e => .brk e any

/-- `init_deserializer_from_start_event`, deserialize.rs:1038-1076: `f` builds the initial
state from the start tag. -/
def initFromStart (f : H → Tag → Except GErr C) (finish : C → H → Except GErr V)
    (h : H) (e : Event) : Except GErr (Output C V) :=
  match e with
  | .start t =>
    match f h t with
    | .error err => .error err
    | .ok c => .ok ⟨.deser c, .none, false⟩
  | .empty t =>
    match f h t with
    | .error err => .error err
    | .ok c =>
      match finish c h with
      | .error err => .error err
      | .ok v => .ok ⟨.data v, .none, false⟩
  | e => .ok ⟨.none, .cont e, false⟩

/-- `init_start_tag_deserializer`, deserialize.rs:919-938, with the name test
(`check_start_tag_name`, 893-903) as a parameter. -/
def initStartTag (want : H → Tag → Bool) (d : GDe H C V) (allowAny : Bool) (h : H) (e : Event) :
    Except GErr (Output C V) :=
  match tagOf e with
  | none => .ok ⟨.none, .cont e, allowAny⟩
  | some t => if want h t then d.init h e else .ok ⟨.none, .cont e, allowAny⟩

end

end Verif.Gen

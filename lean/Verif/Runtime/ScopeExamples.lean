import Verif.Runtime.Scope
import Verif.Gen.ChoiceExamples

/-!
# Values with the namespaces in scope: examples and a limit (C75)
-/

namespace Verif.Rt

open Verif.Gen Verif.Gen.Ex Verif.Occurs

/-- Generated deserializers only look at the helper. -/
theorem toDeser_onlyAsks {C V : Type} (g : GDe Helper C V) : OnlyAsks g.toDeser := by
  constructor
  · intro h e o h' hc
    simp only [GDe.toDeser] at hc
    cases hd : g.init h e with
    | error err => rw [hd] at hc; cases hc
    | ok r =>
      rw [hd] at hc
      simp only [Except.map, Except.ok.injEq] at hc
      cases hc
      exact .none h
  · intro s h e o h' hc
    simp only [GDe.toDeser] at hc
    cases hd : g.next s h e with
    | error err => rw [hd] at hc; cases hc
    | ok r =>
      rw [hd] at hc
      simp only [Except.map, Except.ok.injEq] at hc
      cases hc
      exact .none h

/-- A tag that declares the prefix `p`. -/
def nsTag (n p ns : Char) : Tag := ⟨[n], [⟨xmlnsStr ++ [':', p], [ns]⟩]⟩

/-- A simple type as element. -/
def textDe : GDe Helper Str Val :=
  simpleDe (fun _ => none) (.value 0) (fun _ s => .ok (.txt s))

/-- `choice(a{1..*})` as a group inside another type (not an element of its own). -/
def groupDe : GDe Helper (CPos Str Val Val) Val :=
  ({ alts := [{ name := ['a'], want := some (fun _ t => t.name == ['a']), min := 1,
                max := .unbounded, de := textDe }]
     isElement := false
     check := fun _ _ => .ok ()
     build := fun _ vs => .node [vs] } : EnumTy Helper Str Val Val).de

/-- The helper after the start tag of the element around the values below. -/
def inside : Helper := ({} : Helper).handleEvent (.start (nsTag 'r' 'p' '1'))

theorem inside_followed : Followed inside ⟨[nsTag 'r' 'p' '1'], false⟩ :=
  Followed.event .start rfl

/-- Calls of the deserializer for a list of events, the helper following them: the value
returned at the last event. -/
def reads {E V : Type} (d : Deser Helper E V) (st : Option d.S) (h : Helper) :
    List Event → Option V
  | [] => none
  | e :: es =>
    match callDeser d st (h.handleEvent e) e with
    | .error _ => none
    | .ok (⟨.none, _, _⟩, _) => none
    | .ok (⟨.data v, _, _⟩, _) => if es = [] then some v else none
    | .ok (⟨.deser s, _, _⟩, h') => reads d (some s) h' es

theorem reads_over {E V : Type} (d : Deser Helper E V) (es : List Event) (st : Option d.S)
    (h : Helper) (v : V) (hr : reads d st h es = some v) : ReadsOver d st h es v := by
  induction es generalizing st h with
  | nil => cases hr
  | cons e es ih =>
    simp only [reads] at hr
    split at hr
    · cases hr
    · cases hr
    · next hc =>
      split at hr
      · next hes =>
        cases hr
        subst hes
        exact .last (.none _) hc
      · cases hr
    · next hc => exact .step (.none _) hc (.none _) (ih _ _ hr)

/-- Non-vacuity of `C75_element_scope`: an element that declares one prefix anew and another
one, inside an element that declares the first. -/
example : ∃ v, ReadsOver (scopeDe textDe.toDeser) none inside
    (Node.elem (nsTag 'a' 'q' '2') (.cons (.leaf (.text ['x']) rfl) .nil)).events v ∧
    v.inner.beq (.txt ['x']) = true ∧ v.namespaces = [(['p'], ['1']), (['q'], ['2'])] := by
  have h : ∃ v, reads (scopeDe textDe.toDeser) none inside
      (Node.elem (nsTag 'a' 'q' '2') (.cons (.leaf (.text ['x']) rfl) .nil)).events = some v ∧
      v.inner.beq (.txt ['x']) = true ∧ v.namespaces = [(['p'], ['1']), (['q'], ['2'])] :=
    ⟨_, rfl, rfl, rfl⟩
  obtain ⟨v, h1, h2⟩ := h
  exact ⟨v, reads_over _ _ _ _ _ h1, h2⟩

/-- The events of `<a/>` followed by the start tag of the next child of the parent. -/
def lateEvents : List Event := [.empty (tag 'a'), .start (nsTag 'b' 'p' '9')]

/-- Calls for a list of events, then `finish` by the parent, as generated code does with a group
that hands an event back (deserialize.rs of the renderer, `finish_state`). -/
def finishes {E V : Type} (d : Deser Helper E V) (st : Option d.S) (h : Helper) :
    List Event → Option V
  | [] =>
    match st with
    | none => none
    | some s =>
      match d.finish s h with
      | .error _ => none
      | .ok v => some v
  | e :: es =>
    match callDeser d st (h.handleEvent e) e with
    | .ok (⟨.deser s, _, _⟩, h') => finishes d (some s) h' es
    | _ => none

/-- **C75, limit.** A group that is not an element of its own and has a repeated child gives its
value only when the event after its content arrives and the parent finishes it; wrapped, it is
kept with the namespaces of the *following* element: here the prefix `p` is recorded as `9`,
although it is bound to `1` at the content `<a/>` of the group and at the element around it. -/
theorem C75_group_gets_next_scope :
    ∃ v, finishes (scopeDe groupDe.toDeser) none inside lateEvents = some v ∧
      asMap v.namespaces ['p'] = some ['9'] ∧
      inScope ['p'] [tag 'a', nsTag 'r' 'p' '1'] = some ['1'] ∧
      inScope ['p'] [nsTag 'r' 'p' '1'] = some ['1'] := by
  have h : ((finishes (scopeDe groupDe.toDeser) none inside lateEvents).map fun v =>
      asMap v.namespaces ['p']) = some (some ['9']) := by decide +kernel
  obtain ⟨v, h1, h2⟩ := Option.map_eq_some_iff.mp h
  exact ⟨v, h1, h2, by decide, by decide⟩

/-- Non-vacuity of `C75_reads_like_inner` and `C75_attribute_scope`. -/
example :
    (match Drv.run (genEnv Helper.handleEvent) (scopeDe textDe.toDeser) { helper := inside }
        [.start (nsTag 'a' 'q' '2'), .text ['x'], .end_ ['a'], .eof] with
      | .done v rest => v.inner.beq (.txt ['x']) && decide (rest = [.eof])
      | _ => false) = true ∧
    (match scopedBytes (E := Unit) (fun h s => .ok (s, h))
        (inside.handleEvent (.empty (nsTag 'a' 'q' '2'))) ['v'] with
      | .ok (v, _) => decide (v = ⟨['v'], [(['p'], ['1']), (['q'], ['2'])]⟩)
      | _ => false) = true := by
  decide +kernel

end Verif.Rt

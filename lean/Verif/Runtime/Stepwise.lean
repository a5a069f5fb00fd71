import Verif.Runtime.Text
import Verif.Runtime.Serializer
import Verif.Runtime.ErrorPath

/-!
# Serializers with loops (C14)

Most implementations of `Serializer::next` (xsd-parser-types/src/quick_xml/serialize.rs 42-51)
are a `loop` over a state machine: some transitions return an event, others only change the
state and `continue`. Here one *iteration* of the loop is modelled; a serializer that drives
another one takes the iterations of the inner loop as iterations of its own loop, which does
not change what is returned.
-/

namespace Verif.Rt

/-- What one iteration of the loop of `next` does: return an event (`Some(Ok(event))`), go
around the loop again, return an error (`Some(Err(..))`) or report the end (`None`). -/
inductive SOut (S E : Type) where
  | emit (ev : Event) (s : S)
  | again (s : S)
  | fail (err : E)
  | done

/-- The trait `Serializer`, serialize.rs:42-51, by iterations of `next`. -/
structure Zer (S E : Type) where
  step : S → SerHelper → SOut S E × SerHelper

variable {S E : Type}

/-- `SerializeImpl` (serialize.rs:951-1003) writes what the serializer returns until it reports
its end: the events written from state `s` and helper `h` on, and the helper at the end. -/
inductive Zer.Emits (z : Zer S E) : S → SerHelper → List Event → SerHelper → Prop
  | done {s h h'} (hn : z.step s h = (.done, h')) : Emits z s h [] h'
  | emit {s h ev s' h' evs h''} (hn : z.step s h = (.emit ev s', h'))
      (rest : Emits z s' h' evs h'') : Emits z s h (ev :: evs) h''
  | again {s h s' h' evs h''} (hn : z.step s h = (.again s', h'))
      (rest : Emits z s' h' evs h'') : Emits z s h evs h''

/-- The serializer returns an error after it has written some events. -/
inductive Zer.Fails (z : Zer S E) : S → SerHelper → List Event → Prop
  | fail {s h err h'} (hn : z.step s h = (.fail err, h')) : Fails z s h []
  | emit {s h ev s' h' evs} (hn : z.step s h = (.emit ev s', h')) (rest : Fails z s' h' evs) :
      Fails z s h (ev :: evs)
  | again {s h s' h' evs} (hn : z.step s h = (.again s', h')) (rest : Fails z s' h' evs) :
      Fails z s h evs

/-- A part of a run. -/
inductive Zer.Steps (z : Zer S E) : S → SerHelper → List Event → S → SerHelper → Prop
  | refl {s h} : Steps z s h [] s h
  | emit {s h ev s' h' evs s'' h''} (hn : z.step s h = (.emit ev s', h'))
      (rest : Steps z s' h' evs s'' h'') : Steps z s h (ev :: evs) s'' h''
  | again {s h s' h' evs s'' h''} (hn : z.step s h = (.again s', h'))
      (rest : Steps z s' h' evs s'' h'') : Steps z s h evs s'' h''

/-- The output is unique, and there is none if there is an error. -/
theorem Zer.Emits.unique {z : Zer S E} {s : S} {h h1 h2 : SerHelper} {es1 es2 : List Event}
    (a : z.Emits s h es1 h1) (b : z.Emits s h es2 h2) : es1 = es2 ∧ h1 = h2 := by
  induction a generalizing es2 h2 with
  | done hn =>
    cases b with
    | done hn' => rw [hn] at hn'; cases hn'; exact ⟨rfl, rfl⟩
    | emit hn' _ => rw [hn] at hn'; cases hn'
    | again hn' _ => rw [hn] at hn'; cases hn'
  | emit hn _ ih =>
    cases b with
    | done hn' => rw [hn] at hn'; cases hn'
    | emit hn' r' =>
      rw [hn] at hn'; cases hn'
      obtain ⟨h1, h2⟩ := ih r'
      exact ⟨by rw [h1], h2⟩
    | again hn' _ => rw [hn] at hn'; cases hn'
  | again hn _ ih =>
    cases b with
    | done hn' => rw [hn] at hn'; cases hn'
    | emit hn' _ => rw [hn] at hn'; cases hn'
    | again hn' r' => rw [hn] at hn'; cases hn'; exact ih r'

theorem Zer.Emits.not_fails {z : Zer S E} {s : S} {h h1 : SerHelper} {es : List Event}
    (a : z.Emits s h es h1) (es2 : List Event) : ¬ z.Fails s h es2 := by
  induction a generalizing es2 with
  | done hn => intro f; cases f with
    | fail hn' => rw [hn] at hn'; cases hn'
    | emit hn' _ => rw [hn] at hn'; cases hn'
    | again hn' _ => rw [hn] at hn'; cases hn'
  | emit hn _ ih => intro f; cases f with
    | fail hn' => rw [hn] at hn'; cases hn'
    | emit hn' r => rw [hn] at hn'; cases hn'; exact ih _ r
    | again hn' _ => rw [hn] at hn'; cases hn'
  | again hn _ ih => intro f; cases f with
    | fail hn' => rw [hn] at hn'; cases hn'
    | emit hn' _ => rw [hn] at hn'; cases hn'
    | again hn' r => rw [hn] at hn'; cases hn'; exact ih _ r

namespace Zer.Steps

theorem trans {z : Zer S E} {s1 s2 s3 : S} {h1 h2 h3 : SerHelper} {xs ys : List Event}
    (a : z.Steps s1 h1 xs s2 h2) (b : z.Steps s2 h2 ys s3 h3) :
    z.Steps s1 h1 (xs ++ ys) s3 h3 := by
  induction a with
  | refl => exact b
  | emit hn _ ih => exact .emit hn (ih b)
  | again hn _ ih => exact .again hn (ih b)

theorem emits {z : Zer S E} {s1 s2 : S} {h1 h2 h3 : SerHelper} {xs ys : List Event}
    (a : z.Steps s1 h1 xs s2 h2) (b : z.Emits s2 h2 ys h3) : z.Emits s1 h1 (xs ++ ys) h3 := by
  induction a with
  | refl => exact b
  | emit hn _ ih => exact .emit hn (ih b)
  | again hn _ ih => exact .again hn (ih b)

theorem fails {z : Zer S E} {s1 s2 : S} {h1 h2 : SerHelper} {xs ys : List Event}
    (a : z.Steps s1 h1 xs s2 h2) (b : z.Fails s2 h2 ys) : z.Fails s1 h1 (xs ++ ys) := by
  induction a with
  | refl => exact b
  | emit hn _ ih => exact .emit hn (ih b)
  | again hn _ ih => exact .again hn (ih b)

theorem one {z : Zer S E} {s s' : S} {h h' : SerHelper} {ev : Event}
    (hn : z.step s h = (.emit ev s', h')) : z.Steps s h [ev] s' h' := .emit hn .refl

theorem silent {z : Zer S E} {s s' : S} {h h' : SerHelper}
    (hn : z.step s h = (.again s', h')) : z.Steps s h [] s' h' := .again hn .refl

end Zer.Steps

/-- An outer serializer that passes on what an inner one does, as long as the inner one is not
at its end. -/
theorem Zer.lift {S' : Type} {z : Zer S E} {z' : Zer S' E} {f : S → S'}
    (he : ∀ s h ev s1 h1, z.step s h = (.emit ev s1, h1) → z'.step (f s) h = (.emit ev (f s1), h1))
    (ha : ∀ s h s1 h1, z.step s h = (.again s1, h1) → z'.step (f s) h = (.again (f s1), h1))
    {s : S} {h h' : SerHelper} {evs : List Event} (r : z.Emits s h evs h') :
    ∃ s1 h1, z'.Steps (f s) h evs (f s1) h1 ∧ z.step s1 h1 = (.done, h') := by
  induction r with
  | done hn => exact ⟨_, _, .refl, hn⟩
  | emit hn _ ih =>
    obtain ⟨s1, h1, a, b⟩ := ih
    exact ⟨s1, h1, .emit (he _ _ _ _ _ hn) a, b⟩
  | again hn _ ih =>
    obtain ⟨s1, h1, a, b⟩ := ih
    exact ⟨s1, h1, .again (ha _ _ _ _ hn) a, b⟩

theorem Zer.lift_fails {S' : Type} {z : Zer S E} {z' : Zer S' E} {f : S → S'}
    (he : ∀ s h ev s1 h1, z.step s h = (.emit ev s1, h1) → z'.step (f s) h = (.emit ev (f s1), h1))
    (ha : ∀ s h s1 h1, z.step s h = (.again s1, h1) → z'.step (f s) h = (.again (f s1), h1))
    (hf : ∀ s h err h1, z.step s h = (.fail err, h1) → z'.step (f s) h = (.fail err, h1))
    {s : S} {h : SerHelper} {evs : List Event} (r : z.Fails s h evs) :
    z'.Fails (f s) h evs := by
  induction r with
  | fail hn => exact .fail (hf _ _ _ _ hn)
  | emit hn _ ih => exact .emit (he _ _ _ _ _ hn) ih
  | again hn _ ih => exact .again (ha _ _ _ _ hn) ih

/-! ## Specification -/

/-- The number of open elements after some events, `none` if more are closed than were open. -/
def depthAfter : Nat → List Event → Option Nat
  | d, [] => some d
  | d, .start _ :: es => depthAfter (d + 1) es
  | d, .end_ _ :: es => if d = 0 then none else depthAfter (d - 1) es
  | d, _ :: es => depthAfter d es

/-- **Specification** (C14). Started in any helper, the serializer comes to an end: either it
reports an error, having closed only what it had opened, or what it has written is well-nested
and the helper is exactly what it was before. -/
def Zer.Balanced (z : Zer S E) (s : S) : Prop :=
  ∀ h : SerHelper, h.Ok →
    (∃ ns : Nodes, z.Emits s h ns.events h) ∨
    ∃ evs, z.Fails s h evs ∧ (depthAfter 0 evs).isSome = true

/-- What `Balanced` says about a successful run. -/
theorem Zer.Balanced.emits {z : Zer S E} {s : S} (b : z.Balanced s) {h h' : SerHelper}
    {evs : List Event} (ok : h.Ok) (r : z.Emits s h evs h') :
    (∃ ns : Nodes, evs = ns.events) ∧ h' = h := by
  rcases b h ok with ⟨ns, r'⟩ | ⟨evs', f, _⟩
  · obtain ⟨e1, e2⟩ := r.unique r'
    exact ⟨⟨ns, e1⟩, e2⟩
  · exact absurd f (r.not_fails _)

mutual

theorem depthAfter_node (n : Node) (d : Nat) (rest : List Event) :
    depthAfter d (n.events ++ rest) = depthAfter d rest := by
  match n with
  | .elem t ch =>
    simp only [Node.events, List.cons_append, List.append_assoc, List.nil_append, depthAfter]
    rw [depthAfter_nodes ch (d + 1)]
    simp only [depthAfter]
    rw [if_neg (by omega)]
    simp
  | .emptyElem t => simp [Node.events, depthAfter]
  | .leaf (.start _) he => simp [Event.isLeaf] at he
  | .leaf (.end_ _) he => simp [Event.isLeaf] at he
  | .leaf (.empty _) he => simp [Event.isLeaf] at he
  | .leaf .eof he => simp [Event.isLeaf] at he
  | .leaf (.text _) he | .leaf (.cdata _) he | .leaf (.ref _) he | .leaf (.comment _) he
  | .leaf (.pi _) he | .leaf (.decl _) he | .leaf (.docType _) he =>
    simp [Node.events, depthAfter]

theorem depthAfter_nodes (ns : Nodes) (d : Nat) (rest : List Event) :
    depthAfter d (ns.events ++ rest) = depthAfter d rest := by
  match ns with
  | .nil => simp [Nodes.events]
  | .cons n ns =>
    simp only [Nodes.events, List.append_assoc]
    rw [depthAfter_node n d, depthAfter_nodes ns d]

end

theorem depthAfter_add {d d' : Nat} {evs : List Event} (h : depthAfter d evs = some d') (k : Nat) :
    depthAfter (d + k) evs = some (d' + k) := by
  induction evs generalizing d with
  | nil => simp only [depthAfter, Option.some.injEq] at h ⊢; omega
  | cons e es ih =>
    cases e with
    | start t =>
      have := ih (d := d + 1) h
      simp only [depthAfter]
      rw [show d + k + 1 = d + 1 + k by omega]; exact this
    | end_ n =>
      simp only [depthAfter] at h ⊢
      by_cases h0 : d = 0
      · rw [if_pos h0] at h; cases h
      · rw [if_neg h0] at h
        rw [if_neg (by omega), show d + k - 1 = d - 1 + k by omega]
        exact ih h
    | _ => exact ih (d := d) h

theorem Nodes.append_events (a b : Nodes) : (a.append b).events = a.events ++ b.events := by
  match a with
  | .nil => rfl
  | .cons n ns =>
    have := Nodes.append_events ns b
    simp [Nodes.append, Nodes.events, this]

/-- One element with content. -/
def Nodes.one (t : Tag) (ch : Nodes) : Nodes := .cons (.elem t ch) .nil

theorem Nodes.one_events (t : Tag) (ch : Nodes) :
    (Nodes.one t ch).events = .start t :: (ch.events ++ [.end_ t.name]) := by
  simp [Nodes.one, Nodes.events, Node.events]

/-- One element without content. -/
def Nodes.oneEmpty (t : Tag) : Nodes := .cons (.emptyElem t) .nil

theorem Nodes.oneEmpty_events (t : Tag) : (Nodes.oneEmpty t).events = [.empty t] := by
  simp [Nodes.oneEmpty, Nodes.events, Node.events]

/-- A text. -/
def Nodes.oneText (s : Str) : Nodes := .cons (.leaf (.text s) rfl) .nil

theorem Nodes.oneText_events (s : Str) : (Nodes.oneText s).events = [.text s] := by
  simp [Nodes.oneText, Nodes.events, Node.events]

/-! ## Elements -/

/-- A serializer that writes one element: an error, or an empty tag and nothing more, or a
start tag, content that is balanced whatever helper it is written with, and the end tag,
closing the scope again if the start tag has opened one (`sc`). Other serializers may
change the helper between the start tag and the content. -/
def Zer.ElementLike (z : Zer S E) (s : S) : Prop :=
  ∀ h : SerHelper, h.Ok →
    z.Fails s h [] ∨
    (∃ t s0 h0 s1, z.Steps s h [] s0 h0 ∧ z.step s0 h0 = (.emit (.empty t) s1, h) ∧
      ∀ h2, z.Emits s1 h2 [] h2) ∨
    ∃ t s0 h0 s1 h1, ∃ sc : Bool, z.Steps s h [] s0 h0 ∧
      z.step s0 h0 = (.emit (.start t) s1, h1) ∧
      (if sc = true then InnerOf h h1 else h1 = h) ∧
      ∀ h2 : SerHelper, h2.Ok →
        (∃ evs, z.Fails s1 h2 evs ∧ (depthAfter 0 evs).isSome = true) ∨
        ∃ body : Nodes, ∃ s2 s3, z.Steps s1 h2 body.events s2 h2 ∧
          z.step s2 h2 = (.emit (.end_ t.name) s3, if sc = true then h2.endScope else h2) ∧
          ∀ h3, z.Emits s3 h3 [] h3

theorem Zer.ElementLike.balanced {z : Zer S E} {s : S} (e : z.ElementLike s) : z.Balanced s := by
  intro h ok
  rcases e h ok with f | ⟨t, s0, h0, s1, a0, a, b⟩ | ⟨t, s0, h0, s1, h1, sc, a0, a, hsc, b⟩
  · exact Or.inr ⟨[], f, rfl⟩
  · exact Or.inl ⟨Nodes.oneEmpty t, by rw [Nodes.oneEmpty_events]; exact a0.emits (.emit a (b h))⟩
  · have ok1 : h1.Ok := by
      cases sc with
      | true => exact innerOf_ok ok hsc
      | false => rw [show h1 = h from hsc]; exact ok
    rcases b h1 ok1 with ⟨evs, f, hd⟩ | ⟨body, s2, s3, c, d, fin⟩
    · refine Or.inr ⟨_, a0.fails (.emit a f), ?_⟩
      obtain ⟨d', hd'⟩ := Option.isSome_iff_exists.mp hd
      have := depthAfter_add hd' 1
      simp only [List.nil_append, depthAfter, Nat.zero_add]
      rw [Nat.zero_add] at this
      rw [this]; rfl
    · left
      refine ⟨Nodes.one t body, ?_⟩
      rw [Nodes.one_events]
      have hh : (if sc = true then h1.endScope else h1) = h := by
        cases sc with
        | true => exact innerOf_end ok hsc
        | false => exact hsc
      rw [hh] at d
      exact a0.emits (.emit a (c.emits (.emit d (fin h))))

end Verif.Rt

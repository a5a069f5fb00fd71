import Verif.Runtime.Namespaces
import Verif.Runtime.Driver

/-!
# Values with the namespaces in scope (C75)

`NamespaceScope<T>` (xsd-parser-types/src/xml/namespace_scope.rs) wraps any type of the user
and keeps, beside the value, the namespaces that were in scope when it was read. Its
deserializer forwards everything to the one of the wrapped type and asks the helper for the
namespaces when that one returns a value.

The wrapped type is arbitrary: any deserializer that changes the helper only by asking it for
namespaces (nothing else in the interface of the helper changes it).
-/

namespace Verif.Rt

/-! ## The wrapper -/

/-- `NamespaceScope<T>`, namespace_scope.rs:23-30. `into_inner`, `Deref`, `PartialEq`, `Ord`
and `Hash` (32-80) look at `inner` only. -/
structure InScopeOf (V : Type) where
  inner : V
  namespaces : List Binding
deriving DecidableEq, Repr

section
variable {E V : Type}

/-- `NamespaceScopeDeserializer::map_output`, namespace_scope.rs:168-195. The intermediate
deserializer of the wrapper only holds the one of the inner type, it is represented by it. -/
def scopeOutput {S : Type} (o : Output S V) (h : Helper) : Output S (InScopeOf V) × Helper :=
  match o.artifact with
  | .none => (⟨.none, o.event, o.allowAny⟩, h)
  | .data v => (⟨.data ⟨v, h.askNamespaces.1⟩, o.event, o.allowAny⟩, h.askNamespaces.2)
  | .deser s => (⟨.deser s, o.event, o.allowAny⟩, h)

/-- `Deserializer for NamespaceScopeDeserializer`, namespace_scope.rs:199-229. -/
def scopeDe (d : Deser Helper E V) : Deser Helper E (InScopeOf V) where
  S := d.S
  init := fun h e =>
    match d.init h e with
    | .error err => .error err
    | .ok (o, h) => .ok (scopeOutput o h)
  next := fun s h e =>
    match d.next s h e with
    | .error err => .error err
    | .ok (o, h) => .ok (scopeOutput o h)
  finish := fun s h =>
    match d.finish s h with
    | .error err => .error err
    | .ok v => .ok ⟨v, h.askNamespaces.1⟩

/-- `DeserializeBytes for NamespaceScope`, namespace_scope.rs:103-125, `deserialize_bytes` and
`deserialize_str` alike: used for attribute values and simple content. -/
def scopedBytes (read : Helper → Str → Except E (V × Helper)) (h : Helper) (s : Str) :
    Except E (InScopeOf V × Helper) :=
  match read h s with
  | .error err => .error err
  | .ok (v, h) => .ok (⟨v, h.askNamespaces.1⟩, h.askNamespaces.2)

/-! ## Specification -/

/-- `h'` is `h` after being asked for its namespaces a number of times. -/
inductive Asked : Helper → Helper → Prop
  | none (h) : Asked h h
  | ask {h h'} (a : Asked h h') : Asked h h'.askNamespaces.2

/-- The helper has followed a well-nested part of a document (and was asked for namespaces in
between); `p` is the position reached: the open elements, innermost first, the innermost one
possibly just closed. -/
inductive Followed : Helper → Pos → Prop
  | start : Followed {} {}
  | event {h p e q} (f : Followed h p) (hq : p.after e = some q) :
      Followed (h.handleEvent e) q
  | ask {h p} (f : Followed h p) : Followed h.askNamespaces.2 p

/-- A deserializer that changes the helper at most by asking it. -/
structure OnlyAsks (d : Deser Helper E V) : Prop where
  init : ∀ h e o h', d.init h e = .ok (o, h') → Asked h h'
  next : ∀ s h e o h', d.next s h e = .ok (o, h') → Asked h h'

/-- The deserializer `d` in state `st` is given the events `es` one by one, the helper
following them; between the calls others may ask the helper. At the last event it returns the
value `v`. -/
inductive ReadsOver (d : Deser Helper E V) : Option d.S → Helper → List Event → V → Prop
  | last {st h e h₁ v ev a h₂} (ha : Asked (h.handleEvent e) h₁)
      (hc : callDeser d st h₁ e = .ok (⟨.data v, ev, a⟩, h₂)) : ReadsOver d st h [e] v
  | step {st h e es h₁ s ev a h₂ h₃ v} (ha : Asked (h.handleEvent e) h₁)
      (hc : callDeser d st h₁ e = .ok (⟨.deser s, ev, a⟩, h₂)) (hb : Asked h₂ h₃)
      (rest : ReadsOver d (some s) h₃ es v) : ReadsOver d st h (e :: es) v

/-- The events lead from the position `p` to `q`. -/
def Pos.afterAll (p : Pos) : List Event → Option Pos
  | [] => some p
  | e :: es => (p.after e).bind fun q => q.afterAll es

/-- The elements that are open for the next event. -/
def Pos.open_ (p : Pos) : List Tag := if p.closing then p.opened.tail else p.opened

/-! ## Proofs -/

theorem Followed.asked {h h' : Helper} {p : Pos} (f : Followed h p) (a : Asked h h') :
    Followed h' p := by
  induction a with
  | none => exact f
  | ask _ ih => exact ih.ask

theorem Followed.agrees {h : Helper} {p : Pos} (f : Followed h p) : Agrees h p := by
  induction f with
  | start => exact agrees_init
  | event _ hq ih => exact agrees_after ih hq
  | ask _ ih => exact (agrees_ask ih).2

theorem Followed.answer {h : Helper} {p : Pos} (f : Followed h p) :
    asMap h.askNamespaces.1 = fun pre => inScope pre p.opened := by
  rw [(agrees_ask f.agrees).1]
  funext pre
  exact visible_inScope pre p.opened

theorem OnlyAsks.call {d : Deser Helper E V} (o : OnlyAsks d) {st : Option d.S} {h : Helper}
    {e : Event} {out h'} (hc : callDeser d st h e = .ok (out, h')) : Asked h h' := by
  cases st with
  | none => exact o.init _ _ _ _ hc
  | some s => exact o.next _ _ _ _ _ hc

theorem scopeDe_call (d : Deser Helper E V) (st : Option d.S) (h : Helper) (e : Event) :
    callDeser (scopeDe d) st h e =
      match callDeser d st h e with
      | .error err => .error err
      | .ok (o, h) => .ok (scopeOutput o h) := by
  cases st <;> rfl

theorem scopeOutput_asked {S : Type} (o : Output S V) (h : Helper) :
    Asked h (scopeOutput o h).2 := by
  unfold scopeOutput
  split
  · exact .none h
  · exact .ask (.none h)
  · exact .none h

/-- Wrapping keeps the discipline of the helper, so wrappers may be nested. -/
theorem C75_wrapper_only_asks (d : Deser Helper E V) (o : OnlyAsks d) : OnlyAsks (scopeDe d) := by
  have trans : ∀ {a b c : Helper}, Asked a b → Asked b c → Asked a c := by
    intro a b c h1 h2
    induction h2 with
    | none => exact h1
    | ask _ ih => exact ih.ask
  constructor
  · intro h e out h' hc
    simp only [scopeDe] at hc
    cases hd : d.init h e with
    | error err => rw [hd] at hc; cases hc
    | ok r =>
      obtain ⟨o1, h1⟩ := r
      rw [hd] at hc
      simp only [Except.ok.injEq] at hc
      have := scopeOutput_asked o1 h1
      rw [hc] at this
      exact trans (o.init _ _ _ _ hd) this
  · intro s h e out h' hc
    simp only [scopeDe] at hc
    cases hd : d.next s h e with
    | error err => rw [hd] at hc; cases hc
    | ok r =>
      obtain ⟨o1, h1⟩ := r
      rw [hd] at hc
      simp only [Except.ok.injEq] at hc
      have := scopeOutput_asked o1 h1
      rw [hc] at this
      exact trans (o.next _ _ _ _ _ hd) this

/-- What is read at the last of a list of events, for any deserializer `D` whose values hold
(`N`) an answer of the helper. -/
theorem readsOver_answer {W : Type} (D : Deser Helper E W) (oD : OnlyAsks D)
    (N : W → List Binding)
    (hN : ∀ st h e w ev a h', callDeser D st h e = .ok (⟨.data w, ev, a⟩, h') →
      ∃ h₁, Asked h h₁ ∧ N w = h₁.askNamespaces.1)
    {st : Option D.S} {h : Helper} {es : List Event} {w : W} (r : ReadsOver D st h es w) :
    ∀ {p q : Pos}, Followed h p → p.afterAll es = some q →
      asMap (N w) = fun pre => inScope pre q.opened := by
  induction r with
  | last ha hc =>
    rename_i st h e h₁ v ev a h₂
    intro p q f hq
    simp only [Pos.afterAll] at hq
    cases hp : p.after e with
    | none => rw [hp] at hq; cases hq
    | some q' =>
      rw [hp] at hq
      simp only [Option.bind_some, Option.some.injEq] at hq
      subst hq
      obtain ⟨h3, a3, e3⟩ := hN _ _ _ _ _ _ _ hc
      rw [e3]
      exact (((f.event hp).asked ha).asked a3).answer
  | step ha hc hb _ ih =>
    rename_i st h e es h₁ s ev a h₂ h₃ v _
    intro p q f hq
    simp only [Pos.afterAll] at hq
    cases hp : p.after e with
    | none => rw [hp] at hq; cases hq
    | some q' =>
      rw [hp] at hq
      simp only [Option.bind_some] at hq
      exact ih ((((f.event hp).asked ha).asked (oD.call hc)).asked hb) hq

theorem scopeDe_holds_answer (d : Deser Helper E V) (o : OnlyAsks d) (st : Option d.S)
    (h : Helper) (e : Event) (w : InScopeOf V) (ev : DEvent) (a : Bool) (h' : Helper)
    (hc : callDeser (scopeDe d) st h e = .ok (⟨.data w, ev, a⟩, h')) :
    ∃ h₁, Asked h h₁ ∧ w.namespaces = h₁.askNamespaces.1 := by
  rw [scopeDe_call] at hc
  cases hd : callDeser d st h e with
  | error err => rw [hd] at hc; cases hc
  | ok r =>
    obtain ⟨⟨art, ev', al⟩, h3⟩ := r
    rw [hd] at hc
    refine ⟨h3, o.call hd, ?_⟩
    cases art with
    | none => simp [scopeOutput] at hc
    | deser s => simp [scopeOutput] at hc
    | data w' =>
      simp only [scopeOutput, Except.ok.injEq, Prod.mk.injEq, Output.mk.injEq,
        Artifact.data.injEq] at hc
      obtain ⟨⟨rfl, -⟩, -⟩ := hc
      rfl

/-- **C75 (the scope recorded).** Whatever part of a document the helper has followed, if the
wrapped type returns its value at the last of the events `es`, then the namespaces kept beside
the value are exactly those in scope at that event. -/
theorem C75_scope_at_last_event (d : Deser Helper E V) (o : OnlyAsks d) {st : Option d.S}
    {h : Helper} {es : List Event} {v : InScopeOf V} (r : ReadsOver (scopeDe d) st h es v)
    {p q : Pos} (f : Followed h p) (hq : p.afterAll es = some q) :
    asMap v.namespaces = fun pre => inScope pre q.opened :=
  readsOver_answer (scopeDe d) (C75_wrapper_only_asks d o) InScopeOf.namespaces
    (scopeDe_holds_answer d o) r f hq

mutual

/-- After the events of a node nothing more is open than before. -/
theorem afterAll_node (n : Node) (p : Pos) (es : List Event) :
    ∃ q : Pos, q.open_ = p.open_ ∧ p.afterAll (n.events ++ es) = q.afterAll es ∧
      (∀ t ch, n = .elem t ch → q = ⟨t :: p.open_, true⟩) ∧
      (∀ t, n = .emptyElem t → q = ⟨t :: p.open_, true⟩) := by
  match n with
  | .elem t ch =>
    obtain ⟨q, h1, h2⟩ := afterAll_nodes ch ⟨t :: p.open_, false⟩ (.end_ t.name :: es)
    have h1' : q.open_ = t :: p.open_ := by rw [h1]; rfl
    refine ⟨⟨t :: p.open_, true⟩, rfl, ?_, ?_, by simp⟩
    · simp only [Node.events, List.cons_append, List.append_assoc, List.nil_append, Pos.afterAll]
      have : p.after (.start t) = some ⟨t :: p.open_, false⟩ := rfl
      rw [this, Option.bind_some, h2]
      simp only [Pos.afterAll]
      have : q.after (.end_ t.name) = some ⟨t :: p.open_, true⟩ := by
        have e1 : q.after (.end_ t.name) = if q.open_ = [] then none else some ⟨q.open_, true⟩ :=
          rfl
        rw [e1, h1']
        simp
      rw [this, Option.bind_some]
    · intro t' ch' h
      cases h
      rfl
  | .emptyElem t =>
    refine ⟨⟨t :: p.open_, true⟩, rfl, rfl, by simp, ?_⟩
    intro t' h
    cases h
    rfl
  | .leaf e he =>
    refine ⟨⟨p.open_, false⟩, rfl, ?_, by simp, by simp⟩
    cases e <;> first | rfl | (simp [Event.isLeaf] at he)

theorem afterAll_nodes (ns : Nodes) (p : Pos) (es : List Event) :
    ∃ q : Pos, q.open_ = p.open_ ∧ p.afterAll (ns.events ++ es) = q.afterAll es := by
  match ns with
  | .nil => exact ⟨p, rfl, rfl⟩
  | .cons n ns =>
    obtain ⟨q, h1, h2, -⟩ := afterAll_node n p (ns.events ++ es)
    obtain ⟨q', h3, h4⟩ := afterAll_nodes ns q es
    refine ⟨q', h3.trans h1, ?_⟩
    simp only [Nodes.events, List.append_assoc]
    rw [h2, h4]

end

/-- **C75 (elements).** A value of a wrapped type that is read from an element — from its start
tag to its end tag, or from an empty tag —, at any place of a document, is kept with exactly the
namespaces in scope at that element: its own declarations and those of the elements around it,
whatever is declared inside the element or before it. -/
theorem C75_element_scope (d : Deser Helper E V) (o : OnlyAsks d) {h : Helper} {p : Pos}
    (f : Followed h p) (t : Tag) (n : Node) (hn : n = .emptyElem t ∨ ∃ ch, n = .elem t ch)
    {v : InScopeOf V} (r : ReadsOver (scopeDe d) none h n.events v) :
    asMap v.namespaces = fun pre => inScope pre (t :: p.open_) := by
  obtain ⟨q, -, h2, h3, h4⟩ := afterAll_node n p []
  rw [List.append_nil] at h2
  have hq : q = ⟨t :: p.open_, true⟩ := by
    rcases hn with rfl | ⟨ch, rfl⟩
    · exact h4 t rfl
    · exact h3 t ch rfl
  have := C75_scope_at_last_event d o r f (q := q) h2
  rw [hq] at this
  exact this

/-- **C75 (attributes).** An attribute value of a wrapped type, read while the start tag of its
element is handled, is kept with the namespaces in scope at that element. -/
theorem C75_attribute_scope (read : Helper → Str → Except E (V × Helper))
    (ho : ∀ h s v h', read h s = .ok (v, h') → Asked h h') {h h₁ h₂ : Helper} {p : Pos}
    (f : Followed h p) (t : Tag) (e : Event) (he : e = .start t ∨ e = .empty t)
    (ha : Asked (h.handleEvent e) h₁) (s : Str) {v : InScopeOf V}
    (hr : scopedBytes read h₁ s = .ok (v, h₂)) :
    asMap v.namespaces = fun pre => inScope pre (t :: p.open_) := by
  have hp : ∃ b, p.after e = some ⟨t :: p.open_, b⟩ := by
    rcases he with rfl | rfl
    · exact ⟨false, rfl⟩
    · exact ⟨true, rfl⟩
  obtain ⟨b, hp⟩ := hp
  have f1 := (f.event hp).asked ha
  unfold scopedBytes at hr
  cases hd : read h₁ s with
  | error err => rw [hd] at hr; cases hr
  | ok x =>
    obtain ⟨w, h3⟩ := x
    rw [hd] at hr
    simp only [Except.ok.injEq, Prod.mk.injEq] at hr
    obtain ⟨rfl, -⟩ := hr
    exact (f1.asked (ho _ _ _ _ hd)).answer

/-! ## Transparency -/

/-- What a run says about the inner value. -/
def Run.inner {S : Type} : Run Helper S E (InScopeOf V) → Run Helper S E V
  | .done v rest => .done v.inner rest
  | .fail e rest => .fail e rest
  | .more st => .more st

/-- **C75 (transparency).** Reading a wrapped type accepts the same documents, returns the same
inner value, reads the same events and fails with the same errors as reading the type itself. -/
theorem C75_reads_like_inner (env : Env Helper E) (d : Deser Helper E V) (st : Drv Helper d.S)
    (es : List Event) :
    (Drv.run env (scopeDe d) st es).inner = Drv.run env d st es := by
  induction es generalizing st with
  | nil => rfl
  | cons e es ih =>
    simp only [Drv.run]
    simp only [Drv.handleEvent]
    cases hs : handleSkip st.skip e with
    | mk sk oe =>
      cases oe with
      | none => exact ih _
      | some e' =>
        simp only []
        have hcall := scopeDe_call d st.deser (env.track st.helper e) e'
        rw [hcall]
        cases hd : callDeser d st.deser (env.track st.helper e) e' with
        | error err => rfl
        | ok r =>
          obtain ⟨⟨art, ev, al⟩, h1⟩ := r
          cases art with
          | none =>
            simp only [scopeOutput]
            cases leftover sk ev.event al with
            | none => rfl
            | some sk' => exact ih _
          | data v =>
            simp only [scopeOutput]
            cases leftover sk ev.event al with
            | none => rfl
            | some sk' => rfl
          | deser s =>
            simp only [scopeOutput]
            cases leftover sk ev.event al with
            | none => rfl
            | some sk' => exact ih _

end

end Verif.Rt

import Verif.Runtime.Stepwise
import Verif.Runtime.Element
import Verif.Runtime.Attributes

/-!
# The serializers of the run-time library (C14)

`ContentSerializer` and `IterSerializer` (xsd-parser-types/src/quick_xml/serialize.rs),
`TextSerializer` (xml/text.rs), `MixedSerializer` (xml/mixed.rs), `NillableSerializer`
(xml/nillable.rs), `XsiTypeSerializer` (serialize.rs) and `AnySimpleTypeSerializer`
(xml/any_simple_type.rs), for arbitrary inner serializers.

Simplification: `serialize_bytes` takes the helper mutably, but all implementations in the
repository only read it (xml/qname.rs:129-148 asks for a prefix); in the model it is an argument
that is not returned.
-/

namespace Verif.Rt

variable {S E V T : Type}

/-! ## `ContentSerializer` -/

/-- `ContentSerializer`, serialize.rs:280-294. -/
inductive CSt (V : Type) where
  | begin (name : Option Str) (value : V)
  | data (name : Option Str) (txt : Str)
  | end_ (name : Str)
  | done

/-- One iteration of `ContentSerializer::next`, serialize.rs:320-357; `bytes` is
`serialize_bytes`, `bad` the error for text with `]]>`. -/
def contentZ (bytes : V → SerHelper → Except E (Option Str)) (bad : Str → E) : Zer (CSt V) E where
  step := fun s h =>
    match s with
    | .begin name v =>
      match bytes v h with
      | .error e => (.fail e, h)
      | .ok none =>
        match name with
        | some n => (.emit (.empty ⟨n, []⟩) .done, h)
        | none => (.done, h)
      | .ok (some d) =>
        if hasCdataEnd d then (.fail (bad d), h)
        else
          match name with
          | some n => (.emit (.start ⟨n, []⟩) (.data name d), h)
          | none => (.again (.data name d), h)
    | .data name d =>
      let next : CSt V := match name with
        | some n => .end_ n
        | none => .done
      if d = [] then (.again next, h) else (.emit (.text (escape d)) next, h)
    | .end_ n => (.emit (.end_ n) .done, h)
    | .done => (.done, h)

/-! ## `IterSerializer` -/

/-- `IterSerializer`, serialize.rs:363-379. -/
inductive ISt (T S : Type) where
  | pending (name : Option Str) (items : List T)
  | emitting (name : Option Str) (items : List T) (inner : S)
  | done

/-- One iteration of `IterSerializer::next`, serialize.rs:387-423; `create` is
`item.serializer(name, false)`. -/
def iterZ (create : T → Option Str → Except E S) (z : Zer S E) : Zer (ISt T S) E where
  step := fun s h =>
    match s with
    | .pending _ [] => (.done, h)
    | .pending name (x :: xs) =>
      match create x name with
      | .error e => (.fail e, h)
      | .ok inner => (.again (.emitting name xs inner), h)
    | .emitting name xs inner =>
      match z.step inner h with
      | (.emit ev inner, h) => (.emit ev (.emitting name xs inner), h)
      | (.again inner, h) => (.again (.emitting name xs inner), h)
      | (.fail e, h) => (.fail e, h)
      | (.done, h) => (.again (.pending name xs), h)
    | .done => (.done, h)

/-! ## `TextSerializer` -/

/-- `TextSerializer`, text.rs:89-98: the text to write, if it has not been written. -/
abbrev TSt := Option Str

/-- `TextSerializer::next`, text.rs:101-110. -/
def textZ : Zer TSt E where
  step := fun s h =>
    match s with
    | some t => (.emit (.text (escape t)) none, h)
    | none => (.done, h)

/-! ## `MixedSerializer` -/

/-- `MixedSerializer`, mixed.rs:93-114; `textAfter` is the text after the value. -/
inductive MSt (S : Type) where
  | inner (textAfter : Option Str) (s : S)
  | after (s : ISt Str TSt)
  | done

/-- The serializer of an optional text: `IterSerializer` over `Option<&Text>`. -/
def textsZ : Zer (ISt Str TSt) E := iterZ (fun t _ => .ok (some t)) textZ

/-- One iteration of `MixedSerializer::next`, mixed.rs:141-174. -/
def mixedZ (z : Zer S E) : Zer (MSt S) E where
  step := fun s h =>
    match s with
    | .inner t s =>
      match z.step s h with
      | (.emit ev s, h) => (.emit ev (.inner t s), h)
      | (.again s, h) => (.again (.inner t s), h)
      | (.fail e, h) => (.fail e, h)
      | (.done, h) => (.again (.after (.pending none t.toList)), h)
    | .after s =>
      match textsZ.step s h with
      | (.emit ev s, h) => (.emit ev (.after s), h)
      | (.again s, h) => (.again (.after s), h)
      | (.fail e, h) => (.fail e, h)
      | (.done, h) => (.done, h)
    | .done => (.done, h)

/-! ## `NillableSerializer` -/

/-- `NamespacePrefix::XSI`, misc/namespace_prefix.rs:15. -/
def xsiPfx : Str := ['x', 's', 'i']

/-- `xsi:nil`, nillable.rs:220. -/
def xsiNil : Str := xsiPfx ++ ':' :: ['n', 'i', 'l']

/-- `xsi:type`, serialize.rs:581. -/
def xsiType : Str := xsiPfx ++ ':' :: ['t', 'y', 'p', 'e']

/-- `NillableSerializer`, nillable.rs:162-178. -/
inductive NSt (S : Type) where
  | some_ (inner : S)
  | nil (name : Str)
  | done

/-- The tag of a nil element, nillable.rs:217-220. -/
def nilTag (name : Str) (h : SerHelper) : Tag × SerHelper :=
  let r := h.writeXmlns ⟨name, []⟩ xsiPfx xsiNs
  (⟨r.1.name, r.1.attrs ++ [⟨xsiNil, ['t', 'r', 'u', 'e']⟩]⟩, r.2)

/-- `NillableSerializer::next`, nillable.rs:203-228. -/
def nillableZ (z : Zer S E) : Zer (NSt S) E where
  step := fun s h =>
    match s with
    | .some_ inner =>
      match z.step inner h with
      | (.emit ev inner, h) => (.emit ev (.some_ inner), h)
      | (.again inner, h) => (.again (.some_ inner), h)
      | (.fail e, h) => (.fail e, h)
      | (.done, h) => (.done, h)
    | .nil name => (.emit (.empty (nilTag name h).1) .done, (nilTag name h).2)
    | .done => (.done, h)

/-- `Nillable::serializer`, nillable.rs:137-152. -/
def nillableCreate (create : T → Option Str → Except E S) (v : Option T) (name : Option Str) :
    Except E (NSt S) :=
  match v with
  | some v => (create v name).map .some_
  | none => .ok (.nil (name.getD "Nillable".toList))

/-! ## `XsiTypeSerializer` -/

/-- `XsiTypeState`, serialize.rs:535-548. -/
inductive XPhase where
  | init
  | pending
  | open_ (depth : Nat)
  | done
deriving DecidableEq, Repr

/-- `XsiTypeSerializer`, serialize.rs:527-533. -/
structure XSt (S : Type) where
  inner : S
  name : Str
  isRoot : Bool
  phase : XPhase

/-- `XsiTypeSerializer::rewrite`, serialize.rs:566-594. -/
def xsiRewrite (name : Str) (isRoot : Bool) (t : Tag) (h : SerHelper) : Tag × SerHelper :=
  if t.name = name then (t, h)
  else
    let r := if isRoot then h.writeXmlns ⟨name, []⟩ xsiPfx xsiNs else (⟨name, []⟩, h)
    (⟨name, r.1.attrs ++ [⟨xsiType, t.name⟩] ++
      t.attrs.filter fun a => a.key ≠ xsiType && a.key ≠ SerHelper.xmlnsKey xsiPfx⟩, r.2)

/-- What `XsiTypeSerializer::next` makes of an event of the inner serializer,
serialize.rs:606-652. -/
def xsiEvent (name : Str) (isRoot : Bool) (phase : XPhase) (ev : Event) (h : SerHelper) :
    Event × XPhase × SerHelper :=
  let h := if phase = .init then h.beginScope else h
  if phase = .init ∨ phase = .pending then
    match ev with
    | .empty t => (.empty (xsiRewrite name isRoot t h).1, .done, (xsiRewrite name isRoot t h).2)
    | .start t => (.start (xsiRewrite name isRoot t h).1, .open_ 1, (xsiRewrite name isRoot t h).2)
    | ev => (ev, .done, h)
  else
    match phase, ev with
    | .open_ d, .start t => (.start t, .open_ (d + 1), h)
    | .open_ d, .end_ n =>
      if d - 1 = 0 then (.end_ name, .done, h.endScope) else (.end_ n, .open_ (d - 1), h)
    | phase, ev => (ev, phase, h)

/-- One iteration of `XsiTypeSerializer::next`, serialize.rs:600-652. -/
def xsiZ (z : Zer S E) : Zer (XSt S) E where
  step := fun s h =>
    match z.step s.inner h with
    | (.emit ev inner, h) =>
      let r := xsiEvent s.name s.isRoot s.phase ev h
      (.emit r.1 { s with inner, phase := r.2.1 }, r.2.2)
    | (.again inner, h) => (.again { s with inner }, h)
    | (.fail e, h) => (.fail e, h)
    | (.done, h) => (.done, h)

/-! ## `AnySimpleTypeSerializer` -/

/-- `AnySimpleTypeSerializer`, any_simple_type.rs:243-257. A value is given by its type name
(prefix, namespace and local part; `none` for an unknown type) and its text (match at
274-367). -/
inductive ASt where
  | begin (name : Str) (type : Option (Str × Option Str × Str)) (txt : Str)
  | content (name : Str) (txt : Str)
  | end_ (name : Str)
  | done

/-- A prefixed name. -/
def joinName (p l : Str) : Str := if p = [] then l else p ++ ':' :: l

/-- The start tag, any_simple_type.rs:369-388. -/
def anyTag (name : Str) (type : Option (Str × Option Str × Str)) (h : SerHelper) :
    Tag × SerHelper :=
  match type with
  | none => (⟨name, []⟩, h.beginScope)
  | some (p, ns, l) =>
    let r : Str × Tag × SerHelper := match ns with
      | some ns => h.beginScope.addQName ⟨name, []⟩ p ns
      | none => (p, ⟨name, []⟩, h.beginScope)
    let r2 := r.2.2.writeXmlns r.2.1 xsiPfx xsiNs
    (⟨r2.1.name, r2.1.attrs ++ [⟨xsiType, joinName r.1 l⟩]⟩, r2.2)

/-- `AnySimpleTypeSerializer::next`, any_simple_type.rs:261-401. -/
def anySimpleZ : Zer ASt E where
  step := fun s h =>
    match s with
    | .begin name type txt =>
      (.emit (.start (anyTag name type h).1) (.content name txt), (anyTag name type h).2)
    | .content name txt => (.emit (.text (escape txt)) (.end_ name), h)
    | .end_ name => (.emit (.end_ name) .done, h)
    | .done => (.done, h)

/-! ## `Element` -/

/-- A serializer without silent transitions (`Verif.Runtime.Serializer`). -/
def Ser.toZ (z : Ser S E) : Zer S E where
  step := fun s h =>
    match z.next s h with
    | (none, _, h) => (.done, h)
    | (some (.ok ev), s, h) => (.emit ev s, h)
    | (some (.error e), _, h) => (.fail e, h)

theorem Ser.Emits.toZ {z : Ser S E} {s : S} {h h' : SerHelper} {evs : List Event}
    (r : z.Emits s h evs h') : z.toZ.Emits s h evs h' := by
  induction r with
  | done hn => exact .done (by simp [Ser.toZ, hn])
  | step hn _ ih => exact .emit (by simp [Ser.toZ, hn]) ih

/-! ## Theorems -/

theorem content_elementLike (bytes : V → SerHelper → Except E (Option Str)) (bad : Str → E)
    (n : Str) (v : V) : (contentZ bytes bad).ElementLike (.begin (some n) v) := by
  intro h ok
  have fin : ∀ h3, (contentZ bytes bad).Emits .done h3 [] h3 := fun h3 => .done rfl
  cases hb : bytes v h with
  | error e => exact Or.inl (.fail (err := e) (h' := h) (by simp [contentZ, hb]))
  | ok o =>
    cases o with
    | none =>
      exact Or.inr (Or.inl ⟨⟨n, []⟩, _, h, .done, .refl, by simp [contentZ, hb], fin⟩)
    | some d =>
      by_cases hc : hasCdataEnd d = true
      · exact Or.inl (.fail (err := bad d) (h' := h) (by simp [contentZ, hb, hc]))
      · refine Or.inr (Or.inr ⟨⟨n, []⟩, _, h, .data (some n) d, h, false, .refl,
          by simp [contentZ, hb, hc], rfl, ?_⟩)
        intro h2 ok2
        right
        by_cases hd : d = []
        · exact ⟨.nil, .end_ n, .done, .silent (by simp [contentZ, hd]),
            by simp [contentZ], fin⟩
        · exact ⟨Nodes.oneText (escape d), .end_ n, .done,
            by rw [Nodes.oneText_events]; exact .one (by simp [contentZ, hd]),
            by simp [contentZ], fin⟩

/-- **C14** for simple values, `ContentSerializer`: with a name it writes one element, without
a name only text. -/
theorem C14_content_balanced (bytes : V → SerHelper → Except E (Option Str)) (bad : Str → E)
    (name : Option Str) (v : V) : (contentZ bytes bad).Balanced (.begin name v) := by
  cases name with
  | some n => exact (content_elementLike bytes bad n v).balanced
  | none =>
    intro h ok
    cases hb : bytes v h with
    | error e => exact Or.inr ⟨[], .fail (err := e) (h' := h) (by simp [contentZ, hb]), rfl⟩
    | ok o =>
      cases o with
      | none => exact Or.inl ⟨.nil, .done (by simp [contentZ, hb])⟩
      | some d =>
        by_cases hc : hasCdataEnd d = true
        · exact Or.inr ⟨[], .fail (err := bad d) (h' := h) (by simp [contentZ, hb, hc]), rfl⟩
        · left
          by_cases hd : d = []
          · exact ⟨.nil, .again (s' := .data none d) (h' := h) (by simp [contentZ, hb, hc])
              (.again (s' := .done) (h' := h) (by simp [contentZ, hd]) (.done rfl))⟩
          · refine ⟨Nodes.oneText (escape d), ?_⟩
            rw [Nodes.oneText_events]
            exact .again (s' := .data none d) (h' := h) (by simp [contentZ, hb, hc])
              (.emit (s' := .done) (h' := h) (by simp [contentZ, hd]) (.done rfl))

/-- **C14** for lists and options: if the serializer of every item is balanced, so is
`IterSerializer`. -/
theorem C14_iter_balanced (create : T → Option Str → Except E S) (z : Zer S E) (name : Option Str)
    (xs : List T) (hz : ∀ x ∈ xs, ∀ s, create x name = .ok s → z.Balanced s) :
    (iterZ create z).Balanced (.pending name xs) := by
  induction xs with
  | nil => exact fun h _ => Or.inl ⟨.nil, .done rfl⟩
  | cons x xs ih =>
    intro h ok
    have ih := ih (fun y hy => hz y (List.mem_cons_of_mem _ hy))
    cases hc : create x name with
    | error e => exact Or.inr ⟨[], .fail (err := e) (h' := h) (by simp [iterZ, hc]), rfl⟩
    | ok s =>
      have first : (iterZ create z).step (.pending name (x :: xs)) h
          = (.again (.emitting name xs s), h) := by simp [iterZ, hc]
      rcases hz x (by simp) s hc h ok with ⟨ns, r⟩ | ⟨evs, f, hd⟩
      · obtain ⟨s1, h1, a, b⟩ := Zer.lift (z' := iterZ create z) (f := ISt.emitting name xs)
          (by intro s h ev s1 h1 he; simp [iterZ, he])
          (by intro s h s1 h1 he; simp [iterZ, he]) r
        have last : (iterZ create z).step (.emitting name xs s1) h1
            = (.again (.pending name xs), h) := by simp [iterZ, b]
        rcases ih h ok with ⟨ns2, r2⟩ | ⟨evs2, f2, hd2⟩
        · left
          refine ⟨ns.append ns2, ?_⟩
          rw [Nodes.append_events]
          exact .again first (a.emits (.again last r2))
        · exact Or.inr ⟨_, .again first (a.fails (.again last f2)), by
            rw [depthAfter_nodes]; exact hd2⟩
      · exact Or.inr ⟨evs, .again first (Zer.lift_fails (z' := iterZ create z)
          (f := ISt.emitting name xs)
          (by intro s h ev s1 h1 he; simp [iterZ, he])
          (by intro s h s1 h1 he; simp [iterZ, he])
          (by intro s h err h1 he; simp [iterZ, he]) f), hd⟩

/-- **C14** for `Text`. -/
theorem C14_text_balanced (t : Str) : (textZ (E := E)).Balanced (some t) := by
  intro h _
  left
  refine ⟨Nodes.oneText (escape t), ?_⟩
  rw [Nodes.oneText_events]
  exact .emit rfl (.done rfl)

theorem texts_balanced (t : Option Str) :
    (textsZ (E := E)).Balanced (.pending none t.toList) :=
  C14_iter_balanced _ _ _ _ (by
    intro x _ s hs
    simp only [Except.ok.injEq] at hs
    subst hs
    exact C14_text_balanced x)

/-- **C14** for `Mixed<T>`: balanced if `T` is. -/
theorem C14_mixed_balanced (z : Zer S E) (t : Option Str) (s : S) (hz : z.Balanced s) :
    (mixedZ z).Balanced (.inner t s) := by
  intro h ok
  rcases hz h ok with ⟨ns, r⟩ | ⟨evs, f, hd⟩
  · obtain ⟨s1, h1, a, b⟩ := Zer.lift (z' := mixedZ z) (f := MSt.inner t)
      (by intro s h ev s1 h1 he; simp [mixedZ, he])
      (by intro s h s1 h1 he; simp [mixedZ, he]) r
    have mid : (mixedZ z).step (.inner t s1) h1 = (.again (.after (.pending none t.toList)), h) := by
      simp [mixedZ, b]
    rcases texts_balanced (E := E) t h ok with ⟨ns2, r2⟩ | ⟨evs2, f2, hd2⟩
    · obtain ⟨s2, h2, a2, b2⟩ := Zer.lift (z' := mixedZ z) (f := MSt.after)
        (by intro s h ev s1 h1 he; simp [mixedZ, he])
        (by intro s h s1 h1 he; simp [mixedZ, he]) r2
      left
      refine ⟨ns.append ns2, ?_⟩
      rw [Nodes.append_events]
      have := a2.emits (ys := []) (h3 := h) (.done (by simp [mixedZ, b2]))
      rw [List.append_nil] at this
      exact a.emits (.again mid this)
    · exact Or.inr ⟨_, a.fails (.again mid (Zer.lift_fails (z' := mixedZ z) (f := MSt.after)
        (by intro s h ev s1 h1 he; simp [mixedZ, he])
        (by intro s h s1 h1 he; simp [mixedZ, he])
        (by intro s h err h1 he; simp [mixedZ, he]) f2)), by rw [depthAfter_nodes]; exact hd2⟩
  · exact Or.inr ⟨evs, Zer.lift_fails (z' := mixedZ z) (f := MSt.inner t)
      (by intro s h ev s1 h1 he; simp [mixedZ, he])
      (by intro s h s1 h1 he; simp [mixedZ, he])
      (by intro s h err h1 he; simp [mixedZ, he]) f, hd⟩

/-- **C14** for `Nillable<T>` with a value: balanced if `T` is. -/
theorem C14_nillable_value_balanced (z : Zer S E) (s : S) (hz : z.Balanced s) :
    (nillableZ z).Balanced (.some_ s) := by
  intro h ok
  rcases hz h ok with ⟨ns, r⟩ | ⟨evs, f, hd⟩
  · obtain ⟨s1, h1, a, b⟩ := Zer.lift (z' := nillableZ z) (f := NSt.some_)
      (by intro s h ev s1 h1 he; simp [nillableZ, he])
      (by intro s h s1 h1 he; simp [nillableZ, he]) r
    left
    refine ⟨ns, ?_⟩
    have := a.emits (ys := []) (h3 := h) (.done (by simp [nillableZ, b]))
    rwa [List.append_nil] at this
  · exact Or.inr ⟨evs, Zer.lift_fails (z' := nillableZ z) (f := NSt.some_)
      (by intro s h ev s1 h1 he; simp [nillableZ, he])
      (by intro s h s1 h1 he; simp [nillableZ, he])
      (by intro s h err h1 he; simp [nillableZ, he]) f, hd⟩

/-- **C14** for `Nillable<T>` without a value, exactly when it holds: the tag is written and
the helper is what it was before if and only if the most recent declaration of the `xsi`
namespace uses the prefix `xsi`. -/
theorem C14_nil_restores_iff (z : Zer S E) (name : Str) (h : SerHelper) :
    ∃ t h', (nillableZ z).Emits (.nil name) h [.empty t] h' ∧
      (h' = h ↔ h.getPrefix xsiNs = some xsiPfx) := by
  refine ⟨(nilTag name h).1, (nilTag name h).2, .emit rfl (.done rfl), ?_⟩
  have hadd : ∀ t p ns, (h.addEntry t p ns).2 ≠ h := by
    intro t p ns he
    have := congrArg (fun x => x.entries.length) he
    simp [SerHelper.addEntry] at this
  simp only [nilTag, SerHelper.writeXmlns, SerHelper.getPrefix]
  cases hf : h.entries.find? fun e => e.ns == xsiNs with
  | none => simp [hadd]
  | some e =>
    by_cases hp : e.pfx = xsiPfx
    · simp [hp]
    · simp [hp, hadd]

/-- **C14** is false for `Nillable<T>` without a value: the declaration of `xsi` that was
written on the nil element is still believed to be in force after it. Of two nil elements in a
row, the second one uses the prefix `xsi` although nothing declares it there. -/
theorem C14_nil_leaks_scope :
    ∃ h', (iterZ (E := Unit) (nillableCreate fun (_ : Unit) _ => .ok none)
        (nillableZ textZ)).Emits (.pending (some ['b']) [none, none]) {}
        [.empty ⟨['b'], [⟨SerHelper.xmlnsKey xsiPfx, xsiNs⟩, ⟨xsiNil, ['t', 'r', 'u', 'e']⟩]⟩,
          .empty ⟨['b'], [⟨xsiNil, ['t', 'r', 'u', 'e']⟩]⟩] h' ∧ h'.entries ≠ [] :=
  ⟨_, .again rfl (.emit rfl (.again rfl (.again rfl (.emit rfl (.again rfl (.done rfl)))))),
    by decide⟩

/-! ### `XsiTypeSerializer` -/

theorem xsi_step_open (z : Zer S E) (name : Str) (root : Bool) {s s1 : S} {h h1 : SerHelper}
    {ev : Event} (hn : z.step s h = (.emit ev s1, h1)) (evs : List Event) (d : Nat) {d' : Nat}
    (hd : depthAfter d (ev :: evs) = some d') :
    ∃ d1, (xsiZ z).step ⟨s, name, root, .open_ (d + 1)⟩ h
        = (.emit ev ⟨s1, name, root, .open_ (d1 + 1)⟩, h1) ∧ depthAfter d1 evs = some d' := by
  cases ev with
  | start t => exact ⟨d + 1, by simp [xsiZ, hn, xsiEvent], hd⟩
  | end_ n =>
    simp only [depthAfter] at hd
    by_cases h0 : d = 0
    · rw [if_pos h0] at hd; cases hd
    · rw [if_neg h0] at hd
      refine ⟨d - 1, ?_, hd⟩
      have : d - 1 + 1 = d := by omega
      simp [xsiZ, hn, xsiEvent, h0, this]
  | _ => exact ⟨d, by simp [xsiZ, hn, xsiEvent], hd⟩

theorem xsi_steps_open (z : Zer S E) (name : Str) (root : Bool) {s s' : S} {h h' : SerHelper}
    {evs : List Event} (r : z.Steps s h evs s' h') (d d' : Nat)
    (hd : depthAfter d evs = some d') :
    (xsiZ z).Steps ⟨s, name, root, .open_ (d + 1)⟩ h evs ⟨s', name, root, .open_ (d' + 1)⟩ h' := by
  induction r generalizing d with
  | refl => simp only [depthAfter, Option.some.injEq] at hd; subst hd; exact .refl
  | again hn _ ih => exact .again (by simp [xsiZ, hn]) (ih d hd)
  | @emit s h ev s1 h1 evs s2 h2 hn _ ih =>
    obtain ⟨d1, a, b⟩ := xsi_step_open z name root hn evs d hd
    exact .emit a (ih d1 b)

theorem xsi_fails_open (z : Zer S E) (name : Str) (root : Bool) {s : S} {h : SerHelper}
    {evs : List Event} (r : z.Fails s h evs) (d d' : Nat) (hd : depthAfter d evs = some d') :
    (xsiZ z).Fails ⟨s, name, root, .open_ (d + 1)⟩ h evs := by
  induction r generalizing d with
  | fail hn => exact .fail (by simp only [xsiZ, hn]; rfl)
  | again hn _ ih => exact .again (by simp [xsiZ, hn]) (ih d hd)
  | @emit s h ev s1 h1 evs hn _ ih =>
    obtain ⟨d1, a, b⟩ := xsi_step_open z name root hn evs d hd
    exact .emit a (ih d1 b)

theorem xsi_emits_nil (z : Zer S E) (name : Str) (root : Bool) (p : XPhase) {s : S}
    {h h' : SerHelper} {evs : List Event} (he : evs = []) (r : z.Emits s h evs h') :
    (xsiZ z).Emits ⟨s, name, root, p⟩ h [] h' := by
  induction r with
  | done hn => exact .done (by simp [xsiZ, hn])
  | emit _ _ _ => cases he
  | again hn _ ih => exact .again (by simp [xsiZ, hn]) (ih he)

theorem xsi_fails_nil (z : Zer S E) (name : Str) (root : Bool) (p : XPhase) {s : S}
    {h : SerHelper} {evs : List Event} (he : evs = []) (r : z.Fails s h evs) :
    (xsiZ z).Fails ⟨s, name, root, p⟩ h [] := by
  induction r with
  | fail hn => exact .fail (by simp only [xsiZ, hn]; rfl)
  | emit _ _ _ => cases he
  | again hn _ ih => exact .again (by simp [xsiZ, hn]) (ih he)

theorem xsi_silent (z : Zer S E) (name : Str) (root : Bool) (p : XPhase) {s s' : S}
    {h h' : SerHelper} {evs : List Event} (he : evs = []) (r : z.Steps s h evs s' h') :
    (xsiZ z).Steps ⟨s, name, root, p⟩ h [] ⟨s', name, root, p⟩ h' := by
  induction r with
  | refl => exact .refl
  | emit _ _ _ => cases he
  | again hn _ ih => exact .again (by simp [xsiZ, hn]) (ih he)

theorem xsiRewrite_innerOf (name : Str) (root : Bool) (t : Tag) (h : SerHelper) :
    InnerOf h (xsiRewrite name root t h.beginScope).2 := by
  unfold xsiRewrite
  by_cases hn : t.name = name
  · rw [if_pos hn]; exact innerOf_begin h
  · rw [if_neg hn]
    cases root with
    | true => exact innerOf_xmlns (innerOf_begin h) _ _ _
    | false => exact innerOf_begin h

theorem xsiRewrite_name (name : Str) (root : Bool) (t : Tag) (h : SerHelper) :
    (xsiRewrite name root t h).1.name = name := by
  unfold xsiRewrite
  by_cases hn : t.name = name
  · rw [if_pos hn]; exact hn
  · rw [if_neg hn]

/-- **C14** for dynamic types (partial): if the wrapped serializer writes an element with a
start tag, `XsiTypeSerializer` writes the same element under the other name, well-nested, and
restores the helper; errors of the wrapped serializer are passed on. Missing: wrapped
serializers that write an empty tag, see `C14_xsi_empty_leaks_scope`. -/
theorem C14_xsi_balanced_partial (z : Zer S E) (s : S) (name : Str) (root : Bool)
    (hz : z.ElementLike s)
    (hne : ∀ h t s0 h0 s1 h1, h.Ok → z.Steps s h [] s0 h0 →
      z.step s0 h0 ≠ (.emit (.empty t) s1, h1)) :
    (xsiZ z).Balanced ⟨s, name, root, .init⟩ := by
  intro h ok
  rcases hz h ok with f | ⟨t, s0, h0, s1, a, b, _⟩ | ⟨t, s0, h0, s1, h1, sc, a, b, hsc, body⟩
  · exact Or.inr ⟨[], xsi_fails_nil z name root .init rfl f, rfl⟩
  · exact absurd b (hne h t s0 h0 s1 h ok a)
  · have ok1 : h1.Ok := by
      cases sc with
      | true => exact innerOf_ok ok hsc
      | false => rw [show h1 = h from hsc]; exact ok
    have i := xsiRewrite_innerOf name root t h1
    have hstart : (xsiZ z).step ⟨s0, name, root, .init⟩ h0
        = (.emit (.start (xsiRewrite name root t h1.beginScope).1)
            ⟨s1, name, root, .open_ (0 + 1)⟩, (xsiRewrite name root t h1.beginScope).2) := by
      simp [xsiZ, b, xsiEvent]
    have pre := xsi_silent z name root .init rfl a
    rcases body _ (innerOf_ok ok1 i) with ⟨evs, f, hd⟩ | ⟨ns, s2, s3, c, e, fin⟩
    · obtain ⟨d', hd'⟩ := Option.isSome_iff_exists.mp hd
      refine Or.inr ⟨_, pre.fails (.emit hstart (xsi_fails_open z name root f 0 d' hd')), ?_⟩
      have := depthAfter_add hd' 1
      simp only [List.nil_append, depthAfter, Nat.zero_add]
      rw [Nat.zero_add] at this
      rw [this]; rfl
    · left
      refine ⟨Nodes.one (xsiRewrite name root t h1.beginScope).1 ns, ?_⟩
      rw [Nodes.one_events, xsiRewrite_name]
      have hmid := xsi_steps_open z name root c 0 0 (by
        have := depthAfter_nodes ns 0 []
        rw [List.append_nil] at this
        rw [this]; rfl)
      have hend : (xsiZ z).step ⟨s2, name, root, .open_ (0 + 1)⟩
          (xsiRewrite name root t h1.beginScope).2
          = (.emit (.end_ name) ⟨s3, name, root, .done⟩, h) := by
        have hh : (if sc = true then (xsiRewrite name root t h1.beginScope).2.endScope
            else (xsiRewrite name root t h1.beginScope).2).endScope = h := by
          cases sc with
          | true => simp only [if_true]; rw [innerOf_end ok1 i]; exact innerOf_end ok hsc
          | false =>
            simp only [Bool.false_eq_true, if_false]
            rw [innerOf_end ok1 i]; exact hsc
        simp only [xsiZ, e, xsiEvent]
        simp [hh]
      exact pre.emits (.emit hstart (hmid.emits (.emit hend
        (xsi_emits_nil z name root .done rfl (fin h)))))

/-- **C14** is false for dynamic types with an empty element: whatever the wrapped serializer
and the helper, if it writes an empty tag, one scope too many stays open. -/
theorem C14_xsi_empty_leaks_scope (z : Zer S E) (s s0 s1 : S) (name : Str) (root : Bool)
    (h h0 h1 : SerHelper) (t : Tag) (a : z.Steps s h [] s0 h0)
    (b : z.step s0 h0 = (.emit (.empty t) s1, h1)) (fin : ∀ h2, z.Emits s1 h2 [] h2)
    (hl : h1.level = h.level) :
    ∃ t' h', (xsiZ z).Emits ⟨s, name, root, .init⟩ h [.empty t'] h' ∧ h'.level = h.level + 1 := by
  refine ⟨(xsiRewrite name root t h1.beginScope).1, (xsiRewrite name root t h1.beginScope).2,
    (xsi_silent z name root .init rfl a).emits (.emit (s' := ⟨s1, name, root, .done⟩)
      (by simp [xsiZ, b, xsiEvent]) (xsi_emits_nil z name root .done rfl (fin _))), ?_⟩
  rw [(xsiRewrite_innerOf name root t h1).level, hl]

/-- Non-vacuity: a simple value without text, wrapped: `<b xsi:type="a"/>`. -/
example : ∃ h', (xsiZ (contentZ (E := Unit) (fun (_ : Unit) _ => .ok none) (fun _ => ()))).Emits
    ⟨.begin (some ['a']) (), ['b'], true, .init⟩ {}
    [.empty ⟨['b'], [⟨SerHelper.xmlnsKey xsiPfx, xsiNs⟩, ⟨xsiType, ['a']⟩]⟩] h' ∧ h'.level = 1 :=
  ⟨_, .emit rfl (.done rfl), rfl⟩

/-- Non-vacuity of `C14_xsi_balanced_partial`: `<b xsi:type="a">x</b>`. -/
example : (xsiZ (contentZ (E := Unit) (fun (_ : Unit) _ => .ok (some ['x'])) (fun _ => ()))).Balanced
    ⟨.begin (some ['a']) (), ['b'], true, .init⟩ :=
  C14_xsi_balanced_partial _ _ _ _ (content_elementLike _ _ _ _) (by
    intro h t s0 h0 s1 h1 _ hs hstep
    cases hs with
    | refl => simp [contentZ, hasCdataEnd] at hstep
    | again hn _ => simp [contentZ, hasCdataEnd] at hn)

/-! ### `AnySimpleTypeSerializer` -/

/-- **C14** is false for `AnySimpleType`: every value is written well-nested, but one scope too
many stays open, whatever the value. -/
theorem C14_any_simple_type_leaks_scope (name txt : Str) (type : Option (Str × Option Str × Str))
    (h : SerHelper) :
    ∃ t h', (anySimpleZ (E := E)).Emits (.begin name type txt) h
        (Node.elem t (Nodes.oneText (escape txt))).events h' ∧ t.name = name ∧
      h'.level = h.level + 1 := by
  refine ⟨(anyTag name type h).1, (anyTag name type h).2, ?_, ?_, ?_⟩
  · have hname : (anyTag name type h).1.name = name := by
      unfold anyTag
      cases type with
      | none => rfl
      | some x =>
        obtain ⟨p, ns, l⟩ := x
        have hx : ∀ (h : SerHelper) (t : Tag) p ns, (h.writeXmlns t p ns).1.name = t.name := by
          intro h t p ns
          unfold SerHelper.writeXmlns
          split
          · split <;> rfl
          · rfl
        have hq : ∀ (h : SerHelper) (t : Tag) p ns, (h.addQName t p ns).2.1.name = t.name := by
          intro h t p ns
          unfold SerHelper.addQName
          split <;> rfl
        cases ns with
        | none => simp [hx]
        | some ns => simp [hx, hq]
    simp only [Node.events, Nodes.oneText_events, hname]
    exact .emit rfl (.emit rfl (.emit rfl (.done rfl)))
  · unfold anyTag
    cases type with
    | none => rfl
    | some x =>
      obtain ⟨p, ns, l⟩ := x
      have hx : ∀ (h : SerHelper) (t : Tag) p ns, (h.writeXmlns t p ns).1.name = t.name := by
        intro h t p ns
        unfold SerHelper.writeXmlns
        split
        · split <;> rfl
        · rfl
      have hq : ∀ (h : SerHelper) (t : Tag) p ns, (h.addQName t p ns).2.1.name = t.name := by
        intro h t p ns
        unfold SerHelper.addQName
        split <;> rfl
      cases ns with
      | none => simp [hx]
      | some ns => simp [hx, hq]
  · unfold anyTag
    cases type with
    | none => rfl
    | some x =>
      obtain ⟨p, ns, l⟩ := x
      cases ns with
      | none => exact (innerOf_xmlns (innerOf_begin h) _ _ _).level
      | some ns => exact (innerOf_xmlns (innerOf_qname (innerOf_begin h) _ _ _) _ _ _).level

/-- Non-vacuity: the value `x` of type `xs:string` in an element `v`; the scope that stays open
keeps the declarations, so an element written later lacks them. -/
example : ∃ h', (iterZ (E := Unit)
      (fun (_ : Unit) n => .ok (.begin (n.getD []) (some (['x', 's'], some ['X'], ['s'])) ['x']))
      anySimpleZ).Emits (.pending (some ['v']) [(), ()]) {}
      [.start ⟨['v'], [⟨SerHelper.xmlnsKey ['x', 's'], ['X']⟩, ⟨SerHelper.xmlnsKey xsiPfx, xsiNs⟩,
        ⟨xsiType, ['x', 's', ':', 's']⟩]⟩, .text ['x'], .end_ ['v'],
       .start ⟨['v'], [⟨xsiType, ['x', 's', ':', 's']⟩]⟩, .text ['x'], .end_ ['v']] h' :=
  ⟨_, .again rfl (.emit rfl (.emit rfl (.emit rfl (.again rfl (.again rfl (.emit rfl
    (.emit rfl (.emit rfl (.again rfl (.done rfl))))))))))⟩

/-! ### Elements of wildcards -/

/-- **C14** for `xs:any` elements, in terms of `Balanced`. -/
theorem C14_wildcard_balanced (ord : List Binding → List Binding) (name : Option Str) (e : Elem) :
    (elemSer ord).toZ.Balanced (.start name e) := by
  intro h ok
  obtain ⟨n, r⟩ := C14_element_balanced ord name e h ok
  refine Or.inl ⟨.cons n .nil, ?_⟩
  simp only [Nodes.events, List.append_nil]
  exact r.toZ

/-- Non-vacuity: a list of mixed, nillable texts with values: all wrappers at once. -/
example : (iterZ (E := Unit)
    (fun (x : Str × Option Str) n => .ok (MSt.inner x.2 (NSt.some_ (CSt.begin n x.1))))
    (mixedZ (nillableZ (contentZ (fun v _ => .ok (some v)) fun _ => ())))).Balanced
    (.pending (some ['v']) [(['<'], some ['a']), ([], none)]) :=
  C14_iter_balanced _ _ _ _ (by
    intro x _ s hs
    simp only [Except.ok.injEq] at hs
    subst hs
    exact C14_mixed_balanced _ _ _ (C14_nillable_value_balanced _ _ (C14_content_balanced _ _ _ _)))

end Verif.Rt

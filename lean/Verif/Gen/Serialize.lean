import Verif.Runtime.Wrappers
import Verif.Gen.SequenceComplete

/-!
# Generated serializers (C14, C13)

The serializers generated for complex types, renderer/steps/quick_xml/serialize.rs:
`render_serializer_bytes_ctor` (721-902), `ComplexDataEnum::render_serializer_impl` (939-1036),
`…_start_event` (1038-1052), `ComplexDataStruct::render_serializer_impl` (1096-1213),
`…_start_event` (1215-1237), the initialisation of fields (`render_serializer_state_init`,
1256-1298 and 1380-1450).

Structs and enums share their control flow: enter the first part (for a struct its first field
or its content, for an enum the variant of the value), write the start tag if the type
represents an element, then drive the parts one after the other, then the end tag. Both are
instances of `Shell`; an enum has one part.
-/

namespace Verif.Gen

open Verif.Rt

section
variable {W V S I E : Type}

/-! ## Model: the fields -/

/-- The value of a field or variant, by its `Occurs`: a plain value, or an option or list. -/
inductive FVal (V : Type) where
  | one (v : V)
  | many (vs : List V)

/-- The serializer of a field. -/
inductive FSt (V S : Type) where
  | one (s : S)
  | many (s : ISt V S)

/-- Initialisation of the serializer of a field, serialize.rs:1380-1450: plain values call
`WithSerializer::serializer` at once, options and lists are given to an `IterSerializer`.
`name` is `none` for `xs:any` elements and for content. -/
def fieldEnter (create : V → Option Str → Bool → Except E S) (name : Option Str) (root : Bool) :
    FVal V → Except E (FSt V S)
  | .one v => (create v name root).map .one
  | .many vs => .ok (.many (.pending name vs))

/-- The serializer of a field: that of the value, or `IterSerializer`. -/
def fieldZ (create : V → Option Str → Bool → Except E S) (z : Zer S E) : Zer (FSt V S) E where
  step := fun s h =>
    match s with
    | .one s =>
      match z.step s h with
      | (.emit ev s, h) => (.emit ev (.one s), h)
      | (.again s, h) => (.again (.one s), h)
      | (.fail e, h) => (.fail e, h)
      | (.done, h) => (.done, h)
    | .many s =>
      match (iterZ (fun v n => create v n false) z).step s h with
      | (.emit ev s, h) => (.emit ev (.many s), h)
      | (.again s, h) => (.again (.many s), h)
      | (.fail e, h) => (.fail e, h)
      | (.done, h) => (.done, h)

/-! ## Model: structs and enums -/

/-- Several `write_xmlns` calls for one tag. -/
def writeAll : Tag → SerHelper → List (Str × Str) → Tag × SerHelper
  | t, h, [] => (t, h)
  | t, h, (p, ns) :: rest => writeAll (h.writeXmlns t p ns).1 (h.writeXmlns t p ns).2 rest

/-- A generated struct or enum. `isElement` is `represents_element`; `xmlns` is the code that
writes namespaces (it depends on the value, on the name of the tag and on `is_root`), if there
is any; `attrs` are the attributes (`write_attrib`, `write_attrib_opt`, `extend_attributes`);
`enter` initialises the serializer of a part. -/
structure Shell (W I E : Type) where
  isElement : Bool
  xmlns : Option (W → Str → Bool → List (Str × Str))
  attrs : W → SerHelper → Except E (List Attr)
  parts : Nat
  enter : W → Bool → Nat → Except E I
  z : Zer I E

/-- The serializer struct with its state enum. -/
inductive ShSt (W I : Type) where
  | init (w : W) (name : Str) (root : Bool)
  | at_ (w : W) (name : Str) (root : Bool) (i : Nat) (c : I)
  | end_ (name : Str)
  | done

/-- The state for part `i`, or the final state if there are no more parts, serialize.rs:1113-1157
(struct) and 958-979 (enum). -/
def Shell.goto (Z : Shell W I E) (w : W) (name : Str) (root : Bool) (i : Nat) :
    Except E (ShSt W I) :=
  if i < Z.parts then (Z.enter w root i).map (.at_ w name root i)
  else .ok (if Z.isElement ∧ Z.parts ≠ 0 then .end_ name else .done)

/-- The first half of `render_serializer_bytes_ctor`, serialize.rs:721-902: the scope and the
namespaces. -/
def Shell.declare (Z : Shell W I E) (w : W) (name : Str) (root : Bool) (h : SerHelper) :
    Tag × SerHelper :=
  match Z.xmlns with
  | none => (⟨name, []⟩, h)
  | some f => writeAll ⟨name, []⟩ h.beginScope (f w name root)

/-- `render_serializer_bytes_ctor`, serialize.rs:721-902: the tag, or the error of an
attribute. -/
def Shell.openTag (Z : Shell W I E) (w : W) (name : Str) (root : Bool) (h : SerHelper) :
    Except E Tag × SerHelper :=
  match Z.attrs w (Z.declare w name root h).2 with
  | .error e => (.error e, (Z.declare w name root h).2)
  | .ok as =>
    (.ok ⟨(Z.declare w name root h).1.name, (Z.declare w name root h).1.attrs ++ as⟩,
      (Z.declare w name root h).2)

/-- One iteration of `next`, serialize.rs:1178-1213 and 1001-1036. -/
def shellZ (Z : Shell W I E) : Zer (ShSt W I) E where
  step := fun s h =>
    match s with
    | .init w name root =>
      match Z.goto w name root 0 with
      | .error e => (.fail e, h)
      | .ok s =>
        if Z.isElement then
          match Z.openTag w name root h with
          | (.error e, h) => (.fail e, h)
          | (.ok t, h) =>
            if Z.parts = 0 then (.emit (.empty t) s, if Z.xmlns.isSome then h.endScope else h)
            else (.emit (.start t) s, h)
        else (.again s, h)
    | .at_ w name root i c =>
      match Z.z.step c h with
      | (.emit ev c, h) => (.emit ev (.at_ w name root i c), h)
      | (.again c, h) => (.again (.at_ w name root i c), h)
      | (.fail e, h) => (.fail e, h)
      | (.done, h) =>
        match Z.goto w name root (i + 1) with
        | .error e => (.fail e, h)
        | .ok s => (.again s, h)
    | .end_ name => (.emit (.end_ name) .done, if Z.xmlns.isSome then h.endScope else h)
    | .done => (.done, h)

/-! ## C14 -/

/-- **C14** for fields: balanced if all the values are. -/
theorem C14_field_balanced (create : V → Option Str → Bool → Except E S) (z : Zer S E)
    (name : Option Str) (root : Bool) (x : FVal V) (s : FSt V S)
    (he : fieldEnter create name root x = .ok s)
    (hz : ∀ v r s, create v name r = .ok s → z.Balanced s) : (fieldZ create z).Balanced s := by
  cases x with
  | one v =>
    simp only [fieldEnter] at he
    cases hc : create v name root with
    | error e => rw [hc] at he; cases he
    | ok s1 =>
      rw [hc] at he
      simp only [Except.map, Except.ok.injEq] at he
      subst he
      intro h ok
      rcases hz v root s1 hc h ok with ⟨ns, r⟩ | ⟨evs, f, hd⟩
      · obtain ⟨s2, h2, a, b⟩ := Zer.lift (z' := fieldZ create z) (f := FSt.one)
          (by intro s h ev s1 h1 he; simp [fieldZ, he])
          (by intro s h s1 h1 he; simp [fieldZ, he]) r
        have := a.emits (ys := []) (h3 := h) (.done (by simp [fieldZ, b]))
        rw [List.append_nil] at this
        exact Or.inl ⟨ns, this⟩
      · exact Or.inr ⟨evs, Zer.lift_fails (z' := fieldZ create z) (f := FSt.one)
          (by intro s h ev s1 h1 he; simp [fieldZ, he])
          (by intro s h s1 h1 he; simp [fieldZ, he])
          (by intro s h err h1 he; simp [fieldZ, he]) f, hd⟩
  | many vs =>
    simp only [fieldEnter, Except.ok.injEq] at he
    subst he
    intro h ok
    have hb := C14_iter_balanced (fun v n => create v n false) z name vs
      (fun v _ s hs => hz v false s hs)
    rcases hb h ok with ⟨ns, r⟩ | ⟨evs, f, hd⟩
    · obtain ⟨s2, h2, a, b⟩ := Zer.lift (z' := fieldZ create z) (f := FSt.many)
        (by intro s h ev s1 h1 he; simp [fieldZ, he])
        (by intro s h s1 h1 he; simp [fieldZ, he]) r
      have := a.emits (ys := []) (h3 := h) (.done (by simp [fieldZ, b]))
      rw [List.append_nil] at this
      exact Or.inl ⟨ns, this⟩
    · exact Or.inr ⟨evs, Zer.lift_fails (z' := fieldZ create z) (f := FSt.many)
        (by intro s h ev s1 h1 he; simp [fieldZ, he])
        (by intro s h s1 h1 he; simp [fieldZ, he])
        (by intro s h err h1 he; simp [fieldZ, he]) f, hd⟩

theorem writeAll_name (l : List (Str × Str)) (t : Tag) (h : SerHelper) :
    (writeAll t h l).1.name = t.name := by
  induction l generalizing t h with
  | nil => rfl
  | cons x l ih =>
    obtain ⟨p, ns⟩ := x
    simp only [writeAll]
    rw [ih]
    unfold SerHelper.writeXmlns
    split
    · split <;> rfl
    · rfl

theorem writeAll_innerOf {h0 : SerHelper} (l : List (Str × Str)) (t : Tag) (h : SerHelper)
    (i : InnerOf h0 h) : InnerOf h0 (writeAll t h l).2 := by
  induction l generalizing t h with
  | nil => exact i
  | cons x l ih => exact ih _ _ (innerOf_xmlns i _ _ _)

theorem declare_name (Z : Shell W I E) (w : W) (name : Str) (root : Bool) (h : SerHelper) :
    (Z.declare w name root h).1.name = name := by
  unfold Shell.declare
  split
  · rfl
  · exact writeAll_name _ _ _

theorem declare_scope (Z : Shell W I E) (w : W) (name : Str) (root : Bool) (h : SerHelper) :
    if Z.xmlns.isSome = true then InnerOf h (Z.declare w name root h).2
    else (Z.declare w name root h).2 = h := by
  unfold Shell.declare
  cases hx : Z.xmlns with
  | none => rfl
  | some f => exact writeAll_innerOf _ _ _ (innerOf_begin h)

theorem openTag_name (Z : Shell W I E) (w : W) (name : Str) (root : Bool) (h h' : SerHelper)
    (t : Tag) (ht : Z.openTag w name root h = (.ok t, h')) : t.name = name := by
  unfold Shell.openTag at ht
  split at ht
  · cases ht
  · simp only [Prod.mk.injEq, Except.ok.injEq] at ht
    rw [← ht.1]
    exact declare_name _ _ _ _ _

theorem openTag_scope (Z : Shell W I E) (w : W) (name : Str) (root : Bool) (h h' : SerHelper)
    (t : Tag) (ht : Z.openTag w name root h = (.ok t, h')) :
    if Z.xmlns.isSome = true then InnerOf h h' else h' = h := by
  have e : h' = (Z.declare w name root h).2 := by
    unfold Shell.openTag at ht
    split at ht
    · cases ht
    · simp only [Prod.mk.injEq] at ht
      exact ht.2.symm
  rw [e]
  exact declare_scope Z w name root h

/-- The state after all parts. -/
def Shell.final (Z : Shell W I E) (name : Str) : ShSt W I :=
  if Z.isElement ∧ Z.parts ≠ 0 then .end_ name else .done

/-- The parts from `i` on. -/
theorem shell_rest (Z : Shell W I E) (w : W) (name : Str) (root : Bool)
    (hz : ∀ i c, i < Z.parts → Z.enter w root i = .ok c → Z.z.Balanced c) :
    ∀ (k i : Nat), Z.parts - i = k → ∀ s, Z.goto w name root i = .ok s → ∀ h : SerHelper, h.Ok →
      (∃ evs, (shellZ Z).Fails s h evs ∧ (depthAfter 0 evs).isSome = true) ∨
      ∃ ns : Nodes, (shellZ Z).Steps s h ns.events (Z.final name) h := by
  intro k
  induction k with
  | zero =>
    intro i hk s hs h _
    have : ¬ i < Z.parts := by omega
    simp only [Shell.goto, if_neg this, Except.ok.injEq] at hs
    subst hs
    exact Or.inr ⟨.nil, .refl⟩
  | succ k ih =>
    intro i hk s hs h ok
    have hi : i < Z.parts := by omega
    simp only [Shell.goto, if_pos hi] at hs
    cases he : Z.enter w root i with
    | error e => rw [he] at hs; cases hs
    | ok c =>
      rw [he] at hs
      simp only [Except.map, Except.ok.injEq] at hs
      subst hs
      have e1 : ∀ s h ev s1 h1, Z.z.step s h = (.emit ev s1, h1) →
          (shellZ Z).step (.at_ w name root i s) h = (.emit ev (.at_ w name root i s1), h1) := by
        intro s h ev s1 h1 he; simp [shellZ, he]
      have e2 : ∀ s h s1 h1, Z.z.step s h = (.again s1, h1) →
          (shellZ Z).step (.at_ w name root i s) h = (.again (.at_ w name root i s1), h1) := by
        intro s h s1 h1 he; simp [shellZ, he]
      have e3 : ∀ s h err h1, Z.z.step s h = (.fail err, h1) →
          (shellZ Z).step (.at_ w name root i s) h = (.fail err, h1) := by
        intro s h err h1 he; simp [shellZ, he]
      rcases hz i c hi he h ok with ⟨ns, r⟩ | ⟨evs, f, hd⟩
      · obtain ⟨s1, h1, a, b⟩ := Zer.lift (z' := shellZ Z) (f := ShSt.at_ w name root i) e1 e2 r
        cases hg : Z.goto w name root (i + 1) with
        | error e =>
          have last : (shellZ Z).step (.at_ w name root i s1) h1 = (.fail e, h) := by
            simp [shellZ, b, hg]
          refine Or.inl ⟨_, a.fails (.fail last), ?_⟩
          rw [depthAfter_nodes]
          rfl
        | ok s2 =>
          have last : (shellZ Z).step (.at_ w name root i s1) h1 = (.again s2, h) := by
            simp [shellZ, b, hg]
          rcases ih (i + 1) (by omega) s2 hg h ok with ⟨evs, f, hd⟩ | ⟨ns2, r2⟩
          · refine Or.inl ⟨_, a.fails (.again last f), ?_⟩
            rw [depthAfter_nodes]
            exact hd
          · refine Or.inr ⟨ns.append ns2, ?_⟩
            rw [Nodes.append_events]
            exact a.trans (.again last r2)
      · exact Or.inl ⟨evs, Zer.lift_fails (z' := shellZ Z) (f := ShSt.at_ w name root i) e1 e2 e3 f,
          hd⟩

/-- A generated type that represents an element writes one element. -/
theorem shell_elementLike (Z : Shell W I E) (w : W) (name : Str) (root : Bool)
    (hel : Z.isElement = true)
    (hz : ∀ i c, i < Z.parts → Z.enter w root i = .ok c → Z.z.Balanced c) :
    (shellZ Z).ElementLike (.init w name root) := by
  intro h ok
  have fin : ∀ h3, (shellZ Z).Emits .done h3 [] h3 := fun h3 => .done rfl
  cases hg : Z.goto w name root 0 with
  | error e => exact Or.inl (.fail (err := e) (h' := h) (by simp [shellZ, hg]))
  | ok s =>
    cases ht : Z.openTag w name root h with
    | mk r h1 =>
      cases r with
      | error e => exact Or.inl (.fail (err := e) (h' := h1) (by simp [shellZ, hg, hel, ht]))
      | ok t =>
        have hsc := openTag_scope Z w name root h h1 t ht
        have hname := openTag_name Z w name root h h1 t ht
        by_cases hp : Z.parts = 0
        · have hs : s = .done := by
            have h0 : ¬ 0 < Z.parts := by omega
            simp only [Shell.goto, if_neg h0, Except.ok.injEq, hp] at hg
            simpa using hg.symm
          subst hs
          refine Or.inr (Or.inl ⟨t, _, h, .done, .refl, ?_, fin⟩)
          have hh : (if Z.xmlns.isSome = true then h1.endScope else h1) = h := by
            cases hx : Z.xmlns.isSome with
            | true => rw [hx, if_pos rfl] at hsc; exact innerOf_end ok hsc
            | false => rw [hx] at hsc; exact hsc
          simp [shellZ, hg, hel, ht, hp, hh]
        · refine Or.inr (Or.inr ⟨t, _, h, s, h1, Z.xmlns.isSome, .refl,
            by simp [shellZ, hg, hel, ht, hp], hsc, ?_⟩)
          intro h2 ok2
          rcases shell_rest Z w name root hz _ 0 rfl s hg h2 ok2 with f | ⟨ns, r⟩
          · exact Or.inl f
          · right
            have hf : Z.final name = .end_ name := by simp [Shell.final, hel, hp]
            rw [hf] at r
            exact ⟨ns, _, .done, r, by rw [hname]; rfl, fin⟩

/-- **C14** for generated structs and enums: whatever namespaces and attributes they write, if
their parts are balanced, so are they. -/
theorem C14_generated_balanced (Z : Shell W I E) (w : W) (name : Str) (root : Bool)
    (hz : ∀ i c, i < Z.parts → Z.enter w root i = .ok c → Z.z.Balanced c) :
    (shellZ Z).Balanced (.init w name root) := by
  cases hel : Z.isElement with
  | true => exact (shell_elementLike Z w name root hel hz).balanced
  | false =>
    intro h ok
    cases hg : Z.goto w name root 0 with
    | error e => exact Or.inr ⟨[], .fail (err := e) (h' := h) (by simp [shellZ, hg]), rfl⟩
    | ok s =>
      have first : (shellZ Z).step (.init w name root) h = (.again s, h) := by
        simp [shellZ, hg, hel]
      rcases shell_rest Z w name root hz _ 0 rfl s hg h ok with ⟨evs, f, hd⟩ | ⟨ns, r⟩
      · exact Or.inr ⟨evs, .again first f, hd⟩
      · have hf : Z.final name = .done := by simp [Shell.final, hel]
        rw [hf] at r
        have := r.emits (ys := []) (h3 := h) (.done rfl)
        rw [List.append_nil] at this
        exact Or.inl ⟨ns, .again first this⟩

end

end Verif.Gen

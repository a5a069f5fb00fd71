import Verif.Interp.Attributes

/-!
# Examples and findings for the attributes of complex types (C63)
-/

namespace Verif.Attrs.Examples

open Verif.Meta

/-- Namespace `1` with unqualified attributes, namespace `2` with qualified ones. -/
def c1 : Ctx := ⟨1, .unqualified⟩
def c2 : Ctx := ⟨2, .qualified⟩

def attr (n : Char) (t : Nat) (u : Use := .optional) : Decl :=
  { name := some [n], type_ := some t, use_ := u }

/-- An attribute of the group. -/
def gA : Decl := { attr 'g' 7 with form := some .unqualified }

/-- A type with a group (of the other namespace, with a wildcard and a reference), a restriction of it
that makes one attribute required and removes another, and an extension of that. -/
def S : Schemas where
  groups g := if g = 0 then
      some ⟨c2, [.attr gA, .attr { ref_ := some (2, ['r']), form := some .qualified }, .any 5]⟩
    else none
  globals r := if r = (2, ['r']) then some ⟨some 9, none, none⟩ else none
  types k := match k with
    | 0 => some ⟨c1, none, [.attr (attr 'a' 7), .group (some 0), .attr (attr 'b' 8)]⟩
    | 1 => some ⟨c1, some (.restriction, 0), [.attr (attr 'a' 7 .required), .attr (attr 'b' 8 .prohibited)]⟩
    | 2 => some ⟨c1, some (.extension, 1), [.attr { attr 'c' 8 with default_ := some ['0'] }]⟩
    | _ => none

def flat : List Flat :=
  ([.attr (attr 'a' 7) c1] ++
    ([.attr gA c2, .attr { ref_ := some (2, ['r']), form := some .qualified } c2, .any 5] ++
      [.attr (attr 'b' 8) c1])) ++
  [.attr (attr 'a' 7 .required) c1, .attr (attr 'b' 8 .prohibited) c1] ++
  [.attr { attr 'c' 8 with default_ := some ['0'] } c1]

/-- The same with the context of the type for the declarations of the group. -/
def flatC : List Flat :=
  ([.attr (attr 'a' 7) c1] ++
    ([.attr gA c1, .attr { ref_ := some (2, ['r']), form := some .qualified } c1, .any 5] ++
      [.attr (attr 'b' 8) c1])) ++
  [.attr (attr 'a' 7 .required) c1, .attr (attr 'b' 8 .prohibited) c1] ++
  [.attr { attr 'c' 8 with default_ := some ['0'] } c1]

theorem flatC_chain : Chain S .code 2 flatC :=
  .derived (T := ⟨c1, some (.extension, 1), [.attr { attr 'c' 8 with default_ := some ['0'] }]⟩) rfl rfl
    (.derived (T := ⟨c1, some (.restriction, 0),
        [.attr (attr 'a' 7 .required), .attr (attr 'b' 8 .prohibited)]⟩) rfl rfl
      (.root (T := ⟨c1, none, [.attr (attr 'a' 7), .group (some 0), .attr (attr 'b' 8)]⟩) rfl rfl
        (.attr (.group (l := [.attr gA c1,
            .attr { ref_ := some (2, ['r']), form := some .qualified } c1, .any 5])
          (G := ⟨c2, [.attr gA, .attr { ref_ := some (2, ['r']), form := some .qualified }, .any 5]⟩)
          rfl (.attr (.attr (.any .nil))) (.attr .nil))))
      (.attr (.attr .nil)))
    (.attr .nil)

theorem flat_same : SameNames flatC flat := by unfold SameNames; decide +kernel

theorem flat_chain : Chain S .xmlSchema 2 flat :=
  .derived (T := ⟨c1, some (.extension, 1), [.attr { attr 'c' 8 with default_ := some ['0'] }]⟩) rfl rfl
    (.derived (T := ⟨c1, some (.restriction, 0),
        [.attr (attr 'a' 7 .required), .attr (attr 'b' 8 .prohibited)]⟩) rfl rfl
      (.root (T := ⟨c1, none, [.attr (attr 'a' 7), .group (some 0), .attr (attr 'b' 8)]⟩) rfl rfl
        (.attr (.group (l := [.attr gA c2,
            .attr { ref_ := some (2, ['r']), form := some .qualified } c2, .any 5])
          (G := ⟨c2, [.attr gA, .attr { ref_ := some (2, ['r']), form := some .qualified }, .any 5]⟩)
          rfl (.attr (.attr (.any .nil))) (.attr .nil))))
      (.attr (.attr .nil)))
    (.attr .nil)

/-- The attributes the code makes for the extension. -/
def result : St where
  attrs := [
    ⟨.named 1 ['a'], .inl (.type_ 7), .required, .unqualified, none⟩,
    ⟨.named 1 ['g'], .inl (.type_ 7), .optional, .unqualified, none⟩,
    ⟨.named 2 ['r'], .inl (.global (2, ['r'])), .optional, .qualified, none⟩,
    ⟨.any 0, .inr 5, .required, .unqualified, none⟩,
    ⟨.named 1 ['b'], .inl (.type_ 8), .prohibited, .unqualified, none⟩,
    ⟨.named 1 ['c'], .inl (.type_ 8), .optional, .unqualified, some ['0']⟩]
  next := 1

theorem result_ok : typeAttrs S 2 3 2 = .ok result := rfl

instance (d : Decl) : Decidable d.Proper := by unfold Decl.Proper; infer_instance

theorem flat_regular : Regular S flatC where
  good := by
    have h : ∀ p ∈ decls flatC, p.1.Proper := by decide +kernel
    have h' : ∀ p ∈ decls flatC, p.1.ref_ = none ∨ p.1.ref_ = some (2, ['r']) := by decide +kernel
    intro p hp
    refine ⟨h p hp, fun r hr => ?_⟩
    rcases h' p hp with e | e <;> rw [e] at hr
    · cases hr
    · cases hr; exact Option.some_ne_none _
  constraints := by decide +kernel
  refs := by decide +kernel
  names := by decide +kernel
  types := by decide +kernel
  defaults := by decide +kernel

theorem flat_levels : Levels S 2 :=
  .derived (T := ⟨c1, some (.extension, 1), [.attr { attr 'c' 8 with default_ := some ['0'] }]⟩) rfl rfl
    (.derived (T := ⟨c1, some (.restriction, 0),
        [.attr (attr 'a' 7 .required), .attr (attr 'b' 8 .prohibited)]⟩) rfl rfl
      (.root (T := ⟨c1, none, [.attr (attr 'a' 7), .group (some 0), .attr (attr 'b' 8)]⟩) rfl rfl
        (.attr (.group (l := [.attr gA c2,
            .attr { ref_ := some (2, ['r']), form := some .qualified } c2, .any 5])
          (G := ⟨c2, [.attr gA, .attr { ref_ := some (2, ['r']), form := some .qualified }, .any 5]⟩)
          rfl (.attr (.attr (.any .nil))) (.attr .nil)))
        (by decide +kernel))
      (.attr (.attr .nil)) (by decide +kernel) (by decide +kernel))
    (.attr .nil) (by decide +kernel) (by decide +kernel)

/-- `C63_attribute_uses_partial`: the attribute `a` of the root of the chain is required in the
extension. -/
example : HasUse S 2 ⟨(0, ['a']), true, .type_ 7, none, none⟩ :=
  (C63_attribute_uses_partial result_ok flatC_chain flat_chain flat_same flat_regular flat_levels _).mpr
    ⟨⟨.named 1 ['a'], .inl (.type_ 7), .required, .unqualified, none⟩, by decide +kernel, by decide +kernel⟩

/-- `C63_attributes_exact`: the attribute `a` has two declarations. -/
example : declsOf (.named 1 ['a']) flatC = [(attr 'a' 7, c1), (attr 'a' 7 .required, c1)] := by decide +kernel

/-- `C63_types_processed`. -/
example : ∃ n, ∀ depth fuel, n ≤ depth → n ≤ fuel → ∃ st, typeAttrs S depth fuel 2 = .ok st :=
  C63_types_processed flatC_chain flat_regular.good

/-- `C63_cyclic_group_overflow`. -/
example : ∃ (S' : Schemas), S'.groups 3 = some ⟨c1, [.group (some 3), .any 0]⟩ :=
  ⟨⟨fun g => if g = 3 then some ⟨c1, [.group (some 3), .any 0]⟩ else none, fun _ => none, fun _ => none⟩, rfl⟩

/-! ## Findings -/

/-- A schema with a base type and a derived one. -/
def two (c : Ctx) (base : List Item) (dv : Derivation) (c' : Ctx) (own : List Item)
    (g : Option Global := none) : Schemas where
  groups _ := none
  globals r := if r = (1, ['r']) then g else none
  types k := match k with
    | 0 => some ⟨c, none, base⟩
    | 1 => some ⟨c', some (dv, 0), own⟩
    | _ => none

theorem own_attr {S : Schemas} {k : Nat} {T : CType} {d : Decl} {r : List Item} {l : List Flat}
    (hT : S.types k = some T) (hi : T.items = .attr d :: r) (hf : Flattens S .xmlSchema T.ctx r l) :
    Own S k d T.ctx :=
  ⟨T, _, hT, by rw [hi]; exact .attr hf, List.mem_cons_self⟩

/-- **C63 (negation).** A restriction gives the attribute `a` another type. The generated type has the
type of the base. -/
theorem C63_restricted_type_ignored :
    ∃ (S : Schemas) (st : St), typeAttrs S 1 2 1 = .ok st ∧
      HasUse S 1 ⟨(0, ['a']), false, .type_ 8, none, none⟩ ∧
      (fields st).map AMeta.toUse = [some ⟨(0, ['a']), false, .type_ 7, none, none⟩] := by
  refine ⟨two c1 [.attr (attr 'a' 7)] .restriction c1 [.attr (attr 'a' 8)], _, rfl, ?_, by decide +kernel⟩
  exact .own (d := attr 'a' 8) (c := c1)
    (own_attr (T := ⟨c1, some (.restriction, 0), [.attr (attr 'a' 8)]⟩) rfl rfl .nil) (by decide +kernel)

/-- **C63 (negation).** The fixed value of an attribute is not part of the generated type. -/
theorem C63_fixed_ignored :
    ∃ (S : Schemas) (st : St), typeAttrs S 1 1 0 = .ok st ∧
      HasUse S 0 ⟨(0, ['a']), false, .type_ 7, none, some ['1']⟩ ∧
      (fields st).map AMeta.toUse = [some ⟨(0, ['a']), false, .type_ 7, none, none⟩] := by
  refine ⟨two c1 [.attr { attr 'a' 7 with fixed := some ['1'] }] .restriction c1 [], _, rfl, ?_,
    by decide +kernel⟩
  exact .own (d := { attr 'a' 7 with fixed := some ['1'] }) (c := c1)
    (own_attr (T := ⟨c1, none, [.attr { attr 'a' 7 with fixed := some ['1'] }]⟩) rfl rfl .nil)
    (by decide +kernel)

/-- **C63 (negation).** A referenced global attribute is in its namespace. In a schema with unqualified
attributes, the default, the generated type has it without namespace. -/
theorem C63_reference_unqualified :
    ∃ (S : Schemas) (st : St), typeAttrs S 1 1 0 = .ok st ∧
      HasUse S 0 ⟨(1, ['r']), false, .global (1, ['r']), none, none⟩ ∧
      (fields st).map AMeta.toUse = [some ⟨(0, ['r']), false, .global (1, ['r']), none, none⟩] := by
  refine ⟨two c1 [.attr { ref_ := some (1, ['r']) }] .restriction c1 [] (some ⟨some 9, none, none⟩), _, rfl, ?_,
    by decide +kernel⟩
  exact .own (d := { ref_ := some (1, ['r']) }) (c := c1)
    (own_attr (T := ⟨c1, none, [.attr { ref_ := some (1, ['r']) }]⟩) rfl rfl .nil) (by decide +kernel)

/-- **C63 (negation).** The default of a referenced global attribute is lost. -/
theorem C63_global_default_lost :
    ∃ (S : Schemas) (st : St), typeAttrs S 1 1 0 = .ok st ∧
      HasUse S 0 ⟨(1, ['r']), false, .global (1, ['r']), some ['1'], none⟩ ∧
      (fields st).map AMeta.toUse = [some ⟨(1, ['r']), false, .global (1, ['r']), none, none⟩] := by
  refine ⟨two ⟨1, .qualified⟩ [.attr { ref_ := some (1, ['r']) }] .restriction c1 []
    (some ⟨some 9, some ['1'], none⟩), _, rfl, ?_, by decide +kernel⟩
  exact .own (d := { ref_ := some (1, ['r']) }) (c := ⟨1, .qualified⟩)
    (own_attr (T := ⟨⟨1, .qualified⟩, none, [.attr { ref_ := some (1, ['r']) }]⟩) rfl rfl .nil)
    (by decide +kernel)

/-- **C63 (negation).** A restriction declares the attribute without its default. The generated type
keeps the default of the base. -/
theorem C63_dropped_default_kept :
    ∃ (S : Schemas) (st : St), typeAttrs S 1 2 1 = .ok st ∧
      HasUse S 1 ⟨(0, ['a']), true, .type_ 7, none, none⟩ ∧
      (fields st).map AMeta.toUse = [some ⟨(0, ['a']), true, .type_ 7, some ['1'], none⟩] := by
  refine ⟨two c1 [.attr { attr 'a' 7 with default_ := some ['1'] }] .restriction c1
    [.attr (attr 'a' 7 .required)], _, rfl, ?_, by decide +kernel⟩
  exact .own (d := attr 'a' 7 .required) (c := c1)
    (own_attr (T := ⟨c1, some (.restriction, 0), [.attr (attr 'a' 7 .required)]⟩) rfl rfl .nil)
    (by decide +kernel)

/-- **C63 (negation).** An attribute without namespace is declared again by a restriction in a schema with
another target namespace. The generated type has two fields of the same name, one of them optional. -/
theorem C63_redeclared_twice :
    ∃ (S : Schemas) (st : St), typeAttrs S 1 2 1 = .ok st ∧
      HasUse S 1 ⟨(0, ['a']), true, .type_ 7, none, none⟩ ∧
      ¬ HasUse S 1 ⟨(0, ['a']), false, .type_ 7, none, none⟩ ∧
      (fields st).map AMeta.toUse =
        [some ⟨(0, ['a']), false, .type_ 7, none, none⟩, some ⟨(0, ['a']), true, .type_ 7, none, none⟩] := by
  refine ⟨two c1 [.attr (attr 'a' 7)] .restriction ⟨2, .unqualified⟩ [.attr (attr 'a' 7 .required)], _, rfl, ?_, ?_,
    by decide +kernel⟩
  · exact .own (d := attr 'a' 7 .required) (c := ⟨2, .unqualified⟩)
      (own_attr (T := ⟨⟨2, .unqualified⟩, some (.restriction, 0), [.attr (attr 'a' 7 .required)]⟩) rfl rfl .nil)
      (by decide +kernel)
  · have hl : Levels (two c1 [.attr (attr 'a' 7)] .restriction ⟨2, .unqualified⟩
        [.attr (attr 'a' 7 .required)]) 1 :=
      .derived (T := ⟨⟨2, .unqualified⟩, some (.restriction, 0), [.attr (attr 'a' 7 .required)]⟩) rfl rfl
        (.root (T := ⟨c1, none, [.attr (attr 'a' 7)]⟩) rfl rfl (.attr .nil) (by decide +kernel))
        (.attr .nil) (by decide +kernel) (by decide +kernel)
    have hc : Chain (two c1 [.attr (attr 'a' 7)] .restriction ⟨2, .unqualified⟩
        [.attr (attr 'a' 7 .required)]) .xmlSchema 1
        ([.attr (attr 'a' 7) c1] ++ [.attr (attr 'a' 7 .required) ⟨2, .unqualified⟩]) :=
      .derived (T := ⟨⟨2, .unqualified⟩, some (.restriction, 0), [.attr (attr 'a' 7 .required)]⟩) rfl rfl
        (.root (T := ⟨c1, none, [.attr (attr 'a' 7)]⟩) rfl rfl (.attr .nil))
        (.attr .nil)
    rw [hasUse_last hl hc]
    rintro ⟨p, h1, _, h3⟩
    have : p = (attr 'a' 7 .required, ⟨2, .unqualified⟩) := by
      have h0 : lastOf (0, ['a'])
        ([.attr (attr 'a' 7) c1] ++ [.attr (attr 'a' 7 .required) ⟨2, .unqualified⟩]) =
          some (attr 'a' 7 .required, ⟨2, .unqualified⟩) := by decide +kernel
      rw [h0] at h1
      cases h1
      rfl
    subst this
    have := congrArg AUse.required h3
    revert this
    decide +kernel

/-- **C63 (negation).** A qualified and an unqualified attribute of the same local name are different
attributes. The generated type has one field. -/
theorem C63_forms_merged :
    ∃ (S : Schemas) (st : St), typeAttrs S 1 1 0 = .ok st ∧
      HasUse S 0 ⟨(0, ['a']), false, .type_ 7, none, none⟩ ∧
      HasUse S 0 ⟨(1, ['a']), false, .type_ 8, none, none⟩ ∧
      (fields st).map AMeta.toUse = [some ⟨(0, ['a']), false, .type_ 7, none, none⟩] := by
  refine ⟨two c1 [.attr (attr 'a' 7), .attr { attr 'a' 8 with form := some .qualified }] .restriction c1 [],
    _, rfl, ?_, ?_, by decide +kernel⟩
  · exact .own (d := attr 'a' 7) (c := c1)
      (own_attr (T := ⟨c1, none, [.attr (attr 'a' 7), .attr { attr 'a' 8 with form := some .qualified }]⟩) rfl rfl
        (.attr .nil)) (by decide +kernel)
  · refine .own (d := { attr 'a' 8 with form := some .qualified }) (c := c1)
      ⟨⟨c1, none, [.attr (attr 'a' 7), .attr { attr 'a' 8 with form := some .qualified }]⟩, _, rfl,
        .attr (.attr .nil), ?_⟩ (by decide +kernel)
    simp

/-- **C63 (negation).** XML Schema ignores `prohibited` in an extension. The generated type loses the
inherited attribute. -/
theorem C63_extension_prohibits :
    ∃ (S : Schemas) (st : St), typeAttrs S 1 2 1 = .ok st ∧
      HasUse S 1 ⟨(0, ['a']), true, .type_ 7, none, none⟩ ∧ fields st = [] := by
  refine ⟨two c1 [.attr (attr 'a' 7 .required)] .extension c1 [.attr (attr 'a' 7 .prohibited)], _, rfl, ?_,
    by decide +kernel⟩
  refine .extended (T := ⟨c1, some (.extension, 0), [.attr (attr 'a' 7 .prohibited)]⟩) (b := 0) rfl rfl
    (.own (d := attr 'a' 7 .required) (c := c1)
      (own_attr (T := ⟨c1, none, [.attr (attr 'a' 7 .required)]⟩) rfl rfl .nil) (by decide +kernel)) ?_
  rintro d c ⟨T, l, hT, hf, hm⟩ hu
  cases hT
  have : l = [.attr (attr 'a' 7 .prohibited) c1] := hf.unique (.attr .nil)
  subst this
  simp only [List.mem_singleton, Flat.attr.injEq] at hm
  obtain ⟨rfl, rfl⟩ := hm
  exact absurd rfl hu

/-- **C63 (negation).** A type of namespace `1` refers to a group of namespace `2` with a qualified attribute.
The attribute has the namespace of the group, the field has that of the type. -/
theorem C63_group_of_other_namespace :
    ∃ (S : Schemas) (st : St), typeAttrs S 2 1 0 = .ok st ∧
      HasUse S 0 ⟨(2, ['a']), true, .type_ 7, none, none⟩ ∧
      (fields st).map AMeta.toUse = [some ⟨(1, ['a']), true, .type_ 7, none, none⟩] := by
  refine ⟨⟨fun _ => some ⟨⟨2, .qualified⟩, [.attr (attr 'a' 7 .required)]⟩, fun _ => none,
    fun _ => some ⟨⟨1, .qualified⟩, none, [.group (some 0)]⟩⟩, _, rfl, ?_, by decide +kernel⟩
  exact .own (d := attr 'a' 7 .required) (c := ⟨2, .qualified⟩)
    ⟨⟨⟨1, .qualified⟩, none, [.group (some 0)]⟩, _, rfl, .group rfl (.attr .nil) .nil, by simp [Scope.ctx]⟩ (by decide +kernel)

/-- **C63 (negation).** The schema of the group has qualified attributes, that of the type has not: the field
has no namespace. -/
theorem C63_group_of_other_form :
    ∃ (S : Schemas) (st : St), typeAttrs S 2 1 0 = .ok st ∧
      HasUse S 0 ⟨(1, ['a']), true, .type_ 7, none, none⟩ ∧
      (fields st).map AMeta.toUse = [some ⟨(0, ['a']), true, .type_ 7, none, none⟩] := by
  refine ⟨⟨fun _ => some ⟨⟨1, .qualified⟩, [.attr (attr 'a' 7 .required)]⟩, fun _ => none,
    fun _ => some ⟨⟨1, .unqualified⟩, none, [.group (some 0)]⟩⟩, _, rfl, ?_, by decide +kernel⟩
  exact .own (d := attr 'a' 7 .required) (c := ⟨1, .qualified⟩)
    ⟨⟨⟨1, .unqualified⟩, none, [.group (some 0)]⟩, _, rfl, .group rfl (.attr .nil) .nil, by simp [Scope.ctx]⟩ (by decide +kernel)

/-- The type allows any attribute (XML Schema 3.4.2.5): it has a wildcard, or it extends a type that has
one. -/
inductive HasWild (S : Schemas) : Nat → Prop
  | own {k T l w} : S.types k = some T → Flattens S .xmlSchema T.ctx T.items l → .any w ∈ l → HasWild S k
  | extended {k T b} : S.types k = some T → T.base = some (.extension, b) → HasWild S b → HasWild S k

/-- **C63 (negation).** A restriction without wildcard of a type with wildcard does not allow other
attributes. The generated type does. -/
theorem C63_restriction_keeps_wildcard :
    ∃ (S : Schemas) (st : St), typeAttrs S 1 2 1 = .ok st ∧ ¬ HasWild S 1 ∧ wildsOf (fields st) = [5] := by
  refine ⟨two c1 [.any 5] .restriction c1 [], _, rfl, ?_, by decide +kernel⟩
  intro h
  cases h with
  | own hT hf hm =>
    cases hT
    cases hf
    cases hm
  | extended hT hb _ => cases hT; cases hb

theorem wilds_scope {S : Schemas} {sc sc' : Scope} {c : Ctx} {is : List Item} {l : List Flat}
    (h : Flattens S sc c is l) : ∀ {c' l'}, Flattens S sc' c' is l' → wilds l = wilds l' := by
  induction h with
  | nil => intro c' l' h'; cases h'; rfl
  | attr _ ih =>
    intro c' l' h'
    cases h' with
    | attr h' => have := ih h'; simp only [wilds, List.filterMap_cons] at this ⊢; exact this
  | any _ ih =>
    intro c' l' h'
    cases h' with
    | any h' => have := ih h'; simp only [wilds, List.filterMap_cons] at this ⊢; rw [this]
  | group hG _ _ ih1 ih2 =>
    intro c' l' h'
    cases h' with
    | group hG' h1 h2 =>
      rw [hG] at hG'
      cases hG'
      have e1 := ih1 h1
      have e2 := ih2 h2
      simp only [wilds, List.filterMap_append] at e1 e2 ⊢
      rw [e1, e2]

/-- **C63 (wildcards).** A type that allows any attribute has a field for it. -/
theorem C63_wildcards_kept_partial {S : Schemas} {depth fuel k : Nat} {st : St} {l : List Flat}
    (h : typeAttrs S depth fuel k = .ok st) (hc : Chain S .code k l) (hg : ∀ p ∈ decls l, p.1.Good S)
    (hw : HasWild S k) : wildsOf (fields st) ≠ [] := by
  have hex : wilds l ≠ [] := by
    clear h hg
    induction hw generalizing l with
    | @own k T l' w hT hf hm =>
      have key : ∀ l'' : List Flat, .any w ∈ l'' → wilds l'' ≠ [] := by
        intro l'' h e
        rw [wilds, List.filterMap_eq_nil_iff] at e
        exact absurd (e _ h) (by simp)
      cases hc with
      | root hT' _ hf' => rw [hT] at hT'; cases hT'; rw [← wilds_scope hf hf']; exact key _ hm
      | derived hT' _ _ hf' =>
        rw [hT] at hT'; cases hT'
        have := key _ hm
        rw [wilds_scope hf hf'] at this
        intro e
        rw [wilds, List.filterMap_append, List.append_eq_nil_iff] at e
        exact this e.2
    | extended hT hb _ ih =>
      cases hc with
      | root hT' hb' _ => rw [hT] at hT'; cases hT'; rw [hb] at hb'; cases hb'
      | derived hT' hb' hcb _ =>
        rw [hT] at hT'; cases hT'
        rw [hb] at hb'; cases hb'
        have := ih hcb
        intro e
        rw [wilds, List.filterMap_append, List.append_eq_nil_iff] at e
        exact this e.1
  obtain ⟨l', hc', hf⟩ := typeAttrs_chain S depth fuel k st h
  obtain rfl := hc.unique hc'
  have hi := inv_flats l [] {} st hg inv_nil hf
  simp only [List.nil_append] at hi
  rw [← hi.wilds] at hex
  intro e
  apply hex
  rw [wildsOf, List.filterMap_eq_nil_iff] at e ⊢
  intro m hm
  rcases hi.kinds m hm with ⟨_, _, t, _, hv⟩ | ⟨_, w, _, hv, hu⟩
  · rw [hv]
  · exact e m (by rw [fields, List.mem_filter]; exact ⟨hm, by rw [hu]; rfl⟩)

/-- `C63_wildcards_kept_partial`: the example has a wildcard through the restriction, so the
specification only gives it to the root. -/
example : HasWild S 0 :=
  .own (T := ⟨c1, none, [.attr (attr 'a' 7), .group (some 0), .attr (attr 'b' 8)]⟩) (w := 5) rfl
    (.attr (.group (l := [.attr gA c2,
        .attr { ref_ := some (2, ['r']), form := some .qualified } c2, .any 5])
      (G := ⟨c2, [.attr gA, .attr { ref_ := some (2, ['r']), form := some .qualified }, .any 5]⟩)
      rfl (.attr (.attr (.any .nil))) (.attr .nil)))
    (by simp)

end Verif.Attrs.Examples

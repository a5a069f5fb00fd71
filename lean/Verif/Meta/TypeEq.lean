import Verif.Meta.Types
/-!
# Structural equality of types and its hash (C34)

Models the `TypeEq` implementations of `xsd-parser/src/models/meta/*.rs` (all files cited are there). A hash is the list
of the values written to the `Hasher`, in order; equal lists give equal hashes for every hasher.
-/
namespace Verif.Meta

open Verif.Occurs (MaxOccurs)

/-! ## Equality -/

/-- `TypeEq::type_eq_iter`, type_eq.rs:35-55. -/
def eqIter {α : Type} (f : α → α → Bool) : List α → List α → Bool
  | [], [] => true
  | x :: xs, y :: ys => if f x y then eqIter f xs ys else false
  | _, _ => false

/-- `TypeEq for TypeIdent`, type_eq.rs:63-68. -/
def identEq (T : Types) (a b : Ident) : Bool := res T a == res T b

/-- `TypeEq for Option<T>`, type_eq.rs:114-120. -/
def optEq {α : Type} (f : α → α → Bool) : Option α → Option α → Bool
  | some x, some y => f x y
  | none, none => true
  | _, _ => false

/-- `TypeEq for Base`, base.rs:80-90. -/
def Base.eq (T : Types) : Base → Base → Bool
  | .none, .none => true
  | .ext x, .ext y => identEq T x y
  | .restr x, .restr y => identEq T x y
  | _, _ => false

/-- `TypeEq for UnionMetaType`, union.rs. -/
def UnionType.eq (T : Types) (a b : UnionType) : Bool :=
  identEq T a.type_ b.type_ && a.displayName == b.displayName

/-- `TypeEq for UnionMeta`, union.rs. -/
def Union.eq (T : Types) (a b : Union) : Bool :=
  a.base.eq T b.base && eqIter (UnionType.eq T) a.types b.types && a.constrains == b.constrains

/-- `TypeEq for EnumerationMetaVariant`, enumeration.rs. -/
def EnumVariant.eq (T : Types) (a b : EnumVariant) : Bool :=
  a.ident == b.ident && a.use_ == b.use_ && optEq (identEq T) a.type_ b.type_ && a.displayName == b.displayName &&
    a.documentation == b.documentation && a.namespaces == b.namespaces

/-- `TypeEq for EnumerationMeta`, enumeration.rs. -/
def Enumeration.eq (T : Types) (a b : Enumeration) : Bool :=
  a.base.eq T b.base && eqIter (EnumVariant.eq T) a.variants b.variants && a.constrains == b.constrains

/-- `TypeEq for ReferenceMeta`, reference.rs. -/
def Reference.eq (T : Types) (a b : Reference) : Bool :=
  identEq T a.type_ b.type_ && a.nillable == b.nillable && a.min == b.min && a.max == b.max

/-- `TypeEq for DerivedTypeMeta`, dynamic.rs. -/
def Derived.eq (T : Types) (a b : Derived) : Bool :=
  identEq T a.type_ b.type_ && a.displayName == b.displayName && a.relationship == b.relationship

/-- `TypeEq for (T1, T2)`, type_eq.rs:94-96, for an entry of `derived_types`. -/
def entryEq (T : Types) (a b : Ident × Derived) : Bool := identEq T a.1 b.1 && a.2.eq T b.2

/-- `TypeEq for DynamicMeta`, dynamic.rs. -/
def Dynamic.eq (T : Types) (a b : Dynamic) : Bool :=
  optEq (identEq T) a.type_ b.type_ && a.isAbstract == b.isAbstract && eqIter (entryEq T) a.derived b.derived

/-- `TypeEq for ElementMetaVariant`, element.rs:322-337. -/
def ElementVariant.eq (T : Types) : ElementVariant → ElementVariant → Bool
  | .any a, .any b => a == b
  | .type_ a m, .type_ b m' => m == m' && identEq T a b
  | _, _ => false

/-- `TypeEq for ElementMeta`, element.rs:229-250. -/
def Element.eq (T : Types) (a b : Element) : Bool :=
  a.ident == b.ident && a.variant.eq T b.variant && a.form == b.form && a.flags == b.flags && a.min == b.min &&
    a.max == b.max && a.displayName == b.displayName && a.documentation == b.documentation

/-- `TypeEq for GroupMeta`, complex.rs. -/
def Group.eq (T : Types) (a b : Group) : Bool :=
  a.isMixed == b.isMixed && eqIter (Element.eq T) a.elements b.elements

/-- `TypeEq for AttributeMetaVariant`, attribute.rs. -/
def AttrVariant.eq (T : Types) : AttrVariant → AttrVariant → Bool
  | .any a, .any b => a == b
  | .type_ a, .type_ b => identEq T a b
  | _, _ => false

/-- `TypeEq for AttributeMeta`, attribute.rs. -/
def Attribute.eq (T : Types) (a b : Attribute) : Bool :=
  a.ident == b.ident && a.variant.eq T b.variant && a.use_ == b.use_ && a.form == b.form && a.default_ == b.default_ &&
    a.displayName == b.displayName && a.documentation == b.documentation && a.namespaces == b.namespaces

/-- `TypeEq for ComplexMeta`, complex.rs. -/
def Complex.eq (T : Types) (a b : Complex) : Bool :=
  a.base.eq T b.base && optEq (identEq T) a.content b.content && a.min == b.min && a.max == b.max &&
    a.isDynamic == b.isDynamic && a.isMixed == b.isMixed && eqIter (Attribute.eq T) a.attributes b.attributes

/-- `TypeEq for SimpleMeta`, simple.rs. -/
def Simple.eq (T : Types) (a b : Simple) : Bool :=
  identEq T a.base b.base && a.isList == b.isList && a.constrains == b.constrains

/-- The `match` of `type_eq` in `TypeEq for MetaType`, type_.rs (there is no case for two custom types). -/
def Variant.eq (T : Types) : Variant → Variant → Bool
  | .union x, .union y => x.eq T y
  | .buildIn x, .buildIn y => x == y
  | .reference x, .reference y => x.eq T y
  | .enumeration x, .enumeration y => x.eq T y
  | .dynamic x, .dynamic y => x.eq T y
  | .all x, .all y => x.eq T y
  | .choice x, .choice y => x.eq T y
  | .sequence x, .sequence y => x.eq T y
  | .complex x, .complex y => x.eq T y
  | .simple x, .simple y => x.eq T y
  | _, _ => false

/-- `TypeEq for MetaType`, type_.rs. -/
def MetaType.typeEq (T : Types) (a b : MetaType) : Bool :=
  if a.displayName ≠ b.displayName then false else a.variant.eq T b.variant

/-! ## Hash -/

/-- A value written to the hasher (`write_u8`, `write_usize`, or the derived `Hash` of a value). -/
inductive Tok where
  | u8 (n : Nat) | usize (n : Nat) | ident (i : Ident) | prop (p : PropIdent) | name (t : Option Txt) | docs (d : List Txt)
  | constrains (c : Constrains) | use_ (u : Use) | ns (n : Option NsMap) | bool (b : Bool) | min (n : Nat)
  | max (m : MaxOccurs) | rel (r : Relationship) | form (f : Form) | flags (f : Flags) | mode (m : Mode)
  | buildIn (b : BuildIn) | custom (n : Txt)
deriving DecidableEq

/-- `TypeEq::type_hash_iter`, type_eq.rs:18-29. -/
def hashIter {α : Type} (f : α → List Tok) (l : List α) : List Tok := l.flatMap f ++ [.usize l.length]

/-- `TypeEq for TypeIdent`, type_eq.rs:59-61. -/
def identHash (T : Types) (a : Ident) : List Tok := [.ident (res T a)]

/-- `TypeEq for Option<T>`, type_eq.rs:105-112. -/
def optHash {α : Type} (f : α → List Tok) : Option α → List Tok
  | some x => .u8 1 :: f x
  | none => [.u8 0]

/-- `TypeEq for Base`, base.rs:66-78. -/
def Base.hash (T : Types) : Base → List Tok
  | .none => [.u8 0]
  | .ext x => .u8 1 :: identHash T x
  | .restr x => .u8 2 :: identHash T x

/-- union.rs. -/
def UnionType.hash (T : Types) (a : UnionType) : List Tok := identHash T a.type_ ++ [.name a.displayName]

/-- union.rs. -/
def Union.hash (T : Types) (a : Union) : List Tok :=
  a.base.hash T ++ hashIter (UnionType.hash T) a.types ++ [.constrains a.constrains]

/-- enumeration.rs. -/
def EnumVariant.hash (T : Types) (a : EnumVariant) : List Tok :=
  [.prop a.ident, .use_ a.use_] ++ optHash (identHash T) a.type_ ++
    [.name a.displayName, .docs a.documentation, .ns a.namespaces]

/-- enumeration.rs. -/
def Enumeration.hash (T : Types) (a : Enumeration) : List Tok :=
  a.base.hash T ++ hashIter (EnumVariant.hash T) a.variants ++ [.constrains a.constrains]

/-- reference.rs. -/
def Reference.hash (T : Types) (a : Reference) : List Tok :=
  identHash T a.type_ ++ [.bool a.nillable, .min a.min, .max a.max]

/-- dynamic.rs. -/
def Derived.hash (T : Types) (a : Derived) : List Tok :=
  identHash T a.type_ ++ [.name a.displayName, .rel a.relationship]

/-- dynamic.rs. -/
def Dynamic.hash (T : Types) (a : Dynamic) : List Tok :=
  optHash (identHash T) a.type_ ++ [.bool a.isAbstract] ++
    hashIter (fun p => identHash T p.1 ++ p.2.hash T) a.derived

/-- element.rs:305-320; the hash of `xs:any` information is the hash of its id (340-350). -/
def ElementVariant.hash (T : Types) : ElementVariant → List Tok
  | .any m => [.u8 0, .name m.id]
  | .type_ i m => .u8 1 :: (identHash T i ++ [.mode m])
  | .text => [.u8 2]

/-- element.rs:204-227. -/
def Element.hash (T : Types) (a : Element) : List Tok :=
  [.prop a.ident] ++ a.variant.hash T ++
    [.form a.form, .flags a.flags, .min a.min, .max a.max, .name a.displayName, .docs a.documentation]

/-- complex.rs. -/
def Group.hash (T : Types) (a : Group) : List Tok := .bool a.isMixed :: hashIter (Element.hash T) a.elements

/-- attribute.rs. -/
def AttrVariant.hash (T : Types) : AttrVariant → List Tok
  | .any m => [.u8 0, .name m.id]
  | .type_ i => .u8 1 :: identHash T i

/-- attribute.rs. -/
def Attribute.hash (T : Types) (a : Attribute) : List Tok :=
  [.prop a.ident] ++ a.variant.hash T ++
    [.use_ a.use_, .form a.form, .name a.default_, .name a.displayName, .docs a.documentation, .ns a.namespaces]

/-- complex.rs. -/
def Complex.hash (T : Types) (a : Complex) : List Tok :=
  a.base.hash T ++ optHash (identHash T) a.content ++ [.min a.min, .max a.max, .bool a.isDynamic, .bool a.isMixed] ++
    hashIter (Attribute.hash T) a.attributes

/-- simple.rs. -/
def Simple.hash (T : Types) (a : Simple) : List Tok :=
  identHash T a.base ++ [.bool a.isList, .constrains a.constrains]

/-- The `match` of `type_hash` in `TypeEq for MetaType`, type_.rs. -/
def Variant.hash (T : Types) : Variant → List Tok
  | .union x => x.hash T
  | .custom n => [.custom n]
  | .buildIn b => [.buildIn b]
  | .reference x => x.hash T
  | .enumeration x => x.hash T
  | .dynamic x => x.hash T
  | .all x => x.hash T
  | .choice x => x.hash T
  | .sequence x => x.hash T
  | .complex x => x.hash T
  | .simple x => x.hash T

/-- `TypeEq for MetaType`, type_.rs. -/
def MetaType.typeHash (T : Types) (a : MetaType) : List Tok := .name a.displayName :: a.variant.hash T

/-! ## Specification

`mapIdents f` replaces every type identifier mentioned in a definition by `f` of it. Two definitions are equal up to
synonyms when they become identical once every mentioned identifier is replaced by the end of its chain of synonyms. -/

def Base.mapIdents (f : Ident → Ident) : Base → Base
  | .none => .none
  | .ext i => .ext (f i)
  | .restr i => .restr (f i)

def UnionType.mapIdents (f : Ident → Ident) (x : UnionType) : UnionType := { x with type_ := f x.type_ }

def EnumVariant.mapIdents (f : Ident → Ident) (x : EnumVariant) : EnumVariant := { x with type_ := x.type_.map f }

def Derived.mapIdents (f : Ident → Ident) (x : Derived) : Derived := { x with type_ := f x.type_ }

def ElementVariant.mapIdents (f : Ident → Ident) : ElementVariant → ElementVariant
  | .text => .text
  | .any m => .any m
  | .type_ i m => .type_ (f i) m

def Element.mapIdents (f : Ident → Ident) (x : Element) : Element := { x with variant := x.variant.mapIdents f }

def Group.mapIdents (f : Ident → Ident) (x : Group) : Group := { x with elements := x.elements.map (·.mapIdents f) }

def AttrVariant.mapIdents (f : Ident → Ident) : AttrVariant → AttrVariant
  | .any m => .any m
  | .type_ i => .type_ (f i)

def Attribute.mapIdents (f : Ident → Ident) (x : Attribute) : Attribute :=
  { x with variant := x.variant.mapIdents f }

def Variant.mapIdents (f : Ident → Ident) : Variant → Variant
  | .union x => .union { x with base := x.base.mapIdents f, types := x.types.map (·.mapIdents f) }
  | .buildIn b => .buildIn b
  | .custom n => .custom n
  | .reference x => .reference { x with type_ := f x.type_ }
  | .enumeration x => .enumeration { x with base := x.base.mapIdents f, variants := x.variants.map (·.mapIdents f) }
  | .dynamic x => .dynamic { x with
      type_ := x.type_.map f, derived := x.derived.map fun p => (f p.1, p.2.mapIdents f) }
  | .all x => .all (x.mapIdents f)
  | .choice x => .choice (x.mapIdents f)
  | .sequence x => .sequence (x.mapIdents f)
  | .complex x => .complex { x with
      base := x.base.mapIdents f, content := x.content.map f, attributes := x.attributes.map (·.mapIdents f) }
  | .simple x => .simple { x with base := f x.base }

/-- A definition the equality can compare: not a custom type and not a group with a text element. -/
def Variant.Comparable : Variant → Prop
  | .custom _ => False
  | .all x | .choice x | .sequence x => ∀ e ∈ x.elements, e.variant ≠ .text
  | _ => True

/-- Equal up to synonyms. -/
def SameUpToSynonyms (T : Types) (a b : MetaType) : Prop :=
  a.displayName = b.displayName ∧ a.variant.mapIdents (res T) = b.variant.mapIdents (res T)

/-! ## Proofs -/

theorem eqIter_iff {α β : Type} (f : α → α → Bool) (g : α → β) (P : α → Prop)
    (h : ∀ x y, f x y = true ↔ P x ∧ g x = g y) (xs ys : List α) :
    eqIter f xs ys = true ↔ (∀ x ∈ xs, P x) ∧ xs.map g = ys.map g := by
  induction xs generalizing ys with
  | nil => cases ys <;> simp [eqIter]
  | cons x xs ih =>
    cases ys with
    | nil => simp [eqIter]
    | cons y ys =>
      simp only [eqIter, List.map_cons, List.cons.injEq, List.mem_cons, forall_eq_or_imp]
      by_cases hf : f x y = true
      · rw [if_pos hf, ih]
        have := (h x y).1 hf
        constructor
        · rintro ⟨h1, h2⟩; exact ⟨⟨this.1, h1⟩, this.2, h2⟩
        · rintro ⟨⟨_, h1⟩, _, h2⟩; exact ⟨h1, h2⟩
      · rw [if_neg hf]
        constructor
        · intro hc; cases hc
        · rintro ⟨⟨h1, _⟩, h2, _⟩; exact absurd ((h x y).2 ⟨h1, h2⟩) hf

theorem eqIter_iff' {α β : Type} (f : α → α → Bool) (g : α → β) (h : ∀ x y, f x y = true ↔ g x = g y)
    (xs ys : List α) : eqIter f xs ys = true ↔ xs.map g = ys.map g := by
  have := eqIter_iff f g (fun _ => True) (by simpa using h) xs ys
  simpa using this

theorem identEq_iff (T : Types) (a b : Ident) : identEq T a b = true ↔ res T a = res T b := by
  simp [identEq]

theorem optEq_iff (T : Types) (a b : Option Ident) :
    optEq (identEq T) a b = true ↔ a.map (res T) = b.map (res T) := by
  cases a <;> cases b <;> simp [optEq, identEq_iff]

theorem Base.eq_iff (T : Types) (a b : Base) : a.eq T b = true ↔ a.mapIdents (res T) = b.mapIdents (res T) := by
  cases a <;> cases b <;> simp [Base.eq, Base.mapIdents, identEq_iff]

theorem UnionType.eq_iff (T : Types) (a b : UnionType) :
    a.eq T b = true ↔ a.mapIdents (res T) = b.mapIdents (res T) := by
  simp [UnionType.eq, UnionType.mapIdents, identEq_iff]

theorem EnumVariant.eq_iff (T : Types) (a b : EnumVariant) :
    a.eq T b = true ↔ a.mapIdents (res T) = b.mapIdents (res T) := by
  simp [EnumVariant.eq, EnumVariant.mapIdents, optEq_iff, and_assoc]

theorem entryEq_iff (T : Types) (a b : Ident × Derived) :
    entryEq T a b = true ↔ (res T a.1, a.2.mapIdents (res T)) = (res T b.1, b.2.mapIdents (res T)) := by
  simp [entryEq, Derived.eq, Derived.mapIdents, identEq_iff, and_assoc]

theorem ElementVariant.eq_iff (T : Types) (a b : ElementVariant) :
    a.eq T b = true ↔ a ≠ .text ∧ a.mapIdents (res T) = b.mapIdents (res T) := by
  cases a <;> cases b <;> simp [ElementVariant.eq, ElementVariant.mapIdents, identEq_iff, and_comm]

theorem Element.eq_iff (T : Types) (a b : Element) :
    a.eq T b = true ↔ a.variant ≠ .text ∧ a.mapIdents (res T) = b.mapIdents (res T) := by
  simp only [Element.eq, Element.mapIdents, Bool.and_eq_true, beq_iff_eq, ElementVariant.eq_iff, Element.mk.injEq]
  constructor
  · rintro ⟨⟨⟨⟨⟨⟨⟨h1, h2, h3⟩, h4⟩, h5⟩, h6⟩, h7⟩, h8⟩, h9⟩
    exact ⟨h2, h1, h3, h4, h5, h6, h7, h8, h9⟩
  · rintro ⟨h2, h1, h3, h4, h5, h6, h7, h8, h9⟩
    exact ⟨⟨⟨⟨⟨⟨⟨h1, h2, h3⟩, h4⟩, h5⟩, h6⟩, h7⟩, h8⟩, h9⟩

theorem Group.eq_iff (T : Types) (a b : Group) :
    a.eq T b = true ↔ (∀ e ∈ a.elements, e.variant ≠ .text) ∧ a.mapIdents (res T) = b.mapIdents (res T) := by
  simp only [Group.eq, Group.mapIdents, Bool.and_eq_true, beq_iff_eq,
    eqIter_iff (Element.eq T) (·.mapIdents (res T)) (·.variant ≠ .text) (Element.eq_iff T), Group.mk.injEq]
  constructor
  · rintro ⟨h1, h2, h3⟩; exact ⟨h2, h1, h3⟩
  · rintro ⟨h2, h1, h3⟩; exact ⟨h1, h2, h3⟩

theorem Attribute.eq_iff (T : Types) (a b : Attribute) :
    a.eq T b = true ↔ a.mapIdents (res T) = b.mapIdents (res T) := by
  have : ∀ x y : AttrVariant, x.eq T y = true ↔ x.mapIdents (res T) = y.mapIdents (res T) := by
    intro x y
    cases x <;> cases y <;> simp [AttrVariant.eq, AttrVariant.mapIdents, identEq_iff]
  simp [Attribute.eq, Attribute.mapIdents, this, and_assoc]

theorem Variant.eq_iff (T : Types) (a b : Variant) :
    a.eq T b = true ↔ a.Comparable ∧ a.mapIdents (res T) = b.mapIdents (res T) := by
  cases a <;> cases b <;>
    simp [Variant.eq, Variant.mapIdents, Variant.Comparable, Group.eq_iff, Union.eq, Enumeration.eq, Reference.eq,
      Dynamic.eq, Complex.eq, Simple.eq, Base.eq_iff, optEq_iff, identEq_iff, and_assoc,
      eqIter_iff' _ _ (UnionType.eq_iff T), eqIter_iff' _ _ (EnumVariant.eq_iff T), eqIter_iff' _ _ (entryEq_iff T),
      eqIter_iff' _ _ (Attribute.eq_iff T)]

/-- C34: two definitions are considered equal exactly when they are identical up to synonyms and contain nothing the
comparison does not support (a custom type, a text element). -/
theorem C34_equal_iff_same_up_to_synonyms (T : Types) (a b : MetaType) :
    a.typeEq T b = true ↔ a.variant.Comparable ∧ SameUpToSynonyms T a b := by
  simp only [MetaType.typeEq, SameUpToSynonyms]
  by_cases h : a.displayName = b.displayName
  · simp [h, Variant.eq_iff]
  · simp [h]

theorem Variant.comparable_congr {f : Ident → Ident} {a b : Variant} (h : a.mapIdents f = b.mapIdents f) :
    a.Comparable → b.Comparable := by
  have hg : ∀ x y : Group, x.mapIdents f = y.mapIdents f → (∀ e ∈ x.elements, e.variant ≠ .text) →
      ∀ e ∈ y.elements, e.variant ≠ .text := by
    intro x y hxy hx e he ht
    have h1 : x.elements.map (·.mapIdents f) = y.elements.map (·.mapIdents f) := by
      have := congrArg Group.elements hxy
      simpa [Group.mapIdents] using this
    have h2 : e.mapIdents f ∈ x.elements.map (·.mapIdents f) := by
      rw [h1]; exact List.mem_map.2 ⟨e, he, rfl⟩
    obtain ⟨e', he', heq⟩ := List.mem_map.1 h2
    have h3 : e'.variant.mapIdents f = e.variant.mapIdents f := by
      have := congrArg Element.variant heq
      simpa [Element.mapIdents] using this
    rw [ht] at h3
    have := hx e' he'
    cases hv : e'.variant <;> rw [hv] at h3 this <;> simp [ElementVariant.mapIdents] at h3 this
  cases a <;> cases b <;> simp [Variant.mapIdents] at h <;> simp only [Variant.Comparable] <;>
    first | (intro hc; exact hc) | exact hg _ _ h | simp

/-- C34: equality of types is symmetric. -/
theorem C34_symmetric (T : Types) (a b : MetaType) (h : a.typeEq T b = true) : b.typeEq T a = true := by
  rw [C34_equal_iff_same_up_to_synonyms] at h ⊢
  exact ⟨Variant.comparable_congr h.2.2 h.1, h.2.1.symm, h.2.2.symm⟩

/-- C34: equality of types is transitive. -/
theorem C34_transitive (T : Types) (a b c : MetaType) (h : a.typeEq T b = true) (h' : b.typeEq T c = true) :
    a.typeEq T c = true := by
  rw [C34_equal_iff_same_up_to_synonyms] at h h' ⊢
  exact ⟨h.1, h.2.1.trans h'.2.1, h.2.2.trans h'.2.2⟩

/-- C34 (partial): a type is equal to itself unless it is a custom type or a group with a text element. Missing: those
two kinds of types, for which `C34_not_reflexive` shows that the claim is false. -/
theorem C34_reflexive_partial (T : Types) (a : MetaType) : a.typeEq T a = true ↔ a.variant.Comparable := by
  rw [C34_equal_iff_same_up_to_synonyms]
  exact ⟨fun h => h.1, fun h => ⟨h, rfl, rfl⟩⟩

/-- C34 (negation): a custom type, and a mixed sequence with one text element, are not equal to themselves. -/
theorem C34_not_reflexive :
    let custom : MetaType := .new (.custom "MyType".toList)
    let text : Element := ⟨⟨0, .generated "text".toList⟩, .text, .unqualified, ⟨false, false, true, false, false⟩, 0,
      .bounded 1, none, []⟩
    let mixed : MetaType := .new (.sequence ⟨true, [text]⟩)
    ∀ T : Types, custom.typeEq T custom = false ∧ mixed.typeEq T mixed = false := by
  intro custom text mixed T
  constructor
  · simp [custom, MetaType.typeEq, MetaType.new, Variant.eq]
  · simp [mixed, text, MetaType.typeEq, MetaType.new, Variant.eq, Group.eq, eqIter, Element.eq, ElementVariant.eq]

theorem hashIter_congr {α β : Type} (f : α → List Tok) (g : α → β) (h : ∀ x y, g x = g y → f x = f y)
    {xs ys : List α} (he : xs.map g = ys.map g) : hashIter f xs = hashIter f ys := by
  have hl : xs.length = ys.length := by simpa using congrArg List.length he
  have hm : xs.flatMap f = ys.flatMap f := by
    clear hl
    induction xs generalizing ys with
    | nil => cases ys <;> simp at he ⊢
    | cons x xs ih =>
      cases ys with
      | nil => simp at he
      | cons y ys =>
        simp only [List.map_cons, List.cons.injEq] at he
        simp only [List.flatMap_cons]
        rw [h x y he.1, ih he.2]
  simp [hashIter, hl, hm]

theorem Base.hash_congr (T : Types) {a b : Base} (h : a.mapIdents (res T) = b.mapIdents (res T)) :
    a.hash T = b.hash T := by
  cases a <;> cases b <;> simp_all [Base.mapIdents, Base.hash, identHash]

theorem optHash_congr (T : Types) {a b : Option Ident} (h : a.map (res T) = b.map (res T)) :
    optHash (identHash T) a = optHash (identHash T) b := by
  cases a <;> cases b <;> simp_all [optHash, identHash]

theorem Element.hash_congr (T : Types) (a b : Element) (h : a.mapIdents (res T) = b.mapIdents (res T)) :
    a.hash T = b.hash T := by
  simp only [Element.mapIdents, Element.mk.injEq] at h
  obtain ⟨h1, h2, h3, h4, h5, h6, h7, h8⟩ := h
  have hv : a.variant.hash T = b.variant.hash T := by
    cases ha : a.variant <;> cases hb : b.variant <;> rw [ha, hb] at h2 <;>
      simp_all [ElementVariant.mapIdents, ElementVariant.hash, identHash]
  simp [Element.hash, hv, h1, h3, h4, h5, h6, h7, h8]

theorem Group.hash_congr (T : Types) (a b : Group) (h : a.mapIdents (res T) = b.mapIdents (res T)) :
    a.hash T = b.hash T := by
  simp only [Group.mapIdents, Group.mk.injEq] at h
  simp [Group.hash, h.1, hashIter_congr _ _ (Element.hash_congr T) h.2]

theorem Variant.hash_congr (T : Types) (a b : Variant) (h : a.mapIdents (res T) = b.mapIdents (res T)) :
    a.hash T = b.hash T := by
  have hu : ∀ x y : UnionType, x.mapIdents (res T) = y.mapIdents (res T) → x.hash T = y.hash T := by
    intro x y h
    simp only [UnionType.mapIdents, UnionType.mk.injEq] at h
    simp [UnionType.hash, identHash, h.1, h.2]
  have he : ∀ x y : EnumVariant, x.mapIdents (res T) = y.mapIdents (res T) → x.hash T = y.hash T := by
    intro x y h
    simp only [EnumVariant.mapIdents, EnumVariant.mk.injEq] at h
    obtain ⟨h1, h2, h3, h4, h5, h6⟩ := h
    simp [EnumVariant.hash, optHash_congr T h3, h1, h2, h4, h5, h6]
  have hd : ∀ x y : Ident × Derived, (res T x.1, x.2.mapIdents (res T)) = (res T y.1, y.2.mapIdents (res T)) →
      identHash T x.1 ++ x.2.hash T = identHash T y.1 ++ y.2.hash T := by
    intro x y h
    simp only [Derived.mapIdents, Prod.mk.injEq, Derived.mk.injEq] at h
    simp [Derived.hash, identHash, h.1, h.2.1, h.2.2.1, h.2.2.2]
  have ht : ∀ x y : Attribute, x.mapIdents (res T) = y.mapIdents (res T) → x.hash T = y.hash T := by
    intro x y h
    simp only [Attribute.mapIdents, Attribute.mk.injEq] at h
    obtain ⟨h1, h2, h3, h4, h5, h6, h7, h8⟩ := h
    have hv : x.variant.hash T = y.variant.hash T := by
      cases ha : x.variant <;> cases hb : y.variant <;> rw [ha, hb] at h2 <;>
        simp_all [AttrVariant.mapIdents, AttrVariant.hash, identHash]
    simp [Attribute.hash, hv, h1, h3, h4, h5, h6, h7, h8]
  cases a <;> cases b <;> simp only [Variant.mapIdents, reduceCtorEq, Variant.union.injEq, Union.mk.injEq,
    Variant.buildIn.injEq, Variant.custom.injEq, Variant.reference.injEq, Reference.mk.injEq, Variant.enumeration.injEq,
    Enumeration.mk.injEq, Variant.dynamic.injEq, Dynamic.mk.injEq, Variant.all.injEq, Variant.choice.injEq,
    Variant.sequence.injEq, Variant.complex.injEq, Complex.mk.injEq, Variant.simple.injEq, Simple.mk.injEq] at h
  · simp [Variant.hash, Union.hash, Base.hash_congr T h.1, hashIter_congr _ _ hu h.2.1, h.2.2]
  · simp [Variant.hash, h]
  · simp [Variant.hash, h]
  · simp [Variant.hash, Reference.hash, identHash, h]
  · simp [Variant.hash, Enumeration.hash, Base.hash_congr T h.1, hashIter_congr _ _ he h.2.1, h.2.2]
  · simp [Variant.hash, Dynamic.hash, optHash_congr T h.1, hashIter_congr _ _ hd h.2.2, h.2.1]
  · exact Group.hash_congr T _ _ h
  · exact Group.hash_congr T _ _ h
  · exact Group.hash_congr T _ _ h
  · obtain ⟨h1, h2, h3, h4, h5, h6, h7⟩ := h
    simp [Variant.hash, Complex.hash, Base.hash_congr T h1, optHash_congr T h2, h3, h4, h5, h6,
      hashIter_congr _ _ ht h7]
  · simp [Variant.hash, Simple.hash, identHash, h]

/-- C34: equal types write the same values to the hasher, so they have equal hashes. -/
theorem C34_equal_hash (T : Types) (a b : MetaType) (h : a.typeEq T b = true) : a.typeHash T = b.typeHash T := by
  rw [C34_equal_iff_same_up_to_synonyms] at h
  simp [MetaType.typeHash, h.2.1, Variant.hash_congr T _ _ h.2.2]

/-- Two lists of a type and of its synonym. -/
example :
    let a : MetaType := .new (.reference ⟨exId "A", false, 0, .unbounded⟩)
    let c : MetaType := .new (.reference ⟨exId "C", false, 0, .unbounded⟩)
    let l : MetaType := .new (.reference ⟨exId "L", false, 0, .unbounded⟩)
    a ≠ c ∧ a.typeEq exChain c = true ∧ a.typeHash exChain = c.typeHash exChain ∧ a.typeEq exChain l = false := by
  decide +kernel

end Verif.Meta

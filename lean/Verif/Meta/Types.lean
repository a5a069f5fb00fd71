import Verif.Occurs
import Verif.Naming.Builder
import Verif.Util.Assoc
/-!
# Type information of the interpreted schemas, and following references (C33)

Models the data of `xsd-parser/src/models/meta/*.rs` and `MetaTypes::get_resolved`. All files cited below are in
`xsd-parser/src/models`. Strings are lists of characters, ids are numbers, `usize` is `Nat`. The table of types
(`MetaTypes::items`, a `BTreeMap`) is a list of entries with at most one entry per identifier (`Assoc.Keyed`); its
order is arbitrary, so theorems hold for every order of the map.
-/
namespace Verif.Meta

open Verif.Naming (Name)
open Verif.Occurs (MaxOccurs)

abbrev Txt := List Char

/-- `PropertyIdent`, ident.rs (`ns`, `name`). -/
structure PropIdent where
  ns : Nat
  name : Name
deriving DecidableEq, Repr

/-- `IdentType` (the part of a `TypeIdent` that tells types, groups, elements, … apart), ident.rs. -/
inductive Kind where
  | type_ | group | element | elementType | attribute | attributeGroup | buildIn | enumeration | nillableContent
  | substitutionElement | dynamicVariant
deriving DecidableEq, Repr

/-- `TypeIdent`, ident.rs. -/
structure Ident where
  ns : Nat
  schema : Nat
  name : Name
  kind : Kind
deriving DecidableEq, Repr

/-- `TypeIdent::to_property_ident`, ident.rs. -/
def Ident.toProp (i : Ident) : PropIdent := ⟨i.ns, i.name⟩

/-- `Base`, meta/base.rs:12-23. -/
inductive Base where
  | none
  | ext (i : Ident)
  | restr (i : Ident)
deriving DecidableEq, Repr

/-- `Base::as_ident`, meta/base.rs:28-34. -/
def Base.ident : Base → Option Ident
  | .none => Option.none
  | .ext i | .restr i => some i

/-- `BuildInMeta`, meta/type_.rs. -/
inductive BuildIn where
  | u8 | u16 | u32 | u64 | u128 | usize | i8 | i16 | i32 | i64 | i128 | isize | f32 | f64 | bool | str | string
deriving DecidableEq, Repr

/-- `WhiteSpace`, meta/simple.rs. -/
inductive WhiteSpace where
  | preserve | replace | collapse
deriving DecidableEq, Repr

/-- One end of `Range<Bound<String>>`. -/
inductive Bound where
  | unbounded
  | included (s : Txt)
  | excluded (s : Txt)
deriving DecidableEq, Repr

/-- `Constrains`, meta/mod.rs. -/
structure Constrains where
  start : Bound
  stop : Bound
  totalDigits : Option Nat
  fractionDigits : Option Nat
  patterns : List Txt
  minLength : Option Nat
  maxLength : Option Nat
  whitespace : WhiteSpace
deriving DecidableEq, Repr

/-- `Constrains::default`, meta/mod.rs. -/
def Constrains.default : Constrains :=
  ⟨.unbounded, .unbounded, none, none, [], none, none, .preserve⟩

/-- `UnionMetaType`, meta/union.rs. -/
structure UnionType where
  type_ : Ident
  displayName : Option Txt
deriving DecidableEq, Repr

/-- `UnionMeta`, meta/union.rs. -/
structure Union where
  base : Base
  types : List UnionType
  constrains : Constrains
deriving DecidableEq, Repr

/-- `Use`, schema/xs.rs. -/
inductive Use where
  | prohibited | optional | required
deriving DecidableEq, Repr

/-- `FormChoiceType`, schema/xs.rs. -/
inductive Form where
  | qualified | unqualified
deriving DecidableEq, Repr

/-- `NamespacesShared`: the entries of the map, sorted by prefix (both `Eq` and `Hash` depend on nothing else). -/
abbrev NsMap := List (Txt × Txt)

/-- `EnumerationMetaVariant`, meta/enumeration.rs. -/
structure EnumVariant where
  ident : PropIdent
  use_ : Use
  type_ : Option Ident
  displayName : Option Txt
  documentation : List Txt
  namespaces : Option NsMap
deriving DecidableEq, Repr

/-- `EnumerationMeta`, meta/enumeration.rs. -/
structure Enumeration where
  base : Base
  variants : List EnumVariant
  constrains : Constrains
deriving DecidableEq, Repr

/-- `ReferenceMeta`, meta/reference.rs:14-31. -/
structure Reference where
  type_ : Ident
  nillable : Bool
  min : Nat
  max : MaxOccurs
deriving DecidableEq, Repr

/-- `ReferenceMeta::new`, meta/reference.rs:35-45. -/
def Reference.new (i : Ident) : Reference := ⟨i, false, 1, .bounded 1⟩

/-- `ReferenceMeta::is_single`, meta/reference.rs. -/
def Reference.isSingle (r : Reference) : Bool := r.min == 1 && r.max == .bounded 1

/-- `ReferenceMeta::is_simple`, meta/reference.rs. -/
def Reference.isSimple (r : Reference) : Bool := r.isSingle && !r.nillable

/-- `DeriveRelationship`, meta/dynamic.rs. -/
inductive Relationship where
  | concrete | directChild | indirectChild
deriving DecidableEq, Repr

/-- `DerivedTypeMeta`, meta/dynamic.rs. -/
structure Derived where
  type_ : Ident
  displayName : Option Txt
  relationship : Relationship
deriving DecidableEq, Repr

/-- `DynamicMeta`, meta/dynamic.rs (`derived_types` is an insertion-ordered map). -/
structure Dynamic where
  type_ : Option Ident
  isAbstract : Bool
  derived : List (Ident × Derived)
deriving DecidableEq, Repr

/-- `AnyMeta` / `AnyAttributeMeta`: the fields other than `id` are kept as texts. -/
structure AnyMeta where
  id : Option Txt
  namespace_ : Option Txt
  notQName : Option Txt
  notNamespace : Option Txt
  processContents : Txt
deriving DecidableEq, Repr

/-- `ElementMode`, meta/element.rs. -/
inductive Mode where
  | element | group
deriving DecidableEq, Repr

/-- `ElementMetaVariant`, meta/element.rs. -/
inductive ElementVariant where
  | text
  | any (m : AnyMeta)
  | type_ (i : Ident) (mode : Mode)
deriving DecidableEq, Repr

/-- `ElementMetaFlags`, meta/element.rs. -/
structure Flags where
  nillable : Bool
  defaultElement : Bool
  byTag : Bool
  byType : Bool
  preferType : Bool
deriving DecidableEq, Repr

/-- `ElementMeta`, meta/element.rs. -/
structure Element where
  ident : PropIdent
  variant : ElementVariant
  form : Form
  flags : Flags
  min : Nat
  max : MaxOccurs
  displayName : Option Txt
  documentation : List Txt
deriving DecidableEq, Repr

/-- `GroupMeta`, meta/complex.rs. -/
structure Group where
  isMixed : Bool
  elements : List Element
deriving DecidableEq, Repr

/-- `AttributeMetaVariant`, meta/attribute.rs. -/
inductive AttrVariant where
  | any (m : AnyMeta)
  | type_ (i : Ident)
deriving DecidableEq, Repr

/-- `AttributeMeta`, meta/attribute.rs. -/
structure Attribute where
  ident : PropIdent
  variant : AttrVariant
  use_ : Use
  form : Form
  default_ : Option Txt
  displayName : Option Txt
  documentation : List Txt
  namespaces : Option NsMap
deriving DecidableEq, Repr

/-- `ComplexMeta`, meta/complex.rs. -/
structure Complex where
  base : Base
  content : Option Ident
  min : Nat
  max : MaxOccurs
  isDynamic : Bool
  isMixed : Bool
  attributes : List Attribute
deriving DecidableEq, Repr

/-- `SimpleMeta`, meta/simple.rs. -/
structure Simple where
  base : Ident
  isList : Bool
  constrains : Constrains
deriving DecidableEq, Repr

/-- `MetaTypeVariant`, meta/type_.rs. Of a custom type only its name matters here (its other fields are code generators
and flags of the code generator). -/
inductive Variant where
  | union (x : Union)
  | buildIn (x : BuildIn)
  | custom (name : Txt)
  | reference (x : Reference)
  | enumeration (x : Enumeration)
  | dynamic (x : Dynamic)
  | all (x : Group)
  | choice (x : Group)
  | sequence (x : Group)
  | complex (x : Complex)
  | simple (x : Simple)
deriving DecidableEq, Repr

/-- `MetaType`, meta/type_.rs. -/
structure MetaType where
  variant : Variant
  form : Option Form
  schema : Option Nat
  displayName : Option Txt
  redefinedBase : Option Ident
  documentation : List Txt
deriving DecidableEq, Repr

/-- `MetaType::new`, meta/type_.rs. -/
def MetaType.new (v : Variant) : MetaType := ⟨v, none, none, none, none, []⟩

/-- `MetaTypes::items`, meta/types.rs. -/
abbrev Types := List (Ident × MetaType)

/-- The identifier a simple reference points to (the pattern `MetaTypeVariant::Reference(x) if x.is_simple()`). -/
def Variant.target : Variant → Option Ident
  | .reference r => if r.isSimple then some r.type_ else none
  | _ => none

/-- `get_resolved_impl`, meta/types.rs:191-226. `fuel` bounds the depth of the recursion; `getResolved_fuel` shows that
it is never used up. -/
def resolveF (T : Types) : Nat → Ident → List Ident → Option (Ident × MetaType)
  | 0, _, _ => none
  | fuel + 1, ident, visited =>
    if visited.contains ident then none
    else
      match Assoc.get T ident with
      | none => none
      | some ty =>
        match ty.variant.target with
        | none => some (ident, ty)
        | some t =>
          match resolveF T fuel t (visited ++ [ident]) with
          | none => some (ident, ty)
          | some r => some r

/-- `MetaTypes::get_resolved`, meta/types.rs:96-103. -/
def getResolved (T : Types) (i : Ident) : Option (Ident × MetaType) := resolveF T (T.length + 1) i []

/-- `MetaTypes::get_resolved_ident`, meta/types.rs:119-121. -/
def getResolvedIdent (T : Types) (i : Ident) : Option Ident := (getResolved T i).map (·.1)

/-- `MetaTypes::get_resolved_type`, meta/types.rs:110-112. -/
def getResolvedType (T : Types) (i : Ident) : Option MetaType := (getResolved T i).map (·.2)

/-- `types.get_resolved_ident(i).unwrap_or(i)`, the canonical name used by `TypeEq for TypeIdent`,
meta/type_eq.rs:58-70. -/
def res (T : Types) (i : Ident) : Ident := (getResolvedIdent T i).getD i

/-! ## Specification -/

/-- `i` is defined as a plain synonym of `k`: its definition is a reference that is neither nillable nor repeated. -/
def Synonym (T : Types) (i k : Ident) : Prop :=
  ∃ ty r, Assoc.get T i = some ty ∧ ty.variant = .reference r ∧ r.type_ = k ∧ r.nillable = false ∧ r.min = 1 ∧
    r.max = .bounded 1

/-- The name `i` is defined. -/
def Defined (T : Types) (i : Ident) : Prop := ∃ ty, Assoc.get T i = some ty

/-- `path` is the chain of synonyms that starts with `i` and ends with `j`; all its names are defined. -/
inductive Follow (T : Types) : Ident → List Ident → Ident → Prop
  | here {i} : Defined T i → Follow T i [i] i
  | step {i k path j} : Synonym T i k → Follow T k path j → Follow T i (i :: path) j

/-- A loop of synonyms: following the synonyms of `i` leads back to `i`. -/
def OnLoop (T : Types) (i : Ident) : Prop := ∃ k path, Synonym T i k ∧ Follow T k path i

/-- No type is defined as a synonym of itself, directly or through other synonyms. -/
def Acyclic (T : Types) : Prop := ∀ i, ¬ OnLoop T i

/-- Every synonym stands for a defined type. -/
def Closed (T : Types) : Prop := ∀ i k, Synonym T i k → Defined T k

/-! ## Proofs -/

theorem isSimple_iff (r : Reference) : r.isSimple = true ↔ r.nillable = false ∧ r.min = 1 ∧ r.max = .bounded 1 := by
  simp only [Reference.isSimple, Reference.isSingle, Bool.and_eq_true, Bool.not_eq_true', beq_iff_eq]
  constructor
  · rintro ⟨⟨h1, h2⟩, h3⟩; exact ⟨h3, h1, h2⟩
  · rintro ⟨h3, h1, h2⟩; exact ⟨⟨h1, h2⟩, h3⟩

theorem target_eq_some (v : Variant) (k : Ident) :
    v.target = some k ↔ ∃ r, v = .reference r ∧ r.type_ = k ∧ r.nillable = false ∧ r.min = 1 ∧ r.max = .bounded 1 := by
  cases v with
  | reference r =>
    simp only [Variant.target]
    by_cases h : r.isSimple
    · rw [if_pos h]
      have := (isSimple_iff r).1 h
      constructor
      · intro he; exact ⟨r, rfl, Option.some.inj he, this⟩
      · rintro ⟨r', he, hk, -⟩; cases he; rw [hk]
    · rw [if_neg h]
      constructor
      · intro he; cases he
      · rintro ⟨r', he, -, h'⟩; cases he; exact absurd ((isSimple_iff r).2 h') h
  | _ => simp [Variant.target]

theorem synonym_iff (T : Types) (i k : Ident) :
    Synonym T i k ↔ ∃ ty, Assoc.get T i = some ty ∧ ty.variant.target = some k := by
  constructor
  · rintro ⟨ty, r, h1, h2, h3⟩; exact ⟨ty, h1, (target_eq_some _ _).2 ⟨r, h2, h3⟩⟩
  · rintro ⟨ty, h1, h2⟩
    obtain ⟨r, h2, h3⟩ := (target_eq_some _ _).1 h2
    exact ⟨ty, r, h1, h2, h3⟩

theorem Synonym.unique {T : Types} {i k k' : Ident} (h : Synonym T i k) (h' : Synonym T i k') : k = k' := by
  obtain ⟨ty, h1, h2⟩ := (synonym_iff T i k).1 h
  obtain ⟨ty', h1', h2'⟩ := (synonym_iff T i k').1 h'
  rw [h1] at h1'; cases h1'
  rw [h2] at h2'; exact Option.some.inj h2'

theorem Synonym.defined {T : Types} {i k : Ident} (h : Synonym T i k) : Defined T i := by
  obtain ⟨ty, h1, -⟩ := (synonym_iff T i k).1 h
  exact ⟨ty, h1⟩

theorem Follow.defined {T : Types} {i j : Ident} {p : List Ident} (h : Follow T i p j) :
    Defined T i ∧ Defined T j ∧ i ∈ p ∧ j ∈ p ∧ ∀ x ∈ p, Defined T x := by
  induction h with
  | here hd => exact ⟨hd, hd, by simp, by simp, by simpa using hd⟩
  | step hs _ ih =>
    refine ⟨hs.defined, ih.2.1, by simp, List.mem_cons_of_mem _ ih.2.2.2.1, ?_⟩
    intro x hx
    rcases List.mem_cons.1 hx with h | h
    · rw [h]; exact hs.defined
    · exact ih.2.2.2.2 x h

/-- From every name on a chain the rest of the chain leads to its end. -/
theorem Follow.suffix {T : Types} {i j x : Ident} {p : List Ident} (h : Follow T i p j) (hx : x ∈ p) :
    ∃ q, Follow T x q j := by
  induction h with
  | here hd => simp at hx; subst hx; exact ⟨_, .here hd⟩
  | step hs hf ih =>
    rcases List.mem_cons.1 hx with h | h
    · subst h; exact ⟨_, .step hs hf⟩
    · exact ih h

theorem Follow.prefix {T : Types} {i j x : Ident} {p : List Ident} (h : Follow T i p j) (hx : x ∈ p) :
    ∃ q, Follow T i q x := by
  induction h with
  | here hd => simp at hx; subst hx; exact ⟨_, .here hd⟩
  | step hs hf ih =>
    rcases List.mem_cons.1 hx with h | h
    · subst h; exact ⟨_, .here hs.defined⟩
    · obtain ⟨q, hq⟩ := ih h; exact ⟨_, .step hs hq⟩

theorem Follow.trans {T : Types} {i j k : Ident} {p q : List Ident} (h : Follow T i p j) (h' : Follow T j q k) :
    ∃ r, Follow T i r k := by
  induction h with
  | here _ => exact ⟨_, h'⟩
  | step hs _ ih => obtain ⟨r, hr⟩ := ih h'; exact ⟨_, .step hs hr⟩

theorem nodup_length_le {α : Type} [DecidableEq α] {l m : List α} (h : l.Nodup) (hs : ∀ x ∈ l, x ∈ m) :
    l.length ≤ m.length := by
  induction l generalizing m with
  | nil => simp
  | cons a l ih =>
    have ha := List.nodup_cons.1 h
    have : l.length ≤ (m.erase a).length := by
      apply ih ha.2
      intro x hx
      have hxa : x ≠ a := fun hc => ha.1 (hc ▸ hx)
      exact (List.mem_erase_of_ne hxa).2 (hs x (List.mem_cons_of_mem _ hx))
    have hm : a ∈ m := hs a (List.mem_cons_self ..)
    have := List.length_erase_of_mem hm
    have : 0 < m.length := List.length_pos_of_mem hm
    simp only [List.length_cons]; omega

/-- What `resolveF` computes: the end of the chain of synonyms, cut before a name that was seen already or that is not
defined. -/
theorem resolveF_spec (T : Types) (fuel : Nat) (i : Ident) (vis : List Ident) (hn : vis.Nodup)
    (hv : ∀ x ∈ vis, Defined T x) (hf : T.length < fuel + vis.length) :
    (resolveF T fuel i vis = none ↔ i ∈ vis ∨ ¬ Defined T i) ∧
    ∀ j ty, resolveF T fuel i vis = some (j, ty) →
      ∃ p, Follow T i p j ∧ p.Nodup ∧ (∀ x ∈ p, x ∉ vis) ∧ Assoc.get T j = some ty ∧
        ∀ k, Synonym T j k → k ∈ vis ∨ k ∈ p ∨ ¬ Defined T k := by
  have hkeys : ∀ x, Defined T x → x ∈ Assoc.keys T := by
    intro x ⟨ty, h⟩
    exact (Assoc.get_isSome T x).1 (by rw [h]; rfl)
  induction fuel generalizing i vis with
  | zero =>
    have := nodup_length_le (m := Assoc.keys T) hn (fun x hx => hkeys x (hv x hx))
    simp [Assoc.keys] at this
    omega
  | succ fuel ih =>
    by_cases hc : i ∈ vis
    · have : resolveF T (fuel + 1) i vis = none := by simp [resolveF, hc]
      rw [this]
      exact ⟨by simp [hc], fun j ty h => by cases h⟩
    · cases hg : Assoc.get T i with
      | none =>
        have : resolveF T (fuel + 1) i vis = none := by simp [resolveF, hg]
        rw [this]
        refine ⟨by simp [Defined, hg], fun j ty h => by cases h⟩
      | some t =>
        have hdef : Defined T i := ⟨t, hg⟩
        cases ht : t.variant.target with
        | none =>
          have : resolveF T (fuel + 1) i vis = some (i, t) := by simp [resolveF, hg, hc, ht]
          rw [this]
          refine ⟨by simp [hc, hdef], ?_⟩
          intro j ty h
          cases h
          refine ⟨[i], .here hdef, by simp, by simpa using hc, hg, ?_⟩
          intro k hk
          obtain ⟨ty', h1, h2⟩ := (synonym_iff T i k).1 hk
          rw [hg] at h1; cases h1; rw [ht] at h2; cases h2
        | some k =>
          have hsyn : Synonym T i k := (synonym_iff T i k).2 ⟨t, hg, ht⟩
          have hn' : (vis ++ [i]).Nodup := by
            rw [List.nodup_append]
            exact ⟨hn, by simp, by simp; exact fun a ha hc' => hc (hc' ▸ ha)⟩
          have hv' : ∀ x ∈ vis ++ [i], Defined T x := by
            intro x hx
            rcases List.mem_append.1 hx with h | h
            · exact hv x h
            · simp at h; rw [h]; exact hdef
          have ih := ih k (vis ++ [i]) hn' hv' (by simp; omega)
          cases hr : resolveF T fuel k (vis ++ [i]) with
          | none =>
            have : resolveF T (fuel + 1) i vis = some (i, t) := by simp [resolveF, hg, hc, ht, hr]
            rw [this]
            refine ⟨by simp [hc, hdef], ?_⟩
            intro j ty h
            cases h
            refine ⟨[i], .here hdef, by simp, by simpa using hc, hg, ?_⟩
            intro k' hk'
            have hk := hk'.unique hsyn
            subst hk
            rcases ih.1.1 hr with h | h
            · rcases List.mem_append.1 h with h | h
              · exact Or.inl h
              · exact Or.inr (Or.inl h)
            · exact Or.inr (Or.inr h)
          | some r =>
            obtain ⟨j', ty'⟩ := r
            have : resolveF T (fuel + 1) i vis = some (j', ty') := by simp [resolveF, hg, hc, ht, hr]
            rw [this]
            refine ⟨by simp [hc, hdef], ?_⟩
            intro j ty h
            cases h
            obtain ⟨p, hp, hpn, hpv, hgj, hend⟩ := ih.2 _ _ hr
            refine ⟨i :: p, .step hsyn hp, ?_, ?_, hgj, ?_⟩
            · rw [List.nodup_cons]
              exact ⟨fun hi => hpv i hi (by simp), hpn⟩
            · intro x hx
              rcases List.mem_cons.1 hx with h | h
              · rw [h]; exact hc
              · exact fun hx' => hpv x h (by simp [hx'])
            · intro k' hk'
              rcases hend k' hk' with h | h | h
              · rcases List.mem_append.1 h with h | h
                · exact Or.inl h
                · simp at h; exact Or.inr (Or.inl (by simp [h]))
              · exact Or.inr (Or.inl (List.mem_cons_of_mem _ h))
              · exact Or.inr (Or.inr h)

/-- Chains of synonyms that cannot be prolonged are unique. -/
theorem Follow.det {T : Types} {i j j' : Ident} {p p' : List Ident} (h : Follow T i p j) (h' : Follow T i p' j')
    (hn : p.Nodup) (hn' : p'.Nodup)
    (he : ∀ k, Synonym T j k → k ∈ p ∨ ¬ Defined T k) (he' : ∀ k, Synonym T j' k → k ∈ p' ∨ ¬ Defined T k) :
    p = p' ∧ j = j' := by
  -- generalise over the part of the chain already walked
  suffices H : ∀ (vis : List Ident) (i j j' : Ident) (p p' : List Ident), Follow T i p j → Follow T i p' j' →
      (vis ++ p).Nodup → (vis ++ p').Nodup →
      (∀ k, Synonym T j k → k ∈ vis ++ p ∨ ¬ Defined T k) → (∀ k, Synonym T j' k → k ∈ vis ++ p' ∨ ¬ Defined T k) →
      p = p' ∧ j = j' from H [] i j j' p p' h h' hn hn' he he'
  clear h h' hn hn' he he'
  intro vis i j j' p p' h
  induction h generalizing vis j' p' with
  | @here i hd =>
    intro h' hn hn' he he'
    cases h' with
    | here _ => exact ⟨rfl, rfl⟩
    | @step _ k q _ hs hf =>
      exfalso
      have hk := hf.defined
      rcases he k hs with h | h
      · rcases List.mem_append.1 h with h | h
        · exact (List.nodup_append.1 hn').2.2 k h k (List.mem_cons_of_mem _ hk.2.2.1) rfl
        · simp at h
          subst h
          have := List.nodup_cons.1 (List.nodup_append.1 hn').2.1
          exact this.1 hk.2.2.1
      · exact h hk.1
  | @step i k path j hs hf ih =>
    intro h' hn hn' he he'
    cases h' with
    | here hd =>
      exfalso
      have hk := hf.defined
      rcases he' k hs with h | h
      · rcases List.mem_append.1 h with h | h
        · exact (List.nodup_append.1 hn).2.2 k h k (List.mem_cons_of_mem _ hk.2.2.1) rfl
        · simp at h
          subst h
          have := List.nodup_cons.1 (List.nodup_append.1 hn).2.1
          exact this.1 hk.2.2.1
      · exact h hk.1
    | @step _ k' q _ hs' hf' =>
      have := hs.unique hs'
      subst this
      have := ih (vis ++ [i]) j' q hf' (by simpa using hn) (by simpa using hn')
        (by intro x hx; simpa using he x hx) (by intro x hx; simpa using he' x hx)
      exact ⟨by rw [this.1], this.2⟩

/-- C33: resolving a name never fails to terminate and finds something exactly for the defined names. -/
theorem C33_resolved_iff_defined (T : Types) (i : Ident) : getResolved T i = none ↔ ¬ Defined T i := by
  have := (resolveF_spec T (T.length + 1) i [] (by simp) (by simp) (by simp)).1
  simpa [getResolved] using this

/-- C33: the resolved name is the end of the chain of synonyms starting at the name asked for. The chain ends at the
first name that is no synonym, or whose synonym is not defined, or (when the synonyms form a loop) whose synonym is on
the chain already; the returned type is the definition of that name. -/
theorem C33_resolved_is_end_of_chain (T : Types) (i j : Ident) (ty : MetaType) :
    getResolved T i = some (j, ty) ↔
      ∃ path, Follow T i path j ∧ path.Nodup ∧ Assoc.get T j = some ty ∧
        ∀ k, Synonym T j k → k ∈ path ∨ ¬ Defined T k := by
  have hs := resolveF_spec T (T.length + 1) i [] (by simp) (by simp) (by simp)
  constructor
  · intro h
    obtain ⟨p, h1, h2, -, h4, h5⟩ := hs.2 j ty h
    exact ⟨p, h1, h2, h4, fun k hk => by simpa using h5 k hk⟩
  · rintro ⟨p, h1, h2, h4, h5⟩
    cases hr : getResolved T i with
    | none => exact absurd h1.defined.1 ((C33_resolved_iff_defined T i).1 hr)
    | some r =>
      obtain ⟨j', ty'⟩ := r
      obtain ⟨p', h1', h2', -, h4', h5'⟩ := hs.2 j' ty' hr
      have := h1.det h1' h2 h2' h5 (fun k hk => by simpa using h5' k hk)
      obtain ⟨-, rfl⟩ := this
      rw [h4] at h4'; cases h4'; rfl

/-- The fuel of the model is never used up. -/
theorem getResolved_fuel (T : Types) (i : Ident) (n : Nat) (hn : T.length < n) :
    resolveF T n i [] = getResolved T i := by
  have hs := resolveF_spec T n i [] (by simp) (by simp) (by simpa using hn)
  cases hr : resolveF T n i [] with
  | none => exact ((C33_resolved_iff_defined T i).2 (by simpa using hs.1.1 hr)).symm
  | some r =>
    obtain ⟨j, ty⟩ := r
    obtain ⟨p, h1, h2, -, h4, h5⟩ := hs.2 j ty hr
    exact ((C33_resolved_is_end_of_chain T i j ty).2 ⟨p, h1, h2, h4, fun k hk => by simpa using h5 k hk⟩).symm

theorem Acyclic.nodup {T : Types} (ha : Acyclic T) {i j : Ident} {p : List Ident} (h : Follow T i p j) : p.Nodup := by
  induction h with
  | here _ => simp
  | @step i k path j hs hf ih =>
    rw [List.nodup_cons]
    refine ⟨fun hi => ?_, ih⟩
    obtain ⟨q, hq⟩ := hf.prefix hi
    exact ha i ⟨k, q, hs, hq⟩

/-- C33: when no synonyms form a loop, the resolved type is the type at the end of the chain, and that type is not a
synonym of a defined type. -/
theorem C33_acyclic_resolved_is_no_synonym (T : Types) (ha : Acyclic T) (i j : Ident) (ty : MetaType) :
    getResolved T i = some (j, ty) ↔
      (∃ path, Follow T i path j) ∧ Assoc.get T j = some ty ∧ ∀ k, Synonym T j k → ¬ Defined T k := by
  rw [C33_resolved_is_end_of_chain]
  constructor
  · rintro ⟨p, h1, h2, h3, h4⟩
    refine ⟨⟨p, h1⟩, h3, ?_⟩
    intro k hk
    rcases h4 k hk with h | h
    · obtain ⟨q, hq⟩ := h1.suffix h
      exact absurd ⟨k, q, hk, hq⟩ (ha j)
    · exact h
  · rintro ⟨⟨p, h1⟩, h3, h4⟩
    exact ⟨p, h1, ha.nodup h1, h3, fun k hk => Or.inr (h4 k hk)⟩

/-- C33: without loops, resolving a resolved name changes nothing. -/
theorem C33_acyclic_idempotent (T : Types) (ha : Acyclic T) (i j : Ident) (ty : MetaType)
    (h : getResolved T i = some (j, ty)) : getResolved T j = some (j, ty) := by
  obtain ⟨⟨p, h1⟩, h3, h4⟩ := (C33_acyclic_resolved_is_no_synonym T ha i j ty).1 h
  exact (C33_acyclic_resolved_is_no_synonym T ha j j ty).2 ⟨⟨_, .here h1.defined.2.1⟩, h3, h4⟩

/-- C33: without loops, a name and what it is a synonym of resolve to the same type. -/
theorem C33_acyclic_synonym_same (T : Types) (ha : Acyclic T) (i k : Ident) (h : Synonym T i k) (hd : Defined T k) :
    getResolved T i = getResolved T k := by
  cases hr : getResolved T k with
  | none => exact absurd hd ((C33_resolved_iff_defined T k).1 hr)
  | some r =>
    obtain ⟨j, ty⟩ := r
    obtain ⟨⟨p, h1⟩, h3⟩ := (C33_acyclic_resolved_is_no_synonym T ha k j ty).1 hr
    exact (C33_acyclic_resolved_is_no_synonym T ha i j ty).2 ⟨⟨_, .step h h1⟩, h3⟩

/-! ### Concrete tables -/

/-- A named type `name`, used in examples. -/
def exId (name : String) : Ident := ⟨0, 0, .named name.toList, .type_⟩

/-- `A = B`, `B = C`, `C` built in, `L` a list of `A`. -/
def exChain : Types :=
  [(exId "A", .new (.reference (.new (exId "B")))), (exId "B", .new (.reference (.new (exId "C")))),
   (exId "C", .new (.buildIn .string)),
   (exId "L", .new (.reference ⟨exId "A", false, 0, .unbounded⟩))]

/-- `A = B`, `B = A`. -/
def exLoop : Types :=
  [(exId "A", .new (.reference (.new (exId "B")))), (exId "B", .new (.reference (.new (exId "A"))))]

/-- C33 (negation): with a loop of synonyms, resolving is not idempotent: resolving `A` gives `B` and resolving `B` gives
`A`, both of which are synonyms. -/
theorem C33_loop_not_idempotent :
    getResolvedIdent exLoop (exId "A") = some (exId "B") ∧ getResolvedIdent exLoop (exId "B") = some (exId "A") := by
  decide +kernel

theorem exChain_synonym (i k : Ident) (h : Synonym exChain i k) :
    (i = exId "A" ∧ k = exId "B") ∨ (i = exId "B" ∧ k = exId "C") := by
  obtain ⟨ty, h1, h2⟩ := (synonym_iff _ _ _).1 h
  have := Assoc.mem_of_get h1
  simp only [exChain, List.mem_cons, Prod.mk.injEq, List.not_mem_nil, or_false] at this
  rcases this with ⟨rfl, rfl⟩ | ⟨rfl, rfl⟩ | ⟨rfl, rfl⟩ | ⟨rfl, rfl⟩
  · exact Or.inl ⟨rfl, by simpa [MetaType.new, Variant.target, Reference.isSimple, Reference.isSingle, Reference.new] using h2.symm⟩
  · exact Or.inr ⟨rfl, by simpa [MetaType.new, Variant.target, Reference.isSimple, Reference.isSingle, Reference.new] using h2.symm⟩
  · simp [MetaType.new, Variant.target] at h2
  · simp [MetaType.new, Variant.target, Reference.isSimple, Reference.isSingle] at h2

theorem exChain_acyclic : Acyclic exChain := by
  have hne : exId "A" ≠ exId "B" ∧ exId "B" ≠ exId "C" ∧ exId "A" ≠ exId "C" := by decide
  rintro i ⟨k, path, hs, hf⟩
  rcases exChain_synonym i k hs with ⟨rfl, rfl⟩ | ⟨rfl, rfl⟩
  · cases hf with
    | step hs' hf' =>
      rcases exChain_synonym _ _ hs' with ⟨h, rfl⟩ | ⟨_, rfl⟩
      · exact hne.1 h.symm
      · cases hf' with
        | step hs'' _ =>
          rcases exChain_synonym _ _ hs'' with ⟨h, -⟩ | ⟨h, -⟩
          · exact hne.2.2 h.symm
          · exact hne.2.1 h.symm
  · cases hf with
    | step hs' _ =>
      rcases exChain_synonym _ _ hs' with ⟨h, -⟩ | ⟨h, -⟩
      · exact hne.2.2 h.symm
      · exact hne.2.1 h.symm

example : Acyclic exChain ∧ getResolvedIdent exChain (exId "A") = some (exId "C") ∧
    getResolvedIdent exChain (exId "L") = some (exId "L") ∧ getResolvedIdent exChain (exId "X") = none :=
  ⟨exChain_acyclic, by decide +kernel, by decide +kernel, by decide +kernel⟩

/-! ### Equations used by the passes over the table -/

theorem res_undefined {T : Types} {i : Ident} (h : ¬ Defined T i) : res T i = i := by
  simp [res, getResolvedIdent, (C33_resolved_iff_defined T i).2 h]

theorem res_of_not_synonym {T : Types} {i : Ident} (h : ∀ k, Synonym T i k → ¬ Defined T k) : res T i = i := by
  by_cases hd : Defined T i
  · obtain ⟨ty, hty⟩ := hd
    have : getResolved T i = some (i, ty) :=
      (C33_resolved_is_end_of_chain T i i ty).2 ⟨[i], .here ⟨ty, hty⟩, by simp, hty, fun k hk => Or.inr (h k hk)⟩
    simp [res, getResolvedIdent, this]
  · exact res_undefined hd

theorem res_synonym {T : Types} (ha : Acyclic T) {i k : Ident} (h : Synonym T i k) (hd : Defined T k) :
    res T i = res T k := by
  have h1 := C33_acyclic_synonym_same T ha i k h hd
  cases hr : getResolved T k with
  | none => exact absurd hd ((C33_resolved_iff_defined T k).1 hr)
  | some r => simp [res, getResolvedIdent, h1, hr]

theorem res_follow {T : Types} {i : Ident} (h : Defined T i) : ∃ p, Follow T i p (res T i) := by
  cases hr : getResolved T i with
  | none => exact absurd h ((C33_resolved_iff_defined T i).1 hr)
  | some r =>
    obtain ⟨j, ty⟩ := r
    obtain ⟨p, h1, -⟩ := (C33_resolved_is_end_of_chain T i j ty).1 hr
    exact ⟨p, by simpa [res, getResolvedIdent, hr] using h1⟩

theorem res_end {T : Types} (ha : Acyclic T) (i k : Ident) (h : Synonym T (res T i) k) : ¬ Defined T k := by
  by_cases hi : Defined T i
  · cases hr : getResolved T i with
    | none => exact absurd hi ((C33_resolved_iff_defined T i).1 hr)
    | some r =>
      obtain ⟨j, ty⟩ := r
      have := (C33_acyclic_resolved_is_no_synonym T ha i j ty).1 hr
      have hj : res T i = j := by simp [res, getResolvedIdent, hr]
      rw [hj] at h
      exact this.2.2 k h
  · rw [res_undefined hi] at h
    exact absurd h.defined hi

theorem res_idem {T : Types} (ha : Acyclic T) (i : Ident) : res T (res T i) = res T i :=
  res_of_not_synonym (res_end ha i)

theorem res_end_closed {T : Types} (ha : Acyclic T) (hc : Closed T) (i k : Ident) : ¬ Synonym T (res T i) k :=
  fun h => res_end ha i k h (hc _ _ h)

/-- Induction along synonyms. -/
theorem synonym_induct {T : Types} (ha : Acyclic T) {P : Ident → Prop}
    (base : ∀ i, (∀ k, Synonym T i k → ¬ Defined T k) → P i)
    (step : ∀ i k, Synonym T i k → Defined T k → P k → P i) (i : Ident) : P i := by
  by_cases hd : Defined T i
  · obtain ⟨p, hp⟩ := res_follow hd
    have hend := res_end ha i
    generalize res T i = j at hp hend
    induction hp with
    | here _ => exact base _ hend
    | step hs hf ih => exact step _ _ hs hf.defined.1 (ih hf.defined.1 hend)
  · exact base i (fun k hk => absurd hk.defined hd)

end Verif.Meta

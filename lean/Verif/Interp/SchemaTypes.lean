import Verif.Interp.Derivation

/-!
# From a schema to a table of types (C72)

Models how the interpreter goes through the named components of a schema and adds a type for each of them, and compares
the documents that the resulting table accepts with those that the schema describes. "variant_processor.rs" and
"type_processor.rs" are in `xsd-parser/src/pipeline/interpreter/state/generate_types`.
-/

namespace Verif.Interp

open Verif.Meta Verif.Opt
open Verif.Occurs (MaxOccurs Allows)

/-! ## Model -/

/-- A named component of a schema (or an anonymous type, under the identifier that the interpreter gives it), with
resolved names. The attributes are those that C63 describes. -/
inductive Def where
  /-- An element; `target` is its type, be it named or anonymous. -/
  | element (ident target : Ident)
  /-- A complex type with at most one particle. -/
  | complex (ident : Ident) (attributes : List Attribute) (content : Option Top)
  /-- A complex type that extends the content of the complex type `base` by at most one particle; `attributes` are its own
  and the inherited ones (C63), `copy` is the name of its content type (`make_content_name`). -/
  | extension (ident base copy : Ident) (attributes : List Attribute) (content : Option Top)
  /-- A complex type that restricts the content of the complex type `base` to its own content model. -/
  | restriction (ident base copy : Ident) (attributes : List Attribute) (content : Option Top)
  /-- A complex type with simple content, an extension of the simple type `base`. -/
  | simple (ident : Ident) (attributes : List Attribute) (base : Ident)

def Def.ident : Def → Ident
  | .element i _ => i
  | .complex i _ _ => i
  | .extension i _ _ _ _ => i
  | .restriction i _ _ _ _ => i
  | .simple i _ _ => i

/-- `ComplexMeta::default` with attributes, models/meta/complex.rs 187-199. -/
def Complex.fresh (attributes : List Attribute) : Complex :=
  ⟨.none, none, 1, .bounded 1, false, false, attributes⟩

/-- The type of a complex type with at most one particle: `apply_complex_type`, variant_processor.rs 341-428, of a type
that is neither mixed nor abstract, has no derived types (`is_dynamic`) and no base. -/
def complexOf (attributes : List Attribute) (content : Option Top) (st : St) : Except IErr (St × MetaType) :=
  match content with
  | none => .ok (st, .new (.complex (Complex.fresh attributes)))
  | some t =>
    match applyTop false t st (Complex.fresh attributes) with
    | .error e => .error e
    | .ok (st, c) => .ok (st, .new (.complex c))

/-- What the derived type says about its base, variant_processor.rs 567-568 and 583-584. -/
def DMode.base : DMode → Ident → Base
  | .extension => .ext
  | .restriction => .restr

/-- The type of an extension or a restriction: `apply_complex_content_extension` and `apply_complex_content_restriction`,
variant_processor.rs 560-587, of a type that is neither mixed nor abstract; `get_complex_type_variant`, type_processor.rs
123-155, of the base, which is not dynamic. -/
def derivedOf (mode : DMode) (base copy : Ident) (attributes : List Attribute) (content : Option Top) (st : St) :
    Except IErr (St × MetaType) :=
  match look st.types base with
  | none => .error .panic
  | some (.complex c) =>
    match derive false mode copy content st c with
    | .error e => .error e
    | .ok (st, c) => .ok (st, .new (.complex { c with attributes := attributes, base := mode.base base }))
  | some _ => .error (.expectedComplex base)

/-- The type of a component. An element is a reference to its type (`apply_element`, variant_processor.rs 202-246, of an
element that is not nillable, not abstract and not in a substitution group); the extension of a simple type has the simple
type as its content (`apply_simple_content_extension`, 522-537, `copy_base_type`, 1310-1315). The form, the schema and the
documentation of the type (`finish`, 166-176) are left out. -/
def Def.type_ : Def → St → Except IErr (St × MetaType)
  | .element _ target, st => .ok (st, .new (.reference (.new target)))
  | .complex _ as content, st => complexOf as content st
  | .extension _ base copy as content, st => derivedOf .extension base copy as content st
  | .restriction _ base copy as content, st => derivedOf .restriction base copy as content st
  | .simple _ as base, st =>
    .ok (st, .new (.complex { Complex.fresh as with base := .ext base, content := some base }))

/-- `TypeProcessor::create_type`, type_processor.rs 158-182: nothing happens if the type is there already; each type has
its own group cache. -/
def createType (d : Def) (T : Types) : Except IErr Types :=
  match Assoc.get T d.ident with
  | some _ => .ok T
  | none =>
    match d.type_ ⟨T, []⟩ with
    | .error e => .error e
    | .ok (st, ty) =>
      match addType d.ident ty st with
      | .error e => .error e
      | .ok st => .ok st.types

/-- The components one after the other (`process_ident`, type_processor.rs 47-62; the order is that of C62). -/
def interpret : List Def → Types → Except IErr Types
  | [], T => .ok T
  | d :: ds, T =>
    match createType d T with
    | .error e => .error e
    | .ok T => interpret ds T

/-! ## Specification: the documents that a schema describes -/

/-- What may be said about an element: its type, its `xsi:type`, its attributes and its children. -/
abbrev Meaning := Ident → Option PropIdent → List (PropIdent × Txt) → List Node → Prop

/-- The attributes are declared, the required ones are there, and their values are valid for their simple types, which
are those of the table `T₀`. -/
def DeclaredAttrs (P : Lex) (T₀ : Types) (decl : List Attribute) (as : List (PropIdent × Txt)) : Prop :=
  AttrsShape P decl as ∧ ∀ a ∈ decl, ∀ t, a.variant = .type_ t → ∀ v, (a.ident, v) ∈ as → Valid P T₀ (.text t v)

/-- The children of a complex type: none, or an instance of its content model. -/
def Children (P : Lex) (V : Meaning) : Option Top → Lang
  | none => fun kids => kids = []
  | some t => t.lang V P.anyElement

/-- The content of a complex type: if it extends another one, that of its base, followed by its own; else its own. -/
inductive ContentOf (P : Lex) (V : Meaning) (defs : List Def) : Ident → Lang
  | own {i decl content kids} : .complex i decl content ∈ defs → Children P V content kids → ContentOf P V defs i kids
  | extended {i base copy decl content a b} : .extension i base copy decl content ∈ defs → ContentOf P V defs base a →
      Children P V content b → ContentOf P V defs i (a ++ b)
  | restricted {i base copy decl content kids} : .restriction i base copy decl content ∈ defs →
      Children P V content kids → ContentOf P V defs i kids

/-- One rule of the schema, in terms of what is valid for the types of the children. The simple types are those of the
table `T₀`. -/
inductive Rule (P : Lex) (T₀ : Types) (defs : List Def) (V : Meaning) : Meaning
  | element {i target x as kids} : .element i target ∈ defs → V target x as kids → Rule P T₀ defs V i x as kids
  | complex {i decl content x as kids} : .complex i decl content ∈ defs → DeclaredAttrs P T₀ decl as →
      Children P V content kids → Rule P T₀ defs V i x as kids
  | extension {i base copy decl content x as kids} : .extension i base copy decl content ∈ defs →
      DeclaredAttrs P T₀ decl as → ContentOf P V defs i kids → Rule P T₀ defs V i x as kids
  | restriction {i base copy decl content x as kids} : .restriction i base copy decl content ∈ defs →
      DeclaredAttrs P T₀ decl as → Children P V content kids → Rule P T₀ defs V i x as kids
  | simple {i decl base x as s} : .simple i decl base ∈ defs → DeclaredAttrs P T₀ decl as →
      Valid P T₀ (.text base s) → Rule P T₀ defs V i x as [.text s]
  | known {i x as kids} : Valid P T₀ (.value i x as kids) → Rule P T₀ defs V i x as kids

/-- Valid by at most `n` nested uses of the rules. -/
def ValidWithin (P : Lex) (T₀ : Types) (defs : List Def) : Nat → Meaning
  | 0 => fun _ _ _ _ => False
  | n + 1 => Rule P T₀ defs (ValidWithin P T₀ defs n)

/-- An element is valid for the component `i` of the schema. -/
def SchemaValid (P : Lex) (T₀ : Types) (defs : List Def) : Meaning := fun i x as kids =>
  ∃ n, ValidWithin P T₀ defs n i x as kids

/-! ## The conditions -/

mutual
/-- The types that are generated for the groups of a content model. -/
def Part.groupTypes : Part → List Ident
  | .elem _ => []
  | .any .. => []
  | .group _ _ ty _ _ _ parts => ty :: groupTypesOf parts
def groupTypesOf : List Part → List Ident
  | [] => []
  | p :: ps => p.groupTypes ++ groupTypesOf ps
end

def Def.groupTypes : Def → List Ident
  | .complex _ _ (some t) => t.type_ :: groupTypesOf t.parts
  | .extension _ _ copy _ none => [copy]
  | .extension _ _ copy _ (some t) => copy :: t.type_ :: groupTypesOf t.parts
  | .restriction _ _ copy _ none => [copy]
  | .restriction _ _ copy _ (some t) => copy :: t.type_ :: groupTypesOf t.parts
  | _ => []

/-- The simple types that a definition of a simple type uses; `none`: it is not a simple type. -/
def simpleUses : Variant → Option (List Ident)
  | .reference r => some [r.type_]
  | .union u => some (u.types.map (·.type_))
  | .buildIn _ | .custom _ => some []
  | .enumeration e => some (e.variants.filterMap (·.type_))
  | .simple x => some [x.base]
  | _ => none

/-- The table has only simple types, and they use only types of the table. -/
def SimpleTable (T₀ : Types) : Prop :=
  ∀ i v, look T₀ i = some v → ∃ us, simpleUses v = some us ∧ ∀ k ∈ us, Defined T₀ k

/-- The attributes have types of the table. -/
def AttrTypes (T₀ : Types) (decl : List Attribute) : Prop :=
  ∀ a ∈ decl, ∀ t, a.variant = .type_ t → Defined T₀ t

/-- A sequence that occurs exactly once. -/
def Top.Once (t : Top) : Prop := t.kind = .sequence ∧ t.min = 1 ∧ t.max = .bounded 1

/-- A type whose content can be extended: it is empty (`none`), or a sequence that occurs exactly once, whose members
have the given names. -/
inductive Extensible (defs : List Def) : Ident → Option (List PropIdent) → Prop
  | empty {i decl} : .complex i decl none ∈ defs → Extensible defs i none
  | sequence {i decl t} : .complex i decl (some t) ∈ defs → t.Once → Extensible defs i (some (elemNames t.parts))
  | same {i base copy decl ns} : .extension i base copy decl none ∈ defs → Extensible defs base ns →
      Extensible defs i ns
  | first {i base copy decl t} : .extension i base copy decl (some t) ∈ defs → Extensible defs base none → t.Once →
      Extensible defs i (some (elemNames t.parts))
  | more {i base copy decl t ns} : .extension i base copy decl (some t) ∈ defs → Extensible defs base (some ns) →
      t.kind = .sequence → Extensible defs i (some (ns ++ elemNames t.parts))
  | nested {i base copy decl t ns} : .extension i base copy decl (some t) ∈ defs → Extensible defs base (some ns) →
      t.kind ≠ .sequence → Extensible defs i (some ns)
  | restricted {i base copy decl t} : .restriction i base copy decl (some t) ∈ defs → t.Once →
      Extensible defs i (some (elemNames t.parts))

/-- The particle of an extension can follow a content with these members (see C51). -/
def Follows (members : Option (List PropIdent)) (t : Top) : Prop :=
  ∀ ns, members = some ns → t.kind = .sequence → t.Once ∧ ∀ n ∈ elemNames t.parts, n ∉ ns

/-- The particle of a type that does not extend another one. -/
inductive OwnContent (defs : List Def) : Ident → Top → Prop
  | complex {i decl t} : .complex i decl (some t) ∈ defs → OwnContent defs i t
  | restriction {i base copy decl t} : .restriction i base copy decl (some t) ∈ defs → OwnContent defs i t

/-- The group `t` of elements restricts the group `t₀` of elements, has the same kind and bounds, and starts with the
elements that `t₀` requires, in their order and with their types (see C60). -/
def Narrowed (t₀ t : Top) : Prop :=
  t.kind = t₀.kind ∧ t.min = t₀.min ∧ t.max = t₀.max ∧ ∃ ds₀ ds : List ElementDecl, t₀.parts = ds₀.map .elem ∧
    t.parts = ds.map .elem ∧ ds ≠ [] ∧ (ds.map (·.ident)).Nodup ∧
    (∃ n, (ds₀.filter fun d => decide (d.min > 0)).map (·.ident) = (ds.take n).map (·.ident)) ∧
    ∀ d₀ ∈ ds₀, ∀ d ∈ ds, d₀.min > 0 → d₀.ident = d.ident → d₀.type_ = d.type_

/-- A component for which the table is exact: its content model is `Plain` (C59), its simple types are those of the
table, and the type of an element is not an element. -/
def Def.Ok (groups : Ident → GKind × List Part) (T₀ : Types) (defs : List Def) : Def → Prop
  | .element _ target => ∀ t, .element target t ∉ defs
  | .complex _ decl content => AttrTypes T₀ decl ∧ ∀ t, content = some t → t.Plain groups
  | .extension _ base _ decl content => AttrTypes T₀ decl ∧ ∃ members, Extensible defs base members ∧
      ∀ t, content = some t → t.Plain groups ∧ Follows members t
  | .restriction _ base _ decl content => AttrTypes T₀ decl ∧ ∃ t t₀, content = some t ∧ OwnContent defs base t₀ ∧
      Narrowed t₀ t
  | .simple _ decl base => AttrTypes T₀ decl ∧ Defined T₀ base

/-- The names of the components differ from each other, from those of the simple types and from those of the types
generated for groups. -/
structure NamesApart (T₀ : Types) (defs : List Def) : Prop where
  nodup : (defs.map Def.ident).Nodup
  fresh : ∀ d ∈ defs, ¬ Defined T₀ d.ident
  groups : ∀ d ∈ defs, ∀ d' ∈ defs, d.ident ∉ d'.groupTypes

/-! ## What is added to the table -/

/-- Every type of the new table is one of the old table, or a group with one of the names `ns`. -/
def NewGroups (T T' : Types) (ns : List Ident) : Prop :=
  Extends T T' ∧ ∀ i ty, Assoc.get T' i = some ty →
    Assoc.get T i = some ty ∨ (i ∈ ns ∧ ∃ g, groupParts ty.variant = some g)

theorem NewGroups.refl (T : Types) (ns : List Ident) : NewGroups T T ns := ⟨Extends.refl _, fun _ _ h => .inl h⟩

theorem NewGroups.trans {T T' T'' : Types} {ns ns' : List Ident} (h : NewGroups T T' ns) (h' : NewGroups T' T'' ns') :
    NewGroups T T'' (ns ++ ns') := by
  refine ⟨h.1.trans h'.1, fun i ty hi => ?_⟩
  rcases h'.2 i ty hi with h1 | ⟨h1, h2⟩
  · rcases h.2 i ty h1 with h3 | ⟨h3, h4⟩
    · exact .inl h3
    · exact .inr ⟨List.mem_append_left _ h3, h4⟩
  · exact .inr ⟨List.mem_append_right _ h1, h2⟩

theorem NewGroups.weaken {T T' : Types} {ns ns' : List Ident} (h : NewGroups T T' ns) (hs : ∀ i ∈ ns, i ∈ ns') :
    NewGroups T T' ns' :=
  ⟨h.1, fun i ty hi => (h.2 i ty hi).imp id fun ⟨h1, h2⟩ => ⟨hs i h1, h2⟩⟩

theorem addType_new {i : Ident} {k : GKind} {m : Bool} {es : List Element} {st st' : St}
    (h : addType i (.new (k.variant m es)) st = .ok st') : NewGroups st.types st'.types [i] := by
  obtain ⟨x1, x2, -, -, x5⟩ := addType_ok h
  refine ⟨x1, fun j ty hj => ?_⟩
  by_cases he : j = i
  · subst he
    rw [x2] at hj
    cases hj
    exact .inr ⟨by simp, _, groupParts_variant _ _ _⟩
  · rw [x5 j he] at hj
    exact .inl hj

theorem addNested_types {field : PropIdent} {t : Ident} {min : Nat} {max : MaxOccurs} {es es' : List Element} {st st' : St}
    (h : addNested field t min max es st = .ok (st', es')) : st' = st := by
  rw [addNested] at h
  split at h <;> cases h
  rfl

mutual
theorem apply_new {mixed : Bool} : ∀ (p : Part) {st st' : St} {es es' : List Element},
    p.apply mixed st es = .ok (st', es') → NewGroups st.types st'.types p.groupTypes
  | .elem d, st, st', es, es', h => by
    rw [Part.apply] at h
    split at h <;> cases h
    exact NewGroups.refl _ _
  | .any i m min max, st, st', es, es', h => by
    rw [Part.apply] at h
    cases h
    exact NewGroups.refl _ _
  | .group kind field ty ref min max parts, st, st', es, es', h => by
    rw [Part.apply] at h
    split at h
    · rw [addNested_types h]; exact NewGroups.refl _ _
    · unfold finishNested at h
      split at h
      · cases h
      · rename_i st1 inner hr
        have h1 := applyParts_new parts hr
        split at h
        · cases h
          exact h1.weaken fun i hi => List.mem_cons_of_mem _ hi
        · split at h
          · cases h
          · rename_i st2 h2
            split at h
            · cases h
            · rename_i st3 es3 h3
              cases h
              rw [remember_types, addNested_types h3]
              refine (h1.trans (addType_new h2)).weaken fun i hi => ?_
              simp only [Part.groupTypes, List.mem_append, List.mem_cons, List.not_mem_nil, or_false] at hi ⊢
              exact hi.symm
theorem applyParts_new {mixed : Bool} : ∀ (ps : List Part) {st st' : St} {es es' : List Element},
    applyParts mixed ps st es = .ok (st', es') → NewGroups st.types st'.types (groupTypesOf ps)
  | [], st, st', es, es', h => by
    rw [applyParts] at h
    cases h
    exact NewGroups.refl _ _
  | p :: ps, st, st', es, es', h => by
    rw [applyParts] at h
    split at h
    · cases h
    · rename_i st1 es1 h1
      exact (apply_new p h1).trans (applyParts_new ps h)
end

theorem applyTop_new {mixed : Bool} {t : Top} {st st' : St} {c c' : Complex} (hn : c.content = none)
    (h : applyTop mixed t st c = .ok (st', c')) : NewGroups st.types st'.types (t.type_ :: groupTypesOf t.parts) := by
  rw [applyTop, hn] at h
  simp only at h
  rw [applyFirst] at h
  split at h
  · cases h; exact NewGroups.refl _ _
  · split at h
    · cases h
    · rename_i st1 es h1
      have h2 := applyParts_new t.parts h1
      split at h
      · cases h
        exact h2.weaken fun i hi => List.mem_cons_of_mem _ hi
      · split at h
        · cases h
        · rename_i st2 h3
          cases h
          rw [remember_types]
          refine (h2.trans (addType_new h3)).weaken fun i hi => ?_
          simp only [List.mem_append, List.mem_cons, List.not_mem_nil, or_false] at hi ⊢
          exact hi.symm

theorem complexOf_new {i : Ident} {as : List Attribute} {content : Option Top} {st st' : St} {ty : MetaType}
    (h : complexOf as content st = .ok (st', ty)) :
    NewGroups st.types st'.types (Def.complex i as content).groupTypes := by
  cases content with
  | none => cases h; exact NewGroups.refl _ _
  | some t =>
    rw [complexOf] at h
    split at h
    · cases h
    · rename_i st1 c h1
      cases h
      exact applyTop_new rfl h1

/-! ## Complex types of the table -/

/-- The content of the type has the members that `Extensible` tells. -/
def HasMembers (T : Types) (c : Complex) : Option (List PropIdent) → Prop
  | none => c.content = none
  | some ns => c.min = 1 ∧ c.max = .bounded 1 ∧ ∃ g, IsBase ⟨T, []⟩ c .sequence g ∧
      ∀ n ∈ memberNames g.elements, n ∈ ns

/-- What counts of a member that is an element. -/
def memberKey (e : Element) : PropIdent × ElementVariant × Nat := (e.ident, e.variant, e.min)

def ElementDecl.key (d : ElementDecl) : PropIdent × ElementVariant × Nat := (d.ident, .type_ d.type_ .element, d.min)

/-- The complex type `c` of the table `T` is the one that the component `i` of the schema describes. -/
structure Good (defs : List Def) (T : Types) (i : Ident) (decl : List Attribute) (c : Complex) : Prop where
  mixed : c.isMixed = false
  attrs : c.attributes = decl
  group : ∀ g, c.content = some g → ∃ v, look T g = some v ∧ ∃ k, groupParts v = some k
  lang : ∀ P T', Extends T T' → ∀ ns, contentLang P T' c ns ↔ ContentOf P (Val P T') defs i ns
  members : ∀ r, Extensible defs i r → HasMembers T c r
  own : ∀ t (ds : List ElementDecl), OwnContent defs i t → t.parts = ds.map .elem → c.min = t.min ∧ c.max = t.max ∧
    ∃ g, IsBase ⟨T, []⟩ c t.kind g ∧ g.elements.map memberKey = ds.map ElementDecl.key

theorem IsBase.extends {T T' : Types} {c : Complex} {k : GKind} {g : Group} (h : IsBase ⟨T, []⟩ c k g)
    (he : Extends T T') : IsBase ⟨T', []⟩ c k g := by
  obtain ⟨ci, ty, h1, h2, h3⟩ := h.content
  exact ⟨ci, ty, h1, he _ _ h2, h3⟩

theorem Good.extends {defs : List Def} {T T' : Types} {i : Ident} {decl : List Attribute} {c : Complex}
    (h : Good defs T i decl c) (he : Extends T T') : Good defs T' i decl c := by
  refine ⟨h.mixed, h.attrs, ?_, fun P T'' h' => h.lang P T'' (he.trans h'), ?_, ?_⟩
  · intro g hg
    obtain ⟨v, h1, h2⟩ := h.group g hg
    obtain ⟨ty, h3, h4⟩ := look_iff.1 h1
    exact ⟨v, look_iff.2 ⟨ty, he _ _ h3, h4⟩, h2⟩
  · intro r hr
    have := h.members r hr
    cases r with
    | none => exact this
    | some ns =>
      obtain ⟨h1, h2, g, h3, h4⟩ := this
      exact ⟨h1, h2, g, h3.extends he, h4⟩
  · intro t ds ht hds
    obtain ⟨h1, h2, g, h3, h4⟩ := h.own t ds ht hds
    exact ⟨h1, h2, g, h3.extends he, h4⟩

/-- The declared attributes of a complex type. -/
def Def.complexAttrs : Def → Option (List Attribute)
  | .complex _ decl _ => some decl
  | .extension _ _ _ decl _ => some decl
  | .restriction _ _ _ decl _ => some decl
  | _ => none

/-- The restrictions of the schema are restrictions: the attributes and the children that the derived type allows are
allowed by its base. -/
def Restricting (P : Lex) (T₀ : Types) (V : Meaning) (defs : List Def) : Prop :=
  ∀ i base copy decl content, .restriction i base copy decl content ∈ defs → ∀ d ∈ defs, d.ident = base →
    ∀ decl₀, d.complexAttrs = some decl₀ → (∀ as, DeclaredAttrs P T₀ decl as → DeclaredAttrs P T₀ decl₀ as) ∧
      ∀ kids, Children P V content kids → ContentOf P V defs base kids

/-- The complex types among the components that are in the table are good. -/
def AllGood (defs : List Def) (T : Types) : Prop :=
  ∀ d ∈ defs, ∀ decl, d.complexAttrs = some decl → ∀ ty, Assoc.get T d.ident = some ty →
    ∃ c, ty = .new (.complex c) ∧ Good defs T d.ident decl c

theorem same_ident {defs : List Def} (hn : (defs.map Def.ident).Nodup) : ∀ {d d' : Def}, d ∈ defs → d' ∈ defs →
    d.ident = d'.ident → d = d' := by
  induction defs with
  | nil => intro d d' h; cases h
  | cons a ds ih =>
    rw [List.map_cons, List.nodup_cons] at hn
    intro d d' h h' he
    rcases List.mem_cons.1 h with h | h <;> rcases List.mem_cons.1 h' with h' | h'
    · rw [h, h']
    · exact absurd (List.mem_map.2 ⟨_, h', by rw [← he, h]⟩) hn.1
    · exact absurd (List.mem_map.2 ⟨_, h, by rw [he, h']⟩) hn.1
    · exact ih hn.2 h h' he

theorem contentOf_complex {P : Lex} {V : Meaning} {defs : List Def} (hn : (defs.map Def.ident).Nodup) {i : Ident}
    {decl : List Attribute} {content : Option Top} (hd : .complex i decl content ∈ defs) (ns : List Node) :
    ContentOf P V defs i ns ↔ Children P V content ns := by
  constructor
  · intro h
    cases h with
    | own h1 h2 => cases same_ident hn hd h1 rfl; exact h2
    | extended h1 | restricted h1 => cases same_ident hn hd h1 rfl
  · exact .own hd

theorem contentOf_extension {P : Lex} {V : Meaning} {defs : List Def} (hn : (defs.map Def.ident).Nodup)
    {i base copy : Ident} {decl : List Attribute} {content : Option Top}
    (hd : .extension i base copy decl content ∈ defs) (ns : List Node) :
    ContentOf P V defs i ns ↔ ∃ a b, ns = a ++ b ∧ ContentOf P V defs base a ∧ Children P V content b := by
  constructor
  · intro h
    cases h with
    | own h1 | restricted h1 => cases same_ident hn hd h1 rfl
    | extended h1 h2 h3 => cases same_ident hn hd h1 rfl; exact ⟨_, _, rfl, h2, h3⟩
  · rintro ⟨a, b, rfl, h1, h2⟩
    exact .extended hd h1 h2

theorem contentOf_restriction {P : Lex} {V : Meaning} {defs : List Def} (hn : (defs.map Def.ident).Nodup)
    {i base copy : Ident} {decl : List Attribute} {content : Option Top}
    (hd : .restriction i base copy decl content ∈ defs) (ns : List Node) :
    ContentOf P V defs i ns ↔ Children P V content ns := by
  constructor
  · intro h
    cases h with
    | own h1 | extended h1 => cases same_ident hn hd h1 rfl
    | restricted h1 h2 => cases same_ident hn hd h1 rfl; exact h2
  · exact .restricted hd

/-- The members for elements that repeat the members left over from the base, in the same order, and then add others. -/
theorem applyParts_keys {mixed : Bool} (ds : List ElementDecl) {st st' : St} {done rest es' : List Element}
    (h : applyParts mixed (ds.map .elem) st (done ++ rest) = .ok (st', es')) (hn : (ds.map (·.ident)).Nodup)
    (hd : ∀ d ∈ ds, d.ident ∉ done.map (·.ident)) {n : Nat} (hr : rest.map (·.ident) = (ds.take n).map (·.ident))
    (hv : ∀ e ∈ rest, ∀ d ∈ ds, e.ident = d.ident → e.variant = .type_ d.type_ .element) :
    st' = st ∧ es'.map memberKey = done.map memberKey ++ ds.map ElementDecl.key := by
  induction ds generalizing done rest n with
  | nil =>
    rw [List.map_nil, applyParts] at h
    cases h
    have : rest = [] := by simpa using hr
    subst this
    simp
  | cons d ds ih =>
    rw [List.map_cons, applyParts, Part.apply] at h
    rw [List.map_cons, List.nodup_cons] at hn
    split at h
    · cases h
    · rename_i st1 es1 h1
      split at h1
      · cases h1
      · rename_i es2 h2
        cases h1
        have hd0 := hd d (by simp)
        have next : ∀ x : Element, x.ident = d.ident → ∀ d' ∈ ds, d'.ident ∉ (done ++ [x]).map (·.ident) := by
          intro x hx d' hd' hm
          rw [List.map_append, List.mem_append] at hm
          rcases hm with hm | hm
          · exact hd d' (by simp [hd']) hm
          · rw [List.map_singleton, List.mem_singleton, hx] at hm
            exact hn.1 (List.mem_map.mpr ⟨d', hd', hm⟩)
        cases rest with
        | nil =>
          rw [List.append_nil] at h2
          have h3 := addElement_new h2 hd0
          subst h3
          obtain ⟨r1, r2⟩ := ih (rest := []) (n := 0) (by simpa using h) hn.2 (next (member d) rfl) (by simp) (by simp)
          refine ⟨r1, ?_⟩
          rw [r2, List.map_append, List.map_singleton, List.append_assoc]
          rfl
        | cons e rest =>
          cases n with
          | zero => simp at hr
          | succ n =>
            simp only [List.map_cons, List.take_succ_cons, List.cons.injEq] at hr
            obtain ⟨-, rfl⟩ := addElement_found h2 hd0 hr.1
            have h' : applyParts mixed (ds.map .elem) st ((done ++ [d.update e]) ++ rest) = .ok (st', es') := by
              simpa using h
            obtain ⟨r1, r2⟩ := ih h' hn.2 (next (d.update e) hr.1) hr.2
              (fun e' he' d' hd' => hv e' (by simp [he']) d' (by simp [hd']))
            refine ⟨r1, ?_⟩
            have hk : memberKey (d.update e) = d.key := by
              show (e.ident, e.variant, d.min) = _
              rw [hr.1, hv e (by simp) d (by simp) hr.1]
              rfl
            rw [r2, List.map_append, List.map_singleton, hk, List.append_assoc]
            rfl

theorem elemNames_elems (ds : List ElementDecl) : elemNames (ds.map .elem) = ds.map (·.ident) := by
  induction ds with
  | nil => rfl
  | cons d ds ih => rw [List.map_cons, List.map_cons, ← ih]; rfl

theorem elems_inj : ∀ {ds ds' : List ElementDecl}, ds.map Part.elem = ds'.map Part.elem → ds = ds'
  | [], [], _ => rfl
  | [], _ :: _, h => by simp at h
  | _ :: _, [], h => by simp at h
  | a :: ds, b :: ds', h => by
    simp only [List.map_cons, List.cons.injEq, Part.elem.injEq] at h
    rw [h.1, elems_inj h.2]

theorem memberNames_keys {es : List Element} {ds : List ElementDecl} (h : es.map memberKey = ds.map ElementDecl.key) :
    memberNames es = ds.map (·.ident) := by
  induction es generalizing ds with
  | nil =>
    cases ds with
    | nil => rfl
    | cons d ds => simp at h
  | cons e es ih =>
    cases ds with
    | nil => simp at h
    | cons d ds =>
      simp only [List.map_cons, List.cons.injEq] at h
      have he : isElement e = true := by
        have : e.variant = .type_ d.type_ .element := congrArg (·.2.1) h.1
        rw [isElement, this]
      have hi : e.ident = d.ident := congrArg (·.1) h.1
      have := ih h.2
      rw [memberNames] at this ⊢
      rw [List.filter_cons_of_pos he, List.map_cons, List.map_cons, this, hi]

theorem required_keys {es : List Element} {ds : List ElementDecl} (h : es.map memberKey = ds.map ElementDecl.key) :
    (required es).map memberKey = (ds.filter fun d => decide (d.min > 0)).map ElementDecl.key := by
  induction es generalizing ds with
  | nil =>
    cases ds with
    | nil => rfl
    | cons d ds => simp at h
  | cons e es ih =>
    cases ds with
    | nil => simp at h
    | cons d ds =>
      simp only [List.map_cons, List.cons.injEq] at h
      have hm : e.min = d.min := congrArg (·.2.2) h.1
      have := ih h.2
      rw [required] at this ⊢
      by_cases hp : e.min > 0
      · rw [List.filter_cons_of_pos (by simpa using hp), List.filter_cons_of_pos (by rw [← hm]; simpa using hp),
          List.map_cons, List.map_cons, this, h.1]
      · rw [List.filter_cons_of_neg (by simpa using hp), List.filter_cons_of_neg (by rw [← hm]; simpa using hp), this]

theorem idents_keys {es : List Element} {ds : List ElementDecl} (h : es.map memberKey = ds.map ElementDecl.key) :
    es.map (·.ident) = ds.map (·.ident) := by
  have := congrArg (List.map (·.1)) h
  rw [List.map_map, List.map_map] at this
  exact this

/-- The first group of a type has the name given to it. -/
theorem applyFirst_names {defs : Ident → GKind × List Part} {mixed : Bool} {t : Top} {st st' : St} {c c' : Complex}
    (h : applyFirst mixed t st c = .ok (st', c')) (hp : t.Plain defs) (hs : st.cache = []) :
    Extends st.types st'.types ∧ c' = Complex.withContent c t.type_ t.min t.max ∧
    ∃ es, Assoc.get st'.types t.type_ = some (.new (t.kind.variant mixed es)) ∧ memberNames es = elemNames t.parts := by
  obtain ⟨p1, p2, p3, p4⟩ := hp
  have hcache : cached t.ref st = none := by
    unfold cached
    split
    · rw [hs]; rfl
    · rfl
  rw [applyFirst, hcache] at h
  simp only at h
  split at h
  · cases h
  · rename_i st1 es h1
    have ha := applyParts_ok (X := fun _ => False) (defs := defs) t.parts h1 p4 (cacheOk_nil hs) (fun _ hx => hx.elim) p2
      (fun n _ hm => by simp [memberNames] at hm)
    split at h
    · rename_i he
      exfalso
      have hl := ha.lang noLex st1.types (fun _ _ _ h => h)
      have : es = [] := List.isEmpty_iff.mp he
      subst this
      simp only [List.map_nil, List.nil_append] at hl
      have := congrArg List.length hl
      rw [langs_length] at this
      exact p1 (List.length_eq_zero_iff.mp this.symm)
    · split at h
      · cases h
      · rename_i st2 h2
        cases h
        obtain ⟨x1, x2, -, -, -⟩ := addType_ok h2
        refine ⟨by rw [remember_types]; exact ha.ext.trans x1, rfl, es, by rw [remember_types]; exact x2, ?_⟩
        simpa [memberNames] using ha.names

theorem variant_inj {k : GKind} {m : Bool} {es es' : List Element} (h : k.variant m es = k.variant m es') : es = es' := by
  cases k <;> simpa [GKind.variant] using h

/-- The members of the first group, if it consists of elements. -/
theorem applyFirst_keys {defs : Ident → GKind × List Part} {mixed : Bool} {t : Top} {st st' : St} {c c' : Complex}
    (h : applyFirst mixed t st c = .ok (st', c')) (hp : t.Plain defs) (hs : st.cache = []) {ds : List ElementDecl}
    (hds : t.parts = ds.map .elem) {es : List Element}
    (hes : Assoc.get st'.types t.type_ = some (.new (t.kind.variant mixed es))) :
    es.map memberKey = ds.map ElementDecl.key := by
  obtain ⟨p1, p2, p3, p4⟩ := hp
  have hcache : cached t.ref st = none := by
    unfold cached
    split
    · rw [hs]; rfl
    · rfl
  rw [applyFirst, hcache] at h
  simp only at h
  rw [hds, elemNames_elems] at p2
  split at h
  · cases h
  · rename_i st1 es1 h1
    rw [hds] at h1
    obtain ⟨-, h2⟩ := applyParts_keys ds (done := []) (rest := []) (n := 0) h1 p2 (by simp) (by simp) (by simp)
    split at h
    · rename_i he
      rw [List.isEmpty_iff.mp he] at h2
      have : ds = [] := by simpa using h2.symm
      rw [this] at hds
      exact absurd (by simpa using hds) p1
    · split at h
      · cases h
      · rename_i st2 h3
        cases h
        obtain ⟨-, x2, -, -, -⟩ := addType_ok h3
        rw [remember_types, x2] at hes
        simp only [MetaType.new, Option.some.injEq, MetaType.mk.injEq] at hes
        rw [← variant_inj hes.1]
        simpa using h2

theorem isBase_kind {T : Types} {c : Complex} {ci : Ident} {k : GKind} {m : Bool} {es : List Element}
    (hc : c.content = some ci) (h : Assoc.get T ci = some (.new (k.variant m es))) : IsBase ⟨T, []⟩ c k ⟨m, es⟩ :=
  ⟨ci, _, hc, h, groupParts_variant _ _ _⟩

theorem isBase_group {T : Types} {c : Complex} {k : GKind} {g : Group} (h : IsBase ⟨T, []⟩ c k g) :
    ∀ ci, c.content = some ci → ∃ v, look T ci = some v ∧ ∃ k, groupParts v = some k := by
  obtain ⟨ci, ty, h1, h2, h3⟩ := h.content
  intro ci' h'
  rw [h1] at h'
  cases h'
  exact ⟨_, look_of h2 rfl, _, h3⟩

/-- A complex type without base. -/
theorem complexOf_good {groups : Ident → GKind × List Part} {defs : List Def} (hn : (defs.map Def.ident).Nodup)
    {i : Ident} {decl : List Attribute} {content : Option Top} (hd : .complex i decl content ∈ defs)
    (hp : ∀ t, content = some t → t.Plain groups) {T : Types} {st : St} {ty : MetaType}
    (h : complexOf decl content ⟨T, []⟩ = .ok (st, ty)) :
    ∃ c, ty = .new (.complex c) ∧ Good defs st.types i decl c := by
  cases content with
  | none =>
    cases h
    refine ⟨_, rfl, rfl, rfl, (by intro g hg; cases hg), fun P T' _ ns => ?_, ?_, ?_⟩
    · rw [contentOf_complex hn hd]; rfl
    · intro r hr
      cases hr with
      | empty h1 => rfl
      | sequence h1 | same h1 | first h1 | more h1 | nested h1 | restricted h1 => cases same_ident hn hd h1 rfl
    · intro t ds ht
      cases ht with
      | complex h1 | restriction h1 => cases same_ident hn hd h1 rfl
  | some t =>
    rw [complexOf] at h
    split at h
    · cases h
    · rename_i st1 c hc
      cases h
      have hlang := fun P T' hT => C59_content_exact_partial hc rfl rfl (hp t rfl) P T' hT
      have hc' := hc
      rw [applyTop] at hc'
      obtain ⟨-, rfl, es, h2, h3⟩ := applyFirst_names hc' (hp t rfl) rfl
      have hb := isBase_kind (c := Complex.withContent (Complex.fresh decl) t.type_ t.min t.max) rfl h2
      refine ⟨_, rfl, rfl, rfl, isBase_group hb, fun P T' hT ns => ?_, ?_, ?_⟩
      · rw [contentOf_complex hn hd, hlang P T' hT]; rfl
      · intro r hr
        cases hr with
        | sequence h1 h4 =>
          cases same_ident hn hd h1 rfl
          obtain ⟨h4, h5, h6⟩ := h4
          rw [h4] at hb
          exact ⟨h5, h6, _, hb, fun n hm => h3 ▸ hm⟩
        | empty h1 | same h1 | first h1 | more h1 | nested h1 | restricted h1 => cases same_ident hn hd h1 rfl
      · intro t' ds ht hds
        cases ht with
        | complex h1 =>
          cases same_ident hn hd h1 rfl
          exact ⟨rfl, rfl, _, hb, applyFirst_keys hc' (hp t rfl) rfl hds h2⟩
        | restriction h1 => cases same_ident hn hd h1 rfl

/-- What an extension of a sequence leaves. -/
theorem derive_sequence {groups : Ident → GKind × List Part} {new : Ident} {t : Top} {T : Types} {st' : St}
    {c c' : Complex} {g : Group} (h : derive false .extension new (some t) ⟨T, []⟩ c = .ok (st', c'))
    (hb : IsBase ⟨T, []⟩ c .sequence g) (hp : t.Plain groups)
    (hq : t.kind = .sequence → ∀ n ∈ elemNames t.parts, n ∉ memberNames g.elements) :
    Extends T st'.types ∧ c'.isMixed = false ∧
    (t.kind = .sequence → c'.min = min c.min t.min ∧ c'.max = c.max.max t.max ∧
      ∃ g', IsBase ⟨st'.types, []⟩ c' .sequence g' ∧
        memberNames g'.elements = memberNames g.elements ++ elemNames t.parts) ∧
    (t.kind ≠ .sequence → c'.min = c.min ∧ c'.max = c.max ∧
      ∃ g', IsBase ⟨st'.types, []⟩ c' .sequence g' ∧ memberNames g'.elements = memberNames g.elements) := by
  obtain ⟨ci, ty, hci, hty, hg⟩ := hb.content
  rw [derive] at h
  split at h
  · cases h
  · rename_i st1 c1 h1
    have hfresh : Assoc.get T new = none := by
      rw [copyBase, hci] at h1
      simp only at h1
      split at h1
      · cases h1
      · split at h1
        · cases h1
        · rename_i h2
          exact (addType_ok h2).2.2.2.1
    obtain ⟨ty', e1, e2, rfl, e4, e5, e6⟩ := copyBase_some h1 hci
    rw [hty] at e1; cases e1
    have hext : ∀ {T'' : Types}, (∀ i ty, i ≠ new → Assoc.get st1.types i = some ty → Assoc.get T'' i = some ty) →
        Extends T T'' := by
      intro T'' u1 i ty' hi
      refine u1 i ty' ?_ (e6 _ _ hi)
      rintro rfl
      rw [hfresh] at hi
      cases hi
    simp only [applyTop, e4, keep, hg] at h
    split at h
    · rename_i hk
      obtain ⟨u1, rfl, es, u3, u4, -⟩ := applyUpdate_ok (defs := groups) h ⟨_, e4⟩ e5 hp (hq hk.symm)
      refine ⟨hext u1, rfl, fun _ => ⟨rfl, rfl, ⟨false, es⟩, ?_, u4⟩, fun hne => absurd hk.symm hne⟩
      rw [← hk] at u3
      exact isBase_kind rfl u3
    · rename_i hk
      obtain ⟨u1, rfl, ty2, es, u3, u4, u5, -⟩ :=
        applyAppend_ok (defs := groups) h e4 (by simpa [keep] using hg) e5 hp
      exact ⟨hext u1, rfl, fun hk' => absurd hk'.symm hk, fun _ => ⟨rfl, rfl, _, ⟨_, _, rfl, u3, u4⟩, u5⟩⟩

theorem isBase_withAttrs {T : Types} {c : Complex} {k : GKind} {g : Group} (as : List Attribute) (b : Base)
    (h : IsBase ⟨T, []⟩ c k g) : IsBase ⟨T, []⟩ { c with attributes := as, base := b } k g := ⟨h.content⟩

theorem extensible_complex {defs : List Def} {i : Ident} {r : Option (List PropIdent)} (h : Extensible defs i r) :
    ∃ d ∈ defs, d.ident = i ∧ ∃ decl, d.complexAttrs = some decl := by
  cases h <;> exact ⟨_, by assumption, rfl, _, rfl⟩

theorem isBase_unique {T : Types} {c : Complex} {k : GKind} {g g' : Group} (h : IsBase ⟨T, []⟩ c k g)
    (h' : IsBase ⟨T, []⟩ c k g') : g = g' := by
  obtain ⟨ci, ty, h1, h2, h3⟩ := h.content
  obtain ⟨ci', ty', h1', h2', h3'⟩ := h'.content
  rw [h1] at h1'; cases h1'
  rw [h2] at h2'; cases h2'
  rw [h3] at h3'; cases h3'
  rfl

/-- An extension without particle leaves a copy of the content. -/
theorem derive_none {new : Ident} {T : Types} {st' : St} {c c' : Complex}
    (h : derive false .extension new none ⟨T, []⟩ c = .ok (st', c')) :
    Extends T st'.types ∧ c'.isMixed = false ∧ c'.min = c.min ∧ c'.max = c.max ∧
    (c.content = none → c'.content = none) ∧
    ∀ k g, IsBase ⟨T, []⟩ c k g → IsBase ⟨st'.types, []⟩ c' k g := by
  rw [derive] at h
  split at h
  · cases h
  · rename_i st1 c1 h1
    cases h
    cases hc : c.content with
    | none =>
      rw [copyBase, hc] at h1
      cases h1
      refine ⟨Extends.refl _, rfl, rfl, rfl, fun _ => rfl, fun k g hb => ?_⟩
      obtain ⟨ci, -, h2, -⟩ := hb.content
      rw [hc] at h2
      cases h2
    | some ci =>
      obtain ⟨ty, e1, e2, rfl, e4, e5, e6⟩ := copyBase_some h1 hc
      refine ⟨e6, rfl, rfl, rfl, (by intro h; cases h), fun k g hb => ?_⟩
      obtain ⟨ci', ty', h2, h3, h4⟩ := hb.content
      rw [hc] at h2; cases h2
      rw [e1] at h3; cases h3
      exact ⟨new, _, rfl, e4, h4⟩

/-- A complex type with a base. -/
theorem derivedOf_good {groups : Ident → GKind × List Part} {defs : List Def} (hn : (defs.map Def.ident).Nodup)
    {i base copy : Ident} {decl : List Attribute} {content : Option Top}
    (hd : .extension i base copy decl content ∈ defs) {r : Option (List PropIdent)} (hr : Extensible defs base r)
    (hp : ∀ t, content = some t → t.Plain groups ∧ Follows r t) {T : Types} (hT : AllGood defs T) {st : St}
    {ty : MetaType} (h : derivedOf .extension base copy decl content ⟨T, []⟩ = .ok (st, ty)) :
    Extends T st.types ∧ ∃ c, ty = .new (.complex c) ∧ Good defs st.types i decl c := by
  rw [derivedOf] at h
  split at h
  · cases h
  · rename_i c hl
    obtain ⟨ty0, hg0, hv0⟩ := look_iff.1 hl
    obtain ⟨d, hd0, rfl, decl0, hdecl⟩ := extensible_complex hr
    obtain ⟨c0, rfl, good⟩ := hT d hd0 _ hdecl _ hg0
    cases hv0
    split at h
    · cases h
    · rename_i st1 c1 h1
      cases h
      have hbase := good.lang
      have notOwn : ∀ t (ds : List ElementDecl), OwnContent defs i t → t.parts = ds.map .elem →
          c1.min = t.min ∧ c1.max = t.max ∧ ∃ g, IsBase ⟨st.types, []⟩
            { c1 with attributes := decl, base := .ext d.ident } t.kind g ∧
            g.elements.map memberKey = ds.map ElementDecl.key := by
        intro t ds ht
        cases ht with
        | complex h2 | restriction h2 => cases same_ident hn hd h2 rfl
      cases content with
      | none =>
        obtain ⟨d1, d2, d3, d4, d5, d6⟩ := derive_none h1
        refine ⟨d1, _, rfl, d2, rfl, ?_, ?_, ?_, notOwn⟩
        · intro g' hg'
          cases hc : c.content with
          | none =>
            rw [show c1.content = none from d5 hc] at hg'
            cases hg'
          | some ci =>
            obtain ⟨v, v1, k, v2⟩ := good.group ci hc
            obtain ⟨ty, v3, rfl⟩ := look_iff.1 v1
            exact isBase_group (d6 k.1 k.2 ⟨ci, ty, hc, v3, v2⟩) g' hg'
        · intro P T' hT' ns
          rw [contentOf_extension hn hd]
          have hl : contentLang P T' c1 = contentLang P T' c := by
            cases hc : c.content with
            | none => funext ns; simp only [contentLang, hc, d5 hc]
            | some ci =>
              obtain ⟨v, v1, k, v2⟩ := good.group ci hc
              obtain ⟨ty, v3, rfl⟩ := look_iff.1 v1
              exact C51_no_particle h1 (k := k.1) (g := k.2) ⟨ci, ty, hc, v3, v2⟩ P T' hT'
          change contentLang P T' c1 ns ↔ _
          rw [hl, hbase P T' (d1.trans hT')]
          constructor
          · exact fun h => ⟨ns, [], by simp, h, rfl⟩
          · rintro ⟨a, b, rfl, h2, h3⟩
            cases h3
            simpa using h2
        · intro r' hr'
          cases hr' with
          | same h2 h3 =>
            cases same_ident hn hd h2 rfl
            have := good.members _ h3
            cases r' with
            | none => exact d5 this
            | some ns =>
              obtain ⟨m1, m2, g, m3, m4⟩ := this
              exact ⟨d3.trans m1, d4.trans m2, g, isBase_withAttrs _ _ (d6 _ _ m3), m4⟩
          | empty h2 | sequence h2 | first h2 | more h2 | nested h2 | restricted h2 => cases same_ident hn hd h2 rfl
      | some t =>
        obtain ⟨hplain, hfol⟩ := hp t rfl
        have hmr := good.members r hr
        cases r with
        | none =>
          have hlang := fun P T' hT' => C51_empty_base h1 hmr rfl hplain P T' hT'
          have h2 := h1
          rw [derive, copyBase, show c.content = none from hmr] at h2
          simp only [applyTop, show c.content = none from hmr] at h2
          obtain ⟨x1, x0, es, x2, x3⟩ := applyFirst_names h2 hplain rfl
          refine ⟨x1, _, rfl, by rw [x0]; rfl, rfl, ?_, ?_, ?_, notOwn⟩
          · exact isBase_group (isBase_withAttrs _ _ (isBase_kind (by rw [x0]; rfl) x2))
          · intro P T' hT' ns
            rw [contentOf_extension hn hd]
            change contentLang P T' c1 ns ↔ _
            rw [hlang P T' hT']
            have hnil : ∀ a, ContentOf P (Val P T') defs d.ident a ↔ a = [] := fun a => by
              rw [← hbase P T' (x1.trans hT')]
              simp [contentLang, show c.content = none from hmr]
            constructor
            · exact fun h => ⟨[], ns, rfl, (hnil _).2 rfl, h⟩
            · rintro ⟨a, b, rfl, h3, h4⟩
              rw [hnil] at h3
              subst h3
              exact h4
          · intro r' hr'
            cases hr' with
            | first h3 h4 h5 =>
              cases same_ident hn hd h3 rfl
              obtain ⟨h5, h6, h7⟩ := h5
              rw [h5] at x2
              exact ⟨by rw [x0]; exact h6, by rw [x0]; exact h7, _, isBase_withAttrs _ _ (isBase_kind (by rw [x0]; rfl) x2),
                fun n hm => x3 ▸ hm⟩
            | more h3 h4 =>
              cases same_ident hn hd h3 rfl
              obtain ⟨-, -, g, m3, -⟩ := good.members _ h4
              obtain ⟨ci, -, m4, -⟩ := m3.content
              rw [show c.content = none from hmr] at m4
              cases m4
            | nested h3 h4 =>
              cases same_ident hn hd h3 rfl
              obtain ⟨-, -, g, m3, -⟩ := good.members _ h4
              obtain ⟨ci, -, m4, -⟩ := m3.content
              rw [show c.content = none from hmr] at m4
              cases m4
            | empty h2 | sequence h2 | same h2 | restricted h2 => cases same_ident hn hd h2 rfl
        | some ns =>
          obtain ⟨m1, m2, g, m3, m4⟩ := hmr
          have hq : t.kind = .sequence → t.min = 1 ∧ t.max = .bounded 1 ∧
              ∀ n ∈ elemNames t.parts, n ∉ memberNames g.elements := fun hk =>
            ⟨(hfol ns rfl hk).1.2.1, (hfol ns rfl hk).1.2.2, fun n hn' hm => (hfol ns rfl hk).2 n hn' (m4 n hm)⟩
          obtain ⟨d1, d2, d3, d4⟩ := derive_sequence h1 m3 hplain fun hk => (hq hk).2.2
          refine ⟨d1, _, rfl, d2, rfl, ?_, ?_, ?_, notOwn⟩
          · by_cases hk : t.kind = .sequence
            · obtain ⟨-, -, g', b1, -⟩ := d3 hk
              exact isBase_group (isBase_withAttrs _ _ b1)
            · obtain ⟨-, -, g', b1, -⟩ := d4 hk
              exact isBase_group (isBase_withAttrs _ _ b1)
          · intro P T' hT' kids
            rw [contentOf_extension hn hd]
            refine (C51_extension_partial h1 m3 m1 m2 rfl hplain hq P T' hT' kids).trans ?_
            simp only [hbase P T' (d1.trans hT')]
            rfl
          · intro r' hr'
            cases hr' with
            | first h3 h4 =>
              cases same_ident hn hd h3 rfl
              have := good.members _ h4
              obtain ⟨ci, -, m5, -⟩ := m3.content
              rw [show c.content = none from this] at m5
              cases m5
            | more h3 h4 hk =>
              cases same_ident hn hd h3 rfl
              obtain ⟨q1, q2, -⟩ := hq hk
              obtain ⟨b1, b2, g', b3, b4⟩ := d3 hk
              obtain ⟨-, -, g0, n3, n4⟩ := good.members _ h4
              cases isBase_unique m3 n3
              refine ⟨by rw [show _ = min c.min t.min from b1, m1, q1]; rfl,
                by rw [show _ = c.max.max t.max from b2, m2, q2]; rfl, g', isBase_withAttrs _ _ b3, ?_⟩
              intro n hm
              rw [b4] at hm
              rcases List.mem_append.1 hm with hm | hm
              · exact List.mem_append_left _ (n4 n hm)
              · exact List.mem_append_right _ hm
            | nested h3 h4 hk =>
              cases same_ident hn hd h3 rfl
              obtain ⟨b1, b2, g', b3, b4⟩ := d4 hk
              obtain ⟨-, -, g0, n3, n4⟩ := good.members _ h4
              cases isBase_unique m3 n3
              exact ⟨b1.trans m1, b2.trans m2, g', isBase_withAttrs _ _ b3, fun n hm => n4 n (b4 ▸ hm)⟩
            | empty h2 | sequence h2 | same h2 | restricted h2 => cases same_ident hn hd h2 rfl
  · cases h

/-- What a restriction leaves. -/
theorem derive_restriction {new : Ident} {t : Top} {ds : List ElementDecl} {T : Types} {st' : St} {c c' : Complex}
    {g : Group} (h : derive false .restriction new (some t) ⟨T, []⟩ c = .ok (st', c'))
    (hb : IsBase ⟨T, []⟩ c t.kind g) (h1 : c.min = t.min) (h2 : c.max = t.max) (hp : t.parts = ds.map .elem)
    (hd : ds ≠ []) (hn : (ds.map (·.ident)).Nodup) {n : Nat}
    (hr : (required g.elements).map (·.ident) = (ds.take n).map (·.ident))
    (hv : ∀ e ∈ required g.elements, ∀ d ∈ ds, e.ident = d.ident → e.variant = .type_ d.type_ .element) :
    Extends T st'.types ∧ c'.isMixed = false ∧ c'.min = t.min ∧ c'.max = t.max ∧
    ∃ g', IsBase ⟨st'.types, []⟩ c' t.kind g' ∧ g'.elements.map memberKey = ds.map ElementDecl.key := by
  obtain ⟨ci, ty, hci, hty, hg⟩ := hb.content
  rw [derive] at h
  split at h
  · cases h
  · rename_i st1 c1 hcp
    have hfresh : Assoc.get T new = none := by
      rw [copyBase, hci] at hcp
      simp only at hcp
      split at hcp
      · cases hcp
      · split at hcp
        · cases hcp
        · rename_i h3
          exact (addType_ok h3).2.2.2.1
    obtain ⟨ty', e1, e2, rfl, e4, e5, e6⟩ := copyBase_some hcp hci
    rw [hty] at e1; cases e1
    simp only [applyTop, e4, keep_groupParts hg, if_true] at h
    rw [applyUpdate] at h
    split at h
    · cases h
    · rename_i st2 es h3
      rw [hp] at h3
      obtain ⟨rfl, key⟩ := applyParts_keys ds (done := []) h3 hn (by simp) hr hv
      split at h
      · rename_i he
        rw [List.isEmpty_iff.mp he] at key
        exact absurd (by simpa using key.symm) hd
      · cases h
        refine ⟨?_, rfl, ?_, ?_, ⟨false, es⟩, isBase_kind rfl ?_, by simpa using key⟩
        · intro i tyi hi
          rw [rememberNew_types, setType_get, if_neg]
          · exact e6 _ _ hi
          · rintro rfl
            rw [hfresh] at hi
            cases hi
        · show min c.min t.min = _
          rw [h1, Nat.min_self]
        · show c.max.max t.max = _
          rw [h2, max_self]
        · rw [rememberNew_types, setType_get, if_pos rfl]

theorem ownContent_complex {defs : List Def} {i : Ident} {t : Top} (h : OwnContent defs i t) :
    ∃ d ∈ defs, d.ident = i ∧ ∃ decl, d.complexAttrs = some decl := by
  cases h <;> exact ⟨_, by assumption, rfl, _, rfl⟩

/-- A complex type that restricts another one. -/
theorem restrictionOf_good {defs : List Def} (hn : (defs.map Def.ident).Nodup) {i base copy : Ident}
    {decl : List Attribute} {t t₀ : Top} (hd : .restriction i base copy decl (some t) ∈ defs)
    (ho : OwnContent defs base t₀) (hnar : Narrowed t₀ t) {T : Types} (hT : AllGood defs T) {st : St} {ty : MetaType}
    (h : derivedOf .restriction base copy decl (some t) ⟨T, []⟩ = .ok (st, ty)) :
    Extends T st.types ∧ ∃ c, ty = .new (.complex c) ∧ Good defs st.types i decl c := by
  rw [derivedOf] at h
  split at h
  · cases h
  · rename_i c hl
    obtain ⟨ty0, hg0, hv0⟩ := look_iff.1 hl
    obtain ⟨d, hd0, rfl, decl0, hdecl⟩ := ownContent_complex ho
    obtain ⟨c0, rfl, good⟩ := hT d hd0 _ hdecl _ hg0
    cases hv0
    split at h
    · cases h
    · rename_i st1 c1 h1
      cases h
      obtain ⟨n1, n2, n3, ds₀, ds, n4, n5, n6, n7, ⟨n, n8⟩, n9⟩ := hnar
      obtain ⟨o1, o2, g, o3, o4⟩ := good.own t₀ ds₀ ho n4
      have hreq := required_keys o4
      have hr : (required g.elements).map (·.ident) = (ds.take n).map (·.ident) := by rw [idents_keys hreq, n8]
      have hv : ∀ e ∈ required g.elements, ∀ d ∈ ds, e.ident = d.ident → e.variant = .type_ d.type_ .element := by
        intro e he d' hd' hi
        have hm : memberKey e ∈ (ds₀.filter fun d => decide (d.min > 0)).map ElementDecl.key :=
          hreq ▸ List.mem_map_of_mem he
        obtain ⟨d₀, hd₀, hk⟩ := List.mem_map.1 hm
        obtain ⟨hd₀, hpos⟩ := List.mem_filter.1 hd₀
        have k1 : d₀.ident = e.ident := congrArg (·.1) hk
        have k2 : ElementVariant.type_ d₀.type_ .element = e.variant := congrArg (·.2.1) hk
        rw [← k2, n9 d₀ hd₀ d' hd' (by simpa using hpos) (k1.trans hi)]
      rw [← n1] at o3
      have hlang := fun P T' hT' => C60_restriction_partial h1 o3 (o1.trans n2.symm) (o2.trans n3.symm) n5 n6 n7 hr hv P
        T' hT'
      obtain ⟨d1, d2, d3, d4, g', d5, d6⟩ :=
        derive_restriction h1 o3 (o1.trans n2.symm) (o2.trans n3.symm) n5 n6 n7 hr hv
      refine ⟨d1, _, rfl, d2, rfl, isBase_group (isBase_withAttrs _ _ d5), ?_, ?_, ?_⟩
      · intro P T' hT' ns
        rw [contentOf_restriction hn hd]
        change contentLang P T' c1 ns ↔ _
        rw [hlang P T' hT']
        rfl
      · intro r hr
        cases hr with
        | restricted h2 h3 =>
          cases same_ident hn hd h2 rfl
          obtain ⟨h3, h4, h5⟩ := h3
          refine ⟨d3.trans h4, d4.trans h5, g', isBase_withAttrs _ _ (h3 ▸ d5), ?_⟩
          intro m hm
          rwa [memberNames_keys d6, ← elemNames_elems, ← n5] at hm
        | empty h2 | sequence h2 | same h2 | first h2 | more h2 | nested h2 => cases same_ident hn hd h2 rfl
      · intro t' ds' ht hds'
        cases ht with
        | complex h2 => cases same_ident hn hd h2 rfl
        | restriction h2 =>
          cases same_ident hn hd h2 rfl
          have : ds' = ds := (elems_inj (n5.symm.trans hds')).symm
          subst this
          exact ⟨d3, d4, g', isBase_withAttrs _ _ d5, d6⟩
  · cases h

/-! ## What a component adds -/

/-- Every new type is a group with one of the names `ns`. -/
def OnlyGroups (T T' : Types) (ns : List Ident) : Prop :=
  ∀ i ty, Assoc.get T' i = some ty → Assoc.get T i = some ty ∨ (i ∈ ns ∧ ∃ g, groupParts ty.variant = some g)

theorem OnlyGroups.more {T T' T'' : Types} {ns ns' : List Ident} (h : OnlyGroups T T' ns) (h' : NewGroups T' T'' ns')
    (hs : ∀ i ∈ ns', i ∈ ns) : OnlyGroups T T'' ns := by
  intro i ty hi
  rcases h'.2 i ty hi with h1 | ⟨h1, h2⟩
  · exact h i ty h1
  · exact .inr ⟨hs i h1, h2⟩

theorem OnlyGroups.set {T : Types} {st : St} {ns : List Ident} {i : Ident} {ty : MetaType} {g : GKind × Group}
    (h : OnlyGroups T st.types ns) (hi : i ∈ ns) (hg : groupParts ty.variant = some g) :
    OnlyGroups T (setType i ty st).types ns := by
  intro j t hj
  rw [setType_get] at hj
  split at hj
  · rename_i he
    cases hj
    exact .inr ⟨he ▸ hi, g, hg⟩
  · exact h j t hj

theorem memberType_new {mixed : Bool} {t : Top} {st st' : St} {r : Option Ident}
    (h : memberType mixed t st = .ok (st', r)) : NewGroups st.types st'.types (t.type_ :: groupTypesOf t.parts) := by
  rw [memberType] at h
  split at h
  · cases h; exact NewGroups.refl _ _
  · split at h
    · cases h
    · rename_i st1 es h1
      have h2 := applyParts_new t.parts h1
      split at h
      · cases h
        exact h2.weaken fun i hi => List.mem_cons_of_mem _ hi
      · split at h
        · cases h
        · rename_i st2 h3
          cases h
          refine (h2.trans (addType_new h3)).weaken fun i hi => ?_
          simp only [List.mem_append, List.mem_cons, List.not_mem_nil, or_false] at hi ⊢
          exact hi.symm

/-- The added particle changes only groups. -/
theorem applyTop_only {mixed : Bool} {t : Top} {st st' : St} {c c' : Complex} {T : Types} {ns : List Ident}
    (h : applyTop mixed t st c = .ok (st', c')) (ho : OnlyGroups T st.types ns) (hc : ∀ i, c.content = some i → i ∈ ns)
    (hs : ∀ i ∈ t.type_ :: groupTypesOf t.parts, i ∈ ns) : OnlyGroups T st'.types ns := by
  cases hcc : c.content with
  | none => exact ho.more (applyTop_new hcc h) hs
  | some ci =>
    have append : applyAppend mixed t st c ci = .ok (st', c') → OnlyGroups T st'.types ns := by
      intro h
      rw [applyAppend] at h
      split at h
      · cases h
      · rename_i st1 h1
        cases h
        exact ho.more (memberType_new h1) hs
      · rename_i st1 i h1
        split at h
        · cases h
        · split at h
          · cases h
          · split at h
            · cases h
            · cases h
              rw [rememberNew_types]
              exact (ho.more (memberType_new h1) hs).set (hc ci hcc) (groupParts_variant _ _ _)
    rw [applyTop, hcc] at h
    simp only at h
    split at h
    · cases h
    · split at h
      · split at h
        · rw [applyUpdate] at h
          split at h
          · cases h
          · rename_i st1 es h1
            have h2 := ho.more (applyParts_new t.parts h1) fun i hi => hs i (List.mem_cons_of_mem _ hi)
            split at h
            · cases h; exact h2
            · cases h
              rw [rememberNew_types]
              exact h2.set (hc ci hcc) (groupParts_variant _ _ _)
        · exact append h
      · exact append h

theorem keep_groups {mode : DMode} {v : Variant} {k : GKind × Group} (h : groupParts v = some k) :
    ∃ k', groupParts (keep mode v) = some k' := by
  cases mode with
  | extension => exact ⟨k, h⟩
  | restriction => exact ⟨_, keep_groupParts (k := k.1) (g := k.2) h⟩

/-- The names of the types that derivation adds. -/
def derivedTypes (copy : Ident) : Option Top → List Ident
  | none => [copy]
  | some t => copy :: t.type_ :: groupTypesOf t.parts

/-- A derived type adds only groups. -/
theorem derivedOf_only {defs : List Def} {mode : DMode} {base copy : Ident} {decl : List Attribute} {content : Option Top}
    (hr : ∃ d ∈ defs, d.ident = base ∧ ∃ decl, d.complexAttrs = some decl) {T : Types} (hT : AllGood defs T) {st : St}
    {ty : MetaType} (h : derivedOf mode base copy decl content ⟨T, []⟩ = .ok (st, ty)) :
    OnlyGroups T st.types (derivedTypes copy content) := by
  rw [derivedOf] at h
  split at h
  · cases h
  · rename_i c hl
    obtain ⟨ty0, hg0, hv0⟩ := look_iff.1 hl
    obtain ⟨d, hd0, rfl, decl0, hdecl⟩ := hr
    obtain ⟨c0, rfl, good⟩ := hT d hd0 _ hdecl _ hg0
    cases hv0
    split at h
    · cases h
    · rename_i st1 c1 h1
      cases h
      have hcopy : copy ∈ derivedTypes copy content := by
        cases content <;> simp [derivedTypes]
      rw [derive] at h1
      split at h1
      · cases h1
      · rename_i st2 c2 h2
        have ho : OnlyGroups T st2.types (derivedTypes copy content) := by
          cases hc : c.content with
          | none =>
            rw [copyBase, hc] at h2
            cases h2
            exact fun _ _ h => .inl h
          | some ci =>
            obtain ⟨v, v1, k, v2⟩ := good.group ci hc
            obtain ⟨tyc, v3, rfl⟩ := look_iff.1 v1
            rw [copyBase, hc] at h2
            simp only [v3] at h2
            split at h2
            · cases h2
            · rename_i st3 h3
              cases h2
              obtain ⟨x1, x2, -, -, x5⟩ := addType_ok h3
              intro j t hj
              by_cases he : j = copy
              · subst he
                rw [x2] at hj
                cases hj
                exact .inr ⟨hcopy, keep_groups v2⟩
              · rw [x5 j he] at hj
                exact .inl hj
        cases content with
        | none => cases h1; exact ho
        | some t =>
          refine applyTop_only h1 ho ?_ (fun i hi => List.mem_cons_of_mem _ hi)
          intro j hj
          cases hc : c.content with
          | none =>
            rw [copyBase, hc] at h2
            cases h2
            cases hj
          | some ci =>
            obtain ⟨_, -, -, rfl, -⟩ := copyBase_some h2 hc
            cases hj
            exact hcopy
  · cases h

theorem type_new {groups : Ident → GKind × List Part} {T₀ : Types} {defs : List Def} (hn : (defs.map Def.ident).Nodup)
    {d : Def} (hd : d ∈ defs) (ho : d.Ok groups T₀ defs) {T : Types} (hT : AllGood defs T) {st' : St} {ty : MetaType}
    (h : d.type_ ⟨T, []⟩ = .ok (st', ty)) :
    NewGroups T st'.types d.groupTypes ∧ ∀ decl, d.complexAttrs = some decl →
      ∃ c, ty = .new (.complex c) ∧ Good defs st'.types d.ident decl c := by
  cases d with
  | element i t => cases h; exact ⟨NewGroups.refl _ _, by intro _ h; cases h⟩
  | complex i as content =>
    refine ⟨complexOf_new h, ?_⟩
    rintro decl ⟨⟩
    exact complexOf_good hn hd ho.2 h
  | extension i base copy as content =>
    obtain ⟨-, r, hr, hp⟩ := ho
    obtain ⟨h1, h2⟩ := derivedOf_good hn hd hr hp hT h
    refine ⟨⟨h1, ?_⟩, ?_⟩
    · have := derivedOf_only (extensible_complex hr) hT h
      cases content <;> exact this
    · rintro decl ⟨⟩
      exact h2
  | restriction i base copy as content =>
    obtain ⟨-, t, t₀, rfl, hown, hnar⟩ := ho
    obtain ⟨h1, h2⟩ := restrictionOf_good hn hd hown hnar hT h
    refine ⟨⟨h1, derivedOf_only (ownContent_complex hown) hT h⟩, ?_⟩
    rintro decl ⟨⟩
    exact h2
  | simple i as base => cases h; exact ⟨NewGroups.refl _ _, by intro _ h; cases h⟩

/-- The final table has a type for the component, made from a table that it extends. -/
def Made (d : Def) (T' : Types) : Prop :=
  ∃ T st ty, d.type_ ⟨T, []⟩ = .ok (st, ty) ∧ Extends st.types T' ∧ Assoc.get T' d.ident = some ty

theorem Made.extends {d : Def} {T T' : Types} (h : Made d T) (he : Extends T T') : Made d T' := by
  obtain ⟨T0, st, ty, h1, h2, h3⟩ := h
  exact ⟨T0, st, ty, h1, h2.trans he, he _ _ h3⟩

/-- What one component adds. -/
theorem createType_new {groups : Ident → GKind × List Part} {T₀ : Types} {defs : List Def}
    (hn : (defs.map Def.ident).Nodup) (hgr : ∀ d ∈ defs, ∀ d' ∈ defs, d.ident ∉ d'.groupTypes) {d : Def} (hd : d ∈ defs)
    (ho : d.Ok groups T₀ defs) {T T' : Types} (hT : AllGood defs T) (hf : ¬ Defined T d.ident)
    (h : createType d T = .ok T') : Extends T T' ∧ AllGood defs T' ∧ Made d T' ∧ ∀ i ty, Assoc.get T' i = some ty →
      Assoc.get T i = some ty ∨ i = d.ident ∨ (i ∈ d.groupTypes ∧ ∃ g, groupParts ty.variant = some g) := by
  rw [createType] at h
  split at h
  · rename_i hs; exact absurd ⟨_, hs⟩ hf
  · split at h
    · cases h
    · rename_i st ty h1
      obtain ⟨⟨e1, e2⟩, e3⟩ := type_new hn hd ho hT h1
      split at h
      · cases h
      · rename_i st2 h2
        cases h
        obtain ⟨x1, x2, -, -, x5⟩ := addType_ok h2
        have honly : ∀ i ty, Assoc.get st2.types i = some ty →
            Assoc.get T i = some ty ∨ i = d.ident ∨ (i ∈ d.groupTypes ∧ ∃ g, groupParts ty.variant = some g) := by
          intro i tyi hi
          by_cases he : i = d.ident
          · exact .inr (.inl he)
          · rw [x5 i he] at hi
            exact (e2 i tyi hi).imp id .inr
        refine ⟨e1.trans x1, ?_, ⟨T, st, ty, h1, x1, x2⟩, honly⟩
        intro d' hd' decl hdecl ty' hty'
        rcases honly _ _ hty' with h3 | h3 | ⟨h3, -⟩
        · obtain ⟨c, c1, c2⟩ := hT d' hd' decl hdecl ty' h3
          exact ⟨c, c1, c2.extends (e1.trans x1)⟩
        · cases same_ident hn hd hd' h3.symm
          rw [x2] at hty'
          cases hty'
          obtain ⟨c, c1, c2⟩ := e3 decl hdecl
          exact ⟨c, c1, c2.extends x1⟩
        · exact absurd h3 (hgr d' hd' d hd)

/-- What all components add. -/
theorem interpret_new {groups : Ident → GKind × List Part} {T₀ : Types} {defs : List Def}
    (hn : (defs.map Def.ident).Nodup) (hgr : ∀ d ∈ defs, ∀ d' ∈ defs, d.ident ∉ d'.groupTypes)
    (ho : ∀ d ∈ defs, d.Ok groups T₀ defs) : ∀ {ds : List Def} {T T' : Types}, (∀ d ∈ ds, d ∈ defs) →
    (ds.map Def.ident).Nodup → interpret ds T = .ok T' → AllGood defs T → (∀ d ∈ ds, ¬ Defined T d.ident) →
    Extends T T' ∧ AllGood defs T' ∧ (∀ d ∈ ds, Made d T') ∧ ∀ i ty, Assoc.get T' i = some ty →
      Assoc.get T i = some ty ∨ (∃ d ∈ ds, i = d.ident) ∨ ∃ g, groupParts ty.variant = some g := by
  intro ds
  induction ds with
  | nil =>
    intro T T' _ _ h hT _
    cases h
    exact ⟨Extends.refl _, hT, by simp, fun _ _ h => .inl h⟩
  | cons d ds ih =>
    intro T T' hsub hnd h hT hf
    rw [interpret] at h
    split at h
    · cases h
    · rename_i T1 h1
      rw [List.map_cons, List.nodup_cons] at hnd
      have hd := hsub d (List.mem_cons_self ..)
      obtain ⟨c1, c3, c4, c2⟩ := createType_new hn hgr hd (ho d hd) hT (hf d (List.mem_cons_self ..)) h1
      obtain ⟨i1, i4, i2, i3⟩ := ih (fun d' h => hsub d' (List.mem_cons_of_mem _ h)) hnd.2 h c3 (fun d' hd' hdef => by
        obtain ⟨ty, hty⟩ := hdef
        rcases c2 _ _ hty with h2 | h2 | ⟨h2, -⟩
        · exact hf d' (List.mem_cons_of_mem _ hd') ⟨_, h2⟩
        · exact hnd.1 (h2 ▸ List.mem_map_of_mem hd')
        · exact hgr d' (hsub d' (List.mem_cons_of_mem _ hd')) d hd h2)
      refine ⟨c1.trans i1, i4, ?_, ?_⟩
      · intro d' hd'
        rcases List.mem_cons.1 hd' with rfl | hd'
        · exact c4.extends i1
        · exact i2 d' hd'
      · intro i ty hi
        rcases i3 i ty hi with h2 | ⟨d', hd', h2⟩ | h2
        · rcases c2 i ty h2 with h3 | h3 | ⟨-, h3⟩
          · exact .inl h3
          · exact .inr (.inl ⟨d, List.mem_cons_self .., h3⟩)
          · exact .inr (.inr h3)
        · exact .inr (.inl ⟨d', List.mem_cons_of_mem _ hd', h2⟩)
        · exact .inr (.inr h2)

/-! ## Simple types keep their meaning -/

theorem Step.look_mono {P : Lex} {l l' : Ident → Option Variant} {R : Judge → Prop} {j : Judge} (h : Step P l R j)
    (hl : ∀ i v, l i = some v → l' i = some v) : Step P l' R j := by
  cases h with
  | refText h1 h2 h3 h4 => exact .refText (hl _ _ h1) h2 h3 h4
  | listText h1 h2 h3 h4 => exact .listText (hl _ _ h1) h2 h3 h4
  | unionText h1 h2 h3 h4 => exact .unionText (hl _ _ h1) h2 h3 h4
  | builtInText h1 h2 => exact .builtInText (hl _ _ h1) h2
  | customText h1 h2 => exact .customText (hl _ _ h1) h2
  | literalText h1 h2 h3 h4 => exact .literalText (hl _ _ h1) h2 h3 h4
  | variantText h1 h2 h3 h4 => exact .variantText (hl _ _ h1) h2 h3 h4
  | simpleText h1 h2 h3 h4 => exact .simpleText (hl _ _ h1) h2 h3 h4
  | simpleListText h1 h2 h3 h4 => exact .simpleListText (hl _ _ h1) h2 h3 h4
  | refValue h1 h2 h3 h4 => exact .refValue (hl _ _ h1) h2 h3 h4
  | textValue h1 => exact .textValue h1
  | customValue h1 h2 => exact .customValue (hl _ _ h1) h2
  | dynamicValue h1 h2 h3 h4 => exact .dynamicValue (hl _ _ h1) h2 h3 h4
  | emptyValue h1 h2 h3 h4 => exact .emptyValue (hl _ _ h1) h2 h3 h4
  | simpleValue h1 h2 h3 h4 h5 => exact .simpleValue (hl _ _ h1) h2 h3 h4 h5
  | complexValue h1 h2 h3 h4 h5 h6 => exact .complexValue (hl _ _ h1) h2 h3 h4 h5 h6
  | refGroup h1 h2 h3 h4 => exact .refGroup (hl _ _ h1) h2 h3 h4
  | sequence h1 h2 => exact .sequence (hl _ _ h1) h2
  | choice h1 h2 h3 h4 => exact .choice (hl _ _ h1) h2 h3 h4
  | all h1 h2 h3 => exact .all (hl _ _ h1) h2 h3
  | substitution h1 h2 h3 => exact .substitution (hl _ _ h1) h2 h3
  | complexGroup h1 h2 h3 h4 => exact .complexGroup (hl _ _ h1) h2 h3 h4
  | noTimes  => exact .noTimes
  | oneMore h1 h2 => exact .oneMore h1 h2
  | element h1 h2 => exact .element h1 h2
  | nested h1 h2 => exact .nested h1 h2
  | wildcard h1 h2 => exact .wildcard h1 h2
  | textNode h1 => exact .textNode h1
  | zero  => exact .zero
  | succ h1 h2 => exact .succ h1 h2
  | nil  => exact .nil
  | cons h1 h2 h3 => exact .cons h1 h2 h3

/-- What is valid remains valid when types are added. -/
theorem Valid.extends {P : Lex} {T T' : Types} (h : Extends T T') {j : Judge} (hv : Valid P T j) : Valid P T' j :=
  hv.least fun _ hs => (Step.look_mono hs fun i v hi => by
    obtain ⟨ty, h1, h2⟩ := look_iff.1 hi
    exact look_of (h _ _ h1) h2).valid

/-- The judgements about simple types of `T₀` hold in `T₀`. -/
def Back (P : Lex) (T₀ : Types) : Judge → Prop
  | .text i s => Defined T₀ i → Valid P T₀ (.text i s)
  | .value i x as kids => Defined T₀ i → Valid P T₀ (.value i x as kids)
  | .group i _ => ¬ Defined T₀ i
  | _ => True

theorem look_back {T₀ T' : Types} (hs : SimpleTable T₀) (he : Extends T₀ T') {i : Ident} {v : Variant}
    (hd : Defined T₀ i) (hl : look T' i = some v) :
    look T₀ i = some v ∧ ∃ us, simpleUses v = some us ∧ ∀ k ∈ us, Defined T₀ k := by
  obtain ⟨ty, hty⟩ := hd
  have h1 := look_of hty rfl
  have h2 := look_of (he _ _ hty) rfl
  rw [hl] at h2
  cases h2
  exact ⟨h1, hs _ _ h1⟩

theorem valid_back {P : Lex} {T₀ T' : Types} (hs : SimpleTable T₀) (he : Extends T₀ T') {j : Judge}
    (h : Valid P T' j) : Back P T₀ j := by
  refine h.least fun j hj => ?_
  cases hj with
  | refText h1 h2 h3 h4 =>
    intro hd
    obtain ⟨hl, us, hu, hk⟩ := look_back hs he hd h1
    cases hu
    exact (Step.refText hl h2 h3 (h4 (hk _ (by simp)))).valid
  | listText h1 h2 h3 h4 =>
    intro hd
    obtain ⟨hl, us, hu, hk⟩ := look_back hs he hd h1
    cases hu
    exact (Step.listText hl h2 h3 fun w hw => h4 w hw (hk _ (by simp))).valid
  | unionText h1 h2 h3 h4 =>
    intro hd
    obtain ⟨hl, us, hu, hk⟩ := look_back hs he hd h1
    cases hu
    exact (Step.unionText hl h2 h3 (h4 (hk _ (List.mem_map_of_mem h2)))).valid
  | builtInText h1 h2 =>
    intro hd
    exact (Step.builtInText (look_back hs he hd h1).1 h2).valid
  | customText h1 h2 =>
    intro hd
    exact (Step.customText (look_back hs he hd h1).1 h2).valid
  | literalText h1 h2 h3 h4 =>
    intro hd
    exact (Step.literalText (look_back hs he hd h1).1 h2 h3 h4).valid
  | variantText h1 h2 h3 h4 =>
    intro hd
    obtain ⟨hl, us, hu, hk⟩ := look_back hs he hd h1
    cases hu
    exact (Step.variantText hl h2 h3 (h4 (hk _ (List.mem_filterMap.2 ⟨_, h2, h3⟩)))).valid
  | simpleText h1 h2 h3 h4 =>
    intro hd
    obtain ⟨hl, us, hu, hk⟩ := look_back hs he hd h1
    cases hu
    exact (Step.simpleText hl h2 h3 (h4 (hk _ (by simp)))).valid
  | simpleListText h1 h2 h3 h4 =>
    intro hd
    obtain ⟨hl, us, hu, hk⟩ := look_back hs he hd h1
    cases hu
    exact (Step.simpleListText hl h2 h3 fun w hw => h4 w hw (hk _ (by simp))).valid
  | refValue h1 h2 h3 h4 =>
    intro hd
    obtain ⟨hl, us, hu, hk⟩ := look_back hs he hd h1
    cases hu
    exact (Step.refValue hl h2 h3 (h4 (hk _ (by simp)))).valid
  | textValue h1 => exact fun hd => .textValue (h1 hd)
  | customValue h1 h2 =>
    intro hd
    exact (Step.customValue (look_back hs he hd h1).1 h2).valid
  | dynamicValue h1 | emptyValue h1 | simpleValue h1 | complexValue h1 =>
    intro hd
    obtain ⟨_, us, hu, _⟩ := look_back hs he hd h1
    cases hu
  | refGroup h1 h2 h3 h4 =>
    intro hd
    obtain ⟨hl, us, hu, hk⟩ := look_back hs he hd h1
    cases hu
    exact h4 (hk _ (by simp))
  | sequence h1 | choice h1 | all h1 | substitution h1 | complexGroup h1 =>
    intro hd
    obtain ⟨_, us, hu, _⟩ := look_back hs he hd h1
    cases hu
  | element | nested | wildcard | textNode | zero | succ | nil | cons | noTimes | oneMore => trivial

/-- A simple type is not a group. -/
theorem groupTimes_back {P : Lex} {T₀ T' : Types} (hs : SimpleTable T₀) (he : Extends T₀ T') {i : Ident} {k : Nat}
    {ns : List Node} (h : Valid P T' (.groupTimes i k ns)) (hd : Defined T₀ i) : k = 0 := by
  have hx := h.step
  generalize hj : Judge.groupTimes i k ns = j at hx
  cases hx <;> cases hj
  · rfl
  · rename_i h1 _
    exact absurd hd (valid_back hs he h1)

/-! ## The language of a content model depends on the elements of the document only -/

/-- Under `V'`, the elements of the document are at least as valid as under `V`. -/
def Better (V V' : Meaning) (ns : List Node) : Prop :=
  ∀ nm x as kids, Node.elem nm x as kids ∈ ns → ∀ i, V i x as kids → V' i x as kids

theorem Better.sub {V V' : Meaning} {ns ms : List Node} (h : Better V V' ns) (hs : ∀ n ∈ ms, n ∈ ns) : Better V V' ms :=
  fun nm x as kids hm => h nm x as kids (hs _ hm)

theorem repeat_better {V V' : Meaning} {min : Nat} {max : MaxOccurs} {L L' : Lang} {ns : List Node}
    (hb : Better V V' ns) (hL : ∀ ms, Better V V' ms → L ms → L' ms) (h : Repeat min max L ns) :
    Repeat min max L' ns := by
  obtain ⟨is, h1, rfl, h3⟩ := h
  exact ⟨is, h1, rfl, fun i hi => hL i (hb.sub fun n hn => List.mem_flatten.2 ⟨i, hi, hn⟩) (h3 i hi)⟩

theorem concat_better {α : Type} {V V' : Meaning} {f f' : α → Lang} : ∀ (ps : List α) {ns : List Node},
    Better V V' ns → (∀ p ∈ ps, ∀ ms, Better V V' ms → f p ms → f' p ms) → Concat (ps.map f) ns → Concat (ps.map f') ns
  | [], _, _, _, h => h
  | p :: ps, ns, hb, hf, h => by
    obtain ⟨a, b, rfl, h1, h2⟩ := h
    exact ⟨a, b, rfl, hf p (List.mem_cons_self ..) a (hb.sub fun n hn => List.mem_append_left _ hn) h1,
      concat_better ps (hb.sub fun n hn => List.mem_append_right _ hn)
        (fun q hq => hf q (List.mem_cons_of_mem _ hq)) h2⟩

theorem combine_better {α : Type} {V V' : Meaning} {f f' : α → Lang} (k : GKind) (ps : List α) {ns : List Node}
    (hb : Better V V' ns) (hf : ∀ p ∈ ps, ∀ ms, Better V V' ms → f p ms → f' p ms) (h : k.combine (ps.map f) ns) :
    k.combine (ps.map f') ns := by
  cases k with
  | all =>
    obtain ⟨Ls, h1, h2⟩ := h
    obtain ⟨qs, hq, rfl⟩ := perm_of_map h1
    exact ⟨qs.map f', hq.map _, concat_better qs hb (fun p hp => hf p (hq.mem_iff.1 hp)) h2⟩
  | choice =>
    obtain ⟨L, hL, h1⟩ := h
    obtain ⟨p, hp, rfl⟩ := List.mem_map.1 hL
    exact ⟨f' p, List.mem_map_of_mem hp, hf p hp ns hb h1⟩
  | sequence => exact concat_better ps hb hf h

theorem langs_map (V : Meaning) (w : AnyMeta → Node → Prop) (ps : List Part) :
    langs V w ps = ps.map (Part.lang V w) := by
  induction ps with
  | nil => rfl
  | cons p ps ih => rw [langs, ih]; rfl

mutual
theorem lang_better {V V' : Meaning} {w : AnyMeta → Node → Prop} : ∀ (p : Part) (ns : List Node), Better V V' ns →
    p.lang V w ns → p.lang V' w ns
  | .elem d, ns, hb, h => by
    rw [Part.lang] at h ⊢
    refine repeat_better hb (fun ms hm hl => ?_) h
    obtain ⟨x, as, kids, rfl, hv⟩ := hl
    exact ⟨x, as, kids, rfl, hm _ _ _ _ (List.mem_cons_self ..) _ hv⟩
  | .any i m min max, ns, hb, h => by
    rw [Part.lang] at h ⊢
    exact h
  | .group kind _ _ _ min max parts, ns, hb, h => by
    rw [Part.lang, langs_map] at h ⊢
    exact repeat_better hb (fun ms hm hl => combine_better kind parts hm (langs_better parts) hl) h
theorem langs_better {V V' : Meaning} {w : AnyMeta → Node → Prop} : ∀ (ps : List Part), ∀ p ∈ ps,
    ∀ ns, Better V V' ns → p.lang V w ns → p.lang V' w ns
  | [], _, h, _, _, _ => by cases h
  | q :: ps, p, hp, ns, hb, h => by
    rcases List.mem_cons.1 hp with he | hp
    · rw [he] at h ⊢
      exact lang_better q ns hb h
    · exact langs_better ps p hp ns hb h
end

theorem top_better {V V' : Meaning} {w : AnyMeta → Node → Prop} {t : Top} {ns : List Node} (hb : Better V V' ns)
    (h : t.lang V w ns) : t.lang V' w ns := by
  rw [Top.lang, langs_map] at h ⊢
  exact repeat_better hb (fun ms hm hl => combine_better t.kind t.parts hm (langs_better t.parts) hl) h

theorem children_better {P : Lex} {V V' : Meaning} {content : Option Top} {ns : List Node} (hb : Better V V' ns)
    (h : Children P V content ns) : Children P V' content ns := by
  cases content with
  | none => exact h
  | some t => exact top_better hb h

theorem contentOf_better {P : Lex} {V V' : Meaning} {defs : List Def} {i : Ident} {ns : List Node}
    (hb : Better V V' ns) (h : ContentOf P V defs i ns) : ContentOf P V' defs i ns := by
  induction h with
  | own h1 h2 => exact .own h1 (children_better hb h2)
  | extended h1 _ h3 ih =>
    exact .extended h1 (ih (hb.sub fun n hn => List.mem_append_left _ hn))
      (children_better (hb.sub fun n hn => List.mem_append_right _ hn) h3)
  | restricted h1 h2 => exact .restricted h1 (children_better hb h2)

theorem rule_better {P : Lex} {T₀ : Types} {defs : List Def} {V V' : Meaning}
    (hV : ∀ i x as kids, V i x as kids → V' i x as kids) {i : Ident} {x : Option PropIdent}
    {as : List (PropIdent × Txt)} {kids : List Node} (h : Rule P T₀ defs V i x as kids) :
    Rule P T₀ defs V' i x as kids := by
  cases h with
  | element h1 h2 => exact .element h1 (hV _ _ _ _ h2)
  | complex h1 h2 h3 => exact .complex h1 h2 (children_better (fun _ _ _ _ _ i h => hV i _ _ _ h) h3)
  | extension h1 h2 h3 => exact .extension h1 h2 (contentOf_better (fun _ _ _ _ _ i h => hV i _ _ _ h) h3)
  | restriction h1 h2 h3 => exact .restriction h1 h2 (children_better (fun _ _ _ _ _ i h => hV i _ _ _ h) h3)
  | simple h1 h2 h3 => exact .simple h1 h2 h3
  | known h1 => exact .known h1

theorem validWithin_succ {P : Lex} {T₀ : Types} {defs : List Def} : ∀ (n : Nat) (i : Ident) (x : Option PropIdent)
    (as : List (PropIdent × Txt)) (kids : List Node), ValidWithin P T₀ defs n i x as kids →
    ValidWithin P T₀ defs (n + 1) i x as kids
  | 0, _, _, _, _, h => h.elim
  | n + 1, _, _, _, _, h => rule_better (validWithin_succ n) h

/-! ## The components -/

theorem attrs_iff {P : Lex} {T₀ T' : Types} (hs : SimpleTable T₀) (he : Extends T₀ T') {decl : List Attribute}
    (ha : AttrTypes T₀ decl) {c : Complex} (hc : c.attributes = decl) (as : List (PropIdent × Txt)) :
    AttrsOk P T' c as ↔ DeclaredAttrs P T₀ decl as := by
  rw [AttrsOk, DeclaredAttrs, hc]
  constructor
  · rintro ⟨h1, h2⟩
    exact ⟨h1, fun a h t ht v hv => valid_back hs he (h2 a h t ht v hv) (ha a h t ht)⟩
  · rintro ⟨h1, h2⟩
    exact ⟨h1, fun a h t ht v hv => Valid.extends he (h2 a h t ht v hv)⟩

/-- What is valid for a complex type of the table. -/
theorem Good.valid {defs : List Def} {i : Ident} {decl : List Attribute} {T' : Types}
    {ty : MetaType} {c : Complex} (hg : Good defs T' i decl c) (hi : Assoc.get T' i = some ty)
    (hv : ty.variant = .complex c) (P : Lex) (x : Option PropIdent) (as : List (PropIdent × Txt)) (kids : List Node) :
    Valid P T' (.value i x as kids) ↔ AttrsOk P T' (Complex.fresh decl) as ∧ ContentOf P (Val P T') defs i kids := by
  rw [value_eq hi hv hg.mixed hg.group x as kids, hg.lang P T' (Extends.refl _) kids, AttrsOk, AttrsOk, hg.attrs]
  rfl

theorem made_element {P : Lex} {T' : Types} {i target : Ident} (hm : Made (.element i target) T')
    (x : Option PropIdent) (as : List (PropIdent × Txt)) (kids : List Node) :
    Valid P T' (.value i x as kids) ↔ Valid P T' (.value target x as kids) := by
  obtain ⟨T, st, ty, h1, -, h3⟩ := hm
  cases h1
  have hl : look T' i = some (.reference (.new target)) := look_of h3 rfl
  constructor
  · intro h
    have hx := h.step
    generalize hj : Judge.value i x as kids = j at hx
    cases hx <;> cases hj
    case refValue.refl h5 h6 h7 h8 =>
      rw [hl] at h7
      cases h7
      exact h8
    case textValue.refl s h5 =>
      have hy := h5.step
      generalize hj : Judge.text i s = j at hy
      cases hy <;> cases hj
      case refText.refl h6 h7 h8 h9 =>
        rw [hl] at h8
        cases h8
        exact .textValue h9
      case listText.refl h6 h7 h8 h9 =>
        rw [hl] at h7
        cases h7
        exact absurd ⟨rfl, rfl⟩ h6
      all_goals (exfalso; simp_all [MetaType.new])
    all_goals (exfalso; simp_all [MetaType.new])
  · exact fun h => .refValue h3 rfl rfl rfl h

theorem made_simple {P : Lex} {T₀ T' : Types} (hs : SimpleTable T₀) (he : Extends T₀ T') {i base : Ident}
    {decl : List Attribute} (hm : Made (.simple i decl base) T') (hb : Defined T₀ base)
    (x : Option PropIdent) (as : List (PropIdent × Txt)) (kids : List Node) :
    Valid P T' (.value i x as kids) ↔
      ∃ s, kids = [.text s] ∧ AttrsOk P T' (Complex.fresh decl) as ∧ Valid P T' (.text base s) := by
  obtain ⟨T, st, ty, h1, -, h3⟩ := hm
  cases h1
  have hl : look T' i = some (.complex { Complex.fresh decl with base := .ext base, content := some base }) :=
    look_of h3 rfl
  constructor
  · intro h
    have hx := h.step
    generalize hj : Judge.value i x as kids = j at hx
    cases hx <;> cases hj
    case textValue.refl s h5 => exact absurd h5 (no_text hl (.inl ⟨_, rfl⟩) _)
    case simpleValue.refl c g s h5 h6 h7 h8 h9 =>
      rw [hl] at h7
      cases h7
      cases h5
      exact ⟨s, rfl, ⟨h8, h9⟩, h6⟩
    case complexValue.refl c g k h5 h6 h7 h8 h9 h10 =>
      rw [hl] at h7
      cases h7
      cases h5
      have := groupTimes_back hs he h10 hb
      subst this
      exact absurd h6.1 (by simp [MetaType.new, Complex.fresh])
    all_goals (exfalso; simp_all [MetaType.new, Complex.fresh])
  · rintro ⟨s, rfl, ⟨h5, h6⟩, h7⟩
    exact .simpleValue h3 rfl rfl h5 h6 h7

/-! ## The theorem -/

/-- What follows from the conditions. -/
structure Interpreted (groups : Ident → GKind × List Part) (T₀ : Types) (defs : List Def) (T' : Types) : Prop where
  simple : SimpleTable T₀
  ext : Extends T₀ T'
  made : ∀ d ∈ defs, Made d T'
  good : AllGood defs T'
  nodup : (defs.map Def.ident).Nodup
  ok : ∀ d ∈ defs, d.Ok groups T₀ defs
  only : ∀ i ty, Assoc.get T' i = some ty →
    Assoc.get T₀ i = some ty ∨ (∃ d ∈ defs, i = d.ident) ∨ ∃ g, groupParts ty.variant = some g

theorem Interpreted.complex {groups : Ident → GKind × List Part} {T₀ T' : Types} {defs : List Def}
    (H : Interpreted groups T₀ defs T') {d : Def} (hd : d ∈ defs) {decl : List Attribute} (hc : d.complexAttrs = some decl)
    (ha : AttrTypes T₀ decl) (P : Lex) (x : Option PropIdent) (as : List (PropIdent × Txt)) (kids : List Node) :
    Valid P T' (.value d.ident x as kids) ↔
      DeclaredAttrs P T₀ decl as ∧ ContentOf P (Val P T') defs d.ident kids := by
  obtain ⟨-, -, ty, -, -, h3⟩ := H.made d hd
  obtain ⟨c, rfl, hg⟩ := H.good d hd decl hc ty h3
  rw [hg.valid h3 rfl, attrs_iff H.simple H.ext ha rfl]

theorem within_valid {P : Lex} {groups : Ident → GKind × List Part} {T₀ T' : Types} {defs : List Def}
    (H : Interpreted groups T₀ defs T') : ∀ (n : Nat) (i : Ident) (x : Option PropIdent) (as : List (PropIdent × Txt))
    (kids : List Node), ValidWithin P T₀ defs n i x as kids → Valid P T' (.value i x as kids)
  | 0, _, _, _, _, h => h.elim
  | n + 1, i, x, as, kids, h => by
    have ih := within_valid (P := P) H n
    rw [ValidWithin] at h
    cases h with
    | element h1 h2 => exact (made_element (H.made _ h1) x as kids).2 (ih _ _ _ _ h2)
    | complex h1 h2 h3 =>
      obtain ⟨o1, o2⟩ := H.ok _ h1
      exact (H.complex h1 rfl o1 P x as kids).2 ⟨h2, (contentOf_complex H.nodup h1 kids).2
        (children_better (fun _ _ _ _ _ i h => ih i _ _ _ h) h3)⟩
    | extension h1 h2 h3 =>
      exact (H.complex h1 rfl (H.ok _ h1).1 P x as kids).2
        ⟨h2, contentOf_better (fun _ _ _ _ _ i h => ih i _ _ _ h) h3⟩
    | restriction h1 h2 h3 =>
      exact (H.complex h1 rfl (H.ok _ h1).1 P x as kids).2 ⟨h2, (contentOf_restriction H.nodup h1 kids).2
        (children_better (fun _ _ _ _ _ i h => ih i _ _ _ h) h3)⟩
    | simple h1 h2 h3 =>
      obtain ⟨o1, o2⟩ := H.ok _ h1
      exact (made_simple H.simple H.ext (H.made _ h1) o2 x as _).2
        ⟨_, rfl, (attrs_iff H.simple H.ext o1 rfl as).2 h2, Valid.extends H.ext h3⟩
    | known h1 => exact Valid.extends H.ext h1

/-- A group has no values. -/
theorem no_value {P : Lex} {T : Types} {i : Ident} {v : Variant} {g : GKind × Group} (hl : look T i = some v)
    (hg : groupParts v = some g) (x : Option PropIdent) (as : List (PropIdent × Txt)) (kids : List Node) :
    ¬ Valid P T (.value i x as kids) := by
  intro h
  have hx := h.step
  generalize hj : Judge.value i x as kids = j at hx
  have key : ∀ w, look T i = some w → w = v := fun w hw => by rw [hl] at hw; cases hw; rfl
  cases hx <;> cases hj
  case textValue.refl s h5 => exact absurd h5 (no_text hl (.inr ⟨_, hg⟩) _)
  all_goals
    rename_i hi
    have hi := key _ (by assumption)
    subst hi
    simp [groupParts] at hg

/-- Nothing is valid for a type that is not in the table. -/
theorem undefined_value {P : Lex} {T : Types} {i : Ident} (hl : look T i = none) (x : Option PropIdent)
    (as : List (PropIdent × Txt)) (kids : List Node) : ¬ Valid P T (.value i x as kids) := by
  intro h
  have hx := h.step
  generalize hj : Judge.value i x as kids = j at hx
  cases hx <;> cases hj
  case textValue.refl s h5 =>
    have hy := h5.step
    generalize hj : Judge.text i s = j at hy
    cases hy <;> cases hj
    all_goals simp_all
  all_goals simp_all

/-- The number of rules that a document needs. -/
theorem valid_within {P : Lex} {groups : Ident → GKind × List Part} {T₀ T' : Types} {defs : List Def}
    (H : Interpreted groups T₀ defs T') : ∀ (size : Nat) (kids : List Node), sizeOf kids ≤ size →
    ∀ (i : Ident) (x : Option PropIdent) (as : List (PropIdent × Txt)), Valid P T' (.value i x as kids) →
      ValidWithin P T₀ defs (2 * size + 2) i x as kids := by
  intro size
  induction size with
  | zero =>
    intro kids hk
    cases kids <;> simp at hk
  | succ size ih =>
    intro kids hk
    have hbetter : Better (Val P T') (ValidWithin P T₀ defs (2 * size + 2)) kids := by
      intro nm x as ks hm i hv
      refine ih ks ?_ i x as hv
      have := List.sizeOf_lt_of_mem hm
      simp at this
      omega
    -- for everything but elements, one rule less
    have direct : ∀ i x as, (∀ t, .element i t ∉ defs) → Valid P T' (.value i x as kids) →
        ValidWithin P T₀ defs (2 * size + 3) i x as kids := by
      intro i x as hne hv
      cases hi : Assoc.get T' i with
      | none => exact absurd hv (undefined_value (by simp [look, hi]) _ _ _)
      | some ty =>
        rcases H.only i ty hi with h1 | ⟨d, hd, rfl⟩ | ⟨g, hg⟩
        · exact .known (valid_back H.simple H.ext hv ⟨_, h1⟩)
        · cases d with
          | element i t => exact absurd hd (hne t)
          | complex i decl content =>
            obtain ⟨o1, o2⟩ := H.ok _ hd
            obtain ⟨h1, h2⟩ := (H.complex hd rfl o1 P x as kids).1 hv
            exact .complex hd h1 (children_better hbetter ((contentOf_complex H.nodup hd kids).1 h2))
          | extension i base copy decl content =>
            obtain ⟨h1, h2⟩ := (H.complex hd rfl (H.ok _ hd).1 P x as kids).1 hv
            exact .extension hd h1 (contentOf_better hbetter h2)
          | restriction i base copy decl content =>
            obtain ⟨h1, h2⟩ := (H.complex hd rfl (H.ok _ hd).1 P x as kids).1 hv
            exact .restriction hd h1 (children_better hbetter ((contentOf_restriction H.nodup hd kids).1 h2))
          | simple i decl base =>
            obtain ⟨o1, o2⟩ := H.ok _ hd
            obtain ⟨s, rfl, h1, h2⟩ := (made_simple H.simple H.ext (H.made _ hd) o2 x as kids).1 hv
            exact .simple hd ((attrs_iff H.simple H.ext o1 rfl as).1 h1) (valid_back H.simple H.ext h2 o2)
        · exact absurd hv (no_value (look_of hi rfl) hg _ _ _)
    intro i x as hv
    by_cases he : ∃ t, .element i t ∈ defs
    · obtain ⟨t, ht⟩ := he
      exact .element ht (direct t x as (H.ok _ ht) ((made_element (H.made _ ht) x as kids).1 hv))
    · exact validWithin_succ _ _ _ _ _ (direct i x as (fun t ht => he ⟨t, ht⟩) hv)

/-- **C72.** If the components of a schema are interpreted without an error, the resulting table accepts exactly the
documents that the schema describes; the content of a type that extends another one is the content of that one followed by
its own, and that of a type that restricts another one is its own. Missing: mixed content, extensions of other content than
`Extensible` (C51 shows why), other restrictions than `Narrowed` (C60 shows why), nillable, abstract and substitutable elements; the simple types are taken from the table `T₀`, and
references and attributes are taken as resolved (see C61, C63). -/
theorem C72_table_exact_partial {P : Lex} {groups : Ident → GKind × List Part} {T₀ T' : Types} {defs : List Def}
    (h : interpret defs T₀ = .ok T') (hs : SimpleTable T₀) (ha : NamesApart T₀ defs)
    (ho : ∀ d ∈ defs, d.Ok groups T₀ defs) (i : Ident) (x : Option PropIdent) (as : List (PropIdent × Txt))
    (kids : List Node) : Valid P T' (.value i x as kids) ↔ SchemaValid P T₀ defs i x as kids := by
  obtain ⟨h1, h4, h2, h3⟩ := interpret_new ha.nodup ha.groups ho (fun _ h => h) ha.nodup h
    (fun d hd _ _ ty hty => absurd ⟨ty, hty⟩ (ha.fresh d hd)) ha.fresh
  have H : Interpreted groups T₀ defs T' := ⟨hs, h1, h2, h4, ha.nodup, ho, h3⟩
  constructor
  · exact fun hv => ⟨_, valid_within H (sizeOf kids) kids (Nat.le_refl _) i x as hv⟩
  · rintro ⟨n, hn⟩
    exact within_valid H n i x as kids hn

theorem interpret_append : ∀ (a b : List Def) (T : Types),
    interpret (a ++ b) T = match interpret a T with
      | .error e => .error e
      | .ok T => interpret b T
  | [], b, T => rfl
  | d :: a, b, T => by
    rw [List.cons_append, interpret, interpret]
    cases createType d T with
    | error e => rfl
    | ok T => exact interpret_append a b T

/-- **C72.** The first component with a name counts: a later one with the same name, whatever it says, is passed over, and
the schema is interpreted as if it were not there. -/
theorem C72_second_component_ignored {groups : Ident → GKind × List Part} {T₀ T' : Types} {defs : List Def}
    (h : interpret defs T₀ = .ok T') (ha : NamesApart T₀ defs) (ho : ∀ d ∈ defs, d.Ok groups T₀ defs) {d d' : Def}
    (hd : d ∈ defs) (he : d'.ident = d.ident) (rest : List Def) :
    interpret (defs ++ d' :: rest) T₀ = interpret (defs ++ rest) T₀ := by
  obtain ⟨-, -, h2, -⟩ := interpret_new ha.nodup ha.groups ho (fun _ h => h) ha.nodup h
    (fun d hd _ _ ty hty => absurd ⟨ty, hty⟩ (ha.fresh d hd)) ha.fresh
  obtain ⟨_, _, ty, -, -, h3⟩ := h2 d hd
  have hc : createType d' T' = .ok T' := by rw [createType, he, h3]
  rw [interpret_append, interpret_append, h]
  simp only [interpret, hc]

end Verif.Interp

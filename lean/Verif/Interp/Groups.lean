import Verif.Interp.Members
import Verif.Opt.Mixed

/-!
# From content models to group types (C51, C52, C59, C60)

Models how the interpreter turns the content model of a complex type (nested `xs:sequence`, `xs:choice`, `xs:all`,
`xs:element`, `xs:any`, references to `xs:group`) into types of the table, and how the content model of a derived type is
combined with that of its base. "variant_processor.rs" is
`xsd-parser/src/pipeline/interpreter/state/generate_types/variant_processor.rs`.
-/

namespace Verif.Interp

open Verif.Meta Verif.Opt
open Verif.Occurs (MaxOccurs Allows)

/-! ## Model -/

/-- `ComplexContentType`, variant_processor.rs. -/
inductive GKind where
  | all | choice | sequence
deriving DecidableEq, Repr

/-- A particle of a content model. Names are resolved and generated before: of a group, `field` is the identifier of
the member and `type_` that of the type (`make_field_name_and_type`, variant_processor.rs 1651-1680). A reference to an
`xs:group` is replaced by the group it refers to, with the bounds of the reference (`apply_group_ref`,
variant_processor.rs 904-947); `ref` is the identifier of the `xs:group`. The types of elements, which may be interpreted
in between, are taken as given. -/
inductive Part where
  | elem (d : ElementDecl)
  | any (ident : PropIdent) (m : AnyMeta) (min : Nat) (max : MaxOccurs)
  | group (kind : GKind) (field : PropIdent) (type_ : Ident) (ref : Option Ident) (min : Nat) (max : MaxOccurs)
      (parts : List Part)

/-- The state that the functions below change: the table of types and the group cache of the complex type that is being
interpreted (`StackEntry::Type { group_cache, .. }`, generate_types/stack.rs). -/
structure St where
  types : Types
  cache : List (Ident × Ident)

/-- How interpretation can fail. -/
inductive IErr where
  | alreadyDefined (i : Ident)
  | expectedComplex (i : Ident)
  | panic
deriving DecidableEq, Repr

/-- The variant of a group type. -/
def GKind.variant (mixed : Bool) (es : List Element) : GKind → Variant
  | .all => .all ⟨mixed, es⟩
  | .choice => .choice ⟨mixed, es⟩
  | .sequence => .sequence ⟨mixed, es⟩

/-- The pattern `All(si) | Choice(si) | Sequence(si)` of a variant. -/
def groupParts : Variant → Option (GKind × Group)
  | .all g => some (.all, g)
  | .choice g => some (.choice, g)
  | .sequence g => some (.sequence, g)
  | _ => none

/-- `TypeProcessor::add_type` without `allow_overwrite`, generate_types/type_processor.rs 206-230. -/
def addType (i : Ident) (ty : MetaType) (st : St) : Except IErr St :=
  match Assoc.get st.types i with
  | some _ => .error (.alreadyDefined i)
  | none => .ok { st with types := Assoc.upsert st.types i fun _ => ty }

/-- `TypeProcessor::add_type` with `allow_overwrite`. -/
def setType (i : Ident) (ty : MetaType) (st : St) : St :=
  { st with types := Assoc.upsert st.types i fun _ => ty }

/-- The lookup in the group cache, variant_processor.rs 1461-1471. -/
def cached (ref : Option Ident) (st : St) : Option Ident :=
  match ref with
  | some k => Assoc.get st.cache k
  | none => none

/-- The insertion into the group cache, variant_processor.rs 1642-1646. -/
def remember (ref : Option Ident) (t : Ident) (st : St) : St :=
  match ref with
  | some k => { st with cache := Assoc.upsert st.cache k fun _ => t }
  | none => st

/-- A nested group becomes a member, variant_processor.rs 1607-1620. -/
def addNested (field : PropIdent) (t : Ident) (min : Nat) (max : MaxOccurs) (es : List Element) (st : St) :
    Except IErr (St × List Element) :=
  match insertChecked field (newNested t min max) es with
  | none => .error .panic
  | some es => .ok (st, es)

/-- The end of `complex_content_builder` inside a group (variant_processor.rs 1518-1523, 1594-1621, 1642-1646): `r` is
the result of interpreting the particles of the group. -/
def finishNested (mixed : Bool) (kind : GKind) (field : PropIdent) (ty : Ident) (ref : Option Ident) (min : Nat)
    (max : MaxOccurs) (es : List Element) (r : Except IErr (St × List Element)) : Except IErr (St × List Element) :=
  match r with
  | .error e => .error e
  | .ok (st, inner) =>
    if inner.isEmpty then .ok (st, es)
    else
      match addType ty (.new (kind.variant mixed inner)) st with
      | .error e => .error e
      | .ok st =>
        match addNested field ty min max es st with
        | .error e => .error e
        | .ok (st, es) => .ok (remember ref ty st, es)

mutual
/-- One particle is added to the members `es` of a group: the body of the loop of `apply_group`
(variant_processor.rs 701-723), with `apply_element_ref`, `apply_any`, and `complex_content_builder` for the case that
the variant is a group. -/
def Part.apply (mixed : Bool) : Part → St → List Element → Except IErr (St × List Element)
  | .elem d, st, es =>
    match addElement d es with
    | none => .error .panic
    | some es => .ok (st, es)
  | .any i m min max, st, es => .ok (st, pushAny { newAny i m with min := min, max := max } es)
  | .group kind field ty ref min max parts, st, es =>
    match cached ref st with
    | some t => addNested field t min max es st
    | none => finishNested mixed kind field ty ref min max es (applyParts mixed parts st [])
/-- `apply_group`, variant_processor.rs 692-728: the particles one after the other. -/
def applyParts (mixed : Bool) : List Part → St → List Element → Except IErr (St × List Element)
  | [], st, es => .ok (st, es)
  | p :: ps, st, es =>
    match Part.apply mixed p st es with
    | .error e => .error e
    | .ok (st, es) => applyParts mixed ps st es
end

/-- The top particle of a complex type. -/
structure Top where
  kind : GKind
  field : PropIdent
  type_ : Ident
  ref : Option Ident
  min : Nat
  max : MaxOccurs
  parts : List Part

/-- The type with its content set, variant_processor.rs 1529-1544. -/
def Complex.withContent (c : Complex) (t : Ident) (min : Nat) (max : MaxOccurs) : Complex :=
  { c with content := some t, min := min, max := max }

/-- `complex_content_builder` for a complex type without content (`UpdateContentMode::Unknown`),
variant_processor.rs 1529-1544. -/
def applyFirst (mixed : Bool) (t : Top) (st : St) (c : Complex) : Except IErr (St × Complex) :=
  match cached t.ref st with
  | some i => .ok (st, Complex.withContent c i t.min t.max)
  | none =>
    match applyParts mixed t.parts st [] with
    | .error e => .error e
    | .ok (st, es) =>
      if es.isEmpty then .ok (st, c)
      else
        match addType t.type_ (.new (t.kind.variant mixed es)) st with
        | .error e => .error e
        | .ok st => .ok (remember t.ref t.type_ st, Complex.withContent c t.type_ t.min t.max)

/-- The cache is extended at the end if it had no entry at the start. -/
def rememberNew (t : Top) (st st' : St) : St :=
  match cached t.ref st with
  | some _ => st'
  | none => remember t.ref t.type_ st'

/-- The smaller lower and the larger upper bound, variant_processor.rs 1554-1555. -/
def Complex.widen (c : Complex) (lo : Nat) (hi : MaxOccurs) : Complex :=
  { c with min := min c.min lo, max := c.max.max hi }

/-- `UpdateContentMode::Update`, variant_processor.rs 1485-1487, 1545-1556: the content `ci` is of the same kind and has
the members `old`. -/
def applyUpdate (mixed : Bool) (t : Top) (st : St) (c : Complex) (ci : Ident) (old : List Element) :
    Except IErr (St × Complex) :=
  match applyParts mixed t.parts st old with
  | .error e => .error e
  | .ok (st', es) =>
    if es.isEmpty then .ok (st', c)
    else .ok (rememberNew t st (setType ci (.new (t.kind.variant mixed es)) st'), Complex.widen c t.min t.max)

/-- The type that a new member of the content refers to, variant_processor.rs 1494-1523, 1558-1565; `none`: the group
has no members. -/
def memberType (mixed : Bool) (t : Top) (st : St) : Except IErr (St × Option Ident) :=
  match cached t.ref st with
  | some i => .ok (st, some i)
  | none =>
    match applyParts mixed t.parts st [] with
    | .error e => .error e
    | .ok (st, es) =>
      if es.isEmpty then .ok (st, none)
      else
        match addType t.type_ (.new (t.kind.variant mixed es)) st with
        | .error e => .error e
        | .ok st => .ok (st, some t.type_)

/-- `UpdateContentMode::Append`, variant_processor.rs 1557-1592. -/
def applyAppend (mixed : Bool) (t : Top) (st : St) (c : Complex) (ci : Ident) : Except IErr (St × Complex) :=
  match memberType mixed t st with
  | .error e => .error e
  | .ok (st', none) => .ok (st', c)
  | .ok (st', some i) =>
    match Assoc.get st'.types ci with
    | none => .error .panic
    | some ty =>
      match groupParts ty.variant with
      | none => .error .panic
      | some (k, g) =>
        match insertChecked t.field (newNested i t.min t.max) g.elements with
        | none => .error .panic
        | some es =>
          .ok (rememberNew t st (setType ci { ty with variant := k.variant g.isMixed es } st'), c)

/-- `complex_content_builder` for a complex type, variant_processor.rs 1437-1649. -/
def applyTop (mixed : Bool) (t : Top) (st : St) (c : Complex) : Except IErr (St × Complex) :=
  match c.content with
  | none => applyFirst mixed t st c
  | some ci =>
    match Assoc.get st.types ci with
    | none => .error .panic
    | some ty =>
      match groupParts ty.variant with
      | some (k, g) =>
        if k = t.kind then applyUpdate mixed t st c ci g.elements else applyAppend mixed t st c ci
      | none => applyAppend mixed t st c ci

/-- `UpdateMode`, variant_processor.rs. -/
inductive DMode where
  | extension | restriction
deriving DecidableEq, Repr

/-- The members of the base that the copy keeps, variant_processor.rs 1283-1289. -/
def keep (mode : DMode) (v : Variant) : Variant :=
  match mode with
  | .extension => v
  | .restriction =>
    match v with
    | .all g => .all { g with elements := g.elements.filter fun e => decide (e.min > 0) }
    | .choice g => .choice { g with elements := g.elements.filter fun e => decide (e.min > 0) }
    | .sequence g => .sequence { g with elements := g.elements.filter fun e => decide (e.min > 0) }
    | v => v

/-- `copy_base_type` for complex content, variant_processor.rs 1277-1306 and 1325-1331: the content of the base `c` is
copied under the new identifier `new` (`make_content_name`). -/
def copyBase (mixed : Bool) (mode : DMode) (new : Ident) (st : St) (c : Complex) : Except IErr (St × Complex) :=
  match c.content with
  | none => .ok (st, { c with isMixed := mixed })
  | some ci =>
    match Assoc.get st.types ci with
    | none => .error .panic
    | some ty =>
      match addType new { ty with variant := keep mode ty.variant } st with
      | .error e => .error e
      | .ok st => .ok (st, { c with isMixed := mixed, content := some new })

/-- `apply_complex_content_extension` and `apply_complex_content_restriction` with `apply_extension` and
`apply_restriction`, variant_processor.rs 542-625; only the particle (at most one in a valid schema), not the
attributes. -/
def derive (mixed : Bool) (mode : DMode) (new : Ident) (t : Option Top) (st : St) (c : Complex) :
    Except IErr (St × Complex) :=
  match copyBase mixed mode new st c with
  | .error e => .error e
  | .ok (st, c) =>
    match t with
    | none => .ok (st, c)
    | some t => applyTop mixed t st c

/-! ## Specification: what a content model means

A language is a set of lists of siblings. -/

abbrev Lang := List Node → Prop

/-- A number of instances, one after the other, within the bounds. -/
def Repeat (min : Nat) (max : MaxOccurs) (L : Lang) : Lang := fun ns =>
  ∃ instances : List (List Node), Allows min max instances.length ∧ instances.flatten = ns ∧ ∀ i ∈ instances, L i

/-- One instance of each, in this order. -/
def Concat : List Lang → Lang
  | [], ns => ns = []
  | L :: Ls, ns => ∃ a b, ns = a ++ b ∧ L a ∧ Concat Ls b

/-- One instance of each, in any order. -/
def AnyOrder (Ls : List Lang) : Lang := fun ns => ∃ Ls' : List Lang, Ls'.Perm Ls ∧ Concat Ls' ns

/-- An instance of one of them. -/
def Either (Ls : List Lang) : Lang := fun ns => ∃ L ∈ Ls, L ns

/-- What `xs:all`, `xs:choice`, `xs:sequence` do with the languages of their particles. -/
def GKind.combine : GKind → List Lang → Lang
  | .all => AnyOrder
  | .choice => Either
  | .sequence => Concat

/-- An element with the given name whose type and content satisfy `val`. -/
def OneElement (name : PropIdent) (val : Option PropIdent → List (PropIdent × Txt) → List Node → Prop) : Lang :=
  fun ns => ∃ x as kids, ns = [.elem name x as kids] ∧ val x as kids

mutual
/-- The language of a particle, in terms of what the types of elements (`val`) and the wildcards (`wild`) accept. -/
def Part.lang (val : Ident → Option PropIdent → List (PropIdent × Txt) → List Node → Prop)
    (wild : AnyMeta → Node → Prop) : Part → Lang
  | .elem d => Repeat d.min d.max (OneElement d.ident (val d.type_))
  | .any _ m min max => Repeat min max fun ns => ∃ n, ns = [n] ∧ wild m n
  | .group kind _ _ _ min max parts => Repeat min max (kind.combine (langs val wild parts))
def langs (val : Ident → Option PropIdent → List (PropIdent × Txt) → List Node → Prop)
    (wild : AnyMeta → Node → Prop) : List Part → List Lang
  | [] => []
  | p :: ps => Part.lang val wild p :: langs val wild ps
end

/-- The language of the top particle. -/
def Top.lang (val : Ident → Option PropIdent → List (PropIdent × Txt) → List Node → Prop)
    (wild : AnyMeta → Node → Prop) (t : Top) : Lang :=
  Repeat t.min t.max (t.kind.combine (langs val wild t.parts))

/-- The children that a complex type without text content accepts, in the sense of `Valid`. -/
def contentLang (P : Lex) (T : Types) (c : Complex) : Lang := fun ns =>
  match c.content with
  | none => ns = []
  | some g => ∃ k, Allows c.min c.max k ∧ Valid P T (.groupTimes g k ns)

/-- What the types of elements accept according to the table `T`. -/
def Val (P : Lex) (T : Types) (i : Ident) (x : Option PropIdent) (as : List (PropIdent × Txt)) (kids : List Node) :
    Prop := Valid P T (.value i x as kids)

/-- The table `T'` has all types of `T`. -/
def Extends (T T' : Types) : Prop := ∀ i ty, Assoc.get T i = some ty → Assoc.get T' i = some ty

/-- The table `T'` has all types of `T` with the possible exception of those in `X`. -/
def ExtendsBut (X : Ident → Prop) (T T' : Types) : Prop :=
  ∀ i ty, ¬ X i → Assoc.get T i = some ty → Assoc.get T' i = some ty

/-- The names of the elements among the particles. -/
def elemNames (ps : List Part) : List PropIdent :=
  ps.filterMap fun | .elem d => some d.ident | _ => none

mutual
/-- No group is empty, no group mentions an element twice, and the references to an `xs:group` stand for what `defs` says
it contains. -/
def Part.Plain (defs : Ident → GKind × List Part) : Part → Prop
  | .elem _ => True
  | .any .. => True
  | .group kind _ _ ref _ _ parts =>
    parts ≠ [] ∧ (elemNames parts).Nodup ∧ (∀ k, ref = some k → defs k = (kind, parts)) ∧ Plain defs parts
def Plain (defs : Ident → GKind × List Part) : List Part → Prop
  | [] => True
  | p :: ps => p.Plain defs ∧ Plain defs ps
end

/-- The same for the top particle. -/
def Top.Plain (defs : Ident → GKind × List Part) (t : Top) : Prop :=
  t.parts ≠ [] ∧ (elemNames t.parts).Nodup ∧ (∀ k, t.ref = some k → defs k = (t.kind, t.parts)) ∧
    Interp.Plain defs t.parts

/-! ## Members of groups as languages -/

/-- What a member of a group accepts according to the table. -/
def memLang (P : Lex) (T : Types) (e : Element) : Lang := fun ns =>
  ∃ k, Allows e.min e.max k ∧ Valid P T (.times e k ns)

theorem memLang_eq (P : Lex) (T : Types) (e : Element) :
    memLang P T e = Repeat e.min e.max fun ns => Valid P T (.particle e ns) := by
  funext ns
  apply propext
  constructor
  · rintro ⟨k, hk, h⟩
    obtain ⟨ps, rfl, h2, h3⟩ := times_parts h
    exact ⟨ps, hk, h2, h3⟩
  · rintro ⟨ps, hk, rfl, h⟩
    exact ⟨_, hk, times_of_parts ps h⟩

theorem contentLang_eq (P : Lex) (T : Types) (c : Complex) (g : Ident) (h : c.content = some g) :
    contentLang P T c = Repeat c.min c.max fun ns => Valid P T (.group g ns) := by
  funext ns
  apply propext
  simp only [contentLang, h]
  constructor
  · rintro ⟨k, hk, h⟩
    obtain ⟨ps, rfl, h2, h3⟩ := groupTimes_parts h
    exact ⟨ps, hk, h2, h3⟩
  · rintro ⟨ps, hk, rfl, h⟩
    exact ⟨_, hk, groupTimes_of_parts ps h⟩

theorem particle_element {P : Lex} {T : Types} {e : Element} {i : Ident} (h : e.variant = .type_ i .element) :
    (fun ns => Valid P T (.particle e ns)) = OneElement e.ident (Val P T i) := by
  funext ns
  apply propext
  constructor
  · intro hv
    cases hv with
    | element h1 h2 => rw [h] at h1; cases h1; exact ⟨_, _, _, rfl, h2⟩
    | nested h1 _ => rw [h] at h1; cases h1
    | wildcard h1 _ => rw [h] at h1; cases h1
    | textNode h1 => rw [h] at h1; cases h1
  · rintro ⟨x, as, kids, rfl, hv⟩
    exact .element h hv

theorem particle_nested {P : Lex} {T : Types} {e : Element} {i : Ident} (h : e.variant = .type_ i .group) :
    (fun ns => Valid P T (.particle e ns)) = fun ns => Valid P T (.group i ns) := by
  funext ns
  apply propext
  constructor
  · intro hv
    cases hv with
    | element h1 h2 => rw [h] at h1; cases h1
    | nested h1 h2 => rw [h] at h1; cases h1; exact h2
    | wildcard h1 _ => rw [h] at h1; cases h1
    | textNode h1 => rw [h] at h1; cases h1
  · exact fun hv => .nested h hv

theorem particle_any {P : Lex} {T : Types} {e : Element} {m : AnyMeta} (h : e.variant = .any m) :
    (fun ns => Valid P T (.particle e ns)) = fun ns => ∃ n, ns = [n] ∧ P.anyElement m n := by
  funext ns
  apply propext
  constructor
  · intro hv
    cases hv with
    | element h1 h2 => rw [h] at h1; cases h1
    | nested h1 h2 => rw [h] at h1; cases h1
    | wildcard h1 h2 => rw [h] at h1; cases h1; exact ⟨_, rfl, h2⟩
    | textNode h1 => rw [h] at h1; cases h1
  · rintro ⟨n, rfl, hv⟩
    exact .wildcard h hv

theorem inOrder_eq (P : Lex) (T : Types) (es : List Element) (ns : List Node) :
    Valid P T (.inOrder es ns) ↔ Concat (es.map (memLang P T)) ns := by
  induction es generalizing ns with
  | nil =>
    constructor
    · exact fun h => inOrder_nil_inv h
    · intro h; cases h; exact .nil
  | cons e es ih =>
    constructor
    · intro h
      obtain ⟨k, a, b, rfl, h1, h2, h3⟩ := inOrder_cons_inv h
      exact ⟨a, b, rfl, ⟨k, h1, h2⟩, (ih b).mp h3⟩
    · rintro ⟨a, b, rfl, ⟨k, h1, h2⟩, h3⟩
      exact .cons h1 h2 ((ih b).mpr h3)

theorem perm_of_map {α β : Type} {f : α → β} {l : List β} {m : List α} (h : l.Perm (m.map f)) :
    ∃ l' : List α, l'.Perm m ∧ l'.map f = l := by
  generalize hm : m.map f = m' at h
  induction h generalizing m with
  | nil => exact ⟨m, List.Perm.refl _, hm⟩
  | @cons x l₁ l₂ _ ih =>
    cases m with
    | nil => simp at hm
    | cons y m =>
      simp only [List.map_cons, List.cons.injEq] at hm
      obtain ⟨l', h1, h2⟩ := ih hm.2
      exact ⟨y :: l', h1.cons y, by simp [hm.1, h2]⟩
  | swap x y l =>
    match m, hm with
    | [], hm => simp at hm
    | [a], hm => simp at hm
    | a :: b :: m, hm =>
      simp only [List.map_cons, List.cons.injEq] at hm
      exact ⟨b :: a :: m, List.Perm.swap a b m, by simp [hm.1, hm.2.1, hm.2.2]⟩
  | trans _ _ ih₁ ih₂ =>
    obtain ⟨n, h1, h2⟩ := ih₂ hm
    obtain ⟨n', h3, h4⟩ := ih₁ h2
    exact ⟨n', h3.trans h1, h4⟩

theorem group_all_inv {P : Lex} {T : Types} {g : Ident} {x : Group} (hl : look T g = some (.all x))
    {ns : List Node} (h : Valid P T (.group g ns)) : ∃ es, es.Perm x.elements ∧ Valid P T (.inOrder es ns) := by
  have hx := h.step
  generalize hj : Judge.group g ns = j at hx
  cases hx <;> cases hj
  case all h1 h2 h3 => rw [hl] at h2; cases h2; exact ⟨_, h1, h3⟩
  all_goals (rename_i h1; first | (rw [hl] at h1; cases h1) | skip)
  all_goals simp_all

/-- A group type accepts what its kind makes of the languages of its members. -/
theorem group_eq {P : Lex} {T : Types} {i : Ident} {ty : MetaType} {k : GKind} {g : Group}
    (h : Assoc.get T i = some ty) (hk : groupParts ty.variant = some (k, g)) :
    (fun ns => Valid P T (.group i ns)) = k.combine (g.elements.map (memLang P T)) := by
  funext ns
  apply propext
  cases hv : ty.variant <;> rw [hv] at hk <;> simp only [groupParts, Option.some.injEq, Prod.mk.injEq, reduceCtorEq] at hk
  · obtain ⟨rfl, rfl⟩ := hk
    constructor
    · intro hg
      obtain ⟨es, h1, h2⟩ := group_all_inv (look_of h hv) hg
      exact ⟨es.map (memLang P T), h1.map _, (inOrder_eq P T es ns).mp h2⟩
    · rintro ⟨Ls, h1, h2⟩
      obtain ⟨es, h3, rfl⟩ := perm_of_map h1
      exact .all h hv h3 ((inOrder_eq P T es ns).mpr h2)
  · obtain ⟨rfl, rfl⟩ := hk
    constructor
    · intro hg
      obtain ⟨e, h1, k, h2, h3⟩ := group_choice_inv (look_of h hv) hg
      exact ⟨_, List.mem_map_of_mem h1, k, h2, h3⟩
    · rintro ⟨L, h1, h2⟩
      obtain ⟨e, h3, rfl⟩ := List.mem_map.mp h1
      obtain ⟨k, h4, h5⟩ := h2
      exact .choice h hv h3 h4 h5
  · obtain ⟨rfl, rfl⟩ := hk
    constructor
    · intro hg
      exact (inOrder_eq P T _ ns).mp (group_sequence_inv (look_of h hv) hg)
    · intro hg
      exact .sequence h hv ((inOrder_eq P T _ ns).mpr hg)

theorem groupParts_variant (k : GKind) (m : Bool) (es : List Element) :
    groupParts (k.variant m es) = some (k, ⟨m, es⟩) := by cases k <;> rfl

theorem variant_of_groupParts {v : Variant} {k : GKind} {g : Group} (h : groupParts v = some (k, g)) :
    v = k.variant g.isMixed g.elements := by
  cases v <;> simp only [groupParts, Option.some.injEq, Prod.mk.injEq, reduceCtorEq] at h <;>
    (obtain ⟨rfl, rfl⟩ := h; rfl)

theorem memLang_newNested (P : Lex) (T : Types) (t : Ident) (min : Nat) (max : MaxOccurs) (i : PropIdent) :
    memLang P T (newNested t min max i) = Repeat min max fun ns => Valid P T (.group t ns) := by
  rw [memLang_eq, particle_nested (i := t) rfl]; rfl

/-- What a member accepts does not depend on its display name, flags and documentation. -/
theorem memLang_congr {P : Lex} {T : Types} {e e' : Element} (hi : e.ident = e'.ident) (hv : e.variant = e'.variant)
    (h1 : e.min = e'.min) (h2 : e.max = e'.max) : memLang P T e = memLang P T e' := by
  funext ns
  apply propext
  constructor
  · rintro ⟨k, hk, h⟩
    exact ⟨k, h1 ▸ h2 ▸ hk, times_congr h hi hv⟩
  · rintro ⟨k, hk, h⟩
    exact ⟨k, by rw [h1, h2]; exact hk, times_congr h hi.symm hv.symm⟩

/-! ## Adding members -/

/-- The names of the members that are elements. -/
def memberNames (es : List Element) : List PropIdent := (es.filter isElement).map (·.ident)

theorem markFirst_langs (P : Lex) (T : Types) (i : PropIdent) (es : List Element) :
    (markFirst i es).map (memLang P T) = es.map (memLang P T) ∧ memberNames (markFirst i es) = memberNames es := by
  induction es with
  | nil => exact ⟨rfl, rfl⟩
  | cons e es ih =>
    rw [markFirst]
    split
    · split
      · refine ⟨?_, ?_⟩
        · rw [List.map_cons, List.map_cons]
          congr 1
          exact memLang_congr rfl rfl rfl rfl
        · simp only [memberNames, List.filter_cons]
          split <;> rename_i h
          · rw [if_pos (by simpa [isElement] using h)]; rfl
          · rw [if_neg (by simpa [isElement] using h)]
      · exact ⟨rfl, rfl⟩
    · refine ⟨?_, ?_⟩
      · rw [List.map_cons, List.map_cons, ih.1]
      · have := ih.2
        simp only [memberNames, List.filter_cons] at this ⊢
        split
        · rw [List.map_cons, List.map_cons, this]
        · exact this

theorem insertChecked_langs {P : Lex} {T : Types} {t : Ident} {min : Nat} {max : MaxOccurs} {field : PropIdent}
    {es es' : List Element} (h : insertChecked field (newNested t min max) es = some es') :
    es'.map (memLang P T) = es.map (memLang P T) ++ [Repeat min max fun ns => Valid P T (.group t ns)] ∧
    memberNames es' = memberNames es := by
  rw [insertChecked] at h
  split at h
  · rw [Option.map_eq_some_iff] at h
    obtain ⟨i, -, rfl⟩ := h
    rw [List.map_append, (markFirst_langs P T field es).1]
    refine ⟨by rw [List.map_singleton, memLang_newNested], ?_⟩
    rw [memberNames, List.filter_append, List.map_append]
    have := (markFirst_langs P T field es).2
    simp only [memberNames] at this
    rw [this]
    simp [newNested, newElement, isElement, memberNames]
  · cases h
    rw [List.map_append]
    refine ⟨by rw [List.map_singleton, memLang_newNested], ?_⟩
    rw [memberNames, List.filter_append, List.map_append]
    simp [newNested, newElement, isElement, memberNames]

theorem renumber_langs (P : Lex) (T : Types) (i : Nat) (es : List Element) :
    (renumber i es).1.map (memLang P T) = es.map (memLang P T) ∧ memberNames (renumber i es).1 = memberNames es := by
  induction es generalizing i with
  | nil => exact ⟨rfl, rfl⟩
  | cons e es ih =>
    rw [renumber]
    split
    · rename_i ha
      refine ⟨?_, ?_⟩
      · simp only [List.map_cons]
        rw [(ih (i + 1)).1]
        congr 1
        exact memLang_congr rfl rfl rfl rfl
      · have := (ih (i + 1)).2
        simp only [memberNames, List.filter_cons] at this ⊢
        have hne : isElement e = false := by
          simp only [Bool.and_eq_true, isAny] at ha
          unfold isElement
          cases hv : e.variant <;> rw [hv] at ha <;> simp at ha <;> rfl
        rw [if_neg (by simp [isElement] at hne ⊢; simpa using hne), if_neg (by simp [hne])]
        exact this
    · refine ⟨?_, ?_⟩
      · simp only [List.map_cons]
        rw [(ih i).1]
      · have := (ih i).2
        simp only [memberNames, List.filter_cons] at this ⊢
        split
        · rw [List.map_cons, List.map_cons, this]
        · exact this

theorem pushAny_langs (P : Lex) (T : Types) (i : PropIdent) (m : AnyMeta) (min : Nat) (max : MaxOccurs)
    (es : List Element) :
    (pushAny { newAny i m with min := min, max := max } es).map (memLang P T) =
      es.map (memLang P T) ++ [Repeat min max fun ns => ∃ n, ns = [n] ∧ P.anyElement m n] ∧
    memberNames (pushAny { newAny i m with min := min, max := max } es) = memberNames es := by
  rw [pushAny]
  simp only
  refine ⟨?_, ?_⟩
  · rw [List.map_append, (renumber_langs P T 0 es).1, List.map_singleton, memLang_eq, particle_any (m := m) rfl]
  · have := (renumber_langs P T 0 es).2
    simp only [memberNames, List.filter_append, List.map_append] at this ⊢
    rw [this]
    simp [newAny, isElement]

theorem findOrInsert_fresh {i : PropIdent} {new : Element} {f : Element → Element} {es : List Element}
    (h : ∀ e ∈ es, e.ident ≠ i) : findOrInsert i new f es = es ++ [f new] := by
  induction es with
  | nil => rfl
  | cons e es ih =>
    rw [findOrInsert, if_neg (h e (by simp)), ih fun e he => h e (by simp [he])]
    rfl

theorem addElement_langs {P : Lex} {T : Types} {d : ElementDecl} {es es' : List Element}
    (h : addElement d es = some es') (hn : d.ident ∉ memberNames es) :
    es'.map (memLang P T) = es.map (memLang P T) ++ [Repeat d.min d.max (OneElement d.ident (Val P T d.type_))] ∧
    memberNames es' = memberNames es ++ [d.ident] := by
  have hall : ∀ e ∈ es, e.ident ≠ d.ident := by
    rw [addElement] at h
    split at h
    · rename_i e hf
      split at h
      · rename_i he
        exact absurd (List.mem_map.mpr ⟨e, List.mem_filter.mpr ⟨List.mem_of_find?_eq_some hf, he⟩,
          by simpa using List.find?_some hf⟩) hn
      · cases h
    · rename_i hf
      intro e he hi
      have := List.find?_eq_none.mp hf e he
      simp [hi] at this
  have he : es' = es ++ [d.update (newElement d.ident d.type_ .element d.form)] := by
    rw [addElement, findOrInsert_fresh hall] at h
    split at h
    · split at h
      · cases h; rfl
      · cases h
    · cases h; rfl
  subst he
  refine ⟨?_, ?_⟩
  · rw [List.map_append, List.map_singleton, memLang_eq, particle_element (i := d.type_) rfl]
    rfl
  · have : isElement (d.update (newElement d.ident d.type_ .element d.form)) = true := rfl
    rw [memberNames, List.filter_append, List.map_append, List.filter_cons, if_pos this]
    rfl

/-! ## The main induction -/

theorem Extends.refl (T : Types) : Extends T T := fun _ _ h => h

theorem Extends.trans {T T' T'' : Types} (h : Extends T T') (h' : Extends T' T'') : Extends T T'' :=
  fun i ty hi => h' i ty (h i ty hi)

theorem Extends.but {X : Ident → Prop} {T T' T'' : Types} (h : Extends T T') (h' : ExtendsBut X T' T'') :
    ExtendsBut X T T'' := fun i ty hX hi => h' i ty hX (h i ty hi)

theorem addType_ok {i : Ident} {ty : MetaType} {st st' : St} (h : addType i ty st = .ok st') :
    Extends st.types st'.types ∧ Assoc.get st'.types i = some ty ∧ st'.cache = st.cache ∧
      Assoc.get st.types i = none ∧ ∀ j, j ≠ i → Assoc.get st'.types j = Assoc.get st.types j := by
  rw [addType] at h
  split at h
  · cases h
  · rename_i hn
    cases h
    refine ⟨?_, by rw [Assoc.get_upsert, if_pos rfl], rfl, hn, ?_⟩
    · intro j tj hj
      rw [Assoc.get_upsert]
      split
      · rename_i e; subst e; rw [hn] at hj; cases hj
      · exact hj
    · intro j hj
      rw [Assoc.get_upsert, if_neg (by first | exact hj | exact fun e => hj e.symm)]

/-- What the group cache promises: the type remembered for an `xs:group` accepts what the group says. -/
def CacheOk (X : Ident → Prop) (defs : Ident → GKind × List Part) (st : St) : Prop :=
  ∀ k t, Assoc.get st.cache k = some t → ¬ X t ∧ ∃ m es, Assoc.get st.types t = some (.new ((defs k).1.variant m es)) ∧
    ∀ P T', ExtendsBut X st.types T' → es.map (memLang P T') = langs (Val P T') P.anyElement (defs k).2

theorem CacheOk.mono {X : Ident → Prop} {defs : Ident → GKind × List Part} {st st' : St} (h : CacheOk X defs st)
    (hx : Extends st.types st'.types) (hc : st'.cache = st.cache) : CacheOk X defs st' := by
  intro k t hk
  rw [hc] at hk
  obtain ⟨hX, m, es, h1, h2⟩ := h k t hk
  exact ⟨hX, m, es, hx _ _ h1, fun P T' hT => h2 P T' (hx.but hT)⟩

theorem CacheOk.remember {X : Ident → Prop} {defs : Ident → GKind × List Part} {st : St} (h : CacheOk X defs st) {ref : Option Ident}
    {t : Ident} {kind : GKind} {parts : List Part} (hd : ∀ k, ref = some k → defs k = (kind, parts)) {m : Bool}
    {es : List Element} (hX : ¬ X t) (hg : Assoc.get st.types t = some (.new (kind.variant m es)))
    (hl : ∀ P T', ExtendsBut X st.types T' → es.map (memLang P T') = langs (Val P T') P.anyElement parts) :
    CacheOk X defs (remember ref t st) := by
  cases ref with
  | none => exact h
  | some k =>
    intro k' t' hk
    simp only [Interp.remember] at hk ⊢
    rw [Assoc.get_upsert] at hk
    split at hk
    · rename_i e
      cases hk
      subst e
      have := hd _ rfl
      exact ⟨hX, m, es, by rw [this]; exact hg, fun P T' hT => by rw [this]; exact hl P T' hT⟩
    · exact h k' t' hk

theorem remember_types (ref : Option Ident) (t : Ident) (st : St) : (remember ref t st).types = st.types := by
  cases ref <;> rfl

theorem cached_some {ref : Option Ident} {st : St} {t : Ident} (h : cached ref st = some t) :
    ∃ k, ref = some k ∧ Assoc.get st.cache k = some t := by
  cases ref with
  | none => cases h
  | some k => exact ⟨k, rfl, h⟩

/-- The name a particle adds. -/
def Part.name : Part → List PropIdent
  | .elem d => [d.ident]
  | _ => []

theorem elemNames_cons (p : Part) (ps : List Part) : elemNames (p :: ps) = p.name ++ elemNames ps := by
  cases p <;> rfl

/-- What holds after some particles, with the languages `Ls` and the names `names`, were added. -/
structure Added (X : Ident → Prop) (defs : Ident → GKind × List Part) (st st' : St) (es es' : List Element)
    (Ls : Lex → Types → List Lang) (names : List PropIdent) : Prop where
  ext : Extends st.types st'.types
  cache : CacheOk X defs st'
  lang : ∀ P T', ExtendsBut X st'.types T' → es'.map (memLang P T') = es.map (memLang P T') ++ Ls P T'
  names : memberNames es' = memberNames es ++ names

/-- The type of a group accepts the language of the group. -/
theorem group_lang {P : Lex} {T : Types} {t : Ident} {kind : GKind} {m : Bool} {es : List Element}
    {parts : List Part} (h : Assoc.get T t = some (.new (kind.variant m es)))
    (hl : es.map (memLang P T) = langs (Val P T) P.anyElement parts) :
    (fun ns => Valid P T (.group t ns)) = kind.combine (langs (Val P T) P.anyElement parts) := by
  rw [group_eq h (groupParts_variant kind m es), ← hl]

theorem langs_length (val wild) (ps : List Part) : (langs val wild ps).length = ps.length := by
  induction ps with
  | nil => rfl
  | cons p ps ih => rw [langs, List.length_cons, List.length_cons, ih]

/-- A `Lex` to instantiate universally quantified statements with. -/
def noLex : Lex := ⟨fun _ _ => False, fun _ _ => False, fun _ _ _ => False, fun _ _ => False, fun _ => [],
  fun _ _ => False, fun _ _ => False⟩

theorem finishNested_ok {X : Ident → Prop} {defs : Ident → GKind × List Part} {mixed : Bool} {kind : GKind} {field : PropIdent}
    {ty : Ident} {ref : Option Ident} {min : Nat} {max : MaxOccurs} {parts : List Part} {st st' : St}
    {es es' : List Element} {r : Except IErr (St × List Element)}
    (h : finishNested mixed kind field ty ref min max es r = .ok (st', es')) (hne : parts ≠ [])
    (hd : ∀ k, ref = some k → defs k = (kind, parts)) (hX : ∀ i, X i → Defined st.types i)
    (hr : ∀ st1 inner, r = .ok (st1, inner) →
      Added X defs st st1 [] inner (fun P T => langs (Val P T) P.anyElement parts) (elemNames parts)) :
    Added X defs st st' es es'
      (fun P T => [Repeat min max (kind.combine (langs (Val P T) P.anyElement parts))]) [] := by
  unfold finishNested at h
  split at h
  · cases h
  · rename_i st1 inner
    have ha := hr st1 inner rfl
    split at h
    · rename_i he
      exfalso
      have hl := ha.lang noLex st1.types (fun _ _ _ h => h)
      have : inner = [] := List.isEmpty_iff.mp he
      subst this
      simp only [List.map_nil, List.nil_append] at hl
      have := congrArg List.length hl
      rw [langs_length] at this
      exact hne (List.length_eq_zero_iff.mp this.symm)
    · split at h
      · cases h
      · rename_i st2 h2
        obtain ⟨x1, x2, x3, x4, -⟩ := addType_ok h2
        have hXt : ¬ X ty := fun hx => by
          obtain ⟨ty', h'⟩ := hX _ hx
          rw [ha.ext _ _ h'] at x4
          cases x4
        split at h
        · cases h
        · rename_i st3 es3 h3
          rw [addNested] at h3
          split at h3
          · cases h3
          · rename_i es4 h4
            cases h3
            cases h
            have hl : ∀ P T', ExtendsBut X st2.types T' →
                inner.map (memLang P T') = langs (Val P T') P.anyElement parts := by
              intro P T' hT
              have := ha.lang P T' (x1.but hT)
              simpa using this
            refine ⟨?_, ?_, ?_, ?_⟩
            · rw [remember_types]; exact ha.ext.trans x1
            · exact (ha.cache.mono x1 x3).remember hd hXt x2 hl
            · intro P T' hT
              rw [remember_types] at hT
              rw [(insertChecked_langs (P := P) (T := T') h4).1, group_lang (hT _ _ hXt x2) (hl P T' hT)]
            · rw [(insertChecked_langs (P := noLex) (T := []) h4).2]; simp

mutual
theorem apply_ok {X : Ident → Prop} {defs : Ident → GKind × List Part} {mixed : Bool} : ∀ (p : Part) {st st' : St}
    {es es' : List Element}, p.apply mixed st es = .ok (st', es') → p.Plain defs → CacheOk X defs st →
    (∀ i, X i → Defined st.types i) → (∀ n ∈ p.name, n ∉ memberNames es) →
    Added X defs st st' es es' (fun P T => [p.lang (Val P T) P.anyElement]) p.name
  | .elem d, st, st', es, es', h, hp, hc, hX, hn => by
    rw [Part.apply] at h
    split at h
    · cases h
    · rename_i es1 h1
      cases h
      refine ⟨Extends.refl _, hc, fun P T' _ => ?_, ?_⟩
      · rw [(addElement_langs (P := P) (T := T') h1 (hn _ (by simp [Part.name]))).1, Part.lang]
      · exact (addElement_langs (P := noLex) (T := []) h1 (hn _ (by simp [Part.name]))).2
  | .any i m min max, st, st', es, es', h, hp, hc, hX, hn => by
    rw [Part.apply] at h
    cases h
    refine ⟨Extends.refl _, hc, fun P T' _ => ?_, ?_⟩
    · rw [(pushAny_langs P T' i m min max es).1, Part.lang]
    · rw [(pushAny_langs noLex [] i m min max es).2]; simp [Part.name]
  | .group kind field ty ref min max parts, st, st', es, es', h, hp, hc, hX, hn => by
    rw [Part.Plain] at hp
    obtain ⟨p1, p2, p3, p4⟩ := hp
    rw [Part.apply] at h
    split at h
    · rename_i t ht
      obtain ⟨k, rfl, hk⟩ := cached_some ht
      obtain ⟨cX, m, inner, c1, c2⟩ := hc k t hk
      rw [p3 k rfl] at c1 c2
      rw [addNested] at h
      split at h
      · cases h
      · rename_i es1 h1
        cases h
        refine ⟨Extends.refl _, hc, fun P T' hT => ?_, ?_⟩
        · rw [(insertChecked_langs (P := P) (T := T') h1).1, group_lang (hT _ _ cX c1) (c2 P T' hT), Part.lang]
        · rw [(insertChecked_langs (P := noLex) (T := []) h1).2]; simp [Part.name]
    · have := finishNested_ok h p1 p3 (st := st) hX (fun st1 inner hr =>
        applyParts_ok parts hr p4 hc hX p2 (fun n _ hm => by simp [memberNames] at hm))
      simp only [Part.lang, Part.name]
      exact this
theorem applyParts_ok {X : Ident → Prop} {defs : Ident → GKind × List Part} {mixed : Bool} : ∀ (ps : List Part) {st st' : St}
    {es es' : List Element}, applyParts mixed ps st es = .ok (st', es') → Plain defs ps → CacheOk X defs st →
    (∀ i, X i → Defined st.types i) → (elemNames ps).Nodup → (∀ n ∈ elemNames ps, n ∉ memberNames es) →
    Added X defs st st' es es' (fun P T => langs (Val P T) P.anyElement ps) (elemNames ps)
  | [], st, st', es, es', h, hp, hc, hX, hd, hn => by
    rw [applyParts] at h
    cases h
    exact ⟨Extends.refl _, hc, fun P T' _ => by simp [langs], by simp [elemNames]⟩
  | p :: ps, st, st', es, es', h, hp, hc, hX, hd, hn => by
    rw [Plain] at hp
    rw [elemNames_cons] at hd hn
    rw [applyParts] at h
    split at h
    · cases h
    · rename_i st1 es1 h1
      have a1 := apply_ok p h1 hp.1 hc hX (fun n hm => hn n (List.mem_append_left _ hm))
      have a2 := applyParts_ok ps h hp.2 a1.cache (fun i hi => (hX i hi).imp fun ty h => a1.ext _ _ h) (List.nodup_append.mp hd).2.1 (by
        intro n hm hm'
        rw [a1.names] at hm'
        rcases List.mem_append.mp hm' with hm' | hm'
        · exact hn n (List.mem_append_right _ hm) hm'
        · exact (List.nodup_append.mp hd).2.2 n hm' n hm rfl)
      refine ⟨a1.ext.trans a2.ext, a2.cache, fun P T' hT => ?_, ?_⟩
      · rw [a2.lang P T' hT, a1.lang P T' (a2.ext.but hT), langs, List.append_assoc]
        rfl
      · rw [a2.names, a1.names, elemNames_cons, List.append_assoc]
end

/-! ## The content of a complex type -/

theorem cacheOk_nil {X : Ident → Prop} {defs : Ident → GKind × List Part} {st : St} (h : st.cache = []) :
    CacheOk X defs st := by
  intro k t hk
  rw [h] at hk
  cases hk

theorem applyFirst_lang {defs : Ident → GKind × List Part} {mixed : Bool} {t : Top} {st st' : St} {c c' : Complex}
    (h : applyFirst mixed t st c = .ok (st', c')) (hp : t.Plain defs) (hc : CacheOk (fun _ => False) defs st) :
    Extends st.types st'.types ∧ ∃ g m es, c' = Complex.withContent c g t.min t.max ∧
      Assoc.get st'.types g = some (.new (t.kind.variant m es)) ∧
      ∀ P T', Extends st'.types T' → es.map (memLang P T') = langs (Val P T') P.anyElement t.parts := by
  obtain ⟨p1, p2, p3, p4⟩ := hp
  rw [applyFirst] at h
  split at h
  · rename_i i hi
    cases h
    obtain ⟨k, hk, hk'⟩ := cached_some hi
    obtain ⟨-, m, es, h1, h2⟩ := hc k i hk'
    rw [p3 k hk] at h1 h2
    exact ⟨Extends.refl _, i, m, es, rfl, h1, fun P T' hT => h2 P T' (fun i ty _ => hT i ty)⟩
  · split at h
    · cases h
    · rename_i st1 es h1
      have ha := applyParts_ok t.parts h1 p4 hc (fun _ hx => hx.elim) p2
        (fun n _ hm => by simp [memberNames] at hm)
      split at h
      · rename_i he
        exfalso
        have hl := ha.lang noLex st1.types (fun _ _ _ h => h)
        have : es = [] := List.isEmpty_iff.mp he
        subst this
        simp only [List.map_nil, List.nil_append] at hl
        have := congrArg List.length hl
        rw [langs_length] at this
        exact p1 (List.length_eq_zero_iff.mp this.symm)
      · split at h
        · cases h
        · rename_i st2 h2
          cases h
          obtain ⟨x1, x2, -, -, -⟩ := addType_ok h2
          refine ⟨by rw [remember_types]; exact ha.ext.trans x1, t.type_, mixed, es, rfl,
            by rw [remember_types]; exact x2, ?_⟩
          intro P T' hT
          rw [remember_types] at hT
          have := ha.lang P T' (fun i ty _ hi => hT _ _ (x1 _ _ hi))
          simpa using this

/-- **C59.** The content of a complex type without base accepts exactly the documents that the content model of the
schema describes, in every table that has the types generated for it: if no group is empty and no group mentions the
same element twice (see `C52_repeated_element_lost`, `C59_empty_alternative_lost`). -/
theorem C59_content_exact_partial {defs : Ident → GKind × List Part} {mixed : Bool} {t : Top} {st st' : St}
    {c c' : Complex} (h : applyTop mixed t st c = .ok (st', c')) (hn : c.content = none) (hs : st.cache = [])
    (hp : t.Plain defs) (P : Lex) (T' : Types) (hT : Extends st'.types T') :
    contentLang P T' c' = t.lang (Val P T') P.anyElement := by
  rw [applyTop, hn] at h
  obtain ⟨-, g, m, es, rfl, h2, h3⟩ := applyFirst_lang h hp (cacheOk_nil hs)
  rw [contentLang_eq P T' _ g rfl, group_lang (hT _ _ h2) (h3 P T' hT)]
  rfl

/-- The attributes are those declared. -/
def AttrsOk (P : Lex) (T : Types) (c : Complex) (as : List (PropIdent × Txt)) : Prop :=
  AttrsShape P c.attributes as ∧
    ∀ a ∈ c.attributes, ∀ t, a.variant = .type_ t → ∀ v, (a.ident, v) ∈ as → Valid P T (.text t v)

theorem no_text {P : Lex} {T : Types} {i : Ident} {v : Variant} (hl : look T i = some v)
    (hv : (∃ c, v = .complex c) ∨ ∃ k, groupParts v = some k) (s : Txt) : ¬ Valid P T (.text i s) := by
  intro h
  have hx := h.step
  generalize hj : Judge.text i s = j at hx
  have key : ∀ w, look T i = some w → w = v := fun w hw => by rw [hl] at hw; cases hw; rfl
  cases hx <;> cases hj
  all_goals
    rename_i hi
    have hi := key _ (by assumption)
    subst hi
    rcases hv with ⟨c, hc⟩ | ⟨k, hk⟩
    · cases hc
    · simp [groupParts] at hk

/-- What the type of an element accepts, in terms of its content. -/
theorem value_eq {P : Lex} {T : Types} {i : Ident} {ty : MetaType} {c : Complex} (h : Assoc.get T i = some ty)
    (hv : ty.variant = .complex c) (hm : c.isMixed = false)
    (hg : ∀ g, c.content = some g → ∃ v, look T g = some v ∧ ∃ k, groupParts v = some k)
    (x : Option PropIdent) (as : List (PropIdent × Txt)) (kids : List Node) :
    Valid P T (.value i x as kids) ↔ AttrsOk P T c as ∧ contentLang P T c kids := by
  have hl := look_of h hv
  constructor
  · intro hval
    have hx := hval.step
    generalize hj : Judge.value i x as kids = j at hx
    cases hx <;> cases hj
    case mp.textValue.refl s h1 => exact absurd h1 (no_text hl (.inl ⟨c, rfl⟩) _)
    case mp.emptyValue.refl c' h1 h2 h3 h4 =>
      rw [hl] at h2; cases h2
      exact ⟨⟨h3, h4⟩, by simp [contentLang, h1]⟩
    case mp.simpleValue.refl c' g s h1 h2 h3 h4 h5 =>
      rw [hl] at h3; cases h3
      obtain ⟨v, hv', hk⟩ := hg _ h1
      exact absurd h2 (no_text hv' (.inr hk) _)
    case mp.complexValue.refl c' g k h1 h2 h3 h4 h5 h6 =>
      rw [hl] at h3; cases h3
      refine ⟨⟨h4, h5⟩, ?_⟩
      simp only [contentLang, h1]
      rw [hm] at h6
      exact ⟨k, h2, h6⟩
    all_goals (exfalso; rename_i hi; simp_all)
  · rintro ⟨⟨h1, h2⟩, h3⟩
    cases hc : c.content with
    | none =>
      simp only [contentLang, hc] at h3
      subst h3
      exact .emptyValue h hv hc h1 h2
    | some g =>
      simp only [contentLang, hc] at h3
      obtain ⟨k, h4, h5⟩ := h3
      exact .complexValue h hv hc h1 h2 h4 (by rw [hm]; exact h5)

/-- **C59.** The same for the complex type itself: an element of the generated type is accepted if and only if its
attributes are as declared and its children are an instance of the content model. -/
theorem C59_type_exact_partial {defs : Ident → GKind × List Part} {mixed : Bool} {t : Top} {st st' : St}
    {c c' : Complex} (h : applyTop mixed t st c = .ok (st', c')) (hn : c.content = none) (hs : st.cache = [])
    (hp : t.Plain defs) (hm : c.isMixed = false) (P : Lex) (T' : Types) (hT : Extends st'.types T')
    {i : Ident} {ty : MetaType} (hi : Assoc.get T' i = some ty) (hv : ty.variant = .complex c')
    (x : Option PropIdent) (as : List (PropIdent × Txt)) (kids : List Node) :
    Valid P T' (.value i x as kids) ↔ AttrsOk P T' c as ∧ t.lang (Val P T') P.anyElement kids := by
  rw [← C59_content_exact_partial h hn hs hp P T' hT]
  rw [applyTop, hn] at h
  obtain ⟨-, g, m, es, rfl, h2, -⟩ := applyFirst_lang h hp (cacheOk_nil hs)
  have hlook := look_of (hT _ _ h2) rfl
  exact value_eq hi hv hm (fun g' hg' => by
    cases hg'
    exact ⟨_, hlook, _, groupParts_variant _ _ _⟩) x as kids

end Verif.Interp

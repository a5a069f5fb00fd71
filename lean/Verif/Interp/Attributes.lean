import Verif.Meta.Types

/-!
# The attributes of a complex type (C63)

How the interpreter collects the attributes of a complex type from its declarations, from attribute
groups and from its base type: `apply_attribute_ref`, `apply_attribute_group`,
`apply_attribute_group_ref`, `apply_any_attribute`, `copy_base_type` in
xsd-parser/src/pipeline/interpreter/state/generate_types/variant_processor.rs (cited as vp.rs) and
`Update<AttributeType>` in generate_types/update.rs.
-/

namespace Verif.Attrs

open Verif.Meta

/-! ## Model -/

/-- A target namespace and `attributeFormDefault`. -/
structure Ctx where
  ns : Nat
  form : Form
deriving DecidableEq, Repr

/-- `AttributeInnerType`, models/schema/xs_generated.rs:414-427: an `xs:attribute` inside of a type or
group. `ref_` is the name of the global attribute (namespace and local name), `type_` a named type and
`inline` a type that is declared inside. Names of types are resolved already. Left out: `id`,
`inheritable`, annotations, and `targetNamespace`, which the code does not read. -/
structure Decl where
  name : Option Txt := none
  ref_ : Option (Nat × Txt) := none
  type_ : Option Nat := none
  inline : Option Nat := none
  use_ : Use := .optional
  default_ : Option Txt := none
  fixed : Option Txt := none
  form : Option Form := none
deriving DecidableEq, Repr

/-- What a type or an attribute group contains: `xs:attribute`, `xs:anyAttribute` (the wildcard is a
number), and references to attribute groups. -/
inductive Item where
  | attr (d : Decl)
  | any (w : Nat)
  | group (g : Option Nat)
deriving DecidableEq, Repr

structure Group where
  ctx : Ctx
  items : List Item

/-- A global `xs:attribute`. -/
structure Global where
  type_ : Option Nat
  default_ : Option Txt
  fixed : Option Txt

inductive Derivation where
  | extension | restriction
deriving DecidableEq, Repr

/-- A complex type: its content and its complex base type. Types with simple base types or without
base start without attributes (vp.rs:1309-1314). -/
structure CType where
  ctx : Ctx
  base : Option (Derivation × Nat)
  items : List Item

structure Schemas where
  groups : Nat → Option Group
  globals : Nat × Txt → Option Global
  types : Nat → Option CType

/-- The type of an attribute: a type identifier, that of a global attribute, or `xs:string`. -/
inductive AType where
  | type_ (i : Nat)
  | inline (i : Nat)
  | global (r : Nat × Txt)
  | string
deriving DecidableEq, Repr

/-- `AttributeIdent`: namespace and name. Wildcards get a name with a number that is not used
otherwise (`unique_name("any_attribute")`, vp.rs:991-997). -/
inductive AIdent where
  | named (ns : Nat) (name : Txt)
  | any (n : Nat)
deriving DecidableEq, Repr

/-- `AttributeMeta`, models/meta/attribute.rs:17-42, without documentation, namespaces in scope and
display name. -/
structure AMeta where
  ident : AIdent
  variant : AType ⊕ Nat
  use_ : Use
  form : Form
  default_ : Option Txt
deriving DecidableEq, Repr

inductive Err where
  | invalidReference
  | groupMissingRef
  | unknown
  | unknownBase
  | overflow
deriving DecidableEq, Repr

/-- The attributes of the type so far and the number for the next wildcard. -/
structure St where
  attrs : List AMeta := []
  next : Nat := 0
deriving DecidableEq, Repr

/-- `find_or_insert` followed by `update`, traits/vec_helper.rs:40-53 and update.rs:49-56: the use is
replaced, the default only if there is a new one, and the type and form of an attribute that is
there are kept. -/
def upsert (new : AMeta) (u : Use) (dflt : Option Txt) : List AMeta → List AMeta
  | [] => [{ new with use_ := u, default_ := dflt <|> new.default_ }]
  | m :: r =>
    if m.ident = new.ident then { m with use_ := u, default_ := dflt <|> m.default_ } :: r
    else m :: upsert new u dflt r

/-- `ty.form.unwrap_or_else(|| current_schema().attribute_form_default)`. -/
def Decl.form' (c : Ctx) (d : Decl) : Form := d.form.getD c.form

/-- The attribute a declaration inserts, vp.rs:832-888. -/
def Decl.make (S : Schemas) (c : Ctx) (d : Decl) : Except Err AMeta :=
  match d.name, d.type_, d.ref_ with
  | some n, some t, _ => .ok ⟨.named c.ns n, .inl (.type_ t), .optional, d.form' c, none⟩
  | name, _, some r =>
    match S.globals r with
    | none => .error .unknown
    | some _ => .ok ⟨.named r.1 (name.getD r.2), .inl (.global r), .optional, d.form' c, none⟩
  | some n, none, none =>
    .ok ⟨.named c.ns n, .inl ((d.inline.map .inline).getD .string), .optional, d.form' c, none⟩
  | none, _, none => .error .invalidReference

/-- `apply_attribute_ref`, vp.rs:831-901. -/
def applyAttr (S : Schemas) (c : Ctx) (st : St) (d : Decl) : Except Err St :=
  match d.make S c with
  | .error e => .error e
  | .ok m => .ok { st with attrs := upsert m d.use_ d.default_ st.attrs }

/-- `apply_any_attribute`, vp.rs:990-1013, with `AttributeMeta::any`, meta/attribute.rs:90-102. -/
def applyAny (st : St) (w : Nat) : St :=
  { attrs := st.attrs ++ [⟨.any st.next, .inr w, .required, .unqualified, none⟩], next := st.next + 1 }

/-- One item; `rec` handles the content of a group: `apply_attribute_group_ref`, vp.rs:950-959. The context stays
that of the type: `current_ns_id` and `current_schema` are those of the type that is generated
(`current_ident`, type_processor.rs:305-332), and `impl_with_node` (vp.rs:130-151) does not change it. -/
def applyItem (S : Schemas) (rec : Ctx → List Item → St → Except Err St) (c : Ctx) (st : St) :
    Item → Except Err St
  | .attr d => applyAttr S c st d
  | .any w => .ok (applyAny st w)
  | .group none => .error .groupMissingRef
  | .group (some g) =>
    match S.groups g with
    | none => .error .unknown
    | some G => rec c G.items st

/-- The items one after the other, vp.rs:351-376, 593-606, 613-628, 740-747. -/
def applyList (S : Schemas) (rec : Ctx → List Item → St → Except Err St) (c : Ctx) :
    List Item → St → Except Err St
  | [], st => .ok st
  | i :: r, st =>
    match applyItem S rec c st i with
    | .error e => .error e
    | .ok st' => applyList S rec c r st'

/-- `fuel` limits the nesting of groups; the code has the stack for it. -/
def applyItems (S : Schemas) : Nat → Ctx → List Item → St → Except Err St
  | 0 => fun _ _ _ => .error .overflow
  | fuel + 1 => applyList S (applyItems S fuel)

/-- The attributes of a type: those of the base type are copied for extensions and restrictions alike
(`copy_base_type`, vp.rs:1230-1335, which changes the content of the base type only), then the items
are applied. The base type has been processed before; numbers of wildcards go on from there. -/
def typeAttrs (S : Schemas) (depth : Nat) : Nat → Nat → Except Err St
  | 0, _ => .error .overflow
  | fuel + 1, k =>
    match S.types k with
    | none => .error .unknownBase
    | some T =>
      match T.base with
      | none => applyItems S depth T.ctx T.items {}
      | some (_, b) =>
        match typeAttrs S depth fuel b with
        | .error e => .error e
        | .ok st => applyItems S depth T.ctx T.items st

/-- The fields that the generator makes: prohibited attributes are left out,
generator/data/complex.rs:777-779. -/
def fields (st : St) : List AMeta := st.attrs.filter fun m => m.use_ != .prohibited

/-! ## Specification -/

/-- A declaration with the context it is in, or a wildcard. -/
inductive Flat where
  | attr (d : Decl) (c : Ctx)
  | any (w : Nat)
deriving DecidableEq, Repr

/-- Whose target namespace and form default apply to the declarations in a group: those of the schema of
the group, as XML Schema says, or those of the type that refers to the group, as in the code. -/
inductive Scope where
  | xmlSchema | code
deriving DecidableEq, Repr

def Scope.ctx : Scope → (type group : Ctx) → Ctx
  | .xmlSchema, _, g => g
  | .code, c, _ => c

/-- The items with all groups replaced by what they contain. -/
inductive Flattens (S : Schemas) (sc : Scope) : Ctx → List Item → List Flat → Prop
  | nil {c} : Flattens S sc c [] []
  | attr {c d r l} : Flattens S sc c r l → Flattens S sc c (.attr d :: r) (.attr d c :: l)
  | any {c w r l} : Flattens S sc c r l → Flattens S sc c (.any w :: r) (.any w :: l)
  | group {c g r G l l'} : S.groups g = some G → Flattens S sc (sc.ctx c G.ctx) G.items l → Flattens S sc c r l' →
      Flattens S sc c (.group (some g) :: r) (l ++ l')

/-- The items of the base types followed by those of the type. -/
inductive Chain (S : Schemas) (sc : Scope) : Nat → List Flat → Prop
  | root {k T l} : S.types k = some T → T.base = none → Flattens S sc T.ctx T.items l → Chain S sc k l
  | derived {k T dv b l l'} : S.types k = some T → T.base = some (dv, b) → Chain S sc b l →
      Flattens S sc T.ctx T.items l' → Chain S sc k (l ++ l')

/-- `d`, in the context `c`, is declared in the type itself (or in its groups). -/
def Own (S : Schemas) (k : Nat) (d : Decl) (c : Ctx) : Prop :=
  ∃ T l, S.types k = some T ∧ Flattens S .xmlSchema T.ctx T.items l ∧ .attr d c ∈ l

/-- The declaration in its context inserts an attribute with this identifier. -/
def Decl.ident (c : Ctx) (d : Decl) : AIdent :=
  match d.ref_, d.name, d.type_ with
  | _, some n, some _ => .named c.ns n
  | some r, some n, none => .named r.1 n
  | some r, none, _ => .named r.1 r.2
  | none, some n, none => .named c.ns n
  | none, none, _ => .named c.ns []

/-- The type that XML Schema gives the attribute. -/
def Decl.atype (d : Decl) : AType :=
  match d.ref_, d.type_, d.inline with
  | some r, _, _ => .global r
  | none, some t, _ => .type_ t
  | none, none, some t => .inline t
  | none, none, none => .string

/-- XML Schema allows either a name or a reference, and no type with a reference. -/
def Decl.Proper (d : Decl) : Prop :=
  (d.ref_ = none ∧ d.name ≠ none) ∨ (d.ref_ ≠ none ∧ d.name = none ∧ d.type_ = none ∧ d.inline = none)

/-- An attribute use of XML Schema (3.4.2.4): expanded name (the namespace `0` stands for none), if it is
required, type, default and fixed value. -/
structure AUse where
  name : Nat × Txt
  required : Bool
  type_ : AType
  default_ : Option Txt
  fixed : Option Txt
deriving DecidableEq, Repr

/-- The expanded name of the attribute: global attributes are in their namespace, local ones only if
they are qualified. -/
def Decl.xname (c : Ctx) (d : Decl) : Nat × Txt :=
  match d.ref_ with
  | some r => r
  | none => (if d.form' c = .qualified then c.ns else 0, d.name.getD [])

/-- Default and fixed value: those of the declaration, otherwise those of the global attribute. -/
def Decl.constraint (S : Schemas) (d : Decl) : Option Txt × Option Txt :=
  if d.default_ ≠ none ∨ d.fixed ≠ none then (d.default_, d.fixed)
  else match d.ref_.bind S.globals with
    | some g => (g.default_, g.fixed)
    | none => (none, none)

def Decl.toUse (S : Schemas) (c : Ctx) (d : Decl) : AUse :=
  ⟨d.xname c, d.use_ == .required, d.atype, (d.constraint S).1, (d.constraint S).2⟩

/-- The attribute uses of a type: its own, and those of the base type that it does not declare again;
prohibited declarations remove attributes in restrictions only. -/
inductive HasUse (S : Schemas) : Nat → AUse → Prop
  | own {k d c} : Own S k d c → d.use_ ≠ .prohibited → HasUse S k (d.toUse S c)
  | extended {k T b u} : S.types k = some T → T.base = some (.extension, b) → HasUse S b u →
      (∀ d c, Own S k d c → d.use_ ≠ .prohibited → d.xname c ≠ u.name) → HasUse S k u
  | restricted {k T b u} : S.types k = some T → T.base = some (.restriction, b) → HasUse S b u →
      (∀ d c, Own S k d c → d.xname c ≠ u.name) → HasUse S k u

/-- What a field of the generated type means: its name is written with the prefix of its namespace if
its form is qualified, and without prefix otherwise (`TagName`, models/data/tag_name.rs). -/
def AMeta.toUse (m : AMeta) : Option AUse :=
  match m.ident, m.variant with
  | .named ns n, .inl t =>
    some ⟨(if m.form = .qualified then ns else 0, n), m.use_ == .required, t, m.default_, none⟩
  | _, _ => none

/-! ## The code as a fold over the flat list -/

/-- The effect of one entry of the flat list. -/
def applyFlat (S : Schemas) (st : St) : Flat → Except Err St
  | .attr d c => applyAttr S c st d
  | .any w => .ok (applyAny st w)

def applyFlats (S : Schemas) : List Flat → St → Except Err St
  | [], st => .ok st
  | f :: r, st =>
    match applyFlat S st f with
    | .error e => .error e
    | .ok st' => applyFlats S r st'

theorem applyFlats_append (S : Schemas) (l l' : List Flat) (st : St) :
    applyFlats S (l ++ l') st =
      match applyFlats S l st with
      | .error e => .error e
      | .ok st' => applyFlats S l' st' := by
  induction l generalizing st with
  | nil => rfl
  | cons f r ih =>
    simp only [List.cons_append, applyFlats]
    cases applyFlat S st f with
    | error e => rfl
    | ok st' => exact ih st'

theorem applyItems_flat (S : Schemas) : ∀ (fuel : Nat) (c : Ctx) (items : List Item) (st st' : St),
    applyItems S fuel c items st = .ok st' → ∃ l, Flattens S .code c items l ∧ applyFlats S l st = .ok st' := by
  intro fuel
  induction fuel with
  | zero => intro c items st st' h; cases h
  | succ fuel ih =>
    intro c items
    induction items with
    | nil => intro st st' h; cases h; exact ⟨[], .nil, rfl⟩
    | cons i r ihr =>
      intro st st' h
      simp only [applyItems, applyList] at h
      cases hi : applyItem S (applyItems S fuel) c st i with
      | error e => rw [hi] at h; cases h
      | ok s =>
        rw [hi] at h
        obtain ⟨l, hl, hs⟩ := ihr s st' h
        cases i with
        | attr d =>
          refine ⟨_, .attr hl, ?_⟩
          simp only [applyItem] at hi
          simp only [applyFlats, applyFlat, hi, hs]
        | any w =>
          refine ⟨_, .any hl, ?_⟩
          simp only [applyItem] at hi
          cases hi
          simp only [applyFlats, applyFlat, hs]
        | group g =>
          cases g with
          | none => cases hi
          | some g =>
            simp only [applyItem] at hi
            cases hg : S.groups g with
            | none => rw [hg] at hi; cases hi
            | some G =>
              rw [hg] at hi
              obtain ⟨l0, h0, h1⟩ := ih c G.items st s hi
              exact ⟨_, .group hg h0 hl, by rw [applyFlats_append, h1]; exact hs⟩

theorem typeAttrs_chain (S : Schemas) (depth : Nat) : ∀ (fuel k : Nat) (st : St),
    typeAttrs S depth fuel k = .ok st → ∃ l, Chain S .code k l ∧ applyFlats S l {} = .ok st := by
  intro fuel
  induction fuel with
  | zero => intro k st h; cases h
  | succ fuel ih =>
    intro k st h
    simp only [typeAttrs] at h
    cases hT : S.types k with
    | none => rw [hT] at h; cases h
    | some T =>
      rw [hT] at h
      cases hb : T.base with
      | none =>
        simp only [hb] at h
        obtain ⟨l, h1, h2⟩ := applyItems_flat S depth _ _ _ _ h
        exact ⟨l, .root hT hb h1, h2⟩
      | some p =>
        obtain ⟨dv, b⟩ := p
        simp only [hb] at h
        cases hr : typeAttrs S depth fuel b with
        | error e => rw [hr] at h; cases h
        | ok s =>
          rw [hr] at h
          obtain ⟨l, h1, h2⟩ := ih b s hr
          obtain ⟨l', h3, h4⟩ := applyItems_flat S depth _ _ _ _ h
          exact ⟨_, .derived hT hb h1 h3, by rw [applyFlats_append, h2]; exact h4⟩

theorem Flattens.unique {S : Schemas} {sc : Scope} {c : Ctx} {is : List Item} {l : List Flat}
    (h : Flattens S sc c is l) : ∀ {l'}, Flattens S sc c is l' → l = l' := by
  induction h with
  | nil => intro l' h'; cases h'; rfl
  | attr _ ih => intro l' h'; cases h' with | attr h' => rw [ih h']
  | any _ ih => intro l' h'; cases h' with | any h' => rw [ih h']
  | group hg _ _ ih1 ih2 =>
    intro l' h'
    cases h' with
    | group hg' h1 h2 =>
      rw [hg] at hg'
      cases hg'
      rw [ih1 h1, ih2 h2]

theorem Chain.unique {S : Schemas} {sc : Scope} {k : Nat} {l : List Flat} (h : Chain S sc k l) :
    ∀ {l'}, Chain S sc k l' → l = l' := by
  induction h with
  | root hT hb hf =>
    intro l' h'
    cases h' with
    | root hT' hb' hf' => rw [hT] at hT'; cases hT'; exact hf.unique hf'
    | derived hT' hb' _ _ => rw [hT] at hT'; cases hT'; rw [hb] at hb'; cases hb'
  | derived hT hb _ hf ih =>
    intro l' h'
    cases h' with
    | root hT' hb' hf' => rw [hT] at hT'; cases hT'; rw [hb] at hb'; cases hb'
    | derived hT' hb' hc' hf' =>
      rw [hT] at hT'; cases hT'
      rw [hb] at hb'; cases hb'
      rw [ih hc', hf.unique hf']

/-! ## What the list of attributes contains -/

/-- The declarations of the flat list, in order. -/
def decls (l : List Flat) : List (Decl × Ctx) :=
  l.filterMap fun | .attr d c => some (d, c) | .any _ => none

/-- The wildcards of the flat list, in order. -/
def wilds (l : List Flat) : List Nat :=
  l.filterMap fun | .attr _ _ => none | .any w => some w

/-- The declarations with this identifier, in order. -/
def declsOf (i : AIdent) (l : List Flat) : List (Decl × Ctx) :=
  (decls l).filter fun p => decide (p.1.ident p.2 = i)

/-- A declaration that XML Schema allows and whose reference is known. -/
def Decl.Good (S : Schemas) (d : Decl) : Prop :=
  d.Proper ∧ ∀ r, d.ref_ = some r → S.globals r ≠ none

theorem Decl.make_good {S : Schemas} {c : Ctx} {d : Decl} (h : d.Good S) :
    d.make S c = .ok ⟨d.ident c, .inl d.atype, .optional, d.form' c, none⟩ := by
  obtain ⟨name, ref_, type_, inl_, u, df, fx, fm⟩ := d
  obtain ⟨h | h, hr⟩ := h
  · obtain ⟨h1, h2⟩ := h
    simp only at h1 h2
    subst h1
    cases name with
    | none => exact absurd rfl h2
    | some n =>
      cases type_ with
      | some t => rfl
      | none => cases inl_ <;> rfl
  · obtain ⟨h1, h2, h3, h4⟩ := h
    simp only at h1 h2 h3 h4
    subst h2 h3 h4
    cases ref_ with
    | none => exact absurd rfl h1
    | some r =>
      have := hr r rfl
      cases hg : S.globals r with
      | none => exact absurd hg this
      | some g => simp [Decl.make, hg, Decl.ident, Decl.atype]

theorem Decl.ident_named (c : Ctx) (d : Decl) : ∃ ns n, d.ident c = .named ns n := by
  obtain ⟨name, ref_, type_, inl_, u, df, fx, fm⟩ := d
  cases name <;> cases ref_ <;> cases type_ <;> exact ⟨_, _, rfl⟩

/-- The entry of the list for this identifier. -/
def look (i : AIdent) (l : List AMeta) : Option AMeta := l.find? fun m => decide (m.ident = i)

theorem look_upsert (m : AMeta) (u : Use) (df : Option Txt) (i : AIdent) (l : List AMeta) :
    look i (upsert m u df l) =
      if m.ident = i then
        some (match look i l with
          | none => { m with use_ := u, default_ := df <|> m.default_ }
          | some x => { x with use_ := u, default_ := df <|> x.default_ })
      else look i l := by
  induction l with
  | nil =>
    by_cases h : m.ident = i
    · simp [upsert, look, h]
    · simp [upsert, look, h]
  | cons x r ih =>
    simp only [upsert]
    by_cases hx : x.ident = m.ident
    · rw [if_pos hx]
      by_cases h : m.ident = i
      · simp [look, hx, h]
      · simp [look, hx, h]
    · rw [if_neg hx]
      by_cases hi : x.ident = i
      · have h : ¬ m.ident = i := fun h => hx (by rw [hi, h])
        simp [look, hi, h]
      · have : ∀ q, look i (x :: q) = look i q := fun q => by simp [look, hi]
        rw [this, this, ih]

theorem idents_upsert (m : AMeta) (u : Use) (df : Option Txt) (l : List AMeta) :
    (upsert m u df l).map (·.ident) =
      if m.ident ∈ l.map (·.ident) then l.map (·.ident) else l.map (·.ident) ++ [m.ident] := by
  induction l with
  | nil => simp [upsert]
  | cons x r ih =>
    simp only [upsert]
    by_cases hx : x.ident = m.ident
    · simp [hx]
    · have hx' : ¬ m.ident = x.ident := fun h => hx h.symm
      rw [if_neg hx]
      simp only [List.map_cons, ih, List.mem_cons, hx', false_or]
      split <;> simp

/-- The wildcards among the attributes. -/
def wildsOf (l : List AMeta) : List Nat :=
  l.filterMap fun m => match m.variant with | .inl _ => none | .inr w => some w

theorem wildsOf_upsert (m : AMeta) (t : AType) (hm : m.variant = .inl t) (u : Use) (df : Option Txt)
    (l : List AMeta) : wildsOf (upsert m u df l) = wildsOf l := by
  induction l with
  | nil => simp [upsert, wildsOf, hm]
  | cons x r ih =>
    simp only [upsert]
    split
    · simp only [wildsOf, List.filterMap_cons]
    · simp only [wildsOf, List.filterMap_cons] at ih ⊢
      rw [ih]

/-- The attribute that a list of declarations of one attribute makes. -/
def summary (i : AIdent) : List (Decl × Ctx) → Option AMeta
  | [] => none
  | p :: r => some
    { ident := i
      variant := .inl p.1.atype
      use_ := (r.getLastD p).1.use_
      form := p.1.form' p.2
      default_ := ((p :: r).filterMap (·.1.default_)).getLast? }

theorem summary_snoc (i : AIdent) (ds : List (Decl × Ctx)) (p : Decl × Ctx) :
    summary i (ds ++ [p]) =
      some (match summary i ds with
        | none => ⟨i, .inl p.1.atype, p.1.use_, p.1.form' p.2, p.1.default_⟩
        | some x => { x with use_ := p.1.use_, default_ := p.1.default_ <|> x.default_ }) := by
  cases ds with
  | nil =>
    simp only [List.nil_append, summary, List.getLastD_nil, List.filterMap_cons, List.filterMap_nil]
    cases p.1.default_ <;> rfl
  | cons q r =>
    simp only [List.cons_append, summary, List.getLastD_concat]
    congr 1
    have : (q :: (r ++ [p])) = (q :: r) ++ [p] := rfl
    rw [this, List.filterMap_append]
    cases hd : p.1.default_ with
    | none => simp [hd]
    | some v => simp [hd]

structure Inv (l : List Flat) (st : St) : Prop where
  look : ∀ ns n, look (.named ns n) st.attrs = summary (.named ns n) (declsOf (.named ns n) l)
  nodup : (st.attrs.map (·.ident)).Nodup
  fresh : ∀ n, AIdent.any n ∈ st.attrs.map (·.ident) → n < st.next
  wilds : wildsOf st.attrs = wilds l
  kinds : ∀ m ∈ st.attrs, (∃ ns n t, m.ident = .named ns n ∧ m.variant = .inl t) ∨
    (∃ n w, m.ident = .any n ∧ m.variant = .inr w ∧ m.use_ = .required)

theorem upsert_kinds {m : AMeta} {u : Use} {df : Option Txt} {ns : Nat} {n : Txt} {t : AType}
    (hm : m.ident = .named ns n) (hv : m.variant = .inl t) (l : List AMeta)
    (h : ∀ x ∈ l, (∃ ns n t, x.ident = .named ns n ∧ x.variant = .inl t) ∨
      (∃ n w, x.ident = .any n ∧ x.variant = .inr w ∧ x.use_ = .required)) :
    ∀ x ∈ upsert m u df l, (∃ ns n t, x.ident = .named ns n ∧ x.variant = .inl t) ∨
      (∃ n w, x.ident = .any n ∧ x.variant = .inr w ∧ x.use_ = .required) := by
  induction l with
  | nil =>
    intro x hx
    simp only [upsert, List.mem_singleton] at hx
    subst hx
    exact .inl ⟨ns, n, t, hm, hv⟩
  | cons y r ih =>
    intro x hx
    simp only [upsert] at hx
    split at hx
    · next hy =>
      rcases List.mem_cons.mp hx with hx | hx
      · subst hx
        rcases h y List.mem_cons_self with ⟨a, b, c, h1, h2⟩ | ⟨a, b, h1, h2, h3⟩
        · exact .inl ⟨a, b, c, h1, h2⟩
        · rw [h1, hm] at hy; cases hy
      · exact h x (List.mem_cons_of_mem _ hx)
    · rcases List.mem_cons.mp hx with hx | hx
      · subst hx; exact h x List.mem_cons_self
      · exact ih (fun x hx => h x (List.mem_cons_of_mem _ hx)) x hx

theorem inv_step {S : Schemas} {l : List Flat} {st st' : St} {f : Flat}
    (hg : ∀ d c, f = .attr d c → d.Good S) (hi : Inv l st) (h : applyFlat S st f = .ok st') :
    Inv (l ++ [f]) st' := by
  cases f with
  | any w =>
    cases h
    have e : decls (l ++ [.any w]) = decls l := by simp [decls]
    refine ⟨?_, ?_, ?_, ?_, ?_⟩
    · intro ns n
      rw [declsOf, e]
      have := hi.look ns n
      rw [declsOf] at this
      rw [← this]
      simp [applyAny, Attrs.look, List.find?_append]
    · simp only [applyAny, List.map_append, List.map_cons, List.map_nil]
      rw [List.nodup_append]
      refine ⟨hi.nodup, by simp, ?_⟩
      intro a ha b hb hab
      simp only [List.mem_singleton] at hb
      subst hb
      subst hab
      exact absurd (hi.fresh _ ha) (Nat.lt_irrefl _)
    · intro n hn
      simp only [applyAny, List.map_append, List.map_cons, List.map_nil, List.mem_append,
        List.mem_singleton] at hn ⊢
      rcases hn with hn | hn
      · have := hi.fresh n hn
        omega
      · cases hn; omega
    · have := hi.wilds
      simp only [applyAny, wildsOf, Attrs.wilds, List.filterMap_append] at this ⊢
      rw [this]
      rfl
    · intro m hm
      rcases List.mem_append.mp hm with hm | hm
      · exact hi.kinds m hm
      · simp only [List.mem_singleton] at hm
        subst hm
        exact .inr ⟨_, _, rfl, rfl, rfl⟩
  | attr d c =>
    have hd := hg d c rfl
    simp only [applyFlat, applyAttr, Decl.make_good hd] at h
    cases h
    obtain ⟨ns0, n0, hid⟩ := Decl.ident_named c d
    refine ⟨?_, ?_, ?_, ?_, ?_⟩
    · intro ns n
      have hl := hi.look ns n
      simp only [look_upsert]
      have e : declsOf (.named ns n) (l ++ [.attr d c]) =
          if d.ident c = .named ns n then declsOf (.named ns n) l ++ [(d, c)]
          else declsOf (.named ns n) l := by
        simp only [declsOf, decls, List.filterMap_append, List.filter_append]
        by_cases h : d.ident c = .named ns n <;> simp [h]
      rw [e]
      by_cases h : d.ident c = .named ns n
      · rw [if_pos h, if_pos h, summary_snoc, ← hl]
        cases Attrs.look (.named ns n) st.attrs with
        | none =>
          simp only [h]
          congr 2
          cases d.default_ <;> rfl
        | some x => rfl
      · rw [if_neg h, if_neg h, hl]
    · simp only [idents_upsert]
      split
      · exact hi.nodup
      · next hn =>
        rw [List.nodup_append]
        refine ⟨hi.nodup, by simp, ?_⟩
        intro a ha b hb hab
        simp only [List.mem_singleton] at hb
        subst hb
        subst hab
        exact hn ha
    · intro n hn
      simp only [idents_upsert] at hn
      refine hi.fresh n ?_
      split at hn
      · exact hn
      · rcases List.mem_append.mp hn with hn | hn
        · exact hn
        · simp only [List.mem_singleton, hid] at hn
          cases hn
    · have := hi.wilds
      show wildsOf (upsert _ _ _ _) = _
      rw [wildsOf_upsert ⟨d.ident c, .inl d.atype, .optional, d.form' c, none⟩ d.atype rfl, this]
      simp [Attrs.wilds]
    · exact upsert_kinds hid rfl _ hi.kinds

theorem inv_flats {S : Schemas} : ∀ (l l0 : List Flat) (st st' : St),
    (∀ p ∈ decls l, p.1.Good S) → Inv l0 st → applyFlats S l st = .ok st' → Inv (l0 ++ l) st' := by
  intro l
  induction l with
  | nil => intro l0 st st' _ hi h; cases h; simpa using hi
  | cons f r ih =>
    intro l0 st st' hg hi h
    simp only [applyFlats] at h
    cases hf : applyFlat S st f with
    | error e => rw [hf] at h; cases h
    | ok s =>
      rw [hf] at h
      have h1 : Inv (l0 ++ [f]) s := inv_step (fun d c e => hg (d, c) (by subst e; simp [decls])) hi hf
      have := ih (l0 ++ [f]) s st' (fun p hp => hg p (by
        unfold decls at hp ⊢
        rw [List.filterMap_cons]
        split
        · exact hp
        · exact List.mem_cons_of_mem _ hp)) h1 h
      simpa using this

theorem inv_nil : Inv [] {} :=
  ⟨fun _ _ => rfl, List.Pairwise.nil, fun _ h => by simp at h, rfl, fun _ h => by simp at h⟩

theorem look_mem {l : List AMeta} (hn : (l.map (·.ident)).Nodup) (i : AIdent) (m : AMeta) :
    look i l = some m ↔ m ∈ l ∧ m.ident = i := by
  induction l with
  | nil => simp [look]
  | cons x r ih =>
    simp only [List.map_cons, List.nodup_cons] at hn
    by_cases h : x.ident = i
    · have : look i (x :: r) = some x := by simp [look, h]
      rw [this]
      constructor
      · intro e; cases e; exact ⟨List.mem_cons_self, h⟩
      · rintro ⟨hm, hi⟩
        rcases List.mem_cons.mp hm with hm | hm
        · rw [hm]
        · exact absurd (List.mem_map.mpr ⟨m, hm, by rw [hi, h]⟩) hn.1
    · have : look i (x :: r) = look i r := by simp [look, h]
      rw [this, ih hn.2]
      constructor
      · rintro ⟨a, b⟩; exact ⟨List.mem_cons_of_mem _ a, b⟩
      · rintro ⟨a, b⟩
        rcases List.mem_cons.mp a with a | a
        · subst a; exact absurd b h
        · exact ⟨a, b⟩

/-- **C63 (exact).** The attributes of a type are determined by the declarations of the base types and
of the type, with the groups replaced by their content (in the namespace of the type), in order. There is one attribute per
identifier that is declared; its type and form are those of the first declaration, its use that of
the last one and its default the last one given. There is one wildcard for each `xs:anyAttribute`. -/
theorem C63_attributes_exact {S : Schemas} {depth fuel k : Nat} {st : St} {l : List Flat}
    (h : typeAttrs S depth fuel k = .ok st) (hc : Chain S .code k l) (hg : ∀ p ∈ decls l, p.1.Good S) :
    (st.attrs.map (·.ident)).Nodup ∧
    (∀ ns n m, (m ∈ st.attrs ∧ m.ident = .named ns n) ↔
      ∃ first rest, declsOf (.named ns n) l = first :: rest ∧
        m = { ident := .named ns n
              variant := .inl first.1.atype
              use_ := (rest.getLastD first).1.use_
              form := first.1.form' first.2
              default_ := ((first :: rest).filterMap (·.1.default_)).getLast? }) ∧
    wildsOf st.attrs = wilds l := by
  obtain ⟨l', hc', hf⟩ := typeAttrs_chain S depth fuel k st h
  obtain rfl := hc.unique hc'
  have hi := inv_flats l [] {} st hg inv_nil hf
  simp only [List.nil_append] at hi
  refine ⟨hi.nodup, ?_, hi.wilds⟩
  intro ns n m
  rw [← look_mem hi.nodup, hi.look ns n]
  cases hd : declsOf (.named ns n) l with
  | nil => simp [summary]
  | cons p r =>
    simp only [summary, Option.some.injEq]
    constructor
    · intro e; exact ⟨p, r, rfl, e.symm⟩
    · rintro ⟨p', r', e, rfl⟩
      cases e
      rfl

/-! ## Every type is processed -/

theorem items_eval {S : Schemas} {c : Ctx} {is : List Item} {l : List Flat} (h : Flattens S .code c is l) :
    ∃ n, ∀ fuel, n ≤ fuel → ∀ st, applyItems S fuel c is st = applyFlats S l st := by
  induction h with
  | nil =>
    refine ⟨1, fun fuel hf st => ?_⟩
    obtain ⟨f, rfl⟩ : ∃ f, fuel = f + 1 := ⟨fuel - 1, by omega⟩
    rfl
  | @attr c d r l _ ih =>
    obtain ⟨n, ih⟩ := ih
    refine ⟨n + 1, fun fuel hf st => ?_⟩
    obtain ⟨f, rfl⟩ : ∃ f, fuel = f + 1 := ⟨fuel - 1, by omega⟩
    simp only [applyItems, applyList, applyItem, applyFlats, applyFlat]
    cases applyAttr S c st d with
    | error e => rfl
    | ok s => exact ih (f + 1) (by omega) s
  | @any c w r l _ ih =>
    obtain ⟨n, ih⟩ := ih
    refine ⟨n + 1, fun fuel hf st => ?_⟩
    obtain ⟨f, rfl⟩ : ∃ f, fuel = f + 1 := ⟨fuel - 1, by omega⟩
    simp only [applyItems, applyList, applyItem, applyFlats, applyFlat]
    exact ih (f + 1) (by omega) _
  | @group c g r G l l' hg _ _ ih1 ih2 =>
    obtain ⟨n, ih1⟩ := ih1
    obtain ⟨n', ih2⟩ := ih2
    refine ⟨n + n' + 1, fun fuel hf st => ?_⟩
    obtain ⟨f, rfl⟩ : ∃ f, fuel = f + 1 := ⟨fuel - 1, by omega⟩
    rw [applyFlats_append]
    simp only [applyItems, applyList, applyItem, hg]
    rw [show applyItems S f c G.items st = applyFlats S l st from ih1 f (by omega) st]
    cases applyFlats S l st with
    | error e => rfl
    | ok s => exact ih2 (f + 1) (by omega) s

theorem chain_eval {S : Schemas} {k : Nat} {l : List Flat} (h : Chain S .code k l) :
    ∃ n, ∀ depth fuel, n ≤ depth → n ≤ fuel → typeAttrs S depth fuel k = applyFlats S l {} := by
  induction h with
  | root hT hb hf =>
    obtain ⟨n, hn⟩ := items_eval hf
    refine ⟨n + 1, fun depth fuel hd hf => ?_⟩
    obtain ⟨f, rfl⟩ : ∃ f, fuel = f + 1 := ⟨fuel - 1, by omega⟩
    simp only [typeAttrs, hT, hb]
    exact hn depth (by omega) {}
  | derived hT hb _ hf ih =>
    obtain ⟨n, hn⟩ := items_eval hf
    obtain ⟨n', ih⟩ := ih
    refine ⟨n + n' + 1, fun depth fuel hd hf => ?_⟩
    obtain ⟨f, rfl⟩ : ∃ f, fuel = f + 1 := ⟨fuel - 1, by omega⟩
    simp only [typeAttrs, hT, hb]
    rw [ih depth f (by omega) (by omega), applyFlats_append]
    cases applyFlats S _ {} with
    | error e => rfl
    | ok s => exact hn depth (by omega) s

theorem applyFlats_good {S : Schemas} : ∀ (l : List Flat) (st : St), (∀ p ∈ decls l, p.1.Good S) →
    ∃ st', applyFlats S l st = .ok st' := by
  intro l
  induction l with
  | nil => intro st _; exact ⟨st, rfl⟩
  | cons f r ih =>
    intro st hg
    cases f with
    | any w => exact ih _ (fun p hp => hg p (by simpa [decls] using hp))
    | attr d c =>
      have hd : d.Good S := hg (d, c) (by simp [decls])
      simp only [applyFlats, applyFlat, applyAttr, Decl.make_good hd]
      exact ih _ (fun p hp => hg p (by
        unfold decls at hp ⊢
        rw [List.filterMap_cons]
        exact List.mem_cons_of_mem _ hp))

/-- **C63 (processed).** A type whose groups and base types are finitely nested and whose declarations
XML Schema allows is processed. -/
theorem C63_types_processed {S : Schemas} {k : Nat} {l : List Flat} (hc : Chain S .code k l)
    (hg : ∀ p ∈ decls l, p.1.Good S) :
    ∃ n, ∀ depth fuel, n ≤ depth → n ≤ fuel → ∃ st, typeAttrs S depth fuel k = .ok st := by
  obtain ⟨n, hn⟩ := chain_eval hc
  obtain ⟨st, hst⟩ := applyFlats_good l {} hg
  exact ⟨n, fun depth fuel hd hf => ⟨st, by rw [hn depth fuel hd hf, hst]⟩⟩

/-- **C63 (cycles).** A group that contains itself is not processed with any limit. The code does not
return for it. -/
theorem C63_cyclic_group_overflow (S : Schemas) (g : Nat) (c : Ctx) (r : List Item)
    (hg : S.groups g = some ⟨c, .group (some g) :: r⟩) :
    ∀ fuel st, applyItems S fuel c (.group (some g) :: r) st = .error .overflow := by
  intro fuel
  induction fuel with
  | zero => intro st; rfl
  | succ f ih =>
    intro st
    simp only [applyItems, applyList, applyItem, hg]
    rw [ih st]

/-! ## The attribute uses of XML Schema -/

/-- The last declaration of this expanded name. -/
def lastOf (x : Nat × Txt) (l : List Flat) : Option (Decl × Ctx) :=
  ((decls l).filter fun p => decide (p.1.xname p.2 = x)).getLast?

/-- What `C63_attribute_uses_partial` asks of the declarations of a type and of its base types. -/
structure Regular (S : Schemas) (l : List Flat) : Prop where
  good : ∀ p ∈ decls l, p.1.Good S
  /-- No fixed values, and no default that only the global attribute has. -/
  constraints : ∀ p ∈ decls l, p.1.constraint S = (p.1.default_, none)
  /-- References are qualified. -/
  refs : ∀ p ∈ decls l, p.1.ref_ ≠ none → p.1.form' p.2 = .qualified
  /-- Attributes with the same name are in the same namespace. -/
  names : ∀ p ∈ decls l, ∀ q ∈ decls l, p.1.ident p.2 = q.1.ident q.2 ↔ p.1.xname p.2 = q.1.xname q.2
  /-- Declaring an attribute again does not change its type. -/
  types : ∀ p ∈ decls l, ∀ q ∈ decls l, p.1.xname p.2 = q.1.xname q.2 → p.1.atype = q.1.atype
  /-- Declaring an attribute again does not drop its default. -/
  defaults : (decls l).Pairwise fun p q =>
    p.1.xname p.2 = q.1.xname q.2 → p.1.default_ ≠ none → q.1.default_ ≠ none

/-- No type declares an attribute twice, and extensions prohibit nothing. -/
inductive Levels (S : Schemas) : Nat → Prop
  | root {k T l} : S.types k = some T → T.base = none → Flattens S .xmlSchema T.ctx T.items l →
      ((decls l).map fun p => p.1.xname p.2).Nodup → Levels S k
  | derived {k T dv b l} : S.types k = some T → T.base = some (dv, b) → Levels S b →
      Flattens S .xmlSchema T.ctx T.items l → ((decls l).map fun p => p.1.xname p.2).Nodup →
      (dv = .extension → ∀ p ∈ decls l, p.1.use_ ≠ .prohibited) → Levels S k

theorem mem_decls {l : List Flat} {d : Decl} {c : Ctx} : (d, c) ∈ decls l ↔ .attr d c ∈ l := by
  simp only [decls, List.mem_filterMap]
  constructor
  · rintro ⟨a, ha, h⟩
    cases a with
    | attr d' c' => simp at h; obtain ⟨rfl, rfl⟩ := h; exact ha
    | any w => cases h
  · intro h; exact ⟨_, h, rfl⟩

theorem lastOf_append (x : Nat × Txt) (l l' : List Flat) :
    lastOf x (l ++ l') = (lastOf x l' <|> lastOf x l) := by
  simp only [lastOf, decls, List.filterMap_append, List.filter_append, List.getLast?_append]
  cases List.getLast? _ <;> rfl

theorem lastOf_mem {x : Nat × Txt} {l : List Flat} {p : Decl × Ctx} (h : lastOf x l = some p) :
    p ∈ decls l ∧ p.1.xname p.2 = x := by
  have := List.mem_of_getLast? h
  simpa using this

theorem lastOf_none {x : Nat × Txt} {l : List Flat} :
    lastOf x l = none ↔ ∀ p ∈ decls l, p.1.xname p.2 ≠ x := by
  simp [lastOf]

theorem lastOf_nodup {l : List Flat} (hn : ((decls l).map fun p => p.1.xname p.2).Nodup)
    {p : Decl × Ctx} (hp : p ∈ decls l) : lastOf (p.1.xname p.2) l = some p := by
  cases hl : lastOf (p.1.xname p.2) l with
  | none => exact absurd rfl (lastOf_none.mp hl p hp)
  | some q =>
    obtain ⟨hq, he⟩ := lastOf_mem hl
    revert hp hq
    clear hl
    generalize decls l = L at hn
    intro hp hq
    induction L with
    | nil => cases hp
    | cons a r ih =>
      simp only [List.map_cons, List.nodup_cons] at hn
      rcases List.mem_cons.mp hp with hp1 | hp1 <;> rcases List.mem_cons.mp hq with hq1 | hq1
      · rw [hp1, hq1]
      · exact absurd (List.mem_map.mpr ⟨q, hq1, by rw [he, hp1]⟩) hn.1
      · exact absurd (List.mem_map.mpr ⟨p, hp1, by rw [← he, hq1]⟩) hn.1
      · exact ih hn.2 hp1 hq1

/-- The attribute uses are those of the last declarations. -/
theorem hasUse_last {S : Schemas} {k : Nat} (hl : Levels S k) : ∀ {l}, Chain S .xmlSchema k l → ∀ u,
    HasUse S k u ↔ ∃ p, lastOf u.name l = some p ∧ p.1.use_ ≠ .prohibited ∧ u = p.1.toUse S p.2 := by
  induction hl with
  | @root k T l0 hT hb hf hn =>
    intro l hc u
    obtain rfl : l0 = l := (Chain.root hT hb hf).unique hc
    constructor
    · intro h
      cases h with
      | @own _ d c ho hu =>
        obtain ⟨T', l', hT', hf', hm⟩ := ho
        rw [hT] at hT'; cases hT'
        obtain rfl := hf.unique hf'
        exact ⟨(d, c), lastOf_nodup hn (mem_decls.mpr hm), hu, rfl⟩
      | extended hT' hb' _ _ => rw [hT] at hT'; cases hT'; rw [hb] at hb'; cases hb'
      | restricted hT' hb' _ _ => rw [hT] at hT'; cases hT'; rw [hb] at hb'; cases hb'
    · rintro ⟨⟨d, c⟩, h1, h2, rfl⟩
      exact .own ⟨T, l0, hT, hf, mem_decls.mp (lastOf_mem h1).1⟩ h2
  | @derived k T dv b l0 hT hb _ hf hn hx ih =>
    intro l hc u
    cases hc with
    | root hT' hb' _ => rw [hT] at hT'; cases hT'; rw [hb] at hb'; cases hb'
    | @derived _ T' dv' b' l1 l2 hT' hb' hcb hf' =>
      rw [hT] at hT'; cases hT'
      rw [hb] at hb'; cases hb'
      obtain rfl := hf.unique hf'
      have own_iff : ∀ d c, Own S k d c ↔ (d, c) ∈ decls l0 := by
        intro d c
        rw [mem_decls]
        constructor
        · rintro ⟨T', l', hT', hf', hm⟩
          rw [hT] at hT'; cases hT'
          obtain rfl := hf.unique hf'
          exact hm
        · intro h; exact ⟨T, l0, hT, hf, h⟩
      rw [lastOf_append]
      constructor
      · intro h
        cases h with
        | @own _ d c ho hu =>
          have hm := (own_iff d c).mp ho
          have : lastOf (Decl.toUse S c d).name l0 = some (d, c) := lastOf_nodup hn hm
          exact ⟨(d, c), by rw [this]; rfl, hu, rfl⟩
        | extended hT' hb' hu hno =>
          rw [hT] at hT'; cases hT'
          rw [hb] at hb'; cases hb'
          obtain ⟨p, h1, h2, h3⟩ := (ih hcb u).mp hu
          have : lastOf u.name l0 = none := lastOf_none.mpr fun q hq =>
            hno q.1 q.2 ((own_iff _ _).mpr hq) (hx rfl q hq)
          exact ⟨p, by rw [this]; exact h1, h2, h3⟩
        | restricted hT' hb' hu hno =>
          rw [hT] at hT'; cases hT'
          rw [hb] at hb'; cases hb'
          obtain ⟨p, h1, h2, h3⟩ := (ih hcb u).mp hu
          have : lastOf u.name l0 = none := lastOf_none.mpr fun q hq =>
            hno q.1 q.2 ((own_iff _ _).mpr hq)
          exact ⟨p, by rw [this]; exact h1, h2, h3⟩
      · rintro ⟨p, h1, h2, h3⟩
        cases h0 : lastOf u.name l0 with
        | some q =>
          rw [h0] at h1
          cases h1
          rw [h3]
          exact .own ((own_iff _ _).mpr (lastOf_mem h0).1) h2
        | none =>
          rw [h0] at h1
          have hb1 : HasUse S b u := (ih hcb u).mpr ⟨p, h1, h2, h3⟩
          have hno := lastOf_none.mp h0
          cases dv with
          | extension => exact .extended hT hb hb1 fun d c ho _ => hno (d, c) ((own_iff d c).mp ho)
          | restriction => exact .restricted hT hb hb1 fun d c ho => hno (d, c) ((own_iff d c).mp ho)

/-- The declarations have the same names in both contexts: those of the types and those of the groups. -/
def SameNames (l lx : List Flat) : Prop :=
  (decls l).map (fun p => (p.1, p.1.xname p.2)) = (decls lx).map (fun p => (p.1, p.1.xname p.2))

theorem filter_getLast_map {α β : Type} (f : α → β) (q : β → Bool) (l : List α) :
    ((l.filter fun a => q (f a)).getLast?).map f = ((l.map f).filter q).getLast? := by
  rw [← List.getLast?_map]
  congr 1
  induction l with
  | nil => rfl
  | cons a r ih =>
    simp only [List.filter_cons, List.map_cons]
    split <;> simp [ih]

theorem sameNames_last {S : Schemas} {l lx : List Flat} (h : SameNames l lx) {u : AUse} :
    (∃ p, lastOf u.name lx = some p ∧ p.1.use_ ≠ .prohibited ∧ u = p.1.toUse S p.2) ↔
      ∃ p, lastOf u.name l = some p ∧ p.1.use_ ≠ .prohibited ∧ u = p.1.toUse S p.2 := by
  have key : ∀ l, (lastOf u.name l).map (fun p => (p.1, p.1.xname p.2)) =
      (((decls l).map (fun p => (p.1, p.1.xname p.2))).filter (fun x => decide (x.2 = u.name))).getLast? := by
    intro l
    exact filter_getLast_map (fun p : Decl × Ctx => (p.1, p.1.xname p.2)) (fun x => decide (x.2 = u.name)) (decls l)
  have e : (lastOf u.name l).map (fun p => (p.1, p.1.xname p.2)) =
      (lastOf u.name lx).map (fun p => (p.1, p.1.xname p.2)) := by rw [key, key, h]
  have tu : ∀ (p q : Decl × Ctx), (p.1, p.1.xname p.2) = (q.1, q.1.xname q.2) → p.1.toUse S p.2 = q.1.toUse S q.2 := by
    rintro ⟨d, c⟩ ⟨d', c'⟩ h
    simp only [Prod.mk.injEq] at h
    obtain ⟨rfl, h⟩ := h
    simp only [Decl.toUse, h]
  constructor
  · rintro ⟨p, h1, h2, h3⟩
    rw [h1] at e
    obtain ⟨q, hq, hqp⟩ := Option.map_eq_some_iff.mp e
    exact ⟨q, hq, by rw [(Prod.mk.inj hqp).1]; exact h2, by rw [tu q p hqp]; exact h3⟩
  · rintro ⟨p, h1, h2, h3⟩
    rw [h1] at e
    obtain ⟨q, hq, hqp⟩ := Option.map_eq_some_iff.mp e.symm
    exact ⟨q, hq, by rw [(Prod.mk.inj hqp).1]; exact h2, by rw [tu q p hqp]; exact h3⟩

theorem last_default : ∀ (ds : List (Decl × Ctx)) (p : Decl × Ctx),
    (∀ q ∈ ds, q.1.default_ ≠ none → p.1.default_ ≠ none) →
    ((ds ++ [p]).filterMap (·.1.default_)).getLast? = p.1.default_ := by
  intro ds p h
  rw [List.filterMap_append]
  cases hp : p.1.default_ with
  | some v => simp [hp]
  | none =>
    have : ds.filterMap (·.1.default_) = [] := by
      rw [List.filterMap_eq_nil_iff]
      intro q hq
      cases hv : q.1.default_ with
      | none => rfl
      | some v => exact absurd hp (h q hq (by rw [hv]; exact Option.some_ne_none v))
    simp [this, hp]

/-- The expanded name from the identifier and the form. -/
theorem Decl.xname_ident {S : Schemas} {c : Ctx} {d : Decl} (hg : d.Good S)
    (hr : d.ref_ ≠ none → d.form' c = .qualified) {ns : Nat} {n : Txt} (hi : d.ident c = .named ns n) :
    d.xname c = (if d.form' c = .qualified then ns else 0, n) := by
  have hp := hg.1
  unfold Decl.Proper at hp
  obtain ⟨name, ref_, type_, inl_, u, df, fx, fm⟩ := d
  simp only at hp hr
  rcases hp with ⟨rfl, h2⟩ | ⟨h1, rfl, rfl, rfl⟩
  · cases name with
    | none => exact absurd rfl h2
    | some a =>
      cases type_ <;> (simp only [Decl.ident, AIdent.named.injEq] at hi; obtain ⟨rfl, rfl⟩ := hi; rfl)
  · cases ref_ with
    | none => exact absurd rfl h1
    | some r =>
      simp only [Decl.ident, AIdent.named.injEq] at hi
      obtain ⟨rfl, rfl⟩ := hi
      rw [hr h1]
      rfl

/-- **C63 (partial).** The fields for attributes of a generated type are the attribute uses that XML Schema
gives the type, if the declarations are regular: each use of the schema has a field and each field is
a use, with the name it has in documents, required or not, its type and its default. The attributes of a
group must have the same names in the schema of the type as in that of the group. -/
theorem C63_attribute_uses_partial {S : Schemas} {depth fuel k : Nat} {st : St} {l : List Flat}
    {lx : List Flat} (h : typeAttrs S depth fuel k = .ok st) (hc : Chain S .code k l) (hcx : Chain S .xmlSchema k lx)
    (hx : SameNames l lx) (hr : Regular S l) (hl : Levels S k) (u : AUse) :
    HasUse S k u ↔ ∃ m ∈ fields st, m.toUse = some u := by
  rw [hasUse_last hl hcx, sameNames_last hx]
  obtain ⟨hnd, hex, hw⟩ := C63_attributes_exact h hc hr.good
  -- an entry stands for the last declaration
  have key : ∀ m ∈ st.attrs, ∀ ns n, m.ident = .named ns n → ∃ p ∈ decls l, p.1.ident p.2 = .named ns n ∧
      lastOf (p.1.xname p.2) l = some p ∧ m.use_ = p.1.use_ ∧
      m.toUse = some (p.1.toUse S p.2) := by
    intro m hm ns n hi
    obtain ⟨first, rest, hd, hmv⟩ := (hex ns n m).mp ⟨hm, hi⟩
    have hmem : ∀ q ∈ first :: rest, q ∈ decls l ∧ q.1.ident q.2 = .named ns n := by
      intro q hq
      rw [← hd, declsOf, List.mem_filter] at hq
      simpa using hq
    obtain ⟨ds, p, hsplit, hlast⟩ : ∃ ds p, first :: rest = ds ++ [p] ∧ rest.getLastD first = p := by
      refine ⟨(first :: rest).dropLast, (first :: rest).getLast (by simp), ?_, ?_⟩
      · rw [List.dropLast_concat_getLast]
      · rw [List.getLast_eq_getLastD]
    have hpm : p ∈ first :: rest := by rw [hsplit]; simp
    obtain ⟨hp1, hp2⟩ := hmem p hpm
    obtain ⟨hf1, hf2⟩ := hmem first List.mem_cons_self
    have hx : first.1.xname first.2 = p.1.xname p.2 := (hr.names _ hf1 _ hp1).mp (by rw [hf2, hp2])
    refine ⟨p, hp1, hp2, ?_, by rw [hmv]; simp only [hlast], ?_⟩
    · have : (decls l).filter (fun q => decide (q.1.xname q.2 = p.1.xname p.2)) = first :: rest := by
        rw [← hd, declsOf]
        refine List.filter_congr fun q hq => ?_
        have := hr.names q hq p hp1
        rw [hp2] at this
        simp only [this]
      rw [lastOf, this, hsplit]
      simp
    · have hdef : ((first :: rest).filterMap (·.1.default_)).getLast? = p.1.default_ := by
        rw [hsplit]
        refine last_default ds p fun q hq hne => ?_
        have hpw := hr.defaults.filter (fun p => decide (p.1.ident p.2 = AIdent.named ns n))
        rw [show (decls l).filter (fun p => decide (p.1.ident p.2 = AIdent.named ns n)) = first :: rest from hd,
          hsplit, List.pairwise_append] at hpw
        have hq' := hmem q (by rw [hsplit]; exact List.mem_append_left _ hq)
        exact hpw.2.2 q hq p (by simp) ((hr.names _ hq'.1 _ hp1).mp (by rw [hq'.2, hp2])) hne
      have hxi := Decl.xname_ident (hr.good _ hf1) (hr.refs _ hf1) hf2
      rw [hmv]
      simp only [AMeta.toUse, Decl.toUse, hlast, hdef, hr.constraints p hp1, ← hxi, hx,
        hr.types _ hf1 _ hp1 hx]
  constructor
  · rintro ⟨p, h1, h2, h3⟩
    obtain ⟨hp, hpx⟩ := lastOf_mem h1
    obtain ⟨ns, n, hi⟩ := Decl.ident_named p.2 p.1
    have hne : declsOf (.named ns n) l ≠ [] := by
      intro e
      have : p ∈ declsOf (.named ns n) l := by
        rw [declsOf, List.mem_filter]
        exact ⟨hp, by simp [hi]⟩
      rw [e] at this
      cases this
    cases hd : declsOf (.named ns n) l with
    | nil => exact absurd hd hne
    | cons first rest =>
      have hm := (hex ns n _).mpr ⟨first, rest, hd, rfl⟩
      obtain ⟨q, hq, hqi, hql, hqu, hqt⟩ := key _ hm.1 ns n hm.2
      have hxq : q.1.xname q.2 = u.name := by
        rw [← hpx]
        exact (hr.names _ hq _ hp).mp (by rw [hqi, hi])
      rw [hxq, h1] at hql
      cases hql
      refine ⟨_, ?_, by rw [hqt, h3]⟩
      rw [fields, List.mem_filter]
      refine ⟨hm.1, ?_⟩
      rw [hqu]
      simpa using h2
  · rintro ⟨m, hm, hu⟩
    rw [fields, List.mem_filter] at hm
    obtain ⟨hm, hnp⟩ := hm
    cases hi : m.ident with
    | any n => simp [AMeta.toUse, hi] at hu
    | named ns n =>
      obtain ⟨q, hq, hqi, hql, hqu, hqt⟩ := key m hm ns n hi
      rw [hqt] at hu
      cases hu
      exact ⟨q, hql, by rw [← hqu]; simpa using hnp, rfl⟩

end Verif.Attrs

import Verif.Gen.Tables

/-!
# The modes of `NamespaceSerialization` (C13, C62)

`render_serializer_bytes_ctor`, renderer/steps/quick_xml/serialize.rs:721-902 (cited below as
ser.rs): which namespaces a generated serializer declares on its tag, for the modes `None`,
`Local`, `Global` and `Dynamic`; and `CollectNamespaces`, collect_namespaces.rs (cited as
collect.rs), which `Dynamic` uses to find the namespaces of a value. The tables of types are
those of `Verif.Gen.Tables`, with the names as the generator knows them.
-/

namespace Verif.Gen.Tab

open Verif.Rt Verif.Occurs

variable {X : Type}

/-! ## Model -/

/-- `TagName`, models/data/tag_name.rs, with prefix and namespace of its module (`none` as well if
there is no module; prefixes are not empty). -/
structure NameSpec where
  local_ : Str
  qualified : Bool
  pfx : Option Str
  ns : Option Str
deriving DecidableEq, Repr

/-- Is the namespace the default namespace of the serializer configuration? -/
def NameSpec.isDefault (dflt : Option Str) (n : NameSpec) : Bool :=
  match n.ns, dflt with
  | some a, some b => a == b
  | _, _ => false

/-- `get_for_default_namespace`, tag_name.rs:62-71: the names of elements. -/
def NameSpec.element (dflt : Option Str) (n : NameSpec) : QN :=
  ⟨if n.qualified && !n.isDefault dflt then n.pfx.getD [] else [], n.local_, n.ns⟩

/-- `get(true)`, tag_name.rs:45-59: the names of attributes. -/
def NameSpec.attribute (n : NameSpec) : QN := ⟨if n.qualified then n.pfx.getD [] else [], n.local_, n.ns⟩

structure AttrDecl (X : Type) where
  name : NameSpec
  required : Bool
  default : Option X
  ty : Nat

structure ElemDecl where
  name : NameSpec
  min : Nat
  max : MaxOccurs
  ty : TyRef

inductive BodyDecl where
  | seq (fs : List ElemDecl)
  | all (fs : List ElemDecl)
  | choice (alts : List ElemDecl) (min : Nat) (max : MaxOccurs)
  | enum (alts : List ElemDecl)
  | text (ty : Nat)

def BodyDecl.elements : BodyDecl → List ElemDecl
  | .seq fs => fs
  | .all fs => fs
  | .choice alts _ _ => alts
  | .enum alts => alts
  | .text _ => []

/-- A type: `tag` is made of the namespace of the type and its form, generator/data/complex.rs:525. -/
structure TypeDecl (X : Type) where
  tag : NameSpec
  attrs : List (AttrDecl X)
  body : BodyDecl

structure Decls (X : Type) where
  types : List (TypeDecl X)
  print : Nat → X → Option Str
  parse : Nat → Str → Except GErr X
  num : Str → Option Str

/-- The elements of a field: the element itself, or the alternatives of a nested choice. -/
def ElemDecl.expand (d : Decls X) (e : ElemDecl) : List ElemDecl :=
  match e.ty with
  | .variant k => ((d.types[k]?).map (·.body.elements)).getD []
  | _ => [e]

/-- The elements that can occur in the content of a type. -/
def Decls.elements (d : Decls X) (T : TypeDecl X) : List ElemDecl :=
  T.body.elements.flatMap (·.expand d)

/-- `NamespaceSerialization`, ser.rs:40-72. The namespaces that `Global` finds for the types are a
parameter; see `Verif.Generate.Namespaces`. -/
inductive Mode where
  | none
  | local_
  | global (found : Nat → List (Str × Str))
  | dynamic

/-- The prefix in the name of a tag (`split_once(':')`, types serialize.rs:865-874). -/
def tagPrefix (name : Str) : Str := (splitName name).1.getD []

/-- `render_xmlns`, ser.rs:1517-1527. -/
def NameSpec.xmlns (n : NameSpec) (name : Str) : List (Str × Str) :=
  match n with
  | ⟨_, true, none, some ns⟩ => [(tagPrefix name, ns)]
  | _ => []

/-- `render_root_xmlns`, ser.rs:1536-1546. -/
def NameSpec.rootXmlns (n : NameSpec) (name : Str) : List (Str × Str) :=
  match n with
  | ⟨_, false, _, some ns⟩ => [(tagPrefix name, ns)]
  | _ => []

/-- `TagName::render_collect_namespace`, collect.rs:325-343. -/
def NameSpec.collected (n : NameSpec) : List (Str × Str) :=
  match n with
  | ⟨_, true, some p, some ns⟩ => [(p, ns)]
  | _ => []

/-- The namespaces of the attributes in the mode `Local`, ser.rs:787-810. `cache` are the modules
that are done; a module is identified by its namespace. -/
def localAttrs : List (Option Str) → List NameSpec → List (Str × Str)
  | _, [] => []
  | cache, a :: r =>
    if a.qualified && !cache.contains a.ns then
      match a.ns with
      | some ns => (a.pfx.getD [], ns) :: localAttrs (a.ns :: cache) r
      | none => localAttrs (a.ns :: cache) r
    else localAttrs cache r

/-- The namespace of the tag in the mode `Local`, ser.rs:764-785. -/
def localTag (dflt : Option Str) (n : NameSpec) (name : Str) : List (Str × Str) :=
  if !n.isDefault dflt || n.qualified then
    match n.ns with
    | some ns => [(tagPrefix name, ns)]
    | none => []
  else []

/-- The modules that are done after the tag. -/
def localCache (dflt : Option Str) (n : NameSpec) : List (Option Str) :=
  if !n.isDefault dflt || n.qualified then [n.ns] else []

def TypeDecl.localXmlns (T : TypeDecl X) (dflt : Option Str) (name : Str) : List (Str × Str) :=
  localTag dflt T.tag name ++ localAttrs (localCache dflt T.tag) (T.attrs.map (·.name))

/-- The types of the fields of a struct. -/
def BodyDecl.fieldTys (k : Nat) : BodyDecl → List TyRef
  | .seq fs => fs.map (·.ty)
  | .all fs => fs.map (·.ty)
  | .choice _ _ _ => [.variant k]
  | .enum _ => []
  | .text j => [.simple j]

/-- The tag and the attributes of a type, collect.rs:247-275. -/
def TypeDecl.collected (T : TypeDecl X) : List (Str × Str) :=
  T.tag.collected ++ T.attrs.flatMap (·.name.collected)

def Decls.collected (d : Decls X) (k : Nat) : List (Str × Str) :=
  ((d.types[k]?).map (·.collected)).getD []

def Decls.fieldTys (d : Decls X) (k : Nat) : List TyRef := ((d.types[k]?).map (·.body.fieldTys k)).getD []

def Decls.altTy (d : Decls X) (k i : Nat) : Option TyRef :=
  (d.types[k]?).bind fun T => (T.body.elements[i]?).map (·.ty)

/-- The types of the fields of a nested sequence. -/
def BodyDecl.groupTys : BodyDecl → List TyRef
  | .seq fs => fs.map (·.ty)
  | _ => []

def Decls.groupTys (d : Decls X) (k : Nat) : List TyRef := ((d.types[k]?).map (·.body.groupTys)).getD []

mutual
/-- `CollectNamespaces::collect_namespaces`, collect.rs:131-322: structs and enums write the
namespaces of their tag and attributes and go on with the fields or the variant; the content of a
choice and a nested sequence have no tag; simple types do nothing. -/
def collect (d : Decls X) : TyRef → Val X → List (Str × Str)
  | .struct k, .struct _ fs => d.collected k ++ collectFields d (d.fieldTys k) fs
  | .struct k, .alt i vs => d.collected k ++ collectItems d (d.altTy k i) vs
  | .struct k, .simple _ => d.collected k
  | .variant k, .alt i vs => collectItems d (d.altTy k i) vs
  | .variant k, .struct _ fs => collectFields d (d.groupTys k) fs
  | _, _ => []
def collectFields (d : Decls X) : List TyRef → List (List (Val X)) → List (Str × Str)
  | ty :: tys, vs :: r => collectItems d (some ty) vs ++ collectFields d tys r
  | _, _ => []
def collectItems (d : Decls X) : Option TyRef → List (Val X) → List (Str × Str)
  | some ty, v :: r => collect d ty v ++ collectItems d (some ty) r
  | _, _ => []
end

/-- The namespaces that the serializer of the `k`-th type declares, ser.rs:749-880; `none` if there
is no code for it. -/
def Decls.xmlns (d : Decls X) (m : Mode) (dflt : Option Str) (k : Nat) (T : TypeDecl X) :
    Option (Val X → Str → Bool → List (Str × Str)) :=
  match m with
  | .none => none
  | .local_ => if T.localXmlns dflt [] = [] then none else some fun _ name _ => T.localXmlns dflt name
  | .global found =>
    if T.tag.xmlns [] = [] ∧ T.tag.rootXmlns [] = [] ∧ found k = [] then none
    else some fun _ name root =>
      T.tag.xmlns name ++ if root then T.tag.rootXmlns name ++ found k else []
  | .dynamic => some fun w name root =>
      T.tag.xmlns name ++ if root then T.tag.rootXmlns name ++ collect d (.struct k) w else []

def AttrDecl.spec (a : AttrDecl X) : AttrSpec X := ⟨a.name.attribute, a.required, a.default, a.ty⟩

def ElemDecl.spec (dflt : Option Str) (e : ElemDecl) : FieldSpec := ⟨e.name.element dflt, e.min, e.max, e.ty⟩

def BodyDecl.spec (dflt : Option Str) : BodyDecl → Body
  | .seq fs => .seq (fs.map (·.spec dflt))
  | .all fs => .all (fs.map (·.spec dflt))
  | .choice alts mn mx => .choice (alts.map (·.spec dflt)) mn mx
  | .enum alts => .enum (alts.map (·.spec dflt))
  | .text j => .text j

def Decls.spec (d : Decls X) (m : Mode) (dflt : Option Str) (k : Nat) (T : TypeDecl X) : StructSpec X where
  attrs := T.attrs.map (·.spec)
  body := T.body.spec dflt
  xmlns := d.xmlns m dflt k T

/-- The generated types. -/
def Decls.schema (d : Decls X) (m : Mode) (dflt : Option Str) : Schema X where
  structs := d.types.zipIdx.map fun p => d.spec m dflt p.2 p.1
  print := d.print
  parse := d.parse
  num := d.num

/-! ## Basic facts -/

theorem schema_get (d : Decls X) (m : Mode) (dflt : Option Str) (k : Nat) :
    (d.schema m dflt).structs[k]? = (d.types[k]?).map (d.spec m dflt k) := by
  simp only [Decls.schema, List.getElem?_map, List.getElem?_zipIdx]
  cases d.types[k]? <;> simp

theorem schema_get_some {d : Decls X} {m : Mode} {dflt : Option Str} {k : Nat} {D : StructSpec X}
    (h : (d.schema m dflt).structs[k]? = some D) :
    ∃ T, d.types[k]? = some T ∧ D = d.spec m dflt k T := by
  rw [schema_get] at h
  cases hT : d.types[k]? with
  | none => rw [hT] at h; cases h
  | some T => rw [hT] at h; simp only [Option.map_some, Option.some.injEq] at h; exact ⟨T, rfl, h.symm⟩

theorem elements_spec (dflt : Option Str) (b : BodyDecl) :
    (b.spec dflt).elements = b.elements.map (·.spec dflt) := by
  cases b <;> rfl

theorem mem_schema {d : Decls X} {m : Mode} {dflt : Option Str} {D : StructSpec X}
    (h : D ∈ (d.schema m dflt).structs) : ∃ k T, d.types[k]? = some T ∧ D = d.spec m dflt k T := by
  obtain ⟨k, hk⟩ := List.getElem?_of_mem h
  obtain ⟨T, h1, h2⟩ := schema_get_some hk
  exact ⟨k, T, h1, h2⟩

/-- Without code nothing is declared, and with code what the code says. -/
theorem declares_local (d : Decls X) (dflt : Option Str) (k : Nat) (T : TypeDecl X) (w : Val X)
    (name : Str) (root : Bool) :
    (d.spec .local_ dflt k T).declares w name root = T.localXmlns dflt name := by
  have h0 : ∀ name, T.localXmlns dflt [] = [] → T.localXmlns dflt name = [] := by
    intro name h
    unfold TypeDecl.localXmlns at h ⊢
    rw [List.append_eq_nil_iff] at h ⊢
    refine ⟨?_, h.2⟩
    have := h.1
    unfold localTag at this ⊢
    split
    · rename_i hc
      rw [if_pos hc] at this
      cases hn : T.tag.ns with
      | none => rfl
      | some ns => rw [hn] at this; cases this
    · rfl
  simp only [StructSpec.declares, Decls.spec, Decls.xmlns]
  split
  · rename_i h; simp [h0 name h]
  · rfl

theorem declares_global (d : Decls X) (found : Nat → List (Str × Str)) (dflt : Option Str) (k : Nat)
    (T : TypeDecl X) (w : Val X) (name : Str) (root : Bool) :
    (d.spec (.global found) dflt k T).declares w name root =
      T.tag.xmlns name ++ if root then T.tag.rootXmlns name ++ found k else [] := by
  have h1 : ∀ name, T.tag.xmlns [] = [] → T.tag.xmlns name = [] := by
    intro name h
    unfold NameSpec.xmlns at h ⊢
    split at h
    · cases h
    · rfl
  have h2 : ∀ name, T.tag.rootXmlns [] = [] → T.tag.rootXmlns name = [] := by
    intro name h
    unfold NameSpec.rootXmlns at h ⊢
    split at h
    · cases h
    · rfl
  simp only [StructSpec.declares, Decls.spec, Decls.xmlns]
  split
  · rename_i h; simp [h1 name h.1, h2 name h.2.1, h.2.2]
  · rfl

theorem declares_dynamic (d : Decls X) (dflt : Option Str) (k : Nat) (T : TypeDecl X) (w : Val X)
    (name : Str) (root : Bool) :
    (d.spec .dynamic dflt k T).declares w name root =
      T.tag.xmlns name ++ if root then T.tag.rootXmlns name ++ collect d (.struct k) w else [] := rfl

theorem declares_none (d : Decls X) (dflt : Option Str) (k : Nat) (T : TypeDecl X) (w : Val X)
    (name : Str) (root : Bool) : (d.spec .none dflt k T).declares w name root = [] := rfl

theorem schema_text (d : Decls X) (m : Mode) (dflt : Option Str) {k : Nat} {T : TypeDecl X}
    (hT : d.types[k]? = some T) :
    (d.schema m dflt).structs[k]? = some (d.spec m dflt k T) := by
  rw [schema_get, hT]; rfl

/-- The elements of the generated types are those of the declarations. -/
theorem mem_elements {d : Decls X} {m : Mode} {dflt : Option Str} {D : StructSpec X} {f : FieldSpec}
    (hD : D ∈ (d.schema m dflt).structs) (hf : f ∈ D.body.elements) :
    ∃ (k : Nat) (T : TypeDecl X) (e : ElemDecl), d.types[k]? = some T ∧ e ∈ T.body.elements ∧
      f = e.spec dflt := by
  obtain ⟨k, T, hT, rfl⟩ := mem_schema hD
  change f ∈ (T.body.spec dflt).elements at hf
  rw [elements_spec] at hf
  obtain ⟨e, he, rfl⟩ := List.mem_map.mp hf
  exact ⟨k, T, e, hT, he, rfl⟩

theorem expand_spec (d : Decls X) (m : Mode) (dflt : Option Str) (e : ElemDecl) :
    (e.spec dflt).expand (d.schema m dflt) = (e.expand d).map (·.spec dflt) := by
  unfold FieldSpec.expand ElemDecl.expand
  show (match e.ty with
    | .variant k => _
    | _ => _) = _
  cases e.ty with
  | simple k => rfl
  | struct k => rfl
  | variant k =>
    simp only [schema_get]
    cases d.types[k]? with
    | none => rfl
    | some T => exact elements_spec dflt T.body

theorem elementsOf_spec (d : Decls X) (m : Mode) (dflt : Option Str) (k : Nat) (T : TypeDecl X) :
    (d.schema m dflt).elementsOf (d.spec m dflt k T) = (d.elements T).map (·.spec dflt) := by
  unfold Schema.elementsOf Decls.elements
  show (T.body.spec dflt).elements.flatMap _ = _
  rw [elements_spec, List.map_flatMap, List.flatMap_map]
  congr 1
  funext e
  exact expand_spec d m dflt e

theorem elements_struct (d : Decls X) (T : TypeDecl X) (e : ElemDecl) (j : Nat)
    (he : e ∈ T.body.elements) (hty : e.ty = .struct j) : e ∈ d.elements T :=
  List.mem_flatMap.mpr ⟨e, he, by simp [ElemDecl.expand, hty]⟩

/-- The element belongs to some type. -/
theorem elements_body {d : Decls X} {k : Nat} {T : TypeDecl X} (hT : d.types[k]? = some T) {e : ElemDecl}
    (he : e ∈ d.elements T) : ∃ (j : Nat) (U : TypeDecl X), d.types[j]? = some U ∧ e ∈ U.body.elements := by
  obtain ⟨g, hg, he⟩ := List.mem_flatMap.mp he
  unfold ElemDecl.expand at he
  split at he
  · rename_i j _
    cases hj : d.types[j]? with
    | none => rw [hj] at he; cases he
    | some U => rw [hj] at he; exact ⟨j, U, hj, he⟩
  · rw [List.mem_singleton] at he
    subst he
    exact ⟨k, T, hT, hg⟩

theorem child_decl {d : Decls X} {m : Mode} {dflt : Option Str} (shape : (d.schema m dflt).Shape)
    {ty : TyRef} {w : Val X} {f : FieldSpec}
    {x : Val X} (hc : Child (d.schema m dflt) ty w f x) :
    ∃ (k : Nat) (T : TypeDecl X) (e : ElemDecl), ty = .struct k ∧ d.types[k]? = some T ∧
      e ∈ d.elements T ∧ f = e.spec dflt := by
  obtain ⟨k, D, rfl, hD, hf, -⟩ := hc.spec shape
  obtain ⟨T, hT, rfl⟩ := schema_get_some hD
  rw [elementsOf_spec] at hf
  obtain ⟨e, he, rfl⟩ := List.mem_map.mp hf
  exact ⟨k, T, e, rfl, hT, he, rfl⟩

/-! ## What `CollectNamespaces` finds -/

theorem mem_collectItems (d : Decls X) (ty : TyRef) (vs : List (Val X)) (b : Str × Str) :
    b ∈ collectItems d (some ty) vs ↔ ∃ v ∈ vs, b ∈ collect d ty v := by
  induction vs with
  | nil => simp [collectItems]
  | cons v r ih => simp [collectItems, ih]

theorem mem_collectFields (d : Decls X) (tys : List TyRef) (fs : List (List (Val X))) (b : Str × Str) :
    b ∈ collectFields d tys fs ↔
      ∃ (i : Nat) (ty : TyRef) (vs : List (Val X)), tys[i]? = some ty ∧ fs[i]? = some vs ∧ ∃ v ∈ vs, b ∈ collect d ty v := by
  induction tys generalizing fs with
  | nil => simp [collectFields]
  | cons ty tys ih =>
    cases fs with
    | nil => simp [collectFields]
    | cons vs r =>
      simp only [collectFields, List.mem_append, mem_collectItems, ih]
      constructor
      · rintro (⟨v, h1, h2⟩ | ⟨i, ty', vs', h1, h2, h3⟩)
        · exact ⟨0, ty, vs, rfl, rfl, v, h1, h2⟩
        · exact ⟨i + 1, ty', vs', by simpa using h1, by simpa using h2, h3⟩
      · rintro ⟨i, ty', vs', h1, h2, h3⟩
        cases i with
        | zero =>
          simp only [List.getElem?_cons_zero, Option.some.injEq] at h1 h2
          subst h1; subst h2
          exact Or.inl h3
        | succ i => exact Or.inr ⟨i, ty', vs', by simpa using h1, by simpa using h2, h3⟩

theorem getD_of_mem {x : Val X} {fs : List (List (Val X))} {i : Nat} (h : x ∈ fs.getD i []) :
    ∃ vs, fs[i]? = some vs ∧ x ∈ vs := by
  rw [List.getD_eq_getElem?_getD] at h
  cases hi : fs[i]? with
  | none => rw [hi] at h; cases h
  | some vs => rw [hi] at h; exact ⟨vs, rfl, h⟩

/-- The namespaces of a part are among those of the whole. -/
theorem collect_child {d : Decls X} {m : Mode} {dflt : Option Str} {ty : TyRef} {w : Val X}
    {f : FieldSpec} {x : Val X} (hc : Child (d.schema m dflt) ty w f x) (b : Str × Str)
    (hb : b ∈ collect d f.ty x) : b ∈ collect d ty w := by
  cases hc with
  | @group k D es as fs i g j D' alts mn mx a xs _ _ hD hbody hg hj hv hD' hb' hf hx =>
    obtain ⟨T, hT, rfl⟩ := schema_get_some hD
    obtain ⟨U, hU, rfl⟩ := schema_get_some hD'
    obtain ⟨vs, hvs, hxv⟩ := getD_of_mem hv
    change T.body.spec dflt = _ at hbody
    cases hbt : T.body <;> rw [hbt] at hbody <;> simp only [BodyDecl.spec] at hbody <;> cases hbody
    rename_i es
    rw [List.getElem?_map] at hg
    cases he : es[i]? with
    | none => rw [he] at hg; cases hg
    | some e =>
      rw [he] at hg
      simp only [Option.map_some, Option.some.injEq] at hg
      subst hg
      change U.body.spec dflt = _ at hb'
      cases hbu : U.body <;> rw [hbu] at hb' <;> simp only [BodyDecl.spec] at hb' <;> cases hb'
      rename_i alts
      rw [List.getElem?_map] at hf
      cases he' : alts[a]? with
      | none => rw [he'] at hf; cases hf
      | some e' =>
        rw [he'] at hf
        simp only [Option.map_some, Option.some.injEq] at hf
        subst hf
        have hty : e.ty = .variant j := hj
        simp only [collect, List.mem_append, mem_collectFields]
        refine Or.inr ⟨i, .variant j, vs,
          by simp [Decls.fieldTys, hT, hbt, BodyDecl.fieldTys, he, hty], hvs, _, hxv, ?_⟩
        have : d.altTy j a = some e'.ty := by simp [Decls.altTy, hU, hbu, BodyDecl.elements, he']
        simp only [collect, this, mem_collectItems]
        exact ⟨x, hx, hb⟩
  | @field k D es as fs i _ _ hD hbody hf hne hx =>
    obtain ⟨T, hT, rfl⟩ := schema_get_some hD
    obtain ⟨vs, hvs, hxv⟩ := getD_of_mem hx
    simp only [collect, List.mem_append, mem_collectFields]
    refine Or.inr ⟨i, f.ty, vs, ?_, hvs, x, hxv, hb⟩
    have hes : ∀ es', (T.body = .seq es' ∨ T.body = .all es') → es = es'.map (·.spec dflt) →
        (d.fieldTys k)[i]? = some f.ty := by
      intro es' h1 h2
      rw [h2, List.getElem?_map] at hf
      cases he : es'[i]? with
      | none => rw [he] at hf; cases hf
      | some e =>
        rw [he] at hf
        simp only [Option.map_some, Option.some.injEq] at hf
        subst hf
        rcases h1 with h1 | h1 <;> simp [Decls.fieldTys, hT, h1, BodyDecl.fieldTys, he] <;> rfl
    change T.body.spec dflt = _ ∨ T.body.spec dflt = _ at hbody
    cases hb' : T.body <;> rw [hb'] at hbody <;> simp only [BodyDecl.spec] at hbody <;>
      first
      | (rcases hbody with h | h <;> cases h <;> first | exact hes _ (Or.inl hb') rfl | exact hes _ (Or.inr hb') rfl)
  | @choice k D alts mn mx as vs i xs _ _ hD hbody hv hf hx =>
    obtain ⟨T, hT, rfl⟩ := schema_get_some hD
    change T.body.spec dflt = _ at hbody
    cases hb' : T.body <;> rw [hb'] at hbody <;> simp only [BodyDecl.spec] at hbody <;> cases hbody
    rename_i alts
    rw [List.getElem?_map] at hf
    cases he : alts[i]? with
    | none => rw [he] at hf; cases hf
    | some e =>
      rw [he] at hf
      simp only [Option.map_some, Option.some.injEq] at hf
      subst hf
      simp only [collect, List.mem_append, mem_collectFields]
      refine Or.inr ⟨0, .variant k, vs, by simp [Decls.fieldTys, hT, hb', BodyDecl.fieldTys], rfl, _, hv, ?_⟩
      have : d.altTy k i = some e.ty := by simp [Decls.altTy, hT, hb', BodyDecl.elements, he]
      simp only [collect, this, mem_collectItems]
      exact ⟨x, hx, hb⟩
  | @enum k D alts i _ vs _ hD hbody hf hx =>
    obtain ⟨T, hT, rfl⟩ := schema_get_some hD
    change T.body.spec dflt = _ at hbody
    cases hb' : T.body <;> rw [hb'] at hbody <;> simp only [BodyDecl.spec] at hbody <;> cases hbody
    rename_i alts
    rw [List.getElem?_map] at hf
    cases he : alts[i]? with
    | none => rw [he] at hf; cases hf
    | some e =>
      rw [he] at hf
      simp only [Option.map_some, Option.some.injEq] at hf
      subst hf
      have : d.altTy k i = some e.ty := by simp [Decls.altTy, hT, hb', BodyDecl.elements, he]
      simp only [collect, List.mem_append, this, mem_collectItems]
      exact Or.inr ⟨x, hx, hb⟩

theorem collect_within {d : Decls X} {m : Mode} {dflt : Option Str} {ty ty' : TyRef} {w w' : Val X}
    (h : Within (d.schema m dflt) ty w ty' w') (b : Str × Str) (hb : b ∈ collect d ty' w') :
    b ∈ collect d ty w := by
  induction h with
  | refl => exact hb
  | step hc _ ih => exact collect_child hc b (ih hb)

theorem collected_mem_collect (d : Decls X) (k : Nat) (w : Val X) (b : Str × Str)
    (hb : b ∈ d.collected k) : b ∈ collect d (.struct k) w := by
  cases w <;> simp [collect, hb]

/-! ## Specification -/

/-- The name is written with this prefix for this namespace. -/
def NameSpec.Uses (n : NameSpec) (b : Str × Str) : Prop :=
  n.qualified = true ∧ n.pfx = some b.1 ∧ n.ns = some b.2

/-- The tag or an attribute of the type is in this namespace. -/
def TypeDecl.Uses (T : TypeDecl X) (b : Str × Str) : Prop :=
  T.tag.Uses b ∨ ∃ a ∈ T.attrs, a.name.Uses b

/-- The two names belong to the same module, and `a` is qualified. -/
def SameModule (a b : NameSpec) : Prop := a.qualified = true ∧ a.pfx = b.pfx ∧ a.ns = b.ns

/-- The element is written with a prefix. -/
def ElemDecl.Prefixed (dflt : Option Str) (e : ElemDecl) : Prop := (e.name.element dflt).pfx ≠ []

/-- `e` is an element in the content of a type of the table. -/
def Decls.Elem (d : Decls X) (T : TypeDecl X) (e : ElemDecl) : Prop := T ∈ d.types ∧ e ∈ d.elements T

theorem mem_collected (n : NameSpec) (b : Str × Str) : b ∈ n.collected ↔ n.Uses b := by
  obtain ⟨l, q, p, ns⟩ := n
  obtain ⟨b1, b2⟩ := b
  cases q <;> cases p <;> cases ns <;> simp [NameSpec.collected, NameSpec.Uses, eq_comm]

theorem mem_type_collected (T : TypeDecl X) (b : Str × Str) : b ∈ T.collected ↔ T.Uses b := by
  simp [TypeDecl.collected, TypeDecl.Uses, mem_collected]

theorem mem_decls_collected (d : Decls X) (k : Nat) (b : Str × Str) :
    b ∈ d.collected k ↔ ∃ T, d.types[k]? = some T ∧ T.Uses b := by
  unfold Decls.collected
  cases h : d.types[k]? with
  | none => simp
  | some T => simp [mem_type_collected]

/-- What is collected for a value comes from the types of its parts. -/
theorem collect_from (d : Decls X) (m : Mode) (dflt : Option Str) (shape : (d.schema m dflt).Shape)
    (b : Str × Str) :
    ∀ (n k : Nat) (v : Val X), depth v < n → HasTy (d.schema m dflt) (.struct k) v →
      b ∈ collect d (.struct k) v →
      ∃ (j : Nat) (w : Val X), Within (d.schema m dflt) (.struct k) v (.struct j) w ∧ b ∈ d.collected j := by
  intro n
  induction n with
  | zero => intro k v h; omega
  | succ n ih =>
    intro k v hd hv hb
    -- a part of the value
    have part : ∀ (f : FieldSpec) (x : Val X), Child (d.schema m dflt) (.struct k) v f x →
        HasTy (d.schema m dflt) f.ty x → depth x < depth v → b ∈ collect d f.ty x →
        ∃ (j : Nat) (w : Val X), Within (d.schema m dflt) (.struct k) v (.struct j) w ∧
          b ∈ d.collected j := by
      intro f x hc hx hdx hbx
      cases hty : f.ty with
      | struct j =>
        rw [hty] at hx hbx
        obtain ⟨j', w, hw, hbw⟩ := ih j x (by omega) hx hbx
        exact ⟨j', w, .step hc (by rw [hty]; exact hw), hbw⟩
      | simple j => rw [hty] at hbx; cases x <;> simp [collect] at hbx
      | variant j =>
        obtain ⟨k', D, -, hD, hf, hne⟩ := hc.spec shape
        exact absurd hty (hne j)
    have own : b ∈ d.collected k → ∃ (j : Nat) (w : Val X),
        Within (d.schema m dflt) (.struct k) v (.struct j) w ∧ b ∈ d.collected j :=
      fun h => ⟨k, v, .refl _ _, h⟩
    cases hv with
    | @fields _ D es as fs hD ha hbody hfl hc hf =>
      obtain ⟨T, hT, rfl⟩ := schema_get_some hD
      simp only [collect, List.mem_append, mem_collectFields] at hb
      rcases hb with hb | ⟨i, ty, vs, hty, hvs, x, hx, hbx⟩
      · exact own hb
      · have hes : ∃ f, es[i]? = some f ∧ f.ty = ty := by
          have key : ∀ es', (T.body = .seq es' ∨ T.body = .all es') → es = es'.map (·.spec dflt) →
              ∃ f, es[i]? = some f ∧ f.ty = ty := by
            intro es' h1 h2
            have : (es'.map (·.ty))[i]? = some ty := by
              rw [← hty]
              rcases h1 with h1 | h1 <;> simp [Decls.fieldTys, hT, h1, BodyDecl.fieldTys]
            rw [List.getElem?_map] at this
            cases he : es'[i]? with
            | none => rw [he] at this; cases this
            | some e =>
              rw [he] at this
              simp only [Option.map_some, Option.some.injEq] at this
              exact ⟨e.spec dflt, by rw [h2, List.getElem?_map, he]; rfl, this⟩
          change T.body.spec dflt = _ ∨ T.body.spec dflt = _ at hbody
          cases hb' : T.body <;> rw [hb'] at hbody <;> simp only [BodyDecl.spec] at hbody <;>
            (rcases hbody with h | h <;> cases h <;>
              first | exact key _ (Or.inl hb') rfl | exact key _ (Or.inr hb') rfl)
        obtain ⟨f, hfi, rfl⟩ := hes
        have hg : fs.getD i [] = vs := by rw [List.getD_eq_getElem?_getD, hvs]; rfl
        have hdx := depth_field as fs i x (by rw [hg]; exact hx)
        have hxt := hf i f x hfi (by rw [hg]; exact hx)
        by_cases hvar : ∃ j, f.ty = .variant j
        · obtain ⟨j, hj⟩ := hvar
          rw [hj] at hxt hbx
          obtain ⟨⟨es', hseq⟩, -⟩ := shape.tys _ (List.mem_of_getElem? hD) f (by
            rcases hbody with h | h <;> rw [h] <;> exact List.mem_of_getElem? hfi) j hj
          have hes' : es' = es := by
            rcases hbody with h | h
            · rw [hseq] at h; cases h; rfl
            · rw [hseq] at h; cases h
          subst hes'
          cases hxt with
          | @variant _ D' alts' mn' mx' a g y hD2 hb2 hf2 hy =>
            obtain ⟨U, hU, rfl⟩ := schema_get_some hD2
            have hb3 := hb2
            change U.body.spec dflt = _ at hb3
            cases hbu : U.body <;> rw [hbu] at hb3 <;> simp only [BodyDecl.spec] at hb3 <;> cases hb3
            rename_i alts
            have hf3 := hf2
            rw [List.getElem?_map] at hf3
            cases he : alts[a]? with
            | none => rw [he] at hf3; cases hf3
            | some e =>
              rw [he] at hf3
              simp only [Option.map_some, Option.some.injEq] at hf3
              subst hf3
              have : d.altTy j a = some e.ty := by simp [Decls.altTy, hU, hbu, BodyDecl.elements, he]
              simp only [collect, this, mem_collectItems, List.mem_singleton, exists_eq_left] at hbx
              refine part (e.spec dflt) y (.group hD hseq hfi hj (by rw [hg]; exact hx) hD2 hb2 hf2
                (List.mem_singleton.mpr rfl)) hy ?_ hbx
              have h1 := depth_alt a [y] y (List.mem_singleton.mpr rfl)
              omega
        · exact part f x (.field hD hbody hfi (fun j h => hvar ⟨j, h⟩) (by rw [hg]; exact hx)) hxt hdx hbx
    | @choice _ D alts mn mx as vs hD ha hbody hc hvs =>
      obtain ⟨T, hT, rfl⟩ := schema_get_some hD
      simp only [collect, List.mem_append, mem_collectFields] at hb
      rcases hb with hb | ⟨i, ty, vs', hty, hvs', x, hx, hbx⟩
      · exact own hb
      · have hbody' := hbody
        change T.body.spec dflt = _ at hbody
        cases hb' : T.body <;> rw [hb'] at hbody <;> simp only [BodyDecl.spec] at hbody <;> cases hbody
        rename_i alts
        simp only [Decls.fieldTys, hT, hb', BodyDecl.fieldTys, Option.map_some, Option.getD_some] at hty
        rcases i with _ | i
        · simp only [List.getElem?_cons_zero, Option.some.injEq] at hty hvs'
          subst hty hvs'
          have hxt := hvs x hx
          cases hxt with
          | @variant _ D' alts' mn' mx' i f y hD2 hb2 hf2 hy =>
            rw [hD] at hD2
            cases hD2
            rw [hbody'] at hb2
            cases hb2
            have hf3 := hf2
            rw [List.getElem?_map] at hf3
            cases he : alts[i]? with
            | none => rw [he] at hf3; cases hf3
            | some e =>
              rw [he] at hf3
              simp only [Option.map_some, Option.some.injEq] at hf3
              subst hf3
              have : d.altTy k i = some e.ty := by simp [Decls.altTy, hT, hb', BodyDecl.elements, he]
              simp only [collect, this, mem_collectItems, List.mem_singleton, exists_eq_left] at hbx
              refine part (e.spec dflt) y (.choice hD hbody' hx hf2 (List.mem_singleton.mpr rfl)) hy ?_ hbx
              have h1 := depth_alt i [y] y (List.mem_singleton.mpr rfl)
              have h2 := depth_field as [vs] 0 (.alt i [y]) hx
              omega
        · simp at hty
    | @enum _ D alts i f vs hD hbody hf hne hc hvs =>
      obtain ⟨T, hT, rfl⟩ := schema_get_some hD
      have hbody' := hbody
      change T.body.spec dflt = _ at hbody
      cases hb' : T.body <;> rw [hb'] at hbody <;> simp only [BodyDecl.spec] at hbody <;> cases hbody
      rename_i alts
      have hf3 := hf
      rw [List.getElem?_map] at hf3
      cases he : alts[i]? with
      | none => rw [he] at hf3; cases hf3
      | some e =>
        rw [he] at hf3
        simp only [Option.map_some, Option.some.injEq] at hf3
        subst hf3
        have : d.altTy k i = some e.ty := by simp [Decls.altTy, hT, hb', BodyDecl.elements, he]
        simp only [collect, List.mem_append, this, mem_collectItems] at hb
        rcases hb with hb | ⟨x, hx, hbx⟩
        · exact own hb
        · exact part (e.spec dflt) x (.enum hD hbody' hf hx) (hvs x hx) (depth_alt i vs x hx) hbx
    | @text _ D j as x hD ha hbody hx =>
      obtain ⟨T, hT, rfl⟩ := schema_get_some hD
      change T.body.spec dflt = _ at hbody
      cases hb' : T.body <;> rw [hb'] at hbody <;> simp only [BodyDecl.spec] at hbody <;> cases hbody
      simp only [collect, List.mem_append, Decls.fieldTys, hT, hb', BodyDecl.fieldTys, Option.map_some,
        Option.getD_some, collectFields, collectItems, List.not_mem_nil, or_false, List.append_nil] at hb
      exact own hb

/-- **C62.** The namespaces that are collected for a value are exactly those of the tags and
attributes of the types of the value and its parts, at any depth: none is missed and none is
added. -/
theorem C62_collected_exact (d : Decls X) (m : Mode) (dflt : Option Str)
    (shape : (d.schema m dflt).Shape) (k : Nat) (v : Val X)
    (hv : HasTy (d.schema m dflt) (.struct k) v) (b : Str × Str) :
    b ∈ collect d (.struct k) v ↔
      ∃ (j : Nat) (w : Val X) (T : TypeDecl X), Within (d.schema m dflt) (.struct k) v (.struct j) w ∧
        d.types[j]? = some T ∧ T.Uses b := by
  constructor
  · intro h
    obtain ⟨j, w, h1, h2⟩ := collect_from d m dflt shape b (depth v + 1) k v (by omega) hv h
    obtain ⟨T, h3, h4⟩ := (mem_decls_collected d j b).mp h2
    exact ⟨j, w, T, h1, h3, h4⟩
  · rintro ⟨j, w, T, h1, h2, h3⟩
    exact collect_within h1 b
      (collected_mem_collect d j w b ((mem_decls_collected d j b).mpr ⟨T, h2, h3⟩))

/-! ## The mode `Dynamic` -/

/-- **Specification.** What `Dynamic` needs: prefixes stand for one namespace each, tags of types
without prefix agree with the names of their elements, and the namespace of an element with a
prefix is that of the type around it or that of its own type. -/
structure Decls.DynamicOk (d : Decls X) (dflt : Option Str) (binds : Str → Str) : Prop where
  uses : ∀ T ∈ d.types, ∀ b, T.Uses b → b.1 ≠ [] → binds b.1 = b.2 ∧ b.2 ≠ []
  tags : ∀ T e, d.Elem T e → ∀ (j : Nat) U, e.ty = .struct j → d.types[j]? = some U →
    Agrees binds (U.tag.xmlns (e.name.element dflt).text ++ U.tag.rootXmlns (e.name.element dflt).text)
  near : ∀ T e, d.Elem T e → e.Prefixed dflt → SameModule T.tag e.name ∨
    ∃ (j : Nat) (U : TypeDecl X), e.ty = .struct j ∧ d.types[j]? = some U ∧ SameModule U.tag e.name

theorem uses_of_same {a : NameSpec} {e : NameSpec} {dflt : Option Str} (h : SameModule a e)
    (hp : (e.element dflt).pfx ≠ []) (ns : Str) (hns : e.ns = some ns) :
    a.Uses ((e.element dflt).pfx, ns) := by
  obtain ⟨h1, h2, h3⟩ := h
  refine ⟨h1, ?_, h3.trans hns⟩
  rw [h2]
  simp only [NameSpec.element] at hp ⊢
  split
  · rename_i hc
    rw [if_pos hc] at hp
    cases hpf : e.pfx with
    | none => rw [hpf] at hp; simp at hp
    | some p => rfl
  · rename_i hc
    rw [if_neg hc] at hp
    exact absurd rfl hp

theorem uses_of_attribute {n : NameSpec} (hp : n.attribute.pfx ≠ []) (ns : Str) (hns : n.ns = some ns) :
    n.Uses (n.attribute.pfx, ns) := by
  simp only [NameSpec.attribute] at hp ⊢
  split
  · rename_i hc
    rw [if_pos hc] at hp
    refine ⟨hc, ?_, hns⟩
    cases hpf : n.pfx with
    | none => rw [hpf] at hp; simp at hp
    | some p => rfl
  · rename_i hc
    rw [if_neg hc] at hp
    exact absurd rfl hp

/-- Whatever the value is, what is collected belongs to types of the table. -/
theorem collect_uses (d : Decls X) (b : Str × Str) : ∀ (n : Nat) (ty : TyRef) (v : Val X), depth v < n →
    b ∈ collect d ty v → ∃ T ∈ d.types, T.Uses b := by
  have own : ∀ k, b ∈ d.collected k → ∃ T ∈ d.types, T.Uses b := by
    intro k h
    obtain ⟨T, h1, h2⟩ := (mem_decls_collected d k b).mp h
    exact ⟨T, List.mem_of_getElem? h1, h2⟩
  intro n
  induction n with
  | zero => intro ty v h; omega
  | succ n ih =>
    intro ty v hd hb
    have items : ∀ (o : Option TyRef) i vs, v = .alt i vs → b ∈ collectItems d o vs →
        ∃ T ∈ d.types, T.Uses b := by
      intro o i vs hv h
      cases o with
      | none => simp [collectItems] at h
      | some ty' =>
        obtain ⟨x, hx, hbx⟩ := (mem_collectItems d ty' vs b).mp h
        subst hv
        exact ih ty' x (by have := depth_alt i vs x hx; omega) hbx
    cases v with
    | simple x =>
      cases ty with
      | struct k => exact own k (by simpa [collect] using hb)
      | simple k => simp [collect] at hb
      | variant k => simp [collect] at hb
    | struct as fs =>
      cases ty with
      | struct k =>
        simp only [collect, List.mem_append, mem_collectFields] at hb
        rcases hb with hb | ⟨i, ty', vs, -, hvs, x, hx, hbx⟩
        · exact own k hb
        · have := depth_field as fs i x (by rw [List.getD_eq_getElem?_getD, hvs]; exact hx)
          exact ih ty' x (by omega) hbx
      | simple k => simp [collect] at hb
      | variant k =>
        simp only [collect, mem_collectFields] at hb
        obtain ⟨i, ty', vs, -, hvs, x, hx, hbx⟩ := hb
        have := depth_field as fs i x (by rw [List.getD_eq_getElem?_getD, hvs]; exact hx)
        exact ih ty' x (by omega) hbx
    | alt i vs =>
      cases ty with
      | struct k =>
        simp only [collect, List.mem_append] at hb
        rcases hb with hb | hb
        · exact own k hb
        · exact items _ i vs rfl hb
      | simple k => simp [collect] at hb
      | variant k => simp only [collect] at hb; exact items _ i vs rfl hb

theorem agrees_append {binds : Str → Str} {a b : List (Str × Str)} (ha : Agrees binds a)
    (hb : Agrees binds b) : Agrees binds (a ++ b) := by
  intro x hx
  rcases List.mem_append.mp hx with h | h
  · exact ha x h
  · exact hb x h

theorem agrees_left {binds : Str → Str} {a b : List (Str × Str)} (h : Agrees binds (a ++ b)) :
    Agrees binds a := fun x hx => h x (List.mem_append_left _ hx)

theorem agrees_nil {binds : Str → Str} : Agrees binds [] := by intro x hx; cases hx

theorem DynamicOk.agrees {d : Decls X} {dflt : Option Str} {binds : Str → Str}
    (ok : d.DynamicOk dflt binds) (ty : TyRef) (v : Val X) : Agrees binds (collect d ty v) := by
  intro b hb
  obtain ⟨T, hT, hu⟩ := collect_uses d b _ ty v (Nat.lt_succ_self _) hb
  exact ok.uses T hT b hu

theorem tyDeclares_struct {d : Decls X} {m : Mode} {dflt : Option Str} {j : Nat} {x : Val X} {name : Str}
    {root : Bool} :
    tyDeclares (d.schema m dflt) x name root (.struct j) =
      ((d.types[j]?).map fun U => (d.spec m dflt j U).declares x name root).getD [] := by
  simp only [tyDeclares, schema_get]
  cases d.types[j]? <;> rfl

theorem elem_text (dflt : Option Str) (e : ElemDecl) : (e.spec dflt).name.text = (e.name.element dflt).text := rfl

theorem DynamicOk.decl {d : Decls X} {dflt : Option Str} {binds : Str → Str} (ok : d.DynamicOk dflt binds)
    (j : Nat) (U : TypeDecl X) (x : Val X) (name : Str) (root : Bool)
    (h : Agrees binds (U.tag.xmlns name ++ U.tag.rootXmlns name)) :
    Agrees binds ((d.spec .dynamic dflt j U).declares x name root) := by
  rw [declares_dynamic]
  refine agrees_append (agrees_left h) ?_
  cases root with
  | false => exact agrees_nil
  | true => exact agrees_append (fun b hb => h b (List.mem_append_right _ hb)) (DynamicOk.agrees ok _ x)

theorem DynamicOk.good {d : Decls X} {dflt : Option Str} {binds : Str → Str} (ok : d.DynamicOk dflt binds)
    (shape : (d.schema .dynamic dflt).Shape) (k : Nat) (v : Val X) :
    (d.schema .dynamic dflt).Good binds (collect d (.struct k) v) where
  toShape := shape
  root := DynamicOk.agrees ok _ v
  decls := by
    intro D hD f hf x root
    obtain ⟨i, T, e, hT, he, rfl⟩ := mem_elements hD hf
    cases hty : (e.spec dflt).ty with
    | simple j => exact agrees_nil
    | variant j => exact agrees_nil
    | struct j =>
      rw [tyDeclares_struct]
      cases hU : d.types[j]? with
      | none => exact agrees_nil
      | some U =>
        exact DynamicOk.decl ok j U x _ root (ok.tags T e ⟨List.mem_of_getElem? hT, elements_struct d T e j he hty⟩ j U hty hU)

theorem attr_resolvable {d : Decls X} {j : Nat} {U : TypeDecl X} (hU : d.types[j]? = some U) (w : Val X)
    {l : List (Str × Str)} (hl : ∀ b ∈ collect d (.struct j) w, b ∈ l) :
    ∀ a ∈ U.attrs, Resolvable l a.spec.name := by
  intro a ha
  by_cases hp : a.name.attribute.pfx = []
  · exact Or.inl hp
  · refine Or.inr fun ns hns => hl _ (collected_mem_collect d j w _ ?_)
    exact (mem_decls_collected d j _).mpr ⟨U, hU, Or.inr ⟨a, ha, uses_of_attribute hp ns hns⟩⟩

theorem DynamicOk.attrs {d : Decls X} {m : Mode} {dflt : Option Str} {need : List (Str × Str)} (ty : TyRef)
    (w : Val X) (name : Str) (root : Bool) (h : ∀ b ∈ collect d ty w, b ∈ need) :
    AttrsNamed (d.schema m dflt) need ty w name root := by
  intro j D hty hD a ha
  subst hty
  obtain ⟨U, hU, rfl⟩ := schema_get_some hD
  obtain ⟨a', ha', rfl⟩ := List.mem_map.mp ha
  exact attr_resolvable hU w (fun b hb => List.mem_append_left _ (h b hb)) a' ha'

/-- **C62.** Every name that is written for a value, at any depth, can be resolved with the
namespaces that are collected for the value. -/
theorem C62_names_declared_partial (d : Decls X) (dflt : Option Str) (binds : Str → Str)
    (shape : (d.schema .dynamic dflt).Shape) (ok : d.DynamicOk dflt binds) (k : Nat) (v : Val X) :
    Named (d.schema .dynamic dflt) (collect d (.struct k) v) (.struct k) v := by
  intro ty w hw f x hc root
  obtain ⟨i, T, e, rfl, hT, he, rfl⟩ := child_decl shape hc
  have hsub : ∀ b ∈ collect d (.struct i) w, b ∈ collect d (.struct k) v := collect_within hw
  have hsubx : ∀ b ∈ collect d (e.spec dflt).ty x, b ∈ collect d (.struct k) v :=
    fun b hb => hsub b (collect_child hc b hb)
  refine ⟨?_, DynamicOk.attrs _ _ _ _ hsubx⟩
  by_cases hp : e.Prefixed dflt
  · refine Or.inr fun ns hns => List.mem_append_left _ ?_
    rcases ok.near T e ⟨List.mem_of_getElem? hT, he⟩ hp with h | ⟨j, U, hty, hU, h⟩
    · exact hsub _ (collected_mem_collect d i w _ ((mem_decls_collected d i _).mpr
        ⟨T, hT, Or.inl (uses_of_same h hp ns hns)⟩))
    · apply hsubx
      rw [show (e.spec dflt).ty = _ from hty]
      exact collected_mem_collect d j x _ ((mem_decls_collected d j _).mpr
        ⟨U, hU, Or.inl (uses_of_same h hp ns hns)⟩)
  · exact Or.inl (Classical.not_not.mp hp)

/-- **C13** for `NamespaceSerialization::Dynamic`. -/
theorem C13_dynamic_round_trip_partial (d : Decls X) (dflt : Option Str) (binds : Str → Str)
    (shape : (d.schema .dynamic dflt).Shape) (ok : d.DynamicOk dflt binds) (k : Nat) (T : TypeDecl X)
    (hT : d.types[k]? = some T) (v : Val X) (hv : HasTy (d.schema .dynamic dflt) (.struct k) v) (name : Str)
    (hname : Agrees binds (T.tag.xmlns name ++ T.tag.rootXmlns name)) (n : Nat) (hn : depth v < n)
    (rest : List Event) :
    ∃ out evs, (ser (d.schema .dynamic dflt) n).Emits (.struct k (.init v name true)) {} out {} ∧
      reread out = some evs ∧
      Drv.run (genEnv posTrack) (de (d.schema .dynamic dflt) n (.struct k)).toDeser { helper := {} }
        (evs ++ rest) = .done v rest :=
  C13_document_round_trip_partial _ binds (collect d (.struct k) v) (DynamicOk.good ok shape k v) k _
    (schema_text d .dynamic dflt hT) v hv (C62_names_declared_partial d dflt binds shape ok k v) name
    (by
      intro b hb
      rw [declares_dynamic]
      exact List.mem_append_right _ (List.mem_append_right _ hb))
    (DynamicOk.decl ok k T v name true hname) (DynamicOk.attrs _ _ _ _ fun _ h => h) n hn rest

/-! ## The mode `Global` -/

/-- The types that can occur in a value of the type `k`. -/
inductive Decls.Reaches (d : Decls X) (k : Nat) : Nat → Prop
  | refl : Reaches d k k
  | step {i j : Nat} {T : TypeDecl X} {e : ElemDecl} (h : Reaches d k i) (hT : d.types[i]? = some T)
      (he : e ∈ d.elements T) (hty : e.ty = .struct j) : Reaches d k j

/-- **Specification.** What `Global` needs: tags of types without prefix agree with the names of
their elements, and the namespaces found for the root cover the elements and attributes of all
types that it can reach. -/
structure Decls.GlobalOk (d : Decls X) (dflt : Option Str) (binds : Str → Str)
    (found : Nat → List (Str × Str)) (k : Nat) : Prop where
  agree : ∀ j, Agrees binds (found j)
  tags : ∀ T e, d.Elem T e → ∀ (j : Nat) U, e.ty = .struct j → d.types[j]? = some U →
    Agrees binds (U.tag.xmlns (e.name.element dflt).text ++ U.tag.rootXmlns (e.name.element dflt).text)
  elems : ∀ (i : Nat) T e, d.Reaches k i → d.types[i]? = some T → e ∈ d.elements T →
    e.Prefixed dflt → ∀ b, e.name.Uses b → b ∈ found k
  attrs : ∀ (i : Nat) T a, d.Reaches k i → d.types[i]? = some T → a ∈ T.attrs →
    ∀ b, a.name.Uses b → b ∈ found k

theorem uses_of_prefixed {e : NameSpec} {dflt : Option Str} (hp : (e.element dflt).pfx ≠ []) (ns : Str)
    (hns : e.ns = some ns) : e.Uses ((e.element dflt).pfx, ns) := by
  have hq : e.qualified = true := by
    cases h : e.qualified with
    | true => rfl
    | false => exact absurd (by simp [NameSpec.element, h]) hp
  exact uses_of_same ⟨hq, rfl, rfl⟩ hp ns hns

theorem reaches_within {d : Decls X} {m : Mode} {dflt : Option Str} (shape : (d.schema m dflt).Shape) {ty ty' : TyRef} {v w : Val X}
    (hw : Within (d.schema m dflt) ty v ty' w) : ∀ {k i j : Nat}, d.Reaches k i → ty = .struct i →
      ty' = .struct j → d.Reaches k j := by
  induction hw with
  | refl => intro k i j h h1 h2; rw [h1] at h2; cases h2; exact h
  | @step ty w f x ty' w' hc hw ih =>
    intro k i j h h1 h2
    subst h1
    obtain ⟨i', T, e, h3, hT, he, rfl⟩ := child_decl shape hc
    cases h3
    cases hty : (e.spec dflt).ty with
    | struct i' => exact ih (.step h hT he hty) hty h2
    | simple i' =>
      exfalso
      rw [hty, h2] at hw
      cases hw with
      | step hc' _ => obtain ⟨_, _, h4, _⟩ := hc'.spec shape; cases h4
    | variant i' =>
      exfalso
      rw [hty, h2] at hw
      cases hw with
      | step hc' _ => obtain ⟨_, _, h4, _⟩ := hc'.spec shape; cases h4

theorem GlobalOk.decl {d : Decls X} {dflt : Option Str} {binds : Str → Str}
    {found : Nat → List (Str × Str)} (ag : ∀ j, Agrees binds (found j))
    (j : Nat) (U : TypeDecl X) (x : Val X) (name : Str) (root : Bool)
    (h : Agrees binds (U.tag.xmlns name ++ U.tag.rootXmlns name)) :
    Agrees binds ((d.spec (.global found) dflt j U).declares x name root) := by
  rw [declares_global]
  refine agrees_append (agrees_left h) ?_
  cases root with
  | false => exact agrees_nil
  | true => exact agrees_append (fun b hb => h b (List.mem_append_right _ hb)) (ag j)

theorem GlobalOk.attrsNamed {d : Decls X} {dflt : Option Str} {binds : Str → Str}
    {found : Nat → List (Str × Str)} {k : Nat} (ok : d.GlobalOk dflt binds found k) (ty : TyRef)
    (hr : ∀ j, ty = .struct j → d.Reaches k j) (w : Val X) (name : Str) (root : Bool) :
    AttrsNamed (d.schema (.global found) dflt) (found k) ty w name root := by
  intro j D hty hD a ha
  obtain ⟨U, hU, rfl⟩ := schema_get_some hD
  obtain ⟨a', ha', rfl⟩ := List.mem_map.mp ha
  by_cases hp : a'.name.attribute.pfx = []
  · exact Or.inl hp
  · exact Or.inr fun ns hns => List.mem_append_left _
      (ok.attrs j U a' (hr j hty) hU ha' _ (uses_of_attribute hp ns hns))

/-- **C13** for `NamespaceSerialization::Global`. -/
theorem C13_global_round_trip_partial (d : Decls X) (dflt : Option Str) (binds : Str → Str)
    (found : Nat → List (Str × Str)) (shape : (d.schema (.global found) dflt).Shape) (k : Nat)
    (ok : d.GlobalOk dflt binds found k) (T : TypeDecl X)
    (hT : d.types[k]? = some T) (v : Val X) (hv : HasTy (d.schema (.global found) dflt) (.struct k) v)
    (name : Str) (hname : Agrees binds (T.tag.xmlns name ++ T.tag.rootXmlns name)) (n : Nat)
    (hn : depth v < n) (rest : List Event) :
    ∃ out evs, (ser (d.schema (.global found) dflt) n).Emits (.struct k (.init v name true)) {} out {} ∧
      reread out = some evs ∧
      Drv.run (genEnv posTrack) (de (d.schema (.global found) dflt) n (.struct k)).toDeser { helper := {} }
        (evs ++ rest) = .done v rest := by
  refine C13_document_round_trip_partial _ binds (found k) ?_ k _
    (schema_text d (.global found) dflt hT) v hv ?_ name ?_
    (GlobalOk.decl ok.agree k T v name true hname) ?_ n hn rest
  · exact
      { toShape := shape
        root := ok.agree k
        decls := by
          intro D hD f hf x root
          obtain ⟨i, T, e, hT, he, rfl⟩ := mem_elements hD hf
          cases hty : (e.spec dflt).ty with
          | simple j => exact agrees_nil
          | variant j => exact agrees_nil
          | struct j =>
            rw [tyDeclares_struct]
            cases hU : d.types[j]? with
            | none => exact agrees_nil
            | some U =>
              have h1 := ok.tags T e ⟨List.mem_of_getElem? hT, elements_struct d T e j he hty⟩ j U hty hU
              exact GlobalOk.decl ok.agree j U x _ root h1 }
  · intro ty w hw f x hc root
    obtain ⟨i, T, e, rfl, hT, he, rfl⟩ := child_decl shape hc
    have hr : d.Reaches k i := reaches_within shape hw .refl rfl rfl
    refine ⟨?_, GlobalOk.attrsNamed ok _ (fun j hj => .step hr hT he hj) _ _ _⟩
    by_cases hp : e.Prefixed dflt
    · exact Or.inr fun ns hns => List.mem_append_left _
        (ok.elems i T e hr hT he hp _ (uses_of_prefixed hp ns hns))
    · exact Or.inl (Classical.not_not.mp hp)
  · intro b hb
    rw [declares_global]
    exact List.mem_append_right _ (List.mem_append_right _ hb)
  · exact GlobalOk.attrsNamed ok _ (by intro j hj; cases hj; exact .refl) _ _ _

/-! ## The mode `Local` -/

/-- The type declares the namespace of its tag. -/
def TypeDecl.DeclaresTag (T : TypeDecl X) (dflt : Option Str) : Prop :=
  T.tag.qualified = true ∨ T.tag.isDefault dflt = false

/-- **Specification.** What `Local` needs of a type on a tag whose name has the prefix `p`: the
attributes of one namespace have one prefix; those of the namespace of the type have the prefix of
the tag, if that is what the tag declares; and what is declared agrees with `binds`. -/
structure TypeDecl.LocalOk (T : TypeDecl X) (dflt : Option Str) (binds : Str → Str) (p : Str) : Prop where
  tag : T.DeclaresTag dflt → ∀ ns, T.tag.ns = some ns → p ≠ [] → binds p = ns ∧ ns ≠ []
  attrs : ∀ a ∈ T.attrs, ∀ b, a.name.Uses b → b.1 ≠ [] → binds b.1 = b.2 ∧ b.2 ≠ []
  one : ∀ a ∈ T.attrs, ∀ a' ∈ T.attrs, a.name.qualified = true → a'.name.qualified = true →
    a.name.ns = a'.name.ns → a.name.pfx = a'.name.pfx
  own : T.DeclaresTag dflt → ∀ a ∈ T.attrs, a.name.qualified = true → a.name.ns = T.tag.ns →
    a.name.attribute.pfx = p

/-- **Specification.** What `Local` needs: the element has a complex type, which is in the
namespace of the element, and declares it. -/
structure Decls.LocalOk (d : Decls X) (dflt : Option Str) (binds : Str → Str) : Prop where
  types : ∀ T e, d.Elem T e → ∀ (j : Nat) U, e.ty = .struct j → d.types[j]? = some U →
    U.LocalOk dflt binds (e.name.element dflt).pfx
  elems : ∀ T e, d.Elem T e → e.Prefixed dflt → e.name.ns ≠ none →
    ∃ (j : Nat) (U : TypeDecl X), e.ty = .struct j ∧ d.types[j]? = some U ∧ U.DeclaresTag dflt ∧
      U.tag.ns = e.name.ns

theorem declaresTag_iff (T : TypeDecl X) (dflt : Option Str) :
    (!T.tag.isDefault dflt || T.tag.qualified) = true ↔ T.DeclaresTag dflt := by
  unfold TypeDecl.DeclaresTag
  cases T.tag.isDefault dflt <;> cases T.tag.qualified <;> simp

theorem mem_localTag (T : TypeDecl X) (dflt : Option Str) (name : Str) (b : Str × Str) :
    b ∈ localTag dflt T.tag name ↔
      T.DeclaresTag dflt ∧ T.tag.ns = some b.2 ∧ b.1 = tagPrefix name := by
  unfold localTag
  by_cases h : T.DeclaresTag dflt
  · rw [if_pos ((declaresTag_iff T dflt).mpr h)]
    cases hn : T.tag.ns with
    | none => simp
    | some ns =>
      obtain ⟨b1, b2⟩ := b
      simp only [List.mem_singleton, Prod.mk.injEq, Option.some.injEq]
      exact ⟨fun ⟨h1, h2⟩ => ⟨h, h2.symm, h1⟩, fun ⟨_, h1, h2⟩ => ⟨h2, h1.symm⟩⟩
  · rw [if_neg (fun hc => h ((declaresTag_iff T dflt).mp hc))]
    simp [h]

theorem mem_localCache (T : TypeDecl X) (dflt : Option Str) (o : Option Str) :
    o ∈ localCache dflt T.tag ↔ T.DeclaresTag dflt ∧ o = T.tag.ns := by
  unfold localCache
  by_cases h : T.DeclaresTag dflt
  · rw [if_pos ((declaresTag_iff T dflt).mpr h)]; simp [h]
  · rw [if_neg (fun hc => h ((declaresTag_iff T dflt).mp hc))]; simp [h]

/-- Every namespace of the attributes that is not done is declared, with the prefix of one of
the attributes. -/
theorem localAttrs_covers (as : List NameSpec) : ∀ (cache : List (Option Str)), ∀ a ∈ as,
    a.qualified = true → a.ns ∉ cache → ∀ ns, a.ns = some ns →
    ∃ a' ∈ as, a'.qualified = true ∧ a'.ns = a.ns ∧ (a'.pfx.getD [], ns) ∈ localAttrs cache as := by
  induction as with
  | nil => intro _ a h; cases h
  | cons x r ih =>
    intro cache a ha hq hc ns hns
    simp only [localAttrs]
    by_cases hx : x.qualified = true ∧ x.ns ∉ cache
    · have : (x.qualified && !cache.contains x.ns) = true := by simp [hx.1, hx.2]
      rw [if_pos this]
      by_cases hsame : x.ns = a.ns
      · refine ⟨x, by simp, hx.1, hsame, ?_⟩
        rw [hsame, hns]
        simp
      · have har : a ∈ r := by
          rcases List.mem_cons.mp ha with h | h
          · subst h; exact absurd rfl hsame
          · exact h
        obtain ⟨a', h1, h2, h3, h4⟩ := ih (x.ns :: cache) a har hq (by
          intro h
          rcases List.mem_cons.mp h with h | h
          · exact hsame h.symm
          · exact hc h) ns hns
        refine ⟨a', by simp [h1], h2, h3, ?_⟩
        cases hxn : x.ns with
        | none => rw [hxn] at h4; exact h4
        | some n => rw [hxn] at h4; exact List.mem_cons_of_mem _ h4
    · have : ¬ (x.qualified && !cache.contains x.ns) = true := by
        intro h
        simp only [Bool.and_eq_true, Bool.not_eq_true', List.contains_eq_mem, decide_eq_false_iff_not] at h
        exact hx h
      rw [if_neg this]
      have har : a ∈ r := by
        rcases List.mem_cons.mp ha with h | h
        · subst h; exact absurd ⟨hq, hc⟩ hx
        · exact h
      obtain ⟨a', h1, h2, h3, h4⟩ := ih cache a har hq hc ns hns
      exact ⟨a', by simp [h1], h2, h3, h4⟩

/-- Only namespaces of attributes are declared. -/
theorem localAttrs_only (as : List NameSpec) : ∀ (cache : List (Option Str)) b, b ∈ localAttrs cache as →
    ∃ a ∈ as, a.qualified = true ∧ b.1 = a.pfx.getD [] ∧ a.ns = some b.2 := by
  induction as with
  | nil => intro _ b h; cases h
  | cons x r ih =>
    intro cache b hb
    simp only [localAttrs] at hb
    by_cases hx : (x.qualified && !cache.contains x.ns) = true
    · rw [if_pos hx] at hb
      have hq : x.qualified = true := by simp only [Bool.and_eq_true] at hx; exact hx.1
      cases hn : x.ns with
      | none =>
        rw [hn] at hb
        obtain ⟨a, h1, h2⟩ := ih _ b hb
        exact ⟨a, by simp [h1], h2⟩
      | some ns =>
        rw [hn] at hb
        rcases List.mem_cons.mp hb with h | h
        · subst h; exact ⟨x, by simp, hq, rfl, hn⟩
        · obtain ⟨a, h1, h2⟩ := ih _ b h
          exact ⟨a, by simp [h1], h2⟩
    · rw [if_neg hx] at hb
      obtain ⟨a, h1, h2⟩ := ih _ b hb
      exact ⟨a, by simp [h1], h2⟩

theorem LocalOk.agrees {T : TypeDecl X} {dflt : Option Str} {binds : Str → Str} {name : Str}
    (ok : T.LocalOk dflt binds (tagPrefix name)) : Agrees binds (T.localXmlns dflt name) := by
  intro b hb hne
  rcases List.mem_append.mp hb with h | h
  · obtain ⟨h1, h2, h3⟩ := (mem_localTag T dflt name b).mp h
    rw [h3] at hne ⊢
    exact ok.tag h1 b.2 h2 hne
  · obtain ⟨n, h1, h2, h3, h4⟩ := localAttrs_only _ _ b h
    obtain ⟨a, ha, rfl⟩ := List.mem_map.mp h1
    refine ok.attrs a ha b ⟨h2, ?_, h4⟩ hne
    cases hp : a.name.pfx with
    | none => rw [hp] at h3; exact absurd h3 hne
    | some p => rw [hp] at h3; simp only [Option.getD_some] at h3; rw [h3]

theorem LocalOk.attrResolvable {T : TypeDecl X} {dflt : Option Str} {binds : Str → Str} {name : Str}
    (ok : T.LocalOk dflt binds (tagPrefix name)) (a : AttrDecl X) (ha : a ∈ T.attrs) :
    Resolvable (T.localXmlns dflt name) a.spec.name := by
  by_cases hp : a.name.attribute.pfx = []
  · exact Or.inl hp
  · refine Or.inr fun ns hns => ?_
    obtain ⟨hq, hpf, hns'⟩ := uses_of_attribute hp ns hns
    show (a.name.attribute.pfx, ns) ∈ _
    by_cases hc : T.DeclaresTag dflt ∧ a.name.ns = T.tag.ns
    · have := ok.own hc.1 a ha hq hc.2
      exact List.mem_append_left _ ((mem_localTag T dflt name _).mpr ⟨hc.1, hc.2 ▸ hns', this⟩)
    · obtain ⟨n, h1, h2, h3, h4⟩ := localAttrs_covers (T.attrs.map (·.name)) (localCache dflt T.tag) a.name
        (List.mem_map.mpr ⟨a, ha, rfl⟩) hq (fun h => hc ((mem_localCache T dflt _).mp h)) ns hns'
      obtain ⟨a', ha', rfl⟩ := List.mem_map.mp h1
      have := ok.one a ha a' ha' hq h2 h3.symm
      rw [← this, hpf] at h4
      exact List.mem_append_right _ h4

theorem tagPrefix_text (n : QN) (h : Plain n) : tagPrefix n.text = n.pfx := by
  unfold tagPrefix QN.text joinName
  split
  · rename_i hp
    rw [split_plain _ h.2]
    simpa using hp.symm
  · rw [split_prefixed _ _ h.1]; rfl

/-- **C13** for `NamespaceSerialization::Local`. -/
theorem C13_local_round_trip_partial (d : Decls X) (dflt : Option Str) (binds : Str → Str)
    (shape : (d.schema .local_ dflt).Shape) (ok : d.LocalOk dflt binds) (k : Nat) (T : TypeDecl X)
    (hT : d.types[k]? = some T) (v : Val X) (hv : HasTy (d.schema .local_ dflt) (.struct k) v) (name : Str)
    (hname : T.LocalOk dflt binds (tagPrefix name)) (n : Nat) (hn : depth v < n) (rest : List Event) :
    ∃ out evs, (ser (d.schema .local_ dflt) n).Emits (.struct k (.init v name true)) {} out {} ∧
      reread out = some evs ∧
      Drv.run (genEnv posTrack) (de (d.schema .local_ dflt) n (.struct k)).toDeser { helper := {} }
        (evs ++ rest) = .done v rest := by
  have plain : ∀ (i : Nat) T e, d.types[i]? = some T → e ∈ d.elements T → Plain (e.spec dflt).name := by
    intro i T e hT he
    obtain ⟨i, T, hT, he⟩ := elements_body hT he
    refine shape.fieldPlain _ (List.mem_of_getElem? (schema_text d .local_ dflt hT)) _ ?_
    change _ ∈ (T.body.spec dflt).elements
    rw [elements_spec]
    exact List.mem_map.mpr ⟨e, he, rfl⟩
  have tyOk : ∀ (i : Nat) T e, d.types[i]? = some T → e ∈ d.elements T → ∀ (j : Nat) U,
      e.ty = .struct j → d.types[j]? = some U → U.LocalOk dflt binds (tagPrefix (e.spec dflt).name.text) := by
    intro i T e hT he j U hty hU
    rw [tagPrefix_text _ (plain i T e hT he)]
    exact ok.types T e ⟨List.mem_of_getElem? hT, he⟩ j U hty hU
  refine C13_document_round_trip_partial _ binds [] ?_ k _
    (schema_text d .local_ dflt hT) v hv ?_ name (by intro b hb; cases hb)
    (by rw [declares_local]; exact LocalOk.agrees hname) ?_ n hn rest
  · exact
      { toShape := shape
        root := agrees_nil
        decls := by
          intro D hD f hf x root
          obtain ⟨i, T, e, hT, he, rfl⟩ := mem_elements hD hf
          cases hty : (e.spec dflt).ty with
          | simple j => exact agrees_nil
          | variant j => exact agrees_nil
          | struct j =>
            rw [tyDeclares_struct]
            cases hU : d.types[j]? with
            | none => exact agrees_nil
            | some U =>
              show Agrees binds ((d.spec .local_ dflt j U).declares x _ root)
              rw [declares_local]
              exact LocalOk.agrees (tyOk i T e hT (elements_struct d T e j he hty) j U hty hU) }
  · intro ty w hw f x hc root
    obtain ⟨i, T, e, rfl, hT, he, rfl⟩ := child_decl shape hc
    refine ⟨?_, ?_⟩
    · by_cases hp : e.Prefixed dflt
      · refine Or.inr fun ns hns => List.mem_append_right _ ?_
        obtain ⟨j, U, hty, hU, h1, h2⟩ := ok.elems T e ⟨List.mem_of_getElem? hT, he⟩ hp
          (by intro h; rw [show e.name.ns = some ns from hns] at h; cases h)
        rw [show (e.spec dflt).ty = _ from hty, tyDeclares_struct, hU]
        show _ ∈ (d.spec .local_ dflt j U).declares x _ root
        rw [declares_local]
        exact List.mem_append_left _ ((mem_localTag U dflt _ _).mpr
          ⟨h1, h2.trans hns, (tagPrefix_text _ (plain i T e hT he)).symm⟩)
      · exact Or.inl (Classical.not_not.mp hp)
    · intro j D hty hD a ha
      obtain ⟨U, hU, rfl⟩ := schema_get_some hD
      obtain ⟨a', ha', rfl⟩ := List.mem_map.mp ha
      rw [declares_local]
      exact LocalOk.attrResolvable (tyOk i T e hT he j U hty hU) a' ha'
  · intro j D hty hD a ha
    cases hty
    obtain ⟨U, hU, rfl⟩ := schema_get_some hD
    rw [hT] at hU
    cases hU
    obtain ⟨a', ha', rfl⟩ := List.mem_map.mp ha
    rw [declares_local]
    exact LocalOk.attrResolvable hname a' ha'

/-! ## The mode `None` -/

/-- **C13** for `NamespaceSerialization::None`: names with a prefix belong to no namespace. -/
theorem C13_none_round_trip_partial (d : Decls X) (dflt : Option Str)
    (shape : (d.schema .none dflt).Shape)
    (elems : ∀ T e, d.Elem T e → e.Prefixed dflt → e.name.ns = none)
    (attrs : ∀ T ∈ d.types, ∀ a ∈ T.attrs, a.name.attribute.pfx ≠ [] → a.name.ns = none)
    (k : Nat) (T : TypeDecl X)
    (hT : d.types[k]? = some T) (v : Val X) (hv : HasTy (d.schema .none dflt) (.struct k) v) (name : Str)
    (n : Nat) (hn : depth v < n) (rest : List Event) :
    ∃ out evs, (ser (d.schema .none dflt) n).Emits (.struct k (.init v name true)) {} out {} ∧
      reread out = some evs ∧
      Drv.run (genEnv posTrack) (de (d.schema .none dflt) n (.struct k)).toDeser { helper := {} }
        (evs ++ rest) = .done v rest := by
  have hattrs : ∀ ty w name root, AttrsNamed (d.schema .none dflt) [] ty w name root := by
    intro ty w name root j D hty hD a ha
    obtain ⟨U, hU, rfl⟩ := schema_get_some hD
    obtain ⟨a', ha', rfl⟩ := List.mem_map.mp ha
    by_cases hp : a'.name.attribute.pfx = []
    · exact Or.inl hp
    · refine Or.inr fun ns hns => ?_
      have := attrs U (List.mem_of_getElem? hU) a' ha' hp
      rw [show a'.name.ns = some ns from hns] at this
      cases this
  refine C13_document_round_trip_partial _ (fun _ => []) [] ?_ k _
    (schema_text d .none dflt hT) v hv ?_ name (by intro b hb; cases hb)
    (by rw [declares_none]; exact agrees_nil) (hattrs _ _ _ _) n hn rest
  · exact
      { toShape := shape
        root := agrees_nil
        decls := by
          intro D hD f hf x root
          cases hty : f.ty with
          | simple j => exact agrees_nil
          | variant j => exact agrees_nil
          | struct j =>
            rw [tyDeclares_struct]
            cases hU : d.types[j]? with
            | none => exact agrees_nil
            | some U => exact agrees_nil }
  · intro ty w hw f x hc root
    obtain ⟨i, T, e, rfl, hT, he, rfl⟩ := child_decl shape hc
    refine ⟨?_, hattrs _ _ _ _⟩
    by_cases hp : e.Prefixed dflt
    · refine Or.inr fun ns hns => ?_
      have := elems T e ⟨List.mem_of_getElem? hT, he⟩ hp
      rw [show e.name.ns = some ns from hns] at this
      cases this
    · exact Or.inl (Classical.not_not.mp hp)

end Verif.Gen.Tab

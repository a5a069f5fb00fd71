import Verif.Meta.Types

/-!
# The worklist of the generator (C50)

Models `xsd-parser/src/pipeline/generator`: which types are requested while the data of a type is
created (data/*.rs), how a request creates an entry of the cache and queues the type (mod.rs
416-521), and the detection of loops that decides about boxes (state.rs 122-153, context.rs).
All files cited below are in this directory.

Not modelled: names, paths and everything else of the generated data that is not a reference to
a type. The requests that come from rendering values (`make_value_renderer`: default values of
attributes, limits of simple types, constants of enumerations), from `get_simple_enum_base_type`
and from the generators of custom types are parameters; the theorems hold for all of them.
-/

namespace Verif.Generate

open Verif.Meta Verif.Occurs

/-! ## Model -/

inductive GenErr where
  /-- `Error::UnknownType` -/
  | unknownType (i : Ident)
  /-- `Error::InvalidDefaultValue` -/
  | invalidValue
  /-- `unwrap` of a missing entry -/
  | panic
  /-- the fuel of the model is used up -/
  | fuel
deriving DecidableEq, Repr

/-- `TypeRef`, state.rs 35-44. The path is not modelled. -/
structure TypeRef where
  id : Nat
  reachable : List Nat
deriving DecidableEq, Repr

/-- `TraitInfo`, state.rs 113-117. -/
structure TraitInfo where
  impls : List Ident
  derives : List Ident
deriving DecidableEq, Repr

/-- Where a reference comes from: an element (a field of a struct or a variant of an enum), a value
(a member of a union, a variant of an enumeration, the target of a type alias, simple content), an
implemented trait (`impl …Trait for …`), a trait the trait of the type requires, or something else
(attributes, bases, derived types). -/
inductive Via where
  | plain | value | element | impl | supertrait
deriving DecidableEq, Repr

/-- A reference to a type in the generated code. `inline_`: the value is stored in the
referring type itself, without `Box` and `Vec`. -/
structure Mention where
  target : Ident
  inline_ : Bool
  via : Via
deriving DecidableEq, Repr

/-- `State` (state.rs 15-21) and the generated items (`DataTypes::items`). The items are kept as
the list of all insertions; `C50_once` shows that there is one per type. -/
structure State where
  cache : List (Ident × TypeRef)
  pending : List (Ident × MetaType)
  types : List Ident
  traits : List (Ident × TraitInfo)
  items : List (Ident × List Mention)

/-- The configuration and the parameters, see above. -/
structure Cfg where
  /-- `BoxFlags::STRUCT_ELEMENTS` -/
  boxStruct : Bool
  /-- `BoxFlags::ENUM_ELEMENTS` -/
  boxEnum : Bool
  /-- requests of `make_value_renderer`, and if it succeeds -/
  valueRefs : Ident → Txt → List Ident × Bool
  /-- requests for the constant of a variant of an enumeration (errors are ignored, enumeration.rs
  105-130) -/
  constRefs : Enumeration → EnumVariant → List Ident
  /-- `simple_base_type`, enumeration.rs 28-32 -/
  enumBase : Enumeration → Option Ident
  /-- requests of the generator of a custom type -/
  customRefs : Txt → List Ident

/-- The requests a type makes while its data is created. -/
inductive Req where
  /-- `get_or_create_type_ref`; `inline_` as in `Mention` -/
  | plain (i : Ident) (inline_ : Bool)
  /-- `get_or_create_type_ref_for_value` -/
  | value (i : Ident) (byValue : Bool)
  /-- `get_or_create_type_ref_for_element`, called by `ComplexDataElement::new`, data/complex.rs
  642-646: if the content of the type is stored directly, if the occurrence of the element is, and
  if a box is forced -/
  | element (i : Ident) (directUsage directOccurs forceBox : Bool)
  /-- `make_trait_impls`, context.rs -/
  | traitImpls
  /-- `make_traits_derive`, context.rs -/
  | traitDerives
  /-- a value that cannot be rendered -/
  | fail
deriving DecidableEq, Repr

/-- `make_value_renderer`. -/
def valueReqs (cfg : Cfg) (i : Ident) (v : Txt) : List Req :=
  (cfg.valueRefs i v).1.map (fun j => Req.plain j false) ++
    if (cfg.valueRefs i v).2 then [] else [.fail]

/-- `ComplexDataElement::new`, data/complex.rs 584-665. That a single choice of optional elements
becomes optional does not matter here, both are direct. -/
def elemReqs (direct force : Bool) (e : Element) : List Req :=
  if fromOccurs e.min e.max = .none then []
  else
    match e.variant with
    | .type_ i _ => [.element i direct (fromOccurs e.min e.max).isDirect force]
    | .any _ | .text => []

/-- `ComplexDataAttribute::new_field`, data/complex.rs 772-846. -/
def attrReqs (cfg : Cfg) (a : Attribute) : List Req :=
  if a.use_ = .prohibited then []
  else
    match a.variant with
    | .any _ => []
    | .type_ i => .plain i true :: (match a.default_ with | none => [] | some v => valueReqs cfg i v)

/-- `new_struct` and `new_enum`, data/complex.rs 214-513. -/
def groupReqs (cfg : Cfg) (direct force : Bool) (attrs : List Attribute) (es : List Element) :
    List Req :=
  .traitImpls :: (attrs.flatMap (attrReqs cfg) ++ es.flatMap (elemReqs direct force))

/-- `new_complex`, data/complex.rs 99-140. -/
def complexReqs (cfg : Cfg) (T : Types) (x : Complex) : List Req :=
  let direct := (fromOccurs x.min x.max).isDirect
  match x.content with
  | none => groupReqs cfg direct cfg.boxStruct x.attributes []
  | some k =>
    match (getResolvedType T k).map MetaType.variant with
    | some (.all g) => groupReqs cfg direct cfg.boxStruct x.attributes g.elements
    | some (.sequence g) => groupReqs cfg direct cfg.boxStruct x.attributes g.elements
    | some (.choice g) => groupReqs cfg direct cfg.boxEnum x.attributes g.elements
    | some (.buildIn _) | some (.union _) | some (.enumeration _) | some (.reference _)
    | some (.simple _) | some (.custom _) =>
      .traitImpls :: .value k direct :: x.attributes.flatMap (attrReqs cfg)
    | some (.dynamic _) | some (.complex _) | none =>
      groupReqs cfg direct cfg.boxStruct x.attributes []

/-- `ConstrainsData::new`, data/constrains.rs 10-47. -/
def boundReqs (cfg : Cfg) (base : Ident) : Bound → List Req
  | .unbounded => []
  | .included v | .excluded v => valueReqs cfg base v

/-- `EnumerationMetaVariant::make_variant`, data/enumeration.rs 58-147. -/
def variantReqs (cfg : Cfg) (x : Enumeration) (v : EnumVariant) : List Req :=
  if v.use_ = .prohibited then []
  else (match v.type_ with | none => [] | some t => [.value t true]) ++
    (cfg.constRefs x v).map fun j => Req.plain j false

/-- `DataType::new`, data/type_.rs 15-46, and the functions it calls. -/
def reqsOf (cfg : Cfg) (T : Types) : Variant → List Req
  | .buildIn _ => []
  | .custom n => (cfg.customRefs n).map fun j => Req.plain j false
  | .union x => .traitImpls :: x.types.map fun u => .value u.type_ true
  | .dynamic x => .traitImpls :: .traitDerives :: x.derived.map fun d => Req.plain d.2.type_ false
  | .reference x => [.value x.type_ (fromOccurs x.min x.max).isDirect, .traitImpls]
  | .enumeration x => .traitImpls :: (x.variants.flatMap (variantReqs cfg x) ++
      (match cfg.enumBase x with | none => [] | some b => [.value b true]))
  | .all g => groupReqs cfg true cfg.boxStruct [] g.elements
  | .choice g => groupReqs cfg true cfg.boxEnum [] g.elements
  | .sequence g => groupReqs cfg true cfg.boxStruct [] g.elements
  | .complex x => complexReqs cfg T x
  | .simple x => boundReqs cfg (res T x.base) x.constrains.start ++
      boundReqs cfg (res T x.base) x.constrains.stop ++ [.plain x.base (!x.isList), .traitImpls]

/-- Insertion into a `BTreeSet`. -/
def insertNew {α : Type} [DecidableEq α] (xs : List α) (x : α) : List α :=
  if x ∈ xs then xs else xs ++ [x]

/-- `TraitInfos::update_impl`, state.rs 80-104. -/
def updateTraits (T : Types) (tr : List (Ident × TraitInfo)) (base : Ident) :
    List (Ident × TraitInfo) :=
  match (Assoc.get T base).map MetaType.variant with
  | some (.dynamic x) =>
    x.derived.foldl (fun tr d =>
      let derives : Bool :=
        (match (Assoc.get T d.2.type_).map MetaType.variant with | some (.dynamic _) => true | _ => false) &&
          base.kind == d.2.type_.kind && d.2.relationship == .directChild
      Assoc.upsert tr d.2.type_ fun o =>
        let info := o.getD ⟨[], []⟩
        ⟨insertNew info.impls base, if derives then insertNew info.derives base else info.derives⟩) tr
  | _ => tr

/-- `get_or_create_type_ref_mut` and `create_type_ref`, mod.rs 439-521. -/
def getOrCreate (T : Types) (s : State) (i : Ident) : Except GenErr State :=
  match Assoc.get s.cache i with
  | some _ => .ok s
  | none =>
    match Assoc.get T i with
    | none => .error (.unknownType i)
    | some ty =>
      .ok { s with
        cache := Assoc.upsert s.cache i fun _ => ⟨s.types.length, []⟩
        types := s.types ++ [i]
        traits := updateTraits T s.traits i
        pending := s.pending ++ [(i, ty)] }

/-- `type_ref.reachable.union_with(&self.reachable)`. -/
def addReach (s : State) (i : Ident) (reach : List Nat) : State :=
  { s with
    cache := Assoc.upsert s.cache i fun
      | none => ⟨0, []⟩ -- not reached: the entry exists
      | some r => ⟨r.id, r.reachable ++ reach⟩ }

/-- The types `need_box` looks into, context.rs 405-424. -/
def boxNext : Variant → List Ident
  | .reference x => if (fromOccurs x.min x.max).isDirect then [x.type_] else []
  | .union x => x.types.map (·.type_)
  | .enumeration x =>
    x.variants.flatMap fun v => if v.use_ = .prohibited then [] else v.type_.toList
  | _ => []

/-- `ret = ret || need_box(…)` for a list of types; `f` is `need_box`. -/
def anyBox (f : Ident → Option Bool) : List Ident → Option Bool
  | [] => some false
  | i :: is =>
    match f i with
    | none => none
    | some true => some true
    | some false => anyBox f is

/-- `need_box`, context.rs 389-440. The identifier is removed from the set afterwards, so the
set is passed by value here. `none`: out of fuel. -/
def needBoxF (T : Types) (cache : List (Ident × TypeRef)) : Nat → List Nat → Ident → Option Bool
  | 0, _, _ => none
  | fuel + 1, reach, i =>
    match Assoc.get T i with
    | none => some false
    | some ty =>
      match Assoc.get cache i with
      | none => some false
      | some r =>
        if r.id ∈ reach then some true
        else anyBox (needBoxF T cache fuel (r.id :: reach)) (boxNext ty.variant)

/-- `need_box`. -/
def needBox (T : Types) (s : State) (reach : List Nat) (i : Ident) : Option Bool :=
  needBoxF T s.cache (s.types.length + 1) reach i

/-- Plain requests. -/
def requestAll (T : Types) : State → List Ident → Except GenErr State
  | s, [] => .ok s
  | s, i :: is =>
    match getOrCreate T s i with
    | .error e => .error e
    | .ok s => requestAll T s is

/-- The traits of a type, `make_trait_impls`, `make_traits_derive`. -/
def traitsOf (s : State) (cur : Ident) : TraitInfo := (Assoc.get s.traits cur).getD ⟨[], []⟩

/-- One request of the type `cur`; `reach` is `Context::reachable`. -/
def stepReq (T : Types) (cur : Ident) (reach : List Nat) (s : State) :
    Req → Except GenErr (State × List Mention)
  | .plain i inl => (getOrCreate T s i).map fun s => (s, [⟨i, inl, .plain⟩])
  | .value i byValue =>
    (getOrCreate T s i).map fun s => (if byValue then addReach s i reach else s, [⟨i, byValue, .value⟩])
  | .element i directUsage directOccurs forceBox =>
    let byValue := !forceBox && directUsage && directOccurs
    let need : Option Bool := if byValue then needBox T s reach i else some false
    match need with
    | none => .error .fuel
    | some boxed =>
      (getOrCreate T s i).map fun s =>
        (if !boxed then addReach s i reach else s,
         [⟨i, directUsage && directOccurs && !((directUsage && boxed) || forceBox), .element⟩])
  | .traitImpls =>
    (requestAll T s (traitsOf s cur).impls).map fun s' =>
      (s', (traitsOf s cur).impls.map fun i => ⟨i, false, .impl⟩)
  | .traitDerives =>
    (requestAll T s (traitsOf s cur).derives).map fun s' =>
      (s', (traitsOf s cur).derives.map fun i => ⟨i, false, .supertrait⟩)
  | .fail => .error .invalidValue

def runReqs (T : Types) (cur : Ident) (reach : List Nat) :
    State → List Req → Except GenErr (State × List Mention)
  | s, [] => .ok (s, [])
  | s, r :: rs =>
    match stepReq T cur reach s r with
    | .error e => .error e
    | .ok (s, ms) => (runReqs T cur reach s rs).map fun p => (p.1, ms ++ p.2)

/-- The sets of the types with the given ids. `none`: panic. -/
def reachOf (s : State) : List Nat → Option (List Nat)
  | [] => some []
  | x :: xs =>
    match s.types[x]?.bind (Assoc.get s.cache) with
    | none => none
    | some r => (reachOf s xs).map fun ys => x :: (r.reachable ++ ys)

/-- `LoopDetection::get_reachable`, state.rs 134-152. `none`: panic. -/
def getReachable (s : State) (i : Ident) : Option (List Nat) :=
  match Assoc.get s.cache i with
  | none => none
  | some r => (reachOf s r.reachable).map fun ys => r.id :: ys

/-- `generate_type_intern`, mod.rs 425-435. -/
def generateOne (cfg : Cfg) (T : Types) (s : State) (i : Ident) (ty : MetaType) :
    Except GenErr State :=
  match getReachable s i with
  | none => .error .panic
  | some reach =>
    (runReqs T i reach s (reqsOf cfg T ty.variant)).map fun p =>
      { p.1 with items := p.1.items ++ [(i, p.2)] }

/-- `generate_pending`, mod.rs 416-422. -/
def pendingF (cfg : Cfg) (T : Types) : Nat → State → Except GenErr State
  | 0, _ => .error .fuel
  | fuel + 1, s =>
    match s.pending with
    | [] => .ok s
    | (i, ty) :: rest =>
      match generateOne cfg T { s with pending := rest } i ty with
      | .error e => .error e
      | .ok s => pendingF cfg T fuel s

/-- `Generator::new` and `with_type` (mod.rs) for each of the types in `fixed`. -/
def start (fixed : List Ident) : State :=
  fixed.foldl (fun s i =>
    { s with
      cache := Assoc.upsert s.cache i fun _ => ⟨s.types.length, []⟩
      types := s.types ++ [i] }) ⟨[], [], [], [], []⟩

/-- `generate_type` for one root, `generate_all_types` and `generate_named_types` (mod.rs
344-411) for all of theirs: request the roots, then work off the queue. -/
def generate (cfg : Cfg) (T : Types) (s : State) (roots : List Ident) : Except GenErr State :=
  match requestAll T s roots with
  | .error e => .error e
  | .ok s => pendingF cfg T (T.length + 1) s

/-- The roots of `generate_all_types`. -/
def allRoots (T : Types) : List Ident := Assoc.keys T

/-- The roots of `generate_named_types`. -/
def namedRoots (T : Types) : List Ident :=
  (Assoc.keys T).filter fun i => match i.name with | .named _ => true | _ => false

/-! ## Specification -/

/-- The elements of the content of a type that get a field or a variant. -/
inductive HasElement (T : Types) : Variant → Element → Prop
  | all {g e} (he : e ∈ g.elements) (hn : fromOccurs e.min e.max ≠ .none) : HasElement T (.all g) e
  | choice {g e} (he : e ∈ g.elements) (hn : fromOccurs e.min e.max ≠ .none) :
      HasElement T (.choice g) e
  | sequence {g e} (he : e ∈ g.elements) (hn : fromOccurs e.min e.max ≠ .none) :
      HasElement T (.sequence g) e
  | content {x : Complex} {k ty g e} (hk : x.content = some k) (ht : getResolvedType T k = some ty)
      (hg : ty.variant = .all g ∨ ty.variant = .choice g ∨ ty.variant = .sequence g)
      (he : e ∈ g.elements) (hn : fromOccurs e.min e.max ≠ .none) : HasElement T (.complex x) e

/-- Types that hold a simple value. -/
def IsValue : Variant → Bool
  | .buildIn _ | .union _ | .enumeration _ | .reference _ | .simple _ | .custom _ => true
  | _ => false

/-- The definition refers to the type `j`. -/
inductive RefersTo (cfg : Cfg) (T : Types) : Variant → Ident → Prop
  | element {v e j m} (h : HasElement T v e) (hj : e.variant = .type_ j m) : RefersTo cfg T v j
  | simpleContent {x k ty} (hk : x.content = some k) (ht : getResolvedType T k = some ty)
      (hv : IsValue ty.variant = true) : RefersTo cfg T (.complex x) k
  | attr {x : Complex} {a j} (ha : a ∈ x.attributes) (hu : a.use_ ≠ .prohibited)
      (hj : a.variant = .type_ j) : RefersTo cfg T (.complex x) j
  | union {x : Union} {u} (hu : u ∈ x.types) : RefersTo cfg T (.union x) u.type_
  | variant {x : Enumeration} {v j} (hv : v ∈ x.variants) (hu : v.use_ ≠ .prohibited)
      (hj : v.type_ = some j) : RefersTo cfg T (.enumeration x) j
  | reference {x} : RefersTo cfg T (.reference x) x.type_
  | base {x : Simple} : RefersTo cfg T (.simple x) x.base
  | derived {x : Meta.Dynamic} {k d} (hd : (k, d) ∈ x.derived) : RefersTo cfg T (.dynamic x) d.type_
  -- the external requests
  | default_ {x : Complex} {a j v k} (ha : a ∈ x.attributes) (hu : a.use_ ≠ .prohibited)
      (hj : a.variant = .type_ j) (hv : a.default_ = some v) (hk : k ∈ (cfg.valueRefs j v).1) :
      RefersTo cfg T (.complex x) k
  | limit {x : Simple} {v k} (hv : x.constrains.start = .included v ∨ x.constrains.start = .excluded v ∨
        x.constrains.stop = .included v ∨ x.constrains.stop = .excluded v)
      (hk : k ∈ (cfg.valueRefs (res T x.base) v).1) : RefersTo cfg T (.simple x) k
  | const {x : Enumeration} {v k} (hv : v ∈ x.variants) (hu : v.use_ ≠ .prohibited)
      (hk : k ∈ cfg.constRefs x v) : RefersTo cfg T (.enumeration x) k
  | enumBase {x b} (hb : cfg.enumBase x = some b) : RefersTo cfg T (.enumeration x) b
  | custom {n k} (hk : k ∈ cfg.customRefs n) : RefersTo cfg T (.custom n) k

/-- The types that are needed for the roots: the roots and whatever the definition of a needed
type refers to. Types in `fixed` are provided by the user, their definitions do not count. -/
inductive Needed (cfg : Cfg) (T : Types) (fixed roots : List Ident) : Ident → Prop
  | root {i} (h : i ∈ roots) : Needed cfg T fixed roots i
  | step {i j ty} (h : Needed cfg T fixed roots i) (hf : i ∉ fixed) (hi : Assoc.get T i = some ty)
      (hj : RefersTo cfg T ty.variant j) : Needed cfg T fixed roots j

/-! ## Requests are references -/

/-- The type a request is about. -/
def Req.target : Req → Option Ident
  | .plain i _ | .value i _ | .element i _ _ _ => some i
  | _ => none

theorem mem_valueReqs {cfg : Cfg} {i : Ident} {v : Txt} {r : Req} {j : Ident}
    (h : r ∈ valueReqs cfg i v) (hj : r.target = some j) : j ∈ (cfg.valueRefs i v).1 := by
  unfold valueReqs at h
  rcases List.mem_append.mp h with h | h
  · obtain ⟨k, hk, rfl⟩ := List.mem_map.mp h
    cases hj; exact hk
  · split at h
    · cases h
    · simp at h; subst h; cases hj

theorem valueReqs_mem {cfg : Cfg} {i : Ident} {v : Txt} {j : Ident}
    (h : j ∈ (cfg.valueRefs i v).1) : Req.plain j false ∈ valueReqs cfg i v := by
  unfold valueReqs
  exact List.mem_append_left _ (List.mem_map.mpr ⟨j, h, rfl⟩)

theorem mem_elemReqs {direct force : Bool} {e : Element} {r : Req} {j : Ident}
    (h : r ∈ elemReqs direct force e) (hj : r.target = some j) :
    fromOccurs e.min e.max ≠ .none ∧ ∃ m, e.variant = .type_ j m := by
  unfold elemReqs at h
  split at h
  · cases h
  · rename_i hn
    refine ⟨hn, ?_⟩
    split at h
    · rename_i i m hv
      simp at h; subst h; cases hj; exact ⟨m, hv⟩
    · cases h
    · cases h

theorem elemReqs_mem {direct force : Bool} {e : Element} {j : Ident} {m : Mode}
    (hn : fromOccurs e.min e.max ≠ .none) (hv : e.variant = .type_ j m) :
    Req.element j direct (fromOccurs e.min e.max).isDirect force ∈ elemReqs direct force e := by
  unfold elemReqs
  rw [if_neg hn, hv]; simp

theorem mem_groupReqs {cfg : Cfg} {direct force : Bool} {attrs : List Attribute} {es : List Element}
    {r : Req} {j : Ident} (h : r ∈ groupReqs cfg direct force attrs es) (hj : r.target = some j) :
    (∃ a ∈ attrs, r ∈ attrReqs cfg a) ∨
    ∃ e ∈ es, fromOccurs e.min e.max ≠ .none ∧ ∃ m, e.variant = .type_ j m := by
  unfold groupReqs at h
  simp only [List.mem_cons, List.mem_append, List.mem_flatMap] at h
  rcases h with rfl | ⟨a, ha, hr⟩ | ⟨e, he, hr⟩
  · cases hj
  · exact Or.inl ⟨a, ha, hr⟩
  · exact Or.inr ⟨e, he, mem_elemReqs hr hj⟩

theorem mem_attrReqs {cfg : Cfg} {T : Types} {x : Complex} {a : Attribute} (ha : a ∈ x.attributes)
    {r : Req} {j : Ident} (h : r ∈ attrReqs cfg a) (hj : r.target = some j) :
    RefersTo cfg T (.complex x) j := by
  unfold attrReqs at h
  split at h
  · cases h
  · rename_i hu
    split at h
    · cases h
    · rename_i i hv
      rcases List.mem_cons.mp h with rfl | h
      · cases hj; exact .attr ha hu hv
      · split at h
        · cases h
        · rename_i v hd
          exact .default_ ha hu hv hd (mem_valueReqs h hj)

/-- Whatever is requested is referred to. -/
theorem refersTo_of_req {cfg : Cfg} {T : Types} {v : Variant} {r : Req} {j : Ident}
    (h : r ∈ reqsOf cfg T v) (hj : r.target = some j) : RefersTo cfg T v j := by
  cases v with
  | buildIn _ => cases h
  | custom n =>
    obtain ⟨k, hk, rfl⟩ := List.mem_map.mp h
    cases hj; exact .custom hk
  | union x =>
    rcases List.mem_cons.mp h with rfl | h
    · cases hj
    · obtain ⟨u, hu, rfl⟩ := List.mem_map.mp h
      cases hj; exact .union hu
  | dynamic x =>
    simp only [reqsOf, List.mem_cons, List.mem_map] at h
    rcases h with rfl | rfl | ⟨d, hd, rfl⟩
    · cases hj
    · cases hj
    · cases hj; exact .derived (k := d.1) hd
  | reference x =>
    simp only [reqsOf, List.mem_cons, List.not_mem_nil, or_false] at h
    rcases h with rfl | rfl
    · cases hj; exact .reference
    · cases hj
  | enumeration x =>
    simp only [reqsOf, List.mem_cons, List.mem_append, List.mem_flatMap] at h
    rcases h with rfl | ⟨v, hv, hr⟩ | h
    · cases hj
    · unfold variantReqs at hr
      split at hr
      · cases hr
      · rename_i hu
        rcases List.mem_append.mp hr with hr | hr
        · split at hr
          · cases hr
          · rename_i t ht
            simp at hr; subst hr; cases hj
            exact .variant hv hu ht
        · obtain ⟨k, hk, rfl⟩ := List.mem_map.mp hr
          cases hj; exact .const hv hu hk
    · split at h
      · cases h
      · rename_i b hb
        simp at h; subst h; cases hj; exact .enumBase hb
  | all g =>
    rcases mem_groupReqs h hj with ⟨a, ha, _⟩ | ⟨e, he, hn, m, hv⟩
    · cases ha
    · exact .element (.all he hn) hv
  | choice g =>
    rcases mem_groupReqs h hj with ⟨a, ha, _⟩ | ⟨e, he, hn, m, hv⟩
    · cases ha
    · exact .element (.choice he hn) hv
  | sequence g =>
    rcases mem_groupReqs h hj with ⟨a, ha, _⟩ | ⟨e, he, hn, m, hv⟩
    · cases ha
    · exact .element (.sequence he hn) hv
  | complex x =>
    have empty : ∀ d f, r ∈ groupReqs cfg d f x.attributes [] → RefersTo cfg T (.complex x) j := by
      intro d f h
      rcases mem_groupReqs h hj with ⟨a, ha, hr⟩ | ⟨e, he, _⟩
      · exact mem_attrReqs ha hr hj
      · cases he
    simp only [reqsOf, complexReqs] at h
    cases hk : x.content with
    | none => rw [hk] at h; exact empty _ _ h
    | some k =>
      rw [hk] at h
      simp only at h
      cases ht : getResolvedType T k with
      | none => rw [ht] at h; exact empty _ _ h
      | some ty =>
        rw [ht] at h
        simp only [Option.map_some] at h
        have group : ∀ d f g, (ty.variant = .all g ∨ ty.variant = .choice g ∨ ty.variant = .sequence g) →
            r ∈ groupReqs cfg d f x.attributes g.elements → RefersTo cfg T (.complex x) j := by
          intro d f g hg h
          rcases mem_groupReqs h hj with ⟨a, ha, hr⟩ | ⟨e, he, hn, m, hv⟩
          · exact mem_attrReqs ha hr hj
          · exact .element (.content hk ht hg he hn) hv
        have value : ∀ d, IsValue ty.variant = true →
            r ∈ Req.traitImpls :: Req.value k d :: x.attributes.flatMap (attrReqs cfg) →
            RefersTo cfg T (.complex x) j := by
          intro d hv h
          simp only [List.mem_cons, List.mem_flatMap] at h
          rcases h with rfl | rfl | ⟨a, ha, hr⟩
          · cases hj
          · cases hj; exact .simpleContent hk ht hv
          · exact mem_attrReqs ha hr hj
        cases hv : ty.variant with
        | all g => rw [hv] at h; exact group _ _ g (Or.inl hv) h
        | choice g => rw [hv] at h; exact group _ _ g (Or.inr (Or.inl hv)) h
        | sequence g => rw [hv] at h; exact group _ _ g (Or.inr (Or.inr hv)) h
        | dynamic _ => rw [hv] at h; exact empty _ _ h
        | complex _ => rw [hv] at h; exact empty _ _ h
        | buildIn _ => rw [hv] at h; exact value _ (by rw [hv]; rfl) h
        | union _ => rw [hv] at h; exact value _ (by rw [hv]; rfl) h
        | enumeration _ => rw [hv] at h; exact value _ (by rw [hv]; rfl) h
        | reference _ => rw [hv] at h; exact value _ (by rw [hv]; rfl) h
        | simple _ => rw [hv] at h; exact value _ (by rw [hv]; rfl) h
        | custom _ => rw [hv] at h; exact value _ (by rw [hv]; rfl) h
  | simple x =>
    simp only [reqsOf, List.mem_append, List.mem_cons, List.not_mem_nil, or_false] at h
    have bnd : ∀ b : Bound, r ∈ boundReqs cfg (res T x.base) b →
        ∃ v, (b = .included v ∨ b = .excluded v) ∧ j ∈ (cfg.valueRefs (res T x.base) v).1 := by
      intro b hb
      cases b with
      | unbounded => cases hb
      | included v => exact ⟨v, Or.inl rfl, mem_valueReqs hb hj⟩
      | excluded v => exact ⟨v, Or.inr rfl, mem_valueReqs hb hj⟩
    rcases h with (h | h) | rfl | rfl
    · obtain ⟨v, hv, hk⟩ := bnd _ h
      exact .limit (v := v) (by rcases hv with hv | hv <;> simp [hv]) hk
    · obtain ⟨v, hv, hk⟩ := bnd _ h
      exact .limit (v := v) (by rcases hv with hv | hv <;> simp [hv]) hk
    · cases hj; exact .base
    · cases hj

theorem groupReqs_elem {cfg : Cfg} {direct force : Bool} {attrs : List Attribute} {es : List Element}
    {e : Element} {j : Ident} {m : Mode} (he : e ∈ es) (hn : fromOccurs e.min e.max ≠ .none)
    (hv : e.variant = .type_ j m) :
    Req.element j direct (fromOccurs e.min e.max).isDirect force ∈ groupReqs cfg direct force attrs es := by
  unfold groupReqs
  refine List.mem_cons_of_mem _ (List.mem_append_right _ (List.mem_flatMap.mpr ⟨e, he, ?_⟩))
  exact elemReqs_mem hn hv

/-- The requests for attributes come in all cases. -/
theorem complexReqs_attr {cfg : Cfg} {T : Types} {x : Complex} {a : Attribute} {r : Req}
    (ha : a ∈ x.attributes) (hr : r ∈ attrReqs cfg a) : r ∈ complexReqs cfg T x := by
  have hf : r ∈ x.attributes.flatMap (attrReqs cfg) := List.mem_flatMap.mpr ⟨a, ha, hr⟩
  have grp : ∀ d f es, r ∈ groupReqs cfg d f x.attributes es := fun d f es =>
    List.mem_cons_of_mem _ (List.mem_append_left _ hf)
  unfold complexReqs
  simp only
  split
  · exact grp _ _ _
  · split
    all_goals first
      | exact grp _ _ _
      | exact List.mem_cons_of_mem _ (List.mem_cons_of_mem _ hf)

/-- Whatever is referred to is requested. -/
theorem req_of_refersTo {cfg : Cfg} {T : Types} {v : Variant} {j : Ident}
    (h : RefersTo cfg T v j) : ∃ r ∈ reqsOf cfg T v, r.target = some j := by
  have bnd : ∀ (x : Simple) (b : Bound) (v : Txt) (k : Ident), (b = .included v ∨ b = .excluded v) →
      k ∈ (cfg.valueRefs (res T x.base) v).1 →
      Req.plain k false ∈ boundReqs cfg (res T x.base) b := by
    intro x b v k hb hk
    rcases hb with rfl | rfl <;> exact valueReqs_mem hk
  cases h with
  | element h hj =>
    cases h with
    | all he hn => exact ⟨_, groupReqs_elem he hn hj, rfl⟩
    | choice he hn => exact ⟨_, groupReqs_elem he hn hj, rfl⟩
    | sequence he hn => exact ⟨_, groupReqs_elem he hn hj, rfl⟩
    | content hk ht hg he hn =>
      rcases hg with hg | hg | hg <;>
        exact ⟨_, by simp only [reqsOf, complexReqs, hk, ht, Option.map_some, hg]
                     exact groupReqs_elem he hn hj, rfl⟩
  | @simpleContent x k ty hk ht hv =>
    refine ⟨.value _ (fromOccurs x.min x.max).isDirect, ?_, rfl⟩
    simp only [reqsOf, complexReqs, hk, ht, Option.map_some]
    cases hty : ty.variant with
    | all _ => rw [hty] at hv; cases hv
    | choice _ => rw [hty] at hv; cases hv
    | sequence _ => rw [hty] at hv; cases hv
    | dynamic _ => rw [hty] at hv; cases hv
    | complex _ => rw [hty] at hv; cases hv
    | _ => simp
  | attr ha hu hj =>
    exact ⟨_, complexReqs_attr ha (by unfold attrReqs; rw [if_neg hu, hj]; exact List.mem_cons_self), rfl⟩
  | union hu => exact ⟨_, List.mem_cons_of_mem _ (List.mem_map.mpr ⟨_, hu, rfl⟩), rfl⟩
  | variant hv hu hj =>
    refine ⟨.value j true, List.mem_cons_of_mem _ (List.mem_append_left _
      (List.mem_flatMap.mpr ⟨_, hv, ?_⟩)), rfl⟩
    unfold variantReqs
    rw [if_neg hu, hj]; simp
  | reference => exact ⟨_, List.mem_cons_self, rfl⟩
  | base => exact ⟨.plain _ _, List.mem_append_right _ List.mem_cons_self, rfl⟩
  | derived hd =>
    exact ⟨_, List.mem_cons_of_mem _ (List.mem_cons_of_mem _ (List.mem_map.mpr ⟨_, hd, rfl⟩)), rfl⟩
  | default_ ha hu hj hv hk =>
    refine ⟨.plain j false, complexReqs_attr ha ?_, rfl⟩
    unfold attrReqs
    rw [if_neg hu, hj]
    simp only [hv]
    exact List.mem_cons_of_mem _ (valueReqs_mem hk)
  | @limit x v k hv hk =>
    refine ⟨.plain j false, ?_, rfl⟩
    rcases hv with hv | hv | hv | hv
    · exact List.mem_append_left _ (List.mem_append_left _ (bnd x _ v j (Or.inl hv) hk))
    · exact List.mem_append_left _ (List.mem_append_left _ (bnd x _ v j (Or.inr hv) hk))
    · exact List.mem_append_left _ (List.mem_append_right _ (bnd x _ v j (Or.inl hv) hk))
    · exact List.mem_append_left _ (List.mem_append_right _ (bnd x _ v j (Or.inr hv) hk))
  | const hv hu hk =>
    refine ⟨.plain j false, List.mem_cons_of_mem _ (List.mem_append_left _
      (List.mem_flatMap.mpr ⟨_, hv, ?_⟩)), rfl⟩
    unfold variantReqs
    rw [if_neg hu]
    exact List.mem_append_right _ (List.mem_map.mpr ⟨j, hk, rfl⟩)
  | enumBase hb =>
    refine ⟨.value j true, List.mem_cons_of_mem _ (List.mem_append_right _ ?_), rfl⟩
    rw [hb]; simp
  | custom hk => exact ⟨_, List.mem_map.mpr ⟨_, hk, rfl⟩, rfl⟩

/-! ## Invariant -/

/-- An id that stands for a type in the cache. -/
def ValidId (s : State) (x : Nat) : Prop := ∃ j, s.types[x]? = some j ∧ j ∈ Assoc.keys s.cache

/-- Holds while the queue is worked off; `now` is the type that is being generated. -/
structure Inv (cfg : Cfg) (T : Types) (fixed roots now : List Ident) (s : State) : Prop where
  keysIff : ∀ i, i ∈ Assoc.keys s.cache ↔
    i ∈ fixed ∨ i ∈ Assoc.keys s.items ∨ i ∈ now ∨ i ∈ Assoc.keys s.pending
  nodup : (Assoc.keys s.items ++ (now ++ Assoc.keys s.pending)).Nodup
  notFixed : ∀ i, i ∈ Assoc.keys s.items ∨ i ∈ now ∨ i ∈ Assoc.keys s.pending → i ∉ fixed
  known : ∀ i, i ∈ Assoc.keys s.items ∨ i ∈ now → i ∈ Assoc.keys T
  pend : ∀ i ty, (i, ty) ∈ s.pending → Assoc.get T i = some ty
  ids : ∀ i r, Assoc.get s.cache i = some r →
    s.types[r.id]? = some i ∧ ∀ x ∈ r.reachable, ValidId s x
  needed : ∀ i, i ∈ Assoc.keys s.items ∨ i ∈ now ∨ i ∈ Assoc.keys s.pending →
    Needed cfg T fixed roots i
  closed : ∀ i ms, (i, ms) ∈ s.items → (∀ m ∈ ms, m.target ∈ Assoc.keys s.cache) ∧
    ∀ ty j, Assoc.get T i = some ty → RefersTo cfg T ty.variant j → j ∈ Assoc.keys s.cache
  traits : ∀ i info, Assoc.get s.traits i = some info →
    ∀ j, j ∈ info.impls ∨ j ∈ info.derives → j ∈ Assoc.keys s.cache

/-- The number of types that are not in the cache. -/
def uncached (T : Types) (c : List (Ident × TypeRef)) : Nat :=
  ((Assoc.keys T).filter fun k => !(Assoc.keys c).contains k).length

theorem uncached_same {T : Types} {c c' : List (Ident × TypeRef)}
    (h : ∀ p, p ∈ Assoc.keys c' ↔ p ∈ Assoc.keys c) : uncached T c' = uncached T c := by
  unfold uncached
  congr 2
  funext k
  by_cases hk : k ∈ Assoc.keys c
  · simp [hk, (h k).mpr hk]
  · have hk' : k ∉ Assoc.keys c' := fun hx => hk ((h k).mp hx)
    simp [hk, hk']

theorem uncached_insert {T : Types} {c c' : List (Ident × TypeRef)} {i : Ident}
    (hi : i ∈ Assoc.keys T) (hc : i ∉ Assoc.keys c)
    (hk : ∀ p, p ∈ Assoc.keys c' ↔ p = i ∨ p ∈ Assoc.keys c) : uncached T c' < uncached T c := by
  unfold uncached
  generalize Assoc.keys T = ks at hi
  induction ks with
  | nil => cases hi
  | cons k ks ih =>
    have hle : (ks.filter fun k => !(Assoc.keys c').contains k).length ≤
        (ks.filter fun k => !(Assoc.keys c).contains k).length := by
      clear ih hi
      induction ks with
      | nil => simp
      | cons k ks ih =>
        by_cases hc : k ∈ Assoc.keys c
        · have hc' := (hk k).mpr (Or.inr hc)
          simp [hc, hc']; simpa using ih
        · by_cases hc' : k ∈ Assoc.keys c'
          · simp [hc, hc']; simp at ih; omega
          · simp [hc, hc']; simpa using ih
    by_cases hki : k = i
    · subst hki
      have h1 := (hk k).mpr (Or.inl rfl)
      simp [hc, h1]; simp at hle; omega
    · have ih := ih (by rcases List.mem_cons.mp hi with h | h; exact absurd h.symm hki; exact h)
      by_cases hcc : k ∈ Assoc.keys c
      · have h1 := (hk k).mpr (Or.inr hcc)
        simp [hcc, h1]; simpa using ih
      · have h1 : k ∉ Assoc.keys c' := by
          rw [hk]; rintro (h | h)
          · exact hki h
          · exact hcc h
        simp [hcc, h1]; simpa using ih

/-- What requests do. -/
structure Grows (T : Types) (s s' : State) : Prop where
  items : s'.items = s.items
  keys : ∀ i, i ∈ Assoc.keys s.cache → i ∈ Assoc.keys s'.cache
  types : ∃ l, s'.types = s.types ++ l
  pending : ∃ l, s'.pending = s.pending ++ l
  refs : ∀ i r, Assoc.get s.cache i = some r →
    ∃ r', Assoc.get s'.cache i = some r' ∧ r'.id = r.id ∧ ∀ x ∈ r.reachable, x ∈ r'.reachable
  measure : uncached T s'.cache + s'.pending.length ≤ uncached T s.cache + s.pending.length

theorem Grows.refl (T : Types) (s : State) : Grows T s s :=
  ⟨rfl, fun _ h => h, ⟨[], by simp⟩, ⟨[], by simp⟩, fun _ r h => ⟨r, h, rfl, fun _ h => h⟩,
    Nat.le_refl _⟩

theorem Grows.trans {T : Types} {s s' s'' : State} (h : Grows T s s') (h' : Grows T s' s'') :
    Grows T s s'' := by
  obtain ⟨l, hl⟩ := h.types
  obtain ⟨l', hl'⟩ := h'.types
  obtain ⟨p, hp⟩ := h.pending
  obtain ⟨p', hp'⟩ := h'.pending
  exact ⟨h'.items.trans h.items, fun i hi => h'.keys i (h.keys i hi),
    ⟨l ++ l', by rw [hl', hl, List.append_assoc]⟩, ⟨p ++ p', by rw [hp', hp, List.append_assoc]⟩, by
      intro i r hr
      obtain ⟨r1, h1, h2, h3⟩ := h.refs i r hr
      obtain ⟨r2, h4, h5, h6⟩ := h'.refs i r1 h1
      exact ⟨r2, h4, h5.trans h2, fun x hx => h6 x (h3 x hx)⟩,
    Nat.le_trans h'.measure h.measure⟩

theorem ValidId.grows {T : Types} {s s' : State} (h : Grows T s s') {x : Nat} (hx : ValidId s x) :
    ValidId s' x := by
  obtain ⟨j, hj, hk⟩ := hx
  obtain ⟨l, hl⟩ := h.types
  refine ⟨j, ?_, h.keys j hk⟩
  rw [hl, List.getElem?_append_left]
  · exact hj
  · exact (List.getElem?_eq_some_iff.mp hj).1

theorem mem_insertNew {α : Type} [DecidableEq α] {xs : List α} {x y : α} :
    y ∈ insertNew xs x ↔ y ∈ xs ∨ y = x := by
  unfold insertNew
  split
  · rename_i h
    constructor
    · exact Or.inl
    · rintro (h' | rfl)
      · exact h'
      · exact h
  · simp

theorem mem_ite_insertNew {α : Type} [DecidableEq α] {c : Bool} {xs : List α} {x y : α}
    (h : y ∈ if c then insertNew xs x else xs) : y ∈ xs ∨ y = x := by
  cases c with
  | true => exact mem_insertNew.mp h
  | false => exact Or.inl h

theorem updateTraits_mem {T : Types} {tr : List (Ident × TraitInfo)} {base : Ident} {P : Ident → Prop}
    (h : ∀ i info, Assoc.get tr i = some info → ∀ j, j ∈ info.impls ∨ j ∈ info.derives → P j)
    (hb : P base) :
    ∀ i info, Assoc.get (updateTraits T tr base) i = some info →
      ∀ j, j ∈ info.impls ∨ j ∈ info.derives → P j := by
  unfold updateTraits
  split
  · rename_i x _
    generalize x.derived = ds
    induction ds generalizing tr with
    | nil => exact h
    | cons d ds ih =>
      simp only [List.foldl_cons]
      apply ih
      intro i info hi j hj
      rw [Assoc.get_upsert] at hi
      split at hi
      · cases hi
        have old : ∀ j, j ∈ ((Assoc.get tr d.2.type_).getD ⟨[], []⟩).impls ∨
            j ∈ ((Assoc.get tr d.2.type_).getD ⟨[], []⟩).derives → P j := by
          intro j hj
          cases hg : Assoc.get tr d.2.type_ with
          | none => rw [hg] at hj; simp at hj
          | some o => rw [hg] at hj; exact h _ _ hg j hj
        rcases hj with hj | hj
        · rcases mem_insertNew.mp hj with hj | rfl
          · exact old j (Or.inl hj)
          · exact hb
        · rcases mem_ite_insertNew hj with hj | rfl
          · exact old j (Or.inr hj)
          · exact hb
      · exact h i info hi j hj
  · exact h

/-- The errors that can occur. -/
def Allowed (cfg : Cfg) (T : Types) (fixed roots : List Ident) : GenErr → Prop
  | .unknownType j => Needed cfg T fixed roots j ∧ j ∉ Assoc.keys T
  | .invalidValue => ∃ j v, (cfg.valueRefs j v).2 = false
  | .panic => False
  | .fuel => False

variable {cfg : Cfg} {T : Types} {fixed roots now : List Ident}

theorem getOrCreate_ok {s s' : State} {i : Ident} (hinv : Inv cfg T fixed roots now s)
    (hi : Needed cfg T fixed roots i ∨ i ∈ Assoc.keys s.cache) (h : getOrCreate T s i = .ok s') :
    Inv cfg T fixed roots now s' ∧ Grows T s s' ∧ i ∈ Assoc.keys s'.cache := by
  unfold getOrCreate at h
  cases hc : Assoc.get s.cache i with
  | some r =>
    rw [hc] at h
    cases h
    exact ⟨hinv, .refl T s, (Assoc.get_isSome _ _).mp (by rw [hc]; rfl)⟩
  | none =>
    rw [hc] at h
    have hnot := (Assoc.get_eq_none _ _).mp hc
    have hn : Needed cfg T fixed roots i := hi.resolve_right hnot
    cases ht : Assoc.get T i with
    | none => rw [ht] at h; cases h
    | some ty =>
      rw [ht] at h
      cases h
      have hkT : i ∈ Assoc.keys T := (Assoc.get_isSome _ _).mp (by rw [ht]; rfl)
      have hkeys : ∀ j, j ∈ Assoc.keys (Assoc.upsert s.cache i fun _ => ⟨s.types.length, []⟩) ↔
          j = i ∨ j ∈ Assoc.keys s.cache := fun j => Assoc.mem_keys_upsert _ _ _ _
      have hpk : Assoc.keys (s.pending ++ [(i, ty)]) = Assoc.keys s.pending ++ [i] := by
        simp [Assoc.keys]
      have hgrow : Grows T s { s with
          cache := Assoc.upsert s.cache i fun _ => ⟨s.types.length, []⟩
          types := s.types ++ [i]
          traits := updateTraits T s.traits i
          pending := s.pending ++ [(i, ty)] } := by
        refine ⟨rfl, fun j hj => (hkeys j).mpr (Or.inr hj), ⟨_, rfl⟩, ⟨_, rfl⟩, ?_, ?_⟩
        · intro j r hr
          refine ⟨r, ?_, rfl, fun _ h => h⟩
          simp only
          rw [Assoc.get_upsert, if_neg]
          · exact hr
          · rintro rfl
            rw [hc] at hr; cases hr
        have := uncached_insert hkT hnot hkeys
        simp only [List.length_append, List.length_singleton]
        omega
      refine ⟨?_, hgrow, (hkeys i).mpr (Or.inl rfl)⟩
      have hfresh : ¬ (i ∈ fixed ∨ i ∈ Assoc.keys s.items ∨ i ∈ now ∨ i ∈ Assoc.keys s.pending) :=
        fun h => hnot ((hinv.keysIff i).mpr h)
      refine ⟨?_, ?_, ?_, hinv.known, ?_, ?_, ?_, ?_, ?_⟩
      · intro j
        rw [hkeys, hinv.keysIff, hpk, List.mem_append, List.mem_singleton]
        constructor
        · rintro (h | h | h | h | h)
          · exact Or.inr (Or.inr (Or.inr (Or.inr h)))
          · exact Or.inl h
          · exact Or.inr (Or.inl h)
          · exact Or.inr (Or.inr (Or.inl h))
          · exact Or.inr (Or.inr (Or.inr (Or.inl h)))
        · rintro (h | h | h | h | h)
          · exact Or.inr (Or.inl h)
          · exact Or.inr (Or.inr (Or.inl h))
          · exact Or.inr (Or.inr (Or.inr (Or.inl h)))
          · exact Or.inr (Or.inr (Or.inr (Or.inr h)))
          · exact Or.inl h
      · rw [hpk, ← List.append_assoc, ← List.append_assoc]
        refine List.nodup_append.mpr ⟨by rw [List.append_assoc]; exact hinv.nodup, by simp, ?_⟩
        intro a ha b hb
        simp at hb; subst hb
        rintro rfl
        apply hfresh
        simp only [List.mem_append] at ha
        rcases ha with (h | h) | h
        · exact Or.inr (Or.inl h)
        · exact Or.inr (Or.inr (Or.inl h))
        · exact Or.inr (Or.inr (Or.inr h))
      · intro j hj
        rw [hpk, List.mem_append, List.mem_singleton] at hj
        rcases hj with h | h | h | rfl
        · exact hinv.notFixed j (Or.inl h)
        · exact hinv.notFixed j (Or.inr (Or.inl h))
        · exact hinv.notFixed j (Or.inr (Or.inr h))
        · exact fun h => hfresh (Or.inl h)
      · intro j ty' hj
        rcases List.mem_append.mp hj with hj | hj
        · exact hinv.pend j ty' hj
        · simp at hj; obtain ⟨rfl, rfl⟩ := hj; exact ht
      · intro j r hr
        simp only at hr
        rw [Assoc.get_upsert] at hr
        split at hr
        · rename_i heq
          subst heq
          cases hr
          exact ⟨by simp, by simp⟩
        · obtain ⟨h1, h2⟩ := hinv.ids j r hr
          refine ⟨?_, fun x hx => (h2 x hx).grows hgrow⟩
          show (s.types ++ [i])[r.id]? = some j
          rw [List.getElem?_append_left (List.getElem?_eq_some_iff.mp h1).1]
          exact h1
      · intro j hj
        rw [hpk, List.mem_append, List.mem_singleton] at hj
        rcases hj with h | h | h | rfl
        · exact hinv.needed j (Or.inl h)
        · exact hinv.needed j (Or.inr (Or.inl h))
        · exact hinv.needed j (Or.inr (Or.inr h))
        · exact hn
      · intro j ms hj
        obtain ⟨h1, h2⟩ := hinv.closed j ms hj
        exact ⟨fun m hm => (hkeys _).mpr (Or.inr (h1 m hm)),
          fun ty' k hty hk => (hkeys _).mpr (Or.inr (h2 ty' k hty hk))⟩
      · apply updateTraits_mem
        · intro j info hj k hk
          exact (hkeys _).mpr (Or.inr (hinv.traits j info hj k hk))
        · exact (hkeys i).mpr (Or.inl rfl)

theorem getOrCreate_err {s : State} {i : Ident} {e : GenErr}
    (hi : Needed cfg T fixed roots i ∨ i ∈ Assoc.keys s.cache) (h : getOrCreate T s i = .error e) :
    Allowed cfg T fixed roots e := by
  unfold getOrCreate at h
  cases hc : Assoc.get s.cache i with
  | some r => rw [hc] at h; cases h
  | none =>
    rw [hc] at h
    cases ht : Assoc.get T i with
    | some ty => rw [ht] at h; cases h
    | none =>
      rw [ht] at h
      cases h
      exact ⟨hi.resolve_right ((Assoc.get_eq_none _ _).mp hc), (Assoc.get_eq_none _ _).mp ht⟩

theorem addReach_ok {s : State} {i : Ident} {reach : List Nat}
    (hinv : Inv cfg T fixed roots now s) (hi : i ∈ Assoc.keys s.cache)
    (hr : ∀ x ∈ reach, ValidId s x) :
    Inv cfg T fixed roots now (addReach s i reach) ∧ Grows T s (addReach s i reach) := by
  have hkeys : ∀ j, j ∈ Assoc.keys (addReach s i reach).cache ↔ j ∈ Assoc.keys s.cache := by
    intro j
    unfold addReach
    simp only
    rw [Assoc.mem_keys_upsert]
    constructor
    · rintro (rfl | h)
      · exact hi
      · exact h
    · exact Or.inr
  have hgrow : Grows T s (addReach s i reach) :=
    ⟨rfl, fun j hj => (hkeys j).mpr hj, ⟨[], by simp [addReach]⟩, ⟨[], by simp [addReach]⟩, by
      intro j r hr
      unfold addReach
      simp only
      rw [Assoc.get_upsert]
      split
      · rename_i heq
        subst heq
        rw [hr]
        exact ⟨_, rfl, rfl, fun x hx => List.mem_append_left _ hx⟩
      · exact ⟨r, hr, rfl, fun _ h => h⟩, by
      rw [uncached_same hkeys]; exact Nat.le_refl _⟩
  refine ⟨⟨fun j => (hkeys j).trans (hinv.keysIff j), hinv.nodup, hinv.notFixed, hinv.known, hinv.pend, ?_,
    hinv.needed, ?_, ?_⟩, hgrow⟩
  · intro j r hj
    unfold addReach at hj
    simp only at hj
    rw [Assoc.get_upsert] at hj
    split at hj
    · rename_i heq
      subst heq
      cases hg : Assoc.get s.cache i with
      | none => exact absurd hi ((Assoc.get_eq_none _ _).mp hg)
      | some r0 =>
        rw [hg] at hj
        cases hj
        obtain ⟨h1, h2⟩ := hinv.ids i r0 hg
        refine ⟨h1, ?_⟩
        intro x hx
        rcases List.mem_append.mp hx with hx | hx
        · exact (h2 x hx).grows hgrow
        · exact (hr x hx).grows hgrow
    · obtain ⟨h1, h2⟩ := hinv.ids j r hj
      exact ⟨h1, fun x hx => (h2 x hx).grows hgrow⟩
  · intro j ms hj
    obtain ⟨h1, h2⟩ := hinv.closed j ms hj
    exact ⟨fun m hm => (hkeys _).mpr (h1 m hm), fun ty k hty hk => (hkeys _).mpr (h2 ty k hty hk)⟩
  · intro j info hj k hk
    exact (hkeys _).mpr (hinv.traits j info hj k hk)

theorem requestAll_ok {is : List Ident} :
    ∀ {s s' : State}, Inv cfg T fixed roots now s →
    (∀ i ∈ is, Needed cfg T fixed roots i ∨ i ∈ Assoc.keys s.cache) →
    requestAll T s is = .ok s' →
    Inv cfg T fixed roots now s' ∧ Grows T s s' ∧ ∀ i ∈ is, i ∈ Assoc.keys s'.cache := by
  induction is with
  | nil =>
    intro s s' hinv _ h
    cases h
    exact ⟨hinv, .refl T _, by simp⟩
  | cons i is ih =>
    intro s s' hinv hi h
    rw [requestAll] at h
    cases hg : getOrCreate T s i with
    | error e => rw [hg] at h; cases h
    | ok s1 =>
      rw [hg] at h
      obtain ⟨h1, h2, h3⟩ := getOrCreate_ok hinv (hi i (by simp)) hg
      obtain ⟨h4, h5, h6⟩ := ih h1 (fun j hj => (hi j (by simp [hj])).imp id (h2.keys j)) h
      refine ⟨h4, h2.trans h5, ?_⟩
      intro j hj
      rcases List.mem_cons.mp hj with rfl | hj
      · exact h5.keys j h3
      · exact h6 j hj

theorem requestAll_err {is : List Ident} {e : GenErr} :
    ∀ {s : State}, Inv cfg T fixed roots now s →
    (∀ i ∈ is, Needed cfg T fixed roots i ∨ i ∈ Assoc.keys s.cache) →
    requestAll T s is = .error e → Allowed cfg T fixed roots e := by
  induction is with
  | nil => intro s _ _ h; cases h
  | cons i is ih =>
    intro s hinv hi h
    rw [requestAll] at h
    cases hg : getOrCreate T s i with
    | error e' => rw [hg] at h; cases h; exact getOrCreate_err (hi i (by simp)) hg
    | ok s1 =>
      rw [hg] at h
      obtain ⟨h1, h2, _⟩ := getOrCreate_ok hinv (hi i (by simp)) hg
      exact ih h1 (fun j hj => (hi j (by simp [hj])).imp id (h2.keys j)) h

/-! ### `need_box` ends -/

def free (n : Nat) (reach : List Nat) : Nat := ((List.range n).filter fun x => !reach.contains x).length

theorem free_cons {n x : Nat} {reach : List Nat} (hx : x < n) (hn : x ∉ reach) :
    free n (x :: reach) < free n reach := by
  unfold free
  have hmem : x ∈ List.range n := List.mem_range.mpr hx
  generalize List.range n = l at hmem
  induction l with
  | nil => cases hmem
  | cons y l ih =>
    have hle : (l.filter fun y => !(x :: reach).contains y).length ≤
        (l.filter fun y => !reach.contains y).length := by
      clear ih hmem
      induction l with
      | nil => simp
      | cons z l ih =>
        by_cases hz : z ∈ reach
        · simp [hz]; simpa using ih
        · by_cases hzx : z = x
          · simp [hzx, hn]; simp at ih; omega
          · simp [hzx, hz]; simpa using ih
    by_cases hyx : y = x
    · subst hyx
      simp [hn]; simp at hle; omega
    · have ih := ih ((List.mem_cons.mp hmem).resolve_left (Ne.symm hyx))
      by_cases hy : y ∈ reach
      · simp [hy]; simpa using ih
      · simp [hyx, hy]; simpa using ih

theorem anyBox_ends {f : Ident → Option Bool} {is : List Ident} (h : ∀ i ∈ is, ∃ b, f i = some b) :
    ∃ b, anyBox f is = some b := by
  induction is with
  | nil => exact ⟨false, rfl⟩
  | cons i is ih =>
    obtain ⟨b, hb⟩ := h i (by simp)
    rw [anyBox, hb]
    cases b with
    | true => exact ⟨true, rfl⟩
    | false => exact ih fun j hj => h j (by simp [hj])

theorem needBoxF_ends {T : Types} {cache : List (Ident × TypeRef)} {n : Nat}
    (hid : ∀ i r, Assoc.get cache i = some r → r.id < n) (fuel : Nat) :
    ∀ reach i, free n reach < fuel → ∃ b, needBoxF T cache fuel reach i = some b := by
  induction fuel with
  | zero => intro reach i h; omega
  | succ fuel ih =>
    intro reach i h
    rw [needBoxF]
    cases Assoc.get T i with
    | none => exact ⟨_, rfl⟩
    | some ty =>
      cases hc : Assoc.get cache i with
      | none => exact ⟨_, rfl⟩
      | some r =>
        simp only
        split
        · exact ⟨_, rfl⟩
        · rename_i hr
          apply anyBox_ends
          intro j _
          have := free_cons (hid i r hc) hr
          exact ih _ _ (by omega)

theorem needBox_ends {s : State} (hinv : Inv cfg T fixed roots now s) (reach : List Nat) (i : Ident) :
    ∃ b, needBox T s reach i = some b := by
  unfold needBox
  refine needBoxF_ends (n := s.types.length) ?_ _ _ _ ?_
  · intro j r hr
    exact (List.getElem?_eq_some_iff.mp (hinv.ids j r hr).1).1
  · unfold free
    have := List.length_filter_le (fun x => !reach.contains x) (List.range s.types.length)
    simp only [List.length_range] at this
    omega

/-! ### One type -/

theorem stepReq_ok {s s' : State} {cur : Ident} {reach : List Nat} {r : Req} {ms : List Mention}
    (hinv : Inv cfg T fixed roots now s) (hreach : ∀ x ∈ reach, ValidId s x)
    (hr : ∀ j, r.target = some j → Needed cfg T fixed roots j)
    (h : stepReq T cur reach s r = .ok (s', ms)) :
    Inv cfg T fixed roots now s' ∧ Grows T s s' ∧ (∀ m ∈ ms, m.target ∈ Assoc.keys s'.cache) ∧
      ∀ j, r.target = some j → j ∈ Assoc.keys s'.cache := by
  have create : ∀ {i s1}, Needed cfg T fixed roots i → getOrCreate T s i = .ok s1 →
      (Inv cfg T fixed roots now s1 ∧ Grows T s s1 ∧ i ∈ Assoc.keys s1.cache) ∧
      (Inv cfg T fixed roots now (addReach s1 i reach) ∧ Grows T s (addReach s1 i reach) ∧
        i ∈ Assoc.keys (addReach s1 i reach).cache) := by
    intro i s1 hn hg
    obtain ⟨h1, h2, h3⟩ := getOrCreate_ok hinv (Or.inl hn) hg
    obtain ⟨h4, h5⟩ := addReach_ok h1 h3 (fun x hx => (hreach x hx).grows h2)
    exact ⟨⟨h1, h2, h3⟩, h4, h2.trans h5, h5.keys _ h3⟩
  cases r with
  | plain i inl =>
    simp only [stepReq] at h
    cases hg : getOrCreate T s i with
    | error e => rw [hg] at h; cases h
    | ok s1 =>
      rw [hg] at h
      cases h
      obtain ⟨⟨h1, h2, h3⟩, _⟩ := create (hr i rfl) hg
      exact ⟨h1, h2, by simpa using h3, by intro j hj; cases hj; exact h3⟩
  | value i byValue =>
    simp only [stepReq] at h
    cases hg : getOrCreate T s i with
    | error e => rw [hg] at h; cases h
    | ok s1 =>
      rw [hg] at h
      obtain ⟨⟨h1, h2, h3⟩, h4, h5, h6⟩ := create (hr i rfl) hg
      cases byValue with
      | true => cases h; exact ⟨h4, h5, by simpa using h6, by intro j hj; cases hj; exact h6⟩
      | false => cases h; exact ⟨h1, h2, by simpa using h3, by intro j hj; cases hj; exact h3⟩
  | element i d o f =>
    simp only [stepReq] at h
    cases hn : (if !f && d && o then needBox T s reach i else some false) with
    | none => rw [hn] at h; cases h
    | some boxed =>
      rw [hn] at h
      simp only at h
      cases hg : getOrCreate T s i with
      | error e => rw [hg] at h; cases h
      | ok s1 =>
        rw [hg] at h
        obtain ⟨⟨h1, h2, h3⟩, h4, h5, h6⟩ := create (hr i rfl) hg
        cases boxed with
        | false => cases h; exact ⟨h4, h5, by simpa using h6, by intro j hj; cases hj; exact h6⟩
        | true => cases h; exact ⟨h1, h2, by simpa using h3, by intro j hj; cases hj; exact h3⟩
  | traitImpls =>
    simp only [stepReq] at h
    cases hg : requestAll T s (traitsOf s cur).impls with
    | error e => rw [hg] at h; cases h
    | ok s1 =>
      rw [hg] at h
      cases h
      have hk : ∀ i ∈ (traitsOf s cur).impls, i ∈ Assoc.keys s.cache := by
        intro i hi
        unfold traitsOf at hi
        cases ht : Assoc.get s.traits cur with
        | none => rw [ht] at hi; cases hi
        | some info => rw [ht] at hi; exact hinv.traits _ _ ht i (Or.inl hi)
      obtain ⟨h1, h2, h3⟩ := requestAll_ok hinv (fun i hi => Or.inr (hk i hi)) hg
      refine ⟨h1, h2, ?_, by intro j hj; cases hj⟩
      intro m hm
      obtain ⟨i, hi, rfl⟩ := List.mem_map.mp hm
      exact h3 i hi
  | traitDerives =>
    simp only [stepReq] at h
    cases hg : requestAll T s (traitsOf s cur).derives with
    | error e => rw [hg] at h; cases h
    | ok s1 =>
      rw [hg] at h
      cases h
      have hk : ∀ i ∈ (traitsOf s cur).derives, i ∈ Assoc.keys s.cache := by
        intro i hi
        unfold traitsOf at hi
        cases ht : Assoc.get s.traits cur with
        | none => rw [ht] at hi; cases hi
        | some info => rw [ht] at hi; exact hinv.traits _ _ ht i (Or.inr hi)
      obtain ⟨h1, h2, h3⟩ := requestAll_ok hinv (fun i hi => Or.inr (hk i hi)) hg
      refine ⟨h1, h2, ?_, by intro j hj; cases hj⟩
      intro m hm
      obtain ⟨i, hi, rfl⟩ := List.mem_map.mp hm
      exact h3 i hi
  | fail => cases h

theorem stepReq_err {s : State} {cur : Ident} {reach : List Nat} {r : Req} {e : GenErr}
    (hinv : Inv cfg T fixed roots now s)
    (hr : ∀ j, r.target = some j → Needed cfg T fixed roots j)
    (hf : r = .fail → ∃ j v, (cfg.valueRefs j v).2 = false)
    (h : stepReq T cur reach s r = .error e) : Allowed cfg T fixed roots e := by
  cases r with
  | plain i inl =>
    simp only [stepReq] at h
    cases hg : getOrCreate T s i with
    | ok s1 => rw [hg] at h; cases h
    | error e' => rw [hg] at h; cases h; exact getOrCreate_err (Or.inl (hr i rfl)) hg
  | value i byValue =>
    simp only [stepReq] at h
    cases hg : getOrCreate T s i with
    | ok s1 => rw [hg] at h; cases h
    | error e' => rw [hg] at h; cases h; exact getOrCreate_err (Or.inl (hr i rfl)) hg
  | element i d o f =>
    simp only [stepReq] at h
    cases hn : (if !f && d && o then needBox T s reach i else some false) with
    | none =>
      exfalso
      split at hn
      · obtain ⟨b, hb⟩ := needBox_ends hinv reach i
        rw [hb] at hn; cases hn
      · cases hn
    | some boxed =>
      rw [hn] at h
      simp only at h
      cases hg : getOrCreate T s i with
      | ok s1 => rw [hg] at h; cases h
      | error e' => rw [hg] at h; cases h; exact getOrCreate_err (Or.inl (hr i rfl)) hg
  | traitImpls =>
    simp only [stepReq] at h
    cases hg : requestAll T s (traitsOf s cur).impls with
    | ok s1 => rw [hg] at h; cases h
    | error e' =>
      rw [hg] at h; cases h
      refine requestAll_err hinv (fun i hi => Or.inr ?_) hg
      unfold traitsOf at hi
      cases ht : Assoc.get s.traits cur with
      | none => rw [ht] at hi; cases hi
      | some info => rw [ht] at hi; exact hinv.traits _ _ ht i (Or.inl hi)
  | traitDerives =>
    simp only [stepReq] at h
    cases hg : requestAll T s (traitsOf s cur).derives with
    | ok s1 => rw [hg] at h; cases h
    | error e' =>
      rw [hg] at h; cases h
      refine requestAll_err hinv (fun i hi => Or.inr ?_) hg
      unfold traitsOf at hi
      cases ht : Assoc.get s.traits cur with
      | none => rw [ht] at hi; cases hi
      | some info => rw [ht] at hi; exact hinv.traits _ _ ht i (Or.inr hi)
  | fail => cases h; exact hf rfl

theorem runReqs_ok {cur : Ident} {reach : List Nat} {rs : List Req} :
    ∀ {s s' : State} {ms : List Mention}, Inv cfg T fixed roots now s →
    (∀ x ∈ reach, ValidId s x) →
    (∀ r ∈ rs, ∀ j, r.target = some j → Needed cfg T fixed roots j) →
    runReqs T cur reach s rs = .ok (s', ms) →
    Inv cfg T fixed roots now s' ∧ Grows T s s' ∧ (∀ m ∈ ms, m.target ∈ Assoc.keys s'.cache) ∧
      ∀ r ∈ rs, ∀ j, r.target = some j → j ∈ Assoc.keys s'.cache := by
  induction rs with
  | nil =>
    intro s s' ms hinv _ _ h
    cases h
    exact ⟨hinv, .refl T _, by simp, by simp⟩
  | cons r rs ih =>
    intro s s' ms hinv hreach hr h
    rw [runReqs] at h
    cases hs : stepReq T cur reach s r with
    | error e => rw [hs] at h; cases h
    | ok p =>
      obtain ⟨s1, ms1⟩ := p
      rw [hs] at h
      simp only at h
      obtain ⟨h1, h2, h3, h4⟩ := stepReq_ok hinv hreach (hr r (by simp)) hs
      cases hrs : runReqs T cur reach s1 rs with
      | error e => rw [hrs] at h; cases h
      | ok q =>
        obtain ⟨s2, ms2⟩ := q
        rw [hrs] at h
        cases h
        obtain ⟨h5, h6, h7, h8⟩ := ih h1 (fun x hx => (hreach x hx).grows h2)
          (fun r' hr' => hr r' (by simp [hr'])) hrs
        refine ⟨h5, h2.trans h6, ?_, ?_⟩
        · intro m hm
          rcases List.mem_append.mp hm with hm | hm
          · exact h6.keys _ (h3 m hm)
          · exact h7 m hm
        · intro r' hr' j hj
          rcases List.mem_cons.mp hr' with rfl | hr'
          · exact h6.keys _ (h4 j hj)
          · exact h8 r' hr' j hj

theorem runReqs_err {cur : Ident} {reach : List Nat} {rs : List Req} {e : GenErr} :
    ∀ {s : State}, Inv cfg T fixed roots now s →
    (∀ x ∈ reach, ValidId s x) →
    (∀ r ∈ rs, ∀ j, r.target = some j → Needed cfg T fixed roots j) →
    (.fail ∈ rs → ∃ j v, (cfg.valueRefs j v).2 = false) →
    runReqs T cur reach s rs = .error e → Allowed cfg T fixed roots e := by
  induction rs with
  | nil => intro s _ _ _ _ h; cases h
  | cons r rs ih =>
    intro s hinv hreach hr hf h
    rw [runReqs] at h
    cases hs : stepReq T cur reach s r with
    | error e' =>
      rw [hs] at h; cases h
      exact stepReq_err hinv (hr r (by simp)) (fun h => hf (by simp [h])) hs
    | ok p =>
      obtain ⟨s1, ms1⟩ := p
      rw [hs] at h
      simp only at h
      obtain ⟨h1, h2, h3, h4⟩ := stepReq_ok hinv hreach (hr r (by simp)) hs
      cases hrs : runReqs T cur reach s1 rs with
      | ok q => rw [hrs] at h; cases h
      | error e' =>
        rw [hrs] at h; cases h
        exact ih h1 (fun x hx => (hreach x hx).grows h2)
          (fun r' hr' => hr r' (by simp [hr'])) (fun h => hf (by simp [h])) hrs

theorem fail_valueReqs {i : Ident} {v : Txt} (h : Req.fail ∈ valueReqs cfg i v) :
    (cfg.valueRefs i v).2 = false := by
  unfold valueReqs at h
  rcases List.mem_append.mp h with h | h
  · obtain ⟨_, _, hc⟩ := List.mem_map.mp h; cases hc
  · split at h
    · cases h
    · rename_i hb; simpa using hb

theorem fail_attrReqs {a : Attribute} (h : Req.fail ∈ attrReqs cfg a) :
    ∃ j v, (cfg.valueRefs j v).2 = false := by
  unfold attrReqs at h
  split at h
  · cases h
  · split at h
    · cases h
    · rcases List.mem_cons.mp h with h | h
      · cases h
      · split at h
        · cases h
        · exact ⟨_, _, fail_valueReqs h⟩

theorem fail_groupReqs {d f : Bool} {as : List Attribute} {es : List Element}
    (h : Req.fail ∈ groupReqs cfg d f as es) : ∃ j v, (cfg.valueRefs j v).2 = false := by
  unfold groupReqs at h
  simp only [List.mem_cons, List.mem_append, List.mem_flatMap] at h
  rcases h with h | ⟨a, _, h⟩ | ⟨e, _, h⟩
  · cases h
  · exact fail_attrReqs h
  · unfold elemReqs at h
    split at h
    · cases h
    · split at h
      · simp at h
      · cases h
      · cases h

theorem fail_reqsOf {v : Variant} (h : Req.fail ∈ reqsOf cfg T v) :
    ∃ j v, (cfg.valueRefs j v).2 = false := by
  cases v with
  | buildIn _ => cases h
  | custom n => obtain ⟨_, _, hc⟩ := List.mem_map.mp h; cases hc
  | union x => simp [reqsOf] at h
  | dynamic x => simp [reqsOf] at h
  | reference x => simp [reqsOf] at h
  | enumeration x =>
    simp only [reqsOf, List.mem_cons, List.mem_append, List.mem_flatMap] at h
    rcases h with h | ⟨v, _, h⟩ | h
    · cases h
    · unfold variantReqs at h
      split at h
      · cases h
      · rcases List.mem_append.mp h with h | h
        · split at h <;> simp at h
        · obtain ⟨_, _, hc⟩ := List.mem_map.mp h; cases hc
    · split at h <;> simp at h
  | all g => exact fail_groupReqs h
  | choice g => exact fail_groupReqs h
  | sequence g => exact fail_groupReqs h
  | complex x =>
    have value : ∀ k d, Req.fail ∈ Req.traitImpls :: Req.value k d :: x.attributes.flatMap (attrReqs cfg) →
        ∃ j v, (cfg.valueRefs j v).2 = false := by
      intro k d h
      simp only [List.mem_cons, List.mem_flatMap] at h
      rcases h with h | h | ⟨a, _, h⟩
      · cases h
      · cases h
      · exact fail_attrReqs h
    simp only [reqsOf, complexReqs] at h
    split at h
    · exact fail_groupReqs h
    · split at h
      all_goals first
        | exact fail_groupReqs h
        | exact value _ _ h
  | simple x =>
    have bnd : ∀ b, Req.fail ∈ boundReqs cfg (res T x.base) b → ∃ j v, (cfg.valueRefs j v).2 = false := by
      intro b hb
      cases b with
      | unbounded => cases hb
      | included v => exact ⟨_, _, fail_valueReqs hb⟩
      | excluded v => exact ⟨_, _, fail_valueReqs hb⟩
    simp only [reqsOf, List.mem_append, List.mem_cons, List.not_mem_nil, or_false] at h
    rcases h with (h | h) | h | h
    · exact bnd _ h
    · exact bnd _ h
    · cases h
    · cases h

theorem reachOf_ok {s : State} {xs : List Nat} (hinv : Inv cfg T fixed roots now s)
    (h : ∀ x ∈ xs, ValidId s x) :
    ∃ ys, reachOf s xs = some ys ∧ ∀ y ∈ ys, ValidId s y := by
  induction xs with
  | nil => exact ⟨[], rfl, by simp⟩
  | cons x xs ih =>
    obtain ⟨ys, hy, hv⟩ := ih fun y hy => h y (by simp [hy])
    have hx := h x (by simp)
    obtain ⟨j, hj, hk⟩ := h x (by simp)
    obtain ⟨r, hr⟩ := Option.isSome_iff_exists.mp ((Assoc.get_isSome s.cache j).mpr hk)
    refine ⟨x :: (r.reachable ++ ys), ?_, ?_⟩
    · rw [reachOf, hj]
      simp [hr, hy]
    · intro y hy
      simp only [List.mem_cons, List.mem_append] at hy
      rcases hy with rfl | hy | hy
      · exact hx
      · exact (hinv.ids j r hr).2 y hy
      · exact hv y hy

theorem getReachable_ok {s : State} {i : Ident} (hinv : Inv cfg T fixed roots now s)
    (hi : i ∈ Assoc.keys s.cache) :
    ∃ ys, getReachable s i = some ys ∧ ∀ y ∈ ys, ValidId s y := by
  obtain ⟨r, hr⟩ := Option.isSome_iff_exists.mp ((Assoc.get_isSome s.cache i).mpr hi)
  obtain ⟨h1, h2⟩ := hinv.ids i r hr
  obtain ⟨ys, hy, hv⟩ := reachOf_ok hinv h2
  refine ⟨r.id :: ys, by rw [getReachable, hr]; simp [hy], ?_⟩
  intro y hy'
  rcases List.mem_cons.mp hy' with rfl | hy'
  · exact ⟨i, h1, hi⟩
  · exact hv y hy'

theorem generateOne_ok {s s' : State} {i : Ident} {ty : MetaType}
    (hinv : Inv cfg T fixed roots [i] s) (hty : Assoc.get T i = some ty)
    (h : generateOne cfg T s i ty = .ok s') :
    Inv cfg T fixed roots [] s' ∧ (∃ ms, s'.items = s.items ++ [(i, ms)]) ∧
      uncached T s'.cache + s'.pending.length ≤ uncached T s.cache + s.pending.length ∧
      ∀ j, j ∈ Assoc.keys s.cache → j ∈ Assoc.keys s'.cache := by
  have hik : i ∈ Assoc.keys s.cache := (hinv.keysIff i).mpr (Or.inr (Or.inr (Or.inl (by simp))))
  obtain ⟨reach, hre, hval⟩ := getReachable_ok hinv hik
  have hneed : ∀ r ∈ reqsOf cfg T ty.variant, ∀ j, r.target = some j → Needed cfg T fixed roots j := by
    intro r hr j hj
    exact .step (hinv.needed i (Or.inr (Or.inl (by simp)))) (hinv.notFixed i (Or.inr (Or.inl (by simp))))
      hty (refersTo_of_req hr hj)
  unfold generateOne at h
  rw [hre] at h
  simp only at h
  cases hr : runReqs T i reach s (reqsOf cfg T ty.variant) with
  | error e => rw [hr] at h; cases h
  | ok p =>
    obtain ⟨s1, ms⟩ := p
    rw [hr] at h
    cases h
    obtain ⟨h1, h2, h3, h4⟩ := runReqs_ok hinv hval hneed hr
    have hik' : Assoc.keys (s1.items ++ [(i, ms)]) = Assoc.keys s1.items ++ [i] := by simp [Assoc.keys]
    refine ⟨⟨?_, ?_, ?_, ?_, h1.pend, h1.ids, ?_, ?_, h1.traits⟩, ⟨ms, by simp [h2.items]⟩, h2.measure, h2.keys⟩
    · intro j
      simp only
      rw [h1.keysIff, hik']
      simp only [List.mem_append, List.not_mem_nil, false_or, or_assoc]
    · simp only
      rw [hik']
      simpa [List.append_assoc] using h1.nodup
    · intro j hj
      apply h1.notFixed
      simp only at hj
      rw [hik'] at hj
      simpa only [List.mem_append, List.not_mem_nil, false_or, or_assoc] using hj
    · intro j hj
      apply h1.known
      simp only at hj
      rw [hik'] at hj
      simpa only [List.mem_append, List.not_mem_nil, or_false] using hj
    · intro j hj
      apply h1.needed
      simp only at hj
      rw [hik'] at hj
      simpa only [List.mem_append, List.not_mem_nil, false_or, or_assoc] using hj
    · intro j ms' hj
      rcases List.mem_append.mp hj with hj | hj
      · exact h1.closed j ms' hj
      · simp at hj
        obtain ⟨rfl, rfl⟩ := hj
        refine ⟨h3, ?_⟩
        intro ty' k hty' hk
        rw [hty] at hty'
        cases hty'
        obtain ⟨r, hr', hk'⟩ := req_of_refersTo hk
        exact h4 r hr' k hk'

theorem generateOne_err {s : State} {i : Ident} {ty : MetaType} {e : GenErr}
    (hinv : Inv cfg T fixed roots [i] s) (hty : Assoc.get T i = some ty)
    (h : generateOne cfg T s i ty = .error e) : Allowed cfg T fixed roots e := by
  have hik : i ∈ Assoc.keys s.cache := (hinv.keysIff i).mpr (Or.inr (Or.inr (Or.inl (by simp))))
  obtain ⟨reach, hre, hval⟩ := getReachable_ok hinv hik
  have hneed : ∀ r ∈ reqsOf cfg T ty.variant, ∀ j, r.target = some j → Needed cfg T fixed roots j := by
    intro r hr j hj
    exact .step (hinv.needed i (Or.inr (Or.inl (by simp)))) (hinv.notFixed i (Or.inr (Or.inl (by simp))))
      hty (refersTo_of_req hr hj)
  unfold generateOne at h
  rw [hre] at h
  simp only at h
  cases hr : runReqs T i reach s (reqsOf cfg T ty.variant) with
  | ok p => rw [hr] at h; cases h
  | error e' =>
    rw [hr] at h
    cases h
    exact runReqs_err hinv hval hneed fail_reqsOf hr

/-- Taking a type from the queue. -/
theorem Inv.pop {s : State} {i : Ident} {ty : MetaType} {rest : List (Ident × MetaType)}
    (hinv : Inv cfg T fixed roots [] s) (hp : s.pending = (i, ty) :: rest) :
    Inv cfg T fixed roots [i] { s with pending := rest } ∧ Assoc.get T i = some ty := by
  have hty := hinv.pend i ty (by rw [hp]; simp)
  have hpk : Assoc.keys s.pending = i :: Assoc.keys rest := by rw [hp]; rfl
  refine ⟨⟨?_, ?_, ?_, ?_, ?_, hinv.ids, ?_, hinv.closed, hinv.traits⟩, hty⟩
  · intro j
    have := hinv.keysIff j
    rw [hpk] at this
    simpa only [List.mem_cons, List.not_mem_nil, false_or, or_false] using this
  · have := hinv.nodup
    rw [hpk] at this
    simpa using this
  · intro j hj
    apply hinv.notFixed
    rw [hpk]
    simpa only [List.mem_cons, List.not_mem_nil, false_or, or_false] using hj
  · intro j hj
    rcases hj with hj | hj
    · exact hinv.known j (Or.inl hj)
    · simp at hj; subst hj
      exact (Assoc.get_isSome _ _).mp (by rw [hty]; rfl)
  · intro j ty' hj
    exact hinv.pend j ty' (by rw [hp]; exact List.mem_cons_of_mem _ hj)
  · intro j hj
    apply hinv.needed
    rw [hpk]
    simpa only [List.mem_cons, List.not_mem_nil, false_or, or_false] using hj

theorem pendingF_ok (fuel : Nat) :
    ∀ {s s' : State}, Inv cfg T fixed roots [] s → pendingF cfg T fuel s = .ok s' →
    Inv cfg T fixed roots [] s' ∧ s'.pending = [] ∧ ∀ j, j ∈ Assoc.keys s.cache → j ∈ Assoc.keys s'.cache := by
  induction fuel with
  | zero => intro s s' _ h; cases h
  | succ fuel ih =>
    intro s s' hinv h
    rw [pendingF] at h
    cases hp : s.pending with
    | nil => rw [hp] at h; cases h; exact ⟨hinv, hp, fun _ h => h⟩
    | cons p rest =>
      obtain ⟨i, ty⟩ := p
      rw [hp] at h
      simp only at h
      obtain ⟨h1, hty⟩ := hinv.pop hp
      cases hg : generateOne cfg T { s with pending := rest } i ty with
      | error e => rw [hg] at h; cases h
      | ok s1 =>
        rw [hg] at h
        obtain ⟨h2, _, _, h4⟩ := generateOne_ok h1 hty hg
        obtain ⟨h5, h6, h7⟩ := ih h2 h
        exact ⟨h5, h6, fun j hj => h7 j (h4 j hj)⟩

theorem pendingF_err (fuel : Nat) {e : GenErr} :
    ∀ {s : State}, Inv cfg T fixed roots [] s →
    uncached T s.cache + s.pending.length < fuel →
    pendingF cfg T fuel s = .error e → Allowed cfg T fixed roots e := by
  induction fuel with
  | zero => intro s _ h; omega
  | succ fuel ih =>
    intro s hinv hf h
    rw [pendingF] at h
    cases hp : s.pending with
    | nil => rw [hp] at h; cases h
    | cons p rest =>
      obtain ⟨i, ty⟩ := p
      rw [hp] at h
      simp only at h
      obtain ⟨h1, hty⟩ := hinv.pop hp
      cases hg : generateOne cfg T { s with pending := rest } i ty with
      | error e' => rw [hg] at h; cases h; exact generateOne_err h1 hty hg
      | ok s1 =>
        rw [hg] at h
        obtain ⟨h2, _, h3, _⟩ := generateOne_ok h1 hty hg
        apply ih h2 _ h
        simp only [hp, List.length_cons] at hf h3
        omega

/-! ## Calls of the generator -/

/-- Calls of `generate_type`, `generate_named_types` and `generate_all_types`, one after the
other. -/
def generateCalls (cfg : Cfg) (T : Types) : State → List (List Ident) → Except GenErr State
  | s, [] => .ok s
  | s, roots :: calls =>
    match generate cfg T s roots with
    | .error e => .error e
    | .ok s => generateCalls cfg T s calls

theorem Needed.mono {roots' : List Ident} (h : ∀ i ∈ roots, i ∈ roots') {i : Ident}
    (hi : Needed cfg T fixed roots i) : Needed cfg T fixed roots' i := by
  induction hi with
  | root hr => exact .root (h _ hr)
  | step _ hf hi hj ih => exact .step ih hf hi hj

theorem Inv.mono {s : State} {roots' : List Ident} (hinv : Inv cfg T fixed roots now s)
    (h : ∀ i ∈ roots, i ∈ roots') : Inv cfg T fixed roots' now s :=
  ⟨hinv.keysIff, hinv.nodup, hinv.notFixed, hinv.known, hinv.pend, hinv.ids,
    fun i hi => (hinv.needed i hi).mono h, hinv.closed, hinv.traits⟩

theorem start_inv (cfg : Cfg) (T : Types) (fixed : List Ident) :
    Inv cfg T fixed [] [] (start fixed) ∧ (start fixed).items = [] ∧ (start fixed).pending = [] := by
  have main : (∀ i, i ∈ Assoc.keys (start fixed).cache ↔ i ∈ fixed) ∧ (start fixed).items = [] ∧
      (start fixed).pending = [] ∧ (start fixed).traits = [] ∧
      ∀ i r, Assoc.get (start fixed).cache i = some r →
        (start fixed).types[r.id]? = some i ∧ r.reachable = [] := by
    unfold start
    induction fixed using rev_induct with
    | nil => exact ⟨by simp [Assoc.keys], rfl, rfl, rfl, by simp [Assoc.get]⟩
    | snoc l i ih =>
      obtain ⟨h1, h2, h3, h4, h5⟩ := ih
      rw [List.foldl_append]
      simp only [List.foldl_cons, List.foldl_nil]
      refine ⟨?_, h2, h3, h4, ?_⟩
      · intro j
        rw [Assoc.mem_keys_upsert, h1, List.mem_append, List.mem_singleton, Or.comm]
      · intro j r hr
        rw [Assoc.get_upsert] at hr
        split at hr
        · rename_i heq
          subst heq
          cases hr
          simp
        · obtain ⟨h6, h7⟩ := h5 j r hr
          refine ⟨?_, h7⟩
          rw [List.getElem?_append_left (List.getElem?_eq_some_iff.mp h6).1]
          exact h6
  obtain ⟨h1, h2, h3, h4, h5⟩ := main
  refine ⟨⟨?_, ?_, ?_, ?_, ?_, ?_, ?_, ?_, ?_⟩, h2, h3⟩
  · intro i; rw [h1, h2, h3]; simp [Assoc.keys]
  · rw [h2, h3]; simp [Assoc.keys]
  · rw [h2, h3]; simp [Assoc.keys]
  · rw [h2]; simp [Assoc.keys]
  · rw [h3]; simp
  · intro i r hr
    obtain ⟨h6, h7⟩ := h5 i r hr
    exact ⟨h6, by rw [h7]; simp⟩
  · rw [h2, h3]; simp [Assoc.keys]
  · rw [h2]; simp
  · rw [h4]; simp [Assoc.get]

theorem generate_ok {s s' : State} (hinv : Inv cfg T fixed roots [] s) (more : List Ident)
    (h : generate cfg T s more = .ok s') :
    Inv cfg T fixed (roots ++ more) [] s' ∧ s'.pending = [] ∧
      (∀ j, j ∈ Assoc.keys s.cache → j ∈ Assoc.keys s'.cache) ∧
      ∀ j ∈ more, j ∈ Assoc.keys s'.cache := by
  have hinv' := hinv.mono (roots' := roots ++ more) (fun i hi => List.mem_append_left _ hi)
  unfold generate at h
  cases hr : requestAll T s more with
  | error e => rw [hr] at h; cases h
  | ok s1 =>
    rw [hr] at h
    obtain ⟨h1, h2, h3⟩ := requestAll_ok hinv'
      (fun i hi => Or.inl (.root (List.mem_append_right _ hi))) hr
    obtain ⟨h4, h5, h6⟩ := pendingF_ok _ h1 h
    exact ⟨h4, h5, fun j hj => h6 j (h2.keys j hj), fun j hj => h6 j (h3 j hj)⟩

theorem generate_err {s : State} {e : GenErr} (hinv : Inv cfg T fixed roots [] s)
    (hp : s.pending = []) (more : List Ident)
    (h : generate cfg T s more = .error e) : Allowed cfg T fixed (roots ++ more) e := by
  have hinv' := hinv.mono (roots' := roots ++ more) (fun i hi => List.mem_append_left _ hi)
  unfold generate at h
  cases hr : requestAll T s more with
  | error e' =>
    rw [hr] at h; cases h
    exact requestAll_err hinv' (fun i hi => Or.inl (.root (List.mem_append_right _ hi))) hr
  | ok s1 =>
    rw [hr] at h
    obtain ⟨h1, h2, h3⟩ := requestAll_ok hinv'
      (fun i hi => Or.inl (.root (List.mem_append_right _ hi))) hr
    refine pendingF_err _ h1 ?_ h
    have := h2.measure
    have hlen : uncached T s.cache ≤ T.length := by
      unfold uncached
      have := List.length_filter_le (fun k => !(Assoc.keys s.cache).contains k) (Assoc.keys T)
      simp only [Assoc.keys, List.length_map] at this ⊢
      exact this
    rw [hp] at this
    simp only [List.length_nil, Nat.add_zero] at this
    omega

theorem calls_ok {calls : List (List Ident)} :
    ∀ {roots : List Ident} {s s' : State}, Inv cfg T fixed roots [] s → s.pending = [] →
    (∀ j ∈ roots, j ∈ Assoc.keys s.cache) →
    generateCalls cfg T s calls = .ok s' →
    Inv cfg T fixed (roots ++ calls.flatten) [] s' ∧ s'.pending = [] ∧
      ∀ j ∈ roots ++ calls.flatten, j ∈ Assoc.keys s'.cache := by
  induction calls with
  | nil =>
    intro roots s s' hinv hp hr h
    cases h
    simpa using ⟨hinv, hp, hr⟩
  | cons c calls ih =>
    intro roots s s' hinv hp hr h
    rw [generateCalls] at h
    cases hg : generate cfg T s c with
    | error e => rw [hg] at h; cases h
    | ok s1 =>
      rw [hg] at h
      obtain ⟨h1, h2, h3, h4⟩ := generate_ok hinv c hg
      have := ih h1 h2 (by
        intro j hj
        rcases List.mem_append.mp hj with hj | hj
        · exact h3 j (hr j hj)
        · exact h4 j hj) h
      simpa [List.append_assoc] using this

theorem calls_err {calls : List (List Ident)} {e : GenErr} :
    ∀ {roots : List Ident} {s : State}, Inv cfg T fixed roots [] s → s.pending = [] →
    generateCalls cfg T s calls = .error e → Allowed cfg T fixed (roots ++ calls.flatten) e := by
  induction calls with
  | nil => intro roots s _ _ h; cases h
  | cons c calls ih =>
    intro roots s hinv hp h
    rw [generateCalls] at h
    cases hg : generate cfg T s c with
    | error e' =>
      rw [hg] at h; cases h
      have := generate_err hinv hp c hg
      revert this
      have hm : ∀ i ∈ roots ++ c, i ∈ roots ++ (c :: calls).flatten := by
        intro i hi
        simp only [List.flatten_cons, List.mem_append] at hi ⊢
        rcases hi with hi | hi
        · exact Or.inl hi
        · exact Or.inr (Or.inl hi)
      cases e with
      | unknownType j => exact fun h => ⟨h.1.mono hm, h.2⟩
      | invalidValue => exact id
      | panic => exact id
      | fuel => exact id
    | ok s1 =>
      rw [hg] at h
      obtain ⟨h1, h2, _, _⟩ := generate_ok hinv c hg
      have := ih h1 h2 h
      simpa [List.append_assoc] using this

/-! ## Theorems -/

/-- **C50.** Generation ends, without a panic, for every table of types and all calls: it
succeeds, or a needed type is not defined, or a value cannot be rendered. -/
theorem C50_generation_ends (cfg : Cfg) (T : Types) (fixed : List Ident) (calls : List (List Ident)) :
    (∃ s, generateCalls cfg T (start fixed) calls = .ok s) ∨
    (∃ j, generateCalls cfg T (start fixed) calls = .error (.unknownType j) ∧
      Needed cfg T fixed calls.flatten j ∧ Assoc.get T j = none) ∨
    (generateCalls cfg T (start fixed) calls = .error .invalidValue ∧
      ∃ j v, (cfg.valueRefs j v).2 = false) := by
  obtain ⟨hinv, _, hp⟩ := start_inv cfg T fixed
  cases h : generateCalls cfg T (start fixed) calls with
  | ok s => exact Or.inl ⟨s, rfl⟩
  | error e =>
    have := calls_err hinv hp h
    simp only [List.nil_append] at this
    cases e with
    | unknownType j => exact Or.inr (Or.inl ⟨j, rfl, this.1, (Assoc.get_eq_none _ _).mpr this.2⟩)
    | invalidValue => exact Or.inr (Or.inr ⟨rfl, this⟩)
    | panic => exact absurd this id
    | fuel => exact absurd this id

/-- **C50.** Code is generated exactly for the types that are needed for the requested ones,
except for those provided by the user (`with_type`). -/
theorem C50_generates_needed {cfg : Cfg} {T : Types} {fixed : List Ident} {calls : List (List Ident)}
    {s : State} (h : generateCalls cfg T (start fixed) calls = .ok s) (i : Ident) :
    i ∈ Assoc.keys s.items ↔ Needed cfg T fixed calls.flatten i ∧ i ∉ fixed := by
  obtain ⟨hinv, _, hp⟩ := start_inv cfg T fixed
  obtain ⟨h1, h2, h3⟩ := calls_ok hinv hp (by simp) h
  simp only [List.nil_append] at h1 h3
  constructor
  · intro hi
    exact ⟨h1.needed i (Or.inl hi), h1.notFixed i (Or.inl hi)⟩
  · rintro ⟨hn, hf⟩
    have hall : ∀ j, Needed cfg T fixed calls.flatten j → j ∈ Assoc.keys s.cache := by
      intro j hj
      induction hj with
      | root hr => exact h3 _ hr
      | @step i j ty hi hfi hty href ih =>
        rcases (h1.keysIff i).mp ih with hc | hc | hc | hc
        · exact absurd hc hfi
        · obtain ⟨⟨k, ms⟩, hm, hk⟩ := List.mem_map.mp hc
          simp only at hk
          subst hk
          exact (h1.closed _ ms hm).2 ty j hty href
        · cases hc
        · rw [h2] at hc; cases hc
    rcases (h1.keysIff i).mp (hall i hn) with hc | hc | hc | hc
    · exact absurd hc hf
    · exact hc
    · cases hc
    · rw [h2] at hc; cases hc

/-- **C50.** Each type is generated once. -/
theorem C50_once {cfg : Cfg} {T : Types} {fixed : List Ident} {calls : List (List Ident)}
    {s : State} (h : generateCalls cfg T (start fixed) calls = .ok s) :
    (Assoc.keys s.items).Nodup ∧ ∀ i ∈ Assoc.keys s.items, ∃ ty, Assoc.get T i = some ty := by
  obtain ⟨hinv, _, hp⟩ := start_inv cfg T fixed
  obtain ⟨h1, h2, _⟩ := calls_ok hinv hp (by simp) h
  refine ⟨(List.nodup_append.mp h1.nodup).1, ?_⟩
  intro i hi
  exact Option.isSome_iff_exists.mp ((Assoc.get_isSome _ _).mpr (h1.known i (Or.inl hi)))

/-- **C50.** Every type the generated code mentions is generated too, or provided by the user. -/
theorem C50_no_dangling {cfg : Cfg} {T : Types} {fixed : List Ident} {calls : List (List Ident)}
    {s : State} (h : generateCalls cfg T (start fixed) calls = .ok s) {i : Ident}
    {ms : List Mention} (hi : (i, ms) ∈ s.items) {m : Mention} (hm : m ∈ ms) :
    m.target ∈ Assoc.keys s.items ∨ m.target ∈ fixed := by
  obtain ⟨hinv, _, hp⟩ := start_inv cfg T fixed
  obtain ⟨h1, h2, _⟩ := calls_ok hinv hp (by simp) h
  rcases (h1.keysIff _).mp ((h1.closed i ms hi).1 m hm) with hc | hc | hc | hc
  · exact Or.inr hc
  · exact Or.inl hc
  · cases hc
  · rw [h2] at hc; cases hc

end Verif.Generate

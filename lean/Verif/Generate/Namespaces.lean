import Verif.Meta.Types
import Verif.Util.Rank
/-!
# The namespaces that are declared at the root element (C61)

`NamespaceSerialization::Global`: the serializer of the root element declares the namespaces that the
`NamespaceCollector` has found for its type (`xsd-parser/src/pipeline/renderer/steps/quick_xml/serialize.rs`, cited
below as ser.rs). The collector is shared by all types of the generated code, and it remembers what it has found.
-/
namespace Verif.Ns

open Verif.Meta

/-! ## Model -/

/-- `ModuleMeta`, models/meta/types.rs:40-56. `pfx` is the result of `ModuleMeta::prefix` (160-162: the prefix or the
name); `make_prefix_const` needs the name or the prefix (154-156), so it is there for the same modules. -/
structure Module where
  pfx : Option Txt
  ns : Option Txt
deriving DecidableEq, Repr

/-- `CustomMetaNamespace`, models/meta/custom.rs. -/
inductive CustomNs where
  | id (n : Nat)
  | ns (s : Txt)
deriving DecidableEq, Repr

/-- What the collector knows besides the table of types: `types.modules`, the default namespace of the serializer
configuration, `nillable_type_support` and the namespaces of the custom types (by name). -/
structure Cfg where
  modules : List (Nat × Module)
  default_ : Option Txt
  nillable : Bool
  custom : Txt → List CustomNs

/-- `NamespaceKey`, ser.rs:120-127. -/
inductive Key where
  | normal (id : Nat)
  | default_ (id : Nat)
deriving DecidableEq, Repr

def xsiNs : Txt := "http://www.w3.org/2001/XMLSchema-instance".toList

/-- The first module with the namespace (`types.modules.iter().find_map`, ser.rs:1562-1568 and 1684-1690). -/
def findNs (M : List (Nat × Module)) (s : Txt) : Option Nat :=
  (M.find? fun p => p.2.ns == some s).map (·.1)

/-- `make_value`, ser.rs:1801-1818: is there a value for the key? -/
def hasValue (C : Cfg) : Key → Bool
  | .normal id =>
    match Assoc.get C.modules id with
    | some m => m.ns.isSome && m.pfx.isSome
    | none => false
  | .default_ id =>
    match Assoc.get C.modules id with
    | some m => m.ns.isSome
    | none => false

/-- `GetNamespaceState`, ser.rs:130-138. The maps are lists of keys; the values are given by the key. -/
inductive St where
  | empty
  | weak (ks : List Key)
  | shared (ks : List Key)
  | strong (ks : List Key)
deriving DecidableEq, Repr

/-- The value that is stored at the end, ser.rs:1712-1716. -/
def St.keys : St → List Key
  | .empty => []
  | .weak ks | .shared ks | .strong ks => ks

/-- `add_ns`, ser.rs:1773-1799. -/
def addNs (C : Cfg) (st : St) (k : Key) : St :=
  match st with
  | .empty => if hasValue C k then .weak [k] else .empty
  | .weak ks => if ks.contains k then .weak ks else if hasValue C k then .weak (k :: ks) else .weak ks
  | .strong ks => if ks.contains k then .strong ks else if hasValue C k then .strong (k :: ks) else .strong ks
  | .shared ks => if ks.contains k then .shared ks else if hasValue C k then .strong (k :: ks) else .shared ks

/-- The `match` of `merge`, ser.rs:1744-1770. `Rc::ptr_eq` is equality of the contents here: for equal contents the
last case would add nothing. -/
def mergeSt (C : Cfg) (st : St) (src : List Key) : St :=
  match st with
  | .empty => .shared src
  | .weak dst => dst.foldl (addNs C) (.shared src)
  | .shared dst => if dst = src then .shared dst else src.foldl (addNs C) (.shared dst)
  | .strong dst => src.foldl (addNs C) (.strong dst)

/-- What is done for a type: merge the namespaces of another type, or add one. -/
inductive Step where
  | merge (i : Ident)
  | add (k : Key)
deriving DecidableEq, Repr

/-- `if let Some(id) = self.xsi_namespace { add_ns(Normal(id)) }`. -/
def addXsi (C : Cfg) (b : Bool) : List Step :=
  match b, findNs C.modules xsiNs with
  | true, some id => [.add (.normal id)]
  | _, _ => []

/-- `filter_dynamic_types(..).next().is_some()`, ser.rs:1825-1856. -/
def hasDynamicTypes (d : List (Ident × Derived)) : Bool :=
  let els := (d.filter fun p => p.1.kind == .element).map fun p => p.2.type_
  d.any fun p => !(p.1.kind != .type_ || p.2.relationship == .concrete || els.contains p.2.type_)

/-- `use_dynamic_type_serializer`, ser.rs:1461-1468. -/
def useXsi (f : Flags) : Bool := f.byType && !f.defaultElement && (f.preferType || !f.byTag)

/-- One element of a group, ser.rs:1643-1663. -/
def elementSteps (C : Cfg) (choice : Bool) (e : Element) : List Step :=
  (match e.variant with
    | .type_ i _ => [.merge i]
    | _ => []) ++
  addXsi C (C.nillable && e.flags.nillable) ++ addXsi C (choice && useXsi e.flags)

/-- One namespace of a custom type, ser.rs:1679-1698. -/
def customSteps (C : Cfg) : CustomNs → List Step
  | .id n => [.add (.default_ n)]
  | .ns s =>
    match findNs C.modules s with
    | some id => [.add (.normal id)]
    | none => []

/-- The `match &ty.variant`, ser.rs:1606-1701. -/
def variantSteps (C : Cfg) : Variant → List Step
  | .union x => x.types.map fun t => .merge t.type_
  | .reference x => .merge x.type_ :: addXsi C (C.nillable && x.nillable)
  | .enumeration x => x.variants.filterMap fun v => v.type_.map .merge
  | .dynamic x => (x.derived.map fun p => .merge p.2.type_) ++ addXsi C (hasDynamicTypes x.derived)
  | .all x => x.elements.flatMap (elementSteps C false)
  | .choice x => x.elements.flatMap (elementSteps C true)
  | .sequence x => x.elements.flatMap (elementSteps C false)
  | .complex x =>
    (match x.content with
      | some i => [.merge i]
      | none => []) ++
    x.attributes.filterMap fun a =>
      if a.form = .qualified then some (.add (.normal a.ident.ns)) else none
  | .custom n => (C.custom n).flatMap (customSteps C)
  | .buildIn _ => []
  | .simple _ => []

/-- Is the namespace with this id the default namespace? `matches!((ns, default_ns), (Some(a), Some(b)) if a == b)`,
ser.rs:1705-1709, and `TagName::get_for_default_namespace`, models/data/tag_name.rs:62-71. -/
def isDefault (C : Cfg) (id : Nat) : Bool :=
  match (Assoc.get C.modules id).bind (·.ns), C.default_ with
  | some a, some b => a == b
  | _, _ => false

/-- The namespace of the type itself, ser.rs:1703-1718. -/
def ownSteps (C : Cfg) (i : Ident) (ty : MetaType) : List Step :=
  if ty.form = some .qualified then [.add (if isDefault C i.ns then .default_ i.ns else .normal i.ns)] else []

def steps (C : Cfg) (i : Ident) (ty : MetaType) : List Step := variantSteps C ty.variant ++ ownSteps C i ty

/-- `NamespaceCollector::cache`, ser.rs:115: nothing, in progress (`some none`) or the keys. -/
abbrev Cache := Ident → Option (Option (List Key))

def Cache.set (c : Cache) (i : Ident) (v : Option (List Key)) : Cache := fun j => if j = i then some v else c j

/-- The loop over the steps of one type; `none` is a panic. -/
def runSteps (C : Cfg) (get : Cache → Ident → Option (Cache × Option (List Key))) :
    Cache → St → List Step → Option (Cache × St)
  | c, st, [] => some (c, st)
  | c, st, .add k :: r => runSteps C get c (addNs C st k) r
  | c, st, .merge i :: r =>
    match get c i with
    | none => none
    | some (c', none) => runSteps C get c' st r
    | some (c', some ks) => runSteps C get c' (mergeSt C st ks) r

/-- `get_namespaces_impl`, ser.rs:1588-1738. `fuel` limits the depth of the recursion (`C61_only_wanted` shows that it
is not used up). -/
def getImpl (C : Cfg) (T : Types) : Nat → Cache → Ident → Option (Cache × Option (List Key))
  | 0, _, _ => none
  | fuel + 1, c, i =>
    match c i with
    | some v => some (c, v)
    | none =>
      match Assoc.get T i with
      | none => none
      | some ty =>
        match runSteps C (getImpl C T fuel) (c.set i none) .empty (steps C i ty) with
        | none => none
        | some (c', st) => some (c'.set i (some st.keys), some st.keys)

/-- `get_namespaces`, ser.rs:1579-1586: unwraps. -/
def getNamespaces (C : Cfg) (T : Types) (c : Cache) (i : Ident) : Option (Cache × List Key) :=
  match getImpl C T (T.length + 1) c i with
  | some (c', some ks) => some (c', ks)
  | _ => none

/-- The types are rendered one after another with the same collector, ser.rs:815-830. -/
def renderAll (C : Cfg) (T : Types) : Cache → List Ident → Option (Cache × List (List Key))
  | c, [] => some (c, [])
  | c, i :: r =>
    match getNamespaces C T c i with
    | none => none
    | some (c', ks) =>
      match renderAll C T c' r with
      | none => none
      | some (c'', kss) => some (c'', ks :: kss)

/-- A new collector, ser.rs:1561-1577. -/
def Cache.new : Cache := fun _ => none

/-! ## Specification -/

/-- A value of a type with this definition may contain a value of type `j`. -/
def Contains (v : Variant) (j : Ident) : Prop :=
  match v with
  | .union x => ∃ t ∈ x.types, t.type_ = j
  | .reference x => x.type_ = j
  | .enumeration x => ∃ t ∈ x.variants, t.type_ = some j
  | .dynamic x => ∃ p ∈ x.derived, p.2.type_ = j
  | .all x | .choice x | .sequence x => ∃ e ∈ x.elements, ∃ m, e.variant = .type_ j m
  | .complex x => x.content = some j
  | .custom _ | .buildIn _ | .simple _ => False

def Part (T : Types) (i j : Ident) : Prop := ∃ ty, Assoc.get T i = some ty ∧ Contains ty.variant j

/-- A value of type `i` may contain, at any depth, a value of type `j`. -/
inductive Reaches (T : Types) : Ident → Ident → Prop
  | refl (i : Ident) : Reaches T i i
  | step {i j k : Ident} : Part T i j → Reaches T j k → Reaches T i k

/-- A namespace can be declared: with a prefix, or as default namespace. -/
def Declarable (C : Cfg) : Key → Prop
  | .normal id => ∃ p ns, Assoc.get C.modules id = some ⟨some p, some ns⟩
  | .default_ id => ∃ p ns, Assoc.get C.modules id = some ⟨p, some ns⟩

/-- The module is that of the configured default namespace. -/
def IsDefault (C : Cfg) (id : Nat) : Prop :=
  ∃ p ns, Assoc.get C.modules id = some ⟨p, some ns⟩ ∧ C.default_ = some ns

/-- `id` is the first module with the namespace. -/
def FirstWith (M : List (Nat × Module)) (ns : Txt) (id : Nat) : Prop :=
  ∃ before m after, M = before ++ (id, m) :: after ∧ m.ns = some ns ∧ ∀ q ∈ before, q.2.ns ≠ some ns

/-- A dynamic value may be written with `xsi:type`: one of the derived types is not the type of a derived element. -/
def WritesXsiType (d : List (Ident × Derived)) : Prop :=
  ∃ p ∈ d, p.1.kind = .type_ ∧ p.2.relationship ≠ .concrete ∧
    ∀ q ∈ d, q.1.kind = .element → q.2.type_ ≠ p.2.type_

/-- An alternative is told apart by its `xsi:type`: by its type but not the default, and rather by the type than by the
tag. -/
def ByXsiType (f : Flags) : Prop :=
  f.byType = true ∧ f.defaultElement = false ∧ (f.preferType = true ∨ f.byTag = false)

/-- Values of the type may be written with `xsi:nil` or `xsi:type`. -/
def NeedsXsi (C : Cfg) (v : Variant) : Prop :=
  match v with
  | .reference x => C.nillable = true ∧ x.nillable = true
  | .dynamic x => WritesXsiType x.derived
  | .all x | .sequence x => C.nillable = true ∧ ∃ e ∈ x.elements, e.flags.nillable = true
  | .choice x => ∃ e ∈ x.elements, (C.nillable = true ∧ e.flags.nillable = true) ∨ ByXsiType e.flags
  | _ => False

/-- The namespaces that a type asks for by itself. -/
inductive Asks (C : Cfg) (i : Ident) (ty : MetaType) : Key → Prop
  | own : ty.form = some .qualified → ¬ IsDefault C i.ns → Asks C i ty (.normal i.ns)
  | ownDefault : ty.form = some .qualified → IsDefault C i.ns → Asks C i ty (.default_ i.ns)
  | attr {x : Complex} {a : Attribute} : ty.variant = .complex x → a ∈ x.attributes → a.form = .qualified →
      Asks C i ty (.normal a.ident.ns)
  | xsi {id : Nat} : NeedsXsi C ty.variant → FirstWith C.modules xsiNs id → Asks C i ty (.normal id)
  | customId {n : Txt} {id : Nat} : ty.variant = .custom n → .id id ∈ C.custom n → Asks C i ty (.default_ id)
  | customNs {n : Txt} {s : Txt} {id : Nat} : ty.variant = .custom n → .ns s ∈ C.custom n →
      FirstWith C.modules s id → Asks C i ty (.normal id)

/-- Some type that a value of type `i` may contain asks for the namespace, and it can be declared. -/
def Wanted (C : Cfg) (T : Types) (i : Ident) (k : Key) : Prop :=
  Declarable C k ∧ ∃ j ty, Reaches T i j ∧ Assoc.get T j = some ty ∧ Asks C j ty k

/-- All types that are used are defined. -/
def Closed (T : Types) : Prop := ∀ i j, Part T i j → Defined T j

/-- No value of a type can contain a value of the same type. -/
def Acyclic (T : Types) : Prop := NoLoop (Part T)

/-! ## The steps and the specification -/

theorem hasValue_iff (C : Cfg) (k : Key) : hasValue C k = true ↔ Declarable C k := by
  cases k with
  | normal id =>
    simp only [hasValue, Declarable]
    cases Assoc.get C.modules id with
    | none => simp
    | some m => obtain ⟨p, ns⟩ := m; cases p <;> cases ns <;> simp
  | default_ id =>
    simp only [hasValue, Declarable]
    cases Assoc.get C.modules id with
    | none => simp
    | some m => obtain ⟨p, ns⟩ := m; cases ns <;> simp

theorem isDefault_iff (C : Cfg) (id : Nat) : isDefault C id = true ↔ IsDefault C id := by
  unfold isDefault IsDefault
  cases Assoc.get C.modules id with
  | none => simp
  | some m =>
    obtain ⟨p, ns⟩ := m
    cases ns <;> cases C.default_ <;> simp <;> exact eq_comm

instance (C : Cfg) (k : Key) : Decidable (Declarable C k) := decidable_of_iff _ (hasValue_iff C k)

instance (C : Cfg) (id : Nat) : Decidable (IsDefault C id) := decidable_of_iff _ (isDefault_iff C id)

theorem findNs_iff (M : List (Nat × Module)) (ns : Txt) (id : Nat) : findNs M ns = some id ↔ FirstWith M ns id := by
  unfold findNs FirstWith
  rw [Option.map_eq_some_iff]
  constructor
  · rintro ⟨⟨x, m⟩, h, rfl⟩
    obtain ⟨h1, before, after, rfl, h2⟩ := List.find?_eq_some_iff_append.1 h
    refine ⟨before, m, after, rfl, by simpa using h1, fun q hq => ?_⟩
    have := h2 q hq
    simpa using this
  · rintro ⟨before, m, after, rfl, h1, h2⟩
    refine ⟨(id, m), List.find?_eq_some_iff_append.2 ⟨by simpa using h1, before, after, rfl, fun q hq => ?_⟩, rfl⟩
    have := h2 q hq
    simpa using this

theorem hasDynamicTypes_iff (d : List (Ident × Derived)) : hasDynamicTypes d = true ↔ WritesXsiType d := by
  unfold hasDynamicTypes WritesXsiType
  simp only [List.any_eq_true, Bool.not_eq_true', Bool.or_eq_false_iff, bne_eq_false_iff_eq, beq_eq_false_iff_ne,
    List.contains_eq_mem, decide_eq_false_iff_not, List.mem_map, List.mem_filter, beq_iff_eq, not_exists, not_and,
    and_assoc]

theorem useXsi_iff (f : Flags) : useXsi f = true ↔ ByXsiType f := by
  simp [useXsi, ByXsiType, and_assoc]

theorem mem_addXsi (C : Cfg) (b : Bool) (s : Step) :
    s ∈ addXsi C b ↔ b = true ∧ ∃ id, FirstWith C.modules xsiNs id ∧ s = .add (.normal id) := by
  unfold addXsi
  simp only [← findNs_iff]
  cases b <;> cases h : findNs C.modules xsiNs <;> simp

theorem mem_elementSteps (C : Cfg) (b : Bool) (e : Element) (s : Step) :
    s ∈ elementSteps C b e ↔ (∃ i m, e.variant = .type_ i m ∧ s = .merge i) ∨
      (((C.nillable = true ∧ e.flags.nillable = true) ∨ (b = true ∧ ByXsiType e.flags)) ∧
        ∃ id, FirstWith C.modules xsiNs id ∧ s = .add (.normal id)) := by
  unfold elementSteps
  simp only [List.mem_append, mem_addXsi, Bool.and_eq_true, useXsi_iff]
  have h0 : (s ∈ (match e.variant with | .type_ i _ => [Step.merge i] | _ => [])) ↔
      ∃ i m, e.variant = .type_ i m ∧ s = .merge i := by
    cases e.variant <;> simp
  rw [h0]
  constructor
  · rintro ((h | ⟨h, h'⟩) | ⟨h, h'⟩)
    · exact Or.inl h
    · exact Or.inr ⟨Or.inl h, h'⟩
    · exact Or.inr ⟨Or.inr h, h'⟩
  · rintro (h | ⟨h | h, h'⟩)
    · exact Or.inl (Or.inl h)
    · exact Or.inl (Or.inr ⟨h, h'⟩)
    · exact Or.inr ⟨h, h'⟩

theorem merge_mem_steps (C : Cfg) (i : Ident) (ty : MetaType) (j : Ident) :
    .merge j ∈ steps C i ty ↔ Contains ty.variant j := by
  unfold steps
  have h1 : Step.merge j ∉ ownSteps C i ty := by unfold ownSteps; split <;> simp
  simp only [List.mem_append, h1, or_false]
  have hx : ∀ b, Step.merge j ∉ addXsi C b := by
    intro b h
    obtain ⟨-, id, -, h⟩ := (mem_addXsi C b _).1 h
    cases h
  have he : ∀ b (x : Group), (Step.merge j ∈ x.elements.flatMap (elementSteps C b)) ↔
      ∃ e ∈ x.elements, ∃ m, e.variant = .type_ j m := by
    intro b x
    simp only [List.mem_flatMap, mem_elementSteps]
    constructor
    · rintro ⟨e, he, ⟨k, m, h, h'⟩ | ⟨-, id, -, h⟩⟩
      · cases h'; exact ⟨e, he, m, h⟩
      · cases h
    · rintro ⟨e, he, m, h⟩; exact ⟨e, he, Or.inl ⟨j, m, h, rfl⟩⟩
  cases ty.variant with
  | union x => simp [variantSteps, Contains]
  | reference x => simp only [variantSteps, Contains, List.mem_cons, hx, or_false, Step.merge.injEq]; exact eq_comm
  | enumeration x => simp [variantSteps, Contains]
  | dynamic x => simp only [variantSteps, Contains, List.mem_append, hx, or_false, List.mem_map, Step.merge.injEq]
  | all x => exact he _ _
  | choice x => exact he _ _
  | sequence x => exact he _ _
  | complex x =>
    simp only [variantSteps, Contains, List.mem_append]
    have : Step.merge j ∉ x.attributes.filterMap fun a =>
      if a.form = .qualified then some (Step.add (.normal a.ident.ns)) else none := by
      simp only [List.mem_filterMap, not_exists, not_and]
      intro a _
      split <;> simp
    simp only [this, or_false]
    cases x.content <;> simp [eq_comm]
  | custom n =>
    simp only [variantSteps, Contains, List.mem_flatMap, iff_false, not_exists, not_and]
    intro x _
    unfold customSteps
    cases x with
    | id n => simp
    | ns s => simp only; split <;> simp
  | buildIn x => simp [variantSteps, Contains]
  | simple x => simp [variantSteps, Contains]

theorem add_mem_steps (C : Cfg) (i : Ident) (ty : MetaType) (k : Key) :
    .add k ∈ steps C i ty ↔ Asks C i ty k := by
  unfold steps
  simp only [List.mem_append]
  have hown : Step.add k ∈ ownSteps C i ty ↔
      ty.form = some .qualified ∧ k = (if isDefault C i.ns then .default_ i.ns else .normal i.ns) := by
    unfold ownSteps; split <;> simp_all
  have he : ∀ b (x : Group), (Step.add k ∈ x.elements.flatMap (elementSteps C b)) ↔
      (∃ e ∈ x.elements, (C.nillable = true ∧ e.flags.nillable = true) ∨ (b = true ∧ ByXsiType e.flags)) ∧
        ∃ id, FirstWith C.modules xsiNs id ∧ k = .normal id := by
    intro b x
    simp only [List.mem_flatMap, mem_elementSteps]
    constructor
    · rintro ⟨e, he, ⟨j, m, h, h'⟩ | ⟨h, id, h1, h2⟩⟩
      · cases h'
      · cases h2; exact ⟨⟨e, he, h⟩, id, h1, rfl⟩
    · rintro ⟨⟨e, he, h⟩, id, h1, rfl⟩; exact ⟨e, he, Or.inr ⟨h, id, h1, rfl⟩⟩
  constructor
  · rintro (h | h)
    · cases hv : ty.variant with
      | union x => rw [hv] at h; simp [variantSteps] at h
      | reference x =>
        rw [hv] at h
        simp only [variantSteps, List.mem_cons, reduceCtorEq, false_or, mem_addXsi, Bool.and_eq_true,
          Step.add.injEq] at h
        obtain ⟨h, id, h1, rfl⟩ := h
        exact .xsi (by rw [hv]; exact h) h1
      | enumeration x =>
        rw [hv] at h
        simp [variantSteps] at h
      | dynamic x =>
        rw [hv] at h
        simp only [variantSteps, List.mem_append, List.mem_map, reduceCtorEq, and_false, exists_false, false_or,
          mem_addXsi, Step.add.injEq] at h
        obtain ⟨h, id, h1, rfl⟩ := h
        exact .xsi (by rw [hv]; exact (hasDynamicTypes_iff _).1 h) h1
      | all x =>
        rw [hv] at h
        obtain ⟨⟨e, he', h2⟩, id, h1, rfl⟩ := (he _ _).1 h
        refine .xsi (by rw [hv]; rcases h2 with h2 | h2; exact ⟨h2.1, e, he', h2.2⟩; cases h2.1) h1
      | choice x =>
        rw [hv] at h
        obtain ⟨⟨e, he', h2⟩, id, h1, rfl⟩ := (he _ _).1 h
        exact .xsi (by rw [hv]; exact ⟨e, he', h2.imp (fun h => h) And.right⟩) h1
      | sequence x =>
        rw [hv] at h
        obtain ⟨⟨e, he', h2⟩, id, h1, rfl⟩ := (he _ _).1 h
        refine .xsi (by rw [hv]; rcases h2 with h2 | h2; exact ⟨h2.1, e, he', h2.2⟩; cases h2.1) h1
      | complex x =>
        rw [hv] at h
        simp only [variantSteps, List.mem_append, List.mem_filterMap] at h
        rcases h with h | ⟨a, ha, h⟩
        · cases hc : x.content <;> rw [hc] at h <;> simp at h
        · by_cases hq : a.form = .qualified
          · rw [if_pos hq] at h; cases h; exact .attr hv ha hq
          · rw [if_neg hq] at h; cases h
      | custom n =>
        rw [hv] at h
        simp only [variantSteps, List.mem_flatMap] at h
        obtain ⟨x, hx, h⟩ := h
        cases x with
        | id m => simp only [customSteps, List.mem_singleton, Step.add.injEq] at h; subst h; exact .customId hv hx
        | ns s =>
          cases hs : findNs C.modules s with
          | none => simp [customSteps, hs] at h
          | some m =>
            simp only [customSteps, hs, List.mem_singleton, Step.add.injEq] at h; subst h
            exact .customNs hv hx ((findNs_iff _ _ _).1 hs)
      | buildIn x => rw [hv] at h; simp [variantSteps] at h
      | simple x => rw [hv] at h; simp [variantSteps] at h
    · obtain ⟨hf, rfl⟩ := hown.1 h
      cases hd : isDefault C i.ns
      · simp only [Bool.false_eq_true, if_false]; exact .own hf (by rw [← isDefault_iff, hd]; simp)
      · simp only [if_true]; exact .ownDefault hf ((isDefault_iff _ _).1 hd)
  · intro h
    cases h with
    | own hf hd => exact Or.inr (hown.2 ⟨hf, by rw [if_neg (by rw [isDefault_iff]; exact hd)]⟩)
    | ownDefault hf hd => exact Or.inr (hown.2 ⟨hf, by rw [if_pos ((isDefault_iff _ _).2 hd)]⟩)
    | @attr x a hv ha hq =>
      refine Or.inl ?_
      rw [hv]
      simp only [variantSteps, List.mem_append, List.mem_filterMap]
      exact Or.inr ⟨a, ha, by rw [if_pos hq]⟩
    | @xsi id hn hx =>
      refine Or.inl ?_
      cases hv : ty.variant with
      | reference x =>
        rw [hv] at hn
        simp only [variantSteps, List.mem_cons, mem_addXsi, Bool.and_eq_true]
        exact Or.inr ⟨hn, id, hx, rfl⟩
      | dynamic x =>
        rw [hv] at hn
        simp only [variantSteps, List.mem_append, mem_addXsi]
        exact Or.inr ⟨(hasDynamicTypes_iff _).2 hn, id, hx, rfl⟩
      | all x =>
        rw [hv] at hn
        obtain ⟨h1, e, he', h2⟩ := hn
        exact (he _ _).2 ⟨⟨e, he', Or.inl ⟨h1, h2⟩⟩, id, hx, rfl⟩
      | sequence x =>
        rw [hv] at hn
        obtain ⟨h1, e, he', h2⟩ := hn
        exact (he _ _).2 ⟨⟨e, he', Or.inl ⟨h1, h2⟩⟩, id, hx, rfl⟩
      | choice x =>
        rw [hv] at hn
        obtain ⟨e, he', h2⟩ := hn
        exact (he _ _).2 ⟨⟨e, he', h2.imp_right fun h => ⟨rfl, h⟩⟩, id, hx, rfl⟩
      | _ => rw [hv] at hn; exact hn.elim
    | @customId n id hv hm =>
      refine Or.inl ?_
      rw [hv]
      simp only [variantSteps, List.mem_flatMap]
      exact ⟨_, hm, by simp [customSteps]⟩
    | @customNs n s id hv hm hs =>
      refine Or.inl ?_
      rw [hv]
      simp only [variantSteps, List.mem_flatMap]
      exact ⟨_, hm, by simp [customSteps, (findNs_iff _ _ _).2 hs]⟩

/-! ## Sets of keys -/

def AllValid (C : Cfg) (ks : List Key) : Prop := ∀ k ∈ ks, Declarable C k

theorem mem_addNs (C : Cfg) (st : St) (k k' : Key) :
    k' ∈ (addNs C st k).keys ↔ k' ∈ st.keys ∨ (k' = k ∧ Declarable C k) := by
  rw [← hasValue_iff]
  have key : ∀ ks : List Key, ks.contains k = true → (k' ∈ ks ↔ k' ∈ ks ∨ (k' = k ∧ hasValue C k = true)) := by
    intro ks h
    rw [List.contains_iff_mem] at h
    constructor
    · exact Or.inl
    · rintro (h' | ⟨rfl, -⟩)
      · exact h'
      · exact h
  cases st with
  | empty =>
    simp only [addNs]
    split <;> simp_all [St.keys]
  | weak ks =>
    simp only [addNs]
    split
    · exact key ks ‹_›
    · split <;> simp_all [St.keys, or_comm]
  | shared ks =>
    simp only [addNs]
    split
    · exact key ks ‹_›
    · split <;> simp_all [St.keys, or_comm]
  | strong ks =>
    simp only [addNs]
    split
    · exact key ks ‹_›
    · split <;> simp_all [St.keys, or_comm]

theorem addNs_valid (C : Cfg) (st : St) (k : Key) (h : AllValid C st.keys) : AllValid C (addNs C st k).keys := by
  intro k' hk'
  rcases (mem_addNs C st k k').1 hk' with h' | ⟨rfl, h'⟩
  · exact h _ h'
  · exact h'

theorem mem_foldl_addNs (C : Cfg) (src : List Key) (hs : AllValid C src) (k' : Key) : ∀ st : St,
    k' ∈ (src.foldl (addNs C) st).keys ↔ k' ∈ st.keys ∨ k' ∈ src := by
  induction src with
  | nil => intro st; simp
  | cons k r ih =>
    intro st
    rw [List.foldl_cons, ih (fun x hx => hs x (List.mem_cons_of_mem _ hx)), mem_addNs]
    have := hs k (List.mem_cons_self ..)
    simp only [this, and_true, List.mem_cons, or_assoc]

theorem mem_mergeSt (C : Cfg) (st : St) (src : List Key) (h : AllValid C st.keys) (hs : AllValid C src) (k' : Key) :
    k' ∈ (mergeSt C st src).keys ↔ k' ∈ st.keys ∨ k' ∈ src := by
  cases st with
  | empty => simp [mergeSt, St.keys]
  | weak dst =>
    simp only [mergeSt, mem_foldl_addNs C dst h]
    exact or_comm
  | shared dst =>
    simp only [mergeSt]
    split
    · rename_i h'; subst h'; simp [St.keys]
    · rw [mem_foldl_addNs C src hs]
  | strong dst => simp only [mergeSt, mem_foldl_addNs C src hs]

theorem mergeSt_valid (C : Cfg) (st : St) (src : List Key) (h : AllValid C st.keys) (hs : AllValid C src) :
    AllValid C (mergeSt C st src).keys := by
  intro k' hk'
  rcases (mem_mergeSt C st src h hs k').1 hk' with h' | h'
  · exact h _ h'
  · exact hs _ h'

/-! ## The traversal -/

theorem Reaches.trans {T : Types} {a b c : Ident} (h : Reaches T a b) (h' : Reaches T b c) : Reaches T a c := by
  induction h with
  | refl => exact h'
  | step hm _ ih => exact .step hm (ih h')

theorem Wanted.up {C : Cfg} {T : Types} {i j : Ident} {k : Key} (h : Reaches T i j) (w : Wanted C T j k) :
    Wanted C T i k := by
  obtain ⟨hv, x, ty, hr, hg, ha⟩ := w
  exact ⟨hv, x, ty, h.trans hr, hg, ha⟩

/-- What every traversal leaves behind. `Sound`: finished entries have only wanted keys. -/
def Sound (C : Cfg) (T : Types) (c : Cache) : Prop := ∀ i ks, c i = some (some ks) → ∀ k ∈ ks, Wanted C T i k

/-- The cache has only grown, and nothing is in progress that was not. -/
structure Grows (c c' : Cache) : Prop where
  keep : ∀ j v, c j = some v → c' j = some v
  fresh : ∀ j, c j = none → c' j = none ∨ ∃ ks, c' j = some (some ks)

theorem Grows.refl (c : Cache) : Grows c c := ⟨fun _ _ h => h, fun _ h => Or.inl h⟩

theorem Grows.trans {a b c : Cache} (h : Grows a b) (h' : Grows b c) : Grows a c := by
  refine ⟨fun j v hj => h'.keep _ _ (h.keep _ _ hj), ?_⟩
  intro j hj
  rcases h.fresh j hj with h1 | ⟨ks, h1⟩
  · exact h'.fresh j h1
  · exact Or.inr ⟨ks, h'.keep _ _ h1⟩

/-- What a call for `i` does to a cache. -/
structure Call (C : Cfg) (T : Types) (c : Cache) (i : Ident) (c' : Cache) (v : Option (List Key)) : Prop where
  grows : Grows c c'
  here : c' i = some v
  known : ∀ w, c i = some w → v = w ∧ c' = c
  /-- what is new is defined and what it contains is known -/
  closed : ∀ j, c j = none → c' j ≠ none → Defined T j ∧ ∀ x, Part T j x → c' x ≠ none
  /-- what is new can be reached, and is included -/
  reach : ∀ j, c j = none → c' j ≠ none → Reaches T i j
  include_ : c i = none → ∃ ks, v = some ks ∧
    ∀ j ty k, c j = none → c' j ≠ none → Assoc.get T j = some ty → Asks C j ty k → Declarable C k → k ∈ ks

theorem set_same (c : Cache) (i : Ident) (v : Option (List Key)) : c.set i v i = some v := by simp [Cache.set]

theorem set_other (c : Cache) {i j : Ident} (h : j ≠ i) (v : Option (List Key)) : c.set i v j = c j := by
  simp [Cache.set, h]

/-- The steps of a type, with a traversal `get` for the types it contains. -/
theorem runSteps_spec (C : Cfg) (T : Types) (get : Cache → Ident → Option (Cache × Option (List Key)))
    (hget : ∀ c j c' v, Sound C T c → get c j = some (c', v) → Sound C T c' ∧ Call C T c j c' v) :
    ∀ (ss : List Step) (c : Cache) (st : St) (c' : Cache) (st' : St), Sound C T c → AllValid C st.keys →
      runSteps C get c st ss = some (c', st') →
      Sound C T c' ∧ Grows c c' ∧ AllValid C st'.keys ∧
      (∀ k ∈ st.keys, k ∈ st'.keys) ∧
      (∀ k ∈ st'.keys, k ∈ st.keys ∨ (.add k ∈ ss ∧ Declarable C k) ∨ ∃ j, .merge j ∈ ss ∧ Wanted C T j k) ∧
      (∀ k, .add k ∈ ss → Declarable C k → k ∈ st'.keys) ∧
      (∀ j, .merge j ∈ ss → c' j ≠ none) ∧
      (∀ j, c j = none → c' j ≠ none → Defined T j ∧ (∀ x, Part T j x → c' x ≠ none) ∧
        ∃ x, .merge x ∈ ss ∧ Reaches T x j) ∧
      (∀ j ty k, c j = none → c' j ≠ none → Assoc.get T j = some ty → Asks C j ty k → Declarable C k →
        k ∈ st'.keys) := by
  intro ss
  induction ss with
  | nil =>
    intro c st c' st' hs hv h
    simp only [runSteps, Option.some.injEq, Prod.mk.injEq] at h
    obtain ⟨rfl, rfl⟩ := h
    exact ⟨hs, .refl _, hv, fun _ h => h, fun _ h => Or.inl h, by simp, by simp,
      fun j h1 h2 => absurd h1 h2, fun j _ _ h1 h2 => absurd h1 h2⟩
  | cons s r ih =>
    intro c st c' st' hs hv h
    cases s with
    | add k =>
      rw [runSteps] at h
      obtain ⟨h1, h2, h3, h4, h5, h6, h7, h8, h9⟩ := ih c (addNs C st k) c' st' hs (addNs_valid C st k hv) h
      refine ⟨h1, h2, h3, ?_, ?_, ?_, ?_, ?_, h9⟩
      · intro k' hk'
        exact h4 _ ((mem_addNs ..).2 (Or.inl hk'))
      · intro k' hk'
        rcases h5 k' hk' with h | ⟨h, h'⟩ | ⟨j, h, h'⟩
        · rcases (mem_addNs ..).1 h with h | ⟨rfl, h⟩
          · exact Or.inl h
          · exact Or.inr (Or.inl ⟨List.mem_cons_self .., h⟩)
        · exact Or.inr (Or.inl ⟨List.mem_cons_of_mem _ h, h'⟩)
        · exact Or.inr (Or.inr ⟨j, List.mem_cons_of_mem _ h, h'⟩)
      · intro k' hk' hval
        rcases List.mem_cons.1 hk' with h | h
        · cases h
          exact h4 _ ((mem_addNs ..).2 (Or.inr ⟨rfl, hval⟩))
        · exact h6 k' h hval
      · intro j hj
        rcases List.mem_cons.1 hj with h | h
        · cases h
        · exact h7 j h
      · intro j hj hj'
        obtain ⟨a, b, x, hx, hr⟩ := h8 j hj hj'
        exact ⟨a, b, x, List.mem_cons_of_mem _ hx, hr⟩
    | merge i =>
      rw [runSteps] at h
      cases hg : get c i with
      | none => rw [hg] at h; cases h
      | some p =>
        obtain ⟨c₁, v⟩ := p
        rw [hg] at h
        obtain ⟨hs₁, call⟩ := hget c i c₁ v hs hg
        -- what the call adds to the state
        have main : ∃ st₁ : St, runSteps C get c₁ st₁ r = some (c', st') ∧ AllValid C st₁.keys ∧
            (∀ k ∈ st.keys, k ∈ st₁.keys) ∧ (∀ k ∈ st₁.keys, k ∈ st.keys ∨ Wanted C T i k) ∧
            (∀ ks, v = some ks → ∀ k ∈ ks, k ∈ st₁.keys) := by
          cases v with
          | none => exact ⟨st, h, hv, fun _ h => h, fun _ h => Or.inl h, by simp⟩
          | some ks =>
            have hw := hs₁ i ks call.here
            have hvk : AllValid C ks := fun k hk => (hw k hk).1
            refine ⟨mergeSt C st ks, h, mergeSt_valid C st ks hv hvk, ?_, ?_, ?_⟩
            · intro k hk; exact (mem_mergeSt C st ks hv hvk k).2 (Or.inl hk)
            · intro k hk
              rcases (mem_mergeSt C st ks hv hvk k).1 hk with h | h
              · exact Or.inl h
              · exact Or.inr (hw k h)
            · intro ks' he k hk; cases he; exact (mem_mergeSt C st ks hv hvk k).2 (Or.inr hk)
        obtain ⟨st₁, hrun, hv₁, hsub, honly, hall⟩ := main
        obtain ⟨h1, h2, h3, h4, h5, h6, h7, h8, h9⟩ := ih c₁ st₁ c' st' hs₁ hv₁ hrun
        have keepNe : ∀ x, c₁ x ≠ none → c' x ≠ none := by
          intro x hx
          cases hc : c₁ x with
          | none => exact absurd hc hx
          | some w => rw [h2.keep _ _ hc]; simp
        refine ⟨h1, call.grows.trans h2, h3, fun k hk => h4 _ (hsub _ hk), ?_, ?_, ?_, ?_, ?_⟩
        · intro k hk
          rcases h5 k hk with h | ⟨h, h'⟩ | ⟨j, h, h'⟩
          · rcases honly k h with h | h
            · exact Or.inl h
            · exact Or.inr (Or.inr ⟨i, List.mem_cons_self .., h⟩)
          · exact Or.inr (Or.inl ⟨List.mem_cons_of_mem _ h, h'⟩)
          · exact Or.inr (Or.inr ⟨j, List.mem_cons_of_mem _ h, h'⟩)
        · intro k hk hval
          rcases List.mem_cons.1 hk with h | h
          · cases h
          · exact h6 k h hval
        · intro j hj
          rcases List.mem_cons.1 hj with h | h
          · cases h; exact keepNe _ (by rw [call.here]; simp)
          · exact h7 j h
        · intro j hj hj'
          by_cases hc : c₁ j = none
          · obtain ⟨a, b, x, hx, hr⟩ := h8 j hc hj'
            exact ⟨a, b, x, List.mem_cons_of_mem _ hx, hr⟩
          · obtain ⟨a, b⟩ := call.closed j hj hc
            exact ⟨a, fun x hx => keepNe x (b x hx), i, List.mem_cons_self .., call.reach j hj hc⟩
        · intro j ty k hj hj' hty hask hval
          by_cases hc : c₁ j = none
          · exact h9 j ty k hc hj' hty hask hval
          · -- new in this call: so `i` itself was new, or nothing is new
            by_cases hi : c i = none
            · obtain ⟨ks, hks, hin⟩ := call.include_ hi
              exact h4 _ (hall ks hks k (hin j ty k hj hc hty hask hval))
            · cases hci : c i with
              | none => exact absurd hci hi
              | some w => exact absurd ((call.known w hci).2 ▸ hj) hc

theorem getImpl_spec (C : Cfg) (T : Types) : ∀ (fuel : Nat) (c : Cache) (i : Ident) (c' : Cache)
    (v : Option (List Key)), Sound C T c → getImpl C T fuel c i = some (c', v) →
    Sound C T c' ∧ Call C T c i c' v := by
  intro fuel
  induction fuel with
  | zero => intro c i c' v _ h; cases h
  | succ fuel ih =>
    intro c i c' v hs h
    rw [getImpl] at h
    cases hc : c i with
    | some w =>
      rw [hc] at h
      simp only [Option.some.injEq, Prod.mk.injEq] at h
      obtain ⟨rfl, rfl⟩ := h
      exact ⟨hs, .refl _, hc, fun w' hw' => ⟨by rw [hc] at hw'; exact Option.some.inj hw', rfl⟩,
        fun j h1 h2 => absurd h1 h2, fun j h1 h2 => absurd h1 h2, fun h => by rw [hc] at h; cases h⟩
    | none =>
      rw [hc] at h
      cases hty : Assoc.get T i with
      | none => rw [hty] at h; cases h
      | some ty =>
        rw [hty] at h
        simp only at h
        cases hr : runSteps C (getImpl C T fuel) (c.set i none) .empty (steps C i ty) with
        | none => rw [hr] at h; cases h
        | some p =>
          obtain ⟨c₁, st⟩ := p
          rw [hr] at h
          simp only [Option.some.injEq, Prod.mk.injEq] at h
          obtain ⟨rfl, rfl⟩ := h
          have hs₀ : Sound C T (c.set i none) := by
            intro j ks hj
            by_cases hji : j = i
            · subst hji; rw [set_same] at hj; cases hj
            · rw [set_other _ hji] at hj; exact hs j ks hj
          obtain ⟨h1, h2, h3, -, h5, h6, h7, h8, h9⟩ :=
            runSteps_spec C T _ (fun c j c' v => ih c j c' v) _ _ _ _ _ hs₀ (by intro k hk; cases hk) hr
          have hpart : ∀ x, Part T i x ↔ .merge x ∈ steps C i ty := by
            intro x
            rw [merge_mem_steps]
            constructor
            · rintro ⟨ty', h, h'⟩; rw [hty] at h; cases h; exact h'
            · intro h; exact ⟨ty, hty, h⟩
          have hne : ∀ x, c₁ x ≠ none → c₁.set i (some st.keys) x ≠ none := by
            intro x hx
            by_cases hxi : x = i
            · subst hxi; rw [set_same]; simp
            · rw [set_other _ hxi]; exact hx
          refine ⟨?_, ⟨?_, ?_⟩, set_same .., ?_, ?_, ?_, ?_⟩
          · intro j ks hj
            by_cases hji : j = i
            · subst hji
              rw [set_same] at hj
              cases hj
              intro k hk
              rcases h5 k hk with h | ⟨h, h'⟩ | ⟨x, h, h'⟩
              · cases h
              · exact ⟨h', j, ty, .refl _, hty, (add_mem_steps ..).1 h⟩
              · exact h'.up (.step ((hpart x).2 h) (.refl _))
            · rw [set_other _ hji] at hj; exact h1 j ks hj
          · intro j w hj
            have hji : j ≠ i := by rintro rfl; rw [hc] at hj; cases hj
            rw [set_other _ hji]
            exact h2.keep j w (by rw [set_other _ hji]; exact hj)
          · intro j hj
            by_cases hji : j = i
            · subst hji; exact Or.inr ⟨_, set_same ..⟩
            · rw [set_other _ hji]
              exact h2.fresh j (by rw [set_other _ hji]; exact hj)
          · intro w hw; rw [hc] at hw; cases hw
          · intro j hj hj'
            by_cases hji : j = i
            · subst hji
              exact ⟨⟨ty, hty⟩, fun x hx => hne x (h7 x ((hpart x).1 hx))⟩
            · rw [set_other _ hji] at hj'
              obtain ⟨a, b, -⟩ := h8 j (by rw [set_other _ hji]; exact hj) hj'
              exact ⟨a, fun x hx => hne x (b x hx)⟩
          · intro j hj hj'
            by_cases hji : j = i
            · subst hji; exact .refl _
            · rw [set_other _ hji] at hj'
              obtain ⟨-, -, x, hx, hrx⟩ := h8 j (by rw [set_other _ hji]; exact hj) hj'
              exact .step ((hpart x).2 hx) hrx
          · intro _
            refine ⟨st.keys, rfl, ?_⟩
            intro j ty' k hj hj' hty' hask hval
            by_cases hji : j = i
            · subst hji
              rw [hty] at hty'; cases hty'
              exact h6 k ((add_mem_steps ..).2 hask) hval
            · rw [set_other _ hji] at hj'
              exact h9 j ty' k (by rw [set_other _ hji]; exact hj) hj' hty' hask hval

/-! ## No panics -/

/-- The types of the table that the cache does not know. -/
def left (T : Types) (c : Cache) : Nat := T.countP fun p => (c p.1).isNone

theorem left_le {T : Types} {c c' : Cache} (h : Grows c c') : left T c' ≤ left T c := by
  unfold left
  refine List.countP_mono_left ?_
  intro p _ hp
  cases hc : c p.1 with
  | none => rfl
  | some v => rw [h.keep _ _ hc] at hp; cases hp

theorem runSteps_total (C : Cfg) (T : Types) (get : Cache → Ident → Option (Cache × Option (List Key))) (n : Nat)
    (hget : ∀ c j, Sound C T c → Defined T j → left T c ≤ n → ∃ c' v, get c j = some (c', v) ∧ Sound C T c' ∧
      Grows c c') :
    ∀ (ss : List Step) (c : Cache) (st : St), Sound C T c → (∀ j, .merge j ∈ ss → Defined T j) → left T c ≤ n →
      ∃ c' st', runSteps C get c st ss = some (c', st') := by
  intro ss
  induction ss with
  | nil => intro c st _ _ _; exact ⟨c, st, rfl⟩
  | cons s r ih =>
    intro c st hs hd hl
    cases s with
    | add k => exact ih c _ hs (fun j hj => hd j (List.mem_cons_of_mem _ hj)) hl
    | merge i =>
      obtain ⟨c₁, v, hg, hs₁, hgr⟩ := hget c i hs (hd i (List.mem_cons_self ..)) hl
      have hl₁ := Nat.le_trans (left_le hgr) hl
      have hd' := fun j hj => hd j (List.mem_cons_of_mem (Step.merge i) hj)
      rw [runSteps, hg]
      cases v with
      | none => exact ih c₁ st hs₁ hd' hl₁
      | some ks => exact ih c₁ _ hs₁ hd' hl₁

theorem getImpl_total (C : Cfg) (T : Types) (hcl : Closed T) : ∀ (fuel : Nat) (c : Cache) (i : Ident), Sound C T c →
    Defined T i → left T c < fuel → ∃ c' v, getImpl C T fuel c i = some (c', v) := by
  intro fuel
  induction fuel with
  | zero => intro c i _ _ h; exact absurd h (Nat.not_lt_zero _)
  | succ fuel ih =>
    intro c i hs hd hl
    rw [getImpl]
    cases hc : c i with
    | some v => exact ⟨c, v, rfl⟩
    | none =>
      obtain ⟨ty, hty⟩ := hd
      simp only [hty]
      have hs₀ : Sound C T (c.set i none) := by
        intro j ks hj
        by_cases hji : j = i
        · subst hji; rw [set_same] at hj; cases hj
        · rw [set_other _ hji] at hj; exact hs j ks hj
      have hlt : left T (c.set i none) < left T c := by
        unfold left
        refine countP_lt (a := (i, ty)) ?_ (Assoc.mem_of_get hty) ?_ ?_
        · intro p _ hp
          by_cases hpi : p.1 = i
          · rw [hpi, set_same] at hp; cases hp
          · rw [set_other _ hpi] at hp; exact hp
        · simp [set_same]
        · simp [hc]
      obtain ⟨c', st, h⟩ := runSteps_total C T (getImpl C T fuel) (left T (c.set i none))
        (by
          intro c₁ j hs₁ hj hl₁
          obtain ⟨c₂, v, h⟩ := ih c₁ j hs₁ hj (by omega)
          obtain ⟨a, b⟩ := getImpl_spec C T fuel c₁ j c₂ v hs₁ h
          exact ⟨c₂, v, h, a, b.grows⟩)
        (steps C i ty) (c.set i none) .empty hs₀
        (by intro j hj; exact hcl i j ⟨ty, hty, (merge_mem_steps ..).1 hj⟩) (Nat.le_refl _)
      rw [h]
      exact ⟨_, _, rfl⟩

/-! ## Histories of queries -/

/-- Between two queries nothing is in progress. -/
def Idle (c : Cache) : Prop := ∀ i, c i ≠ some none

theorem Idle.grows {c c' : Cache} (h : Idle c) (g : Grows c c') : Idle c' := by
  intro i hi
  cases hc : c i with
  | none =>
    rcases g.fresh i hc with h' | ⟨ks, h'⟩ <;> rw [h'] at hi <;> cases hi
  | some v =>
    have := g.keep _ _ hc
    rw [this] at hi
    cases hi
    exact h i hc

theorem left_le_length (T : Types) (c : Cache) : left T c ≤ T.length := List.countP_le_length

theorem getNamespaces_spec (C : Cfg) (T : Types) (hcl : Closed T) (c : Cache) (hs : Sound C T c) (hi : Idle c)
    (i : Ident) (hd : Defined T i) :
    ∃ c' ks, getNamespaces C T c i = some (c', ks) ∧ Sound C T c' ∧ Idle c' ∧ Call C T c i c' (some ks) := by
  obtain ⟨c', v, h⟩ := getImpl_total C T hcl (T.length + 1) c i hs hd (Nat.lt_succ_of_le (left_le_length T c))
  obtain ⟨hs', call⟩ := getImpl_spec C T _ c i c' v hs h
  have hi' := hi.grows call.grows
  cases v with
  | none => exact absurd call.here (hi' i)
  | some ks => exact ⟨c', ks, by simp only [getNamespaces, h], hs', hi', call⟩

theorem renderAll_inv (C : Cfg) (T : Types) (hcl : Closed T) (P : Cache → Prop) (Q : Ident → List Key → Prop)
    (hstep : ∀ c i c' ks, Sound C T c → Idle c → P c → Defined T i → Call C T c i c' (some ks) → Sound C T c' →
      P c' ∧ Q i ks) :
    ∀ (is : List Ident) (c : Cache), Sound C T c → Idle c → P c → (∀ i ∈ is, Defined T i) →
    ∃ c' kss, renderAll C T c is = some (c', kss) ∧ Sound C T c' ∧ Idle c' ∧ P c' ∧ kss.length = is.length ∧
      ∀ (n : Nat) i ks, is[n]? = some i → kss[n]? = some ks → Q i ks := by
  intro is
  induction is with
  | nil => intro c hs hi hp _; exact ⟨c, [], rfl, hs, hi, hp, rfl, by simp⟩
  | cons i r ih =>
    intro c hs hi hp hd
    obtain ⟨c₁, ks, h1, hs₁, hi₁, call⟩ := getNamespaces_spec C T hcl c hs hi i (hd i (List.mem_cons_self ..))
    obtain ⟨hp₁, hq⟩ := hstep c i c₁ ks hs hi hp (hd i (List.mem_cons_self ..)) call hs₁
    obtain ⟨c₂, kss, h2, hs₂, hi₂, hp₂, hl, hq₂⟩ :=
      ih c₁ hs₁ hi₁ hp₁ fun j hj => hd j (List.mem_cons_of_mem _ hj)
    refine ⟨c₂, ks :: kss, by rw [renderAll, h1]; simp only [h2], hs₂, hi₂, hp₂, by simp [hl], ?_⟩
    intro n j ks' h h'
    cases n with
    | zero =>
      simp only [List.getElem?_cons_zero, Option.some.injEq] at h h'
      subst h; subst h'; exact hq
    | succ n => exact hq₂ n j ks' (by simpa using h) (by simpa using h')

theorem sound_new (C : Cfg) (T : Types) : Sound C T Cache.new := by intro i ks h; cases h

theorem idle_new : Idle Cache.new := by intro i h; cases h

/-- **C61** (no panics, nothing superfluous): for any sequence of types that are rendered, the collector answers every
query, and every namespace it reports for a type is asked for by a type that its values may contain. -/
theorem C61_only_wanted (C : Cfg) (T : Types) (hcl : Closed T) (is : List Ident) (hd : ∀ i ∈ is, Defined T i) :
    ∃ c kss, renderAll C T Cache.new is = some (c, kss) ∧ kss.length = is.length ∧
      ∀ (n : Nat) i ks, is[n]? = some i → kss[n]? = some ks → ∀ k ∈ ks, Wanted C T i k := by
  obtain ⟨c, kss, h1, -, -, -, h2, h3⟩ := renderAll_inv C T hcl (fun _ => True)
    (fun i ks => ∀ k ∈ ks, Wanted C T i k)
    (fun c i c' ks _ _ _ _ call hs' => ⟨trivial, hs' i ks call.here⟩)
    is Cache.new (sound_new C T) idle_new trivial hd
  exact ⟨c, kss, h1, h2, h3⟩

/-- Everything that can be reached from a new type without meeting a known one is new. -/
theorem Call.everything {C : Cfg} {T : Types} {i : Ident} {c' : Cache} {v : Option (List Key)}
    (call : Call C T Cache.new i c' v) {j : Ident} (h : Reaches T i j) : c' j ≠ none := by
  have key : ∀ a b, Reaches T a b → c' a ≠ none → c' b ≠ none := by
    intro a b ha
    induction ha with
    | refl => exact fun h => h
    | step hp _ ih => intro hne; exact ih ((call.closed _ rfl hne).2 _ hp)
  exact key i j h (by rw [call.here]; simp)

/-- **C61** (the first type): for the type that is rendered first, the namespaces are exactly the wanted ones, whatever
cycles the types have. -/
theorem C61_first_exact (C : Cfg) (T : Types) (hcl : Closed T) (i : Ident) (hd : Defined T i) :
    ∃ c ks, getNamespaces C T Cache.new i = some (c, ks) ∧ ∀ k, k ∈ ks ↔ Wanted C T i k := by
  obtain ⟨c', ks, h1, hs', -, call⟩ := getNamespaces_spec C T hcl Cache.new (sound_new C T) idle_new i hd
  refine ⟨c', ks, h1, fun k => ⟨hs' i ks call.here k, ?_⟩⟩
  rintro ⟨hv, j, ty, hr, hty, ha⟩
  obtain ⟨ks', he, hin⟩ := call.include_ rfl
  cases he
  exact hin j ty k rfl (call.everything hr) hty ha hv

/-! ## Types without cycles -/

/-- Finished entries have what their type asks for and what its parts have. -/
def Consistent (C : Cfg) (T : Types) (c : Cache) : Prop :=
  ∀ i ks, c i = some (some ks) →
    (∀ ty k, Assoc.get T i = some ty → Asks C i ty k → Declarable C k → k ∈ ks) ∧
    ∀ x, Part T i x → ∃ kx, c x = some (some kx) ∧ ∀ k ∈ kx, k ∈ ks

theorem Consistent.complete {C : Cfg} {T : Types} {c : Cache} (h : Consistent C T c) {i j : Ident}
    (hr : Reaches T i j) : ∀ ks, c i = some (some ks) → ∀ ty k, Assoc.get T j = some ty → Asks C j ty k →
      Declarable C k → k ∈ ks := by
  induction hr with
  | refl i => intro ks hi ty k; exact (h i ks hi).1 ty k
  | step hp _ ih =>
    intro ks hi ty k hty ha hv
    obtain ⟨kx, hx, hsub⟩ := (h _ ks hi).2 _ hp
    exact hsub k (ih kx hx ty k hty ha hv)

theorem Consistent.grows {C : Cfg} {T : Types} {c : Cache} (h : Consistent C T c) (i : Ident) (hi : c i = none) :
    Consistent C T (c.set i none) := by
  intro j ks hj
  by_cases hji : j = i
  · subst hji; rw [set_same] at hj; cases hj
  · rw [set_other _ hji] at hj
    refine ⟨(h j ks hj).1, ?_⟩
    intro x hx
    obtain ⟨kx, h1, h2⟩ := (h j ks hj).2 x hx
    have hxi : x ≠ i := by rintro rfl; rw [hi] at h1; cases h1
    exact ⟨kx, by rw [set_other _ hxi]; exact h1, h2⟩

theorem runSteps_consistent (C : Cfg) (T : Types) (get : Cache → Ident → Option (Cache × Option (List Key)))
    (hget : ∀ c j c' v, Sound C T c → Consistent C T c → (∀ x, Reaches T j x → c x ≠ some none) →
      get c j = some (c', v) → Sound C T c' ∧ Consistent C T c' ∧ Grows c c' ∧ ∃ ks, v = some ks ∧ c' j = some v) :
    ∀ (ss : List Step) (c : Cache) (st : St) (c' : Cache) (st' : St), Sound C T c → Consistent C T c →
      (∀ j, .merge j ∈ ss → ∀ x, Reaches T j x → c x ≠ some none) → AllValid C st.keys →
      runSteps C get c st ss = some (c', st') →
      Consistent C T c' ∧ Grows c c' ∧ (∀ k ∈ st.keys, k ∈ st'.keys) ∧
      ∀ j, .merge j ∈ ss → ∃ kj, c' j = some (some kj) ∧ ∀ k ∈ kj, k ∈ st'.keys := by
  intro ss
  induction ss with
  | nil =>
    intro c st c' st' _ hc _ _ h
    simp only [runSteps, Option.some.injEq, Prod.mk.injEq] at h
    obtain ⟨rfl, rfl⟩ := h
    exact ⟨hc, .refl _, fun _ h => h, by simp⟩
  | cons s r ih =>
    intro c st c' st' hs hc hp hv h
    cases s with
    | add k =>
      rw [runSteps] at h
      obtain ⟨h1, h2, h3, h4⟩ := ih c (addNs C st k) c' st' hs hc
        (fun j hj => hp j (List.mem_cons_of_mem _ hj)) (addNs_valid C st k hv) h
      refine ⟨h1, h2, fun k' hk' => h3 _ ((mem_addNs ..).2 (Or.inl hk')), ?_⟩
      intro j hj
      rcases List.mem_cons.1 hj with h | h
      · cases h
      · exact h4 j h
    | merge i =>
      rw [runSteps] at h
      cases hg : get c i with
      | none => rw [hg] at h; cases h
      | some p =>
        obtain ⟨c₁, v⟩ := p
        rw [hg] at h
        obtain ⟨hs₁, hc₁, hgr, ks, rfl, hi⟩ := hget c i c₁ v hs hc (hp i (List.mem_cons_self ..)) hg
        simp only at h
        have hvk : AllValid C ks := fun k hk => (hs₁ i ks hi k hk).1
        obtain ⟨h1, h2, h3, h4⟩ := ih c₁ (mergeSt C st ks) c' st' hs₁ hc₁
          (by
            intro j hj x hx hn
            have := hp j (List.mem_cons_of_mem _ hj) x hx
            cases hcx : c x with
            | none => rcases hgr.fresh x hcx with h | ⟨ks, h⟩ <;> rw [h] at hn <;> cases hn
            | some w => rw [hgr.keep _ _ hcx] at hn; cases hn; exact this hcx)
          (mergeSt_valid C st ks hv hvk) h
        refine ⟨h1, hgr.trans h2, ?_, ?_⟩
        · intro k hk; exact h3 _ ((mem_mergeSt C st ks hv hvk k).2 (Or.inl hk))
        · intro j hj
          rcases List.mem_cons.1 hj with h | h
          · cases h
            exact ⟨ks, h2.keep _ _ hi, fun k hk => h3 _ ((mem_mergeSt C st ks hv hvk k).2 (Or.inr hk))⟩
          · exact h4 j h

theorem Reaches.transGen {T : Types} {i j k : Ident} (h : Part T i j) (h' : Reaches T j k) :
    Relation.TransGen (Part T) i k := by
  induction h' generalizing i with
  | refl => exact .single h
  | step hp _ ih => exact transGen_trans (.single h) (ih hp)

theorem getImpl_consistent (C : Cfg) (T : Types) (ha : Acyclic T) : ∀ (fuel : Nat) (c : Cache) (i : Ident)
    (c' : Cache) (v : Option (List Key)), Sound C T c → Consistent C T c → (∀ x, Reaches T i x → c x ≠ some none) →
    getImpl C T fuel c i = some (c', v) →
    Sound C T c' ∧ Consistent C T c' ∧ Grows c c' ∧ ∃ ks, v = some ks ∧ c' i = some v := by
  intro fuel
  induction fuel with
  | zero => intro c i c' v _ _ _ h; cases h
  | succ fuel ih =>
    intro c i c' v hs hc hp h
    obtain ⟨hs', call⟩ := getImpl_spec C T _ c i c' v hs h
    rw [getImpl] at h
    cases hci : c i with
    | some w =>
      rw [hci] at h
      simp only [Option.some.injEq, Prod.mk.injEq] at h
      obtain ⟨rfl, rfl⟩ := h
      cases w with
      | none => exact absurd hci (hp i (.refl i))
      | some ks => exact ⟨hs, hc, .refl _, ks, rfl, hci⟩
    | none =>
      rw [hci] at h
      cases hty : Assoc.get T i with
      | none => rw [hty] at h; cases h
      | some ty =>
        rw [hty] at h
        simp only at h
        cases hr : runSteps C (getImpl C T fuel) (c.set i none) .empty (steps C i ty) with
        | none => rw [hr] at h; cases h
        | some p =>
          obtain ⟨c₁, st⟩ := p
          rw [hr] at h
          simp only [Option.some.injEq, Prod.mk.injEq] at h
          obtain ⟨rfl, rfl⟩ := h
          have hs₀ : Sound C T (c.set i none) := by
            intro j ks hj
            by_cases hji : j = i
            · subst hji; rw [set_same] at hj; cases hj
            · rw [set_other _ hji] at hj; exact hs j ks hj
          have hpart : ∀ x, Part T i x ↔ .merge x ∈ steps C i ty := by
            intro x
            rw [merge_mem_steps]
            constructor
            · rintro ⟨ty', h, h'⟩; rw [hty] at h; cases h; exact h'
            · intro h; exact ⟨ty, hty, h⟩
          obtain ⟨h1, h2, -, h4⟩ := runSteps_consistent C T _ (fun c j c' v => ih c j c' v) (steps C i ty)
            (c.set i none) .empty c₁ st hs₀ (hc.grows i hci)
            (by
              intro j hj x hx hn
              by_cases hxi : x = i
              · subst hxi; exact ha x (Reaches.transGen ((hpart j).2 hj) hx)
              · rw [set_other _ hxi] at hn; exact hp x (.step ((hpart j).2 hj) hx) hn)
            (by intro k hk; cases hk) hr
          refine ⟨hs', ?_, call.grows, st.keys, rfl, set_same ..⟩
          have hc₁i : c₁ i = some none := h2.keep i none (set_same ..)
          intro j ks hj
          by_cases hji : j = i
          · subst hji
            rw [set_same] at hj
            cases hj
            refine ⟨?_, ?_⟩
            · intro ty' k hty' hask hval
              obtain ⟨ks, he, hin⟩ := call.include_ hci
              cases he
              exact hin j ty' k hci (by rw [set_same]; simp) hty' hask hval
            · intro x hx
              obtain ⟨kx, hkx, hsub⟩ := h4 x ((hpart x).1 hx)
              have hxi : x ≠ j := by rintro rfl; rw [hc₁i] at hkx; cases hkx
              exact ⟨kx, by rw [set_other _ hxi]; exact hkx, hsub⟩
          · rw [set_other _ hji] at hj
            refine ⟨(h1 j ks hj).1, ?_⟩
            intro x hx
            obtain ⟨kx, hkx, hsub⟩ := (h1 j ks hj).2 x hx
            have hxi : x ≠ i := by rintro rfl; rw [hc₁i] at hkx; cases hkx
            exact ⟨kx, by rw [set_other _ hxi]; exact hkx, hsub⟩

/-- **C61** (types without cycles): if no type contains itself, the namespaces that are found are exactly the wanted
ones, for every type and every order in which the types are rendered. -/
theorem C61_acyclic_exact (C : Cfg) (T : Types) (hcl : Closed T) (ha : Acyclic T) (is : List Ident)
    (hd : ∀ i ∈ is, Defined T i) :
    ∃ c kss, renderAll C T Cache.new is = some (c, kss) ∧ kss.length = is.length ∧
      ∀ (n : Nat) i ks, is[n]? = some i → kss[n]? = some ks → ∀ k, k ∈ ks ↔ Wanted C T i k := by
  have main : ∀ (is : List Ident) (c : Cache), Sound C T c → Idle c → Consistent C T c → (∀ i ∈ is, Defined T i) →
      ∃ c' kss, renderAll C T c is = some (c', kss) ∧ kss.length = is.length ∧
        ∀ (n : Nat) i ks, is[n]? = some i → kss[n]? = some ks → ∀ k, k ∈ ks ↔ Wanted C T i k := by
    intro is
    induction is with
    | nil => intro c _ _ _ _; exact ⟨c, [], rfl, rfl, by simp⟩
    | cons i r ih =>
      intro c hs hi hc hd
      obtain ⟨c₁, ks, h1, hs₁, hi₁, call⟩ := getNamespaces_spec C T hcl c hs hi i (hd i (List.mem_cons_self ..))
      have h1' : getImpl C T (T.length + 1) c i = some (c₁, some ks) := by
        unfold getNamespaces at h1
        split at h1
        · rename_i h; simp only [Option.some.injEq, Prod.mk.injEq] at h1; rw [h, h1.1, h1.2]
        · cases h1
      obtain ⟨-, hc₁, -, -⟩ := getImpl_consistent C T ha _ c i c₁ _ hs hc (fun x _ => hi x) h1'
      obtain ⟨c₂, kss, h2, hl, hq₂⟩ := ih c₁ hs₁ hi₁ hc₁ fun j hj => hd j (List.mem_cons_of_mem _ hj)
      refine ⟨c₂, ks :: kss, by rw [renderAll, h1]; simp only [h2], by simp [hl], ?_⟩
      intro n j ks' h h'
      cases n with
      | zero =>
        simp only [List.getElem?_cons_zero, Option.some.injEq] at h h'
        subst h; subst h'
        intro k
        refine ⟨hs₁ i ks call.here k, ?_⟩
        rintro ⟨hv, x, ty, hr, hty, hask⟩
        exact hc₁.complete hr ks call.here ty k hty hask hv
      | succ n => exact hq₂ n j ks' (by simpa using h) (by simpa using h')
  exact main is Cache.new (sound_new C T) idle_new (by intro i ks h; cases h) hd

/-! ## Prefixes -/

/-- What the root element writes for the keys, ser.rs:830-848: prefix and namespace (`write_xmlns`). -/
def rootDecls (C : Cfg) (ks : List Key) : List (Option Txt × Txt) :=
  ks.filterMap fun k =>
    match k with
    | .normal id =>
      match Assoc.get C.modules id with
      | some ⟨some p, some ns⟩ => some (some p, ns)
      | _ => none
    | .default_ id =>
      match Assoc.get C.modules id with
      | some ⟨_, some ns⟩ => some (none, ns)
      | _ => none

/-- The name of an element or attribute is written with prefix `p`, which stands for the namespace `ns`
(`TagName::get`, models/data/tag_name.rs:45-59; elements of the default namespace have no prefix, 62-71, attributes do,
ser.rs:730). -/
structure WrittenWith (C : Cfg) (isAttr : Bool) (id : Nat) (form : Form) (p ns : Txt) : Prop where
  qualified : form = .qualified
  notDefault : isAttr = true ∨ ¬ IsDefault C id
  module : Assoc.get C.modules id = some ⟨some p, some ns⟩

/-- The names of the elements of a group, or of the attributes of a complex type, that are written with prefix `p`. -/
inductive UsesPrefix (C : Cfg) (ty : MetaType) (p ns : Txt) : Prop
  | element {g : Group} {e : Element} {t : Ident} :
      ty.variant = .all g ∨ ty.variant = .choice g ∨ ty.variant = .sequence g → e ∈ g.elements →
      e.variant = .type_ t .element → WrittenWith C false e.ident.ns e.form p ns → UsesPrefix C ty p ns
  | attr {x : Complex} {a : Attribute} : ty.variant = .complex x → a ∈ x.attributes →
      WrittenWith C true a.ident.ns a.form p ns → UsesPrefix C ty p ns

/-- The qualified elements of the type are in the namespace of a type that a value of type `i` may contain, and that
type has qualified names as well. -/
def Covered (T : Types) (i : Ident) (ty : MetaType) : Prop :=
  ∀ g e, (ty.variant = .all g ∨ ty.variant = .choice g ∨ ty.variant = .sequence g) → e ∈ g.elements →
    e.form = .qualified → ∃ j tj, Reaches T i j ∧ Assoc.get T j = some tj ∧ tj.form = some .qualified ∧
      j.ns = e.ident.ns

theorem mem_rootDecls (C : Cfg) (ks : List Key) (id : Nat) (p ns : Txt) (h : .normal id ∈ ks)
    (hm : Assoc.get C.modules id = some ⟨some p, some ns⟩) : (some p, ns) ∈ rootDecls C ks := by
  unfold rootDecls
  rw [List.mem_filterMap]
  exact ⟨_, h, by simp only [hm]⟩

/-- **C61** (prefixes): if the namespaces that were found for the type of the root element are the wanted ones, the
root element declares every prefix that elements and attributes below it may use, provided that the names of elements
are covered by the types. -/
theorem prefixes_of_wanted (C : Cfg) (T : Types) (i : Ident) (ks : List Key) (hk : ∀ k, k ∈ ks ↔ Wanted C T i k)
    (hc : ∀ j ty, Reaches T i j → Assoc.get T j = some ty → Covered T i ty) (j : Ident) (ty : MetaType)
    (hr : Reaches T i j) (hty : Assoc.get T j = some ty) (p ns : Txt) (hu : UsesPrefix C ty p ns) :
    (some p, ns) ∈ rootDecls C ks := by
  have hval : ∀ id, Assoc.get C.modules id = some ⟨some p, some ns⟩ → Declarable C (.normal id) := by
    intro id h; exact ⟨p, ns, h⟩
  cases hu with
  | element hg he hv hw =>
    obtain ⟨x, tx, hx, htx, hf, hns⟩ := hc j ty hr hty _ _ hg he hw.qualified
    have hd : ¬ IsDefault C x.ns := by
      rw [hns]
      exact hw.notDefault.resolve_left (by simp)
    refine mem_rootDecls C ks x.ns p ns ((hk _).2 ⟨hval _ (hns ▸ hw.module), x, tx, hx, htx, .own hf hd⟩) ?_
    rw [hns]; exact hw.module
  | attr hx ha hw =>
    exact mem_rootDecls C ks _ p ns ((hk _).2 ⟨hval _ hw.module, j, ty, hr, hty, .attr hx ha hw.qualified⟩) hw.module

/-- **C61** (partial): in types without cycles, whatever is rendered before, the root element declares every prefix that
elements and attributes below it may use, with its namespace. Missing: names of elements that are not covered
(`C61_foreign_element_undeclared`) and types with cycles that are not rendered first (`C61_cycle_incomplete`). -/
theorem C61_prefixes_declared_partial (C : Cfg) (T : Types) (hcl : Closed T) (ha : Acyclic T) (before : List Ident)
    (hb : ∀ i ∈ before, Defined T i) (i : Ident) (hd : Defined T i)
    (hc : ∀ j ty, Reaches T i j → Assoc.get T j = some ty → Covered T i ty) :
    ∃ c kss ks, renderAll C T Cache.new (before ++ [i]) = some (c, kss ++ [ks]) ∧
      ∀ j ty p ns, Reaches T i j → Assoc.get T j = some ty → UsesPrefix C ty p ns → (some p, ns) ∈ rootDecls C ks := by
  obtain ⟨c, kss, h1, h2, h3⟩ := C61_acyclic_exact C T hcl ha (before ++ [i])
    (by intro x hx; rcases List.mem_append.1 hx with h | h; exact hb x h; rw [List.mem_singleton] at h; rw [h]; exact hd)
  have hne : kss ≠ [] := by intro h; rw [h] at h2; simp at h2
  have hkss : kss = kss.dropLast ++ [kss.getLast hne] := (List.dropLast_concat_getLast hne).symm
  refine ⟨c, kss.dropLast, kss.getLast hne, by rw [← hkss]; exact h1, ?_⟩
  have hlen : kss.length = before.length + 1 := by simpa using h2
  have hget : kss[before.length]? = some (kss.getLast hne) := by
    rw [List.getLast_eq_getElem, List.getElem?_eq_some_iff]
    exact ⟨by omega, by congr 1; omega⟩
  have hw := h3 before.length i (kss.getLast hne) (by simp) hget
  intro j ty p ns hr hty hu
  exact prefixes_of_wanted C T i _ hw hc j ty hr hty p ns hu

/-- **C61** (partial): the same for the type that is rendered first, also when its types have cycles. -/
theorem C61_first_prefixes_declared_partial (C : Cfg) (T : Types) (hcl : Closed T) (i : Ident) (hd : Defined T i)
    (hc : ∀ j ty, Reaches T i j → Assoc.get T j = some ty → Covered T i ty) :
    ∃ c ks, getNamespaces C T Cache.new i = some (c, ks) ∧
      ∀ j ty p ns, Reaches T i j → Assoc.get T j = some ty → UsesPrefix C ty p ns → (some p, ns) ∈ rootDecls C ks := by
  obtain ⟨c, ks, h1, h2⟩ := C61_first_exact C T hcl i hd
  exact ⟨c, ks, h1, fun j ty p ns hr hty hu => prefixes_of_wanted C T i ks h2 hc j ty hr hty p ns hu⟩

/-! ## Examples and findings -/

namespace Example

def flags : Flags := ⟨false, false, false, false, false⟩

def nm (s : String) : Naming.Name := .named s.toList

/-- An element with a name of namespace `ns`. -/
def el (ns : Nat) (name : String) (t : Ident) : Element :=
  ⟨⟨ns, nm name⟩, .type_ t .element, .qualified, flags, 1, .bounded 1, none, []⟩

def id_ (ns : Nat) (name : String) : Ident := ⟨ns, 0, nm name, .type_⟩

def ty (v : Variant) : MetaType := { MetaType.new v with form := some .qualified }

def content (i : Ident) : Variant := .complex ⟨.none, some i, 1, .bounded 1, false, false, []⟩

/-- Two namespaces with prefixes and no default namespace. -/
def cfg : Cfg where
  modules := [(1, ⟨some "a".toList, some "urn:a".toList⟩), (2, ⟨some "b".toList, some "urn:b".toList⟩),
    (3, ⟨some "xsi".toList, some xsiNs⟩)]
  default_ := none
  nillable := true
  custom := fun _ => []

def string_ : Ident := ⟨0, 0, nm "string", .buildIn⟩

/-- `b:Leaf` is contained in `a:Root`; all names are in the namespace of their type. -/
def plain : Types :=
  [(string_, .new (.buildIn .string)),
   (id_ 1 "Root", ty (.sequence ⟨false, [el 1 "leaf" (id_ 2 "Leaf")]⟩)),
   (id_ 2 "Leaf", ty (.sequence ⟨false, [{ el 2 "text" string_ with flags := { flags with nillable := true } }]⟩))]

/-- `a:Root` has inherited the element `b:item`, or refers to it: its name is in namespace `b`, its type is
`xs:string`. -/
def foreign : Types :=
  [(string_, .new (.buildIn .string)),
   (id_ 1 "Root", ty (.sequence ⟨false, [el 2 "item" string_]⟩))]

/-- `a:Node` and `b:Node` contain each other. -/
def cyclic : Types :=
  [(id_ 1 "Node", ty (.sequence ⟨false, [{ el 1 "next" (id_ 2 "Node") with min := 0 }]⟩)),
   (id_ 2 "Node", ty (.sequence ⟨false, [{ el 2 "next" (id_ 1 "Node") with min := 0 }]⟩))]

end Example

open Example

/-- A decidable form of `Contains`. -/
def parts (v : Variant) : List Ident :=
  match v with
  | .union x => x.types.map (·.type_)
  | .reference x => [x.type_]
  | .enumeration x => x.variants.filterMap (·.type_)
  | .dynamic x => x.derived.map (·.2.type_)
  | .all x | .choice x | .sequence x =>
    x.elements.filterMap fun e => match e.variant with | .type_ i _ => some i | _ => none
  | .complex x => x.content.toList
  | .custom _ | .buildIn _ | .simple _ => []

theorem mem_parts (v : Variant) (j : Ident) : j ∈ parts v ↔ Contains v j := by
  have he : ∀ (l : List Element), (j ∈ l.filterMap fun e => match e.variant with | .type_ i _ => some i | _ => none) ↔
      ∃ e ∈ l, ∃ m, e.variant = .type_ j m := by
    intro l
    rw [List.mem_filterMap]
    constructor
    · rintro ⟨e, h, h'⟩
      refine ⟨e, h, ?_⟩
      cases hv : e.variant with
      | type_ i m => rw [hv] at h'; simp only [Option.some.injEq] at h'; exact ⟨m, by rw [h']⟩
      | text => rw [hv] at h'; cases h'
      | any x => rw [hv] at h'; cases h'
    · rintro ⟨e, h, m, h'⟩; exact ⟨e, h, by rw [h']⟩
  cases v with
  | all x => exact he _
  | choice x => exact he _
  | sequence x => exact he _
  | reference x => simp [parts, Contains, eq_comm]
  | _ => simp [parts, Contains]

theorem part_iff (T : Types) (i j : Ident) : Part T i j ↔ ∃ ty, Assoc.get T i = some ty ∧ j ∈ parts ty.variant := by
  simp only [Part, mem_parts]

/-- Decidable conditions for the examples. -/
theorem closed_of (T : Types)
    (h : (T.all fun p => (parts p.2.variant).all fun j => (Assoc.get T j).isSome) = true) : Closed T := by
  intro i j hp
  obtain ⟨ty, hty, hj⟩ := (part_iff T i j).1 hp
  have := List.all_eq_true.1 (List.all_eq_true.1 h _ (Assoc.mem_of_get hty)) j hj
  cases hg : Assoc.get T j with
  | none => rw [hg] at this; cases this
  | some ty' => exact ⟨ty', hg⟩

theorem acyclic_of (T : Types) (rank : Ident → Nat)
    (h : (T.all fun p => (parts p.2.variant).all fun j => decide (rank j < rank p.1)) = true) : Acyclic T := by
  refine noLoop_of_rank _ rank ?_
  intro i j hp
  obtain ⟨ty, hty, hj⟩ := (part_iff T i j).1 hp
  exact of_decide_eq_true (List.all_eq_true.1 (List.all_eq_true.1 h _ (Assoc.mem_of_get hty)) j hj)

theorem plain_closed : Closed plain := closed_of plain (by decide +kernel)

theorem plain_acyclic : Acyclic plain :=
  acyclic_of plain (fun i => if i = string_ then 0 else if i = id_ 2 "Leaf" then 1 else 2) (by decide +kernel)

/-- Non-vacuity of `C61_acyclic_exact` and `C61_only_wanted`: the leaf is rendered first, then the root. -/
example : (renderAll cfg plain Cache.new [id_ 2 "Leaf", id_ 1 "Root"]).map (·.2) =
    some [[.normal 2, .normal 3], [.normal 1, .normal 2, .normal 3]] := by decide +kernel

example : Closed plain ∧ Acyclic plain ∧ Defined plain (id_ 2 "Leaf") ∧ Defined plain (id_ 1 "Root") :=
  ⟨plain_closed, plain_acyclic, ⟨_, rfl⟩, ⟨_, rfl⟩⟩

/-- A set of types that contains the parts of its types contains all that can be reached. -/
theorem reaches_in (T : Types) (S : List Ident)
    (h : (T.all fun p => !S.contains p.1 || (parts p.2.variant).all S.contains) = true) {i j : Ident}
    (hr : Reaches T i j) (hi : i ∈ S) : j ∈ S := by
  induction hr with
  | refl => exact hi
  | step hp _ ih =>
    obtain ⟨ty, hty, hj⟩ := (part_iff _ _ _).1 hp
    apply ih
    have h1 := List.all_eq_true.1 h _ (Assoc.mem_of_get hty)
    simp only [Bool.or_eq_true, Bool.not_eq_true', List.contains_eq_mem, decide_eq_false_iff_not,
      List.all_eq_true, decide_eq_true_eq] at h1
    exact h1.resolve_left (fun hn => hn hi) _ hj

def groupOf (v : Variant) : List Element :=
  match v with
  | .all g | .choice g | .sequence g => g.elements
  | _ => []

theorem covered_of (T : Types) (i : Ident) (S : List Ident) (hS : ∀ j ∈ S, Reaches T i j) (ty : MetaType)
    (h : ((groupOf ty.variant).all fun e => S.any fun j =>
      (match Assoc.get T j with | some tj => tj.form == some .qualified | none => false) && j.ns == e.ident.ns) = true) :
    Covered T i ty := by
  intro g e hg he _
  have he' : e ∈ groupOf ty.variant := by rcases hg with h | h | h <;> rw [h] <;> exact he
  obtain ⟨j, hj, h1⟩ := List.any_eq_true.1 (List.all_eq_true.1 h e he')
  simp only [Bool.and_eq_true, beq_iff_eq] at h1
  cases hgt : Assoc.get T j with
  | none => rw [hgt] at h1; cases h1.1
  | some tj => rw [hgt] at h1; exact ⟨j, tj, hS j hj, hgt, by simpa using h1.1, h1.2⟩

theorem reaches_leaf : Reaches plain (id_ 1 "Root") (id_ 2 "Leaf") :=
  .step ((part_iff _ _ _).2 ⟨_, rfl, List.mem_cons_self ..⟩) (.refl _)

/-- Non-vacuity of `C61_prefixes_declared_partial` (and of the hypotheses of `C61_first_prefixes_declared_partial`):
`b:text` below `a:Root`, whose prefix the root declares. -/
example : (∃ c kss ks, renderAll cfg plain Cache.new ([id_ 2 "Leaf"] ++ [id_ 1 "Root"]) = some (c, kss ++ [ks]) ∧
      ∀ j ty p ns, Reaches plain (id_ 1 "Root") j → Assoc.get plain j = some ty → UsesPrefix cfg ty p ns →
        (some p, ns) ∈ rootDecls cfg ks) ∧
    (∃ ty, Reaches plain (id_ 1 "Root") (id_ 2 "Leaf") ∧ Assoc.get plain (id_ 2 "Leaf") = some ty ∧
      UsesPrefix cfg ty "b".toList "urn:b".toList) := by
  refine ⟨C61_prefixes_declared_partial cfg plain plain_closed plain_acyclic [id_ 2 "Leaf"] ?_ _ ⟨_, rfl⟩ ?_, ?_⟩
  · intro i hi; rw [List.mem_singleton] at hi; subst hi; exact ⟨_, rfl⟩
  · intro j ty hr hty
    have hj := reaches_in plain [id_ 1 "Root", id_ 2 "Leaf", string_] (by decide +kernel) hr (List.mem_cons_self ..)
    refine covered_of plain _ [id_ 1 "Root", id_ 2 "Leaf"] ?_ ty ?_
    · intro j hj
      simp only [List.mem_cons, List.not_mem_nil, or_false] at hj
      rcases hj with rfl | rfl
      · exact .refl _
      · exact reaches_leaf
    · simp only [List.mem_cons, List.not_mem_nil, or_false] at hj
      rcases hj with rfl | rfl | rfl <;> (cases hty; decide +kernel)
  · exact ⟨_, reaches_leaf, rfl, .element (Or.inr (Or.inr rfl)) (List.mem_cons_self ..) rfl
      ⟨rfl, Or.inr (by decide +kernel), by decide +kernel⟩⟩

/-- **C61** (negation): an element whose name is in another namespace than its type. `a:Root` contains `b:item` of type
`xs:string` (inherited from a base type of namespace `b`, or a reference to a global element of `b`). The name is
written with the prefix `b`, which the root element does not declare. -/
theorem C61_foreign_element_undeclared :
    Closed foreign ∧ Acyclic foreign ∧
    (∃ ty, Assoc.get foreign (id_ 1 "Root") = some ty ∧ UsesPrefix cfg ty "b".toList "urn:b".toList) ∧
    ∃ c ks, getNamespaces cfg foreign Cache.new (id_ 1 "Root") = some (c, ks) ∧
      rootDecls cfg ks = [(some "a".toList, "urn:a".toList)] := by
  refine ⟨closed_of foreign (by decide +kernel),
    acyclic_of foreign (fun i => if i = string_ then 0 else 1) (by decide +kernel), ?_, ?_⟩
  · exact ⟨_, rfl, .element (Or.inr (Or.inr rfl)) (List.mem_cons_self ..) rfl
      ⟨rfl, Or.inr (by decide +kernel), by decide +kernel⟩⟩
  · have h : (getNamespaces cfg foreign Cache.new (id_ 1 "Root")).map (fun p => rootDecls cfg p.2) =
        some [(some "a".toList, "urn:a".toList)] := by decide +kernel
    cases hg : getNamespaces cfg foreign Cache.new (id_ 1 "Root") with
    | none => rw [hg] at h; cases h
    | some p => rw [hg] at h; exact ⟨p.1, p.2, rfl, Option.some.inj h⟩

/-- **C61** (negation): types that contain each other. `a:Node` is rendered first, so the set of `b:Node` is remembered
while `a:Node` is in progress: a document whose root is a `b:Node` does not declare the prefix `a`, although the
`a:Node` in it uses it. In the other order, `b:Node` has both. -/
theorem C61_cycle_incomplete :
    Closed cyclic ∧
    (∃ c ks₁ ks₂, renderAll cfg cyclic Cache.new [id_ 1 "Node", id_ 2 "Node"] = some (c, [ks₁, ks₂]) ∧
      rootDecls cfg ks₂ = [(some "b".toList, "urn:b".toList)] ∧ Wanted cfg cyclic (id_ 2 "Node") (.normal 1)) ∧
    ∃ c ks₁ ks₂, renderAll cfg cyclic Cache.new [id_ 2 "Node", id_ 1 "Node"] = some (c, [ks₁, ks₂]) ∧
      rootDecls cfg ks₁ = [(some "b".toList, "urn:b".toList), (some "a".toList, "urn:a".toList)] := by
  refine ⟨closed_of cyclic (by decide +kernel), ?_, ?_⟩
  · have h : (renderAll cfg cyclic Cache.new [id_ 1 "Node", id_ 2 "Node"]).map (·.2) =
        some [[.normal 1, .normal 2], [.normal 2]] := by decide +kernel
    cases hg : renderAll cfg cyclic Cache.new [id_ 1 "Node", id_ 2 "Node"] with
    | none => rw [hg] at h; cases h
    | some p =>
      rw [hg] at h
      obtain ⟨c, kss⟩ := p
      cases h
      refine ⟨c, _, _, rfl, by decide +kernel, by decide +kernel, id_ 1 "Node", _, ?_, rfl, .own rfl (by decide +kernel)⟩
      exact .step ((part_iff _ _ _).2 ⟨_, rfl, List.mem_cons_self ..⟩) (.refl _)
  · have h : (renderAll cfg cyclic Cache.new [id_ 2 "Node", id_ 1 "Node"]).map (·.2) =
        some [[.normal 2, .normal 1], [.normal 1]] := by decide +kernel
    cases hg : renderAll cfg cyclic Cache.new [id_ 2 "Node", id_ 1 "Node"] with
    | none => rw [hg] at h; cases h
    | some p =>
      rw [hg] at h
      obtain ⟨c, kss⟩ := p
      cases h
      exact ⟨c, _, _, rfl, by decide +kernel⟩

/-- Non-vacuity of `C61_first_exact` for types with cycles. -/
example : ∃ c ks, getNamespaces cfg cyclic Cache.new (id_ 2 "Node") = some (c, ks) ∧
    ∀ k, k ∈ ks ↔ Wanted cfg cyclic (id_ 2 "Node") k :=
  C61_first_exact cfg cyclic C61_cycle_incomplete.1 _ ⟨_, rfl⟩

end Verif.Ns

import Verif.Meta.Types
/-!
# The Rust names of the generated types (C81)

Models how the generator names the type it generates for an entry of the table: `create_type_ref`
(`xsd-parser/src/pipeline/generator/mod.rs` 456-521), the module of a type (`ModuleIdent::new`,
`models/code/ident_path.rs` 333-359), `make_type_name` of the default naming (`models/naming/mod.rs` 21-48) and of
`ExplicitNaming` (`models/naming/explicit.rs` 100-111), and `format_type_ident` (`traits/naming.rs`).

`format_type_name` (unification by the crate `Inflector`, then `format_ident` of C44) is a parameter `f`.
-/
namespace Verif.Naming

open Verif.Meta (Ident Kind MetaType Variant Reference Txt Types)
open Verif.Occurs (MaxOccurs)

/-- What tells the settings of the generator apart that matter for names: the flags `USE_NAMESPACE_MODULES` and
`USE_SCHEMA_MODULES`, the postfixes (generator/mod.rs 99-111, `with_type_postfix` 240-244), and `schema_count` of the
module of each namespace. -/
structure NameCfg where
  nsModules : Bool
  schemaModules : Bool
  post : Kind → Txt
  schemaCount : Nat → Nat

/-- The postfixes a generator starts with, generator/mod.rs 99-111. -/
def defaultPostfix : Kind → Txt
  | .type_ => "Type".toList
  | .element => "ElementType".toList
  | .nillableContent => "NotNil".toList
  | .substitutionElement | .dynamicVariant => "Dyn".toList
  | _ => []

/-- The settings a generator starts with: no flag is set (config/generator.rs 64-80). -/
def NameCfg.default (schemaCount : Nat → Nat) : NameCfg := ⟨false, false, defaultPostfix, schemaCount⟩

/-- `Name::is_generated`, models/name.rs. -/
def Name.isGenerated : Name → Bool
  | .generated _ => true
  | .named _ => false

/-- `ends_with` of strings. -/
def endsWith (s p : Txt) : Bool := p.isSuffixOf s

/-- `make_type_name` of the default naming, naming/mod.rs 21-48. -/
def makeTypeName (f : Txt → Txt) (P : Kind → Txt) (ty : MetaType) (i : Ident) : Name :=
  let usual :=
    let s := f i.name.str
    if endsWith s (P i.kind) then i.name else .generated (s ++ P i.kind)
  match ty.variant with
  | .reference r =>
    if i.name.isGenerated && !r.type_.name.isGenerated then
      if r.max.cmp (.bounded 1) = .gt then .generated (f r.type_.name.str ++ "List".toList)
      else if r.min = 0 then .generated (f r.type_.name.str ++ "Opt".toList)
      else usual
    else usual
  | _ => usual

/-- `make_type_name` of `ExplicitNaming`, naming/explicit.rs 100-111. -/
def makeTypeNameExplicit (f : Txt → Txt) (P : Kind → Txt) (_ty : MetaType) (i : Ident) : Name :=
  .generated (f i.name.str ++ P i.kind)

/-- `format_type_ident`, traits/naming.rs. -/
def formatTypeIdent (f : Txt → Txt) (n : Name) (display : Option Txt) : Txt := f (display.getD n.str)

/-- `ModuleIdent::new`, ident_path.rs 334-359: the namespace and the schema of the module. -/
def moduleOf (c : NameCfg) (i : Ident) (ty : MetaType) : Option Nat × Option Nat :=
  (if c.nsModules then some i.ns else none,
   if c.schemaModules && decide (1 < c.schemaCount i.ns) then ty.schema else none)

/-- The module and the name of the generated type (generator/mod.rs 498-511). The module is given by its identifier;
its path is that of C46. Built-in and custom types are not generated. -/
def rustPath (c : NameCfg) (f : Txt → Txt) (make : (Txt → Txt) → (Kind → Txt) → MetaType → Ident → Name) (i : Ident)
    (ty : MetaType) : (Option Nat × Option Nat) × Txt :=
  (moduleOf c i ty, formatTypeIdent f (make f c.post ty i) ty.displayName)

/-! ## Specification -/

/-- A type is generated for the entry. -/
def IsGenerated (ty : MetaType) : Prop :=
  (∀ x, ty.variant ≠ .buildIn x) ∧ (∀ x, ty.variant ≠ .custom x)

/-- No two entries of the table give items of the same name in the same module. -/
def DistinctNames (path : Ident → MetaType → (Option Nat × Option Nat) × Txt) (T : Types) : Prop :=
  ∀ i a j b, (i, a) ∈ T → (j, b) ∈ T → i ≠ j → IsGenerated a → IsGenerated b → path i a ≠ path j b

/-- The entry is named by its own name: the user gave no other name, and it is not an anonymous list or an anonymous
optional of a named type. -/
def OwnName (i : Ident) (ty : MetaType) : Prop :=
  ty.displayName = none ∧
  ∀ r, ty.variant = .reference r → i.name.isGenerated = true → r.type_.name.isGenerated = false →
    r.max = .bounded 1 ∧ r.min ≠ 0

/-! ## Proofs -/

theorem endsWith_iff {s p : Txt} : endsWith s p = true ↔ ∃ x, s = x ++ p := by
  simp only [endsWith, List.isSuffixOf_iff_suffix]
  exact ⟨fun ⟨x, h⟩ => ⟨x, h.symm⟩, fun ⟨x, h⟩ => ⟨x, h.symm⟩⟩

/-- The name of an entry named by its own name: the formatted name, with the postfix of its kind unless it is there. -/
theorem rustName_own {f : Txt → Txt} {P : Kind → Txt} {i : Ident} {ty : MetaType} (own : OwnName i ty) :
    formatTypeIdent f (makeTypeName f P ty i) ty.displayName =
      if endsWith (f i.name.str) (P i.kind) then f i.name.str else f (f i.name.str ++ P i.kind) := by
  have usual : makeTypeName f P ty i =
      if endsWith (f i.name.str) (P i.kind) then i.name else .generated (f i.name.str ++ P i.kind) := by
    unfold makeTypeName
    cases hv : ty.variant with
    | reference r =>
      simp only []
      by_cases hg : (i.name.isGenerated && !r.type_.name.isGenerated) = true
      · rw [if_pos hg]
        simp only [Bool.and_eq_true, Bool.not_eq_true'] at hg
        obtain ⟨h1, h2⟩ := own.2 r hv hg.1 hg.2
        rw [h1, if_neg (by decide), if_neg h2]
      · rw [if_neg hg]
    | _ => rfl
  rw [usual, formatTypeIdent, own.1]
  split <;> rfl

/-- Two names with the same postfix that is added where it is missing. -/
theorem samePostfix {s t p : Txt} :
    ((if endsWith s p then s else s ++ p) = if endsWith t p then t else t ++ p) ↔
      s = t ∨ (endsWith t p = false ∧ s = t ++ p) ∨ (endsWith s p = false ∧ t = s ++ p) := by
  have e : ∀ x : Txt, endsWith (x ++ p) p = true := fun x => endsWith_iff.2 ⟨x, rfl⟩
  by_cases hs : endsWith s p = true <;> by_cases ht : endsWith t p = true
  · rw [if_pos hs, if_pos ht]
    simp [hs, ht]
  · rw [if_pos hs, if_neg ht]
    simp only [Bool.not_eq_true] at ht
    constructor
    · intro h; exact .inr (.inl ⟨ht, h⟩)
    · rintro (h | ⟨_, h⟩ | ⟨h, _⟩)
      · rw [h, ht] at hs; cases hs
      · exact h
      · rw [hs] at h; cases h
  · rw [if_neg hs, if_pos ht]
    simp only [Bool.not_eq_true] at hs
    constructor
    · intro h; exact .inr (.inr ⟨hs, h.symm⟩)
    · rintro (h | ⟨h, _⟩ | ⟨_, h⟩)
      · rw [← h, hs] at ht; cases ht
      · rw [ht] at h; cases h
      · exact h.symm
  · rw [if_neg hs, if_neg ht]
    simp only [Bool.not_eq_true] at hs ht
    constructor
    · intro h; exact .inl (List.append_cancel_right h)
    · rintro (h | ⟨_, h⟩ | ⟨_, h⟩)
      · rw [h]
      · rw [h, e] at hs; cases hs
      · rw [h, e] at ht; cases ht

/-- Which two types of the schema of the same kind get the same Rust name from the default naming: those with the same
formatted name, and those whose names differ exactly by the postfix (`Foo` and `FooType`), unless the shorter one has
the postfix already. -/
theorem C81_default_same_iff {f : Txt → Txt} {c : NameCfg} {i j : Ident} {a b : MetaType} (ki : i.kind = j.kind)
    (oi : OwnName i a) (oj : OwnName j b)
    (si : f (f i.name.str ++ c.post i.kind) = f i.name.str ++ c.post i.kind)
    (sj : f (f j.name.str ++ c.post j.kind) = f j.name.str ++ c.post j.kind) :
    rustPath c f makeTypeName i a = rustPath c f makeTypeName j b ↔
      moduleOf c i a = moduleOf c j b ∧
      (f i.name.str = f j.name.str ∨
       (¬ (∃ x, f j.name.str = x ++ c.post j.kind) ∧ f i.name.str = f j.name.str ++ c.post j.kind) ∨
       (¬ (∃ x, f i.name.str = x ++ c.post i.kind) ∧ f j.name.str = f i.name.str ++ c.post i.kind)) := by
  unfold rustPath
  rw [rustName_own oi, rustName_own oj, si, sj, Prod.mk.injEq, ki, samePostfix, ← endsWith_iff, ← endsWith_iff,
    Bool.not_eq_true, Bool.not_eq_true]

theorem rustName_explicit {f : Txt → Txt} {P : Kind → Txt} {i : Ident} {ty : MetaType} (h : ty.displayName = none) :
    formatTypeIdent f (makeTypeNameExplicit f P ty i) ty.displayName = f (f i.name.str ++ P i.kind) := by
  rw [h]; rfl

/-- `ExplicitNaming`: two entries of the same kind get the same Rust name only if their formatted names are equal. -/
theorem C81_explicit_same_iff {f : Txt → Txt} {c : NameCfg} {i j : Ident} {a b : MetaType} (ki : i.kind = j.kind)
    (oi : a.displayName = none) (oj : b.displayName = none)
    (si : f (f i.name.str ++ c.post i.kind) = f i.name.str ++ c.post i.kind)
    (sj : f (f j.name.str ++ c.post j.kind) = f j.name.str ++ c.post j.kind) :
    rustPath c f makeTypeNameExplicit i a = rustPath c f makeTypeNameExplicit j b ↔
      moduleOf c i a = moduleOf c j b ∧ f i.name.str = f j.name.str := by
  unfold rustPath
  rw [rustName_explicit oi, rustName_explicit oj, Prod.mk.injEq, si, sj, ki]
  constructor
  · rintro ⟨h1, h2⟩; exact ⟨h1, List.append_cancel_right h2⟩
  · rintro ⟨h1, h2⟩; exact ⟨h1, by rw [h2]⟩

/-- With the postfixes a generator starts with, `ExplicitNaming` gives a type and an element the same Rust name only if
the type is named like the element with `Element` added. -/
theorem C81_explicit_type_element {f : Txt → Txt} {c : NameCfg} {i j : Ident} {a b : MetaType}
    (hc : c.post = defaultPostfix) (ki : i.kind = .type_) (kj : j.kind = .element)
    (oi : a.displayName = none) (oj : b.displayName = none)
    (si : f (f i.name.str ++ c.post .type_) = f i.name.str ++ c.post .type_)
    (sj : f (f j.name.str ++ c.post .element) = f j.name.str ++ c.post .element) :
    rustPath c f makeTypeNameExplicit i a = rustPath c f makeTypeNameExplicit j b ↔
      moduleOf c i a = moduleOf c j b ∧ f i.name.str = f j.name.str ++ "Element".toList := by
  have e : defaultPostfix .element = "Element".toList ++ defaultPostfix .type_ := by decide +kernel
  unfold rustPath
  rw [rustName_explicit oi, rustName_explicit oj, Prod.mk.injEq, ki, kj, si, sj, hc, e, ← List.append_assoc]
  constructor
  · rintro ⟨h1, h2⟩; exact ⟨h1, List.append_cancel_right h2⟩
  · rintro ⟨h1, h2⟩; exact ⟨h1, by rw [h2]⟩

/-- Two strings with different postfixes and the same result: one postfix ends with the other. -/
theorem append_eq_append {s t p q : Txt} (h : s ++ p = t ++ q) (le : q.length ≤ p.length) :
    ∃ x, p = x ++ q ∧ t = s ++ x := by
  rcases List.append_eq_append_iff.1 h with ⟨x, h1, h2⟩ | ⟨x, h1, h2⟩
  · exact ⟨x, h2, h1⟩
  · have : x = [] := by
      have := congrArg List.length h2
      rw [List.length_append] at this
      exact List.length_eq_zero_iff.1 (by omega)
    subst this
    exact ⟨[], by simpa using h2.symm, by simpa using h1.symm⟩

/-- Names are told apart if they differ and do not end like the postfixes do: the default naming, any postfixes, any
table. Missing for the full property: names that end with a postfix, names that the formatting makes equal, anonymous
lists and optionals of the same type (they clash, see below). -/
theorem C81_default_names_distinct_partial {f : Txt → Txt} {c : NameCfg} {T : Types}
    (own : ∀ i a, (i, a) ∈ T → OwnName i a)
    (stable : ∀ i a, (i, a) ∈ T → f (f i.name.str ++ c.post i.kind) = f i.name.str ++ c.post i.kind)
    -- no name ends with a postfix, nor with the part by which one postfix is longer than another
    (clear : ∀ i a, (i, a) ∈ T → ∀ k k' x, c.post k = x ++ c.post k' → x ≠ [] → ¬ ∃ y, f i.name.str = y ++ x)
    (clear' : ∀ i a, (i, a) ∈ T → ∀ k, c.post k ≠ [] → ¬ ∃ y, f i.name.str = y ++ c.post k)
    -- different entries of a module with the same postfix have different formatted names
    (diff : ∀ i a j b, (i, a) ∈ T → (j, b) ∈ T → i ≠ j → moduleOf c i a = moduleOf c j b →
      c.post i.kind = c.post j.kind → f i.name.str ≠ f j.name.str) :
    DistinctNames (rustPath c f makeTypeName) T := by
  have name : ∀ i a, (i, a) ∈ T → formatTypeIdent f (makeTypeName f c.post a i) a.displayName =
      f i.name.str ++ c.post i.kind := by
    intro i a hi
    rw [rustName_own (own i a hi)]
    by_cases hp : c.post i.kind = []
    · rw [hp, if_pos (endsWith_iff.2 ⟨_, (List.append_nil _).symm⟩), List.append_nil]
    · rw [if_neg (fun h => clear' i a hi _ hp (endsWith_iff.1 h)), stable i a hi]
  intro i a j b hi hj ne _ _ h
  unfold rustPath at h
  rw [name i a hi, name j b hj, Prod.mk.injEq] at h
  obtain ⟨hm, h⟩ := h
  rcases Nat.le_total (c.post j.kind).length (c.post i.kind).length with le | le
  · obtain ⟨x, h1, h2⟩ := append_eq_append h le
    by_cases hx : x = []
    · subst hx
      exact diff i a j b hi hj ne hm (by simpa using h1) (by simpa using h2.symm)
    · exact clear j b hj _ _ x h1 hx ⟨_, h2⟩
  · obtain ⟨x, h1, h2⟩ := append_eq_append h.symm le
    by_cases hx : x = []
    · subst hx
      exact diff i a j b hi hj ne hm (by simpa using h1.symm) (by simpa using h2)
    · exact clear i a hi _ _ x h1 hx ⟨_, h2⟩

/-- With modules for the namespaces, types of different namespaces never clash, whatever the naming. -/
theorem C81_namespace_modules (c : NameCfg) (hc : c.nsModules = true) (f : Txt → Txt)
    (make : (Txt → Txt) → (Kind → Txt) → MetaType → Ident → Name) {i j : Ident} (a b : MetaType) (h : i.ns ≠ j.ns) :
    rustPath c f make i a ≠ rustPath c f make j b := by
  intro e
  have := congrArg (·.1.1) e
  simp only [rustPath, moduleOf, hc, if_true, Option.some.injEq] at this
  exact h this

/-- With modules for the schemas, types of different schemas never clash if their namespaces have several schemas. -/
theorem C81_schema_modules (c : NameCfg) (hc : c.schemaModules = true) (f : Txt → Txt)
    (make : (Txt → Txt) → (Kind → Txt) → MetaType → Ident → Name) {i j : Ident} {a b : MetaType}
    (hi : 1 < c.schemaCount i.ns) (hj : 1 < c.schemaCount j.ns) (h : a.schema ≠ b.schema) :
    rustPath c f make i a ≠ rustPath c f make j b := by
  intro e
  have := congrArg (·.1.2) e
  simp only [rustPath, moduleOf, hc, hi, hj, decide_true, Bool.and_self, if_true] at this
  exact h this

/-- Types of one namespace are in one module unless there are modules for the schemas: the name is all that tells them
apart. -/
theorem C81_one_module (c : NameCfg) {i j : Ident} (a b : MetaType) (h : i.ns = j.ns)
    (hs : c.schemaModules = false ∨ c.schemaCount i.ns ≤ 1 ∨ a.schema = b.schema) : moduleOf c i a = moduleOf c j b := by
  unfold moduleOf
  rw [← h]
  rcases hs with hs | hs | hs
  · simp [hs]
  · simp [Nat.not_lt.2 hs]
  · rw [hs]

/-- A clash is resolved by giving one of the two entries another name: the generated type is named by it. -/
theorem C81_display_name_resolves (c : NameCfg) (f : Txt → Txt)
    (make : (Txt → Txt) → (Kind → Txt) → MetaType → Ident → Name) {i j : Ident} {a b : MetaType} {d : Txt}
    (hd : a.displayName = some d) (h : f d ≠ (rustPath c f make j b).2) :
    (rustPath c f make i a).2 = f d ∧ rustPath c f make i a ≠ rustPath c f make j b := by
  have e : (rustPath c f make i a).2 = f d := by simp [rustPath, formatTypeIdent, hd]
  exact ⟨e, fun he => h (by rw [← e, he])⟩

/-! ## Findings -/

def namedType (ns : Nat) (k : Kind) (s : String) : Ident := ⟨ns, 0, .named s.toList, k⟩

/-- Finding: whatever the settings of the modules and the formatting, as long as it leaves `Foo` and `FooType` alone, the
default naming gives the schema types `Foo` and `FooType` of one namespace the same Rust name. -/
theorem C81_type_and_postfixed_type_clash (c : NameCfg) (hc : c.post = defaultPostfix) (f : Txt → Txt)
    (h1 : f ['F', 'o', 'o'] = ['F', 'o', 'o'])
    (h2 : f ['F', 'o', 'o', 'T', 'y', 'p', 'e'] = ['F', 'o', 'o', 'T', 'y', 'p', 'e']) (v w : Variant)
    (hv : ∀ r, v ≠ .reference r) (hw : ∀ r, w ≠ .reference r) :
    rustPath c f makeTypeName ⟨1, 0, .named ['F', 'o', 'o'], .type_⟩ (.new v) =
      rustPath c f makeTypeName ⟨1, 0, .named ['F', 'o', 'o', 'T', 'y', 'p', 'e'], .type_⟩ (.new w) := by
  have own : ∀ (u : Variant) (i : Ident), (∀ r, u ≠ .reference r) → OwnName i (MetaType.new u) :=
    fun u i hu => ⟨rfl, fun r hr => absurd hr (hu r)⟩
  unfold rustPath
  rw [rustName_own (own v _ hv), rustName_own (own w _ hw), hc]
  simp only [Name.str, h1, h2]
  rw [if_neg (by decide), if_pos (by decide)]
  exact Prod.ext rfl h2

/-- Finding: with the settings a generator starts with, types of the same name in two namespaces get the same Rust name
(in the same module), from either naming. -/
theorem C81_two_namespaces_clash (n : Nat → Nat) (f : Txt → Txt) (ns ns' schema schema' : Nat) (name : Name)
    (ty : MetaType) :
    rustPath (.default n) f makeTypeName ⟨ns, schema, name, .type_⟩ ty =
        rustPath (.default n) f makeTypeName ⟨ns', schema', name, .type_⟩ ty ∧
      rustPath (.default n) f makeTypeNameExplicit ⟨ns, schema, name, .type_⟩ ty =
        rustPath (.default n) f makeTypeNameExplicit ⟨ns', schema', name, .type_⟩ ty :=
  ⟨rfl, rfl⟩

/-- Finding: two anonymous types of one module that are lists of the same named type get the same Rust name from the
default naming, whatever their own names. -/
theorem C81_anonymous_lists_clash (c : NameCfg) (f : Txt → Txt) (ns schema : Nat) (k : Kind) (s t item : Txt)
    (tns tschema : Nat) (tk : Kind) :
    rustPath c f makeTypeName ⟨ns, schema, .generated s, k⟩
        (.new (.reference ⟨⟨tns, tschema, .named item, tk⟩, false, 0, .unbounded⟩)) =
      rustPath c f makeTypeName ⟨ns, schema, .generated t, k⟩
        (.new (.reference ⟨⟨tns, tschema, .named item, tk⟩, false, 0, .unbounded⟩)) := by
  rfl

/-- So the property does not hold for every table: the findings as one statement about a table of two entries. -/
theorem C81_names_not_distinct : ∃ (f : Txt → Txt) (T : Types),
    ¬ DistinctNames (rustPath (.default fun _ => 1) f makeTypeName) T ∧
    (∀ i a, (i, a) ∈ T → OwnName i a ∧ f i.name.str = i.name.str ∧
      f (f i.name.str ++ defaultPostfix i.kind) = f i.name.str ++ defaultPostfix i.kind) := by
  refine ⟨id, [(⟨1, 0, .named "Foo".toList, .type_⟩, .new (.sequence ⟨false, []⟩)),
    (⟨1, 0, .named "FooType".toList, .type_⟩, .new (.choice ⟨false, []⟩))], ?_, ?_⟩
  · intro h
    refine h _ _ _ _ (List.mem_cons_self ..) (List.mem_cons_of_mem _ (List.mem_cons_self ..)) (by decide)
      ⟨nofun, nofun⟩ ⟨nofun, nofun⟩ ?_
    exact C81_type_and_postfixed_type_clash _ rfl id rfl rfl _ _ nofun nofun
  · intro i a h
    simp only [List.mem_cons, Prod.mk.injEq, List.not_mem_nil, or_false] at h
    rcases h with ⟨rfl, rfl⟩ | ⟨rfl, rfl⟩ <;> exact ⟨⟨rfl, nofun⟩, rfl, rfl⟩

/-! ## Examples -/

/-- The hypotheses of `C81_default_same_iff` and both sides of it: `Foo` and `FooType`; `FooType` and `FooTypeType` are
told apart. -/
example : rustPath (.default fun _ => 1) id makeTypeName ⟨1, 0, .named "FooType".toList, .type_⟩ (.new (.sequence ⟨false, []⟩)) ≠
    rustPath (.default fun _ => 1) id makeTypeName ⟨1, 0, .named "FooTypeType".toList, .type_⟩ (.new (.sequence ⟨false, []⟩)) := by
  intro h
  have := ((C81_default_same_iff (i := ⟨1, 0, .named "FooType".toList, .type_⟩)
    (j := ⟨1, 0, .named "FooTypeType".toList, .type_⟩) rfl ⟨rfl, nofun⟩ ⟨rfl, nofun⟩ rfl rfl).1 h).2
  rcases this with h | ⟨_, h⟩ | ⟨h, _⟩
  · exact absurd h (by decide)
  · exact absurd h (by decide)
  · exact h ⟨"Foo".toList, by decide⟩

/-- `ExplicitNaming` tells `Foo` and `FooType` apart. -/
example : rustPath (.default fun _ => 1) id makeTypeNameExplicit ⟨1, 0, .named "Foo".toList, .type_⟩ (.new (.sequence ⟨false, []⟩)) ≠
    rustPath (.default fun _ => 1) id makeTypeNameExplicit ⟨1, 0, .named "FooType".toList, .type_⟩ (.new (.sequence ⟨false, []⟩)) := by
  intro h
  exact absurd ((C81_explicit_same_iff (i := ⟨1, 0, .named "Foo".toList, .type_⟩)
    (j := ⟨1, 0, .named "FooType".toList, .type_⟩) rfl rfl rfl rfl rfl).1 h).2 (by decide)

/-- … but not the type `FooElement` and the element `Foo`. -/
example : rustPath (.default fun _ => 1) id makeTypeNameExplicit ⟨1, 0, .named "FooElement".toList, .type_⟩ (.new (.sequence ⟨false, []⟩)) =
    rustPath (.default fun _ => 1) id makeTypeNameExplicit ⟨1, 0, .named "Foo".toList, .element⟩ (.new (.sequence ⟨false, []⟩)) :=
  (C81_explicit_type_element (i := ⟨1, 0, .named "FooElement".toList, .type_⟩)
    (j := ⟨1, 0, .named "Foo".toList, .element⟩) rfl rfl rfl rfl rfl rfl rfl).2 ⟨rfl, by decide⟩

/-- Modules for the namespaces tell `a:Foo` and `b:Foo` apart, another name tells `Foo` and `FooType` apart. -/
example : rustPath ⟨true, false, defaultPostfix, fun _ => 1⟩ id makeTypeName ⟨1, 0, .named "Foo".toList, .type_⟩ (.new (.sequence ⟨false, []⟩)) ≠
    rustPath ⟨true, false, defaultPostfix, fun _ => 1⟩ id makeTypeName ⟨2, 0, .named "Foo".toList, .type_⟩ (.new (.sequence ⟨false, []⟩)) :=
  C81_namespace_modules _ rfl _ _ _ _ (by decide)

example : rustPath ⟨false, true, defaultPostfix, fun _ => 2⟩ id makeTypeName ⟨1, 0, .named "Foo".toList, .type_⟩ { MetaType.new (.sequence ⟨false, []⟩) with schema := some 1 } ≠
    rustPath ⟨false, true, defaultPostfix, fun _ => 2⟩ id makeTypeName ⟨1, 1, .named "Foo".toList, .type_⟩ { MetaType.new (.sequence ⟨false, []⟩) with schema := some 2 } :=
  C81_schema_modules _ rfl _ _ (by decide) (by decide) (by decide)

example : rustPath (.default fun _ => 1) id makeTypeName ⟨1, 0, .named "Foo".toList, .type_⟩ { MetaType.new (.sequence ⟨false, []⟩) with displayName := some "Bar".toList } ≠
    rustPath (.default fun _ => 1) id makeTypeName ⟨1, 0, .named "FooType".toList, .type_⟩ (.new (.sequence ⟨false, []⟩)) :=
  (C81_display_name_resolves _ _ _ rfl (by decide +kernel)).2

/-- A table that meets the hypotheses of `C81_default_names_distinct_partial`: the type `Foo`, the element `Foo` and the
type `Bar`. -/
example : DistinctNames (rustPath (.default fun _ => 1) id makeTypeName)
    [(⟨1, 0, .named "Foo".toList, .type_⟩, .new (.sequence ⟨false, []⟩)),
     (⟨1, 0, .named "Foo".toList, .element⟩, .new (.choice ⟨false, []⟩)),
     (⟨1, 0, .named "Bar".toList, .type_⟩, .new (.choice ⟨false, []⟩))] := by
  let T : Types := [(⟨1, 0, .named "Foo".toList, .type_⟩, .new (.sequence ⟨false, []⟩)),
     (⟨1, 0, .named "Foo".toList, .element⟩, .new (.choice ⟨false, []⟩)),
     (⟨1, 0, .named "Bar".toList, .type_⟩, .new (.choice ⟨false, []⟩))]
  have names : ∀ i a, (i, a) ∈ T → i.name.str = "Foo".toList ∨ i.name.str = "Bar".toList := by
    intro i a h
    simp only [T, List.mem_cons, Prod.mk.injEq, List.not_mem_nil, or_false] at h
    rcases h with ⟨rfl, rfl⟩ | ⟨rfl, rfl⟩ | ⟨rfl, rfl⟩ <;> simp [Name.str]
  have ends : ∀ k k' : Kind, ∀ s ∈ ["Foo".toList, "Bar".toList],
      let x := (defaultPostfix k).take ((defaultPostfix k).length - (defaultPostfix k').length)
      x = [] ∨ endsWith s x = false := by
    intro k k'
    cases k <;> cases k' <;> decide +kernel
  have clear : ∀ i a, (i, a) ∈ T → ∀ k k' x, defaultPostfix k = x ++ defaultPostfix k' → x ≠ [] →
      ¬ ∃ y, i.name.str = y ++ x := by
    intro i a hi k k' x hx ne ⟨y, hy⟩
    have ht : x = (defaultPostfix k).take ((defaultPostfix k).length - (defaultPostfix k').length) := by
      rw [hx, List.length_append, Nat.add_sub_cancel, List.take_left]
    have hs : i.name.str ∈ ["Foo".toList, "Bar".toList] := by
      rcases names i a hi with h | h <;> rw [h] <;> simp
    have := ends k k' _ hs
    rw [← ht] at this
    rcases this with h | h
    · exact ne h
    · rw [endsWith_iff.2 ⟨y, hy⟩] at h; cases h
  refine C81_default_names_distinct_partial (T := T) ?_ (fun _ _ _ => rfl) clear ?_ ?_
  · intro i a h
    simp only [T, List.mem_cons, Prod.mk.injEq, List.not_mem_nil, or_false] at h
    rcases h with ⟨rfl, rfl⟩ | ⟨rfl, rfl⟩ | ⟨rfl, rfl⟩ <;> exact ⟨rfl, nofun⟩
  · intro i a h k hk
    exact clear i a h k .group _ (List.append_nil _).symm hk
  · have : ∀ e ∈ T, ∀ e' ∈ T, e.1 ≠ e'.1 → defaultPostfix e.1.kind = defaultPostfix e'.1.kind →
        e.1.name.str ≠ e'.1.name.str := by decide +kernel
    exact fun i a j b hi hj ne _ hp => this _ hi _ hj ne hp

end Verif.Naming

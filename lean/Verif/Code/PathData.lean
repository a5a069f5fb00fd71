import Verif.Code.Usings

/-!
# The types of fields (C89)

Models `xsd-parser/src/models/data/path_data.rs` and the functions of the generator that make the type of a field
from the type of an element: `path_data_mixed`, `path_data_nillable`, `path_data_text`
(`pipeline/generator/data/mod.rs` 32-82), their use in `pipeline/generator/data/complex.rs` (622-663, 794-798) and
the case of custom types in `pipeline/generator/mod.rs` (481-497). Boxes and containers (`Vec`, `Option`) are put around the
type later and are not part of this model. Paths and their tokens are those of C46, `use` declarations those of C47.
-/
namespace Verif.Code

/-- `PathData`, path_data.rs 14-23. -/
structure PathData where
  path : IdentPath
  usings : List (List Char) := []
  generics : List IdentPath := []
deriving DecidableEq, Repr

/-- `IdentPath::from_ident`, ident_path.rs 74-80. -/
def IdentPath.ofIdent (i : Ident) : IdentPath := ⟨none, i, false⟩

/-- `into_included`, path_data.rs 54-63. -/
def PathData.intoIncluded (p : PathData) : PathData :=
  if p.path.path.isSome then { path := .ofIdent p.path.ident, usings := [p.path.display] } else p

/-- The tokens of a type: a path and paths as arguments. -/
structure TypeTokens where
  head : Rendered
  args : List Rendered
deriving DecidableEq, Repr

/-- `resolve_relative_to`, path_data.rs 68-86 (the brackets are left out). -/
def PathData.resolveRelativeTo (p : PathData) (dst : List Ident) : TypeTokens :=
  ⟨p.path.relativeTo dst, p.generics.map (·.relativeTo dst)⟩

/-- What the generator is configured with: `ABSOLUTE_PATHS_INSTEAD_USINGS` and the types of its runtime,
generator/meta.rs 15-42. -/
structure TypeCfg where
  absolute : Bool
  mixed : IdentPath
  nillable : IdentPath
  text : IdentPath
  any : IdentPath
  anyAttributes : IdentPath

/-- Common code of `path_data_nillable` and `path_data_mixed`, data/mod.rs 32-68. -/
def TypeCfg.wrap (C : TypeCfg) (w : IdentPath) (on : Bool) (p : PathData) : PathData :=
  if !on then p
  else if C.absolute then { p with path := w, generics := p.generics ++ [p.path] }
  else { path := .ofIdent w.ident, generics := p.generics ++ [p.path], usings := p.usings ++ [w.display] }

/-- The type of an element, complex.rs 649-651. -/
def TypeCfg.element (C : TypeCfg) (mixed nillable : Bool) (target : PathData) : PathData :=
  C.wrap C.nillable nillable (C.wrap C.mixed mixed target)

/-- The type of a wildcard, complex.rs 622-626. -/
def TypeCfg.wildcard (C : TypeCfg) (mixed : Bool) : PathData :=
  let p := C.wrap C.mixed mixed ({ path := C.any } : PathData).intoIncluded
  { p with usings := p.usings ++ [C.any.display] }

/-- The type of text, data/mod.rs 70-81. -/
def TypeCfg.textType (C : TypeCfg) : PathData :=
  if C.absolute then { path := C.text } else { path := .ofIdent C.text.ident, usings := [C.text.display] }

/-- The type of the attributes that a wildcard allows, complex.rs 794-796. -/
def TypeCfg.attributes (C : TypeCfg) : PathData :=
  { path := .ofIdent C.anyAttributes.ident, usings := [C.anyAttributes.display] }

/-- The type for a custom type with an include, generator/mod.rs 481-491 (`none`: the text is not a path). -/
def TypeCfg.custom (C : TypeCfg) (name : Ident) (include_ : List Char) : Option PathData :=
  if C.absolute then (fromStr include_).map fun p => { path := p }
  else some { path := .ofIdent name, usings := [include_] }

/-! ## Specification -/

/-- An item of another crate, or of the generated code. -/
inductive Item where
  | ext (path : List Ident)
  | own (path : List Ident)
deriving DecidableEq, Repr

/-- A Rust type: an item applied to types. -/
inductive RustTy where
  | app (head : Item) (args : List RustTy)

def RustTy.args : RustTy → List RustTy
  | .app _ as => as

/-- The name that a `use` declaration brings into scope. -/
def importedName (u : List Char) : Option Ident := (target u).bind List.getLast?

/-- What a path means in the module `dst` with these `use` declarations: with a leading `::` an item of another
crate; a single name is the imported item, if there is one, or an item of the module; otherwise the path leads
from module to module. -/
def meaning (uses : List (List Char)) (dst : List Ident) (r : Rendered) : Option Item :=
  if r.leading then (resolveFrom [] r.segs).map .ext
  else
    match r.segs with
    | [.name i] =>
      match uses.find? fun u => importedName u == some i with
      | some u => (target u).map .ext
      | none => some (.own (dst ++ [i]))
    | segs => (resolveFrom dst segs).map .own

/-- The meaning of the paths between the brackets. -/
def meanings (uses : List (List Char)) (dst : List Ident) : List Rendered → Option (List RustTy)
  | [] => some []
  | r :: rs => (meaning uses dst r).bind fun i => (meanings uses dst rs).map fun ts => .app i [] :: ts

/-- The meaning of the type of a field in the module `dst`. -/
def PathData.means (p : PathData) (dst : List Ident) : Option RustTy :=
  (meaning p.usings dst (p.resolveRelativeTo dst).head).bind fun i =>
    (meanings p.usings dst (p.resolveRelativeTo dst).args).map fun ts => .app i ts

/-- The item of a path. -/
def IdentPath.full (p : IdentPath) : List Ident := p.path.getD [] ++ [p.ident]

/-- The type that is declared: `Mixed<…>` in mixed content, `Nillable<…>` for nillable elements. -/
def declared (C : TypeCfg) (mixed nillable : Bool) (base : Item) : RustTy :=
  let t := RustTy.app base []
  let t := if mixed then .app (.ext C.mixed.full) [t] else t
  if nillable then .app (.ext C.nillable.full) [t] else t

/-- The configured types are written with a leading `::`, a module, and plain identifiers. -/
def Outside (p : IdentPath) : Prop :=
  p.isAbsolute = true ∧ p.path.isSome = true ∧ (∀ m ∈ p.path.getD [], PlainIdent m) ∧ PlainIdent p.ident

/-! ## Proofs -/

theorem target_display {p : IdentPath} (h : Outside p) : target p.display = some p.full := by
  have := C46_display_parse_partial p.path p.ident h.2.2.1 h.2.2.2
  have e : p.display = (IdentPath.mk p.path p.ident false).display := rfl
  simp only [target, e, this, Option.map_some, IdentPath.full, Option.getD_some]

theorem importedName_display {p : IdentPath} (h : Outside p) : importedName p.display = some p.ident := by
  simp [importedName, target_display h, IdentPath.full]

theorem resolve_all_names (l : List Ident) (i : Ident) :
    resolveFrom [] (l.map Seg.name ++ [.name i]) = some (l ++ [i]) := by
  rw [resolve_names]; simp [resolveFrom]

/-- A path with a leading `::`. -/
theorem meaning_outside {p : IdentPath} (h : Outside p) (uses : List (List Char)) (dst : List Ident) :
    meaning uses dst (p.relativeTo dst) = some (.ext p.full) := by
  obtain ⟨h1, h2, -⟩ := h
  obtain ⟨src, hs⟩ := Option.isSome_iff_exists.1 h2
  simp [meaning, IdentPath.relativeTo, hs, h1, resolve_all_names, IdentPath.full]

/-- An imported name. -/
theorem meaning_imported {p : IdentPath} (h : Outside p) (uses : List (List Char)) (dst : List Ident)
    (hm : p.display ∈ uses) (only : ∀ u ∈ uses, importedName u = some p.ident → u = p.display) :
    meaning uses dst ((IdentPath.ofIdent p.ident).relativeTo dst) = some (.ext p.full) := by
  have hf : uses.find? (fun u => importedName u == some p.ident) = some p.display := by
    cases hx : uses.find? (fun u => importedName u == some p.ident) with
    | none =>
      have := List.find?_eq_none.1 hx _ hm
      simp [importedName_display h] at this
    | some u =>
      have h1 := List.find?_some hx
      have h2 := List.mem_of_find?_eq_some hx
      rw [only u h2 (by simpa using h1)]
  simp [meaning, IdentPath.ofIdent, IdentPath.relativeTo, hf, target_display h]

/-- A generated type. -/
theorem meaning_own (src : List Ident) (i : Ident) (uses : List (List Char)) (dst : List Ident)
    (free : src = dst → ∀ u ∈ uses, importedName u ≠ some i) :
    meaning uses dst ((IdentPath.mk (some src) i false).relativeTo dst) = some (.own (src ++ [i])) := by
  obtain ⟨h1, h2⟩ := C46_relative_path_correct src dst i
  generalize (IdentPath.mk (some src) i false).relativeTo dst = r at h1 h2
  unfold meaning
  rw [if_neg (by simp [h1])]
  split
  · rename_i j hj
    rw [hj] at h2
    simp only [resolveFrom, Option.some.injEq] at h2
    obtain ⟨rfl, e⟩ := List.append_inj' h2 rfl
    cases e
    have : uses.find? (fun u => importedName u == some i) = none := by
      rw [List.find?_eq_none]
      intro u hu
      simpa using free rfl u hu
    rw [this]
  · rw [h2]; rfl

/-- What a type may be: one that is generated, or one of another crate. -/
inductive Base : IdentPath → Item → Prop where
  | own (src : List Ident) (i : Ident) : Base ⟨some src, i, false⟩ (.own (src ++ [i]))
  | ext (p : IdentPath) (h : Outside p) : Base p (.ext p.full)

theorem meaning_base {p : IdentPath} {b : Item} (h : Base p b) (uses : List (List Char)) (dst : List Ident)
    (free : p.path = some dst → p.isAbsolute = false → ∀ u ∈ uses, importedName u ≠ some p.ident) :
    meaning uses dst (p.relativeTo dst) = some b := by
  cases h with
  | own src i => exact meaning_own src i uses dst fun e => free (by rw [e]) rfl
  | ext p h => exact meaning_outside h uses dst

/-- **C89.** In every module, the type of a field for an element is the declared type: the type of the element, in
`Mixed` if the content is mixed, in `Nillable` if the element is nillable. Not if both are the case. In the module
of the type its name must not be that of `Mixed` or `Nillable`, if they are imported. -/
theorem C89_element_type_partial (C : TypeCfg) (hm : Outside C.mixed) (hn : Outside C.nillable)
    (mixed nillable : Bool) (one : ¬ (mixed = true ∧ nillable = true)) (p : IdentPath) (b : Item) (hb : Base p b)
    (dst : List Ident)
    (free : C.absolute = false → p.path = some dst → p.ident ≠ C.mixed.ident ∧ p.ident ≠ C.nillable.ident) :
    (C.element mixed nillable { path := p }).means dst = some (declared C mixed nillable b) := by
  have plain := meaning_base hb [] dst (by intro _ _ u hu; cases hu)
  have wrapped : ∀ w, Outside w → (w = C.mixed ∨ w = C.nillable) → (C.wrap w true { path := p }).means dst
      = some (.app (.ext w.full) [.app b []]) := by
    intro w hw hor
    cases ha : C.absolute with
    | true =>
      simp [TypeCfg.wrap, ha, PathData.means, PathData.resolveRelativeTo, meanings, plain, meaning_outside hw]
    | false =>
      have h1 := meaning_imported hw [w.display] dst (by simp) (by intro u hu _; simpa using hu)
      have h2 := meaning_base hb [w.display] dst (by
        intro e _ u hu
        obtain rfl : u = w.display := by simpa using hu
        rw [importedName_display hw]
        have := free ha e
        rcases hor with rfl | rfl
        · exact fun e => this.1 (Option.some.inj e).symm
        · exact fun e => this.2 (Option.some.inj e).symm)
      simp [TypeCfg.wrap, ha, PathData.means, PathData.resolveRelativeTo, meanings, h1, h2]
  cases mixed <;> cases nillable
  · simp [TypeCfg.element, TypeCfg.wrap, declared, PathData.means, PathData.resolveRelativeTo, meanings, plain]
  · have := wrapped C.nillable hn (.inr rfl)
    simpa [TypeCfg.element, TypeCfg.wrap, declared] using this
  · have := wrapped C.mixed hm (.inl rfl)
    simpa [TypeCfg.element, TypeCfg.wrap, declared] using this
  · exact absurd ⟨rfl, rfl⟩ one

theorem meanings_length (uses : List (List Char)) (dst : List Ident) :
    ∀ (rs : List Rendered) (ts : List RustTy), meanings uses dst rs = some ts → ts.length = rs.length := by
  intro rs
  induction rs with
  | nil => intro ts h; cases h; rfl
  | cons r rs ih =>
    intro ts h
    simp only [meanings, Option.bind_eq_some_iff, Option.map_eq_some_iff] at h
    obtain ⟨i, -, ts', h1, rfl⟩ := h
    simp [ih ts' h1]

/-- **C89, finding.** A nillable element in mixed content: whatever the element, the module and the configuration,
the generated type is not the declared type `Nillable<Mixed<T>>`; it is `Nillable` with two arguments, `T` and `Mixed`. -/
theorem C89_mixed_nillable_wrong (C : TypeCfg) (p : IdentPath) (b : Item) (dst : List Ident) :
    (C.element true true { path := p }).means dst ≠ some (declared C true true b) ∧
    ((C.element true true { path := p }).resolveRelativeTo dst).args.length = 2 := by
  have h2 : ((C.element true true { path := p }).resolveRelativeTo dst).args.length = 2 := by
    unfold TypeCfg.element TypeCfg.wrap PathData.resolveRelativeTo
    cases C.absolute <;> rfl
  refine ⟨fun h => ?_, h2⟩
  unfold PathData.means at h
  simp only [Option.bind_eq_some_iff, Option.map_eq_some_iff] at h
  obtain ⟨i, -, ts, h1, h3⟩ := h
  have := meanings_length _ _ _ _ h1
  rw [h2] at this
  have h4 := congrArg (fun t => t.args.length) h3
  simp [RustTy.args, declared, this] at h4

/-- **C89.** Text, wildcards (also in mixed content) and attributes of wildcards have the configured types, in every
module and for both ways to name them. -/
theorem C89_runtime_types (C : TypeCfg) (hm : Outside C.mixed) (ht : Outside C.text) (ha : Outside C.any)
    (has : Outside C.anyAttributes) (apart : C.any.ident ≠ C.mixed.ident) (mixed : Bool) (dst : List Ident) :
    C.textType.means dst = some (.app (.ext C.text.full) []) ∧
    (C.wildcard mixed).means dst = some (declared C mixed false (.ext C.any.full)) ∧
    C.attributes.means dst = some (.app (.ext C.anyAttributes.full) []) := by
  have imp : ∀ w, Outside w → ∀ uses dst, w.display ∈ uses →
      (∀ u ∈ uses, importedName u = some w.ident → u = w.display) →
      meaning uses dst ((IdentPath.ofIdent w.ident).relativeTo dst) = some (.ext w.full) :=
    fun w hw uses dst => meaning_imported hw uses dst
  have single : ∀ w, Outside w →
      ({ path := .ofIdent w.ident, usings := [w.display] } : PathData).means dst = some (.app (.ext w.full) []) := by
    intro w hw
    have := imp w hw [w.display] dst (by simp) (by intro u hu _; simpa using hu)
    simp [PathData.means, PathData.resolveRelativeTo, meanings, this]
  refine ⟨?_, ?_, single _ has⟩
  · unfold TypeCfg.textType
    cases C.absolute with
    | true => simp [PathData.means, PathData.resolveRelativeTo, meanings, meaning_outside ht]
    | false => exact single _ ht
  · have hs : C.any.path.isSome = true := ha.2.1
    have inc : ({ path := C.any } : PathData).intoIncluded
        = { path := .ofIdent C.any.ident, usings := [C.any.display] } := by
      simp [PathData.intoIncluded, hs]
    have any_ : ∀ uses, C.any.display ∈ uses → (∀ u ∈ uses, u = C.any.display ∨ u = C.mixed.display) →
        meaning uses dst ((IdentPath.ofIdent C.any.ident).relativeTo dst) = some (.ext C.any.full) := by
      intro uses h1 h2
      refine imp _ ha uses dst h1 fun u hu e => ?_
      rcases h2 u hu with rfl | rfl
      · rfl
      · rw [importedName_display hm] at e
        exact absurd (Option.some.inj e).symm apart
    have mix_ : ∀ uses, C.mixed.display ∈ uses → (∀ u ∈ uses, u = C.any.display ∨ u = C.mixed.display) →
        meaning uses dst ((IdentPath.ofIdent C.mixed.ident).relativeTo dst) = some (.ext C.mixed.full) := by
      intro uses h1 h2
      refine imp _ hm uses dst h1 fun u hu e => ?_
      rcases h2 u hu with rfl | rfl
      · rw [importedName_display ha] at e
        exact absurd (Option.some.inj e) apart
      · rfl
    unfold TypeCfg.wildcard
    rw [inc]
    cases mixed with
    | false =>
      have := any_ [C.any.display, C.any.display] (by simp) (by simp)
      simp [TypeCfg.wrap, PathData.means, PathData.resolveRelativeTo, meanings, this, declared]
    | true =>
      cases hab : C.absolute with
      | true =>
        have := any_ [C.any.display, C.any.display] (by simp) (by simp)
        simp [TypeCfg.wrap, hab, PathData.means, PathData.resolveRelativeTo, meanings, this, declared,
          meaning_outside hm]
      | false =>
        have h1 := any_ [C.any.display, C.mixed.display, C.any.display] (by simp) (by simp)
        have h2 := mix_ [C.any.display, C.mixed.display, C.any.display] (by simp) (by simp)
        simp [TypeCfg.wrap, hab, PathData.means, PathData.resolveRelativeTo, meanings, h1, h2, declared]

/-- **C89.** A custom type that is included by its path with a leading `::`, whose last part is its name, is this type
in every module, imported or not. -/
theorem C89_custom_type (C : TypeCfg) (p : IdentPath) (hp : Outside p) (dst : List Ident) :
    ∃ d, C.custom p.ident ([':', ':'] ++ p.display) = some d ∧ d.means dst = some (.app (.ext p.full) []) := by
  have hparse : fromStr ([':', ':'] ++ p.display) = some ⟨some (p.path.getD []), p.ident, true⟩ :=
    C46_parse_absolute _ _ hp.2.2.1 hp.2.2.2
  have ht : target ([':', ':'] ++ p.display) = some p.full := by
    simp only [target, hparse, Option.map_some, IdentPath.full, Option.getD_some]
  unfold TypeCfg.custom
  cases C.absolute with
  | true =>
    refine ⟨_, by rw [if_pos rfl, hparse]; rfl, ?_⟩
    have ho : Outside ⟨some (p.path.getD []), p.ident, true⟩ := ⟨rfl, rfl, hp.2.2.1, hp.2.2.2⟩
    simp [PathData.means, PathData.resolveRelativeTo, meanings, meaning_outside ho, IdentPath.full]
  | false =>
    refine ⟨_, rfl, ?_⟩
    have hi : importedName ([':', ':'] ++ p.display) = some p.ident := by
      simp only [importedName, ht]; simp [IdentPath.full]
    simp only [List.cons_append, List.nil_append] at hi ht
    simp [PathData.means, PathData.resolveRelativeTo, meanings, meaning, IdentPath.ofIdent, IdentPath.relativeTo,
      hi, ht]

/-- **C89, finding.** A custom type of the own crate, included as `crate::…`, with
`ABSOLUTE_PATHS_INSTEAD_USINGS`: in a module for a namespace the path is `super::crate::…`, which is not a path of
Rust, for `crate` may only stand at the beginning. -/
theorem C89_crate_path_broken (C : TypeCfg) (hC : C.absolute = true) (name m : Ident) (hn : PlainIdent name)
    (hne : m ≠ "crate".toList) :
    ∃ d, C.custom name ("crate::".toList ++ name) = some d ∧
      (d.resolveRelativeTo [m]).head = ⟨false, [.super, .name "crate".toList, .name name]⟩ := by
  have hcr : ∀ x ∈ ["crate".toList], PlainIdent x := by
    intro x hx
    obtain rfl : x = "crate".toList := by simpa using hx
    exact ⟨by decide, by decide⟩
  have := C46_display_parse_partial (some ["crate".toList]) name hcr hn
  have e : (IdentPath.mk (some ["crate".toList]) name false).display = "crate::".toList ++ name := by
    simp [IdentPath.display]
  rw [e] at this
  refine ⟨_, by simp only [TypeCfg.custom, hC, if_true]; rw [this]; rfl, ?_⟩
  have h : ¬ "crate".toList = m := fun e => hne e.symm
  show (⟨false, relLoop name ["crate".toList] [m]⟩ : Rendered) = _
  simp only [relLoop]
  rw [if_neg h]
  rfl

/-- **C89, finding.** A type of the schema that is named like an imported type of the runtime: in its module the field
of a nillable element of another type means the right type, but that of an element of this type does not. -/
theorem C89_name_captured (C : TypeCfg) (hC : C.absolute = false) (hn : Outside C.nillable) (dst : List Ident) :
    (C.element false true { path := ⟨some dst, C.nillable.ident, false⟩ }).means dst
      = some (.app (.ext C.nillable.full) [.app (.ext C.nillable.full) []]) := by
  have h1 := meaning_imported hn [C.nillable.display] dst (by simp) (by intro u hu _; simpa using hu)
  have h2 : (IdentPath.mk (some dst) C.nillable.ident false).relativeTo dst
      = (IdentPath.ofIdent C.nillable.ident).relativeTo dst := by
    have : ∀ l : List Ident, relLoop C.nillable.ident l l = [.name C.nillable.ident] := by
      intro l
      induction l with
      | nil => simp only [relLoop]
      | cons a l ih => simp [relLoop, ih]
    simp [IdentPath.relativeTo, IdentPath.ofIdent, this]
  simp [TypeCfg.element, TypeCfg.wrap, hC, PathData.means, PathData.resolveRelativeTo, meanings, h1, h2]

/-! ## Non-vacuity -/

/-- `::xsd_parser_types::xml::…` -/
def xmlType (s : String) : IdentPath := ⟨some ["xsd_parser_types".toList, "xml".toList], s.toList, true⟩

/-- The defaults of the generator, generator/mod.rs 114-119. -/
def defaultTypes (absolute : Bool) : TypeCfg :=
  ⟨absolute, xmlType "Mixed", xmlType "Nillable", xmlType "Text", xmlType "AnyElement", xmlType "AnyAttributes"⟩

theorem defaultTypes_outside (a : Bool) : Outside (defaultTypes a).mixed ∧ Outside (defaultTypes a).nillable ∧
    Outside (defaultTypes a).text ∧ Outside (defaultTypes a).any ∧ Outside (defaultTypes a).anyAttributes := by
  have : ∀ s : String, PlainIdent s.toList → Outside (xmlType s) := by
    intro s hs
    refine ⟨rfl, rfl, ?_, hs⟩
    intro m hm
    have : m = "xsd_parser_types".toList ∨ m = "xml".toList := by simpa [xmlType] using hm
    rcases this with rfl | rfl <;> exact ⟨by decide, by decide⟩
  exact ⟨this _ ⟨by decide, by decide⟩, this _ ⟨by decide, by decide⟩, this _ ⟨by decide, by decide⟩,
    this _ ⟨by decide, by decide⟩, this _ ⟨by decide, by decide⟩⟩

/-- A nillable element of the type `tns::FooType` in the module `other`: `Nillable<super::tns::FooType>`. -/
example : ((defaultTypes false).element false true
      { path := ⟨some ["tns".toList], "FooType".toList, false⟩ }).means ["other".toList]
    = some (.app (.ext ["xsd_parser_types".toList, "xml".toList, "Nillable".toList])
      [.app (.own ["tns".toList, "FooType".toList]) []]) :=
  C89_element_type_partial (defaultTypes false) (defaultTypes_outside _).1 (defaultTypes_outside _).2.1 false true
    (by simp) _ _ (.own _ _) _ (by intro _ h; simp at h)

example (mixed : Bool) : ((defaultTypes true).wildcard mixed).means [] = some (declared (defaultTypes true) mixed false
    (.ext (xmlType "AnyElement").full)) :=
  (C89_runtime_types (defaultTypes true) (defaultTypes_outside _).1 (defaultTypes_outside _).2.2.1
    (defaultTypes_outside _).2.2.2.1 (defaultTypes_outside _).2.2.2.2 (by decide) mixed []).2.1

end Verif.Code

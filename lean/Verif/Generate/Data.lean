import Verif.Meta.Valid
/-!
# From the type information to the data of the generated types (C71)

Models `xsd-parser/src/pipeline/generator/data/complex.rs`: which struct or enum is generated for a complex type or a
group, which of the elements and attributes become fields or variants, and with which container. Identifiers, paths,
derives and boxes are left out (`Verif.Generate.Boxing` and others model them). A result `none` stands for a recursion
that does not come to an end within `fuel` calls.
-/
namespace Verif.Generate

open Verif.Meta
open Verif.Occurs (MaxOccurs Container fromOccurs Allows)

/-! ## Model -/

/-- The `GeneratorFlags` that matter here, config/generator.rs:130-210. -/
structure GFlags where
  flattenEnum : Bool
  flattenStruct : Bool
  mixed : Bool
  nillable : Bool
  any : Bool
deriving DecidableEq, Repr

/-- `MixedMode`, complex.rs:39-45. -/
inductive MixedMode where
  | none | weak | group | complex
deriving DecidableEq, Repr

/-- `Context::mixed_mode`, complex.rs:857-867. -/
def mixedMode (fl : GFlags) (isMixed : Bool) (m : MixedMode) : MixedMode :=
  if isMixed && fl.mixed then m else if isMixed then .weak else .none

/-- `MixedMode::use_mixed_type`, complex.rs:922-924. -/
def MixedMode.useMixed : MixedMode → Bool
  | .group | .complex => true
  | _ => false

/-- The type of a field: `AnyElement`, `Text`, the type generated for a name, or the content type of the same type. -/
inductive Target where
  | any
  | text
  | type_ (i : Ident)
  | content
deriving DecidableEq, Repr

/-- `ComplexDataElement`, models/data/complex.rs: `min`, `max` and `group` are those of its origin,
`ident` and `form` those of its tag name. -/
structure DElement where
  ident : PropIdent
  group : Bool
  min : Nat
  max : MaxOccurs
  occurs : Container
  target : Target
  mixed : Bool
  nillable : Bool
  isDynamic : Bool
  form : Form
deriving DecidableEq, Repr

/-- `ComplexDataAttribute`, models/data/complex.rs. `type_` is `none` for the wildcard. -/
structure DAttribute where
  ident : PropIdent
  type_ : Option Ident
  isOption : Bool
  default_ : Option Txt
  form : Form
deriving DecidableEq, Repr

/-- `StructMode`, models/data/complex.rs. -/
inductive SMode where
  | empty (allowAny : Bool)
  | content (min : Nat) (max : MaxOccurs) (simple : Option Ident)
  | all (es : List DElement) (allowAny : Bool)
  | sequence (es : List DElement) (allowAny : Bool)
deriving DecidableEq, Repr

/-- The content type `{Type}Content`: an enum, or a struct without attributes. -/
inductive DContent where
  | enum_ (es : List DElement) (allowAny : Bool)
  | struct_ (mode : SMode)
deriving DecidableEq, Repr

/-- `ComplexData`, models/data/complex.rs. -/
inductive CData where
  | enum_ (es : List DElement) (allowAny allowAnyAttr : Bool)
  | struct_ (mode : SMode) (attrs : List DAttribute) (allowAnyAttr : Bool) (content : Option DContent)
deriving DecidableEq, Repr

/-- `Iterator::any`, with calls that may not return. -/
def anyM {α : Type} (f : α → Option Bool) : List α → Option Bool
  | [] => some false
  | a :: l =>
    match f a with
    | none => none
    | some true => some true
    | some false => anyM f l

/-- `Iterator::all`. -/
def allM {α : Type} (f : α → Option Bool) : List α → Option Bool
  | [] => some true
  | a :: l =>
    match f a with
    | none => none
    | some false => some false
    | some true => allM f l

/-- `check_element`, complex.rs:885-905; `check` is `check_type`. -/
def checkElement (T : Types) (check : MetaType → Option Bool) (e : Element) : Option Bool :=
  match e.variant with
  | .type_ i .group =>
    if e.min = 0 then some true
    else
      match Assoc.get T i with
      | none => some true
      | some ty => check ty
  | _ => some (e.min == 0)

/-- `check_type`, complex.rs:871-883. -/
def checkType (T : Types) : Nat → MetaType → Option Bool
  | 0, _ => none
  | fuel + 1, ty =>
    match ty.variant with
    | .choice g => anyM (checkElement T (checkType T fuel)) g.elements
    | .all g | .sequence g => allM (checkElement T (checkType T fuel)) g.elements
    | _ => some false

/-- `MetaTypes::is_choice_with_optional_elements_only`, complex.rs:870-915. -/
def isOptionalChoice (T : Types) (fuel : Nat) (i : Ident) : Option Bool :=
  match Assoc.get T i with
  | none => some false
  | some ty =>
    match ty.variant with
    | .choice _ => checkType T fuel ty
    | _ => some false

/-- `is_dynamic`, complex.rs:844-855. -/
def isDynamic (T : Types) : Nat → Ident → Option Bool
  | 0, _ => none
  | fuel + 1, i =>
    match Assoc.get T i with
    | none => some false
    | some ty =>
      match ty.variant with
      | .dynamic _ => some true
      | .complex c => some c.isDynamic
      | .reference r => if r.isSimple then isDynamic T fuel r.type_ else some false
      | _ => some false

/-- `ComplexDataElement::new`, complex.rs:584-682 (`new_variant` and `new_field`, 560-582, differ in the boxes only).
The element, if there is one, and whether `allow_any` is set. -/
def newElement (fl : GFlags) (T : Types) (fuel : Nat) (mixed : Bool) (e : Element) :
    Option (Option DElement × Bool) :=
  if fromOccurs e.min e.max = .none then some (none, false)
  else
    match e.variant with
    | .any _ =>
      if fl.any then
        some (some ⟨e.ident, false, e.min, e.max, fromOccurs e.min e.max, .any, mixed, false, false, e.form⟩, false)
      else some (none, true)
    | .text =>
      some (some ⟨e.ident, false, e.min, e.max, fromOccurs e.min e.max, .text, false, false, false, e.form⟩, false)
    | .type_ i mode =>
      match (if fromOccurs e.min e.max = .single then isOptionalChoice T fuel i else some false),
          isDynamic T fuel i with
      | some opt, some dyn =>
        some (some ⟨e.ident, mode == .group, e.min, e.max, if opt then .optional else fromOccurs e.min e.max,
          .type_ i, mixed && mode == .element, e.flags.nillable && fl.nillable, dyn, e.form⟩, false)
      | _, _ => none

/-- The loop over the elements, complex.rs:239-251 and 371-383. -/
def newElements (fl : GFlags) (T : Types) (fuel : Nat) (mixed : Bool) : List Element → Option (List DElement × Bool)
  | [] => some ([], false)
  | e :: es =>
    match newElement fl T fuel mixed e, newElements fl T fuel mixed es with
    | some (d, a), some (ds, b) => some (d.toList ++ ds, a || b)
    | _, _ => none

/-- `ComplexDataAttribute::new_field`, complex.rs:772-841. The attribute, if there is one, and whether
`allow_any_attribute` is set. That the default value can be rendered is not modelled. -/
def newAttribute (fl : GFlags) (a : Attribute) : Option DAttribute × Bool :=
  if a.use_ = .prohibited then (none, false)
  else
    match a.variant with
    | .any _ => if fl.any then (some ⟨a.ident, none, a.use_ == .optional, none, a.form⟩, false) else (none, true)
    | .type_ i => (some ⟨a.ident, some i, a.use_ == .optional && a.default_.isNone, a.default_, a.form⟩, false)

/-- The loop over the attributes, complex.rs:182-187, 232-237 and 363-368. -/
def newAttributes (fl : GFlags) (as : List Attribute) : List DAttribute × Bool :=
  (as.filterMap fun a => (newAttribute fl a).1, as.any fun a => (newAttribute fl a).2)

/-- `new_text_before`, complex.rs:684-720. -/
def textBefore : DElement := ⟨⟨0, .named []⟩, false, 0, .bounded 1, .optional, .text, false, false, false, .unqualified⟩

/-- `new_content`, complex.rs:722-768. -/
def contentElement (min : Nat) (max : MaxOccurs) : DElement :=
  ⟨⟨0, .named []⟩, true, min, max, fromOccurs min max, .content, false, false, false, .unqualified⟩

/-- `new_simple`, complex.rs:167-211. -/
def newSimple (fl : GFlags) (simple : Ident) (min : Nat) (max : MaxOccurs) (as : List Attribute) : CData :=
  .struct_ (.content min max (some simple)) (newAttributes fl as).1 (newAttributes fl as).2 none

/-- The struct or enum for a choice once its elements and attributes are known, complex.rs:253-340. -/
def enumData (fl : GFlags) (mm : MixedMode) (min : Nat) (max : MaxOccurs) (ats : List DAttribute) (anyAttr : Bool)
    (els : List DElement) (allowAny : Bool) : CData :=
  if fromOccurs min max = .single ∧ mm ≠ .complex ∧ ats = [] ∧ fl.flattenEnum = true then
    .enum_ els allowAny anyAttr
  else if fromOccurs min max = .none ∨ els = [] then .struct_ (.empty allowAny) ats anyAttr none
  else if mm = .complex then
    .struct_ (.sequence [textBefore, contentElement min max] false) ats anyAttr (some (.enum_ els allowAny))
  else .struct_ (.content min max none) ats anyAttr (some (.enum_ els allowAny))

/-- `new_enum`, complex.rs:214-341. -/
def newEnum (fl : GFlags) (T : Types) (fuel : Nat) (mm : MixedMode) (min : Nat) (max : MaxOccurs)
    (as : List Attribute) (es : List Element) : Option CData :=
  match newElements fl T fuel mm.useMixed es with
  | none => none
  | some (els, allowAny) =>
    some (enumData fl mm min max (newAttributes fl as).1 (newAttributes fl as).2 els allowAny)

/-- The mode of a struct for `xs:all` (`all = true`) or a sequence. -/
def groupMode (all : Bool) (els : List DElement) (allowAny : Bool) : SMode :=
  if all then .all els allowAny else .sequence els allowAny

/-- The struct for a sequence or `xs:all` once its elements and attributes are known, complex.rs:384-509. -/
def structData (fl : GFlags) (all : Bool) (mm : MixedMode) (min : Nat) (max : MaxOccurs) (ats : List DAttribute)
    (anyAttr : Bool) (els : List DElement) (allowAny : Bool) : CData :=
  if fromOccurs min max = .single ∧ fl.flattenStruct = true then
    let els := if mm = .complex then textBefore :: els else els
    .struct_ (if els = [] then .empty allowAny else groupMode all els allowAny) ats anyAttr none
  else if fromOccurs min max = .none ∨ els = [] then .struct_ (.empty allowAny) ats anyAttr none
  else if mm = .complex then
    .struct_ (.sequence [textBefore, contentElement min max] false) ats anyAttr
      (some (.struct_ (groupMode all els allowAny)))
  else .struct_ (.content min max none) ats anyAttr (some (.struct_ (groupMode all els allowAny)))

/-- `new_struct`, complex.rs:344-510. -/
def newStruct (fl : GFlags) (T : Types) (fuel : Nat) (all : Bool) (mm : MixedMode) (min : Nat) (max : MaxOccurs)
    (as : List Attribute) (es : List Element) : Option CData :=
  match newElements fl T fuel mm.useMixed es with
  | none => none
  | some (els, allowAny) =>
    some (structData fl all mm min max (newAttributes fl as).1 (newAttributes fl as).2 els allowAny)

/-- `new_all`, `new_choice` and `new_sequence`, complex.rs:48-97. -/
def newGroup (fl : GFlags) (T : Types) (fuel : Nat) : Variant → Option CData
  | .all g => newStruct fl T fuel true (mixedMode fl g.isMixed .group) 1 (.bounded 1) [] g.elements
  | .choice g => newEnum fl T fuel (mixedMode fl g.isMixed .group) 1 (.bounded 1) [] g.elements
  | .sequence g => newStruct fl T fuel false (mixedMode fl g.isMixed .group) 1 (.bounded 1) [] g.elements
  | _ => none

/-- `new_complex`, complex.rs:99-142. -/
def newComplex (fl : GFlags) (T : Types) (fuel : Nat) (c : Complex) : Option CData :=
  let mm := mixedMode fl c.isMixed .complex
  let content : Option (Variant × Ident) :=
    c.content.bind fun i => (getResolvedType T i).map fun ty => (ty.variant, i)
  match content with
  | none => newStruct fl T fuel false mm c.min c.max c.attributes []
  | some (.all g, _) => newStruct fl T fuel true mm c.min c.max c.attributes g.elements
  | some (.choice g, _) => newEnum fl T fuel mm c.min c.max c.attributes g.elements
  | some (.sequence g, _) => newStruct fl T fuel false mm c.min c.max c.attributes g.elements
  | some (.buildIn _, i) | some (.union _, i) | some (.enumeration _, i) | some (.reference _, i)
  | some (.simple _, i) | some (.custom _, i) => some (newSimple fl i c.min c.max c.attributes)
  | some _ => newStruct fl T fuel false mm c.min c.max c.attributes []

end Verif.Generate

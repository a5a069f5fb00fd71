import Verif.Generate.Data
import Verif.Gen.Documents
/-!
# The generated types of a table of type information (C71)

`Verif.Generate.Data` says which structs and enums are generated for the type information; here they become a table of
generated types in the sense of `Verif.Gen.Tables`, whose deserializers are modelled there. The generated types are
numbered as the entries of the type information. Types of a kind that those tables do not have (mixed or dynamic types,
nillable elements, wildcards, nested `xs:all`) are not supported: the functions below return `none` for them.
-/
namespace Verif.Generate

open Verif.Meta
open Verif.Occurs (MaxOccurs Container fromOccurs Allows)
open Verif.Rt (Str)
open Verif.Gen (GErr)
open Verif.Gen.Tab (QN TyRef AttrSpec FieldSpec Body StructSpec Schema)

variable {X : Type}

/-- The type information, the flags of the generator, and what is left open: `parse` is `DeserializeBytes` of the types
generated for simple types, `num` and `nsName` are character references and the namespace constants of the modules.
`elementPrefix` and `attributePrefix` are the prefixes that are written, or empty for the names that are used without a
prefix, and `used` says which of the complex types, and of the groups that are nested in others, are looked at. -/
structure Setup (X : Type) where
  flags : GFlags
  fuel : Nat
  types : Types
  parse : Ident → Str → Except GErr X
  num : Str → Option Str
  nsName : Nat → Option Str
  elementPrefix : PropIdent → Str
  attributePrefix : PropIdent → Str
  used : Ident → Bool

/-- The number of the type with this name. -/
def indexOf (T : Types) (i : Ident) : Nat := T.findIdx fun x => x.1 == i

/-- Is a value of this type a text? A reference that is left after resolving is a list (`Vec<T>`), or one that is not
supported. -/
def Variant.isText : Variant → Bool
  | .buildIn _ | .union _ | .enumeration _ | .simple _ | .custom _ => true
  | .reference r => !r.isSingle
  | _ => false

/-- The deserializer for an element of this type. -/
def Setup.tyRef (S : Setup X) (i : Ident) : Option TyRef :=
  match denotes S.types i with
  | some (.complex _) => if S.used (res S.types i) then some (.struct (indexOf S.types (res S.types i))) else none
  | some v => if Variant.isText v then some (.simple (indexOf S.types (res S.types i))) else none
  | none => none

/-- `b_name` and the namespace constant of an element, complex.rs:603-606; renderer deserialize.rs, `check_start_tag_name`. -/
def Setup.elementName (S : Setup X) (n : PropIdent) : QN :=
  ⟨S.elementPrefix n, n.name.str, S.nsName n.ns⟩

/-- The same for an attribute, complex.rs:820-823. -/
def Setup.attributeName (S : Setup X) (n : PropIdent) : QN :=
  ⟨S.attributePrefix n, n.name.str, S.nsName n.ns⟩

/-- The least number of values of a field: a required choice with an optional alternative is an `Option`,
complex.rs:634-638. -/
def DElement.least (d : DElement) : Nat := if d.occurs = .optional then 0 else d.min

/-- All or nothing. -/
def mapAll {α β : Type} (f : α → Option β) : List α → Option (List β)
  | [] => some []
  | a :: l =>
    match f a, mapAll f l with
    | some b, some bs => some (b :: bs)
    | _, _ => none

/-- The field or variant for an element. -/
def Setup.elementField (S : Setup X) (d : DElement) : Option FieldSpec :=
  match d.target with
  | .type_ i =>
    if d.group || d.mixed || d.nillable || d.isDynamic then none
    else (S.tyRef i).map fun ty => ⟨S.elementName d.ident, d.least, d.max, ty⟩
  | _ => none

/-- The field or variant for a nested group: a choice or a sequence. -/
def Setup.groupField (S : Setup X) (d : DElement) : Option FieldSpec :=
  match d.target with
  | .type_ i =>
    match denotes S.types i with
    | some (.choice _) | some (.sequence _) =>
      if S.used (res S.types i) && !d.mixed && !d.nillable && !d.isDynamic
      then some ⟨S.elementName d.ident, d.least, d.max, .variant (indexOf S.types (res S.types i))⟩
      else none
    | _ => none
  | _ => none

/-- The field of a sequence, or the variant of a choice. -/
def Setup.seqField (S : Setup X) (d : DElement) : Option FieldSpec :=
  if d.group then S.groupField d else S.elementField d

/-- A choice whose only alternative is optional, renderer deserialize.rs:4554-4562: its deserializer has a default, which
the tables do not have. (An alternative that is a nested group with a default is not supported, see `groupFields`.) -/
def defaultableChoice : List Element → Bool
  | [e] => e.min == 0
  | _ => false

/-- The variants of the enum generated for a choice that is nested in another group. -/
def Setup.choiceAlts (S : Setup X) (g : Group) : Option (List FieldSpec) :=
  if defaultableChoice g.elements then none else
  match newGroup S.flags S.types S.fuel (.choice g) with
  | some (.enum_ els false false) =>
    match mapAll S.seqField els with
    | some fs => if fs.all fun f => f.min ≤ 1 && f.max == .bounded 1 then some fs else none
    | none => none
  | _ => none

/-- The field for an attribute. -/
def Setup.attrField (S : Setup X) (d : DAttribute) : Option (AttrSpec X) :=
  match d.type_ with
  | some i =>
    match S.tyRef i with
    | some (.simple k) =>
      match d.default_ with
      | none => some ⟨S.attributeName d.ident, !d.isOption, none, k⟩
      | some s =>
        match S.parse (res S.types i) s with
        | .ok x => some ⟨S.attributeName d.ident, !d.isOption, some x, k⟩
        | .error _ => none
    | _ => none
  | none => none

/-- The content of the generated type. `alts` are the alternatives if it is a choice. A struct without content is
treated like a sequence without fields: both return their value at the end tag and leave everything else to the caller
(renderer deserialize.rs:2116-2163). -/
def Setup.bodyOf (S : Setup X) (alts : List Element) : CData → Option Body
  | .enum_ els false false => if defaultableChoice alts then none else (mapAll S.seqField els).map .enum
  | .struct_ (.empty false) _ false none => some (.seq [])
  | .struct_ (.sequence es false) _ false none => (mapAll S.seqField es).map .seq
  | .struct_ (.all es false) _ false none => (mapAll S.elementField es).map .all
  | .struct_ (.content mn mx (some i)) _ false none =>
    if mn = 1 ∧ mx = .bounded 1 then
      match S.tyRef i with
      | some (.simple k) => some (.text k)
      | _ => none
    else none
  | .struct_ (.content mn mx none) _ false (some (.enum_ els false)) =>
    if defaultableChoice alts then none else (mapAll S.seqField els).map fun fs => .choice fs mn mx
  | _ => none

/-- The fields of the struct generated for a sequence that is nested in another group. One of them must be required: the
others have a default (renderer deserialize.rs:4541-4552), which the tables do not have. -/
def Setup.groupFields (S : Setup X) (g : Group) : Option (List FieldSpec) :=
  if g.isMixed then none else
  match (newGroup S.flags S.types S.fuel (.sequence g)).bind (S.bodyOf []) with
  | some (.seq fs) => if fs.any fun f => 1 ≤ f.min then some fs else none
  | _ => none

/-- The attributes of the generated type. -/
def CData.attributes : CData → List DAttribute
  | .struct_ _ as _ _ => as
  | .enum_ .. => []

/-- The alternatives of a complex type whose content is a choice. -/
def alternatives (T : Types) (c : Complex) : List Element :=
  match c.content.bind (denotes T) with
  | some (.choice g) => g.elements
  | _ => []

/-- Is the content of a kind that `new_complex` expects? Sequences and `xs:all` are not repeated. -/
def expectedContent (T : Types) (c : Complex) : Bool :=
  match c.content.bind (denotes T) with
  | some (.complex _) | some (.dynamic _) => false
  | some (.sequence _) | some (.all _) => fromOccurs c.min c.max = .single || fromOccurs c.min c.max = .none
  | _ => true

def Attribute.isAny (a : Attribute) : Bool :=
  match a.variant with
  | .any _ => true
  | .type_ _ => false

/-- The type generated for a complex type. -/
def Setup.complexOf (S : Setup X) (c : Complex) : Option (StructSpec X) :=
  if c.isDynamic || c.isMixed || !expectedContent S.types c || c.attributes.any Attribute.isAny then none
  else
    match newComplex S.flags S.types S.fuel c with
    | none => none
    | some d =>
      match S.bodyOf (alternatives S.types c) d, mapAll S.attrField d.attributes with
      | some b, some as => some ⟨as, b, none⟩
      | _, _ => none

/-- The type generated for an entry of the type information; types that are not supported get a type without content. -/
def Setup.structOf (S : Setup X) (ty : MetaType) : StructSpec X :=
  let spec :=
    match ty.variant with
    | .complex c => S.complexOf c
    | .choice g => (S.choiceAlts g).map fun fs => ⟨[], .choice fs 1 (.bounded 1), none⟩
    | .sequence g => (S.groupFields g).map fun fs => ⟨[], .seq fs, none⟩
    | _ => none
  spec.getD ⟨[], .seq [], none⟩

/-- The table of the generated types. -/
def Setup.compile (S : Setup X) : Schema X where
  structs := S.types.map fun x => S.structOf x.2
  print := fun _ _ => none
  parse := fun k s =>
    match S.types[k]? with
    | some x => S.parse x.1 s
    | none => .error (.value 0)
  num := S.num

end Verif.Generate

import Verif.Gen.RoundTrip
import Verif.Gen.SimpleContent

/-!
# Whole documents survive writing and reading (C13, C14)

Tables of generated types: structs with attributes whose content is a sequence (of elements and of
repeated choices), `xs:all`, a (repeated) choice or a simple value, and enums that represent an
element. The deserializers also have nested sequences and groups nested in choices (see
`Verif.Gen.GroupTables`); for the theorems about writing
see `Verif.Gen.Written`. The elements are of simple types or of types of the table (recursion allowed). `ser` and `de` are the serializer
and the deserializer of a type of the table: the templates of `Verif.Gen.Serialize` and of
`Verif.Gen.Sequence`, `Choice`, `Content`, `All` and `SimpleContent`, with the serializers and
deserializers of the field types filled in. The Rust compiler ties that knot; here it is a
counter that limits the nesting depth, and the theorems hold for every counter that exceeds the
depth of the value.
-/

namespace Verif.Gen.Tab

open Verif.Rt Verif.Occurs

variable {X : Type}

/-! ## Types and values -/

/-- A name as it is written (`TagName::get_for_default_namespace`, models/data/tag_name.rs:62-71;
the prefix is empty for unqualified names and the default namespace) and as it is looked for
(namespace constant, if the module has one, and local name). -/
structure QN where
  pfx : Str
  local_ : Str
  ns : Option Str
deriving DecidableEq, Repr

def QN.text (n : QN) : Str := joinName n.pfx n.local_

/-- `check_start_tag_name`, types deserialize.rs:897-907, and the same test for attributes,
renderer deserialize.rs:2933-2960. -/
def QN.test (scope : Str → Option Str) (n : QN) (key : Str) : Bool :=
  match n.ns with
  | some ns => resolveLocalName scope key ns == some n.local_
  | none => (splitName key).2 == n.local_

/-- `variant k` is the content enum of the `k`-th type, when that is a choice: the type of its field
`content`, and of the fields of sequences that have this choice as a particle. When the `k`-th type is a sequence, it is
the struct of that sequence as a part of another group, without a tag of its own. -/
inductive TyRef where
  | simple (k : Nat)
  | struct (k : Nat)
  | variant (k : Nat)
deriving DecidableEq, Repr

structure AttrSpec (X : Type) where
  name : QN
  required : Bool
  default : Option X
  ty : Nat

/-- A field. Those for a nested choice have no tag of their own; their name is not used. -/
structure FieldSpec where
  name : QN
  min : Nat
  max : MaxOccurs
  ty : TyRef

/-- The content of a type: a field per element (`seq`, `all`), the field `content` with an enum
(`choice`) or a simple value (`text`); or the type is an enum itself (`enum`). -/
inductive Body where
  | seq (fs : List FieldSpec)
  | all (fs : List FieldSpec)
  | choice (alts : List FieldSpec) (min : Nat) (max : MaxOccurs)
  | enum (alts : List FieldSpec)
  | text (ty : Nat)

/-- The elements that a content names. -/
def Body.elements : Body → List FieldSpec
  | .seq fs => fs
  | .all fs => fs
  | .choice alts _ _ => alts
  | .enum alts => alts
  | .text _ => []

/-- Values: `struct` has one `Option` per attribute and one list per field (a single list for
the field `content`); `alt i vs` is the `i`-th variant of an enum. -/
inductive Val (X : Type) where
  | simple (x : X)
  | struct (attrs : List (Option X)) (fields : List (List (Val X)))
  | alt (i : Nat) (vs : List (Val X))

structure StructSpec (X : Type) where
  attrs : List (AttrSpec X)
  body : Body
  /-- the namespaces it writes on its tag, depending on the value, the name of the tag and
  `is_root`; see `Shell` -/
  xmlns : Option (Val X → Str → Bool → List (Str × Str))

/-- A table of types. `print` and `parse` are `SerializeBytes` and `DeserializeBytes` of the
simple types, which are numbered. -/
structure Schema (X : Type) where
  structs : List (StructSpec X)
  print : Nat → X → Option Str
  parse : Nat → Str → Except GErr X
  /-- character references, see `Verif.Runtime.Text` -/
  num : Str → Option Str

def Val.attrs : Val X → List (Option X)
  | .struct as _ => as
  | _ => []

def Val.fields : Val X → List (List (Val X))
  | .struct _ fs => fs
  | _ => []

mutual
def depth : Val X → Nat
  | .simple _ => 0
  | .struct _ fs => depthss fs + 1
  | .alt _ vs => depths vs + 1
def depthss : List (List (Val X)) → Nat
  | [] => 0
  | vs :: r => max (depths vs) (depthss r)
def depths : List (Val X) → Nat
  | [] => 0
  | v :: r => max (depth v) (depths r)
end

/-! ## Writing -/

/-- `write_attrib`, `write_attrib_opt`, types serialize.rs:881-915: the value is escaped, and
nothing is written for values without text. -/
def writeAttr (G : Schema X) (a : AttrSpec X) : Option X → List Attr
  | none => []
  | some x =>
    match G.print a.ty x with
    | some s => [⟨a.name.text, escape s⟩]
    | none => []

def writeAttrs (G : Schema X) : List (AttrSpec X) → List (Option X) → List Attr
  | a :: as, v :: vs => writeAttr G a v ++ writeAttrs G as vs
  | _, _ => []

/-- The state of a serializer. -/
inductive SSt (X : Type) where
  | simple (k : Nat) (c : CSt X)
  | struct (k : Nat) (s : ShSt (Val X) (FSt (TyRef × Val X) (SSt X)))
  | variant (k : Nat) (s : ShSt (Val X) (FSt (TyRef × Val X) (SSt X)))

/-- `WithSerializer::serializer`. Simple types: `ContentSerializer::new`. Elements always get a
name here; content types ignore it. -/
def mk (x : TyRef × Val X) (name : Option Str) (root : Bool) : Except Unit (SSt X) :=
  match x with
  | (.simple k, .simple x) => .ok (.simple k (.begin name x))
  | (.struct k, v) => .ok (.struct k (.init v (name.getD []) root))
  | (.variant k, v) => .ok (.variant k (.init v [] root))
  | _ => .error ()

/-- The value of a field, by `Occurs`: plain if it occurs exactly once. -/
def fieldVal (f : FieldSpec) (vs : List (Val X)) : FVal (TyRef × Val X) :=
  match fromOccurs f.min f.max, vs with
  | .single, [v] => .one (f.ty, v)
  | _, vs => .many (vs.map fun v => (f.ty, v))

/-- The field `content` of the `k`-th type, a choice. It has no name. -/
def contentSpec (k min : Nat) (max : MaxOccurs) : FieldSpec := ⟨⟨[], [], none⟩, min, max, .variant k⟩

/-- The variant of an enum, `render_serializer_state_init`, serialize.rs:1256-1298: its name and
values. -/
def altPart (alts : List FieldSpec) : Val X → Option (Option Str × FVal (TyRef × Val X))
  | .alt i vs => (alts[i]?).map fun f => (some f.name.text, fieldVal f vs)
  | _ => none

/-- The parts of a type: fields, serialize.rs:1380-1450, the content, 1300-1312, or the
variant. -/
def Body.part (k : Nat) (w : Val X) (i : Nat) : Body → Option (Option Str × FVal (TyRef × Val X))
  | .seq fs => (fs[i]?).map fun f => (some f.name.text, fieldVal f (w.fields.getD i []))
  | .all fs => (fs[i]?).map fun f => (some f.name.text, fieldVal f (w.fields.getD i []))
  | .choice _ mn mx => some (none, fieldVal (contentSpec k mn mx) (w.fields.getD 0 []))
  | .enum alts => altPart alts w
  | .text j => some (none, fieldVal ⟨⟨[], [], none⟩, 1, .bounded 1, .simple j⟩ (w.fields.getD 0 []))

def Body.parts : Body → Nat
  | .seq fs => fs.length
  | .all fs => fs.length
  | _ => 1

/-- Enums that represent an element pass `is_root` on to their variant, serialize.rs:939-1036;
structs do not. -/
def Body.forwards : Body → Bool
  | .enum _ => true
  | _ => false

def enterPart (root : Bool) :
    Option (Option Str × FVal (TyRef × Val X)) → Except Unit (FSt (TyRef × Val X) (SSt X))
  | some (name, x) => fieldEnter mk name root x
  | none => .error ()

/-- The serializer of a type of the table. -/
def shell (G : Schema X) (z : Zer (SSt X) Unit) (k : Nat) (D : StructSpec X) :
    Shell (Val X) (FSt (TyRef × Val X) (SSt X)) Unit where
  isElement := true
  xmlns := D.xmlns
  attrs := fun w _ => .ok (writeAttrs G D.attrs w.attrs)
  parts := D.body.parts
  enter := fun w root i => enterPart (D.body.forwards && root) (D.body.part k w i)
  z := fieldZ mk z

/-- The parts of a group: the fields of a nested sequence, or the variant of a choice. -/
def Body.groupPart (w : Val X) (i : Nat) : Body → Option (Option Str × FVal (TyRef × Val X))
  | .seq fs => (fs[i]?).map fun f => (some f.name.text, fieldVal f (w.fields.getD i []))
  | b => altPart b.elements w

def Body.groupParts : Body → Nat
  | .seq fs => fs.length
  | _ => 1

/-- The serializer of a group, that is, of the content enum of a choice or of a nested sequence: no tag and no attributes,
`represents_element` is false, serialize.rs:660-690, 900-936, 1068-1130. -/
def groupShell (z : Zer (SSt X) Unit) (b : Body) :
    Shell (Val X) (FSt (TyRef × Val X) (SSt X)) Unit where
  isElement := false
  xmlns := none
  attrs := fun _ _ => .ok []
  parts := b.groupParts
  enter := fun w _ i => enterPart false (b.groupPart w i)
  z := fieldZ mk z

def SOut.mapS {S S' E : Type} (f : S → S') : SOut S E × SerHelper → SOut S' E × SerHelper
  | (.emit ev s, h) => (.emit ev (f s), h)
  | (.again s, h) => (.again (f s), h)
  | (.fail e, h) => (.fail e, h)
  | (.done, h) => (.done, h)

/-- The serializers of the table, for values of depth less than the counter. -/
def ser (G : Schema X) : Nat → Zer (SSt X) Unit
  | 0 => ⟨fun _ h => (.fail (), h)⟩
  | n + 1 => ⟨fun s h =>
    match s with
    | .simple k c =>
      SOut.mapS (.simple k) ((contentZ (fun x _ => .ok (G.print k x)) fun _ => ()).step c h)
    | .struct k s =>
      match G.structs[k]? with
      | some D => SOut.mapS (.struct k) ((shellZ (shell G (ser G n) k D)).step s h)
      | none => (.fail (), h)
    | .variant k s =>
      match G.structs[k]? with
      | some D =>
        SOut.mapS (.variant k) ((shellZ (groupShell (ser G n) D.body)).step s h)
      | none => (.fail (), h)⟩

/-! ## Reading -/

/-- The state of a deserializer, for each kind of type. -/
inductive DSt (X : Type) where
  | simple (k : Nat) (s : Str)
  | seq (k : Nat) (s : SeqSt (List (Option X)) (DSt X) (Val X))
  | all (k : Nat) (s : ASt (List (Option X)) (DSt X) (Val X))
  | choice (k : Nat) (s : KSt (List (Option X)) (DSt X) (Val X))
  | enum (k : Nat) (s : CPos (DSt X) (Val X) (Val X))
  | text (k : Nat) (s : List (Option X) × Str)
  | variant (k : Nat) (s : CPos (DSt X) (Val X) (Val X))

def bimap {C C' V V' : Type} (f : C → C') (m : V → V') : Output C V → Output C' V'
  | ⟨.none, ev, a⟩ => ⟨.none, ev, a⟩
  | ⟨.data v, ev, a⟩ => ⟨.data (m v), ev, a⟩
  | ⟨.deser c, ev, a⟩ => ⟨.deser (f c), ev, a⟩

/-- A deserializer with its state and its value embedded into larger types. -/
def embed {H C C' V V' : Type} (d : GDe H C V) (f : C → C') (g : C' → Option C) (m : V → V') :
    GDe H C' V' where
  init := fun h e => (d.init h e).map (bimap f m)
  next := fun c h e =>
    match g c with
    | some c => (d.next c h e).map (bimap f m)
    | none => .error .panic
  finish := fun c h =>
    match g c with
    | some c => (d.finish c h).map m
    | none => .error .panic

def attrTable (G : Schema X) (as : List (AttrSpec X)) : AttrTable GErr X where
  decls := as.map fun a =>
    { ns := a.name.ns, name := a.name.local_, required := a.required, default := a.default,
      parse := fun raw =>
        match unescape G.num raw with
        | some s => G.parse a.ty s
        | none => .error (.value 0) }
  any := .checked

/-- `from_bytes_start`, see `Verif.Runtime.Attributes`. -/
def readTag (G : Schema X) (as : List (AttrSpec X)) (p : Pos) (t : Tag) :
    Except GErr (List (Option X)) :=
  match fromBytesStart (posScope p) (attrTable G as) (t.attrs.map .ok) with
  | .ok (vs, _) => .ok vs
  | .error (.invalid e) => .error e
  | .error _ => .error (.value 1)

/-- Elements are tried if they have the name of the field, nested choices always,
renderer deserialize.rs:2480-2560. -/
def FieldSpec.want (f : FieldSpec) : Option (Pos → Tag → Bool) :=
  match f.ty with
  | .variant _ => none
  | _ => some fun p t => f.name.test (posScope p) t.name

/-- The fields and alternatives: name and namespace test, occurrence, type. -/
def elemField (d : TyRef → GDe Pos (DSt X) (Val X)) (f : FieldSpec) : Field Pos (DSt X) (Val X) where
  name := f.name.local_
  want := f.want
  min := f.min
  max := f.max
  de := d f.ty

/-- The deserializer of a struct with sequence or `xs:all` content. -/
def seqTy (G : Schema X) (d : TyRef → GDe Pos (DSt X) (Val X)) (as : List (AttrSpec X))
    (fs : List FieldSpec) : SeqTy Pos (List (Option X)) (DSt X) (Val X) (Val X) where
  fields := fs.map (elemField d)
  ofTag := readTag G as
  attrs0 := []
  build := .struct

/-- The deserializer of a nested sequence: a struct that is not an element, without attributes. -/
def groupTy (G : Schema X) (d : TyRef → GDe Pos (DSt X) (Val X)) (fs : List FieldSpec) :
    SeqTy Pos (List (Option X)) (DSt X) (Val X) (Val X) where
  fields := fs.map (elemField d)
  isElement := false
  ofTag := readTag G []
  attrs0 := []
  build := .struct

/-- The deserializer of a struct with the field `content` for a choice. -/
def contentTy (G : Schema X) (d : TyRef → GDe Pos (DSt X) (Val X)) (as : List (AttrSpec X))
    (k min : Nat) (max : MaxOccurs) : ContentTy Pos (List (Option X)) (DSt X) (Val X) (Val X) where
  content := { name := [], want := none, min := min, max := max, de := d (.variant k) }
  ofTag := readTag G as
  attrs0 := []
  build := fun as vs => .struct as [vs]

/-- The deserializer of an enum: an element, or the content of a choice. -/
def enumTy (G : Schema X) (d : TyRef → GDe Pos (DSt X) (Val X)) (isElement : Bool)
    (alts : List FieldSpec) : EnumTy Pos (DSt X) (Val X) (Val X) where
  alts := alts.map (elemField d)
  isElement := isElement
  check := fun p t => (readTag G [] p t).map fun _ => ()
  build := .alt

/-- The deserializer of a struct with simple content. -/
def textTy (G : Schema X) (as : List (AttrSpec X)) (j : Nat) :
    SimpleTy Pos (List (Option X)) X (Val X) where
  ofTag := readTag G as
  num := G.num
  bad := .value 2
  parse := fun _ => G.parse j
  build := fun as x => .struct as [[.simple x]]

def DSt.toSimple (k : Nat) : DSt X → Option Str
  | .simple j s => if j = k then some s else none
  | _ => none

def DSt.toSeq (k : Nat) : DSt X → Option (SeqSt (List (Option X)) (DSt X) (Val X))
  | .seq j s => if j = k then some s else none
  | _ => none

def DSt.toAll (k : Nat) : DSt X → Option (ASt (List (Option X)) (DSt X) (Val X))
  | .all j s => if j = k then some s else none
  | _ => none

def DSt.toChoice (k : Nat) : DSt X → Option (KSt (List (Option X)) (DSt X) (Val X))
  | .choice j s => if j = k then some s else none
  | _ => none

def DSt.toEnum (k : Nat) : DSt X → Option (CPos (DSt X) (Val X) (Val X))
  | .enum j s => if j = k then some s else none
  | _ => none

def DSt.toText (k : Nat) : DSt X → Option (List (Option X) × Str)
  | .text j s => if j = k then some s else none
  | _ => none

def DSt.toVariant (k : Nat) : DSt X → Option (CPos (DSt X) (Val X) (Val X))
  | .variant j s => if j = k then some s else none
  | _ => none

/-- The deserializer of a type, given those of the other types. -/
def deBody (G : Schema X) (d : TyRef → GDe Pos (DSt X) (Val X)) (k : Nat) (D : StructSpec X) :
    GDe Pos (DSt X) (Val X) :=
  match D.body with
  | .seq fs => embed (seqTy G d D.attrs fs).de (.seq k) (DSt.toSeq k) id
  | .all fs => embed (seqTy G d D.attrs fs).allDe (.all k) (DSt.toAll k) id
  | .choice _ mn mx => embed (contentTy G d D.attrs k mn mx).de (.choice k) (DSt.toChoice k) id
  | .enum alts => embed (enumTy G d true alts).de (.enum k) (DSt.toEnum k) id
  | .text j => embed (textTy G D.attrs j).de (.text k) (DSt.toText k) id

/-- The deserializer of a group: a nested sequence, or the content enum of a choice. -/
def groupDe (G : Schema X) (d : TyRef → GDe Pos (DSt X) (Val X)) (k : Nat) (D : StructSpec X) :
    GDe Pos (DSt X) (Val X) :=
  match D.body with
  | .seq fs => embed (groupTy G d fs).de (.seq k) (DSt.toSeq k) id
  | b => embed (enumTy G d false b.elements).de (.variant k) (DSt.toVariant k) id

/-- No such type. -/
def noDe : GDe Pos (DSt X) (Val X) :=
  ⟨fun _ _ => .error .panic, fun _ _ _ => .error .panic, fun _ _ => .error .panic⟩

/-- The deserializers of the table, for values of depth less than the counter. -/
def de (G : Schema X) : Nat → TyRef → GDe Pos (DSt X) (Val X)
  | 0, _ => noDe
  | _ + 1, .simple k =>
    embed (simpleDe G.num (.value 2) fun _ => G.parse k) (.simple k) (DSt.toSimple k) .simple
  | n + 1, .struct k =>
    match G.structs[k]? with
    | some D => deBody G (de G n) k D
    | none => noDe
  | n + 1, .variant k =>
    match G.structs[k]? with
    | some D => groupDe G (de G n) k D
    | none => noDe

/-! ## Specification -/

/-- A simple value is read back from its text. Element text loses blanks at its ends and cannot
contain `]]>`. -/
def SimpleOk (G : Schema X) (k : Nat) (x : X) : Prop :=
  match G.print k x with
  | none => G.parse k [] = .ok x
  | some s => hasCdataEnd s = false ∧ G.parse k (trimAscii s) = .ok x

/-- The value of an attribute: read back from its text, or absent (then it is optional and has
no default). -/
def AttrOk (G : Schema X) (a : AttrSpec X) : Option X → Prop
  | some x => ∃ s, G.print a.ty x = some s ∧ G.parse a.ty s = .ok x
  | none => a.required = false ∧ a.default = none

def AttrsOk (G : Schema X) (D : StructSpec X) (as : List (Option X)) : Prop :=
  as.length = D.attrs.length ∧
    ∀ (i : Nat) a v, D.attrs[i]? = some a → as[i]? = some v → AttrOk G a v

/-- The values of a type. The variants of a choice hold exactly one element (an optional variant
without a value leaves no trace in the document); an enum that represents an element holds at
least one. -/
inductive HasTy (G : Schema X) : TyRef → Val X → Prop
  | simple {k x} (h : SimpleOk G k x) : HasTy G (.simple k) (.simple x)
  | fields {k D es as fs} (hD : G.structs[k]? = some D) (ha : AttrsOk G D as)
      (hb : D.body = .seq es ∨ D.body = .all es)
      (hfl : fs.length = es.length)
      (hc : ∀ (i : Nat) f, es[i]? = some f → Allows f.min f.max (fs.getD i []).length)
      (hf : ∀ (i : Nat) f v, es[i]? = some f → v ∈ fs.getD i [] → HasTy G f.ty v) :
      HasTy G (.struct k) (.struct as fs)
  | choice {k D alts mn mx as vs} (hD : G.structs[k]? = some D) (ha : AttrsOk G D as)
      (hb : D.body = .choice alts mn mx) (hc : Allows mn mx vs.length)
      (hv : ∀ v ∈ vs, HasTy G (.variant k) v) : HasTy G (.struct k) (.struct as [vs])
  | variant {k D alts mn mx i f v} (hD : G.structs[k]? = some D)
      (hb : D.body = .choice alts mn mx) (hf : alts[i]? = some f) (hv : HasTy G f.ty v) :
      HasTy G (.variant k) (.alt i [v])
  | enum {k D alts i f vs} (hD : G.structs[k]? = some D) (hb : D.body = .enum alts)
      (hf : alts[i]? = some f) (hne : vs ≠ []) (hc : Allows f.min f.max vs.length)
      (hv : ∀ v ∈ vs, HasTy G f.ty v) : HasTy G (.struct k) (.alt i vs)
  | text {k D j as x} (hD : G.structs[k]? = some D) (ha : AttrsOk G D as)
      (hb : D.body = .text j) (hx : SimpleOk G j x) : HasTy G (.struct k) (.struct as [[.simple x]])

/-- Two names of one type that the deserializer does not mix up: their local parts differ, or
they are written with prefixes of different namespaces. (Names without prefix are accepted for
every namespace.) -/
def Distinct (a b : QN) : Prop :=
  a.local_ ≠ b.local_ ∨ (a.pfx ≠ [] ∧ ∃ x y, a.ns = some x ∧ b.ns = some y ∧ x ≠ y)

/-- The name can be resolved on a tag with the declarations `avail`. -/
def Resolvable (avail : List (Str × Str)) (n : QN) : Prop :=
  n.pfx = [] ∨ ∀ ns, n.ns = some ns → (n.pfx, ns) ∈ avail

/-- A name without colons inside. -/
def Plain (n : QN) : Prop := ':' ∉ n.pfx ∧ ':' ∉ n.local_

def StructSpec.declares (D : StructSpec X) (w : Val X) (name : Str) (root : Bool) :
    List (Str × Str) :=
  (D.xmlns.map fun f => f w name root).getD []

/-- The namespaces the type of an element writes on its own tag. -/
def tyDeclares (G : Schema X) (w : Val X) (name : Str) (root : Bool) : TyRef → List (Str × Str)
  | .struct k => ((G.structs[k]?).map fun D => D.declares w name root).getD []
  | _ => []

/-- What is asked of the occurrences: nothing may be empty, the alternatives of a choice (other
than those of an enum that represents an element) occur at most once, and such enums have no
attributes. -/
def Body.Fits (as : List (AttrSpec X)) : Body → Prop
  | .seq _ => True
  | .all fs => fs ≠ []
  | .choice alts _ mx => mx ≠ .bounded 0 ∧ ∀ f ∈ alts, f.min ≤ 1 ∧ f.max = .bounded 1
  | .enum _ => as = []
  | .text _ => True

/-- The prefixes are declared for the namespaces that `binds` gives them. The empty prefix, which
stands for the default namespace, may be declared for any. -/
def Agrees (binds : Str → Str) (bs : List (Str × Str)) : Prop :=
  ∀ b ∈ bs, b.1 ≠ [] → binds b.1 = b.2 ∧ b.2 ≠ []

/-- The elements of a field: the element itself, or the alternatives of the nested choice. -/
def FieldSpec.expand (G : Schema X) (f : FieldSpec) : List FieldSpec :=
  match f.ty with
  | .variant k => ((G.structs[k]?).map (·.body.elements)).getD []
  | _ => [f]

/-- The elements that can occur in the content of a type. -/
def Schema.elementsOf (G : Schema X) (D : StructSpec X) : List FieldSpec :=
  D.body.elements.flatMap (·.expand G)

/-- A field of a sequence with a fixed number of values: it has all of them before the elements of
later fields come. -/
def Exact (D : StructSpec X) (g : FieldSpec) : Prop :=
  (∃ fs, D.body = .seq fs) ∧ g.max = .bounded g.min

/-- **Specification** of the tables: what is asked of the occurrences; nested choices are in
sequences only; and names of elements and attributes can be told apart: an element has another name
than those of the fields before it (in a sequence: than those with a variable number of values). -/
structure Schema.Shape (G : Schema X) : Prop where
  fits : ∀ D ∈ G.structs, D.body.Fits D.attrs
  max : ∀ D ∈ G.structs, ∀ f ∈ D.body.elements, f.max ≠ .bounded 0
  tys : ∀ D ∈ G.structs, ∀ f ∈ D.body.elements, ∀ k, f.ty = .variant k →
    (∃ fs, D.body = .seq fs) ∧
      ∃ D' alts mn mx, G.structs[k]? = some D' ∧ D'.body = .choice alts mn mx
  fieldPlain : ∀ D ∈ G.structs, ∀ f ∈ D.body.elements, Plain f.name
  fieldDistinct : ∀ D ∈ G.structs, ∀ (i j : Nat) f g, D.body.elements[i]? = some f →
    D.body.elements[j]? = some g → j < i → ¬ Exact D g →
    ∀ a ∈ f.expand G, ∀ b ∈ g.expand G, Distinct a.name b.name
  attrPlain : ∀ D ∈ G.structs, ∀ a ∈ D.attrs, Plain a.name ∧ isXmlnsKey a.name.text = false
  attrDistinct : ∀ D ∈ G.structs, ∀ (i j : Nat) a b, D.attrs[i]? = some a → D.attrs[j]? = some b →
    i ≠ j → Distinct a.name b.name

/-- **Specification** of the declarations: `binds` gives the namespace of every prefix, `need` the
declarations of the root, and what elements declare agrees with `binds`. -/
structure Schema.Good (G : Schema X) (binds : Str → Str) (need : List (Str × Str)) : Prop
    extends G.Shape where
  root : Agrees binds need
  decls : ∀ D ∈ G.structs, ∀ f ∈ D.body.elements, ∀ x root,
    Agrees binds (tyDeclares G x f.name.text root f.ty)

/-- `Child G ty w f x`: the value `w` of type `ty` holds the value `x` for the element `f`, directly
or in a (nested) choice. -/
inductive Child (G : Schema X) : TyRef → Val X → FieldSpec → Val X → Prop
  | field {k D es as fs i f x} (hD : G.structs[k]? = some D) (hb : D.body = .seq es ∨ D.body = .all es)
      (hf : es[i]? = some f) (hne : ∀ j, f.ty ≠ .variant j) (hx : x ∈ fs.getD i []) :
      Child G (.struct k) (.struct as fs) f x
  | group {k D es as fs i g j D' alts mn mx a xs f x} (hD : G.structs[k]? = some D)
      (hb : D.body = .seq es) (hg : es[i]? = some g) (hj : g.ty = .variant j)
      (hv : .alt a xs ∈ fs.getD i []) (hD' : G.structs[j]? = some D')
      (hb' : D'.body = .choice alts mn mx) (hf : alts[a]? = some f) (hx : x ∈ xs) :
      Child G (.struct k) (.struct as fs) f x
  | choice {k D alts mn mx as vs i xs f x} (hD : G.structs[k]? = some D)
      (hb : D.body = .choice alts mn mx) (hv : .alt i xs ∈ vs) (hf : alts[i]? = some f) (hx : x ∈ xs) :
      Child G (.struct k) (.struct as [vs]) f x
  | enum {k D alts i f vs x} (hD : G.structs[k]? = some D) (hb : D.body = .enum alts)
      (hf : alts[i]? = some f) (hx : x ∈ vs) : Child G (.struct k) (.alt i vs) f x

/-- `Within G ty w ty' w'`: the value `w` of type `ty` is, or holds at some depth, the value `w'`
of type `ty'`. -/
inductive Within (G : Schema X) : TyRef → Val X → TyRef → Val X → Prop
  | refl (ty : TyRef) (w : Val X) : Within G ty w ty w
  | step {ty w f x ty' w'} (hc : Child G ty w f x) (hw : Within G f.ty x ty' w') :
      Within G ty w ty' w'

/-- The attributes of a type can be resolved on a tag with this name. -/
def AttrsNamed (G : Schema X) (need : List (Str × Str)) (ty : TyRef) (w : Val X) (name : Str)
    (root : Bool) : Prop :=
  ∀ k D, ty = .struct k → G.structs[k]? = some D → ∀ a ∈ D.attrs,
    Resolvable (need ++ D.declares w name root) a.name

/-- The name of an element and its attributes can be resolved, with the declarations of the root
(`need`) and those on the tag itself. -/
def ElementNamed (G : Schema X) (need : List (Str × Str)) (f : FieldSpec) (x : Val X) : Prop :=
  ∀ root, Resolvable (need ++ tyDeclares G x f.name.text root f.ty) f.name ∧
    AttrsNamed G need f.ty x f.name.text root

/-- **Specification.** All names that are written inside the value can be resolved. -/
def Named (G : Schema X) (need : List (Str × Str)) (ty : TyRef) (v : Val X) : Prop :=
  ∀ ty' w, Within G ty v ty' w → ∀ f x, Child G ty' w f x → ElementNamed G need f x

theorem Named.child {G : Schema X} {need : List (Str × Str)} {ty : TyRef} {w : Val X}
    (h : Named G need ty w) {f : FieldSpec} {x : Val X} (hc : Child G ty w f x) :
    Named G need f.ty x ∧ ElementNamed G need f x :=
  ⟨fun ty' w hw => h ty' w (.step hc hw), h ty w (.refl ty w) f x hc⟩

theorem expand_element {G : Schema X} {f : FieldSpec} (h : ∀ k, f.ty ≠ .variant k) :
    f.expand G = [f] := by
  unfold FieldSpec.expand
  split
  · rename_i k hk; exact absurd hk (h k)
  · rfl

theorem expand_group {G : Schema X} {f : FieldSpec} {k : Nat} {D : StructSpec X} (h : f.ty = .variant k)
    (hD : G.structs[k]? = some D) : f.expand G = D.body.elements := by
  simp [FieldSpec.expand, h, hD]

theorem Schema.Shape.not_variant {G : Schema X} (good : G.Shape) {D : StructSpec X} (hD : D ∈ G.structs)
    (hb : ∀ fs, D.body ≠ .seq fs) {f : FieldSpec} (hf : f ∈ D.body.elements) (k : Nat) :
    f.ty ≠ .variant k := by
  intro h
  obtain ⟨⟨fs, h1⟩, _⟩ := good.tys D hD f hf k h
  exact hb fs h1

/-- An element in the content of a type belongs to some type. -/
theorem mem_elementsOf {G : Schema X} {D : StructSpec X} (hD : D ∈ G.structs) {f : FieldSpec}
    (hf : f ∈ G.elementsOf D) : ∃ D' ∈ G.structs, f ∈ D'.body.elements := by
  obtain ⟨g, hg, hf⟩ := List.mem_flatMap.mp hf
  unfold FieldSpec.expand at hf
  split at hf
  · rename_i k _
    cases hk : G.structs[k]? with
    | none => rw [hk] at hf; cases hf
    | some D' => rw [hk] at hf; exact ⟨D', List.mem_of_getElem? hk, hf⟩
  · rw [List.mem_singleton] at hf
    subst hf
    exact ⟨D, hD, hg⟩

theorem Child.spec {G : Schema X} (good : G.Shape) {ty : TyRef} {w : Val X} {f : FieldSpec} {x : Val X}
    (hc : Child G ty w f x) : ∃ k D, ty = .struct k ∧ G.structs[k]? = some D ∧ f ∈ G.elementsOf D ∧
      ∀ j, f.ty ≠ .variant j := by
  have alt : ∀ {k : Nat} {D : StructSpec X} {alts : List FieldSpec}, G.structs[k]? = some D → D.body.elements = alts →
      (∀ fs, D.body ≠ .seq fs) → ∀ f ∈ alts, f ∈ G.elementsOf D ∧ ∀ j, f.ty ≠ .variant j := by
    intro k D alts hD he hb f hf
    subst he
    have h := good.not_variant (List.mem_of_getElem? hD) hb hf
    exact ⟨List.mem_flatMap.mpr ⟨f, hf, by rw [expand_element h]; simp⟩, h⟩
  cases hc with
  | @field k D es _ _ i _ _ hD hb hf hne hx =>
    refine ⟨k, D, rfl, hD, List.mem_flatMap.mpr ⟨f, ?_, by rw [expand_element hne]; simp⟩, hne⟩
    rcases hb with hb | hb <;> rw [hb] <;> exact List.mem_of_getElem? hf
  | @group k D es as fs i g j D' alts mn mx a xs _ _ hD hb hg hj hv hD' hb' hf hx =>
    refine ⟨k, D, rfl, hD, List.mem_flatMap.mpr ⟨g, ?_, ?_⟩, ?_⟩
    · rw [hb]; exact List.mem_of_getElem? hg
    · rw [expand_group hj hD', hb']; exact List.mem_of_getElem? hf
    · exact good.not_variant (List.mem_of_getElem? hD') (by rw [hb']; simp)
        (by rw [hb']; exact List.mem_of_getElem? hf)
  | @choice k D _ _ _ _ _ _ _ _ _ hD hb _ hf hx =>
    exact ⟨k, D, rfl, hD, alt hD (by rw [hb]; rfl) (by rw [hb]; simp) f (List.mem_of_getElem? hf)⟩
  | @enum k D _ _ _ _ _ hD hb hf hx =>
    exact ⟨k, D, rfl, hD, alt hD (by rw [hb]; rfl) (by rw [hb]; simp) f (List.mem_of_getElem? hf)⟩

/-- The names of all types can be resolved, whatever the values are. -/
def Schema.Declared (G : Schema X) (need : List (Str × Str)) : Prop :=
  ∀ D ∈ G.structs, ∀ f ∈ D.body.elements, ∀ x, ElementNamed G need f x

theorem Schema.Declared.named {G : Schema X} (good : G.Shape) {need : List (Str × Str)}
    (h : G.Declared need) (ty : TyRef) (v : Val X) : Named G need ty v := by
  intro _ _ _ f x hc
  obtain ⟨k, D, -, hD, hf, -⟩ := hc.spec good
  obtain ⟨D', hD', hf'⟩ := mem_elementsOf (List.mem_of_getElem? hD) hf
  exact h D' hD' f hf' x

/-! ## Names -/

theorem split_plain (l : Str) (h : ':' ∉ l) : splitName l = (none, l) := by
  unfold splitName
  have : l.dropWhile (· != ':') = [] := by
    induction l with
    | nil => rfl
    | cons c l ih =>
      simp only [List.mem_cons, not_or] at h
      have hc : (c != ':') = true := by
        simp only [bne_iff_ne, ne_eq]; exact fun e => h.1 e.symm
      rw [List.dropWhile_cons, if_pos hc]
      exact ih h.2
  rw [this]

theorem split_prefixed (p l : Str) (h : ':' ∉ p) : splitName (p ++ ':' :: l) = (some p, l) := by
  have h1 : (p ++ ':' :: l).dropWhile (· != ':') = ':' :: l := by
    induction p with
    | nil => rfl
    | cons c p ih =>
      simp only [List.mem_cons, not_or] at h
      have hc : (c != ':') = true := by
        simp only [bne_iff_ne, ne_eq]; exact fun e => h.1 e.symm
      rw [List.cons_append, List.dropWhile_cons, if_pos hc]
      exact ih h.2
  have h2 : (p ++ ':' :: l).takeWhile (· != ':') = p := by
    induction p with
    | nil => rfl
    | cons c p ih =>
      simp only [List.mem_cons, not_or] at h
      have hc : (c != ':') = true := by
        simp only [bne_iff_ne, ne_eq]; exact fun e => h.1 e.symm
      rw [List.cons_append, List.takeWhile_cons, if_pos hc]
      rw [List.cons_append, List.dropWhile_cons, if_pos hc] at h1
      rw [ih h.2 h1]
  unfold splitName
  rw [h1, h2]

/-- Known in a scope. -/
def Known (scope : Str → Option Str) (n : QN) : Prop :=
  n.pfx = [] ∨ ∀ ns, n.ns = some ns → scope n.pfx = some ns

theorem test_text (scope : Str → Option Str) (n m : QN) (hn : Plain n) :
    m.test scope n.text = true ↔
      m.local_ = n.local_ ∧ (n.pfx = [] ∨ m.ns = none ∨
        ∃ y, m.ns = some y ∧ scope n.pfx = some y) := by
  unfold QN.test QN.text joinName
  by_cases hp : n.pfx = []
  · rw [if_pos hp]
    have hs := split_plain n.local_ hn.2
    cases hm : m.ns with
    | none => simp only [hs, beq_iff_eq, hp, true_or, and_true]; exact eq_comm
    | some y =>
      simp only [resolveLocalName, resolveAttr, hs, beq_iff_eq, Option.some.injEq, hp, true_or,
        and_true]
      exact eq_comm
  · rw [if_neg hp]
    have hs := split_prefixed n.pfx n.local_ hn.1
    cases hm : m.ns with
    | none => simp only [hs, beq_iff_eq, true_or, or_true, and_true]; exact eq_comm
    | some y =>
      simp only [resolveLocalName, resolveAttr, hs, hp, false_or, Option.some.injEq,
        exists_eq_left', reduceCtorEq]
      cases hsc : scope n.pfx with
      | none => simp
      | some z =>
        simp only [beq_iff_eq, Option.some.injEq]
        by_cases hz : z = y
        · simp only [hz, if_true, Option.some.injEq, and_true]; exact eq_comm
        · simp [hz]

theorem test_self (scope : Str → Option Str) (n : QN) (hn : Plain n) (hk : Known scope n) :
    n.test scope n.text = true := by
  rw [test_text scope n n hn]
  refine ⟨rfl, ?_⟩
  rcases hk with h | h
  · exact Or.inl h
  · cases hns : n.ns with
    | none => exact Or.inr (Or.inl rfl)
    | some y => exact Or.inr (Or.inr ⟨y, rfl, h y hns⟩)

theorem test_other (scope : Str → Option Str) (n m : QN) (hn : Plain n) (hk : Known scope n)
    (hd : Distinct n m) : m.test scope n.text = false := by
  cases h : m.test scope n.text with
  | false => rfl
  | true =>
    rw [test_text scope n m hn] at h
    obtain ⟨h1, h2⟩ := h
    rcases hd with hd | ⟨hp, x, y, hx, hy, hne⟩
    · exact absurd h1.symm hd
    · rcases hk with hk | hk
      · exact absurd hk hp
      · rcases h2 with h2 | h2 | ⟨z, h2, h3⟩
        · exact absurd h2 hp
        · rw [hy] at h2; cases h2
        · rw [hy] at h2
          rw [hk x hx] at h3
          simp only [Option.some.injEq] at h2 h3
          exact absurd (h3.trans h2.symm) hne

/-- The key on a tag stands for the name `n`: it has the local part of `n`, with any prefix that is
bound to the namespace of `n` (if namespaces are compared), or without prefix, if `n` is a name that
is written so. -/
def Means (scope : Str → Option Str) (key : Str) (n : QN) : Prop :=
  ∃ pfx, key = joinName pfx n.local_ ∧ ':' ∉ pfx ∧ (pfx = [] → n.pfx = []) ∧
    (pfx ≠ [] → ∀ ns, n.ns = some ns → scope pfx = some ns)

theorem means_text (scope : Str → Option Str) (n : QN) (hn : Plain n) (hk : Known scope n) :
    Means scope n.text n :=
  ⟨n.pfx, rfl, hn.1, fun h => h, fun h => hk.resolve_left h⟩

theorem test_means (scope : Str → Option Str) (key : Str) (n : QN) (hn : Plain n)
    (hm : Means scope key n) : n.test scope key = true := by
  obtain ⟨pfx, rfl, hp, _, hk⟩ := hm
  refine test_text scope ⟨pfx, n.local_, n.ns⟩ n ⟨hp, hn.2⟩ |>.mpr ⟨rfl, ?_⟩
  by_cases h : pfx = []
  · exact Or.inl h
  · cases hns : n.ns with
    | none => exact Or.inr (Or.inl rfl)
    | some y => exact Or.inr (Or.inr ⟨y, rfl, hk h y hns⟩)

theorem means_other (scope : Str → Option Str) (key : Str) (n m : QN) (hn : Plain n)
    (hm : Means scope key n) (hd : Distinct n m) : m.test scope key = false := by
  obtain ⟨pfx, rfl, hp, h0, hk⟩ := hm
  refine test_other scope ⟨pfx, n.local_, n.ns⟩ m ⟨hp, hn.2⟩ ?_ ?_
  · by_cases h : pfx = []
    · exact Or.inl h
    · exact Or.inr (hk h)
  · rcases hd with h | ⟨h1, h2⟩
    · exact Or.inl h
    · exact Or.inr ⟨fun h => h1 (h0 h), h2⟩

/-! ## Attributes -/

theorem writeAttr_keys (G : Schema X) (a : AttrSpec X) (v : Option X) :
    ∀ x ∈ writeAttr G a v, x.key = a.name.text := by
  intro x hx
  cases v with
  | none => cases hx
  | some y =>
    simp only [writeAttr] at hx
    split at hx
    · simp only [List.mem_singleton] at hx; rw [hx]
    · cases hx

theorem writeAttrs_keys (G : Schema X) (as : List (AttrSpec X)) (vs : List (Option X)) :
    ∀ x ∈ writeAttrs G as vs, ∃ a ∈ as, x.key = a.name.text := by
  induction as generalizing vs with
  | nil => intro x hx; cases hx
  | cons a as ih =>
    intro x hx
    cases vs with
    | nil => cases hx
    | cons v vs =>
      simp only [writeAttrs, List.mem_append] at hx
      rcases hx with hx | hx
      · exact ⟨a, by simp, writeAttr_keys G a v x hx⟩
      · obtain ⟨b, hb, hk⟩ := ih vs x hx
        exact ⟨b, by simp [hb], hk⟩

theorem accepts_eq {E V : Type} (scope : Str → Option Str) (d : AttrDecl E V) (x : Attr) (n : QN)
    (h1 : n.ns = d.ns) (h2 : n.local_ = d.name) : d.accepts scope x = n.test scope x.key := by
  unfold AttrDecl.accepts QN.test
  rw [← h1, ← h2]
  cases n.ns <;> rfl

theorem owner_text (G : Schema X) (as : List (AttrSpec X)) (scope : Str → Option Str)
    (hplain : ∀ a ∈ as, Plain a.name) (hknown : ∀ a ∈ as, Known scope a.name)
    (hdist : ∀ (i j : Nat) a b, as[i]? = some a → as[j]? = some b → i ≠ j → Distinct a.name b.name)
    (i : Nat) (a : AttrSpec X) (ha : as[i]? = some a) (x : Attr) (hx : x.key = a.name.text) :
    owner scope (attrTable G as) x = some i := by
  have hm := List.mem_of_getElem? ha
  unfold owner
  rw [List.findIdx?_eq_some_iff_getElem]
  obtain ⟨hi, rfl⟩ := List.getElem?_eq_some_iff.mp ha
  refine ⟨by simpa [attrTable] using hi, ?_, ?_⟩
  · have := test_self scope _ (hplain _ hm) (hknown _ hm)
    rw [accepts_eq scope _ x as[i].name (by simp [attrTable]) (by simp [attrTable]), hx]
    exact this
  · intro j hj
    have hj' : j < as.length := by omega
    have := test_other scope _ as[j].name (hplain _ hm) (hknown _ hm)
      (hdist i j _ _ ha (List.getElem?_eq_getElem hj') (fun e => by omega))
    rw [accepts_eq scope _ x as[j].name (by simp [attrTable]) (by simp [attrTable]), hx, this]
    simp

theorem read_written (G : Schema X) (as : List (AttrSpec X)) (vs : List (Option X)) (p : Pos)
    (t : Tag) (ds : List Attr) (hds : ∀ d ∈ ds, isXmlnsKey d.key = true)
    (ht : t.attrs = ds ++ writeAttrs G as vs)
    (hplain : ∀ a ∈ as, Plain a.name ∧ isXmlnsKey a.name.text = false)
    (hknown : ∀ a ∈ as, Known (posScope p) a.name)
    (hdist : ∀ (i j : Nat) a b, as[i]? = some a → as[j]? = some b → i ≠ j → Distinct a.name b.name)
    (hl : vs.length = as.length)
    (hok : ∀ (i : Nat) a v, as[i]? = some a → vs[i]? = some v → AttrOk G a v) :
    readTag G as p t = .ok vs := by
  have hown := owner_text G as (posScope p) (fun a h => (hplain a h).1) hknown hdist
  -- the attributes of one declaration, from position `k` on
  have key : ∀ (as' : List (AttrSpec X)) (vs' : List (Option X)) (k : Nat),
      (∀ j, as'[j]? = as[k + j]?) → vs'.length = as'.length → ∀ i,
      owned (posScope p) (attrTable G as) (writeAttrs G as' vs') i
        = if k ≤ i then (match as'[i - k]?, vs'[i - k]? with
            | some a, some v => writeAttr G a v
            | _, _ => []) else [] := by
    intro as'
    induction as' with
    | nil =>
      intro vs' k _ _ i
      simp [writeAttrs, owned]
    | cons a as' ih =>
      intro vs' k hk hl i
      cases vs' with
      | nil => simp at hl
      | cons v vs' =>
        have ha : as[k]? = some a := by have := hk 0; simpa using this.symm
        have ih := ih vs' (k + 1) (fun j => by
          have := hk (j + 1)
          rw [show k + 1 + j = k + (j + 1) by omega, ← this]
          simp) (by simpa using hl) i
        have hfirst : owned (posScope p) (attrTable G as) (writeAttr G a v) i
            = if k = i then writeAttr G a v else [] := by
          unfold owned
          have hm := List.mem_of_getElem? ha
          have h1 : (writeAttr G a v).filter (fun x => !isXmlnsKey x.key) = writeAttr G a v := by
            rw [List.filter_eq_self]
            intro x hx
            rw [writeAttr_keys G a v x hx, (hplain a hm).2]
            rfl
          rw [h1]
          by_cases hki : k = i
          · rw [if_pos hki, List.filter_eq_self]
            intro x hx
            rw [hown k a ha x (writeAttr_keys G a v x hx), hki]
            simp
          · rw [if_neg hki, List.filter_eq_nil_iff]
            intro x hx
            rw [hown k a ha x (writeAttr_keys G a v x hx)]
            simpa using hki
        have happ : owned (posScope p) (attrTable G as) (writeAttrs G (a :: as') (v :: vs')) i
            = owned (posScope p) (attrTable G as) (writeAttr G a v) i
              ++ owned (posScope p) (attrTable G as) (writeAttrs G as' vs') i := by
          simp [owned, writeAttrs]
        rw [happ, hfirst, ih]
        by_cases hki : k = i
        · subst hki
          rw [if_pos rfl, if_neg (by omega), if_pos (Nat.le_refl _), Nat.sub_self]
          simp
        · rw [if_neg hki, List.nil_append]
          by_cases hlt : k + 1 ≤ i
          · rw [if_pos hlt, if_pos (by omega)]
            have : i - k = (i - (k + 1)) + 1 := by omega
            rw [this]
            simp
          · rw [if_neg hlt, if_neg (by omega)]
  have hdsf : ∀ i, owned (posScope p) (attrTable G as) t.attrs i
      = owned (posScope p) (attrTable G as) (writeAttrs G as vs) i := by
    intro i
    rw [ht]
    unfold owned
    rw [List.filter_append, List.filter_append]
    have : ds.filter (fun x => !isXmlnsKey x.key) = [] := by
      rw [List.filter_eq_nil_iff]
      intro x hx
      simp [hds x hx]
    rw [this]
    rfl
  have hforeign : foreign (posScope p) (attrTable G as) t.attrs = [] := by
    unfold foreign
    rw [List.filter_eq_nil_iff]
    intro x hx
    rw [ht, List.filter_append, List.mem_append] at hx
    rcases hx with hx | hx
    · rw [List.mem_filter] at hx
      rw [hds x hx.1] at hx
      exact absurd hx.2 (by simp)
    · rw [List.mem_filter] at hx
      obtain ⟨a, ha, hk⟩ := writeAttrs_keys G as vs x hx.1
      obtain ⟨i, hi⟩ := List.getElem?_of_mem ha
      rw [hown i a hi x hk]
      simp
  have valid : ValidTag (posScope p) (attrTable G as) t.attrs vs := by
    refine ⟨by simpa [attrTable] using hl, ?_, ?_, ?_⟩
    · intro i d hd
      have hi : i < as.length := by
        have := (List.getElem?_eq_some_iff.mp hd).1
        simpa [attrTable] using this
      have ha : as[i]? = some as[i] := List.getElem?_eq_getElem hi
      have hv : vs[i]? = some (vs[i]'(by omega)) := List.getElem?_eq_getElem (by omega)
      have ho := hok i _ _ ha hv
      have hk := key as vs 0 (by simp) hl i
      rw [if_pos (Nat.zero_le i), Nat.sub_zero, ha, hv] at hk
      simp only at hk
      rw [hdsf, hk]
      simp only [attrTable, List.getElem?_map, ha, Option.map_some, Option.some.injEq] at hd
      subst hd
      cases hvi : vs[i]'(by omega) with
      | none =>
        rw [hvi] at ho hv
        left
        exact ⟨rfl, by rw [hv, ho.2], fun h => by rw [ho.1] at h; cases h⟩
      | some x =>
        rw [hvi] at ho hv
        obtain ⟨s, hp, hq⟩ := ho
        right
        refine ⟨⟨as[i].name.text, escape s⟩, x, by simp [writeAttr, hp], ?_, hv⟩
        simp only [C16_attribute_round_trip]
        exact hq
    · intro _ a ha
      rw [hforeign] at ha
      cases ha
    · intro h; cases h
  have := (C07_accepted_iff (posScope p) (attrTable G as) t.attrs vs []).mpr ⟨valid, by
    rw [if_neg (by simp [attrTable])]⟩
  simp [readTag, this]

/-! ## Namespaces -/

/-- The declarations as attributes. -/
def declAttrs (ds : List (Str × Str)) : List Attr :=
  ds.map fun b => ⟨SerHelper.xmlnsKey b.1, b.2⟩

theorem writeAll_spec (l : List (Str × Str)) : ∀ (t : Tag) (h : SerHelper),
    ∃ ds, (writeAll t h l).1 = ⟨t.name, t.attrs ++ declAttrs ds⟩ ∧ (∀ b ∈ ds, b ∈ l) ∧
      (∀ e ∈ (writeAll t h l).2.entries, e ∈ h.entries ∨ (e.pfx, e.ns) ∈ ds) ∧
      (∀ e ∈ h.entries, e ∈ (writeAll t h l).2.entries) ∧
      ∀ b ∈ l, ∃ e ∈ (writeAll t h l).2.entries, (e.pfx, e.ns) = b := by
  induction l with
  | nil =>
    intro t h
    exact ⟨[], by simp [writeAll, declAttrs], by simp, fun e he => Or.inl he, fun e he => he,
      by simp⟩
  | cons b l ih =>
    obtain ⟨p, ns⟩ := b
    intro t h
    -- one `write_xmlns`
    have one : (h.writeXmlns t p ns = (t, h) ∧ ∃ e ∈ h.entries, (e.pfx, e.ns) = (p, ns)) ∨
        h.writeXmlns t p ns = h.addEntry t p ns := by
      unfold SerHelper.writeXmlns
      cases hf : h.entries.find? fun e => e.ns == ns with
      | none => exact Or.inr rfl
      | some e =>
        simp only
        by_cases hp : e.pfx = p
        · rw [if_pos hp]
          have h1 := List.find?_some hf
          simp only [beq_iff_eq] at h1
          exact Or.inl ⟨rfl, e, List.mem_of_find?_eq_some hf, by rw [hp, h1]⟩
        · rw [if_neg hp]; exact Or.inr rfl
    obtain ⟨ds, h1, h2, h3, h4, h5⟩ := ih (h.writeXmlns t p ns).1 (h.writeXmlns t p ns).2
    simp only [writeAll]
    rcases one with ⟨he, e, hm, hb⟩ | he
    · rw [he] at h1 h3 h4 h5 ⊢
      refine ⟨ds, h1, fun b hb => List.mem_cons_of_mem _ (h2 b hb), h3, h4, ?_⟩
      intro b hb'
      rcases List.mem_cons.mp hb' with rfl | hb'
      · exact ⟨e, h4 e hm, hb⟩
      · exact h5 b hb'
    · rw [he] at h1 h3 h4 h5 ⊢
      refine ⟨(p, ns) :: ds, ?_, ?_, ?_, ?_, ?_⟩
      · rw [h1]; simp [SerHelper.addEntry, declAttrs]
      · intro b hb
        rcases List.mem_cons.mp hb with rfl | hb
        · simp
        · exact List.mem_cons_of_mem _ (h2 b hb)
      · intro e hm
        rcases h3 e hm with h | h
        · simp only [SerHelper.addEntry, List.mem_cons] at h
          rcases h with rfl | h
          · right; simp
          · exact Or.inl h
        · right; simp [h]
      · intro e hm
        exact h4 e (by simp [SerHelper.addEntry, hm])
      · intro b hb
        rcases List.mem_cons.mp hb with rfl | hb
        · exact ⟨⟨h.level, p, ns⟩, h4 _ (by simp [SerHelper.addEntry]), rfl⟩
        · exact h5 b hb

theorem isXmlnsKey_decl (key : Str) : isXmlnsKey key = (declPrefix key).isSome := by
  unfold isXmlnsKey declPrefix
  by_cases h : key = xmlnsStr
  · simp [h]
  · rw [if_neg h]
    cases hp : (xmlnsStr ++ [':']).isPrefixOf key <;> simp [h]

/-- The declarations of a tag whose other attributes are none. -/
theorem decls_of (name : Str) (ds : List (Str × Str)) (ws : List Attr)
    (hws : ∀ a ∈ ws, isXmlnsKey a.key = false) :
    Tag.decls ⟨name, declAttrs ds ++ ws⟩ = ds := by
  unfold Tag.decls
  rw [List.filterMap_append]
  have h2 : ws.filterMap (fun a => (declPrefix a.key).map fun p => (p, a.value)) = [] := by
    rw [List.filterMap_eq_nil_iff]
    intro a ha
    have := hws a ha
    rw [isXmlnsKey_decl] at this
    cases hd : declPrefix a.key with
    | none => rfl
    | some p => rw [hd] at this; cases this
  simp only [h2, List.append_nil]
  induction ds with
  | nil => rfl
  | cons b ds ih =>
    simp only [declAttrs, List.map_cons, List.filterMap_cons] at ih ⊢
    rw [declPrefix_xmlnsKey]
    simp only [Option.map_some]
    rw [ih]

theorem lastDecl_consistent (binds : Str → Str) (p : Str) (ds : List (Str × Str))
    (hc : ∀ b ∈ ds, b.1 = p → binds b.1 = b.2) :
    lastDecl p ds = if p ∈ ds.map (·.1) then some (binds p) else none := by
  unfold lastDecl
  have : ∀ (ds : List (Str × Str)) (acc : Option Str), (∀ b ∈ ds, b.1 = p → binds b.1 = b.2) →
      ds.foldl (fun acc d => if d.1 = p then some d.2 else acc) acc
        = if p ∈ ds.map (·.1) then some (binds p) else acc := by
    intro ds
    induction ds with
    | nil => intro acc _; rfl
    | cons b ds ih =>
      intro acc hc
      rw [List.foldl_cons, ih _ (fun x hx => hc x (by simp [hx]))]
      by_cases h1 : p ∈ ds.map (·.1)
      · rw [if_pos h1, if_pos (by rw [List.map_cons]; exact List.mem_cons_of_mem _ h1)]
      · rw [if_neg h1]
        by_cases h2 : b.1 = p
        · rw [if_pos h2, if_pos (by rw [List.map_cons, h2]; simp), ← hc b (by simp) h2, h2]
        · rw [if_neg h2, if_neg]
          rw [List.map_cons, List.mem_cons, not_or]
          exact ⟨fun e => h2 e.symm, h1⟩
  exact this ds none hc

theorem inScope_tag (binds : Str → Str) (p : Str) (t : Tag) (ts : List Tag)
    (hp : p ≠ []) (hc : Agrees binds t.decls) :
    inScope p (t :: ts) = if p ∈ t.decls.map (·.1) then some (binds p) else inScope p ts := by
  simp only [inScope]
  rw [lastDecl_consistent binds p t.decls fun b hb he => (hc b hb (he ▸ hp)).1]
  by_cases h : p ∈ t.decls.map (·.1)
  · rw [if_pos h, if_pos h]
    obtain ⟨b, hb, rfl⟩ := List.mem_map.mp h
    have := hc b hb hp
    simp only
    rw [this.1, if_neg this.2]
  · rw [if_neg h, if_neg h]

/-- What the serializer takes as declared is in scope, apart from the default namespace. -/
def Synced (binds : Str → Str) (h : SerHelper) (ts : List Tag) : Prop :=
  ∀ e ∈ h.entries, e.pfx ≠ [] → binds e.pfx = e.ns ∧ e.ns ≠ [] ∧ inScope e.pfx ts = some e.ns

/-- The prefixes are in scope. -/
def AllInScope (bs : List (Str × Str)) (ts : List Tag) : Prop :=
  ∀ b ∈ bs, b.1 ≠ [] → inScope b.1 ts = some b.2

/-- The tag of a struct: its form, and what it does to the scopes. -/
theorem openTag_synced (G : Schema X) (z : Zer (SSt X) Unit) (k : Nat) (D : StructSpec X) (w : Val X)
    (name : Str) (root : Bool) (h : SerHelper) (binds : Str → Str)
    (hdecl : Agrees binds (D.declares w name root))
    (hkeys : ∀ a ∈ D.attrs, isXmlnsKey a.name.text = false) :
    ∃ (t : Tag) (h1 : SerHelper) (ds : List (Str × Str)),
      (shell G z k D).openTag w name root h = (.ok t, h1) ∧ t.name = name ∧
      t.attrs = declAttrs ds ++ writeAttrs G D.attrs w.attrs ∧
      (∀ ts, Synced binds h ts → Synced binds h1 (t :: ts) ∧
        AllInScope (D.declares w name root) (t :: ts) ∧
        ∀ p ns, p ≠ [] → binds p = ns → inScope p ts = some ns → inScope p (t :: ts) = some ns) := by
  have main : ∃ ds, ((shell G z k D).declare w name root h).1 = ⟨name, declAttrs ds⟩ ∧
      (∀ b ∈ ds, b ∈ D.declares w name root) ∧
      (∀ e ∈ ((shell G z k D).declare w name root h).2.entries, e ∈ h.entries ∨ (e.pfx, e.ns) ∈ ds) ∧
      ∀ b ∈ D.declares w name root,
        ∃ e ∈ ((shell G z k D).declare w name root h).2.entries, (e.pfx, e.ns) = b := by
    unfold Shell.declare
    cases hx : D.xmlns with
    | none =>
      simp only [shell, hx, StructSpec.declares, Option.map_none, Option.getD_none]
      exact ⟨[], rfl, by simp, fun e he => Or.inl he, by simp⟩
    | some f =>
      simp only [shell, hx, Option.map_some, StructSpec.declares, Option.getD_some]
      obtain ⟨ds, h1, h2, h3, _, h5⟩ := writeAll_spec (f w name root) ⟨name, []⟩ h.beginScope
      exact ⟨ds, by simpa using h1, h2, h3, h5⟩
  obtain ⟨ds, h1, h2, h3, h4⟩ := main
  refine ⟨⟨name, declAttrs ds ++ writeAttrs G D.attrs w.attrs⟩,
    ((shell G z k D).declare w name root h).2, ds, ?_, rfl, rfl, ?_⟩
  · unfold Shell.openTag
    simp only [h1]
    rfl
  · have hd : Tag.decls ⟨name, declAttrs ds ++ writeAttrs G D.attrs w.attrs⟩ = ds := by
      apply decls_of
      intro a ha
      obtain ⟨b, hb, hk⟩ := writeAttrs_keys G D.attrs w.attrs a ha
      rw [hk]
      exact hkeys b hb
    have hcons : Agrees binds (Tag.decls ⟨name, declAttrs ds ++ writeAttrs G D.attrs w.attrs⟩) := by
      rw [hd]
      exact fun b hb => hdecl b (h2 b hb)
    intro ts hs
    have mono : ∀ p ns, p ≠ [] → binds p = ns → inScope p ts = some ns →
        inScope p (⟨name, declAttrs ds ++ writeAttrs G D.attrs w.attrs⟩ :: ts) = some ns := by
      intro p ns hp hb hi
      rw [inScope_tag binds p _ ts hp hcons]
      split
      · rw [hb]
      · exact hi
    have sync : Synced binds ((shell G z k D).declare w name root h).2
        (⟨name, declAttrs ds ++ writeAttrs G D.attrs w.attrs⟩ :: ts) := by
      intro e he hp
      rcases h3 e he with h | h
      · obtain ⟨a, b, c⟩ := hs e h hp
        exact ⟨a, b, mono _ _ hp a c⟩
      · have := hdecl _ (h2 _ h) hp
        refine ⟨this.1, this.2, ?_⟩
        rw [inScope_tag binds _ _ ts hp hcons, hd, if_pos (List.mem_map.mpr ⟨_, h, rfl⟩), this.1]
    refine ⟨sync, ?_, mono⟩
    intro b hb hp
    obtain ⟨e, he, rfl⟩ := h4 b hb
    exact (sync e he hp).2.2

/-! ## Embeddings -/

theorem feeds_embed {H C C' V V' : Type} (track : H → Event → H) (d : GDe H C V) (f : C → C')
    (g : C' → Option C) (m : V → V') (hg : ∀ c, g (f c) = some c) {st : Option C} {h : H}
    {evs : List Event} {v : V} (hf : Feeds track d st h evs v) :
    Feeds track (embed d f g m) (st.map f) h evs (m v) := by
  have call : ∀ st h e o, d.call st h e = .ok o → (embed d f g m).call (st.map f) h e
      = .ok (bimap f m o) := by
    intro st h e o ho
    cases st with
    | none =>
      simp only [GDe.call] at ho
      simp [GDe.call, embed, ho, Except.map]
    | some c =>
      simp only [GDe.call] at ho
      simp [GDe.call, embed, hg, ho, Except.map]
  induction hf with
  | last hc => exact .last (call _ _ _ _ hc)
  | step hc hq _ ih => exact .step (call _ _ _ _ hc) hq ih

theorem readsAs_embed {H C C' V V' : Type} {track : H → Event → H} {sim : H → H → Prop}
    {d : GDe H C V} (f : C → C') (g : C' → Option C) (m : V → V') (hg : ∀ c, g (f c) = some c)
    {tag : H → Tag → Prop} {evs : List Event} {v : V} {hd : H}
    (hr : ReadsAs track sim d tag evs v hd) :
    ReadsAs track sim (embed d f g m) tag evs (m v) hd := by
  obtain ⟨e, es, t, h1, h2, h3⟩ := hr
  refine ⟨e, es, t, h1, h2, fun hd' hs => ?_⟩
  obtain ⟨a, b, c⟩ := h3 hd' hs
  exact ⟨a, feeds_embed track d f g m hg b, c⟩

theorem readsAs_tag {H C V : Type} {track : H → Event → H} {sim : H → H → Prop}
    {d : GDe H C V} {tag tag' : H → Tag → Prop} {evs : List Event} {v : V} {hd : H}
    (hr : ReadsAs track sim d tag evs v hd)
    (ht : ∀ hd' e t, sim hd' hd → tagOf e = some t → tag (track hd' e) t → tag' (track hd' e) t) :
    ReadsAs track sim d tag' evs v hd := by
  obtain ⟨e, es, t, h1, h2, h3⟩ := hr
  refine ⟨e, es, t, h1, h2, fun hd' hs => ?_⟩
  obtain ⟨a, b, c⟩ := h3 hd' hs
  exact ⟨ht hd' e t hs h2 a, b, c⟩

theorem emits_map {S S' E : Type} {z : Zer S E} {z' : Zer S' E} (f : S → S')
    (hf : ∀ s h, z'.step (f s) h = SOut.mapS f (z.step s h)) {s : S} {h h' : SerHelper}
    {evs : List Event} (e : z.Emits s h evs h') : z'.Emits (f s) h evs h' := by
  obtain ⟨s1, h1, a, b⟩ := Zer.lift (z' := z') (f := f)
    (by intro s h ev s1 h1 he; simp [hf, he, SOut.mapS])
    (by intro s h s1 h1 he; simp [hf, he, SOut.mapS]) e
  have := a.emits (ys := []) (h3 := h') (.done (by simp [hf, b, SOut.mapS]))
  rwa [List.append_nil] at this

theorem balanced_map {S S' E : Type} {z : Zer S E} {z' : Zer S' E} (f : S → S')
    (hf : ∀ s h, z'.step (f s) h = SOut.mapS f (z.step s h)) {s : S} (b : z.Balanced s) :
    z'.Balanced (f s) := by
  intro h ok
  rcases b h ok with ⟨ns, r⟩ | ⟨evs, r, hd⟩
  · exact Or.inl ⟨ns, emits_map f hf r⟩
  · exact Or.inr ⟨evs, Zer.lift_fails (z' := z') (f := f)
      (by intro s h ev s1 h1 he; simp [hf, he, SOut.mapS])
      (by intro s h s1 h1 he; simp [hf, he, SOut.mapS])
      (by intro s h err h1 he; simp [hf, he, SOut.mapS]) r, hd⟩

theorem ser_simple (G : Schema X) (n k : Nat) (c : CSt X) (h : SerHelper) :
    (ser G (n + 1)).step (.simple k c) h = SOut.mapS (.simple k)
      ((contentZ (fun x _ => .ok (G.print k x)) fun _ => ()).step c h) := rfl

theorem ser_struct (G : Schema X) (n k : Nat) (D : StructSpec X) (hD : G.structs[k]? = some D)
    (s : ShSt (Val X) (FSt (TyRef × Val X) (SSt X))) (h : SerHelper) :
    (ser G (n + 1)).step (.struct k s) h
      = SOut.mapS (.struct k) ((shellZ (shell G (ser G n) k D)).step s h) := by
  simp [ser, hD]

theorem ser_variant (G : Schema X) (n k : Nat) (D : StructSpec X) (hD : G.structs[k]? = some D)
    (s : ShSt (Val X) (FSt (TyRef × Val X) (SSt X))) (h : SerHelper) :
    (ser G (n + 1)).step (.variant k s) h
      = SOut.mapS (.variant k) ((shellZ (groupShell (ser G n) D.body)).step s h) := by
  simp [ser, hD]

/-! ## C14 -/

/-- **C14** for whole documents: whatever the table and the value (well typed or not), the
serializer writes balanced output, or stops with an error. -/
theorem C14_documents_balanced (G : Schema X) (n : Nat) : ∀ (x : TyRef × Val X)
    (name : Option Str) (root : Bool) (s : SSt X), mk x name root = .ok s →
    (ser G n).Balanced s := by
  induction n with
  | zero =>
    intro x name root s _ h ok
    exact Or.inr ⟨[], .fail (err := ()) (h' := h) rfl, rfl⟩
  | succ n ih =>
    intro x name root s hs
    have parts : ∀ (root : Bool) (p : Option (Option Str × FVal (TyRef × Val X))) c,
        enterPart root p = .ok c → (fieldZ mk (ser G n)).Balanced c := by
      intro root p c hc
      cases p with
      | none => cases hc
      | some p => exact C14_field_balanced mk (ser G n) p.1 root p.2 c hc fun v r s hs => ih v _ r s hs
    have none_ : ∀ s', (∀ h, (ser G (n + 1)).step s' h = (.fail (), h)) →
        (ser G (n + 1)).Balanced s' :=
      fun s' hs h ok => Or.inr ⟨[], .fail (hs h), rfl⟩
    obtain ⟨ty, v⟩ := x
    cases ty with
    | simple k =>
      cases v with
      | simple x =>
        simp only [mk, Except.ok.injEq] at hs
        subst hs
        exact balanced_map (SSt.simple k) (ser_simple G n k) (C14_content_balanced _ _ name x)
      | struct as fs => cases hs
      | alt i vs => cases hs
    | struct k =>
      simp only [mk, Except.ok.injEq] at hs
      subst hs
      cases hD : G.structs[k]? with
      | none => exact none_ _ (by intro h; simp [ser, hD])
      | some D =>
        exact balanced_map (SSt.struct k) (ser_struct G n k D hD)
          (C14_generated_balanced _ v _ root fun i c _ hc => parts _ _ c hc)
    | variant k =>
      simp only [mk, Except.ok.injEq] at hs
      subst hs
      cases hD : G.structs[k]? with
      | none => exact none_ _ (by intro h; simp [ser, hD])
      | some D =>
        exact balanced_map (SSt.variant k) (ser_variant G n k D hD)
          (C14_generated_balanced _ v _ root fun i c _ hc => parts _ _ c hc)

/-! ## Positions of the reader -/

/-- Readers with the same open elements around the next element. -/
def simPos (p q : Pos) : Prop := Pos.around p = Pos.around q

theorem around_start (p : Pos) (t : Tag) :
    Pos.around (posTrack p (.start t)) = t :: Pos.around p := rfl

theorem around_empty (p : Pos) (t : Tag) : Pos.around (posTrack p (.empty t)) = Pos.around p := rfl

theorem opened_tag (p : Pos) (e : Event) (t : Tag) (h : tagOf e = some t) :
    (posTrack p e).opened = t :: Pos.around p := by
  cases e <;> simp [tagOf] at h <;> subst h <;> rfl

theorem around_end (p q : Pos) (t : Tag) (n : Str) (h : simPos q (posTrack p (.start t))) :
    simPos (posTrack q (.end_ n)) p := by
  unfold simPos at h ⊢
  rw [around_start] at h
  have : posTrack q (.end_ n) = ⟨Pos.around q, true⟩ := by
    unfold posTrack Pos.after
    have hne : (if q.closing = true then q.opened.tail else q.opened) ≠ [] := by
      show Pos.around q ≠ []
      rw [h]; simp
    simp only [if_neg hne, Option.getD_some]
    rfl
  rw [this]
  show (Pos.around q).tail = _
  rw [h]
  rfl

theorem around_leaf (p : Pos) (e : Event) (h : e.isLeaf = true) :
    Pos.around (posTrack p e) = Pos.around p := by
  cases e <;> first | rfl | simp [Event.isLeaf] at h

theorem around_leaves (evs : List Event) : ∀ p, (∀ e ∈ evs, e.isLeaf = true) →
    Pos.around (evs.foldl posTrack p) = Pos.around p := by
  induction evs with
  | nil => intro p _; rfl
  | cons e evs ih =>
    intro p h
    rw [List.foldl_cons, ih _ (fun x hx => h x (by simp [hx])), around_leaf p e (h e (by simp))]

/-! ## Simple values -/

theorem simple_survives (G : Schema X) (n k : Nat) (x : X) (hx : SimpleOk G k x) (name : Str)
    (sh : SerHelper) :
    ∃ out e rest t, (ser G (n + 1)).Emits (.simple k (.begin (some name) x)) sh out sh ∧
      reread out = some (e :: rest) ∧ tagOf e = some t ∧ t = ⟨name, []⟩ ∧
      ∀ hd, Feeds posTrack (de G (n + 1) (.simple k)) none hd (e :: rest) (.simple x) ∧
        simPos ((e :: rest).foldl posTrack hd) hd := by
  have lift : ∀ {c : CSt X} {h h' : SerHelper} {evs : List Event},
      (contentZ (fun x _ => .ok (G.print k x)) fun _ => ()).Emits c h evs h' →
      (ser G (n + 1)).Emits (.simple k c) h evs h' :=
    fun e => emits_map (SSt.simple k) (ser_simple G n k) e
  have hg : ∀ c : Str, DSt.toSimple (X := X) k (.simple k c) = some c := by
    intro c; simp [DSt.toSimple]
  unfold SimpleOk at hx
  cases hp : G.print k x with
  | none =>
    rw [hp] at hx
    refine ⟨[.empty ⟨name, []⟩], .empty ⟨name, []⟩, [], ⟨name, []⟩, ?_, rfl, rfl, rfl, ?_⟩
    · exact lift (.emit (s' := .done) (h' := sh) (by simp [contentZ, hp]) (.done rfl))
    · intro hd
      refine ⟨?_, around_empty hd _⟩
      have : Feeds posTrack (simpleDe G.num (.value 2) fun _ : Pos => G.parse k) none hd
          [.empty ⟨name, []⟩] x := by
        refine .last (a := false) ?_
        simp only [simpleDe, GDe.call]
        simp only at hx
        rw [hx]
      exact feeds_embed posTrack _ (DSt.simple k) (DSt.toSimple k) Val.simple hg this
  | some s =>
    rw [hp] at hx
    obtain ⟨hc, hparse⟩ := hx
    obtain ⟨evs, _, hr, hch, hl⟩ := reread_text G.num s
    have feeds : ∀ (pieces : List Event) hd, (∀ e ∈ pieces, e.isLeaf = true) →
        charContent G.num pieces = some s →
        Feeds posTrack (de G (n + 1) (.simple k)) none hd
          (.start ⟨name, []⟩ :: (pieces ++ [.end_ name])) (.simple x) ∧
        simPos ((.start ⟨name, []⟩ :: (pieces ++ [.end_ name])).foldl posTrack hd) hd := by
      intro pieces hd hl hch
      constructor
      · exact feeds_embed posTrack _ (DSt.simple k) (DSt.toSimple k) Val.simple hg
          (simple_feeds posTrack G.num (.value 2) (fun _ : Pos => G.parse k) ⟨name, []⟩ name x
            pieces hd s hl hch hparse)
      · rw [List.foldl_cons, List.foldl_append]
        exact around_end hd _ ⟨name, []⟩ name (around_leaves pieces _ hl)
    have first : (contentZ (E := Unit) (fun x _ => .ok (G.print k x)) fun _ => ()).step
        (.begin (some name) x) sh = (.emit (.start ⟨name, []⟩) (.data (some name) s), sh) := by
      simp [contentZ, hp, hc]
    have fin : (contentZ (E := Unit) (fun x _ => .ok (G.print k x)) fun _ => ()).Emits
        (.end_ name) sh [.end_ name] sh := .emit (s' := .done) rfl (.done rfl)
    by_cases hs : s = []
    · refine ⟨[.start ⟨name, []⟩, .end_ name], .start ⟨name, []⟩, [.end_ name], ⟨name, []⟩, ?_,
        rfl, rfl, rfl, ?_⟩
      · exact lift (.emit first (.again (s' := .end_ name) (h' := sh)
          (by simp [contentZ, hs]) fin))
      · intro hd
        exact feeds [] hd (by simp) (by rw [hs]; rfl)
    · refine ⟨[.start ⟨name, []⟩, .text (escape s), .end_ name], .start ⟨name, []⟩,
        evs ++ [.end_ name], ⟨name, []⟩, ?_, ?_, rfl, rfl, ?_⟩
      · exact lift (.emit first (.emit (s' := .end_ name) (h' := sh)
          (by simp [contentZ, hs]) fin))
      · show Option.map _ (reread _) = _
        rw [show [Event.text (escape s), .end_ name] = [.text (escape s)] ++ [.end_ name] from rfl,
          reread_append _ _ _ [.end_ name] hr rfl]
        rfl
      · intro hd
        exact feeds evs hd hl hch


/-! ## The next level -/

theorem posSim : Sim posTrack simPos where
  symm := fun _ _ h => h.symm
  trans := fun _ _ _ h1 h2 => h1.trans h2
  end_ := fun h h1 t n => around_end h h1 t n
  empty := fun h t => around_empty h t
  start := fun h h1 t hs => by unfold simPos at hs ⊢; rw [around_start, around_start, hs]

theorem content_text (G : Schema X) (n j : Nat) (x : X) (hx : SimpleOk G j x) (sh : SerHelper) :
    ∃ out pieces c, (ser G (n + 1)).Emits (.simple j (.begin none x)) sh out sh ∧
      reread out = some pieces ∧ (∀ e ∈ pieces, e.isLeaf = true) ∧
      charContent G.num pieces = some c ∧ G.parse j (trimAscii c) = .ok x := by
  have lift : ∀ {c : CSt X} {h h' : SerHelper} {evs : List Event},
      (contentZ (fun x _ => .ok (G.print j x)) fun _ => ()).Emits c h evs h' →
      (ser G (n + 1)).Emits (.simple j c) h evs h' :=
    fun e => emits_map (SSt.simple j) (ser_simple G n j) e
  unfold SimpleOk at hx
  cases hp : G.print j x with
  | none =>
    rw [hp] at hx
    exact ⟨[], [], [], lift (.done (by simp [contentZ, hp])), rfl, by simp, rfl, hx⟩
  | some s =>
    rw [hp] at hx
    obtain ⟨hc, hparse⟩ := hx
    obtain ⟨evs, _, hr, hch, hl⟩ := reread_text G.num s
    have first : (contentZ (E := Unit) (fun x _ => .ok (G.print j x)) fun _ => ()).step
        (.begin none x) sh = (.again (.data none s), sh) := by
      simp [contentZ, hp, hc]
    by_cases hs : s = []
    · refine ⟨[], [], [], lift (.again first (.again (s' := .done) (h' := sh)
        (by simp [contentZ, hs]) (.done rfl))), rfl, by simp, rfl, ?_⟩
      rw [hs] at hparse
      exact hparse
    · exact ⟨[.text (escape s)], evs, s, lift (.again first (.emit (s' := .done) (h' := sh)
        (by simp [contentZ, hs]) (.done rfl))), hr, hl, hch, hparse⟩

theorem fieldVal_toList (f : FieldSpec) (vs : List (Val X)) :
    (fieldVal f vs).toList = vs.map fun v => (f.ty, v) := by
  unfold fieldVal
  split <;> rfl

theorem depths_mem (vs : List (Val X)) (v : Val X) (h : v ∈ vs) : depth v ≤ depths vs := by
  induction vs with
  | nil => cases h
  | cons x vs ih =>
    simp only [depths]
    rcases List.mem_cons.mp h with rfl | h
    · exact Nat.le_max_left _ _
    · exact Nat.le_trans (ih h) (Nat.le_max_right _ _)

theorem depthss_mem (fs : List (List (Val X))) (vs : List (Val X)) (h : vs ∈ fs) :
    depths vs ≤ depthss fs := by
  induction fs with
  | nil => cases h
  | cons x fs ih =>
    simp only [depthss]
    rcases List.mem_cons.mp h with rfl | h
    · exact Nat.le_max_left _ _
    · exact Nat.le_trans (ih h) (Nat.le_max_right _ _)

theorem depth_field (as : List (Option X)) (fs : List (List (Val X))) (i : Nat) (v : Val X)
    (h : v ∈ fs.getD i []) : depth v < depth (.struct as fs) := by
  simp only [depth]
  cases hi : fs[i]? with
  | none => rw [List.getD_eq_getElem?_getD, hi] at h; cases h
  | some vs =>
    rw [List.getD_eq_getElem?_getD, hi] at h
    have h1 := depths_mem vs v h
    have h2 := depthss_mem fs vs (List.mem_of_getElem? hi)
    omega

theorem depth_alt (i : Nat) (vs : List (Val X)) (v : Val X) (h : v ∈ vs) :
    depth v < depth (.alt i vs) := by
  simp only [depth]
  have := depths_mem vs v h
  omega

theorem known_of_resolvable (avail : List (Str × Str)) (n : QN) (scope : Str → Option Str)
    (hr : Resolvable avail n) (ha : ∀ b ∈ avail, b.1 ≠ [] → scope b.1 = some b.2) : Known scope n := by
  by_cases hp : n.pfx = []
  · exact Or.inl hp
  · rcases hr with h | h
    · exact Or.inl h
    · exact Or.inr fun ns hns => ha _ (h ns hns) hp

theorem want_element {f : FieldSpec} (h : ∀ k, f.ty ≠ .variant k) :
    f.want = some fun p t => f.name.test (posScope p) t.name := by
  unfold FieldSpec.want
  split
  · rename_i k hk; exact absurd hk (h k)
  · rfl

theorem findAlt_none (d : TyRef → GDe Pos (DSt X) (Val X)) (p : Pos) (t : Tag) (alts : List FieldSpec)
    (hn : ∀ f ∈ alts, f.name.test (posScope p) t.name = false) : ∀ i,
    findAlt p t (alts.map (elemField d)) i = none := by
  induction alts with
  | nil => intro i; rfl
  | cons f alts ih =>
    intro i
    have h1 := hn f (by simp)
    have h2 := ih (fun g hg => hn g (by simp [hg])) (i + 1)
    unfold FieldSpec.want at *
    simp only [List.map_cons, findAlt, elemField]
    cases hw : f.want with
    | none => exact h2
    | some w =>
      have : w p t = false := by
        unfold FieldSpec.want at hw
        split at hw
        · cases hw
        · cases hw; exact h1
      simp only [this]
      exact h2

/-- A choice hands back tags that have none of its names. -/
theorem choice_declines (G : Schema X) (d : TyRef → GDe Pos (DSt X) (Val X)) (alts : List FieldSpec)
    (hel : ∀ f ∈ alts, ∀ k, f.ty ≠ .variant k) (p : Pos) (e : Event) (t : Tag) (he : tagOf e = some t)
    (hn : ∀ f ∈ alts, f.name.test (posScope p) t.name = false) :
    ∃ a, (enumTy G d false alts).de.init p e = .ok ⟨.none, .cont e, a⟩ := by
  have h1 : findAlt p t (enumTy G d false alts).alts 0 = none := findAlt_none d p t alts hn 0
  have h2 : ∀ (fs : List FieldSpec) (i : Nat) (any : Bool) st, (∀ f ∈ fs, ∀ k, f.ty ≠ .variant k) →
      (enumTy G d false alts).findGroups p (fs.map (elemField d)) i e any st
        = .ok (.toParent e ((enumTy G d false alts).allowAny || any), .init) := by
    intro fs
    induction fs with
    | nil => intro i any st _; rfl
    | cons f fs ih =>
      intro i any st hf
      have : (elemField d f).want.isSome = true := by
        show f.want.isSome = true
        rw [want_element (hf f (by simp))]
        rfl
      simp only [List.map_cons, EnumTy.findGroups, this, if_true]
      exact ih _ _ _ fun g hg => hf g (by simp [hg])
  have h3 : (enumTy G d false alts).findSuitable p e
      = .ok (.toParent e ((enumTy G d false alts).allowAny || false), .init) := by
    simp only [EnumTy.findSuitable, he, h1]
    exact h2 alts 0 false .unknown hel
  have h4 : (enumTy G d false alts).round p e .init
      = CRound.after ((enumTy G d false alts).findSuitable p e) := by
    cases e <;> first | rfl | cases he
  refine ⟨(enumTy G d false alts).allowAny || false, ?_⟩
  show (enumTy G d false alts).init p e = _
  simp only [EnumTy.init, EnumTy.next, EnumTy.loop, h4, h3]
  rfl

/-- A tag with the name of an element, as the deserializers see it. -/
theorem picks_of (G : Schema X) (good : G.Shape) (n : Nat) (D : StructSpec X) (hD : D ∈ G.structs)
    (i : Nat) (f : FieldSpec) (hf : D.body.elements[i]? = some f) (past : Nat → Prop)
    (hpast : ∀ j g, j < i → D.body.elements[j]? = some g → Exact D g → past j) (p : Pos) (t : Tag)
    (a : FieldSpec) (ha : a ∈ f.expand G) (hk : Means (posScope p) t.name a.name) :
    Picks (D.body.elements.map (elemField (de G (n + 1)))) i past p t := by
  have hplain : Plain a.name := by
    obtain ⟨D', hD', ha'⟩ := mem_elementsOf hD
      (List.mem_flatMap.mpr ⟨f, List.mem_of_getElem? hf, ha⟩)
    exact good.fieldPlain D' hD' a ha'
  refine ⟨?_, ?_⟩
  · intro g' want hg' hw
    rw [List.getElem?_map, hf] at hg'
    simp only [Option.map_some, Option.some.injEq] at hg'
    subst hg'
    change f.want = some want at hw
    by_cases hv : ∃ k, f.ty = .variant k
    · obtain ⟨k, hv⟩ := hv
      simp [FieldSpec.want, hv] at hw
    · have hv' : ∀ k, f.ty ≠ .variant k := fun k h => hv ⟨k, h⟩
      rw [want_element hv'] at hw
      cases hw
      rw [expand_element hv', List.mem_singleton] at ha
      subst ha
      exact test_means _ _ _ hplain hk
  · intro j g' hj hnp hg'
    rw [List.getElem?_map] at hg'
    cases hgj : D.body.elements[j]? with
    | none => rw [hgj] at hg'; cases hg'
    | some g =>
      rw [hgj] at hg'
      simp only [Option.map_some, Option.some.injEq] at hg'
      subst hg'
      have hdist := good.fieldDistinct D hD i j f g hf hgj hj (fun h => hnp (hpast j g hj hgj h)) a ha
      have hother : ∀ b ∈ g.expand G, b.name.test (posScope p) t.name = false := by
        intro b hb
        exact means_other _ _ _ _ hplain hk (hdist b hb)
      by_cases hv : ∃ k, g.ty = .variant k
      · obtain ⟨k, hv⟩ := hv
        obtain ⟨-, D', alts, mn, mx, hD', hb'⟩ := good.tys D hD g (List.mem_of_getElem? hgj) k hv
        rw [expand_group hv hD'] at hother
        have hw : (elemField (de G (n + 1)) g).want = none := by
          show g.want = none
          simp [FieldSpec.want, hv]
        unfold Field.Declines
        rw [hw]
        intro e he
        show ∃ a, (de G (n + 1) g.ty).init p e = _
        rw [hv]
        simp only [de, hD', groupDe, hb', Body.elements]
        rw [hb'] at hother
        obtain ⟨a, h1⟩ := choice_declines G (de G n) alts
          (fun f hf => good.not_variant (List.mem_of_getElem? hD') (by rw [hb']; simp) (by rw [hb']; exact hf)) p e t he hother
        exact ⟨a, by simp only [embed, h1]; rfl⟩
      · have hv' : ∀ k, g.ty ≠ .variant k := fun k h => hv ⟨k, h⟩
        have hw : (elemField (de G (n + 1)) g).want = some fun p t => g.name.test (posScope p) t.name :=
          want_element hv'
        unfold Field.Declines
        rw [hw]
        rw [expand_element hv'] at hother
        exact hother g (by simp)

theorem firstNamed_of {H C V : Type} (fs : List (Field H C V)) (i : Nat) (f : Field H C V)
    (hf : fs[i]? = some f) (hw : f.want.isSome = true) (h : H) (t : Tag)
    (hp : Picks fs i (fun _ => False) h t) : FirstNamed fs i h t := by
  constructor
  · obtain ⟨w, hw⟩ := Option.isSome_iff_exists.mp hw
    exact ⟨f, w, hf, hw, hp.1 f w hf hw⟩
  · intro j g w hj hg hw
    have := hp.2 j g hj (fun h => h) hg
    unfold Field.Declines at this
    rw [hw] at this
    exact this

theorem elemField_get {d : TyRef → GDe Pos (DSt X) (Val X)} {es : List FieldSpec} {i : Nat}
    {g : Field Pos (DSt X) (Val X)} (hg : (es.map (elemField d))[i]? = some g) :
    ∃ f, es[i]? = some f ∧ g = elemField d f := by
  rw [List.getElem?_map] at hg
  cases hf : es[i]? with
  | none => rw [hf] at hg; cases hg
  | some f =>
    rw [hf] at hg
    simp only [Option.map_some, Option.some.injEq] at hg
    exact ⟨f, rfl, hg.symm⟩

/-- `Named` for a variant of a choice. -/
def NamedVariant (G : Schema X) (need : List (Str × Str)) (k : Nat) (v : Val X) : Prop :=
  ∀ D alts mn mx i xs f x, G.structs[k]? = some D → D.body = .choice alts mn mx → v = .alt i xs →
    alts[i]? = some f → x ∈ xs → Named G need f.ty x ∧ ElementNamed G need f x

/-- The tag has the name of an alternative of the choice. -/
def AltTag (G : Schema X) (k : Nat) (p : Pos) (t : Tag) : Prop :=
  ∃ D f, G.structs[k]? = some D ∧ f ∈ D.body.elements ∧ t.name = f.name.text ∧
    Known (posScope p) f.name

/-- What the induction proves. Elements: written with a name that can be resolved, they survive.
Variants of a choice: they survive. -/
structure Level (G : Schema X) (binds : Str → Str) (need : List (Str × Str)) (n : Nat) : Prop where
  element : ∀ (ty : TyRef) (v : Val X) (q : QN) (root : Bool) (sh : SerHelper) (hd : Pos),
    (∀ k, ty ≠ .variant k) → depth v < n → HasTy G ty v →
    sh.Ok → Synced binds sh (Pos.around hd) →
    AllInScope need (Pos.around hd) → Plain q →
    Named G need ty v → Resolvable (need ++ tyDeclares G v q.text root ty) q →
    Agrees binds (tyDeclares G v q.text root ty) → AttrsNamed G need ty v q.text root →
    Survives posTrack simPos mk (ser G n) (de G n ty)
      (fun p t => t.name = q.text ∧ Known (posScope p) q) (some q.text) root (ty, v) v sh hd
  variant : ∀ (k : Nat) (v : Val X) (root : Bool) (sh : SerHelper) (hd : Pos), depth v < n →
    HasTy G (.variant k) v → sh.Ok → Synced binds sh (Pos.around hd) →
    AllInScope need (Pos.around hd) → NamedVariant G need k v →
    Survives posTrack simPos mk (ser G n) (de G n (.variant k)) (AltTag G k) none root
      (.variant k, v) v sh hd

/-- The elements of a content survive, and the deserializer of the content recognises them. -/
theorem element_level (G : Schema X) (binds : Str → Str) (need : List (Str × Str))
    (good : G.Good binds need) (n : Nat) (ih : Level G binds need n) (D : StructSpec X)
    (hmem : D ∈ G.structs) (i : Nat)
    (f : FieldSpec) (hf : D.body.elements[i]? = some f) (x : Val X) (hx : depth x < n)
    (hv : HasTy G f.ty x)
    (root : Bool) (sh : SerHelper) (ok : sh.Ok) (hd : Pos) (hs : Synced binds sh (Pos.around hd))
    (hneed : AllInScope need (Pos.around hd))
    (hnm : (∀ k, f.ty ≠ .variant k) → Named G need f.ty x ∧ ElementNamed G need f x)
    (hnv : ∀ k, f.ty = .variant k → NamedVariant G need k x)
    (past : Nat → Prop)
    (hpast : ∀ j g, j < i → D.body.elements[j]? = some g → Exact D g → past j) :
    Survives posTrack simPos mk (ser G n) (de G n f.ty)
      (Picks (D.body.elements.map (elemField (de G n))) i past)
      (some f.name.text) root (f.ty, x) x sh hd := by
  have hfm := List.mem_of_getElem? hf
  obtain ⟨m, rfl⟩ : ∃ m, n = m + 1 := ⟨n - 1, by omega⟩
  by_cases hvar : ∃ k, f.ty = .variant k
  · obtain ⟨k, hk⟩ := hvar
    have hv' := hv
    rw [hk] at hv'
    obtain ⟨s, out, evs, h1, h2, h3, h4⟩ := ih.variant k x root sh hd hx hv' ok hs hneed (hnv k hk)
    rw [hk]
    refine ⟨s, out, evs, h1, h2, h3, readsAs_tag h4 ?_⟩
    intro hd' e t _ _ ⟨D', a, hD', ha, ht, hkn⟩
    exact picks_of G good.toShape m D hmem i f hf past hpast _ t a
      (by rw [expand_group hk hD']; exact ha)
      (by rw [ht]; exact means_text _ _ (good.fieldPlain D' (List.mem_of_getElem? hD') a ha) hkn)
  · have hne : ∀ k, f.ty ≠ .variant k := fun k h => hvar ⟨k, h⟩
    obtain ⟨hn1, hn2⟩ := hnm hne
    obtain ⟨s, out, evs, h1, h2, h3, h4⟩ := ih.element f.ty x f.name root sh hd
      hne hx hv ok hs hneed (good.fieldPlain D hmem f hfm)
      hn1 (hn2 root).1 (good.decls D hmem f hfm x root)
      (hn2 root).2
    refine ⟨s, out, evs, h1, h2, h3, readsAs_tag h4 ?_⟩
    intro hd' e t _ _ ht
    exact picks_of G good.toShape m D hmem i f hf past hpast _ t f
      (by rw [expand_element hne]; simp)
      (by rw [ht.1]; exact means_text _ _ (good.fieldPlain D hmem f hfm) ht.2)

theorem survives_first {n : Nat} {G : Schema X} {es : List FieldSpec} {i : Nat} {f : FieldSpec}
    (hf : es[i]? = some f) (hne : ∀ k, f.ty ≠ .variant k) {name : Option Str} {root : Bool}
    {u : TyRef × Val X} {x : Val X} {sh : SerHelper} {hd : Pos}
    (hs : Survives posTrack simPos mk (ser G n) (de G n f.ty)
      (Picks (es.map (elemField (de G n))) i fun _ => False) name root u x sh hd) :
    Survives posTrack simPos mk (ser G n) (de G n f.ty)
      (FirstNamed (es.map (elemField (de G n))) i) name root u x sh hd := by
  obtain ⟨s, out, evs, h1, h2, h3, h4⟩ := hs
  refine ⟨s, out, evs, h1, h2, h3, readsAs_tag h4 ?_⟩
  intro hd' e t _ _ ht
  refine firstNamed_of _ i (elemField (de G n) f) (by rw [List.getElem?_map, hf]; rfl) ?_ _ t ht
  show f.want.isSome = true
  rw [want_element hne]
  rfl

/-- Names and values of the fields. -/
def fieldName (es : List FieldSpec) (i : Nat) : Option Str := (es[i]?).map (·.name.text)

def fieldVals (es : List FieldSpec) (fs : List (List (Val X))) (i : Nat) : FVal (TyRef × Val X) :=
  ((es[i]?).map fun f => fieldVal f (fs.getD i [])).getD (.many [])

theorem fieldVals_some (es : List FieldSpec) (fs : List (List (Val X))) (i : Nat) (f : FieldSpec)
    (hf : es[i]? = some f) : (fieldVals es fs i).toList = (fs.getD i []).map fun v => (f.ty, v) := by
  simp [fieldVals, hf, fieldVal_toList]

theorem fieldVals_all (es : List FieldSpec) (fs : List (List (Val X))) (h : fs.length = es.length) :
    ((List.range es.length).map fun i => (fieldVals es fs i).toList.map Prod.snd) = fs := by
  apply List.ext_getElem?
  intro i
  rw [List.getElem?_map]
  by_cases hi : i < es.length
  · rw [List.getElem?_range hi, Option.map_some, fieldVals_some es fs i _ (List.getElem?_eq_getElem hi),
      List.map_map, List.getD_eq_getElem?_getD, List.getElem?_eq_getElem (by omega), Option.getD_some]
    congr 1
    have : (Prod.snd ∘ fun v => (es[i].ty, v)) = (id : Val X → Val X) := rfl
    rw [this, List.map_id]
  · rw [List.getElem?_eq_none (by simpa using hi), List.getElem?_eq_none (by omega)]
    rfl

theorem snd_map (ty : TyRef) (vs : List (Val X)) :
    (vs.map fun v => (ty, v)).map Prod.snd = vs := by
  rw [List.map_map]
  exact List.map_id vs

theorem survives_any {H C V U E S : Type} {track : H → Event → H} {sim : H → H → Prop}
    {create : U → Option Str → Bool → Except E S} {z : Zer S E} {d : GDe H C V}
    {tag : H → Tag → Prop} {name : Option Str} {root : Bool} {u : U} {v : V} {sh : SerHelper} {hd : H}
    (h : Survives track sim create z d tag name root u v sh hd) :
    Survives track sim create z d (fun _ _ => True) name root u v sh hd := by
  obtain ⟨s, out, evs, h1, h2, h3, h4⟩ := h
  exact ⟨s, out, evs, h1, h2, h3, readsAs_tag h4 fun _ _ _ _ _ _ => trivial⟩

theorem struct_survives (G : Schema X) (binds : Str → Str) (need : List (Str × Str))
    (good : G.Good binds need) (n : Nat) (ih : Level G binds need n) (k : Nat)
    (D : StructSpec X) (hD : G.structs[k]? = some D) (v : Val X) (hv : HasTy G (.struct k) v)
    (hnm : Named G need (.struct k) v)
    (hdepth : depth v < n + 1) (name : Str) (root : Bool) (sh : SerHelper) (ok : sh.Ok) (hd : Pos)
    (hs : Synced binds sh (Pos.around hd)) (hag : Agrees binds (D.declares v name root))
    (han : AttrsNamed G need (.struct k) v name root)
    (hneed : AllInScope need (Pos.around hd) ∨
      ∀ b ∈ need, b ∈ D.declares v name root) :
    ∃ out evs t, (ser G (n + 1)).Emits (.struct k (.init v name root)) sh out sh ∧
      reread out = some evs ∧ t.name = name ∧
      AllInScope (need ++ D.declares v name root) (t :: Pos.around hd) ∧
      ReadsAs posTrack simPos (de G (n + 1) (.struct k)) (fun _ t' => t' = t) evs v hd := by
  have hmem := List.mem_of_getElem? hD
  obtain ⟨t, sh1, ds, hopen, hname, hattrs, hscope⟩ := openTag_synced G (ser G n) k D v name root sh
    binds hag (fun a ha => (good.attrPlain D hmem a ha).2)
  obtain ⟨hsync, hdecl, hmono⟩ := hscope (Pos.around hd) hs
  have hneed' : AllInScope need (t :: Pos.around hd) := by
    intro b hb hp
    rcases hneed with h | h
    · exact hmono _ _ hp (good.root b hb hp).1 (h b hb hp)
    · exact hdecl b (h b hb) hp
  have havail : AllInScope (need ++ D.declares v name root) (t :: Pos.around hd) := by
    intro b hb hp
    rcases List.mem_append.mp hb with h | h
    · exact hneed' b h hp
    · exact hdecl b h hp
  have ok1 : sh1.Ok := by
    have := openTag_scope _ _ _ _ _ _ _ hopen
    split at this
    · exact innerOf_ok ok this
    · rw [this]; exact ok
  have hread : ∀ as, v.attrs = as → AttrsOk G D as → ∀ p : Pos, p.opened = t :: Pos.around hd →
      readTag G D.attrs p t = .ok as := by
    intro as has ha p hp
    rw [has] at hattrs
    refine read_written G D.attrs as p t (declAttrs ds) ?_ hattrs (good.attrPlain D hmem) ?_
      (good.attrDistinct D hmem) ha.1 ha.2
    · intro d hd
      simp only [declAttrs, List.mem_map] at hd
      obtain ⟨b, _, rfl⟩ := hd
      rw [isXmlnsKey_decl, declPrefix_xmlnsKey]
      rfl
    · intro a ha
      refine known_of_resolvable _ _ _ (han k D rfl hD a ha) ?_
      intro b hb hne
      show inScope b.1 p.opened = _
      rw [hp]
      exact havail b hb hne
  have hopened : ∀ hd', simPos hd' hd → ∀ e, tagOf e = some t →
      (posTrack hd' e).opened = t :: Pos.around hd := by
    intro hd' hs' e he
    rw [opened_tag hd' e t he, show Pos.around hd' = Pos.around hd from hs']
  have kid : ∀ (es : List FieldSpec), D.body.elements = es → ∀ past i f x r, es[i]? = some f →
      depth x < n → HasTy G f.ty x → ((∀ j, f.ty ≠ .variant j) → Child G (.struct k) v f x) →
      (∀ j, f.ty = .variant j → NamedVariant G need j x) →
      (∀ j g, j < i → es[j]? = some g → Exact D g → past j) →
      Survives posTrack simPos mk (ser G n) (de G n f.ty)
        (Picks (es.map (elemField (de G n))) i past)
        (some f.name.text) r (f.ty, x) x sh1 (posTrack hd (.start t)) := by
    intro es hes past i f x r hf hx hv hc hnv hpast
    subst hes
    exact element_level G binds need good n ih D hmem i f hf x hx hv
      r sh1 ok1 (posTrack hd (.start t)) hsync hneed' (fun h => hnm.child (hc h)) hnv past hpast
  have hde : de G (n + 1) (.struct k) = deBody G (de G n) k D := by simp [de, hD]
  -- it is enough to consider the templates
  suffices main : ∃ out evs, (shellZ (shell G (ser G n) k D)).Emits (.init v name root) sh out sh ∧
      reread out = some evs ∧
      ReadsAs posTrack simPos (deBody G (de G n) k D) (fun _ t' => t' = t) evs v hd by
    obtain ⟨out, evs, h1, h2, h3⟩ := main
    exact ⟨out, evs, t, emits_map (SSt.struct k) (ser_struct G n k D hD) h1, h2, hname, havail,
      by rw [hde]; exact h3⟩
  cases hv with
  | @fields _ D' es as fs hD' ha hb hfl hc hf =>
    rw [hD] at hD'
    cases hD'
    have hes : D.body.elements = es := by rcases hb with hb | hb <;> rw [hb] <;> rfl
    have hmax : ∀ g ∈ es.map (elemField (de G n)), g.max ≠ .bounded 0 := by
      intro g hg
      obtain ⟨f, hfm, rfl⟩ := List.mem_map.mp hg
      exact good.max D hmem f (by rw [hes]; exact hfm)
    have hparts : (shell G (ser G n) k D).parts = es.length := by
      show D.body.parts = _
      rcases hb with hb | hb <;> rw [hb] <;> rfl
    have henter : ∀ i, i < (shell G (ser G n) k D).parts →
        (shell G (ser G n) k D).enter (.struct as fs) root i
          = fieldEnter mk (fieldName es i) false (fieldVals es fs i) := by
      intro i hi
      rw [hparts] at hi
      show enterPart (D.body.forwards && root) (D.body.part k (.struct as fs) i) = _
      rcases hb with hb | hb <;> rw [hb] <;>
        simp [Body.forwards, Body.part, List.getElem?_eq_getElem hi, enterPart, Val.fields,
          fieldName, fieldVals]
    have hcount : ∀ i g, (es.map (elemField (de G n)))[i]? = some g →
        Allows g.min g.max (fieldVals es fs i).toList.length := by
      intro i g hg
      obtain ⟨f, hfi, rfl⟩ := elemField_get hg
      rw [fieldVals_some es fs i f hfi, List.length_map]
      exact hc i f hfi
    have kids : ∀ past i g u r, (es.map (elemField (de G n)))[i]? = some g →
        u ∈ (fieldVals es fs i).toList →
        (∀ j f, j < i → es[j]? = some f → Exact D f → past j) →
        Survives posTrack simPos mk (ser G n) g.de (Picks (es.map (elemField (de G n))) i past)
          (fieldName es i) r u u.2 sh1 (posTrack hd (.start t)) := by
      intro past i g u r hg hu hpast
      obtain ⟨f, hfi, rfl⟩ := elemField_get hg
      rw [fieldVals_some es fs i f hfi] at hu
      obtain ⟨x, hx, rfl⟩ := List.mem_map.mp hu
      have hdx := depth_field as fs i x hx
      have := kid es hes past i f x r hfi (by omega) (hf i f x hfi hx)
        (fun hne => .field hD hb hfi hne hx) (by
          intro j hj D' alts mn mx a xs f' y hD' hb' hxe hf' hy
          subst hxe
          obtain ⟨⟨fs', hseq⟩, -⟩ := good.tys D hmem f (by rw [hes]; exact List.mem_of_getElem? hfi) j hj
          have : fs' = es := by rw [hseq] at hes; exact hes
          subst this
          exact hnm.child (.group hD hseq hfi hj hx hD' hb' hf' hy)) hpast
      show Survives posTrack simPos mk (ser G n) (de G n f.ty) _ _ r (f.ty, x) x sh1 _
      simpa [fieldName, hfi] using this
    have hvals : (Val.struct as fs)
        = Val.struct as ((List.range es.length).map fun i => (fieldVals es fs i).toList.map Prod.snd)
        := by rw [fieldVals_all es fs hfl]
    have hat := hread as rfl ha
    rcases hb with hb | hb
    · obtain ⟨out, evs, h1, h2, h3⟩ := C13_struct_round_trip posTrack simPos posSim
        (seqTy G (de G n) D.attrs es) rfl hmax mk (ser G n) (shell G (ser G n) k D) rfl rfl
        (by rw [hparts]; simp [seqTy]) (.struct as fs) name root (fieldName es) (fun _ => false)
        (fieldVals es fs) Prod.snd henter hcount sh sh1 ok t hopen hd as
        (fun hd' hs' => hat _ (hopened hd' hs' (.start t) rfl))
        (fun hd' hs' => hat _ (hopened hd' hs' (.empty t) rfl))
        (fun i g u r hg hu => kids _ i g u r hg hu (by
          intro j f hj hfj hex g' hg'
          obtain ⟨f', hf', rfl⟩ := elemField_get hg'
          rw [hfj] at hf'
          cases hf'
          have h1 := hc j f hfj
          show f.max = _
          rw [fieldVals_some es fs j f hfj, List.length_map, hex.2]
          have h2 := h1.2 _ hex.2
          have h3 := h1.1
          congr 1
          omega))
      refine ⟨out, evs, h1, h2, ?_⟩
      have hlen : (seqTy G (de G n) D.attrs es).fields.length = es.length := by simp [seqTy]
      rw [hlen] at h3
      rw [hvals]
      unfold deBody
      rw [hb]
      exact readsAs_embed (DSt.seq k) (DSt.toSeq k) id (by intro c; simp [DSt.toSeq]) h3
    · have hne : es ≠ [] := by
        have := good.fits D hmem
        rw [hb] at this
        exact this
      obtain ⟨out, evs, h1, h2, h3⟩ := C13_all_round_trip posTrack simPos posSim
        (seqTy G (de G n) D.attrs es) rfl hmax mk (ser G n) (shell G (ser G n) k D) rfl rfl
        (by rw [hparts]; simp [seqTy])
        (by rw [hparts]; exact fun h => hne (List.eq_nil_of_length_eq_zero h))
        (.struct as fs) name root (fieldName es) (fun _ => false)
        (fieldVals es fs) Prod.snd henter hcount sh sh1 ok t hopen hd as
        (fun hd' hs' => hat _ (hopened hd' hs' (.start t) rfl))
        (fun i g u r hg hu => by
          have := kids (fun _ => False) i g u r hg hu (by
            intro j f _ _ hex
            obtain ⟨fs', h⟩ := hex.1
            rw [hb] at h
            cases h)
          obtain ⟨f, hfi, rfl⟩ := elemField_get hg
          exact survives_first hfi (good.not_variant hmem (by rw [hb]; simp)
            (by rw [hes]; exact List.mem_of_getElem? hfi)) this)
      refine ⟨out, evs, h1, h2, ?_⟩
      have hlen : (seqTy G (de G n) D.attrs es).fields.length = es.length := by simp [seqTy]
      rw [hlen] at h3
      rw [hvals]
      unfold deBody
      rw [hb]
      exact readsAs_embed (DSt.all k) (DSt.toAll k) id (by intro c; simp [DSt.toAll]) h3
  | @choice _ D' alts mn mx as vs hD' ha hb hc hv =>
    rw [hD] at hD'
    cases hD'
    have hfit := good.fits D hmem
    rw [hb] at hfit
    have hat := hread as rfl ha
    obtain ⟨out, evs, h1, h2, h3⟩ := C13_content_round_trip posTrack simPos posSim
      (contentTy G (de G n) D.attrs k mn mx) rfl hfit.1 mk (ser G n) (shell G (ser G n) k D) rfl rfl
      (by show D.body.parts = 1; rw [hb]; rfl) (.struct as [vs]) name root none false
      (fieldVal (contentSpec k mn mx) vs) Prod.snd
      (by
        show enterPart (D.body.forwards && root) (D.body.part k (.struct as [vs]) 0) = _
        rw [hb]
        rfl)
      (by rw [fieldVal_toList, List.length_map]; exact hc)
      sh sh1 ok t hopen hd as (fun hd' hs' => hat _ (hopened hd' hs' (.start t) rfl))
      (by
        intro u r hu
        rw [fieldVal_toList] at hu
        obtain ⟨x, hx, rfl⟩ := List.mem_map.mp hu
        have hdx := depth_field as [vs] 0 x hx
        refine survives_any (ih.variant k x r sh1 (posTrack hd (.start t)) (by omega) (hv x hx) ok1
          hsync hneed' ?_)
        intro D' alts' mn' mx' i xs f y hD' hb' hxe hf hy
        rw [hD] at hD'
        cases hD'
        rw [hb] at hb'
        cases hb'
        subst hxe
        exact hnm.child (.choice hD hb hx hf hy))
    refine ⟨out, evs, h1, h2, ?_⟩
    rw [fieldVal_toList, snd_map] at h3
    unfold deBody
    rw [hb]
    exact readsAs_embed (DSt.choice k) (DSt.toChoice k) id (by intro c; simp [DSt.toChoice]) h3
  | @enum _ D' alts i f vs hD' hb hfi hne hc hv =>
    rw [hD] at hD'
    cases hD'
    have hfit := good.fits D hmem
    rw [hb] at hfit
    have has : D.attrs = [] := hfit
    have hat := hread [] rfl ⟨by rw [has]; rfl, by intro i a v h; rw [has] at h; simp at h⟩
    rw [has] at hat
    have hes : D.body.elements = alts := by rw [hb]; rfl
    obtain ⟨out, evs, h1, h2, h3⟩ := C13_enum_round_trip posTrack simPos posSim
      (enumTy G (de G n) true alts) rfl i (elemField (de G n) f)
      (by show (alts.map _)[i]? = _; rw [List.getElem?_map, hfi]; rfl)
      (good.max D hmem f (by rw [hes]; exact List.mem_of_getElem? hfi)) mk (ser G n)
      (shell G (ser G n) k D) rfl rfl
      (by show D.body.parts = 1; rw [hb]; rfl) (.alt i vs) name root (some f.name.text) root
      (fieldVal f vs) Prod.snd
      (by
        show enterPart (D.body.forwards && root) (D.body.part k (.alt i vs) 0) = _
        rw [hb]
        simp [Body.forwards, Body.part, altPart, hfi, enterPart])
      (by rw [fieldVal_toList]; simpa using hne)
      (by rw [fieldVal_toList, List.length_map]; exact hc)
      sh sh1 ok t hopen hd
      (fun hd' hs' => by
        show (readTag G [] _ t).map _ = _
        rw [hat _ (hopened hd' hs' (.start t) rfl)]
        rfl)
      (by
        intro u r hu
        rw [fieldVal_toList] at hu
        obtain ⟨x, hx, rfl⟩ := List.mem_map.mp hu
        have hdx := depth_alt i vs x hx
        have hne := good.not_variant hmem (by rw [hb]; simp)
          (by rw [hes]; exact List.mem_of_getElem? hfi : f ∈ D.body.elements)
        exact survives_first hfi hne (kid alts hes (fun _ => False) i f x r hfi (by omega) (hv x hx)
          (fun _ => .enum hD hb hfi hx) (fun j hj => absurd hj (hne j))
          (by
            intro j g _ _ hex
            obtain ⟨fs', h⟩ := hex.1
            rw [hb] at h
            cases h)))
    refine ⟨out, evs, h1, h2, ?_⟩
    rw [fieldVal_toList, snd_map] at h3
    unfold deBody
    rw [hb]
    exact readsAs_embed (DSt.enum k) (DSt.toEnum k) id (by intro c; simp [DSt.toEnum]) h3
  | @text _ D' j as x hD' ha hb hx =>
    rw [hD] at hD'
    cases hD'
    have hat := hread as rfl ha
    have hn : ∃ m, n = m + 1 := by
      simp only [depth, depthss, depths] at hdepth
      exact ⟨n - 1, by omega⟩
    obtain ⟨m, rfl⟩ := hn
    obtain ⟨out, pieces, c, h1, h2, h3, h4, h5⟩ := content_text G m j x hx sh1
    have hparts : (shell G (ser G (m + 1)) k D).parts = 1 := by
      show D.body.parts = 1; rw [hb]; rfl
    have hem := shell_emits (shell G (ser G (m + 1)) k D) (.struct as [[.simple x]]) name root sh sh1
      ok t hopen rfl (by rw [hparts]; simp) (fun _ => out) (by
        intro i hi
        have henter : (shell G (ser G (m + 1)) k D).enter (.struct as [[.simple x]]) root i
            = .ok (.one (.simple j (.begin none x))) := by
          show enterPart (D.body.forwards && root) (D.body.part k (.struct as [[.simple x]]) i) = _
          rw [hb]
          rfl
        refine ⟨_, henter, ?_⟩
        obtain ⟨s2, h3, a, b⟩ := Zer.lift (z' := fieldZ mk (ser G (m + 1))) (f := FSt.one)
          (by intro s h ev s1 h1 he; simp [fieldZ, he])
          (by intro s h s1 h1 he; simp [fieldZ, he]) h1
        have := a.emits (ys := []) (h3 := sh1) (.done (by simp [fieldZ, b]))
        rw [List.append_nil] at this
        exact this)
    rw [hparts] at hem
    simp only [List.range_one, List.flatMap_cons, List.flatMap_nil, List.append_nil] at hem
    refine ⟨_, .start t :: (pieces ++ [.end_ t.name]), hem, ?_, ?_⟩
    · show Option.map _ (reread _) = _
      rw [reread_append _ _ _ [.end_ t.name] h2 rfl]
      rfl
    · unfold deBody
      rw [hb]
      refine readsAs_embed (DSt.text k) (DSt.toText k) id (by intro c; simp [DSt.toText]) ?_
      refine ⟨.start t, _, t, rfl, rfl, fun hd' hs' => ⟨rfl, ?_, ?_⟩⟩
      · exact C04_complex_simple_content posTrack (textTy G D.attrs j) hd' t t.name as
          (hat _ (hopened hd' hs' (.start t) rfl)) pieces h3 c h4 x h5
      · rw [List.foldl_cons, List.foldl_append]
        exact around_end hd' _ t t.name (around_leaves pieces _ h3)

theorem variant_survives (G : Schema X) (binds : Str → Str) (need : List (Str × Str))
    (good : G.Good binds need) (n : Nat) (ih : Level G binds need n) (k : Nat) (v : Val X)
    (hv : HasTy G (.variant k) v) (hdepth : depth v < n + 1) (root : Bool) (sh : SerHelper)
    (ok : sh.Ok) (hd : Pos) (hs : Synced binds sh (Pos.around hd))
    (hneed : AllInScope need (Pos.around hd)) (hnm : NamedVariant G need k v) :
    Survives posTrack simPos mk (ser G (n + 1)) (de G (n + 1) (.variant k)) (AltTag G k) none
      root (.variant k, v) v sh hd := by
  cases hv with
  | @variant _ D alts mn mx i f x hD hb hfi hx =>
    have hmem := List.mem_of_getElem? hD
    have hes : D.body.elements = alts := by rw [hb]; rfl
    have hfit := good.fits D hmem
    rw [hb] at hfit
    have hocc := hfit.2 f (List.mem_of_getElem? hfi)
    have hdx := depth_alt i [x] x (by simp)
    have hfm : f ∈ D.body.elements := by rw [hes]; exact List.mem_of_getElem? hfi
    have hne := good.not_variant hmem (by rw [hb]; simp) hfm
    have hnmx := hnm D alts mn mx i [x] f x hD hb rfl hfi (by simp)
    obtain ⟨s, out, evs, h1, h2, h3, h4'⟩ := ih.element f.ty x f.name ((fieldVal f [x]).root false) sh hd
      hne (by omega) hx ok hs hneed (good.fieldPlain D hmem f hfm) hnmx.1 (hnmx.2 _).1
      (good.decls D hmem f hfm x _) (hnmx.2 _).2
    obtain ⟨m, rfl⟩ : ∃ m, n = m + 1 := ⟨n - 1, by omega⟩
    have h4 := readsAs_tag h4' (tag' := fun p t => AltTag G k p t ∧
        FirstNamed (alts.map (elemField (de G (m + 1)))) i p t) (by
      intro hd' e t _ _ ht
      refine ⟨⟨D, f, hD, hfm, ht⟩, ?_⟩
      have := picks_of G good.toShape m D hmem i f (by rw [hes]; exact hfi) (fun _ => False) (by
        intro j g _ _ hex
        obtain ⟨fs', h⟩ := hex.1
        rw [hb] at h
        cases h) _ t f (by rw [expand_element hne]; simp)
        (by rw [ht.1]; exact means_text _ _ (good.fieldPlain D hmem f hfm) ht.2)
      rw [hes] at this
      refine firstNamed_of _ i (elemField (de G (m + 1)) f) (by rw [List.getElem?_map, hfi]; rfl) ?_ _ t this
      show f.want.isSome = true
      rw [want_element hne]
      rfl)
    obtain ⟨c, hc1, hc2⟩ := field_emits mk (ser G (m + 1)) (some f.name.text) false sh (fun _ => out)
      (fieldVal f [x]) (by
        intro u hu
        rw [fieldVal_toList] at hu
        simp only [List.map_cons, List.map_nil, List.mem_singleton] at hu
        subst hu
        exact ⟨s, h1, h2⟩)
    rw [fieldVal_toList] at hc2
    simp only [List.map_cons, List.map_nil, List.flatMap_cons, List.flatMap_nil, List.append_nil]
      at hc2
    have hem := group_emits (groupShell (ser G (m + 1)) D.body) (.alt i [x]) [] root sh rfl (fun _ => out)
      (by
        intro j _
        refine ⟨c, ?_, hc2⟩
        show enterPart false (D.body.groupPart (.alt i [x]) j) = _
        rw [hb]
        show enterPart false (altPart alts (.alt i [x])) = _
        simp only [altPart, hfi, Option.map_some, enterPart]
        exact hc1)
    have hout : (List.range (groupShell (ser G (m + 1)) D.body).parts).flatMap (fun _ => out) = out := by
      simp [groupShell, hb, Body.groupParts]
    rw [hout] at hem
    refine ⟨_, out, evs, rfl, emits_map (SSt.variant k) (ser_variant G (m + 1) k D hD) hem, h3, ?_⟩
    have hde : de G (m + 1 + 1) (.variant k)
        = embed (enumTy G (de G (m + 1)) false alts).de (.variant k) (DSt.toVariant k) id := by
      simp [de, hD, groupDe, hb, Body.elements]
    rw [hde]
    refine readsAs_embed (DSt.variant k) (DSt.toVariant k) id (by intro c; simp [DSt.toVariant]) ?_
    obtain ⟨e, rest, t, rfl, ht, h5⟩ := h4
    refine ⟨e, rest, t, rfl, ht, fun hd' hs' => ?_⟩
    obtain ⟨p1, p2, p3⟩ := h5 hd' hs'
    refine ⟨p1.1, ?_, p3⟩
    refine C12_group_feeds posTrack (enumTy G (de G (m + 1)) false alts) rfl (elemField (de G (m + 1)) f) i
      (by show (alts.map _)[i]? = _; rw [List.getElem?_map, hfi]; rfl) ?_ hd' e rest t ht p1.2 x p2
    show fromOccurs f.min f.max = _ ∨ fromOccurs f.min f.max = _
    rw [hocc.2]
    have : f.min = 0 ∨ f.min = 1 := by have := hocc.1; omega
    rcases this with h | h <;> rw [h]
    · exact Or.inr rfl
    · exact Or.inl rfl

/-- Values of all types survive, by induction on their depth. -/
theorem level_all (G : Schema X) (binds : Str → Str) (need : List (Str × Str))
    (good : G.Good binds need) : ∀ n, Level G binds need n := by
  intro n
  induction n with
  | zero => exact ⟨by intro ty v q root sh hd _ h; omega, by intro k v root sh hd h; omega⟩
  | succ n ih =>
    refine ⟨?_, fun k v root sh hd hdepth hv ok hs hneed hnm =>
      variant_survives G binds need good n ih k v hv hdepth root sh ok hd hs hneed hnm⟩
    intro ty v q root sh hd hnv hdepth hty ok hs hneed hplain hnm hres hag han
    cases ty with
    | simple k =>
      cases hty with
      | @simple _ x hx =>
        obtain ⟨out, e, rest, t, h1, h2, h3, h4, h5⟩ := simple_survives G n k x hx q.text sh
        refine ⟨_, out, e :: rest, rfl, h1, h2, e, rest, t, rfl, h3, fun hd' hs' => ?_⟩
        obtain ⟨h6, h7⟩ := h5 hd'
        refine ⟨⟨by rw [h4], ?_⟩, h6, h7⟩
        refine known_of_resolvable _ _ _ hres ?_
        intro b hb hne
        simp only [tyDeclares, List.append_nil] at hb
        show inScope b.1 (posTrack hd' e).opened = _
        rw [opened_tag hd' e t h3, h4, show Pos.around hd' = Pos.around hd from hs']
        exact hneed b hb hne
    | struct k =>
      have hD : ∃ D, G.structs[k]? = some D := by cases hty <;> exact ⟨_, ‹_›⟩
      obtain ⟨D, hD⟩ := hD
      obtain ⟨out, evs, t, h1, h2, h4, h5, h6⟩ := struct_survives G binds need good n ih k
        D hD v hty hnm hdepth q.text root sh ok hd hs (by simpa [tyDeclares, hD] using hag)
        han (Or.inl hneed)
      refine ⟨_, out, evs, rfl, h1, h2, readsAs_tag h6 ?_⟩
      intro hd' e t' hs' ht he
      subst he
      refine ⟨h4, known_of_resolvable _ _ _ hres ?_⟩
      intro b hb hne
      simp only [tyDeclares, hD, Option.map_some, Option.getD_some] at hb
      show inScope b.1 (posTrack hd' e).opened = _
      rw [opened_tag hd' e _ ht, show Pos.around hd' = Pos.around hd from hs']
      exact h5 b hb hne
    | variant k => exact absurd rfl (hnv k)

/-- **C13.** Every value of every type of a table is read back from the document it is written
to: the serializer succeeds, its output can be read, and the deserializer returns exactly the
value, leaving the rest of the input. The counter `n` only has to exceed the depth of the
value. The root declares the namespaces `need`, and the names that are written for the value can
be resolved. -/
theorem C13_document_round_trip_partial (G : Schema X) (binds : Str → Str)
    (need : List (Str × Str)) (good : G.Good binds need) (k : Nat) (D : StructSpec X)
    (hD : G.structs[k]? = some D) (v : Val X) (hv : HasTy G (.struct k) v)
    (hnm : Named G need (.struct k) v) (name : Str)
    (hneed : ∀ b ∈ need, b ∈ D.declares v name true) (hag : Agrees binds (D.declares v name true))
    (han : AttrsNamed G need (.struct k) v name true) (n : Nat) (hn : depth v < n)
    (rest : List Event) :
    ∃ out evs, (ser G n).Emits (.struct k (.init v name true)) {} out {} ∧
      reread out = some evs ∧
      Drv.run (genEnv posTrack) (de G n (.struct k)).toDeser { helper := {} } (evs ++ rest)
        = .done v rest := by
  cases n with
  | zero => omega
  | succ n =>
    obtain ⟨out, evs, t, h1, h2, _, _, e, r, t', rfl, _, h3⟩ := struct_survives G binds need good n
      (level_all G binds need good n) k D hD v hv hnm hn name true {} (by intro e he; cases he) {}
      (by intro e he; cases he) hag han (Or.inr hneed)
    exact ⟨out, e :: r, h1, h2, (h3 {} rfl).2.1.run rest⟩

end Verif.Gen.Tab

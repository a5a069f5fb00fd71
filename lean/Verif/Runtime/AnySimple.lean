import Verif.Runtime.BuiltIn
import Verif.Runtime.Binary
import Verif.Runtime.Facets
import Verif.Runtime.Maps
import Verif.Runtime.Wrappers

/-!
# Values of `xs:anySimpleType` (C86)

`AnySimpleType`, xsd-parser-types/src/xml/any_simple_type.rs: a value is read according to its
`xsi:type` and written with one.

Parameters: how floating point numbers and decimals are read and printed (Rust std; with the
feature `num` the crate `num`), how the crate `num` reads big integers, and the namespace of a
prefix in scope (C01). The namespaces kept in `Unknown` are left out.
-/

namespace Verif.Rt.AnySimple

open Verif.Rt.BuiltIn

/-! ## Model -/

/-- The variants that hold a text, any_simple_type.rs 58-100. -/
inductive StrKind
  | string | duration | dateTime | time | date | gYearMonth | gYear | gMonthDay | gMonth | gDay
  | anyURI | notat | normalizedString | token | language | nmToken | name | ncName | id | idRef
  | entity
deriving DecidableEq, Repr

/-- The variants that hold a list of texts, any_simple_type.rs 102-104. -/
inductive ListKind
  | nmTokens | idRefs | entities
deriving DecidableEq, Repr

/-- The variants with a fraction, any_simple_type.rs 61-63. -/
inductive FloatKind
  | float | double | decimal
deriving DecidableEq, Repr

/-- The variants of `AnySimpleType` but `Unknown`. -/
inductive Kind
  | str (k : StrKind) | boolean | float (k : FloatKind) | hexBinary | base64Binary | qname
  | int (x : XsInt) | list (k : ListKind)
deriving DecidableEq, Repr

/-- `AnySimpleType`, any_simple_type.rs 52-117. Without the feature `base64` the binary value is a
text. -/
inductive Value (F : Type)
  | str (k : StrKind) (s : Str)
  | boolean (b : Bool)
  | float (k : FloatKind) (v : F)
  | hexBinary (bs : List Byte)
  | base64Binary (bs : List Byte)
  | base64Text (s : Str)
  | qname (q : QName)
  | int (x : XsInt) (v : Int)
  | list (k : ListKind) (items : List Str)
  | unknown (type : Option QName) (content : Str)
deriving DecidableEq

/-- The surroundings: the width of a pointer, the features, what other crates do, and the
namespaces in scope. -/
structure Ctx (F : Type) where
  width : Nat
  num : Bool
  base64 : Bool
  readFloat : FloatKind → Str → Option F
  printFloat : FloatKind → F → Str
  /-- `BigInt::from_str` (`true`) and `BigUint::from_str` (`false`) -/
  readBig : Bool → Str → Option Int
  resolve : Str → Option Str

/-- `match x` in `finish_content`, any_simple_type.rs 454-526. -/
def readTable : List (String × Kind) := [
  ("string", .str .string), ("boolean", .boolean),
  ("float", .float .float), ("double", .float .double), ("decimal", .float .decimal),
  ("duration", .str .duration), ("dateTime", .str .dateTime), ("time", .str .time),
  ("date", .str .date), ("gYearMonth", .str .gYearMonth), ("gYear", .str .gYear),
  ("gMonthDay", .str .gMonthDay), ("gMonth", .str .gMonth), ("gDay", .str .gDay),
  ("hexBinary", .hexBinary), ("base64Binary", .base64Binary),
  ("anyURI", .str .anyURI), ("QName", .qname), ("NOTATION", .str .notat),
  ("integer", .int .integer), ("positiveInteger", .int .positiveInteger),
  ("negativeInteger", .int .negativeInteger), ("nonNegativeInteger", .int .nonNegativeInteger),
  ("nonPositiveInteger", .int .nonPositiveInteger),
  ("long", .int .long), ("int", .int .int), ("short", .int .short), ("byte", .int .byte),
  ("unsignedLong", .int .unsignedLong), ("unsignedInt", .int .unsignedInt),
  ("unsignedShort", .int .unsignedShort), ("unsignedByte", .int .unsignedByte),
  ("normalizedString", .str .normalizedString), ("token", .str .token),
  ("language", .str .language), ("NMTOKEN", .str .nmToken), ("Name", .str .name),
  ("NCName", .str .ncName), ("ID", .str .id), ("IDREF", .str .idRef), ("ENTITY", .str .entity),
  ("NMTOKENS", .list .nmTokens), ("IDREFS", .list .idRefs), ("ENTITIES", .list .entities)]

/-- Which arm of the match is taken. -/
def kindOf (l : Str) : Option Kind := (readTable.find? fun x => x.1.toList = l).map (·.2)

/-- The type in a variant with an integer, any_simple_type.rs 33-43, 81-95. -/
def rustInt : XsInt → RustInt
  | .integer | .negativeInteger | .nonPositiveInteger => .isize
  | .positiveInteger | .nonNegativeInteger => .usize
  | .long => .i64
  | .int => .i32
  | .short => .i16
  | .byte => .i8
  | .unsignedLong => .u64
  | .unsignedInt => .u32
  | .unsignedShort => .u16
  | .unsignedByte => .u8

/-- The types that are big integers with the feature `num`. -/
def isBig : XsInt → Bool
  | .integer | .negativeInteger | .nonPositiveInteger | .positiveInteger | .nonNegativeInteger => true
  | _ => false

/-- `bool::from_str` (Rust std). -/
def rustBool (s : Str) : Option Bool :=
  if s = "true".toList then some true else if s = "false".toList then some false else none

/-- The loop of `split_whitespace`: the second argument is the current word, reversed. -/
def splitGo : Str → Str → List Str
  | [], cur => if cur = [] then [] else [cur.reverse]
  | c :: cs, cur =>
    if isUnicodeWs c then (if cur = [] then splitGo cs [] else cur.reverse :: splitGo cs [])
    else splitGo cs (c :: cur)

/-- `parse_vec`, any_simple_type.rs 620-625 (`str::split_whitespace`). -/
def splitWords (s : Str) : List Str := splitGo s []

section
variable {F : Type}

def ofOption (x : Option (Value F)) : Res (Value F) :=
  match x with
  | some v => .ok v
  | none => .err

/-- The arms of the match, any_simple_type.rs 455-526. -/
def readKind (C : Ctx F) (s : Str) : Kind → Res (Value F)
  | .str k => .ok (.str k s)
  | .boolean => ofOption ((rustBool s).map .boolean)
  | .float k => ofOption ((C.readFloat k s).map (.float k))
  | .hexBinary =>
    match anyHexDecode s with
    | .ok bs => .ok (.hexBinary bs)
    | .err => .err
    | .panic => .panic
  | .base64Binary =>
    if C.base64 then ofOption ((b64Decode s).map .base64Binary) else .ok (.base64Text s)
  | .qname => .ok (.qname ⟨s, C.resolve s⟩)
  | .int x =>
    ofOption ((if C.num && isBig x then C.readBig (rustInt x).signed s
      else parseInt C.width (rustInt x) s).map (.int x))
  | .list k => .ok (.list k (splitWords s))

/-- `finish_content`, any_simple_type.rs 432-534. -/
def finishContent (C : Ctx F) (type : Option Str) (s : Str) : Res (Value F) :=
  match type with
  | none => .ok (.unknown none s)
  | some raw =>
    match kindOf (localName raw) with
    | some k => readKind C s k
    | none => .ok (.unknown (some ⟨raw, C.resolve raw⟩) s)

/-- The loop over the attributes in `init`, any_simple_type.rs 556-566; `isType` says which keys
are the name `type` in the namespace of XML Schema instances. -/
def readType (isType : Str → Bool) : List Attr → Option Str → Option (Option Str)
  | [], t => some t
  | a :: as, t =>
    if isType a.key then (if t.isSome then none else readType isType as (some a.value))
    else readType isType as t

/-- The variant of a value. -/
def Value.kind : Value F → Option Kind
  | .str k _ => some (.str k)
  | .boolean _ => some .boolean
  | .float k _ => some (.float k)
  | .hexBinary _ => some .hexBinary
  | .base64Binary _ | .base64Text _ => some .base64Binary
  | .qname _ => some .qname
  | .int x _ => some (.int x)
  | .list k _ => some (.list k)
  | .unknown .. => none

/-- The names in `AnySimpleTypeSerializer::next`, any_simple_type.rs 274-358, without the
prefix. -/
def writeName : Kind → String
  | .str .string => "string"
  | .boolean => "boolean"
  | .float .float => "float"
  | .float .double => "double"
  | .float .decimal => "decimal"
  | .str .duration => "duration"
  | .str .dateTime => "dateTime"
  | .str .time => "time"
  | .str .date => "date"
  | .str .gYearMonth => "gYearMonth"
  | .str .gYear => "gYear"
  | .str .gMonthDay => "gMonthDay"
  | .str .gMonth => "gMonth"
  | .str .gDay => "gDay"
  | .hexBinary => "hexBinary"
  | .base64Binary => "base64Binary"
  | .str .anyURI => "anyURI"
  | .qname => "QName"
  | .str .notat => "NOTATION"
  | .int .integer => "integer"
  | .int .positiveInteger => "positiveInteger"
  | .int .negativeInteger => "negativeInteger"
  | .int .nonNegativeInteger => "nonNegativeInteger"
  | .int .nonPositiveInteger => "nonPositiveInteger"
  | .int .long => "long"
  | .int .int => "int"
  | .int .short => "short"
  | .int .byte => "byte"
  | .int .unsignedLong => "unsignedLong"
  | .int .unsignedInt => "unsignedInt"
  | .int .unsignedShort => "unsignedShort"
  | .int .unsignedByte => "unsignedByte"
  | .str .normalizedString => "normalizedString"
  | .str .token => "token"
  | .str .language => "language"
  | .str .nmToken => "NMTOKEN"
  | .str .name => "Name"
  | .str .ncName => "NCName"
  | .str .id => "ID"
  | .str .idRef => "IDREF"
  | .str .entity => "ENTITY"
  | .list .nmTokens => "NMTOKENS"
  | .list .idRefs => "IDREFS"
  | .list .entities => "ENTITIES"

/-- `to_str`, any_simple_type.rs 126-185, and the content written, 274-367. -/
def Value.text (C : Ctx F) : Value F → Str
  | .str _ s => s
  | .boolean b => formatBool b
  | .float k v => C.printFloat k v
  | .hexBinary bs => anyHexEncode bs
  | .base64Binary bs => b64Encode bs
  | .base64Text s => s
  | .qname q => q.raw
  | .int _ v => displayInt v
  | .list _ items => joinBlank items
  | .unknown _ s => s

/-- The namespace of XML Schema, `Namespace::XS`. -/
def xsNs : Str := "http://www.w3.org/2001/XMLSchema".toList

/-- What precedes the first colon of a name, qname.rs 101-111. -/
def prefixOf (s : Str) : Str := if ':' ∈ s then s.takeWhile fun c => c != ':' else []

/-- The type that is written: prefix, namespace and local name, any_simple_type.rs 274-376. -/
def Value.type : Value F → Option (Str × Option Str × Str)
  | .unknown none _ => none
  | .unknown (some q) _ => some (prefixOf q.raw, q.ns, localName q.raw)
  | v => v.kind.map fun k => (['x', 's'], some xsNs, (writeName k).toList)

/-- The events that `AnySimpleTypeSerializer` writes (`C14_any_simple_type_leaks_scope`). -/
def write (C : Ctx F) (name : Str) (v : Value F) (h : SerHelper) : List Event :=
  [.start (anyTag name v.type h).1, .text (escape (v.text C)), .end_ name]

/-- **C86** These are the events of the serializer. -/
theorem C86_written {E : Type} (C : Ctx F) (name : Str) (v : Value F) (h : SerHelper) :
    (anySimpleZ (E := E)).Emits (.begin name v.type (v.text C)) h (write C name v h)
      (anyTag name v.type h).2 :=
  .emit rfl (.emit rfl (.emit rfl (.done rfl)))

/-! ## Specification -/

/-- No white space (ASCII) at either end. -/
def Trimmed (s : Str) : Prop :=
  (∀ c, s.head? = some c → isAsciiWs c = false) ∧ ∀ c, s.getLast? = some c → isAsciiWs c = false

/-- The values that can be written down so that they can be read. -/
def Value.Fits (C : Ctx F) : Value F → Prop
  | .str _ s => Trimmed s
  | .boolean _ => True
  | .float k v => C.readFloat k (C.printFloat k v) = some v ∧ Trimmed (C.printFloat k v)
  | .hexBinary _ => True
  | .base64Binary _ => C.base64 = true
  | .base64Text s => C.base64 = false ∧ Trimmed s
  | .qname q => Trimmed q.raw ∧ C.resolve q.raw = q.ns
  | .int x v => if C.num && isBig x then C.readBig (rustInt x).signed (displayInt v) = some v
    else (rustInt x).lo C.width ≤ v ∧ v ≤ (rustInt x).hi C.width
  | .list _ items => ∀ t ∈ items, t ≠ [] ∧ ∀ c ∈ t, isUnicodeWs c = false
  | .unknown _ s => Trimmed s

/-! ## Names -/

/-- **C86** Every variant is written with a name that stands for this variant when it is read. -/
theorem C86_names_agree (k : Kind) : kindOf (writeName k).toList = some k := by
  cases k with
  | str k => cases k <;> decide
  | boolean => decide
  | float k => cases k <;> decide
  | hexBinary => decide
  | base64Binary => decide
  | qname => decide
  | int x => cases x <;> decide
  | list k => cases k <;> decide

/-- **C86** The names are those of XML Schema for the integers. -/
theorem C86_integer_names (x : XsInt) : writeName (.int x) = x.name := by cases x <;> rfl

theorem kindOf_some {l : Str} {k : Kind} (h : kindOf l = some k) : l = (writeName k).toList := by
  unfold kindOf at h
  rw [Option.map_eq_some_iff] at h
  obtain ⟨x, hx, rfl⟩ := h
  have hm := List.mem_of_find?_eq_some hx
  have hp := List.find?_some hx
  simp only [decide_eq_true_eq] at hp
  subst hp
  have hall : ∀ x ∈ readTable, x.1 = writeName x.2 := by decide
  rw [hall x hm]

theorem readKind_kind {C : Ctx F} {s : Str} {k : Kind} {v : Value F} (h : readKind C s k = .ok v) :
    v.kind = some k := by
  have hopt : ∀ (o : Option (Value F)) v, ofOption o = .ok v → o = some v := by
    intro o v h
    cases o with
    | none => simp [ofOption] at h
    | some x => simp only [ofOption, Res.ok.injEq] at h; rw [h]
  cases k with
  | str k => simp only [readKind, Res.ok.injEq] at h; subst h; rfl
  | boolean =>
    simp only [readKind] at h
    obtain ⟨b, -, rfl⟩ := Option.map_eq_some_iff.1 (hopt _ _ h)
    rfl
  | float k =>
    simp only [readKind] at h
    obtain ⟨b, -, rfl⟩ := Option.map_eq_some_iff.1 (hopt _ _ h)
    rfl
  | hexBinary =>
    simp only [readKind] at h
    split at h
    · cases h; rfl
    · cases h
    · cases h
  | base64Binary =>
    simp only [readKind] at h
    split at h
    · obtain ⟨b, -, rfl⟩ := Option.map_eq_some_iff.1 (hopt _ _ h)
      rfl
    · cases h; rfl
  | qname => simp only [readKind, Res.ok.injEq] at h; subst h; rfl
  | int x =>
    simp only [readKind] at h
    obtain ⟨b, -, rfl⟩ := Option.map_eq_some_iff.1 (hopt _ _ h)
    rfl
  | list k => simp only [readKind, Res.ok.injEq] at h; subst h; rfl

/-- **C86** What is read is of the type that is named: if the value has a known type, then the
local name of `xsi:type` is its name; otherwise the type and the text are kept. -/
theorem C86_type_read (C : Ctx F) (type : Option Str) (s : Str) (v : Value F)
    (h : finishContent C type s = .ok v) :
    (∀ k, v.kind = some k → ∃ raw, type = some raw ∧ localName raw = (writeName k).toList) ∧
    (v.kind = none → v = .unknown (type.map fun raw => ⟨raw, C.resolve raw⟩) s) := by
  unfold finishContent at h
  cases type with
  | none =>
    simp only [Res.ok.injEq] at h
    subst h
    exact ⟨(fun k hk => by cases hk), fun _ => rfl⟩
  | some raw =>
    simp only at h
    cases hk : kindOf (localName raw) with
    | none =>
      rw [hk] at h
      simp only [Res.ok.injEq] at h
      subst h
      exact ⟨(fun k hk => by cases hk), fun _ => rfl⟩
    | some k =>
      rw [hk] at h
      have := readKind_kind h
      rw [this]
      constructor
      · rintro k' ⟨⟩
        exact ⟨raw, rfl, kindOf_some hk⟩
      · intro h; cases h

/-! ## Words -/

theorem splitGo_tokens : ∀ (s cur : Str), (∀ c ∈ cur, isUnicodeWs c = false) →
    Tokens isUnicodeWs (cur.reverse ++ s) (splitGo s cur) := by
  intro s
  induction s with
  | nil =>
    intro cur hc
    simp only [splitGo]
    by_cases h : cur = []
    · subst h
      rw [if_pos rfl]
      exact .blank _ (by simp)
    · rw [if_neg h]
      have := Tokens.token (p := isUnicodeWs) [] cur.reverse [] [] (by simp) (by simpa using h)
        (by simpa using hc) (by simp) (.blank _ (by simp))
      simpa using this
  | cons c s ih =>
    intro cur hc
    simp only [splitGo]
    by_cases hw : isUnicodeWs c = true
    · rw [if_pos hw]
      have h0 := ih [] (by simp)
      simp only [List.reverse_nil, List.nil_append] at h0
      have hcons : Tokens isUnicodeWs (c :: s) (splitGo s []) := by
        generalize splitGo s [] = ts at h0
        cases h0 with
        | blank _ h => exact .blank _ (by simp only [List.mem_cons]; rintro x (rfl | hx); exact hw; exact h x hx)
        | token pre t s' ts hpre ht htok hs h =>
          have := Tokens.token (p := isUnicodeWs) (c :: pre) t s' ts
            (by simp only [List.mem_cons]; rintro x (rfl | hx); exact hw; exact hpre x hx) ht htok hs h
          simpa using this
      by_cases h : cur = []
      · subst h
        rw [if_pos rfl]
        simpa using hcons
      · rw [if_neg h]
        have := Tokens.token (p := isUnicodeWs) [] cur.reverse (c :: s) _ (by simp) (by simpa using h)
          (by simpa using hc) (by rintro x ⟨⟩; exact hw) hcons
        simpa using this
    · rw [if_neg hw]
      have := ih (c :: cur) (by
        simp only [List.mem_cons]
        rintro x (rfl | hx)
        · simpa using hw
        · exact hc x hx)
      simpa using this

/-- **C86** Lists are read as the words of the text. -/
theorem C86_words (s : Str) : Tokens isUnicodeWs s (splitWords s) :=
  splitGo_tokens s [] (by simp)

theorem splitGo_word : ∀ (t : Str) (cur s : Str), (∀ c ∈ t, isUnicodeWs c = false) →
    splitGo (t ++ s) cur = splitGo s (t.reverse ++ cur) := by
  intro t
  induction t with
  | nil => intro cur s _; rfl
  | cons c t ih =>
    intro cur s h
    simp only [List.cons_append, splitGo]
    rw [if_neg (by simp [h c List.mem_cons_self]), ih _ _ fun x hx => h x (List.mem_cons_of_mem _ hx)]
    simp

theorem splitWords_join : ∀ (items : List Str),
    (∀ t ∈ items, t ≠ [] ∧ ∀ c ∈ t, isUnicodeWs c = false) → splitWords (joinBlank items) = items := by
  intro items
  induction items with
  | nil => intro _; rfl
  | cons t ts ih =>
    intro h
    obtain ⟨hne, hw⟩ := h t List.mem_cons_self
    have ih' := ih fun x hx => h x (List.mem_cons_of_mem _ hx)
    have hrev : t.reverse ≠ [] := by simpa using hne
    unfold splitWords at ih' ⊢
    cases ts with
    | nil =>
      show splitGo t [] = [t]
      have := splitGo_word t [] [] hw
      rw [List.append_nil] at this
      rw [this]
      simp [splitGo, hne]
    | cons u us =>
      show splitGo (t ++ ' ' :: joinBlank (u :: us)) [] = _
      rw [splitGo_word t [] _ hw, List.append_nil]
      have hsp : isUnicodeWs ' ' = true := by decide
      simp only [splitGo, hsp, if_true]
      rw [if_neg hrev, List.reverse_reverse, ih']

/-! ## Round trip -/

theorem trim_of {s : Str} (h : Trimmed s) : trimAscii s = s := C16_trimmed_text_unchanged s h.1 h.2

theorem trimmed_of {s : Str} (h : ∀ c ∈ s, isAsciiWs c = false) : Trimmed s :=
  ⟨fun c hc => h c (List.mem_of_head? hc), fun c hc => h c (List.mem_of_getLast? hc)⟩

theorem ascii_unicode (c : Char) (h : isUnicodeWs c = false) : isAsciiWs c = false := by
  cases hc : isAsciiWs c with
  | false => rfl
  | true =>
    exfalso
    simp only [isAsciiWs, Bool.or_eq_true, beq_iff_eq] at hc
    rcases hc with (((rfl | rfl) | rfl) | rfl) | rfl <;> revert h <;> decide

theorem localName_join (p l : Str) (hp : ':' ∉ p) (hl : ':' ∉ l) : localName (joinName p l) = l := by
  unfold joinName
  split
  · unfold localName; rw [if_neg hl]
  · unfold localName
    rw [if_pos (by simp)]
    have : ∀ q : Str, ':' ∉ q → ((q ++ ':' :: l).dropWhile fun c => c != ':') = ':' :: l := by
      intro q
      induction q with
      | nil => intro _; simp
      | cons c q ih =>
        intro h
        simp only [List.mem_cons, not_or] at h
        have hc : (c != ':') = true := by simpa using fun e : c = ':' => h.1 e.symm
        rw [List.cons_append, List.dropWhile_cons, if_pos hc]
        exact ih h.2
    rw [this p hp]
    rfl

theorem join_trimmed (items : List Str)
    (h : ∀ t ∈ items, t ≠ [] ∧ ∀ c ∈ t, isUnicodeWs c = false) : Trimmed (joinBlank items) := by
  constructor
  · intro c hc
    cases items with
    | nil => cases hc
    | cons t ts =>
      obtain ⟨hne, hw⟩ := h t List.mem_cons_self
      cases t with
      | nil => exact absurd rfl hne
      | cons x t =>
        have : (joinBlank ((x :: t) :: ts)).head? = some x := by cases ts <;> rfl
        rw [this] at hc
        cases hc
        exact ascii_unicode _ (hw _ List.mem_cons_self)
  · induction items with
    | nil => intro c hc; cases hc
    | cons t ts ih =>
      intro c hc
      obtain ⟨hne, hw⟩ := h t List.mem_cons_self
      cases ts with
      | nil => exact ascii_unicode _ (hw _ (List.mem_of_getLast? hc))
      | cons u us =>
        have hne' : joinBlank (u :: us) ≠ [] := by
          obtain ⟨hu, -⟩ := h u (by simp)
          cases u with
          | nil => exact absurd rfl hu
          | cons x u => cases us <;> simp [joinBlank]
        refine ih (fun x hx => h x (List.mem_cons_of_mem _ hx)) c ?_
        have : joinBlank (t :: u :: us) = t ++ ' ' :: joinBlank (u :: us) := rfl
        rw [this, List.getLast?_append] at hc
        cases hl : (joinBlank (u :: us)).getLast? with
        | none => exact absurd (List.getLast?_eq_none_iff.1 hl) hne'
        | some y =>
          have : (' ' :: joinBlank (u :: us)).getLast? = some y := by
            rw [List.getLast?_cons, hl]; rfl
          rw [this] at hc
          simpa using hc

theorem hex_trimmed (bs : List Byte) : Trimmed (anyHexEncode bs) := by
  apply trimmed_of
  intro c hc
  obtain ⟨b, -, hc⟩ := List.mem_flatMap.1 hc
  have hd : ∀ d : Fin 16, isAsciiWs (hexUpper d.val) = false := by decide
  simp only [List.mem_cons, List.not_mem_nil, or_false] at hc
  rcases hc with rfl | rfl
  · exact hd ⟨b.val / 16, by omega⟩
  · exact hd ⟨b.val % 16, by omega⟩

theorem b64_trimmed (bs : List Byte) : Trimmed (b64Encode bs) := by
  apply trimmed_of
  have hd : ∀ d : Fin 64, isAsciiWs (b64Char d.val) = false := by decide +kernel
  have hn : ∀ n, n < 64 → isAsciiWs (b64Char n) = false := fun n h => hd ⟨n, h⟩
  have he : isAsciiWs '=' = false := by decide
  fun_induction b64Encode bs with
  | case1 => intro c hc; cases hc
  | case2 a =>
    intro c hc
    simp only [List.mem_cons, List.not_mem_nil, or_false] at hc
    rcases hc with rfl | rfl | rfl | rfl
    · exact hn _ (by omega)
    · exact hn _ (by omega)
    · exact he
    · exact he
  | case3 a b =>
    intro c hc
    simp only [List.mem_cons, List.not_mem_nil, or_false] at hc
    rcases hc with rfl | rfl | rfl | rfl
    · exact hn _ (by omega)
    · exact hn _ (by omega)
    · exact hn _ (by omega)
    · exact he
  | case4 a b c r ih =>
    intro x hx
    simp only [List.mem_cons] at hx
    rcases hx with rfl | rfl | rfl | rfl | hx
    · exact hn _ (by omega)
    · exact hn _ (by omega)
    · exact hn _ (by omega)
    · exact hn _ (by omega)
    · exact ih x hx

theorem parse_display (w : Nat) (t : RustInt) (v : Int) (h1 : t.lo w ≤ v) (h2 : v ≤ t.hi w) :
    parseInt w t (displayInt v) = some v := by
  have := (C70_round_trip w (fun _ _ => none) t v h1 h2).1
  have ht : trimAscii (displayInt v) = displayInt v := trim_of (trimmed_of (displayInt_lex v).no_space)
  simp only [Target.element, ht, Target.parse, Option.map_eq_some_iff, Val.int.injEq] at this
  obtain ⟨u, hu, rfl⟩ := this
  exact hu

theorem readKind_text (C : Ctx F) (v : Value F) (k : Kind) (hk : v.kind = some k) (hf : v.Fits C) :
    readKind C (trimAscii (v.text C)) k = .ok v := by
  cases v with
  | str k' s => cases hk; simp only [Value.text, trim_of hf, readKind]
  | boolean b =>
    cases hk
    cases b
    · rfl
    · rfl
  | float k' v =>
    cases hk
    simp only [Value.text, trim_of hf.2, readKind, hf.1, Option.map_some, ofOption]
  | hexBinary bs =>
    cases hk
    simp only [Value.text, trim_of (hex_trimmed bs), readKind, C17_any_hex_round_trip]
  | base64Binary bs =>
    cases hk
    have hb : C.base64 = true := hf
    simp only [Value.text, trim_of (b64_trimmed bs), readKind, hb, if_true, C17_base64_round_trip,
      Option.map_some, ofOption]
  | base64Text s =>
    cases hk
    have hb : C.base64 = false := hf.1
    simp only [Value.text, trim_of hf.2, readKind, hb, Bool.false_eq_true, if_false]
  | qname q =>
    cases hk
    simp only [Value.text, trim_of hf.1, readKind, hf.2]
  | int x v =>
    cases hk
    have ht : trimAscii (displayInt v) = displayInt v := trim_of (trimmed_of (displayInt_lex v).no_space)
    simp only [Value.text, ht, readKind]
    have hf : if C.num && isBig x then C.readBig (rustInt x).signed (displayInt v) = some v
      else (rustInt x).lo C.width ≤ v ∧ v ≤ (rustInt x).hi C.width := hf
    by_cases hb : (C.num && isBig x) = true
    · rw [if_pos hb] at hf ⊢
      rw [hf]
      rfl
    · rw [if_neg hb] at hf ⊢
      rw [parse_display _ _ _ hf.1 hf.2]
      rfl
  | list k' items =>
    cases hk
    simp only [Value.text, trim_of (join_trimmed items hf), readKind, splitWords_join items hf]
  | unknown t s => cases hk

/-- What `AnySimpleTypeDeserializer` hands to the reader of contents; a panic counts as an
error here. -/
def asExcept {E : Type} (bad : E) : Res (Value F) → Except E (Value F)
  | .ok v => .ok v
  | _ => .error bad

/-- `AnySimpleTypeDeserializer` after the start tag, any_simple_type.rs 404-429, 568-588: the
reader of contents (C04) with the type found in the tag. -/
def deser {H E : Type} (C : Ctx F) (num : Str → Option Str) (bad : E) (type : Option Str) :
    Deser H E (Value F) :=
  contentDeser num bad fun _ s => asExcept bad (finishContent C type s)

theorem writeXmlns_attrs (h : SerHelper) (t : Tag) (p ns : Str) :
    ∃ ds, (h.writeXmlns t p ns).1 = ⟨t.name, t.attrs ++ ds⟩ ∧
      ∀ a ∈ ds, ∃ p, a.key = SerHelper.xmlnsKey p := by
  have hadd : ∃ ds, (h.addEntry t p ns).1 = ⟨t.name, t.attrs ++ ds⟩ ∧
      ∀ a ∈ ds, ∃ p, a.key = SerHelper.xmlnsKey p :=
    ⟨_, rfl, fun a ha => by rw [List.mem_singleton] at ha; exact ⟨p, by rw [ha]⟩⟩
  have hsame : ∃ ds, t = ⟨t.name, t.attrs ++ ds⟩ ∧ ∀ a ∈ ds, ∃ p, a.key = SerHelper.xmlnsKey p :=
    ⟨[], by rw [List.append_nil], by simp⟩
  unfold SerHelper.writeXmlns
  split
  · split
    · exact hsame
    · exact hadd
  · exact hadd

theorem anyTag_some (name p l : Str) (ns : Option Str) (h : SerHelper) :
    ∃ ds p', (anyTag name (some (p, ns, l)) h).1 = ⟨name, ds ++ [⟨xsiType, joinName p' l⟩]⟩ ∧
      (∀ a ∈ ds, ∃ p, a.key = SerHelper.xmlnsKey p) ∧ (p' = p ∨ ∃ e ∈ h.entries, p' = e.pfx) := by
  have key : ∀ (r : Str × Tag × SerHelper), (∃ ds, r.2.1 = ⟨name, ds⟩ ∧
        ∀ a ∈ ds, ∃ p, a.key = SerHelper.xmlnsKey p) → (r.1 = p ∨ ∃ e ∈ h.entries, r.1 = e.pfx) →
      ∃ ds p', (⟨(r.2.2.writeXmlns r.2.1 xsiPfx xsiNs).1.name,
          (r.2.2.writeXmlns r.2.1 xsiPfx xsiNs).1.attrs ++ [⟨xsiType, joinName r.1 l⟩]⟩ : Tag)
            = ⟨name, ds ++ [⟨xsiType, joinName p' l⟩]⟩ ∧
        (∀ a ∈ ds, ∃ p, a.key = SerHelper.xmlnsKey p) ∧ (p' = p ∨ ∃ e ∈ h.entries, p' = e.pfx) := by
    rintro r ⟨ds, hr, hds⟩ hp
    obtain ⟨ds', hw, hds'⟩ := writeXmlns_attrs r.2.2 r.2.1 xsiPfx xsiNs
    rw [hw, hr]
    refine ⟨ds ++ ds', r.1, rfl, ?_, hp⟩
    intro a ha
    rcases List.mem_append.1 ha with ha | ha
    · exact hds a ha
    · exact hds' a ha
  unfold anyTag
  cases ns with
  | none => exact key (p, ⟨name, []⟩, h.beginScope) ⟨[], rfl, by simp⟩ (.inl rfl)
  | some ns =>
    refine key (h.beginScope.addQName ⟨name, []⟩ p ns) ?_ ?_
    · unfold SerHelper.addQName
      split
      · exact ⟨[], rfl, by simp⟩
      · exact ⟨[⟨SerHelper.xmlnsKey p, ns⟩], rfl,
          fun a ha => by rw [List.mem_singleton] at ha; exact ⟨p, by rw [ha]⟩⟩
    · unfold SerHelper.addQName
      split
      · next e he => exact .inr ⟨e, List.mem_of_find?_eq_some he, rfl⟩
      · exact .inl rfl

theorem readType_decls (isType : Str → Bool) (h1 : isType xsiType = true)
    (h2 : ∀ p, isType (SerHelper.xmlnsKey p) = false) (raw : Str) : ∀ ds : List Attr,
    (∀ a ∈ ds, ∃ p, a.key = SerHelper.xmlnsKey p) →
      readType isType (ds ++ [⟨xsiType, raw⟩]) none = some (some raw) := by
  intro ds
  induction ds with
  | nil => intro _; simp [readType, h1]
  | cons a ds ih =>
    intro h
    obtain ⟨p, hp⟩ := h a List.mem_cons_self
    rw [List.cons_append, readType, if_neg (by rw [hp, h2 p]; simp)]
    exact ih fun x hx => h x (List.mem_cons_of_mem _ hx)

theorem read_text {H E : Type} (env : Env H E) (num : Str → Option Str) (bad : E)
    (parse : H → Str → Except E (Value F)) (h : H) (t : Tag) (s : Str) (rest : List Event) :
    ∃ evs', reread [.start t, .text (escape s), .end_ t.name] = some evs' ∧
      (∀ v, (∀ h, parse h (trimAscii s) = .ok v) →
        (Drv.run env (contentDeser num bad parse) { helper := h } (evs' ++ rest)).verdict
          = .value v rest) := by
  have h1 : (chunks (escape s)).isSome = true :=
    (chunksGo_some num (escape s)).1 [] (by
      have := unescape_escape num s
      unfold unescape at this
      rw [this]; rfl)
  cases hch : chunks (escape s) with
  | none => rw [hch] at h1; cases h1
  | some evs =>
    refine ⟨.start t :: (evs ++ [.end_ t.name]), by simp [reread, hch], ?_⟩
    intro v hv
    have hcc : charContent num evs = some s := by
      have := (charContent_chunksGo num (escape s)).1 [] evs (by simp) hch
      rw [this]
      have h2 := unescape_escape num s
      unfold unescape at h2
      rw [h2]; rfl
    have hleaf : ∀ e ∈ evs, e.isLeaf = true := chunksGo_leaf _ _ _ _ hch
    have := C04_simple_content env num bad parse h t evs hleaf rest
    simpa [hcc, hv] using this

theorem writeName_no_colon (k : Kind) : ':' ∉ (writeName k).toList := by
  cases k with
  | str k => cases k <;> decide
  | boolean => decide
  | float k => cases k <;> decide
  | hexBinary => decide
  | base64Binary => decide
  | qname => decide
  | int x => cases x <;> decide
  | list k => cases k <;> decide

theorem type_known {v : Value F} {k : Kind} (hk : v.kind = some k) :
    v.type = some (['x', 's'], some xsNs, (writeName k).toList) := by
  cases v <;> first | (cases hk; rfl) | (cases hk)

/-- **C86** Every value of a known type that fits its type is written so that, when the events
are read again, the same value comes out: the type is found in the tag, and its text leads back
to the value. Assumed: prefixes in scope contain no colon, `xsi:type` stands for the type and
namespace declarations do not. Missing: `C86_blanks_lost`, `C86_number_fits`. -/
theorem C86_round_trip_partial {H E : Type} (env : Env H E) (num : Str → Option Str) (bad : E)
    (C : Ctx F) (v : Value F) (hk : v.kind.isSome = true) (hf : v.Fits C) (name : Str)
    (sh : SerHelper) (hc : ∀ e ∈ sh.entries, ':' ∉ e.pfx) (isType : Str → Bool)
    (h1 : isType xsiType = true) (h2 : ∀ p, isType (SerHelper.xmlnsKey p) = false) (h : H)
    (rest : List Event) :
    ∃ t raw tail evs, write C name v sh = .start t :: tail ∧
      readType isType t.attrs none = some (some raw) ∧
      reread (write C name v sh) = some evs ∧
      (Drv.run env (deser C num bad (some raw)) { helper := h } (evs ++ rest)).verdict
        = .value v rest := by
  obtain ⟨k, hk⟩ := Option.isSome_iff_exists.1 hk
  have ht := type_known hk
  obtain ⟨ds, p', htag, hds, hp⟩ := anyTag_some name ['x', 's'] (writeName k).toList (some xsNs) sh
  have hp' : ':' ∉ p' := by
    rcases hp with rfl | ⟨e, he, rfl⟩
    · decide
    · exact hc e he
  rw [← ht] at htag
  have hw : write C name v sh = [.start ⟨name, ds ++ [⟨xsiType, joinName p' (writeName k).toList⟩]⟩,
      .text (escape (v.text C)), .end_ name] := by unfold write; rw [htag]
  rw [hw]
  obtain ⟨evs, hev, hrun⟩ := read_text env num bad
    (fun _ s => asExcept bad (finishContent C (some (joinName p' (writeName k).toList)) s)) h
    ⟨name, ds ++ [⟨xsiType, joinName p' (writeName k).toList⟩]⟩ (v.text C) rest
  refine ⟨_, joinName p' (writeName k).toList, _, evs, rfl, ?_, hev, hrun v fun _ => ?_⟩
  · exact readType_decls isType h1 h2 _ ds hds
  · have : finishContent C (some (joinName p' (writeName k).toList)) (trimAscii (v.text C)) = .ok v := by
      unfold finishContent
      simp only [localName_join _ _ hp' (writeName_no_colon k), C86_names_agree]
      exact readKind_text C v k hk hf
    simp only [this, asExcept]

/-- **C86** A value of an unknown type keeps the local name of its type and its content. -/
theorem C86_unknown_round_trip {H E : Type} (env : Env H E) (num : Str → Option Str) (bad : E)
    (C : Ctx F) (q : QName) (s : Str) (hu : kindOf (localName q.raw) = none)
    (hl : ':' ∉ localName q.raw) (hs : Trimmed s) (name : Str)
    (sh : SerHelper) (hc : ∀ e ∈ sh.entries, ':' ∉ e.pfx) (isType : Str → Bool)
    (h1 : isType xsiType = true) (h2 : ∀ p, isType (SerHelper.xmlnsKey p) = false) (h : H)
    (rest : List Event) :
    ∃ t raw tail evs, write C name (.unknown (some q) s) sh = .start t :: tail ∧
      readType isType t.attrs none = some (some raw) ∧ localName raw = localName q.raw ∧
      reread (write C name (.unknown (some q) s) sh) = some evs ∧
      (Drv.run env (deser C num bad (some raw)) { helper := h } (evs ++ rest)).verdict
        = .value (.unknown (some ⟨raw, C.resolve raw⟩) s) rest := by
  obtain ⟨ds, p', htag, hds, hp⟩ := anyTag_some name (prefixOf q.raw) (localName q.raw) q.ns sh
  have hp' : ':' ∉ p' := by
    rcases hp with rfl | ⟨e, he, rfl⟩
    · unfold prefixOf
      split
      · intro hm
        have : ∀ l : Str, ':' ∉ l.takeWhile fun c => c != ':' := by
          intro l
          induction l with
          | nil => simp
          | cons c l ih =>
            rw [List.takeWhile_cons]
            split
            · next hne =>
              simp only [List.mem_cons, not_or]
              exact ⟨fun e => by rw [← e] at hne; exact absurd hne (by decide), ih⟩
            · simp
        exact this _ hm
      · simp
    · exact hc e he
  have hln := localName_join p' (localName q.raw) hp' hl
  have hw : write C name (.unknown (some q) s) sh
      = [.start ⟨name, ds ++ [⟨xsiType, joinName p' (localName q.raw)⟩]⟩,
      .text (escape s), .end_ name] := by
    unfold write
    show [Event.start (anyTag name (some (prefixOf q.raw, q.ns, localName q.raw)) sh).1, _, _] = _
    rw [htag]
    rfl
  rw [hw]
  obtain ⟨evs, hev, hrun⟩ := read_text env num bad
    (fun _ s => asExcept bad (finishContent C (some (joinName p' (localName q.raw))) s)) h
    ⟨name, ds ++ [⟨xsiType, joinName p' (localName q.raw)⟩]⟩ s rest
  refine ⟨_, joinName p' (localName q.raw), _, evs, rfl, ?_, hln, hev, hrun _ fun _ => ?_⟩
  · exact readType_decls isType h1 h2 _ ds hds
  · simp only [finishContent, hln, hu, trim_of hs, asExcept]

/-- **C86** A value without a type is written without one, and comes back. -/
theorem C86_untyped_round_trip {H E : Type} (env : Env H E) (num : Str → Option Str) (bad : E)
    (C : Ctx F) (s : Str) (hs : Trimmed s) (name : Str) (sh : SerHelper) (isType : Str → Bool)
    (h : H) (rest : List Event) :
    ∃ tail evs, write C name (.unknown none s) sh = .start ⟨name, []⟩ :: tail ∧
      readType isType [] none = some none ∧
      reread (write C name (.unknown none s) sh) = some evs ∧
      (Drv.run env (deser C num bad none) { helper := h } (evs ++ rest)).verdict
        = .value (.unknown none s) rest := by
  obtain ⟨evs, hev, hrun⟩ := read_text env num bad
    (fun _ s => asExcept bad (finishContent C none s)) h ⟨name, []⟩ s rest
  refine ⟨_, evs, rfl, rfl, hev, hrun _ fun _ => ?_⟩
  simp only [finishContent, trim_of hs, asExcept]

/-! ## Integers and booleans -/

/-- **C86** Contents of the types `xs:long`, `xs:int`, `xs:short` and `xs:byte` are read exactly if
they are valid, with their value. (A form feed is no character of XML.) -/
theorem C86_signed_exact (C : Ctx F) (x : XsInt)
    (hx : x = .long ∨ x = .int ∨ x = .short ∨ x = .byte) (raw : Str)
    (hraw : localName raw = x.name.toList) (s : Str) (hs : Char.ofNat 12 ∉ s) (v : Int) :
    finishContent C (some raw) (trimAscii s) = .ok (.int x v) ↔ x.Valid s v := by
  have hkind := C86_names_agree (.int x)
  rw [C86_integer_names, ← hraw] at hkind
  have hopt : ∀ o : Option Int, ofOption (F := F) (o.map (.int x)) = .ok (.int x v) ↔ o = some v := by
    intro o; cases o <;> simp [ofOption]
  have he := element_int C.width (fun _ _ => none) (rustInt x) s v hs
  simp only [Target.element, Target.parse, Option.map_eq_some_iff, Val.int.injEq, exists_eq_right] at he
  obtain ⟨r1, r2, r3, r4, r5, r6, r7, r8, -⟩ := ranges C.width
  simp only [finishContent, hkind, readKind, hopt]
  rcases hx with rfl | rfl | rfl | rfl <;> simp only [rustInt] at he <;>
    simp only [isBig, Bool.and_false, Bool.false_eq_true, if_false, he, rustInt, XsInt.Valid,
      XsInt.InRange, r1, r2, r3, r4, r5, r6, r7, r8, RustInt.signed, true_or, and_true]

/-- **C86** Contents of the unsigned types of fixed width are read exactly if they are valid and
have no minus sign. Missing: `-0`. -/
theorem C86_unsigned_partial (C : Ctx F) (x : XsInt)
    (hx : x = .unsignedLong ∨ x = .unsignedInt ∨ x = .unsignedShort ∨ x = .unsignedByte) (raw : Str)
    (hraw : localName raw = x.name.toList) (s : Str) (hs : Char.ofNat 12 ∉ s) (v : Int) :
    finishContent C (some raw) (trimAscii s) = .ok (.int x v) ↔ x.ValidNoMinus s v := by
  have hkind := C86_names_agree (.int x)
  rw [C86_integer_names, ← hraw] at hkind
  have hopt : ∀ o : Option Int, ofOption (F := F) (o.map (.int x)) = .ok (.int x v) ↔ o = some v := by
    intro o; cases o <;> simp [ofOption]
  have he := element_int C.width (fun _ _ => none) (rustInt x) s v hs
  simp only [Target.element, Target.parse, Option.map_eq_some_iff, Val.int.injEq, exists_eq_right] at he
  obtain ⟨-, -, -, -, -, -, -, -, r1, r2, r3, r4, r5, r6, r7, r8⟩ := ranges C.width
  simp only [finishContent, hkind, readKind, hopt]
  rcases hx with rfl | rfl | rfl | rfl <;> simp only [rustInt] at he <;>
    simp only [isBig, Bool.and_false, Bool.false_eq_true, if_false, he, rustInt, XsInt.ValidNoMinus,
      XsInt.InRange, r1, r2, r3, r4, r5, r6, r7, r8, RustInt.signed, Bool.false_eq_true, false_or,
      and_assoc]

/-- **C86** Booleans are read from the words only. -/
theorem C86_boolean_words (C : Ctx F) (raw : Str) (hraw : localName raw = "boolean".toList) (s : Str)
    (b : Bool) : finishContent C (some raw) s = .ok (.boolean b) ↔ s = formatBool b := by
  have hkind : kindOf (localName raw) = some .boolean := by rw [hraw]; decide
  have hopt : ∀ o : Option Bool, ofOption (F := F) (o.map .boolean) = .ok (.boolean b) ↔ o = some b := by
    intro o; cases o <;> simp [ofOption]
  simp only [finishContent, hkind, readKind, hopt]
  unfold rustBool formatBool
  by_cases h1 : s = "true".toList
  · subst h1
    cases b <;> decide
  · rw [if_neg h1]
    by_cases h2 : s = "false".toList
    · subst h2
      cases b <;> decide
    · rw [if_neg h2]
      cases b <;> simp_all

/-! ## What does not hold -/

/-- **C86** The digits that XML Schema allows for booleans are rejected. -/
theorem C86_boolean_digit_rejected (C : Ctx F) : XsBool "1".toList true ∧
    finishContent C (some "xs:boolean".toList) "1".toList = .err := by
  refine ⟨.inl ⟨.inr rfl, rfl⟩, ?_⟩
  have : kindOf (localName "xs:boolean".toList) = some .boolean := by decide
  simp only [finishContent, this]
  rfl

/-- **C86** The namespace of the type is not looked at: a value of a type `string` of the user is
taken for `xs:string`, whatever its namespace is, and it is written as one. -/
theorem C86_namespace_ignored (C : Ctx F) (s : Str) :
    ∃ v, finishContent C (some "my:string".toList) s = .ok v ∧ v = .str .string s ∧
      v.type = some (['x', 's'], some xsNs, "string".toList) := by
  have : kindOf (localName "my:string".toList) = some (.str .string) := by decide
  exact ⟨.str .string s, by simp only [finishContent, this, readKind], rfl, rfl⟩

/-- **C86** So it is not true that the namespace of a type survives: one may read a type of the
namespace `urn:my` and write a type of another namespace. -/
theorem C86_not_all_types_survive (C : Ctx F) (hC : C.resolve "my:string".toList = some "urn:my".toList) :
    ¬ ∀ raw s v, finishContent C (some raw) s = .ok v →
      ∃ p l, v.type = some (p, C.resolve raw, l) := by
  intro h
  obtain ⟨v, hv, -, ht⟩ := C86_namespace_ignored C []
  obtain ⟨p, l, h'⟩ := h _ _ _ hv
  rw [ht, hC] at h'
  simp only [Option.some.injEq, Prod.mk.injEq] at h'
  revert h'
  rintro ⟨-, h', -⟩
  exact absurd h' (by decide +kernel)

/-- **C86** A blank after the name of the type, which XML Schema ignores, hides the type. -/
theorem C86_blank_hides_type (C : Ctx F) (s : Str) :
    ∃ q, finishContent C (some "xs:int ".toList) s = .ok (.unknown (some q) s) := by
  have : kindOf (localName "xs:int ".toList) = none := by decide
  exact ⟨_, by simp only [finishContent, this]; rfl⟩

/-- **C86** Without big integers, zero is read as a positive integer, and a positive number as a
negative one. -/
theorem C86_sign_unchecked (C : Ctx F) (hn : C.num = false) (hw : C.width = 64) :
    (finishContent C (some "xs:positiveInteger".toList) "0".toList = .ok (.int .positiveInteger 0) ∧
      ¬ XsInt.InRange .positiveInteger 0) ∧
    (finishContent C (some "xs:negativeInteger".toList) "5".toList = .ok (.int .negativeInteger 5) ∧
      ¬ XsInt.InRange .negativeInteger 5) := by
  have h1 : kindOf (localName "xs:positiveInteger".toList) = some (.int .positiveInteger) := by decide
  have h2 : kindOf (localName "xs:negativeInteger".toList) = some (.int .negativeInteger) := by decide
  refine ⟨⟨?_, by simp [XsInt.InRange]⟩, ⟨?_, by simp [XsInt.InRange]⟩⟩
  · have h3 : parseInt 64 .usize "0".toList = some 0 := by decide +kernel
    simp only [finishContent, h1, readKind, hn, hw, Bool.false_and, Bool.false_eq_true, if_false,
      rustInt, h3]
    rfl
  · have h3 : parseInt 64 .isize "5".toList = some 5 := by decide +kernel
    simp only [finishContent, h2, readKind, hn, hw, Bool.false_and, Bool.false_eq_true, if_false,
      rustInt, h3]
    rfl

/-- **C86** Without big integers, an integer that needs more than 64 bits is rejected although it
is valid. -/
theorem C86_number_fits (C : Ctx F) (hn : C.num = false) (hw : C.width = 64) :
    XsInt.Valid .integer "9223372036854775808".toList 9223372036854775808 ∧
    finishContent C (some "xs:integer".toList) "9223372036854775808".toList = .err := by
  have h1 : kindOf (localName "xs:integer".toList) = some (.int .integer) := by decide
  refine ⟨⟨"9223372036854775808".toList, ⟨[], [], by simp, by simp, by simp⟩,
    ⟨"9223372036854775808".toList, by decide, by decide +kernel, .inl ⟨.inl rfl, by decide +kernel⟩⟩,
    trivial⟩, ?_⟩
  have h3 : parseInt 64 .isize "9223372036854775808".toList = none := by decide +kernel
  simp only [finishContent, h1, readKind, hn, hw, Bool.false_and, Bool.false_eq_true, if_false,
    rustInt, h3]
  rfl

/-- **C86** Blanks at the ends of a string are lost when it is written and read, although they
belong to the value of an `xs:string`. -/
theorem C86_blanks_lost (C : Ctx F) :
    finishContent C (some "xs:string".toList) (trimAscii ((Value.str (F := F) .string " a".toList).text C))
      = .ok (.str .string "a".toList) := by
  have h1 : kindOf (localName "xs:string".toList) = some (.str .string) := by decide
  have h2 : trimAscii ((Value.str (F := F) .string " a".toList).text C) = "a".toList := by
    show trimAscii " a".toList = _
    decide
  rw [h2]
  simp only [finishContent, h1, readKind]

/-- **C86** Hexadecimal text of odd length makes the reader panic. -/
theorem C86_odd_hex_panics (C : Ctx F) :
    finishContent C (some "xs:hexBinary".toList) "ABC".toList = .panic := by
  have h1 : kindOf (localName "xs:hexBinary".toList) = some .hexBinary := by decide
  have h2 : anyHexDecode "ABC".toList = .panic := by decide
  simp only [finishContent, h1, readKind, h2]

/-- **C86** `inf`, which Rust prints for an infinite number, is not an `xs:double`. -/
theorem C86_infinity_not_valid : ¬ DoubleLex "inf".toList := by
  rintro (⟨g, m, e, h, hg, hm, -⟩ | ⟨g, h, hg⟩ | h)
  · have hh : ∃ c r, m = c :: r ∧ (c.isDigit = true ∨ c = '.') := by
      rcases hm with ⟨hne, hd⟩ | ⟨a, b, rfl, ⟨hne, hd⟩, -⟩ | ⟨b, rfl, -⟩
      · cases m with
        | nil => exact absurd rfl hne
        | cons c r => exact ⟨c, r, rfl, .inl (hd c List.mem_cons_self)⟩
      · cases a with
        | nil => exact absurd rfl hne
        | cons c r => exact ⟨c, _, rfl, .inl (hd c List.mem_cons_self)⟩
      · exact ⟨'.', b, rfl, .inr rfl⟩
    obtain ⟨c, r, rfl, hc⟩ := hh
    rcases hg with rfl | rfl | rfl
    · have : 'i' = c := by
        have := congrArg List.head? h
        simpa using this
      subst this
      rcases hc with hc | hc <;> exact absurd hc (by decide)
    · exact absurd (congrArg List.head? h) (by simp)
    · exact absurd (congrArg List.head? h) (by simp)
  · rcases hg with rfl | rfl | rfl <;> exact absurd h (by decide)
  · exact absurd h (by decide)

/-- **C86** An item that is empty or contains a blank does not survive. -/
theorem C86_items_lost : splitWords (joinBlank [['a', ' ', 'b'], []]) = [['a'], ['b']] := by decide

end

/-! ## Non-vacuity -/

/-- A width of 64 bits, no features, numbers in place of floating point numbers. -/
private def ctx : Ctx Unit :=
  { width := 64, num := false, base64 := true, readFloat := fun _ _ => none,
    printFloat := fun _ _ => [], readBig := fun _ _ => none,
    resolve := fun r => if r = "my:string".toList then some "urn:my".toList else none }

/-- C86: some values that fit, and one of an unknown type; the events that are written for a
number. -/
example :
    (Value.int (F := Unit) .integer (-7)).Fits ctx ∧
    (Value.list (F := Unit) .idRefs [['a'], ['b', 'c']]).Fits ctx ∧
    (Value.base64Binary (F := Unit) [1, 2]).Fits ctx ∧
    kindOf (localName "my:kind".toList) = none ∧
    ctx.resolve "my:string".toList = some "urn:my".toList ∧
    write ctx ['n'] (.int (F := Unit) .short (-7)) {} =
      [.start ⟨['n'], [⟨"xmlns:xs".toList, xsNs⟩, ⟨"xmlns:xsi".toList, xsiNs⟩,
        ⟨"xsi:type".toList, "xs:short".toList⟩]⟩, .text ['-', '7'], .end_ ['n']] := by
  refine ⟨?_, ?_, rfl, by decide, by decide, by decide +kernel⟩
  · show (RustInt.isize.lo 64 ≤ -7 ∧ (-7 : Int) ≤ RustInt.isize.hi 64)
    decide +kernel
  · show ∀ t ∈ [['a'], ['b', 'c']], t ≠ [] ∧ ∀ c ∈ t, isUnicodeWs c = false
    decide

end Verif.Rt.AnySimple

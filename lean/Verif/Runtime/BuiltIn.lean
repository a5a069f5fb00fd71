import Verif.Runtime.Lists
import Verif.Util.Decimal
import Verif.Util.Assoc

/-!
# Built-in simple types (C70)

* which Rust type stands for a built-in type of XML Schema: `with_default_typedefs`, `with_num_big_int`,
  `with_nonzero_typedefs` (xsd-parser/src/pipeline/interpreter/mod.rs 185-300, 430-560) and the order in which
  `exec_interpreter_with_ident_cache` calls them (xsd-parser/src/lib.rs 221-231);
* how such a value is read from an element (`ContentDeserializer::finish`, xsd-parser-types/src/quick_xml/deserialize.rs
  659-661) and from an attribute (`read_attrib`, deserialize.rs 725-745);
* `FromStr` and `Display` of the integer types and the grammar of `f32::from_str` (Rust std, modelled from its
  documentation).
-/

namespace Verif.Rt.BuiltIn

open Verif.Decimal

/-! ## Integers of Rust -/

/-- The integer types of Rust that are used. -/
inductive RustInt
  | i8 | i16 | i32 | i64 | isize | u8 | u16 | u32 | u64 | usize
deriving DecidableEq, Repr

/-- Types with negative values. -/
def RustInt.signed : RustInt → Bool
  | .i8 | .i16 | .i32 | .i64 | .isize => true
  | _ => false

/-- The number of bits; that of a pointer is `w`. -/
def RustInt.bits (w : Nat) : RustInt → Nat
  | .i8 | .u8 => 8
  | .i16 | .u16 => 16
  | .i32 | .u32 => 32
  | .i64 | .u64 => 64
  | .isize | .usize => w

/-- `MIN`. -/
def RustInt.lo (w : Nat) (t : RustInt) : Int := if t.signed then -(2 ^ (t.bits w - 1) : Nat) else 0

/-- `MAX`. -/
def RustInt.hi (w : Nat) (t : RustInt) : Int := if t.signed then (2 ^ (t.bits w - 1) : Nat) - 1 else (2 ^ t.bits w : Nat) - 1

/-- The loop of `from_str_radix`: `result = result * 10 ± digit`, each step checked. (That the product or the sum overflows
is one check here: both have the sign of the result.) -/
def accumulate (neg : Bool) (lo hi : Int) : Int → Str → Option Int
  | a, [] => some a
  | a, c :: cs =>
    if c.isDigit then
      let d : Int := (c.toNat - 48 : Nat)
      let b := if neg then a * 10 - d else a * 10 + d
      if lo ≤ b ∧ b ≤ hi then accumulate neg lo hi b cs else none
    else none

/-- `FromStr` of the integer types (Rust std, `from_str_radix` with radix 10). -/
def parseInt (w : Nat) (t : RustInt) (s : Str) : Option Int :=
  match s with
  | [] => none
  | c :: cs =>
    if (c = '+' ∨ c = '-') ∧ cs = [] then none
    else if c = '+' then accumulate false (t.lo w) (t.hi w) 0 cs
    else if c = '-' ∧ t.signed then accumulate true (t.lo w) (t.hi w) 0 cs
    else accumulate false (t.lo w) (t.hi w) 0 (c :: cs)

/-- `FromStr` of `NonZeroUsize` and `NonZeroIsize` (Rust std). -/
def parseNonZero (w : Nat) (t : RustInt) (s : Str) : Option Int :=
  (parseInt w t s).bind fun v => if v = 0 then none else some v

/-- `Display` of the integer types (Rust std). -/
def displayInt (v : Int) : Str := if v < 0 then '-' :: dec v.natAbs else dec v.natAbs

/-! ## Floating point numbers of Rust

Only whether a text is accepted is modelled, by the grammar in the documentation of `f32::from_str` (case is ignored):
`Float ::= Sign? ('inf' | 'infinity' | 'nan' | Number)`,
`Number ::= (Digit+ | Digit+ '.' Digit* | Digit* '.' Digit+) Exp?`, `Exp ::= 'e' Sign? Digit+`. -/

/-- `Sign?` -/
def dropSign : Str → Str
  | [] => []
  | c :: cs => if c = '+' ∨ c = '-' then cs else c :: cs

/-- `Digit+` -/
def isDigits (s : Str) : Bool := s ≠ [] && s.all Char.isDigit

/-- `Exp?` -/
def isExp : Str → Bool
  | [] => true
  | c :: cs => (c = 'e' || c = 'E') && isDigits (dropSign cs)

/-- `Number` -/
def isNumber (s : Str) : Bool :=
  let r := s.dropWhile Char.isDigit
  match r with
  | '.' :: r' => (s.takeWhile Char.isDigit ≠ [] || r'.takeWhile Char.isDigit ≠ []) && isExp (r'.dropWhile Char.isDigit)
  | _ => s.takeWhile Char.isDigit ≠ [] && isExp r

/-- `Float` -/
def parseFloat (s : Str) : Bool :=
  let r := dropSign s
  r.map Char.toLower = "inf".toList || r.map Char.toLower = "infinity".toList || r.map Char.toLower = "nan".toList || isNumber r

/-! ## The types for the built-in types -/

/-- What a built-in type of XML Schema is mapped to. -/
inductive Target
  | int (t : RustInt)
  | nonZero (t : RustInt)
  | f32 | f64 | bool | string
  | strings
  | custom (name : String)
deriving DecidableEq, Repr

/-- The flags of `InterpreterFlags` that change built-in types, config/interpreter.rs:57-99. -/
structure Flags where
  defaults : Bool := true
  bigInt : Bool := false
  nonZero : Bool := false
deriving DecidableEq, Repr

/-- `with_default_typedefs`, interpreter/mod.rs:184-308. (`add_list!` gives a reference that occurs any number of times.) -/
def defaultTypedefs : List (String × Target) :=
  [("string", .string), ("boolean", .bool), ("decimal", .f64), ("float", .f32), ("double", .f64),
   ("duration", .string), ("dateTime", .string), ("time", .string), ("date", .string), ("gYearMonth", .string),
   ("gYear", .string), ("gMonthDay", .string), ("gMonth", .string), ("gDay", .string),
   ("hexBinary", .custom "HexString"), ("base64Binary", .custom "Base64String"),
   ("anyURI", .string), ("QName", .string), ("NOTATION", .string),
   ("long", .int .i64), ("int", .int .i32), ("integer", .int .i32), ("short", .int .i16), ("byte", .int .i8),
   ("negativeInteger", .int .isize), ("nonPositiveInteger", .int .isize),
   ("unsignedLong", .int .u64), ("unsignedInt", .int .u32), ("unsignedShort", .int .u16), ("unsignedByte", .int .u8),
   ("positiveInteger", .int .usize), ("nonNegativeInteger", .int .usize),
   ("normalizedString", .string), ("token", .string), ("language", .string), ("NMTOKEN", .string), ("Name", .string),
   ("NCName", .string), ("ID", .string), ("IDREF", .string), ("ENTITY", .string), ("anySimpleType", .string),
   ("NMTOKENS", .strings), ("IDREFS", .strings), ("ENTITIES", .strings)]

/-- `with_num_big_int`, interpreter/mod.rs:463-503. -/
def bigInts : List (String × Target) :=
  [("integer", .custom "BigInt"), ("negativeInteger", .custom "BigInt"), ("nonPositiveInteger", .custom "BigInt"),
   ("positiveInteger", .custom "BigUint"), ("nonNegativeInteger", .custom "BigUint")]

/-- `with_nonzero_typedefs`, interpreter/mod.rs:512-548. -/
def nonZeros : List (String × Target) :=
  [("positiveInteger", .nonZero .usize), ("negativeInteger", .nonZero .isize)]

/-- `State::add_type`, interpreter/state.rs:126-151: a later definition replaces an earlier one. -/
def addTypes (T : List (String × Target)) (l : List (String × Target)) : List (String × Target) :=
  l.foldl (fun T p => Assoc.upsert T p.1 (fun _ => p.2)) T

/-- The calls in `exec_interpreter_with_ident_cache`, lib.rs:221-231, for the types of XML Schema; `user` are the types of the
configuration. `xs:anyType` and `xs:anySimpleType` are left out. -/
def builtIns (F : Flags) (user : List (String × Target)) : List (String × Target) :=
  addTypes (addTypes (addTypes (addTypes [] (if F.defaults then defaultTypedefs else []))
    (if F.bigInt then bigInts else [])) (if F.nonZero then nonZeros else [])) user

/-! ## Reading -/

/-- Values; of floating point numbers only the text. -/
inductive Val
  | int (v : Int)
  | bool (b : Bool)
  | str (s : Str)
  | float (s : Str)
  | custom (s : Str)
deriving DecidableEq, Repr

/-- `deserialize_str` of the target, deserialize.rs:468-546. `cust` says how custom types read a text. Lists are read by
`deserialize_list`, see C05. -/
def Target.parse (w : Nat) (cust : String → Str → Option Str) : Target → Str → Option Val
  | .int t, s => (parseInt w t s).map .int
  | .nonZero t, s => (parseNonZero w t s).map .int
  | .f32, s | .f64, s => if parseFloat s then some (.float s) else none
  | .bool, s => (parseBool s).map .bool
  | .string, s => some (.str s)
  | .strings, _ => none
  | .custom n, s => (cust n s).map .custom

/-- `ContentDeserializer::finish`, deserialize.rs:659-661, for the character content `s`. -/
def Target.element (w : Nat) (cust : String → Str → Option Str) (t : Target) (s : Str) : Option Val :=
  t.parse w cust (trimAscii s)

/-- `read_attrib`, deserialize.rs:725-745, for the unescaped value `s`. -/
def Target.attribute (w : Nat) (cust : String → Str → Option Str) (t : Target) (s : Str) : Option Val := t.parse w cust s

/-! ## Specification: XML Schema part 2 -/

/-- White space of XML. -/
def XmlSpace (c : Char) : Prop := c = ' ' ∨ c = '\t' ∨ c = '\n' ∨ c = '\r'

/-- `t` is `s` with white space around it. (For a text `s` without white space inside this is what `whiteSpace = collapse`
removes.) -/
def Padded (t s : Str) : Prop := ∃ a b : Str, (∀ c ∈ a, XmlSpace c) ∧ (∀ c ∈ b, XmlSpace c) ∧ t = a ++ s ++ b

/-- The lexical representations of `xs:integer`: an optional sign and at least one digit; `v` is the value. -/
def IntLex (s : Str) (v : Int) : Prop :=
  ∃ ds : Str, ds ≠ [] ∧ (∀ c ∈ ds, c.isDigit = true) ∧
    ((s = ds ∨ s = '+' :: ds) ∧ v = val ds ∨ s = '-' :: ds ∧ v = -(val ds : Int))

/-- `xs:integer` and the types derived from it. -/
inductive XsInt
  | integer | nonPositiveInteger | negativeInteger | nonNegativeInteger | positiveInteger
  | long | int | short | byte | unsignedLong | unsignedInt | unsignedShort | unsignedByte
deriving DecidableEq, Repr

/-- The name in the schema. -/
def XsInt.name : XsInt → String
  | .integer => "integer"
  | .nonPositiveInteger => "nonPositiveInteger"
  | .negativeInteger => "negativeInteger"
  | .nonNegativeInteger => "nonNegativeInteger"
  | .positiveInteger => "positiveInteger"
  | .long => "long"
  | .int => "int"
  | .short => "short"
  | .byte => "byte"
  | .unsignedLong => "unsignedLong"
  | .unsignedInt => "unsignedInt"
  | .unsignedShort => "unsignedShort"
  | .unsignedByte => "unsignedByte"

/-- The value space, XML Schema part 2, section 3.4. -/
def XsInt.InRange : XsInt → Int → Prop
  | .integer, _ => True
  | .nonPositiveInteger, v => v ≤ 0
  | .negativeInteger, v => v < 0
  | .nonNegativeInteger, v => 0 ≤ v
  | .positiveInteger, v => 0 < v
  | .long, v => -9223372036854775808 ≤ v ∧ v ≤ 9223372036854775807
  | .int, v => -2147483648 ≤ v ∧ v ≤ 2147483647
  | .short, v => -32768 ≤ v ∧ v ≤ 32767
  | .byte, v => -128 ≤ v ∧ v ≤ 127
  | .unsignedLong, v => 0 ≤ v ∧ v ≤ 18446744073709551615
  | .unsignedInt, v => 0 ≤ v ∧ v ≤ 4294967295
  | .unsignedShort, v => 0 ≤ v ∧ v ≤ 65535
  | .unsignedByte, v => 0 ≤ v ∧ v ≤ 255

/-- `t` is a valid content for the type `x`, with the value `v`. -/
def XsInt.Valid (x : XsInt) (t : Str) (v : Int) : Prop := ∃ s, Padded t s ∧ IntLex s v ∧ x.InRange v

/-- Valid, and not written with a minus sign. -/
def XsInt.ValidNoMinus (x : XsInt) (t : Str) (v : Int) : Prop :=
  ∃ s, Padded t s ∧ IntLex s v ∧ x.InRange v ∧ s.head? ≠ some '-'

/-- The lexical representations of `xs:boolean`. -/
def XsBool (s : Str) (b : Bool) : Prop :=
  (s = "true".toList ∨ s = "1".toList) ∧ b = true ∨ (s = "false".toList ∨ s = "0".toList) ∧ b = false

/-- At least one digit. -/
def Digits (s : Str) : Prop := s ≠ [] ∧ ∀ c ∈ s, c.isDigit = true

/-- An optional sign. -/
def Sign (s : Str) : Prop := s = [] ∨ s = ['+'] ∨ s = ['-']

/-- `[0-9]+(\.[0-9]*)?|\.[0-9]+` -/
def Unsigned (s : Str) : Prop :=
  Digits s ∨ (∃ a b, s = a ++ '.' :: b ∧ Digits a ∧ (∀ c ∈ b, c.isDigit = true)) ∨ ∃ b, s = '.' :: b ∧ Digits b

/-- The lexical representations of `xs:decimal`. -/
def DecimalLex (s : Str) : Prop := ∃ g m, s = g ++ m ∧ Sign g ∧ Unsigned m

/-- The lexical representations of `xs:float` and `xs:double`. -/
def DoubleLex (s : Str) : Prop :=
  (∃ g m e, s = g ++ m ++ e ∧ Sign g ∧ Unsigned m ∧
    (e = [] ∨ ∃ x g' d, e = x :: (g' ++ d) ∧ (x = 'e' ∨ x = 'E') ∧ Sign g' ∧ Digits d)) ∨
  (∃ g, s = g ++ "INF".toList ∧ Sign g) ∨ s = "NaN".toList

/-! ## Proofs: integers -/

/-- The number denoted by further digits. -/
def valFrom (n : Nat) (l : Str) : Nat := l.foldl (fun a c => a * 10 + (c.toNat - 48)) n

theorem valFrom_ge (n : Nat) (l : Str) : n ≤ valFrom n l := by
  induction l generalizing n with
  | nil => exact Nat.le_refl _
  | cons c l ih =>
    have := ih (n * 10 + (c.toNat - 48))
    simp only [valFrom, List.foldl_cons] at this ⊢
    omega

theorem accumulate_pos (lo hi : Int) (hlo : lo ≤ 0) (ds : Str) (n : Nat) (hn : (n : Int) ≤ hi) (v : Int) :
    accumulate false lo hi n ds = some v ↔ (∀ c ∈ ds, c.isDigit = true) ∧ v = valFrom n ds ∧ v ≤ hi := by
  induction ds generalizing n with
  | nil =>
    simp only [accumulate, Option.some.injEq, List.not_mem_nil, false_implies, implies_true, true_and, valFrom,
      List.foldl_nil]
    constructor
    · rintro rfl; exact ⟨rfl, hn⟩
    · rintro ⟨h, -⟩; exact h.symm
  | cons c ds ih =>
    simp only [accumulate, Bool.false_eq_true, if_false]
    by_cases hc : c.isDigit = true
    · rw [if_pos hc]
      have hcast : (n : Int) * 10 + ((c.toNat - 48 : Nat) : Int) = ((n * 10 + (c.toNat - 48) : Nat) : Int) := by omega
      rw [hcast]
      by_cases hr : ((n * 10 + (c.toNat - 48) : Nat) : Int) ≤ hi
      · rw [if_pos ⟨by omega, hr⟩, ih _ hr]
        simp only [List.mem_cons, forall_eq_or_imp, hc, true_and, valFrom, List.foldl_cons]
      · rw [if_neg (fun h => hr h.2)]
        constructor
        · intro h; cases h
        · rintro ⟨-, h1, h2⟩
          exfalso
          apply hr
          have := valFrom_ge (n * 10 + (c.toNat - 48)) ds
          simp only [valFrom, List.foldl_cons] at h1 this
          omega
    · rw [if_neg hc]
      constructor
      · intro h; cases h
      · rintro ⟨h, -⟩; exact absurd (h c (by simp)) hc

theorem accumulate_neg (lo hi : Int) (hhi : 0 ≤ hi) (ds : Str) (n : Nat) (hn : lo ≤ -(n : Int)) (v : Int) :
    accumulate true lo hi (-(n : Int)) ds = some v ↔
      (∀ c ∈ ds, c.isDigit = true) ∧ v = -(valFrom n ds : Int) ∧ lo ≤ v := by
  induction ds generalizing n with
  | nil =>
    simp only [accumulate, Option.some.injEq, List.not_mem_nil, false_implies, implies_true, true_and, valFrom,
      List.foldl_nil]
    constructor
    · rintro rfl; exact ⟨rfl, hn⟩
    · rintro ⟨h, -⟩; exact h.symm
  | cons c ds ih =>
    simp only [accumulate, if_true]
    by_cases hc : c.isDigit = true
    · rw [if_pos hc]
      have hcast : -(n : Int) * 10 - ((c.toNat - 48 : Nat) : Int) = -((n * 10 + (c.toNat - 48) : Nat) : Int) := by omega
      rw [hcast]
      by_cases hr : lo ≤ -((n * 10 + (c.toNat - 48) : Nat) : Int)
      · rw [if_pos ⟨hr, by omega⟩, ih _ hr]
        simp only [List.mem_cons, forall_eq_or_imp, hc, true_and, valFrom, List.foldl_cons]
      · rw [if_neg (fun h => hr h.1)]
        constructor
        · intro h; cases h
        · rintro ⟨-, h1, h2⟩
          exfalso
          apply hr
          have := valFrom_ge (n * 10 + (c.toNat - 48)) ds
          simp only [valFrom, List.foldl_cons] at h1 this
          omega
    · rw [if_neg hc]
      constructor
      · intro h; cases h
      · rintro ⟨h, -⟩; exact absurd (h c (by simp)) hc

theorem lo_le (w : Nat) (t : RustInt) : t.lo w ≤ 0 := by
  unfold RustInt.lo
  generalize 2 ^ (t.bits w - 1) = k
  split <;> omega

theorem le_hi (w : Nat) (t : RustInt) : 0 ≤ t.hi w := by
  unfold RustInt.hi
  have h1 : 0 < 2 ^ (t.bits w - 1) := Nat.pos_of_ne_zero (by simp)
  have h2 : 0 < 2 ^ (t.bits w) := Nat.pos_of_ne_zero (by simp)
  generalize 2 ^ (t.bits w - 1) = k at *
  generalize 2 ^ t.bits w = k at *
  split <;> omega

theorem lo_unsigned (w : Nat) (t : RustInt) (h : t.signed = false) : t.lo w = 0 := by
  simp [RustInt.lo, h]

theorem minus_not_digit : ¬ ('-' : Char).isDigit = true := by decide
theorem plus_not_digit : ¬ ('+' : Char).isDigit = true := by decide

/-- What the integer types of Rust accept. -/
theorem parseInt_iff (w : Nat) (t : RustInt) (s : Str) (v : Int) :
    parseInt w t s = some v ↔
      IntLex s v ∧ t.lo w ≤ v ∧ v ≤ t.hi w ∧ (t.signed = true ∨ s.head? ≠ some '-') := by
  have hlo := lo_le w t
  have hhi := le_hi w t
  have pos : ∀ ds, accumulate false (t.lo w) (t.hi w) 0 ds = some v ↔
      (∀ c ∈ ds, c.isDigit = true) ∧ v = val ds ∧ v ≤ t.hi w := fun ds => accumulate_pos _ _ hlo ds 0 hhi v
  have neg : ∀ ds, accumulate true (t.lo w) (t.hi w) 0 ds = some v ↔
      (∀ c ∈ ds, c.isDigit = true) ∧ v = -(val ds : Int) ∧ t.lo w ≤ v := fun ds => accumulate_neg _ _ hhi ds 0 (by simpa using hlo) v
  cases s with
  | nil =>
    simp only [parseInt, reduceCtorEq, false_iff]
    rintro ⟨⟨ds, hne, -, ⟨h | h, -⟩ | ⟨h, -⟩⟩, -⟩
    · exact hne h.symm
    · cases h
    · cases h
  | cons c cs =>
    simp only [parseInt, List.head?_cons, ne_eq, Option.some.injEq]
    by_cases h1 : (c = '+' ∨ c = '-') ∧ cs = []
    · rw [if_pos h1]
      obtain ⟨hc, rfl⟩ := h1
      simp only [reduceCtorEq, false_iff]
      rintro ⟨⟨ds, hne, hd, ⟨h | h, -⟩ | ⟨h, -⟩⟩, -⟩
      · subst h
        have := hd c (by simp)
        rcases hc with rfl | rfl
        · exact plus_not_digit this
        · exact minus_not_digit this
      · cases h; exact hne rfl
      · cases h; exact hne rfl
    · rw [if_neg h1]
      by_cases h2 : c = '+'
      · subst h2
        have hne : cs ≠ [] := fun h => h1 ⟨.inl rfl, h⟩
        rw [if_pos rfl, pos]
        constructor
        · rintro ⟨hd, hv, hh⟩
          exact ⟨⟨cs, hne, hd, .inl ⟨.inr rfl, hv⟩⟩, by omega, hh, .inr (by decide)⟩
        · rintro ⟨⟨ds, -, hd, ⟨h | h, hv⟩ | ⟨h, -⟩⟩, -, hh, -⟩
          · subst h; exact absurd (hd '+' (by simp)) plus_not_digit
          · cases h; exact ⟨hd, hv, hh⟩
          · exact absurd (List.cons.inj h).1 (by decide)
      · rw [if_neg h2]
        by_cases h3 : c = '-' ∧ t.signed = true
        · obtain ⟨rfl, hs⟩ := h3
          have hne : cs ≠ [] := fun h => h1 ⟨.inr rfl, h⟩
          rw [if_pos ⟨rfl, hs⟩, neg]
          constructor
          · rintro ⟨hd, hv, hh⟩
            exact ⟨⟨cs, hne, hd, .inr ⟨rfl, hv⟩⟩, hh, by omega, .inl hs⟩
          · rintro ⟨⟨ds, -, hd, ⟨h | h, hv⟩ | ⟨h, hv⟩⟩, hl, -, -⟩
            · subst h; exact absurd (hd '-' (by simp)) minus_not_digit
            · exact absurd (List.cons.inj h).1 (by decide)
            · cases h; exact ⟨hd, hv, hl⟩
        · rw [if_neg h3, pos]
          constructor
          · rintro ⟨hd, hv, hh⟩
            refine ⟨⟨c :: cs, by simp, hd, .inl ⟨.inl rfl, hv⟩⟩, by omega, hh, .inr ?_⟩
            rintro rfl
            exact minus_not_digit (hd '-' (by simp))
          · rintro ⟨⟨ds, -, hd, ⟨h | h, hv⟩ | ⟨h, hv⟩⟩, -, hh, hm⟩
            · subst h; exact ⟨hd, hv, hh⟩
            · exact absurd (List.cons.inj h).1 h2
            · have hc := (List.cons.inj h).1
              subst hc
              rcases hm with hm | hm
              · exact absurd ⟨rfl, hm⟩ h3
              · exact absurd rfl hm

theorem parseNonZero_iff (w : Nat) (t : RustInt) (s : Str) (v : Int) :
    parseNonZero w t s = some v ↔ parseInt w t s = some v ∧ v ≠ 0 := by
  unfold parseNonZero
  cases h : parseInt w t s with
  | none => simp
  | some x =>
    simp only [Option.bind_some, Option.some.injEq]
    by_cases hx : x = 0
    · simp only [hx, if_true, reduceCtorEq, false_iff]
      rintro ⟨rfl, h⟩; exact h rfl
    · simp only [hx, if_false, Option.some.injEq]
      constructor
      · rintro rfl; exact ⟨rfl, hx⟩
      · exact fun h => h.1

/-! ## Proofs: white space -/

theorem xmlSpace_ws {c : Char} (h : XmlSpace c) : isAsciiWs c = true := by
  rcases h with rfl | rfl | rfl | rfl <;> decide

theorem trim_cons_ws (c : Char) (h : isAsciiWs c = true) (s : Str) : trimAscii (c :: s) = trimAscii s := by
  simp [trimAscii, h]

theorem dropWhile_all {p : Char → Bool} {a : Str} (h : ∀ c ∈ a, p c = true) (s : Str) :
    (a ++ s).dropWhile p = s.dropWhile p := by
  induction a with
  | nil => rfl
  | cons c a ih =>
    rw [List.cons_append, List.dropWhile_cons, if_pos (h c (by simp))]
    exact ih fun d hd => h d (by simp [hd])

theorem dropWhile_none {p : Char → Bool} {s : Str} (h : ∀ c, s.head? = some c → p c = false) : s.dropWhile p = s := by
  cases s with
  | nil => rfl
  | cons c s => rw [List.dropWhile_cons, if_neg (by simp [h c rfl])]

/-- White space around a text that neither starts nor ends with it is removed. -/
theorem trim_padded {t s : Str} (h : Padded t s) (h1 : ∀ c ∈ s, isAsciiWs c = false) : trimAscii t = s := by
  obtain ⟨a, b, ha, hb, rfl⟩ := h
  unfold trimAscii
  rw [List.append_assoc, dropWhile_all (fun c hc => xmlSpace_ws (ha c hc))]
  cases hs : s with
  | nil =>
    have : (b : Str).dropWhile isAsciiWs = [] := by
      have := dropWhile_all (p := isAsciiWs) (a := b) (fun c hc => xmlSpace_ws (hb c hc)) []
      simpa using this
    simp [this]
  | cons c s' =>
    rw [← hs]
    rw [dropWhile_none (s := s ++ b) (by
      intro d hd
      rw [hs] at hd h1
      simp only [List.cons_append, List.head?_cons, Option.some.injEq] at hd
      exact hd ▸ h1 c (by simp))]
    rw [List.reverse_append, dropWhile_all (fun c hc => xmlSpace_ws (hb c (List.mem_reverse.1 hc)))]
    rw [dropWhile_none (s := s.reverse) (by
      intro d hd
      exact h1 d (List.mem_reverse.1 (List.mem_of_head? hd)))]
    exact List.reverse_reverse s

theorem padded_trim (t : Str) (hf : Char.ofNat 12 ∉ t) : Padded t (trimAscii t) := by
  obtain ⟨a, b, h, ha, hb, -⟩ := trimAscii_split t
  have sp : ∀ c, isAsciiWs c = true → c ∈ t → XmlSpace c := by
    intro c hc hm
    simp only [isAsciiWs, Bool.or_eq_true, beq_iff_eq] at hc
    rcases hc with (((hc | hc) | hc) | hc) | hc
    · exact .inl hc
    · exact .inr (.inl hc)
    · exact .inr (.inr (.inl hc))
    · exact .inr (.inr (.inr hc))
    · subst hc; exact absurd hm hf
  refine ⟨a, b, fun c hc => sp c (ha c hc) ?_, fun c hc => sp c (hb c hc) ?_, h⟩
  · rw [h]; simp [hc]
  · rw [h]; simp [hc]

theorem IntLex.no_space {s : Str} {v : Int} (h : IntLex s v) : ∀ c ∈ s, isAsciiWs c = false := by
  obtain ⟨ds, -, hd, h⟩ := h
  have dig : ∀ c ∈ ds, isAsciiWs c = false := by
    intro c hc
    have := hd c hc
    cases hw : isAsciiWs c with
    | false => rfl
    | true =>
      simp only [isAsciiWs, Bool.or_eq_true, beq_iff_eq] at hw
      rcases hw with (((hw | hw) | hw) | hw) | hw <;> subst hw <;> exact absurd this (by decide)
  intro c hc
  rcases h with ⟨h | h, -⟩ | ⟨h, -⟩
  · subst h; exact dig c hc
  · subst h
    rcases List.mem_cons.1 hc with rfl | hc
    · decide
    · exact dig c hc
  · subst h
    rcases List.mem_cons.1 hc with rfl | hc
    · decide
    · exact dig c hc

/-- Content of an element whose type is an integer type of Rust. -/
theorem element_int (w : Nat) (cust : String → Str → Option Str) (t : RustInt) (s : Str) (v : Int)
    (hf : Char.ofNat 12 ∉ s) :
    (Target.int t).element w cust s = some (.int v) ↔
      ∃ u, Padded s u ∧ IntLex u v ∧ t.lo w ≤ v ∧ v ≤ t.hi w ∧ (t.signed = true ∨ u.head? ≠ some '-') := by
  simp only [Target.element, Target.parse, Option.map_eq_some_iff, Val.int.injEq, exists_eq_right, parseInt_iff]
  constructor
  · intro h; exact ⟨_, padded_trim s hf, h⟩
  · rintro ⟨u, hp, h⟩
    rw [trim_padded hp h.1.no_space]; exact h

theorem element_nonZero (w : Nat) (cust : String → Str → Option Str) (t : RustInt) (s : Str) (v : Int)
    (hf : Char.ofNat 12 ∉ s) :
    (Target.nonZero t).element w cust s = some (.int v) ↔
      (∃ u, Padded s u ∧ IntLex u v ∧ t.lo w ≤ v ∧ v ≤ t.hi w ∧ (t.signed = true ∨ u.head? ≠ some '-')) ∧ v ≠ 0 := by
  rw [← element_int w cust t s v hf]
  simp only [Target.element, Target.parse, Option.map_eq_some_iff, Val.int.injEq, exists_eq_right, parseNonZero_iff]

/-! ## C70: the types chosen -/

/-- The target of `x` after all calls. -/
def targetOf (F : Flags) (x : String) : Option Target := Assoc.get (builtIns F []) x

/-- C70: a type of the configuration replaces the built-in one, whatever the flags. -/
theorem C70_user_type_wins (F : Flags) (user : List (String × Target)) (x : String) (t : Target) :
    Assoc.get (builtIns F (user ++ [(x, t)])) x = some t := by
  simp [builtIns, addTypes, List.foldl_append, Assoc.get_upsert]

/-- C70: the types with a fixed range are not changed by any flag. -/
theorem C70_fixed_types (F : Flags) (h : F.defaults = true) :
    targetOf F "long" = some (.int .i64) ∧ targetOf F "int" = some (.int .i32) ∧ targetOf F "short" = some (.int .i16) ∧
    targetOf F "byte" = some (.int .i8) ∧ targetOf F "unsignedLong" = some (.int .u64) ∧
    targetOf F "unsignedInt" = some (.int .u32) ∧ targetOf F "unsignedShort" = some (.int .u16) ∧
    targetOf F "unsignedByte" = some (.int .u8) ∧ targetOf F "boolean" = some .bool ∧ targetOf F "string" = some .string ∧
    targetOf F "float" = some .f32 ∧ targetOf F "double" = some .f64 ∧ targetOf F "decimal" = some .f64 := by
  obtain ⟨d, b, z⟩ := F
  simp only at h
  subst h
  cases b <;> cases z <;> decide +kernel

/-- C70: the flags for big and non-zero integers change exactly the unbounded types, and non-zero wins over big. -/
theorem C70_unbounded_types (F : Flags) (h : F.defaults = true) :
    targetOf F "integer" = some (if F.bigInt then .custom "BigInt" else .int .i32) ∧
    targetOf F "nonPositiveInteger" = some (if F.bigInt then .custom "BigInt" else .int .isize) ∧
    targetOf F "nonNegativeInteger" = some (if F.bigInt then .custom "BigUint" else .int .usize) ∧
    targetOf F "negativeInteger" =
      some (if F.nonZero then .nonZero .isize else if F.bigInt then .custom "BigInt" else .int .isize) ∧
    targetOf F "positiveInteger" =
      some (if F.nonZero then .nonZero .usize else if F.bigInt then .custom "BigUint" else .int .usize) := by
  obtain ⟨d, b, z⟩ := F
  simp only at h
  subst h
  cases b <;> cases z <;> decide +kernel

/-! ## C70: what is accepted -/

/-- The value read from the content of an element of the built-in type `x`. -/
def readElement (F : Flags) (w : Nat) (cust : String → Str → Option Str) (x : String) (s : Str) : Option Val :=
  (targetOf F x).bind fun t => t.element w cust s

/-- The value read from an attribute of the built-in type `x`. -/
def readAttribute (F : Flags) (w : Nat) (cust : String → Str → Option Str) (x : String) (s : Str) : Option Val :=
  (targetOf F x).bind fun t => t.attribute w cust s

theorem ranges (w : Nat) : RustInt.i64.lo w = -9223372036854775808 ∧ RustInt.i64.hi w = 9223372036854775807 ∧
    RustInt.i32.lo w = -2147483648 ∧ RustInt.i32.hi w = 2147483647 ∧ RustInt.i16.lo w = -32768 ∧
    RustInt.i16.hi w = 32767 ∧ RustInt.i8.lo w = -128 ∧ RustInt.i8.hi w = 127 ∧
    RustInt.u64.lo w = 0 ∧ RustInt.u64.hi w = 18446744073709551615 ∧ RustInt.u32.lo w = 0 ∧
    RustInt.u32.hi w = 4294967295 ∧ RustInt.u16.lo w = 0 ∧ RustInt.u16.hi w = 65535 ∧ RustInt.u8.lo w = 0 ∧
    RustInt.u8.hi w = 255 := by
  refine ⟨?_, ?_, ?_, ?_, ?_, ?_, ?_, ?_, ?_, ?_, ?_, ?_, ?_, ?_, ?_, ?_⟩ <;> rfl

/-- C70: elements of the types `xs:long`, `xs:int`, `xs:short` and `xs:byte` accept exactly the valid contents and read their
value. (A form feed is no character of XML.) -/
theorem C70_signed_exact (F : Flags) (hF : F.defaults = true) (w : Nat) (cust : String → Str → Option Str) (x : XsInt)
    (hx : x = .long ∨ x = .int ∨ x = .short ∨ x = .byte) (s : Str) (hf : Char.ofNat 12 ∉ s) (v : Int) :
    readElement F w cust x.name s = some (.int v) ↔ x.Valid s v := by
  obtain ⟨h1, h2, h3, h4, -⟩ := C70_fixed_types F hF
  obtain ⟨r1, r2, r3, r4, r5, r6, r7, r8, -⟩ := ranges w
  unfold readElement
  rcases hx with rfl | rfl | rfl | rfl <;>
    simp only [XsInt.name, h1, h2, h3, h4, Option.bind_some, element_int w cust _ s v hf, XsInt.Valid, XsInt.InRange,
      r1, r2, r3, r4, r5, r6, r7, r8, RustInt.signed, true_or, and_true]

/-- C70: elements of the unsigned types accept exactly the valid contents without a minus sign and read their value.
Missing: zero with a minus sign, which is rejected (`C70_negative_zero_rejected`). -/
theorem C70_unsigned_partial (F : Flags) (hF : F.defaults = true) (w : Nat) (cust : String → Str → Option Str) (x : XsInt)
    (hx : x = .unsignedLong ∨ x = .unsignedInt ∨ x = .unsignedShort ∨ x = .unsignedByte) (s : Str)
    (hf : Char.ofNat 12 ∉ s) (v : Int) :
    readElement F w cust x.name s = some (.int v) ↔ x.ValidNoMinus s v := by
  obtain ⟨-, -, -, -, h1, h2, h3, h4, -⟩ := C70_fixed_types F hF
  obtain ⟨-, -, -, -, -, -, -, -, r1, r2, r3, r4, r5, r6, r7, r8⟩ := ranges w
  unfold readElement
  rcases hx with rfl | rfl | rfl | rfl <;>
    simp only [XsInt.name, h1, h2, h3, h4, Option.bind_some, element_int w cust _ s v hf, XsInt.ValidNoMinus,
      XsInt.InRange, r1, r2, r3, r4, r5, r6, r7, r8, RustInt.signed, Bool.false_eq_true, false_or, and_assoc]

/-- C70: without big integers, elements of the unbounded types read the value of the text, and accept every valid content
whose value fits the Rust type that stands for it (32 bits for `xs:integer`, `w` bits for the others) and that has no minus
sign if that type is unsigned. Missing: other values (`C70_integer_too_large`) and that nothing invalid is accepted
(`C70_zero_is_positive`, `C70_positive_is_negative`). -/
theorem C70_unbounded_partial (F : Flags) (hF : F.defaults = true) (hb : F.bigInt = false) (w : Nat)
    (cust : String → Str → Option Str) (x : XsInt) (s : Str) (hf : Char.ofNat 12 ∉ s) (v : Int) :
    (x = .integer → (readElement F w cust x.name s = some (.int v) ↔
      x.Valid s v ∧ -2147483648 ≤ v ∧ v ≤ 2147483647)) ∧
    (x = .nonNegativeInteger → (readElement F w cust x.name s = some (.int v) ↔
      x.ValidNoMinus s v ∧ v < (2 ^ w : Nat))) ∧
    (x = .positiveInteger → x.ValidNoMinus s v → v < (2 ^ w : Nat) → readElement F w cust x.name s = some (.int v)) ∧
    (x = .positiveInteger → F.nonZero = true → readElement F w cust x.name s = some (.int v) →
      x.ValidNoMinus s v ∧ v < (2 ^ w : Nat)) ∧
    (x = .negativeInteger ∨ x = .nonPositiveInteger → x.Valid s v → -(2 ^ (w - 1) : Nat) ≤ v →
      readElement F w cust x.name s = some (.int v)) ∧
    (∀ u, readElement F w cust x.name s = some (.int u) → ∃ t, Padded s t ∧ IntLex t u) := by
  obtain ⟨h1, h2, h3, h4, h5⟩ := C70_unbounded_types F hF
  obtain ⟨-, -, r3, r4, -⟩ := ranges w
  simp only [hb, Bool.false_eq_true, if_false] at h1 h2 h3 h4 h5
  have u1 : RustInt.usize.lo w = 0 := rfl
  have u2 : RustInt.usize.hi w = (2 ^ w : Nat) - 1 := rfl
  have i1 : RustInt.isize.lo w = -(2 ^ (w - 1) : Nat) := rfl
  have i2 := le_hi w .isize
  refine ⟨?_, ?_, ?_, ?_, ?_, ?_⟩
  · rintro rfl
    simp only [readElement, XsInt.name, h1, Option.bind_some, element_int w cust _ s v hf, XsInt.Valid, XsInt.InRange,
      r3, r4, RustInt.signed, true_or, and_true]
    constructor
    · rintro ⟨u, a, b, c⟩; exact ⟨⟨u, a, b⟩, c⟩
    · rintro ⟨⟨u, a, b⟩, c⟩; exact ⟨u, a, b, c⟩
  · rintro rfl
    simp only [readElement, XsInt.name, h3, Option.bind_some, element_int w cust _ s v hf, XsInt.ValidNoMinus,
      XsInt.InRange, u1, u2, RustInt.signed, Bool.false_eq_true, false_or]
    constructor
    · rintro ⟨u, a, b, c, d, e⟩; exact ⟨⟨u, a, b, c, e⟩, by omega⟩
    · rintro ⟨⟨u, a, b, c, e⟩, d⟩; exact ⟨u, a, b, c, by omega, e⟩
  · rintro rfl ⟨u, a, b, c, e⟩ d
    simp only [XsInt.InRange] at c
    have key : ∃ u, Padded s u ∧ IntLex u v ∧ RustInt.usize.lo w ≤ v ∧ v ≤ RustInt.usize.hi w ∧
        (RustInt.usize.signed = true ∨ u.head? ≠ some '-') :=
      ⟨u, a, b, by rw [u1]; omega, by rw [u2]; omega, .inr e⟩
    simp only [readElement, XsInt.name, h5, Option.bind_some]
    cases F.nonZero
    · exact (element_int w cust _ s v hf).2 key
    · exact (element_nonZero w cust _ s v hf).2 ⟨key, by omega⟩
  · rintro rfl hz h
    simp only [readElement, XsInt.name, h5, hz, if_true, Option.bind_some, element_nonZero w cust _ s v hf] at h
    obtain ⟨⟨u, a, b, c, d, e⟩, h0⟩ := h
    rw [u1] at c
    rw [u2] at d
    refine ⟨⟨u, a, b, ?_, e.resolve_left (by decide)⟩, by omega⟩
    simp only [XsInt.InRange]; omega
  · rintro hx ⟨u, a, b, c⟩ d
    have key : v ≤ 0 → ∃ u, Padded s u ∧ IntLex u v ∧ RustInt.isize.lo w ≤ v ∧ v ≤ RustInt.isize.hi w ∧
        (RustInt.isize.signed = true ∨ u.head? ≠ some '-') :=
      fun h => ⟨u, a, b, by rw [i1]; exact d, by omega, .inl rfl⟩
    rcases hx with rfl | rfl
    · simp only [XsInt.InRange] at c
      simp only [readElement, XsInt.name, h4, Option.bind_some]
      cases F.nonZero
      · exact (element_int w cust _ s v hf).2 (key (by omega))
      · exact (element_nonZero w cust _ s v hf).2 ⟨key (by omega), by omega⟩
    · simp only [XsInt.InRange] at c
      simp only [readElement, XsInt.name, h2, Option.bind_some]
      exact (element_int w cust _ s v hf).2 (key c)
  · intro u h
    have int : ∀ t, (Target.int t).element w cust s = some (.int u) → ∃ t, Padded s t ∧ IntLex t u := by
      intro t h
      obtain ⟨p, a, b, -⟩ := (element_int w cust t s u hf).1 h
      exact ⟨p, a, b⟩
    have nz : ∀ t, (Target.nonZero t).element w cust s = some (.int u) → ∃ t, Padded s t ∧ IntLex t u := by
      intro t h
      obtain ⟨⟨p, a, b, -⟩, -⟩ := (element_nonZero w cust t s u hf).1 h
      exact ⟨p, a, b⟩
    obtain ⟨f1, f2, f3, f4, f5, f6, f7, f8, -⟩ := C70_fixed_types F hF
    cases x <;> simp only [readElement, XsInt.name, h1, h2, h3, h4, h5, f1, f2, f3, f4, f5, f6, f7, f8, Option.bind_some] at h <;>
      first
        | exact int _ h
        | (cases hz : F.nonZero <;> rw [hz] at h <;> first | exact nz _ h | exact int _ h)

/-! ### Written values -/

theorem displayInt_lex (v : Int) : IntLex (displayInt v) v := by
  unfold displayInt
  split
  · exact ⟨_, dec_ne_nil _, dec_isDigit _, .inr ⟨rfl, by rw [val_dec]; omega⟩⟩
  · exact ⟨_, dec_ne_nil _, dec_isDigit _, .inl ⟨.inl rfl, by rw [val_dec]; omega⟩⟩

/-- C70: every value of an integer type is read back from what is written for it, in an element and in an attribute. -/
theorem C70_round_trip (w : Nat) (cust : String → Str → Option Str) (t : RustInt) (v : Int) (h1 : t.lo w ≤ v)
    (h2 : v ≤ t.hi w) :
    (Target.int t).element w cust (displayInt v) = some (.int v) ∧
    (Target.int t).attribute w cust (displayInt v) = some (.int v) ∧
    (v ≠ 0 → (Target.nonZero t).element w cust (displayInt v) = some (.int v) ∧
      (Target.nonZero t).attribute w cust (displayInt v) = some (.int v)) := by
  have hl := displayInt_lex v
  have ht : trimAscii (displayInt v) = displayInt v :=
    trim_padded ⟨[], [], by simp, by simp, by simp⟩ hl.no_space
  have hp : parseInt w t (displayInt v) = some v := by
    rw [parseInt_iff]
    refine ⟨hl, h1, h2, ?_⟩
    cases hs : t.signed with
    | true => exact .inl rfl
    | false =>
      right
      rw [lo_unsigned w t hs] at h1
      unfold displayInt
      rw [if_neg (by omega)]
      intro h
      exact minus_not_digit (dec_isDigit _ _ (List.mem_of_head? h))
  have hz : v ≠ 0 → parseNonZero w t (displayInt v) = some v := fun h => (parseNonZero_iff w t _ v).2 ⟨hp, h⟩
  simp only [Target.element, Target.attribute, Target.parse, ht, hp, Option.map_some, true_and]
  intro h
  simp [hz h]

/-! ### Other types -/

/-- C70: every valid boolean is read with its value. (More texts are accepted, see C08.) -/
theorem C70_boolean_complete (F : Flags) (hF : F.defaults = true) (w : Nat) (cust : String → Str → Option Str) (t s : Str)
    (b : Bool) (hp : Padded t s) (h : XsBool s b) : readElement F w cust "boolean" t = some (.bool b) := by
  obtain ⟨-, -, -, -, -, -, -, -, hb, -⟩ := C70_fixed_types F hF
  have hs : ∀ c ∈ s, isAsciiWs c = false := by
    rcases h with ⟨rfl | rfl, -⟩ | ⟨rfl | rfl, -⟩ <;> decide
  simp only [readElement, hb, Option.bind_some, Target.element, trim_padded hp hs, Target.parse]
  rcases h with ⟨rfl | rfl, rfl⟩ | ⟨rfl | rfl, rfl⟩ <;> decide

theorem digits_split {a : Str} (h : ∀ c ∈ a, c.isDigit = true) (r : Str) (hr : ∀ c, r.head? = some c → c.isDigit = false) :
    (a ++ r).takeWhile Char.isDigit = a ∧ (a ++ r).dropWhile Char.isDigit = r := by
  induction a with
  | nil =>
    cases r with
    | nil => simp
    | cons c r => simp [List.takeWhile_cons, List.dropWhile_cons, hr c rfl]
  | cons c a ih =>
    obtain ⟨h1, h2⟩ := ih fun d hd => h d (by simp [hd])
    simp [List.takeWhile_cons, List.dropWhile_cons, h c (by simp), h1, h2]

/-- An exponent, or nothing. -/
def ExpLex (e : Str) : Prop := e = [] ∨ ∃ x g d, e = x :: (g ++ d) ∧ (x = 'e' ∨ x = 'E') ∧ Sign g ∧ Digits d

theorem dropSign_sign {g r : Str} (hg : Sign g) (hr : ∀ c, r.head? = some c → c ≠ '+' ∧ c ≠ '-') : dropSign (g ++ r) = r := by
  rcases hg with rfl | rfl | rfl
  · cases r with
    | nil => rfl
    | cons c r =>
      obtain ⟨h1, h2⟩ := hr c rfl
      simp [dropSign, h1, h2]
  · rfl
  · rfl

theorem digit_no_sign {c : Char} (h : c.isDigit = true) : c ≠ '+' ∧ c ≠ '-' :=
  ⟨by rintro rfl; exact plus_not_digit h, by rintro rfl; exact minus_not_digit h⟩

theorem exp_head {e : Str} (h : ExpLex e) : ∀ c, e.head? = some c → c.isDigit = false := by
  rintro c hc
  rcases h with rfl | ⟨x, g, d, rfl, hx, -⟩
  · cases hc
  · cases hc; rcases hx with rfl | rfl <;> decide

theorem exp_ok {e : Str} (h : ExpLex e) : isExp e = true := by
  rcases h with rfl | ⟨x, g, d, rfl, hx, hg, hd⟩
  · rfl
  · have : dropSign (g ++ d) = d := dropSign_sign hg (by
      intro c hc; exact digit_no_sign (hd.2 c (List.mem_of_head? hc)))
    simp only [isExp, this, isDigits, Bool.and_eq_true, Bool.or_eq_true, decide_eq_true_eq, List.all_eq_true]
    exact ⟨hx, hd⟩

theorem number_ok {m e : Str} (hm : Unsigned m) (he : ExpLex e) : isNumber (m ++ e) = true := by
  have hdot : ('.' : Char).isDigit = false := by decide
  rcases hm with hm | ⟨a, b, rfl, ha, hb⟩ | ⟨b, rfl, hb⟩
  · obtain ⟨h1, h2⟩ := digits_split hm.2 e (exp_head he)
    unfold isNumber
    simp only [h1, h2]
    have hn : ∀ r, e ≠ '.' :: r := by
      rintro r rfl
      rcases he with h | ⟨x, g, d, h, hx, -⟩
      · cases h
      · cases h; rcases hx with h | h <;> exact absurd h (by decide)
    split
    · exact absurd rfl (hn _)
    · simp [hm.1, exp_ok he]
  · obtain ⟨h1, h2⟩ := digits_split ha.2 ('.' :: b ++ e) (by intro c hc; cases hc; exact hdot)
    obtain ⟨h3, h4⟩ := digits_split hb e (exp_head he)
    unfold isNumber
    rw [List.append_assoc]
    simp only [h1, h2]
    simp [ha.1, h4, exp_ok he]
  · obtain ⟨h3, h4⟩ := digits_split hb.2 e (exp_head he)
    unfold isNumber
    have : ('.' :: b ++ e).dropWhile Char.isDigit = '.' :: (b ++ e) := by
      rw [List.cons_append, List.dropWhile_cons, if_neg (by simp [hdot])]
    simp only [this]
    simp [h3, h4, hb.1, exp_ok he]

theorem unsigned_head {m e : Str} (hm : Unsigned m) : ∀ c, (m ++ e).head? = some c → c ≠ '+' ∧ c ≠ '-' := by
  intro c hc
  rcases hm with hm | ⟨a, b, rfl, ha, -⟩ | ⟨b, rfl, -⟩
  · cases m with
    | nil => exact absurd rfl hm.1
    | cons d m => cases hc; exact digit_no_sign (hm.2 _ (by simp))
  · cases a with
    | nil => exact absurd rfl ha.1
    | cons d a => cases hc; exact digit_no_sign (ha.2 _ (by simp))
  · cases hc; decide

theorem double_accepted {s : Str} (h : DoubleLex s) : parseFloat s = true := by
  rcases h with ⟨g, m, e, rfl, hg, hm, he⟩ | ⟨g, rfl, hg⟩ | rfl
  · have : dropSign (g ++ m ++ e) = m ++ e := by
      rw [List.append_assoc]; exact dropSign_sign hg (unsigned_head hm)
    unfold parseFloat
    rw [this]
    simp [number_ok hm he]
  · rcases hg with rfl | rfl | rfl <;> decide
  · decide

theorem decimal_double {s : Str} (h : DecimalLex s) : DoubleLex s := by
  obtain ⟨g, m, rfl, hg, hm⟩ := h
  exact .inl ⟨g, m, [], by simp, hg, hm, .inl rfl⟩

theorem digit_no_space {c : Char} (h : c.isDigit = true) : isAsciiWs c = false := by
  cases hw : isAsciiWs c with
  | false => rfl
  | true =>
    simp only [isAsciiWs, Bool.or_eq_true, beq_iff_eq] at hw
    rcases hw with (((hw | hw) | hw) | hw) | hw <;> subst hw <;> exact absurd h (by decide)

theorem sign_no_space {g : Str} (h : Sign g) : ∀ c ∈ g, isAsciiWs c = false := by
  rcases h with rfl | rfl | rfl <;> decide

theorem double_no_space {s : Str} (h : DoubleLex s) : ∀ c ∈ s, isAsciiWs c = false := by
  rcases h with ⟨g, m, e, rfl, hg, hm, he⟩ | ⟨g, rfl, hg⟩ | rfl
  · intro c hc
    rw [List.mem_append, List.mem_append] at hc
    rcases hc with (hc | hc) | hc
    · exact sign_no_space hg c hc
    · rcases hm with hm | ⟨a, b, rfl, ha, hb⟩ | ⟨b, rfl, hb⟩
      · exact digit_no_space (hm.2 c hc)
      · rw [List.mem_append, List.mem_cons] at hc
        rcases hc with hc | rfl | hc
        · exact digit_no_space (ha.2 c hc)
        · decide
        · exact digit_no_space (hb c hc)
      · rw [List.mem_cons] at hc
        rcases hc with rfl | hc
        · decide
        · exact digit_no_space (hb.2 c hc)
    · rcases he with rfl | ⟨x, g', d, rfl, hx, hg', hd⟩
      · cases hc
      · rw [List.mem_cons, List.mem_append] at hc
        rcases hc with rfl | hc | hc
        · rcases hx with rfl | rfl <;> decide
        · exact sign_no_space hg' c hc
        · exact digit_no_space (hd.2 c hc)
  · intro c hc
    rw [List.mem_append] at hc
    rcases hc with hc | hc
    · exact sign_no_space hg c hc
    · revert c; decide
  · decide

/-- C70: every valid literal of `xs:float`, `xs:double` and `xs:decimal` is accepted, with white space around it. (Which
number it becomes is not modelled.) -/
theorem C70_float_complete (F : Flags) (hF : F.defaults = true) (w : Nat) (cust : String → Str → Option Str) (t s : Str)
    (hp : Padded t s) :
    (DoubleLex s → readElement F w cust "float" t = some (.float s) ∧ readElement F w cust "double" t = some (.float s)) ∧
    (DecimalLex s → readElement F w cust "decimal" t = some (.float s)) := by
  obtain ⟨-, -, -, -, -, -, -, -, -, -, h1, h2, h3⟩ := C70_fixed_types F hF
  have key : DoubleLex s → trimAscii t = s ∧ parseFloat s = true :=
    fun h => ⟨trim_padded hp (double_no_space h), double_accepted h⟩
  simp only [readElement, h1, h2, h3, Option.bind_some, Target.element, Target.parse]
  constructor
  · intro h
    obtain ⟨k1, k2⟩ := key h
    simp [k1, k2]
  · intro h
    obtain ⟨k1, k2⟩ := key (decimal_double h)
    simp [k1, k2]

/-! ## Concrete cases and counterexamples -/

/-- The configuration used by default. -/
def exFlags : Flags := {}

/-- No custom types. -/
def exCust : String → Str → Option Str := fun _ _ => none

example : readElement exFlags 64 exCust "byte" " -0128\n".toList = some (.int (-128)) ∧
    readElement exFlags 64 exCust "byte" "128".toList = none ∧
    readElement exFlags 64 exCust "unsignedByte" "+255".toList = some (.int 255) ∧
    readElement exFlags 64 exCust "boolean" " 1 ".toList = some (.bool true) ∧
    readElement exFlags 64 exCust "double" " -1.5E+3".toList = some (.float "-1.5E+3".toList) ∧
    readElement exFlags 64 exCust "decimal" ".".toList = none := by decide +kernel

example : XsInt.byte.Valid " -0128\n".toList (-128) ∧ Char.ofNat 12 ∉ " -0128\n".toList :=
  ⟨⟨"-0128".toList, ⟨" ".toList, "\n".toList, by simp [XmlSpace], by simp [XmlSpace], rfl⟩,
    ⟨"0128".toList, by decide, by decide, .inr ⟨rfl, by decide⟩⟩, by simp [XsInt.InRange]⟩, by decide⟩

example : DoubleLex "-1.5E+3".toList :=
  .inl ⟨['-'], "1.5".toList, "E+3".toList, rfl, .inr (.inr rfl),
    .inr (.inl ⟨['1'], ['5'], rfl, ⟨by decide, by decide⟩, by decide⟩),
    .inr ⟨'E', ['+'], ['3'], rfl, .inr rfl, .inr (.inl rfl), ⟨by decide, by decide⟩⟩⟩

theorem padded_self (s : Str) : Padded s s := ⟨[], [], by simp, by simp, by simp⟩

/-- C70 (negation): `-0` is a valid `xs:unsignedInt`, and is rejected. -/
theorem C70_negative_zero_rejected (F : Flags) (hF : F.defaults = true) (w : Nat) (cust : String → Str → Option Str) :
    XsInt.unsignedInt.Valid "-0".toList 0 ∧ readElement F w cust "unsignedInt" "-0".toList = none := by
  refine ⟨⟨_, padded_self _, ⟨['0'], by decide, by decide, .inr ⟨rfl, by decide⟩⟩, by simp [XsInt.InRange]⟩, ?_⟩
  obtain ⟨-, -, -, -, -, h, -⟩ := C70_fixed_types F hF
  simp only [readElement, h, Option.bind_some, Target.element, Target.parse, Option.map_eq_none_iff]
  rw [show trimAscii "-0".toList = "-0".toList by decide, Option.eq_none_iff_forall_ne_some]
  intro v hv
  have := ((parseInt_iff w .u32 _ v).1 hv).2.2.2
  rcases this with h | h
  · cases h
  · exact h rfl

/-- C70 (negation): the valid `xs:integer` 2147483648 is rejected (unless big integers are asked for). -/
theorem C70_integer_too_large (F : Flags) (hF : F.defaults = true) (hb : F.bigInt = false) (w : Nat)
    (cust : String → Str → Option Str) :
    XsInt.integer.Valid "2147483648".toList 2147483648 ∧ readElement F w cust "integer" "2147483648".toList = none := by
  refine ⟨⟨_, padded_self _, ⟨_, by decide, by decide, .inl ⟨.inl rfl, by decide⟩⟩, trivial⟩, ?_⟩
  have h := (C70_unbounded_types F hF).1
  simp only [hb, Bool.false_eq_true, if_false] at h
  simp only [readElement, h, Option.bind_some, Target.element, Target.parse, Option.map_eq_none_iff]
  rw [show trimAscii "2147483648".toList = "2147483648".toList by decide, Option.eq_none_iff_forall_ne_some]
  intro v hv
  obtain ⟨⟨ds, -, hd, hl⟩, -, h2, -⟩ := (parseInt_iff w .i32 _ v).1 hv
  have h2 : v ≤ 2147483647 := h2
  rcases hl with ⟨rfl | h, rfl⟩ | ⟨h, -⟩
  · revert h2; decide
  · cases h
  · cases h

/-- C70 (negation): 0 is read as an `xs:positiveInteger` (unless non-zero types are asked for). -/
theorem C70_zero_is_positive (w : Nat) (cust : String → Str → Option Str) :
    ¬ XsInt.positiveInteger.Valid "0".toList 0 ∧
      readElement exFlags w cust "positiveInteger" "0".toList = some (.int 0) := by
  constructor
  · rintro ⟨s, -, -, h⟩; exact absurd h (by simp [XsInt.InRange])
  · have h : targetOf exFlags "positiveInteger" = some (.int .usize) := (C70_unbounded_types exFlags rfl).2.2.2.2
    simp only [readElement, h, Option.bind_some]
    rw [element_int w cust _ _ _ (by decide)]
    exact ⟨_, padded_self _, ⟨_, by decide, by decide, .inl ⟨.inl rfl, by decide⟩⟩, lo_le w _, le_hi w _, .inr (by decide)⟩

/-- C70 (negation): 5 is read as an `xs:negativeInteger`, also with non-zero types. -/
theorem C70_positive_is_negative (z : Bool) (w : Nat) (hw : 4 ≤ w) (cust : String → Str → Option Str) :
    ¬ XsInt.negativeInteger.Valid "5".toList 5 ∧
      readElement ⟨true, false, z⟩ w cust "negativeInteger" "5".toList = some (.int 5) := by
  constructor
  · rintro ⟨s, -, -, h⟩; exact absurd h (by simp [XsInt.InRange])
  · have h := (C70_unbounded_types ⟨true, false, z⟩ rfl).2.2.2.1
    have key : ∃ u, Padded "5".toList u ∧ IntLex u 5 ∧ RustInt.isize.lo w ≤ 5 ∧ 5 ≤ RustInt.isize.hi w ∧
        (RustInt.isize.signed = true ∨ u.head? ≠ some '-') := by
      refine ⟨_, padded_self _, ⟨_, by decide, by decide, .inl ⟨.inl rfl, by decide⟩⟩, ?_, ?_, .inl rfl⟩
      · have := lo_le w .isize; omega
      · show (5 : Int) ≤ (2 ^ (w - 1) : Nat) - 1
        have : 2 ^ 3 ≤ 2 ^ (w - 1) := Nat.pow_le_pow_right (by decide) (by omega)
        generalize 2 ^ (w - 1) = k at *
        omega
    simp only [readElement, h, Option.bind_some, Bool.false_eq_true, if_false]
    cases z
    · exact (element_int w cust _ _ _ (by decide)).2 key
    · exact (element_nonZero w cust _ _ _ (by decide)).2 ⟨key, by decide⟩

/-- C70 (negation): white space around a number is removed in elements, but makes an attribute invalid. -/
theorem C70_attribute_space_rejected (F : Flags) (hF : F.defaults = true) (w : Nat) (cust : String → Str → Option Str) :
    XsInt.int.Valid " 5".toList 5 ∧ readElement F w cust "int" " 5".toList = some (.int 5) ∧
      readAttribute F w cust "int" " 5".toList = none := by
  have hv : XsInt.int.Valid " 5".toList 5 :=
    ⟨"5".toList, ⟨[' '], [], by simp [XmlSpace], by simp, rfl⟩, ⟨_, by decide, by decide, .inl ⟨.inl rfl, by decide⟩⟩,
      by simp [XsInt.InRange]⟩
  refine ⟨hv, (C70_signed_exact F hF w cust .int (.inr (.inl rfl)) _ (by decide) 5).2 hv, ?_⟩
  obtain ⟨-, h, -⟩ := C70_fixed_types F hF
  simp only [readAttribute, h, Option.bind_some, Target.attribute, Target.parse, Option.map_eq_none_iff]
  rw [Option.eq_none_iff_forall_ne_some]
  intro v hp
  exact absurd (((parseInt_iff w .i32 _ v).1 hp).1.no_space ' ' (by decide)) (by decide)

/-- C70 (negation): white space at the ends of an `xs:string` is lost in elements. -/
theorem C70_string_space_lost (F : Flags) (hF : F.defaults = true) (w : Nat) (cust : String → Str → Option Str) :
    readElement F w cust "string" " a ".toList = some (.str "a".toList) ∧
      readAttribute F w cust "string" " a ".toList = some (.str " a ".toList) := by
  obtain ⟨-, -, -, -, -, -, -, -, -, h, -⟩ := C70_fixed_types F hF
  simp only [readElement, readAttribute, h, Option.bind_some, Target.element, Target.attribute, Target.parse]
  decide

/-- C70 (negation): literals that are not valid are accepted: `infinity` and `-nan` as `xs:double`, `1e5` as `xs:decimal`. -/
theorem C70_float_more (F : Flags) (hF : F.defaults = true) (w : Nat) (cust : String → Str → Option Str) :
    readElement F w cust "double" "infinity".toList = some (.float "infinity".toList) ∧
      readElement F w cust "double" "-nan".toList = some (.float "-nan".toList) ∧
      readElement F w cust "decimal" "1e5".toList = some (.float "1e5".toList) := by
  obtain ⟨-, -, -, -, -, -, -, -, -, -, -, h1, h2⟩ := C70_fixed_types F hF
  simp only [readElement, h1, h2, Option.bind_some, Target.element, Target.parse]
  decide

end Verif.Rt.BuiltIn

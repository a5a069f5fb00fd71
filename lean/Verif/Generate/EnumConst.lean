import Verif.Runtime.RawBytes
import Verif.Generate.Defaults

/-!
# Constants for the values of enumerations (C93)

With the flag `ADVANCED_ENUMS` every value of an enumeration gets a constant:

* `EnumerationMetaVariant::make_variant` and `get_simple_enum_base_type` (xsd-parser/src/pipeline/generator/data/enumeration.rs 59-167)
  with `make_value_renderer` in the modes `Literal` and `Constant` (generator/context.rs 182-370);
* `EnumConstantsRenderStep` (renderer/steps/enum_const.rs 28-78);
* the patterns of the generated deserializer (renderer/steps/quick_xml/deserialize.rs 734-784).

From the crate `proc_macro2`, modelled from its source: `Literal::byte_string`; that the text of a token is parsed as Rust does it. Base
types are built-in types and restrictions of them; custom types bring their own function.
-/

namespace Verif.Generate.EnumConst

open Verif.Rt Verif.Rt.BuiltIn Verif.Gen Verif.Raw Verif.Generate.Defaults

/-! ## Literals -/

/-- One byte in `Literal::byte_string`; `next` is the byte that follows. -/
def escByte (b : Nat) (next : Option Nat) : List Char :=
  if b = 0 then (match next with
    | some n => if 48 ≤ n ∧ n ≤ 55 then ['\\', 'x', '0', '0'] else ['\\', '0']
    | none => ['\\', '0'])
  else if b = 9 then ['\\', 't']
  else if b = 10 then ['\\', 'n']
  else if b = 13 then ['\\', 'r']
  else if b = 34 then ['\\', '"']
  else if b = 92 then ['\\', '\\']
  else if 32 ≤ b ∧ b ≤ 126 then [Char.ofNat b]
  else ['\\', 'x', hexDigit (b / 16), hexDigit (b % 16)]

/-- The content of the literal and the closing quote. -/
def escBytes : List Nat → List Char
  | [] => ['"']
  | b :: bs => escByte b bs.head? ++ escBytes bs

/-- `Literal::byte_string`, as text. -/
def byteString (bs : List Nat) : List Char := 'b' :: '"' :: escBytes bs

/-- The text of the constant, enum_const.rs 60-64: `trim_start_matches('b')`. -/
def constText (bs : List Nat) : List Char := (byteString bs).dropWhile (· == 'b')

/-! ### Specification: literals of Rust

From the Rust Reference, "Literal expressions". `\u{…}` and a line continued by `\`, which are never generated, are left out. -/

/-- A hexadecimal digit. -/
def hexVal (c : Char) : Option Nat :=
  if 48 ≤ c.toNat ∧ c.toNat ≤ 57 then some (c.toNat - 48)
  else if 65 ≤ c.toNat ∧ c.toNat ≤ 70 then some (c.toNat - 55)
  else if 97 ≤ c.toNat ∧ c.toNat ≤ 102 then some (c.toNat - 87)
  else none

/-- The simple escapes. -/
def simpleEsc (c : Char) : Option Nat :=
  if c = 'n' then some 10
  else if c = 'r' then some 13
  else if c = 't' then some 9
  else if c = '0' then some 0
  else if c = '\\' then some 92
  else if c = '"' then some 34
  else if c = '\'' then some 39
  else none

/-- What stands after the opening quote: the bytes (of a byte string) or the code points (of a string); `none` if this is no literal.
In a string `\x` can only be followed by `00` to `7F`. -/
def litBody (bytes : Bool) : List Char → Option (List Nat)
  | [] => none
  | c :: r =>
    if c = '"' then (if r = [] then some [] else none)
    else if c = '\\' then
      match r with
      | [] => none
      | e :: r' =>
        if e = 'x' then
          match r' with
          | a :: b :: r'' =>
            match hexVal a, hexVal b with
            | some x, some y => if bytes = true ∨ x < 8 then (litBody bytes r'').map ((16 * x + y) :: ·) else none
            | _, _ => none
          | _ => none
        else
          match simpleEsc e with
          | some n => (litBody bytes r').map (n :: ·)
          | none => none
    else if c = '\r' ∨ bytes = true ∧ 128 ≤ c.toNat then none
    else (litBody bytes r).map (c.toNat :: ·)

/-- The bytes of a byte string literal. -/
def byteLit : List Char → Option (List Nat)
  | 'b' :: '"' :: r => litBody true r
  | _ => none

/-- The code points of a string literal. -/
def strLit : List Char → Option (List Nat)
  | '"' :: r => litBody false r
  | _ => none

/-! ### Proofs -/

theorem hexVal_hexDigit : ∀ (n : Nat), n < 16 → hexVal (hexDigit n) = some n := by decide

theorem litBody_escByte (bytes : Bool) (b : Nat) (hb : b < 256) (next : Option Nat) (r : List Char) :
    litBody bytes (escByte b next ++ r) = if bytes = true ∨ b < 128 then (litBody bytes r).map (b :: ·) else none := by
  have hx0 : litBody bytes ('\\' :: 'x' :: '0' :: '0' :: r) = (litBody bytes r).map (0 :: ·) := by
    rw [litBody.eq_def]; simp [hexVal]
  have hs : ∀ (e : Char) (n : Nat), e ≠ 'x' → simpleEsc e = some n → litBody bytes ('\\' :: e :: r) = (litBody bytes r).map (n :: ·) := by
    intro e n he hn
    rw [litBody.eq_def]; simp [he, hn]
  unfold escByte
  by_cases h0 : b = 0
  · subst h0
    simp only [if_true]
    have h1 : litBody bytes ('\\' :: '0' :: r) = (litBody bytes r).map (0 :: ·) := hs '0' 0 (by decide) (by decide)
    cases next with
    | none => simpa using h1
    | some n =>
      by_cases hn : 48 ≤ n ∧ n ≤ 55
      · simp only [hn, and_self, if_true]; simpa using hx0
      · simp only [hn, if_false]; simpa using h1
  rw [if_neg h0]
  by_cases h9 : b = 9
  · subst h9; simpa using hs 't' 9 (by decide) (by decide)
  rw [if_neg h9]
  by_cases h10 : b = 10
  · subst h10; simpa using hs 'n' 10 (by decide) (by decide)
  rw [if_neg h10]
  by_cases h13 : b = 13
  · subst h13; simpa using hs 'r' 13 (by decide) (by decide)
  rw [if_neg h13]
  by_cases h34 : b = 34
  · subst h34; simpa using hs '"' 34 (by decide) (by decide)
  rw [if_neg h34]
  by_cases h92 : b = 92
  · subst h92; simpa using hs '\\' 92 (by decide) (by decide)
  rw [if_neg h92]
  by_cases hp : 32 ≤ b ∧ b ≤ 126
  · rw [if_pos hp]
    have ht := toNat_ofNat hb
    have n1 : Char.ofNat b ≠ '"' := fun h => h34 (by rw [← ht, h]; rfl)
    have n2 : Char.ofNat b ≠ '\\' := fun h => h92 (by rw [← ht, h]; rfl)
    have n3 : Char.ofNat b ≠ '\r' := fun h => h13 (by rw [← ht, h]; rfl)
    have n4 : ¬ 128 ≤ (Char.ofNat b).toNat := by rw [ht]; omega
    have n5 : b < 128 := by omega
    rw [List.cons_append, List.nil_append, litBody.eq_def]
    simp only [n1, n2, n3, n4, if_false, false_or, and_false, ht, n5, or_true, if_true]
    rw [if_neg (by omega)]
  · rw [if_neg hp]
    have e1 := hexVal_hexDigit (b / 16) (by omega)
    have e2 := hexVal_hexDigit (b % 16) (by omega)
    have e3 : 16 * (b / 16) + b % 16 = b := by omega
    have e4 : b / 16 < 8 ↔ b < 128 := by omega
    simp only [List.cons_append, List.nil_append]
    rw [litBody.eq_def]
    simp only [e1, e2, e3, e4]
    simp

theorem litBody_escBytes (bytes : Bool) : ∀ (bs : List Nat), (∀ b ∈ bs, b < 256) →
    litBody bytes (escBytes bs) = if bytes = true ∨ ∀ b ∈ bs, b < 128 then some bs else none
  | [], _ => by simp [escBytes, litBody]
  | b :: bs, h => by
    rw [escBytes, litBody_escByte bytes b (h b (by simp)), litBody_escBytes bytes bs (fun x hx => h x (by simp [hx]))]
    by_cases h1 : bytes = true
    · simp [h1]
    · by_cases h2 : b < 128 <;> by_cases h3 : ∀ x ∈ bs, x < 128 <;> simp [h1, h2, h3]

theorem utf8_lt (c : Char) : ∀ b ∈ utf8 c, b < 256 := by
  intro b hb
  simp only [utf8] at hb
  have hc : c.toNat < 1114112 := by
    have := c.valid
    simp only [UInt32.isValidChar, Nat.isValidChar] at this
    change c.val.toNat < _
    omega
  split at hb <;> (try split at hb) <;> (try split at hb) <;> simp at hb <;> omega

theorem utf8_ascii {c : Char} (h : c.toNat < 128) : utf8 c = [c.toNat] := by
  unfold utf8; simp [h]

theorem utf8_not_ascii {c : Char} (h : 128 ≤ c.toNat) : ∃ b ∈ utf8 c, 128 ≤ b := by
  unfold utf8
  have h1 : ¬ c.toNat < 128 := by omega
  simp only [h1, if_false]
  split
  · exact ⟨_, List.mem_cons_self .., by omega⟩
  · split
    · exact ⟨_, List.mem_cons_self .., by omega⟩
    · exact ⟨_, List.mem_cons_self .., by omega⟩

theorem flatMap_utf8_lt (s : Str) : ∀ b ∈ s.flatMap utf8, b < 256 := by
  intro b hb
  obtain ⟨c, -, hc⟩ := List.mem_flatMap.mp hb
  exact utf8_lt c b hc

theorem flatMap_utf8_ascii : ∀ (s : Str), (∀ c ∈ s, c.toNat < 128) → s.flatMap utf8 = s.map Char.toNat
  | [], _ => rfl
  | c :: s, h => by
    rw [List.flatMap_cons, utf8_ascii (h c (by simp)), flatMap_utf8_ascii s (fun x hx => h x (by simp [hx]))]
    rfl

theorem constText_eq (bs : List Nat) : constText bs = '"' :: escBytes bs := rfl

/-! ## C93: texts -/

/-- **C93.** The pattern for a value in the deserializer is a byte string literal with exactly the bytes of the value, for every
text. -/
theorem C93_pattern_exact (s : Str) : byteLit (byteString (s.flatMap utf8)) = some (s.flatMap utf8) := by
  have := litBody_escBytes true (s.flatMap utf8) (flatMap_utf8_lt s)
  simpa [byteString, byteLit] using this

example : byteString ("a\"\\\n\x00é7".toList.flatMap utf8) = "b\"a\\\"\\\\\\n\\0\\xC3\\xA97\"".toList ∧
    byteString ("\x007".toList.flatMap utf8) = "b\"\\x007\"".toList := by decide +kernel

/-- **C93** (partial). The constant for a value is a string literal with exactly the characters of the value, if all of them are in
ASCII. Missing: other characters (`C93_not_ascii_panics`). -/
theorem C93_constant_exact_partial (s : Str) (h : ∀ c ∈ s, c.toNat < 128) :
    strLit (constText (s.flatMap utf8)) = some (s.map Char.toNat) := by
  have h1 := litBody_escBytes false (s.flatMap utf8) (flatMap_utf8_lt s)
  rw [flatMap_utf8_ascii s h] at h1 ⊢
  rw [constText_eq, strLit, h1, if_pos]
  right
  intro b hb
  obtain ⟨c, hc, rfl⟩ := List.mem_map.mp hb
  exact h c hc

example : constText ("say \"b\"".toList.flatMap utf8) = "\"say \\\"b\\\"\"".toList ∧
    constText ("bb".toList.flatMap utf8) = "\"bb\"".toList ∧ ∀ c ∈ "say \"b\"".toList, c.toNat < 128 := by decide +kernel

/-- **C93** (negation). For every value with a character outside of ASCII, the text of the constant is not a literal: `\x` with more
than `7F`. `TokenStream::from_str(…).unwrap()` panics (enum_const.rs 64). -/
theorem C93_not_ascii_panics (s : Str) (c : Char) (hc : c ∈ s) (h : 128 ≤ c.toNat) :
    strLit (constText (s.flatMap utf8)) = none := by
  rw [constText_eq, strLit, litBody_escBytes false (s.flatMap utf8) (flatMap_utf8_lt s), if_neg]
  rintro (h' | h')
  · cases h'
  · obtain ⟨b, hb, hb'⟩ := utf8_not_ascii h
    have := h' b (List.mem_flatMap.mpr ⟨c, hc, hb⟩)
    omega

example : constText ("Größe".toList.flatMap utf8) = "\"Gr\\xC3\\xB6\\xC3\\x9Fe\"".toList ∧ 'ö' ∈ "Größe".toList ∧
    128 ≤ 'ö'.toNat := by decide +kernel

/-! ## Kinds of constants -/

/-- The base types; `get_simple_enum_base_type`, enumeration.rs 154-166, replaces `String` by `str`. -/
inductive BTy
  | str | string
  | int (t : RustInt)
  | float (wide : Bool)
  | bool
  /-- a restricted type with the name `n` -/
  | restr (n : Nat) (t : BTy)

/-- Generated expressions. -/
inductive Code
  /-- `b"…"` -/
  | bytes (s : Str)
  /-- `"…"` -/
  | text (s : Str)
  | int (t : RustInt) (v : Int)
  | float (wide : Bool) (s : Str)
  | bool (b : Bool)
  /-- `N(…)` -/
  | tuple (n : Nat) (c : Code)

/-- `make_value_renderer` with `ValueGeneratorMode::Literal`. -/
def literalCode (w : Nat) : BTy → Str → Option Code
  | .str, s => some (.bytes s)
  | .string, _ => none
  | .int t, s => (parseInt w t s).map fun _ => .bytes s
  | .float _, _ => none
  | .bool, _ => none
  | .restr n t, s => (literalCode w t s).map (.tuple n)

/-- `make_value_renderer` with `ValueGeneratorMode::Constant`. -/
def constantCode (E : Env) : BTy → Str → Except DErr Code
  | .str, s => .ok (.text s)
  | .string, _ => .error .invalid
  | .int t, s => match parseInt E.w t s with
    | some v => .ok (.int t v)
    | none => .error .invalid
  | .float d, s =>
    if parseFloat s then (if E.finite d s then .ok (.float d s) else .error .panic) else .error .invalid
  | .bool, s => match boolDefault s with
    | some b => .ok (.bool b)
    | none => .error .invalid
  | .restr n t, s => (constantCode E t s).map (.tuple n)

/-- `EnumerationVariantValue`, models/data/enumeration.rs. -/
inductive VValue
  | none
  | byteLiteral (c : Code)
  | constant (c : Code)

/-- The value of a variant, enumeration.rs 102-131; `none`: the generator panics. -/
def variantValue (E : Env) (base : BTy) (s : Str) : Option VValue :=
  match literalCode E.w base s with
  | some c => some (.byteLiteral c)
  | none =>
    match constantCode E base s with
    | .ok c => some (.constant c)
    | .error .invalid => some .none
    | .error .panic => Option.none

/-- The generated `pub const …: &str = …` for a `ByteLiteral`, enum_const.rs 60-70, as code points; `none` if the generator panics or
the code has another type. -/
def strConst : Code → Option (List Nat)
  | .bytes s => strLit (constText (s.flatMap utf8))
  | _ => none

/-- The arm of `match bytes` for a variant, deserialize.rs 756-768: the bytes it matches; the outer `none` if it is not a pattern for
bytes, the inner one if there is no arm. -/
def matchArm (s : Str) : VValue → Option (Option (List Nat))
  | .none => some (byteLit (byteString (s.flatMap utf8)))
  | .byteLiteral (.bytes s) => some (byteLit (byteString (s.flatMap utf8)))
  | .byteLiteral _ => Option.none
  | .constant _ => some Option.none

/-- **C93** (partial). For enumerations of texts and of integers: every value in ASCII (that the integer type has) gets a constant equal
to it, and the deserializer matches exactly its bytes. Missing: `C93_not_ascii_panics`, `C93_restricted_integer_wrong`,
`C93_infinite_constant_panics`. -/
theorem C93_text_and_integers_partial (E : Env) (base : BTy) (s : Str) (h : ∀ c ∈ s, c.toNat < 128)
    (hb : base = .str ∨ ∃ t v, base = .int t ∧ parseInt E.w t s = some v) :
    ∃ c, variantValue E base s = some (.byteLiteral c) ∧ strConst c = some (s.map Char.toNat) ∧
      matchArm s (.byteLiteral c) = some (some (s.flatMap utf8)) := by
  have hl : literalCode E.w base s = some (.bytes s) := by
    rcases hb with rfl | ⟨t, v, rfl, hv⟩
    · rfl
    · simp [literalCode, hv]
  exact ⟨.bytes s, by simp [variantValue, hl], C93_constant_exact_partial s h, by
    rw [matchArm, C93_pattern_exact]⟩

example : parseInt 64 .u8 "007".toList = some 7 ∧ ∀ c ∈ "007".toList, c.toNat < 128 := by decide +kernel

/-- **C93.** Values that the base type cannot have, and values of restricted texts, get no constant; the deserializer matches their
bytes. -/
theorem C93_no_constant (E : Env) (base : BTy) (s : Str)
    (hb : (∃ t, base = .int t ∧ parseInt E.w t s = Option.none) ∨ (∃ n, base = .restr n .string) ∨
      (∃ d, base = .float d ∧ parseFloat s = false) ∨ (base = .bool ∧ boolDefault s = Option.none)) :
    variantValue E base s = some .none ∧ matchArm s .none = some (some (s.flatMap utf8)) := by
  refine ⟨?_, by rw [matchArm, C93_pattern_exact]⟩
  rcases hb with ⟨t, rfl, h⟩ | ⟨n, rfl⟩ | ⟨d, rfl, h⟩ | ⟨rfl, h⟩
  · simp [variantValue, literalCode, constantCode, h]
  · rfl
  · simp [variantValue, literalCode, constantCode, h]
  · simp [variantValue, literalCode, constantCode, h]

example : parseInt 64 .u8 "256".toList = Option.none := by decide +kernel

/-- **C93.** Finite numbers get a constant of the base type, and are not compared as texts. -/
theorem C93_numbers_by_value (E : Env) (d : Bool) (s : Str) (h : parseFloat s = true) (hf : E.finite d s = true) :
    variantValue E (.float d) s = some (.constant (.float d s)) ∧ matchArm s (.constant (.float d s)) = some Option.none := by
  simp [variantValue, literalCode, constantCode, h, hf, matchArm]

example : parseFloat "1.50".toList = true ∧ exEnv.finite true "1.50".toList = true := by decide +kernel

/-- **C93** (negation). An enumeration of a restricted integer type does not compile: the type is called with a byte string, both in the
constant (of type `&str`) and in the pattern. -/
theorem C93_restricted_integer_wrong (E : Env) (n : Nat) (t : RustInt) (s : Str) (v : Int) (h : parseInt E.w t s = some v) :
    variantValue E (.restr n (.int t)) s = some (.byteLiteral (.tuple n (.bytes s))) ∧
    strConst (.tuple n (.bytes s)) = Option.none ∧ matchArm s (.byteLiteral (.tuple n (.bytes s))) = Option.none := by
  simp [variantValue, literalCode, h, strConst, matchArm]

/-- **C93** (negation). The values `INF`, `-INF` and `NaN` of a floating point type make the generator panic. -/
theorem C93_infinite_constant_panics (E : Env) (d : Bool) (s : Str) (hs : s ∈ ["INF".toList, "-INF".toList, "NaN".toList]) :
    variantValue E (.float d) s = Option.none := by
  have hp : parseFloat s = true ∧ isNumber (dropSign s) = false := by
    simp only [List.mem_cons, List.not_mem_nil, or_false] at hs
    rcases hs with rfl | rfl | rfl <;> decide
  simp [variantValue, literalCode, constantCode, hp.1, Env.finite, hp.2]

/-- **C93** (negation). Integers are still compared as texts: the enumeration with the value `5` of `xs:int` refuses `05` and `+5`, which
`xs:int` reads as 5. (Numbers with a fraction are compared as values.) -/
theorem C93_integers_by_text :
    parseInt 64 .i32 "5".toList = some 5 ∧ parseInt 64 .i32 "+5".toList = some 5 ∧
    ∃ c, variantValue exEnv (.int .i32) "5".toList = some (.byteLiteral c) ∧
      matchArm "5".toList (.byteLiteral c) = some (some [53]) ∧ "+5".toList.flatMap utf8 ≠ [53] :=
  ⟨by decide +kernel, by decide +kernel, .bytes "5".toList, by rfl, by decide +kernel, by decide⟩

end Verif.Generate.EnumConst

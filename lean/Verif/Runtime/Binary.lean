import Verif.Runtime.Lists

/-!
# Binary values (C17)

* `HexBinary` (xsd-parser-types/src/xml/hex.rs 108-126) uses the external crate const-hex;
* the `hexBinary` variant of `AnySimpleType` (xsd-parser-types/src/xml/any_simple_type.rs
  292-299 and 476-483) has its own encoder and decoder;
* `Base64Binary` (xsd-parser-types/src/xml/base64.rs 117-140) uses the external crate base64;
* `HexString::len` (hex.rs 19-21), `Base64String::len` (base64.rs 22-25).
-/

namespace Verif.Rt

/-- A byte. -/
abbrev Byte := Fin 256

/-! ## Hexadecimal digits -/

def hexLower (d : Nat) : Char := if d < 10 then Char.ofNat (48 + d) else Char.ofNat (87 + d)
def hexUpper (d : Nat) : Char := if d < 10 then Char.ofNat (48 + d) else Char.ofNat (55 + d)

/-- The value of a hexadecimal digit, `char::to_digit(16)`. -/
def hexVal (c : Char) : Option Nat :=
  let n := c.toNat
  if 48 ≤ n ∧ n ≤ 57 then some (n - 48)
  else if 97 ≤ n ∧ n ≤ 102 then some (n - 87)
  else if 65 ≤ n ∧ n ≤ 70 then some (n - 55)
  else none

theorem hexVal_lower : ∀ d : Fin 16, hexVal (hexLower d.val) = some d.val := by decide
theorem hexVal_upper : ∀ d : Fin 16, hexVal (hexUpper d.val) = some d.val := by decide

theorem hexVal_lt {c : Char} {n : Nat} (h : hexVal c = some n) : n < 16 := by
  unfold hexVal at h
  simp only at h
  split at h
  · simp only [Option.some.injEq] at h; omega
  · split at h
    · simp only [Option.some.injEq] at h; omega
    · split at h
      · simp only [Option.some.injEq] at h; omega
      · cases h

/-! ## `HexBinary` -/

/-- `const_hex::encode`, used by hex.rs:113 (external): two lower-case digits per byte. -/
def hexEncode (bs : List Byte) : Str :=
  bs.flatMap fun b => [hexLower (b.val / 16), hexLower (b.val % 16)]

/-- Pairs of digits to bytes. -/
def hexPairs : Str → Option (List Byte)
  | [] => some []
  | [_] => none
  | a :: b :: r =>
    match hexVal a, hexVal b, hexPairs r with
    | some x, some y, some bs => some (Fin.ofNat 256 (16 * x + y) :: bs)
    | _, _, _ => none

/-- `const_hex::decode`, used by hex.rs:121 (external): an optional `0x` prefix is dropped,
then pairs of digits of either case; odd length and other characters are errors. -/
def hexDecode : Str → Option (List Byte)
  | '0' :: 'x' :: r => hexPairs r
  | s => hexPairs s

theorem hexPairs_encode (f : Nat → Char) (hf : ∀ d : Fin 16, hexVal (f d.val) = some d.val)
    (bs : List Byte) :
    hexPairs (bs.flatMap fun b => [f (b.val / 16), f (b.val % 16)]) = some bs := by
  induction bs with
  | nil => rfl
  | cons b bs ih =>
    have h1 := hf ⟨b.val / 16, by omega⟩
    have h2 := hf ⟨b.val % 16, by omega⟩
    simp only at h1 h2
    simp only [List.flatMap_cons, List.cons_append, List.nil_append, hexPairs, h1, h2, ih,
      Option.some.injEq, List.cons.injEq, and_true]
    apply Fin.ext
    simp only [Fin.ofNat]
    omega

theorem hexLower_ne_x : ∀ d : Fin 16, hexLower d.val ≠ 'x' := by decide

/-- **C17** for `HexBinary`: every byte string survives its hexadecimal text. -/
theorem C17_hex_round_trip (bs : List Byte) : hexDecode (hexEncode bs) = some bs := by
  have key := hexPairs_encode hexLower hexVal_lower bs
  unfold hexDecode
  split
  · next r heq =>
    exfalso
    cases bs with
    | nil => simp [hexEncode] at heq
    | cons b bs =>
      simp only [hexEncode, List.flatMap_cons, List.cons_append, List.nil_append,
        List.cons.injEq] at heq
      exact hexLower_ne_x ⟨b.val % 16, by omega⟩ heq.2.1
  · exact key

/-- **C17**: decoding accepts only pairs of hexadecimal digits, after an optional `0x`
prefix; the prefix is not part of the XML Schema lexical space. -/
theorem C17_hex_decode_accepts (s : Str) (bs : List Byte) (h : hexPairs s = some bs) :
    s.length = 2 * bs.length ∧ ∀ c ∈ s, (hexVal c).isSome = true := by
  match s with
  | [] => simp only [hexPairs, Option.some.injEq] at h; subst h; simp
  | [_] => simp [hexPairs] at h
  | a :: b :: r =>
    simp only [hexPairs] at h
    cases ha : hexVal a with
    | none => rw [ha] at h; simp at h
    | some x =>
      cases hb : hexVal b with
      | none => rw [ha, hb] at h; simp at h
      | some y =>
        cases hr : hexPairs r with
        | none => rw [ha, hb, hr] at h; simp at h
        | some rs =>
          rw [ha, hb, hr] at h
          simp only [Option.some.injEq] at h
          subst h
          have ih := C17_hex_decode_accepts r rs hr
          refine ⟨by simp [ih.1]; omega, ?_⟩
          intro c hc
          simp only [List.mem_cons] at hc
          rcases hc with rfl | rfl | hc
          · simp [ha]
          · simp [hb]
          · exact ih.2 c hc

/-- `HexString::len`, hex.rs:19-21. -/
def hexStringLen (s : Str) : Nat := s.length / 2

/-- **C17**: `HexString::len` of an encoded byte string is the number of bytes. -/
theorem C17_hex_string_len (bs : List Byte) : hexStringLen (hexEncode bs) = bs.length := by
  have := (C17_hex_decode_accepts (hexEncode bs) bs
    (hexPairs_encode hexLower hexVal_lower bs)).1
  unfold hexStringLen
  omega

/-! ## The `hexBinary` variant of `AnySimpleType` -/

/-- Encoder, any_simple_type.rs:292-299: `{b:02X}` for every byte. -/
def anyHexEncode (bs : List Byte) : Str :=
  bs.flatMap fun b => [hexUpper (b.val / 16), hexUpper (b.val % 16)]

/-- `u8::from_str_radix(_, 16)` on a string of two characters (Rust std): a leading `+` is
accepted. -/
def radix16 (a b : Char) : Option Nat :=
  if a = '+' then hexVal b
  else
    match hexVal a, hexVal b with
    | some x, some y => some (16 * x + y)
    | _, _ => none

/-- Decoder, any_simple_type.rs:476-483, for ASCII text: the text is cut into slices of two
bytes, slicing past the end panics, an invalid slice stops with an error. (For non-ASCII
text, slicing inside a character panics as well; not modelled.) -/
def anyHexDecode : Str → Res (List Byte)
  | [] => .ok []
  | [_] => .panic
  | a :: b :: r =>
    match radix16 a b with
    | none => .err
    | some n =>
      match anyHexDecode r with
      | .ok bs => .ok (Fin.ofNat 256 n :: bs)
      | .err => .err
      | .panic => .panic

theorem hexUpper_ne_plus : ∀ d : Fin 16, hexUpper d.val ≠ '+' := by decide

/-- **C17** for `AnySimpleType::HexBinary`: every byte string survives. -/
theorem C17_any_hex_round_trip (bs : List Byte) : anyHexDecode (anyHexEncode bs) = .ok bs := by
  unfold anyHexEncode
  induction bs with
  | nil => rfl
  | cons b bs ih =>
    have h1 := hexVal_upper ⟨b.val / 16, by omega⟩
    have h2 := hexVal_upper ⟨b.val % 16, by omega⟩
    have h3 := hexUpper_ne_plus ⟨b.val / 16, by omega⟩
    simp only at h1 h2 h3
    simp only [List.flatMap_cons, List.cons_append, List.nil_append, anyHexDecode, radix16, h1,
      h2, h3, if_false, ih]
    congr 1
    congr 1
    apply Fin.ext
    simp only [Fin.ofNat]
    omega

/-- **C17** is false for `AnySimpleType`: the text `F` panics and the text `+F`, which is not
hexadecimal, is read as the byte 15. -/
theorem C17_any_hex_panics_and_accepts_sign :
    anyHexDecode ['F'] = .panic ∧ anyHexDecode ['+', 'F'] = .ok [15] := by decide

/-- Every text of odd length whose pairs are valid makes the decoder panic. -/
theorem C17_any_hex_odd_panics (bs : List Byte) (c : Char) :
    anyHexDecode (anyHexEncode bs ++ [c]) = .panic := by
  unfold anyHexEncode
  induction bs with
  | nil => rfl
  | cons b bs ih =>
    have h1 := hexVal_upper ⟨b.val / 16, by omega⟩
    have h2 := hexVal_upper ⟨b.val % 16, by omega⟩
    have h3 := hexUpper_ne_plus ⟨b.val / 16, by omega⟩
    simp only at h1 h2 h3
    simp only [List.flatMap_cons, List.cons_append, List.nil_append, anyHexDecode, radix16, h1,
      h2, h3, if_false, ih]

/-! ## Base64 -/

/-- The alphabet of `base64::engine::general_purpose::STANDARD` (external). -/
def b64Char (n : Nat) : Char :=
  if n < 26 then Char.ofNat (65 + n)
  else if n < 52 then Char.ofNat (71 + n)
  else if n < 62 then Char.ofNat (n - 4)
  else if n = 62 then '+' else '/'

def b64Val (c : Char) : Option Nat :=
  let n := c.toNat
  if 65 ≤ n ∧ n ≤ 90 then some (n - 65)
  else if 97 ≤ n ∧ n ≤ 122 then some (n - 71)
  else if 48 ≤ n ∧ n ≤ 57 then some (n + 4)
  else if c = '+' then some 62
  else if c = '/' then some 63
  else none

theorem b64Val_char : ∀ d : Fin 64, b64Val (b64Char d.val) = some d.val := by decide
theorem b64Char_ne_pad : ∀ d : Fin 64, b64Char d.val ≠ '=' := by decide

/-- `STANDARD.encode`, used by base64.rs:123 (external): three bytes to four characters,
padded with `=`. -/
def b64Encode : List Byte → Str
  | [] => []
  | [a] => [b64Char (a.val / 4), b64Char (a.val % 4 * 16), '=', '=']
  | [a, b] => [b64Char (a.val / 4), b64Char (a.val % 4 * 16 + b.val / 16),
      b64Char (b.val % 16 * 4), '=']
  | a :: b :: c :: r =>
    b64Char (a.val / 4) :: b64Char (a.val % 4 * 16 + b.val / 16) ::
      b64Char (b.val % 16 * 4 + c.val / 64) :: b64Char (c.val % 64) :: b64Encode r

/-- `STANDARD.decode`, used by base64.rs:133 (external): groups of four characters, padding
required in the last group, no stray bits. -/
def b64Decode : Str → Option (List Byte)
  | [] => some []
  | w :: x :: y :: z :: r =>
    match b64Val w, b64Val x with
    | some a, some b =>
      if y = '=' then
        if z = '=' ∧ r = [] ∧ b % 16 = 0 then some [Fin.ofNat 256 (a * 4 + b / 16)] else none
      else
        match b64Val y with
        | none => none
        | some c =>
          if z = '=' then
            if r = [] ∧ c % 4 = 0 then
              some [Fin.ofNat 256 (a * 4 + b / 16), Fin.ofNat 256 (b % 16 * 16 + c / 4)]
            else none
          else
            match b64Val z, b64Decode r with
            | some d, some bs =>
              some (Fin.ofNat 256 (a * 4 + b / 16) :: Fin.ofNat 256 (b % 16 * 16 + c / 4) ::
                Fin.ofNat 256 (c % 4 * 64 + d) :: bs)
            | _, _ => none
    | _, _ => none
  | _ => none

theorem b64v (n : Nat) (h : n < 64) : b64Val (b64Char n) = some n := b64Val_char ⟨n, h⟩
theorem b64p (n : Nat) (h : n < 64) : b64Char n ≠ '=' := b64Char_ne_pad ⟨n, h⟩

theorem byte_eq (a : Byte) (n : Nat) (h : n = a.val) : Fin.ofNat 256 n = a := by
  apply Fin.ext; simp only [Fin.ofNat]; omega

/-- **C17** for base64: every byte string survives its base64 text. -/
theorem C17_base64_round_trip (bs : List Byte) : b64Decode (b64Encode bs) = some bs := by
  match bs with
  | [] => rfl
  | [a] =>
    have h1 := b64v (a.val / 4) (by omega)
    have h2 := b64v (a.val % 4 * 16) (by omega)
    simp only [b64Encode, b64Decode, h1, h2, if_true]
    rw [if_pos ⟨trivial, trivial, by omega⟩, byte_eq a _ (by omega)]
  | [a, b] =>
    have h1 := b64v (a.val / 4) (by omega)
    have h2 := b64v (a.val % 4 * 16 + b.val / 16) (by omega)
    have h3 := b64v (b.val % 16 * 4) (by omega)
    have p3 := b64p (b.val % 16 * 4) (by omega)
    simp only [b64Encode, b64Decode, h1, h2, h3, p3, if_true, if_false]
    rw [if_pos ⟨trivial, by omega⟩, byte_eq a _ (by omega), byte_eq b _ (by omega)]
  | a :: b :: c :: r =>
    have h1 := b64v (a.val / 4) (by omega)
    have h2 := b64v (a.val % 4 * 16 + b.val / 16) (by omega)
    have h3 := b64v (b.val % 16 * 4 + c.val / 64) (by omega)
    have h4 := b64v (c.val % 64) (by omega)
    have p3 := b64p (b.val % 16 * 4 + c.val / 64) (by omega)
    have p4 := b64p (c.val % 64) (by omega)
    have ih := C17_base64_round_trip r
    simp only [b64Encode, b64Decode, h1, h2, h3, h4, p3, p4, if_false, ih]
    rw [byte_eq a _ (by omega), byte_eq b _ (by omega), byte_eq c _ (by omega)]

/-- `Base64String::len`, base64.rs:22-25. -/
def base64StringLen (s : Str) : Nat :=
  (s.reverse.dropWhile fun c => c == '=').length * 3 / 4

/-- The characters of an encoding that are not padding. -/
theorem b64_unpadded (bs : List Byte) :
    ∃ body k, b64Encode bs = body ++ List.replicate k '=' ∧ (∀ c ∈ body, c ≠ '=') ∧
      body.length * 3 / 4 = bs.length := by
  match bs with
  | [] => exact ⟨[], 0, rfl, by simp, rfl⟩
  | [a] =>
    refine ⟨[b64Char (a.val / 4), b64Char (a.val % 4 * 16)], 2, rfl, ?_, by simp⟩
    intro c hc
    simp only [List.mem_cons, List.not_mem_nil, or_false] at hc
    rcases hc with rfl | rfl <;> exact b64p _ (by omega)
  | [a, b] =>
    refine ⟨[b64Char (a.val / 4), b64Char (a.val % 4 * 16 + b.val / 16),
      b64Char (b.val % 16 * 4)], 1, rfl, ?_, by simp⟩
    intro c hc
    simp only [List.mem_cons, List.not_mem_nil, or_false] at hc
    rcases hc with rfl | rfl | rfl <;> exact b64p _ (by omega)
  | a :: b :: c :: r =>
    obtain ⟨body, k, h1, h2, h3⟩ := b64_unpadded r
    refine ⟨b64Char (a.val / 4) :: b64Char (a.val % 4 * 16 + b.val / 16) ::
      b64Char (b.val % 16 * 4 + c.val / 64) :: b64Char (c.val % 64) :: body, k, ?_, ?_, ?_⟩
    · simp [b64Encode, h1]
    · intro x hx
      simp only [List.mem_cons] at hx
      rcases hx with rfl | rfl | rfl | rfl | hx
      · exact b64p _ (by omega)
      · exact b64p _ (by omega)
      · exact b64p _ (by omega)
      · exact b64p _ (by omega)
      · exact h2 x hx
    · simp only [List.length_cons]; omega

/-- **C17**: `Base64String::len` of an encoded byte string is the number of bytes. -/
theorem C17_base64_string_len (bs : List Byte) : base64StringLen (b64Encode bs) = bs.length := by
  obtain ⟨body, k, h1, h2, h3⟩ := b64_unpadded bs
  unfold base64StringLen
  rw [h1, List.reverse_append, List.reverse_replicate]
  have hd : (List.replicate k '=' ++ body.reverse).dropWhile (fun c => c == '=') = body.reverse := by
    have hx : ∀ k, (List.replicate k '=' ++ body.reverse).dropWhile (fun c => c == '=')
        = body.reverse.dropWhile (fun c => c == '=') := by
      intro k
      induction k with
      | zero => rfl
      | succ k ih => simpa [List.replicate_succ, List.dropWhile_cons] using ih
    rw [hx]
    cases hb : body.reverse with
    | nil => rfl
    | cons c r =>
      have hm : c ∈ body := by
        rw [← List.mem_reverse, hb]; simp
      have := h2 c hm
      simp [List.dropWhile_cons, this]
  rw [hd, List.length_reverse]
  exact h3

/-- Non-vacuity: concrete encodings. -/
example :
    hexEncode [0, 255, 26] = ['0', '0', 'f', 'f', '1', 'a'] ∧
    hexDecode ['0', 'x', 'F', 'f'] = some [255] ∧
    hexDecode ['1'] = none ∧
    b64Encode [77, 97] = ['T', 'W', 'E', '='] ∧
    b64Decode ['T', 'W', 'F', '='] = none := by decide

end Verif.Rt

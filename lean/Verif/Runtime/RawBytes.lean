/-!
# Byte strings in messages (C88)

Models `xsd-parser-types/src/misc/raw_byte_str.rs` (`format_utf8_slice`, the `Display` of names and values in errors)
and the `Display` of `Namespace` (`misc/namespace.rs` 77-87), which uses it. A byte is a number below 256.
-/
namespace Verif.Raw

/-- A digit of `{:02X}`. -/
def hexDigit (n : Nat) : Char := "0123456789ABCDEF".toList.getD n '?'

/-- `u8::is_ascii_control` (std). -/
def isAsciiControl (b : Nat) : Bool := b < 32 || b == 127

/-- Body of the loop of `format_utf8_slice`, raw_byte_str.rs 69-80; `*byte as char` is the character with this number. -/
def printByte (b : Nat) : List Char :=
  if isAsciiControl b then ['\\', 'x', hexDigit (b / 16), hexDigit (b % 16)] else [Char.ofNat b]

/-- `format_utf8_slice`, raw_byte_str.rs 69-80; `Display for Namespace`, namespace.rs 83-87. -/
def printBytes (bs : List Nat) : List Char := bs.flatMap printByte

/-- `Display for RawByteStr`, raw_byte_str.rs 57-65: in quotes. -/
def printRaw (bs : List Nat) : List Char := '"' :: (printBytes bs ++ ['"'])

/-- UTF-8 (RFC 3629), the bytes of a character. -/
def utf8 (c : Char) : List Nat :=
  let n := c.toNat
  if n < 0x80 then [n]
  else if n < 0x800 then [0xC0 + n / 64, 0x80 + n % 64]
  else if n < 0x10000 then [0xE0 + n / 4096, 0x80 + n / 64 % 64, 0x80 + n % 64]
  else [0xF0 + n / 262144, 0x80 + n / 4096 % 64, 0x80 + n / 64 % 64, 0x80 + n % 64]

/-- What is printed for the bytes of a text. -/
def shown (s : List Char) : List Char := printBytes (s.flatMap utf8)

/-! ## Specification -/

/-- Printable ASCII. -/
def Printable (c : Char) : Prop := 32 ≤ c.toNat ∧ c.toNat < 127

/-- A character that starts a new line, rings the bell, … -/
def IsControl (c : Char) : Prop := c.toNat < 32 ∨ c.toNat = 127

/-! ## Proofs -/

theorem toNat_ofNat {b : Nat} (h : b < 256) : (Char.ofNat b).toNat = b := by
  have : b.isValidChar := Or.inl (by omega)
  simp [Char.ofNat, this, Char.toNat, Char.ofNatAux]

theorem shown_cons (c : Char) (s : List Char) : shown (c :: s) = printBytes (utf8 c) ++ shown s := by
  simp [shown, printBytes]

theorem shown_printable {c : Char} (h : Printable c) : printBytes (utf8 c) = [c] := by
  obtain ⟨h1, h2⟩ := h
  have h3 : isAsciiControl c.toNat = false := by simp [isAsciiControl]; omega
  have h4 : c.toNat < 0x80 := by omega
  simp [utf8, h4, printBytes, printByte, h3]

theorem printByte_length (b : Nat) : 1 ≤ (printByte b).length := by
  unfold printByte; split <;> simp

theorem shown_long {c : Char} (h : ¬ Printable c) : 2 ≤ (printBytes (utf8 c)).length := by
  unfold utf8
  simp only
  split
  · rename_i h1
    have h3 : isAsciiControl c.toNat = true := by
      simp only [Printable] at h
      simp [isAsciiControl]; omega
    simp [printBytes, printByte, h3]
  · have p := printByte_length
    split
    · have a := p (0xC0 + c.toNat / 64)
      have b := p (0x80 + c.toNat % 64)
      simp only [printBytes, List.flatMap_cons, List.flatMap_nil, List.length_append, List.length_nil]
      omega
    · split
      · have a := p (0xE0 + c.toNat / 4096)
        have b := p (0x80 + c.toNat / 64 % 64)
        simp only [printBytes, List.flatMap_cons, List.flatMap_nil, List.length_append, List.length_nil]
        omega
      · have a := p (0xF0 + c.toNat / 262144)
        have b := p (0x80 + c.toNat / 4096 % 64)
        simp only [printBytes, List.flatMap_cons, List.flatMap_nil, List.length_append, List.length_nil]
        omega

theorem shown_length (s : List Char) : s.length ≤ (shown s).length := by
  induction s with
  | nil => simp
  | cons c s ih =>
    rw [shown_cons, List.length_append, List.length_cons]
    by_cases h : Printable c
    · rw [shown_printable h]; simp only [List.length_cons, List.length_nil]; omega
    · have := shown_long h; omega

/-- A text is printed as it is exactly if it consists of printable ASCII characters. -/
theorem C88_shown_exact_iff (s : List Char) : shown s = s ↔ ∀ c ∈ s, Printable c := by
  induction s with
  | nil => simp [shown, printBytes]
  | cons c s ih =>
    rw [shown_cons]
    by_cases h : Printable c
    · rw [shown_printable h]
      simp only [List.cons_append, List.nil_append, List.cons.injEq, true_and, ih, List.mem_cons, forall_eq_or_imp, h]
    · constructor
      · intro e
        have h1 := congrArg List.length e
        have h2 := shown_long h
        have h3 := shown_length s
        simp only [List.length_append, List.length_cons] at h1
        omega
      · intro e
        exact absurd (e c List.mem_cons_self) h

example : shown "http://example.com/a".toList = "http://example.com/a".toList := by decide +kernel

theorem hexDigit_eq {n : Nat} (h : n < 16) : (hexDigit n).toNat = if n < 10 then 48 + n else 55 + n := by
  have : ∀ m : Fin 16, (hexDigit m.1).toNat = if m.1 < 10 then 48 + m.1 else 55 + m.1 := by decide
  exact this ⟨n, h⟩

/-- Whatever the bytes are, a message contains no control characters of ASCII: it stays on its line. -/
theorem C88_no_control (bs : List Nat) (hb : ∀ b ∈ bs, b < 256) : ∀ c ∈ printBytes bs, ¬ IsControl c := by
  intro c hc
  obtain ⟨b, hm, hc⟩ := List.mem_flatMap.1 hc
  have h := hb b hm
  unfold printByte at hc
  unfold IsControl
  split at hc
  · have h1 := hexDigit_eq (n := b / 16) (by omega)
    have h2 := hexDigit_eq (n := b % 16) (by omega)
    simp only [List.mem_cons, List.not_mem_nil, or_false] at hc
    rcases hc with rfl | rfl | rfl | rfl
    · decide
    · decide
    · rw [h1]; split <;> omega
    · rw [h2]; split <;> omega
  · rename_i hn
    simp only [List.mem_cons, List.not_mem_nil, or_false] at hc
    subst hc
    rw [toNat_ofNat h]
    simp only [isAsciiControl, Bool.or_eq_true, decide_eq_true_eq, beq_iff_eq] at hn
    exact hn

/-- Reading a message back. -/
def unhex (c : Char) : Nat := if c.toNat < 58 then c.toNat - 48 else c.toNat - 55

def unprint : List Char → List Nat
  | '\\' :: 'x' :: a :: b :: rest => (16 * unhex a + unhex b) :: unprint rest
  | c :: rest => c.toNat :: unprint rest
  | [] => []

theorem unhex_hexDigit {n : Nat} (h : n < 16) : unhex (hexDigit n) = n := by
  have : ∀ m : Fin 16, unhex (hexDigit m.1) = m.1 := by decide
  exact this ⟨n, h⟩

theorem unprint_printBytes : ∀ (bs : List Nat), (∀ b ∈ bs, b < 256 ∧ b ≠ 92) → unprint (printBytes bs) = bs := by
  intro bs
  induction bs with
  | nil => intro _; rfl
  | cons b bs ih =>
    intro hb
    have h := hb b List.mem_cons_self
    have ih := ih fun x hx => hb x (List.mem_cons_of_mem _ hx)
    show unprint (printByte b ++ printBytes bs) = _
    unfold printByte
    split
    · simp only [List.cons_append, List.nil_append, unprint, ih, unhex_hexDigit (n := b / 16) (by omega),
        unhex_hexDigit (n := b % 16) (by omega)]
      congr 1
      omega
    · rw [List.cons_append, List.nil_append]
      rw [unprint, ih, toNat_ofNat h.1]
      intro a b' x e
      have := congrArg Char.toNat e
      rw [toNat_ofNat h.1] at this
      intro _
      exact h.2 (by simpa using this)

/-- Different byte strings without a backslash have different messages. -/
theorem C88_injective_partial (bs bs' : List Nat) (hb : ∀ b ∈ bs, b < 256 ∧ b ≠ 92)
    (hb' : ∀ b ∈ bs', b < 256 ∧ b ≠ 92) (h : printBytes bs = printBytes bs') : bs = bs' := by
  rw [← unprint_printBytes bs hb, h, unprint_printBytes bs' hb']

example : printBytes [97, 10, 228] = "a\\x0Aä".toList := by decide +kernel

/-- **Finding**: the backslash is not escaped, so that a message can stand for two byte strings, a line feed and the
four characters `\x0A`. -/
theorem C88_ambiguous : printRaw [10] = printRaw ("\\x0A".toList.flatMap utf8) ∧ [10] ≠ "\\x0A".toList.flatMap utf8 := by
  decide +kernel

/-- **Finding**: text that is not ASCII is printed byte by byte: the message for `Größe` names another text, the one
whose characters are the bytes. -/
theorem C88_non_ascii_garbled : shown "Größe".toList = "GrÃ¶Ã\x9fe".toList := by decide +kernel

/-- For every character outside of ASCII. -/
theorem C88_non_ascii_never_shown (s : List Char) (c : Char) (hc : c ∈ s) (h : 128 ≤ c.toNat) : shown s ≠ s := by
  intro e
  have := ((C88_shown_exact_iff s).1 e c hc).2
  omega

end Verif.Raw

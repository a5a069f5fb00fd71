/-!
# Decimal rendering of numbers

Models the effect of `format!("{n}")` for `usize`: the shortest decimal representation.
-/
namespace Verif.Decimal

/-- The character of a decimal digit. -/
def digitChar (d : Nat) : Char := Char.ofNat (48 + d)

/-- `format!("{n}")` for an unsigned number (Rust std, assumed behaviour). -/
def dec (n : Nat) : List Char :=
  if n < 10 then [digitChar n] else dec (n / 10) ++ [digitChar (n % 10)]
termination_by n
decreasing_by omega

/-- The number denoted by a decimal string (specification). -/
def val (l : List Char) : Nat := l.foldl (fun a c => a * 10 + (c.toNat - 48)) 0

theorem digitChar_toNat (d : Nat) (h : d < 10) : (digitChar d).toNat - 48 = d := by
  have : d = 0 ∨ d = 1 ∨ d = 2 ∨ d = 3 ∨ d = 4 ∨ d = 5 ∨ d = 6 ∨ d = 7 ∨ d = 8 ∨ d = 9 := by omega
  rcases this with rfl | rfl | rfl | rfl | rfl | rfl | rfl | rfl | rfl | rfl <;> rfl

theorem val_dec (n : Nat) : val (dec n) = n := by
  induction n using Nat.strongRecOn with
  | ind n ih =>
    unfold dec
    split
    · rename_i h
      simp [val, digitChar_toNat n h]
    · rename_i h
      have := ih (n / 10) (by omega)
      simp only [val, List.foldl_append, List.foldl_cons, List.foldl_nil] at *
      rw [this, digitChar_toNat _ (Nat.mod_lt _ (by decide))]
      omega

theorem dec_inj {m n : Nat} (h : dec m = dec n) : m = n := by
  have := congrArg val h
  rwa [val_dec, val_dec] at this

theorem dec_ne_nil (n : Nat) : dec n ≠ [] := by
  unfold dec
  split <;> simp

/-- Every character of a rendered number is an ASCII digit. -/
theorem dec_isDigit (n : Nat) : ∀ c ∈ dec n, c.isDigit = true := by
  induction n using Nat.strongRecOn with
  | ind n ih =>
    unfold dec
    have key : ∀ d, d < 10 → (digitChar d).isDigit = true := by
      intro d hd
      have : d = 0 ∨ d = 1 ∨ d = 2 ∨ d = 3 ∨ d = 4 ∨ d = 5 ∨ d = 6 ∨ d = 7 ∨ d = 8 ∨ d = 9 := by omega
      rcases this with rfl | rfl | rfl | rfl | rfl | rfl | rfl | rfl | rfl | rfl <;> rfl
    split
    · rename_i h
      intro c hc
      simp at hc; subst hc; exact key n h
    · rename_i h
      intro c hc
      simp at hc
      rcases hc with hc | rfl
      · exact ih (n / 10) (by omega) c hc
      · exact key _ (Nat.mod_lt _ (by decide))

end Verif.Decimal

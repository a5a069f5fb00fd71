/-!
# Occurrence bounds (C43)

Models `xsd-parser/src/models/schema/occurs.rs` and `xsd-parser/src/models/data/occurs.rs`.
-/
namespace Verif.Occurs

/-- `MaxOccurs`, models/schema/occurs.rs:17-23. `usize` is modelled as `Nat` (no overflow). -/
inductive MaxOccurs where
  | unbounded
  | bounded (n : Nat)
deriving DecidableEq, Repr

/-- `impl Add for MaxOccurs`, models/schema/occurs.rs:34-43 (`AddAssign`, 45-52, is the same function). -/
def MaxOccurs.add : MaxOccurs → MaxOccurs → MaxOccurs
  | .bounded a, .bounded b => .bounded (a + b)
  | _, _ => .unbounded

/-- `impl Mul for MaxOccurs`, models/schema/occurs.rs:54-63 (`MulAssign`, 65-72, is the same function). -/
def MaxOccurs.mul : MaxOccurs → MaxOccurs → MaxOccurs
  | .bounded a, .bounded b => .bounded (a * b)
  | _, _ => .unbounded

/-- `impl Ord for MaxOccurs`, models/schema/occurs.rs:74-83. -/
def MaxOccurs.cmp : MaxOccurs → MaxOccurs → Ordering
  | .bounded a, .bounded b => compare a b
  | .unbounded, .unbounded => .eq
  | .bounded _, .unbounded => .lt
  | .unbounded, .bounded _ => .gt

/-- `Ord::max` derived from `cmp` (std: returns the second argument unless the first is greater). -/
def MaxOccurs.max (a b : MaxOccurs) : MaxOccurs :=
  match a.cmp b with
  | .gt => a
  | _ => b

/-- `Occurs`, models/data/occurs.rs:5-21. -/
inductive Container where
  | none
  | single
  | optional
  | dynamicList
  | staticList (n : Nat)
deriving DecidableEq, Repr

/-- `Occurs::from_occurs`, models/data/occurs.rs:27-35. -/
def fromOccurs (min : Nat) (max : MaxOccurs) : Container :=
  match min, max with
  | 0, .bounded 0 => .none
  | 1, .bounded 1 => .single
  | 0, .bounded 1 => .optional
  | a, .bounded b => if a = b then .staticList a else .dynamicList
  | _, _ => .dynamicList

/-- `Occurs::is_direct`, models/data/occurs.rs:46-48. -/
def Container.isDirect : Container → Bool
  | .single | .optional | .staticList _ => true
  | _ => false

/-! ## Specification -/

/-- The counts an XSD particle with bounds `min`/`max` allows. -/
def Allows (min : Nat) (max : MaxOccurs) (n : Nat) : Prop :=
  min ≤ n ∧ ∀ b, max = .bounded b → n ≤ b

/-- The numbers of values a field of the given shape (`()`, `T`, `Option<T>`, `Vec<T>`, `[T; n]`) can hold. -/
def Container.Holds : Container → Nat → Prop
  | .none, n => n = 0
  | .single, n => n = 1
  | .optional, n => n ≤ 1
  | .dynamicList, _ => True
  | .staticList k, n => n = k

/-- Bounds that allow at least one count. -/
def Consistent (min : Nat) (max : MaxOccurs) : Prop := ∃ n, Allows min max n

/-! ## Properties -/

/-- C43: adding bounds gives exactly the counts that split into one allowed count of each summand. -/
theorem C43_add_exact (m₁ m₂ : Nat) (M₁ M₂ : MaxOccurs) (n : Nat)
    (h₁ : Consistent m₁ M₁) (h₂ : Consistent m₂ M₂) :
    Allows (m₁ + m₂) (M₁.add M₂) n ↔
      ∃ a b, Allows m₁ M₁ a ∧ Allows m₂ M₂ b ∧ n = a + b := by
  obtain ⟨k₁, hk₁, hk₁'⟩ := h₁
  obtain ⟨k₂, hk₂, hk₂'⟩ := h₂
  constructor
  · rintro ⟨hmin, hmax⟩
    cases M₁ with
    | unbounded => exact ⟨n - m₂, m₂, ⟨by omega, by simp⟩,
        ⟨by omega, fun b hb => by have := hk₂' b hb; omega⟩, by omega⟩
    | bounded B₁ =>
      have hB₁ := hk₁' B₁ rfl
      cases M₂ with
      | unbounded => exact ⟨m₁, n - m₁, ⟨by omega, fun b hb => by injection hb; omega⟩,
          ⟨by omega, by simp⟩, by omega⟩
      | bounded B₂ =>
        have hB₂ := hk₂' B₂ rfl
        have := hmax (B₁ + B₂) rfl
        by_cases hc : n - m₂ ≤ B₁
        · exact ⟨n - m₂, m₂, ⟨by omega, fun b hb => by injection hb; omega⟩,
            ⟨by omega, fun b hb => by injection hb; omega⟩, by omega⟩
        · exact ⟨B₁, n - B₁, ⟨by omega, fun b hb => by injection hb; omega⟩,
            ⟨by omega, fun b hb => by injection hb; omega⟩, by omega⟩
  · rintro ⟨a, b, ⟨ha, ha'⟩, ⟨hb, hb'⟩, rfl⟩
    refine ⟨by omega, fun c hc => ?_⟩
    cases M₁ <;> cases M₂ <;> simp [MaxOccurs.add] at hc
    have := ha' _ rfl
    have := hb' _ rfl
    omega

example : Allows (1 + 0) (MaxOccurs.add (.bounded 2) .unbounded) 7 ∧ Consistent 1 (.bounded 2) :=
  ⟨⟨by decide, by simp [MaxOccurs.add]⟩, 1, by decide, by simp⟩

theorem sum_ge (l : List Nat) (m : Nat) (h : ∀ x ∈ l, m ≤ x) : l.length * m ≤ l.sum := by
  induction l with
  | nil => simp
  | cons x xs ih =>
    have h1 := h x (by simp)
    have h2 := ih (fun y hy => h y (by simp [hy]))
    simp [Nat.add_mul] at *
    omega

theorem sum_le (l : List Nat) (m : Nat) (h : ∀ x ∈ l, x ≤ m) : l.sum ≤ l.length * m := by
  induction l with
  | nil => simp
  | cons x xs ih =>
    have h1 := h x (by simp)
    have h2 := ih (fun y hy => h y (by simp [hy]))
    simp [Nat.add_mul] at *
    omega

/-- C43: repeating an inner particle an allowed number of times gives a count within the product bounds. -/
theorem C43_mul_sound (m₁ m₂ : Nat) (M₁ M₂ : MaxOccurs) (counts : List Nat)
    (hOuter : Allows m₁ M₁ counts.length) (hInner : ∀ c ∈ counts, Allows m₂ M₂ c) :
    Allows (m₁ * m₂) (M₁.mul M₂) counts.sum := by
  constructor
  · have := sum_ge counts m₂ (fun x hx => (hInner x hx).1)
    exact Nat.le_trans (Nat.mul_le_mul_right _ hOuter.1) this
  · intro b hb
    cases M₁ <;> cases M₂ <;> simp [MaxOccurs.mul] at hb
    rename_i B₁ B₂
    subst hb
    have h1 := hOuter.2 _ rfl
    have h2 := sum_le counts B₂ (fun x hx => (hInner x hx).2 _ rfl)
    exact Nat.le_trans h2 (Nat.mul_le_mul_right _ h1)

example : Allows 1 (.bounded 3) [2, 5].length ∧ ∀ c ∈ [2, 5], Allows 2 MaxOccurs.unbounded c := by
  refine ⟨⟨by decide, by simp⟩, ?_⟩
  intro c hc
  have : c = 2 ∨ c = 5 := by simpa using hc
  exact ⟨by omega, by simp⟩

theorem sum_replicate (n k : Nat) : (List.replicate n k).sum = n * k := by
  induction n with
  | zero => simp
  | succ n ih => simp [List.replicate_succ, ih, Nat.add_mul]; omega

/-- C43: the product bounds are tight at both ends, unless `0` copies are multiplied with `unbounded`:
the minimum is attained, and every count is exceeded (unbounded product) or the maximum attained. -/
theorem C43_mul_tight (m₁ m₂ : Nat) (M₁ M₂ : MaxOccurs)
    (h₁ : Consistent m₁ M₁) (h₂ : Consistent m₂ M₂)
    (hz : ¬(M₁ = .bounded 0 ∧ M₂ = .unbounded)) (hz' : ¬(M₁ = .unbounded ∧ M₂ = .bounded 0)) :
    (∃ counts : List Nat, Allows m₁ M₁ counts.length ∧ (∀ c ∈ counts, Allows m₂ M₂ c) ∧
        counts.sum = m₁ * m₂) ∧
    (∀ B, M₁.mul M₂ = .bounded B → ∃ counts : List Nat, Allows m₁ M₁ counts.length ∧
        (∀ c ∈ counts, Allows m₂ M₂ c) ∧ counts.sum = B) ∧
    (M₁.mul M₂ = .unbounded → ∀ k, ∃ counts : List Nat, Allows m₁ M₁ counts.length ∧
        (∀ c ∈ counts, Allows m₂ M₂ c) ∧ k ≤ counts.sum) := by
  obtain ⟨k₁, hk₁, hk₁'⟩ := h₁
  obtain ⟨k₂, hk₂, hk₂'⟩ := h₂
  have key : ∀ n k, Allows m₁ M₁ n → Allows m₂ M₂ k →
      ∃ counts : List Nat, Allows m₁ M₁ counts.length ∧ (∀ c ∈ counts, Allows m₂ M₂ c) ∧
        counts.sum = n * k := by
    intro n k hn hk
    refine ⟨List.replicate n k, by simpa using hn, ?_, sum_replicate n k⟩
    intro c hc
    rw [List.mem_replicate] at hc
    rw [hc.2]; exact hk
  have a₁ : Allows m₁ M₁ m₁ := ⟨Nat.le_refl _, fun b hb => Nat.le_trans hk₁ (hk₁' b hb)⟩
  have a₂ : Allows m₂ M₂ m₂ := ⟨Nat.le_refl _, fun b hb => Nat.le_trans hk₂ (hk₂' b hb)⟩
  refine ⟨key _ _ a₁ a₂, ?_, ?_⟩
  · intro B hB
    cases M₁ <;> cases M₂ <;> simp [MaxOccurs.mul] at hB
    rename_i B₁ B₂
    subst hB
    have := hk₁' _ rfl
    have := hk₂' _ rfl
    exact key _ _ ⟨by omega, fun b hb => by injection hb; omega⟩ ⟨by omega, fun b hb => by injection hb; omega⟩
  · intro _ k
    cases M₁ with
    | unbounded =>
      cases M₂ with
      | unbounded =>
        obtain ⟨cs, h1, h2, h3⟩ := key (m₁ + k + 1) (m₂ + k + 1) ⟨by omega, by simp⟩ ⟨by omega, by simp⟩
        refine ⟨cs, h1, h2, ?_⟩
        rw [h3]
        have := Nat.mul_le_mul (show k ≤ m₁ + k + 1 by omega) (show 1 ≤ m₂ + k + 1 by omega)
        omega
      | bounded B₂ =>
        have := hk₂' _ rfl
        have hB : B₂ ≠ 0 := fun h => hz' ⟨rfl, by rw [h]⟩
        obtain ⟨cs, h1, h2, h3⟩ := key (m₁ + k) B₂ ⟨by omega, by simp⟩ ⟨by omega, fun b hb => by injection hb; omega⟩
        refine ⟨cs, h1, h2, ?_⟩
        rw [h3]
        have := Nat.mul_le_mul (show k ≤ m₁ + k by omega) (show 1 ≤ B₂ by omega)
        omega
    | bounded B₁ =>
      have := hk₁' _ rfl
      cases M₂ with
      | unbounded =>
        have hB : B₁ ≠ 0 := fun h => hz ⟨by rw [h], rfl⟩
        obtain ⟨cs, h1, h2, h3⟩ := key B₁ (m₂ + k) ⟨by omega, fun b hb => by injection hb; omega⟩ ⟨by omega, by simp⟩
        refine ⟨cs, h1, h2, ?_⟩
        rw [h3]
        have := Nat.mul_le_mul (show 1 ≤ B₁ by omega) (show k ≤ m₂ + k by omega)
        omega
      | bounded B₂ => simp [MaxOccurs.mul] at *

example : Consistent 1 (.bounded 2) ∧ Consistent 0 MaxOccurs.unbounded ∧
    ¬((MaxOccurs.bounded 2) = .bounded 0 ∧ MaxOccurs.unbounded = MaxOccurs.unbounded) :=
  ⟨⟨1, by decide, by simp⟩, ⟨0, by decide, by simp⟩, by simp⟩

/-- Finding: `0 × unbounded` is computed as unbounded although only the count `0` is possible. -/
theorem C43_mul_zero_unbounded_not_tight :
    (MaxOccurs.bounded 0).mul .unbounded = .unbounded ∧
    ∀ counts : List Nat, Allows 0 (.bounded 0) counts.length → counts.sum = 0 := by
  refine ⟨rfl, fun counts h => ?_⟩
  have := h.2 0 rfl
  have : counts = [] := List.length_eq_zero_iff.mp (by omega)
  simp [this]

/-- C43: the container chosen for a field can hold every allowed number of values. -/
theorem C43_container_complete (min : Nat) (max : MaxOccurs) (n : Nat) (h : Allows min max n) :
    (fromOccurs min max).Holds n := by
  obtain ⟨h1, h2⟩ := h
  unfold fromOccurs
  split
  · have := h2 0 rfl; simp [Container.Holds]; omega
  · have := h2 1 rfl; simp [Container.Holds]; omega
  · have := h2 1 rfl; simp [Container.Holds]; omega
  · rename_i a b _ _ _
    split
    · have := h2 b rfl; simp [Container.Holds]; omega
    · simp [Container.Holds]
  · simp [Container.Holds]

/-- C43: apart from vectors, the container chosen for a field holds only allowed numbers of values. -/
theorem C43_container_exact (min : Nat) (max : MaxOccurs) (n : Nat)
    (hd : fromOccurs min max ≠ .dynamicList) (h : (fromOccurs min max).Holds n) :
    Allows min max n := by
  cases max with
  | unbounded => simp [fromOccurs] at hd
  | bounded b =>
    by_cases hab : min = b
    · subst hab
      refine ⟨?_, fun c hc => ?_⟩ <;> (try injection hc with hc; subst hc) <;>
        (unfold fromOccurs at h; split at h <;> simp_all [Container.Holds])
    · have h01 : min = 0 ∧ b = 1 := by
        unfold fromOccurs at hd
        split at hd <;> simp_all
      obtain ⟨rfl, rfl⟩ := h01
      exact ⟨Nat.zero_le _, fun c hc => by injection hc with hc; subst hc; simpa [fromOccurs, Container.Holds] using h⟩

/-- C43: a vector is used only if no other container shape fits the (consistent) bounds. -/
theorem C43_container_vector_needed (min : Nat) (max : MaxOccurs) (hc : Consistent min max)
    (hd : fromOccurs min max = .dynamicList) (c : Container) (hne : c ≠ .dynamicList) :
    ¬ ∀ n, Allows min max n → c.Holds n := by
  intro hall
  obtain ⟨k, hk, hk'⟩ := hc
  have hmin : Allows min max min := ⟨Nat.le_refl _, fun b hb => Nat.le_trans hk (hk' b hb)⟩
  cases max with
  | unbounded =>
    have h0 := hall min hmin
    have h2 := hall (min + 2) ⟨by omega, by simp⟩
    cases c <;> simp [Container.Holds] at * <;> omega
  | bounded b =>
    have hb := hk' b rfl
    have h0 := hall min hmin
    have h2 := hall b ⟨by omega, fun x hx => by injection hx; omega⟩
    cases c
    case none =>
      simp only [Container.Holds] at h0 h2
      subst h2; subst h0
      simp [fromOccurs] at hd
    case single =>
      simp only [Container.Holds] at h0 h2
      subst h2; subst h0
      simp [fromOccurs] at hd
    case optional =>
      simp only [Container.Holds] at h0 h2
      obtain rfl | rfl : b = 0 ∨ b = 1 := by omega
      · obtain rfl : min = 0 := by omega
        simp [fromOccurs] at hd
      · obtain rfl | rfl : min = 0 ∨ min = 1 := by omega
        · simp [fromOccurs] at hd
        · simp [fromOccurs] at hd
    case dynamicList => exact hne rfl
    case staticList k =>
      simp only [Container.Holds] at h0 h2
      have hmb : min = b := by omega
      subst hmb
      unfold fromOccurs at hd
      split at hd <;> simp_all

example : fromOccurs 2 (.bounded 5) = .dynamicList ∧ Consistent 2 (.bounded 5) ∧
    fromOccurs 3 (.bounded 3) = .staticList 3 ∧ Allows 3 (.bounded 3) 3 :=
  ⟨rfl, ⟨2, by decide, by simp⟩, rfl, by decide, by simp⟩

/-- C43: the ordering used for `max`/comparisons is inclusion of the allowed counts. -/
theorem C43_cmp_is_inclusion (M₁ M₂ : MaxOccurs) :
    M₁.cmp M₂ ≠ .gt ↔ ∀ n, Allows 0 M₁ n → Allows 0 M₂ n := by
  cases M₁ with
  | unbounded =>
    cases M₂ with
    | unbounded => simp [MaxOccurs.cmp]
    | bounded b =>
      simp only [MaxOccurs.cmp, ne_eq, not_true, false_iff]
      intro h
      have := (h (b + 1) ⟨by omega, by simp⟩).2 b rfl
      omega
  | bounded a =>
    cases M₂ with
    | unbounded => simp [MaxOccurs.cmp, Allows]
    | bounded b =>
      simp only [MaxOccurs.cmp]
      rw [Nat.compare_ne_gt]
      constructor
      · intro h n hn
        have := hn.2 a rfl
        exact ⟨by omega, fun c hc => by injection hc; omega⟩
      · intro h
        exact (h a ⟨by omega, fun c hc => by injection hc; omega⟩).2 b rfl

/-- C43: the maximum of two upper bounds allows exactly the counts one of them allows. -/
theorem C43_max_is_union (M₁ M₂ : MaxOccurs) (n : Nat) :
    Allows 0 (M₁.max M₂) n ↔ Allows 0 M₁ n ∨ Allows 0 M₂ n := by
  have hc := C43_cmp_is_inclusion M₁ M₂
  unfold MaxOccurs.max
  cases h : M₁.cmp M₂ with
  | lt => exact ⟨.inr, fun h' => h'.elim ((hc.mp (by simp [h])) n) id⟩
  | eq => exact ⟨.inr, fun h' => h'.elim ((hc.mp (by simp [h])) n) id⟩
  | gt =>
    refine ⟨.inl, fun h' => h'.elim id ?_⟩
    have hr : M₂.cmp M₁ ≠ .gt := by
      cases M₁ with
      | unbounded => cases M₂ <;> simp [MaxOccurs.cmp]
      | bounded a =>
        cases M₂ with
        | unbounded => simp [MaxOccurs.cmp] at h
        | bounded b =>
          simp only [MaxOccurs.cmp, Nat.compare_eq_gt] at h ⊢
          rw [Nat.compare_ne_gt]; omega
    exact (C43_cmp_is_inclusion M₂ M₁).mp hr n

example : Allows 0 ((MaxOccurs.bounded 2).max .unbounded) 7 :=
  ⟨by decide, fun _ h => by cases h⟩

end Verif.Occurs

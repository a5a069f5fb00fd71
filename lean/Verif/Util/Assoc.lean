/-!
# Finite maps as association lists

The model of `HashMap` / `BTreeMap`: a list of entries, at most one per key (`Keyed`). The order
of the list stands for the (unspecified) iteration order of a hash map.
-/

namespace Verif.Assoc

variable {K V : Type} [DecidableEq K]

/-- `HashMap::get`. -/
def get (m : List (K × V)) (k : K) : Option V :=
  match m with
  | [] => none
  | (k', v) :: m => if k' = k then some v else get m k

/-- `*map.entry(k)… = f(old)`: change the entry, or add one. -/
def upsert (m : List (K × V)) (k : K) (f : Option V → V) : List (K × V) :=
  match m with
  | [] => [(k, f none)]
  | (k', v) :: m => if k' = k then (k', f (some v)) :: m else (k', v) :: upsert m k f

def keys (m : List (K × V)) : List K := m.map (·.1)

/-- At most one entry per key. -/
def Keyed (m : List (K × V)) : Prop := (keys m).Nodup

theorem get_upsert (m : List (K × V)) (k k' : K) (f : Option V → V) :
    get (upsert m k f) k' = if k = k' then some (f (get m k)) else get m k' := by
  induction m with
  | nil => simp [upsert, get]
  | cons p m ih =>
    obtain ⟨a, v⟩ := p
    simp only [upsert]
    by_cases h : a = k
    · subst h
      simp only [if_true, get]
      by_cases h' : a = k' <;> simp [h']
    · simp only [if_neg h, get, ih]
      by_cases h' : a = k'
      · subst h'; simp [if_neg (Ne.symm h)]
      · simp [h']

theorem mem_keys_upsert (m : List (K × V)) (k k' : K) (f : Option V → V) :
    k' ∈ keys (upsert m k f) ↔ k' = k ∨ k' ∈ keys m := by
  induction m with
  | nil => simp [upsert, keys]
  | cons p m ih =>
    obtain ⟨a, v⟩ := p
    simp only [upsert]
    by_cases h : a = k
    · subst h; simp [keys]
    · simp only [if_neg h, keys, List.map_cons, List.mem_cons] at ih ⊢
      rw [ih]
      constructor <;> (rintro (h | h | h) <;> simp [h])

theorem keyed_nil : Keyed ([] : List (K × V)) := List.nodup_nil

theorem Keyed.upsert {m : List (K × V)} (hm : Keyed m) (k : K) (f : Option V → V) :
    Keyed (upsert m k f) := by
  induction m with
  | nil => simp [Assoc.upsert, Keyed, keys]
  | cons p m ih =>
    obtain ⟨a, v⟩ := p
    have hm' : a ∉ keys m ∧ (keys m).Nodup := List.nodup_cons.1 hm
    simp only [Assoc.upsert]
    by_cases h : a = k
    · rw [if_pos h]; exact hm
    · rw [if_neg h]
      refine List.nodup_cons.2 ⟨?_, ih hm'.2⟩
      intro hc
      rcases (mem_keys_upsert m k a f).1 hc with h' | h'
      · exact h h'
      · exact hm'.1 h'

theorem get_of_mem {m : List (K × V)} (hm : Keyed m) {k : K} {v : V} (h : (k, v) ∈ m) :
    get m k = some v := by
  induction m with
  | nil => cases h
  | cons p m ih =>
    obtain ⟨a, w⟩ := p
    have hm' : a ∉ keys m ∧ (keys m).Nodup := List.nodup_cons.1 hm
    rcases List.mem_cons.1 h with h | h
    · cases h; simp [get]
    · have hk : k ∈ keys m := List.mem_map.2 ⟨_, h, rfl⟩
      have : a ≠ k := fun hc => hm'.1 (hc ▸ hk)
      simp only [get, if_neg this]
      exact ih hm'.2 h

theorem mem_of_get {m : List (K × V)} {k : K} {v : V} (h : get m k = some v) : (k, v) ∈ m := by
  induction m with
  | nil => cases h
  | cons p m ih =>
    obtain ⟨a, w⟩ := p
    simp only [get] at h
    by_cases ha : a = k
    · simp [ha] at h; simp [ha, h]
    · rw [if_neg ha] at h; exact List.mem_cons_of_mem _ (ih h)

theorem mem_iff_get {m : List (K × V)} (hm : Keyed m) (k : K) (v : V) :
    (k, v) ∈ m ↔ get m k = some v := ⟨get_of_mem hm, mem_of_get⟩

theorem get_isSome (m : List (K × V)) (k : K) : (get m k).isSome = true ↔ k ∈ keys m := by
  induction m with
  | nil => simp [get, keys]
  | cons p m ih =>
    obtain ⟨a, w⟩ := p
    simp only [get, keys, List.map_cons, List.mem_cons] at ih ⊢
    by_cases ha : a = k
    · simp [ha]
    · rw [if_neg ha, ih]
      constructor
      · exact Or.inr
      · rintro (h | h)
        · exact absurd h.symm ha
        · exact h

theorem get_eq_none (m : List (K × V)) (k : K) : get m k = none ↔ k ∉ keys m := by
  rw [← get_isSome]; cases get m k <;> simp

end Verif.Assoc

namespace Verif

/-- Induction on lists from the end. -/
theorem rev_induct {α : Type} {P : List α → Prop} (nil : P [])
    (snoc : ∀ l a, P l → P (l ++ [a])) (l : List α) : P l := by
  have h : ∀ l : List α, P l.reverse := by
    intro l
    induction l with
    | nil => exact nil
    | cons a l ih => rw [List.reverse_cons]; exact snoc _ a ih
  have := h l.reverse
  rwa [List.reverse_reverse] at this

end Verif

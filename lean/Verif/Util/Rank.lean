/-!
# Relations without loops have a rank

If a relation has finitely many sources and no loop, following it cannot go on for ever: there is a number for every node
that goes down along the relation. Used for the termination of recursive passes.
-/
namespace Verif

variable {α : Type}

/-- No node can be reached from itself. -/
def NoLoop (R : α → α → Prop) : Prop := ∀ a, ¬ Relation.TransGen R a a

theorem transGen_trans {R : α → α → Prop} {a b c : α} (h₁ : Relation.TransGen R a b) (h₂ : Relation.TransGen R b c) :
    Relation.TransGen R a c := by
  induction h₂ with
  | single h => exact .tail h₁ h
  | tail _ h ih => exact .tail ih h

theorem countP_lt {l : List α} {p q : α → Bool} (h : ∀ a ∈ l, p a = true → q a = true) {a : α} (ha : a ∈ l)
    (hp : p a = false) (hq : q a = true) : l.countP p < l.countP q := by
  induction l with
  | nil => cases ha
  | cons b l ih =>
    have hle : ∀ m : List α, (∀ a ∈ m, p a = true → q a = true) → m.countP p ≤ m.countP q := by
      intro m
      induction m with
      | nil => simp
      | cons c m ih =>
        intro hm
        have := ih (fun a ha => hm a (List.mem_cons_of_mem _ ha))
        have hc := hm c (List.mem_cons_self ..)
        simp only [List.countP_cons]
        by_cases h1 : p c = true
        · rw [if_pos h1, if_pos (hc h1)]; omega
        · rw [if_neg h1]; split <;> omega
    have hb := h b (List.mem_cons_self ..)
    have hl := fun a ha => h a (List.mem_cons_of_mem _ ha)
    simp only [List.countP_cons]
    rcases List.mem_cons.1 ha with rfl | hm
    · have := hle l hl
      rw [if_pos hq, hp]
      simp only [Bool.false_eq_true, if_false]
      omega
    · have := ih hl hm
      by_cases h1 : p b = true
      · rw [if_pos h1, if_pos (hb h1)]; omega
      · rw [if_neg h1]; split <;> omega

theorem rank_of_noLoop (R : α → α → Prop) (dom : List α) (hdom : ∀ a b, R a b → a ∈ dom) (h : NoLoop R) :
    ∃ rank : α → Nat, (∀ a b, R a b → rank b < rank a) ∧ ∀ a, rank a ≤ dom.length := by
  classical
  refine ⟨fun a => dom.countP (fun x => decide (x = a ∨ Relation.TransGen R a x)), ?_, fun a => List.countP_le_length⟩
  intro a b hab
  refine countP_lt ?_ (hdom a b hab) ?_ ?_
  · intro x _ hx
    simp only [decide_eq_true_eq] at hx ⊢
    rcases hx with rfl | hx
    · exact Or.inr (.single hab)
    · exact Or.inr (transGen_trans (.single hab) hx)
  · simp only [decide_eq_false_iff_not, not_or]
    refine ⟨?_, ?_⟩
    · rintro rfl; exact h _ (.single hab)
    · intro hba; exact h _ (transGen_trans (.single hab) hba)
  · simp

theorem noLoop_of_rank (R : α → α → Prop) (rank : α → Nat) (h : ∀ a b, R a b → rank b < rank a) : NoLoop R := by
  have : ∀ a b, Relation.TransGen R a b → rank b < rank a := by
    intro a b hab
    induction hab with
    | single h' => exact h _ _ h'
    | tail _ h' ih => exact Nat.lt_trans (h _ _ h') ih
  intro a ha
  exact Nat.lt_irrefl _ (this a a ha)

end Verif

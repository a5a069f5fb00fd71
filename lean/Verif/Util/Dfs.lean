/-!
# Depth-first traversal of a finite graph

A small specification: `Dfs.order` is the order in which a depth-first search meets the nodes
reachable from a list of nodes; each node is listed once (`order_nodup`), and exactly the
reachable ones are (`mem_order`).
-/

namespace Verif.Dfs

variable {S : Type} [DecidableEq S]

/-- `t` can be reached from `s` along edges. -/
inductive Reach (deps : S → List S) : S → S → Prop
  | refl (s : S) : Reach deps s s
  | step {s m t : S} : m ∈ deps s → Reach deps m t → Reach deps s t

theorem Reach.trans {deps : S → List S} {a b c : S} (h : Reach deps a b) (h' : Reach deps b c) :
    Reach deps a c := by
  induction h with
  | refl => exact h'
  | step hm _ ih => exact .step hm (ih h')

/-- The number of nodes that are still to be visited. -/
def unseen (nodes vis : List S) : Nat :=
  match nodes with
  | [] => 0
  | a :: l => (if a ∈ vis then 0 else 1) + unseen l vis

theorem unseen_le (nodes vis : List S) (s : S) : unseen nodes (s :: vis) ≤ unseen nodes vis := by
  induction nodes with
  | nil => simp [unseen]
  | cons a l ih =>
    simp only [unseen, List.mem_cons]
    by_cases h1 : a = s <;> by_cases h2 : a ∈ vis <;> simp [h1, h2] <;> omega

theorem unseen_lt (nodes vis : List S) (s : S) (hs : s ∈ nodes) (hv : s ∉ vis) :
    unseen nodes (s :: vis) < unseen nodes vis := by
  induction nodes with
  | nil => cases hs
  | cons a l ih =>
    simp only [unseen]
    by_cases h : a = s
    · have := unseen_le l vis s
      subst h
      simp only [List.mem_cons, true_or, if_true, if_neg hv]
      omega
    · have hs' : s ∈ l := by
        rcases List.mem_cons.1 hs with h' | h'
        · exact absurd h'.symm h
        · exact h'
      have := ih hs'
      simp only [List.mem_cons, h, false_or]
      omega

/-- Depth-first order of the nodes reachable from `todo`, without those in `vis`. Only the nodes
in `nodes` have edges. -/
def order (nodes : List S) (deps : S → List S) (todo vis : List S) : List S :=
  match todo with
  | [] => []
  | s :: todo =>
    if s ∈ vis then order nodes deps todo vis
    else if h : s ∈ nodes ∧ s ∉ vis then s :: order nodes deps (deps s ++ todo) (s :: vis)
    else s :: order nodes deps todo (s :: vis)
termination_by (unseen nodes vis, todo.length)
decreasing_by
  · apply Prod.Lex.right; simp
  · apply Prod.Lex.left; exact unseen_lt _ _ _ h.1 h.2
  · rcases Nat.lt_or_eq_of_le (unseen_le nodes vis s) with h | h
    · exact Prod.Lex.left _ _ h
    · rw [h]; apply Prod.Lex.right; simp

variable {nodes : List S} {deps : S → List S}

theorem order_nil (vis : List S) : order nodes deps [] vis = [] := by rw [order]

theorem order_seen {s : S} {todo vis : List S} (h : s ∈ vis) :
    order nodes deps (s :: todo) vis = order nodes deps todo vis := by rw [order, if_pos h]

/-- With edges only at `nodes`, the two cases of a new node are one. -/
theorem order_new (hd : ∀ s, s ∉ nodes → deps s = []) {s : S} {todo vis : List S} (h : s ∉ vis) :
    order nodes deps (s :: todo) vis = s :: order nodes deps (deps s ++ todo) (s :: vis) := by
  rw [order, if_neg h]
  by_cases hn : s ∈ nodes
  · rw [dif_pos ⟨hn, h⟩]
  · rw [dif_neg (fun hc => hn hc.1), hd s hn, List.nil_append]

/-- Induction along the traversal. -/
theorem order_induct (hd : ∀ s, s ∉ nodes → deps s = [])
    (motive : List S → List S → Prop)
    (nil : ∀ vis, motive [] vis)
    (seen : ∀ s todo vis, s ∈ vis → motive todo vis → motive (s :: todo) vis)
    (new : ∀ s todo vis, s ∉ vis → motive (deps s ++ todo) (s :: vis) → motive (s :: todo) vis) :
    ∀ todo vis, motive todo vis := by
  intro todo vis
  induction todo, vis using order.induct (nodes := nodes) (deps := deps) with
  | case1 vis => exact nil vis
  | case2 vis s todo h ih => exact seen s todo vis h ih
  | case3 vis s todo h h' ih => exact new s todo vis h ih
  | case4 vis s todo h h' ih =>
    have hn : s ∉ nodes := fun hc => h' ⟨hc, h⟩
    refine new s todo vis h ?_
    rw [hd s hn]; exact ih

theorem not_mem_vis (hd : ∀ s, s ∉ nodes → deps s = []) (todo vis : List S) :
    ∀ x ∈ order nodes deps todo vis, x ∉ vis := by
  induction todo, vis using order_induct hd with
  | nil vis => rw [order_nil]; simp
  | seen s todo vis h ih => rw [order_seen h]; exact ih
  | new s todo vis h ih =>
    rw [order_new hd h]
    intro x hx
    rcases List.mem_cons.1 hx with rfl | hx
    · exact h
    · exact fun hc => ih x hx (List.mem_cons_of_mem _ hc)

/-- Every node is listed once. -/
theorem order_nodup (hd : ∀ s, s ∉ nodes → deps s = []) (todo vis : List S) :
    (order nodes deps todo vis).Nodup := by
  induction todo, vis using order_induct hd with
  | nil vis => rw [order_nil]; exact List.nodup_nil
  | seen s todo vis h ih => rw [order_seen h]; exact ih
  | new s todo vis h ih =>
    rw [order_new hd h]
    exact List.nodup_cons.2
      ⟨fun hc => not_mem_vis hd _ _ s hc (List.mem_cons_self ..), ih⟩

/-- Only reachable nodes are listed. -/
theorem reach_of_mem (hd : ∀ s, s ∉ nodes → deps s = []) (todo vis : List S) :
    ∀ x ∈ order nodes deps todo vis, ∃ t ∈ todo, Reach deps t x := by
  induction todo, vis using order_induct hd with
  | nil vis => rw [order_nil]; simp
  | seen s todo vis h ih =>
    rw [order_seen h]
    intro x hx
    obtain ⟨t, ht, hr⟩ := ih x hx
    exact ⟨t, List.mem_cons_of_mem _ ht, hr⟩
  | new s todo vis h ih =>
    rw [order_new hd h]
    intro x hx
    rcases List.mem_cons.1 hx with rfl | hx
    · exact ⟨x, List.mem_cons_self .., .refl x⟩
    · obtain ⟨t, ht, hr⟩ := ih x hx
      rcases List.mem_append.1 ht with ht | ht
      · exact ⟨s, List.mem_cons_self .., .step ht hr⟩
      · exact ⟨t, List.mem_cons_of_mem _ ht, hr⟩

/-- The result is closed: what is to be done is listed or was visited before, and so are the
successors of what is listed. -/
theorem closed (hd : ∀ s, s ∉ nodes → deps s = []) (todo vis : List S) :
    (∀ t ∈ todo, t ∈ vis ∨ t ∈ order nodes deps todo vis) ∧
    (∀ x ∈ order nodes deps todo vis, ∀ y ∈ deps x, y ∈ vis ∨ y ∈ order nodes deps todo vis) := by
  induction todo, vis using order_induct hd with
  | nil vis => rw [order_nil]; simp
  | seen s todo vis h ih =>
    rw [order_seen h]
    refine ⟨?_, ih.2⟩
    intro t ht
    rcases List.mem_cons.1 ht with rfl | ht
    · exact Or.inl h
    · exact ih.1 t ht
  | new s todo vis h ih =>
    rw [order_new hd h]
    have key : ∀ y, (y ∈ s :: vis ∨ y ∈ order nodes deps (deps s ++ todo) (s :: vis)) →
        y ∈ vis ∨ y ∈ s :: order nodes deps (deps s ++ todo) (s :: vis) := by
      rintro y (hy | hy)
      · rcases List.mem_cons.1 hy with rfl | hy
        · exact Or.inr (List.mem_cons_self ..)
        · exact Or.inl hy
      · exact Or.inr (List.mem_cons_of_mem _ hy)
    constructor
    · intro t ht
      rcases List.mem_cons.1 ht with rfl | ht
      · exact Or.inr (List.mem_cons_self ..)
      · exact key t (ih.1 t (List.mem_append_right _ ht))
    · intro x hx y hy
      rcases List.mem_cons.1 hx with rfl | hx
      · exact key y (ih.1 y (List.mem_append_left _ hy))
      · exact key y (ih.2 x hx y hy)

/-- From a fresh start, exactly the reachable nodes are listed. -/
theorem mem_order (hd : ∀ s, s ∉ nodes → deps s = []) (todo : List S) (x : S) :
    x ∈ order nodes deps todo [] ↔ ∃ t ∈ todo, Reach deps t x := by
  constructor
  · exact reach_of_mem hd todo [] x
  · rintro ⟨t, ht, hr⟩
    have hc := closed hd todo []
    have h0 : t ∈ order nodes deps todo [] := by simpa using hc.1 t ht
    clear ht
    induction hr with
    | refl => exact h0
    | step hm _ ih => exact ih (by simpa using hc.2 _ h0 _ hm)

/-- Traversing a list in two parts. -/
theorem order_append (hd : ∀ s, s ∉ nodes → deps s = []) (a vis : List S) : ∀ b : List S,
    order nodes deps (a ++ b) vis = order nodes deps a vis ++
      order nodes deps b ((order nodes deps a vis).reverse ++ vis) := by
  induction a, vis using order_induct hd with
  | nil vis => intro b; simp [order_nil]
  | seen s todo vis h ih =>
    intro b
    rw [List.cons_append, order_seen h, order_seen h]
    exact ih b
  | new s todo vis h ih =>
    intro b
    rw [List.cons_append, order_new hd h, order_new hd h, ← List.append_assoc, ih b]
    simp

theorem unseen_mono (nodes : List S) {vis vis' : List S} (h : ∀ x ∈ vis, x ∈ vis') :
    unseen nodes vis' ≤ unseen nodes vis := by
  induction nodes with
  | nil => simp [unseen]
  | cons a l ih =>
    simp only [unseen]
    by_cases h1 : a ∈ vis
    · rw [if_pos h1, if_pos (h a h1)]; omega
    · rw [if_neg h1]; split <;> omega

theorem unseen_le_length (nodes vis : List S) : unseen nodes vis ≤ nodes.length := by
  induction nodes with
  | nil => simp [unseen]
  | cons a l ih => simp only [unseen, List.length_cons]; split <;> omega

end Verif.Dfs

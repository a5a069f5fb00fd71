/-!
# Shared lists of namespaces (C90)

Models `xsd-parser-types/src/xml/namespaces.rs`: the `Hash` of `Namespaces` (44-53) and `NamespacesShared` (205-257),
a list behind an `Arc` that is copied when it is changed. `Arc` and `HashMap` are those of the standard library: an
`Arc` is a cell with the number of its owners, and a `HashMap` is iterated in an arbitrary order.
-/
namespace Verif.Shared

/-! ## Sharing -/

/-- The cells with their numbers of owners, and the handles (`none`: the handle was given up). -/
structure Heap (α : Type) where
  val : Nat → α
  cnt : Nat → Nat
  next : Nat
  handles : List (Option Nat)

/-- What a program does with its handles. -/
inductive Op (α : Type) where
  | new (a : α)
  | clone (h : Nat)
  | modify (h : Nat) (f : α → α)
  | drop (h : Nat)
  | toOwned (h : Nat)
  | intoOwned (h : Nat)
  | eq (h h' : Nat)

/-- What it sees. -/
inductive Out (α : Type) where
  | unit
  | value (a : α)
  | bool (b : Bool)
deriving DecidableEq

/-- The cell of a handle. -/
def Heap.addr {α : Type} (s : Heap α) (h : Nat) : Option Nat := s.handles[h]?.join

/-- A function with another value at one place. -/
def upd {β : Type} (f : Nat → β) (a : Nat) (b : β) : Nat → β := fun x => if x = a then b else f x

/-- `NamespacesShared::new`, namespaces.rs 211-213 (`Arc::new`). -/
def Heap.alloc {α : Type} (s : Heap α) (a : α) : Heap α :=
  ⟨upd s.val s.next a, upd s.cnt s.next 1, s.next + 1, s.handles ++ [some s.next]⟩

/-- The derived `Clone`, namespaces.rs 205 (`Arc::clone`). -/
def Heap.share {α : Type} (s : Heap α) (a : Nat) : Heap α :=
  { s with cnt := upd s.cnt a (s.cnt a + 1), handles := s.handles ++ [some a] }

/-- `Drop` of the `Arc`. -/
def Heap.release {α : Type} (s : Heap α) (h a : Nat) : Heap α :=
  { s with cnt := upd s.cnt a (s.cnt a - 1), handles := s.handles.set h none }

/-- `deref_mut`, namespaces.rs 240-242 (`Arc::make_mut`): in place for the only owner, otherwise on a copy. -/
def Heap.makeMut {α : Type} (s : Heap α) (h a : Nat) (f : α → α) : Heap α :=
  if s.cnt a = 1 then { s with val := upd s.val a (f (s.val a)) }
  else ⟨upd s.val s.next (f (s.val a)), upd (upd s.cnt a (s.cnt a - 1)) s.next 1, s.next + 1,
    s.handles.set h (some s.next)⟩

/-- One operation; nothing happens for handles that do not exist, which the compiler rules out. -/
def Heap.step {α : Type} [DecidableEq α] (s : Heap α) : Op α → Heap α × Out α
  | .new a => (s.alloc a, .unit)
  | .clone h => match s.addr h with
    | some a => (s.share a, .unit)
    | none => (s, .unit)
  | .modify h f => match s.addr h with
    | some a => (s.makeMut h a f, .unit)
    | none => (s, .unit)
  | .drop h => match s.addr h with
    | some a => (s.release h a, .unit)
    | none => (s, .unit)
  -- `to_owned`, namespaces.rs 217-219
  | .toOwned h => match s.addr h with
    | some a => (s, .value (s.val a))
    | none => (s, .unit)
  -- `into_owned`, namespaces.rs 226-228: the value is moved out or cloned
  | .intoOwned h => match s.addr h with
    | some a => (s.release h a, .value (s.val a))
    | none => (s, .unit)
  -- `PartialEq`, namespaces.rs 253-257
  | .eq h h' => match s.addr h, s.addr h' with
    | some a, some b => (s, .bool (a == b || s.val a == s.val b))
    | _, _ => (s, .unit)

/-- A program. -/
def Heap.run {α : Type} [DecidableEq α] (s : Heap α) : List (Op α) → Heap α × List (Out α)
  | [] => (s, [])
  | o :: os =>
    let r := s.step o
    let q := r.1.run os
    (q.1, r.2 :: q.2)

/-- No cells yet. -/
def Heap.empty {α : Type} (d : α) : Heap α := ⟨fun _ => d, fun _ => 0, 0, []⟩

/-! ### Specification: every handle has a list of its own -/

def slot {α : Type} (t : List (Option α)) (h : Nat) : Option α := t[h]?.join

/-- One operation, if nothing is shared. -/
def plainStep {α : Type} [DecidableEq α] (t : List (Option α)) : Op α → List (Option α) × Out α
  | .new a => (t ++ [some a], .unit)
  | .clone h => match slot t h with
    | some v => (t ++ [some v], .unit)
    | none => (t, .unit)
  | .modify h f => match slot t h with
    | some v => (t.set h (some (f v)), .unit)
    | none => (t, .unit)
  | .drop h => match slot t h with
    | some _ => (t.set h none, .unit)
    | none => (t, .unit)
  | .toOwned h => match slot t h with
    | some v => (t, .value v)
    | none => (t, .unit)
  | .intoOwned h => match slot t h with
    | some v => (t.set h none, .value v)
    | none => (t, .unit)
  | .eq h h' => match slot t h, slot t h' with
    | some v, some w => (t, .bool (v == w))
    | _, _ => (t, .unit)

def plainRun {α : Type} [DecidableEq α] (t : List (Option α)) : List (Op α) → List (Option α) × List (Out α)
  | [] => (t, [])
  | o :: os =>
    let r := plainStep t o
    let q := plainRun r.1 os
    (q.1, r.2 :: q.2)

/-! ### Proofs -/

/-- The lists that the handles lead to. -/
def Heap.view {α : Type} (s : Heap α) : List (Option α) := s.handles.map (Option.map s.val)

structure Heap.Good {α : Type} (s : Heap α) : Prop where
  count : ∀ a, s.cnt a = s.handles.count (some a)
  below : ∀ a, some a ∈ s.handles → a < s.next

theorem slot_view {α : Type} (s : Heap α) (h : Nat) : slot s.view h = (s.addr h).map s.val := by
  unfold slot Heap.view Heap.addr
  rw [List.getElem?_map]
  cases s.handles[h]? with
  | none => rfl
  | some o => cases o <;> rfl

theorem addr_get {α : Type} {s : Heap α} {h a : Nat} (e : s.addr h = some a) : s.handles[h]? = some (some a) := by
  unfold Heap.addr at e
  cases hh : s.handles[h]? with
  | none => rw [hh] at e; cases e
  | some o => rw [hh] at e; cases o <;> simp_all

theorem count_set {l : List (Option Nat)} {h : Nat} {o o' : Option Nat} (e : l[h]? = some o) (x : Option Nat) :
    (l.set h o').count x + (if o = x then 1 else 0) = l.count x + (if o' = x then 1 else 0) := by
  induction l generalizing h with
  | nil => simp at e
  | cons y l ih =>
    cases h with
    | zero =>
      obtain rfl : y = o := by simpa using e
      simp only [List.set_cons_zero, List.count_cons, beq_iff_eq]
      omega
    | succ h =>
      have := ih (h := h) (by simpa using e)
      simp only [List.set_cons_succ, List.count_cons]
      omega

theorem mem_of_set {l : List (Option Nat)} {h : Nat} {o x : Option Nat} (hx : x ∈ l.set h o) : x ∈ l ∨ x = o :=
  List.mem_or_eq_of_mem_set hx

/-- A change at the cell of the only owner is a change of one handle. -/
theorem map_upd_single {α : Type} (f : Nat → α) (a : Nat) (v : α) :
    ∀ (l : List (Option Nat)) (h : Nat), l[h]? = some (some a) → l.count (some a) = 1 →
      l.map (Option.map (upd f a v)) = (l.map (Option.map f)).set h (some v) := by
  have rest : ∀ l : List (Option Nat), l.count (some a) = 0 →
      l.map (Option.map (upd f a v)) = l.map (Option.map f) := by
    intro l hl
    apply List.map_congr_left
    intro o ho
    cases o with
    | none => rfl
    | some x =>
      have : x ≠ a := fun e => List.count_eq_zero.1 hl (e ▸ ho)
      simp [upd, this]
  intro l
  induction l with
  | nil => intro h e; simp at e
  | cons y l ih =>
    intro h e c
    cases h with
    | zero =>
      obtain rfl : y = some a := by simpa using e
      have c' : l.count (some a) = 0 := by simpa using c
      simp [rest l c', upd]
    | succ h =>
      have e' : l[h]? = some (some a) := by simpa using e
      have pos : 0 < l.count (some a) := List.count_pos_iff.2 (List.mem_of_getElem? e')
      have hy : y ≠ some a := by
        rintro rfl
        simp at c
        omega
      have c' : l.count (some a) = 1 := by
        rw [List.count_cons] at c
        simpa [hy] using c
      have : Option.map (upd f a v) y = Option.map f y := by
        cases y with
        | none => rfl
        | some x =>
          have : x ≠ a := fun e => hy (by rw [e])
          simp [upd, this]
      simp [ih h e' c', this]

/-- A new cell changes nothing for the old ones. -/
theorem map_upd_new {α : Type} (s : Heap α) (g : s.Good) (v : α) (l : List (Option Nat))
    (hl : ∀ o ∈ l, o ∈ s.handles) : l.map (Option.map (upd s.val s.next v)) = l.map (Option.map s.val) := by
  apply List.map_congr_left
  intro o ho
  cases o with
  | none => rfl
  | some x =>
    have := g.below x (hl _ ho)
    have : x ≠ s.next := by omega
    simp [upd, this]

theorem count_next {α : Type} {s : Heap α} (g : s.Good) : s.handles.count (some s.next) = 0 := by
  rw [List.count_eq_zero]
  intro h
  exact Nat.lt_irrefl _ (g.below _ h)

theorem alloc_good {α : Type} {s : Heap α} (g : s.Good) (a : α) : (s.alloc a).Good := by
  constructor
  · intro x
    have := count_next g
    have h1 := g.count x
    simp only [Heap.alloc, upd, List.count_append, List.count_singleton, beq_iff_eq, Option.some.injEq]
    by_cases e : x = s.next
    · subst e; simp [this]
    · have : ¬ s.next = x := fun h => e h.symm
      simp [e, this, h1]
  · intro x hx
    simp only [Heap.alloc, List.mem_append, List.mem_singleton, Option.some.injEq] at hx ⊢
    rcases hx with hx | rfl
    · have := g.below x hx; omega
    · omega

theorem alloc_view {α : Type} {s : Heap α} (g : s.Good) (a : α) : (s.alloc a).view = s.view ++ [some a] := by
  simp only [Heap.view, Heap.alloc, List.map_append, List.map_cons, List.map_nil]
  rw [map_upd_new s g a s.handles (fun _ h => h)]
  simp [upd]

theorem share_good {α : Type} {s : Heap α} (g : s.Good) {h a : Nat} (e : s.addr h = some a) : (s.share a).Good := by
  constructor
  · intro x
    have h1 := g.count x
    simp only [Heap.share, upd, List.count_append, List.count_singleton, beq_iff_eq, Option.some.injEq]
    by_cases e : x = a
    · subst e; simp [h1]
    · have : ¬ a = x := fun h => e h.symm
      simp [e, this, h1]
  · intro x hx
    simp only [Heap.share, List.mem_append, List.mem_singleton, Option.some.injEq] at hx ⊢
    rcases hx with hx | rfl
    · exact g.below x hx
    · exact g.below _ (List.mem_of_getElem? (addr_get e))

theorem release_good {α : Type} {s : Heap α} (g : s.Good) {h a : Nat} (e : s.addr h = some a) :
    (s.release h a).Good := by
  constructor
  · intro x
    have h1 := g.count x
    have h2 := count_set (o' := none) (addr_get e) (some x)
    simp only [Heap.release, upd]
    by_cases e : x = a
    · subst e
      simp only [if_true] at h2 ⊢
      simp at h2
      omega
    · have : ¬ a = x := fun h => e h.symm
      simp [this] at h2
      simp [e, h1, h2]
  · intro x hx
    rcases mem_of_set hx with hx | hx
    · exact g.below x hx
    · cases hx

theorem release_view {α : Type} (s : Heap α) (h a : Nat) : (s.release h a).view = s.view.set h none := by
  simp [Heap.view, Heap.release, List.map_set]

theorem makeMut_good {α : Type} {s : Heap α} (g : s.Good) {h a : Nat} (e : s.addr h = some a) (f : α → α) :
    (s.makeMut h a f).Good := by
  unfold Heap.makeMut
  by_cases c : s.cnt a = 1
  · rw [if_pos c]; exact ⟨g.count, g.below⟩
  · rw [if_neg c]
    have ha := g.below a (List.mem_of_getElem? (addr_get e))
    constructor
    · intro x
      have h1 := g.count x
      have h0 := count_next g
      have h2 := count_set (o' := some s.next) (addr_get e) (some x)
      simp only [upd]
      simp only [Option.some.injEq] at h2
      by_cases e1 : x = s.next
      · subst e1
        have n1 : ¬ a = s.next := by omega
        simp [n1] at h2
        simp [h2, h0]
      · have n2 : ¬ s.next = x := fun h => e1 h.symm
        by_cases e2 : x = a
        · subst e2
          simp [n2] at h2
          simp [e1]
          omega
        · have n3 : ¬ a = x := fun h => e2 h.symm
          simp [n2, n3] at h2
          simp [e1, e2, h1, h2]
    · intro x hx
      show x < s.next + 1
      rcases mem_of_set hx with hx | hx
      · have := g.below x hx; omega
      · have := Option.some.inj hx; omega

theorem makeMut_view {α : Type} {s : Heap α} (g : s.Good) {h a : Nat} (e : s.addr h = some a) (f : α → α) :
    (s.makeMut h a f).view = s.view.set h (some (f (s.val a))) := by
  unfold Heap.makeMut
  by_cases c : s.cnt a = 1
  · rw [if_pos c]
    exact map_upd_single s.val a _ s.handles h (addr_get e) (by rw [← g.count a, c])
  · rw [if_neg c]
    simp only [Heap.view, List.map_set]
    rw [map_upd_new s g _ s.handles (fun _ h => h)]
    simp [upd]

theorem step_refines {α : Type} [DecidableEq α] {s : Heap α} (g : s.Good) (o : Op α) :
    (s.step o).1.Good ∧ (s.step o).1.view = (plainStep s.view o).1 ∧ (s.step o).2 = (plainStep s.view o).2 := by
  cases o with
  | new a => exact ⟨alloc_good g a, alloc_view g a, rfl⟩
  | clone h =>
    simp only [Heap.step, plainStep, slot_view]
    cases e : s.addr h with
    | none => exact ⟨g, rfl, rfl⟩
    | some a => exact ⟨share_good g e, by simp [Heap.view, Heap.share], rfl⟩
  | modify h f =>
    simp only [Heap.step, plainStep, slot_view]
    cases e : s.addr h with
    | none => exact ⟨g, rfl, rfl⟩
    | some a => exact ⟨makeMut_good g e f, makeMut_view g e f, rfl⟩
  | drop h =>
    simp only [Heap.step, plainStep, slot_view]
    cases e : s.addr h with
    | none => exact ⟨g, rfl, rfl⟩
    | some a => exact ⟨release_good g e, release_view s h a, rfl⟩
  | toOwned h =>
    simp only [Heap.step, plainStep, slot_view]
    cases e : s.addr h with
    | none => exact ⟨g, rfl, rfl⟩
    | some a => exact ⟨g, rfl, rfl⟩
  | intoOwned h =>
    simp only [Heap.step, plainStep, slot_view]
    cases e : s.addr h with
    | none => exact ⟨g, rfl, rfl⟩
    | some a => exact ⟨release_good g e, release_view s h a, rfl⟩
  | eq h h' =>
    simp only [Heap.step, plainStep, slot_view]
    cases e : s.addr h with
    | none => exact ⟨g, rfl, rfl⟩
    | some a =>
      cases e' : s.addr h' with
      | none => exact ⟨g, rfl, rfl⟩
      | some b =>
        refine ⟨g, rfl, ?_⟩
        by_cases hab : a = b
        · subst hab; simp
        · have : (a == b) = false := by simpa using hab
          simp [this]

theorem run_refines {α : Type} [DecidableEq α] (os : List (Op α)) : ∀ (s : Heap α), s.Good →
    (s.run os).1.view = (plainRun s.view os).1 ∧ (s.run os).2 = (plainRun s.view os).2 := by
  induction os with
  | nil => intro s _; exact ⟨rfl, rfl⟩
  | cons o os ih =>
    intro s g
    obtain ⟨h1, h2, h3⟩ := step_refines g o
    obtain ⟨h4, h5⟩ := ih _ h1
    simp only [Heap.run, plainRun]
    rw [← h2, h3]
    exact ⟨h4, by rw [h5]⟩

/-- **C90.** For every history of clones, changes, drops, conversions and comparisons, a program sees what it would see
if every handle had a list of its own: no change is visible through another handle, none is lost, and lists are equal
exactly if their contents are. -/
theorem C90_sharing_invisible {α : Type} [DecidableEq α] (d : α) (os : List (Op α)) :
    ((Heap.empty d).run os).2 = (plainRun [] os).2 ∧ ((Heap.empty d).run os).1.view = (plainRun [] os).1 := by
  have := run_refines os (Heap.empty d) ⟨fun _ => rfl, fun _ h => by cases h⟩
  exact ⟨this.2, this.1⟩

/-- A list is shared, one of the owners changes it twice, the other still sees the old list. -/
example : ((Heap.empty 0).run [.new 5, .clone 0, .modify 1 (· + 1), .modify 1 (· + 1), .toOwned 0, .toOwned 1, .eq 0 1,
      .drop 1, .modify 0 (· + 2), .clone 0, .eq 0 2, .intoOwned 0, .toOwned 2]).2
    = [.unit, .unit, .unit, .unit, .value 5, .value 7, .bool false, .unit, .unit, .unit, .bool true, .value 7,
      .value 7] := by decide +kernel

/-! ## Hashing -/

abbrev Bytes := List Nat

/-- `Hash` of a byte slice (std): its length and its bytes. -/
def feedBytes (b : Bytes) : List Nat := b.length :: b

/-- `Hash for Namespaces`, namespaces.rs 44-53: what the hasher gets, for the order in which the map is iterated. -/
def feed (items : List (Bytes × Bytes)) : List Nat :=
  (items.mergeSort fun a b => decide (a.1 ≤ b.1)).flatMap fun e => feedBytes e.1 ++ feedBytes e.2

/-- Specification: the value of a key. -/
def valueOf (items : List (Bytes × Bytes)) (k : Bytes) : Option Bytes := (items.find? fun e => e.1 == k).map (·.2)

theorem valueOf_iff {items : List (Bytes × Bytes)} (nd : (items.map (·.1)).Nodup) (k v : Bytes) :
    valueOf items k = some v ↔ (k, v) ∈ items := by
  unfold valueOf
  induction items with
  | nil => simp
  | cons e items ih =>
    obtain ⟨k', v'⟩ := e
    simp only [List.map_cons, List.nodup_cons] at nd
    by_cases hk : k' = k
    · subst hk
      have : (k', v) ∉ items := fun h => nd.1 (List.mem_map.2 ⟨_, h, rfl⟩)
      simp [this, eq_comm]
    · have hk' : ¬ k = k' := fun h => hk h.symm
      have hb : (k' == k) = false := by simpa using hk
      simp [List.find?_cons, hb, hk', ih nd.2]

theorem nodup_items {items : List (Bytes × Bytes)} (nd : (items.map (·.1)).Nodup) : items.Nodup := by
  induction items with
  | nil => exact .nil
  | cons e items ih =>
    simp only [List.map_cons, List.nodup_cons] at nd ⊢
    exact ⟨fun h => nd.1 (List.mem_map.2 ⟨_, h, rfl⟩), ih nd.2⟩

theorem sorted_sort (items : List (Bytes × Bytes)) :
    (items.mergeSort fun a b => decide (a.1 ≤ b.1)).Pairwise fun a b => a.1 ≤ b.1 := by
  have := List.pairwise_mergeSort (le := fun a b : Bytes × Bytes => decide (a.1 ≤ b.1))
    (by intro a b c h1 h2; simp only [decide_eq_true_eq] at *; exact List.le_trans h1 h2)
    (by intro a b; simpa using List.le_total a.1 b.1) items
  exact this.imp (by intro a b h; simpa using h)

/-- **C90.** Equal lists have equal hashes, in whatever order the maps are iterated. -/
theorem C90_hash_respects_eq (m m' : List (Bytes × Bytes)) (nd : (m.map (·.1)).Nodup) (nd' : (m'.map (·.1)).Nodup)
    (same : ∀ k, valueOf m k = valueOf m' k) : feed m = feed m' := by
  have perm : m.Perm m' := by
    refine (List.perm_ext_iff_of_nodup (nodup_items nd) (nodup_items nd')).2 fun e => ?_
    rw [← valueOf_iff nd e.1 e.2, ← valueOf_iff nd' e.1 e.2, same]
  have hp : (m.mergeSort fun a b => decide (a.1 ≤ b.1)).Perm (m'.mergeSort fun a b => decide (a.1 ≤ b.1)) :=
    (List.mergeSort_perm m _).trans (perm.trans (List.mergeSort_perm m' _).symm)
  have : m.mergeSort (fun a b => decide (a.1 ≤ b.1)) = m'.mergeSort fun a b => decide (a.1 ≤ b.1) := by
    refine List.Perm.eq_of_pairwise ?_ (sorted_sort m) (sorted_sort m') hp
    intro a b ha hb h1 h2
    have hk : a.1 = b.1 := List.le_antisymm h1 h2
    have ha' : a ∈ m := (List.mergeSort_perm m _).mem_iff.1 ha
    have hb' : b ∈ m := perm.mem_iff.2 ((List.mergeSort_perm m' _).mem_iff.1 hb)
    have e1 := (valueOf_iff nd a.1 a.2).2 ha'
    have e2 := (valueOf_iff nd b.1 b.2).2 hb'
    rw [hk, e2] at e1
    exact Prod.ext hk (Option.some.inj e1).symm
  unfold feed
  rw [this]

theorem feedBytes_inj {a b : Bytes} {x y : List Nat} (h : feedBytes a ++ x = feedBytes b ++ y) : a = b ∧ x = y := by
  simp only [feedBytes, List.cons_append, List.cons.injEq] at h
  exact List.append_inj h.2 h.1

theorem feedAll_inj : ∀ (l l' : List (Bytes × Bytes)),
    l.flatMap (fun e => feedBytes e.1 ++ feedBytes e.2) = l'.flatMap (fun e => feedBytes e.1 ++ feedBytes e.2) → l = l' := by
  intro l
  induction l with
  | nil =>
    intro l' h
    cases l' with
    | nil => rfl
    | cons e l' => simp [feedBytes] at h
  | cons e l ih =>
    intro l' h
    cases l' with
    | nil => simp [feedBytes] at h
    | cons e' l' =>
      simp only [List.flatMap_cons, List.append_assoc] at h
      obtain ⟨h1, h⟩ := feedBytes_inj h
      obtain ⟨h2, h⟩ := feedBytes_inj h
      rw [Prod.ext h1 h2, ih l' h]

/-- **C90.** Different lists give the hasher different input. -/
theorem C90_hash_tells_apart (m m' : List (Bytes × Bytes)) (nd : (m.map (·.1)).Nodup) (nd' : (m'.map (·.1)).Nodup)
    (h : feed m = feed m') (k : Bytes) : valueOf m k = valueOf m' k := by
  have e := feedAll_inj _ _ h
  have perm : m.Perm m' := ((List.mergeSort_perm m _).symm.trans (List.Perm.of_eq e)).trans (List.mergeSort_perm m' _)
  apply Option.ext
  intro v
  rw [valueOf_iff nd, valueOf_iff nd', perm.mem_iff]

/-- Two orders of the same list. -/
example : feed [([120], [1, 2]), ([], [3])] = feed [([], [3]), ([120], [1, 2])] :=
  C90_hash_respects_eq _ _ (by decide) (by decide) (by
    intro k
    by_cases h : k = [120]
    · subst h; rfl
    · by_cases h' : k = []
      · subst h'; rfl
      · have h1 : ([120] == k) = false := by simpa using fun e => h e.symm
        have h2 : (([] : Bytes) == k) = false := by simpa using h'
        simp [valueOf, h1, h2])

end Verif.Shared

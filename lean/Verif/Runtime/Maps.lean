import Verif.Runtime.Events

/-!
# Qualified names and attribute maps (C20, C21)

* `QName` (xsd-parser-types/src/xml/qname.rs 20-215);
* `Attributes` (xsd-parser-types/src/xml/attributes.rs 20-110), an `IndexMap`.
-/

namespace Verif.Rt

/-! ## C20: `QName` -/

/-- `QName`, qname.rs:20-25; the cached index of the first colon is recomputed. -/
structure QName where
  raw : Str
  ns : Option Str
deriving DecidableEq, Repr

/-- `QName::local_name`, qname.rs:113-117: what follows the first colon, or everything. -/
def localName (s : Str) : Str :=
  if ':' ∈ s then (s.dropWhile fun c => c != ':').drop 1 else s

/-- `PartialEq for QName`, qname.rs:193-201. -/
def QName.eq (a b : QName) : Bool :=
  match a.ns, b.ns with
  | some x, some y => x == y && localName a.raw == localName b.raw
  | _, _ => a.raw == b.raw

/-- `Hash for QName`, qname.rs:203-212: the sequence of values fed to the hasher. Two names
have the same hash for every hasher exactly if the fed sequences are equal. -/
def QName.hashFeed (a : QName) : List Str :=
  match a.ns with
  | some x => [x, localName a.raw]
  | none => [a.raw]

/-- **C20**: reflexive. -/
theorem C20_refl (a : QName) : a.eq a = true := by
  unfold QName.eq
  cases a.ns <;> simp

/-- **C20**: symmetric. -/
theorem C20_symm (a b : QName) (h : a.eq b = true) : b.eq a = true := by
  unfold QName.eq at *
  cases ha : a.ns <;> cases hb : b.ns <;> simp_all

/-- **C20** (partial): among names that all carry a resolved namespace, or all do not,
equality is transitive. Missing: mixed triples, see `C20_not_transitive`. -/
theorem C20_trans_partial (a b c : QName) (hab : a.ns.isSome = b.ns.isSome)
    (hbc : b.ns.isSome = c.ns.isSome) (h1 : a.eq b = true) (h2 : b.eq c = true) :
    a.eq c = true := by
  unfold QName.eq at *
  cases ha : a.ns <;> cases hb : b.ns <;> cases hc : c.ns <;> simp_all

/-- **C20** (partial): among such names, equal ones have equal hashes. -/
theorem C20_hash_partial (a b : QName) (hab : a.ns.isSome = b.ns.isSome)
    (h : a.eq b = true) : a.hashFeed = b.hashFeed := by
  unfold QName.eq at h
  unfold QName.hashFeed
  cases ha : a.ns <;> cases hb : b.ns <;> simp_all

/-- **C20**: such names are equal exactly if the namespace and local name (or the raw texts)
agree, so a prefix does not matter. -/
theorem C20_resolved_eq_iff (a b : QName) (x y : Str) (ha : a.ns = some x) (hb : b.ns = some y) :
    a.eq b = true ↔ x = y ∧ localName a.raw = localName b.raw := by
  unfold QName.eq
  rw [ha, hb]
  simp

/-- **C20** is false in general: two names with different namespaces are both equal to the
unresolved name with the same text, so equality is not transitive. -/
theorem C20_not_transitive :
    ∃ a b c : QName, a.eq b = true ∧ b.eq c = true ∧ a.eq c = false :=
  ⟨⟨['p', ':', 'x'], some ['1']⟩, ⟨['p', ':', 'x'], none⟩, ⟨['p', ':', 'x'], some ['2']⟩,
    by decide, by decide, by decide⟩

/-- **C20** is false in general: equal names can have different hashes. -/
theorem C20_hash_inconsistent : ∃ a b : QName, a.eq b = true ∧ a.hashFeed ≠ b.hashFeed :=
  ⟨⟨['x'], some ['1']⟩, ⟨['x'], none⟩, by decide, by decide⟩

example : (QName.mk ['p', ':', 'x'] (some ['1'])).eq ⟨['q', ':', 'x'], some ['1']⟩ = true ∧
    localName ['a', ':', 'b', ':', 'c'] = ['b', ':', 'c'] := by decide

/-! ## C21: `Attributes` -/

/-- An `IndexMap` from keys to values: the entries in insertion order. -/
abbrev AttrMap := List (Str × Str)

namespace AttrMap

/-- `Attributes::push`, attributes.rs:35-49: the map afterwards and whether it succeeded. -/
def push (m : AttrMap) (k v : Str) : AttrMap × Bool :=
  if m.any fun e => e.1 == k then (m, false) else (m ++ [(k, v)], true)

/-- `Attributes::insert`, attributes.rs:54-64: `IndexMap::insert` keeps the position of an
existing key and replaces its value, which is returned. -/
def insert (m : AttrMap) (k v : Str) : AttrMap × Option Str :=
  match m.find? fun e => e.1 == k with
  | some e => (m.map (fun x => if x.1 == k then (k, v) else x), some e.2)
  | none => (m ++ [(k, v)], none)

end AttrMap

inductive AttrOp where
  | push (k v : Str)
  | insert (k v : Str)
deriving DecidableEq, Repr

def AttrMap.step (m : AttrMap) : AttrOp → AttrMap
  | .push k v => (m.push k v).1
  | .insert k v => (m.insert k v).1

def AttrMap.run (m : AttrMap) (ops : List AttrOp) : AttrMap := ops.foldl AttrMap.step m

def AttrOp.key : AttrOp → Str
  | .push k _ => k
  | .insert k _ => k

/-! ### Specification -/

/-- The keys in order of their first operation. -/
def firstKeys : List AttrOp → List Str → List Str
  | [], seen => seen
  | op :: ops, seen => firstKeys ops (if op.key ∈ seen then seen else seen ++ [op.key])

/-- The value a key has after the operations: the first operation sets it, later `push`es do
not change it, later `insert`s do. -/
def finalValue (k : Str) : List AttrOp → Option Str → Option Str
  | [], cur => cur
  | .push k' v :: ops, cur => finalValue k ops (if k' = k then cur.or (some v) else cur)
  | .insert k' v :: ops, cur => finalValue k ops (if k' = k then some v else cur)

def AttrMap.get (m : AttrMap) (k : Str) : Option Str := (m.find? fun e => e.1 == k).map (·.2)

/-! ### Proof -/

theorem AttrMap.any_iff (m : AttrMap) (k : Str) :
    (m.any fun e => e.1 == k) = true ↔ k ∈ m.map (·.1) := by
  simp only [List.any_eq_true, List.mem_map, beq_iff_eq]

theorem AttrMap.find_none_iff (m : AttrMap) (k : Str) :
    m.find? (fun e => e.1 == k) = none ↔ k ∉ m.map (·.1) := by
  simp only [List.find?_eq_none, List.mem_map, beq_iff_eq]
  constructor
  · intro h ⟨a, ha, hk⟩; exact h a ha hk
  · intro h a ha hk; exact h ⟨a, ha, hk⟩

theorem AttrMap.keys_step (m : AttrMap) (op : AttrOp) :
    (m.step op).map (·.1)
      = (if op.key ∈ m.map (·.1) then m.map (·.1) else m.map (·.1) ++ [op.key]) := by
  cases op with
  | push k v =>
    show (m.push k v).1.map (·.1)
      = (if k ∈ m.map (·.1) then m.map (·.1) else m.map (·.1) ++ [k])
    unfold AttrMap.push
    by_cases h : k ∈ m.map (·.1)
    · rw [if_pos ((any_iff m k).mpr h), if_pos h]
    · rw [if_neg (fun hh => h ((any_iff m k).mp hh)), if_neg h]; simp
  | insert k v =>
    show (m.insert k v).1.map (·.1)
      = (if k ∈ m.map (·.1) then m.map (·.1) else m.map (·.1) ++ [k])
    unfold AttrMap.insert
    cases hf : m.find? fun e => e.1 == k with
    | none =>
      have := (find_none_iff m k).mp hf
      rw [if_neg this]; simp
    | some e =>
      have : k ∈ m.map (·.1) := by
        apply Classical.byContradiction
        intro h
        rw [← find_none_iff] at h
        rw [h] at hf; cases hf
      rw [if_pos this]
      simp only [List.map_map]
      apply List.map_congr_left
      intro x _
      simp only [Function.comp]
      split
      · next h => exact (by simpa using h : x.1 = k).symm
      · rfl

theorem AttrMap.get_append (m : AttrMap) (k v k' : Str) :
    AttrMap.get (m ++ [(k, v)]) k' = (m.get k').or (if k = k' then some v else none) := by
  unfold AttrMap.get
  rw [List.find?_append]
  cases m.find? fun e => e.1 == k' with
  | some e => simp
  | none => by_cases h : k = k' <;> simp [h, List.find?_cons]

theorem AttrMap.get_none_iff (m : AttrMap) (k : Str) : m.get k = none ↔ k ∉ m.map (·.1) := by
  unfold AttrMap.get
  rw [Option.map_eq_none_iff, find_none_iff]

theorem AttrMap.get_map (m : AttrMap) (k v k' : Str) :
    AttrMap.get (m.map (fun x => if x.1 == k then (k, v) else x)) k'
      = if k = k' then (if k ∈ m.map (·.1) then some v else none) else m.get k' := by
  unfold AttrMap.get
  induction m with
  | nil => simp
  | cons x m ih =>
    simp only [List.map_cons, List.find?_cons]
    by_cases hx : x.1 = k
    · subst hx
      by_cases hk : x.1 = k'
      · simp [hk]
      · have h1 : (x.1 == k') = false := by simpa using hk
        simp only [beq_self_eq_true, if_true, h1]
        rw [ih]
        simp [hk]
    · have h1 : (x.1 == k) = false := by simpa using hx
      simp only [h1, Bool.false_eq_true, if_false]
      by_cases hk : x.1 = k'
      · simp only [hk, beq_self_eq_true]
        have : k ≠ k' := by intro h; exact hx (by rw [hk, h])
        simp [this]
      · have h2 : (x.1 == k') = false := by simpa using hk
        simp only [h2]
        rw [ih]
        have : k ≠ x.1 := fun h => hx h.symm
        by_cases hkk : k = k'
        · subst hkk
          by_cases hm : k ∈ m.map (·.1)
          · rw [if_pos rfl, if_pos rfl, if_pos hm, if_pos (List.mem_cons_of_mem _ hm)]
          · rw [if_pos rfl, if_pos rfl, if_neg hm, if_neg (by
              intro h; rcases List.mem_cons.mp h with h | h
              · exact this h
              · exact hm h)]
        · simp [hkk]

theorem AttrMap.get_step (m : AttrMap) (op : AttrOp) (k' : Str) :
    (m.step op).get k' = (match op with
      | .push k v => if k = k' then (m.get k').or (some v) else m.get k'
      | .insert k v => if k = k' then some v else m.get k') := by
  cases op with
  | push k v =>
    simp only [AttrMap.step, AttrMap.push]
    by_cases h : k ∈ m.map (·.1)
    · rw [if_pos ((any_iff m k).mpr h)]
      by_cases hk : k = k'
      · subst hk
        rw [if_pos rfl]
        cases hg : m.get k with
        | none => rw [get_none_iff] at hg; exact absurd h hg
        | some x => rfl
      · rw [if_neg hk]
    · rw [if_neg (fun hh => h ((any_iff m k).mp hh)), get_append]
      by_cases hk : k = k'
      · simp [hk]
      · simp [hk]
  | insert k v =>
    simp only [AttrMap.step, AttrMap.insert]
    cases hf : m.find? fun e => e.1 == k with
    | none =>
      simp only
      rw [get_append]
      have := (find_none_iff m k).mp hf
      by_cases hk : k = k'
      · subst hk
        rw [(get_none_iff m k).mpr this]; simp
      · simp [hk]
    | some e =>
      simp only
      rw [get_map]
      have : k ∈ m.map (·.1) := by
        apply Classical.byContradiction
        intro h
        rw [← find_none_iff] at h
        rw [h] at hf; cases hf
      by_cases hk : k = k'
      · rw [if_pos hk, if_pos hk, if_pos this]
      · rw [if_neg hk, if_neg hk]

/-- **C21**, order: after any operations on an empty map, the keys are in the order of their
first operation. -/
theorem C21_order (ops : List AttrOp) :
    (AttrMap.run [] ops).map (·.1) = firstKeys ops [] := by
  have : ∀ (ops : List AttrOp) (m : AttrMap),
      (AttrMap.run m ops).map (·.1) = firstKeys ops (m.map (·.1)) := by
    intro ops
    induction ops with
    | nil => intro m; rfl
    | cons op ops ih =>
      intro m
      simp only [AttrMap.run, List.foldl_cons, firstKeys]
      have h1 := ih (m.step op)
      simp only [AttrMap.run] at h1
      rw [h1, AttrMap.keys_step]
  exact this ops []

/-- **C21**, uniqueness: each key occurs once. -/
theorem C21_unique_keys (ops : List AttrOp) : ((AttrMap.run [] ops).map (·.1)).Nodup := by
  rw [C21_order]
  have : ∀ (ops : List AttrOp) (seen : List Str), seen.Nodup → (firstKeys ops seen).Nodup := by
    intro ops
    induction ops with
    | nil => intro seen h; exact h
    | cons op ops ih =>
      intro seen h
      simp only [firstKeys]
      apply ih
      split
      · exact h
      · next hn =>
        rw [List.nodup_append]
        refine ⟨h, by simp, ?_⟩
        intro a ha b hb
        simp only [List.mem_singleton] at hb
        subst hb
        intro hab; subst hab; exact hn ha
  exact this ops [] List.nodup_nil

/-- **C21**, values: after any operations, every key has the value the specification gives
it (the first `push`, or the last `insert`). -/
theorem C21_values (ops : List AttrOp) (k : Str) :
    (AttrMap.run [] ops).get k = finalValue k ops none := by
  have : ∀ (ops : List AttrOp) (m : AttrMap),
      (AttrMap.run m ops).get k = finalValue k ops (m.get k) := by
    intro ops
    induction ops with
    | nil => intro m; rfl
    | cons op ops ih =>
      intro m
      have h1 := ih (m.step op)
      simp only [AttrMap.run, List.foldl_cons] at h1 ⊢
      rw [h1, AttrMap.get_step]
      cases op with
      | push k' v => simp only [finalValue]
      | insert k' v => simp only [finalValue]
  exact this ops []

/-- **C21**, `push` reports a duplicate exactly if the key is present and then changes
nothing. -/
theorem C21_push_duplicate (m : AttrMap) (k v : Str) :
    ((m.push k v).2 = false ↔ k ∈ m.map (·.1)) ∧
      ((m.push k v).2 = false → (m.push k v).1 = m) := by
  unfold AttrMap.push
  by_cases h : (m.any fun e => e.1 == k) = true
  · rw [if_pos h]
    exact ⟨⟨fun _ => (AttrMap.any_iff m k).mp h, fun _ => rfl⟩, fun _ => rfl⟩
  · rw [if_neg h]
    refine ⟨⟨fun hh => by simp at hh, fun hh => absurd ((AttrMap.any_iff m k).mpr hh) h⟩,
      fun hh => by simp at hh⟩

/-- **C21**, `insert` returns the previous value. -/
theorem C21_insert_returns_old (m : AttrMap) (k v : Str) : (m.insert k v).2 = m.get k := by
  unfold AttrMap.insert AttrMap.get
  cases m.find? fun e => e.1 == k <;> rfl

example :
    AttrMap.run [] [.push ['a'] ['1'], .insert ['b'] ['2'], .push ['a'] ['3'],
      .insert ['a'] ['4']] = [(['a'], ['4']), (['b'], ['2'])] := by decide

end Verif.Rt

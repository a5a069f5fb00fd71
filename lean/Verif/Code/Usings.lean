import Verif.Code.IdentPath
/-!
# Use statements of generated modules (C47)

Models `Module::usings` (`xsd-parser/src/models/code/module.rs`, 82-92) and `render_usings` (230-293).
`BTreeMap`s are association lists with unique keys in insertion order (the order of the printed items is not part of
the property). The result is a list of `use` statements, each a tree as in the Rust grammar.
-/
namespace Verif.Code

/-- `*map.entry(k).or_insert(a) &= a`, used at module.rs:88 and module.rs:283. -/
def insertAnd {κ : Type} [DecidableEq κ] (k : κ) (a : Bool) : List (κ × Bool) → List (κ × Bool)
  | [] => [(k, a)]
  | (k', b) :: rest => if k' = k then (k', b && a) :: rest else (k', b) :: insertAnd k a rest

/-- `Module::usings`, module.rs:82-92, folded over a history of requests (text of the path, anonymous). -/
def usingsMap (reqs : List (List Char × Bool)) : List (List Char × Bool) :=
  reqs.foldl (fun m r => insertAnd r.1 r.2 m) []

mutual
/-- The local `struct Module` of `render_usings`, module.rs:236-239. -/
inductive Trie where
  | node (usings : List (Ident × Bool)) (subs : Subs)
/-- `sub_modules: BTreeMap<Ident2, Module>`. -/
inductive Subs where
  | nil
  | cons (i : Ident) (t : Trie) (rest : Subs)
end

/-- `Module::default()`. -/
def Trie.empty : Trie := .node [] .nil

/-- `sub_modules.entry(m).or_default()` followed by an update `f` of the entry. -/
def Subs.upd (m : Ident) (f : Trie → Trie) : Subs → Subs
  | .nil => .cons m (f Trie.empty) .nil
  | .cons i t rest => if i = m then .cons i (f t) rest else .cons i t (rest.upd m f)

/-- The body of the loop of `render_usings`, module.rs:276-283. -/
def Trie.insert : List Ident → Ident → Bool → Trie → Trie
  | [], i, a, .node us subs => .node (insertAnd i a us) subs
  | m :: p, i, a, .node us subs => .node us (subs.upd m (Trie.insert p i a))

mutual
/-- A use tree of the Rust grammar: `a`, `a as _`, `a::tree`, `{tree, …}`, or nothing at all (a syntax error). -/
inductive UseTree where
  | item (i : Ident) (anon : Bool)
  | path (i : Ident) (t : UseTree)
  | group (ts : UseTrees)
  | missing
inductive UseTrees where
  | nil
  | cons (t : UseTree) (ts : UseTrees)
end

def UseTrees.append : UseTrees → UseTrees → UseTrees
  | .nil, b => b
  | .cons t ts, b => .cons t (ts.append b)

def UseTrees.ofItems : List (Ident × Bool) → UseTrees
  | [] => .nil
  | (i, a) :: rest => .cons (.item i a) (UseTrees.ofItems rest)

def UseTrees.length : UseTrees → Nat
  | .nil => 0
  | .cons _ ts => ts.length + 1

/-- module.rs:258-264: braces iff more than one item. -/
def UseTrees.wrap : UseTrees → UseTree
  | .nil => .missing
  | .cons t .nil => t
  | ts => .group ts

mutual
/-- `Module::render`, module.rs:242-265. -/
def Trie.render : Trie → UseTree
  | .node us subs => ((UseTrees.ofItems us).append subs.render).wrap
/-- module.rs:252-256. -/
def Subs.render : Subs → UseTrees
  | .nil => .nil
  | .cons i t rest => .cons (.path i t.render) rest.render
end

/-- module.rs:286-290: one `use` statement per top-level sub-module. -/
def Subs.statements : Subs → List UseTree
  | .nil => []
  | .cons i t rest => .path i t.render :: rest.statements

/-- `render_usings`, module.rs:230-293. -/
def renderUsings (usings : List (List Char × Bool)) : List UseTree :=
  let root := usings.foldl (fun t u => match fromStr u.1 with
    | none => t
    | some p => Trie.insert (p.path.getD []) p.ident u.2 t) Trie.empty
  match root with
  | .node _ subs => subs.statements

/-! ## Specification -/

mutual
/-- The items a use tree imports: full path and whether it is imported as `_`. `none`: not a valid use tree. -/
def UseTree.imports : UseTree → Option (List (List Ident × Bool))
  | .item i a => some [([i], a)]
  | .path i t => t.imports.map fun l => l.map fun p => (i :: p.1, p.2)
  | .group ts => ts.imports
  | .missing => none
def UseTrees.imports : UseTrees → Option (List (List Ident × Bool))
  | .nil => some []
  | .cons t ts => match t.imports, ts.imports with
    | some a, some b => some (a ++ b)
    | _, _ => none
end

/-- The items imported by a list of use statements. -/
def allImports : List UseTree → Option (List (List Ident × Bool))
  | [] => some []
  | t :: ts => match t.imports, allImports ts with
    | some a, some b => some (a ++ b)
    | _, _ => none

/-- The path requested by a text, if it is a path. -/
def target (s : List Char) : Option (List Ident) := (fromStr s).map fun p => p.path.getD [] ++ [p.ident]

/-! ## Proofs -/

/-- The entry of an association list. -/
def look {κ : Type} [DecidableEq κ] (k : κ) : List (κ × Bool) → Option Bool
  | [] => none
  | (k', b) :: rest => if k' = k then some b else look k rest

def andOpt : Option Bool → Bool → Bool
  | none, a => a
  | some b, a => b && a

theorem look_insertAnd {κ : Type} [DecidableEq κ] (k k' : κ) (a : Bool) (m : List (κ × Bool)) :
    look k (insertAnd k' a m) = if k' = k then some (andOpt (look k m) a) else look k m := by
  induction m with
  | nil => simp [insertAnd, look, andOpt]
  | cons e m ih =>
    obtain ⟨k₁, b⟩ := e
    by_cases h1 : k₁ = k'
    · subst h1
      by_cases h2 : k₁ = k
      · simp [insertAnd, look, h2, andOpt]
      · simp [insertAnd, look, h2]
    · by_cases h2 : k₁ = k
      · subst h2
        have : ¬ k' = k₁ := fun h => h1 h.symm
        simp [insertAnd, look, h1, this]
      · simp [insertAnd, look, h1, h2, ih]

theorem keys_insertAnd {κ : Type} [DecidableEq κ] (k : κ) (a : Bool) (m : List (κ × Bool)) :
    (∀ x, x ∈ (insertAnd k a m).map (·.1) ↔ x = k ∨ x ∈ m.map (·.1)) ∧
    ((m.map (·.1)).Nodup → ((insertAnd k a m).map (·.1)).Nodup) := by
  induction m with
  | nil => simp [insertAnd]
  | cons e m ih =>
    obtain ⟨k₁, b⟩ := e
    by_cases h1 : k₁ = k
    · subst h1
      simp [insertAnd]
    · simp only [insertAnd, h1, if_false, List.map_cons, List.nodup_cons]
      refine ⟨fun x => ?_, fun h => ⟨?_, ih.2 h.2⟩⟩
      · simp only [List.mem_cons, ih.1 x]
        constructor
        · rintro (h | h | h) <;> simp [h]
        · rintro (h | h | h) <;> simp [h]
      · rw [ih.1]
        rintro (h' | h')
        · exact h1 h'
        · exact h.1 h'

theorem look_of_mem {κ : Type} [DecidableEq κ] (m : List (κ × Bool)) (h : (m.map (·.1)).Nodup) (k : κ) (a : Bool) :
    (k, a) ∈ m ↔ look k m = some a := by
  induction m with
  | nil => simp [look]
  | cons e m ih =>
    obtain ⟨k₁, b⟩ := e
    simp only [List.map_cons, List.nodup_cons] at h
    by_cases h1 : k₁ = k
    · subst h1
      simp only [look, if_true, List.mem_cons, Prod.mk.injEq, true_and, Option.some.injEq]
      constructor
      · rintro (h' | h')
        · exact h'.symm
        · exact absurd (List.mem_map.mpr ⟨_, h', rfl⟩) h.1
      · intro h'; exact Or.inl h'.symm
    · have h2 : ¬ k = k₁ := fun e => h1 e.symm
      simp [look, h1, h2, ih h.2]

/-- The sub-module with a given name. -/
def Subs.sub : Subs → Ident → Option Trie
  | .nil, _ => none
  | .cons i t rest, m => if i = m then some t else rest.sub m

/-- Entry of a path in a trie. -/
def Trie.get : List Ident → Ident → Trie → Option Bool
  | [], i, .node us _ => look i us
  | m :: p, i, .node _ subs => match subs.sub m with
    | none => none
    | some t => Trie.get p i t

mutual
/-- Unique keys and no module without content. -/
def Trie.WF : Trie → Prop
  | .node us subs => (us.map (·.1)).Nodup ∧ subs.WF
def Subs.WF : Subs → Prop
  | .nil => True
  | .cons i t rest => t.WF ∧ t.Full ∧ rest.WF ∧ ¬ rest.Has i
def Trie.Full : Trie → Prop
  | .node us subs => us ≠ [] ∨ subs ≠ .nil
def Subs.Has : Subs → Ident → Prop
  | .nil, _ => False
  | .cons i _ rest, m => i = m ∨ rest.Has m
end

theorem has_upd (s : Subs) (m : Ident) (f : Trie → Trie) (x : Ident) : (s.upd m f).Has x ↔ x = m ∨ s.Has x := by
  match s with
  | .nil =>
    simp only [Subs.upd, Subs.Has, or_false]
    exact ⟨fun h => h.symm, fun h => h.symm⟩
  | .cons i t rest =>
    have ih := has_upd rest m f x
    by_cases h : i = m
    · subst h
      simp only [Subs.upd, if_true, Subs.Has]
      constructor
      · intro h; exact Or.inr h
      · rintro (h | h)
        · exact Or.inl h.symm
        · exact h
    · simp only [Subs.upd, h, if_false, Subs.Has, ih]
      constructor
      · rintro (h | h | h) <;> simp [h]
      · rintro (h | h | h) <;> simp [h]

theorem wf_upd (s : Subs) (m : Ident) (f : Trie → Trie) (hs : s.WF) (hf : ∀ t, t.WF → (f t).WF ∧ (f t).Full) :
    (s.upd m f).WF := by
  match s with
  | .nil =>
    have := hf Trie.empty (by simp [Trie.empty, Trie.WF, Subs.WF])
    simp [Subs.upd, Subs.WF, Subs.Has, this]
  | .cons i t rest =>
    simp only [Subs.WF] at hs
    obtain ⟨h1, h2, h3, h4⟩ := hs
    by_cases h : i = m
    · simp only [Subs.upd, h, if_true, Subs.WF]
      exact ⟨(hf t h1).1, (hf t h1).2, h3, h ▸ h4⟩
    · simp only [Subs.upd, h, if_false, Subs.WF]
      refine ⟨h1, h2, wf_upd rest m f h3 hf, ?_⟩
      rw [has_upd]
      rintro (h' | h')
      · exact h h'
      · exact h4 h'

theorem insertAnd_ne_nil {κ : Type} [DecidableEq κ] (k : κ) (a : Bool) (m : List (κ × Bool)) :
    insertAnd k a m ≠ [] := by
  cases m with
  | nil => simp [insertAnd]
  | cons e m => obtain ⟨k', b⟩ := e; simp only [insertAnd]; split <;> simp

theorem upd_ne_nil (s : Subs) (m : Ident) (f : Trie → Trie) : s.upd m f ≠ .nil := by
  cases s with
  | nil => simp [Subs.upd]
  | cons i t rest => simp only [Subs.upd]; split <;> simp

theorem wf_insert (p : List Ident) (i : Ident) (a : Bool) (t : Trie) (ht : t.WF) :
    (Trie.insert p i a t).WF ∧ (Trie.insert p i a t).Full := by
  induction p generalizing t with
  | nil =>
    obtain ⟨us, subs⟩ := t
    simp only [Trie.WF] at ht
    simp only [Trie.insert, Trie.WF, Trie.Full]
    exact ⟨⟨(keys_insertAnd i a us).2 ht.1, ht.2⟩, Or.inl (insertAnd_ne_nil _ _ _)⟩
  | cons m p ih =>
    obtain ⟨us, subs⟩ := t
    simp only [Trie.WF] at ht
    simp only [Trie.insert, Trie.WF, Trie.Full]
    exact ⟨⟨ht.1, wf_upd subs m _ ht.2 (fun t h => ih t h)⟩, Or.inr (upd_ne_nil _ _ _)⟩

theorem get_empty (p : List Ident) (i : Ident) : Trie.empty.get p i = none := by
  cases p <;> simp [Trie.empty, Trie.get, look, Subs.sub]

theorem sub_upd (s : Subs) (m : Ident) (f : Trie → Trie) (x : Ident) :
    (s.upd m f).sub x = if m = x then some (f ((s.sub m).getD Trie.empty)) else s.sub x := by
  match s with
  | .nil => simp [Subs.upd, Subs.sub]
  | .cons j t rest =>
    have ih := sub_upd rest m f x
    by_cases h : j = m
    · subst h
      by_cases h2 : j = x
      · simp [Subs.upd, Subs.sub, h2]
      · simp [Subs.upd, Subs.sub, h2]
    · by_cases h2 : j = x
      · subst h2
        have : ¬ m = j := fun e => h e.symm
        simp [Subs.upd, Subs.sub, h, this]
      · simp only [Subs.upd, h, if_false, Subs.sub, h2, ih]

theorem get_insert (p : List Ident) (i : Ident) (a : Bool) (t : Trie) (q : List Ident) (x : Ident) :
    (Trie.insert p i a t).get q x =
      if p = q ∧ i = x then some (andOpt (t.get q x) a) else t.get q x := by
  induction p generalizing t q with
  | nil =>
    obtain ⟨us, subs⟩ := t
    cases q with
    | nil =>
      simp only [Trie.insert, Trie.get, look_insertAnd, true_and]
    | cons m q => simp [Trie.insert, Trie.get]
  | cons m p ih =>
    obtain ⟨us, subs⟩ := t
    cases q with
    | nil => simp [Trie.insert, Trie.get]
    | cons n q =>
      simp only [Trie.insert, Trie.get, sub_upd]
      by_cases h : m = n
      · subst h
        simp only [if_true, ih, List.cons.injEq, true_and]
        cases hs : subs.sub m with
        | none => simp [get_empty]
        | some t => simp
      · simp [h]

mutual
/-- All entries of a trie with their paths. -/
def Trie.flat : Trie → List (List Ident × Bool)
  | .node us subs => (us.map fun u => ([u.1], u.2)) ++ subs.flat
def Subs.flat : Subs → List (List Ident × Bool)
  | .nil => []
  | .cons i t rest => (t.flat.map fun p => (i :: p.1, p.2)) ++ rest.flat
end

theorem imports_append (a b : UseTrees) :
    (a.append b).imports = match a.imports, b.imports with
      | some x, some y => some (x ++ y)
      | _, _ => none := by
  match a with
  | .nil => simp only [UseTrees.append, UseTrees.imports]; cases b.imports <;> simp
  | .cons t ts =>
    simp only [UseTrees.append, UseTrees.imports, imports_append ts b]
    cases t.imports <;> cases ts.imports <;> cases b.imports <;> simp

theorem imports_ofItems (us : List (Ident × Bool)) :
    (UseTrees.ofItems us).imports = some (us.map fun u => ([u.1], u.2)) := by
  induction us with
  | nil => rfl
  | cons u us ih => obtain ⟨i, a⟩ := u; simp [UseTrees.ofItems, UseTrees.imports, UseTree.imports, ih]

theorem imports_wrap (ts : UseTrees) (h : ts ≠ .nil) : ts.wrap.imports = ts.imports := by
  match ts with
  | .nil => exact absurd rfl h
  | .cons t .nil => simp only [UseTrees.wrap, UseTrees.imports]; cases t.imports <;> simp
  | .cons t (.cons t' ts) => simp only [UseTrees.wrap, UseTree.imports]

theorem append_ne_nil (us : List (Ident × Bool)) (subs : Subs) (h : us ≠ [] ∨ subs ≠ .nil) :
    (UseTrees.ofItems us).append subs.render ≠ .nil := by
  cases us with
  | nil =>
    cases subs with
    | nil => simp at h
    | cons i t rest => simp [UseTrees.ofItems, UseTrees.append, Subs.render]
  | cons u us => obtain ⟨i, a⟩ := u; simp [UseTrees.ofItems, UseTrees.append]

mutual
theorem imports_render (t : Trie) (h : t.WF) (hf : t.Full) : t.render.imports = some t.flat := by
  match t with
  | .node us subs =>
    simp only [Trie.WF] at h
    simp only [Trie.Full] at hf
    simp only [Trie.render, Trie.flat]
    rw [imports_wrap _ (append_ne_nil us subs hf), imports_append, imports_ofItems, imports_render_subs subs h.2]
theorem imports_render_subs (s : Subs) (h : s.WF) : s.render.imports = some s.flat := by
  match s with
  | .nil => rfl
  | .cons i t rest =>
    simp only [Subs.WF] at h
    simp only [Subs.render, UseTrees.imports, UseTree.imports, Subs.flat, imports_render t h.1 h.2.1,
      imports_render_subs rest h.2.2.1, Option.map_some]
end

theorem imports_statements (s : Subs) (h : s.WF) : allImports s.statements = some s.flat := by
  match s with
  | .nil => rfl
  | .cons i t rest =>
    simp only [Subs.WF] at h
    simp only [Subs.statements, allImports, UseTree.imports, Subs.flat, imports_render t h.1 h.2.1,
      imports_statements rest h.2.2.1, Option.map_some]

theorem sub_none_of_not_has (s : Subs) (m : Ident) (h : ¬ s.Has m) : s.sub m = none := by
  match s with
  | .nil => rfl
  | .cons i t rest =>
    simp only [Subs.Has, not_or] at h
    simp [Subs.sub, h.1, sub_none_of_not_has rest m h.2]

mutual
theorem mem_flat (t : Trie) (h : t.WF) (q : List Ident) (a : Bool) :
    (q, a) ∈ t.flat ↔ ∃ p i, q = p ++ [i] ∧ t.get p i = some a := by
  match t with
  | .node us subs =>
    simp only [Trie.WF] at h
    simp only [Trie.flat, List.mem_append, List.mem_map, Prod.mk.injEq]
    rw [mem_flat_subs subs h.2]
    constructor
    · rintro (⟨⟨i, b⟩, hm, rfl, rfl⟩ | ⟨m, p, i, t, rfl, hs, hg⟩)
      · exact ⟨[], i, rfl, (look_of_mem us h.1 i b).mp hm⟩
      · exact ⟨m :: p, i, by simp, by simp [Trie.get, hs, hg]⟩
    · rintro ⟨p, i, rfl, hg⟩
      cases p with
      | nil => exact Or.inl ⟨(i, a), (look_of_mem us h.1 i a).mpr hg, rfl, rfl⟩
      | cons m p =>
        simp only [Trie.get] at hg
        cases hs : subs.sub m with
        | none => simp [hs] at hg
        | some t => exact Or.inr ⟨m, p, i, t, by simp, hs, by simpa [hs] using hg⟩
theorem mem_flat_subs (s : Subs) (h : s.WF) (q : List Ident) (a : Bool) :
    (q, a) ∈ s.flat ↔ ∃ m p i t, q = m :: (p ++ [i]) ∧ s.sub m = some t ∧ t.get p i = some a := by
  match s with
  | .nil => simp [Subs.flat, Subs.sub]
  | .cons j t rest =>
    simp only [Subs.WF] at h
    simp only [Subs.flat, List.mem_append, List.mem_map, Prod.mk.injEq]
    rw [mem_flat_subs rest h.2.2.1]
    constructor
    · rintro (⟨⟨q', b⟩, hm, rfl, rfl⟩ | ⟨m, p, i, t', rfl, hs, hg⟩)
      · obtain ⟨p, i, rfl, hg⟩ := (mem_flat t h.1 q' b).mp hm
        exact ⟨j, p, i, t, rfl, by simp [Subs.sub], hg⟩
      · refine ⟨m, p, i, t', rfl, ?_, hg⟩
        have : ¬ j = m := by
          rintro rfl
          rw [sub_none_of_not_has rest j h.2.2.2] at hs
          exact absurd hs (by simp)
        simp [Subs.sub, this, hs]
    · rintro ⟨m, p, i, t', rfl, hs, hg⟩
      by_cases e : j = m
      · subst e
        simp only [Subs.sub, if_true, Option.some.injEq] at hs
        subst hs
        exact Or.inl ⟨(p ++ [i], a), (mem_flat t h.1 _ a).mpr ⟨p, i, rfl, hg⟩, rfl, rfl⟩
      · simp only [Subs.sub, e, if_false] at hs
        exact Or.inr ⟨m, p, i, t', rfl, hs, hg⟩
end

theorem map_fst_cons (i : Ident) (l : List (List Ident × Bool)) :
    (l.map fun p => (i :: p.1, p.2)).map (·.1) = (l.map (·.1)).map (i :: ·) := by
  simp [List.map_map, Function.comp_def]

theorem nodup_map_cons (i : Ident) (l : List (List Ident)) (h : l.Nodup) : (l.map (i :: ·)).Nodup := by
  induction l with
  | nil => simp
  | cons a l ih =>
    simp only [List.nodup_cons] at h
    simp only [List.map_cons, List.nodup_cons, List.mem_map, List.cons.injEq, true_and, exists_eq_right]
    exact ⟨h.1, ih h.2⟩

mutual
theorem nodup_flat (t : Trie) (h : t.WF) : (t.flat.map (·.1)).Nodup := by
  match t with
  | .node us subs =>
    simp only [Trie.WF] at h
    simp only [Trie.flat, List.map_append, List.nodup_append, List.map_map, Function.comp_def]
    refine ⟨?_, nodup_flat_subs subs h.2, ?_⟩
    · have : (us.map fun u => [u.1]) = (us.map (·.1)).map (fun i => [i]) := by simp
      rw [this]
      refine List.Pairwise.map _ ?_ h.1
      intro a b hab he
      exact hab (by simpa using he)
    · intro x hx y hy he
      subst he
      obtain ⟨u, _, rfl⟩ := List.mem_map.mp hx
      obtain ⟨⟨q, a⟩, hq, e⟩ := List.mem_map.mp hy
      obtain ⟨m, p, i, t, rfl, _⟩ := (mem_flat_subs subs h.2 q a).mp hq
      have := congrArg List.length e
      simp at this
theorem nodup_flat_subs (s : Subs) (h : s.WF) : (s.flat.map (·.1)).Nodup := by
  match s with
  | .nil => simp [Subs.flat]
  | .cons j t rest =>
    simp only [Subs.WF] at h
    simp only [Subs.flat, List.map_append, List.nodup_append]
    refine ⟨?_, nodup_flat_subs rest h.2.2.1, ?_⟩
    · rw [map_fst_cons]
      exact nodup_map_cons j _ (nodup_flat t h.1)
    · intro x hx y hy he
      subst he
      rw [map_fst_cons] at hx
      obtain ⟨p, _, rfl⟩ := List.mem_map.mp hx
      obtain ⟨⟨q, a⟩, hq, e⟩ := List.mem_map.mp hy
      obtain ⟨m, p', i, t', rfl, hs, _⟩ := (mem_flat_subs rest h.2.2.1 q a).mp hq
      simp only [List.cons.injEq] at e
      rw [e.1, sub_none_of_not_has rest j h.2.2.2] at hs
      exact absurd hs (by simp)
end

/-- The conjunction of the flags of all entries satisfying `P`; `none` if there is none. -/
def conj {α : Type} (P : α → Bool) (l : List (α × Bool)) : Option Bool :=
  l.foldl (fun o e => if P e.1 then some (andOpt o e.2) else o) none

theorem conj_snoc {α : Type} (P : α → Bool) (l : List (α × Bool)) (e : α × Bool) :
    conj P (l ++ [e]) = if P e.1 then some (andOpt (conj P l) e.2) else conj P l := by
  simp [conj, List.foldl_append]

theorem snoc_induction {α : Type} {motive : List α → Prop} (nil : motive [])
    (snoc : ∀ l a, motive l → motive (l ++ [a])) (l : List α) : motive l := by
  have : ∀ l : List α, motive l.reverse := by
    intro l
    induction l with
    | nil => exact nil
    | cons a l ih => rw [List.reverse_cons]; exact snoc _ _ ih
  simpa using this l.reverse

theorem conj_spec {α : Type} (P : α → Bool) (l : List (α × Bool)) (b : Bool) :
    conj P l = some b ↔ (∃ e ∈ l, P e.1 = true) ∧ (b = true ↔ ∀ e ∈ l, P e.1 = true → e.2 = true) := by
  induction l using snoc_induction generalizing b with
  | nil => simp [conj]
  | snoc l e ih =>
    rw [conj_snoc]
    by_cases h : P e.1 = true
    · simp only [h, if_true, Option.some.injEq]
      cases hc : conj P l with
      | none =>
        have hn : ∀ x ∈ l, ¬ P x.1 = true := by
          intro x hx hp
          by_cases hall : ∀ e ∈ l, P e.1 = true → e.2 = true
          · have := (ih true).mpr ⟨⟨x, hx, hp⟩, by simpa using hall⟩
            rw [hc] at this; exact absurd this (by simp)
          · have := (ih false).mpr ⟨⟨x, hx, hp⟩, by simpa using hall⟩
            rw [hc] at this; exact absurd this (by simp)
        simp only [andOpt]
        constructor
        · rintro rfl
          refine ⟨⟨e, by simp, h⟩, ?_⟩
          constructor
          · intro he x hx hp
            simp only [List.mem_append, List.mem_singleton] at hx
            rcases hx with hx | rfl
            · exact absurd hp (hn x hx)
            · exact he
          · intro hall; exact hall e (by simp) h
        · rintro ⟨_, hb⟩
          have : (b = true ↔ e.2 = true) := by
            rw [hb]
            constructor
            · intro hall; exact hall e (by simp) h
            · intro he x hx hp
              simp only [List.mem_append, List.mem_singleton] at hx
              rcases hx with hx | rfl
              · exact absurd hp (hn x hx)
              · exact he
          exact (Bool.eq_iff_iff.mpr this).symm
      | some c =>
        obtain ⟨⟨x, hx, hp⟩, hcc⟩ := (ih c).mp hc
        simp only [andOpt]
        have key : (c && e.2) = true ↔ ∀ y ∈ l ++ [e], P y.1 = true → y.2 = true := by
          rw [Bool.and_eq_true, hcc]
          constructor
          · rintro ⟨h1, h2⟩ y hy hpy
            simp only [List.mem_append, List.mem_singleton] at hy
            rcases hy with hy | rfl
            · exact h1 y hy hpy
            · exact h2
          · intro hall
            exact ⟨fun y hy hpy => hall y (by simp [hy]) hpy, hall e (by simp) h⟩
        constructor
        · rintro rfl
          exact ⟨⟨e, by simp, h⟩, key⟩
        · rintro ⟨_, hb⟩
          exact Bool.eq_iff_iff.mpr (key.trans hb.symm)
    · have h1 : (∃ x ∈ l ++ [e], P x.1 = true) ↔ ∃ x ∈ l, P x.1 = true := by
        constructor
        · rintro ⟨x, hx, hp⟩
          simp only [List.mem_append, List.mem_singleton] at hx
          rcases hx with hx | rfl
          · exact ⟨x, hx, hp⟩
          · exact absurd hp h
        · rintro ⟨x, hx, hp⟩; exact ⟨x, by simp [hx], hp⟩
      have h2 : (∀ x ∈ l ++ [e], P x.1 = true → x.2 = true) ↔ ∀ x ∈ l, P x.1 = true → x.2 = true := by
        constructor
        · intro hall x hx hp; exact hall x (by simp [hx]) hp
        · intro hall x hx hp
          simp only [List.mem_append, List.mem_singleton] at hx
          rcases hx with hx | rfl
          · exact hall x hx hp
          · exact absurd hp h
      rw [h1, h2, if_neg h, ih]

/-- The trie built by `render_usings`. -/
def buildTrie (us : List (List Char × Bool)) : Trie :=
  us.foldl (fun t u => match fromStr u.1 with
    | none => t
    | some p => Trie.insert (p.path.getD []) p.ident u.2 t) Trie.empty

theorem buildTrie_spec (us : List (List Char × Bool)) :
    (buildTrie us).WF ∧ ∀ p i, (buildTrie us).get p i = conj (fun s => target s == some (p ++ [i])) us := by
  induction us using snoc_induction with
  | nil => exact ⟨by simp [buildTrie, Trie.empty, Trie.WF, Subs.WF], fun p i => by simp [buildTrie, get_empty, conj]⟩
  | snoc us u ih =>
    have hb : buildTrie (us ++ [u]) = match fromStr u.1 with
        | none => buildTrie us
        | some p => Trie.insert (p.path.getD []) p.ident u.2 (buildTrie us) := by
      simp [buildTrie, List.foldl_append]
    rw [hb]
    cases hf : fromStr u.1 with
    | none =>
      refine ⟨ih.1, fun p i => ?_⟩
      rw [conj_snoc, ih.2]
      simp [target, hf]
    | some q =>
      refine ⟨(wf_insert _ _ _ _ ih.1).1, fun p i => ?_⟩
      rw [conj_snoc, get_insert, ih.2]
      have : (target u.1 == some (p ++ [i])) = decide (q.path.getD [] = p ∧ q.ident = i) := by
        simp only [target, hf, Option.map_some]
        rw [Bool.eq_iff_iff]
        simp only [beq_iff_eq, Option.some.injEq, decide_eq_true_eq]
        constructor
        · intro h
          have := List.append_inj' h rfl
          exact ⟨this.1, by simpa using this.2⟩
        · rintro ⟨rfl, rfl⟩; rfl
      rw [this]
      simp

theorem usingsMap_spec (reqs : List (List Char × Bool)) :
    ((usingsMap reqs).map (·.1)).Nodup ∧
      ∀ s, look s (usingsMap reqs) = conj (fun s' => s' == s) reqs := by
  induction reqs using snoc_induction with
  | nil => exact ⟨by simp [usingsMap], fun s => by simp [usingsMap, look, conj]⟩
  | snoc reqs r ih =>
    have : usingsMap (reqs ++ [r]) = insertAnd r.1 r.2 (usingsMap reqs) := by
      simp [usingsMap, List.foldl_append]
    rw [this]
    refine ⟨(keys_insertAnd _ _ _).2 ih.1, fun s => ?_⟩
    rw [look_insertAnd, conj_snoc, ih.2]
    by_cases h : r.1 = s <;> simp [h]

/-- Conjunction over the map equals conjunction over the request history, for predicates on the text. -/
theorem conj_usingsMap (P : List Char → Bool) (reqs : List (List Char × Bool)) (b : Bool) :
    conj P (usingsMap reqs) = some b ↔ conj P reqs = some b := by
  obtain ⟨hn, hl⟩ := usingsMap_spec reqs
  have hmem : ∀ s c, (s, c) ∈ usingsMap reqs ↔
      (∃ e ∈ reqs, e.1 = s) ∧ (c = true ↔ ∀ e ∈ reqs, e.1 = s → e.2 = true) := by
    intro s c
    rw [look_of_mem _ hn, hl, conj_spec]
    simp
  rw [conj_spec, conj_spec]
  have h1 : (∃ e ∈ usingsMap reqs, P e.1 = true) ↔ ∃ e ∈ reqs, P e.1 = true := by
    constructor
    · rintro ⟨⟨s, c⟩, hm, hp⟩
      obtain ⟨⟨e, he, rfl⟩, _⟩ := (hmem s c).mp hm
      exact ⟨e, he, hp⟩
    · rintro ⟨e, he, hp⟩
      by_cases hall : ∀ x ∈ reqs, x.1 = e.1 → x.2 = true
      · exact ⟨(e.1, true), (hmem _ _).mpr ⟨⟨e, he, rfl⟩, by simpa using hall⟩, hp⟩
      · exact ⟨(e.1, false), (hmem _ _).mpr ⟨⟨e, he, rfl⟩, by simpa using hall⟩, hp⟩
  have h2 : (∀ e ∈ usingsMap reqs, P e.1 = true → e.2 = true) ↔ ∀ e ∈ reqs, P e.1 = true → e.2 = true := by
    constructor
    · intro hall e he hp
      by_cases hc : ∀ x ∈ reqs, x.1 = e.1 → x.2 = true
      · exact hc e he rfl
      · have := hall (e.1, false) ((hmem _ _).mpr ⟨⟨e, he, rfl⟩, by simpa using hc⟩) hp
        exact absurd this (by simp)
    · rintro hall ⟨s, c⟩ hm hp
      obtain ⟨_, hc⟩ := (hmem s c).mp hm
      refine hc.mpr ?_
      intro e he hs
      exact hall e he (by rw [hs]; exact hp)
  rw [h1, h2]

/-- C47: for every history of `usings` requests on a module, the rendered use statements are valid, import each path
at most once, import exactly the requested paths with at least two segments, and import a path as `_` exactly if all
requests for it were anonymous. (Missing: paths with one segment are not imported, see `C47_single_segment_dropped`.) -/
theorem C47_usings_exact_partial (reqs : List (List Char × Bool)) :
    ∃ imps, allImports (renderUsings (usingsMap reqs)) = some imps ∧ (imps.map (·.1)).Nodup ∧
      ∀ q anon, (q, anon) ∈ imps ↔
        2 ≤ q.length ∧ (∃ r ∈ reqs, target r.1 = some q) ∧
          (anon = true ↔ ∀ r ∈ reqs, target r.1 = some q → r.2 = true) := by
  obtain ⟨hwf, hget⟩ := buildTrie_spec (usingsMap reqs)
  have hr : renderUsings (usingsMap reqs) = match buildTrie (usingsMap reqs) with
      | .node _ subs => subs.statements := rfl
  generalize hb : buildTrie (usingsMap reqs) = t at *
  obtain ⟨us, subs⟩ := t
  simp only [Trie.WF] at hwf
  rw [hr]
  refine ⟨subs.flat, imports_statements subs hwf.2, nodup_flat_subs subs hwf.2, ?_⟩
  intro q anon
  rw [mem_flat_subs subs hwf.2]
  have hspec : ∀ p i, Trie.get p i (.node us subs) = some anon ↔
      (∃ r ∈ reqs, target r.1 = some (p ++ [i])) ∧
        (anon = true ↔ ∀ r ∈ reqs, target r.1 = some (p ++ [i]) → r.2 = true) := by
    intro p i
    rw [hget, conj_usingsMap, conj_spec]
    simp
  constructor
  · rintro ⟨m, p, i, t, rfl, hs, hg⟩
    have := (hspec (m :: p) i).mp (by simp [Trie.get, hs, hg])
    exact ⟨by simp, by simpa using this⟩
  · rintro ⟨hlen, h⟩
    have hq : q ≠ [] := by intro e; subst e; simp at hlen
    have hq2 : q = q.dropLast ++ [q.getLast hq] := (List.dropLast_concat_getLast hq).symm
    cases hd : q.dropLast with
    | nil => rw [hd] at hq2; rw [hq2] at hlen; simp at hlen
    | cons m p =>
      rw [hd] at hq2
      have := (hspec (m :: p) (q.getLast hq)).mpr (by rw [← hq2]; exact h)
      simp only [Trie.get] at this
      cases hs : subs.sub m with
      | none => simp [hs] at this
      | some t => exact ⟨m, p, q.getLast hq, t, hq2, hs, by simpa [hs] using this⟩

/-- Non-vacuity: shared prefixes, an anonymous and a mixed request. -/
example : allImports (renderUsings (usingsMap
    [("a::b::T".toList, true), ("a::X".toList, true), ("a::b::T".toList, false), ("::a::X".toList, true)])) =
    some [([['a'], ['X']], true), ([['a'], ['b'], ['T']], false)] := by
  decide +kernel

/-- Finding: a requested path with a single segment (e.g. an extern crate or a macro) is silently dropped. -/
theorem C47_single_segment_dropped : target "serde".toList = some ["serde".toList] ∧
    allImports (renderUsings (usingsMap [("serde".toList, false)])) = some [] := by
  decide +kernel

end Verif.Code

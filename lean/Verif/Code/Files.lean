import Verif.Code.IdentPath
/-!
# Writing a module tree to files (C48)

Models `Module::write_to_files_with` and `Module::write_to_files` of `xsd-parser/src/models/code/module.rs` (158-222).
A module is its code (abstract) and its named sub-modules (`BTreeMap`, hence unique names, in key order).
A path is the list of its components: module names are identifiers, so `Path::join` appends one component.
-/
namespace Verif.Code

mutual
/-- `Module`, module.rs:18-27 (the usings are part of the abstract `code`). -/
inductive Mod (γ : Type) where
  | mk (code : γ) (subs : Mods γ)
/-- `modules: BTreeMap<String, Module>`. -/
inductive Mods (γ : Type) where
  | nil
  | cons (name : Ident) (m : Mod γ) (rest : Mods γ)
end

variable {γ σ ε : Type}

mutual
/-- `write_to_files_with_impl`, module.rs:205-221. The closure `f` is a state transformer that may fail; its state is
whatever it has done so far (e.g. the files written). On failure the state at the failing call is kept. -/
def Mod.write (f : σ → Mod γ → List Ident → σ × Option ε) (path : List Ident) (s : σ) : Mod γ → σ × Option ε
  | .mk c subs =>
    match f s (.mk c subs) path with
    | (s, some e) => (s, some e)
    | (s, none) => subs.write f path s
/-- The loop, module.rs:214-218. -/
def Mods.write (f : σ → Mod γ → List Ident → σ × Option ε) (path : List Ident) (s : σ) : Mods γ → σ × Option ε
  | .nil => (s, none)
  | .cons n m rest =>
    match m.write f (path ++ [n]) s with
    | (s, some e) => (s, some e)
    | (s, none) => rest.write f path s
end

/-- `write_to_files_with`, module.rs:198-203. -/
def Mod.writeToFilesWith (f : σ → Mod γ → List Ident → σ × Option ε) (s : σ) (m : Mod γ) : σ × Option ε :=
  m.write f [] s

/-- `module.modules.is_empty()`. -/
def Mod.isLeaf : Mod γ → Bool
  | .mk _ .nil => true
  | _ => false

/-- The file name chosen by `write_to_files`, module.rs:173-177, relative to `directory`: directory components and
file name. `none` is the special case of the root module without sub-modules, which is written next to the directory
(`directory.join("").with_extension("rs")`). -/
def fileOf (m : Mod γ) (path : List Ident) : Option (List Ident × List Char) :=
  if m.isLeaf then path.getLast?.map fun l => (path.dropLast, l ++ ".rs".toList)
  else some (path, "mod.rs".toList)

/-! ## Specification -/

/-- `Module::module`, module.rs:97-102. -/
def Mods.find : Mods γ → Ident → Option (Mod γ)
  | .nil, _ => none
  | .cons n m rest, i => if n = i then some m else rest.find i

/-- The module at a path, following `Module::module` for every component. -/
def Mod.at : Mod γ → List Ident → Option (Mod γ)
  | m, [] => some m
  | .mk _ subs, i :: p => match subs.find i with
    | none => none
    | some m => m.at p

mutual
/-- Sub-module names are unique on every level (`BTreeMap`). -/
def Mod.Unique : Mod γ → Prop
  | .mk _ subs => subs.Unique
def Mods.Unique : Mods γ → Prop
  | .nil => True
  | .cons n m rest => m.Unique ∧ rest.Unique ∧ rest.find n = none
end

/-- Running `f` over a list of calls until one fails. -/
def runCalls (f : σ → Mod γ → List Ident → σ × Option ε) : σ → List (Mod γ × List Ident) → σ × Option ε
  | s, [] => (s, none)
  | s, c :: cs => match f s c.1 c.2 with
    | (s, some e) => (s, some e)
    | (s, none) => runCalls f s cs

/-! ## Proofs -/

mutual
/-- All modules of a tree with their paths, parents first. -/
def Mod.all (path : List Ident) : Mod γ → List (Mod γ × List Ident)
  | .mk c subs => (.mk c subs, path) :: subs.all path
def Mods.all (path : List Ident) : Mods γ → List (Mod γ × List Ident)
  | .nil => []
  | .cons n m rest => m.all (path ++ [n]) ++ rest.all path
end

theorem runCalls_append (f : σ → Mod γ → List Ident → σ × Option ε) (s : σ) (a b : List (Mod γ × List Ident)) :
    runCalls f s (a ++ b) = match runCalls f s a with
      | (s, some e) => (s, some e)
      | (s, none) => runCalls f s b := by
  induction a generalizing s with
  | nil => simp [runCalls]
  | cons c cs ih =>
    simp only [List.cons_append, runCalls]
    cases h : f s c.1 c.2 with
    | mk s' o => cases o <;> simp [ih]

mutual
theorem write_eq (f : σ → Mod γ → List Ident → σ × Option ε) (path : List Ident) (s : σ) (m : Mod γ) :
    m.write f path s = runCalls f s (m.all path) := by
  match m with
  | .mk c subs =>
    simp only [Mod.write, Mod.all, runCalls]
    cases h : f s (.mk c subs) path with
    | mk s' o => cases o <;> simp [writes_eq f path s' subs]
theorem writes_eq (f : σ → Mod γ → List Ident → σ × Option ε) (path : List Ident) (s : σ) (ms : Mods γ) :
    ms.write f path s = runCalls f s (ms.all path) := by
  match ms with
  | .nil => simp [Mods.write, Mods.all, runCalls]
  | .cons n m rest =>
    simp only [Mods.write, Mods.all, runCalls_append, write_eq f (path ++ [n]) s m]
    cases h : runCalls f s (m.all (path ++ [n])) with
    | mk s' o => cases o <;> simp [writes_eq f path s' rest]
end

mutual
theorem mem_all (m : Mod γ) (hu : m.Unique) (path : List Ident) (x : Mod γ) (q : List Ident) :
    (x, q) ∈ m.all path ↔ ∃ p, q = path ++ p ∧ m.at p = some x := by
  match m with
  | .mk c subs =>
    simp only [Mod.Unique] at hu
    simp only [Mod.all, List.mem_cons, Prod.mk.injEq, mem_alls subs hu]
    constructor
    · rintro (⟨rfl, rfl⟩ | ⟨i, p, m, rfl, hf, hx⟩)
      · exact ⟨[], by simp [Mod.at]⟩
      · exact ⟨i :: p, rfl, by simp [Mod.at, hf, hx]⟩
    · rintro ⟨p, rfl, hx⟩
      cases p with
      | nil => simp only [Mod.at, Option.some.injEq] at hx; exact Or.inl ⟨hx.symm, by simp⟩
      | cons i p =>
        simp only [Mod.at] at hx
        cases hf : subs.find i with
        | none => simp [hf] at hx
        | some m => exact Or.inr ⟨i, p, m, rfl, hf, by simpa [hf] using hx⟩
theorem mem_alls (ms : Mods γ) (hu : ms.Unique) (path : List Ident) (x : Mod γ) (q : List Ident) :
    (x, q) ∈ ms.all path ↔ ∃ i p m, q = path ++ i :: p ∧ ms.find i = some m ∧ m.at p = some x := by
  match ms with
  | .nil => simp [Mods.all, Mods.find]
  | .cons n m rest =>
    simp only [Mods.Unique] at hu
    simp only [Mods.all, List.mem_append, mem_all m hu.1, mem_alls rest hu.2.1]
    constructor
    · rintro (⟨p, rfl, hx⟩ | ⟨i, p, m', rfl, hf, hx⟩)
      · exact ⟨n, p, m, by simp, by simp [Mods.find], hx⟩
      · refine ⟨i, p, m', rfl, ?_, hx⟩
        have : ¬ n = i := by rintro rfl; rw [hu.2.2] at hf; exact absurd hf (by simp)
        simp [Mods.find, this, hf]
    · rintro ⟨i, p, m', rfl, hf, hx⟩
      by_cases h : n = i
      · subst h
        simp only [Mods.find, if_true, Option.some.injEq] at hf
        subst hf
        exact Or.inl ⟨p, by simp, hx⟩
      · simp only [Mods.find, h, if_false] at hf
        exact Or.inr ⟨i, p, m', rfl, hf, hx⟩
end

mutual
/-- Later paths are never prefixes of earlier ones; in particular all paths differ. -/
theorem all_order (m : Mod γ) (hu : m.Unique) (path : List Ident) :
    (m.all path).Pairwise (fun a b => ¬ b.2 <+: a.2) := by
  match m with
  | .mk c subs =>
    simp only [Mod.Unique] at hu
    simp only [Mod.all, List.pairwise_cons]
    refine ⟨?_, alls_order subs hu path⟩
    rintro ⟨x, q⟩ hq
    obtain ⟨i, p, m, rfl, _⟩ := (mem_alls subs hu path x q).mp hq
    intro h
    have := h.length_le
    simp at this
    omega
theorem alls_order (ms : Mods γ) (hu : ms.Unique) (path : List Ident) :
    (ms.all path).Pairwise (fun a b => ¬ b.2 <+: a.2) := by
  match ms with
  | .nil => simp [Mods.all]
  | .cons n m rest =>
    simp only [Mods.Unique] at hu
    simp only [Mods.all, List.pairwise_append]
    refine ⟨all_order m hu.1 _, alls_order rest hu.2.1 _, ?_⟩
    rintro ⟨x, q⟩ hq ⟨y, r⟩ hr
    obtain ⟨p, rfl, _⟩ := (mem_all m hu.1 _ x q).mp hq
    obtain ⟨i, p', m', rfl, hf, _⟩ := (mem_alls rest hu.2.1 _ y r).mp hr
    intro h
    simp only [List.append_assoc, List.prefix_append_right_inj, List.cons_append, List.nil_append,
      List.cons_prefix_cons] at h
    rw [h.1, hu.2.2] at hf
    exact absurd hf (by simp)
end

/-- C48: writing a module tree calls the writer for a list of (module, path) pairs, in order, until one call fails
(whose error is returned), where the list contains every module reachable by `module(..)` exactly once with its own
path, every path at most once, and a module never after (the path of) one of its sub-modules. -/
theorem C48_write_each_module_once (f : σ → Mod γ → List Ident → σ × Option ε) (s : σ) (m : Mod γ)
    (hu : m.Unique) :
    ∃ calls : List (Mod γ × List Ident),
      m.writeToFilesWith f s = runCalls f s calls ∧
      (∀ x p, (x, p) ∈ calls ↔ m.at p = some x) ∧
      (calls.map (·.2)).Nodup ∧
      calls.Pairwise (fun earlier later => ¬ later.2 <+: earlier.2) := by
  refine ⟨m.all [], write_eq f [] s m, fun x p => ?_, ?_, all_order m hu []⟩
  · rw [mem_all m hu]; simp
  · refine List.Pairwise.map _ (fun a b h he => ?_) (all_order m hu [])
    exact h (by rw [he]; exact List.prefix_refl _)

/-- C48: the files written by `write_to_files` are pairwise distinct, provided no module is called `mod`
(the generator never produces that name, see `KEYWORDS`). -/
theorem C48_file_names_distinct (m : Mod γ) (x y : Mod γ) (p q : List Ident)
    (hx : m.at p = some x) (hy : m.at q = some y) (hne : p ≠ q)
    (hp : "mod".toList ∉ p) (hq : "mod".toList ∉ q)
    (fx fy : List Ident × List Char) (hfx : fileOf x p = some fx) (hfy : fileOf y q = some fy) : fx ≠ fy := by
  have leaf : ∀ (z : Mod γ) (r : List Ident) (fz : List Ident × List Char), "mod".toList ∉ r →
      fileOf z r = some fz →
      (r = fz.1 ++ [fz.2.take (fz.2.length - 3)] ∧ fz.2 ≠ "mod.rs".toList ∧ z.isLeaf = true) ∨
      (fz = (r, "mod.rs".toList) ∧ z.isLeaf = false) := by
    intro z r fz hr hf
    unfold fileOf at hf
    by_cases hl : z.isLeaf = true
    · simp only [hl, if_true, Option.map_eq_some_iff] at hf
      obtain ⟨l, hl', rfl⟩ := hf
      left
      have hr0 : r ≠ [] := by intro e; subst e; simp at hl'
      have hgl : r.getLast hr0 = l := by rw [List.getLast?_eq_some_getLast hr0] at hl'; simpa using hl'
      refine ⟨?_, ?_, hl⟩
      · have := (List.dropLast_concat_getLast hr0).symm
        rw [hgl] at this
        simpa using this
      · intro e
        have : l = "mod".toList := List.append_cancel_right (bs := ".rs".toList) e
        refine hr ?_
        rw [← this, ← hgl]
        exact List.getLast_mem hr0
    · rw [if_neg hl, Option.some.injEq] at hf
      exact Or.inr ⟨hf.symm, by simpa using hl⟩
  intro he
  subst he
  rcases leaf x p fx hp hfx with ⟨h1, h2, _⟩ | ⟨h1, _⟩ <;> rcases leaf y q fx hq hfy with ⟨h3, h4, _⟩ | ⟨h3, _⟩
  · exact hne (h1.trans h3.symm)
  · rw [h3] at h2; exact h2 rfl
  · rw [h1] at h4; exact h4 rfl
  · have := h1.symm.trans h3
    injection this with h _
    exact hne h

/-- Non-vacuity: a tree with two levels. -/
def exampleMod : Mod Nat :=
  .mk 0 (.cons "a".toList (.mk 1 (.cons "b".toList (.mk 2 .nil) .nil)) (.cons "c".toList (.mk 3 .nil) .nil))

example : exampleMod.Unique ∧ (exampleMod.all []).map (·.2) =
    [[], ["a".toList], ["a".toList, "b".toList], ["c".toList]] ∧
    (exampleMod.all []).map (fun c => fileOf c.1 c.2) =
      [some ([], "mod.rs".toList), some (["a".toList], "mod.rs".toList),
       some (["a".toList], "b.rs".toList), some ([], "c.rs".toList)] := by
  refine ⟨?_, by decide +kernel, by decide +kernel⟩
  have : "c".toList ≠ "a".toList := by decide
  simp [exampleMod, Mod.Unique, Mods.Unique, Mods.find]

/-- Finding: with a module called `mod` two modules are written to the same file. -/
theorem C48_mod_name_clash : ∃ m : Mod Nat, m.Unique ∧ ∃ x y p q, m.at p = some x ∧ m.at q = some y ∧ p ≠ q ∧
    fileOf x p = fileOf y q := by
  refine ⟨.mk 0 (.cons "mod".toList (.mk 1 .nil) .nil), by simp [Mod.Unique, Mods.Unique, Mods.find],
    _, _, [], ["mod".toList], rfl, rfl, by decide, by decide +kernel⟩

end Verif.Code

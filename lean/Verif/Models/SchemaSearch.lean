import Verif.Models.IdentCache

/-!
# Name lookup from a schema (C29) and enumeration of the visible definitions (C30)

`IdentCache::resolve_for_schema`, `search_in_schema` and `SchemaSetIter`,
xsd-parser/src/models/ident_cache.rs 222-350.
-/

namespace Verif.Models

open Verif.Assoc Verif.Dfs

/-! ## Model -/

/-- A `for` loop around the recursive call, ident_cache.rs:265-269 and 233-239: stop at the
first hit. The outer `none` stands for an endless search. -/
def searchLoop (f : List Nat → Nat → Option (List Nat × Option Entry)) :
    List Nat → List Nat → Option (List Nat × Option Entry)
  | vis, [] => some (vis, none)
  | vis, s :: ss =>
    match f vis s with
    | none => none
    | some (vis, some e) => some (vis, some e)
    | some (vis, none) => searchLoop f vis ss

/-- `search_in_schema`, ident_cache.rs:250-272. The first argument bounds the recursion. -/
def Cache.search (c : Cache) (q : TIdent) : Nat → List Nat → Nat → Option (List Nat × Option Entry)
  | 0, _, _ => none
  | fuel + 1, vis, s =>
    if s ∈ vis then some (vis, none)
    else
      match get c.schemas s with
      | none => some (s :: vis, none)
      | some e =>
        if e.matches q then some (s :: vis, some e)
        else searchLoop (Cache.search c q fuel) (s :: vis) (e.deps.map (·.target))

/-- `resolve_for_schema`, ident_cache.rs:222-248: the schema, the schemas of the global
namespaces, the identifiers without schema. -/
def Cache.resolveFor (c : Cache) (s : Nat) (q : TIdent) : Lookup :=
  let roots := s :: c.globals.flatMap fun ns => (get c.namespaces ns).getD []
  match searchLoop (c.search q (c.schemas.length + 1)) [] roots with
  | none => .diverged
  | some (_, some e) => .ok (e.mkIdent q)
  | some (_, none) =>
    match (c.unknown.map (·.2)).find? (·.matches q) with
    | some e => .ok (e.mkIdent q)
    | none => .unknown

/-! ## Specification -/

/-- The direct dependencies of a schema. -/
def Cache.deps (c : Cache) (s : Nat) : List Nat :=
  match get c.schemas s with
  | some e => e.deps.map (·.target)
  | none => []

/-- The schemas where a search from `s` begins. -/
def Cache.roots (c : Cache) (s : Nat) : List Nat :=
  s :: c.globals.flatMap fun ns => (get c.namespaces ns).getD []

/-- The entries in the order in which they are searched: depth first along the dependencies,
then the identifiers without schema. -/
def Cache.searched (c : Cache) (s : Nat) : List Entry :=
  (order (keys c.schemas) c.deps (c.roots s) []).filterMap (get c.schemas) ++ c.unknown.map (·.2)

/-- The schema is visible from `s`. -/
def Cache.Visible (c : Cache) (s t : Nat) : Prop := ∃ r ∈ c.roots s, Reach c.deps r t

/-! ## C29 -/

theorem deps_eq_nil (c : Cache) : ∀ s, s ∉ keys c.schemas → c.deps s = [] := by
  intro s hs
  unfold Cache.deps
  rw [(get_eq_none _ _).2 hs]

/-- The search finds the first match in depth-first order, or has visited everything. -/
def SearchOk (c : Cache) (q : TIdent) (vis todo : List Nat)
    (r : Option (List Nat × Option Entry)) : Prop :=
  match ((order (keys c.schemas) c.deps todo vis).filterMap (get c.schemas)).find?
      (fun e => e.matches q) with
  | some e => ∃ vis', r = some (vis', some e)
  | none => r = some ((order (keys c.schemas) c.deps todo vis).reverse ++ vis, none)

theorem searchLoop_ok (c : Cache) (q : TIdent) (fuel : Nat) : ∀ (todo vis : List Nat),
    unseen (keys c.schemas) vis < fuel →
    SearchOk c q vis todo (searchLoop (c.search q fuel) vis todo) := by
  have hd := deps_eq_nil c
  induction fuel with
  | zero => intro todo vis h; omega
  | succ fuel ihf =>
    intro todo
    induction todo with
    | nil => intro vis _; simp [SearchOk, order_nil, searchLoop]
    | cons s todo ih =>
      intro vis hu
      by_cases hs : s ∈ vis
      · have := ih vis hu
        unfold SearchOk at this ⊢
        rw [order_seen hs]
        simp only [searchLoop, Cache.search, if_pos hs]
        exact this
      · have hu' : unseen (keys c.schemas) (s :: vis) < fuel + 1 :=
          Nat.lt_of_le_of_lt (unseen_le _ _ _) hu
        cases hg : get c.schemas s with
        | none =>
          have hk := (get_eq_none _ _).1 hg
          have := ih (s :: vis) hu'
          unfold SearchOk at this ⊢
          rw [order_new hd hs, hd s hk, List.nil_append, List.filterMap_cons, hg]
          simp only [searchLoop, Cache.search, if_neg hs, hg]
          simp only [List.reverse_cons, List.append_assoc, List.cons_append, List.nil_append]
          exact this
        | some e =>
          by_cases hm : e.matches q = true
          · unfold SearchOk
            rw [order_new hd hs, List.filterMap_cons, hg]
            simp only [List.find?_cons, hm, searchLoop, Cache.search, if_neg hs, hg, if_true]
            exact ⟨_, rfl⟩
          · have hk : s ∈ keys c.schemas := by
              rw [← get_isSome, hg]; rfl
            have hde : c.deps s = e.deps.map (·.target) := by unfold Cache.deps; rw [hg]
            have h1 := ihf (c.deps s) (s :: vis)
              (by have := unseen_lt (keys c.schemas) vis s hk hs; omega)
            simp only [Bool.not_eq_true] at hm
            unfold SearchOk at h1 ⊢
            rw [order_new hd hs, order_append hd, List.filterMap_cons, hg]
            simp only [List.find?_cons, hm, List.filterMap_append, List.find?_append]
            simp only [searchLoop, Cache.search, if_neg hs, hg, hm, Bool.false_eq_true, if_false]
            rw [← hde]
            split at h1
            · rename_i e' he'
              obtain ⟨vis', hr⟩ := h1
              rw [hr, he']
              exact ⟨_, rfl⟩
            · rename_i hno
              rw [h1, hno]
              simp only [Option.none_or]
              have h2 := ih ((order (keys c.schemas) c.deps (c.deps s) (s :: vis)).reverse
                ++ s :: vis) (Nat.lt_of_le_of_lt (unseen_mono _ fun x hx => List.mem_append_right _ hx) hu')
              unfold SearchOk at h2
              simp only [List.reverse_cons, List.reverse_append, List.append_assoc,
                List.cons_append, List.nil_append] at h2 ⊢
              exact h2

/-- **C29** The lookup from a schema always ends, and its answer is the first match in the
depth-first order of the schemas visible from it, followed by the identifiers without schema. -/
theorem C29_first_match (c : Cache) (s : Nat) (q : TIdent) :
    c.resolveFor s q =
      ((c.searched s).find? (fun e => e.matches q)).elim .unknown (fun e => .ok (e.mkIdent q)) := by
  have h := searchLoop_ok c q (c.schemas.length + 1) (c.roots s) []
    (by have := unseen_le_length (keys c.schemas) []; simp [keys] at this ⊢; omega)
  unfold SearchOk at h
  unfold Cache.resolveFor Cache.searched
  rw [List.find?_append]
  simp only
  split at h
  · rename_i e he
    obtain ⟨vis', hr⟩ := h
    rw [show (s :: c.globals.flatMap fun ns => (get c.namespaces ns).getD []) = c.roots s from rfl,
      hr, he]
    rfl
  · rename_i hno
    rw [show (s :: c.globals.flatMap fun ns => (get c.namespaces ns).getD []) = c.roots s from rfl,
      h, hno]
    simp only [Option.none_or]
    cases List.find? (fun e => e.matches q) (c.unknown.map (·.2)) <;> rfl

/-- **C29** The lookup from a schema sees exactly the identifiers of the visible schemas and
those without schema: it succeeds iff one of them is asked for, and its answer is one of them. -/
theorem C29_sees_visible {ops : List Op} {nsOf : Nat → Nat} (hc : Consistent ops nsOf) (s : Nat)
    (q : TIdent) :
    (∀ r, (Cache.ofOps ops).resolveFor s q = .ok r →
      Op.insert r ∈ ops ∧ Asks q r ∧ (r.schema = 0 ∨ (Cache.ofOps ops).Visible s r.schema)) ∧
    ((Cache.ofOps ops).resolveFor s q = .unknown ↔
      ∀ r, Op.insert r ∈ ops → Asks q r →
        ¬ (r.schema = 0 ∨ (Cache.ofOps ops).Visible s r.schema)) ∧
    ((∃ r, (Cache.ofOps ops).resolveFor s q = .ok r) ∨
      (Cache.ofOps ops).resolveFor s q = .unknown) := by
  have inv := inv_ofOps nsOf ops hc.1 (fun i hi h0 => (hc.2 i hi h0).1)
  have hd := deps_eq_nil (Cache.ofOps ops)
  rw [C29_first_match]
  generalize hC : Cache.ofOps ops = c at *
  have hmem : ∀ e ∈ c.searched s, e.matches q = true →
      Op.insert (e.mkIdent q) ∈ ops ∧ Asks q (e.mkIdent q) ∧
        ((e.mkIdent q).schema = 0 ∨ c.Visible s (e.mkIdent q).schema) := by
    intro e he me
    obtain ⟨h1, h2, h3⟩ := (entry_matches e q).1 me
    rw [mkIdent_of_matches me]
    rcases List.mem_append.1 he with he | he
    · obtain ⟨t, ht, hg⟩ := List.mem_filterMap.1 he
      obtain ⟨a, b, -, -, f⟩ := inv.schema t e hg
      refine ⟨?_, ⟨h1, h2, rfl, rfl⟩, Or.inr ?_⟩
      · rw [a, b]; exact (f _ _).1 h3
      · simp only [a]; exact (mem_order hd _ _).1 ht
    · obtain ⟨⟨ns, e'⟩, hm, rfl⟩ := List.mem_map.1 he
      obtain ⟨a, b, f⟩ := inv.unknown ns e' (get_of_mem inv.keyedU hm)
      refine ⟨?_, ⟨h1, h2, rfl, rfl⟩, Or.inl a⟩
      simp only [a, b]; exact (f _ _).1 h3
  have hconv : ∀ r, Op.insert r ∈ ops → Asks q r → (r.schema = 0 ∨ c.Visible s r.schema) →
      ∃ e ∈ c.searched s, e.matches q = true := by
    rintro r hr ⟨h1, h2, h3, h4⟩ hv
    suffices h : ∃ e ∈ c.searched s, e.ns = r.ns ∧ e.schema = r.schema ∧
        (r.kind, r.name) ∈ e.types by
      obtain ⟨e, he, x, y, z⟩ := h
      exact ⟨e, he, (entry_matches e q).2
        ⟨by rw [x]; exact h1, by rw [y]; exact h2, by rw [h3, h4]; exact z⟩⟩
    by_cases h0 : r.schema = 0
    · cases hg : get c.unknown r.ns with
      | none => exact absurd (inv.inUnknown r hr h0) ((get_eq_none _ _).1 hg)
      | some e =>
        obtain ⟨a, b, f⟩ := inv.unknown _ e hg
        refine ⟨e, List.mem_append_right _ (List.mem_map.2 ⟨_, mem_of_get hg, rfl⟩), b,
          by rw [a, h0], (f _ _).2 ?_⟩
        have : r = ⟨r.ns, 0, r.kind, r.name⟩ := by cases r; simp_all
        rw [← this]; exact hr
    · have hv := hv.resolve_left h0
      cases hg : get c.schemas r.schema with
      | none => exact absurd (inv.inSchemas r hr h0) ((get_eq_none _ _).1 hg)
      | some e =>
        obtain ⟨a, b, -, -, f⟩ := inv.schema _ e hg
        have hns := (hc.2 r hr h0).1
        refine ⟨e, List.mem_append_left _ (List.mem_filterMap.2 ⟨r.schema,
          (mem_order hd _ _).2 hv, hg⟩), by rw [b, hns], a, (f _ _).2 ?_⟩
        rw [hns]; exact hr
  cases hf : List.find? (fun e => e.matches q) (c.searched s) with
  | none =>
    rw [List.find?_eq_none] at hf
    refine ⟨by simp, ⟨fun _ r hr ha hv => ?_, fun _ => rfl⟩, Or.inr rfl⟩
    obtain ⟨e, he, me⟩ := hconv r hr ha hv
    exact hf e he me
  | some e =>
    have me := List.find?_some hf
    have he := List.mem_of_find?_eq_some hf
    obtain ⟨x, y, z⟩ := hmem e he me
    refine ⟨?_, ⟨by simp, fun h => absurd z (h _ x y)⟩, Or.inl ⟨_, rfl⟩⟩
    intro r hr
    simp only [Option.elim_some, Lookup.ok.injEq] at hr
    subst hr
    exact ⟨x, y, z⟩

/-- Dependencies are recorded: after `add_dependency` on an announced schema the target is a
direct dependency, and no other schema's dependencies change. -/
theorem C29_dependency_recorded (c : Cache) (s : Nat) (d : Dep) (hs : s ∈ keys c.schemas) :
    d.target ∈ (c.addDep s d).deps s ∧ (∀ t, t ∈ c.deps s → t ∈ (c.addDep s d).deps s) ∧
    (∀ t, t ∈ (c.addDep s d).deps s → t = d.target ∨ t ∈ c.deps s) ∧
    ∀ s', s' ≠ s → (c.addDep s d).deps s' = c.deps s' := by
  unfold Cache.addDep
  cases hg : get c.schemas s with
  | none => exact absurd hs ((get_eq_none _ _).1 hg)
  | some e =>
    simp only
    split
    · rename_i hm
      refine ⟨?_, fun t h => h, fun t h => Or.inr h, fun s' _ => rfl⟩
      unfold Cache.deps
      rw [hg]
      exact List.mem_map.2 ⟨d, hm, rfl⟩
    · unfold Cache.deps
      simp only [get_upsert, if_true, hg]
      refine ⟨by simp, fun t ht => by simp at ht ⊢; exact Or.inl ht,
        fun t ht => by simp at ht ⊢; exact ht.symm, ?_⟩
      intro s' hs'
      rw [if_neg (Ne.symm hs')]

/-- Non-vacuity: a cyclic dependency between two schemas; the own definition wins over the one
of the dependency, which is found for other names. -/
def exCyclic : List Op :=
  [.addSchema 2 1, .addSchema 2 2, .addDep 1 ⟨0, 2⟩, .addDep 2 ⟨0, 1⟩, .insert ⟨2, 1, 0, ['a']⟩,
   .insert ⟨2, 2, 0, ['a']⟩, .insert ⟨2, 2, 0, ['b']⟩]

example : Consistent exCyclic (fun _ => 2) ∧
    (Cache.ofOps exCyclic).resolveFor 1 ⟨2, 0, 0, ['a']⟩ = .ok ⟨2, 1, 0, ['a']⟩ ∧
    (Cache.ofOps exCyclic).resolveFor 2 ⟨2, 0, 0, ['a']⟩ = .ok ⟨2, 2, 0, ['a']⟩ ∧
    (Cache.ofOps exCyclic).resolveFor 1 ⟨2, 0, 0, ['b']⟩ = .ok ⟨2, 2, 0, ['b']⟩ ∧
    (Cache.ofOps exCyclic).resolveFor 1 ⟨2, 0, 0, ['c']⟩ = .unknown := by
  refine ⟨⟨?_, ?_⟩, by decide, by decide, by decide, by decide⟩
  · intro a b h; simp [exCyclic] at h ⊢; omega
  · intro i h; simp [exCyclic] at h ⊢; rcases h with rfl | rfl | rfl <;> simp

/-! ## `SchemaSetIter` -/

/-- `SchemaSetIter`, ident_cache.rs:37-46: the running iterator over the types of a schema, the
stack of running iterators over dependencies (top first), visited schemas, emitted names. -/
structure IterSt where
  types : Option (Nat × Nat × List (Nat × Txt))
  stack : List (List Nat)
  visited : List Nat
  emitted : List (Nat × Txt)

/-- `new`, ident_cache.rs:297-311. -/
def Cache.iterNew (c : Cache) (s : Nat) : IterSt :=
  match get c.schemas s with
  | none => ⟨none, [], [], []⟩
  | some e => ⟨some (e.ns, e.schema, e.types), [e.deps.map (·.target)], [], []⟩

/-- One round of the loop in `next`. -/
inductive IterRound where
  | again (st : IterSt)
  | emit (i : TIdent) (st : IterSt)
  | stop

/-- The body of the loop, ident_cache.rs:318-347. -/
def Cache.iterRound (c : Cache) (st : IterSt) : IterRound :=
  match st.types with
  | some (ns, schema, (k, n) :: ts) =>
    if (k, n) ∈ st.emitted then .again { st with types := some (ns, schema, ts) }
    else .emit ⟨ns, schema, k, n⟩
      { st with types := some (ns, schema, ts), emitted := (k, n) :: st.emitted }
  | some (_, _, []) => .again { st with types := none }
  | none =>
    match st.stack with
    | (d :: ds) :: rest =>
      if d ∈ st.visited then .again { st with stack := ds :: rest }
      else
        match get c.schemas d with
        | none => .again { st with stack := ds :: rest, visited := d :: st.visited }
        | some e =>
          .again { st with
            types := some (e.ns, e.schema, e.types)
            stack := e.deps.map (·.target) :: ds :: rest
            visited := d :: st.visited }
    | [] :: rest => .again { st with stack := rest }
    | [] => .stop

/-- The iterator, run to its end: everything it yields (`none`: it does not end within the given
number of rounds). -/
def Cache.iterRun (c : Cache) : Nat → IterSt → Option (List TIdent)
  | 0, _ => none
  | fuel + 1, st =>
    match c.iterRound st with
    | .stop => some []
    | .again st => iterRun c fuel st
    | .emit i st => (iterRun c fuel st).map (i :: ·)

/-! ### Specification -/

/-- The schemas in the order they are listed: the schema itself, then depth first everything
reachable from its dependencies. -/
def Cache.listed (c : Cache) (s : Nat) : List Nat :=
  s :: order (keys c.schemas) c.deps (c.deps s) []

/-- The definitions of a schema. -/
def Cache.defs (c : Cache) (s : Nat) : List TIdent :=
  match get c.schemas s with
  | none => []
  | some e => e.types.map fun t => ⟨e.ns, e.schema, t.1, t.2⟩

/-- Keep the first definition of each (kind, name). -/
def firsts : List (Nat × Txt) → List TIdent → List TIdent
  | _, [] => []
  | seen, i :: is =>
    if (i.kind, i.name) ∈ seen then firsts seen is
    else i :: firsts ((i.kind, i.name) :: seen) is

/-! ### Proofs -/

/-- The iterator in state `st` ends and yields `out`. -/
def Ends (c : Cache) (st : IterSt) (out : List TIdent) : Prop :=
  ∃ fuel, ∀ k, c.iterRun (fuel + k) st = some out

theorem Ends.again {c : Cache} {st st' : IterSt} {out : List TIdent}
    (h : c.iterRound st = .again st') (he : Ends c st' out) : Ends c st out := by
  obtain ⟨n, hn⟩ := he
  refine ⟨n + 1, fun k => ?_⟩
  rw [show n + 1 + k = (n + k) + 1 by omega]
  simp only [Cache.iterRun, h]
  exact hn k

theorem Ends.emit {c : Cache} {st st' : IterSt} {i : TIdent} {out : List TIdent}
    (h : c.iterRound st = .emit i st') (he : Ends c st' out) : Ends c st (i :: out) := by
  obtain ⟨n, hn⟩ := he
  refine ⟨n + 1, fun k => ?_⟩
  rw [show n + 1 + k = (n + k) + 1 by omega]
  simp only [Cache.iterRun, h, hn k, Option.map_some]

theorem Ends.stop {c : Cache} {st : IterSt} (h : c.iterRound st = .stop) : Ends c st [] := by
  refine ⟨1, fun k => ?_⟩
  rw [show 1 + k = k + 1 by omega]
  simp only [Cache.iterRun, h]

/-- The names seen after listing some definitions. -/
def seenAfter : List (Nat × Txt) → List TIdent → List (Nat × Txt)
  | seen, [] => seen
  | seen, i :: is =>
    if (i.kind, i.name) ∈ seen then seenAfter seen is
    else seenAfter ((i.kind, i.name) :: seen) is

theorem firsts_append (a b : List TIdent) : ∀ seen,
    firsts seen (a ++ b) = firsts seen a ++ firsts (seenAfter seen a) b := by
  induction a with
  | nil => intro seen; rfl
  | cons i a ih =>
    intro seen
    simp only [List.cons_append, firsts, seenAfter]
    split
    · exact ih _
    · rw [ih]; rfl

theorem ends_types {c : Cache} (ns schema : Nat) (stack : List (List Nat)) (vis : List Nat)
    (out : List TIdent) (ts : List (Nat × Txt)) : ∀ em,
    Ends c ⟨none, stack, vis,
      seenAfter em (ts.map fun t => ⟨ns, schema, t.1, t.2⟩)⟩ out →
    Ends c ⟨some (ns, schema, ts), stack, vis, em⟩
      (firsts em (ts.map fun t => ⟨ns, schema, t.1, t.2⟩) ++ out) := by
  induction ts with
  | nil => intro em h; exact .again rfl h
  | cons t ts ih =>
    intro em h
    obtain ⟨k, n⟩ := t
    simp only [List.map_cons, seenAfter, firsts] at h ⊢
    split
    · rename_i hm
      rw [if_pos hm] at h
      refine .again ?_ (ih em h)
      simp only [Cache.iterRound, if_pos hm]
    · rename_i hm
      rw [if_neg hm] at h
      refine .emit ?_ (ih _ h)
      simp only [Cache.iterRound, if_neg hm]

/-- Empty iterators on top of the stack are dropped. -/
theorem ends_strip {c : Cache} (vis : List Nat) (em : List (Nat × Txt)) (out : List TIdent)
    (s : Nat) (todo : List Nat) : ∀ stack : List (List Nat), stack.flatten = s :: todo →
    (∀ ds rest, ds ++ rest.flatten = todo → Ends c ⟨none, (s :: ds) :: rest, vis, em⟩ out) →
    Ends c ⟨none, stack, vis, em⟩ out := by
  intro stack
  induction stack with
  | nil => intro h; cases h
  | cons l rest ih =>
    intro h hall
    cases l with
    | nil => exact .again rfl (ih (by simpa using h) hall)
    | cons d ds =>
      simp only [List.flatten_cons, List.cons_append, List.cons.injEq] at h
      obtain ⟨rfl, h⟩ := h
      exact hall ds rest h

theorem ends_stack {c : Cache} (todo vis : List Nat) :
    ∀ (stack : List (List Nat)) (em : List (Nat × Txt)), stack.flatten = todo →
    Ends c ⟨none, stack, vis, em⟩
      (firsts em ((order (keys c.schemas) c.deps todo vis).flatMap c.defs)) := by
  have hd := deps_eq_nil c
  induction todo, vis using order_induct hd with
  | nil vis =>
    intro stack em hst
    rw [order_nil]
    induction stack with
    | nil => exact .stop rfl
    | cons l rest ih =>
      have hl : l = [] ∧ rest.flatten = [] := by simpa using hst
      obtain ⟨rfl, hr⟩ := hl
      exact .again rfl (ih hr)
  | seen s todo vis h ih =>
    intro stack em hst
    rw [order_seen h]
    refine ends_strip vis em _ s todo stack hst fun ds rest hr => ?_
    refine .again (st' := ⟨none, ds :: rest, vis, em⟩) ?_ (ih _ em (by simpa using hr))
    simp only [Cache.iterRound, if_pos h]
  | new s todo vis h ih =>
    intro stack em hst
    rw [order_new hd h, List.flatMap_cons, firsts_append]
    refine ends_strip vis em _ s todo stack hst fun ds rest hr => ?_
    cases hg : get c.schemas s with
    | none =>
      have hk := (get_eq_none _ _).1 hg
      have hde : c.defs s = [] := by unfold Cache.defs; rw [hg]
      rw [hde]
      refine .again (st' := ⟨none, ds :: rest, s :: vis, em⟩) ?_ ?_
      · simp only [Cache.iterRound, if_neg h, hg]
      · have := ih (ds :: rest) em (by rw [hd s hk]; simpa using hr)
        simpa [firsts, seenAfter] using this
    | some e =>
      have hde : c.defs s = e.types.map fun t => ⟨e.ns, e.schema, t.1, t.2⟩ := by
        unfold Cache.defs; rw [hg]
      have hdp : c.deps s = e.deps.map (·.target) := by unfold Cache.deps; rw [hg]
      refine .again (st' := ⟨some (e.ns, e.schema, e.types),
        c.deps s :: ds :: rest, s :: vis, em⟩) ?_ ?_
      · simp only [Cache.iterRound, if_neg h, hg, hdp]
      · rw [hde]
        refine ends_types _ _ _ _ _ _ _ ?_
        refine ih _ _ ?_
        simp [hr]

/-- **C30** Iterating over the definitions visible from a known schema ends, and yields, in
depth-first order of the schemas, the first definition of each (kind, name). -/
theorem C30_iter_is_dfs (c : Cache) (s : Nat) (hs : s ∈ keys c.schemas) :
    ∃ n, ∀ k, c.iterRun (n + k) (c.iterNew s) = some (firsts [] ((c.listed s).flatMap c.defs)) := by
  cases hg : get c.schemas s with
  | none => exact absurd hs ((get_eq_none _ _).1 hg)
  | some e =>
    have hde : c.defs s = e.types.map fun t => ⟨e.ns, e.schema, t.1, t.2⟩ := by
      unfold Cache.defs; rw [hg]
    have hdp : c.deps s = e.deps.map (·.target) := by unfold Cache.deps; rw [hg]
    show Ends c _ _
    rw [Cache.listed, List.flatMap_cons, firsts_append, Cache.iterNew, hg]
    simp only
    rw [hde]
    refine ends_types _ _ _ _ _ _ _ ?_
    exact ends_stack _ _ _ _ (by simp [hdp])

theorem firsts_spec (l : List TIdent) : ∀ seen,
    ((firsts seen l).map fun i => (i.kind, i.name)).Nodup ∧
    (∀ i ∈ firsts seen l, i ∈ l ∧ (i.kind, i.name) ∉ seen) ∧
    (∀ i ∈ l, (i.kind, i.name) ∉ seen → ∃ j ∈ firsts seen l, j.kind = i.kind ∧ j.name = i.name) ∧
    (∀ a i b, l = a ++ i :: b → (i.kind, i.name) ∉ seen →
      (∀ j ∈ a, (j.kind, j.name) ≠ (i.kind, i.name)) → i ∈ firsts seen l) := by
  induction l with
  | nil => intro seen; simp [firsts]
  | cons x l ih =>
    intro seen
    simp only [firsts]
    split
    · rename_i hx
      obtain ⟨h1, h2, h3, h4⟩ := ih seen
      refine ⟨h1, fun i hi => ⟨List.mem_cons_of_mem _ (h2 i hi).1, (h2 i hi).2⟩, ?_, ?_⟩
      · intro i hi hs
        rcases List.mem_cons.1 hi with rfl | hi
        · exact absurd hx hs
        · exact h3 i hi hs
      · intro a i b hl hs ha
        cases a with
        | nil => simp only [List.nil_append, List.cons.injEq] at hl; rw [hl.1] at hx
                 exact absurd hx hs
        | cons y a =>
          simp only [List.cons_append, List.cons.injEq] at hl
          exact h4 a i b hl.2 hs fun j hj => ha j (List.mem_cons_of_mem _ hj)
    · rename_i hx
      obtain ⟨h1, h2, h3, h4⟩ := ih ((x.kind, x.name) :: seen)
      refine ⟨?_, ?_, ?_, ?_⟩
      · rw [List.map_cons, List.nodup_cons]
        refine ⟨fun hc => ?_, h1⟩
        obtain ⟨i, hi, hix⟩ := List.mem_map.1 hc
        exact (h2 i hi).2 (by rw [hix]; exact List.mem_cons_self ..)
      · intro i hi
        rcases List.mem_cons.1 hi with rfl | hi
        · exact ⟨List.mem_cons_self .., hx⟩
        · exact ⟨List.mem_cons_of_mem _ (h2 i hi).1,
            fun hc => (h2 i hi).2 (List.mem_cons_of_mem _ hc)⟩
      · intro i hi hs
        by_cases hxi : (i.kind, i.name) = (x.kind, x.name)
        · simp only [Prod.mk.injEq] at hxi
          exact ⟨x, List.mem_cons_self .., hxi.1.symm, hxi.2.symm⟩
        · rcases List.mem_cons.1 hi with rfl | hi
          · exact absurd rfl hxi
          · obtain ⟨j, hj, e⟩ := h3 i hi (by
              intro hc
              rcases List.mem_cons.1 hc with hc | hc
              · exact hxi hc
              · exact hs hc)
            exact ⟨j, List.mem_cons_of_mem _ hj, e⟩
      · intro a i b hl hs ha
        cases a with
        | nil =>
          simp only [List.nil_append, List.cons.injEq] at hl
          rw [hl.1]; exact List.mem_cons_self ..
        | cons y a =>
          simp only [List.cons_append, List.cons.injEq] at hl
          refine List.mem_cons_of_mem _ (h4 a i b hl.2 ?_
            fun j hj => ha j (List.mem_cons_of_mem _ hj))
          intro hc
          rcases List.mem_cons.1 hc with hc | hc
          · have hy := ha y (List.mem_cons_self ..)
            rw [← hl.1] at hy
            exact hy hc.symm
          · exact hs hc

/-- **C30** Everything visible is enumerated exactly once: for a known schema the iteration
ends; no (kind, name) is yielded twice; what is yielded is registered, and belongs to a schema
reachable from it; and of every registered definition of a reachable schema, the (kind, name) is
yielded. -/
theorem C30_each_once {ops : List Op} {nsOf : Nat → Nat} (hc : Consistent ops nsOf) (s : Nat)
    (hs : s ∈ keys (Cache.ofOps ops).schemas) :
    ∃ n out, (∀ k, (Cache.ofOps ops).iterRun (n + k) ((Cache.ofOps ops).iterNew s) = some out) ∧
      (out.map fun i => (i.kind, i.name)).Nodup ∧
      (∀ i ∈ out, Op.insert i ∈ ops ∧ Reach (Cache.ofOps ops).deps s i.schema) ∧
      (∀ r, Op.insert r ∈ ops → r.schema ≠ 0 → Reach (Cache.ofOps ops).deps s r.schema →
        ∃ i ∈ out, i.kind = r.kind ∧ i.name = r.name) ∧
      (∀ r, Op.insert r ∈ ops → r.schema = s → s ≠ 0 → r ∈ out) := by
  obtain ⟨n, hn⟩ := C30_iter_is_dfs (Cache.ofOps ops) s hs
  have inv := inv_ofOps nsOf ops hc.1 (fun i hi h0 => (hc.2 i hi h0).1)
  have hd := deps_eq_nil (Cache.ofOps ops)
  generalize Cache.ofOps ops = c at *
  have hreach : ∀ t, t ∈ c.listed s ↔ Reach c.deps s t := by
    intro t
    unfold Cache.listed
    rw [List.mem_cons, mem_order hd]
    constructor
    · rintro (rfl | ⟨m, hm, hr⟩)
      · exact .refl _
      · exact .step hm hr
    · intro h
      cases h with
      | refl => exact Or.inl rfl
      | step hm hr => exact Or.inr ⟨_, hm, hr⟩
  have hdefs : ∀ t i, i ∈ c.defs t → i.schema = t ∧ Op.insert i ∈ ops := by
    intro t i hi
    unfold Cache.defs at hi
    cases hg : get c.schemas t with
    | none => rw [hg] at hi; cases hi
    | some e =>
      rw [hg] at hi
      obtain ⟨a, b, -, -, f⟩ := inv.schema t e hg
      obtain ⟨⟨k, n⟩, hm, rfl⟩ := List.mem_map.1 hi
      refine ⟨a, ?_⟩
      rw [a, b]; exact (f k n).1 hm
  have hdefs' : ∀ r, Op.insert r ∈ ops → r.schema ≠ 0 → r ∈ c.defs r.schema := by
    intro r hr h0
    cases hg : get c.schemas r.schema with
    | none => exact absurd (inv.inSchemas r hr h0) ((get_eq_none _ _).1 hg)
    | some e =>
      obtain ⟨a, b, -, -, f⟩ := inv.schema _ e hg
      have hns := (hc.2 r hr h0).1
      unfold Cache.defs
      rw [hg]
      refine List.mem_map.2 ⟨(r.kind, r.name), (f _ _).2 (by rw [hns]; exact hr), ?_⟩
      cases r; simp_all
  obtain ⟨h1, h2, h3, h4⟩ := firsts_spec ((c.listed s).flatMap c.defs) []
  refine ⟨n, _, hn, h1, ?_, ?_, ?_⟩
  · intro i hi
    obtain ⟨t, ht, hti⟩ := List.mem_flatMap.1 (h2 i hi).1
    obtain ⟨a, b⟩ := hdefs t i hti
    exact ⟨b, by rw [a]; exact (hreach t).1 ht⟩
  · intro r hr h0 hre
    exact h3 r (List.mem_flatMap.2 ⟨_, (hreach _).2 hre, hdefs' r hr h0⟩) (by simp)
  · intro r hr hrs h0
    have hm := hdefs' r hr (by rw [hrs]; exact h0)
    obtain ⟨a, b, hab⟩ := List.append_of_mem hm
    rw [hrs] at hab
    refine h4 a r (b ++ (order (keys c.schemas) c.deps (c.deps s) []).flatMap c.defs) ?_ (by simp) ?_
    · unfold Cache.listed; rw [List.flatMap_cons, hab]; simp
    · intro j hj hjr
      have hj' : j ∈ c.defs s := by rw [hab]; simp [hj]
      have hnd : (c.defs s).Nodup := by
        unfold Cache.defs
        cases hg : get c.schemas s with
        | none => exact List.nodup_nil
        | some e =>
          refine nodup_map_of_inj (inv.schema s e hg).2.2.2.1 ?_
          intro x _ y _ hxy
          simp only [TIdent.mk.injEq, true_and] at hxy
          exact Prod.ext hxy.1 hxy.2
      rw [hab, List.nodup_append] at hnd
      have hjeq : j = r := by
        have hj1 := (hdefs s j hj').1
        have hr1 : r ∈ c.defs s := by rw [hab]; simp
        unfold Cache.defs at hj' hr1
        cases hg : get c.schemas s with
        | none => rw [hg] at hj'; cases hj'
        | some e =>
          rw [hg] at hj' hr1
          obtain ⟨x, -, rfl⟩ := List.mem_map.1 hj'
          obtain ⟨y, -, rfl⟩ := List.mem_map.1 hr1
          simp only [Prod.mk.injEq] at hjr
          simp [hjr]
      exact hnd.2.2 j hj r (List.mem_cons_self ..) hjeq

/-- Non-vacuity: for the cyclic example both names are listed once, the own `a` first. -/
example : (Cache.ofOps exCyclic).iterRun 20 ((Cache.ofOps exCyclic).iterNew 1)
    = some [⟨2, 1, 0, ['a']⟩, ⟨2, 2, 0, ['b']⟩] := by decide

end Verif.Models

import Verif.Util.Assoc
import Verif.Util.Dfs

/-!
# Name lookup (C28, C29, C30)

`IdentCache`, xsd-parser/src/models/ident_cache.rs. Ids are numbers with `0` as `UNKNOWN`
(models/schema/mod.rs 314, 338); names are their text (`SchemaEntry::types` only stores the
text, so the distinction between given and generated names is not visible here); `HashMap` and
`HashSet` are lists, whose order stands for the unspecified iteration order.
-/

namespace Verif.Models

open Verif.Assoc

abbrev Txt := List Char

/-- `TypeIdent`, models/ident.rs:11-28; `kind` is the discriminant of `IdentType` (59-92). -/
structure TIdent where
  ns : Nat
  schema : Nat
  kind : Nat
  name : Txt
deriving DecidableEq, Repr

/-- `Dependency<SchemaId>`, models/schema/mod.rs: kind of the dependency and target. -/
structure Dep where
  kind : Nat
  target : Nat
deriving DecidableEq, Repr

/-- `SchemaEntry`, ident_cache.rs:48-54. -/
structure Entry where
  ns : Nat
  schema : Nat
  types : List (Nat × Txt) := []
  deps : List Dep := []
deriving DecidableEq, Repr

/-- `IdentCache`, ident_cache.rs:24-31. -/
structure Cache where
  schemas : List (Nat × Entry) := []
  unknown : List (Nat × Entry) := []
  namespaces : List (Nat × List Nat) := []
  globals : List Nat := []

/-- `HashSet::insert`. -/
def setInsert {α : Type} [DecidableEq α] (x : α) (s : List α) : List α :=
  if x ∈ s then s else s ++ [x]

/-- `insert`, ident_cache.rs:64-86. -/
def Cache.insert (c : Cache) (i : TIdent) : Cache :=
  let add (e : Option Entry) : Entry :=
    let e := e.getD { ns := i.ns, schema := i.schema }
    { e with types := setInsert (i.kind, i.name) e.types }
  if i.schema = 0 then { c with unknown := upsert c.unknown i.ns add }
  else { c with schemas := upsert c.schemas i.schema add }

/-- `add_schema`, ident_cache.rs:92-101. -/
def Cache.addSchema (c : Cache) (ns schema : Nat) : Cache :=
  { c with
    schemas := upsert c.schemas schema (fun e => e.getD { ns, schema })
    namespaces := upsert c.namespaces ns (fun l => setInsert schema (l.getD [])) }

/-- `add_dependency`, ident_cache.rs:111-120 (without the returned flag). -/
def Cache.addDep (c : Cache) (schema : Nat) (d : Dep) : Cache :=
  match get c.schemas schema with
  | none => c
  | some e =>
    if d ∈ e.deps then c
    else { c with
      schemas := upsert c.schemas schema (fun _ => { e with deps := e.deps ++ [d] }) }

/-- `add_global_namespace`, ident_cache.rs:123-126. -/
def Cache.addGlobal (c : Cache) (ns : Nat) : Cache :=
  { c with
    namespaces := upsert c.namespaces ns (fun l => l.getD [])
    globals := c.globals ++ [ns] }

/-- `SchemaEntry::matches`, ident_cache.rs:276-284. -/
def Entry.matches (e : Entry) (q : TIdent) : Bool :=
  (q.ns == 0 || q.ns == e.ns) && (q.schema == 0 || q.schema == e.schema)
    && decide ((q.kind, q.name) ∈ e.types)

/-- `NamespaceId::or`, `SchemaId::or`. -/
def orId (a b : Nat) : Nat := if a = 0 then b else a

/-- `SchemaEntry::make_ident`, ident_cache.rs:286-293. -/
def Entry.mkIdent (e : Entry) (q : TIdent) : TIdent :=
  { ns := orId q.ns e.ns, schema := orId q.schema e.schema, kind := q.kind, name := q.name }

inductive Lookup where
  | ok (i : TIdent)
  | unknown
  | ambiguous
  /-- the search does not end -/
  | diverged
deriving DecidableEq, Repr

/-- The two loops of `resolve`, ident_cache.rs:152-176; `none` is the early return with
`AmbiguousType`. -/
def resolveLoop (q : TIdent) : List Entry → Option TIdent → Option (Option TIdent)
  | [], ret => some ret
  | e :: es, ret =>
    if e.matches q then
      if ret.isSome then none else resolveLoop q es (some (e.mkIdent q))
    else resolveLoop q es ret

/-- `resolve`, ident_cache.rs:140-183. -/
def Cache.resolve (c : Cache) (q : TIdent) : Lookup :=
  let schemas :=
    if q.schema = 0 then
      if q.ns = 0 then keys c.schemas else (get c.namespaces q.ns).getD []
    else [q.schema]
  match resolveLoop q (schemas.filterMap (get c.schemas)) none with
  | none => .ambiguous
  | some ret =>
    match if q.schema = 0 then resolveLoop q (c.unknown.map (·.2)) ret else some ret with
    | none => .ambiguous
    | some none => .unknown
    | some (some i) => .ok i

/-! ## Specification of `resolve` -/

/-- The calls that fill a cache. -/
inductive Op where
  | insert (i : TIdent)
  | addSchema (ns schema : Nat)
  | addDep (schema : Nat) (d : Dep)
  | addGlobal (ns : Nat)

def Cache.apply (c : Cache) : Op → Cache
  | .insert i => c.insert i
  | .addSchema ns s => c.addSchema ns s
  | .addDep s d => c.addDep s d
  | .addGlobal ns => c.addGlobal ns

/-- The cache after a history of calls. -/
def Cache.ofOps (ops : List Op) : Cache := ops.foldl Cache.apply {}

/-- `r` is what `q` asks for: kind and name agree, namespace and schema where they are given. -/
def Asks (q r : TIdent) : Prop :=
  (q.ns = 0 ∨ q.ns = r.ns) ∧ (q.schema = 0 ∨ q.schema = r.schema) ∧ q.kind = r.kind ∧
    q.name = r.name

/-- Every schema has one namespace, and is announced (at any time) with `add_schema` if
identifiers of it are inserted. -/
def Consistent (ops : List Op) (nsOf : Nat → Nat) : Prop :=
  (∀ ns s, Op.addSchema ns s ∈ ops → s ≠ 0 ∧ nsOf s = ns) ∧
  (∀ i, Op.insert i ∈ ops → i.schema ≠ 0 →
    nsOf i.schema = i.ns ∧ Op.addSchema i.ns i.schema ∈ ops)

/-! ## Invariants -/

theorem mem_setInsert {α : Type} [DecidableEq α] (x y : α) (s : List α) :
    y ∈ setInsert x s ↔ y = x ∨ y ∈ s := by
  unfold setInsert
  split
  · constructor
    · exact Or.inr
    · rintro (rfl | h) <;> assumption
  · simp [or_comm]

theorem nodup_setInsert {α : Type} [DecidableEq α] (x : α) {s : List α} (h : s.Nodup) :
    (setInsert x s).Nodup := by
  unfold setInsert
  split
  · exact h
  · rename_i hx
    rw [List.nodup_append]
    refine ⟨h, by simp, ?_⟩
    intro a ha b hb
    simp at hb
    subst hb
    exact fun hc => hx (hc ▸ ha)

structure Inv (ops : List Op) (nsOf : Nat → Nat) (c : Cache) : Prop where
  keyed : Keyed c.schemas
  keyedU : Keyed c.unknown
  schema : ∀ s e, get c.schemas s = some e → e.schema = s ∧ e.ns = nsOf s ∧ s ≠ 0 ∧
    e.types.Nodup ∧ ∀ k n, (k, n) ∈ e.types ↔ Op.insert ⟨nsOf s, s, k, n⟩ ∈ ops
  unknown : ∀ ns e, get c.unknown ns = some e → e.schema = 0 ∧ e.ns = ns ∧
    ∀ k n, (k, n) ∈ e.types ↔ Op.insert ⟨ns, 0, k, n⟩ ∈ ops
  inSchemas : ∀ i, Op.insert i ∈ ops → i.schema ≠ 0 → i.schema ∈ keys c.schemas
  added : ∀ ns s, Op.addSchema ns s ∈ ops → s ∈ keys c.schemas
  inUnknown : ∀ i, Op.insert i ∈ ops → i.schema = 0 → i.ns ∈ keys c.unknown
  nsNodup : ∀ ns l, get c.namespaces ns = some l → l.Nodup
  nsMem : ∀ ns s, s ∈ (get c.namespaces ns).getD [] ↔ Op.addSchema ns s ∈ ops

theorem Consistent.init {ops : List Op} {op : Op} {nsOf : Nat → Nat}
    (h : ∀ ns s, Op.addSchema ns s ∈ ops ++ [op] → s ≠ 0 ∧ nsOf s = ns) :
    ∀ ns s, Op.addSchema ns s ∈ ops → s ≠ 0 ∧ nsOf s = ns :=
  fun ns s hm => h ns s (List.mem_append_left _ hm)

theorem inv_ofOps (nsOf : Nat → Nat) (ops : List Op)
    (h1 : ∀ ns s, Op.addSchema ns s ∈ ops → s ≠ 0 ∧ nsOf s = ns)
    (h2 : ∀ i, Op.insert i ∈ ops → i.schema ≠ 0 → nsOf i.schema = i.ns) :
    Inv ops nsOf (Cache.ofOps ops) := by
  induction ops using Verif.rev_induct with
  | nil =>
    constructor <;> simp [Cache.ofOps, keyed_nil, Assoc.get, keys]
  | snoc ops op ih =>
    have ih := ih (fun ns s hm => h1 ns s (List.mem_append_left _ hm))
      (fun i hm => h2 i (List.mem_append_left _ hm))
    have hop : Cache.ofOps (ops ++ [op]) = (Cache.ofOps ops).apply op := by
      simp [Cache.ofOps, List.foldl_append]
    rw [hop]
    generalize Cache.ofOps ops = c at ih
    cases op with
    | insert i =>
      have hi := h2 i (by simp)
      simp only [Cache.apply, Cache.insert]
      by_cases hs : i.schema = 0
      · rw [if_pos hs]
        constructor
        · exact ih.keyed
        · exact ih.keyedU.upsert _ _
        · intro s e he
          obtain ⟨a, b, c', d, f⟩ := ih.schema s e he
          refine ⟨a, b, c', d, fun k n => ?_⟩
          rw [f k n, List.mem_append]
          constructor
          · exact Or.inl
          · rintro (h | h)
            · exact h
            · simp at h; rw [← h] at hs; exact absurd hs c'
        · intro ns e he
          simp only [get_upsert] at he
          by_cases hn : i.ns = ns
          · rw [if_pos hn] at he
            simp only [Option.some.injEq] at he
            subst hn
            cases hg : get c.unknown i.ns with
            | none =>
              rw [hg] at he; subst he
              refine ⟨hs, rfl, fun k n => ?_⟩
              have hno : Op.insert ⟨i.ns, 0, k, n⟩ ∉ ops := fun hc =>
                (get_eq_none _ _).1 hg (ih.inUnknown ⟨i.ns, 0, k, n⟩ hc rfl)
              simp only [Option.getD_none, mem_setInsert, List.not_mem_nil, or_false,
                List.mem_append, hno, List.mem_singleton, false_or, Op.insert.injEq]
              constructor
              · intro h; cases i; simp_all
              · intro h; rw [← h]
            | some e0 =>
              rw [hg] at he; subst he
              obtain ⟨a, b, f⟩ := ih.unknown _ _ hg
              refine ⟨a, b, fun k n => ?_⟩
              simp only [Option.getD_some, mem_setInsert, f k n, List.mem_append,
                List.mem_singleton, Op.insert.injEq]
              rw [or_comm]
              constructor
              · rintro (h | h)
                · exact Or.inl h
                · right; cases i; simp_all
              · rintro (h | h)
                · exact Or.inl h
                · right; rw [← h]
          · rw [if_neg hn] at he
            obtain ⟨a, b, f⟩ := ih.unknown _ _ he
            refine ⟨a, b, fun k n => ?_⟩
            rw [f k n, List.mem_append]
            constructor
            · exact Or.inl
            · rintro (h | h)
              · exact h
              · simp at h; rw [← h] at hn; exact absurd rfl hn
        · intro j hj hj0
          rcases List.mem_append.1 hj with hj | hj
          · exact ih.inSchemas j hj hj0
          · simp at hj; subst hj; exact absurd hs hj0
        · intro ns s hm
          rcases List.mem_append.1 hm with hm | hm
          · exact ih.added ns s hm
          · simp at hm
        · intro j hj hj0
          rw [mem_keys_upsert]
          rcases List.mem_append.1 hj with hj | hj
          · exact Or.inr (ih.inUnknown j hj hj0)
          · simp at hj; subst hj; exact Or.inl rfl
        · exact ih.nsNodup
        · intro ns s; rw [ih.nsMem]; simp
      · rw [if_neg hs]
        have hns := hi hs
        constructor
        · exact ih.keyed.upsert _ _
        · exact ih.keyedU
        · intro s e he
          simp only [get_upsert] at he
          by_cases hn : i.schema = s
          · rw [if_pos hn] at he
            simp only [Option.some.injEq] at he
            subst hn
            cases hg : get c.schemas i.schema with
            | none =>
              rw [hg] at he; subst he
              refine ⟨rfl, hns.symm, hs, nodup_setInsert _ List.nodup_nil, fun k n => ?_⟩
              have hno : Op.insert ⟨nsOf i.schema, i.schema, k, n⟩ ∉ ops := fun hc =>
                (get_eq_none _ _).1 hg (ih.inSchemas ⟨nsOf i.schema, i.schema, k, n⟩ hc hs)
              simp only [Option.getD_none, mem_setInsert, List.not_mem_nil, or_false,
                List.mem_append, hno, List.mem_singleton, false_or, Op.insert.injEq]
              constructor
              · intro h; rw [hns]; cases i; simp_all
              · intro h; rw [← h]
            | some e0 =>
              rw [hg] at he; subst he
              obtain ⟨a, b, d, nd, f⟩ := ih.schema _ _ hg
              refine ⟨a, b, d, nodup_setInsert _ nd, fun k n => ?_⟩
              simp only [Option.getD_some, mem_setInsert, f k n, List.mem_append,
                List.mem_singleton, Op.insert.injEq]
              rw [or_comm]
              constructor
              · rintro (h | h)
                · exact Or.inl h
                · right; rw [hns]; cases i; simp_all
              · rintro (h | h)
                · exact Or.inl h
                · right; rw [← h]
          · rw [if_neg hn] at he
            obtain ⟨a, b, d, nd, f⟩ := ih.schema _ _ he
            refine ⟨a, b, d, nd, fun k n => ?_⟩
            rw [f k n, List.mem_append]
            constructor
            · exact Or.inl
            · rintro (h | h)
              · exact h
              · simp at h; rw [← h] at hn; exact absurd rfl hn
        · intro ns e he
          obtain ⟨a, b, f⟩ := ih.unknown ns e he
          refine ⟨a, b, fun k n => ?_⟩
          rw [f k n, List.mem_append]
          constructor
          · exact Or.inl
          · rintro (h | h)
            · exact h
            · simp at h; rw [← h] at hs; exact absurd rfl hs
        · intro j hj hj0
          rw [mem_keys_upsert]
          rcases List.mem_append.1 hj with hj | hj
          · exact Or.inr (ih.inSchemas j hj hj0)
          · simp at hj; subst hj; exact Or.inl rfl
        · intro ns s hm
          rw [mem_keys_upsert]
          rcases List.mem_append.1 hm with hm | hm
          · exact Or.inr (ih.added ns s hm)
          · simp at hm
        · intro j hj hj0
          rcases List.mem_append.1 hj with hj | hj
          · exact ih.inUnknown j hj hj0
          · simp at hj; subst hj; exact absurd hj0 hs
        · exact ih.nsNodup
        · intro ns s; rw [ih.nsMem]; simp
    | addSchema ns0 s0 =>
      obtain ⟨hs0, hns0⟩ := h1 ns0 s0 (by simp)
      simp only [Cache.apply, Cache.addSchema]
      have hins : ∀ j, Op.insert j ∈ ops ++ [Op.addSchema ns0 s0] ↔ Op.insert j ∈ ops := by simp
      constructor
      · exact ih.keyed.upsert _ _
      · exact ih.keyedU
      · intro s e he
        simp only [hins]
        simp only [get_upsert] at he
        by_cases hn : s0 = s
        · rw [if_pos hn] at he
          simp only [Option.some.injEq] at he
          subst hn
          cases hg : get c.schemas s0 with
          | none =>
            rw [hg] at he; subst he
            refine ⟨rfl, hns0.symm, hs0, List.nodup_nil, fun k n => ?_⟩
            have hno : Op.insert ⟨nsOf s0, s0, k, n⟩ ∉ ops := fun hc =>
              (get_eq_none _ _).1 hg (ih.inSchemas _ hc hs0)
            simp [hno]
          | some e0 => rw [hg] at he; subst he; exact ih.schema _ _ hg
        · rw [if_neg hn] at he; exact ih.schema _ _ he
      · intro ns e he
        simp only [hins]; exact ih.unknown ns e he
      · intro j hj hj0
        rw [mem_keys_upsert]
        exact Or.inr (ih.inSchemas j ((hins j).1 hj) hj0)
      · intro ns s hm
        rw [mem_keys_upsert]
        rcases List.mem_append.1 hm with hm | hm
        · exact Or.inr (ih.added ns s hm)
        · simp at hm; exact Or.inl hm.2
      · intro j hj hj0; exact ih.inUnknown j ((hins j).1 hj) hj0
      · intro ns l hl
        simp only [get_upsert] at hl
        by_cases hn : ns0 = ns
        · rw [if_pos hn] at hl
          simp only [Option.some.injEq] at hl
          subst hl
          apply nodup_setInsert
          cases hg : get c.namespaces ns0 with
          | none => exact List.nodup_nil
          | some l => exact ih.nsNodup _ _ hg
        · rw [if_neg hn] at hl; exact ih.nsNodup _ _ hl
      · intro ns s
        simp only [get_upsert]
        by_cases hn : ns0 = ns
        · rw [if_pos hn]
          subst hn
          simp only [Option.getD_some, mem_setInsert, ih.nsMem, List.mem_append,
            List.mem_singleton, Op.addSchema.injEq, true_and]
          rw [or_comm]
        · rw [if_neg hn, ih.nsMem]
          simp [Ne.symm hn]
    | addDep s0 d =>
      have hins : ∀ j, Op.insert j ∈ ops ++ [Op.addDep s0 d] ↔ Op.insert j ∈ ops := by simp
      have hadd : ∀ ns s, Op.addSchema ns s ∈ ops ++ [Op.addDep s0 d] ↔
        Op.addSchema ns s ∈ ops := by simp
      have same : Inv (ops ++ [Op.addDep s0 d]) nsOf c := by
        constructor
        · exact ih.keyed
        · exact ih.keyedU
        · simp only [hins]; exact ih.schema
        · simp only [hins]; exact ih.unknown
        · simp only [hins]; exact ih.inSchemas
        · simp only [hadd]; exact ih.added
        · simp only [hins]; exact ih.inUnknown
        · exact ih.nsNodup
        · simp only [hadd]; exact ih.nsMem
      simp only [Cache.apply, Cache.addDep]
      cases hg : get c.schemas s0 with
      | none => exact same
      | some e0 =>
        simp only
        split
        · exact same
        · constructor
          · exact ih.keyed.upsert _ _
          · exact ih.keyedU
          · intro s e he
            simp only [hins]
            simp only [get_upsert] at he
            by_cases hn : s0 = s
            · rw [if_pos hn] at he
              simp only [Option.some.injEq] at he
              subst hn; subst he
              exact ih.schema _ e0 hg
            · rw [if_neg hn] at he; exact ih.schema _ _ he
          · simp only [hins]; exact ih.unknown
          · intro j hj hj0
            rw [mem_keys_upsert]
            exact Or.inr (ih.inSchemas j ((hins j).1 hj) hj0)
          · intro ns s hm
            rw [mem_keys_upsert]
            exact Or.inr (ih.added ns s ((hadd ns s).1 hm))
          · simp only [hins]; exact ih.inUnknown
          · exact ih.nsNodup
          · simp only [hadd]; exact ih.nsMem
    | addGlobal ns0 =>
      have hins : ∀ j, Op.insert j ∈ ops ++ [Op.addGlobal ns0] ↔ Op.insert j ∈ ops := by simp
      have hadd : ∀ ns s, Op.addSchema ns s ∈ ops ++ [Op.addGlobal ns0] ↔
        Op.addSchema ns s ∈ ops := by simp
      simp only [Cache.apply, Cache.addGlobal]
      constructor
      · exact ih.keyed
      · exact ih.keyedU
      · simp only [hins]; exact ih.schema
      · simp only [hins]; exact ih.unknown
      · simp only [hins]; exact ih.inSchemas
      · simp only [hadd]; exact ih.added
      · simp only [hins]; exact ih.inUnknown
      · intro ns l hl
        simp only [get_upsert] at hl
        by_cases hn : ns0 = ns
        · rw [if_pos hn] at hl
          simp only [Option.some.injEq] at hl
          subst hl
          cases hg : get c.namespaces ns0 with
          | none => exact List.nodup_nil
          | some l => exact ih.nsNodup _ _ hg
        · rw [if_neg hn] at hl; exact ih.nsNodup _ _ hl
      · intro ns s
        simp only [get_upsert, hadd]
        by_cases hn : ns0 = ns
        · rw [if_pos hn, Option.getD_some, hn]; exact ih.nsMem ns s
        · rw [if_neg hn]; exact ih.nsMem ns s

/-! ## C28 -/

/-- The outcome given the list of all matches. -/
def ofMatches : List TIdent → Lookup
  | [] => .unknown
  | [i] => .ok i
  | _ => .ambiguous

/-- The variable `ret` given the list of all matches so far. -/
def retOf : List TIdent → Option (Option TIdent)
  | [] => some none
  | [i] => some (some i)
  | _ => none

theorem resolveLoop_eq (q : TIdent) (es : List Entry) : ∀ ret : Option TIdent,
    resolveLoop q es ret =
      retOf (ret.toList ++ (es.filter (fun e => e.matches q)).map (fun e => e.mkIdent q)) := by
  induction es with
  | nil => intro ret; cases ret <;> rfl
  | cons e es ih =>
    intro ret
    simp only [resolveLoop]
    by_cases hm : e.matches q = true
    · rw [if_pos hm, List.filter_cons_of_pos (by exact hm)]
      cases ret with
      | none => simp [ih]
      | some i => simp [retOf]
    · rw [if_neg hm, List.filter_cons_of_neg (by exact hm)]
      exact ih ret

/-- The matches among the entries a query looks at. -/
def Cache.matchesOf (c : Cache) (q : TIdent) : List TIdent :=
  let schemas :=
    if q.schema = 0 then
      if q.ns = 0 then keys c.schemas else (get c.namespaces q.ns).getD []
    else [q.schema]
  let es := schemas.filterMap (get c.schemas) ++
    (if q.schema = 0 then c.unknown.map (·.2) else [])
  (es.filter (fun e => e.matches q)).map (fun e => e.mkIdent q)

theorem resolve_eq (c : Cache) (q : TIdent) : c.resolve q = ofMatches (c.matchesOf q) := by
  unfold Cache.resolve Cache.matchesOf
  simp only [List.filter_append, List.map_append]
  rw [resolveLoop_eq]
  simp only [Option.toList_none, List.nil_append]
  generalize ((List.filter (fun e => e.matches q) (List.filterMap (get c.schemas) _)).map
    (fun e => e.mkIdent q)) = A
  by_cases hq : q.schema = 0
  · simp only [if_pos hq]
    match A with
    | [] =>
      simp only [List.nil_append, retOf]
      rw [resolveLoop_eq]
      simp only [Option.toList_none, List.nil_append]
      generalize ((List.filter (fun e : Entry => e.matches q) _).map (fun e => e.mkIdent q)) = B
      match B with
      | [] => rfl
      | [b] => rfl
      | b :: b' :: B => rfl
    | [a] =>
      simp only [retOf]
      rw [resolveLoop_eq]
      simp only [Option.toList_some, List.cons_append, List.nil_append]
      generalize ((List.filter (fun e : Entry => e.matches q) _).map (fun e => e.mkIdent q)) = B
      match B with
      | [] => rfl
      | b :: B => rfl
    | a :: a' :: A => rfl
  · simp only [if_neg hq]
    match A with
    | [] => rfl
    | [a] => rfl
    | a :: a' :: A => rfl

theorem entry_matches (e : Entry) (q : TIdent) : e.matches q = true ↔
    (q.ns = 0 ∨ q.ns = e.ns) ∧ (q.schema = 0 ∨ q.schema = e.schema) ∧ (q.kind, q.name) ∈ e.types := by
  simp [Entry.matches, and_assoc]

theorem mkIdent_of_matches {e : Entry} {q : TIdent} (h : e.matches q = true) :
    e.mkIdent q = ⟨e.ns, e.schema, q.kind, q.name⟩ := by
  obtain ⟨h1, h2, -⟩ := (entry_matches e q).1 h
  unfold Entry.mkIdent orId
  congr 1
  · rcases h1 with h1 | h1 <;> simp [h1]
  · rcases h2 with h2 | h2 <;> simp [h2]

theorem nodup_map_of_inj {α β : Type} {f : α → β} {l : List α} (h : l.Nodup)
    (hf : ∀ a ∈ l, ∀ b ∈ l, f a = f b → a = b) : (l.map f).Nodup := by
  induction l with
  | nil => exact List.nodup_nil
  | cons a l ih =>
    obtain ⟨h1, h2⟩ := List.nodup_cons.1 h
    refine List.nodup_cons.2 ⟨?_, ih h2 fun x hx y hy => hf x (by simp [hx]) y (by simp [hy])⟩
    intro hc
    obtain ⟨b, hb, hab⟩ := List.mem_map.1 hc
    exact h1 (hf b (by simp [hb]) a (by simp) hab ▸ hb)

/-- The entries a query looks at: each one once. -/
theorem nodup_filterMap_get {c : Cache} {ops : List Op} {nsOf : Nat → Nat} (inv : Inv ops nsOf c)
    {l : List Nat} (hl : l.Nodup) : (l.filterMap (get c.schemas)).Nodup := by
  induction l with
  | nil => exact List.nodup_nil
  | cons a l ih =>
    obtain ⟨h1, h2⟩ := List.nodup_cons.1 hl
    simp only [List.filterMap_cons]
    cases hg : get c.schemas a with
    | none => exact ih h2
    | some e =>
      refine List.nodup_cons.2 ⟨?_, ih h2⟩
      intro hc
      obtain ⟨b, hb, hbe⟩ := List.mem_filterMap.1 hc
      have e1 := (inv.schema a e hg).1
      have e2 := (inv.schema b e hbe).1
      exact h1 (by rw [← e1, e2]; exact hb)

/-- The matches are exactly the registered identifiers that are asked for, each one once. -/
theorem matchesOf_spec {ops : List Op} {nsOf : Nat → Nat} (hc : Consistent ops nsOf) (q : TIdent) :
    ((Cache.ofOps ops).matchesOf q).Nodup ∧
    ∀ r, r ∈ (Cache.ofOps ops).matchesOf q ↔ Op.insert r ∈ ops ∧ Asks q r := by
  have inv := inv_ofOps nsOf ops hc.1 (fun i hi h0 => (hc.2 i hi h0).1)
  generalize Cache.ofOps ops = c at inv
  -- the entries
  let cand : List Nat := if q.schema = 0 then
    if q.ns = 0 then keys c.schemas else (get c.namespaces q.ns).getD [] else [q.schema]
  have hcand : cand.Nodup := by
    simp only [cand]
    split
    · split
      · exact inv.keyed
      · cases hg : get c.namespaces q.ns with
        | none => exact List.nodup_nil
        | some l => exact inv.nsNodup _ _ hg
    · simp
  let es : List Entry := cand.filterMap (get c.schemas) ++
    (if q.schema = 0 then c.unknown.map (·.2) else [])
  have hes : ∀ e ∈ es, (e.schema ≠ 0 ∧ get c.schemas e.schema = some e ∧ e.schema ∈ cand) ∨
      (e.schema = 0 ∧ q.schema = 0 ∧ get c.unknown e.ns = some e) := by
    intro e he
    rcases List.mem_append.1 he with he | he
    · obtain ⟨s, hs, hg⟩ := List.mem_filterMap.1 he
      obtain ⟨a, -, b, -⟩ := inv.schema s e hg
      subst a
      exact Or.inl ⟨b, hg, hs⟩
    · by_cases hq : q.schema = 0
      · rw [if_pos hq] at he
        obtain ⟨⟨ns, e'⟩, hm, rfl⟩ := List.mem_map.1 he
        have hg := get_of_mem inv.keyedU hm
        obtain ⟨a, b, -⟩ := inv.unknown ns e' hg
        subst b
        exact Or.inr ⟨a, hq, hg⟩
      · rw [if_neg hq] at he; cases he
  have hnd : es.Nodup := by
    rw [List.nodup_append]
    refine ⟨nodup_filterMap_get inv hcand, ?_, ?_⟩
    · split
      · refine nodup_map_of_inj ?_ ?_
        · have hk := inv.keyedU
          unfold Keyed keys List.Nodup at hk
          rw [List.pairwise_map] at hk
          exact hk.imp fun h hc => h (by rw [hc])
        · rintro ⟨n1, e1⟩ h1 ⟨n2, e2⟩ h2 rfl
          have a := (inv.unknown _ _ (get_of_mem inv.keyedU h1)).2.1
          have b := (inv.unknown _ _ (get_of_mem inv.keyedU h2)).2.1
          simp only at a b
          rw [← a, ← b]
      · exact List.nodup_nil
    · rintro a ha b hb rfl
      obtain ⟨s, hs, hg⟩ := List.mem_filterMap.1 ha
      obtain ⟨x, -, y, -⟩ := inv.schema s a hg
      split at hb
      · obtain ⟨⟨ns, e'⟩, hm, rfl⟩ := List.mem_map.1 hb
        obtain ⟨z, -⟩ := inv.unknown ns e' (get_of_mem inv.keyedU hm)
        exact y (x ▸ z)
      · cases hb
  constructor
  · refine nodup_map_of_inj (hnd.filter _) ?_
    intro a ha b hb hab
    obtain ⟨ha, ma⟩ := List.mem_filter.1 ha
    obtain ⟨hb, mb⟩ := List.mem_filter.1 hb
    rw [mkIdent_of_matches ma, mkIdent_of_matches mb] at hab
    simp only [TIdent.mk.injEq, and_true] at hab
    obtain ⟨n, s⟩ := hab
    rcases hes a ha with ⟨a1, a2, -⟩ | ⟨a1, -, a2⟩ <;> rcases hes b hb with ⟨b1, b2, -⟩ | ⟨b1, -, b2⟩
    · rw [s] at a2; rw [a2] at b2; simpa using b2
    · exact absurd (s.trans b1) a1
    · exact absurd (s.symm.trans a1) b1
    · rw [n] at a2; rw [a2] at b2; simpa using b2
  · intro r
    constructor
    · intro hr
      obtain ⟨e, he, rfl⟩ := List.mem_map.1 hr
      obtain ⟨he, me⟩ := List.mem_filter.1 he
      rw [mkIdent_of_matches me]
      obtain ⟨h1, h2, h3⟩ := (entry_matches e q).1 me
      refine ⟨?_, h1, h2, rfl, rfl⟩
      rcases hes e he with ⟨-, hg, -⟩ | ⟨h0, -, hg⟩
      · obtain ⟨-, b, -, -, f⟩ := inv.schema _ e hg
        have := (f q.kind q.name).1 h3
        rw [← b] at this
        exact this
      · obtain ⟨-, -, f⟩ := inv.unknown _ e hg
        have := (f q.kind q.name).1 h3
        rw [h0]
        exact this
    · rintro ⟨hr, h1, h2, h3, h4⟩
      suffices h : ∃ e ∈ es, e.ns = r.ns ∧ e.schema = r.schema ∧ (r.kind, r.name) ∈ e.types by
        obtain ⟨e, he, x, y, z⟩ := h
        have me : e.matches q = true := (entry_matches e q).2
          ⟨by rw [x]; exact h1, by rw [y]; exact h2, by rw [h3, h4]; exact z⟩
        refine List.mem_map.2 ⟨e, List.mem_filter.2 ⟨he, me⟩, ?_⟩
        rw [mkIdent_of_matches me, x, y, h3, h4]
      by_cases h0 : r.schema = 0
      · have hq : q.schema = 0 := by
          rcases h2 with h2 | h2
          · exact h2
          · rw [h2, h0]
        have hk := inv.inUnknown r hr h0
        cases hg : get c.unknown r.ns with
        | none => exact absurd hk ((get_eq_none _ _).1 hg)
        | some e =>
          obtain ⟨a, b, f⟩ := inv.unknown _ e hg
          refine ⟨e, List.mem_append_right _ ?_, b, by rw [a, h0], (f _ _).2 ?_⟩
          · rw [if_pos hq]; exact List.mem_map.2 ⟨_, mem_of_get hg, rfl⟩
          · have : r = ⟨r.ns, 0, r.kind, r.name⟩ := by cases r; simp_all
            rw [← this]; exact hr
      · obtain ⟨hns, hadd⟩ := hc.2 r hr h0
        have hk := inv.inSchemas r hr h0
        cases hg : get c.schemas r.schema with
        | none => exact absurd hk ((get_eq_none _ _).1 hg)
        | some e =>
          obtain ⟨a, b, -, -, f⟩ := inv.schema _ e hg
          refine ⟨e, List.mem_append_left _ (List.mem_filterMap.2 ⟨r.schema, ?_, hg⟩),
            by rw [b, hns], a, (f _ _).2 ?_⟩
          · simp only [cand]
            by_cases hq : q.schema = 0
            · rw [if_pos hq]
              by_cases hqn : q.ns = 0
              · rw [if_pos hqn]; exact hk
              · rw [if_neg hqn, inv.nsMem]
                rcases h1 with h1 | h1
                · exact absurd h1 hqn
                · rw [h1]; exact hadd
            · rw [if_neg hq]
              rcases h2 with h2 | h2
              · exact absurd h2 hq
              · simp [h2]
          · rw [hns]; exact hr

/-- **C28** Name lookup without schema context is exact: for every history of calls in which
each schema has one namespace and is announced, `resolve` answers with `r` iff `r` is the only
registered identifier the query asks for, `UnknownType` iff there is none, and `AmbiguousType`
iff there are several. -/
theorem C28_resolve_exact {ops : List Op} {nsOf : Nat → Nat} (hc : Consistent ops nsOf)
    (q : TIdent) :
    (∀ r, (Cache.ofOps ops).resolve q = .ok r ↔
      (Op.insert r ∈ ops ∧ Asks q r) ∧ ∀ r', Op.insert r' ∈ ops → Asks q r' → r' = r) ∧
    ((Cache.ofOps ops).resolve q = .unknown ↔ ∀ r, Op.insert r ∈ ops → ¬ Asks q r) ∧
    ((Cache.ofOps ops).resolve q = .ambiguous ↔
      ∃ r r', r ≠ r' ∧ (Op.insert r ∈ ops ∧ Asks q r) ∧ (Op.insert r' ∈ ops ∧ Asks q r')) ∧
    (Cache.ofOps ops).resolve q ≠ .diverged := by
  obtain ⟨hn, hm⟩ := matchesOf_spec hc q
  rw [resolve_eq]
  generalize (Cache.ofOps ops).matchesOf q = L at hn hm
  match L with
  | [] =>
    simp only [List.not_mem_nil, false_iff, not_and] at hm
    refine ⟨fun r => ?_, ?_, ?_, by simp [ofMatches]⟩
    · simp only [ofMatches, reduceCtorEq, false_iff, not_and]
      intro ⟨a, b⟩; exact absurd b (hm r a)
    · simp only [ofMatches, true_iff]; exact hm
    · simp only [ofMatches, reduceCtorEq, false_iff, not_exists]
      rintro r r' ⟨-, ⟨a, b⟩, -⟩; exact hm r a b
  | [i] =>
    simp only [List.mem_singleton] at hm
    refine ⟨fun r => ?_, ?_, ?_, by simp [ofMatches]⟩
    · simp only [ofMatches, Lookup.ok.injEq]
      constructor
      · rintro rfl
        exact ⟨(hm i).1 rfl, fun r' a b => (hm r').2 ⟨a, b⟩⟩
      · rintro ⟨a, -⟩; exact ((hm r).2 a).symm
    · simp only [ofMatches, reduceCtorEq, false_iff]
      intro h
      obtain ⟨a, b⟩ := (hm i).1 rfl
      exact h i a b
    · simp only [ofMatches, reduceCtorEq, false_iff, not_exists]
      rintro r r' ⟨hne, a, b⟩
      exact hne (((hm r).2 a).trans ((hm r').2 b).symm)
  | i :: j :: L =>
    have hij : i ≠ j := by
      intro h
      have := (List.nodup_cons.1 hn).1
      exact this (h ▸ List.mem_cons_self ..)
    have hi := (hm i).1 (by simp)
    have hj := (hm j).1 (by simp)
    refine ⟨fun r => ?_, ?_, ?_, by simp [ofMatches]⟩
    · simp only [ofMatches, reduceCtorEq, false_iff, not_and]
      intro _ h
      exact hij ((h i hi.1 hi.2).trans (h j hj.1 hj.2).symm)
    · simp only [ofMatches, reduceCtorEq, false_iff]
      intro h; exact h i hi.1 hi.2
    · simp only [ofMatches, true_iff]
      exact ⟨i, j, hij, hi, hj⟩

/-- Non-vacuity: two schemas with the same name in two namespaces, one identifier without
schema; asked for without namespace (ambiguous), with one, and for a missing name. -/
def exOps : List Op :=
  [.addSchema 2 1, .insert ⟨2, 1, 0, ['a']⟩, .addSchema 3 2, .insert ⟨3, 2, 0, ['a']⟩,
   .insert ⟨1, 0, 6, ['u', '8']⟩, .addDep 1 ⟨0, 2⟩]

example : Consistent exOps (fun s => s + 1) := by
  constructor
  · intro a b h; simp [exOps] at h ⊢; omega
  · intro i h; simp [exOps] at h ⊢; rcases h with rfl | rfl | rfl <;> simp

example : (Cache.ofOps exOps).resolve ⟨0, 0, 0, ['a']⟩ = .ambiguous ∧
    (Cache.ofOps exOps).resolve ⟨3, 0, 0, ['a']⟩ = .ok ⟨3, 2, 0, ['a']⟩ ∧
    (Cache.ofOps exOps).resolve ⟨0, 0, 6, ['u', '8']⟩ = .ok ⟨1, 0, 6, ['u', '8']⟩ ∧
    (Cache.ofOps exOps).resolve ⟨0, 2, 0, ['b']⟩ = .unknown := by decide

/-- **C28, finding.** Without the announcement the exactness is lost: an identifier that was
inserted is found by its name alone, but not by its name and namespace. -/
theorem C28_unannounced_schema_missed :
    ∃ i : TIdent, (Cache.ofOps [.insert i]).resolve { i with ns := 0, schema := 0 } = .ok i ∧
      (Cache.ofOps [.insert i]).resolve { i with schema := 0 } = .unknown :=
  ⟨⟨2, 1, 0, ['a']⟩, by decide, by decide⟩

end Verif.Models

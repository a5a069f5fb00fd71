import Verif.Interp.NodeCache

/-!
# Redefined components replace the old ones (C84)

`resolve_dependencies`, crate_node_cache.rs 342-392, for every order in which the `HashSet`s are
enumerated.
-/

namespace Verif.NodeCache

open Verif.Assoc Verif.Models Verif.Naming Verif.Dfs

/-! ## What is listed -/

/-- Kind and text of the name. -/
def Id.key (i : Id) : Nat × Txt := (i.kind, i.name.str)

theorem mem_firsts (l : List TIdent) : ∀ (seen : List (Nat × Txt)) (i : TIdent),
    i ∈ firsts seen l ↔ (i.kind, i.name) ∉ seen ∧
      l.find? (fun j => decide ((j.kind, j.name) = (i.kind, i.name))) = some i := by
  induction l with
  | nil => intro seen i; simp [firsts]
  | cons x l ih =>
    intro seen i
    simp only [firsts, List.find?_cons]
    by_cases hxi : (x.kind, x.name) = (i.kind, i.name)
    · simp only [hxi, decide_true]
      by_cases hs : (i.kind, i.name) ∈ seen
      · simp only [if_pos hs]
        rw [ih]
        simp [hs]
      · simp only [if_neg hs, List.mem_cons]
        rw [ih]
        simp only [List.mem_cons, true_or, not_true, false_and, or_false, Option.some.injEq]
        constructor
        · rintro rfl; exact ⟨hs, rfl⟩
        · rintro ⟨_, h⟩; exact h.symm
    · simp only [hxi, decide_false]
      have hne : i ≠ x := fun h => hxi (by rw [h])
      split
      · rw [ih]
      · rw [List.mem_cons, ih]
        simp only [hne, false_or, List.mem_cons, not_or]
        constructor
        · rintro ⟨⟨_, h⟩, h'⟩; exact ⟨h, h'⟩
        · rintro ⟨h, h'⟩; exact ⟨⟨fun hc => hxi hc.symm, h⟩, h'⟩

theorem iterRun_mono (c : Cache) : ∀ (fuel k : Nat) (st : IterSt) (out : List TIdent),
    c.iterRun fuel st = some out → c.iterRun (fuel + k) st = some out := by
  intro fuel
  induction fuel with
  | zero => intro k st out h; simp [Cache.iterRun] at h
  | succ fuel ih =>
    intro k st out h
    rw [show fuel + 1 + k = (fuel + k) + 1 by omega]
    simp only [Cache.iterRun] at h ⊢
    split <;> rename_i hr <;> rw [hr] at h <;> simp only at h
    · exact h
    · exact ih _ _ _ h
    · cases hx : c.iterRun fuel _ with
      | none => rw [hx] at h; cases h
      | some l => rw [hx] at h; rw [ih k _ _ hx]; exact h

/-- The first definition of a name among the documents that are visible. -/
def visible (c : Cache) (s : Nat) (key : Nat × Txt) : Option TIdent :=
  ((c.listed s).flatMap c.defs).find? fun j => decide ((j.kind, j.name) = key)

theorem lists_eq {c : Cache} {s : Nat} (hs : s ∈ keys c.schemas) {out : List TIdent}
    (h : Lists c s out) : out = firsts [] ((c.listed s).flatMap c.defs) := by
  obtain ⟨fuel, hf⟩ := h
  obtain ⟨n, hn⟩ := C30_iter_is_dfs c s hs
  have := iterRun_mono c fuel n _ _ hf
  rw [Nat.add_comm, hn fuel] at this
  simpa using this.symm

theorem lists_exists {c : Cache} {s : Nat} (hs : s ∈ keys c.schemas) : ∃ out, Lists c s out := by
  obtain ⟨n, hn⟩ := C30_iter_is_dfs c s hs
  exact ⟨_, n, hn 0⟩

theorem mem_lists {c : Cache} {s : Nat} (hs : s ∈ keys c.schemas) {out : List TIdent}
    (h : Lists c s out) (t : TIdent) : t ∈ out ↔ visible c s (t.kind, t.name) = some t := by
  rw [lists_eq hs h, mem_firsts]
  simp [visible]

theorem lists_nodup {c : Cache} {s : Nat} (hs : s ∈ keys c.schemas) {out : List TIdent}
    (h : Lists c s out) : (out.map fun i => (i.kind, i.name)).Nodup := by
  rw [lists_eq hs h]
  exact (firsts_spec _ []).1

/-- The document is known with its namespace, and every document is stored under its number. -/
structure Known (c : Cache) (s ns : Nat) : Prop where
  known : ∃ e, get c.schemas s = some e ∧ e.ns = ns
  schema : ∀ t e, get c.schemas t = some e → e.schema = t

/-- The document itself defines the name. -/
def Own (c : Cache) (s : Nat) (key : Nat × Txt) : Prop :=
  ∃ e, get c.schemas s = some e ∧ key ∈ e.types

theorem Known.mem {c : Cache} {s ns : Nat} (h : Known c s ns) : s ∈ keys c.schemas := by
  obtain ⟨e, he, -⟩ := h.known
  exact (get_isSome _ _).1 (by simp [he])

theorem find_key {l : List TIdent} {key : Nat × Txt} {t : TIdent}
    (h : l.find? (fun j => decide ((j.kind, j.name) = key)) = some t) :
    t ∈ l ∧ (t.kind, t.name) = key :=
  ⟨List.mem_of_find?_eq_some h, by simpa using List.find?_some h⟩

theorem visible_key {c : Cache} {s : Nat} {key : Nat × Txt} {t : TIdent}
    (h : visible c s key = some t) : (t.kind, t.name) = key := (find_key h).2

theorem visible_own {c : Cache} {s ns : Nat} (h : Known c s ns) {key : Nat × Txt}
    (ho : Own c s key) : visible c s key = some ⟨ns, s, key.1, key.2⟩ := by
  obtain ⟨e, he, hns⟩ := h.known
  obtain ⟨e', he', hk⟩ := ho
  rw [he] at he'
  cases he'
  have hd : c.defs s = e.types.map fun t => ⟨ns, s, t.1, t.2⟩ := by
    unfold Cache.defs; rw [he]; simp only [hns, h.schema s e he]
  have hf : (c.defs s).find? (fun j => decide ((j.kind, j.name) = key))
      = some ⟨ns, s, key.1, key.2⟩ := by
    rw [hd, List.find?_map]
    have : e.types.find? ((fun j : TIdent => decide ((j.kind, j.name) = key)) ∘
        fun t => ⟨ns, s, t.1, t.2⟩) = some key := by
      have hf : ∀ l : List (Nat × Txt), key ∈ l →
          l.find? ((fun j : TIdent => decide ((j.kind, j.name) = key)) ∘
            fun t => ⟨ns, s, t.1, t.2⟩) = some key := by
        intro l hl
        induction l with
        | nil => cases hl
        | cons a l ih =>
          rw [List.find?_cons]
          by_cases ha : a = key
          · subst ha; simp
          · have : ((fun j : TIdent => decide ((j.kind, j.name) = key)) ∘
                fun t => ⟨ns, s, t.1, t.2⟩) a = false := by simpa using ha
            rw [this]
            rcases List.mem_cons.1 hl with rfl | hl
            · exact absurd rfl ha
            · exact ih hl
      exact hf _ hk
    rw [this]; rfl
  unfold visible Cache.listed
  rw [List.flatMap_cons, List.find?_append, hf]
  rfl

theorem visible_schema {c : Cache} {s ns : Nat} (h : Known c s ns) {key : Nat × Txt} {t : TIdent}
    (hv : visible c s key = some t) : t.schema = s ↔ Own c s key := by
  constructor
  · intro hs
    obtain ⟨hm, hk⟩ := find_key hv
    obtain ⟨d, -, hd⟩ := List.mem_flatMap.1 hm
    unfold Cache.defs at hd
    cases hg : get c.schemas d with
    | none => rw [hg] at hd; cases hd
    | some e =>
      rw [hg] at hd
      obtain ⟨x, hx, rfl⟩ := List.mem_map.1 hd
      have := h.schema d e hg
      simp only at hs hk
      rw [this] at hs
      subst hs
      exact ⟨e, hg, by rw [← hk]; exact hx⟩
  · intro ho
    rw [visible_own h ho] at hv
    cases hv
    rfl

theorem keys_upsert_mem {K V : Type} [DecidableEq K] (m : List (K × V)) (k : K)
    (f : Option V → V) (h : k ∈ keys m) : keys (upsert m k f) = keys m := by
  induction m with
  | nil => cases h
  | cons p m ih =>
    obtain ⟨a, v⟩ := p
    simp only [upsert]
    by_cases ha : a = k
    · simp [ha, keys]
    · simp only [if_neg ha, keys, List.map_cons, List.cons.injEq, true_and]
      refine ih ?_
      simp only [keys, List.map_cons, List.mem_cons] at h
      rcases h with rfl | h
      · exact absurd rfl ha
      · exact h

theorem find_flatMap_congr {α β : Type} (p : β → Bool) (f g : α → List β) (l : List α)
    (h : ∀ a ∈ l, (f a).find? p = (g a).find? p) : (l.flatMap f).find? p = (l.flatMap g).find? p := by
  induction l with
  | nil => rfl
  | cons a l ih =>
    rw [List.flatMap_cons, List.flatMap_cons, List.find?_append, List.find?_append,
      h a List.mem_cons_self, ih fun b hb => h b (List.mem_cons_of_mem _ hb)]

/-- A new name of a known document: `Known` stays, the name becomes the document's own and the
visible one, everything else stays. -/
theorem insert_spec {c : Cache} {s ns : Nat} (h : Known c s ns) (hs : s ≠ 0) (i : TIdent)
    (hi : i.schema = s) :
    Known (c.insert i) s ns ∧
    (∀ key, Own (c.insert i) s key ↔ Own c s key ∨ key = (i.kind, i.name)) ∧
    (∀ key, key ≠ (i.kind, i.name) → visible (c.insert i) s key = visible c s key) := by
  obtain ⟨e, he, hns⟩ := h.known
  have hc : (c.insert i).schemas
      = upsert c.schemas s (fun x =>
          let x := x.getD { ns := i.ns, schema := i.schema }
          { x with types := setInsert (i.kind, i.name) x.types }) := by
    unfold Cache.insert
    rw [if_neg (by rw [hi]; exact hs)]
    rw [hi]
  have hg : ∀ t, get (c.insert i).schemas t = if s = t then
      some { e with types := setInsert (i.kind, i.name) e.types } else get c.schemas t := by
    intro t
    rw [hc, get_upsert, he]
    rfl
  have hgs := hg s
  rw [if_pos rfl] at hgs
  have hk : Known (c.insert i) s ns := by
    refine ⟨⟨_, hgs, hns⟩, ?_⟩
    intro t x hx
    rw [hg] at hx
    split at hx
    · rename_i hst
      subst hst
      cases hx
      exact h.schema s e he
    · exact h.schema t x hx
  refine ⟨hk, ?_, ?_⟩
  · intro key
    constructor
    · rintro ⟨x, hx, hm⟩
      rw [hgs] at hx
      cases hx
      rcases (mem_setInsert _ _ _).1 hm with hm | hm
      · exact .inr hm
      · exact .inl ⟨e, he, hm⟩
    · rintro (⟨x, hx, hm⟩ | rfl)
      · rw [he] at hx
        cases hx
        exact ⟨_, hgs, (mem_setInsert _ _ _).2 (.inr hm)⟩
      · exact ⟨_, hgs, (mem_setInsert _ _ _).2 (.inl rfl)⟩
  · intro key hne
    have hkeys : keys (c.insert i).schemas = keys c.schemas := by
      rw [hc]; exact keys_upsert_mem _ _ _ h.mem
    have hdeps : (c.insert i).deps = c.deps := by
      funext t
      unfold Cache.deps
      rw [hg]
      by_cases hst : s = t
      · rw [if_pos hst]; subst hst; rw [he]
      · rw [if_neg hst]
    have hl : (c.insert i).listed s = c.listed s := by
      unfold Cache.listed; rw [hkeys, hdeps]
    unfold visible
    rw [hl]
    apply find_flatMap_congr
    intro t _
    unfold Cache.defs
    rw [hg]
    by_cases hst : s = t
    · rw [if_pos hst]
      subst hst
      rw [he]
      simp only
      unfold setInsert
      split
      · rfl
      · rw [List.map_append, List.find?_append]
        simp [Ne.symm hne]
    · rw [if_neg hst]

/-! ## One round -/

/-- The node that is written for a listed component, if any. -/
def written (s : Nat) (old : Id) (nodes : List (Id × Node)) (e : Id) : Option Node :=
  match get nodes e with
  | none => none
  | some n =>
    match n.hit old with
    | none => none
    | some (key, link) =>
      let deps := upsert n.deps key fun _ => { link with target := old.withSchema s }
      some (if e.schema = s then { n with deps } else { n with deps, base := some e })

theorem withSchema_self {e : Id} {s : Nat} (h : e.schema = s) : e.withSchema s = e := by
  subst h; rfl

theorem redirectOne_none {s : Nat} {old : Id} {x : St × List Id} {e : Id}
    (h : written s old x.1.nodes e = none) : redirectOne s old x e = x := by
  unfold written at h
  unfold redirectOne
  cases hg : get x.1.nodes e with
  | none => rfl
  | some n =>
    rw [hg] at h
    simp only at h ⊢
    cases hh : n.hit old with
    | none => rfl
    | some kl => rw [hh] at h; cases h

theorem redirectOne_some {s : Nat} {old : Id} {x : St × List Id} {e : Id} {v : Node}
    (h : written s old x.1.nodes e = some v) :
    (redirectOne s old x e).1.nodes = upsert x.1.nodes (e.withSchema s) (fun _ => v) ∧
    (redirectOne s old x e).1.idents
      = (if e.schema = s then x.1.idents else x.1.idents.insert (e.withSchema s).text) ∧
    (redirectOne s old x e).2 = (if e.schema = s then x.2 else setInsert e x.2) := by
  unfold written at h
  unfold redirectOne
  cases hg : get x.1.nodes e with
  | none => rw [hg] at h; cases h
  | some n =>
    rw [hg] at h
    simp only at h ⊢
    cases hh : n.hit old with
    | none => rw [hh] at h; cases h
    | some kl =>
      rw [hh] at h
      simp only [Option.some.injEq] at h ⊢
      by_cases hs : e.schema = s
      · rw [if_pos hs] at h
        simp only [if_pos hs, withSchema_self hs, h, and_self, and_true, true_and]
      · rw [if_neg hs] at h
        simp only [if_neg hs, St.put, h, and_self]

/-- A foreign component is copied in this round. -/
def Copies (s : Nat) (old : Id) (nodes : List (Id × Node)) (e : Id) : Prop :=
  e.schema ≠ s ∧ (written s old nodes e).isSome

theorem key_withSchema (e : Id) (s : Nat) : (e.withSchema s).key = e.key := rfl

/-- What the loop over the listed components does. -/
theorem fold_spec {s ns : Nat} (hs : s ≠ 0) (old : Id) : ∀ (es : List Id) (x : St × List Id),
    (es.map Id.key).Nodup → Known x.1.idents s ns → ∀ y, y = es.foldl (redirectOne s old) x →
    (∀ e ∈ es, ∀ v, written s old x.1.nodes e = some v →
      get y.1.nodes (e.withSchema s) = some v) ∧
    (∀ j, (∀ e ∈ es, e.withSchema s = j → written s old x.1.nodes e = none) →
      get y.1.nodes j = get x.1.nodes j) ∧
    (∀ i, i ∈ y.2 ↔ i ∈ x.2 ∨ i ∈ es ∧ Copies s old x.1.nodes i) ∧
    ((∀ e ∈ es, ¬ Copies s old x.1.nodes e) → y.2 = x.2) ∧
    Known y.1.idents s ns ∧
    (∀ key, Own y.1.idents s key ↔
      Own x.1.idents s key ∨ ∃ e ∈ es, Copies s old x.1.nodes e ∧ e.key = key) ∧
    (∀ key, (∀ e ∈ es, Copies s old x.1.nodes e → e.key ≠ key) →
      visible y.1.idents s key = visible x.1.idents s key) := by
  intro es
  induction es with
  | nil =>
    intro x _ hk y hy
    subst hy
    simp [hk]
  | cons e es ih =>
    intro x hnd hk y hy
    rw [List.map_cons, List.nodup_cons] at hnd
    obtain ⟨hne, hnd⟩ := hnd
    have hkey : ∀ e' ∈ es, e.key ≠ e'.key := fun e' he' h =>
      hne (by rw [h]; exact List.mem_map.2 ⟨e', he', rfl⟩)
    rw [List.foldl_cons] at hy
    cases hw : written s old x.1.nodes e with
    | none =>
      rw [redirectOne_none hw] at hy
      obtain ⟨h1, h2, h3, h4, h5, h6, h7⟩ := ih x hnd hk y hy
      have hnc : ¬ Copies s old x.1.nodes e := by rintro ⟨-, h⟩; rw [hw] at h; cases h
      refine ⟨?_, ?_, ?_, ?_, h5, ?_, ?_⟩
      · intro e' he' v hv
        rcases List.mem_cons.1 he' with rfl | he'
        · rw [hw] at hv; cases hv
        · exact h1 e' he' v hv
      · intro j hj
        exact h2 j fun e' he' => hj e' (List.mem_cons_of_mem _ he')
      · intro i
        rw [h3]
        constructor
        · rintro (h | ⟨h, h'⟩)
          · exact .inl h
          · exact .inr ⟨List.mem_cons_of_mem _ h, h'⟩
        · rintro (h | ⟨h, h'⟩)
          · exact .inl h
          · rcases List.mem_cons.1 h with rfl | h
            · exact absurd h' hnc
            · exact .inr ⟨h, h'⟩
      · intro h; exact h4 fun e' he' => h e' (List.mem_cons_of_mem _ he')
      · intro key
        rw [h6]
        constructor
        · rintro (h | ⟨e', he', h⟩)
          · exact .inl h
          · exact .inr ⟨e', List.mem_cons_of_mem _ he', h⟩
        · rintro (h | ⟨e', he', h⟩)
          · exact .inl h
          · rcases List.mem_cons.1 he' with rfl | he'
            · exact absurd h.1 hnc
            · exact .inr ⟨e', he', h⟩
      · intro key h; exact h7 key fun e' he' => h e' (List.mem_cons_of_mem _ he')
    | some v =>
      obtain ⟨r1, r2, r3⟩ := redirectOne_some hw
      generalize hx1 : redirectOne s old x e = x1 at *
      have hget : ∀ j, e.withSchema s ≠ j → get x1.1.nodes j = get x.1.nodes j := by
        intro j hj
        rw [r1, get_upsert, if_neg hj]
      have hsame : ∀ e' ∈ es, written s old x1.1.nodes e' = written s old x.1.nodes e' := by
        intro e' he'
        unfold written
        rw [hget e' (fun h => hkey e' he' (by rw [← h]; rfl))]
      have hcop : ∀ e' ∈ es, (Copies s old x1.1.nodes e' ↔ Copies s old x.1.nodes e') := by
        intro e' he'
        unfold Copies
        rw [hsame e' he']
      -- the names
      have hid : Known x1.1.idents s ns ∧
          (∀ key, Own x1.1.idents s key ↔
            Own x.1.idents s key ∨ (Copies s old x.1.nodes e ∧ e.key = key)) ∧
          (∀ key, (Copies s old x.1.nodes e → e.key ≠ key) →
            visible x1.1.idents s key = visible x.1.idents s key) := by
        by_cases hes : e.schema = s
        · rw [if_pos hes] at r2
          rw [r2]
          refine ⟨hk, fun key => ⟨.inl, ?_⟩, fun _ _ => rfl⟩
          rintro (h | ⟨h, -⟩)
          · exact h
          · exact absurd hes h.1
        · rw [if_neg hes] at r2
          have hc : Copies s old x.1.nodes e := ⟨hes, by rw [hw]; rfl⟩
          obtain ⟨k1, k2, k3⟩ := insert_spec hk hs (e.withSchema s).text rfl
          rw [r2]
          refine ⟨k1, fun key => ?_, fun key h => k3 key (fun hk => h hc hk.symm)⟩
          rw [k2]
          constructor
          · rintro (h | h)
            · exact .inl h
            · exact .inr ⟨hc, h.symm⟩
          · rintro (h | ⟨-, h⟩)
            · exact .inl h
            · exact .inr h.symm
      obtain ⟨i1, i2, i3⟩ := hid
      obtain ⟨h1, h2, h3, h4, h5, h6, h7⟩ := ih x1 hnd i1 y hy
      refine ⟨?_, ?_, ?_, ?_, h5, ?_, ?_⟩
      · intro e' he' v' hv'
        rcases List.mem_cons.1 he' with rfl | he'
        · rw [hw] at hv'
          cases hv'
          rw [h2]
          · rw [r1, get_upsert, if_pos rfl]
          · intro e'' he'' h
            refine absurd ?_ (hkey e'' he'')
            rw [← key_withSchema e' s, ← h, key_withSchema]
        · exact h1 e' he' v' (by rw [hsame e' he']; exact hv')
      · intro j hj
        rw [h2 j fun e' he' h => by
          rw [hsame e' he']; exact hj e' (List.mem_cons_of_mem _ he') h]
        refine hget j fun h => ?_
        rw [hj e List.mem_cons_self h] at hw
        cases hw
      · intro i
        rw [h3, r3]
        constructor
        · rintro (h | ⟨h, h'⟩)
          · split at h
            · exact .inl h
            · rename_i hes
              rcases (mem_setInsert _ _ _).1 h with rfl | h
              · exact .inr ⟨List.mem_cons_self, hes, by rw [hw]; rfl⟩
              · exact .inl h
          · exact .inr ⟨List.mem_cons_of_mem _ h, (hcop _ h).1 h'⟩
        · rintro (h | ⟨h, h'⟩)
          · left
            split
            · exact h
            · exact (mem_setInsert _ _ _).2 (.inr h)
          · rcases List.mem_cons.1 h with rfl | h
            · left
              rw [if_neg h'.1]
              exact (mem_setInsert _ _ _).2 (.inl rfl)
            · exact .inr ⟨h, (hcop _ h).2 h'⟩
      · intro h
        rw [h4 fun e' he' hc => h e' (List.mem_cons_of_mem _ he') ((hcop e' he').1 hc), r3]
        split
        · rfl
        · rename_i hes
          exact absurd ⟨hes, by rw [hw]; rfl⟩ (h e List.mem_cons_self)
      · intro key
        rw [h6, i2]
        constructor
        · rintro ((h | h) | ⟨e', he', h, h'⟩)
          · exact .inl h
          · exact .inr ⟨e, List.mem_cons_self, h⟩
          · exact .inr ⟨e', List.mem_cons_of_mem _ he', (hcop e' he').1 h, h'⟩
        · rintro (h | ⟨e', he', h, h'⟩)
          · exact .inl (.inl h)
          · rcases List.mem_cons.1 he' with rfl | he'
            · exact .inl (.inr ⟨h, h'⟩)
            · exact .inr ⟨e', he', (hcop e' he').2 h, h'⟩
      · intro key h
        rw [h7 key fun e' he' hc => h e' (List.mem_cons_of_mem _ he') ((hcop e' he').1 hc)]
        exact i3 key (h e List.mem_cons_self)

/-! ## Redirected nodes -/

/-- Where a dependency points to when the components in `D` are replaced. -/
def move (s : Nat) (D : List Id) (base : Option Id) (t : Id) : Id :=
  if t ∈ D ∧ base ≠ some t then t.withSchema s else t

/-- The node when the components in `D` are replaced. -/
def redir (s : Nat) (D : List Id) (n : Node) : Node :=
  { n with deps := n.deps.map fun d => (d.1, { d.2 with target := move s D n.base d.2.target }) }

/-- At most one dependency per key, and at most one on each component with a given name. -/
def Clean (n : Node) : Prop :=
  Keyed n.deps ∧ ∀ d ∈ n.deps, ∀ d' ∈ n.deps, d.2.target = d'.2.target →
    (∃ name, d.2.target.name = .named name) → d = d'

theorem upsert_map {K V : Type} [DecidableEq K] (m : List (K × V)) (hk : Keyed m) (k : K) (v : V)
    (hm : (k, v) ∈ m) (w : V) (p : V → Bool) (hp : ∀ x ∈ m, p x.2 = true ↔ x = (k, v)) (f : V → V)
    (hf : f v = w) :
    upsert m k (fun _ => w) = m.map fun x => (x.1, if p x.2 then f x.2 else x.2) := by
  induction m with
  | nil => cases hm
  | cons x m ih =>
    obtain ⟨a, u⟩ := x
    unfold Keyed keys at hk
    rw [List.map_cons, List.nodup_cons] at hk
    simp only [upsert]
    by_cases ha : a = k
    · subst ha
      have hu : v = u := by
        rcases List.mem_cons.1 hm with h | h
        · simpa using h
        · exact absurd (List.mem_map.2 ⟨_, h, rfl⟩) hk.1
      subst hu
      rw [if_pos rfl, List.map_cons]
      have : p v = true := (hp _ List.mem_cons_self).2 rfl
      simp only [this, if_true, hf, List.cons.injEq, true_and]
      symm
      refine (List.map_congr_left (g := id) ?_).trans (List.map_id m)
      intro y hy
      have : ¬ p y.2 = true := fun h => by
        have := (hp y (List.mem_cons_of_mem _ hy)).1 h
        subst this
        exact hk.1 (List.mem_map.2 ⟨_, hy, rfl⟩)
      simp [this]
    · have hne : (a, u) ≠ (k, v) := fun h => ha (by cases h; rfl)
      rw [if_neg ha, List.map_cons]
      have : ¬ p u = true := fun h => hne ((hp (a, u) List.mem_cons_self).1 h)
      simp only [this, Bool.false_eq_true, if_false, List.cons.injEq, true_and]
      refine ih hk.2 ?_ fun y hy => hp y (List.mem_cons_of_mem _ hy)
      rcases List.mem_cons.1 hm with h | h
      · exact absurd h.symm hne
      · exact h

theorem redir_label (s : Nat) (D : List Id) (n : Node) :
    (redir s D n).label = n.label ∧ (redir s D n).kind = n.kind ∧ (redir s D n).base = n.base :=
  ⟨rfl, rfl, rfl⟩

theorem find_unique {α : Type} {l : List α} {p : α → Bool} {x : α} (h : l.find? p = some x)
    (hu : ∀ a ∈ l, ∀ b ∈ l, p a = true → p b = true → a = b) :
    ∀ a ∈ l, p a = true ↔ a = x := by
  intro a ha
  have hx := List.mem_of_find?_eq_some h
  have hp := List.find?_some h
  exact ⟨fun h => hu a ha x hx h hp, fun h => h ▸ hp⟩

/-- The step of one round on a node: the dependency that is found is the only one on the old
component. -/
theorem hit_redir {s : Nat} {D : List Id} {n : Node} {old : Id} (hn : Clean n) (hD : old ∉ D)
    (hs : old.schema ≠ s) (hname : ∃ name, old.name = .named name) :
    (∀ key link, (redir s D n).hit old = some (key, link) →
      { redir s D n with
        deps := upsert (redir s D n).deps key
          fun _ => { link with target := old.withSchema s } } = redir s (old :: D) n) ∧
    ((redir s D n).hit old = none → redir s D n = redir s (old :: D) n) ∧
    (((redir s D n).hit old).isSome ↔ (∃ d ∈ n.deps, d.2.target = old) ∧ n.base ≠ some old) := by
  have hmove : ∀ t, move s D n.base t = old ↔ t = old := by
    intro t
    unfold move
    split
    · rename_i h
      constructor
      · intro h'; rw [← h'] at hs; exact absurd rfl hs
      · rintro rfl; exact absurd h.1 hD
    · exact Iff.rfl
  have hmoves : ∀ t, n.base ≠ some old → move s (old :: D) n.base t
      = if move s D n.base t = old then old.withSchema s else move s D n.base t := by
    intro t hb
    simp only [hmove t]
    by_cases ht : t = old
    · subst ht
      simp [move, hb]
    · simp [move, ht]
  have hbase : n.base = some old → redir s D n = redir s (old :: D) n := by
    intro hb
    unfold redir
    congr 1
    apply List.map_congr_left
    intro d _
    have : move s D n.base d.2.target = move s (old :: D) n.base d.2.target := by
      unfold move
      by_cases ht : d.2.target = old
      · simp [ht, hb]
      · simp [ht]
    rw [this]
  refine ⟨?_, ?_, ?_⟩
  · intro key link hh
    unfold Node.hit at hh
    have hb : n.base ≠ some old := by
      have := List.find?_some hh
      simp only [redir, Bool.and_eq_true] at this
      exact of_decide_eq_true this.2
    have hkeyed : Keyed (redir s D n).deps := by
      unfold Keyed keys redir
      simp only [List.map_map]
      exact hn.1
    have huniq : ∀ a ∈ (redir s D n).deps, ∀ b ∈ (redir s D n).deps, a.2.target = old →
        b.2.target = old → a = b := by
      intro a ha b hb' hat hbt
      obtain ⟨a', ha', rfl⟩ := List.mem_map.1 ha
      obtain ⟨b', hb2, rfl⟩ := List.mem_map.1 hb'
      have ea := (hmove _).1 hat
      have eb := (hmove _).1 hbt
      rw [hn.2 a' ha' b' hb2 (ea.trans eb.symm) (by rw [ea]; exact hname)]
    have := upsert_map (redir s D n).deps hkeyed key link (List.mem_of_find?_eq_some hh)
      { link with target := old.withSchema s } (fun l => decide (l.target = old))
      (fun x hx => by
        have := find_unique hh (fun a ha b hb' h h' => by
          simp only [Bool.and_eq_true, decide_eq_true_eq] at h h'
          exact huniq a ha b hb' h.1 h'.1) x hx
        rw [← this]
        have hb'' : (redir s D n).base ≠ some old := hb
        simp [hb''])
      (fun l => { l with target := old.withSchema s }) rfl
    rw [this]
    unfold redir
    simp only [Node.mk.injEq, List.map_map, and_true, true_and]
    apply List.map_congr_left
    intro d _
    simp only [Function.comp_apply, Prod.mk.injEq, true_and, decide_eq_true_eq]
    rw [hmoves _ hb]
    split <;> rfl
  · intro hh
    by_cases hb : n.base = some old
    · exact hbase hb
    · unfold Node.hit at hh
      have hno : ∀ d ∈ n.deps, d.2.target ≠ old := by
        intro d hd ht
        have := List.find?_eq_none.1 hh _ (List.mem_map.2 ⟨d, hd, rfl⟩)
        have hb' : (redir s D n).base ≠ some old := hb
        simp [hb', (hmove _).2 ht] at this
      unfold redir
      congr 1
      apply List.map_congr_left
      intro d hd
      rw [hmoves _ hb, if_neg fun h => hno d hd ((hmove _).1 h)]
  · unfold Node.hit
    rw [List.find?_isSome]
    constructor
    · rintro ⟨d, hd, h⟩
      obtain ⟨d', hd', rfl⟩ := List.mem_map.1 hd
      simp only [Bool.and_eq_true, decide_eq_true_eq] at h
      exact ⟨⟨d', hd', (hmove _).1 h.1⟩, by simpa [redir] using h.2⟩
    · rintro ⟨⟨d, hd, ht⟩, hb⟩
      refine ⟨_, List.mem_map.2 ⟨d, hd, rfl⟩, ?_⟩
      simp only [Bool.and_eq_true, decide_eq_true_eq]
      exact ⟨(hmove _).2 ht, by simpa [redir] using hb⟩

/-! ## Specification -/

/-- What is known about the state and the replaced components when the redefinitions of a
document are resolved. -/
structure Ready (s ns : Nat) (st : St) (todo : List Id) : Prop where
  schema : s ≠ 0
  known : Known st.idents s ns
  /-- the replaced components are in another document, and the redefining document has the new
  ones -/
  todo : ∀ o ∈ todo, o.schema ≠ s ∧ (∃ name, o.name = .named name) ∧ Own st.idents s o.key ∧
    (get st.nodes (o.withSchema s)).isSome
  clean : ∀ i n, get st.nodes i = some n → Clean n
  /-- what a component redefines has its kind and name and is in another document -/
  base : ∀ i n b, get st.nodes i = some n → n.base = some b → b.key = i.key ∧ b.schema ≠ i.schema
  /-- the components of the document are known by name -/
  names : ∀ i, (get st.nodes i).isSome → i.schema = s → Own st.idents s i.key

/-- The components that have to be replaced: the redefined ones, and every component of another
document that can be seen from `s` and refers to one that has to be replaced (unless this is what
it redefines itself). -/
inductive Replaced (s : Nat) (st : St) (todo : List Id) : Id → Prop
  | redefined {o : Id} : o ∈ todo → Replaced s st todo o
  | refers {t : TIdent} {out : List TIdent} {n : Node} {d : Key × Link} :
      Lists st.idents s out → t ∈ out → t.schema ≠ s → get st.nodes (.ofText t) = some n →
      d ∈ n.deps → n.base ≠ some d.2.target → Replaced s st todo d.2.target →
      Replaced s st todo (.ofText t)

/-- No component of another namespace has to be replaced. -/
def SameNamespace (s ns : Nat) (st : St) (todo : List Id) : Prop :=
  ∀ i, Replaced s st todo i → i ∉ todo → i.ns = ns

/-- A dependency before and after: it keeps its key and strength; if it pointed to a replaced
component, then it points to the new one, except for what the component itself redefines. -/
def Redirected (s : Nat) (R : Id → Prop) (base : Option Id) (d d' : Key × Link) : Prop :=
  d'.1 = d.1 ∧ d'.2.strength = d.2.strength ∧
  (R d.2.target → base ≠ some d.2.target → d'.2.target = d.2.target.withSchema s) ∧
  (¬ (R d.2.target ∧ base ≠ some d.2.target) → d'.2.target = d.2.target)

/-- `n'` is the declaration `n` with redirected dependencies. -/
def Version (s : Nat) (R : Id → Prop) (base : Option Id) (n n' : Node) : Prop :=
  n'.label = n.label ∧ n'.kind = n.kind ∧ n'.base = base ∧
  n'.deps.length = n.deps.length ∧
  ∀ (k : Nat) d d', n.deps[k]? = some d → n'.deps[k]? = some d' → Redirected s R base d d'

/-! ## Invariant -/

/-- A component of another document that can be seen. -/
def Foreign (s : Nat) (c : Cache) (e : Id) : Prop :=
  visible c s e.key = some e.text ∧ e.schema ≠ s ∧ ∃ name, e.name = .named name

/-- A component of the document itself with a given name. -/
def Home (s ns : Nat) (c : Cache) (e : Id) : Prop :=
  e.schema = s ∧ e.ns = ns ∧ Own c s e.key ∧ ∃ name, e.name = .named name

/-- The state after some rounds, in which the components in `D` have been taken. -/
structure Inv (s ns : Nat) (st₀ : St) (todo₀ : List Id) (D : List Id) (x : St × List Id) : Prop where
  known : Known x.1.idents s ns
  /-- the components of the document -/
  home : ∀ j, Home s ns st₀.idents j → get x.1.nodes j = (get st₀.nodes j).map (redir s D)
  /-- the copies -/
  copies : ∀ e n, Foreign s st₀.idents e → e ∈ D ∨ e ∈ x.2 → get st₀.nodes e = some n →
    get x.1.nodes (e.withSchema s) = some (redir s D { n with base := some e })
  /-- nothing else has changed -/
  rest : ∀ j, ¬ Home s ns st₀.idents j →
    (∀ e, Foreign s st₀.idents e → e ∈ D ∨ e ∈ x.2 → (get st₀.nodes e).isSome →
      j ≠ e.withSchema s) → get x.1.nodes j = get st₀.nodes j
  own : ∀ key, Own x.1.idents s key ↔ Own st₀.idents s key ∨
    ∃ e, Foreign s st₀.idents e ∧ (e ∈ D ∨ e ∈ x.2) ∧ e.key = key
  visible : ∀ key, (∀ e, Foreign s st₀.idents e → e ∈ D ∨ e ∈ x.2 → e.key ≠ key) →
    visible x.1.idents s key = visible st₀.idents s key
  replaced : ∀ e, e ∈ D ∨ e ∈ x.2 → Replaced s st₀ todo₀ e ∧
    (e ∈ todo₀ ∨ Foreign s st₀.idents e ∧ (get st₀.nodes e).isSome)
  todo : ∀ o ∈ todo₀, o ∈ D ∨ o ∈ x.2
  done : ∀ e n, Foreign s st₀.idents e → ¬ (e ∈ D ∨ e ∈ x.2) → get st₀.nodes e = some n →
    ∀ d ∈ n.deps, d.2.target ∈ D → n.base = some d.2.target
  disjoint : ∀ e ∈ x.2, e ∉ D

theorem ofText_text {e : Id} (h : ∃ name, e.name = .named name) : Id.ofText e.text = e := by
  obtain ⟨name, hn⟩ := h
  cases e
  subst hn
  rfl

theorem text_ofText (t : TIdent) : (Id.ofText t).text = t := by cases t; rfl

theorem key_ofText (t : TIdent) : (Id.ofText t).key = (t.kind, t.name) := rfl

theorem redir_nil (s : Nat) (n : Node) : redir s [] n = n := by
  unfold redir move
  simp

theorem Foreign.notOwn {s ns : Nat} {c : Cache} {e : Id} (hk : Known c s ns) (h : Foreign s c e) :
    ¬ Own c s e.key := fun ho => h.2.1 ((visible_schema hk h.1).2 ho)

theorem Foreign.unique {s : Nat} {c : Cache} {e e' : Id} (h : Foreign s c e) (h' : Foreign s c e')
    (hk : e.key = e'.key) : e = e' := by
  have := h.1
  rw [hk, h'.1] at this
  rw [← ofText_text h.2.2, ← ofText_text h'.2.2]
  exact congrArg _ (Option.some.inj this).symm

theorem inv_init {s ns : Nat} {st : St} {todo : List Id} (h : Ready s ns st todo) :
    Inv s ns st todo [] (st, todo) where
  known := h.known
  home j _ := by
    cases hg : get st.nodes j with
    | none => rfl
    | some n => simp [redir_nil]
  copies e n hf hm _ := by
    rcases hm with hm | hm
    · cases hm
    · exact absurd (h.todo e hm).2.2.1 (hf.notOwn h.known)
  rest j _ _ := rfl
  own key := by
    constructor
    · exact .inl
    · rintro (h' | ⟨e, hf, hm, rfl⟩)
      · exact h'
      · rcases hm with hm | hm
        · cases hm
        · exact (h.todo e hm).2.2.1
  visible key _ := rfl
  replaced e hm := by
    rcases hm with hm | hm
    · cases hm
    · exact ⟨.redefined hm, .inl hm⟩
  todo o ho := .inr ho
  done e n _ _ _ d _ hd := by cases hd
  disjoint e _ h := by cases h

theorem Foreign.notTodo {s ns : Nat} {st : St} {todo : List Id} (h : Ready s ns st todo) {e : Id}
    (hf : Foreign s st.idents e) : e ∉ todo :=
  fun hm => hf.notOwn h.known (h.todo e hm).2.2.1

/-- What a component of another document redefines does not have to be replaced. -/
theorem Inv.baseKept {s ns : Nat} {st₀ : St} {todo₀ : List Id} (h : Ready s ns st₀ todo₀)
    {D : List Id} {x : St × List Id} (inv : Inv s ns st₀ todo₀ D x) {e b : Id} {n : Node}
    (hf : Foreign s st₀.idents e) (hg : get st₀.nodes e = some n) (hb : n.base = some b) :
    ¬ (b ∈ D ∨ b ∈ x.2) := by
  intro hr
  obtain ⟨hk, hs⟩ := h.base e n b hg hb
  rcases (inv.replaced b hr).2 with ht | ⟨hf', -⟩
  · exact hf.notOwn h.known (by rw [← hk]; exact (h.todo b ht).2.2.1)
  · exact hs (congrArg Id.schema (hf'.unique hf hk))

theorem inv_step {s ns : Nat} {st₀ : St} {todo₀ : List Id} (h : Ready s ns st₀ todo₀)
    (hns : SameNamespace s ns st₀ todo₀) {D : List Id} {x : St × List Id}
    (inv : Inv s ns st₀ todo₀ D x) {old : Id} (hold : old ∈ x.2) {out listed : List TIdent}
    (hl : Lists x.1.idents s out) (hp : listed.Perm out) :
    Inv s ns st₀ todo₀ (old :: D) (round s old listed x) ∧
    (∀ e, e ∈ (round s old listed x).2 → e ∈ x.2 ∨ Foreign s st₀.idents e ∧ ¬ (e ∈ D ∨ e ∈ x.2)) ∧
    ((∀ e, e ∈ (round s old listed x).2 → e ∈ x.2) →
      (round s old listed x).2 = x.2.filter (· ≠ old)) := by
  -- the replaced component
  have hDold : old ∉ D := inv.disjoint old hold
  have hRold : old ∈ D ∨ old ∈ x.2 := .inr hold
  have holds : old.schema ≠ s ∧ ∃ name, old.name = .named name := by
    rcases (inv.replaced old hRold).2 with ht | ⟨hf, -⟩
    · exact ⟨(h.todo old ht).1, (h.todo old ht).2.1⟩
    · exact hf.2
  -- the listed components
  have hmem : ∀ e : Id, e ∈ listed.map Id.ofText ↔
      (∃ name, e.name = .named name) ∧ visible x.1.idents s e.key = some e.text := by
    intro e
    constructor
    · intro he
      obtain ⟨t, ht, rfl⟩ := List.mem_map.1 he
      refine ⟨⟨_, rfl⟩, ?_⟩
      rw [text_ofText]
      exact (mem_lists inv.known.mem hl t).1 (hp.mem_iff.1 ht)
    · rintro ⟨hn, hv⟩
      rw [← ofText_text hn]
      exact List.mem_map.2 ⟨_, hp.mem_iff.2 ((mem_lists inv.known.mem hl _).2 hv), rfl⟩
  have hnd : ((listed.map Id.ofText).map Id.key).Nodup := by
    rw [List.map_map]
    exact (hp.map _).nodup_iff.2 (lists_nodup inv.known.mem hl)
  have huniq : ∀ e ∈ listed.map Id.ofText, ∀ e' ∈ listed.map Id.ofText, e.key = e'.key → e = e' := by
    intro e he e' he' hk
    obtain ⟨hn, hv⟩ := (hmem e).1 he
    obtain ⟨hn', hv'⟩ := (hmem e').1 he'
    rw [hk, hv'] at hv
    rw [← ofText_text hn, ← ofText_text hn']
    exact congrArg _ (Option.some.inj hv).symm
  obtain ⟨f1, f2, f3, f4, f5, f6, f7⟩ := fold_spec h.schema old (listed.map Id.ofText)
    (x.1, x.2.filter (· ≠ old)) hnd inv.known (round s old listed x) rfl
  simp only at f1 f2 f3 f4 f5 f6 f7
  generalize round s old listed x = y at *
  -- the copies so far
  have hcopyNs : ∀ e, Foreign s st₀.idents e → e ∈ D ∨ e ∈ x.2 → e.ns = ns := fun e hf hr =>
    hns e (inv.replaced e hr).1 (hf.notTodo h)
  have hcopyMem : ∀ e, Foreign s st₀.idents e → e ∈ D ∨ e ∈ x.2 →
      e.withSchema s ∈ listed.map Id.ofText := by
    intro e hf hr
    refine (hmem _).2 ⟨hf.2.2, ?_⟩
    rw [key_withSchema, visible_own inv.known ((inv.own _).2 (.inr ⟨e, hf, hr, rfl⟩))]
    simp only [Id.text, Id.withSchema, Id.key, hcopyNs e hf hr]
  have hhomeMem : ∀ j, Home s ns st₀.idents j → j ∈ listed.map Id.ofText := by
    intro j hj
    refine (hmem _).2 ⟨hj.2.2.2, ?_⟩
    rw [visible_own inv.known ((inv.own _).2 (.inl hj.2.2.1))]
    simp only [Id.text, Id.key, hj.1, hj.2.1]
  have hforeignMem : ∀ e, Foreign s st₀.idents e → ¬ (e ∈ D ∨ e ∈ x.2) →
      e ∈ listed.map Id.ofText := by
    intro e hf hr
    refine (hmem _).2 ⟨hf.2.2, ?_⟩
    rw [inv.visible _ fun e' hf' hr' hk => ?_]
    · exact hf.1
    · exact hr (hf'.unique hf hk ▸ hr')
  have hclass : ∀ e ∈ listed.map Id.ofText,
      (∃ e₀, Foreign s st₀.idents e₀ ∧ (e₀ ∈ D ∨ e₀ ∈ x.2) ∧ e = e₀.withSchema s) ∨
      Home s ns st₀.idents e ∨ (Foreign s st₀.idents e ∧ ¬ (e ∈ D ∨ e ∈ x.2)) := by
    intro e he
    obtain ⟨hn, hv⟩ := (hmem e).1 he
    by_cases hc : ∃ e₀, Foreign s st₀.idents e₀ ∧ (e₀ ∈ D ∨ e₀ ∈ x.2) ∧ e₀.key = e.key
    · obtain ⟨e₀, hf, hr, hk⟩ := hc
      exact .inl ⟨e₀, hf, hr, huniq e he _ (hcopyMem e₀ hf hr) (by rw [key_withSchema, hk])⟩
    · have hno : ∀ e₀, Foreign s st₀.idents e₀ → e₀ ∈ D ∨ e₀ ∈ x.2 → e₀.key ≠ e.key :=
        fun e₀ hf hr hk => hc ⟨e₀, hf, hr, hk⟩
      rw [inv.visible _ hno] at hv
      by_cases hs : e.schema = s
      · have ho := (visible_schema h.known hv).1 hs
        refine .inr (.inl ⟨hs, ?_, ho, hn⟩)
        rw [visible_own h.known ho] at hv
        exact (congrArg TIdent.ns (Option.some.inj hv)).symm
      · have hf : Foreign s st₀.idents e := ⟨hv, hs, hn⟩
        exact .inr (.inr ⟨hf, fun hr => hno e hf hr rfl⟩)
  -- a foreign component that is not yet copied
  have hforeignGet : ∀ e, e.schema ≠ s → get x.1.nodes e = get st₀.nodes e := by
    intro e hs
    exact inv.rest e (fun hh => hs hh.1) fun e' _ _ _ he => hs (by rw [he]; rfl)
  have hnew : ∀ e, e ∈ listed.map Id.ofText → Copies s old x.1.nodes e →
      Foreign s st₀.idents e ∧ ¬ (e ∈ D ∨ e ∈ x.2) ∧ ∃ n, get st₀.nodes e = some n ∧
        (n.hit old).isSome := by
    intro e he hc
    rcases hclass e he with ⟨e₀, -, -, rfl⟩ | hh | ⟨hf, hr⟩
    · exact absurd rfl hc.1
    · exact absurd hh.1 hc.1
    · refine ⟨hf, hr, ?_⟩
      have := hc.2
      unfold written at this
      rw [hforeignGet e hc.1] at this
      cases hg : get st₀.nodes e with
      | none => rw [hg] at this; cases this
      | some n =>
        rw [hg] at this
        refine ⟨n, rfl, ?_⟩
        cases hh : n.hit old with
        | none => simp only [hh] at this; cases this
        | some _ => rfl
  have hnot : ∀ e, Foreign s st₀.idents e → ¬ (e ∈ D ∨ e ∈ x.2) → ¬ Copies s old x.1.nodes e →
      ∀ n, get st₀.nodes e = some n → n.hit old = none := by
    intro e hf hr hc n hg
    cases hh : n.hit old with
    | none => rfl
    | some kl =>
      refine absurd ⟨hf.2.1, ?_⟩ hc
      unfold written
      rw [hforeignGet e hf.2.1, hg]
      simp [hh]
  have hR' : ∀ e, e ∈ old :: D ∨ e ∈ y.2 ↔
      (e ∈ D ∨ e ∈ x.2) ∨ (e ∈ listed.map Id.ofText ∧ Copies s old x.1.nodes e) := by
    intro e
    rw [f3]
    simp only [List.mem_cons, List.mem_filter, decide_eq_true_eq]
    constructor
    · rintro ((rfl | h) | ⟨h, -⟩ | h)
      · exact .inl (.inr hold)
      · exact .inl (.inl h)
      · exact .inl (.inr h)
      · exact .inr h
    · rintro ((h | h) | h)
      · exact .inl (.inr h)
      · by_cases he : e = old
        · exact .inl (.inl he)
        · exact .inr (.inl ⟨h, by simpa using he⟩)
      · exact .inr (.inr h)
  -- a component of the document, or a copy
  have hown : ∀ (j : Id) (m : Node), j ∈ listed.map Id.ofText → j.schema = s → Clean m →
      get x.1.nodes j = some (redir s D m) → get y.1.nodes j = some (redir s (old :: D) m) := by
    intro j m hj hs hc hg
    obtain ⟨g1, g2, -⟩ := hit_redir hc hDold holds.1 holds.2
    cases hh : (redir s D m).hit old with
    | none =>
      rw [f2 j ?_, hg, g2 hh]
      intro e he hej
      have : e = j := huniq e he j hj (by rw [← hej]; rfl)
      subst this
      unfold written
      rw [hg]
      simp only [hh]
    | some kl =>
      obtain ⟨key, link⟩ := kl
      have := f1 j hj (redir s (old :: D) m) (by
        unfold written
        rw [hg]
        simp only [hh, hs, if_true, Option.some.injEq]
        exact g1 key link hh)
      rwa [withSchema_self hs] at this
  refine ⟨?_, ?_, ?_⟩
  · refine ⟨f5, ?_, ?_, ?_, ?_, ?_, ?_, ?_, ?_, ?_⟩
    · -- home
      intro j hj
      have hg := inv.home j hj
      cases h0 : get st₀.nodes j with
      | none =>
        rw [h0] at hg
        rw [f2 j ?_, hg]
        · rfl
        · intro e he hej
          have : e = j := huniq e he j (hhomeMem j hj) (by rw [← hej]; rfl)
          subst this
          unfold written
          rw [hg]
          rfl
      | some n =>
        rw [h0] at hg
        exact hown j n (hhomeMem j hj) hj.1 (h.clean j n h0) hg
    · -- copies
      intro e n hf hr hg
      rcases (hR' e).1 hr with hr | ⟨he, hc⟩
      · exact hown _ _ (hcopyMem e hf hr) rfl (h.clean e n hg) (inv.copies e n hf hr hg)
      · obtain ⟨-, hnr, n', hg', hh⟩ := hnew e he hc
        rw [hg] at hg'
        cases hg'
        have hne : e ≠ old := fun heq => hnr (heq ▸ hRold)
        have hb : n.base ≠ some old := by
          obtain ⟨kl, hkl⟩ := Option.isSome_iff_exists.1 hh
          have := List.find?_some hkl
          simp only [Bool.and_eq_true] at this
          exact of_decide_eq_true this.2
        -- no dependency has been replaced before
        have hsame : redir s D { n with base := some e } = { n with base := some e } := by
          unfold redir
          simp only [Node.mk.injEq, and_true, true_and]
          refine (List.map_congr_left (g := id) ?_).trans (List.map_id _)
          intro d hd
          have : d.2.target ∉ D := by
            intro hdD
            have hbase := inv.done e n hf hnr hg d hd hdD
            exact inv.baseKept h hf hg hbase (.inl hdD)
          simp [move, this]
        have hhit : Node.hit { n with base := some e } old = n.hit old := by
          unfold Node.hit
          congr 1
          funext d
          simp [hb, hne]
        obtain ⟨g1, -, -⟩ := hit_redir (s := s) (n := { n with base := some e })
          (h.clean e n hg) hDold holds.1 holds.2
        rw [hsame, hhit] at g1
        obtain ⟨⟨key, link⟩, hkl⟩ := Option.isSome_iff_exists.1 hh
        refine f1 e he _ ?_
        unfold written
        rw [hforeignGet e hf.2.1, hg]
        simp only [hkl, if_neg hf.2.1, Option.some.injEq]
        exact g1 key link hkl
    · -- rest
      intro j hj hno
      rw [f2 j ?_]
      · exact inv.rest j hj fun e hf hr hi => hno e hf ((hR' e).2 (.inl hr)) hi
      · intro e he hej
        rcases hclass e he with ⟨e₀, hf, hr, rfl⟩ | hh | ⟨hf, hr⟩
        · refine absurd ?_ (hno e₀ hf ((hR' e₀).2 (.inl hr)) ?_)
          · rw [← hej]; rfl
          · rcases (inv.replaced e₀ hr).2 with ht | ⟨-, hi⟩
            · exact absurd ht (hf.notTodo h)
            · exact hi
        · rw [withSchema_self hh.1] at hej
          exact absurd (hej ▸ hh) hj
        · cases hw : written s old x.1.nodes e with
          | none => rfl
          | some v =>
            have hc : Copies s old x.1.nodes e := ⟨hf.2.1, by rw [hw]; rfl⟩
            obtain ⟨-, -, n, hg, -⟩ := hnew e he hc
            exact absurd hej.symm (hno e hf ((hR' e).2 (.inr ⟨he, hc⟩)) (by rw [hg]; rfl))
    · -- own
      intro key
      rw [f6, inv.own]
      constructor
      · rintro ((ho | ⟨e, hf, hr, hk⟩) | ⟨e, he, hc, hk⟩)
        · exact .inl ho
        · exact .inr ⟨e, hf, (hR' e).2 (.inl hr), hk⟩
        · exact .inr ⟨e, (hnew e he hc).1, (hR' e).2 (.inr ⟨he, hc⟩), hk⟩
      · rintro (ho | ⟨e, hf, hr, hk⟩)
        · exact .inl (.inl ho)
        · rcases (hR' e).1 hr with hr | ⟨he, hc⟩
          · exact .inl (.inr ⟨e, hf, hr, hk⟩)
          · exact .inr ⟨e, he, hc, hk⟩
    · -- visible
      intro key hno
      rw [f7 key fun e he hc => hno e (hnew e he hc).1 ((hR' e).2 (.inr ⟨he, hc⟩))]
      exact inv.visible key fun e hf hr => hno e hf ((hR' e).2 (.inl hr))
    · -- replaced
      intro e hr
      rcases (hR' e).1 hr with hr | ⟨he, hc⟩
      · exact inv.replaced e hr
      · obtain ⟨hf, hnr, n, hg, hh⟩ := hnew e he hc
        obtain ⟨out₀, hout⟩ := lists_exists h.known.mem
        obtain ⟨⟨key, link⟩, hkl⟩ := Option.isSome_iff_exists.1 hh
        have hd := List.mem_of_find?_eq_some hkl
        have hq := List.find?_some hkl
        simp only [Bool.and_eq_true] at hq
        have ht : link.target = old := of_decide_eq_true hq.1
        refine ⟨?_, .inr ⟨hf, by rw [hg]; rfl⟩⟩
        rw [← ofText_text hf.2.2]
        refine .refers hout ((mem_lists h.known.mem hout _).2 hf.1) hf.2.1 ?_ hd ?_ ?_
        · rw [ofText_text hf.2.2]; exact hg
        · rw [ht]; exact of_decide_eq_true hq.2
        · rw [ht]; exact (inv.replaced old hRold).1
    · intro o ho
      exact (hR' o).2 (.inl (inv.todo o ho))
    · -- done
      intro e n hf hnr' hg d hd hdt
      have hnr : ¬ (e ∈ D ∨ e ∈ x.2) := fun hr => hnr' ((hR' e).2 (.inl hr))
      have he := hforeignMem e hf hnr
      have hnc : ¬ Copies s old x.1.nodes e := fun hc => hnr' ((hR' e).2 (.inr ⟨he, hc⟩))
      rcases List.mem_cons.1 hdt with ht | ht
      · have := hnot e hf hnr hnc n hg
        unfold Node.hit at this
        have := List.find?_eq_none.1 this d hd
        rw [ht]
        simpa [ht] using this
      · exact inv.done e n hf hnr hg d hd ht
    · intro e he hd
      rw [f3] at he
      rcases he with he | ⟨he, hc⟩
      · simp only [List.mem_filter, decide_eq_true_eq] at he
        rcases List.mem_cons.1 hd with hd | hd
        · exact absurd hd (by simpa using he.2)
        · exact inv.disjoint e he.1 hd
      · obtain ⟨-, hnr, -⟩ := hnew e he hc
        rcases List.mem_cons.1 hd with hd | hd
        · exact hnr (hd ▸ hRold)
        · exact hnr (.inl hd)
  · intro e he
    rw [f3] at he
    rcases he with he | ⟨he, hc⟩
    · exact .inl (List.mem_filter.1 he).1
    · obtain ⟨hf, hnr, -⟩ := hnew e he hc
      exact .inr ⟨hf, hnr⟩
  · intro hsub
    refine f4 fun e he hc => ?_
    obtain ⟨hf, hnr, -⟩ := hnew e he hc
    exact hnr (.inr (hsub e ((f3 e).2 (.inr ⟨he, hc⟩))))

/-! ## The end of the loop -/

theorem Resolves.inv {s ns : Nat} {st₀ : St} {todo₀ : List Id} (h : Ready s ns st₀ todo₀)
    (hns : SameNamespace s ns st₀ todo₀) {x : St × List Id} {st' : St} (hr : Resolves s x st') :
    ∀ D, Inv s ns st₀ todo₀ D x → ∃ D', Inv s ns st₀ todo₀ D' (st', []) := by
  induction hr with
  | done st => intro D inv; exact ⟨D, inv⟩
  | round hold hl hp _ ih => intro D inv; exact ih _ (inv_step h hns inv hold hl hp).1

theorem Inv.complete {s ns : Nat} {st₀ : St} {todo₀ : List Id} (h : Ready s ns st₀ todo₀)
    {D : List Id} {st' : St} (inv : Inv s ns st₀ todo₀ D (st', [])) (i : Id) :
    i ∈ D ↔ Replaced s st₀ todo₀ i := by
  constructor
  · intro hi; exact (inv.replaced i (.inl hi)).1
  · intro hi
    induction hi with
    | redefined ho =>
      rcases inv.todo _ ho with h' | h'
      · exact h'
      · cases h'
    | @refers t out n d hout ht hs hg hd hb _ ih =>
      have hf : Foreign s st₀.idents (.ofText t) := by
        refine ⟨?_, hs, ⟨_, rfl⟩⟩
        rw [text_ofText]
        exact (mem_lists h.known.mem hout t).1 ht
      rcases Classical.em (Id.ofText t ∈ D) with h' | h'
      · exact h'
      · exact absurd (inv.done _ n hf (by rintro (h | h); exact h' h; cases h) hg d hd ih) hb

theorem Inv.schema {s ns : Nat} {st₀ : St} {todo₀ : List Id} (h : Ready s ns st₀ todo₀)
    {D : List Id} {x : St × List Id} (inv : Inv s ns st₀ todo₀ D x) {i : Id}
    (hi : i ∈ D ∨ i ∈ x.2) : i.schema ≠ s := by
  rcases (inv.replaced i hi).2 with ht | ⟨hf, -⟩
  · exact (h.todo i ht).1
  · exact hf.2.1

theorem redir_version {s : Nat} {D : List Id} {R : Id → Prop} (hD : ∀ i, i ∈ D ↔ R i) (n : Node) :
    Version s R n.base n (redir s D n) := by
  refine ⟨rfl, rfl, rfl, by simp [redir], ?_⟩
  intro k d d' hd hd'
  simp only [redir, List.getElem?_map, hd, Option.map_some, Option.some.injEq] at hd'
  subst hd'
  refine ⟨rfl, rfl, ?_, ?_⟩
  · intro hr hb
    exact if_pos ⟨(hD _).2 hr, hb⟩
  · intro hno
    exact if_neg fun ⟨hr, hb⟩ => hno ⟨(hD _).1 hr, hb⟩

theorem redir_targets {s : Nat} {D : List Id} (hs : ∀ i ∈ D, i.schema ≠ s) {n : Node}
    {d : Key × Link} (hd : d ∈ (redir s D n).deps) (ht : d.2.target ∈ D) :
    n.base = some d.2.target := by
  obtain ⟨d', -, rfl⟩ := List.mem_map.1 hd
  simp only [move] at ht ⊢
  split at ht
  · exact absurd rfl (hs _ ht)
  · rename_i hno
    rw [if_neg hno]
    rcases Classical.em (n.base = some d'.2.target) with hb | hb
    · exact hb
    · exact absurd ⟨ht, hb⟩ hno

/-- **C84** What resolving the redefinitions of a document does, whatever the order. -/
theorem C84_redefined_partial {s ns : Nat} {st : St} {todo : List Id} (h : Ready s ns st todo)
    (hns : SameNamespace s ns st todo) {st' : St} (hr : Resolves s (st, todo) st') :
    -- seen from the document, nothing refers to a replaced component any more, except for a
    -- component to what it redefines itself
    (∀ out, Lists st'.idents s out → ∀ t ∈ out, ∀ n, get st'.nodes (.ofText t) = some n →
      ∀ d ∈ n.deps, Replaced s st todo d.2.target → n.base = some d.2.target) ∧
    -- there is a new component for every replaced one, and it is the one that is seen
    (∀ i, Replaced s st todo i → (get st'.nodes (i.withSchema s)).isSome ∧
      ∀ out, Lists st'.idents s out → ⟨ns, s, i.kind, i.name.str⟩ ∈ out) ∧
    -- the components of the document keep their declaration
    (∀ out, Lists st.idents s out → ∀ t ∈ out, t.schema = s → ∀ n,
      get st.nodes (.ofText t) = some n → ∃ n', get st'.nodes (.ofText t) = some n' ∧
        Version s (Replaced s st todo) n.base n n') ∧
    -- the copies have the declaration of the original
    (∀ i n, Replaced s st todo i → i ∉ todo → get st.nodes i = some n →
      ∃ n', get st'.nodes (i.withSchema s) = some n' ∧
        Version s (Replaced s st todo) (some i) n n') ∧
    -- other documents do not change, and there are no other new components
    (∀ i, i.schema ≠ s → get st'.nodes i = get st.nodes i) ∧
    (∀ i, (get st'.nodes i).isSome → (get st.nodes i).isSome ∨
      ∃ j, Replaced s st todo j ∧ i = j.withSchema s) := by
  obtain ⟨D, inv⟩ := hr.inv h hns [] (inv_init h)
  have hD := inv.complete h
  have hDs : ∀ i ∈ D, i.schema ≠ s := fun i hi => inv.schema h (.inl hi)
  have hrep : ∀ i, Replaced s st todo i → i ∉ todo →
      Foreign s st.idents i ∧ (get st.nodes i).isSome := by
    intro i hi hn
    rcases (inv.replaced i (.inl ((hD i).2 hi))).2 with ht | hf
    · exact absurd ht hn
    · exact hf
  have hor : ∀ e, e ∈ D ∨ e ∈ ([] : List Id) ↔ e ∈ D := fun e => by simp
  have hdir := inv.rest
  refine ⟨?_, ?_, ?_, ?_, ?_, ?_⟩
  · intro out hout t ht n hg d hd hrd
    have hv := (mem_lists inv.known.mem hout t).1 ht
    have hdD := (hD _).2 hrd
    by_cases hc : ∃ e₀, Foreign s st.idents e₀ ∧ e₀ ∈ D ∧ e₀.key = (t.kind, t.name)
    · obtain ⟨e₀, hf, hm, hk⟩ := hc
      have hi := (hrep e₀ ((hD _).1 hm) (hf.notTodo h)).2
      obtain ⟨n₀, hn₀⟩ := Option.isSome_iff_exists.1 hi
      have he : Id.ofText t = e₀.withSchema s := by
        have hv' := visible_own inv.known ((inv.own _).2 (.inr ⟨e₀, hf, .inl hm, rfl⟩))
        rw [hk] at hv'
        simp only at hv
        rw [hv'] at hv
        have hns' := hns e₀ ((hD _).1 hm) (hf.notTodo h)
        rw [← Option.some.inj hv, ← ofText_text hf.2.2]
        simp only [Id.key, Prod.mk.injEq] at hk
        simp only [Id.ofText, Id.withSchema, Id.text, hns', hk.1, hk.2]
      rw [he, inv.copies e₀ n₀ hf (.inl hm) hn₀] at hg
      cases hg
      exact redir_targets (n := { n₀ with base := some e₀ }) hDs hd hdD
    · have hno : ∀ e, Foreign s st.idents e → e ∈ D ∨ e ∈ ([] : List Id) →
          e.key ≠ (t.kind, t.name) := fun e hf hm hk => hc ⟨e, hf, (hor e).1 hm, hk⟩
      rw [inv.visible _ hno] at hv
      by_cases hs : t.schema = s
      · have ho := (visible_schema h.known hv).1 hs
        have hh : Home s ns st.idents (.ofText t) := by
          refine ⟨hs, ?_, ho, ⟨_, rfl⟩⟩
          rw [visible_own h.known ho] at hv
          exact (congrArg TIdent.ns (Option.some.inj hv)).symm
        rw [inv.home _ hh] at hg
        cases h0 : get st.nodes (.ofText t) with
        | none => rw [h0] at hg; cases hg
        | some n₀ =>
          rw [h0] at hg
          cases hg
          exact redir_targets (n := n₀) hDs hd hdD
      · have hf : Foreign s st.idents (.ofText t) := ⟨by rw [text_ofText]; exact hv, hs, ⟨_, rfl⟩⟩
        rw [inv.rest _ (fun hh => hs hh.1) fun e _ _ _ he => hs (by
          have := congrArg Id.schema he; exact this)] at hg
        exact inv.done _ n hf (fun hm => hno _ hf hm rfl) hg d hd hdD
  · intro i hi
    have hm := (hD i).2 hi
    have hown : Own st'.idents s i.key ∧ (get st'.nodes (i.withSchema s)).isSome := by
      rcases Classical.em (i ∈ todo) with ht | ht
      · obtain ⟨hs, hn, ho, hg⟩ := h.todo i ht
        refine ⟨(inv.own _).2 (.inl ho), ?_⟩
        rcases Classical.em (Home s ns st.idents (i.withSchema s)) with hh | hh
        · rw [inv.home _ hh]
          obtain ⟨n, hn⟩ := Option.isSome_iff_exists.1 hg
          rw [hn]; rfl
        · rw [inv.rest _ hh ?_]
          · exact hg
          · intro e hf _ _ he
            refine hf.notOwn h.known ?_
            rw [← key_withSchema e s, ← he]
            exact ho
      · obtain ⟨hf, hg⟩ := hrep i hi ht
        obtain ⟨n, hn⟩ := Option.isSome_iff_exists.1 hg
        refine ⟨(inv.own _).2 (.inr ⟨i, hf, .inl hm, rfl⟩), ?_⟩
        rw [inv.copies i n hf (.inl hm) hn]
        rfl
    refine ⟨hown.2, fun out hout => ?_⟩
    exact (mem_lists inv.known.mem hout _).2 (visible_own inv.known hown.1)
  · intro out hout t ht hs n hg
    have hv := (mem_lists h.known.mem hout t).1 ht
    have ho := (visible_schema h.known hv).1 hs
    have hh : Home s ns st.idents (.ofText t) := by
      refine ⟨hs, ?_, ho, ⟨_, rfl⟩⟩
      rw [visible_own h.known ho] at hv
      exact (congrArg TIdent.ns (Option.some.inj hv)).symm
    exact ⟨_, by rw [inv.home _ hh, hg]; rfl, redir_version hD n⟩
  · intro i n hi hn hg
    obtain ⟨hf, -⟩ := hrep i hi hn
    exact ⟨_, inv.copies i n hf (.inl ((hD i).2 hi)) hg,
      redir_version hD { n with base := some i }⟩
  · intro i hs
    exact inv.rest i (fun hh => hs hh.1) fun e _ _ _ he => hs (by rw [he]; rfl)
  · intro i hi
    rcases Classical.em (Home s ns st.idents i) with hh | hh
    · rw [inv.home i hh] at hi
      left
      cases hg : get st.nodes i with
      | none => rw [hg] at hi; cases hi
      | some _ => rfl
    · rcases Classical.em (∃ e, Foreign s st.idents e ∧ e ∈ D ∧ i = e.withSchema s) with hc | hc
      · obtain ⟨e, hf, hm, he⟩ := hc
        exact .inr ⟨e, (hD e).1 hm, he⟩
      · rw [inv.rest i hh fun e hf hm _ he => hc ⟨e, hf, (hor e).1 hm, he⟩] at hi
        exact .inl hi

theorem redir_congr {s : Nat} {D D' : List Id} (h : ∀ i, i ∈ D ↔ i ∈ D') (n : Node) :
    redir s D n = redir s D' n := by
  unfold redir move
  simp only [h]

/-- **C84** The result does not depend on the order in which the sets are enumerated: the same
components with the same dependencies, and the same names are seen. -/
theorem C84_order_irrelevant {s ns : Nat} {st : St} {todo : List Id} (h : Ready s ns st todo)
    (hns : SameNamespace s ns st todo) {st₁ st₂ : St} (h₁ : Resolves s (st, todo) st₁)
    (h₂ : Resolves s (st, todo) st₂) :
    (∀ i, get st₁.nodes i = get st₂.nodes i) ∧
    (∀ out₁ out₂, Lists st₁.idents s out₁ → Lists st₂.idents s out₂ → ∀ t, t ∈ out₁ ↔ t ∈ out₂) := by
  obtain ⟨D₁, inv₁⟩ := h₁.inv h hns [] (inv_init h)
  obtain ⟨D₂, inv₂⟩ := h₂.inv h hns [] (inv_init h)
  have hD : ∀ i, i ∈ D₁ ↔ i ∈ D₂ := fun i => by rw [inv₁.complete h, inv₂.complete h]
  have hor : ∀ (D : List Id) e, e ∈ D ∨ e ∈ ([] : List Id) ↔ e ∈ D := fun D e => by simp
  constructor
  · intro i
    rcases Classical.em (Home s ns st.idents i) with hh | hh
    · rw [inv₁.home i hh, inv₂.home i hh]
      congr 1
      funext n
      exact redir_congr hD n
    · rcases Classical.em (∃ e n, Foreign s st.idents e ∧ e ∈ D₁ ∧ get st.nodes e = some n ∧
        i = e.withSchema s) with hc | hc
      · obtain ⟨e, n, hf, hm, hg, rfl⟩ := hc
        rw [inv₁.copies e n hf (.inl hm) hg, inv₂.copies e n hf (.inl ((hD e).1 hm)) hg,
          redir_congr hD]
      · rw [inv₁.rest i hh, inv₂.rest i hh]
        · intro e hf hm hg he
          obtain ⟨n, hg⟩ := Option.isSome_iff_exists.1 hg
          exact hc ⟨e, n, hf, (hD e).2 ((hor _ _).1 hm), hg, he⟩
        · intro e hf hm hg he
          obtain ⟨n, hg⟩ := Option.isSome_iff_exists.1 hg
          exact hc ⟨e, n, hf, (hor _ _).1 hm, hg, he⟩
  · intro out₁ out₂ ho₁ ho₂ t
    rw [mem_lists inv₁.known.mem ho₁, mem_lists inv₂.known.mem ho₂]
    have : visible st₁.idents s (t.kind, t.name) = visible st₂.idents s (t.kind, t.name) := by
      rcases Classical.em (Own st₁.idents s (t.kind, t.name)) with ho | ho
      · have ho' : Own st₂.idents s (t.kind, t.name) := by
          rw [inv₁.own] at ho
          rw [inv₂.own]
          rcases ho with ho | ⟨e, hf, hm, hk⟩
          · exact .inl ho
          · exact .inr ⟨e, hf, .inl ((hD e).1 ((hor _ _).1 hm)), hk⟩
        rw [visible_own inv₁.known ho, visible_own inv₂.known ho']
      · have hno : ∀ e, Foreign s st.idents e → e ∈ D₁ → e.key ≠ (t.kind, t.name) :=
          fun e hf hm hk => ho ((inv₁.own _).2 (.inr ⟨e, hf, .inl hm, hk⟩))
        rw [inv₁.visible _ fun e hf hm => hno e hf ((hor _ _).1 hm),
          inv₂.visible _ fun e hf hm => hno e hf ((hD e).2 ((hor _ _).1 hm))]
    rw [this]

/-! ## The loop ends -/

/-- One round, in any order. -/
def Step (s : Nat) (x y : St × List Id) : Prop :=
  ∃ old out listed, old ∈ x.2 ∧ Lists x.1.idents s out ∧ listed.Perm out ∧ y = round s old listed x

theorem filter_le {α : Type} (l : List α) (p q : α → Bool) (h : ∀ a ∈ l, p a = true → q a = true) :
    (l.filter p).length ≤ (l.filter q).length := by
  induction l with
  | nil => simp
  | cons a l ih =>
    have := ih fun b hb => h b (List.mem_cons_of_mem _ hb)
    have ha := h a List.mem_cons_self
    cases hp : p a <;> cases hq : q a <;> simp_all <;> omega

theorem filter_lt {α : Type} (l : List α) (p q : α → Bool) (h : ∀ a ∈ l, p a = true → q a = true)
    {x : α} (hx : x ∈ l) (hq : q x = true) (hp : p x = false) :
    (l.filter p).length < (l.filter q).length := by
  induction l with
  | nil => cases hx
  | cons a l ih =>
    have hle := filter_le l p q fun b hb => h b (List.mem_cons_of_mem _ hb)
    rcases List.mem_cons.1 hx with rfl | hx
    · simp [hp, hq]; omega
    · have := ih (fun b hb => h b (List.mem_cons_of_mem _ hb)) hx
      have ha := h a List.mem_cons_self
      cases hpa : p a <;> cases hqa : q a <;> simp_all <;> omega

theorem redirectOne_keeps (s : Nat) (old : Id) (x : St × List Id) (e : Id) {i : Id} (h : i ∈ x.2) :
    i ∈ (redirectOne s old x e).2 := by
  cases hw : written s old x.1.nodes e with
  | none => rw [redirectOne_none hw]; exact h
  | some v =>
    rw [(redirectOne_some hw).2.2]
    split
    · exact h
    · exact (mem_setInsert _ _ _).2 (.inr h)

theorem round_keeps (s : Nat) (old : Id) (listed : List TIdent) (x : St × List Id) {i : Id}
    (h : i ∈ x.2) (hne : i ≠ old) : i ∈ (round s old listed x).2 := by
  unfold round
  have hm : i ∈ (x.1, x.2.filter (· ≠ old)).2 := List.mem_filter.2 ⟨h, by simpa using hne⟩
  generalize (x.1, x.2.filter (· ≠ old)) = y at hm
  induction listed.map Id.ofText generalizing y with
  | nil => exact hm
  | cons e es ih => exact ih _ (redirectOne_keeps s old y e hm)

theorem acc_step {s ns : Nat} {st₀ : St} {todo₀ : List Id} (h : Ready s ns st₀ todo₀)
    (hns : SameNamespace s ns st₀ todo₀) (F : List Id)
    (hF : ∀ e, Foreign s st₀.idents e → e ∈ F) : ∀ (a b : Nat) (D : List Id) (x : St × List Id),
    Inv s ns st₀ todo₀ D x →
    (F.filter fun e => decide (¬ (e ∈ D ∨ e ∈ x.2))).length ≤ a → x.2.length ≤ b →
    Acc (fun y x => Step s x y) x := by
  intro a
  induction a using Nat.strongRecOn with
  | _ a iha =>
    intro b
    induction b using Nat.strongRecOn with
    | _ b ihb =>
      intro D x inv ha hb
      constructor
      rintro y ⟨old, out, listed, hold, hl, hp, rfl⟩
      obtain ⟨inv', hnew, hsame⟩ := inv_step h hns inv hold hl hp
      have hmono : ∀ e, e ∈ D ∨ e ∈ x.2 →
          e ∈ old :: D ∨ e ∈ (round s old listed x).2 := by
        intro e he
        rcases Classical.em (∀ e, e ∈ (round s old listed x).2 → e ∈ x.2) with hsub | hsub
        · rw [hsame hsub]
          rcases he with he | he
          · exact .inl (List.mem_cons_of_mem _ he)
          · by_cases heo : e = old
            · exact .inl (heo ▸ List.mem_cons_self)
            · exact .inr (List.mem_filter.2 ⟨he, by simpa using heo⟩)
        · rcases he with he | he
          · exact .inl (List.mem_cons_of_mem _ he)
          · by_cases heo : e = old
            · exact .inl (heo ▸ List.mem_cons_self)
            · exact .inr (round_keeps s old listed x he heo)
      rcases Classical.em (∀ e, e ∈ (round s old listed x).2 → e ∈ x.2) with hsub | hsub
      · have hlt : (round s old listed x).2.length < b := by
          rw [hsame hsub]
          refine Nat.lt_of_lt_of_le ?_ hb
          have := filter_lt x.2 (fun e => decide (e ≠ old)) (fun _ => true) (fun _ _ _ => rfl) hold
            rfl (by simp)
          exact Nat.lt_of_lt_of_le this (List.length_filter_le _ _)
        refine ihb _ hlt _ _ inv' ?_ (Nat.le_refl _)
        refine Nat.le_trans (filter_le _ _ _ ?_) ha
        intro e _ he
        simp only [decide_eq_true_eq] at he ⊢
        exact fun hc => he (hmono e hc)
      · have ⟨e, he⟩ := Classical.not_forall.1 hsub
        have ⟨he, hne⟩ := Classical.not_imp.1 he
        have hlt : (F.filter fun e => decide (¬ (e ∈ old :: D ∨
            e ∈ (round s old listed x).2))).length < a := by
          refine Nat.lt_of_lt_of_le (filter_lt (x := e) _ _ _ ?_ ?_ ?_ ?_) ha
          · intro e _ he
            simp only [decide_eq_true_eq] at he ⊢
            exact fun hc => he (hmono e hc)
          · rcases hnew e he with h' | ⟨hf, -⟩
            · exact absurd h' hne
            · exact hF e hf
          · rcases hnew e he with h' | ⟨-, hr⟩
            · exact absurd h' hne
            · simpa using hr
          · simp [he]
        exact iha _ hlt _ _ _ inv' (Nat.le_refl _) (Nat.le_refl _)

/-- **C84** Resolving the redefinitions ends, in every order: there is no infinite sequence of
rounds, and as long as there is something to do there is a next round. -/
theorem C84_terminates {s ns : Nat} {st : St} {todo : List Id} (h : Ready s ns st todo)
    (hns : SameNamespace s ns st todo) :
    Acc (fun y x => Step s x y) (st, todo) ∧ ∃ st', Resolves s (st, todo) st' := by
  obtain ⟨out, hout⟩ := lists_exists h.known.mem
  have hacc : Acc (fun y x => Step s x y) (st, todo) := by
    refine acc_step h hns (out.map Id.ofText) ?_ _ _ [] _ (inv_init h) (Nat.le_refl _)
      (Nat.le_refl _)
    intro e hf
    rw [← ofText_text hf.2.2]
    exact List.mem_map.2 ⟨_, (mem_lists h.known.mem hout _).2 hf.1, rfl⟩
  refine ⟨hacc, ?_⟩
  have : ∀ (x : St × List Id), Acc (fun y x => Step s x y) x → ∀ D, Inv s ns st todo D x →
      ∃ st', Resolves s x st' := by
    intro x hx
    induction hx with
    | intro x _ ih =>
      intro D inv
      obtain ⟨st', l⟩ := x
      cases l with
      | nil => exact ⟨st', .done _⟩
      | cons old l =>
        obtain ⟨out, hout⟩ := lists_exists inv.known.mem
        have hold : old ∈ old :: l := List.mem_cons_self
        obtain ⟨st'', hr⟩ := ih _ ⟨old, out, out, hold, hout, .refl _, rfl⟩ _
          (inv_step h hns inv hold hout (.refl _)).1
        exact ⟨st'', .round hold hout (.refl _) hr⟩
  exact this _ hacc [] (inv_init h)

/-- The order of the executable model is one of the orders. -/
theorem resolveDeps_resolves (s : Nat) : ∀ (fuel : Nat) (x : St × List Id) (st' : St),
    resolveDeps s fuel x = some st' → Resolves s x st' := by
  intro fuel
  induction fuel with
  | zero =>
    rintro ⟨st, l⟩ st' hr
    cases l with
    | nil => simp only [resolveDeps, Option.some.injEq] at hr; subst hr; exact .done _
    | cons => simp [resolveDeps] at hr
  | succ fuel ih =>
    rintro ⟨st, l⟩ st' hr
    cases l with
    | nil => simp only [resolveDeps, Option.some.injEq] at hr; subst hr; exact .done _
    | cons old l =>
      simp only [resolveDeps] at hr
      cases hi : st.idents.iterRun 1000 (st.idents.iterNew s) with
      | none => rw [hi] at hr; cases hr
      | some out =>
        rw [hi] at hr
        exact .round List.mem_cons_self ⟨_, hi⟩ (.refl _) (ih _ _ hr)

end Verif.NodeCache

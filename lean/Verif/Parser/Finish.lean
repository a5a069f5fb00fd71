import Verif.Parser.Loading

/-!
# The result of loading (C24, C26, C27)

Termination of the loading, where the documents come from, and `Parser::finish`:
`SchemasBuilder`, xsd-parser/src/pipeline/parser/mod.rs 100-118 and 621-785 (the prefixes are in
`Verif.Parser.Prefixes`).
-/

namespace Verif.Parser

open Verif.Assoc Verif.Models Verif.Dfs

/-! ## Termination -/

theorem addLinks_cache (loc target : Option Txt) (links : List Link) : ∀ p,
    (links.foldl (addLink loc target) p).1.cache = p.1.cache ∧
    (links.foldl (addLink loc target) p).1.entries = p.1.entries := by
  induction links with
  | nil => intro p; exact ⟨rfl, rfl⟩
  | cons l ls ih =>
    intro p
    rw [List.foldl_cons]
    obtain ⟨a, b⟩ := ih (addLink loc target p l)
    exact ⟨a, b⟩

theorem addSchema_cache (st : St) (id : Nat) (doc : Doc) (loc : Option Txt) :
    (addSchema st id doc loc).cache = st.cache := by
  unfold addSchema
  by_cases h : st.resolveIncludes = true
  · simp only [if_pos h]; exact (addLinks_cache loc doc.target doc.links (st, [])).1
  · simp only [if_neg h]

/-- A request either meets a known location, or adds one. -/
theorem resolveLocation_progress {W : World} {L : List Txt}
    (hL : ∀ r l, W.locate r = some l → l ∈ L) {st st' : St} {id : Nat} {req : Req}
    (h : resolveLocation W st id req = .ok st') :
    (unseen L (keys st'.cache) ≤ unseen L (keys st.cache) ∧ st'.pending = st.pending) ∨
    unseen L (keys st'.cache) < unseen L (keys st.cache) := by
  unfold resolveLocation at h
  cases hl : W.locate req with
  | none => rw [hl] at h; cases h
  | some l =>
    rw [hl] at h
    simp only at h
    cases hg : get st.cache l with
    | some ids =>
      rw [hg] at h
      simp only [Except.ok.injEq] at h
      subst h
      refine Or.inl ⟨unseen_mono _ ?_, rfl⟩
      intro x hx
      rw [mem_keys_upsert]; exact Or.inr hx
    | none =>
      rw [hg] at h
      simp only at h
      cases hd : W.doc l with
      | none => rw [hd] at h; cases h
      | some doc =>
        rw [hd] at h
        simp only at h
        cases he : effective l req doc with
        | error e => rw [he] at h; cases h
        | ok doc' =>
          rw [he] at h
          simp only [Except.ok.injEq] at h
          subst h
          right
          simp only [addSchema_cache]
          have hnot : l ∉ keys st.cache := (get_eq_none _ _).1 hg
          refine Nat.lt_of_le_of_lt (unseen_mono L (vis := l :: keys st.cache) ?_)
            (unseen_lt L (keys st.cache) l (hL _ _ hl) hnot)
          intro x hx
          rw [mem_keys_upsert]
          rcases List.mem_cons.1 hx with h | h
          · exact Or.inl h
          · exact Or.inr h

theorem resolvePending_ends {W : World} {L : List Txt}
    (hL : ∀ r l, W.locate r = some l → l ∈ L) : ∀ (u p : Nat) (st : St),
    unseen L (keys st.cache) = u → st.pending.length = p →
    ∃ n r, ∀ k, resolvePending W (n + k) st = some r := by
  intro u
  induction u using Nat.strongRecOn with
  | ind u ihu =>
    intro p
    induction p with
    | zero =>
      intro st _ hp
      refine ⟨1, .ok st, fun k => ?_⟩
      rw [Nat.add_comm, resolvePending, List.eq_nil_of_length_eq_zero hp]
    | succ p ihp =>
      intro st hu hp
      match hps : st.pending, hp with
      | (id, req) :: ps, hp =>
        cases hr : resolveLocation W { st with pending := ps } id req with
        | error e =>
          refine ⟨1, .error e, fun k => ?_⟩
          rw [Nat.add_comm, resolvePending, hps]
          simp only [hr]
        | ok st1 =>
          have hn : ∃ n r, ∀ k, resolvePending W (n + k) st1 = some r := by
            rcases resolveLocation_progress hL hr with ⟨h1, h2⟩ | h1
            · rcases Nat.lt_or_eq_of_le h1 with h1 | h1
              · exact ihu _ (hu ▸ h1) _ st1 rfl rfl
              · refine ihp st1 (h1.trans hu) ?_
                rw [h2]; simpa using hp
            · exact ihu _ (hu ▸ h1) _ st1 rfl rfl
          obtain ⟨n, r, hn⟩ := hn
          refine ⟨n + 1, r, fun k => ?_⟩
          rw [show n + 1 + k = (n + k) + 1 by omega, resolvePending, hps]
          simp only [hr]
          exact hn k

theorem act_ends {W : World} {L : List Txt} (hL : ∀ r l, W.locate r = some l → l ∈ L) (st : St)
    (a : Act) : ∃ n r, ∀ k, act W (n + k) st a = some r := by
  cases a with
  | anonymous => exact ⟨0, _, fun _ => rfl⟩
  | ns p u => exact ⟨0, _, fun _ => rfl⟩
  | str doc => exact resolvePending_ends hL _ _ _ rfl rfl
  | url u =>
    simp only [act]
    cases resolveLocation W { st with next := st.next + 1 } st.next { loc := u, kind := .user } with
    | error e => exact ⟨0, _, fun _ => rfl⟩
    | ok st1 => exact resolvePending_ends hL _ _ _ rfl rfl

/-- **C24** Loading ends for every finite set of locations, whatever the documents refer to:
with enough rounds, the answer is there and does not depend on their number. -/
theorem C24_loading_ends {W : World} {L : List Txt} (hL : ∀ r l, W.locate r = some l → l ∈ L)
    (acts : List Act) : ∀ st : St, ∃ n r, ∀ k, session W (n + k) st acts = some r := by
  induction acts with
  | nil => intro st; exact ⟨0, _, fun _ => rfl⟩
  | cons a as ih =>
    intro st
    obtain ⟨n, r, hn⟩ := act_ends hL st a
    cases r with
    | error e =>
      refine ⟨n, .error e, fun k => ?_⟩
      rw [session, hn k]
    | ok st1 =>
      obtain ⟨m, r, hm⟩ := ih st1
      refine ⟨n + m, r, fun k => ?_⟩
      rw [session, show n + m + k = n + (m + k) by omega, hn (m + k)]
      simp only
      rw [show n + (m + k) = m + (n + k) by omega]
      exact hm (n + k)

/-! ## Where the documents come from -/

/-- A request made by the user, or for a reference of a loaded document. -/
def Origin (es : List PEntry) (req : Req) : Prop :=
  (req.kind = .user ∧ req.curNs = none) ∨
  ∃ s ∈ schemasOf es, ∃ link ∈ s.doc.links, req = s.req link

structure TInv (W : World) (st : St) (P : List (Nat × Req)) : Prop where
  pend : ∀ p ∈ P, Origin st.entries p.2
  from_ : ∀ s ∈ schemasOf st.entries, ∀ l, s.loc = some l → ∃ d req, W.doc l = some d ∧
    W.locate req = some l ∧ effective l req d = .ok s.doc ∧ Origin st.entries req

theorem schemasOf_append (a b : List PEntry) : schemasOf (a ++ b) = schemasOf a ++ schemasOf b := by
  simp [schemasOf]

theorem Origin.mono {es : List PEntry} {req : Req} (h : Origin es req) (es' : List PEntry) :
    Origin (es ++ es') req := by
  rcases h with h | ⟨s, hs, x⟩
  · exact Or.inl h
  · exact Or.inr ⟨s, by rw [schemasOf_append]; exact List.mem_append_left _ hs, x⟩

theorem addSchema_shape (st : St) (id : Nat) (doc : Doc) (loc : Option Txt) :
    ∃ N deps next, addSchema st id doc loc = { st with
        next := next, pending := st.pending ++ N,
        entries := st.entries ++ [.schema ⟨id, doc, loc, deps⟩] } ∧
      ∀ p ∈ N, ∃ l ∈ doc.links, p.2 = linkReq loc doc.target l := by
  have key : ∀ (links : List Link), ∃ N deps next,
      links.foldl (addLink loc doc.target) (st, []) =
        ({ st with next := next, pending := st.pending ++ N }, deps) ∧
      ∀ p ∈ N, ∃ l ∈ links, p.2 = linkReq loc doc.target l := by
    intro links
    induction links using rev_induct with
    | nil => exact ⟨[], [], st.next, by simp, by simp⟩
    | snoc ls l ih =>
      obtain ⟨N, deps, next, h1, h2⟩ := ih
      refine ⟨N ++ [(next, linkReq loc doc.target l)],
        upsert deps l.at_ fun _ => (l.kind, next), next + 1, ?_, ?_⟩
      · rw [List.foldl_append, h1]
        simp only [List.foldl_cons, List.foldl_nil, addLink, List.append_assoc]
      · intro p hp
        rcases List.mem_append.1 hp with hp | hp
        · obtain ⟨l', a, b⟩ := h2 p hp
          exact ⟨l', List.mem_append_left _ a, b⟩
        · simp at hp; subst hp
          exact ⟨l, by simp, rfl⟩
  unfold addSchema
  by_cases hri : st.resolveIncludes = true
  · obtain ⟨N, deps, next, h1, h2⟩ := key doc.links
    refine ⟨N, deps, next, ?_, h2⟩
    simp only [if_pos hri, h1]
  · refine ⟨[], [], st.next, ?_, by simp⟩
    simp only [if_neg hri, List.append_nil]

theorem place_tinv {W : World} {st : St} {P : List (Nat × Req)} {id : Nat} {doc : Doc}
    {loc : Option Txt} (inv : TInv W st P) (hsub : ∀ p ∈ st.pending, p ∈ P)
    (hloc : ∀ l, loc = some l → ∃ d req, W.doc l = some d ∧ W.locate req = some l ∧
      effective l req d = .ok doc ∧ Origin st.entries req) :
    TInv W (addSchema st id doc loc) (addSchema st id doc loc).pending ∧
      ∃ deps, (addSchema st id doc loc).entries = st.entries ++ [.schema ⟨id, doc, loc, deps⟩] := by
  obtain ⟨N, deps, next, h1, h2⟩ := addSchema_shape st id doc loc
  rw [h1]
  refine ⟨⟨?_, ?_⟩, deps, rfl⟩
  · intro p hp
    rcases List.mem_append.1 hp with hp | hp
    · exact (inv.pend p (hsub p hp)).mono _
    · obtain ⟨l, hl, e⟩ := h2 p hp
      refine Or.inr ⟨⟨id, doc, loc, deps⟩, ?_, l, hl, e⟩
      simp only [schemasOf_snoc]; simp
  · intro s hs l hsl
    simp only [schemasOf_snoc] at hs
    rcases List.mem_append.1 hs with hs | hs
    · obtain ⟨d, req, a, b, c, e⟩ := inv.from_ s hs l hsl
      exact ⟨d, req, a, b, c, e.mono _⟩
    · simp at hs; subst hs
      obtain ⟨d, req, a, b, c, e⟩ := hloc l hsl
      exact ⟨d, req, a, b, c, e.mono _⟩

theorem resolveLocation_tinv {W : World} {st st' : St} {id : Nat} {req : Req}
    (inv : TInv W st st.pending) (hreq : Origin st.entries req)
    (h : resolveLocation W st id req = .ok st') :
    TInv W st' st'.pending ∧ (∃ es, st'.entries = st.entries ++ es) ∧
      ∃ l, W.locate req = some l ∧ l ∈ keys st'.cache := by
  unfold resolveLocation at h
  cases hl : W.locate req with
  | none => rw [hl] at h; cases h
  | some l =>
    rw [hl] at h
    simp only at h
    cases hg : get st.cache l with
    | some ids =>
      rw [hg] at h
      simp only [Except.ok.injEq] at h
      subst h
      exact ⟨⟨inv.pend, inv.from_⟩, ⟨[], by simp⟩, l, rfl, (mem_keys_upsert _ _ _ _).2 (Or.inl rfl)⟩
    | none =>
      rw [hg] at h
      simp only at h
      cases hd : W.doc l with
      | none => rw [hd] at h; cases h
      | some doc =>
        rw [hd] at h
        simp only at h
        cases he : effective l req doc with
        | error e => rw [he] at h; cases h
        | ok doc' =>
          rw [he] at h
          simp only [Except.ok.injEq] at h
          subst h
          obtain ⟨t, deps, e⟩ := place_tinv (id := id) (doc := doc') (loc := some l) inv (fun p h => h) (by
            intro l' hl'
            simp only [Option.some.injEq] at hl'
            subst hl'
            exact ⟨doc, req, hd, hl, he, hreq⟩)
          exact ⟨⟨t.pend, t.from_⟩, ⟨_, e⟩, l, rfl, (mem_keys_upsert _ _ _ _).2 (Or.inl rfl)⟩

theorem resolvePending_tinv {W : World} (n : Nat) : ∀ {st st' : St},
    TInv W st st.pending → resolvePending W n st = some (.ok st') →
    TInv W st' [] ∧ ∃ es, st'.entries = st.entries ++ es := by
  induction n with
  | zero => intro st st' _ h; cases h
  | succ n ih =>
    intro st st' inv h
    simp only [resolvePending] at h
    cases hp : st.pending with
    | nil =>
      rw [hp] at h
      simp only [Option.some.injEq, Except.ok.injEq] at h
      subst h
      exact ⟨⟨by simp, inv.from_⟩, [], by simp⟩
    | cons p ps =>
      obtain ⟨id, req⟩ := p
      rw [hp] at h inv
      simp only at h
      cases hr : resolveLocation W { st with pending := ps } id req with
      | error e => rw [hr] at h; cases h
      | ok st1 =>
        rw [hr] at h
        simp only at h
        obtain ⟨t, ⟨es, e⟩, -⟩ := resolveLocation_tinv (st := { st with pending := ps })
          ⟨fun p hp => inv.pend p (List.mem_cons_of_mem _ hp), inv.from_⟩
          (inv.pend (id, req) (by simp)) hr
        obtain ⟨t', es', e'⟩ := ih t h
        exact ⟨t', es ++ es', by rw [e', e, List.append_assoc]⟩

/-- What a call of the user loads. -/
def Present (W : World) (es : List PEntry) : Act → Prop
  | .anonymous => PEntry.anonymous ∈ es
  | .ns p u => PEntry.ns p u ∈ es
  | .str doc => ∃ s ∈ schemasOf es, s.loc = none ∧ s.doc = doc
  | .url u => ∃ l, W.locate { loc := u, kind := .user } = some l ∧ ∃ s ∈ schemasOf es, s.loc = some l

theorem Present.mono {W : World} {es : List PEntry} {a : Act} (h : Present W es a)
    (es' : List PEntry) : Present W (es ++ es') a := by
  cases a with
  | anonymous => exact List.mem_append_left _ h
  | ns p u => exact List.mem_append_left _ h
  | str doc =>
    obtain ⟨s, a, b⟩ := h
    exact ⟨s, by rw [schemasOf_append]; exact List.mem_append_left _ a, b⟩
  | url u =>
    obtain ⟨l, x, s, a, b⟩ := h
    exact ⟨l, x, s, by rw [schemasOf_append]; exact List.mem_append_left _ a, b⟩

theorem TInv.entries {W : World} {st : St} (inv : TInv W st []) {e : PEntry}
    (h : schemasOf [e] = []) : TInv W { st with entries := st.entries ++ [e] } [] := by
  refine ⟨by simp, ?_⟩
  intro s hs l hsl
  simp only [schemasOf_append, h, List.append_nil] at hs
  obtain ⟨d, req, a, b, c, o⟩ := inv.from_ s hs l hsl
  exact ⟨d, req, a, b, c, o.mono _⟩

theorem act_tinv {W : World} {fuel : Nat} {a : Act} {st st' : St} {own : Nat → Owner}
    (linv : LInv W st [] own) (inv : TInv W st []) (hp : st.pending = [])
    (h : act W fuel st a = some (.ok st')) :
    TInv W st' [] ∧ (∃ es, st'.entries = st.entries ++ es) ∧ Present W st'.entries a := by
  cases a with
  | anonymous =>
    simp only [act, Option.some.injEq, Except.ok.injEq] at h
    subst h
    exact ⟨inv.entries rfl, ⟨_, rfl⟩, by simp [Present]⟩
  | ns p u =>
    simp only [act, Option.some.injEq, Except.ok.injEq] at h
    subst h
    exact ⟨inv.entries rfl, ⟨_, rfl⟩, by simp [Present]⟩
  | str doc =>
    simp only [act] at h
    obtain ⟨t, deps, e⟩ := place_tinv (W := W) (st := { st with next := st.next + 1 })
      (P := []) (id := st.next) (doc := doc) (loc := none) ⟨by simp, inv.from_⟩ (by simp [hp]) (by simp)
    obtain ⟨t', es, e'⟩ := resolvePending_tinv fuel t h
    refine ⟨t', ⟨_, by rw [e', e, List.append_assoc]⟩, ?_⟩
    rw [e']
    refine Present.mono (a := .str doc) ?_ es
    rw [e]
    exact ⟨⟨st.next, doc, none, deps⟩, by rw [schemasOf_snoc]; simp, rfl, rfl⟩
  | url u =>
    simp only [act] at h
    cases hr : resolveLocation W { st with next := st.next + 1 } st.next
        { loc := u, kind := .user } with
    | error e => rw [hr] at h; cases h
    | ok st1 =>
      rw [hr] at h
      simp only at h
      obtain ⟨t, ⟨es, e⟩, l, hl, hk⟩ := resolveLocation_tinv (W := W)
        (st := { st with next := st.next + 1 }) ⟨by simp [hp], inv.from_⟩ (Or.inl ⟨rfl, rfl⟩) hr
      obtain ⟨own1, inv1⟩ := fresh_inv linv hp { loc := u, kind := .user }
      obtain ⟨own2, inv2⟩ := resolveLocation_inv inv1 hr
      obtain ⟨t', es', e'⟩ := resolvePending_tinv fuel t h
      refine ⟨t', ⟨es ++ es', by rw [e', e, List.append_assoc]⟩, ?_⟩
      rw [e']
      refine Present.mono (a := .url u) ?_ es'
      exact ⟨l, hl, inv2.cached l hk⟩

theorem session_tinv {W : World} {fuel : Nat} (acts : List Act) : ∀ {st st' : St} {own : Nat → Owner},
    LInv W st [] own → TInv W st [] → st.pending = [] → session W fuel st acts = some (.ok st') →
    TInv W st' [] ∧ (∃ es, st'.entries = st.entries ++ es) ∧
      ∀ a ∈ acts, Present W st'.entries a := by
  induction acts with
  | nil =>
    intro st st' own _ inv hp h
    simp only [session, Option.some.injEq, Except.ok.injEq] at h
    subst h
    exact ⟨inv, ⟨[], by simp⟩, by simp⟩
  | cons a as ih =>
    intro st st' own linv inv hp h
    simp only [session] at h
    cases ha : act W fuel st a with
    | none => rw [ha] at h; cases h
    | some r =>
      cases r with
      | error e => rw [ha] at h; cases h
      | ok st1 =>
        rw [ha] at h
        obtain ⟨hp1, own1, linv1⟩ := act_inv linv hp ha
        obtain ⟨inv1, ⟨es, e⟩, pr⟩ := act_tinv linv inv hp ha
        obtain ⟨inv2, ⟨es', e'⟩, prs⟩ := ih linv1 inv1 hp1 h
        refine ⟨inv2, ⟨es ++ es', by rw [e', e, List.append_assoc]⟩, ?_⟩
        intro b hb
        rcases List.mem_cons.1 hb with rfl | hb
        · rw [e']; exact pr.mono es'
        · exact prs b hb

/-! ## `finish` -/

/-- `SchemaInfo`, models/schema/mod.rs. -/
structure SInfo where
  doc : Doc
  loc : Option Txt
  nsId : Nat
  deps : List (Txt × LinkKind × Nat)
deriving DecidableEq, Repr

/-- `NamespaceInfo`, models/schema/mod.rs (the prefix is in `Verif.Parser.Prefixes`). -/
structure NsInfo where
  uri : Option Txt
  schemas : List Nat := []
deriving DecidableEq, Repr

/-- `Schemas`, models/schema/mod.rs:40-48; `lastNs` starts at `NamespaceId::ANONYMOUS`. -/
structure Out where
  schemas : List (Nat × SInfo) := []
  infos : List (Nat × NsInfo) := []
  known : List (Option Txt × Nat) := []
  lastNs : Nat := 1
deriving DecidableEq, Repr

/-- The temporary ids that stand for a schema entry, in the order in which they are inserted. -/
def idsOf (cache : List (Txt × List Nat)) (s : PSchema) : List Nat :=
  s.id :: ((s.loc.bind (get cache)).getD [])

/-- `build_id_cache`, mod.rs:653-673; `next_schema_id` counts from one. -/
def idCache (cache : List (Txt × List Nat)) (ss : List PSchema) : List (Nat × Nat) :=
  (ss.foldl (fun (p : List (Nat × Nat) × Nat) s =>
    ((idsOf cache s).foldl (fun m i => upsert m i fun _ => p.2 + 1) p.1, p.2 + 1)) ([], 0)).1

/-- `get_or_create_namespace_info_mut`, mod.rs:754-785; `none` is a panic. -/
def Out.namespace (o : Out) (ns : Option Txt) : Option (Nat × Out) :=
  match get o.known ns with
  | some id => if (get o.infos id).isSome then some (id, o) else none
  | none =>
    let last := if ns.isNone then o.lastNs else o.lastNs + 1
    let id := if ns.isNone then 1 else last
    if (get o.infos id).isSome then none
    else some (id, { o with
      lastNs := last
      known := upsert o.known ns fun _ => id
      infos := upsert o.infos id fun _ => { uri := ns } })

/-- `add_schema` of the builder, mod.rs:718-752; `none` is a panic. -/
def Out.addSchema (o : Out) (idc : List (Nat × Nat)) (s : PSchema) : Option Out :=
  match get idc s.id with
  | none => none
  | some id =>
    match o.namespace s.doc.target with
    | none => none
    | some (nsId, o) =>
      let o := { o with infos := upsert o.infos nsId fun i =>
        { (i.getD { uri := none }) with schemas := (i.getD { uri := none }).schemas ++ [id] } }
      let deps := s.deps.filterMap fun (a, k, d) => (get idc d).map fun d => (a, k, d)
      if (get o.schemas id).isSome then none
      else some { o with schemas := upsert o.schemas id fun _ => ⟨s.doc, s.loc, nsId, deps⟩ }

/-- One entry in `build`, mod.rs:626-645. -/
def Out.addEntry (idc : List (Nat × Nat)) (o : Out) : PEntry → Option Out
  | .anonymous => (o.namespace none).map (·.2)
  | .ns _ u => (o.namespace (some u)).map (·.2)
  | .schema s => o.addSchema idc s

def Out.addEntries (idc : List (Nat × Nat)) (o : Option Out) (es : List PEntry) : Option Out :=
  es.foldl (fun o e => o.bind fun o => o.addEntry idc e) o

/-- `Parser::finish`, mod.rs:184-200 and 621-651, up to `determine_prefixes`. -/
def finish (st : St) : Option Out :=
  Out.addEntries (idCache st.cache (schemasOf st.entries)) (some {}) st.entries

theorem foldl_upsert_get (ids : List Nat) (v : Nat) : ∀ (m : List (Nat × Nat)) (i : Nat),
    get (ids.foldl (fun m i => upsert m i fun _ => v) m) i =
      if i ∈ ids then some v else get m i := by
  induction ids with
  | nil => intro m i; simp
  | cons a ids ih =>
    intro m i
    rw [List.foldl_cons, ih, get_upsert]
    by_cases h : i ∈ ids
    · simp [h]
    · by_cases h' : a = i
      · simp [h']
      · have : i ≠ a := fun hc => h' hc.symm
        simp [h, h', this]

/-- With disjoint sets of temporary ids, each one stands for its entry. -/
theorem idCache_spec (cache : List (Txt × List Nat)) (ss : List PSchema)
    (hd : ∀ (j k : Nat) (s t : PSchema), ss[j]? = some s → ss[k]? = some t →
      (∃ i, i ∈ idsOf cache s ∧ i ∈ idsOf cache t) → j = k) (i v : Nat) :
    get (idCache cache ss) i = some v ↔ ∃ k s, ss[k]? = some s ∧ i ∈ idsOf cache s ∧ v = k + 1 := by
  have key : ∀ ss : List PSchema, (∀ (j k : Nat) (s t : PSchema), ss[j]? = some s → ss[k]? = some t →
      (∃ i, i ∈ idsOf cache s ∧ i ∈ idsOf cache t) → j = k) →
      ∃ m, ss.foldl (fun (p : List (Nat × Nat) × Nat) s =>
        ((idsOf cache s).foldl (fun m i => upsert m i fun _ => p.2 + 1) p.1, p.2 + 1)) ([], 0)
        = (m, ss.length) ∧
      ∀ i v, get m i = some v ↔ ∃ k s, ss[k]? = some s ∧ i ∈ idsOf cache s ∧ v = k + 1 := by
    intro ss
    induction ss using rev_induct with
    | nil => intro _; exact ⟨[], rfl, by simp [Assoc.get]⟩
    | snoc ss s ih =>
      intro hd
      have hlift : ∀ (j : Nat) (t : PSchema), ss[j]? = some t → (ss ++ [s])[j]? = some t := by
        intro j t h
        obtain ⟨hlt, -⟩ := List.getElem?_eq_some_iff.1 h
        rw [List.getElem?_append_left hlt]; exact h
      obtain ⟨m, hm, hg⟩ := ih (fun j k a b ha hb => hd j k a b (hlift j a ha) (hlift k b hb))
      refine ⟨_, by rw [List.foldl_append, hm, List.foldl_cons, List.foldl_nil]; simp; rfl, ?_⟩
      intro i v
      rw [foldl_upsert_get]
      have hlast : (ss ++ [s])[ss.length]? = some s := by simp
      by_cases hi : i ∈ idsOf cache s
      · rw [if_pos hi]
        constructor
        · intro h
          simp only [Option.some.injEq] at h
          exact ⟨ss.length, s, hlast, hi, h.symm⟩
        · rintro ⟨k, t, hk, hit, rfl⟩
          have := hd k ss.length t s hk hlast ⟨i, hit, hi⟩
          rw [this]
      · rw [if_neg hi, hg]
        constructor
        · rintro ⟨k, t, hk, hit, rfl⟩
          exact ⟨k, t, hlift k t hk, hit, rfl⟩
        · rintro ⟨k, t, hk, hit, rfl⟩
          rw [List.getElem?_append] at hk
          split at hk
          · exact ⟨k, t, hk, hit, rfl⟩
          · rename_i hlt
            rw [List.getElem?_singleton] at hk
            split at hk
            · simp only [Option.some.injEq] at hk; subst hk; exact absurd hit hi
            · cases hk
  obtain ⟨m, hm, hg⟩ := key ss hd
  unfold idCache
  rw [hm]
  exact hg i v

/-- Namespaces are registered consistently. -/
structure NInv (o : Out) : Prop where
  known : ∀ ns id, get o.known ns = some id → ∃ i, get o.infos id = some i ∧ i.uri = ns
  infos : ∀ id i, get o.infos id = some i → get o.known i.uri = some id
  bound : ∀ id, id ∈ keys o.infos → 1 ≤ id ∧ id ≤ o.lastNs
  anon : ∀ id i, get o.infos id = some i → (id = 1 ↔ i.uri = none)
  last : 1 ≤ o.lastNs

theorem namespace_ok {o : Out} (inv : NInv o) (ns : Option Txt) :
    ∃ id o', o.namespace ns = some (id, o') ∧ NInv o' ∧ o'.schemas = o.schemas ∧
      (∃ i, get o'.infos id = some i ∧ i.uri = ns) ∧
      (∀ id' i, get o.infos id' = some i → get o'.infos id' = some i) := by
  unfold Out.namespace
  cases hk : get o.known ns with
  | some id =>
    obtain ⟨i, hi, hu⟩ := inv.known ns id hk
    refine ⟨id, o, ?_, inv, rfl, ⟨i, hi, hu⟩, fun _ _ h => h⟩
    simp [hi]
  | none =>
    simp only
    have hfree : get o.infos (if ns.isNone then 1 else (if ns.isNone then o.lastNs else o.lastNs + 1))
        = none := by
      cases ns with
      | none =>
        simp only [Option.isNone_none, if_true]
        cases hg : get o.infos 1 with
        | none => rfl
        | some i =>
          have := inv.infos 1 i hg
          rw [((inv.anon 1 i hg).1 rfl), hk] at this
          cases this
      | some u =>
        simp only [Option.isNone_some]
        rw [get_eq_none]
        intro hc
        have := (inv.bound _ hc).2
        simp at this
        omega
    rw [hfree]
    refine ⟨_, _, rfl, ?_, rfl, ?_, ?_⟩
    · have hone : ∀ u : Txt, ns = some u → o.lastNs + 1 ≠ 1 := fun u _ => by have := inv.last; omega
      constructor
      · intro ns' id h
        simp only at h ⊢
        rw [get_upsert] at h
        rw [get_upsert]
        by_cases hn : ns = ns'
        · rw [if_pos hn] at h
          simp only [Option.some.injEq] at h
          rw [if_pos h]
          exact ⟨_, rfl, hn⟩
        · rw [if_neg hn] at h
          obtain ⟨i, hi, hu⟩ := inv.known ns' id h
          rw [if_neg]
          · exact ⟨i, hi, hu⟩
          · intro hc; rw [hc, hi] at hfree; cases hfree
      · intro id i h
        simp only at h ⊢
        rw [get_upsert] at h
        rw [get_upsert]
        by_cases hi : (if ns.isNone then 1 else (if ns.isNone then o.lastNs else o.lastNs + 1)) = id
        · rw [if_pos hi] at h
          simp only [Option.some.injEq] at h
          subst h
          rw [if_pos rfl, hi]
        · rw [if_neg hi] at h
          have := inv.infos id i h
          rw [if_neg]
          · exact this
          · rintro rfl; rw [hk] at this; cases this
      · intro id h
        simp only at h ⊢
        rw [mem_keys_upsert] at h
        have hl := inv.last
        rcases h with rfl | h
        · cases ns <;> simp <;> omega
        · have := inv.bound id h
          cases ns <;> simp <;> omega
      · intro id i h
        simp only at h
        rw [get_upsert] at h
        by_cases hi : (if ns.isNone then 1 else (if ns.isNone then o.lastNs else o.lastNs + 1)) = id
        · rw [if_pos hi] at h
          simp only [Option.some.injEq] at h
          subst h
          have hl := inv.last
          cases ns with
          | none => simp at hi ⊢; exact hi.symm
          | some u => simp at hi ⊢; omega
        · rw [if_neg hi] at h; exact inv.anon id i h
      · simp only
        have hl := inv.last
        split <;> omega
    · refine ⟨{ uri := ns }, ?_, rfl⟩
      simp only
      rw [get_upsert, if_pos rfl]
    · intro id' i h
      simp only
      rw [get_upsert, if_neg]
      · exact h
      · intro hc; rw [hc, h] at hfree; cases hfree

/-- The entries processed so far. -/
structure FInv (idc : List (Nat × Nat)) (ss : List PSchema) (o : Out) : Prop where
  nss : NInv o
  len : o.schemas.length = ss.length
  at_ : ∀ (k : Nat) s, ss[k]? = some s → ∃ info, o.schemas[k]? = some (k + 1, info) ∧
    info.doc = s.doc ∧ info.loc = s.loc ∧
    info.deps = (s.deps.filterMap fun (a, k, d) => (get idc d).map fun d => (a, k, d)) ∧
    ∃ ni, get o.infos info.nsId = some ni ∧ ni.uri = s.doc.target ∧ k + 1 ∈ ni.schemas

theorem FInv.keys {idc : List (Nat × Nat)} {ss : List PSchema} {o : Out} (inv : FInv idc ss o) :
    keys o.schemas = List.range' 1 ss.length := by
  apply List.ext_getElem?
  intro k
  unfold Assoc.keys
  rw [List.getElem?_map]
  by_cases hk : k < ss.length
  · obtain ⟨info, h, -⟩ := inv.at_ k ss[k] (by simp [hk])
    rw [h, List.getElem?_range' hk]
    simp; omega
  · rw [List.getElem?_eq_none (by rw [inv.len]; omega), List.getElem?_eq_none (by simp; omega)]
    rfl

theorem upsert_new {K V : Type} [DecidableEq K] (m : List (K × V)) (k : K) (f : Option V → V)
    (h : k ∉ keys m) : upsert m k f = m ++ [(k, f none)] := by
  induction m with
  | nil => rfl
  | cons p m ih =>
    obtain ⟨a, v⟩ := p
    simp only [keys, List.map_cons, List.mem_cons, not_or] at h
    rw [upsert, if_neg (fun hc => h.1 hc.symm), ih h.2]
    rfl

/-- One entry. -/
theorem addEntry_ok {idc : List (Nat × Nat)} {ss : List PSchema} {o : Out} (inv : FInv idc ss o)
    (e : PEntry) (he : ∀ s, e = .schema s → get idc s.id = some (ss.length + 1)) :
    ∃ o', o.addEntry idc e = some o' ∧ FInv idc (ss ++ schemasOf [e]) o' := by
  have hns : ∀ ns, ∃ o', (o.namespace ns).map (·.2) = some o' ∧ FInv idc (ss ++ []) o' := by
    intro ns
    obtain ⟨id, o', h1, h2, h3, -, h5⟩ := namespace_ok inv.nss ns
    refine ⟨o', by rw [h1]; rfl, h2, by rw [h3, inv.len]; simp, ?_⟩
    intro k s hs
    rw [List.append_nil] at hs
    obtain ⟨info, a, b, c, d, ni, x, y⟩ := inv.at_ k s hs
    exact ⟨info, by rw [h3]; exact a, b, c, d, ni, h5 _ _ x, y⟩
  cases e with
  | anonymous => exact hns none
  | ns p u => exact hns (some u)
  | schema s =>
    have hid := he s rfl
    simp only [Out.addEntry, Out.addSchema, hid]
    obtain ⟨nsId, o', h1, h2, h3, ⟨ni, h4, h4'⟩, h5⟩ := namespace_ok inv.nss s.doc.target
    rw [h1]
    simp only
    have hnew : ss.length + 1 ∉ keys o'.schemas := by
      rw [h3, inv.keys, List.mem_range'_1]; omega
    have hnone : get o'.schemas (ss.length + 1) = none := (get_eq_none _ _).2 hnew
    simp only [hnone]
    rw [upsert_new _ _ _ hnew]
    refine ⟨_, rfl, ?_⟩
    have hso : schemasOf [.schema s] = [s] := rfl
    rw [hso]
    have hlen : o'.schemas.length = ss.length := by rw [h3]; exact inv.len
    -- the infos
    have hinfo : ∀ id i, get o'.infos id = some i → ∃ i', get (upsert o'.infos nsId fun i =>
        { (i.getD { uri := none }) with
          schemas := (i.getD { uri := none }).schemas ++ [ss.length + 1] }) id = some i' ∧
        i'.uri = i.uri ∧ ∀ x ∈ i.schemas, x ∈ i'.schemas := by
      intro id i h
      rw [get_upsert]
      by_cases hid' : nsId = id
      · subst hid'
        rw [if_pos rfl, h]
        exact ⟨_, rfl, rfl, fun x hx => List.mem_append_left _ hx⟩
      · rw [if_neg hid']; exact ⟨i, h, rfl, fun x hx => hx⟩
    constructor
    · have hback : ∀ id i', get (upsert o'.infos nsId fun i =>
        { (i.getD { uri := none }) with
          schemas := (i.getD { uri := none }).schemas ++ [ss.length + 1] }) id = some i' →
          ∃ i, get o'.infos id = some i ∧ i'.uri = i.uri := by
        intro id i' h
        rw [get_upsert] at h
        by_cases hid' : nsId = id
        · subst hid'
          rw [if_pos rfl, h4] at h
          simp only [Option.some.injEq] at h
          subst h
          exact ⟨ni, h4, rfl⟩
        · rw [if_neg hid'] at h; exact ⟨i', h, rfl⟩
      constructor
      · intro ns id h
        obtain ⟨i, a, b⟩ := h2.known ns id h
        obtain ⟨i', a', b', -⟩ := hinfo id i a
        exact ⟨i', a', b'.trans b⟩
      · intro id i' h
        obtain ⟨i, a, b⟩ := hback id i' h
        rw [b]; exact h2.infos id i a
      · intro id h
        simp only [mem_keys_upsert] at h
        rcases h with rfl | h
        · exact h2.bound _ (by rw [← get_isSome, h4]; rfl)
        · exact h2.bound _ h
      · intro id i' h
        obtain ⟨i, a, b⟩ := hback id i' h
        rw [b]; exact h2.anon id i a
      · exact h2.last
    · simp [hlen]
    · intro k t hk
      simp only
      rw [List.getElem?_append] at hk
      split at hk
      · rename_i hlt
        obtain ⟨info, a, b, c, d, ni', x, y, z⟩ := inv.at_ k t hk
        rw [List.getElem?_append_left (by rw [hlen]; exact hlt), h3]
        obtain ⟨i', x', y', z'⟩ := hinfo _ _ (h5 _ _ x)
        exact ⟨info, a, b, c, d, i', x', y'.trans y, z' _ z⟩
      · rename_i hlt
        rw [List.getElem?_singleton] at hk
        split at hk
        · rename_i hz
          simp only [Option.some.injEq] at hk
          subst hk
          have hkl : k = ss.length := by omega
          subst hkl
          rw [← hlen, List.getElem?_concat_length]
          refine ⟨_, rfl, rfl, rfl, rfl, ?_⟩
          simp only [hlen]
          refine ⟨{ ni with schemas := ni.schemas ++ [ss.length + 1] }, ?_, h4', by simp⟩
          rw [get_upsert, if_pos rfl, h4]
          rfl
        · cases hk

theorem addEntries_ok (idc : List (Nat × Nat)) (es : List PEntry)
    (he : ∀ (k : Nat) s, (schemasOf es)[k]? = some s → get idc s.id = some (k + 1)) :
    ∃ o, Out.addEntries idc (some {}) es = some o ∧ FInv idc (schemasOf es) o := by
  induction es using rev_induct with
  | nil =>
    refine ⟨{}, rfl, ?_⟩
    constructor
    · constructor <;> simp [Assoc.get, Assoc.keys]
    · rfl
    · simp [schemasOf]
  | snoc es e ih =>
    rw [schemasOf_append] at he ⊢
    obtain ⟨o, h1, h2⟩ := ih (by
      intro k s h
      obtain ⟨hlt, -⟩ := List.getElem?_eq_some_iff.1 h
      exact he k s (by rw [List.getElem?_append_left hlt]; exact h))
    obtain ⟨o', h3, h4⟩ := addEntry_ok h2 e (by
      rintro s rfl
      have : schemasOf [.schema s] = [s] := rfl
      exact he _ s (by rw [this]; simp))
    refine ⟨o', ?_, h4⟩
    unfold Out.addEntries at h1 ⊢
    rw [List.foldl_append, h1]
    exact h3

theorem filterMap_index {α β : Type} {f : α → Option β} {b : β} : ∀ {l : List α} {j k : Nat} {s t : α},
    (l.filterMap f).Nodup → l[j]? = some s → l[k]? = some t → f s = some b → f t = some b → j = k := by
  intro l
  induction l with
  | nil => intro j k s t _ h; simp at h
  | cons a l ih =>
    intro j k s t hn hj hk hs ht
    have hmem : ∀ {k : Nat} {t : α}, l[k]? = some t → f t = some b → b ∈ l.filterMap f :=
      fun h h' => List.mem_filterMap.2 ⟨_, List.mem_of_getElem? h, h'⟩
    cases j with
    | zero =>
      simp only [List.getElem?_cons_zero, Option.some.injEq] at hj
      subst hj
      rw [List.filterMap_cons_some hs] at hn
      cases k with
      | zero => rfl
      | succ k =>
        rw [List.getElem?_cons_succ] at hk
        exact absurd (hmem hk ht) (List.nodup_cons.1 hn).1
    | succ j =>
      rw [List.getElem?_cons_succ] at hj
      have hn' : (l.filterMap f).Nodup := by
        cases ha : f a with
        | none => rwa [List.filterMap_cons_none ha] at hn
        | some c => rw [List.filterMap_cons_some ha] at hn; exact (List.nodup_cons.1 hn).2
      cases k with
      | zero =>
        simp only [List.getElem?_cons_zero, Option.some.injEq] at hk
        subst hk
        rw [List.filterMap_cons_some ht] at hn
        exact absurd (hmem hj hs) (List.nodup_cons.1 hn).1
      | succ k =>
        rw [List.getElem?_cons_succ] at hk
        rw [ih hn' hj hk hs ht]

/-- Temporary ids stand for one entry each. -/
theorem LInv.idc {W : World} {st : St} {own : Nat → Owner} (inv : LInv W st [] own) (i v : Nat) :
    get (idCache st.cache (schemasOf st.entries)) i = some v ↔
      ∃ k s, (schemasOf st.entries)[k]? = some s ∧ i ∈ idsOf st.cache s ∧ v = k + 1 := by
  have howns : ∀ s ∈ schemasOf st.entries, ∀ i ∈ idsOf st.cache s, own i = Owner.ofLoc s.loc := by
    intro s hs i hi
    cases hl : s.loc with
    | none =>
      rw [idsOf, hl] at hi
      simp at hi
      rw [hi]; exact (inv.anonOwn s hs hl).1
    | some l =>
      obtain ⟨ids, hg, hm⟩ := inv.located s hs l hl
      rw [idsOf, hl] at hi
      simp only [Option.bind_some, hg, Option.getD_some, List.mem_cons] at hi
      rcases hi with rfl | hi
      · exact (inv.cacheOwn l ids hg _ hm).1
      · exact (inv.cacheOwn l ids hg _ hi).1
  apply idCache_spec
  rintro j k s t hj hk ⟨i, hi, hi'⟩
  have e1 := howns s (List.mem_of_getElem? hj) i hi
  have e2 := howns t (List.mem_of_getElem? hk) i hi'
  rw [e1] at e2
  cases hl : s.loc with
  | none =>
    rw [hl] at e2
    cases hl' : t.loc with
    | some l => rw [hl'] at e2; cases e2
    | none =>
      rw [idsOf, hl] at hi
      rw [idsOf, hl'] at hi'
      simp at hi hi'
      have hn := inv.idsNodup
      rw [show (schemasOf st.entries).map (·.id) = (schemasOf st.entries).filterMap (fun s => some s.id) by
        simp] at hn
      exact filterMap_index hn hj hk (b := i) (by rw [hi]) (by rw [hi'])
  | some l =>
    rw [hl] at e2
    cases hl' : t.loc with
    | none => rw [hl'] at e2; cases e2
    | some l' =>
      rw [hl'] at e2
      simp only [Owner.ofLoc, Owner.loc.injEq] at e2
      exact filterMap_index inv.locsNodup hj hk hl (by rw [hl', e2])

theorem LInv.finish_ok {W : World} {st : St} {own : Nat → Owner} (inv : LInv W st [] own) :
    ∃ out, finish st = some out ∧
      FInv (idCache st.cache (schemasOf st.entries)) (schemasOf st.entries) out :=
  addEntries_ok _ _ fun k s h => (inv.idc _ _).2 ⟨k, s, h, by simp [idsOf], rfl⟩

theorem FInv.keyed {idc : List (Nat × Nat)} {ss : List PSchema} {o : Out} (inv : FInv idc ss o) :
    Keyed o.schemas := by
  unfold Keyed; rw [inv.keys]; exact List.nodup_range'

theorem FInv.get {idc : List (Nat × Nat)} {ss : List PSchema} {o : Out} (inv : FInv idc ss o)
    (id : Nat) (info : SInfo) : get o.schemas id = some info ↔
      ∃ k, id = k + 1 ∧ o.schemas[k]? = some (id, info) := by
  rw [← mem_iff_get inv.keyed]
  constructor
  · intro h
    obtain ⟨k, hk⟩ := List.mem_iff_getElem?.1 h
    have hlt : k < ss.length := by
      obtain ⟨hlt, -⟩ := List.getElem?_eq_some_iff.1 hk
      rw [← inv.len]; exact hlt
    obtain ⟨info', h', -⟩ := inv.at_ k ss[k] (by simp [hlt])
    rw [hk] at h'
    simp only [Option.some.injEq, Prod.mk.injEq] at h'
    exact ⟨k, h'.1, hk⟩
  · rintro ⟨k, -, hk⟩
    exact List.mem_of_getElem? hk

/-- A stored schema belongs to an entry. -/
theorem FInv.entry {idc : List (Nat × Nat)} {ss : List PSchema} {o : Out} (inv : FInv idc ss o)
    {id : Nat} {info : SInfo} (h : Assoc.get o.schemas id = some info) :
    ∃ k s, ss[k]? = some s ∧ id = k + 1 ∧ info.doc = s.doc ∧ info.loc = s.loc ∧
      info.deps = (s.deps.filterMap fun (a, k, d) => (Assoc.get idc d).map fun d => (a, k, d)) ∧
      ∃ ni, Assoc.get o.infos info.nsId = some ni ∧ ni.uri = s.doc.target ∧ k + 1 ∈ ni.schemas := by
  obtain ⟨k, rfl, hk⟩ := (inv.get id info).1 h
  have hlt : k < ss.length := by
    obtain ⟨hlt, -⟩ := List.getElem?_eq_some_iff.1 hk
    rw [← inv.len]; exact hlt
  obtain ⟨info', h', x⟩ := inv.at_ k ss[k] (by simp [hlt])
  rw [hk] at h'
  simp only [Option.some.injEq, Prod.mk.injEq, true_and] at h'
  subst h'
  exact ⟨k, ss[k], by simp [hlt], rfl, x⟩

theorem FInv.stored {idc : List (Nat × Nat)} {ss : List PSchema} {o : Out} (inv : FInv idc ss o)
    {k : Nat} {s : PSchema} (h : ss[k]? = some s) :
    ∃ info, Assoc.get o.schemas (k + 1) = some info ∧ info.doc = s.doc ∧ info.loc = s.loc := by
  obtain ⟨info, a, b, c, -⟩ := inv.at_ k s h
  exact ⟨info, (inv.get _ _).2 ⟨k, rfl, a⟩, b, c⟩

theorem FInv.schemas {idc : List (Nat × Nat)} {ss : List PSchema} {o : Out} (inv : FInv idc ss o) :
    o.schemas.map (fun p => (p.2.doc, p.2.loc)) = ss.map fun s => (s.doc, s.loc) := by
  apply List.ext_getElem?
  intro k
  rw [List.getElem?_map, List.getElem?_map]
  by_cases hk : k < ss.length
  · obtain ⟨info, h, h1, h2, -⟩ := inv.at_ k ss[k] (by simp [hk])
    rw [h]; simp [hk, h1, h2]
  · rw [List.getElem?_eq_none (by rw [inv.len]; omega), List.getElem?_eq_none (by omega)]
    rfl

/-! ## A complete session -/

/-- A parser to which only namespaces have been added so far (`Parser::new`, `with_resolver`,
`with_namespace`, …). -/
def St.start (es : List PEntry) (resolveIncludes : Bool) : St := { entries := es, resolveIncludes }

theorem start_inv (W : World) {es : List PEntry} (he : schemasOf es = []) (b : Bool) :
    LInv W (St.start es b) [] (fun _ => .pend) ∧ TInv W (St.start es b) [] := by
  have h := (init_inv W b).entries (es := es) (by rw [he]; rfl)
  exact ⟨h, ⟨by simp, by simp [St.start, he]⟩⟩

theorem resolveLocation_flag {W : World} {st st' : St} {id : Nat} {req : Req}
    (h : resolveLocation W st id req = .ok st') : st'.resolveIncludes = st.resolveIncludes ∧
      ∃ es, st'.entries = st.entries ++ es ∧ ∀ s ∈ schemasOf es, s.loc ≠ none := by
  unfold resolveLocation at h
  cases hl : W.locate req with
  | none => rw [hl] at h; cases h
  | some l =>
    rw [hl] at h
    simp only at h
    cases hg : get st.cache l with
    | some ids =>
      rw [hg] at h
      simp only [Except.ok.injEq] at h
      subst h
      exact ⟨rfl, [], by simp, by simp [schemasOf]⟩
    | none =>
      rw [hg] at h
      simp only at h
      cases hd : W.doc l with
      | none => rw [hd] at h; cases h
      | some doc =>
        rw [hd] at h
        simp only at h
        cases he : effective l req doc with
        | error e => rw [he] at h; cases h
        | ok doc' =>
          rw [he] at h
          simp only [Except.ok.injEq] at h
          subst h
          obtain ⟨N, deps, next, h1, -⟩ := addSchema_shape st id doc' (some l)
          rw [h1]
          exact ⟨rfl, _, rfl, by simp [schemasOf]⟩

theorem resolvePending_flag {W : World} (n : Nat) : ∀ {st st' : St},
    resolvePending W n st = some (.ok st') → st'.resolveIncludes = st.resolveIncludes ∧
      ∃ es, st'.entries = st.entries ++ es ∧ ∀ s ∈ schemasOf es, s.loc ≠ none := by
  induction n with
  | zero => intro st st' h; cases h
  | succ n ih =>
    intro st st' h
    simp only [resolvePending] at h
    cases hp : st.pending with
    | nil =>
      rw [hp] at h
      simp only [Option.some.injEq, Except.ok.injEq] at h
      subst h
      exact ⟨rfl, [], by simp, by simp [schemasOf]⟩
    | cons p ps =>
      obtain ⟨id, req⟩ := p
      rw [hp] at h
      simp only at h
      cases hr : resolveLocation W { st with pending := ps } id req with
      | error e => rw [hr] at h; cases h
      | ok st1 =>
        rw [hr] at h
        simp only at h
        obtain ⟨a, es, b, c⟩ := resolveLocation_flag hr
        obtain ⟨a', es', b', c'⟩ := ih h
        refine ⟨a'.trans a, es ++ es', by rw [b', b, List.append_assoc], ?_⟩
        intro s hs
        rw [schemasOf_append] at hs
        rcases List.mem_append.1 hs with hs | hs
        · exact c s hs
        · exact c' s hs

/-- The documents without location, in order. -/
def anonDocs (es : List PEntry) : List Doc :=
  (schemasOf es).filterMap fun s => if s.loc = none then some s.doc else none

/-- The documents given directly by the user, in order. -/
def given (acts : List Act) : List Doc :=
  acts.filterMap fun
    | .str d => some d
    | _ => none

theorem anonDocs_append (a b : List PEntry) : anonDocs (a ++ b) = anonDocs a ++ anonDocs b := by
  simp [anonDocs, schemasOf_append]

theorem anonDocs_located {es : List PEntry} (h : ∀ s ∈ schemasOf es, s.loc ≠ none) :
    anonDocs es = [] := by
  unfold anonDocs
  rw [List.filterMap_eq_nil_iff]
  intro s hs
  rw [if_neg (h s hs)]

theorem session_given {W : World} {fuel : Nat} (acts : List Act) : ∀ {st st' : St},
    session W fuel st acts = some (.ok st') →
    st'.resolveIncludes = st.resolveIncludes ∧
      anonDocs st'.entries = anonDocs st.entries ++ given acts := by
  induction acts with
  | nil =>
    intro st st' h
    simp only [session, Option.some.injEq, Except.ok.injEq] at h
    subst h
    simp [given]
  | cons a as ih =>
    intro st st' h
    simp only [session] at h
    cases ha : act W fuel st a with
    | none => rw [ha] at h; cases h
    | some r =>
      cases r with
      | error e => rw [ha] at h; cases h
      | ok st1 =>
        rw [ha] at h
        obtain ⟨h1, h2⟩ := ih h
        rw [h1, h2]
        cases a with
        | anonymous =>
          simp only [act, Option.some.injEq, Except.ok.injEq] at ha
          subst ha
          simp [given, anonDocs, schemasOf]
        | ns p u =>
          simp only [act, Option.some.injEq, Except.ok.injEq] at ha
          subst ha
          simp [given, anonDocs, schemasOf]
        | str doc =>
          simp only [act] at ha
          obtain ⟨x, es, y, z⟩ := resolvePending_flag fuel ha
          obtain ⟨N, deps, next, e, -⟩ := addSchema_shape { st with next := st.next + 1 } st.next doc none
          rw [e] at x y
          refine ⟨x, ?_⟩
          rw [y, anonDocs_append, anonDocs_located z, anonDocs_append]
          simp [anonDocs, schemasOf, given]
        | url u =>
          simp only [act] at ha
          cases hr : resolveLocation W { st with next := st.next + 1 } st.next
              { loc := u, kind := .user } with
          | error e => rw [hr] at ha; cases ha
          | ok st2 =>
            rw [hr] at ha
            simp only at ha
            obtain ⟨x, es, y, z⟩ := resolveLocation_flag hr
            obtain ⟨x', es', y', z'⟩ := resolvePending_flag fuel ha
            refine ⟨x'.trans x, ?_⟩
            rw [y', anonDocs_append, anonDocs_located z', y, anonDocs_append, anonDocs_located z]
            simp [given]

/-- Everything at once. -/
theorem session_all {W : World} {fuel : Nat} {es : List PEntry} {b : Bool} {acts : List Act}
    {st : St} (he : schemasOf es = [])
    (h : session W fuel (St.start es b) acts = some (.ok st)) :
    ∃ own out, LInv W st [] own ∧ TInv W st [] ∧ (∀ a ∈ acts, Present W st.entries a) ∧
      st.resolveIncludes = b ∧ anonDocs st.entries = given acts ∧ finish st = some out ∧
      FInv (idCache st.cache (schemasOf st.entries)) (schemasOf st.entries) out := by
  obtain ⟨l0, t0⟩ := start_inv W he b
  obtain ⟨-, own, linv⟩ := session_inv acts l0 rfl h
  obtain ⟨tinv, -, pr⟩ := session_tinv acts l0 t0 rfl h
  obtain ⟨g1, g2⟩ := session_given acts h
  obtain ⟨out, hf, finv⟩ := linv.finish_ok
  refine ⟨own, out, linv, tinv, pr, g1, ?_, hf, finv⟩
  rw [g2]; simp [St.start, anonDocs, he]

/-- **C24** No location is loaded twice. -/
theorem C24_each_once {W : World} {fuel : Nat} {es : List PEntry} {b : Bool} {acts : List Act}
    {st : St} (he : schemasOf es = []) (h : session W fuel (St.start es b) acts = some (.ok st)) :
    ∃ out, finish st = some out ∧ (out.schemas.filterMap (·.2.loc)).Nodup := by
  obtain ⟨own, out, linv, -, -, -, -, hf, finv⟩ := session_all he h
  refine ⟨out, hf, ?_⟩
  have h1 := congrArg (List.filterMap (fun p : Doc × Option Txt => p.2)) finv.schemas
  simp only [List.filterMap_map] at h1
  have e1 : ((fun p : Doc × Option Txt => p.2) ∘ fun p : Nat × SInfo => (p.2.doc, p.2.loc)) =
    fun p => p.2.loc := rfl
  have e2 : ((fun p : Doc × Option Txt => p.2) ∘ fun s : PSchema => (s.doc, s.loc)) =
    fun s => s.loc := rfl
  rw [e1, e2] at h1
  rw [h1]; exact linv.locsNodup

/-- **C24** Recorded dependencies point to the schema at the location they name, and are of the
recorded kind. -/
theorem C24_dependencies_point {W : World} {fuel : Nat} {es : List PEntry} {b : Bool}
    {acts : List Act} {st : St} (he : schemasOf es = [])
    (h : session W fuel (St.start es b) acts = some (.ok st)) :
    ∃ out, finish st = some out ∧ ∀ id info, get out.schemas id = some info →
      ∀ a k d, (a, k, d) ∈ info.deps → ∃ link ∈ info.doc.links, link.at_ = a ∧ link.kind = k ∧
        ∃ l t, W.locate (linkReq info.loc info.doc.target link) = some l ∧
          get out.schemas d = some t ∧ t.loc = some l := by
  obtain ⟨own, out, linv, -, -, -, -, hf, finv⟩ := session_all he h
  refine ⟨out, hf, ?_⟩
  intro id info hg a k d hd
  obtain ⟨i, s, hs, rfl, h1, h2, h3, -⟩ := finv.entry hg
  rw [h3] at hd
  obtain ⟨⟨a', k', d'⟩, hm, hd1⟩ := List.mem_filterMap.1 hd
  simp only [Option.map_eq_some_iff, Prod.mk.injEq] at hd1
  obtain ⟨d'', hd2, rfl, rfl, rfl⟩ := hd1
  have hsm := List.mem_of_getElem? hs
  obtain ⟨link, x1, x2, x3, x4⟩ := linv.deps s hsm _ _ _ (get_of_mem (linv.depKeyed s hsm) hm)
  rcases x4 with x4 | ⟨l, ids, x4, x5, x6⟩
  · cases x4
  · refine ⟨link, by rw [h1]; exact x1, x2, x3, l, ?_⟩
    obtain ⟨j, t, ht, hi, rfl⟩ := (linv.idc _ _).1 hd2
    obtain ⟨info', y1, y2, y3⟩ := finv.stored ht
    refine ⟨info', by rw [h1, h2]; exact x4, y1, ?_⟩
    rw [y3]
    -- the temporary id belongs to `l`
    have ho := (linv.cacheOwn l ids x5 d' x6).1
    cases hl : t.loc with
    | none =>
      rw [idsOf, hl] at hi
      simp at hi
      rw [hi, (linv.anonOwn t (List.mem_of_getElem? ht) hl).1] at ho
      cases ho
    | some l' =>
      obtain ⟨ids', z1, z2⟩ := linv.located t (List.mem_of_getElem? ht) l' hl
      rw [idsOf, hl] at hi
      simp only [Option.bind_some, z1, Option.getD_some, List.mem_cons] at hi
      have hmem : d' ∈ ids' := by
        rcases hi with rfl | hi
        · exact z2
        · exact hi
      have := (linv.cacheOwn l' ids' z1 d' hmem).1
      rw [ho] at this
      simp only [Owner.loc.injEq] at this
      rw [this]

/-- **C24** Everything referred to is loaded, and everything the user added. -/
theorem C24_references_loaded {W : World} {fuel : Nat} {es : List PEntry} {acts : List Act}
    {st : St} (he : schemasOf es = [])
    (h : session W fuel (St.start es true) acts = some (.ok st)) :
    ∃ out, finish st = some out ∧
      (∀ id info, get out.schemas id = some info → ∀ link ∈ info.doc.links,
        (∃ k d, (link.at_, k, d) ∈ info.deps) ∧
        ∃ l id' t, W.locate (linkReq info.loc info.doc.target link) = some l ∧
          get out.schemas id' = some t ∧ t.loc = some l) ∧
      (∀ d, Act.str d ∈ acts → ∃ id info, get out.schemas id = some info ∧ info.loc = none ∧
        info.doc = d) ∧
      (∀ u, Act.url u ∈ acts → ∃ l id info, W.locate { loc := u, kind := .user } = some l ∧
        get out.schemas id = some info ∧ info.loc = some l) := by
  obtain ⟨own, out, linv, -, pr, hb, -, hf, finv⟩ := session_all he h
  have hst : ∀ s ∈ schemasOf st.entries, ∃ id info, get out.schemas id = some info ∧
      info.doc = s.doc ∧ info.loc = s.loc := by
    intro s hs
    obtain ⟨k, hk⟩ := List.mem_iff_getElem?.1 hs
    obtain ⟨info, a⟩ := finv.stored hk
    exact ⟨_, info, a⟩
  refine ⟨out, hf, ?_, ?_, ?_⟩
  · intro id info hg link hlink
    obtain ⟨i, s, hs, rfl, h1, h2, h3, -⟩ := finv.entry hg
    have hsm := List.mem_of_getElem? hs
    rw [h1] at hlink
    obtain ⟨x1, x2⟩ := linv.links hb s hsm link hlink
    constructor
    · rw [← get_isSome, Option.isSome_iff_exists] at x1
      obtain ⟨⟨k, d⟩, hd⟩ := x1
      obtain ⟨link', -, -, -, y⟩ := linv.deps s hsm _ _ _ hd
      rcases y with y | ⟨l, ids, y1, y2, y3⟩
      · cases y
      · obtain ⟨t, ht, htl⟩ := linv.cached l (by rw [← get_isSome, y2]; rfl)
        obtain ⟨j, hj⟩ := List.mem_iff_getElem?.1 ht
        have hdj : get (idCache st.cache (schemasOf st.entries)) d = some (j + 1) :=
          (linv.idc _ _).2 ⟨j, t, hj, by simp [idsOf, htl, y2, y3], rfl⟩
        refine ⟨k, j + 1, ?_⟩
        rw [h3, List.mem_filterMap]
        exact ⟨(link.at_, k, d), mem_of_get hd, by simp [hdj]⟩
    · rcases x2 with ⟨d, x2⟩ | ⟨l, x2, x3⟩
      · cases x2
      · obtain ⟨t, ht, htl⟩ := linv.cached l x3
        obtain ⟨id', info', z1, z2, z3⟩ := hst t ht
        exact ⟨l, id', info', by rw [h1, h2]; exact x2, z1, by rw [z3, htl]⟩
  · intro d hd
    obtain ⟨s, hs, a, b⟩ := pr _ hd
    obtain ⟨id', info', z1, z2, z3⟩ := hst s hs
    exact ⟨id', info', z1, by rw [z3, a], by rw [z2, b]⟩
  · intro u hu
    obtain ⟨l, x, s, hs, a⟩ := pr _ hu
    obtain ⟨id', info', z1, z2, z3⟩ := hst s hs
    exact ⟨l, id', info', x, z1, by rw [z3, a]⟩

/-- The document at `l` has a reference to `l'`. -/
def Refers (W : World) (l l' : Txt) : Prop :=
  ∃ d link target, W.doc l = some d ∧ link ∈ d.links ∧
    W.locate (linkReq (some l) target link) = some l'

inductive Reaches (W : World) : Txt → Txt → Prop
  | refl (l : Txt) : Reaches W l l
  | step {l m r : Txt} : Reaches W l m → Refers W m r → Reaches W l r

/-- **C24** Every document reachable from a loaded one is loaded, for a resolver that only looks
at the requested and the current location. -/
theorem C24_reachable_loaded {W : World} {fuel : Nat} {es : List PEntry} {acts : List Act}
    {st : St} (he : schemasOf es = [])
    (hW : ∀ loc t t' link, W.locate (linkReq loc t link) = W.locate (linkReq loc t' link))
    (h : session W fuel (St.start es true) acts = some (.ok st)) :
    ∃ out, finish st = some out ∧ ∀ id info l l', get out.schemas id = some info →
      info.loc = some l → Reaches W l l' →
      ∃ id' info', get out.schemas id' = some info' ∧ info'.loc = some l' := by
  obtain ⟨own, out, linv, -, -, -, -, hf, finv⟩ := session_all he h
  obtain ⟨out', hf', hrefs, -⟩ := C24_references_loaded he h
  rw [hf] at hf'
  simp only [Option.some.injEq] at hf'
  subst hf'
  refine ⟨out, hf, ?_⟩
  intro id info l l' hg hl hr
  induction hr with
  | refl => exact ⟨id, info, hg, hl⟩
  | step hr hstep ih =>
    rename_i m r
    obtain ⟨id1, info1, hg1, hl1⟩ := ih
    obtain ⟨d, link, target, hd, hlink, hloc⟩ := hstep
    obtain ⟨k, s, hs, rfl, h1, h2, -⟩ := finv.entry hg1
    obtain ⟨d', hd', hdl⟩ := linv.docs s (List.mem_of_getElem? hs) m (by rw [← h2]; exact hl1)
    rw [hd] at hd'
    simp only [Option.some.injEq] at hd'
    subst hd'
    obtain ⟨-, l2, id2, t, x, y, z⟩ := hrefs _ info1 hg1 link (by rw [h1, hdl]; exact hlink)
    rw [hl1, hW _ _ target, hloc] at x
    simp only [Option.some.injEq] at x
    subst x
    exact ⟨id2, t, y, z⟩

/-! ## Identity -/

/-- **C26** (only the part without a change of the resolver after schemas were added)
`finish` does not panic; ids are the numbers 1, 2, …; each document given directly is stored
exactly as often as it was added, in order; every location at most once; every schema is listed
in the information of its namespace. -/
theorem C26_own_identity_partial {W : World} {fuel : Nat} {es : List PEntry} {b : Bool}
    {acts : List Act} {st : St} (he : schemasOf es = [])
    (h : session W fuel (St.start es b) acts = some (.ok st)) :
    ∃ out, finish st = some out ∧
      keys out.schemas = List.range' 1 out.schemas.length ∧
      (out.schemas.filterMap fun p => if p.2.loc = none then some p.2.doc else none) = given acts ∧
      (∀ u, Act.url u ∈ acts → ∃ l id info, W.locate { loc := u, kind := .user } = some l ∧
        get out.schemas id = some info ∧ info.loc = some l) ∧
      (∀ id info, get out.schemas id = some info → ∃ ni, get out.infos info.nsId = some ni ∧
        ni.uri = info.doc.target ∧ id ∈ ni.schemas) := by
  obtain ⟨own, out, linv, -, pr, -, hgiven, hf, finv⟩ := session_all he h
  refine ⟨out, hf, ?_, ?_, ?_, ?_⟩
  · rw [finv.len]; exact finv.keys
  · have h1 := congrArg (List.filterMap
      (fun p : Doc × Option Txt => if p.2 = none then some p.1 else none)) finv.schemas
    simp only [List.filterMap_map] at h1
    have e1 : ((fun p : Doc × Option Txt => if p.2 = none then some p.1 else none) ∘
      fun p : Nat × SInfo => (p.2.doc, p.2.loc)) =
      fun p => if p.2.loc = none then some p.2.doc else none := rfl
    have e2 : ((fun p : Doc × Option Txt => if p.2 = none then some p.1 else none) ∘
      fun s : PSchema => (s.doc, s.loc)) =
      fun s => if s.loc = none then some s.doc else none := rfl
    rw [e1, e2] at h1
    rw [h1, ← hgiven]
    rfl
  · intro u hu
    obtain ⟨l, x, s, hs, a⟩ := pr _ hu
    obtain ⟨k, hk⟩ := List.mem_iff_getElem?.1 hs
    obtain ⟨info, z1, z2, z3⟩ := finv.stored hk
    exact ⟨l, _, info, x, z1, by rw [z3, a]⟩
  · intro id info hg
    obtain ⟨i, s, hs, rfl, h1, h2, h3, ni, x, y, z⟩ := finv.entry hg
    exact ⟨ni, x, by rw [y, h1], z⟩

/-- `with_resolver`, mod.rs:136-156: the entries stay, the counter starts again. -/
def St.withResolver (st : St) : St := { entries := st.entries }

/-- A resolver that finds every location under its own name. -/
def Ex.world (docs : List (Txt × Doc)) : World :=
  { locate := fun r => some r.loc, doc := fun l => get docs l }

def Ex.plain : Doc := { target := none, links := [] }

/-- **C26 is false** when the resolver is changed after a schema was added: `finish` panics. -/
theorem C26_resolver_change_panics :
    ∃ (W : World) (d : Doc) (st st' : St),
      session W 5 (St.start [] true) [.str d] = some (.ok st) ∧
      session W 5 st.withResolver [.str d] = some (.ok st') ∧ finish st' = none :=
  ⟨Ex.world [], Ex.plain, _, _, rfl, rfl, by decide⟩

/-! ## Namespaces of included documents -/

/-- **C27** (only for the reference through which a document is first met) A loaded document
keeps its own target namespace; without one, it takes the one of a schema that refers to it (or
none, when the user asked for it). A document first met through an include has the target
namespace of the including schema, if that has one. -/
theorem C27_first_reference_partial {W : World} {fuel : Nat} {es : List PEntry} {b : Bool}
    {acts : List Act} {st : St} (he : schemasOf es = [])
    (h : session W fuel (St.start es b) acts = some (.ok st)) :
    ∃ out, finish st = some out ∧ ∀ id info l, get out.schemas id = some info → info.loc = some l →
      ∃ d, W.doc l = some d ∧ info.doc.links = d.links ∧
        (∀ t, d.target = some t → info.doc.target = some t) ∧
        ((∃ req, req.kind = .user ∧ W.locate req = some l ∧ info.doc.target = d.target) ∨
         ∃ id' info', get out.schemas id' = some info' ∧ ∃ link ∈ info'.doc.links,
          W.locate (linkReq info'.loc info'.doc.target link) = some l ∧
          (d.target = none → info.doc.target = info'.doc.target) ∧
          (link.kind ≠ .imp → ∀ t, info'.doc.target = some t → info.doc.target = some t)) := by
  obtain ⟨own, out, linv, tinv, pr, -, -, hf, finv⟩ := session_all he h
  refine ⟨out, hf, ?_⟩
  intro id info l hg hl
  obtain ⟨i, s, hs, rfl, h1, h2, -⟩ := finv.entry hg
  obtain ⟨d, req, hd, hloc, heff, ho⟩ := tinv.from_ s (List.mem_of_getElem? hs) l (by rw [← h2]; exact hl)
  refine ⟨d, hd, ?_, ?_, ?_⟩
  · rw [h1]; exact effective_links heff
  · intro t ht
    rw [h1]
    unfold effective at heff
    split at heff
    · simp only [Except.ok.injEq] at heff; rw [← heff]; exact ht
    · rw [ht] at heff
      simp only at heff
      split at heff
      · cases heff
      · simp only [Except.ok.injEq] at heff; rw [← heff]; exact ht
  · rcases ho with ⟨hk, hn⟩ | ⟨s', hs', link, hlink, rfl⟩
    · refine Or.inl ⟨req, hk, hloc, ?_⟩
      unfold effective at heff
      rw [hn] at heff
      simp only [Except.ok.injEq] at heff
      rw [h1, ← heff]
    · right
      obtain ⟨k', hk'⟩ := List.mem_iff_getElem?.1 hs'
      obtain ⟨info', z1, z2, z3⟩ := finv.stored hk'
      have hcn : (s'.req link).curNs = s'.doc.target := by
        unfold PSchema.req linkReq; split <;> rfl
      refine ⟨_, info', z1, link, by rw [z2]; exact hlink, by rw [z2, z3]; exact hloc, ?_, ?_⟩
      · intro hdt
        rw [h1, z2]
        unfold effective at heff
        rw [hcn, hdt] at heff
        cases ht : s'.doc.target with
        | none =>
          rw [ht] at heff
          simp only [Except.ok.injEq] at heff
          rw [← heff]; exact hdt
        | some t =>
          rw [ht] at heff
          simp only [Except.ok.injEq] at heff
          rw [← heff]
      · intro hk t ht
        rw [z2] at ht
        rw [h1]
        have hki : (s'.req link).kind = .incl := by
          unfold PSchema.req linkReq; split
          · rename_i hk'; exact absurd hk' hk
          · rfl
        unfold effective at heff
        rw [hcn, ht] at heff
        simp only at heff
        cases hdt : d.target with
        | none =>
          rw [hdt] at heff
          simp only [Except.ok.injEq] at heff
          rw [← heff]
        | some t' =>
          rw [hdt] at heff
          simp only [hki, true_and] at heff
          split at heff
          · cases heff
          · rename_i hne
            simp only [Except.ok.injEq] at heff
            rw [← heff, hdt]
            simp only [ne_eq, Decidable.not_not] at hne
            rw [hne]

/-- Target namespaces with the documents' locations. -/
def targets (st : St) : List (Option Txt × Option Txt) :=
  (schemasOf st.entries).map fun s => (s.loc, s.doc.target)

namespace Ex

def tA : Txt := "urn:a".toList
def tB : Txt := "urn:b".toList
def lC : Txt := "c.xsd".toList
def lA : Txt := "a.xsd".toList
def lB : Txt := "b.xsd".toList

/-- A document that refers to `c.xsd`. -/
def refDoc (t : Txt) (k : LinkKind) : Doc := { target := some t, links := [⟨k, lC, none⟩] }

def run (docs : List (Txt × Doc)) (acts : List Act) : Option (List (Option Txt × Option Txt)) :=
  match session (world docs) 10 (St.start [] true) acts with
  | some (.ok st) => some (targets st)
  | _ => none

end Ex

open Ex

/-- **C27 is false** for a document without target namespace that is included by two schemas of
different namespaces: only the first gets its definitions. -/
theorem C27_second_include_ignored :
    run [(lA, refDoc tA .incl), (lB, refDoc tB .incl), (lC, plain)] [.url lA, .url lB] =
      some [(some lA, some tA), (some lC, some tA), (some lB, some tB)] := by decide

/-- **C27 is false** for an included document of another namespace, if it was loaded before: it
is not rejected. -/
theorem C27_mismatch_accepted :
    run [(lA, refDoc tA .incl), (lC, { target := some tB, links := [] })] [.url lC, .url lA] =
      some [(some lC, some tB), (some lA, some tA)] ∧
    run [(lA, refDoc tA .incl), (lC, { target := some tB, links := [] })] [.url lA, .url lC] =
      none := by decide

/-- **C27 is false** for an imported document without target namespace: it takes the namespace of
the importing schema. -/
theorem C27_import_inherits :
    run [(lA, refDoc tA .imp), (lC, plain)] [.url lA] =
      some [(some lA, some tA), (some lC, some tA)] := by decide

/-- The hypotheses of the theorems above are met: a cycle of includes, and a document given
directly. -/
example : ∃ st, session (world [(lA, { target := some tA, links := [⟨.incl, lB, none⟩] }),
      (lB, { target := none, links := [⟨.incl, lA, none⟩, ⟨.imp, lC, some tB⟩] }),
      (lC, { target := some tB, links := [] })]) 10 (St.start [.anonymous] true)
      [.url lA, .str plain, .url lB] = some (.ok st) ∧
    targets st = [(some lA, some tA), (some lB, some tA), (some lC, some tB), (none, none)] ∧
    (finish st).map (fun o => (keys o.schemas, o.schemas.map (·.2.deps))) =
      some ([1, 2, 3, 4], [[(lB, .incl, 2)], [(lA, .incl, 1), (lC, .imp, 3)], [], []]) :=
  ⟨_, rfl, rfl, rfl⟩

/-- Finitely many locations: `locate` may answer only for known documents. -/
example : ∃ W : World, (∀ r l, W.locate r = some l → l ∈ [lA, lB]) ∧
    W.locate { loc := lA, kind := .user } = some lA := by
  refine ⟨⟨fun r => if r.loc ∈ [lA, lB] then some r.loc else none, fun _ => some plain⟩, ?_, by decide⟩
  intro r l h
  simp only at h
  split at h
  · rename_i hm
    simp only [Option.some.injEq] at h
    rw [← h]; exact hm
  · cases h

end Verif.Parser

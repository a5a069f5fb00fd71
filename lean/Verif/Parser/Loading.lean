import Verif.Util.Assoc
import Verif.Util.Dfs
import Verif.Models.IdentCache

/-!
# Loading schema documents (C24, C26, C27)

`Parser`, xsd-parser/src/pipeline/parser/mod.rs 66-568. A document is its target namespace, its
references to other documents and the prefixes it declares; the XML parsing itself is not
modelled. The resolver and the documents are a parameter (`World`): `locate` is what
`Resolver::resolve` answers, `doc` is the parsed document at a location, so a document only
depends on its location. Temporary ids do not wrap around.
-/

namespace Verif.Parser

open Verif.Assoc Verif.Models

inductive LinkKind where
  | incl
  | imp
  | over
  | redef
deriving DecidableEq, Repr

/-- `xs:include`, `xs:import` with a location, `xs:override`, `xs:redefine`. -/
structure Link where
  kind : LinkKind
  at_ : Txt
  ns : Option Txt := none
deriving DecidableEq, Repr

/-- A schema document. -/
structure Doc where
  target : Option Txt
  links : List Link
  prefixes : List (Option Txt × List Txt) := []
deriving DecidableEq, Repr

/-- `ResolveRequestType`, resolver/mod.rs. -/
inductive ReqKind where
  | user
  | incl
  | imp
deriving DecidableEq, Repr

/-- `ResolveRequest`, resolver/mod.rs. -/
structure Req where
  loc : Txt
  reqNs : Option Txt := none
  cur : Option Txt := none
  curNs : Option Txt := none
  kind : ReqKind
deriving DecidableEq, Repr

/-- The resolver and the documents it gives access to. -/
structure World where
  locate : Req → Option Txt
  doc : Txt → Option Doc

/-- `ParserEntry::Schema`, mod.rs:90-98; `target_ns` is `doc.target`. -/
structure PSchema where
  id : Nat
  doc : Doc
  loc : Option Txt
  deps : List (Txt × LinkKind × Nat)
deriving DecidableEq, Repr

/-- `ParserEntry`, mod.rs:83-99. -/
inductive PEntry where
  | anonymous
  | ns (pre uri : Txt)
  | schema (s : PSchema)
deriving DecidableEq, Repr

/-- `Parser`, mod.rs:66-77 (without the resolver and the flags for prefixes). -/
structure St where
  cache : List (Txt × List Nat) := []
  entries : List PEntry := []
  pending : List (Nat × Req) := []
  next : Nat := 0
  resolveIncludes : Bool := true

inductive LErr where
  | unresolved (r : Req)
  | parse (loc : Txt)
  | mismatch (loc : Txt) (found expected : Txt)
deriving DecidableEq, Repr

/-- `import_req`, `include_req`, mod.rs:848-888. -/
def linkReq (loc target : Option Txt) (l : Link) : Req :=
  match l.kind with
  | .imp => { loc := l.at_, reqNs := l.ns, cur := loc, curNs := target, kind := .imp }
  | _ => { loc := l.at_, cur := loc, curNs := target, kind := .incl }

/-- One reference in `add_schema`, mod.rs:524-553, with `add_pending` (429-437). -/
def addLink (loc target : Option Txt) (p : St × List (Txt × LinkKind × Nat)) (l : Link) :
    St × List (Txt × LinkKind × Nat) :=
  ({ p.1 with
      next := p.1.next + 1
      pending := p.1.pending ++ [(p.1.next, linkReq loc target l)] },
    upsert p.2 l.at_ fun _ => (l.kind, p.1.next))

/-- `add_schema`, mod.rs:502-568. -/
def addSchema (st : St) (id : Nat) (doc : Doc) (loc : Option Txt) : St :=
  let p := if st.resolveIncludes then doc.links.foldl (addLink loc doc.target) (st, []) else (st, [])
  { p.1 with entries := p.1.entries ++ [.schema ⟨id, doc, loc, p.2⟩] }

/-- The target namespace check of `resolve_location`, mod.rs:476-492. -/
def effective (l : Txt) (req : Req) (doc : Doc) : Except LErr Doc :=
  match req.curNs with
  | none => .ok doc
  | some cur =>
    match doc.target with
    | some ns => if req.kind = .incl ∧ ns ≠ cur then .error (.mismatch l ns cur) else .ok doc
    | none => .ok { doc with target := some cur }

/-- `resolve_location`, mod.rs:448-500. -/
def resolveLocation (W : World) (st : St) (id : Nat) (req : Req) : Except LErr St :=
  match W.locate req with
  | none => .error (.unresolved req)
  | some l =>
    match get st.cache l with
    | some ids => .ok { st with cache := upsert st.cache l fun _ => setInsert id ids }
    | none =>
      match W.doc l with
      | none => .error (.parse l)
      | some doc =>
        match effective l req doc with
        | .error e => .error e
        | .ok doc =>
          let st := addSchema st id doc (some l)
          .ok { st with cache := upsert st.cache l fun _ => [id] }

/-- `resolve_pending`, mod.rs:439-445; `none`: more rounds are needed. -/
def resolvePending (W : World) : Nat → St → Option (Except LErr St)
  | 0, _ => none
  | n + 1, st =>
    match st.pending with
    | [] => some (.ok st)
    | (id, req) :: ps =>
      match resolveLocation W { st with pending := ps } id req with
      | .error e => some (.error e)
      | .ok st => resolvePending W n st

/-- The calls of the builder interface: `with_anonymous_namespace`, `with_namespace`,
`add_schema_from_str` (and `_from_reader`), `add_schema_from_url` (and `_from_file`). -/
inductive Act where
  | anonymous
  | ns (pre uri : Txt)
  | str (doc : Doc)
  | url (u : Txt)

/-- One call, mod.rs:190-220 and 286-420. -/
def act (W : World) (fuel : Nat) (st : St) : Act → Option (Except LErr St)
  | .anonymous => some (.ok { st with entries := st.entries ++ [.anonymous] })
  | .ns p u => some (.ok { st with entries := st.entries ++ [.ns p u] })
  | .str doc =>
    resolvePending W fuel (addSchema { st with next := st.next + 1 } st.next doc none)
  | .url u =>
    match resolveLocation W { st with next := st.next + 1 } st.next { loc := u, kind := .user } with
    | .error e => some (.error e)
    | .ok st => resolvePending W fuel st

/-- A sequence of calls. -/
def session (W : World) (fuel : Nat) : St → List Act → Option (Except LErr St)
  | st, [] => some (.ok st)
  | st, a :: as =>
    match act W fuel st a with
    | none => none
    | some (.error e) => some (.error e)
    | some (.ok st) => session W fuel st as

/-- The schemas among the entries. -/
def schemasOf (es : List PEntry) : List PSchema :=
  es.filterMap fun
    | .schema s => some s
    | _ => none

theorem schemasOf_snoc (es : List PEntry) (s : PSchema) :
    schemasOf (es ++ [.schema s]) = schemasOf es ++ [s] := by simp [schemasOf]

/-! ## Invariant -/

/-- Ghost: who uses a temporary id. -/
inductive Owner where
  | pend
  | anon
  | loc (l : Txt)
deriving DecidableEq

/-- The request that belongs to a reference. -/
def PSchema.req (s : PSchema) (l : Link) : Req := linkReq s.loc s.doc.target l

structure LInv (W : World) (st : St) (P : List (Nat × Req)) (own : Nat → Owner) : Prop where
  keyed : Keyed st.cache
  cacheOwn : ∀ l ids, get st.cache l = some ids → ∀ i ∈ ids, own i = .loc l ∧ i < st.next
  pendOwn : ∀ p ∈ P, own p.1 = .pend ∧ p.1 < st.next
  pendNodup : (P.map (·.1)).Nodup
  anonOwn : ∀ s ∈ schemasOf st.entries, s.loc = none → own s.id = .anon ∧ s.id < st.next
  located : ∀ s ∈ schemasOf st.entries, ∀ l, s.loc = some l →
    ∃ ids, get st.cache l = some ids ∧ s.id ∈ ids
  cached : ∀ l, l ∈ keys st.cache → ∃ s ∈ schemasOf st.entries, s.loc = some l
  idsNodup : ((schemasOf st.entries).map (·.id)).Nodup
  locsNodup : ((schemasOf st.entries).filterMap (·.loc)).Nodup
  docs : ∀ s ∈ schemasOf st.entries, ∀ l, s.loc = some l →
    ∃ d, W.doc l = some d ∧ s.doc.links = d.links
  depKeyed : ∀ s ∈ schemasOf st.entries, Keyed s.deps
  deps : ∀ s ∈ schemasOf st.entries, ∀ a k d, get s.deps a = some (k, d) →
    ∃ link ∈ s.doc.links, link.at_ = a ∧ link.kind = k ∧
      ((d, s.req link) ∈ P ∨
        ∃ l ids, W.locate (s.req link) = some l ∧ get st.cache l = some ids ∧ d ∈ ids)
  links : st.resolveIncludes = true → ∀ s ∈ schemasOf st.entries, ∀ link ∈ s.doc.links,
    link.at_ ∈ keys s.deps ∧
      ((∃ d, (d, s.req link) ∈ P) ∨ ∃ l, W.locate (s.req link) = some l ∧ l ∈ keys st.cache)

/-- What the references of a document add. -/
theorem addLinks_spec (loc target : Option Txt) (st : St) (links : List Link) :
    ∃ N deps, links.foldl (addLink loc target) (st, []) =
        ({ st with next := st.next + links.length, pending := st.pending ++ N }, deps) ∧
      N.map (·.1) = List.range' st.next links.length ∧ Keyed deps ∧
      (∀ l ∈ links, l.at_ ∈ keys deps ∧ ∃ d, (d, linkReq loc target l) ∈ N) ∧
      (∀ a k d, get deps a = some (k, d) → ∃ l ∈ links, l.at_ = a ∧ l.kind = k ∧
        (d, linkReq loc target l) ∈ N) := by
  induction links using rev_induct with
  | nil => exact ⟨[], [], by simp, rfl, keyed_nil, by simp, by simp [Assoc.get]⟩
  | snoc links l ih =>
    obtain ⟨N, deps, h1, h2, h3, h4, h5⟩ := ih
    refine ⟨N ++ [(st.next + links.length, linkReq loc target l)],
      upsert deps l.at_ fun _ => (l.kind, st.next + links.length), ?_, ?_, h3.upsert _ _, ?_, ?_⟩
    · rw [List.foldl_append, h1]
      simp only [List.foldl_cons, List.foldl_nil, addLink, List.length_append, List.length_cons,
        List.length_nil, List.append_assoc]
      rfl
    · rw [List.map_append, h2, List.length_append, List.length_singleton, List.range'_concat]
      simp
    · intro l' hl'
      rw [mem_keys_upsert]
      rcases List.mem_append.1 hl' with hl' | hl'
      · obtain ⟨a, d, b⟩ := h4 l' hl'
        exact ⟨Or.inr a, d, List.mem_append_left _ b⟩
      · simp at hl'; subst hl'
        exact ⟨Or.inl rfl, _, List.mem_append_right _ (List.mem_singleton.2 rfl)⟩
    · intro a k d hg
      rw [get_upsert] at hg
      by_cases ha : l.at_ = a
      · rw [if_pos ha] at hg
        simp only [Option.some.injEq, Prod.mk.injEq] at hg
        obtain ⟨rfl, rfl⟩ := hg
        exact ⟨l, by simp, ha, rfl, by simp⟩
      · rw [if_neg ha] at hg
        obtain ⟨l', hl', x, y, z⟩ := h5 a k d hg
        exact ⟨l', List.mem_append_left _ hl', x, y, List.mem_append_left _ z⟩

/-- A new document in the state: with its location in the cache, if it has one. -/
def place (st : St) (id : Nat) (doc : Doc) (loc : Option Txt) : St :=
  let st := addSchema st id doc loc
  match loc with
  | none => st
  | some l => { st with cache := upsert st.cache l fun _ => [id] }

def Owner.ofLoc : Option Txt → Owner
  | none => .anon
  | some l => .loc l

theorem place_inv {W : World} {st : St} {own : Nat → Owner} {id : Nat} {doc : Doc}
    {loc : Option Txt} {r : Req}
    (inv : LInv W st ((id, r) :: st.pending) own)
    (hloc : ∀ l, loc = some l → get st.cache l = none ∧ W.locate r = some l ∧
      ∃ d, W.doc l = some d ∧ doc.links = d.links)
    (hnone : loc = none → ∀ s ∈ schemasOf st.entries, ∀ link ∈ s.doc.links, s.req link ≠ r) :
    ∃ own', LInv W (place st id doc loc) (place st id doc loc).pending own' := by
  obtain ⟨hid, hidlt⟩ := inv.pendOwn (id, r) (by simp)
  simp only at hid hidlt
  have hpn : id ∉ st.pending.map (·.1) ∧ (st.pending.map (·.1)).Nodup :=
    List.nodup_cons.1 inv.pendNodup
  -- the new references
  obtain ⟨N, deps, next', hstep, hN, hle, hdk, hl4, hl5⟩ : ∃ N deps next',
      addSchema st id doc loc = { st with
        next := next', pending := st.pending ++ N,
        entries := st.entries ++ [.schema ⟨id, doc, loc, deps⟩] } ∧
      ((N.map (·.1)).Nodup ∧ ∀ p ∈ N, st.next ≤ p.1 ∧ p.1 < next') ∧ st.next ≤ next' ∧ Keyed deps ∧
      (st.resolveIncludes = true →
        ∀ l ∈ doc.links, l.at_ ∈ keys deps ∧ ∃ d, (d, linkReq loc doc.target l) ∈ N) ∧
      (∀ a k d, get deps a = some (k, d) → ∃ l ∈ doc.links, l.at_ = a ∧ l.kind = k ∧
        (d, linkReq loc doc.target l) ∈ N) := by
    unfold addSchema
    by_cases hri : st.resolveIncludes = true
    · obtain ⟨N, deps, h1, h2, h3, h4, h5⟩ := addLinks_spec loc doc.target st doc.links
      refine ⟨N, deps, st.next + doc.links.length, ?_, ⟨?_, ?_⟩, by omega, h3, fun _ => h4, h5⟩
      · simp only [if_pos hri, h1]
      · rw [h2]; exact List.nodup_range'
      · intro p hp
        have : p.1 ∈ N.map (·.1) := List.mem_map.2 ⟨p, hp, rfl⟩
        rw [h2, List.mem_range'_1] at this
        omega
    · refine ⟨[], [], st.next, ?_, ⟨by simp, by simp⟩, Nat.le_refl _, keyed_nil,
        fun h => absurd h hri, by simp [Assoc.get]⟩
      simp only [if_neg hri, List.append_nil]
  -- the new cache
  have hplace : ∃ cache', place st id doc loc = { st with
        next := next', pending := st.pending ++ N, cache := cache',
        entries := st.entries ++ [.schema ⟨id, doc, loc, deps⟩] } ∧ Keyed cache' ∧
      (∀ l ids, get cache' l = some ids → get st.cache l = some ids ∨ (loc = some l ∧ ids = [id])) ∧
      (∀ l ids, get st.cache l = some ids → get cache' l = some ids) ∧
      (∀ l, loc = some l → get cache' l = some [id]) := by
    unfold place
    rw [hstep]
    cases loc with
    | none =>
      refine ⟨st.cache, rfl, inv.keyed, fun l ids h => Or.inl h, fun l ids h => h, by simp⟩
    | some l =>
      obtain ⟨hg, -, -⟩ := hloc l rfl
      refine ⟨upsert st.cache l fun _ => [id], rfl, inv.keyed.upsert _ _, ?_, ?_, ?_⟩
      · intro l' ids h
        rw [get_upsert] at h
        by_cases hll : l = l'
        · rw [if_pos hll] at h; right; simp at h; exact ⟨by rw [hll], h.symm⟩
        · rw [if_neg hll] at h; exact Or.inl h
      · intro l' ids h
        rw [get_upsert, if_neg]
        · exact h
        · rintro rfl; rw [hg] at h; cases h
      · intro l' hl'
        simp only [Option.some.injEq] at hl'
        subst hl'
        rw [get_upsert, if_pos rfl]
  obtain ⟨cache', hpl, hck, hc1, hc2, hc3⟩ := hplace
  rw [hpl]
  have hkeys : ∀ l, l ∈ keys st.cache → l ∈ keys cache' := by
    intro l hl
    rw [← get_isSome] at hl ⊢
    obtain ⟨ids, hids⟩ := Option.isSome_iff_exists.1 hl
    rw [hc2 l ids hids]; rfl
  have hso : schemasOf (st.entries ++ [.schema ⟨id, doc, loc, deps⟩])
      = schemasOf st.entries ++ [⟨id, doc, loc, deps⟩] := schemasOf_snoc _ _
  -- old owners are neither the new id nor one of the new references
  have hold : ∀ i, own i ≠ .pend → i < st.next → (if i = id then Owner.ofLoc loc else
      if st.next ≤ i then .pend else own i) = own i := by
    intro i hi hlt
    rw [if_neg (fun hc => hi (by rw [hc]; exact hid)), if_neg (by omega)]
  refine ⟨fun i => if i = id then Owner.ofLoc loc else if st.next ≤ i then .pend else own i, ?_⟩
  constructor
  · exact hck
  · intro l ids hg i hi
    rcases hc1 l ids hg with hg | ⟨hl, rfl⟩
    · obtain ⟨a, b⟩ := inv.cacheOwn l ids hg i hi
      simp only
      rw [hold i (by rw [a]; simp) b]
      exact ⟨a, by omega⟩
    · simp at hi
      subst hi
      simp only [if_true, hl, Owner.ofLoc]
      exact ⟨trivial, by omega⟩
  · intro p hp
    rcases List.mem_append.1 hp with hp | hp
    · obtain ⟨a, b⟩ := inv.pendOwn p (List.mem_cons_of_mem _ hp)
      have hne : p.1 ≠ id := fun hc => hpn.1 (List.mem_map.2 ⟨p, hp, hc⟩)
      simp only
      rw [if_neg hne, if_neg (by omega)]
      exact ⟨a, by omega⟩
    · obtain ⟨a, b⟩ := hN.2 p hp
      simp only
      rw [if_neg (by omega), if_pos a]
      exact ⟨rfl, b⟩
  · simp only
    rw [List.map_append, List.nodup_append]
    refine ⟨hpn.2, hN.1, ?_⟩
    intro a ha b hb hab
    obtain ⟨p, hp, rfl⟩ := List.mem_map.1 ha
    obtain ⟨p', hp', rfl⟩ := List.mem_map.1 hb
    have := (inv.pendOwn p (List.mem_cons_of_mem _ hp)).2
    have := (hN.2 p' hp').1
    omega
  · simp only
    rw [hso]
    intro s hs hsl
    rcases List.mem_append.1 hs with hs | hs
    · obtain ⟨a, b⟩ := inv.anonOwn s hs hsl
      rw [hold s.id (by rw [a]; simp) b]
      exact ⟨a, by omega⟩
    · simp at hs; subst hs
      simp only at hsl
      simp only [if_true, hsl, Owner.ofLoc]
      exact ⟨trivial, by omega⟩
  · simp only
    rw [hso]
    intro s hs l hsl
    rcases List.mem_append.1 hs with hs | hs
    · obtain ⟨ids, a, b⟩ := inv.located s hs l hsl
      exact ⟨ids, hc2 l ids a, b⟩
    · simp at hs; subst hs
      simp only at hsl
      exact ⟨[id], hc3 l hsl, by simp⟩
  · simp only
    rw [hso]
    intro l hl
    rw [← get_isSome] at hl
    obtain ⟨ids, hids⟩ := Option.isSome_iff_exists.1 hl
    rcases hc1 l ids hids with h | ⟨h, -⟩
    · obtain ⟨s, hs, e⟩ := inv.cached l (by rw [← get_isSome, h]; rfl)
      exact ⟨s, List.mem_append_left _ hs, e⟩
    · exact ⟨_, List.mem_append_right _ (List.mem_singleton.2 rfl), h⟩
  · simp only
    rw [hso, List.map_append, List.nodup_append]
    refine ⟨inv.idsNodup, by simp, ?_⟩
    intro a ha b hb hab
    simp at hb
    obtain ⟨s, hs, rfl⟩ := List.mem_map.1 ha
    have hsid : s.id = id := by rw [hab, hb]
    cases hsl : s.loc with
    | none => have := (inv.anonOwn s hs hsl).1; rw [hsid, hid] at this; cases this
    | some l =>
      obtain ⟨ids, x, y⟩ := inv.located s hs l hsl
      have := (inv.cacheOwn l ids x _ y).1
      rw [hsid, hid] at this; cases this
  · simp only
    rw [hso, List.filterMap_append, List.nodup_append]
    refine ⟨inv.locsNodup, ?_, ?_⟩
    · cases loc <;> simp
    · intro a ha b hb hab
      obtain ⟨s, hs, hsl⟩ := List.mem_filterMap.1 ha
      cases loc with
      | none => simp at hb
      | some l =>
        simp at hb
        subst hb; subst hab
        obtain ⟨ids, x, -⟩ := inv.located s hs _ hsl
        rw [(hloc a rfl).1] at x; cases x
  · simp only
    rw [hso]
    intro s hs l hsl
    rcases List.mem_append.1 hs with hs | hs
    · exact inv.docs s hs l hsl
    · simp at hs; subst hs
      exact (hloc l hsl).2.2
  · simp only
    rw [hso]
    intro s hs
    rcases List.mem_append.1 hs with hs | hs
    · exact inv.depKeyed s hs
    · simp at hs; subst hs; exact hdk
  · simp only
    rw [hso]
    intro s hs a k d hg
    rcases List.mem_append.1 hs with hs' | hs
    · obtain ⟨link, hlink, x, y, z⟩ := inv.deps s hs' a k d hg
      refine ⟨link, hlink, x, y, ?_⟩
      rcases z with z | ⟨l, ids, z1, z2, z3⟩
      · rcases List.mem_cons.1 z with z | z
        · simp only [Prod.mk.injEq] at z
          obtain ⟨z0, z'⟩ := z
          cases hlo : loc with
          | none => exact absurd z' (hnone hlo s hs' link hlink)
          | some l =>
            right
            refine ⟨l, [id], ?_, hc3 l hlo, by simp [z0]⟩
            rw [z']; exact (hloc l hlo).2.1
        · exact Or.inl (List.mem_append_left _ z)
      · exact Or.inr ⟨l, ids, z1, hc2 l ids z2, z3⟩
    · simp at hs; subst hs
      obtain ⟨link, hlink, x, y, z⟩ := hl5 a k d hg
      exact ⟨link, hlink, x, y, Or.inl (List.mem_append_right _ z)⟩
  · simp only
    rw [hso]
    intro hri s hs link hlink
    rcases List.mem_append.1 hs with hs | hs
    · obtain ⟨x, y⟩ := inv.links hri s hs link hlink
      refine ⟨x, ?_⟩
      rcases y with ⟨d, y⟩ | ⟨l, y1, y2⟩
      · rcases List.mem_cons.1 y with y | y
        · simp only [Prod.mk.injEq] at y
          cases hlo : loc with
          | none => exact absurd y.2 (hnone hlo s hs link hlink)
          | some l =>
            refine Or.inr ⟨l, by rw [y.2]; exact (hloc l hlo).2.1, ?_⟩
            rw [← get_isSome, hc3 l hlo]; rfl
        · exact Or.inl ⟨d, List.mem_append_left _ y⟩
      · exact Or.inr ⟨l, y1, hkeys l y2⟩
    · simp at hs; subst hs
      obtain ⟨x, d, y⟩ := hl4 hri link hlink
      exact ⟨x, Or.inl ⟨d, List.mem_append_right _ y⟩⟩

theorem effective_links {l : Txt} {req : Req} {doc doc' : Doc} (h : effective l req doc = .ok doc') :
    doc'.links = doc.links := by
  unfold effective at h
  repeat' split at h
  all_goals first
    | (cases h; done)
    | (simp only [Except.ok.injEq] at h; subst h; rfl)

/-- Processing a request keeps the invariant. -/
theorem resolveLocation_inv {W : World} {st st' : St} {own : Nat → Owner} {id : Nat} {req : Req}
    (inv : LInv W st ((id, req) :: st.pending) own)
    (h : resolveLocation W st id req = .ok st') : ∃ own', LInv W st' st'.pending own' := by
  unfold resolveLocation at h
  cases hl : W.locate req with
  | none => rw [hl] at h; cases h
  | some l =>
    rw [hl] at h
    simp only at h
    cases hg : get st.cache l with
    | none =>
      rw [hg] at h
      simp only at h
      cases hd : W.doc l with
      | none => rw [hd] at h; cases h
      | some doc =>
        rw [hd] at h
        simp only at h
        cases he : effective l req doc with
        | error e => rw [he] at h; cases h
        | ok doc' =>
          rw [he] at h
          simp only [Except.ok.injEq] at h
          have hp : st' = place st id doc' (some l) := by rw [← h]; rfl
          rw [hp]
          refine place_inv inv ?_ (by simp)
          intro l' hl'
          simp only [Option.some.injEq] at hl'
          subst hl'
          exact ⟨hg, hl, doc, hd, effective_links he⟩
    | some ids =>
      rw [hg] at h
      simp only [Except.ok.injEq] at h
      subst h
      obtain ⟨hid, hidlt⟩ := inv.pendOwn (id, req) (by simp)
      simp only at hid hidlt
      have hpn : id ∉ st.pending.map (·.1) ∧ (st.pending.map (·.1)).Nodup :=
        List.nodup_cons.1 inv.pendNodup
      have hc : ∀ l' ids', get (upsert st.cache l fun _ => setInsert id ids) l' = some ids' →
          (l' = l ∧ ids' = setInsert id ids) ∨ (l' ≠ l ∧ get st.cache l' = some ids') := by
        intro l' ids' h
        rw [get_upsert] at h
        by_cases hll : l = l'
        · rw [if_pos hll] at h; simp at h; exact Or.inl ⟨hll.symm, h.symm⟩
        · rw [if_neg hll] at h; exact Or.inr ⟨Ne.symm hll, h⟩
      have hc' : ∀ l' ids', get st.cache l' = some ids' →
          ∃ ids'', get (upsert st.cache l fun _ => setInsert id ids) l' = some ids'' ∧
            ∀ i ∈ ids', i ∈ ids'' := by
        intro l' ids' h
        rw [get_upsert]
        by_cases hll : l = l'
        · subst hll
          rw [if_pos rfl]
          rw [hg] at h
          simp only [Option.some.injEq] at h
          subst h
          exact ⟨_, rfl, fun i hi => (mem_setInsert _ _ _).2 (Or.inr hi)⟩
        · rw [if_neg hll]; exact ⟨ids', h, fun i hi => hi⟩
      have hown : ∀ i, own i ≠ .pend → (if i = id then Owner.loc l else own i) = own i := by
        intro i hi
        rw [if_neg (fun hc => hi (by rw [hc]; exact hid))]
      refine ⟨fun i => if i = id then .loc l else own i, ?_⟩
      constructor
      · exact inv.keyed.upsert _ _
      · intro l' ids' h i hi
        rcases hc l' ids' h with ⟨rfl, rfl⟩ | ⟨-, h⟩
        · rcases (mem_setInsert _ _ _).1 hi with rfl | hi
          · simp only [if_true]; exact ⟨trivial, hidlt⟩
          · obtain ⟨a, b⟩ := inv.cacheOwn _ ids hg i hi
            simp only
            rw [hown i (by rw [a]; simp)]
            exact ⟨a, b⟩
        · obtain ⟨a, b⟩ := inv.cacheOwn _ ids' h i hi
          simp only
          rw [hown i (by rw [a]; simp)]
          exact ⟨a, b⟩
      · intro p hp
        obtain ⟨a, b⟩ := inv.pendOwn p (List.mem_cons_of_mem _ hp)
        simp only
        rw [if_neg (fun hc => hpn.1 (List.mem_map.2 ⟨p, hp, hc⟩))]
        exact ⟨a, b⟩
      · exact hpn.2
      · intro s hs hsl
        obtain ⟨a, b⟩ := inv.anonOwn s hs hsl
        simp only
        rw [hown s.id (by rw [a]; simp)]
        exact ⟨a, b⟩
      · intro s hs l' hsl
        obtain ⟨ids', a, b⟩ := inv.located s hs l' hsl
        obtain ⟨ids'', c, d⟩ := hc' l' ids' a
        exact ⟨ids'', c, d _ b⟩
      · intro l' hl'
        rw [mem_keys_upsert] at hl'
        rcases hl' with rfl | hl'
        · exact inv.cached _ (by rw [← get_isSome, hg]; rfl)
        · exact inv.cached _ hl'
      · exact inv.idsNodup
      · exact inv.locsNodup
      · exact inv.docs
      · exact inv.depKeyed
      · intro s hs a k d hgd
        obtain ⟨link, hlink, x, y, z⟩ := inv.deps s hs a k d hgd
        refine ⟨link, hlink, x, y, ?_⟩
        rcases z with z | ⟨l', ids', z1, z2, z3⟩
        · rcases List.mem_cons.1 z with z | z
          · simp only [Prod.mk.injEq] at z
            obtain ⟨z0, z'⟩ := z
            refine Or.inr ⟨l, setInsert id ids, by rw [z']; exact hl, ?_, ?_⟩
            · simp only; rw [get_upsert, if_pos rfl]
            · exact (mem_setInsert _ _ _).2 (Or.inl z0)
          · exact Or.inl z
        · obtain ⟨ids'', c, e⟩ := hc' l' ids' z2
          exact Or.inr ⟨l', ids'', z1, c, e _ z3⟩
      · intro hri s hs link hlink
        obtain ⟨x, y⟩ := inv.links hri s hs link hlink
        refine ⟨x, ?_⟩
        rcases y with ⟨d, y⟩ | ⟨l', y1, y2⟩
        · rcases List.mem_cons.1 y with y | y
          · simp only [Prod.mk.injEq] at y
            refine Or.inr ⟨l, by rw [y.2]; exact hl, ?_⟩
            rw [mem_keys_upsert]; exact Or.inl rfl
          · exact Or.inl ⟨d, y⟩
        · refine Or.inr ⟨l', y1, ?_⟩
          rw [mem_keys_upsert]; exact Or.inr y2

theorem resolvePending_inv {W : World} (n : Nat) : ∀ {st st' : St} {own : Nat → Owner},
    LInv W st st.pending own → resolvePending W n st = some (.ok st') →
    st'.pending = [] ∧ ∃ own', LInv W st' [] own' := by
  induction n with
  | zero => intro st st' own _ h; cases h
  | succ n ih =>
    intro st st' own inv h
    simp only [resolvePending] at h
    cases hp : st.pending with
    | nil =>
      rw [hp] at h inv
      simp only [Option.some.injEq, Except.ok.injEq] at h
      subst h
      exact ⟨hp, own, inv⟩
    | cons p ps =>
      obtain ⟨id, req⟩ := p
      rw [hp] at h inv
      simp only at h
      cases hr : resolveLocation W { st with pending := ps } id req with
      | error e => rw [hr] at h; cases h
      | ok st1 =>
        rw [hr] at h
        simp only at h
        have inv1 : LInv W { st with pending := ps } ((id, req) :: ps) own :=
          ⟨inv.keyed, inv.cacheOwn, inv.pendOwn, inv.pendNodup, inv.anonOwn, inv.located,
            inv.cached, inv.idsNodup, inv.locsNodup, inv.docs, inv.depKeyed, inv.deps, inv.links⟩
        obtain ⟨own', inv'⟩ := resolveLocation_inv inv1 hr
        exact ih inv' h

/-- A fresh id for a request of the user. -/
theorem fresh_inv {W : World} {st : St} {own : Nat → Owner} (inv : LInv W st [] own)
    (hp : st.pending = []) (r : Req) :
    ∃ own', LInv W { st with next := st.next + 1 } ((st.next, r) :: st.pending) own' := by
  have hne : ∀ i, i < st.next → (if i = st.next then Owner.pend else own i) = own i := by
    intro i hi; rw [if_neg (by omega)]
  refine ⟨fun i => if i = st.next then .pend else own i, ?_⟩
  constructor
  · exact inv.keyed
  · intro l ids h i hi
    obtain ⟨a, b⟩ := inv.cacheOwn l ids h i hi
    simp only; rw [hne i b]; exact ⟨a, by omega⟩
  · intro p hp'
    rw [hp] at hp'
    simp at hp'; subst hp'
    simp only [if_true]; exact ⟨trivial, by omega⟩
  · simp [hp]
  · intro s hs hsl
    obtain ⟨a, b⟩ := inv.anonOwn s hs hsl
    simp only; rw [hne _ b]; exact ⟨a, by omega⟩
  · exact inv.located
  · exact inv.cached
  · exact inv.idsNodup
  · exact inv.locsNodup
  · exact inv.docs
  · exact inv.depKeyed
  · intro s hs a k d hg
    obtain ⟨link, hlink, x, y, z⟩ := inv.deps s hs a k d hg
    rcases z with z | z
    · cases z
    · exact ⟨link, hlink, x, y, Or.inr z⟩
  · intro hri s hs link hlink
    obtain ⟨x, y⟩ := inv.links hri s hs link hlink
    rcases y with ⟨d, y⟩ | y
    · cases y
    · exact ⟨x, Or.inr y⟩

theorem linkReq_kind (loc target : Option Txt) (l : Link) : (linkReq loc target l).kind ≠ .user := by
  unfold linkReq
  split <;> simp

theorem LInv.entries {W : World} {st : St} {P : List (Nat × Req)} {own : Nat → Owner}
    (inv : LInv W st P own) {es : List PEntry} (h : schemasOf es = schemasOf st.entries) :
    LInv W { st with entries := es } P own :=
  ⟨inv.keyed, inv.cacheOwn, inv.pendOwn, inv.pendNodup, by simp only [h]; exact inv.anonOwn,
    by simp only [h]; exact inv.located, by simp only [h]; exact inv.cached,
    by simp only [h]; exact inv.idsNodup, by simp only [h]; exact inv.locsNodup,
    by simp only [h]; exact inv.docs, by simp only [h]; exact inv.depKeyed,
    by simp only [h]; exact inv.deps, by simp only [h]; exact inv.links⟩

theorem act_inv {W : World} {fuel : Nat} {a : Act} {st st' : St} {own : Nat → Owner}
    (inv : LInv W st [] own) (hp : st.pending = []) (h : act W fuel st a = some (.ok st')) :
    st'.pending = [] ∧ ∃ own', LInv W st' [] own' := by
  cases a with
  | anonymous =>
    simp only [act, Option.some.injEq, Except.ok.injEq] at h
    subst h
    refine ⟨hp, own, ?_⟩
    exact inv.entries (by simp [schemasOf])
  | ns p u =>
    simp only [act, Option.some.injEq, Except.ok.injEq] at h
    subst h
    refine ⟨hp, own, ?_⟩
    exact inv.entries (by simp [schemasOf])
  | str doc =>
    simp only [act] at h
    obtain ⟨own1, inv1⟩ := fresh_inv inv hp { loc := [], kind := .user }
    obtain ⟨own2, inv2⟩ := place_inv (doc := doc) (loc := none) inv1 (by simp) (by
      intro _ s _ link _ hc
      have := linkReq_kind s.loc s.doc.target link
      unfold PSchema.req at hc
      rw [hc] at this
      exact this rfl)
    exact resolvePending_inv fuel inv2 h
  | url u =>
    simp only [act] at h
    obtain ⟨own1, inv1⟩ := fresh_inv inv hp { loc := u, kind := .user }
    cases hr : resolveLocation W { st with next := st.next + 1 } st.next
        { loc := u, kind := .user } with
    | error e => rw [hr] at h; cases h
    | ok st1 =>
      rw [hr] at h
      simp only at h
      obtain ⟨own2, inv2⟩ := resolveLocation_inv inv1 hr
      exact resolvePending_inv fuel inv2 h

theorem session_inv {W : World} {fuel : Nat} (acts : List Act) : ∀ {st st' : St} {own : Nat → Owner},
    LInv W st [] own → st.pending = [] → session W fuel st acts = some (.ok st') →
    st'.pending = [] ∧ ∃ own', LInv W st' [] own' := by
  induction acts with
  | nil =>
    intro st st' own inv hp h
    simp only [session, Option.some.injEq, Except.ok.injEq] at h
    subst h
    exact ⟨hp, own, inv⟩
  | cons a as ih =>
    intro st st' own inv hp h
    simp only [session] at h
    cases ha : act W fuel st a with
    | none => rw [ha] at h; cases h
    | some r =>
      cases r with
      | error e => rw [ha] at h; cases h
      | ok st1 =>
        rw [ha] at h
        obtain ⟨hp1, own1, inv1⟩ := act_inv inv hp ha
        exact ih inv1 hp1 h

theorem init_inv (W : World) (b : Bool) : LInv W { resolveIncludes := b } [] (fun _ => .pend) := by
  constructor <;> simp [keyed_nil, schemasOf, Assoc.get, keys]

end Verif.Parser

import Verif.Parser.Finish
import Verif.Util.Decimal

/-!
# Prefixes of namespaces (C25)

`SchemasBuilder::build_prefix_cache` and `determine_prefixes`,
xsd-parser/src/pipeline/parser/mod.rs 675-716 and 787-845. The set of alternative prefixes of a
namespace is a `HashSet`; its iteration order is the order of the list `alts`.
-/

namespace Verif.Parser

open Verif.Assoc Verif.Models Verif.Decimal

/-- `PrefixEntry`, mod.rs:113-117. -/
structure PfxEntry where
  main : Option Txt := none
  alts : List Txt := []
deriving DecidableEq, Repr

abbrev PfxCache := List (Option Txt × PfxEntry)

def PfxCache.at (c : PfxCache) (ns : Option Txt) (f : PfxEntry → PfxEntry) : PfxCache :=
  upsert c ns fun e => f (e.getD {})

/-- The prefixes declared by one document, mod.rs:702-712. -/
def declare (c : PfxCache) (ps : List (Option Txt × List Txt)) : PfxCache :=
  ps.foldl (fun c (ns, l) =>
    l.foldl (fun c p => c.at ns fun e => { e with alts := setInsert p e.alts }) c) c

/-- `build_prefix_cache`, mod.rs:675-716. -/
def prefixEntry (c : PfxCache) : PEntry → PfxCache
  | .anonymous => c.at none id
  | .ns p u => c.at (some u) fun e => { e with main := some p }
  | .schema s =>
    let p := (get s.doc.prefixes s.doc.target).bind List.head?
    let c := c.at s.doc.target fun e =>
      match e.main, p with
      | none, p => { e with main := p }
      | some _, some p => { e with alts := setInsert p e.alts }
      | some _, none => e
    declare c s.doc.prefixes

def prefixCache (es : List PEntry) : PfxCache := es.foldl prefixEntry []

/-- A namespace with the prefixes it offers and the one it got. -/
structure Row where
  id : Nat
  main : Option Txt
  alts : List Txt
  pre : Option Txt := none
deriving DecidableEq, Repr

abbrev Known := List (Txt × Nat)

/-- The loop over `namespace_infos` (a `BTreeMap`, in the order of the ids). -/
def sweep (f : Row → Known → Row × Known) : List Row → Known → List Row × Known
  | [], k => ([], k)
  | r :: rs, k =>
    let (r', k') := f r k
    let (rs', k'') := sweep f rs k'
    (r' :: rs', k'')

/-- Main prefixes, mod.rs:789-801. -/
def mainStep (r : Row) (k : Known) : Row × Known :=
  if r.pre.isSome then (r, k)
  else match r.main with
    | none => (r, k)
    | some p =>
      if (get k p).isSome then (r, k)
      else ({ r with pre := some p }, upsert k p fun _ => r.id)

/-- One alternative prefix, mod.rs:811-816: there is no `break`. -/
def altTry (id : Nat) (x : Option Txt × Known) (p : Txt) : Option Txt × Known :=
  if (get x.2 p).isSome then x else (some p, upsert x.2 p fun _ => id)

/-- Alternative prefixes, mod.rs:804-818. -/
def altStep (r : Row) (k : Known) : Row × Known :=
  if r.pre.isSome then (r, k)
  else
    let x := r.alts.foldl (altTry r.id) (none, k)
    ({ r with pre := x.1 }, x.2)

/-- The generated prefix, mod.rs:833-839. -/
def generated (p : Txt) (id : Nat) : Txt := p ++ '_' :: dec id

/-- Generated prefixes, mod.rs:821-843. -/
def genStep (r : Row) (k : Known) : Row × Known :=
  if r.pre.isSome then (r, k)
  else match r.main.or r.alts.head? with
    | none => (r, k)
    | some p =>
      let q := generated p r.id
      ({ r with pre := some q }, upsert k q fun _ => r.id)

/-- `determine_prefixes`, mod.rs:787-845. -/
def determine (alternative generate : Bool) (rs : List Row) : List Row × Known :=
  let x := sweep mainStep rs []
  let x := if alternative then sweep altStep x.1 x.2 else x
  if generate then sweep genStep x.1 x.2 else x

/-- The namespaces at the end of `build`; `none` is the panic of `unwrap` (mod.rs:794). -/
def rowsOf (c : PfxCache) : List (Nat × NsInfo) → Option (List Row)
  | [] => some []
  | (id, i) :: l =>
    match get c i.uri, rowsOf c l with
    | some e, some rs => some ({ id, main := e.main, alts := e.alts } :: rs)
    | _, _ => none

/-- Iteration over a `BTreeMap`: in the order of the ids. -/
def insertById (p : Nat × NsInfo) : List (Nat × NsInfo) → List (Nat × NsInfo)
  | [] => [p]
  | q :: l => if p.1 ≤ q.1 then p :: q :: l else q :: insertById p l

def sortById : List (Nat × NsInfo) → List (Nat × NsInfo)
  | [] => []
  | p :: l => insertById p (sortById l)

theorem insertById_perm (p : Nat × NsInfo) (l : List (Nat × NsInfo)) :
    (insertById p l).Perm (p :: l) := by
  induction l with
  | nil => exact .refl _
  | cons q l ih =>
    unfold insertById
    split
    · exact .refl _
    · exact (ih.cons q).trans (.swap p q l)

theorem sortById_perm (l : List (Nat × NsInfo)) : (sortById l).Perm l := by
  induction l with
  | nil => exact .refl _
  | cons p l ih => exact (insertById_perm p _).trans (ih.cons p)

/-- The prefixes after `Parser::finish`. -/
def finishPrefixes (alternative generate : Bool) (st : St) : Option (List Row × Known) :=
  match finish st with
  | none => none
  | some o =>
    match rowsOf (prefixCache st.entries) (sortById o.infos) with
    | none => none
    | some rs => some (determine alternative generate rs)

/-! ## The stages -/

def Row.Same (r r' : Row) : Prop := r'.id = r.id ∧ r'.main = r.main ∧ r'.alts = r.alts

/-- The prefix of a namespace is registered for it. -/
def Row.Owns (r : Row) (k : Known) : Prop := ∀ p, r.pre = some p → get k p = some r.id

def Ext (k k' : Known) : Prop := ∀ p id, get k p = some id → get k' p = some id

def Row.Offers (r : Row) (p : Txt) : Prop := r.main = some p ∨ p ∈ r.alts

/-- The same namespaces with other prefixes. -/
inductive Rows : List Row → List Row → Prop
  | nil : Rows [] []
  | cons {r r' : Row} {l l' : List Row} : Row.Same r r' → Rows l l' → Rows (r :: l) (r' :: l')

theorem sweep_spec {f : Row → Known → Row × Known} (I : List Row → Known → Prop)
    (hstep : ∀ r rs k, I (r :: rs) k → r.Owns k →
      Row.Same r (f r k).1 ∧ Ext k (f r k).2 ∧ (f r k).1.Owns (f r k).2 ∧ I rs (f r k).2) :
    ∀ (rs : List Row) (k : Known), I rs k → (∀ r ∈ rs, r.Owns k) →
      Ext k (sweep f rs k).2 ∧ (∀ r ∈ (sweep f rs k).1, r.Owns (sweep f rs k).2) ∧
      Rows rs (sweep f rs k).1 ∧ I [] (sweep f rs k).2 := by
  intro rs
  induction rs with
  | nil => intro k h _; exact ⟨fun _ _ h => h, by simp [sweep], .nil, h⟩
  | cons r rs ih =>
    intro k hI ho
    obtain ⟨h1, h2, h3, h4⟩ := hstep r rs k hI (ho r (by simp))
    obtain ⟨a, b, c, d⟩ := ih (f r k).2 h4
      (fun r' hr' p hp => h2 _ _ (ho r' (List.mem_cons_of_mem _ hr') p hp))
    refine ⟨fun p id h => a _ _ (h2 _ _ h), ?_, .cons h1 c, d⟩
    intro r' hr'
    rcases List.mem_cons.1 hr' with rfl | hr'
    · exact fun p hp => a _ _ (h3 p hp)
    · exact b r' hr'

theorem ext_new {k : Known} {p : Txt} (id : Nat) (h : get k p = none) :
    Ext k (upsert k p fun _ => id) := by
  intro q i hq
  rw [get_upsert, if_neg]
  · exact hq
  · rintro rfl; rw [h] at hq; cases hq

/-- What may be registered: offered prefixes. -/
def FromOffers (all : List Row) (k : Known) : Prop :=
  ∀ p ∈ keys k, ∃ r ∈ all, r.Offers p

theorem mainStep_ok (all : List Row) (r : Row) (rs : List Row) (k : Known)
    (hI : (∀ x ∈ r :: rs, ∃ y ∈ all, Row.Same y x) ∧ FromOffers all k) (ho : r.Owns k) :
    Row.Same r (mainStep r k).1 ∧ Ext k (mainStep r k).2 ∧ (mainStep r k).1.Owns (mainStep r k).2 ∧
      ((∀ x ∈ rs, ∃ y ∈ all, Row.Same y x) ∧ FromOffers all (mainStep r k).2) := by
  have hrest : ∀ x ∈ rs, ∃ y ∈ all, Row.Same y x := fun x hx => hI.1 x (List.mem_cons_of_mem _ hx)
  have stay : Row.Same r r ∧ Ext k k ∧ r.Owns k ∧
      ((∀ x ∈ rs, ∃ y ∈ all, Row.Same y x) ∧ FromOffers all k) :=
    ⟨⟨rfl, rfl, rfl⟩, fun _ _ h => h, ho, hrest, hI.2⟩
  unfold mainStep
  split
  · exact stay
  · split
    · exact stay
    · rename_i p hp
      split
      · exact stay
      · rename_i hg
        have hg' : get k p = none := by simpa using hg
        refine ⟨⟨rfl, rfl, rfl⟩, ext_new _ hg', ?_, hrest, ?_⟩
        · intro q hq
          simp only [Option.some.injEq] at hq
          subst hq
          rw [get_upsert, if_pos rfl]
        · intro q hq
          rcases (mem_keys_upsert _ _ _ _).1 hq with rfl | hq
          · obtain ⟨y, hy, -, e, -⟩ := hI.1 r (by simp)
            exact ⟨y, hy, Or.inl (e ▸ hp)⟩
          · exact hI.2 q hq

theorem altFold_ok (all : List Row) (id : Nat) : ∀ (l : List Txt) (x : Option Txt × Known),
    (∀ p ∈ l, ∃ r ∈ all, r.Offers p) → FromOffers all x.2 →
    (∀ p, x.1 = some p → get x.2 p = some id) →
    Ext x.2 (l.foldl (altTry id) x).2 ∧ FromOffers all (l.foldl (altTry id) x).2 ∧
      (∀ p, (l.foldl (altTry id) x).1 = some p → get (l.foldl (altTry id) x).2 p = some id) := by
  intro l
  induction l with
  | nil => intro x _ h h'; exact ⟨fun _ _ h => h, h, h'⟩
  | cons p l ih =>
    intro x hl hf ho
    rw [List.foldl_cons]
    have hstep : Ext x.2 (altTry id x p).2 ∧ FromOffers all (altTry id x p).2 ∧
        (∀ q, (altTry id x p).1 = some q → get (altTry id x p).2 q = some id) := by
      unfold altTry
      split
      · exact ⟨fun _ _ h => h, hf, ho⟩
      · rename_i hg
        have hg' : get x.2 p = none := by simpa using hg
        refine ⟨ext_new _ hg', ?_, ?_⟩
        · intro q hq
          rcases (mem_keys_upsert _ _ _ _).1 hq with rfl | hq
          · exact hl _ (by simp)
          · exact hf q hq
        · intro q hq
          simp only [Option.some.injEq] at hq
          subst hq
          rw [get_upsert, if_pos rfl]
    obtain ⟨a, b, c⟩ := hstep
    obtain ⟨a', b', c'⟩ := ih _ (fun q hq => hl q (List.mem_cons_of_mem _ hq)) b c
    exact ⟨fun q i h => a' _ _ (a _ _ h), b', c'⟩

theorem altStep_ok (all : List Row) (r : Row) (rs : List Row) (k : Known)
    (hI : (∀ x ∈ r :: rs, ∃ y ∈ all, Row.Same y x) ∧ FromOffers all k) (ho : r.Owns k) :
    Row.Same r (altStep r k).1 ∧ Ext k (altStep r k).2 ∧ (altStep r k).1.Owns (altStep r k).2 ∧
      ((∀ x ∈ rs, ∃ y ∈ all, Row.Same y x) ∧ FromOffers all (altStep r k).2) := by
  have hrest : ∀ x ∈ rs, ∃ y ∈ all, Row.Same y x := fun x hx => hI.1 x (List.mem_cons_of_mem _ hx)
  unfold altStep
  split
  · exact ⟨⟨rfl, rfl, rfl⟩, fun _ _ h => h, ho, hrest, hI.2⟩
  · obtain ⟨y, hy, -, -, e⟩ := hI.1 r (by simp)
    obtain ⟨a, b, c⟩ := altFold_ok all r.id r.alts (none, k)
      (fun p hp => ⟨y, hy, Or.inr (e ▸ hp)⟩) hI.2 (by simp)
    exact ⟨⟨rfl, rfl, rfl⟩, a, c, hrest, b⟩

theorem dec_no_underscore (n : Nat) : '_' ∉ dec n := by
  intro h
  have := dec_isDigit n _ h
  revert this; decide

theorem split_last {a b c d : List Char} (hb : '_' ∉ b) (hd : '_' ∉ d)
    (h : a ++ '_' :: b = c ++ '_' :: d) : a = c ∧ b = d := by
  rcases List.append_eq_append_iff.1 h with ⟨e, h1, h2⟩ | ⟨e, h1, h2⟩
  · cases e with
    | nil => simp at h1 h2; exact ⟨h1.symm, h2⟩
    | cons x e =>
      simp only [List.cons_append, List.cons.injEq] at h2
      exact absurd (h2.2 ▸ List.mem_append_right e (List.mem_cons_self)) hb
  · cases e with
    | nil => simp at h1 h2; exact ⟨h1, h2.symm⟩
    | cons x e =>
      simp only [List.cons_append, List.cons.injEq] at h2
      exact absurd (h2.2 ▸ List.mem_append_right e (List.mem_cons_self)) hd

theorem generated_inj {p q : Txt} {i j : Nat} (h : generated p i = generated q j) : p = q ∧ i = j := by
  obtain ⟨a, b⟩ := split_last (dec_no_underscore i) (dec_no_underscore j) h
  exact ⟨a, dec_inj b⟩

theorem Row.offered {r : Row} {p : Txt} (h : r.main.or r.alts.head? = some p) : r.Offers p := by
  cases hm : r.main with
  | some m => rw [hm] at h; simp at h; exact Or.inl (by rw [hm, h])
  | none =>
    rw [hm] at h
    simp only [Option.none_or] at h
    exact Or.inr (List.mem_of_mem_head? h)

/-- The generated prefixes of these rows are free. -/
def FreeFor (rs : List Row) (k : Known) : Prop :=
  (rs.map (·.id)).Nodup ∧ ∀ r ∈ rs, ∀ p, r.Offers p → generated p r.id ∉ keys k

theorem genStep_ok (r : Row) (rs : List Row) (k : Known) (hI : FreeFor (r :: rs) k) (ho : r.Owns k) :
    Row.Same r (genStep r k).1 ∧ Ext k (genStep r k).2 ∧ (genStep r k).1.Owns (genStep r k).2 ∧
      FreeFor rs (genStep r k).2 := by
  have hn : r.id ∉ rs.map (·.id) ∧ (rs.map (·.id)).Nodup := List.nodup_cons.1 hI.1
  have stay : Row.Same r r ∧ Ext k k ∧ r.Owns k ∧ FreeFor rs k :=
    ⟨⟨rfl, rfl, rfl⟩, fun _ _ h => h, ho, hn.2, fun x hx => hI.2 x (List.mem_cons_of_mem _ hx)⟩
  unfold genStep
  split
  · exact stay
  · split
    · exact stay
    · rename_i p hp
      have hfree := hI.2 r (by simp) p (Row.offered hp)
      refine ⟨⟨rfl, rfl, rfl⟩, ext_new _ ((get_eq_none _ _).2 hfree), ?_, hn.2, ?_⟩
      · intro q hq
        simp only [Option.some.injEq] at hq
        subst hq
        simp only
        rw [get_upsert, if_pos rfl]
      · intro x hx q hq hc
        rcases (mem_keys_upsert _ _ _ _).1 hc with hc | hc
        · have := (generated_inj hc).2
          exact hn.1 (List.mem_map.2 ⟨x, hx, this⟩)
        · exact hI.2 x (List.mem_cons_of_mem _ hx) q hq hc

theorem forall₂_same_refl (rs : List Row) : Rows rs rs := by
  induction rs with
  | nil => exact .nil
  | cons r rs ih => exact .cons ⟨rfl, rfl, rfl⟩ ih

theorem forall₂_same_trans {a b c : List Row} (h : Rows a b)
    (h' : Rows b c) : Rows a c := by
  induction h generalizing c with
  | nil => exact h'
  | cons x _ ih =>
    cases h' with
    | cons y ys =>
      exact .cons ⟨y.1.trans x.1, y.2.1.trans x.2.1, y.2.2.trans x.2.2⟩ (ih ys)

theorem forall₂_same_mem {a b : List Row} (h : Rows a b) :
    (∀ x ∈ b, ∃ y ∈ a, Row.Same y x) ∧ b.map (·.id) = a.map (·.id) := by
  induction h with
  | nil => exact ⟨by simp, rfl⟩
  | cons x _ ih =>
    refine ⟨?_, by simp [x.1, ih.2]⟩
    intro z hz
    rcases List.mem_cons.1 hz with rfl | hz
    · exact ⟨_, by simp, x⟩
    · obtain ⟨y, hy, e⟩ := ih.1 z hz
      exact ⟨y, List.mem_cons_of_mem _ hy, e⟩

/-- The first two stages. -/
def assign (alternative : Bool) (rs : List Row) : List Row × Known :=
  let x := sweep mainStep rs []
  if alternative then sweep altStep x.1 x.2 else x

theorem assign_ok (alternative : Bool) (rs : List Row) (h0 : ∀ r ∈ rs, r.pre = none) :
    (∀ r ∈ (assign alternative rs).1, r.Owns (assign alternative rs).2) ∧
    Rows rs (assign alternative rs).1 ∧
    FromOffers rs (assign alternative rs).2 := by
  obtain ⟨-, a, b, -, c⟩ := sweep_spec
    (fun l k => (∀ x ∈ l, ∃ y ∈ rs, Row.Same y x) ∧ FromOffers rs k)
    (mainStep_ok rs) rs [] ⟨fun x hx => ⟨x, hx, rfl, rfl, rfl⟩, by simp [FromOffers, keys]⟩
    (fun r hr p hp => by rw [h0 r hr] at hp; cases hp)
  unfold assign
  cases alternative with
  | false => exact ⟨a, b, c⟩
  | true =>
    obtain ⟨-, a', b', -, c'⟩ := sweep_spec
      (fun l k => (∀ x ∈ l, ∃ y ∈ rs, Row.Same y x) ∧ FromOffers rs k)
      (altStep_ok rs) (sweep mainStep rs []).1 (sweep mainStep rs []).2
      ⟨(forall₂_same_mem b).1, c⟩ a
    exact ⟨a', forall₂_same_trans b b', c'⟩

/-- No offered prefix looks like one generated from an offered prefix. -/
def NoClash (rs : List Row) : Prop :=
  ∀ r ∈ rs, ∀ r' ∈ rs, ∀ p q, r.Offers p → r'.Offers q → p ≠ generated q r'.id

theorem determine_ok (alternative generate : Bool) (rs : List Row) (h0 : ∀ r ∈ rs, r.pre = none)
    (hid : (rs.map (·.id)).Nodup) (hc : generate = true → NoClash rs) :
    (∀ r ∈ (determine alternative generate rs).1, r.Owns (determine alternative generate rs).2) ∧
    Rows rs (determine alternative generate rs).1 := by
  obtain ⟨a, b, c⟩ := assign_ok alternative rs h0
  cases hg : generate with
  | false => exact ⟨a, b⟩
  | true =>
    have hfree : FreeFor (assign alternative rs).1 (assign alternative rs).2 := by
      refine ⟨by rw [(forall₂_same_mem b).2]; exact hid, ?_⟩
      intro r hr p hp hk
      obtain ⟨y, hy, e1, e2, e3⟩ := (forall₂_same_mem b).1 r hr
      obtain ⟨z, hz, hzo⟩ := c _ hk
      refine hc hg z hz y hy _ p hzo ?_ (by rw [e1])
      rcases hp with hp | hp
      · exact Or.inl (by rw [← e2]; exact hp)
      · exact Or.inr (by rw [← e3]; exact hp)
    obtain ⟨-, a', b', -⟩ := sweep_spec FreeFor genStep_ok _ _ hfree a
    exact ⟨a', forall₂_same_trans b b'⟩

/-- After the last stage every row with an offered prefix has one. -/
theorem sweep_gen_gets (rs : List Row) : ∀ k, ∀ r ∈ (sweep genStep rs k).1,
    (∃ p, r.Offers p) → r.pre.isSome := by
  induction rs with
  | nil => intro k r hr; simp [sweep] at hr
  | cons r rs ih =>
    intro k x hx hp
    simp only [sweep] at hx
    rcases List.mem_cons.1 hx with rfl | hx
    · unfold genStep at hp ⊢
      split
      · assumption
      · rename_i hpre
        rw [if_neg hpre] at hp
        split
        · rename_i hnone
          rw [hnone] at hp
          obtain ⟨p, hp⟩ := hp
          simp only at hp
          rcases hp with hp | hp
          · rw [hp] at hnone; simp at hnone
          · cases hal : r.alts with
            | nil => rw [hal] at hp; cases hp
            | cons a l => rw [hal] at hnone; simp at hnone
        · rfl
    · exact ih _ x hx hp

/-! ## The namespaces of a parser -/

theorem mem_keys_at (c : PfxCache) (ns ns' : Option Txt) (f : PfxEntry → PfxEntry) :
    ns' ∈ keys (c.at ns f) ↔ ns' = ns ∨ ns' ∈ keys c := mem_keys_upsert _ _ _ _

theorem mem_keys_declare (ps : List (Option Txt × List Txt)) : ∀ (c : PfxCache) (ns : Option Txt),
    ns ∈ keys c → ns ∈ keys (declare c ps) := by
  have inner : ∀ (ns : Option Txt) (l : List Txt) (c : PfxCache) (n : Option Txt), n ∈ keys c →
      n ∈ keys (l.foldl (fun (c : PfxCache) p => c.at ns fun e => { e with alts := setInsert p e.alts }) c) := by
    intro ns l
    induction l with
    | nil => intro c n h; exact h
    | cons p l ih => intro c n h; exact ih _ n ((mem_keys_at _ _ _ _).2 (Or.inr h))
  unfold declare
  induction ps with
  | nil => intro c ns h; exact h
  | cons p ps ih => intro c ns h; exact ih _ ns (inner p.1 p.2 c ns h)

/-- The namespace of an entry. -/
def PEntry.uri : PEntry → Option Txt
  | .anonymous => none
  | .ns _ u => some u
  | .schema s => s.doc.target

theorem mem_keys_prefixEntry (c : PfxCache) (e : PEntry) (ns : Option Txt) :
    (ns = e.uri ∨ ns ∈ keys c) → ns ∈ keys (prefixEntry c e) := by
  intro h
  cases e with
  | anonymous => exact (mem_keys_at _ _ _ _).2 h
  | ns p u => exact (mem_keys_at c (some u) ns fun e => { e with main := some p }).2 h
  | schema s => exact mem_keys_declare _ _ _ ((mem_keys_at _ _ _ _).2 h)

theorem mem_keys_prefixCache (es : List PEntry) : ∀ e ∈ es, e.uri ∈ keys (prefixCache es) := by
  have key : ∀ (es : List PEntry) (c : PfxCache),
      (∀ ns ∈ keys c, ns ∈ keys (es.foldl prefixEntry c)) ∧
      ∀ e ∈ es, e.uri ∈ keys (es.foldl prefixEntry c) := by
    intro es
    induction es with
    | nil => intro c; simp
    | cons e es ih =>
      intro c
      obtain ⟨a, b⟩ := ih (prefixEntry c e)
      refine ⟨fun ns h => a ns (mem_keys_prefixEntry c e ns (Or.inr h)), ?_⟩
      intro e' he'
      rcases List.mem_cons.1 he' with rfl | he'
      · exact a _ (mem_keys_prefixEntry c _ _ (Or.inl rfl))
      · exact b e' he'
  exact (key es []).2

theorem namespace_infos {o o' : Out} {ns : Option Txt} {id : Nat} (h : o.namespace ns = some (id, o'))
    (hk : Keyed o.infos) : Keyed o'.infos ∧
      (∀ id' i, get o'.infos id' = some i → i.uri = ns ∨ get o.infos id' = some i) ∧
      id ∈ keys o'.infos := by
  unfold Out.namespace at h
  cases hkn : get o.known ns with
  | some id0 =>
    rw [hkn] at h
    by_cases hs : (get o.infos id0).isSome = true
    · simp only [if_pos hs, Option.some.injEq, Prod.mk.injEq] at h
      obtain ⟨rfl, rfl⟩ := h
      exact ⟨hk, fun _ _ h => Or.inr h, (get_isSome _ _).1 hs⟩
    · simp [if_neg hs] at h
  | none =>
    rw [hkn] at h
    simp only at h
    generalize (if ns.isNone then o.lastNs else o.lastNs + 1) = last at h
    generalize (if ns.isNone then 1 else last) = i at h
    by_cases hs : (get o.infos i).isSome = true
    · simp [if_pos hs] at h
    · simp only [if_neg hs, Option.some.injEq, Prod.mk.injEq] at h
      obtain ⟨h1, rfl⟩ := h
      refine ⟨hk.upsert _ _, ?_, ?_⟩
      · intro id' i' hg
        simp only [get_upsert] at hg
        by_cases hi : i = id'
        · rw [if_pos hi] at hg
          simp only [Option.some.injEq] at hg
          exact Or.inl (by rw [← hg])
        · rw [if_neg hi] at hg; exact Or.inr hg
      · simp only [mem_keys_upsert]; exact Or.inl h1.symm

theorem addEntry_uris {idc : List (Nat × Nat)} {o o' : Out} {e : PEntry} (inv : NInv o)
    (h : o.addEntry idc e = some o') (hk : Keyed o.infos) :
    Keyed o'.infos ∧ ∀ id i, get o'.infos id = some i →
      i.uri = e.uri ∨ ∃ i', get o.infos id = some i' ∧ i'.uri = i.uri := by
  have hns : ∀ ns, (o.namespace ns).map (·.2) = some o' → Keyed o'.infos ∧
      ∀ id i, get o'.infos id = some i → i.uri = ns ∨ ∃ i', get o.infos id = some i' ∧ i'.uri = i.uri := by
    intro ns h
    cases hn : o.namespace ns with
    | none => rw [hn] at h; cases h
    | some x =>
      obtain ⟨id, o1⟩ := x
      rw [hn] at h
      simp at h
      subst h
      obtain ⟨a, b, -⟩ := namespace_infos hn hk
      refine ⟨a, fun id i h => ?_⟩
      rcases b id i h with h | h
      · exact Or.inl h
      · exact Or.inr ⟨i, h, rfl⟩
  cases e with
  | anonymous => exact hns none h
  | ns p u => exact hns (some u) h
  | schema s =>
    simp only [Out.addEntry, Out.addSchema] at h
    cases hid : get idc s.id with
    | none => rw [hid] at h; cases h
    | some id =>
      rw [hid] at h
      simp only at h
      obtain ⟨nsId, o1, hn, -, -, ⟨ni, d, du⟩, -⟩ := namespace_ok inv s.doc.target
      rw [hn] at h
      simp only at h
      by_cases hs : (get o1.schemas id).isSome = true
      · simp [if_pos hs] at h
      · simp only [if_neg hs, Option.some.injEq] at h
        subst h
        obtain ⟨a, b, c⟩ := namespace_infos hn hk
        refine ⟨a.upsert _ _, ?_⟩
        intro id' i hg
        simp only [get_upsert] at hg
        by_cases hi : nsId = id'
        · rw [if_pos hi, d] at hg
          simp only [Option.some.injEq, Option.getD_some] at hg
          left
          rw [← hg]
          exact du
        · rw [if_neg hi] at hg
          rcases b id' i hg with h | h
          · exact Or.inl h
          · exact Or.inr ⟨i, h, rfl⟩

theorem addEntries_uris (idc : List (Nat × Nat)) (all es : List PEntry) : ∀ {o o' : Out} {ss : List PSchema},
    FInv idc ss o → Keyed o.infos → (∀ id i, get o.infos id = some i → ∃ e ∈ all, i.uri = e.uri) →
    (∀ e ∈ es, e ∈ all) →
    (∀ (k : Nat) s, (ss ++ schemasOf es)[k]? = some s → get idc s.id = some (k + 1)) →
    Out.addEntries idc (some o) es = some o' →
    Keyed o'.infos ∧ ∀ id i, get o'.infos id = some i → ∃ e ∈ all, i.uri = e.uri := by
  induction es with
  | nil =>
    intro o o' ss _ hk hu _ _ h
    simp only [Out.addEntries, List.foldl_nil, Option.some.injEq] at h
    subst h
    exact ⟨hk, hu⟩
  | cons e es ih =>
    intro o o' ss finv hk hu hall hidc h
    have hsplit : schemasOf (e :: es) = schemasOf [e] ++ schemasOf es := by
      rw [← schemasOf_append]; rfl
    obtain ⟨o1, h1, finv1⟩ := addEntry_ok finv e (by
      rintro s rfl
      refine hidc _ s ?_
      rw [hsplit, show schemasOf [PEntry.schema s] = [s] from rfl]; simp)
    simp only [Out.addEntries, List.foldl_cons, Option.bind_some, h1] at h
    obtain ⟨a, b⟩ := addEntry_uris finv.nss h1 hk
    refine ih finv1 a ?_ (fun x hx => hall x (List.mem_cons_of_mem _ hx)) ?_ h
    · intro id i hg
      rcases b id i hg with hg | ⟨i', hg, hi⟩
      · exact ⟨e, hall e (by simp), hg⟩
      · obtain ⟨e', he', hue⟩ := hu id i' hg
        exact ⟨e', he', by rw [← hi]; exact hue⟩
    · intro k s hs
      refine hidc k s ?_
      rw [hsplit, ← List.append_assoc]; exact hs

theorem rowsOf_ok (c : PfxCache) : ∀ l : List (Nat × NsInfo), (∀ p ∈ l, p.2.uri ∈ keys c) →
    ∃ rs, rowsOf c l = some rs ∧ rs.map (·.id) = l.map (·.1) ∧ (∀ r ∈ rs, r.pre = none) ∧
      ∀ r ∈ rs, ∃ i e, (r.id, i) ∈ l ∧ get c i.uri = some e ∧ r.main = e.main ∧ r.alts = e.alts := by
  intro l
  induction l with
  | nil => intro _; exact ⟨[], rfl, rfl, by simp, by simp⟩
  | cons p l ih =>
    intro h
    obtain ⟨id, i⟩ := p
    obtain ⟨rs, a, b, d, f⟩ := ih (fun q hq => h q (List.mem_cons_of_mem _ hq))
    have hk := h (id, i) (by simp)
    rw [← get_isSome, Option.isSome_iff_exists] at hk
    obtain ⟨e, he⟩ := hk
    refine ⟨_, by rw [rowsOf, he, a], by simp [b], ?_, ?_⟩
    · intro r hr
      rcases List.mem_cons.1 hr with rfl | hr
      · rfl
      · exact d r hr
    · intro r hr
      rcases List.mem_cons.1 hr with rfl | hr
      · exact ⟨i, e, by simp, he, rfl, rfl⟩
      · obtain ⟨i', e', x, y⟩ := f r hr
        exact ⟨i', e', List.mem_cons_of_mem _ x, y⟩

/-- The namespaces of a finished parser: one row per namespace, with the prefixes it offers. -/
theorem finish_rows {W : World} {fuel : Nat} {es : List PEntry} {b : Bool} {acts : List Act}
    {st : St} (he : schemasOf es = []) (h : session W fuel (St.start es b) acts = some (.ok st)) :
    ∃ out rs, finish st = some out ∧
      rowsOf (prefixCache st.entries) (sortById out.infos) = some rs ∧
      (rs.map (·.id)).Nodup ∧ (∀ r ∈ rs, r.pre = none) := by
  obtain ⟨own, out, linv, -, -, -, -, hf, finv⟩ := session_all he h
  have hinit : FInv (idCache st.cache (schemasOf st.entries)) [] ({} : Out) := by
    constructor
    · constructor <;> simp [Assoc.get, Assoc.keys]
    · rfl
    · simp
  obtain ⟨hk, hu⟩ := addEntries_uris _ st.entries st.entries hinit (by simp [Keyed, keys])
    (by simp [Assoc.get]) (fun e he => he)
    (fun k s hs => (linv.idc _ _).2 ⟨k, s, by simpa using hs, by simp [idsOf], rfl⟩) hf
  have hperm := sortById_perm out.infos
  obtain ⟨rs, a, b', c, -⟩ := rowsOf_ok (prefixCache st.entries)
    (sortById out.infos) (by
      intro p hp
      have hm := hperm.mem_iff.1 hp
      obtain ⟨e, he, hue⟩ := hu p.1 p.2 (get_of_mem hk hm)
      rw [hue]; exact mem_keys_prefixCache _ e he)
  refine ⟨out, rs, hf, a, ?_, c⟩
  rw [b']
  exact (hperm.map _).nodup_iff.2 hk

/-- **C25** (without generated prefixes, or when no offered prefix looks like a generated one)
`finish` determines the prefixes without a panic; no two namespaces have the same prefix, and the
lookup of a prefix yields the namespace that has it. With generated prefixes, every namespace
that offers a prefix gets one. This holds for every iteration order of the alternatives. -/
theorem C25_prefixes_distinct_partial {W : World} {fuel : Nat} {es : List PEntry} {b : Bool}
    {acts : List Act} {st : St} (he : schemasOf es = [])
    (h : session W fuel (St.start es b) acts = some (.ok st)) (alternative generate : Bool) :
    ∃ rows known, finishPrefixes alternative generate st = some (rows, known) ∧
      (rows.map (·.id)).Nodup ∧
      ((generate = true → NoClash rows) →
        (∀ r ∈ rows, ∀ p, r.pre = some p → get known p = some r.id) ∧
        (∀ r ∈ rows, ∀ r' ∈ rows, ∀ p, r.pre = some p → r'.pre = some p → r = r')) ∧
      (generate = true → ∀ r ∈ rows, (∃ p, r.Offers p) → r.pre.isSome) := by
  obtain ⟨out, rs, hf, hr, hid, hpre⟩ := finish_rows he h
  refine ⟨_, _, by rw [finishPrefixes, hf]; simp only [hr]; rfl, ?_⟩
  have hsame : Rows rs (determine alternative generate rs).1 := by
    obtain ⟨a, b, c⟩ := assign_ok alternative rs hpre
    cases generate with
    | false => exact b
    | true =>
      refine forall₂_same_trans b ?_
      show Rows _ (sweep genStep (assign alternative rs).1 (assign alternative rs).2).1
      have : ∀ (l : List Row) k, Rows l (sweep genStep l k).1 := by
        intro l
        induction l with
        | nil => intro k; exact .nil
        | cons r l ih =>
          intro k
          have hs : Row.Same r (genStep r k).1 := by
            unfold genStep
            split
            · exact ⟨rfl, rfl, rfl⟩
            · split <;> exact ⟨rfl, rfl, rfl⟩
          exact .cons hs (ih _)
      exact this _ _
  have hids : ((determine alternative generate rs).1.map (·.id)).Nodup := by
    rw [(forall₂_same_mem hsame).2]; exact hid
  refine ⟨hids, ?_, ?_⟩
  · intro hc
    have hc' : generate = true → NoClash rs := by
      intro hg r hr r' hr' p q hp hq
      have hback : ∀ x ∈ rs, ∃ y ∈ (determine alternative generate rs).1, Row.Same x y := by
        have : ∀ {a b : List Row}, Rows a b → ∀ x ∈ a, ∃ y ∈ b, Row.Same x y := by
          intro a b hab
          induction hab with
          | nil => simp
          | cons e _ ih =>
            intro x hx
            rcases List.mem_cons.1 hx with rfl | hx
            · exact ⟨_, by simp, e⟩
            · obtain ⟨y, hy, e⟩ := ih x hx
              exact ⟨y, List.mem_cons_of_mem _ hy, e⟩
        exact this hsame
      obtain ⟨y, hy, e⟩ := hback r hr
      obtain ⟨y', hy', e'⟩ := hback r' hr'
      have := hc hg y hy y' hy' p q
        (by rcases hp with hp | hp
            · exact Or.inl (by rw [e.2.1]; exact hp)
            · exact Or.inr (by rw [e.2.2]; exact hp))
        (by rcases hq with hq | hq
            · exact Or.inl (by rw [e'.2.1]; exact hq)
            · exact Or.inr (by rw [e'.2.2]; exact hq))
      rw [e'.1] at this
      exact this
    obtain ⟨a, -⟩ := determine_ok alternative generate rs hpre hid hc'
    refine ⟨a, ?_⟩
    intro r hr r' hr' p hp hp'
    have h1 := a r hr p hp
    rw [a r' hr' p hp'] at h1
    simp only [Option.some.injEq] at h1
    obtain ⟨j, hj⟩ := List.mem_iff_getElem?.1 hr
    obtain ⟨k, hk⟩ := List.mem_iff_getElem?.1 hr'
    have hjk : j = k := filterMap_index (f := fun x : Row => some x.id) (b := r.id)
      (by rw [show (fun x : Row => some x.id) = some ∘ (·.id) from rfl, List.filterMap_eq_map]; exact hids)
      hj hk rfl (by simp [h1])
    subst hjk
    rw [hj] at hk
    simpa using hk
  · intro hg
    subst hg
    exact sweep_gen_gets _ _

namespace Ex

/-- Three namespaces added by the user. -/
def three (a b c : String) : List Act :=
  [.ns a.toList "urn:1".toList, .ns b.toList "urn:2".toList, .ns c.toList "urn:3".toList]

def prefixes (alternative generate : Bool) (acts : List Act) : Option (List (Nat × Option Txt) × Known) :=
  match session (world []) 5 (St.start [] true) acts with
  | some (.ok st) => (finishPrefixes alternative generate st).map
      fun x => (x.1.map fun r => (r.id, r.pre), x.2)
  | _ => none

end Ex

/-- **C25 is false** when an offered prefix looks like a generated one: the second and the third
namespace share the prefix `a_3`, and the lookup of `a_3` does not yield the third. -/
theorem C25_generated_prefix_clashes :
    Ex.prefixes true true (Ex.three "a" "a" "a_3") =
      some ([(2, some "a".toList), (3, some "a_3".toList), (4, some "a_3".toList)],
        [("a".toList, 2), ("a_3".toList, 3)]) := by
  rw [Ex.prefixes]
  decide +kernel

/-- The prefix of a namespace depends on the iteration order of a hash set: it gets the last free
alternative, and keeps the others from everyone else. -/
theorem C25_alternatives_order :
    ((determine true true [⟨2, none, ["a".toList, "b".toList], none⟩,
        ⟨3, none, ["a".toList], none⟩]).1.map (·.pre) =
      [some "b".toList, some "a_3".toList]) ∧
    ((determine true true [⟨2, none, ["b".toList, "a".toList], none⟩,
        ⟨3, none, ["a".toList], none⟩]).1.map (·.pre) =
      [some "a".toList, some "a_3".toList]) := by
  decide +kernel

/-- Non-trivial prefixes: the second namespace offers a taken prefix. -/
example : Ex.prefixes true true (Ex.three "a" "a" "b") =
    some ([(2, some "a".toList), (3, some "a_3".toList), (4, some "b".toList)],
      [("a".toList, 2), ("b".toList, 4), ("a_3".toList, 3)]) := by
  rw [Ex.prefixes]
  decide +kernel

end Verif.Parser

import Verif.Opt.Typedefs
/-!
# Removing duplicate types (C35)

Models `Optimizer::remove_duplicates` (`xsd-parser/src/pipeline/optimizer/remove_duplicates.rs:41-116`). The hash map with
types as keys is a list searched with the equality of types; by `C34_symmetric`, `C34_transitive` and `C34_equal_hash` a hash
map finds the same entry. The table is a `BTreeMap`; its order is the order of the list.
-/
namespace Verif.Opt

open Verif.Meta

/-- The local variables `map` and `idents`, remove_duplicates.rs:80-81. -/
structure DupSt where
  seen : List (MetaType × Ident)
  dups : List (Ident × Ident)

/-- `matches!(&type_.variant, MetaTypeVariant::Reference(ti) if ti.type_.eq(reference_ident))`,
remove_duplicates.rs:92. -/
def refersTo : Variant → Ident → Bool
  | .reference x, r => x.type_ == r
  | _, _ => false

/-- The body of the inner loop, remove_duplicates.rs:83-98. -/
def dupStep (T : Types) (st : DupSt) (p : Ident × MetaType) : DupSt :=
  match st.seen.find? (fun q => q.1.typeEq T p.2) with
  | none =>
    match getResolvedIdent T p.1 with
    | some r => { st with seen := st.seen ++ [(p.2, r)] }
    | none => st
  | some q => if refersTo p.2.variant q.2 then st else { st with dups := st.dups ++ [(p.1, q.2)] }

/-- The inner loop, remove_duplicates.rs:80-98. -/
def findDups (T : Types) : List (Ident × Ident) := (T.foldl (dupStep T) ⟨[], []⟩).dups

/-- The second loop, remove_duplicates.rs:105-112. -/
def applyDups (dups : List (Ident × Ident)) (T : Types) : Types :=
  T.map fun p =>
    match Assoc.get dups p.1 with
    | some r => (p.1, { p.2 with variant := .reference (.new r) })
    | none => p

/-- One iteration of the outer loop, remove_duplicates.rs:72-113: `none` when nothing changed. -/
def dupRound (T : Types) : Option Types :=
  if (findDups T).isEmpty then none else some (applyDups (findDups T) T)

/-- `Optimizer::remove_duplicates`, remove_duplicates.rs:41-116; `none` when `fuel` iterations were not enough. -/
def removeDuplicates : Nat → Types → Option Types
  | 0, _ => none
  | fuel + 1, T =>
    match dupRound T with
    | none => some T
    | some T' => removeDuplicates fuel T'

/-! ## The inner loop -/

/-- What is known after the entries `done` have been looked at. -/
structure DupInv (T : Types) (done : Types) (st : DupSt) : Prop where
  seen : ∀ q ∈ st.seen, ∃ f, (f, q.1) ∈ done ∧ q.2 = res T f ∧ f ∉ Assoc.keys st.dups
  dups : ∀ p ∈ st.dups, ∃ ty f fty, (p.1, ty) ∈ done ∧ (f, fty) ∈ done ∧ p.2 = res T f ∧ fty.typeEq T ty = true ∧
    f ∉ Assoc.keys st.dups ∧ refersTo ty.variant p.2 = false
  keys : ∀ i ∈ Assoc.keys st.dups, i ∈ Assoc.keys done
  rest : ∀ p ∈ done, p.1 ∉ Assoc.keys st.dups → (∃ x, p.2.variant = .reference x) ∨ ∃ q ∈ st.seen, q.1 = p.2
  distinct : ∀ p ∈ done, ∀ p' ∈ done, p.1 ∉ Assoc.keys st.dups → p'.1 ∉ Assoc.keys st.dups → p.1 ≠ p'.1 →
    (∀ x, p.2.variant ≠ .reference x) → p.2.typeEq T p'.2 = false

theorem getResolvedIdent_defined {T : Types} {i : Ident} (h : Defined T i) :
    getResolvedIdent T i = some (res T i) := by
  cases hr : getResolved T i with
  | none => exact absurd h ((C33_resolved_iff_defined T i).1 hr)
  | some r => simp [res, getResolvedIdent, hr]

theorem typeEq_ref {T : Types} {a b : MetaType} (h : a.typeEq T b = true) :
    (∃ x, a.variant = .reference x) ↔ ∃ x, b.variant = .reference x := by
  have := ((C34_equal_iff_same_up_to_synonyms T a b).1 h).2.2
  cases ha : a.variant <;> cases hb : b.variant <;> rw [ha, hb] at this <;> simp_all [Variant.mapIdents]

theorem refersTo_ref {v : Variant} {r : Ident} (h : refersTo v r = true) : ∃ x, v = .reference x := by
  cases v <;> simp [refersTo] at h
  exact ⟨_, rfl⟩

theorem dupStep_inv {T done : Types} {st : DupSt} {p : Ident × MetaType} (hi : DupInv T done st)
    (hnew : p.1 ∉ Assoc.keys done) (hd : Defined T p.1) : DupInv T (done ++ [p]) (dupStep T st p) := by
  have hnd : p.1 ∉ Assoc.keys st.dups := fun h => hnew (hi.keys _ h)
  have hk : ∀ i, i ∈ Assoc.keys done → i ∈ Assoc.keys (done ++ [p]) := by
    intro i h
    simp only [Assoc.keys, List.map_append, List.mem_append]
    exact Or.inl h
  have hne : ∀ q ∈ done, q.1 ≠ p.1 := fun q hq hc => hnew (hc ▸ List.mem_map.2 ⟨q, hq, rfl⟩)
  simp only [dupStep]
  cases hf : st.seen.find? (fun q => q.1.typeEq T p.2) with
  | none =>
    have hnone : ∀ q ∈ st.seen, q.1.typeEq T p.2 = false := by
      intro q hq
      have := List.find?_eq_none.1 hf q hq
      simpa using this
    simp only [getResolvedIdent_defined hd]
    refine ⟨?_, ?_, fun i h => hk i (hi.keys i h), ?_, ?_⟩
    · intro q hq
      rcases List.mem_append.1 hq with hq | hq
      · obtain ⟨f, h1, h2, h3⟩ := hi.seen q hq
        exact ⟨f, List.mem_append_left _ h1, h2, h3⟩
      · simp at hq
        subst hq
        exact ⟨p.1, by simp, rfl, hnd⟩
    · intro q hq
      obtain ⟨ty, f, fty, h1, h2, h3⟩ := hi.dups q hq
      exact ⟨ty, f, fty, List.mem_append_left _ h1, List.mem_append_left _ h2, h3⟩
    · intro q hq hqd
      rcases List.mem_append.1 hq with hq | hq
      · rcases hi.rest q hq hqd with h | ⟨q', h1, h2⟩
        · exact Or.inl h
        · exact Or.inr ⟨q', List.mem_append_left _ h1, h2⟩
      · simp at hq
        subst hq
        exact Or.inr ⟨(q.2, res T q.1), by simp, rfl⟩
    · -- a new representative is equal to nothing seen before
      have hfresh : ∀ q ∈ done, q.1 ∉ Assoc.keys st.dups → (∀ x, q.2.variant ≠ .reference x) →
          q.2.typeEq T p.2 = false := by
        intro q hq hqd hx
        rcases hi.rest q hq hqd with ⟨x, h⟩ | ⟨q', h1, h2⟩
        · exact absurd h (hx x)
        · rw [← h2]; exact hnone q' h1
      intro a ha₀ b hb₀ had hbd hab hx
      rcases List.mem_append.1 ha₀ with ha | ha <;> rcases List.mem_append.1 hb₀ with hb | hb
      · exact hi.distinct a ha b hb had hbd hab hx
      · simp at hb; subst hb
        exact hfresh a ha had hx
      · simp at ha; subst ha
        cases he : a.2.typeEq T b.2 with
        | false => rfl
        | true =>
          have he' := C34_symmetric T _ _ he
          have : ∀ x, b.2.variant ≠ .reference x := by
            intro x hbx
            obtain ⟨y, hy⟩ := (typeEq_ref he).2 ⟨x, hbx⟩
            exact hx y hy
          rw [hfresh b hb hbd this] at he'
          cases he'
      · simp at ha hb; subst ha hb; exact absurd rfl hab
  | some q =>
    have hq := List.mem_of_find?_eq_some hf
    have heq : q.1.typeEq T p.2 = true := by
      have := List.find?_some hf
      simpa using this
    obtain ⟨f, hf1, hf2, hf3⟩ := hi.seen q hq
    by_cases hr : refersTo p.2.variant q.2 = true
    · simp only [hr, if_true]
      obtain ⟨x, hx⟩ := refersTo_ref hr
      refine ⟨?_, ?_, fun i h => hk i (hi.keys i h), ?_, ?_⟩
      · intro q hq
        obtain ⟨f, h1, h2, h3⟩ := hi.seen q hq
        exact ⟨f, List.mem_append_left _ h1, h2, h3⟩
      · intro q hq
        obtain ⟨ty, f, fty, h1, h2, h3⟩ := hi.dups q hq
        exact ⟨ty, f, fty, List.mem_append_left _ h1, List.mem_append_left _ h2, h3⟩
      · intro a ha had
        rcases List.mem_append.1 ha with ha | ha
        · exact hi.rest a ha had
        · simp at ha; subst ha; exact Or.inl ⟨x, hx⟩
      · intro a ha b hb had hbd hab hx'
        rcases List.mem_append.1 ha with ha | ha <;> rcases List.mem_append.1 hb with hb | hb
        · exact hi.distinct a ha b hb had hbd hab hx'
        · simp at hb; subst hb
          cases he : a.2.typeEq T b.2 with
          | false => rfl
          | true =>
            obtain ⟨y, hy⟩ := (typeEq_ref he).2 ⟨x, hx⟩
            exact absurd hy (hx' y)
        · simp at ha; subst ha; exact absurd hx (hx' x)
        · simp at ha; subst ha; exact absurd hx (hx' x)
    · simp only [if_neg hr]
      have hkeys : Assoc.keys (st.dups ++ [(p.1, q.2)]) = Assoc.keys st.dups ++ [p.1] := by simp [Assoc.keys]
      have hfp : f ≠ p.1 := fun hc => hnew (hc ▸ List.mem_map.2 ⟨_, hf1, rfl⟩)
      refine ⟨?_, ?_, ?_, ?_, ?_⟩
      · intro q hq
        obtain ⟨f, h1, h2, h3⟩ := hi.seen q hq
        refine ⟨f, List.mem_append_left _ h1, h2, ?_⟩
        simp only [hkeys, List.mem_append, not_or, List.mem_singleton]
        exact ⟨h3, fun hc => hnew (hc ▸ List.mem_map.2 ⟨_, h1, rfl⟩)⟩
      · intro a ha
        rcases List.mem_append.1 ha with ha | ha
        · obtain ⟨ty, f, fty, h1, h2, h3, h4, h5, h6⟩ := hi.dups a ha
          refine ⟨ty, f, fty, List.mem_append_left _ h1, List.mem_append_left _ h2, h3, h4, ?_, h6⟩
          simp only [hkeys, List.mem_append, not_or, List.mem_singleton]
          exact ⟨h5, fun hc => hnew (hc ▸ List.mem_map.2 ⟨_, h2, rfl⟩)⟩
        · simp at ha; subst ha
          refine ⟨p.2, f, q.1, by simp, List.mem_append_left _ hf1, hf2, heq, ?_, by simpa using hr⟩
          simp only [hkeys, List.mem_append, not_or, List.mem_singleton]
          exact ⟨hf3, hfp⟩
      · intro i h
        simp only [hkeys, List.mem_append, List.mem_singleton] at h
        rcases h with h | h
        · exact hk i (hi.keys i h)
        · subst h; simp [Assoc.keys]
      · intro a ha had
        simp only [hkeys, List.mem_append, not_or, List.mem_singleton] at had
        rcases List.mem_append.1 ha with ha | ha
        · exact hi.rest a ha had.1
        · simp at ha; subst ha; exact absurd rfl had.2
      · intro a ha b hb had hbd hab hx'
        simp only [hkeys, List.mem_append, not_or, List.mem_singleton] at had hbd
        rcases List.mem_append.1 ha with ha | ha <;> rcases List.mem_append.1 hb with hb | hb
        · exact hi.distinct a ha b hb had.1 hbd.1 hab hx'
        · simp at hb; subst hb; exact absurd rfl hbd.2
        · simp at ha; subst ha; exact absurd rfl had.2
        · simp at ha; subst ha; exact absurd rfl had.2

theorem findDups_inv {T : Types} (hk : Assoc.Keyed T) : DupInv T T (T.foldl (dupStep T) ⟨[], []⟩) := by
  suffices H : ∀ (rest done : Types) (st : DupSt), done ++ rest = T → DupInv T done st →
      DupInv T T (rest.foldl (dupStep T) st) by
    refine H T [] ⟨[], []⟩ rfl ⟨by simp, by simp, by simp [Assoc.keys], by simp, by simp⟩
  intro rest
  induction rest with
  | nil => intro done st h hi; simp at h; subst h; exact hi
  | cons p rest ih =>
    intro done st h hi
    have hp : p ∈ T := by rw [← h]; simp
    refine ih (done ++ [p]) (dupStep T st p) (by simpa using h) (dupStep_inv hi ?_ ?_)
    · intro hc
      have hn : (Assoc.keys (done ++ p :: rest)).Nodup := by rw [h]; exact hk
      simp only [Assoc.keys, List.map_append, List.map_cons] at hn
      exact (List.nodup_append.1 hn).2.2 p.1 hc p.1 (by simp) rfl
    · exact ⟨p.2, Assoc.get_of_mem hk hp⟩

/-! ## One iteration -/

theorem get_applyDups (dups : List (Ident × Ident)) (T : Types) (i : Ident) :
    Assoc.get (applyDups dups T) i = (Assoc.get T i).map fun ty =>
      match Assoc.get dups i with
      | some r => { ty with variant := .reference (.new r) }
      | none => ty := by
  induction T with
  | nil => rfl
  | cons p T ih =>
    obtain ⟨a, v⟩ := p
    simp only [applyDups, List.map_cons] at ih ⊢
    by_cases h : a = i
    · subst h
      cases hd : Assoc.get dups a <;> simp [Assoc.get]
    · have : ∀ v' : MetaType, Assoc.get ((a, v') :: T.map fun p =>
          match Assoc.get dups p.1 with
          | some r => (p.1, { p.2 with variant := Variant.reference (.new r) })
          | none => p) i = Assoc.get (T.map fun p =>
          match Assoc.get dups p.1 with
          | some r => (p.1, { p.2 with variant := Variant.reference (.new r) })
          | none => p) i := by
        intro v'; simp [Assoc.get, h]
      cases hd : Assoc.get dups a with
      | none => simp only; rw [this, ih]; simp [Assoc.get, h]
      | some r => simp only; rw [this, ih]; simp [Assoc.get, h]

theorem keys_applyDups (dups : List (Ident × Ident)) (T : Types) :
    Assoc.keys (applyDups dups T) = Assoc.keys T := by
  simp only [Assoc.keys, applyDups, List.map_map]
  apply List.map_congr_left
  intro p _
  simp only [Function.comp_def]
  cases Assoc.get dups p.1 <;> rfl

/-- A table the passes work on. -/
structure Ok (T : Types) : Prop where
  keyed : Assoc.Keyed T
  acyclic : Acyclic T
  closed : Closed T

/-- What an entry of `findDups` means. -/
theorem dup_spec {T : Types} (hT : Ok T) {i r : Ident} (h : Assoc.get (findDups T) i = some r) :
    ∃ ty f fty, Assoc.get T i = some ty ∧ Assoc.get T f = some fty ∧ r = res T f ∧ fty.typeEq T ty = true ∧
      Assoc.get (findDups T) f = none ∧ refersTo ty.variant r = false := by
  have hi := findDups_inv hT.keyed
  obtain ⟨ty, f, fty, h1, h2, h3, h4, h5, h6⟩ := hi.dups (i, r) (Assoc.mem_of_get h)
  exact ⟨ty, f, fty, Assoc.get_of_mem hT.keyed h1, Assoc.get_of_mem hT.keyed h2, h3, h4,
    (Assoc.get_eq_none _ _).2 h5, h6⟩

theorem target_congr {T : Types} {a b : MetaType} (h : a.typeEq T b = true) :
    a.variant.target.map (res T) = b.variant.target.map (res T) := by
  have := ((C34_equal_iff_same_up_to_synonyms T a b).1 h).2.2
  cases ha : a.variant <;> cases hb : b.variant <;> rw [ha, hb] at this <;>
    simp only [Variant.mapIdents, reduceCtorEq, Variant.reference.injEq, Reference.mk.injEq] at this <;>
    simp only [Variant.target] <;> try rfl
  rename_i x y
  have hs : x.isSimple = y.isSimple := by simp [Reference.isSimple, Reference.isSingle, this]
  rw [hs]
  by_cases hy : y.isSimple
  · simp [hy, this.1]
  · simp [hy]

/-- A duplicate of a type that is no synonym becomes a synonym of its representative, which is no synonym and stays
unchanged; a duplicate synonym becomes a synonym of the type it stood for already. -/
theorem dup_cases {T : Types} (hT : Ok T) {i r : Ident} (h : Assoc.get (findDups T) i = some r) :
    ((∀ k, ¬ Synonym T i k) ∧ (∀ k, ¬ Synonym T r k) ∧ Assoc.get (findDups T) r = none ∧
      ∃ ty rty, Assoc.get T i = some ty ∧ Assoc.get T r = some rty ∧ rty.typeEq T ty = true) ∨
    ((∃ k, Synonym T i k ∧ k ≠ r) ∧ r = res T i) := by
  obtain ⟨ty, f, fty, h1, h2, h3, h4, h5, h6⟩ := dup_spec hT h
  have ht := target_congr h4
  cases hft : fty.variant.target with
  | none =>
    rw [hft] at ht
    have hty : ty.variant.target = none := by
      cases hx : ty.variant.target with
      | none => rfl
      | some k => rw [hx] at ht; simp at ht
    have hnf : ∀ k, ¬ Synonym T f k := by
      intro k hk
      obtain ⟨ty', g1, g2⟩ := (synonym_iff T f k).1 hk
      rw [h2] at g1; cases g1; rw [hft] at g2; cases g2
    have hrf : r = f := by rw [h3]; exact res_of_not_synonym (fun k hk => absurd hk (hnf k))
    left
    subst hrf
    refine ⟨?_, hnf, h5, ty, fty, h1, h2, h4⟩
    intro k hk
    obtain ⟨ty', g1, g2⟩ := (synonym_iff T i k).1 hk
    rw [h1] at g1; cases g1; rw [hty] at g2; cases g2
  | some kf =>
    rw [hft] at ht
    cases hty : ty.variant.target with
    | none => rw [hty] at ht; simp at ht
    | some k =>
      rw [hty] at ht
      simp at ht
      have hsf : Synonym T f kf := (synonym_iff T f kf).2 ⟨fty, h2, hft⟩
      have hsi : Synonym T i k := (synonym_iff T i k).2 ⟨ty, h1, hty⟩
      right
      constructor
      · refine ⟨k, hsi, ?_⟩
        intro hc
        obtain ⟨x, hx, hxk, -⟩ := (target_eq_some _ _).1 hty
        rw [hx] at h6
        simp [refersTo, hxk, hc] at h6
      · rw [h3, res_synonym hT.acyclic hsf (hT.closed _ _ hsf), ht,
          ← res_synonym hT.acyclic hsi (hT.closed _ _ hsi)]

variable {T : Types}

theorem synonym_round (T : Types) (i k : Ident) :
    Synonym (applyDups (findDups T) T) i k ↔
      (Defined T i ∧ Assoc.get (findDups T) i = some k) ∨ (Assoc.get (findDups T) i = none ∧ Synonym T i k) := by
  simp only [synonym_iff, get_applyDups, Defined]
  cases hg : Assoc.get T i with
  | none => simp
  | some ty =>
    cases hd : Assoc.get (findDups T) i with
    | none => simp
    | some r => simp [Variant.target, Reference.new, Reference.isSimple, Reference.isSingle]

theorem defined_round (T : Types) (i : Ident) : Defined (applyDups (findDups T) T) i ↔ Defined T i := by
  simp only [Defined, get_applyDups]
  cases Assoc.get T i <;> simp

theorem dup_defined (hT : Ok T) {i r : Ident} (h : Assoc.get (findDups T) i = some r) : Defined T i ∧ Defined T r := by
  rcases dup_cases hT h with ⟨-, -, -, ty, rty, h1, h2, -⟩ | ⟨⟨k, h1, -⟩, h2⟩
  · exact ⟨⟨_, h1⟩, ⟨_, h2⟩⟩
  · exact ⟨h1.defined, h2 ▸ res_defined h1.defined⟩

/-- Where a name that is no synonym before the iteration leads after it, the chain ends. -/
theorem round_end (hT : Ok T) {y z k : Ident} (hy : ∀ x, ¬ Synonym T y x)
    (h : Synonym (applyDups (findDups T) T) y z) : ¬ Synonym (applyDups (findDups T) T) z k := by
  rcases (synonym_round T y z).1 h with ⟨-, hd⟩ | ⟨-, hs⟩
  · rcases dup_cases hT hd with ⟨-, hn, hz, -⟩ | ⟨⟨x, hx, -⟩, -⟩
    · intro hc
      rcases (synonym_round T z k).1 hc with ⟨-, h'⟩ | ⟨-, h'⟩
      · rw [hz] at h'; cases h'
      · exact hn k h'
    · exact absurd hx (hy x)
  · exact absurd hs (hy z)

theorem round_follow (hT : Ok T) {x z : Ident} {p : List Ident} (h : Follow (applyDups (findDups T) T) x p z) :
    (∃ q, Follow T x q z) ∨ ∃ y q, (∀ k, ¬ Synonym T y k) ∧ Follow (applyDups (findDups T) T) y q z := by
  induction h with
  | here hd => exact Or.inl ⟨_, .here ((defined_round T _).1 hd)⟩
  | @step i k path j hs hf ih =>
    rcases ih with ⟨q, hq⟩ | h
    · rcases (synonym_round T i k).1 hs with ⟨-, hd⟩ | ⟨-, hs'⟩
      · right
        rcases dup_cases hT hd with ⟨-, hn, -⟩ | ⟨-, hr⟩
        · exact ⟨k, path, hn, hf⟩
        · refine ⟨k, path, ?_, hf⟩
          intro x hx
          rw [hr] at hx
          exact res_end_closed hT.acyclic hT.closed _ _ hx
      · exact Or.inl ⟨_, .step hs' hq⟩
    · exact Or.inr h

theorem round_ok (hT : Ok T) : Ok (applyDups (findDups T) T) := by
  refine ⟨?_, ?_, ?_⟩
  · simp only [Assoc.Keyed, keys_applyDups]; exact hT.keyed
  · rintro i ⟨k, p, hs, hf⟩
    have key : ∀ y q, (∀ k, ¬ Synonym T y k) → Follow (applyDups (findDups T) T) y q i → False := by
      intro y q hy hq
      cases hq with
      | here _ =>
        -- the loop starts at a name that is no synonym before: its target has no further step
        cases hf with
        | here _ => exact round_end hT hy hs hs
        | step hs' _ => exact round_end hT hy hs hs'
      | step hs₁ hq₁ =>
        cases hq₁ with
        | here _ => exact round_end hT hy hs₁ hs
        | step hs₂ _ => exact round_end hT hy hs₁ hs₂
    rcases round_follow hT hf with ⟨q, hq⟩ | ⟨y, q, hy, hq⟩
    · rcases (synonym_round T i k).1 hs with ⟨-, hd⟩ | ⟨-, hs'⟩
      · rcases dup_cases hT hd with ⟨hn, -⟩ | ⟨-, hr⟩
        · exact key i _ hn (.here hs.defined)
        · refine key k p ?_ hf
          intro x hx
          rw [hr] at hx
          exact res_end_closed hT.acyclic hT.closed _ _ hx
      · exact hT.acyclic i ⟨k, q, hs', hq⟩
    · exact key y q hy hq
  · intro i k hs
    rw [defined_round]
    rcases (synonym_round T i k).1 hs with ⟨-, hd⟩ | ⟨-, hs'⟩
    · exact (dup_defined hT hd).2
    · exact hT.closed _ _ hs'

/-- Synonyms stay synonyms. -/
theorem res_round (hT : Ok T) (i : Ident) :
    res (applyDups (findDups T) T) i = res (applyDups (findDups T) T) (res T i) := by
  have hR := round_ok hT
  refine synonym_induct (P := fun i => res (applyDups (findDups T) T) i = res (applyDups (findDups T) T) (res T i))
    hT.acyclic ?_ ?_ i
  · intro i h; rw [res_of_not_synonym h]
  · intro i k hs hd ih
    rw [res_synonym hT.acyclic hs hd, ← ih]
    cases hg : Assoc.get (findDups T) i with
    | none =>
      have hs' : Synonym (applyDups (findDups T) T) i k := (synonym_round T i k).2 (Or.inr ⟨hg, hs⟩)
      exact res_synonym hR.acyclic hs' (hR.closed _ _ hs')
    | some r =>
      have hs' : Synonym (applyDups (findDups T) T) i r := (synonym_round T i r).2 (Or.inl ⟨hs.defined, hg⟩)
      rcases dup_cases hT hg with ⟨hn, -⟩ | ⟨-, hr⟩
      · exact absurd hs (hn k)
      · rw [res_synonym hR.acyclic hs' (hR.closed _ _ hs'), ih, hr, res_synonym hT.acyclic hs hd]

theorem res_coarser (hT : Ok T) {i k : Ident} (h : res T i = res T k) :
    res (applyDups (findDups T) T) i = res (applyDups (findDups T) T) k := by
  rw [res_round hT i, res_round hT k, h]

theorem mapIdents_comp (f g : Ident → Ident) (v : Variant) : (v.mapIdents f).mapIdents g = v.mapIdents (g ∘ f) := by
  have hb : ∀ b : Base, (b.mapIdents f).mapIdents g = b.mapIdents (g ∘ f) := by intro b; cases b <;> rfl
  have he : ∀ e : Element, (e.mapIdents f).mapIdents g = e.mapIdents (g ∘ f) := by
    intro e
    simp only [Element.mapIdents]
    cases e.variant <;> rfl
  have ha : ∀ e : Attribute, (e.mapIdents f).mapIdents g = e.mapIdents (g ∘ f) := by
    intro e
    simp only [Attribute.mapIdents]
    cases e.variant <;> rfl
  have hv : ∀ e : EnumVariant, (e.mapIdents f).mapIdents g = e.mapIdents (g ∘ f) := by
    intro e
    simp [EnumVariant.mapIdents]
  have hg : ∀ x : Group, (x.mapIdents f).mapIdents g = x.mapIdents (g ∘ f) := by
    intro x
    simp only [Group.mapIdents, List.map_map, Group.mk.injEq, true_and]
    exact List.map_congr_left (fun e _ => he e)
  cases v with
  | union u => simp [Variant.mapIdents, hb, UnionType.mapIdents]
  | enumeration u =>
    simp only [Variant.mapIdents, hb, List.map_map, Variant.enumeration.injEq, Enumeration.mk.injEq, true_and, and_true]
    exact List.map_congr_left (fun e _ => hv e)
  | dynamic d => simp [Variant.mapIdents, Derived.mapIdents]
  | complex c =>
    simp only [Variant.mapIdents, hb, Option.map_map, List.map_map, Variant.complex.injEq, Complex.mk.injEq, true_and]
    exact List.map_congr_left (fun e _ => ha e)
  | all x => simp [Variant.mapIdents, hg]
  | choice x => simp [Variant.mapIdents, hg]
  | sequence x => simp [Variant.mapIdents, hg]
  | _ => rfl

/-- Equality up to synonyms is kept when more names become synonyms. -/
theorem mapIdents_coarser {f g : Ident → Ident} (h : ∀ i, g i = g (f i)) {v w : Variant}
    (he : v.mapIdents f = w.mapIdents f) : v.mapIdents g = w.mapIdents g := by
  have : g ∘ f = g := by funext i; exact (h i).symm
  rw [← this, ← mapIdents_comp, ← mapIdents_comp, he]

/-- What a name stands for before and after an iteration. -/
theorem denotes_round (hT : Ok T) (i : Ident) (hd : Defined T i) :
    ∃ ty ty', Assoc.get T (res T i) = some ty ∧
      Assoc.get (applyDups (findDups T) T) (res (applyDups (findDups T) T) i) = some ty' ∧
      SameUpToSynonyms (applyDups (findDups T) T) ty ty' ∧
      (ty.variant.keyProps = ty'.variant.keyProps ∨ ty.typeEq T ty' = true) ∧
      ∃ k, Assoc.get T k = some ty' := by
  have hR := round_ok hT
  obtain ⟨ty, hty⟩ := res_defined hd
  rw [res_round hT i]
  cases hg : Assoc.get (findDups T) (res T i) with
  | none =>
    have hend : ∀ k, ¬ Synonym (applyDups (findDups T) T) (res T i) k := by
      intro k hk
      rcases (synonym_round T _ k).1 hk with ⟨-, h'⟩ | ⟨-, h'⟩
      · rw [hg] at h'; cases h'
      · exact res_end_closed hT.acyclic hT.closed i k h'
    rw [res_of_not_synonym (i := res T i) (fun k hk => absurd hk (hend k))]
    refine ⟨ty, ty, hty, ?_, ⟨rfl, rfl⟩, Or.inl rfl, _, hty⟩
    simp [get_applyDups, hty, hg]
  | some r =>
    have hs' : Synonym (applyDups (findDups T) T) (res T i) r :=
      (synonym_round T _ r).2 (Or.inl ⟨⟨ty, hty⟩, hg⟩)
    rcases dup_cases hT hg with ⟨-, hn, hr, ty', rty, h1, h2, h3⟩ | ⟨⟨k, hk, -⟩, -⟩
    · rw [hty] at h1; cases h1
      have hend : ∀ k, ¬ Synonym (applyDups (findDups T) T) r k := by
        intro k hk
        rcases (synonym_round T r k).1 hk with ⟨-, h'⟩ | ⟨-, h'⟩
        · rw [hr] at h'; cases h'
        · exact hn k h'
      rw [res_synonym hR.acyclic hs' (hR.closed _ _ hs'),
        res_of_not_synonym (i := r) (fun k hk => absurd hk (hend k))]
      have h3' := C34_symmetric T _ _ h3
      have hsame := ((C34_equal_iff_same_up_to_synonyms T ty rty).1 h3').2
      refine ⟨ty, rty, hty, by simp [get_applyDups, h2, hr], ⟨hsame.1, ?_⟩, Or.inr h3', _, h2⟩
      exact mapIdents_coarser (fun j => res_round hT j) hsame.2
    · exact absurd hk (res_end_closed hT.acyclic hT.closed _ _)

/-- Equal types of the table offer their derived types under the same names. -/
def KeysAgree (T : Types) : Prop :=
  ∀ i j a b, Assoc.get T i = some a → Assoc.get T j = some b → a.typeEq T b = true →
    a.variant.keyProps = b.variant.keyProps

theorem transfer_round (hT : Ok T) (hK : KeysAgree T) :
    Transfer (res (applyDups (findDups T) T)) T (applyDups (findDups T) T) ∧
    Transfer (res (applyDups (findDups T) T)) (applyDups (findDups T) T) T := by
  have hR := round_ok hT
  have hkey : ∀ i, Defined T i → ∃ v v', denotes T i = some v ∧ denotes (applyDups (findDups T) T) i = some v' ∧
      v.mapIdents (res (applyDups (findDups T) T)) = v'.mapIdents (res (applyDups (findDups T) T)) ∧
      v.keyProps = v'.keyProps := by
    intro i hd
    obtain ⟨ty, ty', h1, h2, h3, h4, k, h5⟩ := denotes_round hT i hd
    refine ⟨ty.variant, ty'.variant, by simp [denotes, h1], by simp [denotes, h2], h3.2, ?_⟩
    rcases h4 with h | h
    · exact h
    · exact hK _ _ _ _ h1 h5 h
  have hdef : ∀ i i' : Ident, res (applyDups (findDups T) T) i = res (applyDups (findDups T) T) i' →
      Defined T i → Defined T i' := by
    intro i i' he hd
    have hd' := (defined_round T i).2 hd
    have h1 := res_defined hd'
    rw [he] at h1
    by_cases hc : Defined (applyDups (findDups T) T) i'
    · exact (defined_round T i').1 hc
    · rw [res_undefined hc] at h1; exact absurd h1 hc
  constructor
  · refine ⟨fun i k hs hd => res_coarser hT (res_synonym hT.acyclic hs hd), ?_⟩
    intro i₁ i₂ v₁ he hv
    have hd : Defined T i₁ := by
      obtain ⟨ty, h1, -⟩ := get_of_denotes hv
      by_cases hc : Defined T i₁
      · exact hc
      · rw [res_undefined hc] at h1; exact ⟨_, h1⟩
    obtain ⟨v, v', h1, h2, h3, h4⟩ := hkey i₁ hd
    rw [h1] at hv; cases hv
    refine ⟨v', ?_, h3, h4⟩
    rw [← h2]; simp [denotes, he]
  · refine ⟨fun i k hs hd => res_synonym hR.acyclic hs hd, ?_⟩
    intro i₁ i₂ v₁ he hv
    have hd : Defined T i₁ := by
      obtain ⟨ty, h1, -⟩ := get_of_denotes hv
      by_cases hc : Defined (applyDups (findDups T) T) i₁
      · exact (defined_round T i₁).1 hc
      · rw [res_undefined hc] at h1; exact (defined_round T i₁).1 ⟨_, h1⟩
    obtain ⟨v, v', h1, h2, h3, h4⟩ := hkey i₂ (hdef _ _ he hd)
    have : denotes (applyDups (findDups T) T) i₂ = denotes (applyDups (findDups T) T) i₁ := by simp [denotes, he]
    rw [this, hv] at h2; cases h2
    exact ⟨v, h1, h3.symm, h4.symm⟩

/-! ## Termination -/

def isSyn (ty : MetaType) : Bool := ty.variant.target.isSome

/-- Entries that are no synonyms. -/
def plain (T : Types) : Nat := T.countP (fun p => !isSyn p.2)

/-- A synonym that does not lead directly to the end of its chain. -/
def isLong (T : Types) (p : Ident × MetaType) : Bool :=
  match p.2.variant.target with
  | some k => k != res T k
  | none => false

def long (T : Types) : Nat := T.countP (isLong T)

theorem countP_map_le {α : Type} (l : List α) (g : α → α) (P Q : α → Bool) (h : ∀ a ∈ l, Q (g a) = true → P a = true) :
    (l.map g).countP Q ≤ l.countP P := by
  induction l with
  | nil => simp
  | cons a l ih =>
    have ih := ih (fun b hb => h b (List.mem_cons_of_mem _ hb))
    have ha := h a (List.mem_cons_self ..)
    simp only [List.map_cons, List.countP_cons]
    by_cases hq : Q (g a) = true
    · rw [if_pos hq, if_pos (ha hq)]; omega
    · rw [if_neg hq]; split <;> omega

theorem countP_map_lt {α : Type} (l : List α) (g : α → α) (P Q : α → Bool) (h : ∀ a ∈ l, Q (g a) = true → P a = true)
    (a : α) (ha : a ∈ l) (hp : P a = true) (hq : Q (g a) = false) : (l.map g).countP Q < l.countP P := by
  induction l with
  | nil => cases ha
  | cons b l ih =>
    have hle := countP_map_le l g P Q (fun x hx => h x (List.mem_cons_of_mem _ hx))
    simp only [List.map_cons, List.countP_cons]
    rcases List.mem_cons.1 ha with rfl | hm
    · rw [hq, hp, if_pos rfl]; simp only [Bool.false_eq_true, if_false]; omega
    · have := ih (fun x hx => h x (List.mem_cons_of_mem _ hx)) hm
      have hb := h b (List.mem_cons_self ..)
      by_cases hqb : Q (g b) = true
      · rw [if_pos hqb, if_pos (hb hqb)]; omega
      · rw [if_neg hqb]; split <;> omega

/-- The weight of a table; every iteration that changes something makes it smaller. -/
def weight (T : Types) : Nat := plain T * (T.length + 1) + long T

theorem length_applyDups (d : List (Ident × Ident)) (T : Types) : (applyDups d T).length = T.length := by
  simp [applyDups]

theorem weight_lt (hT : Ok T) (hne : (findDups T).isEmpty = false) :
    weight (applyDups (findDups T) T) < weight T := by
  have hR := round_ok hT
  -- the function the second loop applies to every entry
  have hmap : ∃ g : Ident × MetaType → Ident × MetaType, applyDups (findDups T) T = T.map g ∧
      ∀ p ∈ T, (Assoc.get (findDups T) p.1 = none → g p = p) ∧
        ∀ r, Assoc.get (findDups T) p.1 = some r → g p = (p.1, { p.2 with variant := .reference (.new r) }) := by
    refine ⟨_, rfl, ?_⟩
    intro p _
    constructor
    · intro h; simp [h]
    · intro r h; simp [h]
  obtain ⟨g, hg, hgs⟩ := hmap
  have hsyn : ∀ i r, Assoc.get (findDups T) i = some r →
      isSyn { (⟨.buildIn .u8, none, none, none, none, []⟩ : MetaType) with variant := .reference (.new r) } = true := by
    intro i r _
    simp [isSyn, Variant.target, Reference.new, Reference.isSimple, Reference.isSingle]
  have hplain : ∀ p ∈ T, (!isSyn (g p).2) = true → (!isSyn p.2) = true := by
    intro p hp h
    cases hd : Assoc.get (findDups T) p.1 with
    | none => rw [(hgs p hp).1 hd] at h; exact h
    | some r =>
      rw [(hgs p hp).2 r hd] at h
      simp [isSyn, Variant.target, Reference.new, Reference.isSimple, Reference.isSingle] at h
  have hlen : (applyDups (findDups T) T).length = T.length := length_applyDups _ _
  by_cases hex : ∃ i r, Assoc.get (findDups T) i = some r ∧ ∀ k, ¬ Synonym T i k
  · obtain ⟨i, r, hd, hn⟩ := hex
    obtain ⟨ty, hty⟩ := (dup_defined hT hd).1
    have hp : (i, ty) ∈ T := Assoc.mem_of_get hty
    have h1 : plain (applyDups (findDups T) T) < plain T := by
      simp only [plain, hg]
      refine countP_map_lt T g _ _ hplain (i, ty) hp ?_ ?_
      · simp only [isSyn, Bool.not_eq_true', Option.isSome_eq_false_iff, Option.isNone_iff_eq_none]
        cases ht : ty.variant.target with
        | none => rfl
        | some k => exact absurd ((synonym_iff T i k).2 ⟨ty, hty, ht⟩) (hn k)
      · rw [(hgs _ hp).2 r hd]
        simp [isSyn, Variant.target, Reference.new, Reference.isSimple, Reference.isSingle]
    have h2 : long (applyDups (findDups T) T) ≤ T.length := by
      rw [← hlen]; exact List.countP_le_length
    simp only [weight, hlen]
    have : (plain (applyDups (findDups T) T) + 1) * (T.length + 1) ≤ plain T * (T.length + 1) :=
      Nat.mul_le_mul_right _ h1
    rw [Nat.succ_mul] at this
    omega
  · have hall : ∀ i r, Assoc.get (findDups T) i = some r → (∃ k, Synonym T i k ∧ k ≠ r) ∧ r = res T i := by
      intro i r hd
      rcases dup_cases hT hd with ⟨hn, -⟩ | h
      · exact absurd ⟨i, r, hd, hn⟩ hex
      · exact h
    have hres : ∀ i, res (applyDups (findDups T) T) i = res T i := by
      intro i
      rw [res_round hT i]
      apply res_of_not_synonym
      intro k hk
      rcases (synonym_round T _ k).1 hk with ⟨-, h'⟩ | ⟨-, h'⟩
      · obtain ⟨⟨x, hx, -⟩, -⟩ := hall _ _ h'
        exact absurd hx (res_end_closed hT.acyclic hT.closed _ _)
      · exact absurd h' (res_end_closed hT.acyclic hT.closed _ _)
    have h1 : plain (applyDups (findDups T) T) ≤ plain T := by
      simp only [plain, hg]
      exact countP_map_le T g _ _ hplain
    have h2 : long (applyDups (findDups T) T) < long T := by
      obtain ⟨⟨i, r⟩, hm⟩ : ∃ p, p ∈ findDups T := by
        cases hf : findDups T with
        | nil => rw [hf] at hne; cases hne
        | cons a l => exact ⟨a, List.mem_cons_self ..⟩
      have hd : ∃ r', Assoc.get (findDups T) i = some r' := by
        have : i ∈ Assoc.keys (findDups T) := List.mem_map.2 ⟨_, hm, rfl⟩
        have := (Assoc.get_isSome _ _).2 this
        cases hx : Assoc.get (findDups T) i with
        | none => rw [hx] at this; cases this
        | some r' => exact ⟨r', rfl⟩
      obtain ⟨r', hd⟩ := hd
      obtain ⟨⟨k, hk, hkr⟩, hr⟩ := hall i r' hd
      obtain ⟨ty, hty, htk⟩ := (synonym_iff T i k).1 hk
      have hp : (i, ty) ∈ T := Assoc.mem_of_get hty
      have hrr : res T r' = r' := by rw [hr]; exact res_idem hT.acyclic i
      have hlong : ∀ p ∈ T, isLong (applyDups (findDups T) T) (g p) = true → isLong T p = true := by
        intro p hp h
        cases hd' : Assoc.get (findDups T) p.1 with
        | none =>
          rw [(hgs p hp).1 hd'] at h
          simp only [isLong, hres] at h ⊢
          exact h
        | some r'' =>
          rw [(hgs p hp).2 r'' hd'] at h
          obtain ⟨-, hr''⟩ := hall _ _ hd'
          have : res T r'' = r'' := by rw [hr'']; exact res_idem hT.acyclic _
          simp [isLong, Variant.target, Reference.new, Reference.isSimple, Reference.isSingle, hres, this] at h
      have : long (applyDups (findDups T) T) = (T.map g).countP (isLong (applyDups (findDups T) T)) := by
        simp only [long]
        congr 1
      rw [this]
      refine countP_map_lt T g _ _ hlong (i, ty) hp ?_ ?_
      · simp only [isLong, htk, bne_iff_ne]
        intro hc
        apply hkr
        rw [hc, hr, ← res_synonym hT.acyclic hk (hT.closed _ _ hk)]
      · rw [(hgs _ hp).2 r' hd]
        simp [isLong, Variant.target, Reference.new, Reference.isSimple, Reference.isSingle, hres, hrr]
    simp only [weight, hlen]
    have := Nat.mul_le_mul_right (T.length + 1) h1
    omega

theorem removeDuplicates_ok (n : Nat) (T : Types) (hT : Ok T) (hn : weight T < n) :
    ∃ T', removeDuplicates n T = some T' ∧ Ok T' ∧ (findDups T').isEmpty = true := by
  induction n generalizing T with
  | zero => omega
  | succ n ih =>
    cases hd : (findDups T).isEmpty with
    | true => exact ⟨T, by simp [removeDuplicates, dupRound, hd], hT, hd⟩
    | false =>
      obtain ⟨T', h1, h2⟩ := ih (applyDups (findDups T) T) (round_ok hT) (by have := weight_lt hT hd; omega)
      exact ⟨T', by simp [removeDuplicates, dupRound, hd, h1], h2⟩

theorem removeDuplicates_mono (n : Nat) (T T' : Types) (h : removeDuplicates n T = some T') :
    removeDuplicates (n + 1) T = some T' := by
  induction n generalizing T with
  | zero => cases h
  | succ n ih =>
    rw [removeDuplicates] at h ⊢
    cases hr : dupRound T with
    | none => rw [hr] at h; exact h
    | some T₁ => rw [hr] at h; exact ih T₁ h

/-! ## Properties -/

/-- A rule to prove something about the result from the single iterations. -/
theorem removeDuplicates_induct {P : Types → Types → Prop} (n : Nat) (T T' : Types)
    (h : removeDuplicates n T = some T') (hT : Ok T)
    (refl : ∀ T, Ok T → (findDups T).isEmpty = true → P T T)
    (step : ∀ T T', Ok T → P (applyDups (findDups T) T) T' → P T T') : P T T' := by
  induction n generalizing T with
  | zero => cases h
  | succ n ih =>
    rw [removeDuplicates, dupRound] at h
    cases hd : (findDups T).isEmpty with
    | true => rw [hd] at h; simp at h; subst h; exact refl T hT hd
    | false =>
      rw [hd] at h
      exact step T T' hT (ih _ (by simpa using h) (round_ok hT))

/-- C35: the pass terminates on every table without typedef loops and undefined targets; the number of iterations is at most
quadratic in the number of types. -/
theorem C35_terminates (T : Types) (hT : Ok T) :
    ∃ T', ∀ n, (T.length + 1) * (T.length + 1) < n → removeDuplicates n T = some T' := by
  have hw : weight T < (T.length + 1) * (T.length + 1) := by
    have h1 : plain T ≤ T.length := List.countP_le_length
    have h2 : long T ≤ T.length := List.countP_le_length
    have := Nat.mul_le_mul_right (T.length + 1) h1
    simp only [weight, Nat.succ_mul]
    omega
  obtain ⟨T', h, -⟩ := removeDuplicates_ok ((T.length + 1) * (T.length + 1)) T hT hw
  refine ⟨T', ?_⟩
  intro n hn
  obtain ⟨d, rfl⟩ : ∃ d, n = (T.length + 1) * (T.length + 1) + d := ⟨n - (T.length + 1) * (T.length + 1), by omega⟩
  clear hn
  induction d with
  | zero => exact h
  | succ d ih => exact removeDuplicates_mono _ _ _ ih

/-- C35: the result has the same names, no typedef loops and no undefined targets. -/
theorem C35_names_kept (n : Nat) (T T' : Types) (hT : Ok T) (h : removeDuplicates n T = some T') :
    Assoc.keys T' = Assoc.keys T ∧ Ok T' := by
  refine removeDuplicates_induct (P := fun T T' => Assoc.keys T' = Assoc.keys T ∧ Ok T') n T T' h hT ?_ ?_
  · intro T hT _; exact ⟨rfl, hT⟩
  · intro T T' _ ih; exact ⟨by rw [ih.1, keys_applyDups], ih.2⟩

/-- C35: every definition is either untouched or becomes a plain reference; nothing else of a type changes. -/
theorem C35_untouched_or_reference (n : Nat) (T T' : Types) (hT : Ok T) (h : removeDuplicates n T = some T')
    (i : Ident) (ty : MetaType) (hi : Assoc.get T i = some ty) :
    Assoc.get T' i = some ty ∨
      ∃ r, Assoc.get T' i = some { ty with variant := .reference ⟨r, false, 1, .bounded 1⟩ } := by
  revert i ty
  refine removeDuplicates_induct (P := fun T T' => ∀ i ty, Assoc.get T i = some ty → Assoc.get T' i = some ty ∨
      ∃ r, Assoc.get T' i = some { ty with variant := .reference ⟨r, false, 1, .bounded 1⟩ }) n T T' h hT ?_ ?_
  · intro T _ _ i ty hi; exact Or.inl hi
  · intro T T' hT ih i ty hi
    cases hd : Assoc.get (findDups T) i with
    | none => exact ih i ty (by simp [get_applyDups, hi, hd])
    | some r =>
      have : Assoc.get (applyDups (findDups T) T) i = some { ty with variant := .reference (.new r) } := by
        simp [get_applyDups, hi, hd]
      rcases ih i _ this with h | ⟨r', h⟩
      · exact Or.inr ⟨r, h⟩
      · exact Or.inr ⟨r', h⟩

/-- C35: in the result no two different names have equal definitions, except references. -/
theorem C35_no_duplicates_left (n : Nat) (T T' : Types) (hT : Ok T) (h : removeDuplicates n T = some T')
    (i j : Ident) (a b : MetaType) (hi : Assoc.get T' i = some a) (hj : Assoc.get T' j = some b) (hij : i ≠ j)
    (hr : ∀ x, a.variant ≠ .reference x) : a.typeEq T' b = false := by
  have : Ok T' ∧ (findDups T').isEmpty = true := by
    refine removeDuplicates_induct (P := fun _ T' => Ok T' ∧ (findDups T').isEmpty = true) n T T' h hT ?_ ?_
    · intro T hT hd; exact ⟨hT, hd⟩
    · intro T T' _ ih; exact ih
  have hinv := findDups_inv this.1.keyed
  have hnil : findDups T' = [] := List.isEmpty_iff.1 this.2
  have hno : ∀ x, x ∉ Assoc.keys (T'.foldl (dupStep T') ⟨[], []⟩).dups := by
    intro x
    change x ∉ Assoc.keys (findDups T')
    rw [hnil]; simp [Assoc.keys]
  exact hinv.distinct (i, a) (Assoc.mem_of_get hi) (j, b) (Assoc.mem_of_get hj) (hno _) (hno _) hij hr

/-- C35: names that stood for the same type still do. -/
theorem C35_synonyms_kept (n : Nat) (T T' : Types) (hT : Ok T) (h : removeDuplicates n T = some T') (i k : Ident)
    (he : res T i = res T k) : res T' i = res T' k := by
  revert i k
  refine removeDuplicates_induct (P := fun T T' => ∀ i k, res T i = res T k → res T' i = res T' k) n T T' h hT ?_ ?_
  · intro T _ _ i k he; exact he
  · intro T T' hT ih i k he; exact ih i k (res_coarser hT he)

theorem res_res_after (n : Nat) (T T' : Types) (hT : Ok T) (h : removeDuplicates n T = some T') (i : Ident) :
    res T' i = res T' (res T i) :=
  C35_synonyms_kept n T T' hT h i (res T i) (res_idem hT.acyclic i).symm

/-- C35: every name stands for a type that is structurally equal to the one it stood for before, when the mentioned types
are compared after the pass. -/
theorem C35_structurally_equal (n : Nat) (T T' : Types) (hT : Ok T) (h : removeDuplicates n T = some T') (i : Ident)
    (hd : Defined T i) :
    ∃ ty ty', Assoc.get T (res T i) = some ty ∧ Assoc.get T' (res T' i) = some ty' ∧ SameUpToSynonyms T' ty ty' := by
  revert i
  induction n generalizing T with
  | zero => cases h
  | succ n ih =>
    rw [removeDuplicates, dupRound] at h
    cases hdup : (findDups T).isEmpty with
    | true =>
      rw [hdup] at h; simp at h; subst h
      intro i hd
      obtain ⟨ty, hty⟩ := res_defined hd
      exact ⟨ty, ty, hty, hty, rfl, rfl⟩
    | false =>
      rw [hdup] at h
      have h' : removeDuplicates n (applyDups (findDups T) T) = some T' := by simpa using h
      intro i hd
      obtain ⟨ty, ty₁, h1, h2, h3, -⟩ := denotes_round hT i hd
      obtain ⟨ty₁', ty', h4, h5, h6⟩ := ih _ (round_ok hT) h' i ((defined_round T i).2 hd)
      rw [h2] at h4; cases h4
      refine ⟨ty, ty', h1, h5, h3.1.trans h6.1, ?_⟩
      exact (mapIdents_coarser (res_res_after n _ T' (round_ok hT) h') h3.2).trans h6.2

/-- Types that become equal offer their derived types under the same names. -/
def MergedKeysAgree (T T' : Types) : Prop :=
  ∀ i j a b, Assoc.get T i = some a → Assoc.get T j = some b → SameUpToSynonyms T' a b →
    a.variant.keyProps = b.variant.keyProps

/-- C35 (partial): the pass changes the accepted documents of no type, provided that dynamic types which become equal
offer their derived types under the same names. Missing: dynamic types with different names of derived types, for which
`C35_different_substitutions_merged` shows that the claim is false. -/
theorem C35_same_documents_partial (P : Lex) (n : Nat) (T T' : Types) (hT : Ok T)
    (h : removeDuplicates n T = some T') (hK : MergedKeysAgree T T') (j : Judge) :
    Valid P T' j ↔ Valid P T j := by
  induction n generalizing T with
  | zero => cases h
  | succ n ih =>
    rw [removeDuplicates, dupRound] at h
    cases hdup : (findDups T).isEmpty with
    | true => rw [hdup] at h; simp at h; subst h; exact Iff.rfl
    | false =>
      rw [hdup] at h
      have h' : removeDuplicates n (applyDups (findDups T) T) = some T' := by simpa using h
      have hcoarse : ∀ i, res T' i = res T' (res T i) := by
        intro i
        rw [C35_synonyms_kept n _ T' (round_ok hT) h' i (res T i)]
        exact res_coarser hT (res_idem hT.acyclic i).symm
      have hK₁ : KeysAgree T := by
        intro i j a b ha hb hab
        have := ((C34_equal_iff_same_up_to_synonyms T a b).1 hab).2
        exact hK i j a b ha hb ⟨this.1, mapIdents_coarser hcoarse this.2⟩
      have ht := transfer_round hT hK₁
      have hK₂ : MergedKeysAgree (applyDups (findDups T) T) T' := by
        -- every definition is a former one or a reference
        have hform : ∀ i a, Assoc.get (applyDups (findDups T) T) i = some a →
            Assoc.get T i = some a ∨ ∃ x, a.variant = .reference x := by
          intro i a ha
          rw [get_applyDups] at ha
          cases hg : Assoc.get T i with
          | none => rw [hg] at ha; cases ha
          | some ty =>
            rw [hg] at ha
            simp only [Option.map_some, Option.some.injEq] at ha
            cases hd : Assoc.get (findDups T) i with
            | none => rw [hd] at ha; exact Or.inl (by rw [← ha])
            | some r => rw [hd] at ha; exact Or.inr ⟨_, by rw [← ha]⟩
        have hkr : ∀ a b : MetaType, SameUpToSynonyms T' a b → (∃ x, a.variant = .reference x) →
            a.variant.keyProps = b.variant.keyProps := by
          rintro a b ⟨-, hs⟩ ⟨x, hx⟩
          rw [hx] at hs ⊢
          cases hb : b.variant <;> rw [hb] at hs <;> simp [Variant.mapIdents] at hs
          rfl
        intro i j a b ha hb hab
        rcases hform i a ha with ha' | ha'
        · rcases hform j b hb with hb' | hb'
          · exact hK i j a b ha' hb' hab
          · exact (hkr b a ⟨hab.1.symm, hab.2.symm⟩ hb').symm
        · exact hkr a b hab ha'
      rw [ih _ (round_ok hT) h' hK₂]
      exact ⟨fun hv => hv.transfer ht.2 j rfl, fun hv => hv.transfer ht.1 j rfl⟩

/-- Names whose chains go down in some rank are on no loop. -/
theorem acyclic_of_rank (T : Types) (rank : Ident → Nat)
    (h : ∀ p ∈ T, ∀ k ∈ p.2.variant.target, rank k < rank p.1) : Acyclic T := by
  have hs : ∀ i k, Synonym T i k → rank k < rank i := by
    intro i k hs
    obtain ⟨ty, h1, h2⟩ := (synonym_iff T i k).1 hs
    exact h (i, ty) (Assoc.mem_of_get h1) k h2
  have hf : ∀ i p j, Follow T i p j → rank j ≤ rank i := by
    intro i p j hf
    induction hf with
    | here _ => exact Nat.le_refl _
    | step h' _ ih => exact Nat.le_trans ih (Nat.le_of_lt (hs _ _ h'))
  rintro i ⟨k, p, h1, h2⟩
  have := hs _ _ h1
  have := hf _ _ _ h2
  omega

theorem closed_of_check (T : Types)
    (h : ∀ p ∈ T, ∀ k ∈ p.2.variant.target, (Assoc.get T k).isSome = true) : Closed T := by
  intro i k hs
  obtain ⟨ty, h1, h2⟩ := (synonym_iff T i k).1 hs
  have := h (i, ty) (Assoc.mem_of_get h1) k h2
  cases hg : Assoc.get T k with
  | none => rw [hg] at this; cases this
  | some v => exact ⟨v, hg⟩

/-- An element `name` of type `t` that occurs once, used in examples. -/
def exElem (name t : String) : Element :=
  ⟨⟨0, .named name.toList⟩, .type_ (exId t) .element, .qualified, ⟨false, false, false, false, false⟩, 1, .bounded 1,
    none, []⟩

/-- Two sequences that become equal only after the types of their elements have been merged. -/
def exDup : Types :=
  [(exId "S", .new (.buildIn .string)), (exId "S2", .new (.buildIn .string)), (exId "S3", .new (.reference (.new (exId "S2")))),
   (exId "P", .new (.sequence ⟨false, [exElem "x" "S"]⟩)), (exId "Q", .new (.sequence ⟨false, [exElem "x" "S3"]⟩)),
   (exId "R", .new (.sequence ⟨false, [exElem "y" "S3"]⟩))]

theorem exDup_ok : Ok exDup :=
  ⟨by unfold Assoc.Keyed; decide +kernel, acyclic_of_rank _ (fun i => if i = exId "S3" then 1 else 0) (by decide +kernel),
    closed_of_check _ (by decide +kernel)⟩

example : removeDuplicates 4 exDup = some
    [(exId "S", .new (.buildIn .string)), (exId "S2", .new (.reference (.new (exId "S")))),
     (exId "S3", .new (.reference (.new (exId "S")))),
     (exId "P", .new (.sequence ⟨false, [exElem "x" "S"]⟩)), (exId "Q", .new (.reference (.new (exId "P")))),
     (exId "R", .new (.sequence ⟨false, [exElem "y" "S3"]⟩))] := by decide +kernel

/-- `MergedKeysAgree` holds when there are no dynamic types. -/
theorem mergedKeysAgree_of_no_dynamic (T T' : Types) (h : ∀ p ∈ T, ∀ d, p.2.variant ≠ .dynamic d) :
    MergedKeysAgree T T' := by
  have hk : ∀ i a, Assoc.get T i = some a → a.variant.keyProps = [] := by
    intro i a ha
    have := h (i, a) (Assoc.mem_of_get ha)
    cases hv : a.variant <;> simp [Variant.keyProps]
    exact absurd hv (this _)
  intro i j a b ha hb _
  rw [hk i a ha, hk j b hb]

/-- `Q` accepts the same contents after it has been replaced by `P`. -/
example (P : Lex) (T' : Types) (h : removeDuplicates 4 exDup = some T') (ns : List Node) :
    Valid P T' (.group (exId "Q") ns) ↔ Valid P exDup (.group (exId "Q") ns) :=
  C35_same_documents_partial P 4 exDup T' exDup_ok h (mergedKeysAgree_of_no_dynamic _ _ (by
    intro p hp d hd
    simp only [exDup, List.mem_cons, List.not_mem_nil, or_false] at hp
    rcases hp with rfl | rfl | rfl | rfl | rfl | rfl <;> cases hd)) _

/-- `A = B`, `B = C`, `C = A` and `D` a synonym of `last`. -/
def exSpin (last : String) : Types :=
  [(exId "A", .new (.reference (.new (exId "B")))), (exId "B", .new (.reference (.new (exId "C")))),
   (exId "C", .new (.reference (.new (exId "A")))), (exId "D", .new (.reference (.new (exId last))))]

/-- C35 (negation): without the hypothesis that there are no typedef loops the pass need not terminate. -/
theorem C35_loop_never_ends (n : Nat) : removeDuplicates n (exSpin "A") = none := by
  suffices H : ∀ n, removeDuplicates n (exSpin "A") = none ∧ removeDuplicates n (exSpin "B") = none ∧
      removeDuplicates n (exSpin "C") = none from (H n).1
  have hA : dupRound (exSpin "A") = some (exSpin "B") := by decide +kernel
  have hB : dupRound (exSpin "B") = some (exSpin "C") := by decide +kernel
  have hC : dupRound (exSpin "C") = some (exSpin "A") := by decide +kernel
  intro n
  induction n with
  | zero => exact ⟨rfl, rfl, rfl⟩
  | succ n ih =>
    refine ⟨?_, ?_, ?_⟩
    · rw [removeDuplicates, hA]; exact ih.2.1
    · rw [removeDuplicates, hB]; exact ih.2.2
    · rw [removeDuplicates, hC]; exact ih.1

/-- An element declaration, used in examples. -/
def exEl (name : String) : Ident := ⟨0, 0, .named name.toList, .element⟩

/-- Two abstract elements `h1` and `h2`; `a` may be used instead of `h1`, `b` instead of `h2`; `a` and `b` have the same
type. -/
def exHeads : Types :=
  [(exId "X", .new (.buildIn .string)),
   (exEl "a", .new (.reference (.new (exId "X")))), (exEl "b", .new (.reference (.new (exId "X")))),
   (exEl "h1", .new (.dynamic ⟨none, true, [(exEl "a", ⟨exEl "a", none, .directChild⟩)]⟩)),
   (exEl "h2", .new (.dynamic ⟨none, true, [(exEl "b", ⟨exEl "b", none, .directChild⟩)]⟩))]

theorem exHeads_ok : Ok exHeads :=
  ⟨by unfold Assoc.Keyed; decide +kernel, acyclic_of_rank _ (fun i => if i = exId "X" then 0 else 1) (by decide +kernel),
    closed_of_check _ (by decide +kernel)⟩

/-- C35 (negation): two abstract elements with different substitutions are merged when the substituting elements have the
same type: afterwards `b` is no longer accepted where `h2` is asked for. -/
theorem C35_different_substitutions_merged (P : Lex) (hP : P.builtIn .string []) :
    ∃ T', removeDuplicates 3 exHeads = some T' ∧
      Valid P exHeads (.group (exEl "h2") [.elem ⟨0, .named "b".toList⟩ none [] [.text []]]) ∧
      ¬ Valid P T' (.group (exEl "h2") [.elem ⟨0, .named "b".toList⟩ none [] [.text []]]) := by
  refine ⟨[(exId "X", .new (.buildIn .string)),
   (exEl "a", .new (.reference (.new (exId "X")))), (exEl "b", .new (.reference (.new (exId "X")))),
   (exEl "h1", .new (.dynamic ⟨none, true, [(exEl "a", ⟨exEl "a", none, .directChild⟩)]⟩)),
   (exEl "h2", .new (.reference (.new (exEl "h1"))))], by decide +kernel, ?_, ?_⟩
  · refine .substitution (key := exEl "b") (der := ⟨exEl "b", none, .directChild⟩)
      (ty := .new (.dynamic ⟨none, true, [(exEl "b", ⟨exEl "b", none, .directChild⟩)]⟩)) (by decide +kernel) rfl
      (by simp) ?_
    refine .textValue (.refText (ty := .new (.reference (.new (exId "X")))) (by decide +kernel) rfl rfl rfl ?_)
    exact .builtInText (ty := .new (.buildIn .string)) (by decide +kernel) rfl hP
  · have h2 : ∀ ty, Assoc.get ([(exId "X", .new (.buildIn .string)),
        (exEl "a", .new (.reference (.new (exId "X")))), (exEl "b", .new (.reference (.new (exId "X")))),
        (exEl "h1", .new (.dynamic ⟨none, true, [(exEl "a", ⟨exEl "a", none, .directChild⟩)]⟩)),
        (exEl "h2", .new (.reference (.new (exEl "h1"))))] : Types) (exEl "h2") = some ty →
        ty.variant = .reference (.new (exEl "h1")) := by
      intro ty h
      have : some ty = some (MetaType.new (.reference (.new (exEl "h1")))) := by rw [← h]; decide +kernel
      cases this; rfl
    have h1 : ∀ ty, Assoc.get ([(exId "X", .new (.buildIn .string)),
        (exEl "a", .new (.reference (.new (exId "X")))), (exEl "b", .new (.reference (.new (exId "X")))),
        (exEl "h1", .new (.dynamic ⟨none, true, [(exEl "a", ⟨exEl "a", none, .directChild⟩)]⟩)),
        (exEl "h2", .new (.reference (.new (exEl "h1"))))] : Types) (exEl "h1") = some ty →
        ty.variant = .dynamic ⟨none, true, [(exEl "a", ⟨exEl "a", none, .directChild⟩)]⟩ := by
      intro ty h
      have : some ty = some (MetaType.new (.dynamic ⟨none, true, [(exEl "a", ⟨exEl "a", none, .directChild⟩)]⟩)) := by
        rw [← h]; decide +kernel
      cases this; rfl
    intro hv
    generalize hn : ([Node.elem ⟨0, .named "b".toList⟩ none [] [.text []]] : List Node) = ns at hv
    cases hv with
    | refGroup hg hr _ _ hsub =>
      have := h2 _ hg
      rw [hr] at this; cases this
      cases hsub with
      | refGroup hg hr => have := h1 _ hg; rw [hr] at this; cases this
      | sequence hg hr => have := h1 _ hg; rw [hr] at this; cases this
      | choice hg hr => have := h1 _ hg; rw [hr] at this; cases this
      | all hg hr => have := h1 _ hg; rw [hr] at this; cases this
      | complexGroup hg hr => have := h1 _ hg; rw [hr] at this; cases this
      | substitution hg hr hm =>
        have := h1 _ hg; rw [hr] at this; cases this
        simp only [List.mem_singleton, Prod.mk.injEq] at hm
        rw [hm.1] at hn
        simp [exEl, Ident.toProp] at hn
    | sequence hg hr => have := h2 _ hg; rw [hr] at this; cases this
    | choice hg hr => have := h2 _ hg; rw [hr] at this; cases this
    | all hg hr => have := h2 _ hg; rw [hr] at this; cases this
    | complexGroup hg hr => have := h2 _ hg; rw [hr] at this; cases this
    | substitution hg hr => have := h2 _ hg; rw [hr] at this; cases this

end Verif.Opt

import Verif.Opt.Session
/-!
# The whole optimizer accepts no less (C69)

The passes one after the other, in the order of `exec_optimizer` (`xsd-parser/src/lib.rs:257-330`): conditions on the
table before the first pass are enough for all of them.
-/
namespace Verif.Opt

open Verif.Meta
open Verif.Naming (Name)

/-! ## Specification -/

/-- The types that a definition stands on: what a reference refers to, the members of a union and every base. -/
def points : Variant → List Ident
  | .reference r => [r.type_]
  | .union u => u.base.ident.toList ++ u.types.map (·.type_)
  | .enumeration e => e.base.ident.toList
  | .complex c => c.base.ident.toList
  | .simple x => [x.base]
  | _ => []

/-- The definition of `i` stands on `k`. -/
def Points (T : Types) (i k : Ident) : Prop := ∃ v, look T i = some v ∧ k ∈ points v

/-- What is asked of the table before the first pass: one definition for each name, no definition stands on a name that is
not defined, and no definition stands on itself or is its own content. -/
structure WellFormed (T : Types) : Prop where
  keyed : Assoc.Keyed T
  defined : ∀ i k, Points T i k → Defined T k
  noLoop : NoLoop (fun a b => Uses T a b ∨ Points T a b)

/-- No enumeration lists the empty text. -/
def NoEmptyLiteral (T : Types) : Prop :=
  ∀ i x w, look T i = some (.enumeration x) → w ∈ x.variants → w.ident.name ≠ .named []

/-- Two dynamic types with the same name and equally many derived types offer them under the same names. -/
def KeysByCount (T : Types) : Prop :=
  ∀ i j a b d e, Assoc.get T i = some a → Assoc.get T j = some b → a.variant = .dynamic d → b.variant = .dynamic e →
    a.displayName = b.displayName → d.derived.length = e.derived.length →
    d.derived.map (·.1.toProp) = e.derived.map (·.1.toProp)

/-- None of the flags for the passes that rebuild complex types, dynamic types or enumerations. -/
def OptFlags.Plain (F : OptFlags) : Prop :=
  F.replaceXsAnyType = false ∧ F.mergeDynamicTypes = false ∧ F.convertDynamicToChoice = false ∧
  F.flattenComplexTypes = false ∧ F.mergeEnumUnions = false ∧ F.mergeChoiceCardinalities = false ∧
  F.simplifyMixedTypes = false

/-! ## Proofs -/

structure Good (T : Types) : Prop where
  keyed : Assoc.Keyed T
  defined : ∀ i k, Points T i k → Defined T k
  noLoop : NoLoop (Points T)

theorem transGen_mono {α : Type} {R S : α → α → Prop} (h : ∀ a b, R a b → Relation.TransGen S a b) {a b : α}
    (hab : Relation.TransGen R a b) : Relation.TransGen S a b := by
  induction hab with
  | single h' => exact h _ _ h'
  | tail _ h' ih => exact transGen_trans ih (h _ _ h')

theorem WellFormed.good {T : Types} (h : WellFormed T) : Good T :=
  ⟨h.keyed, h.defined, fun a ha => h.noLoop a (transGen_mono (fun _ _ h => .single (.inr h)) ha)⟩

theorem points_of_synonym {T : Types} {i k : Ident} (h : Synonym T i k) : Points T i k := by
  obtain ⟨ty, r, h1, h2, h3, -⟩ := h
  exact ⟨_, look_of h1 h2, by simp [points, h3]⟩

theorem follow_points {T : Types} {i j : Ident} {p : List Ident} (h : Follow T i p j) :
    i = j ∨ Relation.TransGen (Points T) i j := by
  induction h with
  | here => exact .inl rfl
  | step hs _ ih =>
    right
    rcases ih with rfl | ih
    · exact .single (points_of_synonym hs)
    · exact transGen_trans (.single (points_of_synonym hs)) ih

theorem Good.ok {T : Types} (h : Good T) : Ok T := by
  refine ⟨h.keyed, ?_, fun i k hs => h.defined i k (points_of_synonym hs)⟩
  rintro i ⟨k, p, hs, hf⟩
  rcases follow_points hf with rfl | hf
  · exact h.noLoop _ (.single (points_of_synonym hs))
  · exact h.noLoop _ (transGen_trans (.single (points_of_synonym hs)) hf)

theorem last_step {α : Type} {R : α → α → Prop} {a b : α} (h : Relation.TransGen R a b) : ∃ c, R c b := by
  cases h with
  | single h => exact ⟨_, h⟩
  | tail _ h => exact ⟨_, h⟩

theorem defined_iff_keys {T : Types} {i : Ident} : Defined T i ↔ i ∈ Assoc.keys T := by
  rw [← Assoc.get_isSome]
  unfold Defined
  cases Assoc.get T i <;> simp

theorem Good.of_sub {T T' : Types} (h : Good T) (hk : Assoc.keys T' = Assoc.keys T)
    (hs : ∀ i k, Points T' i k → Relation.TransGen (Points T) i k) : Good T' := by
  refine ⟨?_, fun i k hp => ?_, fun a ha => h.noLoop a (transGen_mono hs ha)⟩
  · unfold Assoc.Keyed; rw [hk]; exact h.keyed
  · obtain ⟨c, hc⟩ := last_step (hs i k hp)
    rw [defined_iff_keys, hk, ← defined_iff_keys]
    exact h.defined c k hc

/-- How far a pass may change a definition. -/
inductive Tame (v : Variant) : Variant → Prop
  | same : Tame v v
  | reference (r) : Tame v (.reference r)
  | union (u) : Tame v (.union u)
  | short (f) : Tame v (shortVariant f v)

def TameAll (T T' : Types) : Prop :=
  ∀ i ty', Assoc.get T' i = some ty' → ∃ ty, Assoc.get T i = some ty ∧ ty'.displayName = ty.displayName ∧
    Tame ty.variant ty'.variant

theorem TameAll.noEmpty {T T' : Types} (h : TameAll T T') (hn : NoEmptyLiteral T) : NoEmptyLiteral T' := by
  intro i x w hi hw
  obtain ⟨ty', h1, h2⟩ := look_iff.1 hi
  obtain ⟨ty, h3, -, h4⟩ := h i ty' h1
  rw [h2] at h4
  generalize hv : ty.variant = v at h4
  generalize hx : Variant.enumeration x = v' at h4
  cases h4 with
  | same => exact hn i x w (look_of h3 (hv.trans hx.symm)) hw
  | reference => cases hx
  | union => cases hx
  | short f =>
    cases v <;> simp only [shortVariant] at hx <;> try cases hx
    · rename_i r
      split at hx <;> cases hx
    · rename_i y
      obtain ⟨w', hw', rfl⟩ := List.mem_map.1 hw
      exact hn i y w' (look_of h3 hv) hw'

theorem TameAll.keys {T T' : Types} (h : TameAll T T') (hn : KeysByCount T) : KeysByCount T' := by
  have key : ∀ i ty' d', Assoc.get T' i = some ty' → ty'.variant = .dynamic d' → ∃ ty d, Assoc.get T i = some ty ∧
      ty.variant = .dynamic d ∧ ty'.displayName = ty.displayName ∧ d'.derived.length = d.derived.length ∧
      d'.derived.map (·.1.toProp) = d.derived.map (·.1.toProp) := by
    intro i ty' d' h1 h2
    obtain ⟨ty, h3, h4, h5⟩ := h i ty' h1
    rw [h2] at h5
    generalize hv : ty.variant = v at h5
    generalize hx : Variant.dynamic d' = v' at h5
    cases h5 with
    | same => exact ⟨ty, d', h3, hv.trans hx.symm, h4, rfl, rfl⟩
    | reference => cases hx
    | union => cases hx
    | short f =>
      cases v <;> simp only [shortVariant] at hx <;> try cases hx
      · rename_i r
        split at hx <;> cases hx
      · rename_i y
        exact ⟨ty, y, h3, hv, h4, by simp, by simp [Function.comp_def]⟩
  intro i j a b d e h1 h2 h3 h4 h5 h6
  obtain ⟨a', d', g1, g2, g3, g4, g5⟩ := key i a d h1 h3
  obtain ⟨b', e', k1, k2, k3, k4, k5⟩ := key j b e h2 h4
  rw [g5, k5]
  exact hn i j a' b' d' e' g1 k1 g2 k2 (by rw [← g3, ← k3, h5]) (by rw [← g4, ← k4, h6])

structure StepOk (P : Lex) (T T' : Types) : Prop where
  keys : Assoc.keys T' = Assoc.keys T
  good : Good T'
  tame : TameAll T T'
  accepts : ∀ j, Valid P T j → Valid P T' j

/-- Passes that change each definition on its own. -/
theorem mapVariant_step {P : Lex} {T : Types} (g : Variant → Variant) (hT : Good T)
    (hp : ∀ i v, look T i = some v → ∀ k ∈ points (g v), Relation.TransGen (Points T) i k) (ht : ∀ v, Tame v (g v))
    (ha : ∀ j, Valid P T j → Valid P (T.map fun p => (p.1, { p.2 with variant := g p.2.variant })) j) :
    StepOk P T (T.map fun p => (p.1, { p.2 with variant := g p.2.variant })) := by
  have hk : Assoc.keys (T.map fun p => (p.1, { p.2 with variant := g p.2.variant })) = Assoc.keys T := by
    simp [Assoc.keys, Function.comp_def]
  refine ⟨hk, hT.of_sub hk ?_, ?_, ha⟩
  · rintro i k ⟨v, h1, h2⟩
    rw [look_mapVariant] at h1
    obtain ⟨w, h3, rfl⟩ := Option.map_eq_some_iff.1 h1
    exact hp i w h3 k h2
  · intro i ty' h
    rw [get_mapVariant] at h
    obtain ⟨ty, h3, rfl⟩ := Option.map_eq_some_iff.1 h
    exact ⟨ty, h3, rfl, ht _⟩

theorem emptyVariants_id {T : Types} (h : NoEmptyLiteral T) (hk : Assoc.Keyed T) : removeEmptyEnumVariants T = T := by
  apply map_id_of
  rintro ⟨i, ty⟩ hp
  cases hv : ty.variant with
  | enumeration x =>
    simp only [withoutEmptyVariants, Variant.enumeration.injEq]
    have : x.variants.filter (fun v => !isEmptyName v.ident.name) = x.variants := by
      apply List.filter_eq_self.2
      intro w hw
      have := h i x w (look_of (Assoc.get_of_mem hk hp) hv) hw
      cases hn : w.ident.name with
      | named s => rw [hn] at this; cases s <;> simp_all [isEmptyName]
      | _ => rfl
    rw [this]
  | _ => rfl

theorem emptyEnums_step {P : Lex} {T : Types} (hT : Good T) : StepOk P T (removeEmptyEnums T) := by
  refine mapVariant_step emptyEnumToRef hT ?_ ?_ (C39_empty_enums_accept_no_less P T)
  · intro i v hl k hk
    refine .single ⟨v, hl, ?_⟩
    cases v <;> try exact hk
    simp only [emptyEnumToRef] at hk
    split at hk
    · split at hk
      · rename_i b hb
        simp only [points, Reference.new, List.mem_singleton] at hk
        simp [points, hb, hk]
      · exact hk
    · exact hk
  · intro v
    cases v <;> try exact .same
    simp only [emptyEnumToRef]
    split
    · split
      · exact .reference _
      · exact .same
    · exact .same

theorem emptyUnions_step {P : Lex} {T : Types} (hT : Good T) : StepOk P T (removeEmptyUnions T) := by
  refine mapVariant_step smallUnionToRef hT ?_ ?_ (C39_small_unions_accept_no_less P T)
  · intro i v hl k hk
    refine .single ⟨v, hl, ?_⟩
    cases v <;> try exact hk
    rename_i u
    simp only [smallUnionToRef] at hk
    split at hk
    · split at hk
      · rename_i b hb
        simp only [points, Reference.new, List.mem_singleton] at hk
        subst hk
        simp only [points, List.mem_append]
        cases hu : u.types with
        | nil => left; simpa [hu] using hb
        | cons m ms => right; simp only [hu, List.head?_cons, Option.map_some, Option.some_or, Option.some.injEq] at hb; simp [hb]
      · exact hk
    · exact hk
  · intro v
    cases v <;> try exact .same
    simp only [smallUnionToRef]
    split
    · split
      · exact .reference _
      · exact .same
    · exact .same

theorem all_resolve {T : Types} (hT : Ok T) (i : Ident) : (tdResolveF T (T.length + 1) i).isSome = true := by
  rw [C36_typedef_recursion_ends T hT.acyclic hT.closed i _ (by omega)]; rfl

theorem duplicateMembers_ok {T : Types} (hT : Ok T) : dedupWith T T = .ok (removeDuplicateUnionVariants T) := by
  unfold dedupWith
  rw [if_pos]
  · rfl
  · exact List.all_eq_true.2 fun p _ => List.all_eq_true.2 fun i _ => all_resolve hT i

theorem resolveTypedefs_ok {T : Types} (hT : Ok T) : resolveWith T T = .ok (resolveTypedefs T) := by
  unfold resolveWith
  rw [if_pos]
  · rfl
  · exact List.all_eq_true.2 fun p _ => List.all_eq_true.2 fun i _ => all_resolve hT i

theorem duplicateMembers_step {P : Lex} {T : Types} (hT : Good T) : StepOk P T (removeDuplicateUnionVariants T) := by
  refine mapVariant_step (dedupVariant (tdResolve T)) hT ?_ ?_
    (fun j => (C38_same_documents P T hT.ok.acyclic hT.ok.closed j).2)
  · intro i v hl k hk
    refine .single ⟨v, hl, ?_⟩
    cases v <;> try exact hk
    rename_i u
    simp only [dedupVariant, points, List.mem_append, List.mem_map] at hk ⊢
    rcases hk with hk | ⟨t, ht, rfl⟩
    · exact .inl hk
    · exact .inr ⟨t, (dedup_sublist _ _ _).subset ht, rfl⟩
  · intro v
    cases v <;> first | exact .same | exact .union _

theorem points_res {T : Types} {k : Ident} (hd : Defined T k) :
    k = res T k ∨ Relation.TransGen (Points T) k (res T k) := by
  obtain ⟨p, hp⟩ := res_follow hd
  exact follow_points hp

theorem to_res {T : Types} (hT : Good T) {i k : Ident} (h : Points T i k) :
    Relation.TransGen (Points T) i (res T k) := by
  rcases points_res (hT.defined i k h) with h' | h'
  · rw [← h']; exact .single h
  · exact transGen_trans (.single h) h'

theorem mem_shortBase {f : Ident → Ident} {b : Base} {k : Ident} (h : (shortBase f b).ident = some k) :
    ∃ k', b.ident = some k' ∧ k = f k' := by
  cases b <;> simp_all [shortBase, Base.ident]

theorem resolveTypedefs_step {P : Lex} {T : Types} (hT : Good T) : StepOk P T (resolveTypedefs T) := by
  refine mapVariant_step (shortVariant (tdResolve T)) hT ?_ (fun v => .short _)
    (fun j => (C36_same_documents P T hT.ok.acyclic hT.ok.closed j).2)
  intro i v hl k hk
  rw [tdResolve_eq hT.ok.acyclic hT.ok.closed] at hk
  have key : k ∈ points v ∨ ∃ k' ∈ points v, k = res T k' := by
    cases v <;> simp only [shortVariant] at hk <;> try exact .inl hk
    · rename_i u
      simp only [points, List.mem_append, List.mem_map, Option.mem_toList] at hk ⊢
      rcases hk with hk | ⟨t, ⟨t', ht', rfl⟩, rfl⟩
      · obtain ⟨k', h1, h2⟩ := mem_shortBase hk
        exact .inr ⟨k', .inl h1, h2⟩
      · exact .inr ⟨t'.type_, .inr ⟨t', ht', rfl⟩, rfl⟩
    · rename_i r
      split at hk
      · right
        simp only [points, List.mem_singleton] at hk ⊢
        exact ⟨_, rfl, hk⟩
      · exact .inl hk
    · simp only [points, Option.mem_toList] at hk ⊢
      obtain ⟨k', h1, h2⟩ := mem_shortBase hk
      exact .inr ⟨k', h1, h2⟩
    · simp only [points, Option.mem_toList] at hk ⊢
      obtain ⟨k', h1, h2⟩ := mem_shortBase hk
      exact .inr ⟨k', h1, h2⟩
  rcases key with h | ⟨k', h, rfl⟩
  · exact .single ⟨v, hl, h⟩
  · exact to_res hT ⟨v, hl, h⟩

theorem flattenUnions_keys {n : Nat} {T T' : Types} (h : flattenUnions n T = .ok T') : Assoc.keys T' = Assoc.keys T := by
  refine forEach_ok (I := fun A => Assoc.keys A = Assoc.keys T) ?_ _ _ _ rfl h
  intro A i A' hA h'
  unfold flattenUnion at h'
  split at h'
  · cases h'
  · split at h'
    · cases h'
    · cases h'
      split
      · rw [keys_setVariant]; exact hA
      · exact hA
  · cases h'

theorem leaves_points {T : Types} {i : Ident} {dn : Option Txt} {ls : List UnionType} (h : Leaves T i dn ls)
    {t : UnionType} (ht : t ∈ ls) : t.type_ = i ∨ Relation.TransGen (Points T) i t.type_ := by
  induction h with
  | missing => cases ht
  | @union i dn u f hl _ ih =>
    obtain ⟨m, h1, h2⟩ := List.mem_flatMap.1 ht
    have hm : Points T i m.type_ := ⟨_, hl, by simp only [points, List.mem_append, List.mem_map]; exact .inr ⟨m, h1, rfl⟩⟩
    right
    rcases ih m h1 h2 with h | h
    · rw [h]; exact .single hm
    · exact transGen_trans (.single hm) h
  | synonym hs _ ih =>
    right
    rcases ih ht with h | h
    · rw [h]; exact .single (points_of_synonym hs)
    · exact transGen_trans (.single (points_of_synonym hs)) h
  | leaf => simp at ht; subst ht; exact .inl rfl

theorem union_leaves_points {T : Types} {i : Ident} {dn : Option Txt} {ls : List UnionType} {u : Union}
    (hl : look T i = some (.union u)) (h : Leaves T i dn ls) {t : UnionType} (ht : t ∈ ls) :
    Relation.TransGen (Points T) i t.type_ := by
  cases h with
  | missing h' => rw [hl] at h'; cases h'
  | union f h' hf =>
    rw [hl] at h'; cases h'
    obtain ⟨m, h1, h2⟩ := List.mem_flatMap.1 ht
    have hm : Points T i m.type_ := ⟨_, hl, by simp only [points, List.mem_append, List.mem_map]; exact .inr ⟨m, h1, rfl⟩⟩
    rcases leaves_points (hf m h1) h2 with h | h
    · rw [h]; exact .single hm
    · exact transGen_trans (.single hm) h
  | synonym hs =>
    obtain ⟨v, hv', ht'⟩ := synonym_look.1 hs
    rw [hl] at hv'; cases hv'; cases ht'
  | leaf h' hu => rw [hl] at h'; cases h'; cases hu

theorem flattenUnions_step {P : Lex} {T : Types} (hT : Good T) (hP : ∀ s, P.facets .default s) (n : Nat)
    (hn : T.length < n) : ∃ T', flattenUnions n T = .ok T' ∧ StepOk P T T' := by
  have hl : NoLoop (Inside T) := by
    intro a ha
    refine hT.noLoop a (transGen_mono (fun i k h => .single ?_) ha)
    rcases h with h | ⟨u, h1, t, h2, rfl⟩
    · exact points_of_synonym h
    · exact ⟨_, h1, by simp only [points, List.mem_append, List.mem_map]; exact .inr ⟨t, h2, rfl⟩⟩
  obtain ⟨T', hT'⟩ := C37_ends T hT.keyed hl
  have h := hT' n hn
  have hk := flattenUnions_keys h
  have key : ∀ i ty', Assoc.get T' i = some ty' → ∃ ty, Assoc.get T i = some ty ∧ (ty' = ty ∨
      ∃ u ls, ty.variant = .union u ∧ Leaves T i none ls ∧ ty' = { ty with variant := .union ⟨u.base, ls, .default⟩ }) := by
    intro i ty' hi
    have hd : Defined T i := by rw [defined_iff_keys, ← hk, ← defined_iff_keys]; exact ⟨_, hi⟩
    obtain ⟨ty, hty⟩ := hd
    refine ⟨ty, hty, ?_⟩
    obtain ⟨h1, h2⟩ := C37_members n T T' hT.keyed h i ty hty
    by_cases hN : ∃ u, ty.variant = .union u ∧ Nested T u
    · obtain ⟨u, hu, hN⟩ := hN
      obtain ⟨ls, h3, h4⟩ := h1 u hu hN
      rw [hi] at h4
      exact .inr ⟨u, ls, hu, h3, Option.some.inj h4⟩
    · have := h2 (fun u hu hN' => hN ⟨u, hu, hN'⟩)
      rw [hi] at this
      exact .inl (Option.some.inj this)
  refine ⟨T', h, hk, hT.of_sub hk ?_, ?_, fun j => C37_accepts_no_less P n T T' hT.keyed h hP j⟩
  · rintro i k ⟨v, h1, h2⟩
    obtain ⟨ty', h3, rfl⟩ := look_iff.1 h1
    obtain ⟨ty, h4, rfl | ⟨u, ls, h5, h6, rfl⟩⟩ := key i ty' h3
    · exact .single ⟨_, look_of h4 rfl, h2⟩
    · simp only [points, List.mem_append, List.mem_map] at h2
      rcases h2 with h2 | ⟨t, ht, rfl⟩
      · exact .single ⟨_, look_of h4 h5, by simp only [points, List.mem_append]; exact .inl h2⟩
      · exact union_leaves_points (look_of h4 h5) h6 ht
  · intro i ty' hi
    obtain ⟨ty, h4, rfl | ⟨u, ls, h5, h6, rfl⟩⟩ := key i ty' hi
    · exact ⟨_, h4, rfl, .same⟩
    · exact ⟨ty, h4, rfl, .union _⟩

/-! ### Duplicates -/

theorem points_map (f : Ident → Ident) (v : Variant) : points (v.mapIdents f) = (points v).map f := by
  have hb : ∀ b : Base, (b.mapIdents f).ident.toList = b.ident.toList.map f := by intro b; cases b <;> rfl
  cases v <;> simp [points, Variant.mapIdents, hb, UnionType.mapIdents]

/-- The definition of `a`, which is no synonym, stands on a type whose end is `b`. -/
def Above (T : Types) (a b : Ident) : Prop :=
  ∃ v k, look T a = some v ∧ v.target = none ∧ k ∈ points v ∧ b = res T k

theorem Good.above {T : Types} (h : Good T) : NoLoop (Above T) := by
  intro a ha
  refine h.noLoop a (transGen_mono ?_ ha)
  rintro a b ⟨v, k, h1, -, h2, rfl⟩
  exact to_res h ⟨v, h1, h2⟩

theorem follow_of_synonyms {T : Types} (hc : Closed T) {i k : Ident} (h : Relation.TransGen (Synonym T) i k) :
    ∃ m p, Synonym T i m ∧ Follow T m p k := by
  induction h with
  | single h => exact ⟨_, _, h, .here (hc _ _ h)⟩
  | tail _ h ih =>
    obtain ⟨m, p, h1, h2⟩ := ih
    obtain ⟨q, hq⟩ := h2.trans (.step h (.here (hc _ _ h)))
    exact ⟨m, q, h1, hq⟩

theorem good_of_above {T : Types} (hT : Ok T) (hd : ∀ i k, Points T i k → Defined T k) (hA : NoLoop (Above T)) :
    Good T := by
  refine ⟨hT.keyed, hd, ?_⟩
  have step : ∀ i k, Points T i k → Synonym T i k ∨ (res T i = i ∧ Above T i (res T k)) := by
    rintro i k ⟨v, h1, h2⟩
    cases ht : v.target with
    | some k' =>
      left
      refine synonym_look.2 ⟨v, h1, ?_⟩
      cases v <;> simp only [Variant.target] at ht <;> try cases ht
      rename_i r
      split at ht
      · simp only [points, List.mem_singleton] at h2
        rename_i hs
        simp [Variant.target, hs, h2]
      · cases ht
    | none =>
      refine .inr ⟨res_of_not_synonym fun x hx => ?_, v, k, h1, ht, h2, rfl⟩
      obtain ⟨w, hw, htw⟩ := synonym_look.1 hx
      rw [h1] at hw; cases hw
      rw [ht] at htw; cases htw
  have syn : ∀ i k, Synonym T i k → res T i = res T k := fun i k h =>
    res_synonym hT.acyclic h (hT.closed _ _ h)
  have syns : ∀ i k, Relation.TransGen (Synonym T) i k → res T i = res T k := by
    intro i k h
    induction h with
    | single h => exact syn _ _ h
    | tail _ h ih => exact ih.trans (syn _ _ h)
  have main : ∀ a b, Relation.TransGen (Points T) a b →
      Relation.TransGen (Synonym T) a b ∨ Relation.TransGen (Above T) (res T a) (res T b) := by
    intro a b h
    induction h with
    | single h =>
      rcases step _ _ h with h | ⟨h1, h2⟩
      · exact .inl (.single h)
      · exact .inr (.single (by rw [h1]; exact h2))
    | @tail b c _ h ih =>
      rcases step _ _ h with h | ⟨h1, h2⟩
      · rcases ih with ih | ih
        · exact .inl (.tail ih h)
        · exact .inr (by rw [← syn _ _ h]; exact ih)
      · right
        rcases ih with ih | ih
        · rw [syns _ _ ih, h1]; exact .single h2
        · exact .tail ih (by rw [h1]; exact h2)
  intro a ha
  rcases main a a ha with h | h
  · obtain ⟨m, p, h1, h2⟩ := follow_of_synonyms hT.closed h
    exact hT.acyclic a ⟨m, p, h1, h2⟩
  · exact hA _ h

theorem round_good {T : Types} (hT : Good T) : Good (applyDups (findDups T) T) := by
  have hok := hT.ok
  have hR := round_ok hok
  have hlook : ∀ i v, look (applyDups (findDups T) T) i = some v →
      (∃ r, Assoc.get (findDups T) i = some r ∧ v = .reference (.new r)) ∨
      (Assoc.get (findDups T) i = none ∧ look T i = some v) := by
    intro i v h
    obtain ⟨ty, h1, rfl⟩ := look_iff.1 h
    rw [get_applyDups] at h1
    cases hg : Assoc.get T i with
    | none => rw [hg] at h1; cases h1
    | some ty₀ =>
      rw [hg] at h1
      cases hd : Assoc.get (findDups T) i with
      | none => rw [hd] at h1; simp at h1; subst h1; exact .inr ⟨rfl, look_of hg rfl⟩
      | some r => rw [hd] at h1; simp at h1; subst h1; exact .inl ⟨r, rfl, rfl⟩
  refine good_of_above hR ?_ ?_
  · rintro i k ⟨v, h1, h2⟩
    rw [defined_round]
    rcases hlook i v h1 with ⟨r, h3, rfl⟩ | ⟨-, h3⟩
    · simp only [points, Reference.new, List.mem_singleton] at h2
      subst h2
      exact (dup_defined hok h3).2
    · exact hT.defined i k ⟨v, h3, h2⟩
  · -- a step after the iteration comes from a step before it, followed by the merge
    have step : ∀ a b, Above (applyDups (findDups T) T) a b → ∃ b₀, Above T a b₀ ∧ Defined T b₀ ∧ res T b₀ = b₀ ∧
        b = res (applyDups (findDups T) T) b₀ := by
      rintro a b ⟨v, k, h1, h2, h3, rfl⟩
      rcases hlook a v h1 with ⟨r, -, rfl⟩ | ⟨-, h4⟩
      · simp [Variant.target, Reference.new, Reference.isSimple, Reference.isSingle] at h2
      · exact ⟨res T k, ⟨v, k, h4, h2, h3, rfl⟩, res_defined (hT.defined a k ⟨v, h4, h3⟩), res_idem hok.acyclic k,
          res_round hok k⟩
    -- merged types stand on the same types
    have same : ∀ b₀ c, Defined T b₀ → res T b₀ = b₀ →
        Above T (res (applyDups (findDups T) T) b₀) c → Above T b₀ c := by
      intro b₀ c hd he hab
      cases hg : Assoc.get (findDups T) b₀ with
      | none =>
        have hend : ∀ k, ¬ Synonym (applyDups (findDups T) T) b₀ k := by
          intro k hk
          rcases (synonym_round T _ k).1 hk with ⟨-, h'⟩ | ⟨-, h'⟩
          · rw [hg] at h'; cases h'
          · rw [← he] at h'; exact res_end_closed hok.acyclic hok.closed _ _ h'
        rwa [res_of_not_synonym (i := b₀) (fun k hk => absurd hk (hend k))] at hab
      | some r =>
        have hs' : Synonym (applyDups (findDups T) T) b₀ r := (synonym_round T _ r).2 (Or.inl ⟨hd, hg⟩)
        rcases dup_cases hok hg with ⟨hn0, hn, hr, ty, rty, h1, h2, h3⟩ | ⟨⟨k, hk, -⟩, -⟩
        · have hend : ∀ k, ¬ Synonym (applyDups (findDups T) T) r k := by
            intro k hk
            rcases (synonym_round T r k).1 hk with ⟨-, h'⟩ | ⟨-, h'⟩
            · rw [hr] at h'; cases h'
            · exact hn k h'
          rw [res_synonym hR.acyclic hs' (hR.closed _ _ hs'),
            res_of_not_synonym (i := r) (fun k hk => absurd hk (hend k))] at hab
          obtain ⟨v, k, g1, -, g3, rfl⟩ := hab
          rw [look_of h2 rfl] at g1; cases g1
          have hm := ((C34_equal_iff_same_up_to_synonyms T rty ty).1 h3).2.2
          have hp : (points rty.variant).map (res T) = (points ty.variant).map (res T) := by
            rw [← points_map, ← points_map, hm]
          have hk : res T k ∈ (points ty.variant).map (res T) := by rw [← hp]; exact List.mem_map.2 ⟨k, g3, rfl⟩
          obtain ⟨k', hk', hke⟩ := List.mem_map.1 hk
          refine ⟨ty.variant, k', look_of h1 rfl, ?_, hk', hke.symm⟩
          cases ht : ty.variant.target with
          | none => rfl
          | some x => exact absurd (synonym_look.2 ⟨_, look_of h1 rfl, ht⟩) (hn0 x)
        · rw [← he] at hk; exact absurd hk (res_end_closed hok.acyclic hok.closed _ _)
    have lift : ∀ a b, Relation.TransGen (Above (applyDups (findDups T) T)) a b → ∃ b₀,
        Relation.TransGen (Above T) a b₀ ∧ Defined T b₀ ∧ res T b₀ = b₀ ∧ b = res (applyDups (findDups T) T) b₀ := by
      intro a b h
      induction h with
      | single h =>
        obtain ⟨b₀, h1, h2, h3, h4⟩ := step _ _ h
        exact ⟨b₀, .single h1, h2, h3, h4⟩
      | tail _ h ih =>
        obtain ⟨b₀, h1, h2, h3, rfl⟩ := ih
        obtain ⟨c₀, g1, g2, g3, g4⟩ := step _ _ h
        exact ⟨c₀, .tail h1 (same b₀ c₀ h2 h3 g1), g2, g3, g4⟩
    intro a ha
    obtain ⟨a₀, h1, h2, h3, h4⟩ := lift a a ha
    have first : ∀ c, Relation.TransGen (Above T) a c → Relation.TransGen (Above T) a₀ c := by
      intro c h
      induction h with
      | single h => exact .single (same a₀ _ h2 h3 (by rw [← h4]; exact h))
      | tail _ h ih => exact .tail ih h
    exact hT.above a₀ (first a₀ h1)

theorem removeDuplicates_good (n : Nat) (T T' : Types) (h : removeDuplicates n T = some T') (hT : Good T) : Good T' := by
  induction n generalizing T with
  | zero => cases h
  | succ n ih =>
    rw [removeDuplicates, dupRound] at h
    split at h
    · rename_i hd
      split at hd
      · cases h; exact hT
      · cases hd
    · rename_i T₁ hd
      split at hd
      · cases hd
      · cases hd; exact ih _ h (round_good hT)

theorem KeysByCount.merged {T T' : Types} (h : KeysByCount T) : MergedKeysAgree T T' := by
  intro i j a b hi hj hs
  obtain ⟨h1, h2⟩ := hs
  cases ha : a.variant <;> cases hb : b.variant <;> rw [ha, hb] at h2 <;>
    simp only [Variant.mapIdents, reduceCtorEq] at h2 <;> try rfl
  rename_i d e
  refine h i j a b d e hi hj ha hb h1 ?_
  simp only [Variant.dynamic.injEq, Meta.Dynamic.mk.injEq] at h2
  have := congrArg List.length h2.2.2
  simpa using this

theorem duplicates_step {P : Lex} {T : Types} (hT : Good T) (hK : KeysByCount T) (n : Nat)
    (hn : (T.length + 1) * (T.length + 1) < n) :
    ∃ T', ofOption (removeDuplicates n T) = .ok T' ∧ StepOk P T T' := by
  obtain ⟨T', hT'⟩ := C35_terminates T hT.ok
  have h := hT' n hn
  have hk := (C35_names_kept n T T' hT.ok h).1
  refine ⟨T', by rw [h]; rfl, hk, removeDuplicates_good n T T' h hT, ?_,
    fun j => (C35_same_documents_partial P n T T' hT.ok h hK.merged j).2⟩
  intro i ty' hi
  have hd : Defined T i := by rw [defined_iff_keys, ← hk, ← defined_iff_keys]; exact ⟨_, hi⟩
  obtain ⟨ty, hty⟩ := hd
  refine ⟨ty, hty, ?_⟩
  rcases C35_untouched_or_reference n T T' hT.ok h i ty hty with h' | ⟨r, h'⟩
  · rw [hi] at h'; cases h'; exact ⟨rfl, .same⟩
  · rw [hi] at h'; cases h'; exact ⟨rfl, .reference _⟩

/-! ### Restricted types -/

theorem restricts_points {T : Types} {i b : Ident} (h : Restricts T i b) : Points T i b := by
  obtain ⟨v, h1, h2, -⟩ := h
  refine ⟨v, h1, ?_⟩
  cases v <;> simp only [declaredBase, reduceCtorEq, Base.restr.injEq] at h2
  case simple x => subst h2; simp [points]
  all_goals simp [points, h2, Base.ident]

theorem useUnrestricted_entry {f : BaseFlags} {n : Nat} {T T' : Types} (h : useUnrestricted f n T = some T') {i : Ident}
    {ty' : MetaType} (hi : Assoc.get T' i = some ty') :
    ∃ ty, Assoc.get T i = some ty ∧ (ty' = ty ∨ ∃ b, ty' = { ty with variant := .reference (.new b) }) := by
  have key : ∀ (l l' : Types), l.mapM (unrestrict f n T) = some l' → Assoc.get l' i = some ty' →
      ∃ ty, Assoc.get l i = some ty ∧ (ty' = ty ∨ ∃ b, ty' = { ty with variant := .reference (.new b) }) := by
    intro l
    induction l with
    | nil => intro l' hm hg; simp at hm; subst hm; cases hg
    | cons p l ih =>
      intro l' hm hg
      simp only [List.mapM_cons, Option.bind_eq_bind, Option.bind_eq_some_iff, Option.pure_def, Option.some.injEq] at hm
      obtain ⟨q, hq, l₂, hl, rfl⟩ := hm
      have hk : q = p ∨ ∃ b, q = (p.1, { p.2 with variant := .reference (.new b) }) := by
        unfold unrestrict at hq
        split at hq
        · obtain ⟨b, -, hb⟩ := Option.map_eq_some_iff.1 hq
          rw [← hb]
          split
          · exact .inr ⟨b, rfl⟩
          · exact .inl rfl
        · cases hq; exact .inl rfl
      obtain ⟨a, ty⟩ := p
      have hfst : q.1 = a := by rcases hk with rfl | ⟨b, rfl⟩ <;> rfl
      obtain ⟨a', ty₂⟩ := q
      simp only at hfst
      subst hfst
      by_cases ha : a' = i
      · subst ha
        simp only [Assoc.get, if_pos, Option.some.injEq] at hg ⊢
        subst hg
        refine ⟨ty, rfl, ?_⟩
        rcases hk with hk | ⟨b, hk⟩
        · cases hk; exact .inl rfl
        · cases hk; exact .inr ⟨b, rfl⟩
      · simp only [Assoc.get, if_neg ha] at hg ⊢
        exact ih l₂ hl hg
  exact key T T' h hi

theorem unrestricted_step {P : Lex} {T : Types} (hT : WellFormed T) (f : BaseFlags) (hN : Narrows P f T)
    (hL : NoListBase T) (n : Nat) (hn : T.length < n) :
    ∃ T', unrestrictWith f n T T = .ok T' ∧ StepOk P T T' := by
  have hG := hT.good
  have hl : NoLoop (Restricts T) := fun a ha =>
    hG.noLoop a (transGen_mono (fun _ _ h => .single (restricts_points h)) ha)
  obtain ⟨T', h⟩ := C56_ends f T hl n hn
  have hk := C56_same_names f n T T' h
  refine ⟨T', by unfold unrestrictWith; rw [show T.mapM (unrestrict f n T) = some T' from h], hk, hG.of_sub hk ?_, ?_, ?_⟩
  · rintro i k ⟨v, h1, h2⟩
    have hd : Defined T i := by
      obtain ⟨ty, g, -⟩ := look_iff.1 h1
      rw [defined_iff_keys, ← hk, ← defined_iff_keys]; exact ⟨_, g⟩
    obtain ⟨ty, hty⟩ := hd
    obtain ⟨g1, g2⟩ := C56_exactly_restricted_replaced f n T T' h i ty.variant (look_of hty rfl)
    by_cases hc : Chosen f ty.variant ∧ ∃ c, Restricts T i c
    · obtain ⟨hc, c, hr⟩ := hc
      obtain ⟨b, hub, hb⟩ := g1 hc c hr
      rw [h1] at hb; cases hb
      simp only [points, Reference.new, List.mem_singleton] at h2
      subst h2
      rcases hub.1 with rfl | h'
      · exact absurd hr (hub.2 c)
      · exact transGen_mono (fun _ _ h => .single (restricts_points h)) h'
    · have : look T' i = some ty.variant := by
        refine g2 ?_
        by_cases hc' : Chosen f ty.variant
        · exact .inr fun c hr => hc ⟨hc', c, hr⟩
        · exact .inl hc'
      rw [h1] at this; cases this
      exact .single ⟨_, look_of hty rfl, h2⟩
  · intro i ty' hi
    obtain ⟨ty, h1, rfl | ⟨b, rfl⟩⟩ := useUnrestricted_entry h hi
    · exact ⟨_, h1, rfl, .same⟩
    · exact ⟨ty, h1, rfl, .reference _⟩
  · intro j
    refine C56_accepts_no_less_partial P f n T T' h hN hL (fun a ha => hT.noLoop a (transGen_mono ?_ ha)) j
    rintro a b (h | h)
    · exact .single (.inl h)
    · exact .single (.inr (restricts_points h))

/-! ### All passes -/

/-- What the passes after the first one need. -/
def Pass.Needs (T : Types) : Pass → Prop
  | .emptyVariants => NoEmptyLiteral T
  | .duplicates => KeysByCount T
  | .emptyEnums | .flattenUnions | .resolveTypedefs | .duplicateMembers | .emptyUnions => True
  | _ => False

theorem TameAll.needs {T T' : Types} (h : TameAll T T') (p : Pass) (hp : p.Needs T) : p.Needs T' := by
  cases p <;> first | exact hp | exact h.noEmpty hp | exact h.keys hp

theorem TameAll.refl (T : Types) : TameAll T T := fun _ _ h => ⟨_, h, rfl, .same⟩

theorem fresh_step {P : Lex} {T : Types} (hT : Good T) (hP : ∀ s, P.facets .default s) (n : Nat)
    (hn : (T.length + 1) * (T.length + 1) < n) (p : Pass) (hp : p.Needs T) :
    ∃ T', p.fresh n T = .ok T' ∧ StepOk P T T' := by
  have hn' : T.length < n := by
    have : T.length + 1 ≤ (T.length + 1) * (T.length + 1) := Nat.le_mul_of_pos_left _ (by omega)
    omega
  cases p with
  | emptyVariants =>
    refine ⟨T, ?_, rfl, hT, .refl T, fun _ h => h⟩
    show Res.ok (removeEmptyEnumVariants T) = _
    rw [emptyVariants_id hp hT.keyed]
  | emptyEnums => exact ⟨_, rfl, emptyEnums_step hT⟩
  | emptyUnions => exact ⟨_, rfl, emptyUnions_step hT⟩
  | duplicateMembers => exact ⟨_, duplicateMembers_ok hT.ok, duplicateMembers_step hT⟩
  | resolveTypedefs => exact ⟨_, resolveTypedefs_ok hT.ok, resolveTypedefs_step hT⟩
  | flattenUnions => exact flattenUnions_step hT hP n hn'
  | duplicates => exact duplicates_step hT hp n hn
  | _ => exact hp.elim

theorem fresh_all {P : Lex} (hP : ∀ s, P.facets .default s) (n : Nat) (ps : List Pass) (T : Types) (hT : Good T)
    (hn : (T.length + 1) * (T.length + 1) < n) (hp : ∀ p ∈ ps, p.Needs T) :
    ∃ T', freshAll n ps T = .ok T' ∧ Assoc.keys T' = Assoc.keys T ∧ Acyclic T' ∧ Closed T' ∧
      ∀ j, Valid P T j → Valid P T' j := by
  induction ps generalizing T with
  | nil => exact ⟨T, rfl, rfl, hT.ok.acyclic, hT.ok.closed, fun _ h => h⟩
  | cons p ps ih =>
    obtain ⟨T₁, h1, h2⟩ := fresh_step hT hP n hn p (hp p (by simp))
    have hlen : T₁.length = T.length := by
      have := congrArg List.length h2.keys
      simpa [Assoc.keys] using this
    obtain ⟨T', h3, h4, ha, hc, h5⟩ := ih T₁ h2.good (by rw [hlen]; exact hn)
      (fun q hq => h2.tame.needs q (hp q (by simp [hq])))
    refine ⟨T', ?_, h4.trans h2.keys, ha, hc, fun j hj => h5 j (h2.accepts j hj)⟩
    simp only [freshAll, h1]
    exact h3

/-- C69: for every set of flags without the passes that rebuild complex types, dynamic types or enumerations, and for every
well-formed table, the optimizer ends without an error, keeps all names, makes no type a synonym of itself or of a name that
is not defined, and every document that was accepted is still accepted. Asked of the table before the first pass is: declared restrictions of the types concerned are restrictions and no
simple type restricts a list (if base types are used instead of restrictions), no enumeration lists the empty text (if such
variants are removed), and dynamic types with the same name and equally many derived types offer them under the same names
(if duplicates are removed). Missing: the other passes, and tables without these conditions, see
`C69_default_loses_empty_text`, `C69_default_loses_lists`. -/
theorem C69_accepts_no_less_partial (P : Lex) (F : OptFlags) (env : Env) (T : Types) (plain : F.Plain)
    (wf : WellFormed T) (hP : ∀ s, P.facets .default s)
    (narrows : F.unrestrictedComplex ∨ F.unrestrictedSimple ∨ F.unrestrictedEnum ∨ F.unrestrictedUnion →
      Narrows P F.bases T ∧ NoListBase T)
    (literals : F.removeEmptyEnumVariants → NoEmptyLiteral T)
    (dynamics : F.removeDuplicates → KeysByCount T)
    (n : Nat) (hn : (T.length + 1) * (T.length + 1) < n) :
    ∃ T', execOptimizer n F env T = .ok T' ∧ Assoc.keys T' = Assoc.keys T ∧ Acyclic T' ∧ Closed T' ∧
      ∀ j, Valid P T j → Valid P T' j := by
  rw [C68_exec_optimizer]
  obtain ⟨p1, p2, p3, p4, p5, p6, p7⟩ := plain
  have key : ∃ rest : List Pass, F.passes env =
      ifFlag (F.unrestrictedComplex || F.unrestrictedSimple || F.unrestrictedEnum || F.unrestrictedUnion)
        (.unrestricted F.bases) ++ rest ∧ ∀ p ∈ rest, p.Needs T := by
    unfold OptFlags.passes
    simp only [List.append_assoc]
    refine ⟨_, rfl, ?_⟩
    intro p hp
    simp only [List.mem_append, mem_ifFlag, p1, p2, p3, p4, p5, p6, p7] at hp
    simp only [Bool.false_eq_true, false_and, false_or, or_false] at hp
    repeat' (rcases hp with hp | hp)
    all_goals
      obtain ⟨hf, rfl⟩ := hp
      first | exact literals hf | exact dynamics hf | exact trivial
  obtain ⟨rest, hr, hrest⟩ := key
  rw [hr]
  by_cases hu : (F.unrestrictedComplex || F.unrestrictedSimple || F.unrestrictedEnum || F.unrestrictedUnion) = true
  · rw [hu]
    obtain ⟨hN, hL⟩ := narrows (by simpa [or_assoc] using hu)
    have hn' : T.length < n := by
      have : T.length + 1 ≤ (T.length + 1) * (T.length + 1) := Nat.le_mul_of_pos_left _ (by omega)
      omega
    obtain ⟨T₁, h1, h2⟩ := unrestricted_step wf F.bases hN hL n hn'
    have hlen : T₁.length = T.length := by
      have := congrArg List.length h2.keys
      simpa [Assoc.keys] using this
    obtain ⟨T', h3, h4, ha, hc, h5⟩ := fresh_all hP n rest T₁ h2.good (by rw [hlen]; exact hn)
      (fun q hq => h2.tame.needs q (hrest q hq))
    refine ⟨T', ?_, h4.trans h2.keys, ha, hc, fun j hj => h5 j (h2.accepts j hj)⟩
    have hf : freshAll n (.unrestricted F.bases :: rest) T = freshAll n rest T₁ := by
      simp only [freshAll]
      rw [show Pass.fresh n T (.unrestricted F.bases) = unrestrictWith F.bases n T T from rfl, h1]
    exact hf.trans h3
  · rw [Bool.not_eq_true] at hu
    rw [hu]
    exact fresh_all hP n rest T wf.good hn hrest

/-! ### Concrete cases -/

/-- A restricted simple type, enumerations, a union of unions through a synonym, and a synonym of a member. -/
def exPipe : Types :=
  [(exId "S", .new (.buildIn .string)),
   (exId "A", .new (.simple ⟨exId "S", false, .default⟩)),
   (exId "B", .new (.simple ⟨exId "A", false, .default⟩)),
   (exId "E", .new (.enumeration (exEnum .none ["a", "b"]))),
   (exId "F", .new (.enumeration (exEnum .none []))),
   (exId "U", .new (.union ⟨.none, [⟨exId "B", none⟩, ⟨exId "F", none⟩], .default⟩)),
   (exId "W", .new (.reference (.new (exId "U")))),
   (exId "V", .new (.union ⟨.none, [⟨exId "W", none⟩, ⟨exId "E", none⟩, ⟨exId "U", none⟩], .default⟩))]

theorem exPipe_at {i : Ident} {v : Variant} (h : look exPipe i = some v) : ∃ ty, (i, ty) ∈ exPipe ∧ ty.variant = v := by
  obtain ⟨ty, hg, rfl⟩ := look_iff.1 h
  exact ⟨ty, Assoc.mem_of_get hg, rfl⟩

theorem exPipe_points : ∀ p ∈ exPipe, ∀ k ∈ points p.2.variant,
    (Assoc.keys exPipe).idxOf k < (Assoc.keys exPipe).idxOf p.1 ∧ (Assoc.get exPipe k).isSome = true := by
  decide +kernel

/-- The example meets the hypotheses. -/
theorem exPipe_wellFormed : WellFormed exPipe := by
  have hlit : ∀ p ∈ exPipe, (∀ x, p.2.variant = .enumeration x → ∀ w ∈ x.variants, w.type_ = none) ∧
      (∀ d, p.2.variant ≠ .dynamic d) ∧ (∀ d, p.2.variant ≠ .complex d) ∧ (∀ d, p.2.variant ≠ .sequence d) ∧
      (∀ d, p.2.variant ≠ .choice d) ∧ (∀ d, p.2.variant ≠ .all d) := by
    intro p hp
    simp only [exPipe, List.mem_cons, List.not_mem_nil, or_false] at hp
    rcases hp with rfl | rfl | rfl | rfl | rfl | rfl | rfl | rfl <;>
      refine ⟨?_, by simp [MetaType.new], by simp [MetaType.new], by simp [MetaType.new], by simp [MetaType.new],
        by simp [MetaType.new]⟩ <;> intro x hx <;> simp only [MetaType.new, reduceCtorEq, Variant.enumeration.injEq] at hx <;>
      subst hx <;> decide +kernel
  refine ⟨by unfold Assoc.Keyed; decide +kernel, ?_, ?_⟩
  · rintro i k ⟨v, h1, h2⟩
    obtain ⟨ty, hm, rfl⟩ := exPipe_at h1
    obtain ⟨ty', h⟩ := Option.isSome_iff_exists.1 (exPipe_points _ hm k h2).2
    exact ⟨ty', h⟩
  · refine noLoop_of_rank _ (fun i => (Assoc.keys exPipe).idxOf i) ?_
    have hp : ∀ a b, Points exPipe a b → (Assoc.keys exPipe).idxOf b < (Assoc.keys exPipe).idxOf a := by
      rintro a b ⟨v, h1, h2⟩
      obtain ⟨ty, hm, rfl⟩ := exPipe_at h1
      exact (exPipe_points _ hm b h2).1
    rintro a b (h | h)
    · apply hp
      cases h with
      | reference h => exact ⟨_, h, by simp [points]⟩
      | member h hm => exact ⟨_, h, by simp only [points, List.mem_append]; exact .inr (List.mem_map.2 ⟨_, hm, rfl⟩)⟩
      | simple h => exact ⟨_, h, by simp [points]⟩
      | variant h hw ht =>
        obtain ⟨ty, hm, hv⟩ := exPipe_at h
        rw [(hlit _ hm).1 _ hv _ hw] at ht; cases ht
      | derived h => obtain ⟨ty, hm, hv⟩ := exPipe_at h; exact absurd hv ((hlit _ hm).2.1 _)
      | content h => obtain ⟨ty, hm, hv⟩ := exPipe_at h; exact absurd hv ((hlit _ hm).2.2.1 _)
      | sequence h => obtain ⟨ty, hm, hv⟩ := exPipe_at h; exact absurd hv ((hlit _ hm).2.2.2.1 _)
      | choice h => obtain ⟨ty, hm, hv⟩ := exPipe_at h; exact absurd hv ((hlit _ hm).2.2.2.2.1 _)
      | all h => obtain ⟨ty, hm, hv⟩ := exPipe_at h; exact absurd hv ((hlit _ hm).2.2.2.2.2 _)
    · exact hp a b h

example (P : Lex) (f : BaseFlags) : Narrows P f exPipe ∧ NoListBase exPipe ∧ NoEmptyLiteral exPipe ∧ KeysByCount exPipe := by
  refine ⟨?_, ?_, ?_, ?_⟩
  · rintro i b - ⟨v, h1, h2, -⟩ hns
    obtain ⟨ty, hm, rfl⟩ := exPipe_at h1
    have hall : ∀ p ∈ exPipe, declaredBase p.2.variant = .none ∨ ∃ x, p.2.variant = .simple x := by
      intro p hp
      simp only [exPipe, List.mem_cons, List.not_mem_nil, or_false] at hp
      rcases hp with rfl | rfl | rfl | rfl | rfl | rfl | rfl | rfl <;> first | exact .inl rfl | exact .inr ⟨_, rfl⟩
    rcases hall _ hm with h | ⟨x, h⟩
    · rw [h] at h2; cases h2
    · simp only at h; rw [h] at h1; exact absurd h1 (hns x)
  · intro i x y _ _ hy
    obtain ⟨ty, hm, hv⟩ := exPipe_at hy
    have hall : ∀ p ∈ exPipe, ∀ y, p.2.variant = .simple y → y.isList = false := by
      intro p hp y hy
      simp only [exPipe, List.mem_cons, List.not_mem_nil, or_false] at hp
      rcases hp with rfl | rfl | rfl | rfl | rfl | rfl | rfl | rfl <;> cases hy <;> rfl
    exact hall _ hm y hv
  · intro i x w h hw
    obtain ⟨ty, hm, hv⟩ := exPipe_at h
    have hall : ∀ p ∈ exPipe, ∀ y, p.2.variant = .enumeration y → ∀ w ∈ y.variants, w.ident.name ≠ .named [] := by
      intro p hp y hy
      simp only [exPipe, List.mem_cons, List.not_mem_nil, or_false] at hp
      rcases hp with rfl | rfl | rfl | rfl | rfl | rfl | rfl | rfl <;>
        simp only [MetaType.new, reduceCtorEq, Variant.enumeration.injEq] at hy <;> subst hy <;> decide +kernel
    exact hall _ hm x hv w hw
  · intro i j a b d e h _ hd
    have hall : ∀ p ∈ exPipe, ∀ d, p.2.variant ≠ .dynamic d := by
      intro p hp d
      simp only [exPipe, List.mem_cons, List.not_mem_nil, or_false] at hp
      rcases hp with rfl | rfl | rfl | rfl | rfl | rfl | rfl | rfl <;> simp [MetaType.new]
    exact absurd hd (hall (i, a) (Assoc.mem_of_get h) d)

/-- All flags of the theorem. -/
def plainFlags : OptFlags :=
  { removeEmptyEnumVariants := true, removeEmptyEnums := true, removeDuplicateUnionVariants := true,
    removeEmptyUnions := true, unrestrictedComplex := true, unrestrictedSimple := true, unrestrictedEnum := true,
    unrestrictedUnion := true, flattenUnions := true, resolveTypedefs := true, removeDuplicates := true }

example : OptFlags.default.Plain ∧ plainFlags.Plain := by simp [OptFlags.Plain, OptFlags.default, plainFlags]

/-- What is left of the example: `A`, `B` and `W` are names, and `V` has the members `S`, the empty `F` and `E`. -/
example : (execOptimizer 100 plainFlags ⟨anyTypeIdent [], fun _ => .named [], fun _ => []⟩ exPipe).map
      (fun T => (look T (exId "B"), look T (exId "W"), look T (exId "V"))) =
    .ok (some (.reference (.new (exId "S"))), some (.reference (.new (exId "U"))),
      some (.union ⟨.none, [⟨exId "S", none⟩, ⟨exId "F", none⟩, ⟨exId "E", none⟩], .default⟩)) := by decide +kernel

def defaultPasses : List Pass :=
  [.unrestricted ⟨false, true, false, false⟩, .emptyVariants, .emptyEnums, .duplicateMembers, .emptyUnions, .emptyVariants,
   .emptyEnums, .duplicateMembers, .emptyUnions]

theorem default_passes (n : Nat) (env : Env) (T : Types) :
    execOptimizer n .default env T = freshAll n defaultPasses T := by
  have h : OptFlags.default.passes env = defaultPasses := by
    unfold OptFlags.passes
    simp only [List.append_assoc]
    rfl
  have h2 := C68_exec_optimizer n .default env T
  rw [h] at h2
  exact h2

/-- C69 (negation): the default flags lose the empty text of an enumeration. -/
theorem C69_default_loses_empty_text (P : Lex) (env : Env) :
    ∃ T T', execOptimizer 5 .default env T = .ok T' ∧
      Valid P T (.text (exId "E") []) ∧ ¬ Valid P T' (.text (exId "E") []) := by
  refine ⟨[(exId "E", .new (.enumeration (exEnum .none ["", "a"])))],
    [(exId "E", .new (.enumeration (exEnum .none ["a"])))], ?_, (C39_empty_text_lost P).1, ?_⟩
  · rw [default_passes]; decide +kernel
  · have h := (C39_empty_text_lost P).2
    rwa [show removeEmptyEnumVariants [(exId "E", .new (.enumeration (exEnum .none ["", "a"])))] =
      [(exId "E", .new (.enumeration (exEnum .none ["a"])))] by decide +kernel] at h

/-- C69 (negation): the default flags lose the texts of a restricted list. -/
theorem C69_default_loses_lists (P : Lex) (env : Env) (s : Txt) (hd : P.facets .default s)
    (hw : ∀ w ∈ P.words s, P.builtIn .u8 w) (hs : ¬ P.builtIn .u8 s) :
    ∃ T', execOptimizer 5 .default env (exListBase .default) = .ok T' ∧
      Valid P (exListBase .default) (.text (exId "M") s) ∧ ¬ Valid P T' (.text (exId "M") s) := by
  obtain ⟨T', h1, h2, h3⟩ := C56_restricted_list_lost P .default s hd hd hw hs
  have h4 : useUnrestricted ⟨false, true, false, false⟩ 4 (exListBase .default) = some
    [(exId "N", .new (.buildIn .u8)), (exId "L", .new (.simple ⟨exId "N", true, .default⟩)),
     (exId "M", .new (.reference (.new (exId "N"))))] := by decide +kernel
  rw [h4] at h1
  cases h1
  exact ⟨_, by rw [default_passes]; decide +kernel, h2, h3⟩

end Verif.Opt

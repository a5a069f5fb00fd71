import Verif.Opt.Common
/-!
# Flattening unions (C37)

Models `xsd-parser/src/pipeline/optimizer/flatten_unions.rs`. A recursion that does not end within the fuel is an explicit
outcome.
-/
namespace Verif.Opt

open Verif.Meta

/-- The loop over the member types, flatten_unions.rs:106-108, with the recursive call as a parameter. The result is what
the calls add to `count` and to `meta.types`. -/
def collect (g : UnionType → Option (Nat × List UnionType)) : List UnionType → Option (Nat × List UnionType)
  | [] => some (0, [])
  | t :: ts =>
    match g t, collect g ts with
    | some a, some b => some (a.1 + b.1, a.2 ++ b.2)
    | _, _ => none

/-- `flatten_union_impl`, flatten_unions.rs:92-119: what a call adds to `count` and to `meta.types`; `none` when the
recursion is deeper than `fuel`. -/
def flattenF (T : Types) : Nat → Ident → Option Txt → Option (Nat × List UnionType)
  | 0, _, _ => none
  | fuel + 1, i, dn =>
    match look T i with
    | none => some (0, [])
    | some (.union u) => (collect (fun t => flattenF T fuel t.type_ t.displayName) u.types).map fun r => (r.1 + 1, r.2)
    | some v =>
      match v.target with
      | some k => flattenF T fuel k dn
      | none => some (0, [⟨i, dn⟩])

/-- `Optimizer::flatten_union`, flatten_unions.rs:37-63. -/
def flattenUnion (fuel : Nat) (T : Types) (i : Ident) : Res Types :=
  match look T i with
  | none => .err (.unknownType i)
  | some (.union u) =>
    match flattenF T fuel i none with
    | none => .diverged
    | some r => .ok (if 1 < r.1 then setVariant T i (.union ⟨u.base, r.2, .default⟩) else T)
  | some _ => .err (.expectedUnion i)

/-- `matches!(&type_.variant, MetaTypeVariant::Union(_))`, flatten_unions.rs:76. -/
def isUnion : Variant → Bool
  | .union _ => true
  | _ => false

/-- `Optimizer::flatten_unions`, flatten_unions.rs:68-90. -/
def flattenUnions (fuel : Nat) (T : Types) : Res Types :=
  forEach (flattenUnion fuel) T ((T.filter (fun p => isUnion p.2.variant)).map (·.1))

/-! ## Specification -/

/-- `Leaves T i dn ls`: reading the definition of `i` from left to right, going into unions and through synonyms, gives
the types `ls` in this order, each with the name it has in the innermost union (`dn` at the top); undefined types are left
out. -/
inductive Leaves (T : Types) : Ident → Option Txt → List UnionType → Prop
  | missing {i dn} : look T i = none → Leaves T i dn []
  | union {i dn u} (f : UnionType → List UnionType) : look T i = some (.union u) →
      (∀ t ∈ u.types, Leaves T t.type_ t.displayName (f t)) → Leaves T i dn (u.types.flatMap f)
  | synonym {i k dn ls} : Synonym T i k → Leaves T k dn ls → Leaves T i dn ls
  | leaf {i dn v} : look T i = some v → isUnion v = false → v.target = none → Leaves T i dn [⟨i, dn⟩]

/-- `i` is a union or leads to one through synonyms. -/
inductive LeadsToUnion (T : Types) : Ident → Prop
  | union {i u} : look T i = some (.union u) → LeadsToUnion T i
  | synonym {i k} : Synonym T i k → LeadsToUnion T k → LeadsToUnion T i

/-- Some member of the union is itself a union. -/
def Nested (T : Types) (u : Union) : Prop := ∃ t ∈ u.types, LeadsToUnion T t.type_

/-- `k` is a member of the union `i`, or `i` is a synonym of `k`. -/
def Inside (T : Types) (i k : Ident) : Prop :=
  Synonym T i k ∨ ∃ u, look T i = some (.union u) ∧ ∃ t ∈ u.types, t.type_ = k

/-- The type that is chosen for the text `s` when the members of a union are tried in order: the first member that accepts
the text, and inside it again the first one. -/
inductive Choose (P : Lex) (T : Types) : Ident → Txt → Ident → Prop
  | synonym {i k s l} : Synonym T i k → Choose P T k s l → Choose P T i s l
  | member {i u pre m post s l} : look T i = some (.union u) → u.types = pre ++ m :: post →
      (∀ m' ∈ pre, ¬ Valid P T (.text m'.type_ s)) → P.facets u.constrains s → Choose P T m.type_ s l →
      Choose P T i s l
  | leaf {i v s} : look T i = some v → isUnion v = false → v.target = none → Valid P T (.text i s) → Choose P T i s i

/-- No union of the table has facets of its own. -/
def NoFacets (P : Lex) (T : Types) : Prop :=
  (∀ s, P.facets .default s) ∧ ∀ i u, look T i = some (.union u) → u.constrains = .default

/-! ## The recursion -/

theorem target_of_isUnion {v : Variant} (h : isUnion v = true) : v.target = none := by
  cases v <;> simp_all [isUnion, Variant.target]

theorem flattenF_union {T : Types} {n : Nat} {i : Ident} {dn : Option Txt} {u : Union}
    (h : look T i = some (.union u)) :
    flattenF T (n + 1) i dn =
      (collect (fun t => flattenF T n t.type_ t.displayName) u.types).map fun r => (r.1 + 1, r.2) := by
  rw [flattenF, h]

theorem flattenF_other {T : Types} {n : Nat} {i : Ident} {dn : Option Txt} {v : Variant} (h : look T i = some v)
    (hv : isUnion v = false) :
    flattenF T (n + 1) i dn = match v.target with | some k => flattenF T n k dn | none => some (0, [⟨i, dn⟩]) := by
  rw [flattenF, h]
  cases v <;> simp_all [isUnion]

theorem collect_ok {g : UnionType → Option (Nat × List UnionType)} {l : List UnionType} {r : Nat × List UnionType}
    (h : collect g l = some r) :
    ∃ c : UnionType → Nat, ∃ f : UnionType → List UnionType, (∀ t ∈ l, g t = some (c t, f t)) ∧ r.2 = l.flatMap f ∧
      (0 < r.1 ↔ ∃ t ∈ l, 0 < c t) := by
  refine ⟨fun t => ((g t).getD (0, [])).1, fun t => ((g t).getD (0, [])).2, ?_⟩
  induction l generalizing r with
  | nil => simp [collect] at h; subst h; simp
  | cons t l ih =>
    simp only [collect] at h
    cases hg : g t with
    | none => rw [hg] at h; cases h
    | some a =>
      cases hc : collect g l with
      | none => rw [hg, hc] at h; cases h
      | some b =>
        rw [hg, hc] at h
        simp only [Option.some.injEq] at h
        subst h
        obtain ⟨h1, h2, h3⟩ := ih hc
        refine ⟨?_, ?_, ?_⟩
        · intro t' ht'
          rcases List.mem_cons.1 ht' with rfl | hm
          · simp [hg]
          · exact h1 t' hm
        · simp [hg, h2]
        · have hcons : (∃ t' ∈ t :: l, 0 < ((g t').getD (0, [])).1) ↔
              0 < a.1 ∨ ∃ t' ∈ l, 0 < ((g t').getD (0, [])).1 := by
            simp [hg]
          have h3' : 0 < b.1 ↔ ∃ t' ∈ l, 0 < ((g t').getD (0, [])).1 := h3
          show 0 < a.1 + b.1 ↔ ∃ t' ∈ t :: l, 0 < ((g t').getD (0, [])).1
          rw [hcons, ← h3']
          omega

theorem collect_total {g : UnionType → Option (Nat × List UnionType)} {l : List UnionType}
    (h : ∀ t ∈ l, g t ≠ none) : collect g l ≠ none := by
  induction l with
  | nil => simp [collect]
  | cons t l ih =>
    have h1 := h t (List.mem_cons_self ..)
    have h2 := ih (fun t' ht' => h t' (List.mem_cons_of_mem _ ht'))
    simp only [collect]
    cases hg : g t with
    | none => exact absurd hg h1
    | some a =>
      cases hc : collect g l with
      | none => exact absurd hc h2
      | some b => simp

/-- The recursion computes the leaves, and `count` tells whether a union was met. -/
theorem flattenF_leaves {T : Types} {n : Nat} {i : Ident} {dn : Option Txt} {r : Nat × List UnionType}
    (h : flattenF T n i dn = some r) :
    Leaves T i dn r.2 ∧ (0 < r.1 ↔ LeadsToUnion T i) ∧
      (∀ u, look T i = some (.union u) → (1 < r.1 ↔ Nested T u)) := by
  induction n generalizing i dn r with
  | zero => cases h
  | succ n ih =>
    cases hl : look T i with
    | none =>
      rw [flattenF, hl] at h
      simp at h; subst h
      refine ⟨.missing hl, ⟨by simp, ?_⟩, by simp⟩
      intro hc
      cases hc with
      | union h' => rw [hl] at h'; cases h'
      | synonym h' _ =>
        obtain ⟨v, h'', -⟩ := synonym_look.1 h'
        rw [hl] at h''; cases h''
    | some v =>
      cases hu : isUnion v with
      | true =>
        cases v <;> simp [isUnion] at hu
        rename_i u
        rw [flattenF_union hl] at h
        cases hc : collect (fun t => flattenF T n t.type_ t.displayName) u.types with
        | none => rw [hc] at h; cases h
        | some q =>
          rw [hc] at h
          simp only [Option.map_some, Option.some.injEq] at h
          subst h
          obtain ⟨c, f, h1, h2, h3⟩ := collect_ok hc
          refine ⟨?_, ⟨fun _ => .union hl, fun _ => by simp⟩, ?_⟩
          · simp only [h2]
            exact .union f hl (fun t ht => (ih (h1 t ht)).1)
          · intro u' hu'
            simp only [Option.some.injEq, Variant.union.injEq] at hu'
            subst hu'
            have : 1 < q.1 + 1 ↔ 0 < q.1 := by omega
            rw [this, h3]
            constructor
            · rintro ⟨t, ht, hp⟩; exact ⟨t, ht, (ih (h1 t ht)).2.1.1 hp⟩
            · rintro ⟨t, ht, hp⟩; exact ⟨t, ht, (ih (h1 t ht)).2.1.2 hp⟩
      | false =>
        rw [flattenF_other hl hu] at h
        have hno : ∀ u, v ≠ .union u := by rintro u rfl; cases hu
        cases ht : v.target with
        | some k =>
          rw [ht] at h
          have hs : Synonym T i k := synonym_look.2 ⟨v, hl, ht⟩
          obtain ⟨h1, h2, -⟩ := ih h
          refine ⟨.synonym hs h1, ⟨fun hp => .synonym hs (h2.1 hp), ?_⟩, ?_⟩
          · intro hc
            cases hc with
            | union h' => rw [hl] at h'; cases h'; cases hu
            | synonym h' hk =>
              obtain ⟨v', h'', ht'⟩ := synonym_look.1 h'
              rw [hl] at h''; cases h''
              rw [ht] at ht'; cases ht'
              exact h2.2 hk
          · intro u hu'; cases hu'; cases hu
        | none =>
          rw [ht] at h
          simp at h; subst h
          refine ⟨.leaf hl hu ht, ⟨by simp, ?_⟩, ?_⟩
          · intro hc
            cases hc with
            | union h' => rw [hl] at h'; cases h'; cases hu
            | synonym h' hk =>
              obtain ⟨v', h'', ht'⟩ := synonym_look.1 h'
              rw [hl] at h''; cases h''
              rw [ht] at ht'; cases ht'
          · intro u hu'; cases hu'; cases hu

theorem flattenF_total {T : Types} (rank : Ident → Nat) (hr : ∀ i k, Inside T i k → rank k < rank i) (n : Nat) (i : Ident)
    (dn : Option Txt) (h : rank i < n) : flattenF T n i dn ≠ none := by
  induction n generalizing i dn with
  | zero => omega
  | succ n ih =>
    cases hl : look T i with
    | none => rw [flattenF, hl]; simp
    | some v =>
      cases hu : isUnion v with
      | true =>
        cases v <;> simp [isUnion] at hu
        rename_i u
        rw [flattenF_union hl]
        have : collect (fun t => flattenF T n t.type_ t.displayName) u.types ≠ none := by
          apply collect_total
          intro t ht
          have := hr i t.type_ (Or.inr ⟨u, hl, t, ht, rfl⟩)
          exact ih t.type_ t.displayName (by omega)
        simpa using this
      | false =>
        rw [flattenF_other hl hu]
        cases ht : v.target with
        | some k =>
          have := hr i k (Or.inl (synonym_look.2 ⟨v, hl, ht⟩))
          exact ih k dn (by omega)
        | none => simp

/-- The leaves are determined by the table. -/
theorem Leaves.det {T : Types} {i : Ident} {dn : Option Txt} {l l' : List UnionType} (h : Leaves T i dn l)
    (h' : Leaves T i dn l') : l = l' := by
  induction h generalizing l' with
  | missing hl =>
    cases h' with
    | missing => rfl
    | union _ hl' => rw [hl] at hl'; cases hl'
    | synonym hs => obtain ⟨v, hv, -⟩ := synonym_look.1 hs; rw [hl] at hv; cases hv
    | leaf hl' => rw [hl] at hl'; cases hl'
  | @union i dn u f hl _ ih =>
    cases h' with
    | missing hl' => rw [hl] at hl'; cases hl'
    | union g hl' hg =>
      rw [hl] at hl'; cases hl'
      have hfg : ∀ l : List UnionType, (∀ t ∈ l, f t = g t) → l.flatMap f = l.flatMap g := by
        intro l
        induction l with
        | nil => simp
        | cons a l ih' =>
          intro hl
          simp only [List.flatMap_cons]
          rw [hl a (List.mem_cons_self ..), ih' (fun t ht => hl t (List.mem_cons_of_mem _ ht))]
      exact hfg _ (fun t ht => ih t ht (hg t ht))
    | synonym hs =>
      obtain ⟨v, hv, ht⟩ := synonym_look.1 hs
      rw [hl] at hv; cases hv; cases ht
    | leaf hl' hu => rw [hl] at hl'; cases hl'; cases hu
  | synonym hs _ ih =>
    obtain ⟨v, hv, ht⟩ := synonym_look.1 hs
    cases h' with
    | missing hl' => rw [hv] at hl'; cases hl'
    | union _ hl' => rw [hv] at hl'; cases hl'; cases ht
    | synonym hs' hk =>
      rw [Synonym.unique hs hs'] at ih
      exact ih hk
    | leaf hl' _ ht' => rw [hv] at hl'; cases hl'; rw [ht] at ht'; cases ht'
  | leaf hl hu ht =>
    cases h' with
    | missing hl' => rw [hl] at hl'; cases hl'
    | union _ hl' => rw [hl] at hl'; cases hl'; cases hu
    | synonym hs =>
      obtain ⟨v, hv, ht'⟩ := synonym_look.1 hs
      rw [hl] at hv; cases hv; rw [ht] at ht'; cases ht'
    | leaf => rfl

/-- Every leaf is a defined type that is neither a union nor a synonym. -/
theorem Leaves.leaves {T : Types} {i : Ident} {dn : Option Txt} {l : List UnionType} (h : Leaves T i dn l) :
    ∀ t ∈ l, ∃ v, look T t.type_ = some v ∧ isUnion v = false ∧ v.target = none := by
  induction h with
  | missing => simp
  | union f _ _ ih =>
    intro t ht
    obtain ⟨t', h1, h2⟩ := List.mem_flatMap.1 ht
    exact ih t' h1 t h2
  | synonym _ _ ih => exact ih
  | leaf hl hu ht =>
    intro t h
    simp at h; subst h
    exact ⟨_, hl, hu, ht⟩

theorem flatMap_single {α : Type} (l : List α) : l.flatMap (fun t => [t]) = l := by
  induction l with
  | nil => rfl
  | cons a l ih => simp [List.flatMap_cons, ih]

/-! ## The pass -/

/-- What the pass has done so far: the unions in `S` have been replaced. -/
structure Flat (T₀ T : Types) (S : Ident → Prop) : Prop where
  keys : Assoc.keys T = Assoc.keys T₀
  other : ∀ i ty, Assoc.get T₀ i = some ty → isUnion ty.variant = false → Assoc.get T i = some ty
  missing : ∀ i, Assoc.get T₀ i = none → Assoc.get T i = none
  todo : ∀ i, ¬ S i → Assoc.get T i = Assoc.get T₀ i
  done : ∀ i ty u, S i → Assoc.get T₀ i = some ty → ty.variant = .union u →
    (¬ Nested T₀ u ∧ Assoc.get T i = some ty) ∨
    (Nested T₀ u ∧ ∃ ls, Leaves T₀ i none ls ∧ Assoc.get T i = some { ty with variant := .union ⟨u.base, ls, .default⟩ })

theorem Flat.look_other {T₀ T : Types} {S : Ident → Prop} (h : Flat T₀ T S) {i : Ident} {v : Variant}
    (hl : look T₀ i = some v) (hu : isUnion v = false) : look T i = some v := by
  obtain ⟨ty, h1, rfl⟩ := look_iff.1 hl
  exact look_of (h.other i ty h1 hu) rfl

/-- A union is unchanged or has its leaves as members. -/
theorem Flat.look_union {T₀ T : Types} {S : Ident → Prop} (h : Flat T₀ T S) {i : Ident} {u : Union}
    (hl : look T₀ i = some (.union u)) :
    look T i = some (.union u) ∨ ∃ ls, Leaves T₀ i none ls ∧ look T i = some (.union ⟨u.base, ls, .default⟩) := by
  classical
  obtain ⟨ty, h1, h2⟩ := look_iff.1 hl
  by_cases hS : S i
  · rcases h.done i ty u hS h1 h2 with ⟨-, h3⟩ | ⟨-, ls, h3, h4⟩
    · exact Or.inl (look_of h3 h2)
    · exact Or.inr ⟨ls, h3, look_of h4 rfl⟩
  · exact Or.inl (look_of ((h.todo i hS).trans h1) h2)

theorem Flat.look_none {T₀ T : Types} {S : Ident → Prop} (h : Flat T₀ T S) {i : Ident} (hl : look T₀ i = none) :
    look T i = none := by
  simp only [look, Option.map_eq_none_iff] at hl ⊢
  exact h.missing i hl

theorem Flat.synonym {T₀ T : Types} {S : Ident → Prop} (h : Flat T₀ T S) (i k : Ident) :
    Synonym T i k ↔ Synonym T₀ i k := by
  cases hl : look T₀ i with
  | none => rw [synonym_look, synonym_look, hl, h.look_none hl]
  | some v =>
    cases hu : isUnion v with
    | false => rw [synonym_look, synonym_look, hl, h.look_other hl hu]
    | true =>
      cases v <;> simp [isUnion] at hu
      rw [synonym_look, synonym_look, hl]
      rcases h.look_union hl with h' | ⟨ls, -, h'⟩ <;> rw [h'] <;> simp [Variant.target]

theorem Leaves.union_name {T : Types} {i : Ident} {dn dn' : Option Txt} {l : List UnionType} {u : Union}
    (hl : look T i = some (.union u)) (h : Leaves T i dn l) : Leaves T i dn' l := by
  cases h with
  | missing hl' => rw [hl] at hl'; cases hl'
  | union f hl' hf => exact .union f hl' hf
  | synonym hs =>
    obtain ⟨v, hv, ht⟩ := synonym_look.1 hs
    rw [hl] at hv; cases hv; cases ht
  | leaf hl' hu => rw [hl] at hl'; cases hl'; cases hu

/-- Replacing unions by their leaves does not change the leaves. -/
theorem Flat.leaves {T₀ T : Types} {S : Ident → Prop} (h : Flat T₀ T S) {i : Ident} {dn : Option Txt}
    {ls : List UnionType} (hl : Leaves T₀ i dn ls) : Leaves T i dn ls := by
  induction hl with
  | missing hl => exact .missing (h.look_none hl)
  | @union i dn u f hl hf ih =>
    rcases h.look_union hl with h' | ⟨l₀, hl₀, h'⟩
    · exact .union f h' ih
    · have : u.types.flatMap f = l₀ := (Leaves.union f hl hf).det hl₀
      rw [this]
      have := Leaves.union (T := T) (dn := dn) (u := ⟨u.base, l₀, .default⟩) (fun t => [t]) h' (fun t ht => by
        obtain ⟨v, h1, h2, h3⟩ := hl₀.leaves t ht
        exact .leaf (h.look_other h1 h2) h2 h3)
      rwa [flatMap_single] at this
  | synonym hs _ ih => exact .synonym ((h.synonym _ _).2 hs) ih
  | leaf hl hu ht => exact .leaf (h.look_other hl hu) hu ht

theorem Flat.leaves_back {T₀ T : Types} {S : Ident → Prop} (h : Flat T₀ T S) {i : Ident} {dn : Option Txt}
    {ls : List UnionType} (hl : Leaves T i dn ls) : Leaves T₀ i dn ls := by
  induction hl with
  | @missing i dn hl =>
    cases h₀ : look T₀ i with
    | none => exact .missing h₀
    | some v =>
      cases hu : isUnion v with
      | false => rw [h.look_other h₀ hu] at hl; cases hl
      | true =>
        cases v <;> simp [isUnion] at hu
        rcases h.look_union h₀ with h' | ⟨_, -, h'⟩ <;> rw [h'] at hl <;> cases hl
  | @union i dn u' f hl hf ih =>
    cases h₀ : look T₀ i with
    | none => rw [h.look_none h₀] at hl; cases hl
    | some v =>
      cases hu : isUnion v with
      | false => rw [h.look_other h₀ hu] at hl; cases hl; cases hu
      | true =>
        cases v <;> simp [isUnion] at hu
        rename_i u
        rcases h.look_union h₀ with h' | ⟨l₀, hl₀, h'⟩
        · rw [h'] at hl; cases hl
          exact .union f h₀ ih
        · rw [h'] at hl; cases hl
          have hfl : ∀ l : List UnionType, (∀ t ∈ l, f t = [t]) → l.flatMap f = l := by
            intro l
            induction l with
            | nil => simp
            | cons a l ih' =>
              intro hl
              simp only [List.flatMap_cons]
              rw [hl a (List.mem_cons_self ..), ih' (fun t ht => hl t (List.mem_cons_of_mem _ ht))]
              rfl
          have : l₀.flatMap f = l₀ := by
            apply hfl
            intro t ht
            obtain ⟨v, h1, h2, h3⟩ := hl₀.leaves t ht
            exact (ih t ht).det (.leaf h1 h2 h3)
          rw [this]
          exact hl₀.union_name h₀
  | synonym hs _ ih => exact .synonym ((h.synonym _ _).1 hs) ih
  | @leaf i dn v hl hu ht =>
    cases h₀ : look T₀ i with
    | none => rw [h.look_none h₀] at hl; cases hl
    | some v' =>
      cases hu' : isUnion v' with
      | false => rw [h.look_other h₀ hu'] at hl; cases hl; exact .leaf h₀ hu ht
      | true =>
        cases v' <;> simp [isUnion] at hu'
        rcases h.look_union h₀ with h' | ⟨_, -, h'⟩ <;> rw [h'] at hl <;> cases hl <;> cases hu

theorem Flat.leadsToUnion {T₀ T : Types} {S : Ident → Prop} (h : Flat T₀ T S) (i : Ident) :
    LeadsToUnion T i ↔ LeadsToUnion T₀ i := by
  constructor
  · intro hi
    induction hi with
    | @union i u hl =>
      cases h₀ : look T₀ i with
      | none => rw [h.look_none h₀] at hl; cases hl
      | some v =>
        cases hu : isUnion v with
        | false => rw [h.look_other h₀ hu] at hl; cases hl; cases hu
        | true => cases v <;> simp [isUnion] at hu; exact .union h₀
    | synonym hs _ ih => exact .synonym ((h.synonym _ _).1 hs) ih
  · intro hi
    induction hi with
    | union hl =>
      rcases h.look_union hl with h' | ⟨_, -, h'⟩
      · exact .union h'
      · exact .union h'
    | synonym hs _ ih => exact .synonym ((h.synonym _ _).2 hs) ih

theorem Flat.step {T₀ T : Types} {S : Ident → Prop} (h : Flat T₀ T S) {i : Ident} {ty : MetaType} {u : Union}
    (hi : Assoc.get T₀ i = some ty) (hu : ty.variant = .union u) (hS : ¬ S i) (n : Nat) :
    (∃ T', flattenUnion n T i = .ok T' ∧ Flat T₀ T' (fun k => k = i ∨ S k)) ∨
      (flattenUnion n T i = .diverged ∧ flattenF T n i none = none) := by
  have hg : Assoc.get T i = some ty := (h.todo i hS).trans hi
  have hl : look T i = some (.union u) := look_of hg hu
  have hl₀ : look T₀ i = some (.union u) := look_of hi hu
  simp only [flattenUnion, hl]
  cases hf : flattenF T n i none with
  | none => exact Or.inr ⟨rfl, rfl⟩
  | some r =>
    left
    obtain ⟨h1, -, h3⟩ := flattenF_leaves hf
    have hN : 1 < r.1 ↔ Nested T₀ u := by
      rw [h3 u hl]
      simp only [Nested, h.leadsToUnion]
    have hgs : ∀ (T' : Types), (if 1 < r.1 then setVariant T i (.union ⟨u.base, r.2, .default⟩) else T) = T' →
        ∀ k, k ≠ i → Assoc.get T' k = Assoc.get T k := by
      intro T' hT' k hk
      subst hT'
      split
      · rw [get_setVariant, if_neg hk]
      · rfl
    have hgi : Assoc.get (if 1 < r.1 then setVariant T i (.union ⟨u.base, r.2, .default⟩) else T) i =
        some (if 1 < r.1 then { ty with variant := .union ⟨u.base, r.2, .default⟩ } else ty) := by
      split
      · rw [get_setVariant, if_pos rfl, hg]; rfl
      · exact hg
    refine ⟨_, rfl, ?_, ?_, ?_, ?_, ?_⟩
    · split
      · rw [keys_setVariant]; exact h.keys
      · exact h.keys
    · intro k ty' h4 h5
      have hk : k ≠ i := by rintro rfl; rw [hi] at h4; cases h4; rw [hu] at h5; cases h5
      rw [hgs _ rfl k hk]
      exact h.other k ty' h4 h5
    · intro k h4
      have hk : k ≠ i := by rintro rfl; rw [hi] at h4; cases h4
      rw [hgs _ rfl k hk]
      exact h.missing k h4
    · intro k hk
      rw [not_or] at hk
      rw [hgs _ rfl k hk.1]
      exact h.todo k hk.2
    · rintro k ty' u' (rfl | hk) h4 h5
      · rw [hi] at h4; cases h4
        rw [hu] at h5; cases h5
        rw [hgi]
        by_cases hc : 1 < r.1
        · simp only [if_pos hc]
          exact Or.inr ⟨hN.1 hc, r.2, h.leaves_back h1, rfl⟩
        · simp only [if_neg hc]
          exact Or.inl ⟨fun hn => hc (hN.2 hn), by simp⟩
      · have hki : k ≠ i := by rintro rfl; exact hS hk
        rw [hgs _ rfl k hki]
        exact h.done k ty' u' hk h4 h5

theorem flat_forEach {T₀ : Types} (n : Nat) (ids : List Ident) (hn : ids.Nodup)
    (hu : ∀ i ∈ ids, ∃ ty u, Assoc.get T₀ i = some ty ∧ ty.variant = .union u) (T : Types) (S : Ident → Prop)
    (h : Flat T₀ T S) (hS : ∀ i ∈ ids, ¬ S i) :
    (∃ T', forEach (flattenUnion n) T ids = .ok T' ∧ Flat T₀ T' (fun k => k ∈ ids ∨ S k)) ∨
      (forEach (flattenUnion n) T ids = .diverged ∧ ∃ i T₁ S₁, Flat T₀ T₁ S₁ ∧ flattenF T₁ n i none = none) := by
  induction ids generalizing T S with
  | nil => exact Or.inl ⟨T, rfl, by simpa using h⟩
  | cons i ids ih =>
    rw [List.nodup_cons] at hn
    obtain ⟨ty, u, h1, h2⟩ := hu i (List.mem_cons_self ..)
    rcases h.step h1 h2 (hS i (List.mem_cons_self ..)) n with ⟨T₁, h3, h4⟩ | ⟨h3, h4⟩
    · have hS₁ : ∀ k ∈ ids, ¬ (k = i ∨ S k) := by
        rintro k hk (rfl | hc)
        · exact hn.1 hk
        · exact hS k (List.mem_cons_of_mem _ hk) hc
      rcases ih hn.2 (fun k hk => hu k (List.mem_cons_of_mem _ hk)) T₁ _ h4 hS₁ with ⟨T', h5, h6⟩ | ⟨h5, h6⟩
      · refine Or.inl ⟨T', by simp only [forEach, h3, Res.unwrap]; exact h5, ?_⟩
        have : (fun k => k ∈ ids ∨ k = i ∨ S k) = fun k => k ∈ i :: ids ∨ S k := by
          funext k
          simp only [List.mem_cons, eq_iff_iff]
          constructor
          · rintro (h | h | h)
            · exact Or.inl (Or.inr h)
            · exact Or.inl (Or.inl h)
            · exact Or.inr h
          · rintro ((h | h) | h)
            · exact Or.inr (Or.inl h)
            · exact Or.inl h
            · exact Or.inr (Or.inr h)
        rw [← this]; exact h6
      · exact Or.inr ⟨by simp only [forEach, h3, Res.unwrap]; exact h5, h6⟩
    · exact Or.inr ⟨by simp only [forEach, h3, Res.unwrap], i, T, S, h, h4⟩

theorem flat_start (T : Types) : Flat T T (fun _ => False) :=
  ⟨rfl, fun _ _ h _ => h, fun _ h => h, fun _ _ => rfl, fun _ _ _ h => absurd h id⟩

theorem union_ids {T : Types} (hk : Assoc.Keyed T) :
    ((T.filter (fun p => isUnion p.2.variant)).map (·.1)).Nodup ∧
    (∀ i, i ∈ (T.filter (fun p => isUnion p.2.variant)).map (·.1) ↔
      ∃ ty u, Assoc.get T i = some ty ∧ ty.variant = .union u) := by
  constructor
  · exact List.Nodup.sublist (List.Sublist.map _ (List.filter_sublist)) hk
  · intro i
    constructor
    · intro h
      obtain ⟨⟨i', ty⟩, h1, rfl⟩ := List.mem_map.1 h
      rw [List.mem_filter] at h1
      refine ⟨ty, ?_⟩
      cases hv : ty.variant <;> simp [hv, isUnion] at h1
      exact ⟨_, Assoc.get_of_mem hk h1, rfl⟩
    · rintro ⟨ty, u, h1, h2⟩
      exact List.mem_map.2 ⟨(i, ty), List.mem_filter.2 ⟨Assoc.mem_of_get h1, by simp [h2, isUnion]⟩, rfl⟩

theorem flatten_cases {T : Types} (hk : Assoc.Keyed T) (n : Nat) :
    (∃ T', flattenUnions n T = .ok T' ∧
      Flat T T' (fun i => ∃ ty u, Assoc.get T i = some ty ∧ ty.variant = .union u)) ∨
      (flattenUnions n T = .diverged ∧ ∃ i T₁ S₁, Flat T T₁ S₁ ∧ flattenF T₁ n i none = none) := by
  have hids := union_ids hk
  rcases flat_forEach n _ hids.1 (fun i hi => (hids.2 i).1 hi) T _ (flat_start T) (fun _ _ h => h) with ⟨T', h1, h2⟩ | h
  · refine Or.inl ⟨T', h1, ?_⟩
    have : (fun k => k ∈ (T.filter (fun p => isUnion p.2.variant)).map (·.1) ∨ False) =
        fun i => ∃ ty u, Assoc.get T i = some ty ∧ ty.variant = .union u := by
      funext k
      rw [or_false, eq_iff_iff]
      exact hids.2 k
    rw [← this]; exact h2
  · exact Or.inr h

/-! ## Properties -/

/-- C37: the pass never panics. -/
theorem C37_never_panics (n : Nat) (T : Types) (hk : Assoc.Keyed T) :
    (∃ T', flattenUnions n T = .ok T') ∨ flattenUnions n T = .diverged := by
  rcases flatten_cases hk n with ⟨T', h, -⟩ | ⟨h, -⟩
  · exact Or.inl ⟨T', h⟩
  · exact Or.inr h

/-- C37: the pass ends when no union contains itself (through members and synonyms). -/
theorem C37_ends (T : Types) (hk : Assoc.Keyed T) (hl : NoLoop (Inside T)) :
    ∃ T', ∀ n, T.length < n → flattenUnions n T = .ok T' := by
  obtain ⟨rank, hr, hb⟩ := rank_of_noLoop (Inside T) (Assoc.keys T) (by
    intro i k h
    have : Defined T i := by
      rcases h with h | ⟨u, h, -⟩
      · exact h.defined
      · obtain ⟨ty, h1, -⟩ := look_iff.1 h; exact ⟨ty, h1⟩
    obtain ⟨ty, h1⟩ := this
    exact List.mem_map.2 ⟨(i, ty), Assoc.mem_of_get h1, rfl⟩) hl
  -- the rank also goes down in a partly flattened table
  have hrank : ∀ n T₁ S₁ i, Flat T T₁ S₁ → T.length < n → flattenF T₁ n i none ≠ none := by
    intro n T₁ S₁ i hF hn
    refine flattenF_total (T := T₁) rank ?_ n i none (by
      have := hb i
      simp only [Assoc.keys, List.length_map] at this
      omega)
    have hdeep : ∀ i dn ls, Leaves T i dn ls → ∀ t ∈ ls, rank t.type_ ≤ rank i := by
      intro i dn ls h
      induction h with
      | missing => simp
      | @union i dn u f hl hf ih =>
        intro t ht
        obtain ⟨t', h1, h2⟩ := List.mem_flatMap.1 ht
        have := ih t' h1 t h2
        have := hr i t'.type_ (Or.inr ⟨u, hl, t', h1, rfl⟩)
        omega
      | synonym hs _ ih =>
        intro t ht
        have := ih t ht
        have := hr _ _ (Or.inl hs)
        omega
      | leaf _ _ _ => intro t ht; simp at ht; subst ht; exact Nat.le_refl _
    rintro a b (hs | ⟨u, hu, t, ht, rfl⟩)
    · exact hr a b (Or.inl ((hF.synonym a b).1 hs))
    · cases h₀ : look T a with
      | none => rw [hF.look_none h₀] at hu; cases hu
      | some v =>
        cases huv : isUnion v with
        | false => rw [hF.look_other h₀ huv] at hu; cases hu; cases huv
        | true =>
          cases v <;> simp [isUnion] at huv
          rcases hF.look_union h₀ with h' | ⟨l₀, hl₀, h'⟩
          · rw [h'] at hu; cases hu
            exact hr a t.type_ (Or.inr ⟨_, h₀, t, ht, rfl⟩)
          · rw [h'] at hu; cases hu
            cases hl₀ with
            | missing hl' => rw [h₀] at hl'; cases hl'
            | union f hl' hf =>
              rw [h₀] at hl'; cases hl'
              obtain ⟨t', h1, h2⟩ := List.mem_flatMap.1 ht
              have := hdeep _ _ _ (hf t' h1) t h2
              have := hr a t'.type_ (Or.inr ⟨_, h₀, t', h1, rfl⟩)
              omega
            | synonym hs =>
              obtain ⟨v, hv, htt⟩ := synonym_look.1 hs
              rw [h₀] at hv; cases hv; cases htt
            | leaf hl' hu => rw [h₀] at hl'; cases hl'; cases hu
  have hok : ∀ n, T.length < n → ∃ T', flattenUnions n T = .ok T' ∧
      Flat T T' (fun i => ∃ ty u, Assoc.get T i = some ty ∧ ty.variant = .union u) := by
    intro n hn
    rcases flatten_cases hk n with h | ⟨-, i, T₁, S₁, h1, h2⟩
    · exact h
    · exact absurd h2 (hrank n T₁ S₁ i h1 hn)
  -- the result does not depend on the fuel
  have heq : ∀ T₁ T₂, Flat T T₁ (fun i => ∃ ty u, Assoc.get T i = some ty ∧ ty.variant = .union u) →
      Flat T T₂ (fun i => ∃ ty u, Assoc.get T i = some ty ∧ ty.variant = .union u) → T₁ = T₂ := by
    intro T₁ T₂ h₁ h₂
    have hget : ∀ i, Assoc.get T₁ i = Assoc.get T₂ i := by
      intro i
      cases hg : Assoc.get T i with
      | none => rw [h₁.missing i hg, h₂.missing i hg]
      | some ty =>
        cases hu : isUnion ty.variant with
        | false => rw [h₁.other i ty hg hu, h₂.other i ty hg hu]
        | true =>
          cases hv : ty.variant <;> simp [hv, isUnion] at hu
          rename_i u
          rcases h₁.done i ty u ⟨ty, u, hg, hv⟩ hg hv with ⟨g1, g2⟩ | ⟨g1, ls, g2, g3⟩ <;>
            rcases h₂.done i ty u ⟨ty, u, hg, hv⟩ hg hv with ⟨g4, g5⟩ | ⟨g4, ls', g5, g6⟩
          · rw [g2, g5]
          · exact absurd g4 g1
          · exact absurd g1 g4
          · rw [g3, g6, g2.det g5]
    have hext : ∀ (A B : Types), Assoc.keys A = Assoc.keys B → (Assoc.keys A).Nodup →
        (∀ i ∈ Assoc.keys A, Assoc.get A i = Assoc.get B i) → A = B := by
      intro A
      induction A with
      | nil =>
        intro B hk' _ _
        cases B with
        | nil => rfl
        | cons b B => simp [Assoc.keys] at hk'
      | cons a A ih =>
        intro B hk' hnd hg
        cases B with
        | nil => simp [Assoc.keys] at hk'
        | cons b B =>
          obtain ⟨ka, va⟩ := a
          obtain ⟨kb, vb⟩ := b
          simp only [Assoc.keys, List.map_cons, List.cons.injEq] at hk'
          obtain ⟨rfl, hk'⟩ := hk'
          simp only [Assoc.keys, List.map_cons, List.nodup_cons] at hnd
          have h0 := hg ka (by simp [Assoc.keys])
          simp [Assoc.get] at h0
          subst h0
          congr 1
          refine ih B hk' hnd.2 ?_
          intro i hi
          have hne : ka ≠ i := by rintro rfl; exact hnd.1 hi
          have := hg i (by simp only [Assoc.keys, List.map_cons]; exact List.mem_cons_of_mem _ hi)
          simpa [Assoc.get, hne] using this
    exact hext T₁ T₂ (h₁.keys.trans h₂.keys.symm) (by rw [h₁.keys]; exact hk) (fun i _ => hget i)
  obtain ⟨T', h1, h2⟩ := hok (T.length + 1) (by omega)
  refine ⟨T', fun n hn => ?_⟩
  obtain ⟨T'', h3, h4⟩ := hok n hn
  rw [h3, heq T'' T' h4 h2]

/-- C37: after the pass a union that contained a union has exactly its leaves as members, in order; its base is kept.
All other types are unchanged. -/
theorem C37_members (n : Nat) (T T' : Types) (hk : Assoc.Keyed T) (h : flattenUnions n T = .ok T') (i : Ident)
    (ty : MetaType) (hi : Assoc.get T i = some ty) :
    (∀ u, ty.variant = .union u → Nested T u → ∃ ls, Leaves T i none ls ∧
      Assoc.get T' i = some { ty with variant := .union ⟨u.base, ls, .default⟩ }) ∧
    ((∀ u, ty.variant = .union u → ¬ Nested T u) → Assoc.get T' i = some ty) := by
  rcases flatten_cases hk n with ⟨T'', h1, hF⟩ | ⟨h1, -⟩
  · rw [h] at h1; cases h1
    constructor
    · intro u hu hN
      rcases hF.done i ty u ⟨ty, u, hi, hu⟩ hi hu with ⟨g, -⟩ | ⟨-, g⟩
      · exact absurd hN g
      · exact g
    · intro hN
      cases hu : isUnion ty.variant with
      | false => exact hF.other i ty hi hu
      | true =>
        cases hv : ty.variant <;> simp [hv, isUnion] at hu
        rename_i u
        rcases hF.done i ty u ⟨ty, u, hi, hv⟩ hi hv with ⟨-, g⟩ | ⟨g, -⟩
        · exact g
        · exact absurd g (hN u hv)
  · rw [h] at h1; cases h1

/-- C37: afterwards no member of a union is a union. -/
theorem C37_flat (n : Nat) (T T' : Types) (hk : Assoc.Keyed T) (h : flattenUnions n T = .ok T') (i : Ident) (u : Union)
    (hi : look T' i = some (.union u)) : ¬ Nested T' u := by
  rcases flatten_cases hk n with ⟨T'', h1, hF⟩ | ⟨h1, -⟩
  · rw [h] at h1; cases h1
    rintro ⟨t, ht, hlead⟩
    rw [hF.leadsToUnion] at hlead
    cases h₀ : look T i with
    | none => rw [hF.look_none h₀] at hi; cases hi
    | some v =>
      cases huv : isUnion v with
      | false => rw [hF.look_other h₀ huv] at hi; cases hi; cases huv
      | true =>
        cases v <;> simp [isUnion] at huv
        rename_i u₀
        obtain ⟨ty, g1, g2⟩ := look_iff.1 h₀
        rcases hF.done i ty u₀ ⟨ty, u₀, g1, g2⟩ g1 g2 with ⟨g3, g4⟩ | ⟨-, ls, g3, g4⟩
        · rw [look_of g4 g2] at hi; cases hi
          exact g3 ⟨t, ht, hlead⟩
        · rw [look_of g4 rfl] at hi; cases hi
          obtain ⟨v, h1, h2, h3⟩ := g3.leaves t ht
          cases hlead with
          | union hl => rw [h1] at hl; cases hl; cases h2
          | synonym hs =>
            obtain ⟨v', hv', ht'⟩ := synonym_look.1 hs
            rw [h1] at hv'; cases hv'; rw [h3] at ht'; cases ht'
  · rw [h] at h1; cases h1

theorem leaf_accepts {P : Lex} {T : Types} (hP : NoFacets P T) {i : Ident} {dn : Option Txt} {ls : List UnionType}
    (h : Leaves T i dn ls) {t : UnionType} (ht : t ∈ ls) {s : Txt} (hv : Valid P T (.text t.type_ s)) :
    Valid P T (.text i s) := by
  induction h with
  | missing => cases ht
  | @union i dn u f hl _ ih =>
    obtain ⟨t', h1, h2⟩ := List.mem_flatMap.1 ht
    obtain ⟨ty, g1, g2⟩ := look_iff.1 hl
    exact .unionText g1 g2 h1 (by rw [hP.2 i u hl]; exact hP.1 s) (ih t' h1 h2)
  | synonym hs _ ih => exact (ih ht).text_synonym hs
  | leaf => simp at ht; subst ht; exact hv

/-- A text accepted by a synonym is accepted by its target. -/
theorem valid_synonym_inv {P : Lex} {T : Types} {i k : Ident} (hs : Synonym T i k) {s : Txt}
    (hv : Valid P T (.text i s)) : Valid P T (.text k s) := by
  obtain ⟨ty, r, h1, h2, rfl, -, h3, h4⟩ := hs
  cases hv with
  | refText g1 g2 _ _ g => rw [h1] at g1; cases g1; rw [h2] at g2; cases g2; exact g
  | listText g1 g2 g => rw [h1] at g1; cases g1; rw [h2] at g2; cases g2; exact absurd ⟨h3, h4⟩ g
  | unionText g1 g2 => rw [h1] at g1; cases g1; rw [h2] at g2; cases g2
  | builtInText g1 g2 => rw [h1] at g1; cases g1; rw [h2] at g2; cases g2
  | customText g1 g2 => rw [h1] at g1; cases g1; rw [h2] at g2; cases g2
  | literalText g1 g2 => rw [h1] at g1; cases g1; rw [h2] at g2; cases g2
  | variantText g1 g2 => rw [h1] at g1; cases g1; rw [h2] at g2; cases g2
  | simpleText g1 g2 => rw [h1] at g1; cases g1; rw [h2] at g2; cases g2
  | simpleListText g1 g2 => rw [h1] at g1; cases g1; rw [h2] at g2; cases g2

theorem valid_union_inv {P : Lex} {T : Types} {i : Ident} {u : Union} (hl : look T i = some (.union u)) {s : Txt}
    (hv : Valid P T (.text i s)) : ∃ m ∈ u.types, P.facets u.constrains s ∧ Valid P T (.text m.type_ s) := by
  rcases hv.step.union rfl hl with ⟨m, s', h1, h2, h3, h4⟩ | ⟨s', x, h1, -⟩
  · cases h1; exact ⟨m, h2, h3, h4⟩
  · cases h1

theorem accepts_leaf {P : Lex} {T : Types} {i : Ident} {dn : Option Txt} {ls : List UnionType}
    (h : Leaves T i dn ls) {s : Txt} (hv : Valid P T (.text i s)) : ∃ t ∈ ls, Valid P T (.text t.type_ s) := by
  induction h with
  | missing hl =>
    obtain ⟨ty, h1⟩ := hv.defined.1 _ _ rfl
    rw [look_of h1 rfl] at hl; cases hl
  | @union i dn u f hl _ ih =>
    obtain ⟨m, h1, -, h2⟩ := valid_union_inv hl hv
    obtain ⟨t, h3, h4⟩ := ih m h1 h2
    exact ⟨t, List.mem_flatMap.2 ⟨m, h1, h3⟩, h4⟩
  | synonym hs _ ih => exact ih (valid_synonym_inv hs hv)
  | leaf => exact ⟨_, List.mem_singleton.2 rfl, hv⟩

theorem flat_noFacets {P : Lex} {T T' : Types} {S : Ident → Prop} (hF : Flat T T' S) (hP : NoFacets P T) :
    NoFacets P T' := by
  refine ⟨hP.1, ?_⟩
  intro i u hi
  cases h₀ : look T i with
  | none => rw [hF.look_none h₀] at hi; cases hi
  | some v =>
    cases huv : isUnion v with
    | false => rw [hF.look_other h₀ huv] at hi; cases hi; cases huv
    | true =>
      cases v <;> simp [isUnion] at huv
      rcases hF.look_union h₀ with h' | ⟨_, -, h'⟩
      · rw [h'] at hi; cases hi; exact hP.2 i _ h₀
      · rw [h'] at hi; cases hi; rfl

theorem flat_changed {T T' : Types} {S : Ident → Prop} (hF : Flat T T' S) (i : Ident) :
    look T i = look T' i ∨ ∃ u ls, look T i = some (.union u) ∧ Leaves T i none ls ∧
      look T' i = some (.union ⟨u.base, ls, .default⟩) := by
  cases h₀ : look T i with
  | none => exact Or.inl (hF.look_none h₀).symm
  | some v =>
    cases huv : isUnion v with
    | false => exact Or.inl (hF.look_other h₀ huv).symm
    | true =>
      cases v <;> simp [isUnion] at huv
      rcases hF.look_union h₀ with h' | ⟨ls, h1, h'⟩
      · exact Or.inl h'.symm
      · exact Or.inr ⟨_, ls, rfl, h1, h'⟩

theorem flat_no_less {P : Lex} {T T' : Types} {S : Ident → Prop} (hF : Flat T T' S) (hP : ∀ s, P.facets .default s)
    (j : Judge) : Valid P T j → Valid P T' j := by
  refine Valid.simulate (fun i => ?_)
  rcases flat_changed hF i with h | ⟨u, ls, h1, h2, h3⟩
  · exact Or.inl h
  · refine Or.inr (fun j hj hs => ?_)
    rcases hs.union hj h1 with ⟨m, s, rfl, hm, -, hv⟩ | ⟨s, x, rfl, hv⟩
    · cases h2 with
      | missing hl' => rw [h1] at hl'; cases hl'
      | union f hl' hf =>
        rw [h1] at hl'; cases hl'
        obtain ⟨t, ht, hv'⟩ := accepts_leaf (hF.leaves (hf m hm)) hv
        obtain ⟨ty, g1, g2⟩ := look_iff.1 h3
        exact .unionText g1 g2 (List.mem_flatMap.2 ⟨m, hm, ht⟩) (hP s) hv'
      | synonym hs' =>
        obtain ⟨v, hv', ht⟩ := synonym_look.1 hs'
        rw [h1] at hv'; cases hv'; cases ht
      | leaf hl' hu => rw [h1] at hl'; cases hl'; cases hu
    · exact .textValue hv

theorem flat_same {P : Lex} {T T' : Types} {S : Ident → Prop} (hF : Flat T T' S) (hP : NoFacets P T) (j : Judge) :
    Valid P T' j ↔ Valid P T j := by
  constructor
  · refine Valid.simulate (fun i => ?_)
    rcases flat_changed hF i with h | ⟨u, ls, h1, h2, h3⟩
    · exact Or.inl h.symm
    · refine Or.inr (fun j hj hs => ?_)
      rcases hs.union hj h3 with ⟨m, s, rfl, hm, -, hv⟩ | ⟨s, x, rfl, hv⟩
      · exact leaf_accepts hP h2 hm hv
      · exact .textValue hv
  · exact flat_no_less hF hP.1 j

/-- C37: no document that was accepted is rejected afterwards, also if unions have facets of their own. -/
theorem C37_accepts_no_less (P : Lex) (n : Nat) (T T' : Types) (hk : Assoc.Keyed T) (h : flattenUnions n T = .ok T')
    (hP : ∀ s, P.facets .default s) (j : Judge) (hv : Valid P T j) : Valid P T' j := by
  rcases flatten_cases hk n with ⟨T'', h1, hF⟩ | ⟨h1, -⟩
  · rw [h] at h1; cases h1
    exact flat_no_less hF hP j hv
  · rw [h] at h1; cases h1

/-- C37 (partial): the accepted documents do not change, provided that no union has facets of its own. Missing: unions with
facets, for which `C37_facets_lost` shows that the claim is false. -/
theorem C37_same_documents_partial (P : Lex) (n : Nat) (T T' : Types) (hk : Assoc.Keyed T)
    (h : flattenUnions n T = .ok T') (hP : NoFacets P T) (j : Judge) : Valid P T' j ↔ Valid P T j := by
  rcases flatten_cases hk n with ⟨T'', h1, hF⟩ | ⟨h1, -⟩
  · rw [h] at h1; cases h1
    exact flat_same hF hP j
  · rw [h] at h1; cases h1

/-- The first of the types `ls` that accepts `s` is `l`. -/
def FirstOf (P : Lex) (T : Types) (ls : List UnionType) (s : Txt) (l : Ident) : Prop :=
  ∃ pre m post, ls = pre ++ m :: post ∧ m.type_ = l ∧ (∀ m' ∈ pre, ¬ Valid P T (.text m'.type_ s)) ∧
    Valid P T (.text l s)

theorem choose_valid {P : Lex} {T : Types} {i l : Ident} {s : Txt} (h : Choose P T i s l) : Valid P T (.text i s) := by
  induction h with
  | synonym hs _ ih => exact ih.text_synonym hs
  | member hl he _ hf _ ih =>
    obtain ⟨ty, g1, g2⟩ := look_iff.1 hl
    exact .unionText g1 g2 (by rw [he]; simp) hf ih
  | leaf _ _ _ hv => exact hv

/-- Two ways to split a list at a first element with a property are the same. -/
theorem split_unique {α : Type} {p : α → Prop} {a b : List α} {x y : α} {c d : List α} (h : a ++ x :: c = b ++ y :: d)
    (ha : ∀ z ∈ a, ¬ p z) (hb : ∀ z ∈ b, ¬ p z) (hx : p x) (hy : p y) : a = b ∧ x = y ∧ c = d := by
  induction a generalizing b with
  | nil =>
    cases b with
    | nil => simp at h; exact ⟨rfl, h.1, h.2⟩
    | cons b₀ b =>
      simp at h
      exact absurd (h.1 ▸ hx) (hb b₀ (List.mem_cons_self ..))
  | cons a₀ a ih =>
    cases b with
    | nil =>
      simp at h
      exact absurd (h.1 ▸ hy) (ha a₀ (List.mem_cons_self ..))
    | cons b₀ b =>
      simp only [List.cons_append, List.cons.injEq] at h
      obtain ⟨h1, h2, h3⟩ := ih h.2 (fun z hz => ha z (List.mem_cons_of_mem _ hz))
        (fun z hz => hb z (List.mem_cons_of_mem _ hz))
      exact ⟨by rw [h.1, h1], h2, h3⟩

theorem exists_first {α : Type} (p : α → Prop) (l : List α) (h : ∃ a ∈ l, p a) :
    ∃ pre m post, l = pre ++ m :: post ∧ (∀ a ∈ pre, ¬ p a) ∧ p m := by
  classical
  induction l with
  | nil => obtain ⟨a, ha, -⟩ := h; cases ha
  | cons b l ih =>
    by_cases hb : p b
    · exact ⟨[], b, l, rfl, by simp, hb⟩
    · have : ∃ a ∈ l, p a := by
        obtain ⟨a, ha, hp⟩ := h
        rcases List.mem_cons.1 ha with rfl | ha
        · exact absurd hp hb
        · exact ⟨a, ha, hp⟩
      obtain ⟨pre, m, post, h1, h2, h3⟩ := ih this
      refine ⟨b :: pre, m, post, by rw [h1]; rfl, ?_, h3⟩
      intro a ha
      rcases List.mem_cons.1 ha with rfl | ha
      · exact hb
      · exact h2 a ha

/-- Without facets the chosen type is the first leaf that accepts the text. -/
theorem choose_iff_first {P : Lex} {T : Types} (hP : NoFacets P T) {i : Ident} {dn : Option Txt} {ls : List UnionType}
    (h : Leaves T i dn ls) (s : Txt) (l : Ident) : Choose P T i s l ↔ FirstOf P T ls s l := by
  have hacc : ∀ i dn ls, Leaves T i dn ls → (Valid P T (.text i s) ↔ ∃ t ∈ ls, Valid P T (.text t.type_ s)) :=
    fun i dn ls h => ⟨accepts_leaf h, fun ⟨t, ht, hv⟩ => leaf_accepts hP h ht hv⟩
  induction h with
  | missing hl =>
    constructor
    · intro hc
      obtain ⟨ty, h1⟩ := (choose_valid hc).defined.1 _ _ rfl
      rw [look_of h1 rfl] at hl; cases hl
    · rintro ⟨pre, m, post, h, -⟩; simp at h
  | @union i dn u f hl hf ih =>
    -- first accepting leaf of a concatenation
    have hcat : ∀ types : List UnionType, (∀ t ∈ types, Leaves T t.type_ t.displayName (f t)) →
        (FirstOf P T (types.flatMap f) s l ↔ ∃ pre m post, types = pre ++ m :: post ∧
          (∀ m' ∈ pre, ¬ Valid P T (.text m'.type_ s)) ∧ FirstOf P T (f m) s l) := by
      intro types
      induction types with
      | nil =>
        intro _
        constructor
        · rintro ⟨pre, m, post, h, -⟩; simp at h
        · rintro ⟨pre, m, post, h, -⟩; simp at h
      | cons t types ih' =>
        intro ht
        have ih' := ih' (fun t' h' => ht t' (List.mem_cons_of_mem _ h'))
        have hacct := hacc _ _ _ (ht t (List.mem_cons_self ..))
        simp only [List.flatMap_cons]
        by_cases hv : Valid P T (.text t.type_ s)
        · -- the first leaf is in `f t`
          obtain ⟨a, m, b, h1, h2, h3⟩ := exists_first (fun m : UnionType => Valid P T (.text m.type_ s)) (f t)
            (hacct.1 hv)
          constructor
          · rintro ⟨pre, m', post, g1, g2, g3, g4⟩
            refine ⟨[], t, types, rfl, by simp, ?_⟩
            rw [h1, List.append_assoc, List.cons_append] at g1
            obtain ⟨rfl, rfl, -⟩ := split_unique (p := fun m : UnionType => Valid P T (.text m.type_ s)) g1 h2 g3 h3
              (by rw [g2]; exact g4)
            exact ⟨a, m, b, h1, g2, g3, g4⟩
          · rintro ⟨pre, m', post, g1, g2, g3⟩
            cases pre with
            | nil =>
              simp at g1
              obtain ⟨rfl, rfl⟩ := g1
              obtain ⟨a', x, b', e1, e2, e3, e4⟩ := g3
              exact ⟨a', x, b' ++ types.flatMap f, by rw [e1]; simp, e2, e3, e4⟩
            | cons p pre =>
              simp at g1
              exact absurd (g1.1 ▸ hv) (g2 p (List.mem_cons_self ..))
        · have hno : ∀ m' ∈ f t, ¬ Valid P T (.text m'.type_ s) := fun m' hm' hv' => hv (hacct.2 ⟨m', hm', hv'⟩)
          constructor
          · rintro ⟨pre, m', post, g1, g2, g3, g4⟩
            -- the first leaf lies behind `f t`
            have : ∃ pre', pre = f t ++ pre' ∧ types.flatMap f = pre' ++ m' :: post := by
              rcases List.append_eq_append_iff.1 g1 with ⟨a', h1, h2⟩ | ⟨c', h1, h2⟩
              · exact ⟨a', h1, h2⟩
              · cases c' with
                | nil => simp at h1 h2; exact ⟨[], by simp [h1], by simp [h2]⟩
                | cons x c' =>
                  simp at h2
                  obtain ⟨rfl, -⟩ := h2
                  exact absurd (by rw [g2]; exact g4) (hno m' (by rw [h1]; simp))
            obtain ⟨pre', rfl, h2⟩ := this
            obtain ⟨q, m, r, e1, e2, e3⟩ := ih'.1 ⟨pre', m', post, h2, g2,
              fun x hx => g3 x (List.mem_append_right _ hx), g4⟩
            refine ⟨t :: q, m, r, by rw [e1]; rfl, ?_, e3⟩
            intro x hx
            rcases List.mem_cons.1 hx with rfl | hx
            · exact hv
            · exact e2 x hx
          · rintro ⟨pre, m', post, g1, g2, g3⟩
            cases pre with
            | nil =>
              simp at g1
              obtain ⟨rfl, rfl⟩ := g1
              obtain ⟨a', x, b', e1, e2, -, e4⟩ := g3
              exact absurd (by rw [e2]; exact e4) (hno x (by rw [e1]; simp))
            | cons p pre =>
              simp only [List.cons_append, List.cons.injEq] at g1
              obtain ⟨rfl, g1⟩ := g1
              obtain ⟨a', x, b', e1, e2, e3, e4⟩ := ih'.2 ⟨pre, m', post, g1,
                fun y hy => g2 y (List.mem_cons_of_mem _ hy), g3⟩
              refine ⟨f t ++ a', x, b', by rw [e1]; simp, e2, ?_, e4⟩
              intro y hy
              rcases List.mem_append.1 hy with hy | hy
              · exact hno y hy
              · exact e3 y hy
    rw [hcat u.types hf]
    constructor
    · intro hc
      cases hc with
      | synonym hs =>
        obtain ⟨v, hv, ht⟩ := synonym_look.1 hs
        rw [hl] at hv; cases hv; cases ht
      | member hl' he hpre _ hsub =>
        rw [hl] at hl'; cases hl'
        exact ⟨_, _, _, he, hpre, (ih _ (by rw [he]; simp)).1 hsub⟩
      | leaf hl' hu => rw [hl] at hl'; cases hl'; cases hu
    · rintro ⟨pre, m, post, g1, g2, g3⟩
      exact .member hl g1 g2 (by rw [hP.2 i u hl]; exact hP.1 s) ((ih m (by rw [g1]; simp)).2 g3)
  | synonym hs _ ih =>
    refine Iff.trans ?_ ih
    constructor
    · intro hc
      cases hc with
      | synonym hs' hk => rw [Synonym.unique hs hs']; exact hk
      | member hl' =>
        obtain ⟨v, hv, ht⟩ := synonym_look.1 hs
        rw [hl'] at hv; cases hv; cases ht
      | leaf hl' _ ht' =>
        obtain ⟨v, hv, ht⟩ := synonym_look.1 hs
        rw [hl'] at hv; cases hv; rw [ht] at ht'; cases ht'
    · exact .synonym hs
  | @leaf i dn v hl hu ht =>
    constructor
    · intro hc
      cases hc with
      | synonym hs =>
        obtain ⟨v, hv, ht'⟩ := synonym_look.1 hs
        rw [hl] at hv; cases hv; rw [ht] at ht'; cases ht'
      | member hl' => rw [hl] at hl'; cases hl'; cases hu
      | leaf _ _ _ hv => exact ⟨[], ⟨l, dn⟩, [], rfl, rfl, by simp, hv⟩
    · rintro ⟨pre, m, post, h1, h2, -, h4⟩
      cases pre with
      | nil =>
        simp at h1
        obtain ⟨rfl, -⟩ := h1
        subst h2
        exact .leaf hl hu ht h4
      | cons p pre => simp at h1

/-- C37 (partial): the type chosen for a text does not change, provided that no union has facets of its own. Missing: as
for `C37_same_documents_partial`. -/
theorem C37_same_choice_partial (P : Lex) (n : Nat) (T T' : Types) (hk : Assoc.Keyed T) (hl : NoLoop (Inside T))
    (h : flattenUnions n T = .ok T') (hP : NoFacets P T) (i : Ident) (s : Txt) (l : Ident) :
    Choose P T' i s l ↔ Choose P T i s l := by
  rcases flatten_cases hk n with ⟨T'', h1, hF⟩ | ⟨h1, -⟩
  · rw [h] at h1; cases h1
    obtain ⟨rank, hr, -⟩ := rank_of_noLoop (Inside T) (Assoc.keys T) (by
      intro i k h
      have : Defined T i := by
        rcases h with h | ⟨u, h, -⟩
        · exact h.defined
        · obtain ⟨ty, h1, -⟩ := look_iff.1 h; exact ⟨ty, h1⟩
      obtain ⟨ty, h1⟩ := this
      exact List.mem_map.2 ⟨(i, ty), Assoc.mem_of_get h1, rfl⟩) hl
    cases hf : flattenF T (rank i + 1) i none with
    | none => exact absurd hf (flattenF_total rank hr _ i none (by omega))
    | some r =>
      have hL := (flattenF_leaves hf).1
      rw [choose_iff_first hP hL, choose_iff_first (flat_noFacets hF hP) (hF.leaves hL)]
      simp only [FirstOf, flat_same hF hP]
  · rw [h] at h1; cases h1

/-! ### Examples and findings -/

/-- `U = A | V`, `V = B | W`, `W = C`, where `W` is a synonym of the union `X = C | D`. -/
def exUnions : Types :=
  [(exId "A", .new (.buildIn .bool)), (exId "B", .new (.buildIn .u8)), (exId "C", .new (.buildIn .string)),
   (exId "D", .new (.buildIn .i8)),
   (exId "U", .new (.union ⟨.none, [⟨exId "A", none⟩, ⟨exId "V", none⟩], .default⟩)),
   (exId "V", .new (.union ⟨.none, [⟨exId "B", none⟩, ⟨exId "W", some ['w']⟩], .default⟩)),
   (exId "W", .new (.reference (.new (exId "X")))),
   (exId "X", .new (.union ⟨.none, [⟨exId "C", some ['c']⟩, ⟨exId "D", none⟩], .default⟩))]

/-- The types of `U` are listed in the order in which they are tried. -/
example : (match flattenUnions 9 exUnions with
    | .ok T' => look T' (exId "U")
    | _ => none) = some (.union ⟨.none, [⟨exId "A", none⟩, ⟨exId "B", none⟩, ⟨exId "C", some ['c']⟩, ⟨exId "D", none⟩],
      .default⟩) := by decide +kernel

theorem exUnions_inside (i k : Ident) (h : Inside exUnions i k) :
    (i, k) ∈ [(exId "U", exId "A"), (exId "U", exId "V"), (exId "V", exId "B"), (exId "V", exId "W"),
      (exId "W", exId "X"), (exId "X", exId "C"), (exId "X", exId "D")] := by
  have hmem : ∀ v, look exUnions i = some v → ∃ ty, (i, ty) ∈ exUnions ∧ ty.variant = v := by
    intro v hv
    obtain ⟨ty, h1, h2⟩ := look_iff.1 hv
    exact ⟨ty, Assoc.mem_of_get h1, h2⟩
  have key : ∀ ty, (i, ty) ∈ exUnions → (ty.variant.target = some k ∨
      ∃ u, ty.variant = .union u ∧ ∃ t ∈ u.types, t.type_ = k) →
      (i, k) ∈ [(exId "U", exId "A"), (exId "U", exId "V"), (exId "V", exId "B"), (exId "V", exId "W"),
      (exId "W", exId "X"), (exId "X", exId "C"), (exId "X", exId "D")] := by
    intro ty hm hc
    simp only [exUnions, List.mem_cons, Prod.mk.injEq, List.not_mem_nil, or_false] at hm
    rcases hm with ⟨rfl, rfl⟩ | ⟨rfl, rfl⟩ | ⟨rfl, rfl⟩ | ⟨rfl, rfl⟩ | ⟨rfl, rfl⟩ | ⟨rfl, rfl⟩ | ⟨rfl, rfl⟩ | ⟨rfl, rfl⟩ <;>
      simp [MetaType.new, Variant.target, Reference.new, Reference.isSimple, Reference.isSingle] at hc <;>
      (first | (rcases hc with rfl | rfl <;> simp) | (subst hc; simp))
  rcases h with hs | ⟨u, hu, t, ht, rfl⟩
  · obtain ⟨v, hv, htt⟩ := synonym_look.1 hs
    obtain ⟨ty, h1, rfl⟩ := hmem v hv
    exact key ty h1 (Or.inl htt)
  · obtain ⟨ty, h1, h2⟩ := hmem _ hu
    exact key ty h1 (Or.inr ⟨u, h2, t, ht, rfl⟩)

theorem exUnions_noLoop : NoLoop (Inside exUnions) := by
  refine noLoop_of_rank _ (fun i => if i = exId "U" then 4 else if i = exId "V" then 3 else if i = exId "W" then 2
    else if i = exId "X" then 1 else 0) ?_
  intro a b h
  have := exUnions_inside a b h
  have hall : ∀ p ∈ [(exId "U", exId "A"), (exId "U", exId "V"), (exId "V", exId "B"), (exId "V", exId "W"),
      (exId "W", exId "X"), (exId "X", exId "C"), (exId "X", exId "D")],
      (fun i => if i = exId "U" then 4 else if i = exId "V" then 3 else if i = exId "W" then 2
        else if i = exId "X" then 1 else 0) p.2 <
      (fun i => if i = exId "U" then 4 else if i = exId "V" then 3 else if i = exId "W" then 2
        else if i = exId "X" then 1 else 0) p.1 := by decide +kernel
  exact hall (a, b) this

/-- The hypotheses of the theorems hold for the example. -/
example : Assoc.Keyed exUnions ∧ NoLoop (Inside exUnions) ∧
    NoFacets ⟨fun _ _ => True, fun _ _ => True, fun _ _ _ => True, fun _ _ => True, fun _ => [], fun _ _ => True,
      fun _ _ => True⟩ exUnions := by
  refine ⟨by unfold Assoc.Keyed; decide +kernel, exUnions_noLoop, fun _ => trivial, ?_⟩
  intro i u hu
  obtain ⟨ty, h1, h2⟩ := look_iff.1 hu
  have hall : ∀ p ∈ exUnions, ∀ u, p.2.variant = .union u → u.constrains = .default := by
    intro p hp u hu
    simp only [exUnions, List.mem_cons, List.not_mem_nil, or_false] at hp
    rcases hp with rfl | rfl | rfl | rfl | rfl | rfl | rfl | rfl <;> cases hu <;> rfl
  exact hall (i, ty) (Assoc.mem_of_get h1) u h2

/-- `U = U | …`: a union that contains itself. -/
def exSelfUnion : Types := [(exId "U", .new (.union ⟨.none, [⟨exId "U", none⟩], .default⟩))]

/-- C37 (negation): for a union that contains itself the recursion never ends (in Rust: a stack overflow). -/
theorem C37_self_union_never_ends (n : Nat) : ∃ r : Res Types, flattenUnions n exSelfUnion = r ∧ r = .diverged := by
  have : ∀ n dn, flattenF exSelfUnion n (exId "U") dn = none := by
    intro n
    induction n with
    | zero => intro dn; rfl
    | succ n ih =>
      intro dn
      have hl : look exSelfUnion (exId "U") = some (.union ⟨.none, [⟨exId "U", none⟩], .default⟩) := by decide +kernel
      rw [flattenF_union hl]
      simp [collect, ih]
  have hl : look exSelfUnion (exId "U") = some (.union ⟨.none, [⟨exId "U", none⟩], .default⟩) := by decide +kernel
  have hids : (exSelfUnion.filter (fun p => isUnion p.2.variant)).map (·.1) = [exId "U"] := by decide +kernel
  exact ⟨_, rfl, by simp only [flattenUnions, hids, forEach, flattenUnion, hl, this, Res.unwrap]⟩

/-- `V` restricts its member by facets and is a member of `U`. -/
def exFacets (c : Constrains) : Types :=
  [(exId "A", .new (.buildIn .string)),
   (exId "U", .new (.union ⟨.none, [⟨exId "V", none⟩], .default⟩)),
   (exId "V", .new (.union ⟨.none, [⟨exId "A", none⟩], c⟩))]

/-- C37 (negation): the facets of a union that is a member of another union are lost: a text that violates them is accepted
by the outer union afterwards. -/
theorem C37_facets_lost (P : Lex) (c : Constrains) (s : Txt) (hb : P.builtIn .string s) (hd : P.facets .default s)
    (hc : ¬ P.facets c s) :
    ∃ T', flattenUnions 4 (exFacets c) = .ok T' ∧ ¬ Valid P (exFacets c) (.text (exId "U") s) ∧
      Valid P T' (.text (exId "U") s) := by
  refine ⟨[(exId "A", .new (.buildIn .string)),
   (exId "U", .new (.union ⟨.none, [⟨exId "A", none⟩], .default⟩)),
   (exId "V", .new (.union ⟨.none, [⟨exId "A", none⟩], c⟩))], rfl, ?_, ?_⟩
  · intro hv
    have hU : look (exFacets c) (exId "U") = some (.union ⟨.none, [⟨exId "V", none⟩], .default⟩) := rfl
    have hV : look (exFacets c) (exId "V") = some (.union ⟨.none, [⟨exId "A", none⟩], c⟩) := rfl
    obtain ⟨m, hm, -, h1⟩ := valid_union_inv hU hv
    simp at hm; subst hm
    obtain ⟨-, -, h2, -⟩ := valid_union_inv hV h1
    exact hc h2
  · exact .unionText (ty := .new (.union ⟨.none, [⟨exId "A", none⟩], .default⟩)) (m := ⟨exId "A", none⟩) rfl rfl (by simp) hd
      (.builtInText (ty := .new (.buildIn .string)) rfl rfl hb)

end Verif.Opt

import Verif.Opt.Unions
/-!
# Replacing restricted types by their base (C56)

Models `xsd-parser/src/pipeline/optimizer/unrestricted_base.rs` and `optimizer/misc/base_map.rs`.
-/
namespace Verif.Opt

open Verif.Meta
open Verif.Occurs (MaxOccurs Allows)

/-! ## Model -/

/-- `UnrestrictedBaseFlags`, unrestricted_base.rs:7-24. -/
structure BaseFlags where
  complex : Bool
  simple : Bool
  enum : Bool
  union : Bool

/-- The entry of `BaseMap` for a definition, base_map.rs:14-48. -/
def baseEntry (T : Types) : Variant → Option Base
  | .enumeration x =>
    match x.base.ident.bind (look T) with
    | some (.enumeration _) => some x.base
    | _ => none
  | .union x =>
    match x.base.ident.bind (look T) with
    | some (.union _) => some x.base
    | _ => none
  | .simple x => some (.restr x.base)
  | .complex x =>
    match x.base.ident.bind (look T) with
    | some (.complex _) => some x.base
    | _ => none
  | _ => none

/-- `BaseMap::get_unrestricted`, base_map.rs:53-58. `fuel` bounds the depth of the recursion, `none` means that it is used
up. -/
def getUnrestricted (T : Types) : Nat → Ident → Option Ident
  | 0, _ => none
  | n + 1, i =>
    match (look T i).bind (baseEntry T) with
    | some (.restr b) => getUnrestricted T n b
    | _ => some i

/-- Which definitions may be replaced, unrestricted_base.rs:57-65. -/
def mayReplace (f : BaseFlags) : Variant → Bool
  | .complex _ => f.complex
  | .simple x => !x.isList && f.simple
  | .enumeration _ => f.enum
  | .union _ => f.union
  | _ => false

/-- One turn of the loop, unrestricted_base.rs:56-75. The bases are those of the original table. -/
def unrestrict (f : BaseFlags) (fuel : Nat) (T : Types) (p : Ident × MetaType) : Option (Ident × MetaType) :=
  if mayReplace f p.2.variant then
    (getUnrestricted T fuel p.1).map fun b =>
      if p.1 ≠ b then (p.1, { p.2 with variant := .reference (.new b) }) else p
  else some p

/-- `Optimizer::use_unrestricted_base_type`, unrestricted_base.rs:51-78. -/
def useUnrestricted (f : BaseFlags) (fuel : Nat) (T : Types) : Option Types := T.mapM (unrestrict f fuel T)

/-! ## Specification -/

/-- The flags name the kind of the definition; lists are never chosen. -/
inductive Chosen (f : BaseFlags) : Variant → Prop
  | complex {c} : f.complex = true → Chosen f (.complex c)
  | simple {x} : f.simple = true → x.isList = false → Chosen f (.simple x)
  | enumeration {x} : f.enum = true → Chosen f (.enumeration x)
  | union {u} : f.union = true → Chosen f (.union u)

/-- The two definitions are of the same kind, of the kinds the pass looks at. -/
def SameKind : Variant → Variant → Prop
  | .enumeration _, .enumeration _ => True
  | .union _, .union _ => True
  | .complex _, .complex _ => True
  | _, _ => False

/-- The base a definition declares. -/
def declaredBase : Variant → Base
  | .enumeration x => x.base
  | .union x => x.base
  | .complex x => x.base
  | .simple x => .restr x.base
  | _ => .none

/-- `i` is declared as a restriction of `b`: an enumeration of an enumeration, a union of a union, a complex type of a
complex type, or a simple type of any type. -/
def Restricts (T : Types) (i b : Ident) : Prop :=
  ∃ v, look T i = some v ∧ declaredBase v = .restr b ∧
    ((∃ x, v = .simple x) ∨ ∃ w, look T b = some w ∧ SameKind v w)

/-- `b` is what remains of `i` when all declared restrictions are undone. -/
def Unrestricted (T : Types) (i b : Ident) : Prop :=
  (i = b ∨ Relation.TransGen (Restricts T) i b) ∧ ∀ c, ¬ Restricts T b c

/-- The definition of `i` is chosen by the flags, or restricted by a chosen one. -/
def Concerned (f : BaseFlags) (T : Types) (i : Ident) : Prop :=
  ∃ c v, look T c = some v ∧ Chosen f v ∧ (c = i ∨ Relation.TransGen (Restricts T) c i)

/-- The declared restrictions are restrictions: what the restricted type accepts is accepted by its base. This is only asked
of the types the flags concern, and simple types need no assumption here. -/
def Narrows (P : Lex) (f : BaseFlags) (T : Types) : Prop :=
  ∀ i b, Concerned f T i → Restricts T i b → (∀ x, look T i ≠ some (.simple x)) →
    (∀ s, Valid P T (.text i s) → Valid P T (.text b s)) ∧
    (∀ x as kids, Valid P T (.value i x as kids) → Valid P T (.value b x as kids)) ∧
    (∀ ns, Valid P T (.group i ns) → Valid P T (.group b ns))

/-- No simple type restricts a list. -/
def NoListBase (T : Types) : Prop :=
  ∀ i x y, look T i = some (.simple x) → x.isList = false → look T x.base = some (.simple y) → y.isList = false

/-- The definition of `i` refers to `k` without an element in between. -/
inductive Uses (T : Types) : Ident → Ident → Prop
  | reference {i r} : look T i = some (.reference r) → Uses T i r.type_
  | member {i u m} : look T i = some (.union u) → m ∈ u.types → Uses T i m.type_
  | variant {i x w k} : look T i = some (.enumeration x) → w ∈ x.variants → w.type_ = some k → Uses T i k
  | simple {i x} : look T i = some (.simple x) → Uses T i x.base
  | derived {i d e} : look T i = some (.dynamic d) → e ∈ d.derived → Uses T i e.2.type_
  | content {i c k} : look T i = some (.complex c) → c.content = some k → Uses T i k
  | sequence {i g e k} : look T i = some (.sequence g) → e ∈ g.elements → e.variant = .type_ k .group → Uses T i k
  | choice {i g e k} : look T i = some (.choice g) → e ∈ g.elements → e.variant = .type_ k .group → Uses T i k
  | all {i g e k} : look T i = some (.all g) → e ∈ g.elements → e.variant = .type_ k .group → Uses T i k

theorem Uses.defined {T : Types} {i k : Ident} (h : Uses T i k) : ∃ v, look T i = some v := by
  cases h <;> exact ⟨_, by assumption⟩

/-! ## Proofs -/

theorem baseEntry_iff {T : Types} {i b : Ident} : (look T i).bind (baseEntry T) = some (.restr b) ↔ Restricts T i b := by
  cases hl : look T i with
  | none => simp [Restricts, hl]
  | some v =>
    simp only [Option.bind_some, Restricts, hl, Option.some.injEq, exists_eq_left']
    have key : ∀ (base : Base) (good : Variant → Prop) (F : Option Variant → Option Base)
        (_ : ∀ w, good w → F (some w) = some base) (_ : ∀ o, F o = some base ∨ F o = none)
        (_ : ∀ o, F o = some base → ∃ w, o = some w ∧ good w),
        F (base.ident.bind (look T)) = some (.restr b) ↔ base = .restr b ∧ ∃ w, look T b = some w ∧ good w := by
      intro base good F h1 h2 h3
      constructor
      · intro h
        rcases h2 (base.ident.bind (look T)) with h' | h'
        · rw [h'] at h
          have hb : base = .restr b := by simpa using h
          subst hb
          obtain ⟨w, hw, hg⟩ := h3 _ h'
          exact ⟨rfl, w, hw, hg⟩
        · rw [h'] at h; cases h
      · rintro ⟨rfl, w, hw, hg⟩
        simp only [Base.ident, Option.bind_some, hw]
        exact h1 w hg
    cases v with
    | simple x => simp [baseEntry, declaredBase]
    | enumeration x =>
      have := key x.base (fun w => ∃ y, w = .enumeration y)
        (fun o => match o with | some (.enumeration _) => some x.base | _ => none)
        (by rintro w ⟨y, rfl⟩; rfl) (by intro o; rcases o with _ | w; exact Or.inr rfl; cases w <;> simp)
        (by intro o h; rcases o with _ | w; cases h; cases w <;> simp_all)
      simp only [baseEntry, declaredBase, reduceCtorEq, exists_false, false_or]
      rw [this]
      refine and_congr_right fun _ => exists_congr fun w => and_congr_right fun _ => ?_
      cases w <;> simp [SameKind]
    | union x =>
      have := key x.base (fun w => ∃ y, w = .union y)
        (fun o => match o with | some (.union _) => some x.base | _ => none)
        (by rintro w ⟨y, rfl⟩; rfl) (by intro o; rcases o with _ | w; exact Or.inr rfl; cases w <;> simp)
        (by intro o h; rcases o with _ | w; cases h; cases w <;> simp_all)
      simp only [baseEntry, declaredBase, reduceCtorEq, exists_false, false_or]
      rw [this]
      refine and_congr_right fun _ => exists_congr fun w => and_congr_right fun _ => ?_
      cases w <;> simp [SameKind]
    | complex x =>
      have := key x.base (fun w => ∃ y, w = .complex y)
        (fun o => match o with | some (.complex _) => some x.base | _ => none)
        (by rintro w ⟨y, rfl⟩; rfl) (by intro o; rcases o with _ | w; exact Or.inr rfl; cases w <;> simp)
        (by intro o h; rcases o with _ | w; cases h; cases w <;> simp_all)
      simp only [baseEntry, declaredBase, reduceCtorEq, exists_false, false_or]
      rw [this]
      refine and_congr_right fun _ => exists_congr fun w => and_congr_right fun _ => ?_
      cases w <;> simp [SameKind]
    | _ => simp [baseEntry, declaredBase]

theorem restricts_unique {T : Types} {i b c : Ident} (h1 : Restricts T i b) (h2 : Restricts T i c) : b = c := by
  rw [← baseEntry_iff] at h1 h2
  rw [h1] at h2
  simpa using h2

theorem getUnrestricted_step {T : Types} {n : Nat} {i b : Ident} (h : Restricts T i b) :
    getUnrestricted T (n + 1) i = getUnrestricted T n b := by
  rw [getUnrestricted, baseEntry_iff.2 h]

theorem getUnrestricted_stop {T : Types} {n : Nat} {i : Ident} (h : ∀ b, ¬ Restricts T i b) :
    getUnrestricted T (n + 1) i = some i := by
  rw [getUnrestricted]
  split
  · rename_i b hb; exact absurd (baseEntry_iff.1 hb) (h b)
  · rfl

theorem getUnrestricted_spec {T : Types} {n : Nat} {i b : Ident} (h : getUnrestricted T n i = some b) :
    Unrestricted T i b := by
  induction n generalizing i with
  | zero => cases h
  | succ n ih =>
    by_cases hr : ∃ c, Restricts T i c
    · obtain ⟨c, hc⟩ := hr
      rw [getUnrestricted_step hc] at h
      obtain ⟨h1, h2⟩ := ih h
      refine ⟨Or.inr ?_, h2⟩
      rcases h1 with rfl | h1
      · exact .single hc
      · exact transGen_trans (.single hc) h1
    · rw [getUnrestricted_stop (fun b hb => hr ⟨b, hb⟩)] at h
      cases h
      exact ⟨Or.inl rfl, fun c hc => hr ⟨c, hc⟩⟩

theorem getUnrestricted_total {T : Types} (rank : Ident → Nat) (hr : ∀ a b, Restricts T a b → rank b < rank a) (n : Nat)
    (i : Ident) (h : rank i < n) : ∃ b, getUnrestricted T n i = some b := by
  induction n generalizing i with
  | zero => omega
  | succ n ih =>
    by_cases hc : ∃ c, Restricts T i c
    · obtain ⟨c, hc⟩ := hc
      rw [getUnrestricted_step hc]
      have := hr i c hc
      exact ih c (by omega)
    · exact ⟨i, getUnrestricted_stop (fun b hb => hc ⟨b, hb⟩)⟩

theorem unrestricted_unique {T : Types} {i b c : Ident} (h1 : Unrestricted T i b) (h2 : Unrestricted T i c) : b = c := by
  have first : ∀ {x y}, Relation.TransGen (Restricts T) x y → ∃ z, Restricts T x z ∧ (z = y ∨ Relation.TransGen (Restricts T) z y) := by
    intro x y h
    induction h with
    | single h => exact ⟨_, h, Or.inl rfl⟩
    | tail _ h ih =>
      obtain ⟨z, hz, hz'⟩ := ih
      refine ⟨z, hz, Or.inr ?_⟩
      rcases hz' with rfl | hz'
      · exact .single h
      · exact .tail hz' h
  have end_ : ∀ {x y}, Relation.TransGen (Restricts T) x y → (∀ d, ¬ Restricts T y d) → ∀ z, Restricts T x z →
      z = y ∨ Relation.TransGen (Restricts T) z y := by
    intro x y h _ z hz
    obtain ⟨z', hz', h'⟩ := first h
    rw [restricts_unique hz hz']; exact h'
  obtain ⟨h1, e1⟩ := h1
  obtain ⟨h2, e2⟩ := h2
  rcases h1 with rfl | h1
  · rcases h2 with rfl | h2
    · rfl
    · obtain ⟨z, hz, -⟩ := first h2; exact absurd hz (e1 z)
  · have : ∀ y, (i = y ∨ Relation.TransGen (Restricts T) i y) → y = b ∨ Relation.TransGen (Restricts T) y b := by
      intro y hy
      rcases hy with rfl | hy
      · exact Or.inr h1
      · induction hy with
        | single h => exact end_ h1 e1 _ h
        | tail _ h ih =>
          rcases ih with rfl | ih
          · exact absurd h (e1 _)
          · exact end_ ih e1 _ h
    rcases this c h2 with rfl | h
    · rfl
    · obtain ⟨z, hz, -⟩ := first h; exact absurd hz (e2 z)

/-- What the pass makes of a definition. -/
theorem useUnrestricted_get {f : BaseFlags} {n : Nat} {T T' : Types} (h : useUnrestricted f n T = some T') (i : Ident)
    (ty : MetaType) (hi : Assoc.get T i = some ty) :
    ∃ ty', Assoc.get T' i = some ty' ∧ unrestrict f n T (i, ty) = some (i, ty') := by
  have key : ∀ (l l' : Types), l.mapM (unrestrict f n T) = some l' → Assoc.get l i = some ty →
      ∃ ty', Assoc.get l' i = some ty' ∧ unrestrict f n T (i, ty) = some (i, ty') := by
    intro l
    induction l with
    | nil => intro l' _ hg; simp [Assoc.get] at hg
    | cons p l ih =>
      intro l' hm hg
      simp only [List.mapM_cons, Option.bind_eq_bind, Option.bind_eq_some_iff, Option.pure_def, Option.some.injEq] at hm
      obtain ⟨q, hq, l₂, hl, rfl⟩ := hm
      have hk : q.1 = p.1 := by
        unfold unrestrict at hq
        split at hq
        · obtain ⟨b, -, hb⟩ := Option.map_eq_some_iff.1 hq
          rw [← hb]; split <;> rfl
        · cases hq; rfl
      obtain ⟨a, ty₁⟩ := p
      obtain ⟨a', ty₂⟩ := q
      simp only at hk
      subst hk
      by_cases ha : a' = i
      · subst ha
        simp only [Assoc.get, if_pos, Option.some.injEq] at hg ⊢
        subst hg
        exact ⟨ty₂, rfl, hq⟩
      · simp only [Assoc.get, if_neg ha] at hg ⊢
        exact ih l₂ hl hg
  exact key T T' h hi

theorem useUnrestricted_none {f : BaseFlags} {n : Nat} {T T' : Types} (h : useUnrestricted f n T = some T') :
    Assoc.keys T' = Assoc.keys T := by
  have key : ∀ (l l' : Types), l.mapM (unrestrict f n T) = some l' → Assoc.keys l' = Assoc.keys l := by
    intro l
    induction l with
    | nil => intro l' hm; simp at hm; subst hm; rfl
    | cons p l ih =>
      intro l' hm
      simp only [List.mapM_cons, Option.bind_eq_bind, Option.bind_eq_some_iff, Option.pure_def, Option.some.injEq] at hm
      obtain ⟨q, hq, l₂, hl, rfl⟩ := hm
      have hk : q.1 = p.1 := by
        unfold unrestrict at hq
        split at hq
        · obtain ⟨b, -, hb⟩ := Option.map_eq_some_iff.1 hq
          rw [← hb]; split <;> rfl
        · cases hq; rfl
      have := ih l₂ hl
      simp only [Assoc.keys, List.map_cons] at this ⊢
      rw [hk, this]
  exact key T T' h

/-! ## Theorems -/

theorem chosen_iff (f : BaseFlags) (v : Variant) : Chosen f v ↔ mayReplace f v = true := by
  constructor
  · rintro (h | ⟨h, h'⟩ | h | h) <;> simp_all [mayReplace]
  · intro h
    cases v <;> simp only [mayReplace, Bool.false_eq_true, Bool.and_eq_true, Bool.not_eq_true'] at h
    case union => exact .union h
    case enumeration => exact .enumeration h
    case complex => exact .complex h
    case simple => exact .simple h.2 h.1

/-- C56: exactly the chosen definitions that restrict another one are replaced, by a synonym of the type that remains when
all restrictions are undone; all other definitions stay. -/
theorem C56_exactly_restricted_replaced (f : BaseFlags) (n : Nat) (T T' : Types) (h : useUnrestricted f n T = some T')
    (i : Ident) (v : Variant) (hi : look T i = some v) :
    (Chosen f v → ∀ c, Restricts T i c →
      ∃ b, Unrestricted T i b ∧ look T' i = some (.reference (.new b))) ∧
    (¬ Chosen f v ∨ (∀ c, ¬ Restricts T i c) → look T' i = some v) := by
  rw [chosen_iff, Bool.not_eq_true]
  obtain ⟨ty, hg, rfl⟩ := look_iff.1 hi
  obtain ⟨ty', hg', hu⟩ := useUnrestricted_get h i ty hg
  constructor
  · intro hm c hc
    simp only [unrestrict, hm, if_true] at hu
    obtain ⟨b, hb, he⟩ := Option.map_eq_some_iff.1 hu
    have hub := getUnrestricted_spec hb
    refine ⟨b, hub, ?_⟩
    rw [if_pos (by rintro rfl; exact hub.2 c hc)] at he
    simp only [Prod.mk.injEq, true_and] at he
    subst he
    exact look_of hg' rfl
  · intro hm
    have : ty' = ty := by
      unfold unrestrict at hu
      by_cases hr : mayReplace f ty.variant = true
      · rcases hm with hm | hm
        · rw [hm] at hr; cases hr
        · simp only [hr, if_true] at hu
          obtain ⟨b, hb, he⟩ := Option.map_eq_some_iff.1 hu
          cases n with
          | zero => cases hb
          | succ n =>
            rw [getUnrestricted_stop hm] at hb
            cases hb
            simp at he
            exact he.symm
      · simp only [hr] at hu
        simp at hu
        exact hu.symm
    subst this
    exact look_of hg' rfl

/-- C56: no name is added or lost. -/
theorem C56_same_names (f : BaseFlags) (n : Nat) (T T' : Types) (h : useUnrestricted f n T = some T') :
    Assoc.keys T' = Assoc.keys T := useUnrestricted_none h

/-- C56: the pass ends if no type restricts itself. -/
theorem C56_ends (f : BaseFlags) (T : Types) (hl : NoLoop (Restricts T)) (n : Nat) (hn : T.length < n) :
    ∃ T', useUnrestricted f n T = some T' := by
  obtain ⟨rank, hr, hb⟩ := rank_of_noLoop (Restricts T) (Assoc.keys T) (by
    rintro i k ⟨v, hv, -⟩
    obtain ⟨ty, h1, -⟩ := look_iff.1 hv
    exact List.mem_map.2 ⟨(i, ty), Assoc.mem_of_get h1, rfl⟩) hl
  have hone : ∀ p, ∃ q, unrestrict f n T p = some q := by
    intro p
    unfold unrestrict
    split
    · have := hb p.1
      simp only [Assoc.keys, List.length_map] at this
      obtain ⟨b, hb⟩ := getUnrestricted_total rank hr n p.1 (by omega)
      rw [hb]; exact ⟨_, rfl⟩
    · exact ⟨p, rfl⟩
  have : ∀ l : Types, ∃ l', l.mapM (unrestrict f n T) = some l' := by
    intro l
    induction l with
    | nil => exact ⟨[], rfl⟩
    | cons p l ih =>
      obtain ⟨q, hq⟩ := hone p
      obtain ⟨l', hl⟩ := ih
      exact ⟨q :: l', by simp [hq, hl]⟩
  exact this T

/-! ## The documents that are accepted -/

mutual
def nodeSize : Node → Nat
  | .elem _ _ _ kids => 2 + nodesSize kids
  | .text _ => 1
def nodesSize : List Node → Nat
  | [] => 0
  | n :: ns => nodeSize n + nodesSize ns
end

theorem nodesSize_append (a b : List Node) : nodesSize (a ++ b) = nodesSize a + nodesSize b := by
  induction a with
  | nil => simp [nodesSize]
  | cons n a ih => simp only [List.cons_append, nodesSize, ih]; omega

theorem nodesSize_elemsOnly (a : List Node) : nodesSize (elemsOnly a) ≤ nodesSize a := by
  induction a with
  | nil => simp [elemsOnly]
  | cons n a ih =>
    unfold elemsOnly at ih ⊢
    simp only [List.filter_cons]
    cases n <;> simp [nodesSize] <;> omega

def judgeSize : Judge → Nat
  | .text _ _ => 0
  | .value _ _ _ kids => 1 + nodesSize kids
  | .group _ ns => nodesSize ns
  | .particle _ ns => nodesSize ns
  | .times _ _ ns => nodesSize ns
  | .inOrder _ ns => nodesSize ns
  | .groupTimes _ _ ns => nodesSize ns

/-- The particle's group is of lower rank. -/
def Below (r : Ident → Nat) (m : Nat) (e : Element) : Prop := ∀ i, e.variant = .type_ i .group → r i < m

def JudgeBelow (r : Ident → Nat) (m : Nat) : Judge → Prop
  | .particle e _ => Below r m e
  | .times e _ _ => Below r m e
  | .inOrder es _ => ∀ e ∈ es, Below r m e
  | .groupTimes i _ _ => r i < m
  | _ => False

/-- Particles are accepted if the smaller judgements about types are. -/
theorem keep_particles {P : Lex} {T T' : Types} (r : Ident → Nat) (n m : Nat)
    (ih : ∀ j i, j.head = some i → judgeSize j < n ∨ (judgeSize j ≤ n ∧ r i < m) → Valid P T j → Valid P T' j) {j : Judge}
    (h : Valid P T j) (hj : judgeSize j ≤ n) (hb : JudgeBelow r m j) : Valid P T' j := by
  induction h with
  | noTimes => exact .noTimes
  | @oneMore i k a b h1 h2 _ ih2 =>
    simp only [judgeSize, nodesSize_append] at hj
    exact .oneMore (ih _ i rfl (Or.inr ⟨by simp only [judgeSize]; omega, hb⟩) h1)
      (ih2 (by simp only [judgeSize]; omega) hb)
  | @element e i xsi as kids h1 h2 _ =>
    refine .element h1 (ih _ i rfl (Or.inl ?_) h2)
    simp only [judgeSize, nodesSize, nodeSize] at hj ⊢
    omega
  | @nested e i ns h1 h2 _ => exact .nested h1 (ih _ i rfl (Or.inr ⟨hj, hb i h1⟩) h2)
  | wildcard h1 h2 => exact .wildcard h1 h2
  | textNode h1 => exact .textNode h1
  | zero => exact .zero
  | @succ e k a b h1 h2 ih1 ih2 =>
    simp only [judgeSize, nodesSize_append] at hj
    exact .succ (ih1 (by simp only [judgeSize]; omega) hb) (ih2 (by simp only [judgeSize]; omega) hb)
  | nil => exact .nil
  | @cons e es k a b h1 h2 h3 ih1 ih2 =>
    simp only [judgeSize, nodesSize_append] at hj
    exact .cons h1 (ih1 (by simp only [judgeSize]; omega) (hb e (by simp)))
      (ih2 (by simp only [judgeSize]; omega) (fun e' he' => hb e' (List.mem_cons_of_mem _ he')))
  | _ => exact hb.elim

theorem valid_simple_inv {P : Lex} {T : Types} {i : Ident} {x : Simple} (hl : look T i = some (.simple x))
    (hx : x.isList = false) :
    (∀ s, Valid P T (.text i s) → Valid P T (.text x.base s)) ∧
    (∀ xsi as kids, Valid P T (.value i xsi as kids) → Valid P T (.value x.base xsi as kids)) ∧
    (∀ ns, Valid P T (.group i ns) → Valid P T (.group x.base ns)) := by
  have txt : ∀ s, Valid P T (.text i s) → Valid P T (.text x.base s) := by
    intro s h
    have h := h.step
    cases h with
    | simpleText h1 h2 h3 h4 => rw [hl] at h1; cases h1; exact h4
    | simpleListText h1 h2 h3 h4 => rw [hl] at h1; cases h1; rw [hx] at h2; cases h2
    | refText h1 => rw [hl] at h1; cases h1
    | listText h1 => rw [hl] at h1; cases h1
    | unionText h1 => rw [hl] at h1; cases h1
    | builtInText h1 => rw [hl] at h1; cases h1
    | customText h1 => rw [hl] at h1; cases h1
    | literalText h1 => rw [hl] at h1; cases h1
    | variantText h1 => rw [hl] at h1; cases h1
  refine ⟨txt, fun xsi as kids h => ?_, fun ns h => ?_⟩
  · have h := h.step
    cases h with
    | textValue h' => exact .textValue (txt _ h')
    | refValue h1 => rw [hl] at h1; cases h1
    | customValue h1 => rw [hl] at h1; cases h1
    | dynamicValue h1 => rw [hl] at h1; cases h1
    | emptyValue h1 => rw [hl] at h1; cases h1
    | simpleValue h1 => rw [hl] at h1; cases h1
    | complexValue h1 => rw [hl] at h1; cases h1
  · have h := h.step
    cases h with
    | refGroup h1 => rw [hl] at h1; cases h1
    | sequence h1 => rw [hl] at h1; cases h1
    | choice h1 => rw [hl] at h1; cases h1
    | all h1 => rw [hl] at h1; cases h1
    | substitution h1 => rw [hl] at h1; cases h1
    | complexGroup h1 => rw [hl] at h1; cases h1

/-- The judgement about another type. -/
def atType (b : Ident) : Judge → Judge
  | .text _ s => .text b s
  | .value _ x as kids => .value b x as kids
  | .group _ ns => .group b ns
  | j => j

theorem atType_size (b : Ident) (j : Judge) : judgeSize (atType b j) = judgeSize j := by
  cases j <;> rfl

/-- The base accepts what the restricted type accepts. -/
theorem narrow_chain {P : Lex} {f : BaseFlags} {T : Types} (hN : Narrows P f T) (hL : NoListBase T) {i b : Ident}
    {v : Variant} (hlk : look T i = some v) (hch : Chosen f v)
    (h : Relation.TransGen (Restricts T) i b) (hi : ∀ x, look T i = some (.simple x) → x.isList = false) :
    (∀ x, look T b = some (.simple x) → x.isList = false) ∧
    ∀ j, j.head = some i → Valid P T j → Valid P T (atType b j) := by
  have one : ∀ a c, (i = a ∨ Relation.TransGen (Restricts T) i a) → Restricts T a c → (∀ x, look T a = some (.simple x) → x.isList = false) →
      (∀ x, look T c = some (.simple x) → x.isList = false) ∧
      ∀ j, j.head = some a → Valid P T j → Valid P T (atType c j) := by
    intro a c hia hac ha
    by_cases hs : ∃ x, look T a = some (.simple x)
    · obtain ⟨x, hx⟩ := hs
      have hc : x.base = c := by
        obtain ⟨v, hv, hd, -⟩ := hac
        rw [hx] at hv; cases hv
        simpa [declaredBase] using hd
      subst hc
      obtain ⟨h1, h2, h3⟩ := valid_simple_inv (P := P) hx (ha x hx)
      refine ⟨fun y hy => hL a x y hx (ha x hx) hy, fun j hj hv => ?_⟩
      cases j <;> simp only [Judge.head, Option.some.injEq, reduceCtorEq] at hj <;> subst hj
      · exact h1 _ hv
      · exact h2 _ _ _ hv
      · exact h3 _ hv
    · obtain ⟨h1, h2, h3⟩ := hN a c ⟨i, v, hlk, hch, hia⟩ hac (fun x hx => hs ⟨x, hx⟩)
      refine ⟨fun y hy => ?_, fun j hj hv => ?_⟩
      · obtain ⟨v, hv, -, ⟨x, rfl⟩ | ⟨w, hw, hk⟩⟩ := hac
        · exact absurd ⟨x, hv⟩ hs
        · rw [hy] at hw; cases hw
          cases v <;> simp [SameKind] at hk
      · cases j <;> simp only [Judge.head, Option.some.injEq, reduceCtorEq] at hj <;> subst hj
        · exact h1 _ hv
        · exact h2 _ _ _ hv
        · exact h3 _ hv
  induction h with
  | single h => exact one _ _ (.inl rfl) h hi
  | tail h' h ih =>
    obtain ⟨g1, g2⟩ := ih
    obtain ⟨k1, k2⟩ := one _ _ (.inr h') h g1
    refine ⟨k1, fun j hj hv => ?_⟩
    have := k2 _ (by cases j <;> simp only [Judge.head, Option.some.injEq, reduceCtorEq] at hj <;> rfl) (g2 j hj hv)
    cases j <;> simp only [Judge.head, Option.some.injEq, reduceCtorEq] at hj <;> exact this

/-- C56: no document that was accepted is rejected afterwards. Assumed is that the declared restrictions are restrictions,
that no type is used in its own definition (with no element in between) or base, and that no simple type restricts a list.
Missing: restrictions of lists, see `C56_restricted_list_lost`. -/
theorem C56_accepts_no_less_partial (P : Lex) (f : BaseFlags) (n : Nat) (T T' : Types)
    (h : useUnrestricted f n T = some T') (hN : Narrows P f T) (hL : NoListBase T)
    (hl : NoLoop (fun a b => Uses T a b ∨ Restricts T a b)) (j : Judge) (hv : Valid P T j) : Valid P T' j := by
  obtain ⟨r, hr, -⟩ := rank_of_noLoop (fun a b => Uses T a b ∨ Restricts T a b) (Assoc.keys T) (by
    rintro i k (h | ⟨v, hv, -⟩)
    · obtain ⟨v, hv⟩ := h.defined
      obtain ⟨ty, h1, -⟩ := look_iff.1 hv
      exact List.mem_map.2 ⟨(i, ty), Assoc.mem_of_get h1, rfl⟩
    · obtain ⟨ty, h1, -⟩ := look_iff.1 hv
      exact List.mem_map.2 ⟨(i, ty), Assoc.mem_of_get h1, rfl⟩) hl
  have hchain : ∀ i b, Relation.TransGen (Restricts T) i b → r b < r i := by
    intro i b h
    induction h with
    | single h => exact hr _ _ (Or.inr h)
    | tail _ h ih => exact Nat.lt_trans (hr _ _ (Or.inr h)) ih
  have main : ∀ n m j i, j.head = some i → judgeSize j ≤ n → r i < m → Valid P T j → Valid P T' j := by
    intro n
    induction n using Nat.strongRecOn with
    | ind n ihn =>
      intro m
      induction m with
      | zero => intro j i _ _ h _; omega
      | succ m ihm =>
        intro j i hj hsz hri hv
        have ih : ∀ j' i', j'.head = some i' → judgeSize j' < n ∨ (judgeSize j' ≤ n ∧ r i' < r i) →
            Valid P T j' → Valid P T' j' := by
          intro j' i' hj' hc hv'
          rcases hc with hc | ⟨hc, hc'⟩
          · exact ihn (judgeSize j') hc (r i' + 1) j' i' hj' (Nat.le_refl _) (Nat.lt_succ_self _) hv'
          · exact ihm j' i' hj' hc (by omega) hv'
        have inner : ∀ j', Valid P T j' → judgeSize j' ≤ n → JudgeBelow r (r i) j' → Valid P T' j' :=
          fun j' hv' hs hb => keep_particles r n (r i) ih hv' hs hb
        have inner' : ∀ j' k, Valid P T j' → judgeSize j' < n → (∃ g q ns, j' = .groupTimes g q ns) → k = j' → Valid P T' j' := by
          rintro j' k hv' hs ⟨g, q, ns, rfl⟩ -
          refine keep_particles r (judgeSize (.groupTimes g q ns)) (r g + 1) ?_ hv' (Nat.le_refl _) (Nat.lt_succ_self _)
          intro j'' i'' hj'' hc hv''
          exact ihn (judgeSize (.groupTimes g q ns)) hs (r i'' + 1) j'' i'' hj'' (by omega) (Nat.lt_succ_self _) hv''
        cases hlk : look T i with
        | none =>
          have hs := hv.step
          have hne : ∀ v, look T i ≠ some v := by simp [hlk]
          cases hs with
          | textValue hR =>
            simp only [Judge.head, Option.some.injEq] at hj; subst hj
            exact .textValue (ih _ _ rfl (Or.inl (by simp only [judgeSize, nodesSize, nodeSize] at hsz ⊢; omega)) hR)
          | noTimes => cases hj
          | oneMore => cases hj
          | element => cases hj
          | nested => cases hj
          | wildcard => cases hj
          | textNode => cases hj
          | zero => cases hj
          | succ => cases hj
          | nil => cases hj
          | cons => cases hj
          | _ => simp only [Judge.head, Option.some.injEq] at hj; subst hj; exact absurd (by assumption) (hne _)
        | some v =>
          by_cases hrep : mayReplace f v = true ∧ ∃ c, Restricts T i c
          · obtain ⟨hm, c, hc⟩ := hrep
            obtain ⟨b, hub, hb⟩ := (C56_exactly_restricted_replaced f _ T T' h i v hlk).1 ((chosen_iff f v).2 hm) c hc
            have hlist : ∀ x, look T i = some (.simple x) → x.isList = false := by
              intro x hx
              rw [hlk] at hx; cases hx
              simp only [mayReplace, Bool.and_eq_true, Bool.not_eq_true'] at hm
              exact hm.1
            have hch : Relation.TransGen (Restricts T) i b := by
              rcases hub.1 with rfl | h
              · exact absurd hc (hub.2 c)
              · exact h
            have hvb := (narrow_chain hN hL hlk ((chosen_iff f v).2 hm) hch hlist).2 j hj hv
            have hh : (atType b j).head = some b := by
              cases j <;> simp only [Judge.head, Option.some.injEq, reduceCtorEq] at hj <;> rfl
            have hvb' := ih (atType b j) b hh (Or.inr ⟨by rw [atType_size]; exact hsz, hchain i b hch⟩) hvb
            obtain ⟨ty, g1, g2⟩ := look_iff.1 hb
            cases j <;> simp only [Judge.head, Option.some.injEq, reduceCtorEq] at hj <;> subst hj
            · exact .refText g1 g2 rfl rfl hvb'
            · exact .refValue g1 g2 rfl rfl hvb'
            · exact .refGroup g1 g2 rfl rfl hvb'
          · have hsame : look T' i = look T i := by
              rw [hlk]
              refine (C56_exactly_restricted_replaced f _ T T' h i v hlk).2 ?_
              cases hm : mayReplace f v with
              | false => exact Or.inl (fun hc => by rw [chosen_iff, hm] at hc; cases hc)
              | true => exact Or.inr (fun c hc => hrep ⟨hm, c, hc⟩)
            have u : ∀ k, Uses T i k → r k < r i := fun k hk => hr i k (Or.inl hk)
            have hs := hv.step
            apply Step.valid
            cases hs with
            | refText h1 h2 h3 h4 =>
              cases hj
              rw [← hsame] at h1
              exact .refText h1 h2 h3 (ih _ _ rfl (Or.inr ⟨by simp [judgeSize], u _ (.reference (hsame ▸ h1))⟩) h4)
            | listText h1 h2 h3 h4 =>
              cases hj
              rw [← hsame] at h1
              exact .listText h1 h2 h3 (fun w hw =>
                ih _ _ rfl (Or.inr ⟨by simp [judgeSize], u _ (.reference (hsame ▸ h1))⟩) (h4 w hw))
            | unionText h1 h2 h3 h4 =>
              cases hj
              rw [← hsame] at h1
              exact .unionText h1 h2 h3 (ih _ _ rfl (Or.inr ⟨by simp [judgeSize], u _ (.member (hsame ▸ h1) h2)⟩) h4)
            | builtInText h1 h2 => cases hj; exact .builtInText (hsame ▸ h1) h2
            | customText h1 h2 => cases hj; exact .customText (hsame ▸ h1) h2
            | literalText h1 h2 h3 h4 => cases hj; exact .literalText (hsame ▸ h1) h2 h3 h4
            | variantText h1 h2 h3 h4 =>
              cases hj
              rw [← hsame] at h1
              exact .variantText h1 h2 h3 (ih _ _ rfl (Or.inr ⟨by simp [judgeSize], u _ (.variant (hsame ▸ h1) h2 h3)⟩) h4)
            | simpleText h1 h2 h3 h4 =>
              cases hj
              rw [← hsame] at h1
              exact .simpleText h1 h2 h3 (ih _ _ rfl (Or.inr ⟨by simp [judgeSize], u _ (.simple (hsame ▸ h1))⟩) h4)
            | simpleListText h1 h2 h3 h4 =>
              cases hj
              rw [← hsame] at h1
              exact .simpleListText h1 h2 h3 (fun w hw =>
                ih _ _ rfl (Or.inr ⟨by simp [judgeSize], u _ (.simple (hsame ▸ h1))⟩) (h4 w hw))
            | refValue h1 h2 h3 h4 =>
              cases hj
              rw [← hsame] at h1
              exact .refValue h1 h2 h3 (ih _ _ rfl (Or.inr ⟨hsz, u _ (.reference (hsame ▸ h1))⟩) h4)
            | textValue h1 =>
              cases hj
              exact .textValue (ih _ _ rfl (Or.inl (by simp only [judgeSize, nodesSize, nodeSize] at hsz ⊢; omega)) h1)
            | customValue h1 h2 => cases hj; exact .customValue (hsame ▸ h1) h2
            | dynamicValue h1 h2 h3 h4 =>
              cases hj
              rw [← hsame] at h1
              exact .dynamicValue h1 h2 h3 (ih _ _ rfl (Or.inr ⟨hsz, u _ (.derived (hsame ▸ h1) h2)⟩) h4)
            | emptyValue h1 h2 h3 h4 =>
              cases hj
              exact .emptyValue (hsame ▸ h1) h2 h3 (fun a ha t ht w hw =>
                ih _ _ rfl (Or.inl (by simp only [judgeSize] at hsz ⊢; omega)) (h4 a ha t ht w hw))
            | simpleValue h1 h2 h3 h4 h5 =>
              cases hj
              exact .simpleValue (hsame ▸ h1) h2 h3 (fun a ha t ht w hw =>
                ih _ _ rfl (Or.inl (by simp only [judgeSize] at hsz ⊢; omega)) (h4 a ha t ht w hw))
                (ih _ _ rfl (Or.inl (by simp only [judgeSize] at hsz ⊢; omega)) h5)
            | complexValue h1 h2 h3 h4 h5 h6 =>
              cases hj
              refine .complexValue (hsame ▸ h1) h2 h3 (fun a ha t ht w hw =>
                ih _ _ rfl (Or.inl (by simp only [judgeSize] at hsz ⊢; omega)) (h4 a ha t ht w hw)) h5
                (inner' _ _ h6 ?_ ⟨_, _, _, rfl⟩ rfl)
              rename_i kids
              have := nodesSize_elemsOnly kids
              simp only [judgeSize] at hsz ⊢
              split <;> omega
            | refGroup h1 h2 h3 h4 =>
              cases hj
              rw [← hsame] at h1
              exact .refGroup h1 h2 h3 (ih _ _ rfl (Or.inr ⟨hsz, u _ (.reference (hsame ▸ h1))⟩) h4)
            | sequence h1 h2 =>
              cases hj
              rw [← hsame] at h1
              exact .sequence h1 (inner _ h2 hsz (fun e he k hk => u k (.sequence (hsame ▸ h1) he hk)))
            | choice h1 h2 h3 h4 =>
              cases hj
              rw [← hsame] at h1
              exact .choice h1 h2 h3 (inner _ h4 hsz (fun k hk => u k (.choice (hsame ▸ h1) h2 hk)))
            | all h1 h2 h3 =>
              cases hj
              rw [← hsame] at h1
              exact .all h1 h2 (inner _ h3 hsz (fun e he k hk => u k (.all (hsame ▸ h1) ((h2.mem_iff).1 he) hk)))
            | substitution h1 h2 h3 =>
              cases hj
              exact .substitution (hsame ▸ h1) h2
                (ih _ _ rfl (Or.inl (by simp only [judgeSize, nodesSize, nodeSize] at hsz ⊢; omega)) h3)
            | complexGroup h1 h2 h3 h4 =>
              cases hj
              rw [← hsame] at h1
              exact .complexGroup h1 h2 h3 (inner _ h4 hsz (u _ (.content (hsame ▸ h1) h2)))
            | noTimes => cases hj
            | oneMore => cases hj
            | element => cases hj
            | nested => cases hj
            | wildcard => cases hj
            | textNode => cases hj
            | zero => cases hj
            | succ => cases hj
            | nil => cases hj
            | cons => cases hj
  cases hj : j.head with
  | some i => exact main (judgeSize j) (r i + 1) j i hj (Nat.le_refl _) (Nat.lt_succ_self _) hv
  | none =>
    -- a judgement about particles: its types are covered by `main`
    have all : ∀ j' i', j'.head = some i' → Valid P T j' → Valid P T' j' :=
      fun j' i' hj' hv' => main (judgeSize j') (r i' + 1) j' i' hj' (Nat.le_refl _) (Nat.lt_succ_self _) hv'
    clear hj
    induction hv with
    | noTimes => exact .noTimes
    | oneMore h1 _ _ ih2 => exact .oneMore (all _ _ rfl h1) ih2
    | element h1 h2 => exact .element h1 (all _ _ rfl h2)
    | nested h1 h2 => exact .nested h1 (all _ _ rfl h2)
    | wildcard h1 h2 => exact .wildcard h1 h2
    | textNode h1 => exact .textNode h1
    | zero => exact .zero
    | succ _ _ ih1 ih2 => exact .succ ih1 ih2
    | nil => exact .nil
    | cons h1 _ _ ih1 ih2 => exact .cons h1 ih1 ih2
    | refText h1 h2 h3 h4 h5 => exact all _ _ rfl (.refText h1 h2 h3 h4 h5)
    | listText h1 h2 h3 h4 h5 => exact all _ _ rfl (.listText h1 h2 h3 h4 h5)
    | unionText h1 h2 h3 h4 h5 => exact all _ _ rfl (.unionText h1 h2 h3 h4 h5)
    | builtInText h1 h2 h3 => exact all _ _ rfl (.builtInText h1 h2 h3)
    | customText h1 h2 h3 => exact all _ _ rfl (.customText h1 h2 h3)
    | literalText h1 h2 h3 h4 h5 => exact all _ _ rfl (.literalText h1 h2 h3 h4 h5)
    | variantText h1 h2 h3 h4 h5 => exact all _ _ rfl (.variantText h1 h2 h3 h4 h5)
    | simpleText h1 h2 h3 h4 h5 => exact all _ _ rfl (.simpleText h1 h2 h3 h4 h5)
    | simpleListText h1 h2 h3 h4 h5 => exact all _ _ rfl (.simpleListText h1 h2 h3 h4 h5)
    | refValue h1 h2 h3 h4 h5 => exact all _ _ rfl (.refValue h1 h2 h3 h4 h5)
    | textValue h1 => exact all _ _ rfl (.textValue h1)
    | customValue h1 h2 h3 => exact all _ _ rfl (.customValue h1 h2 h3)
    | dynamicValue h1 h2 h3 h4 h5 => exact all _ _ rfl (.dynamicValue h1 h2 h3 h4 h5)
    | emptyValue h1 h2 h3 h4 h5 => exact all _ _ rfl (.emptyValue h1 h2 h3 h4 h5)
    | simpleValue h1 h2 h3 h4 h5 h6 => exact all _ _ rfl (.simpleValue h1 h2 h3 h4 h5 h6)
    | complexValue h1 h2 h3 h4 h5 h6 h7 => exact all _ _ rfl (.complexValue h1 h2 h3 h4 h5 h6 h7)
    | refGroup h1 h2 h3 h4 h5 => exact all _ _ rfl (.refGroup h1 h2 h3 h4 h5)
    | sequence h1 h2 h3 => exact all _ _ rfl (.sequence h1 h2 h3)
    | choice h1 h2 h3 h4 h5 => exact all _ _ rfl (.choice h1 h2 h3 h4 h5)
    | all h1 h2 h3 h4 => exact all _ _ rfl (.all h1 h2 h3 h4)
    | substitution h1 h2 h3 h4 => exact all _ _ rfl (.substitution h1 h2 h3 h4)
    | complexGroup h1 h2 h3 h4 h5 => exact all _ _ rfl (.complexGroup h1 h2 h3 h4 h5)

/-! ## Examples and counterexamples -/

def enumOf (b : Base) (vs : List String) : MetaType :=
  .new (.enumeration ⟨b, vs.map fun s => ⟨⟨0, .named s.toList⟩, .optional, none, none, [], none⟩, .default⟩)

/-- `B` restricts `A`, `A` restricts the built-in `S`; `F` = {"x"} restricts `E` = {"x", "y"}. -/
def exRestr : Types :=
  [(exId "S", .new (.buildIn .string)),
   (exId "A", .new (.simple ⟨exId "S", false, .default⟩)),
   (exId "B", .new (.simple ⟨exId "A", false, .default⟩)),
   (exId "E", enumOf .none ["x", "y"]),
   (exId "F", enumOf (.restr (exId "E")) ["x"])]

theorem exRestr_restricts (i b : Ident) : Restricts exRestr i b ↔
    (i, b) ∈ [(exId "A", exId "S"), (exId "B", exId "A"), (exId "F", exId "E")] := by
  rw [← baseEntry_iff]
  constructor
  · intro h
    cases hl : look exRestr i with
    | none => rw [hl] at h; cases h
    | some v =>
      obtain ⟨ty, hg, rfl⟩ := look_iff.1 hl
      rw [hl] at h
      have hall : ∀ p ∈ exRestr, ∀ b ∈ (match baseEntry exRestr p.2.variant with | some (.restr b) => [b] | _ => []),
          (p.1, b) ∈ [(exId "A", exId "S"), (exId "B", exId "A"), (exId "F", exId "E")] := by decide +kernel
      refine hall (i, ty) (Assoc.mem_of_get hg) b ?_
      simp only [Option.bind_some] at h
      rw [h]; simp
  · intro h
    simp only [List.mem_cons, Prod.mk.injEq, List.not_mem_nil, or_false] at h
    rcases h with ⟨rfl, rfl⟩ | ⟨rfl, rfl⟩ | ⟨rfl, rfl⟩ <;> decide +kernel

theorem exRestr_uses (i k : Ident) (h : Uses exRestr i k) : (i, k) ∈ [(exId "A", exId "S"), (exId "B", exId "A")] := by
  have hall : ∀ p ∈ exRestr, (∃ b, p.2.variant = .buildIn b) ∨ (∃ x, p.2.variant = .enumeration x ∧ ∀ w ∈ x.variants, w.type_ = none) ∨
      (∃ x, p.2.variant = .simple x ∧ (p.1, x.base) ∈ [(exId "A", exId "S"), (exId "B", exId "A")]) := by
    intro p hp
    simp only [exRestr, List.mem_cons, List.not_mem_nil, or_false] at hp
    rcases hp with rfl | rfl | rfl | rfl | rfl
    · exact Or.inl ⟨_, rfl⟩
    · exact Or.inr (Or.inr ⟨_, rfl, by decide +kernel⟩)
    · exact Or.inr (Or.inr ⟨_, rfl, by decide +kernel⟩)
    · exact Or.inr (Or.inl ⟨_, rfl, by decide +kernel⟩)
    · exact Or.inr (Or.inl ⟨_, rfl, by decide +kernel⟩)
  have at_ : ∀ v, look exRestr i = some v → (∃ b, v = .buildIn b) ∨
      (∃ x, v = .enumeration x ∧ ∀ w ∈ x.variants, w.type_ = none) ∨
      (∃ x, v = .simple x ∧ (i, x.base) ∈ [(exId "A", exId "S"), (exId "B", exId "A")]) := by
    intro v hv
    obtain ⟨ty, hg, rfl⟩ := look_iff.1 hv
    exact hall (i, ty) (Assoc.mem_of_get hg)
  cases h with
  | simple hl =>
    rcases at_ _ hl with ⟨b, h⟩ | ⟨x, h, -⟩ | ⟨x, h, h'⟩ <;> cases h
    exact h'
  | variant hl hw ht =>
    rcases at_ _ hl with ⟨b, h⟩ | ⟨x, h, h'⟩ | ⟨x, h, -⟩ <;> cases h
    rw [h' _ hw] at ht; cases ht
  | _ => rename_i hl; exact absurd (at_ _ (by assumption)) (by simp)

/-- The hypotheses of the theorems hold for the example, for every meaning of built-in types and facets. -/
example (P : Lex) (f : BaseFlags) : Narrows P f exRestr ∧ NoListBase exRestr ∧ NoLoop (Restricts exRestr) ∧
    NoLoop (fun a b => Uses exRestr a b ∨ Restricts exRestr a b) := by
  have hE : look exRestr (exId "E") = some (enumOf .none ["x", "y"]).variant := by decide +kernel
  have hF : look exRestr (exId "F") = some (enumOf (.restr (exId "E")) ["x"]).variant := by decide +kernel
  have hloop : NoLoop (fun a b => Uses exRestr a b ∨ Restricts exRestr a b) := by
    refine noLoop_of_rank _ (fun i => if i = exId "B" then 2 else if i = exId "A" then 1 else if i = exId "F" then 1 else 0) ?_
    intro a b h
    have hm : (a, b) ∈ [(exId "A", exId "S"), (exId "B", exId "A"), (exId "F", exId "E")] := by
      rcases h with h | h
      · have := exRestr_uses a b h
        simp only [List.mem_cons, List.not_mem_nil, or_false] at this ⊢
        rcases this with h | h
        · exact Or.inl h
        · exact Or.inr (Or.inl h)
      · exact (exRestr_restricts a b).1 h
    have hall : ∀ p ∈ [(exId "A", exId "S"), (exId "B", exId "A"), (exId "F", exId "E")],
        (fun i => if i = exId "B" then 2 else if i = exId "A" then 1 else if i = exId "F" then 1 else 0) p.2 <
        (fun i => if i = exId "B" then 2 else if i = exId "A" then 1 else if i = exId "F" then 1 else 0) p.1 := by
      decide +kernel
    exact hall (a, b) hm
  refine ⟨?_, ?_, ?_, hloop⟩
  · intro i b _ h hns
    have hm := (exRestr_restricts i b).1 h
    simp only [List.mem_cons, Prod.mk.injEq, List.not_mem_nil, or_false] at hm
    rcases hm with ⟨rfl, rfl⟩ | ⟨rfl, rfl⟩ | ⟨rfl, rfl⟩
    · exact absurd (show look exRestr (exId "A") = some (.simple ⟨exId "S", false, .default⟩) by decide +kernel) (hns _)
    · exact absurd (show look exRestr (exId "B") = some (.simple ⟨exId "A", false, .default⟩) by decide +kernel) (hns _)
    · obtain ⟨ty, g1, g2⟩ := look_iff.1 hE
      have txt : ∀ s, Valid P exRestr (.text (exId "F") s) → Valid P exRestr (.text (exId "E") s) := by
        intro s hv
        rcases hv.step.enumeration rfl hF with ⟨v, s', he, hv, h⟩ | ⟨s', x, he, -⟩
        · cases he
          simp only [List.map_cons, List.map_nil, List.mem_cons, List.not_mem_nil, or_false] at hv
          subst hv
          rcases h with ⟨-, h⟩ | ⟨t, h, -⟩
          · exact .literalText g1 g2 (by simp) rfl h
          · cases h
        · cases he
      refine ⟨txt, fun x as kids hv => ?_, fun ns hv => ?_⟩
      · rcases hv.step.enumeration rfl hF with ⟨v, s', he, -⟩ | ⟨s', x, he, h⟩
        · cases he
        · cases he; exact .textValue (txt _ h)
      · rcases hv.step.enumeration rfl hF with ⟨v, s', he, -⟩ | ⟨s', x, he, h⟩ <;> cases he
  · intro i x y hi _ hy
    obtain ⟨ty, hg, hv⟩ := look_iff.1 hy
    have hall : ∀ p ∈ exRestr, ∀ y, p.2.variant = .simple y → y.isList = false := by
      intro p hp y hy
      simp only [exRestr, List.mem_cons, List.not_mem_nil, or_false] at hp
      rcases hp with rfl | rfl | rfl | rfl | rfl <;> cases hy <;> rfl
    exact hall (x.base, ty) (Assoc.mem_of_get hg) y hv
  · intro a h
    refine hloop a ?_
    generalize hb : a = b at h
    have : ∀ x y, Relation.TransGen (Restricts exRestr) x y →
        Relation.TransGen (fun a b => Uses exRestr a b ∨ Restricts exRestr a b) x y := by
      intro x y h
      induction h with
      | single h => exact .single (Or.inr h)
      | tail _ h ih => exact .tail ih (Or.inr h)
    subst hb
    exact this _ _ h

/-- The pass on the example. -/
example : useUnrestricted ⟨true, true, true, true⟩ 6 exRestr = some
    [(exId "S", .new (.buildIn .string)),
     (exId "A", .new (.reference (.new (exId "S")))),
     (exId "B", .new (.reference (.new (exId "S")))),
     (exId "E", enumOf .none ["x", "y"]),
     (exId "F", .new (.reference (.new (exId "E"))))] := by decide +kernel

/-- `M` restricts the list `L` of numbers. -/
def exListBase (c : Constrains) : Types :=
  [(exId "N", .new (.buildIn .u8)),
   (exId "L", .new (.simple ⟨exId "N", true, .default⟩)),
   (exId "M", .new (.simple ⟨exId "L", false, c⟩))]

/-- C56 (negation): a restriction of a list becomes a synonym of the type of the items, and rejects the list. -/
theorem C56_restricted_list_lost (P : Lex) (c : Constrains) (s : Txt) (hc : P.facets c s) (hd : P.facets .default s)
    (hw : ∀ w ∈ P.words s, P.builtIn .u8 w) (hs : ¬ P.builtIn .u8 s) :
    ∃ T', useUnrestricted ⟨false, true, false, false⟩ 4 (exListBase c) = some T' ∧
      Valid P (exListBase c) (.text (exId "M") s) ∧ ¬ Valid P T' (.text (exId "M") s) := by
  refine ⟨[(exId "N", .new (.buildIn .u8)),
    (exId "L", .new (.simple ⟨exId "N", true, .default⟩)),
    (exId "M", .new (.reference (.new (exId "N"))))], rfl, ?_, ?_⟩
  · exact .simpleText (ty := .new (.simple ⟨exId "L", false, c⟩)) rfl rfl rfl hc
      (.simpleListText (ty := .new (.simple ⟨exId "N", true, .default⟩)) rfl rfl rfl hd
        (fun w h => .builtInText (ty := .new (.buildIn .u8)) rfl rfl (hw w h)))
  · intro hv
    have hv := hv.step
    have hM : look [(exId "N", .new (.buildIn .u8)), (exId "L", .new (.simple ⟨exId "N", true, .default⟩)),
      (exId "M", .new (.reference (.new (exId "N"))))] (exId "M") = some (.reference (.new (exId "N"))) := rfl
    have hN : look [(exId "N", .new (.buildIn .u8)), (exId "L", .new (.simple ⟨exId "N", true, .default⟩)),
      (exId "M", .new (.reference (.new (exId "N"))))] (exId "N") = some (.buildIn .u8) := rfl
    cases hv with
    | refText h1 h2 h3 h4 =>
      rw [hM] at h1; cases h1
      have h4 := h4.step
      generalize hr : (Reference.new (exId "N")).type_ = k at h4
      have hk : k = exId "N" := hr.symm
      subst hk
      cases h4 with
      | builtInText h1 h2 => rw [hN] at h1; cases h1; exact hs h2
      | refText h1 => rw [hN] at h1; cases h1
      | listText h1 => rw [hN] at h1; cases h1
      | unionText h1 => rw [hN] at h1; cases h1
      | customText h1 => rw [hN] at h1; cases h1
      | literalText h1 => rw [hN] at h1; cases h1
      | variantText h1 => rw [hN] at h1; cases h1
      | simpleText h1 => rw [hN] at h1; cases h1
      | simpleListText h1 => rw [hN] at h1; cases h1
    | listText h1 h2 => rw [hM] at h1; cases h1; exact h2 ⟨rfl, rfl⟩
    | unionText h1 => rw [hM] at h1; cases h1
    | builtInText h1 => rw [hM] at h1; cases h1
    | customText h1 => rw [hM] at h1; cases h1
    | literalText h1 => rw [hM] at h1; cases h1
    | variantText h1 => rw [hM] at h1; cases h1
    | simpleText h1 => rw [hM] at h1; cases h1
    | simpleListText h1 => rw [hM] at h1; cases h1

/-- C56 (negation): for a type that restricts itself the recursion never ends. -/
theorem C56_self_restriction_never_ends (f : BaseFlags) (hf : f.simple = true) (n : Nat) :
    useUnrestricted f n [(exId "A", .new (.simple ⟨exId "A", false, .default⟩))] = none := by
  have : ∀ n, getUnrestricted [(exId "A", .new (.simple ⟨exId "A", false, .default⟩))] n (exId "A") = none := by
    intro n
    induction n with
    | zero => rfl
    | succ n ih =>
      rw [getUnrestricted_step (b := exId "A") ⟨_, rfl, rfl, Or.inl ⟨_, rfl⟩⟩]
      exact ih
  simp only [useUnrestricted, List.mapM_cons, unrestrict, MetaType.new, mayReplace, hf, Bool.not_false, Bool.and_self, if_true]
  have h := this n
  simp only [MetaType.new] at h
  rw [h]; rfl

end Verif.Opt

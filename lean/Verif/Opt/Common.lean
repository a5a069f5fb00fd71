import Verif.Opt.Duplicates
import Verif.Meta.Step
import Verif.Util.Rank
/-!
# Common parts of the optimizer passes

All files cited are in `xsd-parser/src/pipeline/optimizer`.
-/
namespace Verif.Opt

open Verif.Meta

/-- `Error`, mod.rs (the variants used by the modelled passes). -/
inductive OptErr where
  | unknownType (i : Ident)
  | expectedUnion (i : Ident)
  | expectedComplexType (i : Ident)
  | expectedDynamicElement (i : Ident)
  | expectedDynamicType (i : Ident)
  | missingContentType (i : Ident)
  | expectedComplexChoice (i : Ident)
  | expectedChoiceContent (i : Ident)
  | mismatchingVariants
deriving DecidableEq, Repr

/-- The outcome of a pass: a value, an error that is returned, a panic (`unwrap`, `unreachable!`), or a recursion that is
not finished within the fuel (`diverged`). -/
inductive Res (α : Type) where
  | ok (a : α)
  | err (e : OptErr)
  | panic
  | diverged
deriving DecidableEq

/-- `Result::unwrap`. -/
def Res.unwrap {α : Type} : Res α → Res α
  | .ok a => .ok a
  | .err _ => .panic
  | .panic => .panic
  | .diverged => .diverged

/-- `for ident in idents { self = self.step(ident).unwrap(); }`, as in flatten_unions.rs:60-78. -/
def forEach {α β : Type} (f : α → β → Res α) : α → List β → Res α
  | a, [] => .ok a
  | a, b :: bs =>
    match (f a b).unwrap with
    | .ok a' => forEach f a' bs
    | r => r

/-- `let ty = self.types.items.get_mut(&ident).unwrap(); ty.variant = v`. -/
def setVariant (T : Types) (i : Ident) (v : Variant) : Types :=
  T.map fun p => if p.1 = i then (p.1, { p.2 with variant := v }) else p

theorem get_setVariant (T : Types) (i : Ident) (v : Variant) (k : Ident) :
    Assoc.get (setVariant T i v) k =
      if k = i then (Assoc.get T i).map (fun ty => { ty with variant := v }) else Assoc.get T k := by
  induction T with
  | nil => simp [setVariant, Assoc.get]
  | cons p T ih =>
    obtain ⟨a, ty⟩ := p
    simp only [setVariant, List.map_cons] at ih ⊢
    by_cases hai : a = i
    · subst hai
      simp only [if_true]
      by_cases hk : k = a
      · subst hk; simp [Assoc.get]
      · have hk' : a ≠ k := fun h => hk h.symm
        simp only [if_neg hk] at ih ⊢
        simp only [Assoc.get, List.find?_cons] at ih ⊢
        simp only [beq_iff_eq, hk', decide_false, Bool.false_eq_true] at ih ⊢
        exact ih
    · simp only [if_neg hai]
      by_cases hk : a = k
      · subst hk; simp [Assoc.get, hai]
      · simp only [Assoc.get, List.find?_cons] at ih ⊢
        simp only [beq_iff_eq, hk, hai, decide_false, Bool.false_eq_true] at ih ⊢
        exact ih

theorem look_setVariant (T : Types) (i : Ident) (v : Variant) (k : Ident) :
    look (setVariant T i v) k = if k = i then (look T i).map (fun _ => v) else look T k := by
  simp only [look, get_setVariant]
  split
  · simp only [Option.map_map, Function.comp_def]
  · rfl

theorem keys_setVariant (T : Types) (i : Ident) (v : Variant) : Assoc.keys (setVariant T i v) = Assoc.keys T := by
  simp only [Assoc.keys, setVariant, List.map_map]
  apply List.map_congr_left
  intro p _
  simp only [Function.comp_def]
  split <;> rfl

theorem synonym_look {T : Types} {i k : Ident} :
    Synonym T i k ↔ ∃ v, look T i = some v ∧ v.target = some k := by
  rw [synonym_iff]
  constructor
  · rintro ⟨ty, h1, h2⟩; exact ⟨_, look_of h1 rfl, h2⟩
  · rintro ⟨v, h1, h2⟩
    obtain ⟨ty, h3, rfl⟩ := look_iff.1 h1
    exact ⟨ty, h3, h2⟩

theorem synonym_congr {T T' : Types} {i : Ident} (h : look T i = look T' i) (k : Ident) :
    Synonym T i k ↔ Synonym T' i k := by
  rw [synonym_look, synonym_look, h]

end Verif.Opt

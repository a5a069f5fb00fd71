import Verif.Opt.ChoiceCard
import Verif.Opt.EnumUnions
import Verif.Opt.Mixed
import Verif.Opt.Typedefs
import Verif.Opt.UnionMembers
import Verif.Opt.Empty
import Verif.Opt.Unrestricted
/-!
# The optimizer as an object: its passes, its caches and the order of `exec_optimizer` (C68)

Models `Optimizer` (`xsd-parser/src/pipeline/optimizer/mod.rs`), which keeps two maps between the calls of its passes: the
map of the bases and the map of the typedefs. Both are built when they are needed for the first time; a pass that turns a
type into a typedef drops the map of the typedefs. Models `exec_optimizer` (`xsd-parser/src/lib.rs:257-330`) too.
-/
namespace Verif.Opt

open Verif.Meta
open Verif.Naming (Name)

/-! ## Model -/

/-- `Optimizer`, mod.rs:47-56. A map is given by the table it was built from (`BaseMap::new`, base_map.rs:11-51, and
`TypedefMap::new`, typedef_map.rs:12-24, are functions of the table). -/
structure Session where
  types : Types
  bases : Option Types
  typedefs : Option Types

/-- `Optimizer::new`, mod.rs:152-159. -/
def Session.new (T : Types) : Session := ⟨T, none, none⟩

/-- The passes of the optimizer. The names made by the name builder and the order of a hash set are parameters. -/
inductive Pass where
  | unrestricted (f : BaseFlags)
  | replaceAnyType (any : Ident)
  | emptyVariants
  | emptyEnums
  | mergeDynamics
  | convertDynamics (names : Nat → Name)
  | flattenComplex
  | flattenUnions
  | mergeEnumUnions
  | resolveTypedefs
  | duplicateMembers
  | emptyUnions
  | duplicates
  | mergeChoices
  | simplifyMixed (order : Types → List Ident)

/-- The identifier of `xs:anyType`, replace_xs_any_type_with_any_element.rs:47-61: its namespace is the first one among the
modules (id and namespace) that is the XML schema namespace; `NamespaceId::ANONYMOUS` is 1, `SchemaId::UNKNOWN` is 0. -/
def anyTypeIdent (modules : List (Nat × Option Txt)) : Ident :=
  let ns := (modules.find? fun m => m.2 == some "http://www.w3.org/2001/XMLSchema".toList).map (·.1)
  ⟨ns.getD 1, 0, .named "anyType".toList, .type_⟩

/-- `Optimizer::replace_xs_any_type`, replace_xs_any_type_with_any_element.rs:43-72. -/
def replaceAnyType (any : Ident) (T : Types) : Types := setVariant T any (.custom "AnyElement".toList)

/-- `Optimizer::resolve_typedefs`, resolve_typedefs.rs:27-103, with the map of the typedefs of `S`. The recursion of
`TypedefMap::resolve` has no check for loops, so a name that does not resolve means that the pass does not end. -/
def resolveWith (S T : Types) : Res Types :=
  if T.all fun p => (rewritten p.2.variant).all fun i => (tdResolveF S (S.length + 1) i).isSome then
    .ok (T.map fun p => (p.1, { p.2 with variant := shortVariant (tdResolve S) p.2.variant }))
  else .diverged

/-- The members of a union. -/
def memberTypes : Variant → List Ident
  | .union u => u.types.map (·.type_)
  | _ => []

/-- `Optimizer::remove_duplicate_union_variants`, empty_unions.rs:29-51, with the map of the typedefs of `S`. -/
def dedupWith (S T : Types) : Res Types :=
  if T.all fun p => (memberTypes p.2.variant).all fun i => (tdResolveF S (S.length + 1) i).isSome then
    .ok (T.map fun p => (p.1, { p.2 with variant := dedupVariant (tdResolve S) p.2.variant }))
  else .diverged

/-- `Optimizer::use_unrestricted_base_type`, unrestricted_base.rs:51-78, with the map of the bases of `B`. -/
def unrestrictWith (f : BaseFlags) (fuel : Nat) (B T : Types) : Res Types :=
  match T.mapM (unrestrict f fuel B) with
  | some T' => .ok T'
  | none => .diverged

/-- A type is replaced, unrestricted_base.rs:67-72. -/
def anyUnrestricted (f : BaseFlags) (fuel : Nat) (B T : Types) : Bool :=
  T.any fun p => mayReplace f p.2.variant && getUnrestricted B fuel p.1 != some p.1

/-- A type is replaced, empty_enums.rs:68-72. -/
def anyEmptyEnum (T : Types) : Bool :=
  T.any fun p => match p.2.variant with
    | .enumeration x => x.variants.isEmpty && x.base.ident.isSome
    | _ => false

/-- A type is replaced, empty_unions.rs:77-82. -/
def anySmallUnion (T : Types) : Bool :=
  T.any fun p => match p.2.variant with
    | .union x => decide (x.types.length ≤ 1) && ((x.types.head?.map (·.type_)).or x.base.ident).isSome
    | _ => false

def ofOption {α : Type} : Option α → Res α
  | some a => .ok a
  | none => .diverged

def Res.map {α β : Type} (g : α → β) : Res α → Res β
  | .ok a => .ok (g a)
  | .err e => .err e
  | .panic => .panic
  | .diverged => .diverged

/-- One call of a pass. `get_bases!` and `get_typedefs!`, mod.rs:128-147, build a map if there is none; the assignments
`self.typedefs = None` are in unrestricted_base.rs:70, empty_enums.rs:70, empty_unions.rs:80 and remove_duplicates.rs:102.
No pass drops the map of the bases. -/
def Pass.run (fuel : Nat) (s : Session) : Pass → Res Session
  | .unrestricted f =>
    let B := s.bases.getD s.types
    (unrestrictWith f fuel B s.types).map fun T =>
      ⟨T, some B, if anyUnrestricted f fuel B s.types then none else s.typedefs⟩
  | .replaceAnyType any => .ok { s with types := Opt.replaceAnyType any s.types }
  | .emptyVariants => .ok { s with types := removeEmptyEnumVariants s.types }
  | .emptyEnums =>
    .ok { s with types := removeEmptyEnums s.types, typedefs := if anyEmptyEnum s.types then none else s.typedefs }
  | .mergeDynamics => (Opt.mergeDynamics fuel s.types).map fun T => { s with types := T }
  | .convertDynamics names => (Opt.convertDynamics names s.types).map fun T => { s with types := T }
  | .flattenComplex => (flattenAll fuel s.types).map fun T => { s with types := T }
  | .flattenUnions => (Opt.flattenUnions fuel s.types).map fun T => { s with types := T }
  | .mergeEnumUnions => (Opt.mergeEnumUnions fuel s.types).map fun T => { s with types := T }
  | .resolveTypedefs =>
    let S := s.typedefs.getD s.types
    (resolveWith S s.types).map fun T => { s with types := T, typedefs := some S }
  | .duplicateMembers =>
    let S := s.typedefs.getD s.types
    (dedupWith S s.types).map fun T => { s with types := T, typedefs := some S }
  | .emptyUnions =>
    .ok { s with types := removeEmptyUnions s.types, typedefs := if anySmallUnion s.types then none else s.typedefs }
  | .duplicates =>
    (ofOption (removeDuplicates fuel s.types)).map fun T =>
      { s with types := T, typedefs := if (findDups s.types).isEmpty then s.typedefs else none }
  | .mergeChoices => (Opt.mergeChoices s.types).map fun T => { s with types := T }
  | .simplifyMixed order => (simplifyMixedTypes s.types (order s.types)).map fun T => { s with types := T }

/-- Calls of passes one after the other. -/
def runAll (fuel : Nat) : List Pass → Session → Res Session
  | [], s => .ok s
  | p :: ps, s =>
    match p.run fuel s with
    | .ok s' => runAll fuel ps s'
    | r => r

/-- `OptimizerFlags`, config/optimizer.rs:29-132. -/
structure OptFlags where
  removeEmptyEnumVariants : Bool := false
  removeEmptyEnums : Bool := false
  removeDuplicateUnionVariants : Bool := false
  removeEmptyUnions : Bool := false
  unrestrictedComplex : Bool := false
  unrestrictedSimple : Bool := false
  unrestrictedEnum : Bool := false
  unrestrictedUnion : Bool := false
  convertDynamicToChoice : Bool := false
  flattenComplexTypes : Bool := false
  flattenUnions : Bool := false
  mergeEnumUnions : Bool := false
  resolveTypedefs : Bool := false
  removeDuplicates : Bool := false
  mergeChoiceCardinalities : Bool := false
  simplifyMixedTypes : Bool := false
  replaceXsAnyType : Bool := false
  mergeDynamicTypes : Bool := false

/-- `OptimizerConfig::default`, config/optimizer.rs:15-26. -/
def OptFlags.default : OptFlags :=
  { removeEmptyEnumVariants := true, removeEmptyEnums := true, removeDuplicateUnionVariants := true,
    removeEmptyUnions := true, unrestrictedSimple := true }

/-- The parameters of the passes: the identifier of `xs:anyType`, the generated names, the order of the hash set. -/
structure Env where
  any : Ident
  names : Nat → Name
  order : Types → List Ident

/-- The macro `exec!`, lib.rs:263-269. -/
def ifFlag (b : Bool) (p : Pass) : List Pass := if b then [p] else []

/-- `unrestricted_base`, lib.rs:271-282. -/
def OptFlags.bases (F : OptFlags) : BaseFlags :=
  ⟨F.unrestrictedComplex, F.unrestrictedSimple, F.unrestrictedEnum, F.unrestrictedUnion⟩

/-- The calls made by `exec_optimizer`, lib.rs:284-317, in this order. -/
def OptFlags.passes (F : OptFlags) (env : Env) : List Pass :=
  ifFlag (F.unrestrictedComplex || F.unrestrictedSimple || F.unrestrictedEnum || F.unrestrictedUnion)
    (.unrestricted F.bases) ++
  ifFlag F.replaceXsAnyType (.replaceAnyType env.any) ++
  ifFlag F.removeEmptyEnumVariants .emptyVariants ++
  ifFlag F.removeEmptyEnums .emptyEnums ++
  ifFlag F.mergeDynamicTypes .mergeDynamics ++
  ifFlag F.convertDynamicToChoice (.convertDynamics env.names) ++
  ifFlag F.flattenComplexTypes .flattenComplex ++
  ifFlag F.flattenUnions .flattenUnions ++
  ifFlag F.mergeEnumUnions .mergeEnumUnions ++
  ifFlag F.resolveTypedefs .resolveTypedefs ++
  ifFlag F.removeDuplicateUnionVariants .duplicateMembers ++
  ifFlag F.removeEmptyUnions .emptyUnions ++
  ifFlag F.removeDuplicates .duplicates ++
  ifFlag F.resolveTypedefs .resolveTypedefs ++
  ifFlag F.removeEmptyEnumVariants .emptyVariants ++
  ifFlag F.removeEmptyEnums .emptyEnums ++
  ifFlag F.removeDuplicateUnionVariants .duplicateMembers ++
  ifFlag F.removeEmptyUnions .emptyUnions ++
  ifFlag F.mergeChoiceCardinalities .mergeChoices ++
  ifFlag F.simplifyMixedTypes (.simplifyMixed env.order)

/-- `exec_optimizer`, lib.rs:257-330, without the debug output. -/
def execOptimizer (fuel : Nat) (F : OptFlags) (env : Env) (T : Types) : Res Types :=
  (runAll fuel (F.passes env) (.new T)).map (·.types)

/-! ## Specification -/

/-- What a pass does when all maps are built anew: the passes as functions from tables to tables. -/
def Pass.fresh (fuel : Nat) (T : Types) : Pass → Res Types
  | .unrestricted f => unrestrictWith f fuel T T
  | .replaceAnyType any => .ok (Opt.replaceAnyType any T)
  | .emptyVariants => .ok (removeEmptyEnumVariants T)
  | .emptyEnums => .ok (removeEmptyEnums T)
  | .mergeDynamics => Opt.mergeDynamics fuel T
  | .convertDynamics names => Opt.convertDynamics names T
  | .flattenComplex => flattenAll fuel T
  | .flattenUnions => Opt.flattenUnions fuel T
  | .mergeEnumUnions => Opt.mergeEnumUnions fuel T
  | .resolveTypedefs => resolveWith T T
  | .duplicateMembers => dedupWith T T
  | .emptyUnions => .ok (removeEmptyUnions T)
  | .duplicates => ofOption (removeDuplicates fuel T)
  | .mergeChoices => Opt.mergeChoices T
  | .simplifyMixed order => simplifyMixedTypes T (order T)

def freshAll (fuel : Nat) : List Pass → Types → Res Types
  | [], T => .ok T
  | p :: ps, T =>
    match p.fresh fuel T with
    | .ok T' => freshAll fuel ps T'
    | r => r

/-- The pass looks at the bases of the types. -/
def Pass.ReadsBases : Pass → Prop
  | .unrestricted _ => True
  | _ => False

/-- The pass looks at the typedefs. -/
def Pass.ReadsTypedefs : Pass → Prop
  | .resolveTypedefs | .duplicateMembers => True
  | _ => False

/-! ## Proofs -/

/-- Following the typedefs of `T` from `i` ends in `j`. -/
def Ends (T : Types) (i j : Ident) : Prop := ∃ n, tdResolveF T n i = some j

def target (T : Types) (i : Ident) : Option Ident := (look T i).bind (·.target)

theorem target_eq (T : Types) (i : Ident) : (Assoc.get T i).bind (·.variant.target) = target T i := by
  unfold target look
  cases Assoc.get T i <;> rfl

theorem tdResolveF_succ (T : Types) (n : Nat) (i : Ident) :
    tdResolveF T (n + 1) i = match target T i with | none => some i | some k => tdResolveF T n k := by
  rw [tdResolveF, target_eq]
  cases target T i <;> rfl

theorem tdResolveF_mono {T : Types} {n : Nat} {i j : Ident} (h : tdResolveF T n i = some j) (m : Nat) (hm : n ≤ m) :
    tdResolveF T m i = some j := by
  induction n generalizing i m with
  | zero => cases h
  | succ n ih =>
    obtain ⟨m, rfl⟩ : ∃ k, m = k + 1 := ⟨m - 1, by omega⟩
    rw [tdResolveF_succ] at h ⊢
    cases ht : target T i with
    | none => rw [ht] at h; exact h
    | some k => rw [ht] at h; exact ih h m (by omega)

/-- The names that are passed on the way to the end. -/
theorem tdResolveF_path {T : Types} (n : Nat) (i j : Ident) (h1 : tdResolveF T (n + 1) i = some j)
    (h0 : tdResolveF T n i = none) :
    ∃ p : List Ident, p.length = n ∧ p.Nodup ∧ ∀ x ∈ p, x ∈ Assoc.keys T ∧ tdResolveF T (n + 1) x = some j := by
  induction n generalizing i with
  | zero => exact ⟨[], rfl, List.nodup_nil, by simp⟩
  | succ n ih =>
    have h1' := h1
    rw [tdResolveF_succ] at h1 h0
    cases ht : target T i with
    | none => rw [ht] at h0; cases h0
    | some k =>
      rw [ht] at h1 h0
      obtain ⟨p, hp, hn, hk⟩ := ih k h1 h0
      refine ⟨i :: p, by simp [hp], List.nodup_cons.2 ⟨fun hi => ?_, hn⟩, ?_⟩
      · have := (hk i hi).2
        rw [tdResolveF_succ, ht] at this
        have h0 : tdResolveF T n k = none := h0
        rw [show tdResolveF T n k = some j from this] at h0
        cases h0
      · intro x hx
        rcases List.mem_cons.1 hx with rfl | hx
        · refine ⟨?_, h1'⟩
          rw [← target_eq] at ht
          cases hg : Assoc.get T x with
          | none => rw [hg] at ht; cases ht
          | some ty => exact List.mem_map.2 ⟨_, Assoc.mem_of_get hg, rfl⟩
        · exact ⟨(hk x hx).1, tdResolveF_mono (hk x hx).2 _ (by omega)⟩

theorem least_fuel {T : Types} {i j : Ident} (n : Nat) (h : tdResolveF T n i = some j) :
    ∃ m, tdResolveF T (m + 1) i = some j ∧ tdResolveF T m i = none := by
  induction n with
  | zero => cases h
  | succ n ih =>
    cases h0 : tdResolveF T n i with
    | none => exact ⟨n, h, h0⟩
    | some k =>
      have := tdResolveF_mono h0 (n + 1) (by omega)
      rw [h] at this
      cases this
      exact ih h0

/-- The depth that the model allows is always enough. -/
theorem ends_iff {T : Types} {i j : Ident} : tdResolveF T (T.length + 1) i = some j ↔ Ends T i j := by
  constructor
  · exact fun h => ⟨_, h⟩
  · rintro ⟨n, h⟩
    obtain ⟨m, h1, h0⟩ := least_fuel n h
    obtain ⟨p, hp, hn, hk⟩ := tdResolveF_path m i j h1 h0
    have := nodup_length_le (m := Assoc.keys T) hn (fun x hx => (hk x hx).1)
    simp only [Assoc.keys, List.length_map] at this
    exact tdResolveF_mono h1 _ (by omega)

/-- The typedefs of `S` lead to the same ends as those of `T`. -/
def SameEnds (S T : Types) : Prop := ∀ i j, Ends S i j ↔ Ends T i j

theorem SameEnds.trans {A B C : Types} (h : SameEnds A B) (h' : SameEnds B C) : SameEnds A C :=
  fun i j => (h i j).trans (h' i j)

theorem SameEnds.resolve {S T : Types} (h : SameEnds S T) (i : Ident) :
    tdResolveF S (S.length + 1) i = tdResolveF T (T.length + 1) i := by
  apply Option.ext
  intro j
  rw [ends_iff, ends_iff, h]

theorem SameEnds.resolveWith {S T : Types} (h : SameEnds S T) : resolveWith S T = resolveWith T T := by
  have h1 : tdResolve S = tdResolve T := by funext i; simp only [tdResolve, h.resolve]
  simp only [Opt.resolveWith, h1, h.resolve]

theorem SameEnds.dedupWith {S T : Types} (h : SameEnds S T) : dedupWith S T = dedupWith T T := by
  have h1 : tdResolve S = tdResolve T := by funext i; simp only [tdResolve, h.resolve]
  simp only [Opt.dedupWith, h1, h.resolve]

/-- The typedefs did not change. -/
def SameTargets (T T' : Types) : Prop := ∀ i, target T' i = target T i

theorem SameTargets.ends {T T' : Types} (h : SameTargets T T') : SameEnds T T' := by
  have : ∀ n i, tdResolveF T' n i = tdResolveF T n i := by
    intro n
    induction n with
    | zero => intro i; rfl
    | succ n ih =>
      intro i
      rw [tdResolveF_succ, tdResolveF_succ, h i]
      cases target T i with
      | none => rfl
      | some k => exact ih k
  intro i j
  simp only [Ends, this]

theorem sameTargets_refl (T : Types) : SameTargets T T := fun _ => rfl

theorem SameTargets.trans {A B C : Types} (h : SameTargets A B) (h' : SameTargets B C) : SameTargets A C :=
  fun i => (h' i).trans (h i)

theorem sameTargets_set {T : Types} {i : Ident} {v : Variant} (hv : v.target = none) (h : target T i = none) :
    SameTargets T (setVariant T i v) := by
  intro k
  simp only [target, look_setVariant]
  split
  · rename_i hk
    subst hk
    unfold target at h
    rw [h]
    cases look T k with
    | none => rfl
    | some w => exact hv
  · rfl

theorem target_of_look {T : Types} {i : Ident} {v : Variant} (h : look T i = some v) : target T i = v.target := by
  simp [target, h]

theorem forEach_ok {α β : Type} {f : α → β → Res α} {I : α → Prop} (hf : ∀ a b a', I a → f a b = .ok a' → I a')
    (l : List β) (a a' : α) (ha : I a) (h : forEach f a l = .ok a') : I a' := by
  induction l generalizing a with
  | nil => simp only [forEach] at h; cases h; exact ha
  | cons b bs ih =>
    simp only [forEach] at h
    cases hfb : f a b with
    | ok x => rw [hfb] at h; exact ih x (hf a b x ha hfb) h
    | err e => rw [hfb] at h; cases h
    | panic => rw [hfb] at h; cases h
    | diverged => rw [hfb] at h; cases h

theorem mergeDynamic_targets {fuel : Nat} {T T' : Types} {i : Ident} (h : mergeDynamic fuel T i = .ok T') :
    SameTargets T T' := by
  unfold mergeDynamic at h
  split at h
  · cases h
  · rename_i dm hl
    split at h
    · cases h; exact sameTargets_refl _
    · split at h
      · cases h
      · cases h; exact sameTargets_set rfl (target_of_look hl)
  · cases h

theorem flattenUnion_targets {fuel : Nat} {T T' : Types} {i : Ident} (h : flattenUnion fuel T i = .ok T') :
    SameTargets T T' := by
  unfold flattenUnion at h
  split at h
  · cases h
  · rename_i u hl
    split at h
    · cases h
    · cases h
      split
      · exact sameTargets_set rfl (target_of_look hl)
      · exact sameTargets_refl T
  · cases h

theorem mergeEnumUnion_targets {fuel : Nat} {T T' : Types} {i : Ident} (h : mergeEnumUnion fuel T i = .ok T') :
    SameTargets T T' := by
  unfold mergeEnumUnion at h
  split at h
  · cases h
  · rename_i u hl
    split at h
    · cases h
    · cases h; exact sameTargets_refl _
    · cases h; exact sameTargets_set rfl (target_of_look hl)
    · cases h; exact sameTargets_set rfl (target_of_look hl)
  · cases h

theorem sameTargets_set2 {T : Types} {g i : Ident} {v w : Variant} (hv : v.target = none) (hg : target T g = none)
    (hw : w.target = none) (hi : target T i = none) : SameTargets T (setVariant (setVariant T g v) i w) :=
  (sameTargets_set hv hg).trans (sameTargets_set hw ((sameTargets_set hv hg i).trans hi))

theorem mergeChoice_targets {T T' : Types} {i : Ident} (h : mergeChoice T i = .ok T') : SameTargets T T' := by
  unfold mergeChoice at h
  split at h
  · cases h
  · rename_i ty hg
    split at h
    · rename_i ci hv
      split at h
      · cases h
      · split at h
        · rename_i hl
          cases h
          exact sameTargets_set2 rfl (target_of_look hl) rfl (target_of_look (look_of hg hv))
        · cases h
    · cases h

theorem simplifyMixed_targets {T T' : Types} {i : Ident} (h : simplifyMixed T i = .ok T') : SameTargets T T' := by
  unfold simplifyMixed at h
  split at h
  · cases h
  · rename_i ci hi
    split at h
    · cases h
    · split at h
      · cases h
      · rename_i hl
        split at h
        · cases h
        · cases h; exact sameTargets_set2 rfl (target_of_look hl) rfl (target_of_look hi)
      · rename_i hl
        split at h
        · cases h; exact sameTargets_set2 rfl (target_of_look hl) rfl (target_of_look hi)
        · cases h
      · cases h
  · cases h

theorem flattenComplex_targets {fuel : Nat} {T T' : Types} {i : Ident} (h : flattenComplex fuel T i = .ok T') :
    SameTargets T T' := by
  unfold flattenComplex at h
  split at h
  · cases h
  · rename_i ci hi
    split at h
    · cases h
    · rename_i g hg
      split at h
      · rename_i b hb
        split at h
        · cases h; exact sameTargets_refl _
        · rename_i x hx
          cases h
          have hgt : target T g = none := by
            have := exec_group hb
            cases hl : look T g with
            | none => rw [hl] at this; exact absurd rfl this
            | some v =>
              rw [hl] at this
              rw [target_of_look hl]
              cases v <;> first | rfl | exact absurd rfl this
          have hs : SameTargets T (setType T g (.new (variantOf b.modeNew x))) := by
            intro k
            simp only [target, look_setType]
            split
            · rename_i hk
              subst hk
              unfold target at hgt
              rw [hgt]
              cases look T k with
              | none => rfl
              | some w =>
                show (variantOf b.modeNew x).target = none
                cases b.modeNew <;> rfl
            · rfl
          exact hs.trans (sameTargets_set rfl ((hs i).trans (target_of_look hi)))
      · cases h
      · cases h
      · cases h
  · cases h

theorem convertDynamic_targets {n : Name} {T T' : Types} {i : Ident} (h : convertDynamic n T i = .ok T') :
    SameTargets T T' := by
  unfold convertDynamic at h
  split at h
  · cases h
  · rename_i ty hg
    split at h
    · rename_i dm hv
      dsimp only at h
      split at h
      · cases h
      · rename_i hn
        cases h
        have hs := sameTargets_set (T := T) (i := i)
          (v := .complex ⟨.none, some (contentIdent n i), 1, .bounded 1, true, false, []⟩) rfl
          (target_of_look (look_of hg hv) |>.trans rfl)
        refine hs.trans fun k => ?_
        simp only [target, look, get_snoc]
        cases Assoc.get (setVariant T i
          (.complex ⟨.none, some (contentIdent n i), 1, .bounded 1, true, false, []⟩)) k with
        | some ty => rfl
        | none =>
          simp only [Option.none_or]
          split
          · simp only [MetaType.new]
            split <;> rfl
          · rfl
    · cases h

theorem convertEach_targets {names : Nat → Name} (l : List Ident) (k : Nat) (T T' : Types)
    (h : convertEach names k T l = .ok T') : SameTargets T T' := by
  induction l generalizing k T with
  | nil => simp only [convertEach] at h; cases h; exact sameTargets_refl _
  | cons i l ih =>
    simp only [convertEach] at h
    cases hc : convertDynamic (names k) T i with
    | ok x => rw [hc] at h; exact (convertDynamic_targets hc).trans (ih _ _ h)
    | err e => rw [hc] at h; exact ih _ _ h
    | panic => rw [hc] at h; cases h
    | diverged => rw [hc] at h; cases h

theorem mapVariant_targets (T : Types) (g : Variant → Variant) (hg : ∀ v, (g v).target = v.target) :
    SameTargets T (T.map fun p => (p.1, { p.2 with variant := g p.2.variant })) := by
  intro i
  simp only [target, look_mapVariant]
  cases look T i with
  | none => rfl
  | some v => exact hg v

theorem short_target (f : Ident → Ident) (v : Variant) : (shortVariant f v).target = v.target.map f := by
  cases v with
  | reference r =>
    simp only [shortVariant]
    by_cases h : r.isSingle = true
    · rw [if_pos h]
      simp only [Variant.target, Reference.isSimple]
      by_cases h2 : r.nillable = true <;> simp_all [Reference.isSingle]
    · rw [if_neg h]
      simp only [Variant.target, Reference.isSimple, Bool.eq_false_iff.2 h]
      rfl
  | _ => rfl

theorem ends_target {T : Types} {i j : Ident} (h : Ends T i j) : target T j = none := by
  obtain ⟨n, h⟩ := h
  induction n generalizing i with
  | zero => cases h
  | succ n ih =>
    rw [tdResolveF_succ] at h
    cases ht : target T i with
    | none => rw [ht] at h; cases h; exact ht
    | some k => rw [ht] at h; exact ih h

theorem ends_step {T : Types} {i k j : Ident} (h : target T i = some k) : Ends T i j ↔ Ends T k j := by
  constructor
  · rintro ⟨n, hn⟩
    cases n with
    | zero => cases hn
    | succ n => rw [tdResolveF_succ, h] at hn; exact ⟨n, hn⟩
  · rintro ⟨n, hn⟩
    exact ⟨n + 1, by rw [tdResolveF_succ, h]; exact hn⟩

theorem ends_here {T : Types} {i j : Ident} (h : target T i = none) : Ends T i j ↔ j = i := by
  constructor
  · rintro ⟨n, hn⟩
    cases n with
    | zero => cases hn
    | succ n => rw [tdResolveF_succ, h] at hn; cases hn; rfl
  · rintro rfl
    exact ⟨1, by rw [tdResolveF_succ, h]⟩

theorem resolveWith_ends {S T T' : Types} (hS : SameEnds S T) (h : resolveWith S T = .ok T') : SameEnds T T' := by
  unfold resolveWith at h
  split at h
  · rename_i hall
    cases h
    have ht : ∀ i, target (T.map fun p => (p.1, { p.2 with variant := shortVariant (tdResolve S) p.2.variant })) i =
        (target T i).map (tdResolve S) := by
      intro i
      simp only [target, look_mapVariant]
      cases look T i with
      | none => rfl
      | some v => exact short_target _ v
    generalize (T.map fun p => (p.1, { p.2 with variant := shortVariant (tdResolve S) p.2.variant })) = T' at ht ⊢
    intro i j
    cases hi : target T i with
    | none => rw [ends_here hi, ends_here (by rw [ht, hi]; rfl)]
    | some k =>
      have hk : ∃ e, Ends S k e := by
        have hi' := hi
        rw [← target_eq] at hi'
        cases hg : Assoc.get T i with
        | none => rw [hg] at hi'; cases hi'
        | some ty =>
          rw [hg] at hi'
          simp only [Option.bind_some] at hi'
          have h1 := List.all_eq_true.1 hall _ (Assoc.mem_of_get hg)
          have h2 : k ∈ rewritten ty.variant := by
            cases hv : ty.variant with
            | reference r =>
              rw [hv] at hi'
              simp only [Variant.target] at hi'
              split at hi'
              · rename_i hs
                cases hi'
                simp only [rewritten]
                rw [if_pos]
                · simp
                · have : (r.min = 1 ∧ r.max = .bounded 1) ∧ r.nillable = false := by
                    simpa [Reference.isSimple, Reference.isSingle] using hs
                  exact this.1
              · cases hi'
            | _ => rw [hv] at hi'; cases hi'
          have h3 := List.all_eq_true.1 h1 k h2
          obtain ⟨e, he⟩ := Option.isSome_iff_exists.1 h3
          exact ⟨e, ends_iff.1 he⟩
      obtain ⟨e, he⟩ := hk
      have heT := (hS k e).1 he
      have hr : tdResolve S k = e := by
        unfold tdResolve; rw [ends_iff.2 he]; rfl
      rw [ends_step (T := T) hi, ends_step (T := T') (k := e) (by rw [ht, hi]; simp [hr]),
        ends_here (T := T') (by rw [ht, ends_target heT]; rfl)]
      constructor
      · rintro ⟨n, hn⟩
        obtain ⟨m, hm⟩ := heT
        have h1 := tdResolveF_mono hn (max n m) (by omega)
        have h2 := tdResolveF_mono hm (max n m) (by omega)
        rw [h1] at h2; cases h2; rfl
      · rintro rfl; exact heT
  · cases h

theorem dedupWith_ends {S T T' : Types} (h : dedupWith S T = .ok T') : SameEnds T T' := by
  unfold dedupWith at h
  split at h
  · cases h
    exact (mapVariant_targets T _ (by intro v; cases v <;> rfl)).ends
  · cases h

theorem map_id_of {T : Types} {g : Variant → Variant} (h : ∀ p ∈ T, g p.2.variant = p.2.variant) :
    T.map (fun p => (p.1, { p.2 with variant := g p.2.variant })) = T := by
  conv => rhs; rw [← List.map_id T]
  apply List.map_congr_left
  intro p hp
  rw [h p hp]; rfl

theorem emptyEnums_same {T : Types} (h : anyEmptyEnum T = false) : removeEmptyEnums T = T := by
  apply map_id_of
  intro p hp
  have h1 := List.any_eq_false.1 h p hp
  cases hv : p.2.variant with
  | enumeration x =>
    rw [hv] at h1
    simp only [emptyEnumToRef]
    split
    · cases hb : x.base.ident with
      | none => rfl
      | some b => simp_all
    · rfl
  | _ => rfl

theorem emptyUnions_same {T : Types} (h : anySmallUnion T = false) : removeEmptyUnions T = T := by
  apply map_id_of
  intro p hp
  have h1 := List.any_eq_false.1 h p hp
  cases hv : p.2.variant with
  | union x =>
    rw [hv] at h1
    simp only [smallUnionToRef]
    split
    · cases hb : (x.types.head?.map (·.type_)).or x.base.ident with
      | none => rfl
      | some b => simp_all
    · rfl
  | _ => rfl

theorem unrestrict_same {f : BaseFlags} {fuel : Nat} {B T T' : Types} (h : anyUnrestricted f fuel B T = false)
    (hr : unrestrictWith f fuel B T = .ok T') : T' = T := by
  have : T.mapM (unrestrict f fuel B) = some T := by
    clear hr
    induction T with
    | nil => rfl
    | cons p T ih =>
      simp only [anyUnrestricted, List.any_cons, Bool.or_eq_false_iff] at h
      have hp : unrestrict f fuel B p = some p := by
        unfold unrestrict
        by_cases hm : mayReplace f p.2.variant = true
        · have : getUnrestricted B fuel p.1 = some p.1 := by simpa [hm] using h.1
          rw [if_pos hm, this]; simp
        · rw [if_neg hm]
      have := ih h.2
      simp [List.mapM_cons, hp, this]
  unfold unrestrictWith at hr
  rw [this] at hr
  cases hr; rfl

theorem duplicates_same {fuel : Nat} {T T' : Types} (h : (findDups T).isEmpty = true)
    (hr : ofOption (removeDuplicates fuel T) = .ok T') : T' = T := by
  cases fuel with
  | zero => cases hr
  | succ n =>
    rw [removeDuplicates, dupRound, if_pos h] at hr
    cases hr; rfl

/-- The pass replaces `xs:anyType`. -/
def Pass.ReplacesAny : Pass → Prop
  | .replaceAnyType _ => True
  | _ => False

/-- The map of the typedefs, if there is one, leads to the same ends as the current types. -/
def Session.Ok (s : Session) : Prop := ∀ S, s.typedefs = some S → SameEnds S s.types

theorem map_ok {α β : Type} {g : α → β} {r : Res α} {b : β} (h : r.map g = .ok b) : ∃ a, r = .ok a ∧ g a = b := by
  cases r <;> simp_all [Res.map]

theorem map_map {α β γ : Type} (g : α → β) (g' : β → γ) (r : Res α) : (r.map g).map g' = r.map (g' ∘ g) := by
  cases r <;> rfl

theorem map_id' {α : Type} (r : Res α) : r.map (fun a => a) = r := by cases r <;> rfl

theorem getD_same {s : Session} (h : s.Ok) : SameEnds (s.typedefs.getD s.types) s.types := by
  cases ht : s.typedefs with
  | none => exact fun _ _ => Iff.rfl
  | some S => exact h S ht

theorem ok_same {s : Session} (h : s.Ok) {T : Types} (hT : SameEnds s.types T) (S : Types)
    (hS : s.typedefs = some S) : SameEnds S T := (h S hS).trans hT

theorem run_step {fuel : Nat} {s : Session} (p : Pass) (h : s.Ok) (hb : s.bases = none ∨ ¬ p.ReadsBases)
    (ha : s.typedefs = none ∨ ¬ p.ReplacesAny) :
    (p.run fuel s).map (·.types) = p.fresh fuel s.types ∧
    ∀ s', p.run fuel s = .ok s' → s'.Ok ∧ (¬ p.ReadsBases → s'.bases = s.bases) ∧
      (¬ p.ReadsTypedefs → s.typedefs = none → s'.typedefs = none) := by
  cases p with
  | unrestricted f =>
    have hb : s.bases = none := hb.resolve_right (fun h => h trivial)
    simp only [Pass.run, Pass.fresh, hb, Option.getD_none, map_map]
    refine ⟨map_id' _, fun s' hs => ?_⟩
    obtain ⟨T, hT, rfl⟩ := map_ok hs
    refine ⟨fun S hS => ?_, fun h => absurd trivial h, fun _ h0 => ?_⟩
    · dsimp only at hS ⊢
      split at hS
      · cases hS
      · rename_i hn
        rw [unrestrict_same (by simpa using hn) hT]
        exact h S hS
    · dsimp only
      split
      · rfl
      · exact h0
  | replaceAnyType any =>
    have ha : s.typedefs = none := ha.resolve_right (fun h => h trivial)
    refine ⟨rfl, fun s' hs => ?_⟩
    cases hs
    refine ⟨fun S hS => ?_, fun _ => rfl, fun _ h0 => h0⟩
    rw [show s.typedefs = some S from hS] at ha; cases ha
  | emptyVariants =>
    refine ⟨rfl, fun s' hs => ?_⟩
    cases hs
    exact ⟨fun S hS => ok_same h (mapVariant_targets _ _ (by intro v; cases v <;> rfl)).ends S hS,
      fun _ => rfl, fun _ h0 => h0⟩
  | emptyEnums =>
    refine ⟨rfl, fun s' hs => ?_⟩
    cases hs
    refine ⟨fun S hS => ?_, fun _ => rfl, fun _ h0 => ?_⟩
    · dsimp only at hS ⊢
      split at hS
      · cases hS
      · rename_i hn
        rw [emptyEnums_same (by simpa using hn)]
        exact h S hS
    · dsimp only
      split
      · rfl
      · exact h0
  | emptyUnions =>
    refine ⟨rfl, fun s' hs => ?_⟩
    cases hs
    refine ⟨fun S hS => ?_, fun _ => rfl, fun _ h0 => ?_⟩
    · dsimp only at hS ⊢
      split at hS
      · cases hS
      · rename_i hn
        rw [emptyUnions_same (by simpa using hn)]
        exact h S hS
    · dsimp only
      split
      · rfl
      · exact h0
  | duplicates =>
    simp only [Pass.run, Pass.fresh, map_map]
    refine ⟨map_id' _, fun s' hs => ?_⟩
    obtain ⟨T, hT, rfl⟩ := map_ok hs
    refine ⟨fun S hS => ?_, fun _ => rfl, fun _ h0 => ?_⟩
    · dsimp only at hS ⊢
      split at hS
      · rename_i hn
        rw [duplicates_same hn hT]
        exact h S hS
      · cases hS
    · dsimp only
      split
      · exact h0
      · rfl
  | resolveTypedefs =>
    have hS := getD_same h
    simp only [Pass.run, Pass.fresh, map_map]
    refine ⟨(map_id' _).trans hS.resolveWith, fun s' hs => ?_⟩
    obtain ⟨T, hT, rfl⟩ := map_ok hs
    refine ⟨fun S h' => ?_, fun _ => rfl, fun hn => absurd trivial hn⟩
    cases h'
    exact hS.trans (resolveWith_ends hS hT)
  | duplicateMembers =>
    have hS := getD_same h
    simp only [Pass.run, Pass.fresh, map_map]
    refine ⟨(map_id' _).trans hS.dedupWith, fun s' hs => ?_⟩
    obtain ⟨T, hT, rfl⟩ := map_ok hs
    refine ⟨fun S h' => ?_, fun _ => rfl, fun hn => absurd trivial hn⟩
    cases h'
    exact hS.trans (dedupWith_ends hT)
  | mergeDynamics =>
    simp only [Pass.run, Pass.fresh, map_map]
    refine ⟨map_id' _, fun s' hs => ?_⟩
    obtain ⟨T, hT, rfl⟩ := map_ok hs
    refine ⟨fun S hS => ok_same h (SameTargets.ends ?_) S hS, fun _ => rfl, fun _ h0 => h0⟩
    exact tryEach_ok (I := fun T => SameTargets s.types T) (fun _ _ _ h h' => h.trans (mergeDynamic_targets h')) _ _ _
      (sameTargets_refl _) hT
  | convertDynamics names =>
    simp only [Pass.run, Pass.fresh, map_map]
    refine ⟨map_id' _, fun s' hs => ?_⟩
    obtain ⟨T, hT, rfl⟩ := map_ok hs
    exact ⟨fun S hS => ok_same h (convertEach_targets _ _ _ _ hT).ends S hS, fun _ => rfl, fun _ h0 => h0⟩
  | flattenComplex =>
    simp only [Pass.run, Pass.fresh, map_map]
    refine ⟨map_id' _, fun s' hs => ?_⟩
    obtain ⟨T, hT, rfl⟩ := map_ok hs
    refine ⟨fun S hS => ok_same h (SameTargets.ends ?_) S hS, fun _ => rfl, fun _ h0 => h0⟩
    exact tryEach_ok (I := fun T => SameTargets s.types T) (fun _ _ _ h h' => h.trans (flattenComplex_targets h')) _ _ _
      (sameTargets_refl _) hT
  | flattenUnions =>
    simp only [Pass.run, Pass.fresh, map_map]
    refine ⟨map_id' _, fun s' hs => ?_⟩
    obtain ⟨T, hT, rfl⟩ := map_ok hs
    refine ⟨fun S hS => ok_same h (SameTargets.ends ?_) S hS, fun _ => rfl, fun _ h0 => h0⟩
    exact forEach_ok (I := fun T => SameTargets s.types T) (fun _ _ _ h h' => h.trans (flattenUnion_targets h')) _ _ _
      (sameTargets_refl _) hT
  | mergeEnumUnions =>
    simp only [Pass.run, Pass.fresh, map_map]
    refine ⟨map_id' _, fun s' hs => ?_⟩
    obtain ⟨T, hT, rfl⟩ := map_ok hs
    refine ⟨fun S hS => ok_same h (SameTargets.ends ?_) S hS, fun _ => rfl, fun _ h0 => h0⟩
    exact forEach_ok (I := fun T => SameTargets s.types T) (fun _ _ _ h h' => h.trans (mergeEnumUnion_targets h')) _ _ _
      (sameTargets_refl _) hT
  | mergeChoices =>
    simp only [Pass.run, Pass.fresh, map_map]
    refine ⟨map_id' _, fun s' hs => ?_⟩
    obtain ⟨T, hT, rfl⟩ := map_ok hs
    refine ⟨fun S hS => ok_same h (SameTargets.ends ?_) S hS, fun _ => rfl, fun _ h0 => h0⟩
    exact forEach_ok (I := fun T => SameTargets s.types T) (fun _ _ _ h h' => h.trans (mergeChoice_targets h')) _ _ _
      (sameTargets_refl _) hT
  | simplifyMixed order =>
    simp only [Pass.run, Pass.fresh, map_map]
    refine ⟨map_id' _, fun s' hs => ?_⟩
    obtain ⟨T, hT, rfl⟩ := map_ok hs
    refine ⟨fun S hS => ok_same h (SameTargets.ends ?_) S hS, fun _ => rfl, fun _ h0 => h0⟩
    exact forEach_ok (I := fun T => SameTargets s.types T) (fun _ _ _ h h' => h.trans (simplifyMixed_targets h')) _ _ _
      (sameTargets_refl _) hT

theorem run_all {fuel : Nat} (ps : List Pass) (s : Session) (h : s.Ok)
    (hb : s.bases = none ∨ ∀ p ∈ ps, ¬ p.ReadsBases) (ha : s.typedefs = none ∨ ∀ p ∈ ps, ¬ p.ReplacesAny)
    (hb' : ps.Pairwise fun p q => ¬ (p.ReadsBases ∧ q.ReadsBases))
    (ha' : ps.Pairwise fun p q => ¬ (p.ReadsTypedefs ∧ q.ReplacesAny)) :
    (runAll fuel ps s).map (·.types) = freshAll fuel ps s.types := by
  induction ps generalizing s with
  | nil => rfl
  | cons p ps ih =>
    obtain ⟨h1, h2⟩ := run_step (fuel := fuel) p h (hb.imp id (fun h => h p (by simp)))
      (ha.imp id (fun h => h p (by simp)))
    obtain ⟨hb1, hb2⟩ := List.pairwise_cons.1 hb'
    obtain ⟨ha1, ha2⟩ := List.pairwise_cons.1 ha'
    simp only [runAll, freshAll, ← h1]
    cases hr : p.run fuel s with
    | err e => rfl
    | panic => rfl
    | diverged => rfl
    | ok s' =>
      obtain ⟨h3, h4, h5⟩ := h2 s' hr
      refine ih s' h3 ?_ ?_ hb2 ha2
      · by_cases hp : p.ReadsBases
        · exact .inr fun q hq hq' => hb1 q hq ⟨hp, hq'⟩
        · rcases hb with hb | hb
          · exact .inl ((h4 hp).trans hb)
          · exact .inr fun q hq => hb q (by simp [hq])
      · by_cases hp : p.ReadsTypedefs
        · exact .inr fun q hq hq' => ha1 q hq ⟨hp, hq'⟩
        · rcases ha with ha | ha
          · exact .inl (h5 hp ha)
          · exact .inr fun q hq => ha q (by simp [hq])

/-- C68: the maps that the optimizer keeps between the calls are never noticed: every history of calls gives the types that
it gives when each call builds its maps anew, if the bases are asked for at most once and `xs:anyType` is not replaced after
the typedefs were asked for. For other histories see `C68_stale_bases` and `C68_stale_typedefs`. -/
theorem C68_maps_unnoticed_partial (fuel : Nat) (T : Types) (ps : List Pass)
    (once : ps.Pairwise fun p q => ¬ (p.ReadsBases ∧ q.ReadsBases))
    (before : ps.Pairwise fun p q => ¬ (p.ReadsTypedefs ∧ ∃ any, q = .replaceAnyType any)) :
    (runAll fuel ps (.new T)).map (·.types) = freshAll fuel ps T := by
  refine run_all ps (.new T) (fun S hS => ?_) (.inl rfl) (.inl rfl) once (before.imp ?_)
  · cases hS
  · rintro p q h ⟨h1, h2⟩
    refine h ⟨h1, ?_⟩
    cases q <;> first | exact ⟨_, rfl⟩ | exact h2.elim

theorem mem_ifFlag {b : Bool} {p q : Pass} : q ∈ ifFlag b p ↔ b = true ∧ q = p := by
  unfold ifFlag
  cases b <;> simp

/-- C68: `exec_optimizer` gives, for every configuration and every table, what its passes give one after the other, each with
maps of the types at that moment. -/
theorem C68_exec_optimizer (fuel : Nat) (F : OptFlags) (env : Env) (T : Types) :
    execOptimizer fuel F env T = freshAll fuel (F.passes env) T := by
  have key : ∃ rest : List Pass, F.passes env =
      ifFlag (F.unrestrictedComplex || F.unrestrictedSimple || F.unrestrictedEnum || F.unrestrictedUnion)
        (.unrestricted F.bases) ++ (ifFlag F.replaceXsAnyType (.replaceAnyType env.any) ++ rest) ∧
      ∀ p ∈ rest, ¬ p.ReadsBases ∧ ¬ ∃ any, p = .replaceAnyType any := by
    unfold OptFlags.passes
    simp only [List.append_assoc]
    refine ⟨_, rfl, ?_⟩
    intro p hp
    simp only [List.mem_append, mem_ifFlag] at hp
    repeat' (rcases hp with hp | hp)
    all_goals
      obtain ⟨_, rfl⟩ := hp
      exact ⟨fun h => h, fun ⟨_, h⟩ => by cases h⟩
  obtain ⟨rest, hr, hrest⟩ := key
  refine C68_maps_unnoticed_partial fuel T _ ?_ ?_
  · rw [hr]
    refine List.pairwise_append.2 ⟨?_, List.pairwise_append.2 ⟨?_, ?_, ?_⟩, ?_⟩
    · unfold ifFlag; split <;> simp
    · unfold ifFlag; split <;> simp
    · exact List.pairwise_iff_forall_sublist.2 fun {a b} h hab => (hrest a (h.subset (by simp))).1 hab.1
    · exact fun a _ b hb hab => (hrest b hb).1 hab.2
    · intro a _ b hb hab
      rcases List.mem_append.1 hb with hb | hb
      · obtain ⟨_, rfl⟩ := mem_ifFlag.1 hb; exact hab.2
      · exact (hrest b hb).1 hab.2
  · rw [hr]
    refine List.pairwise_append.2 ⟨?_, List.pairwise_append.2 ⟨?_, ?_, ?_⟩, ?_⟩
    · unfold ifFlag; split <;> simp
    · unfold ifFlag; split <;> simp
    · exact List.pairwise_iff_forall_sublist.2 fun {a b} h hab => (hrest b (h.subset (by simp))).2 hab.2
    · exact fun a _ b hb hab => (hrest b hb).2 hab.2
    · intro a ha b hb hab
      obtain ⟨_, rfl⟩ := mem_ifFlag.1 ha
      exact hab.1

/-! ## Examples and counterexamples -/

deriving instance DecidableEq for OptErr
deriving instance DecidableEq for Res

/-- `F` restricts `A`, which is another name of the enumeration `E`. -/
def exStaleBases : Types :=
  [(exId "E", enumOf .none ["x", "y"]),
   (exId "A", .new (.reference (.new (exId "E")))),
   (exId "F", enumOf (.restr (exId "A")) ["x"])]

def enumFlag : BaseFlags := ⟨false, false, true, false⟩

/-- C68 (negation): a second call of `use_unrestricted_base_type` sees the bases of the first call: the restriction `F`, whose
base was found by `resolve_typedefs`, stays an enumeration, although a new optimizer replaces it. -/
theorem C68_stale_bases :
    (runAll 5 [.unrestricted enumFlag, .resolveTypedefs, .unrestricted enumFlag] (.new exStaleBases)).map
      (fun s => look s.types (exId "F")) = .ok (some (enumOf (.restr (exId "E")) ["x"]).variant) ∧
    (freshAll 5 [.unrestricted enumFlag, .resolveTypedefs, .unrestricted enumFlag] exStaleBases).map
      (fun T => look T (exId "F")) = .ok (some (.reference (.new (exId "E")))) := by
  decide +kernel

/-- `R` and `anyType` are synonyms, in the order `R`, `anyType`, `S`. -/
def exStaleTypedefs : Types :=
  [(exId "S", .new (.buildIn .string)),
   (exId "anyType", .new (.reference (.new (exId "S")))),
   (exId "R", .new (.reference (.new (exId "anyType"))))]

/-- C68 (negation): `replace_xs_any_type` keeps the map of the typedefs: `R`, a name of `xs:anyType`, becomes a name of what
`xs:anyType` was before. -/
theorem C68_stale_typedefs :
    (runAll 5 [.duplicateMembers, .replaceAnyType (exId "anyType"), .resolveTypedefs] (.new exStaleTypedefs)).map
      (fun s => look s.types (exId "R")) = .ok (some (.reference (.new (exId "S")))) ∧
    (freshAll 5 [.duplicateMembers, .replaceAnyType (exId "anyType"), .resolveTypedefs] exStaleTypedefs).map
      (fun T => look T (exId "R")) = .ok (some (.reference (.new (exId "anyType")))) := by
  decide +kernel

/-- `U` has one member, so it becomes a typedef; `V` names `U` twice, once by the synonym `W`. -/
def exHistory : Types :=
  [(exId "S", .new (.buildIn .string)),
   (exId "U", .new (.union ⟨.none, [⟨exId "S", none⟩], .default⟩)),
   (exId "W", .new (.reference (.new (exId "U")))),
   (exId "V", .new (.union ⟨.none, [⟨exId "U", none⟩, ⟨exId "W", none⟩, ⟨exId "S", none⟩], .default⟩))]

/-- The map of the typedefs is built by the first call, dropped by the third one and built again: the fourth call sees that
`U` is a name of `S` now, and the last one makes `V` a name too. -/
example : (runAll 5 [.duplicateMembers, .flattenUnions, .emptyUnions, .duplicateMembers, .emptyUnions, .resolveTypedefs]
      (.new exHistory)).map (fun s => (look s.types (exId "V"), look s.types (exId "W"))) =
    .ok (some (.reference (.new (exId "S"))), some (.reference (.new (exId "S")))) := by decide +kernel

/-- The history meets the hypotheses. -/
example : (([.duplicateMembers, .flattenUnions, .emptyUnions, .duplicateMembers, .emptyUnions, .resolveTypedefs] :
      List Pass).Pairwise fun p q => ¬ (p.ReadsBases ∧ q.ReadsBases)) ∧
    (([.duplicateMembers, .flattenUnions, .emptyUnions, .duplicateMembers, .emptyUnions, .resolveTypedefs] :
      List Pass).Pairwise fun p q => ¬ (p.ReadsTypedefs ∧ ∃ any, q = .replaceAnyType any)) := by
  simp [Pass.ReadsBases]

/-- The default configuration on the example. -/
example : (execOptimizer 5 .default ⟨anyTypeIdent [], fun _ => .named [], fun _ => []⟩ exHistory).map
      (fun T => (look T (exId "V"), look T (exId "W"), look T (exId "U"))) =
    .ok (some (.reference (.new (exId "U"))), some (.reference (.new (exId "U"))),
      some (.reference (.new (exId "S")))) := by decide +kernel

end Verif.Opt

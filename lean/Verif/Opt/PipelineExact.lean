import Verif.Opt.Pipeline
/-!
# The whole optimizer accepts no more (C69)

For the passes of the optimizer that are not meant to widen a type: after all of them the accepted documents are those of
the table before the first pass.
-/
namespace Verif.Opt

open Verif.Meta
open Verif.Naming (Name)

/-! ## Specification -/

/-- A simple type: its values are texts. -/
inductive Textual (T : Types) : Ident → Prop
  | builtIn {i b} : look T i = some (.buildIn b) → Textual T i
  | union {i u} : look T i = some (.union u) → Textual T i
  | enumeration {i e} : look T i = some (.enumeration e) → Textual T i
  | simple {i x} : look T i = some (.simple x) → Textual T i
  | list {i r} : look T i = some (.reference r) → ¬ (r.min = 1 ∧ r.max = .bounded 1) → Textual T i
  | synonym {i r} : look T i = some (.reference r) → Textual T r.type_ → Textual T i

/-- Every union has a member, its members are simple types, and it has no facets of its own; every enumeration has a
value. -/
structure PlainUnions (P : Lex) (T : Types) : Prop where
  noFacets : NoFacets P T
  enums : ∀ i e, look T i = some (.enumeration e) → e.variants ≠ []
  unions : ∀ i u, look T i = some (.union u) → u.types ≠ []
  members : ∀ i u m, look T i = some (.union u) → m ∈ u.types → Textual T m.type_

/-! ## Proofs -/

/-- All that a type accepts are texts. -/
def OnlyText (P : Lex) (T : Types) (i : Ident) : Prop :=
  (∀ x as kids, Valid P T (.value i x as kids) → as = [] ∧ ∃ s, kids = [.text s] ∧ Valid P T (.text i s)) ∧
  ∀ ns, ¬ Valid P T (.group i ns)

theorem Textual.onlyText {P : Lex} {T : Types} {i : Ident} (h : Textual T i) : OnlyText P T i := by
  induction h with
  | builtIn h | union h | enumeration h | simple h =>
    refine ⟨fun x as kids hv => ?_, fun ns hv => ?_⟩ <;> have hs := hv.step <;> cases hs <;> simp_all
  | list h hn =>
    refine ⟨fun x as kids hv => ?_, fun ns hv => ?_⟩ <;> have hs := hv.step <;> cases hs <;> simp_all
  | @synonym i r h _ ih =>
    refine ⟨fun x as kids hv => ?_, fun ns hv => ?_⟩
    · have hs := hv.step
      cases hs with
      | refValue h1 h2 h3 h4 =>
        rw [h] at h1; cases h1
        obtain ⟨g1, s, g2, g3⟩ := ih.1 _ _ _ h4
        obtain ⟨ty, e1, e2⟩ := look_iff.1 h
        exact ⟨g1, s, g2, .refText e1 e2 h2 h3 g3⟩
      | textValue h1 => exact ⟨rfl, _, rfl, h1⟩
      | _ => simp_all
    · have hs := hv.step
      cases hs with
      | refGroup h1 h2 h3 h4 => rw [h] at h1; cases h1; exact ih.2 _ h4
      | _ => simp_all

/-- What is kept by the passes. -/
structure Keeps (P : Lex) (T : Types) : Prop where
  noFacets : NoFacets P T
  enums : ∀ i e, look T i = some (.enumeration e) → e.variants ≠ []
  unions : ∀ i u, look T i = some (.union u) → u.types ≠ []
  members : ∀ i u m, look T i = some (.union u) → m ∈ u.types → OnlyText P T m.type_

theorem PlainUnions.keeps {P : Lex} {T : Types} (h : PlainUnions P T) : Keeps P T :=
  ⟨h.noFacets, h.enums, h.unions, fun i u m h1 h2 => (h.members i u m h1 h2).onlyText⟩

theorem OnlyText.of_iff {P : Lex} {T T' : Types} (h : ∀ j, Valid P T' j ↔ Valid P T j) {i : Ident}
    (ho : OnlyText P T i) : OnlyText P T' i := by
  refine ⟨fun x as kids hv => ?_, fun ns hv => ho.2 ns ((h _).1 hv)⟩
  obtain ⟨h1, s, h2, h3⟩ := ho.1 x as kids ((h _).1 hv)
  exact ⟨h1, s, h2, (h _).2 h3⟩

theorem TameAll.someVariant {T T' : Types} (h : TameAll T T')
    (hn : ∀ i e, look T i = some (.enumeration e) → e.variants ≠ []) (i : Ident) (e : Enumeration)
    (hi : look T' i = some (.enumeration e)) : e.variants ≠ [] := by
  obtain ⟨ty', h1, h2⟩ := look_iff.1 hi
  obtain ⟨ty, h3, -, h4⟩ := h i ty' h1
  rw [h2] at h4
  generalize hv : ty.variant = v at h4
  generalize hx : Variant.enumeration e = v' at h4
  cases h4 with
  | same => exact hn i e (look_of h3 (hv.trans hx.symm))
  | reference => cases hx
  | union => cases hx
  | short f =>
    cases v <;> simp only [shortVariant] at hx <;> try cases hx
    · rename_i r
      split at hx <;> cases hx
    · rename_i y
      have := hn i y (look_of h3 hv)
      simpa using this

/-- What a pass that accepts no more leaves behind. -/
structure ExactStep (P : Lex) (T T' : Types) : Prop where
  step : StepOk P T T'
  back : ∀ j, Valid P T' j → Valid P T j
  keeps : Keeps P T'

theorem ExactStep.of_unions {P : Lex} {T T' : Types} (hK : Keeps P T) (hs : StepOk P T T')
    (hb : ∀ j, Valid P T' j → Valid P T j)
    (hu : ∀ i u, look T' i = some (.union u) → u.constrains = .default ∧ u.types ≠ [] ∧
      ∀ m ∈ u.types, OnlyText P T m.type_) : ExactStep P T T' :=
  ⟨hs, hb, ⟨hK.noFacets.1, fun i u h => (hu i u h).1⟩, hs.tame.someVariant hK.enums, fun i u h => (hu i u h).2.1,
    fun i u m h hm => ((hu i u h).2.2 m hm).of_iff fun j => ⟨hb j, hs.accepts j⟩⟩

theorem Keeps.union {P : Lex} {T : Types} (hK : Keeps P T) {i : Ident} {u : Union} (h : look T i = some (.union u)) :
    u.constrains = .default ∧ u.types ≠ [] ∧ ∀ m ∈ u.types, OnlyText P T m.type_ :=
  ⟨hK.noFacets.2 i u h, hK.unions i u h, fun m => hK.members i u m h⟩

theorem emptyEnums_id {P : Lex} {T : Types} (hK : Keeps P T) (hk : Assoc.Keyed T) : removeEmptyEnums T = T := by
  apply map_id_of
  rintro ⟨i, ty⟩ hp
  cases hv : ty.variant with
  | enumeration x =>
    have := hK.enums i x (look_of (Assoc.get_of_mem hk hp) hv)
    simp [emptyEnumToRef, this]
  | _ => rfl

theorem duplicateMembers_exact {P : Lex} {T : Types} (hT : Good T) (hK : Keeps P T) :
    ExactStep P T (removeDuplicateUnionVariants T) := by
  refine .of_unions hK (duplicateMembers_step hT) (fun j => (C38_same_documents P T hT.ok.acyclic hT.ok.closed j).1) ?_
  intro i u hi
  rw [look_dedup] at hi
  obtain ⟨v, h1, h2⟩ := Option.map_eq_some_iff.1 hi
  cases v <;> simp only [dedupVariant, reduceCtorEq, Variant.union.injEq] at h2
  rename_i w
  subst h2
  obtain ⟨g1, g2, g3⟩ := hK.union h1
  refine ⟨g1, ?_, fun m hm => g3 m ((dedup_sublist _ _ _).subset hm)⟩
  cases hw : w.types with
  | nil => exact absurd hw g2
  | cons a l => simp [dedup, hw]

theorem OnlyText.synonym {P : Lex} {T : Types} {i k : Ident} (h : OnlyText P T i) (hs : Synonym T i k) :
    OnlyText P T k := by
  refine ⟨fun x as kids hv => ?_, fun ns hv => h.2 ns (hv.group_synonym hs)⟩
  obtain ⟨h1, s, h2, h3⟩ := h.1 x as kids (hv.value_synonym hs)
  exact ⟨h1, s, h2, valid_synonym_inv hs h3⟩

theorem OnlyText.res {P : Lex} {T : Types} {i : Ident} (h : OnlyText P T i) : OnlyText P T (res T i) := by
  by_cases hd : Defined T i
  · obtain ⟨p, hp⟩ := res_follow hd
    generalize Meta.res T i = j at hp
    induction hp with
    | here _ => exact h
    | step hs hf ih => exact ih (h.synonym hs) hf.defined.1
  · rw [res_undefined hd]; exact h

theorem resolveTypedefs_exact {P : Lex} {T : Types} (hT : Good T) (hK : Keeps P T) :
    ExactStep P T (resolveTypedefs T) := by
  refine .of_unions hK (resolveTypedefs_step hT) (fun j => (C36_same_documents P T hT.ok.acyclic hT.ok.closed j).1) ?_
  intro i u hi
  have hi' : (look T i).map (shortVariant (tdResolve T)) = some (.union u) := by
    rw [← hi]; exact (look_mapVariant T _ i).symm
  obtain ⟨v, h1, h2⟩ := Option.map_eq_some_iff.1 hi'
  rw [tdResolve_eq hT.ok.acyclic hT.ok.closed] at h2
  cases v <;> simp only [shortVariant, reduceCtorEq, Variant.union.injEq] at h2
  · rename_i w
    subst h2
    obtain ⟨g1, g2, g3⟩ := hK.union h1
    refine ⟨g1, by simpa using g2, ?_⟩
    intro m hm
    obtain ⟨m', hm', rfl⟩ := List.mem_map.1 hm
    exact (g3 m' hm').res
  · split at h2 <;> cases h2

theorem leaves_only {P : Lex} {T : Types} (hK : Keeps P T) {i : Ident} {dn : Option Txt} {ls : List UnionType}
    (h : Leaves T i dn ls) (ho : OnlyText P T i) (t : UnionType) (ht : t ∈ ls) : OnlyText P T t.type_ := by
  induction h with
  | missing => cases ht
  | @union i dn u f hl _ ih =>
    obtain ⟨t', h1, h2⟩ := List.mem_flatMap.1 ht
    exact ih t' h1 (hK.members i u t' hl h1) h2
  | synonym hs _ ih => exact ih (ho.synonym hs) ht
  | leaf => simp at ht; subst ht; exact ho

theorem leaves_some {P : Lex} {T : Types} (hT : Good T) (hK : Keeps P T) {i : Ident} {dn : Option Txt}
    {ls : List UnionType} (h : Leaves T i dn ls) (hd : Defined T i) : ls ≠ [] := by
  induction h with
  | missing h =>
    obtain ⟨ty, hty⟩ := hd
    rw [look_of hty rfl] at h; cases h
  | @union i dn u f hl _ ih =>
    intro he
    have hu := hK.unions i u hl
    cases hw : u.types with
    | nil => exact hu hw
    | cons t l =>
      have ht : t ∈ u.types := by rw [hw]; simp
      refine ih t ht (hT.defined i _ ⟨_, hl, ?_⟩) ?_
      · simp only [points, List.mem_append]; exact .inr (List.mem_map.2 ⟨t, ht, rfl⟩)
      · exact (List.flatMap_eq_nil_iff.1 he) t ht
  | synonym hs _ ih => exact ih (hT.defined _ _ (points_of_synonym hs))
  | leaf => simp

theorem flattenUnions_exact {P : Lex} {T : Types} (hT : Good T) (hK : Keeps P T) (n : Nat) (hn : T.length < n) :
    ∃ T', flattenUnions n T = .ok T' ∧ ExactStep P T T' := by
  obtain ⟨T', h, hs⟩ := flattenUnions_step hT hK.noFacets.1 n hn
  refine ⟨T', h, .of_unions hK hs (fun j => (C37_same_documents_partial P n T T' hT.keyed h hK.noFacets j).1) ?_⟩
  rcases flatten_cases hT.keyed n with ⟨T'', h1, hF⟩ | ⟨h1, -⟩
  · rw [h] at h1; cases h1
    intro i u hi
    rcases flat_changed hF i with he | ⟨u', ls, h1, h2, h3⟩
    · rw [← he] at hi; exact hK.union hi
    · rw [hi] at h3; cases h3
      have hu : OnlyText P T i := (Textual.union h1).onlyText
      refine ⟨rfl, leaves_some hT hK h2 ?_, leaves_only hK h2 hu⟩
      obtain ⟨ty, e1, -⟩ := look_iff.1 h1
      exact ⟨ty, e1⟩
  · rw [h] at h1; cases h1

theorem duplicates_exact {P : Lex} {T : Types} (hT : Good T) (hK : Keeps P T) (hC : KeysByCount T) (n : Nat)
    (hn : (T.length + 1) * (T.length + 1) < n) :
    ∃ T', ofOption (removeDuplicates n T) = .ok T' ∧ ExactStep P T T' := by
  obtain ⟨T', h', hs⟩ := duplicates_step (P := P) hT hC n hn
  obtain ⟨T₁, hT₁⟩ := C35_terminates T hT.ok
  have h := hT₁ n hn
  rw [h] at h'; cases h'
  refine ⟨T', by rw [h]; rfl, .of_unions hK hs
    (fun j => (C35_same_documents_partial P n T T' hT.ok h hC.merged j).1) ?_⟩
  intro i u hi
  obtain ⟨ty', h1, h2⟩ := look_iff.1 hi
  have hd : Defined T i := by rw [defined_iff_keys, ← hs.keys, ← defined_iff_keys]; exact ⟨_, h1⟩
  obtain ⟨ty, hty⟩ := hd
  rcases C35_untouched_or_reference n T T' hT.ok h i ty hty with h' | ⟨r, h'⟩
  · rw [h1] at h'; cases h'; exact hK.union (look_of hty h2)
  · rw [h1] at h'; cases h'; cases h2

/-- The rules for a synonym. -/
theorem step_reference {P : Lex} {l : Ident → Option Variant} {R : Judge → Prop} {j : Judge} {i k : Ident}
    (h : Step P l R j) (hj : j.head = some i) (hl : l i = some (.reference (.new k))) :
    (∃ s, j = .text i s ∧ R (.text k s)) ∨ (∃ x as kids, j = .value i x as kids ∧ R (.value k x as kids)) ∨
    (∃ s x, j = .value i x [] [.text s] ∧ R (.text i s)) ∨ ∃ ns, j = .group i ns ∧ R (.group k ns) := by
  cases h <;> simp only [Judge.head, Option.some.injEq, reduceCtorEq] at hj <;> subst hj
  case refText h1 h2 h3 h4 => rw [hl] at h1; cases h1; exact .inl ⟨_, rfl, h4⟩
  case listText h1 h2 h3 h4 => rw [hl] at h1; cases h1; exact absurd ⟨rfl, rfl⟩ h2
  case refValue h1 h2 h3 h4 => rw [hl] at h1; cases h1; exact .inr (.inl ⟨_, _, _, rfl, h4⟩)
  case textValue h => exact .inr (.inr (.inl ⟨_, _, rfl, h⟩))
  case refGroup h1 h2 h3 h4 => rw [hl] at h1; cases h1; exact .inr (.inr (.inr ⟨_, rfl, h4⟩))
  all_goals simp_all

theorem emptyUnions_back {P : Lex} {T : Types} (hK : Keeps P T) (j : Judge) (h : Valid P (removeEmptyUnions T) j) :
    Valid P T j := by
  refine Valid.simulate (fun i => ?_) h
  have hl : look (removeEmptyUnions T) i = (look T i).map smallUnionToRef := by rw [removeEmptyUnions, look_mapVariant]
  cases hv : look T i with
  | none => rw [hl, hv]; exact .inl rfl
  | some v =>
    cases v with
    | union x =>
      obtain ⟨g1, g2, g3⟩ := hK.union hv
      match hx : x.types with
      | [] => exact absurd hx g2
      | a :: b :: l => left; rw [hl, hv]; simp [smallUnionToRef, hx]
      | [m] =>
        right
        have hr : look (removeEmptyUnions T) i = some (.reference (.new m.type_)) := by
          rw [hl, hv]; simp [smallUnionToRef, hx]
        have hm : m ∈ x.types := by rw [hx]; simp
        obtain ⟨ty, e1, e2⟩ := look_iff.1 hv
        have key : ∀ s, Valid P T (.text m.type_ s) → Valid P T (.text i s) := fun s h =>
          .unionText e1 e2 hm (by rw [g1]; exact hK.noFacets.1 s) h
        intro j hj hs
        have g3 := g3 m hm
        rcases step_reference hs hj hr with ⟨s, rfl, h⟩ | ⟨x', as, kids, rfl, h⟩ | ⟨s, x', rfl, h⟩ | ⟨ns, rfl, h⟩
        · exact key s h
        · obtain ⟨k1, s, k2, k3⟩ := g3.1 _ _ _ h
          subst k1 k2
          exact .textValue (key _ k3)
        · exact .textValue h
        · exact absurd h (g3.2 _)
    | _ => rw [hl, hv]; exact .inl rfl

theorem emptyUnions_exact {P : Lex} {T : Types} (hT : Good T) (hK : Keeps P T) :
    ExactStep P T (removeEmptyUnions T) := by
  refine .of_unions hK (emptyUnions_step hT) (emptyUnions_back hK) ?_
  intro i u hi
  rw [removeEmptyUnions, look_mapVariant] at hi
  obtain ⟨v, h1, h2⟩ := Option.map_eq_some_iff.1 hi
  cases v <;> simp only [smallUnionToRef, reduceCtorEq] at h2
  split at h2
  · split at h2
    · cases h2
    · cases h2; exact hK.union h1
  · cases h2; exact hK.union h1

theorem fresh_exact {P : Lex} {T : Types} (hT : Good T) (hK : Keeps P T) (n : Nat)
    (hn : (T.length + 1) * (T.length + 1) < n) (p : Pass) (hp : p.Needs T) :
    ∃ T', p.fresh n T = .ok T' ∧ ExactStep P T T' := by
  have hn' : T.length < n := by
    have : T.length + 1 ≤ (T.length + 1) * (T.length + 1) := Nat.le_mul_of_pos_left _ (by omega)
    omega
  have hid : ExactStep P T T := ⟨⟨rfl, hT, .refl T, fun _ h => h⟩, fun _ h => h, hK⟩
  cases p with
  | emptyVariants =>
    refine ⟨T, ?_, hid⟩
    show Res.ok (removeEmptyEnumVariants T) = _
    rw [emptyVariants_id hp hT.keyed]
  | emptyEnums =>
    refine ⟨T, ?_, hid⟩
    show Res.ok (removeEmptyEnums T) = _
    rw [emptyEnums_id hK hT.keyed]
  | emptyUnions => exact ⟨_, rfl, emptyUnions_exact hT hK⟩
  | duplicateMembers => exact ⟨_, duplicateMembers_ok hT.ok, duplicateMembers_exact hT hK⟩
  | resolveTypedefs => exact ⟨_, resolveTypedefs_ok hT.ok, resolveTypedefs_exact hT hK⟩
  | flattenUnions => exact flattenUnions_exact hT hK n hn'
  | duplicates => exact duplicates_exact hT hK hp n hn
  | _ => exact hp.elim

theorem fresh_all_exact {P : Lex} (n : Nat) (ps : List Pass) (T : Types) (hT : Good T) (hK : Keeps P T)
    (hn : (T.length + 1) * (T.length + 1) < n) (hp : ∀ p ∈ ps, p.Needs T) :
    ∃ T', freshAll n ps T = .ok T' ∧ Assoc.keys T' = Assoc.keys T ∧ Acyclic T' ∧ Closed T' ∧
      ∀ j, Valid P T' j ↔ Valid P T j := by
  induction ps generalizing T with
  | nil => exact ⟨T, rfl, rfl, hT.ok.acyclic, hT.ok.closed, fun _ => .rfl⟩
  | cons p ps ih =>
    obtain ⟨T₁, h1, h2⟩ := fresh_exact hT hK n hn p (hp p (by simp))
    have hlen : T₁.length = T.length := by
      have := congrArg List.length h2.step.keys
      simpa [Assoc.keys] using this
    obtain ⟨T', h3, h4, ha, hc, h5⟩ := ih T₁ h2.step.good h2.keeps (by rw [hlen]; exact hn)
      (fun q hq => h2.step.tame.needs q (hp q (by simp [hq])))
    refine ⟨T', ?_, h4.trans h2.step.keys, ha, hc, fun j => (h5 j).trans ⟨h2.back j, h2.step.accepts j⟩⟩
    simp only [freshAll, h1]
    exact h3

/-- The flags for the passes that are not meant to accept more than before. -/
def OptFlags.Exact (F : OptFlags) : Prop :=
  F.Plain ∧ F.unrestrictedComplex = false ∧ F.unrestrictedSimple = false ∧ F.unrestrictedEnum = false ∧
  F.unrestrictedUnion = false

/-- C69: for every set of flags without the passes that rebuild complex types, dynamic types or enumerations and without
those that use base types instead of restrictions, and for every well-formed table whose unions have members, all of them
simple types, and no facets, and whose enumerations have values, the optimizer ends without an error, keeps all names,
makes no type a synonym of itself or of a name that is not defined, and accepts for every type exactly the documents that were accepted before. Missing: the other passes, and tables without
these conditions, see `C37_facets_lost`, `C69_default_loses_empty_text`, `C69_empty_enum_accepts_more`. -/
theorem C69_same_documents_partial (P : Lex) (F : OptFlags) (env : Env) (T : Types) (exact : F.Exact)
    (wf : WellFormed T) (plain : PlainUnions P T)
    (literals : F.removeEmptyEnumVariants → NoEmptyLiteral T)
    (dynamics : F.removeDuplicates → KeysByCount T)
    (n : Nat) (hn : (T.length + 1) * (T.length + 1) < n) :
    ∃ T', execOptimizer n F env T = .ok T' ∧ Assoc.keys T' = Assoc.keys T ∧ Acyclic T' ∧ Closed T' ∧
      ∀ j, Valid P T' j ↔ Valid P T j := by
  rw [C68_exec_optimizer]
  obtain ⟨⟨p1, p2, p3, p4, p5, p6, p7⟩, q1, q2, q3, q4⟩ := exact
  refine fresh_all_exact n _ T wf.good plain.keeps hn ?_
  intro p hp
  unfold OptFlags.passes at hp
  simp only [List.mem_append, mem_ifFlag, p1, p2, p3, p4, p5, p6, p7, q1, q2, q3, q4] at hp
  simp only [Bool.or_self, Bool.false_eq_true, false_and, false_or, or_false] at hp
  repeat' (rcases hp with hp | hp)
  all_goals
    obtain ⟨hf, rfl⟩ := hp
    first | exact literals hf | exact dynamics hf | exact trivial

/-! ### Concrete cases -/

/-- A union of unions through a synonym, with a member that occurs twice, and a union with one member. -/
def exExact : Types :=
  [(exId "S", .new (.buildIn .string)),
   (exId "E", .new (.enumeration (exEnum .none ["a", "b"]))),
   (exId "U", .new (.union ⟨.none, [⟨exId "S", none⟩, ⟨exId "E", none⟩], .default⟩)),
   (exId "W", .new (.reference (.new (exId "U")))),
   (exId "V", .new (.union ⟨.none, [⟨exId "W", none⟩, ⟨exId "E", none⟩, ⟨exId "U", none⟩], .default⟩)),
   (exId "O", .new (.union ⟨.none, [⟨exId "V", none⟩], .default⟩))]

theorem exExact_at {i : Ident} {v : Variant} (h : look exExact i = some v) : ∃ ty, (i, ty) ∈ exExact ∧ ty.variant = v := by
  obtain ⟨ty, hg, rfl⟩ := look_iff.1 h
  exact ⟨ty, Assoc.mem_of_get hg, rfl⟩

theorem exExact_points : ∀ p ∈ exExact, ∀ k ∈ points p.2.variant,
    (Assoc.keys exExact).idxOf k < (Assoc.keys exExact).idxOf p.1 ∧ (Assoc.get exExact k).isSome = true := by
  decide +kernel

theorem exExact_wellFormed : WellFormed exExact := by
  have hlit : ∀ p ∈ exExact, (∀ x, p.2.variant = .enumeration x → ∀ w ∈ x.variants, w.type_ = none) ∧
      (∀ d, p.2.variant ≠ .dynamic d) ∧ (∀ d, p.2.variant ≠ .complex d) ∧ (∀ d, p.2.variant ≠ .sequence d) ∧
      (∀ d, p.2.variant ≠ .choice d) ∧ (∀ d, p.2.variant ≠ .all d) := by
    intro p hp
    simp only [exExact, List.mem_cons, List.not_mem_nil, or_false] at hp
    rcases hp with rfl | rfl | rfl | rfl | rfl | rfl <;>
      refine ⟨?_, by simp [MetaType.new], by simp [MetaType.new], by simp [MetaType.new], by simp [MetaType.new],
        by simp [MetaType.new]⟩ <;> intro x hx <;> simp only [MetaType.new, reduceCtorEq, Variant.enumeration.injEq] at hx <;>
      subst hx <;> decide +kernel
  refine ⟨by unfold Assoc.Keyed; decide +kernel, ?_, ?_⟩
  · rintro i k ⟨v, h1, h2⟩
    obtain ⟨ty, hm, rfl⟩ := exExact_at h1
    obtain ⟨ty', h⟩ := Option.isSome_iff_exists.1 (exExact_points _ hm k h2).2
    exact ⟨ty', h⟩
  · refine noLoop_of_rank _ (fun i => (Assoc.keys exExact).idxOf i) ?_
    have hp : ∀ a b, Points exExact a b → (Assoc.keys exExact).idxOf b < (Assoc.keys exExact).idxOf a := by
      rintro a b ⟨v, h1, h2⟩
      obtain ⟨ty, hm, rfl⟩ := exExact_at h1
      exact (exExact_points _ hm b h2).1
    rintro a b (h | h)
    · apply hp
      cases h with
      | reference h => exact ⟨_, h, by simp [points]⟩
      | member h hm => exact ⟨_, h, by simp only [points, List.mem_append]; exact .inr (List.mem_map.2 ⟨_, hm, rfl⟩)⟩
      | simple h => exact ⟨_, h, by simp [points]⟩
      | variant h hw ht =>
        obtain ⟨ty, hm, hv⟩ := exExact_at h
        rw [(hlit _ hm).1 _ hv _ hw] at ht; cases ht
      | derived h => obtain ⟨ty, hm, hv⟩ := exExact_at h; exact absurd hv ((hlit _ hm).2.1 _)
      | content h => obtain ⟨ty, hm, hv⟩ := exExact_at h; exact absurd hv ((hlit _ hm).2.2.1 _)
      | sequence h => obtain ⟨ty, hm, hv⟩ := exExact_at h; exact absurd hv ((hlit _ hm).2.2.2.1 _)
      | choice h => obtain ⟨ty, hm, hv⟩ := exExact_at h; exact absurd hv ((hlit _ hm).2.2.2.2.1 _)
      | all h => obtain ⟨ty, hm, hv⟩ := exExact_at h; exact absurd hv ((hlit _ hm).2.2.2.2.2 _)
    · exact hp a b h

theorem exExact_plain (P : Lex) (hP : ∀ s, P.facets .default s) : PlainUnions P exExact := by
  have hU : ∀ p ∈ exExact, ∀ u, p.2.variant = .union u → u.constrains = .default ∧ u.types ≠ [] ∧
      ∀ m ∈ u.types, m.type_ ∈ [exId "S", exId "E", exId "U", exId "V", exId "W"] := by
    intro p hp
    simp only [exExact, List.mem_cons, List.not_mem_nil, or_false] at hp
    rcases hp with rfl | rfl | rfl | rfl | rfl | rfl <;> intro u hu <;>
      simp only [MetaType.new, reduceCtorEq, Variant.union.injEq] at hu <;> subst hu <;> decide +kernel
  refine ⟨⟨hP, ?_⟩, ?_, ?_, ?_⟩
  · intro i u h
    obtain ⟨ty, hm, hv⟩ := exExact_at h
    exact (hU _ hm u hv).1
  · intro i e h
    obtain ⟨ty, hm, hv⟩ := exExact_at h
    simp only [exExact, List.mem_cons, Prod.mk.injEq, List.not_mem_nil, or_false] at hm
    rcases hm with ⟨_, rfl⟩ | ⟨_, rfl⟩ | ⟨_, rfl⟩ | ⟨_, rfl⟩ | ⟨_, rfl⟩ | ⟨_, rfl⟩ <;>
      simp only [MetaType.new, reduceCtorEq, Variant.enumeration.injEq] at hv <;> subst hv <;> decide +kernel
  · intro i u h
    obtain ⟨ty, hm, hv⟩ := exExact_at h
    exact (hU _ hm u hv).2.1
  · intro i u m h hm'
    obtain ⟨ty, hm, hv⟩ := exExact_at h
    have := (hU _ hm u hv).2.2 m hm'
    simp only [List.mem_cons, List.not_mem_nil, or_false] at this
    have hu : Textual exExact (exId "U") := .union rfl
    rcases this with h | h | h | h | h <;> rw [h]
    · exact .builtIn (b := .string) (by decide +kernel)
    · exact .enumeration (e := exEnum .none ["a", "b"]) (by decide +kernel)
    · exact hu
    · exact .union rfl
    · exact .synonym (r := .new (exId "U")) (by decide +kernel) hu

/-- All flags of the theorem. -/
def exactFlags : OptFlags :=
  { removeEmptyEnumVariants := true, removeEmptyEnums := true, removeDuplicateUnionVariants := true,
    removeEmptyUnions := true, flattenUnions := true, resolveTypedefs := true, removeDuplicates := true }

/-- The example meets the hypotheses, for all flags of the theorem. -/
example (P : Lex) (hP : ∀ s, P.facets .default s) (env : Env) :
    ∃ T', execOptimizer 100 exactFlags env exExact = .ok T' ∧ Assoc.keys T' = Assoc.keys exExact ∧ Acyclic T' ∧ Closed T' ∧
      ∀ j, Valid P T' j ↔ Valid P exExact j := by
  refine C69_same_documents_partial P exactFlags env exExact (by simp [OptFlags.Exact, OptFlags.Plain, exactFlags])
    exExact_wellFormed (exExact_plain P hP) (fun _ => ?_) (fun _ => ?_) 100 (by decide)
  · intro i x w h hw
    obtain ⟨ty, hm, hv⟩ := exExact_at h
    simp only [exExact, List.mem_cons, Prod.mk.injEq, List.not_mem_nil, or_false] at hm
    rcases hm with ⟨_, rfl⟩ | ⟨_, rfl⟩ | ⟨_, rfl⟩ | ⟨_, rfl⟩ | ⟨_, rfl⟩ | ⟨_, rfl⟩ <;>
      simp only [MetaType.new, reduceCtorEq, Variant.enumeration.injEq] at hv <;> subst hv <;> revert w <;> decide +kernel
  · intro i j a b d e h1 _ h3
    have := Assoc.mem_of_get h1
    simp only [exExact, List.mem_cons, Prod.mk.injEq, List.not_mem_nil, or_false] at this
    rcases this with ⟨_, rfl⟩ | ⟨_, rfl⟩ | ⟨_, rfl⟩ | ⟨_, rfl⟩ | ⟨_, rfl⟩ | ⟨_, rfl⟩ <;> cases h3

/-- What is left of it: `U` has the members `S` and `E`, and `V` and `O` have become names for it. -/
example : (execOptimizer 100 exactFlags ⟨anyTypeIdent [], fun _ => .named [], fun _ => []⟩ exExact).map
      (fun T => (look T (exId "U"), look T (exId "V"), look T (exId "O"))) =
    .ok (some (.union ⟨.none, [⟨exId "S", none⟩, ⟨exId "E", none⟩], .default⟩),
      some (.reference (.new (exId "U"))), some (.reference (.new (exId "U")))) := by
  decide +kernel

/-- An enumeration whose only value is the empty text. -/
def exNoValue : Types :=
  [(exId "S", .new (.buildIn .string)), (exId "E", .new (.enumeration (exEnum (.restr (exId "S")) [""])))]

/-- C69 (negation): with the default flags an enumeration whose only value is the empty text accepts whatever its base type
accepts. -/
theorem C69_empty_enum_accepts_more (P : Lex) (env : Env) (s : Txt) (hs : P.builtIn .string s) (hne : s ≠ []) :
    ∃ T', execOptimizer 5 .default env exNoValue = .ok T' ∧
      ¬ Valid P exNoValue (.text (exId "E") s) ∧ Valid P T' (.text (exId "E") s) := by
  refine ⟨[(exId "S", .new (.buildIn .string)), (exId "E", .new (.reference (.new (exId "S"))))], ?_, ?_, ?_⟩
  · rw [default_passes]; decide +kernel
  · intro h
    have hl : look exNoValue (exId "E") = some (.enumeration (exEnum (.restr (exId "S")) [""])) := by decide +kernel
    rcases h.step.enumeration rfl hl with ⟨v, s', h1, h2, h3⟩ | ⟨s', x, h1, -⟩
    · cases h1
      have hv := (by decide +kernel : ∀ v ∈ (exEnum (.restr (exId "S")) [""]).variants,
        v.type_ = none ∧ v.ident.name = .named []) v h2
      rcases h3 with ⟨-, h3⟩ | ⟨t, h3, -⟩
      · rw [hv.2] at h3; cases h3; exact hne rfl
      · rw [hv.1] at h3; cases h3
    · cases h1
  · exact .refText (ty := .new (.reference (.new (exId "S")))) (r := .new (exId "S")) (by decide +kernel) rfl rfl rfl
      (.builtInText (ty := .new (.buildIn .string)) (by decide +kernel) rfl hs)

end Verif.Opt

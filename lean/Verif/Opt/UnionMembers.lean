import Verif.Opt.Unions
/-!
# Removing duplicate members of unions (C38)

Models `Optimizer::remove_duplicate_union_variants` (`xsd-parser/src/pipeline/optimizer/empty_unions.rs:29-51`).
-/
namespace Verif.Opt

open Verif.Meta

/-- The `while` loop, empty_unions.rs:39-46; `seen` is the set `types_`, `f` is `typedefs.resolve`. -/
def dedup (f : Ident → Ident) (seen : List Ident) : List UnionType → List UnionType
  | [] => []
  | t :: ts => if seen.contains (f t.type_) then dedup f seen ts else t :: dedup f (f t.type_ :: seen) ts

/-- The body of the loop over the types, empty_unions.rs:35-47. -/
def dedupVariant (f : Ident → Ident) : Variant → Variant
  | .union u => .union { u with types := dedup f [] u.types }
  | v => v

/-- `Optimizer::remove_duplicate_union_variants`, empty_unions.rs:29-51. -/
def removeDuplicateUnionVariants (T : Types) : Types :=
  T.map fun p => (p.1, { p.2 with variant := dedupVariant (tdResolve T) p.2.variant })

/-! ## The loop -/

theorem dedup_sublist (f : Ident → Ident) (seen : List Ident) (l : List UnionType) : (dedup f seen l).Sublist l := by
  induction l generalizing seen with
  | nil => exact List.Sublist.refl _
  | cons t l ih =>
    simp only [dedup]
    split
    · exact (ih seen).cons t
    · exact (ih _).cons₂ t

theorem dedup_nodup (f : Ident → Ident) (seen : List Ident) (l : List UnionType) :
    ((dedup f seen l).map (fun t => f t.type_)).Nodup ∧ ∀ t ∈ dedup f seen l, f t.type_ ∉ seen := by
  induction l generalizing seen with
  | nil => simp [dedup]
  | cons t l ih =>
    simp only [dedup]
    split
    · exact ih seen
    · rename_i h
      have hs : f t.type_ ∉ seen := by simpa using h
      obtain ⟨h1, h2⟩ := ih (f t.type_ :: seen)
      constructor
      · rw [List.map_cons, List.nodup_cons]
        refine ⟨?_, h1⟩
        intro hc
        obtain ⟨t', ht', he⟩ := List.mem_map.1 hc
        exact h2 t' ht' (by rw [he]; exact List.mem_cons_self ..)
      · intro t' ht'
        rcases List.mem_cons.1 ht' with rfl | ht'
        · exact hs
        · exact fun hc => h2 t' ht' (List.mem_cons_of_mem _ hc)

theorem dedup_complete (f : Ident → Ident) (seen : List Ident) (l : List UnionType) (t : UnionType) (ht : t ∈ l) :
    f t.type_ ∈ seen ∨ ∃ t' ∈ dedup f seen l, f t'.type_ = f t.type_ := by
  induction l generalizing seen with
  | nil => cases ht
  | cons a l ih =>
    simp only [dedup]
    split
    · rename_i h
      rcases List.mem_cons.1 ht with rfl | ht
      · exact Or.inl (by simpa using h)
      · exact ih seen ht
    · rcases List.mem_cons.1 ht with rfl | ht
      · exact Or.inr ⟨t, List.mem_cons_self .., rfl⟩
      · rcases ih (f a.type_ :: seen) ht with h' | ⟨t', h1, h2⟩
        · rcases List.mem_cons.1 h' with h' | h'
          · exact Or.inr ⟨a, List.mem_cons_self .., h'.symm⟩
          · exact Or.inl h'
        · exact Or.inr ⟨t', List.mem_cons_of_mem _ h1, h2⟩

/-- A first occurrence is kept, with the first occurrences before it in front of it. -/
theorem dedup_first (f : Ident → Ident) (seen : List Ident) (pre post : List UnionType) (t : UnionType)
    (hs : f t.type_ ∉ seen) (hp : ∀ a ∈ pre, f a.type_ ≠ f t.type_) :
    ∃ post', dedup f seen (pre ++ t :: post) = dedup f seen pre ++ t :: post' := by
  induction pre generalizing seen with
  | nil =>
    refine ⟨dedup f (f t.type_ :: seen) post, ?_⟩
    simp [dedup, hs]
  | cons a pre ih =>
    simp only [List.cons_append, dedup]
    have hp' := fun b hb => hp b (List.mem_cons_of_mem _ hb)
    by_cases h : seen.contains (f a.type_) = true
    · simp only [h, if_true]; exact ih seen hs hp'
    · simp only [if_neg h]
      obtain ⟨post', he⟩ := ih (f a.type_ :: seen) (by
        rw [List.mem_cons, not_or]
        exact ⟨fun hc => hp a (List.mem_cons_self ..) hc.symm, hs⟩) hp'
      exact ⟨post', by rw [he]; rfl⟩

/-- What stands before a kept member was kept or equals something kept before it. -/
theorem dedup_split (f : Ident → Ident) (seen : List Ident) (l pre' post' : List UnionType) (t : UnionType)
    (h : dedup f seen l = pre' ++ t :: post') :
    ∃ pre post, l = pre ++ t :: post ∧ ∀ a ∈ pre, f a.type_ ∈ seen ∨ ∃ b ∈ pre', f b.type_ = f a.type_ := by
  induction l generalizing seen pre' with
  | nil => simp [dedup] at h
  | cons a l ih =>
    simp only [dedup] at h
    split at h
    · rename_i hs
      obtain ⟨pre, post, h1, h2⟩ := ih seen pre' h
      refine ⟨a :: pre, post, by rw [h1]; rfl, ?_⟩
      intro b hb
      rcases List.mem_cons.1 hb with rfl | hb
      · exact Or.inl (by simpa using hs)
      · exact h2 b hb
    · cases pre' with
      | nil =>
        simp at h
        exact ⟨[], l, by rw [h.1]; rfl, by simp⟩
      | cons p pre' =>
        simp only [List.cons_append, List.cons.injEq] at h
        obtain ⟨rfl, h⟩ := h
        obtain ⟨pre, post, h1, h2⟩ := ih _ pre' h
        refine ⟨a :: pre, post, by rw [h1]; rfl, ?_⟩
        intro b hb
        rcases List.mem_cons.1 hb with rfl | hb
        · exact Or.inr ⟨b, List.mem_cons_self .., rfl⟩
        · rcases h2 b hb with h' | ⟨c, hc, he⟩
          · rcases List.mem_cons.1 h' with h' | h'
            · exact Or.inr ⟨a, List.mem_cons_self .., h'.symm⟩
            · exact Or.inl h'
          · exact Or.inr ⟨c, List.mem_cons_of_mem _ hc, he⟩

theorem get_dedup (T : Types) (i : Ident) :
    Assoc.get (removeDuplicateUnionVariants T) i =
      (Assoc.get T i).map fun ty => { ty with variant := dedupVariant (tdResolve T) ty.variant } :=
  get_map (fun ty => { ty with variant := dedupVariant (tdResolve T) ty.variant }) i

theorem look_dedup (T : Types) (i : Ident) :
    look (removeDuplicateUnionVariants T) i = (look T i).map (dedupVariant (tdResolve T)) := by
  simp [look, get_dedup, Function.comp_def]

theorem dedup_synonym (T : Types) (i k : Ident) :
    Synonym (removeDuplicateUnionVariants T) i k ↔ Synonym T i k := by
  rw [synonym_look, synonym_look, look_dedup]
  cases look T i with
  | none => simp
  | some v => cases v <;> simp [dedupVariant, Variant.target]

/-! ## Properties -/

/-- C38: a union keeps its base, facets and a part of its members in the same order: no two members that are kept stand for
the same type, and the first member for every type is kept. All other types are unchanged. -/
theorem C38_first_of_each_kept (T : Types) (ha : Acyclic T) (hc : Closed T) (i : Ident) (ty : MetaType)
    (hi : Assoc.get T i = some ty) :
    (∀ u, ty.variant = .union u → ∃ ts, Assoc.get (removeDuplicateUnionVariants T) i =
        some { ty with variant := .union { u with types := ts } } ∧
      ts.Sublist u.types ∧ (ts.map (fun t => res T t.type_)).Nodup ∧
      ∀ pre t post, u.types = pre ++ t :: post → (∀ a ∈ pre, res T a.type_ ≠ res T t.type_) → t ∈ ts) ∧
    ((∀ u, ty.variant ≠ .union u) → Assoc.get (removeDuplicateUnionVariants T) i = some ty) := by
  constructor
  · intro u hu
    refine ⟨dedup (res T) [] u.types, ?_, dedup_sublist _ _ _, (dedup_nodup _ _ _).1, ?_⟩
    · rw [get_dedup, hi, tdResolve_eq ha hc]; simp [hu, dedupVariant]
    · intro pre t post he hp
      obtain ⟨post', h⟩ := dedup_first (res T) [] pre post t (by simp) hp
      rw [he, h]; simp
  · intro hu
    rw [get_dedup, hi]
    have : dedupVariant (tdResolve T) ty.variant = ty.variant := by
      cases hv : ty.variant <;> simp [dedupVariant]
      exact absurd hv (hu _)
    simp [this]

/-- A type and what it stands for accept the same texts. -/
theorem valid_text_res {P : Lex} {T : Types} (ha : Acyclic T) (hc : Closed T) (i : Ident) (s : Txt) :
    Valid P T (.text i s) ↔ Valid P T (.text (res T i) s) := by
  refine ⟨?_, (Valid.of_res i).1 s⟩
  refine synonym_induct (P := fun i => Valid P T (.text i s) → Valid P T (.text (res T i) s)) ha ?_ ?_ i
  · intro i h hv; rw [res_of_not_synonym h]; exact hv
  · intro i k hs hd ih hv
    rw [res_synonym ha hs hd]
    exact ih (valid_synonym_inv hs hv)

theorem follow_congr {T T' : Types} (h : ∀ i k, Synonym T i k ↔ Synonym T' i k) (hd : ∀ i, Defined T i ↔ Defined T' i)
    {i j : Ident} {p : List Ident} (hf : Follow T i p j) : Follow T' i p j := by
  induction hf with
  | here h' => exact .here ((hd _).1 h')
  | step hs _ ih => exact .step ((h _ _).1 hs) ih

theorem dedup_defined (T : Types) (i : Ident) : Defined (removeDuplicateUnionVariants T) i ↔ Defined T i := by
  simp only [Defined, get_dedup]
  cases Assoc.get T i <;> simp

theorem dedup_wellFormed {T : Types} (ha : Acyclic T) (hc : Closed T) :
    Acyclic (removeDuplicateUnionVariants T) ∧ Closed (removeDuplicateUnionVariants T) := by
  constructor
  · rintro i ⟨k, p, hs, hf⟩
    exact ha i ⟨k, p, (dedup_synonym T i k).1 hs, follow_congr (dedup_synonym T) (dedup_defined T) hf⟩
  · intro i k hs
    exact (dedup_defined T k).2 (hc i k ((dedup_synonym T i k).1 hs))

theorem dedup_res {T : Types} (ha : Acyclic T) (hc : Closed T) (i : Ident) :
    res (removeDuplicateUnionVariants T) i = res T i := by
  have hw := dedup_wellFormed ha hc
  refine synonym_induct (P := fun i => res (removeDuplicateUnionVariants T) i = res T i) ha ?_ ?_ i
  · intro i h
    rw [res_of_not_synonym h]
    apply res_of_not_synonym
    intro k hk
    have := h k ((dedup_synonym T i k).1 hk)
    rw [dedup_defined]; exact this
  · intro i k hs hd ih
    have hs' := (dedup_synonym T i k).2 hs
    rw [res_synonym ha hs hd, res_synonym hw.1 hs' (hw.2 i k hs'), ih]

/-- C38: the accepted documents do not change. -/
theorem C38_same_documents (P : Lex) (T : Types) (ha : Acyclic T) (hc : Closed T) (j : Judge) :
    Valid P (removeDuplicateUnionVariants T) j ↔ Valid P T j := by
  have hw := dedup_wellFormed ha hc
  have hl : ∀ i, look T i = look (removeDuplicateUnionVariants T) i ∨
      ∃ u, look T i = some (.union u) ∧
        look (removeDuplicateUnionVariants T) i = some (.union { u with types := dedup (res T) [] u.types }) := by
    intro i
    rw [look_dedup, tdResolve_eq ha hc]
    cases hv : look T i with
    | none => exact Or.inl rfl
    | some v => cases v <;> simp [dedupVariant]
  constructor
  · refine Valid.simulate (fun i => ?_)
    rcases hl i with h | ⟨u, h1, h2⟩
    · exact Or.inl h.symm
    · refine Or.inr (fun j hj hs => ?_)
      rcases hs.union hj h2 with ⟨m, s, rfl, hm, hf, hv⟩ | ⟨s, x, rfl, hv⟩
      · obtain ⟨ty, g1, g2⟩ := look_iff.1 h1
        exact .unionText g1 g2 ((dedup_sublist _ _ _).subset hm) hf hv
      · exact .textValue hv
  · refine Valid.simulate (fun i => ?_)
    rcases hl i with h | ⟨u, h1, h2⟩
    · exact Or.inl h
    · refine Or.inr (fun j hj hs => ?_)
      rcases hs.union hj h1 with ⟨m, s, rfl, hm, hf, hv⟩ | ⟨s, x, rfl, hv⟩
      · obtain ⟨ty, g1, g2⟩ := look_iff.1 h2
        rcases dedup_complete (res T) [] u.types m hm with hc' | ⟨m', hm', he⟩
        · cases hc'
        · refine .unionText g1 g2 hm' hf ?_
          rw [valid_text_res hw.1 hw.2, dedup_res ha hc, he, ← dedup_res ha hc, ← valid_text_res hw.1 hw.2]
          exact hv
      · exact .textValue hv

/-- C38: the type that is chosen for a text does not change. -/
theorem C38_same_choice (P : Lex) (T : Types) (ha : Acyclic T) (hc : Closed T) (i : Ident) (s : Txt) (l : Ident)
    (h : Choose P T i s l) : Choose P (removeDuplicateUnionVariants T) i s l := by
  have hw := dedup_wellFormed ha hc
  induction h with
  | synonym hs _ ih => exact .synonym ((dedup_synonym T _ _).2 hs) ih
  | @member i u pre m post s l hl he hpre hf hch ih =>
    have hl' : look (removeDuplicateUnionVariants T) i = some (.union { u with types := dedup (res T) [] u.types }) := by
      rw [look_dedup, hl, tdResolve_eq ha hc]; rfl
    have hne : ∀ a ∈ pre, res T a.type_ ≠ res T m.type_ := by
      intro a hma hr
      apply hpre a hma
      rw [valid_text_res ha hc, hr, ← valid_text_res ha hc]
      exact choose_valid hch
    obtain ⟨post', hd⟩ := dedup_first (res T) [] pre post m (by simp) hne
    refine .member (pre := dedup (res T) [] pre) (m := m) (post := post') hl' (by rw [he]; exact hd) ?_ hf ih
    intro m' hm' hv
    rw [C38_same_documents P T ha hc] at hv
    exact hpre m' ((dedup_sublist _ _ _).subset hm') hv
  | @leaf i v s hl hu ht hv =>
    refine .leaf (v := v) ?_ hu ht ((C38_same_documents P T ha hc _).2 hv)
    rw [look_dedup, hl]
    cases v <;> simp_all [dedupVariant, isUnion]

/-- C38: and no other type is chosen. -/
theorem C38_same_choice_back (P : Lex) (T : Types) (ha : Acyclic T) (hc : Closed T) (i : Ident) (s : Txt) (l : Ident)
    (h : Choose P (removeDuplicateUnionVariants T) i s l) : Choose P T i s l := by
  have hw := dedup_wellFormed ha hc
  induction h with
  | synonym hs _ ih => exact .synonym ((dedup_synonym T _ _).1 hs) ih
  | @member i u' pre' m post' s l hl' he hpre hf hch ih =>
    rw [look_dedup, tdResolve_eq ha hc] at hl'
    cases hl : look T i with
    | none => rw [hl] at hl'; cases hl'
    | some v =>
      rw [hl] at hl'
      cases v <;> simp [dedupVariant] at hl'
      rename_i u
      subst hl'
      obtain ⟨pre, post, h1, h2⟩ := dedup_split (res T) [] u.types pre' post' m he
      refine .member hl h1 ?_ hf ih
      intro a hma hv
      rcases h2 a hma with h' | ⟨b, hb, hr⟩
      · cases h'
      · apply hpre b hb
        rw [C38_same_documents P T ha hc, valid_text_res ha hc, hr, ← valid_text_res ha hc]
        exact hv
  | @leaf i v s hl' hu ht hv =>
    rw [look_dedup, tdResolve_eq ha hc] at hl'
    cases hl : look T i with
    | none => rw [hl] at hl'; cases hl'
    | some v' =>
      rw [hl] at hl'
      have : v' = v := by
        cases v' <;> simp [dedupVariant] at hl' <;> (try exact hl')
        subst hl'; cases hu
      subst this
      exact .leaf hl hu ht ((C38_same_documents P T ha hc _).1 hv)

/-- `A = B`, `B = C`; of the members `A`, `C`, `L`, `B` the first and the third are kept. -/
example :
    look (removeDuplicateUnionVariants (exChain ++ [(exId "U", .new (.union ⟨.none,
        [⟨exId "A", some ['a']⟩, ⟨exId "C", none⟩, ⟨exId "L", none⟩, ⟨exId "B", none⟩], .default⟩))])) (exId "U") =
      some (.union ⟨.none, [⟨exId "A", some ['a']⟩, ⟨exId "L", none⟩], .default⟩) := by decide +kernel

example : Acyclic (exChain ++ [(exId "U", MetaType.new (.union ⟨.none,
      [⟨exId "A", some ['a']⟩, ⟨exId "C", none⟩, ⟨exId "L", none⟩, ⟨exId "B", none⟩], .default⟩))]) ∧
    Closed (exChain ++ [(exId "U", MetaType.new (.union ⟨.none,
      [⟨exId "A", some ['a']⟩, ⟨exId "C", none⟩, ⟨exId "L", none⟩, ⟨exId "B", none⟩], .default⟩))]) :=
  ⟨acyclic_of_rank _ (fun i => if i = exId "A" then 2 else if i = exId "B" then 1 else 0) (by decide +kernel),
    closed_of_check _ (by decide +kernel)⟩

end Verif.Opt

import Verif.Opt.Content
/-!
# Merging the cardinality of choices (C41)

Models `xsd-parser/src/pipeline/optimizer/merge_choice_cardinality.rs`.
-/
namespace Verif.Opt

open Verif.Meta
open Verif.Occurs (MaxOccurs Allows)

/-- `element.min_occurs = 1; element.max_occurs = MaxOccurs::Bounded(1)`, merge_choice_cardinality.rs:54-55
(and `reset_occurs`, flatten_complex_type.rs:406-409). -/
def resetOccurs (e : Element) : Element := { e with min := 1, max := .bounded 1 }

/-- The loop of merge_choice_cardinality.rs:47-56: the least `min` (at most 1) and the greatest `max` (at least 1). -/
def choiceBounds (es : List Element) : Nat × MaxOccurs :=
  es.foldl (fun b e => (min b.1 e.min, b.2.max e.max)) (1, .bounded 1)

/-- `Optimizer::merge_choice_cardinality`, merge_choice_cardinality.rs:30-68. -/
def mergeChoice (T : Types) (i : Ident) : Res Types :=
  match Assoc.get T i with
  | none => .err (.unknownType i)
  | some ty =>
    match ty.variant with
    | .complex ci =>
      match ci.content with
      | none => .err (.missingContentType i)
      | some g =>
        match look T g with
        | some (.choice x) =>
          let b := choiceBounds x.elements
          let T := setVariant T g (.choice { x with elements := x.elements.map resetOccurs })
          .ok (setVariant T i (.complex { ci with min := min b.1 ci.min, max := b.2.max ci.max }))
        | _ => .err (.expectedComplexChoice i)
    | _ => .err (.expectedComplexType i)

/-- `ComplexMeta::has_complex_choice_content` of an entry, models/meta/complex.rs:125-130. -/
def hasChoiceContent (T : Types) (v : Variant) : Bool :=
  match v with
  | .complex ci =>
    match ci.content.bind (getResolvedType T) with
    | some ty => match ty.variant with | .choice _ => true | _ => false
    | none => false
  | _ => false

/-- `Optimizer::merge_choice_cardinalities`, merge_choice_cardinality.rs:74-96. -/
def mergeChoices (T : Types) : Res Types :=
  forEach mergeChoice T ((T.filter fun p => hasChoiceContent T p.2.variant).map (·.1))

/-! ## Specification -/

/-- The largest number of occurrences of the choice times the largest number of occurrences of an alternative does not
exceed both: nothing is repeated inside and outside. -/
def OneSided (C : Complex) (es : List Element) : Prop :=
  C.max = .unbounded ∨ (∃ e ∈ es, e.max = .unbounded) ∨ (∃ b, b ≤ 1 ∧ C.max = .bounded b) ∨
  ∀ e ∈ es, ∃ b, b ≤ 1 ∧ e.max = .bounded b

/-- Every complex type with a choice as content is the only one that uses that choice, names it directly, and repeats
either the choice or its alternatives. -/
def Mergeable (T : Types) (c : Ident) : Prop :=
  ∃ C g x, look T c = some (.complex C) ∧ C.content = some g ∧ look T g = some (.choice x) ∧ OnlyUsedBy T c g ∧
    OneSided C x.elements

/-! ## Proofs -/

theorem max_ge_left (a b : MaxOccurs) : (∀ n, a.max b = .bounded n → ∃ m, a = .bounded m ∧ m ≤ n) := by
  intro n h
  unfold MaxOccurs.max at h
  cases a with
  | unbounded => cases b <;> simp [MaxOccurs.cmp] at h
  | bounded x =>
    refine ⟨x, rfl, ?_⟩
    cases b with
    | unbounded => simp [MaxOccurs.cmp] at h
    | bounded y =>
      simp only [MaxOccurs.cmp] at h
      have := Nat.compare_eq_gt (a := x) (b := y)
      cases hc : compare x y <;> rw [hc] at h <;> simp at h
      · have := Nat.compare_eq_lt.1 hc; omega
      · have := Nat.compare_eq_eq.1 hc; omega
      · omega

theorem max_ge_right (a b : MaxOccurs) : (∀ n, a.max b = .bounded n → ∃ m, b = .bounded m ∧ m ≤ n) := by
  intro n h
  unfold MaxOccurs.max at h
  cases b with
  | unbounded => cases a <;> simp [MaxOccurs.cmp] at h
  | bounded y =>
    refine ⟨y, rfl, ?_⟩
    cases a with
    | unbounded => simp [MaxOccurs.cmp] at h
    | bounded x =>
      simp only [MaxOccurs.cmp] at h
      cases hc : compare x y <;> rw [hc] at h <;> simp at h
      · omega
      · omega
      · have := Nat.compare_eq_gt.1 hc; omega

theorem choiceBounds_aux (es : List Element) (b : Nat × MaxOccurs) :
    (es.foldl (fun b e => (min b.1 e.min, b.2.max e.max)) b).1 ≤ b.1 ∧
    (∀ e ∈ es, (es.foldl (fun b e => (min b.1 e.min, b.2.max e.max)) b).1 ≤ e.min) ∧
    (∀ n, (es.foldl (fun b e => (min b.1 e.min, b.2.max e.max)) b).2 = .bounded n →
      (∃ m, b.2 = .bounded m ∧ m ≤ n) ∧ ∀ e ∈ es, ∃ m, e.max = .bounded m ∧ m ≤ n) := by
  induction es generalizing b with
  | nil => refine ⟨Nat.le_refl _, by simp, fun n h => ⟨⟨n, h, Nat.le_refl _⟩, by simp⟩⟩
  | cons e es ih =>
    obtain ⟨h1, h2, h3⟩ := ih (min b.1 e.min, b.2.max e.max)
    simp only [List.foldl_cons]
    have hm1 := Nat.min_le_left b.1 e.min
    have hm2 := Nat.min_le_right b.1 e.min
    refine ⟨Nat.le_trans h1 hm1, ?_, ?_⟩
    · intro e' he'
      rcases List.mem_cons.1 he' with rfl | he'
      · exact Nat.le_trans h1 hm2
      · exact h2 e' he'
    · intro n hn
      obtain ⟨⟨m, hm, hmn⟩, h4⟩ := h3 n hn
      obtain ⟨a, ha, han⟩ := max_ge_left _ _ m hm
      obtain ⟨a', ha', han'⟩ := max_ge_right _ _ m hm
      refine ⟨⟨a, ha, by omega⟩, ?_⟩
      intro e' he'
      rcases List.mem_cons.1 he' with rfl | he'
      · exact ⟨a', ha', by omega⟩
      · exact h4 e' he'

/-- The new bounds allow the number of all occurrences together. -/
theorem choiceBounds_allows (C : Complex) (es : List Element) (h1 : OneSided C es) (counts : List Nat)
    (hl : Allows C.min C.max counts.length) (hcs : ∀ k ∈ counts, ∃ e ∈ es, Allows e.min e.max k) :
    Allows (min (choiceBounds es).1 C.min) ((choiceBounds es).2.max C.max) counts.sum := by
  obtain ⟨b1, b2, b3⟩ := choiceBounds_aux es (1, .bounded 1)
  change (choiceBounds es).1 ≤ 1 at b1
  change ∀ e ∈ es, (choiceBounds es).1 ≤ e.min at b2
  change ∀ n, (choiceBounds es).2 = .bounded n → _ at b3
  constructor
  · have hmin1 := Nat.min_le_left (choiceBounds es).1 C.min
    have hmin2 := Nat.min_le_right (choiceBounds es).1 C.min
    by_cases h0 : min (choiceBounds es).1 C.min = 0
    · omega
    · cases counts with
      | nil => have := hl.1; simp at this; omega
      | cons k ks =>
        obtain ⟨e, he, hk⟩ := hcs k (by simp)
        have := b2 e he
        have := hk.1
        simp
        omega
  · intro n hn
    obtain ⟨m, hm, hmn⟩ := max_ge_left _ _ n hn
    obtain ⟨cm, hcm, hcmn⟩ := max_ge_right _ _ n hn
    obtain ⟨-, hes⟩ := b3 m hm
    have hlen := hl.2 cm hcm
    rcases h1 with h | ⟨e, he, h⟩ | ⟨b, hb, h⟩ | h
    · rw [h] at hcm; cases hcm
    · obtain ⟨m', hm', -⟩ := hes e he; rw [h] at hm'; cases hm'
    · rw [h] at hcm; cases hcm
      match counts, hlen, hcs with
      | [], _, _ => simp
      | [k], _, hcs =>
        obtain ⟨e, he, hk⟩ := hcs k (by simp)
        obtain ⟨m', hm', hmm⟩ := hes e he
        have := hk.2 m' hm'
        simp
        omega
      | _ :: _ :: _, hlen, _ => simp at hlen; omega
    · have hle : counts.sum ≤ counts.length := by
        have : ∀ k ∈ counts, k ≤ 1 := by
          intro k hk
          obtain ⟨e, he, hk⟩ := hcs k hk
          obtain ⟨b, hb, hb'⟩ := h e he
          exact Nat.le_trans (hk.2 b hb') hb
        have := Verif.Occurs.sum_le counts 1 this
        omega
      omega

theorem Step.group_choice {P : Lex} {l : Ident → Option Variant} {R : Judge → Prop} {g : Ident} {x : Group}
    {ns : List Node} (h : Step P l R (.group g ns)) (hl : l g = some (.choice x)) :
    ∃ e ∈ x.elements, ∃ k, Allows e.min e.max k ∧ R (.times e k ns) := by
  cases h <;> simp_all
  case choice => exact ⟨_, ‹_›, _, ‹_›, ‹_›⟩

/-- Parts that are each a repetition of an alternative make up a repetition of the new choice. -/
theorem choice_parts {P : Lex} {T' : Types} {g : Ident} {x : Group}
    (hg : look T' g = some (.choice { x with elements := x.elements.map resetOccurs })) (parts : List (List Node))
    (hp : ∀ p ∈ parts, ∃ e ∈ x.elements, ∃ k, Allows e.min e.max k ∧ Valid P T' (.times e k p)) :
    ∃ counts : List Nat, counts.length = parts.length ∧ (∀ k ∈ counts, ∃ e ∈ x.elements, Allows e.min e.max k) ∧
      Valid P T' (.groupTimes g counts.sum parts.flatten) := by
  induction parts with
  | nil => exact ⟨[], rfl, by simp, .noTimes⟩
  | cons p ps ih =>
    obtain ⟨cs, c1, c2, c3⟩ := ih (fun q hq => hp q (by simp [hq]))
    obtain ⟨e, he, k, hk, ht⟩ := hp p (by simp)
    refine ⟨k :: cs, by simp [c1], ?_, ?_⟩
    · intro k' hk'
      rcases List.mem_cons.1 hk' with rfl | hk'
      · exact ⟨e, he, hk⟩
      · exact c2 k' hk'
    · obtain ⟨qs, rfl, rfl, hq⟩ := times_parts ht
      have hone : Valid P T' (.groupTimes g qs.length qs.flatten) := by
        apply groupTimes_of_parts
        intro q hq'
        obtain ⟨ty, e1, e2⟩ := look_iff.1 hg
        refine .choice (e := resetOccurs e) (k := 1) e1 e2 (List.mem_map.2 ⟨e, he, rfl⟩) ⟨by simp [resetOccurs], ?_⟩ ?_
        · intro b hb
          simp [resetOccurs] at hb
          omega
        · have := times_of_parts (e := resetOccurs e) [q] (by
            intro y hy
            simp at hy
            subst hy
            exact particle_congr (hq y hq') rfl rfl)
          simpa using this
      simpa using groupTimes_append hone c3

/-- What one merge does. -/
theorem mergeChoice_ok {T : Types} {c g : Ident} {C : Complex} {x : Group} (hc : look T c = some (.complex C))
    (hg : C.content = some g) (hx : look T g = some (.choice x)) :
    ∃ T', mergeChoice T c = .ok T' ∧
      look T' c = some (.complex { C with min := min (choiceBounds x.elements).1 C.min, max := (choiceBounds x.elements).2.max C.max }) ∧
      look T' g = some (.choice { x with elements := x.elements.map resetOccurs }) ∧
      (∀ i, i ≠ c → i ≠ g → look T' i = look T i) := by
  obtain ⟨ty, e1, e2⟩ := look_iff.1 hc
  have hne : g ≠ c := by rintro rfl; rw [hc] at hx; cases hx
  refine ⟨setVariant (setVariant T g (.choice { x with elements := x.elements.map resetOccurs })) c
    (.complex { C with min := min (choiceBounds x.elements).1 C.min, max := (choiceBounds x.elements).2.max C.max }),
    ?_, ?_, ?_, ?_⟩
  · simp only [mergeChoice, e1, e2, hg, hx]
  · simp only [look_setVariant, if_true, if_neg (Ne.symm hne), hc, Option.map_some]
  · simp only [look_setVariant, if_neg hne, if_true, hx, Option.map_some]
  · intro i h1 h2
    simp only [look_setVariant, if_neg h1, if_neg h2]

/-- C41 (for one type): everything accepted before is accepted after the merge. -/
theorem C41_one_type_partial (P : Lex) (T T' : Types) (c : Ident) (hm : Mergeable T c) (h : mergeChoice T c = .ok T')
    (i : Ident) :
    (∀ s, Valid P T (.text i s) → Valid P T' (.text i s)) ∧
    (∀ xsi as kids, Valid P T (.value i xsi as kids) → Valid P T' (.value i xsi as kids)) := by
  obtain ⟨C, g, x, h1, h2, h3, h4, h5⟩ := hm
  obtain ⟨T'', e0, e1, e2, e3⟩ := mergeChoice_ok h1 h2 h3
  rw [h] at e0
  cases e0
  have key : ∀ {j}, Valid P T j → NewContent P T T' g j := by
    intro j
    refine replace_content (P := P) h1 e1 rfl h2 h3 trivial e3 h4 ?_
    intro parts hl hp
    obtain ⟨cs, c1, c2, c3⟩ := choice_parts (P := P) e2 parts (fun p hp' => Step.group_choice (hp p hp') h3)
    exact ⟨cs.sum, choiceBounds_allows C x.elements h5 cs (by rw [c1]; exact hl) c2, c3⟩
  exact ⟨fun s hs => key hs, fun xsi as kids hs => key hs⟩

/-- A merge of another type keeps a type mergeable. -/
theorem Mergeable.step {T T' : Types} {c d : Ident} (hc : Mergeable T c) (h : mergeChoice T c = .ok T') (hd : Mergeable T d)
    (hne : d ≠ c) : Mergeable T' d := by
  obtain ⟨C, g, x, h1, h2, h3, h4, h5⟩ := hc
  obtain ⟨D, k, y, d1, d2, d3, d4, d5⟩ := hd
  obtain ⟨T'', e0, e1, e2, e3⟩ := mergeChoice_ok h1 h2 h3
  rw [h] at e0
  cases e0
  have hdg : d ≠ g := by rintro rfl; rw [d1] at h3; cases h3
  have hkc : k ≠ c := by rintro rfl; rw [h1] at d3; cases d3
  have hkg : k ≠ g := by rintro rfl; exact hne (h4 d _ d1 d2)
  refine ⟨D, k, y, (e3 d hne hdg).trans d1, d2, (e3 k hkc hkg).trans d3, ?_, d5⟩
  intro i v hi hu
  by_cases hic : i = c
  · subst hic
    rw [e1] at hi; cases hi
    exact d4 i _ h1 hu
  · by_cases hig : i = g
    · subst hig
      rw [e2] at hi; cases hi
      obtain ⟨e, he, hv⟩ := hu
      obtain ⟨e', he', rfl⟩ := List.mem_map.1 he
      exact d4 i _ h3 ⟨e', he', hv⟩
    · rw [e3 i hic hig] at hi
      exact d4 i v hi hu

theorem mergeAll (P : Lex) (cs : List Ident) (T : Types) (hn : cs.Nodup) (hm : ∀ c ∈ cs, Mergeable T c) :
    ∃ T', forEach mergeChoice T cs = .ok T' ∧ ∀ i,
      (∀ s, Valid P T (.text i s) → Valid P T' (.text i s)) ∧
      (∀ xsi as kids, Valid P T (.value i xsi as kids) → Valid P T' (.value i xsi as kids)) := by
  induction cs generalizing T with
  | nil => exact ⟨T, rfl, fun i => ⟨fun _ h => h, fun _ _ _ h => h⟩⟩
  | cons c cs ih =>
    have hc := hm c (by simp)
    obtain ⟨C, g, x, h1, h2, h3, -, -⟩ := id hc
    obtain ⟨T₁, e0, -⟩ := mergeChoice_ok h1 h2 h3
    have hnc := List.nodup_cons.1 hn
    obtain ⟨T', e1, e2⟩ := ih T₁ hnc.2 (fun d hd => hc.step e0 (hm d (by simp [hd])) (fun he => hnc.1 (he ▸ hd)))
    refine ⟨T', ?_, ?_⟩
    · simp only [forEach, e0, Res.unwrap]
      exact e1
    · intro i
      obtain ⟨f1, f2⟩ := C41_one_type_partial P T T₁ c hc e0 i
      exact ⟨fun s h => (e2 i).1 s (f1 s h), fun xsi as kids h => (e2 i).2 xsi as kids (f2 xsi as kids h)⟩

theorem hasChoiceContent_iff {T : Types} {v : Variant} :
    hasChoiceContent T v = true ↔ ∃ C g ty x, v = .complex C ∧ C.content = some g ∧ getResolvedType T g = some ty ∧
      ty.variant = .choice x := by
  cases v with
  | complex C =>
    simp only [hasChoiceContent]
    cases hc : C.content with
    | none => simp [hc]
    | some g =>
      simp only [Option.bind_some]
      cases hr : getResolvedType T g with
      | none => simp [hr, hc]
      | some ty =>
        cases hv : ty.variant <;> simp_all
  | _ => simp [hasChoiceContent]

/-- C41: if no choice is shared between types, and no type repeats both its choice and an alternative of it a limited number
of times, then the pass succeeds and everything accepted before is accepted after it. (Missing, and false: types that do
both, see `C41_counts_lost`; types that share a choice, see `C41_shared_choice_lost`.) -/
theorem C41_accepts_no_less_partial (P : Lex) (T : Types) (hk : Assoc.Keyed T)
    (hm : ∀ c C g ty x, look T c = some (.complex C) → C.content = some g → getResolvedType T g = some ty →
      ty.variant = .choice x → look T g = some (.choice x) ∧ OnlyUsedBy T c g ∧ OneSided C x.elements) :
    ∃ T', mergeChoices T = .ok T' ∧ ∀ i,
      (∀ s, Valid P T (.text i s) → Valid P T' (.text i s)) ∧
      (∀ xsi as kids, Valid P T (.value i xsi as kids) → Valid P T' (.value i xsi as kids)) := by
  apply mergeAll
  · exact List.Sublist.nodup (List.Sublist.map _ List.filter_sublist) hk
  · intro c hc
    obtain ⟨⟨c', ty'⟩, hp, rfl⟩ := List.mem_map.1 hc
    obtain ⟨hp1, hp2⟩ := List.mem_filter.1 hp
    obtain ⟨C, g, ty, x, h1, h2, h3, h4⟩ := hasChoiceContent_iff.1 hp2
    have hl : look T c' = some (.complex C) := look_of (Assoc.get_of_mem hk hp1) h1
    obtain ⟨m1, m2, m3⟩ := hm c' C g ty x hl h2 h3 h4
    exact ⟨C, g, x, hl, h2, m1, m2, m3⟩

/-- C41: bounds never get narrower, and after the pass the alternatives of a merged choice occur exactly once. -/
theorem C41_bounds (T T' : Types) (c : Ident) (h : mergeChoice T c = .ok T') :
    ∃ C C' g x, look T c = some (.complex C) ∧ look T' c = some (.complex C') ∧ C.content = some g ∧
      look T g = some (.choice x) ∧ C' = { C with min := C'.min, max := C'.max } ∧
      look T' g = some (.choice { x with elements := x.elements.map fun e => { e with min := 1, max := .bounded 1 } }) ∧
      (∀ k, Allows C.min C.max k → Allows C'.min C'.max k) ∧
      (∀ e ∈ x.elements, ∀ k, Allows e.min e.max k → Allows C'.min C'.max k) := by
  unfold mergeChoice at h
  cases h1 : Assoc.get T c with
  | none => rw [h1] at h; cases h
  | some ty =>
    rw [h1] at h
    simp only at h
    cases h2 : ty.variant with
    | complex C =>
      rw [h2] at h
      simp only at h
      cases h3 : C.content with
      | none => rw [h3] at h; cases h
      | some g =>
        rw [h3] at h
        simp only at h
        cases h4 : look T g with
        | none => rw [h4] at h; cases h
        | some v =>
          rw [h4] at h
          cases v with
          | choice x =>
            have hl := look_of h1 h2
            obtain ⟨T'', e0, e1, e2, e3⟩ := mergeChoice_ok hl h3 h4
            have hT : T'' = T' := by
              have : mergeChoice T c = .ok T' := by
                simp only [mergeChoice, h1, h2, h3, h4]
                exact h
              rw [e0] at this
              exact Res.ok.inj this
            subst hT
            obtain ⟨b1, b2, b3⟩ := choiceBounds_aux x.elements (1, .bounded 1)
            have hmin1 := Nat.min_le_left (choiceBounds x.elements).1 C.min
            have hmin2 := Nat.min_le_right (choiceBounds x.elements).1 C.min
            refine ⟨C, _, g, x, hl, e1, h3, h4, rfl, e2, ?_, ?_⟩
            · intro k hk
              refine ⟨Nat.le_trans hmin2 hk.1, ?_⟩
              intro b hb
              obtain ⟨m, hm, hmb⟩ := max_ge_right _ _ b hb
              exact Nat.le_trans (hk.2 m hm) hmb
            · intro e he k hk
              refine ⟨Nat.le_trans hmin1 (Nat.le_trans (b2 e he) hk.1), ?_⟩
              intro b hb
              obtain ⟨m, hm, hmb⟩ := max_ge_left _ _ b hb
              obtain ⟨-, h5⟩ := b3 m hm
              obtain ⟨m', hm', hmm⟩ := h5 e he
              exact Nat.le_trans (hk.2 m' hm') (Nat.le_trans hmm hmb)
          | _ => cases h
    | _ => rw [h2] at h; cases h

/-! ## Examples and what is false -/

/-- A type whose content, a choice of `a` and `b` (`a` up to `n` times), may occur up to `m` times. -/
def exChoice (m n : MaxOccurs) : Types :=
  [(exId "S", .new (.buildIn .string)),
   (exId "G", .new (.choice ⟨false, [{ exElem "a" "S" with max := n }, exElem "b" "S"]⟩)),
   (exId "C", .new (.complex ⟨.none, some (exId "G"), 1, m, false, false, []⟩))]

theorem exChoice_cases {m n : MaxOccurs} {i : Ident} {v : Variant} (h : look (exChoice m n) i = some v) :
    (i = exId "S" ∧ v = .buildIn .string) ∨
    (i = exId "G" ∧ v = .choice ⟨false, [{ exElem "a" "S" with max := n }, exElem "b" "S"]⟩) ∨
    (i = exId "C" ∧ v = .complex ⟨.none, some (exId "G"), 1, m, false, false, []⟩) := by
  obtain ⟨ty, h1, h2⟩ := look_iff.1 h
  have := Assoc.mem_of_get h1
  simp only [exChoice, List.mem_cons, Prod.mk.injEq, List.not_mem_nil, or_false] at this
  rcases this with ⟨rfl, rfl⟩ | ⟨rfl, rfl⟩ | ⟨rfl, rfl⟩
  · exact Or.inl ⟨rfl, h2.symm⟩
  · exact Or.inr (Or.inl ⟨rfl, h2.symm⟩)
  · exact Or.inr (Or.inr ⟨rfl, h2.symm⟩)

/-- The hypotheses of `C41_accepts_no_less_partial` are met. -/
example (P : Lex) : ∃ T', mergeChoices (exChoice (.bounded 1) (.bounded 3)) = .ok T' ∧ ∀ i,
      (∀ s, Valid P (exChoice (.bounded 1) (.bounded 3)) (.text i s) → Valid P T' (.text i s)) ∧
      (∀ xsi as kids, Valid P (exChoice (.bounded 1) (.bounded 3)) (.value i xsi as kids) →
        Valid P T' (.value i xsi as kids)) := by
  apply C41_accepts_no_less_partial
  · unfold Assoc.Keyed; decide +kernel
  · intro c C g ty x h1 h2 h3 h4
    rcases exChoice_cases h1 with ⟨-, hv⟩ | ⟨-, hv⟩ | ⟨rfl, hv⟩
    · cases hv
    · cases hv
    · cases hv
      simp at h2
      subst h2
      have hr : getResolvedType (exChoice (.bounded 1) (.bounded 3)) (exId "G") =
          some (.new (.choice ⟨false, [{ exElem "a" "S" with max := .bounded 3 }, exElem "b" "S"]⟩)) := by decide +kernel
      rw [hr] at h3
      cases h3
      cases h4
      refine ⟨by decide +kernel, ?_, Or.inr (Or.inr (Or.inl ⟨1, Nat.le_refl _, rfl⟩))⟩
      intro i v hi hu
      rcases exChoice_cases hi with ⟨rfl, rfl⟩ | ⟨rfl, rfl⟩ | ⟨rfl, rfl⟩
      · exact absurd hu (by simp [UsesGroup])
      · simp [UsesGroup, exElem] at hu
      · rfl

/-- An element `a` with the text `s`. -/
def exA (s : Txt) : Node := .elem ⟨0, .named "a".toList⟩ none [] [.text s]

theorem elem_only {P : Lex} {T : Types} {e : Element} {i : Ident} {ns : List Node} (he : e.variant = .type_ i .element)
    (h : Valid P T (.particle e ns)) : ns.length = 1 := by
  cases h with
  | element _ _ => rfl
  | nested h1 _ => rw [he] at h1; cases h1
  | wildcard h1 _ => rw [he] at h1; cases h1
  | textNode h1 => rw [he] at h1; cases h1

theorem flatten_length_one {α : Type} (l : List (List α)) (h : ∀ p ∈ l, p.length = 1) : l.flatten.length = l.length := by
  induction l with
  | nil => rfl
  | cons p l ih =>
    have := h p (by simp)
    have := ih (fun q hq => h q (by simp [hq]))
    simp [List.length_flatten] at *
    omega

/-- With a choice of single elements as content, a type that allows at most `n` occurrences allows at most `n` children. -/
theorem choice_at_most {P : Lex} {T : Types} {c g : Ident} {C : Complex} {x : Group} {n : Nat}
    (hc : look T c = some (.complex C)) (hg : C.content = some g) (hx : look T g = some (.choice x))
    (hel : ∀ e ∈ x.elements, e.min = 1 ∧ e.max = .bounded 1 ∧ ∃ i, e.variant = .type_ i .element)
    (hn : C.max = .bounded n) (hmix : C.isMixed = false) {xsi as kids} (h : Valid P T (.value c xsi as kids)) :
    kids.length ≤ max n 1 := by
  cases h.step with
  | refValue h1 _ _ _ => rw [hc] at h1; cases h1
  | textValue _ => simp; omega
  | customValue h1 _ => rw [hc] at h1; cases h1
  | dynamicValue h1 _ _ _ => rw [hc] at h1; cases h1
  | emptyValue _ _ _ _ => simp
  | simpleValue _ _ _ _ _ => simp; omega
  | complexValue h1 h2 h3 h4 h5 h6 =>
    rw [hc] at h1; cases h1
    rw [hg] at h2; cases h2
    rw [hmix] at h6
    simp only [Bool.false_eq_true, if_false] at h6
    obtain ⟨parts, p1, p2, p3⟩ := groupTimes_parts h6
    have hone : ∀ p ∈ parts, p.length = 1 := by
      intro p hp
      obtain ⟨e, he, k, hk, ht⟩ := Step.group_choice (p3 p hp).step hx
      obtain ⟨e1, e2, i, e3⟩ := hel e he
      have hk1 : k = 1 := by
        have := hk.1; have := hk.2 1 e2; omega
      subst hk1
      obtain ⟨qs, q1, q2, q3⟩ := times_parts ht
      match qs, q1 with
      | [q], _ =>
        simp at q2
        subst q2
        exact elem_only e3 (q3 _ (by simp))
    have := flatten_length_one parts hone
    rw [p2, p1] at this
    have := h5.2 n hn
    omega

theorem exChoice_accepts (P : Lex) (T : Types) (g c : Ident) (C : Complex) (x : Group) (e : Element) (s : Txt) (t : Ident)
    (k l : Nat) (hP : Valid P T (.text t s)) (hc : look T c = some (.complex C)) (hg : C.content = some g)
    (hx : look T g = some (.choice x)) (he : e ∈ x.elements) (hi : e.ident = ⟨0, .named "a".toList⟩)
    (hv : e.variant = .type_ t .element) (hk : Allows e.min e.max k) (hl : Allows C.min C.max l) (hmix : C.isMixed = false)
    (hatt : C.attributes = []) : Valid P T (.value c none [] (List.replicate l (List.replicate k (exA s))).flatten) := by
  obtain ⟨ty, e1, e2⟩ := look_iff.1 hc
  obtain ⟨ty', e1', e2'⟩ := look_iff.1 hx
  have hgt : Valid P T (.groupTimes g l (List.replicate l (List.replicate k (exA s))).flatten) := by
    have := groupTimes_of_parts (P := P) (T := T) (g := g) (List.replicate l (List.replicate k (exA s))) (by
      intro p hp
      rw [(List.mem_replicate.1 hp).2]
      refine .choice e1' e2' he hk ?_
      have hpart := times_of_parts (P := P) (T := T) (e := e) (List.replicate k [exA s]) (by
        intro q hq
        rw [(List.mem_replicate.1 hq).2]
        have := Valid.element (xsi := none) (as := []) (kids := [.text s]) hv (.textValue hP)
        rw [hi] at this
        exact this)
      have hflat : ∀ k, (List.replicate k [exA s]).flatten = List.replicate k (exA s) := by
        intro k
        induction k with
        | zero => rfl
        | succ k ih => simp [List.replicate_succ, ih]
      rw [hflat, List.length_replicate] at hpart
      exact hpart)
    rw [List.length_replicate] at this
    exact this
  refine .complexValue e1 e2 hg ?_ ?_ hl (by rw [hmix]; exact hgt)
  · rw [hatt]; exact ⟨by simp, by simp⟩
  · rw [hatt]; simp

/-- C41 (negation): a choice that may occur twice, with an alternative that may occur three times, accepts six elements
before and at most three after the pass. -/
theorem C41_counts_lost (P : Lex) (s : Txt) (hP : P.builtIn .string s) :
    ∃ T', mergeChoices (exChoice (.bounded 2) (.bounded 3)) = .ok T' ∧
      Valid P (exChoice (.bounded 2) (.bounded 3)) (.value (exId "C") none [] (List.replicate 6 (exA s))) ∧
      ¬ Valid P T' (.value (exId "C") none [] (List.replicate 6 (exA s))) := by
  refine ⟨[(exId "S", .new (.buildIn .string)),
    (exId "G", .new (.choice ⟨false, [exElem "a" "S", exElem "b" "S"]⟩)),
    (exId "C", .new (.complex ⟨.none, some (exId "G"), 1, .bounded 3, false, false, []⟩))], by decide +kernel, ?_, ?_⟩
  · have hS : Valid P (exChoice (.bounded 2) (.bounded 3)) (.text (exId "S") s) :=
      .builtInText (ty := .new (.buildIn .string)) (by decide +kernel) rfl hP
    have := exChoice_accepts P (exChoice (.bounded 2) (.bounded 3)) (exId "G") (exId "C") _ _
      { exElem "a" "S" with max := .bounded 3 } s (exId "S") 3 2 hS
      (show look _ _ = some (.complex ⟨.none, some (exId "G"), 1, .bounded 2, false, false, []⟩) by decide +kernel) rfl
      (show look _ _ = some (.choice ⟨false, [{ exElem "a" "S" with max := .bounded 3 }, exElem "b" "S"]⟩) by decide +kernel)
      (by simp) rfl rfl ⟨by decide, by simp⟩ ⟨by decide, by simp⟩ rfl rfl
    exact this
  · intro h
    have := choice_at_most (P := P) (c := exId "C") (g := exId "G") (n := 3)
      (C := ⟨.none, some (exId "G"), 1, .bounded 3, false, false, []⟩)
      (x := ⟨false, [exElem "a" "S", exElem "b" "S"]⟩) (by decide +kernel) rfl (by decide +kernel)
      (by
        intro e he
        simp only [List.mem_cons, List.not_mem_nil, or_false] at he
        rcases he with rfl | rfl <;> exact ⟨rfl, rfl, _, rfl⟩) rfl rfl h
    simp at this

/-- Two types with the same choice as content. -/
def exShared : Types := exChoice (.bounded 1) (.bounded 3) ++
  [(exId "D", .new (.complex ⟨.none, some (exId "G"), 1, .bounded 1, false, false, []⟩))]

/-- C41 (negation): when two types share a choice (as they do after duplicates have been removed and references resolved),
only the first one gets the number of occurrences of the alternatives; the second one no longer accepts two elements. -/
theorem C41_shared_choice_lost (P : Lex) (s : Txt) (hP : P.builtIn .string s) :
    ∃ T', mergeChoices exShared = .ok T' ∧ Valid P exShared (.value (exId "D") none [] [exA s, exA s]) ∧
      ¬ Valid P T' (.value (exId "D") none [] [exA s, exA s]) := by
  refine ⟨[(exId "S", .new (.buildIn .string)),
    (exId "G", .new (.choice ⟨false, [exElem "a" "S", exElem "b" "S"]⟩)),
    (exId "C", .new (.complex ⟨.none, some (exId "G"), 1, .bounded 3, false, false, []⟩)),
    (exId "D", .new (.complex ⟨.none, some (exId "G"), 1, .bounded 1, false, false, []⟩))], by decide +kernel, ?_, ?_⟩
  · have hS : Valid P exShared (.text (exId "S") s) :=
      .builtInText (ty := .new (.buildIn .string)) (by decide +kernel) rfl hP
    have := exChoice_accepts P exShared (exId "G") (exId "D") _ _
      { exElem "a" "S" with max := .bounded 3 } s (exId "S") 2 1 hS
      (show look _ _ = some (.complex ⟨.none, some (exId "G"), 1, .bounded 1, false, false, []⟩) by decide +kernel) rfl
      (show look _ _ = some (.choice ⟨false, [{ exElem "a" "S" with max := .bounded 3 }, exElem "b" "S"]⟩) by decide +kernel)
      (by simp) rfl rfl ⟨by decide, by simp⟩ ⟨by decide, by simp⟩ rfl rfl
    exact this
  · intro h
    have := choice_at_most (P := P) (c := exId "D") (g := exId "G") (n := 1)
      (C := ⟨.none, some (exId "G"), 1, .bounded 1, false, false, []⟩)
      (x := ⟨false, [exElem "a" "S", exElem "b" "S"]⟩) (by decide +kernel) rfl (by decide +kernel)
      (by
        intro e he
        simp only [List.mem_cons, List.not_mem_nil, or_false] at he
        rcases he with rfl | rfl <;> exact ⟨rfl, rfl, _, rfl⟩) rfl rfl h
    simp at this

/-- C41 (negation): a type whose content is a synonym of a choice makes the pass panic. -/
theorem C41_synonym_content_panics :
    mergeChoices [(exId "S", .new (.buildIn .string)), (exId "G", .new (.choice ⟨false, [exElem "a" "S"]⟩)),
      (exId "H", .new (.reference (.new (exId "G")))),
      (exId "C", .new (.complex ⟨.none, some (exId "H"), 1, .bounded 1, false, false, []⟩))] = .panic := by
  decide +kernel

end Verif.Opt

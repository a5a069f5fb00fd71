import Verif.Opt.ChoiceCard
/-!
# Simplifying mixed types (C57)

Models `xsd-parser/src/pipeline/optimizer/simplify_mixed_types.rs`.
-/
namespace Verif.Opt

open Verif.Meta
open Verif.Occurs (MaxOccurs Allows)

/-! ## Model -/

/-- `ElementMeta::text(ElementIdent::named(name))`, meta/element.rs:166-177. The namespace `None` is `0`. -/
def textElement (name : Naming.Name) : Element :=
  ⟨⟨0, name⟩, .text, .unqualified, ⟨false, false, false, false, false⟩, 1, .bounded 1, none, []⟩

/-- `format!("text_after_{}", e.ident.name)`, simplify_mixed_types.rs:94. Generated names print as in models/name.rs. -/
def textAfterName : Naming.Name → Naming.Name
  | .named s => .named ("text_after_".toList ++ s)
  | .generated s => .named ("text_after_".toList ++ s)

/-- simplify_mixed_types.rs:85-98: a text field with `min_occurs = 0`. -/
def textAfter (e : Element) : Element := { textElement (textAfterName e.ident.name) with min := 0 }

/-- simplify_mixed_types.rs:80-81. -/
def textBefore : Element := { textElement (.named "text_before".toList) with min := 0 }

/-- The check of simplify_mixed_types.rs:86. -/
def atMostOnce (e : Element) : Bool := decide (e.min ≤ 1) && decide (e.max = .bounded 1)

/-- `ElementMeta::is_text`. -/
def isTextElement (e : Element) : Bool :=
  match e.variant with | .text => true | _ => false

/-- The elements of a sequence with text fields in between, simplify_mixed_types.rs:79-108. -/
def withTexts (es : List Element) : List Element := textBefore :: es.flatMap fun e => [e, textAfter e]

/-- The elements of a choice with a text alternative, simplify_mixed_types.rs:74-78. -/
def withText (es : List Element) : List Element :=
  if es.any isTextElement then es else es ++ [textElement (.named "text".toList)]

/-- `Optimizer::simplify_mixed_type`, simplify_mixed_types.rs:49-121. The errors `ExpectedUnboundContent`,
`UnexpectedElementInContent` and `UnexpectedContentType` are one. -/
def simplifyMixed (T : Types) (i : Ident) : Res Types :=
  match look T i with
  | none => .err (.unknownType i)
  | some (.complex ci) =>
    match ci.content with
    | none => .err (.missingContentType i)
    | some g =>
      match look T g with
      | none => .err (.missingContentType i)
      | some (.choice x) =>
        if ci.max ≠ .unbounded then .err .mismatchingVariants
        else .ok (setVariant (setVariant T g (.choice { x with elements := withText x.elements })) i
          (.complex { ci with isMixed := false }))
      | some (.sequence x) =>
        if x.elements.all atMostOnce then
          .ok (setVariant (setVariant T g (.sequence { x with elements := withTexts x.elements })) i
            (.complex { ci with isMixed := false }))
        else .err .mismatchingVariants
      | some _ => .err .mismatchingVariants
  | some _ => .err (.expectedComplexType i)

/-- Which types are simplified, simplify_mixed_types.rs:129-158. -/
def isSimplifiable (T : Types) (v : Variant) : Bool :=
  match v with
  | .complex ci =>
    ci.isMixed && match (ci.content.bind (getResolvedType T)).map MetaType.variant with
      | some (.sequence x) => x.elements.all atMostOnce
      | some (.choice _) => decide (ci.max = .unbounded)
      | _ => false
  | _ => false

/-- `Optimizer::simplify_mixed_types`, simplify_mixed_types.rs:126-168, for the order `ids` in which the hash set of
identifiers is visited. -/
def simplifyMixedTypes (T : Types) (ids : List Ident) : Res Types := forEach simplifyMixed T ids

/-! ## Specification -/

/-- `ids` lists the types to simplify, in some order. -/
def IsOrder (T : Types) (ids : List Ident) : Prop :=
  ids.Nodup ∧ ∀ i, i ∈ ids ↔ ∃ v, look T i = some v ∧ isSimplifiable T v = true

/-- Neighbouring texts are one text, at every depth: how a document is read. -/
inductive Tidy : List Node → Prop
  | mk {ns} : (∀ a s t b, ns ≠ a ++ .text s :: .text t :: b) → (∀ n x as kids, Node.elem n x as kids ∈ ns → Tidy kids) →
      Tidy ns

def TidyJ : Judge → Prop
  | .text _ _ => True
  | .value _ _ _ kids => Tidy kids
  | .group _ ns | .particle _ ns | .times _ _ ns | .inOrder _ ns | .groupTimes _ _ ns => Tidy ns

/-- An element or a wildcard, not a group or a text. -/
def IsElement (e : Element) : Prop := (∀ k, e.variant ≠ .type_ k .group) ∧ e.variant ≠ .text

/-- The mixed types the pass handles without loss: the content is named directly; a sequence has to occur and consists of
elements, the alternatives of a choice are elements that need not occur twice. -/
def Simple (T : Types) (C : Complex) : Prop :=
  ∃ g, C.content = some g ∧
    ((∃ x, look T g = some (.sequence x) ∧ 1 ≤ C.min ∧ ∀ e ∈ x.elements, IsElement e ∧ atMostOnce e = true) ∨
     ∃ x, look T g = some (.choice x) ∧ C.max = .unbounded ∧ ∀ e ∈ x.elements, IsElement e ∧ e.min ≤ 1)

/-! ## Proofs -/

theorem Tidy.noAdjacent {ns : List Node} (h : Tidy ns) : ∀ a s t b, ns ≠ a ++ .text s :: .text t :: b := by
  cases h with | mk h _ => exact h

theorem Tidy.kids {ns : List Node} (h : Tidy ns) : ∀ n x as kids, Node.elem n x as kids ∈ ns → Tidy kids := by
  cases h with | mk _ h => exact h

theorem Tidy.left {a b : List Node} (h : Tidy (a ++ b)) : Tidy a :=
  ⟨fun c s t d he => h.noAdjacent c s t (d ++ b) (by rw [he]; simp),
    fun n x as kids hm => h.kids n x as kids (List.mem_append_left _ hm)⟩

theorem Tidy.right {a b : List Node} (h : Tidy (a ++ b)) : Tidy b :=
  ⟨fun c s t d he => h.noAdjacent (a ++ c) s t d (by rw [he]; simp),
    fun n x as kids hm => h.kids n x as kids (List.mem_append_right _ hm)⟩

theorem Tidy.elemsOnly {ns : List Node} (h : Tidy ns) : Tidy (elemsOnly ns) := by
  refine ⟨fun a s t b he => ?_, fun n x as kids hm => h.kids n x as kids (List.mem_filter.1 hm).1⟩
  have : Node.text s ∈ Meta.elemsOnly ns := by rw [he]; simp
  have := (List.mem_filter.1 this).2
  simp at this

theorem Step.tidy {P : Lex} {l : Ident → Option Variant} {R : Judge → Prop} {j : Judge}
    (h : Step P l (fun j => TidyJ j → R j) j) (hj : TidyJ j) : Step P l R j := by
  cases h with
  | refText h1 h2 h3 h4 => exact .refText h1 h2 h3 (h4 trivial)
  | listText h1 h2 h3 h4 => exact .listText h1 h2 h3 (fun w hw => h4 w hw trivial)
  | unionText h1 h2 h3 h4 => exact .unionText h1 h2 h3 (h4 trivial)
  | builtInText h1 h2 => exact .builtInText h1 h2
  | customText h1 h2 => exact .customText h1 h2
  | literalText h1 h2 h3 h4 => exact .literalText h1 h2 h3 h4
  | variantText h1 h2 h3 h4 => exact .variantText h1 h2 h3 (h4 trivial)
  | simpleText h1 h2 h3 h4 => exact .simpleText h1 h2 h3 (h4 trivial)
  | simpleListText h1 h2 h3 h4 => exact .simpleListText h1 h2 h3 (fun w hw => h4 w hw trivial)
  | refValue h1 h2 h3 h4 => exact .refValue h1 h2 h3 (h4 hj)
  | textValue h1 => exact .textValue (h1 trivial)
  | customValue h1 h2 => exact .customValue h1 h2
  | dynamicValue h1 h2 h3 h4 => exact .dynamicValue h1 h2 h3 (h4 hj)
  | emptyValue h1 h2 h3 h4 => exact .emptyValue h1 h2 h3 (fun a ha t ht v hv => h4 a ha t ht v hv trivial)
  | simpleValue h1 h2 h3 h4 h5 =>
    exact .simpleValue h1 h2 h3 (fun a ha t ht v hv => h4 a ha t ht v hv trivial) (h5 trivial)
  | complexValue h1 h2 h3 h4 h5 h6 =>
    refine .complexValue h1 h2 h3 (fun a ha t ht v hv => h4 a ha t ht v hv trivial) h5 (h6 ?_)
    simp only [TidyJ] at hj ⊢
    split
    · exact hj.elemsOnly
    · exact hj
  | refGroup h1 h2 h3 h4 => exact .refGroup h1 h2 h3 (h4 hj)
  | sequence h1 h2 => exact .sequence h1 (h2 hj)
  | choice h1 h2 h3 h4 => exact .choice h1 h2 h3 (h4 hj)
  | all h1 h2 h3 => exact .all h1 h2 (h3 hj)
  | substitution h1 h2 h3 => exact .substitution h1 h2 (h3 (hj.kids _ _ _ _ (List.mem_singleton.2 rfl)))
  | complexGroup h1 h2 h3 h4 => exact .complexGroup h1 h2 h3 (h4 hj)
  | noTimes => exact .noTimes
  | oneMore h1 h2 => exact .oneMore (h1 hj.left) (h2 hj.right)
  | element h1 h2 => exact .element h1 (h2 (hj.kids _ _ _ _ (List.mem_singleton.2 rfl)))
  | nested h1 h2 => exact .nested h1 (h2 hj)
  | wildcard h1 h2 => exact .wildcard h1 h2
  | textNode h1 => exact .textNode h1
  | zero => exact .zero
  | succ h1 h2 => exact .succ (h1 hj.left) (h2 hj.right)
  | nil => exact .nil
  | cons h1 h2 h3 => exact .cons h1 (h2 hj.left) (h3 hj.right)

theorem times_text {P : Lex} {T : Types} {e : Element} (he : e.variant = .text) {k : Nat} {ns : List Node}
    (h : Valid P T (.times e k ns)) (hn : elemsOnly ns = ns) : ns = [] := by
  obtain ⟨ps, rfl, rfl, hp⟩ := times_parts h
  cases ps with
  | nil => rfl
  | cons p ps =>
    exfalso
    have hp := hp p (by simp)
    have hx := (hp.step : Step P (look T) (Valid P T) (.particle e p))
    generalize hj : Judge.particle e p = j at hx
    cases hx <;> cases hj
    case cons.element.refl h1 _ => rw [he] at h1; cases h1
    case cons.nested.refl h1 _ => rw [he] at h1; cases h1
    case cons.wildcard.refl h1 _ => rw [he] at h1; cases h1
    case cons.textNode.refl s _ _ =>
      have hm : Node.text s ∈ elemsOnly (([Node.text s] :: ps).flatten) := by rw [hn]; simp
      have := (List.mem_filter.1 hm).2
      simp at this

theorem particle_single {P : Lex} {T : Types} {e : Element} (he : ∀ k, e.variant ≠ .type_ k .group) {ns : List Node}
    (h : Valid P T (.particle e ns)) : ∃ n, ns = [n] := by
  have hx := h.step
  generalize hj : Judge.particle e ns = j at hx
  cases hx <;> cases hj
  case element => exact ⟨_, rfl⟩
  case nested h1 _ => exact absurd h1 (he _)
  case wildcard => exact ⟨_, rfl⟩
  case textNode => exact ⟨_, rfl⟩

theorem elemsOnly_append (a b : List Node) : elemsOnly (a ++ b) = elemsOnly a ++ elemsOnly b := by
  simp [elemsOnly]

theorem elemsOnly_left {a b : List Node} (h : elemsOnly (a ++ b) = a ++ b) : elemsOnly a = a ∧ elemsOnly b = b := by
  unfold elemsOnly at h ⊢
  simp only [List.filter_eq_self] at h ⊢
  exact ⟨fun n hn => h n (List.mem_append_left _ hn), fun n hn => h n (List.mem_append_right _ hn)⟩

theorem elemsOnly_mem {a : List Node} (h : elemsOnly a = a) {n : Node} (hn : n ∈ a) : ∃ m x as kids, n = .elem m x as kids := by
  rw [← h] at hn
  have := (List.mem_filter.1 hn).2
  cases n with
  | elem m x as kids => exact ⟨m, x, as, kids, rfl⟩
  | text s => simp at this

/-- The document does not start with a text. -/
def NoTextFirst (w : List Node) : Prop := ∀ s r, w ≠ .text s :: r

theorem allows_zero {e : Element} (h : e.min = 0) : Allows e.min e.max 0 := ⟨by omega, fun b _ => Nat.zero_le _⟩

/-- Elements in order, with optional texts after each. -/
theorem inOrder_texts {P : Lex} {T : Types} (es : List Element) (hes : ∀ e ∈ es, (∀ k, e.variant ≠ .type_ k .group) ∧ e.max = .bounded 1)
    (nodes more w : List Node) (h : Valid P T (.inOrder (es.flatMap fun e => [e, textAfter e]) nodes))
    (hn : elemsOnly nodes = nodes) (hw : elemsOnly w = nodes ++ more) (ht : Tidy w) (hf : NoTextFirst w) :
    ∃ w1 w2, w = w1 ++ w2 ∧ elemsOnly w2 = more ∧ Tidy w2 ∧ NoTextFirst w2 ∧
      Valid P T (.inOrder (es.flatMap fun e => [e, textAfter e]) w1) := by
  induction es generalizing nodes w with
  | nil =>
    have hx := h.step
    simp only [List.flatMap_nil] at hx ⊢
    generalize hj : Judge.inOrder [] nodes = j at hx
    cases hx <;> cases hj
    exact ⟨[], w, rfl, hw, ht, hf, .nil⟩
  | cons e es ih =>
    simp only [List.flatMap_cons, List.cons_append, List.nil_append] at h ⊢
    have hx := h.step
    generalize hj : Judge.inOrder _ nodes = j at hx
    cases hx <;> cases hj
    rename_i k a b hk hta hb
    have hx := hb.step
    generalize hj : Judge.inOrder _ b = j at hx
    cases hx <;> cases hj
    rename_i k' c d _ htc hd
    obtain ⟨hna, hnb⟩ := elemsOnly_left hn
    obtain ⟨hnc, hnd⟩ := elemsOnly_left hnb
    have hc0 := times_text (e := textAfter e) rfl htc hnc
    subst hc0
    simp only [List.nil_append] at hw hnd
    have he := hes e (by simp)
    have hk1 : k ≤ 1 := hk.2 1 he.2
    have htail : ∀ e' ∈ es, (∀ k, e'.variant ≠ .type_ k .group) ∧ e'.max = .bounded 1 :=
      fun e' he' => hes e' (List.mem_cons_of_mem _ he')
    obtain ⟨ps, rfl, rfl, hp⟩ := times_parts hta
    match ps, hk1, hp with
    | [], _, _ =>
      obtain ⟨w1, w2, e1, e2, e3, e4, e5⟩ := ih htail d w hd hnd (by simpa using hw) ht hf
      refine ⟨w1, w2, e1, e2, e3, e4, ?_⟩
      have := Valid.cons (e := e) (k := 0) (a := []) hk .zero
        (Valid.cons (e := textAfter e) (k := 0) (a := []) (allows_zero rfl) .zero e5)
      simpa using this
    | [p], _, hp =>
      obtain ⟨n, rfl⟩ := particle_single he.1 (hp p (by simp))
      simp only [List.flatten_cons, List.flatten_nil, List.append_nil, List.cons_append, List.nil_append] at hw hna
      obtain ⟨m, x, as, kids, rfl⟩ := elemsOnly_mem hna (List.mem_singleton.2 rfl)
      cases w with
      | nil => cases hw
      | cons n' w' =>
        cases n' with
        | text s => exact absurd rfl (hf s w')
        | elem m' x' as' kids' =>
          simp only [elemsOnly, List.filter_cons, if_true, List.cons.injEq] at hw
          obtain ⟨heq, hw⟩ := hw
          rw [heq] at ht ⊢
          have ht' : Tidy w' := Tidy.right (a := [_]) ht
          have one : Valid P T (.times e 1 [.elem m x as kids]) := by
            have := times_of_parts (P := P) (T := T) (e := e) [[.elem m x as kids]] (by
              intro q hq; simp at hq; subst hq; exact hp _ (by simp))
            simpa using this
          by_cases htx : ∃ s r, w' = .text s :: r
          · obtain ⟨s, r, rfl⟩ := htx
            have hr : Tidy r := Tidy.right (a := [_]) ht'
            have hrf : NoTextFirst r := by
              rintro t r' rfl
              exact ht'.noAdjacent [] s t r' rfl
            obtain ⟨w1, w2, e1, e2, e3, e4, e5⟩ := ih htail d r hd hnd (by simpa [elemsOnly] using hw) hr hrf
            refine ⟨.elem m x as kids :: .text s :: w1, w2, by simp [e1], e2, e3, e4, ?_⟩
            have tx : Valid P T (.times (textAfter e) 1 [.text s]) := by
              have := times_of_parts (P := P) (T := T) (e := textAfter e) [[.text s]] (by
                intro q hq; simp at hq; subst hq; exact .textNode rfl)
              simpa using this
            have := Valid.cons (e := e) (k := 1) hk one
              (Valid.cons (e := textAfter e) (k := 1) ⟨by simp [textAfter], fun b hb => by
                simp [textAfter, textElement] at hb; omega⟩ tx e5)
            simpa using this
          · obtain ⟨w1, w2, e1, e2, e3, e4, e5⟩ := ih htail d w' hd hnd hw ht' (fun s r h => htx ⟨s, r, h⟩)
            refine ⟨.elem m x as kids :: w1, w2, by simp [e1], e2, e3, e4, ?_⟩
            have := Valid.cons (e := e) (k := 1) hk one
              (Valid.cons (e := textAfter e) (k := 0) (a := []) (allows_zero rfl) .zero e5)
            simpa using this
    | _ :: _ :: _, hk1, _ => simp at hk1

theorem group_sequence_inv {P : Lex} {T : Types} {g : Ident} {x : Group} (hl : look T g = some (.sequence x))
    {ns : List Node} (h : Valid P T (.group g ns)) : Valid P T (.inOrder x.elements ns) := by
  have hx := h.step
  generalize hj : Judge.group g ns = j at hx
  cases hx <;> cases hj
  case sequence h1 h2 => rw [hl] at h1; cases h1; exact h2
  all_goals (rename_i h1; first | (rw [hl] at h1; cases h1) | skip)
  all_goals simp_all

/-- A sequence with text fields accepts texts anywhere between the elements. -/
theorem sequence_texts {P : Lex} {T : Types} {g : Ident} {x : Group} {es : List Element}
    (hl : look T g = some (.sequence x)) (hx : x.elements = withTexts es)
    (hes : ∀ e ∈ es, (∀ k, e.variant ≠ .type_ k .group) ∧ e.max = .bounded 1)
    (parts : List (List Node)) (hpos : parts ≠ []) (hp : ∀ p ∈ parts, Valid P T (.group g p)) (w : List Node)
    (hw : elemsOnly w = parts.flatten) (ht : Tidy w) :
    ∃ parts' : List (List Node), parts'.length = parts.length ∧ parts'.flatten = w ∧ ∀ p ∈ parts', Valid P T (.group g p) := by
  obtain ⟨ty, g1, g2⟩ := look_iff.1 hl
  have hself : ∀ a : List Node, elemsOnly (elemsOnly a) = elemsOnly a := by
    intro a; simp [elemsOnly]
  have inv : ∀ p, Valid P T (.group g p) → elemsOnly p = p →
      Valid P T (.inOrder (es.flatMap fun e => [e, textAfter e]) p) := by
    intro p hv hp
    have := group_sequence_inv hl hv
    rw [hx, withTexts] at this
    have hxx := this.step
    generalize hj : Judge.inOrder _ p = j at hxx
    cases hxx <;> cases hj
    rename_i k a b _ hta hb
    have := times_text (e := textBefore) rfl hta (elemsOnly_left hp).1
    subst this
    simpa using hb
  have mk0 : ∀ q, Valid P T (.inOrder (es.flatMap fun e => [e, textAfter e]) q) → Valid P T (.group g q) := by
    intro q hq
    refine .sequence g1 g2 ?_
    rw [hx, withTexts]
    have := Valid.cons (e := textBefore) (k := 0) (a := []) (allows_zero rfl) .zero hq
    simpa using this
  -- the parts after the first text
  have rest : ∀ (parts : List (List Node)), (∀ p ∈ parts, Valid P T (.group g p)) → ∀ w, elemsOnly w = parts.flatten →
      Tidy w → NoTextFirst w → ∃ parts' : List (List Node), parts'.length = parts.length ∧ parts'.flatten = w ∧
        ∀ p ∈ parts', Valid P T (.inOrder (es.flatMap fun e => [e, textAfter e]) p) := by
    intro parts
    induction parts with
    | nil =>
      intro _ w hw _ hf
      refine ⟨[], rfl, ?_, by simp⟩
      cases w with
      | nil => rfl
      | cons n w =>
        cases n with
        | text s => exact absurd rfl (hf s w)
        | elem => simp [elemsOnly] at hw
    | cons p ps ih =>
      intro hp w hw ht hf
      have hall : elemsOnly (p ++ ps.flatten) = p ++ ps.flatten := by
        have := hself w
        rw [hw] at this
        simpa using this
      have hpe := (elemsOnly_left hall).1
      obtain ⟨w1, w2, e1, e2, e3, e4, e5⟩ := inOrder_texts es hes p ps.flatten w (inv p (hp p (by simp)) hpe) hpe
        (by simpa using hw) ht hf
      obtain ⟨qs, q1, q2, q3⟩ := ih (fun q hq => hp q (by simp [hq])) w2 e2 e3 e4
      refine ⟨w1 :: qs, by simp [q1], by simp [q2, e1], ?_⟩
      intro q hq
      rcases List.mem_cons.1 hq with rfl | hq
      · exact e5
      · exact q3 q hq
  by_cases htx : ∃ s r, w = .text s :: r
  · obtain ⟨s, r, rfl⟩ := htx
    have hr : Tidy r := Tidy.right (a := [_]) ht
    have hrf : NoTextFirst r := by
      rintro t r' rfl
      exact ht.noAdjacent [] s t r' rfl
    obtain ⟨qs, q1, q2, q3⟩ := rest parts hp r (by simpa [elemsOnly] using hw) hr hrf
    cases qs with
    | nil => simp at q1; exact absurd (List.length_eq_zero_iff.1 q1.symm) hpos
    | cons q qs =>
      refine ⟨(.text s :: q) :: qs, by simpa using q1, by simp at q2 ⊢; exact q2, ?_⟩
      intro y hy
      rcases List.mem_cons.1 hy with rfl | hy
      · refine .sequence g1 g2 ?_
        rw [hx, withTexts]
        have tx : Valid P T (.times textBefore 1 [.text s]) := by
          have := times_of_parts (P := P) (T := T) (e := textBefore) [[.text s]] (by
            intro q hq; simp at hq; subst hq; exact .textNode rfl)
          simpa using this
        have := Valid.cons (e := textBefore) (k := 1) ⟨by simp [textBefore], fun b hb => by
          simp [textBefore, textElement] at hb; omega⟩ tx (q3 q (by simp))
        simpa using this
      · exact mk0 y (q3 y (by simp [hy]))
  · obtain ⟨qs, q1, q2, q3⟩ := rest parts hp w hw ht (fun s r h => htx ⟨s, r, h⟩)
    exact ⟨qs, q1, q2, fun q hq => mk0 q (q3 q hq)⟩

theorem group_choice_inv {P : Lex} {T : Types} {g : Ident} {x : Group} (hl : look T g = some (.choice x))
    {ns : List Node} (h : Valid P T (.group g ns)) :
    ∃ e ∈ x.elements, ∃ k, Allows e.min e.max k ∧ Valid P T (.times e k ns) := Step.group_choice h.step hl

/-- A choice with a text alternative accepts texts anywhere between the elements. -/
theorem choice_texts {P : Lex} {T : Types} {g : Ident} {x : Group} (hl : look T g = some (.choice x))
    (hes : ∀ e ∈ x.elements, (∀ k, e.variant ≠ .type_ k .group) ∧ e.min ≤ 1)
    (htx : ∃ e ∈ x.elements, e.variant = .text ∧ Allows e.min e.max 1)
    (parts : List (List Node)) (hp : ∀ p ∈ parts, Valid P T (.group g p)) (w : List Node)
    (hw : elemsOnly w = parts.flatten) :
    ∃ parts' : List (List Node), parts.length ≤ parts'.length ∧ parts'.flatten = w ∧
      ∀ p ∈ parts', Valid P T (.group g p) := by
  obtain ⟨ty, g1, g2⟩ := look_iff.1 hl
  -- one node at a time
  have single : ∀ n ∈ w, Valid P T (.group g [n]) := by
    intro n hn
    cases n with
    | text s =>
      obtain ⟨e, he, hv, ha⟩ := htx
      refine .choice g1 g2 he ha ?_
      have := times_of_parts (P := P) (T := T) (e := e) [[.text s]] (by
        intro q hq; simp at hq; subst hq; exact .textNode hv)
      simpa using this
    | elem m y as kids =>
      have hm : Node.elem m y as kids ∈ parts.flatten := by
        rw [← hw]; exact List.mem_filter.2 ⟨hn, rfl⟩
      obtain ⟨p, hpp, hnp⟩ := List.mem_flatten.1 hm
      obtain ⟨e, he, k, hk, ht⟩ := group_choice_inv hl (hp p hpp)
      obtain ⟨qs, rfl, rfl, hq⟩ := times_parts ht
      obtain ⟨q, hqq, hnq⟩ := List.mem_flatten.1 hnp
      obtain ⟨n', rfl⟩ := particle_single (hes e he).1 (hq q hqq)
      simp only [List.mem_singleton] at hnq
      subst hnq
      have hpos : 1 ≤ qs.length := List.length_pos_of_mem hqq
      refine .choice g1 g2 he ⟨(hes e he).2, fun b hb => Nat.le_trans hpos (hk.2 b hb)⟩ ?_
      have := times_of_parts (P := P) (T := T) (e := e) [[.elem m y as kids]] (by
        intro q hq'; simp at hq'; subst hq'; exact hq _ hqq)
      simpa using this
  have hcount : parts.length ≤ (parts.filter (fun p => p.isEmpty)).length + w.length := by
    have h1 : ∀ l : List (List Node), l.length ≤ (l.filter (fun p => p.isEmpty)).length + l.flatten.length := by
      intro l
      induction l with
      | nil => simp
      | cons p l ih =>
        cases p with
        | nil => simp at ih ⊢; omega
        | cons a p => simp at ih ⊢; omega
    have h2 : parts.flatten.length ≤ w.length := by rw [← hw]; exact List.length_filter_le _ _
    exact Nat.le_trans (h1 parts) (by omega)
  refine ⟨parts.filter (fun p => p.isEmpty) ++ w.map (fun n => [n]), ?_, ?_, ?_⟩
  · simpa using hcount
  · have he : (parts.filter (fun p => p.isEmpty)).flatten = [] := by
      rw [List.flatten_eq_nil_iff]
      intro l hl
      simpa using (List.mem_filter.1 hl).2
    rw [List.flatten_append, he, List.nil_append]
    induction w with
    | nil => rfl
    | cons n w _ => simp [← List.flatMap_def]
  · intro p hpm
    rcases List.mem_append.1 hpm with h | h
    · exact hp p (List.mem_filter.1 h).1
    · obtain ⟨n, hn, rfl⟩ := List.mem_map.1 h
      exact single n hn

/-- The elements of a sequence still make up the sequence with text fields. -/
theorem inOrder_withTexts {P : Lex} {T : Types} {es : List Element} {ns : List Node} (h : Valid P T (.inOrder es ns)) :
    Valid P T (.inOrder (withTexts es) ns) := by
  have key : ∀ (es : List Element) (ns : List Node), Valid P T (.inOrder es ns) →
      Valid P T (.inOrder (es.flatMap fun e => [e, textAfter e]) ns) := by
    intro es
    induction es with
    | nil => intro ns h; simpa using h
    | cons e es ih =>
      intro ns h
      have hx := h.step
      generalize hj : Judge.inOrder _ ns = j at hx
      cases hx <;> cases hj
      rename_i k a b hk hta hb
      have := Valid.cons (e := e) (k := k) hk hta
        (Valid.cons (e := textAfter e) (k := 0) (a := []) (allows_zero rfl) .zero (ih _ hb))
      simpa using this
  have := Valid.cons (e := textBefore) (k := 0) (a := []) (allows_zero rfl) .zero (key es ns h)
  simpa [withTexts] using this

theorem mem_withText {es : List Element} {e : Element} (h : e ∈ es) : e ∈ withText es := by
  unfold withText
  split
  · exact h
  · exact List.mem_append_left _ h

/-- The variants after one simplification: those of `T` but for the type and its content. -/
structure Changed (T T' : Types) (i g : Ident) (C : Complex) (V : Variant) : Prop where
  type_ : look T' i = some (.complex { C with isMixed := false })
  content : look T' g = some V
  other : ∀ k, k ≠ i → k ≠ g → look T' k = look T k
  keys : Assoc.keys T' = Assoc.keys T

theorem changed_set {T : Types} {i g : Ident} {C : Complex} {V W : Variant} (hi : look T i = some (.complex C))
    (hg : look T g = some W) (hne : g ≠ i) :
    Changed T (setVariant (setVariant T g V) i (.complex { C with isMixed := false })) i g C V where
  type_ := by rw [look_setVariant, if_pos rfl, look_setVariant, if_neg (Ne.symm hne), hi]; rfl
  content := by rw [look_setVariant, if_neg hne, look_setVariant, if_pos rfl, hg]; rfl
  other := by intro k h1 h2; rw [look_setVariant, if_neg h1, look_setVariant, if_neg h2]
  keys := by rw [keys_setVariant, keys_setVariant]

theorem simplifyMixed_simple {T : Types} {i g : Ident} {C : Complex} (hi : look T i = some (.complex C))
    (hc : C.content = some g) (hs : Simple T C) :
    (∃ x, look T g = some (.sequence x) ∧ 1 ≤ C.min ∧ (∀ e ∈ x.elements, IsElement e ∧ atMostOnce e = true) ∧
      ∃ T', simplifyMixed T i = .ok T' ∧ Changed T T' i g C (.sequence { x with elements := withTexts x.elements })) ∨
    ∃ x, look T g = some (.choice x) ∧ C.max = .unbounded ∧ (∀ e ∈ x.elements, IsElement e ∧ e.min ≤ 1) ∧
      ∃ T', simplifyMixed T i = .ok T' ∧ Changed T T' i g C (.choice { x with elements := withText x.elements }) := by
  obtain ⟨g', h1, h⟩ := hs
  rw [hc] at h1; cases h1
  rcases h with ⟨x, hx, hmin, he⟩ | ⟨x, hx, hmax, he⟩
  · refine Or.inl ⟨x, hx, hmin, he, _, ?_, changed_set hi hx (by rintro rfl; rw [hi] at hx; cases hx)⟩
    simp only [simplifyMixed, hi, hc, hx]
    rw [if_pos (List.all_eq_true.2 (fun e hm => (he e hm).2))]
  · refine Or.inr ⟨x, hx, hmax, he, _, ?_, changed_set hi hx (by rintro rfl; rw [hi] at hx; cases hx)⟩
    simp only [simplifyMixed, hi, hc, hx]
    rw [if_neg (by rw [hmax]; simp)]

theorem atMostOnce_iff {e : Element} : atMostOnce e = true ↔ e.min ≤ 1 ∧ e.max = .bounded 1 := by
  simp [atMostOnce]

/-- One simplification loses no document. -/
theorem simplify_one {P : Lex} {T T' : Types} {i g : Ident} {C : Complex} (hi : look T i = some (.complex C))
    (hm : C.isMixed = true) (hc : C.content = some g) (hs : Simple T C) (hr : simplifyMixed T i = .ok T') {j : Judge}
    (h : Valid P T j) (hj : TidyJ j) : Valid P T' j := by
  have hgroup : ∃ V, Changed T T' i g C V ∧ (∃ W, look T g = some W ∧ (∀ x, W ≠ .complex x) ∧
        ∀ j, j.head = some g → Step P (look T) (Valid P T') j → Valid P T' j) ∧
      ∀ k w, Allows C.min C.max k → Tidy w → Valid P T' (.groupTimes g k (elemsOnly w)) →
        ∃ k', Allows C.min C.max k' ∧ Valid P T' (.groupTimes g k' w) := by
    rcases simplifyMixed_simple hi hc hs with ⟨x, hx, hmin, he, T₂, hr₂, ch⟩ | ⟨x, hx, hmax, he, T₂, hr₂, ch⟩
    · rw [hr] at hr₂; cases hr₂
      obtain ⟨ty, g1, g2⟩ := look_iff.1 ch.content
      refine ⟨_, ch, ⟨_, hx, by simp, ?_⟩, ?_⟩
      · intro j hh hst
        cases hst <;> simp only [Judge.head, Option.some.injEq, reduceCtorEq] at hh <;> subst hh <;>
          (try simp only [hx, Option.some.injEq, reduceCtorEq, Variant.sequence.injEq] at *)
        case textValue h1 => exact .textValue h1
        case sequence h1 h2 => subst h2; exact .sequence g1 g2 (inOrder_withTexts h1)
      · intro k w hk hw hv
        obtain ⟨ps, h1, h2, h3⟩ := groupTimes_parts hv
        have hpos : ps ≠ [] := by
          rintro rfl
          simp at h1; subst h1
          have := hk.1; omega
        obtain ⟨qs, q1, q2, q3⟩ := sequence_texts ch.content rfl
          (fun e hm => ⟨(he e hm).1.1, (atMostOnce_iff.1 (he e hm).2).2⟩) ps hpos h3 w h2.symm hw
        refine ⟨k, hk, ?_⟩
        have := groupTimes_of_parts (P := P) (T := T') (g := g) qs q3
        rwa [q2, q1, h1] at this
    · rw [hr] at hr₂; cases hr₂
      obtain ⟨ty, g1, g2⟩ := look_iff.1 ch.content
      refine ⟨_, ch, ⟨_, hx, by simp, ?_⟩, ?_⟩
      · intro j hh hst
        cases hst <;> simp only [Judge.head, Option.some.injEq, reduceCtorEq] at hh <;> subst hh <;>
          (try simp only [hx, Option.some.injEq, reduceCtorEq, Variant.choice.injEq] at *)
        case textValue h1 => exact .textValue h1
        case choice h1 h2 h3 h4 => subst h4; exact .choice g1 g2 (mem_withText h1) h2 h3
      · intro k w hk hw hv
        obtain ⟨ps, h1, h2, h3⟩ := groupTimes_parts hv
        have hnt : x.elements.any isTextElement = false := by
          rw [List.any_eq_false]
          intro e hm
          have := (he e hm).1.2
          unfold isTextElement
          split <;> simp_all
        have hel : withText x.elements = x.elements ++ [textElement (.named "text".toList)] := by
          simp [withText, hnt]
        obtain ⟨qs, q1, q2, q3⟩ := choice_texts ch.content
          (by
            intro e hm
            simp only [hel, List.mem_append, List.mem_singleton] at hm
            rcases hm with hm | rfl
            · exact ⟨(he e hm).1.1, (he e hm).2⟩
            · exact ⟨by simp [textElement], by simp [textElement]⟩)
          ⟨textElement (.named "text".toList), by simp [hel], rfl, by simp [textElement], by simp [textElement]⟩ ps h3 w h2.symm
        refine ⟨qs.length, ⟨Nat.le_trans (h1 ▸ hk.1) q1, fun b hb => by rw [hmax] at hb; cases hb⟩, ?_⟩
        have := groupTimes_of_parts (P := P) (T := T') (g := g) qs q3
        rwa [q2] at this
  obtain ⟨V, ch, ⟨W, hW, hWc, hsim⟩, hmain⟩ := hgroup
  obtain ⟨ty, c1, c2⟩ := look_iff.1 ch.type_
  refine h.least (R := fun j => TidyJ j → Valid P T' j) (fun j hst hj => ?_) hj
  have hst := Step.tidy hst hj
  cases hh : j.head with
  | none => exact (hst.congr (fun i hi => by rw [hh] at hi; cases hi)).valid
  | some k =>
    by_cases hkg : k = g
    · subst hkg; exact hsim j hh hst
    by_cases hki : k = i
    · subst hki
      cases hst <;> simp only [Judge.head, Option.some.injEq, reduceCtorEq] at hh <;> subst hh <;>
        simp only [hi, Option.some.injEq, reduceCtorEq, Variant.complex.injEq] at *
      case textValue h1 => exact .textValue h1
      case emptyValue h1 h2 h3 h4 => subst h4; rw [hc] at h1; cases h1
      case simpleValue h1 h2 h3 h4 h5 => subst h5; exact .simpleValue c1 c2 h1 h2 h3 h4
      case complexValue h1 h2 h3 h4 h5 h6 =>
        subst h6
        rw [hc] at h1; cases h1
        rw [hm, if_pos rfl] at h5
        obtain ⟨k', hk', hv⟩ := hmain _ _ h4 hj h5
        exact .complexValue c1 c2 hc h2 h3 hk' (by simpa using hv)
      case complexGroup h1 h2 h3 h4 =>
        subst h4
        exact .complexGroup c1 c2 h1 h2 h3
    · exact (hst.congr (fun k' hk' => by rw [hh] at hk'; cases hk'; exact (ch.other _ hki hkg).symm)).valid

/-- Different simplified types have different contents. -/
def OwnContent (T : Types) (ids : List Ident) : Prop :=
  ∀ i ∈ ids, ∀ k ∈ ids, ∀ C D, look T i = some (.complex C) → look T k = some (.complex D) → C.content = D.content → i = k

theorem simple_transfer {T T' : Types} {i g : Ident} {C D : Complex} {V : Variant} (hi : look T i = some (.complex C))
    (ch : Changed T T' i g C V) (hd : D.content ≠ some g) (h : Simple T D) : Simple T' D := by
  obtain ⟨g', h1, h⟩ := h
  have hne : g' ≠ g := by rintro rfl; exact hd h1
  refine ⟨g', h1, ?_⟩
  rcases h with ⟨x, hx, h⟩ | ⟨x, hx, h⟩
  · exact Or.inl ⟨x, by rw [ch.other g' (by rintro rfl; rw [hi] at hx; cases hx) hne]; exact hx, h⟩
  · exact Or.inr ⟨x, by rw [ch.other g' (by rintro rfl; rw [hi] at hx; cases hx) hne]; exact hx, h⟩

theorem simplify_all {P : Lex} (ids : List Ident) (T : Types) (hn : ids.Nodup)
    (hs : ∀ i ∈ ids, ∃ C, look T i = some (.complex C) ∧ C.isMixed = true ∧ Simple T C) (ho : OwnContent T ids) :
    ∃ T', simplifyMixedTypes T ids = .ok T' ∧ Assoc.keys T' = Assoc.keys T ∧
      ∀ j, Valid P T j → TidyJ j → Valid P T' j := by
  induction ids generalizing T with
  | nil => exact ⟨T, rfl, rfl, fun j h _ => h⟩
  | cons i ids ih =>
    obtain ⟨C, hi, hm, hC⟩ := hs i (by simp)
    obtain ⟨g, hc, -⟩ := id hC
    have hstep : ∃ T₁ V, simplifyMixed T i = .ok T₁ ∧ Changed T T₁ i g C V ∧ ∃ W, look T g = some W ∧ ∀ x, W ≠ .complex x := by
      rcases simplifyMixed_simple hi hc hC with ⟨x, hx, -, -, T₂, hr₂, ch⟩ | ⟨x, hx, -, -, T₂, hr₂, ch⟩
      · exact ⟨T₂, _, hr₂, ch, _, hx, by simp⟩
      · exact ⟨T₂, _, hr₂, ch, _, hx, by simp⟩
    obtain ⟨T₁, V, hr, ch, W, hW, hWc⟩ := hstep
    have hne : ∀ k ∈ ids, k ≠ i := by
      rintro k hk rfl; exact (List.nodup_cons.1 hn).1 hk
    have hlk : ∀ k ∈ ids, look T₁ k = look T k := by
      intro k hk
      refine ch.other k (hne k hk) ?_
      rintro rfl
      obtain ⟨D, hD, -⟩ := hs k (by simp [hk])
      rw [hD] at hW; cases hW; exact hWc D rfl
    obtain ⟨T', e1, e2, e3⟩ := ih T₁ (List.nodup_cons.1 hn).2
      (by
        intro k hk
        obtain ⟨D, hD, hDm, hDs⟩ := hs k (by simp [hk])
        refine ⟨D, by rw [hlk k hk]; exact hD, hDm, simple_transfer hi ch ?_ hDs⟩
        intro hcg
        exact hne k hk (ho k (by simp [hk]) i (by simp) D C hD hi (by rw [hcg, hc])))
      (by
        intro a ha b hb A B hA hB
        rw [hlk a ha] at hA; rw [hlk b hb] at hB
        exact ho a (by simp [ha]) b (by simp [hb]) A B hA hB)
    refine ⟨T', ?_, e2.trans ch.keys, fun j h hj => e3 j (simplify_one hi hm hc hC hr h hj) hj⟩
    simpa [simplifyMixedTypes, forEach, hr, Res.unwrap] using e1

theorem simplifiable_mixed {T : Types} {v : Variant} (h : isSimplifiable T v = true) :
    ∃ C, v = .complex C ∧ C.isMixed = true := by
  cases v <;> simp only [isSimplifiable, Bool.false_eq_true, Bool.and_eq_true] at h
  exact ⟨_, rfl, h.1⟩

/-! ## Properties -/

/-- C57: in whatever order the simplifiable types are visited, the pass does not panic, keeps all names, and every tidy
document that was valid stays valid: the texts of mixed types find a place.

Missing: types that are not `Simple`; see the negations below. -/
theorem C57_accepts_no_less_partial (P : Lex) (T : Types) (ids : List Ident) (h : IsOrder T ids)
    (hs : ∀ i C, look T i = some (.complex C) → isSimplifiable T (.complex C) = true → Simple T C)
    (ho : OwnContent T ids) :
    ∃ T', simplifyMixedTypes T ids = .ok T' ∧ Assoc.keys T' = Assoc.keys T ∧
      ∀ i xsi as kids, Tidy kids → Valid P T (.value i xsi as kids) → Valid P T' (.value i xsi as kids) := by
  obtain ⟨T', e1, e2, e3⟩ := simplify_all (P := P) ids T h.1 (by
    intro i hi
    obtain ⟨v, hv, hsv⟩ := (h.2 i).1 hi
    obtain ⟨C, rfl, hm⟩ := simplifiable_mixed hsv
    exact ⟨C, hv, hm, hs i C hv hsv⟩) ho
  exact ⟨T', e1, e2, fun i xsi as kids ht hv => e3 _ hv ht⟩

/-- The content of every simplifiable type is named directly, not by a synonym. -/
def DirectContent (T : Types) : Prop :=
  ∀ i C g v, look T i = some (.complex C) → isSimplifiable T (.complex C) = true → C.content = some g →
    look T g = some v → ∀ r, v ≠ .reference r

/-- The content that the pass is able to change. -/
def Fits (T : Types) (C : Complex) : Prop :=
  ∃ g, C.content = some g ∧ ((∃ x, look T g = some (.sequence x) ∧ x.elements.all atMostOnce = true) ∨
    ∃ x, look T g = some (.choice x) ∧ C.max = .unbounded)

theorem all_withTexts {es : List Element} (h : es.all atMostOnce = true) : (withTexts es).all atMostOnce = true := by
  rw [List.all_eq_true] at h ⊢
  intro e he
  simp only [withTexts, List.mem_cons, List.mem_flatMap, List.not_mem_nil, or_false] at he
  rcases he with rfl | ⟨a, ha, rfl | rfl⟩
  · rfl
  · exact h _ ha
  · rfl

theorem simplifyMixed_fits {T : Types} {i : Ident} {C : Complex} (hi : look T i = some (.complex C)) (hf : Fits T C) :
    ∃ T' g V, simplifyMixed T i = .ok T' ∧ Changed T T' i g C V ∧ C.content = some g ∧
      ((∃ x, look T g = some (.sequence x) ∧ V = .sequence { x with elements := withTexts x.elements } ∧
          x.elements.all atMostOnce = true) ∨
        ∃ x, look T g = some (.choice x) ∧ V = .choice { x with elements := withText x.elements }) := by
  obtain ⟨g, hc, ⟨x, hx, h⟩ | ⟨x, hx, h⟩⟩ := hf
  · refine ⟨_, g, _, ?_, changed_set hi hx (by rintro rfl; rw [hi] at hx; cases hx), hc, Or.inl ⟨x, hx, rfl, h⟩⟩
    simp only [simplifyMixed, hi, hc, hx]
    rw [if_pos h]
  · refine ⟨_, g, _, ?_, changed_set hi hx (by rintro rfl; rw [hi] at hx; cases hx), hc, Or.inr ⟨x, hx, rfl⟩⟩
    simp only [simplifyMixed, hi, hc, hx]
    rw [if_neg (by rw [h]; simp)]

theorem simplify_fits (ids : List Ident) (T : Types)
    (hs : ∀ i ∈ ids, ∃ C, look T i = some (.complex C) ∧ Fits T C) :
    ∃ T', simplifyMixedTypes T ids = .ok T' ∧ Assoc.keys T' = Assoc.keys T := by
  induction ids generalizing T with
  | nil => exact ⟨T, rfl, rfl⟩
  | cons i ids ih =>
    obtain ⟨C, hi, hf⟩ := hs i (by simp)
    obtain ⟨T₁, g, V, hr, ch, hc, hV⟩ := simplifyMixed_fits hi hf
    have hgc : ∀ D, look T g ≠ some (.complex D) := by
      rcases hV with ⟨x, hx, -⟩ | ⟨x, hx, -⟩ <;> simp [hx]
    obtain ⟨T', e1, e2⟩ := ih T₁ (by
      intro k hk
      obtain ⟨D, hD, g', hg', hF⟩ := hs k (by simp [hk])
      have hfit : ∀ D' : Complex, D'.content = D.content → D'.max = D.max → Fits T₁ D' := by
        intro D' h1 h2
        refine ⟨g', h1.trans hg', ?_⟩
        by_cases hgg : g' = g
        · subst hgg
          rcases hF with ⟨x, hx, h⟩ | ⟨x, hx, h⟩
          · rcases hV with ⟨y, hy, rfl, -⟩ | ⟨y, hy, rfl⟩
            · rw [hx] at hy; cases hy
              exact Or.inl ⟨_, ch.content, all_withTexts h⟩
            · rw [hx] at hy; cases hy
          · rcases hV with ⟨y, hy, rfl, -⟩ | ⟨y, hy, rfl⟩
            · rw [hx] at hy; cases hy
            · rw [hx] at hy; cases hy
              exact Or.inr ⟨_, ch.content, h2.trans h⟩
        · have hgi : g' ≠ i := by
            rintro rfl
            rcases hF with ⟨x, hx, h⟩ | ⟨x, hx, h⟩ <;> rw [hi] at hx <;> cases hx
          rcases hF with ⟨x, hx, h⟩ | ⟨x, hx, h⟩
          · exact Or.inl ⟨x, (ch.other g' hgi hgg).trans hx, h⟩
          · exact Or.inr ⟨x, (ch.other g' hgi hgg).trans hx, h2.trans h⟩
      by_cases hki : k = i
      · subst hki
        rw [hi] at hD; cases hD
        exact ⟨_, ch.type_, hfit _ rfl rfl⟩
      · exact ⟨D, (ch.other k hki (by rintro rfl; exact hgc D hD)).trans hD, hfit D rfl rfl⟩)
    refine ⟨T', ?_, e2.trans ch.keys⟩
    simpa [simplifyMixedTypes, forEach, hr, Res.unwrap] using e1

theorem getResolved_direct {T : Types} {g : Ident} {ty : MetaType} (h : Assoc.get T g = some ty)
    (hn : ∀ r, ty.variant ≠ .reference r) : getResolvedType T g = some ty := by
  have ht : ty.variant.target = none := by
    cases hv : ty.variant <;> first | rfl | exact absurd hv (hn _)
  simp [getResolvedType, getResolved, resolveF, h, ht]

/-- C57: if no simplifiable type names its content by a synonym, the pass never panics, whatever the order. -/
theorem C57_never_panics_partial (T : Types) (ids : List Ident) (h : IsOrder T ids) (hd : DirectContent T) :
    ∃ T', simplifyMixedTypes T ids = .ok T' ∧ Assoc.keys T' = Assoc.keys T := by
  refine simplify_fits ids T (fun i hi => ?_)
  obtain ⟨v, hv, hs⟩ := (h.2 i).1 hi
  obtain ⟨C, rfl, hm⟩ := simplifiable_mixed hs
  refine ⟨C, hv, ?_⟩
  have hs' := hs
  simp only [isSimplifiable, Bool.and_eq_true] at hs
  cases hc : C.content with
  | none => rw [hc] at hs; simp at hs
  | some g =>
    cases hg : Assoc.get T g with
    | none =>
      have : getResolvedType T g = none := by simp [getResolvedType, getResolved, resolveF, hg]
      rw [hc] at hs; simp [this] at hs
    | some ty =>
      have := getResolved_direct hg (hd i C g ty.variant hv hs' hc (look_of hg rfl))
      rw [hc] at hs
      simp only [Option.bind_some, this, Option.map_some] at hs
      refine ⟨g, hc, ?_⟩
      cases hvt : ty.variant <;> rw [hvt] at hs <;> simp at hs
      case choice x => exact Or.inr ⟨x, look_of hg hvt, hs.2⟩
      case sequence x => exact Or.inl ⟨x, look_of hg hvt, by simpa using hs.2⟩

/-- C57: a simplification changes the type, which is no longer mixed, and its content, and nothing else. In the content only
texts are new: the elements are kept in order, the texts of a sequence may be absent and occur at most once, and a choice
has a text among its alternatives. -/
theorem C57_only_texts_added (T T' : Types) (i : Ident) (h : simplifyMixed T i = .ok T') :
    ∃ C g V V', look T i = some (.complex C) ∧ C.content = some g ∧ look T g = some V ∧ look T' g = some V' ∧
      look T' i = some (.complex { C with isMixed := false }) ∧ (∀ k, k ≠ i → k ≠ g → look T' k = look T k) ∧
      ((∃ x y : Group, V = .sequence x ∧ V' = .sequence y ∧ y.isMixed = x.isMixed ∧
          y.elements.filter (fun e => !isTextElement e) = x.elements.filter (fun e => !isTextElement e) ∧
          (∀ e ∈ y.elements, e ∉ x.elements → e.variant = .text ∧ e.min = 0 ∧ e.max = .bounded 1) ∧
          y.elements.length = 2 * x.elements.length + 1) ∨
        ∃ x y : Group, V = .choice x ∧ V' = .choice y ∧ y.isMixed = x.isMixed ∧
          y.elements.filter (fun e => !isTextElement e) = x.elements.filter (fun e => !isTextElement e) ∧
          (∀ e ∈ x.elements, e ∈ y.elements) ∧
          (∀ e ∈ y.elements, e ∉ x.elements → e.variant = .text ∧ e.min = 1 ∧ e.max = .bounded 1) ∧
          ∃ e ∈ y.elements, e.variant = .text) := by
  have hf : ∃ C, look T i = some (.complex C) ∧ Fits T C := by
    unfold simplifyMixed at h
    split at h
    · cases h
    · rename_i C hi
      refine ⟨C, hi, ?_⟩
      split at h
      · cases h
      · rename_i g hc
        split at h
        · cases h
        · rename_i x hx
          split at h
          · cases h
          · rename_i hm
            exact ⟨g, hc, Or.inr ⟨x, hx, by simpa using hm⟩⟩
        · rename_i x hx
          split at h
          · rename_i ha
            exact ⟨g, hc, Or.inl ⟨x, hx, ha⟩⟩
          · cases h
        · cases h
    · cases h
  obtain ⟨C, hi, hf⟩ := hf
  obtain ⟨T₁, g, V, hr, ch, hc, hV⟩ := simplifyMixed_fits hi hf
  rw [h] at hr; cases hr
  rcases hV with ⟨x, hx, rfl, -⟩ | ⟨x, hx, rfl⟩
  · refine ⟨C, g, _, _, hi, hc, hx, ch.content, ch.type_, ch.other, Or.inl ⟨x, _, rfl, rfl, rfl, ?_, ?_, ?_⟩⟩
    · have key : ∀ es : List Element, (es.flatMap fun e => [e, textAfter e]).filter (fun e => !isTextElement e) =
          es.filter (fun e => !isTextElement e) := by
        intro es
        induction es with
        | nil => rfl
        | cons e es ih =>
          simp only [List.flatMap_cons, List.cons_append, List.nil_append, List.filter_cons, ih]
          rfl
      simp only [withTexts, List.filter_cons, key]
      rfl
    · intro e he hne
      simp only [withTexts, List.mem_cons, List.mem_flatMap, List.not_mem_nil, or_false] at he
      rcases he with rfl | ⟨a, ha, rfl | rfl⟩
      · exact ⟨rfl, rfl, rfl⟩
      · exact absurd ha hne
      · exact ⟨rfl, rfl, rfl⟩
    · have key : ∀ es : List Element, (es.flatMap fun e => [e, textAfter e]).length = 2 * es.length := by
        intro es
        induction es with
        | nil => rfl
        | cons e es ih => rw [List.flatMap_cons, List.length_append, ih]; simp; omega
      simp only [withTexts, List.length_cons, key]
  · refine ⟨C, g, _, _, hi, hc, hx, ch.content, ch.type_, ch.other, Or.inr ⟨x, _, rfl, rfl, rfl, ?_, ?_, ?_, ?_⟩⟩
    · simp only [withText]
      split
      · rfl
      · simp [isTextElement, textElement]
    · exact fun e he => mem_withText he
    · intro e he hne
      simp only [withText] at he
      split at he
      · exact absurd he hne
      · rcases List.mem_append.1 he with he | he
        · exact absurd he hne
        · simp only [List.mem_singleton] at he; subst he; exact ⟨rfl, rfl, rfl⟩
    · simp only [withText]
      split
      · rename_i ht
        obtain ⟨e, he, ht⟩ := List.any_eq_true.1 ht
        refine ⟨e, he, ?_⟩
        unfold isTextElement at ht
        split at ht
        · assumption
        · cases ht
      · exact ⟨textElement (.named "text".toList), by simp, rfl⟩

/-! ## Examples and what is false -/

/-- A mixed type with the content `V`, which has to occur `m` times. -/
def exMixed (V : Variant) (m : Nat) (n : MaxOccurs) : Types :=
  [(exId "S", .new (.buildIn .string)), (exId "G", .new V),
   (exId "C", .new (.complex ⟨.none, some (exId "G"), m, n, false, true, []⟩))]

theorem exMixed_cases {V : Variant} {m : Nat} {n : MaxOccurs} {i : Ident} {v : Variant} (h : look (exMixed V m n) i = some v) :
    (i = exId "S" ∧ v = .buildIn .string) ∨ (i = exId "G" ∧ v = V) ∨
    (i = exId "C" ∧ v = .complex ⟨.none, some (exId "G"), m, n, false, true, []⟩) := by
  obtain ⟨ty, h1, h2⟩ := look_iff.1 h
  have := Assoc.mem_of_get h1
  simp only [exMixed, List.mem_cons, Prod.mk.injEq, List.not_mem_nil, or_false] at this
  rcases this with ⟨rfl, rfl⟩ | ⟨rfl, rfl⟩ | ⟨rfl, rfl⟩
  · exact Or.inl ⟨rfl, h2.symm⟩
  · exact Or.inr (Or.inl ⟨rfl, h2.symm⟩)
  · exact Or.inr (Or.inr ⟨rfl, h2.symm⟩)

/-- The elements `a` and `b` in order. -/
def exSeqAB : Variant := .sequence ⟨false, [exElem "a" "S", { exElem "b" "S" with min := 0 }]⟩

theorem exMixed_order : IsOrder (exMixed exSeqAB 1 (.bounded 1)) [exId "C"] := by
  refine ⟨by simp, fun i => ⟨?_, ?_⟩⟩
  · intro h
    simp only [List.mem_singleton] at h
    subst h
    exact ⟨_, rfl, by decide +kernel⟩
  · rintro ⟨v, hv, hs⟩
    rcases exMixed_cases hv with ⟨rfl, rfl⟩ | ⟨rfl, rfl⟩ | ⟨rfl, rfl⟩
    · cases hs
    · cases hs
    · simp

/-- The hypotheses of `C57_accepts_no_less_partial` are met. -/
example (P : Lex) : ∃ T', simplifyMixedTypes (exMixed exSeqAB 1 (.bounded 1)) [exId "C"] = .ok T' ∧
    Assoc.keys T' = Assoc.keys (exMixed exSeqAB 1 (.bounded 1)) ∧
      ∀ i xsi as kids, Tidy kids → Valid P (exMixed exSeqAB 1 (.bounded 1)) (.value i xsi as kids) →
        Valid P T' (.value i xsi as kids) := by
  refine C57_accepts_no_less_partial P _ _ exMixed_order ?_ ?_
  · intro i C hi _
    rcases exMixed_cases hi with ⟨-, hv⟩ | ⟨-, hv⟩ | ⟨-, hv⟩
    · cases hv
    · cases hv
    · cases hv
      refine ⟨exId "G", rfl, Or.inl ⟨⟨false, [exElem "a" "S", { exElem "b" "S" with min := 0 }]⟩, by decide +kernel, by decide, ?_⟩⟩
      intro e he
      simp only [List.mem_cons, List.not_mem_nil, or_false] at he
      rcases he with rfl | rfl <;> exact ⟨⟨by simp [exElem], by simp [exElem]⟩, by decide +kernel⟩
  · intro i hi k hk _ _ _ _ _
    simp only [List.mem_singleton] at hi hk
    rw [hi, hk]

/-- The hypotheses of `C57_only_texts_added` are met. -/
example : ∃ T', simplifyMixed (exMixed exSeqAB 1 (.bounded 1)) (exId "C") = .ok T' ∧
    ∃ g, look T' (exId "G") = some (.sequence g) ∧ g.elements.length = 5 := ⟨_, rfl, _, rfl, by decide +kernel⟩

/-- A mixed type whose content is named by a synonym. -/
def exMixedRef : Types :=
  [(exId "S", .new (.buildIn .string)), (exId "G", .new (.reference (.new (exId "H")))), (exId "H", .new exSeqAB),
   (exId "C", .new (.complex ⟨.none, some (exId "G"), 1, .bounded 1, false, true, []⟩))]

/-- C57 (negation): a mixed type whose content is named by a synonym makes the pass panic. -/
theorem C57_synonym_panics : IsOrder exMixedRef [exId "C"] ∧ simplifyMixedTypes exMixedRef [exId "C"] = .panic := by
  refine ⟨⟨by simp, fun i => ⟨?_, ?_⟩⟩, by decide +kernel⟩
  · intro h
    simp only [List.mem_singleton] at h
    subst h
    exact ⟨_, rfl, by decide +kernel⟩
  · rintro ⟨v, hv, hs⟩
    obtain ⟨ty, h1, rfl⟩ := look_iff.1 hv
    have := Assoc.mem_of_get h1
    simp only [exMixedRef, List.mem_cons, Prod.mk.injEq, List.not_mem_nil, or_false] at this
    rcases this with ⟨rfl, rfl⟩ | ⟨rfl, rfl⟩ | ⟨rfl, rfl⟩ | ⟨rfl, rfl⟩
    · cases hs
    · cases hs
    · cases hs
    · simp

/-- A sequence with a required element contains an element. -/
theorem inOrder_required {P : Lex} {T : Types} {es : List Element} {ns : List Node} (h : Valid P T (.inOrder es ns))
    {e : Element} (he : e ∈ es) (hmin : 1 ≤ e.min) {t : Ident} (hv : e.variant = .type_ t .element) :
    ∃ x as kids, Node.elem e.ident x as kids ∈ ns := by
  induction es generalizing ns with
  | nil => cases he
  | cons e' es ih =>
    have hx := h.step
    generalize hj : Judge.inOrder _ ns = j at hx
    cases hx <;> cases hj
    rename_i k a b hk hta hb
    rcases List.mem_cons.1 he with rfl | he
    · obtain ⟨ps, rfl, rfl, hp⟩ := times_parts hta
      cases ps with
      | nil => have := hk.1; simp at this; omega
      | cons p ps =>
        have hpp := hp p (by simp)
        cases hpp with
        | element _ _ => exact ⟨_, _, _, by simp; exact Or.inl ⟨rfl, rfl, rfl⟩⟩
        | nested h1 _ => rw [hv] at h1; cases h1
        | wildcard h1 _ => rw [hv] at h1; cases h1
        | textNode h1 => rw [hv] at h1; cases h1
    · obtain ⟨x, as, kids, hm⟩ := ih hb he
      exact ⟨x, as, kids, List.mem_append_right _ hm⟩

/-- C57 (negation): a mixed type whose whole content may be absent accepts a lone text before, but not after the pass. -/
theorem C57_optional_content_lost (P : Lex) (s : Txt) :
    ∃ T', simplifyMixedTypes (exMixed exSeqAB 0 (.bounded 1)) [exId "C"] = .ok T' ∧
      Valid P (exMixed exSeqAB 0 (.bounded 1)) (.value (exId "C") none [] [.text s]) ∧
      ¬ Valid P T' (.value (exId "C") none [] [.text s]) := by
  refine ⟨_, rfl, ?_, ?_⟩
  · exact .complexValue (k := 0) (ty := .new (.complex ⟨.none, some (exId "G"), 0, .bounded 1, false, true, []⟩))
      (by decide +kernel) rfl rfl ⟨by simp, by simp⟩ (by simp) ⟨by simp, by simp⟩ .noTimes
  · intro h
    generalize hT : setVariant _ _ _ = T' at h
    have hC : look T' (exId "C") = some (.complex ⟨.none, some (exId "G"), 0, .bounded 1, false, false, []⟩) := by
      subst hT; decide +kernel
    have hG : look T' (exId "G") = some (.sequence ⟨false, withTexts [exElem "a" "S", { exElem "b" "S" with min := 0 }]⟩) := by
      subst hT; decide +kernel
    have hx := h.step
    cases hx with
    | refValue h1 => rw [hC] at h1; cases h1
    | textValue h1 => have := h1.step; cases this <;> simp_all
    | customValue h1 => rw [hC] at h1; cases h1
    | dynamicValue h1 => rw [hC] at h1; cases h1
    | simpleValue h1 h2 h3 h4 h5 =>
      rw [hC] at h1; cases h1; cases h2
      have := h5.step; cases this <;> simp_all
    | complexValue h1 h2 h3 h4 h5 h6 =>
      rw [hC] at h1; cases h1; cases h2
      simp only [Bool.false_eq_true, if_false] at h6
      obtain ⟨ps, p1, p2, p3⟩ := groupTimes_parts h6
      cases ps with
      | nil => simp at p2
      | cons p ps =>
        have hp := group_sequence_inv hG (p3 p (by simp))
        obtain ⟨x, as, kids, hm⟩ := inOrder_required hp (e := exElem "a" "S") (by simp [withTexts]) (by decide) rfl
        have : Node.elem (exElem "a" "S").ident x as kids ∈ [Node.text s] := by
          rw [← p2]; exact List.mem_flatten.2 ⟨p, by simp, hm⟩
        simp at this

/-- Two types that share a content: `C` is mixed and `D` is not. -/
def exSharedMixed : Types := exMixed exSeqAB 1 (.bounded 1) ++
  [(exId "D", .new (.complex ⟨.none, some (exId "G"), 1, .bounded 1, false, false, []⟩))]

/-- What a type that is not mixed needs when its content is a sequence with a required element and no texts. -/
theorem no_text_kids {P : Lex} {T : Types} {es : List Element} (hes : ∀ e ∈ es, ∃ t, e.variant = .type_ t .element)
    {ns : List Node} (h : Valid P T (.inOrder es ns)) {s : Txt} : Node.text s ∉ ns := by
  induction es generalizing ns with
  | nil =>
    have hx := h.step
    generalize hj : Judge.inOrder _ ns = j at hx
    cases hx <;> cases hj
    simp
  | cons e es ih =>
    have hx := h.step
    generalize hj : Judge.inOrder _ ns = j at hx
    cases hx <;> cases hj
    rename_i k a b hk hta hb
    intro hm
    rcases List.mem_append.1 hm with hm | hm
    · obtain ⟨ps, rfl, rfl, hp⟩ := times_parts hta
      obtain ⟨p, hpm, hm⟩ := List.mem_flatten.1 hm
      obtain ⟨t, hv⟩ := hes e (by simp)
      have := hp p hpm
      cases this with
      | element _ _ => simp at hm
      | nested h1 _ => rw [hv] at h1; cases h1
      | wildcard h1 _ => rw [hv] at h1; cases h1
      | textNode h1 => rw [hv] at h1; cases h1
    · exact ih (fun e he => hes e (by simp [he])) hb hm

/-- C57 (negation): a type that is not mixed, but shares its content with a mixed type, accepts texts after the pass. -/
theorem C57_shared_content_accepts_text (P : Lex) (s : Txt) (hP : P.builtIn .string s) :
    ∃ T', simplifyMixedTypes exSharedMixed [exId "C"] = .ok T' ∧
      ¬ Valid P exSharedMixed (.value (exId "D") none [] [.text s, exA s]) ∧
      Valid P T' (.value (exId "D") none [] [.text s, exA s]) := by
  refine ⟨_, rfl, ?_, ?_⟩
  · intro h
    have hD : look exSharedMixed (exId "D") = some (.complex ⟨.none, some (exId "G"), 1, .bounded 1, false, false, []⟩) := by
      decide +kernel
    have hG : look exSharedMixed (exId "G") = some exSeqAB := by decide +kernel
    have hx := h.step
    cases hx with
    | refValue h1 => rw [hD] at h1; cases h1
    | customValue h1 => rw [hD] at h1; cases h1
    | dynamicValue h1 => rw [hD] at h1; cases h1
    | complexValue h1 h2 h3 h4 h5 h6 =>
      rw [hD] at h1; cases h1; cases h2
      simp only [Bool.false_eq_true, if_false] at h6
      obtain ⟨ps, p1, p2, p3⟩ := groupTimes_parts h6
      have hm : Node.text s ∈ ps.flatten := by rw [p2]; simp
      obtain ⟨p, hp, hm⟩ := List.mem_flatten.1 hm
      refine no_text_kids (s := s) ?_ (group_sequence_inv hG (p3 p hp)) hm
      intro e he
      simp only [List.mem_cons, List.not_mem_nil, or_false] at he
      rcases he with rfl | rfl <;> exact ⟨_, rfl⟩
  · generalize hT : setVariant _ _ _ = T'
    have hD : look T' (exId "D") = some (.complex ⟨.none, some (exId "G"), 1, .bounded 1, false, false, []⟩) := by
      subst hT; decide +kernel
    have hS : look T' (exId "S") = some (.buildIn .string) := by
      subst hT; decide +kernel
    have hG : look T' (exId "G") = some (.sequence ⟨false, withTexts [exElem "a" "S", { exElem "b" "S" with min := 0 }]⟩) := by
      subst hT; decide +kernel
    obtain ⟨tD, d1, d2⟩ := look_iff.1 hD
    obtain ⟨tG, g1, g2⟩ := look_iff.1 hG
    obtain ⟨tS, s1, s2⟩ := look_iff.1 hS
    refine .complexValue (k := 1) d1 d2 rfl ⟨by simp, by simp⟩ (by simp) ⟨by simp, by simp⟩ ?_
    have hg : Valid P T' (.group (exId "G") [.text s, exA s]) := by
      refine .sequence g1 g2 ?_
      refine Valid.cons (a := [.text s]) (b := [exA s]) (k := 1) ⟨by simp [textBefore], by simp [textBefore, textElement]⟩ ?_ ?_
      · have := times_of_parts (P := P) (T := T') (e := textBefore) [[.text s]] (by
          intro q hq; simp at hq; subst hq; exact .textNode rfl)
        simpa using this
      · refine Valid.cons (a := [exA s]) (b := []) (k := 1) ⟨by simp [exElem], by simp [exElem]⟩ ?_ ?_
        · have := times_of_parts (P := P) (T := T') (e := exElem "a" "S") [[exA s]] (by
            intro q hq; simp at hq; subst hq; exact .element rfl (.textValue (.builtInText s1 s2 hP)))
          simpa using this
        · refine Valid.cons (a := []) (b := []) (k := 0) (allows_zero rfl) .zero ?_
          refine Valid.cons (a := []) (b := []) (k := 0) (allows_zero rfl) .zero ?_
          exact Valid.cons (a := []) (b := []) (k := 0) (allows_zero rfl) .zero .nil
    have := groupTimes_of_parts (P := P) (T := T') (g := exId "G") [[.text s, exA s]] (by
      intro q hq; simp at hq; subst hq; exact hg)
    simpa using this

/-- A choice of the element `a`. -/
def exChoiceA : Variant := .choice ⟨false, [exElem "a" "S"]⟩

/-- C57 (negation): a text counts as one of the required elements of a choice: a mixed type that needs at least one element
accepts a lone text after the pass. -/
theorem C57_text_counts_as_element (P : Lex) (s : Txt) :
    ∃ T', simplifyMixedTypes (exMixed exChoiceA 1 .unbounded) [exId "C"] = .ok T' ∧
      ¬ Valid P (exMixed exChoiceA 1 .unbounded) (.value (exId "C") none [] [.text s]) ∧
      Valid P T' (.value (exId "C") none [] [.text s]) := by
  refine ⟨_, rfl, ?_, ?_⟩
  · intro h
    have hC : look (exMixed exChoiceA 1 .unbounded) (exId "C") =
        some (.complex ⟨.none, some (exId "G"), 1, .unbounded, false, true, []⟩) := by decide +kernel
    have hG : look (exMixed exChoiceA 1 .unbounded) (exId "G") = some exChoiceA := by decide +kernel
    have hx := h.step
    cases hx with
    | refValue h1 => rw [hC] at h1; cases h1
    | textValue h1 =>
      have := h1.step
      cases this <;> simp_all
    | customValue h1 => rw [hC] at h1; cases h1
    | dynamicValue h1 => rw [hC] at h1; cases h1
    | simpleValue h1 h2 h3 h4 h5 =>
      rw [hC] at h1; cases h1; cases h2
      have := h5.step
      cases this <;> simp_all [exChoiceA]
    | complexValue h1 h2 h3 h4 h5 h6 =>
      rw [hC] at h1; cases h1; cases h2
      obtain ⟨ps, p1, p2, p3⟩ := groupTimes_parts h6
      simp [elemsOnly] at p2
      cases ps with
      | nil => have := h5.1; simp at p1; subst p1; simp at this
      | cons p ps =>
        obtain ⟨e, he, k, hk, ht⟩ := group_choice_inv hG (p3 p (by simp))
        simp only [List.mem_singleton] at he
        subst he
        obtain ⟨qs, q1, q2, q3⟩ := times_parts ht
        have : p = [] := p2 p (by simp)
        subst this
        cases qs with
        | nil => have := hk.1; simp [exElem] at this; simp at q1; omega
        | cons q qs =>
          have hq := elem_only (i := exId "S") rfl (q3 q (by simp))
          simp at q2
          rw [q2.1] at hq
          cases hq
  · generalize hT : setVariant _ _ _ = T'
    have hC : look T' (exId "C") = some (.complex ⟨.none, some (exId "G"), 1, .unbounded, false, false, []⟩) := by
      subst hT; decide +kernel
    have hG : look T' (exId "G") = some (.choice ⟨false, withText [exElem "a" "S"]⟩) := by
      subst hT; decide +kernel
    obtain ⟨tC, d1, d2⟩ := look_iff.1 hC
    obtain ⟨tG, g1, g2⟩ := look_iff.1 hG
    refine .complexValue (k := 1) d1 d2 rfl ⟨by simp, by simp⟩ (by simp) ⟨by simp, by simp⟩ ?_
    have hg : Valid P T' (.group (exId "G") [.text s]) := by
      refine .choice (e := textElement (.named "text".toList)) (k := 1) g1 g2 (by decide +kernel)
        ⟨by simp [textElement], by simp [textElement]⟩ ?_
      have := times_of_parts (P := P) (T := T') (e := textElement (.named "text".toList)) [[.text s]] (by
        intro q hq; simp at hq; subst hq; exact .textNode rfl)
      simpa using this
    have := groupTimes_of_parts (P := P) (T := T') (g := exId "G") [[.text s]] (by
      intro q hq; simp at hq; subst hq; exact hg)
    simpa using this

/-- The hypotheses of `C57_never_panics_partial` are met. -/
example : ∃ T', simplifyMixedTypes (exMixed exSeqAB 1 (.bounded 1)) [exId "C"] = .ok T' ∧
    Assoc.keys T' = Assoc.keys (exMixed exSeqAB 1 (.bounded 1)) := by
  refine C57_never_panics_partial _ _ exMixed_order ?_
  intro i C g v hi _ hg hv r hr
  subst hr
  rcases exMixed_cases hv with ⟨-, hv⟩ | ⟨-, hv⟩ | ⟨-, hv⟩ <;> cases hv

/-- Nested sequences: the content of `C` is the group `H` of `a` and `b`. -/
def exNestedMixed : Types := exMixed (.sequence ⟨false, [{ exElem "h" "H" with variant := .type_ (exId "H") .group }]⟩) 1 (.bounded 1) ++
  [(exId "H", .new (.sequence ⟨false, [exElem "a" "S", { exElem "a" "S" with ident := ⟨0, .named "b".toList⟩ }]⟩))]

/-- An element `b` with the text `s`. -/
def exB (s : Txt) : Node := .elem ⟨0, .named "b".toList⟩ none [] [.text s]

theorem inOrder_cons_inv {P : Lex} {T : Types} {e : Element} {es : List Element} {ns : List Node}
    (h : Valid P T (.inOrder (e :: es) ns)) :
    ∃ k a b, ns = a ++ b ∧ Allows e.min e.max k ∧ Valid P T (.times e k a) ∧ Valid P T (.inOrder es b) := by
  have hx := h.step
  generalize hj : Judge.inOrder _ ns = j at hx
  cases hx <;> cases hj
  exact ⟨_, _, _, rfl, ‹_›, ‹_›, ‹_›⟩

theorem inOrder_nil_inv {P : Lex} {T : Types} {ns : List Node} (h : Valid P T (.inOrder [] ns)) : ns = [] := by
  have hx := h.step
  generalize hj : Judge.inOrder _ ns = j at hx
  cases hx <;> cases hj
  rfl

theorem times_texts {P : Lex} {T : Types} {e : Element} (he : e.variant = .text) {k : Nat} {ns : List Node}
    (h : Valid P T (.times e k ns)) {n : Node} (hn : n ∈ ns) : ∃ s, n = .text s := by
  obtain ⟨ps, rfl, rfl, hp⟩ := times_parts h
  obtain ⟨p, hpm, hm⟩ := List.mem_flatten.1 hn
  have := hp p hpm
  cases this with
  | element h1 _ => rw [he] at h1; cases h1
  | nested h1 _ => rw [he] at h1; cases h1
  | wildcard h1 _ => rw [he] at h1; cases h1
  | textNode h1 => simp at hm; exact ⟨_, hm⟩

/-- C57 (negation): there is no place for a text between the elements of a group inside the content. -/
theorem C57_nested_text_lost (P : Lex) (s : Txt) (hP : P.builtIn .string s) :
    ∃ T', simplifyMixedTypes exNestedMixed [exId "C"] = .ok T' ∧
      Valid P exNestedMixed (.value (exId "C") none [] [exA s, .text s, exB s]) ∧
      ¬ Valid P T' (.value (exId "C") none [] [exA s, .text s, exB s]) := by
  refine ⟨_, rfl, ?_, ?_⟩
  · have hS : Valid P exNestedMixed (.text (exId "S") s) :=
      .builtInText (ty := .new (.buildIn .string)) (by decide +kernel) rfl hP
    have hH : Valid P exNestedMixed (.group (exId "H") [exA s, exB s]) := by
      refine .sequence (ty := .new (.sequence ⟨false, [exElem "a" "S", { exElem "a" "S" with ident := ⟨0, .named "b".toList⟩ }]⟩))
        (by decide +kernel) rfl ?_
      refine Valid.cons (a := [exA s]) (b := [exB s]) (k := 1) ⟨by simp [exElem], by simp [exElem]⟩ ?_ ?_
      · have := times_of_parts (P := P) (T := exNestedMixed) (e := exElem "a" "S") [[exA s]] (by
          intro q hq; simp at hq; subst hq; exact .element rfl (.textValue hS))
        simpa using this
      · refine Valid.cons (a := [exB s]) (b := []) (k := 1) ⟨by simp [exElem], by simp [exElem]⟩ ?_ .nil
        have := times_of_parts (P := P) (T := exNestedMixed)
          (e := { exElem "a" "S" with ident := ⟨0, .named "b".toList⟩ }) [[exB s]] (by
          intro q hq; simp at hq; subst hq; exact .element rfl (.textValue hS))
        simpa using this
    have hG : Valid P exNestedMixed (.group (exId "G") [exA s, exB s]) := by
      refine .sequence (ty := .new (.sequence ⟨false, [{ exElem "h" "H" with variant := .type_ (exId "H") .group }]⟩))
        (by decide +kernel) rfl ?_
      refine Valid.cons (a := [exA s, exB s]) (b := []) (k := 1) ⟨by simp [exElem], by simp [exElem]⟩ ?_ .nil
      have := times_of_parts (P := P) (T := exNestedMixed)
        (e := { exElem "h" "H" with variant := .type_ (exId "H") .group }) [[exA s, exB s]] (by
        intro q hq; simp at hq; subst hq; exact .nested rfl hH)
      simpa using this
    refine .complexValue (k := 1) (ty := .new (.complex ⟨.none, some (exId "G"), 1, .bounded 1, false, true, []⟩))
      (by decide +kernel) rfl rfl ⟨by simp, by simp⟩ (by simp) ⟨by simp, by simp⟩ ?_
    have := groupTimes_of_parts (P := P) (T := exNestedMixed) (g := exId "G") [[exA s, exB s]] (by
      intro q hq; simp at hq; subst hq; exact hG)
    simpa [elemsOnly, exA, exB] using this
  · intro h
    generalize hT : setVariant _ _ _ = T' at h
    have hC : look T' (exId "C") = some (.complex ⟨.none, some (exId "G"), 1, .bounded 1, false, false, []⟩) := by
      subst hT; decide +kernel
    have hG : look T' (exId "G") = some (.sequence ⟨false, withTexts [{ exElem "h" "H" with variant := .type_ (exId "H") .group }]⟩) := by
      subst hT; decide +kernel
    have hH : look T' (exId "H") = some (.sequence ⟨false, [exElem "a" "S", { exElem "a" "S" with ident := ⟨0, .named "b".toList⟩ }]⟩) := by
      subst hT; decide +kernel
    have hx := h.step
    cases hx with
    | refValue h1 => rw [hC] at h1; cases h1
    | customValue h1 => rw [hC] at h1; cases h1
    | dynamicValue h1 => rw [hC] at h1; cases h1
    | complexValue h1 h2 h3 h4 h5 h6 =>
      rw [hC] at h1; cases h1; cases h2
      simp only [Bool.false_eq_true, if_false] at h6
      obtain ⟨ps, p1, p2, p3⟩ := groupTimes_parts h6
      have hk := h5.2 1 rfl
      rw [← p1] at hk
      match ps, hk with
      | [], _ => simp at p2
      | [p], _ =>
        simp at p2
        subst p2
        have hp := group_sequence_inv hG (p3 _ (List.mem_singleton.2 rfl))
        obtain ⟨k1, a, b, e1, -, t1, hp⟩ := inOrder_cons_inv hp
        obtain ⟨k2, c, d, e2, hk2, t2, hp⟩ := inOrder_cons_inv hp
        obtain ⟨k3, d', z, e3, -, t3, hp⟩ := inOrder_cons_inv hp
        have := inOrder_nil_inv hp
        subst this
        simp only [List.append_nil] at e3
        subst e3
        have htexts : ∀ n ∈ d, ∃ s, n = .text s := fun n hn => times_texts rfl t3 hn
        have ha : a = [] := by
          cases a with
          | nil => rfl
          | cons n a =>
            obtain ⟨s', hs'⟩ := times_texts rfl t1 (show n ∈ n :: a by simp)
            subst hs'
            simp [exA] at e1
        subst ha
        simp only [List.nil_append] at e1
        subst e2
        have hc : Node.text s ∉ c := by
          obtain ⟨qs, q1, rfl, q3⟩ := times_parts t2
          intro hm
          obtain ⟨q, hq, hm⟩ := List.mem_flatten.1 hm
          have hv := q3 q hq
          cases hv with
          | nested h1 hv =>
            simp at h1; subst h1
            refine no_text_kids (s := s) ?_ (group_sequence_inv hH hv) hm
            intro e he
            simp only [List.mem_cons, List.not_mem_nil, or_false] at he
            rcases he with rfl | rfl <;> exact ⟨_, rfl⟩
          | element h1 _ => simp at h1
          | wildcard h1 _ => simp at h1
          | textNode h1 => simp at h1
        have hb : exB s ∈ d ∨ d = [] := by
          rcases List.eq_nil_or_concat d with h | ⟨d', x, h⟩
          · exact Or.inr h
          · rw [h] at e1 ⊢
            have : c ++ (d'.concat x) = (c ++ d') ++ [x] := by simp
            rw [this] at e1
            have hh := congrArg List.getLast? e1
            simp only [List.getLast?_append, List.getLast?_singleton, Option.some_or, List.getLast?_cons_cons,
              Option.some.injEq] at hh
            left; rw [← hh]; simp
        rcases hb with hb | rfl
        · obtain ⟨s', hs'⟩ := htexts _ hb
          simp [exB] at hs'
        · simp at e1
          rw [← e1] at hc
          simp at hc
      | _ :: _ :: _, hk => simp at hk

end Verif.Opt

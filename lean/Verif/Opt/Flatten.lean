import Verif.Opt.ChoiceCard
/-!
# Flattening the content of complex types (C40)

Models `xsd-parser/src/pipeline/optimizer/flatten_complex_type.rs`.
-/
namespace Verif.Opt

open Verif.Meta
open Verif.Occurs (MaxOccurs Allows)

/-! ## Model -/

/-- `Mode`, flatten_complex_type.rs:130-136. -/
inductive FMode where
  | all
  | choice
  | sequence
  | mixed (min : Nat) (max : MaxOccurs)
deriving DecidableEq

/-- `Builder`, flatten_complex_type.rs:116-122. -/
structure FBuilder where
  modeOld : FMode
  modeNew : FMode
  old : Group
  new : Option Group
deriving DecidableEq

/-- `Occurs::update`, flatten_complex_type.rs:390-402 (`mode_old` is never `Mixed`, 399). -/
def occUpdate (mode : FMode) (a : Nat) (c : MaxOccurs) (m : Nat) (M : MaxOccurs) : Nat × MaxOccurs :=
  match mode with
  | .all | .sequence => (a + m, c.add M)
  | .choice => (min a m, c.max M)
  | .mixed _ _ => (a, c)

/-- The sums of flatten_complex_type.rs:206-216. -/
def sumBounds (es : List Element) : Nat × MaxOccurs :=
  es.foldl (fun b e => (b.1 + e.min, b.2.add e.max)) (0, .bounded 0)

/-- `Builder::into_mixed`, flatten_complex_type.rs:201-239. -/
def intoMixed (b : FBuilder) : FBuilder :=
  let n := b.new.getD b.old
  match b.modeNew with
  | .all | .sequence =>
    let s := sumBounds n.elements
    { b with modeNew := .mixed s.1 s.2, new := some { n with elements := n.elements.map resetOccurs } }
  | .choice =>
    let s := choiceBounds n.elements
    { b with modeNew := .mixed s.1 s.2, new := some { n with elements := n.elements.map resetOccurs } }
  | .mixed _ _ => { b with new := some n }

/-- flatten_complex_type.rs:296-310: variants that may be merged. -/
def compatible : ElementVariant → ElementVariant → Bool
  | .text, .text => true
  | .any _, .any _ => true
  | .type_ a _, .type_ b _ => a = b
  | _, _ => false

/-- `existing.min_occurs += …; existing.max_occurs += …` for the first element with the name, flatten_complex_type.rs:316-317. -/
def bump (e : Element) : List Element → List Element
  | [] => []
  | x :: xs =>
    if x.ident = e.ident then { x with min := x.min + e.min, max := x.max.add e.max } :: xs else x :: bump e xs

/-- `Builder::add_element`, flatten_complex_type.rs:281-331. -/
def addElement (b : FBuilder) (update : Bool) (e : Element) : Res FBuilder :=
  match b.new with
  | none => .ok b
  | some n =>
    match n.elements.find? (fun x => x.ident = e.ident) with
    | some x =>
      if compatible x.variant e.variant = false then .err .mismatchingVariants
      else if update then
        match b.modeNew with
        | .mixed a c =>
          let o := occUpdate b.modeOld a c e.min e.max
          .ok { b with modeNew := .mixed o.1 o.2 }
        | _ => .ok { b with new := some { n with elements := bump e n.elements } }
      else .ok b
    | none =>
      match update, b.modeNew with
      | true, .mixed a c =>
        let o := occUpdate b.modeOld a c e.min e.max
        .ok { b with modeNew := .mixed o.1 o.2, new := some { n with elements := n.elements ++ [resetOccurs e] } }
      | _, _ => .ok { b with new := some { n with elements := n.elements ++ [e] } }

/-- The loop of flatten_complex_type.rs:373-383. -/
def addAll (update : Bool) : FBuilder → List Element → Res FBuilder
  | b, [] => .ok b
  | b, e :: es =>
    match addElement b update e with
    | .ok b' => addAll update b' es
    | r => r

/-- `max <= MaxOccurs::Bounded(1)`. -/
def atMostOne (m : MaxOccurs) : Bool := m.cmp (.bounded 1) != .gt

/-- flatten_complex_type.rs:344-351: the group is taken over as it is. -/
def sameMode (a b : FMode) (el : Element) : Bool :=
  match a, b with
  | .all, .all => true
  | .choice, .choice => atMostOne el.max
  | .sequence, .sequence => atMostOne el.max
  | _, _ => false

/-- `element.min_occurs *= el.min_occurs; …`, flatten_complex_type.rs:378-379. -/
def scaleBy (el e : Element) : Element := { e with min := e.min * el.min, max := e.max.mul el.max }

/-- `Builder::merge`, flatten_complex_type.rs:333-386. `el` is the nested group, `prev` the elements before it. -/
def mergeInner (b : FBuilder) (el : Element) (prev : List Element) (other : FBuilder) : Res FBuilder :=
  let b := { b with new := some (b.new.getD { isMixed := b.old.isMixed, elements := prev }) }
  if sameMode b.modeNew other.modeNew el then
    let meta_ := other.new.getD other.old
    let n := b.new.getD b.old
    let b := { b with new := some { n with isMixed := n.isMixed || meta_.isMixed } }
    addAll true b (meta_.elements.map (scaleBy el))
  else
    let b := intoMixed b
    let other := intoMixed other
    let meta_ := other.new.getD other.old
    let n := b.new.getD b.old
    let b := { b with new := some { n with isMixed := n.isMixed || meta_.isMixed } }
    match b.modeNew, other.modeNew with
    | .mixed a c, .mixed m M =>
      let o := occUpdate b.modeOld a c (m * el.min) (M.mul el.max)
      addAll false { b with modeNew := .mixed o.1 o.2 } (meta_.elements.map resetOccurs)
    | _, _ => .panic

/-- The groups, flatten_complex_type.rs:151-156. -/
def groupOf : Variant → Option (FMode × Group)
  | .all x => some (.all, x)
  | .choice x => some (.choice, x)
  | .sequence x => some (.sequence, x)
  | _ => none

/-- The type of a nested group. -/
def nestedOf (e : Element) : Option Ident :=
  match e.variant with
  | .type_ t .group => some t
  | _ => none

/-- The loop of flatten_complex_type.rs:163-185 (`flatten_named_groups` is always `true`, 88). -/
def execLoop (rec : Ident → Res FBuilder) : FBuilder → List Element → List Element → Res FBuilder
  | b, _, [] => .ok b
  | b, prev, e :: es =>
    match nestedOf e with
    | none =>
      match addElement b true e with
      | .ok b' => execLoop rec b' (prev ++ [e]) es
      | r => r
    | some t =>
      match rec t with
      | .ok inner =>
        match mergeInner b e prev inner with
        | .ok b' => execLoop rec b' (prev ++ [e]) es
        | r => r
      | r => r

/-- `Flatten::exec`, flatten_complex_type.rs:146-188 (`max_depth` is `usize::MAX`, 88: never reached). Recursion is bounded
by `fuel`; running out of it means that the code does not stop. -/
def execF (l : Ident → Option Variant) : Nat → Ident → Res FBuilder
  | 0, _ => .diverged
  | fuel + 1, i =>
    match l i with
    | none => .err (.unknownType i)
    | some v =>
      match groupOf v with
      | none => .err (.expectedChoiceContent i)
      | some (m, x) => execLoop (execF l fuel) ⟨m, m, x, none⟩ [] x.elements

/-- The group of a builder, flatten_complex_type.rs:265-269. -/
def variantOf (m : FMode) (x : Group) : Variant :=
  match m with
  | .all => .all x
  | .sequence => .sequence x
  | .choice | .mixed _ _ => .choice x

/-- flatten_complex_type.rs:271-277. -/
def occursOf : FMode → Nat × MaxOccurs
  | .mixed a c => (a, c)
  | _ => (1, .bounded 1)

/-- `self.types.items.insert(ident, ty)` for an existing entry. -/
def setType (T : Types) (i : Ident) (ty : MetaType) : Types := T.map fun p => if p.1 = i then (p.1, ty) else p

/-- `Optimizer::flatten_complex_type_impl`, flatten_complex_type.rs:75-105. -/
def flattenComplex (fuel : Nat) (T : Types) (i : Ident) : Res Types :=
  match look T i with
  | none => .err (.unknownType i)
  | some (.complex ci) =>
    match ci.content with
    | none => .err (.missingContentType i)
    | some g =>
      match execF (look T) fuel g with
      | .ok b =>
        match b.new with
        | none => .ok T
        | some x =>
          let T := setType T g (.new (variantOf b.modeNew x))
          let o := occursOf b.modeNew
          .ok (setVariant T i (.complex { ci with min := ci.min * o.1, max := ci.max.mul o.2 }))
      | .err e => .err e
      | .panic => .panic
      | .diverged => .diverged
  | some _ => .err (.expectedComplexType i)

/-- `ComplexMeta::has_complex_content` of an entry, models/meta/complex.rs:146-153. -/
def hasComplexContent (T : Types) (v : Variant) : Bool :=
  match v with
  | .complex ci =>
    match ci.content.bind (getResolvedType T) with
    | some ty => (groupOf ty.variant).isSome
    | none => false
  | _ => false

/-- `for ident in idents { let _ = self.step(ident); }`: errors are ignored. -/
def tryEach {α β : Type} (f : α → β → Res α) : α → List β → Res α
  | a, [] => .ok a
  | a, b :: bs =>
    match f a b with
    | .ok a' => tryEach f a' bs
    | .err _ => tryEach f a bs
    | r => r

/-- `Optimizer::flatten_complex_types`, flatten_complex_type.rs:50-73. -/
def flattenAll (fuel : Nat) (T : Types) : Res Types :=
  tryEach (flattenComplex fuel) T ((T.filter fun p => hasComplexContent T p.2.variant).map (·.1))

/-! ## Specification -/

/-- The elements below a group that are not groups themselves, in order, down to depth `fuel`. -/
def leavesF (l : Ident → Option Variant) : Nat → Ident → List Element
  | 0, _ => []
  | fuel + 1, i =>
    match (l i).bind groupOf with
    | none => []
    | some (_, x) => x.elements.flatMap fun e =>
      match nestedOf e with
      | none => [e]
      | some t => leavesF l fuel t

/-- The first nested group of the group is of another kind or may be repeated (so that the order of the elements is
given up). -/
def FirstDiffers (l : Ident → Option Variant) (m : FMode) (x : Group) : Prop :=
  ∀ pre el post t, x.elements = pre ++ el :: post → nestedOf el = some t → (∀ e ∈ pre, nestedOf e = none) →
    ∃ m' x', (l t).bind groupOf = some (m', x') ∧ (m' ≠ m ∨ (m ≠ .all ∧ atMostOne el.max = false))

/-- What the flattening of the group `i` needs: in each nested group the elements have different names, or the order of
the elements is given up; `xs:all` groups are not repeated inside `xs:all` groups; nested choices are not empty. -/
def Separate (l : Ident → Option Variant) : Nat → Ident → Prop
  | 0, _ => True
  | fuel + 1, i => ∀ m x, (l i).bind groupOf = some (m, x) →
    (((leavesF l (fuel + 1) i).map (·.ident)).Nodup ∨ FirstDiffers l m x) ∧
    ∀ el ∈ x.elements, ∀ t, nestedOf el = some t → ∀ m' x', (l t).bind groupOf = some (m', x') →
      (m = .all → m' = .all → atMostOne el.max = true) ∧ (m' = .choice → x'.elements ≠ []) ∧ Separate l fuel t

/-- Wildcards with the same name are the same. -/
def WildcardsAgree (L : List Element) : Prop :=
  ∀ e ∈ L, ∀ e' ∈ L, e.ident = e'.ident → ∀ a b, e.variant = .any a → e'.variant = .any b → a = b

/-- What the flattening of the complex type `c` needs: if its content is a group, the group is not used by any other
type, and its nested groups meet `Separate`. -/
def Flattenable (fuel : Nat) (T : Types) (c : Ident) : Prop :=
  ∀ C g, look T c = some (.complex C) → C.content = some g → (look T g).bind groupOf ≠ none →
    OnlyUsedBy T c g ∧ Separate (look T) fuel g ∧ WildcardsAgree (leavesF (look T) fuel g)

/-! ## Languages of groups -/

/-- What a group with the mode accepts. -/
def Acc (P : Lex) (T : Types) (m : FMode) (es : List Element) (ns : List Node) : Prop :=
  match m with
  | .sequence => Valid P T (.inOrder es ns)
  | .all => ∃ fs : List Element, fs.Perm es ∧ Valid P T (.inOrder fs ns)
  | .choice => ∃ e ∈ es, ∃ k, Allows e.min e.max k ∧ Valid P T (.times e k ns)
  | .mixed a c => ∃ parts : List (List Node), Allows a c parts.length ∧ parts.flatten = ns ∧
      ∀ p ∈ parts, ∃ e ∈ es, Valid P T (.particle e p)

theorem Allows.add {m₁ m₂ : Nat} {M₁ M₂ : MaxOccurs} {a b : Nat} (h₁ : Allows m₁ M₁ a) (h₂ : Allows m₂ M₂ b) :
    Allows (m₁ + m₂) (M₁.add M₂) (a + b) := by
  refine ⟨Nat.add_le_add h₁.1 h₂.1, fun c hc => ?_⟩
  cases M₁ <;> cases M₂ <;> simp [MaxOccurs.add] at hc
  have := h₁.2 _ rfl
  have := h₂.2 _ rfl
  omega

theorem Allows.mul_one {m : Nat} {M : MaxOccurs} {m' : Nat} {M' : MaxOccurs} {k : Nat} (h : Allows m M k)
    (hm : m' ≤ 1) (hM : ∀ b, M' = .bounded b → 1 ≤ b) : Allows (m * m') (M.mul M') k := by
  constructor
  · have := Nat.mul_le_mul_left m hm
    have := h.1
    omega
  · intro b hb
    cases M <;> cases M' <;> simp [MaxOccurs.mul] at hb
    rename_i x y
    have h1 := h.2 x rfl
    have h2 := hM y rfl
    have := Nat.mul_le_mul_left x h2
    omega

theorem sumBounds_from (es : List Element) (b : Nat × MaxOccurs) :
    es.foldl (fun b e => (b.1 + e.min, b.2.add e.max)) b = (b.1 + (sumBounds es).1, b.2.add (sumBounds es).2) := by
  induction es generalizing b with
  | nil =>
    simp only [List.foldl_nil, sumBounds]
    obtain ⟨n, c⟩ := b
    cases c <;> simp [MaxOccurs.add]
  | cons e es ih =>
    simp only [sumBounds, List.foldl_cons] at ih ⊢
    rw [ih, ih (0 + e.min, _)]
    obtain ⟨n, c⟩ := b
    generalize (List.foldl (fun b e => (b.1 + e.min, b.2.add e.max)) (0, MaxOccurs.bounded 0) es) = s
    obtain ⟨s1, s2⟩ := s
    cases c <;> cases hm : e.max <;> cases s2 <;> simp [MaxOccurs.add] <;> omega

theorem sumBounds_append (es fs : List Element) :
    sumBounds (es ++ fs) = ((sumBounds es).1 + (sumBounds fs).1, (sumBounds es).2.add (sumBounds fs).2) := by
  rw [sumBounds, List.foldl_append, sumBounds_from]
  rfl

theorem sumBounds_single (e : Element) (k : Nat) (h : Allows e.min e.max k) :
    Allows (sumBounds [e]).1 (sumBounds [e]).2 k := by
  refine ⟨by simpa [sumBounds] using h.1, fun b hb => ?_⟩
  simp only [sumBounds, List.foldl_cons, List.foldl_nil] at hb
  cases hm : e.max <;> rw [hm] at hb <;> simp [MaxOccurs.add] at hb
  exact hb ▸ h.2 _ hm

/-- Elements in order, seen as single occurrences. -/
theorem inOrder_parts {P : Lex} {T : Types} {es : List Element} {ns : List Node} (h : Valid P T (.inOrder es ns)) :
    ∃ parts : List (List Node), Allows (sumBounds es).1 (sumBounds es).2 parts.length ∧ parts.flatten = ns ∧
      ∀ p ∈ parts, ∃ e ∈ es, Valid P T (.particle e p) := by
  generalize hj : Judge.inOrder es ns = j at h
  induction h generalizing es ns <;> cases hj
  case nil => exact ⟨[], ⟨by simp [sumBounds], by simp⟩, rfl, by simp⟩
  case cons e es k a b hk h1 _ _ ih =>
    obtain ⟨ps, c1, c2, c3⟩ := ih rfl
    obtain ⟨qs, d1, d2, d3⟩ := times_parts h1
    refine ⟨qs ++ ps, ?_, by simp [c2, d2], ?_⟩
    · have := sumBounds_append [e] es
      simp only [List.singleton_append] at this
      rw [this, List.length_append]
      exact Allows.add (by rw [d1]; exact sumBounds_single e k hk) c1
    · intro p hp
      rcases List.mem_append.1 hp with hp | hp
      · exact ⟨e, by simp, d3 p hp⟩
      · obtain ⟨e', he', hv⟩ := c3 p hp
        exact ⟨e', by simp [he'], hv⟩

theorem sumBounds_perm {es fs : List Element} (h : es.Perm fs) : sumBounds es = sumBounds fs := by
  induction h with
  | nil => rfl
  | @cons x l₁ l₂ _ ih =>
    have h1 := sumBounds_append [x] l₁
    have h2 := sumBounds_append [x] l₂
    simp only [List.singleton_append] at h1 h2
    rw [h1, h2, ih]
  | swap x y l =>
    have h1 := sumBounds_append [y, x] l
    have h2 := sumBounds_append [x, y] l
    simp only [List.cons_append, List.nil_append] at h1 h2
    rw [h1, h2]
    have : sumBounds [y, x] = sumBounds [x, y] := by
      simp only [sumBounds, List.foldl_cons, List.foldl_nil]
      cases x.max <;> cases y.max <;> simp [MaxOccurs.add] <;> omega
    rw [this]
  | trans _ _ ih₁ ih₂ => exact ih₁.trans ih₂

theorem choiceBounds_one (es : List Element) (e : Element) (he : e ∈ es) (k : Nat) (hk : Allows e.min e.max k) :
    Allows (choiceBounds es).1 (choiceBounds es).2 k := by
  obtain ⟨-, b2, b3⟩ := choiceBounds_aux es (1, .bounded 1)
  refine ⟨Nat.le_trans (b2 e he) hk.1, fun b hb => ?_⟩
  obtain ⟨-, h⟩ := b3 b hb
  obtain ⟨m, hm, hmb⟩ := h e he
  exact Nat.le_trans (hk.2 m hm) hmb

/-- The elements of a builder; `prev` are the elements seen so far. -/
def FBuilder.elems (b : FBuilder) (prev : List Element) : List Element :=
  match b.new with
  | some n => n.elements
  | none => prev

/-- Giving up the order accepts no less. -/
theorem acc_intoMixed {P : Lex} {T : Types} {b : FBuilder} {ns : List Node}
    (h : Acc P T b.modeNew (b.elems b.old.elements) ns) :
    Acc P T (intoMixed b).modeNew ((intoMixed b).elems b.old.elements) ns := by
  have hel : (b.new.getD b.old).elements = b.elems b.old.elements := by
    cases hn : b.new <;> simp [FBuilder.elems, hn]
  have hreset : ∀ (parts : List (List Node)), (∀ p ∈ parts, ∃ e ∈ b.elems b.old.elements, Valid P T (.particle e p)) →
      ∀ p ∈ parts, ∃ e ∈ (b.elems b.old.elements).map resetOccurs, Valid P T (.particle e p) := by
    intro parts hp p hp'
    obtain ⟨e, he, hv⟩ := hp p hp'
    exact ⟨resetOccurs e, List.mem_map.2 ⟨e, he, rfl⟩, particle_congr hv rfl rfl⟩
  cases hm : b.modeNew with
  | sequence =>
    rw [hm] at h
    obtain ⟨parts, h1, h2, h3⟩ := inOrder_parts h
    simp only [intoMixed, hm, FBuilder.elems, Acc, hel]
    exact ⟨parts, h1, h2, hreset parts h3⟩
  | all =>
    rw [hm] at h
    obtain ⟨fs, hp, h⟩ := h
    obtain ⟨parts, h1, h2, h3⟩ := inOrder_parts h
    simp only [intoMixed, hm, FBuilder.elems, Acc, hel]
    refine ⟨parts, ?_, h2, hreset parts ?_⟩
    · rw [sumBounds_perm hp] at h1; exact h1
    · intro p hp'
      obtain ⟨e, he, hv⟩ := h3 p hp'
      exact ⟨e, hp.mem_iff.1 he, hv⟩
  | choice =>
    rw [hm] at h
    obtain ⟨e, he, k, hk, ht⟩ := h
    obtain ⟨parts, h1, h2, h3⟩ := times_parts ht
    simp only [intoMixed, hm, FBuilder.elems, Acc, hel]
    refine ⟨parts, ?_, h2, hreset parts ?_⟩
    · rw [h1]; exact choiceBounds_one _ e he k hk
    · intro p hp'
      exact ⟨e, he, h3 p hp'⟩
  | mixed a c =>
    rw [hm] at h
    simp only [intoMixed, hm, FBuilder.elems, hel]
    exact h

/-! ## What a builder guarantees -/

/-- `e` is accepted inside the elements `es` (in order, or in any order). -/
def ItemSame (P : Lex) (T : Types) (ordered : Bool) (it : Element × List Element) : Prop :=
  ∀ k ns, Allows it.1.min it.1.max k → Valid P T (.times it.1 k ns) →
    ∃ fs : List Element, fs.Perm it.2 ∧ (ordered = true → fs = it.2) ∧ Valid P T (.inOrder fs ns)

/-- `e` is accepted as a number of single occurrences of the elements `es`. -/
def ItemMixed (P : Lex) (T : Types) (es : List Element) (it : Element × (Nat × MaxOccurs)) : Prop :=
  ∀ k ns, Allows it.1.min it.1.max k → Valid P T (.times it.1 k ns) →
    ∃ parts : List (List Node), Allows it.2.1 it.2.2 parts.length ∧ parts.flatten = ns ∧
      ∀ p ∈ parts, ∃ e ∈ es, Valid P T (.particle e p)

/-- The bounds `a`/`c` allow the sum of counts that the bounds `bs` allow. -/
def SumOk (bs : List (Nat × MaxOccurs)) (a : Nat) (c : MaxOccurs) : Prop :=
  ∀ prs : List ((Nat × MaxOccurs) × Nat), (prs.map (·.1)).Perm bs → (∀ p ∈ prs, Allows p.1.1 p.1.2 p.2) →
    Allows a c (prs.map (·.2)).sum

theorem sumOk_nil : SumOk [] 0 (.bounded 0) := by
  intro prs hp _
  have : prs = [] := by simpa using hp.eq_nil
  subst this
  exact ⟨Nat.le_refl _, fun b hb => by simp⟩

theorem sumOk_append {bs : List (Nat × MaxOccurs)} {a : Nat} {c : MaxOccurs} (h : SumOk bs a c) (b : Nat × MaxOccurs) :
    SumOk (bs ++ [b]) (a + b.1) (c.add b.2) := by
  intro prs hp hall
  have hb : b ∈ prs.map (·.1) := hp.mem_iff.2 (by simp)
  obtain ⟨⟨b', k⟩, hm, rfl⟩ := List.mem_map.1 hb
  obtain ⟨p, q, rfl⟩ := List.append_of_mem hm
  have hp' : ((p ++ q).map (·.1)).Perm bs := by
    have h1 : ((p ++ (b', k) :: q).map (·.1)).Perm (b' :: (p ++ q).map (·.1)) := by
      simp only [List.map_append, List.map_cons]
      exact List.perm_middle
    have h2 : (bs ++ [b']).Perm (b' :: bs) := by
      have := List.perm_middle (a := b') (l₁ := bs) (l₂ := [])
      simpa using this
    exact List.Perm.cons_inv (h1.symm.trans (hp.trans h2))
  have hs := h (p ++ q) hp' (fun x hx => hall x (by
    rcases List.mem_append.1 hx with hx | hx
    · simp [hx]
    · simp [hx]))
  have := Allows.add hs (hall (b', k) (by simp))
  have he : ((p ++ (b', k) :: q).map (·.2)).sum = ((p ++ q).map (·.2)).sum + k := by
    simp; omega
  rw [he]
  exact this

/-- The state of the builder after the elements `pre` of the group; `lv` gives the leaves below an element. -/
structure Inv (P : Lex) (T : Types) (lv : Element → List Element) (m : FMode) (b : FBuilder) (pre : List Element) :
    Prop where
  old : b.modeOld = m
  mode : b.modeNew = m ∨ ∃ a c, b.modeNew = .mixed a c
  /-- in order / in any order -/
  same : b.modeNew = m → m = .sequence ∨ m = .all → ∃ items : List (Element × List Element),
    items.map (·.1) = pre ∧ b.elems pre = items.flatMap (·.2) ∧
    ∀ it ∈ items, ItemSame P T (decide (m = .sequence)) it
  choice : b.modeNew = m → m = .choice → (pre ≠ [] → b.elems pre ≠ []) ∧
    ∀ e ∈ pre, ∀ k ns, Allows e.min e.max k → Valid P T (.times e k ns) → Acc P T .choice (b.elems pre) ns
  mixed : ∀ a c, b.modeNew = .mixed a c → (∀ e ∈ b.elems pre, e.min = 1 ∧ e.max = .bounded 1) ∧
    ∃ items : List (Element × (Nat × MaxOccurs)), items.map (·.1) = pre ∧
      (∀ it ∈ items, ItemMixed P T (b.elems pre) it) ∧
      (m = .sequence ∨ m = .all → SumOk (items.map (·.2)) a c) ∧
      (m = .choice → ∀ it ∈ items, ∀ k, Allows it.2.1 it.2.2 k → Allows a c k)
  /-- the elements of the builder are elements below the group -/
  sub : ∀ e ∈ b.elems pre, ∃ e' ∈ pre.flatMap lv, e.ident = e'.ident ∧ e.variant = e'.variant
  ids : b.modeNew = m → (b.elems pre).map (·.ident) = (pre.flatMap lv).map (·.ident)

theorem inOrder_append {P : Lex} {T : Types} {es fs : List Element} {a b : List Node} (h : Valid P T (.inOrder es a))
    (h' : Valid P T (.inOrder fs b)) : Valid P T (.inOrder (es ++ fs) (a ++ b)) := by
  generalize hj : Judge.inOrder es a = j at h
  induction h generalizing es a <;> cases hj
  case nil => exact h'
  case cons hk h1 _ _ ih =>
    have := ih rfl
    rw [List.append_assoc]
    exact .cons hk h1 this

/-- A list of particles in order, split into the particles. -/
theorem inOrder_split {P : Lex} {T : Types} {es : List Element} {ns : List Node} (h : Valid P T (.inOrder es ns)) :
    ∃ segs : List (Element × Nat × List Node), segs.map (·.1) = es ∧ (segs.map (·.2.2)).flatten = ns ∧
      ∀ s ∈ segs, Allows s.1.min s.1.max s.2.1 ∧ Valid P T (.times s.1 s.2.1 s.2.2) := by
  generalize hj : Judge.inOrder es ns = j at h
  induction h generalizing es ns <;> cases hj
  case nil => exact ⟨[], rfl, rfl, by simp⟩
  case cons e es k a b hk h1 _ _ ih =>
    obtain ⟨segs, s1, s2, s3⟩ := ih rfl
    refine ⟨(e, k, a) :: segs, by simp [s1], by simp [s2], ?_⟩
    intro s hs
    rcases List.mem_cons.1 hs with rfl | hs
    · exact ⟨hk, h1⟩
    · exact s3 s hs

/-- Segments of a permutation of the particles, with the items of the particles. -/
theorem segs_items {α : Type} {pre fs : List Element} (items : List (Element × α)) (hi : items.map (·.1) = pre)
    (hp : fs.Perm pre) : ∃ items' : List (Element × α), items'.Perm items ∧ items'.map (·.1) = fs := by
  have h := hp
  rw [← hi] at h
  clear hi hp
  induction items generalizing fs with
  | nil => have : fs = [] := by simpa using h.eq_nil
           subst this; exact ⟨[], List.Perm.refl _, rfl⟩
  | cons it items ih =>
    have hmem : it.1 ∈ fs := h.mem_iff.2 (by simp)
    obtain ⟨p, q, rfl⟩ := List.append_of_mem hmem
    have h1 : (it.1 :: (p ++ q)).Perm (it.1 :: items.map (·.1)) := List.perm_middle.symm.trans h
    obtain ⟨items', e1, e2⟩ := ih h1.cons_inv
    obtain ⟨a, b, rfl, ha, hb⟩ := List.map_eq_append_iff.1 e2
    refine ⟨a ++ it :: b, ?_, by simp [ha, hb]⟩
    exact List.perm_middle.trans (e1.cons it)

theorem Inv.accepts {P : Lex} {T : Types} {lv : Element → List Element} {m : FMode} {b : FBuilder} {pre : List Element}
    (h : Inv P T lv m b pre) (hm : ∀ a c, m ≠ .mixed a c) {ns : List Node} (ha : Acc P T m pre ns) :
    Acc P T b.modeNew (b.elems pre) ns := by
  -- the two group kinds that need all particles
  have hperm : ∀ fs : List Element, fs.Perm pre → (m = .sequence → fs = pre) → Valid P T (.inOrder fs ns) →
      (m = .sequence ∨ m = .all) → Acc P T b.modeNew (b.elems pre) ns := by
    intro fs hp hseq hv hms
    obtain ⟨segs, s1, s2, s3⟩ := inOrder_split hv
    rcases h.mode with hmode | ⟨a, c, hmode⟩
    · obtain ⟨items, i1, i2, i3⟩ := h.same hmode hms
      obtain ⟨items', j1, j2, j3⟩ : ∃ items' : List (Element × List Element), items'.Perm items ∧ items'.map (·.1) = fs ∧
          (m = .sequence → items' = items) := by
        by_cases hs : m = .sequence
        · exact ⟨items, List.Perm.refl _, by rw [i1, hseq hs], fun _ => rfl⟩
        · obtain ⟨items', j1, j2⟩ := segs_items items i1 hp
          exact ⟨items', j1, j2, fun h => absurd h hs⟩
      have key : ∃ gs : List Element, gs.Perm (items'.flatMap (·.2)) ∧ (m = .sequence → gs = items'.flatMap (·.2)) ∧
          Valid P T (.inOrder gs (segs.map (·.2.2)).flatten) := by
        have hit : ∀ it ∈ items', ItemSame P T (decide (m = .sequence)) it := fun it hit => i3 it (j1.mem_iff.1 hit)
        clear j1 j3 s2 hv hseq hp i1 i2 i3
        subst j2
        induction items' generalizing segs with
        | nil =>
          have : segs = [] := by simpa using s1
          subst this
          exact ⟨[], List.Perm.refl _, fun _ => rfl, .nil⟩
        | cons it items' ih =>
          cases segs with
          | nil => simp at s1
          | cons s segs =>
            simp only [List.map_cons, List.cons.injEq] at s1
            obtain ⟨gs, g1, g2, g3⟩ := ih segs (fun s hs => s3 s (by simp [hs])) (fun it h => hit it (by simp [h])) s1.2
            obtain ⟨hk, ht⟩ := s3 s (by simp)
            rw [s1.1] at hk ht
            obtain ⟨fs', f1, f2, f3⟩ := hit it (by simp) _ _ hk ht
            refine ⟨fs' ++ gs, ?_, ?_, ?_⟩
            · simp only [List.flatMap_cons]; exact f1.append g1
            · intro hs
              simp only [List.flatMap_cons]
              rw [f2 (by simp [hs]), g2 hs]
            · simp only [List.map_cons, List.flatten_cons]
              exact inOrder_append f3 g3
      obtain ⟨gs, g1, g2, g3⟩ := key
      rw [s2] at g3
      rw [hmode, i2]
      rcases hms with rfl | rfl
      · have := g2 rfl
        rw [this, j3 rfl] at g3
        exact g3
      · refine ⟨gs, g1.trans ?_, g3⟩
        exact List.Perm.flatMap_right _ j1
    · obtain ⟨h1, items, i1, i2, i3, i4⟩ := h.mixed a c hmode
      obtain ⟨items', j1, j2⟩ := segs_items items i1 hp
      have key : ∃ prs : List ((Nat × MaxOccurs) × Nat), prs.map (·.1) = items'.map (·.2) ∧
          (∀ p ∈ prs, Allows p.1.1 p.1.2 p.2) ∧ ∃ parts : List (List Node), parts.length = (prs.map (·.2)).sum ∧
            parts.flatten = (segs.map (·.2.2)).flatten ∧
            ∀ p ∈ parts, ∃ e ∈ b.elems pre, Valid P T (.particle e p) := by
        have hit : ∀ it ∈ items', ItemMixed P T (b.elems pre) it := fun it hit => i2 it (j1.mem_iff.1 hit)
        clear j1 s2 hv hseq hp i1 i2 i3 i4
        subst j2
        induction items' generalizing segs with
        | nil =>
          have : segs = [] := by simpa using s1
          subst this
          exact ⟨[], rfl, by simp, [], rfl, rfl, by simp⟩
        | cons it items' ih =>
          cases segs with
          | nil => simp at s1
          | cons s segs =>
            simp only [List.map_cons, List.cons.injEq] at s1
            obtain ⟨prs, g1, g2, parts, g3, g4, g5⟩ :=
              ih segs (fun s hs => s3 s (by simp [hs])) (fun it h => hit it (by simp [h])) s1.2
            obtain ⟨hk, ht⟩ := s3 s (by simp)
            rw [s1.1] at hk ht
            obtain ⟨ps, f1, f2, f3⟩ := hit it (by simp) _ _ hk ht
            refine ⟨(it.2, ps.length) :: prs, by simp [g1], ?_, ps ++ parts, by simp [g3], by simp [f2, g4], ?_⟩
            · intro p hp
              rcases List.mem_cons.1 hp with rfl | hp
              · exact f1
              · exact g2 p hp
            · intro p hp
              rcases List.mem_append.1 hp with hp | hp
              · exact f3 p hp
              · exact g5 p hp
      obtain ⟨prs, g1, g2, parts, g3, g4, g5⟩ := key
      rw [hmode]
      refine ⟨parts, ?_, g4.trans s2, g5⟩
      rw [g3]
      exact i3 hms prs (by rw [g1]; exact j1.map _) g2
  cases m with
  | mixed a c => exact absurd rfl (hm a c)
  | sequence => exact hperm pre (List.Perm.refl _) (fun _ => rfl) ha (Or.inl rfl)
  | all =>
    obtain ⟨fs, hp, hv⟩ := ha
    exact hperm fs hp (by simp) hv (Or.inr rfl)
  | choice =>
    obtain ⟨e, he, k, hk, ht⟩ := ha
    rcases h.mode with hmode | ⟨a, c, hmode⟩
    · rw [hmode]
      exact (h.choice hmode rfl).2 e he k ns hk ht
    · obtain ⟨h1, items, i1, i2, i3, i4⟩ := h.mixed a c hmode
      rw [hmode]
      rw [← i1] at he
      obtain ⟨it, hit, rfl⟩ := List.mem_map.1 he
      obtain ⟨parts, p1, p2, p3⟩ := i2 it hit k ns hk ht
      exact ⟨parts, i4 rfl it hit _ p1, p2, p3⟩

/-! ## One more element -/

/-- An element is added without giving up the order. -/
theorem Inv.snoc_same {P : Lex} {T : Types} {lv : Element → List Element} {m : FMode} {b b' : FBuilder}
    {pre : List Element} (h : Inv P T lv m b pre) (hm : ∀ a c, m ≠ .mixed a c) (hmode : b.modeNew = m)
    (el : Element) (E : List Element)
    (hold : b'.modeOld = m) (hnew : b'.modeNew = m) (hel : b'.elems (pre ++ [el]) = b.elems pre ++ E)
    (hsame : m = .sequence ∨ m = .all → ItemSame P T (decide (m = .sequence)) (el, E))
    (hch : m = .choice → E ≠ [] ∧ ∀ k ns, Allows el.min el.max k → Valid P T (.times el k ns) → Acc P T .choice E ns)
    (hids : E.map (·.ident) = (lv el).map (·.ident))
    (hsub : ∀ e ∈ E, ∃ e' ∈ lv el, e.ident = e'.ident ∧ e.variant = e'.variant) :
    Inv P T lv m b' (pre ++ [el]) where
  old := hold
  mode := Or.inl hnew
  same := by
    intro _ hms
    obtain ⟨items, i1, i2, i3⟩ := h.same hmode hms
    refine ⟨items ++ [(el, E)], by simp [i1], by simp [hel, i2], ?_⟩
    intro it hit
    rcases List.mem_append.1 hit with hit | hit
    · exact i3 it hit
    · simp at hit; subst hit; exact hsame hms
  choice := by
    intro _ hmc
    obtain ⟨h1, h2⟩ := hch hmc
    obtain ⟨g1, g2⟩ := h.choice hmode hmc
    rw [hel]
    refine ⟨fun _ => by simp [h1], ?_⟩
    intro e he k ns hk ht
    rcases List.mem_append.1 he with he | he
    · obtain ⟨e', he', k', hk', ht'⟩ := g2 e he k ns hk ht
      exact ⟨e', by simp [he'], k', hk', ht'⟩
    · simp at he; subst he
      obtain ⟨e', he', k', hk', ht'⟩ := h2 k ns hk ht
      exact ⟨e', by simp [he'], k', hk', ht'⟩
  mixed := by
    intro a c hmx
    rw [hnew] at hmx
    exact absurd hmx (hm a c)
  sub := by
    rw [hel]
    intro e he
    rcases List.mem_append.1 he with he | he
    · obtain ⟨e', h1, h2⟩ := h.sub e he
      exact ⟨e', by simp only [List.flatMap_append]; exact List.mem_append_left _ h1, h2⟩
    · obtain ⟨e', h1, h2⟩ := hsub e he
      exact ⟨e', by simp [h1], h2⟩
  ids := by
    intro _
    rw [hel, List.map_append, h.ids hmode, hids]
    simp

/-- Every element of the first list is in the second one, up to its bounds. -/
def Covers (es fs : List Element) : Prop := ∀ e ∈ es, ∃ f ∈ fs, f.ident = e.ident ∧ f.variant = e.variant

theorem ItemMixed.mono {P : Lex} {T : Types} {es fs : List Element} {it : Element × (Nat × MaxOccurs)}
    (h : ItemMixed P T es it) (hc : Covers es fs) : ItemMixed P T fs it := by
  intro k ns hk ht
  obtain ⟨parts, h1, h2, h3⟩ := h k ns hk ht
  refine ⟨parts, h1, h2, fun p hp => ?_⟩
  obtain ⟨e, he, hv⟩ := h3 p hp
  obtain ⟨f, hf, hi, hvar⟩ := hc e he
  exact ⟨f, hf, particle_congr hv hi.symm hvar.symm⟩

/-- An element is added after the order has been given up. -/
theorem Inv.snoc_mixed {P : Lex} {T : Types} {lv : Element → List Element} {m : FMode} {b b' : FBuilder}
    {pre : List Element} (h : Inv P T lv m b pre) (hm : ∀ a c, m ≠ .mixed a c) {a : Nat} {c : MaxOccurs}
    (hmode : b.modeNew = .mixed a c) (el : Element) (lo : Nat) (hi : MaxOccurs)
    (hold : b'.modeOld = m) (hnew : b'.modeNew = .mixed (occUpdate m a c lo hi).1 (occUpdate m a c lo hi).2)
    (hcov : Covers (b.elems pre) (b'.elems (pre ++ [el])))
    (hone : ∀ e ∈ b'.elems (pre ++ [el]), e.min = 1 ∧ e.max = .bounded 1)
    (hitem : ItemMixed P T (b'.elems (pre ++ [el])) (el, (lo, hi)))
    (hsub : ∀ e ∈ b'.elems (pre ++ [el]), (∃ e' ∈ b.elems pre, e.ident = e'.ident ∧ e.variant = e'.variant) ∨
      ∃ e' ∈ lv el, e.ident = e'.ident ∧ e.variant = e'.variant) :
    Inv P T lv m b' (pre ++ [el]) where
  old := hold
  mode := Or.inr ⟨_, _, hnew⟩
  same := by intro he; rw [hnew] at he; exact absurd he.symm (hm _ _)
  choice := by intro he; rw [hnew] at he; exact absurd he.symm (hm _ _)
  mixed := by
    intro a' c' he
    rw [hnew] at he
    cases he
    obtain ⟨-, items, i1, i2, i3, i4⟩ := h.mixed a c hmode
    refine ⟨hone, items ++ [(el, (lo, hi))], by simp [i1], ?_, ?_, ?_⟩
    · intro it hit
      rcases List.mem_append.1 hit with hit | hit
      · exact (i2 it hit).mono hcov
      · simp at hit; subst hit; exact hitem
    · intro hms
      have := sumOk_append (i3 hms) (lo, hi)
      simp only [List.map_append, List.map_cons, List.map_nil]
      rcases hms with rfl | rfl
      · exact this
      · exact this
    · intro hmc it hit k hk
      subst hmc
      simp only [occUpdate]
      rcases List.mem_append.1 hit with hit | hit
      · have := i4 rfl it hit k hk
        refine ⟨Nat.le_trans (Nat.min_le_left _ _) this.1, fun x hx => ?_⟩
        obtain ⟨y, hy, hyx⟩ := max_ge_left _ _ x hx
        exact Nat.le_trans (this.2 y hy) hyx
      · simp at hit; subst hit
        refine ⟨Nat.le_trans (Nat.min_le_right _ _) hk.1, fun x hx => ?_⟩
        obtain ⟨y, hy, hyx⟩ := max_ge_right _ _ x hx
        exact Nat.le_trans (hk.2 y hy) hyx
  sub := by
    intro e he
    rcases hsub e he with ⟨e', h1, h2, h3⟩ | ⟨e', h1, h2⟩
    · obtain ⟨e'', g1, g2, g3⟩ := h.sub e' h1
      exact ⟨e'', by simp only [List.flatMap_append]; exact List.mem_append_left _ g1, h2.trans g2, h3.trans g3⟩
    · exact ⟨e', by simp [h1], h2⟩
  ids := by intro he; rw [hnew] at he; exact absurd he.symm (hm _ _)

theorem find_ident {es : List Element} {e x : Element} (h : es.find? (fun x => x.ident = e.ident) = some x) :
    x ∈ es ∧ x.ident = e.ident := by
  have h1 := List.mem_of_find?_eq_some h
  have h2 := List.find?_some h
  exact ⟨h1, by simpa using h2⟩

theorem find_ident_none {es : List Element} {e : Element} (h : es.find? (fun x => x.ident = e.ident) = none) :
    ∀ x ∈ es, x.ident ≠ e.ident := by
  intro x hx
  have := List.find?_eq_none.1 h x hx
  simpa using this

/-- Elements with the same name that may be merged are the same particle. -/
def Agree (es : List Element) : Prop :=
  ∀ x ∈ es, ∀ y ∈ es, x.ident = y.ident → compatible x.variant y.variant = true → x.variant = y.variant

theorem single_same (P : Lex) (T : Types) (o : Bool) (e : Element) : ItemSame P T o (e, [e]) := by
  intro k ns hk ht
  refine ⟨[e], List.Perm.refl _, fun _ => rfl, ?_⟩
  have := Valid.cons hk ht .nil
  simpa using this

/-- A plain element. -/
theorem Inv.plain {P : Lex} {T : Types} {lv : Element → List Element} {m : FMode} {b b' : FBuilder}
    {pre : List Element} (h : Inv P T lv m b pre) (hm : ∀ a c, m ≠ .mixed a c) (e : Element) (hlv : lv e = [e])
    (hnone : b.new = none → b.modeNew = m)
    (hfresh : b.new ≠ none → b.modeNew = m → e.ident ∉ (b.elems pre).map (·.ident))
    (hagree : Agree ((pre ++ [e]).flatMap lv)) (hadd : addElement b true e = .ok b') :
    Inv P T lv m b' (pre ++ [e]) ∧ (b'.new = none ↔ b.new = none) ∧ (b'.modeNew = m → b.modeNew = m) ∧ b'.old = b.old := by
  have hch : ∀ k ns, Allows e.min e.max k → Valid P T (.times e k ns) → Acc P T .choice [e] ns :=
    fun k ns hk ht => ⟨e, by simp, k, hk, ht⟩
  unfold addElement at hadd
  cases hn : b.new with
  | none =>
    rw [hn] at hadd
    cases hadd
    have hmode := hnone hn
    refine ⟨?_, by simp [hn], fun h => h, rfl⟩
    refine h.snoc_same hm hmode e [e] h.old hmode ?_ (fun _ => single_same P T _ e) (fun _ => ⟨by simp, hch⟩) (by rw [hlv])
      (by rw [hlv]; exact fun x hx => ⟨x, hx, rfl, rfl⟩)
    simp [FBuilder.elems, hn]
  | some n =>
    rw [hn] at hadd
    have hels : b.elems pre = n.elements := by simp [FBuilder.elems, hn]
    simp only at hadd
    rcases h.mode with hmode | ⟨a, c, hmode⟩
    · have hf := hfresh (by simp [hn]) hmode
      rw [hels] at hf
      have hfind : n.elements.find? (fun x => x.ident = e.ident) = none := by
        apply List.find?_eq_none.2
        intro x hx
        simp only [decide_eq_true_eq]
        intro he
        exact hf (List.mem_map.2 ⟨x, hx, he⟩)
      rw [hfind] at hadd
      have hb' : b' = { b with new := some { n with elements := n.elements ++ [e] } } := by
        cases hbm : b.modeNew with
        | mixed a c => rw [hbm] at hmode; exact absurd hmode.symm (hm a c)
        | _ => rw [hbm] at hadd; simp only at hadd; injection hadd with hadd; rw [← hadd]
      subst hb'
      refine ⟨?_, by simp, fun h => h, rfl⟩
      refine h.snoc_same hm hmode e [e] h.old hmode ?_ (fun _ => single_same P T _ e) (fun _ => ⟨by simp, hch⟩) (by rw [hlv])
        (by rw [hlv]; exact fun x hx => ⟨x, hx, rfl, rfl⟩)
      simp [FBuilder.elems, hn]
    · have hone := (h.mixed a c hmode).1
      rw [hels] at hone
      cases hfind : n.elements.find? (fun x => x.ident = e.ident) with
      | some x =>
        rw [hfind] at hadd
        simp only [if_true, hmode] at hadd
        by_cases hcomp : compatible x.variant e.variant = false
        · rw [if_pos hcomp] at hadd; cases hadd
        · rw [if_neg hcomp] at hadd
          have hcomp' : compatible x.variant e.variant = true := by simpa using hcomp
          injection hadd with hadd
          subst hadd
          obtain ⟨hx1, hx2⟩ := find_ident hfind
          have hvar : x.variant = e.variant := by
            obtain ⟨e', g1, g2, g3⟩ := h.sub x (by rw [hels]; exact hx1)
            rw [g3] at hcomp' ⊢
            exact hagree e' (by simp only [List.flatMap_append]; exact List.mem_append_left _ g1) e (by simp [hlv])
              (g2.symm.trans hx2) hcomp'
          refine ⟨?_, by simp [hn], fun he => by simp at he; exact absurd he.symm (hm _ _), rfl⟩
          refine h.snoc_mixed hm hmode e e.min e.max h.old (by simp [h.old]) ?_ ?_ ?_ ?_
          · rw [hels]; simp only [FBuilder.elems, hn]; exact fun y hy => ⟨y, hy, rfl, rfl⟩
          · simp only [FBuilder.elems, hn]; exact hone
          · simp only [FBuilder.elems, hn]
            intro k ns hk ht
            obtain ⟨parts, p1, p2, p3⟩ := times_parts ht
            refine ⟨parts, by rw [p1]; exact hk, p2, fun p hp => ⟨x, hx1, particle_congr (p3 p hp) hx2.symm hvar.symm⟩⟩
          · rw [hels]; simp only [FBuilder.elems, hn]; exact fun y hy => Or.inl ⟨y, hy, rfl, rfl⟩
      | none =>
        rw [hfind] at hadd
        simp only [hmode] at hadd
        injection hadd with hadd
        subst hadd
        refine ⟨?_, by simp, fun he => by simp at he; exact absurd he.symm (hm _ _), rfl⟩
        refine h.snoc_mixed hm hmode e e.min e.max h.old (by simp [h.old]) ?_ ?_ ?_ ?_
        · rw [hels]; simp only [FBuilder.elems]; exact fun y hy => ⟨y, by simp [hy], rfl, rfl⟩
        · simp only [FBuilder.elems]
          intro y hy
          rcases List.mem_append.1 hy with hy | hy
          · exact hone y hy
          · simp at hy; subst hy; exact ⟨rfl, rfl⟩
        · simp only [FBuilder.elems]
          intro k ns hk ht
          obtain ⟨parts, p1, p2, p3⟩ := times_parts ht
          refine ⟨parts, by rw [p1]; exact hk, p2, fun p hp => ⟨resetOccurs e, by simp, particle_congr (p3 p hp) rfl rfl⟩⟩
        · rw [hels]; simp only [FBuilder.elems]
          intro y hy
          rcases List.mem_append.1 hy with hy | hy
          · exact Or.inl ⟨y, hy, rfl, rfl⟩
          · simp at hy; subst hy; exact Or.inr ⟨e, by simp [hlv], rfl, rfl⟩

/-! ## A nested group -/

theorem sumOk_sumBounds (items : List (Element × List Element)) :
    SumOk (items.map fun it => sumBounds it.2) (sumBounds (items.flatMap (·.2))).1 (sumBounds (items.flatMap (·.2))).2 := by
  induction items using Verif.rev_induct with
  | nil => exact sumOk_nil
  | snoc items it ih =>
    simp only [List.map_append, List.map_cons, List.map_nil, List.flatMap_append, List.flatMap_cons, List.flatMap_nil,
      List.append_nil]
    rw [sumBounds_append]
    exact sumOk_append ih _

theorem reset_covers (es : List Element) : Covers es (es.map resetOccurs) :=
  fun e he => ⟨resetOccurs e, List.mem_map.2 ⟨e, he, rfl⟩, rfl, rfl⟩

theorem Inv.toMixed {P : Lex} {T : Types} {lv : Element → List Element} {m : FMode} {b : FBuilder}
    {pre : List Element} (h : Inv P T lv m b pre) (hm : ∀ a c, m ≠ .mixed a c) (hn : b.new ≠ none) :
    Inv P T lv m (intoMixed b) pre ∧ (∃ a c, (intoMixed b).modeNew = .mixed a c) ∧ (intoMixed b).new ≠ none ∧
      (intoMixed b).old = b.old := by
  obtain ⟨n, hn'⟩ : ∃ n, b.new = some n := by
    cases hb : b.new with
    | none => exact absurd hb hn
    | some n => exact ⟨n, rfl⟩
  have hels : b.elems pre = n.elements := by simp [FBuilder.elems, hn']
  -- the change of the elements
  have hsub : ∀ e ∈ n.elements.map resetOccurs, ∃ e' ∈ pre.flatMap lv, e.ident = e'.ident ∧ e.variant = e'.variant := by
    intro e he
    obtain ⟨e', he', rfl⟩ := List.mem_map.1 he
    exact h.sub e' (by rw [hels]; exact he')
  have hone : ∀ e ∈ n.elements.map resetOccurs, e.min = 1 ∧ e.max = .bounded 1 := by
    intro e he
    obtain ⟨e', he', rfl⟩ := List.mem_map.1 he
    exact ⟨rfl, rfl⟩
  cases hbm : b.modeNew with
  | mixed a c =>
    have he : intoMixed b = b := by
      simp only [intoMixed, hbm, hn', Option.getD_some]
      rw [← hn', ← hbm]
    rw [he]
    exact ⟨h, ⟨a, c, hbm⟩, hn, rfl⟩
  | choice =>
    have hmc : m = .choice := by
      rcases h.mode with h' | ⟨a, c, h'⟩
      · rw [← h', hbm]
      · rw [hbm] at h'; cases h'
    obtain ⟨-, g2⟩ := h.choice (by rw [hbm, hmc]) hmc
    simp only [intoMixed, hbm, hn', Option.getD_some]
    refine ⟨⟨h.old, Or.inr ⟨_, _, rfl⟩, ?_, ?_, ?_, hsub, ?_⟩, by simp, by simp, by simp⟩
    · intro he; exact absurd he.symm (hm _ _)
    · intro he; exact absurd he.symm (hm _ _)
    · intro a c he
      cases he
      refine ⟨hone, pre.map (fun e => (e, choiceBounds n.elements)), by simp [Function.comp_def], ?_, ?_, ?_⟩
      · intro it hit
        obtain ⟨e, he, rfl⟩ := List.mem_map.1 hit
        intro k ns hk ht
        obtain ⟨e', he', k', hk', ht'⟩ := g2 e he k ns hk ht
        rw [hels] at he'
        obtain ⟨parts, p1, p2, p3⟩ := times_parts ht'
        refine ⟨parts, by rw [p1]; exact choiceBounds_one _ e' he' k' hk', p2, fun p hp => ?_⟩
        exact ⟨resetOccurs e', List.mem_map.2 ⟨e', he', rfl⟩, particle_congr (p3 p hp) rfl rfl⟩
      · intro hms; rw [hmc] at hms; rcases hms with h' | h' <;> cases h'
      · intro _ it hit k hk
        obtain ⟨e, he, rfl⟩ := List.mem_map.1 hit
        exact hk
    · intro he; exact absurd he.symm (hm _ _)
  | sequence =>
    have hmc : m = .sequence := by
      rcases h.mode with h' | ⟨a, c, h'⟩
      · rw [← h', hbm]
      · rw [hbm] at h'; cases h'
    obtain ⟨items, i1, i2, i3⟩ := h.same (by rw [hbm, hmc]) (Or.inl hmc)
    rw [hels] at i2
    simp only [intoMixed, hbm, hn', Option.getD_some]
    refine ⟨⟨h.old, Or.inr ⟨_, _, rfl⟩, ?_, ?_, ?_, hsub, ?_⟩, by simp, by simp, by simp⟩
    · intro he; exact absurd he.symm (hm _ _)
    · intro he; exact absurd he.symm (hm _ _)
    · intro a c he
      cases he
      refine ⟨hone, items.map (fun it => (it.1, sumBounds it.2)), by simp [← i1], ?_, ?_, ?_⟩
      · intro it hit
        obtain ⟨it', hit', rfl⟩ := List.mem_map.1 hit
        intro k ns hk ht
        obtain ⟨fs, f1, -, f3⟩ := i3 it' hit' k ns hk ht
        obtain ⟨parts, p1, p2, p3⟩ := inOrder_parts f3
        refine ⟨parts, by rw [← sumBounds_perm f1]; exact p1, p2, fun p hp => ?_⟩
        obtain ⟨e, he, hv⟩ := p3 p hp
        have : e ∈ n.elements := by rw [i2]; exact List.mem_flatMap.2 ⟨it', hit', f1.mem_iff.1 he⟩
        exact ⟨resetOccurs e, List.mem_map.2 ⟨e, this, rfl⟩, particle_congr hv rfl rfl⟩
      · intro _
        rw [i2]
        have := sumOk_sumBounds items
        simpa [List.map_map, Function.comp_def] using this
      · intro h'; rw [hmc] at h'; cases h'
    · intro he; exact absurd he.symm (hm _ _)
  | all =>
    have hmc : m = .all := by
      rcases h.mode with h' | ⟨a, c, h'⟩
      · rw [← h', hbm]
      · rw [hbm] at h'; cases h'
    obtain ⟨items, i1, i2, i3⟩ := h.same (by rw [hbm, hmc]) (Or.inr hmc)
    rw [hels] at i2
    simp only [intoMixed, hbm, hn', Option.getD_some]
    refine ⟨⟨h.old, Or.inr ⟨_, _, rfl⟩, ?_, ?_, ?_, hsub, ?_⟩, by simp, by simp, by simp⟩
    · intro he; exact absurd he.symm (hm _ _)
    · intro he; exact absurd he.symm (hm _ _)
    · intro a c he
      cases he
      refine ⟨hone, items.map (fun it => (it.1, sumBounds it.2)), by simp [← i1], ?_, ?_, ?_⟩
      · intro it hit
        obtain ⟨it', hit', rfl⟩ := List.mem_map.1 hit
        intro k ns hk ht
        obtain ⟨fs, f1, -, f3⟩ := i3 it' hit' k ns hk ht
        obtain ⟨parts, p1, p2, p3⟩ := inOrder_parts f3
        refine ⟨parts, by rw [← sumBounds_perm f1]; exact p1, p2, fun p hp => ?_⟩
        obtain ⟨e, he, hv⟩ := p3 p hp
        have : e ∈ n.elements := by rw [i2]; exact List.mem_flatMap.2 ⟨it', hit', f1.mem_iff.1 he⟩
        exact ⟨resetOccurs e, List.mem_map.2 ⟨e, this, rfl⟩, particle_congr hv rfl rfl⟩
      · intro _
        rw [i2]
        have := sumOk_sumBounds items
        simpa [List.map_map, Function.comp_def] using this
      · intro h'; rw [hmc] at h'; cases h'
    · intro he; exact absurd he.symm (hm _ _)

/-- Elements with new names are appended. -/
theorem addAll_fresh (es : List Element) (b : FBuilder) (n : Group) (hn : b.new = some n)
    (hm : ∀ a c, b.modeNew ≠ .mixed a c) (hnd : ((n.elements ++ es).map (·.ident)).Nodup) :
    addAll true b es = .ok { b with new := some { n with elements := n.elements ++ es } } := by
  induction es generalizing b n with
  | nil => simp only [addAll, List.append_nil]; rw [← hn]
  | cons e es ih =>
    have hfind : n.elements.find? (fun x => x.ident = e.ident) = none := by
      apply List.find?_eq_none.2
      intro x hx
      simp only [decide_eq_true_eq]
      intro he
      simp only [List.map_append, List.map_cons] at hnd
      exact (List.nodup_append.1 hnd).2.2 x.ident (List.mem_map.2 ⟨x, hx, rfl⟩) e.ident (by simp) he
    have hadd : addElement b true e = .ok { b with new := some { n with elements := n.elements ++ [e] } } := by
      simp only [addElement, hn, hfind]
      cases hbm : b.modeNew with
      | mixed a c => exact absurd hbm (hm a c)
      | _ => rfl
    simp only [addAll, hadd]
    rw [ih _ { n with elements := n.elements ++ [e] } rfl (by simpa using hm) (by simpa using hnd)]
    simp

/-- Adding elements to a builder that has given up the order. -/
theorem addAll_cover (es : List Element) (b b' : FBuilder) (n : Group) (hn : b.new = some n)
    (hreset : ∀ e ∈ es, e.min = 1 ∧ e.max = .bounded 1)
    (hone : ∀ e ∈ n.elements, e.min = 1 ∧ e.max = .bounded 1)
    (L : List Element) (hL : Agree L)
    (hnL : ∀ e ∈ n.elements, ∃ e' ∈ L, e.ident = e'.ident ∧ e.variant = e'.variant)
    (hesL : ∀ e ∈ es, ∃ e' ∈ L, e.ident = e'.ident ∧ e.variant = e'.variant)
    (h : addAll false b es = .ok b') :
    ∃ n', b'.new = some n' ∧ b'.modeNew = b.modeNew ∧ b'.modeOld = b.modeOld ∧ b'.old = b.old ∧
      Covers (n.elements ++ es) n'.elements ∧ (∀ e ∈ n'.elements, e.min = 1 ∧ e.max = .bounded 1) ∧
      ∀ e ∈ n'.elements, e ∈ n.elements ∨ e ∈ es := by
  induction es generalizing b n with
  | nil =>
    simp only [addAll] at h
    injection h with h
    subst h
    refine ⟨n, hn, rfl, rfl, rfl, ?_, hone, fun e he => Or.inl he⟩
    intro e he
    exact ⟨e, by simpa using he, rfl, rfl⟩
  | cons e es ih =>
    simp only [addAll] at h
    cases hfind : n.elements.find? (fun x => x.ident = e.ident) with
    | some x =>
      have hadd : addElement b false e =
          if compatible x.variant e.variant = false then .err .mismatchingVariants else .ok b := by
        simp only [addElement, hn, hfind, Bool.false_eq_true, if_false]
      by_cases hcomp : compatible x.variant e.variant = false
      · rw [if_pos hcomp] at hadd; rw [hadd] at h; cases h
      · rw [if_neg hcomp] at hadd
        rw [hadd] at h
        have hcomp' : compatible x.variant e.variant = true := by simpa using hcomp
        obtain ⟨hx1, hx2⟩ := find_ident hfind
        have hvar : x.variant = e.variant := by
          obtain ⟨x', a1, a2, a3⟩ := hnL x hx1
          obtain ⟨e', c1, c2, c3⟩ := hesL e (by simp)
          rw [a3, c3] at hcomp' ⊢
          exact hL x' a1 e' c1 (a2.symm.trans (hx2.trans c2)) hcomp'
        obtain ⟨n', r1, r2, r3, r4, r5, r6, r7⟩ := ih b n hn (fun e he => hreset e (by simp [he])) hone hnL
          (fun e he => hesL e (by simp [he])) h
        refine ⟨n', r1, r2, r3, r4, ?_, r6, fun y hy => (r7 y hy).imp id (fun h => by simp [h])⟩
        intro y hy
        rcases List.mem_append.1 hy with hy | hy
        · exact r5 y (by simp [hy])
        · rcases List.mem_cons.1 hy with rfl | hy
          · obtain ⟨f, f1, f2, f3⟩ := r5 x (by simp [hx1])
            exact ⟨f, f1, f2.trans hx2, f3.trans hvar⟩
          · exact r5 y (by simp [hy])
    | none =>
      have hadd : addElement b false e = .ok { b with new := some { n with elements := n.elements ++ [e] } } := by
        simp only [addElement, hn, hfind]
      rw [hadd] at h
      obtain ⟨n', r1, r2, r3, r4, r5, r6, r7⟩ := ih _ { n with elements := n.elements ++ [e] } rfl
        (fun e he => hreset e (by simp [he]))
        (by
          intro y hy
          rcases List.mem_append.1 hy with hy | hy
          · exact hone y hy
          · simp at hy; subst hy; exact hreset y (by simp))
        (by
          intro y hy
          rcases List.mem_append.1 hy with hy | hy
          · exact hnL y hy
          · simp at hy; subst hy; exact hesL y (by simp))
        (fun e he => hesL e (by simp [he])) h
      refine ⟨n', r1, r2, r3, r4, ?_, r6, ?_⟩
      · intro y hy
        exact r5 y (by simpa using hy)
      · intro y hy
        rcases r7 y hy with hy | hy
        · rcases List.mem_append.1 hy with hy | hy
          · exact Or.inl hy
          · simp at hy; exact Or.inr (by simp [hy])
        · exact Or.inr (by simp [hy])

theorem atMostOne_iff (m : MaxOccurs) : atMostOne m = true ↔ ∃ b, b ≤ 1 ∧ m = .bounded b := by
  cases m with
  | unbounded => simp [atMostOne, MaxOccurs.cmp]
  | bounded b =>
    simp only [atMostOne, MaxOccurs.cmp, bne_iff_ne, ne_eq, MaxOccurs.bounded.injEq]
    constructor
    · intro h
      refine ⟨b, ?_, rfl⟩
      have := mt (Nat.compare_eq_gt (a := b) (b := 1)).2 h
      omega
    · rintro ⟨c, hc, rfl⟩ h
      have := Nat.compare_eq_gt.1 h
      omega

/-- The elements of a group that occurs at most once, taken over into the group around it. -/
theorem scaled_inOrder {P : Lex} {T : Types} (el : Element) {es : List Element} {ns : List Node}
    (hmin : el.min ≤ 1) (hmax : ∀ b, el.max = .bounded b → 1 ≤ b) (h : Valid P T (.inOrder es ns)) :
    Valid P T (.inOrder (es.map (scaleBy el)) ns) := by
  generalize hj : Judge.inOrder es ns = j at h
  induction h generalizing es ns <;> cases hj
  case nil => exact .nil
  case cons e es k a b hk h1 _ _ ih =>
    simp only [List.map_cons]
    exact .cons (k := k) (Allows.mul_one hk hmin hmax) (times_congr h1 rfl rfl) (ih rfl)

theorem scaled_inOrder_zero {P : Lex} {T : Types} (el : Element) (h0 : el.min = 0) (es : List Element) :
    Valid P T (.inOrder (es.map (scaleBy el)) []) := by
  induction es with
  | nil => exact .nil
  | cons e es ih =>
    have : Allows (scaleBy el e).min (scaleBy el e).max 0 := ⟨by simp [scaleBy, h0], by simp⟩
    exact Valid.cons (a := []) (b := []) this .zero ih

/-- What the flattening of a nested group guarantees. -/
structure InnerOk (P : Lex) (T : Types) (src : List Node → Prop) (leaves : List Element) (m' : FMode) (inner : FBuilder) :
    Prop where
  accepts : ∀ ns, src ns → Acc P T inner.modeNew (inner.elems inner.old.elements) ns
  mode : inner.modeNew = m' ∨ ∃ a c, inner.modeNew = .mixed a c
  kind : ∀ a c, m' ≠ .mixed a c
  nonempty : inner.modeNew = .choice → inner.elems inner.old.elements ≠ []
  sub : ∀ e ∈ inner.elems inner.old.elements, ∃ e' ∈ leaves, e.ident = e'.ident ∧ e.variant = e'.variant
  ids : inner.modeNew = m' → (inner.elems inner.old.elements).map (·.ident) = leaves.map (·.ident)
  one : ∀ a c, inner.modeNew = .mixed a c → ∀ e ∈ inner.elems inner.old.elements, e.min = 1 ∧ e.max = .bounded 1

theorem parts_concat {P : Lex} {T : Types} {a : Nat} {c : MaxOccurs} {es : List Element} (segs : List (List Node))
    (h : ∀ s ∈ segs, Acc P T (.mixed a c) es s) :
    ∃ counts : List Nat, counts.length = segs.length ∧ (∀ k ∈ counts, Allows a c k) ∧
      ∃ parts : List (List Node), parts.length = counts.sum ∧ parts.flatten = segs.flatten ∧
        ∀ p ∈ parts, ∃ e ∈ es, Valid P T (.particle e p) := by
  induction segs with
  | nil => exact ⟨[], rfl, by simp, [], rfl, rfl, by simp⟩
  | cons s segs ih =>
    obtain ⟨cs, c1, c2, ps, c3, c4, c5⟩ := ih (fun x hx => h x (by simp [hx]))
    obtain ⟨qs, q1, q2, q3⟩ := h s (by simp)
    refine ⟨qs.length :: cs, by simp [c1], ?_, qs ++ ps, by simp [c3], by simp [q2, c4], ?_⟩
    · intro k hk
      rcases List.mem_cons.1 hk with rfl | hk
      · exact q1
      · exact c2 k hk
    · intro p hp
      rcases List.mem_append.1 hp with hp | hp
      · exact q3 p hp
      · exact c5 p hp

theorem mul_comm' (a b : MaxOccurs) : a.mul b = b.mul a := by
  cases a <;> cases b <;> simp [MaxOccurs.mul, Nat.mul_comm]

/-- A nested group. -/
theorem Inv.nested {P : Lex} {T : Types} {lv : Element → List Element} {m : FMode} {b b' inner : FBuilder}
    {pre : List Element} (h : Inv P T lv m b pre) (hm : ∀ a c, m ≠ .mixed a c) (el : Element)
    {src : List Node → Prop} {m' : FMode} (hin : InnerOk P T src (lv el) m' inner)
    (hsrc : ∀ ns, Valid P T (.particle el ns) → src ns)
    (hdist : b.modeNew = m → inner.modeNew = m → sameMode m m el = true →
      (((pre ++ [el]).flatMap lv).map (·.ident)).Nodup)
    (hall : m = .all → m' = .all → atMostOne el.max = true)
    (hagree : Agree ((pre ++ [el]).flatMap lv)) (hmerge : mergeInner b el pre inner = .ok b') :
    Inv P T lv m b' (pre ++ [el]) ∧ b'.new ≠ none ∧ b'.old = b.old ∧
      (b'.modeNew = m → b.modeNew = m ∧ inner.modeNew = m ∧ sameMode m m el = true) := by
  obtain ⟨n, hn⟩ : ∃ n, n = b.new.getD { isMixed := b.old.isMixed, elements := pre } := ⟨_, rfl⟩
  have hels : b.elems pre = n.elements := by
    cases hb : b.new <;> simp [FBuilder.elems, hn, hb]
  have h1 : Inv P T lv m { b with new := some n } pre := by
    have he : ({ b with new := some n } : FBuilder).elems pre = b.elems pre := by
      rw [hels]; rfl
    exact ⟨h.old, h.mode, by rw [he]; exact h.same, by rw [he]; exact h.choice, by rw [he]; exact h.mixed,
      by rw [he]; exact h.sub, by rw [he]; exact h.ids⟩
  have hin' : (inner.new.getD inner.old).elements = inner.elems inner.old.elements := by
    cases hb : inner.new <;> simp [FBuilder.elems, hb]
  simp only [mergeInner, ← hn] at hmerge
  by_cases hsm : sameMode b.modeNew inner.modeNew el = true
  · rw [if_pos hsm] at hmerge
    -- both have the mode `m`
    have hbm : b.modeNew = m := by
      rcases h.mode with h' | ⟨a, c, h'⟩
      · exact h'
      · rw [h'] at hsm; simp [sameMode] at hsm
    have him : inner.modeNew = m := by
      rw [hbm] at hsm
      cases m <;> cases hi : inner.modeNew <;> rw [hi] at hsm <;> simp [sameMode] at hsm <;> rfl
    have hm' : m' = m := by
      rcases hin.mode with h' | ⟨a, c, h'⟩
      · rw [← h', him]
      · rw [him] at h'; exact absurd h' (hm a c)
    rw [hbm, him] at hsm
    have hone : atMostOne el.max = true := by
      cases m with
      | all => exact hall rfl hm'
      | choice => simpa [sameMode] using hsm
      | sequence => simpa [sameMode] using hsm
      | mixed a c => exact absurd rfl (hm a c)
    obtain ⟨B, hB, hmax⟩ := (atMostOne_iff _).1 hone
    have hE : ((inner.elems inner.old.elements).map (scaleBy el)).map (·.ident) = (lv el).map (·.ident) := by
      rw [← hin.ids (him.trans hm'.symm)]
      simp [List.map_map, Function.comp_def, scaleBy]
    have hnd := hdist hbm him hsm
    rw [addAll_fresh _ _ { isMixed := n.isMixed || (inner.new.getD inner.old).isMixed, elements := n.elements }
      (by simp) (by simp only; rw [hbm]; exact hm) (by
        simp only [List.map_append]
        rw [hin', hE]
        have hids := h.ids hbm
        rw [hels] at hids
        rw [hids]
        simpa using hnd)] at hmerge
    injection hmerge with hmerge
    subst hmerge
    refine ⟨?_, by simp, rfl, fun _ => ⟨hbm, him, hsm⟩⟩
    refine h.snoc_same hm hbm el ((inner.elems inner.old.elements).map (scaleBy el)) h.old hbm ?_ ?_ ?_ hE ?_
    · rw [hels, ← hin']
      rfl
    · -- in order or in any order
      intro hms k ns hk ht
      obtain ⟨segs, s1, s2, s3⟩ := times_parts ht
      have hk1 := hk.2 B hmax
      match segs, s1, s2, s3 with
      | [], s1, s2, s3 =>
        simp at s1 s2
        subst s2
        have h0 : el.min = 0 := by
          have := hk.1
          try simp only at this
          omega
        exact ⟨_, List.Perm.refl _, fun _ => rfl, scaled_inOrder_zero el h0 _⟩
      | [s], s1, s2, s3 =>
        simp at s1 s2
        subst s2
        have hacc := hin.accepts s (hsrc s (s3 s (by simp)))
        have hmin : el.min ≤ 1 := by
          have := hk.1
          try simp only at this
          omega
        have hmax1 : ∀ b, el.max = .bounded b → 1 ≤ b := by
          intro x hx; rw [hmax] at hx; cases hx; omega
        rcases hms with rfl | rfl
        · rw [him] at hacc
          exact ⟨_, List.Perm.refl _, fun _ => rfl, scaled_inOrder el hmin hmax1 hacc⟩
        · rw [him] at hacc
          obtain ⟨fs, f1, f2⟩ := hacc
          exact ⟨fs.map (scaleBy el), f1.map _, by simp, scaled_inOrder el hmin hmax1 f2⟩
      | _ :: _ :: _, s1, _, _ => simp at s1; omega
    · intro hmc
      subst hmc
      have hne := hin.nonempty him
      refine ⟨by simpa using hne, ?_⟩
      intro k ns hk ht
      obtain ⟨segs, s1, s2, s3⟩ := times_parts ht
      have hk1 := hk.2 B hmax
      match segs, s1, s2, s3 with
      | [], s1, s2, s3 =>
        simp at s1 s2
        subst s2
        have h0 : el.min = 0 := by
          have := hk.1
          try simp only at this
          omega
        obtain ⟨e, he⟩ := List.exists_mem_of_ne_nil _ hne
        exact ⟨scaleBy el e, List.mem_map.2 ⟨e, he, rfl⟩, 0, ⟨by simp [scaleBy, h0], by simp⟩, .zero⟩
      | [s], s1, s2, s3 =>
        simp at s1 s2
        subst s2
        have hacc := hin.accepts s (hsrc s (s3 s (by simp)))
        rw [him] at hacc
        obtain ⟨e, he, k', hk', ht'⟩ := hacc
        have hmin : el.min ≤ 1 := by
          have := hk.1
          try simp only at this
          omega
        have hmax1 : ∀ b, el.max = .bounded b → 1 ≤ b := by
          intro x hx; rw [hmax] at hx; cases hx; omega
        exact ⟨scaleBy el e, List.mem_map.2 ⟨e, he, rfl⟩, k', Allows.mul_one hk' hmin hmax1, times_congr ht' rfl rfl⟩
      | _ :: _ :: _, s1, _, _ => simp at s1; omega
    · intro e he
      obtain ⟨e', he', rfl⟩ := List.mem_map.1 he
      exact hin.sub e' he'
  · rw [if_neg hsm] at hmerge
    obtain ⟨h2, ⟨a, c, hac⟩, hnn, hold⟩ := h1.toMixed hm (by simp)
    generalize hb2 : intoMixed { b with new := some n } = b2 at hmerge h2 hac hnn hold
    obtain ⟨n2, hn2⟩ : ∃ n2, b2.new = some n2 := by
      cases hx : b2.new with
      | none => exact absurd hx hnn
      | some n2 => exact ⟨n2, rfl⟩
    have hels2 : b2.elems pre = n2.elements := by simp [FBuilder.elems, hn2]
    have hacc2 : ∀ ns, src ns → Acc P T (intoMixed inner).modeNew ((intoMixed inner).elems inner.old.elements) ns :=
      fun ns hs => acc_intoMixed (hin.accepts ns hs)
    have hin2 : ((intoMixed inner).new.getD (intoMixed inner).old).elements =
        (intoMixed inner).elems inner.old.elements := by
      cases hi : inner.modeNew <;> simp [intoMixed, hi, FBuilder.elems]
    have hsub2 : ∀ e ∈ (intoMixed inner).elems inner.old.elements, ∃ e' ∈ lv el,
        e.ident = e'.ident ∧ e.variant = e'.variant := by
      intro e he
      cases hi : inner.modeNew with
      | mixed x y =>
        simp only [intoMixed, hi, FBuilder.elems] at he
        rw [hin'] at he
        exact hin.sub e he
      | _ =>
        simp only [intoMixed, hi, FBuilder.elems] at he
        rw [hin'] at he
        obtain ⟨e', he', rfl⟩ := List.mem_map.1 he
        exact hin.sub e' he'
    generalize hi2 : intoMixed inner = inner2 at hmerge hacc2 hin2 hsub2
    cases hio : inner2.modeNew with
    | mixed lo hi =>
      simp only [hac, hio, hn2, Option.getD_some] at hmerge
      rw [hin2] at hmerge
      obtain ⟨hone2, -⟩ := h2.mixed a c hac
      rw [hels2] at hone2
      obtain ⟨n3, r1, r2, r3, r4, r5, r6, r7⟩ := addAll_cover _ _ b' _ rfl
        (by
          intro e he
          obtain ⟨e', he', rfl⟩ := List.mem_map.1 he
          exact ⟨rfl, rfl⟩)
        (by simpa using hone2) ((pre ++ [el]).flatMap lv) hagree
        (by
          intro e he
          obtain ⟨e', g1, g2⟩ := h2.sub e (by rw [hels2]; exact he)
          exact ⟨e', by simp only [List.flatMap_append]; exact List.mem_append_left _ g1, g2⟩)
        (by
          intro e he
          obtain ⟨e', he', rfl⟩ := List.mem_map.1 he
          obtain ⟨e'', g1, g2⟩ := hsub2 e' he'
          exact ⟨e'', by simp [g1], g2⟩) hmerge
      simp only at r2 r3 r4 r5 r7
      have hels3 : b'.elems (pre ++ [el]) = n3.elements := by simp [FBuilder.elems, r1]
      refine ⟨?_, by simp [r1], by rw [r4, hold], ?_⟩
      · refine h2.snoc_mixed hm hac el (lo * el.min) (hi.mul el.max) (r3.trans h2.old) (by rw [r2, h2.old]) ?_ ?_ ?_ ?_
        · rw [hels2, hels3]
          exact fun e he => r5 e (by simp [he])
        · rw [hels3]; exact r6
        · rw [hels3]
          intro k ns hk ht
          obtain ⟨segs, s1, s2, s3⟩ := times_parts ht
          obtain ⟨counts, c1, c2, parts, c3, c4, c5⟩ := parts_concat (P := P) (T := T) segs (fun s hs => by
            have := hacc2 s (hsrc s (s3 s hs))
            rw [hio] at this
            exact this)
          refine ⟨parts, ?_, c4.trans s2, ?_⟩
          · rw [c3]
            have := Verif.Occurs.C43_mul_sound el.min lo el.max hi counts (by rw [c1, s1]; exact hk) c2
            rw [Nat.mul_comm lo, mul_comm' hi]
            exact this
          · intro p hp
            obtain ⟨e, he, hv⟩ := c5 p hp
            obtain ⟨f, f1, f2, f3⟩ := r5 (resetOccurs e) (by
              apply List.mem_append_right
              exact List.mem_map.2 ⟨e, he, rfl⟩)
            exact ⟨f, f1, particle_congr hv f2.symm f3.symm⟩
        · rw [hels3, hels2]
          intro e he
          rcases r7 e he with he | he
          · exact Or.inl ⟨e, he, rfl, rfl⟩
          · obtain ⟨e', he', rfl⟩ := List.mem_map.1 he
            exact Or.inr (hsub2 e' he')
      · intro he
        rw [r2] at he
        exact absurd he.symm (hm _ _)
    | all => rw [hio] at hmerge; simp only [hac] at hmerge; cases hmerge
    | choice => rw [hio] at hmerge; simp only [hac] at hmerge; cases hmerge
    | sequence => rw [hio] at hmerge; simp only [hac] at hmerge; cases hmerge

/-! ## The whole group -/

/-- The leaves below an element. -/
def below (l : Ident → Option Variant) (fuel : Nat) (e : Element) : List Element :=
  match nestedOf e with
  | none => [e]
  | some t => leavesF l fuel t

theorem leavesF_succ {l : Ident → Option Variant} {i : Ident} {m : FMode} {x : Group}
    (h : (l i).bind groupOf = some (m, x)) (fuel : Nat) :
    leavesF l (fuel + 1) i = x.elements.flatMap (below l fuel) := by
  simp only [leavesF, h]
  rfl

theorem groupOf_kind {v : Variant} {m : FMode} {x : Group} (h : groupOf v = some (m, x)) :
    ∀ a c, m ≠ .mixed a c := by
  intro a c he
  subst he
  cases v <;> simp [groupOf] at h

theorem nestedOf_iff {e : Element} {t : Ident} : nestedOf e = some t ↔ e.variant = .type_ t .group := by
  unfold nestedOf
  cases hv : e.variant with
  | type_ i m => cases m <;> simp
  | _ => simp

/-- The state of the loop. -/
structure LoopInv (P : Lex) (T : Types) (l : Ident → Option Variant) (fuel : Nat) (m : FMode) (x : Group) (b : FBuilder)
    (pre : List Element) : Prop where
  inv : Inv P T (below l fuel) m b pre
  old : b.old = x
  none_ : b.new = none → b.modeNew = m ∧ ∀ e ∈ pre, nestedOf e = none
  nodup : b.new ≠ none → b.modeNew = m → ((x.elements.flatMap (below l fuel)).map (·.ident)).Nodup

theorem nodup_prefix {α β : Type} {f : α → List β} {a b : List α} {g : β → PropIdent}
    (h : (((a ++ b).flatMap f).map g).Nodup) : ((a.flatMap f).map g).Nodup := by
  simp only [List.flatMap_append, List.map_append] at h
  exact (List.nodup_append.1 h).1

theorem Agree.sub {es fs : List Element} (h : Agree fs) (hs : ∀ e ∈ es, e ∈ fs) : Agree es :=
  fun x hx y hy => h x (hs x hx) y (hs y hy)

theorem loop_sound {P : Lex} {T : Types} {l : Ident → Option Variant} {fuel : Nat} {m : FMode} {x : Group}
    (hm : ∀ a c, m ≠ .mixed a c)
    (rec : Ident → Res FBuilder)
    (hsep : ((x.elements.flatMap (below l fuel)).map (·.ident)).Nodup ∨ FirstDiffers l m x)
    (hagree : Agree (x.elements.flatMap (below l fuel)))
    (hrec : ∀ el ∈ x.elements, ∀ t, nestedOf el = some t → ∀ inner, rec t = .ok inner →
      ∃ m' x', (l t).bind groupOf = some (m', x') ∧ InnerOk P T (Acc P T m' x'.elements) (leavesF l fuel t) m' inner ∧
        (m = .all → m' = .all → atMostOne el.max = true) ∧
        ∀ ns, Valid P T (.group t ns) → Acc P T m' x'.elements ns)
    (es pre : List Element) (hes : x.elements = pre ++ es) (b b' : FBuilder) (h : LoopInv P T l fuel m x b pre)
    (hl : execLoop rec b pre es = .ok b') : LoopInv P T l fuel m x b' x.elements := by
  induction es generalizing b pre with
  | nil =>
    simp only [execLoop] at hl
    injection hl with hl
    subst hl
    rw [hes]
    simpa using h
  | cons e es ih =>
    have hes' : x.elements = (pre ++ [e]) ++ es := by rw [hes]; simp
    have hag : Agree ((pre ++ [e]).flatMap (below l fuel)) := by
      refine hagree.sub ?_
      intro y hy
      rw [hes', List.flatMap_append]
      exact List.mem_append_left _ hy
    have hnodup : ((x.elements.flatMap (below l fuel)).map (·.ident)).Nodup →
        (((pre ++ [e]).flatMap (below l fuel)).map (·.ident)).Nodup := by
      intro hnd
      rw [hes'] at hnd
      exact nodup_prefix hnd
    simp only [execLoop] at hl
    cases hne : nestedOf e with
    | none =>
      rw [hne] at hl
      simp only at hl
      cases hadd : addElement b true e with
      | ok b₁ =>
        rw [hadd] at hl
        have hbel : below l fuel e = [e] := by simp [below, hne]
        obtain ⟨h1, h2, h3, h4⟩ := h.inv.plain hm e hbel (fun hn => (h.none_ hn).1)
          (by
            intro hn hmode
            have hnd := hnodup (h.nodup hn hmode)
            rw [h.inv.ids hmode]
            simp only [List.flatMap_append, List.map_append, List.flatMap_cons, List.flatMap_nil, hbel, List.append_nil,
              List.map_cons, List.map_nil] at hnd
            intro hmem
            exact (List.nodup_append.1 hnd).2.2 _ hmem _ (by simp) rfl) hag hadd
        refine ih (pre ++ [e]) hes' b₁ ⟨h1, h4.trans h.old, ?_, ?_⟩ hl
        · intro hn
          have hn' := h2.1 hn
          obtain ⟨g1, g2⟩ := h.none_ hn'
          refine ⟨?_, ?_⟩
          · have : b₁ = b := by
              simp only [addElement, hn'] at hadd
              injection hadd with hadd
              exact hadd.symm
            rw [this]; exact g1
          · intro y hy
            rcases List.mem_append.1 hy with hy | hy
            · exact g2 y hy
            · simp at hy; subst hy; exact hne
        · intro hn hmode
          exact h.nodup (fun hb => hn (h2.2 hb)) (h3 hmode)
      | err _ => rw [hadd] at hl; cases hl
      | panic => rw [hadd] at hl; cases hl
      | diverged => rw [hadd] at hl; cases hl
    | some t =>
      rw [hne] at hl
      simp only at hl
      cases hr : rec t with
      | ok inner =>
        rw [hr] at hl
        simp only at hl
        cases hmg : mergeInner b e pre inner with
        | ok b₁ =>
          rw [hmg] at hl
          simp only at hl
          obtain ⟨m', x', i1, i2, i3, i4⟩ := hrec e (by rw [hes]; simp) t hne inner hr
          have hbel : below l fuel e = leavesF l fuel t := by simp [below, hne]
          have hfirst : b.modeNew = m → inner.modeNew = m → sameMode m m e = true →
              ((x.elements.flatMap (below l fuel)).map (·.ident)).Nodup := by
            intro hbm him hsm
            by_cases hn : b.new = none
            · rcases hsep with hnd | hfd
              · exact hnd
              · exfalso
                obtain ⟨m'', x'', g1, g2⟩ := hfd pre e es t hes hne (h.none_ hn).2
                rw [i1] at g1
                cases g1
                have hmm : m' = m := by
                  rcases i2.mode with h' | ⟨a, c, h'⟩
                  · rw [← h', him]
                  · rw [him] at h'; exact absurd h' (hm a c)
                rcases g2 with g2 | ⟨g2, g3⟩
                · exact g2 hmm
                · cases m with
                  | all => exact g2 rfl
                  | choice => simp only [sameMode] at hsm; rw [g3] at hsm; cases hsm
                  | sequence => simp only [sameMode] at hsm; rw [g3] at hsm; cases hsm
                  | mixed a c => exact hm a c rfl
            · exact h.nodup hn hbm
          obtain ⟨h1, h2, h3, h4⟩ := h.inv.nested hm e (by rw [hbel]; exact i2)
            (by
              intro ns hv
              have hvar := nestedOf_iff.1 hne
              cases hv with
              | nested g1 g2 => rw [hvar] at g1; cases g1; exact i4 ns g2
              | element g1 g2 => rw [hvar] at g1; cases g1
              | wildcard g1 g2 => rw [hvar] at g1; cases g1
              | textNode g1 => rw [hvar] at g1; cases g1)
            (fun a b c => hnodup (hfirst a b c)) i3 hag hmg
          refine ih (pre ++ [e]) hes' b₁ ⟨h1, h3.trans h.old, fun hn => absurd hn h2, ?_⟩ hl
          intro _ hmode
          obtain ⟨g1, g2, g3⟩ := h4 hmode
          exact hfirst g1 g2 g3
        | err _ => rw [hmg] at hl; cases hl
        | panic => rw [hmg] at hl; cases hl
        | diverged => rw [hmg] at hl; cases hl
      | err _ => rw [hr] at hl; cases hl
      | panic => rw [hr] at hl; cases hl
      | diverged => rw [hr] at hl; cases hl

theorem exec_sound {P : Lex} {T : Types} {l : Ident → Option Variant} (g : Ident)
    (hT : ∀ t, t ≠ g → ∀ m x, (l t).bind groupOf = some (m, x) → ∀ ns, Valid P T (.group t ns) → Acc P T m x.elements ns)
    (hng : ∀ i m x, (l i).bind groupOf = some (m, x) → ∀ el ∈ x.elements, nestedOf el ≠ some g)
    (fuel : Nat) (i : Ident) (b : FBuilder) (hb : execF l fuel i = .ok b) (hsep : Separate l fuel i)
    (hagree : Agree (leavesF l fuel i)) :
    ∃ m x, (l i).bind groupOf = some (m, x) ∧ b.old = x ∧ (∀ a c, m ≠ .mixed a c) ∧
      ((m = .choice → x.elements ≠ []) → InnerOk P T (Acc P T m x.elements) (leavesF l fuel i) m b) ∧
      (∀ ns, Acc P T m x.elements ns → Acc P T b.modeNew (b.elems x.elements) ns) ∧
      (∀ a c, b.modeNew = .mixed a c → ∀ e ∈ b.elems x.elements, e.min = 1 ∧ e.max = .bounded 1) ∧
      (∀ e ∈ b.elems x.elements, ∃ e' ∈ leavesF l fuel i, e.ident = e'.ident ∧ e.variant = e'.variant) := by
  induction fuel generalizing i b with
  | zero => simp [execF] at hb
  | succ fuel ih =>
    simp only [execF] at hb
    cases hli : l i with
    | none => rw [hli] at hb; cases hb
    | some v =>
      rw [hli] at hb
      simp only at hb
      cases hgv : groupOf v with
      | none => rw [hgv] at hb; cases hb
      | some mx =>
        obtain ⟨m, x⟩ := mx
        rw [hgv] at hb
        simp only at hb
        have hbind : (l i).bind groupOf = some (m, x) := by rw [hli]; exact hgv
        have hm := groupOf_kind hgv
        obtain ⟨hs1, hs2⟩ := hsep m x hbind
        rw [leavesF_succ hbind] at hs1 hagree
        have h0 : LoopInv P T l fuel m x ⟨m, m, x, none⟩ [] := by
          refine ⟨⟨rfl, Or.inl rfl, ?_, ?_, ?_, ?_, ?_⟩, rfl, fun _ => ⟨rfl, by simp⟩, fun h => absurd rfl h⟩
          · intro _ _; exact ⟨[], rfl, rfl, by simp⟩
          · intro _ _; exact ⟨fun h => absurd rfl h, by simp⟩
          · intro a c h; exact absurd h (hm a c)
          · intro e he; simp [FBuilder.elems] at he
          · intro _; rfl
        have hfin := loop_sound hm (execF l fuel) hs1 hagree
          (by
            intro el hel t ht inner hr
            have hsub : ∀ y ∈ leavesF l fuel t, y ∈ x.elements.flatMap (below l fuel) := by
              intro y hy
              exact List.mem_flatMap.2 ⟨el, hel, by simpa [below, ht] using hy⟩
            have hsepT : ∀ m' x', (l t).bind groupOf = some (m', x') → Separate l fuel t :=
              fun m' x' h => (hs2 el hel t ht m' x' h).2.2
            obtain ⟨m₀, x₀, hb₀⟩ : ∃ m' x', (l t).bind groupOf = some (m', x') := by
              cases fuel with
              | zero => simp [execF] at hr
              | succ fuel =>
                simp only [execF] at hr
                cases hlt : l t with
                | none => rw [hlt] at hr; cases hr
                | some w =>
                  rw [hlt] at hr
                  simp only at hr
                  cases hgw : groupOf w with
                  | none => rw [hgw] at hr; cases hr
                  | some p => exact ⟨p.1, p.2, by simp [hgw]⟩
            obtain ⟨m', x', j1, j2, j3, j4, j5⟩ := ih t inner hr (hsepT m₀ x₀ hb₀) (hagree.sub hsub)
            obtain ⟨k1, k2, -⟩ := hs2 el hel t ht m' x' j1
            refine ⟨m', x', j1, j4 k2, k1, fun ns hv => ?_⟩
            exact hT t (fun he => hng i m x hbind el hel (he ▸ ht)) m' x' j1 ns hv)
          x.elements [] rfl _ b h0 hb
        refine ⟨m, x, by first | exact hbind | exact hgv, hfin.old, hm, ?_, ?_, ?_, ?_⟩
        · intro hne
          refine ⟨?_, hfin.inv.mode, hm, ?_, ?_, ?_, ?_⟩
          · intro ns hacc
            rw [hfin.old]
            exact hfin.inv.accepts hm hacc
          · intro hbm
            have hmc : m = .choice := by
              rcases hfin.inv.mode with h' | ⟨a, c, h'⟩
              · rw [← h', hbm]
              · rw [hbm] at h'; cases h'
            rw [hfin.old]
            exact (hfin.inv.choice (hbm.trans hmc.symm) hmc).1 (hne hmc)
          · rw [hfin.old, leavesF_succ hbind]; exact hfin.inv.sub
          · rw [hfin.old, leavesF_succ hbind]; exact hfin.inv.ids
          · intro a c h
            rw [hfin.old]
            exact (hfin.inv.mixed a c h).1
        · intro ns hacc; exact hfin.inv.accepts hm hacc
        · intro a c h; exact (hfin.inv.mixed a c h).1
        · rw [leavesF_succ hbind]; exact hfin.inv.sub

/-! ## The complex type -/

theorem get_setType (T : Types) (i : Ident) (ty : MetaType) (k : Ident) :
    Assoc.get (setType T i ty) k = if k = i then (Assoc.get T i).map (fun _ => ty) else Assoc.get T k := by
  induction T with
  | nil => simp [setType, Assoc.get]
  | cons p T ih =>
    obtain ⟨a, ty'⟩ := p
    simp only [setType, List.map_cons, Assoc.get, List.find?_cons] at ih ⊢
    by_cases hai : a = i
    · subst hai
      by_cases hk : k = a
      · subst hk; simp
      · have hk' : a ≠ k := fun h => hk h.symm
        simp only [if_true, if_neg hk, hk', decide_false] at ih ⊢
        exact ih
    · by_cases hk : a = k
      · subst hk
        simp [hai]
      · simp only [if_neg hai, hk] at ih ⊢
        rw [ih]
        simp

theorem look_setType (T : Types) (i : Ident) (v : Variant) (k : Ident) :
    look (setType T i (.new v)) k = if k = i then (look T i).map (fun _ => v) else look T k := by
  simp only [look, get_setType]
  split
  · simp only [Option.map_map, Function.comp_def]; rfl
  · rfl

theorem exec_group {l : Ident → Option Variant} {fuel : Nat} {i : Ident} {b : FBuilder} (h : execF l fuel i = .ok b) :
    (l i).bind groupOf ≠ none := by
  cases fuel with
  | zero => simp [execF] at h
  | succ fuel =>
    simp only [execF] at h
    cases hl : l i with
    | none => rw [hl] at h; cases h
    | some v =>
      rw [hl] at h
      simp only at h
      cases hg : groupOf v with
      | none => rw [hg] at h; cases h
      | some p => simp [hg]

theorem flattenComplex_ok {fuel : Nat} {T T' : Types} {c : Ident} (h : flattenComplex fuel T c = .ok T') :
    ∃ C g b, look T c = some (.complex C) ∧ C.content = some g ∧ execF (look T) fuel g = .ok b ∧ c ≠ g ∧
      ((b.new = none ∧ T' = T) ∨ ∃ x, b.new = some x ∧
        look T' c = some (.complex { C with min := C.min * (occursOf b.modeNew).1,
                                            max := C.max.mul (occursOf b.modeNew).2 }) ∧
        look T' g = some (variantOf b.modeNew x) ∧ ∀ i, i ≠ c → i ≠ g → look T' i = look T i) := by
  unfold flattenComplex at h
  cases hc : look T c with
  | none => rw [hc] at h; cases h
  | some v =>
    rw [hc] at h
    cases v with
    | complex C =>
      simp only at h
      cases hg : C.content with
      | none => rw [hg] at h; cases h
      | some g =>
        rw [hg] at h
        simp only at h
        cases hb : execF (look T) fuel g with
        | ok b =>
          rw [hb] at h
          simp only at h
          have hgr := exec_group hb
          have hcg : c ≠ g := by
            rintro rfl
            rw [hc] at hgr
            exact hgr rfl
          refine ⟨C, g, b, rfl, hg, hb, hcg, ?_⟩
          cases hn : b.new with
          | none => rw [hn] at h; injection h with h; exact Or.inl ⟨rfl, h.symm⟩
          | some x =>
            rw [hn] at h
            injection h with h
            subst h
            refine Or.inr ⟨x, rfl, ?_, ?_, ?_⟩
            · rw [look_setVariant, if_pos rfl, look_setType, if_neg hcg, hc]; simp [hg]
            · rw [look_setVariant, if_neg hcg.symm, look_setType, if_pos rfl]
              cases hl : look T g with
              | none => rw [hl] at hgr; exact absurd rfl hgr
              | some _ => rfl
            · intro i h1 h2
              rw [look_setVariant, if_neg h1, look_setType, if_neg h2]
        | err _ => rw [hb] at h; cases h
        | panic => rw [hb] at h; cases h
        | diverged => rw [hb] at h; cases h
    | _ => cases h

theorem leaves_plain (l : Ident → Option Variant) (fuel : Nat) (i : Ident) : ∀ e ∈ leavesF l fuel i, nestedOf e = none := by
  induction fuel generalizing i with
  | zero => simp [leavesF]
  | succ fuel ih =>
    intro e he
    cases hb : (l i).bind groupOf with
    | none => simp [leavesF, hb] at he
    | some p =>
      rw [leavesF_succ (m := p.1) (x := p.2) hb] at he
      obtain ⟨el, -, h⟩ := List.mem_flatMap.1 he
      unfold below at h
      cases hn : nestedOf el with
      | none => rw [hn] at h; simp at h; subst h; exact hn
      | some t => rw [hn] at h; exact ih t e h

theorem WildcardsAgree.agree {l : Ident → Option Variant} {fuel : Nat} {i : Ident}
    (h : WildcardsAgree (leavesF l fuel i)) : Agree (leavesF l fuel i) := by
  intro x hx y hy hi hc
  have px := leaves_plain l fuel i x hx
  have py := leaves_plain l fuel i y hy
  unfold nestedOf at px py
  cases hvx : x.variant with
  | text => cases hvy : y.variant <;> simp_all [compatible]
  | any a =>
    cases hvy : y.variant with
    | any b => rw [h x hx y hy hi a b hvx hvy]
    | _ => simp_all [compatible]
  | type_ a m =>
    cases hvy : y.variant with
    | type_ b m' =>
      rw [hvx, hvy] at hc
      simp only [compatible, decide_eq_true_eq] at hc
      subst hc
      rw [hvx] at px
      rw [hvy] at py
      cases m <;> cases m' <;> simp_all
    | _ => simp_all [compatible]

theorem Step.acc {P : Lex} {T : Types} {l : Ident → Option Variant} {g : Ident} {m : FMode} {x : Group} {ns : List Node}
    (hl : (l g).bind groupOf = some (m, x)) (h : Step P l (Valid P T) (.group g ns)) : Acc P T m x.elements ns := by
  cases h with
  | refGroup h1 _ _ _ => rw [h1] at hl; simp [groupOf] at hl
  | substitution h1 _ _ => rw [h1] at hl; simp [groupOf] at hl
  | complexGroup h1 _ _ _ => rw [h1] at hl; simp [groupOf] at hl
  | sequence h1 h2 =>
    rw [h1] at hl
    simp only [Option.bind_some, groupOf, Option.some.injEq, Prod.mk.injEq] at hl
    obtain ⟨rfl, rfl⟩ := hl
    exact h2
  | choice h1 h2 h3 h4 =>
    rw [h1] at hl
    simp only [Option.bind_some, groupOf, Option.some.injEq, Prod.mk.injEq] at hl
    obtain ⟨rfl, rfl⟩ := hl
    exact ⟨_, h2, _, h3, h4⟩
  | all h1 h2 h3 =>
    rw [h1] at hl
    simp only [Option.bind_some, groupOf, Option.some.injEq, Prod.mk.injEq] at hl
    obtain ⟨rfl, rfl⟩ := hl
    exact ⟨_, h2, h3⟩

/-- What the new group accepts. -/
theorem Acc.group {P : Lex} {T : Types} {g : Ident} {m : FMode} {x : Group} {p : List Node}
    (hm : ∀ a c, m ≠ .mixed a c) (hl : look T g = some (variantOf m x)) (h : Acc P T m x.elements p) :
    Valid P T (.group g p) := by
  obtain ⟨ty, e1, e2⟩ := look_iff.1 hl
  cases m with
  | sequence => exact .sequence e1 e2 h
  | all => obtain ⟨fs, h1, h2⟩ := h; exact .all e1 e2 h1 h2
  | choice => obtain ⟨e, h1, k, h2, h3⟩ := h; exact .choice e1 e2 h1 h2 h3
  | mixed a c => exact absurd rfl (hm a c)

theorem allows_one {m : Nat} {M : MaxOccurs} {k : Nat} (h : Allows m M k) : Allows (m * 1) (M.mul (.bounded 1)) k :=
  Allows.mul_one h (Nat.le_refl _) (fun b hb => by cases hb; exact Nat.le_refl _)

theorem separate_congr {l l' : Ident → Option Variant} {g : Ident}
    (hl : ∀ i, i ≠ g → (l' i).bind groupOf = (l i).bind groupOf)
    (hng : ∀ i m x, (l i).bind groupOf = some (m, x) → ∀ el ∈ x.elements, nestedOf el ≠ some g) (fuel : Nat) :
    ∀ i, i ≠ g → leavesF l' fuel i = leavesF l fuel i ∧ (Separate l fuel i → Separate l' fuel i) := by
  induction fuel with
  | zero => exact fun i _ => ⟨rfl, fun h => h⟩
  | succ fuel ih =>
    intro i hi
    have hleaves : leavesF l' (fuel + 1) i = leavesF l (fuel + 1) i := by
      cases hb : (l i).bind groupOf with
      | none =>
        have hb' := (hl i hi).trans hb
        simp [leavesF, hb, hb']
      | some p =>
        have hb' := (hl i hi).trans hb
        rw [leavesF_succ (m := p.1) (x := p.2) hb, leavesF_succ (m := p.1) (x := p.2) hb']
        have : ∀ es : List Element, (∀ e ∈ es, e ∈ p.2.elements) →
            es.flatMap (below l' fuel) = es.flatMap (below l fuel) := by
          intro es hes
          induction es with
          | nil => rfl
          | cons e es ih' =>
            simp only [List.flatMap_cons]
            rw [ih' (fun x hx => hes x (by simp [hx]))]
            congr 1
            unfold below
            cases hn : nestedOf e with
            | none => rfl
            | some t =>
              exact (ih t (fun he => hng i p.1 p.2 hb e (hes e (by simp)) (he ▸ hn))).1
        exact this _ (fun _ h => h)
    refine ⟨hleaves, fun hs => ?_⟩
    intro m x hb'
    have hb := (hl i hi).symm.trans hb'
    obtain ⟨h1, h2⟩ := hs m x hb
    refine ⟨?_, ?_⟩
    · rw [hleaves]
      refine h1.imp id (fun h => ?_)
      intro pre el post t e1 e2 e3
      obtain ⟨m', x', g1, g2⟩ := h pre el post t e1 e2 e3
      refine ⟨m', x', ?_, g2⟩
      rw [hl t (fun he => hng i m x hb el (by rw [e1]; simp) (he ▸ e2))]
      exact g1
    · intro el hel t ht m' x' hb''
      have htg : t ≠ g := fun he => hng i m x hb el hel (he ▸ ht)
      obtain ⟨k1, k2, k3⟩ := h2 el hel t ht m' x' ((hl t htg).symm.trans hb'')
      exact ⟨k1, k2, (ih t htg).2 k3⟩

theorem uses_group {V : Variant} {m : FMode} {x : Group} (h : groupOf V = some (m, x)) {el : Element} {t : Ident}
    (hel : el ∈ x.elements) (ht : nestedOf el = some t) : UsesGroup t V := by
  have hv := nestedOf_iff.1 ht
  cases V <;> simp only [groupOf, Option.some.injEq, Prod.mk.injEq, reduceCtorEq] at h
  all_goals
    obtain ⟨rfl, rfl⟩ := h
    exact ⟨el, hel, hv⟩

theorem flatten_step {P : Lex} {fuel : Nat} {T T' : Types} {c : Ident} (hf : Flattenable fuel T c)
    (h : flattenComplex fuel T c = .ok T') :
    (∀ i, (∀ s, Valid P T (.text i s) → Valid P T' (.text i s)) ∧
      (∀ xsi as kids, Valid P T (.value i xsi as kids) → Valid P T' (.value i xsi as kids))) ∧
    (∀ d, d ≠ c → Flattenable fuel T d → Flattenable fuel T' d) := by
  obtain ⟨C, g, b, hc, hg, hb, hcg, hcase⟩ := flattenComplex_ok h
  rcases hcase with ⟨-, rfl⟩ | ⟨x, hn, hc', hg', hsame⟩
  · exact ⟨fun i => ⟨fun _ h => h, fun _ _ _ h => h⟩, fun _ _ h => h⟩
  have hgr := exec_group hb
  obtain ⟨honly, hsep, hwild⟩ := hf C g hc hg hgr
  have hng : ∀ i m x, (look T i).bind groupOf = some (m, x) → ∀ el ∈ x.elements, nestedOf el ≠ some g := by
    intro i m x hi el hel hne
    cases hl : look T i with
    | none => rw [hl] at hi; cases hi
    | some V =>
      rw [hl] at hi
      have := honly i V hl (uses_group hi hel hne)
      subst this
      rw [hc] at hl
      cases hl
      simp [groupOf] at hi
  have hT : ∀ t, t ≠ g → ∀ m x, (look T t).bind groupOf = some (m, x) → ∀ ns, Valid P T' (.group t ns) →
      Acc P T' m x.elements ns := by
    intro t htg m x hgt ns hv
    have htc : t ≠ c := by
      rintro rfl
      rw [hc] at hgt
      simp [groupOf] at hgt
    exact Step.acc (l := look T') (by rw [hsame t htc htg]; exact hgt) hv.step
  obtain ⟨m, y, s1, s2, s3, -, s5, s6, s7⟩ := exec_sound (P := P) (T := T') g hT hng fuel g b hb hsep hwild.agree
  have hels : b.elems y.elements = x.elements := by simp [FBuilder.elems, hn]
  rw [hels] at s5 s6 s7
  obtain ⟨V, hV, hVg⟩ := Option.bind_eq_some_iff.1 s1
  constructor
  · have key : ∀ {j}, Valid P T j → NewContent P T T' g j := by
      intro j
      refine replace_content (P := P) hc hc' rfl hg hV ?_ hsame honly ?_
      · cases V <;> first | trivial | simp [groupOf] at hVg
      · intro parts hl hp
        have hacc : ∀ p ∈ parts, Acc P T' b.modeNew x.elements p := fun p hp' => s5 p (Step.acc s1 (hp p hp'))
        have hplain : (∀ a c, b.modeNew ≠ .mixed a c) → occursOf b.modeNew = (1, .bounded 1) →
            ∃ k, Allows (C.min * (occursOf b.modeNew).1) (C.max.mul (occursOf b.modeNew).2) k ∧
              Valid P T' (.groupTimes g k parts.flatten) := by
          intro hnm ho
          refine ⟨parts.length, by rw [ho]; exact allows_one hl, ?_⟩
          exact groupTimes_of_parts parts (fun p hp' => (hacc p hp').group hnm hg')
        cases hbm : b.modeNew with
        | mixed a M =>
          rw [hbm] at hacc hg' s6
          obtain ⟨counts, c1, c2, qs, c3, c4, c5⟩ := parts_concat parts hacc
          refine ⟨qs.length, ?_, ?_⟩
          · simp only [occursOf]
            rw [c3]
            exact Verif.Occurs.C43_mul_sound C.min a C.max M counts (by rw [c1]; exact hl) c2
          · rw [← c4]
            apply groupTimes_of_parts
            intro p hp'
            obtain ⟨e, he, hv⟩ := c5 p hp'
            obtain ⟨o1, o2⟩ := s6 a M rfl e he
            obtain ⟨ty, e1, e2⟩ := look_iff.1 hg'
            refine .choice (k := 1) e1 e2 he ⟨by omega, fun z hz => ?_⟩ ?_
            · rw [o2] at hz; cases hz; exact Nat.le_refl _
            · have := Valid.succ hv (.zero (e := e))
              simpa using this
        | all =>
          have := hplain (by simp [hbm]) (by rw [hbm]; rfl)
          rw [hbm] at this; exact this
        | choice =>
          have := hplain (by simp [hbm]) (by rw [hbm]; rfl)
          rw [hbm] at this; exact this
        | sequence =>
          have := hplain (by simp [hbm]) (by rw [hbm]; rfl)
          rw [hbm] at this; exact this
    exact fun i => ⟨fun s hs => key hs, fun xsi as kids hs => key hs⟩
  · intro d hdc hfd D k hd hk hkg
    have hdg : d ≠ g := by
      rintro rfl
      rw [hg'] at hd
      cases hbm : b.modeNew <;> rw [hbm] at hd <;> simp only [variantOf] at hd <;> cases hd
    have hd' : look T d = some (.complex D) := (hsame d hdc hdg).symm.trans hd
    have hkc : k ≠ c := by
      rintro rfl
      rw [hc'] at hkg
      exact hkg rfl
    have hkg' : k ≠ g := by rintro rfl; exact hdc (honly d _ hd' hk)
    obtain ⟨f1, f2, f3⟩ := hfd D k hd' hk (by rw [← hsame k hkc hkg']; exact hkg)
    have hcongr := separate_congr (l := look T) (l' := look T') (g := g) (by
      intro i hi
      by_cases hic : i = c
      · subst hic; rw [hc, hc']; rfl
      · rw [hsame i hic hi]) hng fuel k hkg'
    refine ⟨?_, hcongr.2 f2, by rw [hcongr.1]; exact f3⟩
    intro i v hi hu
    by_cases hic : i = c
    · subst hic
      rw [hc'] at hi
      cases hi
      exact absurd (Option.some.inj (hg.symm.trans hu)).symm hkg'
    · by_cases hig : i = g
      · subst hig
        rw [hg'] at hi
        cases hi
        have : ∃ e ∈ x.elements, e.variant = .type_ k .group := by
          cases hbm : b.modeNew <;> rw [hbm] at hu <;> exact hu
        obtain ⟨e, he, hv⟩ := this
        obtain ⟨e', he', -, hve⟩ := s7 e he
        have := leaves_plain _ _ _ e' he'
        rw [nestedOf_iff.2 (hve ▸ hv)] at this
        cases this
      · rw [hsame i hic hig] at hi
        exact f1 i v hi hu

/-- C40 (`Optimizer::flatten_complex_type`): if the content group of the type is used nowhere else, the elements of its
nested groups have different names wherever their order is kept, and wildcards with the same name are the same, then
everything accepted before is accepted after it. (Missing, and false: see the negations below.) -/
theorem C40_one_type_partial (P : Lex) (fuel : Nat) (T T' : Types) (c : Ident) (hf : Flattenable fuel T c)
    (h : flattenComplex fuel T c = .ok T') (i : Ident) :
    (∀ s, Valid P T (.text i s) → Valid P T' (.text i s)) ∧
    (∀ xsi as kids, Valid P T (.value i xsi as kids) → Valid P T' (.value i xsi as kids)) :=
  (flatten_step hf h).1 i

theorem flatten_each (P : Lex) (fuel : Nat) (cs : List Ident) (hn : cs.Nodup) (T T' : Types)
    (hf : ∀ c ∈ cs, Flattenable fuel T c) (h : tryEach (flattenComplex fuel) T cs = .ok T') (i : Ident) :
    (∀ s, Valid P T (.text i s) → Valid P T' (.text i s)) ∧
    (∀ xsi as kids, Valid P T (.value i xsi as kids) → Valid P T' (.value i xsi as kids)) := by
  induction cs generalizing T with
  | nil =>
    simp only [tryEach] at h
    injection h with h
    subst h
    exact ⟨fun _ h => h, fun _ _ _ h => h⟩
  | cons c cs ih =>
    simp only [tryEach] at h
    obtain ⟨hc, hn'⟩ := List.nodup_cons.1 hn
    cases hfc : flattenComplex fuel T c with
    | ok T₁ =>
      rw [hfc] at h
      obtain ⟨g1, g2⟩ := flatten_step (P := P) (hf c (by simp)) hfc
      obtain ⟨r1, r2⟩ := ih hn' T₁ (fun d hd => g2 d (fun he => hc (he ▸ hd)) (hf d (by simp [hd]))) h
      exact ⟨fun s hs => r1 s ((g1 i).1 s hs), fun xsi as kids hs => r2 xsi as kids ((g1 i).2 xsi as kids hs)⟩
    | err _ =>
      rw [hfc] at h
      exact ih hn' T (fun d hd => hf d (by simp [hd])) h
    | panic => rw [hfc] at h; cases h
    | diverged => rw [hfc] at h; cases h

/-- C40 (`Optimizer::flatten_complex_types`): the same for the whole pass. -/
theorem C40_accepts_no_less_partial (P : Lex) (fuel : Nat) (T T' : Types) (hk : Assoc.Keyed T)
    (hf : ∀ c, Flattenable fuel T c) (h : flattenAll fuel T = .ok T') (i : Ident) :
    (∀ s, Valid P T (.text i s) → Valid P T' (.text i s)) ∧
    (∀ xsi as kids, Valid P T (.value i xsi as kids) → Valid P T' (.value i xsi as kids)) :=
  flatten_each P fuel _ (List.Sublist.nodup (List.Sublist.map _ List.filter_sublist) hk) T T' (fun c _ => hf c) h i

/-! ### The pass ends unless a group contains itself -/

theorem addElement_ends (b : FBuilder) (u : Bool) (e : Element) : addElement b u e ≠ .diverged := by
  unfold addElement
  repeat' split
  all_goals simp

theorem addAll_ends (u : Bool) (es : List Element) (b : FBuilder) : addAll u b es ≠ .diverged := by
  induction es generalizing b with
  | nil => simp [addAll]
  | cons e es ih =>
    simp only [addAll]
    split
    · exact ih _
    · exact addElement_ends b u e

theorem mergeInner_ends (b : FBuilder) (el : Element) (prev : List Element) (o : FBuilder) :
    mergeInner b el prev o ≠ .diverged := by
  unfold mergeInner
  dsimp only
  split
  · exact addAll_ends _ _ _
  · split
    · exact addAll_ends _ _ _
    · simp

theorem execLoop_ends (rec : Ident → Res FBuilder) (es prev : List Element) (b : FBuilder)
    (h : ∀ e ∈ es, ∀ t, nestedOf e = some t → rec t ≠ .diverged) : execLoop rec b prev es ≠ .diverged := by
  induction es generalizing b prev with
  | nil => simp [execLoop]
  | cons e es ih =>
    have ih' := fun b prev => ih prev b (fun e' he' => h e' (by simp [he']))
    simp only [execLoop]
    cases hn : nestedOf e with
    | none =>
      simp only
      cases ha : addElement b true e with
      | ok b' => exact ih' _ _
      | diverged => exact absurd ha (addElement_ends _ _ _)
      | err _ => simp
      | panic => simp
    | some t =>
      simp only
      cases hr : rec t with
      | ok inner =>
        simp only
        cases hm : mergeInner b e prev inner with
        | ok b' => exact ih' _ _
        | diverged => exact absurd hm (mergeInner_ends _ _ _ _)
        | err _ => simp
        | panic => simp
      | diverged => exact absurd hr (h e (by simp) t hn)
      | err _ => simp
      | panic => simp

/-- C40: flattening ends if no group contains itself (the groups can be ranked such that nested groups have a smaller
rank). -/
theorem C40_ends (l : Ident → Option Variant) (rank : Ident → Nat)
    (hr : ∀ i m x, (l i).bind groupOf = some (m, x) → ∀ e ∈ x.elements, ∀ t, nestedOf e = some t → rank t < rank i)
    (fuel : Nat) (i : Ident) (hf : rank i < fuel) : execF l fuel i ≠ .diverged := by
  induction fuel generalizing i with
  | zero => omega
  | succ fuel ih =>
    simp only [execF]
    cases hl : l i with
    | none => simp
    | some v =>
      simp only
      cases hg : groupOf v with
      | none => simp
      | some p =>
        simp only
        apply execLoop_ends
        intro e he t ht
        have := hr i p.1 p.2 (by rw [hl]; exact hg) e he t ht
        exact ih t (by omega)

/-- C40 (negation): a group that contains itself is never flattened (the recursion does not stop). -/
theorem C40_cyclic_group_diverges (fuel : Nat) :
    execF (fun _ => some (.sequence ⟨false, [{ exElem "g" "G" with variant := .type_ (exId "G") .group }]⟩)) fuel (exId "G")
      = .diverged := by
  induction fuel with
  | zero => rfl
  | succ fuel ih =>
    simp only [execF, groupOf, execLoop, nestedOf]
    rw [ih]

/-! ### Examples -/

instance (g : Ident) (v : Variant) : Decidable (UsesGroup g v) := by
  cases v <;> simp only [UsesGroup] <;> infer_instance

theorem onlyUsedBy_of_mem {T : Types} {c g : Ident} (h : ∀ p ∈ T, UsesGroup g p.2.variant → p.1 = c) :
    OnlyUsedBy T c g := by
  intro i v hl hu
  obtain ⟨ty, h1, h2⟩ := look_iff.1 hl
  exact h (i, ty) (Assoc.mem_of_get h1) (h2 ▸ hu)

/-- A particle for a group. -/
def exGroup (n g : String) : Element := { exElem n g with variant := .type_ (exId g) .group }

/-- `sequence(a, choice(b | c) {0,unbounded}, d)` as the content of the type `C`. -/
def exNested : Types :=
  [(exId "S", .new (.buildIn .string)),
   (exId "H", .new (.choice ⟨false, [exElem "b" "S", exElem "c" "S"]⟩)),
   (exId "G", .new (.sequence ⟨false, [exElem "a" "S", { exGroup "h" "H" with min := 0, max := .unbounded },
     exElem "d" "S"]⟩)),
   (exId "C", .new (.complex ⟨.none, some (exId "G"), 1, .bounded 1, false, false, []⟩))]

theorem exNested_flattenable (c : Ident) : Flattenable 2 exNested c := by
  intro C g hc hg hgr
  obtain ⟨ty, h1, h2⟩ := look_iff.1 hc
  have := Assoc.mem_of_get h1
  simp only [exNested, List.mem_cons, Prod.mk.injEq, List.not_mem_nil, or_false] at this
  rcases this with ⟨rfl, rfl⟩ | ⟨rfl, rfl⟩ | ⟨rfl, rfl⟩ | ⟨rfl, rfl⟩ <;>
    simp only [MetaType.new, reduceCtorEq, Variant.complex.injEq] at h2
  subst h2
  simp only [Option.some.injEq] at hg
  subst hg
  refine ⟨onlyUsedBy_of_mem (by decide +kernel), ?_, ?_⟩
  · have hG : (look exNested (exId "G")).bind groupOf = some (.sequence, ⟨false, [exElem "a" "S",
        { exGroup "h" "H" with min := 0, max := .unbounded }, exElem "d" "S"]⟩) := by decide +kernel
    have hH : (look exNested (exId "H")).bind groupOf =
        some (.choice, ⟨false, [exElem "b" "S", exElem "c" "S"]⟩) := by decide +kernel
    intro m x hx
    rw [hG] at hx
    cases hx
    refine ⟨Or.inl (by decide +kernel), ?_⟩
    intro el hel t ht m' x' hx'
    simp only [List.mem_cons, List.not_mem_nil, or_false] at hel
    rcases hel with rfl | rfl | rfl
    · simp [exElem, nestedOf] at ht
    · simp only [exGroup, exElem, nestedOf, Option.some.injEq] at ht
      subst ht
      rw [hH] at hx'
      cases hx'
      refine ⟨by simp, by simp, ?_⟩
      intro m x hx
      rw [hH] at hx
      cases hx
      refine ⟨Or.inl (by decide +kernel), ?_⟩
      intro el hel t ht
      simp only [List.mem_cons, List.not_mem_nil, or_false] at hel
      rcases hel with rfl | rfl <;> simp [exElem, nestedOf] at ht
    · simp [exElem, nestedOf] at ht
  · intro e he e' he' _ a b ha
    have : leavesF (look exNested) 2 (exId "G") = [exElem "a" "S", exElem "b" "S", exElem "c" "S", exElem "d" "S"] := by
      decide +kernel
    rw [this] at he
    simp only [List.mem_cons, List.not_mem_nil, or_false] at he
    rcases he with rfl | rfl | rfl | rfl <;> simp [exElem] at ha

/-- The hypotheses of `C40_accepts_no_less_partial` are met. The result is `choice(a | b | c | d) {2,unbounded}`. -/
example (P : Lex) : ∃ T', flattenAll 2 exNested = .ok T' ∧
    look T' (exId "G") = some (.choice ⟨false, [exElem "a" "S", exElem "b" "S", exElem "c" "S", exElem "d" "S"]⟩) ∧
    look T' (exId "C") = some (.complex ⟨.none, some (exId "G"), 2, .unbounded, false, false, []⟩) ∧ ∀ i,
      (∀ s, Valid P exNested (.text i s) → Valid P T' (.text i s)) ∧
      (∀ xsi as kids, Valid P exNested (.value i xsi as kids) → Valid P T' (.value i xsi as kids)) := by
  refine ⟨_, rfl, by decide +kernel, by decide +kernel, fun i => ?_⟩
  exact C40_accepts_no_less_partial P 2 exNested _ (by unfold Assoc.Keyed; decide +kernel) exNested_flattenable rfl i

/-! ### What is lost -/

/-- A document whose content consists of elements is accepted only by way of the content group. -/
theorem complex_only {P : Lex} {T : Types} {c g : Ident} {C : Complex} (hc : look T c = some (.complex C))
    (hg : C.content = some g) (hmix : C.isMixed = false) {xsi as kids} (hk : ∀ s, kids ≠ [.text s])
    (h : Valid P T (.value c xsi as kids)) :
    ∃ k, Allows C.min C.max k ∧ Valid P T (.groupTimes g k kids) := by
  cases h.step with
  | refValue h1 _ _ _ => rw [hc] at h1; cases h1
  | textValue _ => exact absurd rfl (hk _)
  | customValue h1 _ => rw [hc] at h1; cases h1
  | dynamicValue h1 _ _ _ => rw [hc] at h1; cases h1
  | emptyValue h1 h2 _ _ => rw [hc] at h1; cases h1; rw [hg] at h2; cases h2
  | simpleValue _ _ _ _ _ => exact absurd rfl (hk _)
  | complexValue h1 h2 h3 h4 h5 h6 =>
    rw [hc] at h1; cases h1
    rw [hg] at h2; cases h2
    rw [hmix] at h6
    exact ⟨_, h5, h6⟩

theorem complex_once {P : Lex} {T : Types} {c g : Ident} {C : Complex} (hc : look T c = some (.complex C))
    (hg : C.content = some g) (hmix : C.isMixed = false) (h1 : C.min = 1) (h2 : C.max = .bounded 1) {xsi as kids}
    (hk : ∀ s, kids ≠ [.text s]) (h : Valid P T (.value c xsi as kids)) : Valid P T (.group g kids) := by
  obtain ⟨k, hka, hv⟩ := complex_only hc hg hmix hk h
  obtain ⟨parts, p1, p2, p3⟩ := groupTimes_parts hv
  have : k = 1 := by have := hka.1; have := hka.2 1 h2; omega
  subst this
  match parts, p1 with
  | [p], _ =>
    simp at p2
    subst p2
    exact p3 p (by simp)

theorem complex_accepts {P : Lex} {T : Types} {c g : Ident} {C : Complex} (hc : look T c = some (.complex C))
    (hg : C.content = some g) (hmix : C.isMixed = false) (hatt : C.attributes = []) (h1 : Allows C.min C.max 1) {kids}
    (h : Valid P T (.group g kids)) : Valid P T (.value c none [] kids) := by
  obtain ⟨ty, e1, e2⟩ := look_iff.1 hc
  refine .complexValue (k := 1) e1 e2 hg (by rw [hatt]; exact ⟨by simp, by simp⟩) (by rw [hatt]; simp) h1 ?_
  have := Valid.oneMore h (.noTimes (i := g))
  rw [hmix]
  simpa using this

/-- An element node for a particle. -/
def exNode (n : String) (s : Txt) : Node := .elem ⟨0, .named n.toList⟩ none [] [.text s]

theorem exNode_valid {P : Lex} {T : Types} {s : Txt} (h : Valid P T (.text (exId "S") s)) (n : String) :
    Valid P T (.particle (exElem n "S") [exNode n s]) :=
  Valid.element (e := exElem n "S") rfl (.textValue h)

theorem one_time {P : Lex} {T : Types} {e : Element} {ns : List Node} (h : Valid P T (.particle e ns)) :
    Valid P T (.times e 1 ns) := by
  have := Valid.succ h (.zero (e := e))
  simpa using this

theorem allows_single : Allows 1 (.bounded 1) 1 := ⟨Nat.le_refl _, fun b h => by cases h; exact Nat.le_refl _⟩

/-- `choice(a | choice(a))`. -/
def exTwice : Types :=
  [(exId "S", .new (.buildIn .string)),
   (exId "H", .new (.choice ⟨false, [exElem "a" "S"]⟩)),
   (exId "G", .new (.choice ⟨false, [exElem "a" "S", exGroup "h" "H"]⟩)),
   (exId "C", .new (.complex ⟨.none, some (exId "G"), 1, .bounded 1, false, false, []⟩))]

/-- C40 (negation): an element that is an alternative twice must occur twice after the flattening: `choice(a | choice(a))`
becomes `choice(a{2,2})`, which rejects a single `a`. -/
theorem C40_repeated_alternative_lost (P : Lex) (s : Txt) (hP : P.builtIn .string s) :
    ∃ T', flattenAll 2 exTwice = .ok T' ∧ Valid P exTwice (.value (exId "C") none [] [exNode "a" s]) ∧
      ¬ Valid P T' (.value (exId "C") none [] [exNode "a" s]) := by
  refine ⟨[(exId "S", .new (.buildIn .string)), (exId "H", .new (.choice ⟨false, [exElem "a" "S"]⟩)),
    (exId "G", .new (.choice ⟨false, [{ exElem "a" "S" with min := 2, max := .bounded 2 }]⟩)),
    (exId "C", .new (.complex ⟨.none, some (exId "G"), 1, .bounded 1, false, false, []⟩))], by decide +kernel, ?_, ?_⟩
  · have hS : Valid P exTwice (.text (exId "S") s) :=
      .builtInText (ty := .new (.buildIn .string)) (by decide +kernel) rfl hP
    refine complex_accepts (C := ⟨.none, some (exId "G"), 1, .bounded 1, false, false, []⟩) (by decide +kernel) rfl rfl rfl
      allows_single ?_
    exact Valid.choice (ty := .new (.choice ⟨false, [exElem "a" "S", exGroup "h" "H"]⟩)) (e := exElem "a" "S") (k := 1)
      (by decide +kernel) rfl (by simp) allows_single (one_time (exNode_valid hS "a"))
  · intro h
    have hG := complex_once (C := ⟨.none, some (exId "G"), 1, .bounded 1, false, false, []⟩) (g := exId "G")
      (by decide +kernel) rfl rfl rfl rfl (by simp [exNode]) h
    obtain ⟨e, he, k, hk, ht⟩ := Step.group_choice hG.step
      (x := ⟨false, [{ exElem "a" "S" with min := 2, max := .bounded 2 }]⟩) (by decide +kernel)
    simp at he
    subst he
    obtain ⟨parts, p1, p2, p3⟩ := times_parts ht
    have hlen := flatten_length_one parts (fun p hp => elem_only (i := exId "S") rfl (p3 p hp))
    rw [p2] at hlen
    have h2 : 2 ≤ k := hk.1
    simp at hlen
    omega

theorem two_of_length {α : Type} (l : List α) (h : l.length = 2) : ∃ a b, l = [a, b] := by
  match l, h with
  | [a, b], _ => exact ⟨a, b, rfl⟩

theorem elem_name {P : Lex} {T : Types} {e : Element} {i : Ident} {r : List Node} (he : e.variant = .type_ i .element)
    (h : Valid P T (.particle e r)) : ∃ xsi as kids, r = [Node.elem e.ident xsi as kids] := by
  cases h with
  | element _ _ => exact ⟨_, _, _, rfl⟩
  | nested h1 _ => rw [he] at h1; cases h1
  | wildcard h1 _ => rw [he] at h1; cases h1
  | textNode h1 => rw [he] at h1; cases h1

/-- `sequence(a, sequence(b, a))`. -/
def exReturn : Types :=
  [(exId "S", .new (.buildIn .string)),
   (exId "H", .new (.sequence ⟨false, [exElem "b" "S", exElem "a" "S"]⟩)),
   (exId "G", .new (.sequence ⟨false, [exElem "a" "S", exGroup "h" "H"]⟩)),
   (exId "C", .new (.complex ⟨.none, some (exId "G"), 1, .bounded 1, false, false, []⟩))]

/-- C40 (negation): the order of elements with the same name is lost: `sequence(a, sequence(b, a))` becomes
`sequence(a{2,2}, b)`, which rejects `a b a`. -/
theorem C40_order_lost (P : Lex) (s : Txt) (hP : P.builtIn .string s) :
    ∃ T', flattenAll 2 exReturn = .ok T' ∧
      Valid P exReturn (.value (exId "C") none [] [exNode "a" s, exNode "b" s, exNode "a" s]) ∧
      ¬ Valid P T' (.value (exId "C") none [] [exNode "a" s, exNode "b" s, exNode "a" s]) := by
  refine ⟨[(exId "S", .new (.buildIn .string)),
    (exId "H", .new (.sequence ⟨false, [exElem "b" "S", exElem "a" "S"]⟩)),
    (exId "G", .new (.sequence ⟨false, [{ exElem "a" "S" with min := 2, max := .bounded 2 }, exElem "b" "S"]⟩)),
    (exId "C", .new (.complex ⟨.none, some (exId "G"), 1, .bounded 1, false, false, []⟩))], by decide +kernel, ?_, ?_⟩
  · have hS : Valid P exReturn (.text (exId "S") s) :=
      .builtInText (ty := .new (.buildIn .string)) (by decide +kernel) rfl hP
    refine complex_accepts (C := ⟨.none, some (exId "G"), 1, .bounded 1, false, false, []⟩) (by decide +kernel) rfl rfl rfl
      allows_single ?_
    refine Valid.sequence (ty := .new (.sequence ⟨false, [exElem "a" "S", exGroup "h" "H"]⟩)) (by decide +kernel) rfl ?_
    have hH : Valid P exReturn (.group (exId "H") [exNode "b" s, exNode "a" s]) := by
      refine Valid.sequence (ty := .new (.sequence ⟨false, [exElem "b" "S", exElem "a" "S"]⟩)) (by decide +kernel) rfl ?_
      exact Valid.cons (a := [_]) (b := [_]) allows_single (one_time (exNode_valid hS "b"))
        (Valid.cons (a := [_]) (b := []) allows_single (one_time (exNode_valid hS "a")) .nil)
    refine Valid.cons (a := [_]) (b := [_, _]) allows_single (one_time (exNode_valid hS "a")) ?_
    exact Valid.cons (a := [_, _]) (b := []) allows_single
      (one_time (Valid.nested (e := exGroup "h" "H") rfl hH)) .nil
  · intro h
    have hG := complex_once (C := ⟨.none, some (exId "G"), 1, .bounded 1, false, false, []⟩) (g := exId "G")
      (by decide +kernel) rfl rfl rfl rfl (by simp) h
    have hacc := Step.acc (m := .sequence)
      (x := ⟨false, [{ exElem "a" "S" with min := 2, max := .bounded 2 }, exElem "b" "S"]⟩) (by decide +kernel) hG.step
    obtain ⟨segs, s1, s2, s3⟩ := inOrder_split hacc
    have hlen : segs.length = 2 := by have := congrArg List.length s1; simpa using this
    obtain ⟨u, v, rfl⟩ := two_of_length segs hlen
    simp only [List.map_cons, List.map_nil, List.cons.injEq, and_true] at s1
    obtain ⟨hk, ht⟩ := s3 u (by simp)
    rw [s1.1] at hk ht
    have hk2 : u.2.1 = 2 := by
      have := hk.1; have := hk.2 2 rfl; simp only at *; omega
    rw [hk2] at ht
    obtain ⟨parts, p1, p2, p3⟩ := times_parts ht
    match parts, p1 with
    | [p, q], _ =>
      have hp := p3 p (by simp)
      have hq := p3 q (by simp)
      obtain ⟨_, _, _, rfl⟩ := elem_name (i := exId "S") rfl hp
      obtain ⟨_, _, _, rfl⟩ := elem_name (i := exId "S") rfl hq
      simp only [List.flatten_cons, List.flatten_nil, List.append_nil, List.singleton_append] at p2
      simp only [List.map_cons, List.map_nil, List.flatten_cons, List.flatten_nil, List.append_nil, ← p2] at s2
      simp only [exNode, List.cons_append, List.nil_append, List.cons.injEq, Node.elem.injEq] at s2
      exact absurd s2.2.1.1 (by decide)

/-- `choice(x | choice(){0,1})`. -/
def exEmpty : Types :=
  [(exId "S", .new (.buildIn .string)),
   (exId "H", .new (.choice ⟨false, []⟩)),
   (exId "G", .new (.choice ⟨false, [exElem "x" "S", { exGroup "h" "H" with min := 0 }]⟩)),
   (exId "C", .new (.complex ⟨.none, some (exId "G"), 1, .bounded 1, false, false, []⟩))]

/-- C40 (negation): an optional empty choice inside a choice is dropped, and with it the empty content. -/
theorem C40_empty_content_lost (P : Lex) :
    ∃ T', flattenAll 2 exEmpty = .ok T' ∧ Valid P exEmpty (.value (exId "C") none [] []) ∧
      ¬ Valid P T' (.value (exId "C") none [] []) := by
  refine ⟨[(exId "S", .new (.buildIn .string)), (exId "H", .new (.choice ⟨false, []⟩)),
    (exId "G", .new (.choice ⟨false, [exElem "x" "S"]⟩)),
    (exId "C", .new (.complex ⟨.none, some (exId "G"), 1, .bounded 1, false, false, []⟩))], by decide +kernel, ?_, ?_⟩
  · refine complex_accepts (C := ⟨.none, some (exId "G"), 1, .bounded 1, false, false, []⟩) (by decide +kernel) rfl rfl rfl
      allows_single ?_
    exact Valid.choice (ty := .new (.choice ⟨false, [exElem "x" "S", { exGroup "h" "H" with min := 0 }]⟩))
      (e := { exGroup "h" "H" with min := 0 }) (k := 0)
      (by decide +kernel) rfl (by simp) ⟨Nat.le_refl _, by simp⟩ .zero
  · intro h
    have hG := complex_once (C := ⟨.none, some (exId "G"), 1, .bounded 1, false, false, []⟩) (g := exId "G")
      (by decide +kernel) rfl rfl rfl rfl (by simp) h
    obtain ⟨e, he, k, hk, ht⟩ := Step.group_choice hG.step (x := ⟨false, [exElem "x" "S"]⟩) (by decide +kernel)
    simp at he
    subst he
    obtain ⟨parts, p1, p2, p3⟩ := times_parts ht
    have hlen := flatten_length_one parts (fun p hp => elem_only (i := exId "S") rfl (p3 p hp))
    rw [p2] at hlen
    have h2 : 1 ≤ k := hk.1
    simp at hlen
    omega

end Verif.Opt

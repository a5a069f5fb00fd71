import Verif.Opt.Flatten
/-!
# Merging dynamic types and converting them to choices (C42)

Models `xsd-parser/src/pipeline/optimizer/merge_dynamic_types.rs` and `dynamic_to_choice.rs`.
-/
namespace Verif.Opt

open Verif.Meta
open Verif.Naming (Name)
open Verif.Occurs (MaxOccurs)

/-! ## Model -/

/-- The derived types of the dynamic type that `t` resolves to, if that is the type `base`: the two conditions of
merge_dynamic_types.rs:117-119. -/
def nestedDyn (T : Types) (base t : Ident) : Option (List (Ident × Derived)) :=
  match getResolved T t with
  | none => none
  | some (k, ty) =>
    if base = k then
      match ty.variant with
      | .dynamic dm => some dm.derived
      | _ => none
    else none

/-- `new.entry(key.clone()).or_insert_with(|| old.clone())`, merge_dynamic_types.rs:125. -/
def orInsert (new : List (Ident × Derived)) (p : Ident × Derived) : List (Ident × Derived) :=
  if (Assoc.get new p.1).isSome then new else new ++ [p]

/-- `Optimizer::add_derived_types`, merge_dynamic_types.rs:109-127. `fuel` bounds the depth of the recursion. -/
def addDerived (T : Types) (base : Ident) : Nat → List (Ident × Derived) → List (Ident × Derived) →
    Option (List (Ident × Derived))
  | 0, _, _ => none
  | fuel + 1, new, old =>
    old.foldlM (fun new p =>
      match nestedDyn T base p.2.type_ with
      | some inner => addDerived T base fuel new inner
      | none => some (orInsert new p)) new

/-- `Optimizer::merge_dynamic_types_impl`, merge_dynamic_types.rs:80-107. -/
def mergeDynamic (fuel : Nat) (T : Types) (i : Ident) : Res Types :=
  match look T i with
  | none => .err (.unknownType i)
  | some (.dynamic dm) =>
    match dm.type_.bind (getResolvedIdent T) with
    | none => .ok T
    | some base =>
      match addDerived T base fuel [] dm.derived with
      | none => .diverged
      | some r => .ok (setVariant T i (.dynamic { dm with derived := r }))
  | some _ => .err (.expectedDynamicType i)

def isDynamicV : Variant → Bool
  | .dynamic _ => true
  | _ => false

/-- The names of all dynamic types, merge_dynamic_types.rs:58-71 and dynamic_to_choice.rs:51-63. -/
def dynamicIdents (T : Types) : List Ident := (T.filter fun p => isDynamicV p.2.variant).map (·.1)

/-- `Optimizer::merge_dynamic_types`, merge_dynamic_types.rs:55-78. -/
def mergeDynamics (fuel : Nat) (T : Types) : Res Types := tryEach (mergeDynamic fuel) T (dynamicIdents T)

/-- `VecHelper::find_or_insert` followed by an update of the element found, traits/vec_helper.rs:37-50. -/
def findOrInsert {α : Type} (hit : α → Bool) (new : α) (upd : α → α) : List α → List α
  | [] => [upd new]
  | e :: es => if hit e then upd e :: es else e :: findOrInsert hit new upd es

/-- The `match key.type_`, dynamic_to_choice.rs:127-137. -/
def markElement (key : Ident) (der : Derived) (e : Element) : Element :=
  match key.kind with
  | .type_ =>
    { e with flags := { e.flags with byType := true,
                                     defaultElement := e.flags.defaultElement || der.relationship == .concrete } }
  | .element => { e with flags := { e.flags with byTag := true } }
  | _ => e

/-- The new element of dynamic_to_choice.rs:113-125. -/
def newAlternative (form : Form) (key : Ident) (der : Derived) : Element :=
  { ident := key.toProp, variant := .type_ der.type_ .element, form, flags := ⟨false, false, false, false, false⟩,
    min := 1, max := .bounded 1, displayName := der.displayName, documentation := [] }

/-- One round of `add_elements`, dynamic_to_choice.rs:108-139. -/
def addAlternative (form : Form) (es : List Element) (p : Ident × Derived) : List Element :=
  findOrInsert (fun e => e.ident == p.1.toProp) (newAlternative form p.1 p.2) (markElement p.1 p.2) es

/-- `add_elements`, dynamic_to_choice.rs:107-140. -/
def alternatives (form : Form) (derived : List (Ident × Derived)) : List Element :=
  derived.foldl (addAlternative form) []

/-- The identifier of the content, dynamic_to_choice.rs:81-82; `n` is the name made by the name builder. -/
def contentIdent (n : Name) (i : Ident) : Ident := ⟨i.ns, 0, n, .type_⟩

/-- `Optimizer::convert_dynamic_to_choice_impl`, dynamic_to_choice.rs:72-104. -/
def convertDynamic (n : Name) (T : Types) (i : Ident) : Res Types :=
  match Assoc.get T i with
  | none => .err (.unknownType i)
  | some ty =>
    match ty.variant with
    | .dynamic dm =>
      let es := alternatives (ty.form.getD .unqualified) dm.derived
      let T' := setVariant T i (.complex ⟨.none, some (contentIdent n i), 1, .bounded 1, true, false, []⟩)
      match Assoc.get T' (contentIdent n i) with
      | some _ => .panic
      | none =>
        .ok (T' ++ [(contentIdent n i, .new (if es.isEmpty then .sequence ⟨false, es⟩ else .choice ⟨false, es⟩))])
    | _ => .err (.expectedDynamicType i)

/-- `Optimizer::convert_dynamics_to_choices`, dynamic_to_choice.rs:48-70. `names` are the names that the name builder
makes one after the other (`shared_name("Content").finish()`; C45 says that they differ). -/
def convertEach (names : Nat → Name) : Nat → Types → List Ident → Res Types
  | _, T, [] => .ok T
  | k, T, i :: is =>
    match convertDynamic (names k) T i with
    | .ok T' => convertEach names (k + 1) T' is
    | .err _ => convertEach names k T is
    | r => r

def convertDynamics (names : Nat → Name) (T : Types) : Res Types := convertEach names 0 T (dynamicIdents T)

/-! ## Specification -/

/-- A definition that is neither a synonym nor a dynamic type (in the original or in the converted form). -/
def Concrete : Variant → Prop
  | .dynamic _ => False
  | .complex c => c.isDynamic = false
  | v => v.target = none

/-- The concrete type `t` can be selected where the type `i` is expected: `i` is `t`, a synonym of a type for which `t`
can be selected, or a dynamic type with such a type among its derived types. A converted dynamic type is a complex type
marked as dynamic, whose content is a choice of its derived types. -/
inductive Selectable (T : Types) : Ident → Ident → Prop
  | self {i v} : look T i = some v → Concrete v → Selectable T i i
  | synonym {i k t} : Synonym T i k → Selectable T k t → Selectable T i t
  | derived {i d key der t} : look T i = some (.dynamic d) → (key, der) ∈ d.derived → Selectable T der.type_ t →
      Selectable T i t
  | alternative {i c g x e k t} : look T i = some (.complex c) → c.isDynamic = true → c.content = some g →
      look T g = some (.choice x) → e ∈ x.elements → e.variant = .type_ k .element → Selectable T k t →
      Selectable T i t

/-- The type `k` stands (directly or through synonyms) for a derived type of the dynamic type `i`. -/
def DerivedOf (T : Types) (i k : Ident) : Prop :=
  ∃ d key der p, look T i = some (.dynamic d) ∧ (key, der) ∈ d.derived ∧ Follow T der.type_ p k

/-- No dynamic type is among its own derived types, the derived types of those, and so on. -/
def AcyclicDerived (T : Types) : Prop := ∀ i, ¬ Relation.TransGen (DerivedOf T) i i

/-- Wherever a derived type is listed under the same name, it is the same type. -/
def SameUnderName (T : Types) : Prop :=
  ∀ i j d d' key der der', look T i = some (.dynamic d) → look T j = some (.dynamic d') → (key, der) ∈ d.derived →
    (key, der') ∈ d'.derived → der.type_ = der'.type_

/-- How a document selects a derived type: by the name of the element, by `xsi:type`, or by no `xsi:type`. -/
inductive How where
  | tag (n : PropIdent)
  | xsiType (n : PropIdent)
  | noXsiType
deriving DecidableEq

/-- How the derived type listed under `key` is selected (deserialize.rs:240-273, 395-400: by the tag if the key names an
element, by `xsi:type` if it names a type). -/
def SelectedBy (key : Ident) (der : Derived) : How → Prop
  | .tag n => key.kind = .element ∧ key.toProp = n
  | .xsiType n => key.kind = .type_ ∧ key.toProp = n
  | .noXsiType => key.kind = .type_ ∧ der.relationship = .concrete

/-- How an alternative of a converted dynamic type is selected. -/
def AlternativeSelectedBy (e : Element) : How → Prop
  | .tag n => e.flags.byTag = true ∧ e.ident = n
  | .xsiType n => e.flags.byType = true ∧ e.ident = n
  | .noXsiType => e.flags.byType = true ∧ e.flags.defaultElement = true

/-! ## Proofs: merging -/

/-- An entry that is copied: one that is not the base itself, of the list or of the lists of the base. -/
inductive Leaf (T : Types) (base : Ident) : List (Ident × Derived) → Ident × Derived → Prop
  | own {old p} : p ∈ old → nestedDyn T base p.2.type_ = none → Leaf T base old p
  | inner {old q inner p} : q ∈ old → nestedDyn T base q.2.type_ = some inner → Leaf T base inner p → Leaf T base old p

theorem mem_orInsert (new : List (Ident × Derived)) (p q : Ident × Derived) (h : q ∈ orInsert new p) : q ∈ new ∨ q = p := by
  unfold orInsert at h
  split at h
  · exact Or.inl h
  · simpa using h

theorem sub_orInsert (new : List (Ident × Derived)) (p q : Ident × Derived) (h : q ∈ new) : q ∈ orInsert new p := by
  unfold orInsert
  split
  · exact h
  · simp [h]

theorem key_orInsert (new : List (Ident × Derived)) (p : Ident × Derived) : p.1 ∈ Assoc.keys (orInsert new p) := by
  unfold orInsert
  split
  · rename_i h; exact (Assoc.get_isSome new p.1).1 h
  · simp [Assoc.keys]

theorem keys_mono {l m : List (Ident × Derived)} (h : ∀ q ∈ l, q ∈ m) {k : Ident} (hk : k ∈ Assoc.keys l) :
    k ∈ Assoc.keys m := by
  simp only [Assoc.keys, List.mem_map] at hk ⊢
  obtain ⟨q, hq, rfl⟩ := hk
  exact ⟨q, h q hq, rfl⟩

theorem addDerived_spec {T : Types} {base : Ident} (fuel : Nat) (new old r : List (Ident × Derived))
    (h : addDerived T base fuel new old = some r) :
    (∀ p ∈ r, p ∈ new ∨ Leaf T base old p) ∧ (∀ p ∈ new, p ∈ r) ∧ ∀ p, Leaf T base old p → p.1 ∈ Assoc.keys r := by
  induction fuel generalizing new old r with
  | zero => simp [addDerived] at h
  | succ fuel ih =>
    simp only [addDerived] at h
    induction old generalizing new with
    | nil =>
      simp only [List.foldlM_nil] at h
      cases h
      refine ⟨fun p hp => Or.inl hp, fun p hp => hp, fun p hp => ?_⟩
      cases hp with
      | own h _ => cases h
      | inner h _ _ => cases h
    | cons q old ih' =>
      simp only [List.foldlM_cons, Option.bind_eq_bind, Option.bind_eq_some_iff] at h
      obtain ⟨mid, hm, hr⟩ := h
      have h2 := ih' mid hr
      cases hn : nestedDyn T base q.2.type_ with
      | some inner =>
        rw [hn] at hm
        have h1 := ih new inner mid hm
        refine ⟨fun p hp => ?_, fun p hp => h2.2.1 p (h1.2.1 p hp), fun p hp => ?_⟩
        · rcases h2.1 p hp with h | h
          · rcases h1.1 p h with h | h
            · exact Or.inl h
            · exact Or.inr (.inner (by simp) hn h)
          · cases h with
            | own a b => exact Or.inr (.own (by simp [a]) b)
            | inner a b c => exact Or.inr (.inner (List.mem_cons_of_mem _ a) b c)
        · cases hp with
          | own a b =>
            rcases List.mem_cons.1 a with rfl | a
            · rw [hn] at b; cases b
            · exact h2.2.2 p (.own a b)
          | inner a b c =>
            rcases List.mem_cons.1 a with rfl | a
            · rw [hn] at b; cases b
              exact keys_mono h2.2.1 (h1.2.2 p c)
            · exact h2.2.2 p (.inner a b c)
      | none =>
        rw [hn] at hm
        cases hm
        refine ⟨fun p hp => ?_, fun p hp => h2.2.1 p (sub_orInsert _ _ _ hp), fun p hp => ?_⟩
        · rcases h2.1 p hp with h | h
          · rcases mem_orInsert _ _ _ h with h | h
            · exact Or.inl h
            · subst h; exact Or.inr (.own (by simp) hn)
          · cases h with
            | own a b => exact Or.inr (.own (by simp [a]) b)
            | inner a b c => exact Or.inr (.inner (List.mem_cons_of_mem _ a) b c)
        · cases hp with
          | own a b =>
            rcases List.mem_cons.1 a with rfl | a
            · exact keys_mono h2.2.1 (key_orInsert _ _)
            · exact h2.2.2 p (.own a b)
          | inner a b c =>
            rcases List.mem_cons.1 a with rfl | a
            · rw [hn] at b; cases b
            · exact h2.2.2 p (.inner a b c)

/-- With a base none of whose derived types is the base itself, the recursion has depth two. -/
theorem addDerived_ends {T : Types} {base : Ident} (fuel : Nat) (new old : List (Ident × Derived))
    (hb : ∀ q ∈ old, ∀ inner, nestedDyn T base q.2.type_ = some inner →
      ∀ p ∈ inner, nestedDyn T base p.2.type_ = none) : ∃ r, addDerived T base (fuel + 2) new old = some r := by
  simp only [addDerived]
  induction old generalizing new with
  | nil => exact ⟨new, rfl⟩
  | cons q old ih =>
    simp only [List.foldlM_cons, Option.bind_eq_bind]
    have ih := fun new => ih new (fun q hq => hb q (List.mem_cons_of_mem _ hq))
    cases hn : nestedDyn T base q.2.type_ with
    | none => exact ih _
    | some inner =>
      have hi := hb q (by simp) inner hn
      have : ∃ m, inner.foldlM (fun new p =>
          match nestedDyn T base p.2.type_ with
          | some inner => addDerived T base fuel new inner
          | none => some (orInsert new p)) new = some m := by
        clear hn
        induction inner generalizing new with
        | nil => exact ⟨new, rfl⟩
        | cons p inner ihi =>
          simp only [List.foldlM_cons, Option.bind_eq_bind, hi p (by simp), Option.bind_some]
          exact ihi _ (fun p hp => hi p (List.mem_cons_of_mem _ hp))
      obtain ⟨m, hm⟩ := this
      simp only [hm, Option.bind_some]
      exact ih m

theorem nestedDyn_some {T : Types} {base t : Ident} {inner : List (Ident × Derived)}
    (h : nestedDyn T base t = some inner) :
    ∃ p dB, Follow T t p base ∧ look T base = some (.dynamic dB) ∧ dB.derived = inner := by
  unfold nestedDyn at h
  cases hr : getResolved T t with
  | none => rw [hr] at h; cases h
  | some r =>
    obtain ⟨k, ty⟩ := r
    rw [hr] at h
    simp only at h
    split at h
    · rename_i hk
      subst hk
      obtain ⟨p, hf, -, hg, -⟩ := (C33_resolved_is_end_of_chain T t base ty).1 hr
      cases hv : ty.variant with
      | dynamic dB => rw [hv] at h; exact ⟨p, dB, hf, look_of hg hv, Option.some.inj h⟩
      | _ => rw [hv] at h; cases h
    · cases h

theorem dynamic_not_synonym {T : Types} {i : Ident} {d : Meta.Dynamic} (h : look T i = some (.dynamic d)) (k : Ident) :
    ¬ Synonym T i k := by
  rw [synonym_look]
  rintro ⟨v, hv, ht⟩
  rw [h] at hv; cases hv; cases ht

theorem Selectable.of_follow {T : Types} {i j : Ident} {p : List Ident} (h : Follow T i p j) {t : Ident}
    (hs : Selectable T j t) : Selectable T i t := by
  induction h with
  | here _ => exact hs
  | step h _ ih => exact .synonym h (ih hs)

theorem concrete_not_synonym {T : Types} {i k : Ident} {v : Variant} (h : look T i = some v) (hc : Concrete v) :
    ¬ Synonym T i k := by
  rw [synonym_look]
  rintro ⟨v', hv, ht⟩
  rw [h] at hv; cases hv
  cases v with
  | reference r => exact absurd ht (by unfold Concrete at hc; rw [hc]; simp)
  | _ => cases ht

theorem Selectable.follow {T : Types} {i j : Ident} {p : List Ident} (h : Follow T i p j) {t : Ident}
    (hs : Selectable T i t) : Selectable T j t := by
  induction h with
  | here _ => exact hs
  | step h _ ih =>
    apply ih
    cases hs with
    | self hl hc => exact absurd h (concrete_not_synonym hl hc)
    | synonym h' hs => rw [h.unique h']; exact hs
    | derived hl _ _ => exact absurd h (dynamic_not_synonym hl _)
    | alternative hl _ _ _ _ _ _ =>
      obtain ⟨v, hv, ht⟩ := synonym_look.1 h
      rw [hl] at hv; cases hv; cases ht

/-- Replacing the list of derived types of one dynamic type. -/
structure Replaced (T T' : Types) (i : Ident) (d : Meta.Dynamic) (r : List (Ident × Derived)) : Prop where
  old : look T i = some (.dynamic d)
  new : look T' i = some (.dynamic { d with derived := r })
  other : ∀ k, k ≠ i → look T' k = look T k

theorem Replaced.synonym {T T' : Types} {i : Ident} {d : Meta.Dynamic} {r : List (Ident × Derived)}
    (h : Replaced T T' i d r) (a k : Ident) : Synonym T' a k ↔ Synonym T a k := by
  by_cases ha : a = i
  · subst ha
    exact ⟨fun hs => absurd hs (dynamic_not_synonym h.new k), fun hs => absurd hs (dynamic_not_synonym h.old k)⟩
  · exact synonym_congr (h.other a ha) k

theorem Replaced.defined {T T' : Types} {i : Ident} {d : Meta.Dynamic} {r : List (Ident × Derived)}
    (h : Replaced T T' i d r) (a : Ident) : Defined T' a ↔ Defined T a := by
  have key : ∀ T : Types, Defined T a ↔ (look T a).isSome = true := by
    intro T
    simp only [Defined, look, Option.isSome_map]
    cases Assoc.get T a <;> simp
  rw [key, key]
  by_cases ha : a = i
  · subst ha; rw [h.old, h.new]; simp
  · rw [h.other a ha]

theorem Replaced.follow {T T' : Types} {i : Ident} {d : Meta.Dynamic} {r : List (Ident × Derived)}
    (h : Replaced T T' i d r) (a j : Ident) (p : List Ident) : Follow T' a p j ↔ Follow T a p j := by
  constructor
  · intro hf
    induction hf with
    | here hd => exact .here ((h.defined _).1 hd)
    | step hs _ ih => exact .step ((h.synonym _ _).1 hs) ih
  · intro hf
    induction hf with
    | here hd => exact .here ((h.defined _).2 hd)
    | step hs _ ih => exact .step ((h.synonym _ _).2 hs) ih

theorem mergeDynamic_ok {fuel : Nat} {T T' : Types} {i : Ident} (h : mergeDynamic fuel T i = .ok T') :
    T' = T ∨ ∃ d base r, Replaced T T' i d r ∧ d.type_.bind (getResolvedIdent T) = some base ∧
      addDerived T base fuel [] d.derived = some r := by
  unfold mergeDynamic at h
  cases hl : look T i with
  | none => rw [hl] at h; cases h
  | some v =>
    rw [hl] at h
    cases v with
    | dynamic dm =>
      simp only at h
      cases hb : dm.type_.bind (getResolvedIdent T) with
      | none => rw [hb] at h; cases h; exact Or.inl rfl
      | some base =>
        rw [hb] at h
        simp only at h
        cases hr : addDerived T base fuel [] dm.derived with
        | none => rw [hr] at h; cases h
        | some r =>
          rw [hr] at h
          cases h
          refine Or.inr ⟨dm, base, r, ⟨hl, ?_, ?_⟩, hb, hr⟩
          · rw [look_setVariant, if_pos rfl, hl]; rfl
          · intro k hk; rw [look_setVariant, if_neg hk]
    | _ => cases h

theorem leaf_sub {T : Types} {base : Ident} {old : List (Ident × Derived)} {p : Ident × Derived}
    (h : Leaf T base old p) :
    p ∈ old ∨ ∃ q ∈ old, (∃ pa, Follow T q.2.type_ pa base) ∧ ∃ dB, look T base = some (.dynamic dB) ∧ p ∈ dB.derived := by
  induction h with
  | own a _ => exact Or.inl a
  | inner a b _ ih =>
    obtain ⟨pa, dB, hf, hl, rfl⟩ := nestedDyn_some b
    rcases ih with h | ⟨q', -, -, h⟩
    · exact Or.inr ⟨_, a, ⟨pa, hf⟩, dB, hl, h⟩
    · exact Or.inr ⟨_, a, ⟨pa, hf⟩, h⟩

/-- What holds before a merge step and after it. -/
theorem Replaced.derivedOf {fuel : Nat} {T T' : Types} {i base : Ident} {d : Meta.Dynamic} {r : List (Ident × Derived)}
    (h : Replaced T T' i d r) (hr : addDerived T base fuel [] d.derived = some r) (a k : Ident)
    (hd : DerivedOf T' a k) : Relation.TransGen (DerivedOf T) a k := by
  obtain ⟨d', key, der, p, hl, hm, hf⟩ := hd
  rw [h.follow] at hf
  by_cases ha : a = i
  · subst ha
    rw [h.new] at hl; cases hl
    rcases (addDerived_spec fuel [] _ r hr).1 _ hm with hp | hp
    · cases hp
    · rcases leaf_sub hp with hp | ⟨q, hq, ⟨pa, hfq⟩, dB, hB, hp⟩
      · exact .single ⟨d, key, der, p, h.old, hp, hf⟩
      · exact .trans (.single ⟨d, q.1, q.2, pa, h.old, hq, hfq⟩) (.single ⟨dB, key, der, p, hB, hp, hf⟩)
  · rw [h.other a ha] at hl
    exact .single ⟨d', key, der, p, hl, hm, hf⟩

theorem Replaced.acyclic {fuel : Nat} {T T' : Types} {i base : Ident} {d : Meta.Dynamic} {r : List (Ident × Derived)}
    (h : Replaced T T' i d r) (hr : addDerived T base fuel [] d.derived = some r) (ha : AcyclicDerived T) :
    AcyclicDerived T' := by
  intro a hc
  apply ha a
  have : ∀ x y, Relation.TransGen (DerivedOf T') x y → Relation.TransGen (DerivedOf T) x y := by
    intro x y hxy
    induction hxy with
    | single hs => exact h.derivedOf hr _ _ hs
    | tail _ hs ih => exact .trans ih (h.derivedOf hr _ _ hs)
  exact this a a hc

theorem Replaced.entry {fuel : Nat} {T T' : Types} {i base : Ident} {d : Meta.Dynamic} {r : List (Ident × Derived)}
    (h : Replaced T T' i d r) (hr : addDerived T base fuel [] d.derived = some r) {j : Ident} {d' : Meta.Dynamic}
    {e : Ident × Derived} (hl : look T' j = some (.dynamic d')) (hm : e ∈ d'.derived) :
    ∃ k d₀, look T k = some (.dynamic d₀) ∧ e ∈ d₀.derived := by
  by_cases hj : j = i
  · subst hj
    rw [h.new] at hl; cases hl
    rcases (addDerived_spec fuel [] _ r hr).1 _ hm with hp | hp
    · cases hp
    · rcases leaf_sub hp with hp | ⟨q, hq, -, dB, hB, hp⟩
      · exact ⟨j, d, h.old, hp⟩
      · exact ⟨base, dB, hB, hp⟩
  · rw [h.other j hj] at hl
    exact ⟨j, d', hl, hm⟩

theorem Replaced.sameUnderName {fuel : Nat} {T T' : Types} {i base : Ident} {d : Meta.Dynamic} {r : List (Ident × Derived)}
    (h : Replaced T T' i d r) (hr : addDerived T base fuel [] d.derived = some r) (hk : SameUnderName T) : SameUnderName T' := by
  intro a b d1 d2 key der der' h1 h2 m1 m2
  obtain ⟨x, dx, hx, mx⟩ := h.entry hr h1 m1
  obtain ⟨y, dy, hy, my⟩ := h.entry hr h2 m2
  exact hk x y dx dy key der der' hx hy mx my

theorem Replaced.selectable {fuel : Nat} {T T' : Types} {i base : Ident} {d : Meta.Dynamic} {r : List (Ident × Derived)}
    (h : Replaced T T' i d r) (hr : addDerived T base fuel [] d.derived = some r) (ha : AcyclicDerived T)
    (hk : SameUnderName T) (a t : Ident) : Selectable T' a t ↔ Selectable T a t := by
  have hspec := addDerived_spec fuel [] _ r hr
  have hsub : ∀ p ∈ r, Leaf T base d.derived p := by
    intro p hp
    rcases hspec.1 p hp with h | h
    · cases h
    · exact h
  constructor
  · intro hs
    induction hs with
    | @self a v hl hc =>
      by_cases hi : a = i
      · subst hi; rw [h.new] at hl; cases hl; exact absurd hc (by simp [Concrete])
      · rw [h.other a hi] at hl; exact .self hl hc
    | synonym hs _ ih => exact .synonym ((h.synonym _ _).1 hs) ih
    | @derived a d' key der t hl hm _ ih =>
      by_cases hi : a = i
      · subst hi
        rw [h.new] at hl; cases hl
        rcases leaf_sub (hsub _ hm) with hp | ⟨q, hq, ⟨pa, hf⟩, dB, hB, hp⟩
        · exact .derived h.old hp ih
        · exact .derived h.old hq ((Selectable.derived hB hp ih).of_follow hf)
      · rw [h.other a hi] at hl; exact .derived hl hm ih
    | @alternative a c g x e k t hl hc hg hx he hv _ ih =>
      have hi : a ≠ i := by rintro rfl; rw [h.new] at hl; cases hl
      have hgi : g ≠ i := by rintro rfl; rw [h.new] at hx; cases hx
      rw [h.other a hi] at hl; rw [h.other g hgi] at hx
      exact .alternative hl hc hg hx he hv ih
  · intro hs
    induction hs with
    | @self a v hl hc =>
      by_cases hi : a = i
      · subst hi; rw [h.old] at hl; cases hl; exact absurd hc (by simp [Concrete])
      · rw [← h.other a hi] at hl; exact .self hl hc
    | synonym hs _ ih => exact .synonym ((h.synonym _ _).2 hs) ih
    | @derived a d' key der t hl hm _ ih =>
      by_cases hi : a = i
      · subst hi
        rw [h.old] at hl; cases hl
        have take : ∀ key der, Leaf T base d.derived (key, der) →
            (∃ k d₀, look T k = some (.dynamic d₀) ∧ (key, der) ∈ d₀.derived) → Selectable T' der.type_ t →
            Selectable T' a t := by
          intro key der hleaf ⟨k, d₀, hk0, hm0⟩ hsel
          have := hspec.2.2 _ hleaf
          simp only [Assoc.keys, List.mem_map] at this
          obtain ⟨⟨key', der'⟩, hm', rfl⟩ := this
          obtain ⟨k1, d1, hk1, hm1⟩ := h.entry hr h.new hm'
          have hty := hk k1 k d1 d₀ _ _ _ hk1 hk0 hm1 hm0
          exact .derived h.new hm' (by rw [hty]; exact hsel)
        cases hn : nestedDyn T base der.type_ with
        | none => exact take key der (.own hm hn) ⟨a, d, h.old, hm⟩ ih
        | some inner =>
          obtain ⟨pa, dB, hf, hB, rfl⟩ := nestedDyn_some hn
          have hsB : Selectable T' base t := ih.follow ((h.follow _ _ _).2 hf)
          by_cases hbi : base = a
          · rw [← hbi]; exact hsB
          · have hB' : look T' base = some (.dynamic dB) := by rw [h.other base hbi]; exact hB
            cases hsB with
            | self hl hc => rw [hB'] at hl; cases hl; exact absurd hc (by simp [Concrete])
            | synonym hs _ => exact absurd hs (dynamic_not_synonym hB' _)
            | alternative hl _ _ _ _ _ _ => rw [hB'] at hl; cases hl
            | @derived _ _ key' der' _ hl hm' hs =>
              rw [hB'] at hl; cases hl
              apply take key' der' _ ⟨base, dB, hB, hm'⟩ hs
              refine .inner hm hn (.own hm' ?_)
              cases hn' : nestedDyn T base der'.type_ with
              | none => rfl
              | some inner' =>
                obtain ⟨pb, -, hfb, -⟩ := nestedDyn_some hn'
                exact absurd (.single ⟨dB, key', der', pb, hB, hm', hfb⟩) (ha base)
      · rw [← h.other a hi] at hl; exact .derived hl hm ih
    | @alternative a c g x e k t hl hc hg hx he hv _ ih =>
      have hi : a ≠ i := by rintro rfl; rw [h.old] at hl; cases hl
      have hgi : g ≠ i := by rintro rfl; rw [h.old] at hx; cases hx
      rw [← h.other a hi] at hl; rw [← h.other g hgi] at hx
      exact .alternative hl hc hg hx he hv ih

theorem tryEach_ok {α β : Type} {f : α → β → Res α} {I : α → Prop} (hf : ∀ a b a', I a → f a b = .ok a' → I a')
    (l : List β) (a a' : α) (ha : I a) (h : tryEach f a l = .ok a') : I a' := by
  induction l generalizing a with
  | nil => simp only [tryEach] at h; cases h; exact ha
  | cons b bs ih =>
    simp only [tryEach] at h
    cases hfb : f a b with
    | ok x => rw [hfb] at h; exact ih x (hf a b x ha hfb) h
    | err e => rw [hfb] at h; exact ih a ha h
    | panic => rw [hfb] at h; cases h
    | diverged => rw [hfb] at h; cases h

/-- C42: merging nested dynamic types keeps every concrete derived type selectable and adds none, for every type of the
table, if no dynamic type is derived from itself and a name of a derived type always stands for the same type. -/
theorem C42_merge_same_types_partial (fuel : Nat) (T T' : Types) (ha : AcyclicDerived T) (hk : SameUnderName T)
    (h : mergeDynamics fuel T = .ok T') (i t : Ident) : Selectable T' i t ↔ Selectable T i t := by
  have : (AcyclicDerived T' ∧ SameUnderName T') ∧ ∀ i t, Selectable T' i t ↔ Selectable T i t := by
    refine tryEach_ok (I := fun X => (AcyclicDerived X ∧ SameUnderName X) ∧ ∀ i t, Selectable X i t ↔ Selectable T i t)
      ?_ _ T T' ⟨⟨ha, hk⟩, fun _ _ => Iff.rfl⟩ h
    intro X i X' ⟨⟨ha, hk⟩, hs⟩ hX
    rcases mergeDynamic_ok hX with rfl | ⟨d, base, r, hrep, -, hr⟩
    · exact ⟨⟨ha, hk⟩, hs⟩
    · exact ⟨⟨hrep.acyclic hr ha, hrep.sameUnderName hr hk⟩,
        fun i t => (hrep.selectable hr ha hk i t).trans (hs i t)⟩
  exact this.2 i t

theorem mergeDynamic_ends (fuel : Nat) (T : Types) (ha : AcyclicDerived T) (i : Ident) :
    (∃ T', mergeDynamic (fuel + 2) T i = .ok T') ∨ ∃ e, mergeDynamic (fuel + 2) T i = .err e := by
  unfold mergeDynamic
  cases hl : look T i with
  | none => exact Or.inr ⟨_, rfl⟩
  | some v =>
    cases v with
    | dynamic dm =>
      simp only
      cases hb : dm.type_.bind (getResolvedIdent T) with
      | none => exact Or.inl ⟨T, rfl⟩
      | some base =>
        obtain ⟨r, hr⟩ := addDerived_ends (T := T) (base := base) fuel [] dm.derived (by
          intro q hq inner hn p hp
          obtain ⟨pa, dB, hf, hB, rfl⟩ := nestedDyn_some hn
          cases hn' : nestedDyn T base p.2.type_ with
          | none => rfl
          | some inner' =>
            obtain ⟨pb, -, hfb, -⟩ := nestedDyn_some hn'
            exact absurd (.single ⟨dB, p.1, p.2, pb, hB, hp, hfb⟩) (ha base))
        simp only [hr]
        exact Or.inl ⟨_, rfl⟩
    | _ => exact Or.inr ⟨_, rfl⟩

/-- C42: merging ends for every table in which no dynamic type is derived from itself. -/
theorem C42_merge_ends (fuel : Nat) (T : Types) (ha : AcyclicDerived T) : ∃ T', mergeDynamics (fuel + 2) T = .ok T' := by
  unfold mergeDynamics
  generalize dynamicIdents T = l
  induction l generalizing T with
  | nil => exact ⟨T, rfl⟩
  | cons i l ih =>
    simp only [tryEach]
    rcases mergeDynamic_ends fuel T ha i with ⟨T', h⟩ | ⟨e, h⟩
    · rw [h]
      apply ih
      rcases mergeDynamic_ok h with rfl | ⟨d, base, r, hrep, -, hr⟩
      · exact ha
      · exact hrep.acyclic hr ha
    · rw [h]; exact ih T ha

/-- C42: what merging one dynamic type does to its list, when the base is not derived from itself. The names listed
afterwards are the names of its own derived types other than the base, and, if the base was among them, the names of the
derived types of the base. Each name comes with an entry it had before. Nothing else in the table changes. -/
theorem C42_merge_entries (fuel : Nat) (T T' : Types) (i base : Ident) (d dB : Meta.Dynamic)
    (hi : look T i = some (.dynamic d)) (hbase : d.type_.bind (getResolvedIdent T) = some base)
    (hB : look T base = some (.dynamic dB)) (hself : ¬ DerivedOf T base base)
    (h : mergeDynamic fuel T i = .ok T') :
    (∃ r, look T' i = some (.dynamic { d with derived := r }) ∧
      (∀ key, key ∈ Assoc.keys r ↔
        (∃ der, (key, der) ∈ d.derived ∧ ∀ ty, getResolved T der.type_ ≠ some (base, ty)) ∨
        ((∃ k der ty, (k, der) ∈ d.derived ∧ getResolved T der.type_ = some (base, ty)) ∧ key ∈ Assoc.keys dB.derived)) ∧
      ∀ p ∈ r, p ∈ d.derived ∨ p ∈ dB.derived) ∧
    ∀ k, k ≠ i → look T' k = look T k := by
  have nest : ∀ t, nestedDyn T base t = none ↔ ∀ ty, getResolved T t ≠ some (base, ty) := by
    intro t
    unfold nestedDyn
    cases hr : getResolved T t with
    | none => simp
    | some r =>
      obtain ⟨k, ty⟩ := r
      by_cases hk : base = k
      · subst hk
        obtain ⟨p, -, -, hg, -⟩ := (C33_resolved_is_end_of_chain T t base ty).1 hr
        have := look_of hg rfl
        rw [hB] at this
        have hv := Option.some.inj this
        simp [← hv]
      · simp only [if_neg hk]
        exact ⟨fun _ ty' he => hk (by cases he; rfl), fun _ => trivial⟩
  have nests : ∀ t inner, nestedDyn T base t = some inner → inner = dB.derived ∧ ∃ ty, getResolved T t = some (base, ty) := by
    intro t inner hn
    obtain ⟨_, dB', -, hB', rfl⟩ := nestedDyn_some hn
    rw [hB] at hB'; cases hB'
    refine ⟨rfl, ?_⟩
    false_or_by_contra
    rename_i hc
    have := (nest t).2 (fun ty he => hc ⟨ty, he⟩)
    rw [this] at hn; cases hn
  have noself : ∀ p ∈ dB.derived, nestedDyn T base p.2.type_ = none := by
    intro p hp
    cases hn : nestedDyn T base p.2.type_ with
    | none => rfl
    | some _ =>
      obtain ⟨pb, -, hfb, -⟩ := nestedDyn_some hn
      exact absurd ⟨dB, p.1, p.2, pb, hB, hp, hfb⟩ hself
  unfold mergeDynamic at h
  rw [hi] at h
  simp only [hbase] at h
  cases hr : addDerived T base fuel [] d.derived with
  | none => rw [hr] at h; cases h
  | some r =>
    rw [hr] at h
    cases h
    have hspec := addDerived_spec fuel [] _ r hr
    have leafB : ∀ p, Leaf T base dB.derived p → p ∈ dB.derived := by
      intro p hp
      cases hp with
      | own a _ => exact a
      | inner a b _ => rw [noself _ a] at b; cases b
    refine ⟨⟨r, ?_, ?_, ?_⟩, ?_⟩
    · rw [look_setVariant, if_pos rfl, hi]; rfl
    · intro key
      constructor
      · intro hkey
        simp only [Assoc.keys, List.mem_map] at hkey
        obtain ⟨⟨key', der⟩, hm, rfl⟩ := hkey
        rcases hspec.1 _ hm with hp | hp
        · cases hp
        · cases hp with
          | own a b => exact Or.inl ⟨der, a, (nest _).1 b⟩
          | @inner _ q inner _ a b c =>
            obtain ⟨rfl, ty, hty⟩ := nests _ _ b
            refine Or.inr ⟨⟨q.1, q.2, ty, a, hty⟩, ?_⟩
            exact List.mem_map.2 ⟨_, leafB _ c, rfl⟩
      · rintro (⟨der, a, b⟩ | ⟨⟨k, der, ty, a, b⟩, c⟩)
        · exact hspec.2.2 (key, der) (.own a ((nest _).2 b))
        · simp only [Assoc.keys, List.mem_map] at c
          obtain ⟨p, hp, rfl⟩ := c
          cases hn : nestedDyn T base der.type_ with
          | none => exact absurd b ((nest _).1 hn ty)
          | some inner =>
            obtain ⟨rfl, -⟩ := nests _ _ hn
            exact hspec.2.2 p (.inner a hn (.own hp (noself p hp)))
    · intro p hp
      rcases hspec.1 _ hp with h | h
      · cases h
      · cases h with
        | own a _ => exact Or.inl a
        | inner a b c =>
          obtain ⟨rfl, -⟩ := nests _ _ b
          exact Or.inr (leafB _ c)
    · intro k hk; rw [look_setVariant, if_neg hk]

/-! ## Specification of converting -/

/-- The types a definition refers to (where `Selectable` looks at them). -/
def mentions : Variant → List Ident
  | .reference r => [r.type_]
  | .dynamic d => d.derived.map (·.2.type_)
  | .choice x => x.elements.filterMap fun e => match e.variant with | .type_ k _ => some k | _ => none
  | .complex c => c.content.toList
  | _ => []

/-- The name `c` is neither defined nor used in the table. -/
def Unused (T : Types) (c : Ident) : Prop := look T c = none ∧ ∀ k v, look T k = some v → c ∉ mentions v

/-- Derived types with the same name and namespace are the same type, whether an element or a type has that name. -/
def NoClash (d : Meta.Dynamic) : Prop :=
  ∀ p ∈ d.derived, ∀ q ∈ d.derived, p.1.toProp = q.1.toProp → p.2.type_ = q.2.type_

/-! ## Proofs: converting -/

theorem findOrInsert_cases {α : Type} (hit : α → Bool) (new : α) (upd : α → α) (es : List α) :
    (∃ a e b, es = a ++ e :: b ∧ hit e = true ∧ findOrInsert hit new upd es = a ++ upd e :: b) ∨
    ((∀ x ∈ es, hit x = false) ∧ findOrInsert hit new upd es = es ++ [upd new]) := by
  induction es with
  | nil => exact Or.inr ⟨by simp, rfl⟩
  | cons e es ih =>
    simp only [findOrInsert]
    by_cases h : hit e = true
    · rw [if_pos h]; exact Or.inl ⟨[], e, es, rfl, h, rfl⟩
    · rw [if_neg h]
      rcases ih with ⟨a, x, b, rfl, hx, hr⟩ | ⟨hn, hr⟩
      · exact Or.inl ⟨e :: a, x, b, rfl, hx, by rw [hr]; rfl⟩
      · refine Or.inr ⟨?_, by rw [hr]; rfl⟩
        intro x hx
        rcases List.mem_cons.1 hx with rfl | hx
        · simpa using h
        · exact hn x hx

theorem markElement_same (key : Ident) (der : Derived) (e : Element) :
    (markElement key der e).ident = e.ident ∧ (markElement key der e).variant = e.variant ∧
    (markElement key der e).min = e.min ∧ (markElement key der e).max = e.max ∧
    (markElement key der e).form = e.form := by
  unfold markElement
  split <;> simp

theorem markElement_flags (key : Ident) (der : Derived) (e : Element) :
    ((markElement key der e).flags.byTag = true ↔ e.flags.byTag = true ∨ key.kind = .element) ∧
    ((markElement key der e).flags.byType = true ↔ e.flags.byType = true ∨ key.kind = .type_) ∧
    ((markElement key der e).flags.defaultElement = true ↔
      e.flags.defaultElement = true ∨ (key.kind = .type_ ∧ der.relationship = .concrete)) := by
  unfold markElement
  split <;> rename_i h <;> simp_all

/-- What the alternatives made from the derived types `l` are. -/
structure AltInv (form : Form) (l : List (Ident × Derived)) (es : List Element) : Prop where
  from_ : ∀ e ∈ es, e.min = 1 ∧ e.max = .bounded 1 ∧ e.form = form ∧
    ∃ p ∈ l, e.ident = p.1.toProp ∧ e.variant = .type_ p.2.type_ .element
  to_ : ∀ p ∈ l, ∃ e ∈ es, e.ident = p.1.toProp
  nodup : (es.map (·.ident)).Nodup
  tag : ∀ e ∈ es, (e.flags.byTag = true ↔ ∃ p ∈ l, p.1.toProp = e.ident ∧ p.1.kind = .element)
  type_ : ∀ e ∈ es, (e.flags.byType = true ↔ ∃ p ∈ l, p.1.toProp = e.ident ∧ p.1.kind = .type_)
  dflt : ∀ e ∈ es, (e.flags.defaultElement = true ↔
    ∃ p ∈ l, p.1.toProp = e.ident ∧ p.1.kind = .type_ ∧ p.2.relationship = .concrete)

theorem exists_snoc {l : List (Ident × Derived)} {q : Ident × Derived} {P : Ident × Derived → Prop} :
    (∃ p ∈ l ++ [q], P p) ↔ (∃ p ∈ l, P p) ∨ P q := by
  constructor
  · rintro ⟨p, hp, h⟩
    rcases List.mem_append.1 hp with hp | hp
    · exact Or.inl ⟨p, hp, h⟩
    · simp at hp; subst hp; exact Or.inr h
  · rintro (⟨p, hp, h⟩ | h)
    · exact ⟨p, by simp [hp], h⟩
    · exact ⟨q, by simp, h⟩

theorem altInv (form : Form) (l : List (Ident × Derived)) : AltInv form l (alternatives form l) := by
  unfold alternatives
  induction l using Verif.rev_induct with
  | nil => constructor <;> simp
  | snoc l q ih =>
    rw [List.foldl_append]
    generalize List.foldl (addAlternative form) [] l = es at ih
    simp only [List.foldl_cons, List.foldl_nil, addAlternative]
    obtain ⟨mi, mv, mn, mx, mf⟩ := markElement_same q.1 q.2 (newAlternative form q.1 q.2)
    obtain ⟨ft, fy, fd⟩ := markElement_flags q.1 q.2 (newAlternative form q.1 q.2)
    rcases findOrInsert_cases (fun e : Element => e.ident == q.1.toProp) (newAlternative form q.1 q.2)
        (markElement q.1 q.2) es with ⟨a, e, b, rfl, he, hr⟩ | ⟨hn, hr⟩
    · -- an element with the name exists
      rw [hr]
      simp only [beq_iff_eq] at he
      obtain ⟨si, sv, sn, sx, sf⟩ := markElement_same q.1 q.2 e
      obtain ⟨gt, gy, gd⟩ := markElement_flags q.1 q.2 e
      have hdist : ∀ x ∈ a ++ b, x.ident ≠ q.1.toProp := by
        have := ih.nodup
        simp only [List.map_append, List.map_cons] at this
        rw [List.nodup_append] at this
        obtain ⟨h1, h2, h3⟩ := this
        rw [List.nodup_cons] at h2
        intro x hx hxe
        rcases List.mem_append.1 hx with hx | hx
        · exact h3 _ (List.mem_map.2 ⟨x, hx, rfl⟩) _ (List.mem_cons_self ..) (by rw [hxe, he])
        · exact h2.1 (List.mem_map.2 ⟨x, hx, by rw [hxe, he]⟩)
      have split : ∀ {P : Element → Prop}, (∀ x ∈ a ++ e :: b, x ∈ a ++ b → P x) → P (markElement q.1 q.2 e) →
          ∀ x ∈ a ++ markElement q.1 q.2 e :: b, P x := by
        intro P h1 h2 x hx
        rcases List.mem_append.1 hx with hx | hx
        · exact h1 x (by simp [hx]) (by simp [hx])
        · rcases List.mem_cons.1 hx with rfl | hx
          · exact h2
          · exact h1 x (by simp [hx]) (by simp [hx])
      constructor
      · apply split
        · intro x hx _
          obtain ⟨h1, h2, h3, p, hp, h4⟩ := ih.from_ x hx
          exact ⟨h1, h2, h3, p, by simp [hp], h4⟩
        · obtain ⟨h1, h2, h3, p, hp, h4, h5⟩ := ih.from_ e (by simp)
          exact ⟨by rw [sn, h1], by rw [sx, h2], by rw [sf, h3], p, by simp [hp], by rw [si, h4], by rw [sv, h5]⟩
      · intro p hp
        rcases List.mem_append.1 hp with hp | hp
        · obtain ⟨x, hx, hxe⟩ := ih.to_ p hp
          rcases List.mem_append.1 hx with hx | hx
          · exact ⟨x, by simp [hx], hxe⟩
          · rcases List.mem_cons.1 hx with rfl | hx
            · exact ⟨markElement q.1 q.2 x, by simp, by rw [si, hxe]⟩
            · exact ⟨x, by simp [hx], hxe⟩
        · simp at hp; subst hp
          exact ⟨markElement p.1 p.2 e, by simp, by rw [si, he]⟩
      · have := ih.nodup
        simp only [List.map_append, List.map_cons, si] at this ⊢
        exact this
      · apply split
        · intro x hx hx'
          rw [ih.tag x hx, exists_snoc]
          exact ⟨Or.inl, fun h => h.resolve_right (fun h => hdist x hx' h.1.symm)⟩
        · rw [gt, ih.tag e (by simp), exists_snoc, si, he]; simp
      · apply split
        · intro x hx hx'
          rw [ih.type_ x hx, exists_snoc]
          exact ⟨Or.inl, fun h => h.resolve_right (fun h => hdist x hx' h.1.symm)⟩
        · rw [gy, ih.type_ e (by simp), exists_snoc, si, he]; simp
      · apply split
        · intro x hx hx'
          rw [ih.dflt x hx, exists_snoc]
          exact ⟨Or.inl, fun h => h.resolve_right (fun h => hdist x hx' h.1.symm)⟩
        · rw [gd, ih.dflt e (by simp), exists_snoc, si, he]; simp
    · -- a new element
      rw [hr]
      have hdist : ∀ x ∈ es, x.ident ≠ q.1.toProp := fun x hx h => by have := hn x hx; simp [h] at this
      have hnone : ∀ p ∈ l, p.1.toProp ≠ q.1.toProp := by
        intro p hp h
        obtain ⟨e, he, hi⟩ := ih.to_ p hp
        exact hdist e he (hi.trans h)
      have split : ∀ {P : Element → Prop}, (∀ x ∈ es, P x) → P (markElement q.1 q.2 (newAlternative form q.1 q.2)) →
          ∀ x ∈ es ++ [markElement q.1 q.2 (newAlternative form q.1 q.2)], P x := by
        intro P h1 h2 x hx
        rcases List.mem_append.1 hx with hx | hx
        · exact h1 x hx
        · simp at hx; subst hx; exact h2
      have hid : (markElement q.1 q.2 (newAlternative form q.1 q.2)).ident = q.1.toProp := mi
      constructor
      · apply split
        · intro x hx
          obtain ⟨h1, h2, h3, p, hp, h4⟩ := ih.from_ x hx
          exact ⟨h1, h2, h3, p, by simp [hp], h4⟩
        · exact ⟨mn, mx, mf, q, by simp, mi, mv⟩
      · intro p hp
        rcases List.mem_append.1 hp with hp | hp
        · obtain ⟨x, hx, hxe⟩ := ih.to_ p hp
          exact ⟨x, by simp [hx], hxe⟩
        · simp at hp; subst hp
          exact ⟨_, by simp, mi⟩
      · rw [List.map_append, List.nodup_append]
        refine ⟨ih.nodup, by simp, ?_⟩
        intro x hx y hy
        simp only [List.map_cons, List.map_nil, List.mem_singleton] at hy
        obtain ⟨e, he, rfl⟩ := List.mem_map.1 hx
        rw [hy, hid]; exact hdist e he
      · apply split
        · intro x hx
          rw [ih.tag x hx, exists_snoc]
          exact ⟨Or.inl, fun h => h.resolve_right (fun h => hdist x hx h.1.symm)⟩
        · rw [ft, exists_snoc, hid]
          constructor
          · rintro (h | h)
            · simp [newAlternative] at h
            · exact Or.inr ⟨rfl, h⟩
          · rintro (⟨p, hp, h, -⟩ | h)
            · exact absurd h (hnone p hp)
            · exact Or.inr h.2
      · apply split
        · intro x hx
          rw [ih.type_ x hx, exists_snoc]
          exact ⟨Or.inl, fun h => h.resolve_right (fun h => hdist x hx h.1.symm)⟩
        · rw [fy, exists_snoc, hid]
          constructor
          · rintro (h | h)
            · simp [newAlternative] at h
            · exact Or.inr ⟨rfl, h⟩
          · rintro (⟨p, hp, h, -⟩ | h)
            · exact absurd h (hnone p hp)
            · exact Or.inr h.2
      · apply split
        · intro x hx
          rw [ih.dflt x hx, exists_snoc]
          exact ⟨Or.inl, fun h => h.resolve_right (fun h => hdist x hx h.1.symm)⟩
        · rw [fd, exists_snoc, hid]
          constructor
          · rintro (h | h)
            · simp [newAlternative] at h
            · exact Or.inr ⟨rfl, h⟩
          · rintro (⟨p, hp, h, -⟩ | h)
            · exact absurd h (hnone p hp)
            · exact Or.inr h.2

/-- The alternatives are selected the way the derived types were. -/
theorem alternatives_select (form : Form) (d : Meta.Dynamic) (hc : NoClash d) (h : How) (k : Ident) :
    (∃ e ∈ alternatives form d.derived, e.variant = .type_ k .element ∧ AlternativeSelectedBy e h) ↔
    ∃ key der, (key, der) ∈ d.derived ∧ SelectedBy key der h ∧ der.type_ = k := by
  have inv := altInv form d.derived
  generalize alternatives form d.derived = es at inv
  constructor
  · rintro ⟨e, he, hv, hs⟩
    obtain ⟨-, -, -, q, hq, hqi, hqv⟩ := inv.from_ e he
    rw [hv] at hqv
    have hk : q.2.type_ = k := by cases hqv; rfl
    have fin : ∀ p ∈ d.derived, p.1.toProp = e.ident → p.2.type_ = k := fun p hp hpe => by
      rw [← hk]; exact hc p hp q hq (hpe.trans hqi)
    cases h with
    | tag n =>
      obtain ⟨p, hp, hpe, hpk⟩ := (inv.tag e he).1 hs.1
      exact ⟨p.1, p.2, hp, ⟨hpk, hpe.trans hs.2⟩, fin p hp hpe⟩
    | xsiType n =>
      obtain ⟨p, hp, hpe, hpk⟩ := (inv.type_ e he).1 hs.1
      exact ⟨p.1, p.2, hp, ⟨hpk, hpe.trans hs.2⟩, fin p hp hpe⟩
    | noXsiType =>
      obtain ⟨p, hp, hpe, hpk⟩ := (inv.dflt e he).1 hs.2
      exact ⟨p.1, p.2, hp, hpk, fin p hp hpe⟩
  · rintro ⟨key, der, hm, hs, rfl⟩
    obtain ⟨e, he, hei⟩ := inv.to_ _ hm
    obtain ⟨-, -, -, q, hq, hqi, hqv⟩ := inv.from_ e he
    have : q.2.type_ = der.type_ := hc q hq _ hm (hqi.symm.trans hei)
    refine ⟨e, he, by rw [hqv, this], ?_⟩
    cases h with
    | tag n => exact ⟨(inv.tag e he).2 ⟨_, hm, hei.symm, hs.1⟩, hei.trans hs.2⟩
    | xsiType n => exact ⟨(inv.type_ e he).2 ⟨_, hm, hei.symm, hs.1⟩, hei.trans hs.2⟩
    | noXsiType =>
      exact ⟨(inv.type_ e he).2 ⟨_, hm, hei.symm, hs.1⟩, (inv.dflt e he).2 ⟨_, hm, hei.symm, hs⟩⟩

/-- The content made from alternatives. -/
def contentOf (es : List Element) : Variant := if es.isEmpty then .sequence ⟨false, es⟩ else .choice ⟨false, es⟩

/-- The complex type that replaces a dynamic type. -/
def convertedV (c : Ident) : Variant := .complex ⟨.none, some c, 1, .bounded 1, true, false, []⟩

/-- Converting one dynamic type. -/
structure Converted (T T' : Types) (i c : Ident) (d : Meta.Dynamic) (form : Form) : Prop where
  old : look T i = some (.dynamic d)
  new : look T' i = some (convertedV c)
  content : look T' c = some (contentOf (alternatives form d.derived))
  other : ∀ k, k ≠ i → k ≠ c → look T' k = look T k

theorem get_snoc {K V : Type} [DecidableEq K] (l : List (K × V)) (a k : K) (v : V) :
    Assoc.get (l ++ [(a, v)]) k = (Assoc.get l k).or (if a = k then some v else none) := by
  induction l with
  | nil => by_cases h : a = k <;> simp [Assoc.get, h]
  | cons p l ih =>
    simp only [Assoc.get, List.cons_append, List.find?_cons] at ih ⊢
    split
    · rfl
    · exact ih

theorem convertDynamic_ok {n : Name} {T : Types} {i : Ident} {ty : MetaType} {d : Meta.Dynamic}
    (hg : Assoc.get T i = some ty) (hv : ty.variant = .dynamic d) (hf : look T (contentIdent n i) = none) :
    ∃ T', convertDynamic n T i = .ok T' ∧ Converted T T' i (contentIdent n i) d (ty.form.getD .unqualified) := by
  have hl := look_of hg hv
  have hne : contentIdent n i ≠ i := by intro h; rw [h, hl] at hf; cases hf
  have hf' : Assoc.get T (contentIdent n i) = none := by simpa [look] using hf
  have hs : ∀ v, Assoc.get (setVariant T i v) (contentIdent n i) = none := by
    intro v; rw [get_setVariant, if_neg hne, hf']
  unfold convertDynamic
  rw [hg]
  simp only [hv, hs]
  refine ⟨_, rfl, hl, ?_, ?_, ?_⟩
  · simp only [look, get_snoc, get_setVariant, if_true, hg, Option.map_some, Option.some_or, convertedV]
  · simp only [look, get_snoc, hs, Option.none_or, if_true, Option.map_some, MetaType.new, contentOf]
  · intro k h1 h2
    simp only [look, get_snoc, get_setVariant, if_neg h1, if_neg (Ne.symm h2), Option.or_none]

theorem convertDynamic_err {n : Name} {T : Types} {i : Ident} (h : ∀ d, look T i ≠ some (.dynamic d)) :
    ∃ e, convertDynamic n T i = .err e := by
  unfold convertDynamic
  cases hg : Assoc.get T i with
  | none => exact ⟨_, rfl⟩
  | some ty =>
    simp only
    cases hv : ty.variant with
    | dynamic d => exact absurd (look_of hg hv) (h d)
    | _ => exact ⟨_, rfl⟩

theorem Converted.unused {T T' : Types} {i c c' : Ident} {d : Meta.Dynamic} {form : Form}
    (h : Converted T T' i c d form) (hne : c' ≠ c) (hu : Unused T c') : Unused T' c' := by
  have hi : c' ≠ i := by rintro rfl; have := hu.1; rw [h.old] at this; cases this
  refine ⟨by rw [h.other c' hi hne]; exact hu.1, ?_⟩
  intro k v hk hm
  by_cases hkc : k = c
  · subst hkc
    rw [h.content] at hk; cases hk
    have hsub : c' ∈ mentions (.dynamic d) := by
      unfold contentOf at hm
      split at hm
      · cases hm
      · simp only [mentions, List.mem_filterMap] at hm
        obtain ⟨e, he, hv⟩ := hm
        obtain ⟨-, -, -, p, hp, -, hpv⟩ := (altInv form d.derived).from_ e he
        rw [hpv] at hv
        cases hv
        exact List.mem_map.2 ⟨p, hp, rfl⟩
    exact hu.2 i _ h.old hsub
  · by_cases hki : k = i
    · subst hki
      rw [h.new] at hk; cases hk
      simp [mentions, convertedV] at hm
      exact hne hm
    · rw [h.other k hki hkc] at hk
      exact hu.2 k v hk hm

theorem Selectable.defined {T : Types} {i t : Ident} (h : Selectable T i t) : look T i ≠ none := by
  cases h with
  | self h _ => rw [h]; simp
  | synonym h _ => obtain ⟨v, hv, -⟩ := synonym_look.1 h; rw [hv]; simp
  | derived h _ _ => rw [h]; simp
  | alternative h _ _ _ _ _ _ => rw [h]; simp

theorem Converted.selectable {T T' : Types} {i c : Ident} {d : Meta.Dynamic} {form : Form}
    (h : Converted T T' i c d form) (hu : Unused T c) (hc : NoClash d) (a t : Ident) (ha : a ≠ c) :
    Selectable T' a t ↔ Selectable T a t := by
  have hic : i ≠ c := by rintro rfl; have := hu.1; rw [h.old] at this; cases this
  constructor
  · intro hs
    induction hs with
    | @self a v hl hv =>
      by_cases hi : a = i
      · subst hi; rw [h.new] at hl; cases hl; simp [Concrete, convertedV] at hv
      · rw [h.other a hi ha] at hl; exact .self hl hv
    | @synonym a k t hs _ ih =>
      by_cases hi : a = i
      · subst hi
        obtain ⟨v, hv, ht⟩ := synonym_look.1 hs
        rw [h.new] at hv; cases hv; cases ht
      · have hs' := (synonym_congr (h.other a hi ha) k).1 hs
        refine .synonym hs' (ih ?_)
        rintro rfl
        obtain ⟨v, hv, ht⟩ := synonym_look.1 hs'
        obtain ⟨r, rfl, hr, -⟩ := (target_eq_some _ _).1 ht
        exact hu.2 a _ hv (by simp [mentions, hr])
    | @derived a d' key der t hl hm _ ih =>
      have hi : a ≠ i := by rintro rfl; rw [h.new] at hl; cases hl
      rw [h.other a hi ha] at hl
      refine .derived hl hm (ih ?_)
      intro he
      exact hu.2 a _ hl (List.mem_map.2 ⟨_, hm, he⟩)
    | @alternative a x g grp e k t hl hx hg hgrp he hv _ ih =>
      by_cases hi : a = i
      · subst hi
        rw [h.new] at hl; cases hl
        cases hg
        rw [h.content] at hgrp
        unfold contentOf at hgrp
        split at hgrp
        · cases hgrp
        · cases hgrp
          obtain ⟨-, -, -, p, hp, -, hpv⟩ := (altInv form d.derived).from_ e he
          rw [hv] at hpv
          cases hpv
          refine .derived h.old (key := p.1) (der := p.2) hp (ih ?_)
          intro hk
          exact hu.2 a _ h.old (List.mem_map.2 ⟨p, hp, hk⟩)
      · rw [h.other a hi ha] at hl
        have hgc : g ≠ c := by rintro rfl; exact hu.2 a _ hl (by simp [mentions, hg])
        have hgi : g ≠ i := by rintro rfl; rw [h.new] at hgrp; cases hgrp
        rw [h.other g hgi hgc] at hgrp
        refine .alternative hl hx hg hgrp he hv (ih ?_)
        rintro rfl
        refine hu.2 g _ hgrp ?_
        simp only [mentions, List.mem_filterMap]
        exact ⟨e, he, by rw [hv]⟩
  · intro hs
    clear ha
    induction hs with
    | @self a v hl hv =>
      have hi : a ≠ i := by rintro rfl; rw [h.old] at hl; cases hl; simp [Concrete] at hv
      have hac : a ≠ c := by rintro rfl; rw [hu.1] at hl; cases hl
      rw [← h.other a hi hac] at hl; exact .self hl hv
    | @synonym a k t hs _ ih =>
      have hi : a ≠ i := by rintro rfl; exact dynamic_not_synonym h.old k hs
      have hac : a ≠ c := by
        rintro rfl
        obtain ⟨v, hv, -⟩ := synonym_look.1 hs
        rw [hu.1] at hv; cases hv
      exact .synonym ((synonym_congr (h.other a hi hac) k).2 hs) ih
    | @derived a d' key der t hl hm _ ih =>
      have hac : a ≠ c := by rintro rfl; rw [hu.1] at hl; cases hl
      by_cases hi : a = i
      · subst hi
        rw [h.old] at hl; cases hl
        obtain ⟨e, he, hei⟩ := (altInv form d.derived).to_ _ hm
        obtain ⟨-, -, -, q, hq, hqi, hqv⟩ := (altInv form d.derived).from_ e he
        have hty : q.2.type_ = der.type_ := hc q hq _ hm (hqi.symm.trans hei)
        have hcont := h.content
        unfold contentOf at hcont
        rw [if_neg (by intro hemp; rw [List.isEmpty_iff] at hemp; rw [hemp] at he; cases he)] at hcont
        exact .alternative h.new rfl rfl hcont he hqv (by rw [hty]; exact ih)
      · rw [← h.other a hi hac] at hl; exact .derived hl hm ih
    | @alternative a x g grp e k t hl hx hg hgrp he hv _ ih =>
      have hac : a ≠ c := by rintro rfl; rw [hu.1] at hl; cases hl
      have hgc : g ≠ c := by rintro rfl; rw [hu.1] at hgrp; cases hgrp
      have hi : a ≠ i := by rintro rfl; rw [h.old] at hl; cases hl
      have hgi : g ≠ i := by rintro rfl; rw [h.old] at hgrp; cases hgrp
      rw [← h.other a hi hac] at hl; rw [← h.other g hgi hgc] at hgrp
      exact .alternative hl hx hg hgrp he hv ih

theorem Converted.selectable_iff_defined {T T' : Types} {i c : Ident} {d : Meta.Dynamic} {form : Form}
    (h : Converted T T' i c d form) (hu : Unused T c) (hc : NoClash d) (a t : Ident) (ha : look T a ≠ none) :
    Selectable T' a t ↔ Selectable T a t :=
  h.selectable hu hc a t (by rintro rfl; exact ha hu.1)

theorem convertEach_spec (names : Nat → Name) (hinj : ∀ a b, names a = names b → a = b) (l : List Ident) (k : Nat)
    (T : Types) (hu : ∀ n, k ≤ n → ∀ j, Unused T (contentIdent (names n) j)) :
    ∃ T', convertEach names k T l = .ok T' ∧
      (∀ i v, look T i = some v → (i ∉ l ∨ ∀ d, v ≠ .dynamic d) → look T' i = some v) ∧
      (∀ i ∈ l, ∀ ty d, Assoc.get T i = some ty → ty.variant = .dynamic d → ∃ c, Defined T c = False ∧
        look T' i = some (convertedV c) ∧
        look T' c = some (contentOf (alternatives (ty.form.getD .unqualified) d.derived))) ∧
      ((∀ i d, look T i = some (.dynamic d) → NoClash d) →
        ∀ a t, look T a ≠ none → (Selectable T' a t ↔ Selectable T a t)) := by
  induction l generalizing k T with
  | nil => exact ⟨T, rfl, fun i v h _ => h, fun i hi => absurd hi (by simp), fun _ a t _ => Iff.rfl⟩
  | cons i l ih =>
    simp only [convertEach]
    by_cases hd : ∃ d, look T i = some (.dynamic d)
    · obtain ⟨d, hd⟩ := hd
      obtain ⟨ty, hg, hv⟩ := look_iff.1 hd
      have huk := hu k (Nat.le_refl k) i
      obtain ⟨X, hX, hC⟩ := convertDynamic_ok (n := names k) hg hv huk.1
      have hic : i ≠ contentIdent (names k) i := by
        intro h; have := huk.1; rw [← h, hd] at this; cases this
      obtain ⟨T', hT', hkeep, hconv, hsel⟩ := ih (k + 1) X (by
        intro n hn j
        refine hC.unused ?_ (hu n (by omega) j)
        intro h
        have : names n = names k := by
          have := congrArg Ident.name h
          exact this
        have := hinj _ _ this
        omega)
      refine ⟨T', by rw [hX]; exact hT', ?_, ?_, ?_⟩
      · intro j v hj hcond
        have hjc : j ≠ contentIdent (names k) i := by rintro rfl; rw [huk.1] at hj; cases hj
        by_cases hji : j = i
        · subst hji
          rcases hcond with h | h
          · simp at h
          · rw [hd] at hj; cases hj; exact absurd rfl (h d)
        · refine hkeep j v (by rw [hC.other j hji hjc]; exact hj) ?_
          rcases hcond with h | h
          · exact Or.inl (fun hm => h (List.mem_cons_of_mem _ hm))
          · exact Or.inr h
      · intro j hj ty' d' hg' hv'
        by_cases hji : j = i
        · subst hji
          rw [hg] at hg'; cases hg'
          rw [hv] at hv'; cases hv'
          refine ⟨contentIdent (names k) j, ?_, ?_, ?_⟩
          · have := huk.1
            simp only [look, Option.map_eq_none_iff] at this
            simp [Defined, this]
          · exact hkeep j _ hC.new (Or.inr (by intro d; simp [convertedV]))
          · refine hkeep _ _ hC.content (Or.inr ?_)
            intro d'
            unfold contentOf
            split <;> simp
        · have hjl : j ∈ l := by
            rcases List.mem_cons.1 hj with h | h
            · exact absurd h hji
            · exact h
          have hjc : j ≠ contentIdent (names k) i := by
            rintro rfl; have := huk.1; rw [look_of hg' hv'] at this; cases this
          -- the entry of `j` in the new table is the old one
          have hgX : Assoc.get X j = some ty' := by
            have hs : Assoc.get X j = Assoc.get T j := by
              have hX' := hX
              unfold convertDynamic at hX'
              rw [hg] at hX'
              simp only [hv] at hX'
              split at hX'
              · cases hX'
              · cases hX'
                rw [get_snoc, get_setVariant, if_neg hji, if_neg (Ne.symm hjc), Option.or_none]
            rw [hs]; exact hg'
          obtain ⟨c, h1, h2, h3⟩ := hconv j hjl ty' d' hgX hv'
          refine ⟨c, ?_, h2, h3⟩
          have hX1 : ¬ Defined X c := by rw [h1]; simp
          simp only [eq_iff_iff, iff_false]
          rintro ⟨tc, hc⟩
          apply hX1
          by_cases hci : c = i
          · subst hci
            obtain ⟨t', ht', -⟩ := look_iff.1 hC.new
            exact ⟨t', ht'⟩
          · have hcc : c ≠ contentIdent (names k) i := by
              rintro rfl
              have := huk.1
              simp [look, hc] at this
            have := hC.other c hci hcc
            rw [look_of hc rfl] at this
            obtain ⟨t', ht', -⟩ := look_iff.1 this
            exact ⟨t', ht'⟩
      · intro hcl a t ha
        have hac : a ≠ contentIdent (names k) i := by rintro rfl; exact ha huk.1
        have haX : look X a ≠ none := by
          by_cases hai : a = i
          · subst hai; rw [hC.new]; simp
          · rw [hC.other a hai hac]; exact ha
        refine (hsel ?_ a t haX).trans (hC.selectable huk (hcl i d hd) a t hac)
        intro j d' hj
        by_cases hji : j = i
        · subst hji; rw [hC.new] at hj; cases hj
        · by_cases hjc : j = contentIdent (names k) i
          · subst hjc
            rw [hC.content] at hj
            unfold contentOf at hj
            split at hj <;> cases hj
          · rw [hC.other j hji hjc] at hj
            exact hcl j d' hj
    · obtain ⟨e, he⟩ := convertDynamic_err (n := names k) (T := T) (i := i) (fun d h => hd ⟨d, h⟩)
      rw [he]
      obtain ⟨T', hT', hkeep, hconv, hsel⟩ := ih k T hu
      refine ⟨T', hT', ?_, ?_, hsel⟩
      · intro j v hj hcond
        refine hkeep j v hj ?_
        rcases hcond with h | h
        · exact Or.inl (fun hm => h (List.mem_cons_of_mem _ hm))
        · exact Or.inr h
      · intro j hj ty d hg hv
        rcases List.mem_cons.1 hj with rfl | hj
        · exact absurd ⟨d, look_of hg hv⟩ hd
        · exact hconv j hj ty d hg hv

/-- The names made by the name builder differ and are not used in the table. -/
def FreshNames (names : Nat → Name) (T : Types) : Prop :=
  (∀ a b, names a = names b → a = b) ∧ ∀ n j, Unused T (contentIdent (names n) j)

theorem mem_dynamicIdents {T : Types} {i : Ident} {d : Meta.Dynamic} (h : look T i = some (.dynamic d)) :
    i ∈ dynamicIdents T := by
  obtain ⟨ty, hg, hv⟩ := look_iff.1 h
  refine List.mem_map.2 ⟨(i, ty), List.mem_filter.2 ⟨Assoc.mem_of_get hg, ?_⟩, rfl⟩
  simp [hv, isDynamicV]

/-- C42: converting never meets the `unreachable!` when the generated names are fresh, and leaves no dynamic type of the
table behind. -/
theorem C42_convert_ends (names : Nat → Name) (T : Types) (hn : FreshNames names T) :
    ∃ T', convertDynamics names T = .ok T' ∧ ∀ i, Defined T i → ∀ d, look T' i ≠ some (.dynamic d) := by
  obtain ⟨T', h, hk, hc, -⟩ := convertEach_spec names hn.1 (dynamicIdents T) 0 T (fun n _ j => hn.2 n j)
  refine ⟨T', h, ?_⟩
  rintro i ⟨ty, hi⟩ d hd
  by_cases hdy : ∃ d', ty.variant = .dynamic d'
  · obtain ⟨d', hd'⟩ := hdy
    obtain ⟨c, -, h2, -⟩ := hc i (mem_dynamicIdents (look_of hi hd')) ty d' hi hd'
    rw [h2] at hd; cases hd
  · have := hk i _ (look_of hi rfl) (Or.inr (fun d' h => hdy ⟨d', h⟩))
    rw [this] at hd
    exact hdy ⟨d, Option.some.inj hd⟩

/-- C42: converting changes only the dynamic types. -/
theorem C42_convert_keeps_others (names : Nat → Name) (T T' : Types) (hn : FreshNames names T)
    (h : convertDynamics names T = .ok T') (i : Ident) (v : Variant) (hi : look T i = some v)
    (hv : ∀ d, v ≠ .dynamic d) : look T' i = some v := by
  obtain ⟨T'', h', hk, -, -⟩ := convertEach_spec names hn.1 (dynamicIdents T) 0 T (fun n _ j => hn.2 n j)
  unfold convertDynamics at h
  rw [h] at h'; cases h'
  exact hk i v hi (Or.inr hv)

/-- C42: a dynamic type becomes a complex type whose content is a new type, a choice (a sequence if nothing is derived)
with one required alternative for each name of a derived type. If an element and a type of the same name never stand for
different types, a document selects a type from the choice in exactly the ways in which it selected it from the dynamic
type: by the tag, by `xsi:type`, or by its absence. -/
theorem C42_convert_same_selection_partial (names : Nat → Name) (T T' : Types) (hn : FreshNames names T)
    (h : convertDynamics names T = .ok T') (i : Ident) (d : Meta.Dynamic) (hi : look T i = some (.dynamic d))
    (hc : NoClash d) :
    ∃ c C es, ¬ Defined T c ∧ look T' i = some (.complex C) ∧ C.content = some c ∧ C.isDynamic = true ∧
      look T' c = some (if es = [] then .sequence ⟨false, es⟩ else .choice ⟨false, es⟩) ∧
      (∀ e ∈ es, e.min = 1 ∧ e.max = .bounded 1) ∧ (es.map (·.ident)).Nodup ∧
      ∀ how k, (∃ e ∈ es, e.variant = .type_ k .element ∧ AlternativeSelectedBy e how) ↔
        ∃ key der, (key, der) ∈ d.derived ∧ SelectedBy key der how ∧ der.type_ = k := by
  obtain ⟨T'', h', -, hcv, -⟩ := convertEach_spec names hn.1 (dynamicIdents T) 0 T (fun n _ j => hn.2 n j)
  unfold convertDynamics at h
  rw [h] at h'; cases h'
  obtain ⟨ty, hg, hv⟩ := look_iff.1 hi
  obtain ⟨c, h1, h2, h3⟩ := hcv i (mem_dynamicIdents hi) ty d hg hv
  have inv := altInv (ty.form.getD .unqualified) d.derived
  refine ⟨c, _, alternatives (ty.form.getD .unqualified) d.derived, by rw [h1]; simp, h2, rfl, rfl, ?_,
    fun e he => ⟨(inv.from_ e he).1, (inv.from_ e he).2.1⟩, inv.nodup, alternatives_select _ d hc⟩
  rw [h3]
  unfold contentOf
  simp only [List.isEmpty_iff]

/-- C42: converting keeps every concrete derived type selectable and adds none. -/
theorem C42_convert_same_types_partial (names : Nat → Name) (T T' : Types) (hn : FreshNames names T)
    (h : convertDynamics names T = .ok T') (hc : ∀ i d, look T i = some (.dynamic d) → NoClash d) (i t : Ident)
    (hi : Defined T i) : Selectable T' i t ↔ Selectable T i t := by
  obtain ⟨T'', h', -, -, hs⟩ := convertEach_spec names hn.1 (dynamicIdents T) 0 T (fun n _ j => hn.2 n j)
  unfold convertDynamics at h
  rw [h] at h'; cases h'
  obtain ⟨ty, hi⟩ := hi
  exact hs hc i t (by rw [look_of hi rfl]; simp)

/-! ## Examples -/

def derivedList : Variant → List (Ident × Derived)
  | .dynamic d => d.derived
  | _ => []

theorem mem_of_look {T : Types} {i : Ident} {v : Variant} (h : look T i = some v) : ∃ p ∈ T, p.1 = i ∧ p.2.variant = v := by
  obtain ⟨ty, hg, hv⟩ := look_iff.1 h
  exact ⟨(i, ty), Assoc.mem_of_get hg, rfl, hv⟩

/-- A table without synonyms in which a number decreases from each dynamic type to its derived types. -/
theorem acyclicDerived_of_rank {T : Types} (rank : Ident → Nat) (hs : ∀ p ∈ T, p.2.variant.target = none)
    (hr : ∀ p ∈ T, ∀ q ∈ derivedList p.2.variant, rank q.2.type_ < rank p.1) : AcyclicDerived T := by
  have hd : ∀ i k, DerivedOf T i k → rank k < rank i := by
    rintro i k ⟨d, key, der, p, hl, hm, hf⟩
    obtain ⟨e, he, rfl, hv⟩ := mem_of_look hl
    have := hr e he (key, der) (by rw [hv]; exact hm)
    cases hf with
    | here _ => exact this
    | step h _ =>
      obtain ⟨v, hv, ht⟩ := synonym_look.1 h
      obtain ⟨e', he', -, rfl⟩ := mem_of_look hv
      rw [hs e' he'] at ht; cases ht
  have ht : ∀ i k, Relation.TransGen (DerivedOf T) i k → rank k < rank i := by
    intro i k h
    induction h with
    | single h => exact hd _ _ h
    | tail _ h ih => exact Nat.lt_trans (hd _ _ h) ih
  intro i h
  exact Nat.lt_irrefl _ (ht i i h)

theorem sameUnderName_of {T : Types}
    (h : ∀ p ∈ T, ∀ q ∈ T, ∀ a ∈ derivedList p.2.variant, ∀ b ∈ derivedList q.2.variant, a.1 = b.1 →
      a.2.type_ = b.2.type_) : SameUnderName T := by
  intro i j d d' key der der' h1 h2 m1 m2
  obtain ⟨p, hp, rfl, hpv⟩ := mem_of_look h1
  obtain ⟨q, hq, rfl, hqv⟩ := mem_of_look h2
  exact h p hp q hq (key, der) (by rw [hpv]; exact m1) (key, der') (by rw [hqv]; exact m2) rfl

def elId (name : String) : Ident := ⟨0, 0, .named name.toList, .element⟩

def exEmptyComplex : Variant := .complex ⟨.none, none, 1, .bounded 1, false, false, []⟩

/-- The element `E` has the abstract type `B`; `C` and `D` are derived from `B`; the element `X` of type `C` may replace
`E`. -/
def exDyn : Types :=
  [(elId "E", .new (.dynamic ⟨some (exId "B"), false,
      [(elId "E", ⟨exId "B", none, .directChild⟩), (elId "X", ⟨exId "C", none, .directChild⟩)]⟩)),
   (exId "B", .new (.dynamic ⟨none, true,
      [(exId "C", ⟨exId "C", none, .directChild⟩), (exId "D", ⟨exId "D", none, .indirectChild⟩)]⟩)),
   (exId "C", .new exEmptyComplex), (exId "D", .new exEmptyComplex)]

def exDynMerged : Types :=
  [(elId "E", .new (.dynamic ⟨some (exId "B"), false,
      [(exId "C", ⟨exId "C", none, .directChild⟩), (exId "D", ⟨exId "D", none, .indirectChild⟩),
       (elId "X", ⟨exId "C", none, .directChild⟩)]⟩)),
   (exId "B", .new (.dynamic ⟨none, true,
      [(exId "C", ⟨exId "C", none, .directChild⟩), (exId "D", ⟨exId "D", none, .indirectChild⟩)]⟩)),
   (exId "C", .new exEmptyComplex), (exId "D", .new exEmptyComplex)]

/-- The hypotheses of `C42_merge_same_types_partial` and `C42_merge_ends` hold for `exDyn`, and the types derived from the
abstract type move up to the element. -/
example : AcyclicDerived exDyn ∧ SameUnderName exDyn ∧ mergeDynamics 2 exDyn = .ok exDynMerged ∧
    Selectable exDyn (elId "E") (exId "D") := by
  refine ⟨acyclicDerived_of_rank (fun i => if i = elId "E" then 2 else if i = exId "B" then 1 else 0)
    (by decide +kernel) (by decide +kernel), sameUnderName_of (by decide +kernel), by decide +kernel, ?_⟩
  refine .derived (key := elId "E") (der := ⟨exId "B", none, .directChild⟩) (d := ⟨some (exId "B"), false,
      [(elId "E", ⟨exId "B", none, .directChild⟩), (elId "X", ⟨exId "C", none, .directChild⟩)]⟩)
      (by decide +kernel) (by decide +kernel) ?_
  refine .derived (key := exId "D") (der := ⟨exId "D", none, .indirectChild⟩) (d := ⟨none, true,
      [(exId "C", ⟨exId "C", none, .directChild⟩), (exId "D", ⟨exId "D", none, .indirectChild⟩)]⟩)
      (by decide +kernel) (by decide +kernel) ?_
  exact .self (v := exEmptyComplex) (by decide +kernel) rfl

/-- The hypotheses of `C42_merge_entries` hold for the element `E` of `exDyn`. -/
example : ∃ d dB, look exDyn (elId "E") = some (.dynamic d) ∧
    d.type_.bind (getResolvedIdent exDyn) = some (exId "B") ∧ look exDyn (exId "B") = some (.dynamic dB) ∧
    ¬ DerivedOf exDyn (exId "B") (exId "B") ∧ mergeDynamic 2 exDyn (elId "E") = .ok exDynMerged := by
  refine ⟨⟨some (exId "B"), false,
      [(elId "E", ⟨exId "B", none, .directChild⟩), (elId "X", ⟨exId "C", none, .directChild⟩)]⟩, ⟨none, true,
      [(exId "C", ⟨exId "C", none, .directChild⟩), (exId "D", ⟨exId "D", none, .indirectChild⟩)]⟩,
      by decide +kernel, by decide +kernel, by decide +kernel, ?_, by decide +kernel⟩
  intro h
  exact acyclicDerived_of_rank (T := exDyn) (fun i => if i = elId "E" then 2 else if i = exId "B" then 1 else 0)
    (by decide +kernel) (by decide +kernel) _ (.single h)

/-- Names `Content0`, `Content1`, … (as long texts of one letter, to keep the proof that they differ short). -/
def exNames (n : Nat) : Name := .generated (List.replicate n 'c')

theorem unused_of {T : Types} {c : Ident} (h : ∀ p ∈ T, p.1 ≠ c ∧ c ∉ mentions p.2.variant) : Unused T c := by
  constructor
  · cases hl : look T c with
    | none => rfl
    | some v => obtain ⟨p, hp, hpc, -⟩ := mem_of_look hl; exact absurd hpc (h p hp).1
  · intro k v hk hm
    obtain ⟨p, hp, -, rfl⟩ := mem_of_look hk
    exact (h p hp).2 hm

theorem fresh_of {T : Types}
    (h : ∀ p ∈ T, (∃ s, p.1.name = .named s) ∧ ∀ c ∈ mentions p.2.variant, ∃ s, c.name = .named s) :
    FreshNames exNames T := by
  refine ⟨fun a b hab => ?_, fun n j => unused_of fun p hp => ⟨?_, ?_⟩⟩
  · have := Name.generated.inj hab
    have := congrArg List.length this
    simpa using this
  · intro he
    obtain ⟨s, hs⟩ := (h p hp).1
    rw [he] at hs; cases hs
  · intro hm
    obtain ⟨s, hs⟩ := (h p hp).2 _ hm
    cases hs

/-- The hypotheses of the theorems about converting hold for the merged `exDyn`. -/
example : FreshNames exNames exDynMerged ∧ (∀ i d, look exDynMerged i = some (.dynamic d) → NoClash d) := by
  constructor
  · apply fresh_of
    intro p hp
    simp only [exDynMerged, List.mem_cons, List.not_mem_nil, or_false] at hp
    rcases hp with rfl | rfl | rfl | rfl <;> refine ⟨⟨_, rfl⟩, ?_⟩ <;> intro c hc <;>
      simp [mentions, MetaType.new, exEmptyComplex] at hc
    · rcases hc with rfl | rfl | rfl <;> exact ⟨_, rfl⟩
    · rcases hc with rfl | rfl <;> exact ⟨_, rfl⟩
  · intro i d hi
    have key : ∀ p ∈ exDynMerged, ∀ a ∈ derivedList p.2.variant, ∀ b ∈ derivedList p.2.variant,
        a.1.toProp = b.1.toProp → a.2.type_ = b.2.type_ := by decide +kernel
    obtain ⟨p, hp, -, hv⟩ := mem_of_look hi
    intro a ha b hb
    exact key p hp a (by rw [hv]; exact ha) b (by rw [hv]; exact hb)

/-! ## Negations -/

/-- The element `E` may be given the type `x` by `xsi:type`, and may be replaced by the element `x` of type `y`. -/
def exClash : Types :=
  [(elId "E", .new (.dynamic ⟨some (exId "B"), true,
      [(exId "x", ⟨exId "x", none, .directChild⟩), (elId "x", ⟨exId "y", none, .directChild⟩)]⟩)),
   (exId "x", .new exEmptyComplex), (exId "y", .new exEmptyComplex)]

def exClashConverted : Types :=
  [(elId "E", .new (convertedV (contentIdent (exNames 0) (elId "E")))),
   (exId "x", .new exEmptyComplex), (exId "y", .new exEmptyComplex),
   (contentIdent (exNames 0) (elId "E"), .new (.choice ⟨false,
      [⟨(exId "x").toProp, .type_ (exId "x") .element, .unqualified, ⟨false, false, true, true, false⟩, 1, .bounded 1, none, []⟩]⟩))]

/-- C42 (negation): if an element and a type have the same name, converting keeps only the first of the two: the element
`x` of type `y` is afterwards read as an element of type `x`, and the type `y` cannot be selected any more. -/
theorem C42_same_name_lost : ∃ (names : Nat → Name) (T T' : Types) (i y : Ident), FreshNames names T ∧
    convertDynamics names T = .ok T' ∧ Selectable T i y ∧ ¬ Selectable T' i y := by
  refine ⟨exNames, exClash, exClashConverted, elId "E", exId "y", ?_, by decide +kernel, ?_, ?_⟩
  · apply fresh_of
    intro p hp
    simp only [exClash, List.mem_cons, List.not_mem_nil, or_false] at hp
    rcases hp with rfl | rfl | rfl <;> refine ⟨⟨_, rfl⟩, ?_⟩ <;> intro c hc <;>
      simp [mentions, MetaType.new, exEmptyComplex] at hc
    rcases hc with rfl | rfl <;> exact ⟨_, rfl⟩
  · refine .derived (key := elId "x") (der := ⟨exId "y", none, .directChild⟩) (d := ⟨some (exId "B"), true,
      [(exId "x", ⟨exId "x", none, .directChild⟩), (elId "x", ⟨exId "y", none, .directChild⟩)]⟩)
      (by decide +kernel) (by decide +kernel) ?_
    exact .self (v := exEmptyComplex) (by decide +kernel) rfl
  · have hE : look exClashConverted (elId "E") = some (convertedV (contentIdent (exNames 0) (elId "E"))) := by
      decide +kernel
    have hx : look exClashConverted (exId "x") = some exEmptyComplex := by decide +kernel
    have hC : look exClashConverted (contentIdent (exNames 0) (elId "E")) = some (.choice ⟨false,
      [⟨(exId "x").toProp, .type_ (exId "x") .element, .unqualified, ⟨false, false, true, true, false⟩, 1, .bounded 1, none, []⟩]⟩) := by
      decide +kernel
    have hxy : ¬ Selectable exClashConverted (exId "x") (exId "y") := by
      intro h
      generalize ha : exId "x" = a at h
      generalize hb : exId "y" = b at h
      cases h with
      | self _ _ => rw [← ha] at hb; exact absurd hb (by decide +kernel)
      | synonym h _ =>
        obtain ⟨v, hv, ht⟩ := synonym_look.1 h
        rw [← ha, hx] at hv; cases hv; cases ht
      | derived h _ _ => rw [← ha, hx] at h; cases h
      | alternative h h' _ _ _ _ _ => rw [← ha, hx] at h; cases h; cases h'
    intro h
    generalize ha : elId "E" = a at h
    generalize hb : exId "y" = b at h
    cases h with
    | self _ _ => rw [← ha] at hb; exact absurd hb (by decide +kernel)
    | synonym h _ =>
      obtain ⟨v, hv, ht⟩ := synonym_look.1 h
      rw [← ha, hE] at hv; cases hv; cases ht
    | derived h _ _ => rw [← ha, hE] at h; cases h
    | alternative h _ hg hc he hv hs =>
      rw [← ha, hE] at h; cases h; cases hg
      rw [hC] at hc; cases hc
      simp only [List.mem_singleton] at he
      subst he
      cases hv
      rw [← hb] at hs
      exact hxy hs

/-- The element `E` of the type `B`, which is listed among its own derived types. -/
def exSelfDerived : Types :=
  [(elId "E", .new (.dynamic ⟨some (exId "B"), false, [(elId "E", ⟨exId "B", none, .directChild⟩)]⟩)),
   (exId "B", .new (.dynamic ⟨none, true, [(exId "B", ⟨exId "B", none, .concrete⟩)]⟩))]

/-- C42 (negation): with a dynamic type that is listed among its own derived types, merging recurses for ever. -/
theorem C42_self_derived_diverges (fuel : Nat) : mergeDynamics fuel exSelfDerived = .diverged := by
  have hn : nestedDyn exSelfDerived (exId "B") (exId "B") = some [(exId "B", ⟨exId "B", none, .concrete⟩)] := by
    decide +kernel
  have hB : ∀ fuel new, addDerived exSelfDerived (exId "B") fuel new [(exId "B", ⟨exId "B", none, .concrete⟩)] = none := by
    intro fuel
    induction fuel with
    | zero => intro new; rfl
    | succ fuel ih => intro new; simp only [addDerived, List.foldlM_cons, hn, ih]; rfl
  have hE : addDerived exSelfDerived (exId "B") fuel [] [(elId "E", ⟨exId "B", none, .directChild⟩)] = none := by
    cases fuel with
    | zero => rfl
    | succ fuel => simp only [addDerived, List.foldlM_cons, hn, hB]; rfl
  have hl : look exSelfDerived (elId "E") =
      some (.dynamic ⟨some (exId "B"), false, [(elId "E", ⟨exId "B", none, .directChild⟩)]⟩) := by decide +kernel
  have hb : (some (exId "B")).bind (getResolvedIdent exSelfDerived) = some (exId "B") := by decide +kernel
  have hm : mergeDynamic fuel exSelfDerived (elId "E") = .diverged := by
    unfold mergeDynamic
    rw [hl]
    simp only [hb, hE]
  have hi : dynamicIdents exSelfDerived = [elId "E", exId "B"] := by decide +kernel
  unfold mergeDynamics
  rw [hi]
  simp only [tryEach, hm]

end Verif.Opt

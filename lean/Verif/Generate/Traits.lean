import Verif.Generate.Boxing

/-!
# The traits of dynamic types (C65)

A dynamic type is generated as `pub struct B(pub Box<dyn BTrait>)`
(xsd-parser/src/pipeline/renderer/steps/types.rs 113-128), and its deserializer wraps every value of a
derived type in it, `super::B(Box::new(x))` (renderer/steps/quick_xml/deserialize.rs 452-466). That
compiles only if the type of the value has an `impl BTrait for …`. Which types get one is decided by the
generator: `TraitInfos` (generator/state.rs 65-106) collects the derived types of a dynamic type when the
type is requested for the first time, `make_trait_impls` (generator/context.rs) reads it when the data of
a type is created. Both are part of the model in `Verif.Generate.Worklist`.
-/

namespace Verif.Generate

open Verif.Meta Verif.Occurs Verif.Opt

/-! ## Specification -/

/-- `x` is the type of the values of one of the derived types of the dynamic type `b`. -/
def HoldsValue (T : Types) (b x : Ident) : Prop :=
  ∃ ty d k m, Assoc.get T b = some ty ∧ ty.variant = .dynamic d ∧ (k, m) ∈ d.derived ∧ m.type_ = x

/-- The generated code of `x` has an `impl bTrait for x`. -/
def Implements (s : State) (x b : Ident) : Prop := ∃ ms, (x, ms) ∈ s.items ∧ ⟨b, false, .impl⟩ ∈ ms

/-- The trait of `a` requires the trait of `b`. -/
def Requires (s : State) (a b : Ident) : Prop := ∃ ms, (a, ms) ∈ s.items ∧ ⟨b, false, .supertrait⟩ ∈ ms

/-- Types for which code is written. -/
def HasCode : Variant → Bool
  | .buildIn _ | .custom _ => false
  | _ => true

/-- The dynamic type `a` is a direct child of the dynamic type `b`, and of the same kind. -/
def DirectChild (T : Types) (b a : Ident) : Prop :=
  ∃ ty d k m ty' d', Assoc.get T b = some ty ∧ ty.variant = .dynamic d ∧ (k, m) ∈ d.derived ∧ m.type_ = a ∧
    m.relationship = .directChild ∧ b.kind = a.kind ∧ Assoc.get T a = some ty' ∧ ty'.variant = .dynamic d'

/-! ## The collected traits -/

def Impl (s : State) (x b : Ident) : Prop := b ∈ (traitsOf s x).impls

def Der (s : State) (a b : Ident) : Prop := b ∈ (traitsOf s a).derives

/-- What is known of the collected traits. -/
structure TInv (T : Types) (fixed : List Ident) (s : State) : Prop where
  full : ∀ b x, b ∈ Assoc.keys s.cache → b ∉ fixed → HoldsValue T b x → Impl s x b
  sound : ∀ x b, Impl s x b → HoldsValue T b x
  derives : ∀ a b, Der s a b → DirectChild T b a
  dfull : ∀ b a, b ∈ Assoc.keys s.cache → b ∉ fixed → DirectChild T b a → Der s a b

/-- From one state to a later one. -/
structure Later (T : Types) (fixed : List Ident) (s s' : State) : Prop where
  inv : TInv T fixed s → TInv T fixed s'
  mono : ∀ x b, Impl s x b → Impl s' x b
  dmono : ∀ a b, Der s a b → Der s' a b
  keys : ∀ i, i ∈ Assoc.keys s.cache → i ∈ Assoc.keys s'.cache

theorem Later.refl (T : Types) (fixed : List Ident) (s : State) : Later T fixed s s :=
  ⟨id, fun _ _ h => h, fun _ _ h => h, fun _ h => h⟩

theorem Later.trans {T : Types} {fixed : List Ident} {s s' s'' : State} (h : Later T fixed s s')
    (h' : Later T fixed s' s'') : Later T fixed s s'' :=
  ⟨h'.inv ∘ h.inv, fun x b hb => h'.mono x b (h.mono x b hb), fun x b hb => h'.dmono x b (h.dmono x b hb),
    fun i hi => h'.keys i (h.keys i hi)⟩

/-- Does the trait of the derived type require the trait of the base? -/
def isDerive (T : Types) (base : Ident) (d : Ident × Derived) : Bool :=
  (match (Assoc.get T d.2.type_).map MetaType.variant with | some (.dynamic _) => true | _ => false) &&
    base.kind == d.2.type_.kind && d.2.relationship == .directChild

/-- The step of `updateTraits` for one derived type. -/
def addDerived (T : Types) (base : Ident) (tr : List (Ident × TraitInfo)) (d : Ident × Derived) :
    List (Ident × TraitInfo) :=
  Assoc.upsert tr d.2.type_ fun o =>
    let info := o.getD ⟨[], []⟩
    ⟨insertNew info.impls base, if isDerive T base d then insertNew info.derives base else info.derives⟩

def infoOf (tr : List (Ident × TraitInfo)) (x : Ident) : TraitInfo := (Assoc.get tr x).getD ⟨[], []⟩

theorem addDerived_impls {T : Types} {base : Ident} {tr : List (Ident × TraitInfo)} {d : Ident × Derived}
    {x b : Ident} :
    b ∈ (infoOf (addDerived T base tr d) x).impls ↔
      b ∈ (infoOf tr x).impls ∨ (x = d.2.type_ ∧ b = base) := by
  unfold infoOf addDerived
  simp only [Assoc.get_upsert]
  by_cases h : d.2.type_ = x
  · subst h
    rw [if_pos rfl]
    simp only [Option.getD_some, mem_insertNew, true_and]
  · rw [if_neg h]
    constructor
    · exact Or.inl
    · rintro (h' | ⟨rfl, _⟩)
      · exact h'
      · exact absurd rfl h

theorem isDerive_iff {T : Types} {base : Ident} {d : Ident × Derived} :
    isDerive T base d = true ↔ d.2.relationship = .directChild ∧ base.kind = d.2.type_.kind ∧
      ∃ ty' d', Assoc.get T d.2.type_ = some ty' ∧ ty'.variant = .dynamic d' := by
  unfold isDerive
  simp only [Bool.and_eq_true, beq_iff_eq]
  constructor
  · rintro ⟨⟨h1, h2⟩, h3⟩
    refine ⟨h3, h2, ?_⟩
    split at h1
    · rename_i x hx
      obtain ⟨ty, h4, h5⟩ := Option.map_eq_some_iff.mp hx
      exact ⟨ty, _, h4, h5⟩
    · cases h1
  · rintro ⟨h1, h2, ty', d', h3, h4⟩
    refine ⟨⟨?_, h2⟩, h1⟩
    rw [h3]
    simp only [Option.map_some, h4]

theorem addDerived_derives {T : Types} {base : Ident} {tr : List (Ident × TraitInfo)} {d : Ident × Derived}
    {a b : Ident} : b ∈ (infoOf (addDerived T base tr d) a).derives ↔
    b ∈ (infoOf tr a).derives ∨ (a = d.2.type_ ∧ b = base ∧ isDerive T base d = true) := by
  unfold infoOf addDerived
  simp only [Assoc.get_upsert]
  by_cases hx : d.2.type_ = a
  · subst hx
    rw [if_pos rfl]
    simp only [Option.getD_some]
    by_cases hd : isDerive T base d = true
    · rw [if_pos hd, mem_insertNew]
      simp [hd]
    · rw [if_neg hd]
      simp [hd]
  · rw [if_neg hx]
    constructor
    · exact Or.inl
    · rintro (h' | ⟨rfl, _⟩)
      · exact h'
      · exact absurd rfl hx

theorem foldl_impls {T : Types} {base : Ident} {ds : List (Ident × Derived)} {x b : Ident} :
    ∀ {tr : List (Ident × TraitInfo)}, b ∈ (infoOf (ds.foldl (addDerived T base) tr) x).impls ↔
      b ∈ (infoOf tr x).impls ∨ (b = base ∧ ∃ k m, (k, m) ∈ ds ∧ m.type_ = x) := by
  induction ds with
  | nil => intro tr; simp
  | cons d ds ih =>
    intro tr
    rw [List.foldl_cons, ih, addDerived_impls]
    constructor
    · rintro ((h | ⟨rfl, rfl⟩) | ⟨rfl, k, m, h, hx⟩)
      · exact Or.inl h
      · exact Or.inr ⟨rfl, d.1, d.2, by simp, rfl⟩
      · exact Or.inr ⟨rfl, k, m, by simp [h], hx⟩
    · rintro (h | ⟨rfl, k, m, h, hx⟩)
      · exact Or.inl (Or.inl h)
      · rcases List.mem_cons.mp h with rfl | h
        · exact Or.inl (Or.inr ⟨hx.symm, rfl⟩)
        · exact Or.inr ⟨rfl, k, m, h, hx⟩

theorem foldl_derives {T : Types} {base : Ident} {ds : List (Ident × Derived)} {a b : Ident} :
    ∀ {tr : List (Ident × TraitInfo)}, b ∈ (infoOf (ds.foldl (addDerived T base) tr) a).derives ↔
      b ∈ (infoOf tr a).derives ∨ (b = base ∧ ∃ k m, (k, m) ∈ ds ∧ m.type_ = a ∧ isDerive T base (k, m) = true) := by
  induction ds with
  | nil => intro tr; simp
  | cons d ds ih =>
    intro tr
    rw [List.foldl_cons, ih, addDerived_derives]
    constructor
    · rintro ((h | ⟨rfl, rfl, hd⟩) | ⟨rfl, k, m, h, hx⟩)
      · exact Or.inl h
      · exact Or.inr ⟨rfl, d.1, d.2, by simp, rfl, hd⟩
      · exact Or.inr ⟨rfl, k, m, by simp [h], hx⟩
    · rintro (h | ⟨rfl, k, m, h, hx, hd⟩)
      · exact Or.inl (Or.inl h)
      · rcases List.mem_cons.mp h with rfl | h
        · exact Or.inl (Or.inr ⟨hx.symm, rfl, hd⟩)
        · exact Or.inr ⟨rfl, k, m, h, hx, hd⟩

theorem updateTraits_dynamic {T : Types} {tr : List (Ident × TraitInfo)} {base : Ident} {ty : MetaType}
    {d : Meta.Dynamic} (hb : Assoc.get T base = some ty) (hv : ty.variant = .dynamic d) :
    updateTraits T tr base = d.derived.foldl (addDerived T base) tr := by
  unfold updateTraits
  rw [hb]
  simp only [Option.map_some, hv]
  rfl

theorem updateTraits_other {T : Types} {tr : List (Ident × TraitInfo)} {base : Ident} {ty : MetaType}
    (hb : Assoc.get T base = some ty) (hv : ∀ d, ty.variant ≠ .dynamic d) :
    updateTraits T tr base = tr := by
  unfold updateTraits
  rw [hb]
  simp only [Option.map_some]
  split
  · rename_i d h; exact absurd (Option.some.inj h) (hv d)
  · rfl

/-! ## The requests -/

theorem getOrCreate_later {T : Types} {fixed : List Ident} {s s' : State} {i : Ident}
    (h : getOrCreate T s i = .ok s') : Later T fixed s s' ∧ i ∈ Assoc.keys s'.cache := by
  unfold getOrCreate at h
  cases hc : Assoc.get s.cache i with
  | some r =>
    rw [hc] at h
    cases h
    exact ⟨.refl .., (Assoc.get_isSome _ _).mp (by rw [hc]; rfl)⟩
  | none =>
    rw [hc] at h
    simp only at h
    cases ht : Assoc.get T i with
    | none => rw [ht] at h; cases h
    | some ty =>
      rw [ht] at h
      cases h
      refine ⟨?_, (Assoc.mem_keys_upsert _ _ _ _).mpr (Or.inl rfl)⟩
      by_cases hd : ∃ d, ty.variant = .dynamic d
      · obtain ⟨d, hd⟩ := hd
        have himpl : ∀ x b, b ∈ (infoOf (updateTraits T s.traits i) x).impls ↔
            Impl s x b ∨ (b = i ∧ ∃ k m, (k, m) ∈ d.derived ∧ m.type_ = x) := by
          intro x b
          rw [updateTraits_dynamic ht hd]
          exact foldl_impls
        have hder : ∀ a b, b ∈ (infoOf (updateTraits T s.traits i) a).derives ↔
            Der s a b ∨ (b = i ∧ DirectChild T i a) := by
          intro a b
          rw [updateTraits_dynamic ht hd, foldl_derives]
          constructor
          · rintro (h | ⟨rfl, k, m, h, rfl, hx⟩)
            · exact Or.inl h
            · obtain ⟨h1, h2, ty', d', h3, h4⟩ := isDerive_iff.mp hx
              exact Or.inr ⟨rfl, ty, d, k, m, ty', d', ht, hd, h, rfl, h1, h2, h3, h4⟩
          · rintro (h | ⟨rfl, ty1, d1, k, m, ty', d', ht1, hd1, h, rfl, h1, h2, h3, h4⟩)
            · exact Or.inl h
            · rw [ht] at ht1; cases ht1
              rw [hd] at hd1; cases hd1
              exact Or.inr ⟨rfl, k, m, h, rfl, isDerive_iff.mpr ⟨h1, h2, ty', d', h3, h4⟩⟩
        refine ⟨fun hi => ⟨?_, ?_, ?_, ?_⟩, ?_, ?_, ?_⟩
        · intro b x hb hf hh
          refine (himpl x b).mpr ?_
          rcases (Assoc.mem_keys_upsert _ _ _ _).mp hb with rfl | hb
          · obtain ⟨ty', d', k, m, h1, h2, h3, h4⟩ := hh
            rw [ht] at h1; cases h1
            rw [hd] at h2; cases h2
            exact Or.inr ⟨rfl, k, m, h3, h4⟩
          · exact Or.inl (hi.full b x hb hf hh)
        · intro x b hb
          rcases (himpl x b).mp hb with hb | ⟨rfl, k, m, h1, h2⟩
          · exact hi.sound x b hb
          · exact ⟨ty, d, k, m, ht, hd, h1, h2⟩
        · intro a b hb
          rcases (hder a b).mp hb with hb | ⟨rfl, hb⟩
          · exact hi.derives a b hb
          · exact hb
        · intro b a hb hf hh
          refine (hder a b).mpr ?_
          rcases (Assoc.mem_keys_upsert _ _ _ _).mp hb with rfl | hb
          · exact Or.inr ⟨rfl, hh⟩
          · exact Or.inl (hi.dfull b a hb hf hh)
        · intro x b hb
          exact (himpl x b).mpr (Or.inl hb)
        · intro a b hb
          exact (hder a b).mpr (Or.inl hb)
        · intro j hj
          exact (Assoc.mem_keys_upsert _ _ _ _).mpr (Or.inr hj)
      · have hu := updateTraits_other (tr := s.traits) ht (fun d h => hd ⟨d, h⟩)
        have hsame : ∀ x, (infoOf (updateTraits T s.traits i) x) = traitsOf s x := by
          intro x; rw [hu]; rfl
        refine ⟨fun hi => ⟨?_, ?_, ?_, ?_⟩, ?_, ?_, ?_⟩
        · intro b x hb hf hh
          show b ∈ (infoOf (updateTraits T s.traits i) x).impls
          rw [hsame]
          rcases (Assoc.mem_keys_upsert _ _ _ _).mp hb with rfl | hb
          · obtain ⟨ty', d', k, m, h1, h2, h3, h4⟩ := hh
            rw [ht] at h1; cases h1
            exact absurd ⟨d', h2⟩ hd
          · exact hi.full b x hb hf hh
        · intro x b hb
          have hb : b ∈ (infoOf (updateTraits T s.traits i) x).impls := hb
          rw [hsame] at hb
          exact hi.sound x b hb
        · intro a b hb
          have hb : b ∈ (infoOf (updateTraits T s.traits i) a).derives := hb
          rw [hsame] at hb
          exact hi.derives a b hb
        · intro b x hb hf hh
          show b ∈ (infoOf (updateTraits T s.traits i) x).derives
          rw [hsame]
          rcases (Assoc.mem_keys_upsert _ _ _ _).mp hb with rfl | hb
          · obtain ⟨ty', d', k, m, _, _, h1, h2, _⟩ := hh
            rw [ht] at h1; cases h1
            exact absurd ⟨d', h2⟩ hd
          · exact hi.dfull b x hb hf hh
        · intro x b hb
          show b ∈ (infoOf (updateTraits T s.traits i) x).impls
          rw [hsame]
          exact hb
        · intro x b hb
          show b ∈ (infoOf (updateTraits T s.traits i) x).derives
          rw [hsame]
          exact hb
        · intro j hj
          exact (Assoc.mem_keys_upsert _ _ _ _).mpr (Or.inr hj)

theorem addReach_later {T : Types} {fixed : List Ident} {s : State} {i : Ident} {reach : List Nat}
    (hi : i ∈ Assoc.keys s.cache) : Later T fixed s (addReach s i reach) := by
  have hkeys : ∀ j, j ∈ Assoc.keys (addReach s i reach).cache ↔ j ∈ Assoc.keys s.cache := by
    intro j
    unfold addReach
    simp only
    rw [Assoc.mem_keys_upsert]
    constructor
    · rintro (rfl | h)
      · exact hi
      · exact h
    · exact Or.inr
  exact ⟨fun h => ⟨fun b x hb => h.full b x ((hkeys b).mp hb), h.sound, h.derives,
      fun b x hb => h.dfull b x ((hkeys b).mp hb)⟩, fun _ _ h => h, fun _ _ h => h,
    fun j hj => (hkeys j).mpr hj⟩

theorem requestAll_later {T : Types} {fixed : List Ident} {is : List Ident} :
    ∀ {s s' : State}, requestAll T s is = .ok s' →
    Later T fixed s s' ∧ ∀ i ∈ is, i ∈ Assoc.keys s'.cache := by
  induction is with
  | nil => intro s s' h; cases h; exact ⟨.refl .., by simp⟩
  | cons i is ih =>
    intro s s' h
    rw [requestAll] at h
    cases hg : getOrCreate T s i with
    | error e => rw [hg] at h; cases h
    | ok s1 =>
      rw [hg] at h
      obtain ⟨h1, h2⟩ := getOrCreate_later (fixed := fixed) hg
      obtain ⟨h3, h4⟩ := ih h
      refine ⟨h1.trans h3, ?_⟩
      intro j hj
      rcases List.mem_cons.mp hj with rfl | hj
      · exact h3.keys j h2
      · exact h4 j hj

/-- One request: the state, the `impl`s and the required traits that are written. -/
theorem stepReq_later {T : Types} {fixed : List Ident} {s s' : State} {cur : Ident} {reach : List Nat} {r : Req}
    {ms : List Mention} (h : stepReq T cur reach s r = .ok (s', ms)) :
    Later T fixed s s' ∧
      (∀ b, (⟨b, false, .impl⟩ : Mention) ∈ ms → Impl s cur b) ∧
      (∀ b, (⟨b, false, .supertrait⟩ : Mention) ∈ ms → b ∈ (traitsOf s cur).derives) ∧
      (r = .traitImpls → ∀ b, Impl s cur b → (⟨b, false, .impl⟩ : Mention) ∈ ms) ∧
      (r = .traitDerives → ∀ b, Der s cur b → (⟨b, false, .supertrait⟩ : Mention) ∈ ms) := by
  cases r with
  | plain i inl =>
    simp only [stepReq] at h
    cases hg : getOrCreate T s i with
    | error e => rw [hg] at h; cases h
    | ok s1 =>
      rw [hg] at h
      cases h
      exact ⟨(getOrCreate_later hg).1, by simp, by simp, by simp, by simp⟩
  | value i byValue =>
    simp only [stepReq] at h
    cases hg : getOrCreate T s i with
    | error e => rw [hg] at h; cases h
    | ok s1 =>
      rw [hg] at h
      obtain ⟨h1, h2⟩ := getOrCreate_later (fixed := fixed) hg
      cases byValue with
      | true => cases h; exact ⟨h1.trans (addReach_later h2), by simp, by simp, by simp, by simp⟩
      | false => cases h; exact ⟨h1, by simp, by simp, by simp, by simp⟩
  | element i d o f =>
    simp only [stepReq] at h
    cases hn : (if !f && d && o then needBox T s reach i else some false) with
    | none => rw [hn] at h; cases h
    | some boxed =>
      rw [hn] at h
      simp only at h
      cases hg : getOrCreate T s i with
      | error e => rw [hg] at h; cases h
      | ok s1 =>
        rw [hg] at h
        obtain ⟨h1, h2⟩ := getOrCreate_later (fixed := fixed) hg
        cases boxed with
        | false => cases h; exact ⟨h1.trans (addReach_later h2), by simp, by simp, by simp, by simp⟩
        | true => cases h; exact ⟨h1, by simp, by simp, by simp, by simp⟩
  | traitImpls =>
    simp only [stepReq] at h
    cases hg : requestAll T s (traitsOf s cur).impls with
    | error e => rw [hg] at h; cases h
    | ok s1 =>
      rw [hg] at h
      cases h
      refine ⟨(requestAll_later hg).1, ?_, ?_, fun _ b hb => List.mem_map.mpr ⟨b, hb, rfl⟩, by simp⟩
      · intro b hb
        obtain ⟨i, hi, he⟩ := List.mem_map.mp hb
        cases he
        exact hi
      · intro b hb
        obtain ⟨i, hi, he⟩ := List.mem_map.mp hb
        cases he
  | traitDerives =>
    simp only [stepReq] at h
    cases hg : requestAll T s (traitsOf s cur).derives with
    | error e => rw [hg] at h; cases h
    | ok s1 =>
      rw [hg] at h
      cases h
      refine ⟨(requestAll_later hg).1, ?_, ?_, by simp, fun _ b hb => List.mem_map.mpr ⟨b, hb, rfl⟩⟩
      · intro b hb
        obtain ⟨i, hi, he⟩ := List.mem_map.mp hb
        cases he
      · intro b hb
        obtain ⟨i, hi, he⟩ := List.mem_map.mp hb
        cases he
        exact hi
  | fail => cases h

theorem runReqs_later {T : Types} {fixed : List Ident} {cur : Ident} {reach : List Nat} {rs : List Req} :
    ∀ {s s' : State} {ms : List Mention}, TInv T fixed s → runReqs T cur reach s rs = .ok (s', ms) →
    Later T fixed s s' ∧
      (∀ b, (⟨b, false, .impl⟩ : Mention) ∈ ms → HoldsValue T b cur) ∧
      (∀ b, (⟨b, false, .supertrait⟩ : Mention) ∈ ms → DirectChild T b cur) ∧
      (.traitImpls ∈ rs → ∀ b, Impl s cur b → (⟨b, false, .impl⟩ : Mention) ∈ ms) ∧
      (.traitDerives ∈ rs → ∀ b, Der s cur b → (⟨b, false, .supertrait⟩ : Mention) ∈ ms) := by
  induction rs with
  | nil => intro s s' ms _ h; cases h; exact ⟨.refl .., by simp, by simp, by simp, by simp⟩
  | cons r rs ih =>
    intro s s' ms hi h
    rw [runReqs] at h
    cases hs : stepReq T cur reach s r with
    | error e => rw [hs] at h; cases h
    | ok p =>
      obtain ⟨s1, ms1⟩ := p
      rw [hs] at h
      simp only at h
      obtain ⟨h1, h2, h3, h4, h4'⟩ := stepReq_later (fixed := fixed) hs
      cases hrs : runReqs T cur reach s1 rs with
      | error e => rw [hrs] at h; cases h
      | ok q =>
        obtain ⟨s2, ms2⟩ := q
        rw [hrs] at h
        cases h
        obtain ⟨h5, h6, h7, h8, h8'⟩ := ih (h1.inv hi) hrs
        refine ⟨h1.trans h5, ?_, ?_, ?_, ?_⟩
        · intro b hb
          rcases List.mem_append.mp hb with hb | hb
          · exact hi.sound cur b (h2 b hb)
          · exact h6 b hb
        · intro b hb
          rcases List.mem_append.mp hb with hb | hb
          · exact hi.derives cur b (h3 b hb)
          · exact h7 b hb
        · intro hr b hb
          rcases List.mem_cons.mp hr with hr | hr
          · exact List.mem_append_left _ (h4 hr.symm b hb)
          · exact List.mem_append_right _ (h8 hr b (h1.mono cur b hb))
        · intro hr b hb
          rcases List.mem_cons.mp hr with hr | hr
          · exact List.mem_append_left _ (h4' hr.symm b hb)
          · exact List.mem_append_right _ (h8' hr b (h1.dmono cur b hb))

theorem reqs_traitImpls {cfg : Cfg} {T : Types} {v : Variant} (hv : HasCode v = true) :
    Req.traitImpls ∈ reqsOf cfg T v := by
  cases v with
  | buildIn x => cases hv
  | custom x => cases hv
  | complex x =>
    simp only [reqsOf, complexReqs]
    split
    · exact List.mem_cons_self
    · split <;> exact List.mem_cons_self
  | simple x => simp [reqsOf]
  | reference x => simp [reqsOf]
  | _ => exact List.mem_cons_self

/-! ## The worklist -/

/-- The items: what is written for a type is sound, and the items added after the state `s0` implement
what was collected in `s0`. -/
structure Items (T : Types) (fixed : List Ident) (s0 s : State) : Prop where
  inv : TInv T fixed s
  later : Later T fixed s0 s
  sound : ∀ x b, Implements s x b → HoldsValue T b x
  requires : ∀ a b, Requires s a b → DirectChild T b a
  full : ∀ x b ty, Impl s0 x b → Assoc.get T x = some ty → HasCode ty.variant = true →
    ∀ ms, (x, ms) ∈ s.items → (∃ ms', (x, ms') ∈ s0.items) ∨ (⟨b, false, .impl⟩ : Mention) ∈ ms
  dfull : ∀ x b ty d, Der s0 x b → Assoc.get T x = some ty → ty.variant = .dynamic d →
    ∀ ms, (x, ms) ∈ s.items → (∃ ms', (x, ms') ∈ s0.items) ∨ (⟨b, false, .supertrait⟩ : Mention) ∈ ms
  grow : ∀ p, p ∈ s0.items → p ∈ s.items

theorem requestAll_items {T : Types} {is : List Ident} :
    ∀ {s s' : State}, requestAll T s is = .ok s' → s'.items = s.items := by
  induction is with
  | nil => intro s s' h; cases h; rfl
  | cons i is ih =>
    intro s s' h
    rw [requestAll] at h
    cases hg : getOrCreate T s i with
    | error e => rw [hg] at h; cases h
    | ok s1 =>
      rw [hg] at h
      rw [ih h]
      unfold getOrCreate at hg
      split at hg
      · cases hg; rfl
      · split at hg
        · cases hg
        · cases hg; rfl

theorem generateOne_traits {cfg : Cfg} {T : Types} {fixed roots : List Ident} {s0 s s' : State} {i : Ident}
    {ty : MetaType} (hinv : Inv cfg T fixed roots [i] s) (hty : Assoc.get T i = some ty)
    (hi : Items T fixed s0 s) (h : generateOne cfg T s i ty = .ok s') : Items T fixed s0 s' := by
  have hfresh : ∀ ms, (i, ms) ∉ s.items := by
    intro ms hm
    have hn := hinv.nodup
    rw [List.nodup_append] at hn
    exact hn.2.2 i (List.mem_map.mpr ⟨_, hm, rfl⟩) i (by simp) rfl
  obtain ⟨_, ⟨ms0, hms0⟩, _⟩ := generateOne_ok hinv hty h
  unfold generateOne at h
  split at h
  · cases h
  · rename_i reach hre
    cases hr : runReqs T i reach s (reqsOf cfg T ty.variant) with
    | error e => rw [hr] at h; cases h
    | ok p =>
      obtain ⟨s1, ms⟩ := p
      rw [hr] at h
      cases h
      obtain ⟨h1, h2, h3, h4, h5⟩ := runReqs_later hi.inv hr
      simp only at hms0
      have hit : s1.items ++ [(i, ms)] = s.items ++ [(i, ms)] := by
        have := List.append_inj hms0 (by
          have := congrArg List.length hms0
          simpa using this)
        rw [this.1]
      have hl : Later T fixed s { s1 with items := s1.items ++ [(i, ms)] } :=
        ⟨fun hh => ⟨(h1.inv hh).full, (h1.inv hh).sound, (h1.inv hh).derives, (h1.inv hh).dfull⟩, h1.mono,
          h1.dmono, h1.keys⟩
      refine ⟨hl.inv hi.inv, hi.later.trans hl, ?_, ?_, ?_, ?_, ?_⟩
      · rintro x b ⟨ms', hm, hb⟩
        simp only [hit] at hm
        rcases List.mem_append.mp hm with hm | hm
        · exact hi.sound x b ⟨ms', hm, hb⟩
        · simp at hm
          obtain ⟨rfl, rfl⟩ := hm
          exact h2 b hb
      · rintro x b ⟨ms', hm, hb⟩
        simp only [hit] at hm
        rcases List.mem_append.mp hm with hm | hm
        · exact hi.requires x b ⟨ms', hm, hb⟩
        · simp at hm
          obtain ⟨rfl, rfl⟩ := hm
          exact h3 b hb
      · intro x b ty' hb hx hc ms' hm
        simp only [hit] at hm
        rcases List.mem_append.mp hm with hm | hm
        · exact hi.full x b ty' hb hx hc ms' hm
        · simp at hm
          obtain ⟨rfl, rfl⟩ := hm
          rw [hty] at hx
          cases hx
          exact Or.inr (h4 (reqs_traitImpls hc) b (hi.later.mono _ b hb))
      · intro x b ty' d hb hx hc ms' hm
        simp only [hit] at hm
        rcases List.mem_append.mp hm with hm | hm
        · exact hi.dfull x b ty' d hb hx hc ms' hm
        · simp at hm
          obtain ⟨rfl, rfl⟩ := hm
          rw [hty] at hx
          cases hx
          exact Or.inr (h5 (by rw [hc]; simp [reqsOf]) b (hi.later.dmono _ b hb))
      · intro p hp
        simp only [hit]
        exact List.mem_append_left _ (hi.grow p hp)

theorem pendingF_traits {cfg : Cfg} {T : Types} {fixed roots : List Ident} {s0 : State} (fuel : Nat) :
    ∀ {s s' : State}, Inv cfg T fixed roots [] s → Items T fixed s0 s → pendingF cfg T fuel s = .ok s' →
    Items T fixed s0 s' := by
  induction fuel with
  | zero => intro s s' _ _ h; cases h
  | succ fuel ih =>
    intro s s' hinv hi h
    rw [pendingF] at h
    cases hp : s.pending with
    | nil => rw [hp] at h; cases h; exact hi
    | cons p rest =>
      obtain ⟨i, ty⟩ := p
      rw [hp] at h
      simp only at h
      obtain ⟨h1, hty⟩ := hinv.pop hp
      cases hg : generateOne cfg T { s with pending := rest } i ty with
      | error e => rw [hg] at h; cases h
      | ok s1 =>
        rw [hg] at h
        obtain ⟨h2, _, _, h4⟩ := generateOne_ok h1 hty hg
        have hi' : Items T fixed s0 { s with pending := rest } :=
          ⟨⟨hi.inv.full, hi.inv.sound, hi.inv.derives, hi.inv.dfull⟩,
            ⟨fun h => ⟨(hi.later.inv h).full, (hi.later.inv h).sound, (hi.later.inv h).derives, (hi.later.inv h).dfull⟩,
              hi.later.mono, hi.later.dmono, hi.later.keys⟩,
            hi.sound, hi.requires, hi.full, hi.dfull, hi.grow⟩
        exact ih h2 (generateOne_traits h1 hty hi' hg) h

theorem Items.request {T : Types} {fixed is : List Ident} {s0 s s' : State} (hi : Items T fixed s0 s)
    (h : requestAll T s is = .ok s') : Items T fixed s0 s' := by
  have hl := (requestAll_later (fixed := fixed) h).1
  have hit := requestAll_items h
  refine ⟨hl.inv hi.inv, hi.later.trans hl, ?_, ?_, ?_, ?_, ?_⟩
  · rintro x b ⟨ms, hm, hb⟩; rw [hit] at hm; exact hi.sound x b ⟨ms, hm, hb⟩
  · rintro x b ⟨ms, hm, hb⟩; rw [hit] at hm; exact hi.requires x b ⟨ms, hm, hb⟩
  · intro x b ty hb hx hc ms hm; rw [hit] at hm; exact hi.full x b ty hb hx hc ms hm
  · intro x b ty d hb hx hc ms hm; rw [hit] at hm; exact hi.dfull x b ty d hb hx hc ms hm
  · intro p hp; rw [hit]; exact hi.grow p hp

theorem calls_traits {cfg : Cfg} {T : Types} {fixed : List Ident} {s0 : State} {calls : List (List Ident)} :
    ∀ {roots : List Ident} {s s' : State}, Inv cfg T fixed roots [] s → Items T fixed s0 s →
    generateCalls cfg T s calls = .ok s' → Items T fixed s0 s' := by
  induction calls with
  | nil => intro roots s s' _ hi h; cases h; exact hi
  | cons c calls ih =>
    intro roots s s' hinv hi h
    rw [generateCalls] at h
    cases hg : generate cfg T s c with
    | error e => rw [hg] at h; cases h
    | ok s1 =>
      rw [hg] at h
      have h1 := (generate_ok hinv c hg).1
      refine ih h1 ?_ h
      unfold generate at hg
      cases hr : requestAll T s c with
      | error e => rw [hr] at hg; cases hg
      | ok s2 =>
        rw [hr] at hg
        have hinv' := hinv.mono (roots' := roots ++ c) (fun i hi => List.mem_append_left _ hi)
        obtain ⟨h2, _, _⟩ := requestAll_ok hinv' (fun i hi => Or.inl (.root (List.mem_append_right _ hi))) hr
        exact pendingF_traits _ h2 (hi.request hr) hg

/-- After a state without pending types, seen from itself. -/
theorem Items.restart {T : Types} {fixed : List Ident} {s0 s : State} (hi : Items T fixed s0 s) :
    Items T fixed s s :=
  ⟨hi.inv, .refl .., hi.sound, hi.requires, fun _ _ _ _ _ _ _ hm => Or.inl ⟨_, hm⟩,
    fun _ _ _ _ _ _ _ _ hm => Or.inl ⟨_, hm⟩, fun _ h => h⟩

theorem start_items (T : Types) (fixed : List Ident) : Items T fixed (start fixed) (start fixed) := by
  have hcache : ∀ i, i ∈ Assoc.keys (start fixed).cache → i ∈ fixed := by
    unfold start
    induction fixed using rev_induct with
    | nil => intro i hi; cases hi
    | snoc l i ih =>
      intro j hj
      rw [List.foldl_append] at hj
      simp only [List.foldl_cons, List.foldl_nil, Assoc.mem_keys_upsert] at hj
      rcases hj with rfl | hj
      · simp
      · exact List.mem_append_left _ (ih j hj)
  have htr : (start fixed).traits = [] := by
    unfold start
    generalize hs : (⟨[], [], [], [], []⟩ : State) = s
    have : s.traits = [] := by rw [← hs]
    clear hs hcache
    induction fixed generalizing s with
    | nil => exact this
    | cons i is ih => exact ih _ this
  have hit := (start_inv exCfg T fixed).2.1
  have hno : ∀ x, traitsOf (start fixed) x = ⟨[], []⟩ := by
    intro x; unfold traitsOf; rw [htr]; rfl
  refine ⟨⟨?_, ?_, ?_, ?_⟩, .refl .., ?_, ?_, ?_, ?_, fun _ h => h⟩
  · intro b x hb hf; exact absurd (hcache b hb) hf
  · intro x b hb; unfold Impl at hb; rw [hno] at hb; cases hb
  · intro a b hb; unfold Der at hb; rw [hno] at hb; cases hb
  · intro b x hb hf; exact absurd (hcache b hb) hf
  · rintro x b ⟨ms, hm, _⟩; rw [hit] at hm; cases hm
  · rintro x b ⟨ms, hm, _⟩; rw [hit] at hm; cases hm
  · intro x b ty _ _ _ ms hm; rw [hit] at hm; cases hm
  · intro x b ty _ _ _ _ ms hm; rw [hit] at hm; cases hm

/-! ## Theorems -/

theorem generateCalls_append {cfg : Cfg} {T : Types} {pre post : List (List Ident)} :
    ∀ {s s' : State}, generateCalls cfg T s (pre ++ post) = .ok s' →
    ∃ s1, generateCalls cfg T s pre = .ok s1 ∧ generateCalls cfg T s1 post = .ok s' := by
  induction pre with
  | nil => intro s s' h; exact ⟨s, rfl, h⟩
  | cons c pre ih =>
    intro s s' h
    rw [List.cons_append, generateCalls] at h
    cases hg : generate cfg T s c with
    | error e => rw [hg] at h; cases h
    | ok s1 =>
      rw [hg] at h
      obtain ⟨s2, h1, h2⟩ := ih h
      exact ⟨s2, by rw [generateCalls, hg]; exact h1, h2⟩

/-- Types that are not generated by the earlier calls see what is collected up to the roots of the call. -/
theorem calls_split {cfg : Cfg} {T : Types} {fixed : List Ident} {pre post : List (List Ident)}
    {roots : List Ident} {s : State} (h : generateCalls cfg T (start fixed) (pre ++ roots :: post) = .ok s)
    {b x : Ident} (hb : b ∈ roots ∨ Needed cfg T fixed pre.flatten b) (hf : b ∉ fixed)
    (hnew : ¬ Needed cfg T fixed pre.flatten x) (hxf : x ∉ fixed)
    (hgen : Needed cfg T fixed (pre ++ roots :: post).flatten x) :
    ∃ s0 ms, Items T fixed s0 s ∧ TInv T fixed s0 ∧ b ∈ Assoc.keys s0.cache ∧ (x, ms) ∈ s.items ∧
      ∀ ms', (x, ms') ∉ s0.items := by
  obtain ⟨s1, hpre, hrest⟩ := generateCalls_append h
  obtain ⟨hinv0, _, hp0⟩ := start_inv cfg T fixed
  obtain ⟨hinv1, hp1, hk1⟩ := calls_ok hinv0 hp0 (by simp) hpre
  have hi1 := (calls_traits hinv0 (start_items T fixed) hpre).restart
  have hx1 : ∀ ms, (x, ms) ∉ s1.items := by
    intro ms hm
    exact hnew ((C50_generates_needed hpre x).mp (List.mem_map.mpr ⟨_, hm, rfl⟩)).1
  have hb1 : b ∈ roots ∨ b ∈ Assoc.keys s1.cache := by
    rcases hb with hb | hb
    · exact Or.inl hb
    · right
      have := (C50_generates_needed hpre b).mpr ⟨hb, hf⟩
      exact (hinv1.keysIff b).mpr (Or.inr (Or.inl this))
  rw [generateCalls] at hrest
  cases hg : generate cfg T s1 roots with
  | error e => rw [hg] at hrest; cases hrest
  | ok s2 =>
    rw [hg] at hrest
    simp only at hrest
    have hinv2 := (generate_ok hinv1 roots hg).1
    unfold generate at hg
    cases hr : requestAll T s1 roots with
    | error e => rw [hr] at hg; cases hg
    | ok s1' =>
      rw [hr] at hg
      simp only at hg
      obtain ⟨hl, hk⟩ := requestAll_later (fixed := fixed) hr
      have hinv1' := hinv1.mono (roots' := ([] ++ pre.flatten) ++ roots) (fun i hi => List.mem_append_left _ hi)
      obtain ⟨hinv3, _, _⟩ := requestAll_ok hinv1' (fun i hi => Or.inl (.root (List.mem_append_right _ hi))) hr
      have hi2 : Items T fixed s1' s1' := (hi1.request hr).restart
      have hi4 := calls_traits hinv2 (pendingF_traits _ hinv3 hi2 hg) hrest
      obtain ⟨⟨x', ms⟩, hm, he⟩ := List.mem_map.mp ((C50_generates_needed h x).mpr ⟨hgen, hxf⟩)
      simp only at he
      subst he
      refine ⟨s1', ms, hi4, hi2.inv, ?_, hm, ?_⟩
      · rcases hb1 with hb1 | hb1
        · exact hk b hb1
        · exact hl.keys b hb1
      · rw [requestAll_items hr]
        exact hx1

/-- **C65.** In any series of calls of the generator: if the dynamic type `b` is among the types that are
requested by a call (or is already known from earlier calls), then every type with code of its own that holds
values of a derived type of `b` implements the trait of `b`, provided it was not already generated by the
earlier calls. -/
theorem C65_implements_partial {cfg : Cfg} {T : Types} {fixed : List Ident} {pre post : List (List Ident)}
    {roots : List Ident} {s : State} (h : generateCalls cfg T (start fixed) (pre ++ roots :: post) = .ok s)
    {b x : Ident} {ty : MetaType} (hb : b ∈ roots ∨ Needed cfg T fixed pre.flatten b) (hf : b ∉ fixed)
    (hx : HoldsValue T b x) (hty : Assoc.get T x = some ty) (hc : HasCode ty.variant = true)
    (hnew : ¬ Needed cfg T fixed pre.flatten x) (hxf : x ∉ fixed)
    (hgen : Needed cfg T fixed (pre ++ roots :: post).flatten x) : Implements s x b := by
  obtain ⟨s0, ms, hi, h0, hk, hm, hno⟩ := calls_split h hb hf hnew hxf hgen
  rcases hi.full x b ty (h0.full b x hk hf hx) hty hc ms hm with ⟨ms', hm'⟩ | hmem
  · exact absurd hm' (hno ms')
  · exact ⟨ms, hm, hmem⟩

/-- **C65.** In the same way the trait of a dynamic type requires the traits of its direct parents. -/
theorem C65_requires_partial {cfg : Cfg} {T : Types} {fixed : List Ident} {pre post : List (List Ident)}
    {roots : List Ident} {s : State} (h : generateCalls cfg T (start fixed) (pre ++ roots :: post) = .ok s)
    {b a : Ident} (hb : b ∈ roots ∨ Needed cfg T fixed pre.flatten b) (hf : b ∉ fixed) (hx : DirectChild T b a)
    (hnew : ¬ Needed cfg T fixed pre.flatten a) (haf : a ∉ fixed)
    (hgen : Needed cfg T fixed (pre ++ roots :: post).flatten a) : Requires s a b := by
  obtain ⟨s0, ms, hi, h0, hk, hm, hno⟩ := calls_split h hb hf hnew haf hgen
  have hd := h0.dfull b a hk hf hx
  obtain ⟨_, _, _, _, ty', d', _, _, _, _, _, _, hty, hv⟩ := hx
  rcases hi.dfull a b ty' d' hd hty hv ms hm with ⟨ms', hm'⟩ | hmem
  · exact absurd hm' (hno ms')
  · exact ⟨ms, hm, hmem⟩

theorem needed_nil {cfg : Cfg} {T : Types} {fixed : List Ident} {i : Ident} :
    ¬ Needed cfg T fixed ([] : List (List Ident)).flatten i := by
  intro hn
  induction hn with
  | root h => cases h
  | step _ _ _ _ ih => exact ih

/-- **C65.** If all types are generated, every type with code of its own implements the traits of all dynamic
types that hold it. -/
theorem C65_all_implement_partial {cfg : Cfg} {T : Types} {fixed : List Ident} {s : State}
    (h : generateCalls cfg T (start fixed) [allRoots T] = .ok s) {b x : Ident} {ty : MetaType} (hf : b ∉ fixed)
    (hxf : x ∉ fixed) (hx : HoldsValue T b x) (hty : Assoc.get T x = some ty) (hc : HasCode ty.variant = true) :
    Implements s x b := by
  have hkey : ∀ i ty, Assoc.get T i = some ty → i ∈ allRoots T := fun i ty hi =>
    (Assoc.get_isSome _ _).mp (by rw [hi]; rfl)
  have hx' := hx
  obtain ⟨tb, _, _, _, hb, _⟩ := hx'
  exact C65_implements_partial (pre := []) (post := []) h (Or.inl (hkey b tb hb)) hf hx hty hc needed_nil hxf
    (.root (by simpa using hkey x ty hty))

/-- **C65.** The same for `generate_named_types`, if the dynamic type has a name (anonymous types cannot be
derived from, and an abstract element has a name). -/
theorem C65_named_implement_partial {cfg : Cfg} {T : Types} {fixed : List Ident} {s : State}
    (h : generateCalls cfg T (start fixed) [namedRoots T] = .ok s) {b x : Ident} {ty : MetaType} (hf : b ∉ fixed)
    {n : Txt} (hn : b.name = .named n) (hxf : x ∉ fixed) (hx : HoldsValue T b x) (hty : Assoc.get T x = some ty)
    (hc : HasCode ty.variant = true) : Implements s x b := by
  obtain ⟨tb, d, k, m, hb, hd, hm, he⟩ := hx
  have hbr : b ∈ namedRoots T := by
    unfold namedRoots
    rw [List.mem_filter]
    exact ⟨(Assoc.get_isSome _ _).mp (by rw [hb]; rfl), by rw [hn]⟩
  refine C65_implements_partial (pre := []) (post := []) h (Or.inl hbr) hf ⟨tb, d, k, m, hb, hd, hm, he⟩ hty hc
    needed_nil hxf ?_
  refine .step (i := b) (.root (by simpa using hbr)) hf hb ?_
  rw [hd, ← he]
  exact .derived hm

/-- **C65.** Nothing else: whatever the calls are, a type implements the trait of a type only if that is a
dynamic type that holds its values, and the trait is part of the generated code. -/
theorem C65_only_held {cfg : Cfg} {T : Types} {fixed : List Ident} {calls : List (List Ident)} {s : State}
    (h : generateCalls cfg T (start fixed) calls = .ok s) {b x : Ident} (hi : Implements s x b) :
    HoldsValue T b x ∧ (b ∈ Assoc.keys s.items ∨ b ∈ fixed) := by
  obtain ⟨hinv0, _, hp0⟩ := start_inv cfg T fixed
  refine ⟨(calls_traits hinv0 (start_items T fixed) h).sound x b hi, ?_⟩
  obtain ⟨ms, hm, hb⟩ := hi
  exact C50_no_dangling h hm hb

/-- **C65.** The trait of a dynamic type requires another trait only if the other type is dynamic, of the same
kind, and has the first one as a direct child. -/
theorem C65_required_trait {cfg : Cfg} {T : Types} {fixed : List Ident} {calls : List (List Ident)} {s : State}
    (h : generateCalls cfg T (start fixed) calls = .ok s) {a b : Ident} (hr : Requires s a b) :
    DirectChild T b a ∧ (b ∈ Assoc.keys s.items ∨ b ∈ fixed) := by
  obtain ⟨hinv0, _, hp0⟩ := start_inv cfg T fixed
  refine ⟨(calls_traits hinv0 (start_items T fixed) h).requires a b hr, ?_⟩
  obtain ⟨ms, hm, hb⟩ := hr
  exact C50_no_dangling h hm hb

/-- **C65.** If all types are generated, the trait of a dynamic type requires exactly the traits of the types it
is a direct child of. -/
theorem C65_all_required_partial {cfg : Cfg} {T : Types} {fixed : List Ident} {s : State}
    (h : generateCalls cfg T (start fixed) [allRoots T] = .ok s) {a b : Ident} (hf : b ∉ fixed) (haf : a ∉ fixed) :
    Requires s a b ↔ DirectChild T b a := by
  refine ⟨fun hr => (C65_required_trait h hr).1, fun hd => ?_⟩
  have hkey : ∀ i ty, Assoc.get T i = some ty → i ∈ allRoots T := fun i ty hi =>
    (Assoc.get_isSome _ _).mp (by rw [hi]; rfl)
  have hd' := hd
  obtain ⟨ty, _, _, _, ty', _, hb, _, _, _, _, _, ha, _⟩ := hd'
  exact C65_requires_partial (pre := []) (post := []) h (Or.inl (hkey b ty hb)) hf hd needed_nil haf
    (.root (by simpa using hkey a ty' ha))

/-- **C65.** If all types are generated, a type that implements a trait implements the traits it requires, as
Rust demands, if the derived types of a derived type are derived types. -/
theorem C65_required_implemented_partial {cfg : Cfg} {T : Types} {fixed : List Ident} {s : State}
    (h : generateCalls cfg T (start fixed) [allRoots T] = .ok s)
    (htrans : ∀ a b x, HoldsValue T b a → HoldsValue T a x → HoldsValue T b x) {a b x : Ident} {ty : MetaType}
    (hr : Requires s a b) (hi : Implements s x a) (hty : Assoc.get T x = some ty) (hc : HasCode ty.variant = true)
    (hf : b ∉ fixed) (hxf : x ∉ fixed) : Implements s x b := by
  obtain ⟨ty1, d, k, m, _, _, h1, h2, h3, h4, _⟩ := (C65_required_trait h hr).1
  exact C65_all_implement_partial h hf hxf (htrans a b x ⟨ty1, d, k, m, h1, h2, h3, h4⟩ (C65_only_held h hi).1) hty hc

/-! ## Examples -/

def implHeld (s : State) (x b : Ident) : Bool :=
  s.items.any fun p => p.1 == x && p.2.any fun m => m.target == b && (m.via == .impl && !m.inline_)

theorem implHeld_iff {s : State} {x b : Ident} : implHeld s x b = true ↔ Implements s x b := by
  unfold implHeld Implements
  simp only [List.any_eq_true, Bool.and_eq_true, beq_iff_eq, Bool.not_eq_true']
  constructor
  · rintro ⟨⟨x', ms⟩, hp, rfl, ⟨t, l, v⟩, hm, rfl, hv, hl⟩
    simp only at hv hl
    subst hv; subst hl
    exact ⟨ms, hp, hm⟩
  · rintro ⟨ms, hp, hm⟩
    exact ⟨(x, ms), hp, rfl, ⟨b, false, .impl⟩, hm, rfl, rfl, rfl⟩

def requiresHeld (s : State) (x b : Ident) : Bool :=
  s.items.any fun p => p.1 == x && p.2.any fun m => m.target == b && (m.via == .supertrait && !m.inline_)

/-- An abstract dynamic type with the given derived types. -/
def exDyn (ds : List String) : MetaType :=
  .new (.dynamic ⟨none, true, ds.map fun x => (exId x, ⟨exId x, none, .directChild⟩)⟩)

def exEmpty : MetaType := .new (.sequence ⟨false, []⟩)

/-- `B` is an abstract type with the derived types `L` and `M`; `R` has an element of each of `L` and `C`,
`C` has an element of the type `B`. -/
def exHeld : Types :=
  [(exId "R", .new (.sequence ⟨false, [exElem "l" "L", exElem "c" "C"]⟩)), (exId "L", exEmpty),
   (exId "M", exEmpty), (exId "C", exOpt "B"), (exId "B", exDyn ["L", "M"])]

theorem exHeld_holds : HoldsValue exHeld (exId "B") (exId "L") :=
  ⟨exDyn ["L", "M"], ⟨none, true, ["L", "M"].map fun x => (exId x, ⟨exId x, none, .directChild⟩)⟩, exId "L",
    ⟨exId "L", none, .directChild⟩, by decide +kernel, rfl, by decide +kernel, rfl⟩

/-- All types: both derived types implement the trait, and nothing else does. -/
example : succeeds (generateCalls exCfg exHeld (start []) [allRoots exHeld]) (fun s =>
    implHeld s (exId "L") (exId "B") && implHeld s (exId "M") (exId "B") && !implHeld s (exId "C") (exId "B") &&
      !implHeld s (exId "R") (exId "B") && !implHeld s (exId "B") (exId "B")) = true := by decide +kernel

/-- The hypotheses of `C65_all_implement_partial` and its conclusion for `L`. -/
example : ∃ s, generateCalls exCfg exHeld (start []) [allRoots exHeld] = .ok s ∧ Implements s (exId "L") (exId "B") := by
  obtain ⟨s, hs, _⟩ := of_succeeds (r := generateCalls exCfg exHeld (start []) [allRoots exHeld])
    (P := fun _ => true) (by decide +kernel)
  exact ⟨s, hs, C65_all_implement_partial hs (by simp) (by simp) exHeld_holds (ty := exEmpty) (by decide +kernel) rfl⟩

/-- The same for a single root that comes before the derived types, as the hypotheses of
`C65_implements_partial` ask for. -/
example : ∃ s, generateCalls exCfg exHeld (start []) ([[exId "M"]] ++ [exId "B"] :: [[exId "R"]]) = .ok s ∧
    Implements s (exId "L") (exId "B") ∧ ¬ Implements s (exId "M") (exId "B") := by
  obtain ⟨s, hs, h⟩ := of_succeeds
    (r := generateCalls exCfg exHeld (start []) ([[exId "M"]] ++ [exId "B"] :: [[exId "R"]]))
    (P := fun s => implHeld s (exId "L") (exId "B") && !implHeld s (exId "M") (exId "B")) (by decide +kernel)
  simp only [Bool.and_eq_true, Bool.not_eq_true'] at h
  exact ⟨s, hs, implHeld_iff.mp h.1, fun hi => by rw [implHeld_iff.mpr hi] at h; cases h.2⟩

/-- **C65** (negation). `generate_type` for `R` alone: the code for `L` is written before `B` is known, so `L`
does not implement the trait of `B`. The deserializer of `B` wraps an `L`, the generated code does not
compile. -/
theorem C65_impl_missing : ∃ s, generateCalls exCfg exHeld (start []) [[exId "R"]] = .ok s ∧
    HoldsValue exHeld (exId "B") (exId "L") ∧ exId "B" ∈ Assoc.keys s.items ∧ exId "L" ∈ Assoc.keys s.items ∧
      ¬ Implements s (exId "L") (exId "B") := by
  obtain ⟨s, hs, h⟩ := of_succeeds (r := generateCalls exCfg exHeld (start []) [[exId "R"]])
    (P := fun s => decide (exId "B" ∈ Assoc.keys s.items) && (decide (exId "L" ∈ Assoc.keys s.items) &&
      !implHeld s (exId "L") (exId "B"))) (by decide +kernel)
  simp only [Bool.and_eq_true, Bool.not_eq_true', decide_eq_true_eq] at h
  exact ⟨s, hs, exHeld_holds, h.1, h.2.1, fun hi => by rw [implHeld_iff.mpr hi] at h; cases h.2.2⟩

/-- The head of a substitution group with a member of the type `xs:string`. -/
def exBuiltIn : Types :=
  [(exId "B", .new (.dynamic ⟨none, true, [(exId "m", ⟨exId "S", none, .directChild⟩)]⟩)),
   (exId "S", .new (.buildIn .string))]

/-- **C65** (negation). A derived type with a built-in type as its content: there is no code for a built-in
type, hence no implementation of the trait, even if all types are generated. -/
theorem C65_built_in_missing : ∃ s, generateCalls exCfg exBuiltIn (start []) [allRoots exBuiltIn] = .ok s ∧
    HoldsValue exBuiltIn (exId "B") (exId "S") ∧ exId "B" ∈ Assoc.keys s.items ∧ ¬ Implements s (exId "S") (exId "B") := by
  obtain ⟨s, hs, h⟩ := of_succeeds (r := generateCalls exCfg exBuiltIn (start []) [allRoots exBuiltIn])
    (P := fun s => decide (exId "B" ∈ Assoc.keys s.items) && !implHeld s (exId "S") (exId "B")) (by decide +kernel)
  simp only [Bool.and_eq_true, Bool.not_eq_true', decide_eq_true_eq] at h
  exact ⟨s, hs, ⟨_, _, exId "m", ⟨exId "S", none, .directChild⟩, rfl, rfl, List.mem_cons_self, rfl⟩, h.1,
    fun hi => by rw [implHeld_iff.mpr hi] at h; cases h.2⟩

/-- `A` derives `B` derives `L`, both dynamic: the trait of `B` requires the trait of `A`, and `L` implements
both. -/
def exChain : Types :=
  [(exId "A", exDyn ["B", "L"]), (exId "B", exDyn ["L"]), (exId "L", exEmpty)]

example : succeeds (generateCalls exCfg exChain (start []) [allRoots exChain]) (fun s =>
    requiresHeld s (exId "B") (exId "A") && !requiresHeld s (exId "A") (exId "B") && implHeld s (exId "L") (exId "B") &&
      implHeld s (exId "L") (exId "A") && implHeld s (exId "B") (exId "A")) = true := by decide +kernel

end Verif.Generate

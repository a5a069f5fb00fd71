import Verif.Meta.Types

/-!
# Which groups can be constructed from nothing (C54)

`DefaultableCache` (renderer/steps/quick_xml/deserialize.rs 4448-4577) decides by a depth first
search with a cache whether the deserializer of a group gets an `impl Default`. A type that is
being examined is entered with the value `None`, which counts as "no" when it is met again.
The finishing code of generated groups (`deserializer_struct_field_finish` 3883-3930,
`deserializer_enum_variant_default` 3320-3361, `finish_state` 1324-1373) then relies on it.
-/

namespace Verif.Gen.Dflt

open Verif.Meta Verif.Occurs

/-! ## The search -/

/-- `Defaultable`, 4456-4462. -/
inductive Defaultable where
  | none
  | content
  | complete
deriving DecidableEq, Repr

/-- `DefaultableCache::cache`. -/
abbrev Cache := List (Ident × Option Defaultable)

def Cache.set (c : Cache) (i : Ident) (v : Option Defaultable) : Cache := Assoc.upsert c i fun _ => v

/-- `is_defaultable_element`, 4483-4497. `q` is `get_defaultable_impl`. -/
def elemF (q : Cache → Ident → Option (Cache × Option Defaultable)) (c : Cache) (e : Element) :
    Option (Cache × Bool) :=
  if e.min = 0 then some (c, true)
  else
    match e.variant with
    | .type_ j .group => (q c j).map fun r => (r.1, r.2 == some .complete)
    | _ => some (c, false)

/-- The loop over the elements of `xs:all` and `xs:sequence`, 4542-4552. -/
def elemsF (q : Cache → Ident → Option (Cache × Option Defaultable)) :
    Cache → List Element → Option (Cache × Bool)
  | c, [] => some (c, true)
  | c, e :: es =>
    if 0 < e.min then
      match elemF q c e with
      | none => none
      | some (c', true) => elemsF q c' es
      | some (c', false) => some (c', false)
    else elemsF q c es

/-- `make_new_entry`, 4525-4575. -/
def newEntry (q : Cache → Ident → Option (Cache × Option Defaultable)) (T : Types) (c : Cache)
    (i : Ident) : Option (Cache × Defaultable) :=
  match (Assoc.get T i).map MetaType.variant with
  | some (.all g) | some (.sequence g) =>
    (elemsF q c g.elements).map fun r => (r.1, if r.2 then .complete else .none)
  | some (.choice g) =>
    match g.elements with
    | [e] => (elemF q c e).map fun r => (r.1, if r.2 then .complete else .none)
    | _ => some (c, .none)
  | some (.complex x) =>
    match x.content with
    | none => some (c, .none)
    | some j => (q c j).map fun r => (r.1, if r.2 == some .complete then .content else .none)
  | _ => some (c, .none)

/-- `get_defaultable_impl`, 4503-4523. The fuel bounds the depth of the recursion;
`search_ends` shows that it is not used up. -/
def searchF : Nat → Types → Cache → Ident → Option (Cache × Option Defaultable)
  | 0, _, _, _ => none
  | fuel + 1, T, c, i =>
    match Assoc.get c i with
    | some v => some (c, v)
    | none =>
      (newEntry (searchF fuel T) T (c.set i none) i).map fun r =>
        (r.1.set i (some r.2), some r.2)

/-- `get_defaultable_impl`. -/
def search (T : Types) (c : Cache) (i : Ident) : Option (Cache × Option Defaultable) :=
  searchF (T.length + 1) T c i

/-- Queries one after the other, starting with the empty cache: the states of the cache while
the types are rendered. -/
inductive Reached (T : Types) : Cache → Prop
  | init : Reached T []
  | query {c c' i r} (h : Reached T c) (hq : search T c i = some (c', r)) : Reached T c'

/-! ## Specification -/

/-- The group an element of mode `Group` refers to. -/
def groupOf (e : Element) : Option Ident :=
  match e.variant with
  | .type_ j .group => some j
  | _ => none

/-- Groups that can be constructed from nothing: every particle that must occur is a group that
can be constructed from nothing; a choice has one alternative, of this kind. -/
inductive Constructible (T : Types) : Ident → Prop
  | group {i ty g} (hi : Assoc.get T i = some ty) (hg : ty.variant = .all g ∨ ty.variant = .sequence g)
      (hk : ∀ e ∈ g.elements, e.min ≠ 0 → (groupOf e).isSome = true)
      (h : ∀ e ∈ g.elements, e.min ≠ 0 → ∀ j, groupOf e = some j → Constructible T j) :
      Constructible T i
  | choice {i ty g e} (hi : Assoc.get T i = some ty) (hg : ty.variant = .choice g)
      (he : g.elements = [e]) (hk : e.min ≠ 0 → (groupOf e).isSome = true)
      (h : e.min ≠ 0 → ∀ j, groupOf e = some j → Constructible T j) : Constructible T i

/-- A complex type whose content can be constructed from nothing. -/
def HasDefaultContent (T : Types) (i : Ident) : Prop :=
  ∃ ty x j, Assoc.get T i = some ty ∧ ty.variant = .complex x ∧ x.content = some j ∧ Constructible T j

/-- The right answer. -/
def Right (T : Types) (i : Ident) : Defaultable → Prop
  | .complete => Constructible T i
  | .content => HasDefaultContent T i
  | .none => ¬ Constructible T i ∧ ¬ HasDefaultContent T i

/-! ## Correctness of the search -/

/-- `i` asks for `j`. -/
inductive Needs (T : Types) : Ident → Ident → Prop
  | group {i ty g e j} (hi : Assoc.get T i = some ty)
      (hg : ty.variant = .all g ∨ ty.variant = .sequence g) (he : e ∈ g.elements) (hm : e.min ≠ 0)
      (hj : groupOf e = some j) : Needs T i j
  | choice {i ty g e j} (hi : Assoc.get T i = some ty) (hg : ty.variant = .choice g)
      (he : g.elements = [e]) (hm : e.min ≠ 0) (hj : groupOf e = some j) : Needs T i j
  | complex {i ty x j} (hi : Assoc.get T i = some ty) (hg : ty.variant = .complex x)
      (hc : x.content = some j) : Needs T i j

/-- The transitive closure. -/
inductive NeedsPlus (T : Types) : Ident → Ident → Prop
  | one {i j} (h : Needs T i j) : NeedsPlus T i j
  | snoc {i j k} (h : NeedsPlus T i j) (h' : Needs T j k) : NeedsPlus T i k

theorem NeedsPlus.cons {T : Types} {i j k : Ident} (h : Needs T i j) (h' : NeedsPlus T j k) :
    NeedsPlus T i k := by
  induction h' with
  | one h'' => exact .snoc (.one h) h''
  | snoc _ h'' ih => exact .snoc ih h''

theorem NeedsPlus.cases_cons {T : Types} {i k : Ident} (h : NeedsPlus T i k) :
    ∃ j, Needs T i j ∧ (j = k ∨ NeedsPlus T j k) := by
  induction h with
  | one h => exact ⟨_, h, Or.inl rfl⟩
  | snoc _ h' ih =>
    obtain ⟨j, hj, rfl | hjk⟩ := ih
    · exact ⟨j, hj, Or.inr (.one h')⟩
    · exact ⟨j, hj, Or.inr (.snoc hjk h')⟩

theorem constructible_needs {T : Types} {i j : Ident} (h : Constructible T i) (hn : Needs T i j) :
    Constructible T j := by
  cases h with
  | group hi hg hk hc =>
    cases hn with
    | group hi' hg' he hm hj =>
      rw [hi] at hi'; cases hi'
      rcases hg with hg | hg <;> rcases hg' with hg' | hg' <;> rw [hg] at hg' <;> cases hg' <;>
        exact hc _ he hm _ hj
    | choice hi' hg' => rw [hi] at hi'; cases hi'; rcases hg with hg | hg <;> rw [hg] at hg' <;> cases hg'
    | complex hi' hg' => rw [hi] at hi'; cases hi'; rcases hg with hg | hg <;> rw [hg] at hg' <;> cases hg'
  | choice hi hg he hk hc =>
    cases hn with
    | group hi' hg' => rw [hi] at hi'; cases hi'; rcases hg' with hg' | hg' <;> rw [hg] at hg' <;> cases hg'
    | choice hi' hg' he' hm hj =>
      rw [hi] at hi'; cases hi'
      rw [hg] at hg'; cases hg'
      rw [he] at he'; cases he'
      exact hc hm _ hj
    | complex hi' hg' => rw [hi] at hi'; cases hi'; rw [hg] at hg'; cases hg'

/-- A type that asks for itself cannot be constructed. -/
theorem not_constructible_cycle {T : Types} {i : Ident} (h : Constructible T i) :
    ¬ NeedsPlus T i i := by
  induction h with
  | @group i ty g hi hg hk hc ih =>
    intro hcyc
    obtain ⟨j, hj, hji⟩ := hcyc.cases_cons
    have hself : NeedsPlus T j j := by
      rcases hji with rfl | hji
      · exact .one hj
      · exact .snoc hji hj
    cases hj with
    | group hi' hg' he hm hgj =>
      rw [hi] at hi'; cases hi'
      rcases hg with hg | hg <;> rcases hg' with hg' | hg' <;> rw [hg] at hg' <;> cases hg' <;>
        exact ih _ he hm _ hgj hself
    | choice hi' hg' => rw [hi] at hi'; cases hi'; rcases hg with hg | hg <;> rw [hg] at hg' <;> cases hg'
    | complex hi' hg' => rw [hi] at hi'; cases hi'; rcases hg with hg | hg <;> rw [hg] at hg' <;> cases hg'
  | @choice i ty g e hi hg he hk hc ih =>
    intro hcyc
    obtain ⟨j, hj, hji⟩ := hcyc.cases_cons
    have hself : NeedsPlus T j j := by
      rcases hji with rfl | hji
      · exact .one hj
      · exact .snoc hji hj
    cases hj with
    | group hi' hg' => rw [hi] at hi'; cases hi'; rcases hg' with hg' | hg' <;> rw [hg] at hg' <;> cases hg'
    | choice hi' hg' he' hm hgj =>
      rw [hi] at hi'; cases hi'
      rw [hg] at hg'; cases hg'
      rw [he] at he'; cases he'
      exact ih hm _ hgj hself
    | complex hi' hg' => rw [hi] at hi'; cases hi'; rw [hg] at hg'; cases hg'

/-- What holds for a cache while `i` is asked for. -/
structure Inv (T : Types) (c : Cache) (i : Ident) : Prop where
  done : ∀ p v, Assoc.get c p = some (some v) → Right T p v
  running : ∀ p, Assoc.get c p = some none → NeedsPlus T p i

/-- What a query does to the cache. -/
structure Post (T : Types) (c c' : Cache) : Prop where
  done : ∀ p v, Assoc.get c' p = some (some v) → Right T p v
  running : ∀ p, Assoc.get c' p = some none ↔ Assoc.get c p = some none
  keys : ∀ p, p ∈ Assoc.keys c → p ∈ Assoc.keys c'

theorem Post.refl {T : Types} {c : Cache} (h : ∀ p v, Assoc.get c p = some (some v) → Right T p v) :
    Post T c c := ⟨h, fun _ => Iff.rfl, fun _ h => h⟩

theorem Post.trans {T : Types} {c c' c'' : Cache} (h : Post T c c') (h' : Post T c' c'') : Post T c c'' :=
  ⟨h'.done, fun p => (h'.running p).trans (h.running p), fun p hp => h'.keys p (h.keys p hp)⟩

/-- A correct query function. -/
def Good (T : Types) (q : Cache → Ident → Option (Cache × Option Defaultable)) : Prop :=
  ∀ c i c' r, Inv T c i → q c i = some (c', r) →
    Post T c c' ∧ (r = some .complete ↔ Constructible T i)

theorem elemF_good {T : Types} {q} (hq : Good T q) {c c' : Cache} {e : Element} {b : Bool}
    (hd : ∀ p v, Assoc.get c p = some (some v) → Right T p v)
    (hr : e.min ≠ 0 → ∀ j, groupOf e = some j → ∀ p, Assoc.get c p = some none → NeedsPlus T p j)
    (h : elemF q c e = some (c', b)) :
    Post T c c' ∧ (b = true ↔
      (e.min ≠ 0 → (groupOf e).isSome = true ∧ ∀ j, groupOf e = some j → Constructible T j)) := by
  unfold elemF at h
  by_cases hm : e.min = 0
  · rw [if_pos hm] at h
    cases h
    exact ⟨.refl hd, by simp [hm]⟩
  · rw [if_neg hm] at h
    cases hv : e.variant with
    | text => rw [hv] at h; cases h; exact ⟨.refl hd, by simp [groupOf, hv, hm]⟩
    | any m => rw [hv] at h; cases h; exact ⟨.refl hd, by simp [groupOf, hv, hm]⟩
    | type_ j mode =>
      rw [hv] at h
      cases mode with
      | element => cases h; exact ⟨.refl hd, by simp [groupOf, hv, hm]⟩
      | group =>
        simp only [Option.map_eq_some_iff] at h
        obtain ⟨⟨c1, r⟩, hq1, h1⟩ := h
        cases h1
        have hg : groupOf e = some j := by simp [groupOf, hv]
        obtain ⟨hp, hc⟩ := hq c j c1 r ⟨hd, hr hm j hg⟩ hq1
        refine ⟨hp, ?_⟩
        simp [hg, hm, hc]

theorem elemsF_good {T : Types} {q} (hq : Good T q) {es : List Element} :
    ∀ {c c' : Cache} {b : Bool},
    (∀ p v, Assoc.get c p = some (some v) → Right T p v) →
    (∀ e ∈ es, e.min ≠ 0 → ∀ j, groupOf e = some j → ∀ p, Assoc.get c p = some none → NeedsPlus T p j) →
    elemsF q c es = some (c', b) →
    Post T c c' ∧ (b = true ↔ ∀ e ∈ es,
      (e.min ≠ 0 → (groupOf e).isSome = true ∧ ∀ j, groupOf e = some j → Constructible T j)) := by
  induction es with
  | nil =>
    intro c c' b hd hr h
    simp only [elemsF, Option.some.injEq, Prod.mk.injEq] at h
    obtain ⟨rfl, rfl⟩ := h
    exact ⟨.refl hd, by simp⟩
  | cons e es ih =>
    intro c c' b hd hr h
    unfold elemsF at h
    by_cases hm : 0 < e.min
    · rw [if_pos hm] at h
      cases he : elemF q c e with
      | none => rw [he] at h; cases h
      | some r =>
        obtain ⟨c1, b1⟩ := r
        rw [he] at h
        obtain ⟨hp, hb⟩ := elemF_good hq hd (hr e (by simp)) he
        cases b1 with
        | true =>
          simp only at h
          have hr' : ∀ e ∈ es, e.min ≠ 0 → ∀ j, groupOf e = some j → ∀ p,
              Assoc.get c1 p = some none → NeedsPlus T p j := fun e' he' hm' j hj p hp' =>
            hr e' (by simp [he']) hm' j hj p ((hp.running p).mp hp')
          obtain ⟨hp', hb'⟩ := ih hp.done hr' h
          refine ⟨hp.trans hp', ?_⟩
          rw [hb']
          have := hb.mp rfl
          constructor
          · intro hall e' he'
            rcases List.mem_cons.mp he' with rfl | he'
            · exact this
            · exact hall e' he'
          · intro hall e' he'; exact hall e' (by simp [he'])
        | false =>
          simp only [Option.some.injEq, Prod.mk.injEq] at h
          obtain ⟨rfl, rfl⟩ := h
          refine ⟨hp, ?_⟩
          simp only [Bool.false_eq_true, false_iff] at hb ⊢
          intro hall
          exact hb (hall e (by simp))
    · rw [if_neg hm] at h
      have h0 : e.min = 0 := by omega
      obtain ⟨hp, hb⟩ := ih hd (fun e' he' => hr e' (by simp [he'])) h
      refine ⟨hp, ?_⟩
      rw [hb]
      constructor
      · intro hall e' he'
        rcases List.mem_cons.mp he' with rfl | he'
        · intro h'; exact absurd h0 h'
        · exact hall e' he'
      · intro hall e' he'; exact hall e' (by simp [he'])

theorem not_content_of_group {T : Types} {i : Ident} {ty : MetaType} (hi : Assoc.get T i = some ty)
    (h : ∀ x, ty.variant ≠ .complex x) : ¬ HasDefaultContent T i := by
  rintro ⟨ty', x, j, hi', hx, _⟩
  rw [hi] at hi'; cases hi'
  exact h x hx

theorem not_constructible_other {T : Types} {i : Ident}
    (h : ∀ ty, Assoc.get T i = some ty →
      (∀ g, ty.variant ≠ .all g) ∧ (∀ g, ty.variant ≠ .sequence g) ∧ (∀ g, ty.variant ≠ .choice g)) :
    ¬ Constructible T i := by
  intro hc
  cases hc with
  | group hi hg => rcases hg with hg | hg <;> simp [hg] at h <;> exact absurd hg (by
      first | exact (h _ hi).1 _ | exact (h _ hi).2.1 _)
  | choice hi hg => exact (h _ hi).2.2 _ hg

theorem newEntry_good {T : Types} {q} (hq : Good T q) {c c' : Cache} {i : Ident} {v : Defaultable}
    (hd : ∀ p v, Assoc.get c p = some (some v) → Right T p v)
    (hr : ∀ p, Assoc.get c p = some none → p = i ∨ NeedsPlus T p i)
    (h : newEntry q T c i = some (c', v)) : Post T c c' ∧ Right T i v := by
  have next : ∀ {j}, Needs T i j → ∀ p, Assoc.get c p = some none → NeedsPlus T p j := by
    intro j hj p hp
    rcases hr p hp with rfl | hpi
    · exact .one hj
    · exact .snoc hpi hj
  unfold newEntry at h
  cases hi : Assoc.get T i with
  | none =>
    rw [hi] at h; cases h
    refine ⟨.refl hd, not_constructible_other (by simp [hi]), ?_⟩
    rintro ⟨ty, _, _, hi', _⟩
    rw [hi] at hi'; cases hi'
  | some ty =>
    rw [hi] at h
    simp only [Option.map_some] at h
    have grp : ∀ g, ty.variant = .all g ∨ ty.variant = .sequence g →
        ((elemsF q c g.elements).map fun r => (r.1, if r.2 then Defaultable.complete else .none)) =
          some (c', v) → Post T c c' ∧ Right T i v := by
      intro g hg h
      simp only [Option.map_eq_some_iff] at h
      obtain ⟨⟨c1, b⟩, he, h1⟩ := h
      cases h1
      obtain ⟨hp, hb⟩ := elemsF_good hq hd
        (fun e he hm j hj => next (.group hi hg he hm hj)) he
      refine ⟨hp, ?_⟩
      cases b with
      | true =>
        have := hb.mp rfl
        exact .group hi hg (fun e he hm => (this e he hm).1) (fun e he hm => (this e he hm).2)
      | false =>
        refine ⟨?_, not_content_of_group hi (by rcases hg with hg | hg <;> simp [hg])⟩
        intro hc
        have : ∀ e ∈ g.elements,
            (e.min ≠ 0 → (groupOf e).isSome = true ∧ ∀ j, groupOf e = some j → Constructible T j) := by
          cases hc with
          | group hi' hg' hk hch =>
            rw [hi] at hi'; cases hi'
            rcases hg with hg | hg <;> rcases hg' with hg' | hg' <;> rw [hg] at hg' <;> cases hg' <;>
              exact fun e he hm => ⟨hk e he hm, hch e he hm⟩
          | choice hi' hg' =>
            rw [hi] at hi'; cases hi'
            rcases hg with hg | hg <;> rw [hg] at hg' <;> cases hg'
        have := hb.mpr this
        cases this
    cases hv : ty.variant with
    | all g => rw [hv] at h; exact grp g (Or.inl hv) h
    | sequence g => rw [hv] at h; exact grp g (Or.inr hv) h
    | choice g =>
      rw [hv] at h
      simp only at h
      have hnc : ¬ HasDefaultContent T i := not_content_of_group hi (by simp [hv])
      have single : ∀ e, g.elements = [e] →
          ((elemF q c e).map fun r => (r.1, if r.2 then Defaultable.complete else .none)) =
            some (c', v) → Post T c c' ∧ Right T i v := by
        intro e hel h
        simp only [Option.map_eq_some_iff] at h
        obtain ⟨⟨c1, b⟩, he, h1⟩ := h
        cases h1
        obtain ⟨hp, hb⟩ := elemF_good hq hd
          (fun hm j hj => next (.choice hi hv hel hm hj)) he
        refine ⟨hp, ?_⟩
        cases b with
        | true =>
          have := hb.mp rfl
          exact .choice hi hv hel (fun hm => (this hm).1) (fun hm => (this hm).2)
        | false =>
          refine ⟨?_, hnc⟩
          intro hc
          cases hc with
          | group hi' hg' =>
            rw [hi] at hi'; cases hi'
            rcases hg' with hg' | hg' <;> rw [hv] at hg' <;> cases hg'
          | choice hi' hg' hel' hk hch =>
            rw [hi] at hi'; cases hi'
            rw [hv] at hg'; cases hg'
            rw [hel] at hel'; cases hel'
            have := hb.mpr fun hm => ⟨hk hm, hch hm⟩
            cases this
      have other : (∀ e, g.elements ≠ [e]) → ¬ Constructible T i := by
        intro hne hc
        cases hc with
        | group hi' hg' =>
          rw [hi] at hi'; cases hi'
          rcases hg' with hg' | hg' <;> rw [hv] at hg' <;> cases hg'
        | choice hi' hg' hel' =>
          rw [hi] at hi'; cases hi'
          rw [hv] at hg'; cases hg'
          exact hne _ hel'
      match hel : g.elements with
      | [e] => rw [hel] at h; exact single e hel h
      | [] => rw [hel] at h; cases h; exact ⟨.refl hd, other (by simp [hel]), hnc⟩
      | _ :: _ :: _ => rw [hel] at h; cases h; exact ⟨.refl hd, other (by simp [hel]), hnc⟩
    | complex x =>
      rw [hv] at h
      simp only at h
      have hnc : ¬ Constructible T i := not_constructible_other (by
        intro ty' hty'; rw [hi] at hty'; cases hty'; simp [hv])
      cases hx : x.content with
      | none =>
        rw [hx] at h; cases h
        refine ⟨.refl hd, hnc, ?_⟩
        rintro ⟨ty', x', j, hi', hx', hj, _⟩
        rw [hi] at hi'; cases hi'
        rw [hv] at hx'; cases hx'
        rw [hx] at hj; cases hj
      | some j =>
        rw [hx] at h
        simp only [Option.map_eq_some_iff] at h
        obtain ⟨⟨c1, r⟩, hq1, h1⟩ := h
        cases h1
        obtain ⟨hp, hc⟩ := hq c j c1 r ⟨hd, next (.complex hi hv hx)⟩ hq1
        refine ⟨hp, ?_⟩
        by_cases hrc : r = some .complete
        · subst hrc
          exact ⟨ty, x, j, hi, hv, hx, hc.mp rfl⟩
        · have : (r == some Defaultable.complete) = false := by simpa using hrc
          simp only [this]
          refine ⟨hnc, ?_⟩
          rintro ⟨ty', x', j', hi', hx', hj, hcj⟩
          rw [hi] at hi'; cases hi'
          rw [hv] at hx'; cases hx'
          rw [hx] at hj; cases hj
          exact hrc (hc.mpr hcj)
    | union _ | buildIn _ | custom _ | reference _ | enumeration _ | dynamic _ | simple _ =>
      rw [hv] at h
      cases h
      refine ⟨.refl hd, ?_, not_content_of_group hi (by simp [hv])⟩
      apply not_constructible_other
      intro ty' hty'; rw [hi] at hty'; cases hty'; simp [hv]

theorem Right.complete_iff {T : Types} {i : Ident} {v : Defaultable} (h : Right T i v) :
    v = .complete ↔ Constructible T i := by
  cases v with
  | complete => exact ⟨fun _ => h, fun _ => rfl⟩
  | content =>
    simp only [reduceCtorEq, false_iff]
    obtain ⟨ty, x, j, hi, hx, _⟩ := h
    apply not_constructible_other
    intro ty' hty'; rw [hi] at hty'; cases hty'; simp [hx]
  | none => simpa using h.1

theorem searchF_good (T : Types) (fuel : Nat) : Good T (searchF fuel T) := by
  induction fuel with
  | zero => intro c i c' r _ h; cases h
  | succ fuel ih =>
    intro c i c' r hinv h
    unfold searchF at h
    cases hc : Assoc.get c i with
    | some v =>
      rw [hc] at h; cases h
      refine ⟨.refl hinv.done, ?_⟩
      cases r with
      | none =>
        simp only [reduceCtorEq, false_iff]
        intro hcon
        exact not_constructible_cycle hcon (hinv.running i hc)
      | some v => simp only [Option.some.injEq]; exact (hinv.done i v hc).complete_iff
    | none =>
      rw [hc] at h
      simp only [Option.map_eq_some_iff] at h
      obtain ⟨⟨c1, v⟩, hn, h1⟩ := h
      cases h1
      have hd : ∀ p v, Assoc.get (c.set i none) p = some (some v) → Right T p v := by
        intro p v hp
        unfold Cache.set at hp
        rw [Assoc.get_upsert] at hp
        split at hp
        · cases hp
        · exact hinv.done p v hp
      have hr : ∀ p, Assoc.get (c.set i none) p = some none → p = i ∨ NeedsPlus T p i := by
        intro p hp
        unfold Cache.set at hp
        rw [Assoc.get_upsert] at hp
        split at hp
        · rename_i h; exact Or.inl h.symm
        · exact Or.inr (hinv.running p hp)
      obtain ⟨hp, hright⟩ := newEntry_good ih hd hr hn
      refine ⟨⟨?_, ?_, ?_⟩, by simp only [Option.some.injEq]; exact hright.complete_iff⟩
      · intro p w hpw
        simp only [Cache.set] at hpw
        rw [Assoc.get_upsert] at hpw
        split at hpw
        · rename_i h; subst h; cases hpw; exact hright
        · exact hp.done p w hpw
      · intro p
        simp only [Cache.set]
        rw [Assoc.get_upsert]
        split
        · rename_i h; subst h; simp [hc]
        · rename_i hne
          rw [hp.running p]
          simp only [Cache.set]
          rw [Assoc.get_upsert, if_neg hne]
      · intro p hpk
        rw [Cache.set, Assoc.mem_keys_upsert]
        refine Or.inr (hp.keys p ?_)
        rw [Cache.set, Assoc.mem_keys_upsert]
        exact Or.inr hpk

/-! ## The search ends -/

/-- The types without an entry in the cache. -/
def uncached (T : Types) (c : Cache) : Nat :=
  ((Assoc.keys T).filter fun k => !(Assoc.keys c).contains k).length

theorem uncached_mono {T : Types} {c c' : Cache} (h : ∀ p, p ∈ Assoc.keys c → p ∈ Assoc.keys c') :
    uncached T c' ≤ uncached T c := by
  unfold uncached
  induction Assoc.keys T with
  | nil => simp
  | cons k ks ih =>
    by_cases hc : k ∈ Assoc.keys c
    · have hc' := h k hc
      simp [hc, hc']; simpa using ih
    · by_cases hc' : k ∈ Assoc.keys c'
      · simp [hc, hc']; simp at ih; omega
      · simp [hc, hc']; simpa using ih

theorem uncached_set {T : Types} {c : Cache} {i : Ident} (v : Option Defaultable)
    (hi : i ∈ Assoc.keys T) (hc : i ∉ Assoc.keys c) : uncached T (c.set i v) < uncached T c := by
  unfold uncached
  have hk : ∀ p, p ∈ Assoc.keys (c.set i v) ↔ p = i ∨ p ∈ Assoc.keys c := by
    intro p; rw [Cache.set, Assoc.mem_keys_upsert]
  generalize Assoc.keys T = ks at hi
  induction ks with
  | nil => cases hi
  | cons k ks ih =>
    have hle : (ks.filter fun k => !(Assoc.keys (c.set i v)).contains k).length ≤
        (ks.filter fun k => !(Assoc.keys c).contains k).length := by
      clear ih hi
      induction ks with
      | nil => simp
      | cons k ks ih =>
        by_cases hc : k ∈ Assoc.keys c
        · have hc' := (hk k).mpr (Or.inr hc)
          simp [hc, hc']; simpa using ih
        · by_cases hc' : k ∈ Assoc.keys (c.set i v)
          · simp [hc, hc']; simp at ih; omega
          · simp [hc, hc']; simpa using ih
    by_cases hki : k = i
    · subst hki
      have h1 := (hk k).mpr (Or.inl rfl)
      simp [hc, h1]; simp at hle; omega
    · have ih := ih (by rcases List.mem_cons.mp hi with h | h; exact absurd h.symm hki; exact h)
      by_cases hcc : k ∈ Assoc.keys c
      · have h1 := (hk k).mpr (Or.inr hcc)
        simp [hcc, h1]; simpa using ih
      · have h1 : k ∉ Assoc.keys (c.set i v) := by
          rw [hk]; rintro (h | h)
          · exact hki h
          · exact hcc h
        simp [hcc, h1]; simpa using ih

/-- A query function that answers whenever at most `n` types are not cached, and keeps the
entries. -/
def Answers (T : Types) (q : Cache → Ident → Option (Cache × Option Defaultable)) (n : Nat) : Prop :=
  ∀ c i, uncached T c < n →
    ∃ c' r, q c i = some (c', r) ∧ ∀ p, p ∈ Assoc.keys c → p ∈ Assoc.keys c'

theorem elemF_ends {T : Types} {q} {n : Nat} (hq : Answers T q n) (c : Cache) (e : Element)
    (hc : uncached T c < n) :
    ∃ c' b, elemF q c e = some (c', b) ∧ ∀ p, p ∈ Assoc.keys c → p ∈ Assoc.keys c' := by
  unfold elemF
  split
  · exact ⟨_, _, rfl, fun _ h => h⟩
  · split
    · rename_i j _
      obtain ⟨c', r, h, hk⟩ := hq c j hc
      exact ⟨c', _, by rw [h]; rfl, hk⟩
    · exact ⟨_, _, rfl, fun _ h => h⟩

theorem elemsF_ends {T : Types} {q} {n : Nat} (hq : Answers T q n) (es : List Element) :
    ∀ c, uncached T c < n →
    ∃ c' b, elemsF q c es = some (c', b) ∧ ∀ p, p ∈ Assoc.keys c → p ∈ Assoc.keys c' := by
  induction es with
  | nil => intro c _; exact ⟨_, _, rfl, fun _ h => h⟩
  | cons e es ih =>
    intro c hc
    unfold elemsF
    split
    · obtain ⟨c1, b, h, hk⟩ := elemF_ends hq c e hc
      rw [h]
      cases b with
      | true =>
        obtain ⟨c2, b2, h2, hk2⟩ := ih c1 (Nat.lt_of_le_of_lt (uncached_mono hk) hc)
        exact ⟨c2, b2, h2, fun p hp => hk2 p (hk p hp)⟩
      | false => exact ⟨_, _, rfl, hk⟩
    · exact ih c hc

theorem newEntry_ends {T : Types} {q} {n : Nat} (hq : Answers T q n) (c : Cache) (i : Ident)
    (hc : uncached T c < n ∨ Assoc.get T i = none) :
    ∃ c' v, newEntry q T c i = some (c', v) ∧ ∀ p, p ∈ Assoc.keys c → p ∈ Assoc.keys c' := by
  unfold newEntry
  cases hi : Assoc.get T i with
  | none => exact ⟨_, _, rfl, fun _ h => h⟩
  | some ty =>
    have hc : uncached T c < n := by
      rcases hc with h | h
      · exact h
      · rw [hi] at h; cases h
    simp only [Option.map_some]
    cases ty.variant with
    | all g =>
      obtain ⟨c', b, h, hk⟩ := elemsF_ends hq g.elements c hc
      exact ⟨c', _, by simp only [h]; rfl, hk⟩
    | sequence g =>
      obtain ⟨c', b, h, hk⟩ := elemsF_ends hq g.elements c hc
      exact ⟨c', _, by simp only [h]; rfl, hk⟩
    | choice g =>
      simp only
      split
      · rename_i e _
        obtain ⟨c', b, h, hk⟩ := elemF_ends hq c e hc
        exact ⟨c', _, by simp only [h]; rfl, hk⟩
      · exact ⟨_, _, rfl, fun _ h => h⟩
    | complex x =>
      simp only
      split
      · exact ⟨_, _, rfl, fun _ h => h⟩
      · rename_i j _
        obtain ⟨c', r, h, hk⟩ := hq c j hc
        exact ⟨c', _, by rw [h]; rfl, hk⟩
    | _ => exact ⟨_, _, rfl, fun _ h => h⟩

theorem searchF_ends (T : Types) (n : Nat) : Answers T (searchF n T) n := by
  induction n with
  | zero => intro c i h; omega
  | succ n ih =>
    intro c i hc
    unfold searchF
    cases hg : Assoc.get c i with
    | some v => exact ⟨_, _, rfl, fun _ h => h⟩
    | none =>
      have hnot := (Assoc.get_eq_none c i).mp hg
      have hx : uncached T (c.set i none) < n ∨ Assoc.get T i = none := by
        cases hi : Assoc.get T i with
        | none => exact Or.inr rfl
        | some ty =>
          have hk : i ∈ Assoc.keys T := by
            rw [← Assoc.get_isSome, hi]; rfl
          have := uncached_set (T := T) (c := c) none hk hnot
          left; omega
      obtain ⟨c', v, h, hk⟩ := newEntry_ends ih (c.set i none) i hx
      refine ⟨_, _, by simp only [h]; rfl, ?_⟩
      intro p hp
      simp only [Cache.set]
      rw [Assoc.mem_keys_upsert]
      refine Or.inr (hk p ?_)
      rw [Cache.set, Assoc.mem_keys_upsert]
      exact Or.inr hp

/-- **C54.** The search ends for every table of types, cyclic ones included, and every cache. -/
theorem C54_search_ends (T : Types) (c : Cache) (i : Ident) : ∃ r, search T c i = some r := by
  have hlt : uncached T c < T.length + 1 := by
    unfold uncached
    have := List.length_filter_le (fun k => !(Assoc.keys c).contains k) (Assoc.keys T)
    simp only [Assoc.keys, List.length_map] at this ⊢
    omega
  obtain ⟨c', r, h, _⟩ := searchF_ends T (T.length + 1) c i hlt
  exact ⟨_, h⟩

theorem reached_inv {T : Types} {c : Cache} (h : Reached T c) :
    (∀ p v, Assoc.get c p = some (some v) → Right T p v) ∧
    (∀ p, Assoc.get c p ≠ some none) := by
  induction h with
  | init => exact ⟨fun p v h => by simp [Assoc.get] at h, fun p h => by simp [Assoc.get] at h⟩
  | @query c c' i r hc hq ih =>
    obtain ⟨hp, _⟩ := searchF_good T _ c i c' r
      ⟨ih.1, fun p hp => absurd hp (ih.2 p)⟩ hq
    exact ⟨hp.done, fun p hpn => ih.2 p ((hp.running p).mp hpn)⟩

/-- **C54.** The decision is right, in whatever order the types are asked for: a type counts as
defaultable exactly if it can be constructed from nothing, and it counts as having defaultable
content exactly if it can be constructed or is a complex type with such content. Intermediate
results of cyclic tables in the cache do no harm. -/
theorem C54_decision_right {T : Types} {c c' : Cache} {i : Ident} {r : Option Defaultable}
    (hc : Reached T c) (h : search T c i = some (c', r)) :
    ∃ v, r = some v ∧ (v = .complete ↔ Constructible T i) ∧
      (v = .complete ∨ v = .content ↔ Constructible T i ∨ HasDefaultContent T i) := by
  have hinv := reached_inv hc
  have hc' := reached_inv (.query hc h)
  obtain ⟨hp, hr⟩ := searchF_good T _ c i c' r ⟨hinv.1, fun p hp => absurd hp (hinv.2 p)⟩ h
  -- the answer is the entry of the cache
  have hentry : Assoc.get c' i = some r := by
    unfold search searchF at h
    cases hg : Assoc.get c i with
    | some v => rw [hg] at h; cases h; exact hg
    | none =>
      rw [hg] at h
      simp only [Option.map_eq_some_iff] at h
      obtain ⟨x, _, hx⟩ := h
      cases hx
      rw [Cache.set, Assoc.get_upsert, if_pos rfl]
  cases r with
  | none => exact absurd hentry (hc'.2 i)
  | some v =>
    have hright := hc'.1 i v hentry
    refine ⟨v, rfl, hright.complete_iff, ?_⟩
    cases v with
    | complete => simp; exact Or.inl hright
    | content => simp; exact Or.inr hright
    | none => simp; exact hright

/-! ## What the generated code does with it -/

/-- A default value: the values of the fields. -/
inductive DTree where
  | node (i : Ident) (fields : List (List DTree))

/-- Is there a field or variant for the element? `ComplexDataElement::new`,
generator/data/complex.rs 584-635: not for `maxOccurs="0"`, and for `xs:any` only with
`ANY_TYPE_SUPPORT`. -/
def rendered (anySupport : Bool) (e : Element) : Bool :=
  fromOccurs e.min e.max ≠ .none &&
    (anySupport || match e.variant with | .any _ => false | _ => true)

/-- The container of the field. `opt` is `is_choice_with_optional_elements_only`
(complex.rs 857-914) for the type of the element: then a single value becomes optional
(complex.rs 642-646). -/
def container (opt : Ident → Bool) (e : Element) : Container :=
  match e.variant, fromOccurs e.min e.max with
  | .type_ j _, .single => if opt j then .optional else .single
  | _, o => o

/-- `n` default values, `finish_vec_default`, `finish_arr_default`. -/
def defaults (d : Option DTree) : Nat → Option (List DTree)
  | 0 => some []
  | n + 1 => d.bind fun x => (defaults d n).map (x :: ·)

/-- The field of an element without any event: `deserializer_struct_field_finish` (3883-3930);
`deserializer_enum_variant_default` (3320-3361) is the same. `dflt` is the decision, `d` the
default value of a type. -/
def fieldDefault (dflt : Element → Bool) (opt : Ident → Bool) (d : Ident → Option DTree)
    (e : Element) : Option (List DTree) :=
  let value : Option DTree :=
    if dflt e then (groupOf e).bind d else none
  match container opt e with
  | .none => none
  | .single => defaults value 1
  | .optional => some []
  | .dynamicList => if e.min = 0 then some [] else defaults value e.min
  | .staticList n => defaults value n

def fieldDefaults (dflt : Element → Bool) (opt : Ident → Bool) (d : Ident → Option DTree) :
    List Element → Option (List (List DTree))
  | [] => some []
  | e :: es => (fieldDefault dflt opt d e).bind fun vs => (fieldDefaults dflt opt d es).map (vs :: ·)

/-- `Deserializer::default().finish(helper)` of a group. `none` is an error, a panic or a
recursion without end. `flat` is `FLATTEN_ENUM_CONTENT`: a choice without rendered variants is
an empty struct without it (generator/data/complex.rs 281-304) and with it the generator indexes
an empty list (`self.elements[0]`, 1352). Complex mixed types (`text_before`) are not
modelled. -/
def defaultF (flat anySupport : Bool) (dflt : Element → Bool) (opt : Ident → Bool) (T : Types) :
    Nat → Ident → Option DTree
  | 0, _ => none
  | n + 1, i =>
    match (Assoc.get T i).map MetaType.variant with
    | some (.all g) | some (.sequence g) =>
      (fieldDefaults dflt opt (defaultF flat anySupport dflt opt T n)
        (g.elements.filter (rendered anySupport))).map (.node i)
    | some (.choice g) =>
      match g.elements.filter (rendered anySupport) with
      | [] => if flat then none else some (.node i [])
      | e :: _ =>
        (fieldDefault dflt opt (defaultF flat anySupport dflt opt T n) e).map fun vs => .node i [vs]
    | _ => none

/-- The decisions of the search, starting with the cache `c`. -/
def decide_ (T : Types) (c : Cache) (e : Element) : Bool :=
  match elemF (search T) c e with
  | some (_, b) => b
  | none => false

theorem defaults_ok {d : Option DTree} {x : DTree} (h : d = some x) (n : Nat) :
    ∃ xs, defaults d n = some xs ∧ xs.length = n := by
  induction n with
  | zero => exact ⟨[], rfl, rfl⟩
  | succ n ih =>
    obtain ⟨xs, hx, hl⟩ := ih
    exact ⟨x :: xs, by rw [defaults, hx, h]; rfl, by simp [hl]⟩

theorem decide_iff {T : Types} {c : Cache} (hc : Reached T c) (e : Element) :
    decide_ T c e = true ↔
      (e.min ≠ 0 → (groupOf e).isSome = true ∧ ∀ j, groupOf e = some j → Constructible T j) := by
  have hinv := reached_inv hc
  unfold decide_
  have hex : ∃ r, elemF (search T) c e = some r := by
    unfold elemF
    split
    · exact ⟨_, rfl⟩
    · split
      · rename_i j _
        obtain ⟨r, hr⟩ := C54_search_ends T c j
        exact ⟨_, by rw [hr]; rfl⟩
      · exact ⟨_, rfl⟩
  obtain ⟨⟨c', b⟩, hr⟩ := hex
  rw [hr]
  exact (elemF_good (searchF_good T _) hinv.1 (fun _ _ _ p hp => absurd hp (hinv.2 p)) hr).2

theorem fieldDefault_ok {T : Types} {c : Cache} (hc : Reached T c) (opt : Ident → Bool)
    (d : Ident → Option DTree) (e : Element) (hr : fromOccurs e.min e.max ≠ .none)
    (hk : e.min ≠ 0 → (groupOf e).isSome = true)
    (hcon : e.min ≠ 0 → ∀ j, groupOf e = some j → Constructible T j)
    (hd : e.min ≠ 0 → ∀ j, groupOf e = some j → ∃ x, d j = some x) :
    ∃ vs, fieldDefault (decide_ T c) opt d e = some vs := by
  unfold fieldDefault
  have hdec : decide_ T c e = true := (decide_iff hc e).mpr fun hm => ⟨hk hm, hcon hm⟩
  simp only [hdec, if_true]
  have hval : e.min ≠ 0 → ∃ x, (groupOf e).bind d = some x := by
    intro hm
    cases hg : groupOf e with
    | none => have := hk hm; rw [hg] at this; cases this
    | some j =>
      obtain ⟨x, hx⟩ := hd hm j hg
      exact ⟨x, by simp [hx]⟩
  have hcont : container opt e = .optional ∨ container opt e = fromOccurs e.min e.max := by
    unfold container
    split
    · split
      · exact Or.inl rfl
      · rename_i hs _; exact Or.inr hs.symm
    · exact Or.inr rfl
  rcases hcont with h | h
  · rw [h]; exact ⟨_, rfl⟩
  · rw [h]
    cases ho : fromOccurs e.min e.max with
    | none => exact absurd ho hr
    | optional => exact ⟨_, rfl⟩
    | single =>
      have hm : e.min ≠ 0 := by
        intro h0; rw [h0] at ho
        unfold fromOccurs at ho
        split at ho <;> simp_all
        split at ho <;> cases ho
      obtain ⟨x, hx⟩ := hval hm
      obtain ⟨xs, h1, _⟩ := defaults_ok hx 1
      exact ⟨xs, h1⟩
    | dynamicList =>
      by_cases hm : e.min = 0
      · simp [hm]
      · simp only [hm, if_false]
        obtain ⟨x, hx⟩ := hval hm
        obtain ⟨xs, h1, _⟩ := defaults_ok hx e.min
        exact ⟨xs, h1⟩
    | staticList n =>
      by_cases hn : n = 0
      · subst hn; exact ⟨[], rfl⟩
      · have hm : e.min ≠ 0 := by
          intro h0
          rw [h0] at ho
          unfold fromOccurs at ho
          split at ho <;> simp_all
          split at ho <;> simp_all
        obtain ⟨x, hx⟩ := hval hm
        obtain ⟨xs, h1, _⟩ := defaults_ok hx n
        exact ⟨xs, h1⟩

theorem fieldDefaults_ok {dflt : Element → Bool} {opt : Ident → Bool} {d : Ident → Option DTree}
    {es : List Element} (h : ∀ e ∈ es, ∃ vs, fieldDefault dflt opt d e = some vs) :
    ∃ fs, fieldDefaults dflt opt d es = some fs := by
  induction es with
  | nil => exact ⟨[], rfl⟩
  | cons e es ih =>
    obtain ⟨vs, hv⟩ := h e (by simp)
    obtain ⟨fs, hf⟩ := ih fun e he => h e (by simp [he])
    exact ⟨vs :: fs, by simp [fieldDefaults, hv, hf]⟩

theorem fieldDefault_mono {dflt : Element → Bool} {opt : Ident → Bool}
    {d d' : Ident → Option DTree} (hd : ∀ i x, d i = some x → d' i = some x) {e : Element}
    {vs : List DTree} (h : fieldDefault dflt opt d e = some vs) :
    fieldDefault dflt opt d' e = some vs := by
  have hval : ∀ n xs, defaults (if dflt e then (groupOf e).bind d else none) n = some xs →
      defaults (if dflt e then (groupOf e).bind d' else none) n = some xs := by
    intro n
    induction n with
    | zero => intro xs h; exact h
    | succ n ih =>
      intro xs h
      simp only [defaults] at h ⊢
      cases hv : (if dflt e then (groupOf e).bind d else none) with
      | none => rw [hv] at h; cases h
      | some x =>
        have hv' : (if dflt e then (groupOf e).bind d' else none) = some x := by
          split at hv
          · rename_i hde
            rw [if_pos hde]
            cases hg : groupOf e with
            | none => rw [hg] at hv; cases hv
            | some j => rw [hg] at hv; exact hd j x hv
          · cases hv
        rw [hv] at h ih
        rw [hv'] at ih ⊢
        simp only [Option.bind_some, Option.map_eq_some_iff] at h ⊢
        obtain ⟨ys, hy, rfl⟩ := h
        exact ⟨ys, ih ys hy, rfl⟩
  unfold fieldDefault at h ⊢
  simp only at h ⊢
  cases hc : container opt e with
  | none => rw [hc] at h; cases h
  | single => rw [hc] at h; exact hval _ _ h
  | optional => rw [hc] at h; exact h
  | dynamicList =>
    rw [hc] at h
    by_cases hm : e.min = 0
    · simpa [hm] using h
    · simp only [hm, if_false] at h ⊢; exact hval _ _ h
  | staticList n => rw [hc] at h; exact hval _ _ h

theorem fieldDefaults_mono {dflt : Element → Bool} {opt : Ident → Bool}
    {d d' : Ident → Option DTree} (hd : ∀ i x, d i = some x → d' i = some x) {es : List Element} :
    ∀ {fs}, fieldDefaults dflt opt d es = some fs → fieldDefaults dflt opt d' es = some fs := by
  induction es with
  | nil => intro fs h; exact h
  | cons e es ih =>
    intro fs h
    simp only [fieldDefaults] at h ⊢
    cases hv : fieldDefault dflt opt d e with
    | none => rw [hv] at h; cases h
    | some vs =>
      rw [hv] at h
      rw [fieldDefault_mono hd hv]
      simp only [Option.bind_some, Option.map_eq_some_iff] at h ⊢
      obtain ⟨ys, hy, rfl⟩ := h
      exact ⟨ys, ih hy, rfl⟩

theorem defaultF_succ {flat any : Bool} {dflt : Element → Bool} {opt : Ident → Bool} {T : Types} (n : Nat) :
    ∀ i x, defaultF flat any dflt opt T n i = some x → defaultF flat any dflt opt T (n + 1) i = some x := by
  induction n with
  | zero => intro i x h; cases h
  | succ n ih =>
    intro i x h
    rw [defaultF] at h ⊢
    cases hv : (Assoc.get T i).map MetaType.variant with
    | none => rw [hv] at h; cases h
    | some v =>
      rw [hv] at h
      cases v with
      | all g =>
        simp only [Option.map_eq_some_iff] at h ⊢
        obtain ⟨fs, hf, rfl⟩ := h
        exact ⟨fs, fieldDefaults_mono ih hf, rfl⟩
      | sequence g =>
        simp only [Option.map_eq_some_iff] at h ⊢
        obtain ⟨fs, hf, rfl⟩ := h
        exact ⟨fs, fieldDefaults_mono ih hf, rfl⟩
      | choice g =>
        simp only at h ⊢
        cases hf : g.elements.filter (rendered any) with
        | nil => rw [hf] at h; exact h
        | cons e es =>
          rw [hf] at h
          simp only [Option.map_eq_some_iff] at h ⊢
          obtain ⟨vs, hv, rfl⟩ := h
          exact ⟨vs, fieldDefault_mono ih hv, rfl⟩
      | _ => cases h

theorem defaultF_mono {flat any : Bool} {dflt : Element → Bool} {opt : Ident → Bool} {T : Types} {n m : Nat}
    (h : n ≤ m) {i : Ident} {x : DTree} (hx : defaultF flat any dflt opt T n i = some x) :
    defaultF flat any dflt opt T m i = some x := by
  induction h with
  | refl => exact hx
  | step _ ih => exact defaultF_succ _ i x ih

/-- A common bound for the elements of a list. -/
theorem bound_all {flat any : Bool} {dflt : Element → Bool} {opt : Ident → Bool} {T : Types}
    (es : List Element)
    (h : ∀ e ∈ es, e.min ≠ 0 → ∀ j, groupOf e = some j →
      ∃ n x, defaultF flat any dflt opt T n j = some x) :
    ∃ n, ∀ e ∈ es, e.min ≠ 0 → ∀ j, groupOf e = some j →
      ∃ x, defaultF flat any dflt opt T n j = some x := by
  induction es with
  | nil => exact ⟨0, by simp⟩
  | cons e es ih =>
    obtain ⟨n, hn⟩ := ih fun e' he' => h e' (by simp [he'])
    have he : ∃ m, e.min ≠ 0 → ∀ j, groupOf e = some j →
        ∃ x, defaultF flat any dflt opt T m j = some x := by
      cases hg : groupOf e with
      | none => exact ⟨0, by simp⟩
      | some j =>
        by_cases hm : e.min = 0
        · exact ⟨0, fun h => absurd hm h⟩
        · obtain ⟨m, x, hx⟩ := h e (by simp) hm j hg
          exact ⟨m, fun _ j' hj' => by cases hj'; exact ⟨x, hx⟩⟩
    obtain ⟨m, hm⟩ := he
    refine ⟨max n m, ?_⟩
    intro e' he' hmin j hj
    rcases List.mem_cons.mp he' with rfl | he'
    · obtain ⟨x, hx⟩ := hm hmin j hj
      exact ⟨x, defaultF_mono (Nat.le_max_right n m) hx⟩
    · obtain ⟨x, hx⟩ := hn e' he' hmin j hj
      exact ⟨x, defaultF_mono (Nat.le_max_left n m) hx⟩

/-- Every choice that the search decides on has a variant in the generated code. -/
def ChoicesRendered (anySupport : Bool) (T : Types) : Prop :=
  ∀ i ty g e, Assoc.get T i = some ty → ty.variant = .choice g → g.elements = [e] →
    rendered anySupport e = true

/-- **C54.** If the search decides that a group is defaultable, finishing its deserializer
without any event succeeds (after finitely many steps, in spite of cycles), in whatever order
the decisions were made. With `FLATTEN_ENUM_CONTENT` (`flat`) this needs that no choice has an
alternative without a variant as its only one, see `C54_any_choice_panics`. -/
theorem C54_default_succeeds_partial {T : Types} {c c' : Cache} {i : Ident} (flat anySupport : Bool)
    (opt : Ident → Bool) (hc : Reached T c) (h : search T c i = some (c', some .complete))
    (hch : flat = true → ChoicesRendered anySupport T) :
    ∃ n x, defaultF flat anySupport (decide_ T c) opt T n i = some x := by
  have hcon : Constructible T i := by
    obtain ⟨v, hv, hcon, _⟩ := C54_decision_right hc h
    cases hv
    exact hcon.mp rfl
  clear h
  induction hcon with
  | @group i ty g hi hg hk hcj ih =>
    obtain ⟨n, hn⟩ := bound_all g.elements ih
    obtain ⟨fs, hfs⟩ := fieldDefaults_ok (dflt := decide_ T c) (opt := opt)
      (d := defaultF flat anySupport (decide_ T c) opt T n)
      (es := g.elements.filter (rendered anySupport)) (by
        intro e he
        obtain ⟨he, hr⟩ := List.mem_filter.mp he
        have hr : fromOccurs e.min e.max ≠ .none := by
          simp [rendered] at hr; exact hr.1
        exact fieldDefault_ok hc opt _ e hr (hk e he) (hcj e he) (hn e he))
    refine ⟨n + 1, .node i fs, ?_⟩
    rw [defaultF, hi]
    rcases hg with hg | hg <;> simp [hg, hfs]
  | @choice i ty g e hi hg he hk hcj ih =>
    have ih : ∀ e' ∈ [e], e'.min ≠ 0 → ∀ j, groupOf e' = some j →
        ∃ n x, defaultF flat anySupport (decide_ T c) opt T n j = some x := by
      intro e' he' hm j hj
      simp at he'; subst he'
      exact ih hm j hj
    obtain ⟨n, hn⟩ := bound_all [e] ih
    by_cases hrend : rendered anySupport e = true
    case neg =>
      cases flat with
      | true => exact absurd (hch rfl i ty g e hi hg he) hrend
      | false => exact ⟨1, .node i [], by simp [defaultF, hi, hg, he, hrend]⟩
    have hr : fromOccurs e.min e.max ≠ .none := by
      simp [rendered] at hrend; exact hrend.1
    obtain ⟨vs, hvs⟩ := fieldDefault_ok hc opt
      (defaultF flat anySupport (decide_ T c) opt T n) e hr hk hcj (hn e (by simp))
    refine ⟨n + 1, .node i [vs], ?_⟩
    rw [defaultF, hi]
    simp [hg, he, hrend, hvs]

theorem defaults_length {d : Option DTree} (n : Nat) :
    ∀ {xs}, defaults d n = some xs → xs.length = n := by
  induction n with
  | zero => intro xs h; cases h; rfl
  | succ n ih =>
    intro xs h
    rw [defaults] at h
    cases d with
    | none => cases h
    | some x =>
      simp only [Option.bind_some, Option.map_eq_some_iff] at h
      obtain ⟨ys, hy, rfl⟩ := h
      simp [ih hy]

/-- **C54.** A field filled from nothing holds as few values as the schema allows: `minOccurs`
of them. Fields of choices without required alternatives are the exception: they stay empty. -/
theorem C54_default_counts {dflt : Element → Bool} {opt : Ident → Bool} {d : Ident → Option DTree}
    {e : Element} {vs : List DTree} (h : fieldDefault dflt opt d e = some vs)
    (hopt : ∀ j m, e.variant = .type_ j m → opt j = false) : vs.length = e.min := by
  have hcont : container opt e = fromOccurs e.min e.max := by
    unfold container
    split
    · rename_i j m hs hv
      rw [hopt j m hs, hv]; rfl
    · rfl
  unfold fieldDefault at h
  rw [hcont] at h
  simp only at h
  cases ho : fromOccurs e.min e.max with
  | none => rw [ho] at h; cases h
  | single =>
    rw [ho] at h
    have hm : e.min = 1 := by
      unfold fromOccurs at ho
      split at ho <;> simp_all
      split at ho <;> cases ho
    rw [defaults_length _ h, hm]
  | optional =>
    rw [ho] at h; cases h
    have hm : e.min = 0 := by
      unfold fromOccurs at ho
      split at ho <;> simp_all
      split at ho <;> cases ho
    rw [hm]; rfl
  | dynamicList =>
    rw [ho] at h
    by_cases hm : e.min = 0
    · simp only [hm, if_true] at h; cases h; simp [hm]
    · simp only [hm, if_false] at h; exact defaults_length _ h
  | staticList n =>
    rw [ho] at h
    have hm : e.min = n := by
      unfold fromOccurs at ho
      split at ho <;> simp_all
      split at ho <;> simp_all
    rw [defaults_length _ h, hm]

/-! ## Non-vacuity and finding -/

namespace Ex

def id_ (n : Nat) : Ident := ⟨0, 0, .named ['T', Char.ofNat (48 + n)], .type_⟩
def el (min : Nat) (v : ElementVariant) : Element :=
  ⟨⟨0, .named ['e']⟩, v, .qualified, ⟨false, false, false, false, false⟩, min, .bounded 1, none, []⟩
def ty (v : Variant) : MetaType := MetaType.new v

/-- `T0` is a sequence of the group `T1` (twice required) and an optional element; `T1` is a
choice of the group `T2`; `T2` and `T3` ask for each other; `T4` has the content `T0`. -/
def T : Types :=
  [(id_ 0, ty (.sequence ⟨false, [el 1 (.type_ (id_ 1) .group), el 0 (.type_ (id_ 9) .element)]⟩)),
   (id_ 1, ty (.choice ⟨false, [el 0 (.type_ (id_ 2) .group)]⟩)),
   (id_ 2, ty (.sequence ⟨false, [el 1 (.type_ (id_ 3) .group)]⟩)),
   (id_ 3, ty (.all ⟨false, [el 1 (.type_ (id_ 2) .group)]⟩)),
   (id_ 4, ty (.complex ⟨.none, some (id_ 0), 1, .bounded 1, false, false, []⟩))]

example : ((search T [] (id_ 0)).map (·.2)) = some (some .complete) ∧
    ((search T [] (id_ 2)).map (·.2)) = some (some .none) ∧
    ((search T [] (id_ 4)).map (·.2)) = some (some .content) ∧
    ChoicesRendered false T := by
  refine ⟨by decide +kernel, by decide +kernel, by decide +kernel, ?_⟩
  intro i ty g e hi hg he
  have hmem := Assoc.mem_of_get hi
  simp only [T, List.mem_cons, Prod.mk.injEq, List.not_mem_nil, or_false] at hmem
  rcases hmem with ⟨_, rfl⟩ | ⟨_, rfl⟩ | ⟨_, rfl⟩ | ⟨_, rfl⟩ | ⟨_, rfl⟩ <;>
    simp [Ex.ty, MetaType.new] at hg
  subst hg
  simp at he; subst he
  decide

example : (defaultF true false (decide_ T []) (fun _ => false) T 3 (id_ 0)).isSome = true := by
  decide +kernel

example : (fieldDefault (decide_ T []) (fun _ => false)
    (defaultF true false (decide_ T []) (fun _ => false) T 3)
    { el 3 (.type_ (id_ 1) .group) with max := .bounded 7 }).map List.length = some 3 := by
  decide +kernel

/-- A choice whose only alternative is an optional `xs:any`. -/
def anyChoice : Types :=
  [(id_ 0, ty (.choice ⟨false, [el 0 (.any ⟨none, none, none, none, []⟩)]⟩))]

end Ex

/-- **C54, finding.** A choice whose only alternative is an optional `xs:any` counts as
defaultable, but without `ANY_TYPE_SUPPORT` it has no variant: with `FLATTEN_ENUM_CONTENT` the
generator indexes an empty list (`self.elements[0]`) and panics. -/
theorem C54_any_choice_panics :
    ((search Ex.anyChoice [] (Ex.id_ 0)).map (·.2)) = some (some .complete) ∧
    ∀ dflt opt n, defaultF true false dflt opt Ex.anyChoice n (Ex.id_ 0) = none := by
  refine ⟨by decide +kernel, ?_⟩
  intro dflt opt n
  cases n with
  | zero => rfl
  | succ n =>
    have : (Ex.el 0 (.any ⟨none, none, none, none, []⟩) :: []).filter (rendered false) = [] := by
      decide
    simp [defaultF, Ex.anyChoice, Assoc.get, Ex.ty, MetaType.new, this]

end Verif.Gen.Dflt

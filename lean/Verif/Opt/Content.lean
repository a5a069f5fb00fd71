import Verif.Opt.Common
/-!
# Replacing the content of a complex type

Used for the passes that rewrite the content group of a complex type together with its number of occurrences (C40, C41).
-/
namespace Verif.Opt

open Verif.Meta
open Verif.Occurs (MaxOccurs Allows)

/-! ## Repetition as a list of parts -/

theorem groupTimes_parts {P : Lex} {T : Types} {g : Ident} {k : Nat} {ns : List Node}
    (h : Valid P T (.groupTimes g k ns)) :
    ∃ parts : List (List Node), parts.length = k ∧ parts.flatten = ns ∧ ∀ p ∈ parts, Valid P T (.group g p) := by
  generalize hj : Judge.groupTimes g k ns = j at h
  induction h generalizing k ns <;> cases hj
  case noTimes => exact ⟨[], rfl, rfl, by simp⟩
  case oneMore a b h1 _ _ ih =>
    obtain ⟨ps, e1, e2, e3⟩ := ih rfl
    refine ⟨a :: ps, by simp [e1], by simp [e2], ?_⟩
    intro p hp
    rcases List.mem_cons.1 hp with rfl | hp
    · exact h1
    · exact e3 p hp

theorem groupTimes_of_parts {P : Lex} {T : Types} {g : Ident} (parts : List (List Node))
    (h : ∀ p ∈ parts, Valid P T (.group g p)) : Valid P T (.groupTimes g parts.length parts.flatten) := by
  induction parts with
  | nil => exact .noTimes
  | cons p ps ih => exact .oneMore (h p (by simp)) (ih (fun q hq => h q (by simp [hq])))

theorem times_parts {P : Lex} {T : Types} {e : Element} {k : Nat} {ns : List Node}
    (h : Valid P T (.times e k ns)) :
    ∃ parts : List (List Node), parts.length = k ∧ parts.flatten = ns ∧ ∀ p ∈ parts, Valid P T (.particle e p) := by
  generalize hj : Judge.times e k ns = j at h
  induction h generalizing k ns <;> cases hj
  case zero => exact ⟨[], rfl, rfl, by simp⟩
  case succ a b h1 _ _ ih =>
    obtain ⟨ps, e1, e2, e3⟩ := ih rfl
    refine ⟨a :: ps, by simp [e1], by simp [e2], ?_⟩
    intro p hp
    rcases List.mem_cons.1 hp with rfl | hp
    · exact h1
    · exact e3 p hp

theorem times_of_parts {P : Lex} {T : Types} {e : Element} (parts : List (List Node))
    (h : ∀ p ∈ parts, Valid P T (.particle e p)) : Valid P T (.times e parts.length parts.flatten) := by
  induction parts with
  | nil => exact .zero
  | cons p ps ih => exact .succ (h p (by simp)) (ih (fun q hq => h q (by simp [hq])))

theorem times_append {P : Lex} {T : Types} {e : Element} {k l : Nat} {a b : List Node}
    (h : Valid P T (.times e k a)) (h' : Valid P T (.times e l b)) : Valid P T (.times e (k + l) (a ++ b)) := by
  obtain ⟨p, rfl, rfl, hp⟩ := times_parts h
  obtain ⟨q, rfl, rfl, hq⟩ := times_parts h'
  rw [← List.length_append, ← List.flatten_append]
  apply times_of_parts
  intro x hx
  rcases List.mem_append.1 hx with hx | hx
  · exact hp x hx
  · exact hq x hx

theorem groupTimes_append {P : Lex} {T : Types} {g : Ident} {k l : Nat} {a b : List Node}
    (h : Valid P T (.groupTimes g k a)) (h' : Valid P T (.groupTimes g l b)) :
    Valid P T (.groupTimes g (k + l) (a ++ b)) := by
  obtain ⟨p, rfl, rfl, hp⟩ := groupTimes_parts h
  obtain ⟨q, rfl, rfl, hq⟩ := groupTimes_parts h'
  rw [← List.length_append, ← List.flatten_append]
  apply groupTimes_of_parts
  intro x hx
  rcases List.mem_append.1 hx with hx | hx
  · exact hp x hx
  · exact hq x hx

/-- One occurrence of a particle does not depend on its bounds. -/
theorem particle_congr {P : Lex} {T : Types} {e e' : Element} {ns : List Node} (h : Valid P T (.particle e ns))
    (hi : e.ident = e'.ident) (hv : e.variant = e'.variant) : Valid P T (.particle e' ns) := by
  cases h with
  | element h1 h2 => rw [hi]; exact .element (hv ▸ h1) h2
  | nested h1 h2 => exact .nested (hv ▸ h1) h2
  | wildcard h1 h2 => exact .wildcard (hv ▸ h1) h2
  | textNode h1 => exact .textNode (hv ▸ h1)

theorem times_congr {P : Lex} {T : Types} {e e' : Element} {k : Nat} {ns : List Node} (h : Valid P T (.times e k ns))
    (hi : e.ident = e'.ident) (hv : e.variant = e'.variant) : Valid P T (.times e' k ns) := by
  obtain ⟨p, rfl, rfl, hp⟩ := times_parts h
  exact times_of_parts p (fun x hx => particle_congr (hp x hx) hi hv)

/-! ## The group of one complex type -/

/-- The definition `v` uses the group `g` as part of a content model. -/
def UsesGroup (g : Ident) : Variant → Prop
  | .reference r => r.type_ = g
  | .all x | .choice x | .sequence x => ∃ e ∈ x.elements, e.variant = .type_ g .group
  | .complex c => c.content = some g
  | _ => False

/-- The group `g` is used by nobody but the type `c`. -/
def OnlyUsedBy (T : Types) (c g : Ident) : Prop := ∀ i v, look T i = some v → UsesGroup g v → i = c

def Variant.IsGroup : Variant → Prop
  | .all _ | .choice _ | .sequence _ => True
  | _ => False

/-- The statements about the new table that are proved for the judgements of the old one. -/
def NewContent (P : Lex) (T T' : Types) (g : Ident) : Judge → Prop
  | .group i ns => if i = g then Step P (look T) (Valid P T') (.group g ns) else Valid P T' (.group i ns)
  | .groupTimes i k ns =>
    if i = g then ∃ parts : List (List Node), parts.length = k ∧ parts.flatten = ns ∧
      ∀ p ∈ parts, Step P (look T) (Valid P T') (.group g p)
    else Valid P T' (.groupTimes i k ns)
  | .particle e ns => e.variant ≠ .type_ g .group → Valid P T' (.particle e ns)
  | .times e k ns => e.variant ≠ .type_ g .group → Valid P T' (.times e k ns)
  | .inOrder es ns => (∀ e ∈ es, e.variant ≠ .type_ g .group) → Valid P T' (.inOrder es ns)
  | j => Valid P T' j

/-- If the content group `g` of the complex type `c` is used only there, and every repetition of the old group that `c`
allows is a repetition of the new group that `c` allows now, then everything accepted before is accepted now. -/
theorem replace_content {P : Lex} {T T' : Types} {c g : Ident} {C C' : Complex} {V : Variant}
    (hc : look T c = some (.complex C)) (hc' : look T' c = some (.complex C'))
    (hC : C' = { C with min := C'.min, max := C'.max }) (hg : C.content = some g)
    (hV : look T g = some V) (hgr : Variant.IsGroup V)
    (hsame : ∀ i, i ≠ c → i ≠ g → look T' i = look T i) (hp : OnlyUsedBy T c g)
    (hmain : ∀ parts : List (List Node), Allows C.min C.max parts.length →
      (∀ p ∈ parts, Step P (look T) (Valid P T') (.group g p)) →
      ∃ k, Allows C'.min C'.max k ∧ Valid P T' (.groupTimes g k parts.flatten))
    {j : Judge} (h : Valid P T j) : NewContent P T T' g j := by
  have hcg : c ≠ g := by
    rintro rfl
    rw [hc] at hV
    cases hV
    exact hgr
  have hatt : C'.attributes = C.attributes := by rw [hC]
  have hcon : C'.content = some g := by rw [hC]; exact hg
  have hmix : C'.isMixed = C.isMixed := by rw [hC]
  -- the definition of `i` is the same in both tables, unless it is a complex type with content `g`
  have hl : ∀ i v, look T i = some v → i ≠ g → (∀ x, v ≠ .complex x) → look T' i = some v := by
    intro i v hi hig hx
    rw [hsame i ?_ hig]
    · exact hi
    · rintro rfl
      rw [hc] at hi
      exact hx C (Option.some.inj hi).symm
  have hng : ∀ i v, look T i = some v → (∀ x, v ≠ .all x) → (∀ x, v ≠ .choice x) → (∀ x, v ≠ .sequence x) → i ≠ g := by
    rintro i v hi h1 h2 h3 rfl
    rw [hV] at hi
    cases hi
    cases V <;> first | exact hgr | exact h1 _ rfl | exact h2 _ rfl | exact h3 _ rfl
  have hl' : ∀ i v, look T i = some v → (∀ x, v ≠ .all x) → (∀ x, v ≠ .choice x) → (∀ x, v ≠ .sequence x) →
      (∀ x, v ≠ .complex x) → ∃ ty, Assoc.get T' i = some ty ∧ ty.variant = v := by
    intro i v hi h1 h2 h3 h4
    exact look_iff.1 (hl i v hi (hng i v hi h1 h2 h3) h4)
  refine h.least (fun j hj => ?_)
  cases hj with
  | refText h1 h2 h3 h4 =>
    obtain ⟨ty, e1, e2⟩ := hl' _ _ h1 (by simp) (by simp) (by simp) (by simp); exact .refText e1 e2 h2 h3 h4
  | listText h1 h2 h3 h4 =>
    obtain ⟨ty, e1, e2⟩ := hl' _ _ h1 (by simp) (by simp) (by simp) (by simp); exact .listText e1 e2 h2 h3 h4
  | unionText h1 h2 h3 h4 =>
    obtain ⟨ty, e1, e2⟩ := hl' _ _ h1 (by simp) (by simp) (by simp) (by simp); exact .unionText e1 e2 h2 h3 h4
  | builtInText h1 h2 =>
    obtain ⟨ty, e1, e2⟩ := hl' _ _ h1 (by simp) (by simp) (by simp) (by simp); exact .builtInText e1 e2 h2
  | customText h1 h2 =>
    obtain ⟨ty, e1, e2⟩ := hl' _ _ h1 (by simp) (by simp) (by simp) (by simp); exact .customText e1 e2 h2
  | literalText h1 h2 h3 h4 =>
    obtain ⟨ty, e1, e2⟩ := hl' _ _ h1 (by simp) (by simp) (by simp) (by simp); exact .literalText e1 e2 h2 h3 h4
  | variantText h1 h2 h3 h4 =>
    obtain ⟨ty, e1, e2⟩ := hl' _ _ h1 (by simp) (by simp) (by simp) (by simp); exact .variantText e1 e2 h2 h3 h4
  | simpleText h1 h2 h3 h4 =>
    obtain ⟨ty, e1, e2⟩ := hl' _ _ h1 (by simp) (by simp) (by simp) (by simp); exact .simpleText e1 e2 h2 h3 h4
  | simpleListText h1 h2 h3 h4 =>
    obtain ⟨ty, e1, e2⟩ := hl' _ _ h1 (by simp) (by simp) (by simp) (by simp); exact .simpleListText e1 e2 h2 h3 h4
  | refValue h1 h2 h3 h4 =>
    obtain ⟨ty, e1, e2⟩ := hl' _ _ h1 (by simp) (by simp) (by simp) (by simp); exact .refValue e1 e2 h2 h3 h4
  | textValue h1 => exact .textValue h1
  | customValue h1 h2 =>
    obtain ⟨ty, e1, e2⟩ := hl' _ _ h1 (by simp) (by simp) (by simp) (by simp); exact .customValue e1 e2 h2
  | dynamicValue h1 h2 h3 h4 =>
    obtain ⟨ty, e1, e2⟩ := hl' _ _ h1 (by simp) (by simp) (by simp) (by simp); exact .dynamicValue e1 e2 h2 h3 h4
  | @emptyValue i D xsi as h1 h2 h3 h4 =>
    by_cases hi : i = c
    · subst hi
      rw [hc] at h1; cases h1
      rw [hg] at h2; cases h2
    · obtain ⟨ty, e1, e2⟩ := look_iff.1 ((hsame i hi (hng i _ h1 (by simp) (by simp) (by simp))).trans h1)
      exact .emptyValue e1 e2 h2 h3 h4
  | @simpleValue i D g' xsi as s h1 h2 h3 h4 h5 =>
    by_cases hi : i = c
    · subst hi
      rw [hc] at h1; cases h1
      obtain ⟨ty, e1, e2⟩ := look_iff.1 hc'
      rw [hg] at h2; cases h2
      exact .simpleValue e1 e2 hcon (hatt ▸ h3) (hatt ▸ h4) h5
    · obtain ⟨ty, e1, e2⟩ := look_iff.1 ((hsame i hi (hng i _ h1 (by simp) (by simp) (by simp))).trans h1)
      exact .simpleValue e1 e2 h2 h3 h4 h5
  | @complexValue i D g' k xsi as kids h1 h2 h3 h4 h5 h6 =>
    by_cases hi : i = c
    · subst hi
      rw [hc] at h1; cases h1
      obtain ⟨ty, e1, e2⟩ := look_iff.1 hc'
      rw [hg] at h2; cases h2
      simp only [NewContent, if_true] at h6
      obtain ⟨parts, g1, g2, g3⟩ := h6
      obtain ⟨k', g4, g5⟩ := hmain parts (by rw [g1]; exact h5) g3
      exact .complexValue e1 e2 hcon (hatt ▸ h3) (hatt ▸ h4) g4 (by rw [hmix, ← g2]; exact g5)
    · obtain ⟨ty, e1, e2⟩ := look_iff.1 ((hsame i hi (hng i _ h1 (by simp) (by simp) (by simp))).trans h1)
      have hne : g' ≠ g := by rintro rfl; exact hi (hp i _ h1 h2)
      simp only [NewContent, if_neg hne] at h6
      exact .complexValue e1 e2 h2 h3 h4 h5 h6
  | @refGroup i r ns h1 h2 h3 h4 =>
    have hi := hng i _ h1 (by simp) (by simp) (by simp)
    have hr : r.type_ ≠ g := by
      intro he
      have := hp i _ h1 he
      subst this
      rw [hc] at h1; cases h1
    simp only [NewContent, if_neg hr] at h4
    simp only [NewContent, if_neg hi]
    obtain ⟨ty, e1, e2⟩ := look_iff.1 (hl i _ h1 hi (by simp))
    exact .refGroup e1 e2 h2 h3 h4
  | @sequence i x ns h1 h2 =>
    have hx : ∀ e ∈ x.elements, e.variant ≠ .type_ g .group := by
      intro e he hv
      have := hp i _ h1 ⟨e, he, hv⟩
      subst this
      rw [hc] at h1; cases h1
    by_cases hi : i = g
    · subst hi
      simp only [NewContent, if_true]
      exact .sequence h1 (h2 hx)
    · simp only [NewContent, if_neg hi]
      obtain ⟨ty, e1, e2⟩ := look_iff.1 (hl i _ h1 hi (by simp))
      exact .sequence e1 e2 (h2 hx)
  | @choice i x e k ns h1 h2 h3 h4 =>
    have hx : e.variant ≠ .type_ g .group := by
      intro hv
      have := hp i _ h1 ⟨e, h2, hv⟩
      subst this
      rw [hc] at h1; cases h1
    by_cases hi : i = g
    · subst hi
      simp only [NewContent, if_true]
      exact .choice h1 h2 h3 (h4 hx)
    · simp only [NewContent, if_neg hi]
      obtain ⟨ty, e1, e2⟩ := look_iff.1 (hl i _ h1 hi (by simp))
      exact .choice e1 e2 h2 h3 (h4 hx)
  | @all i x es ns h1 h2 h3 =>
    have hx : ∀ e ∈ es, e.variant ≠ .type_ g .group := by
      intro e he hv
      have := hp i _ h1 ⟨e, h2.mem_iff.1 he, hv⟩
      subst this
      rw [hc] at h1; cases h1
    by_cases hi : i = g
    · subst hi
      simp only [NewContent, if_true]
      exact .all h1 h2 (h3 hx)
    · simp only [NewContent, if_neg hi]
      obtain ⟨ty, e1, e2⟩ := look_iff.1 (hl i _ h1 hi (by simp))
      exact .all e1 e2 h2 (h3 hx)
  | @substitution i d key der xsi as kids h1 h2 h3 =>
    have hi := hng i _ h1 (by simp) (by simp) (by simp)
    simp only [NewContent, if_neg hi]
    obtain ⟨ty, e1, e2⟩ := look_iff.1 (hl i _ h1 hi (by simp))
    exact .substitution e1 e2 h2 h3
  | @complexGroup i D g' k ns h1 h2 h3 h4 =>
    have hi := hng i _ h1 (by simp) (by simp) (by simp)
    simp only [NewContent, if_neg hi]
    by_cases hi' : i = c
    · subst hi'
      rw [hc] at h1; cases h1
      obtain ⟨ty, e1, e2⟩ := look_iff.1 hc'
      rw [hg] at h2; cases h2
      simp only [NewContent, if_true] at h4
      obtain ⟨parts, g1, g2, g3⟩ := h4
      obtain ⟨k', g4, g5⟩ := hmain parts (by rw [g1]; exact h3) g3
      exact .complexGroup e1 e2 hcon g4 (by rw [← g2]; exact g5)
    · obtain ⟨ty, e1, e2⟩ := look_iff.1 ((hsame i hi' hi).trans h1)
      have hne : g' ≠ g := by rintro rfl; exact hi' (hp i _ h1 h2)
      simp only [NewContent, if_neg hne] at h4
      exact .complexGroup e1 e2 h2 h3 h4
  | @noTimes i =>
    by_cases hi : i = g
    · simp only [NewContent, if_pos hi]; exact ⟨[], rfl, rfl, by simp⟩
    · simp only [NewContent, if_neg hi]; exact .noTimes
  | @oneMore i k a b h1 h2 =>
    by_cases hi : i = g
    · subst hi
      simp only [NewContent, if_true] at h1 h2 ⊢
      obtain ⟨ps, e1, e2, e3⟩ := h2
      refine ⟨a :: ps, by simp [e1], by simp [e2], ?_⟩
      intro p hp
      rcases List.mem_cons.1 hp with rfl | hp
      · exact h1
      · exact e3 p hp
    · simp only [NewContent, if_neg hi] at h1 h2 ⊢
      exact .oneMore h1 h2
  | element h1 h2 => exact fun _ => .element h1 h2
  | @nested e i ns h1 h2 =>
    intro hne
    have hi : i ≠ g := by rintro rfl; exact hne h1
    simp only [NewContent, if_neg hi] at h2
    exact .nested h1 h2
  | wildcard h1 h2 => exact fun _ => .wildcard h1 h2
  | textNode h1 => exact fun _ => .textNode h1
  | zero => exact fun _ => .zero
  | succ h1 h2 => exact fun hne => .succ (h1 hne) (h2 hne)
  | nil => exact fun _ => .nil
  | cons h1 h2 h3 => exact fun hne => .cons h1 (h2 (hne _ (by simp))) (h3 (fun e he => hne e (by simp [he])))

end Verif.Opt

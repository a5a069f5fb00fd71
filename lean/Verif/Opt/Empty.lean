import Verif.Opt.Unions
/-!
# Empty enumerations and unions (C39)

Models `xsd-parser/src/pipeline/optimizer/empty_enums.rs` and `Optimizer::remove_empty_unions`
(`empty_unions.rs:72-89`).
-/
namespace Verif.Opt

open Verif.Meta
open Verif.Naming (Name)

/-- `matches!(&x.ident.name, Name::Named(x) if x.is_empty())`, empty_enums.rs:33. -/
def isEmptyName : Name → Bool
  | .named s => s.isEmpty
  | .generated _ => false

/-- empty_enums.rs:31-34. -/
def withoutEmptyVariants : Variant → Variant
  | .enumeration x => .enumeration { x with variants := x.variants.filter (fun v => !isEmptyName v.ident.name) }
  | v => v

/-- `Optimizer::remove_empty_enum_variants`, empty_enums.rs:27-38. -/
def removeEmptyEnumVariants (T : Types) : Types :=
  T.map fun p => (p.1, { p.2 with variant := withoutEmptyVariants p.2.variant })

/-- empty_enums.rs:67-75. -/
def emptyEnumToRef : Variant → Variant
  | .enumeration x =>
    if x.variants.isEmpty then
      match x.base.ident with
      | some b => .reference (.new b)
      | none => .enumeration x
    else .enumeration x
  | v => v

/-- `Optimizer::remove_empty_enums`, empty_enums.rs:63-79. -/
def removeEmptyEnums (T : Types) : Types :=
  T.map fun p => (p.1, { p.2 with variant := emptyEnumToRef p.2.variant })

/-- empty_unions.rs:76-85. -/
def smallUnionToRef : Variant → Variant
  | .union x =>
    if x.types.length ≤ 1 then
      match (x.types.head?.map (·.type_)).or x.base.ident with
      | some b => .reference (.new b)
      | none => .union x
    else .union x
  | v => v

/-- `Optimizer::remove_empty_unions`, empty_unions.rs:72-89. -/
def removeEmptyUnions (T : Types) : Types :=
  T.map fun p => (p.1, { p.2 with variant := smallUnionToRef p.2.variant })

theorem get_mapVariant (T : Types) (g : Variant → Variant) (i : Ident) :
    Assoc.get (T.map fun p => (p.1, { p.2 with variant := g p.2.variant })) i =
      (Assoc.get T i).map fun ty => { ty with variant := g ty.variant } :=
  get_map (fun ty => { ty with variant := g ty.variant }) i

theorem look_mapVariant (T : Types) (g : Variant → Variant) (i : Ident) :
    look (T.map fun p => (p.1, { p.2 with variant := g p.2.variant })) i = (look T i).map g := by
  simp [look, get_mapVariant, Function.comp_def]

/-! ## Empty variants -/

/-- C39: exactly the variants named by the empty text are removed; everything else stays. -/
theorem C39_exactly_empty_variants_removed (T : Types) (i : Ident) (ty : MetaType) (hi : Assoc.get T i = some ty) :
    (∀ x, ty.variant = .enumeration x → ∃ vs, Assoc.get (removeEmptyEnumVariants T) i =
        some { ty with variant := .enumeration { x with variants := vs } } ∧
      vs = x.variants.filter (fun v => decide (v.ident.name ≠ .named []))) ∧
    ((∀ x, ty.variant ≠ .enumeration x) → Assoc.get (removeEmptyEnumVariants T) i = some ty) := by
  have hn : ∀ n : Name, (!isEmptyName n) = decide (n ≠ .named []) := by
    intro n
    cases n with
    | named s => cases s <;> simp [isEmptyName]
    | generated s => simp [isEmptyName]
  constructor
  · intro x hx
    refine ⟨_, ?_, rfl⟩
    rw [removeEmptyEnumVariants, get_mapVariant, hi]
    simp [hx, withoutEmptyVariants, hn]
  · intro hx
    rw [removeEmptyEnumVariants, get_mapVariant, hi]
    have : withoutEmptyVariants ty.variant = ty.variant := by
      cases hv : ty.variant <;> simp [withoutEmptyVariants]
      exact absurd hv (hx _)
    simp [this]

/-- C39: a second run changes nothing. -/
theorem C39_empty_variants_idempotent (T : Types) :
    removeEmptyEnumVariants (removeEmptyEnumVariants T) = removeEmptyEnumVariants T := by
  simp only [removeEmptyEnumVariants, List.map_map]
  apply List.map_congr_left
  intro p _
  simp only [Function.comp_def]
  cases p.2.variant <;> simp [withoutEmptyVariants]

/-- C39: no document is accepted that was not accepted before. -/
theorem C39_empty_variants_accept_no_more (P : Lex) (T : Types) (j : Judge)
    (h : Valid P (removeEmptyEnumVariants T) j) : Valid P T j := by
  refine Valid.simulate (fun i => ?_) h
  rw [removeEmptyEnumVariants, look_mapVariant]
  cases hv : look T i with
  | none => exact Or.inl rfl
  | some v =>
    cases v with
    | enumeration x =>
      refine Or.inr (fun j hj hs => ?_)
      have hl : look (T.map fun p => (p.1, { p.2 with variant := withoutEmptyVariants p.2.variant })) i =
          some (.enumeration { x with variants := x.variants.filter (fun v => !isEmptyName v.ident.name) }) := by
        rw [look_mapVariant, hv]; rfl
      obtain ⟨ty, g1, g2⟩ := look_iff.1 hv
      rcases hs.enumeration hj hl with ⟨v, s, rfl, hm, ⟨h1, h2⟩ | ⟨t, h1, h2⟩⟩ | ⟨s, y, rfl, h⟩
      · exact .literalText g1 g2 (List.mem_filter.1 hm).1 h1 h2
      · exact .variantText g1 g2 (List.mem_filter.1 hm).1 h1 h2
      · exact .textValue h
    | _ => exact Or.inl rfl

/-- C39: the only text that is lost is the empty text. (The variants named by the empty text are literals, and the words of
a list are not empty.) -/
theorem C39_only_empty_text_lost (P : Lex) (T : Types) (hw : ∀ s w, w ∈ P.words s → w ≠ [])
    (hlit : ∀ i x v, look T i = some (.enumeration x) → v ∈ x.variants → v.ident.name = .named [] → v.type_ = none)
    (i : Ident) (s : Txt) (hs : s ≠ []) (h : Valid P T (.text i s)) :
    Valid P (removeEmptyEnumVariants T) (.text i s) := by
  generalize hj : Judge.text i s = j at h
  have hgen : ∀ i, (∀ x, look T i ≠ some (.enumeration x)) → look (removeEmptyEnumVariants T) i = look T i := by
    intro i hi
    rw [removeEmptyEnumVariants, look_mapVariant]
    cases hv : look T i with
    | none => rfl
    | some v => cases v <;> first | rfl | exact absurd hv (hi _)
  have hget : ∀ i ty, Assoc.get T i = some ty → (∀ x, ty.variant ≠ .enumeration x) →
      ∃ ty', Assoc.get (removeEmptyEnumVariants T) i = some ty' ∧ ty'.variant = ty.variant := by
    intro i ty h1 h2
    have := hgen i (fun x hx => by rw [look_of h1 rfl] at hx; exact h2 x (Option.some.inj hx))
    rw [look_of h1 rfl] at this
    exact look_iff.1 this
  induction h generalizing i s <;> cases hj
  case refText i ty r s g1 g2 g3 g4 g5 ih =>
    obtain ⟨ty', e1, e2⟩ := hget _ _ g1 (by rw [g2]; simp)
    exact .refText e1 (e2.trans g2) g3 g4 (ih _ _ hs rfl)
  case listText i ty r s g1 g2 g3 g4 g5 ih =>
    obtain ⟨ty', e1, e2⟩ := hget _ _ g1 (by rw [g2]; simp)
    exact .listText e1 (e2.trans g2) g3 g4 (fun w hw' => ih w hw' _ _ (hw _ _ hw') rfl)
  case unionText i ty u m s g1 g2 g3 g4 g5 ih =>
    obtain ⟨ty', e1, e2⟩ := hget _ _ g1 (by rw [g2]; simp)
    exact .unionText e1 (e2.trans g2) g3 g4 (ih _ _ hs rfl)
  case builtInText i ty b s g1 g2 g3 =>
    obtain ⟨ty', e1, e2⟩ := hget _ _ g1 (by rw [g2]; simp)
    exact .builtInText e1 (e2.trans g2) g3
  case customText i ty n s g1 g2 g3 =>
    obtain ⟨ty', e1, e2⟩ := hget _ _ g1 (by rw [g2]; simp)
    exact .customText e1 (e2.trans g2) g3
  case literalText i ty en v s g1 g2 g3 g4 g5 =>
    have hl : look (removeEmptyEnumVariants T) i =
        some (.enumeration { en with variants := en.variants.filter (fun v => !isEmptyName v.ident.name) }) := by
      rw [removeEmptyEnumVariants, look_mapVariant, look_of g1 g2]; rfl
    obtain ⟨ty', e1, e2⟩ := look_iff.1 hl
    refine .literalText (v := v) e1 e2 (List.mem_filter.2 ⟨g3, ?_⟩) g4 g5
    rw [g5]
    cases s with
    | nil => exact absurd rfl hs
    | cons c s => rfl
  case variantText i ty en v t s g1 g2 g3 g4 g5 ih =>
    have hl : look (removeEmptyEnumVariants T) i =
        some (.enumeration { en with variants := en.variants.filter (fun v => !isEmptyName v.ident.name) }) := by
      rw [removeEmptyEnumVariants, look_mapVariant, look_of g1 g2]; rfl
    obtain ⟨ty', e1, e2⟩ := look_iff.1 hl
    refine .variantText (v := v) e1 e2 (List.mem_filter.2 ⟨g3, ?_⟩) g4 (ih _ _ hs rfl)
    cases hn : v.ident.name with
    | generated s => rfl
    | named n =>
      cases n with
      | nil => rw [hlit i en v (look_of g1 g2) g3 hn] at g4; cases g4
      | cons c n => rfl
  case simpleText i ty x s g1 g2 g3 g4 g5 ih =>
    obtain ⟨ty', e1, e2⟩ := hget _ _ g1 (by rw [g2]; simp)
    exact .simpleText e1 (e2.trans g2) g3 g4 (ih _ _ hs rfl)
  case simpleListText i ty x s g1 g2 g3 g4 g5 ih =>
    obtain ⟨ty', e1, e2⟩ := hget _ _ g1 (by rw [g2]; simp)
    exact .simpleListText e1 (e2.trans g2) g3 g4 (fun w hw' => ih w hw' _ _ (hw _ _ hw') rfl)

/-- An enumeration with the literals `names`. -/
def exEnum (base : Base) (names : List String) : Enumeration :=
  ⟨base, names.map fun n => ⟨⟨0, .named n.toList⟩, .optional, none, none, [], none⟩, .default⟩

/-- Of `""`, `"a"` and `"b"`, `"a"` and `"b"` are left. -/
example : removeEmptyEnumVariants [(exId "E", .new (.enumeration (exEnum .none ["", "a", "b"])))] =
    [(exId "E", .new (.enumeration (exEnum .none ["a", "b"])))] := by decide +kernel

/-- The empty text is really lost. -/
theorem C39_empty_text_lost (P : Lex) :
    Valid P [(exId "E", .new (.enumeration (exEnum .none ["", "a"])))] (.text (exId "E") []) ∧
    ¬ Valid P (removeEmptyEnumVariants [(exId "E", .new (.enumeration (exEnum .none ["", "a"])))])
      (.text (exId "E") []) := by
  constructor
  · exact .literalText (ty := .new (.enumeration (exEnum .none ["", "a"])))
      (v := ⟨⟨0, .named []⟩, .optional, none, none, [], none⟩) rfl rfl (by simp [exEnum]) rfl rfl
  · intro h
    have hl : look (removeEmptyEnumVariants [(exId "E", .new (.enumeration (exEnum .none ["", "a"])))]) (exId "E") =
        some (.enumeration (exEnum .none ["a"])) := by decide +kernel
    rcases h.step.enumeration rfl hl with ⟨v, s, h1, h2, h3⟩ | ⟨s, x, h1, -⟩
    · cases h1
      simp [exEnum] at h2
      subst h2
      simp at h3
    · cases h1

/-! ## Empty enumerations -/

/-- C39: exactly the enumerations without variants that have a base become references to the base. -/
theorem C39_exactly_empty_enums_replaced (T : Types) (i : Ident) (ty : MetaType) (hi : Assoc.get T i = some ty) :
    (∀ x b, ty.variant = .enumeration x → x.variants = [] → x.base.ident = some b →
      Assoc.get (removeEmptyEnums T) i = some { ty with variant := .reference ⟨b, false, 1, .bounded 1⟩ }) ∧
    ((∀ x b, ty.variant = .enumeration x → x.variants = [] → x.base.ident ≠ some b) →
      Assoc.get (removeEmptyEnums T) i = some ty) := by
  rw [removeEmptyEnums, get_mapVariant, hi]
  constructor
  · intro x b hx he hb
    simp [hx, emptyEnumToRef, he, hb, Reference.new]
  · intro h
    have : emptyEnumToRef ty.variant = ty.variant := by
      cases hv : ty.variant with
      | enumeration x =>
        simp only [emptyEnumToRef]
        split
        · rename_i he
          cases hb : x.base.ident with
          | none => rfl
          | some b => exact absurd hb (h x b hv (List.isEmpty_iff.1 he))
        · rfl
      | _ => rfl
    simp [this]

/-- C39: a second run changes nothing. -/
theorem C39_empty_enums_idempotent (T : Types) : removeEmptyEnums (removeEmptyEnums T) = removeEmptyEnums T := by
  have hi : ∀ v, emptyEnumToRef (emptyEnumToRef v) = emptyEnumToRef v := by
    intro v
    cases v with
    | enumeration x =>
      by_cases he : x.variants.isEmpty = true
      · cases hb : x.base.ident with
        | none => simp only [emptyEnumToRef, he, hb, if_true]
        | some b => simp only [emptyEnumToRef, he, hb, if_true]
      · simp only [emptyEnumToRef, if_neg he]
    | _ => rfl
  simp only [removeEmptyEnums, List.map_map]
  apply List.map_congr_left
  intro p _
  simp [hi]

/-- C39: every document accepted before is still accepted. -/
theorem C39_empty_enums_accept_no_less (P : Lex) (T : Types) (j : Judge) (h : Valid P T j) :
    Valid P (removeEmptyEnums T) j := by
  refine Valid.simulate (fun i => ?_) h
  rw [removeEmptyEnums, look_mapVariant]
  cases hv : look T i with
  | none => exact Or.inl rfl
  | some v =>
    cases v with
    | enumeration x =>
      by_cases he : x.variants = []
      · refine Or.inr (fun j hj hs => ?_)
        rcases hs.enumeration hj hv with ⟨v, s, rfl, hm, -⟩ | ⟨s, y, rfl, h⟩
        · rw [he] at hm; cases hm
        · exact .textValue h
      · refine Or.inl ?_
        have : x.variants.isEmpty = false := by simp [he]
        simp [emptyEnumToRef, he]
    | _ => exact Or.inl rfl

example : removeEmptyEnums [(exId "S", .new (.buildIn .string)), (exId "E", .new (.enumeration (exEnum (.restr (exId "S")) [])))] =
    [(exId "S", .new (.buildIn .string)), (exId "E", .new (.reference (.new (exId "S"))))] := by decide +kernel

/-! ## Unions with at most one member -/

/-- C39: exactly the unions with one member, and those without members that have a base, become references to the member
or the base. -/
theorem C39_exactly_small_unions_replaced (T : Types) (i : Ident) (ty : MetaType) (hi : Assoc.get T i = some ty) :
    (∀ x m, ty.variant = .union x → x.types = [m] →
      Assoc.get (removeEmptyUnions T) i = some { ty with variant := .reference ⟨m.type_, false, 1, .bounded 1⟩ }) ∧
    (∀ x b, ty.variant = .union x → x.types = [] → x.base.ident = some b →
      Assoc.get (removeEmptyUnions T) i = some { ty with variant := .reference ⟨b, false, 1, .bounded 1⟩ }) ∧
    ((∀ x, ty.variant = .union x → 2 ≤ x.types.length ∨ (x.types = [] ∧ x.base.ident = none)) →
      Assoc.get (removeEmptyUnions T) i = some ty) := by
  rw [removeEmptyUnions, get_mapVariant, hi]
  refine ⟨?_, ?_, ?_⟩
  · intro x m hx he
    simp [hx, smallUnionToRef, he, Reference.new]
  · intro x b hx he hb
    simp [hx, smallUnionToRef, he, hb, Reference.new]
  · intro h
    have : smallUnionToRef ty.variant = ty.variant := by
      cases hv : ty.variant with
      | union x =>
        rcases h x hv with h' | ⟨h1, h2⟩
        · simp only [smallUnionToRef]
          rw [if_neg (by omega)]
        · simp [smallUnionToRef, h1, h2]
      | _ => rfl
    simp [this]

/-- C39: a second run changes nothing. -/
theorem C39_small_unions_idempotent (T : Types) : removeEmptyUnions (removeEmptyUnions T) = removeEmptyUnions T := by
  have hi : ∀ v, smallUnionToRef (smallUnionToRef v) = smallUnionToRef v := by
    intro v
    cases v with
    | union x =>
      by_cases he : x.types.length ≤ 1
      · cases hb : (x.types.head?.map (·.type_)).or x.base.ident with
        | none => simp only [smallUnionToRef, he, hb, if_true]
        | some b => simp only [smallUnionToRef, he, hb, if_true]
      · simp only [smallUnionToRef, if_neg he]
    | _ => rfl
  simp only [removeEmptyUnions, List.map_map]
  apply List.map_congr_left
  intro p _
  simp [hi]

/-- C39: every document accepted before is still accepted. -/
theorem C39_small_unions_accept_no_less (P : Lex) (T : Types) (j : Judge) (h : Valid P T j) :
    Valid P (removeEmptyUnions T) j := by
  refine Valid.simulate (fun i => ?_) h
  rw [removeEmptyUnions, look_mapVariant]
  cases hv : look T i with
  | none => exact Or.inl rfl
  | some v =>
    cases v with
    | union x =>
      refine Or.inr (fun j hj hs => ?_)
      have hl : look (T.map fun p => (p.1, { p.2 with variant := smallUnionToRef p.2.variant })) i =
          some (smallUnionToRef (.union x)) := by rw [look_mapVariant, hv]; rfl
      obtain ⟨ty, g1, g2⟩ := look_iff.1 hl
      rcases hs.union hj hv with ⟨m, s, rfl, hm, hf, h⟩ | ⟨s, y, rfl, h⟩
      · by_cases he : x.types.length ≤ 1
        · obtain ⟨m', hm'⟩ : ∃ m', x.types = [m'] := by
            match hx : x.types with
            | [] => rw [hx] at hm; cases hm
            | [m'] => exact ⟨m', rfl⟩
            | _ :: _ :: _ => rw [hx] at he; simp at he
          rw [hm'] at hm
          simp at hm
          subst hm
          have : smallUnionToRef (.union x) = .reference (.new m.type_) := by simp [smallUnionToRef, hm']
          exact .refText g1 (g2.trans this) rfl rfl h
        · have : smallUnionToRef (.union x) = .union x := by simp [smallUnionToRef, he]
          exact .unionText g1 (g2.trans this) hm hf h
      · exact .textValue h
    | _ => exact Or.inl rfl

/-- C39: when no union has facets of its own and every union has a member, the accepted texts are the same. -/
theorem C39_small_unions_same_texts (P : Lex) (T : Types) (hP : NoFacets P T)
    (hne : ∀ i x, look T i = some (.union x) → x.types ≠ []) (i : Ident) (s : Txt) :
    Valid P (removeEmptyUnions T) (.text i s) ↔ Valid P T (.text i s) := by
  refine ⟨fun h => ?_, C39_small_unions_accept_no_less P T _⟩
  generalize hj : Judge.text i s = j at h
  have hl : ∀ i, look (removeEmptyUnions T) i = (look T i).map smallUnionToRef := by
    intro i; rw [removeEmptyUnions, look_mapVariant]
  -- a definition after the pass is one from before, or a reference that replaces a union with one member
  have hcase : ∀ i ty, Assoc.get (removeEmptyUnions T) i = some ty →
      (∃ ty', Assoc.get T i = some ty' ∧ ty'.variant = ty.variant) ∨
      ∃ x m, look T i = some (.union x) ∧ x.types = [m] ∧ ty.variant = .reference (.new m.type_) := by
    intro i ty h1
    have := hl i
    rw [look_of h1 rfl] at this
    cases hv : look T i with
    | none => rw [hv] at this; cases this
    | some v =>
      rw [hv] at this
      simp only [Option.map_some, Option.some.injEq] at this
      obtain ⟨ty', e1, e2⟩ := look_iff.1 hv
      cases v with
      | union x =>
        match hx : x.types with
        | [] => exact absurd hx (hne i x hv)
        | [m] => exact Or.inr ⟨x, m, rfl, hx, by rw [this]; simp [smallUnionToRef, hx]⟩
        | a :: b :: l =>
          refine Or.inl ⟨ty', e1, ?_⟩
          rw [this, e2]
          simp [smallUnionToRef, hx]
      | _ => exact Or.inl ⟨ty', e1, by rw [this, e2]; rfl⟩
  have hone : ∀ i s x m, look T i = some (.union x) → x.types = [m] → Valid P T (.text m.type_ s) →
      Valid P T (.text i s) := by
    intro i s x m h1 h2 h3
    obtain ⟨ty', e1, e2⟩ := look_iff.1 h1
    exact .unionText e1 e2 (m := m) (by rw [h2]; simp) (by rw [hP.2 i x h1]; exact hP.1 s) h3
  induction h generalizing i s <;> cases hj
  case refText i ty r s g1 g2 g3 g4 g5 ih =>
    rcases hcase _ _ g1 with ⟨ty', e1, e2⟩ | ⟨x, m, e1, e2, e3⟩
    · exact .refText e1 (e2.trans g2) g3 g4 (ih _ _ rfl)
    · rw [g2] at e3; cases e3
      exact hone i s x m e1 e2 (ih _ _ rfl)
  case listText i ty r s g1 g2 g3 g4 g5 ih =>
    rcases hcase _ _ g1 with ⟨ty', e1, e2⟩ | ⟨x, m, e1, e2, e3⟩
    · exact .listText e1 (e2.trans g2) g3 g4 (fun w hw' => ih w hw' _ _ rfl)
    · rw [g2] at e3; cases e3
      exact absurd ⟨rfl, rfl⟩ g3
  case unionText i ty u m s g1 g2 g3 g4 g5 ih =>
    rcases hcase _ _ g1 with ⟨ty', e1, e2⟩ | ⟨x, m, e1, e2, e3⟩
    · exact .unionText e1 (e2.trans g2) g3 g4 (ih _ _ rfl)
    · rw [g2] at e3; cases e3
  case builtInText i ty b s g1 g2 g3 =>
    rcases hcase _ _ g1 with ⟨ty', e1, e2⟩ | ⟨x, m, e1, e2, e3⟩
    · exact .builtInText e1 (e2.trans g2) g3
    · rw [g2] at e3; cases e3
  case customText i ty n s g1 g2 g3 =>
    rcases hcase _ _ g1 with ⟨ty', e1, e2⟩ | ⟨x, m, e1, e2, e3⟩
    · exact .customText e1 (e2.trans g2) g3
    · rw [g2] at e3; cases e3
  case literalText i ty en v s g1 g2 g3 g4 g5 =>
    rcases hcase _ _ g1 with ⟨ty', e1, e2⟩ | ⟨x, m, e1, e2, e3⟩
    · exact .literalText e1 (e2.trans g2) g3 g4 g5
    · rw [g2] at e3; cases e3
  case variantText i ty en v t s g1 g2 g3 g4 g5 ih =>
    rcases hcase _ _ g1 with ⟨ty', e1, e2⟩ | ⟨x, m, e1, e2, e3⟩
    · exact .variantText e1 (e2.trans g2) g3 g4 (ih _ _ rfl)
    · rw [g2] at e3; cases e3
  case simpleText i ty x s g1 g2 g3 g4 g5 ih =>
    rcases hcase _ _ g1 with ⟨ty', e1, e2⟩ | ⟨x, m, e1, e2, e3⟩
    · exact .simpleText e1 (e2.trans g2) g3 g4 (ih _ _ rfl)
    · rw [g2] at e3; cases e3
  case simpleListText i ty x s g1 g2 g3 g4 g5 ih =>
    rcases hcase _ _ g1 with ⟨ty', e1, e2⟩ | ⟨x, m, e1, e2, e3⟩
    · exact .simpleListText e1 (e2.trans g2) g3 g4 (fun w hw' => ih w hw' _ _ rfl)
    · rw [g2] at e3; cases e3

example : removeEmptyUnions [(exId "S", .new (.buildIn .string)),
      (exId "U", .new (.union ⟨.none, [⟨exId "S", none⟩], .default⟩)),
      (exId "V", .new (.union ⟨.none, [⟨exId "S", none⟩, ⟨exId "U", none⟩], .default⟩)),
      (exId "W", .new (.union ⟨.restr (exId "V"), [], .default⟩))] =
    [(exId "S", .new (.buildIn .string)), (exId "U", .new (.reference (.new (exId "S")))),
     (exId "V", .new (.union ⟨.none, [⟨exId "S", none⟩, ⟨exId "U", none⟩], .default⟩)),
     (exId "W", .new (.reference (.new (exId "V"))))] := by decide +kernel

end Verif.Opt

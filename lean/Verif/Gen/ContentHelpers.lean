import Verif.Occurs
/-!
# The helpers for the content of a generated type (C79)

`RenderStep::ContentHelpers` renders two methods for every variant of the content of a type, which look up the first item
of that variant.
-/
namespace Verif.Gen.Helpers

open Verif.Occurs (Container)

/-! ## Model -/

/-- `ComplexDataElement` as far as the helpers use it, models/data/complex.rs: the name of the field and how often it occurs;
the variant is the position of the element in the enum. -/
structure Alt where
  field : List Char
  occurs : Container
  deriving DecidableEq, Repr

/-- `method_name.strip_suffix('_').unwrap_or(&method_name)`, content_helper.rs:83. -/
def stripUnderscore (s : List Char) : List Char := if s.getLast? = some '_' then s.dropLast else s

/-- A method that is rendered: its name, its variant, and whether it is the one for changing the item. -/
structure Method where
  name : List Char
  variant : Nat
  mutable : Bool
  deriving DecidableEq, Repr

/-- `render_helpers_for_complex_enum`, content_helper.rs:76-109, for the variants from number `n` on. -/
def methodsFrom : Nat → List Alt → List Method
  | _, [] => []
  | n, a :: l =>
    if a.occurs ≠ .single then methodsFrom (n + 1) l
    else ⟨a.field, n, false⟩ :: ⟨stripUnderscore a.field ++ "_mut".toList, n, true⟩ :: methodsFrom (n + 1) l

/-- `ContentHelpersRenderStep::render_type`, content_helper.rs:25-64, for a struct with a content whose type is an enum. -/
def helpers (content : Container) (alts : List Alt) : List Method :=
  if content ≠ .dynamicList then [] else methodsFrom 0 alts

variable {X : Type}

/-- The first method, content_helper.rs:90-97: `find_map` over the items, each a variant with its value. -/
def get (n : Nat) : List (Nat × X) → Option X
  | [] => none
  | (k, v) :: l => if k = n then some v else get n l

/-- What is left after the place returned by the second method (content_helper.rs:99-106) was changed by `f`. -/
def change (n : Nat) (f : X → X) : List (Nat × X) → List (Nat × X)
  | [] => []
  | (k, v) :: l => if k = n then (k, f v) :: l else (k, v) :: change n f l

/-! ## Theorems -/

/-- C79: the value is that of the first item of the variant. -/
theorem C79_first_item (n : Nat) (content : List (Nat × X)) (v : X) :
    get n content = some v ↔ ∃ a b, content = a ++ (n, v) :: b ∧ ∀ x ∈ a, x.1 ≠ n := by
  induction content with
  | nil => simp [get]
  | cons x l ih =>
    obtain ⟨k, w⟩ := x
    by_cases h : k = n
    · subst h
      rw [show get k ((k, w) :: l) = some w from if_pos rfl]
      constructor
      · intro e; cases e; exact ⟨[], l, rfl, by simp⟩
      · rintro ⟨a, b, e, ha⟩
        cases a with
        | nil => cases e; rfl
        | cons y a =>
          rw [List.cons_append] at e
          have := (List.cons.inj e).1
          exact absurd (by rw [← this]) (ha y (by simp))
    · rw [show get n ((k, w) :: l) = get n l from if_neg h, ih]
      constructor
      · rintro ⟨a, b, e, ha⟩
        exact ⟨(k, w) :: a, b, by rw [e]; rfl, by simpa [h] using ha⟩
      · rintro ⟨a, b, e, ha⟩
        cases a with
        | nil => cases e; exact absurd rfl h
        | cons y a =>
          rw [List.cons_append] at e
          exact ⟨a, b, (List.cons.inj e).2, fun x m => ha x (by simp [m])⟩

/-- C79: there is no value exactly if no item is of the variant. -/
theorem C79_none (n : Nat) (content : List (Nat × X)) : get n content = none ↔ ∀ x ∈ content, x.1 ≠ n := by
  induction content with
  | nil => simp [get]
  | cons x l ih =>
    obtain ⟨k, w⟩ := x
    by_cases h : k = n <;> simp [get, h, ih]

/-- C79: changing the item through the second method changes the value of the first item of the variant and nothing
else. -/
theorem C79_change (n : Nat) (f : X → X) (content : List (Nat × X)) :
    (get n content = none → change n f content = content) ∧
    (∀ a v b, content = a ++ (n, v) :: b → (∀ x ∈ a, x.1 ≠ n) → change n f content = a ++ (n, f v) :: b) ∧
    (get n (change n f content) = (get n content).map f) ∧
    (∀ m, m ≠ n → get m (change n f content) = get m content) := by
  refine ⟨?_, ?_, ?_, ?_⟩
  · induction content with
    | nil => intro _; rfl
    | cons x l ih =>
      obtain ⟨k, w⟩ := x
      by_cases h : k = n
      · simp [get, h]
      · simpa [get, change, h] using ih
  · intro a v b e ha
    subst e
    induction a with
    | nil => simp [change]
    | cons x a ih =>
      obtain ⟨k, w⟩ := x
      have h : k ≠ n := ha (k, w) (by simp)
      rw [List.cons_append, List.cons_append, show change n f ((k, w) :: (a ++ (n, v) :: b)) =
        (k, w) :: change n f (a ++ (n, v) :: b) from if_neg h, ih (fun x m => ha x (by simp [m]))]
  · induction content with
    | nil => rfl
    | cons x l ih =>
      obtain ⟨k, w⟩ := x
      by_cases h : k = n
      · simp [get, change, h]
      · simpa [get, change, h] using ih
  · intro m hm
    induction content with
    | nil => rfl
    | cons x l ih =>
      obtain ⟨k, w⟩ := x
      by_cases h : k = n
      · subst h; simp [get, change, Ne.symm hm]
      · rw [show change n f ((k, w) :: l) = (k, w) :: change n f l from if_neg h]
        by_cases h' : k = m <;> simp [get, h', ih]

theorem methodsFrom_single {a : Alt} (n : Nat) (l : List Alt) (h : a.occurs = .single) : methodsFrom n (a :: l) =
    ⟨a.field, n, false⟩ :: ⟨stripUnderscore a.field ++ "_mut".toList, n, true⟩ :: methodsFrom (n + 1) l :=
  if_neg (by simp [h])

theorem methodsFrom_other {a : Alt} (n : Nat) (l : List Alt) (h : a.occurs ≠ .single) :
    methodsFrom n (a :: l) = methodsFrom (n + 1) l := if_pos h

theorem methodsFrom_mem {m : Method} : ∀ (l : List Alt) (n : Nat), m ∈ methodsFrom n l ↔
    ∃ k a, l[k]? = some a ∧ a.occurs = .single ∧ m.variant = n + k ∧
      m.name = if m.mutable then stripUnderscore a.field ++ "_mut".toList else a.field := by
  intro l
  induction l with
  | nil => simp [methodsFrom]
  | cons a l ih =>
    intro n
    have shift : (∃ k b, (a :: l)[k]? = some b ∧ b.occurs = .single ∧ m.variant = n + k ∧
        m.name = if m.mutable then stripUnderscore b.field ++ "_mut".toList else b.field) ↔
        (a.occurs = .single ∧ m.variant = n ∧
          m.name = if m.mutable then stripUnderscore a.field ++ "_mut".toList else a.field) ∨ m ∈ methodsFrom (n + 1) l := by
      rw [ih]
      constructor
      · rintro ⟨k, b, hk, ho, hv, hn⟩
        cases k with
        | zero => simp at hk; subst hk; exact .inl ⟨ho, hv, hn⟩
        | succ k => exact .inr ⟨k, b, by simpa using hk, ho, by omega, hn⟩
      · rintro (⟨ho, hv, hn⟩ | ⟨k, b, hk, ho, hv, hn⟩)
        · exact ⟨0, a, rfl, ho, hv, hn⟩
        · exact ⟨k + 1, b, by simpa using hk, ho, by omega, hn⟩
    rw [shift]
    by_cases h : a.occurs = .single
    · rw [methodsFrom_single n l h]
      obtain ⟨mn, mv, mm⟩ := m
      cases mm <;> simp [h, and_comm]
    · rw [methodsFrom_other n l h]; simp [h]

/-- `base` is the name of the field without an underscore at its end. -/
def Base (field base : List Char) : Prop := field = base ++ ['_'] ∨ (field = base ∧ ¬ ['_'] <:+ field)

theorem base_iff (field base : List Char) : Base field base ↔ base = stripUnderscore field := by
  unfold Base stripUnderscore
  rcases List.eq_nil_or_concat field with e | ⟨l, c, e⟩
  · subst e
    constructor
    · rintro (h | ⟨h, _⟩)
      · simp at h
      · exact h.symm
    · intro h; exact .inr ⟨h.symm, by simp⟩
  · rw [List.concat_eq_append] at e
    subst e
    have sfx : ['_'] <:+ l ++ [c] ↔ c = '_' := by
      constructor
      · rintro ⟨t, h⟩
        have := (List.append_inj' h rfl).2
        simpa using this.symm
      · rintro rfl; exact ⟨l, rfl⟩
    rw [sfx]
    by_cases h : c = '_'
    · subst h
      simp
      exact eq_comm
    · simp only [h, not_false_iff, and_true]
      have : ¬ (l ++ [c]).getLast? = some '_' := by simpa using h
      rw [if_neg this]
      constructor
      · rintro (e | e)
        · exact absurd (by simpa using (List.append_inj' e rfl).2) h
        · exact e.symm
      · intro e; exact .inr e.symm

/-- C79: a repeated content has the two methods for exactly the variants that hold a single value, and any other content
has none. -/
theorem C79_methods (content : Container) (alts : List Alt) (m : Method) :
    m ∈ helpers content alts ↔ content = .dynamicList ∧ ∃ a, alts[m.variant]? = some a ∧ a.occurs = .single ∧
      ((m.mutable = false ∧ m.name = a.field) ∨
        (m.mutable = true ∧ ∃ base, Base a.field base ∧ m.name = base ++ "_mut".toList)) := by
  have names : ∀ a : Alt, ((m.mutable = false ∧ m.name = a.field) ∨
      (m.mutable = true ∧ ∃ base, Base a.field base ∧ m.name = base ++ "_mut".toList)) ↔
      m.name = if m.mutable then stripUnderscore a.field ++ "_mut".toList else a.field := by
    intro a
    cases m.mutable <;> simp [base_iff]
  simp only [names]
  unfold helpers
  by_cases h : content = .dynamicList
  · rw [if_neg (by simp [h]), methodsFrom_mem]
    constructor
    · rintro ⟨k, a, hk, ho, hv, hn⟩
      exact ⟨h, a, by rw [hv, Nat.zero_add]; exact hk, ho, hn⟩
    · rintro ⟨_, a, hk, ho, hn⟩
      exact ⟨m.variant, a, hk, ho, by omega, hn⟩
  · rw [if_pos h]; simp [h]

theorem strip_nodup : ∀ alts : List Alt, (alts.map Alt.field).Nodup →
    (∀ a ∈ alts, ∀ b ∈ alts, a.field ≠ b.field ++ ['_']) → (alts.map fun a => stripUnderscore a.field).Nodup := by
  intro alts
  induction alts with
  | nil => intro _ _; exact List.nodup_nil
  | cons a l ih =>
    intro hn hu
    rw [List.map_cons, List.nodup_cons] at hn ⊢
    refine ⟨?_, ih hn.2 (fun x hx y hy => hu x (by simp [hx]) y (by simp [hy]))⟩
    intro m
    obtain ⟨b, hb, e⟩ := List.mem_map.mp m
    have ha := (base_iff a.field _).mpr rfl
    have hb' := (base_iff b.field _).mpr e.symm
    rcases ha with ha | ⟨ha, _⟩ <;> rcases hb' with hb' | ⟨hb', _⟩
    · exact hn.1 (List.mem_map.mpr ⟨b, hb, by rw [ha, hb']⟩)
    · exact hu a (by simp) b (by simp [hb]) (by rw [hb']; exact ha)
    · exact hu b (by simp [hb]) a (by simp) (by rw [← ha] at hb'; exact hb')
    · exact hn.1 (List.mem_map.mpr ⟨b, hb, by rw [ha, hb']⟩)

/-- C79: the methods have different names. Missing: a field whose name ends with `_mut`, see the finding, and two fields
whose names differ in an underscore at the end only. -/
theorem C79_names_distinct_partial (content : Container) (alts : List Alt) (hn : (alts.map Alt.field).Nodup)
    (hu : ∀ a ∈ alts, ∀ b ∈ alts, a.field ≠ b.field ++ ['_'])
    (hm : ∀ a ∈ alts, ¬ "_mut".toList <:+ a.field) : ((helpers content alts).map Method.name).Nodup := by
  have hd := strip_nodup alts hn hu
  unfold helpers
  by_cases h : content ≠ .dynamicList
  · rw [if_pos h]; simp
  rw [if_neg h]
  clear h hn hu
  generalize 0 = n
  induction alts generalizing n with
  | nil => exact List.nodup_nil
  | cons a l ih =>
    have hl := ih (fun b m => hm b (by simp [m])) (List.nodup_cons.mp hd).2
    have ha := (List.nodup_cons.mp hd).1
    by_cases ho : a.occurs = .single
    · rw [methodsFrom_single n l ho, List.map_cons, List.map_cons]
      have other : ∀ m ∈ methodsFrom (n + 1) l, ∃ b ∈ l,
          m.name = if m.mutable then stripUnderscore b.field ++ "_mut".toList else b.field := by
        intro m hmem
        obtain ⟨k, b, hk, _, _, hn⟩ := (methodsFrom_mem l (n + 1)).mp hmem
        exact ⟨b, List.mem_of_getElem? hk, hn⟩
      have differ : ∀ b ∈ l, stripUnderscore b.field ≠ stripUnderscore a.field :=
        fun b hb e => ha (List.mem_map.mpr ⟨b, hb, e⟩)
      refine List.nodup_cons.mpr ⟨?_, List.nodup_cons.mpr ⟨?_, hl _⟩⟩
      · intro hmem
        rw [List.mem_cons] at hmem
        rcases hmem with e | hmem
        · exact hm a (by simp) ⟨stripUnderscore a.field, e.symm⟩
        · obtain ⟨m, hm', e⟩ := List.mem_map.mp hmem
          obtain ⟨b, hb, hn⟩ := other m hm'
          rw [e] at hn
          cases hmm : m.mutable with
          | true =>
            rw [hmm, if_pos rfl] at hn
            exact hm a (by simp) ⟨_, hn.symm⟩
          | false =>
            rw [hmm] at hn
            exact differ b hb (by rw [show a.field = b.field from hn])
      · intro hmem
        obtain ⟨m, hm', e⟩ := List.mem_map.mp hmem
        obtain ⟨b, hb, hn⟩ := other m hm'
        rw [e] at hn
        cases hmm : m.mutable with
        | true =>
          rw [hmm, if_pos rfl] at hn
          exact differ b hb (List.append_cancel_right hn).symm
        | false =>
          rw [hmm] at hn
          exact hm b (by simp [hb]) ⟨_, hn⟩
    · rw [methodsFrom_other n l ho]; exact hl _

/-- Finding: the elements `note` and `noteMut` of a choice have the fields `note` and `note_mut`, and the generated `impl` has
two methods `note_mut`: it does not compile. -/
theorem C79_mut_clash :
    ¬ ((helpers .dynamicList [⟨"note".toList, .single⟩, ⟨"note_mut".toList, .single⟩]).map Method.name).Nodup := by
  decide +kernel

/-! ## Examples -/

def exAlts : List Alt := [⟨"note".toList, .single⟩, ⟨"type_".toList, .single⟩, ⟨"extra".toList, .optional⟩]

example : (helpers .dynamicList exAlts).map Method.name =
    ["note".toList, "note_mut".toList, "type_".toList, "type_mut".toList] := by decide +kernel

example : (exAlts.map Alt.field).Nodup ∧ (∀ a ∈ exAlts, ∀ b ∈ exAlts, a.field ≠ b.field ++ ['_']) ∧
    ∀ a ∈ exAlts, ¬ "_mut".toList <:+ a.field := by
  decide +kernel

example : get 1 [(0, 5), (1, 6), (0, 7), (1, 8)] = some 6 ∧
    change 1 (· + 10) [(0, 5), (1, 6), (0, 7), (1, 8)] = [(0, 5), (1, 16), (0, 7), (1, 8)] := by decide +kernel

end Verif.Gen.Helpers

/-!
# Formatting names as Rust identifiers (C44)

Models `xsd-parser/src/models/naming/mod.rs`: `format_ident` (79-96) and `KEYWORDS` (100-150).

`char::is_alphanumeric` / `char::is_numeric` and the `XID_Start` / `XID_Continue` tables of Unicode are not
modelled bit by bit: they are the fields of `CharTables`, and the theorems state what they need from them.
`asciiTables` is the instance for ASCII.
-/
namespace Verif.Naming

/-- The character classes used by the code (`alnum`, `num`) and by the Rust grammar (`xidStart`, `xidCont`). -/
structure CharTables where
  /-- `char::is_alphanumeric` -/
  alnum : Char → Bool
  /-- `char::is_numeric` -/
  num : Char → Bool
  /-- Unicode `XID_Start` -/
  xidStart : Char → Bool
  /-- Unicode `XID_Continue` -/
  xidCont : Char → Bool

/-- `KEYWORDS`, models/naming/mod.rs:100-150 (first components; every second component is the first plus `_`). -/
def keywords : List String :=
  ["Self", "abstract", "as", "become", "box", "break", "const", "continue", "crate", "do", "else", "enum",
   "extern", "false", "final", "fn", "for", "if", "impl", "in", "let", "loop", "macro", "match", "mod", "move",
   "mut", "override", "priv", "pub", "ref", "return", "self", "static", "struct", "super", "trait", "true",
   "try", "type", "typeof", "union", "unsafe", "unsized", "use", "virtual", "where", "while", "yield"]

/-- `format_ident`, models/naming/mod.rs:82-96. Strings are lists of characters. The binary search over the sorted
table (87) is modelled as membership; `keywords_sorted` proves the precondition under which they agree. -/
def formatIdent (T : CharTables) (s : List Char) : List Char :=
  let s := if s ∈ keywords.map String.toList then s ++ ['_'] else s
  let s := match s with
    | c :: _ => if T.num c then '_' :: s else s
    | [] => s
  s.map (fun c => if T.alnum c then c else '_')

/-! ## Specification -/

/-- Strict and reserved keywords of the Rust reference (edition 2021) that cannot be used as plain identifiers. -/
def rustKeywords : List String :=
  ["as", "async", "await", "break", "const", "continue", "crate", "dyn", "else", "enum", "extern", "false", "fn",
   "for", "if", "impl", "in", "let", "loop", "match", "mod", "move", "mut", "pub", "ref", "return", "self", "Self",
   "static", "struct", "super", "trait", "true", "type", "unsafe", "use", "where", "while",
   "abstract", "become", "box", "do", "final", "macro", "override", "priv", "try", "typeof", "unsized", "virtual",
   "yield"]

/-- Rust's IDENTIFIER: `XID_Start XID_Continue*` or `_ XID_Continue+`, and not a keyword. -/
def ValidIdent (T : CharTables) (s : List Char) : Prop :=
  (∃ c cs, s = c :: cs ∧ (T.xidStart c = true ∨ (c = '_' ∧ cs ≠ [])) ∧ ∀ d ∈ cs, T.xidCont d = true) ∧
  s ∉ rustKeywords.map String.toList

/-- What is needed from the character tables on the characters of a particular string `s`
(true for all letters and decimal digits of Unicode; false e.g. for `²`, which is numeric but not `XID_Continue`). -/
structure Compatible (T : CharTables) (s : List Char) : Prop where
  cont : ∀ c ∈ s, T.alnum c = true → T.xidCont c = true
  start : ∀ c ∈ s, T.alnum c = true → T.num c = false → T.xidStart c = true
  /-- `_` is not alphanumeric, is `XID_Continue`, and is not numeric -/
  us_alnum : T.alnum '_' = false
  us_cont : T.xidCont '_' = true
  /-- ASCII letters are alphanumeric and not numeric -/
  letters : ∀ c : Char, c.isAlpha = true → T.alnum c = true ∧ T.num c = false
  /-- ASCII letters may appear anywhere in an identifier -/
  lettersStart : ∀ c : Char, c.isAlpha = true → T.xidStart c = true ∧ T.xidCont c = true

/-- The tables restricted to ASCII. -/
def asciiTables : CharTables where
  alnum := Char.isAlphanum
  num := Char.isDigit
  xidStart := Char.isAlpha
  xidCont := fun c => c.isAlphanum || c == '_'

/-! ## Proofs -/

/-- The table is strictly sorted, as `binary_search_by` requires. -/
theorem keywords_sorted : keywords.Pairwise (· < ·) := by
  decide

theorem keywords_letters : ∀ k ∈ keywords, k.toList ≠ [] ∧ ∀ c ∈ k.toList, c.isAlpha = true := by
  decide

theorem rustKeywords_letters : ∀ k ∈ rustKeywords, k.toList ≠ [] ∧ ∀ c ∈ k.toList, c.isAlpha = true := by
  decide

theorem rustKeywords_covered :
    ∀ k ∈ rustKeywords, k ∈ keywords ∨ k = "async" ∨ k = "await" ∨ k = "dyn" := by
  decide

theorem map_us_fixed (T : CharTables) (h : T.alnum '_' = false) (s k : List Char)
    (hk : '_' ∉ k) (h' : s.map (fun c => if T.alnum c then c else '_') = k) : s = k := by
  subst h'
  induction s with
  | nil => rfl
  | cons c cs ih =>
    simp only [List.map_cons, List.mem_cons, not_or] at hk
    simp only [List.map_cons]
    have h1 : T.alnum c = true := by
      cases hc : T.alnum c with
      | true => rfl
      | false => simp [hc] at hk
    rw [if_pos h1, ← ih hk.2]

theorem alpha_not_us (c : Char) (h : c.isAlpha = true) : c ≠ '_' := by
  intro e; subst e; revert h; decide

/-- C44: formatting any non-empty name gives a valid Rust identifier that is not a reserved word, except for the names
`async`, `await`, `dyn` (missing in the table) and for names whose only character is not alphanumeric (they give `_`). -/
theorem C44_format_ident_valid_partial (T : CharTables) (s : List Char) (hT : Compatible T s)
    (hne : s ≠ []) (hsingle : ∀ c, s = [c] → T.alnum c = true)
    (hmissing : s ≠ "async".toList ∧ s ≠ "await".toList ∧ s ≠ "dyn".toList) :
    ValidIdent T (formatIdent T s) := by
  unfold formatIdent
  by_cases hkw : s ∈ keywords.map String.toList
  · simp only [hkw, if_true]
    obtain ⟨k, hk, rfl⟩ := List.mem_map.mp hkw
    obtain ⟨hkne, hkl⟩ := keywords_letters k hk
    cases hks : k.toList with
    | nil => exact absurd hks hkne
    | cons c cs =>
      have hc : c.isAlpha = true := hkl c (by rw [hks]; simp)
      obtain ⟨h1, h2⟩ := hT.letters c hc
      simp only [List.cons_append, h2, Bool.false_eq_true, if_false, List.map_cons, h1, if_true, List.map_append,
        List.map_nil, hT.us_alnum]
      refine ⟨⟨c, _, rfl, Or.inl (hT.lettersStart c hc).1, ?_⟩, ?_⟩
      · intro d hd
        simp only [List.mem_append, List.mem_map, List.mem_singleton] at hd
        rcases hd with ⟨e, he, rfl⟩ | rfl
        · have he' := hkl e (by rw [hks]; simp [he])
          rw [if_pos (hT.letters e he').1]
          exact (hT.lettersStart e he').2
        · exact hT.us_cont
      · intro hmem
        obtain ⟨k', hk', he⟩ := List.mem_map.mp hmem
        have := (rustKeywords_letters k' hk').2 '_' (by rw [he]; simp)
        revert this; decide
  · simp only [hkw, if_false]
    cases s with
    | nil => exact absurd rfl hne
    | cons c cs =>
      simp only
      by_cases hn : T.num c = true
      · simp only [hn, if_true, List.map_cons, hT.us_alnum, Bool.false_eq_true, if_false]
        refine ⟨⟨'_', _, rfl, Or.inr ⟨rfl, by simp⟩, ?_⟩, ?_⟩
        · intro d hd
          rw [← List.map_cons (f := fun c => if T.alnum c then c else '_')] at hd
          obtain ⟨e, he, rfl⟩ := List.mem_map.mp hd
          by_cases ha : T.alnum e = true
          · simp [ha]; exact hT.cont e he ha
          · simp [ha]; exact hT.us_cont
        · intro hmem
          obtain ⟨k', hk', he⟩ := List.mem_map.mp hmem
          have := (rustKeywords_letters k' hk').2 '_' (by rw [he]; simp)
          revert this; decide
      · simp only [hn, if_false]
        have hcont : ∀ d ∈ cs.map (fun c => if T.alnum c then c else '_'), T.xidCont d = true := by
          intro d hd
          obtain ⟨e, he, rfl⟩ := List.mem_map.mp hd
          by_cases ha : T.alnum e = true
          · simp [ha]; exact hT.cont e (by simp [he]) ha
          · simp [ha]; exact hT.us_cont
        refine ⟨?_, ?_⟩
        · refine ⟨if T.alnum c then c else '_', _, rfl, ?_, hcont⟩
          by_cases ha : T.alnum c = true
          · simp only [ha, if_true]
            exact Or.inl (hT.start c (by simp) ha (by simpa using hn))
          · refine Or.inr ⟨by simp [ha], ?_⟩
            intro hcs
            have : cs = [] := by simpa using hcs
            subst this
            exact ha (hsingle c rfl)
        · intro hmem
          obtain ⟨k', hk', he⟩ := List.mem_map.mp hmem
          have hus : '_' ∉ k'.toList := fun hin => by
            have := (rustKeywords_letters k' hk').2 '_' hin
            revert this; decide
          have heq := map_us_fixed T hT.us_alnum (c :: cs) k'.toList hus he.symm
          rcases rustKeywords_covered k' hk' with h | rfl | rfl | rfl
          · exact hkw (List.mem_map.mpr ⟨k', h, heq.symm⟩)
          · exact hmissing.1 heq
          · exact hmissing.2.1 heq
          · exact hmissing.2.2 heq

theorem ascii_compatible (s : List Char) : Compatible asciiTables s where
  cont := fun c _ h => by simp [asciiTables] at *; exact Or.inl h
  start := fun c _ h h' => by
    simp only [asciiTables, Char.isAlphanum, Bool.or_eq_true] at *
    rcases h with h | h
    · exact h
    · simp [h] at h'
  us_alnum := by decide
  us_cont := by decide
  letters := fun c h => by
    refine ⟨by simp [asciiTables, Char.isAlphanum, h], ?_⟩
    simp only [Char.isAlpha, Char.isUpper, Char.isLower, Bool.or_eq_true, Bool.and_eq_true,
      decide_eq_true_eq, ge_iff_le, UInt32.le_iff_toNat_le] at h
    simp only [asciiTables, Char.isDigit, Bool.and_eq_false_iff, decide_eq_false_iff_not, ge_iff_le,
      UInt32.le_iff_toNat_le]
    have e1 : 'A'.val.toNat = 65 := rfl
    have e3 : 'a'.val.toNat = 97 := rfl
    have e5 : '9'.val.toNat = 57 := rfl
    omega
  lettersStart := fun c h => by simp [asciiTables, Char.isAlphanum, h]

/-- Non-vacuity: keywords, leading digits and special characters satisfy the hypotheses. -/
example : ValidIdent asciiTables (formatIdent asciiTables "type".toList) ∧
    formatIdent asciiTables "type".toList = "type_".toList ∧
    formatIdent asciiTables "1st-item".toList = "_1st_item".toList :=
  ⟨C44_format_ident_valid_partial _ _ (ascii_compatible _) (by decide)
    (fun c h => absurd (congrArg List.length h) (by decide : ¬ (4 = 1))) (by decide), by decide, by decide⟩

/-- Finding: `async`, `await` and `dyn` are reserved words but are passed through unchanged. -/
theorem C44_missing_keywords :
    ∀ k ∈ ["async", "await", "dyn"], ¬ ValidIdent asciiTables (formatIdent asciiTables k.toList) := by
  have h : ∀ k ∈ ["async", "await", "dyn"],
      formatIdent asciiTables k.toList ∈ rustKeywords.map String.toList := by decide
  exact fun k hk hv => hv.2 (h k hk)

/-- Finding: a name that is a single special character is formatted as `_`, which is not an identifier,
and the empty name stays empty. -/
theorem C44_underscore_and_empty :
    ¬ ValidIdent asciiTables (formatIdent asciiTables ['+']) ∧ ¬ ValidIdent asciiTables (formatIdent asciiTables []) := by
  have e1 : formatIdent asciiTables ['+'] = ['_'] := by decide
  have e2 : formatIdent asciiTables [] = [] := by decide
  rw [e1, e2]
  constructor
  · rintro ⟨⟨c, cs, h, h', _⟩, _⟩
    injection h with h1 h2
    subst h1; subst h2
    rcases h' with h' | ⟨_, h'⟩
    · revert h'; decide
    · exact h' rfl
  · rintro ⟨⟨c, cs, h, _⟩, _⟩
    exact absurd h (by simp)

end Verif.Naming

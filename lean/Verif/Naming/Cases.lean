import Verif.Naming.Ident

/-!
# Names of fields, variants and constants (C96)

Models `unify_string` (models/naming/mod.rs 52-71) and the functions of the default naming for fields, variants and constants
(models/naming/default.rs 55-71), all in `xsd-parser/src`.

The conversions between styles of writing are those of the crate `Inflector` 0.11 (`to_snake_case`, `to_screaming_snake_case` and
`to_pascal_case`). Its source is not in the repository: `snakeLike` and `pascal` follow its published code and are part of the trusted
base. They were compared with all 2311 names of variants, fields and constants in the expected outputs of the tests that are next to
their XML name. Names are ASCII: for other characters `Inflector` mixes up indices of bytes and characters.
-/

namespace Verif.Naming.Cases

abbrev Str := List Char

/-! ## Model -/

/-- `trim_end_matches` with characters that are not alphanumeric. -/
def trimRight (s : Str) : Str := (s.reverse.dropWhile fun c => !c.isAlphanum).reverse

/-- Inflector `requires_seperator` without `first_character`: a character that has no other upper case (also a digit) next to a
lower-case letter. -/
def startsWord (prev c : Char) (next : Option Char) : Bool :=
  c == c.toUpper && (next.any Char.isLower || prev.isLower)

/-- Inflector `to_case_snake_like`: the loop. `first` is `first_character`. The neighbours are looked up in the string before it is
trimmed; what follows the trimmed string is no letter. -/
def snakeGo (rep : Char) (conv : Char → Char) (prev : Char) (first : Bool) : Str → Str
  | [] => []
  | c :: cs =>
    if c.isAlphanum then
      if !first && startsWord prev c cs.head? then rep :: conv c :: snakeGo rep conv c false cs
      else conv c :: snakeGo rep conv c false cs
    else if first then snakeGo rep conv c true cs
    else rep :: snakeGo rep conv c true cs

/-- Inflector `to_case_snake_like`. -/
def snakeLike (conv : Char → Char) (s : Str) : Str := snakeGo '_' conv 'A' true (trimRight s)

/-- `to_snake_case` and `to_screaming_snake_case`. -/
def snake (s : Str) : Str := snakeLike Char.toLower s
def screaming (s : Str) : Str := snakeLike Char.toUpper s

/-- Inflector `to_case_camel_like` for `to_pascal_case`: the loop with `new_word`, `last_char` and `found_real_char`. -/
def pascalGo (newWord : Bool) (last : Char) (real : Bool) : Str → Str
  | [] => []
  | c :: cs =>
    if !c.isAlphanum && real then pascalGo true last real cs
    else if !c.isAlphanum then pascalGo newWord last real cs
    else if c.isDigit then c :: pascalGo true last true cs
    else if newWord || (last.isLower && c.isUpper) then c.toUpper :: pascalGo false last true cs
    else c.toLower :: pascalGo newWord c true cs

def pascal (s : Str) : Str := pascalGo true ' ' false (trimRight s)

/-- `unify_string`, models/naming/mod.rs 52-71: names without letters and digits keep their length. -/
def unify (s : Str) : Str :=
  let t := s.map fun c => if c != '_' && !c.isAlphanum then '_' else c
  if s.all (fun c => !c.isAlphanum) then t else pascal (screaming t)

/-- `format_field_name`, `format_variant_name` and `format_constant_name`, models/naming/default.rs 55-71. -/
def fieldName (s : Str) : Str := formatIdent asciiTables (snake (unify s))
def variantName (s : Str) : Str := formatIdent asciiTables (unify s)
def constantName (s : Str) : Str := formatIdent asciiTables (screaming (unify s))

/-- The constant of a value of an enumeration, pipeline/generator/data/enumeration.rs 108-111. -/
def valueConstant (s : Str) : Str := constantName ("VALUE_".toList ++ variantName s)

/-! ## Specification: names that consist of words -/

/-- A word: at least two lower-case letters. -/
def Word (w : Str) : Prop := 2 ≤ w.length ∧ ∀ c ∈ w, c.isLower = true

def cap : Str → Str
  | [] => []
  | c :: cs => c.toUpper :: cs

def upper (w : Str) : Str := w.map Char.toUpper

/-- `foo`, `Foo` or `FOO`. -/
def Form (w f : Str) : Prop := f = w ∨ f = cap w ∨ f = upper w

/-- The ways to write a name of words: with separators (`foo-bar`, `FOO_BAR`, `Foo.Bar`) or with capitals (`fooBar`, `FooBar`, `fooBAR`). -/
inductive Written : List Str → Str → Prop
  | one {w f : Str} : Word w → Form w f → Written [w] f
  | sep {w f s : Str} {ws : List Str} {c : Char} : Word w → Form w f → c.isAlphanum = false → Written ws s → Written (w :: ws) (f ++ c :: s)
  | caps {w f s : Str} {ws : List Str} {c : Char} : Word w → f = w ∨ f = cap w → c.isUpper = true → Written ws (c :: s) →
      Written (w :: ws) (f ++ c :: s)

/-- Words with a character between them. -/
def joinWith (rep : Char) : List Str → Str
  | [] => []
  | [w] => w
  | w :: ws => w ++ rep :: joinWith rep ws

/-! ## Proofs -/

def letters : Str := "abcdefghijklmnopqrstuvwxyz".toList

theorem lower_mem {c : Char} (h : c.isLower = true) : c ∈ letters := by
  have h1 : 97 ≤ c.toNat ∧ c.toNat ≤ 122 := by
    simp only [Char.isLower, Bool.and_eq_true, decide_eq_true_eq] at h
    exact ⟨h.1, h.2⟩
  have h2 : ∀ n : Fin 26, Char.ofNat (97 + n.val) ∈ letters := by decide
  have h3 := h2 ⟨c.toNat - 97, by omega⟩
  have h4 : 97 + (c.toNat - 97) = c.toNat := by omega
  rw [h4, Char.ofNat_toNat] at h3
  exact h3

theorem upper_mem {c : Char} (h : c.isUpper = true) : c ∈ letters.map Char.toUpper := by
  have h1 : 65 ≤ c.toNat ∧ c.toNat ≤ 90 := by
    simp only [Char.isUpper, Bool.and_eq_true, decide_eq_true_eq] at h
    exact ⟨h.1, h.2⟩
  have h2 : ∀ n : Fin 26, Char.ofNat (65 + n.val) ∈ letters.map Char.toUpper := by decide
  have h3 := h2 ⟨c.toNat - 65, by omega⟩
  have h4 : 65 + (c.toNat - 65) = c.toNat := by omega
  rw [h4, Char.ofNat_toNat] at h3
  exact h3

theorem lower_facts {c : Char} (h : c.isLower = true) :
    c.isAlphanum = true ∧ (c == c.toUpper) = false ∧ c.toLower = c ∧ c.toUpper.isUpper = true ∧ c.toUpper.toLower = c ∧
    c.toUpper.toUpper = c.toUpper ∧ c.isDigit = false ∧ c.isUpper = false ∧ c ≠ '_' ∧ c.isAlpha = true := by
  have h1 : ∀ c ∈ letters, c.isAlphanum = true ∧ (c == c.toUpper) = false ∧ c.toLower = c ∧ c.toUpper.isUpper = true ∧
    c.toUpper.toLower = c ∧ c.toUpper.toUpper = c.toUpper ∧ c.isDigit = false ∧ c.isUpper = false ∧ c ≠ '_' ∧
    c.isAlpha = true := by decide
  exact h1 c (lower_mem h)

theorem upper_facts {c : Char} (h : c.isUpper = true) :
    c.isAlphanum = true ∧ (c == c.toUpper) = true ∧ c.isLower = false ∧ c.isDigit = false ∧ c ≠ '_' ∧ c.isAlpha = true ∧
    c.toUpper = c := by
  have h1 : ∀ c ∈ letters.map Char.toUpper, c.isAlphanum = true ∧ (c == c.toUpper) = true ∧ c.isLower = false ∧ c.isDigit = false ∧
    c ≠ '_' ∧ c.isAlpha = true ∧ c.toUpper = c := by decide
  exact h1 c (upper_mem h)

/-- The last character of `c :: t`. -/
def lastD (c : Char) : Str → Char
  | [] => c
  | d :: t => lastD d t

theorem lastD_mem (c : Char) (t : Str) : lastD c t ∈ c :: t := by
  induction t generalizing c with
  | nil => simp [lastD]
  | cons d t ih => exact List.mem_cons_of_mem _ (ih d)

theorem lastD_mem' (c d : Char) (t : Str) : lastD c (d :: t) ∈ d :: t := lastD_mem d t

theorem snakeGo_lower (rep : Char) (conv : Char → Char) (t rest : Str) (ht : ∀ c ∈ t, c.isLower = true) (prev : Char) :
    snakeGo rep conv prev false (t ++ rest) = t.map conv ++ snakeGo rep conv (lastD prev t) false rest := by
  induction t generalizing prev with
  | nil => rfl
  | cons c t ih =>
    obtain ⟨h1, h2, -⟩ := lower_facts (ht c (by simp))
    have h3 := ih (fun d hd => ht d (by simp [hd])) c
    simp only [List.cons_append, snakeGo, h1, if_true, startsWord, h2, Bool.false_and, Bool.and_false, List.map_cons, lastD, h3]
    simp

theorem snakeGo_upper (rep : Char) (conv : Char → Char) (t rest : Str) (ht : ∀ c ∈ t, c.isUpper = true) (prev : Char)
    (hp : prev.isLower = false) (hr : rest.head?.any Char.isLower = false) :
    snakeGo rep conv prev false (t ++ rest) = t.map conv ++ snakeGo rep conv (lastD prev t) false rest := by
  induction t generalizing prev with
  | nil => rfl
  | cons c t ih =>
    obtain ⟨h1, -, h3, -⟩ := upper_facts (ht c (by simp))
    have h4 := ih (fun d hd => ht d (by simp [hd])) c h3
    have h5 : (t ++ rest).head?.any Char.isLower = false := by
      cases t with
      | nil => exact hr
      | cons d t =>
        have := (upper_facts (ht d (by simp))).2.2.1
        simp [this]
    simp only [List.cons_append, snakeGo, h1, if_true, startsWord, h5, hp, Bool.or_false, Bool.and_false, List.map_cons, lastD, h4]
    simp

/-- `conv` and `g` agree on lower-case letters, and `conv` does not look at the case. -/
def Agree (conv g : Char → Char) : Prop := ∀ c, c.isLower = true → conv c = g c ∧ conv c.toUpper = g c

theorem agree_upper : Agree Char.toUpper Char.toUpper := fun c h => ⟨rfl, (lower_facts h).2.2.2.2.2.1⟩

theorem agree_lower : Agree Char.toLower id := fun c h => ⟨(lower_facts h).2.2.1, (lower_facts h).2.2.2.2.1⟩

theorem map_agree {conv g : Char → Char} (h : Agree conv g) {t : Str} (ht : ∀ c ∈ t, c.isLower = true) :
    t.map conv = t.map g ∧ (upper t).map conv = t.map g := by
  induction t with
  | nil => exact ⟨rfl, rfl⟩
  | cons c t ih =>
    obtain ⟨h1, h2⟩ := ih fun d hd => ht d (by simp [hd])
    obtain ⟨h3, h4⟩ := h c (ht c (by simp))
    unfold upper at h2 ⊢
    simp only [List.map_cons, h1, h2, h3, h4]
    exact ⟨trivial, trivial⟩

theorem Word.cases {w : Str} (h : Word w) : ∃ c d t, w = c :: d :: t ∧ c.isLower = true ∧ ∀ x ∈ d :: t, x.isLower = true := by
  obtain ⟨h1, h2⟩ := h
  match w, h1, h2 with
  | c :: d :: t, _, h2 => exact ⟨c, d, t, rfl, h2 c (by simp), fun x hx => h2 x (List.mem_cons_of_mem _ hx)⟩

theorem upper_all {t : Str} (ht : ∀ c ∈ t, c.isLower = true) : ∀ c ∈ upper t, c.isUpper = true := by
  intro c hc
  obtain ⟨d, hd, rfl⟩ := List.mem_map.mp hc
  exact (lower_facts (ht d hd)).2.2.2.1

/-- One word in any form, at a place where it is seen as a new word. -/
theorem snakeGo_form (rep : Char) {conv g : Char → Char} (ha : Agree conv g) {w f : Str} (hw : Word w) (hf : Form w f) (rest : Str)
    (hr : rest.head?.any Char.isLower = false) (prev : Char) (first : Bool)
    (hp : first = true ∨ prev.isLower = true ∧ ∀ c ∈ f.head?, c.isUpper = true) :
    ∃ last, (f = w ∨ f = cap w → last.isLower = true) ∧
      snakeGo rep conv prev first (f ++ rest) =
        (if first then [] else [rep]) ++ w.map g ++ snakeGo rep conv last false rest := by
  obtain ⟨c, d, t, rfl, hc, ht⟩ := hw.cases
  obtain ⟨m1, m2⟩ := map_agree ha ht
  obtain ⟨a1, a2⟩ := ha c hc
  obtain ⟨l1, l2, -, l4, -⟩ := lower_facts hc
  obtain ⟨u1, u2, u3, -⟩ := upper_facts l4
  have hlow : (lastD c (d :: t)).isLower = true := ht _ (lastD_mem' c d t)
  have hlow' : (lastD c.toUpper (d :: t)).isLower = true := ht _ (lastD_mem' _ d t)
  rcases hf with rfl | rfl | rfl
  · have hfirst : first = true := by
      rcases hp with h | ⟨-, h⟩
      · exact h
      · have := h c (by simp)
        rw [(lower_facts hc).2.2.2.2.2.2.2.1] at this
        cases this
    subst hfirst
    refine ⟨lastD c (d :: t), fun _ => hlow, ?_⟩
    have := snakeGo_lower rep conv (d :: t) rest ht c
    rw [List.cons_append, snakeGo.eq_def]
    simp only [l1, if_true, Bool.not_true, Bool.false_and, this, List.map_cons, a1, m1] at *
    simp
  · refine ⟨lastD c.toUpper (d :: t), fun _ => hlow', ?_⟩
    have := snakeGo_lower rep conv (d :: t) rest ht c.toUpper
    have e : cap (c :: d :: t) ++ rest = c.toUpper :: ((d :: t) ++ rest) := rfl
    rw [e, snakeGo.eq_def]
    cases first with
    | true =>
      simp only [u1, if_true, Bool.not_true, Bool.false_and, this]
      rw [m1, a2]
      simp
    | false =>
      have hp' : prev.isLower = true := by
        rcases hp with h | ⟨h, -⟩
        · cases h
        · exact h
      simp only [u1, if_true, Bool.not_false, Bool.true_and, startsWord, u2, hp', Bool.or_true, this]
      rw [m1, a2]
      simp
  · have hU : ∀ x ∈ upper (d :: t), x.isUpper = true := upper_all ht
    refine ⟨lastD c.toUpper (upper (d :: t)), ?_, ?_⟩
    · intro h
      exfalso
      have hd := ht d (by simp)
      have hne : d ≠ d.toUpper := by
        have := (lower_facts hd).2.1
        intro e; rw [← e] at this; simp at this
      rcases h with h | h
      · injection h with _ h; injection h with h _; exact hne h.symm
      · injection h with _ h; injection h with h _; exact hne h.symm
    · have := snakeGo_upper rep conv (upper (d :: t)) rest hU c.toUpper u3 hr
      have e : upper (c :: d :: t) ++ rest = c.toUpper :: (upper (d :: t) ++ rest) := rfl
      rw [e, snakeGo.eq_def]
      cases first with
      | true =>
        simp only [u1, if_true, Bool.not_true, Bool.false_and, this]
        rw [m2, a2]
        simp
      | false =>
        have hp' : prev.isLower = true := by
          rcases hp with h | ⟨h, -⟩
          · cases h
          · exact h
        simp only [u1, if_true, Bool.not_false, Bool.true_and, startsWord, u2, hp', Bool.or_true, this]
        rw [m2, a2]
        simp

theorem not_alnum_not_lower {c : Char} (h : c.isAlphanum = false) : c.isLower = false := by
  cases hl : c.isLower with
  | false => rfl
  | true => rw [(lower_facts hl).1] at h; cases h

theorem Written.ne_nil {ws : List Str} {s : Str} (h : Written ws s) : ws ≠ [] := by cases h <;> simp

theorem joinWith_cons {rep : Char} {w : Str} {ws : List Str} (h : ws ≠ []) :
    joinWith rep (w :: ws) = w ++ rep :: joinWith rep ws := by
  cases ws with
  | nil => exact absurd rfl h
  | cons v vs => rfl

theorem snakeGo_written (rep : Char) {conv g : Char → Char} (ha : Agree conv g) {ws : List Str} {s : Str} (h : Written ws s) (prev : Char)
    (first : Bool) (hp : first = true ∨ prev.isLower = true ∧ ∀ c ∈ s.head?, c.isUpper = true) :
    snakeGo rep conv prev first s = (if first then [] else [rep]) ++ joinWith rep (ws.map fun w => w.map g) := by
  induction h generalizing prev first with
  | @one w f hw hf =>
    obtain ⟨last, -, h⟩ := snakeGo_form rep ha hw hf [] rfl prev first hp
    rw [List.append_nil] at h
    rw [h]
    simp [snakeGo, joinWith]
  | @sep w f s ws c hw hf hc hs ih =>
    obtain ⟨last, -, h⟩ := snakeGo_form rep ha hw hf (c :: s) (by simp [not_alnum_not_lower hc]) prev first (by
      rcases hp with h | ⟨h1, h2⟩
      · exact .inl h
      · refine .inr ⟨h1, ?_⟩
        intro x hx
        apply h2 x
        cases f with
        | nil => cases hx
        | cons y f => exact hx)
    rw [h, snakeGo.eq_def]
    have h2 := ih c true (.inl rfl)
    simp only [hc, if_true, List.nil_append, h2]
    rw [List.map_cons, joinWith_cons (by simpa using hs.ne_nil)]
    simp
  | @caps w f s ws c hw hf hc hs ih =>
    obtain ⟨last, hl, h⟩ := snakeGo_form rep ha hw (hf.imp_right .inl) (c :: s) (by simp [(upper_facts hc).2.2.1]) prev first (by
      rcases hp with h | ⟨h1, h2⟩
      · exact .inl h
      · refine .inr ⟨h1, ?_⟩
        intro x hx
        apply h2 x
        cases f with
        | nil => cases hx
        | cons y f => exact hx)
    rw [h, ih last false (.inr ⟨hl hf, by simp [hc]⟩)]
    rw [List.map_cons, joinWith_cons (by simpa using hs.ne_nil)]
    simp

theorem Form.alnum {w f : Str} (hw : Word w) (hf : Form w f) : ∀ c ∈ f, c.isAlphanum = true := by
  obtain ⟨c, d, t, rfl, hc, ht⟩ := hw.cases
  intro x hx
  have hlow : ∀ y ∈ c :: d :: t, y.isLower = true := hw.2
  rcases hf with rfl | rfl | rfl
  · exact (lower_facts (hlow x hx)).1
  · simp only [cap, List.mem_cons] at hx
    rcases hx with rfl | hx
    · exact (upper_facts (lower_facts hc).2.2.2.1).1
    · exact (lower_facts (ht x (by simpa using hx))).1
  · exact (upper_facts (upper_all hlow x hx)).1

theorem Form.ne_nil {w f : Str} (hw : Word w) (hf : Form w f) : f ≠ [] := by
  obtain ⟨c, d, t, rfl, -⟩ := hw.cases
  rcases hf with rfl | rfl | rfl <;> simp [cap, upper]

theorem Written.last {ws : List Str} {s : Str} (h : Written ws s) : ∃ s' c, s = s' ++ [c] ∧ c.isAlphanum = true := by
  induction h with
  | @one w f hw hf =>
    exact ⟨f.dropLast, f.getLast (hf.ne_nil hw), (List.dropLast_concat_getLast _).symm, hf.alnum hw _ (List.getLast_mem _)⟩
  | @sep w f s ws c hw hf hc hs ih =>
    obtain ⟨s', d, rfl, hd⟩ := ih
    exact ⟨f ++ c :: s', d, by simp, hd⟩
  | @caps w f s ws c hw hf hc hs ih =>
    obtain ⟨s', d, h, hd⟩ := ih
    exact ⟨f ++ s', d, by rw [h]; simp, hd⟩

theorem Written.trim {ws : List Str} {s : Str} (h : Written ws s) : trimRight s = s := by
  obtain ⟨s', c, rfl, hc⟩ := h.last
  simp [trimRight, hc]

theorem Written.words {ws : List Str} {s : Str} (h : Written ws s) : ∀ w ∈ ws, Word w := by
  induction h with
  | one hw _ => simpa using hw
  | sep hw _ _ _ ih => simpa using ⟨hw, ih⟩
  | caps hw _ _ _ ih => simpa using ⟨hw, ih⟩

/-- Upper-case words with separators are a way to write them. -/
theorem written_upper {ws : List Str} (hw : ∀ w ∈ ws, Word w) (hne : ws ≠ []) : Written ws (joinWith '_' (ws.map upper)) := by
  induction ws with
  | nil => exact absurd rfl hne
  | cons w ws ih =>
    cases ws with
    | nil => exact .one (hw w (by simp)) (.inr (.inr rfl))
    | cons v vs =>
      rw [List.map_cons, joinWith_cons (by simp)]
      exact .sep (hw w (by simp)) (.inr (.inr rfl)) (by decide) (ih (fun x hx => hw x (by simp [hx])) (by simp))

/-- And capitalised words. -/
theorem written_cap {ws : List Str} (hw : ∀ w ∈ ws, Word w) (hne : ws ≠ []) : Written ws (ws.map cap).flatten := by
  induction ws with
  | nil => exact absurd rfl hne
  | cons w ws ih =>
    cases ws with
    | nil =>
      rw [List.map_cons, List.map_nil, List.flatten_cons, List.flatten_nil, List.append_nil]
      exact .one (hw w (by simp)) (.inr (.inl rfl))
    | cons v vs =>
      have h1 := ih (fun x hx => hw x (by simp [hx])) (by simp)
      obtain ⟨c, d, t, rfl, hc, -⟩ := (hw v (by simp)).cases
      rw [List.map_cons, List.flatten_cons]
      exact .caps (hw w (by simp)) (.inr rfl) (lower_facts hc).2.2.2.1 h1

theorem pascalGo_upper (t rest : Str) (ht : ∀ c ∈ t, c.isLower = true) (last : Char) (hl : last.isLower = false) :
    ∃ last', last'.isLower = false ∧ pascalGo false last true (upper t ++ rest) = t ++ pascalGo false last' true rest := by
  induction t generalizing last with
  | nil => exact ⟨last, hl, rfl⟩
  | cons c t ih =>
    obtain ⟨-, -, -, l4, l5, -⟩ := lower_facts (ht c (by simp))
    obtain ⟨u1, -, u3, u4, -⟩ := upper_facts l4
    obtain ⟨last', h1, h2⟩ := ih (fun d hd => ht d (by simp [hd])) c.toUpper u3
    refine ⟨last', h1, ?_⟩
    have e : upper (c :: t) ++ rest = c.toUpper :: (upper t ++ rest) := rfl
    rw [e, pascalGo.eq_def]
    simp [u1, u4, hl, l5, h2]

theorem pascalGo_words {ws : List Str} (hw : ∀ w ∈ ws, Word w) (last : Char) (hl : last.isLower = false) (real : Bool) :
    pascalGo true last real (joinWith '_' (ws.map upper)) = (ws.map cap).flatten := by
  induction ws generalizing last real with
  | nil => rfl
  | cons w ws ih =>
    obtain ⟨c, d, t, rfl, hc, ht⟩ := (hw w (by simp)).cases
    obtain ⟨-, -, -, l4, -, l6, -⟩ := lower_facts hc
    obtain ⟨u1, -, u3, u4, -⟩ := upper_facts l4
    have step : ∀ rest, ∃ last', last'.isLower = false ∧ pascalGo true last real (upper (c :: d :: t) ++ rest) =
        cap (c :: d :: t) ++ pascalGo false last' true rest := by
      intro rest
      obtain ⟨last', h1, h2⟩ := pascalGo_upper (d :: t) rest ht last hl
      refine ⟨last', h1, ?_⟩
      have e : upper (c :: d :: t) ++ rest = c.toUpper :: (upper (d :: t) ++ rest) := rfl
      rw [e, pascalGo.eq_def]
      simp [u1, u4, l6, h2, cap]
    cases ws with
    | nil =>
      obtain ⟨last', -, h⟩ := step []
      simp only [List.append_nil] at h
      simp [joinWith, h, pascalGo]
    | cons v vs =>
      rw [List.map_cons, joinWith_cons (by simp)]
      obtain ⟨last', h1, h2⟩ := step ('_' :: joinWith '_' ((v :: vs).map upper))
      rw [h2, pascalGo.eq_def]
      have h3 := ih (fun x hx => hw x (by simp [hx])) last' h1 true
      have hus : Char.isAlphanum '_' = false := by decide
      simp only [hus, Bool.not_false, Bool.true_and, if_true, h3]
      rw [List.map_cons (l := v :: vs), List.flatten_cons]

/-- Separators are unified. -/
theorem Written.repl {ws : List Str} {s : Str} (h : Written ws s) :
    Written ws (s.map fun c => if c != '_' && !c.isAlphanum then '_' else c) := by
  have hfix : ∀ f : Str, (∀ c ∈ f, c.isAlphanum = true) → (f.map fun c => if c != '_' && !c.isAlphanum then '_' else c) = f := by
    intro f hf
    induction f with
    | nil => rfl
    | cons c f ih =>
      rw [List.map_cons, ih fun d hd => hf d (by simp [hd])]
      simp [hf c (by simp)]
  induction h with
  | @one w f hw hf => rw [hfix f (hf.alnum hw)]; exact .one hw hf
  | @sep w f s ws c hw hf hc hs ih =>
    rw [List.map_append, List.map_cons, hfix f (hf.alnum hw)]
    refine .sep hw hf ?_ ih
    by_cases h : c = '_'
    · subst h; decide
    · simp [hc, h]
  | @caps w f s ws c hw hf hc hs ih =>
    rw [List.map_append, hfix f (Form.alnum hw (hf.imp_right .inl))]
    rw [List.map_cons] at ih ⊢
    have h1 : (if (c != '_' && !c.isAlphanum) = true then '_' else c) = c := by simp [(upper_facts hc).1]
    rw [h1] at ih ⊢
    exact .caps hw hf hc ih

theorem unify_written {ws : List Str} {s : Str} (h : Written ws s) : unify s = (ws.map cap).flatten := by
  have hnot : s.all (fun c => !c.isAlphanum) = false := by
    obtain ⟨s', c, rfl, hc⟩ := h.last
    simp [hc]
  have h2 := h.repl
  have h3 : screaming (s.map fun c => if c != '_' && !c.isAlphanum then '_' else c) = joinWith '_' (ws.map upper) := by
    unfold screaming snakeLike
    rw [h2.trim, snakeGo_written '_' agree_upper h2 'A' true (.inl rfl)]
    rfl
  unfold unify
  simp only [hnot]
  rw [if_neg (by simp), h3, pascal, (written_upper h.words h.ne_nil).trim, pascalGo_words h.words ' ' (by decide)]

theorem map_id_words (ws : List Str) : (ws.map fun w => w.map id) = ws := by
  induction ws with
  | nil => rfl
  | cons w ws ih => simp

theorem snake_written {ws : List Str} {s : Str} (h : Written ws s) : snake s = joinWith '_' ws := by
  unfold snake snakeLike
  rw [h.trim, snakeGo_written '_' agree_lower h 'A' true (.inl rfl), map_id_words]
  rfl

theorem screaming_written {ws : List Str} {s : Str} (h : Written ws s) : screaming s = joinWith '_' (ws.map upper) := by
  unfold screaming snakeLike
  rw [h.trim, snakeGo_written '_' agree_upper h 'A' true (.inl rfl)]
  rfl

theorem split_inj {c : Char} {a a' b b' : Str} (ha : c ∉ a) (ha' : c ∉ a') (h : a ++ c :: b = a' ++ c :: b') : a = a' ∧ b = b' := by
  induction a generalizing a' with
  | nil =>
    cases a' with
    | nil => exact ⟨rfl, by simpa using h⟩
    | cons x a' =>
      injection h with h1 _
      exact absurd (by simp [h1]) ha'
  | cons x a ih =>
    cases a' with
    | nil =>
      injection h with h1 _
      exact absurd (by simp [h1]) ha
    | cons y a' =>
      injection h with h1 h2
      obtain ⟨h3, h4⟩ := ih (fun hm => ha (by simp [hm])) (fun hm => ha' (by simp [hm])) h2
      exact ⟨by rw [h1, h3], h4⟩

theorem Word.no_us {w : Str} (h : Word w) : '_' ∉ w := fun hm => (lower_facts (h.2 _ hm)).2.2.2.2.2.2.2.2.1 rfl

theorem join_inj {ws ws' : List Str} (hw : ∀ w ∈ ws, Word w) (hw' : ∀ w ∈ ws', Word w) (hne : ws ≠ []) (hne' : ws' ≠ [])
    (h : joinWith '_' ws = joinWith '_' ws') : ws = ws' := by
  induction ws generalizing ws' with
  | nil => exact absurd rfl hne
  | cons w ws ih =>
    cases ws' with
    | nil => exact absurd rfl hne'
    | cons w' ws' =>
      have n1 := (hw w (by simp)).no_us
      have n2 := (hw' w' (by simp)).no_us
      by_cases h1 : ws = []
      · by_cases h2 : ws' = []
        · subst h1 h2
          simp only [joinWith] at h
          rw [h]
        · subst h1
          rw [joinWith_cons h2] at h
          exact absurd (by simp only [joinWith] at h; rw [h]; simp) n1
      · by_cases h2 : ws' = []
        · subst h2
          rw [joinWith_cons h1] at h
          exact absurd (by simp only [joinWith] at h; rw [← h]; simp) n2
        · rw [joinWith_cons h1, joinWith_cons h2] at h
          obtain ⟨h3, h4⟩ := split_inj n1 n2 h
          rw [h3, ih (fun x hx => hw x (by simp [hx])) (fun x hx => hw' x (by simp [hx])) h1 h2 h4]

/-- A text consists of words in only one way. -/
theorem Written.unique {ws ws' : List Str} {s : Str} (h : Written ws s) (h' : Written ws' s) : ws = ws' :=
  join_inj h.words h'.words h.ne_nil h'.ne_nil (by rw [← snake_written h, snake_written h'])

/-- An identifier that need not be changed, except for keywords. -/
def asIdent (s : Str) : Str := if s ∈ keywords.map String.toList then s ++ ['_'] else s

/-- Letters and underscores, with letters at both ends. -/
def Clean (s : Str) : Prop :=
  (∀ c ∈ s, c.isAlpha = true ∨ c = '_') ∧ (∃ c t, s = c :: t ∧ c.isAlpha = true) ∧ ∃ t c, s = t ++ [c] ∧ c.isAlpha = true

theorem formatIdent_clean {s : Str} (h : Clean s) : formatIdent asciiTables s = asIdent s := by
  obtain ⟨h1, ⟨c, t, rfl, hc⟩, -⟩ := h
  have hd : c.isDigit = false := by
    simp only [Char.isAlpha, Bool.or_eq_true] at hc
    rcases hc with hc | hc
    · exact (upper_facts hc).2.2.2.1
    · exact (lower_facts hc).2.2.2.2.2.2.1
  have hfix : ∀ f : Str, (∀ c ∈ f, c.isAlpha = true ∨ c = '_') → f.map (fun c => if asciiTables.alnum c then c else '_') = f := by
    intro f hf
    induction f with
    | nil => rfl
    | cons x f ih =>
      rw [List.map_cons, ih fun d hd => hf d (by simp [hd])]
      rcases hf x (by simp) with hx | rfl
      · have : asciiTables.alnum x = true := by simp [asciiTables, Char.isAlphanum, hx]
        rw [if_pos this]
      · rfl
  have hn : asciiTables.num c = false := hd
  unfold formatIdent asIdent
  by_cases hk : c :: t ∈ keywords.map String.toList
  · simp only [if_pos hk]
    rw [List.cons_append]
    simp only [hn]
    rw [if_neg (by simp)]
    exact hfix _ (by
      intro x hx
      rw [← List.cons_append] at hx
      rcases List.mem_append.mp hx with hx | hx
      · exact h1 x hx
      · exact .inr (by simpa using hx))
  · simp only [if_neg hk]
    simp only [hn]
    rw [if_neg (by simp)]
    exact hfix _ h1

theorem asIdent_inj {s s' : Str} (h : Clean s) (h' : Clean s') (he : asIdent s = asIdent s') : s = s' := by
  have no : ∀ {s s' : Str}, Clean s → s = s' ++ ['_'] → False := by
    rintro s s' ⟨-, -, t, c, rfl, hc⟩ e
    have := List.append_inj_right' e rfl
    injection this with this _
    subst this
    exact absurd hc (by decide)
  unfold asIdent at he
  split at he <;> split at he
  · exact List.append_cancel_right he
  · exact (no h' he.symm).elim
  · exact (no h he).elim
  · exact he

theorem Word.alpha {w : Str} (h : Word w) : ∀ c ∈ w, c.isAlpha = true := fun c hc => (lower_facts (h.2 c hc)).2.2.2.2.2.2.2.2.2

theorem upper_alpha {w : Str} (h : Word w) : ∀ c ∈ upper w, c.isAlpha = true := fun c hc =>
  (upper_facts (upper_all h.2 c hc)).2.2.2.2.2.1

theorem cap_alpha {w : Str} (h : Word w) : ∀ c ∈ cap w, c.isAlpha = true := by
  obtain ⟨c, d, t, rfl, hc, ht⟩ := h.cases
  intro x hx
  simp only [cap, List.mem_cons] at hx
  rcases hx with rfl | hx
  · exact (upper_facts (lower_facts hc).2.2.2.1).2.2.2.2.2.1
  · exact (lower_facts (ht x (by simpa using hx))).2.2.2.2.2.2.2.2.2

theorem join_clean {ws : List Str} (hw : ∀ w ∈ ws, w ≠ [] ∧ ∀ c ∈ w, c.isAlpha = true) (hne : ws ≠ []) : Clean (joinWith '_' ws) := by
  induction ws with
  | nil => exact absurd rfl hne
  | cons w ws ih =>
    obtain ⟨hn, ha⟩ := hw w (by simp)
    have hhead : ∃ c t, w = c :: t ∧ c.isAlpha = true := by
      cases w with
      | nil => exact absurd rfl hn
      | cons c t => exact ⟨c, t, rfl, ha c (by simp)⟩
    by_cases h : ws = []
    · subst h
      refine ⟨fun c hc => .inl (ha c hc), hhead, w.dropLast, w.getLast hn, (List.dropLast_concat_getLast _).symm, ha _ (List.getLast_mem _)⟩
    · obtain ⟨i1, -, t', c', i2, i3⟩ := ih (fun x hx => hw x (by simp [hx])) h
      rw [joinWith_cons h]
      refine ⟨?_, ?_, w ++ '_' :: t', c', by rw [i2]; simp, i3⟩
      · intro c hc
        rcases List.mem_append.mp hc with hc | hc
        · exact .inl (ha c hc)
        · rcases List.mem_cons.mp hc with rfl | hc
          · exact .inr rfl
          · exact i1 c hc
      · obtain ⟨c, t, rfl, hc⟩ := hhead
        exact ⟨c, t ++ '_' :: joinWith '_' ws, rfl, hc⟩

theorem Word.ne_nil {w : Str} (h : Word w) : w ≠ [] := by obtain ⟨c, d, t, rfl, -⟩ := h.cases; simp

theorem words_clean {ws : List Str} (hw : ∀ w ∈ ws, Word w) (hne : ws ≠ []) : Clean (joinWith '_' ws) :=
  join_clean (fun w h => ⟨(hw w h).ne_nil, (hw w h).alpha⟩) hne

theorem upper_clean {ws : List Str} (hw : ∀ w ∈ ws, Word w) (hne : ws ≠ []) : Clean (joinWith '_' (ws.map upper)) := by
  refine join_clean ?_ (by simpa using hne)
  intro w h
  obtain ⟨v, hv, rfl⟩ := List.mem_map.mp h
  exact ⟨by have := (hw v hv).ne_nil; simpa [upper] using this, upper_alpha (hw v hv)⟩

theorem cap_clean {ws : List Str} (hw : ∀ w ∈ ws, Word w) (hne : ws ≠ []) : Clean (ws.map cap).flatten := by
  have hall : ∀ c ∈ (ws.map cap).flatten, c.isAlpha = true := by
    intro c hc
    obtain ⟨l, hl, hc⟩ := List.mem_flatten.mp hc
    obtain ⟨w, hw', rfl⟩ := List.mem_map.mp hl
    exact cap_alpha (hw w hw') c hc
  have hn : (ws.map cap).flatten ≠ [] := by
    cases ws with
    | nil => exact absurd rfl hne
    | cons w ws =>
      obtain ⟨c, d, t, rfl, -⟩ := (hw w (by simp)).cases
      simp [cap]
  refine ⟨fun c hc => .inl (hall c hc), ?_, _, _, (List.dropLast_concat_getLast hn).symm, hall _ (List.getLast_mem _)⟩
  revert hall hn
  cases (ws.map cap).flatten with
  | nil => intro _ h; exact absurd rfl h
  | cons c t => intro h _; exact ⟨c, t, rfl, h c (by simp)⟩

theorem trimRight_us (t : Str) : trimRight (t ++ ['_']) = trimRight t := by
  have : Char.isAlphanum '_' = false := by decide
  simp [trimRight, this]

theorem unify_us {s : Str} (h : ∃ c ∈ s, c.isAlphanum = true) : unify (s ++ ['_']) = unify s := by
  obtain ⟨c, hc, ha⟩ := h
  have h1 : s.all (fun c => !c.isAlphanum) = false := by
    rw [List.all_eq_false]
    exact ⟨c, hc, by simp [ha]⟩
  have h2 : (s ++ ['_']).all (fun c => !c.isAlphanum) = false := by
    rw [List.all_append, h1]; rfl
  unfold unify
  simp only [h1, h2]
  rw [if_neg (by simp), if_neg (by simp), List.map_append]
  unfold screaming snakeLike
  rw [show (['_'].map fun c => if c != '_' && !c.isAlphanum then '_' else c) = ['_'] from rfl, trimRight_us]

/-! ## C96 -/

/-- **C96** (partial). How the members of a type are called whose XML name consists of words (of at least two letters), whatever way it
is written: `foo_bar` for fields, `FooBar` for variants, `VALUE_FOO_BAR` for the constants of enumerations, with an underscore after
keywords. Missing: words of one letter, digits. -/
theorem C96_names_partial {ws : List Str} {s : Str} (h : Written ws s) :
    fieldName s = asIdent (joinWith '_' ws) ∧ variantName s = asIdent (ws.map cap).flatten ∧
    valueConstant s = asIdent (joinWith '_' ("VALUE".toList :: ws.map upper)) := by
  have hu := unify_written h
  have hc := written_cap h.words h.ne_nil
  have hv : variantName s = asIdent (ws.map cap).flatten := by
    unfold variantName
    rw [hu, formatIdent_clean (cap_clean h.words h.ne_nil)]
  refine ⟨?_, hv, ?_⟩
  · unfold fieldName
    rw [hu, snake_written hc, formatIdent_clean (words_clean h.words h.ne_nil)]
  · have hval : Word "value".toList := ⟨by decide, by decide⟩
    have hW : Written ("value".toList :: ws) ("VALUE".toList ++ '_' :: (ws.map cap).flatten) :=
      .sep hval (.inr (.inr (by decide))) (by decide) hc
    have e1 : "VALUE_".toList ++ (ws.map cap).flatten = "VALUE".toList ++ '_' :: (ws.map cap).flatten := rfl
    have e2 : unify ("VALUE_".toList ++ asIdent (ws.map cap).flatten) = (("value".toList :: ws).map cap).flatten := by
      unfold asIdent
      split
      · rw [← List.append_assoc, e1, unify_us ⟨'V', by simp, by decide⟩, unify_written hW]
      · rw [e1, unify_written hW]
    have hw2 := hW.words
    have e3 : (("value".toList :: ws).map upper) = "VALUE".toList :: ws.map upper := rfl
    unfold valueConstant constantName
    rw [hv, e2, screaming_written (written_cap hw2 (by simp)), formatIdent_clean (upper_clean hw2 (by simp)), e3]

/-- **C96** (partial). Members get the same name exactly if their names consist of the same words; so members whose names differ in their
words do not clash. Missing: the same words written in different ways (`C96_same_words_clash`), words of one letter and digits
(`C96_short_words_clash`). -/
theorem C96_same_name_iff_partial {ws ws' : List Str} {s s' : Str} (h : Written ws s) (h' : Written ws' s') :
    (fieldName s = fieldName s' ↔ ws = ws') ∧ (variantName s = variantName s' ↔ ws = ws') ∧
    (valueConstant s = valueConstant s' ↔ ws = ws') := by
  obtain ⟨f1, v1, c1⟩ := C96_names_partial h
  obtain ⟨f2, v2, c2⟩ := C96_names_partial h'
  have hval : Word "value".toList := ⟨by decide, by decide⟩
  refine ⟨⟨fun e => ?_, ?_⟩, ⟨fun e => ?_, ?_⟩, ⟨fun e => ?_, ?_⟩⟩
  · rw [f1, f2] at e
    exact join_inj h.words h'.words h.ne_nil h'.ne_nil
      (asIdent_inj (words_clean h.words h.ne_nil) (words_clean h'.words h'.ne_nil) e)
  · rintro rfl; rw [f1, f2]
  · rw [v1, v2] at e
    have := asIdent_inj (cap_clean h.words h.ne_nil) (cap_clean h'.words h'.ne_nil) e
    have w1 := written_cap h.words h.ne_nil
    rw [this] at w1
    exact w1.unique (written_cap h'.words h'.ne_nil)
  · rintro rfl; rw [v1, v2]
  · have e3 : ∀ ws : List Str, "VALUE".toList :: ws.map upper = (("value".toList :: ws).map upper) := fun _ => rfl
    rw [c1, c2, e3, e3] at e
    have a1 : ∀ w ∈ "value".toList :: ws, Word w := by simpa using ⟨hval, h.words⟩
    have a2 : ∀ w ∈ "value".toList :: ws', Word w := by simpa using ⟨hval, h'.words⟩
    have := asIdent_inj (upper_clean a1 (by simp)) (upper_clean a2 (by simp)) e
    have w1 := written_upper a1 (by simp)
    rw [this] at w1
    have := w1.unique (written_upper a2 (by simp))
    injection this
  · rintro rfl; rw [c1, c2]

theorem exWord (w : Str) (h : (2 ≤ w.length && w.all Char.isLower) = true) : Word w := by
  simpa [Word] using h

example : Written ["foo".toList, "bar".toList] "fooBar".toList ∧ Written ["foo".toList, "bar".toList] "foo-bar".toList ∧
    Written ["foo".toList, "bar".toList] "FOO.BAR".toList ∧ Written ["self".toList] "self".toList := by
  have w1 := exWord "foo".toList (by decide)
  have w2 := exWord "bar".toList (by decide)
  refine ⟨.caps (f := "foo".toList) (c := 'B') (s := "ar".toList) w1 (.inl rfl) (by decide) (.one w2 (.inr (.inl (by decide)))),
    .sep (f := "foo".toList) (c := '-') (s := "bar".toList) w1 (.inl rfl) (by decide) (.one w2 (.inl rfl)),
    .sep (f := "FOO".toList) (c := '.') (s := "BAR".toList) w1 (.inr (.inr (by decide))) (by decide) (.one w2 (.inr (.inr (by decide)))),
    .one (exWord _ (by decide)) (.inl rfl)⟩

example : fieldName "fooBar".toList = "foo_bar".toList ∧ variantName "self".toList = "Self_".toList ∧
    valueConstant "self".toList = "VALUE_SELF".toList ∧ fieldName "type".toList = "type_".toList := by decide +kernel

/-- **C96** (negation). Different XML names of the same words get the same field, the same variant and the same constant, so that the
generated code does not compile. -/
theorem C96_same_words_clash {ws : List Str} {s s' : Str} (h : Written ws s) (h' : Written ws s') :
    fieldName s = fieldName s' ∧ variantName s = variantName s' ∧ valueConstant s = valueConstant s' := by
  obtain ⟨h1, h2, h3⟩ := C96_same_name_iff_partial h h'
  exact ⟨h1.mpr rfl, h2.mpr rfl, h3.mpr rfl⟩

/-- **C96** (negation). Words of one letter are put together: the elements `a_b` and `ab` get the same field; the values `a-b` and `ab` of
an enumeration get different variants but the same constant. -/
theorem C96_short_words_clash :
    fieldName "a_b".toList = fieldName "ab".toList ∧ variantName "a-b".toList ≠ variantName "ab".toList ∧
    valueConstant "a-b".toList = valueConstant "ab".toList := by decide +kernel

/-- **C96** (negation). So do names that differ only in characters that are neither letters nor digits, at the beginning and at the end:
`-1` and `1` are the same variant. -/
theorem C96_signs_lost : variantName "-1".toList = variantName "1".toList ∧ variantName "+".toList = variantName "*".toList ∧
    variantName "<=".toList = variantName ">=".toList := by decide +kernel

end Verif.Naming.Cases

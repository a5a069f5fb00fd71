import Verif.Naming.Cases

/-!
# Names of members that end in numbers (C96, continued)

Names such as `address2`, `Address_2` and `level-12`, and names with several numbers, such as `level-1.2`. The model is that of
`Verif.Naming.Cases`: `unify_string` (models/naming/mod.rs 52-71) and the default naming (models/naming/default.rs 55-71), in
`xsd-parser/src`.
-/

namespace Verif.Naming.Numbers

open Verif.Naming Verif.Naming.Cases

/-! ## Specification -/

/-- A number: at least one digit. Leading zeros count. -/
def Number (ds : Str) : Prop := ds ≠ [] ∧ ∀ c ∈ ds, c.isDigit = true

/-- Words followed by a number, with or without a separator. -/
inductive Numbered (ws : List Str) (ds : Str) : Str → Prop
  | direct {s : Str} : Written ws s → Number ds → Numbered ws ds (s ++ ds)
  | sep {s : Str} {c : Char} : Written ws s → Number ds → c.isAlphanum = false → Numbered ws ds (s ++ c :: ds)

/-! ## Proofs -/

theorem digit_facts {c : Char} (h : c.isDigit = true) :
    c.isAlphanum = true ∧ c.isLower = false ∧ c.toUpper = c ∧ c.toLower = c ∧ c ≠ '_' ∧ c.isAlpha = false := by
  have h1 : 48 ≤ c.toNat ∧ c.toNat ≤ 57 := by
    simp only [Char.isDigit, Bool.and_eq_true, decide_eq_true_eq] at h
    exact ⟨h.1, h.2⟩
  have h2 : ∀ n : Fin 10, (fun c : Char => c.isAlphanum = true ∧ c.isLower = false ∧ c.toUpper = c ∧ c.toLower = c ∧ c ≠ '_' ∧
      c.isAlpha = false) (Char.ofNat (48 + n.val)) := by decide
  have h3 := h2 ⟨c.toNat - 48, by omega⟩
  have h4 : 48 + (c.toNat - 48) = c.toNat := by omega
  rw [h4, Char.ofNat_toNat] at h3
  exact h3

def NoCase (conv : Char → Char) : Prop := ∀ c, c.isDigit = true → conv c = c

theorem noCase_upper : NoCase Char.toUpper := fun _ h => (digit_facts h).2.2.1
theorem noCase_lower : NoCase Char.toLower := fun _ h => (digit_facts h).2.2.2.1

/-- Digits after a character that is no lower-case letter. -/
theorem snakeGo_digits (rep : Char) {conv : Char → Char} (hc : NoCase conv) (ds rest : Str) (hd : ∀ c ∈ ds, c.isDigit = true)
    (hr : rest.head?.any Char.isLower = false) (prev : Char) (hp : prev.isLower = false) :
    ∃ last, snakeGo rep conv prev false (ds ++ rest) = ds ++ snakeGo rep conv last false rest := by
  induction ds generalizing prev with
  | nil => exact ⟨prev, rfl⟩
  | cons d ds ih =>
    obtain ⟨a1, a2, -⟩ := digit_facts (hd d (by simp))
    obtain ⟨last, h⟩ := ih (fun c h => hd c (by simp [h])) d a2
    have h5 : (ds ++ rest).head?.any Char.isLower = false := by
      cases ds with
      | nil => exact hr
      | cons e ds =>
        have := (digit_facts (hd e (by simp))).2.1
        simp [this]
    refine ⟨last, ?_⟩
    rw [List.cons_append, snakeGo.eq_def]
    simp only [a1, if_true, startsWord, h5, hp, Bool.or_false, Bool.and_false, h, hc d (hd d (by simp))]
    simp

/-- A number at any place. -/
theorem snakeGo_number (rep : Char) {conv : Char → Char} (hc : NoCase conv) {ds : Str} (hd : Number ds) (rest : Str)
    (hr : rest.head?.any Char.isLower = false) (prev : Char) (first : Bool) :
    ∃ last, snakeGo rep conv prev first (ds ++ rest) =
      (if !first && prev.isLower then [rep] else []) ++ ds ++ snakeGo rep conv last false rest := by
  obtain ⟨hne, hd⟩ := hd
  cases ds with
  | nil => exact absurd rfl hne
  | cons d ds =>
    obtain ⟨a1, a2, a3, -⟩ := digit_facts (hd d (by simp))
    obtain ⟨last, h⟩ := snakeGo_digits rep hc ds rest (fun c h => hd c (by simp [h])) hr d a2
    have h5 : (ds ++ rest).head?.any Char.isLower = false := by
      cases ds with
      | nil => exact hr
      | cons e ds =>
        have := (digit_facts (hd e (by simp))).2.1
        simp [this]
    refine ⟨last, ?_⟩
    have a4 : (d == d.toUpper) = true := by rw [a3]; simp
    rw [List.cons_append, snakeGo.eq_def]
    simp only [a1, if_true, startsWord, h5, a4, Bool.false_or, Bool.true_and, h, hc d (hd d (by simp))]
    split <;> simp

theorem upper_last {w : Str} (h : Word w) : (upper w).getLast?.any Char.isLower = false := by
  cases hl : (upper w).getLast? with
  | none => rfl
  | some c => exact (upper_facts (upper_all h.2 c (List.mem_of_getLast? hl))).2.2.1

theorem append_last (f : Str) {s : Str} (h : s ≠ []) : (f ++ s).getLast? = s.getLast? := by
  rw [List.getLast?_append]
  cases hs : s.getLast? with
  | none => exact absurd (List.getLast?_eq_none_iff.mp hs) h
  | some c => rfl

theorem Written.str_ne {ws : List Str} {s : Str} (h : Written ws s) : s ≠ [] := by
  obtain ⟨s', c, rfl, -⟩ := h.last
  simp

/-- Words with something behind them. -/
theorem snakeGo_written_rest (rep : Char) {conv g : Char → Char} (ha : Agree conv g) {ws : List Str} {s : Str} (h : Written ws s)
    (rest : Str) (hr : rest.head?.any Char.isLower = false) (prev : Char)
    (first : Bool) (hp : first = true ∨ prev.isLower = true ∧ ∀ c ∈ s.head?, c.isUpper = true) :
    ∃ last, (s.getLast?.any Char.isLower = true → last.isLower = true) ∧
      snakeGo rep conv prev first (s ++ rest) =
        (if first then [] else [rep]) ++ joinWith rep (ws.map fun w => w.map g) ++ snakeGo rep conv last false rest := by
  induction h generalizing prev first with
  | @one w f hw hf =>
    obtain ⟨last, hl, h⟩ := snakeGo_form rep ha hw hf rest hr prev first hp
    refine ⟨last, fun e => ?_, by rw [h]; simp [joinWith]⟩
    rcases hf with hf | hf | hf
    · exact hl (.inl hf)
    · exact hl (.inr hf)
    · subst hf; rw [upper_last hw] at e; cases e
  | @sep w f s ws c hw hf hc hs ih =>
    obtain ⟨last, -, h⟩ := snakeGo_form rep ha hw hf (c :: (s ++ rest)) (by simp [not_alnum_not_lower hc]) prev first (by
      rcases hp with h | ⟨h1, h2⟩
      · exact .inl h
      · refine .inr ⟨h1, ?_⟩
        intro x hx
        apply h2 x
        cases f with
        | nil => cases hx
        | cons y f => exact hx)
    obtain ⟨last2, hl2, h2⟩ := ih c true (.inl rfl)
    refine ⟨last2, fun e => hl2 ?_, ?_⟩
    · rw [show f ++ c :: s = (f ++ [c]) ++ s by simp, append_last _ (Written.str_ne hs)] at e
      exact e
    · rw [List.append_assoc, List.cons_append, h, snakeGo.eq_def]
      simp only [hc, if_true, List.nil_append, h2]
      rw [List.map_cons, joinWith_cons (by simpa using hs.ne_nil)]
      simp
  | @caps w f s ws c hw hf hc hs ih =>
    obtain ⟨last, hl, h⟩ := snakeGo_form rep ha hw (hf.imp_right .inl) (c :: (s ++ rest)) (by simp [(upper_facts hc).2.2.1]) prev first (by
      rcases hp with h | ⟨h1, h2⟩
      · exact .inl h
      · refine .inr ⟨h1, ?_⟩
        intro x hx
        apply h2 x
        cases f with
        | nil => cases hx
        | cons y f => exact hx)
    obtain ⟨last2, hl2, h2⟩ := ih last false (.inr ⟨hl hf, by simp [hc]⟩)
    refine ⟨last2, fun e => hl2 ?_, ?_⟩
    · rw [append_last _ (by simp)] at e
      exact e
    · rw [List.append_assoc, List.cons_append, h]
      rw [List.cons_append] at h2
      rw [h2, List.map_cons, joinWith_cons (by simpa using hs.ne_nil)]
      simp

theorem pascalGo_words_rest {ws : List Str} (hw : ∀ w ∈ ws, Word w) (hne : ws ≠ []) (rest : Str) (last : Char) (hl : last.isLower = false)
    (real : Bool) : ∃ last', pascalGo true last real (joinWith '_' (ws.map upper) ++ rest) =
      (ws.map cap).flatten ++ pascalGo false last' true rest := by
  induction ws generalizing last real with
  | nil => exact absurd rfl hne
  | cons w ws ih =>
    obtain ⟨c, d, t, rfl, hc, ht⟩ := (hw w (by simp)).cases
    obtain ⟨-, -, -, l4, -, l6, -⟩ := lower_facts hc
    obtain ⟨u1, -, u3, u4, -⟩ := upper_facts l4
    have step : ∀ rest, ∃ last', last'.isLower = false ∧ pascalGo true last real (upper (c :: d :: t) ++ rest) =
        cap (c :: d :: t) ++ pascalGo false last' true rest := by
      intro rest
      obtain ⟨last', h1, h2⟩ := pascalGo_upper (d :: t) rest ht last hl
      refine ⟨last', h1, ?_⟩
      have e : upper (c :: d :: t) ++ rest = c.toUpper :: (upper (d :: t) ++ rest) := rfl
      rw [e, pascalGo.eq_def]
      simp [u1, u4, l6, h2, cap]
    cases ws with
    | nil =>
      obtain ⟨last', -, h⟩ := step rest
      exact ⟨last', by simpa [joinWith] using h⟩
    | cons v vs =>
      rw [List.map_cons, joinWith_cons (by simp)]
      obtain ⟨last', h1, h2⟩ := step ('_' :: (joinWith '_' ((v :: vs).map upper) ++ rest))
      obtain ⟨last2, h3⟩ := ih (fun x hx => hw x (by simp [hx])) (by simp) last' h1 true
      refine ⟨last2, ?_⟩
      rw [List.append_assoc, List.cons_append, h2, pascalGo.eq_def]
      have hus : Char.isAlphanum '_' = false := by decide
      simp only [hus, Bool.not_false, Bool.true_and, if_true, h3]
      rw [List.map_cons (l := v :: vs), List.flatten_cons]
      simp

theorem pascalGo_digits (ds rest : Str) (hd : ∀ c ∈ ds, c.isDigit = true) (nw : Bool) (last : Char) :
    ∃ nw', pascalGo nw last true (ds ++ rest) = ds ++ pascalGo nw' last true rest := by
  induction ds generalizing nw with
  | nil => exact ⟨nw, rfl⟩
  | cons d ds ih =>
    obtain ⟨nw', h⟩ := ih (fun c h => hd c (by simp [h])) true
    refine ⟨nw', ?_⟩
    rw [List.cons_append, pascalGo.eq_def]
    simp [(digit_facts (hd d (by simp))).1, hd d (by simp), h]

theorem pascalGo_us (nw : Bool) (last : Char) (rest : Str) : pascalGo nw last true ('_' :: rest) = pascalGo true last true rest := by
  rw [pascalGo.eq_def]
  simp [show Char.isAlphanum '_' = false by decide]

theorem trim_last {s : Str} {c : Char} (hc : c.isAlphanum = true) : trimRight (s ++ [c]) = s ++ [c] := by
  simp [trimRight, hc]

theorem Number.trim {ds : Str} (h : Number ds) (s : Str) : trimRight (s ++ ds) = s ++ ds := by
  have e := List.dropLast_concat_getLast h.1
  rw [← e, ← List.append_assoc]
  exact trim_last (digit_facts (h.2 _ (List.getLast_mem h.1))).1

/-- Separators between words and numbers. -/
def Sep (p : Str) : Prop := ∃ c : Char, p = [c] ∧ c.isAlphanum = false

def uni (s : Str) : Str := s.map fun c => if c != '_' && !c.isAlphanum then '_' else c

theorem uni_digits {ds : Str} (h : ∀ c ∈ ds, c.isDigit = true) : uni ds = ds := by
  induction ds with
  | nil => rfl
  | cons d ds ih =>
    have h1 := ih fun c hc => h c (by simp [hc])
    unfold uni at h1 ⊢
    rw [List.map_cons, h1]
    simp [(digit_facts (h d (by simp))).1]

theorem uni_sep {c : Char} (h : c.isAlphanum = false) : uni [c] = ['_'] := by
  by_cases hc : c = '_'
  · subst hc; rfl
  · simp [uni, h, hc]

theorem unify_eq {s : Str} (h : ∃ c ∈ s, c.isAlphanum = true) : unify s = pascal (screaming (uni s)) := by
  obtain ⟨c, hc, ha⟩ := h
  have h1 : s.all (fun c => !c.isAlphanum) = false := by
    rw [List.all_eq_false]
    exact ⟨c, hc, by simp [ha]⟩
  unfold unify uni
  simp only [h1]
  rw [if_neg (by simp)]

theorem Number.alnum {ds : Str} (h : Number ds) : ∃ c ∈ ds, c.isAlphanum = true :=
  ⟨ds.getLast h.1, List.getLast_mem h.1, (digit_facts (h.2 _ (List.getLast_mem h.1))).1⟩

theorem digits_head {ds rest : Str} (h : Number ds) : (ds ++ rest).head?.any Char.isLower = false := by
  cases ds with
  | nil => exact absurd rfl h.1
  | cons d ds => simp [(digit_facts (h.2 d (by simp))).2.1]

/-- The pascal case of words and digits, with or without an underscore between them. -/
theorem pascal_number {ws : List Str} (hw : ∀ w ∈ ws, Word w) (hne : ws ≠ []) {ds : Str} (hd : Number ds) :
    pascal (joinWith '_' (ws.map upper) ++ ds) = (ws.map cap).flatten ++ ds ∧
    pascal (joinWith '_' (ws.map upper) ++ '_' :: ds) = (ws.map cap).flatten ++ ds := by
  have hdig : ∀ (nw : Bool) (last : Char), pascalGo nw last true ds = ds := by
    intro nw last
    obtain ⟨nw', h⟩ := pascalGo_digits ds [] hd.2 nw last
    simpa [pascalGo] using h
  constructor
  · unfold pascal
    rw [hd.trim]
    obtain ⟨l, h⟩ := pascalGo_words_rest hw hne ds ' ' (by decide) false
    rw [h, hdig]
  · unfold pascal
    rw [show joinWith '_' (ws.map upper) ++ '_' :: ds = (joinWith '_' (ws.map upper) ++ ['_']) ++ ds by simp, hd.trim]
    rw [List.append_assoc, List.cons_append, List.nil_append]
    obtain ⟨l, h⟩ := pascalGo_words_rest hw hne ('_' :: ds) ' ' (by decide) false
    rw [h, pascalGo_us, hdig]

theorem uni_append (a b : Str) : uni (a ++ b) = uni a ++ uni b := by simp [uni]

theorem unify_numbered {ws : List Str} {ds s : Str} (h : Numbered ws ds s) : unify s = (ws.map cap).flatten ++ ds := by
  cases h with
  | @direct s hs hd =>
    obtain ⟨x, hx, hxa⟩ := hd.alnum
    rw [unify_eq ⟨x, by simp [hx], hxa⟩, uni_append, uni_digits hd.2]
    have h2 : Written ws (uni s) := hs.repl
    unfold screaming snakeLike
    rw [hd.trim]
    obtain ⟨last, -, h3⟩ := snakeGo_written_rest '_' agree_upper h2 ds (by simpa using digits_head (rest := []) hd) 'A' true (.inl rfl)
    obtain ⟨last2, h4⟩ := snakeGo_number '_' noCase_upper hd [] rfl last false
    rw [List.append_nil] at h4
    rw [h3, h4]
    obtain ⟨p1, p2⟩ := pascal_number hs.words hs.ne_nil hd
    have e : (ws.map fun w => w.map Char.toUpper) = ws.map upper := rfl
    rw [e]
    cases last.isLower with
    | true => simpa [snakeGo] using p2
    | false => simpa [snakeGo] using p1
  | @sep s c hs hd hc =>
    obtain ⟨x, hx, hxa⟩ := hd.alnum
    rw [unify_eq ⟨x, by simp [hx], hxa⟩, show s ++ c :: ds = s ++ ([c] ++ ds) by simp, uni_append, uni_append, uni_digits hd.2, uni_sep hc]
    have h2 : Written ws (uni s) := hs.repl
    unfold screaming snakeLike
    rw [← List.append_assoc, hd.trim, List.append_assoc]
    obtain ⟨last, -, h3⟩ := snakeGo_written_rest '_' agree_upper h2 (['_'] ++ ds) (by simp [show Char.isLower '_' = false by decide]) 'A' true (.inl rfl)
    obtain ⟨last2, h4⟩ := snakeGo_number '_' noCase_upper hd [] rfl '_' true
    rw [List.append_nil] at h4
    have h5 : snakeGo '_' Char.toUpper last false (['_'] ++ ds) = '_' :: ds := by
      rw [List.cons_append, List.nil_append, snakeGo.eq_def]
      simp only [show Char.isAlphanum '_' = false by decide, h4]
      simp [snakeGo]
    rw [h3, h5]
    obtain ⟨p1, p2⟩ := pascal_number hs.words hs.ne_nil hd
    have e : (ws.map fun w => w.map Char.toUpper) = ws.map upper := rfl
    rw [e]
    simpa using p2

theorem caps_last {ws : List Str} (hw : ∀ w ∈ ws, Word w) (hne : ws ≠ []) : (ws.map cap).flatten.getLast?.any Char.isLower = true := by
  induction ws with
  | nil => exact absurd rfl hne
  | cons w ws ih =>
    cases ws with
    | nil =>
      obtain ⟨c, d, t, rfl, hc, ht⟩ := (hw w (by simp)).cases
      have e : (([c :: d :: t].map cap).flatten) = [c.toUpper] ++ (d :: t) := by simp [cap]
      rw [e, append_last _ (by simp), List.getLast?_eq_some_getLast (by simp)]
      exact ht _ (List.getLast_mem _)
    | cons v vs =>
      rw [List.map_cons, List.flatten_cons, append_last]
      · exact ih (fun x hx => hw x (by simp [hx])) (by simp)
      · exact Written.str_ne (written_cap (fun x hx => hw x (by simp [hx])) (by simp))

/-- `FooBar12` in the other styles. -/
theorem snakeLike_caps_number {conv g : Char → Char} (ha : Agree conv g) (hn : NoCase conv) {ws : List Str} (hw : ∀ w ∈ ws, Word w)
    (hne : ws ≠ []) {ds : Str} (hd : Number ds) :
    snakeLike conv ((ws.map cap).flatten ++ ds) = joinWith '_' (ws.map fun w => w.map g) ++ '_' :: ds := by
  unfold snakeLike
  rw [hd.trim]
  obtain ⟨last, hl, h3⟩ := snakeGo_written_rest '_' ha (written_cap hw hne) ds (by simpa using digits_head (rest := []) hd) 'A' true (.inl rfl)
  obtain ⟨last2, h4⟩ := snakeGo_number '_' hn hd [] rfl last false
  rw [List.append_nil] at h4
  rw [h3, h4, hl (caps_last hw hne)]
  simp [snakeGo]

theorem keywords_no_digit : ∀ k ∈ keywords.map String.toList, k.getLast?.any Char.isDigit = false := by decide +kernel

theorem number_last {ds : Str} (hd : Number ds) (s : Str) : (s ++ ds).getLast?.any Char.isDigit = true := by
  rw [append_last _ hd.1, List.getLast?_eq_some_getLast hd.1]
  exact hd.2 _ (List.getLast_mem _)

/-- Identifiers that end in a number are left alone. -/
theorem formatIdent_number {s ds : Str} (h : Clean s) (hd : Number ds) (p : Str) (hp : p = [] ∨ p = ['_']) :
    formatIdent asciiTables (s ++ p ++ ds) = s ++ p ++ ds := by
  have hk : s ++ p ++ ds ∉ keywords.map String.toList := fun hm => by
    have := keywords_no_digit _ hm
    rw [number_last hd] at this
    cases this
  obtain ⟨h1, ⟨c, t, rfl, hc⟩, -⟩ := h
  have hn : asciiTables.num c = false := by
    simp only [Char.isAlpha, Bool.or_eq_true] at hc
    rcases hc with hc | hc
    · exact (upper_facts hc).2.2.2.1
    · exact (lower_facts hc).2.2.2.2.2.2.1
  have hfix : ∀ f : Str, (∀ c ∈ f, c.isAlphanum = true ∨ c = '_') → f.map (fun c => if asciiTables.alnum c then c else '_') = f := by
    intro f hf
    induction f with
    | nil => rfl
    | cons x f ih =>
      rw [List.map_cons, ih fun d hd => hf d (by simp [hd])]
      rcases hf x (by simp) with hx | rfl
      · have : asciiTables.alnum x = true := hx
        rw [if_pos this]
      · rfl
  unfold formatIdent
  simp only [if_neg hk]
  simp only [List.cons_append, hn]
  rw [if_neg (by simp), ← List.cons_append, ← List.cons_append]
  refine hfix _ ?_
  intro x hx
  rcases List.mem_append.mp hx with hx | hx
  · rcases List.mem_append.mp hx with hx | hx
    · rcases h1 x hx with h | h
      · exact .inl (by simp [Char.isAlphanum, h])
      · exact .inr h
    · rcases hp with rfl | rfl
      · cases hx
      · exact .inr (by simpa using hx)
  · exact .inl (digit_facts (hd.2 x hx)).1

/-! ## C96 -/

/-- **C96** (partial). How members are called whose XML name consists of words and a number at the end, whatever way it is written:
`address_2` for fields, `Address2` for variants, `VALUE_ADDRESS_2` for the constants. Missing: numbers elsewhere. -/
theorem C96_numbered_partial {ws : List Str} {ds s : Str} (h : Numbered ws ds s) :
    fieldName s = joinWith '_' ws ++ '_' :: ds ∧ variantName s = (ws.map cap).flatten ++ ds ∧
    valueConstant s = joinWith '_' ("VALUE".toList :: ws.map upper) ++ '_' :: ds := by
  have hu := unify_numbered h
  obtain ⟨hw, hne, hd⟩ : (∀ w ∈ ws, Word w) ∧ ws ≠ [] ∧ Number ds := by
    cases h with
    | direct hs hd => exact ⟨hs.words, hs.ne_nil, hd⟩
    | sep hs hd _ => exact ⟨hs.words, hs.ne_nil, hd⟩
  have hv : variantName s = (ws.map cap).flatten ++ ds := by
    unfold variantName
    have := formatIdent_number (cap_clean hw hne) hd [] (.inl rfl)
    rw [List.append_nil] at this
    rw [hu, this]
  refine ⟨?_, hv, ?_⟩
  · unfold fieldName snake
    have := formatIdent_number (words_clean hw hne) hd ['_'] (.inr rfl)
    rw [List.append_assoc, List.cons_append, List.nil_append] at this
    rw [hu, snakeLike_caps_number agree_lower noCase_lower hw hne hd, map_id_words, this]
  · have hval : Word "value".toList := ⟨by decide, by decide⟩
    have hW : Written ("value".toList :: ws) ("VALUE".toList ++ '_' :: (ws.map cap).flatten) :=
      .sep hval (.inr (.inr (by decide))) (by decide) (written_cap hw hne)
    have e1 : "VALUE_".toList ++ ((ws.map cap).flatten ++ ds) = ("VALUE".toList ++ '_' :: (ws.map cap).flatten) ++ ds := by
      rw [List.append_assoc]; rfl
    have e3 : (("value".toList :: ws).map fun w => w.map Char.toUpper) = "VALUE".toList :: ws.map upper := rfl
    have this := formatIdent_number (upper_clean hW.words (by simp)) hd ['_'] (.inr rfl)
    rw [List.append_assoc, List.cons_append, List.nil_append] at this
    unfold valueConstant constantName screaming
    rw [hv, e1, unify_numbered (.direct hW hd), snakeLike_caps_number agree_upper noCase_upper hW.words (by simp) hd]
    exact this

theorem join_number_inj {ws ws' : List Str} (hw : ∀ w ∈ ws, Word w) (hne : ws ≠ []) (hw' : ∀ w ∈ ws', Word w) (hne' : ws' ≠ [])
    {ds ds' : Str} (hd : Number ds) (hd' : Number ds') (h : joinWith '_' ws ++ '_' :: ds = joinWith '_' ws' ++ '_' :: ds') :
    ws = ws' ∧ ds = ds' := by
  have hn : ∀ {e : Str}, Number e → '_' ∉ e.reverse := fun he hm => (digit_facts (he.2 '_' (by simpa using hm))).2.2.2.2.1 rfl
  have h1 := congrArg List.reverse h
  simp only [List.reverse_append, List.reverse_cons, List.append_assoc, List.cons_append, List.nil_append] at h1
  obtain ⟨h2, h3⟩ := split_inj (hn hd) (hn hd') h1
  exact ⟨join_inj hw hw' hne hne' (List.reverse_inj.mp h3), List.reverse_inj.mp h2⟩

/-- **C96** (partial). Numbered members get the same name exactly if both their words and their numbers are the same, so `line1`, `line2`,
`line10` and `line01` are all different; and they never clash with members without a number. Missing: see `C96_numbers_clash`. -/
theorem C96_numbered_same_iff_partial {ws ws' : List Str} {ds ds' s s' : Str} (h : Numbered ws ds s) :
    (Numbered ws' ds' s' → (fieldName s = fieldName s' ↔ ws = ws' ∧ ds = ds') ∧ (variantName s = variantName s' ↔ ws = ws' ∧ ds = ds') ∧
      (valueConstant s = valueConstant s' ↔ ws = ws' ∧ ds = ds')) ∧
    (Written ws' s' → fieldName s ≠ fieldName s' ∧ variantName s ≠ variantName s' ∧ valueConstant s ≠ valueConstant s') := by
  have parts : ∀ {ws : List Str} {ds s : Str}, Numbered ws ds s → (∀ w ∈ ws, Word w) ∧ ws ≠ [] ∧ Number ds := by
    intro ws ds s h
    cases h with
    | direct hs hd => exact ⟨hs.words, hs.ne_nil, hd⟩
    | sep hs hd _ => exact ⟨hs.words, hs.ne_nil, hd⟩
  obtain ⟨hw, hne, hd⟩ := parts h
  obtain ⟨f1, v1, c1⟩ := C96_numbered_partial h
  have hval : Word "value".toList := ⟨by decide, by decide⟩
  have vinj : ∀ {ws' : List Str} {ds' : Str}, (∀ w ∈ ws', Word w) → ws' ≠ [] → Number ds' →
      (ws.map cap).flatten ++ ds = (ws'.map cap).flatten ++ ds' → ws = ws' ∧ ds = ds' := by
    intro ws' ds' hw' hne' hd' e
    have a1 := snakeLike_caps_number agree_lower noCase_lower hw hne hd
    have a2 := snakeLike_caps_number agree_lower noCase_lower hw' hne' hd'
    rw [e] at a1
    rw [map_id_words] at a1 a2
    exact join_number_inj hw hne hw' hne' hd hd' (a1.symm.trans a2)
  constructor
  · intro h'
    obtain ⟨hw', hne', hd'⟩ := parts h'
    obtain ⟨f2, v2, c2⟩ := C96_numbered_partial h'
    refine ⟨⟨fun e => ?_, ?_⟩, ⟨fun e => ?_, ?_⟩, ⟨fun e => ?_, ?_⟩⟩
    · rw [f1, f2] at e
      exact join_number_inj hw hne hw' hne' hd hd' e
    · rintro ⟨rfl, rfl⟩; rw [f1, f2]
    · rw [v1, v2] at e
      exact vinj hw' hne' hd' e
    · rintro ⟨rfl, rfl⟩; rw [v1, v2]
    · rw [c1, c2] at e
      have hn : ∀ {x : Str}, Number x → '_' ∉ x.reverse := fun he hm => (digit_facts (he.2 '_' (by simpa using hm))).2.2.2.2.1 rfl
      have h1 := congrArg List.reverse e
      simp only [List.reverse_append, List.reverse_cons, List.append_assoc, List.cons_append, List.nil_append] at h1
      obtain ⟨h2, h3⟩ := split_inj (hn hd) (hn hd') h1
      have h4 : joinWith '_' (("value".toList :: ws).map upper) = joinWith '_' (("value".toList :: ws').map upper) :=
        List.reverse_inj.mp h3
      have a1 : ∀ w ∈ "value".toList :: ws, Word w := by simpa using ⟨hval, hw⟩
      have a2 : ∀ w ∈ "value".toList :: ws', Word w := by simpa using ⟨hval, hw'⟩
      have w1 := written_upper a1 (by simp)
      rw [h4] at w1
      have := w1.unique (written_upper a2 (by simp))
      injection this with _ this
      exact ⟨this, List.reverse_inj.mp h2⟩
    · rintro ⟨rfl, rfl⟩; rw [c1, c2]
  · intro h'
    obtain ⟨f2, v2, c2⟩ := C96_names_partial h'
    have nod : ∀ {x : Str}, Clean x → (asIdent x).getLast?.any Char.isDigit = false := by
      rintro x ⟨-, -, t, c, rfl, hc⟩
      unfold asIdent
      split
      · rw [List.getLast?_append]; rfl
      · rw [List.getLast?_append]
        have : c.isDigit = false := by
          cases hd : c.isDigit with
          | false => rfl
          | true => rw [(digit_facts hd).2.2.2.2.2] at hc; cases hc
        simp [this]
    have ne : ∀ {x y : Str}, Clean x → y ++ ds ≠ asIdent x := by
      intro x y hx e
      have := nod hx
      rw [← e, number_last hd] at this
      cases this
    have spl : ∀ y : Str, y ++ '_' :: ds = (y ++ ['_']) ++ ds := by simp
    have a2 : ∀ w ∈ "value".toList :: ws', Word w := by simpa using ⟨hval, h'.words⟩
    rw [f1, f2, v1, v2, c1, c2, spl, spl]
    exact ⟨ne (words_clean h'.words h'.ne_nil), ne (cap_clean h'.words h'.ne_nil), ne (upper_clean a2 (by simp))⟩

theorem exLine : Written ["line".toList] "Line".toList := .one (exWord _ (by decide)) (.inr (.inl (by decide)))

theorem exNumber (s : Str) (h : (!s.isEmpty && s.all Char.isDigit) = true) : Number s := by
  simpa [Number] using h

/-- `Line10` and `Line-01`. -/
example : Numbered ["line".toList] "10".toList "Line10".toList ∧ Numbered ["line".toList] "01".toList "Line-01".toList :=
  ⟨.direct (s := "Line".toList) exLine (exNumber _ (by decide)),
    .sep (s := "Line".toList) (c := '-') exLine (exNumber _ (by decide)) (by decide)⟩

example : fieldName "Line10".toList = "line_10".toList ∧ variantName "LINE-01".toList = "Line01".toList ∧
    valueConstant "line.7".toList = "VALUE_LINE_7".toList := by decide +kernel

/-- **C96** (negation). Numbers that follow one another are put together: for all words and numbers, `level-1.2` and `level-12` get the
same field, variant and constant, so `level-1.11` and `level-11.1` cannot be values of one enumeration. -/
theorem C96_numbers_clash {ws : List Str} {s ds es : Str} {c d : Char} (hs : Written ws s) (hd : Number ds) (he : Number es)
    (hc : c.isAlphanum = false) (hd' : d.isAlphanum = false) :
    fieldName (s ++ c :: ds ++ d :: es) = fieldName (s ++ c :: (ds ++ es)) ∧
    variantName (s ++ c :: ds ++ d :: es) = variantName (s ++ c :: (ds ++ es)) ∧
    valueConstant (s ++ c :: ds ++ d :: es) = valueConstant (s ++ c :: (ds ++ es)) := by
  have hde : Number (ds ++ es) := ⟨by simp [hd.1], fun x hx => by
    rcases List.mem_append.mp hx with h | h
    · exact hd.2 x h
    · exact he.2 x h⟩
  have e : unify (s ++ c :: ds ++ d :: es) = unify (s ++ c :: (ds ++ es)) := by
    rw [unify_numbered (.sep hs hde hc)]
    obtain ⟨x, hx, hxa⟩ := he.alnum
    rw [unify_eq ⟨x, by simp [hx], hxa⟩]
    rw [show s ++ c :: ds ++ d :: es = s ++ ([c] ++ (ds ++ ([d] ++ es))) by simp, uni_append, uni_append, uni_append, uni_append,
      uni_digits hd.2, uni_digits he.2, uni_sep hc, uni_sep hd']
    have h2 : Written ws (uni s) := hs.repl
    have t1 : ∀ a : Str, trimRight (a ++ (['_'] ++ (ds ++ (['_'] ++ es)))) = a ++ (['_'] ++ (ds ++ (['_'] ++ es))) := by
      intro a
      rw [show a ++ (['_'] ++ (ds ++ (['_'] ++ es))) = (a ++ '_' :: ds ++ ['_']) ++ es by simp, he.trim]
    have us : Char.isAlphanum '_' = false := by decide
    have ul : Char.isLower '_' = false := by decide
    have h1 : screaming (uni s ++ (['_'] ++ (ds ++ (['_'] ++ es)))) = joinWith '_' (ws.map upper) ++ (['_'] ++ (ds ++ (['_'] ++ es))) := by
      unfold screaming snakeLike
      rw [t1]
      obtain ⟨last, -, h3⟩ := snakeGo_written_rest '_' agree_upper h2 (['_'] ++ (ds ++ (['_'] ++ es))) (by simp [ul]) 'A' true (.inl rfl)
      obtain ⟨l2, h4⟩ := snakeGo_number '_' noCase_upper hd (['_'] ++ es) (by simp [ul]) '_' true
      obtain ⟨l3, h5⟩ := snakeGo_number '_' noCase_upper he [] rfl '_' true
      rw [List.append_nil] at h5
      have h6 : snakeGo '_' Char.toUpper l2 false (['_'] ++ es) = '_' :: es := by
        rw [List.cons_append, List.nil_append, snakeGo.eq_def]
        simp only [us, h5]
        simp [snakeGo]
      have h7 : snakeGo '_' Char.toUpper last false (['_'] ++ (ds ++ (['_'] ++ es))) = '_' :: (ds ++ '_' :: es) := by
        rw [List.cons_append, List.nil_append, snakeGo.eq_def]
        simp only [us, h4, h6]
        simp
      rw [h3, h7]
      rfl
    rw [h1]
    unfold pascal
    rw [t1]
    obtain ⟨l, h⟩ := pascalGo_words_rest hs.words hs.ne_nil (['_'] ++ (ds ++ (['_'] ++ es))) ' ' (by decide) false
    rw [h, List.cons_append, List.nil_append, pascalGo_us]
    obtain ⟨n1, h8⟩ := pascalGo_digits ds (['_'] ++ es) hd.2 true l
    obtain ⟨n2, h9⟩ := pascalGo_digits es [] he.2 true l
    rw [List.append_nil] at h9
    rw [h8, List.cons_append, List.nil_append, pascalGo_us, h9]
    simp [pascalGo]
  have hv : variantName (s ++ c :: ds ++ d :: es) = variantName (s ++ c :: (ds ++ es)) := by unfold variantName; rw [e]
  refine ⟨by unfold fieldName; rw [e], hv, by unfold valueConstant; rw [hv]⟩

example : variantName "level-1.11".toList = variantName "level-11.1".toList ∧ fieldName "line1_2".toList = fieldName "line12".toList := by
  decide +kernel

end Verif.Naming.Numbers

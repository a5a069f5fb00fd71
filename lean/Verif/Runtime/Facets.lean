import Verif.Util.Decimal
import Verif.Runtime.Driver

/-!
# Whitespace and digit facets (C22)

`whitespace_replace`, `whitespace_collapse`, `total_digits` and `fraction_digits` of
xsd-parser-types/src/quick_xml/mod.rs 49-108.

The regular expressions are transliterated by hand: `\s` is the Unicode `White_Space` class
(the same class `str::trim` removes), `[0-9]` are the ASCII digits.
-/

namespace Verif.Rt

/-! ## Model -/

/-- `whitespace_replace`, mod.rs:51-53. -/
def whitespaceReplace (s : Str) : Str :=
  s.map fun c => if c = '\t' ∨ c = '\n' ∨ c = '\r' then ' ' else c

/-- `RX_WHITESPACE_COLLAPSE.replace_all(s, " ")`, mod.rs:57 and 108: every maximal run of
white space becomes one blank. The flag says whether the run has already been replaced. -/
def replaceRuns : Bool → Str → Str
  | _, [] => []
  | b, c :: cs =>
    if isUnicodeWs c then (if b then replaceRuns true cs else ' ' :: replaceRuns true cs)
    else c :: replaceRuns false cs

/-- `str::trim` (Rust std, assumed behaviour). -/
def trimUnicode (s : Str) : Str :=
  ((s.dropWhile isUnicodeWs).reverse.dropWhile isUnicodeWs).reverse

/-- `whitespace_collapse`, mod.rs:56-58. -/
def whitespaceCollapse (s : Str) : Str := trimUnicode (replaceRuns false s)

/-- The body of `RX_DECIMAL` after the sign, `([0-9]+)(?:\.([0-9]*))?$`, mod.rs:107. -/
def decimalBody (s : Str) : Option (Str × Option Str) :=
  let a := s.takeWhile Char.isDigit
  if a = [] then none
  else
    match s.dropWhile Char.isDigit with
    | [] => some (a, none)
    | c :: b => if c = '.' ∧ b.all Char.isDigit = true then some (a, some b) else none

/-- `RX_DECIMAL.captures(s)`, mod.rs:106-107: `^-?([0-9]+)(?:\.([0-9]*))?$`. -/
def decimalCaptures (s : Str) : Option (Str × Option Str) :=
  match s with
  | [] => decimalBody []
  | c :: r => if c = '-' then decimalBody r else decimalBody (c :: r)

/-- `ValidateError`, as far as these functions return it. -/
inductive FacetError where
  | invalidDecimal
  | totalDigits (n : Nat)
  | fractionDigits (n : Nat)
deriving DecidableEq, Repr

/-- `total_digits`, mod.rs:67-83. -/
def totalDigits (s : Str) (expected : Nat) : Except FacetError Unit :=
  match decimalCaptures s with
  | none => .error .invalidDecimal
  | some (a, ob) =>
    let actual := match ob with
      | none => a.length
      | some b => a.length + b.length
    if actual ≤ expected then .ok () else .error (.totalDigits expected)

/-- `fraction_digits`, mod.rs:92-104. -/
def fractionDigits (s : Str) (expected : Nat) : Except FacetError Unit :=
  match decimalCaptures s with
  | none => .error .invalidDecimal
  | some (_, ob) =>
    let actual := match ob with
      | none => 0
      | some b => b.length
    if actual ≤ expected then .ok () else .error (.fractionDigits expected)

/-! ## Specification -/

/-- The tokens of a text with respect to a class of separators: the maximal runs of other
characters. -/
inductive Tokens (p : Char → Bool) : Str → List Str → Prop
  | blank (s : Str) (h : ∀ c ∈ s, p c = true) : Tokens p s []
  | token (pre t s : Str) (ts : List Str) (hpre : ∀ c ∈ pre, p c = true) (ht : t ≠ [])
      (htok : ∀ c ∈ t, p c = false) (hs : ∀ c, s.head? = some c → p c = true)
      (h : Tokens p s ts) : Tokens p (pre ++ t ++ s) (t :: ts)

/-- The white space of XML: blank, tab, line feed, carriage return. -/
def isXmlWs (c : Char) : Bool := c == ' ' || c == '\t' || c == '\n' || c == '\r'

/-- Tokens separated by single blanks. -/
def joinBlank : List Str → Str
  | [] => []
  | [t] => t
  | t :: ts => t ++ ' ' :: joinBlank ts

/-- A decimal literal of XML Schema: optional sign, digits `a`, and digits `b` after an
optional point, not both empty. -/
inductive IsDecimal : Str → Str → Str → Prop
  | mk (sign a b point : Str) (hs : sign = [] ∨ sign = ['+'] ∨ sign = ['-'])
      (hp : (point = [] ∧ b = []) ∨ point = ['.']) (hne : a ≠ [] ∨ b ≠ [])
      (ha : ∀ c ∈ a, c.isDigit = true) (hb : ∀ c ∈ b, c.isDigit = true) :
      IsDecimal (sign ++ a ++ point ++ b) a b

/-- XML Schema's totalDigits facet: the absolute value of the literal, `val (a ++ b) / 10^|b|`, can be
written as `i / 10^n` with `i < 10^t` and `n ≤ t`. -/
def TotalDigitsFacet (a b : Str) (t : Nat) : Prop :=
  ∃ i n, Decimal.val (a ++ b) * 10 ^ n = i * 10 ^ b.length ∧ i < 10 ^ t ∧ n ≤ t

/-- XML Schema's fractionDigits facet: the absolute value can be written as `i / 10^n` with `n ≤ f`. -/
def FractionDigitsFacet (a b : Str) (f : Nat) : Prop :=
  ∃ i n, Decimal.val (a ++ b) * 10 ^ n = i * 10 ^ b.length ∧ n ≤ f

/-! ## White space -/

/-- **C22**, replace: the result has the same length, and position by position it is a blank
where the input has a tab, line feed or carriage return and the same character otherwise. -/
theorem C22_replace (s : Str) :
    (whitespaceReplace s).length = s.length ∧
    ∀ i (h : i < s.length) (h' : i < (whitespaceReplace s).length),
      ((s[i] = '\t' ∨ s[i] = '\n' ∨ s[i] = '\r') → (whitespaceReplace s)[i] = ' ') ∧
      (¬ (s[i] = '\t' ∨ s[i] = '\n' ∨ s[i] = '\r') → (whitespaceReplace s)[i] = s[i]) := by
  refine ⟨by simp [whitespaceReplace], ?_⟩
  intro i h h'
  simp only [whitespaceReplace, List.getElem_map]
  constructor
  · intro hc; rw [if_pos hc]
  · intro hc; rw [if_neg hc]

theorem replaceRuns_ws (pre s : Str) (h : ∀ c ∈ pre, isUnicodeWs c = true) :
    replaceRuns true (pre ++ s) = replaceRuns true s := by
  induction pre with
  | nil => rfl
  | cons c pre ih =>
    simp only [List.cons_append, replaceRuns, h c (by simp), if_true]
    exact ih fun x hx => h x (by simp [hx])

theorem replaceRuns_tok (b : Bool) (t s : Str) (ht : t ≠ [])
    (h : ∀ c ∈ t, isUnicodeWs c = false) :
    replaceRuns b (t ++ s) = t ++ replaceRuns false s := by
  induction t generalizing b with
  | nil => exact absurd rfl ht
  | cons c t ih =>
    simp only [List.cons_append, replaceRuns, h c (by simp), Bool.false_eq_true, if_false]
    cases t with
    | nil => rfl
    | cons d t => rw [ih false (by simp) fun x hx => h x (by simp [hx])]

theorem replaceRuns_false (s : Str) (hs : ∀ c, s.head? = some c → isUnicodeWs c = true) :
    replaceRuns false s = if s = [] then [] else ' ' :: replaceRuns true s := by
  cases s with
  | nil => rfl
  | cons c s => simp [replaceRuns, hs c rfl]

theorem replaceRuns_tokens {s : Str} {ts : List Str} (h : Tokens isUnicodeWs s ts) :
    ∃ trail, replaceRuns true s = joinBlank ts ++ trail ∧ (trail = [] ∨ trail = [' ']) ∧
      (ts = [] → trail = []) := by
  induction h with
  | blank s hs =>
    refine ⟨[], ?_, Or.inl rfl, fun _ => rfl⟩
    have := replaceRuns_ws s [] hs
    simpa [replaceRuns, joinBlank] using this
  | token pre t s ts hpre ht htok hs hh ih =>
    obtain ⟨trail, h1, h2, h3⟩ := ih
    rw [List.append_assoc, replaceRuns_ws pre _ hpre, replaceRuns_tok true t s ht htok,
      replaceRuns_false s hs]
    by_cases he : s = []
    · subst he
      rw [if_pos rfl]
      cases ts with
      | nil => exact ⟨[], by simp [joinBlank], Or.inl rfl, fun _ => rfl⟩
      | cons t' ts =>
        exfalso
        generalize hnil : ([] : Str) = e at hh
        cases hh with
        | token pre' t'' s' _ _ ht' =>
          simp [ht'] at hnil
    · rw [if_neg he, h1]
      cases ts with
      | nil =>
        refine ⟨[' '], ?_, Or.inr rfl, fun h => by cases h⟩
        rw [h3 rfl]; simp [joinBlank]
      | cons t' ts => exact ⟨trail, by simp [joinBlank], h2, fun h => by cases h⟩

theorem joinBlank_ends (p : Char → Bool) {s : Str} {ts : List Str} (h : Tokens p s ts) :
    (∀ c, (joinBlank ts).head? = some c → p c = false) ∧
    (∀ c, (joinBlank ts).getLast? = some c → p c = false) ∧ (ts ≠ [] → joinBlank ts ≠ []) := by
  induction h with
  | blank s hs => simp [joinBlank]
  | token pre t s ts hpre ht htok hs _ ih =>
    obtain ⟨h1, h2, h3⟩ := ih
    cases ts with
    | nil =>
      refine ⟨?_, ?_, fun _ => by simpa [joinBlank] using ht⟩
      · intro c hc; exact htok c (List.mem_of_mem_head? hc)
      · intro c hc; exact htok c (List.mem_of_getLast? hc)
    | cons t' ts =>
      refine ⟨?_, ?_, fun _ => by simp [joinBlank]⟩
      · intro c hc
        simp only [joinBlank] at hc
        cases t with
        | nil => exact absurd rfl ht
        | cons x t =>
          simp only [List.cons_append, List.head?_cons, Option.some.injEq] at hc
          subst hc; exact htok _ (by simp)
      · intro c hc
        apply h2
        simp only [joinBlank] at hc
        have hj := h3 (by simp)
        rw [List.getLast?_append] at hc
        cases hjj : joinBlank (t' :: ts) with
        | nil => exact absurd hjj hj
        | cons x xs =>
          rw [hjj] at hc
          simp only [List.getLast?_cons_cons] at hc
          cases hl : (x :: xs).getLast? with
          | none => simp at hl
          | some y => rw [hl] at hc; simpa using hc

theorem dropWhile_all_append (p : Char → Bool) (a m : Str) (ha : ∀ c ∈ a, p c = true)
    (hm : ∀ c, m.head? = some c → p c = false) : (a ++ m).dropWhile p = m := by
  induction a with
  | nil =>
    cases m with
    | nil => rfl
    | cons c m => simp [List.dropWhile_cons, hm c rfl]
  | cons c a ih =>
    simp only [List.cons_append, List.dropWhile_cons, ha c (by simp), if_true]
    exact ih fun x hx => ha x (by simp [hx])

theorem trimUnicode_eq (a m b : Str) (ha : ∀ c ∈ a, isUnicodeWs c = true)
    (hb : ∀ c ∈ b, isUnicodeWs c = true)
    (h1 : ∀ c, m.head? = some c → isUnicodeWs c = false)
    (h2 : ∀ c, m.getLast? = some c → isUnicodeWs c = false) :
    trimUnicode (a ++ m ++ b) = m := by
  unfold trimUnicode
  cases hm : m with
  | nil =>
    have : (a ++ [] ++ b).dropWhile isUnicodeWs = [] := by
      have := dropWhile_all_append isUnicodeWs (a ++ b) [] (by
        intro c hc; rcases List.mem_append.mp hc with h | h
        · exact ha c h
        · exact hb c h) (by simp)
      simpa using this
    rw [this]; rfl
  | cons x xs =>
    rw [← hm, List.append_assoc, dropWhile_all_append isUnicodeWs a (m ++ b) ha (by
      intro c hc; apply h1; rw [hm] at hc ⊢; simpa using hc)]
    rw [List.reverse_append, dropWhile_all_append isUnicodeWs b.reverse m.reverse
      (fun c hc => hb c (List.mem_reverse.mp hc))
      (fun c hc => h2 c (by rw [List.head?_reverse] at hc; exact hc))]
    simp

/-- **C22**, collapse: the result is the tokens of the text separated by single blanks, where
every Unicode white space character separates. -/
theorem C22_collapse_tokens {s : Str} {ts : List Str} (h : Tokens isUnicodeWs s ts) :
    whitespaceCollapse s = joinBlank ts := by
  obtain ⟨h1, h2, _⟩ := joinBlank_ends isUnicodeWs h
  have hb : isUnicodeWs ' ' = true := by decide
  unfold whitespaceCollapse
  have key : ∃ lead trail, replaceRuns false s = lead ++ joinBlank ts ++ trail ∧
      (∀ c ∈ lead, isUnicodeWs c = true) ∧ (∀ c ∈ trail, isUnicodeWs c = true) := by
    obtain ⟨trail, e, ht, _⟩ := replaceRuns_tokens h
    have htr : ∀ c ∈ trail, isUnicodeWs c = true := by
      rcases ht with rfl | rfl
      · simp
      · intro c hc; simp only [List.mem_singleton] at hc; subst hc; exact hb
    cases s with
    | nil => exact ⟨[], trail, by simpa [replaceRuns] using e, by simp, htr⟩
    | cons c s =>
      by_cases hc : isUnicodeWs c = true
      · refine ⟨[' '], trail, ?_, by simp; exact hb, htr⟩
        simp only [replaceRuns, hc, if_true, Bool.false_eq_true, if_false] at e ⊢
        simp [e]
      · refine ⟨[], trail, ?_, by simp, htr⟩
        simp only [replaceRuns, hc, Bool.false_eq_true, if_false] at e ⊢
        simp [e]
  obtain ⟨lead, trail, e, hl, ht⟩ := key
  rw [e]
  exact trimUnicode_eq lead _ trail hl ht h1 h2

theorem tokens_exist (p : Char → Bool) (s : Str) : ∃ ts, Tokens p s ts := by
  have : ∀ n (s : Str), s.length ≤ n → ∃ ts, Tokens p s ts := by
    intro n
    induction n with
    | zero =>
      intro s hs
      have : s = [] := List.length_eq_zero_iff.mp (by omega)
      subst this
      exact ⟨[], .blank [] (by simp)⟩
    | succ n ih =>
      intro s hs
      have e1 : s = s.takeWhile p ++ s.dropWhile p := List.takeWhile_append_dropWhile.symm
      have hpre : ∀ c ∈ s.takeWhile p, p c = true := fun c hc => by
        have := List.all_takeWhile (l := s) (p := p)
        exact List.all_eq_true.mp this c hc
      cases hd : s.dropWhile p with
      | nil =>
        rw [hd, List.append_nil] at e1
        exact ⟨[], .blank s (by rw [e1]; exact hpre)⟩
      | cons c r =>
        have hc : p c = false := by
          have := List.head?_dropWhile_not p s
          rw [hd] at this
          simpa using this
        have e2 : c :: r = (c :: r).takeWhile (fun x => !p x) ++ (c :: r).dropWhile (fun x => !p x) :=
          List.takeWhile_append_dropWhile.symm
        have hlen : ((c :: r).dropWhile (fun x => !p x)).length ≤ n := by
          have h1 : (c :: r).length ≤ s.length := by
            rw [← hd]; exact (List.dropWhile_suffix p).length_le
          have h2 : ((c :: r).dropWhile (fun x => !p x)).length ≤ r.length := by
            rw [List.dropWhile_cons]
            simp only [hc, Bool.not_false, if_true]
            exact (List.dropWhile_suffix _).length_le
          simp only [List.length_cons] at h1
          omega
        obtain ⟨ts, hts⟩ := ih _ hlen
        refine ⟨(c :: r).takeWhile (fun x => !p x) :: ts, ?_⟩
        have htok := Tokens.token (s.takeWhile p) ((c :: r).takeWhile (fun x => !p x))
          ((c :: r).dropWhile (fun x => !p x)) ts hpre
          (by rw [List.takeWhile_cons]; simp [hc])
          (fun x hx => by
            have := List.all_takeWhile (l := c :: r) (p := fun x => !p x)
            simpa using List.all_eq_true.mp this x hx)
          (fun x hx => by
            have := List.head?_dropWhile_not (fun x => !p x) (c :: r)
            rw [hx] at this
            simpa using this) hts
        rw [List.append_assoc, ← e2] at htok
        have e3 : s.takeWhile p ++ c :: r = s := by rw [← hd]; exact e1.symm
        rw [e3] at htok
        exact htok
  exact this s.length s (Nat.le_refl _)

theorem tokens_join (p : Char → Bool) (hb : p ' ' = true) {s : Str} {ts : List Str}
    (h : Tokens p s ts) : Tokens p (joinBlank ts) ts := by
  induction h with
  | blank s hs => exact .blank [] (by simp)
  | token pre t s ts hpre ht htok hs _ ih =>
    cases ts with
    | nil =>
      have := Tokens.token (p := p) [] t [] [] (by simp) ht htok (by simp) (.blank [] (by simp))
      simpa [joinBlank] using this
    | cons t' ts =>
      have hcons : Tokens p (' ' :: joinBlank (t' :: ts)) (t' :: ts) := by
        generalize joinBlank (t' :: ts) = j at ih
        cases ih with
        | token pre2 _ s2 _ h1 h2 h3 h4 h5 =>
          have := Tokens.token (p := p) (' ' :: pre2) t' s2 ts (by
            intro c hc; rcases List.mem_cons.mp hc with rfl | hc
            · exact hb
            · exact h1 c hc) h2 h3 h4 h5
          simpa using this
      have := Tokens.token (p := p) [] t (' ' :: joinBlank (t' :: ts)) (t' :: ts) (by simp) ht htok
        (by intro c hc; simp only [List.head?_cons, Option.some.injEq] at hc; subst hc; exact hb)
        hcons
      simpa [joinBlank] using this

/-- **C22**, collapse is idempotent. -/
theorem C22_collapse_idempotent (s : Str) :
    whitespaceCollapse (whitespaceCollapse s) = whitespaceCollapse s := by
  obtain ⟨ts, h⟩ := tokens_exist isUnicodeWs s
  rw [C22_collapse_tokens h, C22_collapse_tokens (tokens_join isUnicodeWs (by decide) h)]

theorem tokens_congr {p q : Char → Bool} {s : Str} {ts : List Str} (h : Tokens p s ts)
    (hpq : ∀ c ∈ s, p c = q c) : Tokens q s ts := by
  induction h with
  | blank s hs => exact .blank s fun c hc => by rw [← hpq c hc]; exact hs c hc
  | token pre t s ts hpre ht htok hs _ ih =>
    refine .token pre t s ts ?_ ht ?_ ?_ (ih fun c hc => hpq c (by simp [hc]))
    · intro c hc; rw [← hpq c (by simp [hc])]; exact hpre c hc
    · intro c hc; rw [← hpq c (by simp [hc])]; exact htok c hc
    · intro c hc
      rw [← hpq c (by have := List.mem_of_mem_head? hc; simp [this])]; exact hs c hc

/-- **C22** (partial), collapse as XML Schema defines it: for texts whose only white space is
that of XML, the result is the XML tokens separated by single blanks. Missing: texts with
other Unicode white space, see `C22_collapse_removes_no_break_space`. -/
theorem C22_collapse_xml_partial {s : Str} {ts : List Str} (h : Tokens isXmlWs s ts)
    (hx : ∀ c ∈ s, isUnicodeWs c = true → isXmlWs c = true) :
    whitespaceCollapse s = joinBlank ts := by
  apply C22_collapse_tokens
  apply tokens_congr h
  intro c hc
  cases hu : isUnicodeWs c with
  | true => exact hx c hc hu
  | false =>
    cases hxx : isXmlWs c with
    | false => rfl
    | true =>
      have : isUnicodeWs c = true := by
        unfold isXmlWs at hxx
        simp only [Bool.or_eq_true, beq_iff_eq] at hxx
        rcases hxx with ((rfl | rfl) | rfl) | rfl <;> decide
      rw [this] at hu; cases hu

/-- **C22** is false for other white space: a no-break space is not white space in XML, but it
is replaced (`a&#xA0;b`) and trimmed. -/
theorem C22_collapse_removes_no_break_space :
    whitespaceCollapse ['a', Char.ofNat 0xA0, 'b', Char.ofNat 0xA0] = ['a', ' ', 'b'] ∧
    Tokens isXmlWs ['a', Char.ofNat 0xA0, 'b', Char.ofNat 0xA0]
      [['a', Char.ofNat 0xA0, 'b', Char.ofNat 0xA0]] := by
  constructor
  · decide
  · exact .token [] ['a', Char.ofNat 0xA0, 'b', Char.ofNat 0xA0] [] [] (by simp) (by simp) (by decide) (by simp) (.blank [] (by simp))

/-- Non-vacuity of the collapse theorems. -/
example : Tokens isXmlWs [' ', 'a', ' ', '\n', 'b', '\t'] [['a'], ['b']] ∧
    whitespaceCollapse [' ', 'a', ' ', '\n', 'b', '\t'] = ['a', ' ', 'b'] := by
  refine ⟨?_, by decide⟩
  exact .token [' '] ['a'] [' ', '\n', 'b', '\t'] [['b']] (by decide) (by simp) (by decide)
    (by simp; decide)
    (.token [' ', '\n'] ['b'] ['\t'] [] (by decide) (by simp) (by decide) (by simp; decide)
      (.blank ['\t'] (by decide)))

/-! ## Digits -/

theorem val_snoc (l : Str) (c : Char) :
    Decimal.val (l ++ [c]) = Decimal.val l * 10 + (c.toNat - 48) := by
  simp [Decimal.val, List.foldl_append]

theorem digit_lt {c : Char} (h : c.isDigit = true) : 48 ≤ c.toNat ∧ c.toNat - 48 < 10 := by
  unfold Char.isDigit at h
  simp only [Bool.and_eq_true, decide_eq_true_eq] at h
  have h1 : 48 ≤ c.toNat := h.1
  have h2 : c.toNat ≤ 57 := h.2
  omega

theorem snoc_ind {P : Str → Prop} (h0 : P []) (h1 : ∀ l c, P l → P (l ++ [c])) (l : Str) : P l := by
  have : ∀ r : Str, P r.reverse := by
    intro r
    induction r with
    | nil => exact h0
    | cons c r ih => rw [List.reverse_cons]; exact h1 _ _ ih
  have := this l.reverse
  rwa [List.reverse_reverse] at this

theorem val_lt (l : Str) (h : ∀ c ∈ l, c.isDigit = true) : Decimal.val l < 10 ^ l.length := by
  induction l using snoc_ind with
  | h0 => simp [Decimal.val]
  | h1 l c ih =>
    have h1 := ih fun x hx => h x (by simp [hx])
    have h2 := (digit_lt (h c (by simp))).2
    rw [val_snoc, List.length_append, List.length_singleton, Nat.pow_succ]
    omega

theorem val_ge (c : Char) (l : Str) (hc : c.isDigit = true) (h0 : c ≠ '0') :
    10 ^ l.length ≤ Decimal.val (c :: l) := by
  induction l using snoc_ind with
  | h0 =>
    have h1 := digit_lt hc
    have h2 : c.toNat ≠ 48 := by
      intro h
      apply h0
      apply Char.ext
      apply UInt32.toNat_inj.mp
      exact h
    simp [Decimal.val]; omega
  | h1 l d ih =>
    have : c :: (l ++ [d]) = (c :: l) ++ [d] := rfl
    rw [this, val_snoc, List.length_append, List.length_singleton, Nat.pow_succ]
    omega

/-- The captures of the regular expression are exactly the ways to read the text. -/
theorem decimalBody_iff (s a : Str) (ob : Option Str) :
    decimalBody s = some (a, ob) ↔
      (a ≠ [] ∧ (∀ c ∈ a, c.isDigit = true) ∧
        ((ob = none ∧ s = a) ∨
          ∃ b, ob = some b ∧ (∀ c ∈ b, c.isDigit = true) ∧ s = a ++ '.' :: b)) := by
  have take : ∀ (a r : Str), (∀ c ∈ a, c.isDigit = true) →
      (∀ c, r.head? = some c → c.isDigit = false) →
      (a ++ r).takeWhile Char.isDigit = a ∧ (a ++ r).dropWhile Char.isDigit = r := by
    intro a r ha hr
    induction a with
    | nil =>
      cases r with
      | nil => exact ⟨rfl, rfl⟩
      | cons c r => simp [hr c rfl]
    | cons c a ih =>
      have := ih fun x hx => ha x (by simp [hx])
      simp [ha c (by simp), this]
  constructor
  · intro h
    unfold decimalBody at h
    simp only at h
    have e1 : s = s.takeWhile Char.isDigit ++ s.dropWhile Char.isDigit :=
      List.takeWhile_append_dropWhile.symm
    have hall : ∀ c ∈ s.takeWhile Char.isDigit, c.isDigit = true := fun c hc =>
      List.all_eq_true.mp (List.all_takeWhile (l := s) (p := Char.isDigit)) c hc
    generalize s.takeWhile Char.isDigit = a' at *
    generalize s.dropWhile Char.isDigit = r at *
    by_cases ha : a' = []
    · rw [if_pos ha] at h; cases h
    · rw [if_neg ha] at h
      cases r with
      | nil =>
        simp only [Option.some.injEq, Prod.mk.injEq] at h
        obtain ⟨rfl, rfl⟩ := h
        exact ⟨ha, hall, Or.inl ⟨rfl, by simpa using e1⟩⟩
      | cons c b =>
        simp only at h
        by_cases hcb : c = '.' ∧ b.all Char.isDigit = true
        · rw [if_pos hcb] at h
          simp only [Option.some.injEq, Prod.mk.injEq] at h
          obtain ⟨rfl, rfl⟩ := h
          refine ⟨ha, hall, Or.inr ⟨b, rfl, List.all_eq_true.mp hcb.2, ?_⟩⟩
          rw [e1, hcb.1]
        · rw [if_neg hcb] at h; cases h
  · rintro ⟨ha, hall, h | ⟨b, rfl, hb, rfl⟩⟩
    · obtain ⟨rfl, rfl⟩ := h
      have := take s [] hall (by simp)
      rw [List.append_nil] at this
      unfold decimalBody
      simp only [this.1, this.2, if_neg ha]
    · have := take a ('.' :: b) hall (by
        intro c hc; simp only [List.head?_cons, Option.some.injEq] at hc; subst hc; decide)
      unfold decimalBody
      simp only [this.1, this.2, if_neg ha]
      rw [if_pos ⟨trivial, List.all_eq_true.mpr hb⟩]

/-- The literals the code reads, written as in the specification: an optional minus sign, at
least one digit before the point. -/
theorem decimalCaptures_iff (s a : Str) (ob : Option Str) :
    decimalCaptures s = some (a, ob) ↔
      ∃ sign, (sign = [] ∨ sign = ['-']) ∧ a ≠ [] ∧ (∀ c ∈ a, c.isDigit = true) ∧
        ((ob = none ∧ s = sign ++ a) ∨
          ∃ b, ob = some b ∧ (∀ c ∈ b, c.isDigit = true) ∧ s = sign ++ a ++ '.' :: b) := by
  constructor
  · intro h
    cases s with
    | nil => simp [decimalCaptures, decimalBody] at h
    | cons c r =>
      simp only [decimalCaptures] at h
      by_cases hc : c = '-'
      · rw [if_pos hc, decimalBody_iff] at h
        obtain ⟨h1, h2, h3⟩ := h
        refine ⟨['-'], Or.inr rfl, h1, h2, ?_⟩
        subst hc
        rcases h3 with ⟨h3, rfl⟩ | ⟨b, h3, h4, rfl⟩
        · exact Or.inl ⟨h3, rfl⟩
        · exact Or.inr ⟨b, h3, h4, rfl⟩
      · rw [if_neg hc, decimalBody_iff] at h
        obtain ⟨h1, h2, h3⟩ := h
        exact ⟨[], Or.inl rfl, h1, h2, h3⟩
  · rintro ⟨sign, hs, h1, h2, h3⟩
    rcases hs with rfl | rfl
    · have hb : decimalBody s = some (a, ob) := (decimalBody_iff s a ob).mpr ⟨h1, h2, by simpa using h3⟩
      have : ∃ c r, s = c :: r ∧ c ≠ '-' := by
        cases a with
        | nil => exact absurd rfl h1
        | cons c a =>
          have hc : c ≠ '-' := by
            intro h; subst h; exact absurd (h2 '-' (by simp)) (by decide)
          rcases h3 with ⟨_, rfl⟩ | ⟨b, _, _, rfl⟩
          · exact ⟨c, a, rfl, hc⟩
          · exact ⟨c, _, rfl, hc⟩
      obtain ⟨c, r, rfl, hc⟩ := this
      simp only [decimalCaptures, if_neg hc, hb]
    · have : ∃ r, s = '-' :: r ∧ decimalBody r = some (a, ob) := by
        rcases h3 with ⟨h3, rfl⟩ | ⟨b, h3, h4, rfl⟩
        · exact ⟨a, rfl, (decimalBody_iff _ _ _).mpr ⟨h1, h2, Or.inl ⟨h3, rfl⟩⟩⟩
        · exact ⟨a ++ '.' :: b, by simp, (decimalBody_iff _ _ _).mpr ⟨h1, h2, Or.inr ⟨b, h3, h4, rfl⟩⟩⟩
      obtain ⟨r, rfl, hr⟩ := this
      simp only [decimalCaptures, if_true, hr]

theorem captures_decimal {s a : Str} {ob : Option Str} (h : decimalCaptures s = some (a, ob)) :
    IsDecimal s a (ob.getD []) ∧ (∀ c ∈ a ++ ob.getD [], c.isDigit = true) := by
  rw [decimalCaptures_iff] at h
  obtain ⟨sign, hs, h1, h2, h3⟩ := h
  have hs' : sign = [] ∨ sign = ['+'] ∨ sign = ['-'] := by
    rcases hs with h | h
    · exact Or.inl h
    · exact Or.inr (Or.inr h)
  rcases h3 with ⟨rfl, rfl⟩ | ⟨b, rfl, hb, rfl⟩
  · have := IsDecimal.mk sign a [] [] hs' (Or.inl ⟨rfl, rfl⟩) (Or.inl h1) h2 (by simp)
    simp only [List.append_nil] at this
    exact ⟨this, by simpa using h2⟩
  · have := IsDecimal.mk sign a b ['.'] hs' (Or.inr rfl) (Or.inl h1) h2 hb
    refine ⟨by simpa using this, ?_⟩
    intro c hc
    rcases List.mem_append.mp hc with hc | hc
    · exact h2 c hc
    · exact hb c hc

/-- **C22**, totalDigits is sound: an accepted text is a decimal literal whose value has at
most `t` digits in the sense of XML Schema. -/
theorem C22_total_digits_sound (s : Str) (t : Nat) (h : totalDigits s t = .ok ()) :
    ∃ a b, IsDecimal s a b ∧ TotalDigitsFacet a b t := by
  unfold totalDigits at h
  cases hc : decimalCaptures s with
  | none => rw [hc] at h; cases h
  | some p =>
    obtain ⟨a, ob⟩ := p
    rw [hc] at h
    obtain ⟨hd, hall⟩ := captures_decimal hc
    refine ⟨a, ob.getD [], hd, ?_⟩
    have hlen : (a ++ ob.getD []).length ≤ t := by
      cases ob with
      | none =>
        simp only at h
        by_cases hle : a.length ≤ t
        · simpa using hle
        · rw [if_neg hle] at h; cases h
      | some b =>
        simp only at h
        by_cases hle : a.length + b.length ≤ t
        · simpa using hle
        · rw [if_neg hle] at h; cases h
    refine ⟨_, (ob.getD []).length, rfl, ?_, ?_⟩
    · exact Nat.lt_of_lt_of_le (val_lt _ hall) (Nat.pow_le_pow_right (by decide) hlen)
    · rw [List.length_append] at hlen; omega

/-- **C22**, fractionDigits is sound. -/
theorem C22_fraction_digits_sound (s : Str) (f : Nat) (h : fractionDigits s f = .ok ()) :
    ∃ a b, IsDecimal s a b ∧ FractionDigitsFacet a b f := by
  unfold fractionDigits at h
  cases hc : decimalCaptures s with
  | none => rw [hc] at h; cases h
  | some p =>
    obtain ⟨a, ob⟩ := p
    rw [hc] at h
    obtain ⟨hd, hall⟩ := captures_decimal hc
    refine ⟨a, ob.getD [], hd, _, (ob.getD []).length, rfl, ?_⟩
    cases ob with
    | none => simp
    | some b =>
      simp only at h
      by_cases hle : b.length ≤ f
      · simpa using hle
      · rw [if_neg hle] at h; cases h

/-- Scaled by a power of ten, a number not divisible by ten needs all its fraction digits. -/
theorem scale_min {v i n k : Nat} (hv : v % 10 ≠ 0) (h : v * 10 ^ n = i * 10 ^ k) :
    k ≤ n ∧ v ≤ i := by
  have hkn : k ≤ n := by
    apply Classical.byContradiction
    intro hlt
    have : ∃ d, k = n + (d + 1) := ⟨k - n - 1, by omega⟩
    obtain ⟨d, rfl⟩ := this
    rw [Nat.pow_add, ← Nat.mul_assoc, Nat.mul_right_comm] at h
    have h2 := Nat.eq_of_mul_eq_mul_right (Nat.pow_pos (by decide)) h
    rw [Nat.pow_succ, ← Nat.mul_assoc] at h2
    omega
  refine ⟨hkn, ?_⟩
  obtain ⟨d, rfl⟩ : ∃ d, n = k + d := ⟨n - k, by omega⟩
  rw [Nat.pow_add, Nat.mul_comm (10 ^ k), ← Nat.mul_assoc] at h
  have h2 := Nat.eq_of_mul_eq_mul_right (Nat.pow_pos (by decide)) h
  rw [← h2]
  exact Nat.le_mul_of_pos_right v (Nat.pow_pos (by decide))

theorem val_mod {b : Str} {c : Char} (a : Str) (hc : c.isDigit = true) (h0 : c ≠ '0')
    (hb : b.getLast? = some c) : Decimal.val (a ++ b) % 10 ≠ 0 := by
  obtain ⟨b', rfl⟩ : ∃ b', b = b' ++ [c] := by
    rcases List.eq_nil_or_concat b with rfl | ⟨b', x, rfl⟩
    · simp at hb
    · simp at hb; subst hb; exact ⟨b', by simp⟩
  rw [← List.append_assoc, val_snoc]
  have h1 := digit_lt hc
  have h2 : c.toNat ≠ 48 := by
    intro h
    apply h0
    apply Char.ext
    apply UInt32.toNat_inj.mp
    exact h
  omega

/-- **C22** (partial), totalDigits is complete for canonical literals: no plus sign, a first
digit before the point other than 0, and no trailing zero after the point. Missing: literals
with superfluous zeros, a plus sign or nothing before the point, for which valid values are
rejected (`C22_total_digits_rejects_valid`). -/
theorem C22_total_digits_complete_partial (sign a b : Str) (t : Nat) (c : Char)
    (hs : sign = [] ∨ sign = ['-']) (ha : ∀ x ∈ a, x.isDigit = true)
    (hb : ∀ x ∈ b, x.isDigit = true)
    (hlead : a.head? = some c) (hc : c ≠ '0') (htrail : ∀ x, b.getLast? = some x → x ≠ '0')
    (hf : TotalDigitsFacet a b t) :
    totalDigits (sign ++ a ++ '.' :: b) t = .ok () ∧
      (b = [] → totalDigits (sign ++ a) t = .ok ()) := by
  have hane : a ≠ [] := by intro h; rw [h] at hlead; cases hlead
  have hlen : a.length + b.length ≤ t := by
    obtain ⟨i, n, e, hi, hn⟩ := hf
    have hvi : Decimal.val (a ++ b) ≤ i := by
      cases hl : b.getLast? with
      | none =>
        have : b = [] := by simpa using hl
        subst this
        simp only [List.length_nil, Nat.pow_zero, Nat.mul_one] at e
        rw [← e]
        exact Nat.le_mul_of_pos_right _ (Nat.pow_pos (by decide))
      | some x => exact (scale_min (val_mod a (hb x (List.mem_of_getLast? hl)) (htrail x hl) hl) e).2
    obtain ⟨a', rfl⟩ : ∃ a', a = c :: a' := by
      cases a with
      | nil => exact absurd rfl hane
      | cons x a => simp only [List.head?_cons, Option.some.injEq] at hlead; exact ⟨a, by rw [hlead]⟩
    have hge := val_ge c (a' ++ b) (ha c (by simp)) hc
    have : 10 ^ (a' ++ b).length < 10 ^ t := by
      rw [List.cons_append] at hvi
      omega
    have := (Nat.pow_lt_pow_iff_right (by decide)).mp this
    rw [List.length_append] at this
    simp only [List.length_cons]
    omega
  constructor
  · have : decimalCaptures (sign ++ a ++ '.' :: b) = some (a, some b) :=
      (decimalCaptures_iff _ _ _).mpr ⟨sign, hs, hane, ha, Or.inr ⟨b, rfl, hb, rfl⟩⟩
    simp only [totalDigits, this, if_pos hlen]
  · rintro rfl
    have : decimalCaptures (sign ++ a) = some (a, none) :=
      (decimalCaptures_iff _ _ _).mpr ⟨sign, hs, hane, ha, Or.inl ⟨rfl, rfl⟩⟩
    simp only [totalDigits, this]
    rw [if_pos (by simpa using hlen)]

/-- **C22** (partial), fractionDigits is complete for literals without trailing zero. -/
theorem C22_fraction_digits_complete_partial (sign a b : Str) (f : Nat)
    (hs : sign = [] ∨ sign = ['-']) (hane : a ≠ []) (ha : ∀ x ∈ a, x.isDigit = true)
    (hb : ∀ x ∈ b, x.isDigit = true) (htrail : ∀ x, b.getLast? = some x → x ≠ '0')
    (hf : FractionDigitsFacet a b f) :
    fractionDigits (sign ++ a ++ '.' :: b) f = .ok () ∧
      (b = [] → fractionDigits (sign ++ a) f = .ok ()) := by
  have hlen : b.length ≤ f := by
    obtain ⟨i, n, e, hn⟩ := hf
    cases hl : b.getLast? with
    | none =>
      have : b = [] := by simpa using hl
      subst this; simp
    | some x =>
      have := (scale_min (val_mod a (hb x (List.mem_of_getLast? hl)) (htrail x hl) hl) e).1
      omega
  constructor
  · have : decimalCaptures (sign ++ a ++ '.' :: b) = some (a, some b) :=
      (decimalCaptures_iff _ _ _).mpr ⟨sign, hs, hane, ha, Or.inr ⟨b, rfl, hb, rfl⟩⟩
    simp only [fractionDigits, this, if_pos hlen]
  · rintro rfl
    have : decimalCaptures (sign ++ a) = some (a, none) :=
      (decimalCaptures_iff _ _ _).mpr ⟨sign, hs, hane, ha, Or.inl ⟨rfl, rfl⟩⟩
    simp only [fractionDigits, this]
    rw [if_pos (by simp)]

/-- **C22** is false for other literals: `0.5` has one digit, `007` has one, `1.0` has no
fraction digit, `+5` and `.5` are decimals, but all are rejected. -/
theorem C22_total_digits_rejects_valid :
    (totalDigits "0.5".toList 1 = .error (.totalDigits 1) ∧ TotalDigitsFacet ['0'] ['5'] 1) ∧
    (totalDigits "007".toList 1 = .error (.totalDigits 1) ∧ TotalDigitsFacet ['0', '0', '7'] [] 1) ∧
    (fractionDigits "1.0".toList 0 = .error (.fractionDigits 0) ∧
      FractionDigitsFacet ['1'] ['0'] 0) ∧
    (totalDigits "+5".toList 1 = .error .invalidDecimal ∧ IsDecimal "+5".toList ['5'] [] ∧
      TotalDigitsFacet ['5'] [] 1) ∧
    (fractionDigits ".5".toList 1 = .error .invalidDecimal ∧ IsDecimal ".5".toList [] ['5'] ∧
      FractionDigitsFacet [] ['5'] 1) := by
  refine ⟨⟨rfl, 5, 1, by decide, by decide, by decide⟩,
    ⟨rfl, 7, 0, by decide, by decide, by decide⟩,
    ⟨rfl, 1, 0, by decide, by decide⟩, ⟨rfl, ?_, 5, 0, by decide, by decide, by decide⟩,
    ⟨rfl, ?_, 5, 1, by decide, by decide⟩⟩
  · exact .mk ['+'] ['5'] [] [] (by simp) (by simp) (by simp) (by decide) (by simp)
  · exact .mk [] [] ['5'] ['.'] (by simp) (by simp) (by simp) (by simp) (by decide)

/-- Non-vacuity of the completeness theorems. -/
example : TotalDigitsFacet ['1', '0'] ['5'] 3 ∧ ¬ TotalDigitsFacet ['1', '0'] ['5'] 2 ∧
    totalDigits "-10.5".toList 3 = .ok () ∧ totalDigits "-10.5".toList 2 = .error (.totalDigits 2) := by
  refine ⟨⟨105, 1, by decide, by decide, by decide⟩, ?_, rfl, rfl⟩
  rintro ⟨i, n, e, hi, hn⟩
  have := scale_min (v := 105) (by decide) e
  omega

end Verif.Rt

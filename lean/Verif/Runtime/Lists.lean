import Verif.Runtime.Text

/-!
# Lists, occurrence checks and booleans (C05, C06, C08)

* `DeserializeHelper::deserialize_list` / `deserialize_arr`
  (xsd-parser-types/src/quick_xml/deserialize.rs 752-810) and the list serializer of
  generated simple types (xsd-parser/src/pipeline/renderer/steps/quick_xml/serialize.rs
  343-365);
* `finish_*` (deserialize.rs 1084-1203);
* `DeserializeBytes for bool` (deserialize.rs 468-478).
-/

namespace Verif.Rt

section
variable {E V : Type}

/-! ## C08: booleans -/

def trueTexts : List String := ["TRUE", "True", "true", "YES", "Yes", "yes", "1"]
def falseTexts : List String := ["FALSE", "False", "false", "NO", "No", "no", "0"]

/-- `DeserializeBytes for bool`, deserialize.rs:468-478; `none` is the error. -/
def parseBool (s : Str) : Option Bool :=
  if s = "TRUE".toList then some true
  else if s = "True".toList then some true
  else if s = "true".toList then some true
  else if s = "YES".toList then some true
  else if s = "Yes".toList then some true
  else if s = "yes".toList then some true
  else if s = "1".toList then some true
  else if s = "FALSE".toList then some false
  else if s = "False".toList then some false
  else if s = "false".toList then some false
  else if s = "NO".toList then some false
  else if s = "No".toList then some false
  else if s = "no".toList then some false
  else if s = "0".toList then some false
  else none

/-- `SerializeBytesToString for bool`, serialize.rs:223: `bool::to_string`. -/
def formatBool (b : Bool) : Str := (if b then "true" else "false").toList

theorem ite_some_eq {c : Prop} [Decidable c] {b v : Bool} {r : Option Bool} :
    (if c then some b else r) = some v ↔ (c ∧ b = v) ∨ (¬ c ∧ r = some v) := by
  by_cases h : c <;> simp [h]

/-- **C08.** A text is read as `true` exactly if it is one of the seven true texts. -/
theorem C08_true_iff (s : Str) : parseBool s = some true ↔ s ∈ trueTexts.map String.toList := by
  constructor
  · intro h
    simp only [parseBool, ite_some_eq] at h
    simp only [trueTexts, List.map_cons, List.map_nil, List.mem_cons, List.not_mem_nil, or_false]
    grind
  · intro h
    simp only [trueTexts, List.map_cons, List.map_nil, List.mem_cons, List.not_mem_nil,
      or_false] at h
    rcases h with rfl | rfl | rfl | rfl | rfl | rfl | rfl <;> decide

/-- **C08.** A text is read as `false` exactly if it is one of the seven false texts. -/
theorem C08_false_iff (s : Str) : parseBool s = some false ↔ s ∈ falseTexts.map String.toList := by
  constructor
  · intro h
    simp only [parseBool, ite_some_eq] at h
    simp only [falseTexts, List.map_cons, List.map_nil, List.mem_cons, List.not_mem_nil, or_false]
    grind
  · intro h
    simp only [falseTexts, List.map_cons, List.map_nil, List.mem_cons, List.not_mem_nil,
      or_false] at h
    rcases h with rfl | rfl | rfl | rfl | rfl | rfl | rfl <;> decide

/-- **C08.** Everything else is an error. -/
theorem C08_error_iff (s : Str) : parseBool s = none ↔
    s ∉ trueTexts.map String.toList ∧ s ∉ falseTexts.map String.toList := by
  rw [← C08_true_iff, ← C08_false_iff]
  cases h : parseBool s with
  | none => simp
  | some b => cases b <;> simp

/-- **C08.** A written boolean reads back as itself. -/
theorem C08_round_trip (b : Bool) : parseBool (formatBool b) = some b := by
  cases b <;> decide

example : parseBool "yes".toList = some true ∧ parseBool "tRUE".toList = none := by decide

/-! ## C05: lists -/

/-- The separators of `deserialize_list`, deserialize.rs:762. -/
def isSep (c : Char) : Bool := c == ' ' || c == '\t' || c == '\r' || c == '\n'

/-- `<[u8]>::split`: cut at every single separator. -/
def splitSep : Str → List Str
  | [] => [[]]
  | c :: r =>
    if isSep c then [] :: splitSep r
    else
      match splitSep r with
      | [] => [[c]]
      | x :: xs => (c :: x) :: xs

/-- `Iterator::collect::<Result<Vec<_>, _>>`. -/
def collectAll (parse : Str → Except E V) : List Str → Except E (List V)
  | [] => .ok []
  | t :: ts =>
    match parse t with
    | .error e => .error e
    | .ok v =>
      match collectAll parse ts with
      | .error e => .error e
      | .ok vs => .ok (v :: vs)

/-- `deserialize_list`, deserialize.rs:752-767. -/
def deserializeList (parse : Str → Except E V) (bytes : Str) : Except E (List V) :=
  let bytes := trimAscii bytes
  if bytes = [] then .ok [] else collectAll parse (splitSep bytes)

/-- `deserialize_arr`, deserialize.rs:776-810: `size` is `InsufficientSize`. The loop stops
with the size error at the first excess item, after all earlier ones were parsed. -/
def deserializeArr (N : Nat) (size : E) (parse : Str → Except E V) (bytes : Str) :
    Except E (List V) :=
  let parts := splitSep (trimAscii bytes)
  match collectAll parse (parts.take N) with
  | .error e => .error e
  | .ok vs => if parts.length = N then .ok vs else .error size

/-- The list serializer of generated simple types, serialize.rs:343-365 (items whose
`serialize_bytes` is a text): the items separated by single blanks. -/
def serializeItems : List Str → Str → Str
  | [], data => data
  | t :: ts, data => serializeItems ts ((if data = [] then data else data ++ [' ']) ++ t)

/-- **Specification** (XML Schema part 2, whitespace collapse and list): `ts` are the tokens
of `s`, i.e. the maximal runs of non-separator characters. -/
inductive IsTokens : Str → List Str → Prop
  | blank (s : Str) (h : ∀ c ∈ s, isSep c = true) : IsTokens s []
  | token (pre t s : Str) (ts : List Str) (hpre : ∀ c ∈ pre, isSep c = true) (ht : t ≠ [])
      (htok : ∀ c ∈ t, isSep c = false) (hs : ∀ c, s.head? = some c → isSep c = true)
      (h : IsTokens s ts) : IsTokens (pre ++ t ++ s) (t :: ts)

theorem splitSep_ne_nil (s : Str) : splitSep s ≠ [] := by
  cases s with
  | nil => simp [splitSep]
  | cons c r =>
    simp only [splitSep]
    split
    · simp
    · split <;> simp

theorem splitSep_seps (pre s : Str) (h : ∀ c ∈ pre, isSep c = true) :
    splitSep (pre ++ s) = List.replicate pre.length [] ++ splitSep s := by
  induction pre with
  | nil => rfl
  | cons c pre ih =>
    rw [List.cons_append]
    simp only [splitSep, h c (by simp), if_true]
    rw [ih fun x hx => h x (by simp [hx])]
    rfl

theorem splitSep_token (t s : Str) (htok : ∀ c ∈ t, isSep c = false)
    (hs : ∀ c, s.head? = some c → isSep c = true) :
    splitSep (t ++ s) = t :: (splitSep s).tail := by
  induction t with
  | nil =>
    cases s with
    | nil => rfl
    | cons c r => simp [splitSep, hs c rfl]
  | cons c t ih =>
    rw [List.cons_append]
    simp only [splitSep, htok c (by simp), Bool.false_eq_true, if_false]
    rw [ih fun x hx => htok x (by simp [hx])]

def nonEmptyParts (s : Str) : List Str := (splitSep s).filter fun t => decide (t ≠ [])

theorem nonEmptyParts_seps (pre s : Str) (h : ∀ c ∈ pre, isSep c = true) :
    nonEmptyParts (pre ++ s) = nonEmptyParts s := by
  unfold nonEmptyParts
  rw [splitSep_seps pre s h, List.filter_append]
  have : (List.replicate pre.length ([] : Str)).filter (fun t => decide (t ≠ [])) = [] := by
    rw [List.filter_eq_nil_iff]
    intro x hx
    rw [List.mem_replicate] at hx
    simp [hx.2]
  rw [this]; rfl

theorem nonEmptyParts_blank (s : Str) (h : ∀ c ∈ s, isSep c = true) : nonEmptyParts s = [] := by
  have := nonEmptyParts_seps s [] h
  rw [List.append_nil] at this
  rw [this]; rfl

/-- The tokens are unique and are the non-empty parts of the split. -/
theorem isTokens_eq {s : Str} {ts : List Str} (h : IsTokens s ts) : ts = nonEmptyParts s := by
  induction h with
  | blank s hs => rw [nonEmptyParts_blank s hs]
  | token pre t s ts hpre ht htok hs _ ih =>
    rw [List.append_assoc, nonEmptyParts_seps pre _ hpre]
    unfold nonEmptyParts at *
    rw [splitSep_token t s htok hs]
    have hrest : (splitSep s).tail.filter (fun t => decide (t ≠ []))
        = (splitSep s).filter (fun t => decide (t ≠ [])) := by
      cases s with
      | nil => simp [splitSep]
      | cons c r => simp [splitSep, hs c rfl]
    rw [List.filter_cons, if_pos (by simpa using ht), hrest, ← ih]

/-- No two separators next to each other. -/
def NoDouble : Str → Prop
  | [] => True
  | [_] => True
  | a :: b :: r => ¬ (isSep a = true ∧ isSep b = true) ∧ NoDouble (b :: r)

theorem splitSep_no_empty (s : Str) (hne : s ≠ [])
    (h1 : ∀ c, s.head? = some c → isSep c = false)
    (h2 : ∀ c, s.getLast? = some c → isSep c = false) (hd : NoDouble s) :
    ∀ t ∈ splitSep s, t ≠ [] := by
  have key : ∀ (s : Str), s ≠ [] → NoDouble s →
      (∀ c, s.getLast? = some c → isSep c = false) →
      (∀ t ∈ (splitSep s).tail, t ≠ []) := by
    intro s
    induction s with
    | nil => intro h; exact absurd rfl h
    | cons c r ih =>
      intro _ hd hl
      cases r with
      | nil =>
        have hc := hl c rfl
        simp [splitSep, hc]
      | cons b r =>
        have hr := ih (by simp) hd.2 (by
          intro c' hc'; apply hl; simpa [List.getLast?_cons_cons] using hc')
        simp only [splitSep] at hr ⊢
        by_cases hc : isSep c = true
        · rw [if_pos hc]
          simp only [List.tail_cons]
          have hb : ¬ isSep b = true := fun hb => hd.1 ⟨hc, hb⟩
          rw [if_neg hb] at hr ⊢
          intro t ht
          generalize splitSep r = ps at hr ht
          cases ps with
          | nil =>
            simp only at ht
            rw [List.mem_singleton] at ht; subst ht; simp
          | cons x xs =>
            simp only [List.tail_cons] at hr ht
            rcases List.mem_cons.mp ht with rfl | ht
            · simp
            · exact hr t ht
        · rw [if_neg hc]
          by_cases hb : isSep b = true
          · rw [if_pos hb] at hr ⊢
            simpa using hr
          · rw [if_neg hb] at hr ⊢
            generalize splitSep r = ps at hr ⊢
            cases ps with
            | nil => simp
            | cons x xs => simpa using hr
  intro t ht
  cases s with
  | nil => exact absurd rfl hne
  | cons c r =>
    have hc := h1 c rfl
    have ht2 := key (c :: r) hne hd h2
    simp only [splitSep, hc, Bool.false_eq_true, if_false] at ht ht2
    generalize splitSep r = ps at ht ht2
    cases ps with
    | nil => simp only [List.mem_singleton] at ht; subst ht; simp
    | cons x xs =>
      simp only [List.tail_cons] at ht2
      rcases List.mem_cons.mp ht with rfl | ht
      · simp
      · exact ht2 t ht

theorem sep_eq_ws {s : Str} (hff : Char.ofNat 12 ∉ s) {c : Char} (hc : c ∈ s) :
    isAsciiWs c = isSep c := by
  have : c ≠ Char.ofNat 12 := fun h => hff (h ▸ hc)
  unfold isAsciiWs isSep
  have h12 : (c == Char.ofNat 12) = false := by simpa using this
  rw [h12]
  cases (c == ' ') <;> cases (c == '\t') <;> cases (c == '\n') <;> cases (c == '\r') <;> rfl

theorem dropWhile_split (p : Char → Bool) (s : Str) :
    ∃ pre, s = pre ++ s.dropWhile p ∧ (∀ c ∈ pre, p c = true) ∧
      ∀ c, (s.dropWhile p).head? = some c → p c = false := by
  induction s with
  | nil => exact ⟨[], rfl, by simp, by simp⟩
  | cons c s ih =>
    by_cases hc : p c = true
    · obtain ⟨pre, h1, h2, h3⟩ := ih
      refine ⟨c :: pre, ?_, ?_, ?_⟩
      · rw [List.dropWhile_cons, if_pos hc, List.cons_append, ← h1]
      · intro x hx
        rcases List.mem_cons.mp hx with rfl | hx
        · exact hc
        · exact h2 x hx
      · rw [List.dropWhile_cons, if_pos hc]; exact h3
    · refine ⟨[], ?_, by simp, ?_⟩
      · rw [List.dropWhile_cons, if_neg hc]; rfl
      · rw [List.dropWhile_cons, if_neg hc]
        intro x hx
        simp only [List.head?_cons, Option.some.injEq] at hx
        subst hx
        exact (Bool.not_eq_true _).mp hc

/-- `trim_ascii` takes whitespace off both ends and leaves none there. -/
theorem trimAscii_split (s : Str) :
    ∃ a b, s = a ++ trimAscii s ++ b ∧ (∀ c ∈ a, isAsciiWs c = true) ∧
      (∀ c ∈ b, isAsciiWs c = true) ∧
      (∀ c, (trimAscii s).head? = some c → isAsciiWs c = false) ∧
      (∀ c, (trimAscii s).getLast? = some c → isAsciiWs c = false) := by
  obtain ⟨a, h1, h2, h3⟩ := dropWhile_split isAsciiWs s
  obtain ⟨b, g1, g2, g3⟩ := dropWhile_split isAsciiWs (s.dropWhile isAsciiWs).reverse
  have hu : s.dropWhile isAsciiWs = trimAscii s ++ b.reverse := by
    have := congrArg List.reverse g1
    rw [List.reverse_reverse, List.reverse_append] at this
    exact this
  refine ⟨a, b.reverse, ?_, h2, ?_, ?_, ?_⟩
  · rw [List.append_assoc, ← hu, ← h1]
  · intro c hc; exact g2 c (List.mem_reverse.mp hc)
  · intro c hc
    apply h3
    rw [hu, List.head?_append, hc]; rfl
  · intro c hc
    unfold trimAscii at hc
    rw [List.getLast?_reverse] at hc
    exact g3 c hc

/-- The non-empty parts do not change when separators are taken off the end. -/
theorem nonEmptyParts_append_seps (s b : Str) (h : ∀ c ∈ b, isSep c = true) :
    nonEmptyParts (s ++ b) = nonEmptyParts s := by
  unfold nonEmptyParts
  have hb : ∃ k, splitSep b = List.replicate (k + 1) [] := by
    refine ⟨b.length, ?_⟩
    have := splitSep_seps b [] h
    rw [List.append_nil] at this
    rw [this]
    simp [splitSep, List.replicate_succ']
  induction s with
  | nil =>
    have := nonEmptyParts_blank b h
    unfold nonEmptyParts at this
    rw [List.nil_append, this]; rfl
  | cons c s ih =>
    rw [List.cons_append]
    simp only [splitSep]
    by_cases hc : isSep c = true
    · rw [if_pos hc, if_pos hc]
      simpa using ih
    · rw [if_neg hc, if_neg hc]
      have hfirst : ∃ x xs ys, splitSep (s ++ b) = x :: xs ∧ splitSep s = x :: ys ∧
          xs.filter (fun t => decide (t ≠ [])) = ys.filter (fun t => decide (t ≠ [])) := by
        clear ih
        induction s with
        | nil =>
          obtain ⟨k, hk⟩ := hb
          refine ⟨[], List.replicate k [], [], ?_, rfl, ?_⟩
          · rw [List.nil_append, hk]; rfl
          · rw [List.filter_nil, List.filter_eq_nil_iff]
            intro x hx
            rw [List.mem_replicate] at hx
            simp [hx.2]
        | cons d s ih =>
          obtain ⟨x, xs, ys, e1, e2, e3⟩ := ih
          rw [List.cons_append]
          by_cases hd : isSep d = true
          · refine ⟨[], x :: xs, x :: ys, ?_, ?_, ?_⟩
            · simp [splitSep, hd, e1]
            · simp [splitSep, hd, e2]
            · simp only [List.filter_cons, e3]
          · refine ⟨d :: x, xs, ys, ?_, ?_, e3⟩
            · simp [splitSep, hd, e1]
            · simp [splitSep, hd, e2]
      obtain ⟨x, xs, ys, e1, e2, e3⟩ := hfirst
      rw [e1, e2]
      simpa using e3

/-- **C05** (partial). If, after trimming, no two separators are adjacent (and the text has no
form feed), deserializing a list gives the values of its tokens; blank text gives the empty
list. Missing: texts with two or more adjacent separators between items, for which the
property is false (`C05_adjacent_separators_wrong`). -/
theorem C05_list_tokens_partial (parse : Str → Except E V) (s : Str) (ts : List Str)
    (htok : IsTokens s ts) (hff : Char.ofNat 12 ∉ s) (hd : NoDouble (trimAscii s)) :
    deserializeList parse s = collectAll parse ts := by
  obtain ⟨a, b, hs, ha, hb, hh, hl⟩ := trimAscii_split s
  have mem : ∀ c, (c ∈ a ∨ c ∈ trimAscii s ∨ c ∈ b) → isAsciiWs c = isSep c := by
    intro c hc
    apply sep_eq_ws hff
    rw [hs]
    simp only [List.mem_append]
    rcases hc with hc | hc | hc
    · exact Or.inl (Or.inl hc)
    · exact Or.inl (Or.inr hc)
    · exact Or.inr hc
  have hts : ts = nonEmptyParts (trimAscii s) := by
    rw [isTokens_eq htok]
    conv => lhs; rw [hs]
    rw [nonEmptyParts_append_seps _ b (fun c hc => by
        rw [← mem c (Or.inr (Or.inr hc))]; exact hb c hc),
      nonEmptyParts_seps a _ (fun c hc => by rw [← mem c (Or.inl hc)]; exact ha c hc)]
  unfold deserializeList
  simp only
  by_cases he : trimAscii s = []
  · rw [if_pos he, hts, he]
    rfl
  · rw [if_neg he]
    have hne := splitSep_no_empty (trimAscii s) he
      (fun c hc => by
        rw [← mem c (Or.inr (Or.inl (List.mem_of_mem_head? hc)))]; exact hh c hc)
      (fun c hc => by
        rw [← mem c (Or.inr (Or.inl (List.mem_of_getLast? hc)))]; exact hl c hc)
      hd
    have : nonEmptyParts (trimAscii s) = splitSep (trimAscii s) := by
      unfold nonEmptyParts
      rw [List.filter_eq_self]
      intro t ht
      simpa using hne t ht
    rw [hts, this]

/-- **C05** is false in general: two blanks between two items are read as *three* items, the
middle one empty. -/
theorem C05_adjacent_separators_wrong :
    deserializeList (E := Unit) (fun t => .ok t) ['a', ' ', ' ', 'b'] = .ok [['a'], [], ['b']] ∧
    IsTokens ['a', ' ', ' ', 'b'] [['a'], ['b']] := by
  constructor
  · rfl
  · exact .token [] ['a'] [' ', ' ', 'b'] [['b']] (by simp) (by simp) (by decide) (by simp; decide)
      (.token [' ', ' '] ['b'] [] [] (by decide) (by simp) (by decide) (by simp) (.blank [] (by simp)))

theorem serializeItems_data (ts : List Str) (data : Str) (h : data ≠ []) :
    serializeItems ts data = data ++ ts.flatMap (fun t => ' ' :: t) := by
  induction ts generalizing data with
  | nil => simp [serializeItems]
  | cons t ts ih =>
    simp only [serializeItems, h, if_false, List.flatMap_cons]
    rw [ih _ (by simp)]
    simp

theorem splitSep_items (t : Str) (ts : List Str) (ht : ∀ c ∈ t, isSep c = false)
    (hts : ∀ x ∈ ts, ∀ c ∈ x, isSep c = false) :
    splitSep (t ++ ts.flatMap fun t => ' ' :: t) = t :: ts := by
  induction ts generalizing t with
  | nil =>
    have := splitSep_token t [] ht (by simp)
    simpa [splitSep] using this
  | cons x ts ih =>
    rw [splitSep_token t _ ht (by
      intro c hc
      simp only [List.flatMap_cons, List.cons_append, List.head?_cons, Option.some.injEq] at hc
      subst hc; decide)]
    have := ih x (hts x (by simp)) (fun y hy => hts y (by simp [hy]))
    simp only [List.flatMap_cons, List.cons_append]
    have hsp : splitSep (' ' :: (x ++ ts.flatMap fun t => ' ' :: t)) =
        [] :: splitSep (x ++ ts.flatMap fun t => ' ' :: t) := by
      simp [splitSep, isSep]
    rw [hsp, this]
    rfl

/-- **C05**, round trip: a serialized list of items with non-empty, whitespace-free texts is
read back as the same items, in the same order. -/
theorem C05_serialize_deserialize (parse : Str → Except E V) (items : List Str)
    (hne : ∀ t ∈ items, t ≠ []) (hws : ∀ t ∈ items, ∀ c ∈ t, isAsciiWs c = false) :
    deserializeList parse (serializeItems items []) = collectAll parse items := by
  have sep : ∀ c, isAsciiWs c = false → isSep c = false := by
    intro c h
    unfold isAsciiWs at h
    unfold isSep
    simp only [Bool.or_eq_false_iff] at h ⊢
    obtain ⟨⟨⟨⟨h1, h2⟩, h3⟩, h4⟩, _⟩ := h
    exact ⟨⟨⟨h1, h2⟩, h4⟩, h3⟩
  cases items with
  | nil => rfl
  | cons t ts =>
    have ht := hne t (by simp)
    have hser : serializeItems (t :: ts) [] = t ++ ts.flatMap fun t => ' ' :: t := by
      simp only [serializeItems, if_true, List.nil_append]
      exact serializeItems_data ts t ht
    have hsplit := splitSep_items t ts (fun c hc => sep c (hws t (by simp) c hc))
      (fun x hx c hc => sep c (hws x (by simp [hx]) c hc))
    have htrim : trimAscii (t ++ ts.flatMap fun t => ' ' :: t) = t ++ ts.flatMap fun t => ' ' :: t := by
      apply C16_trimmed_text_unchanged
      · intro c hc
        cases t with
        | nil => exact absurd rfl ht
        | cons d t =>
          simp only [List.cons_append, List.head?_cons, Option.some.injEq] at hc
          subst hc
          exact hws (d :: t) (by simp) d (by simp)
      · intro c hc
        have last : ∀ (ts : List Str) (t : Str), t ≠ [] → (∀ c ∈ t, isAsciiWs c = false) →
            (∀ x ∈ ts, x ≠ [] ∧ ∀ c ∈ x, isAsciiWs c = false) →
            ∀ c, (t ++ ts.flatMap fun t => ' ' :: t).getLast? = some c → isAsciiWs c = false := by
          intro ts
          induction ts with
          | nil =>
            intro t _ h _ c hc
            simp only [List.flatMap_nil, List.append_nil] at hc
            exact h c (List.mem_of_getLast? hc)
          | cons x ts ih =>
            intro t _ _ h c hc
            have hx := h x (by simp)
            apply ih x hx.1 hx.2 (fun y hy => h y (by simp [hy])) c
            simp only [List.flatMap_cons, List.cons_append] at hc
            rw [List.getLast?_append] at hc
            cases hl : (' ' :: (x ++ ts.flatMap fun t => ' ' :: t)).getLast? with
            | none => simp at hl
            | some d =>
              rw [hl] at hc
              simp only [Option.some_or, Option.some.injEq] at hc
              subst hc
              rw [List.getLast?_cons] at hl
              cases hl2 : (x ++ ts.flatMap fun t => ' ' :: t).getLast? with
              | none =>
                rw [List.getLast?_eq_none_iff] at hl2
                exact absurd (List.append_eq_nil_iff.mp hl2).1 hx.1
              | some d' => rw [hl2] at hl; simpa using hl
        exact last ts t ht (fun c hc => hws t (by simp) c hc)
          (fun x hx => ⟨hne x (by simp [hx]), fun c hc => hws x (by simp [hx]) c hc⟩) c hc
    unfold deserializeList
    simp only [hser, htrim]
    rw [if_neg (by simp [ht]), hsplit]

/-- **C05**, fixed-size lists: an array is returned only with exactly `N` items. -/
theorem C05_array_size (N : Nat) (size : E) (parse : Str → Except E V) (s : Str) (vs : List V)
    (h : deserializeArr N size parse s = .ok vs) : vs.length = N := by
  have hlen : ∀ (ts : List Str) (vs : List V), collectAll parse ts = .ok vs →
      vs.length = ts.length := by
    intro ts
    induction ts with
    | nil => intro vs h; simp only [collectAll, Except.ok.injEq] at h; subst h; rfl
    | cons t ts ih =>
      intro vs h
      simp only [collectAll] at h
      cases hp : parse t with
      | error e => rw [hp] at h; cases h
      | ok v =>
        rw [hp] at h
        cases hc : collectAll parse ts with
        | error e => rw [hc] at h; cases h
        | ok ws =>
          rw [hc] at h
          simp only [Except.ok.injEq] at h
          subst h
          simp [ih ws hc]
  unfold deserializeArr at h
  simp only at h
  cases hc : collectAll parse ((splitSep (trimAscii s)).take N) with
  | error e => rw [hc] at h; cases h
  | ok ws =>
    rw [hc] at h
    simp only at h
    split at h
    · next hN =>
      simp only [Except.ok.injEq] at h
      subst h
      rw [hlen _ _ hc, List.length_take, hN, Nat.min_self]
    · cases h

/-- Non-vacuity: a list with blanks around it, tabs between the items, and a round trip. -/
example :
    deserializeList (E := Unit) (fun t => .ok t) [' ', 'a', 'b', '\t', 'c', '\n', ' ']
      = .ok [['a', 'b'], ['c']] ∧
    IsTokens [' ', 'a', 'b', '\t', 'c', '\n', ' '] [['a', 'b'], ['c']] ∧
    NoDouble (trimAscii [' ', 'a', 'b', '\t', 'c', '\n', ' ']) ∧
    serializeItems [['a', 'b'], ['c']] [] = ['a', 'b', ' ', 'c'] := by
  refine ⟨rfl, ?_, ?_, rfl⟩
  · exact .token [' '] ['a', 'b'] ['\t', 'c', '\n', ' '] [['c']] (by decide) (by simp)
      (by decide) (by simp; decide)
      (.token ['\t'] ['c'] ['\n', ' '] [] (by decide) (by simp) (by decide) (by simp; decide)
        (.blank _ (by decide)))
  · have : trimAscii [' ', 'a', 'b', '\t', 'c', '\n', ' '] = ['a', 'b', '\t', 'c'] := by decide
    rw [this]
    exact ⟨by decide, by decide, by decide, trivial⟩

/-! ## C06: occurrence bounds -/

/-- What a helper function does: a value, an error, or a panic. -/
inductive Res (α : Type) where
  | ok (a : α)
  | err
  | panic
deriving DecidableEq, Repr

/-- `finish_vec`, deserialize.rs:1126-1141. -/
def finishVec {T : Type} (min : Nat) (max : Option Nat) (value : List T) : Res (List T) :=
  if value.length < min && (match max with | some m => decide (value.length > m) | none => false)
  then .err
  else .ok value

/-- `finish_vec_default`, deserialize.rs:1152-1162: `dflt` is `T::default_value`. The loop
runs `min - len` times. -/
def fillDefault {T : Type} (dflt : Option T) : Nat → List T → Res (List T)
  | 0, value => .ok value
  | k + 1, value =>
    match dflt with
    | some d => fillDefault dflt k (value ++ [d])
    | none => .err

def finishVecDefault {T : Type} (dflt : Option T) (min : Nat) (value : List T) : Res (List T) :=
  fillDefault dflt (min - value.length) value

/-- `finish_arr`, deserialize.rs:1172-1180: an array of size `N` is a list of that length. -/
def finishArr {T : Type} (N : Nat) (value : List T) : Res (List T) :=
  if value.length = N then .ok value else .err

/-- `finish_arr_default`, deserialize.rs:1191-1203. -/
def finishArrDefault {T : Type} (dflt : Option T) (N : Nat) (value : List T) : Res (List T) :=
  match finishVecDefault dflt N value with
  | .ok v => if v.length = N then .ok v else .panic
  | r => r

variable {T : Type}

/-- **C06** (partial): whenever a repeated field is finished successfully, the values are the
collected ones, unchanged and in order. Missing: the bounds, see
`C06_bounds_not_enforced`. -/
theorem C06_values_unchanged_partial (min : Nat) (max : Option Nat) (value v : List T)
    (h : finishVec min max value = .ok v) : v = value := by
  unfold finishVec at h
  generalize (decide (value.length < min) && _) = b at h
  cases b
  · simpa using h.symm
  · simp at h

/-- **C06** is false for lists: with sensible bounds (`min ≤ max`) nothing is ever rejected,
however few or many values there are (the check uses `&&` instead of `||`). -/
theorem C06_finish_vec_never_rejects (min : Nat) (max : Option Nat)
    (hmm : ∀ m, max = some m → min ≤ m) (value : List T) :
    finishVec min max value = .ok value := by
  unfold finishVec
  rw [if_neg]
  intro h
  simp only [Bool.and_eq_true, decide_eq_true_eq] at h
  obtain ⟨h1, h2⟩ := h
  cases max with
  | none => simp at h2
  | some m =>
    simp only [decide_eq_true_eq] at h2
    have := hmm m rfl
    omega

/-- **C06**, refutation with a concrete case: zero values for bounds 1..2 and three values
for bounds 1..2 are both accepted. -/
theorem C06_bounds_not_enforced :
    finishVec (T := Nat) 1 (some 2) [] = .ok [] ∧
    finishVec (T := Nat) 1 (some 2) [7, 8, 9] = .ok [7, 8, 9] := by decide

/-- **C06** for fixed-size arrays: success exactly with `N` values, which are unchanged;
never a panic. -/
theorem C06_array_exact (N : Nat) (value : List T) :
    finishArr N value = (if value.length = N then Res.ok value else Res.err) ∧
    (∀ v, finishArr N value = .ok v ↔ v = value ∧ value.length = N) := by
  refine ⟨rfl, fun v => ?_⟩
  unfold finishArr
  by_cases h : value.length = N
  · simp [h, eq_comm]
  · simp [h]

theorem fillDefault_ok (d : T) (k : Nat) (value : List T) :
    fillDefault (some d) k value = .ok (value ++ List.replicate k d) := by
  induction k generalizing value with
  | zero => simp [fillDefault]
  | succ k ih =>
    simp only [fillDefault]
    rw [ih]
    simp [List.replicate_succ]

/-- **C06** for defaultable contents: the collected values come first, then defaults up to
the minimum; nothing is dropped or reordered. -/
theorem C06_default_fill (d : T) (min : Nat) (value : List T) :
    finishVecDefault (some d) min value
      = .ok (value ++ List.replicate (min - value.length) d) :=
  fillDefault_ok d _ value

/-- **C06** (partial) for defaultable fixed-size arrays: with at most `N` values the result
has exactly `N` values, starting with the collected ones. -/
theorem C06_array_default_partial (d : T) (N : Nat) (value : List T) (h : value.length ≤ N) :
    finishArrDefault (some d) N value
      = .ok (value ++ List.replicate (N - value.length) d) ∧
    (value ++ List.replicate (N - value.length) d).length = N := by
  have hl : (value ++ List.replicate (N - value.length) d).length = N := by
    simp; omega
  refine ⟨?_, hl⟩
  unfold finishArrDefault
  rw [C06_default_fill]
  simp only
  rw [if_pos hl]

/-- **C06** is false here too: more than `N` values make `finish_arr_default` panic. -/
theorem C06_array_default_panics (d : T) (N : Nat) (value : List T) (h : value.length > N) :
    finishArrDefault (some d) N value = .panic := by
  unfold finishArrDefault
  rw [C06_default_fill]
  simp only
  rw [if_neg (by simp; omega)]

example : finishArrDefault (some 0) 3 [5] = .ok [5, 0, 0] ∧
    finishArrDefault (some 0) 1 [5, 6] = .panic ∧ finishArr 2 [5, 6] = .ok [5, 6] := by decide

end

end Verif.Rt

import Verif.Runtime.Driver

/-!
# Character data: escaping, chunks and simple content (C04, C16)

* `escape`/`unescape` of the external crate quick-xml (modelled from its documentation);
* how a reader cuts raw character data into `Text` and `GeneralRef` events;
* `ContentDeserializer` (xsd-parser-types/src/quick_xml/deserialize.rs 566-663);
* `ContentSerializer` (xsd-parser-types/src/quick_xml/serialize.rs 282-366).
-/

namespace Verif.Rt

/-! ## Escaping (quick-xml) -/

/-- `quick_xml::escape::escape` on one character. -/
def escapeChar (c : Char) : Str :=
  if c = '<' then ['&', 'l', 't', ';']
  else if c = '>' then ['&', 'g', 't', ';']
  else if c = '\'' then ['&', 'a', 'p', 'o', 's', ';']
  else if c = '&' then ['&', 'a', 'm', 'p', ';']
  else if c = '"' then ['&', 'q', 'u', 'o', 't', ';']
  else [c]

/-- `quick_xml::escape::escape`. -/
def escape (s : Str) : Str := s.flatMap escapeChar

/-- The predefined entities, `quick_xml::escape::resolve_predefined_entity`. -/
def predefined (n : Str) : Option Str :=
  if n = ['l', 't'] then some ['<']
  else if n = ['g', 't'] then some ['>']
  else if n = ['a', 'p', 'o', 's'] then some ['\'']
  else if n = ['a', 'm', 'p'] then some ['&']
  else if n = ['q', 'u', 'o', 't'] then some ['"']
  else none

/-- Resolve the name between `&` and `;`; numeric references (`#10`, `#x0A`) are resolved by
the parameter `num`. -/
def resolveRef (num : Str → Option Str) (n : Str) : Option Str :=
  match predefined n with
  | some c => some c
  | none => num n

/-- `quick_xml::escape::unescape`; the second argument is the name read since an open `&`
(reversed), `none` outside of a reference. -/
def unescapeGo (num : Str → Option Str) : Option Str → Str → Option Str
  | none, [] => some []
  | some _, [] => none
  | none, c :: r =>
    if c = '&' then unescapeGo num (some []) r
    else (unescapeGo num none r).map (c :: ·)
  | some n, c :: r =>
    if c = ';' then
      match resolveRef num n.reverse with
      | none => none
      | some s => (unescapeGo num none r).map (s ++ ·)
    else if c = '&' then none
    else unescapeGo num (some (c :: n)) r

def unescape (num : Str → Option Str) (s : Str) : Option Str := unescapeGo num none s

/-! ## How the reader delivers raw character data (quick-xml) -/

/-- Emit the pending text chunk, if there is one (`cur` is reversed). -/
def flushText (cur : Str) (rest : List Event) : List Event :=
  match cur with
  | [] => rest
  | _ => .text cur.reverse :: rest

/-- The reader cuts raw character data at references: `a&lt;b` is delivered as
`Text("a")`, `GeneralRef("lt")`, `Text("b")`; an unterminated reference is an error. -/
def chunksGo : Str → Option Str → Str → Option (List Event)
  | cur, none, [] => some (flushText cur [])
  | _, some _, [] => none
  | cur, none, c :: r =>
    if c = '&' then (chunksGo [] (some []) r).map (flushText cur)
    else chunksGo (c :: cur) none r
  | _, some n, c :: r =>
    if c = ';' then (chunksGo [] none r).map (.ref n.reverse :: ·)
    else if c = '&' then none
    else chunksGo [] (some (c :: n)) r

def chunks (raw : Str) : Option (List Event) := chunksGo [] none raw

/-! ## `ContentDeserializer` -/

/-- `u8::is_ascii_whitespace`. -/
def isAsciiWs (c : Char) : Bool :=
  c == ' ' || c == '\t' || c == '\n' || c == '\r' || c == Char.ofNat 12

/-- `<[u8]>::trim_ascii`. -/
def trimAscii (s : Str) : Str :=
  ((s.dropWhile isAsciiWs).reverse.dropWhile isAsciiWs).reverse

/-- The text one event contributes to simple content (`none` if it cannot be unescaped),
deserialize.rs:614-645. Comments and the like contribute nothing. -/
def pieceText (num : Str → Option Str) : Event → Option Str
  | .text s => unescape num s
  | .cdata s => some s
  | .ref s => unescape num (['&'] ++ s ++ [';'])
  | _ => some []

section
variable {H E V : Type}

/-- `ContentDeserializer`, deserialize.rs:566-663, for a type whose `deserialize_bytes` is
`parse`; `bad` is the error for text that cannot be unescaped. -/
def contentDeser (num : Str → Option Str) (bad : E) (parse : H → Str → Except E V) :
    Deser H E V where
  S := Str
  init := fun h e =>
    match e with
    | .start _ => .ok (⟨.deser [], .none, false⟩, h)
    | .empty _ =>
      match parse h [] with
      | .ok v => .ok (⟨.data v, .none, false⟩, h)
      | .error err => .error err
    | e => .ok (⟨.none, .cont e, false⟩, h)
  next := fun data h e =>
    match e with
    | .text s =>
      match unescape num s with
      | some t => .ok (⟨.deser (data ++ t), .none, false⟩, h)
      | none => .error bad
    | .cdata s => .ok (⟨.deser (data ++ s), .none, false⟩, h)
    | .ref s =>
      match unescape num (['&'] ++ s ++ [';']) with
      | some t => .ok (⟨.deser (data ++ t), .none, false⟩, h)
      | none => .error bad
    | .end_ _ =>
      match parse h (trimAscii data) with
      | .ok v => .ok (⟨.data v, .none, false⟩, h)
      | .error err => .error err
    | e => .ok (⟨.deser data, .brk e, false⟩, h)
  finish := fun data h => parse h (trimAscii data)

/-! ## C04 -/

/-- **Specification**: the character content of a list of events, `none` if some piece cannot
be unescaped. -/
def charContent (num : Str → Option Str) : List Event → Option Str
  | [] => some []
  | e :: es =>
    match pieceText num e, charContent num es with
    | some a, some b => some (a ++ b)
    | _, _ => none

/-- The outcome of a finished run, without the driver state. -/
inductive Verdict (E V : Type) where
  | value (v : V) (rest : List Event)
  | error (e : E)
  | waiting
deriving Repr

def Run.verdict {S : Type} : Run H S E V → Verdict E V
  | .done v rest => .value v rest
  | .fail e _ => .error e
  | .more _ => .waiting

theorem content_step (env : Env H E) (num : Str → Option Str) (bad : E)
    (parse : H → Str → Except E V) (h : H) (data t : Str) (e : Event) (es : List Event)
    (he : e.isLeaf = true) (ht : pieceText num e = some t) :
    Drv.run env (contentDeser num bad parse) { helper := h, deser := some data } (e :: es)
      = Drv.run env (contentDeser num bad parse)
          { helper := env.track h e, deser := some (data ++ t) } es := by
  cases e with
  | text s =>
    simp only [pieceText] at ht
    simp [Drv.run, Drv.handleEvent, handleSkip, callDeser, contentDeser, ht, leftover,
      DEvent.event, Artifact.dataOf, Artifact.deserOf]
  | cdata s =>
    simp only [pieceText, Option.some.injEq] at ht
    simp [Drv.run, Drv.handleEvent, handleSkip, callDeser, contentDeser, ht, leftover,
      DEvent.event, Artifact.dataOf, Artifact.deserOf]
  | ref s =>
    simp only [pieceText, List.cons_append, List.nil_append] at ht
    simp [Drv.run, Drv.handleEvent, handleSkip, callDeser, contentDeser, ht, leftover,
      DEvent.event, Artifact.dataOf, Artifact.deserOf]
  | _ =>
    first
    | simp [Event.isLeaf] at he; done
    | (simp only [pieceText, Option.some.injEq] at ht
       subst ht
       simp [Drv.run, Drv.handleEvent, handleSkip, callDeser, contentDeser, leftover,
         DEvent.event, Artifact.dataOf, Artifact.deserOf])

theorem content_step_bad (env : Env H E) (num : Str → Option Str) (bad : E)
    (parse : H → Str → Except E V) (h : H) (data : Str) (e : Event) (es : List Event)
    (he : e.isLeaf = true) (ht : pieceText num e = none) :
    Drv.run env (contentDeser num bad parse) { helper := h, deser := some data } (e :: es)
      = .fail bad es := by
  cases e with
  | text s =>
    simp only [pieceText] at ht
    simp [Drv.run, Drv.handleEvent, handleSkip, callDeser, contentDeser, ht]
  | ref s =>
    simp only [pieceText, List.cons_append, List.nil_append] at ht
    simp [Drv.run, Drv.handleEvent, handleSkip, callDeser, contentDeser, ht]
  | _ => first | (simp [pieceText] at ht; done) | (simp [Event.isLeaf] at he; done)

theorem content_run (env : Env H E) (num : Str → Option Str) (bad : E)
    (parse : H → Str → Except E V) (pieces : List Event) (hp : ∀ e ∈ pieces, e.isLeaf = true)
    (h : H) (data : Str) (n : Str) (rest : List Event) :
    (Drv.run env (contentDeser num bad parse) { helper := h, deser := some data }
        (pieces ++ .end_ n :: rest)).verdict
      = (match charContent num pieces with
         | none => .error bad
         | some c =>
           match parse (trackAll env h (pieces ++ [.end_ n])) (trimAscii (data ++ c)) with
           | .ok v => .value v rest
           | .error e => .error e) := by
  induction pieces generalizing h data with
  | nil =>
    simp only [charContent, List.nil_append, List.append_nil]
    simp only [Drv.run, Drv.handleEvent, handleSkip, callDeser, contentDeser, trackAll,
      List.foldl_cons, List.foldl_nil]
    cases parse (env.track h (.end_ n)) (trimAscii data) with
    | error e => rfl
    | ok v => rfl
  | cons e es ih =>
    have he := hp e (by simp)
    cases ht : pieceText num e with
    | none =>
      rw [List.cons_append, content_step_bad env num bad parse h data e _ he ht]
      simp [charContent, ht, Run.verdict]
    | some t =>
      rw [List.cons_append, content_step env num bad parse h data t e _ he ht,
        ih (fun e' h' => hp e' (by simp [h']))]
      simp only [charContent, ht]
      cases hc : charContent num es with
      | none => rfl
      | some c => simp [trackAll, List.append_assoc]

/-- **C04.** Deserializing an element with simple content `<t> pieces </t>`, where the pieces
are any text, CDATA, reference, comment and PI events, gives the type's parse of the
concatenated character content with ASCII whitespace trimmed at both ends, and stops right
after the end tag; if a piece cannot be unescaped, it gives that error. -/
theorem C04_simple_content (env : Env H E) (num : Str → Option Str) (bad : E)
    (parse : H → Str → Except E V) (h : H) (t : Tag) (pieces : List Event)
    (hp : ∀ e ∈ pieces, e.isLeaf = true) (rest : List Event) :
    (Drv.run env (contentDeser num bad parse) { helper := h }
        (.start t :: pieces ++ .end_ t.name :: rest)).verdict
      = (match charContent num pieces with
         | none => .error bad
         | some c =>
           match parse (trackAll env h (.start t :: pieces ++ [.end_ t.name])) (trimAscii c) with
           | .ok v => .value v rest
           | .error e => .error e) := by
  have h1 := content_run env num bad parse pieces hp (env.track h (.start t)) [] t.name rest
  simp only [List.nil_append] at h1
  rw [List.cons_append]
  simp only [trackAll, List.cons_append, List.foldl_cons] at h1 ⊢
  rw [← h1]
  rfl

/-- **C04**, chunk boundaries do not matter: two contents with the same characters (however
they are cut into text, CDATA and references, and whatever comments stand in between) give
the same outcome, if parsing does not look at the helper. -/
theorem C04_chunking_irrelevant (env : Env H E) (num : Str → Option Str) (bad : E)
    (parse : Str → Except E V) (h : H) (t : Tag) (xs ys : List Event)
    (hx : ∀ e ∈ xs, e.isLeaf = true) (hy : ∀ e ∈ ys, e.isLeaf = true)
    (hxy : charContent num xs = charContent num ys) (rest : List Event) :
    (Drv.run env (contentDeser num bad fun _ => parse) { helper := h }
        (.start t :: xs ++ .end_ t.name :: rest)).verdict
      = (Drv.run env (contentDeser num bad fun _ => parse) { helper := h }
        (.start t :: ys ++ .end_ t.name :: rest)).verdict := by
  rw [C04_simple_content env num bad _ h t xs hx, C04_simple_content env num bad _ h t ys hy, hxy]

/-- **C04**, nested elements are not simple content: a start tag inside is an error. -/
theorem C04_nested_element_rejected (env : Env H E) (num : Str → Option Str) (bad : E)
    (parse : H → Str → Except E V) (h : H) (t t' : Tag) (pieces : List Event) (c : Str)
    (hp : ∀ e ∈ pieces, e.isLeaf = true) (hc : charContent num pieces = some c)
    (rest : List Event) :
    (Drv.run env (contentDeser num bad parse) { helper := h }
        (.start t :: pieces ++ .start t' :: rest)).verdict
      = .error (env.unexpected (.start t')) := by
  have key : ∀ (pieces : List Event) (h : H) (data c : Str),
      (∀ e ∈ pieces, e.isLeaf = true) → charContent num pieces = some c →
      (Drv.run env (contentDeser num bad parse) { helper := h, deser := some data }
        (pieces ++ .start t' :: rest)).verdict = .error (env.unexpected (.start t')) := by
    intro pieces
    induction pieces with
    | nil => intro h data c _ _; rfl
    | cons e es ih =>
      intro h data c hp hc
      have he := hp e (by simp)
      simp only [charContent] at hc
      cases ht : pieceText num e with
      | none => rw [ht] at hc; simp at hc
      | some t1 =>
        cases hes : charContent num es with
        | none => rw [ht, hes] at hc; simp at hc
        | some c1 =>
          rw [List.cons_append, content_step env num bad parse h data t1 e _ he ht]
          exact ih _ _ c1 (fun e' h' => hp e' (by simp [h'])) hes
  exact key pieces (env.track h (.start t)) [] c hp hc

/-- The content deserializer gives up at the end of the file (hypothesis of C03). -/
theorem contentDeser_endsAtEof (num : Str → Option Str) (bad : E)
    (parse : H → Str → Except E V) : EndsAtEof (contentDeser num bad parse) := by
  intro st h
  cases st with
  | none => exact Or.inr ⟨rfl, rfl⟩
  | some s => exact Or.inr ⟨rfl, rfl⟩

/-- **C03** for every simple type: truncated and empty documents are reported as an error. -/
theorem C03_simple_types_terminate (env : Env H E) (num : Str → Option Str) (bad : E)
    (parse : H → Str → Except E V) (h : H) (doc : List Event) :
    (Drv.run env (contentDeser num bad parse) { helper := h } (doc ++ [.eof])).decided = true :=
  C03_deserialize_terminates_partial env _ (contentDeser_endsAtEof num bad parse) _ doc

end

/-- Non-vacuity of C04: `<n> 1<!-- c -->&#49;<![CDATA[2 ]]></n>` is read as `112`. -/
example :
    let num : Str → Option Str := fun n => if n = ['#', '4', '9'] then some ['1'] else none
    (match (Drv.run (⟨fun h _ => h, fun _ => "unexpected"⟩ : Env Unit String)
        (contentDeser num "bad" fun _ s => .ok s) { helper := () }
        [.start ⟨['n'], []⟩, .text [' ', '1'], .comment [' ', 'c', ' '],
         .ref ['#', '4', '9'], .cdata ['2', ' '], .end_ ['n'], .eof]).verdict with
     | .value v rest => v == ['1', '1', '2'] && rest == [Event.eof]
     | _ => false) = true := by decide

/-! ## C16: escaping -/

theorem unescapeGo_char (num : Str → Option Str) (c : Char) (r : Str) (h : c ≠ '&') :
    unescapeGo num none (c :: r) = (unescapeGo num none r).map (c :: ·) := by
  rw [unescapeGo.eq_3, if_neg h]

theorem unescape_escapeChar (num : Str → Option Str) (c : Char) (r : Str) :
    unescapeGo num none (escapeChar c ++ r) = (unescapeGo num none r).map (c :: ·) := by
  unfold escapeChar
  split
  · next h => subst h; simp [unescapeGo, resolveRef, predefined]
  · split
    · next h => subst h; simp [unescapeGo, resolveRef, predefined]
    · split
      · next h => subst h; simp [unescapeGo, resolveRef, predefined]
      · split
        · next h => subst h; simp [unescapeGo, resolveRef, predefined]
        · split
          · next h => subst h; simp [unescapeGo, resolveRef, predefined]
          · next h1 _ => exact unescapeGo_char num c r h1

theorem unescape_escape (num : Str → Option Str) (s : Str) :
    unescape num (escape s) = some s := by
  unfold unescape escape
  induction s with
  | nil => rfl
  | cons c s ih =>
    rw [List.flatMap_cons, unescape_escapeChar, ih]
    rfl

theorem mem_escapeChar {c x : Char} (h : x ∈ escapeChar c) : x ≠ '<' ∧ x ≠ '>' ∧ x ≠ '"' := by
  unfold escapeChar at h
  repeat' split at h
  all_goals first
    | (simp at h
       subst h
       refine ⟨by assumption, by assumption, by assumption⟩)
    | (simp at h
       rcases h with h | h | h | h | h | h <;> subst h <;> decide)
    | (simp at h
       rcases h with h | h | h | h | h <;> subst h <;> decide)
    | (simp at h
       rcases h with h | h | h | h <;> subst h <;> decide)

/-- **C16**, escaped text contains no markup: no `<`, no `>` (hence no `]]>`) and no quote. -/
theorem C16_no_markup (s : Str) : ∀ x ∈ escape s, x ≠ '<' ∧ x ≠ '>' ∧ x ≠ '"' := by
  intro x hx
  simp only [escape, List.mem_flatMap] at hx
  obtain ⟨c, _, hc⟩ := hx
  exact mem_escapeChar hc

/-- A reference without `&` and `;` inside is unescaped to its value. -/
theorem unescape_ref (num : Str → Option Str) (n acc : Str)
    (h1 : ∀ c ∈ n, c ≠ ';' ∧ c ≠ '&') (r : Str) :
    unescapeGo num (some acc) (n ++ ';' :: r)
      = (match resolveRef num (acc.reverse ++ n) with
         | none => none
         | some s => (unescapeGo num none r).map (s ++ ·)) := by
  induction n generalizing acc with
  | nil => simp [unescapeGo]
  | cons c n ih =>
    obtain ⟨hc1, hc2⟩ := h1 c (by simp)
    simp only [List.cons_append, unescapeGo]
    rw [if_neg hc1, if_neg hc2, ih _ (fun x hx => h1 x (by simp [hx]))]
    simp

/-- Reading the chunks of raw text gives the same characters as unescaping it at once. -/
theorem charContent_chunksGo (num : Str → Option Str) (raw : Str) :
    (∀ cur evs, (∀ c ∈ cur, c ≠ '&') → chunksGo cur none raw = some evs →
      charContent num evs = (unescapeGo num none raw).map (cur.reverse ++ ·)) ∧
    (∀ n evs, (∀ c ∈ n, c ≠ ';' ∧ c ≠ '&') → chunksGo [] (some n) raw = some evs →
      charContent num evs = unescapeGo num (some n) raw) := by
  have plain : ∀ (s : Str), (∀ c ∈ s, c ≠ '&') → ∀ r,
      unescapeGo num none (s ++ r) = (unescapeGo num none r).map (s ++ ·) := by
    intro s
    induction s with
    | nil => intro _ r; simp
    | cons c s ih =>
      intro hs r
      rw [List.cons_append, unescapeGo_char num c _ (hs c (by simp)),
        ih (fun x hx => hs x (by simp [hx]))]
      cases unescapeGo num none r <;> simp
  have flush : ∀ (cur : Str) (evs : List Event), (∀ c ∈ cur, c ≠ '&') →
      charContent num (flushText cur evs) = (charContent num evs).map (cur.reverse ++ ·) := by
    intro cur evs hcur
    cases cur with
    | nil => cases h : charContent num evs <;> simp [flushText, h]
    | cons c cur =>
      have h1 := plain (c :: cur).reverse (fun x hx => hcur x (List.mem_reverse.mp hx)) []
      simp only [List.append_nil, unescapeGo, Option.map_some] at h1
      simp only [flushText, charContent, pieceText, unescape, h1]
      cases charContent num evs <;> simp
  induction raw with
  | nil =>
    constructor
    · intro cur evs hcur h
      simp only [chunksGo, Option.some.injEq] at h
      subst h
      rw [flush cur [] hcur]
      simp [charContent, unescapeGo]
    · intro n evs _ h
      simp [chunksGo] at h
  | cons c r ih =>
    obtain ⟨ih1, ih2⟩ := ih
    constructor
    · intro cur evs hcur h
      simp only [chunksGo] at h
      by_cases hc : c = '&'
      · rw [if_pos hc] at h
        cases he : chunksGo [] (some []) r with
        | none => rw [he] at h; cases h
        | some evs' =>
          rw [he] at h
          simp only [Option.map_some, Option.some.injEq] at h
          subst h
          rw [flush cur evs' hcur, ih2 [] evs' (by simp) he]
          simp [unescapeGo, hc]
      · rw [if_neg hc] at h
        rw [ih1 (c :: cur) evs (by intro x hx; rcases List.mem_cons.mp hx with rfl | hx
                                   · exact hc
                                   · exact hcur x hx) h, unescapeGo_char num c r hc]
        cases unescapeGo num none r <;> simp
    · intro n evs hn h
      simp only [chunksGo] at h
      by_cases hc : c = ';'
      · rw [if_pos hc] at h
        cases he : chunksGo [] none r with
        | none => rw [he] at h; cases h
        | some evs' =>
          rw [he] at h
          simp only [Option.map_some, Option.some.injEq] at h
          subst h
          have h1 := ih1 [] evs' (by simp) he
          have h2 := unescape_ref num n.reverse [] (fun x hx => hn x (by simpa using hx)) []
          simp only [charContent, pieceText, unescape, List.cons_append, List.nil_append,
            unescapeGo, if_true, h2, hc, List.reverse_nil] at h1 ⊢
          rw [h1]
          cases resolveRef num n.reverse with
          | none => rfl
          | some s => cases unescapeGo num none r <;> simp
      · rw [if_neg hc] at h
        by_cases hc' : c = '&'
        · rw [if_pos hc'] at h; cases h
        · rw [if_neg hc'] at h
          rw [ih2 (c :: n) evs (by intro x hx; rcases List.mem_cons.mp hx with rfl | hx
                                   · exact ⟨hc, hc'⟩
                                   · exact hn x hx) h]
          simp only [unescapeGo]
          rw [if_neg hc, if_neg hc']

/-- Raw text that can be unescaped is accepted by the reader. -/
theorem chunksGo_some (num : Str → Option Str) (raw : Str) :
    (∀ cur, (unescapeGo num none raw).isSome = true → (chunksGo cur none raw).isSome = true) ∧
    (∀ n, (unescapeGo num (some n) raw).isSome = true →
      (chunksGo [] (some n) raw).isSome = true) := by
  induction raw with
  | nil => exact ⟨fun _ _ => rfl, fun n h => by simp [unescapeGo] at h⟩
  | cons c r ih =>
    obtain ⟨ih1, ih2⟩ := ih
    constructor
    · intro cur h
      simp only [chunksGo]
      by_cases hc : c = '&'
      · rw [if_pos hc]
        have : (unescapeGo num (some []) r).isSome = true := by simpa [unescapeGo, hc] using h
        simpa using ih2 [] this
      · rw [if_neg hc]
        rw [unescapeGo_char num c r hc] at h
        exact ih1 _ (by simpa using h)
    · intro n h
      simp only [chunksGo]
      simp only [unescapeGo] at h
      by_cases hc : c = ';'
      · rw [if_pos hc] at h ⊢
        cases hr : resolveRef num n.reverse with
        | none => rw [hr] at h; cases h
        | some s =>
          rw [hr] at h
          simpa using ih1 [] (by simpa using h)
      · rw [if_neg hc] at h ⊢
        by_cases hc' : c = '&'
        · rw [if_pos hc'] at h; cases h
        · rw [if_neg hc'] at h ⊢
          exact ih2 _ h

/-! ## `ContentSerializer` -/

/-- States of `ContentSerializer`, serialize.rs:286-299. The value is given by the result of
its `serialize_bytes`: `none` (nothing to write) or its text. -/
inductive ContentSer where
  | begin (name : Option Str) (value : Option Str)
  | data (name : Option Str) (txt : Str)
  | end_ (name : Str)
  | done
deriving Repr

/-- `str::contains("]]>")`. -/
def hasCdataEnd : Str → Bool
  | [] => false
  | c :: r => (c == ']' && (r.take 2 == [']', '>'])) || hasCdataEnd r

/-- State `Data`, serialize.rs:346-356 and `End`, 358; `continue` is one more step. -/
def ContentSer.nextData (name : Option Str) (txt : Str) : Option Event × ContentSer :=
  if txt = [] then
    match name with
    | some n => (some (.end_ n), .done)
    | none => (none, .done)
  else
    match name with
    | some n => (some (.text (escape txt)), .end_ n)
    | none => (some (.text (escape txt)), .done)

/-- `ContentSerializer::next`, serialize.rs:326-362: the next event (`none` at the end,
`some none` for an error) and the new state. -/
def ContentSer.next : ContentSer → Option (Option Event) × ContentSer
  | .begin name none => (name.map fun n => some (.empty ⟨n, []⟩), .done)
  | .begin name (some txt) =>
    if hasCdataEnd txt then (some none, .done)
    else
      match name with
      | some n => (some (some (.start ⟨n, []⟩)), .data name txt)
      | none => ((ContentSer.nextData none txt).1.map some, (ContentSer.nextData none txt).2)
  | .data name txt =>
    ((ContentSer.nextData name txt).1.map some, (ContentSer.nextData name txt).2)
  | .end_ n => (some (some (.end_ n)), .done)
  | .done => (none, .done)

/-- The events a serializer state emits until it reports its end; `none` on an error. Every
state is left after at most one step, so four steps are enough. -/
def ContentSer.collect : Nat → ContentSer → Option (List Event)
  | 0, _ => some []
  | k + 1, s =>
    match s.next with
    | (none, _) => some []
    | (some none, _) => none
    | (some (some e), s') => (collect k s').map (e :: ·)

/-- The events written for the text `s` as content of the element `n`. -/
def writeContent (n s : Str) : Option (List Event) :=
  ContentSer.collect 4 (.begin (some n) (some s))

theorem collect_complete (k : Nat) (s : ContentSer) :
    ContentSer.collect (4 + k) s = ContentSer.collect 4 s := by
  have hd : ∀ k, ContentSer.collect k .done = some [] := by intro k; cases k <;> rfl
  have he : ∀ k n, ContentSer.collect (k + 1) (.end_ n) = some [.end_ n] := by
    intro k n; simp [ContentSer.collect, ContentSer.next, hd]
  have hdata : ∀ k name data, ContentSer.collect (k + 2) (.data name data)
      = ContentSer.collect 2 (.data name data) := by
    intro k name data
    cases name with
    | none =>
      by_cases h : data = [] <;>
        simp [ContentSer.collect, ContentSer.next, ContentSer.nextData, h, hd]
    | some n =>
      by_cases h : data = [] <;>
        simp [ContentSer.collect, ContentSer.next, ContentSer.nextData, h, hd]
  rw [Nat.add_comm]
  cases s with
  | done => simp [hd]
  | end_ n => rw [he (k + 3), he 3]
  | data name data => rw [hdata (k + 2), hdata 2]
  | begin name value =>
    cases value with
    | none => cases name <;> simp [ContentSer.collect, ContentSer.next, hd]
    | some data =>
      by_cases h : hasCdataEnd data = true
      · simp [ContentSer.collect, ContentSer.next, h]
      · cases name with
        | none =>
          by_cases h' : data = []
          · subst h'; simp [ContentSer.collect, ContentSer.next, ContentSer.nextData, hasCdataEnd]
          · simp [ContentSer.collect, ContentSer.next, ContentSer.nextData, h, h', hd]
        | some n =>
          have h1 : ContentSer.collect (k + 4) (.begin (some n) (some data))
              = (ContentSer.collect (k + 3) (.data (some n) data)).map (.start ⟨n, []⟩ :: ·) := by
            conv => lhs; rw [show k + 4 = (k + 3) + 1 from rfl]
            simp only [ContentSer.collect, ContentSer.next, h, Bool.false_eq_true, if_false]
          have h2 : ContentSer.collect 4 (.begin (some n) (some data))
              = (ContentSer.collect 3 (.data (some n) data)).map (.start ⟨n, []⟩ :: ·) := by
            conv => lhs; rw [show 4 = 3 + 1 from rfl]
            simp only [ContentSer.collect, ContentSer.next, h, Bool.false_eq_true, if_false]
          rw [h1, h2, hdata (k + 1), hdata 1]

theorem writeContent_eq (n s : Str) :
    writeContent n s =
      if hasCdataEnd s then none
      else if s = [] then some [.start ⟨n, []⟩, .end_ n]
      else some [.start ⟨n, []⟩, .text (escape s), .end_ n] := by
  unfold writeContent
  by_cases h : hasCdataEnd s = true
  · simp [ContentSer.collect, ContentSer.next, h]
  · by_cases h' : s = []
    · subst h'; simp [ContentSer.collect, ContentSer.next, ContentSer.nextData, hasCdataEnd]
    · simp [ContentSer.collect, ContentSer.next, ContentSer.nextData, h, h']

/-- What a reader delivers for written events: raw text is cut into chunks, everything else
is read as it was written. -/
def reread : List Event → Option (List Event)
  | [] => some []
  | .text raw :: es =>
    match chunks raw, reread es with
    | some xs, some ys => some (xs ++ ys)
    | _, _ => none
  | e :: es => (reread es).map (e :: ·)

section
variable {H E V : Type}

theorem chunksGo_leaf (raw : Str) : ∀ cur pend evs, chunksGo cur pend raw = some evs →
    ∀ e ∈ evs, e.isLeaf = true := by
  have hf : ∀ cur evs, (∀ e ∈ evs, e.isLeaf = true) → ∀ e ∈ flushText cur evs, e.isLeaf = true := by
    intro cur evs h e he
    cases cur with
    | nil => exact h e he
    | cons c cur =>
      simp only [flushText, List.mem_cons] at he
      rcases he with rfl | he
      · rfl
      · exact h e he
  induction raw with
  | nil =>
    intro cur pend evs h
    cases pend with
    | none => simp only [chunksGo, Option.some.injEq] at h; subst h; exact hf cur [] (by simp)
    | some n => simp [chunksGo] at h
  | cons c r ih =>
    intro cur pend evs h
    cases pend with
    | none =>
      simp only [chunksGo] at h
      split at h
      · cases he : chunksGo [] (some []) r with
        | none => rw [he] at h; cases h
        | some evs' =>
          rw [he] at h; simp only [Option.map_some, Option.some.injEq] at h; subst h
          exact hf cur evs' (ih _ _ _ he)
      · exact ih _ _ _ h
    | some n =>
      simp only [chunksGo] at h
      split at h
      · cases he : chunksGo [] none r with
        | none => rw [he] at h; cases h
        | some evs' =>
          rw [he] at h; simp only [Option.map_some, Option.some.injEq] at h; subst h
          intro e hm
          rcases List.mem_cons.mp hm with rfl | hm
          · rfl
          · exact ih _ _ _ he e hm
      · split at h
        · cases h
        · exact ih _ _ _ h

/-- **C16.** Writing any text as element content either fails (exactly when it contains
`]]>`), or produces events which, read back through a reader and `ContentDeserializer`, hand
the type's parser exactly the original text with ASCII whitespace trimmed at both ends. -/
theorem C16_text_round_trip (env : Env H E) (num : Str → Option Str) (bad : E)
    (parse : Str → Except E V) (h : H) (n s : Str) (rest : List Event) :
    (writeContent n s = none ∧ hasCdataEnd s = true) ∨
    ∃ evs evs', writeContent n s = some evs ∧ reread evs = some evs' ∧
      (Drv.run env (contentDeser num bad fun _ => parse) { helper := h } (evs' ++ rest)).verdict
        = (match parse (trimAscii s) with
           | .ok v => .value v rest
           | .error e => .error e) := by
  by_cases hc : hasCdataEnd s = true
  · left; simp [writeContent_eq, hc]
  · right
    by_cases hs : s = []
    · subst hs
      refine ⟨[.start ⟨n, []⟩, .end_ n], [.start ⟨n, []⟩, .end_ n], ?_, rfl, ?_⟩
      · rw [writeContent_eq, if_neg hc, if_pos rfl]
      · have := C04_simple_content env num bad (fun _ => parse) h ⟨n, []⟩ [] (by simp) rest
        simpa [charContent] using this
    · have h1 : (chunks (escape s)).isSome = true :=
        (chunksGo_some num (escape s)).1 [] (by
          have := unescape_escape num s
          unfold unescape at this
          rw [this]; rfl)
      cases hch : chunks (escape s) with
      | none => rw [hch] at h1; cases h1
      | some evs =>
        refine ⟨[.start ⟨n, []⟩, .text (escape s), .end_ n],
          .start ⟨n, []⟩ :: (evs ++ [.end_ n]), ?_, ?_, ?_⟩
        · rw [writeContent_eq, if_neg hc, if_neg hs]
        · simp [reread, hch]
        · have hcc : charContent num evs = some s := by
            have := (charContent_chunksGo num (escape s)).1 [] evs (by simp) hch
            rw [this]
            have h2 := unescape_escape num s
            unfold unescape at h2
            rw [h2]; rfl
          have hleaf : ∀ e ∈ evs, e.isLeaf = true := chunksGo_leaf _ _ _ _ hch
          have := C04_simple_content env num bad (fun _ => parse) h ⟨n, []⟩ evs hleaf rest
          simpa [hcc] using this

/-- **C16**: if the text has no whitespace at its ends, it comes back unchanged. -/
theorem C16_trimmed_text_unchanged (s : Str)
    (h1 : ∀ c, s.head? = some c → isAsciiWs c = false)
    (h2 : ∀ c, s.getLast? = some c → isAsciiWs c = false) : trimAscii s = s := by
  have drop : ∀ l : Str, (∀ c, l.head? = some c → isAsciiWs c = false) →
      l.dropWhile isAsciiWs = l := by
    intro l hl
    cases l with
    | nil => rfl
    | cons c l => simp [List.dropWhile_cons, hl c rfl]
  unfold trimAscii
  rw [drop s h1, drop s.reverse (by intro c hc; rw [List.head?_reverse] at hc; exact h2 c hc),
    List.reverse_reverse]

/-- Attribute values: what `read_attrib` unescapes is what was escaped when the attribute was
written (quick-xml escapes in `push_attribute`), whitespace included. -/
theorem C16_attribute_round_trip (num : Str → Option Str) (s : Str) :
    unescape num (escape s) = some s := unescape_escape num s

end

/-- Non-vacuity of C16: a text with all markup characters, its written form and its chunks. -/
example :
    writeContent ['n'] ['<', 'a', '&', '>'] =
      some [.start ⟨['n'], []⟩,
        .text ['&', 'l', 't', ';', 'a', '&', 'a', 'm', 'p', ';', '&', 'g', 't', ';'],
        .end_ ['n']] ∧
    chunks (escape ['<', 'a', '&', '>']) =
      some [.ref ['l', 't'], .text ['a'], .ref ['a', 'm', 'p'], .ref ['g', 't']] ∧
    writeContent ['n'] [']', ']', '>'] = none := by
  refine ⟨by decide, by decide, by decide⟩

end Verif.Rt

/-!
# Identifier paths (C46)

Models `xsd-parser/src/models/code/ident_path.rs`. Identifiers (`proc_macro2::Ident`) are strings of characters; a token
stream of a path is a list of segments with a flag for a leading `::`.
-/
namespace Verif.Code

abbrev Ident := List Char

/-- `IdentPath`, ident_path.rs:26-30; `ModulePath`, 37. -/
structure IdentPath where
  path : Option (List Ident)
  ident : Ident
  isAbsolute : Bool
deriving DecidableEq, Repr

/-- One segment of a rendered path. -/
inductive Seg where
  | super
  | name (i : Ident)
deriving DecidableEq, Repr

/-- A rendered path: `leading` tells whether it starts with `::`. -/
structure Rendered where
  leading : Bool
  segs : List Seg
deriving DecidableEq, Repr

/-- The loop of `relative_to`, ident_path.rs:167-192. -/
def relLoop (ident : Ident) : List Ident → List Ident → List Seg
  | [], [] => [.name ident]
  | a :: src, [] => .name a :: relLoop ident src []
  | [], _ :: dst => .super :: relLoop ident [] dst
  | a :: src, b :: dst =>
    if a = b then relLoop ident src dst
    else .super :: (dst.map fun _ => Seg.super) ++ .name a :: src.map Seg.name ++ [.name ident]

/-- `IdentPath::relative_to`, ident_path.rs:137-193. -/
def IdentPath.relativeTo (p : IdentPath) (dst : List Ident) : Rendered :=
  match p.path with
  | none => ⟨false, [.name p.ident]⟩
  | some src =>
    if p.isAbsolute then ⟨true, src.map Seg.name ++ [.name p.ident]⟩
    else ⟨false, relLoop p.ident src dst⟩

/-- `ToTokens for IdentPath`, ident_path.rs:257-273. -/
def IdentPath.toTokens (p : IdentPath) : Rendered :=
  ⟨p.isAbsolute, (p.path.getD []).map Seg.name ++ [.name p.ident]⟩

/-- `Display for IdentPath`, ident_path.rs:245-255. -/
def IdentPath.display (p : IdentPath) : List Char :=
  ((p.path.getD []).flatMap fun m => m ++ [':', ':']) ++ p.ident

/-- `str::split("::")` (std): the pieces between non-overlapping occurrences, scanning from the left.
`cur` is the piece read so far. -/
def splitColons (cur : List Char) : List Char → List (List Char)
  | ':' :: ':' :: rest => cur :: splitColons [] rest
  | c :: rest => splitColons (cur ++ [c]) rest
  | [] => [cur]

/-- `char::is_whitespace` on ASCII. -/
def isWs (c : Char) : Bool := c = ' ' || c = '\t' || c = '\n' || c = '\r' || c = '\x0b' || c = '\x0c'

/-- `str::trim` (ASCII). -/
def trim (s : List Char) : List Char := ((s.dropWhile isWs).reverse.dropWhile isWs).reverse

/-- State of the loop of `from_str`: identifier so far, path, absolute flag. -/
structure ParseState where
  ident : Option Ident := none
  path : List Ident := []
  isAbsolute : Bool := false

/-- Body of the loop of `FromStr for IdentPath`, ident_path.rs:220-235. `format_ident!` (234) is assumed to accept the
part (it panics on texts that are not identifiers). -/
def parseStep (s : ParseState) (part : List Char) : ParseState :=
  let part := trim part
  if part.isEmpty then
    if s.path.isEmpty && s.ident.isNone then { s with isAbsolute := true } else s
  else
    let s := match s.ident with
      | some i => { s with path := s.path ++ [i], ident := none }
      | none => s
    { s with ident := some part }

/-- `FromStr for IdentPath`, ident_path.rs:212-243. -/
def fromStr (s : List Char) : Option IdentPath :=
  let st := (splitColons [] s).foldl parseStep {}
  st.ident.map fun i => ⟨some st.path, i, st.isAbsolute⟩

/-! ## Specification -/

/-- Resolving a relative path from inside module `m`: `super` leaves the innermost module, a name enters it.
The result is the full path of the denoted item. `none`: `super` used at the crate root. -/
def resolveFrom (m : List Ident) : List Seg → Option (List Ident)
  | [] => some m
  | .super :: segs => if m.isEmpty then none else resolveFrom m.dropLast segs
  | .name i :: segs => resolveFrom (m ++ [i]) segs

/-! ## Proofs -/

theorem resolve_names (m : List Ident) (l : List Ident) (rest : List Seg) :
    resolveFrom m (l.map Seg.name ++ rest) = resolveFrom (m ++ l) rest := by
  induction l generalizing m with
  | nil => simp
  | cons a l ih => simp [resolveFrom, ih]

theorem resolve_replicate (n : Nat) (m : List Ident) (rest : List Seg) (h : n ≤ m.length) :
    resolveFrom m (List.replicate n Seg.super ++ rest) = resolveFrom (m.take (m.length - n)) rest := by
  induction n generalizing m with
  | zero => simp
  | succ n ih =>
    have hm : m ≠ [] := by intro e; subst e; simp at h
    simp only [List.replicate_succ, List.cons_append, resolveFrom]
    rw [if_neg (by simpa using hm), ih _ (by simp; omega), List.dropLast_eq_take, List.take_take, List.length_take]
    congr 2
    omega

theorem resolve_supers (m d : List Ident) (rest : List Seg) :
    resolveFrom (m ++ d) ((d.map fun _ => Seg.super) ++ rest) = resolveFrom m rest := by
  rw [List.map_const', resolve_replicate _ _ _ (by simp)]
  simp

theorem relLoop_nil (i : Ident) (d : List Ident) :
    relLoop i [] d = (d.map fun _ => Seg.super) ++ [Seg.name i] := by
  induction d with
  | nil => simp [relLoop]
  | cons x d ih => simp [relLoop, ih]

theorem resolve_relLoop (i : Ident) (c src dst : List Ident) :
    resolveFrom (c ++ dst) (relLoop i src dst) = some (c ++ src ++ [i]) := by
  fun_induction relLoop i src dst generalizing c with
  | case1 => simp [resolveFrom]
  | case2 a src ih =>
    have := ih (c ++ [a])
    simp only [List.append_nil] at *
    simp [resolveFrom, this]
  | case3 b dst ih =>
    have h := resolve_supers c (b :: dst) [Seg.name i]
    have h2 : Seg.super :: relLoop i [] dst = ((b :: dst).map fun _ => Seg.super) ++ [Seg.name i] := by
      rw [relLoop_nil]; rfl
    rw [h2, h]
    simp [resolveFrom]
  | case4 src a dst ih =>
    have := ih (c ++ [a])
    simpa using this
  | case5 a src b dst h =>
    have h := resolve_supers c (b :: dst) ((a :: src).map Seg.name ++ [.name i])
    have e : (Seg.super :: (dst.map fun _ => Seg.super) ++ .name a :: src.map Seg.name ++ [.name i]) =
        (((b :: dst).map fun _ => Seg.super) ++ ((a :: src).map Seg.name ++ [.name i])) := by simp
    rw [e, h, resolve_names]
    simp [resolveFrom]

/-- C46: the relative path computed for an item with a known module, resolved from the module `dst` it was computed
for, denotes exactly that item. -/
theorem C46_relative_path_correct (path dst : List Ident) (ident : Ident) :
    let r := (IdentPath.mk (some path) ident false).relativeTo dst
    r.leading = false ∧ resolveFrom dst r.segs = some (path ++ [ident]) := by
  refine ⟨by simp [IdentPath.relativeTo], ?_⟩
  have := resolve_relLoop ident [] path dst
  simpa [IdentPath.relativeTo] using this

example : ((IdentPath.mk (some ["a".toList, "b".toList]) "T".toList false).relativeTo ["a".toList, "c".toList]).segs =
    [.super, .name "b".toList, .name "T".toList] := by simp [IdentPath.relativeTo, relLoop]

/-- C46: an absolute path is rendered with a leading `::` and does not depend on the current module. -/
theorem C46_absolute_path (path dst : List Ident) (ident : Ident) :
    (IdentPath.mk (some path) ident true).relativeTo dst = ⟨true, (path ++ [ident]).map Seg.name⟩ := by
  simp [IdentPath.relativeTo]

/-- C46: no path uses more `super`s than needed: a relative path to an item below the current module has none. -/
theorem C46_no_needless_super (dst rest : List Ident) (ident : Ident) :
    (IdentPath.mk (some (dst ++ rest)) ident false).relativeTo dst = ⟨false, (rest ++ [ident]).map Seg.name⟩ := by
  simp only [IdentPath.relativeTo, Bool.false_eq_true, if_false, Rendered.mk.injEq, true_and]
  induction dst with
  | nil =>
    induction rest with
    | nil => simp [relLoop]
    | cons a r ih =>
      simp only [List.nil_append] at ih
      simp [relLoop, ih]
  | cons a d ih => simp [relLoop, ih]

/-- A text that can be an identifier as far as splitting and trimming are concerned. -/
def PlainIdent (i : Ident) : Prop := i ≠ [] ∧ ∀ c ∈ i, c ≠ ':' ∧ isWs c = false

theorem split_plain (cur i : List Char) (hi : ∀ c ∈ i, c ≠ ':') : splitColons cur i = [cur ++ i] := by
  induction i generalizing cur with
  | nil => simp [splitColons]
  | cons c i ih =>
    have hc := hi c (by simp)
    have hn : ∀ rest, c :: i ≠ ':' :: ':' :: rest := by
      intro rest h; injection h with h _; exact hc h
    rw [splitColons.eq_2]
    · rw [ih _ (fun d hd => hi d (by simp [hd]))]; simp
    · intro rest h1 h2; exact hc h1

theorem split_sep (cur i rest : List Char) (hi : ∀ c ∈ i, c ≠ ':') :
    splitColons cur (i ++ ':' :: ':' :: rest) = (cur ++ i) :: splitColons [] rest := by
  induction i generalizing cur with
  | nil => simp [splitColons]
  | cons c i ih =>
    have hc := hi c (by simp)
    rw [List.cons_append, splitColons.eq_2]
    · rw [ih _ (fun d hd => hi d (by simp [hd]))]; simp
    · intro r h1 h2; exact hc h1

theorem split_display (p : List Ident) (i : Ident) (hp : ∀ m ∈ p, PlainIdent m) (hi : PlainIdent i) :
    splitColons [] ((p.flatMap fun m => m ++ [':', ':']) ++ i) = p ++ [i] := by
  induction p with
  | nil => simpa using split_plain [] i (fun c hc => (hi.2 c hc).1)
  | cons m p ih =>
    have := split_sep [] m ((p.flatMap fun m => m ++ [':', ':']) ++ i)
      (fun c hc => ((hp m (by simp)).2 c hc).1)
    simp only [List.flatMap_cons, List.append_assoc, List.cons_append, List.nil_append] at *
    rw [this, ih (fun m' h => hp m' (by simp [h]))]

theorem dropWhile_none (l : List Char) (h : ∀ c ∈ l, isWs c = false) : l.dropWhile isWs = l := by
  cases l with
  | nil => rfl
  | cons c l => rw [List.dropWhile_cons_of_neg]; simp [h c (by simp)]

theorem trim_plain (i : Ident) (h : PlainIdent i) : trim i = i := by
  unfold trim
  rw [dropWhile_none i (fun c hc => (h.2 c hc).2), dropWhile_none, List.reverse_reverse]
  intro c hc
  exact (h.2 c (by simpa using hc)).2

theorem parse_fold (p : List Ident) (i : Ident) (hp : ∀ m ∈ p, PlainIdent m) (hi : PlainIdent i)
    (pre : List Ident) (o : Option Ident) (abs : Bool) :
    (p ++ [i]).foldl parseStep ⟨o, pre, abs⟩ = ⟨some i, pre ++ o.toList ++ p, abs⟩ := by
  induction p generalizing pre o with
  | nil =>
    have : i.isEmpty = false := by simp [List.isEmpty_iff, hi.1]
    cases o <;> simp [parseStep, trim_plain i hi, this]
  | cons m p ih =>
    have hm := hp m (by simp)
    have : m.isEmpty = false := by simp [List.isEmpty_iff, hm.1]
    rw [List.cons_append, List.foldl_cons]
    have hs : parseStep ⟨o, pre, abs⟩ m = ⟨some m, pre ++ o.toList, abs⟩ := by
      cases o <;> simp [parseStep, trim_plain m hm, this]
    rw [hs, ih (fun m' h => hp m' (by simp [h]))]
    simp

/-- C46: parsing a printed relative path gives back the module path and the identifier. Only the difference between
"no module path" and "empty module path" is lost. -/
theorem C46_display_parse_partial (path : Option (List Ident)) (ident : Ident)
    (hp : ∀ m ∈ path.getD [], PlainIdent m) (hi : PlainIdent ident) :
    fromStr (IdentPath.mk path ident false).display = some ⟨some (path.getD []), ident, false⟩ := by
  unfold fromStr IdentPath.display
  simp only
  rw [split_display _ _ hp hi, parse_fold _ _ hp hi]
  simp

example : ∀ m ∈ (some ["std".toList, "str".toList]).getD [], PlainIdent m := by
  intro m hm
  have : m = "std".toList ∨ m = "str".toList := by simpa using hm
  rcases this with rfl | rfl <;> exact ⟨by decide, by decide⟩

/-- C46: a text starting with `::` parses to an absolute path. -/
theorem C46_parse_absolute (p : List Ident) (i : Ident) (hp : ∀ m ∈ p, PlainIdent m) (hi : PlainIdent i) :
    fromStr ([':', ':'] ++ ((p.flatMap fun m => m ++ [':', ':']) ++ i)) = some ⟨some p, i, true⟩ := by
  unfold fromStr
  simp only [List.cons_append, List.nil_append, splitColons]
  rw [split_display _ _ hp hi, List.foldl_cons]
  have : parseStep {} [] = ⟨none, [], true⟩ := by simp [parseStep, trim]
  rw [this, parse_fold _ _ hp hi]
  simp

theorem trim_eq_nil (s : List Char) : trim s = [] ↔ ∀ c ∈ s, isWs c = true := by
  unfold trim
  have hd : ∀ l : List Char, l.dropWhile isWs = [] ↔ ∀ c ∈ l, isWs c = true := by
    intro l
    induction l with
    | nil => simp
    | cons x l ih =>
      rw [List.dropWhile_cons]
      by_cases hx : isWs x = true
      · simp [hx, ih]
      · simp [hx]
  rw [List.reverse_eq_nil_iff, hd]
  constructor
  · intro h c hc
    by_cases hw : isWs c = true
    · exact hw
    · have : ∀ (s : List Char), c ∈ s → c ∈ s.dropWhile isWs := by
        intro s
        induction s with
        | nil => intro h; cases h
        | cons x s ih =>
          intro hm
          rw [List.dropWhile_cons]
          split
          · rename_i hx
            rcases List.mem_cons.mp hm with rfl | hm
            · exact absurd hx hw
            · exact ih hm
          · exact hm
      exact h c (by simpa using this s hc)
  · intro h c hc
    exact h c ((List.dropWhile_sublist _).subset (by simpa using hc))

/-- Pieces after the first: the absolute flag only changes while nothing but empty pieces was read. -/
theorem parse_flag (ps : List (List Char)) (st : ParseState) (h : st.isAbsolute = true ∨ st.ident.isSome = true) :
    (ps.foldl parseStep st).isAbsolute = st.isAbsolute := by
  induction ps generalizing st with
  | nil => rfl
  | cons p ps ih =>
    rw [List.foldl_cons]
    have hs : (parseStep st p).isAbsolute = st.isAbsolute ∧
        ((parseStep st p).isAbsolute = true ∨ (parseStep st p).ident.isSome = true) := by
      unfold parseStep
      by_cases hp : (trim p).isEmpty = true
      · simp only [hp, if_true]
        by_cases hc : (st.path.isEmpty && st.ident.isNone) = true
        · rw [if_pos hc]
          simp only [Bool.and_eq_true, Option.isNone_iff_eq_none] at hc
          rcases h with h | h
          · exact ⟨h.symm, .inl rfl⟩
          · simp [hc.2] at h
        · rw [if_neg hc]; exact ⟨rfl, h⟩
      · simp only [hp]
        cases st.ident <;> simp
    rw [ih _ hs.2, hs.1]

theorem splitColons_head (s cur : List Char) :
    ∃ w ps, splitColons cur s = (cur ++ w) :: ps ∧
      ((ps = [] ∧ s = w) ∨ ∃ rest, s = w ++ ':' :: ':' :: rest) ∧
      ∀ w' rest, s = w' ++ ':' :: ':' :: rest → ps ≠ [] ∧ w.length ≤ w'.length := by
  fun_induction splitColons cur s with
  | case1 cur rest ih =>
    obtain ⟨w, ps, h, _⟩ := ih
    exact ⟨[], splitColons [] rest, by simp, .inr ⟨rest, rfl⟩, fun w' r _ => ⟨by rw [h]; simp, by simp⟩⟩
  | case2 cur c rest hne ih =>
    obtain ⟨w, ps, h1, h2, h3⟩ := ih
    refine ⟨c :: w, ps, by simp [h1], ?_, ?_⟩
    · rcases h2 with ⟨e1, e2⟩ | ⟨r, e⟩
      · exact .inl ⟨e1, by rw [e2]⟩
      · exact .inr ⟨r, by rw [e]; rfl⟩
    · intro w' r e
      cases w' with
      | nil =>
        simp only [List.nil_append, List.cons.injEq] at e
        exact absurd e.2 (hne _ e.1)
      | cons x w' =>
        simp only [List.cons_append, List.cons.injEq] at e
        obtain ⟨q1, q2⟩ := h3 w' r e.2
        exact ⟨q1, by simpa using q2⟩
  | case3 cur => exact ⟨[], [], by simp, .inl ⟨rfl, rfl⟩, fun w' r e => by simp at e⟩

/-- C46: a parsed path is absolute exactly if its text starts with `::`, up to leading blanks. -/
theorem C46_parse_absolute_iff (s : List Char) (p : IdentPath) (h : fromStr s = some p) :
    p.isAbsolute = true ↔ ∃ w rest, s = w ++ ':' :: ':' :: rest ∧ ∀ c ∈ w, isWs c = true := by
  unfold fromStr at h
  obtain ⟨w, ps, h1, h2, h3⟩ := splitColons_head s []
  rw [List.nil_append] at h1
  simp only [h1, List.foldl_cons, Option.map_eq_some_iff] at h
  obtain ⟨i, hi, rfl⟩ := h
  simp only
  by_cases hw : trim w = []
  · have hst : parseStep {} w = ⟨none, [], true⟩ := by simp [parseStep, hw]
    rw [hst] at hi ⊢
    rw [parse_flag _ _ (.inl rfl)]
    simp only [true_iff]
    rcases h2 with ⟨rfl, rfl⟩ | ⟨r, e⟩
    · simp at hi
    · exact ⟨w, r, e, (trim_eq_nil w).mp hw⟩
  · have hst : parseStep {} w = ⟨some (trim w), [], false⟩ := by simp [parseStep, hw]
    rw [hst, parse_flag _ _ (.inr rfl)]
    simp only [Bool.false_eq_true, false_iff]
    rintro ⟨w', r, e, hws⟩
    have hl := (h3 w' r e).2
    apply hw
    rw [trim_eq_nil]
    intro c hc
    apply hws
    have : w <+: s := by
      rcases h2 with ⟨_, rfl⟩ | ⟨r, e⟩
      · exact List.prefix_refl _
      · exact ⟨_, e.symm⟩
    have hp : w <+: w' := List.prefix_of_prefix_length_le this ⟨_, e.symm⟩ hl
    exact hp.subset hc

example : (fromStr "a:: ::B".toList).map (·.isAbsolute) = some false ∧
    (fromStr " ::a::B".toList).map (·.isAbsolute) = some true := by decide

/-- Finding: printing (`Display`) drops the leading `::`, so an absolute path does not survive print-and-parse. -/
theorem C46_display_loses_absolute (path : List Ident) (ident : Ident)
    (hp : ∀ m ∈ path, PlainIdent m) (hi : PlainIdent ident) :
    fromStr (IdentPath.mk (some path) ident true).display ≠ some ⟨some path, ident, true⟩ := by
  have := C46_display_parse_partial (some path) ident (by simpa using hp) hi
  have e : (IdentPath.mk (some path) ident true).display = (IdentPath.mk (some path) ident false).display := rfl
  rw [e, this]
  simp

example : PlainIdent "Foo".toList := ⟨by decide, by decide⟩

end Verif.Code

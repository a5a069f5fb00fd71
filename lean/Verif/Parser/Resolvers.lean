import Verif.Parser.Loading

/-!
# Combining resolvers (C76)

xsd-parser/src/pipeline/parser/resolver/: a `Resolver` is asked for the document behind a
reference and answers with the document, with "not mine" (`Ok(None)`) or with an error.
`ManyResolver` asks a list of resolvers in turn. Resolvers may change their own state when they
are asked; a history of questions is a list of requests.
-/

namespace Verif.Parser

open Verif.Models

/-- The answer of a resolver: name, location and content, mod.rs:56-57. -/
structure Found (B : Type) where
  name : Option Txt
  loc : Txt
  content : B
deriving DecidableEq, Repr

/-- `Result<Option<..>, Error>`, mod.rs:56-57. -/
inductive Answer (E B : Type) where
  | found (f : Found B)
  | notMine
  | error (e : E)
deriving DecidableEq, Repr

/-- The trait `Resolver`, mod.rs:27-51, of a resolver with states `S`. The errors are those of
`anyhow`, into which `MappedResolver` (many_resolver.rs:57-75) turns them unchanged. -/
abbrev Resolve (S E B : Type) := S → Req → Answer E B × S

section
variable {S E B : Type}

/-- A resolver together with its state: `Box<dyn Resolver>`. -/
structure Boxed (S E B : Type) where
  resolve : Resolve S E B
  st : S

/-- `ManyResolver::add_resolver`, many_resolver.rs:28-40. -/
def addResolver (rs : List (Boxed S E B)) (r : Boxed S E B) : List (Boxed S E B) := rs ++ [r]

/-- `Resolver for ManyResolver`, many_resolver.rs:42-55: the answer and the resolvers with their
new states. -/
def manyResolve : List (Boxed S E B) → Req → Answer E B × List (Boxed S E B)
  | [], _ => (.notMine, [])
  | r :: rs, req =>
    match r.resolve r.st req with
    | (.found f, s) => (.found f, { r with st := s } :: rs)
    | (.error e, s) => (.error e, { r with st := s } :: rs)
    | (.notMine, s) =>
      ((manyResolve rs req).1, { r with st := s } :: (manyResolve rs req).2)

/-- A history of requests: the answers, and the resolvers afterwards. -/
def manyHistory (rs : List (Boxed S E B)) : List Req → List (Answer E B) × List (Boxed S E B)
  | [] => ([], rs)
  | req :: reqs =>
    ((manyResolve rs req).1 :: (manyHistory (manyResolve rs req).2 reqs).1,
      (manyHistory (manyResolve rs req).2 reqs).2)

/-! ## Specification -/

/-- The resolver in state `s` declines the request and is then in state `s'`. -/
def Declines (r : Boxed S E B) (req : Req) (r' : Boxed S E B) : Prop :=
  r.resolve r.st req = (.notMine, r'.st) ∧ r'.resolve = r.resolve

/-- Pointwise relation of two lists of the same length. -/
inductive AllDecline (req : Req) : List (Boxed S E B) → List (Boxed S E B) → Prop
  | nil : AllDecline req [] []
  | cons {r r' rs rs'} (h : Declines r req r') (hs : AllDecline req rs rs') :
      AllDecline req (r :: rs) (r' :: rs')

/-- **Specification**: the answer to `req` is that of the first resolver that does not decline;
those before it were asked once and have declined; those after it were not asked. If all
decline, so does the combination. -/
inductive FirstAnswers (req : Req) :
    List (Boxed S E B) → Answer E B → List (Boxed S E B) → Prop
  | none {rs rs'} (h : AllDecline req rs rs') : FirstAnswers req rs .notMine rs'
  | some {rs rs' r a s rest} (h : AllDecline req rs rs') (hr : r.resolve r.st req = (a, s))
      (ha : a ≠ .notMine) :
      FirstAnswers req (rs ++ r :: rest) a (rs' ++ ⟨r.resolve, s⟩ :: rest)

/-- **C76.** For every list of resolvers in any state and every request, the combination behaves
as the first resolver that does not decline. -/
theorem C76_first_answer (rs : List (Boxed S E B)) (req : Req) (a : Answer E B)
    (rs' : List (Boxed S E B)) :
    manyResolve rs req = (a, rs') ↔ FirstAnswers req rs a rs' := by
  constructor
  · induction rs generalizing rs' with
    | nil =>
      intro h
      simp only [manyResolve, Prod.mk.injEq] at h
      obtain ⟨rfl, rfl⟩ := h
      exact .none .nil
    | cons r rs ih =>
      intro h
      unfold manyResolve at h
      split at h
      · next f s hr =>
        simp only [Prod.mk.injEq] at h
        obtain ⟨rfl, rfl⟩ := h
        exact FirstAnswers.some (rs := []) (rs' := []) .nil hr (by simp)
      · next e s hr =>
        simp only [Prod.mk.injEq] at h
        obtain ⟨rfl, rfl⟩ := h
        exact FirstAnswers.some (rs := []) (rs' := []) .nil hr (by simp)
      · next s hr =>
        simp only [Prod.mk.injEq] at h
        obtain ⟨rfl, rfl⟩ := h
        have hd : Declines r req { r with st := s } := ⟨hr, rfl⟩
        have h2 := ih (manyResolve rs req).2
        generalize hm : manyResolve rs req = m at h2 ⊢
        obtain ⟨a, rs2⟩ := m
        simp only [forall_const] at h2
        generalize hx : rs = xs at h2
        cases h2 with
        | none hs => subst hx; exact .none (.cons hd hs)
        | some hs hr2 ha => exact FirstAnswers.some (.cons hd hs) hr2 ha
  · intro h
    cases h with
    | none hs =>
      induction hs with
      | nil => rfl
      | cons hd _ ih =>
        rename_i r r' _ _ _
        unfold manyResolve
        rw [hd.1]
        simp only [ih]
        obtain ⟨res, st⟩ := r'
        have := hd.2
        simp only at this
        subst this
        rfl
    | @some rs rs' r a s rest hs hr ha =>
      induction hs with
      | nil =>
        simp only [List.nil_append, manyResolve]
        rw [hr]
        cases a with
        | found f => rfl
        | error e => rfl
        | notMine => exact absurd rfl ha
      | cons hd _ ih =>
        rename_i q q' _ _ _
        simp only [List.cons_append]
        unfold manyResolve
        rw [hd.1]
        simp only [ih]
        obtain ⟨res, st⟩ := q'
        have := hd.2
        simp only at this
        subst this
        rfl

/-- Resolvers keep their identity over every history: asking never adds, drops or reorders
them, so later requests are answered by the same list. -/
theorem C76_order_kept (rs : List (Boxed S E B)) (reqs : List Req) :
    (manyHistory rs reqs).2.map (·.resolve) = rs.map (·.resolve) := by
  have one : ∀ (rs : List (Boxed S E B)) (req : Req),
      (manyResolve rs req).2.map (·.resolve) = rs.map (·.resolve) := by
    intro rs req
    induction rs with
    | nil => rfl
    | cons r rs ih =>
      unfold manyResolve
      split <;> simp [ih]
  induction reqs generalizing rs with
  | nil => rfl
  | cons req reqs ih => simp only [manyHistory]; rw [ih, one]

/-- A resolver added later is asked only for what all the earlier ones decline: adding it changes
no answer that was found or failed before. -/
theorem C76_added_last (rs : List (Boxed S E B)) (r : Boxed S E B) (req : Req)
    (h : (manyResolve rs req).1 ≠ .notMine) :
    (manyResolve (addResolver rs r) req).1 = (manyResolve rs req).1 := by
  induction rs with
  | nil => exact absurd rfl h
  | cons q rs ih =>
    unfold manyResolve at h ⊢
    simp only [addResolver, List.cons_append]
    cases hq : q.resolve q.st req with
    | mk a s =>
      rw [hq] at h
      cases a with
      | found f => rfl
      | error e => rfl
      | notMine => exact ih h

end

/-! ## The file resolver -/

/-- The URL and file functions of the operating system and the crate `url`, external: joining a
reference to a base, parsing a reference without base, the path of a `file:` URL (its
segments), and opening a file (its content or an error). -/
structure Files (E B : Type) where
  join : Txt → Txt → Option Txt
  parse : Txt → Option Txt
  path : Txt → Option (List Txt)
  open_ : List Txt → Except E B

/-- `strip_name_ext`, resolver/mod.rs:138-146: `.xml`, else `.xsd`, is removed at the end. -/
def stripNameExt (s : Txt) : Txt :=
  let ext (e : List Char) : Option Txt :=
    if e.isSuffixOf s then some (s.take (s.length - e.length)) else none
  match ext ['.', 'x', 'm', 'l'] with
  | some s => s
  | none =>
    match ext ['.', 'x', 's', 'd'] with
    | some s => s
    | none => s

/-- `Resolver for FileResolver`, file_resolver.rs:22-52. (File names are valid UTF-8.) -/
def fileResolve {E B : Type} (F : Files E B) (req : Req) : Answer E B :=
  match (match req.cur with | some c => F.join c req.loc | none => F.parse req.loc) with
  | none => .notMine
  | some url =>
    match F.path url with
    | none => .notMine
    | some path =>
      match F.open_ path with
      | .error e => .error e
      | .ok b => .found ⟨(path.getLast?).map stripNameExt, url, b⟩

/-- `Resolver for NoOpResolver`, noop_resolver.rs:20-30. -/
def noopResolve {E B : Type} (notFound : Req → E) (req : Req) : Answer E B :=
  .error (notFound req)

/-- Stateless resolvers in a box. -/
def stateless {S E B : Type} (f : Req → Answer E B) (s : S) : Boxed S E B :=
  ⟨fun s req => (f req, s), s⟩

/-- **C76 (names).** The name of a schema is that of its file without the extension `.xml` or `.xsd`;
other file names are kept as they are. -/
theorem C76_schema_name (name : Txt) :
    stripNameExt (name ++ ".xml".toList) = name ∧ stripNameExt (name ++ ".xsd".toList) = name ∧
    ((∀ b, name ≠ b ++ ".xml".toList ∧ name ≠ b ++ ".xsd".toList) → stripNameExt name = name) := by
  refine ⟨?_, ?_, fun h => ?_⟩
  · simp [stripNameExt, List.isSuffixOf, List.isPrefixOf]
  · simp [stripNameExt, List.isSuffixOf, List.isPrefixOf]
  · have h1 : (['.', 'x', 'm', 'l'] : List Char).isSuffixOf name = false := by
      rw [Bool.eq_false_iff]
      intro hs
      obtain ⟨b, hb⟩ := List.isSuffixOf_iff_suffix.mp hs
      exact (h b).1 hb.symm
    have h2 : (['.', 'x', 's', 'd'] : List Char).isSuffixOf name = false := by
      rw [Bool.eq_false_iff]
      intro hs
      obtain ⟨b, hb⟩ := List.isSuffixOf_iff_suffix.mp hs
      exact (h b).2 hb.symm
    simp [stripNameExt, h1, h2]

example : stripNameExt "a.xsd".toList = "a".toList ∧ stripNameExt "xml".toList = "xml".toList := by decide +kernel

/-- **C76 (files).** The file resolver answers with the content of the file that the reference,
taken relative to the referring document, denotes, under its full location; it declines exactly
what does not denote a file. -/
theorem C76_file_resolver {E B : Type} (F : Files E B) (req : Req) :
    (∀ f, fileResolve F req = .found f ↔ ∃ path,
      (∃ c, req.cur = some c ∧ F.join c req.loc = some f.loc ∨
        req.cur = none ∧ F.parse req.loc = some f.loc) ∧
      F.path f.loc = some path ∧ F.open_ path = .ok f.content ∧
      f.name = path.getLast?.map stripNameExt) ∧
    (fileResolve F req = .notMine ↔ ∀ url,
      (match req.cur with | some c => F.join c req.loc | none => F.parse req.loc) = some url →
      F.path url = none) := by
  obtain ⟨loc, reqNs, cur, curNs, kind⟩ := req
  unfold fileResolve
  simp only
  cases cur with
  | none =>
    simp only
    cases hp : F.parse loc with
    | none => simp
    | some url =>
      simp only
      cases hq : F.path url with
      | none =>
        refine ⟨?_, by simp [hq]⟩
        rintro ⟨n, l, b⟩
        simp only [reduceCtorEq, false_and, exists_false, false_or, true_and, Option.some.injEq,
          false_iff, not_exists, not_and]
        rintro path ⟨-, rfl⟩ h
        rw [hq] at h
        cases h
      | some path =>
        simp only
        cases ho : F.open_ path with
        | error e =>
          refine ⟨?_, by simp [hq]⟩
          rintro ⟨n, l, b⟩
          simp only [reduceCtorEq, false_and, false_or, true_and, Option.some.injEq,
            false_iff, not_exists, not_and]
          rintro path' ⟨-, rfl⟩ h h2
          rw [hq] at h
          cases h
          rw [ho] at h2
          cases h2
        | ok b =>
          refine ⟨?_, by simp [hq]⟩
          rintro ⟨n, l, b'⟩
          simp only [Answer.found.injEq, Found.mk.injEq, reduceCtorEq, false_and, false_or,
            true_and, Option.some.injEq]
          constructor
          · rintro ⟨rfl, rfl, rfl⟩
            exact ⟨path, ⟨[], rfl⟩, hq, ho, rfl⟩
          · rintro ⟨path', ⟨-, rfl⟩, h, h2, h3⟩
            rw [hq] at h
            cases h
            rw [ho] at h2
            cases h2
            exact ⟨h3.symm, rfl, rfl⟩
  | some c =>
    simp only
    cases hp : F.join c loc with
    | none => simp [hp]
    | some url =>
      simp only
      cases hq : F.path url with
      | none =>
        refine ⟨?_, by simp [hq]⟩
        rintro ⟨n, l, b⟩
        simp only [reduceCtorEq, false_and, or_false, Option.some.injEq,
          false_iff, not_exists, not_and]
        rintro path ⟨c', rfl, h0⟩ h
        rw [hp] at h0
        cases h0
        rw [hq] at h
        cases h
      | some path =>
        simp only
        cases ho : F.open_ path with
        | error e =>
          refine ⟨?_, by simp [hq]⟩
          rintro ⟨n, l, b⟩
          simp only [reduceCtorEq, false_and, or_false, Option.some.injEq,
            false_iff, not_exists, not_and]
          rintro path' ⟨c', rfl, h0⟩ h h2
          rw [hp] at h0
          cases h0
          rw [hq] at h
          cases h
          rw [ho] at h2
          cases h2
        | ok b =>
          refine ⟨?_, by simp [hq]⟩
          rintro ⟨n, l, b'⟩
          simp only [Answer.found.injEq, Found.mk.injEq, reduceCtorEq, false_and, or_false,
            Option.some.injEq]
          constructor
          · rintro ⟨rfl, rfl, rfl⟩
            exact ⟨path, ⟨c, rfl, hp⟩, hq, ho, rfl⟩
          · rintro ⟨path', ⟨c', rfl, h0⟩, h, h2, h3⟩
            rw [hp] at h0
            cases h0
            rw [hq] at h
            cases h
            rw [ho] at h2
            cases h2
            exact ⟨h3.symm, rfl, rfl⟩

/-! ## Examples and a limit -/

namespace ResolverEx

/-- A file system with the one file `/a.xsd`; `file:` URLs are marked by an `f` in front. -/
def F : Files Nat Nat where
  join := fun _ r => some ('f' :: r)
  parse := fun r => if r.head? = some 'f' then some r else none
  path := fun u => if u.head? = some 'f' then some [u.drop 1] else none
  open_ := fun p => if p = [['a', '.', 'x', 's', 'd']] then .ok 1 else .error 2

/-- A resolver that has every document and counts how often it was asked. -/
def counting : Boxed Nat Nat Nat := ⟨fun n r => (.found ⟨none, r.loc, n⟩, n + 1), 0⟩

def req (l : Txt) : Req := { loc := l, kind := .user }

/-- Non-vacuity: found by the first, by the second after the first declined; the second keeps
its state. -/
example :
    ((manyHistory [stateless (fileResolve F) 0, counting]
      [req ['f', 'a', '.', 'x', 's', 'd'], req ['w'], req ['w']]).1)
      = [.found ⟨some ['a'], ['f', 'a', '.', 'x', 's', 'd'], 1⟩, .found ⟨none, ['w'], 0⟩,
        .found ⟨none, ['w'], 1⟩] := by
  decide

/-- **C76, limit.** A file that does not exist is an error of the file resolver, not "not mine":
resolvers added after it as a fallback are never asked for it. Asked first, the same fallback
has the document. -/
theorem C76_missing_file_hides_fallback :
    (manyResolve (addResolver [stateless (fileResolve F) 0] counting) (req ['f', 'b'])).1
      = .error 2 ∧
    (manyResolve (addResolver [counting] (stateless (fileResolve F) 0)) (req ['f', 'b'])).1
      = .found ⟨none, ['f', 'b'], 0⟩ := by
  decide

end ResolverEx

end Verif.Parser

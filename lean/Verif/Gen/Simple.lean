import Verif.Runtime.Facets
import Verif.Runtime.Lists
import Verif.Util.Assoc

/-!
# Generated unions, enumerations and restricted simple types (C53, C58)

`DeserializeBytes`/`SerializeBytes` of generated simple types:

* `UnionData` (renderer/steps/quick_xml/deserialize.rs 88-166, serialize.rs 164-213),
* `EnumerationData` (deserialize.rs 630-784, serialize.rs 396-472),
* `SimpleData` (deserialize.rs 786-851, serialize.rs 474-537; `new`, `validate_value` and
  `validate_str` in renderer/steps/mod.rs 62-395),
* `ConstrainsData::render_validation` (deserialize.rs 855-906),
* the interpretation of facets, `apply_simple_type_facet` (interpreter/state/generate_types/
  variant_processor.rs 1034-1122).

Texts are valid UTF-8 (`Str`), so that `from_utf8` succeeds. The deserializers of the member
types are parameters; the helper (used only to resolve prefixes of qualified names) is part of
them. Regular expressions are predicates on texts.
-/

namespace Verif.Gen

open Verif.Rt

/-! ## Constraining facets -/

/-- `WhiteSpace`, models/meta/simple.rs 27-39. -/
inductive WhiteSpace where
  | preserve
  | replace
  | collapse
deriving DecidableEq, Repr

/-- `Bound`, for the values of facets. -/
inductive Bnd (V : Type) where
  | unbounded
  | included (x : V)
  | excluded (x : V)
deriving DecidableEq, Repr

/-- `Constrains`, models/meta/mod.rs 39-81. -/
structure Constrains (V : Type) where
  start : Bnd V := .unbounded
  end_ : Bnd V := .unbounded
  totalDigits : Option Nat := none
  fractionDigits : Option Nat := none
  patterns : List (Str → Bool) := []
  minLength : Option Nat := none
  maxLength : Option Nat := none
  whitespace : WhiteSpace := .preserve

/-- The errors. -/
inductive SErr (E : Type) where
  | value (e : E)
  | invalidUnion (es : List (SErr E))
  | unknownValue
  | pattern
  | digits (e : FacetError)
  | minLength (n : Nat)
  | maxLength (n : Nat)
  | range

section
variable {E V : Type}

/-- `need_string_validation`, models/data/mod.rs 76-80. -/
def Constrains.needString (c : Constrains V) : Bool :=
  !c.patterns.isEmpty || c.totalDigits.isSome || c.fractionDigits.isSome

/-- `render_whitespace`, deserialize.rs 875-897. -/
def WhiteSpace.apply (w : WhiteSpace) (s : Str) : Str :=
  match w with
  | .preserve => s
  | .replace => whitespaceReplace s
  | .collapse => trimUnicode (whitespaceCollapse s)

/-- `validate_str`, renderer/steps/mod.rs 173-274. -/
def Constrains.validateStr (c : Constrains V) (s : Str) : Except (SErr E) Unit :=
  if !c.patterns.isEmpty && !(c.patterns.any fun p => p s) then .error .pattern
  else
    match c.totalDigits.map (Rt.totalDigits s) with
    | some (.error e) => .error (.digits e)
    | _ =>
      match c.fractionDigits.map (Rt.fractionDigits s) with
      | some (.error e) => .error (.digits e)
      | _ => .ok ()

/-- Does `render_validation` return code? Then the text `s` is used in what follows, otherwise
the bytes are. -/
def Constrains.validates (c : Constrains V) : Bool :=
  c.whitespace != .preserve || c.needString

/-- `render_validation`, deserialize.rs 856-873: the text to go on with. -/
def Constrains.validation (c : Constrains V) (bytes : Str) : Except (SErr E) Str :=
  if c.validates then
    let s := c.whitespace.apply bytes
    if c.needString then
      match c.validateStr (E := E) s with
      | .error e => .error e
      | .ok _ => .ok s
    else .ok s
  else .ok bytes

/-- `render_validate_range_start`, renderer/steps/mod.rs 320-351: `*value < x` or `*value <= x`.
`cmp` is `partial_cmp`. -/
def Constrains.tooSmall (c : Constrains V) (cmp : V → V → Option Ordering) (v : V) : Bool :=
  match c.start with
  | .unbounded => false
  | .included x => cmp v x == some .lt
  | .excluded x => cmp v x == some .lt || cmp v x == some .eq

/-- `render_validate_range_end`, renderer/steps/mod.rs 353-384. -/
def Constrains.tooLarge (c : Constrains V) (cmp : V → V → Option Ordering) (v : V) : Bool :=
  match c.end_ with
  | .unbounded => false
  | .included x => cmp v x == some .gt
  | .excluded x => cmp v x == some .gt || cmp v x == some .eq

/-- `render_validate_min_length`, renderer/steps/mod.rs 276-298. -/
def Constrains.tooShort (c : Constrains V) (len : V → Nat) (v : V) : Bool :=
  match c.minLength with
  | none => false
  | some n => if n = 0 then false else if n = 1 then len v == 0 else decide (len v < n)

/-- `render_validate_max_length`, renderer/steps/mod.rs 300-318. -/
def Constrains.tooLong (c : Constrains V) (len : V → Nat) (v : V) : Bool :=
  match c.maxLength with
  | none => false
  | some n => if n = 0 then !(len v == 0) else decide (n < len v)

/-- The checks of `validate_value`, renderer/steps/mod.rs 196-228, in `new`. `len` is
`len()`. -/
def Constrains.validateValue (c : Constrains V) (cmp : V → V → Option Ordering) (len : V → Nat)
    (v : V) : Except (SErr E) Unit :=
  if c.tooSmall cmp v then .error .range
  else if c.tooLarge cmp v then .error .range
  else if c.tooShort len v then .error (.minLength (c.minLength.getD 0))
  else if c.tooLong len v then .error (.maxLength (c.maxLength.getD 0))
  else .ok ()

/-! ## Unions -/

/-- The member types, tried one after the other; `errs` are the failures so far, `i` the number
of the next one. -/
def unionTry (s : Str) : List (Str → Except (SErr E) V) → Nat → List (SErr E) →
    Except (SErr E) (Nat × V)
  | [], _, errs => .error (.invalidUnion errs)
  | m :: ms, i, errs =>
    match m s with
    | .ok v => .ok (i, v)
    | .error e => unionTry s ms (i + 1) (errs ++ [e])

/-- `UnionData::render_deserializer`. The result is the number of the variant and its value. -/
def unionDe (c : Constrains V) (members : List (Str → Except (SErr E) V)) (bytes : Str) :
    Except (SErr E) (Nat × V) :=
  match c.validation bytes with
  | .error e => .error e
  | .ok s => unionTry s members 0 []

/-- `UnionData::render_serializer`. -/
def unionSer (write : Nat → V → Except (SErr E) (Option Str)) (x : Nat × V) :
    Except (SErr E) (Option Str) :=
  write x.1 x.2

theorem unionTry_ok (s : Str) (ms : List (Str → Except (SErr E) V)) :
    ∀ k errs i v, unionTry s ms k errs = .ok (i, v) ↔
      ∃ j m, i = k + j ∧ ms[j]? = some m ∧ m s = .ok v ∧
        ∀ j' m', j' < j → ms[j']? = some m' → ∃ e, m' s = .error e := by
  induction ms with
  | nil => intro k errs i v; simp [unionTry]
  | cons m ms ih =>
    intro k errs i v
    unfold unionTry
    cases hm : m s with
    | ok w =>
      simp only [Except.ok.injEq, Prod.mk.injEq]
      constructor
      · rintro ⟨rfl, rfl⟩
        exact ⟨0, m, rfl, rfl, hm, fun j' _ h => by omega⟩
      · rintro ⟨j, m', rfl, hj, hv, hmin⟩
        cases j with
        | zero =>
          simp at hj; subst hj
          rw [hm] at hv; cases hv; exact ⟨rfl, rfl⟩
        | succ j =>
          obtain ⟨e, he⟩ := hmin 0 m (by omega) rfl
          rw [hm] at he; cases he
    | error e =>
      simp only [ih]
      constructor
      · rintro ⟨j, m', rfl, hj, hv, hmin⟩
        refine ⟨j + 1, m', by omega, by simpa using hj, hv, ?_⟩
        intro j' m'' hlt hj'
        cases j' with
        | zero => simp at hj'; subst hj'; exact ⟨e, hm⟩
        | succ j' => exact hmin j' m'' (by omega) (by simpa using hj')
      · rintro ⟨j, m', rfl, hj, hv, hmin⟩
        cases j with
        | zero =>
          simp at hj; subst hj
          rw [hm] at hv; cases hv
        | succ j =>
          exact ⟨j, m', by omega, by simpa using hj, hv,
            fun j' m'' hlt hj' => hmin (j' + 1) m'' (by omega) (by simpa using hj')⟩

theorem unionTry_error (s : Str) (ms : List (Str → Except (SErr E) V)) :
    ∀ k errs e, unionTry s ms k errs = .error e ↔
      ∃ es, e = .invalidUnion (errs ++ es) ∧ es.length = ms.length ∧
        ∀ (j : Nat) (m : Str → Except (SErr E) V), ms[j]? = some m →
          ∃ x, es[j]? = some x ∧ m s = .error x := by
  induction ms with
  | nil =>
    intro k errs e
    simp only [unionTry, Except.error.injEq]
    constructor
    · rintro rfl; exact ⟨[], by simp, rfl, by simp⟩
    · rintro ⟨es, rfl, hl, _⟩
      simp at hl; subst hl; simp
  | cons m ms ih =>
    intro k errs e
    unfold unionTry
    cases hm : m s with
    | ok w =>
      simp only [reduceCtorEq, false_iff]
      rintro ⟨es, _, _, h⟩
      obtain ⟨x, _, hx⟩ := h 0 m rfl
      rw [hm] at hx; cases hx
    | error x =>
      simp only [ih]
      constructor
      · rintro ⟨es, rfl, hl, h⟩
        refine ⟨x :: es, by simp, by simp [hl], ?_⟩
        intro j m' hj
        cases j with
        | zero => simp at hj; subst hj; exact ⟨x, rfl, hm⟩
        | succ j => simpa using h j m' (by simpa using hj)
      · rintro ⟨es, rfl, hl, h⟩
        cases es with
        | nil => simp at hl
        | cons y es =>
          obtain ⟨z, hz, hz'⟩ := h 0 m rfl
          simp at hz; subst hz
          rw [hm] at hz'; cases hz'
          refine ⟨es, by simp, by simpa using hl, ?_⟩
          intro j m' hj
          simpa using h (j + 1) m' (by simpa using hj)

/-- **C53.** A union returns variant `i` with value `v` exactly if the text (after the white
space facet, if the union has one) satisfies the facets of the union, member `i` reads it as
`v`, and no earlier member reads it. -/
theorem C53_union_first (c : Constrains V) (members : List (Str → Except (SErr E) V)) (bytes : Str)
    (i : Nat) (v : V) :
    unionDe c members bytes = .ok (i, v) ↔
      ∃ s m, c.validation (E := E) bytes = .ok s ∧ members[i]? = some m ∧ m s = .ok v ∧
        ∀ j m', j < i → members[j]? = some m' → ∃ e, m' s = .error e := by
  unfold unionDe
  cases hv : c.validation (E := E) bytes with
  | error e => simp
  | ok s =>
    simp only [unionTry_ok, Except.ok.injEq]
    constructor
    · rintro ⟨j, m, rfl, h1, h2, h3⟩
      exact ⟨s, m, rfl, by simpa using h1, h2, by simpa using h3⟩
    · rintro ⟨s', m, rfl, h1, h2, h3⟩
      exact ⟨i, m, by omega, h1, h2, h3⟩

/-- **C53.** A union rejects a text that satisfies its facets exactly if every member rejects
it; the error lists the failures of all members, in their order. -/
theorem C53_union_rejects (c : Constrains V) (members : List (Str → Except (SErr E) V))
    (bytes s : Str) (hs : c.validation (E := E) bytes = .ok s) (e : SErr E) :
    unionDe c members bytes = .error e ↔
      ∃ es, e = .invalidUnion es ∧ es.length = members.length ∧
        ∀ (j : Nat) (m : Str → Except (SErr E) V), members[j]? = some m →
          ∃ x, es[j]? = some x ∧ m s = .error x := by
  unfold unionDe
  simp only [hs, unionTry_error, List.nil_append]

/-- **C53.** Writing a value of a union and reading it back gives the same variant and the same
value, if the member type reads its own text and no earlier member reads it. -/
theorem C53_union_round_trip (members : List (Str → Except (SErr E) V)) (i : Nat) (v : V)
    (m : Str → Except (SErr E) V) (hm : members[i]? = some m)
    (write : Nat → V → Except (SErr E) (Option Str)) (s : Str) (hw : write i v = .ok (some s))
    (hr : m s = .ok v)
    (hmin : ∀ j m', j < i → members[j]? = some m' → ∃ e, m' s = .error e) :
    ∃ t, unionSer write (i, v) = .ok (some t) ∧ unionDe {} members t = .ok (i, v) :=
  ⟨s, hw, (C53_union_first {} members s i v).mpr ⟨s, m, rfl, hm, hr, hmin⟩⟩

/-! ## Enumerations -/

/-- `EnumerationDataVariant`: the literal (`EnumerationVariantValue::None` and `ByteLiteral`), a
constant of the base type (`Constant`), or a variant with a value (the catch-all). -/
inductive EVariant (E V : Type) where
  | literal (text : Str)
  | constant (x : V)
  | other (de : Str → Except (SErr E) V)

/-- A value of the generated enum: the number of the variant, and the content of a catch-all. -/
inductive EVal (V : Type) where
  | unit (i : Nat)
  | other (i : Nat) (v : V)
deriving DecidableEq, Repr

/-- The arms of `match bytes`, deserialize.rs 762-783. -/
def enumLiteral (s : Str) : List (EVariant E V) → Nat → Option Nat
  | [], _ => none
  | .literal t :: vs, i => if s = t then some i else enumLiteral s vs (i + 1)
  | _ :: vs, i => enumLiteral s vs (i + 1)

/-- The comparisons with constants, deserialize.rs 786-799. -/
def enumConstant [DecidableEq V] (v : V) : List (EVariant E V) → Nat → Option Nat
  | [], _ => none
  | .constant x :: vs, i => if v = x then some i else enumConstant v vs (i + 1)
  | _ :: vs, i => enumConstant v vs (i + 1)

/-- `other`, deserialize.rs 755-760: the last variant with a value. -/
def enumOther : List (EVariant E V) → Nat → Option (Nat × (Str → Except (SErr E) V)) →
    Option (Nat × (Str → Except (SErr E) V))
  | [], _, r => r
  | .other de :: vs, i, _ => enumOther vs (i + 1) (some (i, de))
  | _ :: vs, i, r => enumOther vs (i + 1) r

/-- `EnumerationData::render_deserializer`, 630-747. `base` is the deserializer of the simple
base type. The constants read the text after validation, the literals and the catch-all the
bytes. -/
def enumDe [DecidableEq V] (c : Constrains V) (base : Option (Str → Except (SErr E) V))
    (vs : List (EVariant E V)) (bytes : Str) : Except (SErr E) (EVal V) :=
  match c.validation bytes with
  | .error e => .error e
  | .ok s =>
    match enumLiteral bytes vs 0 with
    | some i => .ok (.unit i)
    | none =>
      match base.bind fun d => (d s).toOption.bind fun v => enumConstant v vs 0 with
      | some i => .ok (.unit i)
      | none =>
        match enumOther vs 0 none with
        | none => .error .unknownValue
        | some (i, de) => (de bytes).map (.other i)

/-- `EnumerationData::render_serializer`, serialize.rs 396-472. -/
def enumSer (write : V → Except (SErr E) (Option Str)) (vs : List (EVariant E V)) :
    EVal V → Option (Except (SErr E) (Option Str))
  | .unit i =>
    match vs[i]? with
    | some (.literal t) => some (.ok (some t))
    | some (.constant x) => some (write x)
    | _ => none
  | .other i v =>
    match vs[i]? with
    | some (.other _) => some (write v)
    | _ => none

theorem enumLiteral_some (s : Str) (vs : List (EVariant E V)) :
    ∀ k i, enumLiteral s vs k = some i ↔
      ∃ j, i = k + j ∧ vs[j]? = some (.literal s) ∧
        ∀ j', j' < j → vs[j']? ≠ some (.literal s) := by
  induction vs with
  | nil => intro k i; simp [enumLiteral]
  | cons x vs ih =>
    intro k i
    have skip : (x ≠ .literal s) → enumLiteral s (x :: vs) k = enumLiteral s vs (k + 1) := by
      intro hx
      cases x with
      | literal t =>
        have : s ≠ t := fun h => hx (by rw [h])
        simp [enumLiteral, this]
      | _ => rfl
    by_cases hx : x = .literal s
    · subst hx
      have : enumLiteral s (EVariant.literal s :: vs) k = some k := by simp [enumLiteral]
      rw [this]
      simp only [Option.some.injEq]
      constructor
      · rintro rfl
        exact ⟨0, rfl, rfl, fun j' h => by omega⟩
      · rintro ⟨j, rfl, hj, hmin⟩
        cases j with
        | zero => rfl
        | succ j => exact absurd rfl (hmin 0 (by omega))
    · rw [skip hx, ih]
      constructor
      · rintro ⟨j, rfl, hj, hmin⟩
        refine ⟨j + 1, by omega, by simpa using hj, ?_⟩
        intro j' hlt
        cases j' with
        | zero => simpa using hx
        | succ j' => simpa using hmin j' (by omega)
      · rintro ⟨j, rfl, hj, hmin⟩
        cases j with
        | zero => simp at hj; exact absurd hj hx
        | succ j =>
          exact ⟨j, by omega, by simpa using hj, fun j' hlt => by
            simpa using hmin (j' + 1) (by omega)⟩

theorem enumLiteral_none (s : Str) (vs : List (EVariant E V)) (k : Nat) :
    enumLiteral s vs k = none ↔ EVariant.literal s ∉ vs := by
  constructor
  · intro h hmem
    obtain ⟨j, hj⟩ := List.getElem?_of_mem hmem
    -- the first such index
    have : ∃ j : Nat, vs[j]? = some (EVariant.literal s) ∧
        ∀ j', j' < j → vs[j']? ≠ some (EVariant.literal s) := by
      induction j using Nat.strongRecOn with
      | ind j ih =>
        by_cases hx : ∃ j', j' < j ∧ vs[j']? = some (EVariant.literal s)
        · obtain ⟨j', hlt, hj'⟩ := hx
          exact ih j' hlt hj'
        · exact ⟨j, hj, fun j' hlt h => hx ⟨j', hlt, h⟩⟩
    obtain ⟨j, hj, hmin⟩ := this
    have := (enumLiteral_some s vs k (k + j)).mpr ⟨j, rfl, hj, hmin⟩
    rw [h] at this; cases this
  · intro h
    cases hx : enumLiteral s vs k with
    | none => rfl
    | some i =>
      obtain ⟨j, _, hj, _⟩ := (enumLiteral_some s vs k i).mp hx
      exact absurd (List.mem_of_getElem? hj) h

theorem enumConstant_none [DecidableEq V] (v : V) (vs : List (EVariant E V)) (k : Nat)
    (h : ∀ x, EVariant.constant x ∉ vs) : enumConstant v vs k = none := by
  induction vs generalizing k with
  | nil => rfl
  | cons x vs ih =>
    have ih := ih (k + 1) fun y hy => h y (by simp [hy])
    cases x with
    | constant y => exact absurd (by simp) (h y)
    | _ => exact ih

theorem enumOther_spec (vs : List (EVariant E V)) : ∀ k r,
    (∀ p, enumOther vs k r = some p →
      (∃ j, p.1 = k + j ∧ vs[j]? = some (.other p.2) ∧
        ∀ j' de, j < j' → vs[j']? ≠ some (.other de)) ∨
      (r = some p ∧ ∀ de, EVariant.other de ∉ vs)) ∧
    (enumOther vs k r = none → r = none ∧ ∀ de, EVariant.other de ∉ vs) := by
  induction vs with
  | nil =>
    intro k r
    exact ⟨fun p h => Or.inr ⟨h, by simp⟩, fun h => ⟨h, by simp⟩⟩
  | cons x vs ih =>
    intro k r
    have lift : ∀ (r' : Option _) (p : Nat × (Str → Except (SErr E) V)),
        enumOther vs (k + 1) r' = some p →
        (∃ j, p.1 = k + j ∧ (x :: vs)[j]? = some (.other p.2) ∧
          ∀ j' de, j < j' → (x :: vs)[j']? ≠ some (.other de)) ∨
        (r' = some p ∧ ∀ de, EVariant.other de ∉ vs) := by
      intro r' p h
      rcases (ih (k + 1) r').1 p h with ⟨j, h1, h2, h3⟩ | h
      · refine Or.inl ⟨j + 1, by omega, by simpa using h2, ?_⟩
        intro j' de hlt
        cases j' with
        | zero => omega
        | succ j' => simpa using h3 j' de (by omega)
      · exact Or.inr h
    cases x with
    | other de =>
      constructor
      · intro p h
        rcases lift (some (k, de)) p h with h | ⟨h1, h2⟩
        · exact Or.inl h
        · simp at h1; subst h1
          refine Or.inl ⟨0, rfl, rfl, ?_⟩
          intro j' de' hlt hj'
          cases j' with
          | zero => omega
          | succ j' => exact h2 de' (List.mem_of_getElem? (by simpa using hj'))
      · intro h
        have := ((ih (k + 1) (some (k, de))).2 h).1
        cases this
    | literal t =>
      constructor
      · intro p h
        rcases lift r p h with h | ⟨h1, h2⟩
        · exact Or.inl h
        · exact Or.inr ⟨h1, by simpa using h2⟩
      · intro h
        obtain ⟨h1, h2⟩ := (ih (k + 1) r).2 h
        exact ⟨h1, by simpa using h2⟩
    | constant y =>
      constructor
      · intro p h
        rcases lift r p h with h | ⟨h1, h2⟩
        · exact Or.inl h
        · exact Or.inr ⟨h1, by simpa using h2⟩
      · intro h
        obtain ⟨h1, h2⟩ := (ih (k + 1) r).2 h
        exact ⟨h1, by simpa using h2⟩

/-- **C53.** An enumeration (without facets): a text that is one of the literals gives the first
variant with that literal, and a variant without content is only returned for its literal or
for a text that the base type reads as its constant. -/
theorem C53_enum_literal [DecidableEq V] (base : Option (Str → Except (SErr E) V))
    (vs : List (EVariant E V)) (s : Str) (i : Nat) (hi : vs[i]? = some (.literal s))
    (hmin : ∀ j, j < i → vs[j]? ≠ some (.literal s)) :
    enumDe {} base vs s = .ok (.unit i) := by
  have : enumLiteral s vs 0 = some i := (enumLiteral_some s vs 0 i).mpr ⟨i, by omega, hi, hmin⟩
  simp [enumDe, Constrains.validation, Constrains.validates, Constrains.needString, this]

/-- **C53.** A text that is no literal, in an enumeration without constants: it is read by the
catch-all (the last one, if there are several); without a catch-all it is rejected. -/
theorem C53_enum_other [DecidableEq V] (base : Option (Str → Except (SErr E) V))
    (vs : List (EVariant E V)) (s : Str) (hno : EVariant.literal s ∉ vs)
    (hc : ∀ x, EVariant.constant x ∉ vs) :
    (∀ (i : Nat) de, vs[i]? = some (.other de) →
        (∀ (j : Nat) de', i < j → vs[j]? ≠ some (.other de')) →
      enumDe {} base vs s = (de s).map (EVal.other i)) ∧
    ((∀ de, EVariant.other de ∉ vs) → enumDe {} base vs s = .error .unknownValue) := by
  have hb : (base.bind fun d => (d s).toOption.bind fun v => enumConstant v vs 0) = none := by
    cases base with
    | none => rfl
    | some d =>
      simp only [Option.bind_some]
      cases (d s).toOption with
      | none => rfl
      | some v => exact enumConstant_none v vs 0 hc
  have hd : enumDe {} base vs s = (match enumOther vs 0 none with
      | none => .error .unknownValue
      | some (i, de) => (de s).map (EVal.other i)) := by
    have hv : ({} : Constrains V).validation (E := E) s = .ok s := rfl
    simp only [enumDe, hv, (enumLiteral_none s vs 0).mpr hno, hb]
  rw [hd]
  constructor
  · intro i de hi hlast
    cases ho : enumOther vs 0 none with
    | none => exact absurd (List.mem_of_getElem? hi) (((enumOther_spec vs 0 none).2 ho).2 de)
    | some p =>
      obtain ⟨pi, pde⟩ := p
      rcases (enumOther_spec vs 0 none).1 _ ho with ⟨j, h1, h2, h3⟩ | ⟨h, _⟩
      · simp only [Nat.zero_add] at h1 h2
        subst h1
        rcases Nat.lt_trichotomy i pi with h | h | h
        · exact absurd h2 (hlast pi pde h)
        · subst h
          rw [hi] at h2
          cases h2
          rfl
        · exact absurd hi (h3 i de h)
      · cases h
  · intro hnone
    cases ho : enumOther vs 0 none with
    | none => rfl
    | some p =>
      rcases (enumOther_spec vs 0 none).1 _ ho with ⟨j, _, h2, _⟩ | ⟨h, _⟩
      · exact absurd (List.mem_of_getElem? h2) (hnone _)
      · cases h

theorem enumConstant_first [DecidableEq V] (v : V) (vs : List (EVariant E V)) :
    ∀ k i, vs[i]? = some (.constant v) → (∀ j, j < i → vs[j]? ≠ some (.constant v)) →
      enumConstant v vs k = some (k + i) := by
  induction vs with
  | nil => intro k i h; simp at h
  | cons x vs ih =>
    intro k i hi hmin
    cases i with
    | zero => simp at hi; subst hi; simp [enumConstant]
    | succ i =>
      have h := ih (k + 1) i (by simpa using hi) fun j hj => by
        simpa using hmin (j + 1) (by omega)
      have hx : x ≠ .constant v := by simpa using hmin 0 (by omega)
      have : enumConstant v (x :: vs) k = enumConstant v vs (k + 1) := by
        cases x with
        | constant y =>
          have : v ≠ y := fun e => hx (by rw [e])
          simp [enumConstant, this]
        | _ => rfl
      rw [this, h]; congr 1; omega

theorem enumConstant_absent [DecidableEq V] (v : V) (vs : List (EVariant E V)) (k : Nat)
    (h : EVariant.constant v ∉ vs) : enumConstant v vs k = none := by
  induction vs generalizing k with
  | nil => rfl
  | cons x vs ih =>
    have ih := ih (k + 1) fun hy => h (by simp [hy])
    cases x with
    | constant y =>
      have : v ≠ y := fun e => h (by simp [e])
      simp [enumConstant, this, ih]
    | _ => exact ih

/-- **C53.** With the values of the base type (flag `ADVANCED_ENUMS`): a text that is no
literal, but that the base type reads as the constant of a variant, gives the first variant
with this constant; if the base type does not read the text, or as no constant, the text is
rejected (without a catch-all). -/
theorem C53_enum_constant [DecidableEq V] (d : Str → Except (SErr E) V) (vs : List (EVariant E V))
    (s : Str) (hno : EVariant.literal s ∉ vs) :
    (∀ v (i : Nat), d s = .ok v → vs[i]? = some (.constant v) →
      (∀ j, j < i → vs[j]? ≠ some (.constant v)) → enumDe {} (some d) vs s = .ok (.unit i)) ∧
    ((∀ v, d s = .ok v → EVariant.constant v ∉ vs) → (∀ de, EVariant.other de ∉ vs) →
      enumDe {} (some d) vs s = .error .unknownValue) := by
  have hv : ({} : Constrains V).validation (E := E) s = .ok s := rfl
  constructor
  · intro v i hd hi hmin
    have hc := enumConstant_first v vs 0 i hi hmin
    simp only [Nat.zero_add] at hc
    simp [enumDe, hv, (enumLiteral_none s vs 0).mpr hno, hd, Except.toOption, hc]
  · intro hc ho
    have ho : enumOther vs 0 none = none := by
      cases h : enumOther vs 0 none with
      | none => rfl
      | some p =>
        rcases (enumOther_spec vs 0 none).1 _ h with ⟨j, _, h2, _⟩ | ⟨h, _⟩
        · exact absurd (List.mem_of_getElem? h2) (ho _)
        · cases h
    cases hd : d s with
    | error e => simp [enumDe, hv, (enumLiteral_none s vs 0).mpr hno, hd, Except.toOption, ho]
    | ok v =>
      simp [enumDe, hv, (enumLiteral_none s vs 0).mpr hno, hd, Except.toOption, ho,
        enumConstant_absent v vs 0 (hc v hd)]

/-- Non-vacuity: an enumeration of numbers, `007` is the constant `7`. -/
example :
    let d : Str → Except (SErr Unit) Nat := fun s =>
      if s.all Char.isDigit && !s.isEmpty then .ok (Decimal.val s) else .error (.value ())
    (enumDe {} (some d) [.constant 5, .constant 7] "007".toList matches .ok (.unit 1)) = true ∧
    (enumDe {} (some d) [.constant 5, .constant 7] "8".toList matches .error .unknownValue) = true := by
  decide +kernel

/-- **C53.** Writing a variant and reading it back gives the same variant, if its literal
occurs once. -/
theorem C53_enum_round_trip [DecidableEq V] (base : Option (Str → Except (SErr E) V))
    (write : V → Except (SErr E) (Option Str)) (vs : List (EVariant E V)) (i : Nat) (s : Str)
    (hi : vs[i]? = some (.literal s)) (hu : ∀ j, vs[j]? = some (.literal s) → j = i) :
    enumSer write vs (.unit i) = some (.ok (some s)) ∧ enumDe {} base vs s = .ok (.unit i) := by
  refine ⟨by simp [enumSer, hi], C53_enum_literal base vs s i hi ?_⟩
  intro j hlt hj
  have := hu j hj
  omega

/-- **C53, finding.** The white space facet is not applied to the literals of an enumeration:
for an enumeration of `xs:token` (white space collapsed) with the literal `a b`, the valid text
`a  b` (two blanks) is rejected. -/
theorem C53_enum_whitespace_ignored :
    (enumDe (V := Str) (E := Unit) { whitespace := .collapse } none [.literal "a b".toList]
      "a  b".toList matches .error .unknownValue) = true ∧
    WhiteSpace.collapse.apply "a  b".toList = "a b".toList := by
  decide +kernel

/-- Non-vacuity of the theorems about unions and enumerations. -/
example :
    let int : Str → Except (SErr Unit) Str := fun s =>
      if s.all Char.isDigit && !s.isEmpty then .ok s else .error (.value ())
    let any : Str → Except (SErr Unit) Str := fun s => .ok s
    (unionDe {} [int, any] "12".toList matches .ok (0, _)) = true ∧
    (unionDe {} [int, any] "x".toList matches .ok (1, _)) = true ∧
    (unionDe {} [int, int] "x".toList matches .error (.invalidUnion [_, _])) = true ∧
    (enumDe {} none [.literal "a".toList, .other any] "a".toList matches .ok (.unit 0)) = true ∧
    (enumDe {} none [.literal "a".toList, .other any] "b".toList matches .ok (.other 1 _)) = true ∧
    (enumDe (V := Str) (E := Unit) {} none [.literal "a".toList] "b".toList
      matches .error .unknownValue) = true := by
  decide +kernel


/-! ## Restricted simple types -/

/-- `SimpleData::render_deserializer`, deserialize.rs 806-827: the generator panics for a list
with code for validation (`unreachable!`). -/
def Constrains.renders (c : Constrains V) (isList : Bool) : Bool := !(isList && c.validates)

/-- The generated `deserialize_bytes` of a restricted simple type. `read` is the deserializer
of the base type (for lists: `deserialize_list`). -/
def simpleTyDe (c : Constrains V) (cmp : V → V → Option Ordering) (len : V → Nat)
    (read : Str → Except (SErr E) V) (bytes : Str) : Except (SErr E) V :=
  match c.validation bytes with
  | .error e => .error e
  | .ok s =>
    match read s with
    | .error e => .error e
    | .ok v =>
      match c.validateValue (E := E) cmp len v with
      | .error e => .error e
      | .ok _ => .ok v

/-! ### Facets in a schema -/

/-- `Facet` (models/schema/xs), with parsed values. -/
inductive Facet (V : Type) where
  | minInclusive (x : V)
  | minExclusive (x : V)
  | maxInclusive (x : V)
  | maxExclusive (x : V)
  | totalDigits (n : Nat)
  | fractionDigits (n : Nat)
  | length (n : Nat)
  | minLength (n : Nat)
  | maxLength (n : Nat)
  | whiteSpace (w : WhiteSpace)
  | pattern (p : Str → Bool)
  | enumeration (text : Str)

/-- The second `match` of `apply_simple_type_facet`, variant_processor.rs 1069-1122. An
enumeration does not get here. -/
def Constrains.set (c : Constrains V) : Facet V → Constrains V
  | .minInclusive x => { c with start := .included x }
  | .minExclusive x => { c with start := .excluded x }
  | .maxInclusive x => { c with end_ := .included x }
  | .maxExclusive x => { c with end_ := .excluded x }
  | .totalDigits n => { c with totalDigits := some n }
  | .fractionDigits n => { c with fractionDigits := some n }
  | .length n => { c with minLength := some n, maxLength := some n }
  | .minLength n => { c with minLength := some n }
  | .maxLength n => { c with maxLength := some n }
  | .whiteSpace w => { c with whitespace := w }
  | .pattern p => { c with patterns := c.patterns ++ [p] }
  | .enumeration _ => c

/-- The kinds of simple types while the interpreter builds them. `B` are the base types. -/
inductive SVariant (B V : Type) where
  | reference (base : B) (min : Nat) (max : Option Nat)
  | simple (base : B) (isList : Bool) (c : Constrains V)
  | enumeration (c : Constrains V) (literals : List Str)
  | union (c : Constrains V) (members : List B)

/-- `VariantProcessor`, as far as facets change it. -/
structure SProc (B V : Type) where
  variant : SVariant B V
  fixed : Bool

/-- `copy_base_type` for simple types, variant_processor.rs 1232-1336: the enumeration values
are removed. -/
def copyBase {B : Type} (v : SVariant B V) : SProc B V :=
  match v with
  | .enumeration c _ => ⟨.enumeration c [], false⟩
  | v => ⟨v, false⟩

/-- `apply_simple_type_facet`, variant_processor.rs 1034-1122, and `apply_enumeration`,
1131-1161. `none` is the panic of `get_or_init_any!`. The literals are trimmed before. -/
def SProc.apply {B : Type} (p : SProc B V) (f : Facet V) : Option (SProc B V) :=
  match f with
  | .enumeration t =>
    match p.variant with
    | .simple _ _ c => some ⟨.enumeration c [t], true⟩
    | .enumeration c ts => some { p with variant := .enumeration c (if t ∈ ts then ts else ts ++ [t]) }
    | _ => if p.fixed then none else some ⟨.enumeration {} [t], true⟩
  | f =>
    match p.variant with
    | .simple b l c => some { p with variant := .simple b l (c.set f) }
    | .reference b min max =>
      let c : Constrains V :=
        { minLength := if min ≠ 1 then some min else none
          maxLength := if max ≠ some 1 then max else none }
      some ⟨.simple b (min ≠ 1 || max ≠ some 1) (c.set f), true⟩
    | .enumeration c ts => some { p with variant := .enumeration (c.set f) ts }
    | .union c ms => some { p with variant := .union (c.set f) ms }

/-- The facets of one restriction, in their order: `apply_simple_type_restriction`,
variant_processor.rs 431-465. -/
def SProc.applyAll {B : Type} (p : SProc B V) : List (Facet V) → Option (SProc B V)
  | [] => some p
  | f :: fs => (p.apply f).bind fun p' => p'.applyAll fs

/-- A chain of named simple types, each a restriction of the one before. -/
def restrictAll {B : Type} (v : SVariant B V) : List (List (Facet V)) → Option (SVariant B V)
  | [] => some v
  | step :: steps => ((copyBase v).applyAll step).bind fun p => restrictAll p.variant steps

/-! ### Specification -/

/-- The meaning of a facet for a text `s` (after white space) with the value `v`. -/
def Facet.Holds (cmp : V → V → Option Ordering) (len : V → Nat) (s : Str) (v : V) : Facet V → Prop
  | .minInclusive x => cmp v x = some .gt ∨ cmp v x = some .eq
  | .minExclusive x => cmp v x = some .gt
  | .maxInclusive x => cmp v x = some .lt ∨ cmp v x = some .eq
  | .maxExclusive x => cmp v x = some .lt
  | .totalDigits n => Rt.totalDigits s n = .ok ()
  | .fractionDigits n => Rt.fractionDigits s n = .ok ()
  | .length n => len v = n
  | .minLength n => n ≤ len v
  | .maxLength n => len v ≤ n
  | .whiteSpace _ => True
  | .pattern p => p s = true
  | .enumeration _ => True

def Facet.isPattern : Facet V → Bool
  | .pattern _ => true
  | _ => false

/-- Does the value satisfy the facets of one restriction? All of them, but only one of the
patterns (XML Schema part 2, 4.3.4.2). -/
def StepHolds (cmp : V → V → Option Ordering) (len : V → Nat) (s : Str) (v : V)
    (step : List (Facet V)) : Prop :=
  (∀ f ∈ step, f.isPattern = false → f.Holds cmp len s v) ∧
  ((∀ f ∈ step, f.isPattern = false) ∨
    ∃ f ∈ step, f.isPattern = true ∧ f.Holds cmp len s v)

/-- The different facets. -/
inductive Slot where
  | lower
  | upper
  | total
  | fraction
  | minLen
  | maxLen
deriving DecidableEq

/-- Facets of which a later one replaces an earlier one. -/
def Facet.slot : Facet V → Option Slot
  | .minInclusive _ | .minExclusive _ => some .lower
  | .maxInclusive _ | .maxExclusive _ => some .upper
  | .totalDigits _ => some .total
  | .fractionDigits _ => some .fraction
  | .minLength _ => some .minLen
  | .maxLength _ => some .maxLen
  | _ => none

/-- `length` is both a minimum and a maximum. -/
def Facet.parts : Facet V → List (Facet V)
  | .length n => [.minLength n, .maxLength n]
  | f => [f]

/-- What XML Schema demands of restrictions: a facet given again is at least as strict. -/
def Tightens (cmp : V → V → Option Ordering) (len : V → Nat) (fs : List (Facet V)) : Prop :=
  (fs.flatMap Facet.parts).Pairwise fun f g =>
    f.slot ≠ none → f.slot = g.slot → ∀ s v, g.Holds cmp len s v → f.Holds cmp len s v

/-- The checks of the generated code for one kind of facet. -/
def Constrains.SlotOk (c : Constrains V) (cmp : V → V → Option Ordering) (len : V → Nat) (s : Str)
    (v : V) : Slot → Prop
  | .lower => match c.start with
    | .unbounded => True
    | .included x => (Facet.minInclusive x).Holds cmp len s v
    | .excluded x => (Facet.minExclusive x).Holds cmp len s v
  | .upper => match c.end_ with
    | .unbounded => True
    | .included x => (Facet.maxInclusive x).Holds cmp len s v
    | .excluded x => (Facet.maxExclusive x).Holds cmp len s v
  | .total => ∀ n, c.totalDigits = some n → (Facet.totalDigits n).Holds cmp len s v
  | .fraction => ∀ n, c.fractionDigits = some n → (Facet.fractionDigits n).Holds cmp len s v
  | .minLen => ∀ n, c.minLength = some n → (Facet.minLength n).Holds cmp len s v
  | .maxLen => ∀ n, c.maxLength = some n → (Facet.maxLength n).Holds cmp len s v

theorem validateStr_ok (c : Constrains V) (cmp : V → V → Option Ordering) (len : V → Nat) (s : Str)
    (v : V) :
    c.validateStr (E := E) s = .ok () ↔
      (c.patterns = [] ∨ ∃ p ∈ c.patterns, p s = true) ∧ c.SlotOk cmp len s v .total ∧
        c.SlotOk cmp len s v .fraction := by
  unfold Constrains.validateStr Constrains.SlotOk Facet.Holds
  have hp : (!c.patterns.isEmpty && !(c.patterns.any fun p => p s)) = true ↔
      ¬ (c.patterns = [] ∨ ∃ p ∈ c.patterns, p s = true) := by
    simp [List.isEmpty_iff]
  by_cases h : (!c.patterns.isEmpty && !(c.patterns.any fun p => p s)) = true
  · rw [if_pos h]
    simp only [reduceCtorEq, false_iff, not_and]
    intro h'
    exact absurd h' (hp.mp h)
  · rw [if_neg h]
    have h' : c.patterns = [] ∨ ∃ p ∈ c.patterns, p s = true := by
      apply Classical.byContradiction
      intro hc
      exact h (hp.mpr hc)
    simp only [h', true_and]
    cases ht : c.totalDigits with
    | none =>
      cases hf : c.fractionDigits with
      | none => simp
      | some f => cases hx : Rt.fractionDigits s f <;> simp [hx]
    | some t =>
      cases hy : Rt.totalDigits s t with
      | error e => simp [hy]
      | ok u =>
        cases hf : c.fractionDigits with
        | none => simp [hy]
        | some f => cases hx : Rt.fractionDigits s f <;> simp [hx, hy]

theorem validateValue_ok (c : Constrains V) (cmp : V → V → Option Ordering) (len : V → Nat)
    (htot : ∀ a b, cmp a b ≠ none) (s : Str) (v : V) :
    c.validateValue (E := E) cmp len v = .ok () ↔
      c.SlotOk cmp len s v .lower ∧ c.SlotOk cmp len s v .upper ∧ c.SlotOk cmp len s v .minLen ∧
        c.SlotOk cmp len s v .maxLen := by
  have hmax : c.tooLong len v = false ↔ c.SlotOk cmp len s v .maxLen := by
    unfold Constrains.tooLong Constrains.SlotOk Facet.Holds
    cases c.maxLength with
    | none => simp
    | some n =>
      by_cases h0 : n = 0
      · subst h0
        by_cases h1 : len v = 0 <;> simp [h1]
      · simp [h0]
  have hmin : c.tooShort len v = false ↔ c.SlotOk cmp len s v .minLen := by
    unfold Constrains.tooShort Constrains.SlotOk Facet.Holds
    cases c.minLength with
    | none => simp
    | some n =>
      by_cases h0 : n = 0
      · simp [h0]
      · by_cases h1 : n = 1
        · simp [h1]; omega
        · simp [h0, h1]
  have hlo : c.tooSmall cmp v = false ↔ c.SlotOk cmp len s v .lower := by
    unfold Constrains.tooSmall Constrains.SlotOk Facet.Holds
    cases hs : c.start with
    | unbounded => simp
    | included x =>
      cases hc : cmp v x with
      | none => exact absurd hc (htot v x)
      | some o => cases o <;> simp [hc]
    | excluded x =>
      cases hc : cmp v x with
      | none => exact absurd hc (htot v x)
      | some o => cases o <;> simp [hc]
  have hhi : c.tooLarge cmp v = false ↔ c.SlotOk cmp len s v .upper := by
    unfold Constrains.tooLarge Constrains.SlotOk Facet.Holds
    cases hs : c.end_ with
    | unbounded => simp
    | included x =>
      cases hc : cmp v x with
      | none => exact absurd hc (htot v x)
      | some o => cases o <;> simp [hc]
    | excluded x =>
      cases hc : cmp v x with
      | none => exact absurd hc (htot v x)
      | some o => cases o <;> simp [hc]
  rw [← hlo, ← hhi, ← hmin, ← hmax]
  unfold Constrains.validateValue
  cases c.tooSmall cmp v <;> cases c.tooLarge cmp v <;> cases c.tooShort len v <;>
    cases c.tooLong len v <;> simp

/-- The text and the value pass all checks of the generated code. -/
def Constrains.Accepts (c : Constrains V) (cmp : V → V → Option Ordering) (len : V → Nat) (s : Str)
    (v : V) : Prop :=
  (c.patterns = [] ∨ ∃ p ∈ c.patterns, p s = true) ∧ ∀ k, c.SlotOk cmp len s v k

theorem accepts_iff (c : Constrains V) (cmp : V → V → Option Ordering) (len : V → Nat)
    (htot : ∀ a b, cmp a b ≠ none) (s : Str) (v : V) :
    c.Accepts cmp len s v ↔ c.validateStr (E := E) s = .ok () ∧
      c.validateValue (E := E) cmp len v = .ok () := by
  rw [validateStr_ok c cmp len s v, validateValue_ok c cmp len htot s v]
  constructor
  · rintro ⟨h, hk⟩
    exact ⟨⟨h, hk _, hk _⟩, hk _, hk _, hk _, hk _⟩
  · rintro ⟨⟨h, h1, h2⟩, h3, h4, h5, h6⟩
    refine ⟨h, fun k => ?_⟩
    cases k <;> assumption

theorem validateStr_none (c : Constrains V) (s : Str) (h : c.needString = false) :
    c.validateStr (E := E) s = .ok () := by
  unfold Constrains.needString at h
  unfold Constrains.validateStr
  simp only [Bool.or_eq_false_iff, Bool.not_eq_false', Option.isSome_eq_false_iff] at h
  obtain ⟨⟨h1, h2⟩, h3⟩ := h
  rw [Option.isNone_iff_eq_none] at h2 h3
  simp [h1, h2, h3]

theorem validation_ok (c : Constrains V) (bytes s : Str) :
    c.validation (E := E) bytes = .ok s ↔
      s = c.whitespace.apply bytes ∧ c.validateStr (E := E) s = .ok () := by
  unfold Constrains.validation Constrains.validates
  by_cases hn : c.needString = true
  · simp only [hn, Bool.or_true, if_true]
    cases hv : c.validateStr (E := E) (c.whitespace.apply bytes) with
    | error e =>
      simp only [reduceCtorEq, false_iff]
      rintro ⟨rfl, h⟩
      rw [hv] at h; cases h
    | ok u =>
      simp only [Except.ok.injEq]
      constructor
      · rintro rfl; exact ⟨rfl, hv⟩
      · rintro ⟨rfl, _⟩; rfl
  · simp only [Bool.not_eq_true] at hn
    simp only [hn, Bool.or_false, Bool.false_eq_true, if_false]
    by_cases hw : (c.whitespace != .preserve) = true
    · rw [if_pos hw]
      simp only [Except.ok.injEq]
      constructor
      · rintro rfl; exact ⟨rfl, validateStr_none c _ hn⟩
      · rintro ⟨rfl, _⟩; rfl
    · rw [if_neg hw]
      have hw : c.whitespace = .preserve := by simpa using hw
      simp only [Except.ok.injEq, hw, WhiteSpace.apply]
      constructor
      · rintro rfl; exact ⟨rfl, validateStr_none c _ hn⟩
      · rintro ⟨rfl, _⟩; rfl

/-- **C58.** A restricted simple type reads a text as `v` exactly if the base type reads the
text, after the white space facet, as `v`, and text and value pass the facets. -/
theorem C58_accepts (c : Constrains V) (cmp : V → V → Option Ordering) (len : V → Nat)
    (htot : ∀ a b, cmp a b ≠ none) (read : Str → Except (SErr E) V) (bytes : Str) (v : V) :
    simpleTyDe c cmp len read bytes = .ok v ↔
      read (c.whitespace.apply bytes) = .ok v ∧ c.Accepts cmp len (c.whitespace.apply bytes) v := by
  unfold simpleTyDe
  rw [accepts_iff (E := E) c cmp len htot]
  cases hv : c.validation (E := E) bytes with
  | error e =>
    simp only [reduceCtorEq, false_iff]
    rintro ⟨_, h, _⟩
    have := (validation_ok (E := E) c bytes _).mpr ⟨rfl, h⟩
    rw [hv] at this; cases this
  | ok s =>
    obtain ⟨rfl, hs⟩ := (validation_ok c bytes s).mp hv
    simp only [hs, true_and]
    cases hr : read (c.whitespace.apply bytes) with
    | error e => simp
    | ok w =>
      simp only [Except.ok.injEq]
      cases hc : c.validateValue (E := E) cmp len w with
      | error e =>
        simp only [reduceCtorEq, false_iff]
        rintro ⟨rfl, h⟩
        rw [hc] at h; cases h
      | ok u =>
        simp only [Except.ok.injEq]
        constructor
        · rintro rfl; exact ⟨rfl, hc⟩
        · rintro ⟨rfl, _⟩; rfl

theorem set_parts (c : Constrains V) (fs : List (Facet V)) :
    (fs.flatMap Facet.parts).foldl Constrains.set c = fs.foldl Constrains.set c := by
  induction fs generalizing c with
  | nil => rfl
  | cons f fs ih =>
    rw [List.flatMap_cons, List.foldl_append, ih]
    cases f <;> rfl

theorem set_slot (c : Constrains V) (cmp : V → V → Option Ordering) (len : V → Nat) (s : Str)
    (v : V) (f : Facet V) (hf : f ∈ f.parts) (k : Slot) :
    (c.set f).SlotOk cmp len s v k ↔
      if f.slot = some k then f.Holds cmp len s v else c.SlotOk cmp len s v k := by
  cases f <;> cases k <;> first
    | (simp [Facet.parts] at hf; done)
    | simp [Constrains.set, Constrains.SlotOk, Facet.slot]

theorem foldl_slot (cmp : V → V → Option Ordering) (len : V → Nat) (gs : List (Facet V))
    (hgs : ∀ g ∈ gs, g ∈ g.parts)
    (ht : gs.Pairwise fun f g =>
      f.slot ≠ none → f.slot = g.slot → ∀ s v, g.Holds cmp len s v → f.Holds cmp len s v)
    (s : Str) (v : V) (k : Slot) :
    (gs.foldl Constrains.set {}).SlotOk cmp len s v k ↔
      ∀ g ∈ gs, g.slot = some k → g.Holds cmp len s v := by
  induction gs using Verif.rev_induct with
  | nil => cases k <;> simp [Constrains.SlotOk]
  | snoc gs g ih =>
    rw [List.pairwise_append] at ht
    have ih := ih (fun x hx => hgs x (by simp [hx])) ht.1
    rw [List.foldl_append]
    simp only [List.foldl_cons, List.foldl_nil]
    rw [set_slot _ cmp len s v g (hgs g (by simp)) k, ih]
    by_cases hk : g.slot = some k
    · rw [if_pos hk]
      constructor
      · intro h x hx hxk
        rcases List.mem_append.mp hx with hx | hx
        · exact ht.2.2 x hx g (by simp) (by rw [hxk]; simp) (by rw [hxk, hk]) s v h
        · simp at hx; subst hx; exact h
      · intro h; exact h g (by simp) hk
    · rw [if_neg hk]
      constructor
      · intro h x hx hxk
        rcases List.mem_append.mp hx with hx | hx
        · exact h x hx hxk
        · simp at hx; subst hx; exact absurd hxk hk
      · intro h x hx; exact h x (by simp [hx])

theorem foldl_patterns (c : Constrains V) (fs : List (Facet V)) (p : Str → Bool) :
    p ∈ (fs.foldl Constrains.set c).patterns ↔ p ∈ c.patterns ∨ Facet.pattern p ∈ fs := by
  induction fs generalizing c with
  | nil => simp
  | cons f fs ih =>
    rw [List.foldl_cons, ih]
    cases f <;> simp [Constrains.set, or_assoc]

theorem foldl_whitespace (c : Constrains V) (fs : List (Facet V))
    (h : ∀ w, Facet.whiteSpace w ∉ fs) :
    (fs.foldl Constrains.set c).whitespace = c.whitespace := by
  induction fs generalizing c with
  | nil => rfl
  | cons f fs ih =>
    rw [List.foldl_cons, ih _ fun w hw => h w (by simp [hw])]
    cases f with
    | whiteSpace w => exact absurd (by simp) (h w)
    | _ => rfl

theorem mem_parts (f g : Facet V) (h : g ∈ f.parts) : g ∈ g.parts := by
  cases f with
  | length n =>
    simp [Facet.parts] at h
    rcases h with rfl | rfl <;> simp [Facet.parts]
  | _ =>
    simp [Facet.parts] at h
    subst h
    simp [Facet.parts]

theorem parts_holds (cmp : V → V → Option Ordering) (len : V → Nat) (s : Str) (v : V) (f : Facet V)
    (hp : f.isPattern = false) :
    (∀ k, ∀ g ∈ f.parts, g.slot = some k → g.Holds cmp len s v) ↔ f.Holds cmp len s v := by
  cases f with
  | pattern p => simp [Facet.isPattern] at hp
  | length n =>
    simp only [Facet.parts, Facet.Holds]
    constructor
    · intro h
      have h1 := h .minLen (.minLength n) (by simp) rfl
      have h2 := h .maxLen (.maxLength n) (by simp) rfl
      simp only [Facet.Holds] at h1 h2
      omega
    · intro h k g hg hk
      simp at hg
      rcases hg with rfl | rfl <;> simp only [Facet.Holds] <;> omega
  | _ => simp [Facet.parts, Facet.slot, Facet.Holds]

/-- **C58.** The constraints collected from a list of facets check exactly these facets, if a
facet given again is at least as strict. The patterns are alternatives. -/
theorem facets_accept (cmp : V → V → Option Ordering) (len : V → Nat) (fs : List (Facet V))
    (ht : Tightens cmp len fs) (s : Str) (v : V) :
    (fs.foldl Constrains.set {}).Accepts cmp len s v ↔ StepHolds cmp len s v fs := by
  unfold Constrains.Accepts StepHolds
  have hk : (∀ k, (fs.foldl Constrains.set ({} : Constrains V)).SlotOk cmp len s v k) ↔
      ∀ f ∈ fs, f.isPattern = false → f.Holds cmp len s v := by
    rw [← set_parts]
    simp only [foldl_slot cmp len (fs.flatMap Facet.parts) (by
      intro g hg
      obtain ⟨f, _, hf⟩ := List.mem_flatMap.mp hg
      exact mem_parts f g hf) ht s v]
    constructor
    · intro h f hf hp
      exact (parts_holds cmp len s v f hp).mp fun k g hg hgk =>
        h k g (List.mem_flatMap.mpr ⟨f, hf, hg⟩) hgk
    · intro h k g hg hgk
      obtain ⟨f, hf, hgf⟩ := List.mem_flatMap.mp hg
      cases hp : f.isPattern with
      | true =>
        cases f <;> simp [Facet.isPattern] at hp
        simp [Facet.parts] at hgf
        subst hgf
        simp [Facet.slot] at hgk
      | false => exact (parts_holds cmp len s v f hp).mpr (h f hf hp) k g hgf hgk
  rw [hk]
  have hpat : ((fs.foldl Constrains.set ({} : Constrains V)).patterns = [] ∨
      ∃ p ∈ (fs.foldl Constrains.set ({} : Constrains V)).patterns, p s = true) ↔
      ((∀ f ∈ fs, f.isPattern = false) ∨ ∃ f ∈ fs, f.isPattern = true ∧ f.Holds cmp len s v) := by
    have hm := fun p => foldl_patterns ({} : Constrains V) fs p
    simp only [List.not_mem_nil, false_or] at hm
    constructor
    · rintro (h | ⟨p, hp, hps⟩)
      · left
        intro f hf
        cases f with
        | pattern p =>
          have := (hm p).mpr hf
          rw [h] at this; simp at this
        | _ => rfl
      · exact Or.inr ⟨.pattern p, (hm p).mp hp, rfl, hps⟩
    · rintro (h | ⟨f, hf, hp, hps⟩)
      · left
        apply List.eq_nil_iff_forall_not_mem.mpr
        intro p hp
        have := h _ ((hm p).mp hp)
        simp [Facet.isPattern] at this
      · cases f <;> simp [Facet.isPattern] at hp
        rename_i p
        exact Or.inr ⟨p, (hm p).mpr hf, hps⟩
  rw [hpat]
  exact And.comm

theorem apply_simple {B : Type} (b : B) (l : Bool) (fx : Bool) (c : Constrains V)
    (fs : List (Facet V)) (he : ∀ t, Facet.enumeration t ∉ fs) :
    ∃ fx', SProc.applyAll ⟨.simple b l c, fx⟩ fs =
      some ⟨.simple b l (fs.foldl Constrains.set c), fx'⟩ := by
  induction fs generalizing c fx with
  | nil => exact ⟨fx, rfl⟩
  | cons f fs ih =>
    have ih := fun c fx => ih c fx fun t ht => he t (by simp [ht])
    cases f with
    | enumeration t => exact absurd (by simp) (he t)
    | _ =>
      obtain ⟨fx', h⟩ := ih fx _
      exact ⟨fx', h⟩

theorem restrict_simple {B : Type} (b : B) (l : Bool) (c : Constrains V)
    (steps : List (List (Facet V))) (he : ∀ step ∈ steps, ∀ t, Facet.enumeration t ∉ step) :
    restrictAll (.simple b l c) steps = some (.simple b l (steps.flatten.foldl Constrains.set c)) := by
  induction steps generalizing c with
  | nil => rfl
  | cons step steps ih =>
    obtain ⟨fx, h⟩ := apply_simple b l false c step (he step (by simp))
    unfold restrictAll copyBase
    simp only [h, Option.bind_some]
    rw [ih _ fun st hst => he st (by simp [hst]), List.flatten_cons, List.foldl_append]

theorem restrict_reference {B : Type} (b : B) (steps : List (List (Facet V)))
    (he : ∀ step ∈ steps, ∀ t, Facet.enumeration t ∉ step) :
    restrictAll (.reference b 1 (some 1)) steps =
      some (if steps.flatten = [] then .reference b 1 (some 1)
        else .simple b false (steps.flatten.foldl Constrains.set {})) := by
  induction steps with
  | nil => rfl
  | cons step steps ih =>
    cases step with
    | nil =>
      unfold restrictAll copyBase
      simp only [SProc.applyAll, Option.bind_some]
      rw [ih fun st hst => he st (by simp [hst])]
      simp
    | cons f fs =>
      have hf : (⟨.reference b 1 (some 1), false⟩ : SProc B V).apply f =
          some ⟨.simple b false (({} : Constrains V).set f), true⟩ := by
        cases f with
        | enumeration t => exact absurd (by simp) (he _ List.mem_cons_self t)
        | _ => simp [SProc.apply]
      obtain ⟨fx, h⟩ := apply_simple b false true (({} : Constrains V).set f) fs
        fun t ht => he _ (List.mem_cons_self) t (by simp [ht])
      unfold restrictAll copyBase
      simp only [SProc.applyAll, hf, h, Option.bind_some]
      rw [restrict_simple b false _ steps fun st hst => he st (by simp [hst])]
      simp [List.foldl_append]

/-- **C58.** From the schema to the generated code: for a chain of restrictions of a type `b`
(not a list) with facets other than enumerations, each at least as strict as the one it
replaces, where at most one step has patterns, the generated type reads a text as `v` exactly
if `b` reads the text (with the white space facet applied) as `v` and `v` satisfies the facets
of every step. -/
theorem C58_restrictions_partial {B : Type} (b : B) (cmp : V → V → Option Ordering) (len : V → Nat)
    (htot : ∀ a b, cmp a b ≠ none) (steps : List (List (Facet V)))
    (hne : steps.flatten ≠ [])
    (he : ∀ step ∈ steps, ∀ t, Facet.enumeration t ∉ step)
    (ht : Tightens cmp len steps.flatten)
    (hp : steps.Pairwise fun x y =>
      (∀ f ∈ x, f.isPattern = false) ∨ (∀ f ∈ y, f.isPattern = false)) :
    ∃ c : Constrains V, restrictAll (.reference b 1 (some 1)) steps = some (.simple b false c) ∧
      c.renders false = true ∧
      ∀ (read : Str → Except (SErr E) V) (bytes : Str) (v : V),
        simpleTyDe c cmp len read bytes = .ok v ↔
          read (c.whitespace.apply bytes) = .ok v ∧
          ∀ step ∈ steps, StepHolds cmp len (c.whitespace.apply bytes) v step := by
  refine ⟨steps.flatten.foldl Constrains.set {}, ?_, rfl, ?_⟩
  · rw [restrict_reference b steps he, if_neg hne]
  · intro read bytes v
    rw [C58_accepts _ cmp len htot, facets_accept cmp len _ ht]
    refine and_congr_right fun _ => ?_
    generalize ({} : Constrains V) = c0
    generalize (List.foldl Constrains.set c0 steps.flatten).whitespace.apply bytes = s
    clear ht hne he
    unfold StepHolds
    constructor
    · rintro ⟨h1, h2⟩ step hstep
      refine ⟨fun f hf => h1 f (List.mem_flatten.mpr ⟨step, hstep, hf⟩), ?_⟩
      rcases h2 with h2 | ⟨f, hf, hfp, hfh⟩
      · exact Or.inl fun f hf => h2 f (List.mem_flatten.mpr ⟨step, hstep, hf⟩)
      · obtain ⟨st, hst, hfst⟩ := List.mem_flatten.mp hf
        by_cases hs : ∀ f ∈ step, f.isPattern = false
        · exact Or.inl hs
        · right
          have : step = st := by
            obtain ⟨i, hi⟩ := List.getElem?_of_mem hstep
            obtain ⟨j, hj⟩ := List.getElem?_of_mem hst
            rw [List.getElem?_eq_some_iff] at hi hj
            obtain ⟨hil, hi⟩ := hi
            obtain ⟨hjl, hj⟩ := hj
            rw [List.pairwise_iff_getElem] at hp
            have hst' : ¬ ∀ f ∈ st, f.isPattern = false := fun h => by
              rw [h f hfst] at hfp; cases hfp
            rcases Nat.lt_trichotomy i j with h | h | h
            · rcases hp i j hil hjl h with h' | h'
              · rw [hi] at h'; exact absurd h' hs
              · rw [hj] at h'; exact absurd h' hst'
            · subst h; rw [← hi, ← hj]
            · rcases hp j i hjl hil h with h' | h'
              · rw [hj] at h'; exact absurd h' hst'
              · rw [hi] at h'; exact absurd h' hs
          subst this
          exact ⟨f, hfst, hfp, hfh⟩
    · intro h
      refine ⟨fun f hf hfp => ?_, ?_⟩
      · obtain ⟨st, hst, hfst⟩ := List.mem_flatten.mp hf
        exact (h st hst).1 f hfst hfp
      · by_cases hs : ∃ step ∈ steps, ∃ f ∈ step, f.isPattern = true
        · obtain ⟨step, hstep, f, hf, hfp⟩ := hs
          rcases (h step hstep).2 with h' | ⟨g, hg, hgp, hgh⟩
          · rw [h' f hf] at hfp; cases hfp
          · exact Or.inr ⟨g, List.mem_flatten.mpr ⟨step, hstep, hg⟩, hgp, hgh⟩
        · left
          intro f hf
          obtain ⟨st, hst, hfst⟩ := List.mem_flatten.mp hf
          cases hx : f.isPattern with
          | false => rfl
          | true => exact absurd ⟨st, hst, f, hfst, hx⟩ hs


/-! ### Non-vacuity and findings -/

/-- A comparison of numbers. -/
def natCmp (a b : Nat) : Option Ordering := some (compare a b)

/-- Reads decimal digits. -/
def natRead (s : Str) : Except (SErr Unit) Nat :=
  if s.all Char.isDigit && !s.isEmpty then .ok (Decimal.val s) else .error (.value ())

/-- The steps `[minInclusive 3, maxInclusive 100]` and `[maxExclusive 50, pattern]` meet the
hypotheses of `C58_restrictions_partial`; the type accepts ` 42 ` with white space collapsed. -/
example :
    let p : Str → Bool := fun s => s.length == 2
    let steps : List (List (Facet Nat)) :=
      [[.minInclusive 3, .maxInclusive 100, .whiteSpace .collapse], [.maxExclusive 50, .pattern p]]
    Tightens natCmp id steps.flatten ∧
    (steps.Pairwise fun x y =>
      (∀ f ∈ x, f.isPattern = false) ∨ (∀ f ∈ y, f.isPattern = false)) ∧
    (∀ a b, natCmp a b ≠ none) ∧
    (simpleTyDe (steps.flatten.foldl Constrains.set {}) natCmp id natRead " 42 ".toList
      matches .ok 42) = true ∧
    (simpleTyDe (steps.flatten.foldl Constrains.set {}) natCmp id natRead "50".toList
      matches .error .range) = true ∧
    (simpleTyDe (steps.flatten.foldl Constrains.set {}) natCmp id natRead "4".toList
      matches .error .pattern) = true := by
  refine ⟨?_, ?_, by simp [natCmp], by decide +kernel, by decide +kernel, by decide +kernel⟩
  · simp [Tightens, Facet.parts, Facet.slot, Facet.Holds, natCmp, Nat.compare_eq_lt,
      Nat.compare_eq_eq]
    intro v hv
    left; omega
  · simp [Facet.isPattern]

/-- **C58, finding.** The patterns of different restrictions are alternatives: if the base type
demands one pattern and the derived type another, a text that matches only one of them is
accepted. XML Schema demands both (part 2, 4.3.4.3). For every type and all patterns. -/
theorem C58_patterns_of_steps_are_alternatives {B : Type} (b : B)
    (cmp : V → V → Option Ordering) (len : V → Nat) (p q : Str → Bool)
    (read : Str → Except (SErr E) V) (s : Str) (v : V) (hr : read s = .ok v) (hp : p s = false)
    (hq : q s = true) :
    ∃ c : Constrains V,
      restrictAll (.reference b 1 (some 1)) [[.pattern p], [.pattern q]] = some (.simple b false c) ∧
      simpleTyDe c cmp len read s = .ok v ∧
      ¬ (∀ step ∈ [[Facet.pattern p], [Facet.pattern q]],
          StepHolds cmp len (c.whitespace.apply s) v step) := by
  refine ⟨{ patterns := [p, q] }, rfl, ?_, ?_⟩
  · simp [simpleTyDe, Constrains.validation, Constrains.validates, Constrains.needString,
      Constrains.validateStr, WhiteSpace.apply, hp, hq, hr, Constrains.validateValue,
      Constrains.tooSmall, Constrains.tooLarge, Constrains.tooShort, Constrains.tooLong]
  · intro h
    have := (h [.pattern p] (by simp)).2
    simp [Facet.isPattern, Facet.Holds, WhiteSpace.apply, hp] at this

/-- **C58, finding.** A value that compares with nothing (the floating point `NaN`) passes every
range: `cmp` is `partial_cmp`. XML Schema excludes `NaN` from every range with a bound (part 2,
3.2.4.1). -/
theorem C58_incomparable_passes_ranges (c : Constrains V) (cmp : V → V → Option Ordering)
    (len : V → Nat) (v : V) (hv : ∀ x, cmp v x = none) (h1 : c.minLength = none)
    (h2 : c.maxLength = none) :
    c.validateValue (E := E) cmp len v = .ok () := by
  unfold Constrains.validateValue Constrains.tooSmall Constrains.tooLarge Constrains.tooShort
    Constrains.tooLong
  rw [h1, h2]
  cases c.start <;> cases c.end_ <;> simp [hv]

/-- `str::len`: the number of bytes. -/
def utf8Len (s : Str) : Nat := (s.map Char.utf8Size).sum

/-- For ASCII texts the number of bytes is the number of characters. -/
theorem utf8Len_ascii (s : Str) (h : ∀ c ∈ s, c.utf8Size = 1) : utf8Len s = s.length := by
  induction s with
  | nil => rfl
  | cons c s ih =>
    have := ih fun d hd => h d (by simp [hd])
    simp only [utf8Len, List.map_cons, List.sum_cons, List.length_cons] at this ⊢
    rw [this, h c (by simp)]; omega

/-- The number of bytes of a text is at least the number of its characters, so that with
`maxLength` no text that is too long gets through, and with `minLength` no valid text is
rejected. -/
theorem C58_length_bytes_ge (s : Str) : s.length ≤ utf8Len s := by
  induction s with
  | nil => simp [utf8Len]
  | cons c s ih =>
    simp only [utf8Len, List.map_cons, List.sum_cons, List.length_cons] at ih ⊢
    have := Char.utf8Size_pos c
    omega

/-- **C58, finding.** The length of a string is counted in bytes, not in characters: `ä` is
rejected by `maxLength` 1 and accepted by `minLength` 2. -/
theorem C58_length_counts_bytes :
    (simpleTyDe (E := Unit) ({ maxLength := some 1 } : Constrains Str) (fun _ _ => some .eq) utf8Len
      (fun s => .ok s) ['ä'] matches .error (.maxLength 1)) = true ∧
    (simpleTyDe (E := Unit) ({ minLength := some 2 } : Constrains Str) (fun _ _ => some .eq) utf8Len
      (fun s => .ok s) ['ä'] matches .ok _) = true ∧
    (Facet.maxLength 1 : Facet Str).Holds (fun _ _ => some .eq) List.length ['ä'] ['ä'] ∧
    ¬ (Facet.minLength 2 : Facet Str).Holds (fun _ _ => some .eq) List.length ['ä'] ['ä'] := by
  refine ⟨by decide +kernel, by decide +kernel, ?_, ?_⟩ <;> simp [Facet.Holds]

/-- **C58, finding.** The generator panics for every list type with a pattern, digits or white
space facet: a restriction of `xs:list` with such a facet is a list whose facets need the
text. -/
theorem C58_list_facet_panics {B : Type} (b : B) (f : Facet V)
    (hf : f.isPattern = true ∨ (∃ n, f = .totalDigits n) ∨ (∃ n, f = .fractionDigits n) ∨
      f = .whiteSpace .collapse ∨ f = .whiteSpace .replace) :
    ∃ c : Constrains V,
      restrictAll (.reference b 0 none) [[f]] = some (.simple b true c) ∧ c.renders true = false := by
  rcases hf with h | ⟨n, rfl⟩ | ⟨n, rfl⟩ | rfl | rfl
  · cases f <;> simp [Facet.isPattern] at h
    exact ⟨_, rfl, rfl⟩
  all_goals exact ⟨_, rfl, rfl⟩

/-- **C58.** A list type restricted by lengths only is generated, and the lengths hold for the
number of its items. -/
theorem C58_list_lengths {B : Type} (b : B) (cmp : V → V → Option Ordering) (len : V → Nat)
    (htot : ∀ a b, cmp a b ≠ none) (lo hi : Nat) :
    ∃ c : Constrains V,
      restrictAll (.reference b 0 none) [[.minLength lo], [.maxLength hi]] = some (.simple b true c) ∧
      c.renders true = true ∧
      ∀ (read : Str → Except (SErr E) V) (bytes : Str) (v : V),
        simpleTyDe c cmp len read bytes = .ok v ↔
          read bytes = .ok v ∧ lo ≤ len v ∧ len v ≤ hi := by
  refine ⟨_, rfl, rfl, ?_⟩
  intro read bytes v
  rw [C58_accepts _ cmp len htot]
  refine and_congr_right fun _ => ?_
  unfold Constrains.Accepts
  constructor
  · rintro ⟨_, h⟩
    exact ⟨h .minLen lo rfl, h .maxLen hi rfl⟩
  · rintro ⟨h1, h2⟩
    refine ⟨Or.inl rfl, fun k => ?_⟩
    cases k with
    | minLen => intro n hn; cases hn; exact h1
    | maxLen => intro n hn; cases hn; exact h2
    | lower => trivial
    | upper => trivial
    | total => intro n hn; cases hn
    | fraction => intro n hn; cases hn

/-! #### Enumerations in restrictions -/

theorem apply_enumeration_facets {B : Type} (c : Constrains V) (fx : Bool) (ts : List Str)
    (ls : List Str) :
    ∃ ts', SProc.applyAll (⟨.enumeration c ts, fx⟩ : SProc B V) (ls.map Facet.enumeration) =
        some ⟨.enumeration c ts', fx⟩ ∧ ∀ t, t ∈ ts' ↔ t ∈ ts ∨ t ∈ ls := by
  induction ls generalizing ts with
  | nil => exact ⟨ts, rfl, by simp⟩
  | cons l ls ih =>
    obtain ⟨ts', h1, h2⟩ := ih (if l ∈ ts then ts else ts ++ [l])
    refine ⟨ts', h1, ?_⟩
    intro t
    rw [h2]
    split
    · rename_i hl
      constructor
      · rintro (h | h)
        · exact Or.inl h
        · exact Or.inr (by simp [h])
      · rintro (h | h)
        · exact Or.inl h
        · rcases List.mem_cons.mp h with rfl | h
          · exact Or.inl hl
          · exact Or.inr h
    · simp [or_assoc]

/-- **C58.** Restricting a type with values: the generated enumeration has exactly the values
of the last restriction, whatever type is restricted, as XML Schema says (the values of the
base type are replaced). -/
theorem C58_enumeration_values {B : Type} (v : SVariant B V) (l : Str) (ls : List Str) :
    ∃ c ts, restrictAll v [(l :: ls).map Facet.enumeration] = some (.enumeration c ts) ∧
      ∀ t, t ∈ ts ↔ t ∈ l :: ls := by
  have key : ∃ c fx, (copyBase v).apply (.enumeration l) =
      some ⟨.enumeration c [l], fx⟩ := by
    cases v with
    | reference b min max => exact ⟨_, _, rfl⟩
    | simple b il c => exact ⟨_, _, rfl⟩
    | enumeration c ts => exact ⟨c, false, rfl⟩
    | union c ms => exact ⟨_, _, rfl⟩
  obtain ⟨c, fx, hk⟩ := key
  obtain ⟨ts, h1, h2⟩ := apply_enumeration_facets (B := B) c fx [l] ls
  refine ⟨c, ts, ?_, ?_⟩
  · simp [restrictAll, SProc.applyAll, hk, h1]
  · intro t; rw [h2]; simp

/-- **C58, finding.** Restricting an enumeration by any other facet removes its values: the
generated enumeration has no values, so that it rejects every text. -/
theorem C58_facet_drops_enumeration {B : Type} [DecidableEq V] (c : Constrains V) (ts : List Str)
    (f : Facet V) (hf : ∀ t, f ≠ .enumeration t) :
    ∃ c', restrictAll (B := B) (.enumeration c ts) [[f]] = some (.enumeration c' []) ∧
      ∀ (base : Option (Str → Except (SErr E) V)) s, ∃ e, enumDe c' base [] s = .error e := by
  have h : (copyBase (B := B) (.enumeration c ts)).apply f =
      some ⟨.enumeration (c.set f) [], false⟩ := by
    cases f with
    | enumeration t => exact absurd rfl (hf t)
    | _ => rfl
  refine ⟨c.set f, by simp [restrictAll, SProc.applyAll, h], ?_⟩
  intro base s
  unfold enumDe
  cases (c.set f).validation (E := E) s with
  | error e => exact ⟨e, rfl⟩
  | ok s' =>
    have hb : (base.bind fun d => (d s').toOption.bind fun v =>
        enumConstant (E := E) v [] 0) = none := by
      cases base with
      | none => rfl
      | some d => cases h : (d s').toOption <;> simp [enumConstant, h]
    simp [enumLiteral, hb, enumOther]

/-- **C58, finding.** A restriction with an inline base type keeps the values of the base: the
restriction of the inline enumeration `a`, `b` to `a` accepts both. -/
theorem C58_inline_base_keeps_values {B : Type} (c : Constrains V) (ts ls : List Str) (fx : Bool) :
    ∃ ts', SProc.applyAll (⟨.enumeration c ts, fx⟩ : SProc B V) (ls.map Facet.enumeration) =
      some ⟨.enumeration c ts', fx⟩ ∧ ∀ t ∈ ts, t ∈ ts' := by
  obtain ⟨ts', h1, h2⟩ := apply_enumeration_facets (B := B) c fx ts ls
  exact ⟨ts', h1, fun t ht => (h2 t).mpr (Or.inl ht)⟩

/-- **C58, finding.** A restriction of an inline union or list (whose variant is fixed) by an
enumeration panics. -/
theorem C58_inline_union_enumeration_panics {B : Type} (c : Constrains V) (ms : List B) (t : Str) :
    (⟨.union c ms, true⟩ : SProc B V).apply (.enumeration t) = none ∧
    ∀ (b : B) min max, (⟨.reference b min max, true⟩ : SProc B V).apply (.enumeration t) = none :=
  ⟨rfl, fun _ _ _ => rfl⟩

/-! #### What a type with fraction digits writes -/

/-- `format!("{inner:.0N}")`, serialize.rs 489-495, for a floating point number without a
fractional part: the digits, then a point and `f` zeros (Rust std, assumed behaviour). -/
def writeFraction (i f : Nat) : Str :=
  Decimal.dec i ++ (if f = 0 then [] else '.' :: List.replicate f '0')

theorem captures_fraction (i f : Nat) :
    decimalCaptures (writeFraction i f) =
      some (Decimal.dec i, if f = 0 then none else some (List.replicate f '0')) := by
  rw [decimalCaptures_iff]
  refine ⟨[], Or.inl rfl, Decimal.dec_ne_nil i, Decimal.dec_isDigit i, ?_⟩
  by_cases hf : f = 0
  · left; simp [writeFraction, hf]
  · right
    refine ⟨List.replicate f '0', by simp [hf], ?_, ?_⟩
    · intro c hc
      rw [List.eq_of_mem_replicate hc]; rfl
    · simp [writeFraction, hf]

/-- **C58, finding.** A type with `totalDigits` `t` and `fractionDigits` `f` may reject the text
it writes itself: a whole number with `d ≤ t` digits is accepted, but it is written with `f`
zeros, and rejected when read if `d + f > t`. -/
theorem C58_own_output_rejected (i t f : Nat) (hf : 0 < f) (hd : (Decimal.dec i).length ≤ t)
    (hx : t < (Decimal.dec i).length + f) :
    let c : Constrains Nat := { totalDigits := some t, fractionDigits := some f }
    c.validateStr (E := E) (Decimal.dec i) = .ok () ∧
    c.validateStr (E := E) (writeFraction i f) = .error (.digits (.totalDigits t)) := by
  have h0 := captures_fraction i 0
  have hw : writeFraction i 0 = Decimal.dec i := by simp [writeFraction]
  rw [hw] at h0
  simp only [if_true] at h0
  have h1 := captures_fraction i f
  rw [if_neg (by omega)] at h1
  constructor
  · simp [Constrains.validateStr, totalDigits, fractionDigits, h0, hd]
  · have : ¬ ((Decimal.dec i).length + f ≤ t) := by omega
    simp [Constrains.validateStr, totalDigits, h1, this]

/-- `123` with `totalDigits` 3 and `fractionDigits` 2. -/
example : (Decimal.dec 123).length ≤ 3 ∧ 3 < (Decimal.dec 123).length + 2 ∧
    writeFraction 123 2 = "123.00".toList := by decide +kernel

end
end Verif.Gen

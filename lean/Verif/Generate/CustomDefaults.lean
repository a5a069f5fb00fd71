/-!
# Default values of custom types (C103)

Models `make_from_str_value_generator` (xsd-parser/src/pipeline/interpreter/mod.rs 585-608), which makes the default values of
`BigInt`, `BigUint` (469-505), `NonZeroUsize`, `NonZeroIsize` (514-547), `HexString` and `Base64String` (254-263), inside of
`make_value_renderer` (pipeline/generator/context.rs 182-370), both with `ValueGeneratorMode::Value`. Default values of the other types
are C92; here a built-in type is only the function that parses its text.
-/

namespace Verif.Generate.CustomDefaults

abbrev Txt := List Char

variable {V : Type}

/-! ## Model -/

/-- The types an attribute may have: a built-in type and a custom type with their `FromStr`, a union, a reference. -/
inductive Ty (V : Type) where
  | builtIn (parse : Txt → Option V)
  | custom (parse : Txt → Option V)
  | union (members : List (Ty V))
  | ref (target : Ty V)

/-- A value of a generated type; for a union the number of the variant and its content. -/
inductive Val (V : Type) where
  | leaf (v : V)
  | variant (i : Nat) (v : Val V)
deriving DecidableEq, Repr

/-- The expression in the generated function for the default: a literal, `<T as FromStr>::from_str("…").unwrap()`, `T::Variant(…)`. -/
inductive Expr (V : Type) where
  | literal (v : V)
  | fromStrUnwrap (parse : Txt → Option V) (s : Txt)
  | variant (i : Nat) (e : Expr V)

mutual
/-- `make_value_renderer` (context.rs 182-370); `none` is `Error::InvalidDefaultValue`. A built-in type parses the text (198-214), a
custom type calls its generator (260-264), which takes every text (mod.rs 599-607). -/
def render : Ty V → Txt → Option (Expr V)
  | .builtIn p, s => match p s with
    | some v => some (.literal v)
    | none => none
  | .custom p, s => some (.fromStrUnwrap p s)
  | .union ms, s => renderMembers ms s 0
  | .ref t, s => render t s
/-- The loop over the members of a union (context.rs 306-328). -/
def renderMembers : List (Ty V) → Txt → Nat → Option (Expr V)
  | [], _, _ => none
  | t :: ts, s, i => match render t s with
    | some e => some (.variant i e)
    | none => renderMembers ts s (i + 1)
end

/-- What the expression gives if the attribute is missing; `none` is the panic of `unwrap`. -/
def run : Expr V → Option (Val V)
  | .literal v => some (.leaf v)
  | .fromStrUnwrap p s => (p s).map .leaf
  | .variant i e => (run e).map (.variant i)

/-! ## Specification -/

mutual
/-- The value of the type that a text stands for (C53: a union takes the first member that accepts the text). -/
def reads : Ty V → Txt → Option (Val V)
  | .builtIn p, s => (p s).map .leaf
  | .custom p, s => (p s).map .leaf
  | .union ms, s => readsMembers ms s 0
  | .ref t, s => reads t s
/-- The first member that accepts the text, with its number. -/
def readsMembers : List (Ty V) → Txt → Nat → Option (Val V)
  | [], _, _ => none
  | t :: ts, s, i => match reads t s with
    | some v => some (.variant i v)
    | none => readsMembers ts s (i + 1)
end

/-- `p` is the `FromStr` of a custom type inside the type. -/
inductive HasCustom (p : Txt → Option V) : Ty V → Prop
  | custom : HasCustom p (.custom p)
  | union {t : Ty V} {ms : List (Ty V)} : t ∈ ms → HasCustom p t → HasCustom p (.union ms)
  | ref {t : Ty V} : HasCustom p t → HasCustom p (.ref t)

/-! ## Proofs -/

mutual
theorem render_none : ∀ (t : Ty V) (s : Txt), render t s = none → reads t s = none
  | .builtIn p, s, h => by
    cases hp : p s <;> simp_all [render, reads]
  | .custom p, s, h => by simp [render] at h
  | .union ms, s, h => by
    rw [render] at h
    rw [reads]
    exact renderMembers_none ms s 0 h
  | .ref t, s, h => by
    rw [render] at h
    rw [reads]
    exact render_none t s h
theorem renderMembers_none : ∀ (ms : List (Ty V)) (s : Txt) (i : Nat), renderMembers ms s i = none → readsMembers ms s i = none
  | [], _, _, _ => rfl
  | t :: ts, s, i, h => by
    rw [renderMembers] at h
    cases hr : render t s with
    | some e => simp [hr] at h
    | none =>
      simp only [hr] at h
      simp [readsMembers, render_none t s hr, renderMembers_none ts s (i + 1) h]
end

mutual
theorem render_run : ∀ (t : Ty V) (s : Txt) (e : Expr V) (v : Val V), render t s = some e → run e = some v → reads t s = some v
  | .builtIn p, s, e, v, h, hv => by
    cases hp : p s with
    | none => simp [render, hp] at h
    | some x =>
      simp only [render, hp, Option.some.injEq] at h
      subst h
      simpa [reads, hp, run] using hv
  | .custom p, s, e, v, h, hv => by
    simp only [render, Option.some.injEq] at h
    subst h
    simpa [reads, run] using hv
  | .union ms, s, e, v, h, hv => by
    rw [render] at h
    rw [reads]
    exact renderMembers_run ms s 0 e v h hv
  | .ref t, s, e, v, h, hv => by
    rw [render] at h
    rw [reads]
    exact render_run t s e v h hv
theorem renderMembers_run : ∀ (ms : List (Ty V)) (s : Txt) (i : Nat) (e : Expr V) (v : Val V), renderMembers ms s i = some e →
    run e = some v → readsMembers ms s i = some v
  | [], _, _, _, _, h, _ => by simp [renderMembers] at h
  | t :: ts, s, i, e, v, h, hv => by
    rw [renderMembers] at h
    cases hr : render t s with
    | none =>
      simp only [hr] at h
      simp [readsMembers, render_none t s hr, renderMembers_run ts s (i + 1) e v h hv]
    | some e' =>
      simp only [hr, Option.some.injEq] at h
      subst h
      cases hv' : run e' with
      | none => simp [run, hv'] at hv
      | some v' =>
        simp only [run, hv', Option.map_some, Option.some.injEq] at hv
        subst hv
        simp [readsMembers, render_run t s e' v' hr hv']
end

mutual
theorem render_ok : ∀ (t : Ty V) (s : Txt) (e : Expr V), (∀ p, HasCustom p t → p s ≠ none) → render t s = some e → run e ≠ none
  | .builtIn p, s, e, _, h => by
    cases hp : p s with
    | none => simp [render, hp] at h
    | some x =>
      simp only [render, hp, Option.some.injEq] at h
      subst h
      simp [run]
  | .custom p, s, e, hc, h => by
    simp only [render, Option.some.injEq] at h
    subst h
    simpa [run] using hc p .custom
  | .union ms, s, e, hc, h => by
    rw [render] at h
    exact renderMembers_ok ms s 0 e (fun p t ht hp => hc p (.union ht hp)) h
  | .ref t, s, e, hc, h => by
    rw [render] at h
    exact render_ok t s e (fun p hp => hc p (.ref hp)) h
theorem renderMembers_ok : ∀ (ms : List (Ty V)) (s : Txt) (i : Nat) (e : Expr V), (∀ p, ∀ t ∈ ms, HasCustom p t → p s ≠ none) →
    renderMembers ms s i = some e → run e ≠ none
  | [], _, _, _, _, h => by simp [renderMembers] at h
  | t :: ts, s, i, e, hc, h => by
    rw [renderMembers] at h
    cases hr : render t s with
    | none =>
      simp only [hr] at h
      exact renderMembers_ok ts s (i + 1) e (fun p t' ht => hc p t' (List.mem_cons_of_mem _ ht)) h
    | some e' =>
      simp only [hr, Option.some.injEq] at h
      subst h
      simpa [run] using render_ok t s e' (fun p => hc p t List.mem_cons_self) hr
end

/-- A default value is never a wrong one: if the generated function returns, it returns the value the text stands for. -/
theorem C103_no_wrong_value (t : Ty V) (s : Txt) (e : Expr V) (v : Val V) (h : render t s = some e) (hv : run e = some v) :
    reads t s = some v := render_run t s e v h hv

/-- A default value that is rejected by the generator stands for no value of the type. -/
theorem C103_rejected (t : Ty V) (s : Txt) (h : render t s = none) : reads t s = none := render_none t s h

/-- If all custom types inside the type accept the text, the generator accepts exactly the texts that stand for a value, and the generated
function returns this value. Partial: without this hypothesis the function may panic (`C103_union_panics`, `C103_not_checked`). -/
theorem C103_value_partial (t : Ty V) (s : Txt) (hc : ∀ p, HasCustom p t → p s ≠ none) : (render t s).bind run = reads t s := by
  cases h : render t s with
  | none => simp [render_none t s h]
  | some e =>
    cases hv : run e with
    | none => exact absurd hv (render_ok t s e hc h)
    | some v => simp [hv, render_run t s e v h hv]

/-- Finding: the text is not checked when the code is generated, as it is for built-in types: the generated function panics when the
attribute is missing. -/
theorem C103_not_checked (p : Txt → Option V) (s : Txt) (h : p s = none) :
    ∃ e, render (.custom p) s = some e ∧ run e = none := ⟨_, rfl, by simp [run, h]⟩

/-- Finding: in a union, a custom type takes every default value, also one that is valid for a later member only: the generated
function panics although the default value is valid. -/
theorem C103_union_panics (p : Txt → Option V) (t : Ty V) (ts : List (Ty V)) (s : Txt) (v : Val V) (h : p s = none)
    (ht : reads t s = some v) :
    reads (.union (.custom p :: t :: ts)) s = some (.variant 1 v) ∧ ∃ e, render (.union (.custom p :: t :: ts)) s = some e ∧ run e = none := by
  refine ⟨by simp [reads, readsMembers, h, ht], _, rfl, by simp [run, h]⟩

/-! ## Non-vacuity -/

/-- A type of natural numbers, and texts. -/
def number (s : Txt) : Option (Nat ⊕ Txt) := if s ≠ [] ∧ s.all Char.isDigit then some (.inl s.length) else none
def text (s : Txt) : Option (Nat ⊕ Txt) := some (.inr s)

/-- `<xs:union memberTypes="xs:integer xs:string"/>` with `BigInt` and the default `auto`. -/
example : number "auto".toList = none ∧ reads (.builtIn text) "auto".toList = some (.leaf (.inr "auto".toList)) ∧
    (render (.union [.custom number, .builtIn text]) "auto".toList).bind run = none ∧
    (render (.union [.custom number, .builtIn text]) "17".toList).bind run = some (.variant 0 (.leaf (.inl 2))) ∧
    (render (.union [.builtIn number, .ref (.builtIn text)]) "auto".toList).bind run = some (.variant 1 (.leaf (.inr "auto".toList))) ∧
    (render (.builtIn number) "auto".toList).isNone := by decide +kernel

/-- The hypothesis of `C103_value_partial`. -/
example : ∀ p, HasCustom p (.union [.custom number, .builtIn text]) → p "17".toList ≠ none := by
  rintro p (_ | ⟨ht, hp⟩)
  simp only [List.mem_cons, List.not_mem_nil, or_false] at ht
  rcases ht with rfl | rfl <;> cases hp
  decide

end Verif.Generate.CustomDefaults

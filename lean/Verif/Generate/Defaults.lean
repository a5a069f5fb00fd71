import Verif.Gen.Simple
import Verif.Runtime.BuiltIn

/-!
# Default values of attributes (C92)

* `make_value_renderer` with `ValueGeneratorMode::Value` (xsd-parser/src/pipeline/generator/context.rs 182-370): the expression for
  the default value of an attribute (data/complex.rs 808-814);
* `DefaultsRenderStep` (renderer/steps/defaults.rs 73-87): `fn default_x() -> T { expression }`, called by the deserializer if the
  attribute is missing;
* the generated types the expression has to fit (renderer/steps/types.rs 38-285, generator/data/reference.rs 28-32), and how they read
  a text (C53, C58, C05, C08, C70).

Types are trees: the simple types of a schema are not recursive. Custom types bring their own function and are left out, so are
enumerations with `ADVANCED_ENUMS` (as default the values of an enumeration are compared as texts). Names of types are numbers.
-/

namespace Verif.Generate.Defaults

open Verif.Rt Verif.Rt.BuiltIn Verif.Gen

/-! ## Types and values -/

/-- A value of a generated type. Of a floating point number only the text is kept. -/
inductive DVal
  | int (v : Int)
  | float (s : Str)
  | bool (b : Bool)
  | str (s : Str)
  /-- the variant with number `i` -/
  | unit (i : Nat)
  /-- the variant with number `i` and its content -/
  | inner (i : Nat) (v : DVal)
  /-- a tuple struct with one field -/
  | wrap (v : DVal)
  | list (vs : List DVal)

/-- `MetaTypeVariant`, models/meta/mod.rs, as far as simple types are concerned; `n` is the path of the generated type. -/
inductive VTy
  | int (t : RustInt)
  /-- `f64` (`wide`) or `f32` -/
  | float (wide : Bool)
  | bool
  | string
  /-- an enumeration; a variant is a text or has a type -/
  | enum (n : Nat) (c : Constrains DVal) (vs : List (Str ⊕ VTy))
  | union (n : Nat) (c : Constrains DVal) (ms : List VTy)
  /-- a reference that occurs exactly once; a new type or an alias, reference.rs 28-32 -/
  | ref (n : Nat) (newType : Bool) (t : VTy)
  /-- a reference that occurs any number of times -/
  | list (n : Nat) (newType : Bool) (t : VTy)
  /-- `SimpleMeta` -/
  | restr (n : Nat) (c : Constrains DVal) (t : VTy)

/-- What is not modelled: the width of a pointer, which numbers are too large for a floating point type, the comparison and the length
of values. -/
structure Env where
  w : Nat
  overflow : Bool → Str → Bool
  cmp : DVal → DVal → Option Ordering
  len : DVal → Nat

/-! ## Reading -/

mutual
/-- `DeserializeBytes` of the type: deserialize.rs 88-166 (unions), 558-628 (references), 630-784 (enumerations), 786-851 (restricted
types) in renderer/steps/quick_xml, and the types of Rust. -/
def de (E : Env) : VTy → Str → Except (SErr Unit) DVal
  | .int t, s => match parseInt E.w t s with
    | some v => .ok (.int v)
    | none => .error (.value ())
  | .float _, s => if parseFloat s then .ok (.float s) else .error (.value ())
  | .bool, s => match parseBool s with
    | some b => .ok (.bool b)
    | none => .error (.value ())
  | .string, s => .ok (.str s)
  | .enum _ c vs, s => match c.validation (E := Unit) s with
    | .error e => .error e
    | .ok _ => match enumLiteral s (deVariants E vs) 0 with
      | some i => .ok (.unit i)
      | none => match enumOther (deVariants E vs) 0 none with
        | none => .error .unknownValue
        | some (i, d) => (d s).map (.inner i)
  | .union _ c ms, s => (unionDe c (deMembers E ms) s).map fun p => .inner p.1 p.2
  | .ref _ nt t, s => if nt then (de E t s).map .wrap else de E t s
  | .list _ nt t, s =>
    (deserializeList (fun x => de E t x) s).map fun vs => if nt then .wrap (.list vs) else .list vs
  | .restr _ c t, s => (simpleTyDe c E.cmp E.len (fun x => de E t x) s).map .wrap
def deVariants (E : Env) : List (Str ⊕ VTy) → List (EVariant Unit DVal)
  | [] => []
  | .inl t :: vs => .literal t :: deVariants E vs
  | .inr t :: vs => .other (fun x => de E t x) :: deVariants E vs
def deMembers (E : Env) : List VTy → List (Str → Except (SErr Unit) DVal)
  | [] => []
  | t :: ts => (fun x => de E t x) :: deMembers E ts
end

/-! ## The expression -/

/-- The expressions `make_value_renderer` returns. -/
inductive Expr
  /-- `5i32` -/
  | int (t : RustInt) (v : Int)
  | float (wide : Bool) (s : Str)
  | bool (b : Bool)
  /-- `String::from("…")` -/
  | stringFrom (s : Str)
  /-- `N::Variant` -/
  | variant (n i : Nat)
  /-- `N::Variant(e)` -/
  | variantOf (n i : Nat) (e : Expr)
  /-- `N(e)` -/
  | tuple (n : Nat) (e : Expr)
  /-- `Vec::new()` -/
  | vecNew

/-- `InvalidDefaultValue`, or a panic in `Literal::f64_suffixed`. -/
inductive DErr | invalid | panic
deriving DecidableEq

/-- The boolean values, context.rs 230-236. -/
def boolDefault (s : Str) : Option Bool :=
  let l := s.map Char.toLower
  if l = "true".toList ∨ l = "yes".toList ∨ l = "1".toList then some true
  else if l = "false".toList ∨ l = "no".toList ∨ l = "0".toList then some false
  else none

/-- The text of a finite number. (`Literal::f32_suffixed` and `f64_suffixed` of proc_macro2 panic for the others.) -/
def Env.finite (E : Env) (wide : Bool) (s : Str) : Bool := isNumber (dropSign s) && !E.overflow wide s

mutual
/-- `make_value_renderer` with `ValueGeneratorMode::Value`, context.rs 182-370. -/
def render (E : Env) : VTy → Str → Except DErr Expr
  | .int t, s => match parseInt E.w t s with
    | some v => .ok (.int t v)
    | none => .error .invalid
  | .float d, s =>
    if parseFloat s then (if E.finite d s then .ok (.float d s) else .error .panic) else .error .invalid
  | .bool, s => match boolDefault s with
    | some b => .ok (.bool b)
    | none => .error .invalid
  | .string, s => .ok (.stringFrom s)
  | .enum n _ vs, s => renderVariants E n vs s 0
  | .union n _ ms, s => renderMembers E n ms s 0
  | .ref _ _ t, s => render E t s
  | .list n _ _, s => if s = [] then .ok (.tuple n .vecNew) else .error .invalid
  | .restr n _ t, s => match render E t s with
    | .ok e => .ok (.tuple n e)
    | .error x => .error x
/-- The loop over the variants of an enumeration, 269-304. -/
def renderVariants (E : Env) (n : Nat) : List (Str ⊕ VTy) → Str → Nat → Except DErr Expr
  | [], _, _ => .error .invalid
  | .inl t :: vs, s, i => if t = s then .ok (.variant n i) else renderVariants E n vs s (i + 1)
  | .inr t :: vs, s, i => match render E t s with
    | .ok e => .ok (.variantOf n i e)
    | .error .panic => .error .panic
    | .error .invalid => renderVariants E n vs s (i + 1)
/-- The loop over the types of a union, 309-327. -/
def renderMembers (E : Env) (n : Nat) : List VTy → Str → Nat → Except DErr Expr
  | [], _, _ => .error .invalid
  | t :: ts, s, i => match render E t s with
    | .ok e => .ok (.variantOf n i e)
    | .error .panic => .error .panic
    | .error .invalid => renderMembers E n ts s (i + 1)
end

/-! ## What Rust makes of the expression -/

mutual
/-- The value of an expression of the given type; `none` if it has not that type. (An alias stands for its target, and `N(…)` is not an
expression if `N` is an alias of `Vec`.) -/
def eval : VTy → Expr → Option DVal
  | .int t, .int t' v => if t = t' then some (.int v) else none
  | .float d, .float d' s => if d = d' then some (.float s) else none
  | .bool, .bool b => some (.bool b)
  | .string, .stringFrom s => some (.str s)
  | .enum n _ vs, .variant n' i =>
    if n = n' then (match vs[i]? with | some (.inl _) => some (.unit i) | _ => none) else none
  | .enum n _ vs, .variantOf n' i e => if n = n' then (evalVariant vs i e).map (.inner i) else none
  | .union n _ ms, .variantOf n' i e => if n = n' then (evalMember ms i e).map (.inner i) else none
  | .ref n nt t, e =>
    if nt then (match e with | .tuple n' e' => if n = n' then (eval t e').map .wrap else none | _ => none) else eval t e
  | .list n nt _, .tuple n' .vecNew => if nt = true ∧ n = n' then some (.wrap (.list [])) else none
  | .restr n _ t, .tuple n' e => if n = n' then (eval t e).map .wrap else none
  | _, _ => none
def evalVariant : List (Str ⊕ VTy) → Nat → Expr → Option DVal
  | [], _, _ => none
  | .inl _ :: _, 0, _ => none
  | .inr t :: _, 0, e => eval t e
  | .inl _ :: vs, i + 1, e => evalVariant vs i e
  | .inr _ :: vs, i + 1, e => evalVariant vs i e
def evalMember : List VTy → Nat → Expr → Option DVal
  | [], _, _ => none
  | t :: _, 0, e => eval t e
  | _ :: ts, i + 1, e => evalMember ts i e
end

/-! ## Specification -/

mutual
/-- No facets anywhere, and in an enumeration only the last variant has a type: then a type accepts no text as default that it cannot
read (apart from booleans). -/
def Free : VTy → Prop
  | .int _ | .float _ | .bool | .string => True
  | .enum _ c vs => c = {} ∧ FreeVariants vs
  | .union _ c ms => c = {} ∧ FreeMembers ms
  | .ref _ _ t => Free t
  | .list _ _ _ => False
  | .restr _ c t => c = {} ∧ Free t
def FreeVariants : List (Str ⊕ VTy) → Prop
  | [] => True
  | .inl _ :: vs => FreeVariants vs
  | .inr t :: vs => vs = [] ∧ Free t
def FreeMembers : List VTy → Prop
  | [] => True
  | t :: ts => Free t ∧ FreeMembers ts
end

mutual
/-- No lists, no new types for references, no white space facet; in an enumeration only the last variant has a type; all but the last
member of a union have no facets. -/
def Plain : VTy → Prop
  | .int _ | .float _ | .bool | .string => True
  | .enum _ c vs => c.whitespace = .preserve ∧ PlainVariants vs
  | .union _ c ms => c.whitespace = .preserve ∧ PlainMembers ms
  | .ref _ nt t => nt = false ∧ Plain t
  | .list _ _ _ => False
  | .restr _ c t => c.whitespace = .preserve ∧ Plain t
def PlainVariants : List (Str ⊕ VTy) → Prop
  | [] => True
  | .inl _ :: vs => PlainVariants vs
  | .inr t :: vs => vs = [] ∧ Plain t
def PlainMembers : List VTy → Prop
  | [] => True
  | t :: ts => Plain t ∧ (ts = [] ∨ Free t) ∧ PlainMembers ts
end

/-! ## Proofs -/

theorem validation_preserve {c : Constrains DVal} (h : c.whitespace = .preserve) {s s' : Str}
    (hv : c.validation (E := Unit) s = .ok s') : s' = s := by
  unfold Constrains.validation at hv
  by_cases h1 : c.validates = true
  · rw [if_pos h1] at hv
    simp only [h, WhiteSpace.apply] at hv
    by_cases h2 : c.needString = true
    · rw [if_pos h2] at hv
      cases h3 : c.validateStr (E := Unit) s with
      | error e => rw [h3] at hv; simp at hv
      | ok u => rw [h3] at hv; simpa using hv.symm
    · rw [if_neg h2] at hv; simpa using hv.symm
  · rw [if_neg h1] at hv; simpa using hv.symm

theorem validation_free (s : Str) : ({} : Constrains DVal).validation (E := Unit) s = .ok s := rfl

theorem validateValue_free (E : Env) (v : DVal) :
    ({} : Constrains DVal).validateValue (E := Unit) E.cmp E.len v = .ok () := rfl

theorem boolDefault_of_parseBool {s : Str} {b : Bool} (h : parseBool s = some b) : boolDefault s = some b := by
  cases b with
  | true =>
    have := (C08_true_iff s).mp h
    simp only [trueTexts, List.map_cons, List.map_nil, List.mem_cons, List.not_mem_nil, or_false] at this
    rcases this with rfl | rfl | rfl | rfl | rfl | rfl | rfl <;> decide
  | false =>
    have := (C08_false_iff s).mp h
    simp only [falseTexts, List.map_cons, List.map_nil, List.mem_cons, List.not_mem_nil, or_false] at this
    rcases this with rfl | rfl | rfl | rfl | rfl | rfl | rfl <;> decide

theorem enumLiteral_shift (s : Str) : ∀ (vs : List (EVariant Unit DVal)) (k : Nat),
    enumLiteral s vs k = (enumLiteral s vs 0).map (· + k) := by
  intro vs
  induction vs with
  | nil => intro k; rfl
  | cons v vs ih =>
    intro k
    cases v with
    | literal t =>
      simp only [enumLiteral]
      by_cases h : s = t
      · simp [h]
      · simp only [h, if_false]
        rw [ih (k + 1), ih (0 + 1)]
        cases enumLiteral s vs 0 with
        | none => rfl
        | some i => simp; omega
    | constant x =>
      simp only [enumLiteral]
      rw [ih (k + 1), ih (0 + 1)]
      cases enumLiteral s vs 0 with
      | none => rfl
      | some i => simp; omega
    | other d =>
      simp only [enumLiteral]
      rw [ih (k + 1), ih (0 + 1)]
      cases enumLiteral s vs 0 with
      | none => rfl
      | some i => simp; omega

/-- A union reads the first member that reads the text; number `k` onwards. -/
theorem unionTry_cons (s : Str) (m : Str → Except (SErr Unit) DVal) (ms : List (Str → Except (SErr Unit) DVal)) (k : Nat)
    (errs : List (SErr Unit)) : unionTry s (m :: ms) k errs =
      match m s with
      | .ok v => .ok (k, v)
      | .error e => unionTry s ms (k + 1) (errs ++ [e]) := by
  cases h : m s <;> simp [unionTry, h]

mutual
/-- A text that a type without facets cannot read is not accepted as default. -/
theorem render_free (E : Env) {s : Str} (hb : parseBool s = none → boolDefault s = none) : ∀ (t : VTy) (e : SErr Unit),
    Free t → de E t s = .error e → render E t s = .error .invalid
  | .int t, e, _, h => by
    rw [de] at h; rw [render]
    cases hp : parseInt E.w t s with
    | none => rfl
    | some v => rw [hp] at h; simp at h
  | .float d, e, _, h => by
    rw [de] at h; rw [render]
    by_cases hp : parseFloat s = true
    · rw [if_pos hp] at h; simp at h
    · rw [if_neg hp]
  | .bool, e, _, h => by
    rw [de] at h; rw [render]
    cases hp : parseBool s with
    | none => rw [hb hp]
    | some v => rw [hp] at h; simp at h
  | .string, e, _, h => by rw [de] at h; simp at h
  | .enum n c vs, e, hf, h => by
    obtain ⟨rfl, hv⟩ := hf
    rw [de, validation_free] at h
    rw [render]
    simp only at h
    cases hl : enumLiteral s (deVariants E vs) 0 with
    | some i => rw [hl] at h; simp at h
    | none =>
      rw [hl] at h
      simp only at h
      refine renderVariants_free E hb n vs 0 0 hv hl ?_
      intro i d hd
      rw [hd] at h
      simp only at h
      cases hds : d s with
      | ok v => rw [hds] at h; simp [Except.map] at h
      | error x => exact ⟨x, rfl⟩
  | .union n c ms, e, hf, h => by
    obtain ⟨rfl, hm⟩ := hf
    rw [de] at h
    rw [render]
    simp only [unionDe, validation_free] at h
    cases ht : unionTry s (deMembers E ms) 0 [] with
    | ok v => rw [ht] at h; simp [Except.map] at h
    | error x => exact renderMembers_free E hb n ms 0 0 [] x hm ht
  | .ref n nt t, e, hf, h => by
    rw [de] at h
    rw [render]
    by_cases hn : nt = true
    · rw [if_pos hn] at h
      cases hd : de E t s with
      | ok v => rw [hd] at h; simp [Except.map] at h
      | error x => exact render_free E hb t x hf hd
    · rw [if_neg hn] at h
      exact render_free E hb t e hf h
  | .list n nt t, e, hf, _ => by cases hf
  | .restr n c t, e, hf, h => by
    obtain ⟨rfl, hf⟩ := hf
    rw [de] at h
    rw [render]
    simp only [simpleTyDe, validation_free] at h
    cases hd : de E t s with
    | ok v => rw [hd] at h; simp only [validateValue_free] at h; simp [Except.map] at h
    | error x => rw [render_free E hb t x hf hd]
theorem renderVariants_free (E : Env) {s : Str} (hb : parseBool s = none → boolDefault s = none) (n : Nat) :
    ∀ (vs : List (Str ⊕ VTy)) (i k : Nat), FreeVariants vs → enumLiteral s (deVariants E vs) k = none →
      (∀ (j : Nat) (d : Str → Except (SErr Unit) DVal), enumOther (deVariants E vs) k none = some (j, d) →
        ∃ x, d s = .error x) → renderVariants E n vs s i = .error .invalid
  | [], _, _, _, _, _ => by rw [renderVariants]
  | .inl t :: vs, i, k, hf, hl, ho => by
    rw [renderVariants]
    rw [deVariants, enumLiteral] at hl
    by_cases ht : s = t
    · rw [if_pos ht] at hl; cases hl
    · rw [if_neg ht] at hl
      rw [if_neg (fun h => ht h.symm)]
      exact renderVariants_free E hb n vs (i + 1) (k + 1) hf hl (fun j d hd => ho j d (by simp only [deVariants, enumOther]; exact hd))
  | .inr t :: vs, i, k, hf, hl, ho => by
    obtain ⟨rfl, hf⟩ := hf
    obtain ⟨x, hx⟩ := ho k (fun x => de E t x) (by simp only [deVariants, enumOther])
    rw [renderVariants, render_free E hb t x hf hx]
    simp only [renderVariants]
theorem renderMembers_free (E : Env) {s : Str} (hb : parseBool s = none → boolDefault s = none) (n : Nat) :
    ∀ (ms : List VTy) (i k : Nat) (errs : List (SErr Unit)) (x : SErr Unit), FreeMembers ms →
      unionTry s (deMembers E ms) k errs = .error x → renderMembers E n ms s i = .error .invalid
  | [], _, _, _, _, _, _ => by rw [renderMembers]
  | t :: ts, i, k, errs, x, hf, h => by
    rw [deMembers, unionTry_cons] at h
    cases hd : de E t s with
    | ok v => rw [hd] at h; simp at h
    | error e =>
      rw [hd] at h
      rw [renderMembers, render_free E hb t e hf.1 hd]
      exact renderMembers_free E hb n ts (i + 1) (k + 1) _ x hf.2 h
end

mutual
theorem render_plain (E : Env) {s : Str} (hb : parseBool s = none → boolDefault s = none)
    (hfin : ∀ d, parseFloat s = true → E.finite d s = true) : ∀ (t : VTy) (v : DVal), Plain t → de E t s = .ok v →
    ∃ e, render E t s = .ok e ∧ eval t e = some v
  | .int t, v, _, h => by
    rw [de] at h; rw [render]
    cases hp : parseInt E.w t s with
    | none => rw [hp] at h; simp at h
    | some v' =>
      rw [hp] at h
      simp only [Except.ok.injEq] at h
      exact ⟨_, rfl, by simp [eval, h]⟩
  | .float d, v, _, h => by
    rw [de] at h; rw [render]
    by_cases hp : parseFloat s = true
    · rw [if_pos hp] at h ⊢
      rw [if_pos (hfin d hp)]
      simp only [Except.ok.injEq] at h
      exact ⟨_, rfl, by simp [eval, h]⟩
    · rw [if_neg hp] at h; cases h
  | .bool, v, _, h => by
    rw [de] at h; rw [render]
    cases hp : parseBool s with
    | none => rw [hp] at h; simp at h
    | some b =>
      rw [hp] at h
      rw [boolDefault_of_parseBool hp]
      simp only [Except.ok.injEq] at h
      exact ⟨_, rfl, by simp [eval, h]⟩
  | .string, v, _, h => by
    rw [de] at h; rw [render]
    simp only [Except.ok.injEq] at h
    exact ⟨_, rfl, by simp [eval, h]⟩
  | .enum n c vs, v, hp, h => by
    obtain ⟨-, hp⟩ := hp
    rw [de] at h
    rw [render]
    cases hc : c.validation (E := Unit) s with
    | error e => rw [hc] at h; simp at h
    | ok s' =>
      rw [hc] at h
      simp only at h
      cases hl : enumLiteral s (deVariants E vs) 0 with
      | some i =>
        rw [hl] at h
        simp only [Except.ok.injEq] at h
        obtain ⟨h1, t, h2⟩ := renderVariants_literal E n vs 0 i hp hl
        exact ⟨_, h1, by simp [eval, h2, ← h]⟩
      | none =>
        rw [hl] at h
        simp only at h
        cases ho : enumOther (deVariants E vs) 0 none with
        | none => rw [ho] at h; simp at h
        | some p =>
          rw [ho] at h
          simp only at h
          cases hd : p.2 s with
          | error e => rw [hd] at h; simp [Except.map] at h
          | ok v' =>
            rw [hd] at h
            simp only [Except.map, Except.ok.injEq] at h
            obtain ⟨j, e, h0, h1, h2⟩ := renderVariants_other E hb hfin n vs 0 p v' hp hl ho hd
            refine ⟨_, h1, ?_⟩
            simp only [eval, if_pos]
            have : p.1 = j := by omega
            rw [Nat.zero_add, h2, ← this]
            simp [h]
  | .union n c ms, v, hp, h => by
    obtain ⟨hw, hp⟩ := hp
    rw [de] at h
    rw [render]
    unfold unionDe at h
    cases hc : c.validation (E := Unit) s with
    | error e => rw [hc] at h; simp [Except.map] at h
    | ok s' =>
      obtain rfl := validation_preserve hw hc
      rw [hc] at h
      simp only at h
      cases ht : unionTry s' (deMembers E ms) 0 [] with
      | error e => rw [ht] at h; simp [Except.map] at h
      | ok p =>
        rw [ht] at h
        simp only [Except.map, Except.ok.injEq] at h
        obtain ⟨j, e, h0, h1, h2⟩ := renderMembers_plain E hb hfin n ms 0 [] p hp ht
        refine ⟨_, h1, ?_⟩
        simp only [eval, if_pos]
        have : p.1 = j := by omega
        rw [Nat.zero_add, h2, ← this]
        simp [h]
  | .ref n nt t, v, hp, h => by
    obtain ⟨rfl, hp⟩ := hp
    rw [de] at h
    obtain ⟨e, h1, h2⟩ := render_plain E hb hfin t v hp (by simpa using h)
    exact ⟨e, by rw [render]; exact h1, by rw [eval.eq_def]; simpa using h2⟩
  | .list n nt t, v, hp, _ => by cases hp
  | .restr n c t, v, hp, h => by
    obtain ⟨hw, hp⟩ := hp
    rw [de] at h
    unfold simpleTyDe at h
    cases hc : c.validation (E := Unit) s with
    | error e => rw [hc] at h; simp [Except.map] at h
    | ok s' =>
      obtain rfl := validation_preserve hw hc
      rw [hc] at h
      simp only at h
      cases hd : de E t s' with
      | error e => rw [hd] at h; simp [Except.map] at h
      | ok v' =>
        rw [hd] at h
        simp only at h
        cases hv : c.validateValue (E := Unit) E.cmp E.len v' with
        | error e => rw [hv] at h; simp [Except.map] at h
        | ok u =>
          rw [hv] at h
          simp only [Except.map, Except.ok.injEq] at h
          obtain ⟨e, h1, h2⟩ := render_plain E hb hfin t v' hp hd
          refine ⟨.tuple n e, by rw [render, h1], ?_⟩
          simp [eval, h2, h]
theorem renderVariants_literal (E : Env) {s : Str} (n : Nat) : ∀ (vs : List (Str ⊕ VTy)) (i j : Nat), PlainVariants vs →
    enumLiteral s (deVariants E vs) 0 = some j →
      renderVariants E n vs s i = .ok (.variant n (i + j)) ∧ ∃ t, vs[j]? = some (.inl t)
  | [], _, _, _, hl => by cases hl
  | .inl t :: vs, i, j, hf, hl => by
    rw [deVariants, enumLiteral] at hl
    rw [renderVariants]
    by_cases ht : s = t
    · rw [if_pos ht] at hl
      rw [if_pos ht.symm]
      cases hl
      exact ⟨rfl, t, rfl⟩
    · rw [if_neg ht] at hl
      rw [if_neg (fun h => ht h.symm)]
      rw [enumLiteral_shift] at hl
      cases hk : enumLiteral s (deVariants E vs) 0 with
      | none => rw [hk] at hl; cases hl
      | some k =>
        rw [hk] at hl
        simp only [Option.map_some, Option.some.injEq] at hl
        obtain ⟨h1, t', h2⟩ := renderVariants_literal E n vs (i + 1) k hf hk
        subst hl
        exact ⟨by rw [h1]; congr 2; omega, t', by simpa using h2⟩
  | .inr t :: vs, i, j, hf, hl => by
    obtain ⟨rfl, hf⟩ := hf
    simp [deVariants, enumLiteral] at hl
theorem renderVariants_other (E : Env) {s : Str} (hb : parseBool s = none → boolDefault s = none)
    (hfin : ∀ d, parseFloat s = true → E.finite d s = true) (n : Nat) : ∀ (vs : List (Str ⊕ VTy)) (i : Nat)
      (p : Nat × (Str → Except (SErr Unit) DVal)) (v : DVal), PlainVariants vs → enumLiteral s (deVariants E vs) 0 = none →
      enumOther (deVariants E vs) i none = some p → p.2 s = .ok v →
      ∃ j e, p.1 = i + j ∧ renderVariants E n vs s i = .ok (.variantOf n (i + j) e) ∧ evalVariant vs j e = some v
  | [], _, _, _, _, _, ho, _ => by cases ho
  | .inl t :: vs, i, p, v, hf, hl, ho, hd => by
    rw [deVariants, enumLiteral] at hl
    simp only [deVariants, enumOther] at ho
    by_cases ht : s = t
    · rw [if_pos ht] at hl; cases hl
    · rw [if_neg ht, enumLiteral_shift] at hl
      have hl' : enumLiteral s (deVariants E vs) 0 = none := by
        cases hk : enumLiteral s (deVariants E vs) 0 with
        | none => rfl
        | some k => rw [hk] at hl; cases hl
      obtain ⟨j, e, h0, h1, h2⟩ := renderVariants_other E hb hfin n vs (i + 1) p v hf hl' ho hd
      refine ⟨j + 1, e, by omega, ?_, by simpa [evalVariant] using h2⟩
      rw [renderVariants, if_neg (fun h => ht h.symm), h1]
      congr 2; omega
  | .inr t :: vs, i, p, v, hf, hl, ho, hd => by
    obtain ⟨rfl, hf⟩ := hf
    simp only [deVariants, enumOther, Option.some.injEq] at ho
    subst ho
    obtain ⟨e, h1, h2⟩ := render_plain E hb hfin t v hf hd
    exact ⟨0, e, rfl, by rw [renderVariants, h1]; rfl, by simpa [evalVariant] using h2⟩
theorem renderMembers_plain (E : Env) {s : Str} (hb : parseBool s = none → boolDefault s = none)
    (hfin : ∀ d, parseFloat s = true → E.finite d s = true) (n : Nat) : ∀ (ms : List VTy) (i : Nat) (errs : List (SErr Unit))
      (p : Nat × DVal), PlainMembers ms → unionTry s (deMembers E ms) i errs = .ok p →
      ∃ j e, p.1 = i + j ∧ renderMembers E n ms s i = .ok (.variantOf n (i + j) e) ∧ evalMember ms j e = some p.2
  | [], _, _, _, _, h => by simp [deMembers, unionTry] at h
  | t :: ts, i, errs, p, hp, h => by
    obtain ⟨hp, hfree, hps⟩ := hp
    rw [deMembers, unionTry_cons] at h
    cases hd : de E t s with
    | ok v =>
      rw [hd] at h
      simp only [Except.ok.injEq] at h
      subst h
      obtain ⟨e, h1, h2⟩ := render_plain E hb hfin t v hp hd
      exact ⟨0, e, rfl, by rw [renderMembers, h1]; rfl, by simpa [evalMember] using h2⟩
    | error x =>
      rw [hd] at h
      simp only at h
      rcases hfree with rfl | hfree
      · simp [deMembers, unionTry] at h
      · obtain ⟨j, e, h0, h1, h2⟩ := renderMembers_plain E hb hfin n ts (i + 1) _ p hps h
        refine ⟨j + 1, e, by omega, ?_, by simpa [evalMember] using h2⟩
        rw [renderMembers, render_free E hb t x hfree hd]
        simp only [h1]
        congr 2; omega
end

/-! ## C92 -/

/-- **C92** (partial). A missing attribute gets the value of its default: if the type of the attribute reads the text `s` as `v`, then
code is generated for the default `s`, it has the type of the attribute, and its value is `v`. Missing: lists
(`C92_list_default_rejected`), new types for references (`C92_new_type_wrong`), white space facets (`C92_white_space_kept`), unions with
facets on a member that is not the last one (`C92_union_other_member`), enumerations with a typed variant before the last one
(`C92_enumeration_other_variant`), infinite and undefined numbers (`C92_infinite_panics`); texts like `tRUE`
(`C92_boolean_other_member`); custom types. -/
theorem C92_default_as_read_partial (E : Env) (t : VTy) (s : Str) (v : DVal) (ht : Plain t) (h : de E t s = .ok v)
    (hb : parseBool s = none → boolDefault s = none) (hfin : ∀ d, parseFloat s = true → E.finite d s = true) :
    ∃ e, render E t s = .ok e ∧ eval t e = some v :=
  render_plain E hb hfin t v ht h

/-- Nothing is too large; values cannot be compared; the length of a value is that of its text. -/
def exEnv : Env where
  w := 64
  overflow _ _ := false
  cmp _ _ := none
  len v := match v with | .str s => s.length | _ => 0

/-- A union of an integer, an enumeration with a catch-all, and a short text. -/
def exUnion : VTy :=
  .union 1 {} [.ref 2 false (.int .i32), .enum 3 {} [.inl "a".toList, .inl "b".toList, .inr (.restr 5 {} .bool)],
    .restr 4 { maxLength := some 3 } .string]

example : Plain exUnion := by
  simp [exUnion, Plain, PlainMembers, Free, PlainVariants, FreeVariants]

example : (∃ e, render exEnv exUnion "-7".toList = .ok e ∧ eval exUnion e = some (.inner 0 (.int (-7)))) ∧
    (∃ e, render exEnv exUnion "b".toList = .ok e ∧ eval exUnion e = some (.inner 1 (.unit 1))) ∧
    (∃ e, render exEnv exUnion "no".toList = .ok e ∧ eval exUnion e = some (.inner 1 (.inner 2 (.wrap (.bool false))))) ∧
    (∃ e, render exEnv exUnion "xyz".toList = .ok e ∧ eval exUnion e = some (.inner 2 (.wrap (.str "xyz".toList)))) := by
  refine ⟨C92_default_as_read_partial exEnv exUnion _ _ ?_ ?_ ?_ ?_, C92_default_as_read_partial exEnv exUnion _ _ ?_ ?_ ?_ ?_,
    C92_default_as_read_partial exEnv exUnion _ _ ?_ ?_ ?_ ?_, C92_default_as_read_partial exEnv exUnion _ _ ?_ ?_ ?_ ?_⟩
  all_goals first
    | (simp [exUnion, Plain, PlainMembers, Free, PlainVariants, FreeVariants]; done)
    | (intro d; cases d <;> decide)
    | decide
    | rfl

/-- **C92.** Code for a default is generated only if some value is meant: if a type without facets cannot read the text, the
generator reports an error (and does not panic). -/
theorem C92_invalid_default_reported (E : Env) (t : VTy) (s : Str) (x : SErr Unit) (ht : Free t) (h : de E t s = .error x)
    (hb : parseBool s = none → boolDefault s = none) : render E t s = .error .invalid :=
  render_free E hb t x ht h

example : render exEnv (.union 1 {} [.int .u8, .enum 3 {} [.inl "a".toList, .inr .bool], .restr 2 {} (.float true)]) "256x".toList
    = .error .invalid := by
  refine C92_invalid_default_reported exEnv _ _ (.invalidUnion [.value (), .value (), .value ()]) ?_ rfl (by decide)
  simp [Free, FreeMembers, FreeVariants]

/-- **C92.** The empty default of a list of a new type is the empty list, as it is read. -/
theorem C92_empty_list (E : Env) (n : Nat) (t : VTy) : ∃ e, render E (.list n true t) [] = .ok e ∧
    eval (.list n true t) e = some (.wrap (.list [])) ∧ de E (.list n true t) [] = .ok (.wrap (.list [])) :=
  ⟨_, rfl, by simp [eval], rfl⟩

/-- **C92** (negation). No other default of a list is accepted, although the list may read it: the schema cannot be used. -/
theorem C92_list_default_rejected :
    (∀ E n nt t s, s ≠ [] → render E (.list n nt t) s = .error .invalid) ∧
    ∃ vs, de exEnv (.list 1 true .string) "a b".toList = .ok (.wrap (.list vs)) ∧ vs.length = 2 := by
  refine ⟨fun E n nt t s h => by rw [render, if_neg h], [.str "a".toList, .str "b".toList], rfl, rfl⟩

/-- **C92** (negation). If lists are aliases (`TypedefMode::Typedef`), the code for the empty default does not compile. -/
theorem C92_list_alias_wrong (E : Env) (n : Nat) (t : VTy) :
    ∃ e, render E (.list n false t) [] = .ok e ∧ eval (.list n false t) e = none :=
  ⟨_, rfl, by simp [eval]⟩

/-- The name of the type an expression belongs to. -/
def Expr.name : Expr → Option Nat
  | .variant n _ | .variantOf n _ _ | .tuple n _ => some n
  | _ => none

/-- The name of the type behind aliases and references. -/
def VTy.target : VTy → Option Nat
  | .int _ | .float _ | .bool | .string => none
  | .enum n _ _ | .union n _ _ | .list n _ _ | .restr n _ _ => some n
  | .ref _ _ t => t.target

theorem renderVariants_name (E : Env) (n : Nat) : ∀ (vs : List (Str ⊕ VTy)) (s : Str) (i : Nat) (e : Expr),
    renderVariants E n vs s i = .ok e → e.name = some n
  | [], _, _, _, h => by simp [renderVariants] at h
  | .inl t :: vs, s, i, e, h => by
    rw [renderVariants] at h
    by_cases ht : t = s
    · rw [if_pos ht] at h
      cases h; rfl
    · rw [if_neg ht] at h
      exact renderVariants_name E n vs s (i + 1) e h
  | .inr t :: vs, s, i, e, h => by
    rw [renderVariants] at h
    cases hr : render E t s with
    | ok e' => rw [hr] at h; cases h; rfl
    | error x =>
      rw [hr] at h
      cases x with
      | panic => cases h
      | invalid => exact renderVariants_name E n vs s (i + 1) e h

theorem renderMembers_name (E : Env) (n : Nat) : ∀ (ms : List VTy) (s : Str) (i : Nat) (e : Expr),
    renderMembers E n ms s i = .ok e → e.name = some n
  | [], _, _, _, h => by simp [renderMembers] at h
  | t :: ts, s, i, e, h => by
    rw [renderMembers] at h
    cases hr : render E t s with
    | ok e' => rw [hr] at h; cases h; rfl
    | error x =>
      rw [hr] at h
      cases x with
      | panic => cases h
      | invalid => exact renderMembers_name E n ts s (i + 1) e h

theorem render_name (E : Env) : ∀ (t : VTy) (s : Str) (e : Expr), render E t s = .ok e → e.name = t.target
  | .int t, s, e, h => by
    rw [render] at h
    cases hp : parseInt E.w t s with
    | none => rw [hp] at h; cases h
    | some v => rw [hp] at h; cases h; rfl
  | .float d, s, e, h => by
    rw [render] at h
    by_cases hp : parseFloat s = true
    · rw [if_pos hp] at h
      by_cases hq : E.finite d s = true
      · rw [if_pos hq] at h; cases h; rfl
      · rw [if_neg hq] at h; cases h
    · rw [if_neg hp] at h; cases h
  | .bool, s, e, h => by
    rw [render] at h
    cases hp : boolDefault s with
    | none => rw [hp] at h; cases h
    | some v => rw [hp] at h; cases h; rfl
  | .string, s, e, h => by rw [render] at h; cases h; rfl
  | .enum n _ vs, s, e, h => by rw [render] at h; exact renderVariants_name E n vs s 0 e h
  | .union n _ ms, s, e, h => by rw [render] at h; exact renderMembers_name E n ms s 0 e h
  | .ref _ _ t, s, e, h => by rw [render] at h; exact render_name E t s e h
  | .list n _ _, s, e, h => by
    rw [render] at h
    by_cases hs : s = []
    · rw [if_pos hs] at h; cases h; rfl
    · rw [if_neg hs] at h; cases h
  | .restr n _ t, s, e, h => by
    rw [render] at h
    cases hr : render E t s with
    | ok e' => rw [hr] at h; cases h; rfl
    | error x => rw [hr] at h; cases h

/-- **C92** (negation). If references are new types (`TypedefMode::NewType`), no default value of an attribute of such a type compiles:
the value is not wrapped. -/
theorem C92_new_type_wrong (E : Env) (n : Nat) (t : VTy) (s : Str) (e : Expr) (hn : t.target ≠ some n)
    (h : render E (.ref n true t) s = .ok e) : eval (.ref n true t) e = none := by
  rw [render] at h
  have hname := render_name E t s e h
  rw [eval.eq_def]
  cases e with
  | tuple n' e' =>
    simp only [Expr.name] at hname
    have : n ≠ n' := by rintro rfl; exact hn hname.symm
    simp [this]
  | _ => simp

example : render exEnv (.ref 1 true (.restr 2 {} .string)) "x".toList = .ok (.tuple 2 (.stringFrom "x".toList)) ∧
    VTy.target (.restr 2 {} .string) ≠ some 1 := ⟨rfl, by simp [VTy.target]⟩

/-- **C92** (negation). White space of a default is kept although the type removes it when it reads the text. -/
theorem C92_white_space_kept :
    de exEnv (.restr 1 { whitespace := .collapse } .string) " a  b ".toList = .ok (.wrap (.str "a b".toList)) ∧
    ∃ e, render exEnv (.restr 1 { whitespace := .collapse } .string) " a  b ".toList = .ok e ∧
      eval (.restr 1 { whitespace := .collapse } .string) e = some (.wrap (.str " a  b ".toList)) :=
  ⟨rfl, _, rfl, by simp [eval]⟩

/-- **C92** (negation). Facets are not looked at: the default of a union may become a value of a member that cannot have it, and that is
refused when it is written and read again. -/
theorem C92_union_other_member :
    let t : VTy := .union 1 {} [.restr 2 { maxLength := some 1 } .string, .string]
    de exEnv t "ab".toList = .ok (.inner 1 (.str "ab".toList)) ∧
    (∃ e, render exEnv t "ab".toList = .ok e ∧ eval t e = some (.inner 0 (.wrap (.str "ab".toList)))) ∧
    de exEnv (.restr 2 { maxLength := some 1 } .string) "ab".toList = .error (.maxLength 1) :=
  ⟨rfl, ⟨_, rfl, by simp [eval, evalMember]⟩, rfl⟩

/-- **C92** (negation). The same for texts that only the generator takes for a boolean. -/
theorem C92_boolean_other_member :
    let t : VTy := .union 1 {} [.bool, .string]
    de exEnv t "tRUE".toList = .ok (.inner 1 (.str "tRUE".toList)) ∧
    ∃ e, render exEnv t "tRUE".toList = .ok e ∧ eval t e = some (.inner 0 (.bool true)) :=
  ⟨rfl, _, rfl, by simp [eval, evalMember]⟩

/-- **C92** (negation). A merged union of a text type and an enumeration (`merge_enum_unions`): the default is the typed variant, what is
read is the value of the enumeration. -/
theorem C92_enumeration_other_variant :
    let t : VTy := .enum 1 {} [.inr .string, .inl "a".toList]
    de exEnv t "a".toList = .ok (.unit 1) ∧
    ∃ e, render exEnv t "a".toList = .ok e ∧ eval t e = some (.inner 0 (.str "a".toList)) :=
  ⟨rfl, _, rfl, by simp [eval, evalVariant]⟩

/-- **C92** (negation). `INF`, `-INF` and `NaN`, which every floating point type reads, make the generator panic, for every type that
comes to them first. -/
theorem C92_infinite_panics (E : Env) (d : Bool) (s : Str) (hs : s ∈ ["INF".toList, "-INF".toList, "NaN".toList]) :
    de E (.float d) s = .ok (.float s) ∧ render E (.float d) s = .error .panic ∧
    (∀ n c, render E (.restr n c (.float d)) s = .error .panic) ∧
    (∀ n c ms, render E (.union n c (.float d :: ms)) s = .error .panic) := by
  have hp : parseFloat s = true ∧ isNumber (dropSign s) = false := by
    simp only [List.mem_cons, List.not_mem_nil, or_false] at hs
    rcases hs with rfl | rfl | rfl <;> decide
  have hr : render E (.float d) s = .error .panic := by
    rw [render, if_pos hp.1, if_neg]
    simp [Env.finite, hp.2]
  refine ⟨by rw [de, if_pos hp.1], hr, fun n c => by rw [render, hr], fun n c ms => ?_⟩
  rw [render, renderMembers, hr]

end Verif.Generate.Defaults

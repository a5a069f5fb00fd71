import Verif.Naming.Ident
import Verif.Util.Assoc

/-!
# Where types provided by the user are expected (C104)

Models `Generator::with_type` (xsd-parser/src/pipeline/generator/mod.rs 263-277) and `Naming::format_module`
(xsd-parser/src/traits/naming.rs 146-152): the path under which the generated code refers to a type that the user provides.
-/

namespace Verif.Generate.ProvidedTypes

open Verif.Naming

abbrev Txt := List Char

/-! ## Model -/

/-- `Ident::new` of proc_macro2, an external function that is called by `format_ident!`: it panics (`none`) if the text is not made of
the characters of an identifier. Keywords are accepted. -/
def identNew (T : CharTables) : Txt → Option Txt
  | [] => none
  | c :: cs => if (T.xidStart c || c == '_') && cs.all T.xidCont then some (c :: cs) else none

/-- `format_module` (naming.rs 146-152), with `modules` for the names in `MetaTypes::modules` and `fmt` for `format_module_ident`. -/
def formatModule (fmt : Txt → Txt) (modules : List (Nat × Option Txt)) (ns : Nat) : Option Txt :=
  match Verif.Assoc.get modules ns with
  | none => none
  | some none => none
  | some (some name) => some (fmt name)

/-- `with_type` (mod.rs 263-277): the path of the fixed reference, as the module and the name; `none` is a panic. -/
def withType (T : CharTables) (fmt : Txt → Txt) (modules : List (Nat × Option Txt)) (ns : Nat) (name : Txt) : Option (Option Txt × Txt) :=
  match identNew T name with
  | none => none
  | some ident => some (formatModule fmt modules ns, ident)

/-! ## Specification -/

/-- The module of a namespace: none if the namespace is not known or has no name. -/
def ModuleOf (fmt : Txt → Txt) (modules : List (Nat × Option Txt)) (ns : Nat) (m : Option Txt) : Prop :=
  (∃ n, Verif.Assoc.get modules ns = some (some n) ∧ m = some (fmt n)) ∨
    (∀ n, Verif.Assoc.get modules ns ≠ some (some n)) ∧ m = none

/-! ## Proofs -/

theorem formatModule_spec (fmt : Txt → Txt) (modules : List (Nat × Option Txt)) (ns : Nat) (m : Option Txt) :
    formatModule fmt modules ns = m ↔ ModuleOf fmt modules ns m := by
  unfold formatModule ModuleOf
  rcases h : Verif.Assoc.get modules ns with _ | _ | n <;> simp [eq_comm]

theorem identNew_some {T : CharTables} {s t : Txt} (h : identNew T s = some t) : t = s := by
  cases s with
  | nil => cases h
  | cons c cs =>
    unfold identNew at h
    split at h <;> simp_all

/-- A type whose name is an identifier of Rust is expected under this name in the module of its namespace. Partial: types with other
names cannot be provided (`C104_panics`). -/
theorem C104_path_partial (T : CharTables) (fmt : Txt → Txt) (modules : List (Nat × Option Txt)) (ns : Nat) (name : Txt)
    (h : ValidIdent T name) : ∃ m, withType T fmt modules ns name = some (m, name) ∧ ModuleOf fmt modules ns m := by
  refine ⟨formatModule fmt modules ns, ?_, (formatModule_spec ..).1 rfl⟩
  obtain ⟨⟨c, cs, rfl, h1, h2⟩, -⟩ := h
  have : identNew T (c :: cs) = some (c :: cs) := by
    rw [identNew, if_pos]
    rw [Bool.and_eq_true, List.all_eq_true]
    refine ⟨?_, h2⟩
    rcases h1 with h1 | ⟨rfl, -⟩
    · simp [h1]
    · simp
  simp [withType, this]

/-- Two provided types are expected at the same place exactly if they have the same name and their namespaces the same module. -/
theorem C104_same_place (T : CharTables) (fmt : Txt → Txt) (modules : List (Nat × Option Txt)) (ns₁ ns₂ : Nat) (n₁ n₂ : Txt)
    {p₁ p₂ : Option Txt × Txt} (h₁ : withType T fmt modules ns₁ n₁ = some p₁) (h₂ : withType T fmt modules ns₂ n₂ = some p₂) :
    p₁ = p₂ ↔ n₁ = n₂ ∧ ∃ m, ModuleOf fmt modules ns₁ m ∧ ModuleOf fmt modules ns₂ m := by
  have key : ∀ {ns : Nat} {n : Txt} {p : Option Txt × Txt}, withType T fmt modules ns n = some p → p = (formatModule fmt modules ns, n) := by
    intro ns n p h
    unfold withType at h
    cases hi : identNew T n with
    | none => simp [hi] at h
    | some i =>
      simp only [hi, Option.some.injEq] at h
      rw [← h, identNew_some hi]
  rw [key h₁, key h₂]
  simp only [Prod.mk.injEq, ← formatModule_spec]
  constructor
  · rintro ⟨a, b⟩
    exact ⟨b, _, rfl, a.symm⟩
  · rintro ⟨a, m, b, c⟩
    exact ⟨b.trans c.symm, a⟩

/-- Finding: the name is taken from the schema as it is. If it has a character that no identifier of Rust has, for example `-` or `.`,
the generator panics, although it gives such types a valid name when it generates them itself (C44). -/
theorem C104_panics (T : CharTables) (fmt : Txt → Txt) (modules : List (Nat × Option Txt)) (ns : Nat) (name : Txt) (c : Char)
    (hc : c ∈ name) (h1 : T.xidStart c = false) (h2 : T.xidCont c = false) (h3 : c ≠ '_') :
    withType T fmt modules ns name = none := by
  have : identNew T name = none := by
    cases name with
    | nil => rfl
    | cons d ds =>
      rw [identNew, if_neg]
      rw [Bool.and_eq_true, List.all_eq_true]
      rintro ⟨a, b⟩
      rcases List.mem_cons.1 hc with rfl | hc
      · simp [h1, h3] at a
      · rw [b c hc] at h2
        cases h2
  simp [withType, this]

/-- Finding: a keyword is kept, so that the generated code does not compile. -/
theorem C104_keyword_kept (fmt : Txt → Txt) (modules : List (Nat × Option Txt)) (ns : Nat) :
    ∃ p, withType asciiTables fmt modules ns "type".toList = some p ∧ ¬ ValidIdent asciiTables p.2 := by
  refine ⟨(formatModule fmt modules ns, "type".toList), ?_, fun h => h.2 ?_⟩
  · have : identNew asciiTables "type".toList = some "type".toList := by decide
    simp only [withType, this]
  · show "type".toList ∈ rustKeywords.map String.toList
    decide

/-! ## Non-vacuity -/

example : withType asciiTables id [(1, none), (2, some "tns".toList)] 2 "Money".toList = some (some "tns".toList, "Money".toList) ∧
    withType asciiTables id [(1, none), (2, some "tns".toList)] 1 "Money".toList = some (none, "Money".toList) ∧
    withType asciiTables id [(1, none), (2, some "tns".toList)] 2 "money-type".toList = none := by decide +kernel

/-- The hypotheses of `C104_path_partial` and `C104_panics`. -/
example : ValidIdent asciiTables "Money".toList ∧ '-' ∈ "money-type".toList ∧ asciiTables.xidStart '-' = false ∧
    asciiTables.xidCont '-' = false :=
  ⟨⟨⟨'M', "oney".toList, rfl, .inl (by decide), by decide⟩, by decide⟩, by decide, by decide, by decide⟩

end Verif.Generate.ProvidedTypes

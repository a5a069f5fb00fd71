import Verif.Meta.Types
/-!
# Printing the type information (C83)

Models `MetaTypesPrinter` (`xsd-parser/src/meta_types_printer.rs`), which writes the entries of the table as indented
text. The contents of groups and complex types are written inside them, so the printer guards against tables in which a
group contains itself.

The text is a list of lines. A line keeps the value it shows; how `{}` and `{:?}` write a value is left out, and so are the
errors of the formatter.
-/
namespace Verif.Meta.Print

open Verif.Meta
open Verif.Occurs (MaxOccurs)

/-- A value shown by a line. -/
inductive Value where
  | nothing
  | text (t : Txt)
  | optText (t : Option Txt)
  | bool (b : Bool)
  | nat (n : Nat)
  | optNat (n : Option Nat)
  | max (m : MaxOccurs)
  | ident (i : Ident)
  | optIdent (i : Option Ident)
  | base (b : Base)
  | prop (p : PropIdent)
  | form (f : Form)
  | flags (f : Flags)
  | buildIn (b : BuildIn)
  | range (a b : Bound)
  | texts (l : List Txt)
  | white (w : WhiteSpace)
  | derived (i : Ident) (d : Derived)
  | enumVariant (p : PropIdent) (u : Use)
  | use_ (u : Use)
deriving DecidableEq, Repr

/-- What is done for one entry: `s.level += 1`, `s.level -= k`, a line of its own (`indentln!`), the beginning of a line
(`indent!`), and the entry of another type. -/
inductive Op where
  | up
  | down (k : Nat)
  | line (label : String) (v : Value)
  | begin_ (label : String)
  | nested (i : Ident)
deriving DecidableEq, Repr

/-- `write_constrains!`, meta_types_printer.rs 105-121. -/
def constrainsOps (c : Constrains) : List Op :=
  [.up, .line "range" (.range c.start c.stop), .line "total_digits" (.optNat c.totalDigits),
   .line "fraction_digits" (.optNat c.fractionDigits), .line "patterns" (.texts c.patterns),
   .line "min_length" (.optNat c.minLength), .line "max_length" (.optNat c.maxLength),
   .line "whitespace" (.white c.whitespace), .down 1]

/-- One line for a value that is there. -/
def optLine (label : String) : Option Txt → List Op
  | some t => [.line label (.text t)]
  | none => []

/-- The fields of a wildcard, 268-289 and 321-342. -/
def anyOps (label : String) (m : AnyMeta) : List Op :=
  .line label .nothing :: .up :: optLine "id" m.id ++ optLine "namespace" m.namespace_ ++
    optLine "not_q_name" m.notQName ++ optLine "not_namespace" m.notNamespace ++
    [.line "process_contents" (.text m.processContents), .down 1]

/-- The variant of an element, 251-290. -/
def elementVariantOps : ElementVariant → List Op
  | .text => [.line "variant=Text" .nothing]
  | .type_ i .element => [.line "variant=Type" (.ident i)]
  | .type_ i .group => [.begin_ "variant=", .nested i]
  | .any m => anyOps "variant=Any" m

/-- One element of a group, 241-292. -/
def elementOps (e : Element) : List Op :=
  [.line "element" .nothing, .up, .line "ident" (.prop e.ident), .line "form" (.form e.form),
   .line "flags" (.flags e.flags), .line "min_occurs" (.nat e.min), .line "max_occurs" (.max e.max)] ++
  elementVariantOps e.variant ++ [.down 1]

/-- One attribute, 309-346. -/
def attributeOps (a : Attribute) : List Op :=
  [.line "attribute" .nothing, .up, .line "ident" (.prop a.ident), .line "use" (.use_ a.use_),
   .line "form" (.form a.form), .line "default" (.optText a.default_)] ++
  (match a.variant with
    | .type_ i => [.line "type=Type" (.ident i)]
    | .any m => anyOps "type=Any" m) ++ [.down 1]

/-- A group, 227-296. -/
def groupOps (d : Option Txt) (g : Group) : List Op :=
  [.up, .line "display_name" (.optText d), .line "is_mixed" (.bool g.isMixed)] ++
    g.elements.flatMap elementOps ++ [.down 1]

/-- The content of a complex type, 348-351. -/
def contentOps : Option Ident → List Op
  | some i => [.begin_ "content=", .nested i]
  | none => []

/-- The body of `print_type_impl` after the header, 129-367. -/
def ops (ty : MetaType) : List Op :=
  let d := ty.displayName
  match ty.variant with
  | .buildIn x => [.up, .line "display_name" (.optText d), .line "type" (.buildIn x), .down 1]
  | .custom x => [.up, .line "display_name" (.optText d), .line "type" (.text x), .down 1]
  | .union x =>
    [.up, .line "display_name" (.optText d), .line "base" (.base x.base), .line "constrains" .nothing] ++
      constrainsOps x.constrains ++ [.line "types" .nothing, .up] ++
      (x.types.map fun t => .line "" (.ident t.type_)) ++ [.down 2]
  | .reference x =>
    [.up, .line "display_name" (.optText d), .line "min" (.nat x.min), .line "max" (.max x.max),
     .line "nillable" (.bool x.nillable), .line "type" (.ident x.type_), .down 1]
  | .dynamic x =>
    [.up, .line "display_name" (.optText d), .line "type" (.optIdent x.type_), .line "derived_types" .nothing, .up] ++
      (x.derived.map fun (k, v) => .line "" (.derived k v)) ++ [.down 2]
  | .enumeration x =>
    [.up, .line "display_name" (.optText d), .line "base" (.base x.base), .line "constrains" .nothing] ++
      constrainsOps x.constrains ++ [.line "variants" .nothing, .up] ++
      (x.variants.map fun v => .line "" (.enumVariant v.ident v.use_)) ++ [.down 2]
  | .all g | .choice g | .sequence g => groupOps d g
  | .complex x =>
    [.up, .line "display_name" (.optText d), .line "base" (.base x.base), .line "min_occurs" (.nat x.min),
     .line "max_occurs" (.max x.max), .line "is_dynamic" (.bool x.isDynamic), .line "is_mixed" (.bool x.isMixed)] ++
      x.attributes.flatMap attributeOps ++ contentOps x.content ++ [.down 1]
  | .simple x =>
    [.up, .line "base" (.ident x.base), .line "is_list" (.bool x.isList), .line "constrains" .nothing] ++
      constrainsOps x.constrains ++ [.down 1]

/-- The word after the name of the type. -/
def kindWord : Variant → String
  | .buildIn _ => "BuildIn"
  | .custom _ => "Custom"
  | .union _ => "Union"
  | .reference _ => "Reference"
  | .dynamic _ => "Dynamic"
  | .enumeration _ => "Enumeration"
  | .all _ => "All"
  | .choice _ => "Choice"
  | .sequence _ => "Sequence"
  | .complex _ => "ComplexType"
  | .simple _ => "SimpleType"

/-- A piece of the text. -/
inductive Piece where
  | head (i : Ident) (word : String)
  | loop (i : Ident)
  | notFound
  | line (level : Nat) (label : String) (v : Value)
  | begin_ (level : Nat) (label : String)
deriving DecidableEq, Repr

/-- `State`, 24-28. The set of visited types is a list. -/
structure PSt where
  level : Nat
  visit : List Ident
deriving DecidableEq, Repr

/-- The steps of an entry one after the other; `none` is a panic (`usize` below zero). -/
def runOps (rec : PSt → Ident → Option (List Piece × PSt)) : List Op → PSt → Option (List Piece × PSt)
  | [], s => some ([], s)
  | .up :: os, s => runOps rec os { s with level := s.level + 1 }
  | .down k :: os, s => if s.level < k then none else runOps rec os { s with level := s.level - k }
  | .line l v :: os, s => (runOps rec os s).map fun (ps, s') => (.line s.level l v :: ps, s')
  | .begin_ l :: os, s => (runOps rec os s).map fun (ps, s') => (.begin_ s.level l :: ps, s')
  | .nested i :: os, s =>
    (rec s i).bind fun (ps, s') => (runOps rec os s').map fun (qs, s'') => (ps ++ qs, s'')

/-- `resolve_complex_type`, 68-81; `print` is `print_type_impl`. -/
def resolveWith (T : Types) (print : PSt → Ident → MetaType → Option (List Piece × PSt)) (s : PSt) (i : Ident) :
    Option (List Piece × PSt) :=
  match Assoc.get T i with
  | none => some ([.notFound], s)
  | some ty => print s i ty

/-- `print_type_impl`, 84-372. The fuel bounds the depth of the recursion; running out of it is `none`. -/
def printImpl (T : Types) : Nat → PSt → Ident → MetaType → Option (List Piece × PSt)
  | 0, _, _, _ => none
  | fuel + 1, s, i, ty =>
    if i ∈ s.visit then some ([.loop i], s)
    else
      (runOps (resolveWith T (printImpl T fuel)) (ops ty) { s with visit := i :: s.visit }).map fun (ps, s') =>
        (.head i (kindWord ty.variant) :: ps, { s' with visit := s'.visit.erase i })

/-- `print_type`, 58-66. -/
def printType (T : Types) (fuel : Nat) (i : Ident) : Option (List Piece) :=
  match Assoc.get T i with
  | none => some []
  | some ty => (printImpl T fuel ⟨0, []⟩ i ty).map (·.1)

/-- The loop of `print_all`, 45-47: the state goes from one entry to the next. -/
def printEntries (T : Types) (fuel : Nat) : List (Ident × MetaType) → PSt → Option (List Piece)
  | [], _ => some []
  | (i, ty) :: es, s =>
    (printImpl T fuel s i ty).bind fun (ps, s') => (printEntries T fuel es s').map (ps ++ ·)

/-- `print_all`, 42-50. -/
def printAll (T : Types) (fuel : Nat) : Option (List Piece) := printEntries T fuel T ⟨0, []⟩

/-! ## Specification -/

/-- The type `j` is shown inside a type with the variant `v`: it is a group in it or its content. -/
def Inlined (v : Variant) (j : Ident) : Prop :=
  (∃ g, (v = .all g ∨ v = .choice g ∨ v = .sequence g) ∧ ∃ e ∈ g.elements, e.variant = .type_ j .group) ∨
  (∃ c, v = .complex c ∧ c.content = some j)

def Inside (T : Types) (i j : Ident) : Prop := ∃ ty, Assoc.get T i = some ty ∧ Inlined ty.variant j

/-- Zero or more steps. -/
inductive Reach (T : Types) : Ident → Ident → Prop
  | refl (i) : Reach T i i
  | step {i j k} : Inside T i j → Reach T j k → Reach T i k

/-- The type contains itself, directly or through others. -/
def Recursive (T : Types) (i : Ident) : Prop := ∃ j, Inside T i j ∧ Reach T j i

/-- The lines about the type itself. -/
def Shows (ty : MetaType) (label : String) (v : Value) : Prop := .line label v ∈ ops ty

/-! ## Proofs -/

theorem nested_anyOps {l : String} {m : AnyMeta} {j : Ident} : .nested j ∉ anyOps l m := by
  have : ∀ (l : String) (o : Option Txt), Op.nested j ∉ optLine l o := by
    intro l o; cases o <;> simp [optLine]
  simp [anyOps, this]

theorem nested_elementOps {e : Element} {j : Ident} : .nested j ∈ elementOps e ↔ e.variant = .type_ j .group := by
  unfold elementOps
  cases e.variant with
  | text => simp [elementVariantOps]
  | any m => simp [elementVariantOps, nested_anyOps]
  | type_ i m => cases m <;> simp [elementVariantOps, eq_comm]

theorem nested_attributeOps {a : Attribute} {j : Ident} : .nested j ∉ attributeOps a := by
  unfold attributeOps
  cases a.variant <;> simp [nested_anyOps]

theorem nested_groupOps {d : Option Txt} {g : Group} {j : Ident} :
    .nested j ∈ groupOps d g ↔ ∃ e ∈ g.elements, e.variant = .type_ j .group := by
  simp [groupOps, nested_elementOps]

theorem nested_ops {ty : MetaType} {j : Ident} : .nested j ∈ ops ty ↔ Inlined ty.variant j := by
  unfold ops Inlined
  cases ty.variant with
  | all g => simp [nested_groupOps]
  | choice g => simp [nested_groupOps]
  | sequence g => simp [nested_groupOps]
  | complex c =>
    cases hc : c.content <;> simp [nested_attributeOps, contentOps, hc, eq_comm]
  | _ => simp [constrainsOps]

/-- The levels of an entry: what goes up comes down, and never below where it began. -/
def balance : List Op → Nat → Option Nat
  | [], n => some n
  | .up :: os, n => balance os (n + 1)
  | .down k :: os, n => if n < k then none else balance os (n - k)
  | _ :: os, n => balance os n

/-- A list of steps that leaves the level as it was, from every level. -/
def Balanced (os : List Op) : Prop := ∀ n rest, balance (os ++ rest) n = balance rest n

theorem Balanced.append {a b : List Op} (ha : Balanced a) (hb : Balanced b) : Balanced (a ++ b) := by
  intro n rest
  rw [List.append_assoc, ha, hb]

theorem Balanced.line {l : String} {v : Value} {b : List Op} (hb : Balanced b) : Balanced (.line l v :: b) := hb

theorem Balanced.begin_ {l : String} {b : List Op} (hb : Balanced b) : Balanced (.begin_ l :: b) := hb

theorem Balanced.nested {i : Ident} {b : List Op} (hb : Balanced b) : Balanced (.nested i :: b) := hb

theorem Balanced.nil : Balanced [] := fun _ _ => rfl

theorem Balanced.flatMap {α : Type} {f : α → List Op} (l : List α) (h : ∀ a, Balanced (f a)) : Balanced (l.flatMap f) := by
  induction l with
  | nil => exact .nil
  | cons a l ih => exact (h a).append ih

theorem Balanced.map {α : Type} {f : α → String × Value} (l : List α) :
    Balanced (l.map fun a => .line (f a).1 (f a).2) := by
  induction l with
  | nil => exact .nil
  | cons a l ih => exact ih

theorem Balanced.wrap {os : List Op} (h : Balanced os) : Balanced (.up :: os ++ [.down 1]) := by
  intro n rest
  rw [List.append_assoc, List.cons_append, balance, h]
  simp [balance]

theorem balanced_optLine (l : String) (o : Option Txt) : Balanced (optLine l o) := by
  cases o <;> exact .nil

theorem balanced_constrains (c : Constrains) : Balanced (constrainsOps c) := by
  intro n rest
  simp [constrainsOps, balance]

theorem balanced_any (l : String) (m : AnyMeta) : Balanced (anyOps l m) := by
  have h : Balanced (optLine "id" m.id ++ optLine "namespace" m.namespace_ ++ optLine "not_q_name" m.notQName ++
      optLine "not_namespace" m.notNamespace ++ [.line "process_contents" (.text m.processContents)]) :=
    (((balanced_optLine _ _).append (balanced_optLine _ _)).append (balanced_optLine _ _) |>.append
      (balanced_optLine _ _)).append (Balanced.line .nil)
  have := h.wrap
  simp only [List.append_assoc, List.cons_append, List.nil_append] at this
  unfold anyOps
  simp only [List.append_assoc, List.cons_append, List.nil_append]
  exact Balanced.line this

theorem balanced_element (e : Element) : Balanced (elementOps e) := by
  have hv : Balanced (elementVariantOps e.variant) := by
    cases e.variant with
    | text => exact Balanced.line .nil
    | any m => exact balanced_any _ m
    | type_ i m =>
      cases m
      · exact Balanced.line .nil
      · exact Balanced.begin_ (Balanced.nested .nil)
  have := (Balanced.line (l := "ident") (v := .prop e.ident) <| Balanced.line (l := "form") (v := .form e.form) <|
    Balanced.line (l := "flags") (v := .flags e.flags) <| Balanced.line (l := "min_occurs") (v := .nat e.min) <|
    Balanced.line (l := "max_occurs") (v := .max e.max) hv).wrap
  exact Balanced.line (l := "element") (v := .nothing) this

theorem balanced_attribute (a : Attribute) : Balanced (attributeOps a) := by
  have hv : ∀ v : AttrVariant, Balanced (match v with
      | .type_ i => [.line "type=Type" (.ident i)]
      | .any m => anyOps "type=Any" m) := by
    intro v
    cases v with
    | type_ i => exact Balanced.line .nil
    | any m => exact balanced_any _ m
  have := (Balanced.line (l := "ident") (v := .prop a.ident) <| Balanced.line (l := "use") (v := .use_ a.use_) <|
    Balanced.line (l := "form") (v := .form a.form) <| Balanced.line (l := "default") (v := .optText a.default_)
      (hv a.variant)).wrap
  exact Balanced.line (l := "attribute") (v := .nothing) this

theorem balanced_ops (ty : MetaType) : Balanced (ops ty) := by
  unfold ops
  have hg : ∀ g, Balanced (groupOps ty.displayName g) := fun g =>
    (Balanced.line (l := "display_name") (v := .optText ty.displayName) <|
      Balanced.line (l := "is_mixed") (v := .bool g.isMixed) <|
      Balanced.flatMap g.elements balanced_element).wrap
  cases ty.variant with
  | all g => exact hg g
  | choice g => exact hg g
  | sequence g => exact hg g
  | buildIn x => intro n rest; simp [balance]
  | custom x => intro n rest; simp [balance]
  | reference x => intro n rest; simp [balance]
  | union x =>
    intro n rest
    have h := balanced_constrains x.constrains
    have h' := Balanced.map (f := fun t : UnionType => ("", .ident t.type_)) x.types
    simp only [List.append_assoc, List.cons_append, List.nil_append, balance]
    rw [h]
    simp only [balance]
    rw [h']
    simp only [balance]
    rw [if_neg (by omega)]
    rfl
  | dynamic x =>
    intro n rest
    have h' := Balanced.map (f := fun t : Ident × Derived => ("", .derived t.1 t.2)) x.derived
    simp only [List.append_assoc, List.cons_append, List.nil_append, balance]
    rw [h']
    simp only [balance]
    rw [if_neg (by omega)]
    rfl
  | enumeration x =>
    intro n rest
    have h := balanced_constrains x.constrains
    have h' := Balanced.map (f := fun t : EnumVariant => ("", .enumVariant t.ident t.use_)) x.variants
    simp only [List.append_assoc, List.cons_append, List.nil_append, balance]
    rw [h]
    simp only [balance]
    rw [h']
    simp only [balance]
    rw [if_neg (by omega)]
    rfl
  | complex x =>
    intro n rest
    have h := Balanced.flatMap x.attributes balanced_attribute
    have h' : Balanced (contentOps x.content) := by
      cases x.content
      · exact .nil
      · exact Balanced.begin_ (Balanced.nested .nil)
    simp only [List.append_assoc, List.cons_append, List.nil_append, balance]
    rw [h, h']
    simp [balance]
  | simple x =>
    intro n rest
    have h := balanced_constrains x.constrains
    simp only [List.append_assoc, List.cons_append, List.nil_append, balance]
    rw [h]
    simp [balance]

/-- The pieces and the state after the steps, if the types inside leave the state alone. -/
theorem runOps_total {rec : PSt → Ident → Option (List Piece × PSt)} {V : List Ident} :
    ∀ (os : List Op) (n m : Nat), balance os n = some m →
      (∀ j, .nested j ∈ os → ∀ l, ∃ ps, rec ⟨l, V⟩ j = some (ps, ⟨l, V⟩)) →
      ∃ ps, runOps rec os ⟨n, V⟩ = some (ps, ⟨m, V⟩) := by
  intro os
  induction os with
  | nil => intro n m h _; cases h; exact ⟨[], rfl⟩
  | cons o os ih =>
    intro n m h hr
    have hr' := fun j hj => hr j (List.mem_cons_of_mem o hj)
    cases o with
    | up => exact ih (n + 1) m h hr'
    | down k =>
      rw [balance] at h
      split at h
      · cases h
      · rename_i hk
        rw [runOps]
        simp only [hk, if_false]
        exact ih (n - k) m h hr'
    | line l v =>
      obtain ⟨ps, hp⟩ := ih n m h hr'
      exact ⟨_, by rw [runOps, hp]; rfl⟩
    | begin_ l =>
      obtain ⟨ps, hp⟩ := ih n m h hr'
      exact ⟨_, by rw [runOps, hp]; rfl⟩
    | nested j =>
      obtain ⟨ps, hp⟩ := ih n m h hr'
      obtain ⟨qs, hq⟩ := hr j (List.mem_cons_self ..) n
      exact ⟨_, by rw [runOps, hq, Option.bind_some]; simp only []; rw [hp]; rfl⟩

/-- The types of the table that are not being printed. -/
def left (T : Types) (V : List Ident) : Nat := T.countP fun p => decide (p.1 ∉ V)

theorem countP_lt' {α : Type} {p q : α → Bool} : ∀ {l : List α} {a : α}, (∀ x ∈ l, p x = true → q x = true) → a ∈ l →
    p a = false → q a = true → l.countP p < l.countP q := by
  intro l
  induction l with
  | nil => intro a _ h; cases h
  | cons b l ih =>
    intro a h ha hp hq
    have mono : l.countP p ≤ l.countP q := List.countP_mono_left fun x hx => h x (List.mem_cons_of_mem _ hx)
    rw [List.countP_cons, List.countP_cons]
    rcases List.mem_cons.1 ha with rfl | ha
    · rw [hp, hq]; simp; omega
    · have := ih (fun x hx => h x (List.mem_cons_of_mem _ hx)) ha hp hq
      by_cases hb : p b = true
      · rw [hb, h b (List.mem_cons_self ..) hb]; simp; omega
      · simp only [hb]; simp; split <;> omega

theorem left_cons {T : Types} {V : List Ident} {i : Ident} {ty : MetaType} (h : Assoc.get T i = some ty) (hi : i ∉ V) :
    left T (i :: V) < left T V := by
  refine countP_lt' (a := (i, ty)) ?_ (Assoc.mem_of_get h) (by simp) (by simpa using hi)
  intro p _ hp
  simp only [List.mem_cons, not_or, decide_eq_true_eq] at hp ⊢
  exact hp.2

/-- An entry inside another one. -/
def resolve (T : Types) (fuel : Nat) : PSt → Ident → Option (List Piece × PSt) := resolveWith T (printImpl T fuel)

theorem resolve_eq (T : Types) (fuel : Nat) (s : PSt) (i : Ident) : resolve T fuel s i =
    match Assoc.get T i with
    | none => some ([.notFound], s)
    | some ty => printImpl T fuel s i ty := rfl

theorem printImpl_succ (T : Types) (fuel : Nat) (s : PSt) (i : Ident) (ty : MetaType) : printImpl T (fuel + 1) s i ty =
    if i ∈ s.visit then some ([.loop i], s)
    else
      (runOps (fun s j => resolve T fuel s j) (ops ty) { s with visit := i :: s.visit }).map fun (ps, s') =>
        (.head i (kindWord ty.variant) :: ps, { s' with visit := s'.visit.erase i }) := rfl

/-- Printing an entry ends and leaves the state alone. -/
theorem printImpl_total (T : Types) : ∀ (fuel : Nat) (V : List Ident) (n : Nat) (i : Ident) (ty : MetaType),
    Assoc.get T i = some ty → left T V < fuel → ∃ ps, printImpl T fuel ⟨n, V⟩ i ty = some (ps, ⟨n, V⟩) := by
  intro fuel
  induction fuel with
  | zero => intro V n i ty _ h; exact absurd h (Nat.not_lt_zero _)
  | succ fuel ih =>
    intro V n i ty hty hl
    rw [printImpl_succ]
    by_cases hi : i ∈ V
    · rw [if_pos hi]; exact ⟨_, rfl⟩
    · rw [if_neg hi]
      have hb : balance (ops ty) n = some n := by
        have := balanced_ops ty n []
        rwa [List.append_nil] at this
      obtain ⟨ps, hp⟩ := runOps_total (rec := fun s j => resolve T fuel s j) (V := i :: V) (ops ty) n n hb (by
        intro j _ l
        simp only [resolve_eq]
        cases hj : Assoc.get T j with
        | none => exact ⟨_, rfl⟩
        | some tj => exact ih (i :: V) l j tj hj (Nat.lt_of_lt_of_le (left_cons hty hi) (Nat.le_of_lt_succ hl)))
      refine ⟨.head i (kindWord ty.variant) :: ps, ?_⟩
      rw [hp]
      simp only [Option.map_some, List.erase_cons_head]

theorem left_le (T : Types) (V : List Ident) : left T V ≤ T.length := List.countP_le_length

/-- Every table can be printed, also one in which types contain themselves or refer to types that are not there: the
printer never runs below level zero, and its recursion is at most as deep as the table has entries. -/
theorem C83_printing_ends (T : Types) (hT : Assoc.Keyed T) (fuel : Nat) (h : T.length < fuel) :
    (∃ ps, printAll T fuel = some ps) ∧ ∀ i, ∃ ps, printType T fuel i = some ps := by
  have hl : ∀ V, left T V < fuel := fun V => Nat.lt_of_le_of_lt (left_le T V) h
  constructor
  · unfold printAll
    have : ∀ es : List (Ident × MetaType), (∀ e ∈ es, e ∈ T) → ∃ ps, printEntries T fuel es ⟨0, []⟩ = some ps := by
      intro es
      induction es with
      | nil => intro _; exact ⟨[], rfl⟩
      | cons e es ih =>
        intro hes
        obtain ⟨i, ty⟩ := e
        obtain ⟨ps, hp⟩ := printImpl_total T fuel [] 0 i ty
          (Assoc.get_of_mem hT (hes _ (List.mem_cons_self ..))) (hl [])
        obtain ⟨qs, hq⟩ := ih fun e he => hes e (List.mem_cons_of_mem _ he)
        exact ⟨_, by rw [printEntries, hp, Option.bind_some]; simp only []; rw [hq]; rfl⟩
    exact this T fun _ h => h
  · intro i
    unfold printType
    cases hi : Assoc.get T i with
    | none => exact ⟨_, rfl⟩
    | some ty =>
      obtain ⟨ps, hp⟩ := printImpl_total T fuel [] 0 i ty hi (hl [])
      exact ⟨ps, by simp only [hp]; rfl⟩

/-- The whole text is the texts of the single types one after the other: printing one type leaves no trace. -/
theorem C83_all_is_each (T : Types) (hT : Assoc.Keyed T) (fuel : Nat) (h : T.length < fuel) {ps : List Piece}
    (hp : printAll T fuel = some ps) :
    ps = T.flatMap fun e => (printType T fuel e.1).getD [] := by
  have hl : ∀ V, left T V < fuel := fun V => Nat.lt_of_le_of_lt (left_le T V) h
  have : ∀ es : List (Ident × MetaType), (∀ e ∈ es, e ∈ T) → printEntries T fuel es ⟨0, []⟩ =
      some (es.flatMap fun e => (printType T fuel e.1).getD []) := by
    intro es
    induction es with
    | nil => intro _; rfl
    | cons e es ih =>
      intro hes
      obtain ⟨i, ty⟩ := e
      have hi := Assoc.get_of_mem hT (hes _ (List.mem_cons_self ..))
      obtain ⟨ps, hp⟩ := printImpl_total T fuel [] 0 i ty hi (hl [])
      have hpt : printType T fuel i = some ps := by
        unfold printType
        simp only [hi, hp]
        rfl
      rw [printEntries, hp, Option.bind_some]
      simp only []
      rw [ih fun e he => hes e (List.mem_cons_of_mem _ he), List.flatMap_cons, hpt]
      rfl
  have := this T fun _ h => h
  unfold printAll at hp
  rw [hp] at this
  exact Option.some.inj this

/-! ### What is printed -/

/-- A piece of the steps is a line of its own, the beginning of one, or a piece of a type inside. -/
theorem mem_runOps {rec : PSt → Ident → Option (List Piece × PSt)} {V : List Ident}
    (hrec : ∀ l j ps s, rec ⟨l, V⟩ j = some (ps, s) → s = ⟨l, V⟩) :
    ∀ (os : List Op) (n : Nat) (ps : List Piece) (s : PSt), runOps rec os ⟨n, V⟩ = some (ps, s) →
      s.visit = V ∧
      (∀ p ∈ ps, (∃ l lab v, p = .line l lab v ∧ .line lab v ∈ os) ∨ (∃ l lab, p = .begin_ l lab) ∨
        ∃ j l qs, .nested j ∈ os ∧ rec ⟨l, V⟩ j = some (qs, ⟨l, V⟩) ∧ p ∈ qs) ∧
      (∀ lab v, .line lab v ∈ os → ∃ l, .line l lab v ∈ ps) ∧
      (∀ j, .nested j ∈ os → ∃ l qs, rec ⟨l, V⟩ j = some (qs, ⟨l, V⟩) ∧ ∀ q ∈ qs, q ∈ ps) := by
  intro os
  induction os with
  | nil => intro n ps s h; cases h; exact ⟨rfl, nofun, nofun, nofun⟩
  | cons o os ih =>
    intro n ps s h
    have lift : ∀ {p : Piece}, ((∃ l lab v, p = .line l lab v ∧ .line lab v ∈ os) ∨ (∃ l lab, p = .begin_ l lab) ∨
        ∃ j l qs, .nested j ∈ os ∧ rec ⟨l, V⟩ j = some (qs, ⟨l, V⟩) ∧ p ∈ qs) →
        ((∃ l lab v, p = .line l lab v ∧ .line lab v ∈ o :: os) ∨ (∃ l lab, p = .begin_ l lab) ∨
        ∃ j l qs, .nested j ∈ o :: os ∧ rec ⟨l, V⟩ j = some (qs, ⟨l, V⟩) ∧ p ∈ qs) := by
      rintro p (⟨l, lab, v, h1, h2⟩ | h | ⟨j, l, qs, h1, h2⟩)
      · exact .inl ⟨l, lab, v, h1, List.mem_cons_of_mem _ h2⟩
      · exact .inr (.inl h)
      · exact .inr (.inr ⟨j, l, qs, List.mem_cons_of_mem _ h1, h2⟩)
    cases o with
    | up =>
      obtain ⟨h1, h2, h3, h4⟩ := ih (n + 1) ps s h
      exact ⟨h1, fun p hp => lift (h2 p hp), fun lab v hv => h3 lab v (by simpa using hv), fun j hj => h4 j (by simpa using hj)⟩
    | down k =>
      rw [runOps] at h
      split at h
      · cases h
      · obtain ⟨h1, h2, h3, h4⟩ := ih (n - k) ps s h
        exact ⟨h1, fun p hp => lift (h2 p hp), fun lab v hv => h3 lab v (by simpa using hv), fun j hj => h4 j (by simpa using hj)⟩
    | line lab v =>
      rw [runOps, Option.map_eq_some_iff] at h
      obtain ⟨⟨qs, s'⟩, hq, he⟩ := h
      simp only [Prod.mk.injEq] at he
      obtain ⟨rfl, rfl⟩ := he
      obtain ⟨h1, h2, h3, h4⟩ := ih n qs s' hq
      refine ⟨h1, ?_, ?_, ?_⟩
      · intro p hp
        rcases List.mem_cons.1 hp with rfl | hp
        · exact .inl ⟨_, lab, v, rfl, List.mem_cons_self ..⟩
        · exact lift (h2 p hp)
      · intro lab' v' hv
        rcases List.mem_cons.1 hv with hv | hv
        · cases hv; exact ⟨_, List.mem_cons_self ..⟩
        · obtain ⟨l, hl⟩ := h3 lab' v' hv
          exact ⟨l, List.mem_cons_of_mem _ hl⟩
      · intro j hj
        obtain ⟨l, qs', h5, h6⟩ := h4 j (by simpa using hj)
        exact ⟨l, qs', h5, fun q hq => List.mem_cons_of_mem _ (h6 q hq)⟩
    | begin_ lab =>
      rw [runOps, Option.map_eq_some_iff] at h
      obtain ⟨⟨qs, s'⟩, hq, he⟩ := h
      simp only [Prod.mk.injEq] at he
      obtain ⟨rfl, rfl⟩ := he
      obtain ⟨h1, h2, h3, h4⟩ := ih n qs s' hq
      refine ⟨h1, ?_, ?_, ?_⟩
      · intro p hp
        rcases List.mem_cons.1 hp with rfl | hp
        · exact .inr (.inl ⟨_, lab, rfl⟩)
        · exact lift (h2 p hp)
      · intro lab' v' hv
        obtain ⟨l, hl⟩ := h3 lab' v' (by simpa using hv)
        exact ⟨l, List.mem_cons_of_mem _ hl⟩
      · intro j hj
        obtain ⟨l, qs', h5, h6⟩ := h4 j (by simpa using hj)
        exact ⟨l, qs', h5, fun q hq => List.mem_cons_of_mem _ (h6 q hq)⟩
    | nested i =>
      rw [runOps, Option.bind_eq_some_iff] at h
      obtain ⟨⟨qs, s'⟩, hq, he⟩ := h
      simp only [Option.map_eq_some_iff] at he
      obtain ⟨⟨rs, s''⟩, hr, he⟩ := he
      simp only [Prod.mk.injEq] at he
      obtain ⟨rfl, rfl⟩ := he
      have := hrec _ _ _ _ hq
      subst this
      obtain ⟨h1, h2, h3, h4⟩ := ih n rs s'' hr
      refine ⟨h1, ?_, ?_, ?_⟩
      · intro p hp
        rcases List.mem_append.1 hp with hp | hp
        · exact .inr (.inr ⟨i, n, qs, List.mem_cons_self .., hq, hp⟩)
        · exact lift (h2 p hp)
      · intro lab' v' hv
        obtain ⟨l, hl⟩ := h3 lab' v' (by simpa using hv)
        exact ⟨l, List.mem_append_right _ hl⟩
      · intro j hj
        rcases List.mem_cons.1 hj with hj | hj
        · cases hj; exact ⟨n, qs, hq, fun q hq => List.mem_append_left _ hq⟩
        · obtain ⟨l, qs', h5, h6⟩ := h4 j hj
          exact ⟨l, qs', h5, fun q hq => List.mem_append_right _ (h6 q hq)⟩

/-- What an entry that is not being printed prints. -/
theorem mem_printImpl {T : Types} {fuel : Nat} {V : List Ident} {n : Nat} {i : Ident} {ty : MetaType} {ps : List Piece}
    {s : PSt} (hi : i ∉ V) (hty : Assoc.get T i = some ty) (hl : left T V < fuel + 1)
    (h : printImpl T (fuel + 1) ⟨n, V⟩ i ty = some (ps, s)) :
    s = ⟨n, V⟩ ∧ left T (i :: V) < fuel ∧ .head i (kindWord ty.variant) ∈ ps ∧
    (∀ p ∈ ps, p = .head i (kindWord ty.variant) ∨ (∃ l lab v, p = .line l lab v ∧ Shows ty lab v) ∨
      (∃ l lab, p = .begin_ l lab) ∨
      ∃ j l qs, Inside T i j ∧ resolve T fuel ⟨l, i :: V⟩ j = some (qs, ⟨l, i :: V⟩) ∧ p ∈ qs) ∧
    (∀ lab v, Shows ty lab v → ∃ l, .line l lab v ∈ ps) ∧
    (∀ j, Inside T i j → ∃ l qs, resolve T fuel ⟨l, i :: V⟩ j = some (qs, ⟨l, i :: V⟩) ∧ ∀ q ∈ qs, q ∈ ps) := by
  have hlt : left T (i :: V) < fuel := Nat.lt_of_lt_of_le (left_cons hty hi) (Nat.le_of_lt_succ hl)
  have hs : s = ⟨n, V⟩ := by
    obtain ⟨qs, hq⟩ := printImpl_total T (fuel + 1) V n i ty hty hl
    rw [hq] at h
    cases h; rfl
  have hin : ∀ j, Inside T i j ↔ .nested j ∈ ops ty := by
    intro j
    rw [nested_ops]
    exact ⟨fun ⟨ty', h1, h2⟩ => by rw [hty] at h1; cases h1; exact h2, fun h => ⟨ty, hty, h⟩⟩
  rw [printImpl_succ, if_neg hi, Option.map_eq_some_iff] at h
  obtain ⟨⟨qs, s'⟩, hq, he⟩ := h
  simp only [Prod.mk.injEq] at he
  obtain ⟨rfl, _⟩ := he
  obtain ⟨_, h2, h3, h4⟩ := mem_runOps (rec := fun s j => resolve T fuel s j) (V := i :: V) (by
    intro l j ps s h
    simp only [resolve_eq] at h
    cases hj : Assoc.get T j with
    | none => rw [hj] at h; cases h; rfl
    | some tj =>
      rw [hj] at h
      obtain ⟨qs, hq⟩ := printImpl_total T fuel (i :: V) l j tj hj hlt
      simp only [hq] at h
      cases h; rfl) _ _ _ _ hq
  refine ⟨hs, hlt, List.mem_cons_self .., ?_, ?_, ?_⟩
  · intro p hp
    rcases List.mem_cons.1 hp with rfl | hp
    · exact .inl rfl
    · rcases h2 p hp with h | h | ⟨j, l, qs, h1, h2⟩
      · exact .inr (.inl h)
      · exact .inr (.inr (.inl h))
      · exact .inr (.inr (.inr ⟨j, l, qs, (hin j).2 h1, h2⟩))
  · intro lab v hv
    obtain ⟨l, hl⟩ := h3 lab v hv
    exact ⟨l, List.mem_cons_of_mem _ hl⟩
  · intro j hj
    obtain ⟨l, qs, h5, h6⟩ := h4 j ((hin j).1 hj)
    exact ⟨l, qs, h5, fun q hq => List.mem_cons_of_mem _ (h6 q hq)⟩

theorem Reach.trans {T : Types} {i j k : Ident} (h : Reach T i j) (h' : Reach T j k) : Reach T i k := by
  induction h with
  | refl => exact h'
  | step h _ ih => exact .step h (ih h')

/-- Soundness: what is printed belongs to a type inside. -/
theorem printed_sound (T : Types) : ∀ (fuel : Nat) (V : List Ident) (n : Nat) (i : Ident) (ps : List Piece) (s : PSt),
    left T V < fuel → resolve T fuel ⟨n, V⟩ i = some (ps, s) → ∀ p ∈ ps,
      (∃ j ty, Reach T i j ∧ Assoc.get T j = some ty ∧ (p = .head j (kindWord ty.variant) ∨
        (∃ l lab v, p = .line l lab v ∧ Shows ty lab v))) ∨
      (∃ l lab, p = .begin_ l lab) ∨ (p = .notFound ∧ ∃ j, Reach T i j ∧ Assoc.get T j = none) ∨
      (∃ j, p = .loop j ∧ Reach T i j ∧ (j ∈ V ∨ Recursive T j)) := by
  intro fuel
  induction fuel with
  | zero => intro V n i ps s h; exact absurd h (Nat.not_lt_zero _)
  | succ fuel ih =>
    intro V n i ps s hl h p hp
    rw [resolve_eq] at h
    cases hi : Assoc.get T i with
    | none =>
      rw [hi] at h
      cases h
      rw [List.mem_singleton] at hp
      exact .inr (.inr (.inl ⟨hp, i, .refl i, hi⟩))
    | some ty =>
      rw [hi] at h
      simp only [] at h
      by_cases hv : i ∈ V
      · rw [printImpl_succ, if_pos hv] at h
        cases h
        rw [List.mem_singleton] at hp
        exact .inr (.inr (.inr ⟨i, hp, .refl i, .inl hv⟩))
      · obtain ⟨_, hlt, _, h2, _, _⟩ := mem_printImpl hv hi hl h
        rcases h2 p hp with h | ⟨l, lab, v, h, hs⟩ | h | ⟨j, l, qs, hj, hq, hp⟩
        · exact .inl ⟨i, ty, .refl i, hi, .inl h⟩
        · exact .inl ⟨i, ty, .refl i, hi, .inr ⟨l, lab, v, h, hs⟩⟩
        · exact .inr (.inl h)
        · rcases ih (i :: V) l j qs _ hlt hq p hp with ⟨k, tk, h1, h2⟩ | h | ⟨h, k, h1, h2⟩ | ⟨k, h1, hr, h3⟩
          · exact .inl ⟨k, tk, .step hj h1, h2⟩
          · exact .inr (.inl h)
          · exact .inr (.inr (.inl ⟨h, k, .step hj h1, h2⟩))
          · refine .inr (.inr (.inr ⟨k, h1, .step hj hr, ?_⟩))
            rcases h3 with h3 | h3
            · rcases List.mem_cons.1 h3 with rfl | h3
              · exact .inr ⟨j, hj, hr⟩
              · exact .inl h3
            · exact .inr h3

/-- A way that meets none of the types that are being printed. -/
inductive Way (T : Types) (V : List Ident) : Ident → Ident → Prop
  | refl {i} : i ∉ V → Way T V i i
  | step {i j k} : i ∉ V → Inside T i j → Way T V j k → Way T V i k

theorem Way.start {T : Types} {V : List Ident} {i j : Ident} (h : Way T V i j) : i ∉ V := by
  cases h <;> assumption

theorem way_nil {T : Types} {i j : Ident} (h : Reach T i j) : Way T [] i j := by
  induction h with
  | refl => exact .refl nofun
  | step h _ ih => exact .step nofun h ih

/-- A way to another type goes on from the last time it leaves `i`. -/
theorem Way.leave {T : Types} {V : List Ident} {i a j : Ident} (h : Way T V a j) :
    Way T (i :: V) a j ∨ (∃ k, Inside T i k ∧ Way T (i :: V) k j) ∨ j = i := by
  induction h with
  | @refl a ha =>
    by_cases e : a = i
    · exact .inr (.inr e)
    · exact .inl (.refl (by simp [e, ha]))
  | @step a b j ha hab _ ih =>
    rcases ih with h | h | h
    · by_cases e : a = i
      · subst e; exact .inr (.inl ⟨b, hab, h⟩)
      · exact .inl (.step (by simp [e, ha]) hab h)
    · exact .inr (.inl h)
    · exact .inr (.inr h)

/-- Completeness: everything inside is printed. -/
theorem printed_complete (T : Types) : ∀ (fuel : Nat) (V : List Ident) (n : Nat) (i j : Ident) (ps : List Piece) (s : PSt),
    left T V < fuel → resolve T fuel ⟨n, V⟩ i = some (ps, s) → Way T V i j →
      (Assoc.get T j = none → .notFound ∈ ps) ∧
      (∀ ty, Assoc.get T j = some ty → .head j (kindWord ty.variant) ∈ ps ∧
        ∀ lab v, Shows ty lab v → ∃ l, .line l lab v ∈ ps) := by
  intro fuel
  induction fuel with
  | zero => intro V n i j ps s h; exact absurd h (Nat.not_lt_zero _)
  | succ fuel ih =>
    intro V n i j ps s hl h way
    have hv := way.start
    rw [resolve_eq] at h
    cases hi : Assoc.get T i with
    | none =>
      rw [hi] at h
      cases h
      cases way with
      | refl _ => exact ⟨fun _ => List.mem_singleton.2 rfl, fun ty h => by rw [hi] at h; cases h⟩
      | step _ hk _ => obtain ⟨ty, h, _⟩ := hk; rw [hi] at h; cases h
    | some ty =>
      rw [hi] at h
      simp only [] at h
      obtain ⟨_, hlt, h1, _, h3, h4⟩ := mem_printImpl hv hi hl h
      have via : (∃ k, Inside T i k ∧ Way T (i :: V) k j) →
          (Assoc.get T j = none → .notFound ∈ ps) ∧
          (∀ ty, Assoc.get T j = some ty → .head j (kindWord ty.variant) ∈ ps ∧
            ∀ lab v, Shows ty lab v → ∃ l, .line l lab v ∈ ps) := by
        rintro ⟨k, hk, hw⟩
        obtain ⟨l, qs, h5, h6⟩ := h4 k hk
        obtain ⟨h7, h8⟩ := ih (i :: V) l k j qs _ hlt h5 hw
        refine ⟨fun h => h6 _ (h7 h), fun ty h => ⟨h6 _ (h8 ty h).1, fun lab v hs => ?_⟩⟩
        obtain ⟨l', hl'⟩ := (h8 ty h).2 lab v hs
        exact ⟨l', h6 _ hl'⟩
      rcases way.leave (i := i) with hw | hw | e
      · exact absurd (List.mem_cons_self ..) hw.start
      · exact via hw
      · rw [e]
        refine ⟨fun h => ?_, fun ty' h => ?_⟩
        · rw [hi] at h; cases h
        · rw [hi] at h
          cases h
          exact ⟨h1, h3⟩

/-- No loop is reported: nothing inside is recursive, or being printed. -/
theorem no_loop (T : Types) : ∀ (fuel : Nat) (V : List Ident) (n : Nat) (i : Ident) (ps : List Piece) (s : PSt),
    left T V < fuel → resolve T fuel ⟨n, V⟩ i = some (ps, s) → (∀ j, .loop j ∉ ps) → Assoc.get T i ≠ none →
      ∀ j, Reach T i j → Assoc.get T j ≠ none → j ∉ V ∧ ¬ Recursive T j := by
  intro fuel
  induction fuel with
  | zero => intro V n i ps s h; exact absurd h (Nat.not_lt_zero _)
  | succ fuel ih =>
    intro V n i ps s hl h no hd j hj hdj
    rw [resolve_eq] at h
    cases hi : Assoc.get T i with
    | none => exact absurd hi hd
    | some ty =>
      rw [hi] at h
      simp only [] at h
      have hv : i ∉ V := by
        intro hv
        rw [printImpl_succ, if_pos hv] at h
        cases h
        exact no i (List.mem_singleton.2 rfl)
      obtain ⟨_, hlt, _, _, _, h4⟩ := mem_printImpl hv hi hl h
      have inner : ∀ k, Inside T i k → ∀ m, Reach T k m → Assoc.get T m ≠ none → m ∉ i :: V ∧ ¬ Recursive T m := by
        intro k hk m hm hdm
        obtain ⟨l, qs, h5, h6⟩ := h4 k hk
        refine ih (i :: V) l k qs _ hlt h5 (fun j hj => no j (h6 _ hj)) ?_ m hm hdm
        cases hm with
        | refl => exact hdm
        | step h _ => obtain ⟨t, ht, _⟩ := h; rw [ht]; exact nofun
      cases hj with
      | refl =>
        refine ⟨hv, ?_⟩
        rintro ⟨k, hk, hr⟩
        exact (inner k hk i hr hd).1 (List.mem_cons_self ..)
      | step hk hr =>
        obtain ⟨h1, h2⟩ := inner _ hk j hr hdj
        exact ⟨fun h => h1 (List.mem_cons_of_mem _ h), h2⟩

theorem resolve_of_printType {T : Types} {fuel : Nat} (h : T.length < fuel) {i : Ident} {ty : MetaType}
    (hi : Assoc.get T i = some ty) {ps : List Piece} (hp : printType T fuel i = some ps) :
    resolve T fuel ⟨0, []⟩ i = some (ps, ⟨0, []⟩) := by
  obtain ⟨qs, hq⟩ := printImpl_total T fuel [] 0 i ty hi (Nat.lt_of_le_of_lt (left_le T []) h)
  unfold printType at hp
  rw [hi] at hp
  simp only [hq, Option.map_some, Option.some.injEq] at hp
  subst hp
  rw [resolve_eq, hi]
  exact hq

/-- The text of a type shows exactly the types inside it, and everything about each of them. -/
theorem C83_shows_what_is_inside (T : Types) (fuel : Nat) (h : T.length < fuel) {i : Ident}
    {ty : MetaType} (hi : Assoc.get T i = some ty) {ps : List Piece} (hp : printType T fuel i = some ps) :
    (∀ j w, .head j w ∈ ps ↔ Reach T i j ∧ ∃ tj, Assoc.get T j = some tj ∧ w = kindWord tj.variant) ∧
    (∀ lab v, (∃ l, .line l lab v ∈ ps) ↔ ∃ j tj, Reach T i j ∧ Assoc.get T j = some tj ∧ Shows tj lab v) := by
  have hr := resolve_of_printType h hi hp
  have hl : left T [] < fuel := Nat.lt_of_le_of_lt (left_le T []) h
  refine ⟨fun j w => ⟨fun hm => ?_, ?_⟩, fun lab v => ⟨?_, ?_⟩⟩
  · rcases printed_sound T fuel [] 0 i ps _ hl hr _ hm with ⟨k, tk, h1, h2, h3⟩ | ⟨_, _, h⟩ | ⟨h, _⟩ | ⟨_, h, _⟩
    · rcases h3 with h3 | ⟨_, _, _, h3, _⟩
      · cases h3; exact ⟨h1, tk, h2, rfl⟩
      · cases h3
    · cases h
    · cases h
    · cases h
  · rintro ⟨h1, tj, h2, rfl⟩
    exact ((printed_complete T fuel [] 0 i j ps _ hl hr (way_nil h1)).2 tj h2).1
  · rintro ⟨l, hm⟩
    rcases printed_sound T fuel [] 0 i ps _ hl hr _ hm with ⟨k, tk, h1, h2, h3⟩ | ⟨_, _, h⟩ | ⟨h, _⟩ | ⟨_, h, _⟩
    · rcases h3 with h3 | ⟨_, _, _, h3, hs⟩
      · cases h3
      · cases h3; exact ⟨k, tk, h1, h2, hs⟩
    · cases h
    · cases h
    · cases h
  · rintro ⟨j, tj, h1, h2, h3⟩
    exact ((printed_complete T fuel [] 0 i j ps _ hl hr (way_nil h1)).2 tj h2).2 lab v h3

/-- `LOOP DETECTED` is written exactly if some type inside contains itself, and `NOT FOUND` exactly if some type inside is
missing in the table. -/
theorem C83_loops_and_gaps (T : Types) (fuel : Nat) (h : T.length < fuel) {i : Ident}
    {ty : MetaType} (hi : Assoc.get T i = some ty) {ps : List Piece} (hp : printType T fuel i = some ps) :
    ((∃ j, .loop j ∈ ps) ↔ ∃ j, Reach T i j ∧ Recursive T j) ∧
    (.notFound ∈ ps ↔ ∃ j, Reach T i j ∧ Assoc.get T j = none) := by
  have hr := resolve_of_printType h hi hp
  have hl : left T [] < fuel := Nat.lt_of_le_of_lt (left_le T []) h
  refine ⟨⟨?_, ?_⟩, ⟨fun hm => ?_, ?_⟩⟩
  · rintro ⟨j, hm⟩
    rcases printed_sound T fuel [] 0 i ps _ hl hr _ hm with ⟨k, tk, h1, h2, h3⟩ | ⟨_, _, h⟩ | ⟨h, _⟩ | ⟨k, h, h1, h2⟩
    · rcases h3 with h3 | ⟨_, _, _, h3, _⟩ <;> cases h3
    · cases h
    · cases h
    · rcases h2 with h2 | h2
      · cases h2
      · exact ⟨k, h1, h2⟩
  · rintro ⟨j, h1, h2⟩
    apply Classical.byContradiction
    intro no
    have hdj : Assoc.get T j ≠ none := by
      obtain ⟨_, ⟨tj, h3, _⟩, _⟩ := h2
      rw [h3]; exact nofun
    exact (no_loop T fuel [] 0 i ps _ hl hr (fun k hk => no ⟨k, hk⟩) (by rw [hi]; exact nofun) j h1 hdj).2 h2
  · rcases printed_sound T fuel [] 0 i ps _ hl hr _ hm with ⟨k, tk, h1, h2, h3⟩ | ⟨_, _, h⟩ | ⟨_, h⟩ | ⟨k, h, h1, h2⟩
    · rcases h3 with h3 | ⟨_, _, _, h3, _⟩ <;> cases h3
    · cases h
    · exact h
    · cases h
  · rintro ⟨j, h1, h2⟩
    exact (printed_complete T fuel [] 0 i j ps _ hl hr (way_nil h1)).1 h2

/-- What is shown about a type: its elements, attributes, enumeration values, union members, derived types and the type
it refers to. -/
theorem C83_members_shown (ty : MetaType) :
    (∀ g e, (ty.variant = .all g ∨ ty.variant = .choice g ∨ ty.variant = .sequence g) → e ∈ g.elements →
      Shows ty "ident" (.prop e.ident) ∧ Shows ty "min_occurs" (.nat e.min) ∧ Shows ty "max_occurs" (.max e.max) ∧
      ∀ j, e.variant = .type_ j .element → Shows ty "variant=Type" (.ident j)) ∧
    (∀ c a, ty.variant = .complex c → a ∈ c.attributes →
      Shows ty "ident" (.prop a.ident) ∧ Shows ty "use" (.use_ a.use_) ∧ Shows ty "default" (.optText a.default_) ∧
      ∀ j, a.variant = .type_ j → Shows ty "type=Type" (.ident j)) ∧
    (∀ x v, ty.variant = .enumeration x → v ∈ x.variants → Shows ty "" (.enumVariant v.ident v.use_)) ∧
    (∀ x t, ty.variant = .union x → t ∈ x.types → Shows ty "" (.ident t.type_)) ∧
    (∀ x d, ty.variant = .dynamic x → d ∈ x.derived → Shows ty "" (.derived d.1 d.2)) ∧
    (∀ x, ty.variant = .reference x → Shows ty "type" (.ident x.type_) ∧ Shows ty "min" (.nat x.min) ∧
      Shows ty "max" (.max x.max)) := by
  have hg : ∀ g e, (ty.variant = .all g ∨ ty.variant = .choice g ∨ ty.variant = .sequence g) → e ∈ g.elements →
      ∀ o, o ∈ elementOps e → o ∈ ops ty := by
    intro g e hv he o ho
    have : ops ty = groupOps ty.displayName g := by
      unfold ops
      rcases hv with hv | hv | hv <;> rw [hv]
    rw [this]
    unfold groupOps
    exact List.mem_append_left _ (List.mem_append_right _ (List.mem_flatMap.2 ⟨e, he, ho⟩))
  have ha : ∀ c a, ty.variant = .complex c → a ∈ c.attributes → ∀ o, o ∈ attributeOps a → o ∈ ops ty := by
    intro c a hv he o ho
    unfold ops
    rw [hv]
    exact List.mem_append_left _ (List.mem_append_left _ (List.mem_append_right _ (List.mem_flatMap.2 ⟨a, he, ho⟩)))
  refine ⟨fun g e hv he => ?_, fun c a hv he => ?_, fun x v hv he => ?_, fun x t hv he => ?_, fun x d hv he => ?_,
    fun x hv => ?_⟩
  · refine ⟨hg g e hv he _ (by simp [elementOps]), hg g e hv he _ (by simp [elementOps]),
      hg g e hv he _ (by simp [elementOps]), fun j hj => hg g e hv he _ (by simp [elementOps, hj, elementVariantOps])⟩
  · refine ⟨ha c a hv he _ (by simp [attributeOps]), ha c a hv he _ (by simp [attributeOps]),
      ha c a hv he _ (by simp [attributeOps]), fun j hj => ha c a hv he _ (by simp [attributeOps, hj])⟩
  · unfold Shows ops
    rw [hv]
    exact List.mem_append_left _ (List.mem_append_right _ (List.mem_map.2 ⟨v, he, rfl⟩))
  · unfold Shows ops
    rw [hv]
    exact List.mem_append_left _ (List.mem_append_right _ (List.mem_map.2 ⟨t, he, rfl⟩))
  · unfold Shows ops
    rw [hv]
    exact List.mem_append_left _ (List.mem_append_right _ (List.mem_map.2 ⟨d, he, rfl⟩))
  · unfold Shows ops
    rw [hv]
    simp

/-! ## Examples -/

def exId (s : String) : Ident := ⟨1, 0, .named s.toList, .type_⟩

def exEl (n : String) (v : ElementVariant) : Element :=
  ⟨⟨1, .named n.toList⟩, v, .qualified, ⟨false, false, false, false, false⟩, 1, .bounded 1, none, []⟩

/-- A complex type whose content is a sequence that contains a choice, which contains the sequence again and a group that
is missing. -/
def exTable : Types :=
  [(exId "T", .new (.complex ⟨.none, some (exId "S"), 1, .bounded 1, false, false, []⟩)),
   (exId "S", .new (.sequence ⟨false, [exEl "a" (.type_ (exId "U") .element), exEl "c" (.type_ (exId "C") .group)]⟩)),
   (exId "C", .new (.choice ⟨false, [exEl "s" (.type_ (exId "S") .group), exEl "m" (.type_ (exId "M") .group)]⟩)),
   (exId "U", .new (.reference (.new (exId "T"))))]

example : Assoc.Keyed exTable := by
  unfold Assoc.Keyed
  decide +kernel

/-- The pieces without the lines: the header of `T`, `S` and `C`, the loop back to `S`, and the missing `M`; the next
entry starts at level zero again. -/
example : ((printType exTable 5 (exId "T")).getD []).filter (fun p => match p with
      | .line .. => false
      | .begin_ .. => false
      | _ => true) =
    [.head (exId "T") "ComplexType", .head (exId "S") "Sequence", .head (exId "C") "Choice", .loop (exId "S"),
     .notFound] := by decide +kernel

example : ∃ j, Reach exTable (exId "T") j ∧ Recursive exTable j :=
  ⟨exId "S", .step ⟨_, rfl, .inr ⟨_, rfl, rfl⟩⟩ (.refl _), exId "C",
    ⟨_, rfl, .inl ⟨_, .inr (.inr rfl), _, List.mem_cons_of_mem _ (List.mem_cons_self ..), rfl⟩⟩,
    .step ⟨_, rfl, .inl ⟨_, .inr (.inl rfl), _, List.mem_cons_self .., rfl⟩⟩ (.refl _)⟩

end Verif.Meta.Print

import Verif.Meta.Valid
/-!
# One step of a derivation of validity

`Step P look R j` holds when `j` follows from judgements in `R` by one rule of `Valid`, where `look` gives the definitions.
Used to prove that a pass over the table keeps the documents: only the changed definitions have to be looked at
(`Valid.simulate`).
-/
namespace Verif.Meta

open Verif.Occurs (MaxOccurs Allows)

/-- The definition of a name. -/
def look (T : Types) (i : Ident) : Option Variant := (Assoc.get T i).map (·.variant)

theorem look_iff {T : Types} {i : Ident} {v : Variant} :
    look T i = some v ↔ ∃ ty, Assoc.get T i = some ty ∧ ty.variant = v := by
  simp [look, Option.map_eq_some_iff]

theorem look_of {T : Types} {i : Ident} {ty : MetaType} {v : Variant} (h : Assoc.get T i = some ty)
    (hv : ty.variant = v) : look T i = some v := look_iff.2 ⟨ty, h, hv⟩

inductive Step (P : Lex) (look : Ident → Option Variant) (R : Judge → Prop) : Judge → Prop
  | refText {i r s} : look i = some (.reference r) → r.min = 1 → r.max = .bounded 1 →
      R (.text r.type_ s) → Step P look R (.text i s)
  | listText {i r s} : look i = some (.reference r) → ¬ (r.min = 1 ∧ r.max = .bounded 1) →
      Allows r.min r.max (P.words s).length → (∀ w ∈ P.words s, R (.text r.type_ w)) → Step P look R (.text i s)
  | unionText {i u m s} : look i = some (.union u) → m ∈ u.types → P.facets u.constrains s →
      R (.text m.type_ s) → Step P look R (.text i s)
  | builtInText {i b s} : look i = some (.buildIn b) → P.builtIn b s → Step P look R (.text i s)
  | customText {i n s} : look i = some (.custom n) → P.custom n s → Step P look R (.text i s)
  | literalText {i en v s} : look i = some (.enumeration en) → v ∈ en.variants →
      v.type_ = none → v.ident.name = .named s → Step P look R (.text i s)
  | variantText {i en v t s} : look i = some (.enumeration en) → v ∈ en.variants →
      v.type_ = some t → R (.text t s) → Step P look R (.text i s)
  | simpleText {i x s} : look i = some (.simple x) → x.isList = false →
      P.facets x.constrains s → R (.text x.base s) → Step P look R (.text i s)
  | simpleListText {i x s} : look i = some (.simple x) → x.isList = true →
      P.facets x.constrains s → (∀ w ∈ P.words s, R (.text x.base w)) → Step P look R (.text i s)
  | refValue {i r xsi as kids} : look i = some (.reference r) → r.min = 1 →
      r.max = .bounded 1 → R (.value r.type_ xsi as kids) → Step P look R (.value i xsi as kids)
  | textValue {i s xsi} : R (.text i s) → Step P look R (.value i xsi [] [.text s])
  | customValue {i n xsi as kids} : look i = some (.custom n) → P.customValue n as kids →
      Step P look R (.value i xsi as kids)
  | dynamicValue {i d key der xsi as kids} : look i = some (.dynamic d) →
      (key, der) ∈ d.derived → (xsi = some key.toProp ∨ (xsi = none ∧ der.relationship = .concrete)) →
      R (.value der.type_ xsi as kids) → Step P look R (.value i xsi as kids)
  | emptyValue {i c xsi as} : look i = some (.complex c) → c.content = none →
      AttrsShape P c.attributes as →
      (∀ a ∈ c.attributes, ∀ t, a.variant = .type_ t → ∀ v, (a.ident, v) ∈ as → R (.text t v)) →
      Step P look R (.value i xsi as [])
  | simpleValue {i c g xsi as s} : look i = some (.complex c) → c.content = some g →
      AttrsShape P c.attributes as →
      (∀ a ∈ c.attributes, ∀ t, a.variant = .type_ t → ∀ v, (a.ident, v) ∈ as → R (.text t v)) →
      R (.text g s) → Step P look R (.value i xsi as [.text s])
  | complexValue {i c g k xsi as kids} : look i = some (.complex c) → c.content = some g →
      AttrsShape P c.attributes as →
      (∀ a ∈ c.attributes, ∀ t, a.variant = .type_ t → ∀ v, (a.ident, v) ∈ as → R (.text t v)) →
      Allows c.min c.max k → R (.groupTimes g k (if c.isMixed then elemsOnly kids else kids)) →
      Step P look R (.value i xsi as kids)
  | refGroup {i r ns} : look i = some (.reference r) → r.min = 1 → r.max = .bounded 1 →
      R (.group r.type_ ns) → Step P look R (.group i ns)
  | sequence {i g ns} : look i = some (.sequence g) → R (.inOrder g.elements ns) →
      Step P look R (.group i ns)
  | choice {i g e k ns} : look i = some (.choice g) → e ∈ g.elements → Allows e.min e.max k →
      R (.times e k ns) → Step P look R (.group i ns)
  | all {i g es ns} : look i = some (.all g) → es.Perm g.elements →
      R (.inOrder es ns) → Step P look R (.group i ns)
  | substitution {i d key der xsi as kids} : look i = some (.dynamic d) →
      (key, der) ∈ d.derived → R (.value der.type_ xsi as kids) →
      Step P look R (.group i [.elem key.toProp xsi as kids])
  | complexGroup {i c g k ns} : look i = some (.complex c) → c.content = some g →
      Allows c.min c.max k → R (.groupTimes g k ns) → Step P look R (.group i ns)
  | noTimes {i} : Step P look R (.groupTimes i 0 [])
  | oneMore {i k a b} : R (.group i a) → R (.groupTimes i k b) →
      Step P look R (.groupTimes i (k + 1) (a ++ b))
  | element {e i xsi as kids} : e.variant = .type_ i .element → R (.value i xsi as kids) →
      Step P look R (.particle e [.elem e.ident xsi as kids])
  | nested {e i ns} : e.variant = .type_ i .group → R (.group i ns) → Step P look R (.particle e ns)
  | wildcard {e m n} : e.variant = .any m → P.anyElement m n → Step P look R (.particle e [n])
  | textNode {e s} : e.variant = .text → Step P look R (.particle e [.text s])
  | zero {e} : Step P look R (.times e 0 [])
  | succ {e k a b} : R (.particle e a) → R (.times e k b) → Step P look R (.times e (k + 1) (a ++ b))
  | nil : Step P look R (.inOrder [] [])
  | cons {e es k a b} : Allows e.min e.max k → R (.times e k a) → R (.inOrder es b) →
      Step P look R (.inOrder (e :: es) (a ++ b))

/-- The name a judgement looks up. -/
def Judge.head : Judge → Option Ident
  | .text i _ => some i
  | .value i _ _ _ => some i
  | .group i _ => some i
  | _ => none

theorem Step.valid {P : Lex} {T : Types} {j : Judge} (h : Step P (look T) (Valid P T) j) : Valid P T j := by
  cases h with
  | refText h1 h2 h3 h4 => obtain ⟨ty, g1, g2⟩ := look_iff.1 h1; exact .refText g1 g2 h2 h3 h4
  | listText h1 h2 h3 h4 => obtain ⟨ty, g1, g2⟩ := look_iff.1 h1; exact .listText g1 g2 h2 h3 h4
  | unionText h1 h2 h3 h4 => obtain ⟨ty, g1, g2⟩ := look_iff.1 h1; exact .unionText g1 g2 h2 h3 h4
  | builtInText h1 h2 => obtain ⟨ty, g1, g2⟩ := look_iff.1 h1; exact .builtInText g1 g2 h2
  | customText h1 h2 => obtain ⟨ty, g1, g2⟩ := look_iff.1 h1; exact .customText g1 g2 h2
  | literalText h1 h2 h3 h4 => obtain ⟨ty, g1, g2⟩ := look_iff.1 h1; exact .literalText g1 g2 h2 h3 h4
  | variantText h1 h2 h3 h4 => obtain ⟨ty, g1, g2⟩ := look_iff.1 h1; exact .variantText g1 g2 h2 h3 h4
  | simpleText h1 h2 h3 h4 => obtain ⟨ty, g1, g2⟩ := look_iff.1 h1; exact .simpleText g1 g2 h2 h3 h4
  | simpleListText h1 h2 h3 h4 => obtain ⟨ty, g1, g2⟩ := look_iff.1 h1; exact .simpleListText g1 g2 h2 h3 h4
  | refValue h1 h2 h3 h4 => obtain ⟨ty, g1, g2⟩ := look_iff.1 h1; exact .refValue g1 g2 h2 h3 h4
  | textValue h1 => exact .textValue h1
  | customValue h1 h2 => obtain ⟨ty, g1, g2⟩ := look_iff.1 h1; exact .customValue g1 g2 h2
  | dynamicValue h1 h2 h3 h4 => obtain ⟨ty, g1, g2⟩ := look_iff.1 h1; exact .dynamicValue g1 g2 h2 h3 h4
  | emptyValue h1 h2 h3 h4 => obtain ⟨ty, g1, g2⟩ := look_iff.1 h1; exact .emptyValue g1 g2 h2 h3 h4
  | simpleValue h1 h2 h3 h4 h5 => obtain ⟨ty, g1, g2⟩ := look_iff.1 h1; exact .simpleValue g1 g2 h2 h3 h4 h5
  | complexValue h1 h2 h3 h4 h5 h6 => obtain ⟨ty, g1, g2⟩ := look_iff.1 h1; exact .complexValue g1 g2 h2 h3 h4 h5 h6
  | refGroup h1 h2 h3 h4 => obtain ⟨ty, g1, g2⟩ := look_iff.1 h1; exact .refGroup g1 g2 h2 h3 h4
  | sequence h1 h2 => obtain ⟨ty, g1, g2⟩ := look_iff.1 h1; exact .sequence g1 g2 h2
  | choice h1 h2 h3 h4 => obtain ⟨ty, g1, g2⟩ := look_iff.1 h1; exact .choice g1 g2 h2 h3 h4
  | all h1 h2 h3 => obtain ⟨ty, g1, g2⟩ := look_iff.1 h1; exact .all g1 g2 h2 h3
  | substitution h1 h2 h3 => obtain ⟨ty, g1, g2⟩ := look_iff.1 h1; exact .substitution g1 g2 h2 h3
  | complexGroup h1 h2 h3 h4 => obtain ⟨ty, g1, g2⟩ := look_iff.1 h1; exact .complexGroup g1 g2 h2 h3 h4
  | noTimes  => exact .noTimes 
  | oneMore h1 h2 => exact .oneMore h1 h2
  | element h1 h2 => exact .element h1 h2
  | nested h1 h2 => exact .nested h1 h2
  | wildcard h1 h2 => exact .wildcard h1 h2
  | textNode h1 => exact .textNode h1
  | zero  => exact .zero 
  | succ h1 h2 => exact .succ h1 h2
  | nil  => exact .nil 
  | cons h1 h2 h3 => exact .cons h1 h2 h3

theorem Step.congr {P : Lex} {l l' : Ident → Option Variant} {R : Judge → Prop} {j : Judge} (h : Step P l R j)
    (hl : ∀ i, j.head = some i → l i = l' i) : Step P l' R j := by
  cases h with
  | refText h1 h2 h3 h4 => exact .refText ((hl _ rfl).symm.trans h1) h2 h3 h4
  | listText h1 h2 h3 h4 => exact .listText ((hl _ rfl).symm.trans h1) h2 h3 h4
  | unionText h1 h2 h3 h4 => exact .unionText ((hl _ rfl).symm.trans h1) h2 h3 h4
  | builtInText h1 h2 => exact .builtInText ((hl _ rfl).symm.trans h1) h2
  | customText h1 h2 => exact .customText ((hl _ rfl).symm.trans h1) h2
  | literalText h1 h2 h3 h4 => exact .literalText ((hl _ rfl).symm.trans h1) h2 h3 h4
  | variantText h1 h2 h3 h4 => exact .variantText ((hl _ rfl).symm.trans h1) h2 h3 h4
  | simpleText h1 h2 h3 h4 => exact .simpleText ((hl _ rfl).symm.trans h1) h2 h3 h4
  | simpleListText h1 h2 h3 h4 => exact .simpleListText ((hl _ rfl).symm.trans h1) h2 h3 h4
  | refValue h1 h2 h3 h4 => exact .refValue ((hl _ rfl).symm.trans h1) h2 h3 h4
  | textValue h1 => exact .textValue h1
  | customValue h1 h2 => exact .customValue ((hl _ rfl).symm.trans h1) h2
  | dynamicValue h1 h2 h3 h4 => exact .dynamicValue ((hl _ rfl).symm.trans h1) h2 h3 h4
  | emptyValue h1 h2 h3 h4 => exact .emptyValue ((hl _ rfl).symm.trans h1) h2 h3 h4
  | simpleValue h1 h2 h3 h4 h5 => exact .simpleValue ((hl _ rfl).symm.trans h1) h2 h3 h4 h5
  | complexValue h1 h2 h3 h4 h5 h6 => exact .complexValue ((hl _ rfl).symm.trans h1) h2 h3 h4 h5 h6
  | refGroup h1 h2 h3 h4 => exact .refGroup ((hl _ rfl).symm.trans h1) h2 h3 h4
  | sequence h1 h2 => exact .sequence ((hl _ rfl).symm.trans h1) h2
  | choice h1 h2 h3 h4 => exact .choice ((hl _ rfl).symm.trans h1) h2 h3 h4
  | all h1 h2 h3 => exact .all ((hl _ rfl).symm.trans h1) h2 h3
  | substitution h1 h2 h3 => exact .substitution ((hl _ rfl).symm.trans h1) h2 h3
  | complexGroup h1 h2 h3 h4 => exact .complexGroup ((hl _ rfl).symm.trans h1) h2 h3 h4
  | noTimes  => exact .noTimes 
  | oneMore h1 h2 => exact .oneMore h1 h2
  | element h1 h2 => exact .element h1 h2
  | nested h1 h2 => exact .nested h1 h2
  | wildcard h1 h2 => exact .wildcard h1 h2
  | textNode h1 => exact .textNode h1
  | zero  => exact .zero 
  | succ h1 h2 => exact .succ h1 h2
  | nil  => exact .nil 
  | cons h1 h2 h3 => exact .cons h1 h2 h3

theorem Step.mono {P : Lex} {l : Ident → Option Variant} {R R' : Judge → Prop} {j : Judge} (h : Step P l R j)
    (hR : ∀ j, R j → R' j) : Step P l R' j := by
  cases h with
  | refText h1 h2 h3 h4 => exact .refText h1 h2 h3 (hR _ h4)
  | listText h1 h2 h3 h4 => exact .listText h1 h2 h3 (fun w hw => hR _ (h4 w hw))
  | unionText h1 h2 h3 h4 => exact .unionText h1 h2 h3 (hR _ h4)
  | builtInText h1 h2 => exact .builtInText h1 h2
  | customText h1 h2 => exact .customText h1 h2
  | literalText h1 h2 h3 h4 => exact .literalText h1 h2 h3 h4
  | variantText h1 h2 h3 h4 => exact .variantText h1 h2 h3 (hR _ h4)
  | simpleText h1 h2 h3 h4 => exact .simpleText h1 h2 h3 (hR _ h4)
  | simpleListText h1 h2 h3 h4 => exact .simpleListText h1 h2 h3 (fun w hw => hR _ (h4 w hw))
  | refValue h1 h2 h3 h4 => exact .refValue h1 h2 h3 (hR _ h4)
  | textValue h1 => exact .textValue (hR _ h1)
  | customValue h1 h2 => exact .customValue h1 h2
  | dynamicValue h1 h2 h3 h4 => exact .dynamicValue h1 h2 h3 (hR _ h4)
  | emptyValue h1 h2 h3 h4 => exact .emptyValue h1 h2 h3 (fun a ha t ht v hv => hR _ (h4 a ha t ht v hv))
  | simpleValue h1 h2 h3 h4 h5 => exact .simpleValue h1 h2 h3 (fun a ha t ht v hv => hR _ (h4 a ha t ht v hv)) (hR _ h5)
  | complexValue h1 h2 h3 h4 h5 h6 => exact .complexValue h1 h2 h3 (fun a ha t ht v hv => hR _ (h4 a ha t ht v hv)) h5 (hR _ h6)
  | refGroup h1 h2 h3 h4 => exact .refGroup h1 h2 h3 (hR _ h4)
  | sequence h1 h2 => exact .sequence h1 (hR _ h2)
  | choice h1 h2 h3 h4 => exact .choice h1 h2 h3 (hR _ h4)
  | all h1 h2 h3 => exact .all h1 h2 (hR _ h3)
  | substitution h1 h2 h3 => exact .substitution h1 h2 (hR _ h3)
  | complexGroup h1 h2 h3 h4 => exact .complexGroup h1 h2 h3 (hR _ h4)
  | noTimes  => exact .noTimes 
  | oneMore h1 h2 => exact .oneMore (hR _ h1) (hR _ h2)
  | element h1 h2 => exact .element h1 (hR _ h2)
  | nested h1 h2 => exact .nested h1 (hR _ h2)
  | wildcard h1 h2 => exact .wildcard h1 h2
  | textNode h1 => exact .textNode h1
  | zero  => exact .zero 
  | succ h1 h2 => exact .succ (hR _ h1) (hR _ h2)
  | nil  => exact .nil 
  | cons h1 h2 h3 => exact .cons h1 (hR _ h2) (hR _ h3)

/-- Validity is the least set of judgements closed under the rules. -/
theorem Valid.least {P : Lex} {T : Types} {R : Judge → Prop} (f : ∀ j, Step P (look T) R j → R j) {j : Judge}
    (h : Valid P T j) : R j := by
  induction h with
  | refText v1 v2 v3 v4 v5 ih5 => exact f _ (.refText (look_of v1 v2) v3 v4 ih5)
  | listText v1 v2 v3 v4 v5 ih5 => exact f _ (.listText (look_of v1 v2) v3 v4 ih5)
  | unionText v1 v2 v3 v4 v5 ih5 => exact f _ (.unionText (look_of v1 v2) v3 v4 ih5)
  | builtInText v1 v2 v3 => exact f _ (.builtInText (look_of v1 v2) v3)
  | customText v1 v2 v3 => exact f _ (.customText (look_of v1 v2) v3)
  | literalText v1 v2 v3 v4 v5 => exact f _ (.literalText (look_of v1 v2) v3 v4 v5)
  | variantText v1 v2 v3 v4 v5 ih5 => exact f _ (.variantText (look_of v1 v2) v3 v4 ih5)
  | simpleText v1 v2 v3 v4 v5 ih5 => exact f _ (.simpleText (look_of v1 v2) v3 v4 ih5)
  | simpleListText v1 v2 v3 v4 v5 ih5 => exact f _ (.simpleListText (look_of v1 v2) v3 v4 ih5)
  | refValue v1 v2 v3 v4 v5 ih5 => exact f _ (.refValue (look_of v1 v2) v3 v4 ih5)
  | textValue v1 ih1 => exact f _ (.textValue ih1)
  | customValue v1 v2 v3 => exact f _ (.customValue (look_of v1 v2) v3)
  | dynamicValue v1 v2 v3 v4 v5 ih5 => exact f _ (.dynamicValue (look_of v1 v2) v3 v4 ih5)
  | emptyValue v1 v2 v3 v4 v5 ih5 => exact f _ (.emptyValue (look_of v1 v2) v3 v4 ih5)
  | simpleValue v1 v2 v3 v4 v5 v6 ih5 ih6 => exact f _ (.simpleValue (look_of v1 v2) v3 v4 ih5 ih6)
  | complexValue v1 v2 v3 v4 v5 v6 v7 ih5 ih7 => exact f _ (.complexValue (look_of v1 v2) v3 v4 ih5 v6 ih7)
  | refGroup v1 v2 v3 v4 v5 ih5 => exact f _ (.refGroup (look_of v1 v2) v3 v4 ih5)
  | sequence v1 v2 v3 ih3 => exact f _ (.sequence (look_of v1 v2) ih3)
  | choice v1 v2 v3 v4 v5 ih5 => exact f _ (.choice (look_of v1 v2) v3 v4 ih5)
  | all v1 v2 v3 v4 ih4 => exact f _ (.all (look_of v1 v2) v3 ih4)
  | substitution v1 v2 v3 v4 ih4 => exact f _ (.substitution (look_of v1 v2) v3 ih4)
  | complexGroup v1 v2 v3 v4 v5 ih5 => exact f _ (.complexGroup (look_of v1 v2) v3 v4 ih5)
  | noTimes  => exact f _ (.noTimes )
  | oneMore v1 v2 ih1 ih2 => exact f _ (.oneMore ih1 ih2)
  | element v1 v2 ih2 => exact f _ (.element v1 ih2)
  | nested v1 v2 ih2 => exact f _ (.nested v1 ih2)
  | wildcard v1 v2 => exact f _ (.wildcard v1 v2)
  | textNode v1 => exact f _ (.textNode v1)
  | zero  => exact f _ (.zero )
  | succ v1 v2 ih1 ih2 => exact f _ (.succ ih1 ih2)
  | nil  => exact f _ (.nil )
  | cons v1 v2 v3 ih2 ih3 => exact f _ (.cons v1 ih2 ih3)

theorem Valid.step {P : Lex} {T : Types} {j : Judge} (h : Valid P T j) : Step P (look T) (Valid P T) j :=
  (h.least (R := fun j => Step P (look T) (Valid P T) j ∧ Valid P T j)
    (fun _ hs => ⟨hs.mono (fun _ h => h.2), (hs.mono (fun _ h => h.2)).valid⟩)).1

/-- A table accepts the documents of another table when the rules for the names with a different definition can be
simulated. -/
theorem Valid.simulate {P : Lex} {T T' : Types}
    (hs : ∀ i, look T i = look T' i ∨ ∀ j, j.head = some i → Step P (look T) (Valid P T') j → Valid P T' j) {j : Judge}
    (h : Valid P T j) : Valid P T' j := by
  refine h.least (fun j hj => ?_)
  cases hh : j.head with
  | none => exact (hj.congr (fun i hi => by rw [hh] at hi; cases hi)).valid
  | some i =>
    rcases hs i with he | hf
    · exact (hj.congr (fun k hk => by rw [hh] at hk; cases hk; exact he)).valid
    · exact hf j hh hj

/-- The rules for a union. -/
theorem Step.union {P : Lex} {l : Ident → Option Variant} {R : Judge → Prop} {j : Judge} {i : Ident} {u : Union}
    (h : Step P l R j) (hj : j.head = some i) (hl : l i = some (.union u)) :
    (∃ m s, j = .text i s ∧ m ∈ u.types ∧ P.facets u.constrains s ∧ R (.text m.type_ s)) ∨
    (∃ s xsi, j = .value i xsi [] [.text s] ∧ R (.text i s)) := by
  cases h <;> simp only [Judge.head, Option.some.injEq, reduceCtorEq] at hj <;> subst hj <;> simp_all
  · subst_vars; exact ⟨_, ‹_›, ‹_›⟩

/-- The rules for an enumeration. -/
theorem Step.enumeration {P : Lex} {l : Ident → Option Variant} {R : Judge → Prop} {j : Judge} {i : Ident}
    {en : Enumeration} (h : Step P l R j) (hj : j.head = some i) (hl : l i = some (.enumeration en)) :
    (∃ v s, j = .text i s ∧ v ∈ en.variants ∧
      ((v.type_ = none ∧ v.ident.name = .named s) ∨ ∃ t, v.type_ = some t ∧ R (.text t s))) ∨
    (∃ s xsi, j = .value i xsi [] [.text s] ∧ R (.text i s)) := by
  cases h <;> simp only [Judge.head, Option.some.injEq, reduceCtorEq] at hj <;> subst hj <;> simp_all
  · subst_vars; exact ⟨_, ‹_›, Or.inl ⟨‹_›, ‹_›⟩⟩
  · subst_vars; exact ⟨_, ‹_›, Or.inr ⟨_, ‹_›, ‹_›⟩⟩

end Verif.Meta

import Verif.Meta.TypeEq
/-!
# Which documents a table of types accepts

This is a specification, not a model of code: it says what the type information of
`xsd-parser/src/models/meta/*.rs` means, so that the passes that rewrite it can be judged by the documents they accept
(C35, C36, C40, C41). `Valid P T j` says that the judgement `j` (a piece of a document against a piece of a schema) holds
in the table `T`. The meaning of built-in and custom types, of facets and of wildcards is a parameter `P`.
-/
namespace Verif.Meta

open Verif.Occurs (MaxOccurs Allows)

/-- A document: elements (name, type named by `xsi:type`, attributes, children) and texts. -/
inductive Node where
  | elem (name : PropIdent) (xsi : Option PropIdent) (attrs : List (PropIdent × Txt)) (kids : List Node)
  | text (s : Txt)

/-- The parts of the meaning that do not depend on the table. -/
structure Lex where
  builtIn : BuildIn → Txt → Prop
  custom : Txt → Txt → Prop
  customValue : Txt → List (PropIdent × Txt) → List Node → Prop
  facets : Constrains → Txt → Prop
  words : Txt → List Txt
  anyElement : AnyMeta → Node → Prop
  anyAttribute : AnyMeta → PropIdent → Prop

/-- The judgements: a text against a simple type; the type of an element against its `xsi:type`, attributes and children;
some siblings against a group, one occurrence of a particle, `k` occurrences of a particle, a list of particles in order,
`k` occurrences of a group. -/
inductive Judge where
  | text (i : Ident) (s : Txt)
  | value (i : Ident) (xsi : Option PropIdent) (attrs : List (PropIdent × Txt)) (kids : List Node)
  | group (i : Ident) (ns : List Node)
  | particle (e : Element) (ns : List Node)
  | times (e : Element) (k : Nat) (ns : List Node)
  | inOrder (es : List Element) (ns : List Node)
  | groupTimes (i : Ident) (k : Nat) (ns : List Node)

/-- The children without the texts between them. -/
def elemsOnly (ns : List Node) : List Node :=
  ns.filter fun | .elem .. => true | .text _ => false

/-- Every present attribute is declared (and not prohibited) or allowed by a wildcard, and every required attribute is
present. -/
def AttrsShape (P : Lex) (decl : List Attribute) (attrs : List (PropIdent × Txt)) : Prop :=
  (∀ a ∈ decl, a.use_ = .required → (∃ t, a.variant = .type_ t) → ∃ v, (a.ident, v) ∈ attrs) ∧
  ∀ n v, (n, v) ∈ attrs →
    (∃ a ∈ decl, a.ident = n ∧ a.use_ ≠ .prohibited ∧ ∃ t, a.variant = .type_ t) ∨
    ∃ a ∈ decl, ∃ m, a.variant = .any m ∧ P.anyAttribute m n

inductive Valid (P : Lex) (T : Types) : Judge → Prop
  -- simple types
  | refText {i ty r s} : Assoc.get T i = some ty → ty.variant = .reference r → r.min = 1 → r.max = .bounded 1 →
      Valid P T (.text r.type_ s) → Valid P T (.text i s)
  | listText {i ty r s} : Assoc.get T i = some ty → ty.variant = .reference r → ¬ (r.min = 1 ∧ r.max = .bounded 1) →
      Allows r.min r.max (P.words s).length → (∀ w ∈ P.words s, Valid P T (.text r.type_ w)) → Valid P T (.text i s)
  | unionText {i ty u m s} : Assoc.get T i = some ty → ty.variant = .union u → m ∈ u.types → P.facets u.constrains s →
      Valid P T (.text m.type_ s) → Valid P T (.text i s)
  | builtInText {i ty b s} : Assoc.get T i = some ty → ty.variant = .buildIn b → P.builtIn b s → Valid P T (.text i s)
  | customText {i ty n s} : Assoc.get T i = some ty → ty.variant = .custom n → P.custom n s → Valid P T (.text i s)
  | literalText {i ty en v s} : Assoc.get T i = some ty → ty.variant = .enumeration en → v ∈ en.variants →
      v.type_ = none → v.ident.name = .named s → Valid P T (.text i s)
  | variantText {i ty en v t s} : Assoc.get T i = some ty → ty.variant = .enumeration en → v ∈ en.variants →
      v.type_ = some t → Valid P T (.text t s) → Valid P T (.text i s)
  | simpleText {i ty x s} : Assoc.get T i = some ty → ty.variant = .simple x → x.isList = false →
      P.facets x.constrains s → Valid P T (.text x.base s) → Valid P T (.text i s)
  | simpleListText {i ty x s} : Assoc.get T i = some ty → ty.variant = .simple x → x.isList = true →
      P.facets x.constrains s → (∀ w ∈ P.words s, Valid P T (.text x.base w)) → Valid P T (.text i s)
  -- types of elements
  | refValue {i ty r xsi as kids} : Assoc.get T i = some ty → ty.variant = .reference r → r.min = 1 →
      r.max = .bounded 1 → Valid P T (.value r.type_ xsi as kids) → Valid P T (.value i xsi as kids)
  | textValue {i s xsi} : Valid P T (.text i s) → Valid P T (.value i xsi [] [.text s])
  | customValue {i ty n xsi as kids} : Assoc.get T i = some ty → ty.variant = .custom n → P.customValue n as kids →
      Valid P T (.value i xsi as kids)
  | dynamicValue {i ty d key der xsi as kids} : Assoc.get T i = some ty → ty.variant = .dynamic d →
      (key, der) ∈ d.derived → (xsi = some key.toProp ∨ (xsi = none ∧ der.relationship = .concrete)) →
      Valid P T (.value der.type_ xsi as kids) → Valid P T (.value i xsi as kids)
  | emptyValue {i ty c xsi as} : Assoc.get T i = some ty → ty.variant = .complex c → c.content = none →
      AttrsShape P c.attributes as →
      (∀ a ∈ c.attributes, ∀ t, a.variant = .type_ t → ∀ v, (a.ident, v) ∈ as → Valid P T (.text t v)) →
      Valid P T (.value i xsi as [])
  | simpleValue {i ty c g xsi as s} : Assoc.get T i = some ty → ty.variant = .complex c → c.content = some g →
      AttrsShape P c.attributes as →
      (∀ a ∈ c.attributes, ∀ t, a.variant = .type_ t → ∀ v, (a.ident, v) ∈ as → Valid P T (.text t v)) →
      Valid P T (.text g s) → Valid P T (.value i xsi as [.text s])
  | complexValue {i ty c g k xsi as kids} : Assoc.get T i = some ty → ty.variant = .complex c → c.content = some g →
      AttrsShape P c.attributes as →
      (∀ a ∈ c.attributes, ∀ t, a.variant = .type_ t → ∀ v, (a.ident, v) ∈ as → Valid P T (.text t v)) →
      Allows c.min c.max k → Valid P T (.groupTimes g k (if c.isMixed then elemsOnly kids else kids)) →
      Valid P T (.value i xsi as kids)
  -- groups
  | refGroup {i ty r ns} : Assoc.get T i = some ty → ty.variant = .reference r → r.min = 1 → r.max = .bounded 1 →
      Valid P T (.group r.type_ ns) → Valid P T (.group i ns)
  | sequence {i ty g ns} : Assoc.get T i = some ty → ty.variant = .sequence g → Valid P T (.inOrder g.elements ns) →
      Valid P T (.group i ns)
  | choice {i ty g e k ns} : Assoc.get T i = some ty → ty.variant = .choice g → e ∈ g.elements → Allows e.min e.max k →
      Valid P T (.times e k ns) → Valid P T (.group i ns)
  | all {i ty g es ns} : Assoc.get T i = some ty → ty.variant = .all g → es.Perm g.elements →
      Valid P T (.inOrder es ns) → Valid P T (.group i ns)
  | substitution {i ty d key der xsi as kids} : Assoc.get T i = some ty → ty.variant = .dynamic d →
      (key, der) ∈ d.derived → Valid P T (.value der.type_ xsi as kids) →
      Valid P T (.group i [.elem key.toProp xsi as kids])
  | complexGroup {i ty c g k ns} : Assoc.get T i = some ty → ty.variant = .complex c → c.content = some g →
      Allows c.min c.max k → Valid P T (.groupTimes g k ns) → Valid P T (.group i ns)
  | noTimes {i} : Valid P T (.groupTimes i 0 [])
  | oneMore {i k a b} : Valid P T (.group i a) → Valid P T (.groupTimes i k b) →
      Valid P T (.groupTimes i (k + 1) (a ++ b))
  -- particles
  | element {e i xsi as kids} : e.variant = .type_ i .element → Valid P T (.value i xsi as kids) →
      Valid P T (.particle e [.elem e.ident xsi as kids])
  | nested {e i ns} : e.variant = .type_ i .group → Valid P T (.group i ns) → Valid P T (.particle e ns)
  | wildcard {e m n} : e.variant = .any m → P.anyElement m n → Valid P T (.particle e [n])
  | textNode {e s} : e.variant = .text → Valid P T (.particle e [.text s])
  | zero {e} : Valid P T (.times e 0 [])
  | succ {e k a b} : Valid P T (.particle e a) → Valid P T (.times e k b) → Valid P T (.times e (k + 1) (a ++ b))
  | nil : Valid P T (.inOrder [] [])
  | cons {e es k a b} : Allows e.min e.max k → Valid P T (.times e k a) → Valid P T (.inOrder es b) →
      Valid P T (.inOrder (e :: es) (a ++ b))

/-! ## Synonyms do not matter -/

theorem Valid.text_synonym {P : Lex} {T : Types} {i k : Ident} (h : Synonym T i k) {s : Txt}
    (hv : Valid P T (.text k s)) : Valid P T (.text i s) := by
  obtain ⟨ty, r, h1, h2, rfl, -, h3, h4⟩ := h
  exact .refText h1 h2 h3 h4 hv

theorem Valid.value_synonym {P : Lex} {T : Types} {i k : Ident} (h : Synonym T i k) {x as kids}
    (hv : Valid P T (.value k x as kids)) : Valid P T (.value i x as kids) := by
  obtain ⟨ty, r, h1, h2, rfl, -, h3, h4⟩ := h
  exact .refValue h1 h2 h3 h4 hv

theorem Valid.group_synonym {P : Lex} {T : Types} {i k : Ident} (h : Synonym T i k) {ns}
    (hv : Valid P T (.group k ns)) : Valid P T (.group i ns) := by
  obtain ⟨ty, r, h1, h2, rfl, -, h3, h4⟩ := h
  exact .refGroup h1 h2 h3 h4 hv

theorem Valid.of_res {P : Lex} {T : Types} (i : Ident) :
    (∀ s, Valid P T (.text (res T i) s) → Valid P T (.text i s)) ∧
    (∀ x as kids, Valid P T (.value (res T i) x as kids) → Valid P T (.value i x as kids)) ∧
    (∀ ns, Valid P T (.group (res T i) ns) → Valid P T (.group i ns)) := by
  by_cases hd : Defined T i
  · obtain ⟨p, hp⟩ := res_follow hd
    generalize res T i = j at hp
    induction hp with
    | here _ => exact ⟨fun _ h => h, fun _ _ _ h => h, fun _ h => h⟩
    | step hs hf ih =>
      have ih := ih hf.defined.1
      exact ⟨fun s h => (ih.1 s h).text_synonym hs, fun x a k h => (ih.2.1 x a k h).value_synonym hs,
        fun n h => (ih.2.2 n h).group_synonym hs⟩
  · rw [res_undefined hd]
    exact ⟨fun _ h => h, fun _ _ _ h => h, fun _ h => h⟩

/-! ## Transfer between tables

If two tables give related definitions to related names, they accept the same documents. -/

/-- The definition a name stands for. -/
def denotes (T : Types) (i : Ident) : Option Variant := (Assoc.get T (res T i)).map (·.variant)

theorem denotes_not_synonym {T : Types} {i : Ident} {ty : MetaType} (hg : Assoc.get T i = some ty)
    (h : ty.variant.target = none) : denotes T i = some ty.variant := by
  have : res T i = i := by
    apply res_of_not_synonym
    intro k hk
    obtain ⟨ty', h1, h2⟩ := (synonym_iff T i k).1 hk
    rw [hg] at h1; cases h1; rw [h] at h2; cases h2
  simp [denotes, this, hg]

def Judge.map (f : Ident → Ident) : Judge → Judge
  | .text i s => .text (f i) s
  | .value i x as kids => .value (f i) x as kids
  | .group i ns => .group (f i) ns
  | .particle e ns => .particle (e.mapIdents f) ns
  | .times e k ns => .times (e.mapIdents f) k ns
  | .inOrder es ns => .inOrder (es.map (·.mapIdents f)) ns
  | .groupTimes i k ns => .groupTimes (f i) k ns

/-- The names under which a dynamic type offers its derived types in a document. -/
def Variant.keyProps : Variant → List PropIdent
  | .dynamic d => d.derived.map (·.1.toProp)
  | _ => []

structure Transfer (f : Ident → Ident) (T₁ T₂ : Types) : Prop where
  /-- a name and its synonym are related to the same names -/
  synonym : ∀ i k, Synonym T₁ i k → Defined T₁ k → f i = f k
  /-- related names stand for related definitions that offer their derived types under the same names -/
  denotes : ∀ i₁ i₂ v₁, f i₁ = f i₂ → denotes T₁ i₁ = some v₁ →
    ∃ v₂, denotes T₂ i₂ = some v₂ ∧ v₁.mapIdents f = v₂.mapIdents f ∧ v₁.keyProps = v₂.keyProps

theorem map_pair {α β γ : Type} {g : α → β} {h : α → γ} {l l' : List α} (hg : l.map g = l'.map g)
    (hh : l.map h = l'.map h) : l.map (fun a => (g a, h a)) = l'.map (fun a => (g a, h a)) := by
  induction l generalizing l' with
  | nil => cases l' <;> simp_all
  | cons a l ih =>
    cases l' with
    | nil => simp at hg
    | cons b l' =>
      simp only [List.map_cons, List.cons.injEq, Prod.mk.injEq] at hg hh ⊢
      exact ⟨⟨hg.1, hh.1⟩, ih hg.2 hh.2⟩

theorem mem_of_map_eq {α β : Type} {g : α → β} {l l' : List α} (h : l.map g = l'.map g) {a : α} (ha : a ∈ l) :
    ∃ a' ∈ l', g a = g a' := by
  have : g a ∈ l'.map g := by rw [← h]; exact List.mem_map.2 ⟨a, ha, rfl⟩
  obtain ⟨a', h1, h2⟩ := List.mem_map.1 this
  exact ⟨a', h1, h2.symm⟩

theorem perm_of_map_eq {α β : Type} {g : α → β} {l m m' : List α} (hp : l.Perm m) (h : m.map g = m'.map g) :
    ∃ l' : List α, l'.Perm m' ∧ l.map g = l'.map g := by
  induction hp generalizing m' with
  | nil => exact ⟨m', List.Perm.refl _, h⟩
  | @cons x l₁ l₂ _ ih =>
    cases m' with
    | nil => simp at h
    | cons y m' =>
      simp only [List.map_cons, List.cons.injEq] at h
      obtain ⟨l', h1, h2⟩ := ih h.2
      exact ⟨y :: l', h1.cons y, by simp [h.1, h2]⟩
  | swap x y l =>
    match m', h with
    | [], h => simp at h
    | [a], h => simp at h
    | a :: b :: m', h =>
      simp only [List.map_cons, List.cons.injEq] at h
      exact ⟨b :: a :: m', List.Perm.swap a b m', by simp [h.1, h.2.1, h.2.2]⟩
  | @trans l₁ l₂ l₃ _ _ ih₁ ih₂ =>
    obtain ⟨n, h1, h2⟩ := ih₂ h
    obtain ⟨n', h3, h4⟩ := ih₁ h2
    exact ⟨n', h3.trans h1, h4⟩

theorem attrsShape_congr {P : Lex} {f : Ident → Ident} {l l' : List Attribute} {as}
    (h : l.map (·.mapIdents f) = l'.map (·.mapIdents f)) (hs : AttrsShape P l as) : AttrsShape P l' as := by
  have hv : ∀ a b : Attribute, a.mapIdents f = b.mapIdents f →
      a.ident = b.ident ∧ a.use_ = b.use_ ∧ ((∃ t, b.variant = .type_ t) → ∃ t, a.variant = .type_ t) ∧
      ∀ m, a.variant = .any m → b.variant = .any m := by
    intro a b hab
    simp only [Attribute.mapIdents, Attribute.mk.injEq] at hab
    refine ⟨hab.1, hab.2.2.1, ?_, ?_⟩
    · rintro ⟨t, ht⟩
      have := hab.2.1
      rw [ht] at this
      cases ha : a.variant <;> rw [ha] at this <;> simp [AttrVariant.mapIdents] at this
      exact ⟨_, rfl⟩
    · intro m hm
      have := hab.2.1
      rw [hm] at this
      cases hb : b.variant <;> rw [hb] at this <;> simp [AttrVariant.mapIdents] at this
      rw [this]
  constructor
  · intro a ha hu ht
    obtain ⟨b, hb, hab⟩ := mem_of_map_eq h.symm ha
    obtain ⟨h1, h2, h3, -⟩ := hv b a hab.symm
    obtain ⟨v, hvv⟩ := hs.1 b hb (by rw [h2, hu]) (h3 ht)
    exact ⟨v, by rw [← h1]; exact hvv⟩
  · intro n v hn
    rcases hs.2 n v hn with ⟨a, ha, hn', hu, ht⟩ | ⟨a, ha, m, hm, hany⟩
    · obtain ⟨b, hb, hab⟩ := mem_of_map_eq h ha
      obtain ⟨h1, h2, -, -⟩ := hv a b hab
      obtain ⟨-, -, h3, -⟩ := hv b a hab.symm
      exact Or.inl ⟨b, hb, h1 ▸ hn', h2 ▸ hu, h3 ht⟩
    · obtain ⟨b, hb, hab⟩ := mem_of_map_eq h ha
      obtain ⟨-, -, -, h4⟩ := hv a b hab
      exact Or.inr ⟨b, hb, m, h4 m hm, hany⟩

theorem attrVariant_type {f : Ident → Ident} {l l' : List Attribute}
    (h : l.map (·.mapIdents f) = l'.map (·.mapIdents f)) {b : Attribute} (hb : b ∈ l') {t : Ident}
    (ht : b.variant = .type_ t) : ∃ a ∈ l, ∃ t', a.variant = .type_ t' ∧ f t' = f t ∧ a.ident = b.ident := by
  obtain ⟨a, ha, hab⟩ := mem_of_map_eq h.symm hb
  simp only [Attribute.mapIdents, Attribute.mk.injEq] at hab
  have := hab.2.1
  rw [ht] at this
  cases hv : a.variant <;> rw [hv] at this <;> simp [AttrVariant.mapIdents] at this
  exact ⟨a, ha, _, hv, this.symm, hab.1.symm⟩

theorem get_of_denotes {T : Types} {i : Ident} {v : Variant} (h : denotes T i = some v) :
    ∃ ty, Assoc.get T (res T i) = some ty ∧ ty.variant = v := by
  simp only [denotes, Option.map_eq_some_iff] at h
  exact h

/-- Valid judgements name defined types. -/
theorem Valid.defined {P : Lex} {T : Types} {j : Judge} (h : Valid P T j) :
    (∀ i s, j = .text i s → Defined T i) ∧ (∀ i x as kids, j = .value i x as kids → Defined T i) ∧
    (∀ i ns, j = .group i ns → Defined T i) := by
  induction h <;> refine ⟨?_, ?_, ?_⟩ <;> intros <;>
    first
    | (rename_i heq; injection heq; subst_vars; exact ⟨_, ‹Assoc.get T _ = some _›⟩)
    | (rename_i heq; cases heq; rename_i ih; exact ih.1 _ _ rfl)
    | (rename_i heq; cases heq)

theorem Transfer.sym_key {f : Ident → Ident} {T₁ T₂ : Types} (ht : Transfer f T₁ T₂) {i : Ident} {ty : MetaType}
    {d : Dynamic} (hg : Assoc.get T₁ i = some ty) (hv : ty.variant = .dynamic d) {i₂ : Ident} (hf : f i = f i₂)
    {key : Ident} {der : Derived} (hm : (key, der) ∈ d.derived) :
    ∃ ty₂ d₂ key₂ der₂, Assoc.get T₂ (res T₂ i₂) = some ty₂ ∧ ty₂.variant = .dynamic d₂ ∧ (key₂, der₂) ∈ d₂.derived ∧
      key₂.toProp = key.toProp ∧ f der.type_ = f der₂.type_ ∧ der₂.relationship = der.relationship := by
  have hden : Meta.denotes T₁ i = some (.dynamic d) := by
    rw [denotes_not_synonym hg (by rw [hv]; rfl), hv]
  obtain ⟨v₂, h1, h2, hk⟩ := ht.denotes i i₂ _ hf hden
  obtain ⟨ty₂, h3, h4⟩ := get_of_denotes h1
  cases v₂ <;> simp only [Variant.mapIdents, reduceCtorEq, Variant.dynamic.injEq, Dynamic.mk.injEq] at h2
  rename_i d₂
  obtain ⟨⟨key₂, der₂⟩, hm₂, heq⟩ := mem_of_map_eq (map_pair h2.2.2 hk) hm
  simp only [Prod.mk.injEq, Derived.mapIdents, Derived.mk.injEq] at heq
  exact ⟨ty₂, d₂, key₂, der₂, h3, h4, hm₂, heq.2.symm, heq.1.2.1, heq.1.2.2.2.symm⟩

theorem Transfer.get {f : Ident → Ident} {T₁ T₂ : Types} (ht : Transfer f T₁ T₂) {i : Ident} {ty : MetaType}
    {v : Variant} (hg : Assoc.get T₁ i = some ty) (hv : ty.variant = v) (hn : v.target = none) {i₂ : Ident}
    (hf : f i = f i₂) :
    ∃ ty₂ v₂, Assoc.get T₂ (res T₂ i₂) = some ty₂ ∧ ty₂.variant = v₂ ∧ v.mapIdents f = v₂.mapIdents f := by
  subst hv
  obtain ⟨v₂, h1, h2, -⟩ := ht.denotes i i₂ _ hf (denotes_not_synonym hg hn)
  obtain ⟨ty₂, h3, h4⟩ := get_of_denotes h1
  exact ⟨ty₂, v₂, h3, h4, h2⟩

/-- A reference that is single: either a synonym or nillable. -/
theorem Transfer.ref {f : Ident → Ident} {T₁ T₂ : Types} (ht : Transfer f T₁ T₂) {i : Ident} {ty : MetaType}
    {r : Reference} (hg : Assoc.get T₁ i = some ty) (hv : ty.variant = .reference r) (h3 : r.min = 1)
    (h4 : r.max = .bounded 1) (hd : Defined T₁ r.type_) {i₂ : Ident} (hf : f i = f i₂) :
    f r.type_ = f i₂ ∨ ∃ ty₂ r₂, Assoc.get T₂ (res T₂ i₂) = some ty₂ ∧ ty₂.variant = .reference r₂ ∧ r₂.min = 1 ∧
      r₂.max = .bounded 1 ∧ f r.type_ = f r₂.type_ := by
  by_cases hn : r.nillable
  · obtain ⟨ty₂, v₂, g1, g2, g3⟩ := ht.get hg hv (by simp [Variant.target, Reference.isSimple, hn]) hf
    cases v₂ <;> simp only [Variant.mapIdents, reduceCtorEq, Variant.reference.injEq, Reference.mk.injEq] at g3
    exact Or.inr ⟨ty₂, _, g1, g2, by rw [← g3.2.2.1, h3], by rw [← g3.2.2.2, h4], g3.1⟩
  · have hs : Synonym T₁ i r.type_ := ⟨ty, r, hg, hv, rfl, by simpa using hn, h3, h4⟩
    exact Or.inl ((ht.synonym i _ hs hd).symm.trans hf)

theorem element_congr {f : Ident → Ident} {e e' : Element} (h : e.mapIdents f = e'.mapIdents f) :
    e.ident = e'.ident ∧ e.min = e'.min ∧ e.max = e'.max ∧ e.variant.mapIdents f = e'.variant.mapIdents f := by
  simp only [Element.mapIdents, Element.mk.injEq] at h
  exact ⟨h.1, h.2.2.2.2.1, h.2.2.2.2.2.1, h.2.1⟩

theorem variant_type {f : Ident → Ident} {v v' : ElementVariant} {i : Ident} {m : Mode}
    (h : v.mapIdents f = v'.mapIdents f) (hv : v = .type_ i m) : ∃ i', v' = .type_ i' m ∧ f i = f i' := by
  subst hv
  cases v' <;> simp [ElementVariant.mapIdents] at h
  exact ⟨_, by rw [h.2], h.1⟩

/-- Documents accepted with one table are accepted with a table whose names stand for related definitions. -/
theorem Valid.transfer {P : Lex} {f : Ident → Ident} {T₁ T₂ : Types} (ht : Transfer f T₁ T₂) {j₁ : Judge}
    (h : Valid P T₁ j₁) : ∀ j₂, j₁.map f = j₂.map f → Valid P T₂ j₂ := by
  induction h with
  | @refText i ty r s hg hv h3 h4 hsub ih =>
    intro j₂ hj
    cases j₂ <;> simp only [Judge.map, reduceCtorEq, Judge.text.injEq] at hj
    rename_i i₂ s₂
    obtain ⟨hf, rfl⟩ := hj
    rcases ht.ref hg hv h3 h4 (hsub.defined.1 _ _ rfl) hf with h | ⟨ty₂, r₂, g1, g2, g3, g4, g5⟩
    · exact ih (.text i₂ s) (by simp [Judge.map, h])
    · exact (Valid.of_res i₂).1 _ (.refText g1 g2 g3 g4 (ih (.text r₂.type_ s) (by simp [Judge.map, g5])))
  | @listText i ty r s hg hv h3 h4 hsub ih =>
    intro j₂ hj
    cases j₂ <;> simp only [Judge.map, reduceCtorEq, Judge.text.injEq] at hj
    rename_i i₂ s₂
    obtain ⟨hf, rfl⟩ := hj
    have hn : (Variant.reference r).target = none := by
      simp only [Variant.target]
      rw [if_neg]
      rw [isSimple_iff]
      rintro ⟨-, h5, h6⟩
      exact h3 ⟨h5, h6⟩
    obtain ⟨ty₂, v₂, g1, g2, g3⟩ := ht.get hg hv hn hf
    cases v₂ <;> simp only [Variant.mapIdents, reduceCtorEq, Variant.reference.injEq, Reference.mk.injEq] at g3
    rename_i r₂
    refine (Valid.of_res i₂).1 _ (.listText g1 g2 (by rw [← g3.2.2.1, ← g3.2.2.2]; exact h3)
      (by rw [← g3.2.2.1, ← g3.2.2.2]; exact h4) ?_)
    intro w hw
    exact ih w hw (.text r₂.type_ w) (by simp [Judge.map, g3.1])
  | @unionText i ty u m s hg hv hm hfac hsub ih =>
    intro j₂ hj
    cases j₂ <;> simp only [Judge.map, reduceCtorEq, Judge.text.injEq] at hj
    rename_i i₂ s₂
    obtain ⟨hf, rfl⟩ := hj
    obtain ⟨ty₂, v₂, g1, g2, g3⟩ := ht.get hg hv rfl hf
    cases v₂ <;> simp only [Variant.mapIdents, reduceCtorEq, Variant.union.injEq, Union.mk.injEq] at g3
    obtain ⟨m₂, hm₂, heq⟩ := mem_of_map_eq g3.2.1 hm
    simp only [UnionType.mapIdents, UnionType.mk.injEq] at heq
    exact (Valid.of_res i₂).1 _ (.unionText g1 g2 hm₂ (by rw [← g3.2.2]; exact hfac)
      (ih (.text m₂.type_ s) (by simp [Judge.map, heq.1])))
  | @builtInText i ty b s hg hv hb =>
    intro j₂ hj
    cases j₂ <;> simp only [Judge.map, reduceCtorEq, Judge.text.injEq] at hj
    rename_i i₂ s₂
    obtain ⟨hf, rfl⟩ := hj
    obtain ⟨ty₂, v₂, g1, g2, g3⟩ := ht.get hg hv rfl hf
    cases v₂ <;> simp only [Variant.mapIdents, reduceCtorEq, Variant.buildIn.injEq] at g3
    exact (Valid.of_res i₂).1 _ (.builtInText g1 g2 (g3 ▸ hb))
  | @customText i ty n s hg hv hb =>
    intro j₂ hj
    cases j₂ <;> simp only [Judge.map, reduceCtorEq, Judge.text.injEq] at hj
    rename_i i₂ s₂
    obtain ⟨hf, rfl⟩ := hj
    obtain ⟨ty₂, v₂, g1, g2, g3⟩ := ht.get hg hv rfl hf
    cases v₂ <;> simp only [Variant.mapIdents, reduceCtorEq, Variant.custom.injEq] at g3
    exact (Valid.of_res i₂).1 _ (.customText g1 g2 (g3 ▸ hb))
  | @literalText i ty en v s hg hv hm hn hname =>
    intro j₂ hj
    cases j₂ <;> simp only [Judge.map, reduceCtorEq, Judge.text.injEq] at hj
    rename_i i₂ s₂
    obtain ⟨hf, rfl⟩ := hj
    obtain ⟨ty₂, v₂, g1, g2, g3⟩ := ht.get hg hv rfl hf
    cases v₂ <;> simp only [Variant.mapIdents, reduceCtorEq, Variant.enumeration.injEq, Enumeration.mk.injEq] at g3
    obtain ⟨w, hw, heq⟩ := mem_of_map_eq g3.2.1 hm
    simp only [EnumVariant.mapIdents, EnumVariant.mk.injEq] at heq
    refine (Valid.of_res i₂).1 _ (.literalText g1 g2 hw ?_ (by rw [← heq.1]; exact hname))
    have := heq.2.2.1
    rw [hn] at this
    cases hw' : w.type_ <;> simp_all
  | @variantText i ty en v t s hg hv hm hn hsub ih =>
    intro j₂ hj
    cases j₂ <;> simp only [Judge.map, reduceCtorEq, Judge.text.injEq] at hj
    rename_i i₂ s₂
    obtain ⟨hf, rfl⟩ := hj
    obtain ⟨ty₂, v₂, g1, g2, g3⟩ := ht.get hg hv rfl hf
    cases v₂ <;> simp only [Variant.mapIdents, reduceCtorEq, Variant.enumeration.injEq, Enumeration.mk.injEq] at g3
    obtain ⟨w, hw, heq⟩ := mem_of_map_eq g3.2.1 hm
    simp only [EnumVariant.mapIdents, EnumVariant.mk.injEq] at heq
    have := heq.2.2.1
    rw [hn] at this
    cases hw' : w.type_ with
    | none => rw [hw'] at this; simp at this
    | some t₂ =>
      rw [hw'] at this
      simp at this
      exact (Valid.of_res i₂).1 _ (.variantText g1 g2 hw hw' (ih (.text t₂ s) (by simp [Judge.map, this])))
  | @simpleText i ty x s hg hv hl hfac hsub ih =>
    intro j₂ hj
    cases j₂ <;> simp only [Judge.map, reduceCtorEq, Judge.text.injEq] at hj
    rename_i i₂ s₂
    obtain ⟨hf, rfl⟩ := hj
    obtain ⟨ty₂, v₂, g1, g2, g3⟩ := ht.get hg hv rfl hf
    cases v₂ <;> simp only [Variant.mapIdents, reduceCtorEq, Variant.simple.injEq, Simple.mk.injEq] at g3
    rename_i x₂
    exact (Valid.of_res i₂).1 _ (.simpleText g1 g2 (by rw [← g3.2.1]; exact hl) (by rw [← g3.2.2]; exact hfac)
      (ih (.text x₂.base s) (by simp [Judge.map, g3.1])))
  | @simpleListText i ty x s hg hv hl hfac hsub ih =>
    intro j₂ hj
    cases j₂ <;> simp only [Judge.map, reduceCtorEq, Judge.text.injEq] at hj
    rename_i i₂ s₂
    obtain ⟨hf, rfl⟩ := hj
    obtain ⟨ty₂, v₂, g1, g2, g3⟩ := ht.get hg hv rfl hf
    cases v₂ <;> simp only [Variant.mapIdents, reduceCtorEq, Variant.simple.injEq, Simple.mk.injEq] at g3
    rename_i x₂
    exact (Valid.of_res i₂).1 _ (.simpleListText g1 g2 (by rw [← g3.2.1]; exact hl) (by rw [← g3.2.2]; exact hfac)
      (fun w hw => ih w hw (.text x₂.base w) (by simp [Judge.map, g3.1])))
  | @refValue i ty r xsi as kids hg hv h3 h4 hsub ih =>
    intro j₂ hj
    cases j₂ <;> simp only [Judge.map, reduceCtorEq, Judge.value.injEq] at hj
    rename_i i₂ x₂ as₂ kids₂
    obtain ⟨hf, rfl, rfl, rfl⟩ := hj
    rcases ht.ref hg hv h3 h4 (hsub.defined.2.1 _ _ _ _ rfl) hf with h | ⟨ty₂, r₂, g1, g2, g3, g4, g5⟩
    · exact ih (.value i₂ _ _ _) (by simp [Judge.map, h])
    · exact (Valid.of_res i₂).2.1 _ _ _ (.refValue g1 g2 g3 g4 (ih (.value r₂.type_ _ _ _) (by simp [Judge.map, g5])))
  | @textValue i s xsi hsub ih =>
    intro j₂ hj
    cases j₂ <;> simp only [Judge.map, reduceCtorEq, Judge.value.injEq] at hj
    rename_i i₂ x₂ as₂ kids₂
    obtain ⟨hf, rfl, rfl, rfl⟩ := hj
    exact .textValue (ih (.text i₂ s) (by simp [Judge.map, hf]))
  | @customValue i ty n xsi as kids hg hv hb =>
    intro j₂ hj
    cases j₂ <;> simp only [Judge.map, reduceCtorEq, Judge.value.injEq] at hj
    rename_i i₂ x₂ as₂ kids₂
    obtain ⟨hf, rfl, rfl, rfl⟩ := hj
    obtain ⟨ty₂, v₂, g1, g2, g3⟩ := ht.get hg hv rfl hf
    cases v₂ <;> simp only [Variant.mapIdents, reduceCtorEq, Variant.custom.injEq] at g3
    exact (Valid.of_res i₂).2.1 _ _ _ (.customValue g1 g2 (g3 ▸ hb))
  | @dynamicValue i ty d key der xsi as kids hg hv hm hx hsub ih =>
    intro j₂ hj
    cases j₂ <;> simp only [Judge.map, reduceCtorEq, Judge.value.injEq] at hj
    rename_i i₂ x₂ as₂ kids₂
    obtain ⟨hf, rfl, rfl, rfl⟩ := hj
    obtain ⟨ty₂, d₂, key₂, der₂, g1, g2, g3, g4, g5, g6⟩ := ht.sym_key hg hv hf hm
    exact (Valid.of_res i₂).2.1 _ _ _ (.dynamicValue g1 g2 g3 (by rw [g4, g6]; exact hx)
      (ih (.value der₂.type_ _ _ _) (by simp [Judge.map, g5])))
  | @emptyValue i ty c xsi as hg hv hc hsh hat ih =>
    intro j₂ hj
    cases j₂ <;> simp only [Judge.map, reduceCtorEq, Judge.value.injEq] at hj
    rename_i i₂ x₂ as₂ kids₂
    obtain ⟨hf, rfl, rfl, rfl⟩ := hj
    obtain ⟨ty₂, v₂, g1, g2, g3⟩ := ht.get hg hv rfl hf
    cases v₂ <;> simp only [Variant.mapIdents, reduceCtorEq, Variant.complex.injEq, Complex.mk.injEq] at g3
    rename_i c₂
    obtain ⟨-, gc, -, -, -, -, ga⟩ := g3
    refine (Valid.of_res i₂).2.1 _ _ _ (.emptyValue g1 g2 ?_ (attrsShape_congr ga hsh) ?_)
    · rw [hc] at gc
      cases hc₂ : c₂.content <;> simp_all
    · intro b hb t htt v hvv
      obtain ⟨a, ha, t', ht', hft, hid⟩ := attrVariant_type ga hb htt
      exact ih a ha t' ht' v (by rw [hid]; exact hvv) (.text t v) (by simp [Judge.map, hft])
  | @simpleValue i ty c g xsi as s hg hv hc hsh hat hsub ih ihg =>
    intro j₂ hj
    cases j₂ <;> simp only [Judge.map, reduceCtorEq, Judge.value.injEq] at hj
    rename_i i₂ x₂ as₂ kids₂
    obtain ⟨hf, rfl, rfl, rfl⟩ := hj
    obtain ⟨ty₂, v₂, g1, g2, g3⟩ := ht.get hg hv rfl hf
    cases v₂ <;> simp only [Variant.mapIdents, reduceCtorEq, Variant.complex.injEq, Complex.mk.injEq] at g3
    rename_i c₂
    obtain ⟨-, gc, -, -, -, -, ga⟩ := g3
    rw [hc] at gc
    cases hc₂ : c₂.content with
    | none => rw [hc₂] at gc; simp at gc
    | some g₂ =>
      rw [hc₂] at gc
      simp at gc
      refine (Valid.of_res i₂).2.1 _ _ _ (.simpleValue g1 g2 hc₂ (attrsShape_congr ga hsh) ?_
        (ihg (.text g₂ s) (by simp [Judge.map, gc])))
      intro b hb t htt v hvv
      obtain ⟨a, ha, t', ht', hft, hid⟩ := attrVariant_type ga hb htt
      exact ih a ha t' ht' v (by rw [hid]; exact hvv) (.text t v) (by simp [Judge.map, hft])
  | @complexValue i ty c g k xsi as kids hg hv hc hsh hat hk hsub ih ihg =>
    intro j₂ hj
    cases j₂ <;> simp only [Judge.map, reduceCtorEq, Judge.value.injEq] at hj
    rename_i i₂ x₂ as₂ kids₂
    obtain ⟨hf, rfl, rfl, rfl⟩ := hj
    obtain ⟨ty₂, v₂, g1, g2, g3⟩ := ht.get hg hv rfl hf
    cases v₂ <;> simp only [Variant.mapIdents, reduceCtorEq, Variant.complex.injEq, Complex.mk.injEq] at g3
    rename_i c₂
    obtain ⟨-, gc, gmin, gmax, -, gmix, ga⟩ := g3
    rw [hc] at gc
    cases hc₂ : c₂.content with
    | none => rw [hc₂] at gc; simp at gc
    | some g₂ =>
      rw [hc₂] at gc
      simp at gc
      refine (Valid.of_res i₂).2.1 _ _ _ (.complexValue g1 g2 hc₂ (attrsShape_congr ga hsh) ?_
        (by rw [← gmin, ← gmax]; exact hk) (ihg (.groupTimes g₂ k _) (by simp [Judge.map, gc, gmix])))
      intro b hb t htt v hvv
      obtain ⟨a, ha, t', ht', hft, hid⟩ := attrVariant_type ga hb htt
      exact ih a ha t' ht' v (by rw [hid]; exact hvv) (.text t v) (by simp [Judge.map, hft])
  | @refGroup i ty r ns hg hv h3 h4 hsub ih =>
    intro j₂ hj
    cases j₂ <;> simp only [Judge.map, reduceCtorEq, Judge.group.injEq] at hj
    rename_i i₂ ns₂
    obtain ⟨hf, rfl⟩ := hj
    rcases ht.ref hg hv h3 h4 (hsub.defined.2.2 _ _ rfl) hf with h | ⟨ty₂, r₂, g1, g2, g3, g4, g5⟩
    · exact ih (.group i₂ _) (by simp [Judge.map, h])
    · exact (Valid.of_res i₂).2.2 _ (.refGroup g1 g2 g3 g4 (ih (.group r₂.type_ _) (by simp [Judge.map, g5])))
  | @sequence i ty g ns hg hv hsub ih =>
    intro j₂ hj
    cases j₂ <;> simp only [Judge.map, reduceCtorEq, Judge.group.injEq] at hj
    rename_i i₂ ns₂
    obtain ⟨hf, rfl⟩ := hj
    obtain ⟨ty₂, v₂, g1, g2, g3⟩ := ht.get hg hv rfl hf
    cases v₂ <;> simp only [Variant.mapIdents, reduceCtorEq, Variant.sequence.injEq, Group.mapIdents, Group.mk.injEq] at g3
    rename_i g₂
    exact (Valid.of_res i₂).2.2 _ (.sequence g1 g2 (ih (.inOrder g₂.elements _) (by simp [Judge.map, g3.2])))
  | @choice i ty g e k ns hg hv hm hk hsub ih =>
    intro j₂ hj
    cases j₂ <;> simp only [Judge.map, reduceCtorEq, Judge.group.injEq] at hj
    rename_i i₂ ns₂
    obtain ⟨hf, rfl⟩ := hj
    obtain ⟨ty₂, v₂, g1, g2, g3⟩ := ht.get hg hv rfl hf
    cases v₂ <;> simp only [Variant.mapIdents, reduceCtorEq, Variant.choice.injEq, Group.mapIdents, Group.mk.injEq] at g3
    obtain ⟨e₂, hm₂, heq⟩ := mem_of_map_eq g3.2 hm
    have he := element_congr heq
    exact (Valid.of_res i₂).2.2 _ (.choice g1 g2 hm₂ (by rw [← he.2.1, ← he.2.2.1]; exact hk)
      (ih (.times e₂ k _) (by simp [Judge.map, heq])))
  | @all i ty g es ns hg hv hp hsub ih =>
    intro j₂ hj
    cases j₂ <;> simp only [Judge.map, reduceCtorEq, Judge.group.injEq] at hj
    rename_i i₂ ns₂
    obtain ⟨hf, rfl⟩ := hj
    obtain ⟨ty₂, v₂, g1, g2, g3⟩ := ht.get hg hv rfl hf
    cases v₂ <;> simp only [Variant.mapIdents, reduceCtorEq, Variant.all.injEq, Group.mapIdents, Group.mk.injEq] at g3
    obtain ⟨es₂, hp₂, heq⟩ := perm_of_map_eq hp g3.2
    exact (Valid.of_res i₂).2.2 _ (.all g1 g2 hp₂ (ih (.inOrder es₂ _) (by simp only [Judge.map, heq])))
  | @substitution i ty d key der xsi as kids hg hv hm hsub ih =>
    intro j₂ hj
    cases j₂ <;> simp only [Judge.map, reduceCtorEq, Judge.group.injEq] at hj
    rename_i i₂ ns₂
    obtain ⟨hf, rfl⟩ := hj
    obtain ⟨ty₂, d₂, key₂, der₂, g1, g2, g3, g4, g5, g6⟩ := ht.sym_key hg hv hf hm
    rw [← g4]
    exact (Valid.of_res i₂).2.2 _ (.substitution g1 g2 g3 (ih (.value der₂.type_ _ _ _) (by simp [Judge.map, g5])))
  | @complexGroup i ty c g k ns hg hv hc hk hsub ih =>
    intro j₂ hj
    cases j₂ <;> simp only [Judge.map, reduceCtorEq, Judge.group.injEq] at hj
    rename_i i₂ ns₂
    obtain ⟨hf, rfl⟩ := hj
    obtain ⟨ty₂, v₂, g1, g2, g3⟩ := ht.get hg hv rfl hf
    cases v₂ <;> simp only [Variant.mapIdents, reduceCtorEq, Variant.complex.injEq, Complex.mk.injEq] at g3
    rename_i c₂
    obtain ⟨-, gc, gmin, gmax, -, gmix, ga⟩ := g3
    rw [hc] at gc
    cases hc₂ : c₂.content with
    | none => rw [hc₂] at gc; simp at gc
    | some g₂ =>
      rw [hc₂] at gc
      simp at gc
      exact (Valid.of_res i₂).2.2 _ (.complexGroup g1 g2 hc₂ (by rw [← gmin, ← gmax]; exact hk)
        (ih (.groupTimes g₂ k _) (by simp [Judge.map, gc])))
  | @noTimes i =>
    intro j₂ hj
    cases j₂ <;> simp only [Judge.map, reduceCtorEq, Judge.groupTimes.injEq] at hj
    obtain ⟨hf, rfl, rfl⟩ := hj
    exact .noTimes
  | @oneMore i k a b ha hb iha ihb =>
    intro j₂ hj
    cases j₂ <;> simp only [Judge.map, reduceCtorEq, Judge.groupTimes.injEq] at hj
    rename_i i₂ k₂ ns₂
    obtain ⟨hf, rfl, rfl⟩ := hj
    exact .oneMore (iha (.group i₂ a) (by simp [Judge.map, hf])) (ihb (.groupTimes i₂ k b) (by simp [Judge.map, hf]))
  | @element e i xsi as kids hv hsub ih =>
    intro j₂ hj
    cases j₂ <;> simp only [Judge.map, reduceCtorEq, Judge.particle.injEq] at hj
    rename_i e₂ ns₂
    obtain ⟨hf, rfl⟩ := hj
    have he := element_congr hf
    obtain ⟨i', h1, h2⟩ := variant_type he.2.2.2 hv
    rw [he.1]
    exact .element h1 (ih (.value i' _ _ _) (by simp [Judge.map, h2]))
  | @nested e i ns hv hsub ih =>
    intro j₂ hj
    cases j₂ <;> simp only [Judge.map, reduceCtorEq, Judge.particle.injEq] at hj
    rename_i e₂ ns₂
    obtain ⟨hf, rfl⟩ := hj
    have he := element_congr hf
    obtain ⟨i', h1, h2⟩ := variant_type he.2.2.2 hv
    exact .nested h1 (ih (.group i' _) (by simp [Judge.map, h2]))
  | @wildcard e m n hv ha =>
    intro j₂ hj
    cases j₂ <;> simp only [Judge.map, reduceCtorEq, Judge.particle.injEq] at hj
    rename_i e₂ ns₂
    obtain ⟨hf, rfl⟩ := hj
    have he := (element_congr hf).2.2.2
    rw [hv] at he
    cases hv₂ : e₂.variant <;> rw [hv₂] at he <;> simp [ElementVariant.mapIdents] at he
    subst he
    exact .wildcard hv₂ ha
  | @textNode e s hv =>
    intro j₂ hj
    cases j₂ <;> simp only [Judge.map, reduceCtorEq, Judge.particle.injEq] at hj
    rename_i e₂ ns₂
    obtain ⟨hf, rfl⟩ := hj
    have he := (element_congr hf).2.2.2
    rw [hv] at he
    cases hv₂ : e₂.variant <;> rw [hv₂] at he <;> simp [ElementVariant.mapIdents] at he
    exact .textNode hv₂
  | @zero e =>
    intro j₂ hj
    cases j₂ <;> simp only [Judge.map, reduceCtorEq, Judge.times.injEq] at hj
    obtain ⟨hf, rfl, rfl⟩ := hj
    exact .zero
  | @succ e k a b ha hb iha ihb =>
    intro j₂ hj
    cases j₂ <;> simp only [Judge.map, reduceCtorEq, Judge.times.injEq] at hj
    rename_i e₂ k₂ ns₂
    obtain ⟨hf, rfl, rfl⟩ := hj
    exact .succ (iha (.particle e₂ a) (by simp [Judge.map, hf])) (ihb (.times e₂ k b) (by simp [Judge.map, hf]))
  | nil =>
    intro j₂ hj
    cases j₂ <;> simp only [Judge.map, reduceCtorEq, Judge.inOrder.injEq] at hj
    rename_i es₂ ns₂
    obtain ⟨hf, rfl⟩ := hj
    cases es₂ with
    | nil => exact .nil
    | cons _ _ => simp at hf
  | @cons e es k a b hk ha hb iha ihb =>
    intro j₂ hj
    cases j₂ <;> simp only [Judge.map, reduceCtorEq, Judge.inOrder.injEq] at hj
    rename_i es₂ ns₂
    obtain ⟨hf, rfl⟩ := hj
    cases es₂ with
    | nil => simp at hf
    | cons e₂ es₂ =>
      simp only [List.map_cons, List.cons.injEq] at hf
      have he := element_congr hf.1
      exact .cons (by rw [← he.2.1, ← he.2.2.1]; exact hk) (iha (.times e₂ k a) (by simp [Judge.map, hf.1]))
        (ihb (.inOrder es₂ b) (by simp only [Judge.map, hf.2]))

end Verif.Meta

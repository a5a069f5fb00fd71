import Verif.Generate.Compile
/-!
# Documents valid for the type information are read by the generated code (C71)

`Verif.Meta.Valid` says which documents a table of type information accepts, `Verif.Generate.Compile` which types are
generated for it, and `Verif.Gen.Tables` how their deserializers read. Here the three are connected: whatever is valid
for the type information is read, for every way to write the document down.
-/
namespace Verif.Generate

open Verif.Meta
open Verif.Occurs (MaxOccurs Container fromOccurs Allows)
open Verif.Rt hiding Node
open Verif.Gen
open Verif.Gen.Tab

variable {X : Type}

/-! ## Specification: documents as events -/

/-- The attributes `as` of an element, written on a tag: in any order relative to namespace declarations and `xsi`
attributes, with any prefix bound to the right namespace, with characters escaped in any way. -/
inductive AttrsRender (S : Setup X) (scope : Str → Option Str) : List Attr → List (PropIdent × Txt) → Prop
  | nil : AttrsRender S scope [] []
  | xmlns {a r as} (hx : isXmlnsKey a.key = true) (hr : AttrsRender S scope r as) : AttrsRender S scope (a :: r) as
  | xsi {a r as} (hx : isXmlnsKey a.key = false) (hg : globallyAllowed scope a = true)
      (hr : AttrsRender S scope r as) : AttrsRender S scope (a :: r) as
  | attr {a r as n s} (hx : isXmlnsKey a.key = false) (hm : Means scope a.key (S.attributeName n))
      (hu : unescape S.num a.value = some s) (hn : ∀ v, (n, v) ∉ as) (hr : AttrsRender S scope r as) :
      AttrsRender S scope (a :: r) ((n, s) :: as)

/-- Among the items, read from the position `p`, there is this child, and it starts at the position `q`. -/
def ChildOf {V : Type} (p : Pos) (items : List (Item V)) (q : Pos) (evs : List Event) (v : V) : Prop :=
  ∃ l j r, items = l ++ .child j evs v :: r ∧ q = after p (itemEvents l)

/-- **Specification**: the events write down the element, for a reader at the position `p`: with any prefix bound to the
right namespace, with comments, processing instructions and blanks between the children, with the text in pieces
(references, CDATA sections, comments between them), and as an empty tag if there is no content. The type of the element
is not given by `xsi:type`. -/
inductive Renders (S : Setup X) : Pos → Node → List Event → Prop
  | element {p name as t items} (hn : Means (posScope (posTrack p (.start t))) t.name (S.elementName name))
      (ha : AttrsRender S (posScope (posTrack p (.start t))) t.attrs as)
      (hpad : ∀ e, .pad e ∈ items → Padding e = true)
      (hc : ∀ q evs n, ChildOf (posTrack p (.start t)) items q evs n → Renders S q n evs) :
      Renders S p (.elem name none as (allValues items)) (.start t :: (itemEvents items ++ [.end_ t.name]))
  | text {p name as t pieces s} (hn : Means (posScope (posTrack p (.start t))) t.name (S.elementName name))
      (ha : AttrsRender S (posScope (posTrack p (.start t))) t.attrs as)
      (hl : ∀ e ∈ pieces, e.isLeaf = true) (hc : charContent S.num pieces = some s) :
      Renders S p (.elem name none as [.text s]) (.start t :: (pieces ++ [.end_ t.name]))
  | empty {p name as t kids} (hn : Means (posScope (posTrack p (.empty t))) t.name (S.elementName name))
      (ha : AttrsRender S (posScope (posTrack p (.empty t))) t.attrs as) (hk : kids = [] ∨ kids = [.text []]) :
      Renders S p (.elem name none as kids) [.empty t]

/-- The types that are looked at are all supported. -/
def Setup.Supported (S : Setup X) : Prop :=
  ∀ i ty, (i, ty) ∈ S.types → S.used i = true →
    (∀ c, ty.variant = .complex c → (S.complexOf c).isSome = true) ∧
    (∀ g, ty.variant = .choice g → (S.choiceAlts g).isSome = true) ∧
    ∀ g, ty.variant = .sequence g → (S.groupFields g).isSome = true

/-- None of the alternatives of a choice can be matched with nothing. -/
def neverEmpty (es : List Element) : Bool := es.all fun e => 1 ≤ e.min

/-- A choice that is nested in a sequence and must occur: either none of its alternatives is optional, or it occurs
exactly once and is referred to by its own name. -/
def NestedFilled (T : Types) (e : Element) : Prop :=
  ∀ j x, e.variant = .type_ j .group → denotes T j = some (.choice x) →
    e.min = 0 ∨ neverEmpty x.elements = true ∨ fromOccurs e.min e.max = .single ∧ res T j = j

/-- The choices that are alternatives of a choice cannot be matched with nothing. -/
def AltFilled (T : Types) (e : Element) : Prop :=
  ∀ j x, e.variant = .type_ j .group → denotes T j = some (.choice x) → neverEmpty x.elements = true

/-- The particles of a choice or a sequence. -/
def GroupFilled (T : Types) : Variant → Prop
  | .choice x => ∀ e ∈ x.elements, AltFilled T e
  | .sequence x => ∀ e ∈ x.elements, NestedFilled T e
  | _ => True

/-- The choices that must occur cannot be matched with nothing, with the exception in `NestedFilled`. -/
def Setup.Filled (S : Setup X) : Prop :=
  ∀ i ty, (i, ty) ∈ S.types → S.used i = true → GroupFilled S.types ty.variant ∧
    ∀ c g v, ty.variant = .complex c → c.content = some g → denotes S.types g = some v →
      GroupFilled S.types v ∧ ∀ x, v = .choice x → c.min = 0 ∨ neverEmpty x.elements = true

/-- No declared attribute can be taken for one of the `xsi` attributes. -/
def Setup.XsiFree (S : Setup X) : Prop :=
  ∀ D ∈ S.compile.structs, ∀ a ∈ D.attrs,
    a.name.local_ ∉ ["schemaLocation".toList, "noNamespaceSchemaLocation".toList, "type".toList, "nil".toList] ∨
    ∃ ns, a.name.ns = some ns ∧ ns ≠ xsiNs

/-- The types generated for simple types read the texts that are valid for them, also without the blanks around them. -/
def Setup.ReadsTexts (S : Setup X) (P : Lex) : Prop :=
  ∀ i s, Valid P S.types (.text i s) →
    (∃ x, S.parse (res S.types i) s = .ok x) ∧ ∃ x, S.parse (res S.types i) (trimAscii s) = .ok x

/-! ## Items -/

section
variable {V W : Type}

/-- Every child satisfies `R` at the position where it starts, and the rest is padding. -/
def Each (R : Nat → Pos → List Event → V → Prop) : Pos → List (Item V) → Prop
  | _, [] => True
  | p, .pad e :: r => Padding e = true ∧ Each R (posTrack p e) r
  | p, .child j evs v :: r => R j p evs v ∧ Each R (after p evs) r

theorem each_append {R : Nat → Pos → List Event → V → Prop} {p : Pos} {l r : List (Item V)} :
    Each R p (l ++ r) ↔ Each R p l ∧ Each R (after p (itemEvents l)) r := by
  induction l generalizing p with
  | nil => simp [Each, itemEvents, after]
  | cons x l ih =>
    cases x with
    | pad e =>
      have h : after p (itemEvents (.pad e :: l)) = after (posTrack p e) (itemEvents l) := rfl
      simp only [List.cons_append, Each, ih, h, and_assoc]
    | child j evs v =>
      have h : after p (itemEvents (.child j evs v :: l)) = after (after p evs) (itemEvents l) := by
        show after p (evs ++ itemEvents l) = _
        rw [after_append]
      simp only [List.cons_append, Each, ih, h, and_assoc]

theorem each_mono {R R' : Nat → Pos → List Event → V → Prop} (h : ∀ j q evs v, R j q evs v → R' j q evs v) {p : Pos}
    {l : List (Item V)} (he : Each R p l) : Each R' p l := by
  induction l generalizing p with
  | nil => trivial
  | cons x l ih =>
    cases x with
    | pad e => exact ⟨he.1, ih he.2⟩
    | child j evs v => exact ⟨h _ _ _ _ he.1, ih he.2⟩

theorem each_of {R : Nat → Pos → List Event → V → Prop} {p : Pos} {items : List (Item V)}
    (hpad : ∀ e, .pad e ∈ items → Padding e = true)
    (hc : ∀ l j evs v r, items = l ++ .child j evs v :: r → R j (after p (itemEvents l)) evs v) : Each R p items := by
  induction items generalizing p with
  | nil => trivial
  | cons x items ih =>
    cases x with
    | pad e =>
      refine ⟨hpad e (by simp), ih (fun e' h => hpad e' (by simp [h])) ?_⟩
      intro l j evs v r h
      exact hc (.pad e :: l) j evs v r (by rw [h]; rfl)
    | child j evs v =>
      refine ⟨hc [] j evs v items rfl, ih (fun e' h => hpad e' (by simp [h])) ?_⟩
      intro l j' evs' v' r h
      have := hc (.child j evs v :: l) j' evs' v' r (by rw [h]; rfl)
      rw [show itemEvents (Item.child j evs v :: l) = evs ++ itemEvents l from rfl, after_append] at this
      exact this

theorem each_pad {R : Nat → Pos → List Event → V → Prop} {p : Pos} {items : List (Item V)} (h : Each R p items) :
    ∀ e, .pad e ∈ items → Padding e = true := by
  induction items generalizing p with
  | nil => intro e he; cases he
  | cons x items ih =>
    intro e he
    cases x with
    | pad e' =>
      rcases List.mem_cons.1 he with he | he
      · cases he; exact h.1
      · exact ih h.2 e he
    | child j evs v =>
      rcases List.mem_cons.1 he with he | he
      · cases he
      · exact ih h.2 e he

theorem each_at {R : Nat → Pos → List Event → V → Prop} {p : Pos} {l r : List (Item V)} {j : Nat} {evs : List Event}
    {v : V} (h : Each R p (l ++ .child j evs v :: r)) : R j (after p (itemEvents l)) evs v :=
  (each_append.1 h).2.1

/-- Give the children other indices and other values. -/
def remap (σ : Nat → Nat) (u : V → W) : List (Item V) → List (Item W)
  | [] => []
  | .pad e :: r => .pad e :: remap σ u r
  | .child j evs v :: r => .child (σ j) evs (u v) :: remap σ u r

theorem remap_events (σ : Nat → Nat) (u : V → W) (items : List (Item V)) :
    itemEvents (remap σ u items) = itemEvents items := by
  induction items with
  | nil => rfl
  | cons x r ih =>
    cases x with
    | pad e =>
      show e :: itemEvents (remap σ u r) = e :: itemEvents r
      rw [ih]
    | child j evs v =>
      show evs ++ itemEvents (remap σ u r) = evs ++ itemEvents r
      rw [ih]

theorem remap_fields (σ : Nat → Nat) (u : V → W) (items : List (Item V)) :
    childFields (remap σ u items) = (childFields items).map σ := by
  induction items with
  | nil => rfl
  | cons x r ih =>
    cases x with
    | pad e => exact ih
    | child j evs v =>
      show σ j :: childFields (remap σ u r) = σ j :: (childFields r).map σ
      rw [ih]

theorem each_remap {R : Nat → Pos → List Event → V → Prop} {R' : Nat → Pos → List Event → W → Prop} {σ : Nat → Nat}
    {u : V → W} (h : ∀ j q evs v, R j q evs v → R' (σ j) q evs (u v)) {p : Pos} {items : List (Item V)}
    (he : Each R p items) : Each R' p (remap σ u items) := by
  induction items generalizing p with
  | nil => trivial
  | cons x items ih =>
    cases x with
    | pad e => exact ⟨he.1, ih he.2⟩
    | child j evs v => exact ⟨h _ _ _ _ he.1, ih he.2⟩

theorem allValues_split {items : List (Item V)} {a b : List V} (h : allValues items = a ++ b) :
    ∃ l r, items = l ++ r ∧ allValues l = a ∧ allValues r = b := by
  induction items generalizing a with
  | nil =>
    have : a ++ b = [] := h.symm
    simp only [List.append_eq_nil_iff] at this
    exact ⟨[], [], rfl, this.1.symm, this.2.symm⟩
  | cons x items ih =>
    cases x with
    | pad e =>
      have h' : allValues items = a ++ b := h
      obtain ⟨l, r, h1, h2, h3⟩ := ih h'
      exact ⟨.pad e :: l, r, by rw [h1]; rfl, h2, h3⟩
    | child j evs v =>
      have h' : v :: allValues items = a ++ b := h
      cases a with
      | nil => exact ⟨[], .child j evs v :: items, rfl, rfl, h⟩
      | cons y a =>
        simp only [List.cons_append, List.cons.injEq] at h'
        obtain ⟨l, r, h1, h2, h3⟩ := ih h'.2
        refine ⟨.child j evs v :: l, r, by rw [h1]; rfl, ?_, h3⟩
        show v :: allValues l = y :: a
        rw [h'.1, h2]

/-- Items with one value: padding around a child. -/
theorem allValues_single {items : List (Item V)} {v : V} (h : allValues items = [v]) :
    ∃ l j evs r, items = l ++ .child j evs v :: r ∧ allValues l = [] ∧ allValues r = [] := by
  induction items with
  | nil => cases h
  | cons x items ih =>
    cases x with
    | pad e =>
      obtain ⟨l, j, evs, r, h1, h2, h3⟩ := ih h
      exact ⟨.pad e :: l, j, evs, r, by rw [h1]; rfl, h2, h3⟩
    | child j evs w =>
      have h' : w :: allValues items = [v] := h
      simp only [List.cons.injEq] at h'
      exact ⟨[], j, evs, items, by rw [h'.1]; rfl, rfl, h'.2⟩

/-- Items without values: padding. -/
theorem allValues_nil {R : Nat → Pos → List Event → V → Prop} {R' : Nat → Pos → List Event → W → Prop} {p : Pos}
    {items : List (Item V)} (h : allValues items = []) (he : Each R p items) :
    ∃ items' : List (Item W), itemEvents items' = itemEvents items ∧ Each R' p items' ∧ childFields items' = [] := by
  induction items generalizing p with
  | nil => exact ⟨[], rfl, trivial, rfl⟩
  | cons x items ih =>
    cases x with
    | pad e =>
      obtain ⟨items', h1, h2, h3⟩ := ih h he.2
      refine ⟨.pad e :: items', ?_, ⟨he.1, h2⟩, h3⟩
      show e :: itemEvents items' = e :: itemEvents items
      rw [h1]
    | child j evs w => cases h

end

/-! ## Attributes -/

section
variable {α β : Type}

theorem mapAll_get {f : α → Option β} {l : List α} {l' : List β} (h : mapAll f l = some l') :
    l'.length = l.length ∧ ∀ (i : Nat) a, l[i]? = some a → ∃ b, l'[i]? = some b ∧ f a = some b := by
  induction l generalizing l' with
  | nil =>
    simp only [mapAll, Option.some.injEq] at h
    subst h
    exact ⟨rfl, fun i a h => by simp at h⟩
  | cons a l ih =>
    unfold mapAll at h
    cases ha : f a with
    | none => rw [ha] at h; cases h
    | some b =>
      cases hl : mapAll f l with
      | none => rw [ha, hl] at h; cases h
      | some bs =>
        rw [ha, hl] at h
        cases h
        obtain ⟨h1, h2⟩ := ih hl
        refine ⟨by simp [h1], ?_⟩
        intro i x hx
        cases i with
        | zero =>
          simp only [List.getElem?_cons_zero, Option.some.injEq] at hx
          exact ⟨b, rfl, hx ▸ ha⟩
        | succ i =>
          rw [List.getElem?_cons_succ] at hx
          exact h2 i x hx

theorem list_choose {Q : Nat → α → Prop} (n : Nat) (h : ∀ i, i < n → ∃ w, Q i w) :
    ∃ vs : List α, vs.length = n ∧ ∀ i, i < n → ∃ w, vs[i]? = some w ∧ Q i w := by
  induction n with
  | zero => exact ⟨[], rfl, fun i h => by omega⟩
  | succ n ih =>
    obtain ⟨vs, h1, h2⟩ := ih fun i hi => h i (by omega)
    obtain ⟨w, hw⟩ := h n (by omega)
    refine ⟨vs ++ [w], by simp [h1], ?_⟩
    intro i hi
    by_cases he : i = n
    · exact ⟨w, by rw [he, ← h1]; simp, he ▸ hw⟩
    · obtain ⟨w', h3, h4⟩ := h2 i (by omega)
      exact ⟨w', by rw [List.getElem?_append_left (by omega)]; exact h3, h4⟩

end

/-- The declaration of an attribute is the one with its name. -/
theorem owner_means (G : Schema X) (as : List (AttrSpec X)) (scope : Str → Option Str)
    (hplain : ∀ a ∈ as, Plain a.name)
    (hdist : ∀ (i j : Nat) a b, as[i]? = some a → as[j]? = some b → i ≠ j → Distinct a.name b.name)
    (i : Nat) (a : AttrSpec X) (ha : as[i]? = some a) (x : Attr) (hx : Means scope x.key a.name) :
    owner scope (attrTable G as) x = some i := by
  have hm := List.mem_of_getElem? ha
  unfold owner
  rw [List.findIdx?_eq_some_iff_getElem]
  obtain ⟨hi, rfl⟩ := List.getElem?_eq_some_iff.mp ha
  refine ⟨by simpa [attrTable] using hi, ?_, ?_⟩
  · rw [accepts_eq scope _ x as[i].name (by simp [attrTable]) (by simp [attrTable])]
    exact test_means scope _ _ (hplain _ hm) hx
  · intro j hj
    have hj' : j < as.length := by omega
    have := means_other scope _ _ as[j].name (hplain _ hm) hx
      (hdist i j _ _ ha (List.getElem?_eq_getElem hj') (fun e => by omega))
    rw [accepts_eq scope _ x as[j].name (by simp [attrTable]) (by simp [attrTable]), this]
    simp

/-- An `xsi` attribute belongs to no declaration. -/
theorem owner_xsi (G : Schema X) (as : List (AttrSpec X)) (scope : Str → Option Str)
    (hfree : ∀ a ∈ as,
      a.name.local_ ∉ ["schemaLocation".toList, "noNamespaceSchemaLocation".toList, "type".toList, "nil".toList] ∨
      ∃ ns, a.name.ns = some ns ∧ ns ≠ xsiNs) (x : Attr) (hx : globallyAllowed scope x = true) :
    owner scope (attrTable G as) x = none := by
  unfold owner
  rw [List.findIdx?_eq_none_iff]
  intro d hd
  simp only [attrTable, List.mem_map] at hd
  obtain ⟨a, ha, rfl⟩ := hd
  unfold globallyAllowed at hx
  have key : ∃ l p, splitName x.key = (some p, l) ∧ scope p = some xsiNs ∧
      l ∈ ["schemaLocation".toList, "noNamespaceSchemaLocation".toList, "type".toList, "nil".toList] := by
    cases hs : splitName x.key with
    | mk p l =>
      cases p with
      | none => simp [resolveAttr, hs] at hx
      | some p =>
        cases hp : scope p with
        | none => simp [resolveAttr, hs, hp] at hx
        | some ns =>
          simp only [resolveAttr, hs, hp, Bool.and_eq_true, Bool.or_eq_true, beq_iff_eq] at hx
          refine ⟨l, p, rfl, by rw [hp, hx.1], ?_⟩
          simp only [List.mem_cons, List.not_mem_nil, or_false]
          rcases hx.2 with ((h | h) | h) | h
          · exact Or.inl h
          · exact Or.inr (Or.inl h)
          · exact Or.inr (Or.inr (Or.inl h))
          · exact Or.inr (Or.inr (Or.inr h))
  obtain ⟨l, p, h1, h2, h3⟩ := key
  rw [accepts_eq scope _ x a.name (by simp) (by simp)]
  cases ht : a.name.test scope x.key with
  | false => simp
  | true =>
    exfalso
    unfold QN.test at ht
    cases hns : a.name.ns with
    | none =>
      rw [hns] at ht
      simp only [h1, beq_iff_eq] at ht
      rcases hfree a ha with h | ⟨ns, h, _⟩
      · exact h (ht ▸ h3)
      · rw [hns] at h; cases h
    | some ns =>
      rw [hns] at ht
      simp only [resolveLocalName, resolveAttr, h1, h2, beq_iff_eq] at ht
      by_cases he : xsiNs = ns
      · rw [if_pos he] at ht
        simp only [Option.some.injEq] at ht
        rcases hfree a ha with h | ⟨ns', h, hne⟩
        · exact h (ht ▸ h3)
        · rw [hns] at h
          cases h
          exact hne he.symm
      · rw [if_neg he] at ht
        cases ht

/-- What belongs to each declaration of a tag. -/
theorem owned_render {S : Setup X} {scope : Str → Option Str} {G : Schema X} {ats : List (AttrSpec X)}
    (ι : PropIdent → Nat) {attrs : List Attr} {as : List (PropIdent × Txt)}
    (hr : AttrsRender S scope attrs as)
    (hown : ∀ n v a, (n, v) ∈ as → Means scope a.key (S.attributeName n) →
      owner scope (attrTable G ats) a = some (ι n))
    (hinj : ∀ n v m w, (n, v) ∈ as → (m, w) ∈ as → ι n = ι m → n = m)
    (hxsi : ∀ a, globallyAllowed scope a = true → owner scope (attrTable G ats) a = none) (i : Nat) :
    ((owned scope (attrTable G ats) attrs i = [] ∧ ∀ n v, (n, v) ∈ as → ι n ≠ i) ∨
      ∃ a n s, owned scope (attrTable G ats) attrs i = [a] ∧ (n, s) ∈ as ∧ ι n = i ∧ unescape S.num a.value = some s) ∧
    ∀ a ∈ foreign scope (attrTable G ats) attrs, globallyAllowed scope a = true := by
  induction hr with
  | nil => exact ⟨Or.inl ⟨rfl, fun n v h => by cases h⟩, fun a h => by cases h⟩
  | @xmlns a r as hx hr ih =>
    have h1 : owned scope (attrTable G ats) (a :: r) i = owned scope (attrTable G ats) r i := by
      simp [owned, hx]
    have h2 : foreign scope (attrTable G ats) (a :: r) = foreign scope (attrTable G ats) r := by
      simp [foreign, hx]
    rw [h1, h2]
    exact ih hown hinj
  | @xsi a r as hx hg hr ih =>
    have h0 := hxsi a hg
    have h1 : owned scope (attrTable G ats) (a :: r) i = owned scope (attrTable G ats) r i := by
      simp [owned, hx, h0]
    have h2 : foreign scope (attrTable G ats) (a :: r) = a :: foreign scope (attrTable G ats) r := by
      simp [foreign, hx, h0]
    rw [h1, h2]
    obtain ⟨h3, h4⟩ := ih hown hinj
    refine ⟨h3, ?_⟩
    intro b hb
    rcases List.mem_cons.1 hb with rfl | hb
    · exact hg
    · exact h4 b hb
  | @attr a r as n s hx hm hu hn hr ih =>
    have h0 := hown n s a (by simp) hm
    obtain ⟨h3, h4⟩ := ih (fun n v b h => hown n v b (List.mem_cons_of_mem _ h))
      (fun n v m w h h' => hinj n v m w (List.mem_cons_of_mem _ h) (List.mem_cons_of_mem _ h'))
    have h2 : foreign scope (attrTable G ats) (a :: r) = foreign scope (attrTable G ats) r := by
      simp [foreign, hx, h0]
    refine ⟨?_, by rw [h2]; exact h4⟩
    by_cases hi : ι n = i
    · right
      have h1 : owned scope (attrTable G ats) (a :: r) i = a :: owned scope (attrTable G ats) r i := by
        simp [owned, hx, h0, hi]
      have h5 : owned scope (attrTable G ats) r i = [] := by
        rcases h3 with h3 | ⟨b, m, w, _, h6, h7, _⟩
        · exact h3.1
        · have := hinj n s m w (by simp) (List.mem_cons_of_mem _ h6) (by rw [hi, h7])
          subst this
          exact absurd h6 (hn w)
      exact ⟨a, n, s, by rw [h1, h5], by simp, hi, hu⟩
    · have h1 : owned scope (attrTable G ats) (a :: r) i = owned scope (attrTable G ats) r i := by
        simp [owned, hx, h0, hi]
      rw [h1]
      rcases h3 with ⟨h5, h6⟩ | ⟨b, m, w, h5, h6, h7, h8⟩
      · left
        refine ⟨h5, ?_⟩
        intro m w hmw
        rcases List.mem_cons.1 hmw with h | h
        · cases h; exact hi
        · exact h6 m w h
      · exact Or.inr ⟨b, m, w, h5, List.mem_cons_of_mem _ h6, h7, h8⟩

theorem indexOf_get {T : Types} {i : Ident} {ty : MetaType} (h : Assoc.get T i = some ty) :
    T[indexOf T i]? = some (i, ty) := by
  induction T with
  | nil => cases h
  | cons x T ih =>
    unfold indexOf
    rw [List.findIdx_cons]
    by_cases hx : x.1 = i
    · simp only [hx, beq_self_eq_true, cond_true, List.getElem?_cons_zero]
      simp only [Assoc.get, hx, beq_self_eq_true, if_true, Option.some.injEq] at h
      rw [← h, ← hx]
    · have hb : (x.1 == i) = false := by simpa using hx
      simp only [hb, cond_false, List.getElem?_cons_succ]
      simp only [Assoc.get, hx, if_false] at h
      exact ih h

theorem tyRef_simple {S : Setup X} {i : Ident} {k : Nat} (h : S.tyRef i = some (.simple k)) :
    k = indexOf S.types (res S.types i) ∧ ∀ s, S.compile.parse k s = S.parse (res S.types i) s := by
  unfold Setup.tyRef at h
  cases hd : denotes S.types i with
  | none => rw [hd] at h; cases h
  | some v =>
    have hk : k = indexOf S.types (res S.types i) := by
      rw [hd] at h
      cases v <;> simp only at h <;> first
        | (split at h <;> simp_all; done)
    refine ⟨hk, ?_⟩
    intro s
    obtain ⟨ty, hty, _⟩ := Option.map_eq_some_iff.1 hd
    show (match S.types[k]? with
      | some x => S.parse x.1 s
      | none => .error (.value 0)) = _
    rw [hk, indexOf_get hty]

theorem newAttributes_mem {fl : GFlags} {as : List Attribute} {d : DAttribute}
    (hany : as.any Attribute.isAny = false) (h : d ∈ (newAttributes fl as).1) :
    ∃ a ∈ as, ∃ t, a.use_ ≠ .prohibited ∧ a.variant = .type_ t ∧
      d = ⟨a.ident, some t, a.use_ == .optional && a.default_.isNone, a.default_, a.form⟩ := by
  simp only [newAttributes, List.mem_filterMap] at h
  obtain ⟨a, ha, h⟩ := h
  simp only [List.any_eq_false] at hany
  have hna := hany a ha
  unfold newAttribute at h
  by_cases hp : a.use_ = .prohibited
  · rw [if_pos hp] at h; cases h
  · rw [if_neg hp] at h
    cases hv : a.variant with
    | any m => exact absurd (by simp [Attribute.isAny, hv]) hna
    | type_ t =>
      rw [hv] at h
      simp only [Option.some.injEq] at h
      exact ⟨a, ha, t, hp, hv, h.symm⟩

theorem newAttributes_of {fl : GFlags} {as : List Attribute} {a : Attribute} {t : Ident} (ha : a ∈ as)
    (hp : a.use_ ≠ .prohibited) (hv : a.variant = .type_ t) :
    (⟨a.ident, some t, a.use_ == .optional && a.default_.isNone, a.default_, a.form⟩ : DAttribute) ∈
      (newAttributes fl as).1 := by
  simp only [newAttributes, List.mem_filterMap]
  refine ⟨a, ha, ?_⟩
  unfold newAttribute
  rw [if_neg hp, hv]

theorem attrField_spec {S : Setup X} {d : DAttribute} {b : AttrSpec X} (h : S.attrField d = some b) :
    ∃ i, d.type_ = some i ∧ S.tyRef i = some (.simple b.ty) ∧ b.name = S.attributeName d.ident ∧
      b.required = !d.isOption ∧ (d.default_ = none ↔ b.default = none) := by
  unfold Setup.attrField at h
  cases hi : d.type_ with
  | none => rw [hi] at h; cases h
  | some i =>
    rw [hi] at h
    simp only at h
    cases ht : S.tyRef i with
    | none => rw [ht] at h; cases h
    | some ty =>
      rw [ht] at h
      cases ty with
      | struct k => cases h
      | variant k => cases h
      | simple k =>
        simp only at h
        cases hd : d.default_ with
        | none =>
          rw [hd] at h
          cases h
          exact ⟨i, rfl, ht, rfl, rfl, by simp⟩
        | some s =>
          rw [hd] at h
          simp only at h
          cases hp : S.parse (res S.types i) s with
          | error e => rw [hp] at h; cases h
          | ok x =>
            rw [hp] at h
            cases h
            exact ⟨i, rfl, ht, rfl, rfl, by simp⟩

theorem distinct_irrefl (n : QN) : ¬ Distinct n n := by
  rintro (h | ⟨_, x, y, h1, h2, h3⟩)
  · exact h rfl
  · rw [h1] at h2; cases h2; exact h3 rfl

/-- The attributes of a valid element are valid on its tag. -/
theorem attrs_valid {S : Setup X} {P : Lex} (hp : S.ReadsTexts P) {ats : List (AttrSpec X)} {decl : List Attribute}
    (hats : mapAll S.attrField (newAttributes S.flags decl).1 = some ats)
    (hany : decl.any Attribute.isAny = false)
    (hplain : ∀ a ∈ ats, Plain a.name)
    (hdist : ∀ (i j : Nat) a b, ats[i]? = some a → ats[j]? = some b → i ≠ j → Distinct a.name b.name)
    (hfree : ∀ a ∈ ats,
      a.name.local_ ∉ ["schemaLocation".toList, "noNamespaceSchemaLocation".toList, "type".toList, "nil".toList] ∨
      ∃ ns, a.name.ns = some ns ∧ ns ≠ xsiNs)
    {as : List (PropIdent × Txt)} (hs : AttrsShape P decl as)
    (hv : ∀ a ∈ decl, ∀ t, a.variant = .type_ t → ∀ v, (a.ident, v) ∈ as → Valid P S.types (.text t v))
    {scope : Str → Option Str} {attrs : List Attr} (hr : AttrsRender S scope attrs as) :
    ∃ vs, ValidTag scope (attrTable S.compile ats) attrs vs := by
  obtain ⟨hlen, hget⟩ := mapAll_get hats
  generalize hdas : (newAttributes S.flags decl).1 = das at hats hlen hget
  have hnone : ∀ a ∈ decl, ∀ m, a.variant ≠ .any m := by
    intro a ha m hm
    simp only [List.any_eq_false] at hany
    exact hany a ha (by simp [Attribute.isAny, hm])
  let ι : PropIdent → Nat := fun n => das.findIdx fun d => d.ident == n
  have hι : ∀ n v, (n, v) ∈ as → ∃ d, das[ι n]? = some d ∧ d.ident = n := by
    intro n v hn
    rcases hs.2 n v hn with ⟨a, ha, h1, h2, t, h3⟩ | ⟨a, ha, m, hm, _⟩
    · have hmem := newAttributes_of (fl := S.flags) ha h2 h3
      rw [hdas] at hmem
      have hlt : ι n < das.length := List.findIdx_lt_length_of_exists ⟨_, hmem, by simp [h1]⟩
      refine ⟨das[ι n], List.getElem?_eq_getElem hlt, ?_⟩
      have := List.findIdx_getElem (xs := das) (p := fun d => d.ident == n) (w := hlt)
      simpa using this
    · exact absurd hm (hnone a ha m)
  have hown : ∀ n v a, (n, v) ∈ as → Means scope a.key (S.attributeName n) →
      owner scope (attrTable S.compile ats) a = some (ι n) := by
    intro n v a hn hm
    obtain ⟨d, hd, hdn⟩ := hι n v hn
    obtain ⟨b, hb, hf⟩ := hget _ _ hd
    obtain ⟨_, _, _, hname, _, _⟩ := attrField_spec hf
    exact owner_means S.compile ats scope hplain hdist (ι n) b hb a (by rw [hname, hdn]; exact hm)
  have hinj : ∀ n v m w, (n, v) ∈ as → (m, w) ∈ as → ι n = ι m → n = m := by
    intro n v m w hn hm he
    obtain ⟨d, hd, hdn⟩ := hι n v hn
    obtain ⟨d', hd', hdm⟩ := hι m w hm
    rw [he, hd'] at hd
    cases hd
    rw [← hdn, hdm]
  have hxsi := owner_xsi S.compile ats scope hfree
  have key := owned_render (G := S.compile) (ats := ats) ι hr hown hinj hxsi
  have each : ∀ i, i < ats.length → ∃ w : Option X, ∃ b, ats[i]? = some b ∧
      ((owned scope (attrTable S.compile ats) attrs i = [] ∧ w = b.default ∧ (b.required = true → b.default ≠ none)) ∨
      ∃ a s v, owned scope (attrTable S.compile ats) attrs i = [a] ∧ unescape S.num a.value = some s ∧
        S.compile.parse b.ty s = .ok v ∧ w = some v) := by
    intro i hi
    have hi' : i < das.length := by omega
    obtain ⟨b, hb, hf⟩ := hget i das[i] (List.getElem?_eq_getElem hi')
    obtain ⟨t, ht, hty, hname, hreq, hdef⟩ := attrField_spec hf
    obtain ⟨a, ha, t', h2, h3, hd⟩ := newAttributes_mem (fl := S.flags) hany
      (by rw [hdas]; exact List.getElem_mem hi')
    have htt : t' = t := by rw [hd] at ht; simpa using ht
    subst htt
    have hid : das[i].ident = a.ident := by rw [hd]
    rcases (key i).1 with ⟨h5, h6⟩ | ⟨x, n, s, h5, h6, h7, h8⟩
    · refine ⟨b.default, b, hb, Or.inl ⟨h5, rfl, ?_⟩⟩
      intro hbr hbd
      rw [hreq, hd] at hbr
      rw [← hdef, hd] at hbd
      simp only at hbr hbd
      have hu : a.use_ = .required := by
        rw [hbd] at hbr
        cases hu : a.use_ with
        | prohibited => exact absurd hu h2
        | optional => rw [hu] at hbr; cases hbr
        | required => rfl
      obtain ⟨v, hv'⟩ := hs.1 a ha hu ⟨_, h3⟩
      obtain ⟨d', hd', hdn⟩ := hι _ _ hv'
      refine h6 _ _ hv' ?_
      by_cases he : ι a.ident = i
      · exact he
      · exfalso
        obtain ⟨b', hb', hf'⟩ := hget _ _ hd'
        obtain ⟨_, _, _, hname', _, _⟩ := attrField_spec hf'
        have := hdist _ _ _ _ hb' hb he
        rw [hname, hname', hid, hdn] at this
        exact distinct_irrefl _ this
    · obtain ⟨d', hd', hdn⟩ := hι _ _ h6
      rw [h7, List.getElem?_eq_getElem hi'] at hd'
      cases hd'
      have hn : n = a.ident := by rw [← hdn, hid]
      subst hn
      have hval := hv a ha _ h3 s h6
      obtain ⟨v, hpv⟩ := (hp _ _ hval).1
      exact ⟨some v, b, hb, Or.inr ⟨x, s, v, h5, h8, by rw [(tyRef_simple hty).2]; exact hpv, rfl⟩⟩
  obtain ⟨vs, hvl, hvs⟩ := list_choose ats.length each
  refine ⟨vs, by simp [attrTable, hvl], ?_, fun _ => (key 0).2, fun h => by cases h⟩
  intro i d hd
  simp only [attrTable, List.getElem?_map, Option.map_eq_some_iff] at hd
  obtain ⟨b, hb, rfl⟩ := hd
  have hi : i < ats.length := (List.getElem?_eq_some_iff.1 hb).1
  obtain ⟨w, hw, b', hb', hcase⟩ := hvs i hi
  rw [hb] at hb'
  cases hb'
  rcases hcase with ⟨h1, h2, h3⟩ | ⟨a, s, v, h1, h2, h3, h4⟩
  · exact Or.inl ⟨h1, by rw [hw, h2], h3⟩
  · refine Or.inr ⟨a, v, h1, ?_, by rw [hw, h4]⟩
    show (match unescape S.compile.num a.value with
      | some s => S.compile.parse b.ty s
      | none => .error (.value 0)) = .ok v
    rw [show S.compile.num = S.num from rfl, h2]
    exact h3

/-! ## Elements of a document and fields of a type -/

def IsElem (n : Node) : Prop := ∃ name x as kids, n = .elem name x as kids

/-- An element written down, without its name. -/
def RendersBody (S : Setup X) (p : Pos) (as : List (PropIdent × Txt)) (kids : List Node) (evs : List Event) : Prop :=
  (∃ t items, evs = .start t :: (itemEvents items ++ [.end_ t.name]) ∧
    AttrsRender S (posScope (posTrack p (.start t))) t.attrs as ∧
    Each (fun _ q evs n => Renders S q n evs) (posTrack p (.start t)) items ∧ allValues items = kids) ∨
  (∃ t pieces s, evs = .start t :: (pieces ++ [.end_ t.name]) ∧
    AttrsRender S (posScope (posTrack p (.start t))) t.attrs as ∧ (∀ e ∈ pieces, e.isLeaf = true) ∧
    charContent S.num pieces = some s ∧ kids = [.text s]) ∨
  ∃ t, evs = [.empty t] ∧ AttrsRender S (posScope (posTrack p (.empty t))) t.attrs as ∧ (kids = [] ∨ kids = [.text []])

theorem renders_elem {S : Setup X} {p : Pos} {n : Node} {evs : List Event} (h : Renders S p n evs) : IsElem n := by
  cases h <;> exact ⟨_, _, _, _, rfl⟩

theorem renders_inv {S : Setup X} {p : Pos} {name : PropIdent} {x : Option PropIdent} {as : List (PropIdent × Txt)}
    {kids : List Node} {evs : List Event} (h : Renders S p (.elem name x as kids) evs) :
    x = none ∧ Opens p evs (S.elementName name) ∧ RendersBody S p as kids evs := by
  cases h with
  | @element _ _ _ t items hn ha hpad hc =>
    refine ⟨rfl, ⟨_, _, t, rfl, rfl, hn⟩, Or.inl ⟨t, items, rfl, ha, ?_, rfl⟩⟩
    exact each_of hpad fun l j evs v r he => hc _ _ _ ⟨l, j, r, he, rfl⟩
  | @text _ _ _ t pieces s hn ha hl hc =>
    exact ⟨rfl, ⟨_, _, t, rfl, rfl, hn⟩, Or.inr (Or.inl ⟨t, pieces, s, rfl, ha, hl, hc, rfl⟩)⟩
  | @empty _ _ _ t _ hn ha hk =>
    exact ⟨rfl, ⟨_, _, t, rfl, rfl, hn⟩, Or.inr (Or.inr ⟨t, rfl, ha, hk⟩)⟩

/-- The events are a value of the field. -/
def FieldOk (S : Setup X) (f : FieldSpec) (q : Pos) (evs : List Event) (v : Val X) : Prop :=
  ((∀ k, f.ty ≠ .variant k) → Opens q evs f.name) ∧ Doc S.compile f.ty q evs v

/-- However the elements `ns` are written down, their values can be put into fields such that `Q` holds. -/
def Places (S : Setup X) (ns : List Node) (Q : Pos → List (Item (Val X)) → Prop) : Prop :=
  (∀ n ∈ ns, IsElem n) ∧
  ∀ p items, Each (fun _ q evs n => Renders S q n evs) p items → allValues items = ns →
    ∃ items', itemEvents items' = itemEvents items ∧ Q p items'

theorem places_nil {S : Setup X} {R : Nat → Pos → List Event → Val X → Prop} {Q : Pos → List (Item (Val X)) → Prop}
    (h : ∀ p items, Each R p items → childFields items = [] → Q p items) : Places S [] Q := by
  refine ⟨fun n h => (by cases h), ?_⟩
  intro p items he hv
  obtain ⟨items', h1, h2, h3⟩ := allValues_nil (R' := R) hv he
  exact ⟨items', h1, h p items' h2 h3⟩

theorem places_append {S : Setup X} {a b : List Node} {Q₁ Q₂ Q : Pos → List (Item (Val X)) → Prop}
    (h₁ : Places S a Q₁) (h₂ : Places S b Q₂)
    (h : ∀ p l r, Q₁ p l → Q₂ (after p (itemEvents l)) r → Q p (l ++ r)) : Places S (a ++ b) Q := by
  refine ⟨fun n hn => (List.mem_append.1 hn).elim (h₁.1 n) (h₂.1 n), ?_⟩
  intro p items he hv
  obtain ⟨l, r, rfl, hl, hr⟩ := allValues_split hv
  obtain ⟨e1, e2⟩ := each_append.1 he
  obtain ⟨l', h3, h4⟩ := h₁.2 _ _ e1 hl
  obtain ⟨r', h5, h6⟩ := h₂.2 _ _ e2 hr
  refine ⟨l' ++ r', by rw [itemEvents_append, itemEvents_append, h3, h5], h p l' r' h4 ?_⟩
  rw [h3]; exact h6

theorem places_map {S : Setup X} {a : List Node} {Q Q' : Pos → List (Item (Val X)) → Prop} (σ : Nat → Nat)
    (u : Val X → Val X) (h₁ : Places S a Q) (h : ∀ p l, Q p l → Q' p (remap σ u l)) : Places S a Q' := by
  refine ⟨h₁.1, ?_⟩
  intro p items he hv
  obtain ⟨l, h2, h3⟩ := h₁.2 p items he hv
  exact ⟨remap σ u l, by rw [remap_events, h2], h p l h3⟩

theorem places_mono {S : Setup X} {a : List Node} {Q Q' : Pos → List (Item (Val X)) → Prop}
    (h₁ : Places S a Q) (h : ∀ p l, Q p l → Q' p l) : Places S a Q' := by
  refine ⟨h₁.1, ?_⟩
  intro p items he hv
  obtain ⟨l, h2, h3⟩ := h₁.2 p items he hv
  exact ⟨l, h2, h p l h3⟩

theorem places_bind {S : Setup X} {a : List Node} {Q Q' : Pos → List (Item (Val X)) → Prop}
    (h₁ : Places S a Q) (h : ∀ p l, Q p l → ∃ l', itemEvents l' = itemEvents l ∧ Q' p l') : Places S a Q' := by
  refine ⟨h₁.1, ?_⟩
  intro p items he hv
  obtain ⟨l, h2, h3⟩ := h₁.2 p items he hv
  obtain ⟨l', h4, h5⟩ := h p l h3
  exact ⟨l', h4.trans h2, h5⟩

theorem each_fields {V : Type} {R : Nat → Pos → List Event → V → Prop} {φ : Nat → Prop}
    (h : ∀ j q evs v, R j q evs v → φ j) {p : Pos} {items : List (Item V)} (he : Each R p items) :
    ∀ j ∈ childFields items, φ j := by
  induction items generalizing p with
  | nil => intro j hj; cases hj
  | cons x items ih =>
    cases x with
    | pad e => exact ih he.2
    | child i evs v =>
      intro j hj
      rcases List.mem_cons.1 (show j ∈ i :: childFields items from hj) with rfl | hj
      · exact h _ _ _ _ he.1
      · exact ih he.2 j hj

/-- The elements are `k` occurrences of a particle, and can be put into its field. The number of values tells how often
the particle occurs if the field is required or the particle is not a choice that can be matched with nothing. -/
def Repeats (S : Setup X) (e : Element) (f : FieldSpec) (k : Nat) (ns : List Node) : Prop :=
  Places S ns fun p items => Each (fun j q evs v => j = 0 ∧ FieldOk S f q evs v) p items ∧
    (childFields items).length ≤ k ∧ (f.min ≠ 0 ∨ AltFilled S.types e → (childFields items).length = k)

/-- The elements can be put into these fields, in this order. -/
def InFields (S : Setup X) (fs : List FieldSpec) (ns : List Node) : Prop :=
  Places S ns fun p items =>
    Each (fun j q evs v => ∃ f, fs[j]? = some f ∧ FieldOk S f q evs v) p items ∧
    (childFields items).Pairwise (· ≤ ·) ∧
    ∀ (i : Nat) f, fs[i]? = some f → Allows f.min f.max ((childFields items).count i)

theorem repeats_zero {S : Setup X} {e : Element} {f : FieldSpec} : Repeats S e f 0 [] :=
  places_nil (R := fun j q evs v => j = 0 ∧ FieldOk S f q evs v) fun p items h1 h2 =>
    ⟨h1, by rw [h2]; exact Nat.le_refl _, fun _ => by rw [h2]; rfl⟩

theorem repeats_succ {S : Setup X} {e : Element} {f : FieldSpec} {k : Nat} {a b : List Node} (h₁ : Repeats S e f 1 a)
    (h₂ : Repeats S e f k b) : Repeats S e f (k + 1) (a ++ b) := by
  refine places_append h₁ h₂ ?_
  rintro p l r ⟨h1, h2, h3⟩ ⟨h4, h5, h6⟩
  refine ⟨each_append.2 ⟨h1, h4⟩, ?_, ?_⟩
  · rw [childFields_append, List.length_append]; omega
  · intro hs
    rw [childFields_append, List.length_append, h3 hs, h6 hs]; omega

theorem inFields_nil {S : Setup X} {fs : List FieldSpec} (h : ∀ f ∈ fs, f.min = 0) : InFields S fs [] := by
  refine places_nil (R := fun j q evs v => ∃ f, fs[j]? = some f ∧ FieldOk S f q evs v) ?_
  intro p items h1 h2
  refine ⟨h1, by rw [h2]; exact List.Pairwise.nil, ?_⟩
  intro i f hf
  rw [h2, h f (List.mem_of_getElem? hf)]
  exact ⟨Nat.zero_le _, fun b _ => Nat.zero_le _⟩

theorem count_zeros {l : List Nat} (h : ∀ j ∈ l, j = 0) : l.count 0 = l.length ∧ ∀ i, l.count (i + 1) = 0 := by
  induction l with
  | nil => simp
  | cons x l ih =>
    have hx := h x (by simp)
    subst hx
    obtain ⟨h1, h2⟩ := ih fun j hj => h j (List.mem_cons_of_mem _ hj)
    refine ⟨by simp [h1], ?_⟩
    intro i
    rw [List.count_cons_of_ne (by omega)]
    exact h2 i

theorem count_succ (l : List Nat) : (l.map (· + 1)).count 0 = 0 ∧ ∀ i, (l.map (· + 1)).count (i + 1) = l.count i := by
  induction l with
  | nil => simp
  | cons x l ih =>
    simp only [List.map_cons]
    refine ⟨by rw [List.count_cons_of_ne (by omega)]; exact ih.1, ?_⟩
    intro i
    by_cases h : x = i
    · subst h
      rw [List.count_cons_self, List.count_cons_self, ih.2]
    · rw [List.count_cons_of_ne (by omega), List.count_cons_of_ne h, ih.2]

theorem inFields_cons {S : Setup X} {e : Element} {f : FieldSpec} {fs : List FieldSpec} {k mn : Nat} {a b : List Node}
    (h₁ : Repeats S e f k a) (h₂ : InFields S fs b) (hk : Allows mn f.max k) (hmn : f.min ≤ mn) :
    InFields S (f :: fs) (a ++ b) := by
  have h₂' : Places S b fun p items =>
      Each (fun j q evs v => ∃ j', j = j' + 1 ∧ ∃ f, fs[j']? = some f ∧ FieldOk S f q evs v) p items ∧
      (childFields items).Pairwise (· ≤ ·) ∧ (childFields items).count 0 = 0 ∧
      ∀ (i : Nat) f, fs[i]? = some f → Allows f.min f.max ((childFields items).count (i + 1)) := by
    refine places_map (· + 1) id h₂ ?_
    rintro p l ⟨h1, h2, h3⟩
    rw [remap_fields]
    refine ⟨each_remap (fun j q evs v h => ⟨j, rfl, h⟩) h1, ?_, (count_succ _).1, ?_⟩
    · rw [List.pairwise_map]
      exact h2.imp fun h => by omega
    · intro i g hg
      rw [(count_succ _).2]
      exact h3 i g hg
  refine places_append h₁ h₂' ?_
  rintro p l r ⟨h1, h2, h3⟩ ⟨h4, h5, h6, h7⟩
  have hz : ∀ j ∈ childFields l, j = 0 := each_fields (fun _ _ _ _ h => h.1) h1
  rw [childFields_append]
  refine ⟨each_append.2 ⟨each_mono ?_ h1, each_mono ?_ h4⟩, ?_, ?_⟩
  · rintro j q evs v ⟨rfl, h⟩
    exact ⟨f, rfl, h⟩
  · rintro j q evs v ⟨j', rfl, h⟩
    exact h
  · rw [List.pairwise_append]
    refine ⟨?_, h5, fun x hx y _ => by rw [hz x hx]; omega⟩
    rw [List.pairwise_iff_getElem]
    intro i j hi hj _
    rw [hz _ (List.getElem_mem hi), hz _ (List.getElem_mem hj)]
    omega
  · intro i g hg
    rw [List.count_append]
    cases i with
    | zero =>
      simp only [List.getElem?_cons_zero, Option.some.injEq] at hg
      subst hg
      rw [(count_zeros hz).1, h6, Nat.add_zero]
      refine ⟨?_, fun b hb => Nat.le_trans h2 (hk.2 b hb)⟩
      by_cases h0 : f.min = 0
      · omega
      · rw [h3 (Or.inl h0)]
        exact Nat.le_trans hmn hk.1
    | succ i =>
      rw [(count_zeros hz).2, Nat.zero_add]
      exact h7 i g hg

/-! ## The fields of the generated types -/

/-- The field for a particle of the type information. -/
def specOf (S : Setup X) (field : DElement → Option FieldSpec) (m : Bool) (e : Element) : Option FieldSpec :=
  match newElement S.flags S.types S.fuel m e with
  | some (some d, false) => field d
  | _ => none

/-- The particle cannot occur, or there is a field for it. -/
def Supp (S : Setup X) (field : DElement → Option FieldSpec) (m : Bool) (e : Element) : Prop :=
  fromOccurs e.min e.max = .none ∨ (specOf S field m e).isSome = true

theorem fromOccurs_none {mn : Nat} {mx : MaxOccurs} (h : fromOccurs mn mx = .none) : mn = 0 ∧ mx = .bounded 0 := by
  unfold fromOccurs at h
  split at h
  · exact ⟨rfl, rfl⟩
  · cases h
  · cases h
  · split at h <;> cases h
  · cases h

theorem fromOccurs_single {mn : Nat} {mx : MaxOccurs} (h : fromOccurs mn mx = .single) : mn = 1 ∧ mx = .bounded 1 := by
  unfold fromOccurs at h
  split at h
  · cases h
  · exact ⟨rfl, rfl⟩
  · cases h
  · split at h <;> cases h
  · cases h

theorem newElement_some {fl : GFlags} {T : Types} {fuel : Nat} {m a : Bool} {e : Element} {d : DElement}
    (h : newElement fl T fuel m e = some (some d, a)) :
    d.ident = e.ident ∧ d.min = e.min ∧ d.max = e.max ∧
      ∀ i, d.target = .type_ i → ∃ mode, e.variant = .type_ i mode ∧ d.group = (mode == .group) ∧
        (fromOccurs e.min e.max = .single → ∃ opt, isOptionalChoice T fuel i = some opt ∧
          (opt = true → d.occurs = .optional)) := by
  unfold newElement at h
  by_cases hn : fromOccurs e.min e.max = .none
  · rw [if_pos hn] at h; cases h
  · rw [if_neg hn] at h
    cases hv : e.variant with
    | text =>
      rw [hv] at h
      cases h
      exact ⟨rfl, rfl, rfl, fun i h => by cases h⟩
    | any w =>
      rw [hv] at h
      simp only at h
      split at h
      · cases h
        exact ⟨rfl, rfl, rfl, fun i h => by cases h⟩
      · cases h
    | type_ i mode =>
      rw [hv] at h
      simp only at h
      split at h
      · cases h
        rename_i opt dyn ho hd
        refine ⟨rfl, rfl, rfl, fun j hj => ?_⟩
        cases hj
        refine ⟨mode, rfl, rfl, fun hs => ⟨opt, ?_, fun h => ?_⟩⟩
        · rw [if_pos hs] at ho; exact ho
        · subst h; rfl
      · cases h

theorem anyM_false {α : Type} {f : α → Option Bool} {l : List α} (h : anyM f l = some false) {a : α} (ha : a ∈ l) :
    f a = some false := by
  induction l with
  | nil => cases ha
  | cons b l ih =>
    unfold anyM at h
    cases hb : f b with
    | none => rw [hb] at h; cases h
    | some r =>
      rw [hb] at h
      cases r with
      | true => cases h
      | false =>
        rcases List.mem_cons.1 ha with rfl | ha
        · exact hb
        · exact ih h ha

/-- `check_element` returns `true` for everything that need not occur. -/
theorem checkElement_false {T : Types} {check : MetaType → Option Bool} {e : Element}
    (h : checkElement T check e = some false) : 1 ≤ e.min := by
  refine Nat.pos_of_ne_zero fun h0 => ?_
  unfold checkElement at h
  cases hv : e.variant with
  | type_ i mode => cases mode <;> simp [hv, h0] at h
  | _ => simp [hv, h0] at h

/-- If `is_choice_with_optional_elements_only` says no, then none of the alternatives is optional. -/
theorem isOptionalChoice_false {T : Types} {fuel : Nat} {i : Ident} {ty : MetaType} {g : Group}
    (h : isOptionalChoice T fuel i = some false) (hg : Assoc.get T i = some ty) (hv : ty.variant = .choice g) :
    neverEmpty g.elements = true := by
  unfold isOptionalChoice at h
  rw [hg] at h
  simp only [hv] at h
  cases fuel with
  | zero => cases h
  | succ n =>
    unfold checkType at h
    simp only [hv] at h
    exact List.all_eq_true.2 fun e he => by simpa using checkElement_false (anyM_false h he)

theorem newElement_none {fl : GFlags} {T : Types} {fuel : Nat} {m : Bool} {e : Element}
    (h : newElement fl T fuel m e = some (none, false)) : fromOccurs e.min e.max = .none := by
  unfold newElement at h
  by_cases hn : fromOccurs e.min e.max = .none
  · exact hn
  · rw [if_neg hn] at h
    cases hv : e.variant with
    | text => rw [hv] at h; cases h
    | any w =>
      rw [hv] at h
      simp only at h
      split at h <;> cases h
    | type_ i mode =>
      rw [hv] at h
      simp only at h
      split at h <;> cases h

theorem specOf_dropped {S : Setup X} {field : DElement → Option FieldSpec} {m : Bool} {e : Element}
    (h : fromOccurs e.min e.max = .none) : specOf S field m e = none := by
  simp [specOf, newElement, h]

theorem supp_none {S : Setup X} {field : DElement → Option FieldSpec} {m : Bool} {e : Element} {k : Nat}
    (h : Supp S field m e) (hs : specOf S field m e = none) (hk : Allows e.min e.max k) : k = 0 := by
  rcases h with h | h
  · have := hk.2 0 (fromOccurs_none h).2
    omega
  · rw [hs] at h; cases h

theorem newElements_spec {S : Setup X} {field : DElement → Option FieldSpec} {m : Bool} {es : List Element}
    {els : List DElement} {fs : List FieldSpec} (h : newElements S.flags S.types S.fuel m es = some (els, false))
    (hf : mapAll field els = some fs) : fs = es.filterMap (specOf S field m) ∧ ∀ e ∈ es, Supp S field m e := by
  induction es generalizing els fs with
  | nil =>
    unfold newElements at h
    cases h
    cases hf
    exact ⟨rfl, fun e h => by cases h⟩
  | cons e es ih =>
    unfold newElements at h
    cases h1 : newElement S.flags S.types S.fuel m e with
    | none => rw [h1] at h; cases h
    | some da =>
      cases h2 : newElements S.flags S.types S.fuel m es with
      | none => rw [h1, h2] at h; cases h
      | some db =>
        obtain ⟨d, a⟩ := da
        obtain ⟨ds, b⟩ := db
        rw [h1, h2] at h
        simp only [Option.some.injEq, Prod.mk.injEq, Bool.or_eq_false_iff] at h
        obtain ⟨rfl, rfl, rfl⟩ := h
        cases d with
        | none =>
          have hn := newElement_none h1
          obtain ⟨h3, h4⟩ := ih h2 hf
          refine ⟨by rw [List.filterMap_cons, specOf_dropped hn]; exact h3, ?_⟩
          intro x hx
          rcases List.mem_cons.1 hx with rfl | hx
          · exact Or.inl hn
          · exact h4 x hx
        | some d =>
          have hf' : mapAll field (d :: ds) = some fs := hf
          unfold mapAll at hf'
          have hsp : specOf S field m e = field d := by simp [specOf, h1]
          cases h5 : field d with
          | none => rw [h5] at hf'; cases hf'
          | some f =>
            cases h6 : mapAll field ds with
            | none => rw [h5, h6] at hf'; cases hf'
            | some fs' =>
              rw [h5, h6] at hf'
              cases hf'
              obtain ⟨h3, h4⟩ := ih h2 h6
              refine ⟨by rw [List.filterMap_cons, hsp, h5, h3], ?_⟩
              intro x hx
              rcases List.mem_cons.1 hx with rfl | hx
              · exact Or.inr (by rw [hsp, h5]; rfl)
              · exact h4 x hx

theorem elementField_seqField {S : Setup X} {d : DElement} {f : FieldSpec} (h : S.elementField d = some f) :
    S.seqField d = some f ∧ d.group = false ∧ ∀ k, f.ty ≠ .variant k := by
  have hg : d.group = false ∧ ∀ k, f.ty ≠ .variant k := by
    unfold Setup.elementField at h
    cases ht : d.target with
    | type_ i =>
      rw [ht] at h
      simp only at h
      split at h
      · cases h
      · rename_i hc
        simp only [Bool.or_eq_true, not_or, Bool.not_eq_true] at hc
        obtain ⟨ty, h1, rfl⟩ := Option.map_eq_some_iff.1 h
        refine ⟨hc.1.1.1, ?_⟩
        rintro k rfl
        unfold Setup.tyRef at h1
        split at h1
        · split at h1 <;> cases h1
        · split at h1 <;> cases h1
        · cases h1
    | _ => rw [ht] at h; cases h
  exact ⟨by rw [Setup.seqField, hg.1]; exact h, hg.1, hg.2⟩

theorem specOf_element_seq {S : Setup X} {m : Bool} {e : Element} {f : FieldSpec}
    (h : specOf S S.elementField m e = some f) : specOf S S.seqField m e = some f ∧ ∀ k, f.ty ≠ .variant k := by
  unfold specOf at h ⊢
  split at h
  · rename_i d he
    obtain ⟨h1, _, h2⟩ := elementField_seqField h
    exact ⟨h1, h2⟩
  · cases h

theorem supp_element_seq {S : Setup X} {m : Bool} {e : Element} (h : Supp S S.elementField m e) :
    Supp S S.seqField m e := by
  rcases h with h | h
  · exact Or.inl h
  · obtain ⟨f, hf⟩ := Option.isSome_iff_exists.1 h
    exact Or.inr (by rw [(specOf_element_seq hf).1]; rfl)

theorem filterMap_element_seq {S : Setup X} {m : Bool} {es : List Element} (h : ∀ e ∈ es, Supp S S.elementField m e) :
    es.filterMap (specOf S S.seqField m) = es.filterMap (specOf S S.elementField m) := by
  induction es with
  | nil => rfl
  | cons e es ih =>
    have := ih fun x hx => h x (List.mem_cons_of_mem _ hx)
    rw [List.filterMap_cons, List.filterMap_cons, this]
    rcases h e (by simp) with hn | hs
    · rw [specOf_dropped hn, specOf_dropped hn]
    · obtain ⟨f, hf⟩ := Option.isSome_iff_exists.1 hs
      rw [hf, (specOf_element_seq hf).1]

/-- What a field for a particle looks like. -/
theorem specOf_field {S : Setup X} {m : Bool} {e : Element} {f : FieldSpec} (h : specOf S S.seqField m e = some f) :
    f.max = e.max ∧ f.min ≤ e.min ∧ f.name = S.elementName e.ident ∧
    ((∃ i, e.variant = .type_ i .element ∧ S.tyRef i = some f.ty) ∨
      ∃ i, e.variant = .type_ i .group ∧ S.used (res S.types i) = true ∧
        f.ty = .variant (indexOf S.types (res S.types i)) ∧
        ((∃ g, denotes S.types i = some (.choice g) ∧
            (NestedFilled S.types e → f.min = 0 ∨ neverEmpty g.elements = true)) ∨
          ∃ g, denotes S.types i = some (.sequence g))) := by
  unfold specOf at h
  split at h
  · rename_i d he
    obtain ⟨h1, h2, h3, h4⟩ := newElement_some he
    have hl : d.least ≤ e.min := by
      unfold DElement.least
      split
      · exact Nat.zero_le _
      · omega
    unfold Setup.seqField at h
    by_cases hg : d.group = true
    · rw [if_pos hg] at h
      unfold Setup.groupField at h
      cases ht : d.target with
      | type_ i =>
        rw [ht] at h
        simp only at h
        cases hd : denotes S.types i with
        | none => rw [hd] at h; cases h
        | some v =>
          rw [hd] at h
          cases v with
          | choice g =>
            simp only at h
            split at h
            · rename_i hc
              simp only [Bool.and_eq_true] at hc
              cases h
              obtain ⟨mode, hv, hm, hopt⟩ := h4 i ht
              rw [hg] at hm
              have : mode = .group := by simpa using hm.symm
              subst this
              refine ⟨h3, hl, by rw [h1], Or.inr ⟨i, hv, hc.1.1.1, rfl, Or.inl ⟨g, hd, fun hf => ?_⟩⟩⟩
              rcases hf i g hv hd with h0 | h0 | ⟨hs, hr⟩
              · exact Or.inl (Nat.le_zero.1 (h0 ▸ hl))
              · exact Or.inr h0
              · obtain ⟨opt, ho, ho'⟩ := hopt hs
                cases opt with
                | true => exact Or.inl (by simp [DElement.least, ho' rfl])
                | false =>
                  obtain ⟨ty, hg1, hg2⟩ := Option.map_eq_some_iff.1 hd
                  rw [hr] at hg1
                  exact Or.inr (isOptionalChoice_false ho hg1 hg2)
            · cases h
          | sequence g =>
            simp only at h
            split at h
            · rename_i hc
              simp only [Bool.and_eq_true] at hc
              cases h
              obtain ⟨mode, hv, hm, _⟩ := h4 i ht
              rw [hg] at hm
              have : mode = .group := by simpa using hm.symm
              subst this
              exact ⟨h3, hl, by rw [h1], Or.inr ⟨i, hv, hc.1.1.1, rfl, Or.inr ⟨g, hd⟩⟩⟩
            · cases h
          | _ => cases h
      | _ => rw [ht] at h; cases h
    · rw [if_neg hg] at h
      unfold Setup.elementField at h
      cases ht : d.target with
      | type_ i =>
        rw [ht] at h
        simp only at h
        split at h
        · cases h
        · obtain ⟨ty, h5, rfl⟩ := Option.map_eq_some_iff.1 h
          obtain ⟨mode, hv, hm, _⟩ := h4 i ht
          have : mode = .element := by
            cases mode
            · rfl
            · exact absurd hm hg
          subst this
          exact ⟨h3, hl, by rw [h1], Or.inl ⟨i, hv, h5⟩⟩
      | _ => rw [ht] at h; cases h
  · cases h

/-- The generated type of a choice that is nested in another group. -/
theorem choiceAlts_spec {S : Setup X} {g : Group} {alts : List FieldSpec} (h : S.choiceAlts g = some alts) :
    ∃ m, alts = g.elements.filterMap (specOf S S.seqField m) ∧ (∀ e ∈ g.elements, Supp S S.seqField m e) ∧
      ∀ f ∈ alts, f.min ≤ 1 ∧ f.max = .bounded 1 := by
  unfold Setup.choiceAlts at h
  split at h
  · cases h
  split at h
  · rename_i els he
    cases hm : mapAll S.seqField els with
    | none => rw [hm] at h; cases h
    | some fs =>
      rw [hm] at h
      simp only at h
      split at h
      · rename_i hc
        cases h
        simp only [newGroup, newEnum] at he
        cases hn : newElements S.flags S.types S.fuel (mixedMode S.flags g.isMixed .group).useMixed g.elements with
        | none => rw [hn] at he; cases he
        | some r =>
          obtain ⟨els', a⟩ := r
          rw [hn] at he
          simp only [Option.some.injEq, enumData] at he
          split at he
          · cases he
            obtain ⟨h1, h2⟩ := newElements_spec hn hm
            refine ⟨_, h1, h2, ?_⟩
            intro f hf
            simpa using List.all_eq_true.1 hc f hf
          · split at he
            · cases he
            · split at he <;> cases he
      · cases h
  · cases h

theorem resolved_denotes (T : Types) (i : Ident) : (getResolvedType T i).map (·.variant) = denotes T i := by
  unfold getResolvedType denotes
  cases hr : getResolved T i with
  | none =>
    have hd := (C33_resolved_iff_defined T i).1 hr
    rw [res_undefined hd]
    cases hg : Assoc.get T i with
    | none => rfl
    | some ty => exact absurd ⟨ty, hg⟩ hd
  | some r =>
    obtain ⟨j, ty⟩ := r
    obtain ⟨p, _, _, h, _⟩ := (C33_resolved_is_end_of_chain T i j ty).1 hr
    have hj : res T i = j := by simp [res, getResolvedIdent, hr]
    rw [hj, h]
    rfl

/-- `new_complex` in terms of what the content stands for. -/
theorem newComplex_eq (fl : GFlags) (T : Types) (fuel : Nat) (c : Complex) (g : Ident) (hg : c.content = some g) :
    newComplex fl T fuel c =
      match denotes T g with
      | none => newStruct fl T fuel false (mixedMode fl c.isMixed .complex) c.min c.max c.attributes []
      | some (.all x) => newStruct fl T fuel true (mixedMode fl c.isMixed .complex) c.min c.max c.attributes x.elements
      | some (.choice x) => newEnum fl T fuel (mixedMode fl c.isMixed .complex) c.min c.max c.attributes x.elements
      | some (.sequence x) =>
        newStruct fl T fuel false (mixedMode fl c.isMixed .complex) c.min c.max c.attributes x.elements
      | some (.buildIn _) | some (.union _) | some (.enumeration _) | some (.reference _)
      | some (.simple _) | some (.custom _) => some (newSimple fl g c.min c.max c.attributes)
      | some _ => newStruct fl T fuel false (mixedMode fl c.isMixed .complex) c.min c.max c.attributes [] := by
  rw [← resolved_denotes]
  unfold newComplex
  simp only [hg, Option.bind_some]
  cases hr : getResolvedType T g with
  | none => rfl
  | some ty =>
    simp only [Option.map_some]
    cases ty.variant <;> rfl

theorem complexOf_inv {S : Setup X} {c : Complex} {D : StructSpec X} (h : S.complexOf c = some D) :
    c.isDynamic = false ∧ c.isMixed = false ∧ expectedContent S.types c = true ∧
    c.attributes.any Attribute.isAny = false ∧ ∃ d, newComplex S.flags S.types S.fuel c = some d ∧
      S.bodyOf (alternatives S.types c) d = some D.body ∧ mapAll S.attrField d.attributes = some D.attrs := by
  unfold Setup.complexOf at h
  split at h
  · cases h
  · rename_i hc
    simp only [Bool.or_eq_true, not_or, Bool.not_eq_true, Bool.not_eq_true', Bool.not_eq_false] at hc
    cases hn : newComplex S.flags S.types S.fuel c with
    | none => rw [hn] at h; cases h
    | some d =>
      rw [hn] at h
      simp only at h
      cases hb : S.bodyOf (alternatives S.types c) d with
      | none => rw [hb] at h; cases h
      | some b =>
        cases ha : mapAll S.attrField d.attributes with
        | none => rw [hb, ha] at h; cases h
        | some as =>
          rw [hb, ha] at h
          cases h
          exact ⟨hc.1.1.1, hc.1.1.2, hc.1.2, hc.2, d, rfl, hb, ha⟩

/-- A type for a sequence or `xs:all`. -/
theorem structData_body {S : Setup X} {all : Bool} {alts : List Element} {mn : Nat} {mx : MaxOccurs}
    {ats : List DAttribute} {anyAttr : Bool} {els : List DElement} {allowAny : Bool} {b : Body}
    (hb : S.bodyOf alts (structData S.flags all .none mn mx ats anyAttr els allowAny) = some b) :
    (structData S.flags all .none mn mx ats anyAttr els allowAny).attributes = ats ∧
    ((fromOccurs mn mx = .none ∧ b = .seq []) ∨
      (allowAny = false ∧ els = [] ∧ b = .seq []) ∨
      (fromOccurs mn mx = .single ∧ allowAny = false ∧ els ≠ [] ∧
        ((all = false ∧ ∃ fs, mapAll S.seqField els = some fs ∧ b = .seq fs) ∨
          (all = true ∧ ∃ fs, mapAll S.elementField els = some fs ∧ b = .all fs)))) := by
  unfold structData at hb ⊢
  by_cases hf : fromOccurs mn mx = .single ∧ S.flags.flattenStruct = true
  · have hx : (if MixedMode.none = MixedMode.complex then textBefore :: els else els) = els := if_neg (by simp)
    simp only [if_pos hf, hx] at hb ⊢
    by_cases he : els = []
    · subst he
      rw [if_pos rfl] at hb
      refine ⟨rfl, Or.inr (Or.inl ?_)⟩
      cases anyAttr <;> cases allowAny <;> simp [Setup.bodyOf] at hb
      exact ⟨rfl, rfl, hb.symm⟩
    · rw [if_neg he] at hb
      refine ⟨rfl, Or.inr (Or.inr ⟨hf.1, ?_⟩)⟩
      cases all <;> cases anyAttr <;> cases allowAny <;> simp [Setup.bodyOf, groupMode] at hb
      · obtain ⟨fs, h1, rfl⟩ := hb
        exact ⟨rfl, he, Or.inl ⟨rfl, fs, h1, rfl⟩⟩
      · obtain ⟨fs, h1, rfl⟩ := hb
        exact ⟨rfl, he, Or.inr ⟨rfl, fs, h1, rfl⟩⟩
  · rw [if_neg hf] at hb ⊢
    by_cases hn : fromOccurs mn mx = .none ∨ els = []
    · rw [if_pos hn] at hb ⊢
      refine ⟨rfl, ?_⟩
      cases anyAttr <;> cases allowAny <;> simp [Setup.bodyOf] at hb
      rcases hn with hn | hn
      · exact Or.inl ⟨hn, hb.symm⟩
      · exact Or.inr (Or.inl ⟨rfl, hn, hb.symm⟩)
    · rw [if_neg hn] at hb
      rw [if_neg (by simp)] at hb
      simp [Setup.bodyOf] at hb

/-- The generated type of a sequence that is nested in another group. -/
theorem groupFields_spec {S : Setup X} {g : Group} {fs : List FieldSpec} (h : S.groupFields g = some fs) :
    fs = g.elements.filterMap (specOf S S.seqField false) ∧ (∀ e ∈ g.elements, Supp S S.seqField false e) ∧
      ∃ f ∈ fs, 1 ≤ f.min := by
  unfold Setup.groupFields at h
  split at h
  · cases h
  rename_i hmix
  have hmix : g.isMixed = false := by simpa using hmix
  have hm : mixedMode S.flags g.isMixed .group = .none := by simp [mixedMode, hmix]
  split at h
  · rename_i fs' he
    split at h
    · rename_i hany
      cases h
      obtain ⟨d, hd, hb⟩ := Option.bind_eq_some_iff.1 he
      simp only [newGroup, newStruct, hm] at hd
      have hu : MixedMode.none.useMixed = false := rfl
      rw [hu] at hd
      cases hn : newElements S.flags S.types S.fuel false g.elements with
      | none => rw [hn] at hd; cases hd
      | some r =>
        obtain ⟨els, a⟩ := r
        rw [hn] at hd
        simp only [Option.some.injEq] at hd
        subst hd
        obtain ⟨_, h9⟩ := structData_body hb
        have hne : ∃ f ∈ fs, 1 ≤ f.min := by
          obtain ⟨f, h1, h2⟩ := List.any_eq_true.1 hany
          exact ⟨f, h1, by simpa using h2⟩
        have hnil : fs ≠ [] := by
          obtain ⟨f, h1, _⟩ := hne
          intro h0
          rw [h0] at h1
          cases h1
        rcases h9 with ⟨_, h9⟩ | ⟨_, _, h9⟩ | ⟨_, rfl, _, ⟨_, fs', hf, hb'⟩ | ⟨h9, _⟩⟩
        · cases h9; exact absurd rfl hnil
        · cases h9; exact absurd rfl hnil
        · cases hb'
          obtain ⟨h11, h12⟩ := newElements_spec hn hf
          exact ⟨h11, h12, hne⟩
        · cases h9
    · cases h
  · cases h

/-- A type for a choice. -/
theorem enumData_body {S : Setup X} {alts : List Element} {mn : Nat} {mx : MaxOccurs}
    {ats : List DAttribute} {anyAttr : Bool} {els : List DElement} {allowAny : Bool} {b : Body}
    (hb : S.bodyOf alts (enumData S.flags .none mn mx ats anyAttr els allowAny) = some b) :
    (enumData S.flags .none mn mx ats anyAttr els allowAny).attributes = ats ∧
    ((fromOccurs mn mx = .none ∧ b = .seq []) ∨
      (allowAny = false ∧ els = [] ∧ b = .seq []) ∨
      ∃ fs, allowAny = false ∧ mapAll S.seqField els = some fs ∧
        ((fromOccurs mn mx = .single ∧ b = .enum fs ∧ ats = []) ∨ b = .choice fs mn mx)) := by
  unfold enumData at hb ⊢
  by_cases hf : fromOccurs mn mx = .single ∧ MixedMode.none ≠ MixedMode.complex ∧ ats = [] ∧ S.flags.flattenEnum = true
  · rw [if_pos hf] at hb ⊢
    refine ⟨hf.2.2.1.symm, Or.inr (Or.inr ?_)⟩
    cases anyAttr <;> cases allowAny <;> simp [Setup.bodyOf] at hb
    obtain ⟨h0, fs, h1, rfl⟩ := hb
    exact ⟨fs, rfl, h1, Or.inl ⟨hf.1, rfl, hf.2.2.1⟩⟩
  · rw [if_neg hf] at hb ⊢
    by_cases hn : fromOccurs mn mx = .none ∨ els = []
    · rw [if_pos hn] at hb ⊢
      refine ⟨rfl, ?_⟩
      cases anyAttr <;> cases allowAny <;> simp [Setup.bodyOf] at hb
      rcases hn with hn | hn
      · exact Or.inl ⟨hn, hb.symm⟩
      · exact Or.inr (Or.inl ⟨rfl, hn, hb.symm⟩)
    · rw [if_neg hn] at hb ⊢
      rw [if_neg (by simp)] at hb ⊢
      refine ⟨rfl, Or.inr (Or.inr ?_)⟩
      cases anyAttr <;> cases allowAny <;> simp [Setup.bodyOf] at hb
      obtain ⟨h0, fs, h1, rfl⟩ := hb
      exact ⟨fs, rfl, h1, Or.inr rfl⟩

/-- The generated type of a complex type with these attributes. -/
structure TypeOf (S : Setup X) (c : Complex) (D : StructSpec X) : Prop where
  attrs : mapAll S.attrField (newAttributes S.flags c.attributes).1 = some D.attrs
  noAny : c.attributes.any Attribute.isAny = false
  notMixed : c.isMixed = false

theorem complexOf_struct {S : Setup X} {c : Complex} {D : StructSpec X} (h : S.complexOf c = some D) {all : Bool}
    {es : List Element} (hc : newComplex S.flags S.types S.fuel c = newStruct S.flags S.types S.fuel all
      (mixedMode S.flags c.isMixed .complex) c.min c.max c.attributes es) :
    TypeOf S c D ∧
    ((fromOccurs c.min c.max = .none ∧ D.body = .seq []) ∨
      (D.body = .seq [] ∧ newElements S.flags S.types S.fuel false es = some ([], false)) ∨
      (fromOccurs c.min c.max = .single ∧
        ((all = false ∧ D.body = .seq (es.filterMap (specOf S S.seqField false)) ∧
            ∀ e ∈ es, Supp S S.seqField false e) ∨
          (all = true ∧ D.body = .all (es.filterMap (specOf S S.elementField false)) ∧
            ∀ e ∈ es, Supp S S.elementField false e)))) := by
  obtain ⟨h1, h2, h3, h4, d, h5, h6, h7⟩ := complexOf_inv h
  rw [h5] at hc
  have hm : mixedMode S.flags c.isMixed .complex = .none := by simp [mixedMode, h2]
  rw [hm] at hc
  unfold newStruct at hc
  have hu : MixedMode.none.useMixed = false := rfl
  rw [hu] at hc
  cases hn : newElements S.flags S.types S.fuel false es with
  | none => rw [hn] at hc; cases hc
  | some r =>
    obtain ⟨els, allowAny⟩ := r
    rw [hn] at hc
    simp only [Option.some.injEq] at hc
    subst hc
    obtain ⟨h8, h9⟩ := structData_body h6
    rw [h8] at h7
    refine ⟨⟨h7, h4, h2⟩, ?_⟩
    rcases h9 with h9 | ⟨rfl, rfl, h9⟩ | ⟨h9, rfl, _, h10⟩
    · exact Or.inl h9
    · exact Or.inr (Or.inl ⟨h9, rfl⟩)
    · refine Or.inr (Or.inr ⟨h9, ?_⟩)
      rcases h10 with ⟨ha, fs, hf, hb⟩ | ⟨ha, fs, hf, hb⟩
      · obtain ⟨h11, h12⟩ := newElements_spec hn hf
        exact Or.inl ⟨ha, by rw [hb, h11], h12⟩
      · obtain ⟨h11, h12⟩ := newElements_spec hn hf
        exact Or.inr ⟨ha, by rw [hb, h11], h12⟩

theorem complexOf_enum {S : Setup X} {c : Complex} {D : StructSpec X} (h : S.complexOf c = some D)
    {es : List Element} (hc : newComplex S.flags S.types S.fuel c = newEnum S.flags S.types S.fuel
      (mixedMode S.flags c.isMixed .complex) c.min c.max c.attributes es) (ha : alternatives S.types c = es) :
    TypeOf S c D ∧
    ((fromOccurs c.min c.max = .none ∧ D.body = .seq []) ∨
      (D.body = .seq [] ∧ newElements S.flags S.types S.fuel false es = some ([], false)) ∨
      ((∀ e ∈ es, Supp S S.seqField false e) ∧
        ((fromOccurs c.min c.max = .single ∧ D.attrs = [] ∧
            D.body = .enum (es.filterMap (specOf S S.seqField false))) ∨
          D.body = .choice (es.filterMap (specOf S S.seqField false)) c.min c.max))) := by
  obtain ⟨h1, h2, h3, h4, d, h5, h6, h7⟩ := complexOf_inv h
  rw [h5] at hc
  have hm : mixedMode S.flags c.isMixed .complex = .none := by simp [mixedMode, h2]
  rw [hm] at hc
  unfold newEnum at hc
  have hu : MixedMode.none.useMixed = false := rfl
  rw [hu] at hc
  cases hn : newElements S.flags S.types S.fuel false es with
  | none => rw [hn] at hc; cases hc
  | some r =>
    obtain ⟨els, allowAny⟩ := r
    rw [hn] at hc
    simp only [Option.some.injEq] at hc
    subst hc
    rw [ha] at h6
    obtain ⟨h8, h9⟩ := enumData_body h6
    rw [h8] at h7
    refine ⟨⟨h7, h4, h2⟩, ?_⟩
    rcases h9 with h9 | ⟨rfl, rfl, h9⟩ | ⟨fs, rfl, hf, h10⟩
    · exact Or.inl h9
    · exact Or.inr (Or.inl ⟨h9, rfl⟩)
    · obtain ⟨h11, h12⟩ := newElements_spec hn hf
      refine Or.inr (Or.inr ⟨h12, ?_⟩)
      subst h11
      rcases h10 with ⟨h13, h15, h16⟩ | h14
      · rw [h16] at h7
        simp only [mapAll, Option.some.injEq] at h7
        exact Or.inl ⟨h13, h7.symm, h15⟩
      · exact Or.inr h14

theorem complexOf_simple {S : Setup X} {c : Complex} {D : StructSpec X} (h : S.complexOf c = some D) {g : Ident}
    (hc : newComplex S.flags S.types S.fuel c = some (newSimple S.flags g c.min c.max c.attributes)) :
    TypeOf S c D ∧ c.min = 1 ∧ c.max = .bounded 1 ∧ ∃ k, S.tyRef g = some (.simple k) ∧ D.body = .text k := by
  obtain ⟨h1, h2, h3, h4, d, h5, h6, h7⟩ := complexOf_inv h
  rw [h5] at hc
  simp only [Option.some.injEq, newSimple] at hc
  subst hc
  refine ⟨⟨h7, h4, h2⟩, ?_⟩
  cases hany : (newAttributes S.flags c.attributes).2 with
  | true => rw [hany] at h6; simp [Setup.bodyOf] at h6
  | false =>
    rw [hany] at h6
    simp only [Setup.bodyOf] at h6
    split at h6
    · rename_i ho
      cases ht : S.tyRef g with
      | none => rw [ht] at h6; cases h6
      | some ty =>
        rw [ht] at h6
        cases ty with
        | simple k =>
          cases h6' : D.body with
          | text k' => rw [h6'] at h6; cases h6; exact ⟨ho.1, ho.2, k, rfl, rfl⟩
          | _ => rw [h6'] at h6; cases h6
        | _ => cases h6
    · cases h6

/-! ## Elements of the generated types -/

theorem doc_nonempty {G : Schema X} {ty : TyRef} {p : Pos} {evs : List Event} {v : Val X} (h : Doc G ty p evs v) :
    evs ≠ [] := by
  induction h with
  | variant _ _ _ _ _ ih => exact ih
  | @group k D es p items hD hb hfirst hpad hi ho hc hn hd ih =>
    obtain ⟨i, evs, v, r, rfl⟩ := hfirst
    have hlt := hi i evs v (List.mem_cons_self ..)
    have := ih p i evs v es[i] ⟨[], r, rfl, rfl⟩ (List.getElem?_eq_getElem hlt)
    intro h0
    exact this (List.append_eq_nil_iff.1 (show evs ++ itemEvents r = [] from h0)).1
  | _ => simp

theorem no_events {V : Type} {R : Nat → Pos → List Event → V → Prop} (h : ∀ j q evs v, R j q evs v → evs ≠ []) {p : Pos}
    {items : List (Item V)} (he : Each R p items) (hn : itemEvents items = []) : items = [] := by
  cases items with
  | nil => rfl
  | cons x r =>
    cases x with
    | pad e => cases hn
    | child j evs v =>
      have h1 : evs ++ itemEvents r = [] := hn
      exact absurd (List.append_eq_nil_iff.1 h1).1 (h _ _ _ _ he.1)

theorem variants_length (items : List (Item (Val X))) :
    (variantsOf Val.alt items).length = (childFields items).length := by
  induction items with
  | nil => rfl
  | cons x r ih =>
    cases x with
    | pad e => exact ih
    | child j evs v => exact congrArg Nat.succ ih

/-- The elements can be put into these fields, in any order. -/
def InAny (S : Setup X) (fs : List FieldSpec) (ns : List Node) : Prop :=
  Places S ns fun p items =>
    Each (fun j q evs v => ∃ f, fs[j]? = some f ∧ FieldOk S f q evs v) p items ∧
    ∀ (i : Nat) f, fs[i]? = some f → Allows f.min f.max ((childFields items).count i)

/-- The elements can be put into these variants. -/
def InAlts (S : Setup X) (fs : List FieldSpec) (C : Nat → Prop) (ns : List Node) : Prop :=
  Places S ns fun p items =>
    Each (fun j q evs v => ∃ f, fs[j]? = some f ∧ FieldOk S f q evs v) p items ∧ C (childFields items).length

theorem perm_reindex {α : Type} {l l' : List α} (h : l.Perm l') :
    ∃ σ τ : Nat → Nat, (∀ i, τ (σ i) = i) ∧ (∀ i, σ (τ i) = i) ∧ ∀ i : Nat, l[i]? = l'[σ i]? := by
  induction h with
  | nil => exact ⟨id, id, fun _ => rfl, fun _ => rfl, fun _ => rfl⟩
  | @cons x l l' _ ih =>
    obtain ⟨σ, τ, h1, h2, h3⟩ := ih
    refine ⟨fun i => match i with | 0 => 0 | i + 1 => σ i + 1, fun i => match i with | 0 => 0 | i + 1 => τ i + 1, ?_, ?_, ?_⟩
    · intro i; cases i with
      | zero => rfl
      | succ i => exact congrArg (· + 1) (h1 i)
    · intro i; cases i with
      | zero => rfl
      | succ i => exact congrArg (· + 1) (h2 i)
    · intro i; cases i with
      | zero => rfl
      | succ i => exact h3 i
  | swap x y l =>
    refine ⟨fun i => match i with | 0 => 1 | 1 => 0 | i + 2 => i + 2,
      fun i => match i with | 0 => 1 | 1 => 0 | i + 2 => i + 2, ?_, ?_, ?_⟩ <;>
    · intro i
      match i with
      | 0 => rfl
      | 1 => rfl
      | i + 2 => rfl
  | trans _ _ ih₁ ih₂ =>
    obtain ⟨σ, τ, h1, h2, h3⟩ := ih₁
    obtain ⟨σ', τ', h4, h5, h6⟩ := ih₂
    refine ⟨fun i => σ' (σ i), fun i => τ (τ' i), fun i => ?_, fun i => ?_, fun i => ?_⟩
    · show τ (τ' (σ' (σ i))) = i
      rw [h4, h1]
    · show σ' (σ (τ (τ' i))) = i
      rw [h2, h5]
    · rw [h3, h6]

theorem count_reindex {σ τ : Nat → Nat} (h1 : ∀ i, τ (σ i) = i) (h2 : ∀ i, σ (τ i) = i) (l : List Nat) (i : Nat) :
    (l.map σ).count i = l.count (τ i) := by
  induction l with
  | nil => rfl
  | cons x l ih =>
    rw [List.map_cons]
    by_cases h : x = τ i
    · subst h
      rw [h2, List.count_cons_self, List.count_cons_self, ih]
    · rw [List.count_cons_of_ne h, List.count_cons_of_ne (fun h' => h (by rw [← h', h1])), ih]

theorem inAny_perm {S : Setup X} {fs fs' : List FieldSpec} {ns : List Node} (hp : fs'.Perm fs)
    (h : InFields S fs' ns) : InAny S fs ns := by
  obtain ⟨σ, τ, h1, h2, h3⟩ := perm_reindex hp
  refine places_map σ id h ?_
  rintro p l ⟨h4, _, h5⟩
  refine ⟨each_remap ?_ h4, ?_⟩
  · rintro j q evs v ⟨f, hf, h⟩
    exact ⟨f, by rw [← h3]; exact hf, h⟩
  · intro i f hf
    rw [remap_fields, count_reindex h1 h2]
    exact h5 _ f (by rw [h3, h2]; exact hf)

theorem not_elem_text {s : Txt} : ¬ IsElem (.text s) := by
  rintro ⟨_, _, _, _, h⟩
  cases h

/-- The tags of the element have valid attributes. -/
def TagsOk (S : Setup X) (D : StructSpec X) (as : List (PropIdent × Txt)) : Prop :=
  ∀ scope (t : Tag), AttrsRender S scope t.attrs as →
    ∃ vs, ValidTag scope (attrTable S.compile D.attrs) t.attrs vs ∧ NamesOk scope D.attrs t

theorem fieldOk_nonempty {S : Setup X} {fs : List FieldSpec} (j : Nat) (q : Pos) (evs : List Event) (v : Val X)
    (h : ∃ f, fs[j]? = some f ∧ FieldOk S f q evs v) : evs ≠ [] := by
  obtain ⟨f, _, h⟩ := h
  exact doc_nonempty h.2

/-- The ways to write down an element with element content. -/
theorem body_places {S : Setup X} {p : Pos} {as : List (PropIdent × Txt)} {kids : List Node} {evs : List Event}
    {Q : Pos → List (Item (Val X)) → Prop} (hp : Places S kids Q) (h : RendersBody S p as kids evs) :
    (∃ t items, evs = .start t :: (itemEvents items ++ [.end_ t.name]) ∧
      AttrsRender S (posScope (posTrack p (.start t))) t.attrs as ∧ Q (posTrack p (.start t)) items) ∨
    ∃ t items, evs = [.empty t] ∧ AttrsRender S (posScope (posTrack p (.empty t))) t.attrs as ∧
      itemEvents items = [] ∧ Q p items := by
  rcases h with ⟨t, items, rfl, ha, he, hv⟩ | ⟨t, pieces, s, rfl, _, _, _, rfl⟩ | ⟨t, rfl, ha, rfl | rfl⟩
  · obtain ⟨items', h1, h2⟩ := hp.2 _ _ he hv
    exact Or.inl ⟨t, items', by rw [h1], ha, h2⟩
  · exact absurd (hp.1 _ (List.mem_singleton.2 rfl)) not_elem_text
  · obtain ⟨items', h1, h2⟩ := hp.2 p [] trivial rfl
    exact Or.inr ⟨t, items', rfl, ha, h1, h2⟩
  · exact absurd (hp.1 _ (List.mem_singleton.2 rfl)) not_elem_text

theorem child_index {S : Setup X} {fs : List FieldSpec} {p : Pos} {items : List (Item (Val X))}
    (he : Each (fun j q evs v => ∃ f, fs[j]? = some f ∧ FieldOk S f q evs v) p items) :
    ∀ i evs v, .child i evs v ∈ items → i < fs.length := by
  intro i evs v h
  obtain ⟨l, r, rfl⟩ := List.append_of_mem h
  obtain ⟨f, hf, _⟩ := each_at he
  exact (List.getElem?_eq_some_iff.1 hf).1

theorem child_ok {S : Setup X} {fs : List FieldSpec} {p : Pos} {items : List (Item (Val X))}
    (he : Each (fun j q evs v => ∃ f, fs[j]? = some f ∧ FieldOk S f q evs v) p items) {q : Pos} {i : Nat}
    {evs : List Event} {v : Val X} {f : FieldSpec} (h : ChildAt p items q i evs v) (hf : fs[i]? = some f) :
    FieldOk S f q evs v := by
  obtain ⟨l, r, rfl, rfl⟩ := h
  obtain ⟨f', hf', h⟩ := each_at he
  rw [hf] at hf'; cases hf'
  exact h

theorem doc_seq {S : Setup X} {k : Nat} {D : StructSpec X} {es : List FieldSpec}
    (hD : S.compile.structs[k]? = some D) (hb : D.body = .seq es) {as : List (PropIdent × Txt)} {kids : List Node}
    (hin : InFields S es kids) (ha : TagsOk S D as) {p : Pos} {evs : List Event} (h : RendersBody S p as kids evs) :
    ∃ v, Doc S.compile (.struct k) p evs v := by
  rcases body_places hin h with ⟨t, items, rfl, hr, he, ho, hc⟩ | ⟨t, items, rfl, hr, hz, he, _, hc⟩
  · obtain ⟨vs, hvs⟩ := ha _ _ hr
    exact ⟨_, .seq hD hb hvs (each_pad he) (child_index he) ho
      (fun i f hf => by rw [valuesOf_count]; exact hc i f hf)
      (fun q i evs v f hq hf hne => (child_ok he hq hf).1 hne) (fun q i evs v f hq hf => (child_ok he hq hf).2)⟩
  · obtain ⟨vs, hvs⟩ := ha _ _ hr
    have := no_events fieldOk_nonempty he hz
    subst this
    refine ⟨_, .fieldsEmpty hD (Or.inl hb) hvs ?_⟩
    intro f hf
    obtain ⟨i, hi⟩ := List.getElem?_of_mem hf
    exact Nat.le_zero.1 (hc i f hi).1

theorem doc_all {S : Setup X} {k : Nat} {D : StructSpec X} {es : List FieldSpec}
    (hD : S.compile.structs[k]? = some D) (hb : D.body = .all es) (hv : ∀ f ∈ es, ∀ j, f.ty ≠ .variant j)
    {as : List (PropIdent × Txt)} {kids : List Node}
    (hin : InAny S es kids) (ha : TagsOk S D as) {p : Pos} {evs : List Event} (h : RendersBody S p as kids evs) :
    ∃ v, Doc S.compile (.struct k) p evs v := by
  rcases body_places hin h with ⟨t, items, rfl, hr, he, hc⟩ | ⟨t, items, rfl, hr, hz, he, hc⟩
  · obtain ⟨vs, hvs⟩ := ha _ _ hr
    exact ⟨_, .all hD hb hvs (each_pad he) (child_index he)
      (fun i f hf => by rw [valuesOf_count]; exact hc i f hf)
      (fun q i evs v f hq hf => (child_ok he hq hf).1 (hv f (List.mem_of_getElem? hf)))
      (fun q i evs v f hq hf => (child_ok he hq hf).2)⟩
  · obtain ⟨vs, hvs⟩ := ha _ _ hr
    have := no_events fieldOk_nonempty he hz
    subst this
    refine ⟨_, .fieldsEmpty hD (Or.inr hb) hvs ?_⟩
    intro f hf
    obtain ⟨i, hi⟩ := List.getElem?_of_mem hf
    exact Nat.le_zero.1 (hc i f hi).1

theorem doc_choice {S : Setup X} {k : Nat} {D : StructSpec X} {es : List FieldSpec} {mn : Nat} {mx : MaxOccurs}
    (hD : S.compile.structs[k]? = some D) (hb : D.body = .choice es mn mx)
    {as : List (PropIdent × Txt)} {kids : List Node}
    (hin : InAlts S es (Allows mn mx) kids) (ha : TagsOk S D as) {p : Pos} {evs : List Event}
    (h : RendersBody S p as kids evs) : ∃ v, Doc S.compile (.struct k) p evs v := by
  rcases body_places hin h with ⟨t, items, rfl, hr, he, hc⟩ | ⟨t, items, rfl, hr, hz, he, hc⟩
  · obtain ⟨vs, hvs⟩ := ha _ _ hr
    exact ⟨_, .choice hD hb hvs (each_pad he) (child_index he) (by rw [variants_length]; exact hc)
      (fun q i evs v f hq hf hne => (child_ok he hq hf).1 hne)
      (fun q i evs v f hq hf => (child_ok he hq hf).2)⟩
  · obtain ⟨vs, hvs⟩ := ha _ _ hr
    have := no_events fieldOk_nonempty he hz
    subst this
    have hm : mn = 0 := Nat.le_zero.1 hc.1
    subst hm
    exact ⟨_, .choiceEmpty hD hb hvs⟩

theorem doc_enum {S : Setup X} {k : Nat} {D : StructSpec X} {es : List FieldSpec} {i : Nat} {f : FieldSpec} {c : Nat}
    (hD : S.compile.structs[k]? = some D) (hb : D.body = .enum es) (hf : es[i]? = some f)
    {e : Element} (hv : AltFilled S.types e) (hda : D.attrs = []) {as : List (PropIdent × Txt)} {kids : List Node}
    (hin : Repeats S e f c kids) (hc : Allows f.min f.max c) (hc0 : c ≠ 0) (ha : TagsOk S D as) {p : Pos}
    {evs : List Event} (h : RendersBody S p as kids evs) : ∃ v, Doc S.compile (.struct k) p evs v := by
  have hin' : Places S kids fun p items =>
      Each (fun j q evs v => j = i ∧ FieldOk S f q evs v) p items ∧ (childFields items).length = c := by
    refine places_map (fun _ => i) id hin ?_
    rintro p l ⟨h1, _, h3⟩
    refine ⟨each_remap (fun j q evs v h => ⟨rfl, h.2⟩) h1, ?_⟩
    rw [remap_fields, List.length_map]
    exact h3 (Or.inr hv)
  rcases body_places hin' h with ⟨t, items, rfl, hr, he, hl⟩ | ⟨t, items, rfl, hr, hz, he, hl⟩
  · obtain ⟨vs, hvs⟩ := ha _ _ hr
    rw [hda] at hvs
    have hvs' : vs = [] := by
      have := hvs.1.length
      exact List.length_eq_zero_iff.1 (by simpa [attrTable] using this)
    subst hvs'
    have hcnt : (valuesOf i items).length = c := by
      rw [valuesOf_count, ← hl]
      exact List.count_eq_length.2 fun j hj => (each_fields (φ := fun j => i = j) (fun _ _ _ _ h => h.1.symm) he j hj)
    refine ⟨_, .enum hD hb hf hvs (each_pad he) ?_ ?_ (by rw [hcnt]; exact hc) ?_ ?_⟩
    · intro j evs v h
      obtain ⟨l, r, rfl⟩ := List.append_of_mem h
      exact (each_at he).1
    · intro h0
      rw [h0] at hcnt
      exact hc0 hcnt.symm
    · rintro q j evs v ⟨l, r, rfl, rfl⟩
      exact (each_at he).2.1
    · rintro q j evs v ⟨l, r, rfl, rfl⟩
      exact (each_at he).2.2
  · have := no_events (fun j q evs v (h : j = i ∧ FieldOk S f q evs v) => doc_nonempty h.2.2) he hz
    subst this
    exact absurd hl.symm hc0

theorem doc_text {S : Setup X} {P : Lex} (hp : S.ReadsTexts P) {k : Nat} {D : StructSpec X} {g : Ident} {j : Nat}
    (hD : S.compile.structs[k]? = some D) (hb : D.body = .text j) (hg : S.tyRef g = some (.simple j)) {s : Txt}
    (hs : Valid P S.types (.text g s)) {as : List (PropIdent × Txt)} (ha : TagsOk S D as) {p : Pos}
    {evs : List Event} (h : RendersBody S p as [.text s] evs) : ∃ v, Doc S.compile (.struct k) p evs v := by
  obtain ⟨_, hparse⟩ := tyRef_simple hg
  obtain ⟨⟨x, hx⟩, y, hy⟩ := hp g s hs
  rw [← hparse] at hx hy
  rcases h with ⟨t, items, rfl, hr, he, hv⟩ | ⟨t, pieces, s', rfl, hr, hl, hc, hk⟩ | ⟨t, rfl, hr, hk | hk⟩
  · obtain ⟨l, j', evs, r, rfl, _, _⟩ := allValues_single hv
    exact absurd (renders_elem (each_at he)) not_elem_text
  · obtain ⟨vs, hvs⟩ := ha _ _ hr
    cases hk
    exact ⟨_, .text hD hb hvs hl hc hy⟩
  · cases hk
  · obtain ⟨vs, hvs⟩ := ha _ _ hr
    cases hk
    exact ⟨_, .textEmpty hD hb hvs hx⟩

/-- The names on a tag. -/
theorem render_names {S : Setup X} {scope : Str → Option Str} {attrs : List Attr} {as : List (PropIdent × Txt)}
    (h : AttrsRender S scope attrs as) : ∀ a ∈ attrs, isXmlnsKey a.key = true ∨ globallyAllowed scope a = true ∨
      ∃ n v, (n, v) ∈ as ∧ Means scope a.key (S.attributeName n) := by
  induction h with
  | nil => intro a ha; cases ha
  | xmlns hx _ ih =>
    intro a ha
    rcases List.mem_cons.1 ha with rfl | ha
    · exact Or.inl hx
    · exact ih a ha
  | xsi _ hg _ ih =>
    intro a ha
    rcases List.mem_cons.1 ha with rfl | ha
    · exact Or.inr (Or.inl hg)
    · exact ih a ha
  | attr _ hm _ _ _ ih =>
    intro a ha
    rcases List.mem_cons.1 ha with rfl | ha
    · exact Or.inr (Or.inr ⟨_, _, List.mem_cons_self .., hm⟩)
    · rcases ih a ha with h | h | ⟨n, v, h1, h2⟩
      · exact Or.inl h
      · exact Or.inr (Or.inl h)
      · exact Or.inr (Or.inr ⟨n, v, List.mem_cons_of_mem _ h1, h2⟩)

/-- An element without attributes. -/
theorem render_none {S : Setup X} {scope : Str → Option Str} {t : Tag} (h : AttrsRender S scope t.attrs []) :
    NamesOk (X := X) scope [] t := by
  intro a ha
  rcases render_names h a ha with h | h | ⟨n, v, h, _⟩
  · exact Or.inl h
  · exact Or.inr (Or.inl h)
  · cases h

theorem doc_simple {S : Setup X} {P : Lex} (hp : S.ReadsTexts P) {g : Ident} {j : Nat}
    (hg : S.tyRef g = some (.simple j)) {s : Txt} (hs : Valid P S.types (.text g s)) {p : Pos}
    {evs : List Event} (h : RendersBody S p [] [.text s] evs) : ∃ v, Doc S.compile (.simple j) p evs v := by
  obtain ⟨_, hparse⟩ := tyRef_simple hg
  obtain ⟨⟨x, hx⟩, y, hy⟩ := hp g s hs
  rw [← hparse] at hx hy
  rcases h with ⟨t, items, rfl, hr, he, hv⟩ | ⟨t, pieces, s', rfl, hr, hl, hc, hk⟩ | ⟨t, rfl, hr, hk | hk⟩
  · obtain ⟨l, j', evs, r, rfl, _, _⟩ := allValues_single hv
    exact absurd (renders_elem (each_at he)) not_elem_text
  · cases hk
    exact ⟨_, .simple (render_none hr) hl hc hy⟩
  · cases hk
  · cases hk
    exact ⟨_, .simpleEmpty (render_none hr) hx⟩

/-! ## Documents -/

theorem not_target_complex {c : Complex} : (Variant.complex c).target = none := rfl

theorem tyRef_complex {S : Setup X} (hsup : S.Supported) {i : Ident} {ty : MetaType} {c : Complex} {t : TyRef}
    (hg : Assoc.get S.types i = some ty) (hv : ty.variant = .complex c) (h : S.tyRef i = some t) :
    ∃ k D, t = .struct k ∧ S.complexOf c = some D ∧ S.compile.structs[k]? = some D := by
  have hd := denotes_not_synonym hg (by rw [hv]; rfl)
  rw [hv] at hd
  have hi : res S.types i = i := by
    apply res_of_not_synonym
    intro k hk
    obtain ⟨ty', h1, h2⟩ := (synonym_iff S.types i k).1 hk
    rw [hg] at h1; cases h1; rw [hv] at h2; cases h2
  unfold Setup.tyRef at h
  rw [hd, hi] at h
  simp only at h
  split at h
  · rename_i hu
    simp only [Option.some.injEq] at h
    obtain ⟨D, hD⟩ := Option.isSome_iff_exists.1 ((hsup i ty (List.mem_of_getElem? (indexOf_get hg)) hu).1 c hv)
    refine ⟨_, D, h.symm, hD, ?_⟩
    show (S.types.map fun x => S.structOf x.2)[_]? = _
    rw [List.getElem?_map, indexOf_get hg]
    simp [Setup.structOf, hv, hD]
  · cases h

theorem tyRef_filled {S : Setup X} (hfill : S.Filled) {i : Ident} {ty : MetaType} {c : Complex} {t : TyRef} {g : Ident}
    (hg : Assoc.get S.types i = some ty) (hv : ty.variant = .complex c) (h : S.tyRef i = some t) (hc : c.content = some g) :
    ∀ v, denotes S.types g = some v → GroupFilled S.types v ∧ ∀ x, v = .choice x → c.min = 0 ∨ neverEmpty x.elements = true := by
  have hd := denotes_not_synonym hg (by rw [hv]; rfl)
  rw [hv] at hd
  have hi : res S.types i = i := by
    apply res_of_not_synonym
    intro k hk
    obtain ⟨ty', h1, h2⟩ := (synonym_iff S.types i k).1 hk
    rw [hg] at h1; cases h1; rw [hv] at h2; cases h2
  unfold Setup.tyRef at h
  rw [hd, hi] at h
  simp only at h
  split at h
  · rename_i hu
    exact fun v hd' => (hfill i ty (List.mem_of_getElem? (indexOf_get hg)) hu).2 c g v hv hc hd'
  · cases h

/-- There is a field for every attribute of a valid element. -/
theorem declared_name {S : Setup X} {P : Lex} {c : Complex} {D : StructSpec X} (ht : TypeOf S c D)
    {as : List (PropIdent × Txt)} (hs : AttrsShape P c.attributes as) {n : PropIdent} {v : Txt} (hn : (n, v) ∈ as) :
    ∃ b ∈ D.attrs, b.name = S.attributeName n := by
  rcases hs.2 n v hn with ⟨a, ha, h1, h2, t, h3⟩ | ⟨a, ha, m, hm, _⟩
  · obtain ⟨i, hi⟩ := List.getElem?_of_mem (newAttributes_of (fl := S.flags) ha h2 h3)
    obtain ⟨b, hb, hf⟩ := (mapAll_get ht.attrs).2 i _ hi
    obtain ⟨_, _, _, hname, _⟩ := attrField_spec hf
    exact ⟨b, List.mem_of_getElem? hb, by rw [hname]; exact congrArg _ h1⟩
  · have := ht.noAny
    simp only [List.any_eq_false] at this
    exact absurd (by simp [Attribute.isAny, hm]) (this a ha)

theorem tagsOk_of {S : Setup X} {P : Lex} {d : Nat} (hshape : S.compile.Nested d) (hfree : S.XsiFree) (hp : S.ReadsTexts P) {c : Complex}
    {k : Nat} {D : StructSpec X} (ht : TypeOf S c D) (hD : S.compile.structs[k]? = some D) {as : List (PropIdent × Txt)}
    (hs : AttrsShape P c.attributes as)
    (hv : ∀ a ∈ c.attributes, ∀ t, a.variant = .type_ t → ∀ v, (a.ident, v) ∈ as → Valid P S.types (.text t v)) :
    TagsOk S D as := by
  intro scope t hr
  have hm := List.mem_of_getElem? hD
  obtain ⟨vs, h⟩ := attrs_valid hp ht.attrs ht.noAny (fun a ha => (hshape.attrPlain D hm a ha).1)
    (hshape.attrDistinct D hm) (hfree D hm) hs hv hr
  refine ⟨vs, h, fun a ha => ?_⟩
  rcases render_names hr a ha with h | h | ⟨n, v, hn, hk⟩
  · exact Or.inl h
  · exact Or.inr (Or.inl h)
  · obtain ⟨b, hb, hname⟩ := declared_name ht hs hn
    exact Or.inr (Or.inr ⟨b, hb, by rw [hname]; exact hk⟩)

/-- The particles of a group, put into fields. -/
def GroupGoal (S : Setup X) (i : Ident) (ns : List Node) : Prop :=
  match denotes S.types i with
  | some (.sequence g) => ∀ m, (∀ e ∈ g.elements, Supp S S.seqField m e) →
      (∀ e ∈ g.elements, ∀ f, specOf S S.seqField m e = some f → NestedFilled S.types e) →
      InFields S (g.elements.filterMap (specOf S S.seqField m)) ns
  | some (.all g) => ∀ m, (∀ e ∈ g.elements, Supp S S.elementField m e) →
      InAny S (g.elements.filterMap (specOf S S.elementField m)) ns
  | some (.choice g) => ∃ e ∈ g.elements, ∃ k, Allows e.min e.max k ∧ (k = 0 → ns = []) ∧
      (NestedFilled S.types e → ∀ m f, specOf S S.seqField m e = some f → Repeats S e f k ns)
  | some (.reference r) => r.isSingle = true
  | some (.complex _) | some (.dynamic _) => True
  | _ => False

/-- The motive of the induction. -/
def Goal (S : Setup X) : Judge → Prop
  | .text i _ => ∃ v, denotes S.types i = some v ∧ (Variant.isText v = true ∨ ∃ r, v = .reference r ∧ r.isSingle = true)
  | .value i xsi as kids => xsi = none → ∀ ty, S.tyRef i = some ty → ∀ p evs, RendersBody S p as kids evs →
      ∃ v, Doc S.compile ty p evs v
  | .group i ns => GroupGoal S i ns
  | .particle e ns => NestedFilled S.types e → ∀ m f, specOf S S.seqField m e = some f → Repeats S e f 1 ns
  | .times e k ns => (k = 0 → ns = []) ∧
      (NestedFilled S.types e → ∀ m f, specOf S S.seqField m e = some f → Repeats S e f k ns)
  | .inOrder es ns => ∀ m, (∀ e ∈ es, Supp S S.seqField m e) →
      (∀ e ∈ es, ∀ f, specOf S S.seqField m e = some f → NestedFilled S.types e) → InFields S (es.filterMap (specOf S S.seqField m)) ns
  | .groupTimes i k ns => (k = 0 → ns = []) ∧ (k = 1 → GroupGoal S i ns) ∧ (k ≠ 0 → ∃ a, GroupGoal S i a) ∧
      ∀ g, denotes S.types i = some (.choice g) → ∀ m, (∀ e ∈ g.elements, Supp S S.seqField m e) →
        (∀ e ∈ g.elements, AltFilled S.types e) →
        (∀ f ∈ g.elements.filterMap (specOf S S.seqField m), f.max = .bounded 1) →
        InAlts S (g.elements.filterMap (specOf S S.seqField m)) (fun c => c ≤ k ∧ (neverEmpty g.elements = true → c = k)) ns

theorem AltFilled.nested {T : Types} {e : Element} (h : AltFilled T e) : NestedFilled T e :=
  fun j x h1 h2 => Or.inr (Or.inl (h j x h1 h2))

/-- An element is not a nested choice. -/
theorem element_filled {S : Setup X} {m : Bool} {e : Element} {f : FieldSpec} (h : specOf S S.elementField m e = some f) :
    NestedFilled S.types e := by
  obtain ⟨h1, h2⟩ := specOf_element_seq h
  obtain ⟨_, _, _, ⟨i, h3, _⟩ | ⟨i, _, _, h3, _⟩⟩ := specOf_field h1
  · intro j x hv
    rw [h3] at hv; cases hv
  · exact absurd h3 (h2 _)

theorem neverEmpty_mem {es : List Element} (h : neverEmpty es = true) {e : Element} (he : e ∈ es) : 1 ≤ e.min := by
  simpa using List.all_eq_true.1 h e he

theorem filterMap_index {α β : Type} {f : α → Option β} {l : List α} {a : α} {b : β} (ha : a ∈ l) (hf : f a = some b) :
    ∃ i : Nat, (l.filterMap f)[i]? = some b :=
  List.getElem?_of_mem (List.mem_filterMap.2 ⟨a, ha, hf⟩)

theorem filterMap_element {S : Setup X} {m : Bool} {es : List Element} {f : FieldSpec}
    (h : f ∈ es.filterMap (specOf S S.elementField m)) : ∀ j, f.ty ≠ .variant j := by
  obtain ⟨e, _, he⟩ := List.mem_filterMap.1 h
  exact (specOf_element_seq he).2

/-- One occurrence of a choice, as a variant. -/
theorem alt_one {S : Setup X} {m : Bool} {g : Group} {ns : List Node} (hsup : ∀ e ∈ g.elements, Supp S S.seqField m e)
    (hfill : ∀ e ∈ g.elements, AltFilled S.types e)
    (hmax : ∀ f ∈ g.elements.filterMap (specOf S S.seqField m), f.max = .bounded 1)
    (h : ∃ e ∈ g.elements, ∃ k, Allows e.min e.max k ∧ (k = 0 → ns = []) ∧
      (NestedFilled S.types e → ∀ m f, specOf S S.seqField m e = some f → Repeats S e f k ns)) :
    InAlts S (g.elements.filterMap (specOf S S.seqField m)) (fun c => c ≤ 1 ∧ (neverEmpty g.elements = true → c = 1)) ns := by
  obtain ⟨e, he, k, hk, hz, hr⟩ := h
  by_cases hk0 : k = 0
  · rw [hz hk0]
    refine places_nil (R := fun j q evs v => ∃ f, (g.elements.filterMap (specOf S S.seqField m))[j]? = some f ∧
      FieldOk S f q evs v) ?_
    intro p items h1 h2
    refine ⟨h1, by rw [h2]; exact Nat.zero_le _, ?_⟩
    intro hn
    have := neverEmpty_mem hn he
    have := hk.1
    omega
  · cases hs : specOf S S.seqField m e with
    | none => exact absurd (supp_none (hsup e he) hs hk) hk0
    | some f =>
      obtain ⟨i, hi⟩ := filterMap_index he hs
      have hm : e.max = .bounded 1 := by
        rw [← (specOf_field hs).1]
        exact hmax f (List.mem_of_getElem? hi)
      have hk1 : k = 1 := by have := hk.2 1 hm; omega
      subst hk1
      refine places_map (fun _ => i) id (hr (hfill e he).nested m f hs) ?_
      rintro p l ⟨h1, h2, h3⟩
      refine ⟨each_remap (fun j q evs v h => ⟨f, hi, h.2⟩) h1, ?_⟩
      rw [remap_fields, List.length_map, h3 (Or.inr (hfill e he))]
      exact ⟨Nat.le_refl _, fun _ => rfl⟩

theorem all_dropped {S : Setup X} {m : Bool} {field : DElement → Option FieldSpec} {es : List Element}
    (h : newElements S.flags S.types S.fuel m es = some ([], false)) :
    es.filterMap (specOf S field m) = [] ∧ ∀ e ∈ es, Supp S field m e := by
  obtain ⟨h1, h2⟩ := newElements_spec (field := field) (fs := []) h rfl
  exact ⟨h1.symm, h2⟩

theorem inAlts_nil {S : Setup X} {C : Nat → Prop} {ns : List Node} (h : InAlts S [] C ns) : InFields S [] ns := by
  refine places_mono h ?_
  rintro p l ⟨h1, _⟩
  refine ⟨h1, ?_, fun i f hf => (by cases hf)⟩
  have hn : childFields l = [] := by
    cases hl : childFields l with
    | nil => rfl
    | cons j r =>
      have := each_fields (φ := fun _ => False) (fun _ _ _ _ h => by obtain ⟨f, hf, _⟩ := h; cases hf) h1 j
        (by rw [hl]; exact List.mem_cons_self ..)
      exact this.elim
  rw [hn]; exact List.Pairwise.nil

theorem inAny_nil {S : Setup X} {ns : List Node} (h : InAny S [] ns) : InFields S [] ns :=
  inAlts_nil (C := fun _ => True) (places_mono h fun _ _ h => ⟨h.1, trivial⟩)

theorem doc_complex {S : Setup X} {c : Complex} {D : StructSpec X} {idx : Nat} {g : Ident} {k : Nat}
    {d : Nat} (hshape : S.compile.Nested d) (hD : S.compile.structs[idx]? = some D) (hc : S.complexOf c = some D)
    (hg : c.content = some g)
    (hfill : ∀ v, denotes S.types g = some v → GroupFilled S.types v ∧ ∀ x, v = .choice x → c.min = 0 ∨ neverEmpty x.elements = true)
    (hk : Allows c.min c.max k) {as : List (PropIdent × Txt)} {kids : List Node}
    (ha : TypeOf S c D → TagsOk S D as) (hgoal : Goal S (.groupTimes g k kids)) {p : Pos} {evs : List Event}
    (hr : RendersBody S p as kids evs) : ∃ v, Doc S.compile (.struct idx) p evs v := by
  obtain ⟨hz, hone, hmany, halts⟩ := hgoal
  have heq := newComplex_eq S.flags S.types S.fuel c g hg
  have hexp : expectedContent S.types c = true := (complexOf_inv hc).2.2.1
  have zero : ∀ {D : StructSpec X}, TagsOk S D as → S.compile.structs[idx]? = some D → D.body = .seq [] →
      k = 0 → ∃ v, Doc S.compile (.struct idx) p evs v := by
    intro D ha hD hb hk0
    exact doc_seq hD hb (by rw [hz hk0]; exact inFields_nil fun f hf => (by cases hf)) ha hr
  have kzero : fromOccurs c.min c.max = .none → k = 0 := by
    intro h
    have := hk.2 0 (fromOccurs_none h).2
    omega
  have kone : fromOccurs c.min c.max = .single → k = 1 := by
    intro h
    have h1 := hk.1
    have h2 := hk.2 1 (fromOccurs_single h).2
    have := (fromOccurs_single h).1
    omega
  have text : newComplex S.flags S.types S.fuel c = some (newSimple S.flags g c.min c.max c.attributes) →
      (GroupGoal S g = fun _ => False) → ∃ v, Doc S.compile (.struct idx) p evs v := by
    intro h1 h2
    obtain ⟨_, hmin, _⟩ := complexOf_simple hc h1
    have := hk.1
    obtain ⟨a, ha⟩ := hmany (by omega)
    rw [h2] at ha
    exact ha.elim
  cases hd : denotes S.types g with
  | none =>
    rw [hd] at heq
    obtain ⟨ht, h⟩ := complexOf_struct hc heq
    have hk0 : k = 0 := by
      by_cases h0 : k = 0
      · exact h0
      · obtain ⟨a, h⟩ := hmany h0
        simp only [GroupGoal, hd] at h
    rcases h with h | h | ⟨_, ⟨_, h, _⟩ | ⟨h, _⟩⟩
    · exact zero (ha ht) hD h.2 hk0
    · exact zero (ha ht) hD h.1 hk0
    · exact zero (ha ht) hD h hk0
    · cases h
  | some v =>
    rw [hd] at heq
    cases v with
    | sequence x =>
      simp only at heq
      obtain ⟨ht, h⟩ := complexOf_struct hc heq
      have hs : k = 0 ∨ k = 1 := by
        simp only [expectedContent, hg, Option.bind_some, hd, Bool.or_eq_true, decide_eq_true_eq] at hexp
        exact hexp.elim (fun h => Or.inr (kone h)) (fun h => Or.inl (kzero h))
      rcases h with h | ⟨hb, hn⟩ | ⟨hs1, ⟨_, hb, hsup⟩ | ⟨h, _⟩⟩
      · exact zero (ha ht) hD h.2 (kzero h.1)
      · rcases hs with h0 | h1
        · exact zero (ha ht) hD hb h0
        · have := hone h1
          simp only [GroupGoal, hd] at this
          obtain ⟨h2, h3⟩ := all_dropped (field := S.seqField) hn
          have := this false h3 (fun e he f _ => (hfill _ hd).1 e he)
          rw [h2] at this
          exact doc_seq hD hb this (ha ht) hr
      · have := hone (kone hs1)
        simp only [GroupGoal, hd] at this
        exact doc_seq hD hb (this false hsup (fun e he f _ => (hfill _ hd).1 e he)) (ha ht) hr
      · cases h
    | all x =>
      simp only at heq
      obtain ⟨ht, h⟩ := complexOf_struct hc heq
      have hs : k = 0 ∨ k = 1 := by
        simp only [expectedContent, hg, Option.bind_some, hd, Bool.or_eq_true, decide_eq_true_eq] at hexp
        exact hexp.elim (fun h => Or.inr (kone h)) (fun h => Or.inl (kzero h))
      rcases h with h | ⟨hb, hn⟩ | ⟨hs1, ⟨h, _⟩ | ⟨_, hb, hsup⟩⟩
      · exact zero (ha ht) hD h.2 (kzero h.1)
      · rcases hs with h0 | h1
        · exact zero (ha ht) hD hb h0
        · have := hone h1
          simp only [GroupGoal, hd] at this
          obtain ⟨h2, h3⟩ := all_dropped (field := S.elementField) hn
          have := this false h3
          rw [h2] at this
          exact doc_seq hD hb (inAny_nil this) (ha ht) hr
      · cases h
      · have := hone (kone hs1)
        simp only [GroupGoal, hd] at this
        exact doc_all hD hb (fun f hf => filterMap_element hf) (this false hsup) (ha ht) hr
    | choice x =>
      simp only at heq
      obtain ⟨ht, h⟩ := complexOf_enum hc heq (by simp [alternatives, hg, hd])
      have hne := (hfill _ hd).2 x rfl
      have hflt : ∀ e ∈ x.elements, AltFilled S.types e := (hfill _ hd).1
      rcases h with h | ⟨hb, hn⟩ | ⟨hsup, ⟨hs1, hda, hb⟩ | hb⟩
      · exact zero (ha ht) hD h.2 (kzero h.1)
      · obtain ⟨h2, h3⟩ := all_dropped (field := S.seqField) hn
        have := halts x hd false h3 hflt (by rw [h2]; intro f hf; cases hf)
        rw [h2] at this
        exact doc_seq hD hb (inAlts_nil this) (ha ht) hr
      · have := hone (kone hs1)
        simp only [GroupGoal, hd] at this
        obtain ⟨e, he, k', hk', _, hrep⟩ := this
        have h1 : 1 ≤ e.min := by
          rcases hne with hne | hne
          · have := kone hs1
            have := (fromOccurs_single hs1).1
            omega
          · exact neverEmpty_mem hne he
        have h2 := hk'.1
        cases hs : specOf S S.seqField false e with
        | none => have := supp_none (hsup e he) hs hk'; omega
        | some f =>
          obtain ⟨i, hi⟩ := filterMap_index he hs
          obtain ⟨h3, h4, _⟩ := specOf_field hs
          exact doc_enum hD hb hi (hflt e he) hda (hrep (hflt e he).nested false f hs)
            ⟨Nat.le_trans h4 h2, by rw [h3]; exact hk'.2⟩ (by omega) (ha ht) hr
      · have hfit := hshape.fits D (List.mem_of_getElem? hD)
        rw [hb] at hfit
        have := halts x hd false hsup hflt (fun f hf => (hfit.2 f hf).2)
        refine doc_choice hD hb (places_mono this ?_) (ha ht) hr
        rintro p l ⟨h1, h2, h3⟩
        refine ⟨h1, ?_, fun b hb => Nat.le_trans h2 (hk.2 b hb)⟩
        rcases hne with hne | hne
        · omega
        · rw [h3 hne]; exact hk.1
    | complex x => simp [expectedContent, hg, hd] at hexp
    | dynamic x => simp [expectedContent, hg, hd] at hexp
    | reference r =>
      obtain ⟨_, hmin, _, j, ht, _⟩ := complexOf_simple hc heq
      unfold Setup.tyRef at ht
      rw [hd] at ht
      simp only at ht
      split at ht
      · rename_i hx
        have := hk.1
        obtain ⟨a, ha⟩ := hmany (by omega)
        simp only [GroupGoal, hd] at ha
        simp [Variant.isText, ha] at hx
      · cases ht
    | _ => exact text heq (by funext a; simp [GroupGoal, hd])

theorem doc_simple_content {S : Setup X} {P : Lex} (hp : S.ReadsTexts P) {c : Complex} {D : StructSpec X} {idx : Nat}
    {g : Ident} (hD : S.compile.structs[idx]? = some D) (hc : S.complexOf c = some D)
    (hg : c.content = some g) {s : Txt} (hs : Valid P S.types (.text g s)) {as : List (PropIdent × Txt)}
    (ha : TypeOf S c D → TagsOk S D as) (hgoal : Goal S (.text g s)) {p : Pos} {evs : List Event}
    (hr : RendersBody S p as [.text s] evs) : ∃ v, Doc S.compile (.struct idx) p evs v := by
  have heq := newComplex_eq S.flags S.types S.fuel c g hg
  obtain ⟨v, hd, hv⟩ := hgoal
  have key : newComplex S.flags S.types S.fuel c = some (newSimple S.flags g c.min c.max c.attributes) →
      ∃ v, Doc S.compile (.struct idx) p evs v := by
    intro h
    obtain ⟨ht, _, _, j, hj, hb⟩ := complexOf_simple hc h
    exact doc_text hp hD hb hj hs (ha ht) hr
  rw [hd] at heq
  rcases hv with hv | ⟨r, rfl, hv⟩
  · cases v <;> simp only [Variant.isText] at hv <;> first | exact key heq | cases hv
  · exact key heq

theorem doc_no_content {S : Setup X} {c : Complex} {D : StructSpec X} {idx : Nat}
    (hD : S.compile.structs[idx]? = some D) (hc : S.complexOf c = some D) (hg : c.content = none)
    {as : List (PropIdent × Txt)} (ha : TypeOf S c D → TagsOk S D as) {p : Pos} {evs : List Event}
    (hr : RendersBody S p as [] evs) : ∃ v, Doc S.compile (.struct idx) p evs v := by
  have heq : newComplex S.flags S.types S.fuel c = newStruct S.flags S.types S.fuel false
      (mixedMode S.flags c.isMixed .complex) c.min c.max c.attributes [] := by
    unfold newComplex
    rw [hg]
    rfl
  obtain ⟨ht, h⟩ := complexOf_struct hc heq
  have hb : D.body = .seq [] := by
    rcases h with h | h | ⟨_, ⟨_, h, _⟩ | ⟨h, _⟩⟩
    · exact h.2
    · exact h.1
    · exact h
    · cases h
  exact doc_seq hD hb (inFields_nil fun f hf => (by cases hf)) (ha ht) hr

/-- A reference whose target is valid: the same type, or no type that is supported. -/
theorem ref_cases {T : Types} (hac : Acyclic T) {i : Ident} {ty : MetaType} {r : Reference}
    (hg : Assoc.get T i = some ty) (hv : ty.variant = .reference r) (h1 : r.min = 1) (h2 : r.max = .bounded 1)
    (hd : Defined T r.type_) :
    (res T i = res T r.type_ ∧ denotes T i = denotes T r.type_) ∨ (denotes T i = some (.reference r) ∧ r.isSingle = true) := by
  cases hn : r.nillable with
  | false =>
    have := res_synonym hac ⟨ty, r, hg, hv, rfl, hn, h1, h2⟩ hd
    exact Or.inl ⟨this, by unfold denotes; rw [this]⟩
  | true =>
    refine Or.inr ⟨?_, by simp [Reference.isSingle, h1, h2]⟩
    rw [denotes_not_synonym hg, hv]
    rw [hv]
    simp [Variant.target, Reference.isSimple, hn]

theorem places_element {S : Setup X} {e : Element} {f : FieldSpec} {name : PropIdent} {xsi : Option PropIdent}
    {as : List (PropIdent × Txt)} {kids : List Node} (hname : f.name = S.elementName name)
    (h : xsi = none → ∀ p evs, RendersBody S p as kids evs → ∃ v, Doc S.compile f.ty p evs v) :
    Repeats S e f 1 [.elem name xsi as kids] := by
  refine ⟨fun n hn => ⟨_, _, _, _, List.mem_singleton.1 hn⟩, ?_⟩
  intro p items he hv
  obtain ⟨l, j, evs, r, rfl, hl, hr⟩ := allValues_single hv
  obtain ⟨e1, e2, e3⟩ := each_append.1 he
  obtain ⟨l', l1, l2, l3⟩ := allValues_nil (R' := fun j q evs v => j = 0 ∧ FieldOk S f q evs v) hl e1
  obtain ⟨r', r1, r2, r3⟩ := allValues_nil (R' := fun j q evs v => j = 0 ∧ FieldOk S f q evs v) hr e3
  obtain ⟨hx, ho, hb⟩ := renders_inv e2
  obtain ⟨v, hd⟩ := h hx _ _ hb
  refine ⟨l' ++ .child 0 evs v :: r', ?_, each_append.2 ⟨l2, ?_⟩, ?_⟩
  · rw [itemEvents_append, itemEvents_append, l1]
    show itemEvents l ++ (evs ++ itemEvents r') = _ ++ (evs ++ itemEvents r)
    rw [r1]
  · rw [l1]
    exact ⟨⟨rfl, fun _ => by rw [hname]; exact ho, hd⟩, r2⟩
  · have hc : (childFields (l' ++ .child 0 evs v :: r')).length = 1 := by
      rw [childFields_append, l3]
      show (0 :: childFields r').length = 1
      rw [r3]; rfl
    exact ⟨by rw [hc]; exact Nat.le_refl _, fun _ => hc⟩

theorem places_choice {S : Setup X} {e : Element} {f : FieldSpec} {i : Ident} {g : Group} {ns : List Node}
    (hv' : e.variant = .type_ i .group) (hd : denotes S.types i = some (.choice g)) (hch : (S.choiceAlts g).isSome = true)
    (hfill : ∀ e ∈ g.elements, AltFilled S.types e)
    (hmin : f.min = 0 ∨ neverEmpty g.elements = true) (hty : f.ty = .variant (indexOf S.types (res S.types i)))
    (h : GroupGoal S i ns) : Repeats S e f 1 ns := by
  obtain ⟨alts, halts⟩ := Option.isSome_iff_exists.1 hch
  obtain ⟨m, rfl, hsup, hone⟩ := choiceAlts_spec halts
  simp only [GroupGoal, hd] at h
  have h := alt_one hsup hfill (fun f hf => (hone f hf).2) h
  obtain ⟨ty, hg, hv⟩ := Option.map_eq_some_iff.1 hd
  have hD : S.compile.structs[indexOf S.types (res S.types i)]? =
      some ⟨[], .choice (g.elements.filterMap (specOf S S.seqField m)) 1 (.bounded 1), none⟩ := by
    show (S.types.map fun x => S.structOf x.2)[_]? = _
    rw [List.getElem?_map, indexOf_get hg]
    simp [Setup.structOf, hv, halts]
  have hstrict : f.min ≠ 0 ∨ AltFilled S.types e → neverEmpty g.elements = true := by
    rintro (hs | hs)
    · exact hmin.resolve_left hs
    · exact hs i g hv' hd
  -- the values of the variants depend on their number
  refine ⟨h.1, ?_⟩
  intro p items he hv'
  obtain ⟨l, h1, h2, h3, h4⟩ := h.2 p items he hv'
  refine ⟨l.map fun x => match x with | .pad e => .pad e | .child j evs v => .child 0 evs (.alt j [v]), ?_, ?_, ?_⟩
  · rw [← h1]
    clear h1 h2 h3 h4
    induction l with
    | nil => rfl
    | cons x l ih =>
      cases x with
      | pad e => exact congrArg (e :: ·) ih
      | child j evs v => exact congrArg (evs ++ ·) ih
  · clear h1 h3 h4 he
    induction l generalizing p with
    | nil => trivial
    | cons x l ih =>
      cases x with
      | pad e => exact ⟨h2.1, ih _ h2.2⟩
      | child j evs v =>
        obtain ⟨⟨f', hf', hok⟩, hrest⟩ := h2
        refine ⟨⟨rfl, fun hne => absurd hty (hne _), ?_⟩, ih _ hrest⟩
        rw [hty]
        exact .variant hD rfl hf' hok.1 hok.2
  · have hlen : (childFields (l.map fun x => match x with
        | (.pad e : Item (Val X)) => (.pad e : Item (Val X))
        | .child j evs v => .child 0 evs (.alt j [v]))).length = (childFields l).length := by
      clear h1 h2 h3 h4
      induction l with
      | nil => rfl
      | cons x l ih =>
        cases x with
        | pad e => exact ih
        | child j evs v => exact congrArg Nat.succ ih
    exact ⟨by rw [hlen]; exact h3, fun hs => by rw [hlen]; exact h4 (hstrict hs)⟩

/-- Everything before the first child is padding. -/
theorem first_child {V : Type} {items : List (Item V)} (h : childFields items ≠ []) :
    ∃ (l r : List (Item V)) (i : Nat) (evs : List Event) (v : V), items = l ++ .child i evs v :: r ∧ childFields l = [] := by
  induction items with
  | nil => exact absurd rfl h
  | cons x items ih =>
    cases x with
    | pad e =>
      obtain ⟨l, r, i, evs, v, h1, h2⟩ := ih h
      exact ⟨.pad e :: l, r, i, evs, v, by rw [h1]; rfl, h2⟩
    | child i evs v => exact ⟨[], items, i, evs, v, rfl, rfl⟩

theorem each_pads {V : Type} {R R' : Nat → Pos → List Event → V → Prop} {p : Pos} {l : List (Item V)}
    (he : Each R p l) (h : childFields l = []) : Each R' p l := by
  induction l generalizing p with
  | nil => trivial
  | cons x l ih =>
    cases x with
    | pad e => exact ⟨he.1, ih he.2 h⟩
    | child j evs v => cases h

theorem places_sequence {S : Setup X} {e : Element} {f : FieldSpec} {i : Ident} {g : Group} {ns : List Node}
    (hd : denotes S.types i = some (.sequence g)) (hgf : (S.groupFields g).isSome = true)
    (hfill : ∀ e ∈ g.elements, NestedFilled S.types e) (hty : f.ty = .variant (indexOf S.types (res S.types i)))
    (h : GroupGoal S i ns) : Repeats S e f 1 ns := by
  obtain ⟨fs, hfs⟩ := Option.isSome_iff_exists.1 hgf
  obtain ⟨rfl, hsup, f₀, hf₀, hmin⟩ := groupFields_spec hfs
  simp only [GroupGoal, hd] at h
  have h := h false hsup fun e he _ _ => hfill e he
  obtain ⟨ty, hg, hv⟩ := Option.map_eq_some_iff.1 hd
  have hD : S.compile.structs[indexOf S.types (res S.types i)]? =
      some ⟨[], .seq (g.elements.filterMap (specOf S S.seqField false)), none⟩ := by
    show (S.types.map fun x => S.structOf x.2)[_]? = _
    rw [List.getElem?_map, indexOf_get hg]
    simp [Setup.structOf, hv, hfs]
  refine places_bind h ?_
  rintro p items ⟨h2, h3, h4⟩
  have hne : childFields items ≠ [] := by
    obtain ⟨i₀, hi₀⟩ := List.getElem?_of_mem hf₀
    have := (h4 i₀ f₀ hi₀).1
    intro h0
    rw [h0] at this
    have : f₀.min ≤ 0 := this
    omega
  obtain ⟨l, r, j, evs, v, rfl, hl⟩ := first_child hne
  obtain ⟨e1, e2⟩ := each_append.1 h2
  rw [childFields_append, hl, List.nil_append] at h3 h4
  have hdoc : FieldOk S f (after p (itemEvents l)) (itemEvents (.child j evs v :: r))
      (.struct [] ((List.range (g.elements.filterMap (specOf S S.seqField false)).length).map
        (valuesOf · (.child j evs v :: r)))) := by
    refine ⟨fun hne => absurd hty (hne _), ?_⟩
    rw [hty]
    exact .group hD rfl ⟨j, evs, v, r, rfl⟩ (each_pad e2) (child_index e2) h3
      (fun i f hf => by rw [valuesOf_count]; exact h4 i f hf)
      (fun q i evs v f hq hf hne => (child_ok e2 hq hf).1 hne) (fun q i evs v f hq hf => (child_ok e2 hq hf).2)
  generalize hval : Val.struct [] ((List.range (g.elements.filterMap (specOf S S.seqField false)).length).map
        (valuesOf · (.child j evs v :: r))) = w at hdoc
  refine ⟨l ++ [.child 0 (itemEvents (.child j evs v :: r)) w], ?_, each_append.2 ⟨each_pads e1 hl, ?_⟩, ?_⟩
  · rw [itemEvents_append, itemEvents_append]
    show _ ++ (itemEvents (.child j evs v :: r) ++ []) = _
    rw [List.append_nil]
  · exact And.intro (And.intro rfl hdoc) trivial
  · rw [childFields_append, hl]
    exact ⟨Nat.le_refl _, fun _ => rfl⟩

/-- One occurrence of a nested group. -/
theorem places_nested {S : Setup X} (hsup : S.Supported) (hfill : S.Filled) {e : Element} {f : FieldSpec} {i : Ident}
    {ns : List Node} (hv : e.variant = .type_ i .group) (hu : S.used (res S.types i) = true)
    (hty : f.ty = .variant (indexOf S.types (res S.types i)))
    (hk : (∃ g, denotes S.types i = some (.choice g) ∧ (f.min = 0 ∨ neverEmpty g.elements = true)) ∨
      ∃ g, denotes S.types i = some (.sequence g)) (h : GroupGoal S i ns) : Repeats S e f 1 ns := by
  rcases hk with ⟨g, hd, hmin⟩ | ⟨g, hd⟩
  · obtain ⟨ty, hg, hty'⟩ := Option.map_eq_some_iff.1 hd
    have hm := List.mem_of_getElem? (indexOf_get hg)
    have hf := (hfill _ ty hm hu).1
    rw [hty'] at hf
    exact places_choice hv hd ((hsup _ ty hm hu).2.1 g hty') hf hmin hty h
  · obtain ⟨ty, hg, hty'⟩ := Option.map_eq_some_iff.1 hd
    have hm := List.mem_of_getElem? (indexOf_get hg)
    have hf := (hfill _ ty hm hu).1
    rw [hty'] at hf
    exact places_sequence hd ((hsup _ ty hm hu).2.2 g hty') hf hty h

theorem valid_goal {S : Setup X} {P : Lex} (hac : Acyclic S.types) (hsup : S.Supported) (hfill : S.Filled) {d : Nat}
    (hshape : S.compile.Nested d) (hfree : S.XsiFree) (hp : S.ReadsTexts P) (hcustom : ∀ n as kids, ¬ P.customValue n as kids) {j : Judge}
    (h : Valid P S.types j) : Goal S j := by
  have text : ∀ {i : Ident} {ty : MetaType} {v : Variant}, Assoc.get S.types i = some ty → ty.variant = v →
      v.target = none → (Variant.isText v = true ∨ ∃ r, v = .reference r ∧ r.isSingle = true) →
      ∃ v, denotes S.types i = some v ∧ (Variant.isText v = true ∨ ∃ r, v = .reference r ∧ r.isSingle = true) := by
    intro i ty v hg hv ht h
    refine ⟨v, ?_, h⟩
    rw [denotes_not_synonym hg (by rw [hv]; exact ht), hv]
  induction h with
  | @refText i ty r s hg hv h1 h2 hval ih =>
    rcases ref_cases hac hg hv h1 h2 (hval.defined.1 _ _ rfl) with ⟨_, h⟩ | ⟨h3, h4⟩
    · obtain ⟨v, h5, h6⟩ := ih
      exact ⟨v, by rw [h]; exact h5, h6⟩
    · exact ⟨_, h3, Or.inr ⟨r, rfl, h4⟩⟩
  | @listText i ty r s hg hv hn _ _ _ =>
    have hns : r.isSingle = false := by
      cases hx : r.isSingle with
      | false => rfl
      | true =>
        simp only [Reference.isSingle, Bool.and_eq_true, beq_iff_eq] at hx
        exact absurd hx hn
    exact text hg hv (by simp [Variant.target, Reference.isSimple, hns]) (Or.inl (by simp [Variant.isText, hns]))
  | unionText hg hv _ _ _ _ => exact text hg hv rfl (Or.inl rfl)
  | builtInText hg hv _ => exact text hg hv rfl (Or.inl rfl)
  | customText hg hv _ => exact text hg hv rfl (Or.inl rfl)
  | literalText hg hv _ _ _ => exact text hg hv rfl (Or.inl rfl)
  | variantText hg hv _ _ _ _ => exact text hg hv rfl (Or.inl rfl)
  | simpleText hg hv _ _ _ _ => exact text hg hv rfl (Or.inl rfl)
  | simpleListText hg hv _ _ _ _ => exact text hg hv rfl (Or.inl rfl)
  | @refValue i ty r xsi as kids hg hv h1 h2 hval ih =>
    intro hx t ht p evs hr
    rcases ref_cases hac hg hv h1 h2 (hval.defined.2.1 _ _ _ _ rfl) with ⟨h3, h4⟩ | ⟨h3, h4⟩
    · exact ih hx t (by unfold Setup.tyRef at ht ⊢; rw [← h3, ← h4]; exact ht) p evs hr
    · simp [Setup.tyRef, h3, Variant.isText, h4] at ht
  | @textValue i s xsi hval ih =>
    intro hx t ht p evs hr
    obtain ⟨v, hd, hv⟩ := ih
    have : ∃ j, t = .simple j := by
      have hnc : ∀ c, v ≠ .complex c := by
        rintro c rfl
        rcases hv with hv | ⟨r, hv, _⟩ <;> cases hv
      unfold Setup.tyRef at ht
      rw [hd] at ht
      cases v <;> simp only at ht <;> first
        | (split at ht <;> first | (cases ht; done) | exact ⟨_, (Option.some.inj ht).symm⟩; done)
        | exact absurd rfl (hnc _)
    obtain ⟨j, rfl⟩ := this
    exact doc_simple hp ht hval hr
  | customValue _ _ hc => exact absurd hc (hcustom _ _ _)
  | @dynamicValue i ty d key der xsi as kids hg hv _ _ _ _ =>
    intro hx t ht
    have hd := denotes_not_synonym hg (by rw [hv]; rfl)
    rw [hv] at hd
    simp [Setup.tyRef, hd, Variant.isText] at ht
  | @emptyValue i ty c xsi as hg hv hcon hsh ha _ =>
    intro hx t ht p evs hr
    obtain ⟨k, D, rfl, hc, hD⟩ := tyRef_complex hsup hg hv ht
    exact doc_no_content hD hc hcon (fun h => tagsOk_of hshape hfree hp h hD hsh ha) hr
  | @simpleValue i ty c g xsi as s hg hv hcon hsh ha hval _ ih =>
    intro hx t ht p evs hr
    obtain ⟨k, D, rfl, hc, hD⟩ := tyRef_complex hsup hg hv ht
    exact doc_simple_content hp hD hc hcon hval (fun h => tagsOk_of hshape hfree hp h hD hsh ha) ih hr
  | @complexValue i ty c g k xsi as kids hg hv hcon hsh ha hk hval _ ih =>
    intro hx t ht p evs hr
    have hfl := tyRef_filled hfill hg hv ht hcon
    obtain ⟨idx, D, rfl, hc, hD⟩ := tyRef_complex hsup hg hv ht
    have hm : c.isMixed = false := (complexOf_inv hc).2.1
    rw [hm] at ih
    exact doc_complex hshape hD hc hcon hfl hk (fun h => tagsOk_of hshape hfree hp h hD hsh ha) ih hr
  | @refGroup i ty r ns hg hv h1 h2 hval ih =>
    rcases ref_cases hac hg hv h1 h2 (hval.defined.2.2 _ _ rfl) with ⟨_, h4⟩ | ⟨h3, h4⟩
    · change GroupGoal S i ns
      have ih : GroupGoal S r.type_ ns := ih
      unfold GroupGoal at ih ⊢
      rw [h4]; exact ih
    · change GroupGoal S i ns
      unfold GroupGoal
      rw [h3]; exact h4
  | @sequence i ty g ns hg hv _ ih =>
    have hd := denotes_not_synonym hg (by rw [hv]; rfl)
    change GroupGoal S i _
    unfold GroupGoal
    rw [hd, hv]
    exact ih
  | @choice i ty g e k ns hg hv he hk _ ih =>
    have hd := denotes_not_synonym hg (by rw [hv]; rfl)
    change GroupGoal S i _
    unfold GroupGoal
    rw [hd, hv]
    exact ⟨e, he, k, hk, ih.1, ih.2⟩
  | @all i ty g es ns hg hv hperm _ ih =>
    have hd := denotes_not_synonym hg (by rw [hv]; rfl)
    change GroupGoal S i _
    unfold GroupGoal
    rw [hd, hv]
    intro m hs
    rw [← filterMap_element_seq hs]
    refine inAny_perm (hperm.filterMap _) (ih m (fun e he => supp_element_seq (hs e (hperm.mem_iff.1 he))) ?_)
    intro e he f hf
    rcases hs e (hperm.mem_iff.1 he) with hn | hn
    · rw [specOf_dropped hn] at hf; cases hf
    · obtain ⟨f', hf'⟩ := Option.isSome_iff_exists.1 hn
      exact element_filled hf'
  | @substitution i ty d key der xsi as kids hg hv _ _ _ =>
    have hd := denotes_not_synonym hg (by rw [hv]; rfl)
    change GroupGoal S i _
    unfold GroupGoal
    rw [hd, hv]
    trivial
  | @complexGroup i ty c g k ns hg hv _ _ _ _ =>
    have hd := denotes_not_synonym hg (by rw [hv]; rfl)
    change GroupGoal S i _
    unfold GroupGoal
    rw [hd, hv]
    trivial
  | @noTimes i =>
    refine ⟨fun _ => rfl, fun h => (by cases h), fun h => absurd rfl h, ?_⟩
    intro g hd m _ _ _
    exact places_nil (R := fun j q evs v => ∃ f, (g.elements.filterMap (specOf S S.seqField m))[j]? = some f ∧
      FieldOk S f q evs v) fun p items h1 h2 => ⟨h1, by rw [h2]; exact Nat.le_refl _, fun _ => by rw [h2]; rfl⟩
  | @oneMore i k a b _ _ ih₁ ih₂ =>
    refine ⟨fun h => (by cases h), ?_, fun _ => ⟨a, ih₁⟩, ?_⟩
    · intro h
      have hb := ih₂.1 (Nat.succ.inj h)
      rw [hb, List.append_nil]
      exact ih₁
    · intro g hd m hs hfl hmax
      have h1 : GroupGoal S i a := ih₁
      simp only [GroupGoal, hd] at h1
      refine places_append (alt_one hs hfl hmax h1) (ih₂.2.2.2 g hd m hs hfl hmax) ?_
      rintro p l r ⟨h2, h3, h4⟩ ⟨h5, h6, h7⟩
      refine ⟨each_append.2 ⟨h2, h5⟩, ?_, ?_⟩
      · rw [childFields_append, List.length_append]; omega
      · intro hn
        rw [childFields_append, List.length_append, h4 hn, h7 hn]; omega
  | @element e i xsi as kids hv _ ih =>
    intro _ m f hf
    obtain ⟨_, _, hn, ⟨i', h1, h2⟩ | ⟨i', h1, _⟩⟩ := specOf_field hf
    · rw [hv] at h1; cases h1
      exact places_element hn fun hx p evs hr => ih hx _ h2 p evs hr
    · rw [hv] at h1; cases h1
  | @nested e i ns hv _ ih =>
    intro hfl m f hf
    obtain ⟨_, _, hn, ⟨i', h1, h2⟩ | ⟨i', h1, h2, h3, h4⟩⟩ := specOf_field hf
    · rw [hv] at h1; cases h1
    · rw [hv] at h1; cases h1
      refine places_nested hsup hfill hv h2 h3 ?_ ih
      rcases h4 with ⟨g, h5, h6⟩ | h5
      · exact Or.inl ⟨g, h5, h6 hfl⟩
      · exact Or.inr h5
  | wildcard hv _ =>
    intro _ m f hf
    obtain ⟨_, _, _, ⟨i', h1, _⟩ | ⟨i', h1, _⟩⟩ := specOf_field hf <;> (rw [hv] at h1; cases h1)
  | textNode hv =>
    intro _ m f hf
    obtain ⟨_, _, _, ⟨i', h1, _⟩ | ⟨i', h1, _⟩⟩ := specOf_field hf <;> (rw [hv] at h1; cases h1)
  | zero => exact ⟨fun _ => rfl, fun _ _ _ _ => repeats_zero⟩
  | succ _ _ ih₁ ih₂ => exact ⟨fun h => (by cases h), fun hfl m f hf => repeats_succ (ih₁ hfl m f hf) (ih₂.2 hfl m f hf)⟩
  | nil => exact fun m _ _ => inFields_nil fun f hf => (by cases hf)
  | @cons e es k a b hk _ _ ih₁ ih₂ =>
    intro m hs hfl
    have h2 := ih₂ m (fun e' he' => hs e' (List.mem_cons_of_mem _ he')) fun e' he' => hfl e' (List.mem_cons_of_mem _ he')
    rw [List.filterMap_cons]
    cases hf : specOf S S.seqField m e with
    | none =>
      rw [ih₁.1 (supp_none (hs e (List.mem_cons_self ..)) hf hk)]
      exact h2
    | some f =>
      obtain ⟨h3, h4, _⟩ := specOf_field hf
      exact inFields_cons (ih₁.2 (hfl e (List.mem_cons_self ..) f hf) m f hf) h2 (mn := e.min) (by rw [h3]; exact hk) h4

/-- **C71.** Take any type information and the types generated for it. Whatever is valid for a complex type, according to
the type information, is read by the deserializer of the type generated for it, for every way to write the document down
(`Renders`), and the deserializer stops right after it. The hypotheses: no type is a synonym of itself, the complex types
that are looked at are of a supported kind, the choices that must occur cannot be matched with nothing (`Filled`), their fields have names that can be told
apart (`Nested`), none of their
attributes can be taken for one of the `xsi` attributes, and the types generated for simple types read the texts that are
valid for them. Missing: the kinds of types that the tables of `Verif.Gen.Tables` do not have (mixed and dynamic types,
nillable elements, wildcards, nested `xs:all`), and custom types with elements or attributes. -/
theorem C71_valid_document_read_partial (S : Setup X) (P : Lex) (hac : Acyclic S.types) (hsup : S.Supported)
    (hfill : S.Filled) (d : Nat) (hshape : S.compile.Nested d) (hfree : S.XsiFree) (hp : S.ReadsTexts P)
    (hcustom : ∀ n as kids, ¬ P.customValue n as kids) (i : Ident) (k : Nat) (hk : S.tyRef i = some (.struct k))
    (name : PropIdent) (as : List (PropIdent × Txt)) (kids : List Node) (hv : Valid P S.types (.value i none as kids))
    (evs : List Event) (hr : Renders S {} (.elem name none as kids) evs) :
    ∃ v, Doc S.compile (.struct k) {} evs v ∧ ∀ n, depth v + d < n → ∀ rest,
      Drv.run (genEnv posTrack) (de S.compile n (.struct k)).toDeser { helper := {} } (evs ++ rest) = .done v rest := by
  obtain ⟨v, hd⟩ := valid_goal hac hsup hfill hshape hfree hp hcustom hv rfl _ hk _ _ (renders_inv hr).2.2
  exact ⟨v, hd, fun n hn rest => C71_described_document_read_partial S.compile d hshape k evs v hd n hn rest⟩

end Verif.Generate

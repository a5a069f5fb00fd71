import Verif.Generate.Documents
import Verif.Gen.Written
/-!
# Documents of the generated types are valid for the type information (C77)

The converse of C71: every document that the table of generated types describes is valid for the type information that the
types are generated for. What the generated serializers write is such a document (C13), so that what they write is valid.
-/
namespace Verif.Generate

open Verif.Meta
open Verif.Occurs (MaxOccurs Container fromOccurs Allows)
open Verif.Rt hiding Node
open Verif.Gen
open Verif.Gen.Tab

variable {X : Type}

/-! ## Specification -/

/-- The types generated for simple types read nothing but texts that are valid for them, perhaps with blanks around them
in the content of an element. -/
def Setup.SoundTexts (S : Setup X) (P : Lex) : Prop :=
  ∀ i k, S.tyRef i = some (.simple k) → ∀ s x,
    S.parse (res S.types i) s = .ok x ∨ S.parse (res S.types i) (trimAscii s) = .ok x → Valid P S.types (.text i s)

/-- The group has these particles. -/
def IsGroup (v : Variant) (g : Group) : Prop := v = .all g ∨ v = .choice g ∨ v = .sequence g

/-- What a schema promises about the occurrences and names in it. -/
structure Tidy (T : Types) : Prop where
  /-- the least number of occurrences is not greater than the greatest one, and the nested groups are defined -/
  groups : ∀ i ty g, (i, ty) ∈ T → IsGroup ty.variant g → ∀ e ∈ g.elements,
    (∀ b, e.max = .bounded b → e.min ≤ b) ∧ ∀ j, e.variant = .type_ j .group → Defined T j
  /-- the elements of `xs:all` occur at most once -/
  once : ∀ i ty g, (i, ty) ∈ T → ty.variant = .all g → ∀ e ∈ g.elements, e.max = .bounded 0 ∨ e.max = .bounded 1
  /-- the content of a complex type is defined; a choice that must occur has an alternative -/
  contents : ∀ i ty c g, (i, ty) ∈ T → ty.variant = .complex c → c.content = some g →
    (denotes T g).isSome = true ∧ (∀ b, c.max = .bounded b → c.min ≤ b) ∧
      ∀ x, denotes T g = some (.choice x) → c.min = 0 ∨ x.elements ≠ []
  /-- a required attribute has no default value, and an attribute is declared once -/
  attributes : ∀ i ty c, (i, ty) ∈ T → ty.variant = .complex c →
    (∀ a ∈ c.attributes, a.use_ = .required → a.default_ = none) ∧
      ∀ a ∈ c.attributes, ∀ b ∈ c.attributes, a.ident = b.ident → a = b

/-- The alternatives of repeated choices occur once, and the attributes of a type can be told apart. -/
structure Setup.Regular (S : Setup X) : Prop where
  fits : ∀ D ∈ S.compile.structs, D.body.Fits D.attrs
  attrPlain : ∀ D ∈ S.compile.structs, ∀ a ∈ D.attrs, Plain a.name
  attrDistinct : ∀ D ∈ S.compile.structs, ∀ (i j : Nat) a b, D.attrs[i]? = some a → D.attrs[j]? = some b →
    i ≠ j → Distinct a.name b.name

/-- `G` is the table of the generated types, with what the serializers need in addition: how the simple values are
written, and which namespaces a type declares on its tag. -/
structure Setup.WrittenBy (S : Setup X) (G : Schema X) : Prop where
  types : G.structs.map (fun D => (D.attrs, D.body)) = S.compile.structs.map fun D => (D.attrs, D.body)
  parse : G.parse = S.compile.parse
  num : G.num = S.num

/-! ## Attributes -/

theorem mapAll_back {α β : Type} {f : α → Option β} {l : List α} {l' : List β} (h : mapAll f l = some l') (i : Nat) (b : β)
    (hb : l'[i]? = some b) : ∃ a, l[i]? = some a ∧ f a = some b := by
  obtain ⟨h1, h2⟩ := mapAll_get h
  have hi : i < l.length := by rw [← h1]; exact (List.getElem?_eq_some_iff.1 hb).1
  obtain ⟨b', h3, h4⟩ := h2 i l[i] (List.getElem?_eq_getElem hi)
  rw [hb] at h3
  cases h3
  exact ⟨l[i], List.getElem?_eq_getElem hi, h4⟩

theorem names_of_none {S : Setup X} {scope : Str → Option Str} {t : Tag} (h : NamesOk (X := X) scope [] t) :
    AttrsRender S scope t.attrs [] := by
  have : ∀ r : List Attr, (∀ a ∈ r, a ∈ t.attrs) → AttrsRender S scope r [] := by
    intro r
    induction r with
    | nil => intro _; exact .nil
    | cons a r ih =>
      intro hr
      have ih := ih fun x hx => hr x (List.mem_cons_of_mem _ hx)
      cases hx : isXmlnsKey a.key with
      | true => exact .xmlns hx ih
      | false =>
        rcases h a (hr a (by simp)) with h | h | ⟨b, hb, _⟩
        · rw [hx] at h; cases h
        · exact .xsi hx h ih
        · cases hb
  exact this _ fun _ h => h

/-- The attributes of a tag, as attributes of the document. -/
theorem render_back {S : Setup X} {scope : Str → Option Str} {das : List DAttribute} {ats : List (AttrSpec X)}
    (hats : mapAll S.attrField das = some ats) (hplain : ∀ a ∈ ats, Plain a.name)
    (hdist : ∀ (i j : Nat) a b, ats[i]? = some a → ats[j]? = some b → i ≠ j → Distinct a.name b.name)
    (hfree : ∀ a ∈ ats,
      a.name.local_ ∉ ["schemaLocation".toList, "noNamespaceSchemaLocation".toList, "type".toList, "nil".toList] ∨
      ∃ ns, a.name.ns = some ns ∧ ns ≠ xsiNs)
    (r : List Attr)
    (hnames : ∀ a ∈ r, isXmlnsKey a.key = true ∨ globallyAllowed scope a = true ∨ ∃ b ∈ ats, Means scope a.key b.name)
    (hone : ∀ i, i < ats.length → (owned scope (attrTable S.compile ats) r i).length ≤ 1)
    (hval : ∀ a ∈ r, isXmlnsKey a.key = false → ∀ i b, owner scope (attrTable S.compile ats) a = some i →
      ats[i]? = some b → ∃ s x, unescape S.num a.value = some s ∧ S.compile.parse b.ty s = .ok x) :
    ∃ as, AttrsRender S scope r as ∧
      (∀ n v, (n, v) ∈ as → ∃ (i : Nat) (d : DAttribute) (b : AttrSpec X) (a : Attr) (x : X), a ∈ r ∧
        isXmlnsKey a.key = false ∧ owner scope (attrTable S.compile ats) a = some i ∧ das[i]? = some d ∧
        ats[i]? = some b ∧ d.ident = n ∧ S.compile.parse b.ty v = .ok x) ∧
      ∀ a ∈ r, isXmlnsKey a.key = false → ∀ (i : Nat) (d : DAttribute),
        owner scope (attrTable S.compile ats) a = some i → das[i]? = some d → ∃ v, (d.ident, v) ∈ as := by
  induction r with
  | nil => exact ⟨[], .nil, fun n v h => (by cases h), fun a h => (by cases h)⟩
  | cons a r ih =>
    have hone' : ∀ i, i < ats.length → (owned scope (attrTable S.compile ats) r i).length ≤ 1 := by
      intro i hi
      refine Nat.le_trans ?_ (hone i hi)
      unfold owned
      exact List.Sublist.length_le (((List.sublist_cons_self a r).filter _).filter _)
    obtain ⟨as, h1, h2, h3⟩ := ih (fun x hx => hnames x (List.mem_cons_of_mem _ hx)) hone'
      (fun x hx => hval x (List.mem_cons_of_mem _ hx))
    have h2' : ∀ n v, (n, v) ∈ as → ∃ (i : Nat) (d : DAttribute) (b : AttrSpec X) (a' : Attr) (x : X), a' ∈ a :: r ∧
        isXmlnsKey a'.key = false ∧ owner scope (attrTable S.compile ats) a' = some i ∧ das[i]? = some d ∧
        ats[i]? = some b ∧ d.ident = n ∧ S.compile.parse b.ty v = .ok x := by
      intro n v hn
      obtain ⟨i, d, b, a', x, g1, g2⟩ := h2 n v hn
      exact ⟨i, d, b, a', x, List.mem_cons_of_mem _ g1, g2⟩
    cases hx : isXmlnsKey a.key with
    | true =>
      refine ⟨as, .xmlns hx h1, h2', ?_⟩
      intro a' ha' hx'
      rcases List.mem_cons.1 ha' with rfl | ha'
      · rw [hx] at hx'; cases hx'
      · exact h3 a' ha' hx'
    | false =>
      by_cases hg : globallyAllowed scope a = true
      · refine ⟨as, .xsi hx hg h1, h2', ?_⟩
        intro a' ha' hx' i d ho
        rcases List.mem_cons.1 ha' with rfl | ha'
        · rw [owner_xsi S.compile ats scope hfree _ hg] at ho; cases ho
        · exact h3 a' ha' hx' i d ho
      · rcases hnames a (by simp) with h | h | ⟨b, hb, hm⟩
        · rw [hx] at h; cases h
        · exact absurd h hg
        · obtain ⟨i, hi⟩ := List.getElem?_of_mem hb
          have ho := owner_means S.compile ats scope hplain hdist i b hi a hm
          obtain ⟨d, hd, hf⟩ := mapAll_back hats i b hi
          obtain ⟨_, _, _, hname, _, _⟩ := attrField_spec hf
          obtain ⟨s, x, hu, hp⟩ := hval a (by simp) hx i b ho hi
          have hlt : i < ats.length := (List.getElem?_eq_some_iff.1 hi).1
          refine ⟨(d.ident, s) :: as, .attr hx (by rw [← hname]; exact hm) hu ?_ h1, ?_, ?_⟩
          · intro v hv
            obtain ⟨j, d', b', a', x', g1, g2, g3, g4, g5, g6, _⟩ := h2 _ _ hv
            by_cases hji : i = j
            · subst hji
              have := hone i hlt
              have hmem : a' ∈ owned scope (attrTable S.compile ats) r i := by
                simp [owned, g1, g2, g3]
              have hcons : owned scope (attrTable S.compile ats) (a :: r) i = a :: owned scope (attrTable S.compile ats) r i := by
                simp [owned, hx, ho]
              rw [hcons, List.length_cons] at this
              have := List.length_pos_of_mem hmem
              omega
            · obtain ⟨d'', hd'', hf'⟩ := mapAll_back hats j b' g5
              rw [g4] at hd''
              cases hd''
              obtain ⟨_, _, _, hname', _, _⟩ := attrField_spec hf'
              have := hdist i j b b' hi g5 hji
              rw [hname, hname', g6] at this
              exact distinct_irrefl _ this
          · intro n v hn
            rcases List.mem_cons.1 hn with h | h
            · cases h
              exact ⟨i, d, b, a, x, by simp, hx, ho, hd, hi, rfl, hp⟩
            · exact h2' n v h
          · intro a' ha' hx' j d' ho' hd'
            rcases List.mem_cons.1 ha' with rfl | ha'
            · rw [ho] at ho'
              cases ho'
              rw [hd] at hd'
              cases hd'
              exact ⟨s, by simp⟩
            · obtain ⟨v, hv⟩ := h3 a' ha' hx' j d' ho' hd'
              exact ⟨v, List.mem_cons_of_mem _ hv⟩

/-- The attributes of a tag are valid for the declarations. -/
theorem attrs_back {S : Setup X} {P : Lex} (hsound : S.SoundTexts P) {c : Complex} {D : StructSpec X} (ht : TypeOf S c D)
    (hreq : ∀ a ∈ c.attributes, a.use_ = .required → a.default_ = none)
    (huniq : ∀ a ∈ c.attributes, ∀ b ∈ c.attributes, a.ident = b.ident → a = b)
    (hplain : ∀ a ∈ D.attrs, Plain a.name)
    (hdist : ∀ (i j : Nat) a b, D.attrs[i]? = some a → D.attrs[j]? = some b → i ≠ j → Distinct a.name b.name)
    (hfree : ∀ a ∈ D.attrs,
      a.name.local_ ∉ ["schemaLocation".toList, "noNamespaceSchemaLocation".toList, "type".toList, "nil".toList] ∨
      ∃ ns, a.name.ns = some ns ∧ ns ≠ xsiNs)
    {p : Pos} {t : Tag} {vs : List (Option X)} (hok : TagOk S.compile D.attrs p t vs) :
    ∃ as, AttrsRender S (posScope p) t.attrs as ∧ AttrsShape P c.attributes as ∧
      ∀ a ∈ c.attributes, ∀ t, a.variant = .type_ t → ∀ v, (a.ident, v) ∈ as → Valid P S.types (.text t v) := by
  obtain ⟨hv, hn⟩ := hok
  have hfield := hv.field
  have hcase : ∀ (i : Nat) b, D.attrs[i]? = some b →
      (owned (posScope p) (attrTable S.compile D.attrs) t.attrs i = [] ∧ (b.required = true → b.default ≠ none)) ∨
      ∃ a s x, owned (posScope p) (attrTable S.compile D.attrs) t.attrs i = [a] ∧ unescape S.num a.value = some s ∧
        S.compile.parse b.ty s = .ok x := by
    intro i b hb
    have := hfield i _ (by simp only [attrTable, List.getElem?_map, hb]; rfl)
    rcases this with ⟨h1, _, h2⟩ | ⟨a, x, h1, h2, _⟩
    · exact Or.inl ⟨h1, h2⟩
    · simp only at h2
      cases hu : unescape S.num a.value with
      | none => rw [show S.compile.num = S.num from rfl, hu] at h2; cases h2
      | some s =>
        rw [show S.compile.num = S.num from rfl, hu] at h2
        exact Or.inr ⟨a, s, x, h1, hu, h2⟩
  obtain ⟨as, h1, h2, h3⟩ := render_back (scope := posScope p) ht.attrs hplain hdist hfree t.attrs hn
    (by
      intro i hi
      rcases hcase i _ (List.getElem?_eq_getElem hi) with ⟨h, _⟩ | ⟨a, _, _, h, _⟩ <;> rw [h] <;> simp)
    (by
      intro a ha hx i b ho hb
      have hmem : a ∈ owned (posScope p) (attrTable S.compile D.attrs) t.attrs i := by simp [owned, ha, hx, ho]
      rcases hcase i b hb with ⟨h, _⟩ | ⟨a', s, x, h, hu, hp⟩
      · rw [h] at hmem; cases hmem
      · rw [h, List.mem_singleton] at hmem
        subst hmem
        exact ⟨s, x, hu, hp⟩)
  have hdecl : ∀ n v, (n, v) ∈ as → ∃ a ∈ c.attributes, ∃ t, a.ident = n ∧ a.use_ ≠ .prohibited ∧ a.variant = .type_ t ∧
      Valid P S.types (.text t v) := by
    intro n v hnv
    obtain ⟨i, d, b, a', x, g1, g2, g3, g4, g5, g6, g7⟩ := h2 n v hnv
    obtain ⟨d', hd', hf⟩ := mapAll_back ht.attrs i b g5
    rw [g4] at hd'
    cases hd'
    obtain ⟨t', k1, k2, _, _, _⟩ := attrField_spec hf
    obtain ⟨a, ha, t, k3, k4, k5⟩ := newAttributes_mem (fl := S.flags) ht.noAny (List.mem_of_getElem? g4)
    subst k5
    simp only [Option.some.injEq] at k1
    subst k1
    refine ⟨a, ha, t, g6, k3, k4, hsound _ _ k2 v x (Or.inl ?_)⟩
    rw [← (tyRef_simple k2).2]
    exact g7
  refine ⟨as, h1, ⟨?_, ?_⟩, ?_⟩
  · rintro a ha hu ⟨t', ht'⟩
    have hmem := newAttributes_of (fl := S.flags) ha (by rw [hu]; simp) ht'
    obtain ⟨i, hi⟩ := List.getElem?_of_mem hmem
    obtain ⟨b, hb, hf⟩ := (mapAll_get ht.attrs).2 i _ hi
    obtain ⟨_, _, _, _, k1, k2⟩ := attrField_spec hf
    rcases hcase i b hb with ⟨_, h⟩ | ⟨a', s, x, h, hu', hp⟩
    · exact absurd (k2.1 (hreq a ha hu)) (h (by rw [k1, hu]; rfl))
    · have hmem' : a' ∈ owned (posScope p) (attrTable S.compile D.attrs) t.attrs i := by rw [h]; simp
      simp only [owned, List.mem_filter, Bool.not_eq_true', beq_iff_eq] at hmem'
      exact h3 a' hmem'.1.1 hmem'.1.2 i _ hmem'.2 hi
  · intro n v hnv
    obtain ⟨a, ha, t, k1, k2, k3, _⟩ := hdecl n v hnv
    exact Or.inl ⟨a, ha, k1, k2, t, k3⟩
  · intro a ha t hat v hav
    obtain ⟨a', ha', t', k1, _, k3, k4⟩ := hdecl _ v hav
    have := huniq a' ha' a ha k1
    subst this
    rw [hat] at k3
    cases k3
    exact k4

/-! ## Choices that can be matched with nothing -/

theorem times_nothing {P : Lex} {T : Types} {e : Element} (h : Valid P T (.particle e [])) (k : Nat) :
    Valid P T (.times e k []) := by
  induction k with
  | zero => exact .zero
  | succ k ih => exact .succ (a := []) (b := []) h ih

/-- The particle can be matched with nothing. -/
def Skips (P : Lex) (T : Types) (e : Element) : Prop := ∃ k, Allows e.min e.max k ∧ Valid P T (.times e k [])

theorem skips_order {P : Lex} {T : Types} {es : List Element} (h : ∀ e ∈ es, Skips P T e) : Valid P T (.inOrder es []) := by
  induction es with
  | nil => exact .nil
  | cons e es ih =>
    obtain ⟨k, h1, h2⟩ := h e (by simp)
    exact .cons (a := []) (b := []) h1 h2 (ih fun x hx => h x (List.mem_cons_of_mem _ hx))

theorem anyM_true {α : Type} {f : α → Option Bool} {l : List α} (h : anyM f l = some true) :
    ∃ a ∈ l, f a = some true := by
  induction l with
  | nil => cases h
  | cons b l ih =>
    unfold anyM at h
    cases hb : f b with
    | none => rw [hb] at h; cases h
    | some r =>
      rw [hb] at h
      cases r with
      | true => exact ⟨b, by simp, hb⟩
      | false =>
        obtain ⟨a, h1, h2⟩ := ih h
        exact ⟨a, List.mem_cons_of_mem _ h1, h2⟩

theorem allM_true {α : Type} {f : α → Option Bool} {l : List α} (h : allM f l = some true) :
    ∀ a ∈ l, f a = some true := by
  induction l with
  | nil => intro a ha; cases ha
  | cons b l ih =>
    unfold allM at h
    cases hb : f b with
    | none => rw [hb] at h; cases h
    | some r =>
      rw [hb] at h
      cases r with
      | false => cases h
      | true =>
        intro a ha
        rcases List.mem_cons.1 ha with rfl | ha
        · exact hb
        · exact ih h a ha

theorem mem_of_get {T : Types} {i : Ident} {ty : MetaType} (h : Assoc.get T i = some ty) : (i, ty) ∈ T :=
  List.mem_of_getElem? (indexOf_get h)

theorem checkElement_skips {P : Lex} {T : Types} {check : MetaType → Option Bool} {e : Element}
    (hmax : ∀ b, e.max = .bounded b → e.min ≤ b) (hdef : ∀ j, e.variant = .type_ j .group → Defined T j)
    (hc : ∀ j ty, Assoc.get T j = some ty → check ty = some true → Valid P T (.group j []))
    (h : checkElement T check e = some true) : Skips P T e := by
  by_cases h0 : e.min = 0
  · exact ⟨0, ⟨by omega, fun b _ => Nat.zero_le _⟩, .zero⟩
  · unfold checkElement at h
    cases hv : e.variant with
    | type_ j mode =>
      cases mode with
      | element => simp [hv, h0] at h
      | group =>
        rw [hv] at h
        simp only [if_neg h0] at h
        obtain ⟨ty, hty⟩ := hdef j hv
        rw [hty] at h
        exact ⟨e.min, ⟨Nat.le_refl _, hmax⟩, times_nothing (.nested hv (hc j ty hty h)) _⟩
    | _ => simp [hv, h0] at h

theorem checkType_empty {P : Lex} {T : Types} (htidy : Tidy T) (fuel : Nat) :
    ∀ i ty, Assoc.get T i = some ty → checkType T fuel ty = some true → Valid P T (.group i []) := by
  induction fuel with
  | zero => intro i ty _ h; cases h
  | succ fuel ih =>
    intro i ty hg h
    unfold checkType at h
    have hmem := mem_of_get hg
    have skips : ∀ g, IsGroup ty.variant g → ∀ e ∈ g.elements, checkElement T (checkType T fuel) e = some true →
        Skips P T e := fun g hv e he hc =>
      checkElement_skips (htidy.groups i ty g hmem hv e he).1 (htidy.groups i ty g hmem hv e he).2 ih hc
    cases hv : ty.variant with
    | choice g =>
      rw [hv] at h
      obtain ⟨e, he, hc⟩ := anyM_true h
      obtain ⟨k, h1, h2⟩ := skips g (Or.inr (Or.inl hv)) e he hc
      exact .choice hg hv he h1 h2
    | all g =>
      rw [hv] at h
      exact .all hg hv (List.Perm.refl _) (skips_order fun e he => skips g (Or.inl hv) e he (allM_true h e he))
    | sequence g =>
      rw [hv] at h
      exact .sequence hg hv (skips_order fun e he => skips g (Or.inr (Or.inr hv)) e he (allM_true h e he))
    | _ => rw [hv] at h; cases h

theorem optionalChoice_empty {P : Lex} {T : Types} (htidy : Tidy T) {fuel : Nat} {i : Ident}
    (h : isOptionalChoice T fuel i = some true) :
    Valid P T (.group i []) ∧ ∃ g, denotes T i = some (.choice g) := by
  unfold isOptionalChoice at h
  cases hg : Assoc.get T i with
  | none => rw [hg] at h; cases h
  | some ty =>
    rw [hg] at h
    cases hv : ty.variant with
    | choice g =>
      simp only [hv] at h
      refine ⟨checkType_empty htidy fuel i ty hg h, g, ?_⟩
      rw [denotes_not_synonym hg (by rw [hv]; rfl), hv]
    | _ => simp only [hv] at h; cases h

/-! ## Particles and their fields -/

theorem fromOccurs_optional {mn : Nat} {mx : MaxOccurs} (h : fromOccurs mn mx = .optional) : mn = 0 := by
  unfold fromOccurs at h
  split at h
  · cases h
  · cases h
  · rfl
  · split at h <;> cases h
  · cases h

theorem newElement_least {fl : GFlags} {T : Types} {fuel : Nat} {m a : Bool} {e : Element} {d : DElement} {i : Ident}
    (h : newElement fl T fuel m e = some (some d, a)) (ht : d.target = .type_ i) :
    d.least = e.min ∨ d.least = 0 ∧ fromOccurs e.min e.max = .single ∧ isOptionalChoice T fuel i = some true := by
  unfold newElement at h
  by_cases hn : fromOccurs e.min e.max = .none
  · rw [if_pos hn] at h; cases h
  · rw [if_neg hn] at h
    cases hv : e.variant with
    | text => rw [hv] at h; cases h; cases ht
    | any w =>
      rw [hv] at h
      simp only at h
      split at h
      · cases h; cases ht
      · cases h
    | type_ j mode =>
      rw [hv] at h
      simp only at h
      split at h
      · cases h
        cases ht
        rename_i opt dyn ho hd
        by_cases hs : fromOccurs e.min e.max = .single
        · rw [if_pos hs] at ho
          cases opt with
          | true => exact Or.inr ⟨rfl, hs, ho⟩
          | false => left; simp [DElement.least, hs]
        · rw [if_neg hs] at ho
          cases ho
          left
          simp only [DElement.least, Bool.false_eq_true, if_false]
          split
          · rename_i h; exact (fromOccurs_optional h).symm
          · rfl
      · cases h

theorem tyRef_not_choice {S : Setup X} {i : Ident} {ty : TyRef} {g : Group} (h : S.tyRef i = some ty)
    (hd : denotes S.types i = some (.choice g)) : False := by
  unfold Setup.tyRef at h
  rw [hd] at h
  cases h

/-- The numbers of values that a field allows are those that its particle allows; in one case, no value stands for a
choice that is matched with nothing. -/
theorem field_allows {S : Setup X} {P : Lex} (htidy : Tidy S.types) {m : Bool} {e : Element} {f : FieldSpec}
    (h : specOf S S.seqField m e = some f) {k : Nat} (hk : Allows f.min f.max k) :
    Allows e.min e.max k ∨ k = 0 ∧ Allows e.min e.max 1 ∧ Valid P S.types (.particle e []) := by
  obtain ⟨hmax, _, _, hcase⟩ := specOf_field h
  have hmin : f.min = e.min ∨ f.min = 0 ∧ fromOccurs e.min e.max = .single ∧
      ∃ i mode, e.variant = .type_ i mode ∧ isOptionalChoice S.types S.fuel i = some true := by
    unfold specOf at h
    split at h
    · rename_i d he
      obtain ⟨_, _, _, h4⟩ := newElement_some he
      have key : ∀ i, d.target = .type_ i → f.min = d.least → f.min = e.min ∨ f.min = 0 ∧
          fromOccurs e.min e.max = .single ∧
          ∃ i mode, e.variant = .type_ i mode ∧ isOptionalChoice S.types S.fuel i = some true := by
        intro i ht hf
        rcases newElement_least he ht with h5 | ⟨h5, h6, h7⟩
        · exact Or.inl (hf.trans h5)
        · obtain ⟨mode, h8, _⟩ := h4 i ht
          exact Or.inr ⟨hf.trans h5, h6, i, mode, h8, h7⟩
      unfold Setup.seqField at h
      by_cases hg : d.group = true
      · rw [if_pos hg] at h
        unfold Setup.groupField at h
        cases ht : d.target with
        | type_ i =>
          rw [ht] at h
          simp only at h
          split at h
          · split at h
            · cases h; exact key i ht rfl
            · cases h
          · split at h
            · cases h; exact key i ht rfl
            · cases h
          · cases h
        | _ => rw [ht] at h; cases h
      · rw [if_neg hg] at h
        unfold Setup.elementField at h
        cases ht : d.target with
        | type_ i =>
          rw [ht] at h
          simp only at h
          split at h
          · cases h
          · obtain ⟨ty, h5, rfl⟩ := Option.map_eq_some_iff.1 h
            exact key i ht rfl
        | _ => rw [ht] at h; cases h
    · cases h
  rcases hmin with h0 | ⟨h0, hs, i, mode, hv, ho⟩
  · left
    rw [← h0, ← hmax]
    exact hk
  · obtain ⟨h1, h2⟩ := fromOccurs_single hs
    obtain ⟨hempty, g, hd⟩ := optionalChoice_empty (P := P) htidy ho
    have hone : Allows e.min e.max 1 := by
      rw [h1, h2]
      exact ⟨Nat.le_refl _, by intro b hb; cases hb; exact Nat.le_refl _⟩
    rcases hcase with ⟨j, hv', hty⟩ | ⟨j, hv', _⟩
    · rw [hv] at hv'
      cases hv'
      exact (tyRef_not_choice hty hd).elim
    · rw [hv] at hv'
      cases hv'
      by_cases hk0 : k = 0
      · exact Or.inr ⟨hk0, hone, .nested hv hempty⟩
      · left
        have : k ≤ 1 := hk.2 1 (by rw [hmax, h2])
        rw [show k = 1 by omega]
        exact hone

/-! ## Elements, one after the other -/

theorem times_of {P : Lex} {T : Types} {e : Element} {A : List (List Node)} (h : ∀ ns ∈ A, Valid P T (.particle e ns)) :
    Valid P T (.times e A.length A.flatten) := by
  induction A with
  | nil => exact .zero
  | cons a A ih =>
    rw [List.flatten_cons]
    exact .succ (h a (by simp)) (ih fun ns hn => h ns (List.mem_cons_of_mem _ hn))

theorem groupTimes_of {P : Lex} {T : Types} {g : Ident} {A : List (List Node)} (h : ∀ ns ∈ A, Valid P T (.group g ns)) :
    Valid P T (.groupTimes g A.length A.flatten) := by
  induction A with
  | nil => exact .noTimes
  | cons a A ih =>
    rw [List.flatten_cons]
    exact .oneMore (h a (by simp)) (ih fun ns hn => h ns (List.mem_cons_of_mem _ hn))

/-- The children, with the number of the field, and the elements of each. -/
abbrev Parts := List (Nat × List Node)

def Parts.nodes (ps : Parts) : List Node := (ps.map (·.2)).flatten

/-- The particles that have a field. -/
def fieldParticles (S : Setup X) (m : Bool) (es : List Element) : List Element :=
  es.filter fun e => (specOf S S.seqField m e).isSome

/-- The elements of each part are an occurrence of the particle of its field. -/
def PartsOk (S : Setup X) (P : Lex) (es : List Element) (ps : Parts) : Prop :=
  ∀ x ∈ ps, ∃ e, es[x.1]? = some e ∧ Valid P S.types (.particle e x.2)

theorem fieldParticles_get {S : Setup X} {m : Bool} {es : List Element} {j : Nat} {f : FieldSpec}
    (h : (es.filterMap (specOf S S.seqField m))[j]? = some f) :
    ∃ e, (fieldParticles S m es)[j]? = some e ∧ e ∈ es ∧ specOf S S.seqField m e = some f := by
  induction es generalizing j with
  | nil => simp at h
  | cons e es ih =>
    unfold fieldParticles
    cases hs : specOf S S.seqField m e with
    | none =>
      rw [List.filterMap_cons, hs] at h
      obtain ⟨e', h1, h2, h3⟩ := ih h
      exact ⟨e', by rw [List.filter_cons_of_neg (by rw [hs]; simp)]; exact h1, List.mem_cons_of_mem _ h2, h3⟩
    | some g =>
      rw [List.filterMap_cons, hs] at h
      rw [List.filter_cons_of_pos (by rw [hs]; rfl)]
      cases j with
      | zero =>
        simp only [List.getElem?_cons_zero, Option.some.injEq] at h
        subst h
        exact ⟨e, rfl, by simp, hs⟩
      | succ j =>
        rw [List.getElem?_cons_succ] at h
        obtain ⟨e', h1, h2, h3⟩ := ih h
        exact ⟨e', h1, List.mem_cons_of_mem _ h2, h3⟩

theorem split_parts {ps : Parts} (h : (ps.map (·.1)).Pairwise (· ≤ ·)) :
    ∃ (A : List (List Node)) (B : Parts), ps = A.map (fun ns => (0, ns)) ++ B.map fun x => (x.1 + 1, x.2) := by
  induction ps with
  | nil => exact ⟨[], [], rfl⟩
  | cons x ps ih =>
    obtain ⟨j, ns⟩ := x
    rw [List.map_cons] at h
    obtain ⟨A, B, hAB⟩ := ih (List.Pairwise.of_cons h)
    cases j with
    | zero => exact ⟨ns :: A, B, by rw [hAB]; rfl⟩
    | succ j =>
      cases A with
      | nil => exact ⟨[], (j, ns) :: B, by rw [hAB]; rfl⟩
      | cons a A =>
        have := List.rel_of_pairwise_cons h (a' := 0) (by rw [hAB]; simp)
        exact absurd this (by simp)

theorem inOrder_of {S : Setup X} {P : Lex} (htidy : Tidy S.types) {m : Bool} {es : List Element}
    (hsup : ∀ e ∈ es, Supp S S.seqField m e) {ps : Parts} (ho : (ps.map (·.1)).Pairwise (· ≤ ·))
    (hok : PartsOk S P (fieldParticles S m es) ps)
    (hc : ∀ (i : Nat) f, (es.filterMap (specOf S S.seqField m))[i]? = some f →
      Allows f.min f.max ((ps.map (·.1)).count i)) : Valid P S.types (.inOrder es ps.nodes) := by
  induction es generalizing ps with
  | nil =>
    cases ps with
    | nil => exact .nil
    | cons x ps =>
      obtain ⟨f, hf, _⟩ := hok x (by simp)
      simp [fieldParticles] at hf
  | cons e es ih =>
    have ih := fun ps => @ih (fun x hx => hsup x (List.mem_cons_of_mem _ hx)) ps
    cases hs : specOf S S.seqField m e with
    | none =>
      rw [List.filterMap_cons, hs] at hc
      have hfp : fieldParticles S m (e :: es) = fieldParticles S m es := List.filter_cons_of_neg (by rw [hs]; simp)
      rw [hfp] at hok
      rcases hsup e (by simp) with hn | hn
      · obtain ⟨h1, h2⟩ := fromOccurs_none hn
        exact .cons (k := 0) (a := []) (by rw [h1]; exact ⟨Nat.le_refl _, fun _ _ => Nat.zero_le _⟩) .zero (ih ps ho hok hc)
      · rw [hs] at hn; cases hn
    | some f =>
      rw [List.filterMap_cons, hs] at hc
      have hfp : fieldParticles S m (e :: es) = e :: fieldParticles S m es := List.filter_cons_of_pos (by rw [hs]; rfl)
      rw [hfp] at hok
      obtain ⟨A, B, rfl⟩ := split_parts ho
      have hA : ∀ ns ∈ A, Valid P S.types (.particle e ns) := by
        intro ns hn
        obtain ⟨f', hf', h⟩ := hok (0, ns) (List.mem_append_left _ (List.mem_map.2 ⟨ns, hn, rfl⟩))
        simp only [List.getElem?_cons_zero, Option.some.injEq] at hf'
        subst hf'
        exact h
      have hm : (A.map (fun ns => ((0 : Nat), ns)) ++ B.map fun x : Nat × List Node => (x.1 + 1, x.2)).map (·.1) =
          List.replicate A.length 0 ++ (B.map (·.1)).map (· + 1) := by
        rw [List.map_append, List.map_map, List.map_map, List.map_map]
        congr 1
        exact List.map_const'
      have hcA : Allows f.min f.max A.length := by
        have := hc 0 f rfl
        rw [hm, List.count_append, (count_succ _).1, List.count_replicate_self, Nat.add_zero] at this
        exact this
      have hB : Valid P S.types (.inOrder es (Parts.nodes B)) := by
        refine ih B ?_ ?_ ?_
        · rw [hm, List.pairwise_append] at ho
          exact (List.pairwise_map.1 ho.2.1).imp fun h => by omega
        · intro x hx
          obtain ⟨f', hf', h⟩ := hok (x.1 + 1, x.2) (List.mem_append_right _ (List.mem_map.2 ⟨x, hx, rfl⟩))
          exact ⟨f', hf', h⟩
        · intro i f' hf'
          have := hc (i + 1) f' hf'
          rw [hm, List.count_append, (count_succ _).2, List.count_replicate, if_neg (by simp), Nat.zero_add] at this
          exact this
      have hnodes : Parts.nodes (A.map (fun ns => ((0 : Nat), ns)) ++ B.map fun x => (x.1 + 1, x.2)) =
          A.flatten ++ Parts.nodes B := by
        unfold Parts.nodes
        rw [List.map_append, List.flatten_append, List.map_map, List.map_map]
        congr 2
        exact List.map_id A
      rw [hnodes]
      rcases field_allows (P := P) htidy hs hcA with h | ⟨h1, h2, h3⟩
      · exact .cons h (times_of hA) hB
      · have : A = [] := List.eq_nil_of_length_eq_zero h1
        subst this
        exact .cons (k := 1) (a := []) h2 (times_nothing h3 1) hB

/-! ## `xs:all` -/

/-- The particles in the order of their occurrences; the others are matched with nothing. -/
inductive Matches (P : Lex) (T : Types) : List Element → List (List Node) → Prop
  | nil : Matches P T [] []
  | skip {e es A} (h : Skips P T e) (hr : Matches P T es A) : Matches P T (e :: es) A
  | take {e es ns A} (ha : Allows e.min e.max 1) (h : Valid P T (.particle e ns)) (hr : Matches P T es A) :
      Matches P T (e :: es) (ns :: A)

theorem Matches.order {P : Lex} {T : Types} {es : List Element} {A : List (List Node)} (h : Matches P T es A) :
    Valid P T (.inOrder es A.flatten) := by
  induction h with
  | nil => exact .nil
  | skip h _ ih =>
    obtain ⟨k, h1, h2⟩ := h
    exact .cons (a := []) h1 h2 ih
  | @take e es ns A ha h _ ih =>
    rw [List.flatten_cons]
    refine .cons (k := 1) ha ?_ ih
    have := Valid.succ h (.zero (e := e))
    rwa [List.append_nil] at this

theorem Matches.split {P : Lex} {T : Types} {es : List Element} {A B : List (List Node)} (h : Matches P T es (A ++ B)) :
    ∃ es₁ es₂, es = es₁ ++ es₂ ∧ Matches P T es₁ A ∧ Matches P T es₂ B := by
  generalize hC : A ++ B = C at h
  induction h generalizing A with
  | nil =>
    simp only [List.append_eq_nil_iff] at hC
    obtain ⟨rfl, rfl⟩ := hC
    exact ⟨[], [], rfl, .nil, .nil⟩
  | @skip e es C h hr ih =>
    obtain ⟨es₁, es₂, rfl, h1, h2⟩ := ih hC
    exact ⟨e :: es₁, es₂, rfl, .skip h h1, h2⟩
  | @take e es ns C ha h hr ih =>
    cases A with
    | nil =>
      rw [List.nil_append] at hC
      subst hC
      exact ⟨[], e :: es, rfl, .nil, .take ha h hr⟩
    | cons a A =>
      rw [List.cons_append, List.cons.injEq] at hC
      obtain ⟨rfl, hC⟩ := hC
      obtain ⟨es₁, es₂, rfl, h1, h2⟩ := ih hC
      exact ⟨e :: es₁, es₂, rfl, .take ha h h1, h2⟩

theorem Matches.append {P : Lex} {T : Types} {es₁ es₂ : List Element} {A B : List (List Node)} (h₁ : Matches P T es₁ A)
    (h₂ : Matches P T es₂ B) : Matches P T (es₁ ++ es₂) (A ++ B) := by
  induction h₁ with
  | nil => exact h₂
  | skip h _ ih => exact .skip h ih
  | take ha h _ ih => exact .take ha h ih

/-- The parts of the field with the number 0 and the others, when there is at most one. -/
theorem remove_part {ps : Parts} (h : (ps.map (·.1)).count 0 ≤ 1) :
    (∃ B : Parts, ps = B.map fun x => (x.1 + 1, x.2)) ∨
    ∃ (L R : Parts) (ns : List Node),
      ps = L.map (fun x => (x.1 + 1, x.2)) ++ (0, ns) :: R.map fun x => (x.1 + 1, x.2) := by
  induction ps with
  | nil => exact Or.inl ⟨[], rfl⟩
  | cons x ps ih =>
    obtain ⟨j, ns⟩ := x
    rw [List.map_cons] at h
    cases j with
    | succ j =>
      rw [List.count_cons_of_ne (by simp)] at h
      rcases ih h with ⟨B, rfl⟩ | ⟨L, R, ns', rfl⟩
      · exact Or.inl ⟨(j, ns) :: B, rfl⟩
      · exact Or.inr ⟨(j, ns) :: L, R, ns', rfl⟩
    | zero =>
      rw [List.count_cons_self] at h
      rcases ih (by omega) with ⟨B, rfl⟩ | ⟨L, R, ns', rfl⟩
      · exact Or.inr ⟨[], B, ns, rfl⟩
      · rw [List.map_append, List.count_append, List.map_cons, List.count_cons_self] at h
        omega

theorem matches_of {S : Setup X} {P : Lex} (htidy : Tidy S.types) {m : Bool} {es : List Element}
    (hsup : ∀ e ∈ es, Supp S S.seqField m e) (honce : ∀ e ∈ es, e.max = .bounded 0 ∨ e.max = .bounded 1) {ps : Parts}
    (hok : PartsOk S P (fieldParticles S m es) ps)
    (hc : ∀ (i : Nat) f, (es.filterMap (specOf S S.seqField m))[i]? = some f →
      Allows f.min f.max ((ps.map (·.1)).count i)) :
    ∃ es', es'.Perm es ∧ Matches P S.types es' (ps.map (·.2)) := by
  induction es generalizing ps with
  | nil =>
    cases ps with
    | nil => exact ⟨[], List.Perm.refl _, .nil⟩
    | cons x ps =>
      obtain ⟨f, hf, _⟩ := hok x (by simp)
      simp [fieldParticles] at hf
  | cons e es ih =>
    have ih := fun ps => @ih (fun x hx => hsup x (List.mem_cons_of_mem _ hx))
      (fun x hx => honce x (List.mem_cons_of_mem _ hx)) ps
    cases hs : specOf S S.seqField m e with
    | none =>
      rw [List.filterMap_cons, hs] at hc
      have hfp : fieldParticles S m (e :: es) = fieldParticles S m es := List.filter_cons_of_neg (by rw [hs]; simp)
      rw [hfp] at hok
      obtain ⟨es', h1, h2⟩ := ih ps hok hc
      refine ⟨e :: es', h1.cons e, .skip ⟨0, ?_, .zero⟩ h2⟩
      rcases hsup e (by simp) with hn | hn
      · rw [(fromOccurs_none hn).1]
        exact ⟨Nat.le_refl _, fun _ _ => Nat.zero_le _⟩
      · rw [hs] at hn; cases hn
    | some f =>
      rw [List.filterMap_cons, hs] at hc
      have hfp : fieldParticles S m (e :: es) = e :: fieldParticles S m es := List.filter_cons_of_pos (by rw [hs]; rfl)
      rw [hfp] at hok
      have hmax := (specOf_field hs).1
      have h0 := hc 0 f rfl
      have hle : (ps.map (·.1)).count 0 ≤ 1 := by
        rcases honce e (by simp) with h | h
        · exact Nat.le_trans (h0.2 0 (by rw [hmax, h])) (Nat.zero_le _)
        · exact h0.2 1 (by rw [hmax, h])
      have hfst : ∀ B : Parts, (B.map fun x => (x.1 + 1, x.2)).map (·.1) = (B.map (·.1)).map (· + 1) := by
        intro B; rw [List.map_map, List.map_map]; rfl
      have hsnd : ∀ B : Parts, (B.map fun x => (x.1 + 1, x.2)).map (·.2) = B.map (·.2) := by
        intro B; rw [List.map_map]; rfl
      rcases remove_part hle with ⟨B, rfl⟩ | ⟨L, R, ns, rfl⟩
      · rw [hfst] at hc h0
        obtain ⟨es', h1, h2⟩ := ih B
          (by
            intro x hx
            exact hok (x.1 + 1, x.2) (List.mem_map.2 ⟨x, hx, rfl⟩))
          (by
            intro i f' hf'
            have := hc (i + 1) f' hf'
            rwa [(count_succ _).2] at this)
        refine ⟨e :: es', h1.cons e, .skip ?_ (by rw [hsnd]; exact h2)⟩
        rw [(count_succ _).1] at h0
        rcases field_allows (P := P) htidy hs h0 with h | ⟨_, h, h'⟩
        · exact ⟨0, h, .zero⟩
        · exact ⟨1, h, times_nothing h' 1⟩
      · rw [List.map_append, List.map_cons, hfst, hfst] at hc h0
        obtain ⟨es', h1, h2⟩ := ih (L ++ R)
          (by
            intro x hx
            refine hok (x.1 + 1, x.2) ?_
            rcases List.mem_append.1 hx with hx | hx
            · exact List.mem_append_left _ (List.mem_map.2 ⟨x, hx, rfl⟩)
            · exact List.mem_append_right _ (List.mem_cons_of_mem _ (List.mem_map.2 ⟨x, hx, rfl⟩)))
          (by
            intro i f' hf'
            have := hc (i + 1) f' hf'
            rw [List.count_append, List.count_cons_of_ne (by simp), (count_succ _).2, (count_succ _).2] at this
            rw [List.map_append, List.count_append]
            exact this)
        rw [List.map_append] at h2
        obtain ⟨es₁, es₂, rfl, h3, h4⟩ := h2.split
        obtain ⟨f', hf', hp⟩ := hok (0, ns) (by simp)
        simp only [List.getElem?_cons_zero, Option.some.injEq] at hf'
        subst hf'
        refine ⟨es₁ ++ e :: es₂, List.perm_middle.trans (h1.cons e), ?_⟩
        rw [List.map_append, List.map_cons, hsnd, hsnd]
        refine h3.append (.take ?_ hp h4)
        have hcount : Allows f.min f.max 1 := by
          rw [List.count_append, List.count_cons_self, (count_succ _).1, (count_succ _).1] at h0
          exact h0
        rcases field_allows (P := P) htidy hs hcount with h | ⟨h, _⟩
        · exact h
        · cases h

/-! ## From a document of the table to a document of the type information -/

/-- The events write down these elements, with padding between them. -/
def RendersAll (S : Setup X) (p : Pos) (evs : List Event) (ns : List Node) : Prop :=
  ∃ items : List (Item Node), itemEvents items = evs ∧ Each (fun _ q evs n => Renders S q n evs) p items ∧
    allValues items = ns

theorem renders_of_body {S : Setup X} {p : Pos} {name : PropIdent} {as : List (PropIdent × Txt)} {kids : List Node}
    {evs : List Event} (ho : Opens p evs (S.elementName name)) (h : RendersBody S p as kids evs) :
    Renders S p (.elem name none as kids) evs := by
  obtain ⟨e, es, t, rfl, h1, h2⟩ := ho
  rcases h with ⟨t', items, he, ha, hi, rfl⟩ | ⟨t', pieces, s, he, ha, hl, hc, rfl⟩ | ⟨t', he, ha, hk⟩
  · cases he
    cases h1
    refine .element h2 ha (each_pad hi) ?_
    rintro q evs n ⟨l, j, r, rfl, rfl⟩
    exact each_at hi
  · cases he
    cases h1
    exact .text h2 ha hl hc
  · cases he
    cases h1
    exact .empty h2 ha hk

theorem allValues_append {V : Type} (a b : List (Item V)) : allValues (a ++ b) = allValues a ++ allValues b := by
  simp [allValues]

/-- Replace every child by the elements it stands for. -/
theorem collect_parts {S : Setup X} {Q : Nat → List Node → Prop} {p : Pos} {items : List (Item (Val X))}
    (h : Each (fun j q evs _ => ∃ ns, RendersAll S q evs ns ∧ Q j ns) p items) :
    ∃ ps : Parts, RendersAll S p (itemEvents items) ps.nodes ∧ ps.map (·.1) = childFields items ∧ ∀ x ∈ ps, Q x.1 x.2 := by
  induction items generalizing p with
  | nil => exact ⟨[], ⟨[], rfl, trivial, rfl⟩, rfl, fun x hx => by cases hx⟩
  | cons x items ih =>
    cases x with
    | pad e =>
      obtain ⟨ps, ⟨its, h1, h2, h3⟩, h4, h5⟩ := ih h.2
      refine ⟨ps, ⟨.pad e :: its, ?_, ⟨h.1, h2⟩, h3⟩, h4, h5⟩
      show e :: itemEvents its = e :: itemEvents items
      rw [h1]
    | child j evs v =>
      obtain ⟨ns, ⟨its, h1, h2, h3⟩, h4⟩ := h.1
      obtain ⟨ps, ⟨its', h5, h6, h7⟩, h8, h9⟩ := ih h.2
      refine ⟨(j, ns) :: ps, ⟨its ++ its', ?_, each_append.2 ⟨h2, by rw [h1]; exact h6⟩, ?_⟩, ?_, ?_⟩
      · show _ = evs ++ itemEvents items
        rw [itemEvents_append, h1, h5]
      · rw [allValues_append, h3, h7]
        rfl
      · show j :: ps.map (·.1) = j :: childFields items
        rw [h8]
      · intro x hx
        rcases List.mem_cons.1 hx with rfl | hx
        · exact h4
        · exact h9 x hx

/-- The name stands for a choice or a sequence that is looked at. -/
def GroupName (S : Setup X) (i : Ident) (k : Nat) : Prop :=
  S.used (res S.types i) = true ∧ k = indexOf S.types (res S.types i) ∧
    ((∃ g, denotes S.types i = some (.choice g)) ∨ ∃ g, denotes S.types i = some (.sequence g))

/-- The events are valid elements of every type, or elements of every group, that the deserializer is generated for. -/
def Back (S : Setup X) (P : Lex) : TyRef → Pos → List Event → Prop
  | .variant k, p, evs => ∀ i, GroupName S i k → ∃ ns, RendersAll S p evs ns ∧ Valid P S.types (.group i ns)
  | ty, p, evs => ∀ i, S.tyRef i = some ty → ∃ as kids, RendersBody S p as kids evs ∧
      Valid P S.types (.value i none as kids)

/-- The events of a field are an occurrence of its particle. -/
theorem field_back {S : Setup X} {P : Lex} {m : Bool} {e : Element} {f : FieldSpec} {q : Pos} {evs : List Event}
    (hs : specOf S S.seqField m e = some f) (hn : (∀ k, f.ty ≠ .variant k) → Opens q evs f.name)
    (hb : Back S P f.ty q evs) : ∃ ns, RendersAll S q evs ns ∧ Valid P S.types (.particle e ns) := by
  obtain ⟨_, _, hname, hcase⟩ := specOf_field hs
  rcases hcase with ⟨i, hv, hty⟩ | ⟨i, hv, hu, hty, hg⟩
  · have hne : ∀ k, f.ty ≠ .variant k := by
      intro k hk
      rw [hk] at hty
      unfold Setup.tyRef at hty
      split at hty
      · split at hty <;> cases hty
      · split at hty <;> cases hty
      · cases hty
    have hb' : ∃ as kids, RendersBody S q as kids evs ∧ Valid P S.types (.value i none as kids) := by
      cases ht : f.ty with
      | variant k => exact absurd ht (hne k)
      | simple k => rw [ht] at hb hty; exact hb i hty
      | struct k => rw [ht] at hb hty; exact hb i hty
    obtain ⟨as, kids, h1, h2⟩ := hb'
    have hr := renders_of_body (by rw [← hname]; exact hn hne) h1
    refine ⟨[.elem e.ident none as kids], ⟨[.child 0 evs (.elem e.ident none as kids)], ?_, ⟨hr, trivial⟩, rfl⟩,
      .element hv h2⟩
    show evs ++ [] = evs
    rw [List.append_nil]
  · rw [hty] at hb
    obtain ⟨ns, h1, h2⟩ := hb i ⟨hu, rfl, hg.imp (fun ⟨g, h, _⟩ => ⟨g, h⟩) fun h => h⟩
    exact ⟨ns, h1, .nested hv h2⟩

/-- The children of a type are occurrences of the particles of their fields. -/
theorem children_back {S : Setup X} {P : Lex} {m : Bool} {es : List Element} {fs : List FieldSpec}
    (hfs : fs = es.filterMap (specOf S S.seqField m)) {p : Pos} {items : List (Item (Val X))}
    (hpad : ∀ e, .pad e ∈ items → Padding e = true) (hi : ∀ i evs v, .child i evs v ∈ items → i < fs.length)
    (hn : ∀ q (i : Nat) evs v f, ChildAt p items q i evs v → fs[i]? = some f → (∀ j, f.ty ≠ .variant j) →
      Opens q evs f.name)
    (hd : ∀ q (i : Nat) evs v f, ChildAt p items q i evs v → fs[i]? = some f → Back S P f.ty q evs) :
    ∃ ps : Parts, RendersAll S p (itemEvents items) ps.nodes ∧ ps.map (·.1) = childFields items ∧
      PartsOk S P (fieldParticles S m es) ps := by
  refine collect_parts (Q := fun j ns => ∃ e, (fieldParticles S m es)[j]? = some e ∧ Valid P S.types (.particle e ns))
    (each_of hpad ?_)
  intro l j evs v r he
  have hlt := hi j evs v (by rw [he]; simp)
  have hf : fs[j]? = some fs[j] := List.getElem?_eq_getElem hlt
  have hat : ChildAt p items (after p (itemEvents l)) j evs v := ⟨l, r, he, rfl⟩
  obtain ⟨e, h1, _, h2⟩ := fieldParticles_get (by rw [← hfs]; exact hf)
  obtain ⟨ns, h3, h4⟩ := field_back h2 (hn _ _ _ _ _ hat hf) (hd _ _ _ _ _ hat hf)
  exact ⟨ns, h3, e, h1, h4⟩

/-- The type generated for a complex type. -/
theorem tyRef_struct {S : Setup X} (hsup : S.Supported) {i : Ident} {k : Nat} (h : S.tyRef i = some (.struct k)) :
    ∃ ty c D, Assoc.get S.types (res S.types i) = some ty ∧ ty.variant = .complex c ∧ S.complexOf c = some D ∧
      S.compile.structs[k]? = some D := by
  unfold Setup.tyRef at h
  cases hd : denotes S.types i with
  | none => rw [hd] at h; cases h
  | some v =>
    rw [hd] at h
    obtain ⟨ty, hg, hv⟩ := get_of_denotes hd
    cases v with
    | complex c =>
      simp only at h
      split at h
      · rename_i hu
        cases h
        obtain ⟨D, hD⟩ := Option.isSome_iff_exists.1 ((hsup _ _ (mem_of_get hg) hu).1 c hv)
        refine ⟨ty, c, D, hg, hv, hD, ?_⟩
        simp only [Setup.compile, List.getElem?_map, indexOf_get hg, Option.map_some, Setup.structOf, hv, hD,
          Option.getD_some]
      · cases h
    | _ =>
      simp only at h
      split at h
      · cases h
      · cases h

/-- The type generated for a nested group. -/
theorem groupName_struct {S : Setup X} (hsup : S.Supported) {i : Ident} {k : Nat} (h : GroupName S i k) :
    ∃ ty, Assoc.get S.types (res S.types i) = some ty ∧
      ((∃ g alts, ty.variant = .choice g ∧ S.choiceAlts g = some alts ∧
          S.compile.structs[k]? = some ⟨[], .choice alts 1 (.bounded 1), none⟩) ∨
        ∃ g fs, ty.variant = .sequence g ∧ S.groupFields g = some fs ∧ S.compile.structs[k]? = some ⟨[], .seq fs, none⟩) := by
  obtain ⟨hu, rfl, ⟨g, hd⟩ | ⟨g, hd⟩⟩ := h
  · obtain ⟨ty, hg, hv⟩ := get_of_denotes hd
    obtain ⟨alts, ha⟩ := Option.isSome_iff_exists.1 ((hsup _ _ (mem_of_get hg) hu).2.1 g hv)
    refine ⟨ty, hg, Or.inl ⟨g, alts, hv, ha, ?_⟩⟩
    simp only [Setup.compile, List.getElem?_map, indexOf_get hg, Option.map_some, Setup.structOf, hv, ha, Option.getD_some]
  · obtain ⟨ty, hg, hv⟩ := get_of_denotes hd
    obtain ⟨fs, ha⟩ := Option.isSome_iff_exists.1 ((hsup _ _ (mem_of_get hg) hu).2.2 g hv)
    refine ⟨ty, hg, Or.inr ⟨g, fs, hv, ha, ?_⟩⟩
    simp only [Setup.compile, List.getElem?_map, indexOf_get hg, Option.map_some, Setup.structOf, hv, ha, Option.getD_some]

/-- The children are valid for the content of the complex type. -/
def KidsValid (S : Setup X) (P : Lex) (c : Complex) (kids : List Node) : Prop :=
  (c.content = none ∧ kids = []) ∨
    ∃ g k, c.content = some g ∧ Allows c.min c.max k ∧ Valid P S.types (.groupTimes g k kids)

/-- What the content of the generated type says about the content of the complex type. -/
inductive Shape (S : Setup X) (P : Lex) (c : Complex) (D : StructSpec X) : Prop
  | seq (es : List Element) (hb : D.body = .seq (es.filterMap (specOf S S.seqField false)))
      (hs : ∀ e ∈ es, Supp S S.seqField false e)
      (hk : ∀ ns, Valid P S.types (.inOrder es ns) → KidsValid S P c ns)
  | all (es : List Element) (hb : D.body = .all (es.filterMap (specOf S S.seqField false)))
      (hs : ∀ e ∈ es, Supp S S.seqField false e) (ho : ∀ e ∈ es, e.max = .bounded 0 ∨ e.max = .bounded 1)
      (hk : ∀ es' ns, es'.Perm es → Valid P S.types (.inOrder es' ns) → KidsValid S P c ns)
  | choice (es : List Element) (hb : D.body = .choice (es.filterMap (specOf S S.seqField false)) c.min c.max)
      (hs : ∀ e ∈ es, Supp S S.seqField false e)
      (hk : ∀ A : List (List Node), Allows c.min c.max A.length →
        (∀ ns ∈ A, ∃ e ∈ es, ∃ k, Allows e.min e.max k ∧ Valid P S.types (.times e k ns)) → KidsValid S P c A.flatten)
  | enum (es : List Element) (hb : D.body = .enum (es.filterMap (specOf S S.seqField false))) (ha : D.attrs = [])
      (hs : ∀ e ∈ es, Supp S S.seqField false e)
      (hk : ∀ e ∈ es, ∀ k ns, Allows e.min e.max k → Valid P S.types (.times e k ns) → KidsValid S P c ns)
  | text (g : Ident) (j : Nat) (hg : c.content = some g) (hj : S.tyRef g = some (.simple j)) (hb : D.body = .text j)

theorem order_nil {P : Lex} {T : Types} {ns : List Node} (h : Valid P T (.inOrder [] ns)) : ns = [] := by
  cases h
  rfl

theorem once_group {P : Lex} {T : Types} {i : Ident} {ns : List Node} (h : Valid P T (.group i ns)) :
    Valid P T (.groupTimes i 1 ns) := by
  have := Valid.oneMore h .noTimes
  rwa [List.append_nil] at this

theorem single_allows {mn : Nat} {mx : MaxOccurs} (h : fromOccurs mn mx = .single) : Allows mn mx 1 := by
  obtain ⟨h1, h2⟩ := fromOccurs_single h
  refine ⟨by omega, fun b hb => ?_⟩
  rw [h2] at hb
  cases hb
  exact Nat.le_refl _

theorem none_allows {mn : Nat} {mx : MaxOccurs} (h : fromOccurs mn mx = .none) : Allows mn mx 0 := by
  obtain ⟨h1, h2⟩ := fromOccurs_none h
  exact ⟨by omega, fun b _ => Nat.zero_le b⟩

theorem shape_of {S : Setup X} {P : Lex} (htidy : Tidy S.types) {i : Ident} {ty : MetaType} {c : Complex}
    (hm : (i, ty) ∈ S.types) (hv : ty.variant = .complex c) {D : StructSpec X} (hc : S.complexOf c = some D) :
    TypeOf S c D ∧ Shape S P c D := by
  have hexp : expectedContent S.types c = true := (complexOf_inv hc).2.2.1
  cases hg : c.content with
  | none =>
    have heq : newComplex S.flags S.types S.fuel c = newStruct S.flags S.types S.fuel false
        (mixedMode S.flags c.isMixed .complex) c.min c.max c.attributes [] := by
      unfold newComplex
      rw [hg]
      rfl
    obtain ⟨ht, h⟩ := complexOf_struct hc heq
    refine ⟨ht, .seq [] ?_ (fun e he => by cases he) fun ns h => Or.inl ⟨hg, order_nil h⟩⟩
    rcases h with h | h | ⟨_, ⟨_, h, _⟩ | ⟨h, _⟩⟩
    · exact h.2
    · exact h.1
    · exact h
    · cases h
  | some g =>
    obtain ⟨hdef, hle, hch⟩ := htidy.contents i ty c g hm hv hg
    have heq := newComplex_eq S.flags S.types S.fuel c g hg
    have nothing : fromOccurs c.min c.max = .none → KidsValid S P c [] := fun h =>
      Or.inr ⟨g, 0, hg, none_allows h, .noTimes⟩
    cases hd : denotes S.types g with
    | none => rw [hd] at hdef; cases hdef
    | some v =>
      rw [hd] at heq
      obtain ⟨ty', hget, hv'⟩ := get_of_denotes hd
      cases v with
      | sequence x =>
        simp only at heq
        obtain ⟨ht, h⟩ := complexOf_struct hc heq
        have one : fromOccurs c.min c.max = .single → ∀ ns, Valid P S.types (.inOrder x.elements ns) →
            KidsValid S P c ns := fun h1 ns h =>
          Or.inr ⟨g, 1, hg, single_allows h1, once_group ((Valid.of_res g).2.2 _ (.sequence hget hv' h))⟩
        refine ⟨ht, ?_⟩
        rcases h with h | ⟨hb, hn⟩ | ⟨hs1, ⟨_, hb, hsup⟩ | ⟨h, _⟩⟩
        · exact .seq [] h.2 (fun e he => by cases he) fun ns hn => by rw [order_nil hn]; exact nothing h.1
        · obtain ⟨h2, h3⟩ := all_dropped (field := S.seqField) hn
          simp only [expectedContent, hg, Option.bind_some, hd, Bool.or_eq_true, decide_eq_true_eq] at hexp
          rcases hexp with hs | hs
          · exact .seq x.elements (by rw [h2]; exact hb) h3 (one hs)
          · exact .seq [] hb (fun e he => by cases he) fun ns hn => by rw [order_nil hn]; exact nothing hs
        · exact .seq x.elements hb hsup (one hs1)
        · cases h
      | all x =>
        simp only at heq
        obtain ⟨ht, h⟩ := complexOf_struct hc heq
        have one : fromOccurs c.min c.max = .single → ∀ es' ns, es'.Perm x.elements →
            Valid P S.types (.inOrder es' ns) → KidsValid S P c ns := fun h1 es' ns hp h =>
          Or.inr ⟨g, 1, hg, single_allows h1, once_group ((Valid.of_res g).2.2 _ (.all hget hv' hp h))⟩
        refine ⟨ht, ?_⟩
        rcases h with h | ⟨hb, hn⟩ | ⟨hs1, ⟨h, _⟩ | ⟨_, hb, hsup⟩⟩
        · exact .seq [] h.2 (fun e he => by cases he) fun ns hn => by rw [order_nil hn]; exact nothing h.1
        · obtain ⟨h2, h3⟩ := all_dropped (field := S.seqField) hn
          simp only [expectedContent, hg, Option.bind_some, hd, Bool.or_eq_true, decide_eq_true_eq] at hexp
          rcases hexp with hs | hs
          · exact .seq x.elements (by rw [h2]; exact hb) h3 fun ns => one hs _ ns (List.Perm.refl _)
          · exact .seq [] hb (fun e he => by cases he) fun ns hn => by rw [order_nil hn]; exact nothing hs
        · cases h
        · exact .all x.elements (by rw [filterMap_element_seq hsup]; exact hb) (fun e he => supp_element_seq (hsup e he))
            (htidy.once _ _ x (mem_of_get hget) hv') (one hs1)
      | choice x =>
        simp only at heq
        obtain ⟨ht, h⟩ := complexOf_enum hc heq (by simp [alternatives, hg, hd])
        have alt : ∀ e ∈ x.elements, ∀ k ns, Allows e.min e.max k → Valid P S.types (.times e k ns) →
            Valid P S.types (.group g ns) := fun e he k ns hk h =>
          (Valid.of_res g).2.2 _ (.choice hget hv' he hk h)
        refine ⟨ht, ?_⟩
        rcases h with h | ⟨hb, hn⟩ | ⟨hsup, ⟨hs1, hda, hb⟩ | hb⟩
        · exact .seq [] h.2 (fun e he => by cases he) fun ns hn => by rw [order_nil hn]; exact nothing h.1
        · obtain ⟨h2, h3⟩ := all_dropped (field := S.seqField) hn
          refine .seq [] hb (fun e he => by cases he) fun ns hn => ?_
          rw [order_nil hn]
          rcases hch x hd with h0 | hne
          · exact Or.inr ⟨g, 0, hg, ⟨by omega, fun b _ => Nat.zero_le b⟩, .noTimes⟩
          · obtain ⟨e, he⟩ := List.exists_mem_of_ne_nil _ hne
            have hno : fromOccurs e.min e.max = .none := by
              rcases h3 e he with h | h
              · exact h
              · obtain ⟨f, hf⟩ := Option.isSome_iff_exists.1 h
                have : f ∈ x.elements.filterMap (specOf S S.seqField false) := List.mem_filterMap.2 ⟨e, he, hf⟩
                rw [h2] at this
                cases this
            have hempty := alt e he 0 [] (none_allows hno) .zero
            refine Or.inr ⟨g, c.min, hg, ⟨Nat.le_refl _, hle⟩, ?_⟩
            have := groupTimes_of (A := List.replicate c.min []) (g := g) (P := P) (T := S.types)
              (fun ns hn => by rw [List.eq_of_mem_replicate hn]; exact hempty)
            simpa using this
        · exact .enum x.elements hb hda hsup fun e he k ns hk h =>
            Or.inr ⟨g, 1, hg, single_allows hs1, once_group (alt e he k ns hk h)⟩
        · refine .choice x.elements hb hsup fun A hA h => Or.inr ⟨g, A.length, hg, hA, groupTimes_of fun ns hn => ?_⟩
          obtain ⟨e, he, k, hk, hv⟩ := h ns hn
          exact alt e he k ns hk hv
      | complex x => simp [expectedContent, hg, hd] at hexp
      | dynamic x => simp [expectedContent, hg, hd] at hexp
      | _ =>
        obtain ⟨ht, _, _, j, hj, hb⟩ := complexOf_simple hc heq
        exact ⟨ht, .text g j hg hj hb⟩

/-- The attributes of a tag, and what remains to be shown for the children. -/
theorem tag_back {S : Setup X} {P : Lex} (htidy : Tidy S.types) (hsound : S.SoundTexts P)
    (hreg : S.Regular) (hfree : S.XsiFree) {i : Ident} {k : Nat} {ty : MetaType} {c : Complex}
    {D : StructSpec X} (hget : Assoc.get S.types (res S.types i) = some ty) (hv : ty.variant = .complex c)
    (hD : S.compile.structs[k]? = some D) (ht : TypeOf S c D) {p : Pos} {t : Tag} {vs : List (Option X)}
    (hok : TagOk S.compile D.attrs p t vs) :
    ∃ as, AttrsRender S (posScope p) t.attrs as ∧
      (∀ kids, KidsValid S P c kids → Valid P S.types (.value i none as kids)) ∧
      ∀ g s, c.content = some g → Valid P S.types (.text g s) → Valid P S.types (.value i none as [.text s]) := by
  have hm := List.mem_of_getElem? hD
  obtain ⟨hreq, huniq⟩ := htidy.attributes _ _ c (mem_of_get hget) hv
  obtain ⟨as, h1, h2, h3⟩ := attrs_back hsound ht hreq huniq (hreg.attrPlain D hm)
    (hreg.attrDistinct D hm) (hfree D hm) hok
  refine ⟨as, h1, fun kids hk => (Valid.of_res i).2.1 _ _ _ ?_, fun g s hg hs => (Valid.of_res i).2.1 _ _ _ ?_⟩
  · rcases hk with ⟨hc, rfl⟩ | ⟨g, k, hc, ha, hk⟩
    · exact .emptyValue hget hv hc h2 h3
    · refine .complexValue hget hv hc h2 h3 ha ?_
      rw [ht.notMixed]
      exact hk
  · exact .simpleValue hget hv hg h2 h3 hs

theorem renders_kids {S : Setup X} {p : Pos} {t : Tag} {as : List (PropIdent × Txt)} {evs : List Event} {kids : List Node}
    (ha : AttrsRender S (posScope (posTrack p (.start t))) t.attrs as) (h : RendersAll S (posTrack p (.start t)) evs kids) :
    RendersBody S p as kids (.start t :: (evs ++ [.end_ t.name])) := by
  obtain ⟨items, rfl, h1, h2⟩ := h
  exact Or.inl ⟨t, items, rfl, ha, h1, h2⟩

theorem childFields_variants {V W : Type} (build : Nat → List V → W) (items : List (Item V)) :
    (childFields items).length = (variantsOf build items).length := by
  induction items with
  | nil => rfl
  | cons x items ih =>
    cases x with
    | pad e => exact ih
    | child j evs v =>
      show (j :: childFields items).length = (build j [v] :: variantsOf build items).length
      rw [List.length_cons, List.length_cons, ih]

/-- The alternative of a choice that a part belongs to. -/
theorem alt_back {S : Setup X} {P : Lex} (htidy : Tidy S.types) {m : Bool} {es : List Element} {fs : List FieldSpec}
    (hfs : fs = es.filterMap (specOf S S.seqField m)) (hone : ∀ f ∈ fs, f.min ≤ 1 ∧ f.max = .bounded 1) {j : Nat}
    {ns : List Node} (h : ∃ e, (fieldParticles S m es)[j]? = some e ∧ Valid P S.types (.particle e ns)) :
    ∃ e ∈ es, ∃ k, Allows e.min e.max k ∧ Valid P S.types (.times e k ns) := by
  obtain ⟨e, he, hv⟩ := h
  have hmem := List.mem_of_getElem? he
  obtain ⟨h1, h2⟩ := List.mem_filter.1 hmem
  obtain ⟨f, hf⟩ := Option.isSome_iff_exists.1 h2
  obtain ⟨h3, h4⟩ := hone f (by rw [hfs]; exact List.mem_filterMap.2 ⟨e, h1, hf⟩)
  refine ⟨e, h1, 1, ?_, ?_⟩
  · rcases field_allows (P := P) htidy hf (k := 1) ⟨h3, fun b hb => by rw [h4] at hb; cases hb; exact Nat.le_refl _⟩ with
      h | ⟨h, _⟩
    · exact h
    · cases h
  · have := Valid.succ hv (.zero (e := e))
    rwa [List.append_nil] at this

/-- **The translation.** A document that the table describes is valid. -/
theorem doc_back {S : Setup X} {P : Lex} (hsup : S.Supported) (htidy : Tidy S.types) (hsound : S.SoundTexts P)
    (hreg : S.Regular) (hfree : S.XsiFree) {ty : TyRef} {p : Pos} {evs : List Event} {v : Val X}
    (h : Doc S.compile ty p evs v) : Back S P ty p evs := by
  have hfits : ∀ {k : Nat} {D : StructSpec X}, S.compile.structs[k]? = some D → D.body.Fits D.attrs := fun hD =>
    hreg.fits _ (List.mem_of_getElem? hD)
  -- the type of an element with fields
  have setup : ∀ {i : Ident} {k : Nat} {D : StructSpec X}, S.compile.structs[k]? = some D → S.tyRef i = some (.struct k) →
      ∃ c, Shape S P c D ∧ ∀ {p : Pos} {t : Tag} {vs : List (Option X)}, TagOk S.compile D.attrs p t vs →
        ∃ as, AttrsRender S (posScope p) t.attrs as ∧
          (∀ kids, KidsValid S P c kids → Valid P S.types (.value i none as kids)) ∧
          ∀ g s, c.content = some g → Valid P S.types (.text g s) → Valid P S.types (.value i none as [.text s]) := by
    intro i k D hD hi
    obtain ⟨ty, c, D', hget, hv, hc, hD'⟩ := tyRef_struct hsup hi
    rw [hD] at hD'
    cases hD'
    obtain ⟨ht, hs⟩ := shape_of (P := P) htidy (mem_of_get hget) hv hc
    exact ⟨c, hs, fun hok => tag_back htidy hsound hreg hfree hget hv hD ht hok⟩
  induction h with
  | @simple k p t pieces c x ha hl hc hp =>
    intro i hi
    obtain ⟨_, hparse⟩ := tyRef_simple hi
    rw [hparse] at hp
    exact ⟨[], [.text c], Or.inr (Or.inl ⟨t, pieces, c, rfl, names_of_none ha, hl, hc, rfl⟩),
      .textValue (hsound i k hi c x (Or.inr hp))⟩
  | @simpleEmpty k p t x ha hp =>
    intro i hi
    obtain ⟨_, hparse⟩ := tyRef_simple hi
    rw [hparse] at hp
    exact ⟨[], [.text []], Or.inr (Or.inr ⟨t, rfl, names_of_none ha, Or.inr rfl⟩),
      .textValue (hsound i k hi [] x (Or.inl hp))⟩
  | @seq k D fs p t vs items hD hb ha hpad hi ho hc hn hd ih =>
    intro i hti
    obtain ⟨c, hs, htag⟩ := setup hD hti
    obtain ⟨as, h1, h2, _⟩ := htag ha
    cases hs with
    | seq es hb' hsup' hk =>
      rw [hb] at hb'
      cases hb'
      obtain ⟨ps, h3, h4, h5⟩ := children_back (P := P) (m := false) (es := es) rfl hpad hi hn ih
      refine ⟨as, ps.nodes, renders_kids h1 h3, h2 _ (hk _ (inOrder_of htidy hsup' (by rw [h4]; exact ho) h5 ?_))⟩
      intro i f hf
      rw [h4, count_childFields]
      exact hc i f hf
    | _ => simp_all
  | @all k D fs p t vs items hD hb ha hpad hi hc hn hd ih =>
    intro i hti
    obtain ⟨c, hs, htag⟩ := setup hD hti
    obtain ⟨as, h1, h2, _⟩ := htag ha
    cases hs with
    | all es hb' hsup' honce hk =>
      rw [hb] at hb'
      cases hb'
      obtain ⟨ps, h3, h4, h5⟩ := children_back (P := P) (m := false) (es := es) rfl hpad hi
        (fun q i evs v f h1 h2 _ => hn q i evs v f h1 h2) ih
      obtain ⟨es', h6, h7⟩ := matches_of htidy hsup' honce h5 (fun i f hf => by
        rw [h4, count_childFields]
        exact hc i f hf)
      exact ⟨as, ps.nodes, renders_kids h1 h3, h2 _ (hk es' _ h6 h7.order)⟩
    | _ => simp_all
  | @fieldsEmpty k D fs p t vs hD hb ha hm =>
    intro i hti
    obtain ⟨c, hs, htag⟩ := setup hD hti
    obtain ⟨as, h1, h2, _⟩ := htag ha
    refine ⟨as, [], Or.inr (Or.inr ⟨t, rfl, h1, Or.inl rfl⟩), h2 _ ?_⟩
    cases hs with
    | seq es hb' hsup' hk =>
      rw [hb'] at hb
      rcases hb with hb | hb
      · cases hb
        refine hk _ (inOrder_of (ps := []) htidy hsup' List.Pairwise.nil (fun x hx => by cases hx) fun i f hf => ?_)
        exact ⟨Nat.le_of_eq (hm f (List.mem_of_getElem? hf)), fun b _ => Nat.zero_le b⟩
      · cases hb
    | all es hb' hsup' honce hk =>
      rw [hb'] at hb
      rcases hb with hb | hb
      · cases hb
      · cases hb
        obtain ⟨es', h6, h7⟩ := matches_of (ps := []) htidy hsup' honce (fun x hx => by cases hx) (fun i f hf =>
          ⟨Nat.le_of_eq (hm f (List.mem_of_getElem? hf)), fun b _ => Nat.zero_le b⟩)
        exact hk es' _ h6 h7.order
    | _ => simp_all
  | @choice k D alts mn mx p t vs items hD hb ha hpad hi hc hn hd ih =>
    intro i hti
    obtain ⟨c, hs, htag⟩ := setup hD hti
    obtain ⟨as, h1, h2, _⟩ := htag ha
    cases hs with
    | choice es hb' hsup' hk =>
      rw [hb] at hb'
      cases hb'
      have hfit := hfits hD
      rw [hb] at hfit
      obtain ⟨ps, h3, h4, h5⟩ := children_back (P := P) (m := false) (es := es) rfl hpad hi hn ih
      refine ⟨as, ps.nodes, renders_kids h1 h3, h2 _ (hk (ps.map fun x : Nat × List Node => x.2) ?_ ?_)⟩
      · have : (ps.map fun x : Nat × List Node => x.2).length = (variantsOf Val.alt items).length := by
          rw [List.length_map, ← List.length_map (f := fun x : Nat × List Node => x.1), h4, childFields_variants Val.alt]
        rw [this]
        exact hc
      · intro ns hns
        obtain ⟨x, hx, rfl⟩ := List.mem_map.1 hns
        exact alt_back htidy rfl hfit.2 (h5 x hx)
    | _ => simp_all
  | @choiceEmpty k D alts mx p t vs hD hb ha =>
    intro i hti
    obtain ⟨c, hs, htag⟩ := setup hD hti
    obtain ⟨as, h1, h2, _⟩ := htag ha
    refine ⟨as, [], Or.inr (Or.inr ⟨t, rfl, h1, Or.inl rfl⟩), h2 _ ?_⟩
    cases hs with
    | choice es hb' hsup' hk =>
      rw [hb] at hb'
      injection hb' with _ hmin _
      exact hk [] ⟨by rw [← hmin]; exact Nat.le_refl _, fun b _ => Nat.zero_le b⟩ fun ns h => by cases h
    | _ => simp_all
  | @variant k D alts mn mx j f p evs v hD hb hf hn hd ih =>
    intro i hi
    obtain ⟨ty, hget, ⟨g, alts', hv, ha, hD'⟩ | ⟨g, fs, hv, ha, hD'⟩⟩ := groupName_struct hsup hi
    · rw [hD] at hD'
      cases hD'
      cases hb
      obtain ⟨m, hfs, hsup', hone⟩ := choiceAlts_spec ha
      rw [hfs] at hf
      obtain ⟨e, h1, _, h2⟩ := fieldParticles_get hf
      obtain ⟨ns, h3, h4⟩ := field_back h2 hn ih
      obtain ⟨e', he', k', hk', ht'⟩ := alt_back htidy hfs hone ⟨e, h1, h4⟩
      exact ⟨ns, h3, (Valid.of_res i).2.2 _ (.choice hget hv he' hk' ht')⟩
    · rw [hD] at hD'
      cases hD'
      cases hb
  | @group k D fs p items hD hb hfirst hpad hi ho hc hn hd ih =>
    intro i hti
    obtain ⟨ty, hget, ⟨g, alts', hv, ha, hD'⟩ | ⟨g, fs', hv, ha, hD'⟩⟩ := groupName_struct hsup hti
    · rw [hD] at hD'
      cases hD'
      cases hb
    · rw [hD] at hD'
      cases hD'
      cases hb
      obtain ⟨hfs, hsup', _⟩ := groupFields_spec ha
      obtain ⟨ps, h3, h4, h5⟩ := children_back (P := P) hfs hpad hi hn ih
      refine ⟨ps.nodes, h3, (Valid.of_res i).2.2 _ (.sequence hget hv
        (inOrder_of htidy hsup' (by rw [h4]; exact ho) h5 fun i f hf => ?_))⟩
      rw [h4, count_childFields]
      exact hc i f (by rw [hfs]; exact hf)
  | @enum k D alts j f p t items hD hb hf ha hpad hi hne hc hn hd ih =>
    intro i hti
    obtain ⟨c, hs, htag⟩ := setup hD hti
    cases hs with
    | enum es hb' hda hsup' hk =>
      rw [hb] at hb'
      cases hb'
      obtain ⟨as, h1, h2, _⟩ := htag (by rw [hda]; exact ha)
      obtain ⟨e, h3, h4, h5⟩ := fieldParticles_get hf
      obtain ⟨ps, h6, h7, h8⟩ := collect_parts (S := S) (p := posTrack p (.start t)) (items := items)
        (Q := fun _ ns => Valid P S.types (.particle e ns)) (each_of hpad fun l j' evs v r he =>
          have hat : ChildAt (posTrack p (.start t)) items (after (posTrack p (.start t)) (itemEvents l)) j' evs v :=
            ⟨l, r, he, rfl⟩
          field_back h5 (hn _ _ _ _ hat) (ih _ _ _ _ hat))
      have hlen : ps.length = (valuesOf j items).length := by
        rw [← count_childFields, ← List.length_map (f := fun x : Nat × List Node => x.1), h7]
        refine (List.count_eq_length.2 fun b hb => ?_).symm
        obtain ⟨x, hx, hxe⟩ := List.mem_filterMap.1 hb
        cases x with
        | pad e => cases hxe
        | child j' evs v => cases hxe; exact (hi _ _ _ hx).symm
      refine ⟨as, ps.nodes, renders_kids h1 h6, h2 _ (hk e h4 ps.length _ ?_ ?_)⟩
      · rw [hlen]
        rcases field_allows (P := P) htidy h5 hc with h | ⟨h, _⟩
        · exact h
        · exact absurd (List.eq_nil_of_length_eq_zero h) hne
      · have := times_of (P := P) (T := S.types) (e := e) (A := ps.map (·.2)) (fun ns hns => by
          obtain ⟨x, hx, rfl⟩ := List.mem_map.1 hns
          exact h8 x hx)
        rwa [List.length_map] at this
    | _ => simp_all
  | @text k D j p t pieces s vs x hD hb ha hl hc hp =>
    intro i hti
    obtain ⟨c, hs, htag⟩ := setup hD hti
    obtain ⟨as, h1, _, h2⟩ := htag ha
    cases hs with
    | text g j' hg hj hb' =>
      rw [hb] at hb'
      cases hb'
      rw [(tyRef_simple hj).2] at hp
      exact ⟨as, [.text s], Or.inr (Or.inl ⟨t, pieces, s, rfl, h1, hl, hc, rfl⟩),
        h2 g s hg (hsound g j hj s x (Or.inr hp))⟩
    | _ => simp_all
  | @textEmpty k D j p t vs x hD hb ha hp =>
    intro i hti
    obtain ⟨c, hs, htag⟩ := setup hD hti
    obtain ⟨as, h1, _, h2⟩ := htag ha
    cases hs with
    | text g j' hg hj hb' =>
      rw [hb] at hb'
      cases hb'
      rw [(tyRef_simple hj).2] at hp
      exact ⟨as, [.text []], Or.inr (Or.inr ⟨t, rfl, h1, Or.inr rfl⟩),
        h2 g [] hg (hsound g j hj [] x (Or.inl hp))⟩
    | _ => simp_all

/-! ## The table with what the serializers need -/

theorem Setup.WrittenBy.get {S : Setup X} {G : Schema X} (h : S.WrittenBy G) {k : Nat} {D : StructSpec X}
    (hD : G.structs[k]? = some D) : ∃ D', S.compile.structs[k]? = some D' ∧ D'.attrs = D.attrs ∧ D'.body = D.body := by
  have := congrArg (fun l => l[k]?) h.types
  simp only [List.getElem?_map, hD, Option.map_some] at this
  obtain ⟨D', h1, h2⟩ := Option.map_eq_some_iff.1 this.symm
  simp only [Prod.mk.injEq] at h2
  exact ⟨D', h1, h2.1, h2.2⟩

theorem Setup.WrittenBy.mem {S : Setup X} {G : Schema X} (h : S.WrittenBy G) {D : StructSpec X}
    (hD : D ∈ S.compile.structs) : ∃ D' ∈ G.structs, D'.attrs = D.attrs ∧ D'.body = D.body := by
  have : (D.attrs, D.body) ∈ G.structs.map fun D => (D.attrs, D.body) := by
    rw [h.types]
    exact List.mem_map.2 ⟨D, hD, rfl⟩
  obtain ⟨D', h1, h2⟩ := List.mem_map.1 this
  simp only [Prod.mk.injEq] at h2
  exact ⟨D', h1, h2.1, h2.2⟩

theorem Setup.WrittenBy.tag {S : Setup X} {G : Schema X} (h : S.WrittenBy G) {as : List (AttrSpec X)} {p : Pos} {t : Tag}
    {vs : List (Option X)} (hok : TagOk G as p t vs) : TagOk S.compile as p t vs := by
  have : attrTable G as = attrTable S.compile as := by
    unfold attrTable
    rw [h.parse, h.num]
    rfl
  unfold TagOk at hok ⊢
  rw [← this]
  exact hok

theorem Setup.WrittenBy.doc {S : Setup X} {G : Schema X} (h : S.WrittenBy G) {ty : TyRef} {p : Pos} {evs : List Event}
    {v : Val X} (hd : Doc G ty p evs v) : Doc S.compile ty p evs v := by
  have num : S.compile.num = G.num := h.num.symm
  induction hd with
  | simple ha hl hc hp => exact .simple ha hl (by rw [num]; exact hc) (by rw [← h.parse]; exact hp)
  | simpleEmpty ha hp => exact .simpleEmpty ha (by rw [← h.parse]; exact hp)
  | seq hD hb ha hpad hi ho hc hn _ ih =>
    obtain ⟨D', h1, h2, h3⟩ := h.get hD
    exact .seq h1 (by rw [h3]; exact hb) (by rw [h2]; exact h.tag ha) hpad hi ho hc hn ih
  | all hD hb ha hpad hi hc hn _ ih =>
    obtain ⟨D', h1, h2, h3⟩ := h.get hD
    exact .all h1 (by rw [h3]; exact hb) (by rw [h2]; exact h.tag ha) hpad hi hc hn ih
  | fieldsEmpty hD hb ha hm =>
    obtain ⟨D', h1, h2, h3⟩ := h.get hD
    exact .fieldsEmpty h1 (by rw [h3]; exact hb) (by rw [h2]; exact h.tag ha) hm
  | choice hD hb ha hpad hi hc hn _ ih =>
    obtain ⟨D', h1, h2, h3⟩ := h.get hD
    exact .choice h1 (by rw [h3]; exact hb) (by rw [h2]; exact h.tag ha) hpad hi hc hn ih
  | choiceEmpty hD hb ha =>
    obtain ⟨D', h1, h2, h3⟩ := h.get hD
    exact .choiceEmpty h1 (by rw [h3]; exact hb) (by rw [h2]; exact h.tag ha)
  | variant hD hb hf hn _ ih =>
    obtain ⟨D', h1, h2, h3⟩ := h.get hD
    exact .variant h1 (by rw [h3]; exact hb) hf hn ih
  | group hD hb hfirst hpad hi ho hc hn _ ih =>
    obtain ⟨D', h1, h2, h3⟩ := h.get hD
    exact .group h1 (by rw [h3]; exact hb) hfirst hpad hi ho hc hn ih
  | enum hD hb hf ha hpad hi hne hc hn _ ih =>
    obtain ⟨D', h1, h2, h3⟩ := h.get hD
    exact .enum h1 (by rw [h3]; exact hb) hf (h.tag ha) hpad hi hne hc hn ih
  | text hD hb ha hl hc hp =>
    obtain ⟨D', h1, h2, h3⟩ := h.get hD
    exact .text h1 (by rw [h3]; exact hb) (by rw [h2]; exact h.tag ha) hl (by rw [num]; exact hc)
      (by rw [← h.parse]; exact hp)
  | textEmpty hD hb ha hp =>
    obtain ⟨D', h1, h2, h3⟩ := h.get hD
    exact .textEmpty h1 (by rw [h3]; exact hb) (by rw [h2]; exact h.tag ha) (by rw [← h.parse]; exact hp)

theorem Setup.WrittenBy.regular {S : Setup X} {G : Schema X} (h : S.WrittenBy G) {d : Nat} (hn : G.Nested d) :
    S.Regular := by
  refine ⟨fun D hD => ?_, fun D hD a ha => ?_, fun D hD i j a b ha hb hij => ?_⟩ <;>
    obtain ⟨D', h1, h2, h3⟩ := h.mem hD
  · rw [← h2, ← h3]
    exact hn.fits D' h1
  · rw [← h2] at ha
    exact (hn.attrPlain D' h1 a ha).1
  · rw [← h2] at ha hb
    exact hn.attrDistinct D' h1 i j a b ha hb hij

/-! ## Theorems -/

/-- **C77.** Take any type information and the types generated for it. Every document that the generated type describes
writes down an element that is valid for the complex type: it has the children in the order and number that the type
information asks for, the required attributes and no others, and valid texts. The hypotheses: the types that are looked at
are of a supported kind (`Supported`), the type information is consistent (`Tidy`), the alternatives of repeated choices
occur once and attributes can be told apart (`Regular`), no attribute can be taken for one of the `xsi` attributes, and the
types generated for simple types read no text that is not valid for them (`SoundTexts`). Missing: the kinds of types that
the tables do not have. -/
theorem C77_described_document_valid_partial (S : Setup X) (P : Lex) (hsup : S.Supported) (htidy : Tidy S.types)
    (hreg : S.Regular) (hfree : S.XsiFree) (hsound : S.SoundTexts P) (i : Ident) (k : Nat)
    (hk : S.tyRef i = some (.struct k)) (name : PropIdent) (p : Pos) (evs : List Event) (v : Val X)
    (hd : Doc S.compile (.struct k) p evs v) (ho : Opens p evs (S.elementName name)) :
    ∃ as kids, Renders S p (.elem name none as kids) evs ∧ Valid P S.types (.value i none as kids) := by
  obtain ⟨as, kids, h1, h2⟩ := doc_back hsup htidy hsound hreg hfree hd i hk
  exact ⟨as, kids, renders_of_body ho h1, h2⟩

/-- **C77.** Every value of a generated type is written by its serializer, and what is written is valid for the complex type
that the type was generated for. -/
theorem C77_written_document_valid_partial (S : Setup X) (P : Lex) (hsup : S.Supported) (htidy : Tidy S.types)
    (hfree : S.XsiFree) (hsound : S.SoundTexts P) (G : Schema X) (hG : S.WrittenBy G) (d : Nat) (binds : Str → Str)
    (need : List (Str × Str)) (good : G.NestedGood d binds need) (i : Ident) (k : Nat)
    (hk : S.tyRef i = some (.struct k)) (name : PropIdent) (hplain : Plain (S.elementName name)) (D : StructSpec X)
    (hD : G.structs[k]? = some D) (v : Val X) (hv : Holds G (.struct k) v) (hnm : AllNamed G need (.struct k) v)
    (hneed : ∀ b ∈ need, b ∈ D.declares v (S.elementName name).text true)
    (hag : Agrees binds (D.declares v (S.elementName name).text true))
    (han : AttrsNamed G need (.struct k) v (S.elementName name).text true)
    (hres : Resolvable (D.declares v (S.elementName name).text true) (S.elementName name)) (n : Nat) (hn : depth v < n) :
    ∃ out evs as kids, (ser G n).Emits (.struct k (.init v (S.elementName name).text true)) {} out {} ∧
      reread out = some evs ∧ Renders S {} (.elem name none as kids) evs ∧
      Valid P S.types (.value i none as kids) := by
  cases n with
  | zero => omega
  | succ n =>
    obtain ⟨out, evs, t, h1, h2, h3, h4, ⟨e, es, he, ht⟩, h5⟩ := struct_written good (writing_all good n) k D hD v hv hnm
      (by omega) (S.elementName name).text true {} (by intro e he; cases he) {} (by intro e he; cases he) hag han
      (Or.inr hneed)
    have hdoc := hG.doc (h5 {} rfl).1
    have hopen : Opens {} evs (S.elementName name) := by
      refine ⟨e, es, t, he, ht, ?_⟩
      rw [h3]
      refine means_text _ _ hplain (known_of_resolvable _ _ _ hres ?_)
      intro b hb hne
      show inScope b.1 (posTrack {} e).opened = _
      rw [opened_tag {} e _ ht]
      exact h4 b (List.mem_append_right _ hb) hne
    obtain ⟨as, kids, h6, h7⟩ := C77_described_document_valid_partial S P hsup htidy (hG.regular good.toNested) hfree
      hsound i k hk name {} evs v hdoc hopen
    exact ⟨out, evs, as, kids, h1, h2, h6, h7⟩

end Verif.Generate

import Verif.Gen.Tables
import Verif.Gen.NestedChoice

/-!
# Tables of generated types with nested groups (C71)

What is asked of a table whose sequences and choices contain nested sequences and choices (`Schema.Nested`): from the name of
an element one can tell to which field it belongs, and whether it still belongs to the group before it. The types of
`Verif.Gen.Tables` with `Schema.Shape` are a special case.
-/

namespace Verif.Gen.Tab

open Verif.Rt Verif.Occurs

variable {X : Type}

/-! ## Specification -/

/-- The content of the field `f` can begin with the element `a`: `f` is that element, or `f` is a nested sequence with a
field that can begin with `a` and only optional fields before it, or a nested choice with an alternative that can begin with
`a`. -/
inductive Begins (G : Schema X) : FieldSpec → FieldSpec → Prop
  | element {f} (h : ∀ k, f.ty ≠ .variant k) : Begins G f f
  | seq {f k D es i g a} (hv : f.ty = .variant k) (hD : G.structs[k]? = some D) (hb : D.body = .seq es)
      (hg : es[i]? = some g) (hm : ∀ (j : Nat) g', j < i → es[j]? = some g' → g'.min = 0) (h : Begins G g a) : Begins G f a
  | choice {f k D g a} (hv : f.ty = .variant k) (hD : G.structs[k]? = some D) (hb : ∀ es, D.body ≠ .seq es)
      (hg : g ∈ D.body.elements) (h : Begins G g a) : Begins G f a

/-- Content of the type `ty` can be followed by the element `a`, and be longer then: `ty` is a nested sequence that ends
with a field that may get more values, or with such a group; or a nested choice with such a group. -/
inductive Remains (G : Schema X) : TyRef → FieldSpec → Prop
  | more {k D es i g a} (hD : G.structs[k]? = some D) (hb : D.body = .seq es) (hg : es[i]? = some g)
      (hx : g.max ≠ .bounded g.min) (hm : ∀ (j : Nat) g', i < j → es[j]? = some g' → g'.min = 0) (h : Begins G g a) :
      Remains G (.variant k) a
  | last {k D es i g a} (hD : G.structs[k]? = some D) (hb : D.body = .seq es) (hg : es[i]? = some g)
      (hm : ∀ (j : Nat) g', i < j → es[j]? = some g' → g'.min = 0) (h : Remains G g.ty a) : Remains G (.variant k) a
  | choice {k D g a} (hD : G.structs[k]? = some D) (hb : ∀ es, D.body ≠ .seq es) (hg : g ∈ D.body.elements)
      (h : Remains G g.ty a) : Remains G (.variant k) a

/-- Groups are nested at most `n` deep. -/
def Schema.Deep (G : Schema X) : Nat → TyRef → Prop
  | 0, .variant _ => False
  | n + 1, .variant k => ∀ D, G.structs[k]? = some D → ∀ f ∈ D.body.elements, G.Deep n f.ty
  | _, _ => True

/-- **Specification** of the tables with nested groups. Names can be told apart: an element with which a field can begin has
another name than those with which an earlier field could begin or go on, as long as nothing required is between them; in a
choice another one than those of the other alternatives; and what can be repeated cannot go on with the element with which it
begins. -/
structure Schema.Nested (G : Schema X) (d : Nat) : Prop where
  fits : ∀ D ∈ G.structs, D.body.Fits D.attrs
  max : ∀ D ∈ G.structs, ∀ f ∈ D.body.elements, f.max ≠ .bounded 0
  groups : ∀ D ∈ G.structs, ∀ f ∈ D.body.elements, ∀ k, f.ty = .variant k →
    (∀ es, D.body ≠ .all es) ∧ (∀ alts, D.body = .enum alts → f.min ≤ 1 ∧ f.max = .bounded 1) ∧
      ∃ D', G.structs[k]? = some D' ∧
        ((∃ es, D'.body = .seq es ∧ es ≠ []) ∨ ∃ alts mn mx, D'.body = .choice alts mn mx)
  deep : ∀ D ∈ G.structs, ∀ f ∈ D.body.elements, G.Deep d f.ty
  plain : ∀ D ∈ G.structs, ∀ f ∈ D.body.elements, Plain f.name
  seqDistinct : ∀ D ∈ G.structs, ∀ es, D.body = .seq es → ∀ (i j : Nat) f g, es[i]? = some f → es[j]? = some g → j < i →
    (∀ (m : Nat) f', j < m → m < i → es[m]? = some f' → f'.min = 0) → ∀ a b, Begins G f a →
    (g.max ≠ .bounded g.min ∧ Begins G g b) ∨ Remains G g.ty b → Distinct a.name b.name
  altDistinct : ∀ D ∈ G.structs, (∀ es, D.body ≠ .seq es) → ∀ (i j : Nat) f g, D.body.elements[i]? = some f →
    D.body.elements[j]? = some g → i ≠ j → (j < i ∨ ∃ k, f.ty = .variant k) → ∀ a b, Begins G f a → Begins G g b →
    Distinct a.name b.name
  seqRepeat : ∀ D ∈ G.structs, ∀ es, D.body = .seq es → ∀ f ∈ es, f.max ≠ .bounded 1 → ∀ a b, Begins G f a →
    Remains G f.ty b → Distinct a.name b.name
  altRepeat : ∀ D ∈ G.structs, ∀ alts mn mx, D.body = .choice alts mn mx → mx ≠ .bounded 1 → ∀ f ∈ alts, ∀ g ∈ alts,
    ∀ a b, Begins G f a → Remains G g.ty b → Distinct a.name b.name
  attrPlain : ∀ D ∈ G.structs, ∀ a ∈ D.attrs, Plain a.name ∧ isXmlnsKey a.name.text = false
  attrDistinct : ∀ D ∈ G.structs, ∀ (i j : Nat) a b, D.attrs[i]? = some a → D.attrs[j]? = some b →
    i ≠ j → Distinct a.name b.name

/-! ## Tables with choices in sequences only -/

theorem Schema.Shape.begins {G : Schema X} (good : G.Shape) {D : StructSpec X} (hD : D ∈ G.structs) {f a : FieldSpec}
    (hf : f ∈ D.body.elements) (h : Begins G f a) : a ∈ f.expand G := by
  cases h with
  | element hv => rw [expand_element hv]; simp
  | seq hv hD' hb hg hm h =>
    obtain ⟨_, D'', alts, mn, mx, h1, h2⟩ := good.tys D hD f hf _ hv
    rw [hD'] at h1; cases h1
    rw [hb] at h2; cases h2
  | choice hv hD' hb hg h =>
    rw [expand_group hv hD']
    cases h with
    | element => exact hg
    | seq hv' => exact absurd hv' (good.not_variant (List.mem_of_getElem? hD') hb hg _)
    | choice hv' => exact absurd hv' (good.not_variant (List.mem_of_getElem? hD') hb hg _)

theorem Schema.Shape.remains {G : Schema X} (good : G.Shape) {D : StructSpec X} (hD : D ∈ G.structs) {f b : FieldSpec}
    (hf : f ∈ D.body.elements) (h : Remains G f.ty b) : False := by
  generalize hty : f.ty = ty at h
  cases h with
  | more hD' hb =>
    obtain ⟨_, D'', alts, mn, mx, h1, h2⟩ := good.tys D hD f hf _ hty
    rw [hD'] at h1; cases h1
    rw [hb] at h2; cases h2
  | last hD' hb =>
    obtain ⟨_, D'', alts, mn, mx, h1, h2⟩ := good.tys D hD f hf _ hty
    rw [hD'] at h1; cases h1
    rw [hb] at h2; cases h2
  | @choice k D' g b hD' hb hg h =>
    have := good.not_variant (List.mem_of_getElem? hD') hb hg
    generalize hty' : g.ty = ty' at h
    cases h <;> exact this _ hty'

theorem Schema.Shape.nested {G : Schema X} (good : G.Shape) : G.Nested 1 where
  fits := good.fits
  max := good.max
  groups := by
    intro D hD f hf k hv
    obtain ⟨⟨fs, h1⟩, D', alts, mn, mx, h2, h3⟩ := good.tys D hD f hf k hv
    exact ⟨by rw [h1]; simp, by rw [h1]; simp, D', h2, Or.inr ⟨alts, mn, mx, h3⟩⟩
  deep := by
    intro D hD f hf
    cases hv : f.ty with
    | variant k =>
      obtain ⟨_, D', alts, mn, mx, h2, h3⟩ := good.tys D hD f hf k hv
      intro D'' h4 g hg
      rw [h2] at h4; cases h4
      have := good.not_variant (List.mem_of_getElem? h2) (by rw [h3]; simp) hg
      cases hg' : g.ty with
      | variant k => exact absurd hg' (this k)
      | simple k => trivial
      | struct k => trivial
    | simple k => trivial
    | struct k => trivial
  plain := good.fieldPlain
  seqDistinct := by
    intro D hD es hb i j f g hf hg hj _ a b ha hb'
    have hes : D.body.elements = es := by rw [hb]; rfl
    have hfm : f ∈ D.body.elements := by rw [hes]; exact List.mem_of_getElem? hf
    have hgm : g ∈ D.body.elements := by rw [hes]; exact List.mem_of_getElem? hg
    rcases hb' with ⟨hx, hb'⟩ | hb'
    · exact good.fieldDistinct D hD i j f g (by rw [hes]; exact hf) (by rw [hes]; exact hg) hj (fun h => hx h.2) a
        (good.begins hD hfm ha) b (good.begins hD hgm hb')
    · exact (good.remains hD hgm hb').elim
  altDistinct := by
    intro D hD hb i j f g hf hg hij ho a b ha hb'
    rcases ho with hj | ⟨k, hv⟩
    · exact good.fieldDistinct D hD i j f g hf hg hj (fun h => by obtain ⟨fs, h⟩ := h.1; exact hb fs h) a
        (good.begins hD (List.mem_of_getElem? hf) ha) b (good.begins hD (List.mem_of_getElem? hg) hb')
    · exact absurd hv (good.not_variant hD hb (List.mem_of_getElem? hf) k)
  seqRepeat := by
    intro D hD es hb f hf _ a b _ h
    exact (good.remains hD (f := f) (by rw [hb]; exact hf) h).elim
  altRepeat := by
    intro D hD alts mn mx hb _ f _ g hg a b _ h
    exact (good.remains hD (f := g) (by rw [hb]; exact hg) h).elim
  attrPlain := good.attrPlain
  attrDistinct := good.attrDistinct

/-! ## Fields decline what they cannot begin with -/

theorem Begins.plain {G : Schema X} {d : Nat} (good : G.Nested d) {D : StructSpec X} (hD : D ∈ G.structs) {f a : FieldSpec}
    (hf : f ∈ D.body.elements) (h : Begins G f a) : Plain a.name := by
  induction h generalizing D with
  | element => exact good.plain D hD _ hf
  | seq hv hD' hb hg hm h ih =>
    exact ih (List.mem_of_getElem? hD') (by rw [hb]; exact List.mem_of_getElem? hg)
  | choice hv hD' hb hg h ih => exact ih (List.mem_of_getElem? hD') hg

theorem field_declines {G : Schema X} {d : Nat} (good : G.Nested d) (p : Pos) (t : Tag) :
    ∀ (m n : Nat), m ≤ n → ∀ (D : StructSpec X), D ∈ G.structs → ∀ f ∈ D.body.elements, G.Deep m f.ty →
    (∀ b, Begins G f b → b.name.test (posScope p) t.name = false) → (elemField (de G n) f).Declines p t := by
  intro m
  induction m with
  | zero =>
    intro n _ D hD f hf hdeep hb
    have hv : ∀ k, f.ty ≠ .variant k := by
      intro k hk
      rw [hk] at hdeep
      exact hdeep
    unfold Field.Declines
    rw [show (elemField (de G n) f).want = _ from want_element hv]
    exact hb f (.element hv)
  | succ m ih =>
    intro n hn D hD f hf hdeep hb
    obtain ⟨n, rfl⟩ : ∃ n', n = n' + 1 := ⟨n - 1, by omega⟩
    by_cases hv : ∃ k, f.ty = .variant k
    · obtain ⟨k, hv⟩ := hv
      obtain ⟨_, _, D', hD', hbody⟩ := good.groups D hD f hf k hv
      have hmem := List.mem_of_getElem? hD'
      rw [hv] at hdeep
      have hdeep := hdeep D' hD'
      unfold Field.Declines
      rw [show (elemField (de G (n + 1)) f).want = none by show f.want = none; simp [FieldSpec.want, hv]]
      intro e he
      show ∃ a, (de G (n + 1) f.ty).init p e = _
      rw [hv]
      rcases hbody with ⟨es, hbd, hne⟩ | ⟨alts, mn, mx, hbd⟩
      · have hes : D'.body.elements = es := by rw [hbd]; rfl
        simp only [de, hD', groupDe, hbd]
        obtain ⟨a, h1⟩ := nested_declines (groupTy G (de G n) es) rfl (by simpa [groupTy] using hne) (by
            intro g hg
            simp only [groupTy, List.mem_map] at hg
            obtain ⟨g', _, rfl⟩ := hg
            rfl) p e t he (by
            intro j g hg hm
            obtain ⟨g', hg', rfl⟩ := elemField_get hg
            have hgm : g' ∈ D'.body.elements := by rw [hes]; exact List.mem_of_getElem? hg'
            refine ih n (by omega) D' hmem g' hgm (hdeep g' hgm) fun b hb' => hb b (.seq hv hD' hbd hg' ?_ hb')
            intro i g'' hi hg''
            exact hm i (elemField (de G n) g'') hi (by
              show (es.map _)[i]? = _
              rw [List.getElem?_map, hg'']; rfl))
        exact ⟨a, by simp only [embed, h1]; rfl⟩
      · have hes : D'.body.elements = alts := by rw [hbd]; rfl
        simp only [de, hD', groupDe, hbd, Body.elements]
        obtain ⟨a, h1⟩ := Verif.Gen.choice_declines (enumTy G (de G n) false alts) rfl p e t he (by
            intro g hg
            simp only [enumTy, List.mem_map] at hg
            obtain ⟨g', hg', rfl⟩ := hg
            have hgm : g' ∈ D'.body.elements := by rw [hes]; exact hg'
            exact ih n (by omega) D' hmem g' hgm (hdeep g' hgm) fun b hb' =>
              hb b (.choice hv hD' (by rw [hbd]; simp) hgm hb'))
        exact ⟨a, by simp only [embed, h1]; rfl⟩
    · have hv' : ∀ k, f.ty ≠ .variant k := fun k h => hv ⟨k, h⟩
      unfold Field.Declines
      rw [show (elemField (de G (n + 1)) f).want = _ from want_element hv']
      exact hb f (.element hv')

/-! ## Lingering groups -/

theorem lingers_mono {H C V : Type} {d : GDe H C V} {own own' : H → Tag → Prop} {v : V} {c : C}
    (h : Lingers d own v c) (hown : ∀ h t, own h t → own' h t) : Lingers d own' v c := by
  obtain ⟨P, hP, hs⟩ := h
  exact ⟨P, hP, hs.finish, hs.pad, fun c hc h e t he ht => hs.other c hc h e t he fun h' => ht (hown h t h'), hs.end_⟩

theorem groupReads_mono {H C V : Type} {track : H → Event → H} {d : GDe H C V} {own own' : H → Tag → Prop} {v : V} {p : H}
    {evs : List Event} (h : GroupReads track d p evs v own) (hown : ∀ h t, own h t → own' h t) :
    GroupReads track d p evs v own' := by
  rcases h with h | ⟨c, h1, h2⟩
  · exact Or.inl h
  · exact Or.inr ⟨c, h1, lingers_mono h2 hown⟩

theorem stays_embed {C : Type} {d : GDe Pos C (Val X)} (f : C → DSt X) (g : DSt X → Option C)
    (hg : ∀ c, g (f c) = some c) {st : Option C} {p : Pos} {evs : List Event} {c : C}
    (h : Stays posTrack d st p evs c) : Stays posTrack (embed d f g id) (st.map f) p evs (f c) := by
  induction h with
  | nil => exact .nil
  | @step st h e es c' c ev a hc hq rest ih =>
    refine .step (ev := ev) (a := a) ?_ hq ih
    cases st with
    | none =>
      have hc : d.init (posTrack h e) e = _ := hc
      show (embed d f g id).init _ _ = _
      simp only [embed, hc]
      rfl
    | some s =>
      have hc : d.next s (posTrack h e) e = _ := hc
      show (embed d f g id).next (f s) _ _ = _
      simp only [embed, hg, hc]
      rfl

theorem groupReads_embed {C : Type} {d : GDe Pos C (Val X)} (f : C → DSt X) (g : DSt X → Option C)
    (hg : ∀ c, g (f c) = some c) {p : Pos} {evs : List Event} {v : Val X} {own : Pos → Tag → Prop}
    (h : GroupReads posTrack d p evs v own) : GroupReads posTrack (embed d f g id) p evs v own := by
  rcases h with h | ⟨c, h1, P, hP, hs⟩
  · exact Or.inl (feeds_embed posTrack d f g id hg h)
  · refine Or.inr ⟨f c, stays_embed f g hg h1, fun s => ∃ c, s = f c ∧ P c, ⟨c, rfl, hP⟩, ?_, ?_, ?_, ?_⟩
    · rintro s ⟨c, rfl, hc⟩ h
      simp only [embed, hg, hs.finish c hc h]
      rfl
    · rintro s ⟨c, rfl, hc⟩ h e he
      obtain ⟨c', ev, a, h1, h2, h3⟩ := hs.pad c hc h e he
      exact ⟨f c', ev, a, by simp only [embed, hg, h1]; rfl, h2, c', rfl, h3⟩
    · rintro s ⟨c, rfl, hc⟩ h e t he ht
      obtain ⟨c', a, h1, h2⟩ := hs.other c hc h e t he ht
      exact ⟨f c', a, by simp only [embed, hg, h1]; rfl, c', rfl, h2⟩
    · rintro s ⟨c, rfl, hc⟩ h n
      obtain ⟨a, h1⟩ := hs.end_ c hc h n
      exact ⟨a, by simp only [embed, hg, h1]; rfl⟩

end Verif.Gen.Tab

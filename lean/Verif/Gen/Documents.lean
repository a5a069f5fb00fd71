import Verif.Gen.GroupTables

/-!
# Documents that the generated code reads (C71)

The documents that a table of generated types describes: elements with any prefixes, attributes in
any order, comments and blanks between the elements, text in pieces. `Doc` says which value such a
document stands for, and the deserializers of the table read every one of them as that value. What
is written by the serializers (`Verif.Gen.Tables`) is only a small part of these documents.
-/

namespace Verif.Gen.Tab

open Verif.Rt Verif.Occurs

variable {X : Type}

/-! ## Specification -/

/-- The reader's position after some events. -/
def after (p : Pos) (evs : List Event) : Pos := evs.foldl posTrack p

/-- The events are an element whose tag stands for the name `n`. -/
def Opens (p : Pos) (evs : List Event) (n : QN) : Prop :=
  ∃ e es t, evs = e :: es ∧ tagOf e = some t ∧ Means (posScope (posTrack p e)) t.name n

/-- Among the items, read from the position `p`, there is this child, and it starts at the position
`q`. -/
def ChildAt (p : Pos) (items : List (Item (Val X))) (q : Pos) (i : Nat) (evs : List Event)
    (v : Val X) : Prop :=
  ∃ l r, items = l ++ .child i evs v :: r ∧ q = after p (itemEvents l)

/-- The names on a tag are right: apart from namespace declarations and the `xsi` attributes, every attribute has the
name of a declared one. (The code also takes names without a prefix for any namespace.) -/
def NamesOk (scope : Str → Option Str) (as : List (AttrSpec X)) (t : Tag) : Prop :=
  ∀ a ∈ t.attrs, isXmlnsKey a.key = true ∨ globallyAllowed scope a = true ∨ ∃ b ∈ as, Means scope a.key b.name

/-- The attributes on a tag are valid (`ValidTag`, C07), and their names are right. -/
def TagOk (G : Schema X) (as : List (AttrSpec X)) (p : Pos) (t : Tag) (vs : List (Option X)) :
    Prop :=
  ValidTag (posScope p) (attrTable G as) t.attrs vs ∧ NamesOk (posScope p) as t

/-- **Specification**: the events are an element of the type `ty`, or the elements of the group `ty`, that
stand for the value `v`, for a reader that has come to the position `p`. The elements of a nested sequence begin with an
element; what is before it belongs to the content around the group. -/
inductive Doc (G : Schema X) : TyRef → Pos → List Event → Val X → Prop
  | simple {k p t pieces c x} (ha : NamesOk (X := X) (posScope (posTrack p (.start t))) [] t)
      (hl : ∀ e ∈ pieces, e.isLeaf = true)
      (hc : charContent G.num pieces = some c) (hp : G.parse k (trimAscii c) = .ok x) :
      Doc G (.simple k) p (.start t :: (pieces ++ [.end_ t.name])) (.simple x)
  | simpleEmpty {k p t x} (ha : NamesOk (X := X) (posScope (posTrack p (.empty t))) [] t)
      (hp : G.parse k [] = .ok x) : Doc G (.simple k) p [.empty t] (.simple x)
  | seq {k D es p t as items} (hD : G.structs[k]? = some D) (hb : D.body = .seq es)
      (ha : TagOk G D.attrs (posTrack p (.start t)) t as)
      (hpad : ∀ e, .pad e ∈ items → Padding e = true)
      (hi : ∀ i evs v, .child i evs v ∈ items → i < es.length)
      (ho : (childFields items).Pairwise (· ≤ ·))
      (hc : ∀ (i : Nat) f, es[i]? = some f → Allows f.min f.max (valuesOf i items).length)
      (hn : ∀ q (i : Nat) evs v f, ChildAt (posTrack p (.start t)) items q i evs v →
        es[i]? = some f → (∀ j, f.ty ≠ .variant j) → Opens q evs f.name)
      (hd : ∀ q (i : Nat) evs v f, ChildAt (posTrack p (.start t)) items q i evs v →
        es[i]? = some f → Doc G f.ty q evs v) :
      Doc G (.struct k) p (.start t :: (itemEvents items ++ [.end_ t.name]))
        (.struct as ((List.range es.length).map (valuesOf · items)))
  | all {k D es p t as items} (hD : G.structs[k]? = some D) (hb : D.body = .all es)
      (ha : TagOk G D.attrs (posTrack p (.start t)) t as)
      (hpad : ∀ e, .pad e ∈ items → Padding e = true)
      (hi : ∀ i evs v, .child i evs v ∈ items → i < es.length)
      (hc : ∀ (i : Nat) f, es[i]? = some f → Allows f.min f.max (valuesOf i items).length)
      (hn : ∀ q (i : Nat) evs v f, ChildAt (posTrack p (.start t)) items q i evs v →
        es[i]? = some f → Opens q evs f.name)
      (hd : ∀ q (i : Nat) evs v f, ChildAt (posTrack p (.start t)) items q i evs v →
        es[i]? = some f → Doc G f.ty q evs v) :
      Doc G (.struct k) p (.start t :: (itemEvents items ++ [.end_ t.name]))
        (.struct as ((List.range es.length).map (valuesOf · items)))
  | fieldsEmpty {k D es p t as} (hD : G.structs[k]? = some D)
      (hb : D.body = .seq es ∨ D.body = .all es)
      (ha : TagOk G D.attrs (posTrack p (.empty t)) t as) (hm : ∀ f ∈ es, f.min = 0) :
      Doc G (.struct k) p [.empty t] (.struct as (es.map fun _ => []))
  | choice {k D alts mn mx p t as items} (hD : G.structs[k]? = some D)
      (hb : D.body = .choice alts mn mx)
      (ha : TagOk G D.attrs (posTrack p (.start t)) t as)
      (hpad : ∀ e, .pad e ∈ items → Padding e = true)
      (hi : ∀ i evs v, .child i evs v ∈ items → i < alts.length)
      (hc : Allows mn mx (variantsOf Val.alt items).length)
      (hn : ∀ q (i : Nat) evs v f, ChildAt (posTrack p (.start t)) items q i evs v →
        alts[i]? = some f → (∀ j, f.ty ≠ .variant j) → Opens q evs f.name)
      (hd : ∀ q (i : Nat) evs v f, ChildAt (posTrack p (.start t)) items q i evs v →
        alts[i]? = some f → Doc G f.ty q evs v) :
      Doc G (.struct k) p (.start t :: (itemEvents items ++ [.end_ t.name]))
        (.struct as [variantsOf Val.alt items])
  | choiceEmpty {k D alts mx p t as} (hD : G.structs[k]? = some D) (hb : D.body = .choice alts 0 mx)
      (ha : TagOk G D.attrs (posTrack p (.empty t)) t as) :
      Doc G (.struct k) p [.empty t] (.struct as [[]])
  | variant {k D alts mn mx i f p evs v} (hD : G.structs[k]? = some D)
      (hb : D.body = .choice alts mn mx) (hf : alts[i]? = some f)
      (hn : (∀ j, f.ty ≠ .variant j) → Opens p evs f.name)
      (hd : Doc G f.ty p evs v) : Doc G (.variant k) p evs (.alt i [v])
  | group {k D es p items} (hD : G.structs[k]? = some D) (hb : D.body = .seq es)
      (hfirst : ∃ i evs v r, items = .child i evs v :: r)
      (hpad : ∀ e, .pad e ∈ items → Padding e = true)
      (hi : ∀ i evs v, .child i evs v ∈ items → i < es.length)
      (ho : (childFields items).Pairwise (· ≤ ·))
      (hc : ∀ (i : Nat) f, es[i]? = some f → Allows f.min f.max (valuesOf i items).length)
      (hn : ∀ q (i : Nat) evs v f, ChildAt p items q i evs v →
        es[i]? = some f → (∀ j, f.ty ≠ .variant j) → Opens q evs f.name)
      (hd : ∀ q (i : Nat) evs v f, ChildAt p items q i evs v → es[i]? = some f → Doc G f.ty q evs v) :
      Doc G (.variant k) p (itemEvents items) (.struct [] ((List.range es.length).map (valuesOf · items)))
  | enum {k D alts i f p t items} (hD : G.structs[k]? = some D) (hb : D.body = .enum alts)
      (hf : alts[i]? = some f) (ha : TagOk G [] (posTrack p (.start t)) t [])
      (hpad : ∀ e, .pad e ∈ items → Padding e = true)
      (hi : ∀ j evs v, .child j evs v ∈ items → j = i)
      (hne : valuesOf i items ≠ []) (hc : Allows f.min f.max (valuesOf i items).length)
      (hn : ∀ q j evs v, ChildAt (posTrack p (.start t)) items q j evs v →
        (∀ j, f.ty ≠ .variant j) → Opens q evs f.name)
      (hd : ∀ q j evs v, ChildAt (posTrack p (.start t)) items q j evs v → Doc G f.ty q evs v) :
      Doc G (.struct k) p (.start t :: (itemEvents items ++ [.end_ t.name]))
        (.alt i (valuesOf i items))
  | text {k D j p t pieces c as x} (hD : G.structs[k]? = some D) (hb : D.body = .text j)
      (ha : TagOk G D.attrs (posTrack p (.start t)) t as) (hl : ∀ e ∈ pieces, e.isLeaf = true)
      (hc : charContent G.num pieces = some c) (hp : G.parse j (trimAscii c) = .ok x) :
      Doc G (.struct k) p (.start t :: (pieces ++ [.end_ t.name])) (.struct as [[.simple x]])
  | textEmpty {k D j p t as x} (hD : G.structs[k]? = some D) (hb : D.body = .text j)
      (ha : TagOk G D.attrs (posTrack p (.empty t)) t as) (hp : G.parse j [] = .ok x) :
      Doc G (.struct k) p [.empty t] (.struct as [[.simple x]])

/-! ## Attributes -/

theorem readTag_ok {G : Schema X} {as : List (AttrSpec X)} {p : Pos} {t : Tag}
    {vs : List (Option X)} (h : TagOk G as p t vs) : readTag G as p t = .ok vs := by
  unfold readTag
  rw [(C07_accepted_iff (posScope p) (attrTable G as) t.attrs vs []).mpr ⟨h.1, by simp [attrTable]⟩]

theorem feeds_embed_id {C : Type} {d : GDe Pos C (Val X)} (f : C → DSt X) (g : DSt X → Option C)
    (hg : ∀ c, g (f c) = some c) {p : Pos} {evs : List Event} {v : Val X}
    (hf : Feeds posTrack d none p evs v) : Feeds posTrack (embed d f g id) none p evs v :=
  feeds_embed posTrack d f g id hg hf

/-! ## Items -/

section
variable {H C V : Type}

theorem valuesOf_count (i : Nat) (items : List (Item V)) :
    (valuesOf i items).length = (childFields items).count i := by
  induction items with
  | nil => rfl
  | cons x r ih =>
    cases x with
    | pad e => simpa [valuesOf, childFields] using ih
    | child j evs v =>
      by_cases h : j = i
      · simp only [valuesOf, childFields, List.filterMap_cons, h, if_true, List.length_cons,
          List.count_cons_self] at ih ⊢
        omega
      · simp only [valuesOf, childFields, List.filterMap_cons, h, if_false,
          List.count_cons_of_ne h] at ih ⊢
        exact ih

end

theorem after_append (p : Pos) (a b : List Event) : after p (a ++ b) = after (after p a) b := by
  simp [after]

theorem mem_valuesOf {items : List (Item (Val X))} {i : Nat} {evs : List Event} {v : Val X}
    (h : Item.child i evs v ∈ items) : v ∈ valuesOf i items := by
  simp only [valuesOf, List.mem_filterMap]
  exact ⟨_, h, by simp⟩

theorem allItems_of {fs : List (Field Pos (DSt X) (Val X))} {p : Pos}
    {items : List (Item (Val X))} (hpad : ∀ e, .pad e ∈ items → Padding e = true)
    (hch : ∀ l i evs v r, items = l ++ .child i evs v :: r →
      ∃ f e es t, fs[i]? = some f ∧ evs = e :: es ∧ tagOf e = some t ∧
        FirstNamed fs i (posTrack (after p (itemEvents l)) e) t ∧
        Feeds posTrack f.de none (after p (itemEvents l)) evs v) :
    AllItems posTrack fs p items ∧ ChoiceItems posTrack fs p items := by
  have : ∀ r l, items = l ++ r →
      AllItems posTrack fs (after p (itemEvents l)) r ∧
        ChoiceItems posTrack fs (after p (itemEvents l)) r := by
    intro r
    induction r with
    | nil => intro l _; exact ⟨trivial, trivial⟩
    | cons x r ih =>
      intro l hl
      have h1 := ih (l ++ [x]) (by rw [hl]; simp)
      rw [itemEvents_append, after_append] at h1
      cases x with
      | pad e =>
        have h2 := hpad e (by rw [hl]; simp)
        have h3 : after (after p (itemEvents l)) (itemEvents [(Item.pad e : Item (Val X))])
            = posTrack (after p (itemEvents l)) e := rfl
        rw [h3] at h1
        exact ⟨⟨h2, h1.1⟩, h2, h1.2⟩
      | child i evs v =>
        obtain ⟨f, e, es, t, h4, h5, h6, h7, h8⟩ := hch l i evs v r hl
        have h3 : after (after p (itemEvents l)) (itemEvents [Item.child i evs v])
            = evs.foldl posTrack (after p (itemEvents l)) := by
          simp [after, itemEvents, Item.events]
        rw [h3] at h1
        exact ⟨⟨⟨f, e, es, h4, h5, ⟨t, h6, Or.inl h7⟩, h8⟩, h1.1⟩, ⟨f, e, es, t, h4, h5, h6, h7, h8⟩,
          h1.2⟩
  exact this items [] rfl

theorem oneOf_of {fs : List (Field Pos (DSt X) (Val X))} {k : Nat} {p : Pos}
    {items : List (Item (Val X))} (hc : ChoiceItems posTrack fs p items)
    (hk : ∀ i evs v, .child i evs v ∈ items → i = k) : OneOf posTrack fs k p items := by
  induction items generalizing p with
  | nil => trivial
  | cons x r ih =>
    cases x with
    | pad e => exact ⟨hc.1, ih hc.2 fun i evs v h => hk i evs v (by simp [h])⟩
    | child i evs v =>
      have hik := hk i evs v (by simp)
      subst hik
      exact ⟨rfl, hc.1, ih hc.2 fun i evs v h => hk i evs v (by simp [h])⟩

/-! ## Elements without content -/

theorem all_empty_tag {H A C V W : Type} (track : H → Event → H) (T : SeqTy H A C V W)
    (hT : T.isElement = true) (h0 : ∀ f ∈ T.fields, f.max ≠ .bounded 0)
    (h : H) (t : Tag) (a : A) (ha : T.ofTag (track h (.empty t)) t = .ok a)
    (hmin : ∀ f ∈ T.fields, f.min = 0) :
    Feeds track T.allDe none h [.empty t] (T.build a (T.fields.map fun _ => [])) := by
  refine .last (a := false) ?_
  show T.allInit _ _ = _
  have hf := finishFields_ok (track h (.empty t)) T.fields (T.fields.map fun _ => ([] : List V))
    (by simp) h0 (by
      intro i f hf
      have : (T.fields.map fun _ => ([] : List V)).getD i [] = [] := by
        simp only [List.getD_eq_getElem?_getD, List.getElem?_map]
        cases T.fields[i]? <;> rfl
      rw [this, hmin f (List.mem_of_getElem? hf)]
      exact ⟨Nat.le_refl _, fun b _ => Nat.zero_le _⟩)
  simp [SeqTy.allInit, hT, initFromStart, ha, Except.map, SeqTy.allFinish, SeqTy.allStart,
    SeqTy.allFlush, SeqTy.allFinishVals, hf]

theorem content_empty_tag {H A C V W : Type} (track : H → Event → H) (T : ContentTy H A C V W)
    (hT : T.isElement = true) (h0 : T.content.max ≠ .bounded 0) (hmin : T.content.min = 0)
    (h : H) (t : Tag) (a : A) (ha : T.ofTag (track h (.empty t)) t = .ok a) :
    Feeds track T.de none h [.empty t] (T.build a []) := by
  refine .last (a := false) ?_
  show T.init _ _ = _
  have hf := finishField_ok T.content (track h (.empty t)) []
    (by rw [hmin]; exact ⟨Nat.le_refl _, fun b _ => Nat.zero_le _⟩) h0
  simp [ContentTy.init, hT, initFromStart, ha, Except.map, ContentTy.finish, ContentTy.start,
    ContentTy.flush, ContentTy.finishVals, hf]

/-! ## The documents are read -/

/-- The tags that a group could still take. -/
def RestTag (G : Schema X) (ty : TyRef) : Pos → Tag → Prop :=
  fun p t => ∃ b, Remains G ty b ∧ b.name.test (posScope p) t.name = true

/-- A child of an `xs:all` or of a choice is for the first alternative with its name. -/
theorem child_first {G : Schema X} {d : Nat} (good : G.Nested d) {m : Nat} {D : StructSpec X} (hD : D ∈ G.structs)
    (hns : ∀ fs, D.body ≠ .seq fs) {i : Nat} {f : FieldSpec} (hf : D.body.elements[i]? = some f)
    (hne : ∀ k, f.ty ≠ .variant k) {q : Pos} {t : Tag} (ht : Means (posScope q) t.name f.name) :
    FirstNamed (D.body.elements.map (elemField (de G m))) i q t := by
  have hplain := good.plain D hD f (List.mem_of_getElem? hf)
  constructor
  · exact ⟨elemField (de G m) f, _, by rw [List.getElem?_map, hf]; rfl, want_element hne, test_means _ _ _ hplain ht⟩
  · intro j g w hj hg hw
    obtain ⟨g', hg', rfl⟩ := elemField_get hg
    have hne' : ∀ k, g'.ty ≠ .variant k := by
      intro k hk
      have : (elemField (de G m) g').want = none := by show g'.want = none; simp [FieldSpec.want, hk]
      rw [this] at hw
      cases hw
    rw [show (elemField (de G m) g').want = _ from want_element hne'] at hw
    cases hw
    exact means_other _ _ _ _ hplain ht
      (good.altDistinct D hD hns i j f g' hf hg' (by omega) (Or.inl hj) f g' (.element hne) (.element hne'))

/-- What begins an alternative selects it. -/
theorem selects_of {G : Schema X} {d : Nat} (good : G.Nested d) {m : Nat} (hm : d ≤ m) {D : StructSpec X}
    (hD : D ∈ G.structs) (hns : ∀ fs, D.body ≠ .seq fs) {i : Nat} {f a : FieldSpec}
    (hf : D.body.elements[i]? = some f) (ha : Begins G f a) {q : Pos} {t : Tag}
    (ht : Means (posScope q) t.name a.name) :
    Selects (D.body.elements.map (elemField (de G m))) i q t := by
  have hplain := ha.plain good hD (List.mem_of_getElem? hf)
  by_cases hv : ∃ k, f.ty = .variant k
  · have hother : ∀ (j : Nat) g b, j ≠ i → D.body.elements[j]? = some g → Begins G g b →
        b.name.test (posScope q) t.name = false := fun j g b hj hg hb =>
      means_other _ _ _ _ hplain ht (good.altDistinct D hD hns i j f g hf hg (Ne.symm hj) (Or.inr hv) a b ha hb)
    obtain ⟨k, hv⟩ := hv
    refine Or.inr ⟨⟨elemField (de G m) f, by rw [List.getElem?_map, hf]; rfl, ?_⟩, ?_, ?_⟩
    · show f.want = none
      simp [FieldSpec.want, hv]
    · intro g hg w hw
      obtain ⟨j, hj⟩ := List.mem_iff_getElem?.mp hg
      obtain ⟨g', hg', rfl⟩ := elemField_get hj
      have hne' : ∀ k, g'.ty ≠ .variant k := by
        intro k hk
        have : (elemField (de G m) g').want = none := by show g'.want = none; simp [FieldSpec.want, hk]
        rw [this] at hw
        cases hw
      rw [show (elemField (de G m) g').want = _ from want_element hne'] at hw
      cases hw
      refine hother j g' g' ?_ hg' (.element hne')
      intro hji
      subst hji
      rw [hf] at hg'
      cases hg'
      exact hne' k hv
    · intro j g hj hg _
      obtain ⟨g', hg', rfl⟩ := elemField_get hg
      have hgm := List.mem_of_getElem? hg'
      exact field_declines good q t d m hm D hD g' hgm (good.deep D hD g' hgm) fun b hb =>
        hother j g' b (by omega) hg' hb
  · have hv' : ∀ k, f.ty ≠ .variant k := fun k h => hv ⟨k, h⟩
    refine Or.inl (child_first good hD hns hf hv' ?_)
    cases ha with
    | element => exact ht
    | seq hv => exact absurd hv (hv' _)
    | choice hv => exact absurd hv (hv' _)

theorem Opens.append {p : Pos} {evs : List Event} {n : QN} (h : Opens p evs n) (evs' : List Event) :
    Opens p (evs ++ evs') n := by
  obtain ⟨e, es, t, rfl, h1, h2⟩ := h
  exact ⟨e, es ++ evs', t, rfl, h1, h2⟩

/-- If only children of the fields from `i` on are left and none of the field `j` was there, it is optional. -/
theorem absent_optional {es : List FieldSpec} {items : List (Item (Val X))} {j : Nat} {g : FieldSpec}
    (hg : es[j]? = some g) (hc : ∀ (i : Nat) f, es[i]? = some f → Allows f.min f.max (valuesOf i items).length)
    (hj : j ∉ childFields items) : g.min = 0 := by
  have h1 := (hc j g hg).1
  rw [valuesOf_count, List.count_eq_zero.mpr hj] at h1
  omega

/-- The events of a field begin with an element with which the field can begin. -/
theorem doc_begins {G : Schema X} {ty : TyRef} {p : Pos} {evs : List Event} {v : Val X} (h : Doc G ty p evs v) :
    ∀ f : FieldSpec, f.ty = ty → ((∀ j, f.ty ≠ .variant j) → Opens p evs f.name) →
      ∃ a, Begins G f a ∧ Opens p evs a.name := by
  have elem : ∀ (ty : TyRef) (p : Pos) (evs : List Event), (∀ k, ty ≠ .variant k) → ∀ f : FieldSpec, f.ty = ty →
      ((∀ j, f.ty ≠ .variant j) → Opens p evs f.name) → ∃ a, Begins G f a ∧ Opens p evs a.name := by
    intro ty p evs hne f hf hn
    subst hf
    exact ⟨f, .element hne, hn hne⟩
  induction h with
  | variant hD hb hf hn hd ih =>
    intro f' hv _
    obtain ⟨a, h1, h2⟩ := ih _ rfl hn
    exact ⟨a, .choice hv hD (by rw [hb]; simp) (by rw [hb]; exact List.mem_of_getElem? hf) h1, h2⟩
  | @group k D es p items hD hb hfirst hpad hi ho hc hn hd ih =>
    intro f' hv _
    obtain ⟨i, evs, v, r, rfl⟩ := hfirst
    have hlt := hi i evs v (by simp)
    have hf : es[i]? = some es[i] := List.getElem?_eq_getElem hlt
    have hat : ChildAt p (.child i evs v :: r) p i evs v := ⟨[], r, rfl, rfl⟩
    obtain ⟨a, h1, h2⟩ := ih p i evs v _ hat hf _ rfl (hn p i evs v _ hat hf)
    refine ⟨a, .seq hv hD hb hf ?_ h1, h2.append (itemEvents r)⟩
    intro j g hj hg
    refine absent_optional hg hc ?_
    rw [show childFields (.child i evs v :: r) = i :: childFields r from rfl] at ho ⊢
    intro hm
    rcases List.mem_cons.mp hm with h | h
    · omega
    · have := List.rel_of_pairwise_cons ho h
      omega
  | simple => exact elem _ _ _ (by simp)
  | simpleEmpty => exact elem _ _ _ (by simp)
  | seq => exact elem _ _ _ (by simp)
  | all => exact elem _ _ _ (by simp)
  | fieldsEmpty => exact elem _ _ _ (by simp)
  | choice => exact elem _ _ _ (by simp)
  | choiceEmpty => exact elem _ _ _ (by simp)
  | enum => exact elem _ _ _ (by simp)
  | text => exact elem _ _ _ (by simp)
  | textEmpty => exact elem _ _ _ (by simp)

/-- A field with a fixed number of values has them all when a child of a later field comes. -/
theorem exact_past {es : List FieldSpec} {d : TyRef → GDe Pos (DSt X) (Val X)}
    {items l r : List (Item (Val X))} {i j : Nat} {evs : List Event} {v : Val X} {g : FieldSpec}
    (hs : items = l ++ .child i evs v :: r) (ho : (childFields items).Pairwise (· ≤ ·))
    (hj : j < i) (hg : es[j]? = some g) (hex : g.max = .bounded g.min)
    (hc : Allows g.min g.max (valuesOf j items).length) :
    Past (es.map (elemField d)) (childFields l).reverse j := by
  refine Or.inr ?_
  intro f hf
  rw [List.getElem?_map, hg] at hf
  simp only [Option.map_some, Option.some.injEq] at hf
  subst hf
  show g.max = _
  have hlen : (valuesOf j items).length = g.min :=
    Nat.le_antisymm (hc.2 _ hex) hc.1
  rw [hex, ← hlen, valuesOf_count, hs, childFields_append, List.count_append, List.count_reverse]
  have h1 : (childFields (Item.child i evs v :: r)).count j = 0 := by
    rw [List.count_eq_zero]
    intro hm
    rw [hs, childFields_append, List.pairwise_append] at ho
    have h2 := ho.2.1
    have h3 : childFields (Item.child i evs v :: r) = i :: childFields r := rfl
    rw [h3] at hm h2
    rcases List.mem_cons.mp hm with h | h
    · omega
    · have := List.rel_of_pairwise_cons h2 h
      omega
  rw [h1]
  rfl

theorem depth_child {as : List (Option X)} {es : List FieldSpec} {items : List (Item (Val X))}
    {i : Nat} {evs : List Event} {v : Val X} (hi : i < es.length) (hm : Item.child i evs v ∈ items) :
    depth v < depth (.struct as ((List.range es.length).map (valuesOf · items))) := by
  have := depth_field as ((List.range es.length).map (valuesOf · items)) i v (by
    rw [List.getD_eq_getElem?_getD, List.getElem?_map, List.getElem?_range hi]
    exact mem_valuesOf hm)
  omega

/-- Children before and after a child, in order. -/
theorem order_split {items l r : List (Item (Val X))} {i : Nat} {evs : List Event} {v : Val X}
    (hs : items = l ++ .child i evs v :: r) (ho : (childFields items).Pairwise (· ≤ ·)) :
    (∀ j ∈ childFields l, j ≤ i) ∧ (∀ j ∈ childFields r, i ≤ j) ∧
      childFields items = childFields l ++ i :: childFields r := by
  have h3 : childFields items = childFields l ++ i :: childFields r := by
    rw [hs, childFields_append]; rfl
  rw [h3, List.pairwise_append] at ho
  exact ⟨fun j hj => ho.2.2 j hj i (by simp), fun j hj => List.rel_of_pairwise_cons ho.2.1 hj, h3⟩

/-- The tags that the group of the last child among `l` could still take. -/
def ownAt (G : Schema X) (es : List FieldSpec) (l : List (Item (Val X))) : Pos → Tag → Prop :=
  fun p t => ∃ j f, (childFields l).getLast? = some j ∧ es[j]? = some f ∧ RestTag G f.ty p t

theorem getLast_max {l : List Nat} (ho : l.Pairwise (· ≤ ·)) {j : Nat} (hj : l.getLast? = some j) : ∀ i ∈ l, i ≤ j := by
  obtain ⟨l', rfl⟩ := List.getLast?_eq_some_iff.mp hj
  intro i hi
  rcases List.mem_append.mp hi with h | h
  · exact (List.pairwise_append.mp ho).2.2 i h j (by simp)
  · simp only [List.mem_singleton] at h
    omega

/-- The items of a sequence, as the fields see them. -/
theorem parts_of {G : Schema X} {d : Nat} (good : G.Nested d) {m : Nat} (hm : d ≤ m) {D : StructSpec X}
    (hD : D ∈ G.structs) {es : List FieldSpec} (hb : D.body = .seq es) {p : Pos} {items : List (Item (Val X))}
    (hpad : ∀ e, .pad e ∈ items → Padding e = true)
    (hi : ∀ i evs v, .child i evs v ∈ items → i < es.length)
    (ho : (childFields items).Pairwise (· ≤ ·))
    (hc : ∀ (i : Nat) f, es[i]? = some f → Allows f.min f.max (valuesOf i items).length)
    (hn : ∀ q (i : Nat) evs v f, ChildAt p items q i evs v →
      es[i]? = some f → (∀ j, f.ty ≠ .variant j) → Opens q evs f.name)
    (hd : ∀ q (i : Nat) evs v f, ChildAt p items q i evs v → es[i]? = some f → Doc G f.ty q evs v)
    (ih : ∀ q (i : Nat) evs v f, ChildAt p items q i evs v → es[i]? = some f →
      GroupReads posTrack (de G m f.ty) q evs v (RestTag G f.ty)) :
    PartsOk posTrack (es.map (elemField (de G m))) (ownAt G es items) [] (fun _ _ => False) p items := by
  have hes : D.body.elements = es := by rw [hb]; rfl
  have hall : ∀ r l, items = l ++ r →
      PartsOk posTrack (es.map (elemField (de G m))) (ownAt G es items) (childFields l).reverse (ownAt G es l)
        (after p (itemEvents l)) r := by
    intro r
    induction r with
    | nil => intro l hl; rw [hl, List.append_nil]; rfl
    | cons x r ihr =>
      intro l hl
      have h1 := ihr (l ++ [x]) (by rw [hl]; simp)
      rw [itemEvents_append, after_append] at h1
      cases x with
      | pad e =>
        refine ⟨hpad e (by rw [hl]; simp), ?_⟩
        have h2 : childFields (l ++ [(.pad e : Item (Val X))]) = childFields l := by
          rw [childFields_append]; simp [childFields]
        have h3 : ownAt G es (l ++ [(.pad e : Item (Val X))]) = ownAt G es l := by
          unfold ownAt
          rw [h2]
        rw [h2, h3] at h1
        exact h1
      | child i evs v =>
        have hmem : Item.child i evs v ∈ items := by rw [hl]; simp
        have hlt := hi i evs v hmem
        have hat : ChildAt p items (after p (itemEvents l)) i evs v := ⟨l, r, hl, rfl⟩
        have hf : es[i]? = some es[i] := List.getElem?_eq_getElem hlt
        have hfm : es[i] ∈ D.body.elements := by rw [hes]; exact List.mem_of_getElem? hf
        obtain ⟨hol, hor, hcf⟩ := order_split hl ho
        obtain ⟨a, ha, e, es', t', h4, h5, h6⟩ := doc_begins (hd _ i evs v _ hat hf) _ rfl (hn _ i evs v _ hat hf)
        have hplain := ha.plain good hD hfm
        have hopt : ∀ (j k : Nat) g, k ∉ childFields l → k < i → es[k]? = some g → g.min = 0 := by
          intro j k g hk hki hg
          refine absent_optional hg hc ?_
          rw [hcf]
          intro hmm
          rcases List.mem_append.mp hmm with h | h
          · exact hk h
          · rcases List.mem_cons.mp h with h | h
            · omega
            · have := hor k h
              omega
        have h2 : childFields (l ++ [.child i evs v]) = childFields l ++ [i] := by
          rw [childFields_append]; rfl
        have hlast : (childFields l ++ [i]).getLast? = some i := by simp
        refine ⟨ownAt G es (l ++ [.child i evs v]), ⟨elemField (de G m) es[i], e, es', t', ?_, h4, h5, ⟨?_, ?_⟩, ?_, ?_⟩, ?_⟩
        · rw [List.getElem?_map, hf]; rfl
        · intro g w hg hw
          obtain ⟨g', hg', rfl⟩ := elemField_get hg
          rw [hf] at hg'
          cases hg'
          have hne : ∀ k, es[i].ty ≠ .variant k := by
            intro k hk
            have : (elemField (de G m) es[i]).want = none := by show es[i].want = none; simp [FieldSpec.want, hk]
            rw [this] at hw
            cases hw
          rw [show (elemField (de G m) es[i]).want = _ from want_element hne] at hw
          cases hw
          cases ha with
          | element => exact test_means _ _ _ hplain h6
          | seq hv => exact absurd hv (hne _)
          | choice hv => exact absurd hv (hne _)
        · intro j g hj hnp hg
          obtain ⟨g', hg', rfl⟩ := elemField_get hg
          have hgm : g' ∈ D.body.elements := by rw [hes]; exact List.mem_of_getElem? hg'
          refine field_declines good _ _ d m hm D hD g' hgm (good.deep D hD g' hgm) fun b hb' => ?_
          refine means_other _ _ _ _ hplain h6 (good.seqDistinct D hD es hb i j _ g' hf hg' hj ?_ a b ha (Or.inl ⟨?_, hb'⟩))
          · intro k f' hjk hki hf'
            refine hopt 0 k f' ?_ hki hf'
            intro hk
            exact hnp (Or.inl ⟨k, List.mem_reverse.mpr hk, hjk⟩)
          · intro hex
            exact hnp (exact_past hl ho hj hg' hex (hc j g' hg'))
        · rintro ⟨j, g, hj, hg, b, hb1, hb2⟩
          have hjl : j ∈ childFields l := List.mem_of_getLast? hj
          have hmax := getLast_max (by
            rw [hcf, List.pairwise_append] at ho
            exact ho.1) hj
          have hdist : Distinct a.name b.name := by
            rcases Nat.lt_or_eq_of_le (hol j hjl) with hji | hji
            · refine good.seqDistinct D hD es hb i j _ g hf hg hji ?_ a b ha (Or.inr hb1)
              intro k f' hjk hki hf'
              refine hopt 0 k f' ?_ hki hf'
              intro hk
              have := hmax k hk
              omega
            · subst hji
              rw [hf] at hg
              cases hg
              refine good.seqRepeat D hD es hb _ (List.mem_of_getElem? hf) ?_ a b ha hb1
              intro h1
              have h2 := (hc j _ hf).2 1 h1
              rw [valuesOf_count, hcf, List.count_append, List.count_cons_self] at h2
              have := List.count_pos_iff.mpr hjl
              omega
          rw [means_other _ _ _ _ hplain h6 hdist] at hb2
          cases hb2
        · refine groupReads_mono (ih _ i evs v _ hat hf) fun p t h => ⟨i, es[i], ?_, hf, h⟩
          rw [h2, hlast]
        · rw [h2] at h1
          simpa [itemEvents, Item.events, after] using h1
  have h0 : (fun _ _ => False) = ownAt G es ([] : List (Item (Val X))) := by
    funext p t
    refine propext ⟨False.elim, ?_⟩
    rintro ⟨j, f, hj, _⟩
    cases hj
  rw [h0]
  exact hall items [] rfl

/-- What a nested sequence could still take after its items. -/
theorem ownTags_rest {G : Schema X} {d : Nat} (good : G.Nested d) {m k : Nat} (hm : d ≤ m) {D : StructSpec X}
    (hD : G.structs[k]? = some D) {es : List FieldSpec} (hb : D.body = .seq es) {items : List (Item (Val X))}
    (ho : (childFields items).Pairwise (· ≤ ·))
    (hc : ∀ (i : Nat) f, es[i]? = some f → Allows f.min f.max (valuesOf i items).length) (p : Pos) (t : Tag)
    (h : ownTags (es.map (elemField (de G m))) items (ownAt G es items) p t) : RestTag G (.variant k) p t := by
  have hmem := List.mem_of_getElem? hD
  have hes : D.body.elements = es := by rw [hb]; rfl
  rcases h with ⟨j, g, hj, hg, b, hb1, hb2⟩ | ⟨j, g, hnp, hg, hdec⟩
  · refine ⟨b, .last hD hb hg ?_ hb1, hb2⟩
    intro i g' hi hg'
    refine absent_optional hg' hc fun hm => ?_
    have := getLast_max ho hj i hm
    omega
  · obtain ⟨g', hg', rfl⟩ := elemField_get hg
    have hgm : g' ∈ D.body.elements := by rw [hes]; exact List.mem_of_getElem? hg'
    obtain ⟨b, hb1, hb2⟩ : ∃ b, Begins G g' b ∧ b.name.test (posScope p) t.name = true := by
      refine Classical.byContradiction fun hno => hdec ?_
      refine field_declines good p t d m hm D hmem g' hgm (good.deep D hmem g' hgm) fun b hb' => ?_
      cases ht : b.name.test (posScope p) t.name with
      | false => rfl
      | true => exact absurd ⟨b, hb', ht⟩ hno
    refine ⟨b, .more hD hb hg' ?_ ?_ hb1, hb2⟩
    · intro hex
      refine hnp (Or.inr ?_)
      intro f hf
      rw [hg] at hf
      cases hf
      show g'.max = _
      have := hc j g' hg'
      have h1 := this.2 _ hex
      have h2 := this.1
      rw [valuesOf_count] at h1 h2
      rw [hex, Nat.le_antisymm h1 h2]
    · intro i g'' hi hg''
      refine absent_optional hg'' hc fun hm => ?_
      exact hnp (Or.inl ⟨i, hm, hi⟩)

/-- An alternative as a variant of the content enum. -/
theorem variant_reads {G : Schema X} {d : Nat} (good : G.Nested d) {k : Nat} {D : StructSpec X}
    {alts : List FieldSpec} {mn : Nat} {mx : MaxOccurs} (hD : G.structs[k]? = some D)
    (hb : D.body = .choice alts mn mx) {i : Nat} {f : FieldSpec} (hf : alts[i]? = some f) {p : Pos}
    {evs : List Event} {v : Val X} (hn : (∀ j, f.ty ≠ .variant j) → Opens p evs f.name) (hd : Doc G f.ty p evs v)
    (ih : ∀ n, depth v + d < n → GroupReads posTrack (de G n f.ty) p evs v (RestTag G f.ty)) (n : Nat)
    (hdep : depth v + 1 + d < n) :
    GroupReads posTrack (de G n (.variant k)) p evs (.alt i [v]) (RestTag G (.variant k)) := by
  obtain ⟨m, rfl⟩ : ∃ m, n = m + 1 := ⟨n - 1, by omega⟩
  have hmem := List.mem_of_getElem? hD
  have hes : D.body.elements = alts := by rw [hb]; rfl
  have hfit := good.fits D hmem
  rw [hb] at hfit
  obtain ⟨a, ha, e, es, t, h1, h2, h3⟩ := doc_begins hd f rfl hn
  have hsel := selects_of good (m := m) (by omega) hmem (by rw [hb]; simp) (by rw [hes]; exact hf) ha h3
  rw [hes] at hsel
  have : de G (m + 1) (.variant k)
      = embed (enumTy G (de G m) false alts).de (.variant k) (DSt.toVariant k) id := by
    simp only [de, hD, groupDe, hb, Body.elements]
  rw [this]
  refine groupReads_mono (own := RestTag G f.ty) ?_ fun p t ⟨b, hb1, hb2⟩ =>
    ⟨b, .choice hD (by rw [hb]; simp) (by rw [hes]; exact List.mem_of_getElem? hf) hb1, hb2⟩
  refine groupReads_embed (.variant k) (DSt.toVariant k) (by intro c; simp [DSt.toVariant]) ?_
  subst h1
  refine C12_nested_group_reads posTrack (enumTy G (de G m) false alts) rfl (elemField (de G m) f) i
    (by show (alts.map _)[i]? = _; rw [List.getElem?_map, hf]; rfl) ?_ p e es t h2 hsel v _ (ih m (by omega))
  have hocc := hfit.2 f (List.mem_of_getElem? hf)
  show fromOccurs f.min f.max = _ ∨ fromOccurs f.min f.max = _
  rw [hocc.2]
  have : f.min = 0 ∨ f.min = 1 := by have := hocc.1; omega
  rcases this with h | h <;> rw [h] <;> simp [fromOccurs]

/-- Items with one child. -/
theorem one_child {items : List (Item (Val X))} {i : Nat} (hpad : ∀ e, .pad e ∈ items → Padding e = true)
    (hi : ∀ j evs v, .child j evs v ∈ items → j = i) (h1 : (valuesOf i items).length = 1) :
    ∃ (pads pads' evs : List Event) (v : Val X), items = pads.map Item.pad ++ Item.child i evs v :: pads'.map Item.pad ∧
      (∀ e ∈ pads, Padding e = true) ∧ ∀ e ∈ pads', Padding e = true := by
  have hrest : ∀ r : List (Item (Val X)), (∀ e, .pad e ∈ r → Padding e = true) →
      (∀ j evs v, .child j evs v ∈ r → j = i) → valuesOf i r = [] →
      ∃ pads : List Event, r = pads.map Item.pad ∧ ∀ e ∈ pads, Padding e = true := by
    intro r
    induction r with
    | nil => intro _ _ _; exact ⟨[], rfl, by simp⟩
    | cons x r ih =>
      intro hp hi hv
      cases x with
      | child j evs v =>
        have := hi j evs v (by simp)
        subst this
        simp [valuesOf] at hv
      | pad e =>
        obtain ⟨pads, rfl, h⟩ := ih (fun e he => hp e (by simp [he])) (fun j evs v h => hi j evs v (by simp [h])) hv
        refine ⟨e :: pads, rfl, ?_⟩
        intro e' he'
        rcases List.mem_cons.mp he' with rfl | h'
        · exact hp _ (by simp)
        · exact h _ h'
  induction items with
  | nil => simp [valuesOf] at h1
  | cons x r ih =>
    cases x with
    | child j evs v =>
      have := hi j evs v (by simp)
      subst this
      obtain ⟨pads', h2, h3⟩ := hrest r (fun e he => hpad e (by simp [he])) (fun j evs v h => hi j evs v (by simp [h])) (by
        simpa [valuesOf] using h1)
      exact ⟨[], pads', evs, v, by subst h2; simp, by simp, h3⟩
    | pad e =>
      obtain ⟨pads, pads', evs, v, h2, h3, h4⟩ := ih (fun e he => hpad e (by simp [he]))
        (fun j evs v h => hi j evs v (by simp [h])) h1
      refine ⟨e :: pads, pads', evs, v, by rw [h2]; simp, ?_, h4⟩
      intro e' he'
      rcases List.mem_cons.mp he' with rfl | h'
      · exact hpad _ (by simp)
      · exact h3 _ h'

theorem itemEvents_pads (pads : List Event) :
    itemEvents (pads.map (Item.pad : Event → Item (Val X))) = pads := by
  induction pads with
  | nil => rfl
  | cons e pads ih =>
    rw [List.map_cons]
    unfold itemEvents at ih ⊢
    rw [List.flatMap_cons, ih]
    rfl

/-- The children of a repeated choice, as values of the content enum. -/
def asVariants (items : List (Item (Val X))) : List (Item (Val X)) :=
  items.map fun
    | .pad e => .pad e
    | .child i evs v => .child i evs (.alt i [v])

theorem asVariants_events (items : List (Item (Val X))) :
    itemEvents (asVariants items) = itemEvents items := by
  induction items with
  | nil => rfl
  | cons x l ih =>
    cases x <;>
      (simp only [asVariants, List.map_cons, itemEvents, List.flatMap_cons, Item.events] at ih ⊢; rw [ih])

theorem asVariants_values (items : List (Item (Val X))) :
    allValues (asVariants items) = variantsOf Val.alt items := by
  induction items with
  | nil => rfl
  | cons x l ih =>
    cases x with
    | pad e => exact ih
    | child i evs v =>
      show Val.alt i [v] :: allValues (asVariants l) = Val.alt i [v] :: variantsOf Val.alt l
      rw [ih]

theorem variants_count (items : List (Item (Val X))) :
    (variantsOf Val.alt items).length = (childFields items).length := by
  induction items with
  | nil => rfl
  | cons x l ih =>
    cases x with
    | pad e => exact ih
    | child i evs v =>
      show (Val.alt i [v] :: variantsOf Val.alt l).length = (i :: childFields l).length
      simp [ih]

/-- **C71**, the generated code: every document that the table describes is read, exactly, as the
value it stands for. -/
theorem doc_reads (G : Schema X) {d : Nat} (good : G.Nested d) {ty : TyRef} {p : Pos} {evs : List Event} {v : Val X}
    (h : Doc G ty p evs v) : ∀ n, depth v + d < n →
      ((∀ k, ty ≠ .variant k) → Feeds posTrack (de G n ty) none p evs v) ∧
        GroupReads posTrack (de G n ty) p evs v (RestTag G ty) := by
  have elem : ∀ {d' : GDe Pos (DSt X) (Val X)} {ty : TyRef} {p evs v}, Feeds posTrack d' none p evs v →
      ((∀ k, ty ≠ .variant k) → Feeds posTrack d' none p evs v) ∧ GroupReads posTrack d' p evs v (RestTag G ty) :=
    fun h => ⟨fun _ => h, Or.inl h⟩
  induction h with
  | @simple k p t pieces c x ha hl hc hp =>
    intro n hn
    obtain ⟨m, rfl⟩ : ∃ m, n = m + 1 := ⟨n - 1, by omega⟩
    refine elem ?_
    exact feeds_embed posTrack _ (.simple k) (DSt.toSimple k) Val.simple (by intro c; simp [DSt.toSimple])
      (st := none)
      (simple_feeds posTrack G.num _ (fun _ => G.parse k) t t.name x pieces p c hl hc hp)
  | @simpleEmpty k p t x ha hp =>
    intro n hn
    obtain ⟨m, rfl⟩ : ∃ m, n = m + 1 := ⟨n - 1, by omega⟩
    have : Feeds posTrack (simpleDe G.num (.value 2) fun _ => G.parse k) none p [.empty t] x := by
      refine .last (a := false) ?_
      show (simpleDe G.num (.value 2) fun _ => G.parse k).init _ _ = _
      simp [simpleDe, hp]
    refine elem ?_
    exact feeds_embed posTrack _ (.simple k) (DSt.toSimple k) Val.simple (by intro c; simp [DSt.toSimple])
      (st := none) this
  | @seq k D es p t as items hD hb ha hpad hi ho hc hn hd ih =>
    intro n hn'
    obtain ⟨m, rfl⟩ : ∃ m, n = m + 1 := ⟨n - 1, by omega⟩
    have hmem := List.mem_of_getElem? hD
    have hes : D.body.elements = es := by rw [hb]; rfl
    simp only [de, hD, deBody, hb]
    refine elem ?_
    refine feeds_embed_id (.seq k) (DSt.toSeq k) (by intro c; simp [DSt.toSeq]) ?_
    have hdep : ∀ q i evs v, ChildAt (posTrack p (.start t)) items q i evs v → depth v + d < m := by
      rintro q i evs v ⟨l, r, hs, _⟩
      have hm : Item.child i evs v ∈ items := by rw [hs]; simp
      have := depth_child (as := as) (hi i evs v hm) hm
      omega
    have := C09_nested_sequence_feeds posTrack (seqTy G (de G m) D.attrs es) rfl (by
        intro f hf
        simp only [seqTy, List.mem_map] at hf
        obtain ⟨g, hg, rfl⟩ := hf
        exact good.max D hmem g (by rw [hes]; exact hg))
      p t as (readTag_ok ha) items (ownAt G es items)
      (parts_of good (by simp only [depth] at hn'; omega) hmem hb hpad hi ho hc hn hd
        fun q i evs v f hat hf => (ih q i evs v f hat hf m (hdep q i evs v hat)).2)
      ⟨ho, by
        intro i f hf
        obtain ⟨g, hg, rfl⟩ := elemField_get hf
        exact hc i g hg⟩
    simpa [seqTy] using this
  | @all k D es p t as items hD hb ha hpad hi hc hn hd ih =>
    intro n hn'
    obtain ⟨m, rfl⟩ : ∃ m, n = m + 1 := ⟨n - 1, by omega⟩
    have hmem := List.mem_of_getElem? hD
    have hes : D.body.elements = es := by rw [hb]; rfl
    simp only [de, hD, deBody, hb]
    refine elem ?_
    refine feeds_embed_id (.all k) (DSt.toAll k) (by intro c; simp [DSt.toAll]) ?_
    have := C11_all_feeds posTrack (seqTy G (de G m) D.attrs es) rfl (by
        intro f hf
        simp only [seqTy, List.mem_map] at hf
        obtain ⟨g, hg, rfl⟩ := hf
        exact good.max D hmem g (by rw [hes]; exact hg))
      p t as (readTag_ok ha) items (allItems_of hpad ?_).1 ?_
    · simpa [seqTy] using this
    · intro l i evs v r hs
      have hm : Item.child i evs v ∈ items := by rw [hs]; simp
      have hlt := hi i evs v hm
      have hat : ChildAt (posTrack p (.start t)) items
          (after (posTrack p (.start t)) (itemEvents l)) i evs v := ⟨l, r, hs, rfl⟩
      have hf : es[i]? = some es[i] := List.getElem?_eq_getElem hlt
      have hdep := depth_child (as := as) hlt hm
      obtain ⟨m', rfl⟩ : ∃ m', m = m' + 1 := ⟨m - 1, by omega⟩
      have hne : ∀ k, es[i].ty ≠ .variant k := fun k hk =>
        (good.groups D hmem es[i] (by rw [hes]; exact List.mem_of_getElem? hf) k hk).1 es hb
      obtain ⟨e, es', t', h1, h2, h3⟩ := hn _ i evs v _ hat hf
      have h4 := child_first good (m := m' + 1) hmem (by rw [hb]; simp) (by rw [hes]; exact hf) hne h3
      rw [hes] at h4
      exact ⟨_, e, es', t', by show (es.map _)[i]? = _; rw [List.getElem?_map, hf]; rfl, h1, h2, h4,
        (ih _ i evs v _ hat hf (m' + 1) (by omega)).1 hne⟩
    · intro i f hf
      obtain ⟨g, hg, rfl⟩ := elemField_get hf
      exact hc i g hg
  | @fieldsEmpty k D es p t as hD hb ha hm =>
    intro n hn'
    obtain ⟨m, rfl⟩ : ∃ m, n = m + 1 := ⟨n - 1, by omega⟩
    have hmem := List.mem_of_getElem? hD
    have hes : D.body.elements = es := by rcases hb with hb | hb <;> rw [hb] <;> rfl
    have h0 : ∀ f ∈ (seqTy G (de G m) D.attrs es).fields, f.max ≠ .bounded 0 := by
      intro f hf
      simp only [seqTy, List.mem_map] at hf
      obtain ⟨g, hg, rfl⟩ := hf
      exact good.max D hmem g (by rw [hes]; exact hg)
    have hmin : ∀ f ∈ (seqTy G (de G m) D.attrs es).fields, f.min = 0 := by
      intro f hf
      simp only [seqTy, List.mem_map] at hf
      obtain ⟨g, hg, rfl⟩ := hf
      exact hm g hg
    have hv : (Val.struct as (es.map fun _ => []) : Val X)
        = (seqTy G (de G m) D.attrs es).build as ((seqTy G (de G m) D.attrs es).fields.map fun _ => []) := by
      simp [seqTy]
    rcases hb with hb | hb
    · simp only [de, hD, deBody, hb]
      refine elem ?_
      refine feeds_embed_id (.seq k) (DSt.toSeq k) (by intro c; simp [DSt.toSeq]) ?_
      rw [hv]
      exact C09_empty_tag_feeds posTrack _ rfl h0 p t as (readTag_ok ha) hmin
    · simp only [de, hD, deBody, hb]
      refine elem ?_
      refine feeds_embed_id (.all k) (DSt.toAll k) (by intro c; simp [DSt.toAll]) ?_
      rw [hv]
      exact all_empty_tag posTrack _ rfl h0 p t as (readTag_ok ha) hmin
  | @choice k D alts mn mx p t as items hD hb ha hpad hi hc hn hd ih =>
    intro n hn'
    obtain ⟨m, rfl⟩ : ∃ m, n = m + 1 := ⟨n - 1, by omega⟩
    have hmem := List.mem_of_getElem? hD
    have hes : D.body.elements = alts := by rw [hb]; rfl
    have hfit := good.fits D hmem
    rw [hb] at hfit
    simp only [de, hD, deBody, hb]
    refine elem ?_
    refine feeds_embed_id (.choice k) (DSt.toChoice k) (by intro c; simp [DSt.toChoice]) ?_
    have := C12_nested_content_feeds posTrack (contentTy G (de G m) D.attrs k mn mx) rfl hfit.1 p t as
      (readTag_ok ha) (asVariants items) ?_ (by rw [asVariants_values]; exact hc)
    · rw [asVariants_events, asVariants_values] at this
      exact this
    · show ContentParts posTrack (de G m (.variant k)) _ _ _
      have hdep : ∀ i evs v, Item.child i evs v ∈ items → depth v + 1 + d < m := by
        intro i evs v hm
        have h1 := depth_alt i [v] v (by simp)
        have h2 := depth_field as [variantsOf Val.alt items] 0 (.alt i [v]) (by
          simp only [List.getD_eq_getElem?_getD, List.getElem?_cons_zero, Option.getD_some, variantsOf,
            List.mem_filterMap]
          exact ⟨_, hm, rfl⟩)
        omega
      have hlen : (variantsOf Val.alt items).length = (childFields items).length := variants_count items
      have hall : ∀ r l, items = l ++ r →
          ContentParts posTrack (de G m (.variant k)) (fun p t => childFields l ≠ [] ∧ RestTag G (.variant k) p t)
            (after (posTrack p (.start t)) (itemEvents l)) (asVariants r) := by
        intro r
        induction r with
        | nil => intro l _; trivial
        | cons x r ihr =>
          intro l hl
          have h1 := ihr (l ++ [x]) (by rw [hl]; simp)
          rw [itemEvents_append, after_append] at h1
          cases x with
          | pad e =>
            have h2 := hpad e (by rw [hl]; simp)
            have h3 : childFields (l ++ [(.pad e : Item (Val X))]) = childFields l := by
              rw [childFields_append]; simp [childFields]
            rw [h3] at h1
            refine ⟨h2, ?_, h1⟩
            obtain ⟨m', rfl⟩ : ∃ m', m = m' + 1 := ⟨m - 1, by simp only [depth] at hn'; omega⟩
            refine ⟨.cont e, (enumTy G (de G m') false alts).allowAny, ?_, Or.inr ⟨h2, Or.inr rfl⟩⟩
            simp only [de, hD, groupDe, hb, Body.elements]
            have h3 := choice_padding (enumTy G (de G m') false alts) rfl
              (posTrack (after (posTrack p (.start t)) (itemEvents l)) e) e h2
            simp only [embed, h3]
            rfl
          | child i evs v =>
            have hm : Item.child i evs v ∈ items := by rw [hl]; simp
            have hlt := hi i evs v hm
            have hf : alts[i]? = some alts[i] := List.getElem?_eq_getElem hlt
            have hfm := List.mem_of_getElem? hf
            have hat : ChildAt (posTrack p (.start t)) items
              (after (posTrack p (.start t)) (itemEvents l)) i evs v := ⟨l, r, hl, rfl⟩
            have hd1 := hdep i evs v hm
            have h4 := variant_reads good hD hb hf (hn _ i evs v _ hat hf) (hd _ i evs v _ hat hf)
                (fun n h => (ih _ i evs v _ hat hf n h).2) m hd1
            obtain ⟨a, ha', e, es, t', h5, h6, h7⟩ := doc_begins (hd _ i evs v _ hat hf) _ rfl (hn _ i evs v _ hat hf)
            have hplain := ha'.plain good hmem (by rw [hes]; exact hfm)
            refine ⟨_, e, es, t', h5, h6, ?_, groupReads_mono h4 (own' := fun p t =>
              childFields (l ++ [.child i evs v]) ≠ [] ∧ RestTag G (.variant k) p t) ?_, ?_⟩
            · rintro ⟨hne, b, hb1, hb2⟩
              have hmx : mx ≠ .bounded 1 := by
                intro h1
                have h2 := hc.2 1 h1
                rw [hlen, hl, childFields_append, List.length_append] at h2
                have h3 : 0 < (childFields l).length := List.length_pos_iff.mpr hne
                have h4 : (childFields (Item.child i evs v :: r)).length = (childFields r).length + 1 := rfl
                omega
              cases hb1 with
              | more hD' hb' => rw [hD] at hD'; cases hD'; rw [hb] at hb'; cases hb'
              | last hD' hb' => rw [hD] at hD'; cases hD'; rw [hb] at hb'; cases hb'
              | choice hD' _ hg hr =>
                rw [hD] at hD'; cases hD'
                rw [hes] at hg
                have := good.altRepeat D hmem alts mn mx hb hmx _ hfm _ hg a b ha' hr
                rw [means_other _ _ _ _ hplain h7 this] at hb2
                cases hb2
            · intro p t h
              refine ⟨?_, h⟩
              rw [childFields_append]
              simp [childFields]
            · show ContentParts posTrack _ _ _ (asVariants r)
              simpa [after, itemEvents, Item.events] using h1
      have h0 : (fun _ _ => False : Pos → Tag → Prop)
          = fun p t => childFields ([] : List (Item (Val X))) ≠ [] ∧ RestTag G (.variant k) p t := by
        funext p t
        exact propext ⟨False.elim, fun h => h.1 rfl⟩
      rw [h0]
      exact hall items [] rfl
  | @choiceEmpty k D alts mx p t as hD hb ha =>
    intro n hn'
    obtain ⟨m, rfl⟩ : ∃ m, n = m + 1 := ⟨n - 1, by omega⟩
    have hmem := List.mem_of_getElem? hD
    have hfit := good.fits D hmem
    rw [hb] at hfit
    simp only [de, hD, deBody, hb]
    refine elem ?_
    refine feeds_embed_id (.choice k) (DSt.toChoice k) (by intro c; simp [DSt.toChoice]) ?_
    exact content_empty_tag posTrack (contentTy G (de G m) D.attrs k 0 mx) rfl hfit.1 rfl p t as
      (readTag_ok ha)
  | @variant k D alts mn mx i f p evs v hD hb hf hn hd ih =>
    intro n hn'
    have hdep := depth_alt i [v] v (by simp)
    exact ⟨fun h => absurd rfl (h k), variant_reads good hD hb hf hn hd (fun n h => (ih n h).2) n
      (by simp only [depth, depths] at hn' ⊢; omega)⟩
  | @group k D es p items hD hb hfirst hpad hi ho hc hn hd ih =>
    intro n hn'
    obtain ⟨m, rfl⟩ : ∃ m, n = m + 1 := ⟨n - 1, by omega⟩
    have hmem := List.mem_of_getElem? hD
    have hes : D.body.elements = es := by rw [hb]; rfl
    refine ⟨fun h => absurd rfl (h k), ?_⟩
    simp only [de, hD, groupDe, hb]
    refine groupReads_embed (.seq k) (DSt.toSeq k) (by intro c; simp [DSt.toSeq]) ?_
    have hdep : ∀ q i evs v, ChildAt p items q i evs v → depth v + d < m := by
      rintro q i evs v ⟨l, r, hs, _⟩
      have hm : Item.child i evs v ∈ items := by rw [hs]; simp
      have := depth_child (as := []) (hi i evs v hm) hm
      omega
    have := C09_nested_group_reads posTrack (groupTy G (de G m) es) rfl (by
        intro f hf
        simp only [groupTy, List.mem_map] at hf
        obtain ⟨g, hg, rfl⟩ := hf
        exact good.max D hmem g (by rw [hes]; exact hg))
      p items (ownAt G es items)
      (parts_of good (by simp only [depth] at hn'; omega) hmem hb hpad hi ho hc hn hd
        fun q i evs v f hat hf => (ih q i evs v f hat hf m (hdep q i evs v hat)).2)
      ⟨ho, by
        intro i f hf
        obtain ⟨g, hg, rfl⟩ := elemField_get hf
        exact hc i g hg⟩ hfirst
    refine groupReads_mono ?_ (ownTags_rest good (m := m) (by simp only [depth] at hn'; omega) hD hb ho hc)
    simpa [groupTy] using this
  | @enum k D alts i f p t items hD hb hf ha hpad hi hne hc hn hd ih =>
    intro n hn'
    obtain ⟨m, rfl⟩ : ∃ m, n = m + 1 := ⟨n - 1, by omega⟩
    have hmem := List.mem_of_getElem? hD
    have hes : D.body.elements = alts := by rw [hb]; rfl
    have hf' : (alts.map (elemField (de G m)))[i]? = some (elemField (de G m) f) := by
      rw [List.getElem?_map, hf]; rfl
    simp only [de, hD, deBody, hb]
    refine elem ?_
    refine feeds_embed_id (.enum k) (DSt.toEnum k) (by intro c; simp [DSt.toEnum]) ?_
    have hcheck : (enumTy G (de G m) true alts).check (posTrack p (.start t)) t = .ok () := by
      show (readTag G [] _ t).map (fun _ => ()) = _
      rw [readTag_ok ha]
      rfl
    have hfm : f ∈ D.body.elements := by rw [hes]; exact List.mem_of_getElem? hf
    have hdep : ∀ j evs v, Item.child j evs v ∈ items → depth v + d < m := by
      intro j evs v hm
      have := hi j evs v hm
      subst this
      have := depth_alt j (valuesOf j items) v (mem_valuesOf hm)
      omega
    by_cases hv : ∃ k, f.ty = .variant k
    · obtain ⟨k', hv⟩ := hv
      obtain ⟨_, hocc, _⟩ := good.groups D hmem f hfm k' hv
      have hocc := hocc alts hb
      have hone : (valuesOf i items).length = 1 := by
        have := hc.2 1 hocc.2
        have := List.length_pos_iff.mpr hne
        omega
      obtain ⟨pads, pads', evs, v, h1, h2, h3⟩ := one_child hpad hi hone
      have hat : ChildAt (posTrack p (.start t)) items (after (posTrack p (.start t)) pads) i evs v :=
        ⟨_, _, h1, by rw [itemEvents_pads]⟩
      obtain ⟨a, ha', e, es, t', h5, h6, h7⟩ := doc_begins (hd _ i evs v hat) f rfl (hn _ i evs v hat)
      have hm : Item.child i evs v ∈ items := by rw [h1]; simp
      have hsel := selects_of good (m := m) (by have := hdep i evs v hm; omega) hmem (by rw [hb]; simp) (by rw [hes]; exact hf)
        ha' h7
      rw [hes] at hsel
      have hval : valuesOf i items = [v] := by
        have hmm := mem_valuesOf hm
        obtain ⟨w, hw⟩ := List.length_eq_one_iff.mp hone
        rw [hw] at hmm ⊢
        rw [List.mem_singleton.mp hmm]
      have hev : itemEvents items ++ [.end_ t.name] = pads ++ (evs ++ (pads' ++ [.end_ t.name])) := by
        rw [h1, itemEvents_append, itemEvents_pads]
        show pads ++ (evs ++ itemEvents (pads'.map Item.pad)) ++ _ = _
        rw [itemEvents_pads]
        simp
      rw [hval, hev, h5]
      have := (ih _ i evs v hat m (hdep i evs v hm)).2
      rw [h5] at this
      refine C12_nested_choice_feeds posTrack (enumTy G (de G m) true alts) rfl p t hcheck _ i hf' ?_ pads pads' h2 h3 e es t'
        h6 hsel v _ this
      show fromOccurs f.min f.max = _ ∨ fromOccurs f.min f.max = _
      rw [hocc.2]
      have : f.min = 0 ∨ f.min = 1 := by have := hocc.1; omega
      rcases this with h | h <;> rw [h] <;> simp [fromOccurs]
    · have hv' : ∀ k, f.ty ≠ .variant k := fun k h => hv ⟨k, h⟩
      refine C12_choice_feeds posTrack (enumTy G (de G m) true alts) rfl p t hcheck i _ hf'
        (good.max D hmem f hfm) items (oneOf_of (allItems_of hpad ?_).2 hi)
        hne hc
      intro l j evs v r hs
      have hm : Item.child j evs v ∈ items := by rw [hs]; simp
      have hji := hi j evs v hm
      subst hji
      have hat : ChildAt (posTrack p (.start t)) items
          (after (posTrack p (.start t)) (itemEvents l)) j evs v := ⟨l, r, hs, rfl⟩
      obtain ⟨e, es', t', h1, h2, h3⟩ := hn _ j evs v hat hv'
      have h4 := child_first good (m := m) hmem (by rw [hb]; simp) (by rw [hes]; exact hf) hv' h3
      rw [hes] at h4
      exact ⟨_, e, es', t', hf', h1, h2, h4, (ih _ j evs v hat m (hdep j evs v hm)).1 hv'⟩
  | @text k D j p t pieces c as x hD hb ha hl hc hp =>
    intro n hn'
    obtain ⟨m, rfl⟩ : ∃ m, n = m + 1 := ⟨n - 1, by omega⟩
    simp only [de, hD, deBody, hb]
    refine elem ?_
    refine feeds_embed_id (.text k) (DSt.toText k) (by intro c; simp [DSt.toText]) ?_
    exact C04_complex_simple_content posTrack (textTy G D.attrs j) p t t.name as (readTag_ok ha) pieces hl c
      hc x hp
  | @textEmpty k D j p t as x hD hb ha hp =>
    intro n hn'
    obtain ⟨m, rfl⟩ : ∃ m, n = m + 1 := ⟨n - 1, by omega⟩
    simp only [de, hD, deBody, hb]
    refine elem ?_
    refine feeds_embed_id (.text k) (DSt.toText k) (by intro c; simp [DSt.toText]) ?_
    exact C04_complex_empty_tag posTrack (textTy G D.attrs j) p t as (readTag_ok ha) x hp

/-- **C71** (the generated code): the deserializer of a generated type reads every document that the
table of the types describes, as the value the document stands for, and leaves what follows.
Missing: types with mixed content, dynamic types, nillable elements and wildcards in the table. -/
theorem C71_described_document_read_partial (G : Schema X) (d : Nat) (good : G.Nested d) (k : Nat)
    (evs : List Event) (v : Val X) (h : Doc G (.struct k) {} evs v) (n : Nat) (hn : depth v + d < n)
    (rest : List Event) :
    Drv.run (genEnv posTrack) (de G n (.struct k)).toDeser { helper := {} } (evs ++ rest)
      = .done v rest :=
  ((doc_reads G good h n hn).1 (by simp)).run rest

end Verif.Gen.Tab

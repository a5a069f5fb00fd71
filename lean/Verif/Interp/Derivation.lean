import Verif.Interp.Groups

/-!
# Content models of derived types, and repeated elements (C51, C52, C59, C60)

Theorems about the model of `Verif.Interp.Groups`.
-/

namespace Verif.Interp

open Verif.Meta Verif.Opt
open Verif.Occurs (MaxOccurs Allows)

/-! ## Languages -/

theorem allows_one {n : Nat} : Allows 1 (.bounded 1) n ↔ n = 1 := by
  constructor
  · rintro ⟨h1, h2⟩
    have := h2 1 rfl
    omega
  · rintro rfl
    exact ⟨Nat.le_refl _, fun b hb => by cases hb; exact Nat.le_refl _⟩

theorem repeat_one (L : Lang) : Repeat 1 (.bounded 1) L = L := by
  funext ns
  apply propext
  constructor
  · rintro ⟨is, h1, rfl, h3⟩
    obtain ⟨i, rfl⟩ := List.length_eq_one_iff.mp (allows_one.mp h1)
    simpa using h3 i (by simp)
  · intro h
    exact ⟨[ns], allows_one.mpr rfl, by simp, by simpa using h⟩

theorem concat_append (As Bs : List Lang) (ns : List Node) :
    Concat (As ++ Bs) ns ↔ ∃ a b, ns = a ++ b ∧ Concat As a ∧ Concat Bs b := by
  induction As generalizing ns with
  | nil =>
    constructor
    · intro h; exact ⟨[], ns, rfl, rfl, h⟩
    · rintro ⟨a, b, rfl, h1, h2⟩
      cases h1
      exact h2
  | cons A As ih =>
    constructor
    · rintro ⟨a, b, rfl, h1, h2⟩
      obtain ⟨b1, b2, rfl, h3, h4⟩ := (ih b).mp h2
      exact ⟨a ++ b1, b2, by simp, ⟨a, b1, rfl, h1, h3⟩, h4⟩
    · rintro ⟨x, y, rfl, ⟨a, b1, rfl, h1, h3⟩, h4⟩
      exact ⟨a, b1 ++ y, by simp, h1, (ih _).mpr ⟨b1, y, rfl, h3, h4⟩⟩

theorem concat_one (A : Lang) (ns : List Node) : Concat [A] ns ↔ A ns := by
  constructor
  · rintro ⟨a, b, rfl, h1, h2⟩
    cases h2
    simpa using h1
  · intro h
    exact ⟨ns, [], by simp, h, rfl⟩

theorem concat_two (A B : Lang) (ns : List Node) : Concat [A, B] ns ↔ ∃ a b, ns = a ++ b ∧ A a ∧ B b := by
  rw [show [A, B] = [A] ++ [B] from rfl, concat_append]
  simp only [concat_one]

/-! ## What a derived type becomes -/

theorem rememberNew_types (t : Top) (st st' : St) : (rememberNew t st st').types = st'.types := by
  rw [rememberNew]
  split
  · rfl
  · exact remember_types _ _ _

theorem setType_get (i : Ident) (ty : MetaType) (st : St) (j : Ident) :
    Assoc.get (setType i ty st).types j = if j = i then some ty else Assoc.get st.types j := by
  rw [setType, Assoc.get_upsert]
  by_cases h : j = i
  · rw [if_pos h, if_pos h.symm]
  · rw [if_neg h, if_neg (fun e => h e.symm)]

/-- A copy of a base with content. -/
theorem copyBase_some {mixed : Bool} {mode : DMode} {new ci : Ident} {st st' : St} {c c' : Complex}
    (h : copyBase mixed mode new st c = .ok (st', c')) (hc : c.content = some ci) :
    ∃ ty, Assoc.get st.types ci = some ty ∧ ci ≠ new ∧ c' = { c with isMixed := mixed, content := some new } ∧
      Assoc.get st'.types new = some { ty with variant := keep mode ty.variant } ∧ st'.cache = st.cache ∧
      Extends st.types st'.types := by
  rw [copyBase, hc] at h
  simp only at h
  split at h
  · cases h
  · rename_i ty hty
    split at h
    · cases h
    · rename_i st1 h1
      cases h
      obtain ⟨x1, x2, x3, x4, -⟩ := addType_ok h1
      refine ⟨ty, hty, ?_, rfl, x2, x3, x1⟩
      intro e
      rw [e, x4] at hty
      cases hty

/-- Content of the same kind is merged: the members of the added group follow those of the copied one, and the bounds
are widened. -/
theorem applyUpdate_ok {defs : Ident → GKind × List Part} {mixed : Bool} {t : Top} {st st' : St} {c c' : Complex}
    {new : Ident} {old : List Element} (h : applyUpdate mixed t st c new old = .ok (st', c')) (hd : Defined st.types new)
    (hs : st.cache = []) (hp : t.Plain defs) (hn : ∀ n ∈ elemNames t.parts, n ∉ memberNames old) :
    (∀ i ty, i ≠ new → Assoc.get st.types i = some ty → Assoc.get st'.types i = some ty) ∧
    c' = Complex.widen c t.min t.max ∧
    ∃ es, Assoc.get st'.types new = some (.new (t.kind.variant mixed es)) ∧
      memberNames es = memberNames old ++ elemNames t.parts ∧ ∀ P T', Extends st'.types T' →
        es.map (memLang P T') = old.map (memLang P T') ++ langs (Val P T') P.anyElement t.parts := by
  obtain ⟨p1, p2, p3, p4⟩ := hp
  rw [applyUpdate] at h
  split at h
  · cases h
  · rename_i st2 es h2
    have ha := applyParts_ok (X := (· = new)) (defs := defs) t.parts h2 p4 (cacheOk_nil hs)
      (fun i hi => by subst hi; exact hd) p2 hn
    split at h
    · rename_i he
      exfalso
      have hl := ha.lang noLex st2.types (fun _ _ _ h => h)
      have : es = [] := List.isEmpty_iff.mp he
      subst this
      have := congrArg List.length hl
      rw [List.length_append, langs_length] at this
      simp only [List.map_nil, List.length_nil] at this
      exact p1 (List.length_eq_zero_iff.mp (by omega))
    · cases h
      refine ⟨?_, rfl, es, ?_, ha.names, ?_⟩
      · intro i ty hi hg
        rw [rememberNew_types, setType_get, if_neg hi]
        exact ha.ext _ _ hg
      · rw [rememberNew_types, setType_get, if_pos rfl]
      · intro P T' hT
        rw [rememberNew_types] at hT
        exact ha.lang P T' (fun i ty hi hg => hT _ _ (by rw [setType_get, if_neg hi]; exact hg))

/-- Content of another kind becomes one more member of the copied group. -/
theorem applyAppend_ok {defs : Ident → GKind × List Part} {mixed : Bool} {t : Top} {st st' : St} {c c' : Complex}
    {new : Ident} {ty : MetaType} {k : GKind} {g : Group} (h : applyAppend mixed t st c new = .ok (st', c'))
    (hd : Assoc.get st.types new = some ty) (hg : groupParts ty.variant = some (k, g))
    (hs : st.cache = []) (hp : t.Plain defs) :
    (∀ i ty, i ≠ new → Assoc.get st.types i = some ty → Assoc.get st'.types i = some ty) ∧ c' = c ∧
    ∃ ty' es, Assoc.get st'.types new = some ty' ∧ groupParts ty'.variant = some (k, ⟨g.isMixed, es⟩) ∧
      memberNames es = memberNames g.elements ∧ ∀ P T', Extends st'.types T' →
        es.map (memLang P T') = g.elements.map (memLang P T') ++ [t.lang (Val P T') P.anyElement] := by
  obtain ⟨p1, p2, p3, p4⟩ := hp
  have hcache : cached t.ref st = none := by
    unfold cached
    split
    · rw [hs]; rfl
    · rfl
  rw [applyAppend, memberType, hcache] at h
  simp only at h
  split at h
  · cases h
  · rename_i st2 heq
    split at heq
    · cases heq
    · rename_i st1 inner h1
      have ha := applyParts_ok (X := (· = new)) (defs := defs) t.parts h1 p4 (cacheOk_nil hs)
        (fun i hi => by subst hi; exact ⟨ty, hd⟩) p2 (fun n _ hm => by simp [memberNames] at hm)
      split at heq
      · rename_i he
        exfalso
        have hl := ha.lang noLex st1.types (fun _ _ _ h => h)
        have : inner = [] := List.isEmpty_iff.mp he
        subst this
        have := congrArg List.length hl
        rw [List.length_append, langs_length] at this
        simp only [List.map_nil, List.length_nil] at this
        exact p1 (List.length_eq_zero_iff.mp (by omega))
      · split at heq
        · cases heq
        · cases heq
  · rename_i st2 i heq
    split at heq
    · cases heq
    · rename_i st1 inner h1
      have ha := applyParts_ok (X := (· = new)) (defs := defs) t.parts h1 p4 (cacheOk_nil hs)
        (fun i hi => by subst hi; exact ⟨ty, hd⟩) p2 (fun n _ hm => by simp [memberNames] at hm)
      split at heq
      · cases heq
      · split at heq
        · cases heq
        · rename_i st3 h3
          cases heq
          obtain ⟨x1, x2, -, x4, -⟩ := addType_ok h3
          have hnew : t.type_ ≠ new := fun e => by
            rw [e, ha.ext _ _ hd] at x4
            cases x4
          rw [x1 _ _ (ha.ext _ _ hd)] at h
          simp only [hg] at h
          split at h
          · cases h
          · rename_i es h4
            cases h
            refine ⟨?_, rfl, { ty with variant := k.variant g.isMixed es }, es, ?_, groupParts_variant _ _ _,
              (insertChecked_langs (P := noLex) (T := []) h4).2, ?_⟩
            · intro i ty hi hgi
              rw [rememberNew_types, setType_get, if_neg hi]
              exact x1 _ _ (ha.ext _ _ hgi)
            · rw [rememberNew_types, setType_get, if_pos rfl]
            · intro P T' hT
              rw [rememberNew_types] at hT
              have hT' : ExtendsBut (· = new) st2.types T' := fun i ty hi hgi =>
                hT _ _ (by rw [setType_get, if_neg hi]; exact hgi)
              have hl : inner.map (memLang P T') = langs (Val P T') P.anyElement t.parts := by
                have := ha.lang P T' (x1.but hT')
                simpa using this
              rw [(insertChecked_langs (P := P) (T := T') h4).1, group_lang (hT' _ _ hnew x2) hl]
              rfl

/-! ## Extension (C51) -/

/-- The base: a complex type whose content is a group of the given kind. -/
structure IsBase (st : St) (c : Complex) (k : GKind) (g : Group) : Prop where
  content : ∃ ci ty, c.content = some ci ∧ Assoc.get st.types ci = some ty ∧ groupParts ty.variant = some (k, g)

/-- The two ways an extension changes the copied content of the base. -/
theorem derive_extension {defs : Ident → GKind × List Part} {mixed : Bool} {new : Ident} {t : Top} {st st' : St}
    {c c' : Complex} {k : GKind} {g : Group} (h : derive mixed .extension new (some t) st c = .ok (st', c'))
    (hb : IsBase st c k g) (hs : st.cache = []) (hp : t.Plain defs)
    (hn : t.kind = k → ∀ n ∈ elemNames t.parts, n ∉ memberNames g.elements) (P : Lex) (T' : Types)
    (hT : Extends st'.types T') :
    contentLang P T' c = Repeat c.min c.max (k.combine (g.elements.map (memLang P T'))) ∧
    (t.kind = k → contentLang P T' c' = Repeat (min c.min t.min) (c.max.max t.max)
      (k.combine (g.elements.map (memLang P T') ++ langs (Val P T') P.anyElement t.parts))) ∧
    (t.kind ≠ k → contentLang P T' c' = Repeat c.min c.max
      (k.combine (g.elements.map (memLang P T') ++ [t.lang (Val P T') P.anyElement]))) := by
  obtain ⟨ci, ty, hci, hty, hg⟩ := hb.content
  rw [derive] at h
  split at h
  · cases h
  · rename_i st1 c1 h1
    obtain ⟨ty', e1, e2, rfl, e4, e5, e6⟩ := copyBase_some h1 hci
    rw [hty] at e1; cases e1
    simp only [applyTop, e4, keep, hg] at h
    split at h
    · rename_i hk
      obtain ⟨u1, rfl, es, u3, -, u4⟩ := applyUpdate_ok (defs := defs) h ⟨_, e4⟩ (e5.trans hs) hp (hn hk.symm)
      refine ⟨?_, fun _ => ?_, fun hne => absurd hk.symm hne⟩
      · rw [contentLang_eq P T' c ci hci, group_eq (hT _ _ (u1 _ _ e2 (e6 _ _ hty))) hg]
      · rw [contentLang_eq P T' _ new rfl, group_eq (hT _ _ u3) (groupParts_variant _ _ _), u4 P T' hT, hk]
        rfl
    · rename_i hk
      obtain ⟨u1, rfl, ty2, es, u3, u4, -, u5⟩ :=
        applyAppend_ok (defs := defs) h e4 (by simpa [keep] using hg) (e5.trans hs) hp
      refine ⟨?_, fun hk' => absurd hk'.symm hk, fun _ => ?_⟩
      · rw [contentLang_eq P T' c ci hci, group_eq (hT _ _ (u1 _ _ e2 (e6 _ _ hty))) hg]
      · rw [contentLang_eq P T' _ new rfl, group_eq (hT _ _ u3) u4, u5 P T' hT]

/-- **C51.** If the content of the base is a sequence that occurs exactly once, and the added particle is a sequence that
occurs exactly once and has no element in common with the base, or a choice or `xs:all` with any bounds, then the derived
type accepts exactly an instance of the content of the base followed by an instance of the added particle. (The cases
left out are wrong: `C51_repeated_base`, `C51_optional_extension`, `C51_choice_merged`, `C51_choice_appended`,
`C51_common_name`.) -/
theorem C51_extension_partial {defs : Ident → GKind × List Part} {mixed : Bool} {new : Ident} {t : Top} {st st' : St}
    {c c' : Complex} {g : Group} (h : derive mixed .extension new (some t) st c = .ok (st', c'))
    (hb : IsBase st c .sequence g) (h1 : c.min = 1) (h2 : c.max = .bounded 1) (hs : st.cache = []) (hp : t.Plain defs)
    (hq : t.kind = .sequence →
      t.min = 1 ∧ t.max = .bounded 1 ∧ ∀ n ∈ elemNames t.parts, n ∉ memberNames g.elements)
    (P : Lex) (T' : Types) (hT : Extends st'.types T') (ns : List Node) :
    contentLang P T' c' ns ↔ ∃ a b, ns = a ++ b ∧ contentLang P T' c a ∧ t.lang (Val P T') P.anyElement b := by
  obtain ⟨d1, d2, d3⟩ := derive_extension h hb hs hp (fun hk => (hq hk).2.2) P T' hT
  rw [d1, h1, h2, repeat_one]
  by_cases hk : t.kind = .sequence
  · obtain ⟨q1, q2, -⟩ := hq hk
    rw [d2 hk, h1, h2, q1, q2, Top.lang, hk, q1, q2, show min 1 1 = 1 from rfl,
      show MaxOccurs.max (.bounded 1) (.bounded 1) = .bounded 1 from rfl, repeat_one, repeat_one]
    exact concat_append _ _ _
  · rw [d3 hk, h1, h2, repeat_one]
    refine (concat_append _ _ _).trans ?_
    simp only [concat_one]
    rfl

/-- **C51.** If the content of the base is an `xs:all` that occurs exactly once, the derived type accepts at least an
instance of the content of the base followed by an instance of the added particle (under the same conditions). -/
theorem C51_extension_all_partial {defs : Ident → GKind × List Part} {mixed : Bool} {new : Ident} {t : Top}
    {st st' : St} {c c' : Complex} {g : Group} (h : derive mixed .extension new (some t) st c = .ok (st', c'))
    (hb : IsBase st c .all g) (h1 : c.min = 1) (h2 : c.max = .bounded 1) (hs : st.cache = []) (hp : t.Plain defs)
    (hq : t.kind = .all →
      t.min = 1 ∧ t.max = .bounded 1 ∧ ∀ n ∈ elemNames t.parts, n ∉ memberNames g.elements)
    (P : Lex) (T' : Types) (hT : Extends st'.types T') (a b : List Node) (ha : contentLang P T' c a)
    (hbb : t.lang (Val P T') P.anyElement b) : contentLang P T' c' (a ++ b) := by
  obtain ⟨d1, d2, d3⟩ := derive_extension h hb hs hp (fun hk => (hq hk).2.2) P T' hT
  rw [d1, h1, h2, repeat_one] at ha
  obtain ⟨As, a1, a2⟩ := ha
  by_cases hk : t.kind = .all
  · obtain ⟨q1, q2, -⟩ := hq hk
    rw [Top.lang, hk, q1, q2, repeat_one] at hbb
    obtain ⟨Bs, b1, b2⟩ := hbb
    rw [d2 hk, h1, h2, q1, q2, show min 1 1 = 1 from rfl,
      show MaxOccurs.max (.bounded 1) (.bounded 1) = .bounded 1 from rfl, repeat_one]
    exact ⟨As ++ Bs, a1.append b1, (concat_append _ _ _).mpr ⟨a, b, rfl, a2, b2⟩⟩
  · rw [d3 hk, h1, h2, repeat_one]
    exact ⟨As ++ [_], a1.append (List.Perm.refl _), (concat_append _ _ _).mpr ⟨a, b, rfl, a2, (concat_one _ _).mpr hbb⟩⟩

/-- **C51.** A type derived from a base without content has the content of the extension. -/
theorem C51_empty_base {defs : Ident → GKind × List Part} {mixed : Bool} {new : Ident} {mode : DMode} {t : Top}
    {st st' : St} {c c' : Complex} (h : derive mixed mode new (some t) st c = .ok (st', c')) (hc : c.content = none)
    (hs : st.cache = []) (hp : t.Plain defs) (P : Lex) (T' : Types) (hT : Extends st'.types T') :
    contentLang P T' c' = t.lang (Val P T') P.anyElement := by
  rw [derive, copyBase, hc] at h
  exact C59_content_exact_partial h (by simp) hs hp P T' hT

/-- **C51.** An extension without particle accepts what its base accepts. -/
theorem C51_no_particle {mixed : Bool} {new : Ident} {st st' : St} {c c' : Complex} {k : GKind} {g : Group}
    (h : derive mixed .extension new none st c = .ok (st', c')) (hb : IsBase st c k g) (P : Lex) (T' : Types)
    (hT : Extends st'.types T') : contentLang P T' c' = contentLang P T' c := by
  obtain ⟨ci, ty, hci, hty, hg⟩ := hb.content
  rw [derive] at h
  split at h
  · cases h
  · rename_i st1 c1 h1
    obtain ⟨ty', e1, e2, rfl, e4, e5, e6⟩ := copyBase_some h1 hci
    rw [hty] at e1; cases e1
    cases h
    rw [contentLang_eq P T' c ci hci, contentLang_eq P T' _ new rfl, group_eq (hT _ _ (e6 _ _ hty)) hg,
      group_eq (hT _ _ e4) (by simpa [keep] using hg)]

/-! ## Lists of elements -/

/-- The language of an element declaration. -/
def declLang (P : Lex) (T : Types) (d : ElementDecl) : Lang :=
  Repeat d.min d.max (OneElement d.ident (Val P T d.type_))

theorem langs_elems (P : Lex) (T : Types) (ds : List ElementDecl) :
    langs (Val P T) P.anyElement (ds.map .elem) = ds.map (declLang P T) := by
  induction ds with
  | nil => rfl
  | cons d ds ih => rw [List.map_cons, langs, ih, Part.lang]; rfl

/-- A member made from a declaration. -/
def member (d : ElementDecl) : Element := d.update (newElement d.ident d.type_ .element d.form)

theorem memLang_update (P : Lex) (T : Types) (d : ElementDecl) (e : Element) (hi : e.ident = d.ident)
    (hv : e.variant = .type_ d.type_ .element) : memLang P T (d.update e) = declLang P T d := by
  rw [memLang_eq, particle_element (i := d.type_) (by exact hv)]
  show Repeat d.min d.max (OneElement e.ident _) = _
  rw [hi]
  rfl

theorem memLang_member (P : Lex) (T : Types) (d : ElementDecl) : memLang P T (member d) = declLang P T d :=
  memLang_update P T d _ rfl rfl

theorem findOrInsert_found {i : PropIdent} {new e : Element} {f : Element → Element} {done rest : List Element}
    (hd : i ∉ done.map (·.ident)) (he : e.ident = i) :
    findOrInsert i new f (done ++ e :: rest) = done ++ f e :: rest := by
  induction done with
  | nil => rw [List.nil_append, findOrInsert, if_pos he]; rfl
  | cons x done ih =>
    simp only [List.map_cons, List.mem_cons, not_or] at hd
    rw [List.cons_append, findOrInsert, if_neg (fun hx => hd.1 hx.symm), ih hd.2]
    rfl

theorem find_found {i : PropIdent} {e : Element} {done rest : List Element}
    (hd : i ∉ done.map (·.ident)) (he : e.ident = i) :
    (done ++ e :: rest).find? (fun e => e.ident == i) = some e := by
  induction done with
  | nil => simp [he]
  | cons x done ih =>
    simp only [List.map_cons, List.mem_cons, not_or] at hd
    have hx : (x.ident == i) = false := by simpa using fun hx => hd.1 hx.symm
    rw [List.cons_append, List.find?_cons, hx, ih hd.2]

/-- An element that is there already is updated in place. -/
theorem addElement_found {d : ElementDecl} {done rest es' : List Element} {e : Element}
    (h : addElement d (done ++ e :: rest) = some es') (hd : d.ident ∉ done.map (·.ident)) (he : e.ident = d.ident) :
    isElement e = true ∧ es' = done ++ d.update e :: rest := by
  rw [addElement, find_found hd he, findOrInsert_found hd he] at h
  simp only at h
  split at h
  · rename_i hx
    cases h
    exact ⟨hx, rfl⟩
  · cases h

theorem addElement_new {d : ElementDecl} {es es' : List Element} (h : addElement d es = some es')
    (hd : d.ident ∉ es.map (·.ident)) : es' = es ++ [member d] := by
  have hall : ∀ e ∈ es, e.ident ≠ d.ident := fun e he hi => hd (List.mem_map.mpr ⟨e, he, hi⟩)
  rw [addElement, findOrInsert_fresh hall] at h
  split at h
  · split at h
    · cases h; rfl
    · cases h
  · cases h; rfl

/-! ## Repeated elements (C52) -/

/-- The members agree with the declarations `ds`, and every declaration in `seen` has a member. -/
structure Covers (ds seen : List ElementDecl) (es : List Element) : Prop where
  from_ : ∀ e ∈ es, ∃ d ∈ ds, e.ident = d.ident ∧ e.variant = .type_ d.type_ .element ∧ e.min = d.min ∧ e.max = d.max
  all : ∀ d ∈ seen, ∃ e ∈ es, e.ident = d.ident

theorem applyParts_covers {mixed : Bool} {ds : List ElementDecl}
    (hc : ∀ d ∈ ds, ∀ d' ∈ ds, d.ident = d'.ident → d.type_ = d'.type_ ∧ d.min = d'.min ∧ d.max = d'.max)
    (todo : List ElementDecl) (ht : ∀ d ∈ todo, d ∈ ds) {seen : List ElementDecl} {st st' : St}
    {es es' : List Element} (h : applyParts mixed (todo.map .elem) st es = .ok (st', es')) (hi : Covers ds seen es) :
    st' = st ∧ Covers ds (seen ++ todo) es' := by
  induction todo generalizing seen es with
  | nil =>
    rw [List.map_nil, applyParts] at h
    cases h
    exact ⟨rfl, by simpa using hi⟩
  | cons d todo ih =>
    rw [List.map_cons, applyParts, Part.apply] at h
    split at h
    · cases h
    · rename_i st1 es1 h1
      split at h1
      · cases h1
      · rename_i es2 h2
        cases h1
        have step : Covers ds (seen ++ [d]) es1 := by
          by_cases hd : d.ident ∈ es.map (·.ident)
          · obtain ⟨e, he, hid⟩ := List.mem_map.mp hd
            obtain ⟨done, rest, hes, hnd⟩ : ∃ done rest, (∃ e, es = done ++ e :: rest ∧ e.ident = d.ident) ∧
                d.ident ∉ done.map (·.ident) := by
              clear h2 h hi he hid
              induction es with
              | nil => cases hd
              | cons x es ihes =>
                by_cases hx : x.ident = d.ident
                · exact ⟨[], es, ⟨x, rfl, hx⟩, by simp⟩
                · have hd' : d.ident ∈ es.map (·.ident) := by
                    rcases List.mem_cons.mp hd with h | h
                    · exact absurd h.symm hx
                    · exact h
                  obtain ⟨done, rest, ⟨y, hy1, hy2⟩, hn⟩ := ihes hd'
                  refine ⟨x :: done, rest, ⟨y, by rw [hy1]; rfl, hy2⟩, ?_⟩
                  simp only [List.map_cons, List.mem_cons, not_or]
                  exact ⟨fun e => hx e.symm, hn⟩
            obtain ⟨y, rfl, hy⟩ := hes
            obtain ⟨-, rfl⟩ := addElement_found h2 hnd hy
            refine ⟨?_, ?_⟩
            · intro e' he'
              rcases List.mem_append.mp he' with hm | hm
              · exact hi.from_ e' (List.mem_append_left _ hm)
              · rcases List.mem_cons.mp hm with rfl | hm
                · obtain ⟨d', hd', x1, x2, x3, x4⟩ := hi.from_ y (by simp)
                  obtain ⟨y1, y2, y3⟩ := hc d (ht d (by simp)) d' hd' (by rw [← hy, x1])
                  exact ⟨d, ht d (by simp), hy, by show y.variant = _; rw [x2, y1], rfl, rfl⟩
                · exact hi.from_ e' (by simp [hm])
            · intro d' hd'
              rcases List.mem_append.mp hd' with hm | hm
              · obtain ⟨e', he', hid'⟩ := hi.all d' hm
                rcases List.mem_append.mp he' with hm | hm
                · exact ⟨e', by simp [hm], hid'⟩
                · rcases List.mem_cons.mp hm with rfl | hm
                  · exact ⟨d.update e', by simp, hid'⟩
                  · exact ⟨e', by simp [hm], hid'⟩
              · rcases List.mem_singleton.mp hm with rfl
                exact ⟨d'.update y, by simp, hy⟩
          · have := addElement_new h2 hd
            subst this
            refine ⟨?_, ?_⟩
            · intro e' he'
              rcases List.mem_append.mp he' with hm | hm
              · exact hi.from_ e' hm
              · rcases List.mem_singleton.mp hm with rfl
                exact ⟨d, ht d (by simp), rfl, rfl, rfl, rfl⟩
            · intro d' hd'
              rcases List.mem_append.mp hd' with hm | hm
              · obtain ⟨e', he', hid'⟩ := hi.all d' hm
                exact ⟨e', by simp [he'], hid'⟩
              · rcases List.mem_singleton.mp hm with rfl
                exact ⟨member d', by simp, rfl⟩
        have := ih (fun d hd => ht d (by simp [hd])) h step
        exact ⟨this.1, by simpa using this.2⟩

/-- **C52.** A choice between elements that mentions an element several times, always with the same type and bounds,
accepts exactly what the choice allows. (For a sequence this is false: `C52_repeated_element_lost`.) -/
theorem C52_choice_partial {mixed : Bool} {t : Top} {ds : List ElementDecl} {st st' : St} {c c' : Complex}
    (h : applyTop mixed t st c = .ok (st', c')) (hn : c.content = none) (hs : st.cache = []) (hk : t.kind = .choice)
    (hp : t.parts = ds.map .elem) (hd : ds ≠ [])
    (hc : ∀ d ∈ ds, ∀ d' ∈ ds, d.ident = d'.ident → d.type_ = d'.type_ ∧ d.min = d'.min ∧ d.max = d'.max)
    (P : Lex) (T' : Types) (hT : Extends st'.types T') : contentLang P T' c' = t.lang (Val P T') P.anyElement := by
  have hcache : cached t.ref st = none := by
    unfold cached
    split
    · rw [hs]; rfl
    · rfl
  rw [applyTop, hn] at h
  simp only [applyFirst, hcache] at h
  split at h
  · cases h
  · rename_i st1 es h1
    rw [hp] at h1
    obtain ⟨rfl, hcov⟩ := applyParts_covers hc ds (fun _ h => h) (seen := []) h1
      { from_ := fun e he => by simp at he, all := fun d hd => by simp at hd }
    split at h
    · rename_i he
      obtain ⟨d, hdm⟩ := List.exists_mem_of_ne_nil _ hd
      obtain ⟨e, he', -⟩ := hcov.all d (by simpa using hdm)
      rw [List.isEmpty_iff.mp he] at he'
      cases he'
    · split at h
      · cases h
      · rename_i st2 h2
        cases h
        obtain ⟨-, x2, -, -, -⟩ := addType_ok h2
        rw [remember_types] at hT
        rw [contentLang_eq P T' _ t.type_ rfl, group_eq (hT _ _ x2) (groupParts_variant _ _ _), Top.lang, hk, hp,
          langs_elems]
        show Repeat t.min t.max (Either _) = Repeat t.min t.max (Either _)
        congr 1
        funext ns
        apply propext
        have key : ∀ e d, e.ident = d.ident → e.variant = .type_ d.type_ .element → e.min = d.min → e.max = d.max →
            memLang P T' e = declLang P T' d := by
          intro e d x1 x2 x3 x4
          rw [memLang_congr (e' := member d) x1 x2 x3 x4, memLang_member]
        constructor
        · rintro ⟨L, hL, hns⟩
          obtain ⟨e, he, rfl⟩ := List.mem_map.mp hL
          obtain ⟨d, hdm, x1, x2, x3, x4⟩ := hcov.from_ e he
          rw [key e d x1 x2 x3 x4] at hns
          exact ⟨_, List.mem_map_of_mem hdm, hns⟩
        · rintro ⟨L, hL, hns⟩
          obtain ⟨d, hdm, rfl⟩ := List.mem_map.mp hL
          obtain ⟨e, he, hid⟩ := hcov.all d (by simpa using hdm)
          obtain ⟨d', hdm', x1, x2, x3, x4⟩ := hcov.from_ e he
          obtain ⟨y1, y2, y3⟩ := hc d hdm d' hdm' (by rw [← hid, x1])
          refine ⟨_, List.mem_map_of_mem he, ?_⟩
          rw [key e d hid (by rw [x2, y1]) (by rw [x3, y2]) (by rw [x4, y3])]
          exact hns

/-! ## Restriction (C60) -/

/-- Elements that repeat the members left over from the base, in the same order, and then add others. -/
theorem applyParts_restrict {mixed : Bool} (P : Lex) (T : Types) (ds : List ElementDecl) {st st' : St}
    {done rest es' : List Element} (h : applyParts mixed (ds.map .elem) st (done ++ rest) = .ok (st', es'))
    (hn : (ds.map (·.ident)).Nodup) (hd : ∀ d ∈ ds, d.ident ∉ done.map (·.ident)) {n : Nat}
    (hr : rest.map (·.ident) = (ds.take n).map (·.ident))
    (hv : ∀ e ∈ rest, ∀ d ∈ ds, e.ident = d.ident → e.variant = .type_ d.type_ .element) :
    st' = st ∧ es'.map (memLang P T) = done.map (memLang P T) ++ ds.map (declLang P T) := by
  induction ds generalizing done rest n with
  | nil =>
    rw [List.map_nil, applyParts] at h
    cases h
    have : rest = [] := by simpa using hr
    subst this
    simp
  | cons d ds ih =>
    rw [List.map_cons, applyParts, Part.apply] at h
    rw [List.map_cons, List.nodup_cons] at hn
    split at h
    · cases h
    · rename_i st1 es1 h1
      split at h1
      · cases h1
      · rename_i es2 h2
        cases h1
        have hd0 := hd d (by simp)
        have next : ∀ x : Element, x.ident = d.ident → ∀ d' ∈ ds, d'.ident ∉ (done ++ [x]).map (·.ident) := by
          intro x hx d' hd' hm
          rw [List.map_append, List.mem_append] at hm
          rcases hm with hm | hm
          · exact hd d' (by simp [hd']) hm
          · rw [List.map_singleton, List.mem_singleton, hx] at hm
            exact hn.1 (List.mem_map.mpr ⟨d', hd', hm⟩)
        cases rest with
        | nil =>
          rw [List.append_nil] at h2
          have := addElement_new h2 hd0
          subst this
          have h' : applyParts mixed (ds.map .elem) st ((done ++ [member d]) ++ []) = .ok (st', es') := by
            simpa using h
          obtain ⟨r1, r2⟩ := ih h' hn.2 (next (member d) rfl) (n := 0) (by simp) (by simp)
          refine ⟨r1, ?_⟩
          rw [r2, List.map_append, List.map_singleton, memLang_member, List.append_assoc]
          rfl
        | cons e rest =>
          cases n with
          | zero => simp at hr
          | succ n =>
            simp only [List.map_cons, List.take_succ_cons, List.cons.injEq] at hr
            obtain ⟨-, rfl⟩ := addElement_found h2 hd0 hr.1
            have h' : applyParts mixed (ds.map .elem) st ((done ++ [d.update e]) ++ rest) = .ok (st', es') := by
              simpa using h
            obtain ⟨r1, r2⟩ := ih h' hn.2 (next (d.update e) hr.1) hr.2
              (fun e' he' d' hd' => hv e' (by simp [he']) d' (by simp [hd']))
            refine ⟨r1, ?_⟩
            rw [r2, List.map_append, List.map_singleton,
              memLang_update P T d e hr.1 (hv e (by simp) d (by simp) hr.1), List.append_assoc]
            rfl

theorem max_self (m : MaxOccurs) : m.max m = m := by
  unfold MaxOccurs.max
  split <;> rfl

/-- The members that must occur. -/
def required (es : List Element) : List Element := es.filter fun e => decide (e.min > 0)

theorem keep_groupParts {v : Variant} {k : GKind} {g : Group} (h : groupParts v = some (k, g)) :
    groupParts (keep .restriction v) = some (k, ⟨g.isMixed, required g.elements⟩) := by
  cases v <;> simp only [groupParts, Option.some.injEq, Prod.mk.injEq, reduceCtorEq] at h <;>
    (obtain ⟨rfl, rfl⟩ := h; rfl)

/-- **C60.** A type derived by restriction from a base with a group of the same kind and the same bounds accepts exactly
the documents of its own content model, if that is a group of elements that starts with the required members of the base,
in their order and with their types. (Without the last conditions it is false: `C60_optional_reordered`,
`C60_alternative_kept`, `C60_nested_group_doubled`, `C60_type_kept`.) -/
theorem C60_restriction_partial {mixed : Bool} {new : Ident} {t : Top} {ds : List ElementDecl} {st st' : St}
    {c c' : Complex} {g : Group} (h : derive mixed .restriction new (some t) st c = .ok (st', c'))
    (hb : IsBase st c t.kind g) (h1 : c.min = t.min) (h2 : c.max = t.max) (hp : t.parts = ds.map .elem)
    (hd : ds ≠ []) (hn : (ds.map (·.ident)).Nodup) {n : Nat}
    (hr : (required g.elements).map (·.ident) = (ds.take n).map (·.ident))
    (hv : ∀ e ∈ required g.elements, ∀ d ∈ ds, e.ident = d.ident → e.variant = .type_ d.type_ .element)
    (P : Lex) (T' : Types) (hT : Extends st'.types T') :
    contentLang P T' c' = t.lang (Val P T') P.anyElement := by
  obtain ⟨ci, ty, hci, hty, hg⟩ := hb.content
  rw [derive] at h
  split at h
  · cases h
  · rename_i st1 c1 hcp
    obtain ⟨ty', e1, e2, rfl, e4, e5, e6⟩ := copyBase_some hcp hci
    rw [hty] at e1; cases e1
    simp only [applyTop, e4, keep_groupParts hg, if_true] at h
    rw [applyUpdate] at h
    split at h
    · cases h
    · rename_i st2 es h3
      rw [hp] at h3
      have key := fun P T => applyParts_restrict P T ds (done := []) h3 hn (by simp) hr hv
      split at h
      · rename_i he
        have := (key noLex []).2
        rw [List.isEmpty_iff.mp he] at this
        simp at this
        exact absurd this hd
      · cases h
        rw [rememberNew_types] at hT
        have hget := hT _ _ (by rw [setType_get, if_pos rfl])
        rw [contentLang_eq P T' _ new rfl, group_eq hget (groupParts_variant _ _ _), (key P T').2, Top.lang, hp, langs_elems]
        show Repeat (min c.min t.min) (c.max.max t.max) _ = _
        rw [h1, h2, Nat.min_self, max_self]
        rfl

/-! ## Examples and counterexamples

All elements have the type `E`, a complex type without content. -/

/-- A complex type without content and attributes. -/
def exEmpty : Complex := ⟨.none, none, 1, .bounded 1, false, false, []⟩

def exDecl (n : String) (min : Nat := 1) (max : MaxOccurs := .bounded 1) : ElementDecl :=
  ⟨⟨0, .named n.toList⟩, exId "E", .unqualified, none, min, max, []⟩

/-- The element `<n/>`. -/
def exEl (n : String) : Node := .elem ⟨0, .named n.toList⟩ none [] []

/-- `xs:sequence` etc. with generated names. -/
def exTop (k : GKind) (parts : List Part) (min : Nat := 1) (max : MaxOccurs := .bounded 1) : Top :=
  ⟨k, ⟨0, .generated "Content1".toList⟩, exId "T1", none, min, max, parts⟩

/-- A table with the type `E` and a group `B`. -/
def exSt (k : GKind) (es : List Element) : St :=
  ⟨[(exId "E", .new (.complex exEmpty)), (exId "B", .new (k.variant false es))], []⟩

/-- A base type with content `B`. -/
def exDerived (min : Nat := 1) (max : MaxOccurs := .bounded 1) : Complex :=
  ⟨.none, some (exId "B"), min, max, false, false, []⟩

/-- Interpretation succeeds, `E` is still there, and the type `i` is the given one. -/
def exCheck (r : Except IErr (St × Complex)) (i : Ident) (v : Variant) (c : Complex) : Bool :=
  match r with
  | .ok (st', c') =>
    decide (Assoc.get st'.types (exId "E") = some (.new (.complex exEmpty))) &&
    decide ((Assoc.get st'.types i).map (·.variant) = some v) && decide (c' = c)
  | .error _ => false

theorem exCheck_iff {r : Except IErr (St × Complex)} {i : Ident} {v : Variant} {c : Complex}
    (h : exCheck r i v c = true) : ∃ st', r = .ok (st', c) ∧
      Assoc.get st'.types (exId "E") = some (.new (.complex exEmpty)) ∧
      ∃ ty, Assoc.get st'.types i = some ty ∧ ty.variant = v := by
  unfold exCheck at h
  split at h
  · rename_i st' c'
    simp only [Bool.and_eq_true, decide_eq_true_eq, Option.map_eq_some_iff] at h
    obtain ⟨⟨h1, h2⟩, rfl⟩ := h
    exact ⟨st', rfl, h1, h2⟩
  · cases h

theorem val_E {P : Lex} {T : Types} (h : Assoc.get T (exId "E") = some (.new (.complex exEmpty))) :
    Val P T (exId "E") none [] [] :=
  .emptyValue h rfl rfl ⟨by simp [exEmpty], by simp⟩ (by simp [exEmpty])

theorem lang_el {P : Lex} {T : Types} (h : Assoc.get T (exId "E") = some (.new (.complex exEmpty))) (n : String) :
    declLang P T (exDecl n) [exEl n] := by
  show Repeat 1 (.bounded 1) _ _
  rw [repeat_one]
  exact ⟨none, [], [], rfl, val_E h⟩

/-- The name of an element. -/
def tag : Node → Option PropIdent
  | .elem n _ _ _ => some n
  | .text _ => none

theorem decl_tags {P : Lex} {T : Types} {n : String} {ns : List Node} (h : declLang P T (exDecl n) ns) :
    ns.map tag = [some ⟨0, .named n.toList⟩] := by
  change Repeat 1 (.bounded 1) _ _ at h
  rw [repeat_one] at h
  obtain ⟨x, as, kids, rfl, -⟩ := h
  rfl

theorem decls_tags {P : Lex} {T : Types} {l : List String} {ns : List Node}
    (h : Concat (l.map fun n => declLang P T (exDecl n)) ns) :
    ns.map tag = l.map fun n => some ⟨0, .named n.toList⟩ := by
  induction l generalizing ns with
  | nil => cases h; rfl
  | cons n l ih =>
    obtain ⟨a, b, rfl, h1, h2⟩ := h
    rw [List.map_append, decl_tags h1, ih h2]
    rfl

/-! ### C59 -/

/-- `<sequence> a, <choice minOccurs="0" maxOccurs="unbounded"> b, c </choice>, <group ref="G"/>, <any/>,
<group ref="G" minOccurs="0"/> </sequence>` where the group `G` is `<all> d, e </all>`. -/
def exModel : Top :=
  let g : List Part := [.elem (exDecl "d"), .elem (exDecl "e")]
  exTop .sequence
    [.elem (exDecl "a"),
     .group .choice ⟨0, .generated "Content2".toList⟩ (exId "T2") none 0 .unbounded
       [.elem (exDecl "b"), .elem (exDecl "c")],
     .group .all ⟨0, .named "G".toList⟩ (exId "T3") (some (exId "G")) 1 (.bounded 1) g,
     .any ⟨0, .generated "any1".toList⟩ ⟨none, none, none, none, []⟩ 1 (.bounded 1),
     .group .all ⟨0, .named "G".toList⟩ (exId "T4") (some (exId "G")) 0 (.bounded 1) g]

def exDefs (_ : Ident) : GKind × List Part := (.all, [.elem (exDecl "d"), .elem (exDecl "e")])

-- the hypotheses of `C59_content_exact_partial` are met; the second reference uses the type of the first
example : exModel.Plain exDefs ∧
    exCheck (applyTop false exModel ⟨[(exId "E", .new (.complex exEmpty))], []⟩ exEmpty) (exId "T1")
      (.sequence ⟨false, [member (exDecl "a"),
        newNested (exId "T2") 0 .unbounded ⟨0, .generated "Content2".toList⟩,
        { newNested (exId "T3") 1 (.bounded 1) ⟨0, .named "G".toList⟩ with displayName := some "G_1".toList },
        { newAny ⟨0, .generated "any1".toList⟩ ⟨none, none, none, none, []⟩ with displayName := some "any".toList },
        newNested (exId "T3") 0 (.bounded 1) ⟨0, .named "G_2".toList⟩]⟩)
      { exEmpty with content := some (exId "T1") } = true := by
  refine ⟨?_, by decide +kernel⟩
  refine ⟨by simp [exModel, exTop], by simp [exModel, exTop, elemNames], by simp [exModel, exTop], ?_⟩
  simp only [exModel, exTop, Plain, Part.Plain, true_and, and_true]
  refine ⟨⟨by simp, by decide +kernel, by simp⟩, ⟨by simp, by decide +kernel, ?_⟩, by simp, by decide +kernel, ?_⟩
  · intro k hk; cases hk; rfl
  · intro k hk; cases hk; rfl

/-- C59 (negation): a group without particles is dropped, and with it the alternative to write nothing: the content
model `<choice> a, <sequence/> </choice>` allows an empty document, the generated type does not. -/
theorem C59_empty_alternative_lost (P : Lex) : ∃ (t : Top) (st st' : St) (c c' : Complex),
    applyTop false t st c = .ok (st', c') ∧ t.lang (Val P st'.types) P.anyElement [] ∧
      ¬ contentLang P st'.types c' [] := by
  have hc : exCheck (applyTop false (exTop .choice [.elem (exDecl "a"),
      .group .sequence ⟨0, .generated "Content2".toList⟩ (exId "T2") none 1 (.bounded 1) []])
      ⟨[(exId "E", .new (.complex exEmpty))], []⟩ exEmpty) (exId "T1")
      (.choice ⟨false, [member (exDecl "a")]⟩) { exEmpty with content := some (exId "T1") } = true := by
    decide +kernel
  obtain ⟨st', h1, h2, ty, h3, h4⟩ := exCheck_iff hc
  refine ⟨_, _, st', _, _, h1, ?_, ?_⟩
  · show Repeat 1 (.bounded 1) _ _
    rw [repeat_one]
    refine ⟨_, List.mem_cons_of_mem _ List.mem_cons_self, ?_⟩
    rw [Part.lang, repeat_one]
    exact rfl
  · rw [contentLang_eq P _ _ (exId "T1") rfl, group_eq h3 (k := .choice) (by rw [h4]; rfl)]
    show ¬ Repeat 1 (.bounded 1) _ _
    rw [repeat_one]
    rintro ⟨L, hL, hns⟩
    simp only [List.map_cons, List.map_nil, List.mem_singleton] at hL
    subst hL
    rw [memLang_member] at hns
    cases decl_tags hns

/-! ### C52 -/

/-- C52 (negation): a sequence that mentions the element `a` twice accepts it only once. -/
theorem C52_repeated_element_lost (P : Lex) : ∃ (t : Top) (st st' : St) (c c' : Complex),
    t.parts = [.elem (exDecl "a"), .elem (exDecl "a")] ∧ t.kind = .sequence ∧
    applyTop false t st c = .ok (st', c') ∧ t.lang (Val P st'.types) P.anyElement [exEl "a", exEl "a"] ∧
      ¬ contentLang P st'.types c' [exEl "a", exEl "a"] := by
  have hc : exCheck (applyTop false (exTop .sequence [.elem (exDecl "a"), .elem (exDecl "a")])
      ⟨[(exId "E", .new (.complex exEmpty))], []⟩ exEmpty) (exId "T1")
      (.sequence ⟨false, [member (exDecl "a")]⟩) { exEmpty with content := some (exId "T1") } = true := by
    decide +kernel
  obtain ⟨st', h1, h2, ty, h3, h4⟩ := exCheck_iff hc
  refine ⟨_, _, st', _, _, rfl, rfl, h1, ?_, ?_⟩
  · show Repeat 1 (.bounded 1) _ _
    rw [repeat_one]
    exact ⟨[exEl "a"], [exEl "a"], rfl, lang_el h2 "a", [exEl "a"], [], rfl, lang_el h2 "a", rfl⟩
  · rw [contentLang_eq P _ _ (exId "T1") rfl, group_eq h3 (k := .sequence) (by rw [h4]; rfl)]
    show ¬ Repeat 1 (.bounded 1) _ _
    rw [repeat_one]
    intro h
    have := decls_tags (l := ["a"]) (P := P) (T := st'.types) (by
      simpa only [List.map_cons, List.map_nil, memLang_member, GKind.combine] using h)
    cases this

/-- C52 (negation): the bounds of the last mention win: `<sequence> a, b, a? </sequence>` accepts `b` alone and rejects
`a b a`. -/
theorem C52_last_bounds_win (P : Lex) : ∃ (t : Top) (st st' : St) (c c' : Complex),
    t.parts = [.elem (exDecl "a"), .elem (exDecl "b"), .elem (exDecl "a" 0)] ∧ t.kind = .sequence ∧
    applyTop false t st c = .ok (st', c') ∧
    ¬ t.lang (Val P st'.types) P.anyElement [exEl "b"] ∧ contentLang P st'.types c' [exEl "b"] ∧
    t.lang (Val P st'.types) P.anyElement [exEl "a", exEl "b", exEl "a"] ∧
    ¬ contentLang P st'.types c' [exEl "a", exEl "b", exEl "a"] := by
  have hc : exCheck (applyTop false (exTop .sequence [.elem (exDecl "a"), .elem (exDecl "b"), .elem (exDecl "a" 0)])
      ⟨[(exId "E", .new (.complex exEmpty))], []⟩ exEmpty) (exId "T1")
      (.sequence ⟨false, [member (exDecl "a" 0), member (exDecl "b")]⟩)
      { exEmpty with content := some (exId "T1") } = true := by
    decide +kernel
  obtain ⟨st', h1, h2, ty, h3, h4⟩ := exCheck_iff hc
  have hl : contentLang P st'.types { exEmpty with content := some (exId "T1") } =
      Concat [declLang P st'.types (exDecl "a" 0), declLang P st'.types (exDecl "b")] := by
    rw [contentLang_eq P _ _ (exId "T1") rfl, group_eq h3 (k := .sequence) (by rw [h4]; rfl)]
    show Repeat 1 (.bounded 1) _ = _
    rw [repeat_one]
    show Concat [_, _] = _
    rw [memLang_member, memLang_member]
  have ht : ∀ ns, (exTop .sequence [.elem (exDecl "a"), .elem (exDecl "b"), .elem (exDecl "a" 0)]).lang
      (Val P st'.types) P.anyElement ns ↔ Concat [declLang P st'.types (exDecl "a"), declLang P st'.types (exDecl "b"),
        declLang P st'.types (exDecl "a" 0)] ns := by
    intro ns
    show Repeat 1 (.bounded 1) _ _ ↔ _
    rw [repeat_one]
    exact Iff.rfl
  refine ⟨_, _, st', _, _, rfl, rfl, h1, ?_, ?_, ?_, ?_⟩
  · rw [ht]
    rintro ⟨a, b, hab, ha, b1, b2, rfl, hb1, -⟩
    have e1 := decl_tags ha
    have e2 := decl_tags hb1
    have := congrArg List.length (congrArg (List.map tag) hab)
    rw [List.map_append, List.map_append, e1, e2] at this
    simp at this
  · rw [hl]
    refine ⟨[], [exEl "b"], rfl, ⟨[], ⟨Nat.le_refl _, fun _ _ => Nat.zero_le _⟩, rfl, by simp⟩, ?_⟩
    exact (concat_one _ _).mpr (lang_el h2 "b")
  · rw [ht]
    refine ⟨[exEl "a"], [exEl "b", exEl "a"], rfl, lang_el h2 "a", [exEl "b"], [exEl "a"], rfl, lang_el h2 "b", ?_⟩
    refine (concat_one _ _).mpr ⟨[[exEl "a"]], ⟨Nat.zero_le _, fun b hb => by cases hb; exact Nat.le_refl _⟩, rfl, ?_⟩
    intro i hi
    rcases List.mem_singleton.mp hi with rfl
    exact ⟨none, [], [], rfl, val_E h2⟩
  · rw [hl, concat_two]
    rintro ⟨a, b, hab, ⟨is, hi1, rfl, hi2⟩, hb⟩
    have e2 := decl_tags hb
    have hlen : is.flatten.length ≤ 1 := by
      have hle : is.length ≤ 1 := hi1.2 1 rfl
      match is, hle with
      | [], _ => simp
      | [i], _ =>
        obtain ⟨x, as, kids, rfl, -⟩ := hi2 i (by simp)
        simp
    have := congrArg List.length hab
    have hb' : b.length = 1 := by simpa using congrArg List.length e2
    rw [List.length_append, hb'] at this
    simp only [List.length_cons, List.length_nil] at this
    omega

-- the hypotheses of `C52_choice_partial` are met by `<choice> a, b, a </choice>`
example : exCheck (applyTop false (exTop .choice ([exDecl "a", exDecl "b", exDecl "a"].map .elem))
      ⟨[(exId "E", .new (.complex exEmpty))], []⟩ exEmpty) (exId "T1")
      (.choice ⟨false, [member (exDecl "a"), member (exDecl "b")]⟩)
      { exEmpty with content := some (exId "T1") } = true ∧
    ∀ d ∈ [exDecl "a", exDecl "b", exDecl "a"], ∀ d' ∈ [exDecl "a", exDecl "b", exDecl "a"],
      d.ident = d'.ident → d.type_ = d'.type_ ∧ d.min = d'.min ∧ d.max = d'.max := by
  exact ⟨by decide +kernel, by decide +kernel⟩

/-! ### C51 -/

theorem isBase_ex {k : GKind} {es : List Element} {min : Nat} {max : MaxOccurs} :
    IsBase (exSt k es) (exDerived min max) k ⟨false, es⟩ :=
  ⟨exId "B", _, rfl, rfl, groupParts_variant _ _ _⟩

-- the hypotheses of `C51_extension_partial` are met: `<sequence> a </sequence>` extended by `<sequence> b, c* </sequence>`
example : exCheck (derive false .extension (exId "N")
      (some (exTop .sequence [.elem (exDecl "b"), .elem (exDecl "c" 0 .unbounded)]))
      (exSt .sequence [member (exDecl "a")]) exDerived) (exId "N")
      (.sequence ⟨false, [member (exDecl "a"), member (exDecl "b"), member (exDecl "c" 0 .unbounded)]⟩)
      { exDerived with content := some (exId "N") } = true ∧
    (exTop .sequence [.elem (exDecl "b"), .elem (exDecl "c" 0 .unbounded)]).Plain exDefs ∧
    ∀ n ∈ elemNames [.elem (exDecl "b"), .elem (exDecl "c" 0 .unbounded)], n ∉ memberNames [member (exDecl "a")] := by
  refine ⟨by decide +kernel, ⟨by simp [exTop], by decide +kernel, by simp [exTop], ?_⟩, by decide +kernel⟩
  simp [exTop, Plain, Part.Plain]

-- … and by `<sequence> a </sequence>` extended by `<choice maxOccurs="unbounded"> b, c </choice>`, which is nested
example : exCheck (derive false .extension (exId "N")
      (some (exTop .choice [.elem (exDecl "b"), .elem (exDecl "c")] 1 .unbounded))
      (exSt .sequence [member (exDecl "a")]) exDerived) (exId "N")
      (.sequence ⟨false, [member (exDecl "a"), newNested (exId "T1") 1 .unbounded ⟨0, .generated "Content1".toList⟩]⟩)
      { exDerived with content := some (exId "N") } = true ∧
    (exTop .choice [.elem (exDecl "b"), .elem (exDecl "c")] 1 .unbounded).Plain exDefs := by
  refine ⟨by decide +kernel, ⟨by simp [exTop], by decide +kernel, by simp [exTop], ?_⟩⟩
  simp [exTop, Plain, Part.Plain]

-- the hypotheses of `C51_extension_all_partial` are met: `<all> a </all>` extended by `<all> b? </all>`
example : exCheck (derive false .extension (exId "N") (some (exTop .all [.elem (exDecl "b" 0)]))
      (exSt .all [member (exDecl "a")]) exDerived) (exId "N")
      (.all ⟨false, [member (exDecl "a"), member (exDecl "b" 0)]⟩)
      { exDerived with content := some (exId "N") } = true ∧
    (exTop .all [.elem (exDecl "b" 0)]).Plain exDefs ∧
    ∀ n ∈ elemNames [.elem (exDecl "b" 0)], n ∉ memberNames [member (exDecl "a")] := by
  refine ⟨by decide +kernel, ⟨by simp [exTop], by decide +kernel, by simp [exTop], ?_⟩, by decide +kernel⟩
  simp [exTop, Plain, Part.Plain]

-- the hypotheses of `C51_empty_base` and `C51_no_particle` are met
example : exCheck (derive false .extension (exId "N") (some (exTop .choice [.elem (exDecl "b"), .elem (exDecl "c")] 0))
      (exSt .all [member (exDecl "a")]) exEmpty) (exId "T1")
      (.choice ⟨false, [member (exDecl "b"), member (exDecl "c")]⟩)
      { exEmpty with content := some (exId "T1"), min := 0 } = true ∧
    exCheck (derive false .extension (exId "N") none (exSt .choice [member (exDecl "a"), member (exDecl "b")])
      (exDerived 0 .unbounded)) (exId "N") (.choice ⟨false, [member (exDecl "a"), member (exDecl "b")]⟩)
      { exDerived 0 .unbounded with content := some (exId "N") } = true := by
  exact ⟨by decide +kernel, by decide +kernel⟩

/-- The extension `<… > b </…>` of the base `<…> a </…>`. -/
def exExt (k k' : GKind) (min min' : Nat) (max max' : MaxOccurs) : Except IErr (St × Complex) :=
  derive false .extension (exId "N") (some (exTop k' [.elem (exDecl "b")] min' max'))
    (exSt k [member (exDecl "a")]) (exDerived min max)

def exOk (r : Except IErr (St × Complex)) : Bool :=
  match r with
  | .ok (st', _) => decide (Assoc.get st'.types (exId "E") = some (.new (.complex exEmpty)))
  | .error _ => false

theorem exOk_iff {r : Except IErr (St × Complex)} (h : exOk r = true) : ∃ st' c', r = .ok (st', c') ∧
    Assoc.get st'.types (exId "E") = some (.new (.complex exEmpty)) := by
  unfold exOk at h
  split at h
  · rename_i st' c'
    exact ⟨st', c', rfl, by simpa using h⟩
  · cases h

/-- What the theorems above say about the extensions `exExt`. -/
theorem exExt_langs {k k' : GKind} {min min' : Nat} {max max' : MaxOccurs} {st' : St} {c' : Complex}
    (h : exExt k k' min min' max max' = .ok (st', c')) (P : Lex) :
    contentLang P st'.types (exDerived min max) = Repeat min max (k.combine [declLang P st'.types (exDecl "a")]) ∧
    (exTop k' [.elem (exDecl "b")] min' max').lang (Val P st'.types) P.anyElement =
      Repeat min' max' (k'.combine [declLang P st'.types (exDecl "b")]) ∧
    (k' = k → contentLang P st'.types c' = Repeat (Min.min min min') (max.max max')
      (k.combine [declLang P st'.types (exDecl "a"), declLang P st'.types (exDecl "b")])) ∧
    (k' ≠ k → contentLang P st'.types c' = Repeat min max
      (k.combine [declLang P st'.types (exDecl "a"),
        Repeat min' max' (k'.combine [declLang P st'.types (exDecl "b")])])) := by
  have hp : (exTop k' [.elem (exDecl "b")] min' max').Plain exDefs :=
    ⟨by simp [exTop], by simp [exTop, elemNames], by simp [exTop], by simp [exTop, Plain, Part.Plain]⟩
  obtain ⟨d1, d2, d3⟩ := derive_extension h (isBase_ex (min := min) (max := max)) rfl hp
    (fun _ => by show ∀ n ∈ elemNames [Part.elem (exDecl "b")], n ∉ memberNames [member (exDecl "a")]; decide +kernel)
    P st'.types (Extends.refl _)
  simp only [List.map_cons, List.map_nil, memLang_member] at d1 d2 d3
  exact ⟨d1, rfl, d2, d3⟩

theorem either_tags {P : Lex} {T : Types} {ns : List Node} {n m : String}
    (h : Either [declLang P T (exDecl n), declLang P T (exDecl m)] ns) : ns.length = 1 := by
  obtain ⟨L, hL, hns⟩ := h
  rcases List.mem_cons.mp hL with rfl | hL
  · simpa using congrArg List.length (decl_tags hns)
  · rcases List.mem_singleton.mp hL with rfl
    simpa using congrArg List.length (decl_tags hns)

theorem combine_one {k : GKind} (L : Lang) : k.combine [L] = L := by
  funext ns
  apply propext
  cases k
  · constructor
    · rintro ⟨Ls, h1, h2⟩
      rw [List.perm_singleton.mp h1] at h2
      exact (concat_one _ _).mp h2
    · intro h
      exact ⟨[L], List.Perm.refl _, (concat_one _ _).mpr h⟩
  · constructor
    · rintro ⟨L', h1, h2⟩
      rcases List.mem_singleton.mp h1 with rfl
      exact h2
    · intro h
      exact ⟨L, by simp, h⟩
  · exact concat_one L ns

/-- C51 (negation): the repetition of the base is applied to base and extension together: a base that allows `a a`
extended by `b` rejects `a a b`. -/
theorem C51_repeated_base (P : Lex) : ∃ st' c', exExt .sequence .sequence 0 1 .unbounded (.bounded 1) = .ok (st', c') ∧
    contentLang P st'.types (exDerived 0 .unbounded) [exEl "a", exEl "a"] ∧
    (exTop .sequence [.elem (exDecl "b")]).lang (Val P st'.types) P.anyElement [exEl "b"] ∧
    ¬ contentLang P st'.types c' [exEl "a", exEl "a", exEl "b"] := by
  obtain ⟨st', c', h, hE⟩ := exOk_iff (show exOk (exExt .sequence .sequence 0 1 .unbounded (.bounded 1)) = true by
    decide +kernel)
  obtain ⟨l1, l2, l3, -⟩ := exExt_langs h P
  refine ⟨st', c', h, ?_, ?_, ?_⟩
  · rw [l1, combine_one]
    refine ⟨[[exEl "a"], [exEl "a"]], ⟨Nat.zero_le _, fun b hb => by cases hb⟩, rfl, ?_⟩
    intro i hi
    simp only [List.mem_cons, List.not_mem_nil, or_false, or_self] at hi
    subst hi
    exact lang_el hE "a"
  · rw [l2, combine_one, repeat_one]
    exact lang_el hE "b"
  · rw [l3 rfl]
    rintro ⟨is, -, h2, h3⟩
    have h3' : ∀ i ∈ is, i.map tag = [some ⟨0, .named "a".toList⟩, some ⟨0, .named "b".toList⟩] :=
      fun i hi => decls_tags (l := ["a", "b"]) (h3 i hi)
    match is, h2, h3' with
    | [], h2, _ => cases h2
    | i :: is, h2, h3' =>
      have e := congrArg (List.map tag) h2
      rw [List.flatten_cons, List.map_append, h3' i (by simp)] at e
      have : ([some ⟨0, .named "a".toList⟩, some ⟨0, .named "b".toList⟩] ++ is.flatten.map tag :
          List (Option PropIdent))[1]? = some (some ⟨0, .named "a".toList⟩) := by rw [e]; rfl
      simp at this

/-- C51 (negation): a base with `a` extended by an optional `b`: the document with `a` alone is rejected, the empty
document is accepted. -/
theorem C51_optional_extension (P : Lex) :
    ∃ st' c', exExt .sequence .sequence 1 0 (.bounded 1) (.bounded 1) = .ok (st', c') ∧
    contentLang P st'.types exDerived [exEl "a"] ∧
    (exTop .sequence [.elem (exDecl "b")] 0).lang (Val P st'.types) P.anyElement [] ∧
    ¬ contentLang P st'.types c' [exEl "a"] ∧
    ¬ contentLang P st'.types exDerived [] ∧ contentLang P st'.types c' [] := by
  obtain ⟨st', c', h, hE⟩ := exOk_iff (show exOk (exExt .sequence .sequence 1 0 (.bounded 1) (.bounded 1)) = true by
    decide +kernel)
  obtain ⟨l1, l2, l3, -⟩ := exExt_langs h P
  refine ⟨st', c', h, ?_, ?_, ?_, ?_, ?_⟩
  · rw [l1, combine_one, repeat_one]
    exact lang_el hE "a"
  · rw [l2]
    exact ⟨[], ⟨Nat.le_refl _, fun _ _ => Nat.zero_le _⟩, rfl, by simp⟩
  · rw [l3 rfl]
    rintro ⟨is, -, h2, h3⟩
    have h3' : ∀ i ∈ is, i.map tag = [some ⟨0, .named "a".toList⟩, some ⟨0, .named "b".toList⟩] :=
      fun i hi => decls_tags (l := ["a", "b"]) (h3 i hi)
    match is, h2, h3' with
    | [], h2, _ => cases h2
    | i :: is, h2, h3' =>
      have e := congrArg List.length (congrArg (List.map tag) h2)
      rw [List.flatten_cons, List.map_append, h3' i (by simp)] at e
      simp at e
  · rw [l1, combine_one, repeat_one]
    intro h
    cases decl_tags h
  · rw [l3 rfl]
    exact ⟨[], ⟨Nat.zero_le _, fun _ _ => Nat.zero_le _⟩, rfl, by simp⟩

/-- C51 (negation): a choice extended by a choice becomes one choice: `a b` is rejected, `b` alone is accepted. -/
theorem C51_choice_merged (P : Lex) :
    ∃ st' c', exExt .choice .choice 1 1 (.bounded 1) (.bounded 1) = .ok (st', c') ∧
    contentLang P st'.types exDerived [exEl "a"] ∧
    (exTop .choice [.elem (exDecl "b")]).lang (Val P st'.types) P.anyElement [exEl "b"] ∧
    ¬ contentLang P st'.types c' [exEl "a", exEl "b"] ∧ contentLang P st'.types c' [exEl "b"] := by
  obtain ⟨st', c', h, hE⟩ := exOk_iff (show exOk (exExt .choice .choice 1 1 (.bounded 1) (.bounded 1)) = true by
    decide +kernel)
  obtain ⟨l1, l2, l3, -⟩ := exExt_langs h P
  have l3 : contentLang P st'.types c' = _ := (l3 rfl).trans (repeat_one _)
  refine ⟨st', c', h, ?_, ?_, ?_, ?_⟩
  · rw [l1, combine_one, repeat_one]; exact lang_el hE "a"
  · rw [l2, combine_one, repeat_one]; exact lang_el hE "b"
  · rw [l3]
    intro h
    have := either_tags h
    simp at this
  · rw [l3]
    exact ⟨_, List.mem_cons_of_mem _ List.mem_cons_self, lang_el hE "b"⟩

/-- C51 (negation): a choice extended by a sequence gets one more alternative: `a b` is rejected, `b` alone is
accepted. -/
theorem C51_choice_appended (P : Lex) :
    ∃ st' c', exExt .choice .sequence 1 1 (.bounded 1) (.bounded 1) = .ok (st', c') ∧
    contentLang P st'.types exDerived [exEl "a"] ∧
    (exTop .sequence [.elem (exDecl "b")]).lang (Val P st'.types) P.anyElement [exEl "b"] ∧
    ¬ contentLang P st'.types c' [exEl "a", exEl "b"] ∧ contentLang P st'.types c' [exEl "b"] := by
  obtain ⟨st', c', h, hE⟩ := exOk_iff (show exOk (exExt .choice .sequence 1 1 (.bounded 1) (.bounded 1)) = true by
    decide +kernel)
  obtain ⟨l1, l2, -, l4⟩ := exExt_langs h P
  have l4 : contentLang P st'.types c' = _ := (l4 (by decide)).trans (repeat_one _)
  rw [repeat_one, combine_one] at l4
  refine ⟨st', c', h, ?_, ?_, ?_, ?_⟩
  · rw [l1, combine_one, repeat_one]; exact lang_el hE "a"
  · rw [l2, combine_one, repeat_one]; exact lang_el hE "b"
  · rw [l4]
    intro h
    have := either_tags h
    simp at this
  · rw [l4]
    exact ⟨_, List.mem_cons_of_mem _ List.mem_cons_self, lang_el hE "b"⟩

/-- C51 (negation): an element that occurs in the base and in the extension is accepted only once. -/
theorem C51_common_name (P : Lex) : ∃ st' c', derive false .extension (exId "N")
      (some (exTop .sequence [.elem (exDecl "a")])) (exSt .sequence [member (exDecl "a")]) exDerived = .ok (st', c') ∧
    contentLang P st'.types exDerived [exEl "a"] ∧
    (exTop .sequence [.elem (exDecl "a")]).lang (Val P st'.types) P.anyElement [exEl "a"] ∧
    ¬ contentLang P st'.types c' [exEl "a", exEl "a"] := by
  have hc : exCheck (derive false .extension (exId "N")
      (some (exTop .sequence [.elem (exDecl "a")])) (exSt .sequence [member (exDecl "a")]) exDerived) (exId "N")
      (.sequence ⟨false, [member (exDecl "a")]⟩) { exDerived with content := some (exId "N") } = true := by
    decide +kernel
  have hc' : exCheck (derive false .extension (exId "N")
      (some (exTop .sequence [.elem (exDecl "a")])) (exSt .sequence [member (exDecl "a")]) exDerived) (exId "B")
      (.sequence ⟨false, [member (exDecl "a")]⟩) { exDerived with content := some (exId "N") } = true := by
    decide +kernel
  obtain ⟨st', h1, h2, ty, h3, h4⟩ := exCheck_iff hc
  obtain ⟨st'', h1', -, ty', h3', h4'⟩ := exCheck_iff hc'
  rw [h1] at h1'; cases h1'
  refine ⟨st', _, h1, ?_, ?_, ?_⟩
  · rw [contentLang_eq P _ _ (exId "B") rfl, group_eq h3' (k := .sequence) (by rw [h4']; rfl), List.map_singleton,
      memLang_member, combine_one]
    exact ⟨[[exEl "a"]], allows_one.mpr rfl, rfl, by simpa using lang_el h2 "a"⟩
  · show Repeat 1 (.bounded 1) _ _
    rw [repeat_one]
    exact (concat_one _ _).mpr (lang_el h2 "a")
  · rw [contentLang_eq P _ _ (exId "N") rfl, group_eq h3 (k := .sequence) (by rw [h4]; rfl), List.map_singleton,
      memLang_member, combine_one]
    show ¬ Repeat 1 (.bounded 1) _ _
    rw [repeat_one]
    intro h
    cases decl_tags h

/-- C51 (negation): an extension by an empty sequence changes the bounds: a base that requires `a` twice accepts one. -/
theorem C51_empty_extension_widens (P : Lex) : ∃ st' c', derive false .extension (exId "N")
      (some (exTop .sequence [])) (exSt .sequence [member (exDecl "a")]) (exDerived 2 (.bounded 2)) = .ok (st', c') ∧
    ¬ contentLang P st'.types (exDerived 2 (.bounded 2)) [exEl "a"] ∧ contentLang P st'.types c' [exEl "a"] := by
  have hc : exCheck (derive false .extension (exId "N")
      (some (exTop .sequence [])) (exSt .sequence [member (exDecl "a")]) (exDerived 2 (.bounded 2))) (exId "N")
      (.sequence ⟨false, [member (exDecl "a")]⟩)
      { exDerived 1 (.bounded 2) with content := some (exId "N") } = true := by
    decide +kernel
  have hc' : exCheck (derive false .extension (exId "N")
      (some (exTop .sequence [])) (exSt .sequence [member (exDecl "a")]) (exDerived 2 (.bounded 2))) (exId "B")
      (.sequence ⟨false, [member (exDecl "a")]⟩)
      { exDerived 1 (.bounded 2) with content := some (exId "N") } = true := by
    decide +kernel
  obtain ⟨st', h1, h2, ty, h3, h4⟩ := exCheck_iff hc
  obtain ⟨st'', h1', -, ty', h3', h4'⟩ := exCheck_iff hc'
  rw [h1] at h1'; cases h1'
  refine ⟨st', _, h1, ?_, ?_⟩
  · rw [contentLang_eq P _ _ (exId "B") rfl, group_eq h3' (k := .sequence) (by rw [h4']; rfl), List.map_singleton,
      memLang_member, combine_one]
    rintro ⟨is, i1, i2, i3⟩
    have : 2 ≤ is.length := i1.1
    match is, this with
    | i :: j :: is, _ =>
      have e := congrArg List.length (congrArg (List.map tag) i2)
      rw [List.flatten_cons, List.flatten_cons, List.map_append, List.map_append, decl_tags (i3 i (by simp)),
        decl_tags (i3 j (by simp))] at e
      simp at e
  · rw [contentLang_eq P _ _ (exId "N") rfl, group_eq h3 (k := .sequence) (by rw [h4]; rfl), List.map_singleton,
      memLang_member, combine_one]
    refine ⟨[[exEl "a"]], ⟨Nat.le_refl _, fun b hb => by cases hb; decide⟩, rfl, by simpa using lang_el h2 "a"⟩

/-! ### C60 -/

-- the hypotheses of `C60_restriction_partial` are met: `<sequence> a, b*, c? </sequence>` restricted to
-- `<sequence> a, b+ </sequence>`
example : exCheck (derive false .restriction (exId "N")
      (some (exTop .sequence ([exDecl "a", exDecl "b" 1 .unbounded].map .elem)))
      (exSt .sequence [member (exDecl "a"), member (exDecl "b" 0 .unbounded), member (exDecl "c" 0)]) exDerived) (exId "N")
      (.sequence ⟨false, [member (exDecl "a"), member (exDecl "b" 1 .unbounded)]⟩)
      { exDerived with content := some (exId "N") } = true ∧
    (required [member (exDecl "a"), member (exDecl "b" 0 .unbounded), member (exDecl "c" 0)]).map (·.ident) =
      ([exDecl "a", exDecl "b" 1 .unbounded].take 1).map (·.ident) := by
  exact ⟨by decide +kernel, by decide +kernel⟩

/-- C60 (negation): an optional element of the base that the restriction repeats is moved behind the required ones:
`<sequence> a?, b </sequence>` restricted to `<sequence> a, b </sequence>` rejects `a b` and accepts `b a`. -/
theorem C60_optional_reordered (P : Lex) : ∃ st' c', derive false .restriction (exId "N")
      (some (exTop .sequence [.elem (exDecl "a"), .elem (exDecl "b")]))
      (exSt .sequence [member (exDecl "a" 0), member (exDecl "b")]) exDerived = .ok (st', c') ∧
    (exTop .sequence [.elem (exDecl "a"), .elem (exDecl "b")]).lang (Val P st'.types) P.anyElement
      [exEl "a", exEl "b"] ∧
    ¬ contentLang P st'.types c' [exEl "a", exEl "b"] ∧ contentLang P st'.types c' [exEl "b", exEl "a"] := by
  have hc : exCheck (derive false .restriction (exId "N")
      (some (exTop .sequence [.elem (exDecl "a"), .elem (exDecl "b")]))
      (exSt .sequence [member (exDecl "a" 0), member (exDecl "b")]) exDerived) (exId "N")
      (.sequence ⟨false, [member (exDecl "b"), member (exDecl "a")]⟩)
      { exDerived with content := some (exId "N") } = true := by
    decide +kernel
  obtain ⟨st', h1, h2, ty, h3, h4⟩ := exCheck_iff hc
  have hl : contentLang P st'.types { exDerived with content := some (exId "N") } =
      Concat [declLang P st'.types (exDecl "b"), declLang P st'.types (exDecl "a")] := by
    rw [contentLang_eq P _ _ (exId "N") rfl, group_eq h3 (k := .sequence) (by rw [h4]; rfl)]
    show Repeat 1 (.bounded 1) _ = _
    rw [repeat_one]
    show Concat [_, _] = _
    rw [memLang_member, memLang_member]
  refine ⟨st', _, h1, ?_, ?_, ?_⟩
  · show Repeat 1 (.bounded 1) _ _
    rw [repeat_one]
    exact (concat_two _ _ _).mpr ⟨[exEl "a"], [exEl "b"], rfl, lang_el h2 "a", lang_el h2 "b"⟩
  · rw [hl]
    intro h
    have := decls_tags (l := ["b", "a"]) h
    simp [exEl, tag] at this
  · rw [hl]
    exact (concat_two _ _ _).mpr ⟨[exEl "b"], [exEl "a"], rfl, lang_el h2 "b", lang_el h2 "a"⟩

/-- C60 (negation): an alternative of the base that the restriction leaves out is still accepted. -/
theorem C60_alternative_kept (P : Lex) : ∃ st' c', derive false .restriction (exId "N")
      (some (exTop .choice [.elem (exDecl "a")]))
      (exSt .choice [member (exDecl "a"), member (exDecl "b")]) exDerived = .ok (st', c') ∧
    ¬ (exTop .choice [.elem (exDecl "a")]).lang (Val P st'.types) P.anyElement [exEl "b"] ∧
    contentLang P st'.types c' [exEl "b"] := by
  have hc : exCheck (derive false .restriction (exId "N")
      (some (exTop .choice [.elem (exDecl "a")]))
      (exSt .choice [member (exDecl "a"), member (exDecl "b")]) exDerived) (exId "N")
      (.choice ⟨false, [member (exDecl "a"), member (exDecl "b")]⟩)
      { exDerived with content := some (exId "N") } = true := by
    decide +kernel
  obtain ⟨st', h1, h2, ty, h3, h4⟩ := exCheck_iff hc
  refine ⟨st', _, h1, ?_, ?_⟩
  · show ¬ Repeat 1 (.bounded 1) (GKind.choice.combine [declLang P st'.types (exDecl "a")]) _
    rw [repeat_one, combine_one]
    intro h
    have := decl_tags h
    simp [exEl, tag] at this
  · rw [contentLang_eq P _ _ (exId "N") rfl, group_eq h3 (k := .choice) (by rw [h4]; rfl)]
    show Repeat 1 (.bounded 1) _ _
    rw [repeat_one]
    refine ⟨_, List.mem_cons_of_mem _ List.mem_cons_self, ?_⟩
    rw [memLang_member]
    exact lang_el h2 "b"

/-- A base type, and a restriction of it. -/
def exThen (base : Except IErr (St × Complex)) (t : Top) : Except IErr (St × Complex) :=
  match base with
  | .ok (st, c) => derive false .restriction (exId "N") (some t) st c
  | .error e => .error e

theorem exThen_ok {base : Except IErr (St × Complex)} {t : Top} {p : St × Complex} (h : exThen base t = .ok p) :
    ∃ st c, base = .ok (st, c) ∧ derive false .restriction (exId "N") (some t) st c = .ok p := by
  unfold exThen at h
  split at h
  · exact ⟨_, _, rfl, h⟩
  · cases h

/-- C60 (negation): a group inside the base stays there beside the one of the restriction:
`<sequence><choice> a, b </choice></sequence>` restricted to `<sequence><choice> a </choice></sequence>` rejects `a`. -/
theorem C60_nested_group_doubled (P : Lex) : ∃ t st c st' c',
    applyTop false (exTop .sequence [.group .choice ⟨0, .generated "Content2".toList⟩ (exId "T2") none 1 (.bounded 1)
      [.elem (exDecl "a"), .elem (exDecl "b")]]) ⟨[(exId "E", .new (.complex exEmpty))], []⟩ exEmpty = .ok (st, c) ∧
    t.kind = .sequence ∧ t.min = 1 ∧ t.max = .bounded 1 ∧ (∃ field ty, t.parts =
      [.group .choice field ty none 1 (.bounded 1) [.elem (exDecl "a")]]) ∧
    derive false .restriction (exId "N") (some t) st c = .ok (st', c') ∧
    t.lang (Val P st'.types) P.anyElement [exEl "a"] ∧ ¬ contentLang P st'.types c' [exEl "a"] := by
  let t : Top := ⟨.sequence, ⟨0, .generated "Content3".toList⟩, exId "T3", none, 1, .bounded 1,
    [.group .choice ⟨0, .generated "Content4".toList⟩ (exId "T4") none 1 (.bounded 1) [.elem (exDecl "a")]]⟩
  let base := applyTop false (exTop .sequence [.group .choice ⟨0, .generated "Content2".toList⟩ (exId "T2") none 1
      (.bounded 1) [.elem (exDecl "a"), .elem (exDecl "b")]]) ⟨[(exId "E", .new (.complex exEmpty))], []⟩ exEmpty
  let r : Except IErr (St × Complex) := exThen base t
  have c1 : exCheck r (exId "N") (.sequence ⟨false,
      [newNested (exId "T2") 1 (.bounded 1) ⟨0, .generated "Content2".toList⟩,
       newNested (exId "T4") 1 (.bounded 1) ⟨0, .generated "Content4".toList⟩]⟩)
      { exEmpty with content := some (exId "N") } = true := by decide +kernel
  have c2 : exCheck r (exId "T2") (.choice ⟨false, [member (exDecl "a"), member (exDecl "b")]⟩)
      { exEmpty with content := some (exId "N") } = true := by decide +kernel
  have c3 : exCheck r (exId "T4") (.choice ⟨false, [member (exDecl "a")]⟩)
      { exEmpty with content := some (exId "N") } = true := by decide +kernel
  obtain ⟨st', h1, hE, ty, h3, h4⟩ := exCheck_iff c1
  obtain ⟨_, h1', -, ty2, i3, i4⟩ := exCheck_iff c2
  rw [h1] at h1'; cases h1'
  obtain ⟨_, h1', -, ty4, j3, j4⟩ := exCheck_iff c3
  rw [h1] at h1'; cases h1'
  obtain ⟨st, c, b1, b2⟩ := exThen_ok h1
  refine ⟨t, st, c, st', _, b1, rfl, rfl, rfl, ⟨_, _, rfl⟩, b2, ?_, ?_⟩
  · show Repeat 1 (.bounded 1) (GKind.sequence.combine [Repeat 1 (.bounded 1)
      (GKind.choice.combine [declLang P st'.types (exDecl "a")])]) _
    rw [repeat_one, combine_one, repeat_one, combine_one]
    exact lang_el hE "a"
  · rw [contentLang_eq P _ _ (exId "N") rfl, group_eq h3 (k := .sequence) (by rw [h4]; rfl)]
    show ¬ Repeat 1 (.bounded 1) _ _
    rw [repeat_one]
    show ¬ Concat [_, _] _
    rw [memLang_newNested, memLang_newNested, repeat_one, repeat_one, group_eq i3 (k := .choice) (by rw [i4]; rfl),
      group_eq j3 (k := .choice) (by rw [j4]; rfl), concat_two]
    rintro ⟨a, b, hab, ha, hb⟩
    simp only [List.map_cons, List.map_nil, memLang_member] at ha hb
    rw [combine_one] at hb
    have e1 := either_tags ha
    have e2 := congrArg List.length (decl_tags hb)
    have e3 := congrArg List.length hab
    rw [List.length_append] at e3
    simp at e2 e3
    omega

theorem val_E_kids {P : Lex} {T : Types} (h : Assoc.get T (exId "E") = some (.new (.complex exEmpty)))
    {x : Option PropIdent} {as : List (PropIdent × Txt)} {n : String} {kids : List Node} :
    ¬ Val P T (exId "E") x as (exEl n :: kids) := by
  intro hv
  cases hv <;> simp_all [exEmpty, MetaType.new, exEl]
  rename_i h1 h2 _ _ _ _ _
  subst h1
  cases h2

/-- C60 (negation): an element keeps the type it has in the base: if the restriction gives `a` a type without content,
`a` may still have the content that the base allows. -/
theorem C60_type_kept (P : Lex) : ∃ st st' c', derive false .restriction (exId "N")
      (some (exTop .sequence [.elem (exDecl "a")])) st exDerived = .ok (st', c') ∧
    (∃ field, Assoc.get st.types (exId "B") = some (.new (.sequence ⟨false, [field]⟩)) ∧
      field = member { exDecl "a" with type_ := exId "F" }) ∧
    ¬ (exTop .sequence [.elem (exDecl "a")]).lang (Val P st'.types) P.anyElement
      [.elem ⟨0, .named "a".toList⟩ none [] [exEl "b"]] ∧
    contentLang P st'.types c' [.elem ⟨0, .named "a".toList⟩ none [] [exEl "b"]] := by
  let st : St := ⟨[(exId "E", .new (.complex exEmpty)),
    (exId "B", .new (.sequence ⟨false, [member { exDecl "a" with type_ := exId "F" }]⟩)),
    (exId "F", .new (.complex { exEmpty with content := some (exId "G") })),
    (exId "G", .new (.sequence ⟨false, [member (exDecl "b")]⟩))], []⟩
  let r := derive false .restriction (exId "N") (some (exTop .sequence [.elem (exDecl "a")])) st exDerived
  have c1 : exCheck r (exId "N") (.sequence ⟨false, [member { exDecl "a" with type_ := exId "F" }]⟩)
      { exDerived with content := some (exId "N") } = true := by decide +kernel
  have c2 : exCheck r (exId "F") (.complex { exEmpty with content := some (exId "G") })
      { exDerived with content := some (exId "N") } = true := by decide +kernel
  have c3 : exCheck r (exId "G") (.sequence ⟨false, [member (exDecl "b")]⟩)
      { exDerived with content := some (exId "N") } = true := by decide +kernel
  obtain ⟨st', h1, hE, ty, h3, h4⟩ := exCheck_iff c1
  obtain ⟨_, h1', -, ty2, i3, i4⟩ := exCheck_iff c2
  rw [h1] at h1'; cases h1'
  obtain ⟨_, h1', -, ty4, j3, j4⟩ := exCheck_iff c3
  rw [h1] at h1'; cases h1'
  refine ⟨st, st', _, h1, ⟨_, by decide +kernel, rfl⟩, ?_, ?_⟩
  · show ¬ Repeat 1 (.bounded 1) (GKind.sequence.combine [declLang P st'.types (exDecl "a")]) _
    rw [repeat_one, combine_one]
    show ¬ Repeat 1 (.bounded 1) _ _
    rw [repeat_one]
    rintro ⟨x, as, kids, hk, hv⟩
    cases hk
    exact val_E_kids hE hv
  · rw [contentLang_eq P _ _ (exId "N") rfl, group_eq h3 (k := .sequence) (by rw [h4]; rfl), List.map_singleton,
      memLang_member, combine_one]
    show Repeat 1 (.bounded 1) (Repeat 1 (.bounded 1) _) _
    rw [repeat_one, repeat_one]
    refine ⟨none, [], [exEl "b"], rfl, ?_⟩
    refine Valid.complexValue (k := 1) i3 i4 rfl ⟨by simp [exEmpty], by simp⟩ (by simp [exEmpty])
      (allows_one.mpr rfl) ?_
    show Valid P st'.types (.groupTimes (exId "G") 1 ([exEl "b"] ++ []))
    refine .oneMore ?_ .noTimes
    have := group_eq (P := P) j3 (k := .sequence) (g := ⟨false, [member (exDecl "b")]⟩) (by rw [j4]; rfl)
    rw [List.map_singleton, memLang_member, combine_one] at this
    exact (congrFun this _).mpr (lang_el hE "b")

end Verif.Interp

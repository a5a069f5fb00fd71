import Verif.Interp.Substitution

/-!
# Substitution groups and derived types: what comes out (C64)

The pass over the finished table (`fix_derived_types.rs`) and the properties of the result.
-/

namespace Verif.Subst

open Verif.Meta Verif.Opt

/-! ## Tables that differ only in the lists of derived types -/

def strip : Variant → Variant
  | .dynamic d => .dynamic { d with derived := [] }
  | v => v

/-- The same table, up to the lists of derived types. -/
def Skel (T T' : Types) : Prop := ∀ i, (look T i).map strip = (look T' i).map strip

theorem Skel.refl (T : Types) : Skel T T := fun _ => rfl
theorem Skel.symm {T T' : Types} (h : Skel T T') : Skel T' T := fun i => (h i).symm
theorem Skel.trans {T T' T'' : Types} (h : Skel T T') (h' : Skel T' T'') : Skel T T'' := fun i => (h i).trans (h' i)

theorem strip_target (v : Variant) : (strip v).target = v.target := by cases v <;> rfl

theorem strip_reference {v : Variant} {r : Reference} (h : strip v = .reference r) : v = .reference r := by
  cases v <;> simp_all [strip]

theorem strip_complex {v : Variant} {c : Complex} (h : strip v = .complex c) : v = .complex c := by
  cases v <;> simp_all [strip]

theorem strip_dynamic {v : Variant} {d : Meta.Dynamic} (h : strip v = strip (.dynamic d)) :
    ∃ l, v = .dynamic { d with derived := l } := by
  cases v <;> simp_all [strip]
  rename_i d'
  exact ⟨d'.derived, by obtain ⟨a, b, c⟩ := d'; obtain ⟨a', b', c'⟩ := d; simp_all⟩

theorem look_get {T : Types} {i : Ident} {v : Variant} : look T i = some v ↔ ∃ ty, Assoc.get T i = some ty ∧ ty.variant = v := by
  simp [look, Option.map_eq_some_iff]

theorem synonym_look {T : Types} {i k : Ident} : Synonym T i k ↔ ∃ v, look T i = some v ∧ v.target = some k := by
  rw [synonym_iff]
  constructor
  · rintro ⟨ty, h1, h2⟩; exact ⟨_, look_get.2 ⟨ty, h1, rfl⟩, h2⟩
  · rintro ⟨v, h1, h2⟩
    obtain ⟨ty, h1', rfl⟩ := look_get.1 h1
    exact ⟨ty, h1', h2⟩

theorem defined_look {T : Types} {i : Ident} : Defined T i ↔ ∃ v, look T i = some v := by
  constructor
  · rintro ⟨ty, h⟩; exact ⟨_, look_get.2 ⟨ty, h, rfl⟩⟩
  · rintro ⟨v, h⟩
    obtain ⟨ty, h, _⟩ := look_get.1 h
    exact ⟨ty, h⟩

theorem Skel.look {T T' : Types} (h : Skel T T') {i : Ident} {v : Variant} (hl : look T i = some v) :
    ∃ v', Meta.look T' i = some v' ∧ strip v' = strip v := by
  have := h i
  rw [hl] at this
  cases hl' : Meta.look T' i with
  | none => rw [hl'] at this; cases this
  | some v' =>
    rw [hl'] at this
    simp only [Option.map_some, Option.some.injEq] at this
    exact ⟨v', rfl, this.symm⟩

theorem Skel.synonym {T T' : Types} (h : Skel T T') {i k : Ident} (hs : Synonym T i k) : Synonym T' i k := by
  rw [synonym_look] at hs ⊢
  obtain ⟨v, h1, h2⟩ := hs
  obtain ⟨v', h1', h2'⟩ := h.look h1
  exact ⟨v', h1', by rw [← strip_target, h2', strip_target]; exact h2⟩

theorem Skel.defined {T T' : Types} (h : Skel T T') {i : Ident} (hs : Defined T i) : Defined T' i := by
  rw [defined_look] at hs ⊢
  obtain ⟨v, h1⟩ := hs
  obtain ⟨v', h1', _⟩ := h.look h1
  exact ⟨v', h1'⟩

theorem Skel.follow {T T' : Types} (h : Skel T T') {i j : Ident} {p : List Ident} (hf : Follow T i p j) :
    Follow T' i p j := by
  induction hf with
  | here hd => exact .here (h.defined hd)
  | step hs _ ih => exact .step (h.synonym hs) ih

/-- Resolving in terms of `look`. -/
theorem resolved_iff {T : Types} {i j : Ident} {v : Variant} :
    (∃ ty, getResolved T i = some (j, ty) ∧ ty.variant = v) ↔
      ∃ p, Follow T i p j ∧ p.Nodup ∧ look T j = some v ∧ ∀ k, Synonym T j k → k ∈ p ∨ ¬ Defined T k := by
  constructor
  · rintro ⟨ty, h, rfl⟩
    obtain ⟨p, h1, h2, h3, h4⟩ := (C33_resolved_is_end_of_chain T i j ty).1 h
    exact ⟨p, h1, h2, look_get.2 ⟨ty, h3, rfl⟩, h4⟩
  · rintro ⟨p, h1, h2, h3, h4⟩
    obtain ⟨ty, h3', rfl⟩ := look_get.1 h3
    exact ⟨ty, (C33_resolved_is_end_of_chain T i j ty).2 ⟨p, h1, h2, h3', h4⟩, rfl⟩

theorem Skel.resolved {T T' : Types} (h : Skel T T') {i j : Ident} {ty : MetaType}
    (hr : getResolved T i = some (j, ty)) :
    ∃ ty', getResolved T' i = some (j, ty') ∧ strip ty'.variant = strip ty.variant := by
  obtain ⟨p, h1, h2, h3, h4⟩ := resolved_iff.1 ⟨ty, hr, rfl⟩
  obtain ⟨v', h3', hv⟩ := h.look h3
  obtain ⟨ty', hty, rfl⟩ := (resolved_iff (T := T') (i := i) (j := j) (v := v')).2
    ⟨p, h.follow h1, h2, h3', fun k hk => (h4 k (h.symm.synonym hk)).imp_right fun hn hd => hn (h.symm.defined hd)⟩
  exact ⟨ty', hty, hv⟩

theorem Skel.resolved_none {T T' : Types} (h : Skel T T') {i : Ident} (hr : getResolved T i = none) :
    getResolved T' i = none := by
  rw [C33_resolved_iff_defined] at hr ⊢
  exact fun hd => hr (h.symm.defined hd)

theorem Skel.resolvedIdent {T T' : Types} (h : Skel T T') (i : Ident) :
    getResolvedIdent T' i = getResolvedIdent T i := by
  unfold getResolvedIdent
  cases hr : getResolved T i with
  | none => rw [h.resolved_none hr]
  | some r =>
    obtain ⟨j, ty⟩ := r
    obtain ⟨ty', hr', _⟩ := h.resolved hr
    rw [hr']
    rfl

theorem Skel.fixEntry {T T' : Types} (h : Skel T T') (key : Ident) (fuel : Nat) (der : Derived) :
    Subst.fixEntry T' key fuel der = Subst.fixEntry T key fuel der := by
  induction fuel generalizing der with
  | zero => rfl
  | succ fuel ih =>
    simp only [Subst.fixEntry]
    cases hr : getResolved T der.type_ with
    | none => rw [h.resolved_none hr]
    | some r =>
      obtain ⟨j, ty⟩ := r
      obtain ⟨ty', hr', hv⟩ := h.resolved hr
      rw [hr']
      simp only
      split
      · rfl
      · obtain ⟨v', f', s', a', n'⟩ := ty'
        obtain ⟨v, f, s, a, n⟩ := ty
        simp only at hv
        cases v with
        | dynamic d =>
          obtain ⟨l, rfl⟩ := strip_dynamic hv
          simp only
          cases d.type_ with
          | none => rfl
          | some b => exact ih _
        | _ => cases v' <;> simp_all [strip]

theorem Skel.set {T T' : Types} (h : Skel T T') (i : Ident) (v : Variant) :
    Skel (setVariant T i v) (setVariant T' i v) := by
  intro k
  rw [look_setVariant, look_setVariant]
  split
  · rename_i hk
    subst hk
    have := h k
    cases h1 : Meta.look T k <;> cases h2 : Meta.look T' k <;> rw [h1, h2] at this <;> simp_all
  · exact h k

/-! ## The pass over the table -/

/-- The derived types of `i`, resolved in the table `T`. -/
def fixed (fuel : Nat) (T : Types) (i : Ident) (l : List (Ident × Derived)) : Option (List (Ident × Derived)) :=
  l.mapM (fun p => (fixEntry (setVariant T i (.buildIn .string)) p.1 fuel p.2).map (p.1, ·))

theorem Skel.fixed {T T' : Types} (h : Skel T T') (fuel : Nat) (i : Ident) (l : List (Ident × Derived)) :
    Subst.fixed fuel T' i l = Subst.fixed fuel T i l := by
  unfold Subst.fixed
  congr 1
  funext p
  rw [(h.set i _).fixEntry]

theorem fixOne_look {fuel : Nat} {T T' : Types} {i : Ident} (h : fixOne fuel T i = some T') :
    Skel T T' ∧ (∀ k, k ≠ i → look T' k = look T k) ∧
    (∀ d, look T i = some (.dynamic d) → ∃ l, fixed fuel T i d.derived = some l ∧
      look T' i = some (.dynamic { d with derived := l })) ∧
    ((∀ d, look T i ≠ some (.dynamic d)) → look T' i = look T i) := by
  unfold fixOne at h
  split at h
  · rename_i d hl
    split at h
    · cases h
    · rename_i l hm
      cases h
      refine ⟨fun k => ?_, fun k hk => ?_, fun d' hd' => ?_, fun hn => absurd hl (hn d)⟩
      · rw [look_set hl]
        split
        · rename_i hk
          subst hk
          rw [hl]
          rfl
        · rfl
      · rw [look_set hl, if_neg hk]
      · rw [hl] at hd'
        cases hd'
        exact ⟨l, hm, by rw [look_set hl, if_pos rfl]⟩
  · rename_i hn
    cases h
    exact ⟨.refl T, fun _ _ => rfl, fun d hd => absurd hd (hn d), fun _ => rfl⟩

theorem fixList_look {fuel : Nat} (ks : List Ident) (hk : ks.Nodup) :
    ∀ {T T' : Types}, ks.foldlM (fixOne fuel) T = some T' →
    Skel T T' ∧ ∀ i,
      (∀ d, look T i = some (.dynamic d) → i ∈ ks → ∃ l, fixed fuel T i d.derived = some l ∧
        look T' i = some (.dynamic { d with derived := l })) ∧
      ((∀ d, look T i ≠ some (.dynamic d)) ∨ i ∉ ks → look T' i = look T i) := by
  induction ks with
  | nil =>
    intro T T' h
    cases h
    exact ⟨.refl T, fun i => ⟨fun _ _ hi => absurd hi List.not_mem_nil, fun _ => rfl⟩⟩
  | cons a ks ih =>
    intro T T' h
    rw [List.foldlM_cons] at h
    cases h1 : fixOne fuel T a with
    | none => rw [h1] at h; cases h
    | some T1 =>
      rw [h1] at h
      obtain ⟨hna, hk'⟩ := List.nodup_cons.1 hk
      obtain ⟨s1, f1, g1, n1⟩ := fixOne_look h1
      obtain ⟨s2, f2⟩ := ih hk' (T := T1) h
      refine ⟨s1.trans s2, fun i => ⟨fun d hd hi => ?_, fun hn => ?_⟩⟩
      · by_cases hia : i = a
        · subst hia
          obtain ⟨l, hl, hT1⟩ := g1 d hd
          exact ⟨l, hl, by rw [(f2 i).2 (.inr hna)]; exact hT1⟩
        · have hi' : i ∈ ks := by simpa [hia] using hi
          obtain ⟨l, hl, hT'⟩ := (f2 i).1 d (by rw [f1 i hia]; exact hd) hi'
          exact ⟨l, by rw [← s1.fixed]; exact hl, hT'⟩
      · by_cases hia : i = a
        · subst hia
          rw [(f2 i).2 (.inr hna)]
          rcases hn with hn | hn
          · exact n1 hn
          · exact absurd List.mem_cons_self hn
        · rw [(f2 i).2 ?_, f1 i hia]
          rcases hn with hn | hn
          · exact .inl fun d => by rw [f1 i hia]; exact hn d
          · exact .inr fun hi => hn (List.mem_cons_of_mem _ hi)

theorem fixAll_look {fuel : Nat} {T T' : Types} (hk : Assoc.Keyed T) (h : fixAll fuel T = some T') :
    Skel T T' ∧ ∀ i,
      (∀ d, look T i = some (.dynamic d) → ∃ l, fixed fuel T i d.derived = some l ∧
        look T' i = some (.dynamic { d with derived := l })) ∧
      ((∀ d, look T i ≠ some (.dynamic d)) → look T' i = look T i) := by
  obtain ⟨h1, h2⟩ := fixList_look (Assoc.keys T) hk h
  refine ⟨h1, fun i => ⟨fun d hd => (h2 i).1 d hd ?_, fun hn => (h2 i).2 (.inl hn)⟩⟩
  obtain ⟨ty, hty, _⟩ := look_get.1 hd
  exact (Assoc.get_isSome T i).1 (by rw [hty]; rfl)

theorem fixList_total {fuel : Nat} (ks : List Ident) :
    ∀ {T : Types}, (∀ i ∈ ks, ∀ d, look T i = some (.dynamic d) → (fixed fuel T i d.derived).isSome = true) →
    ks.Nodup → ∃ T', ks.foldlM (fixOne fuel) T = some T' := by
  induction ks with
  | nil => intro T _ _; exact ⟨T, rfl⟩
  | cons a ks ih =>
    intro T hf hk
    obtain ⟨hna, hk'⟩ := List.nodup_cons.1 hk
    have h1 : ∃ T1, fixOne fuel T a = some T1 := by
      unfold fixOne
      split
      · rename_i d hl
        have := hf a List.mem_cons_self d hl
        unfold fixed at this
        split
        · rename_i hn; rw [hn] at this; cases this
        · exact ⟨_, rfl⟩
      · exact ⟨T, rfl⟩
    obtain ⟨T1, h1⟩ := h1
    obtain ⟨s1, f1, -, -⟩ := fixOne_look h1
    rw [List.foldlM_cons, h1]
    refine ih (T := T1) (fun i hi d hd => ?_) hk'
    have hia : i ≠ a := fun h => hna (h ▸ hi)
    rw [f1 i hia] at hd
    rw [s1.fixed]
    exact hf i (List.mem_cons_of_mem _ hi) d hd

theorem mapM_key {f : Ident × Derived → Option Derived} {l l' : List (Ident × Derived)}
    (h : l.mapM (fun p => (f p).map (p.1, ·)) = some l') :
    Assoc.keys l' = Assoc.keys l ∧ (∀ p ∈ l, ∃ q, f p = some q ∧ (p.1, q) ∈ l') ∧
      ∀ q ∈ l', ∃ p ∈ l, p.1 = q.1 ∧ f p = some q.2 := by
  induction l generalizing l' with
  | nil =>
    simp at h
    subst h
    simp
  | cons a l ih =>
    rw [List.mapM_cons] at h
    cases hf : f a with
    | none => rw [hf] at h; cases h
    | some b =>
      rw [hf] at h
      cases hm : l.mapM (fun p => (f p).map (p.1, ·)) with
      | none => rw [hm] at h; cases h
      | some l1 =>
        rw [hm] at h
        cases h
        obtain ⟨h1, h2, h3⟩ := ih hm
        refine ⟨?_, ?_, ?_⟩
        · unfold Assoc.keys at h1 ⊢
          simp only [List.map_cons, h1]
        · intro p hp
          rcases List.mem_cons.1 hp with rfl | hp
          · exact ⟨b, hf, List.mem_cons_self⟩
          · obtain ⟨q, hq, hq'⟩ := h2 p hp
            exact ⟨q, hq, List.mem_cons_of_mem _ hq'⟩
        · intro q hq
          rcases List.mem_cons.1 hq with rfl | hq
          · exact ⟨a, List.mem_cons_self, rfl, hf⟩
          · obtain ⟨p, hp, hp'⟩ := h3 q hq
            exact ⟨p, List.mem_cons_of_mem _ hp, hp'⟩

theorem mapM_isSome {f : Ident × Derived → Option Derived} {l : List (Ident × Derived)}
    (h : ∀ p ∈ l, (f p).isSome = true) : (l.mapM (fun p => (f p).map (p.1, ·))).isSome = true := by
  induction l with
  | nil => rfl
  | cons a l ih =>
    rw [List.mapM_cons]
    have h1 := h a List.mem_cons_self
    have h2 := ih fun p hp => h p (List.mem_cons_of_mem _ hp)
    cases hf : f a with
    | none => rw [hf] at h1; cases h1
    | some b =>
      cases hm : l.mapM (fun p => (f p).map (p.1, ·)) with
      | none => rw [hm] at h2; cases h2
      | some l1 => rfl

/-! ## Where the names of elements and types lead -/

/-- No entry is a synonym of an element, and only elements are synonyms of the contents of elements. -/
theorem Inv.synonym {S : Schemas} (hw : S.Proper) {done : List Ident} {T : Types} (hi : Inv S done T) {i k : Ident}
    (hs : Synonym T i k) :
    k.kind ≠ .element ∧ (k.kind = .substitutionElement → i.kind = .element) := by
  obtain ⟨v, hl, hv⟩ := synonym_look.1 hs
  by_cases hf : Family S i
  · rcases hf with ⟨e, d, he, hie⟩ | ⟨t, d, ht, hit⟩
    · have hek := hw.elem e d he
      have hc := hw.content e d he
      by_cases hdn : e ∈ done
      · obtain ⟨ms, hE, -⟩ := hi.elems e d he hdn
        have key : ∀ r, v = .reference r → r = content0 e d ∨ r = .new d.type_ ∨ (i.kind = .element ∧ r = .new (sub e)) →
            k.kind ≠ .element ∧ (k.kind = .substitutionElement → i.kind = .element) := by
          rintro r rfl hr
          have hk : k = r.type_ := by
            simp only [Variant.target] at hv
            split at hv
            · cases hv; rfl
            · cases hv
          subst hk
          rcases hr with rfl | rfl | ⟨h1, rfl⟩
          · unfold content0
            split
            · simp
            · exact ⟨hc.1, fun h => absurd h hc.2⟩
          · exact ⟨hc.1, fun h => absurd h hc.2⟩
          · exact ⟨by simp [Reference.new], fun _ => h1⟩
        rcases hie with rfl | rfl | rfl
        · have hv0 : var0 i d = content0 i d ∨ (i.kind = .element ∧ var0 i d = .new (sub i)) := by
            unfold var0
            split
            · exact .inr ⟨hek, rfl⟩
            · exact .inl rfl
          cases ha : d.isAbstract with
          | true => rw [hE.abstract_ ha] at hl; cases hl; cases hv
          | false =>
            by_cases hm : ms = []
            · rw [hE.plain ha hm] at hl
              cases hl
              exact key _ rfl (hv0.imp_right .inr)
            · rw [(hE.dynamic ha hm).1] at hl; cases hl; cases hv
        · cases hn : d.nillable with
          | true => rw [hE.nil_ hn] at hl; cases hl; exact key _ rfl (.inr (.inl rfl))
          | false => rw [hE.nil_none hn] at hl; cases hl
        · cases hh : d.heads with
          | some _ => rw [hE.sub_ (by rw [hh]; rfl)] at hl; cases hl; exact key _ rfl (.inl rfl)
          | none =>
            by_cases hc : d.nillable = false ∨ ms = [] ∨ d.isAbstract = true
            · rw [hE.sub_none hh hc] at hl; cases hl
            · have ha : d.isAbstract = false := by
                cases h : d.isAbstract with
                | false => rfl
                | true => exact absurd (.inr (.inr h)) hc
              have hm : ms ≠ [] := fun h => hc (.inr (.inl h))
              have hn : d.nillable = true := by
                cases h : d.nillable with
                | true => rfl
                | false => exact absurd (.inl h) hc
              rw [(hE.dynamic ha hm).2 hn] at hl; cases hl; exact key _ rfl (.inl rfl)
      · obtain ⟨h1, h2, h3⟩ := hi.fresh e d he hdn
        rcases hie with rfl | rfl | rfl
        · rw [h1] at hl; cases hl
        · rw [h2] at hl; cases hl
        · rw [h3] at hl; cases hl
    · by_cases hdn : t ∈ done
      · obtain ⟨ms, hE, -⟩ := hi.types t d ht hdn
        rcases hit with rfl | ⟨hdy, rfl⟩
        · cases hdy : d.isDyn with
          | true => rw [(hE.dynamic hdy).2] at hl; cases hl; cases hv
          | false => rw [hE.plain hdy] at hl; cases hl; cases hv
        · rw [(hE.dynamic hdy).1] at hl; cases hl; cases hv
      · obtain ⟨h1, h2⟩ := hi.tfresh t d ht hdn
        rcases hit with rfl | ⟨hdy, rfl⟩
        · rw [h1] at hl; cases hl
        · rw [h2 hdy] at hl; cases hl
  · have hn := hi.others i hf
    rw [hl] at hn
    cases v with
    | reference r =>
      have hk : k = r.type_ := by
        simp only [Variant.target] at hv
        split at hv
        · cases hv; rfl
        · cases hv
      subst hk
      exact ⟨hn.1, fun h => absurd h hn.2⟩
    | _ => cases hv

theorem Inv.follow {S : Schemas} (hw : S.Proper) {done : List Ident} {T : Types} (hi : Inv S done T) {i j : Ident}
    {p : List Ident} (hf : Follow T i p j) :
    ∀ x ∈ p, x = i ∨ (x.kind ≠ .element ∧ (i.kind ≠ .element → x.kind ≠ .substitutionElement)) := by
  induction hf with
  | here _ => intro x hx; exact .inl (List.mem_singleton.1 hx)
  | @step i k p j hs _ ih =>
    intro x hx
    obtain ⟨h1, h2⟩ := hi.synonym hw hs
    rcases List.mem_cons.1 hx with rfl | hx
    · exact .inl rfl
    · right
      rcases ih x hx with rfl | ⟨h3, h4⟩
      · exact ⟨h1, fun hn hk => hn (h2 hk)⟩
      · exact ⟨h3, fun _ => h4 h1⟩

/-- An entry that is not on the way does not matter. -/
theorem resolved_hole {T : Types} {x i h : Ident} {ty : MetaType} (v : Variant) (hr : getResolved T x = some (i, ty))
    (hp : ∀ p, Follow T x p i → ∀ y ∈ p, y ≠ h) :
    ∃ ty', getResolved (setVariant T h v) x = some (i, ty') ∧ ty'.variant = ty.variant := by
  obtain ⟨p, h1, h2, h3, h4⟩ := resolved_iff.1 ⟨ty, hr, rfl⟩
  have hne := hp p h1
  have hl : ∀ y, y ≠ h → look (setVariant T h v) y = look T y := fun y hy => by rw [look_setVariant, if_neg hy]
  have hdef : ∀ y, Defined (setVariant T h v) y ↔ Defined T y := by
    intro y
    rw [defined_look, defined_look, look_setVariant]
    split
    · rename_i hy
      subst hy
      cases hh : look T y <;> simp
    · rfl
  have hsyn : ∀ y k, y ≠ h → (Synonym (setVariant T h v) y k ↔ Synonym T y k) := by
    intro y k hy
    rw [synonym_look, synonym_look, hl y hy]
  have hf : ∀ {y q j}, Follow T y q j → (∀ z ∈ q, z ≠ h) → Follow (setVariant T h v) y q j := by
    intro y q j hq
    induction hq with
    | here hd => intro _; exact .here ((hdef _).2 hd)
    | step hs _ ih =>
      intro hz
      exact .step ((hsyn _ _ (hz _ List.mem_cons_self)).2 hs)
        (ih fun z hz' => hz z (List.mem_cons_of_mem _ hz'))
  have hi : i ≠ h := hne i h1.defined.2.2.2.1
  exact resolved_iff.2 ⟨p, hf h1 hne, h2, by rw [hl i hi]; exact h3,
    fun k hk => (h4 k ((hsyn i k hi).1 hk)).imp_right fun hn hd => hn ((hdef k).1 hd)⟩

/-- Following a synonym first. -/
theorem resolved_step {T : Types} {x k i : Ident} {ty : MetaType} (hs : Synonym T x k)
    (hr : getResolved T k = some (i, ty)) (hx : ∀ p, Follow T k p i → x ∉ p) : getResolved T x = some (i, ty) := by
  obtain ⟨p, h1, h2, h3, h4⟩ := (C33_resolved_is_end_of_chain T k i ty).1 hr
  refine (C33_resolved_is_end_of_chain T x i ty).2 ⟨x :: p, .step hs h1, ?_, h3, fun y hy => ?_⟩
  · exact List.nodup_cons.2 ⟨hx p h1, h2⟩
  · exact (h4 y hy).imp_left (List.mem_cons_of_mem _)

theorem resolved_self {T : Types} {x : Ident} {v : Variant} (hl : look T x = some v) (hv : v.target = none) :
    ∃ ty, getResolved T x = some (x, ty) ∧ ty.variant = v := by
  refine resolved_iff.2 ⟨[x], .here (defined_look.2 ⟨v, hl⟩), by simp, hl, fun k hk => ?_⟩
  obtain ⟨v', h1, h2⟩ := synonym_look.1 hk
  rw [hl] at h1; cases h1
  rw [hv] at h2; cases h2

theorem resolved_defined {T : Types} {x : Ident} (h : Defined T x) : ∃ i ty, getResolved T x = some (i, ty) := by
  cases hr : getResolved T x with
  | none => exact absurd h ((C33_resolved_iff_defined T x).1 hr)
  | some r => exact ⟨r.1, r.2, rfl⟩

/-- Where a reference to the content of an element leads. -/
theorem Inv.content {S : Schemas} (hw : S.Proper) {done : List Ident} {T : Types} (hi : Inv S done T) {e x : Ident}
    {d : ElemDecl} {ms : List (Ident × Derived)} (hd : S.elems e = some d) (hE : Entry T e d ms)
    (hdef : Defined T d.type_) (hx : x.kind = .element ∨ x.kind = .substitutionElement)
    (hl : look T x = some (.reference (content0 e d))) :
    ∃ i ty, getResolved T x = some (i, ty) ∧ ContentOf S T e i ∧ (x.kind ≠ .element → i.kind ≠ .element) := by
  have hc := hw.content e d hd
  cases hn : d.nillable with
  | true =>
    simp only [content0, hn, if_true] at hl
    obtain ⟨ty, h1, h2⟩ := resolved_self hl rfl
    refine ⟨x, ty, h1, ⟨d, hd, ?_⟩, id⟩
    rw [if_pos hn]
    exact ⟨nil e, hl, synonym_look.2 ⟨_, hE.nil_ hn, rfl⟩⟩
  | false =>
    simp only [content0, hn, Bool.false_eq_true, if_false] at hl
    obtain ⟨i, ty, hr⟩ := resolved_defined hdef
    have hkinds : ∀ p, Follow T d.type_ p i → ∀ y ∈ p, y.kind ≠ .element ∧ y.kind ≠ .substitutionElement := by
      intro p hp y hy
      rcases hi.follow hw hp y hy with rfl | ⟨h1, h2⟩
      · exact hc
      · exact ⟨h1, h2 hc.1⟩
    refine ⟨i, ty, resolved_step (synonym_look.2 ⟨_, hl, rfl⟩) hr ?_, ⟨d, hd, ?_⟩, fun _ => ?_⟩
    · intro p hp hxp
      have := hkinds p hp x hxp
      rcases hx with hx | hx
      · exact this.1 hx
      · exact this.2 hx
    · rw [hn]
      simp only [Bool.false_eq_true, if_false, getResolvedIdent, hr, Option.map_some]
    · obtain ⟨p, h1, -, -, -⟩ := (C33_resolved_is_end_of_chain T _ _ _).1 hr
      exact (hkinds p h1 i h1.defined.2.2.2.1).1

theorem substitutes_trans {S : Schemas} {x y z : Ident} (h1 : Substitutes S x y) (h2 : Substitutes S y z) :
    Substitutes S x z := by
  induction h1 with
  | direct hb => exact .indirect hb h2
  | indirect hb _ ih => exact .indirect hb (ih h2)

theorem substitutes_irrefl {S : Schemas} {t : Ident} (ha : Acc (fun h m => Direct S m h) t) : ¬ Substitutes S t t := by
  induction ha with
  | intro t _ ih =>
    intro h
    cases h with
    | direct hb => exact ih t hb (.direct hb)
    | @indirect _ k _ hb h' => exact ih k hb (substitutes_trans h' (.direct hb))

theorem substitutes_heads {S : Schemas} {m h : Ident} (hs : Substitutes S m h) :
    ∃ d, S.elems m = some d ∧ d.heads.isSome = true := by
  cases hs with
  | direct hd => obtain ⟨d, hs, h1, h2, _⟩ := hd; exact ⟨d, h1, by rw [h2]; rfl⟩
  | indirect hd _ => obtain ⟨d, hs, h1, h2, _⟩ := hd; exact ⟨d, h1, by rw [h2]; rfl⟩

/-- The types of the elements are defined. -/
def TypesDefined (S : Schemas) (done : List Ident) (T : Types) : Prop :=
  ∀ e d, S.elems e = some d → e ∈ done → Defined T d.type_

/-- The entry of a member is resolved to the type of the content of the member. -/
theorem fix_member {S : Schemas} (hw : S.Proper) {done : List Ident} {T : Types} (hi : Inv S done T)
    (ht : TypesDefined S done T) {h m : Ident} (hk : h.kind = .element) (hm : m ∈ done) (hs : Substitutes S m h)
    {der : Derived} (hder : der.type_ = m) (fuel : Nat) :
    ∃ i, fixEntry (setVariant T h (.buildIn .string)) m (fuel + 2) der = some { der with type_ := i } ∧
      ContentOf S T m i := by
  obtain ⟨d, hd, hh⟩ := substitutes_heads hs
  have hmk := hw.elem m d hd
  have hmh : m ≠ h := fun e => substitutes_irrefl (hi.acc m hm) (by rw [← e] at hs; exact hs)
  obtain ⟨ms, hE, -⟩ := hi.elems m d hd hm
  obtain ⟨i, ty, hr, hC, hne⟩ := hi.content hw hd hE (ht m d hd hm) (.inr (sub_kind m)) (hE.sub_ hh)
  have hne := hne (by simp)
  have hfol : ∀ p, Follow T (sub m) p i → ∀ y ∈ p, y.kind ≠ .element := by
    intro p hp y hy
    rcases hi.follow hw hp y hy with rfl | ⟨h1, -⟩
    · simp
    · exact h1
  -- a step from the content of the member
  have stepSub : ∀ der : Derived, der.type_ = sub m → ∀ f,
      fixEntry (setVariant T h (.buildIn .string)) m (f + 1) der = some { der with type_ := i } := by
    intro der hder f
    obtain ⟨ty', hr', -⟩ := resolved_hole (.buildIn .string) hr fun p hp y hy e => hfol p hp y hy (e ▸ hk)
    simp only [fixEntry, hder, hr']
    rw [if_pos (by rw [hmk]; exact fun e => hne e.symm)]
  have hv0 : var0 m d = .new (sub m) := by unfold var0; rw [if_pos hh]
  have htgt : tgt m d = sub m := by unfold tgt; rw [hh]; rfl
  -- a dynamic member
  have dynCase : ∀ b l, look T m = some (.dynamic ⟨some (sub m), b, l⟩) →
      fixEntry (setVariant T h (.buildIn .string)) m (fuel + 2) der = some { der with type_ := i } := by
    intro b l hl
    have hl' : look (setVariant T h (.buildIn .string)) m = some (.dynamic ⟨some (sub m), b, l⟩) := by
      rw [look_setVariant, if_neg hmh]; exact hl
    obtain ⟨ty', hr', hv'⟩ := resolved_self hl' rfl
    show fixEntry (setVariant T h (.buildIn .string)) m (fuel + 1 + 1) der = _
    rw [fixEntry, hder, hr']
    simp only [ne_eq, not_true_eq_false, if_false, hv']
    rw [stepSub _ rfl fuel]
  refine ⟨i, ?_, hC⟩
  cases ha : d.isAbstract with
  | true =>
    have hl := hE.abstract_ ha
    rw [hv0] at hl
    exact dynCase _ _ hl
  | false =>
    by_cases hms : ms = []
    · have hl := hE.plain ha hms
      rw [hv0] at hl
      have hrm : getResolved T m = some (i, ty) :=
        resolved_step (synonym_look.2 ⟨_, hl, rfl⟩) hr fun p hp hmp => hfol p hp m hmp hmk
      have hfm : ∀ p, Follow T m p i → ∀ y ∈ p, y ≠ h := by
        intro p hp y hy e
        rcases hi.follow hw hp y hy with rfl | ⟨h1, -⟩
        · exact hmh e
        · exact h1 (e ▸ hk)
      obtain ⟨ty', hr', -⟩ := resolved_hole (.buildIn .string) hrm hfm
      simp only [fixEntry, hder, hr']
      rw [if_pos (by rw [hmk]; exact fun e => hne e.symm)]
    · have hl := (hE.dynamic ha hms).1
      rw [htgt] at hl
      exact dynCase _ _ hl

/-- The entry of the element itself is resolved to the type of its content. -/
theorem fix_concrete {S : Schemas} (hw : S.Proper) {done : List Ident} {T : Types} (hi : Inv S done T)
    (ht : TypesDefined S done T) {h : Ident} {d : ElemDecl} {ms : List (Ident × Derived)} (hd : S.elems h = some d)
    (hdone : h ∈ done) (hE : Entry T h d ms) (ha : d.isAbstract = false) (hms : ms ≠ []) (fuel : Nat) :
    ∃ i, fixEntry (setVariant T h (.buildIn .string)) h (fuel + 1) (concrete (tgt h d)) =
      some { concrete (tgt h d) with type_ := i } ∧ ContentOf S T h i := by
  have hk := hw.elem h d hd
  have hdef := ht h d hd hdone
  obtain ⟨i, ty, hr, hC, hne, hfol⟩ : ∃ i ty, getResolved T (tgt h d) = some (i, ty) ∧ ContentOf S T h i ∧
      i.kind ≠ .element ∧ ∀ p, Follow T (tgt h d) p i → ∀ y ∈ p, y ≠ h := by
    by_cases hc : (d.heads.isSome || d.nillable) = true
    · have htg : tgt h d = sub h := by unfold tgt; rw [if_pos hc]
      have hl : look T (sub h) = some (.reference (content0 h d)) := by
        rcases Bool.or_eq_true_iff.1 hc with h1 | h1
        · exact hE.sub_ h1
        · exact (hE.dynamic ha hms).2 h1
      obtain ⟨i, ty, hr, hC, hne⟩ := hi.content hw hd hE hdef (.inr (sub_kind h)) hl
      rw [htg]
      refine ⟨i, ty, hr, hC, hne (by simp), fun p hp y hy e => ?_⟩
      rcases hi.follow hw hp y hy with rfl | ⟨h1, -⟩
      · rw [← e] at hk; simp at hk
      · exact h1 (e ▸ hk)
    · have htg : tgt h d = d.type_ := by unfold tgt; rw [if_neg hc]
      have hn : d.nillable = false := by
        cases h1 : d.nillable with
        | false => rfl
        | true => rw [h1] at hc; simp at hc
      have hcn := hw.content h d hd
      obtain ⟨i, ty, hr⟩ := resolved_defined hdef
      have hkinds : ∀ p, Follow T d.type_ p i → ∀ y ∈ p, y.kind ≠ .element := by
        intro p hp y hy
        rcases hi.follow hw hp y hy with rfl | ⟨h1, -⟩
        · exact hcn.1
        · exact h1
      rw [htg]
      refine ⟨i, ty, hr, ⟨d, hd, ?_⟩, ?_, fun p hp y hy e => hkinds p hp y hy (e ▸ hk)⟩
      · rw [hn]
        simp only [Bool.false_eq_true, if_false, getResolvedIdent, hr, Option.map_some]
      · obtain ⟨p, h1, -, -, -⟩ := (C33_resolved_is_end_of_chain T _ _ _).1 hr
        exact hkinds p h1 i h1.defined.2.2.2.1
  refine ⟨i, ?_, hC⟩
  obtain ⟨ty', hr', -⟩ := resolved_hole (.buildIn .string) hr hfol
  have : (concrete (tgt h d)).type_ = tgt h d := rfl
  simp only [fixEntry, this, hr']
  rw [if_pos (by rw [hk]; exact fun e => hne e.symm)]

/-- The entry of a derived type stays as it is. -/
theorem fix_type {T : Types} {t k : Ident} {der : Derived} {c : Complex} (hne : der.type_ ≠ t)
    (hl : look T der.type_ = some (.complex c)) (fuel : Nat) :
    fixEntry (setVariant T t (.buildIn .string)) k (fuel + 1) der = some der := by
  have hl' : look (setVariant T t (.buildIn .string)) der.type_ = some (.complex c) := by
    rw [look_setVariant, if_neg hne]; exact hl
  obtain ⟨ty', hr', hv'⟩ := resolved_self hl' rfl
  rw [fixEntry, hr']
  simp only [hv']
  split <;> rfl

theorem Skel.contentOf {S : Schemas} {T T' : Types} (h : Skel T T') {e i : Ident} (hc : ContentOf S T e i) :
    ContentOf S T' e i := by
  obtain ⟨d, hd, hc⟩ := hc
  refine ⟨d, hd, ?_⟩
  split at hc
  · rename_i hn
    rw [if_pos hn]
    obtain ⟨n, h1, h2⟩ := hc
    obtain ⟨v', h3, h4⟩ := h.look h1
    exact ⟨n, by rw [h3, strip_reference h4], h.synonym h2⟩
  · rename_i hn
    rw [if_neg hn, h.resolvedIdent]
    exact hc

/-- The derived types of an element before the pass. -/
def elemDerived (e : Ident) (d : ElemDecl) (ms : List (Ident × Derived)) : List (Ident × Derived) :=
  if d.isAbstract then ms else (e, concrete (tgt e d)) :: ms

theorem Entry.look_dynamic {T : Types} {e : Ident} {d : ElemDecl} {ms : List (Ident × Derived)} (hE : Entry T e d ms)
    {dm : Meta.Dynamic} (hl : look T e = some (.dynamic dm)) :
    dm.derived = elemDerived e d ms ∧ dm.isAbstract = d.isAbstract ∧ (d.isAbstract = false → ms ≠ []) := by
  unfold elemDerived
  cases ha : d.isAbstract with
  | true => rw [hE.abstract_ ha] at hl; cases hl; exact ⟨rfl, rfl, fun h => (by cases h)⟩
  | false =>
    by_cases hm : ms = []
    · rw [hE.plain ha hm] at hl; cases hl
    · rw [(hE.dynamic ha hm).1] at hl; cases hl; exact ⟨rfl, rfl, fun _ => hm⟩

theorem Inv.fix_elem {S : Schemas} (hw : S.Proper) {done : List Ident} {T : Types} (hi : Inv S done T)
    (ht : TypesDefined S done T) {h : Ident} {d : ElemDecl} {ms : List (Ident × Derived)} (hd : S.elems h = some d)
    (hdone : h ∈ done) (hE : Entry T h d ms) (hM : Mem S (fun k => k ∈ done ∧ Substitutes S k h) h ms)
    {dm : Meta.Dynamic} (hl : look T h = some (.dynamic dm)) {fuel : Nat} (hfu : 2 ≤ fuel) :
    ∀ p ∈ dm.derived, ∃ i, fixEntry (setVariant T h (.buildIn .string)) p.1 fuel p.2 =
      some { p.2 with type_ := i } ∧ ContentOf S T p.1 i := by
  obtain ⟨f, rfl⟩ : ∃ f, fuel = f + 2 := ⟨fuel - 2, by omega⟩
  obtain ⟨h1, -, h2⟩ := hE.look_dynamic hl
  have hk := hw.elem h d hd
  rw [h1]
  intro p hp
  have key : p ∈ ms → ∃ i, fixEntry (setVariant T h (.buildIn .string)) p.1 (f + 2) p.2 =
      some { p.2 with type_ := i } ∧ ContentOf S T p.1 i := by
    intro hp
    obtain ⟨hm, hs⟩ := (hM.keys p.1).1 (List.mem_map_of_mem hp)
    exact fix_member hw hi ht hk hm hs (hM.entry p hp).1 f
  unfold elemDerived at hp
  split at hp
  · exact key hp
  · rename_i ha
    rcases List.mem_cons.1 hp with rfl | hp
    · have ha : d.isAbstract = false := by simpa using ha
      exact fix_concrete hw hi ht hd hdone hE ha (h2 ha) (f + 1)
    · exact key hp

theorem Inv.fix_type {S : Schemas} (hw : S.Proper) {done : List Ident} {T : Types} (hi : Inv S done T)
    {t : Ident} {d : TypeDecl} {ms : List (Ident × Derived)} (hd : S.types t = some d)
    (hdy : d.isDyn = true) (hE : TEntry T t d ms)
    (hM : TMem S (fun k => k ∈ done ∧ Derives S k t) t ms) {fuel : Nat} (hfu : 1 ≤ fuel) :
    ∀ p ∈ (if d.isAbstract then [] else [(t, concrete (dyn t))]) ++ ms,
      fixEntry (setVariant T t (.buildIn .string)) p.1 fuel p.2 = some p.2 ∧
      ∃ dk, S.types p.1 = some dk ∧ look T p.2.type_ = some (.complex dk.complex) := by
  obtain ⟨f, rfl⟩ : ∃ f, fuel = f + 1 := ⟨fuel - 1, by omega⟩
  intro p hp
  have htk := hw.type_ t d hd
  have hdne : ∀ x, dyn x ≠ t := by
    intro x
    refine ne_of_kind ?_
    rcases htk with h | h <;> simp [h]
  rcases List.mem_append.1 hp with hp | hp
  · split at hp
    · cases hp
    · rw [List.mem_singleton] at hp
      subst hp
      have hl := (hE.dynamic hdy).1
      exact ⟨Subst.fix_type (der := concrete (dyn t)) (hdne t) hl f, d, hd, hl⟩
  · obtain ⟨hk, hder⟩ := (hM.keys p.1).1 (List.mem_map_of_mem hp)
    obtain ⟨⟨dk, h1, h2⟩, -⟩ := hM.entry p hp
    obtain ⟨ms', hE', -⟩ := hi.types p.1 dk h1 hk
    have hpt : p.1 ≠ t := fun e => absurd e.symm (derives_irrefl (hi.tacc p.1 hk) t hder).2
    have hl : look T p.2.type_ = some (.complex dk.complex) ∧ p.2.type_ ≠ t := by
      rw [h2]
      unfold bodyOf
      split
      · rename_i hdy'; exact ⟨(hE'.dynamic hdy').1, hdne _⟩
      · rename_i hdy'; exact ⟨hE'.plain (by simpa using hdy'), hpt⟩
    exact ⟨Subst.fix_type hl.2 hl.1 f, dk, h1, hl.1⟩

/-- Dynamic types are elements or complex types. -/
theorem Inv.dynamic_family {S : Schemas} {done : List Ident} {T : Types} (hi : Inv S done T) {i : Ident}
    {dm : Meta.Dynamic} (hl : look T i = some (.dynamic dm)) :
    (∃ d, S.elems i = some d ∧ i ∈ done) ∨ ∃ d, S.types i = some d ∧ i ∈ done ∧ d.isDyn = true := by
  by_cases hf : Family S i
  · rcases hf with ⟨e, d, he, hie⟩ | ⟨t, d, ht, hit⟩
    · by_cases hdn : e ∈ done
      · obtain ⟨ms, hE, -⟩ := hi.elems e d he hdn
        rcases hie with rfl | rfl | rfl
        · exact .inl ⟨d, he, hdn⟩
        · cases hn : d.nillable with
          | true => rw [hE.nil_ hn] at hl; cases hl
          | false => rw [hE.nil_none hn] at hl; cases hl
        · cases hh : d.heads with
          | some _ => rw [hE.sub_ (by rw [hh]; rfl)] at hl; cases hl
          | none =>
            by_cases hc : d.nillable = false ∨ ms = [] ∨ d.isAbstract = true
            · rw [hE.sub_none hh hc] at hl; cases hl
            · have ha : d.isAbstract = false := by
                cases h : d.isAbstract with
                | false => rfl
                | true => exact absurd (.inr (.inr h)) hc
              have hm : ms ≠ [] := fun h => hc (.inr (.inl h))
              have hn : d.nillable = true := by
                cases h : d.nillable with
                | true => rfl
                | false => exact absurd (.inl h) hc
              rw [(hE.dynamic ha hm).2 hn] at hl; cases hl
      · obtain ⟨h1, h2, h3⟩ := hi.fresh e d he hdn
        rcases hie with rfl | rfl | rfl
        · rw [h1] at hl; cases hl
        · rw [h2] at hl; cases hl
        · rw [h3] at hl; cases hl
    · by_cases hdn : t ∈ done
      · obtain ⟨ms, hE, -⟩ := hi.types t d ht hdn
        rcases hit with rfl | ⟨hdy, rfl⟩
        · cases hdy : d.isDyn with
          | true => exact .inr ⟨d, ht, hdn, hdy⟩
          | false => rw [hE.plain hdy] at hl; cases hl
        · rw [(hE.dynamic hdy).1] at hl; cases hl
      · obtain ⟨h1, h2⟩ := hi.tfresh t d ht hdn
        rcases hit with rfl | ⟨hdy, rfl⟩
        · rw [h1] at hl; cases hl
        · rw [h2 hdy] at hl; cases hl
  · have hn := hi.others i hf
    rw [hl] at hn
    exact absurd hn id

/-! ## The properties -/

/-- C64: the pass over the finished table ends. -/
theorem C64_pass_ends {S : Schemas} (hw : S.Proper) {done : List Ident} {T : Types} (hr : Run S done T)
    (ht : TypesDefined S done T) {fuel : Nat} (hfu : 2 ≤ fuel) : ∃ T', fixAll fuel T = some T' := by
  have hi := hr.inv hw
  refine fixList_total _ (fun i _ dm hl => ?_) hi.keyed
  refine mapM_isSome (f := fun p => fixEntry (setVariant T i (.buildIn .string)) p.1 fuel p.2) fun p hp => ?_
  rcases hi.dynamic_family hl with ⟨d, hd, hdn⟩ | ⟨d, hd, hdn, hdy⟩
  · obtain ⟨ms, hE, hM⟩ := hi.elems i d hd hdn
    obtain ⟨j, h1, -⟩ := hi.fix_elem hw ht hd hdn hE hM hl hfu p hp
    rw [h1]; rfl
  · obtain ⟨ms, hE, hM⟩ := hi.types i d hd hdn
    rw [(hE.dynamic hdy).2] at hl
    cases hl
    rw [(hi.fix_type hw hd hdy hE (hM hdy) (by omega) p hp).1]; rfl

/-- The result of the pass for a dynamic element: the names stay, the types become those of the contents. -/
theorem Inv.result_elem {S : Schemas} (hw : S.Proper) {done : List Ident} {T T' : Types} (hi : Inv S done T)
    (ht : TypesDefined S done T) {fuel : Nat} (hfu : 2 ≤ fuel) (hfix : fixAll fuel T = some T') {h : Ident}
    {d : ElemDecl} {ms : List (Ident × Derived)} (hd : S.elems h = some d) (hdone : h ∈ done) (hE : Entry T h d ms)
    (hM : Mem S (fun k => k ∈ done ∧ Substitutes S k h) h ms) {dm : Meta.Dynamic}
    (hl : look T h = some (.dynamic dm)) :
    ∃ l, look T' h = some (.dynamic { dm with derived := l }) ∧ Assoc.keys l = Assoc.keys dm.derived ∧
      ∀ q ∈ l, ContentOf S T' q.1 q.2.type_ ∧ ∃ p ∈ dm.derived, p.1 = q.1 ∧ p.2.relationship = q.2.relationship := by
  obtain ⟨hsk, hall⟩ := fixAll_look hi.keyed hfix
  obtain ⟨l, hl1, hl2⟩ := (hall h).1 dm hl
  obtain ⟨k1, k2, k3⟩ := mapM_key (f := fun p => fixEntry (setVariant T h (.buildIn .string)) p.1 fuel p.2) hl1
  refine ⟨l, hl2, k1, fun q hq => ?_⟩
  obtain ⟨p, hp, hpq, hf⟩ := k3 q hq
  obtain ⟨i, h1, h2⟩ := hi.fix_elem hw ht hd hdone hE hM hl hfu p hp
  rw [h1] at hf
  simp only [Option.some.injEq] at hf
  refine ⟨?_, p, hp, hpq, by rw [← hf]⟩
  rw [← hf, ← hpq]
  exact hsk.contentOf h2

theorem mem_keys {l : List (Ident × Derived)} {k : Ident} : k ∈ Assoc.keys l ↔ ∃ der, (k, der) ∈ l := by
  unfold Assoc.keys
  rw [List.mem_map]
  constructor
  · rintro ⟨⟨a, b⟩, h, rfl⟩; exact ⟨b, h⟩
  · rintro ⟨der, h⟩; exact ⟨_, h, rfl⟩

theorem keyed_unique {l : List (Ident × Derived)} (hk : Assoc.Keyed l) {k : Ident} {a b : Derived} (ha : (k, a) ∈ l)
    (hb : (k, b) ∈ l) : a = b := by
  have h1 := (Assoc.get_of_mem hk ha)
  have h2 := (Assoc.get_of_mem hk hb)
  rw [h1] at h2
  cases h2
  rfl

theorem Mem.self {S : Schemas} {done : List Ident} {T : Types} (hi : Inv S done T) {h : Ident}
    {ms : List (Ident × Derived)} (hM : Mem S (fun k => k ∈ done ∧ Substitutes S k h) h ms) : h ∉ Assoc.keys ms := by
  intro hk
  obtain ⟨h1, h2⟩ := (hM.keys h).1 hk
  exact substitutes_irrefl (hi.acc h h1) h2

theorem elemDerived_keys {S : Schemas} {done : List Ident} {T : Types} (hi : Inv S done T) {h : Ident} {d : ElemDecl}
    {ms : List (Ident × Derived)} (hM : Mem S (fun k => k ∈ done ∧ Substitutes S k h) h ms) :
    (∀ m, m ∈ Assoc.keys (elemDerived h d ms) ↔ (m = h ∧ d.isAbstract = false) ∨ (m ∈ done ∧ Substitutes S m h)) ∧
      Assoc.Keyed (elemDerived h d ms) := by
  have hself := hM.self hi
  unfold elemDerived
  cases d.isAbstract with
  | true => exact ⟨fun m => by rw [if_pos rfl, hM.keys]; simp, by rw [if_pos rfl]; exact hM.keyed⟩
  | false =>
    simp only [Bool.false_eq_true, if_false]
    refine ⟨fun m => ?_, ?_⟩
    · rw [← hM.keys m]
      simp [Assoc.keys]
    · unfold Assoc.Keyed at *
      exact List.nodup_cons.2 ⟨hself, hM.keyed⟩

/-- C64: where a global element is expected, the generated code reads exactly the element itself, if it is not abstract,
and the members of its substitution group. Each of them is read as its own declaration says, in one way. -/
theorem C64_group_members_partial {S : Schemas} (hw : S.Proper) {done : List Ident} {T T' : Types} (hr : Run S done T)
    (ht : TypesDefined S done T) {fuel : Nat} (hfu : 2 ≤ fuel) (hfix : fixAll fuel T = some T') {h : Ident}
    {d : ElemDecl} (hd : S.elems h = some d) (hdone : h ∈ done) :
    (∀ m, (∃ i, Reads T' h m i) ↔ (m = h ∧ d.isAbstract = false) ∨ (m ∈ done ∧ Substitutes S m h)) ∧
    ∀ m i, Reads T' h m i → ContentOf S T' m i ∧ ∀ i', Reads T' h m i' → i' = i := by
  have hi := hr.inv hw
  have hk := hw.elem h d hd
  obtain ⟨ms, hE, hM⟩ := hi.elems h d hd hdone
  obtain ⟨hsk, hall⟩ := fixAll_look hi.keyed hfix
  by_cases hdyn : ∃ dm, look T h = some (.dynamic dm)
  · obtain ⟨dm, hl⟩ := hdyn
    obtain ⟨l, hl', hkeys, hcon⟩ := hi.result_elem hw ht hfu hfix hd hdone hE hM hl
    obtain ⟨e1, -, -⟩ := hE.look_dynamic hl
    obtain ⟨ek, ekd⟩ := elemDerived_keys (d := d) hi hM
    rw [e1] at hkeys
    have hiff : ∀ m i, Reads T' h m i ↔ ∃ der, (m, der) ∈ l ∧ der.type_ = i := by
      intro m i
      constructor
      · intro hR
        cases hR with
        | plain h1 _ => rw [hl'] at h1; cases h1
        | derived h1 h2 => rw [hl'] at h1; cases h1; exact ⟨_, h2, rfl⟩
      · rintro ⟨der, h1, rfl⟩
        exact .derived hl' h1
    have hkl : Assoc.Keyed l := by unfold Assoc.Keyed at *; rw [hkeys]; exact ekd
    refine ⟨fun m => ?_, fun m i hR => ?_⟩
    · rw [← ek m, ← hkeys, mem_keys]
      constructor
      · rintro ⟨i, hR⟩
        obtain ⟨der, h1, -⟩ := (hiff m i).1 hR
        exact ⟨der, h1⟩
      · rintro ⟨der, h1⟩
        exact ⟨_, (hiff m _).2 ⟨der, h1, rfl⟩⟩
    · obtain ⟨der, h1, rfl⟩ := (hiff m i).1 hR
      refine ⟨(hcon _ h1).1, fun i' hR' => ?_⟩
      obtain ⟨der', h1', rfl⟩ := (hiff m i').1 hR'
      rw [keyed_unique hkl h1 h1']
  · have hl0 : look T' h = look T h := (hall h).2 fun dm hdm => hdyn ⟨dm, hdm⟩
    have ha : d.isAbstract = false := by
      cases ha : d.isAbstract with
      | false => rfl
      | true => exact absurd ⟨_, hE.abstract_ ha⟩ hdyn
    have hm : ms = [] := Classical.byContradiction fun hm => hdyn ⟨_, (hE.dynamic ha hm).1⟩
    have hl := hE.plain ha hm
    rw [hl] at hl0
    have hnone : ∀ m, ¬ (m ∈ done ∧ Substitutes S m h) := by
      intro m hx
      have := (hM.keys m).2 hx
      rw [hm] at this
      cases this
    obtain ⟨i, ty, hres, hC⟩ : ∃ i ty, getResolved T h = some (i, ty) ∧ ContentOf S T h i := by
      have hdef := ht h d hd hdone
      cases hh : d.heads.isSome with
      | true =>
        obtain ⟨i, ty, h1, h2, -⟩ := hi.content hw hd hE hdef (.inr (sub_kind h)) (hE.sub_ hh)
        have hv0 : var0 h d = .new (sub h) := by unfold var0; rw [if_pos hh]
        rw [hv0] at hl
        refine ⟨i, ty, resolved_step (synonym_look.2 ⟨_, hl, rfl⟩) h1 fun p hp hx => ?_, h2⟩
        rcases hi.follow hw hp h hx with h3 | ⟨h3, -⟩
        · have h4 := congrArg Ident.kind h3
          rw [hk] at h4
          cases h4
        · exact h3 hk
      | false =>
        have hv0 : var0 h d = content0 h d := by unfold var0; rw [hh]; rfl
        rw [hv0] at hl
        obtain ⟨i, ty, h1, h2, -⟩ := hi.content hw hd hE hdef (.inl hk) hl
        exact ⟨i, ty, h1, h2⟩
    have hres' : getResolvedIdent T' h = some i := by
      rw [hsk.resolvedIdent]
      simp [getResolvedIdent, hres]
    have hiff : ∀ m j, Reads T' h m j ↔ m = h ∧ j = i := by
      intro m j
      constructor
      · intro hR
        cases hR with
        | plain _ h2 => rw [hres'] at h2; cases h2; exact ⟨rfl, rfl⟩
        | derived h1 _ => rw [hl0] at h1; cases h1
      · rintro ⟨rfl, rfl⟩
        exact .plain hl0 hres'
    refine ⟨fun m => ?_, fun m j hR => ?_⟩
    · constructor
      · rintro ⟨j, hR⟩; exact .inl ⟨((hiff m j).1 hR).1, ha⟩
      · rintro (⟨rfl, -⟩ | hx)
        · exact ⟨i, (hiff m i).2 ⟨rfl, rfl⟩⟩
        · exact absurd hx (hnone m)
    · obtain ⟨rfl, rfl⟩ := (hiff m j).1 hR
      exact ⟨hsk.contentOf hC, fun i' hR' => ((hiff m i').1 hR').2⟩

/-- C64: the values of a complex type that is abstract or that the user marked as dynamic are read, depending on
`xsi:type`, as values of exactly the type itself, if it is not abstract, and the types derived from it. Each of them is
read with the content of its own declaration, and the direct children are those that name the type as their base. -/
theorem C64_derived_types_partial {S : Schemas} (hw : S.Proper) {done : List Ident} {T T' : Types} (hr : Run S done T)
    {fuel : Nat} (hfu : 2 ≤ fuel) (hfix : fixAll fuel T = some T') {t : Ident} {d : TypeDecl}
    (hd : S.types t = some d) (hdone : t ∈ done) (hdy : d.isAbstract = true ∨ d.configured = true) :
    ∃ dm, look T' t = some (.dynamic dm) ∧ dm.isAbstract = d.isAbstract ∧ Assoc.Keyed dm.derived ∧
      (∀ k, (∃ der, (k, der) ∈ dm.derived) ↔ (k = t ∧ d.isAbstract = false) ∨ (k ∈ done ∧ Derives S k t)) ∧
      ∀ k der, (k, der) ∈ dm.derived →
        (∃ dk, S.types k = some dk ∧ look T' der.type_ = some (.complex dk.complex)) ∧
        (der.relationship = .concrete ↔ k = t) ∧ (der.relationship = .directChild ↔ BaseOf S k t) := by
  have hi := hr.inv hw
  have hdyn : d.isDyn = true := by unfold TypeDecl.isDyn; rcases hdy with h | h <;> simp [h]
  obtain ⟨ms, hE, hM⟩ := hi.types t d hd hdone
  have hM := hM hdyn
  obtain ⟨hsk, hall⟩ := fixAll_look hi.keyed hfix
  have hl := (hE.dynamic hdyn).2
  obtain ⟨l, hl1, hl2⟩ := (hall t).1 _ hl
  obtain ⟨k1, k2, k3⟩ := mapM_key (f := fun p => fixEntry (setVariant T t (.buildIn .string)) p.1 fuel p.2) hl1
  have hself : t ∉ Assoc.keys ms := by
    intro hk
    obtain ⟨h1, h2⟩ := (hM.keys t).1 hk
    exact absurd rfl (derives_irrefl (hi.tacc t h1) t h2).2
  have hnb : ¬ BaseOf S t t := fun hb => absurd rfl (derives_irrefl (hi.tacc t hdone) t (.direct hb)).2
  have hmem : ∀ q, q ∈ l ↔ q ∈ (if d.isAbstract then [] else [(t, concrete (dyn t))]) ++ ms := by
    intro q
    constructor
    · intro hq
      obtain ⟨p, hp, hpq, hf⟩ := k3 q hq
      rw [(hi.fix_type hw hd hdyn hE hM (by omega) p hp).1] at hf
      simp only [Option.some.injEq] at hf
      have : p = q := Prod.ext hpq hf
      exact this ▸ hp
    · intro hq
      obtain ⟨q', h1, h2⟩ := k2 q hq
      rw [(hi.fix_type hw hd hdyn hE hM (by omega) q hq).1] at h1
      cases h1
      exact h2
  refine ⟨_, hl2, rfl, ?_, fun k => ?_, fun k der hk => ?_⟩
  · show Assoc.Keyed l
    unfold Assoc.Keyed
    rw [k1]
    cases d.isAbstract with
    | true => exact hM.keyed
    | false => exact List.nodup_cons.2 ⟨hself, hM.keyed⟩
  · have hMk : k ∈ Assoc.keys ms ↔ k ∈ done ∧ Derives S k t := hM.keys k
    rw [← hMk]
    show (∃ der, (k, der) ∈ l) ↔ _
    simp only [hmem, List.mem_append]
    rw [mem_keys]
    cases d.isAbstract with
    | true => simp
    | false =>
      constructor
      · rintro ⟨der, h | h⟩
        · simp only [Bool.false_eq_true, if_false, List.mem_singleton, Prod.mk.injEq] at h
          exact .inl ⟨h.1, rfl⟩
        · exact .inr ⟨der, h⟩
      · rintro (⟨rfl, -⟩ | ⟨der, h⟩)
        · exact ⟨concrete (dyn k), .inl (by simp)⟩
        · exact ⟨der, .inr h⟩
  · have hk' := (hmem _).1 hk
    obtain ⟨-, dk, h1, h2⟩ := hi.fix_type hw hd hdyn hE hM (Nat.le_of_succ_le hfu) _ hk'
    refine ⟨⟨dk, h1, ?_⟩, ?_⟩
    · obtain ⟨v', h3, h4⟩ := hsk.look h2
      rw [h3, strip_complex h4]
    · rcases List.mem_append.1 hk' with hx | hx
      · split at hx
        · cases hx
        · simp only [List.mem_singleton, Prod.mk.injEq] at hx
          obtain ⟨rfl, rfl⟩ := hx
          exact ⟨by simp [concrete], by simp [concrete, hnb]⟩
      · obtain ⟨-, -, h5, h6⟩ := hM.entry _ hx
        refine ⟨⟨fun h => absurd h h6, fun h => ?_⟩, h5⟩
        subst h
        exact absurd (List.mem_map_of_mem (f := Prod.fst) hx) hself

/-- C64: all other complex types are read with the content of their declaration. -/
theorem C64_other_types {S : Schemas} (hw : S.Proper) {done : List Ident} {T T' : Types} (hr : Run S done T)
    {fuel : Nat} (hfix : fixAll fuel T = some T') {t : Ident} {d : TypeDecl}
    (hd : S.types t = some d) (hdone : t ∈ done) (h1 : d.isAbstract = false) (h2 : d.configured = false) :
    look T' t = some (.complex d.complex) := by
  have hi := hr.inv hw
  obtain ⟨ms, hE, -⟩ := hi.types t d hd hdone
  have hl := hE.plain (by simp [TypeDecl.isDyn, h1, h2])
  obtain ⟨-, hall⟩ := fixAll_look hi.keyed hfix
  rw [(hall t).2 fun dm hdm => by rw [hl] at hdm; cases hdm]
  exact hl

/-! ## Processing does not fail -/

theorem walkList_mono {S : Schemas} {cur : Ident} {rec rec' : List Ident → Types → Except Err Types}
    (hrec : ∀ gs T T', rec gs T = .ok T' → rec' gs T = .ok T') (direct : Bool) (hs : List Ident) :
    ∀ T T', walkList S cur rec direct hs T = .ok T' → walkList S cur rec' direct hs T = .ok T' := by
  induction hs with
  | nil => intro T T' h; exact h
  | cons h hs ih =>
    intro T T' hr
    simp only [walkList] at hr ⊢
    cases hp : prepare cur h direct T with
    | error x => rw [hp] at hr; cases hr
    | ok T1 =>
      rw [hp] at hr
      simp only at hr ⊢
      cases hd : S.elems h with
      | none => rw [hd] at hr; cases hr
      | some d =>
        rw [hd] at hr
        simp only at hr ⊢
        cases hh : d.heads with
        | none => rw [hh] at hr; exact ih _ _ hr
        | some gs =>
          rw [hh] at hr
          simp only at hr ⊢
          cases hg : rec gs T1 with
          | error x => rw [hg] at hr; cases hr
          | ok T2 =>
            rw [hg] at hr
            rw [hrec gs T1 T2 hg]
            exact ih _ _ hr

theorem walk_mono {S : Schemas} {cur : Ident} {f f' : Nat} (hf : f ≤ f') :
    ∀ (direct : Bool) (hs : List Ident) (T T' : Types), walk S cur f direct hs T = .ok T' →
      walk S cur f' direct hs T = .ok T' := by
  induction f generalizing f' with
  | zero => intro _ _ _ _ h; cases h
  | succ f ih =>
    obtain ⟨g, rfl⟩ : ∃ g, f' = g + 1 := ⟨f' - 1, by omega⟩
    intro direct hs T T' h
    exact walkList_mono (fun gs T T' h => ih (by omega) false gs T T' h) direct hs T T' h

/-- With enough fuel, walking up from the heads succeeds. -/
def Walks (S : Schemas) (done : List Ident) (cur : Ident) (hs : List Ident) (fuel : Nat) : Prop :=
  ∀ direct P T, Elems S done P T → Fresh S done T → (direct = true → ∀ h ∈ hs, Direct S cur h) →
    ∃ T', walk S cur fuel direct hs T = .ok T'

theorem walks_list {S : Schemas} (hw : S.Proper) {done : List Ident} {cur : Ident} (hc : cur ∉ done) (hs : List Ident)
    (hdone : ∀ h ∈ hs, h ∈ done ∧ ∃ d, S.elems h = some d)
    (hrec : ∀ h ∈ hs, ∃ f, ∀ d gs, S.elems h = some d → d.heads = some gs → Walks S done cur gs f) :
    ∃ f, Walks S done cur hs f := by
  induction hs with
  | nil => exact ⟨1, fun _ _ T _ _ _ => ⟨T, rfl⟩⟩
  | cons h hs ih =>
    obtain ⟨f1, h1⟩ := ih (fun x hx => hdone x (List.mem_cons_of_mem _ hx)) fun x hx =>
      hrec x (List.mem_cons_of_mem _ hx)
    obtain ⟨f2, h2⟩ := hrec h List.mem_cons_self
    refine ⟨max f1 f2 + 1, fun direct P T he hf hdir => ?_⟩
    obtain ⟨hd, d, hed⟩ := hdone h List.mem_cons_self
    obtain ⟨ms, hE, -⟩ := he h d hed hd
    obtain ⟨T1, hp⟩ := prepare_total (cur := cur) direct hE (hw.elem h d hed)
    obtain ⟨p1, p2, -⟩ := prepare_elems hw hc hed hd (fun e => hdir e h (by simp)) he hp
    have hf1 := hf.frame hw p2
    -- the rest of the list
    have rest : ∀ P T, Elems S done P T → Fresh S done T →
        ∃ T', walkList S cur (fun gs => walk S cur (max f1 f2) false gs) direct hs T = .ok T' := by
      intro P T he hf
      obtain ⟨T', h⟩ := h1 direct P T he hf (fun e x hx => hdir e x (by simp [hx]))
      have h := walk_mono (f' := max f1 f2 + 1) (by omega) _ _ _ _ h
      exact ⟨T', h⟩
    show ∃ T', walkList S cur (fun gs => walk S cur (max f1 f2) false gs) direct (h :: hs) T = .ok T'
    simp only [walkList, hp, hed]
    cases hh : d.heads with
    | none => exact rest _ T1 p1 hf1
    | some gs =>
      obtain ⟨T2, hg⟩ := h2 d gs hed hh false _ T1 p1 hf1 (fun e => by cases e)
      have hg := walk_mono (f' := max f1 f2) (by omega) _ _ _ _ hg
      obtain ⟨g1, g2, -, -⟩ := walk_ok hw hc _ _ _ _ _ hg _ p1 hf1 (fun e => by cases e)
      simp only [hg]
      exact rest _ T2 g1 (hf1.frame hw g2)

theorem Inv.walks {S : Schemas} (hw : S.Proper) {done : List Ident} {T : Types} (hi : Inv S done T) {cur : Ident}
    (hc : cur ∉ done) (hel : ∀ h ∈ done, ∀ k, Direct S h k → ∃ d, S.elems k = some d) {h : Ident} (hdone : h ∈ done) :
    ∃ f, ∀ d gs, S.elems h = some d → d.heads = some gs → Walks S done cur gs f := by
  have ha := hi.acc h hdone
  induction ha with
  | intro h _ ih =>
    cases hd : S.elems h with
    | none => exact ⟨0, fun d gs h1 => by cases h1⟩
    | some d =>
      cases hh : d.heads with
      | none =>
        refine ⟨0, fun d' gs h1 h2 => ?_⟩
        cases h1
        rw [hh] at h2; cases h2
      | some gs =>
        have hdir : ∀ k ∈ gs, Direct S h k := fun k hk => ⟨d, gs, hd, hh, hk⟩
        obtain ⟨f, hf⟩ := walks_list hw hc gs
          (fun k hk => ⟨hi.closed h k hdone (hdir k hk), hel h hdone k (hdir k hk)⟩)
          fun k hk => ih k (hdir k hk) (hi.closed h k hdone (hdir k hk))
        refine ⟨f, fun d' gs' h1 h2 => ?_⟩
        cases h1
        rw [hh] at h2
        cases h2
        exact hf

/-- C64: an element is processed without an error when the heads of its substitution groups are processed. -/
theorem C64_element_processed {S : Schemas} (hw : S.Proper) {done : List Ident} {T : Types} (hr : Run S done T)
    {e : Ident} {d : ElemDecl} (hd : S.elems e = some d) (hc : e ∉ done)
    (hheads : ∀ h, Direct S e h → h ∈ done) (hel : ∀ m h, Direct S m h → ∃ dh, S.elems h = some dh) :
    ∃ fuel T', processElement S fuel e d T = .ok T' ∧ Run S (done ++ [e]) T' := by
  have hi := hr.inv hw
  have hk := hw.elem e d hd
  obtain ⟨f1, f2, f3⟩ := hi.fresh e d hd hc
  suffices hx : ∃ fuel T', processElement S fuel e d T = .ok T' by
    obtain ⟨fuel, T', h⟩ := hx
    exact ⟨fuel, T', h, .element hr hd hc h⟩
  have hn : ∃ T1, applyNillable S e d T = .ok (T1, content0 e d) := by
    unfold applyNillable content0
    cases d.nillable with
    | false => exact ⟨T, rfl⟩
    | true =>
      obtain ⟨T1, h1⟩ := addType_total (finish S e (.reference (.new d.type_))) f2
      exact ⟨T1, by rw [if_pos rfl, h1]; rfl⟩
  obtain ⟨T1, hn⟩ := hn
  obtain ⟨-, n2, -, -, -⟩ := applyNillable_ok hn
  have he1 : Elems S done (fun e k => k ∈ done ∧ Substitutes S k e) T1 := by
    refine hi.elems.mono fun h dh hdh hdone => ?_
    have hkh := hw.elem h dh hdh
    exact ⟨n2 _ (ne_of_kind (by simp [hkh])), n2 _ (fun x => hc (nil_inj hkh hk x ▸ hdone)),
      n2 _ (ne_of_kind (by simp))⟩
  have hf1 : Fresh S done T1 := by
    intro h dh hdh hx
    rw [n2 _ (ne_of_kind (by simp [hw.elem h dh hdh]))]
    exact (hi.fresh h dh hdh hx).1
  have hh : ∃ fuel T2 r, applyHeads S fuel e d T1 (content0 e d) = .ok (T2, r) ∧ look T2 e = none := by
    cases hhd : d.heads with
    | none =>
      refine ⟨0, T1, content0 e d, by unfold applyHeads; rw [hhd], hf1 e d hd hc⟩
    | some hs =>
      have hdir : ∀ k ∈ hs, Direct S e k := fun k hk => ⟨d, hs, hd, hhd, hk⟩
      obtain ⟨Ta, ha⟩ := addType_total (T := T1) (i := sub e) (finish S e (.reference (content0 e d)))
        (by rw [n2 _ (ne_of_kind (by simp))]; exact f3)
      obtain ⟨-, a2, -⟩ := addType_ok ha
      have hsubne : ∀ h dh, S.elems h = some dh → h ∈ done → sub h ≠ sub e :=
        fun h dh hdh hdone x => hc (sub_inj (hw.elem h dh hdh) hk x ▸ hdone)
      have he2 : Elems S done (fun e k => k ∈ done ∧ Substitutes S k e) Ta := by
        refine he1.mono fun h dh hdh hdone => ?_
        rw [a2, a2, a2, if_neg (ne_of_kind (by simp [hw.elem h dh hdh])), if_neg (ne_of_kind (by simp)),
          if_neg (hsubne h dh hdh hdone)]
        exact ⟨rfl, rfl, rfl⟩
      have hf2 : Fresh S done Ta := by
        intro h dh hdh hx
        rw [a2, if_neg (ne_of_kind (by simp [hw.elem h dh hdh]))]
        exact hf1 h dh hdh hx
      obtain ⟨f, hf⟩ := walks_list hw hc hs (fun k hk => ⟨hheads k (hdir k hk), hel e k (hdir k hk)⟩)
        fun k hk => hi.walks hw hc (fun m _ h => hel m h) (hheads k (hdir k hk))
      obtain ⟨T2, h2⟩ := hf true _ Ta he2 hf2 (fun _ => hdir)
      obtain ⟨-, w2, -, -⟩ := walk_ok hw hc _ _ _ _ _ h2 _ he2 hf2 (fun _ => hdir)
      refine ⟨f, T2, .new (sub e), ?_, hf2.frame hw w2 e d hd hc⟩
      unfold applyHeads
      rw [hhd]
      simp only [ha, h2]
  obtain ⟨fuel, T2, r, hh, hl⟩ := hh
  obtain ⟨T', ha⟩ := addType_total
    (finish S e (if d.isAbstract then .dynamic ⟨some r.type_, true, []⟩ else .reference r)) hl
  refine ⟨fuel, T', ?_⟩
  unfold processElement
  simp only [f1, hn, hh, ha]

theorem skel_setDerived {T : Types} {i : Ident} {d : Meta.Dynamic} (hl : look T i = some (.dynamic d))
    (l : List (Ident × Derived)) : Skel T (setVariant T i (.dynamic { d with derived := l })) := by
  intro k
  rw [look_set hl]
  split
  · rename_i hk
    subst hk
    rw [hl]
    rfl
  · rfl

/-- The same table up to the lists of derived types, except for the entry of `x`. -/
def SkelX (x : Ident) (T T' : Types) : Prop := ∀ i, i ≠ x → (look T i).map strip = (look T' i).map strip

theorem SkelX.look {x : Ident} {T T' : Types} (h : SkelX x T T') {i : Ident} {v : Variant} (hi : i ≠ x)
    (hl : look T i = some v) : ∃ v', Meta.look T' i = some v' ∧ strip v' = strip v := by
  have := h i hi
  rw [hl] at this
  cases hl' : Meta.look T' i with
  | none => rw [hl'] at this; cases this
  | some v' =>
    rw [hl'] at this
    simp only [Option.map_some, Option.some.injEq] at this
    exact ⟨v', rfl, this.symm⟩

theorem SkelX.trans {x : Ident} {T T' T'' : Types} (h : SkelX x T T') (h' : Skel T' T'') : SkelX x T T'' :=
  fun i hi => (h i hi).trans (h' i)

/-- Walking up the base types from `b` succeeds. -/
theorem Inv.bases {S : Schemas} (hw : S.Proper) {done : List Ident} {T : Types} (hi : Inv S done T) {b : Ident}
    (ha : Acc (fun b t => BaseOf S t b) b)
    (hb : (b ∈ done ∧ ∃ d, S.types b = some d) ∨ (S.types b = none ∧ b.kind = .type_ ∧ Defined T b))
    (hdef : ∀ t c, t ∈ done → BaseOf S t c → S.types c = none → Defined T c) (cur id x : Ident)
    (hx : ∀ b d, b ∈ done → S.types b = some d → b ≠ x ∧ (d.isDyn = true → dyn b ≠ x)) (hxk : x.kind ≠ .type_) :
    ∃ fuel, ∀ direct T1, SkelX x T T1 → ∃ T2, regBase cur id fuel direct (some b) T1 = .ok T2 ∧ Skel T1 T2 := by
  induction ha with
  | intro b _ ih =>
    rcases hb with ⟨hdn, d, hd⟩ | ⟨hn, hk, hdb⟩
    · obtain ⟨ms, hE, -⟩ := hi.types b d hd hdn
      -- above the complex type
      have up : ∃ fuel, ∀ T1, SkelX x T T1 → ∃ T2, regBase cur id fuel false d.complex.base.ident T1 = .ok T2 ∧
          Skel T1 T2 := by
        cases hbi : d.complex.base.ident with
        | none => exact ⟨0, fun T1 _ => ⟨T1, rfl, .refl T1⟩⟩
        | some c =>
          have hbo : BaseOf S b c := ⟨d, hd, hbi⟩
          have hc : (c ∈ done ∧ ∃ d, S.types c = some d) ∨ (S.types c = none ∧ c.kind = .type_ ∧ Defined T c) := by
            cases hcd : S.types c with
            | none => exact .inr ⟨rfl, hw.base b c hbo, hdef b c hdn hbo hcd⟩
            | some dc => exact .inl ⟨hi.tclosed b c dc hdn hbo hcd, dc, rfl⟩
          obtain ⟨f, hf⟩ := ih c hbo hc
          exact ⟨f, fun T1 h => hf false T1 h⟩
      obtain ⟨f, hf⟩ := up
      cases hdy : d.isDyn with
      | true =>
        obtain ⟨l1, l2⟩ := hE.dynamic hdy
        refine ⟨f + 2, fun direct T1 hs => ?_⟩
        obtain ⟨v, hv, hv'⟩ := hs.look (hx b d hdn hd).1 l2
        obtain ⟨l, rfl⟩ := strip_dynamic hv'
        have hs1 := skel_setDerived hv (orInsert l (cur, child id direct))
        obtain ⟨v, hv2, hv2'⟩ := (hs.trans hs1).look ((hx b d hdn hd).2 hdy) l1
        obtain rfl := strip_complex hv2'
        obtain ⟨T2, h1, h2⟩ := hf _ (hs.trans hs1)
        refine ⟨T2, ?_, hs1.trans h2⟩
        simp only [regBase, hv]
        simp only [hv2]
        exact h1
      | false =>
        have l1 := hE.plain hdy
        refine ⟨f + 1, fun direct T1 hs => ?_⟩
        obtain ⟨v, hv, hv'⟩ := hs.look (hx b d hdn hd).1 l1
        obtain rfl := strip_complex hv'
        obtain ⟨T2, h1, h2⟩ := hf _ hs
        refine ⟨T2, ?_, h2⟩
        simp only [regBase, hv]
        exact h1
    · have hneu := hi.others b (not_family_of_base hw hk hn)
      obtain ⟨v, hv⟩ := defined_look.1 hdb
      rw [hv] at hneu
      refine ⟨1, fun direct T1 hs => ⟨T1, ?_, .refl T1⟩⟩
      obtain ⟨v', hv', hst⟩ := hs.look (fun e => hxk (e ▸ hk)) hv
      simp only [regBase, hv']
      cases v <;> cases v' <;> simp_all [strip, Neutral]

/-- C64: a complex type is processed without an error when its base type is processed. -/
theorem C64_type_processed {S : Schemas} (hw : S.Proper) {done : List Ident} {T : Types} (hr : Run S done T)
    {t : Ident} {d : TypeDecl} (hd : S.types t = some d) (hc : t ∉ done)
    (hbase : ∀ b, BaseOf S t b → S.types b ≠ none → b ∈ done)
    (hdef : ∀ u b, u ∈ done ++ [t] → BaseOf S u b → S.types b = none → Defined T b) :
    ∃ fuel T', processType S fuel t d T = .ok T' ∧ Run S (done ++ [t]) T' := by
  have hi := hr.inv hw
  obtain ⟨f1, f2⟩ := hi.tfresh t d hd hc
  suffices hx : ∃ fuel T', processType S fuel t d T = .ok T' by
    obtain ⟨fuel, T', h⟩ := hx
    exact ⟨fuel, T', h, .type_ hr hd hc h⟩
  have hdy : ∃ T1 v, applyDynamic S t d T = .ok (T1, v) := by
    unfold applyDynamic
    cases hdy : d.isDyn with
    | false => exact ⟨T, _, rfl⟩
    | true =>
      obtain ⟨T1, h1⟩ := addType_total (finish S t (.complex d.complex)) (f2 hdy)
      exact ⟨T1, _, by rw [if_pos rfl, h1]⟩
  obtain ⟨T1, v, hdy⟩ := hdy
  obtain ⟨-, d2, d3, -⟩ := applyDynamic_ok hdy
  have hk := hw.type_ t d hd
  have hdyne : dyn t ≠ t := ne_of_kind (by rcases hk with h | h <;> simp [h])
  have hT1 : look T1 t = none := by rw [d3 t fun h => hdyne h.symm]; exact f1
  suffices hb : ∃ fuel T2, regBase t (bodyOf t d) fuel true d.complex.base.ident T1 = .ok T2 ∧ Skel T1 T2 by
    obtain ⟨fuel, T2, h2, h3⟩ := hb
    have hT2 : look T2 t = none := by
      have := h3 t
      rw [hT1] at this
      cases h : look T2 t with
      | none => rfl
      | some _ => rw [h] at this; cases this
    obtain ⟨T', ha⟩ := addType_total (finish S t v) hT2
    refine ⟨fuel, T', ?_⟩
    unfold processType
    simp only [f1, hdy, h2, ha]
  cases hbi : d.complex.base.ident with
  | none => exact ⟨0, T1, rfl, .refl T1⟩
  | some b =>
    have hbo : BaseOf S t b := ⟨d, hd, hbi⟩
    have hk1 := hw.base t b hbo
    have hb : (b ∈ done ∧ ∃ d, S.types b = some d) ∨ (S.types b = none ∧ b.kind = .type_ ∧ Defined T b) := by
      cases hbd : S.types b with
      | none => exact .inr ⟨rfl, hk1, hdef t b (by simp) hbo hbd⟩
      | some db => exact .inl ⟨hbase b hbo (by rw [hbd]; simp), db, rfl⟩
    have ha : Acc (fun b t => BaseOf S t b) b := by
      rcases hb with ⟨h1, -⟩ | ⟨h1, -⟩
      · exact hi.tacc b h1
      · refine .intro _ fun c hc' => ?_
        obtain ⟨_, h2, _⟩ := hc'
        rw [h1] at h2; cases h2
    have hx : ∃ x : Ident, x.kind ≠ .type_ ∧ SkelX x T T1 ∧
        ∀ b db, b ∈ done → S.types b = some db → b ≠ x ∧ (db.isDyn = true → dyn b ≠ x) := by
      cases hdyn : d.isDyn with
      | true =>
        refine ⟨dyn t, by simp, fun i hi => by rw [d3 i hi], fun b db hbd hdb => ⟨ne_of_kind ?_, fun hdb' e => ?_⟩⟩
        · rcases hw.type_ b db hdb with h | h <;> simp [h]
        · exact hc (dyn_inj hw hdb hd hdb' hdyn e ▸ hbd)
      | false =>
        refine ⟨nil t, by simp, fun i _ => by rw [(d2 hdyn).2], fun b db hbd hdb => ⟨ne_of_kind ?_, fun _ => ne_of_kind (by simp)⟩⟩
        rcases hw.type_ b db hdb with h | h <;> simp [h]
    obtain ⟨x, hx1, hx2, hx3⟩ := hx
    obtain ⟨f, hf⟩ := hi.bases hw ha hb (fun u c hu => hdef u c (by simp [hu])) t (bodyOf t d) x hx3 hx1
    obtain ⟨T2, h1, h2⟩ := hf true T1 hx2
    exact ⟨f, T2, h1, h2⟩

/-! ## XML Schema's rule -/

/-- XML Schema: an element `m` may appear where `h` is expected if it is `h` or in the substitution group of `h`, `m` is
not abstract, and `h` does not exclude substitution with `block`. -/
def MayReplace (S : Schemas) (m h : Ident) : Prop :=
  ∃ dm dh, S.elems m = some dm ∧ S.elems h = some dh ∧ dm.isAbstract = false ∧
    (m = h ∨ (Substitutes S m h ∧ dh.blocks = false))

/-- C64: with no abstract elements in the substitution group and no `block`, the elements read are those that XML Schema
allows. `done` are all elements. -/
theorem C64_schema_members_partial {S : Schemas} (hw : S.Proper) {done : List Ident} {T T' : Types} (hr : Run S done T)
    (ht : TypesDefined S done T) {fuel : Nat} (hfu : 2 ≤ fuel) (hfix : fixAll fuel T = some T') {h : Ident}
    {d : ElemDecl} (hall : ∀ e d, S.elems e = some d → e ∈ done) (hd : S.elems h = some d) (hb : d.blocks = false)
    (hab : ∀ m dm, S.elems m = some dm → Substitutes S m h → dm.isAbstract = false) (m : Ident) :
    (∃ i, Reads T' h m i) ↔ MayReplace S m h := by
  rw [(C64_group_members_partial hw hr ht hfu hfix hd (hall h d hd)).1 m]
  constructor
  · rintro (⟨rfl, ha⟩ | ⟨-, hs⟩)
    · exact ⟨d, d, hd, hd, ha, .inl rfl⟩
    · obtain ⟨dm, h1, -⟩ := substitutes_heads hs
      exact ⟨dm, d, h1, hd, hab m dm h1 hs, .inr ⟨hs, hb⟩⟩
  · rintro ⟨dm, dh, h1, h2, h3, rfl | ⟨hs, -⟩⟩
    · rw [hd] at h1; cases h1
      exact .inl ⟨rfl, h3⟩
    · exact .inr ⟨hall m dm h1, hs⟩

/-- C64: what is recorded as direct member names the element as a head. -/
theorem C64_direct_members_partial {S : Schemas} (hw : S.Proper) {done : List Ident} {T T' : Types} (hr : Run S done T)
    (ht : TypesDefined S done T) {fuel : Nat} (hfu : 2 ≤ fuel) (hfix : fixAll fuel T = some T') {h : Ident}
    {d : ElemDecl} (hd : S.elems h = some d) (hdone : h ∈ done) {dm : Meta.Dynamic}
    (hl : look T' h = some (.dynamic dm)) :
    ∀ m der, (m, der) ∈ dm.derived → (der.relationship = .concrete ↔ m = h) ∧
      (der.relationship = .directChild → Direct S m h) := by
  have hi := hr.inv hw
  obtain ⟨ms, hE, hM⟩ := hi.elems h d hd hdone
  obtain ⟨hsk, -⟩ := fixAll_look hi.keyed hfix
  obtain ⟨v, h1, h2⟩ := hsk.symm.look hl
  obtain ⟨l0, rfl⟩ := strip_dynamic h2
  obtain ⟨l, hl', -, hcon⟩ := hi.result_elem hw ht hfu hfix hd hdone hE hM h1
  rw [hl] at hl'
  simp only [Option.some.injEq, Variant.dynamic.injEq] at hl'
  rw [hl']
  obtain ⟨e1, -, -⟩ := hE.look_dynamic h1
  intro m der hmem
  obtain ⟨-, p, hp, hpq, hrel⟩ := hcon _ hmem
  simp only at hpq hrel hp e1
  rw [e1] at hp
  have key : p ∈ ms → (der.relationship = .concrete ↔ m = h) ∧ (der.relationship = .directChild → Direct S m h) := by
    intro hp
    obtain ⟨-, -, h3, h4⟩ := hM.entry p hp
    rw [hrel] at h3 h4
    rw [hpq] at h4
    refine ⟨⟨fun h => absurd h h3, fun e => ?_⟩, h4⟩
    have := List.mem_map_of_mem (f := Prod.fst) hp
    rw [hpq, e] at this
    exact absurd this (hM.self hi)
  unfold elemDerived at hp
  split at hp
  · exact key hp
  · rcases List.mem_cons.1 hp with rfl | hp
    · simp only [concrete] at hrel hpq
      rw [← hrel]
      exact ⟨by simp [hpq], fun h => by cases h⟩
    · exact key hp

/-! ## Examples -/

def exE (n : String) : Ident := ⟨0, 0, .named n.toList, .element⟩
def exT (n : String) : Ident := ⟨0, 0, .named n.toList, .type_⟩
def exC (b : Base) : Complex := ⟨b, none, 1, .bounded 1, false, false, []⟩

/-- `head` (block="substitution"), `abs` (abstract, in the group of `head`), `both` (in the groups of `abs` and `head`,
nillable), `alone`; the abstract type `Base`, the abstract type `Mid` derived from it and `Leaf` derived from `Mid`. -/
def exS : Schemas where
  elems := fun i =>
    if i = exE "head" then some { type_ := exT "string", blocks := true }
    else if i = exE "abs" then some { type_ := exT "string", heads := some [exE "head"], isAbstract := true }
    else if i = exE "both" then
      some { type_ := exT "Leaf", heads := some [exE "abs", exE "head"], nillable := true }
    else if i = exE "alone" then some { type_ := exT "Leaf" }
    else none
  types := fun i =>
    if i = exT "Base" then some { complex := exC .none, isAbstract := true }
    else if i = exT "Mid" then some { complex := exC (.ext (exT "Base")), isAbstract := true }
    else if i = exT "Leaf" then some { complex := exC (.restr (exT "Mid")) }
    else none
  form := fun _ => .qualified

def exStart : Types := [(exT "string", .new (.buildIn .string))]

def exOrder : List Ident :=
  [exT "Base", exE "head", exT "Mid", exE "abs", exT "Leaf", exE "both", exE "alone"]

/-- Processes the components one after the other. -/
def exStep (T : Types) (i : Ident) : Except Err Types :=
  match exS.elems i, exS.types i with
  | some d, _ => processElement exS 9 i d T
  | none, some d => processType exS 9 i d T
  | none, none => .ok T

def exTable (n : Nat) : Types :=
  (exOrder.take n).foldl (fun T i => match exStep T i with | .ok T => T | .error _ => []) exStart

def exFixed : Types := (fixAll 2 (exTable 7)).getD []

theorem exS_proper : exS.Proper := by
  refine ⟨?_, ?_, ?_, ?_, ?_⟩
  · intro e d h
    simp only [exS] at h
    repeat' (split at h)
    all_goals first | (cases h; done) | (subst_vars; rfl)
  · intro e d h
    simp only [exS] at h
    repeat' (split at h)
    all_goals first | (cases h; done) | (cases h; simp [exT])
  · intro t d h
    simp only [exS] at h
    repeat' (split at h)
    all_goals first | (cases h; done) | (subst_vars; exact .inl rfl)
  · rintro t b ⟨d, h, hb⟩
    simp only [exS] at h
    repeat' (split at h)
    all_goals first | (cases h; done) | (cases h; simp only [exC, Base.ident] at hb; first | (cases hb; rfl) | cases hb)
  · intro t d h hk
    simp only [exS] at h
    repeat' (split at h)
    all_goals first | (cases h; done) | (subst_vars; cases hk)

theorem exS_family {i : Ident} (h : Family exS i) : i ≠ exT "string" := by
  rintro rfl
  rcases h with ⟨e, d, h, hi⟩ | ⟨t, d, h, hi⟩
  · have := exS_proper.elem e d h
    rcases hi with hi | hi | hi
    · rw [← hi] at this; cases this
    · exact absurd (congrArg Ident.kind hi) (by simp [exT])
    · exact absurd (congrArg Ident.kind hi) (by simp [exT])
  · rcases hi with hi | ⟨-, hi⟩
    · subst hi
      revert h
      simp [exS, exT]
    · exact absurd (congrArg Ident.kind hi) (by simp [exT])

theorem exRun4 : Run exS (exOrder.take 4) (exTable 4) := by
  have h0 : Run exS [] (exTable 0) := by
    refine .start (by unfold Assoc.Keyed; decide) (fun i hi => ?_) (fun i => ?_)
    · have := exS_family hi
      show look exStart i = none
      simp only [look, exStart, Assoc.get, if_neg this.symm, Option.map_none]
    · show Neutral (look exStart i)
      simp only [look, exStart, Assoc.get]
      split
      · exact True.intro
      · exact True.intro
  have h1 : Run exS _ (exTable 1) := .type_ (fuel := 9) (t := exT "Base") h0 rfl (by decide) rfl
  have h2 : Run exS _ (exTable 2) := .element (fuel := 9) (e := exE "head") h1 rfl (by decide) rfl
  have h3 : Run exS _ (exTable 3) := .type_ (fuel := 9) (t := exT "Mid") h2 rfl (by decide) rfl
  have h4 : Run exS _ (exTable 4) := .element (fuel := 9) (e := exE "abs") h3 rfl (by decide) rfl
  exact h4

theorem exRun5 : Run exS (exOrder.take 5) (exTable 5) := .type_ (fuel := 9) (t := exT "Leaf") exRun4 rfl (by decide) rfl

theorem exRun : Run exS exOrder (exTable 7) := by
  have h6 : Run exS _ (exTable 6) := .element (fuel := 9) (e := exE "both") exRun5 rfl (by decide) rfl
  have h7 : Run exS _ (exTable 7) := .element (fuel := 9) (e := exE "alone") h6 rfl (by decide) rfl
  exact h7

theorem exDefined : TypesDefined exS exOrder (exTable 7) := by
  intro e d h _
  rw [defined_look]
  simp only [exS] at h
  repeat' (split at h)
  all_goals first | (cases h; done) | (cases h; exact ⟨_, rfl⟩)

theorem exFix : fixAll 2 (exTable 7) = some exFixed := rfl

/-- What comes out of the example: `head` reads itself, `abs` and `both`; `abs` reads `both`. -/
example : look exFixed (exE "head") = some (.dynamic ⟨some (exT "string"), false,
      [(exE "head", ⟨exT "string", none, .concrete⟩), (exE "abs", ⟨exT "string", none, .directChild⟩),
       (exE "both", ⟨sub (exE "both"), none, .indirectChild⟩)]⟩) ∧
    look exFixed (exE "abs") = some (.dynamic ⟨some (sub (exE "abs")), true,
      [(exE "both", ⟨sub (exE "both"), none, .directChild⟩)]⟩) ∧
    look exFixed (exT "Base") = some (.dynamic ⟨some (dyn (exT "Base")), true,
      [(exT "Mid", ⟨dyn (exT "Mid"), none, .directChild⟩), (exT "Leaf", ⟨exT "Leaf", none, .indirectChild⟩)]⟩) :=
  ⟨rfl, rfl, rfl⟩

example : (∃ i, Reads exFixed (exE "abs") (exE "both") i) ∧ ¬ ∃ i, Reads exFixed (exE "abs") (exE "abs") i := by
  have h := C64_group_members_partial exS_proper exRun exDefined (Nat.le_refl 2) exFix (h := exE "abs") rfl (by decide)
  refine ⟨(h.1 _).2 (.inr ⟨by decide, .direct ⟨_, _, rfl, rfl, by decide⟩⟩), fun hx => ?_⟩
  rcases (h.1 _).1 hx with ⟨-, ha⟩ | ⟨-, hs⟩
  · cases ha
  · exact substitutes_irrefl ((exRun.inv exS_proper).acc _ (by decide)) hs

theorem exHeads {m h : Ident} (hd : Direct exS m h) : h = exE "head" ∨ h = exE "abs" := by
  obtain ⟨d, hs, h1, h2, h3⟩ := hd
  simp only [exS] at h1
  repeat' (split at h1)
  all_goals first
    | (cases h1; done)
    | (cases h1; cases h2; done)
    | (cases h1; cases h2; simp only [List.mem_cons, List.not_mem_nil, or_false] at h3; rcases h3 with rfl | rfl <;> simp)
    | (cases h1; cases h2; simp only [List.mem_cons, List.not_mem_nil, or_false] at h3; subst h3; simp)

example : ∃ fuel T', processElement exS fuel (exE "both")
      { type_ := exT "Leaf", heads := some [exE "abs", exE "head"], nillable := true } (exTable 5) = .ok T' ∧
    Run exS (exOrder.take 5 ++ [exE "both"]) T' := by
  refine C64_element_processed exS_proper exRun5 rfl (by decide) (fun h hd => ?_) (fun m h hd => ?_)
  · rcases exHeads hd with rfl | rfl <;> decide
  · rcases exHeads hd with rfl | rfl <;> exact ⟨_, rfl⟩

theorem exBases {t b : Ident} (hb : BaseOf exS t b) : b = exT "Base" ∨ b = exT "Mid" := by
  obtain ⟨d, h, hb⟩ := hb
  simp only [exS] at h
  repeat' (split at h)
  all_goals first
    | (cases h; done)
    | (cases h; cases hb; done)
    | (cases h; cases hb; simp)

example : ∃ fuel T', processType exS fuel (exT "Leaf") { complex := exC (.restr (exT "Mid")) } (exTable 4) = .ok T' ∧
    Run exS (exOrder.take 4 ++ [exT "Leaf"]) T' := by
  refine C64_type_processed exS_proper exRun4 rfl (by decide) (fun b hb _ => ?_) (fun u b _ hb hn => ?_)
  · rcases exBases hb with rfl | rfl <;> decide
  · rcases exBases hb with rfl | rfl <;> cases hn

example : ∃ T', fixAll 7 (exTable 7) = some T' := C64_pass_ends exS_proper exRun exDefined (by decide)

example := C64_derived_types_partial exS_proper exRun (Nat.le_refl 2) exFix (t := exT "Base") rfl (by decide) (.inl rfl)
example : look exFixed (exT "Leaf") = some (.complex (exC (.restr (exT "Mid")))) :=
  C64_other_types exS_proper exRun exFix (t := exT "Leaf") rfl (by decide) rfl rfl
example (m : Ident) : (∃ i, Reads exFixed (exE "alone") m i) ↔ MayReplace exS m (exE "alone") := by
  refine C64_schema_members_partial exS_proper exRun exDefined (Nat.le_refl 2) exFix ?_ (h := exE "alone") rfl rfl ?_ m
  · intro e d h
    simp only [exS] at h
    repeat' (split at h)
    all_goals first | (cases h; done) | (subst_vars; decide)
  · intro m dm h hs
    have key : ∀ m h, Substitutes exS m h → h ≠ exE "alone" := by
      intro m h hs
      induction hs with
      | direct hd =>
        obtain ⟨d, hs, h1, h2, h3⟩ := hd
        simp only [exS] at h1
        repeat' (split at h1)
        all_goals first
          | (cases h1; done)
          | (cases h1; cases h2; done)
          | (cases h1; cases h2; rintro rfl; revert h3; decide)
      | indirect _ _ ih => exact ih
    exact absurd rfl (key m _ hs)
example := C64_direct_members_partial exS_proper exRun exDefined (Nat.le_refl 2) exFix (h := exE "head") rfl (by decide) rfl

/-! ## Where it differs from XML Schema -/

/-- An abstract element is read where the head of its substitution group is expected. -/
theorem C64_abstract_member_read : ∃ S done T T' m h d, Schemas.Proper S ∧ Run S done T ∧ TypesDefined S done T ∧
    fixAll 2 T = some T' ∧ S.elems m = some d ∧ d.isAbstract = true ∧ (∃ i, Reads T' h m i) ∧ ¬ MayReplace S m h := by
  refine ⟨exS, exOrder, _, exFixed, exE "abs", exE "head", _, exS_proper, exRun, exDefined, exFix, rfl, rfl, ?_, ?_⟩
  · exact ((C64_group_members_partial exS_proper exRun exDefined (Nat.le_refl 2) exFix (h := exE "head") rfl
      (by decide)).1 _).2 (.inr ⟨by decide, .direct ⟨_, _, rfl, rfl, by decide⟩⟩)
  · rintro ⟨dm, dh, h1, -, h3, -⟩
    cases h1
    cases h3

/-- `block="substitution"` is not obeyed. -/
theorem C64_block_ignored : ∃ S done T T' m h d dm, Schemas.Proper S ∧ Run S done T ∧ TypesDefined S done T ∧
    fixAll 2 T = some T' ∧ S.elems h = some d ∧ d.blocks = true ∧ S.elems m = some dm ∧ dm.isAbstract = false ∧ m ≠ h ∧
    (∃ i, Reads T' h m i) ∧ ¬ MayReplace S m h := by
  refine ⟨exS, exOrder, _, exFixed, exE "both", exE "head", _, _, exS_proper, exRun, exDefined, exFix, rfl, rfl, rfl,
    rfl, by decide, ?_, ?_⟩
  · exact ((C64_group_members_partial exS_proper exRun exDefined (Nat.le_refl 2) exFix (h := exE "head") rfl
      (by decide)).1 _).2 (.inr ⟨by decide, .direct ⟨_, _, rfl, rfl, by decide⟩⟩)
  · rintro ⟨dm, dh, h1, h2, -, h4⟩
    cases h1
    cases h2
    rcases h4 with h4 | ⟨-, h4⟩
    · exact absurd h4 (by decide)
    · cases h4

/-- An abstract type is accepted in `xsi:type` where its abstract base type is expected. -/
theorem C64_abstract_type_accepted : ∃ S done T T' t b d dm der, Schemas.Proper S ∧ Run S done T ∧
    fixAll 2 T = some T' ∧ S.types t = some d ∧ d.isAbstract = true ∧ look T' b = some (.dynamic dm) ∧
    (t, der) ∈ dm.derived :=
  ⟨exS, exOrder, _, exFixed, exT "Mid", exT "Base", _, _, _, exS_proper, exRun, exFix, rfl, rfl, rfl,
    List.mem_cons_self⟩

/-- An element that names both a head and the head of that head is recorded as an indirect member of the latter. -/
theorem C64_direct_member_lost : ∃ S done T T' m h dm der, Schemas.Proper S ∧ Run S done T ∧ TypesDefined S done T ∧
    fixAll 2 T = some T' ∧ look T' h = some (.dynamic dm) ∧ (m, der) ∈ dm.derived ∧ Direct S m h ∧
    der.relationship ≠ .directChild :=
  ⟨exS, exOrder, _, exFixed, exE "both", exE "head", _, ⟨sub (exE "both"), none, .indirectChild⟩, exS_proper, exRun,
    exDefined, exFix, rfl, by decide, ⟨_, _, rfl, rfl, by decide⟩, by decide⟩

end Verif.Subst

import Verif.Interp.SchemaTypes
import Verif.Opt.PipelineExact
/-!
# The interpreted table is well-formed (C72)

What the optimizer asks of a table (`WellFormed`, C69) holds for the table that the interpreter makes from a schema, if it
holds for the table of the simple types it starts with: no type stands on itself, and no type stands on a name that is not
defined. The model of the interpreter is that of `Verif.Interp.SchemaTypes`.
-/
namespace Verif.Interp

open Verif.Meta Verif.Opt
open Verif.Occurs (MaxOccurs Allows)

/-! ## Specification -/

/-- The types of the elements of a schema are simple types, or other components of the schema. -/
def ClosedSchema (T₀ : Types) (defs : List Def) : Prop :=
  ∀ i target, .element i target ∈ defs → Defined T₀ target ∨ ∃ d ∈ defs, d.ident = target

/-! ## Proofs -/

/-- The definition stands on `k`, or has it as (a part of) its content. -/
def StandsOn (k : Ident) : Variant → Prop
  | .reference r => r.type_ = k
  | .union u => u.base.ident = some k ∨ ∃ m ∈ u.types, m.type_ = k
  | .enumeration e => e.base.ident = some k ∨ ∃ w ∈ e.variants, w.type_ = some k
  | .simple x => x.base = k
  | .dynamic d => ∃ e ∈ d.derived, e.2.type_ = k
  | .complex c => c.base.ident = some k ∨ c.content = some k
  | .sequence g | .choice g | .all g => ∃ e ∈ g.elements, e.variant = .type_ k .group
  | _ => False

def Rel (T : Types) (a b : Ident) : Prop := ∃ v, look T a = some v ∧ StandsOn b v

theorem rel_iff {T : Types} {a b : Ident} : (Uses T a b ∨ Points T a b) ↔ Rel T a b := by
  constructor
  · rintro (h | ⟨v, h1, h2⟩)
    · cases h with
      | reference h => exact ⟨_, h, rfl⟩
      | member h h' => exact ⟨_, h, Or.inr ⟨_, h', rfl⟩⟩
      | variant h h' h'' => exact ⟨_, h, Or.inr ⟨_, h', h''⟩⟩
      | simple h => exact ⟨_, h, rfl⟩
      | derived h h' => exact ⟨_, h, _, h', rfl⟩
      | content h h' => exact ⟨_, h, Or.inr h'⟩
      | sequence h h' h'' => exact ⟨_, h, _, h', h''⟩
      | choice h h' h'' => exact ⟨_, h, _, h', h''⟩
      | all h h' h'' => exact ⟨_, h, _, h', h''⟩
    · refine ⟨v, h1, ?_⟩
      cases v with
      | reference r => simp only [points, List.mem_singleton] at h2; exact h2.symm
      | union u =>
        simp only [points, List.mem_append, Option.mem_toList, List.mem_map] at h2
        exact h2
      | enumeration e => simp only [points, Option.mem_toList] at h2; exact Or.inl h2
      | complex c => simp only [points, Option.mem_toList] at h2; exact Or.inl h2
      | simple x => simp only [points, List.mem_singleton] at h2; exact h2.symm
      | _ => cases h2
  · rintro ⟨v, h1, h2⟩
    cases v with
    | reference r => cases h2; exact Or.inl (.reference h1)
    | union u =>
      rcases h2 with h2 | ⟨m, h2, rfl⟩
      · exact Or.inr ⟨_, h1, by simp [points, h2]⟩
      · exact Or.inl (.member h1 h2)
    | enumeration e =>
      rcases h2 with h2 | ⟨w, h2, h3⟩
      · exact Or.inr ⟨_, h1, by simp [points, h2]⟩
      · exact Or.inl (.variant h1 h2 h3)
    | simple x => cases h2; exact Or.inl (.simple h1)
    | dynamic d => obtain ⟨e, h2, rfl⟩ := h2; exact Or.inl (.derived h1 h2)
    | complex c =>
      rcases h2 with h2 | h2
      · exact Or.inr ⟨_, h1, by simp [points, h2]⟩
      · exact Or.inl (.content h1 h2)
    | sequence g => obtain ⟨e, h2, h3⟩ := h2; exact Or.inl (.sequence h1 h2 h3)
    | choice g => obtain ⟨e, h2, h3⟩ := h2; exact Or.inl (.choice h1 h2 h3)
    | all g => obtain ⟨e, h2, h3⟩ := h2; exact Or.inl (.all h1 h2 h3)
    | _ => cases h2

theorem rel_defined {T : Types} {a b : Ident} (h : Rel T a b) : Defined T a := by
  obtain ⟨v, h, _⟩ := h
  obtain ⟨ty, h, _⟩ := look_iff.1 h
  exact ⟨ty, h⟩

/-- The table so far: nothing stands on one of the names `E`, and what has none of these names stands only on names that are
defined and are not one of `X`, and not on itself. -/
structure TableInv (E X : Ident → Prop) (T : Types) : Prop where
  keyed : Assoc.Keyed T
  targets : ∀ a b, Rel T a b → ¬ E b ∧ (¬ E a → Defined T b ∧ ¬ X b)
  noLoop : NoLoop fun a b => ¬ E a ∧ Rel T a b

theorem TableInv.weaken {E X Y : Ident → Prop} {T : Types} (h : TableInv E X T) (hy : ∀ i, Y i → X i) : TableInv E Y T :=
  ⟨h.keyed, fun a b hab => ⟨(h.targets a b hab).1, fun ha => ⟨((h.targets a b hab).2 ha).1,
    fun hb => ((h.targets a b hab).2 ha).2 (hy b hb)⟩⟩, h.noLoop⟩

/-- Names that are not defined are not stood on, so they may be added to `X`. -/
theorem TableInv.avoid {E X Y : Ident → Prop} {T : Types} (h : TableInv E X T) (hy : ∀ i, Y i → X i ∨ ¬ Defined T i) :
    TableInv E Y T :=
  ⟨h.keyed, fun a b hab => ⟨(h.targets a b hab).1, fun ha => ⟨((h.targets a b hab).2 ha).1, fun hb => by
    rcases hy b hb with h' | h'
    · exact ((h.targets a b hab).2 ha).2 h'
    · exact h' ((h.targets a b hab).2 ha).1⟩⟩, h.noLoop⟩

/-- A path that does not start in `i`, in a relation without a step to `i`, is a path of every relation that agrees with it
elsewhere. -/
theorem path_elsewhere {R S : Ident → Ident → Prop} {i a b : Ident} (hi : ∀ x, ¬ S x i)
    (h : ∀ x y, x ≠ i → S x y → R x y) (ha : a ≠ i) (p : Relation.TransGen S a b) : Relation.TransGen R a b := by
  have key : b ≠ i ∧ Relation.TransGen R a b := by
    induction p with
    | single h1 => exact ⟨fun hb => hi _ (hb ▸ h1), .single (h _ _ ha h1)⟩
    | tail _ h1 ih => exact ⟨fun hb => hi _ (hb ▸ h1), .tail ih.2 (h _ _ ih.1 h1)⟩
  exact key.2

theorem defined_upsert {T : Types} {i k : Ident} {ty : MetaType} (h : Defined T k) :
    Defined (Assoc.upsert T i fun _ => ty) k := by
  obtain ⟨t, h⟩ := h
  unfold Defined
  rw [Assoc.get_upsert]
  by_cases hik : i = k
  · exact ⟨ty, by simp [hik]⟩
  · exact ⟨t, by simp [hik, h]⟩

theorem look_upsert {T : Types} {i k : Ident} {ty : MetaType} :
    look (Assoc.upsert T i fun _ => ty) k = if i = k then some ty.variant else look T k := by
  unfold look
  rw [Assoc.get_upsert]
  split <;> simp_all

theorem TableInv.upsert {E X : Ident → Prop} {T : Types} {i : Ident} {ty : MetaType} (h : TableInv E X T)
    (hi : Defined T i → X i ∧ ¬ E i)
    (hk : ∀ k, StandsOn k ty.variant → ¬ E k ∧ (¬ E i → Defined T k ∧ ¬ X k)) :
    TableInv E X (Assoc.upsert T i fun _ => ty) := by
  have hrel : ∀ a b, Rel (Assoc.upsert T i fun _ => ty) a b → (a = i ∧ StandsOn b ty.variant) ∨ (a ≠ i ∧ Rel T a b) := by
    rintro a b ⟨v, h1, h2⟩
    rw [look_upsert] at h1
    by_cases hia : i = a
    · rw [if_pos hia] at h1
      cases h1
      exact Or.inl ⟨hia.symm, h2⟩
    · rw [if_neg hia] at h1
      exact Or.inr ⟨fun h => hia h.symm, v, h1, h2⟩
  refine ⟨h.keyed.upsert _ _, ?_, ?_⟩
  · intro a b hab
    rcases hrel a b hab with ⟨rfl, h1⟩ | ⟨-, h1⟩
    · exact ⟨(hk b h1).1, fun ha => ⟨defined_upsert ((hk b h1).2 ha).1, ((hk b h1).2 ha).2⟩⟩
    · exact ⟨(h.targets a b h1).1, fun ha => ⟨defined_upsert ((h.targets a b h1).2 ha).1, ((h.targets a b h1).2 ha).2⟩⟩
  · have hin : ∀ x, ¬ (¬ E x ∧ Rel (Assoc.upsert T i fun _ => ty) x i) := by
      rintro x ⟨hx, hr⟩
      rcases hrel x i hr with ⟨rfl, h1⟩ | ⟨-, h1⟩
      · have h2 := (hk _ h1).2 hx
        exact h2.2 (hi h2.1).1
      · have h2 := (h.targets x i h1).2 hx
        exact h2.2 (hi h2.1).1
    intro a ha
    have hne : a ≠ i := by
      intro hc
      subst hc
      cases ha with
      | single h1 => exact hin _ h1
      | tail _ h1 => exact hin _ h1
    refine h.noLoop a (path_elsewhere (i := i) hin ?_ hne ha)
    rintro x y hx ⟨h1, h2⟩
    rcases hrel x y h2 with ⟨h3, -⟩ | ⟨-, h3⟩
    · exact absurd h3 hx
    · exact ⟨h1, h3⟩

/-- The nested groups among the members `es` are defined and have none of the names. -/
def GroupsIn (E X : Ident → Prop) (T : Types) (es : List Element) : Prop :=
  ∀ e ∈ es, ∀ k, e.variant = .type_ k .group → ¬ E k ∧ Defined T k ∧ ¬ X k

theorem Extends.defined {T T' : Types} {k : Ident} (h : Extends T T') (hk : Defined T k) : Defined T' k := by
  obtain ⟨ty, hk⟩ := hk
  exact ⟨ty, h _ _ hk⟩

theorem GroupsIn.extends {E X : Ident → Prop} {T T' : Types} {es : List Element} (h : GroupsIn E X T es)
    (he : Extends T T') : GroupsIn E X T' es :=
  fun e hm k hk => ⟨(h e hm k hk).1, he.defined (h e hm k hk).2.1, (h e hm k hk).2.2⟩

theorem standsOn_variant {k : Ident} {kind : GKind} {m : Bool} {es : List Element} (h : StandsOn k (kind.variant m es)) :
    ∃ e ∈ es, e.variant = .type_ k .group := by
  cases kind <;> exact h

theorem addElement_groups {d : ElementDecl} {es es' : List Element} (h : addElement d es = some es') {e : Element}
    (he : e ∈ es') {k : Ident} (hk : e.variant = .type_ k .group) : ∃ e' ∈ es, e'.variant = .type_ k .group := by
  have key : ∀ es : List Element,
      e ∈ findOrInsert d.ident (newElement d.ident d.type_ .element d.form) d.update es →
      ∃ e' ∈ es, e'.variant = .type_ k .group := by
    intro es
    induction es with
    | nil =>
      intro h
      simp only [findOrInsert, List.mem_singleton] at h
      subst h
      cases hk
    | cons a es ih =>
      intro h
      simp only [findOrInsert] at h
      split at h
      · rcases List.mem_cons.1 h with rfl | h
        · exact ⟨a, by simp, hk⟩
        · exact ⟨e, by simp [h], hk⟩
      · rcases List.mem_cons.1 h with rfl | h
        · exact ⟨e, by simp, hk⟩
        · obtain ⟨e', h1, h2⟩ := ih h
          exact ⟨e', by simp [h1], h2⟩
  have hes : es' = findOrInsert d.ident (newElement d.ident d.type_ .element d.form) d.update es := by
    unfold addElement at h
    split at h
    · split at h
      · exact (Option.some.inj h).symm
      · cases h
    · exact (Option.some.inj h).symm
  rw [hes] at he
  exact key es he

theorem insertChecked_groups {field : PropIdent} {t : Ident} {mn : Nat} {mx : MaxOccurs} {es es' : List Element}
    (h : insertChecked field (newNested t mn mx) es = some es') {e : Element} (he : e ∈ es') {k : Ident}
    (hk : e.variant = .type_ k .group) : k = t ∨ ∃ e' ∈ es, e'.variant = .type_ k .group := by
  have new : ∀ i, e = newNested t mn mx i → k = t := by
    intro i h
    subst h
    simp [newNested, newElement] at hk
    exact hk.symm
  have mark : ∀ es : List Element, e ∈ markFirst field es → ∃ e' ∈ es, e'.variant = .type_ k .group := by
    intro es
    induction es with
    | nil => intro h; cases h
    | cons a es ih =>
      intro h
      simp only [markFirst] at h
      split at h
      · rcases List.mem_cons.1 h with h | h
        · refine ⟨a, by simp, ?_⟩
          rw [h] at hk
          split at hk <;> exact hk
        · exact ⟨e, by simp [h], hk⟩
      · rcases List.mem_cons.1 h with rfl | h
        · exact ⟨e, by simp, hk⟩
        · obtain ⟨e', h1, h2⟩ := ih h
          exact ⟨e', by simp [h1], h2⟩
  unfold insertChecked at h
  split at h
  · obtain ⟨i, -, rfl⟩ := Option.map_eq_some_iff.1 h
    rcases List.mem_append.1 he with he | he
    · exact Or.inr (mark es he)
    · exact Or.inl (new i (by simpa using he))
  · cases h
    rcases List.mem_append.1 he with he | he
    · exact Or.inr ⟨e, he, hk⟩
    · exact Or.inl (new field (by simpa using he))

theorem pushAny_groups {i : PropIdent} {m : AnyMeta} {mn : Nat} {mx : MaxOccurs} {es : List Element} {e : Element}
    (he : e ∈ pushAny { newAny i m with min := mn, max := mx } es) {k : Ident} (hk : e.variant = .type_ k .group) :
    ∃ e' ∈ es, e'.variant = .type_ k .group := by
  have ren : ∀ (es : List Element) (n : Nat), e ∈ (renumber n es).1 → ∃ e' ∈ es, e'.variant = .type_ k .group := by
    intro es
    induction es with
    | nil => intro n h; cases h
    | cons a es ih =>
      intro n h
      simp only [renumber] at h
      split at h
      · rcases List.mem_cons.1 h with rfl | h
        · exact ⟨a, by simp, hk⟩
        · obtain ⟨e', h1, h2⟩ := ih _ h
          exact ⟨e', by simp [h1], h2⟩
      · rcases List.mem_cons.1 h with rfl | h
        · exact ⟨e, by simp, hk⟩
        · obtain ⟨e', h1, h2⟩ := ih _ h
          exact ⟨e', by simp [h1], h2⟩
  simp only [pushAny] at he
  rcases List.mem_append.1 he with he | he
  · exact ren es 0 he
  · simp only [List.mem_singleton] at he
    subst he
    simp [newAny] at hk

/-- The state of the interpreter: the table, and a cache of groups that are defined. -/
structure InvSt (E X : Ident → Prop) (st : St) : Prop where
  table : TableInv E X st.types
  cache : ∀ k t, Assoc.get st.cache k = some t → ¬ E t ∧ Defined st.types t ∧ ¬ X t

/-- A group is added. -/
theorem addGroup_inv {E X : Ident → Prop} {st st' : St} {i : Ident} {kind : GKind} {m : Bool} {es : List Element}
    (h : InvSt E X st) (hx : ∀ x, X x → Defined st.types x) (hes : GroupsIn E X st.types es)
    (ha : addType i (.new (kind.variant m es)) st = .ok st') :
    InvSt E X st' ∧ Extends st.types st'.types ∧ Defined st'.types i ∧ ¬ X i := by
  obtain ⟨x1, x2, x3, x4, x5⟩ := addType_ok ha
  have hnd : ¬ Defined st.types i := by rintro ⟨ty, hty⟩; rw [x4] at hty; cases hty
  have hni : ¬ X i := fun hc => hnd (hx i hc)
  refine ⟨⟨?_, ?_⟩, x1, ⟨_, x2⟩, hni⟩
  · rw [addType, x4] at ha
    cases ha
    refine h.table.upsert (fun hc => absurd hc hnd) fun k hk => ?_
    obtain ⟨e, h1, h2⟩ := standsOn_variant hk
    obtain ⟨h3, h4, h5⟩ := hes e h1 k h2
    exact ⟨h3, fun _ => ⟨h4, h5⟩⟩
  · intro k t hk
    rw [x3] at hk
    obtain ⟨h1, h2, h3⟩ := h.cache k t hk
    exact ⟨h1, x1.defined h2, h3⟩

theorem remember_inv {E X : Ident → Prop} {st : St} {ref : Option Ident} {t : Ident} (h : InvSt E X st) (h1 : ¬ E t)
    (h2 : Defined st.types t) (h3 : ¬ X t) : InvSt E X (remember ref t st) := by
  cases ref with
  | none => exact h
  | some k =>
    refine ⟨h.table, fun k' t' hk => ?_⟩
    simp only [remember] at hk
    rw [Assoc.get_upsert] at hk
    split at hk
    · cases hk; exact ⟨h1, h2, h3⟩
    · exact h.cache k' t' hk

theorem cached_inv {E X : Ident → Prop} {st : St} {ref : Option Ident} {t : Ident} (h : InvSt E X st)
    (hc : cached ref st = some t) : ¬ E t ∧ Defined st.types t ∧ ¬ X t := by
  cases ref with
  | none => cases hc
  | some k => exact h.cache k t hc

theorem addNested_inv {E X : Ident → Prop} {field : PropIdent} {t : Ident} {mn : Nat} {mx : MaxOccurs}
    {es es' : List Element} {st st' : St} (h : addNested field t mn mx es st = .ok (st', es'))
    (hes : GroupsIn E X st.types es) (h1 : ¬ E t) (h2 : Defined st.types t) (h3 : ¬ X t) :
    GroupsIn E X st.types es' := by
  unfold addNested at h
  split at h
  · cases h
  · rename_i es2 hi
    cases h
    intro e he k hk
    rcases insertChecked_groups hi he hk with rfl | ⟨e', h4, h5⟩
    · exact ⟨h1, h2, h3⟩
    · exact hes e' h4 k h5

mutual
theorem apply_inv {E X : Ident → Prop} {mixed : Bool} : ∀ (p : Part) {st st' : St} {es es' : List Element},
    p.apply mixed st es = .ok (st', es') → InvSt E X st → (∀ x, X x → Defined st.types x) → GroupsIn E X st.types es →
    (∀ t ∈ p.groupTypes, ¬ E t) → InvSt E X st' ∧ GroupsIn E X st'.types es'
  | .elem d, st, st', es, es', h, hst, hx, hes, hg => by
    rw [Part.apply] at h
    split at h
    · cases h
    · rename_i es2 ha
      cases h
      refine ⟨hst, fun e he k hk => ?_⟩
      obtain ⟨e', h1, h2⟩ := addElement_groups ha he hk
      exact hes e' h1 k h2
  | .any i m mn mx, st, st', es, es', h, hst, hx, hes, hg => by
    rw [Part.apply] at h
    cases h
    refine ⟨hst, fun e he k hk => ?_⟩
    obtain ⟨e', h1, h2⟩ := pushAny_groups he hk
    exact hes e' h1 k h2
  | .group kind field ty ref mn mx parts, st, st', es, es', h, hst, hx, hes, hg => by
    rw [Part.apply] at h
    split at h
    · rename_i t hc
      obtain ⟨h1, h2, h3⟩ := cached_inv hst hc
      have := addNested_types h
      subst this
      exact ⟨hst, addNested_inv h hes h1 h2 h3⟩
    · unfold finishNested at h
      split at h
      · cases h
      · rename_i st1 inner hr
        have hE : ¬ E ty := hg ty (by simp [Part.groupTypes])
        have hext := (applyParts_new parts hr).1
        obtain ⟨h1, h2⟩ := applyParts_inv parts hr hst hx (fun e he => by cases he)
          fun t ht => hg t (by simp [Part.groupTypes, ht])
        split at h
        · cases h
          exact ⟨h1, hes.extends hext⟩
        · split at h
          · cases h
          · rename_i st2 ha
            obtain ⟨h3, h4, h5, h6⟩ := addGroup_inv h1 (fun x hx' => hext.defined (hx x hx')) h2 ha
            split at h
            · cases h
            · rename_i st3 es3 hn
              cases h
              have hes3 := addNested_inv hn ((hes.extends hext).extends h4) hE h5 h6
              have := addNested_types hn
              subst this
              exact ⟨remember_inv h3 hE h5 h6, by rw [remember_types]; exact hes3⟩
theorem applyParts_inv {E X : Ident → Prop} {mixed : Bool} : ∀ (ps : List Part) {st st' : St} {es es' : List Element},
    applyParts mixed ps st es = .ok (st', es') → InvSt E X st → (∀ x, X x → Defined st.types x) → GroupsIn E X st.types es →
    (∀ t ∈ groupTypesOf ps, ¬ E t) → InvSt E X st' ∧ GroupsIn E X st'.types es'
  | [], st, st', es, es', h, hst, hx, hes, hg => by
    rw [applyParts] at h
    cases h
    exact ⟨hst, hes⟩
  | p :: ps, st, st', es, es', h, hst, hx, hes, hg => by
    rw [applyParts] at h
    split at h
    · cases h
    · rename_i st1 es1 h1
      obtain ⟨h2, h3⟩ := apply_inv p h1 hst hx hes fun t ht => hg t (by simp [groupTypesOf, ht])
      exact applyParts_inv ps h h2 (fun x hx' => (apply_new p h1).1.defined (hx x hx')) h3
        fun t ht => hg t (by simp [groupTypesOf, ht])
end

/-! ### Complex types -/

/-- The content of a complex type is defined and none of the names. -/
def ContentIn (E : Ident → Prop) (T : Types) (c : Complex) : Prop :=
  ∀ k, c.content = some k → ¬ E k ∧ Defined T k

/-- Names that the particle `t` adds. -/
def topTypes (t : Top) : List Ident := t.type_ :: groupTypesOf t.parts

theorem applyFirst_inv {E X : Ident → Prop} {mixed : Bool} {t : Top} {st st' : St} {c c' : Complex}
    (h : applyFirst mixed t st c = .ok (st', c')) (hst : InvSt E X st) (hx : ∀ x, X x → Defined st.types x)
    (hc : c.content = none) (hg : ∀ i ∈ topTypes t, ¬ E i) : TableInv E X st'.types ∧ ContentIn E st'.types c' := by
  rw [applyFirst] at h
  split at h
  · rename_i i hi
    cases h
    refine ⟨hst.table, fun k hk => ?_⟩
    cases hk
    exact ⟨(cached_inv hst hi).1, (cached_inv hst hi).2.1⟩
  · split at h
    · cases h
    · rename_i st1 es h1
      obtain ⟨h2, h3⟩ := applyParts_inv t.parts h1 hst hx (fun e he => by cases he)
        fun i hi => hg i (List.mem_cons_of_mem _ hi)
      split at h
      · cases h
        exact ⟨h2.table, fun k hk => by rw [hc] at hk; cases hk⟩
      · split at h
        · cases h
        · rename_i st2 h4
          cases h
          obtain ⟨h5, -, h6, -⟩ := addGroup_inv h2 (fun x hx' => (applyParts_new t.parts h1).1.defined (hx x hx')) h3 h4
          rw [remember_types]
          refine ⟨h5.table, fun k hk => ?_⟩
          cases hk
          exact ⟨hg _ (List.mem_cons_self ..), h6⟩

theorem memberType_inv {E X : Ident → Prop} {mixed : Bool} {t : Top} {st st' : St} {r : Option Ident}
    (h : memberType mixed t st = .ok (st', r)) (hst : InvSt E X st) (hx : ∀ x, X x → Defined st.types x)
    (hg : ∀ i ∈ topTypes t, ¬ E i) :
    TableInv E X st'.types ∧ ∀ i, r = some i → ¬ E i ∧ Defined st'.types i ∧ ¬ X i := by
  rw [memberType] at h
  split at h
  · rename_i i hi
    cases h
    refine ⟨hst.table, fun k hk => ?_⟩
    cases hk
    exact cached_inv hst hi
  · split at h
    · cases h
    · rename_i st1 es h1
      obtain ⟨h2, h3⟩ := applyParts_inv t.parts h1 hst hx (fun e he => by cases he)
        fun i hi => hg i (List.mem_cons_of_mem _ hi)
      split at h
      · cases h
        exact ⟨h2.table, fun k hk => by cases hk⟩
      · split at h
        · cases h
        · rename_i st2 h4
          cases h
          obtain ⟨h5, -, h6, h7⟩ := addGroup_inv h2 (fun x hx' => (applyParts_new t.parts h1).1.defined (hx x hx')) h3 h4
          refine ⟨h5.table, fun k hk => ?_⟩
          cases hk
          exact ⟨hg _ (List.mem_cons_self ..), h6, h7⟩

/-- The members of a group of the table. -/
theorem TableInv.members {E X : Ident → Prop} {T : Types} (h : TableInv E X T) {ci : Ident} {ty : MetaType} {k : GKind} {g : Group}
    (hci : ¬ E ci) (hty : Assoc.get T ci = some ty) (hg : groupParts ty.variant = some (k, g)) :
    GroupsIn E X T g.elements := by
  intro e he n hn
  have hr : Rel T ci n := by
    refine ⟨ty.variant, look_of hty rfl, ?_⟩
    rw [variant_of_groupParts hg]
    cases k <;> exact ⟨e, he, hn⟩
  obtain ⟨h1, h2⟩ := h.targets _ _ hr
  exact ⟨h1, h2 hci⟩

theorem TableInv.set {E : Ident → Prop} {st : St} {ci : Ident} {ty : MetaType} {k : GKind} {m : Bool} {es : List Element}
    (h : TableInv E (· = ci) st.types) (hci : ¬ E ci) (hty : ty.variant = k.variant m es)
    (hes : GroupsIn E (· = ci) st.types es) : TableInv E (· = ci) (setType ci ty st).types := by
  refine h.upsert (fun _ => ⟨rfl, hci⟩) fun n hn => ?_
  rw [hty] at hn
  obtain ⟨e, h1, h2⟩ := standsOn_variant hn
  obtain ⟨h3, h4⟩ := hes e h1 n h2
  exact ⟨h3, fun _ => h4⟩

/-- A particle is added to the content `ci`, on which nothing stands. -/
theorem applyTop_inv {E : Ident → Prop} {mixed : Bool} {t : Top} {st st' : St} {c c' : Complex} {ci : Ident}
    (h : applyTop mixed t st c = .ok (st', c')) (hst : InvSt E (· = ci) st) (hci : ¬ E ci) (hd : Defined st.types ci)
    (hc : c.content = some ci) (hg : ∀ i ∈ topTypes t, ¬ E i) :
    TableInv E (· = ci) st'.types ∧ ContentIn E st'.types c' := by
  have hx : ∀ x, x = ci → Defined st.types x := fun x hx => hx ▸ hd
  have done : ∀ {c' : Complex} {T : Types}, c'.content = some ci → Defined T ci → ContentIn E T c' := by
    intro c' T h1 h2 k hk
    rw [h1] at hk
    cases hk
    exact ⟨hci, h2⟩
  have append : applyAppend mixed t st c ci = .ok (st', c') → TableInv E (· = ci) st'.types ∧ ContentIn E st'.types c' := by
    intro h
    rw [applyAppend] at h
    split at h
    · cases h
    · rename_i st1 h1
      cases h
      exact ⟨(memberType_inv h1 hst hx hg).1, done hc ((memberType_new h1).1.defined hd)⟩
    · rename_i st1 i h1
      obtain ⟨h2, h3⟩ := memberType_inv h1 hst hx hg
      split at h
      · cases h
      · rename_i ty hty
        split at h
        · cases h
        · rename_i k g hgp
          split at h
          · cases h
          · rename_i es hes
            cases h
            rw [rememberNew_types]
            have hes' : GroupsIn E (· = ci) st1.types es := by
              intro e he n hn
              rcases insertChecked_groups hes he hn with rfl | ⟨e', h4, h5⟩
              · exact h3 n rfl
              · exact h2.members hci hty hgp e' h4 n h5
            exact ⟨h2.set hci rfl hes', done hc (defined_upsert ⟨_, hty⟩)⟩
  rw [applyTop, hc] at h
  simp only at h
  split at h
  · cases h
  · rename_i ty hty
    split at h
    · rename_i k g hgp
      split at h
      · rw [applyUpdate] at h
        split at h
        · cases h
        · rename_i st1 es h1
          obtain ⟨h2, h3⟩ := applyParts_inv t.parts h1 hst hx (hst.table.members hci hty hgp)
            fun i hi => hg i (List.mem_cons_of_mem _ hi)
          have hd' := (applyParts_new t.parts h1).1.defined hd
          split at h
          · cases h
            exact ⟨h2.table, done hc hd'⟩
          · cases h
            rw [rememberNew_types]
            exact ⟨h2.table.set hci rfl h3, done (by exact hc) (defined_upsert hd')⟩
      · exact append h
    · exact append h

theorem InvSt.start {E X : Ident → Prop} {T : Types} (h : TableInv E X T) : InvSt E X ⟨T, []⟩ :=
  ⟨h, fun k t hk => by cases hk⟩

/-- What a new complex type stands on. -/
def StandsIn (E : Ident → Prop) (T : Types) (ty : MetaType) : Prop :=
  ∀ k, StandsOn k ty.variant → ¬ E k ∧ Defined T k

theorem complexOf_inv {E : Ident → Prop} {as : List Attribute} {content : Option Top} {T : Types} {st : St}
    {ty : MetaType} (h : complexOf as content ⟨T, []⟩ = .ok (st, ty)) (hT : TableInv E (fun _ => False) T)
    (hg : ∀ t, content = some t → ∀ i ∈ topTypes t, ¬ E i) :
    TableInv E (fun _ => False) st.types ∧ StandsIn E st.types ty := by
  cases content with
  | none =>
    cases h
    refine ⟨hT, fun k hk => ?_⟩
    rcases hk with hk | hk <;> cases hk
  | some t =>
    rw [complexOf] at h
    split at h
    · cases h
    · rename_i st1 c h1
      cases h
      have h1 : applyFirst false t ⟨T, []⟩ (Complex.fresh as) = .ok (st, c) := h1
      obtain ⟨h3, h4⟩ := applyFirst_inv h1 (.start hT) (fun _ hx => hx.elim) rfl (hg t rfl)
      refine ⟨h3, fun k hk => ?_⟩
      rcases hk with hk | hk
      · have : c.base = .none := by
          rw [applyFirst] at h1
          split at h1
          · cases h1; rfl
          · split at h1
            · cases h1
            · split at h1
              · cases h1; rfl
              · split at h1
                · cases h1
                · cases h1; rfl
        rw [this] at hk
        cases hk
      · exact h4 k hk

theorem keep_stands {mode : DMode} {v : Variant} {k : Ident} (h : StandsOn k (keep mode v)) : StandsOn k v := by
  cases mode with
  | extension => exact h
  | restriction =>
    cases v with
    | all g | choice g | sequence g =>
      obtain ⟨e, h1, h2⟩ := h
      exact ⟨e, (List.mem_filter.1 h1).1, h2⟩
    | _ => exact h

theorem derivedOf_inv {E : Ident → Prop} {mode : DMode} {base copy : Ident} {as : List Attribute} {content : Option Top} {T : Types}
    {st : St} {ty : MetaType} (h : derivedOf mode base copy as content ⟨T, []⟩ = .ok (st, ty))
    (hT : TableInv E (fun _ => False) T) (hbase : ¬ E base) (hcopy : ¬ E copy) (he : Extends T st.types)
    (hg : ∀ t, content = some t → ∀ i ∈ topTypes t, ¬ E i) :
    TableInv E (fun _ => False) st.types ∧ StandsIn E st.types ty := by
  rw [derivedOf] at h
  split at h
  · cases h
  · rename_i c hl
    have hdb : Defined T base := by
      obtain ⟨ty, h, _⟩ := look_iff.1 hl
      exact ⟨ty, h⟩
    split at h
    · cases h
    · rename_i st1 c1 h1
      cases h
      have key : TableInv E (fun _ => False) st.types ∧ ContentIn E st.types c1 := by
        rw [derive] at h1
        split at h1
        · cases h1
        · rename_i st2 c2 h2
          cases hc : c.content with
          | none =>
            rw [copyBase, hc] at h2
            cases h2
            cases content with
            | none =>
              cases h1
              exact ⟨hT, fun k hk => by cases hk⟩
            | some t =>
              simp only [applyTop] at h1
              exact applyFirst_inv h1 (.start hT) (fun _ hx => hx.elim) rfl (hg t rfl)
          | some ci =>
            have hci : ¬ E ci := (hT.targets base ci ⟨_, hl, .inr hc⟩).1
            rw [copyBase, hc] at h2
            simp only at h2
            split at h2
            · cases h2
            · rename_i tyc hty
              split at h2
              · cases h2
              · rename_i st3 h3
                cases h2
                obtain ⟨x1, x2, x3, x4, x5⟩ := addType_ok h3
                have hnd : ¬ Defined T copy := by rintro ⟨_, hh⟩; rw [x4] at hh; cases hh
                have hT' : TableInv E (· = copy) T := hT.avoid fun i hi => .inr (hi ▸ hnd)
                have h4 : TableInv E (· = copy) st2.types := by
                  rw [addType, x4] at h3
                  cases h3
                  refine hT'.upsert (fun hd => absurd hd hnd) fun k hk => ?_
                  obtain ⟨h5, h6⟩ := hT'.targets ci k ⟨_, look_of hty rfl, keep_stands hk⟩
                  exact ⟨h5, fun _ => h6 hci⟩
                have hd : Defined st2.types copy := ⟨_, x2⟩
                cases content with
                | none =>
                  cases h1
                  refine ⟨h4.weaken fun _ h => h.elim, fun k hk => ?_⟩
                  cases hk
                  exact ⟨hcopy, hd⟩
                | some t =>
                  have hst : InvSt E (· = copy) st2 := ⟨h4, fun k t hk => by rw [x3] at hk; cases hk⟩
                  obtain ⟨h5, h6⟩ := applyTop_inv h1 hst hcopy hd rfl (hg t rfl)
                  exact ⟨h5.weaken fun _ h => h.elim, h6⟩
      refine ⟨key.1, fun k hk => ?_⟩
      rcases hk with hk | hk
      · have : base = k := by cases mode <;> (cases hk; rfl)
        subst this
        exact ⟨hbase, he.defined hdb⟩
      · exact key.2 k hk
  · cases h

/-! ### All components -/

/-- The name of an element of the schema. -/
def IsElement (defs : List Def) (i : Ident) : Prop := ∃ t, .element i t ∈ defs

theorem group_not_element {T₀ : Types} {defs : List Def} (ha : NamesApart T₀ defs) {d : Def} (hd : d ∈ defs) {i : Ident}
    (hi : i ∈ d.groupTypes) : ¬ IsElement defs i :=
  fun ⟨_, ht⟩ => ha.groups _ ht d hd hi

theorem known_not_element {T₀ : Types} {defs : List Def} (ha : NamesApart T₀ defs) {i : Ident} (hi : Defined T₀ i) :
    ¬ IsElement defs i :=
  fun ⟨_, ht⟩ => ha.fresh _ ht hi

theorem createType_inv {groups : Ident → GKind × List Part} {T₀ : Types} {defs : List Def} (ha : NamesApart T₀ defs)
    {d : Def} (hd : d ∈ defs) (ho : d.Ok groups T₀ defs) {T T' : Types} (hgood : AllGood defs T) (h0 : Extends T₀ T)
    (hT : TableInv (IsElement defs) (fun _ => False) T) (h : createType d T = .ok T') :
    TableInv (IsElement defs) (fun _ => False) T' := by
  rw [createType] at h
  split at h
  · cases h; exact hT
  · split at h
    · cases h
    · rename_i st ty h1
      split at h
      · cases h
      · rename_i st2 h2
        cases h
        have hx : TableInv (IsElement defs) (fun _ => False) st.types ∧
            ∀ k, StandsOn k ty.variant → ¬ IsElement defs k ∧ (¬ IsElement defs d.ident → Defined st.types k) := by
          have he := (type_new ha.nodup hd ho hgood h1).1.1
          cases d with
          | element i target =>
            cases h1
            refine ⟨hT, fun k hk => ?_⟩
            cases hk
            exact ⟨fun ⟨t, ht⟩ => ho t ht, fun hne => absurd ⟨target, hd⟩ hne⟩
          | complex i as content =>
            obtain ⟨h3, h4⟩ := complexOf_inv h1 hT fun t ht i hi =>
              group_not_element ha hd (by subst ht; exact hi)
            exact ⟨h3, fun k hk => ⟨(h4 k hk).1, fun _ => (h4 k hk).2⟩⟩
          | extension i base copy as content =>
            obtain ⟨-, r, hr, -⟩ := ho
            have hb : ¬ IsElement defs base := by
              rintro ⟨t, ht⟩
              obtain ⟨d', hd', he', decl, hdecl⟩ := extensible_complex hr
              cases same_ident ha.nodup ht hd' he'.symm
              cases hdecl
            have hc : copy ∈ (Def.extension i base copy as content).groupTypes := by
              cases content <;> simp [Def.groupTypes]
            obtain ⟨h3, h4⟩ := derivedOf_inv h1 hT hb (group_not_element ha hd hc) he fun t ht i hi =>
              group_not_element ha hd (by subst ht; exact List.mem_cons_of_mem _ hi)
            exact ⟨h3, fun k hk => ⟨(h4 k hk).1, fun _ => (h4 k hk).2⟩⟩
          | restriction i base copy as content =>
            obtain ⟨-, t, t₀, rfl, hown, -⟩ := ho
            have hb : ¬ IsElement defs base := by
              rintro ⟨t, ht⟩
              obtain ⟨d', hd', he', decl, hdecl⟩ := ownContent_complex hown
              cases same_ident ha.nodup ht hd' he'.symm
              cases hdecl
            obtain ⟨h3, h4⟩ := derivedOf_inv h1 hT hb (group_not_element ha hd (by simp [Def.groupTypes])) he
              fun t' ht i hi => group_not_element ha hd (by cases ht; exact List.mem_cons_of_mem _ hi)
            exact ⟨h3, fun k hk => ⟨(h4 k hk).1, fun _ => (h4 k hk).2⟩⟩
          | simple i as base =>
            cases h1
            have hb : Defined T₀ base := ho.2
            refine ⟨hT, fun k hk => ?_⟩
            have hk' : k = base := by
              rcases hk with hk | hk <;> cases hk <;> rfl
            subst hk'
            exact ⟨known_not_element ha hb, fun _ => h0.defined hb⟩
        have hn := (addType_ok h2).2.2.2.1
        rw [addType, hn] at h2
        cases h2
        refine hx.1.upsert (fun hd => ?_) fun k hk => ⟨(hx.2 k hk).1, fun hne => ⟨(hx.2 k hk).2 hne, fun h => h⟩⟩
        obtain ⟨_, hh⟩ := hd
        rw [hn] at hh
        cases hh

theorem interpret_inv {groups : Ident → GKind × List Part} {T₀ : Types} {defs : List Def} (ha : NamesApart T₀ defs)
    (ho : ∀ d ∈ defs, d.Ok groups T₀ defs) : ∀ {ds : List Def} {T T' : Types}, (∀ d ∈ ds, d ∈ defs) →
    (ds.map Def.ident).Nodup → interpret ds T = .ok T' → AllGood defs T → (∀ d ∈ ds, ¬ Defined T d.ident) →
    Extends T₀ T → TableInv (IsElement defs) (fun _ => False) T → TableInv (IsElement defs) (fun _ => False) T' := by
  intro ds
  induction ds with
  | nil => intro T T' _ _ h _ _ _ hT; cases h; exact hT
  | cons d ds ih =>
    intro T T' hsub hnd h hgood hf h0 hT
    rw [interpret] at h
    split at h
    · cases h
    · rename_i T1 h1
      rw [List.map_cons, List.nodup_cons] at hnd
      have hd := hsub d (List.mem_cons_self ..)
      obtain ⟨c1, c3, -, c2⟩ :=
        createType_new ha.nodup ha.groups hd (ho d hd) hgood (hf d (List.mem_cons_self ..)) h1
      refine ih (fun d' h => hsub d' (List.mem_cons_of_mem _ h)) hnd.2 h c3 (fun d' hd' hdef => ?_) (h0.trans c1)
        (createType_inv ha hd (ho d hd) hgood h0 hT h1)
      obtain ⟨ty, hty⟩ := hdef
      rcases c2 _ _ hty with h2 | h2 | ⟨h2, -⟩
      · exact hf d' (List.mem_cons_of_mem _ hd') ⟨_, h2⟩
      · exact hnd.1 (h2 ▸ List.mem_map_of_mem hd')
      · exact ha.groups d' (hsub d' (List.mem_cons_of_mem _ hd')) d hd h2

theorem simple_rel {T₀ : Types} (hs : SimpleTable T₀) (wf : WellFormed T₀) {a b : Ident} (h : Rel T₀ a b) :
    Defined T₀ b := by
  rcases rel_iff.2 h with h0 | h0
  · cases h0 with
    | reference g => obtain ⟨us, h1, h2⟩ := hs _ _ g; cases h1; exact h2 _ (by simp)
    | member g h' => obtain ⟨us, h1, h2⟩ := hs _ _ g; cases h1; exact h2 _ (List.mem_map_of_mem h')
    | variant g h' h'' =>
      obtain ⟨us, h1, h2⟩ := hs _ _ g
      cases h1
      exact h2 _ (List.mem_filterMap.2 ⟨_, h', h''⟩)
    | simple g => obtain ⟨us, h1, h2⟩ := hs _ _ g; cases h1; exact h2 _ (by simp)
    | derived g | content g | sequence g | choice g | all g => obtain ⟨us, h1, h2⟩ := hs _ _ g; cases h1
  · exact wf.defined _ _ h0

theorem interpreted {groups : Ident → GKind × List Part} {T₀ T : Types} {defs : List Def}
    (h : interpret defs T₀ = .ok T) (hs : SimpleTable T₀) (ha : NamesApart T₀ defs)
    (ho : ∀ d ∈ defs, d.Ok groups T₀ defs) : Interpreted groups T₀ defs T := by
  obtain ⟨h1, h4, h2, h3⟩ := interpret_new ha.nodup ha.groups ho (fun _ h => h) ha.nodup h
    (fun d hd _ _ ty hty => absurd ⟨ty, hty⟩ (ha.fresh d hd)) ha.fresh
  exact ⟨hs, h1, h2, h4, ha.nodup, ho, h3⟩

/-- **C72.** The table that is made from a schema is fit for the optimizer if the table of the simple types is: there is one
definition for each name, no definition stands on a name that is not defined, and none stands on itself or is its own
content. Missing: as in `C72_table_exact_partial`. -/
theorem C72_table_well_formed_partial {groups : Ident → GKind × List Part} {T₀ T : Types} {defs : List Def}
    (h : interpret defs T₀ = .ok T) (hs : SimpleTable T₀) (ha : NamesApart T₀ defs)
    (ho : ∀ d ∈ defs, d.Ok groups T₀ defs) (closed : ClosedSchema T₀ defs) (wf : WellFormed T₀) : WellFormed T := by
  have H := interpreted h hs ha ho
  have hI : TableInv (IsElement defs) (fun _ => False) T := by
    refine interpret_inv ha ho (fun _ h => h) ha.nodup h
      (fun d hd _ _ ty hty => absurd ⟨ty, hty⟩ (ha.fresh d hd)) ha.fresh (Extends.refl _) ⟨wf.keyed, ?_, ?_⟩
    · intro a b hab
      have := simple_rel hs wf hab
      exact ⟨known_not_element ha this, fun _ => ⟨this, fun h => h⟩⟩
    · intro a hab
      exact wf.noLoop a (transGen_mono (fun _ _ h => .single (rel_iff.2 h.2)) hab)
  refine ⟨hI.keyed, ?_, ?_⟩
  · intro i k hik
    have hr := rel_iff.1 (.inr hik)
    by_cases hi : IsElement defs i
    · obtain ⟨target, ht⟩ := hi
      obtain ⟨v, hv, hk⟩ := hr
      obtain ⟨_, _, ty, h1, -, h2⟩ := H.made _ ht
      cases h1
      have := look_of h2 rfl
      rw [show (Def.element i target).ident = i from rfl, hv] at this
      cases this
      cases hk
      rcases closed i _ ht with hd | ⟨d, hd, rfl⟩
      · exact H.ext.defined hd
      · obtain ⟨_, _, ty, -, -, h3⟩ := H.made _ hd
        exact ⟨ty, h3⟩
    · exact ((hI.targets i k hr).2 hi).1
  · intro a ha'
    have hpath : ∀ {b}, ¬ IsElement defs a → Relation.TransGen (fun a b => Uses T a b ∨ Points T a b) a b →
        Relation.TransGen (fun a b => ¬ IsElement defs a ∧ Rel T a b) a b := by
      intro b hne p
      have : ¬ IsElement defs b ∧ Relation.TransGen (fun a b => ¬ IsElement defs a ∧ Rel T a b) a b := by
        induction p with
        | single h1 => exact ⟨(hI.targets _ _ (rel_iff.1 h1)).1, .single ⟨hne, rel_iff.1 h1⟩⟩
        | tail _ h1 ih => exact ⟨(hI.targets _ _ (rel_iff.1 h1)).1, .tail ih.2 ⟨ih.1, rel_iff.1 h1⟩⟩
      exact this.2
    have hne : ¬ IsElement defs a := by
      cases ha' with
      | single h1 => exact (hI.targets _ _ (rel_iff.1 h1)).1
      | tail _ h1 => exact (hI.targets _ _ (rel_iff.1 h1)).1
    exact hI.noLoop a (hpath hne ha')

/-! ### The other conditions -/

/-- A type that is not one of the simple types is a reference, a complex type that restricts what the schema says, or a
group. -/
theorem Interpreted.shape {groups : Ident → GKind × List Part} {T₀ T : Types} {defs : List Def}
    (H : Interpreted groups T₀ defs T) {i : Ident} {v : Variant} (hv : look T i = some v) :
    look T₀ i = some v ∨ (∃ r, v = .reference r) ∨ (∃ c, v = .complex c ∧ ∀ b, c.base = .restr b →
      ∃ copy as content, .restriction i b copy as content ∈ defs) ∨ ∃ g, groupParts v = some g := by
  obtain ⟨ty, hty, rfl⟩ := look_iff.1 hv
  rcases H.only i ty hty with h | ⟨d, hd, rfl⟩ | h
  · exact .inl (look_of h rfl)
  · right
    obtain ⟨T1, st, ty', h1, -, h3⟩ := H.made d hd
    rw [hty] at h3
    cases h3
    cases d with
    | element i target => cases h1; exact .inl ⟨_, rfl⟩
    | simple i as base => cases h1; exact .inr (.inl ⟨_, rfl, by simp⟩)
    | complex i as content =>
      cases content with
      | none => cases h1; exact .inr (.inl ⟨_, rfl, by simp [Complex.fresh]⟩)
      | some t =>
        simp only [Def.type_, complexOf] at h1
        split at h1
        · cases h1
        · rename_i st1 c h2
          cases h1
          refine .inr (.inl ⟨_, rfl, ?_⟩)
          rw [applyTop] at h2
          simp only [Complex.fresh] at h2
          rw [applyFirst] at h2
          split at h2
          · cases h2; simp [Complex.withContent]
          · split at h2
            · cases h2
            · split at h2
              · cases h2; simp
              · split at h2
                · cases h2
                · cases h2; simp [Complex.withContent]
    | extension i base copy as content =>
      simp only [Def.type_, derivedOf] at h1
      split at h1
      · cases h1
      · split at h1
        · cases h1
        · cases h1
          exact .inr (.inl ⟨_, rfl, by simp [DMode.base]⟩)
      · cases h1
    | restriction i base copy as content =>
      simp only [Def.type_, derivedOf] at h1
      split at h1
      · cases h1
      · split at h1
        · cases h1
        · cases h1
          refine .inr (.inl ⟨_, rfl, ?_⟩)
          rintro b ⟨⟩
          exact ⟨_, _, _, hd⟩
      · cases h1
  · exact .inr (.inr (.inr h))

theorem Interpreted.keeps {groups : Ident → GKind × List Part} {T₀ T : Types} {defs : List Def}
    (H : Interpreted groups T₀ defs T) {i : Ident} {v : Variant} (hv : look T₀ i = some v) : look T i = some v := by
  obtain ⟨ty, h1, h2⟩ := look_iff.1 hv
  exact look_of (H.ext _ _ h1) h2

theorem Interpreted.old {groups : Ident → GKind × List Part} {T₀ T : Types} {defs : List Def}
    (H : Interpreted groups T₀ defs T) {i : Ident} {v : Variant} (hv : look T i = some v)
    (h1 : ∀ r, v ≠ .reference r) (h2 : ∀ c, v ≠ .complex c) (h3 : groupParts v = none) :
    look T₀ i = some v := by
  rcases H.shape hv with h | ⟨r, h⟩ | ⟨c, h, h'⟩ | ⟨g, h⟩
  · exact h
  · exact absurd h (h1 r)
  · exact absurd h (h2 c)
  · rw [h3] at h; cases h

/-- The simple types that an enumeration of the schema restricts, and so on, are those of the table of simple types. -/
theorem Interpreted.noEmptyLiteral {groups : Ident → GKind × List Part} {T₀ T : Types} {defs : List Def}
    (H : Interpreted groups T₀ defs T) (h : NoEmptyLiteral T₀) : NoEmptyLiteral T :=
  fun i x w hl hw => h i x w (H.old hl (by simp) (by simp) rfl) hw

theorem Interpreted.keysByCount {groups : Ident → GKind × List Part} {T₀ T : Types} {defs : List Def}
    (H : Interpreted groups T₀ defs T) : KeysByCount T := by
  intro i j a b d e h1 h2 h3
  have := H.old (look_of h1 h3) (by simp) (by simp) rfl
  obtain ⟨us, h4, -⟩ := H.simple _ _ this
  cases h4

theorem Interpreted.textual {groups : Ident → GKind × List Part} {T₀ T : Types} {defs : List Def}
    (H : Interpreted groups T₀ defs T) {i : Ident} (h : Textual T₀ i) : Textual T i := by
  induction h with
  | builtIn h => exact .builtIn (H.keeps h)
  | union h => exact .union (H.keeps h)
  | enumeration h => exact .enumeration (H.keeps h)
  | simple h => exact .simple (H.keeps h)
  | list h h' => exact .list (H.keeps h) h'
  | synonym h _ ih => exact .synonym (H.keeps h) ih

theorem Interpreted.plainUnions {P : Lex} {groups : Ident → GKind × List Part} {T₀ T : Types} {defs : List Def}
    (H : Interpreted groups T₀ defs T) (h : PlainUnions P T₀) : PlainUnions P T :=
  ⟨⟨h.noFacets.1, fun i u hl => h.noFacets.2 i u (H.old hl (by simp) (by simp) rfl)⟩,
   fun i e hl => h.enums i e (H.old hl (by simp) (by simp) rfl),
   fun i u hl => h.unions i u (H.old hl (by simp) (by simp) rfl),
   fun i u m hl hm => H.textual (h.members i u m (H.old hl (by simp) (by simp) rfl) hm)⟩

theorem Interpreted.restricts {groups : Ident → GKind × List Part} {T₀ T : Types} {defs : List Def}
    (H : Interpreted groups T₀ defs T) (wf : WellFormed T₀) {i b : Ident} (h : Restricts T i b) :
    (Restricts T₀ i b ∧ Defined T₀ i ∧ Defined T₀ b) ∨ ∃ copy as content, .restriction i b copy as content ∈ defs := by
  obtain ⟨v, h1, h2, h3⟩ := h
  have old : look T₀ i = some v → Restricts T₀ i b ∧ Defined T₀ i ∧ Defined T₀ b := by
    intro h4
    have h5 : Defined T₀ b := by
      refine wf.defined i b ⟨v, h4, ?_⟩
      cases v with
      | enumeration x => simp [points, show x.base = _ from h2, Base.ident]
      | union x => simp [points, show x.base = _ from h2, Base.ident]
      | complex x => simp [points, show x.base = _ from h2, Base.ident]
      | simple x => cases h2; simp [points]
      | _ => cases h2
    refine ⟨⟨v, h4, h2, h3.imp id ?_⟩, (look_iff.1 h4).imp fun _ h => h.1, h5⟩
    rintro ⟨w, h6, h7⟩
    exact ⟨w, (look_back H.simple H.ext h5 h6).1, h7⟩
  rcases H.shape h1 with h4 | ⟨r, rfl⟩ | ⟨c, rfl, h4⟩ | ⟨g, h4⟩
  · exact .inl (old h4)
  · cases h2
  · exact .inr (h4 b h2)
  · cases v <;> simp [groupParts, declaredBase] at h4 h2

/-- The restrictions of complex types say what they do: this is asked if such types are replaced by their base. -/
theorem Interpreted.narrows {P : Lex} {f : BaseFlags} {groups : Ident → GKind × List Part} {T₀ T : Types}
    {defs : List Def} (H : Interpreted groups T₀ defs T) (fresh : ∀ d ∈ defs, ¬ Defined T₀ d.ident) (wf : WellFormed T₀)
    (h : Narrows P f T₀)
    (hres : f.complex = true → Restricting P T₀ (Val P T) defs) : Narrows P f T := by
  intro i b hc hr hs
  -- a component is restricted by components only, and they restrict components
  have base_new : ∀ {k m copy as content}, .restriction k m copy as content ∈ defs → ¬ Defined T₀ m := by
    intro k m copy as content hd
    obtain ⟨-, t, t₀, -, hown, -⟩ := H.ok _ hd
    obtain ⟨d, hd', rfl, -⟩ := ownContent_complex hown
    exact fresh d hd'
  have chain_old : ∀ {c k}, Relation.TransGen (Restricts T) c k → Defined T₀ k →
      Relation.TransGen (Restricts T₀) c k ∧ Defined T₀ c := by
    intro c k hk
    induction hk with
    | single h1 =>
      intro hd
      rcases H.restricts wf h1 with ⟨h2, h3, -⟩ | ⟨_, _, _, h2⟩
      · exact ⟨.single h2, h3⟩
      · exact absurd hd (base_new h2)
    | tail _ h1 ih =>
      intro hd
      rcases H.restricts wf h1 with ⟨h2, h3, -⟩ | ⟨_, _, _, h2⟩
      · obtain ⟨h4, h5⟩ := ih h3
        exact ⟨.tail h4 h2, h5⟩
      · exact absurd hd (base_new h2)
  have chain_new : ∀ {c k}, Relation.TransGen (Restricts T) c k → ¬ Defined T₀ k →
      ∃ b copy as content, .restriction c b copy as content ∈ defs := by
    intro c k hk
    induction hk with
    | single h1 =>
      intro hd
      rcases H.restricts wf h1 with ⟨-, -, h2⟩ | ⟨_, _, _, h2⟩
      · exact absurd h2 hd
      · exact ⟨_, _, _, _, h2⟩
    | tail _ h1 ih =>
      intro hd
      rcases H.restricts wf h1 with ⟨-, -, h2⟩ | ⟨_, _, _, h2⟩
      · exact absurd h2 hd
      · exact ih (fresh _ h2)
  have complex_of : ∀ {c b copy as content v}, .restriction c b copy as content ∈ defs → look T c = some v →
      ∃ C, v = .complex C := by
    intro c b copy as content v hd hl
    obtain ⟨T1, st, ty, h1, -, h3⟩ := H.made _ hd
    obtain ⟨C, rfl, -⟩ := H.good _ hd as rfl ty h3
    obtain ⟨ty', h4, rfl⟩ := look_iff.1 hl
    have : Assoc.get T c = some (.new (.complex C)) := h3
    rw [this] at h4
    cases h4
    exact ⟨C, rfl⟩
  rcases H.restricts wf hr with ⟨h1, hdi, h2⟩ | ⟨copy, as, content, hd⟩
  · have hc' : Concerned f T₀ i := by
      obtain ⟨c, v, h3, h4, rfl | h5⟩ := hc
      · exact ⟨c, v, (look_back H.simple H.ext hdi h3).1, h4, .inl rfl⟩
      · obtain ⟨h6, h7⟩ := chain_old h5 hdi
        exact ⟨c, v, (look_back H.simple H.ext h7 h3).1, h4, .inr h6⟩
    obtain ⟨n1, n2, n3⟩ := h i b hc' h1 fun x hx => hs x (H.keeps hx)
    refine ⟨fun s hv => Valid.extends H.ext (n1 s (valid_back H.simple H.ext hv hdi)),
      fun x as kids hv => Valid.extends H.ext (n2 x as kids (valid_back H.simple H.ext hv hdi)),
      fun ns hv => absurd hdi (valid_back H.simple H.ext hv)⟩
  · have hflag : f.complex = true := by
      obtain ⟨c, v, h3, h4, h5⟩ := hc
      have : ∃ b copy as content, .restriction c b copy as content ∈ defs := by
        rcases h5 with rfl | h5
        · exact ⟨_, _, _, _, hd⟩
        · exact chain_new h5 (fresh _ hd)
      obtain ⟨b', copy', as', content', h6⟩ := this
      obtain ⟨C, rfl⟩ := complex_of h6 h3
      cases h4
      assumption
    obtain ⟨v, hl, -⟩ := hr
    obtain ⟨C, rfl⟩ := complex_of hd hl
    obtain ⟨o1, t, t₀, ho1, hown, hnar⟩ := H.ok _ hd
    obtain ⟨d, hd', rfl, decl', hdecl⟩ := ownContent_complex hown
    obtain ⟨r1, r2⟩ := hres hflag _ _ _ _ _ hd d hd' rfl decl' hdecl
    refine ⟨fun s hv => absurd hv (no_text hl (.inl ⟨C, rfl⟩) s), fun x as' kids hv => ?_, fun ns hv => ?_⟩
    · obtain ⟨h3, h4⟩ := (H.complex hd rfl o1 P x as' kids).1 hv
      have o2 : AttrTypes T₀ decl' := by
        have := H.ok d hd'
        cases d <;> cases hdecl <;> exact this.1
      exact (H.complex hd' hdecl o2 P x as' kids).2 ⟨r1 _ h3, r2 _ ((contentOf_restriction H.nodup hd kids).1 h4)⟩
    · obtain ⟨-, -, ty, -, -, g1⟩ := H.made _ hd
      obtain ⟨C1, rfl, good⟩ := H.good _ hd as rfl ty g1
      obtain ⟨-, -, ty', -, -, g2⟩ := H.made _ hd'
      obtain ⟨C2, rfl, good'⟩ := H.good _ hd' decl' hdecl ty' g2
      have h3 : contentLang P T C1 ns := by
        have hx := hv.step
        generalize hj : Judge.group i ns = j at hx
        have g1 : look T i = some (.complex C1) := look_of g1 rfl
        cases hx <;> cases hj
        all_goals simp_all [contentLang]
        exact ⟨_, by assumption, by assumption⟩
      have h4 := r2 _ ((contentOf_restriction H.nodup hd ns).1 ((good.lang P T (Extends.refl _) ns).1 h3))
      have h5 := (good'.lang P T (Extends.refl _) ns).2 h4
      obtain ⟨-, -, -, ds₀, -, n4, -⟩ := hnar
      obtain ⟨-, -, g, o3, -⟩ := good'.own t₀ ds₀ hown n4
      obtain ⟨ci, -, o4, -⟩ := o3.content
      simp only [contentLang, o4] at h5
      obtain ⟨k, h5, h6⟩ := h5
      exact .complexGroup g2 rfl o4 h5 h6

theorem Interpreted.noListBase {groups : Ident → GKind × List Part} {T₀ T : Types} {defs : List Def}
    (H : Interpreted groups T₀ defs T) (h : NoListBase T₀) : NoListBase T := by
  intro i x y h1 h2 h3
  have h4 := H.old h1 (by simp) (by simp) rfl
  obtain ⟨us, h5, h6⟩ := H.simple _ _ h4
  cases h5
  exact h i x y h4 h2 (look_back H.simple H.ext (h6 _ (by simp)) h3).1

end Verif.Interp

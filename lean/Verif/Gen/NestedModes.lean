import Verif.Gen.Written
import Verif.Gen.Modes

/-!
# Namespaces of documents with nested groups (C13, C62)

The modes of `NamespaceSerialization` (`Verif.Gen.Modes`) for tables with nested sequences and choices: under which
conditions on the schema the names that are written can be resolved, and documents are read back.
-/

namespace Verif.Gen.Tab

open Verif.Rt Verif.Occurs

variable {X : Type}

/-! ## Specification -/

/-- `e` is an element (not a group) of some type of the schema. -/
def Decls.Own (d : Decls X) (e : ElemDecl) : Prop :=
  ∃ T ∈ d.types, e ∈ T.body.elements ∧ ∀ j, e.ty ≠ .variant j

/-- `e` is an element in the content of the type, directly or in nested groups. -/
inductive Decls.InContent (d : Decls X) : TypeDecl X → ElemDecl → Prop
  | own {T e} (he : e ∈ T.body.elements) (hne : ∀ j, e.ty ≠ .variant j) : InContent d T e
  | group {T g j U e} (hg : g ∈ T.body.elements) (hj : g.ty = .variant j) (hU : d.types[j]? = some U)
      (he : InContent d U e) : InContent d T e

/-- `Decls.DynamicOk` with nested groups. -/
structure Decls.NestedDynamicOk (d : Decls X) (dflt : Option Str) (binds : Str → Str) : Prop where
  uses : ∀ T ∈ d.types, ∀ b, T.Uses b → b.1 ≠ [] → binds b.1 = b.2 ∧ b.2 ≠ []
  tags : ∀ e, d.Own e → ∀ (j : Nat) U, e.ty = .struct j → d.types[j]? = some U →
    Agrees binds (U.tag.xmlns (e.name.element dflt).text ++ U.tag.rootXmlns (e.name.element dflt).text)
  near : ∀ T ∈ d.types, ∀ e, d.InContent T e → e.Prefixed dflt → SameModule T.tag e.name ∨
    ∃ (j : Nat) (U : TypeDecl X), e.ty = .struct j ∧ d.types[j]? = some U ∧ SameModule U.tag e.name

/-- The types of elements that can occur in a value of the type `k`. -/
inductive Decls.NestedReaches (d : Decls X) (k : Nat) : Nat → Prop
  | refl : NestedReaches d k k
  | step {i j : Nat} {T : TypeDecl X} {e : ElemDecl} (h : NestedReaches d k i) (hT : d.types[i]? = some T)
      (he : d.InContent T e) (hty : e.ty = .struct j) : NestedReaches d k j

/-- `Decls.GlobalOk` with nested groups. -/
structure Decls.NestedGlobalOk (d : Decls X) (dflt : Option Str) (binds : Str → Str)
    (found : Nat → List (Str × Str)) (k : Nat) : Prop where
  agree : ∀ j, Agrees binds (found j)
  tags : ∀ e, d.Own e → ∀ (j : Nat) U, e.ty = .struct j → d.types[j]? = some U →
    Agrees binds (U.tag.xmlns (e.name.element dflt).text ++ U.tag.rootXmlns (e.name.element dflt).text)
  elems : ∀ (i : Nat) T e, d.NestedReaches k i → d.types[i]? = some T → d.InContent T e →
    e.Prefixed dflt → ∀ b, e.name.Uses b → b ∈ found k
  attrs : ∀ (i : Nat) T a, d.NestedReaches k i → d.types[i]? = some T → a ∈ T.attrs →
    ∀ b, a.name.Uses b → b ∈ found k

/-- `Decls.LocalOk` with nested groups. -/
structure Decls.NestedLocalOk (d : Decls X) (dflt : Option Str) (binds : Str → Str) : Prop where
  types : ∀ e, d.Own e → ∀ (j : Nat) U, e.ty = .struct j → d.types[j]? = some U →
    U.LocalOk dflt binds (e.name.element dflt).pfx
  elems : ∀ e, d.Own e → e.Prefixed dflt → e.name.ns ≠ none →
    ∃ (j : Nat) (U : TypeDecl X), e.ty = .struct j ∧ d.types[j]? = some U ∧ U.DeclaresTag dflt ∧
      U.tag.ns = e.name.ns

/-! ## Parts of values -/

/-- The type of a part of a value is declared. -/
theorem part_decl {d : Decls X} {m : Mode} {dflt : Option Str} {ty : TyRef} {w : Val X} {f : FieldSpec} {x : Val X}
    (hp : Part (d.schema m dflt) ty w f x) :
    ∃ (k : Nat) (T : TypeDecl X) (e : ElemDecl), (ty = .struct k ∨ ty = .variant k) ∧ d.types[k]? = some T ∧
      e ∈ T.body.elements ∧ f = e.spec dflt := by
  have main : ∀ {k : Nat} {D : StructSpec X}, (d.schema m dflt).structs[k]? = some D → f ∈ D.body.elements →
      ∃ (T : TypeDecl X) (e : ElemDecl), d.types[k]? = some T ∧ e ∈ T.body.elements ∧ f = e.spec dflt := by
    intro k D hD hf
    obtain ⟨T, hT, rfl⟩ := schema_get_some hD
    change f ∈ (T.body.spec dflt).elements at hf
    rw [elements_spec] at hf
    obtain ⟨e, he, rfl⟩ := List.mem_map.mp hf
    exact ⟨T, e, hT, he, rfl⟩
  cases hp with
  | field hD hb hf _ =>
    obtain ⟨T, e, h⟩ := main hD (by rcases hb with hb | hb <;> rw [hb] <;> exact List.mem_of_getElem? hf)
    exact ⟨_, T, e, Or.inl rfl, h⟩
  | group hD hb hf _ =>
    obtain ⟨T, e, h⟩ := main hD (by rw [hb]; exact List.mem_of_getElem? hf)
    exact ⟨_, T, e, Or.inr rfl, h⟩
  | choice hD hb _ hf _ =>
    obtain ⟨T, e, h⟩ := main hD (by rw [hb]; exact List.mem_of_getElem? hf)
    exact ⟨_, T, e, Or.inl rfl, h⟩
  | variant hD hb hf _ =>
    obtain ⟨T, e, h⟩ := main hD (by rw [hb]; exact List.mem_of_getElem? hf)
    exact ⟨_, T, e, Or.inr rfl, h⟩
  | enum hD hb hf _ =>
    obtain ⟨T, e, h⟩ := main hD (by rw [hb]; exact List.mem_of_getElem? hf)
    exact ⟨_, T, e, Or.inl rfl, h⟩

theorem seq_body {dflt : Option Str} {b : BodyDecl} {es : List FieldSpec} (h : b.spec dflt = .seq es) :
    ∃ fs, b = .seq fs ∧ es = fs.map (·.spec dflt) := by
  cases b <;> simp only [BodyDecl.spec] at h <;> cases h
  exact ⟨_, rfl, rfl⟩

theorem all_body {dflt : Option Str} {b : BodyDecl} {es : List FieldSpec} (h : b.spec dflt = .all es) :
    ∃ fs, b = .all fs ∧ es = fs.map (·.spec dflt) := by
  cases b <;> simp only [BodyDecl.spec] at h <;> cases h
  exact ⟨_, rfl, rfl⟩

theorem choice_body {dflt : Option Str} {b : BodyDecl} {alts : List FieldSpec} {mn : Nat} {mx : MaxOccurs}
    (h : b.spec dflt = .choice alts mn mx) : ∃ fs, b = .choice fs mn mx ∧ alts = fs.map (·.spec dflt) := by
  cases b <;> simp only [BodyDecl.spec] at h <;> cases h
  exact ⟨_, rfl, rfl⟩

theorem enum_body {dflt : Option Str} {b : BodyDecl} {alts : List FieldSpec} (h : b.spec dflt = .enum alts) :
    ∃ fs, b = .enum fs ∧ alts = fs.map (·.spec dflt) := by
  cases b <;> simp only [BodyDecl.spec] at h <;> cases h
  exact ⟨_, rfl, rfl⟩

theorem spec_ty {dflt : Option Str} {fs : List ElemDecl} {i : Nat} {f : FieldSpec}
    (h : (fs.map (·.spec dflt))[i]? = some f) : (fs.map (·.ty))[i]? = some f.ty := by
  rw [List.getElem?_map] at h ⊢
  cases he : fs[i]? with
  | none => rw [he] at h; cases h
  | some e => rw [he] at h; simp only [Option.map_some, Option.some.injEq] at h ⊢; subst h; rfl

/-- The namespaces of a part are among those of the whole. -/
theorem collect_part {d : Decls X} {m : Mode} {dflt : Option Str} {ty : TyRef} {w : Val X} {f : FieldSpec} {x : Val X}
    (hp : Part (d.schema m dflt) ty w f x) (b : Str × Str) (hb : b ∈ collect d f.ty x) : b ∈ collect d ty w := by
  have alt : ∀ {k i : Nat} {T : TypeDecl X} {fs : List ElemDecl}, d.types[k]? = some T → T.body.elements = fs →
      (fs.map (·.spec dflt))[i]? = some f → d.altTy k i = some f.ty := by
    intro k i T fs hT hfs hf
    have := spec_ty hf
    rw [List.getElem?_map] at this
    rw [Decls.altTy, hT]
    show (T.body.elements[i]?).map _ = _
    rw [hfs]
    exact this
  cases hp with
  | @field k D es as fs i _ _ hD hbody hf hx =>
    obtain ⟨T, hT, rfl⟩ := schema_get_some hD
    obtain ⟨vs, hvs, hxv⟩ := getD_of_mem hx
    simp only [collect, List.mem_append, mem_collectFields]
    refine Or.inr ⟨i, f.ty, vs, ?_, hvs, x, hxv, hb⟩
    rcases hbody with h | h
    · obtain ⟨fs', h1, rfl⟩ := seq_body h
      simpa [Decls.fieldTys, hT, h1, BodyDecl.fieldTys] using spec_ty hf
    · obtain ⟨fs', h1, rfl⟩ := all_body h
      simpa [Decls.fieldTys, hT, h1, BodyDecl.fieldTys] using spec_ty hf
  | @group k D es as fs i _ _ hD hbody hf hx =>
    obtain ⟨T, hT, rfl⟩ := schema_get_some hD
    obtain ⟨vs, hvs, hxv⟩ := getD_of_mem hx
    simp only [collect, mem_collectFields]
    refine ⟨i, f.ty, vs, ?_, hvs, x, hxv, hb⟩
    obtain ⟨fs', h1, rfl⟩ := seq_body hbody
    simpa [Decls.groupTys, hT, h1, BodyDecl.groupTys] using spec_ty hf
  | @choice k D alts mn mx as vs i xs _ _ hD hbody hv hf hx =>
    obtain ⟨T, hT, rfl⟩ := schema_get_some hD
    obtain ⟨fs', h1, rfl⟩ := choice_body hbody
    simp only [collect, List.mem_append, mem_collectFields]
    refine Or.inr ⟨0, .variant k, vs, by simp [Decls.fieldTys, hT, h1, BodyDecl.fieldTys], rfl, _, hv, ?_⟩
    simp only [collect, alt hT (by rw [h1]; rfl) hf, mem_collectItems]
    exact ⟨x, hx, hb⟩
  | @variant k D alts mn mx i xs _ _ hD hbody hf hx =>
    obtain ⟨T, hT, rfl⟩ := schema_get_some hD
    obtain ⟨fs', h1, rfl⟩ := choice_body hbody
    simp only [collect, alt hT (by rw [h1]; rfl) hf, mem_collectItems]
    exact ⟨x, hx, hb⟩
  | @enum k D alts i _ vs _ hD hbody hf hx =>
    obtain ⟨T, hT, rfl⟩ := schema_get_some hD
    obtain ⟨fs', h1, rfl⟩ := enum_body hbody
    simp only [collect, List.mem_append, alt hT (by rw [h1]; rfl) hf, mem_collectItems]
    exact Or.inr ⟨x, hx, hb⟩

/-- What elements declare agrees with `binds` if this is so for the types of the elements. -/
theorem nestedGood_of {d : Decls X} {m : Mode} {dflt : Option Str} {δ : Nat} {binds : Str → Str}
    {need : List (Str × Str)} (nested : (d.schema m dflt).Nested δ) (root : Agrees binds need)
    (h : ∀ e, d.Own e → ∀ (j : Nat) U, e.ty = .struct j → d.types[j]? = some U → ∀ x root,
      Agrees binds ((d.spec m dflt j U).declares x (e.spec dflt).name.text root)) :
    (d.schema m dflt).NestedGood δ binds need where
  toNested := nested
  root := root
  decls := by
    intro D hD f hf x root
    obtain ⟨i, T, e, hT, he, rfl⟩ := mem_elements hD hf
    cases hty : (e.spec dflt).ty with
    | simple j => exact agrees_nil
    | variant j => exact agrees_nil
    | struct j =>
      rw [tyDeclares_struct]
      cases hU : d.types[j]? with
      | none => exact agrees_nil
      | some U =>
        exact h e ⟨T, List.mem_of_getElem? hT, he, by intro j' h'; rw [show (e.spec dflt).ty = e.ty from rfl] at hty
                                                      rw [hty] at h'; cases h'⟩ j U hty hU x root

/-- To see that all names can be resolved: go through the elements of the value. `C ty T` says that `T` is the type of the
element around something of type `ty`, and what is known of it. -/
theorem allNamed_of {d : Decls X} {m : Mode} {dflt : Option Str} {need : List (Str × Str)}
    (C : TyRef → Val X → TypeDecl X → Prop)
    (named : ∀ ty w T f x e, C ty w T → Part (d.schema m dflt) ty w f x → f = e.spec dflt → d.InContent T e →
      ElementNamed (d.schema m dflt) need f x)
    (down : ∀ ty w T f x e j U, C ty w T → Part (d.schema m dflt) ty w f x → f = e.spec dflt → d.InContent T e →
      f.ty = .struct j → d.types[j]? = some U → C (.struct j) x U)
    (into : ∀ ty w T f x j, C ty w T → Part (d.schema m dflt) ty w f x → f.ty = .variant j → C (.variant j) x T)
    {ty : TyRef} {v : Val X} {T : TypeDecl X} (hc : C ty v T)
    (hin : ∀ k U, (ty = .struct k ∨ ty = .variant k) → d.types[k]? = some U → ∀ e, d.InContent U e → d.InContent T e) :
    AllNamed (d.schema m dflt) need ty v := by
  intro f x hi hne
  induction hi generalizing T with
  | @here ty w f x hp =>
    obtain ⟨k, U, e, hty, hU, he, rfl⟩ := part_decl hp
    exact named _ _ T _ _ e hc hp rfl (hin k U hty hU e (.own he hne))
  | @there ty w f x g y hp hi ih =>
    obtain ⟨k, U, e, hty, hU, he, rfl⟩ := part_decl hp
    cases hf : (e.spec dflt).ty with
    | simple j =>
      exfalso
      rw [hf] at hi
      cases hi with
      | here hp' => obtain ⟨_, _, _, h, _⟩ := part_decl hp'; rcases h with h | h <;> cases h
      | there hp' _ => obtain ⟨_, _, _, h, _⟩ := part_decl hp'; rcases h with h | h <;> cases h
    | struct j =>
      have hne' : ∀ j, e.ty ≠ .variant j := by
        intro j' h'
        rw [show (e.spec dflt).ty = e.ty from rfl, h'] at hf
        cases hf
      cases hUj : d.types[j]? with
      | none =>
        exfalso
        rw [hf] at hi
        have : ∀ {g y}, Part (d.schema m dflt) (.struct j) x g y → False := by
          intro g y hp'
          obtain ⟨_, _, _, h, h1, _⟩ := part_decl hp'
          rcases h with h | h <;> cases h
          rw [hUj] at h1
          cases h1
        cases hi with
        | here hp' => exact this hp'
        | there hp' _ => exact this hp'
      | some Uj =>
        have := down _ _ T _ _ e j Uj hc hp rfl (hin k U hty hU e (.own he hne')) hf hUj
        rw [hf] at ih
        refine ih (T := Uj) this ?_ hne
        intro k' U' h1 h2 e' h3
        rcases h1 with h1 | h1 <;> cases h1
        rw [hUj] at h2
        cases h2
        exact h3
    | variant j =>
      have := into _ _ T _ _ j hc hp hf
      rw [hf] at ih
      refine ih (T := T) this ?_ hne
      intro k' U' h1 h2 e' h3
      rcases h1 with h1 | h1 <;> cases h1
      exact hin k U hty hU e' (.group he hf h2 h3)

/-! ## The mode `Dynamic` -/

/-- **C62** with nested groups: every name that is written for a value, at any depth, can be resolved with the namespaces
that are collected for the value. -/
theorem C62_nested_names_declared_partial (d : Decls X) (dflt : Option Str) (binds : Str → Str)
    (ok : d.NestedDynamicOk dflt binds) (k : Nat) (T : TypeDecl X) (hT : d.types[k]? = some T) (v : Val X) :
    AllNamed (d.schema .dynamic dflt) (collect d (.struct k) v) (.struct k) v := by
  refine allNamed_of (T := T) (fun ty w T => T ∈ d.types ∧ (∀ b ∈ collect d ty w, b ∈ collect d (.struct k) v) ∧
    ∀ b, T.Uses b → b ∈ collect d (.struct k) v) ?_ ?_ ?_ ?_ ?_
  · intro ty w T f x e ⟨h1, h2, h3⟩ hp hf he root
    have hsub : ∀ b ∈ collect d f.ty x, b ∈ collect d (.struct k) v := fun b hb => h2 b (collect_part hp b hb)
    subst hf
    refine ⟨?_, DynamicOk.attrs _ _ _ _ hsub⟩
    by_cases hpf : e.Prefixed dflt
    · refine Or.inr fun ns hns => List.mem_append_left _ ?_
      rcases ok.near T h1 e he hpf with h | ⟨j, U, hty, hU, h⟩
      · exact h3 _ (Or.inl (uses_of_same h hpf ns hns))
      · apply hsub
        rw [show (e.spec dflt).ty = _ from hty]
        exact collected_mem_collect d j x _ ((mem_decls_collected d j _).mpr ⟨U, hU, Or.inl (uses_of_same h hpf ns hns)⟩)
    · exact Or.inl (Classical.not_not.mp hpf)
  · intro ty w T f x e j U ⟨h1, h2, h3⟩ hp hf he hty hU
    have hsub : ∀ b ∈ collect d (.struct j) x, b ∈ collect d (.struct k) v :=
      fun b hb => h2 b (collect_part hp b (by rw [hty]; exact hb))
    exact ⟨List.mem_of_getElem? hU, hsub, fun b hb =>
      hsub b (collected_mem_collect d j x b ((mem_decls_collected d j b).mpr ⟨U, hU, hb⟩))⟩
  · intro ty w T f x j ⟨h1, h2, h3⟩ hp hty
    exact ⟨h1, fun b hb => h2 b (collect_part hp b (by rw [hty]; exact hb)), h3⟩
  · exact ⟨List.mem_of_getElem? hT, fun _ h => h, fun b hb =>
      collected_mem_collect d k v b ((mem_decls_collected d k b).mpr ⟨T, hT, hb⟩)⟩
  · intro k' U h1 h2 e he
    rcases h1 with h1 | h1 <;> cases h1
    rw [hT] at h2
    cases h2
    exact he

theorem NestedDynamicOk.agrees {d : Decls X} {dflt : Option Str} {binds : Str → Str}
    (ok : d.NestedDynamicOk dflt binds) (ty : TyRef) (v : Val X) : Agrees binds (collect d ty v) := by
  intro b hb
  obtain ⟨T, hT, hu⟩ := collect_uses d b _ ty v (Nat.lt_succ_self _) hb
  exact ok.uses T hT b hu

theorem NestedDynamicOk.decl {d : Decls X} {dflt : Option Str} {binds : Str → Str} (ok : d.NestedDynamicOk dflt binds)
    (j : Nat) (U : TypeDecl X) (x : Val X) (name : Str) (root : Bool)
    (h : Agrees binds (U.tag.xmlns name ++ U.tag.rootXmlns name)) :
    Agrees binds ((d.spec .dynamic dflt j U).declares x name root) := by
  rw [declares_dynamic]
  refine agrees_append (agrees_left h) ?_
  cases root with
  | false => exact agrees_nil
  | true => exact agrees_append (fun b hb => h b (List.mem_append_right _ hb)) (NestedDynamicOk.agrees ok _ x)

/-- **C13** for `NamespaceSerialization::Dynamic`, with nested groups. -/
theorem C13_nested_dynamic_round_trip_partial (d : Decls X) (dflt : Option Str) (binds : Str → Str) (δ : Nat)
    (nested : (d.schema .dynamic dflt).Nested δ) (ok : d.NestedDynamicOk dflt binds) (k : Nat) (T : TypeDecl X)
    (hT : d.types[k]? = some T) (v : Val X) (hv : Holds (d.schema .dynamic dflt) (.struct k) v) (name : Str)
    (hname : Agrees binds (T.tag.xmlns name ++ T.tag.rootXmlns name)) (n : Nat) (hn : depth v + δ < n)
    (rest : List Event) :
    ∃ out evs, (ser (d.schema .dynamic dflt) n).Emits (.struct k (.init v name true)) {} out {} ∧
      reread out = some evs ∧ Doc (d.schema .dynamic dflt) (.struct k) {} evs v ∧
      Drv.run (genEnv posTrack) (de (d.schema .dynamic dflt) n (.struct k)).toDeser { helper := {} }
        (evs ++ rest) = .done v rest :=
  C13_nested_round_trip_partial _ δ binds (collect d (.struct k) v)
    (nestedGood_of nested (NestedDynamicOk.agrees ok _ v) fun e he j U hty hU x root =>
      NestedDynamicOk.decl ok j U x _ root (ok.tags e he j U hty hU)) k _
    (schema_text d .dynamic dflt hT) v hv (C62_nested_names_declared_partial d dflt binds ok k T hT v) name
    (by
      intro b hb
      rw [declares_dynamic]
      exact List.mem_append_right _ (List.mem_append_right _ hb))
    (NestedDynamicOk.decl ok k T v name true hname) (DynamicOk.attrs _ _ _ _ fun _ h => h) n hn rest

/-! ## The mode `Global` -/

theorem NestedGlobalOk.attrsNamed {d : Decls X} {dflt : Option Str} {binds : Str → Str}
    {found : Nat → List (Str × Str)} {k : Nat} (ok : d.NestedGlobalOk dflt binds found k) (ty : TyRef)
    (hr : ∀ j, ty = .struct j → d.NestedReaches k j) (w : Val X) (name : Str) (root : Bool) :
    AttrsNamed (d.schema (.global found) dflt) (found k) ty w name root := by
  intro j D hty hD a ha
  obtain ⟨U, hU, rfl⟩ := schema_get_some hD
  obtain ⟨a', ha', rfl⟩ := List.mem_map.mp ha
  by_cases hp : a'.name.attribute.pfx = []
  · exact Or.inl hp
  · exact Or.inr fun ns hns => List.mem_append_left _
      (ok.attrs j U a' (hr j hty) hU ha' _ (uses_of_attribute hp ns hns))

/-- **C13** for `NamespaceSerialization::Global`, with nested groups. -/
theorem C13_nested_global_round_trip_partial (d : Decls X) (dflt : Option Str) (binds : Str → Str)
    (found : Nat → List (Str × Str)) (δ : Nat) (nested : (d.schema (.global found) dflt).Nested δ) (k : Nat)
    (ok : d.NestedGlobalOk dflt binds found k) (T : TypeDecl X)
    (hT : d.types[k]? = some T) (v : Val X) (hv : Holds (d.schema (.global found) dflt) (.struct k) v)
    (name : Str) (hname : Agrees binds (T.tag.xmlns name ++ T.tag.rootXmlns name)) (n : Nat)
    (hn : depth v + δ < n) (rest : List Event) :
    ∃ out evs, (ser (d.schema (.global found) dflt) n).Emits (.struct k (.init v name true)) {} out {} ∧
      reread out = some evs ∧ Doc (d.schema (.global found) dflt) (.struct k) {} evs v ∧
      Drv.run (genEnv posTrack) (de (d.schema (.global found) dflt) n (.struct k)).toDeser { helper := {} }
        (evs ++ rest) = .done v rest := by
  refine C13_nested_round_trip_partial _ δ binds (found k)
    (nestedGood_of nested (ok.agree k) fun e he j U hty hU x root =>
      GlobalOk.decl ok.agree j U x _ root (ok.tags e he j U hty hU)) k _
    (schema_text d (.global found) dflt hT) v hv ?_ name ?_
    (GlobalOk.decl ok.agree k T v name true hname) ?_ n hn rest
  · refine allNamed_of (T := T) (fun _ _ T => ∃ i, d.NestedReaches k i ∧ d.types[i]? = some T) ?_ ?_ ?_ ?_ ?_
    · intro ty w T f x e ⟨i, h1, h2⟩ hp hf he root
      subst hf
      refine ⟨?_, NestedGlobalOk.attrsNamed ok _ (fun j hj => .step h1 h2 he hj) _ _ _⟩
      by_cases hp : e.Prefixed dflt
      · exact Or.inr fun ns hns => List.mem_append_left _
          (ok.elems i T e h1 h2 he hp _ (uses_of_prefixed hp ns hns))
      · exact Or.inl (Classical.not_not.mp hp)
    · intro ty w T f x e j U ⟨i, h1, h2⟩ hp hf he hty hU
      subst hf
      exact ⟨j, .step h1 h2 he hty, hU⟩
    · exact fun ty w T f x j h _ _ => h
    · exact ⟨k, .refl, hT⟩
    · intro k' U h1 h2 e he
      rcases h1 with h1 | h1 <;> cases h1
      rw [hT] at h2
      cases h2
      exact he
  · intro b hb
    rw [declares_global]
    exact List.mem_append_right _ (List.mem_append_right _ hb)
  · exact NestedGlobalOk.attrsNamed ok _ (by intro j hj; cases hj; exact .refl) _ _ _

/-! ## The mode `Local` -/

theorem inContent_own {d : Decls X} {T : TypeDecl X} {e : ElemDecl} (hT : T ∈ d.types) (h : d.InContent T e) : d.Own e := by
  induction h with
  | own he hne => exact ⟨_, hT, he, hne⟩
  | group _ _ hU _ ih => exact ih (List.mem_of_getElem? hU)

/-- Names can be resolved if this is so for every element. -/
theorem allNamed_each {d : Decls X} {m : Mode} {dflt : Option Str} {need : List (Str × Str)} {k : Nat} {T : TypeDecl X}
    (hT : d.types[k]? = some T) (v : Val X)
    (h : ∀ e, d.Own e → ∀ x, ElementNamed (d.schema m dflt) need (e.spec dflt) x) :
    AllNamed (d.schema m dflt) need (.struct k) v := by
  refine allNamed_of (T := T) (fun _ _ T => T ∈ d.types) ?_ ?_ ?_ (List.mem_of_getElem? hT) ?_
  · intro ty w T f x e hT _ hf he
    subst hf
    exact h e (inContent_own hT he) x
  · exact fun ty w T f x e j U _ _ _ _ _ hU => List.mem_of_getElem? hU
  · exact fun ty w T f x j h _ _ => h
  · intro k' U h1 h2 e he
    rcases h1 with h1 | h1 <;> cases h1
    rw [hT] at h2
    cases h2
    exact he

/-- **C13** for `NamespaceSerialization::Local`, with nested groups. -/
theorem C13_nested_local_round_trip_partial (d : Decls X) (dflt : Option Str) (binds : Str → Str) (δ : Nat)
    (nested : (d.schema .local_ dflt).Nested δ) (ok : d.NestedLocalOk dflt binds) (k : Nat) (T : TypeDecl X)
    (hT : d.types[k]? = some T) (v : Val X) (hv : Holds (d.schema .local_ dflt) (.struct k) v) (name : Str)
    (hname : T.LocalOk dflt binds (tagPrefix name)) (n : Nat) (hn : depth v + δ < n) (rest : List Event) :
    ∃ out evs, (ser (d.schema .local_ dflt) n).Emits (.struct k (.init v name true)) {} out {} ∧
      reread out = some evs ∧ Doc (d.schema .local_ dflt) (.struct k) {} evs v ∧
      Drv.run (genEnv posTrack) (de (d.schema .local_ dflt) n (.struct k)).toDeser { helper := {} }
        (evs ++ rest) = .done v rest := by
  have plain : ∀ e, d.Own e → Plain (e.spec dflt).name := by
    rintro e ⟨T, hT, he, -⟩
    obtain ⟨i, hi⟩ := List.getElem?_of_mem hT
    refine nested.plain _ (List.mem_of_getElem? (schema_text d .local_ dflt hi)) _ ?_
    change _ ∈ (T.body.spec dflt).elements
    rw [elements_spec]
    exact List.mem_map.mpr ⟨e, he, rfl⟩
  have tyOk : ∀ e, d.Own e → ∀ (j : Nat) U,
      e.ty = .struct j → d.types[j]? = some U → U.LocalOk dflt binds (tagPrefix (e.spec dflt).name.text) := by
    intro e he j U hty hU
    rw [tagPrefix_text _ (plain e he)]
    exact ok.types e he j U hty hU
  refine C13_nested_round_trip_partial _ δ binds [] (nestedGood_of nested agrees_nil ?_) k _
    (schema_text d .local_ dflt hT) v hv (allNamed_each hT v ?_) name (by intro b hb; cases hb)
    (by rw [declares_local]; exact LocalOk.agrees hname) ?_ n hn rest
  · intro e he j U hty hU x root
    rw [declares_local]
    exact LocalOk.agrees (tyOk e he j U hty hU)
  · intro e he x root
    refine ⟨?_, ?_⟩
    · by_cases hp : e.Prefixed dflt
      · refine Or.inr fun ns hns => List.mem_append_right _ ?_
        obtain ⟨j, U, hty, hU, h1, h2⟩ := ok.elems e he hp
          (by intro h; rw [show e.name.ns = some ns from hns] at h; cases h)
        rw [show (e.spec dflt).ty = _ from hty, tyDeclares_struct, hU]
        show _ ∈ (d.spec .local_ dflt j U).declares x _ root
        rw [declares_local]
        exact List.mem_append_left _ ((mem_localTag U dflt _ _).mpr
          ⟨h1, h2.trans hns, (tagPrefix_text _ (plain e he)).symm⟩)
      · exact Or.inl (Classical.not_not.mp hp)
    · intro j D hty hD a ha
      obtain ⟨U, hU, rfl⟩ := schema_get_some hD
      obtain ⟨a', ha', rfl⟩ := List.mem_map.mp ha
      rw [declares_local]
      exact LocalOk.attrResolvable (tyOk e he j U hty hU) a' ha'
  · intro j D hty hD a ha
    cases hty
    obtain ⟨U, hU, rfl⟩ := schema_get_some hD
    rw [hT] at hU
    cases hU
    obtain ⟨a', ha', rfl⟩ := List.mem_map.mp ha
    rw [declares_local]
    exact LocalOk.attrResolvable hname a' ha'

/-! ## The mode `None` -/

/-- **C13** for `NamespaceSerialization::None`, with nested groups: names with a prefix belong to no namespace. -/
theorem C13_nested_none_round_trip_partial (d : Decls X) (dflt : Option Str) (δ : Nat)
    (nested : (d.schema .none dflt).Nested δ)
    (elems : ∀ e, d.Own e → e.Prefixed dflt → e.name.ns = none)
    (attrs : ∀ T ∈ d.types, ∀ a ∈ T.attrs, a.name.attribute.pfx ≠ [] → a.name.ns = none)
    (k : Nat) (T : TypeDecl X)
    (hT : d.types[k]? = some T) (v : Val X) (hv : Holds (d.schema .none dflt) (.struct k) v) (name : Str)
    (n : Nat) (hn : depth v + δ < n) (rest : List Event) :
    ∃ out evs, (ser (d.schema .none dflt) n).Emits (.struct k (.init v name true)) {} out {} ∧
      reread out = some evs ∧ Doc (d.schema .none dflt) (.struct k) {} evs v ∧
      Drv.run (genEnv posTrack) (de (d.schema .none dflt) n (.struct k)).toDeser { helper := {} }
        (evs ++ rest) = .done v rest := by
  have hattrs : ∀ ty w name root, AttrsNamed (d.schema .none dflt) [] ty w name root := by
    intro ty w name root j D hty hD a ha
    obtain ⟨U, hU, rfl⟩ := schema_get_some hD
    obtain ⟨a', ha', rfl⟩ := List.mem_map.mp ha
    by_cases hp : a'.name.attribute.pfx = []
    · exact Or.inl hp
    · refine Or.inr fun ns hns => ?_
      have := attrs U (List.mem_of_getElem? hU) a' ha' hp
      rw [show a'.name.ns = some ns from hns] at this
      cases this
  refine C13_nested_round_trip_partial _ δ (fun _ => []) [] (nestedGood_of nested agrees_nil ?_) k _
    (schema_text d .none dflt hT) v hv (allNamed_each hT v ?_) name (by intro b hb; cases hb)
    (by rw [declares_none]; exact agrees_nil) (hattrs _ _ _ _) n hn rest
  · intro e he j U hty hU x root
    rw [declares_none]
    exact agrees_nil
  · intro e he x root
    refine ⟨?_, hattrs _ _ _ _⟩
    by_cases hp : e.Prefixed dflt
    · refine Or.inr fun ns hns => ?_
      have := elems e he hp
      rw [show e.name.ns = some ns from hns] at this
      cases this
    · exact Or.inl (Classical.not_not.mp hp)

end Verif.Gen.Tab

import Verif.Generate.DocumentsExamples
/-!
# Choices that can be matched with nothing (C71)

What the generator does about required choices with an optional alternative: which of them become an `Option`, and that
the others are read too strictly.
-/
namespace Verif.Generate

open Verif.Meta
open Verif.Occurs (MaxOccurs Container fromOccurs Allows)
open Verif.Rt hiding Node
open Verif.Gen
open Verif.Gen.Tab

/-! ## A field is an `Option` only if it can be missing -/

/-- The groups that groups refer to are defined, and `minOccurs` is at most `maxOccurs`. -/
def GroupsOk (T : Types) : Prop :=
  ∀ i ty g, Assoc.get T i = some ty → (ty.variant = .choice g ∨ ty.variant = .sequence g ∨ ty.variant = .all g) →
    ∀ e ∈ g.elements, (∀ b, e.max = .bounded b → e.min ≤ b) ∧
      ∀ j, e.variant = .type_ j .group → (Assoc.get T j).isSome = true

theorem anyM_true {α : Type} {f : α → Option Bool} {l : List α} (h : anyM f l = some true) :
    ∃ a ∈ l, f a = some true := by
  induction l with
  | nil => cases h
  | cons b l ih =>
    unfold anyM at h
    cases hb : f b with
    | none => rw [hb] at h; cases h
    | some r =>
      rw [hb] at h
      cases r with
      | true => exact ⟨b, by simp, hb⟩
      | false =>
        obtain ⟨a, h1, h2⟩ := ih h
        exact ⟨a, by simp [h1], h2⟩

theorem allM_true {α : Type} {f : α → Option Bool} {l : List α} (h : allM f l = some true) {a : α} (ha : a ∈ l) :
    f a = some true := by
  induction l with
  | nil => cases ha
  | cons b l ih =>
    unfold allM at h
    cases hb : f b with
    | none => rw [hb] at h; cases h
    | some r =>
      rw [hb] at h
      cases r with
      | false => cases h
      | true =>
        rcases List.mem_cons.1 ha with rfl | ha
        · exact hb
        · exact ih h ha

theorem times_nothing {P : Lex} {T : Types} {e : Element} (h : Valid P T (.particle e [])) (k : Nat) :
    Valid P T (.times e k []) := by
  induction k with
  | zero => exact .zero
  | succ k ih => exact .succ h ih

theorem inOrder_nothing {P : Lex} {T : Types} {es : List Element}
    (h : ∀ e ∈ es, ∃ k, Allows e.min e.max k ∧ Valid P T (.times e k [])) : Valid P T (.inOrder es []) := by
  induction es with
  | nil => exact .nil
  | cons e es ih =>
    obtain ⟨k, h1, h2⟩ := h e (by simp)
    exact .cons h1 h2 (ih fun e' he' => h e' (by simp [he']))

theorem element_nothing {P : Lex} {T : Types} {check : MetaType → Option Bool} {e : Element}
    (hc : ∀ j ty, Assoc.get T j = some ty → check ty = some true → Valid P T (.group j []))
    (hb : ∀ b, e.max = .bounded b → e.min ≤ b) (hd : ∀ j, e.variant = .type_ j .group → (Assoc.get T j).isSome = true)
    (h : checkElement T check e = some true) : ∃ k, Allows e.min e.max k ∧ Valid P T (.times e k []) := by
  by_cases h0 : e.min = 0
  · exact ⟨0, ⟨by omega, fun b _ => Nat.zero_le b⟩, .zero⟩
  · refine ⟨e.min, ⟨Nat.le_refl _, hb⟩, times_nothing ?_ _⟩
    unfold checkElement at h
    cases hv : e.variant with
    | type_ j mode =>
      cases mode with
      | element => simp [hv, h0] at h
      | group =>
        obtain ⟨ty, hg⟩ := Option.isSome_iff_exists.1 (hd j hv)
        simp only [hv, if_neg h0, hg] at h
        exact .nested hv (hc j ty hg h)
    | _ => simp [hv, h0] at h

theorem checkType_nothing {P : Lex} {T : Types} (hT : GroupsOk T) (fuel : Nat) :
    ∀ i ty, Assoc.get T i = some ty → checkType T fuel ty = some true → Valid P T (.group i []) := by
  induction fuel with
  | zero => intro i ty _ h; cases h
  | succ n ih =>
    intro i ty hg h
    unfold checkType at h
    cases hv : ty.variant with
    | choice g =>
      simp only [hv] at h
      obtain ⟨e, he, hc⟩ := anyM_true h
      obtain ⟨h1, h2⟩ := hT i ty g hg (Or.inl hv) e he
      obtain ⟨k, hk, hval⟩ := element_nothing ih h1 h2 hc
      exact .choice hg hv he hk hval
    | sequence g =>
      simp only [hv] at h
      refine .sequence hg hv (inOrder_nothing fun e he => ?_)
      obtain ⟨h1, h2⟩ := hT i ty g hg (Or.inr (Or.inl hv)) e he
      exact element_nothing ih h1 h2 (allM_true h he)
    | all g =>
      simp only [hv] at h
      refine .all hg hv (List.Perm.refl _) (inOrder_nothing fun e he => ?_)
      obtain ⟨h1, h2⟩ := hT i ty g hg (Or.inr (Or.inr hv)) e he
      exact element_nothing ih h1 h2 (allM_true h he)
    | _ => simp [hv] at h

/-- **C71.** A field or variant is an `Option` only if the type information says that it can be missing: the particle may
occur zero times, or it is a choice that can be matched with nothing. (`GroupsOk`: the groups are defined and no
`minOccurs` is greater than its `maxOccurs`.) -/
theorem C71_option_can_be_missing (P : Lex) (fl : GFlags) (T : Types) (fuel : Nat) (mixed a : Bool) (e : Element)
    (d : DElement) (hT : GroupsOk T) (he : ∀ i, e.variant = .type_ i .element → ∀ ty g, Assoc.get T i = some ty →
      ty.variant ≠ .choice g) (h : newElement fl T fuel mixed e = some (some d, a)) (ho : d.occurs = .optional) :
    ∃ k, Allows e.min e.max k ∧ Valid P T (.times e k []) := by
  have zero : fromOccurs e.min e.max = .optional → ∃ k, Allows e.min e.max k ∧ Valid P T (.times e k []) := by
    intro h
    have : e.min = 0 := by
      unfold fromOccurs at h
      split at h <;> first | assumption | (split at h <;> cases h; done) | (cases h; done)
    exact ⟨0, ⟨by omega, fun b _ => Nat.zero_le b⟩, .zero⟩
  unfold newElement at h
  split at h
  · cases h
  · cases hv : e.variant with
    | text => rw [hv] at h; cases h; exact zero ho
    | any w =>
      rw [hv] at h
      simp only at h
      split at h
      · cases h; exact zero ho
      · cases h
    | type_ i mode =>
      rw [hv] at h
      simp only at h
      split at h
      · rename_i opt dyn hopt _
        cases h
        simp only at ho
        cases opt with
        | false => exact zero ho
        | true =>
          by_cases hs : fromOccurs e.min e.max = .single
          · rw [if_pos hs] at hopt
            obtain ⟨h1, h2⟩ := fromOccurs_single hs
            unfold isOptionalChoice at hopt
            cases hg : Assoc.get T i with
            | none => rw [hg] at hopt; cases hopt
            | some ty =>
              rw [hg] at hopt
              simp only at hopt
              cases htv : ty.variant with
              | choice g =>
                simp only [htv] at hopt
                cases mode with
                | element => exact absurd htv (he i hv ty g hg)
                | group =>
                  exact ⟨1, ⟨by omega, fun b hb => by rw [h2] at hb; cases hb; exact Nat.le_refl _⟩,
                    times_nothing (.nested hv (checkType_nothing hT _ i ty hg hopt)) 1⟩
              | _ => simp [htv] at hopt
          · rw [if_neg hs] at hopt; cases hopt
      · cases h

/-! ## Required choices that are read too strictly -/

def pickGroup : Group := ⟨false, [el "a" "string" 0 (.bounded 1), el "b" "string" 1 (.bounded 1)]⟩

def complexOver (content : String) (mn : Nat) (mx : MaxOccurs) : MetaType :=
  .new (.complex ⟨.none, some (tid content), mn, mx, false, false, []⟩)

def pickIn (type : String) (mn : Nat) (mx : MaxOccurs) : Element :=
  ⟨nm "pick", .type_ (tid type) .group, .qualified, ⟨false, false, false, false, false⟩, mn, mx, none, []⟩

/-- `Pick` is a choice between `a`, which is optional, and `b`. The content of `Once` is this choice, the content of `Twice`
is a sequence of two choices, and the content of `Named` is a sequence with one choice, which goes by another name. -/
def pickTypes : Types :=
  [(tid "string", .new (.buildIn .string)), (tid "Pick", .new (.choice pickGroup)),
   (tid "Once", complexOver "Pick" 1 (.bounded 1)),
   (tid "Twice", complexOver "Two" 1 (.bounded 1)), (tid "Two", .new (.sequence ⟨false, [pickIn "Pick" 2 (.bounded 2)]⟩)),
   (tid "Named", complexOver "One" 1 (.bounded 1)), (tid "One", .new (.sequence ⟨false, [pickIn "Alias" 1 (.bounded 1)]⟩)),
   (tid "Alias", .new (.reference (.new (tid "Pick")))),
   (tid "Direct", complexOver "Here" 1 (.bounded 1)), (tid "Here", .new (.sequence ⟨false, [pickIn "Pick" 1 (.bounded 1)]⟩))]

def pickSetup : Setup Str := { orderSetup with types := pickTypes, used := fun i => i != tid "Here" }

theorem mem_pickTypes {i : Ident} {ty : MetaType} (h : (i, ty) ∈ pickTypes) :
    (∃ c, ty.variant = .complex c ∧ (pickSetup.complexOf c).isSome = true) ∨
    (i = tid "Alias" ∧ ty.variant = .reference (.new (tid "Pick"))) ∨
    (∀ c, ty.variant ≠ .complex c) ∧ ∀ r, ty.variant ≠ .reference r := by
  simp only [pickTypes, List.mem_cons, Prod.mk.injEq, List.not_mem_nil, or_false] at h
  rcases h with ⟨_, rfl⟩ | ⟨_, rfl⟩ | ⟨_, rfl⟩ | ⟨_, rfl⟩ | ⟨_, rfl⟩ | ⟨_, rfl⟩ | ⟨_, rfl⟩ | ⟨rfl, rfl⟩ | ⟨_, rfl⟩ | ⟨_, rfl⟩
  · exact Or.inr (Or.inr ⟨fun _ h => (by cases h), fun _ h => (by cases h)⟩)
  · exact Or.inr (Or.inr ⟨fun _ h => (by cases h), fun _ h => (by cases h)⟩)
  · exact Or.inl ⟨_, rfl, by decide +kernel⟩
  · exact Or.inl ⟨_, rfl, by decide +kernel⟩
  · exact Or.inr (Or.inr ⟨fun _ h => (by cases h), fun _ h => (by cases h)⟩)
  · exact Or.inl ⟨_, rfl, by decide +kernel⟩
  · exact Or.inr (Or.inr ⟨fun _ h => (by cases h), fun _ h => (by cases h)⟩)
  · exact Or.inr (Or.inl ⟨rfl, rfl⟩)
  · exact Or.inl ⟨_, rfl, by decide +kernel⟩
  · exact Or.inr (Or.inr ⟨fun _ h => (by cases h), fun _ h => (by cases h)⟩)

theorem pickTypes_acyclic : Acyclic pickTypes := by
  have hsyn : ∀ i k, Synonym pickTypes i k → i = tid "Alias" ∧ k = tid "Pick" := by
    rintro i k ⟨ty, r, hg, hv, hk, _⟩
    rcases mem_pickTypes (List.mem_of_getElem? (indexOf_get hg)) with ⟨c, hc, _⟩ | ⟨h1, h2⟩ | h
    · rw [hv] at hc; cases hc
    · rw [hv] at h2; cases h2; exact ⟨h1, hk.symm⟩
    · exact absurd hv (h.2 r)
  rintro i ⟨k, path, hs, hf⟩
  obtain ⟨rfl, rfl⟩ := hsyn _ _ hs
  have hne : tid "Pick" ≠ tid "Alias" := by decide +kernel
  generalize he : tid "Alias" = j at hf hne
  generalize tid "Pick" = s at hf hne he hsyn
  cases hf with
  | here _ => exact hne rfl
  | step h _ => exact hne ((hsyn _ _ h).1.trans he)

theorem pickSetup_supported : pickSetup.Supported := supportedCheck_sound _ (by decide +kernel)

theorem pickSetup_shape : pickSetup.compile.Nested 1 := nestedCheck_sound _ _ (by decide +kernel)

theorem pickSetup_xsiFree : pickSetup.XsiFree := by
  intro D hD a ha
  exact Or.inl ((by decide +kernel : ∀ D ∈ pickSetup.compile.structs, ∀ a ∈ D.attrs, a.name.local_ ∉
    ["schemaLocation".toList, "noNamespaceSchemaLocation".toList, "type".toList, "nil".toList]) D hD a ha)

theorem pick_nothing : Valid anyText pickTypes (.group (tid "Pick") []) :=
  .choice (ty := .new (.choice pickGroup)) (e := el "a" "string" 0 (.bounded 1)) (k := 0) (by decide +kernel) rfl
    (List.mem_cons_self ..) ⟨Nat.le_refl _, fun b _ => Nat.zero_le b⟩ .zero

/-- The elements of the types `Once`, `Twice` and `Named` may be empty, according to the type information. -/
theorem pick_valid (type : String) (h : type = "Once" ∨ type = "Twice" ∨ type = "Named" ∨ type = "Direct") :
    Valid anyText pickTypes (.value (tid type) none [] []) := by
  have hseq : ∀ e ns, Allows e.min e.max ns → Valid anyText pickTypes (.particle e []) →
      Valid anyText pickTypes (.inOrder [e] []) := fun e k hk h => .cons hk (times_nothing h k) .nil
  have shape : AttrsShape anyText [] [] :=
    ⟨fun a ha => (by cases ha), fun n v hv => (by cases hv)⟩
  have key : ∀ content, Assoc.get pickTypes (tid type) = some (complexOver content 1 (.bounded 1)) →
      Valid anyText pickTypes (.group (tid content) []) → Valid anyText pickTypes (.value (tid type) none [] []) := by
    intro content hg hv
    exact .complexValue (ty := complexOver content 1 (.bounded 1)) (k := 1) hg rfl rfl shape
      (fun a ha => by cases ha) once (.oneMore (a := []) (b := []) hv .noTimes)
  rcases h with rfl | rfl | rfl | rfl
  · exact key "Pick" (by decide +kernel) pick_nothing
  · refine key "Two" (by decide +kernel) (.sequence (ty := .new (.sequence ⟨false, [pickIn "Pick" 2 (.bounded 2)]⟩))
      (by decide +kernel) rfl (hseq _ 2 ⟨Nat.le_refl _, fun b h => by cases h; decide⟩ (.nested rfl pick_nothing)))
  · refine key "One" (by decide +kernel) (.sequence (ty := .new (.sequence ⟨false, [pickIn "Alias" 1 (.bounded 1)]⟩))
      (by decide +kernel) rfl (hseq _ 1 once (.nested rfl ?_)))
    exact .refGroup (ty := .new (.reference (.new (tid "Pick")))) (r := .new (tid "Pick")) (by decide +kernel) rfl rfl rfl
      pick_nothing
  · exact key "Here" (by decide +kernel) (.sequence (ty := .new (.sequence ⟨false, [pickIn "Pick" 1 (.bounded 1)]⟩))
      (by decide +kernel) rfl (hseq _ 1 once (.nested rfl pick_nothing)))

/-- `<z:x xmlns:z="urn:a"></z:x>` -/
def pickTag : Tag := ⟨"z:x".toList, [⟨"xmlns:z".toList, "urn:a".toList⟩]⟩
def pickDocument : List Event := [.start pickTag, .end_ pickTag.name]

theorem pick_renders : Renders pickSetup {} (.elem (nm "x") none [] []) pickDocument :=
  Renders.element (items := []) (t := pickTag)
    ⟨['z'], rfl, by decide, fun h => (by cases h), fun _ ns hns => by
      have hn : some "urn:a".toList = some ns := hns
      rw [← hn]; decide +kernel⟩
    (.xmlns (by decide +kernel) .nil) (fun e he => by cases he)
    (by rintro q evs n ⟨l, j, r, he, _⟩; cases l <;> cases he)

/-- Was a value returned? -/
def isRead {H S E V : Type} : Run H S E V → Bool
  | .done _ _ => true
  | _ => false

/-- **C71, findings.** The hypothesis `Filled` of `C71_valid_document_read_partial` cannot be dropped. All the other
hypotheses hold here, an element without content is valid for each of the three types, and its deserializer does not
return a value:

* `Once`: the content of a complex type is a required choice, and one of its alternatives is optional;
* `Twice`: such a choice must occur twice in a sequence;
* `Named`: such a choice must occur once in a sequence, and the sequence refers to it by another name.

Only a choice that must occur exactly once in a sequence, and is referred to directly, becomes an `Option`. -/
theorem C71_optional_alternative_rejected :
    Acyclic pickSetup.types ∧ pickSetup.Supported ∧ pickSetup.compile.Nested 1 ∧ pickSetup.XsiFree ∧
    pickSetup.ReadsTexts anyText ∧ (∀ n as kids, ¬ anyText.customValue n as kids) ∧
    Renders pickSetup {} (.elem (nm "x") none [] []) pickDocument ∧
    ∀ type k, (type, k) ∈ [("Once", 2), ("Twice", 3), ("Named", 5)] →
      pickSetup.tyRef (tid type) = some (.struct k) ∧ Valid anyText pickSetup.types (.value (tid type) none [] []) ∧
      ∀ n rest v r, Drv.run (genEnv posTrack) (de pickSetup.compile n (.struct k)).toDeser { helper := {} }
        (pickDocument ++ rest) ≠ .done v r := by
  have key : ∀ k, k = 2 ∨ k = 3 ∨ k = 5 → ∀ n rest v r, Drv.run (genEnv posTrack)
      (de pickSetup.compile n (.struct k)).toDeser { helper := {} } (pickDocument ++ rest) ≠ .done v r := by
    intro k hk n rest v r h
    have hf : isRead (Drv.run (genEnv posTrack) (de pickSetup.compile n (.struct k)).toDeser { helper := {} }
        (pickDocument ++ rest)) = false := by
      rcases hk with rfl | rfl | rfl <;> rcases n with _ | _ | _ | n <;> rfl
    rw [h] at hf
    cases hf
  refine ⟨pickTypes_acyclic, pickSetup_supported, pickSetup_shape, pickSetup_xsiFree, fun _ s _ => ⟨⟨s, rfl⟩, _, rfl⟩,
    fun _ _ _ h => h, pick_renders, ?_⟩
  intro type k h
  simp only [List.mem_cons, Prod.mk.injEq, List.not_mem_nil, or_false] at h
  rcases h with ⟨rfl, rfl⟩ | ⟨rfl, rfl⟩ | ⟨rfl, rfl⟩
  · exact ⟨by decide +kernel, pick_valid _ (by simp), key 2 (by simp)⟩
  · exact ⟨by decide +kernel, pick_valid _ (by simp), key 3 (by simp)⟩
  · exact ⟨by decide +kernel, pick_valid _ (by simp), key 5 (by simp)⟩

/-- The same choice, once and directly in a sequence: it is an `Option`, and the document is read. -/
example (n : Nat) (rest : List Event) : isRead (Drv.run (genEnv posTrack) (de pickSetup.compile (n + 3) (.struct 8)).toDeser
    { helper := {} } (pickDocument ++ rest)) = true := rfl

/-- The hypotheses of `C71_option_can_be_missing` hold for it. -/
example : ∃ k, Allows 1 (.bounded 1) k ∧ Valid anyText pickTypes (.times (pickIn "Pick" 1 (.bounded 1)) k []) := by
  have hg : GroupsOk pickTypes := by
    intro i ty g h
    have := List.mem_of_getElem? (indexOf_get h)
    simp only [pickTypes, List.mem_cons, Prod.mk.injEq, List.not_mem_nil, or_false] at this
    rcases this with ⟨_, rfl⟩ | ⟨_, rfl⟩ | ⟨_, rfl⟩ | ⟨_, rfl⟩ | ⟨_, rfl⟩ | ⟨_, rfl⟩ | ⟨_, rfl⟩ | ⟨_, rfl⟩ | ⟨_, rfl⟩ | ⟨_, rfl⟩ <;>
      rintro (hv | hv | hv) <;> cases hv <;> intro e he <;>
      simp only [pickGroup, List.mem_cons, List.not_mem_nil, or_false] at he
    · rcases he with rfl | rfl <;> exact ⟨fun b h => by cases h <;> decide, fun j h => by cases h⟩
    all_goals
      subst he
      exact ⟨fun b h => by cases h; decide, fun j h => by cases h; decide +kernel⟩
  exact C71_option_can_be_missing anyText ⟨true, true, true, true, true⟩ pickTypes 9 false false (pickIn "Pick" 1 (.bounded 1))
    ⟨nm "pick", true, 1, .bounded 1, .optional, .type_ (tid "Pick"), false, false, false, .qualified⟩ hg
    (fun i h => by cases h) (by decide +kernel) rfl

end Verif.Generate

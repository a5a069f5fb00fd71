import Verif.Config.Steps
/-!
# The render steps of a configuration: proofs (C78)
-/
namespace Verif.Config

/-- The condition under which `with_render_step` treats two steps as the same. -/
def clash (step x : Step) : Bool := x.exclusiveTo step || step.exclusiveTo x

theorem retain_some (s : Step) : ∀ (l : List Step) (i p : Nat),
    retain s l i (some p) = (l.filter (fun x => !clash s x), some p) := by
  intro l
  induction l with
  | nil => intro i p; rfl
  | cons x l ih =>
    intro i p
    have e : (x.exclusiveTo s || s.exclusiveTo x) = clash s x := rfl
    unfold retain
    rw [e]
    cases h : clash s x <;> simp [h, ih]

theorem retain_none (s : Step) : ∀ (l : List Step) (i : Nat), (∀ x ∈ l, clash s x = false) →
    retain s l i none = (l, none) := by
  intro l
  induction l with
  | nil => intro i _; rfl
  | cons x l ih =>
    intro i h
    have e : (x.exclusiveTo s || s.exclusiveTo x) = clash s x := rfl
    have hx := h x (by simp)
    unfold retain
    rw [e, hx, ih _ (fun y hy => h y (by simp [hy]))]
    simp

theorem retain_split (s x : Step) (b : List Step) (hx : clash s x = true) : ∀ (a : List Step) (i : Nat),
    (∀ y ∈ a, clash s y = false) →
    retain s (a ++ x :: b) i none = (a ++ x :: b.filter (fun y => !clash s y), some (i + a.length)) := by
  intro a
  induction a with
  | nil =>
    intro i _
    have e : (x.exclusiveTo s || s.exclusiveTo x) = clash s x := rfl
    rw [List.nil_append]
    unfold retain
    rw [e, hx, retain_some]
    simp
  | cons y a ih =>
    intro i h
    have e : (y.exclusiveTo s || s.exclusiveTo y) = clash s y := rfl
    have hy := h y (by simp)
    rw [List.cons_append]
    unfold retain
    rw [e, hy, ih _ (fun z hz => h z (by simp [hz]))]
    simp
    omega

theorem split_first (f : Step → Bool) : ∀ l : List Step, (∀ x ∈ l, f x = false) ∨
    ∃ a x b, l = a ++ x :: b ∧ f x = true ∧ ∀ y ∈ a, f y = false := by
  intro l
  induction l with
  | nil => exact .inl (by simp)
  | cons x l ih =>
    cases hx : f x with
    | true => exact .inr ⟨[], x, l, rfl, hx, by simp⟩
    | false =>
      rcases ih with h | ⟨a, y, b, e, hy, ha⟩
      · exact .inl (by simpa [hx] using h)
      · exact .inr ⟨x :: a, y, b, by simp [e], hy, by simpa [hx] using ha⟩

/-- What `with_render_step` does: the step is appended, or takes the place of the first one it replaces. -/
theorem withStep_cases (l : List Step) (s : Step) :
    ((∀ x ∈ l, clash s x = false) ∧ withStep l s = l ++ [s]) ∨
    ∃ a x b, l = a ++ x :: b ∧ clash s x = true ∧ (∀ y ∈ a, clash s y = false) ∧
      withStep l s = a ++ s :: b.filter (fun y => !clash s y) := by
  rcases split_first (clash s) l with h | ⟨a, x, b, e, hx, ha⟩
  · refine .inl ⟨h, ?_⟩
    unfold withStep
    rw [retain_none s l 0 h]
  · refine .inr ⟨a, x, b, e, hx, ha, ?_⟩
    unfold withStep
    rw [e, retain_split s x b hx a 0 ha]
    simp

theorem mem_withStep (l : List Step) (s : Step) : s ∈ withStep l s := by
  rcases withStep_cases l s with ⟨_, e⟩ | ⟨a, x, b, _, _, _, e⟩ <;> rw [e] <;> simp

theorem keep_withStep {l : List Step} {s t : Step} (ht : t ∈ l) (h : clash s t = false) : t ∈ withStep l s := by
  rcases withStep_cases l s with ⟨_, e⟩ | ⟨a, x, b, el, hx, _, e⟩
  · rw [e]; simp [ht]
  · rw [e]
    rw [el] at ht
    rcases List.mem_append.mp ht with m | m
    · simp [m]
    · rcases List.mem_cons.mp m with m | m
      · rw [m, hx] at h; cases h
      · simp [m, h]

theorem withSteps_append (l : List Step) : ∀ a b : List Step, withSteps l (a ++ b) = withSteps (withSteps l a) b := by
  intro a
  induction a generalizing l with
  | nil => intro b; rfl
  | cons s a ih => intro b; exact ih _ b

theorem withSteps_snoc (l a : List Step) (s : Step) : withSteps l (a ++ [s]) = withStep (withSteps l a) s := by
  rw [withSteps_append]; rfl

/-! ## Steps for the same purpose -/

theorem clash_purpose (s x : Step) (hs : ∀ d, s ≠ .direct .enumConst d) (hx : ∀ d, x ≠ .direct .enumConst d)
    (hc : ¬ (s = .config .contentHelpers ∧ x = .config .contentHelpers)) :
    clash s x = (x.purpose == s.purpose) := by
  rcases s with s | ⟨k, d⟩ <;> rcases x with x | ⟨j, e⟩
  · cases s <;> cases x <;> first | rfl | (exact absurd ⟨rfl, rfl⟩ hc)
  · have he := hx e
    cases j with
    | user id t => cases t <;> (try cases s) <;> first | rfl | (rename_i v; cases v <;> rfl)
    | enumConst => exact absurd rfl he
    | _ => cases s <;> first | rfl | (rename_i v; cases v <;> rfl)
  · have hd := hs d
    cases k with
    | user id t => cases t <;> (try cases x) <;> first | rfl | (rename_i v; cases v <;> rfl)
    | enumConst => exact absurd rfl hd
    | _ => cases x <;> first | rfl | (rename_i v; cases v <;> rfl)
  · have he := hx e
    have hd := hs d
    cases k with
    | enumConst => exact absurd rfl hd
    | user id t =>
      cases j with
      | enumConst => exact absurd rfl he
      | user id' t' =>
        rw [Bool.eq_iff_iff]
        cases t <;> cases t' <;>
          simp [clash, Step.exclusiveTo, StepType.exclusive, Step.stepType, Impl.stepType, Step.purpose, Impl.purpose,
            eq_comm (a := id')]
      | _ => cases t <;> rfl
    | _ =>
      cases j with
      | enumConst => exact absurd rfl he
      | user id' t' => cases t' <;> rfl
      | _ => rfl

theorem firstOrder_mem (p : Purpose) : ∀ l : List Purpose, p ∈ firstOrder l ↔ p ∈ l := by
  intro l
  induction l with
  | nil => simp [firstOrder]
  | cons q l ih =>
    by_cases h : p = q
    · simp [firstOrder, h]
    · simp [firstOrder, h, ih]

theorem firstOrder_snoc (p : Purpose) : ∀ l : List Purpose,
    firstOrder (l ++ [p]) = if p ∈ l then firstOrder l else firstOrder l ++ [p] := by
  intro l
  induction l with
  | nil => rfl
  | cons q l ih =>
    rw [List.cons_append]
    unfold firstOrder
    rw [ih]
    by_cases h : p = q
    · subst h
      by_cases m : p ∈ l <;> simp [m]
    · by_cases m : p ∈ l <;> simp [m, h]

theorem firstOrder_nodup : ∀ l : List Purpose, (firstOrder l).Nodup := by
  intro l
  induction l with
  | nil => exact List.nodup_nil
  | cons q l ih =>
    unfold firstOrder
    exact List.nodup_cons.mpr ⟨by simp, ih.filter _⟩

theorem lastFor_snoc (p : Purpose) (l : List Step) (s : Step) :
    lastFor p (l ++ [s]) = if s.purpose = p then some s else lastFor p l := by
  unfold lastFor
  by_cases h : s.purpose = p <;> simp [List.filter_append, h]

theorem lastFor_mem {p : Purpose} {l : List Step} {s : Step} (h : lastFor p l = some s) : s ∈ l ∧ s.purpose = p := by
  have := List.mem_of_getLast? h
  simpa using this

theorem settled_step {asked result : List Step} {s : Step} (h : Settled asked result)
    (hc : ∀ x ∈ result, clash s x = (x.purpose == s.purpose)) : Settled (asked ++ [s]) (withStep result s) := by
  obtain ⟨h1, h2⟩ := h
  have hm : ∀ p, p ∈ asked.map Step.purpose ↔ p ∈ result.map Step.purpose := by
    intro p; rw [h1, firstOrder_mem]
  have hn : (result.map Step.purpose).Nodup := by rw [h1]; exact firstOrder_nodup _
  unfold Settled
  rw [List.map_append, List.map_cons, List.map_nil, firstOrder_snoc]
  rcases withStep_cases result s with ⟨hno, e⟩ | ⟨a, x, b, el, hx, ha, e⟩
  · have hp : ∀ x ∈ result, ¬ x.purpose = s.purpose := by
      intro x m q
      have := hc x m
      rw [hno x m, q] at this
      simp at this
    have : s.purpose ∉ asked.map Step.purpose := by
      rw [hm]; intro m
      obtain ⟨x, m, q⟩ := List.mem_map.mp m
      exact hp x m q
    rw [if_neg this, e]
    refine ⟨by rw [List.map_append, h1]; rfl, ?_⟩
    intro t m
    rw [lastFor_snoc]
    rcases List.mem_append.mp m with m | m
    · rw [if_neg (fun q => hp t m q.symm)]; exact h2 t m
    · rw [List.mem_singleton.mp m, if_pos rfl]
  · subst el
    have hxp : x.purpose = s.purpose := by
      have := hc x (by simp)
      rw [hx] at this
      simpa using this.symm
    have hmem : s.purpose ∈ asked.map Step.purpose := by
      rw [hm]; simp [hxp]
    rw [List.map_append, List.map_cons] at hn
    have hb : ∀ y ∈ b, ¬ y.purpose = s.purpose := by
      intro y m q
      have := (List.nodup_cons.mp (List.nodup_append.mp hn).2.1).1
      exact this (by rw [hxp, ← q]; exact List.mem_map_of_mem m)
    have ha' : ∀ y ∈ a, ¬ y.purpose = s.purpose := by
      intro y m q
      have := hc y (by simp [m])
      rw [ha y m, q] at this
      simp at this
    have hf : b.filter (fun y => !clash s y) = b := by
      rw [List.filter_eq_self]
      intro y m
      rw [hc y (by simp [m])]
      simpa using hb y m
    rw [if_pos hmem, e, hf]
    refine ⟨by rw [← h1]; simp [hxp], ?_⟩
    intro t m
    rw [lastFor_snoc]
    rcases List.mem_append.mp m with m | m
    · rw [if_neg (fun q => ha' t m q.symm)]; exact h2 t (by simp [m])
    · rcases List.mem_cons.mp m with m | m
      · rw [m, if_pos rfl]
      · rw [if_neg (fun q => hb t m q.symm)]; exact h2 t (by simp [m])

/-! ## Theorems -/

/-- C78: after any calls of `with_render_step` on the default configuration there is exactly one step for each purpose that
was asked for (and one for the types), namely the last one that was passed, and the steps run in the order in which their
purposes were asked for first. Missing: `EnumConstantsRenderStep` itself, and `RenderStep::ContentHelpers` more than once,
see the two findings. -/
theorem C78_steps_partial (asked : List Step) (h : Recognised asked) :
    Settled (defaultSteps ++ asked) (withSteps defaultSteps asked) := by
  revert h
  induction asked using rev_induct with
  | nil =>
    intro _
    refine ⟨rfl, ?_⟩
    intro s m
    rw [List.mem_singleton.mp m]; rfl
  | snoc l s ih =>
    intro h
    obtain ⟨h1, h2⟩ := h
    have hr : Recognised l := by
      refine ⟨fun d m => h1 d (by simp [m]), ?_⟩
      rw [List.count_append] at h2
      omega
    have H := ih hr
    rw [withSteps_snoc, ← List.append_assoc]
    refine settled_step H ?_
    intro x m
    have mx := (lastFor_mem (H.2 x m)).1
    refine clash_purpose s x (fun d e => h1 d (by simp [e])) ?_ ?_
    · intro d e
      rw [e] at mx
      rcases List.mem_append.mp mx with mx | mx
      · cases List.mem_singleton.mp mx
      · exact h1 d (by simp [mx])
    · rintro ⟨e1, e2⟩
      rw [e2] at mx
      rcases List.mem_append.mp mx with mx | mx
      · cases List.mem_singleton.mp mx
      · have : 0 < l.count (.config .contentHelpers) := List.count_pos_iff.mpr mx
        rw [List.count_append, e1] at h2
        simp at h2
        omega

theorem stepType_purpose {s : Step} (h : ∀ d, s ≠ .direct .enumConst d) : s.stepType = .types ↔ s.purpose = .types := by
  rcases s with s | ⟨k, d⟩
  · cases s <;> simp [Step.stepType, RStep.stepType, Step.purpose, RStep.purpose]
  · cases k with
    | enumConst => exact absurd rfl (h d)
    | user id t => cases t <;> simp [Step.stepType, Impl.stepType, Step.purpose, Impl.purpose]
    | _ => simp [Step.stepType, Impl.stepType, Step.purpose, Impl.purpose]

/-- Steps that are taken for the same agree on whether they render the types. -/
theorem clash_types {s t : Step} (hs : ∀ d, s ≠ .direct .enumConst d) (ht : ∀ d, t ≠ .direct .enumConst d)
    (h : clash s t = true) : s.stepType = .types ↔ t.stepType = .types := by
  by_cases hc : s = .config .contentHelpers ∧ t = .config .contentHelpers
  · rw [hc.1, hc.2]
  · rw [clash_purpose s t hs ht hc] at h
    rw [stepType_purpose hs, stepType_purpose ht, eq_of_beq h]

theorem types_clash {s t : Step} (hs : s.stepType = .types) (ht : t.stepType = .types) : clash s t = true := by
  rcases s with s | ⟨k, d⟩ <;> rcases t with t | ⟨j, c⟩ <;>
    simp only [clash, Step.exclusiveTo, StepType.exclusive, hs, ht] <;> simp_all [Step.stepType]

/-- C78: whatever is passed to `with_render_step`, the first step is the only one that renders the types. Missing:
`EnumConstantsRenderStep` itself, see `C78_types_lost`. -/
theorem C78_types_first_partial (asked : List Step) (h : ∀ d, .direct .enumConst d ∉ asked) :
    ∃ s l, withSteps defaultSteps asked = s :: l ∧ s.purpose = .types ∧ ∀ x ∈ l, x.purpose ≠ .types := by
  have H : ∃ s l, withSteps defaultSteps asked = s :: l ∧ s.stepType = .types ∧ (∀ x ∈ l, x.stepType ≠ .types) ∧
      ∀ x ∈ s :: l, ∀ d, x ≠ .direct .enumConst d := by
    revert h
    induction asked using rev_induct with
    | nil => intro _; exact ⟨.config .types, [], rfl, rfl, by simp, by simp⟩
    | snoc asked s ih =>
      intro h
      obtain ⟨t, l, e, ht, hl, hall⟩ := ih (fun d m => h d (by simp [m]))
      have hs : ∀ d, s ≠ .direct .enumConst d := fun d e => h d (by simp [e])
      have hsub : ∀ x ∈ withStep (t :: l) s, x = s ∨ x ∈ t :: l := by
        intro x m
        rcases withStep_cases (t :: l) s with ⟨_, e'⟩ | ⟨a, y, b, el, _, _, e'⟩
        · rw [e'] at m; simp at m ⊢; rcases m with m | m | m <;> simp [m]
        · rw [e'] at m; rw [el]; simp at m ⊢; rcases m with m | m | m <;> simp [m]
      have hen : ∀ x ∈ withStep (t :: l) s, ∀ d, x ≠ .direct .enumConst d := by
        intro x m
        rcases hsub x m with e | m
        · rw [e]; exact hs
        · exact hall x m
      rw [withSteps_snoc, e]
      rcases withStep_cases (t :: l) s with ⟨hno, e'⟩ | ⟨a, x, b, el, hx, ha, e'⟩
      · refine ⟨t, l ++ [s], e', ht, ?_, by rw [← List.cons_append, ← e']; exact hen⟩
        intro y m
        rcases List.mem_append.mp m with m | m
        · exact hl y m
        · rw [List.mem_singleton.mp m]
          intro q
          have := types_clash q ht
          rw [hno t (by simp)] at this; cases this
      · cases a with
        | nil =>
          obtain ⟨rfl, rfl⟩ := List.cons.inj el
          refine ⟨s, l.filter (fun y => !clash s y), e', (clash_types hs (hall t (by simp)) hx).mpr ht, ?_, ?_⟩
          · intro y m
            exact hl y (List.mem_filter.mp m).1
          · rw [e'] at hen; exact hen
        | cons z a =>
          rw [List.cons_append] at el e'
          obtain ⟨rfl, rfl⟩ := List.cons.inj el
          refine ⟨t, a ++ s :: b.filter (fun y => !clash s y), e', ht, ?_, by rw [← e']; exact hen⟩
          intro y m
          rcases List.mem_append.mp m with m | m
          · exact hl y (by simp [m])
          · rcases List.mem_cons.mp m with m | m
            · rw [m]
              exact fun q => hl x (by simp) ((clash_types hs (hall x (by simp)) hx).mp q)
            · exact hl y (by simp [(List.mem_filter.mp m).1])
  obtain ⟨s, l, e, hs, hl, hall⟩ := H
  refine ⟨s, l, e, (stepType_purpose (hall s (by simp))).mp hs, ?_⟩
  intro x m q
  exact hl x m ((stepType_purpose (hall x (by simp [m]))).mpr q)

theorem keep_withSteps {t : Step} : ∀ (calls l : List Step), t ∈ l → (∀ s ∈ calls, clash s t = false) →
    t ∈ withSteps l calls := by
  intro calls
  induction calls with
  | nil => intro l m _; exact m
  | cons s calls ih =>
    intro l m h
    exact ih _ (keep_withStep m (h s (by simp))) (fun x hx => h x (by simp [hx]))

/-- A step that is asked for stays if no later one replaces it. -/
theorem asked_mem (l pre post : List Step) (t : Step) {calls : List Step} (e : calls = pre ++ t :: post)
    (h : post.all (fun s => !clash s t) = true) : t ∈ withSteps l calls := by
  rw [e, withSteps_append]
  refine keep_withSteps post _ (mem_withStep _ t) ?_
  intro s m
  simpa using List.all_eq_true.mp h s m

/-- C78: after `with_quick_xml_config` all the steps that the generated code needs are there with the given settings,
whatever steps there were before. -/
theorem C78_quick_xml_complete (steps : List Step) (namespaces : NsSer) (default_ : Option (List Nat)) (boxed : Bool) :
    let r := withQuickXml steps namespaces default_ boxed
    Step.config .types ∈ r ∧ Step.config .defaults ∈ r ∧ Step.config .nsConst ∈ r ∧
    Step.config (.serialize namespaces default_) ∈ r ∧ Step.config (.deserialize boxed) ∈ r ∧
    (namespaces ≠ .none_ → Step.config .prefixConst ∈ r) ∧
    (namespaces = .dynamic → Step.config .collectNamespaces ∈ r) := by
  intro r
  have e : r = withSteps steps ((serializeCalls namespaces default_).map .config ++ (deserializeCalls boxed).map .config) :=
    (withSteps_append steps _ _).symm
  rw [e]
  clear e r
  have D : (deserializeCalls boxed).map Step.config =
    [.config .types, .config .defaults, .config .nsConst, .config (.deserialize boxed)] := rfl
  refine ⟨?_, ?_, ?_, ?_, ?_, ?_, ?_⟩
  · exact asked_mem steps ((serializeCalls namespaces default_).map .config)
      [.config .defaults, .config .nsConst, .config (.deserialize boxed)] _ (by rw [D]) rfl
  · exact asked_mem steps ((serializeCalls namespaces default_).map .config ++ [.config .types])
      [.config .nsConst, .config (.deserialize boxed)] _ (by rw [D, List.append_assoc]; rfl) rfl
  · exact asked_mem steps ((serializeCalls namespaces default_).map .config ++ [.config .types, .config .defaults])
      [.config (.deserialize boxed)] _ (by rw [D, List.append_assoc]; rfl) rfl
  · refine asked_mem steps (((serializeCalls namespaces default_).map Step.config).dropLast)
      ((deserializeCalls boxed).map .config) _ ?_ rfl
    cases namespaces <;> rfl
  · exact asked_mem steps ((serializeCalls namespaces default_).map .config ++
      [.config .types, .config .defaults, .config .nsConst]) [] _ (by rw [D, List.append_assoc]; rfl) rfl
  · intro h
    refine asked_mem steps [.config .types, .config .defaults]
      (((serializeCalls namespaces default_).map Step.config).drop 3 ++ (deserializeCalls boxed).map .config) _ ?_ ?_
    · cases namespaces <;> first | rfl | exact absurd rfl h
    · cases namespaces <;> rfl
  · intro h
    subst h
    exact asked_mem steps [.config .types, .config .defaults, .config .prefixConst]
      ([.config .nsConst, .config (.serialize .dynamic default_)] ++ (deserializeCalls boxed).map .config) _ rfl rfl

/-- Finding: `RenderStep::ContentHelpers` is not recognised when it is added a second time (config/renderer.rs:329-377 has no
arm for it), so that its methods are rendered twice. -/
theorem C78_content_helpers_twice :
    withSteps defaultSteps [.config .contentHelpers, .config .contentHelpers] =
      [.config .types, .config .contentHelpers, .config .contentHelpers] := by decide +kernel

/-- Finding: `EnumConstantsRenderStep` says that it renders the types (enum_const.rs:15-17), and replaces the step that
does. -/
theorem C78_enum_constants_replace_types :
    withSteps defaultSteps [.direct .enumConst 0] = [.direct .enumConst 0] := by decide +kernel

/-- Finding: `RenderStep::EnumConstants` after it then leaves no step that even claims to render the types. -/
theorem C78_types_lost :
    (withSteps defaultSteps [.direct .enumConst 0, .config .enumConst]).all (fun s => s.stepType != .types) = true := by
  decide +kernel

/-! ## Examples -/

/-- A history in which steps are replaced, by other forms of the same step as well. -/
def exHistory : List Step :=
  [.config .defaults, .direct .serialize 7, .direct (.user 3 .extraTypes) 0, .config .contentHelpers,
    .config (.serialize .dynamic none), .config .serdeQuickXml, .direct (.user 3 .extraTypes) 1, .direct .contentHelpers 0]

example : Recognised exHistory := by
  refine ⟨?_, by decide +kernel⟩
  intro d m
  simp [exHistory] at m

example : withSteps defaultSteps exHistory =
    [.config .serdeQuickXml, .config .defaults, .config (.serialize .dynamic none), .direct (.user 3 .extraTypes) 1,
      .direct .contentHelpers 0] := by decide +kernel

example : withQuickXml [.config .serdeQuickXml] .dynamic none true =
    [.config .types, .config .defaults, .config .prefixConst, .config .collectNamespaces, .config .nsConst,
      .config (.serialize .dynamic none), .config (.deserialize true)] := by decide +kernel

end Verif.Config

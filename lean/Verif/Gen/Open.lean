import Verif.Gen.Empty

/-!
# Sequences with open content (C87)

A struct with a sequence that contains `xs:any`, generated without a type for wildcards
(`ElementMetaVariant::Any` without `ANY_TYPE_SUPPORT`, generator/data/complex.rs:614-620): the
wildcard has no field, and elements that fit no field are skipped. The model is `SeqTy` with
`allowAny` (renderer deserialize.rs:2349-2488, 4062-4160).
-/

namespace Verif.Gen

open Verif.Rt Verif.Occurs

section
variable {H A C V W : Type}

/-! ## Specification -/

/-- Every field from the `i`-th one on is an element of another name. -/
def SeqTy.Foreign (T : SeqTy H A C V W) (i : Nat) (t : Tag) : Prop :=
  ∀ (j : Nat) (f : Field H C V), i ≤ j → T.fields[j]? = some f → ∃ w, f.want = some w ∧ ∀ h, w h t = false

/-- Every field from the `i`-th one on may be absent. -/
def SeqTy.Optional (T : SeqTy H A C V W) (i : Nat) : Prop :=
  ∀ (j : Nat) (f : Field H C V), i ≤ j → T.fields[j]? = some f → f.min = 0

/-! ## Lemmas -/

theorem Field.create_foreign {f : Field H C V} {w : H → Tag → Bool} {t : Tag} (hw : f.want = some w)
    (h0 : ∀ h, w h t = false) (h : H) :
    f.create true h (.start t) = .ok ⟨.none, .cont (.start t), true⟩ := by
  simp [Field.create, hw, initStartTag, tagOf, h0]

/-- All remaining fields are passed. -/
theorem SeqTy.loop_passes (T : SeqTy H A C V W) (ha : T.allowAny = true) (t : Tag) (h : H) :
    ∀ (n i : Nat) (fuel : Nat) (s : SeqSt A C V) (fb : Option (SPos C)) (any : Bool),
    T.fields.length - i = n → n + 1 ≤ fuel → i < T.fields.length →
    T.Foreign i t → T.Optional i → s.pos = .at_ i none →
    T.loop h fuel (.start t) s fb any
      = .ok ⟨.deser { s with pos := fb.getD .done }, .cont (.start t), true⟩ := by
  intro n
  induction n with
  | zero => intro i fuel s fb any hn _ hi; omega
  | succ n ih =>
    intro i fuel s fb any hn hf hi hF hO hs
    obtain ⟨fuel, rfl⟩ : ∃ k, fuel = k + 1 := ⟨fuel - 1, by omega⟩
    obtain ⟨w, hw, h0⟩ := hF i T.fields[i] (Nat.le_refl _) (List.getElem?_eq_getElem hi)
    have hm := hO i T.fields[i] (Nat.le_refl _) (List.getElem?_eq_getElem hi)
    have hr : T.round h (.start t) s fb any
        = .ok (.again (.start t) { s with pos := T.nextPos i } fb (any || true)) := by
      simp only [SeqTy.round, hs, tagOf, List.getElem?_eq_getElem hi, ha, SeqTy.after,
        Field.create_foreign hw h0, SeqTy.handle, SeqTy.handleNone, hm, true_or, if_true, EHO.fromEvent]
    rw [SeqTy.loop, hr]
    simp only
    by_cases hl : i + 1 < T.fields.length
    · have := ih (i + 1) fuel { s with pos := T.nextPos i } fb (any || true) (by omega) (by omega) hl
        (fun j f hj => hF j f (by omega)) (fun j f hj => hO j f (by omega)) (by simp [SeqTy.nextPos, hl])
      rw [this]
    · obtain ⟨fuel, rfl⟩ : ∃ k, fuel = k + 1 := ⟨fuel - 1, by omega⟩
      simp [SeqTy.loop, SeqTy.round, SeqTy.nextPos, hl, Round.stop, ha]

/-- Before the first field the state is kept. -/
theorem SeqTy.loop_waits (T : SeqTy H A C V W) (ha : T.allowAny = true) (t : Tag) (h : H) :
    ∀ (n i : Nat) (fuel : Nat) (s : SeqSt A C V) (any : Bool),
    T.fields.length - i = n → n + 1 ≤ fuel → i < T.fields.length →
    T.Foreign i t → s.pos = .at_ i none →
    T.loop h fuel (.start t) s (some .init) any
      = .ok ⟨.deser { s with pos := .init }, .cont (.start t), true⟩ := by
  intro n
  induction n with
  | zero => intro i fuel s any hn _ hi; omega
  | succ n ih =>
    intro i fuel s any hn hf hi hF hs
    obtain ⟨fuel, rfl⟩ : ∃ k, fuel = k + 1 := ⟨fuel - 1, by omega⟩
    obtain ⟨w, hw, h0⟩ := hF i T.fields[i] (Nat.le_refl _) (List.getElem?_eq_getElem hi)
    have hr : T.round h (.start t) s (some .init) any
        = .ok (.again (.start t) { s with pos := T.nextPos i } (some .init) (any || true)) ∨
      T.round h (.start t) s (some .init) any
        = .ok (.ret ⟨.deser { s with pos := .init }, .cont (.start t), true⟩) := by
      simp only [SeqTy.round, hs, tagOf, List.getElem?_eq_getElem hi, ha, SeqTy.after,
        Field.create_foreign hw h0, SeqTy.handle, SeqTy.handleNone]
      by_cases h1 : T.fields[i].min = 0 ∨ T.fields[i].occurs = .optional
      · left; rw [if_pos h1]; rfl
      rw [if_neg h1]
      by_cases h2 : T.fields[i].isDefaultable = true
      · left; rw [if_pos h2]; rfl
      rw [if_neg h2]
      right
      by_cases h3 : T.fields[i].occurs = .single
      · rw [if_pos h3]; rfl
      · rw [if_neg h3]; rfl
    rw [SeqTy.loop]
    rcases hr with hr | hr
    · rw [hr]
      simp only
      by_cases hl : i + 1 < T.fields.length
      · have := ih (i + 1) fuel { s with pos := T.nextPos i } (any || true) (by omega) (by omega) hl
          (fun j f hj => hF j f (by omega)) (by simp [SeqTy.nextPos, hl])
        rw [this]
      · obtain ⟨fuel, rfl⟩ : ∃ k, fuel = k + 1 := ⟨fuel - 1, by omega⟩
        simp [SeqTy.loop, SeqTy.round, SeqTy.nextPos, hl, Round.stop, ha]
    · rw [hr]

/-- The driver skips an element that was handed back. -/
theorem SeqTy.run_skips (T : SeqTy H A C V W) (track : H → Event → H) (h : H) (s s' : SeqSt A C V)
    (t : Tag) (ev : DEvent) (hev : ev.event = some (.start t))
    (hc : T.next s (track h (.start t)) (.start t) = .ok ⟨.deser s', ev, true⟩)
    (body : Nodes) (rest : List Event) :
    Drv.run (genEnv track) T.de.toDeser { helper := h, deser := some s } ((Node.elem t body).events ++ rest)
      = Drv.run (genEnv track) T.de.toDeser
        { helper := (Node.elem t body).events.foldl track h, deser := some s' } rest := by
  have h1 : callDeser T.de.toDeser (some s) (track h (.start t)) (.start t)
      = .ok (⟨.deser s', ev, true⟩, track h (.start t)) := by
    show (T.next s (track h (.start t)) (.start t)).map _ = _
    rw [hc]
    rfl
  have h2 : ∀ (es : List Event) (g : H), trackAll (genEnv track) g es = es.foldl track g := by
    intro es
    induction es with
    | nil => intro g; rfl
    | cons e es ih => intro g; exact ih _
  have := C02_skip_exactly_one_element (genEnv track) T.de.toDeser
    { helper := h, deser := some s } t t body rest _ _ rfl h1 hev rfl rfl
  rw [this, h2]
  rfl

/-! ## Elements that are skipped without a loss -/

/-- **C87.** Before the first child of the struct, any element that has the name of no field is skipped
with all of its content, and the state is the one before. -/
theorem C87_open_sequence_skips_first (T : SeqTy H A C V W) (ha : T.allowAny = true)
    (hne : T.fields ≠ []) (track : H → Event → H) (h : H) (s : SeqSt A C V) (hs : s.pos = .init)
    (t : Tag) (hF : T.Foreign 0 t) (body : Nodes) (rest : List Event) :
    Drv.run (genEnv track) T.de.toDeser { helper := h, deser := some s } ((Node.elem t body).events ++ rest)
      = Drv.run (genEnv track) T.de.toDeser
        { helper := (Node.elem t body).events.foldl track h, deser := some s } rest := by
  have hl : 0 < T.fields.length := List.length_pos_iff.mpr hne
  refine T.run_skips track h s s t (.cont (.start t)) rfl ?_ body rest
  have hloop := T.loop_waits ha t (track h (.start t)) T.fields.length 0 (2 * T.fields.length + 3)
    { s with pos := .at_ 0 none } (false || T.allowAny) (by omega) (by omega) hl hF rfl
  have hs' : s = ⟨s.attrs, s.vals, .init⟩ := by cases s; simp only at hs; subst hs; rfl
  show T.loop _ (2 * T.fields.length + 3 + 1) _ _ _ _ = _
  rw [SeqTy.loop]
  have hr : T.round (track h (.start t)) (.start t) s none false
      = .ok (.again (.start t) { s with pos := .at_ 0 none } (some .init) (false || T.allowAny)) := by
    simp only [SeqTy.round, hs, Option.getD_none]
  rw [hr]
  simp only
  rw [hloop]
  rw [← hs']

/-- **C87.** While the next child is required, any element with another name is skipped with all of
its content, and the child is still expected. -/
theorem C87_open_sequence_skips_before_required (T : SeqTy H A C V W) (ha : T.allowAny = true)
    (track : H → Event → H) (h : H) (s : SeqSt A C V) (i : Nat) (hs : s.pos = .at_ i none)
    (f : Field H C V) (hf : T.fields[i]? = some f) (h1 : f.occurs = .single) (hd : f.isDefaultable = false)
    (t : Tag) (w : H → Tag → Bool) (hw : f.want = some w) (h0 : ∀ h, w h t = false)
    (body : Nodes) (rest : List Event) :
    Drv.run (genEnv track) T.de.toDeser { helper := h, deser := some s } ((Node.elem t body).events ++ rest)
      = Drv.run (genEnv track) T.de.toDeser
        { helper := (Node.elem t body).events.foldl track h, deser := some s } rest := by
  refine T.run_skips track h s s t (.brk (.start t)) rfl ?_ body rest
  have hm : ¬ (f.min = 0 ∨ f.occurs = .optional) := by
    rintro (hm | hm)
    · simp [Field.isDefaultable, hm] at hd
    · rw [h1] at hm; cases hm
  have hs' : s = ⟨s.attrs, s.vals, .at_ i none⟩ := by cases s; simp only at hs; subst hs; rfl
  show T.loop _ (2 * T.fields.length + 3 + 1) _ _ _ _ = _
  rw [SeqTy.loop]
  have hr : T.round (track h (.start t)) (.start t) s none false
      = .ok (.ret ⟨.deser s, .brk (.start t), true⟩) := by
    simp only [SeqTy.round, hs, tagOf, hf, ha, SeqTy.after, Field.create_foreign hw h0, SeqTy.handle,
      SeqTy.handleNone]
    rw [if_neg hm, if_neg (by simp [hd]), if_pos h1]
    simp only [EHO.toRoot, intoBreak, Round.stop, Option.getD_some]
    rw [← hs']
  rw [hr]

/-! ## Elements that are skipped with what follows -/

/-- The fields up to the next required one are passed. -/
theorem SeqTy.loop_moves (T : SeqTy H A C V W) (ha : T.allowAny = true) (t : Tag) (h : H)
    (j : Nat) (g : Field H C V) (hj : T.fields[j]? = some g) (h1 : g.occurs = .single)
    (hd : g.isDefaultable = false) :
    ∀ (n i : Nat) (fuel : Nat) (s : SeqSt A C V) (any : Bool),
    j - i = n → i ≤ j → n + 1 ≤ fuel → T.Foreign i t →
    (∀ (k : Nat) (f : Field H C V), i ≤ k → k < j → T.fields[k]? = some f → f.min = 0) →
    s.pos = .at_ i none →
    T.loop h fuel (.start t) s none any
      = .ok ⟨.deser { s with pos := .at_ j none }, .brk (.start t), true⟩ := by
  intro n
  have hjl : j < T.fields.length := (List.getElem?_eq_some_iff.mp hj).1
  have hm : ¬ (g.min = 0 ∨ g.occurs = .optional) := by
    rintro (hm | hm)
    · simp [Field.isDefaultable, hm] at hd
    · rw [h1] at hm; cases hm
  induction n with
  | zero =>
    intro i fuel s any hn hij hf hF _ hs
    obtain rfl : i = j := by omega
    obtain ⟨fuel, rfl⟩ : ∃ k, fuel = k + 1 := ⟨fuel - 1, by omega⟩
    obtain ⟨w, hw, h0⟩ := hF i g (Nat.le_refl _) hj
    have hr : T.round h (.start t) s none any
        = .ok (.ret ⟨.deser { s with pos := .at_ i none }, .brk (.start t), true⟩) := by
      simp only [SeqTy.round, hs, tagOf, hj, ha, SeqTy.after, Field.create_foreign hw h0, SeqTy.handle,
        SeqTy.handleNone]
      rw [if_neg hm, if_neg (by simp [hd]), if_pos h1]
      simp only [EHO.toRoot, intoBreak, Round.stop, Option.getD_some]
    rw [SeqTy.loop, hr]
  | succ n ih =>
    intro i fuel s any hn hij hf hF hO hs
    obtain ⟨fuel, rfl⟩ : ∃ k, fuel = k + 1 := ⟨fuel - 1, by omega⟩
    have hi : i < T.fields.length := by omega
    obtain ⟨w, hw, h0⟩ := hF i T.fields[i] (Nat.le_refl _) (List.getElem?_eq_getElem hi)
    have hm := hO i T.fields[i] (Nat.le_refl _) (by omega) (List.getElem?_eq_getElem hi)
    have hr : T.round h (.start t) s none any
        = .ok (.again (.start t) { s with pos := T.nextPos i } none (any || true)) := by
      simp only [SeqTy.round, hs, tagOf, List.getElem?_eq_getElem hi, ha, SeqTy.after,
        Field.create_foreign hw h0, SeqTy.handle, SeqTy.handleNone, hm, true_or, if_true, EHO.fromEvent]
    rw [SeqTy.loop, hr]
    simp only
    have hl : i + 1 < T.fields.length := by omega
    rw [ih (i + 1) fuel { s with pos := T.nextPos i } (any || true) (by omega) (by omega) (by omega)
      (fun k f hk => hF k f (by omega)) (fun k f hk => hO k f (by omega)) (by simp [SeqTy.nextPos, hl])]

/-- **C87.** What happens in general: an element without a field is skipped, and the fields up to
the next required one (`j`) are given up. If `j = i` the state is the one before. -/
theorem C87_open_sequence_moves_on (T : SeqTy H A C V W) (ha : T.allowAny = true)
    (track : H → Event → H) (h : H) (s : SeqSt A C V) (i j : Nat) (hij : i ≤ j) (hs : s.pos = .at_ i none)
    (g : Field H C V) (hj : T.fields[j]? = some g) (h1 : g.occurs = .single) (hd : g.isDefaultable = false)
    (hO : ∀ (k : Nat) (f : Field H C V), i ≤ k → k < j → T.fields[k]? = some f → f.min = 0)
    (t : Tag) (hF : T.Foreign i t) (body : Nodes) (rest : List Event) :
    Drv.run (genEnv track) T.de.toDeser { helper := h, deser := some s } ((Node.elem t body).events ++ rest)
      = Drv.run (genEnv track) T.de.toDeser
        { helper := (Node.elem t body).events.foldl track h
          deser := some { s with pos := .at_ j none } } rest := by
  have hjl : j < T.fields.length := (List.getElem?_eq_some_iff.mp hj).1
  exact T.run_skips track h s _ t (.brk (.start t)) rfl
    (T.loop_moves ha t _ j g hj h1 hd (j - i) i _ s false rfl hij (by simp only [SeqTy.fuel]; omega)
      hF hO hs) body rest

/-- After the last field everything is skipped. -/
theorem SeqTy.next_done (T : SeqTy H A C V W) (ha : T.allowAny = true) (s : SeqSt A C V)
    (hs : s.pos = .done) (h : H) {e : Event} (hne : ∀ n, e ≠ .end_ n) :
    T.next s h e = .ok ⟨.deser s, .cont e, true⟩ := by
  have hs' : s = ⟨s.attrs, s.vals, .done⟩ := by cases s; simp only at hs; subst hs; rfl
  show T.loop _ (2 * T.fields.length + 3 + 1) _ _ _ _ = _
  rw [SeqTy.loop]
  have hr : T.round h e s none false = .ok (.ret ⟨.deser s, .cont e, true⟩) := by
    cases e with
    | end_ n => exact absurd rfl (hne n)
    | _ =>
      simp only [SeqTy.round, hs, Round.stop, ha, Bool.true_or, Option.getD_none]
      rw [← hs']
  rw [hr]

theorem SeqTy.run_done_nodes (T : SeqTy H A C V W) (ha : T.allowAny = true) (track : H → Event → H)
    (s : SeqSt A C V) (hs : s.pos = .done) : ∀ (ns : Nodes) (h : H) (rest : List Event),
    Drv.run (genEnv track) T.de.toDeser { helper := h, deser := some s } (ns.events ++ rest)
      = Drv.run (genEnv track) T.de.toDeser
        { helper := ns.events.foldl track h, deser := some s } rest
  | .nil, h, rest => rfl
  | .cons n ns, h, rest => by
    have leaf : ∀ (e : Event), (∀ n, e ≠ .end_ n) → (∀ t, e ≠ .start t) → ∀ rest,
        Drv.run (genEnv track) T.de.toDeser { helper := h, deser := some s } (e :: rest)
        = Drv.run (genEnv track) T.de.toDeser { helper := track h e, deser := some s } rest := by
      intro e hne hns rest
      have h1 : callDeser T.de.toDeser (some s) (track h e) e
          = .ok (⟨.deser s, .cont e, true⟩, track h e) := by
        show (T.next s (track h e) e).map _ = _
        rw [T.next_done ha s hs _ hne]
        rfl
      have h2 : leftover none (some e) true = some none := by
        cases e with
        | start t => exact absurd rfl (hns t)
        | _ => rfl
      have h3 : handleSkip none e = (none, some e) := rfl
      simp only [Drv.run, Drv.handleEvent, h3, genEnv, h1, h2, DEvent.event, Artifact.dataOf,
        Artifact.deserOf]
    have step : ∀ rest, Drv.run (genEnv track) T.de.toDeser { helper := h, deser := some s }
        (n.events ++ rest)
        = Drv.run (genEnv track) T.de.toDeser
          { helper := n.events.foldl track h, deser := some s } rest := by
      intro rest
      cases n with
      | elem t body =>
        exact T.run_skips track h s s t (.cont (.start t)) rfl (T.next_done ha s hs _ (by simp)) body rest
      | emptyElem t => exact leaf _ (by simp) (by simp) rest
      | leaf e he =>
        refine leaf e ?_ ?_ rest
        · intro n hn; rw [hn] at he; cases he
        · intro n hn; rw [hn] at he; cases he
    simp only [Nodes.events, List.append_assoc, List.foldl_append]
    rw [step, SeqTy.run_done_nodes T ha track s hs ns]

/-- **C87, finding.** If only optional children are left, then an element of another name, which
`xs:any` allows, ends the reading of the fields: whatever follows (`more`), also elements that have
a field, is skipped without an error, and the value is that of the children read so far. -/
theorem C87_open_sequence_loses_rest (T : SeqTy H A C V W) (ha : T.allowAny = true)
    (hel : T.isElement = true) (track : H → Event → H) (h : H) (s : SeqSt A C V) (i : Nat)
    (hs : s.pos = .at_ i none) (hi : i < T.fields.length) (t : Tag) (hF : T.Foreign i t) (hO : T.Optional i)
    (vss : List (List V)) (hv : ∀ h, finishFields h T.fields s.vals = .ok vss)
    (body more : Nodes) (n : Str) (rest : List Event) :
    Drv.run (genEnv track) T.de.toDeser { helper := h, deser := some s }
      ((Node.elem t body).events ++ (more.events ++ .end_ n :: rest)) = .done (T.build s.attrs vss) rest := by
  have hc : T.next s (track h (.start t)) (.start t)
      = .ok ⟨.deser { s with pos := .done }, .cont (.start t), true⟩ :=
    T.loop_passes ha t _ (T.fields.length - i) i _ s none false rfl (by simp only [SeqTy.fuel]; omega)
      hi hF hO hs
  rw [T.run_skips track h s _ t _ rfl hc, T.run_done_nodes ha track _ rfl]
  generalize more.events.foldl track ((Node.elem t body).events.foldl track h) = g
  have h1 : callDeser T.de.toDeser (some { s with pos := .done }) (track g (.end_ n)) (.end_ n)
      = .ok (⟨.data (T.build s.attrs vss), .none, false⟩, track g (.end_ n)) := by
    show (T.next _ (track g (.end_ n)) (.end_ n)).map _ = _
    simp only [SeqTy.next, SeqTy.fuel, SeqTy.loop, SeqTy.round, SeqTy.atEnd, SeqTy.flush, hv, hel, if_true]
    rfl
  simp only [Drv.run, Drv.handleEvent, handleSkip, genEnv, h1, leftover, DEvent.event, Artifact.dataOf]

end

/-! ## `xs:all` -/

section
variable {H A C V W : Type}

/-- What the wildcard may take: elements that have the name of no field, with any content, and
everything that is no element. -/
def SeqTy.Strange (T : SeqTy H A C V W) : Nodes → Prop
  | .nil => True
  | .cons (.elem t _) ns => T.Foreign 0 t ∧ T.Strange ns
  | .cons (.emptyElem t) ns => T.Foreign 0 t ∧ T.Strange ns
  | .cons (.leaf _ _) ns => T.Strange ns

theorem findAlt_foreign (h : H) (t : Tag) : ∀ (fs : List (Field H C V)) (i : Nat),
    (∀ f ∈ fs, ∃ w, f.want = some w ∧ ∀ h, w h t = false) → findAlt h t fs i = none := by
  intro fs
  induction fs with
  | nil => intro i _; rfl
  | cons f fs ih =>
    intro i hf
    obtain ⟨w, hw, h0⟩ := hf f List.mem_cons_self
    simp only [findAlt, hw, h0, Bool.false_eq_true, if_false]
    exact ih _ fun g hg => hf g (List.mem_cons_of_mem _ hg)

theorem SeqTy.allGroups_foreign (T : SeqTy H A C V W) (h : H) (e : Event) (any : Bool) (s : ASt A C V)
    (fb : Option (APos C)) : ∀ (fs : List (Field H C V)) (i : Nat), (∀ f ∈ fs, f.want.isSome = true) →
    T.allGroups h fs i e any s fb
      = .ok (.toParent e (T.allowAny || any), { s with pos := fb.getD .init }, none) := by
  intro fs
  induction fs with
  | nil => intro i _; rfl
  | cons f fs ih =>
    intro i hf
    rw [SeqTy.allGroups, if_pos (hf f List.mem_cons_self)]
    exact ih _ fun g hg => hf g (List.mem_cons_of_mem _ hg)

theorem SeqTy.Foreign.mem {T : SeqTy H A C V W} {t : Tag} (hF : T.Foreign 0 t) :
    ∀ f ∈ T.fields, ∃ w, f.want = some w ∧ ∀ h, w h t = false := by
  intro f hf
  obtain ⟨j, hj, rfl⟩ := List.mem_iff_getElem.mp hf
  exact hF j _ (Nat.zero_le _) (List.getElem?_eq_getElem hj)

/-- Between two children, whatever has no field is handed back. -/
theorem SeqTy.allNext_strange (T : SeqTy H A C V W) (ha : T.allowAny = true) (s : ASt A C V)
    (hs : s.pos.idle) (h : H) {e : Event} (hne : ∀ n, e ≠ .end_ n)
    (hF : ∀ t, tagOf e = some t → T.Foreign 0 t) :
    T.allNext s h e = .ok ⟨.deser s, .cont e, true⟩ := by
  have hfind : T.allFind h e s (some s.pos) = .ok (.toParent e true, s, none) := by
    unfold SeqTy.allFind
    cases ht : tagOf e with
    | none => simp only [ha, Option.getD_some]
    | some t =>
      have hm := (hF t ht).mem
      simp only [findAlt_foreign h t T.fields 0 hm]
      rw [T.allGroups_foreign h e false s _ T.fields 0
        (fun f hf => by obtain ⟨w, hw, -⟩ := hm f hf; rw [hw]; rfl)]
      simp only [ha, Bool.true_or, Option.getD_some]
  have hr : T.allRound h e s none = .ok (.ret ⟨.deser s, .cont e, true⟩) := by
    unfold SeqTy.allRound
    cases hp : s.pos with
    | at_ i c => rw [hp] at hs; exact absurd hs (by simp [APos.idle])
    | _ =>
      rw [hp] at hfind
      cases e with
      | end_ n => exact absurd rfl (hne n)
      | _ =>
        simp only [Option.getD_none, hfind, ARound.after, EHO.toParent]
  simp only [SeqTy.allNext, SeqTy.allLoop, hr]

/-- **C87** for `xs:all`: between any two children, and before the first one and after the last one,
everything that has no field is skipped, and the state is the one before: the rest of the
document is read as if it were absent. -/
theorem C87_open_all_skips (T : SeqTy H A C V W) (ha : T.allowAny = true) (track : H → Event → H)
    (s : ASt A C V) (hs : s.pos.idle) : ∀ (ns : Nodes), T.Strange ns → ∀ (h : H) (rest : List Event),
    Drv.run (genEnv track) T.allDe.toDeser { helper := h, deser := some s } (ns.events ++ rest)
      = Drv.run (genEnv track) T.allDe.toDeser
        { helper := ns.events.foldl track h, deser := some s } rest
  | .nil, _, h, rest => rfl
  | .cons n ns, hS, h, rest => by
    have call : ∀ (e : Event), (∀ n, e ≠ .end_ n) → (∀ t, tagOf e = some t → T.Foreign 0 t) →
        callDeser T.allDe.toDeser (some s) (track h e) e
          = .ok (⟨.deser s, .cont e, true⟩, track h e) := by
      intro e hne hF
      show (T.allNext s (track h e) e).map _ = _
      rw [T.allNext_strange ha s hs _ hne hF]
      rfl
    have leaf : ∀ (e : Event), (∀ n, e ≠ .end_ n) → (∀ t, e ≠ .start t) →
        (∀ t, tagOf e = some t → T.Foreign 0 t) → ∀ rest,
        Drv.run (genEnv track) T.allDe.toDeser { helper := h, deser := some s } (e :: rest)
        = Drv.run (genEnv track) T.allDe.toDeser { helper := track h e, deser := some s } rest := by
      intro e hne hns hF rest
      have h2 : leftover none (some e) true = some none := by
        cases e with
        | start t => exact absurd rfl (hns t)
        | _ => rfl
      have h3 : handleSkip none e = (none, some e) := rfl
      simp only [Drv.run, Drv.handleEvent, h3, genEnv, call e hne hF, h2, DEvent.event, Artifact.dataOf,
        Artifact.deserOf]
    have tr : ∀ (es : List Event) (g : H), trackAll (genEnv track) g es = es.foldl track g := by
      intro es
      induction es with
      | nil => intro g; rfl
      | cons e es ih => intro g; exact ih _
    have step : (∀ rest, Drv.run (genEnv track) T.allDe.toDeser { helper := h, deser := some s }
        (n.events ++ rest)
        = Drv.run (genEnv track) T.allDe.toDeser
          { helper := n.events.foldl track h, deser := some s } rest) ∧ T.Strange ns := by
      cases n with
      | elem t body =>
        refine ⟨fun rest => ?_, hS.2⟩
        have := C02_skip_exactly_one_element (genEnv track) T.allDe.toDeser
          { helper := h, deser := some s } t t body rest _ _ rfl
          (call (.start t) (by simp) (by intro t' ht; cases ht; exact hS.1)) rfl rfl rfl
        rw [this, tr]
        rfl
      | emptyElem t =>
        exact ⟨leaf _ (by simp) (by simp) (by intro t' ht; cases ht; exact hS.1), hS.2⟩
      | leaf e he =>
        refine ⟨leaf e ?_ ?_ ?_, hS⟩
        · intro n hn; rw [hn] at he; cases he
        · intro n hn; rw [hn] at he; cases he
        · intro t ht
          cases e with
          | start t => cases he
          | empty t => cases he
          | _ => cases ht
    simp only [Nodes.events, List.append_assoc, List.foldl_append]
    rw [step.1, C87_open_all_skips T ha track s hs ns step.2]

/-- **C03, finding**, for `xs:all`: between two children a truncated document is never ended. -/
theorem C03_open_all_diverges_on_truncated (T : SeqTy H A C V W) (ha : T.allowAny = true)
    (track : H → Event → H) (s : ASt A C V) (hs : s.pos.idle) (h : H) (k : Nat) :
    (Drv.run (genEnv track) T.allDe.toDeser { helper := h, deser := some s }
      (List.replicate k .eof)).decided = false := by
  induction k generalizing h with
  | zero => rfl
  | succ k ih =>
    have h1 : callDeser T.allDe.toDeser (some s) (track h .eof) .eof
        = .ok (⟨.deser s, .cont .eof, true⟩, track h .eof) := by
      show (T.allNext s (track h .eof) .eof).map _ = _
      rw [T.allNext_strange ha s hs _ (by simp) (by intro t ht; cases ht)]
      rfl
    simp only [List.replicate_succ, Drv.run, Drv.handleEvent, handleSkip, genEnv, h1, leftover,
      DEvent.event, if_true, Artifact.dataOf, Artifact.deserOf]
    exact ih (track h .eof)

end

/-! ## Non-vacuity -/

/-- `<xs:sequence><xs:element name="a"/><xs:any/><xs:element name="b" minOccurs="m"/></xs:sequence>`. -/
def openBetween (m : Nat) : SeqTy Unit Unit Str Str (List (List Str)) where
  fields :=
    [{ name := "a".toList
       want := some fun _ t => t.name == "a".toList
       «min» := 1
       «max» := .bounded 1
       de := simpleDe (fun _ => none) (.value 2) fun _ s => .ok s },
     { name := "b".toList
       want := some fun _ t => t.name == "b".toList
       «min» := m
       «max» := .bounded 1
       de := simpleDe (fun _ => none) (.value 2) fun _ s => .ok s }]
  allowAny := true
  ofTag := fun _ _ => .ok ()
  attrs0 := ()
  build := fun _ vs => vs

/-- `<r><a>1</a><x>..</x><b>2</b></r>` -/
def betweenDoc : List Event :=
  [.start ⟨"r".toList, []⟩, .start ⟨"a".toList, []⟩, .text "1".toList, .end_ "a".toList,
    .start ⟨"x".toList, []⟩, .text "..".toList, .end_ "x".toList,
    .start ⟨"b".toList, []⟩, .text "2".toList, .end_ "b".toList, .end_ "r".toList, .eof]

/-- With a required `b` the document is read, … -/
example : Drv.run (genEnv fun h _ => h) (openBetween 1).de.toDeser { helper := () } betweenDoc
    = .done [["1".toList], ["2".toList]] [.eof] := rfl

/-- **C87, finding**: … and with an optional `b`, although the document is valid, the value of `b` is
lost. -/
theorem C87_open_sequence_loses_element :
    Drv.run (genEnv fun h _ => h) (openBetween 0).de.toDeser { helper := () } betweenDoc
      = .done [["1".toList], []] [.eof] := rfl

/-- `<xs:sequence><xs:element name="a"/><xs:any/><xs:element name="b" minOccurs="0"/>
<xs:element name="c"/></xs:sequence>`. -/
def openThree : SeqTy Unit Unit Str Str (List (List Str)) :=
  { openBetween 0 with
    fields := (openBetween 0).fields ++
      [{ name := "c".toList
         want := some fun _ t => t.name == "c".toList
         «min» := 1
         «max» := .bounded 1
         de := simpleDe (fun _ => none) (.value 2) fun _ s => .ok s }] }

/-- **C87, finding**: in the valid document `<r><a>1</a><x/><b>2</b><c>3</c></r>`, where `x` is written
with two tags, the element `b` is skipped because it comes before the required `c`. -/
theorem C87_open_sequence_loses_middle :
    Drv.run (genEnv fun h _ => h) openThree.de.toDeser { helper := () }
      [.start ⟨"r".toList, []⟩, .start ⟨"a".toList, []⟩, .text "1".toList, .end_ "a".toList,
        .start ⟨"x".toList, []⟩, .end_ "x".toList,
        .start ⟨"b".toList, []⟩, .text "2".toList, .end_ "b".toList,
        .start ⟨"c".toList, []⟩, .text "3".toList, .end_ "c".toList, .end_ "r".toList, .eof]
      = .done [["1".toList], [], ["3".toList]] [.eof] := rfl

/-- Without `x` it is read. -/
example :
    Drv.run (genEnv fun h _ => h) openThree.de.toDeser { helper := () }
      [.start ⟨"r".toList, []⟩, .start ⟨"a".toList, []⟩, .text "1".toList, .end_ "a".toList,
        .start ⟨"b".toList, []⟩, .text "2".toList, .end_ "b".toList,
        .start ⟨"c".toList, []⟩, .text "3".toList, .end_ "c".toList, .end_ "r".toList, .eof]
      = .done [["1".toList], ["2".toList], ["3".toList]] [.eof] := rfl

example : (openBetween 0).Foreign 1 ⟨"x".toList, []⟩ ∧ (openBetween 0).Optional 1 := by
  constructor
  · intro j f hj hf
    match j, hj with
    | 1, _ => cases hf; exact ⟨_, rfl, fun _ => by decide⟩
    | j + 2, _ => simp [openBetween] at hf
  · intro j f hj hf
    match j, hj with
    | 1, _ => cases hf; rfl
    | j + 2, _ => simp [openBetween] at hf

example : (openBetween 1).Foreign 0 ⟨"x".toList, []⟩ := by
  intro j f hj hf
  match j with
  | 0 => cases hf; exact ⟨_, rfl, fun _ => by decide⟩
  | 1 => cases hf; exact ⟨_, rfl, fun _ => by decide⟩
  | j + 2 => simp [openBetween] at hf

/-- The same fields in any order: nothing is lost. -/
example : Drv.run (genEnv fun h _ => h) (openBetween 0).allDe.toDeser { helper := () } betweenDoc
    = .done [["1".toList], ["2".toList]] [.eof] := rfl

example : (openBetween 0).Strange (.cons (.leaf (.comment []) rfl) (.cons (.elem ⟨"x".toList, []⟩
    (.cons (.emptyElem ⟨"a".toList, []⟩) .nil)) .nil)) := by
  refine ⟨?_, trivial⟩
  intro j f hj hf
  match j with
  | 0 => cases hf; exact ⟨_, rfl, fun _ => by decide⟩
  | 1 => cases hf; exact ⟨_, rfl, fun _ => by decide⟩
  | j + 2 => simp [openBetween] at hf

end Verif.Gen

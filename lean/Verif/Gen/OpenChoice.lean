import Verif.Gen.Open

/-!
# Choices with open content (C87)

A struct whose content is a choice that contains `xs:any`, generated without a type for wildcards:
the enum has no variant for the wildcard (generator/data/complex.rs:614-620), and its
`find_suitable` (renderer deserialize.rs:1149-1254) hands elements without a variant back to the
struct (2191-2287) and the driver.
-/

namespace Verif.Gen

open Verif.Rt Verif.Occurs

section
variable {H A C V W U : Type}

/-! ## Specification -/

/-- No alternative has this name, and all alternatives are elements. -/
def EnumTy.Foreign (E : EnumTy H C V W) (t : Tag) : Prop :=
  ∀ f ∈ E.alts, ∃ w, f.want = some w ∧ ∀ h, w h t = false

/-- What the wildcard may take. -/
def EnumTy.Strange (E : EnumTy H C V W) : Nodes → Prop
  | .nil => True
  | .cons (.elem t _) ns => E.Foreign t ∧ E.Strange ns
  | .cons (.emptyElem t) ns => E.Foreign t ∧ E.Strange ns
  | .cons (.leaf _ _) ns => E.Strange ns

/-! ## Lemmas -/

/-- A deserializer that hands a piece of content back without changing its state, and allows any
content, does not see this content. -/
theorem run_unseen (d : GDe H C V) (track : H → Event → H) (s : C) (P : Tag → Prop)
    (hand : ∀ h e, (∀ n, e ≠ .end_ n) → (∀ t, tagOf e = some t → P t) →
      d.next s h e = .ok ⟨.deser s, .cont e, true⟩)
    (n : Node) (hn : ∀ t, (∀ b, n = .elem t b → P t) ∧ (n = .emptyElem t → P t)) (h : H) (rest : List Event) :
    Drv.run (genEnv track) d.toDeser { helper := h, deser := some s } (n.events ++ rest)
      = Drv.run (genEnv track) d.toDeser { helper := n.events.foldl track h, deser := some s } rest := by
  have call : ∀ (e : Event), (∀ n, e ≠ .end_ n) → (∀ t, tagOf e = some t → P t) →
      callDeser d.toDeser (some s) (track h e) e = .ok (⟨.deser s, .cont e, true⟩, track h e) := by
    intro e hne hF
    show (d.next s (track h e) e).map _ = _
    rw [hand _ e hne hF]
    rfl
  have leaf : ∀ (e : Event), (∀ n, e ≠ .end_ n) → (∀ t, e ≠ .start t) →
      (∀ t, tagOf e = some t → P t) →
      Drv.run (genEnv track) d.toDeser { helper := h, deser := some s } (e :: rest)
      = Drv.run (genEnv track) d.toDeser { helper := track h e, deser := some s } rest := by
    intro e hne hns hF
    have h2 : leftover none (some e) true = some none := by
      cases e with
      | start t => exact absurd rfl (hns t)
      | _ => rfl
    have h3 : handleSkip none e = (none, some e) := rfl
    simp only [Drv.run, Drv.handleEvent, h3, genEnv, call e hne hF, h2, DEvent.event, Artifact.dataOf,
      Artifact.deserOf]
  have tr : ∀ (es : List Event) (g : H), trackAll (genEnv track) g es = es.foldl track g := by
    intro es
    induction es with
    | nil => intro g; rfl
    | cons e es ih => intro g; exact ih _
  cases n with
  | elem t body =>
    have := C02_skip_exactly_one_element (genEnv track) d.toDeser
      { helper := h, deser := some s } t t body rest _ _ rfl
      (call (.start t) (by simp) (by intro t' ht; cases ht; exact (hn t).1 body rfl)) rfl rfl rfl
    rw [this, tr]
    rfl
  | emptyElem t => exact leaf _ (by simp) (by simp) (by intro t' ht; cases ht; exact (hn t).2 rfl)
  | leaf e he =>
    refine leaf e ?_ ?_ ?_
    · intro n hn; rw [hn] at he; cases he
    · intro n hn; rw [hn] at he; cases he
    · intro t ht
      cases e with
      | start t => cases he
      | empty t => cases he
      | _ => cases ht

theorem EnumTy.findGroups_foreign (E : EnumTy H C V W) (h : H) (e : Event) (any : Bool) (st : CPos C V W) :
    ∀ (fs : List (Field H C V)) (i : Nat), (∀ f ∈ fs, f.want.isSome = true) →
    E.findGroups h fs i e any st = .ok (.toParent e (E.allowAny || any), .init) := by
  intro fs
  induction fs with
  | nil => intro i _; rfl
  | cons f fs ih =>
    intro i hf
    rw [EnumTy.findGroups, if_pos (hf f List.mem_cons_self)]
    exact ih _ fun g hg => hf g (List.mem_cons_of_mem _ hg)

/-- The enum does not begin with what has no variant. -/
theorem EnumTy.init_strange (E : EnumTy H C V W) (ha : E.allowAny = true) (hg : E.isElement = false)
    (h : H) {e : Event} (hne : ∀ n, e ≠ .end_ n) (hF : ∀ t, tagOf e = some t → E.Foreign t) :
    E.init h e = .ok ⟨.none, .cont e, true⟩ := by
  have hfind : E.findSuitable h e = .ok (.toParent e true, .init) := by
    unfold EnumTy.findSuitable
    cases ht : tagOf e with
    | none => simp only [ha]
    | some t =>
      have hm := hF t ht
      simp only [findAlt_foreign h t E.alts 0 hm]
      rw [E.findGroups_foreign h e false _ E.alts 0
        (fun f hf => by obtain ⟨w, hw, -⟩ := hm f hf; rw [hw]; rfl)]
      simp only [ha, Bool.true_or]
  have hr : E.round h e .init = .ok (.ret ⟨.deser .init, .cont e, true⟩) := by
    cases e with
    | end_ n => exact absurd rfl (hne n)
    | _ => simp only [EnumTy.round, hfind, CRound.after, EHO.toParent, CRound.stop]
  simp only [EnumTy.init, hg, Bool.false_eq_true, if_false, EnumTy.next, EnumTy.loop, hr, CRound.resume,
    CPos.begun, CPos.isInit, if_true]

/-- Between two values of the choice. -/
def KPos.between : KPos C → Prop
  | .init | .next => True
  | _ => False

theorem ContentTy.next_strange (T : ContentTy H A (CPos C V W) W U) (E : EnumTy H C V W)
    (hT : T.content.de = E.de) (hel : T.isElement = true) (ha : E.allowAny = true)
    (hg : E.isElement = false) (s : KSt A (CPos C V W) W) (hs : s.pos.between) (h : H) {e : Event}
    (hne : ∀ n, e ≠ .end_ n) (hF : ∀ t, tagOf e = some t → E.Foreign t) :
    T.next s h e = .ok ⟨.deser s, .cont e, true⟩ := by
  have hi : T.content.de.init h e = .ok ⟨.none, .cont e, true⟩ := by
    rw [hT]; exact E.init_strange ha hg h hne hF
  have hE : EHO.fromEventEnd (.cont e) true = .brk (.cont e) true := by
    cases e with
    | end_ n => exact absurd rfl (hne n)
    | _ => rfl
  have hr : T.round h e s none = .ok (.ret ⟨.deser s, .cont e, true⟩) := by
    obtain ⟨a, vs, pos⟩ := s
    cases pos with
    | content c => exact absurd hs (by simp [KPos.between])
    | done => exact absurd hs (by simp [KPos.between])
    | _ =>
      cases e with
      | end_ n => exact absurd rfl (hne n)
      | _ =>
        simp only [ContentTy.round, ContentTy.after, hi, ContentTy.handle, ContentTy.handleNone, hel,
          if_true, hE, ContentTy.stop, Option.getD_none, Option.getD_some]
  simp only [ContentTy.next, ContentTy.loop, hr]

/-- **C87** for choices, repeated or not: before the first and between any two values of the choice,
everything that has no variant is skipped, and the state is the one before: the rest of the
document is read as if it were absent. -/
theorem C87_open_choice_skips (T : ContentTy H A (CPos C V W) W U) (E : EnumTy H C V W)
    (hT : T.content.de = E.de) (hel : T.isElement = true) (ha : E.allowAny = true)
    (hg : E.isElement = false) (track : H → Event → H) (s : KSt A (CPos C V W) W) (hs : s.pos.between) :
    ∀ (ns : Nodes), E.Strange ns → ∀ (h : H) (rest : List Event),
    Drv.run (genEnv track) T.de.toDeser { helper := h, deser := some s } (ns.events ++ rest)
      = Drv.run (genEnv track) T.de.toDeser
        { helper := ns.events.foldl track h, deser := some s } rest
  | .nil, _, h, rest => rfl
  | .cons n ns, hS, h, rest => by
    have h1 : (∀ t, (∀ b, n = .elem t b → E.Foreign t) ∧ (n = .emptyElem t → E.Foreign t)) ∧
        E.Strange ns := by
      cases n with
      | elem t b => exact ⟨fun t' => ⟨fun b' hb => by cases hb; exact hS.1, fun hb => by cases hb⟩, hS.2⟩
      | emptyElem t => exact ⟨fun t' => ⟨(fun b' hb => by cases hb), fun hb => by cases hb; exact hS.1⟩, hS.2⟩
      | leaf e he => exact ⟨fun t' => ⟨(fun b' hb => by cases hb), fun hb => by cases hb⟩, hS⟩
    simp only [Nodes.events, List.append_assoc, List.foldl_append]
    rw [run_unseen T.de track s E.Foreign
      (fun h e hne hF => T.next_strange E hT hel ha hg s hs h hne hF) n h1.1,
      C87_open_choice_skips T E hT hel ha hg track s hs ns h1.2]

/-- **C03, finding**, for choices: between two values a truncated document is never ended. -/
theorem C03_open_choice_diverges_on_truncated (T : ContentTy H A (CPos C V W) W U) (E : EnumTy H C V W)
    (hT : T.content.de = E.de) (hel : T.isElement = true) (ha : E.allowAny = true)
    (hg : E.isElement = false) (track : H → Event → H) (s : KSt A (CPos C V W) W) (hs : s.pos.between)
    (h : H) (k : Nat) :
    (Drv.run (genEnv track) T.de.toDeser { helper := h, deser := some s }
      (List.replicate k .eof)).decided = false := by
  induction k generalizing h with
  | zero => rfl
  | succ k ih =>
    have h1 : callDeser T.de.toDeser (some s) (track h .eof) .eof
        = .ok (⟨.deser s, .cont .eof, true⟩, track h .eof) := by
      show (T.next s (track h .eof) .eof).map _ = _
      rw [T.next_strange E hT hel ha hg s hs _ (by simp) (by intro t ht; cases ht)]
      rfl
    simp only [List.replicate_succ, Drv.run, Drv.handleEvent, handleSkip, genEnv, h1, leftover,
      DEvent.event, if_true, Artifact.dataOf, Artifact.deserOf]
    exact ih (track h .eof)

end

/-! ## Non-vacuity -/

/-- `<xs:choice maxOccurs="unbounded"><xs:element name="a"/><xs:element name="b"/><xs:any/></xs:choice>`,
the enum. -/
def openAlts : EnumTy Unit Str Str (Nat × List Str) where
  alts :=
    [{ name := "a".toList
       want := some fun _ t => t.name == "a".toList
       «min» := 1
       «max» := .bounded 1
       de := simpleDe (fun _ => none) (.value 2) fun _ s => .ok s },
     { name := "b".toList
       want := some fun _ t => t.name == "b".toList
       «min» := 1
       «max» := .bounded 1
       de := simpleDe (fun _ => none) (.value 2) fun _ s => .ok s }]
  allowAny := true
  isElement := false
  check := fun _ _ => .ok ()
  build := fun i vs => (i, vs)

/-- The struct. -/
def openChoice : ContentTy Unit Unit (CPos Str Str (Nat × List Str)) (Nat × List Str)
    (List (Nat × List Str)) where
  content :=
    { name := "content".toList
      want := none
      «min» := 0
      «max» := .unbounded
      de := openAlts.de }
  ofTag := fun _ _ => .ok ()
  attrs0 := ()
  build := fun _ vs => vs

example : Drv.run (genEnv fun h _ => h) openChoice.de.toDeser { helper := () } betweenDoc
    = .done [(0, ["1".toList]), (1, ["2".toList])] [.eof] := rfl

example : openAlts.Strange (.cons (.elem ⟨"x".toList, []⟩ (.cons (.emptyElem ⟨"a".toList, []⟩) .nil)) .nil) := by
  refine ⟨?_, trivial⟩
  intro f hf
  simp only [openAlts, List.mem_cons, List.not_mem_nil, or_false] at hf
  rcases hf with rfl | rfl
  · exact ⟨_, rfl, fun _ => by decide⟩
  · exact ⟨_, rfl, fun _ => by decide⟩

end Verif.Gen

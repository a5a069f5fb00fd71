import Verif.Gen.Ends

/-!
# Structs without fields for their content (C03, C04, C87)

The deserializer generated for types whose content has no field: empty types, and types whose only
content is `xs:any` when no type for wildcards is generated. Models `StructMode::Empty`,
renderer deserialize.rs:2117-2163 in xsd-parser/src/pipeline/renderer/steps/quick_xml.
-/

namespace Verif.Gen

open Verif.Rt Verif.Occurs

/-- A struct in the mode `Empty`. `allowAny` and `mixed` are flags of the type; `isElement` is
`represents_element`; `ofTag` is `from_bytes_start`. -/
structure EmptyTy (H A W : Type) where
  allowAny : Bool := false
  mixed : Bool := false
  isElement : Bool := true
  ofTag : H → Tag → Except GErr A
  attrs0 : A
  build : A → W

section
variable {H A W : Type}

/-- `finish`, 2490-2520. -/
def EmptyTy.finish (T : EmptyTy H A W) (a : A) (_ : H) : Except GErr W := .ok (T.build a)

/-- Text is read by the struct itself, `mixed_handler`, 2133-2143. -/
def EmptyTy.takes (T : EmptyTy H A W) : Event → Bool
  | .text _ | .cdata _ => T.mixed
  | _ => false

/-- `render_deserializer_fn_next_empty`, 2117-2163. The state is always `Init__`. -/
def EmptyTy.next (T : EmptyTy H A W) (a : A) (h : H) (e : Event) : Except GErr (Output A W) :=
  match e with
  | .end_ n =>
    (T.finish a h).map fun w => ⟨.data w, if T.isElement then .none else .cont (.end_ n), false⟩
  | e =>
    if T.takes e then .ok ⟨.deser a, .none, T.allowAny⟩ else .ok ⟨.deser a, .brk e, T.allowAny⟩

/-- `init` for elements (1041-1052) and groups (2054-2097). The state after a call of `next` is
`Init__`, so that a group has never begun. -/
def EmptyTy.init (T : EmptyTy H A W) (h : H) (e : Event) : Except GErr (Output A W) :=
  if T.isElement then initFromStart T.ofTag T.finish h e
  else
    match T.next T.attrs0 h e with
    | .error err => .error err
    | .ok out =>
      .ok { out with artifact :=
        match out.artifact with
        | .deser _ => .none
        | a => a }

/-- The generated deserializer. -/
def EmptyTy.de (T : EmptyTy H A W) : GDe H A W := ⟨T.init, T.next, T.finish⟩

/-! ## Specification -/

/-- What may stand in an element without content: padding, references (which the driver
ignores), and text if the type is mixed. -/
def EmptyTy.Ignored (T : EmptyTy H A W) : Event → Bool
  | .ref _ => true
  | .text s => T.mixed || s.all isUnicodeWs
  | .cdata _ => T.mixed
  | .comment _ | .pi _ | .decl _ | .docType _ => true
  | _ => false

/-! ## Without `xs:any` -/

theorem EmptyTy.next_other (T : EmptyTy H A W) (a : A) (h : H) {e : Event} (he : ∀ n, e ≠ .end_ n) :
    T.next a h e = .ok ⟨.deser a, if T.takes e then .none else .brk e, T.allowAny⟩ := by
  unfold EmptyTy.next
  cases e with
  | end_ n => exact absurd rfl (he n)
  | _ => simp only; split <;> rfl

theorem EmptyTy.de_ends (T : EmptyTy H A W) (ha : T.allowAny = false) (ht : ∀ h t, Live (T.ofTag h t)) :
    T.de.Ends := by
  have next : ∀ a h e, Live (T.next a h e) ∧ ∀ out, T.next a h e = .ok out → Fits e out := by
    intro a h e
    cases e with
    | end_ n =>
      refine ⟨live_ok _, fun out ho => ?_⟩
      cases ho
      refine ⟨?_, fun _ _ => .inr ⟨_, rfl⟩, fun h => by cases h⟩
      intro x hx
      simp only at hx
      split at hx
      · cases hx
      · cases hx; rfl
    | _ =>
      rw [T.next_other a h (by simp)]
      refine ⟨live_ok _, fun out ho => ?_⟩
      cases ho
      refine ⟨?_, (fun n hn => by cases hn), fun he => ?_⟩
      · intro x hx
        simp only at hx
        split at hx <;> cases hx
      · cases he
        try exact ⟨rfl, ha⟩
  by_cases hel : T.isElement = true
  · refine ends_of_element (d := T.de) (f := T.ofTag) (fin := T.finish) ?_ ht (fun _ _ => live_ok _)
      (fun _ _ => live_ok _) (fun c h e out ho => ((next c h e).2 out ho).1) ?_
      (fun c h out ho => ((next c h .eof).2 out ho).2.2 rfl) (fun c h e => (next c h e).1)
    · intro h e
      simp only [EmptyTy.de, EmptyTy.init, hel, if_true]
    · intro c h n out ho x hx
      rcases ((next c h (.end_ n)).2 out ho).2.1 n rfl with h1 | h1
      · exact absurd hx (h1 x)
      · exact h1
  · have init : ∀ h e out, T.de.init h e = .ok out → ∃ o, T.next T.attrs0 h e = .ok o ∧
        out.event = o.event ∧ out.allowAny = o.allowAny := by
      intro h e out ho
      simp only [EmptyTy.de, EmptyTy.init, hel, Bool.false_eq_true, if_false] at ho
      cases hx : T.next T.attrs0 h e with
      | error err => rw [hx] at ho; cases ho
      | ok o => rw [hx] at ho; cases ho; exact ⟨o, rfl, rfl, rfl⟩
    refine ⟨?_, ?_, ?_, ?_, ?_, fun _ _ => live_ok _⟩
    · intro st h e out ho x hx
      cases st with
      | some c => exact ((next c h e).2 out ho).1 x hx
      | none =>
        obtain ⟨o, h1, h2, -⟩ := init h e out ho
        exact ((next _ h e).2 o h1).1 x (by rw [← h2, hx])
    · intro h e out hne ho _ x hx
      obtain ⟨o, h1, h2, -⟩ := init h e out ho
      rw [T.next_other _ h hne] at h1
      cases h1
      rw [h2] at hx
      simp only at hx
      split at hx <;> cases hx
    · intro c h n out ho x hx
      rcases ((next c h (.end_ n)).2 out ho).2.1 n rfl with h1 | h1
      · exact absurd hx (h1 x)
      · exact h1
    · intro st h out ho
      cases st with
      | some c => exact ((next c h .eof).2 out ho).2.2 rfl
      | none =>
        obtain ⟨o, h1, h2, h3⟩ := init h _ out ho
        rw [h2, h3]
        exact ((next _ h _).2 o h1).2.2 rfl
    · intro st h e
      cases st with
      | some c => exact (next c h e).1
      | none =>
        simp only [GDe.call, EmptyTy.de, EmptyTy.init, hel, Bool.false_eq_true, if_false]
        have := (next T.attrs0 h e).1
        cases hx : T.next T.attrs0 h e with
        | error err => exact live_err fun he => this (by rw [hx, he])
        | ok o => exact live_ok _

/-- **C03** for types without content: reading ends for every list of events. -/
theorem C03_empty_struct_terminates (T : EmptyTy H A W) (ha : T.allowAny = false)
    (ht : ∀ h t, T.ofTag h t ≠ .error .diverged) (track : H → Event → H) (st : Drv H A)
    (doc : List Event) :
    (Drv.run (genEnv track) T.de.toDeser st (doc ++ [.eof])).decided = true :=
  C03_deserialize_terminates_partial _ _ (T.de_ends ha ht).atEof st doc

/-- The driver goes on within the element. -/
theorem EmptyTy.run_ignored (T : EmptyTy H A W) (track : H → Event → H) (a : A) (h : H) {e : Event}
    (hi : T.Ignored e = true) (rest : List Event) :
    Drv.run (genEnv track) T.de.toDeser { helper := h, deser := some a } (e :: rest)
      = Drv.run (genEnv track) T.de.toDeser { helper := track h e, deser := some a } rest := by
  have hne : ∀ n, e ≠ .end_ n := by intro n hn; rw [hn] at hi; cases hi
  have h1 : callDeser T.de.toDeser (some a) (track h e) e
      = .ok (⟨.deser a, if T.takes e then .none else .brk e, T.allowAny⟩, track h e) := by
    show (T.next a (track h e) e).map _ = _
    rw [T.next_other a _ hne]
    rfl
  have h2 : leftover none (if T.takes e then DEvent.none else .brk e).event T.allowAny = some none := by
    cases e with
    | text s =>
      by_cases hm : T.mixed = true
      · rw [if_pos (show T.takes (.text s) = true from hm)]; rfl
      · rw [if_neg (show ¬ T.takes (.text s) = true from hm)]
        simp only [EmptyTy.Ignored, Bool.or_eq_true, hm, Bool.false_eq_true, false_or] at hi
        cases T.allowAny <;> simp [DEvent.event, leftover, hi]
    | cdata s =>
      simp only [EmptyTy.Ignored] at hi
      rw [if_pos (show T.takes (.cdata s) = true from hi)]
      rfl
    | _ => first | rfl | (simp [EmptyTy.Ignored] at hi; done)
  simp only [Drv.run, Drv.handleEvent, handleSkip, genEnv, h1, h2, Artifact.dataOf, Artifact.deserOf]

theorem EmptyTy.run_ignoreds (T : EmptyTy H A W) (track : H → Event → H) (a : A) :
    ∀ (es : List Event) (h : H), (∀ e ∈ es, T.Ignored e = true) → ∀ rest,
    Drv.run (genEnv track) T.de.toDeser { helper := h, deser := some a } (es ++ rest)
      = Drv.run (genEnv track) T.de.toDeser { helper := es.foldl track h, deser := some a } rest := by
  intro es
  induction es with
  | nil => intro h _ rest; rfl
  | cons e es ih =>
    intro h hes rest
    rw [List.cons_append, T.run_ignored track a h (hes e List.mem_cons_self)]
    exact ih _ (fun x hx => hes x (List.mem_cons_of_mem _ hx)) rest

theorem EmptyTy.run_start (T : EmptyTy H A W) (hel : T.isElement = true) (track : H → Event → H)
    (h : H) (t : Tag) (a : A) (ha : T.ofTag (track h (.start t)) t = .ok a) (rest : List Event) :
    Drv.run (genEnv track) T.de.toDeser { helper := h } (.start t :: rest)
      = Drv.run (genEnv track) T.de.toDeser { helper := track h (.start t), deser := some a } rest := by
  have h1 : callDeser T.de.toDeser none (track h (.start t)) (.start t)
      = .ok (⟨.deser a, .none, false⟩, track h (.start t)) := by
    show (T.init (track h (.start t)) (.start t)).map _ = _
    simp only [EmptyTy.init, hel, if_true, initFromStart, ha, Except.map]
    rfl
  simp only [Drv.run, Drv.handleEvent, handleSkip, genEnv, h1, leftover, DEvent.event,
    Artifact.dataOf, Artifact.deserOf]

theorem EmptyTy.run_end (T : EmptyTy H A W) (hel : T.isElement = true) (track : H → Event → H)
    (h : H) (n : Str) (a : A) (rest : List Event) :
    Drv.run (genEnv track) T.de.toDeser { helper := h, deser := some a } (.end_ n :: rest)
      = .done (T.build a) rest := by
  have h1 : callDeser T.de.toDeser (some a) (track h (.end_ n)) (.end_ n)
      = .ok (⟨.data (T.build a), .none, false⟩, track h (.end_ n)) := by
    simp [callDeser, GDe.toDeser, EmptyTy.de, EmptyTy.next, EmptyTy.finish, Except.map, hel]
  simp only [Drv.run, Drv.handleEvent, handleSkip, genEnv, h1, leftover, DEvent.event,
    Artifact.dataOf]

/-- **C04** for types without content: the element with nothing in it but what is ignored is read
exactly, and its value consists of its attributes. -/
theorem C04_empty_struct_reads (T : EmptyTy H A W) (hel : T.isElement = true) (track : H → Event → H)
    (h : H) (t : Tag) (n : Str) (a : A) (ha : T.ofTag (track h (.start t)) t = .ok a)
    (es : List Event) (hes : ∀ e ∈ es, T.Ignored e = true) (rest : List Event) :
    Drv.run (genEnv track) T.de.toDeser { helper := h } (.start t :: (es ++ .end_ n :: rest))
      = .done (T.build a) rest := by
  rw [T.run_start hel track h t a ha, T.run_ignoreds track a es _ hes, T.run_end hel]

/-- **C04** for types without content: the first thing that is not ignored is the error, whatever
follows: no content is lost. -/
theorem C04_empty_struct_rejects (T : EmptyTy H A W) (hel : T.isElement = true)
    (hany : T.allowAny = false) (track : H → Event → H)
    (h : H) (t : Tag) (a : A) (ha : T.ofTag (track h (.start t)) t = .ok a)
    (es : List Event) (hes : ∀ e ∈ es, T.Ignored e = true) (e : Event) (he : T.Ignored e = false)
    (hne : ∀ n, e ≠ .end_ n) (rest : List Event) :
    Drv.run (genEnv track) T.de.toDeser { helper := h } (.start t :: (es ++ e :: rest))
      = .fail (.unexpected e) rest := by
  rw [T.run_start hel track h t a ha, T.run_ignoreds track a es _ hes]
  generalize es.foldl track (track h (.start t)) = g
  have h1 : callDeser T.de.toDeser (some a) (track g e) e
      = .ok (⟨.deser a, if T.takes e then .none else .brk e, T.allowAny⟩, track g e) := by
    show (T.next a (track g e) e).map _ = _
    rw [T.next_other a _ hne]
    rfl
  have h0 : T.takes e = false := by
    cases e with
    | text s => simp only [EmptyTy.Ignored, Bool.or_eq_false_iff] at he; exact he.1
    | cdata s => exact he
    | _ => rfl
  have h2 : leftover none (some e) false = none := by
    cases e with
    | text s =>
      simp only [EmptyTy.Ignored, Bool.or_eq_false_iff] at he
      simp [leftover, he.2]
    | end_ n => exact absurd rfl (hne n)
    | _ => first | rfl | (simp [EmptyTy.Ignored] at he; done)
  simp only [h0, Bool.false_eq_true, if_false, hany] at h1
  simp only [Drv.run, Drv.handleEvent, handleSkip, genEnv, h1, h2, DEvent.event, Option.getD_some]

/-! ## With `xs:any` -/

theorem EmptyTy.run_open_leaf (T : EmptyTy H A W) (hany : T.allowAny = true) (track : H → Event → H)
    (a : A) (h : H) {e : Event} (hne : ∀ n, e ≠ .end_ n) (hns : ∀ t, e ≠ .start t) (rest : List Event) :
    Drv.run (genEnv track) T.de.toDeser { helper := h, deser := some a } (e :: rest)
      = Drv.run (genEnv track) T.de.toDeser { helper := track h e, deser := some a } rest := by
  have h1 : callDeser T.de.toDeser (some a) (track h e) e
      = .ok (⟨.deser a, if T.takes e then .none else .brk e, true⟩, track h e) := by
    show (T.next a (track h e) e).map _ = _
    rw [T.next_other a _ hne, hany]
    rfl
  have h2 : leftover none (if T.takes e then DEvent.none else .brk e).event true = some none := by
    split
    · rfl
    · cases e with
      | start t => exact absurd rfl (hns t)
      | _ => rfl
  have h3 : handleSkip none e = (none, some e) := rfl
  simp only [Drv.run, Drv.handleEvent, h3, genEnv, h1, h2, Artifact.dataOf, Artifact.deserOf]

theorem EmptyTy.run_open_nodes (T : EmptyTy H A W) (hany : T.allowAny = true) (track : H → Event → H)
    (a : A) : ∀ (ns : Nodes) (h : H) (rest : List Event),
    ∃ h', Drv.run (genEnv track) T.de.toDeser { helper := h, deser := some a } (ns.events ++ rest)
      = Drv.run (genEnv track) T.de.toDeser { helper := h', deser := some a } rest
  | .nil, h, rest => ⟨h, rfl⟩
  | .cons n ns, h, rest => by
    simp only [Nodes.events, List.append_assoc]
    have step : ∃ h', Drv.run (genEnv track) T.de.toDeser { helper := h, deser := some a }
        (n.events ++ (ns.events ++ rest))
        = Drv.run (genEnv track) T.de.toDeser { helper := h', deser := some a } (ns.events ++ rest) := by
      cases n with
      | elem t body =>
        have h1 : callDeser T.de.toDeser (some a) (track h (.start t)) (.start t)
            = .ok (⟨.deser a, .brk (.start t), true⟩, track h (.start t)) := by
          simp [callDeser, GDe.toDeser, EmptyTy.de, T.next_other a _ (e := .start t) (by simp),
            Except.map, hany, EmptyTy.takes]
        exact ⟨_, C02_skip_exactly_one_element (genEnv track) T.de.toDeser
          { helper := h, deser := some a } t t body _ _ _ rfl h1 rfl rfl rfl⟩
      | emptyElem t =>
        exact ⟨_, T.run_open_leaf hany track a h (by simp) (by simp) _⟩
      | leaf e he =>
        refine ⟨_, T.run_open_leaf hany track a h ?_ ?_ _⟩
        · intro n hn; rw [hn] at he; cases he
        · intro n hn; rw [hn] at he; cases he
    obtain ⟨h1, e1⟩ := step
    obtain ⟨h2, e2⟩ := EmptyTy.run_open_nodes T hany track a ns h1 rest
    exact ⟨h2, e1.trans e2⟩

/-- **C87** for types whose only content is `xs:any`, without a type for it: any well-formed
content, of any depth, is skipped up to the end tag of the element, and the value consists of the
attributes. -/
theorem C87_open_struct_skips_content (T : EmptyTy H A W) (hel : T.isElement = true)
    (hany : T.allowAny = true) (track : H → Event → H) (h : H) (t : Tag) (n : Str) (a : A)
    (ha : T.ofTag (track h (.start t)) t = .ok a) (body : Nodes) (rest : List Event) :
    Drv.run (genEnv track) T.de.toDeser { helper := h } (.start t :: (body.events ++ .end_ n :: rest))
      = .done (T.build a) rest := by
  rw [T.run_start hel track h t a ha]
  obtain ⟨h', e⟩ := T.run_open_nodes hany track a body (track h (.start t)) (.end_ n :: rest)
  rw [e, T.run_end hel]

/-- **C03, finding**: the same types on a truncated document, that is, without the end tag: however
often the end of the file is reported, the driver asks for the next event. -/
theorem C03_open_struct_diverges_on_truncated (T : EmptyTy H A W) (hel : T.isElement = true)
    (hany : T.allowAny = true) (track : H → Event → H) (h : H) (t : Tag) (a : A)
    (ha : T.ofTag (track h (.start t)) t = .ok a) (body : Nodes) (k : Nat) :
    (Drv.run (genEnv track) T.de.toDeser { helper := h }
      (.start t :: (body.events ++ List.replicate k .eof))).decided = false := by
  rw [T.run_start hel track h t a ha]
  obtain ⟨h', e⟩ := T.run_open_nodes hany track a body (track h (.start t)) (List.replicate k .eof)
  rw [e]
  clear e
  induction k generalizing h' with
  | zero => rfl
  | succ k ih =>
    rw [List.replicate_succ, T.run_open_leaf hany track a h' (by simp) (by simp)]
    exact ih _

end

/-! ## Non-vacuity -/

/-- `<xs:complexType>` without content, with the attribute `x`. -/
def emptyTy (allowAny : Bool) : EmptyTy Unit (List Attr) (List Attr) where
  allowAny := allowAny
  ofTag := fun _ t => .ok t.attrs
  attrs0 := []
  build := id

example : ∃ es, (∀ e ∈ es, (emptyTy false).Ignored e = true) ∧ es.length = 2 ∧
    Drv.run (genEnv fun h _ => h) (emptyTy false).de.toDeser { helper := () }
      (.start ⟨"r".toList, [⟨"x".toList, "1".toList⟩]⟩ :: (es ++ .end_ "r".toList :: [.eof]))
      = .done [⟨"x".toList, "1".toList⟩] [.eof] :=
  ⟨[.text " ".toList, .comment "c".toList], by decide, rfl,
    C04_empty_struct_reads (emptyTy false) rfl _ () _ _ _ rfl _ (by decide) _⟩

example : (emptyTy false).Ignored (.text "1".toList) = false ∧
    (emptyTy false).Ignored (.start ⟨"a".toList, []⟩) = false := by decide

example : ∃ body : Nodes, body.events.length = 3 ∧
    Drv.run (genEnv fun h _ => h) (emptyTy true).de.toDeser { helper := () }
      (.start ⟨"r".toList, []⟩ :: (body.events ++ .end_ "r".toList :: [.eof])) = .done [] [.eof] :=
  ⟨.cons (.elem ⟨"a".toList, []⟩ (.cons (.leaf (.text "1".toList) rfl) .nil)) .nil, rfl,
    C87_open_struct_skips_content (emptyTy true) rfl rfl _ () _ _ _ rfl _ _⟩

/-! ## As a group -/

/-- `<xs:sequence minOccurs="0"><xs:any/></xs:sequence>`, a type of its own, without a type for
wildcards. -/
def openGroup : EmptyTy Unit Unit Str where
  allowAny := true
  isElement := false
  ofTag := fun _ _ => .ok ()
  attrs0 := ()
  build := fun _ => []

/-- `<r>` with such a group, and then the optional element `a`. -/
def aroundOpenGroup : SeqTy Unit Unit (Unit ⊕ Str) Str (List (List Str)) where
  fields :=
    [{ name := "group".toList
       want := none
       «min» := 0
       «max» := .bounded 1
       de := Tab.embed openGroup.de .inl (fun | .inl c => some c | .inr _ => none) id },
     { name := "a".toList
       want := some fun _ t => t.name == "a".toList
       «min» := 0
       «max» := .bounded 1
       de := Tab.embed (simpleDe (fun _ => none) (.value 2) fun _ s => .ok s) .inr
        (fun | .inr c => some c | .inl _ => none) id }]
  ofTag := fun _ _ => .ok ()
  attrs0 := ()
  build := fun _ vs => vs

/-- **C87, finding.** A group without fields that allows any content swallows the element after it,
although that is declared: in `<r><a>1</a></r>` the element `a` is skipped without an error, and the
field `a` of the value is empty. -/
theorem C87_open_group_swallows_sibling :
    Drv.run (genEnv fun h _ => h) aroundOpenGroup.de.toDeser { helper := () }
      [.start ⟨"r".toList, []⟩, .start ⟨"a".toList, []⟩, .text "1".toList, .end_ "a".toList,
        .end_ "r".toList, .eof] = .done [[], []] [.eof] := by
  rfl

end Verif.Gen

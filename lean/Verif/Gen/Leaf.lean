import Verif.Gen.SequenceSound

/-!
# Children with simple content, and examples and counterexamples for sequences

`simpleDe` is `ContentDeserializer` (xsd-parser-types/src/quick_xml/deserialize.rs 566-663),
the deserializer of every simple type, in the form used for generated types.
-/

namespace Verif.Gen

open Verif.Rt Verif.Occurs

section
variable {H A C V W : Type}

/-- `ContentDeserializer`, deserialize.rs:566-663; the same as `contentDeser`
(`simpleDe_eq`). The state is the text read so far. -/
def simpleDe (num : Str → Option Str) (bad : GErr) (parse : H → Str → Except GErr V) :
    GDe H Str V where
  init := fun h e =>
    match e with
    | .start _ => .ok ⟨.deser [], .none, false⟩
    | .empty _ =>
      match parse h [] with
      | .ok v => .ok ⟨.data v, .none, false⟩
      | .error err => .error err
    | e => .ok ⟨.none, .cont e, false⟩
  next := fun data h e =>
    match e with
    | .text s =>
      match unescape num s with
      | some t => .ok ⟨.deser (data ++ t), .none, false⟩
      | none => .error bad
    | .cdata s => .ok ⟨.deser (data ++ s), .none, false⟩
    | .ref s =>
      match unescape num (['&'] ++ s ++ [';']) with
      | some t => .ok ⟨.deser (data ++ t), .none, false⟩
      | none => .error bad
    | .end_ _ =>
      match parse h (trimAscii data) with
      | .ok v => .ok ⟨.data v, .none, false⟩
      | .error err => .error err
    | e => .ok ⟨.deser data, .brk e, false⟩
  finish := fun data h => parse h (trimAscii data)

/-- It is the deserializer of `Verif.Runtime.Text`. -/
theorem simpleDe_eq (num : Str → Option Str) (bad : GErr) (parse : H → Str → Except GErr V) :
    (simpleDe num bad parse).toDeser = contentDeser num bad parse := by
  unfold GDe.toDeser contentDeser simpleDe
  congr 1
  · funext h e
    cases e <;> simp only [Except.map]
    cases parse h [] <;> rfl
  · funext s h e
    cases e with
    | text t => simp only; cases unescape num t <;> rfl
    | ref t => simp only; cases unescape num (['&'] ++ t ++ [';']) <;> rfl
    | end_ n => simp only; cases parse h (trimAscii s) <;> rfl
    | _ => rfl

theorem simpleDe_tame (num : Str → Option Str) (bad : GErr) (parse : H → Str → Except GErr V) :
    Tame (simpleDe num bad parse) where
  start := by intro h t out ho; cases ho; exact ⟨⟨_, rfl⟩, rfl⟩
  empty := by
    intro h t out ho
    simp only [simpleDe] at ho
    cases hp : parse h [] with
    | error e => rw [hp] at ho; cases ho
    | ok v => rw [hp] at ho; cases ho; exact ⟨⟨_, rfl⟩, rfl⟩
  end_ := by
    intro c h n out ho
    simp only [simpleDe] at ho
    cases hp : parse h (trimAscii c) with
    | error e => rw [hp] at ho; cases ho
    | ok v => rw [hp] at ho; cases ho; exact ⟨⟨_, rfl⟩, rfl⟩
  other := by
    intro c h e out ho hne
    cases e with
    | text t =>
      simp only [simpleDe] at ho
      cases hu : unescape num t with
      | none => rw [hu] at ho; cases ho
      | some x => rw [hu] at ho; cases ho; exact ⟨⟨_, rfl⟩, Or.inl ⟨rfl, rfl⟩⟩
    | ref t =>
      simp only [simpleDe] at ho
      cases hu : unescape num (['&'] ++ t ++ [';']) with
      | none => rw [hu] at ho; cases ho
      | some x => rw [hu] at ho; cases ho; exact ⟨⟨_, rfl⟩, Or.inl ⟨rfl, rfl⟩⟩
    | cdata t => cases ho; exact ⟨⟨_, rfl⟩, Or.inl ⟨rfl, rfl⟩⟩
    | end_ n => exact absurd rfl (hne n)
    | _ => cases ho; exact ⟨⟨_, rfl⟩, Or.inr ⟨rfl, rfl⟩⟩

theorem simple_feeds_go (track : H → Event → H) (num : Str → Option Str) (bad : GErr)
    (parse : H → Str → Except GErr V) (n : Str) (v : V) (pieces : List Event) :
    ∀ (h : H) (data c : Str), (∀ e ∈ pieces, e.isLeaf = true) → charContent num pieces = some c →
    parse ((pieces ++ [Event.end_ n]).foldl track h) (trimAscii (data ++ c)) = .ok v →
    Feeds track (simpleDe num bad parse) (some data) h (pieces ++ [.end_ n]) v := by
  induction pieces with
  | nil =>
    intro h data c _ hc hp
    simp only [charContent, Option.some.injEq] at hc
    subst hc
    rw [List.append_nil] at hp
    refine .last (a := false) ?_
    show (simpleDe num bad parse).next data _ _ = _
    simp only [simpleDe]
    rw [show track h (.end_ n) = List.foldl track h ([] ++ [.end_ n]) from rfl, hp]
  | cons e es ih =>
    intro h data c hl hc hp
    simp only [charContent] at hc
    cases ht : pieceText num e with
    | none => rw [ht] at hc; simp at hc
    | some x =>
      cases hes : charContent num es with
      | none => rw [ht, hes] at hc; simp at hc
      | some y =>
        rw [ht, hes] at hc
        simp only [Option.some.injEq] at hc
        subst hc
        have he := hl e (by simp)
        have hrest := ih (track h e) (data ++ x) y (fun e' h' => hl e' (by simp [h'])) hes
          (by rw [List.append_assoc]; exact hp)
        have hcall : ∃ ev, (simpleDe num bad parse).next data (track h e) e
            = .ok ⟨.deser (data ++ x), ev, false⟩ ∧ Quiet e ev := by
          cases e with
          | text t =>
            refine ⟨.none, ?_, Or.inl rfl⟩
            simp only [pieceText] at ht
            simp only [simpleDe, ht]
          | ref t =>
            refine ⟨.none, ?_, Or.inl rfl⟩
            simp only [pieceText] at ht
            simp only [simpleDe, ht]
          | cdata t =>
            refine ⟨.none, ?_, Or.inl rfl⟩
            simp only [pieceText, Option.some.injEq] at ht
            simp only [simpleDe, ht]
          | _ =>
            first
            | (simp [Event.isLeaf] at he; done)
            | (simp only [pieceText, Option.some.injEq] at ht
               subst ht
               rw [List.append_nil]
               exact ⟨_, rfl, Or.inr ⟨rfl, Or.inl rfl⟩⟩)
        obtain ⟨ev, hn, hq⟩ := hcall
        exact .step hn hq hrest

/-- An element with simple content is read: the children of the examples, and of every type
whose fields have simple types. -/
theorem simple_feeds (track : H → Event → H) (num : Str → Option Str) (bad : GErr)
    (parse : H → Str → Except GErr V) (t : Tag) (n : Str) (v : V) (pieces : List Event) (h : H)
    (c : Str) (hl : ∀ e ∈ pieces, e.isLeaf = true) (hc : charContent num pieces = some c)
    (hp : parse ((Event.start t :: pieces ++ [Event.end_ n]).foldl track h) (trimAscii c) = .ok v) :
    Feeds track (simpleDe num bad parse) none h (.start t :: (pieces ++ [.end_ n])) v :=
  .step (c := []) (ev := .none) (a := false) rfl (Or.inl rfl)
    (simple_feeds_go track num bad parse n v pieces (track h (.start t)) [] c hl hc hp)

end

/-! ## Examples -/

namespace Ex

/-- Values of the examples: texts, and structs with their fields. -/
inductive Val where
  | txt (s : Str)
  | node (fields : List (List Val))
deriving Repr

mutual
def Val.beq : Val → Val → Bool
  | .txt a, .txt b => a == b
  | .node a, .node b => beqs a b
  | _, _ => false
def beqs : List (List Val) → List (List Val) → Bool
  | [], [] => true
  | a :: as, b :: bs => beq1 a b && beqs as bs
  | _, _ => false
def beq1 : List Val → List Val → Bool
  | [], [] => true
  | a :: as, b :: bs => a.beq b && beq1 as bs
  | _, _ => false
end

abbrev tag (c : Char) : Tag := ⟨[c], []⟩

/-- A text element. -/
def txt : GDe Unit Str Val := simpleDe (fun _ => none) (.value 0) (fun _ s => .ok (.txt s))

def leafField (c : Char) (min : Nat) (max : MaxOccurs) : Field Unit Str Val :=
  { name := [c], want := some (fun _ t => t.name == [c]), min, max, de := txt }

def seqOf (fields : List (Field Unit Str Val)) : SeqTy Unit Unit Str Val Val :=
  { fields, ofTag := fun _ _ => .ok (), attrs0 := (), build := fun _ vs => .node vs }

abbrev track : Unit → Event → Unit := fun _ _ => ()

/-- `r = seq(a, b{0..2}, c?)` -/
def tyR : SeqTy Unit Unit Str Val Val :=
  seqOf [leafField 'a' 1 (.bounded 1), leafField 'b' 0 (.bounded 2), leafField 'c' 0 (.bounded 1)]

def elem (c : Char) (s : Str) : List Event := [.start (tag c), .text s, .end_ [c]]

/-- `<a>1</a> <b>2</b><!-- --><b>3</b>` -/
def itemsR : List (Item Val) :=
  [.child 0 (elem 'a' ['1']) (.txt ['1']), .pad (.text [' ']),
   .child 1 (elem 'b' ['2']) (.txt ['2']), .pad (.comment []),
   .child 1 (elem 'b' ['3']) (.txt ['3'])]

/-- Non-vacuity of C09: the hypotheses hold for a concrete document. -/
example : ItemsOk track tyR.fields [] () itemsR ∧ InSequence tyR.fields itemsR ∧
    (∀ f ∈ tyR.fields, f.max ≠ .bounded 0) := by
  have pick : ∀ (i : Nat) (c : Char), [c] = ([['a'], ['b'], ['c']].getD i []) → i < 3 →
      ∀ P, Picks tyR.fields i P () (tag c) := by
    intro i c hc hi P
    suffices main : ∀ j f, tyR.fields[j]? = some f → ∃ want, f.want = some want ∧
        want () (tag c) = decide (j = i) by
      refine ⟨fun f want hf hw => ?_, fun j f hj _ hf => ?_⟩
      · obtain ⟨w, h1, h2⟩ := main i f hf
        rw [hw] at h1
        cases h1
        rw [h2]
        simp
      · obtain ⟨w, h1, h2⟩ := main j f hf
        unfold Field.Declines
        rw [h1]
        show w () (tag c) = false
        rw [h2]
        exact decide_eq_false (by omega)
    intro j f hf
    have hj : j < 3 := by
      rcases Nat.lt_or_ge j 3 with h | h
      · exact h
      · rw [List.getElem?_eq_none (by exact h)] at hf; cases hf
    match i, j, hi, hj with
    | 0, 0, _, _ | 0, 1, _, _ | 0, 2, _, _ | 1, 0, _, _ | 1, 1, _, _ | 1, 2, _, _
    | 2, 0, _, _ | 2, 1, _, _ | 2, 2, _, _ =>
      simp [tyR, seqOf] at hf; subst hf; simp at hc; subst hc; exact ⟨_, rfl, by decide⟩
  have child : ∀ (i : Nat) (c : Char) (s : Str) (f : Field Unit Str Val),
      tyR.fields[i]? = some f → f.de = txt → [c] = ([['a'], ['b'], ['c']].getD i []) → i < 3 →
      (∀ x ∈ s, x ≠ '&' ∧ isAsciiWs x = false) → charContent (fun _ => none) [.text s] = some s →
      trimAscii s = s → ∀ P, ValidChild track tyR.fields P () i (elem c s) (.txt s) := by
    intro i c s f hf hde hc hi hs hcc htr P
    refine ⟨f, _, _, tag c, hf, rfl, rfl, pick i c hc hi P, ?_⟩
    rw [hde]
    exact simple_feeds track _ _ _ (tag c) [c] (Val.txt s) [.text s] () s (by simp [Event.isLeaf]) hcc
      (by rw [htr])
  refine ⟨⟨child 0 'a' ['1'] _ rfl rfl rfl (by decide) (by decide) (by decide) (by decide) _, rfl,
    child 1 'b' ['2'] _ rfl rfl rfl (by decide) (by decide) (by decide) (by decide) _, rfl,
    child 1 'b' ['3'] _ rfl rfl rfl (by decide) (by decide) (by decide) (by decide) _, trivial⟩,
    ⟨by decide, ?_⟩, by simp [tyR, seqOf, leafField]⟩
  intro i f hf
  have hj : i < 3 := by
    rcases Nat.lt_or_ge i 3 with h | h
    · exact h
    · rw [List.getElem?_eq_none (by exact h)] at hf; cases hf
  match i, hj with
  | 0, _ | 1, _ | 2, _ =>
    simp [tyR, seqOf] at hf; subst hf
    constructor
    · simp [leafField, itemsR, valuesOf]
    · intro b hb; simp [leafField] at hb; subst hb; simp [itemsR, valuesOf]

/-- The type of the example meets the conditions of C10. -/
theorem tyR_strict : Strict tyR where
  elem := rfl
  any := rfl
  nonempty := by simp [tyR, seqOf]
  field := by
    intro f hf
    have ht : Tame txt := simpleDe_tame _ _ _
    simp [tyR, seqOf] at hf
    rcases hf with rfl | rfl | rfl <;>
      exact ⟨rfl, rfl, rfl, by simp [leafField], by intro b hb; simp [leafField] at hb ⊢ <;> omega, ht⟩

def verdict (r : Run Unit S GErr Val) (v : Val) (rest : List Event) : Bool :=
  match r with
  | .done w r => w.beq v && r == rest
  | _ => false

def fails (r : Run Unit S GErr Val) : Bool :=
  match r with
  | .fail _ _ => true
  | _ => false

/-- Non-vacuity of C10: the document above is accepted; a missing `a`, a wrong order, a third
`b` and nesting are rejected. -/
example :
    verdict (Drv.run (genEnv track) tyR.de.toDeser { helper := () }
      (.start (tag 'r') :: (itemEvents itemsR ++ [.end_ ['r']]) ++ [.eof]))
      (.node [[.txt ['1']], [.txt ['2'], .txt ['3']], []]) [.eof] = true ∧
    fails (Drv.run (genEnv track) tyR.de.toDeser { helper := () }
      (.start (tag 'r') :: elem 'b' ['1'] ++ [.end_ ['r']])) = true ∧
    fails (Drv.run (genEnv track) tyR.de.toDeser { helper := () }
      (.start (tag 'r') :: elem 'a' [] ++ elem 'c' [] ++ elem 'b' [] ++ [.end_ ['r']])) = true ∧
    fails (Drv.run (genEnv track) tyR.de.toDeser { helper := () }
      (.start (tag 'r') :: elem 'a' [] ++ elem 'b' [] ++ elem 'b' [] ++ elem 'b' []
        ++ [.end_ ['r']])) = true ∧
    fails (Drv.run (genEnv track) tyR.de.toDeser { helper := () }
      (.start (tag 'r') :: .start (tag 'a') :: elem 'b' [] ++ [.end_ ['a'], .end_ ['r']])) = true := by
  decide +kernel

/-! ## Counterexamples -/

/-- `list = seq(b{2..3})` -/
def tyList : SeqTy Unit Unit Str Val Val := seqOf [leafField 'b' 2 (.bounded 3)]

/-- **C10, finding.** The lower bound of a repeated element is not enforced at the end of the
content: `<r><b/></r>` and `<r></r>` are accepted for `b{2..3}`. -/
theorem C10_list_minimum_not_enforced :
    verdict (Drv.run (genEnv track) tyList.de.toDeser { helper := () }
      [.start (tag 'r'), .empty (tag 'b'), .end_ ['r']]) (.node [[.txt []]]) [] = true ∧
    verdict (Drv.run (genEnv track) tyList.de.toDeser { helper := () }
      [.start (tag 'r'), .end_ ['r']]) (.node [[]]) [] = true ∧
    ¬ Allows 2 (.bounded 3) 1 ∧ ¬ Allows 2 (.bounded 3) 0 := by
  refine ⟨by decide +kernel, by decide +kernel, ?_, ?_⟩ <;> (rintro ⟨h, _⟩; omega)

/-- **C10, finding.** Entity references between the children are silently dropped:
`<r>&amp;<a/></r>` is accepted for element-only content. -/
theorem C10_reference_ignored :
    verdict (Drv.run (genEnv track) tyR.de.toDeser { helper := () }
      [.start (tag 'r'), .ref ['a', 'm', 'p'], .empty (tag 'a'), .end_ ['r']])
      (.node [[.txt []], [], []]) [] = true := by decide +kernel

/-- `child = seq(m)` -/
def tyChild : SeqTy Unit Unit Str Val Val := seqOf [leafField 'm' 1 (.bounded 1)]

/-- The state of the children of `foo`: a running `child`, or a running text element. -/
abbrev ChildSt := SeqSt Unit Str Val ⊕ Str

def mapOut {S S' : Type} (f : S → S') (r : Except GErr (Output S Val)) :
    Except GErr (Output S' Val) :=
  r.map fun o => ⟨o.artifact.map f id, o.event, o.allowAny⟩

/-- The deserializers of the children with a common state type. -/
def childDe : GDe Unit ChildSt Val where
  init := fun h e => mapOut .inl (tyChild.de.init h e)
  next := fun c h e =>
    match c with
    | .inl s => mapOut .inl (tyChild.de.next s h e)
    | .inr _ => .error .panic
  finish := fun c h =>
    match c with
    | .inl s => tyChild.de.finish s h
    | .inr _ => .error .panic

def siblingDe : GDe Unit ChildSt Val where
  init := fun h e => mapOut .inr (txt.init h e)
  next := fun c h e =>
    match c with
    | .inl _ => .error .panic
    | .inr s => mapOut .inr (txt.next s h e)
  finish := fun c h =>
    match c with
    | .inl _ => .error .panic
    | .inr s => txt.finish s h

/-- `foo = seq(child, sibling)` with `child = seq(m)`. -/
def tyFoo : SeqTy Unit Unit ChildSt Val Val :=
  { fields := [
      { name := ['k'], want := some (fun _ t => t.name == ['k']), min := 1, max := .bounded 1,
        de := childDe },
      { name := ['s'], want := some (fun _ t => t.name == ['s']), min := 1, max := .bounded 1,
        de := siblingDe }],
    ofTag := fun _ _ => .ok (), attrs0 := (), build := fun _ vs => .node vs }

/-- **C10, finding.** Nesting is not enforced: for `foo = seq(k, s)` with `k = seq(m)`, the
document `<f><k><m/><s/></k></f>`, where `s` stands *inside* of `k`, is accepted and gives the
same value as the valid document `<f><k><m/></k><s/></f>`; the deserializer stops at the end tag
of `k` and does not even read the one of `f`. -/
theorem C10_nesting_leak :
    verdict (Drv.run (genEnv track) tyFoo.de.toDeser { helper := () }
      [.start (tag 'f'), .start (tag 'k'), .empty (tag 'm'), .empty (tag 's'), .end_ ['k'],
       .end_ ['f']]) (.node [[.node [[.txt []]]], [.txt []]]) [.end_ ['f']] = true ∧
    verdict (Drv.run (genEnv track) tyFoo.de.toDeser { helper := () }
      [.start (tag 'f'), .start (tag 'k'), .empty (tag 'm'), .end_ ['k'], .empty (tag 's'),
       .end_ ['f']]) (.node [[.node [[.txt []]]], [.txt []]]) [] = true := by
  decide +kernel

end Ex

end Verif.Gen

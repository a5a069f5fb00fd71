import Verif.Gen.NestedChoice
import Verif.Gen.ChoiceExamples

/-!
# Nested groups: the driver, and concrete cases (C09, C12)

The theorems of `Nested.lean` and `NestedChoice.lean` as seen from `T::deserialize(reader)`, and documents that meet their
hypotheses.
-/

namespace Verif.Gen

open Verif.Rt Verif.Occurs

section
variable {H A C V W : Type}

/-- **C09** with nested groups, seen from `T::deserialize(reader)`: the driver returns the struct and stops right after the
end tag. -/
theorem C09_nested_sequence_accepts (track : H → Event → H) (T : SeqTy H A C V W)
    (hT : T.isElement = true) (h0 : ∀ f ∈ T.fields, f.max ≠ .bounded 0)
    (h : H) (t : Tag) (a : A) (ha : T.ofTag (track h (.start t)) t = .ok a)
    (items : List (Item V)) (ownF : H → Tag → Prop)
    (ok : PartsOk track T.fields ownF [] (fun _ _ => False) (track h (.start t)) items)
    (sq : InSequence T.fields items) (rest : List Event) :
    Drv.run (genEnv track) T.de.toDeser { helper := h }
        (.start t :: (itemEvents items ++ [.end_ t.name]) ++ rest)
      = .done (T.build a ((List.range T.fields.length).map (valuesOf · items))) rest :=
  (C09_nested_sequence_feeds track T hT h0 h t a ha items ownF ok sq).run rest

/-- **C12** with nested groups, seen from `T::deserialize(reader)`, for a choice. -/
theorem C12_nested_choice_accepts (track : H → Event → H) (T : EnumTy H C V W) (hT : T.isElement = true)
    (h : H) (t : Tag) (hc : T.check (track h (.start t)) t = .ok ())
    (f : Field H C V) (i : Nat) (hf : T.alts[i]? = some f)
    (ho : f.occurs = .single ∨ f.occurs = .optional)
    (pads pads' : List Event) (hp : ∀ e ∈ pads, Padding e = true) (hp' : ∀ e ∈ pads', Padding e = true)
    (e : Event) (es : List Event) (t' : Tag) (he : tagOf e = some t')
    (sel : Selects T.alts i (track (pads.foldl track (track h (.start t))) e) t') (v : V) (own : H → Tag → Prop)
    (rd : GroupReads track f.de (pads.foldl track (track h (.start t))) (e :: es) v own) (rest : List Event) :
    Drv.run (genEnv track) T.de.toDeser { helper := h }
        (.start t :: (pads ++ ((e :: es) ++ (pads' ++ [.end_ t.name]))) ++ rest)
      = .done (T.build i [v]) rest :=
  (C12_nested_choice_feeds track T hT h t hc f i hf ho pads pads' hp hp' e es t' he sel v own rd).run rest

/-- **C12** with nested groups, seen from `T::deserialize(reader)`, for a struct with content. -/
theorem C12_nested_content_accepts (track : H → Event → H) (T : ContentTy H A C V W)
    (hT : T.isElement = true) (h0 : T.content.max ≠ .bounded 0) (h : H) (t : Tag) (a : A)
    (ha : T.ofTag (track h (.start t)) t = .ok a) (items : List (Item V))
    (ok : ContentParts track T.content.de (fun _ _ => False) (track h (.start t)) items)
    (hc : Allows T.content.min T.content.max (allValues items).length) (rest : List Event) :
    Drv.run (genEnv track) T.de.toDeser { helper := h }
        (.start t :: (itemEvents items ++ [.end_ t.name]) ++ rest)
      = .done (T.build a (allValues items)) rest :=
  (C12_nested_content_feeds track T hT h0 h t a ha items ok hc).run rest

end

namespace Ex

/-- `(x, y?)` as a group. -/
def grp (x y : Char) : SeqTy Unit Unit Str Val Val :=
  { seqOf [leafField x 1 (.bounded 1), leafField y 0 (.bounded 1)] with isElement := false }

def grpField (x y : Char) (min : Nat) (max : MaxOccurs) : Field Unit (SeqSt Unit Str Val) Val :=
  { name := ['g'], want := none, min, max, de := (grp x y).de }

/-- `<x>1</x> <y>2</y>` -/
def bothItems (x y : Char) : List (Item Val) :=
  [.child 0 (elem x ['1']) (.txt ['1']), .pad (.text [' ']), .child 1 (elem y ['2']) (.txt ['2'])]

/-- `<x>3</x>` -/
def oneItem (x : Char) : List (Item Val) := [.child 0 (elem x ['3']) (.txt ['3'])]

theorem leaf_valid (x y : Char) (i : Nat) (c : Char) (s : Str) (hxy : (i = 0 ∧ c = x) ∨ (i = 1 ∧ c = y ∧ x ≠ y))
    (hcc : charContent (fun _ => none) [.text s] = some s) (htr : trimAscii s = s) (P : Nat → Prop) :
    ValidPart track (grp x y).fields P (fun _ _ => False) () i (elem c s) (.txt s) (fun _ _ => False) := by
  have hd : ∀ f : Field Unit Str Val, f.want = (leafField c 1 (.bounded 1)).want → f.de = txt →
      (grp x y).fields[i]? = some f → (∀ j g, j < i → (grp x y).fields[j]? = some g → g.Declines () (tag c)) →
      ValidPart track (grp x y).fields P (fun _ _ => False) () i (elem c s) (.txt s) (fun _ _ => False) := by
    intro f hw hde hf hbefore
    refine ⟨f, _, _, tag c, hf, rfl, rfl, ⟨?_, fun j g hj _ hg => hbefore j g hj hg⟩, id, Or.inl ?_⟩
    · intro g want hg hwant
      rw [hf] at hg
      cases hg
      rw [hw] at hwant
      cases hwant
      simp
    · rw [hde]; exact leaf_feeds c s hcc htr
  rcases hxy with ⟨rfl, rfl⟩ | ⟨rfl, rfl, hne⟩
  · exact hd _ rfl rfl rfl (fun j _ hj => by omega)
  · refine hd (leafField c 0 (.bounded 1)) rfl rfl rfl (fun j g hj hg => ?_)
    obtain rfl : j = 0 := by omega
    simp [grp, seqOf] at hg
    subst hg
    simp [Field.Declines, leafField, Ne.symm hne]

/-- The group with both elements, and with the first only, is read as the values of its elements (non-vacuity of
`C09_nested_group_reads`); in the second case it would still take the optional element. -/
theorem grp_reads (x y : Char) (hxy : x ≠ y) :
    (∃ own, GroupReads track (grp x y).de () (itemEvents (bothItems x y)) (.node [[.txt ['1']], [.txt ['2']]]) own ∧
      ∀ h t, ¬ own h t) ∧
    (∃ own, GroupReads track (grp x y).de () (itemEvents (oneItem x)) (.node [[.txt ['3']], []]) own ∧
      ∀ c, own () (tag c) → c = y) := by
  have h0 : ∀ f ∈ (grp x y).fields, f.max ≠ .bounded 0 := by simp [grp, seqOf, leafField]
  have hfs : ∀ i f, (grp x y).fields[i]? = some f → (i = 0 ∧ f = leafField x 1 (.bounded 1)) ∨
      (i = 1 ∧ f = leafField y 0 (.bounded 1)) := by
    intro i f hf
    match i with
    | 0 => left; simp [grp, seqOf] at hf; exact ⟨rfl, hf.symm⟩
    | 1 => right; simp [grp, seqOf] at hf; exact ⟨rfl, hf.symm⟩
    | i + 2 => simp [grp, seqOf] at hf
  refine ⟨⟨_, C09_nested_group_reads track (grp x y) rfl h0 () (bothItems x y) (fun _ _ => False)
    ⟨_, leaf_valid x y 0 x ['1'] (Or.inl ⟨rfl, rfl⟩) (by decide) (by decide) _, rfl, _,
      leaf_valid x y 1 y ['2'] (Or.inr ⟨rfl, rfl, hxy⟩) (by decide) (by decide) _, rfl⟩
    ⟨by simp [childFields, bothItems], ?_⟩
    ⟨_, _, _, _, rfl⟩, ?_⟩, ⟨_, C09_nested_group_reads track (grp x y) rfl h0 () (oneItem x) (fun _ _ => False)
    ⟨_, leaf_valid x y 0 x ['3'] (Or.inl ⟨rfl, rfl⟩) (by decide) (by decide) _, rfl⟩
    ⟨by simp [childFields, oneItem], ?_⟩
    ⟨_, _, _, _, rfl⟩, ?_⟩⟩
  · intro i f hf
    rcases hfs i f hf with ⟨rfl, rfl⟩ | ⟨rfl, rfl⟩ <;>
      exact ⟨by simp [leafField, bothItems, valuesOf], fun b hb => by
        simp [leafField] at hb; subst hb; simp [bothItems, valuesOf]⟩
  · rintro h t (hh | ⟨j, f, hp, hf, _⟩)
    · exact hh
    · refine hp ?_
      rcases hfs j f hf with ⟨rfl, rfl⟩ | ⟨rfl, rfl⟩
      · exact Or.inl ⟨1, by simp [bothItems, childFields], by omega⟩
      · refine Or.inr fun g hg => ?_
        rw [hf] at hg
        cases hg
        simp [leafField, bothItems, childFields]
  · intro i f hf
    rcases hfs i f hf with ⟨rfl, rfl⟩ | ⟨rfl, rfl⟩ <;>
      exact ⟨by simp [leafField, oneItem, valuesOf], fun b hb => by
        simp [leafField] at hb; subst hb; simp [oneItem, valuesOf]⟩
  · rintro c (hh | ⟨j, f, hp, hf, hd⟩)
    · exact hh.elim
    · rcases hfs j f hf with ⟨rfl, rfl⟩ | ⟨rfl, rfl⟩
      · refine absurd (Or.inr fun g hg => ?_) hp
        rw [hf] at hg
        cases hg
        simp [leafField, oneItem, childFields]
      · simpa [Field.Declines, leafField] using hd

/-- `r = ((a, b?){1..2}, (c, d?)?)` -/
def tyN : SeqTy Unit Unit (SeqSt Unit Str Val) Val Val :=
  { fields := [grpField 'a' 'b' 1 (.bounded 2), grpField 'c' 'd' 0 (.bounded 1)]
    ofTag := fun _ _ => .ok ()
    attrs0 := ()
    build := fun _ vs => .node vs }

/-- `<a>1</a> <b>2</b> <a>3</a><c>3</c>` -/
def itemsN : List (Item Val) :=
  [.child 0 (itemEvents (bothItems 'a' 'b')) (.node [[.txt ['1']], [.txt ['2']]]), .pad (.text [' ']),
   .child 0 (itemEvents (oneItem 'a')) (.node [[.txt ['3']], []]),
   .child 1 (itemEvents (oneItem 'c')) (.node [[.txt ['3']], []])]

theorem grp_declines (x y : Char) (min : Nat) (max : MaxOccurs) (c : Char) (hc : c ≠ x) :
    (grpField x y min max).Declines () (tag c) := by
  intro e he
  refine nested_declines (grp x y) rfl (by simp [grp, seqOf]) (by simp [grp, seqOf, leafField]) () e (tag c) he ?_
  intro j f hf hmin
  match j with
  | 0 =>
    simp [grp, seqOf] at hf
    subst hf
    simp [Field.Declines, leafField, hc]
  | j + 1 =>
    have := hmin 0 _ (by omega) rfl
    simp [leafField] at this

/-- Non-vacuity of `C09_nested_sequence_feeds` and `C09_nested_sequence_accepts`. -/
example : (∃ ownF, PartsOk track tyN.fields ownF [] (fun _ _ => False) () itemsN) ∧ InSequence tyN.fields itemsN ∧
    (∀ f ∈ tyN.fields, f.max ≠ .bounded 0) ∧
    verdict (Drv.run (genEnv track) tyN.de.toDeser { helper := () }
      (.start (tag 'r') :: (itemEvents itemsN ++ [.end_ ['r']]) ++ [.eof]))
      (.node [[.node [[.txt ['1']], [.txt ['2']]], .node [[.txt ['3']], []]], [.node [[.txt ['3']], []]]]) [.eof] = true := by
  obtain ⟨⟨o1, r1, n1⟩, ⟨o2, r2, n2⟩⟩ := grp_reads 'a' 'b' (by decide)
  obtain ⟨_, ⟨o3, r3, n3⟩⟩ := grp_reads 'c' 'd' (by decide)
  refine ⟨⟨o3, o1, ⟨_, _, _, tag 'a', rfl, rfl, rfl, ⟨?_, fun j _ hj => by omega⟩, id, r1⟩, rfl, o2,
    ⟨_, _, _, tag 'a', rfl, rfl, rfl, ⟨?_, fun j _ hj => by omega⟩, n1 _ _, r2⟩, o3,
    ⟨_, _, _, tag 'c', rfl, rfl, rfl, ⟨?_, ?_⟩, fun hh => absurd (n2 _ hh) (by decide), r3⟩, rfl⟩,
    ⟨by decide, ?_⟩, by simp [tyN, grpField], by decide +kernel⟩
  · intro f want hf hw
    simp [tyN, grpField] at hf
    subst hf
    cases hw
  · intro f want hf hw
    simp [tyN, grpField] at hf
    subst hf
    cases hw
  · intro f want hf hw
    simp [tyN, grpField] at hf
    subst hf
    cases hw
  · intro j f hj _ hf
    obtain rfl : j = 0 := by omega
    simp [tyN] at hf
    subst hf
    exact grp_declines _ _ _ _ _ (by decide)
  · intro i f hf
    match i with
    | 0 | 1 =>
      simp [tyN] at hf
      subst hf
      exact ⟨by simp [grpField, itemsN, valuesOf], fun b hb => by
        simp [grpField] at hb; subst hb; simp [itemsN, valuesOf]⟩
    | i + 2 => simp [tyN] at hf

/-- `r = ((c, d?) | (a, b?))` -/
def tyNC (el : Bool) : EnumTy Unit (SeqSt Unit Str Val) Val Val :=
  { alts := [grpField 'c' 'd' 1 (.bounded 1), grpField 'a' 'b' 1 (.bounded 1)]
    check := fun _ _ => .ok ()
    build := fun i vs => .node [[.txt (List.replicate i 'x')], vs]
    isElement := el }

theorem tyNC_selects (el : Bool) : Selects (tyNC el).alts 1 () (tag 'a') := by
  refine Or.inr ⟨⟨_, rfl, rfl⟩, ?_, ?_⟩
  · intro g hg want hw
    simp [tyNC] at hg
    rcases hg with rfl | rfl <;> cases hw
  · intro j g hj hg _
    obtain rfl : j = 0 := by omega
    simp [tyNC] at hg
    subst hg
    exact grp_declines _ _ _ _ _ (by decide)

/-- Non-vacuity of `C12_nested_choice_feeds` and `C12_nested_choice_accepts`: `<r> <a>1</a> <b>2</b> </r>` -/
example : Selects (tyNC true).alts 1 () (tag 'a') ∧
    (∃ own, GroupReads track (grpField 'a' 'b' 1 (.bounded 1)).de () (itemEvents (bothItems 'a' 'b'))
      (.node [[.txt ['1']], [.txt ['2']]]) own) ∧
    verdict (Drv.run (genEnv track) (tyNC true).de.toDeser { helper := () }
      (.start (tag 'r') :: ([.text [' ']] ++ (itemEvents (bothItems 'a' 'b') ++ ([.text [' ']] ++ [.end_ ['r']]))) ++ [.eof]))
      (.node [[.txt ['x']], [.node [[.txt ['1']], [.txt ['2']]]]]) [.eof] = true ∧
    fails (Drv.run (genEnv track) (tyNC true).de.toDeser { helper := () }
      (.start (tag 'r') :: (elem 'a' ['1'] ++ elem 'c' ['2'] ++ [.end_ ['r']]))) = true ∧
    fails (Drv.run (genEnv track) (tyNC true).de.toDeser { helper := () }
      (.start (tag 'r') :: (elem 'b' ['1'] ++ [.end_ ['r']]))) = true :=
  ⟨tyNC_selects true, (grp_reads 'a' 'b' (by decide)).1.imp fun _ h => h.1, by decide +kernel, by decide +kernel,
    by decide +kernel⟩

/-- `r = ((c, d?) | (a, b?)){1..3}` -/
def tyNK : ContentTy Unit Unit (CPos (SeqSt Unit Str Val) Val Val) Val Val :=
  { content := { name := ['k'], want := none, min := 1, max := .bounded 3, de := (tyNC false).de }
    ofTag := fun _ _ => .ok ()
    attrs0 := ()
    build := fun _ vs => .node [vs] }

/-- `<a>3</a> <a>1</a> <b>2</b>` -/
def itemsNK : List (Item Val) :=
  [.child 1 (itemEvents (oneItem 'a')) (.node [[.txt ['x']], [.node [[.txt ['3']], []]]]), .pad (.text [' ']),
   .child 1 (itemEvents (bothItems 'a' 'b')) (.node [[.txt ['x']], [.node [[.txt ['1']], [.txt ['2']]]]])]

/-- Non-vacuity of `C12_nested_group_reads`, `C12_nested_content_feeds` and `C12_nested_content_accepts`. -/
example : ContentParts track tyNK.content.de (fun _ _ => False) () itemsNK ∧
    Allows 1 (.bounded 3) (allValues itemsNK).length ∧
    verdict (Drv.run (genEnv track) tyNK.de.toDeser { helper := () }
      (.start (tag 'r') :: (itemEvents itemsNK ++ [.end_ ['r']]) ++ [.eof]))
      (.node [[.node [[.txt ['x']], [.node [[.txt ['3']], []]]],
        .node [[.txt ['x']], [.node [[.txt ['1']], [.txt ['2']]]]]]]) [.eof] = true := by
  obtain ⟨⟨o1, r1, n1⟩, ⟨o2, r2, n2⟩⟩ := grp_reads 'a' 'b' (by decide)
  have rd : ∀ (s es) v own, GroupReads track (grp 'a' 'b').de () (.start (tag 'a') :: .text s :: es) v own →
      GroupReads track tyNK.content.de () (.start (tag 'a') :: .text s :: es) (.node [[.txt ['x']], [v]]) own := by
    intro s es v own rd
    exact C12_nested_group_reads track (tyNC false) rfl (grpField 'a' 'b' 1 (.bounded 1)) 1 rfl (Or.inl (by decide)) () _ _
      (tag 'a') rfl (tyNC_selects false) v own rd
  refine ⟨⟨o2, _, _, tag 'a', rfl, rfl, id, rd _ _ _ _ r2, rfl, ?_, o1, _, _, tag 'a', rfl, rfl,
    fun hh => absurd (n2 _ hh) (by decide), rd _ _ _ _ r1, trivial⟩, ⟨by decide, ?_⟩, by decide +kernel⟩
  · exact ⟨_, _, choice_padding (tyNC false) rfl () (.text [' ']) rfl, Or.inr ⟨rfl, Or.inr rfl⟩⟩
  · intro b hb; cases hb; decide

/-- A required nested sequence of optional elements only: `r = ((b?))`. Such a group is defaultable, see
`Defaultable.lean`. -/
def tyNO : SeqTy Unit Unit (SeqSt Unit Str Val) Val Val :=
  { tyN with
    fields := [{ name := ['g'], want := none, min := 1, max := .bounded 1, defaultable := true
                 dflt := fun _ => .ok (.node [[]])
                 de := ({ seqOf [leafField 'b' 0 (.bounded 1)] with isElement := false } : SeqTy Unit Unit Str Val Val).de }] }

/-- Both with and without its element the group is read; the second is not covered by `C09_nested_sequence_accepts`, which
asks for a first element. -/
example :
    verdict (Drv.run (genEnv track) tyNO.de.toDeser { helper := () }
      (.start (tag 'r') :: (elem 'b' ['1'] ++ [.end_ ['r'], .eof])))
      (.node [[.node [[.txt ['1']]]]]) [.eof] = true ∧
    verdict (Drv.run (genEnv track) tyNO.de.toDeser { helper := () } [.start (tag 'r'), .end_ ['r'], .eof])
      (.node [[.node [[]]]]) [.eof] = true := by
  decide +kernel

end Ex

end Verif.Gen

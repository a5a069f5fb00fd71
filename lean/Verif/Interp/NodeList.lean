import Verif.Meta.Types
import Verif.Util.Rank

/-!
# The order in which components are interpreted (C31)

Models `xsd-parser/src/pipeline/interpreter/state/create_node_list.rs`. The dependencies of the
components (`crate_node_cache.rs`) are the input.
-/

namespace Verif.Interp

open Verif.Meta

/-! ## Model -/

/-- `NodeDependency`, interpreter/state.rs 71-83. -/
inductive Dep where
  | strong (i : Ident)
  | lazy (i : Ident)
  | weak (i : Ident)
deriving DecidableEq, Repr

/-- `NodeCacheEntry`, interpreter/state.rs 57-62: if the node is an element, an attribute or a type
(and not a group or an attribute group), and the values of its dependencies in the order of the
`BTreeMap`. -/
structure Node where
  listed : Bool
  deps : List Dep
deriving DecidableEq, Repr

/-- `NodeCache`, an `IndexMap`. -/
abbrev Graph := List (Ident × Node)

/-- `MakeNodeListState`, create_node_list.rs 33-36. -/
inductive Mark where
  | visited | done
deriving DecidableEq, Repr

/-- `MakeNodeList`, create_node_list.rs 27-31. -/
structure Walk where
  nodes : List Ident
  marks : List (Ident × Mark)

/-- `Error::CircularDependency`. -/
structure Circular where
  ident : Ident
deriving DecidableEq, Repr

/-- `self.visited.insert(…)`. -/
def Walk.mark (w : Walk) (i : Ident) (m : Mark) : Walk :=
  { w with marks := Assoc.upsert w.marks i fun _ => m }

/-- The loop over the dependencies, create_node_list.rs 70-85; `visit` is `visit_node`. `none`:
out of fuel. -/
def visitDeps (visit : Bool → Ident → Walk → Option (Except Circular Walk)) (cur : Ident) :
    List Dep → Walk → Option (Except Circular Walk)
  | [], w => some (.ok w)
  | d :: ds, w =>
    match d with
    | .weak _ => visitDeps visit cur ds w
    | .strong j =>
      match visit false j w with
      | none => none
      | some (.error _) => some (.error ⟨cur⟩)
      | some (.ok w) => visitDeps visit cur ds w
    | .lazy j =>
      match visit true j w with
      | none => none
      | some (.error _) => some (.error ⟨cur⟩)
      | some (.ok w) => visitDeps visit cur ds w

/-- `visit_node` after the checks, create_node_list.rs 63-104. -/
def visitBody (g : Graph) (visit : Bool → Ident → Walk → Option (Except Circular Walk))
    (lazy : Bool) (i : Ident) (w : Walk) : Option (Except Circular Walk) :=
  let w := if lazy then w else w.mark i .visited
  match Assoc.get g i with
  | none => some (.ok (if lazy then w else w.mark i .done))
  | some n =>
    match visitDeps visit i n.deps w with
    | none => none
    | some (.error e) => some (.error e)
    | some (.ok w) =>
      let w := if !lazy && n.listed then { w with nodes := w.nodes ++ [i] } else w
      some (.ok (if lazy then w else w.mark i .done))

/-- `visit_node`, create_node_list.rs 55-105. -/
def visitF (g : Graph) : Nat → Bool → Ident → Walk → Option (Except Circular Walk)
  | 0, _, _, _ => none
  | fuel + 1, lazy, i, w =>
    match Assoc.get w.marks i with
    | some .visited => some (.error ⟨i⟩)
    | some .done => some (.ok w)
    | none => visitBody g (visitF g fuel) lazy i w

/-- `exec`, create_node_list.rs 46-53, for the given keys. -/
def execF (g : Graph) (fuel : Nat) : List Ident → Walk → Option (Except Circular Walk)
  | [], w => some (.ok w)
  | i :: is, w =>
    if Assoc.get w.marks i = some .done then execF g fuel is w
    else
      match visitF g fuel false i w with
      | none => none
      | some (.error e) => some (.error e)
      | some (.ok w) => execF g fuel is w

/-- `create_node_list`, create_node_list.rs 22-24. -/
def createNodeList (g : Graph) (fuel : Nat) : Option (Except Circular (List Ident)) :=
  match execF g fuel (Assoc.keys g) ⟨[], []⟩ with
  | none => none
  | some (.error e) => some (.error e)
  | some (.ok w) => some (.ok w.nodes)

/-! ## Specification -/

def Strong (g : Graph) (i j : Ident) : Prop := ∃ n, Assoc.get g i = some n ∧ Dep.strong j ∈ n.deps

def Lazy (g : Graph) (i j : Ident) : Prop := ∃ n, Assoc.get g i = some n ∧ Dep.lazy j ∈ n.deps

/-- `i` needs `j` to be interpreted before: it strongly depends on `j`, or one of the groups it
uses (directly or through other groups) does. -/
inductive Requires (g : Graph) : Ident → Ident → Prop
  | strong {i j} (h : Strong g i j) : Requires g i j
  | lazy {i k j} (h : Lazy g i k) (h' : Requires g k j) : Requires g i j

/-- Chains of dependencies, at least one. -/
inductive Chain (R : Ident → Ident → Prop) : Ident → Ident → Prop
  | one {i j} (h : R i j) : Chain R i j
  | more {i k j} (h : R i k) (h' : Chain R k j) : Chain R i j

/-- The component is listed: it is an element, an attribute or a type. -/
def Listed (g : Graph) (i : Ident) : Prop := ∃ n, Assoc.get g i = some n ∧ n.listed = true

theorem Chain.trans {R : Ident → Ident → Prop} {i j k : Ident} (h : Chain R i j) (h' : Chain R j k) :
    Chain R i k := by
  induction h with
  | one h => exact .more h h'
  | more h _ ih => exact .more h (ih h')

/-! ## Invariant -/

def Done (w : Walk) (i : Ident) : Prop := Assoc.get w.marks i = some .done

/-- What holds of the components that are done. -/
structure Inv (g : Graph) (w : Walk) : Prop where
  nodup : w.nodes.Nodup
  nodes : ∀ i, i ∈ w.nodes ↔ Done w i ∧ Listed g i
  closed : ∀ i j, Done w i → Requires g i j → Done w j
  order : ∀ i j, i ∈ w.nodes → Requires g i j → Listed g j → List.Sublist [j, i] w.nodes

/-- What a visit does. -/
structure Ext (w w' : Walk) : Prop where
  nodes : ∃ l, w'.nodes = w.nodes ++ l
  done : ∀ i, Done w i → Done w' i
  visited : ∀ i, Assoc.get w'.marks i = some .visited ↔ Assoc.get w.marks i = some .visited

theorem Ext.refl (w : Walk) : Ext w w := ⟨⟨[], by simp⟩, fun _ h => h, fun _ => Iff.rfl⟩

theorem Ext.trans {w w' w'' : Walk} (h : Ext w w') (h' : Ext w' w'') : Ext w w'' := by
  obtain ⟨l, hl⟩ := h.nodes
  obtain ⟨l', hl'⟩ := h'.nodes
  exact ⟨⟨l ++ l', by rw [hl', hl, List.append_assoc]⟩, fun i hi => h'.done i (h.done i hi),
    fun i => (h'.visited i).trans (h.visited i)⟩

/-- What a successful visit of `i` achieves. -/
structure After (g : Graph) (lazy : Bool) (i : Ident) (w w' : Walk) : Prop where
  inv : Inv g w'
  ext : Ext w w'
  done : lazy = false → Done w' i
  requires : ∀ j, Requires g i j → Done w' j

theorem visitDeps_ok {g : Graph} {visit : Bool → Ident → Walk → Option (Except Circular Walk)}
    (hv : ∀ lazy i w w', Inv g w → visit lazy i w = some (.ok w') → After g lazy i w w') {cur : Ident}
    {ds : List Dep} :
    ∀ {w w' : Walk}, Inv g w → visitDeps visit cur ds w = some (.ok w') →
    Inv g w' ∧ Ext w w' ∧ (∀ j, Dep.strong j ∈ ds → Done w' j) ∧
      ∀ k j, Dep.lazy k ∈ ds → Requires g k j → Done w' j := by
  induction ds with
  | nil => intro w w' hi h; cases h; exact ⟨hi, .refl _, by simp, by simp⟩
  | cons d ds ih =>
    intro w w' hi h
    cases d with
    | weak k =>
      obtain ⟨h1, h2, h3, h4⟩ := ih hi h
      refine ⟨h1, h2, ?_, ?_⟩
      · intro j hj; exact h3 j (by simpa using hj)
      · intro k' j hk; exact h4 k' j (by simpa using hk)
    | strong k =>
      simp only [visitDeps] at h
      split at h
      · cases h
      · cases h
      · rename_i w1 hw1
        have ha := hv false k w w1 hi hw1
        obtain ⟨h1, h2, h3, h4⟩ := ih ha.inv h
        refine ⟨h1, ha.ext.trans h2, ?_, ?_⟩
        · intro j hj
          rcases List.mem_cons.mp hj with hj | hj
          · cases hj; exact h2.done _ (ha.done rfl)
          · exact h3 j hj
        · intro k' j hk; exact h4 k' j (by simpa using hk)
    | lazy k =>
      simp only [visitDeps] at h
      split at h
      · cases h
      · cases h
      · rename_i w1 hw1
        have ha := hv true k w w1 hi hw1
        obtain ⟨h1, h2, h3, h4⟩ := ih ha.inv h
        refine ⟨h1, ha.ext.trans h2, ?_, ?_⟩
        · intro j hj; exact h3 j (by simpa using hj)
        · intro k' j hk hr
          rcases List.mem_cons.mp hk with hk | hk
          · cases hk; exact h2.done _ (ha.requires j hr)
          · exact h4 k' j hk hr

theorem get_mark (w : Walk) (i j : Ident) (m : Mark) :
    Assoc.get (w.mark i m).marks j = if i = j then some m else Assoc.get w.marks j := by
  unfold Walk.mark
  simp only
  rw [Assoc.get_upsert]

theorem requires_cases {g : Graph} {i j : Ident} (h : Requires g i j) :
    ∃ n, Assoc.get g i = some n ∧
      (Dep.strong j ∈ n.deps ∨ ∃ k, Dep.lazy k ∈ n.deps ∧ Requires g k j) := by
  cases h with
  | strong h => obtain ⟨n, h1, h2⟩ := h; exact ⟨n, h1, Or.inl h2⟩
  | lazy h h' => obtain ⟨n, h1, h2⟩ := h; exact ⟨n, h1, Or.inr ⟨_, h2, h'⟩⟩

theorem visitBody_ok {g : Graph} {visit : Bool → Ident → Walk → Option (Except Circular Walk)}
    (hv : ∀ lazy i w w', Inv g w → visit lazy i w = some (.ok w') → After g lazy i w w')
    {lazy : Bool} {i : Ident} {w w' : Walk} (hi : Inv g w) (hn : Assoc.get w.marks i = none)
    (h : visitBody g visit lazy i w = some (.ok w')) : After g lazy i w w' := by
  -- the invariant after the first mark
  have hdone : ∀ j, Done (w.mark i .visited) j ↔ Done w j := by
    intro j
    unfold Done
    rw [get_mark]
    split
    · rename_i heq; subst heq; rw [hn]; simp
    · exact Iff.rfl
  have hi1 : Inv g (w.mark i .visited) :=
    ⟨hi.nodup, fun j => by rw [hdone]; exact hi.nodes j,
      fun a b ha hr => (hdone b).mpr (hi.closed a b ((hdone a).mp ha) hr), hi.order⟩
  cases lazy with
  | true =>
    simp only [visitBody, if_true] at h
    cases hg : Assoc.get g i with
    | none =>
      rw [hg] at h
      cases h
      refine ⟨hi, .refl _, by simp, ?_⟩
      intro j hr
      obtain ⟨n, h1, _⟩ := requires_cases hr
      rw [hg] at h1; cases h1
    | some n =>
      rw [hg] at h
      simp only at h
      split at h
      · cases h
      · cases h
      · rename_i w1 hw1
        obtain ⟨h1, h2, h3, h4⟩ := visitDeps_ok hv hi hw1
        simp at h
        subst h
        refine ⟨h1, h2, by simp, ?_⟩
        intro j hr
        obtain ⟨n', hn', hc⟩ := requires_cases hr
        rw [hg] at hn'; cases hn'
        rcases hc with hc | ⟨k, hk, hr'⟩
        · exact h3 j hc
        · exact h4 k j hk hr'
  | false =>
    simp only [visitBody, Bool.false_eq_true, if_false] at h
    cases hg : Assoc.get g i with
    | none =>
      rw [hg] at h
      simp only [Option.some.injEq, Except.ok.injEq] at h
      subst h
      have hnr : ∀ j, ¬ Requires g i j := by
        intro j hr
        obtain ⟨n, h1, _⟩ := requires_cases hr
        rw [hg] at h1; cases h1
      have hnl : ¬ Listed g i := by rintro ⟨n, h1, _⟩; rw [hg] at h1; cases h1
      have hd : ∀ j, Done ((w.mark i .visited).mark i .done) j ↔ j = i ∨ Done w j := by
        intro j
        unfold Done
        rw [get_mark, get_mark]
        split
        · rename_i heq; subst heq; simp
        · rename_i hne; simp [Ne.symm hne]
      refine ⟨⟨hi.nodup, ?_, ?_, hi.order⟩, ⟨⟨[], by simp [Walk.mark]⟩, ?_, ?_⟩, fun _ => (hd i).mpr (Or.inl rfl),
        fun j hr => absurd hr (hnr j)⟩
      · intro j
        rw [hd]
        show j ∈ w.nodes ↔ _
        rw [hi.nodes]
        constructor
        · rintro ⟨h1, h2⟩; exact ⟨Or.inr h1, h2⟩
        · rintro ⟨h1 | h1, h2⟩
          · subst h1; exact absurd h2 hnl
          · exact ⟨h1, h2⟩
      · intro a b ha hr
        rcases (hd a).mp ha with rfl | ha
        · exact absurd hr (hnr b)
        · exact (hd b).mpr (Or.inr (hi.closed a b ha hr))
      · intro j hj; exact (hd j).mpr (Or.inr hj)
      · intro j
        rw [get_mark, get_mark]
        split
        · rename_i heq; subst heq; rw [hn]; simp
        · exact Iff.rfl
    | some n =>
      rw [hg] at h
      simp only at h
      split at h
      · cases h
      · cases h
      · rename_i w1 hw1
        obtain ⟨h1, h2, h3, h4⟩ := visitDeps_ok hv hi1 hw1
        have hvis : Assoc.get w1.marks i = some .visited := by
          rw [h2.visited, get_mark, if_pos rfl]
        have hnd : ¬ Done w1 i := by unfold Done; rw [hvis]; simp
        have hreq : ∀ j, Requires g i j → Done w1 j := by
          intro j hr
          obtain ⟨n', hn', hc⟩ := requires_cases hr
          rw [hg] at hn'; cases hn'
          rcases hc with hc | ⟨k, hk, hr'⟩
          · exact h3 j hc
          · exact h4 k j hk hr'
        obtain ⟨l, hl⟩ := h2.nodes
        have hl : w1.nodes = w.nodes ++ l := hl
        have hvisited : ∀ (w2 : Walk), w2.marks = w1.marks → ∀ j,
            Assoc.get (w2.mark i .done).marks j = some .visited ↔ Assoc.get w.marks j = some .visited := by
          intro w2 hm j
          rw [get_mark, hm]
          split
          · rename_i heq; subst heq; rw [hn]; simp
          · rename_i hne; rw [h2.visited, get_mark, if_neg hne]
        have hd : ∀ (w2 : Walk), w2.marks = w1.marks → ∀ j, Done (w2.mark i .done) j ↔ j = i ∨ Done w1 j := by
          intro w2 hm j
          unfold Done
          rw [get_mark, hm]
          split
          · rename_i heq; subst heq; simp
          · rename_i hne; simp [Ne.symm hne]
        have hclosed : ∀ (w2 : Walk), w2.marks = w1.marks → ∀ a b, Done (w2.mark i .done) a → Requires g a b →
            Done (w2.mark i .done) b := by
          intro w2 hm a b ha hr
          rcases (hd w2 hm a).mp ha with rfl | ha
          · exact (hd w2 hm b).mpr (Or.inr (hreq b hr))
          · exact (hd w2 hm b).mpr (Or.inr (h1.closed a b ha hr))
        cases hlist : n.listed with
        | false =>
          simp [hlist] at h
          subst h
          have hnl : ¬ Listed g i := by
            rintro ⟨n', h5, h6⟩; rw [hg] at h5; cases h5; rw [hlist] at h6; cases h6
          refine ⟨⟨h1.nodup, ?_, hclosed w1 rfl, h1.order⟩, ⟨⟨l, hl⟩, ?_, hvisited w1 rfl⟩,
            fun _ => (hd w1 rfl i).mpr (Or.inl rfl), fun j hr => (hd w1 rfl j).mpr (Or.inr (hreq j hr))⟩
          · intro j
            rw [hd w1 rfl]
            show j ∈ w1.nodes ↔ _
            rw [h1.nodes]
            constructor
            · rintro ⟨h5, h6⟩; exact ⟨Or.inr h5, h6⟩
            · rintro ⟨h5 | h5, h6⟩
              · subst h5; exact absurd h6 hnl
              · exact ⟨h5, h6⟩
          · intro j hj
            exact (hd w1 rfl j).mpr (Or.inr (h2.done j ((hdone j).mpr hj)))
        | true =>
          simp [hlist] at h
          subst h
          have hli : Listed g i := ⟨n, hg, hlist⟩
          have hnot : i ∉ w1.nodes := fun hm => hnd ((h1.nodes i).mp hm).1
          have hd' := hd { w1 with nodes := w1.nodes ++ [i] } rfl
          refine ⟨⟨?_, ?_, hclosed _ rfl, ?_⟩, ⟨⟨l ++ [i], ?_⟩, ?_, hvisited _ rfl⟩,
            fun _ => (hd' i).mpr (Or.inl rfl), fun j hr => (hd' j).mpr (Or.inr (hreq j hr))⟩
          · show (w1.nodes ++ [i]).Nodup
            refine List.nodup_append.mpr ⟨h1.nodup, by simp, ?_⟩
            intro a ha b hb
            simp at hb; subst hb
            rintro rfl
            exact hnot ha
          · intro j
            rw [hd']
            show j ∈ w1.nodes ++ [i] ↔ _
            rw [List.mem_append, h1.nodes, List.mem_singleton]
            constructor
            · rintro (⟨h5, h6⟩ | rfl)
              · exact ⟨Or.inr h5, h6⟩
              · exact ⟨Or.inl rfl, hli⟩
            · rintro ⟨h5 | h5, h6⟩
              · exact Or.inr h5
              · exact Or.inl ⟨h5, h6⟩
          · intro a b ha hr hb
            have ha : a ∈ w1.nodes ++ [i] := ha
            show List.Sublist [b, a] (w1.nodes ++ [i])
            rcases List.mem_append.mp ha with ha | ha
            · exact (h1.order a b ha hr hb).trans (List.sublist_append_left _ _)
            · simp at ha; subst ha
              have hbn : b ∈ w1.nodes := (h1.nodes b).mpr ⟨hreq b hr, hb⟩
              exact List.Sublist.append (List.singleton_sublist.mpr hbn) (List.Sublist.refl [a])
          · show w1.nodes ++ [i] = w.nodes ++ (l ++ [i])
            rw [hl, List.append_assoc]
          · intro j hj
            exact (hd' j).mpr (Or.inr (h2.done j ((hdone j).mpr hj)))

theorem visitF_ok {g : Graph} (fuel : Nat) :
    ∀ lazy i w w', Inv g w → visitF g fuel lazy i w = some (.ok w') → After g lazy i w w' := by
  induction fuel with
  | zero => intro _ _ _ _ _ h; cases h
  | succ fuel ih =>
    intro lazy i w w' hi h
    rw [visitF] at h
    split at h
    · cases h
    · rename_i hd
      cases h
      exact ⟨hi, .refl _, fun _ => hd, fun j hr => hi.closed i j hd hr⟩
    · rename_i hn
      exact visitBody_ok ih hi hn h

theorem execF_ok {g : Graph} {fuel : Nat} {is : List Ident} :
    ∀ {w w' : Walk}, Inv g w → execF g fuel is w = some (.ok w') →
    Inv g w' ∧ Ext w w' ∧ ∀ i ∈ is, Done w' i := by
  induction is with
  | nil => intro w w' hi h; cases h; exact ⟨hi, .refl _, by simp⟩
  | cons i is ih =>
    intro w w' hi h
    rw [execF] at h
    split at h
    · rename_i hd
      obtain ⟨h1, h2, h3⟩ := ih hi h
      refine ⟨h1, h2, ?_⟩
      intro j hj
      rcases List.mem_cons.mp hj with rfl | hj
      · exact h2.done _ hd
      · exact h3 j hj
    · split at h
      · cases h
      · cases h
      · rename_i w1 hw1
        have ha := visitF_ok fuel _ _ _ _ hi hw1
        obtain ⟨h1, h2, h3⟩ := ih ha.inv h
        refine ⟨h1, ha.ext.trans h2, ?_⟩
        intro j hj
        rcases List.mem_cons.mp hj with rfl | hj
        · exact h2.done _ (ha.done rfl)
        · exact h3 j hj

theorem inv_start (g : Graph) : Inv g ⟨[], []⟩ :=
  ⟨by simp, by intro i; simp [Done, Assoc.get], by intro i j h; simp [Done, Assoc.get] at h, by simp⟩

theorem createNodeList_inv {g : Graph} {fuel : Nat} {nodes : List Ident}
    (h : createNodeList g fuel = some (.ok nodes)) :
    ∃ w, w.nodes = nodes ∧ Inv g w ∧ ∀ i ∈ Assoc.keys g, Done w i := by
  unfold createNodeList at h
  split at h
  · cases h
  · cases h
  · rename_i w hw
    cases h
    obtain ⟨h1, _, h3⟩ := execF_ok (inv_start g) hw
    exact ⟨w, rfl, h1, h3⟩

/-! ## Theorems -/

/-- **C31.** The list contains every element, attribute and type exactly once. -/
theorem C31_complete {g : Graph} {fuel : Nat} {nodes : List Ident}
    (h : createNodeList g fuel = some (.ok nodes)) :
    nodes.Nodup ∧ ∀ i, i ∈ nodes ↔ Listed g i := by
  obtain ⟨w, rfl, hi, hd⟩ := createNodeList_inv h
  refine ⟨hi.nodup, fun i => ?_⟩
  rw [hi.nodes]
  constructor
  · exact fun h => h.2
  · rintro ⟨n, h1, h2⟩
    exact ⟨hd i ((Assoc.get_isSome _ _).mp (by rw [h1]; rfl)), n, h1, h2⟩

/-- **C31.** A component comes after everything it needs, also through groups. -/
theorem C31_after_required {g : Graph} {fuel : Nat} {nodes : List Ident}
    (h : createNodeList g fuel = some (.ok nodes)) {i j : Ident} (hi : Listed g i) (hj : Listed g j)
    (hr : Requires g i j) : List.Sublist [j, i] nodes := by
  have hmem := ((C31_complete h).2 i).mpr hi
  obtain ⟨w, rfl, hinv, _⟩ := createNodeList_inv h
  exact hinv.order i j hmem hr hj

theorem sublist_trans {l : List Ident} {a b c : Ident} (hn : l.Nodup)
    (h1 : List.Sublist [a, b] l) (h2 : List.Sublist [b, c] l) : List.Sublist [a, c] l := by
  induction l with
  | nil => cases h1
  | cons x l ih =>
    obtain ⟨hx, hn⟩ := List.nodup_cons.mp hn
    cases h1 with
    | cons _ h1 =>
      cases h2 with
      | cons _ h2 => exact (ih hn h1 h2).cons x
      | cons_cons _ h2 => exact absurd (h1.subset (by simp)) hx
    | cons_cons _ h1 =>
      cases h2 with
      | cons _ h2 =>
        exact (List.singleton_sublist.mpr (h2.subset (by simp))).cons_cons a
      | cons_cons _ h2 => exact absurd (h1.subset (by simp)) hx

/-- **C31.** There is no list for components that need each other in a cycle. -/
theorem C31_cycle_rejected {g : Graph} {i : Ident}
    (hc : Chain (fun a b => Requires g a b ∧ Listed g b) i i) (fuel : Nat) (nodes : List Ident) :
    createNodeList g fuel ≠ some (.ok nodes) := by
  intro h
  have hn := (C31_complete h).1
  have key : ∀ a b, Listed g a → Chain (fun a b => Requires g a b ∧ Listed g b) a b →
      Listed g b ∧ List.Sublist [b, a] nodes := by
    intro a b ha hab
    induction hab with
    | one hr => exact ⟨hr.2, C31_after_required h ha hr.2 hr.1⟩
    | more hr hrest ih =>
      obtain ⟨h1, h2⟩ := ih hr.2
      exact ⟨h1, sublist_trans hn h2 (C31_after_required h ha hr.2 hr.1)⟩
  have hl : Listed g i := by
    have last : ∀ a b, Chain (fun a b => Requires g a b ∧ Listed g b) a b → Listed g b := by
      intro a b hab
      induction hab with
      | one hr => exact hr.2
      | more _ _ ih => exact ih
    exact last i i hc
  have := (key i i hl hc).2.nodup hn
  simp at this

/-- Steps of the search: strong and lazy dependencies. -/
def Edge (g : Graph) (i j : Ident) : Prop := Strong g i j ∨ Lazy g i j

/-- A cycle can be reached from `i`. -/
def LeadsToCycle (g : Graph) (i : Ident) : Prop :=
  ∃ k, (k = i ∨ Chain (Edge g) i k) ∧ Chain (Edge g) k k

theorem visitDeps_err {visit : Bool → Ident → Walk → Option (Except Circular Walk)}
    {cur : Ident} {ds : List Dep} {e : Circular} :
    ∀ {w : Walk}, visitDeps visit cur ds w = some (.error e) →
    e.ident = cur ∧ ∃ lazy j w' e', ((Dep.strong j ∈ ds ∧ lazy = false) ∨ (Dep.lazy j ∈ ds ∧ lazy = true)) ∧
      visit lazy j w' = some (.error e') ∧
      ∃ ds1 ds2, ds = ds1 ++ ds2 ∧ visitDeps visit cur ds1 w = some (.ok w') := by
  induction ds with
  | nil => intro w h; cases h
  | cons d ds ih =>
    intro w h
    have lift : ∀ {w1 : Walk}, visitDeps visit cur ds w1 = some (.error e) →
        (∀ ds1 w', visitDeps visit cur ds1 w1 = some (.ok w') → visitDeps visit cur (d :: ds1) w = some (.ok w')) →
        e.ident = cur ∧ ∃ lazy j w' e', ((Dep.strong j ∈ d :: ds ∧ lazy = false) ∨ (Dep.lazy j ∈ d :: ds ∧ lazy = true)) ∧
      visit lazy j w' = some (.error e') ∧
      ∃ ds1 ds2, d :: ds = ds1 ++ ds2 ∧ visitDeps visit cur ds1 w = some (.ok w') := by
      intro w1 h1 hstep
      obtain ⟨h2, lazy, j, w', e', h3, h4, ds1, ds2, h5, h6⟩ := ih h1
      refine ⟨h2, lazy, j, w', e', ?_, h4, d :: ds1, ds2, by rw [h5]; rfl, hstep _ _ h6⟩
      exact h3.imp (fun h => ⟨List.mem_cons_of_mem _ h.1, h.2⟩) (fun h => ⟨List.mem_cons_of_mem _ h.1, h.2⟩)
    cases d with
    | weak k => exact lift h (fun _ _ h => h)
    | strong k =>
      simp only [visitDeps] at h
      split at h
      · cases h
      · rename_i e' he'
        cases h
        exact ⟨rfl, false, k, w, e', Or.inl ⟨by simp, rfl⟩, he', [], _, rfl, rfl⟩
      · rename_i w1 hw1
        exact lift h (fun ds1 w' h' => by simp only [visitDeps, hw1]; exact h')
    | lazy k =>
      simp only [visitDeps] at h
      split at h
      · cases h
      · rename_i e' he'
        cases h
        exact ⟨rfl, true, k, w, e', Or.inr ⟨by simp, rfl⟩, he', [], _, rfl, rfl⟩
      · rename_i w1 hw1
        exact lift h (fun ds1 w' h' => by simp only [visitDeps, hw1]; exact h')

theorem visitF_err {g : Graph} (fuel : Nat) :
    ∀ lazy i w e, Inv g w → visitF g fuel lazy i w = some (.error e) →
    e.ident = i ∧ ∃ k, (k = i ∨ Chain (Edge g) i k) ∧
      (Assoc.get w.marks k = some .visited ∨ Chain (Edge g) k k) := by
  induction fuel with
  | zero => intro _ _ _ _ _ h; cases h
  | succ fuel ih =>
    intro lazy i w e hi h
    rw [visitF] at h
    split at h
    · rename_i hv
      cases h
      exact ⟨rfl, i, Or.inl rfl, Or.inl hv⟩
    · cases h
    · rename_i hn
      unfold visitBody at h
      cases hg : Assoc.get g i with
      | none => rw [hg] at h; cases h
      | some n =>
        rw [hg] at h
        simp only at h
        split at h
        · cases h
        · rename_i e1 he
          cases h
          obtain ⟨h1, lazy', j, w', e', h3, h4, ds1, ds2, h5, h6⟩ := visitDeps_err he
          refine ⟨h1, ?_⟩
          have hedge : Edge g i j := by
            rcases h3 with h3 | h3
            · exact Or.inl ⟨n, hg, h3.1⟩
            · exact Or.inr ⟨n, hg, h3.1⟩
          have hi1 : Inv g (if lazy then w else w.mark i .visited) := by
            cases lazy with
            | true => exact hi
            | false =>
              have hdone : ∀ j, Done (w.mark i .visited) j ↔ Done w j := by
                intro j
                unfold Done
                rw [get_mark]
                split
                · rename_i heq; subst heq; rw [hn]; simp
                · exact Iff.rfl
              exact ⟨hi.nodup, fun j => by
                show j ∈ w.nodes ↔ _
                rw [hi.nodes]; exact and_congr_left fun _ => (hdone j).symm,
                fun a b ha hr => (hdone b).mpr (hi.closed a b ((hdone a).mp ha) hr), hi.order⟩
          obtain ⟨hi2, hext, _, _⟩ := visitDeps_ok (visitF_ok fuel) hi1 h6
          obtain ⟨_, k, hk, hcase⟩ := ih lazy' j w' e' hi2 h4
          have hchain : Chain (Edge g) i k := by
            rcases hk with rfl | hk
            · exact .one hedge
            · exact .more hedge hk
          refine ⟨k, Or.inr hchain, ?_⟩
          rcases hcase with hv | hc
          · rw [hext.visited] at hv
            cases lazy with
            | true => exact Or.inl hv
            | false =>
              simp only [Bool.false_eq_true, if_false] at hv
              rw [get_mark] at hv
              split at hv
              · rename_i heq; subst heq; exact Or.inr hchain
              · exact Or.inl hv
          · exact Or.inr hc
        · cases h

/-- **C31.** An error is reported for a component only if its dependencies lead to a cycle. -/
theorem C31_error_justified {g : Graph} {fuel : Nat} {e : Circular}
    (h : createNodeList g fuel = some (.error e)) : LeadsToCycle g e.ident := by
  have main : ∀ (is : List Ident) (w : Walk), Inv g w → (∀ k, Assoc.get w.marks k ≠ some .visited) →
      execF g fuel is w = some (.error e) → LeadsToCycle g e.ident := by
    intro is
    induction is with
    | nil => intro w _ _ h; cases h
    | cons i is ih =>
      intro w hi hw h
      rw [execF] at h
      split at h
      · exact ih w hi hw h
      · split at h
        · cases h
        · rename_i e1 he
          cases h
          obtain ⟨h1, k, hk, hc⟩ := visitF_err fuel _ _ _ _ hi he
          rw [h1]
          exact ⟨k, hk, hc.resolve_left (hw k)⟩
        · rename_i w1 hw1
          have ha := visitF_ok fuel _ _ _ _ hi hw1
          exact ih w1 ha.inv (fun k => by rw [Ne, ha.ext.visited]; exact hw k) h
  unfold createNodeList at h
  split at h
  · cases h
  · rename_i e1 he
    cases h
    exact main _ _ (inv_start g) (by simp [Assoc.get]) he
  · cases h

/-! ### Termination -/

/-- The number of components that were not visited yet. -/
def unmarked (g : Graph) (w : Walk) : Nat :=
  (Assoc.keys g).countP fun i => (Assoc.get w.marks i).isNone

theorem Ext.isSome {w w' : Walk} (h : Ext w w') {i : Ident} (hi : (Assoc.get w.marks i).isSome) :
    (Assoc.get w'.marks i).isSome := by
  cases hm : Assoc.get w.marks i with
  | none => rw [hm] at hi; cases hi
  | some m =>
    cases m with
    | visited => rw [(h.visited i).mpr hm]; rfl
    | done => rw [show Assoc.get w'.marks i = some .done from h.done i hm]; rfl

theorem unmarked_le {g : Graph} {w w' : Walk} (h : Ext w w') : unmarked g w' ≤ unmarked g w := by
  unfold unmarked
  apply List.countP_mono_left
  intro i _ hi
  cases hm : Assoc.get w.marks i with
  | none => rfl
  | some m =>
    have := h.isSome (i := i) (by rw [hm]; rfl)
    cases hm' : Assoc.get w'.marks i with
    | none => rw [hm'] at this; cases this
    | some m' => rw [hm'] at hi; cases hi

theorem unmarked_mark {g : Graph} {w : Walk} {i : Ident} (hi : i ∈ Assoc.keys g)
    (hn : Assoc.get w.marks i = none) : unmarked g (w.mark i .visited) < unmarked g w := by
  unfold unmarked
  refine countP_lt ?_ hi ?_ ?_
  · intro j _ hj
    rw [get_mark] at hj
    split at hj
    · cases hj
    · exact hj
  · simp only [get_mark, if_true]; rfl
  · simp only [hn]; rfl

/-- The fuel a visit needs. -/
def need (g : Graph) (rank : Ident → Nat) (lazy : Bool) (i : Ident) (w : Walk) : Nat :=
  unmarked g w * ((Assoc.keys g).length + 2) + 1 + if lazy then rank i + 1 else 0

theorem visitDeps_ends {g : Graph} {rank : Ident → Nat}
    {visit : Bool → Ident → Walk → Option (Except Circular Walk)} {cur : Ident} {ds : List Dep}
    (hok : ∀ lazy i w w', Inv g w → visit lazy i w = some (.ok w') → After g lazy i w w') {fuel : Nat}
    (hv : ∀ lazy i w, Inv g w → need g rank lazy i w ≤ fuel → visit lazy i w ≠ none) :
    ∀ {w : Walk}, Inv g w → unmarked g w * ((Assoc.keys g).length + 2) + 1 ≤ fuel →
    (∀ k, Dep.lazy k ∈ ds → unmarked g w * ((Assoc.keys g).length + 2) + 1 + (rank k + 1) ≤ fuel) →
    visitDeps visit cur ds w ≠ none := by
  induction ds with
  | nil => intro w _ _ _ h; cases h
  | cons d ds ih =>
    intro w hi h1 h2
    have next : ∀ {w1 : Walk}, Inv g w1 → Ext w w1 → visitDeps visit cur ds w1 ≠ none := by
      intro w1 hi1 hext
      have hle : unmarked g w1 * ((Assoc.keys g).length + 2) ≤
          unmarked g w * ((Assoc.keys g).length + 2) := Nat.mul_le_mul_right _ (unmarked_le hext)
      apply ih hi1
      · omega
      · intro k hk
        have := h2 k (by simp [hk])
        omega
    cases d with
    | weak k => exact next hi (.refl w)
    | strong k =>
      simp only [visitDeps]
      have := hv false k w hi (by unfold need; simpa using h1)
      split
      · contradiction
      · simp
      · rename_i w1 hw1
        have ha := hok _ _ _ _ hi hw1
        exact next ha.inv ha.ext
    | lazy k =>
      simp only [visitDeps]
      have := hv true k w hi (by unfold need; simpa using h2 k (by simp))
      split
      · contradiction
      · simp
      · rename_i w1 hw1
        have ha := hok _ _ _ _ hi hw1
        exact next ha.inv ha.ext

theorem inv_mark {g : Graph} {w : Walk} {i : Ident} (hi : Inv g w) (hn : Assoc.get w.marks i = none) :
    Inv g (w.mark i .visited) := by
  have hdone : ∀ j, Done (w.mark i .visited) j ↔ Done w j := by
    intro j
    unfold Done
    rw [get_mark]
    split
    · rename_i heq; subst heq; rw [hn]; simp
    · exact Iff.rfl
  exact ⟨hi.nodup, fun j => by
    show j ∈ w.nodes ↔ _
    rw [hi.nodes]; exact and_congr_left fun _ => (hdone j).symm,
    fun a b ha hr => (hdone b).mpr (hi.closed a b ((hdone a).mp ha) hr), hi.order⟩

theorem visitF_ends {g : Graph} {rank : Ident → Nat} (hrank : ∀ a b, Lazy g a b → rank b < rank a)
    (hle : ∀ a, rank a ≤ (Assoc.keys g).length) (fuel : Nat) :
    ∀ lazy i w, Inv g w → need g rank lazy i w ≤ fuel → visitF g fuel lazy i w ≠ none := by
  induction fuel with
  | zero => intro lazy i w _ h; unfold need at h; omega
  | succ fuel ih =>
    intro lazy i w hi h
    rw [visitF]
    split
    · simp
    · simp
    · rename_i hn
      unfold visitBody
      cases hg : Assoc.get g i with
      | none => simp
      | some n =>
        simp only
        have hkey : i ∈ Assoc.keys g := (Assoc.get_isSome _ _).mp (by rw [hg]; rfl)
        have hd : visitDeps (visitF g fuel) i n.deps (if lazy then w else w.mark i .visited) ≠ none := by
          cases lazy with
          | true =>
            unfold need at h
            simp only [if_true] at h ⊢
            apply visitDeps_ends (visitF_ok fuel) ih hi
            · omega
            · intro k hk
              have := hrank i k ⟨n, hg, hk⟩
              omega
          | false =>
            unfold need at h
            simp only [Bool.false_eq_true, if_false] at h ⊢
            have hlt := unmarked_mark hkey hn
            have hmul : (unmarked g (w.mark i .visited) + 1) * ((Assoc.keys g).length + 2) ≤
                unmarked g w * ((Assoc.keys g).length + 2) := Nat.mul_le_mul_right _ hlt
            rw [Nat.add_mul, Nat.one_mul] at hmul
            apply visitDeps_ends (visitF_ok fuel) ih (inv_mark hi hn)
            · omega
            · intro k _
              have := hle k
              omega
        split
        · contradiction
        · simp
        · simp

/-- **C31** (partial). The search ends if no group contains itself. Missing: groups that contain
themselves, see `C31_circular_group_hangs`. -/
theorem C31_ends_partial (g : Graph) (hg : NoLoop (Lazy g)) :
    ∃ fuel, createNodeList g fuel ≠ none := by
  have hdom : ∀ a b, Lazy g a b → a ∈ Assoc.keys g := by
    rintro a b ⟨n, hn, _⟩
    exact (Assoc.get_isSome _ _).mp (by rw [hn]; rfl)
  obtain ⟨rank, hrank, hle⟩ := rank_of_noLoop (Lazy g) (Assoc.keys g) hdom hg
  let fuel := (Assoc.keys g).length * ((Assoc.keys g).length + 2) + 1
  refine ⟨fuel, ?_⟩
  have main : ∀ (is : List Ident) (w : Walk), Inv g w → execF g fuel is w ≠ none := by
    intro is
    induction is with
    | nil => intro w _ h; cases h
    | cons i is ih =>
      intro w hi
      rw [execF]
      split
      · exact ih w hi
      · have hne : visitF g fuel false i w ≠ none := by
          apply visitF_ends hrank hle _ _ _ _ hi
          unfold need
          have h1 : unmarked g w ≤ (Assoc.keys g).length := List.countP_le_length
          have h2 : unmarked g w * ((Assoc.keys g).length + 2) ≤
              (Assoc.keys g).length * ((Assoc.keys g).length + 2) := Nat.mul_le_mul_right _ h1
          simp only [Bool.false_eq_true, if_false]
          omega
        split
        · contradiction
        · simp
        · rename_i w1 hw1
          exact ih w1 (visitF_ok fuel _ _ _ _ hi hw1).inv
  have := main (Assoc.keys g) ⟨[], []⟩ (inv_start g)
  unfold createNodeList
  split
  · contradiction
  · simp
  · simp

/-- **C31** (partial). Components that need each other in a cycle are reported as an error, if no
group contains itself. -/
theorem C31_cycle_reported_partial {g : Graph} (hg : NoLoop (Lazy g)) {i : Ident}
    (hc : Chain (fun a b => Requires g a b ∧ Listed g b) i i) :
    ∃ fuel e, createNodeList g fuel = some (.error e) := by
  obtain ⟨fuel, hf⟩ := C31_ends_partial g hg
  cases h : createNodeList g fuel with
  | none => exact absurd h hf
  | some r =>
    cases r with
    | error e => exact ⟨fuel, e, h⟩
    | ok nodes => exact absurd h (C31_cycle_rejected hc fuel nodes)

/-! ## Examples -/

/-- `E` extends `D` through a group `G` that refers to the group `H`, whose element is in the
substitution group of `D`; `D` extends `B`. -/
def exGraph : Graph :=
  [(exId "E", ⟨true, [.lazy (exId "G"), .weak (exId "E")]⟩), (exId "G", ⟨false, [.lazy (exId "H")]⟩),
   (exId "H", ⟨false, [.strong (exId "D")]⟩), (exId "D", ⟨true, [.strong (exId "B"), .strong (exId "xs:string")]⟩),
   (exId "B", ⟨true, []⟩)]

example : createNodeList exGraph 20 = some (.ok [exId "B", exId "D", exId "E"]) := by rfl

example : Requires exGraph (exId "E") (exId "D") :=
  .lazy ⟨_, rfl, List.mem_cons_self ..⟩ (.lazy ⟨_, rfl, List.mem_cons_self ..⟩ (.strong ⟨_, rfl, List.mem_cons_self ..⟩))

example : NoLoop (Lazy exGraph) := by
  refine noLoop_of_rank _ (fun i => if i = exId "E" then 2 else if i = exId "G" then 1 else 0) ?_
  rintro a b ⟨n, hn, hd⟩
  have hm := Assoc.mem_of_get hn
  simp only [exGraph, List.mem_cons, Prod.mk.injEq, List.not_mem_nil, or_false] at hm
  rcases hm with ⟨rfl, rfl⟩ | ⟨rfl, rfl⟩ | ⟨rfl, rfl⟩ | ⟨rfl, rfl⟩ | ⟨rfl, rfl⟩ <;> simp at hd <;> subst hd <;>
    decide +kernel

/-- Types that extend each other. -/
def exCycle : Graph :=
  [(exId "A", ⟨true, [.strong (exId "B")]⟩), (exId "B", ⟨true, [.strong (exId "C")]⟩),
   (exId "C", ⟨true, [.strong (exId "B")]⟩)]

example : createNodeList exCycle 9 = some (.error ⟨exId "A"⟩) := by rfl

example : Chain (fun a b => Requires exCycle a b ∧ Listed exCycle b) (exId "B") (exId "B") :=
  .more (k := exId "C") ⟨.strong ⟨_, rfl, List.mem_cons_self ..⟩, ⟨_, rfl, rfl⟩⟩
    (.one ⟨.strong ⟨_, rfl, List.mem_cons_self ..⟩, ⟨_, rfl, rfl⟩⟩)

/-- A type that uses a group that contains itself. -/
def exGroupLoop : Graph :=
  [(exId "T", ⟨true, [.lazy (exId "G")]⟩), (exId "G", ⟨false, [.lazy (exId "G")]⟩)]

/-- **C31** (negation). A group that contains itself is not reported if a type that uses it comes
first: the search recurses without end. -/
theorem C31_circular_group_hangs (fuel : Nat) : createNodeList exGroupLoop fuel = none := by
  have hG : ∀ fuel, visitF exGroupLoop fuel true (exId "G") ⟨[], [(exId "T", .visited)]⟩ = none := by
    intro fuel
    induction fuel with
    | zero => rfl
    | succ fuel ih =>
      show visitBody exGroupLoop (visitF exGroupLoop fuel) true (exId "G") ⟨[], [(exId "T", .visited)]⟩ = none
      simp only [visitBody, if_true,
        show Assoc.get exGroupLoop (exId "G") = some ⟨false, [.lazy (exId "G")]⟩ from by decide +kernel, visitDeps, ih]
  have hT : visitF exGroupLoop fuel false (exId "T") ⟨[], []⟩ = none := by
    cases fuel with
    | zero => rfl
    | succ fuel =>
      show visitBody exGroupLoop (visitF exGroupLoop fuel) false (exId "T") ⟨[], []⟩ = none
      simp only [visitBody,
        show Assoc.get exGroupLoop (exId "T") = some ⟨true, [.lazy (exId "G")]⟩ from by decide +kernel, visitDeps]
      rw [show (if false = true then (⟨[], []⟩ : Walk) else (⟨[], []⟩ : Walk).mark (exId "T") .visited) =
        ⟨[], [(exId "T", .visited)]⟩ from rfl, hG]
  unfold createNodeList
  rw [show Assoc.keys exGroupLoop = [exId "T", exId "G"] from rfl, execF, if_neg (by simp [Assoc.get]), hT]

/-- If the group itself comes first, it is reported. -/
example : createNodeList [(exId "G", ⟨false, [.lazy (exId "G")]⟩), (exId "T", ⟨true, [.lazy (exId "G")]⟩)] 9 =
    some (.error ⟨exId "G"⟩) := by rfl

/-- **C31** (negation). The error names the first component of the search, which need not be part
of the cycle. -/
theorem C31_error_names_other :
    createNodeList exCycle 9 = some (.error ⟨exId "A"⟩) ∧ ¬ Chain (Edge exCycle) (exId "A") (exId "A") := by
  refine ⟨rfl, ?_⟩
  have hto : ∀ a b, Chain (Edge exCycle) a b → b ≠ exId "A" := by
    have he : ∀ a b, Edge exCycle a b → b ≠ exId "A" := by
      intro a b h
      have : ∃ n, Assoc.get exCycle a = some n ∧ (Dep.strong b ∈ n.deps ∨ Dep.lazy b ∈ n.deps) := by
        rcases h with ⟨n, h1, h2⟩ | ⟨n, h1, h2⟩
        · exact ⟨n, h1, Or.inl h2⟩
        · exact ⟨n, h1, Or.inr h2⟩
      obtain ⟨n, h1, h2⟩ := this
      have hm := Assoc.mem_of_get h1
      simp only [exCycle, List.mem_cons, Prod.mk.injEq, List.not_mem_nil, or_false] at hm
      rcases hm with ⟨rfl, rfl⟩ | ⟨rfl, rfl⟩ | ⟨rfl, rfl⟩ <;> simp at h2 <;> subst h2 <;> decide +kernel
    intro a b h
    induction h with
    | one h => exact he _ _ h
    | more _ _ ih => exact ih
  exact fun h => hto _ _ h rfl

end Verif.Interp

import Verif.Interp.RedefineReached

/-!
# Redefinitions: what is not redirected (C84)
-/

namespace Verif.NodeCache

open Verif.Assoc Verif.Models Verif.Naming Verif.Dfs

/-! ## Specification -/

/-- The components that are met from the components of a document. -/
inductive Met (st : St) (s : Nat) : Id → Prop
  | own {i : Id} : (get st.nodes i).isSome → i.schema = s → Met st s i
  | dep {i : Id} {n : Node} {d : Key × Link} : Met st s i → get st.nodes i = some n → d ∈ n.deps →
      Met st s d.2.target

/-- The components that the document redefines or overrides itself. -/
def Doc.redefines (d : Doc) (key : Nat × Txt) : Prop :=
  ∃ loc cs c, .redefine loc cs ∈ d.content ∧ c ∈ cs ∧ key = (c.kind, c.name)

/-- A reference that is met from the document leads to a component of another document although
the document has its own component with this name, and the reference is not the one of a
redefining component to what it redefines. -/
def Leaks (D : Docs) (s : Nat) : Prop :=
  ∃ st d i n x, createNodeCache id D = .ok st ∧ get D.docs s = some d ∧ Met st s i ∧
    get st.nodes i = some n ∧ x ∈ n.deps ∧ x.2.target.ns = d.ns ∧
    x.2.target.schema ≠ s ∧ (get st.nodes ⟨d.ns, s, x.2.target.kind, x.2.target.name⟩).isSome ∧
    ¬ (i.schema = s ∧ i.key = x.2.target.key ∧ d.redefines i.key)

/-- A reference to a component that does not exist. -/
def Dangles (D : Docs) : Prop :=
  ∃ st i n x, createNodeCache id D = .ok st ∧ get st.nodes i = some n ∧ x ∈ n.deps ∧
    get st.nodes x.2.target = none

/-! ## Checking concrete runs -/

/-- Follows a path of dependencies. -/
def follow (st : St) : Id → List Id → Option Id
  | i, [] => some i
  | i, j :: js =>
    match get st.nodes i with
    | none => none
    | some n => if n.deps.any fun d => d.2.target = j then follow st j js else none

theorem follow_met {st : St} {s : Nat} : ∀ (p : List Id) (i j : Id), Met st s i →
    follow st i p = some j → Met st s j := by
  intro p
  induction p with
  | nil => intro i j hi h; simp only [follow, Option.some.injEq] at h; subst h; exact hi
  | cons k p ih =>
    intro i j hi h
    simp only [follow] at h
    split at h
    · cases h
    · rename_i n hn
      split at h
      · rename_i ha
        obtain ⟨d, hd, hk⟩ := List.any_eq_true.1 ha
        refine ih k j ?_ h
        have hk : d.2.target = k := by simpa using hk
        rw [← hk]
        exact .dep hi hn hd
      · cases h

def leakCheck (D : Docs) (s ns : Nat) (start : Id) (p : List Id) (t : Id) (redefined : List (Nat × Txt)) :
    Bool :=
  match createNodeCache id D with
  | .error _ => false
  | .ok st => decide (start.schema = s) && (get st.nodes start).isSome &&
    match follow st start p with
    | none => false
    | some i => (match get st.nodes i with
      | none => false
      | some n => (n.deps.any fun d => d.2.target = t) && decide (t.ns = ns) &&
        decide (t.schema ≠ s) && (get st.nodes ⟨ns, s, t.kind, t.name⟩).isSome &&
        decide (¬ (i.schema = s ∧ i.key = t.key ∧ i.key ∈ redefined)))

/-- The names of the redefined components. -/
def Doc.redefined (d : Doc) : List (Nat × Txt) :=
  d.content.flatMap fun
    | .redefine _ cs => cs.map fun c => (c.kind, c.name)
    | _ => []

theorem mem_redefined {d : Doc} {key : Nat × Txt} (h : d.redefines key) : key ∈ d.redefined := by
  obtain ⟨loc, cs, c, hm, hc, rfl⟩ := h
  exact List.mem_flatMap.2 ⟨_, hm, List.mem_map.2 ⟨c, hc, rfl⟩⟩

theorem leaks_of_check {D : Docs} {s : Nat} {d : Doc} (hd : get D.docs s = some d) {start : Id}
    {p : List Id} {t : Id} (h : leakCheck D s d.ns start p t d.redefined = true) : Leaks D s := by
  unfold leakCheck at h
  split at h
  · cases h
  · rename_i st hst
    simp only [Bool.and_eq_true, decide_eq_true_eq] at h
    obtain ⟨⟨h1, h2⟩, h3⟩ := h
    split at h3
    · cases h3
    · rename_i i hi
      split at h3
      · cases h3
      · rename_i n hn
        simp only [Bool.and_eq_true, decide_eq_true_eq] at h3
        obtain ⟨⟨⟨⟨h3, h4⟩, h5⟩, h6⟩, h7⟩ := h3
        obtain ⟨x, hx, hk⟩ := List.any_eq_true.1 h3
        have hk : x.2.target = t := by simpa using hk
        subst hk
        exact ⟨st, d, i, n, x, hst, hd, follow_met p start i (.own h2 h1) hi, hn, hx, h4, h5, h6,
          fun ⟨a, b, c⟩ => h7 ⟨a, b, mem_redefined c⟩⟩

/-! ## Checking the documents -/

mutual

def Item.okb : Item → Bool
  | .ref _ _ ns _ => decide (ns ≠ some 0)
  | .group body => okItemsb body
  | .inline _ _ from_ body => (match from_ with
    | .given (.named _) => false
    | _ => true) && okItemsb body

def okItemsb : List Item → Bool
  | [] => true
  | i :: is => i.okb && okItemsb is

end

mutual

theorem okb_ok : ∀ (i : Item), i.okb = true → i.Ok
  | .ref _ _ ns _, h => by simpa [Item.okb, Item.Ok] using h
  | .group body, h => by
    simp only [Item.okb] at h
    exact okItemsb_ok body h
  | .inline _ _ from_ body, h => by
    simp only [Item.okb, Bool.and_eq_true] at h
    refine ⟨?_, okItemsb_ok body h.2⟩
    rintro n rfl
    cases n with
    | named _ => simp at h
    | generated g => exact ⟨g, rfl⟩

theorem okItemsb_ok : ∀ (is : List Item), okItemsb is = true → OkItems is
  | [], _ => trivial
  | i :: is, h => by
    simp only [okItemsb, Bool.and_eq_true] at h
    exact ⟨okb_ok i h.1, okItemsb_ok is h.2⟩

end

def Docs.okb (D : Docs) : Bool :=
  decide ((D.docs.map Prod.fst).Nodup) && D.docs.all fun x => decide (x.1 ≠ 0) && decide (x.2.ns ≠ 0) &&
    x.2.content.all fun
      | .load _ => true
      | .comp c => okItemsb c.body
      | .redefine loc cs => (cs.all fun c => okItemsb c.body) &&
        match get x.2.deps loc with
        | none => true
        | some b => decide (b.target ≠ x.1)

theorem docs_ok {D : Docs} (h : D.okb = true) : D.Ok := by
  simp only [Docs.okb, Bool.and_eq_true, decide_eq_true_eq, List.all_eq_true] at h
  obtain ⟨hk, h⟩ := h
  refine ⟨hk, ?_, ?_, ?_⟩
  · intro id d hd
    exact (h _ (mem_of_get hd)).1
  · intro id d hd c hc
    exact okItemsb_ok _ ((h _ (mem_of_get hd)).2 _ hc)
  · intro id d hd loc cs hc
    have := (h _ (mem_of_get hd)).2 _ hc
    simp only [Bool.and_eq_true, List.all_eq_true] at this
    refine ⟨fun c hc => okItemsb_ok _ (this.1 c hc), ?_⟩
    intro b hb
    have h2 := this.2
    simp only [hb, decide_eq_true_eq] at h2
    exact h2

/-! ## Documents

Kind 1 are types, kind 2 anonymous types. The names are single letters. -/

/-- A reference to a type of the same namespace. -/
def to (c : Char) : Item := .ref .weak 1 none [c]

/-- The identifier of a type. -/
def idOf (s : Nat) (c : Char) (ns : Nat := 1) : Id := ⟨ns, s, 1, .named [c]⟩

/-- The redefined document: `v`, `h` that refers to `v`, `o` that refers to `h`, `t` that refers
to `v` and itself, and `a` with an anonymous type that refers to `v`. -/
def baseDoc : Doc :=
  { ns := 1
    content := [
      .comp ⟨20, 1, ['v'], []⟩,
      .comp ⟨21, 1, ['h'], [to 'v']⟩,
      .comp ⟨22, 1, ['o'], [to 'h']⟩,
      .comp ⟨23, 1, ['t'], [to 'v', to 't']⟩,
      .comp ⟨24, 1, ['a'], [.inline 25 2 (.element ['e']) [to 'v']]⟩] }

/-- The new `v`, that extends the old one. -/
def newV : Comp := ⟨10, 1, ['v'], [.ref .strong 1 none ['v']]⟩

/-- Redefines `v` and refers to something of the redefined document. -/
def docs (c : Char) : Docs :=
  { docs := [
      (1, { ns := 1, deps := [(['b'], ⟨0, 2⟩)],
            content := [.redefine ['b'] [newV], .comp ⟨11, 1, ['u'], [to c, to 'v']⟩] }),
      (2, baseDoc)] }

/-- **C84** A component that refers to itself and is copied because of what else it refers to: the
copy refers to the original instead of itself. -/
theorem C84_recursive_copy_leaks : (docs 't').Ok ∧ Leaks (docs 't') 1 :=
  ⟨docs_ok (by decide +kernel), leaks_of_check (start := idOf 1 't') (p := []) (t := idOf 2 't') rfl
    (by decide +kernel)⟩

/-- **C84** A component with an anonymous component that refers to what is replaced: it is not
copied. -/
theorem C84_anonymous_leaks : (docs 'a').Ok ∧ Leaks (docs 'a') 1 :=
  ⟨docs_ok (by decide +kernel), leaks_of_check (start := idOf 1 'u')
    (p := [idOf 2 'a', ⟨1, 2, 2, .generated ['a', 'e']⟩]) (t := idOf 2 'v') rfl
    (by decide +kernel)⟩

/-- `x` (document 3) includes the redefined document; the redefinition comes before the inclusion
of `x`, or after it. -/
def orderDocs (first : Bool) : Docs :=
  { docs := [
      (1, { ns := 1, deps := [(['b'], ⟨0, 2⟩), (['x'], ⟨0, 3⟩)],
            content := (if first then [.redefine ['b'] [newV], .load ['x']]
              else [.load ['x'], .redefine ['b'] [newV]]) ++ [.comp ⟨11, 1, ['u'], [to 'w']⟩] }),
      (2, baseDoc),
      (3, { ns := 1, deps := [(['b'], ⟨0, 2⟩)],
            content := [.load ['b'], .comp ⟨30, 1, ['w'], [to 'v']⟩] })] }

/-- **C84** What is included after the redefinition keeps to the old components; if it is included
before, then it gets the new one. -/
theorem C84_later_include_leaks : (orderDocs true).Ok ∧ Leaks (orderDocs true) 1 ∧
    (∃ st n, createNodeCache id (orderDocs false) = .ok st ∧ get st.nodes (idOf 1 'w') = some n ∧
      n.deps.map (fun d => d.2.target) = [idOf 1 'v']) := by
  refine ⟨docs_ok (by decide +kernel), leaks_of_check (start := idOf 1 'u') (p := [idOf 3 'w'])
    (t := idOf 2 'v') rfl (by decide +kernel), ?_⟩
  have h : (match createNodeCache id (orderDocs false) with
    | .ok st => ((get st.nodes (idOf 1 'w')).map fun n => n.deps.map fun d => d.2.target)
    | .error _ => none) = some [idOf 1 'v'] := by decide +kernel
  cases hr : createNodeCache id (orderDocs false) with
  | error e => rw [hr] at h; cases h
  | ok st =>
    rw [hr] at h
    simp only [Option.map_eq_some_iff] at h
    obtain ⟨n, hn, h⟩ := h
    exact ⟨st, n, rfl, hn, h⟩

/-- `y` (document 3, another namespace) has a type with the same name as one of the redefined
document. -/
def hiddenDocs : Docs :=
  { docs := [
      (1, { ns := 1, deps := [(['y'], ⟨0, 3⟩), (['b'], ⟨0, 2⟩)],
            content := [.load ['y'], .redefine ['b'] [newV], .comp ⟨11, 1, ['u'], [to 'h']⟩] }),
      (2, baseDoc),
      (3, { ns := 2, content := [.comp ⟨30, 1, ['h'], []⟩] })] }

/-- **C84** A component whose name is also used in an imported namespace is not redirected. -/
theorem C84_hidden_leaks : hiddenDocs.Ok ∧ Leaks hiddenDocs 1 :=
  ⟨docs_ok (by decide +kernel), leaks_of_check (start := idOf 1 'u') (p := [idOf 2 'h'])
    (t := idOf 2 'v') rfl (by decide +kernel)⟩

/-- `z` (document 3, another namespace) refers to a component that is replaced. -/
def otherNamespace : Docs :=
  { docs := [
      (1, { ns := 1, deps := [(['z'], ⟨0, 3⟩), (['b'], ⟨0, 2⟩)],
            content := [.load ['z'], .redefine ['b'] [newV],
              .comp ⟨11, 1, ['u'], [.ref .weak 1 (some 2) ['w']]⟩] }),
      (2, baseDoc),
      (3, { ns := 2, deps := [(['b'], ⟨0, 2⟩)],
            content := [.load ['b'], .comp ⟨30, 1, ['w'], [.ref .weak 1 (some 1) ['v']]⟩] })] }

/-- **C84** A component of another namespace is copied, but the copy is not found. -/
theorem C84_other_namespace_leaks : otherNamespace.Ok ∧ Leaks otherNamespace 1 :=
  ⟨docs_ok (by decide +kernel), leaks_of_check (start := idOf 1 'u') (p := [idOf 3 'w' 2])
    (t := idOf 2 'v') rfl (by decide +kernel)⟩

/-- The redefined document includes the document that has the component. -/
def indirect : Docs :=
  { docs := [
      (1, { ns := 1, deps := [(['m'], ⟨0, 3⟩)], content := [.redefine ['m'] [newV]] }),
      (2, baseDoc),
      (3, { ns := 1, deps := [(['b'], ⟨0, 2⟩)], content := [.load ['b']] })] }

/-- **C84** Redefining a component that the redefined document only includes: the new component
refers to one that does not exist. -/
theorem C84_indirect_dangles : indirect.Ok ∧ Dangles indirect := by
  refine ⟨docs_ok (by decide +kernel), ?_⟩
  have h : (match createNodeCache id indirect with
    | .ok st => (get st.nodes (idOf 1 'v')).any fun n =>
        n.deps.any fun d => (get st.nodes d.2.target).isNone
    | .error _ => false) = true := by decide +kernel
  cases hr : createNodeCache id indirect with
  | error e => rw [hr] at h; cases h
  | ok st =>
    rw [hr] at h
    simp only at h
    cases hn : get st.nodes (idOf 1 'v') with
    | none => rw [hn] at h; cases h
    | some n =>
      rw [hn] at h
      simp only [Option.any_some] at h
      obtain ⟨d, hd, hx⟩ := List.any_eq_true.1 h
      exact ⟨st, _, n, d, hr, hn, hd, by simpa using hx⟩

/-- Overrides `t` with a type that refers to itself. -/
def overrideDocs : Docs :=
  { docs := [
      (1, { ns := 1, deps := [(['b'], ⟨0, 2⟩)],
            content := [.redefine ['b'] [⟨10, 1, ['t'], [to 't']⟩]] }),
      (2, baseDoc)] }

/-- **C84** A recursive type inside of `xs:override` (which is processed like `xs:redefine`) refers
to the type that it overrides, not to itself. -/
theorem C84_override_refers_to_old : overrideDocs.Ok ∧
    ∃ st n, createNodeCache id overrideDocs = .ok st ∧ get st.nodes (idOf 1 't') = some n ∧
      n.label = 10 ∧ n.deps.map (fun d => d.2.target) = [idOf 2 't'] := by
  refine ⟨docs_ok (by decide +kernel), ?_⟩
  have h : (match createNodeCache id overrideDocs with
    | .ok st => ((get st.nodes (idOf 1 't')).map fun n =>
        (n.label, n.deps.map fun d => d.2.target))
    | .error _ => none) = some (10, [idOf 2 't']) := by decide +kernel
  cases hr : createNodeCache id overrideDocs with
  | error e => rw [hr] at h; cases h
  | ok st =>
    rw [hr] at h
    simp only [Option.map_eq_some_iff, Prod.mk.injEq] at h
    obtain ⟨n, hn, h1, h2⟩ := h
    exact ⟨st, n, rfl, hn, h1, h2⟩

/-- **C84** Not every reference is redirected, and not every reference leads to a component. -/
theorem C84_not_all_redirected : ¬ (∀ D : Docs, D.Ok → ∀ s, ¬ Leaks D s) ∧
    ¬ (∀ D : Docs, D.Ok → ¬ Dangles D) :=
  ⟨fun h => h _ C84_recursive_copy_leaks.1 1 C84_recursive_copy_leaks.2,
    fun h => h _ C84_indirect_dangles.1 C84_indirect_dangles.2⟩

/-! ## The conditions are met -/

theorem sameNamespace_of_nodes {s ns : Nat} {st : St} {todo : List Id}
    (h : ∀ i, (get st.nodes i).isSome → i.ns = ns) : SameNamespace s ns st todo := by
  intro i hi hn
  cases hi with
  | redefined h' => exact absurd h' hn
  | refers _ _ _ hg _ _ _ => exact h _ (by rw [hg]; rfl)

/-- The documents before the redefinition. -/
def before : Docs :=
  { docs := [(1, { ns := 1, deps := [(['b'], ⟨0, 2⟩)], content := [] }), (2, baseDoc)] }

def afterEntries : Option St :=
  match createNodeCache id before with
  | .error _ => none
  | .ok st =>
    match newEntries id 1 1 (some 2) st [newV] with
    | .error _ => none
    | .ok st => some st

/-- The conditions of the theorems are met, and there are replaced components that are not
redefined themselves: `o`, that refers to `h`, that refers to `v`. -/
example : ∃ st st₁ st₂, Sound st ∧ Known st.idents 1 1 ∧
    newEntries id 1 1 (some 2) st [newV] = .ok st₁ ∧ Ready 1 1 st₁ (olds 1 2 [newV]) ∧
    SameNamespace 1 1 st₁ (olds 1 2 [newV]) ∧ Resolves 1 (st₁, olds 1 2 [newV]) st₂ ∧
    Replaced 1 st₁ (olds 1 2 [newV]) (idOf 2 'o') := by
  have hb : before.Ok := docs_ok (by decide +kernel)
  have hnv : ∀ c ∈ [newV], OkItems c.body := fun c hc => by
    rw [List.mem_singleton] at hc
    subst hc
    exact okItemsb_ok _ (by decide)
  have hsome : afterEntries.isSome = true := by decide +kernel
  have hall : (afterEntries.map fun st => st.nodes.all fun x => x.1.ns == 1) = some true := by
    decide +kernel
  have hlist : (afterEntries.map fun st => (st.idents.iterRun 1000 (st.idents.iterNew 1)).map
      fun out => decide ((idOf 2 'o').text ∈ out ∧ (idOf 2 'h').text ∈ out)) = some (some true) := by
    decide +kernel
  have hno : (afterEntries.map fun st => get st.nodes (idOf 2 'o')) =
      some (some ⟨22, 1, [(.named 1 1 ['h'], ⟨.weak, idOf 2 'h'⟩)], none⟩) := by decide +kernel
  have hnh : (afterEntries.map fun st => get st.nodes (idOf 2 'h')) =
      some (some ⟨21, 1, [(.named 1 1 ['v'], ⟨.weak, idOf 2 'v'⟩)], none⟩) := by decide +kernel
  cases hr : createNodeCache id before with
  | error e => simp [afterEntries, hr] at hsome
  | ok st =>
    cases hr1 : newEntries id 1 1 (some 2) st [newV] with
    | error e => simp [afterEntries, hr, hr1] at hsome
    | ok st₁ =>
      have hae : afterEntries = some st₁ := by simp [afterEntries, hr, hr1]
      rw [hae] at hall hlist hno hnh
      simp only [Option.map_some, Option.some.injEq] at hall hlist hno hnh
      have hrun := (C84_every_redefinition id hb [] hr).1
      have hk : Known st.idents 1 1 := hrun.known 1 _ rfl
      have hready := C84_ready id (s := 1) (ns := 1) (base := 2) (by decide) (by decide) (by decide)
        hnv hrun.sound hk hr1
      have hsame : SameNamespace 1 1 st₁ (olds 1 2 [newV]) := sameNamespace_of_nodes (by
        intro i hi
        cases hg : get st₁.nodes i with
        | none => rw [hg] at hi; cases hi
        | some n => simpa using List.all_eq_true.1 hall _ (mem_of_get hg))
      obtain ⟨-, st₂, hres⟩ := C84_terminates hready hsame
      refine ⟨st, st₁, st₂, hrun.sound, hk, hr1, hready, hsame, hres, ?_⟩
      cases hi : st₁.idents.iterRun 1000 (st₁.idents.iterNew 1) with
      | none => rw [hi] at hlist; cases hlist
      | some out =>
        rw [hi] at hlist
        simp only [Option.map_some, Option.some.injEq, decide_eq_true_eq] at hlist
        have hv : Replaced 1 st₁ (olds 1 2 [newV]) (idOf 2 'v') := .redefined (by decide)
        have hh : Replaced 1 st₁ (olds 1 2 [newV]) (idOf 2 'h') :=
          .refers ⟨_, hi⟩ hlist.2 (by decide) hnh (List.mem_singleton.2 rfl) (by simp) hv
        exact .refers ⟨_, hi⟩ hlist.1 (by decide) hno (List.mem_singleton.2 rfl) (by simp) hh

end Verif.NodeCache

import Verif.Runtime.Events

/-!
# Namespace bookkeeping of the deserializer (C01)

`DeserializeHelper` (xsd-parser-types/src/quick_xml/deserialize.rs 665-1255) follows the
stream of events with a level counter, a `NamespaceResolver` (external crate
quick-xml, modelled from its documentation) and a stack of lazily filled, shared
namespace maps.  `namespaces()` answers from the top of that stack and caches the answer.

The theorem says that the answer is always the set of bindings in scope in the XML
sense, whatever was asked before.
-/

namespace Verif.Rt

/-! ## The declarations of one tag -/

/-- `xmlns` / `xmlns:p` as a character list. -/
def xmlnsStr : Str := ['x', 'm', 'l', 'n', 's']

/-- Which prefix, if any, an attribute key declares (`""` is the default namespace).
quick-xml `QName::as_namespace_binding`. -/
def declPrefix (key : Str) : Option Str :=
  if key = xmlnsStr then some []
  else if (xmlnsStr ++ [':']).isPrefixOf key then some (key.drop 6)
  else none

/-- A prefix with the namespace it is bound to; the empty namespace un-binds. -/
abbrev Binding := Str × Str

/-- The namespace declarations on a tag, in attribute order. -/
def Tag.decls (t : Tag) : List Binding :=
  t.attrs.filterMap fun a => (declPrefix a.key).map fun p => (p, a.value)

/-- `a.key.0.starts_with(b"xmlns")`, deserialize.rs:1229-1235. -/
def Tag.hasXmlns (t : Tag) : Bool :=
  t.attrs.any fun a => xmlnsStr.isPrefixOf a.key

/-! ## The resolver of quick-xml (external) -/

/-- `quick_xml::name::NamespaceResolver`: all bindings with the nesting level that
declared them, innermost last, and the current nesting level. The pre-defined `xml` and
`xmlns` bindings are omitted, `bindings()` does not report them. -/
structure Resolver where
  bindings : List (Nat × Binding) := []
  level : Nat := 0

/-- `NamespaceResolver::push`. The error for re-binding the reserved prefixes is not
modelled: it aborts the deserialization. -/
def Resolver.push (r : Resolver) (t : Tag) : Resolver :=
  { bindings := r.bindings ++ t.decls.map fun b => (r.level + 1, b), level := r.level + 1 }

/-- `NamespaceResolver::pop`: drop the trailing bindings of the closed level. -/
def Resolver.pop (r : Resolver) : Resolver :=
  { bindings := (r.bindings.reverse.dropWhile fun b => decide (b.1 > r.level - 1)).reverse
    level := r.level - 1 }

/-- `NamespaceResolver::bindings`: walk from the first binding, skip the ones overridden
later and the un-binding ones. -/
def Resolver.visible : List (Nat × Binding) → List Binding
  | [] => []
  | (_, (p, ns)) :: rest =>
    if rest.any (fun b => b.2.1 == p) then visible rest
    else if ns = [] then visible rest
    else (p, ns) :: visible rest

/-! ## The helper -/

/-- `DeserializeHelper`, deserialize.rs:669-676. The stack of shared maps is kept with its
top first; a map is the list of its entries. -/
structure Helper where
  level : Nat := 0
  resolver : Resolver := {}
  namespaces : List (Nat × Option (List Binding)) := [(0, none)]
  pendingPop : Bool := false

namespace Helper

/-- The loop at deserialize.rs:1211-1219. -/
def popOutdated (level : Nat) : List (Nat × Option (List Binding)) →
    List (Nat × Option (List Binding))
  | [] => []
  | e :: rest => if e.1 > level then popOutdated level rest else e :: rest

/-- First half of `handle_event`, deserialize.rs:1206-1220. -/
def flush (h : Helper) : Helper :=
  if h.pendingPop then
    let level := h.level - 1
    { level
      resolver := h.resolver.pop
      namespaces := popOutdated level h.namespaces
      pendingPop := false }
  else h

/-- `Event::Start | Event::Empty` branch, deserialize.rs:1223-1237. -/
def enter (h : Helper) (t : Tag) (isEmpty : Bool) : Helper :=
  let level := h.level + 1
  { level
    namespaces := if t.hasXmlns then (level, none) :: h.namespaces else h.namespaces
    resolver := h.resolver.push t
    pendingPop := isEmpty }

/-- `DeserializeHelper::handle_event`, deserialize.rs:1205-1243. -/
def handleEvent (h : Helper) (e : Event) : Helper :=
  let h := h.flush
  match e with
  | .start t => h.enter t false
  | .empty t => h.enter t true
  | .end_ _ => { h with pendingPop := true }
  | _ => h

/-- `DeserializeHelper::namespaces`, deserialize.rs:695-713: the answer and the helper with
the filled cache. -/
def askNamespaces (h : Helper) : List Binding × Helper :=
  match h.namespaces with
  | [] => ([], h)
  | (l, some m) :: rest => (m, { h with namespaces := (l, some m) :: rest })
  | (l, none) :: rest =>
    let m := Resolver.visible h.resolver.bindings
    (m, { h with namespaces := (l, some m) :: rest })

end Helper

/-! ## What the caller does, and the specification -/

/-- One step of a deserialization as far as namespaces are concerned: an event is
processed, or somebody asks for the namespaces. -/
inductive NsOp where
  | ev (e : Event)
  | ask
deriving DecidableEq, Repr

/-- Run the helper, collecting the answers. -/
def runNs (h : Helper) : List NsOp → List (List Binding)
  | [] => []
  | .ev e :: ops => runNs (h.handleEvent e) ops
  | .ask :: ops => (h.askNamespaces).1 :: runNs (h.askNamespaces).2 ops

/-- The document position: the open elements, innermost first, and whether the innermost
one was just closed by the last event (its bindings are still visible for that event). -/
structure Pos where
  opened : List Tag := []
  closing : Bool := false

/-- Where an event leads. `none` if it closes an element although none is open. -/
def Pos.after (p : Pos) (e : Event) : Option Pos :=
  let opened := if p.closing then p.opened.tail else p.opened
  match e with
  | .start t => some ⟨t :: opened, false⟩
  | .empty t => some ⟨t :: opened, true⟩
  | .end_ _ => if opened = [] then none else some ⟨opened, true⟩
  | _ => some ⟨opened, false⟩

/-- The last declaration of a prefix on one tag. -/
def lastDecl (p : Str) (ds : List Binding) : Option Str :=
  ds.foldl (fun acc d => if d.1 = p then some d.2 else acc) none

/-- **Specification** (Namespaces in XML, section 6): the namespace bound to a prefix is
given by the innermost open element that declares it, and an empty namespace name means
"not bound". -/
def inScope (p : Str) : List Tag → Option Str
  | [] => none
  | t :: outer =>
    match lastDecl p t.decls with
    | some ns => if ns = [] then none else some ns
    | none => inScope p outer

/-- The answers the specification expects: for every question the bindings in scope at the
position, as a function of the prefix. `none` for histories that are not well nested. -/
def expected (p : Pos) : List NsOp → Option (List (Str → Option Str))
  | [] => some []
  | .ev e :: ops => (p.after e).bind fun q => expected q ops
  | .ask :: ops => (expected p ops).map fun rest => (fun pre => inScope pre p.opened) :: rest

/-- A map (list of entries) as a function; the entries have distinct keys. -/
def asMap (m : List Binding) (p : Str) : Option Str :=
  (m.find? fun b => b.1 == p).map (·.2)

/-! ## Proof -/

/-- A key that declares a prefix starts with `xmlns`. -/
theorem declPrefix_hasXmlns {k p : Str} (h : declPrefix k = some p) :
    xmlnsStr.isPrefixOf k = true := by
  unfold declPrefix at h
  split at h
  · next hk => subst hk; decide
  · split at h
    · next hp =>
      rw [List.isPrefixOf_iff_prefix] at hp ⊢
      exact (List.prefix_append _ _).trans hp
    · cases h

theorem decls_nil_of_no_xmlns {t : Tag} (h : t.hasXmlns = false) : t.decls = [] := by
  unfold Tag.decls
  rw [List.filterMap_eq_nil_iff]
  intro a ha
  cases hd : declPrefix a.key with
  | none => rfl
  | some p =>
    have h1 := declPrefix_hasXmlns hd
    unfold Tag.hasXmlns at h
    rw [List.any_eq_false] at h
    exact absurd h1 (h a ha)

/-- The bindings held by the resolver for a list of open elements (innermost first). -/
def flatBindings : List Tag → List (Nat × Binding)
  | [] => []
  | t :: outer => flatBindings outer ++ t.decls.map fun b => (outer.length + 1, b)

theorem flatBindings_level {ts : List Tag} : ∀ b ∈ flatBindings ts, b.1 ≤ ts.length := by
  induction ts with
  | nil => simp [flatBindings]
  | cons t outer ih =>
    intro b hb
    simp only [flatBindings, List.mem_append, List.mem_map] at hb
    rcases hb with hb | ⟨x, _, rfl⟩
    · have := ih b hb; simp; omega
    · simp

theorem dropWhile_append_all {α} (p : α → Bool) (xs ys : List α) (h : ∀ x ∈ xs, p x = true) :
    (xs ++ ys).dropWhile p = ys.dropWhile p := by
  induction xs with
  | nil => rfl
  | cons x xs ih =>
    have h1 := h x (by simp)
    simp only [List.cons_append, List.dropWhile_cons, h1, if_true]
    exact ih fun y hy => h y (by simp [hy])

theorem dropWhile_none {α} (p : α → Bool) (xs : List α) (h : ∀ x ∈ xs, p x = false) :
    xs.dropWhile p = xs := by
  cases xs with
  | nil => rfl
  | cons x xs => simp [List.dropWhile_cons, h x (by simp)]

theorem pop_flat (t : Tag) (outer : List Tag) :
    (Resolver.mk (flatBindings (t :: outer)) (outer.length + 1)).pop
      = Resolver.mk (flatBindings outer) outer.length := by
  unfold Resolver.pop
  simp only [flatBindings, Nat.add_sub_cancel]
  congr 1
  rw [List.reverse_append, dropWhile_append_all]
  · rw [dropWhile_none, List.reverse_reverse]
    intro x hx
    have := flatBindings_level x (by simpa using hx)
    simp; omega
  · intro x hx
    simp only [List.mem_reverse, List.mem_map] at hx
    obtain ⟨b, _, rfl⟩ := hx
    simp

theorem asMap_cons (p q ns : Str) (m : List Binding) :
    asMap ((q, ns) :: m) p = if q = p then some ns else asMap m p := by
  unfold asMap
  by_cases h : q = p
  · subst h; simp [List.find?_cons]
  · have : (q == p) = false := by simpa using h
    simp [List.find?_cons, this, h]

/-- The value of the last binding of a prefix. -/
def lastOf (p : Str) : List (Nat × Binding) → Option Str
  | [] => none
  | b :: rest =>
    match lastOf p rest with
    | some ns => some ns
    | none => if b.2.1 = p then some b.2.2 else none

theorem lastOf_none_iff (p : Str) (bs : List (Nat × Binding)) :
    lastOf p bs = none ↔ bs.any (fun b => b.2.1 == p) = false := by
  induction bs with
  | nil => simp [lastOf]
  | cons b rest ih =>
    simp only [lastOf, List.any_cons, Bool.or_eq_false_iff]
    cases hl : lastOf p rest with
    | some ns =>
      have : ¬ (rest.any (fun b => b.2.1 == p) = false) := by
        intro h; rw [← ih, hl] at h; cases h
      simp [this]
    | none =>
      rw [hl] at ih
      have h2 := ih.mp rfl
      by_cases hb : b.2.1 = p
      · simp [hb]
      · simp only [hb, if_false]
        constructor
        · intro _; exact ⟨by simpa using hb, h2⟩
        · intro _; trivial

theorem visible_spec (p : Str) (bs : List (Nat × Binding)) :
    asMap (Resolver.visible bs) p
      = (match lastOf p bs with
         | some ns => if ns = [] then none else some ns
         | none => none) := by
  induction bs with
  | nil => rfl
  | cons b rest ih =>
    obtain ⟨l, q, ns⟩ := b
    simp only [Resolver.visible, lastOf]
    by_cases hany : rest.any (fun b => b.2.1 == q) = true
    · rw [if_pos hany, ih]
      cases hl : lastOf p rest with
      | some x => rfl
      | none =>
        have h2 := (lastOf_none_iff p rest).mp hl
        have : q ≠ p := by
          intro h; subst h; rw [h2] at hany; cases hany
        simp [this]
    · rw [if_neg hany]
      have hq : lastOf q rest = none := by
        rw [lastOf_none_iff]; exact (Bool.not_eq_true _).mp hany
      by_cases hns : ns = []
      · rw [if_pos hns, ih]
        by_cases hqp : q = p
        · subst hqp; rw [hq]; simp [hns]
        · cases hl : lastOf p rest <;> simp [hqp]
      · rw [if_neg hns, asMap_cons, ih]
        by_cases hqp : q = p
        · subst hqp; rw [hq]; simp [hns]
        · cases hl : lastOf p rest <;> simp [hqp]

theorem lastOf_append (p : Str) (xs ys : List (Nat × Binding)) :
    lastOf p (xs ++ ys) = (match lastOf p ys with | some ns => some ns | none => lastOf p xs) := by
  induction xs with
  | nil => cases h : lastOf p ys <;> simp [lastOf, h]
  | cons x xs ih =>
    simp only [List.cons_append, lastOf, ih]
    cases h : lastOf p ys <;> simp

theorem lastDecl_aux (p : Str) (ds : List Binding) (acc : Option Str) (l : Nat) :
    ds.foldl (fun acc d => if d.1 = p then some d.2 else acc) acc
      = (match lastOf p (ds.map fun b => (l, b)) with | some ns => some ns | none => acc) := by
  induction ds generalizing acc with
  | nil => rfl
  | cons d ds ih =>
    simp only [List.foldl_cons, List.map_cons, lastOf, ih]
    cases h : lastOf p (ds.map fun b => (l, b)) with
    | some x => rfl
    | none => by_cases hd : d.1 = p <;> simp [hd]

theorem lastDecl_eq (p : Str) (ds : List Binding) (l : Nat) :
    lastDecl p ds = lastOf p (ds.map fun b => (l, b)) := by
  unfold lastDecl
  rw [lastDecl_aux p ds none l]
  cases lastOf p (ds.map fun b => (l, b)) <;> rfl

theorem visible_inScope (p : Str) (ts : List Tag) :
    asMap (Resolver.visible (flatBindings ts)) p = inScope p ts := by
  rw [visible_spec]
  induction ts with
  | nil => rfl
  | cons t outer ih =>
    simp only [flatBindings, lastOf_append, inScope]
    rw [lastDecl_eq p t.decls (outer.length + 1)]
    cases h : lastOf p (t.decls.map fun b => (outer.length + 1, b)) with
    | some ns => rfl
    | none => simpa [h] using ih

/-- The stack of shared maps fits the list of open elements. -/
def StackOk : List Tag → List (Nat × Option (List Binding)) → Prop
  | [], st => ∃ c, st = [(0, c)] ∧ ∀ m, c = some m → m = Resolver.visible (flatBindings [])
  | t :: outer, st =>
    if t.hasXmlns then
      ∃ c rest, st = (outer.length + 1, c) :: rest ∧ StackOk outer rest ∧
        ∀ m, c = some m → m = Resolver.visible (flatBindings (t :: outer))
    else StackOk outer st

theorem flat_no_xmlns {t : Tag} {outer : List Tag} (h : t.hasXmlns = false) :
    flatBindings (t :: outer) = flatBindings outer := by
  simp [flatBindings, decls_nil_of_no_xmlns h]

theorem stackOk_top {ts : List Tag} {st} (h : StackOk ts st) :
    ∃ l c rest, st = (l, c) :: rest ∧ l ≤ ts.length ∧
      (∀ m, c = some m → m = Resolver.visible (flatBindings ts)) ∧
      ∀ c', (∀ m, c' = some m → m = Resolver.visible (flatBindings ts)) →
        StackOk ts ((l, c') :: rest) := by
  induction ts generalizing st with
  | nil =>
    obtain ⟨c, rfl, hc⟩ := h
    exact ⟨0, c, [], rfl, by simp, hc, fun c' hc' => ⟨c', rfl, hc'⟩⟩
  | cons t outer ih =>
    cases ht : t.hasXmlns with
    | true =>
      simp only [StackOk, ht, if_true] at h
      obtain ⟨c, rest, rfl, hr, hc⟩ := h
      refine ⟨outer.length + 1, c, rest, rfl, by simp, hc, fun c' hc' => ?_⟩
      simp only [StackOk, ht, if_true]
      exact ⟨c', rest, rfl, hr, hc'⟩
    | false =>
      simp only [StackOk, ht, Bool.false_eq_true, if_false] at h
      obtain ⟨l, c, rest, rfl, hl, hc, hu⟩ := ih h
      refine ⟨l, c, rest, rfl, by simp; omega, ?_, ?_⟩
      · rw [flat_no_xmlns ht]; exact hc
      · rw [flat_no_xmlns ht]
        intro c' hc'
        simp only [StackOk, ht, Bool.false_eq_true, if_false]
        exact hu c' hc'

theorem popOutdated_noop {ts : List Tag} {st} (h : StackOk ts st) {n : Nat} (hn : ts.length ≤ n) :
    Helper.popOutdated n st = st := by
  obtain ⟨l, c, rest, rfl, hl, _⟩ := stackOk_top h
  simp only [Helper.popOutdated]
  rw [if_neg (by omega)]

theorem popOutdated_ok {t : Tag} {outer : List Tag} {st} (h : StackOk (t :: outer) st) :
    StackOk outer (Helper.popOutdated outer.length st) := by
  cases ht : t.hasXmlns with
  | true =>
    simp only [StackOk, ht, if_true] at h
    obtain ⟨c, rest, rfl, hr, hc⟩ := h
    simp only [Helper.popOutdated]
    rw [if_pos (by omega), popOutdated_noop hr (Nat.le_refl _)]
    exact hr
  | false =>
    simp only [StackOk, ht, Bool.false_eq_true, if_false] at h
    rw [popOutdated_noop h (Nat.le_refl _)]
    exact h

/-- The helper agrees with the document position. -/
structure Agrees (h : Helper) (p : Pos) : Prop where
  level : h.level = p.opened.length
  res : h.resolver = ⟨flatBindings p.opened, p.opened.length⟩
  stack : StackOk p.opened h.namespaces
  pend : h.pendingPop = p.closing
  nonempty : p.closing = true → p.opened ≠ []

theorem agrees_init : Agrees {} {} :=
  ⟨rfl, rfl, ⟨none, rfl, by simp⟩, rfl, by simp⟩

theorem agrees_flush {h : Helper} {p : Pos} (a : Agrees h p) :
    Agrees h.flush ⟨if p.closing then p.opened.tail else p.opened, false⟩ := by
  obtain ⟨opened, closing⟩ := p
  unfold Helper.flush
  rw [a.pend]
  cases closing with
  | false =>
    simp only [Bool.false_eq_true, if_false]
    exact ⟨a.level, a.res, a.stack, a.pend, by simp⟩
  | true =>
    simp only [if_true]
    cases opened with
    | nil => exact absurd rfl (a.nonempty rfl)
    | cons t outer =>
      have hl := a.level
      have hr := a.res
      have hs := a.stack
      simp only [List.length_cons] at hl hr hs
      refine ⟨by simp [hl], ?_, ?_, rfl, by simp⟩
      · simp only [hr, List.tail_cons]; exact pop_flat t outer
      · simp only [hl, Nat.add_sub_cancel, List.tail_cons]; exact popOutdated_ok hs

theorem agrees_enter {h : Helper} {ts : List Tag} (a : Agrees h ⟨ts, false⟩) (t : Tag) (b : Bool) :
    Agrees (h.enter t b) ⟨t :: ts, b⟩ := by
  refine ⟨by simp [Helper.enter, a.level], ?_, ?_, rfl, by simp⟩
  · simp [Helper.enter, Resolver.push, a.res, flatBindings]
  · simp only [Helper.enter]
    cases ht : t.hasXmlns with
    | true =>
      simp only [StackOk, ht, if_true]
      exact ⟨none, h.namespaces, by simp [a.level], a.stack, by simp⟩
    | false =>
      simp only [StackOk, ht, Bool.false_eq_true, if_false]
      exact a.stack

theorem agrees_after {h : Helper} {p q : Pos} {e : Event} (a : Agrees h p)
    (hq : p.after e = some q) : Agrees (h.handleEvent e) q := by
  have af := agrees_flush a
  unfold Pos.after at hq
  unfold Helper.handleEvent
  generalize hop : (if p.closing then p.opened.tail else p.opened) = opened at af hq
  cases e with
  | start t =>
    simp only [Option.some.injEq] at hq; subst hq; exact agrees_enter af t false
  | empty t =>
    simp only [Option.some.injEq] at hq; subst hq; exact agrees_enter af t true
  | end_ n =>
    simp only at hq
    split at hq
    · cases hq
    · next hne =>
      simp only [Option.some.injEq] at hq; subst hq
      exact ⟨af.level, af.res, af.stack, rfl, fun _ => hne⟩
  | _ => simp only [Option.some.injEq] at hq; subst hq; exact af

theorem agrees_ask {h : Helper} {p : Pos} (a : Agrees h p) :
    (h.askNamespaces).1 = Resolver.visible (flatBindings p.opened) ∧
      Agrees (h.askNamespaces).2 p := by
  obtain ⟨l, c, rest, hst, hl, hc, hu⟩ := stackOk_top a.stack
  unfold Helper.askNamespaces
  rw [hst]
  cases c with
  | some m =>
    refine ⟨hc m rfl, a.level, a.res, ?_, a.pend, a.nonempty⟩
    exact hu (some m) hc
  | none =>
    refine ⟨by simp [a.res], a.level, a.res, ?_, a.pend, a.nonempty⟩
    exact hu _ (by intro m hm; cases hm; simp [a.res])

theorem runNs_expected {h : Helper} {p : Pos} (a : Agrees h p) (ops : List NsOp)
    {fs} (hf : expected p ops = some fs) : (runNs h ops).map asMap = fs := by
  induction ops generalizing h p fs with
  | nil => simp [expected] at hf; subst hf; rfl
  | cons op ops ih =>
    cases op with
    | ev e =>
      simp only [expected] at hf
      cases hq : p.after e with
      | none => rw [hq] at hf; cases hf
      | some q =>
        rw [hq] at hf
        exact ih (agrees_after a hq) hf
    | ask =>
      simp only [expected] at hf
      cases hr : expected p ops with
      | none => rw [hr] at hf; cases hf
      | some rest =>
        rw [hr] at hf
        simp only [Option.map_some, Option.some.injEq] at hf
        subst hf
        obtain ⟨h1, h2⟩ := agrees_ask a
        simp only [runNs, List.map_cons]
        rw [ih h2 hr, h1]
        congr 1
        funext pre
        exact visible_inScope pre p.opened

/-- The entries of an answer have distinct prefixes, so reading it as a map loses nothing. -/
theorem visible_nodup (bs : List (Nat × Binding)) :
    ((Resolver.visible bs).map (·.1)).Nodup := by
  have key : ∀ bs : List (Nat × Binding), ∀ q ∈ (Resolver.visible bs).map (·.1),
      bs.any (fun b => b.2.1 == q) = true := by
    intro bs
    induction bs with
    | nil => simp [Resolver.visible]
    | cons b rest ih =>
      obtain ⟨l, p, ns⟩ := b
      intro q hq
      simp only [Resolver.visible] at hq
      simp only [List.any_cons, Bool.or_eq_true]
      split at hq
      · exact Or.inr (ih q hq)
      · split at hq
        · exact Or.inr (ih q hq)
        · simp only [List.map_cons, List.mem_cons] at hq
          rcases hq with rfl | hq
          · exact Or.inl (by simp)
          · exact Or.inr (ih q hq)
  induction bs with
  | nil => simp [Resolver.visible]
  | cons b rest ih =>
    obtain ⟨l, p, ns⟩ := b
    simp only [Resolver.visible]
    split
    · exact ih
    · next hn =>
      split
      · exact ih
      · simp only [List.map_cons, List.nodup_cons]
        exact ⟨fun hm => hn (key rest p hm), ih⟩

/-- **C01.** For every well-nested history of events and questions, starting with a fresh
helper, every answer of `namespaces()` binds exactly the prefixes in scope at that moment,
each to the namespace the XML specification gives it. -/
theorem C01_namespaces_in_scope (ops : List NsOp) (fs : List (Str → Option Str))
    (hwell : expected {} ops = some fs) : (runNs {} ops).map asMap = fs :=
  runNs_expected agrees_init ops hwell

/-- Answers are maps: no prefix is bound twice (well-nested histories). -/
theorem C01_answers_are_maps (h : Helper) (p : Pos) (a : Agrees h p) :
    ((h.askNamespaces).1.map (·.1)).Nodup := by
  rw [(agrees_ask a).1]; exact visible_nodup _

/-- Non-vacuity: a nested history with shadowing, un-binding and repeated questions. -/
example :
    let x : Str → Str → Attr := fun k v => ⟨k, v⟩
    let a : Tag := ⟨['a'], [x xmlnsStr ['1'], x (xmlnsStr ++ [':', 'p']) ['2']]⟩
    let b : Tag := ⟨['b'], [x (xmlnsStr ++ [':', 'p']) ['3'], x xmlnsStr []]⟩
    let ops := [NsOp.ask, .ev (.start a), .ask, .ev (.empty b), .ask, .ask,
      .ev (.end_ ['a']), .ask, .ev .eof, .ask]
    (expected {} ops).isSome = true ∧
    runNs {} ops = [[], [([], ['1']), (['p'], ['2'])], [(['p'], ['3'])], [(['p'], ['3'])],
      [([], ['1']), (['p'], ['2'])], []] := by
  refine ⟨?_, ?_⟩ <;> decide

end Verif.Rt

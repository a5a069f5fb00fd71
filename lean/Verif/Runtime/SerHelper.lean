import Verif.Runtime.Namespaces

/-!
# Namespace scopes of the serializer (C15)

`SerializeHelper` (xsd-parser-types/src/quick_xml/serialize.rs 756-949) remembers which
namespace declarations it has written on the elements that are still open and leaves out
declarations it believes to be in force.

Simplifications: prefixes and namespaces are strings, the empty string stands for "no
prefix" (the code filters empty prefixes); the entries are kept innermost first.
-/

namespace Verif.Rt

/-! ## Model -/

/-- `NamespaceEntry`, serialize.rs:762-767. -/
structure NsEntry where
  level : Nat
  pfx : Str
  ns : Str
deriving DecidableEq, Repr

/-- `SerializeHelper`, serialize.rs:756-760; innermost entry first. -/
structure SerHelper where
  level : Nat := 0
  entries : List NsEntry := []
deriving DecidableEq, Repr

namespace SerHelper

/-- `begin_ns_scope`, serialize.rs:773-775. -/
def beginScope (h : SerHelper) : SerHelper := { h with level := h.level + 1 }

/-- `end_ns_scope`, serialize.rs:780-792. -/
def endScope (h : SerHelper) : SerHelper :=
  let level := h.level - 1
  { level, entries := h.entries.dropWhile fun e => decide (e.level > level) }

/-- The attribute key of a declaration, serialize.rs:939-940. -/
def xmlnsKey (p : Str) : Str := if p = [] then xmlnsStr else xmlnsStr ++ ':' :: p

/-- `add_namespace_entry`, serialize.rs:933-948: the attribute pushed to the tag and the new
helper. -/
def addEntry (h : SerHelper) (t : Tag) (p ns : Str) : Tag × SerHelper :=
  ({ t with attrs := t.attrs ++ [⟨xmlnsKey p, ns⟩] },
    { h with entries := ⟨h.level, p, ns⟩ :: h.entries })

/-- `write_xmlns`, serialize.rs:833-851. -/
def writeXmlns (h : SerHelper) (t : Tag) (p ns : Str) : Tag × SerHelper :=
  match h.entries.find? fun e => e.ns == ns with
  | some e => if e.pfx = p then (t, h) else h.addEntry t p ns
  | none => h.addEntry t p ns

/-- `add_qname_namespace`, serialize.rs:799-829, for a name with prefix `p` and namespace
`ns`: the prefix of the returned name. -/
def addQName (h : SerHelper) (t : Tag) (p ns : Str) : Str × Tag × SerHelper :=
  match h.entries.find? fun e => e.ns == ns with
  | some e => (e.pfx, t, h)
  | none => (p, h.addEntry t p ns)

/-- `get_namespace_prefix`, serialize.rs:920-931; `none` is the error. -/
def getPrefix (h : SerHelper) (ns : Str) : Option Str :=
  (h.entries.find? fun e => e.ns == ns).map (·.pfx)

end SerHelper

/-! ## Histories and specification -/

/-- What a serializer does with the helper while it writes a document. -/
inductive SOp where
  /-- a start tag is begun -/
  | open (name : Str)
  /-- `write_xmlns` for the tag just begun -/
  | xmlns (p ns : Str)
  /-- `add_qname_namespace` for the tag just begun -/
  | qname (p ns : Str)
  /-- the innermost element is closed -/
  | close
deriving DecidableEq, Repr

/-- The helper and the open tags as they stand in the document, innermost first. -/
structure SState where
  helper : SerHelper := {}
  tags : List Tag := []

/-- One step; `none` if there is no open tag to write to or to close. -/
def SState.step (s : SState) : SOp → Option SState
  | .open n => some { helper := s.helper.beginScope, tags := ⟨n, []⟩ :: s.tags }
  | .xmlns p ns =>
    match s.tags with
    | [] => none
    | t :: outer => some ⟨(s.helper.writeXmlns t p ns).2, (s.helper.writeXmlns t p ns).1 :: outer⟩
  | .qname p ns =>
    match s.tags with
    | [] => none
    | t :: outer => some ⟨(s.helper.addQName t p ns).2.2, (s.helper.addQName t p ns).2.1 :: outer⟩
  | .close =>
    match s.tags with
    | [] => none
    | _ :: outer => some { helper := s.helper.endScope, tags := outer }

def SState.run (s : SState) : List SOp → Option SState
  | [] => some s
  | op :: ops => (s.step op).bind fun s => s.run ops

/-- All declarations on the open tags, the most recent first. -/
def openDecls : List Tag → List Binding
  | [] => []
  | t :: outer => t.decls.reverse ++ openDecls outer

/-! ## Invariant -/

/-- The entries that correspond to the open tags. -/
def flatEntries : List Tag → List NsEntry
  | [] => []
  | t :: outer => (t.decls.map fun b => ⟨outer.length + 1, b.1, b.2⟩).reverse ++ flatEntries outer

theorem flatEntries_decls (ts : List Tag) :
    (flatEntries ts).map (fun e => (e.pfx, e.ns)) = openDecls ts := by
  induction ts with
  | nil => rfl
  | cons t ts ih =>
    simp only [flatEntries, openDecls, List.map_append, List.map_reverse, List.map_map, ih]
    congr 2
    rw [show ((fun e : NsEntry => (e.pfx, e.ns)) ∘ fun b : Binding => ⟨ts.length + 1, b.1, b.2⟩) = id
      from rfl, List.map_id]

theorem flatEntries_level {ts : List Tag} : ∀ e ∈ flatEntries ts, e.level ≤ ts.length := by
  induction ts with
  | nil => simp [flatEntries]
  | cons t ts ih =>
    intro e he
    simp only [flatEntries, List.mem_append, List.mem_reverse, List.mem_map] at he
    rcases he with ⟨b, _, rfl⟩ | he
    · simp
    · have := ih e he; simp only [List.length_cons]; omega

/-- The helper knows exactly the declarations on the open tags. -/
structure SAgrees (s : SState) : Prop where
  level : s.helper.level = s.tags.length
  entries : s.helper.entries = flatEntries s.tags

theorem declPrefix_xmlnsKey (p : Str) : declPrefix (SerHelper.xmlnsKey p) = some p := by
  unfold SerHelper.xmlnsKey declPrefix
  by_cases hp : p = []
  · subst hp; rfl
  · rw [if_neg hp, if_neg (by simp [xmlnsStr])]
    simp [xmlnsStr, List.isPrefixOf]

theorem decls_push (t : Tag) (p ns : Str) :
    ({ t with attrs := t.attrs ++ [⟨SerHelper.xmlnsKey p, ns⟩] } : Tag).decls
      = t.decls ++ [(p, ns)] := by
  simp [Tag.decls, List.filterMap_append, declPrefix_xmlnsKey]

theorem endScope_flat (t : Tag) (outer : List Tag) (h : SerHelper)
    (hl : h.level = outer.length + 1) (he : h.entries = flatEntries (t :: outer)) :
    h.endScope = { level := outer.length, entries := flatEntries outer } := by
  unfold SerHelper.endScope
  simp only [hl, Nat.add_sub_cancel, he, flatEntries]
  congr 1
  rw [dropWhile_append_all _ _ _ (by
    intro e hm
    simp only [List.mem_reverse, List.mem_map] at hm
    obtain ⟨b, _, rfl⟩ := hm
    simp)]
  exact dropWhile_none _ _ (fun e hm => by
    have := flatEntries_level e hm
    simp only [decide_eq_false_iff_not]; omega)

theorem sagrees_add (h : SerHelper) (t : Tag) (outer : List Tag) (p ns : Str)
    (a : SAgrees ⟨h, t :: outer⟩) :
    SAgrees ⟨(h.addEntry t p ns).2, (h.addEntry t p ns).1 :: outer⟩ := by
  have hl := a.level
  have he := a.entries
  simp only [List.length_cons] at hl he
  refine ⟨by simpa [SerHelper.addEntry] using hl, ?_⟩
  simp only [SerHelper.addEntry, he, hl, flatEntries, decls_push]
  simp

theorem sagrees_step {s s' : SState} {op : SOp} (a : SAgrees s) (h : s.step op = some s') :
    SAgrees s' := by
  obtain ⟨hp, tags⟩ := s
  cases op with
  | «open» n =>
    simp only [SState.step, Option.some.injEq] at h
    subst h
    refine ⟨by have := a.level; simp only at this; simp [SerHelper.beginScope, this], ?_⟩
    simp only [SerHelper.beginScope, flatEntries, Tag.decls, List.filterMap_nil, List.map_nil,
      List.reverse_nil, List.nil_append]
    exact a.entries
  | xmlns p ns =>
    cases tags with
    | nil => cases h
    | cons t outer =>
      simp only [SState.step, Option.some.injEq] at h
      subst h
      unfold SerHelper.writeXmlns
      cases hp.entries.find? fun e => e.ns == ns with
      | none => exact sagrees_add hp t outer p ns a
      | some e =>
        simp only
        by_cases hep : e.pfx = p
        · simp only [if_pos hep]; exact a
        · simp only [if_neg hep]; exact sagrees_add hp t outer p ns a
  | qname p ns =>
    cases tags with
    | nil => cases h
    | cons t outer =>
      simp only [SState.step, Option.some.injEq] at h
      subst h
      unfold SerHelper.addQName
      cases hp.entries.find? fun e => e.ns == ns with
      | none => exact sagrees_add hp t outer p ns a
      | some e => exact a
  | close =>
    cases tags with
    | nil => cases h
    | cons t outer =>
      simp only [SState.step, Option.some.injEq] at h
      subst h
      have := endScope_flat t outer hp (by simpa using a.level) a.entries
      simp only [this]
      exact ⟨rfl, rfl⟩

theorem sagrees_init : SAgrees {} := ⟨rfl, rfl⟩

theorem sagrees_run {s s' : SState} (ops : List SOp) (a : SAgrees s) (h : s.run ops = some s') :
    SAgrees s' := by
  induction ops generalizing s with
  | nil => simp only [SState.run, Option.some.injEq] at h; subst h; exact a
  | cons op ops ih =>
    simp only [SState.run] at h
    cases hs : s.step op with
    | none => rw [hs] at h; cases h
    | some s1 => rw [hs] at h; exact ih (sagrees_step a hs) h

/-! ## Resolution in terms of the most recent declaration -/

theorem lastDecl_find (p : Str) (ds : List Binding) :
    lastDecl p ds = (ds.reverse.find? fun b => b.1 == p).map (·.2) := by
  have : ∀ (ds : List Binding) (acc : Option Str),
      ds.foldl (fun acc d => if d.1 = p then some d.2 else acc) acc
        = ((ds.reverse.find? fun b => b.1 == p).map (·.2)).or acc := by
    intro ds
    induction ds with
    | nil => intro acc; rfl
    | cons d ds ih =>
      intro acc
      rw [List.foldl_cons, ih, List.reverse_cons, List.find?_append]
      cases List.find? (fun b => b.1 == p) ds.reverse with
      | some b => rfl
      | none =>
        by_cases h : d.1 = p
        · simp [h]
        · have : (d.1 == p) = false := by simpa using h
          simp [h, this]
  have := this ds none
  rw [Option.or_none] at this
  exact this

theorem inScope_find (p : Str) (ts : List Tag) :
    inScope p ts = ((openDecls ts).find? fun b => b.1 == p).bind fun b =>
      if b.2 = [] then none else some b.2 := by
  induction ts with
  | nil => rfl
  | cons t ts ih =>
    simp only [inScope, openDecls, List.find?_append, lastDecl_find]
    cases List.find? (fun b => b.1 == p) t.decls.reverse with
    | some b => rfl
    | none => simpa using ih

theorem find_entries (ts : List Tag) (q : Binding → Bool) :
    ((flatEntries ts).find? fun e => q (e.pfx, e.ns)).map (fun e => (e.pfx, e.ns))
      = (openDecls ts).find? q := by
  rw [← flatEntries_decls, List.find?_map]
  rfl

theorem getPrefix_eq {s : SState} (a : SAgrees s) (ns : Str) :
    s.helper.getPrefix ns = ((openDecls s.tags).find? fun b => b.2 == ns).map (·.1) := by
  unfold SerHelper.getPrefix
  rw [a.entries, ← find_entries s.tags (fun b => b.2 == ns), Option.map_map]
  rfl

theorem writeXmlns_decls {s : SState} (a : SAgrees s) (t : Tag) (outer : List Tag) (p ns : Str)
    (ht : s.tags = t :: outer) :
    openDecls ((s.helper.writeXmlns t p ns).1 :: outer)
      = if ((openDecls s.tags).find? fun b => b.2 == ns).map (·.1) = some p
        then openDecls s.tags else (p, ns) :: openDecls s.tags := by
  rw [← getPrefix_eq a]
  have hadd : openDecls ((s.helper.addEntry t p ns).1 :: outer) = (p, ns) :: openDecls s.tags := by
    simp only [SerHelper.addEntry, openDecls, decls_push, ht, List.reverse_append]
    rfl
  unfold SerHelper.writeXmlns SerHelper.getPrefix
  cases List.find? (fun e => e.ns == ns) s.helper.entries with
  | none => simpa using hadd
  | some e =>
    by_cases hep : e.pfx = p
    · simp [hep, ht]
    · simpa [hep] using hadd

/-! ## Theorems -/

/-- **C15**, exactly when a declaration is effective. After any history, `write_xmlns(p, ns)`
leaves the document in a state where a reader resolves `p` to `ns` inside the tag, if and
only if it did so before or the most recent declaration of `ns` in scope used another prefix
(or there is none). -/
theorem C15_resolves_iff (ops : List SOp) (s : SState) (t : Tag) (outer : List Tag) (p ns : Str)
    (hreach : SState.run {} ops = some s) (htag : s.tags = t :: outer) (hns : ns ≠ []) :
    inScope p ((s.helper.writeXmlns t p ns).1 :: outer) = some ns ↔
      (inScope p s.tags = some ns ∨
        ((openDecls s.tags).find? fun b => b.2 == ns).map (·.1) ≠ some p) := by
  have a := sagrees_run ops sagrees_init hreach
  rw [inScope_find p (_ :: outer), writeXmlns_decls a t outer p ns htag]
  by_cases h : ((openDecls s.tags).find? fun b => b.2 == ns).map (·.1) = some p
  · rw [if_pos h, ← inScope_find]
    simp [h]
  · rw [if_neg h]
    simp [h, hns]

/-- A history in which every prefix is used for one namespace only. -/
def UsesOneNamespacePerPrefix (f : Str → Str) (ops : List SOp) : Prop :=
  ∀ op ∈ ops, ∀ p ns, (op = .xmlns p ns ∨ op = .qname p ns) → ns = f p ∧ ns ≠ []

theorem decls_consistent (f : Str → Str) (ops : List SOp) (hf : UsesOneNamespacePerPrefix f ops) :
    ∀ (s s' : SState), (∀ b ∈ openDecls s.tags, b.2 = f b.1 ∧ b.2 ≠ []) → s.run ops = some s' →
      ∀ b ∈ openDecls s'.tags, b.2 = f b.1 ∧ b.2 ≠ [] := by
  induction ops with
  | nil => intro s s' h hr; simp only [SState.run, Option.some.injEq] at hr; subst hr; exact h
  | cons op ops ih =>
    intro s s' h hr
    simp only [SState.run] at hr
    cases hs : s.step op with
    | none => rw [hs] at hr; cases hr
    | some s1 =>
      rw [hs] at hr
      refine ih (fun op' ho => hf op' (List.mem_cons_of_mem _ ho)) s1 s' ?_ hr
      have hop := hf op (by simp)
      obtain ⟨hp, tags⟩ := s
      have addc : ∀ (t : Tag) (outer : List Tag) p ns, tags = t :: outer → ns = f p ∧ ns ≠ [] →
          ∀ b ∈ openDecls ((hp.addEntry t p ns).1 :: outer), b.2 = f b.1 ∧ b.2 ≠ [] := by
        intro t outer p ns ht hpn b hb
        simp only [SerHelper.addEntry, openDecls, decls_push, List.reverse_append,
          List.reverse_cons, List.reverse_nil, List.nil_append, List.cons_append,
          List.mem_cons] at hb
        rcases hb with rfl | hb
        · exact hpn
        · exact h b (by rw [ht]; exact hb)
      cases op with
      | «open» n =>
        simp only [SState.step, Option.some.injEq] at hs
        subst hs
        intro b hb
        exact h b (by simpa [openDecls, Tag.decls] using hb)
      | xmlns p ns =>
        cases tags with
        | nil => cases hs
        | cons t outer =>
          simp only [SState.step, Option.some.injEq] at hs
          subst hs
          have := hop p ns (Or.inl rfl)
          simp only
          unfold SerHelper.writeXmlns
          cases hp.entries.find? fun e => e.ns == ns with
          | none => exact addc t outer p ns rfl this
          | some e =>
            simp only
            by_cases hep : e.pfx = p
            · rw [if_pos hep]; exact h
            · rw [if_neg hep]; exact addc t outer p ns rfl this
      | qname p ns =>
        cases tags with
        | nil => cases hs
        | cons t outer =>
          simp only [SState.step, Option.some.injEq] at hs
          subst hs
          have := hop p ns (Or.inr rfl)
          simp only
          unfold SerHelper.addQName
          cases hp.entries.find? fun e => e.ns == ns with
          | none => exact addc t outer p ns rfl this
          | some e => exact h
      | close =>
        cases tags with
        | nil => cases hs
        | cons t outer =>
          simp only [SState.step, Option.some.injEq] at hs
          subst hs
          intro b hb
          exact h b (by simp [openDecls, hb])

theorem inScope_of_mem {f : Str → Str} {ts : List Tag}
    (hc : ∀ b ∈ openDecls ts, b.2 = f b.1 ∧ b.2 ≠ []) {p ns : Str} (hm : (p, ns) ∈ openDecls ts) :
    inScope p ts = some ns := by
  rw [inScope_find]
  cases hfind : (openDecls ts).find? fun b => b.1 == p with
  | none =>
    rw [List.find?_eq_none] at hfind
    exact absurd (hfind _ hm) (by simp)
  | some b =>
    have h1 : b.1 = p := by simpa using List.find?_some hfind
    have h2 := hc b (List.mem_of_find?_eq_some hfind)
    have h3 := hc _ hm
    simp only at h3
    simp only [Option.bind_some, if_neg h2.2, Option.some.injEq]
    rw [h2.1, h1, h3.1]

/-- **C15** (partial). In a history that uses every prefix for one namespace only, a prefix is
resolved to its namespace from the moment it was requested by `write_xmlns` as long as the
tag is open, whatever is written in between (`more`). Missing: histories that bind
one prefix to several namespaces, see `C15_shadowed_prefix`. -/
theorem C15_resolves_partial (f : Str → Str) (ops more : List SOp) (s1 s2 : SState) (p ns : Str)
    (t : Tag) (outer inner : List Tag) (t' : Tag)
    (hf : UsesOneNamespacePerPrefix f (ops ++ .xmlns p ns :: more))
    (h1 : SState.run {} (ops ++ [.xmlns p ns]) = some s1) (ht1 : s1.tags = t :: outer)
    (h2 : s1.run more = some s2)
    (hopen : s2.tags = inner ++ t' :: outer ∧ ∃ extra, t'.attrs = t.attrs ++ extra) :
    inScope p s2.tags = some ns := by
  have append_run : ∀ (xs ys : List SOp) (s : SState),
      s.run (xs ++ ys) = (s.run xs).bind fun s => s.run ys := by
    intro xs
    induction xs with
    | nil => intro ys s; rfl
    | cons x xs ih =>
      intro ys s
      simp only [List.cons_append, SState.run]
      cases s.step x with
      | none => rfl
      | some s => simp [ih]
  have hops : ops ++ SOp.xmlns p ns :: more = (ops ++ [.xmlns p ns]) ++ more := by simp
  have hc := decls_consistent f _ hf {} s2 (by simp [openDecls]) (by
    rw [hops, append_run, h1]; exact h2)
  apply inScope_of_mem hc
  -- the declaration is on an open tag of `s1`
  have hmem : (p, ns) ∈ openDecls s1.tags := by
    rw [append_run] at h1
    cases h0 : SState.run {} ops with
    | none => rw [h0] at h1; cases h1
    | some s0 =>
      rw [h0] at h1
      have a0 := sagrees_run ops sagrees_init h0
      simp only [Option.bind_some, SState.run] at h1
      cases hs0 : s0.tags with
      | nil => simp [SState.step, hs0] at h1
      | cons t0 outer0 =>
        simp only [SState.step, hs0, Option.bind_some, Option.some.injEq] at h1
        subst h1
        simp only
        rw [writeXmlns_decls a0 t0 outer0 p ns hs0]
        by_cases hl : ((openDecls s0.tags).find? fun b => b.2 == ns).map (·.1) = some p
        · rw [if_pos hl]
          cases hfind : (openDecls s0.tags).find? fun b => b.2 == ns with
          | none => rw [hfind] at hl; cases hl
          | some b =>
            rw [hfind] at hl
            simp only [Option.map_some, Option.some.injEq] at hl
            have h2 : b.2 = ns := by simpa using List.find?_some hfind
            have := List.mem_of_find?_eq_some hfind
            rw [← hl, ← h2]; exact this
        · rw [if_neg hl]; simp
  rw [ht1] at hmem
  rw [hopen.1]
  have happ : ∀ xs ys : List Tag, openDecls (xs ++ ys) = openDecls xs ++ openDecls ys := by
    intro xs ys
    induction xs with
    | nil => rfl
    | cons x xs ih => simp [openDecls, ih]
  rw [happ, List.mem_append]
  right
  simp only [openDecls, List.mem_append, List.mem_reverse] at hmem ⊢
  rcases hmem with hm | hm
  · left
    obtain ⟨extra, he⟩ := hopen.2
    simp only [Tag.decls, he, List.filterMap_append, List.mem_append]
    left; exact hm
  · right; exact hm

/-- **C15** (partial), qualified names in values: the prefix `add_qname_namespace` decides on
is resolved to the namespace of the name. -/
theorem C15_qname_prefix_resolves_partial (f : Str → Str) (ops : List SOp) (s s' : SState)
    (p ns : Str) (t : Tag) (outer : List Tag)
    (hf : UsesOneNamespacePerPrefix f (ops ++ [.qname p ns]))
    (h : SState.run {} ops = some s) (ht : s.tags = t :: outer)
    (h' : s.step (.qname p ns) = some s') :
    inScope (s.helper.addQName t p ns).1 s'.tags = some ns := by
  have a := sagrees_run ops sagrees_init h
  have hc := decls_consistent f ops (fun op ho => hf op (by simp [ho])) {} s (by simp [openDecls]) h
  have hc' := decls_consistent f [.qname p ns] (fun op ho => hf op (by simp at ho; simp [ho])) s s' hc
    (by simp [SState.run, h'])
  apply inScope_of_mem hc'
  simp only [SState.step, ht, Option.some.injEq] at h'
  subst h'
  have he := find_entries s.tags (fun b => b.2 == ns)
  rw [← a.entries] at he
  simp only at he
  unfold SerHelper.addQName
  cases hfind : List.find? (fun e => e.ns == ns) s.helper.entries with
  | none =>
    simp only [SerHelper.addEntry, openDecls, decls_push]
    simp
  | some e =>
    rw [hfind] at he
    simp only [Option.map_some] at he
    have h1 := List.mem_of_find?_eq_some he.symm
    have h2 : e.ns = ns := by simpa using List.find?_some hfind
    rw [h2, ht] at h1
    exact h1

/-- **C15** (partial), no repeated declaration: if moreover every namespace is used with one
prefix only, no open tag declares a prefix twice. -/
theorem C15_declared_once_partial (f : Str → Str) (ops : List SOp) (s : SState)
    (hf : UsesOneNamespacePerPrefix f ops)
    (hinj : ∀ op ∈ ops, ∀ op' ∈ ops, ∀ p p' ns,
      (op = .xmlns p ns ∨ op = .qname p ns) → (op' = .xmlns p' ns ∨ op' = .qname p' ns) → p = p')
    (h : SState.run {} ops = some s) : ∀ t ∈ s.tags, (t.decls.map (·.1)).Nodup := by
  -- all declarations come from operations of the history
  let used : Binding → Prop := fun b => ∃ op ∈ ops, op = .xmlns b.1 b.2 ∨ op = .qname b.1 b.2
  have key : ∀ (rest : List SOp) (s s' : SState), (∀ op ∈ rest, op ∈ ops) → SAgrees s →
      (∀ b ∈ openDecls s.tags, used b) → (∀ t ∈ s.tags, (t.decls.map (·.1)).Nodup) →
      s.run rest = some s' → ∀ t ∈ s'.tags, (t.decls.map (·.1)).Nodup := by
    intro rest
    induction rest with
    | nil =>
      intro s s' _ _ _ hn hr
      simp only [SState.run, Option.some.injEq] at hr; subst hr; exact hn
    | cons op rest ih =>
      intro s s' hsub a hu hn hr
      simp only [SState.run] at hr
      cases hs : s.step op with
      | none => rw [hs] at hr; cases hr
      | some s1 =>
        rw [hs] at hr
        have a1 := sagrees_step a hs
        have hmemop := hsub op (by simp)
        obtain ⟨hp, tags⟩ := s
        have addc : ∀ (t : Tag) (outer : List Tag) p ns, tags = t :: outer →
            (op = .xmlns p ns ∨ op = .qname p ns) →
            (∀ b ∈ openDecls tags, b.2 = ns → b.1 ≠ p) →
            (∀ b ∈ openDecls ((hp.addEntry t p ns).1 :: outer), used b) ∧
            (∀ t' ∈ (hp.addEntry t p ns).1 :: outer, (t'.decls.map (·.1)).Nodup) := by
          intro t outer p ns ht hop hne
          constructor
          · intro b hb
            simp only [SerHelper.addEntry, openDecls, decls_push, List.reverse_append,
              List.reverse_cons, List.reverse_nil, List.nil_append, List.cons_append,
              List.mem_cons] at hb
            rcases hb with rfl | hb
            · exact ⟨op, hmemop, hop⟩
            · exact hu b (by rw [ht]; exact hb)
          · intro t' ht'
            rcases List.mem_cons.mp ht' with rfl | ht'
            · simp only [SerHelper.addEntry, decls_push, List.map_append, List.map_cons,
                List.map_nil]
              rw [List.nodup_append]
              refine ⟨hn t (by rw [ht]; simp), by simp, ?_⟩
              intro x hx y hy
              simp only [List.mem_singleton] at hy
              subst hy
              rintro rfl
              obtain ⟨b, hb, rfl⟩ := List.mem_map.mp hx
              have hbo : b ∈ openDecls tags := by rw [ht]; simp [openDecls, hb]
              obtain ⟨op', ho', hop'⟩ := hu b hbo
              have e1 := (hf op' ho' b.1 b.2 hop').1
              have e2 := (hf op hmemop b.1 ns hop).1
              exact hne b hbo (by rw [e1, e2]) rfl
            · exact hn t' (by rw [ht]; simp [ht'])
        have nofind : ∀ p ns, (op = .xmlns p ns ∨ op = .qname p ns) →
            hp.entries.find? (fun e => e.ns == ns) = none →
            ∀ b ∈ openDecls tags, b.2 = ns → b.1 ≠ p := by
          intro p ns _ hfind b hb hbn
          have he := find_entries tags (fun b => b.2 == ns)
          rw [← a.entries] at he
          simp only at he
          rw [hfind] at he
          have := List.find?_eq_none.mp he.symm b hb
          simp [hbn] at this
        have keep : s1 = ⟨hp, tags⟩ → ∀ t ∈ s'.tags, (t.decls.map (·.1)).Nodup := by
          rintro rfl
          exact ih _ s' (fun o ho => hsub o (by simp [ho])) a hu hn hr
        cases op with
        | «open» n =>
          simp only [SState.step, Option.some.injEq] at hs
          subst hs
          refine ih _ s' (fun o ho => hsub o (by simp [ho])) a1 ?_ ?_ hr
          · intro b hb; exact hu b (by simpa [openDecls, Tag.decls] using hb)
          · intro t ht
            rcases List.mem_cons.mp ht with rfl | ht
            · simp [Tag.decls]
            · exact hn t ht
        | xmlns p ns =>
          cases tags with
          | nil => cases hs
          | cons t outer =>
            simp only [SState.step, Option.some.injEq] at hs
            cases hfind : hp.entries.find? fun e => e.ns == ns with
            | none =>
              simp only [SerHelper.writeXmlns, hfind] at hs
              subst hs
              obtain ⟨c1, c2⟩ := addc t outer p ns rfl (Or.inl rfl) (nofind p ns (Or.inl rfl) hfind)
              exact ih _ s' (fun o ho => hsub o (by simp [ho])) a1 c1 c2 hr
            | some e =>
              by_cases hep : e.pfx = p
              · simp only [SerHelper.writeXmlns, hfind, if_pos hep] at hs
                exact keep hs.symm
              · exfalso
                have he := find_entries (t :: outer) (fun b => b.2 == ns)
                rw [← a.entries] at he
                simp only at he
                rw [hfind] at he
                simp only [Option.map_some] at he
                have hm := List.mem_of_find?_eq_some he.symm
                have h2 : e.ns = ns := by simpa using List.find?_some hfind
                obtain ⟨op', ho', hop'⟩ := hu _ hm
                simp only at hop'
                rw [h2] at hop'
                exact hep (hinj op' ho' _ hmemop e.pfx p ns hop' (Or.inl rfl))
        | qname p ns =>
          cases tags with
          | nil => cases hs
          | cons t outer =>
            simp only [SState.step, Option.some.injEq] at hs
            cases hfind : hp.entries.find? fun e => e.ns == ns with
            | none =>
              simp only [SerHelper.addQName, hfind] at hs
              subst hs
              obtain ⟨c1, c2⟩ := addc t outer p ns rfl (Or.inr rfl) (nofind p ns (Or.inr rfl) hfind)
              exact ih _ s' (fun o ho => hsub o (by simp [ho])) a1 c1 c2 hr
            | some e =>
              simp only [SerHelper.addQName, hfind] at hs
              exact keep hs.symm
        | close =>
          cases tags with
          | nil => cases hs
          | cons t outer =>
            simp only [SState.step, Option.some.injEq] at hs
            subst hs
            refine ih _ s' (fun o ho => hsub o (by simp [ho])) a1 ?_ ?_ hr
            · intro b hb; exact hu b (by simp [openDecls, hb])
            · intro t' ht'; exact hn t' (by simp [ht'])
  exact key ops {} s (fun _ h => h) sagrees_init (by simp [openDecls]) (by simp) h

/-- **C15**, the helper is balanced: opening an element, declaring anything on it, and closing
it restores the helper exactly (also with complete child elements in between). -/
theorem C15_scope_restored (pre ops : List SOp) (s s' : SState)
    (hpre : SState.run {} pre = some s) (h : s.run ops = some s') (ht : s'.tags = s.tags) :
    s'.helper = s.helper := by
  have hs := sagrees_run pre sagrees_init hpre
  have a := sagrees_run ops hs h
  have e1 := a.level
  have e2 := a.entries
  rw [ht, ← hs.level] at e1
  rw [ht, ← hs.entries] at e2
  cases hh : s.helper with
  | mk l es =>
    cases hh' : s'.helper with
    | mk l' es' => rw [hh, hh'] at e1 e2; simp only at e1 e2; rw [e1, e2]

/-- **C15** is false in general (1): a prefix that was re-bound on an inner element is believed
to be still bound to the outer namespace. `<a xmlns:p="1"><b xmlns:p="2"><c>`: asking for
`p → 1` on `c` writes nothing, but a reader resolves `p` to `2`. -/
theorem C15_shadowed_prefix :
    ∃ s, SState.run {} [.open ['a'], .xmlns ['p'] ['1'], .open ['b'], .xmlns ['p'] ['2'],
        .open ['c'], .xmlns ['p'] ['1']] = some s ∧
      inScope ['p'] s.tags = some ['2'] := ⟨_, rfl, by decide⟩

/-- **C15** is false in general (2): with two prefixes for one namespace a start tag gets the
same declaration twice, which is not well-formed XML. -/
theorem C15_declared_twice :
    ∃ s t, SState.run {} [.open ['a'], .xmlns ['p'] ['1'], .xmlns ['q'] ['1'], .xmlns ['p'] ['1']]
        = some s ∧ s.tags = [t] ∧ t.decls = [(['p'], ['1']), (['q'], ['1']), (['p'], ['1'])] :=
  ⟨_, _, rfl, rfl, by decide⟩

/-- Non-vacuity: a history that satisfies the hypotheses. -/
example :
    let f : Str → Str := fun p => if p = ['p'] then ['1'] else ['2']
    let ops := [SOp.open ['a'], .xmlns ['p'] ['1'], .open ['b'], .xmlns [] ['2'], .close,
      .open ['c'], .qname [] ['2'], .xmlns ['p'] ['1']]
    UsesOneNamespacePerPrefix f ops ∧
    ∃ s, SState.run {} ops = some s ∧ s.tags.map (·.attrs) =
      [[⟨xmlnsStr, ['2']⟩], [⟨xmlnsStr ++ [':', 'p'], ['1']⟩]] := by
  refine ⟨?_, _, rfl, by decide⟩
  intro op hop p ns h
  simp only [List.mem_cons, List.not_mem_nil, or_false] at hop
  rcases hop with rfl | rfl | rfl | rfl | rfl | rfl | rfl | rfl <;>
    simp at h <;> obtain ⟨rfl, rfl⟩ := h <;> decide

end Verif.Rt

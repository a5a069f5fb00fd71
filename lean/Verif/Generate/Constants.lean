import Verif.Meta.Types
import Verif.Generate.Namespaces
import Verif.Runtime.RawBytes
/-!
# The constants for namespaces and prefixes, and the trait `WithNamespace` (C82)

The generated code never contains a namespace twice: it refers to constants `NS_…` and `PREFIX_…` of the root module,
which two render steps define (`xsd-parser/src/pipeline/renderer/steps/namespace_const.rs`, `prefix_const.rs`). Their
names come from `ModuleMeta::make_ns_const` and `make_prefix_const` (`models/meta/types.rs` 166-190). The render step
`with_namespace_trait.rs` lets each type tell its namespace.

`to_screaming_snake_case` (crate `Inflector`) is a parameter `up`. The `State` of the render steps (the constants are
written at the end, if some type was rendered) is left out.
-/
namespace Verif.Ns

open Verif.Meta

/-- `NamespaceInfo`, models/schema/mod.rs 46-64: what the parser knows about a namespace. -/
structure NsInfo where
  prefix_ : Option Txt
  namespace_ : Option Txt
  moduleName : Option Txt
deriving DecidableEq, Repr

/-- `ModuleMeta`, models/meta/types.rs 43-58 (without `schema_count`). -/
structure ModuleMeta where
  name : Option Txt
  prefix_ : Option Txt
  namespace_ : Option Txt
  id : Nat
deriving DecidableEq, Repr

/-- `NamespaceInfo::name`, models/schema/mod.rs 238-242. -/
def NsInfo.name (n : NsInfo) : Option Txt := n.moduleName.or n.prefix_

/-- `prepare_modules`, interpreter/state/prepare_modules.rs 21-43: one module for each namespace. -/
def prepareModules (infos : List (Nat × NsInfo)) : List ModuleMeta :=
  infos.map fun (id, n) => ⟨n.name, n.prefix_, n.namespace_, id⟩

/-- `ModuleMeta::name`, types.rs 154-156. -/
def ModuleMeta.nameOf (m : ModuleMeta) : Option Txt := m.name.or m.prefix_

/-- `ModuleMeta::prefix`, types.rs 160-162. -/
def ModuleMeta.prefixOf (m : ModuleMeta) : Option Txt := m.prefix_.or m.name

/-- `make_ns_const`, types.rs 166-177. -/
def ModuleMeta.nsConst (up : Txt → Txt) (m : ModuleMeta) : Option Txt :=
  match m.namespace_ with
  | none => none
  | some _ =>
    some ("NS_".toList ++
      match m.nameOf with
      | none => "UNNAMED_".toList ++ Nat.toDigits 10 m.id
      | some n => up n)

/-- `make_prefix_const`, types.rs 181-190. -/
def ModuleMeta.prefixConst (up : Txt → Txt) (m : ModuleMeta) : Option Txt :=
  match m.namespace_, m.nameOf with
  | some _, some n => some ("PREFIX_".toList ++ up n)
  | _, _ => none

/-- The constants for the namespaces, namespace_const.rs 46-55: names and values. -/
def nsConstants (up : Txt → Txt) (M : List ModuleMeta) : List (Txt × Txt) :=
  M.filterMap fun m =>
    match m.namespace_, m.nsConst up with
    | some ns, some c => some (c, ns)
    | _, _ => none

/-- The constants for the prefixes, prefix_const.rs 46-55: names and values. -/
def prefixConstants (up : Txt → Txt) (M : List ModuleMeta) : List (Txt × Txt) :=
  M.filterMap fun m =>
    match m.prefixOf, m.prefixConst up with
    | some p, some c => some (c, p)
    | _, _ => none

/-- `render_trait_with_namespace`, with_namespace_trait.rs 136-169: what `prefix()` and `namespace()` of a type of the
namespace return. The namespace is printed with its `Display` (144, 149), see `Verif.Raw`. -/
def traitValues (m : ModuleMeta) : Option Txt × Option Txt :=
  match m.prefix_, m.namespace_ with
  | some p, some ns => (some p, some (Raw.shown ns))
  | none, some ns => (none, some (Raw.shown ns))
  | _, none => (none, none)

/-! ## Specification -/

/-- The name stands for the value: it is defined, once, with this value. -/
def StandsFor (consts : List (Txt × Txt)) (c v : Txt) : Prop := consts.filter (·.1 = c) = [(c, v)]

/-- The names of the modules are told apart by the constants: different modules with a namespace have names that are
still different in upper case. -/
def ToldApart (up : Txt → Txt) (M : List ModuleMeta) : Prop :=
  ∀ m ∈ M, ∀ m' ∈ M, m.namespace_ ≠ none → m'.namespace_ ≠ none → ∀ n n', m.nameOf = some n → m'.nameOf = some n' →
    up n = up n' → m = m'

/-- No module is named like the unnamed ones are. -/
def NotUnnamed (up : Txt → Txt) (M : List ModuleMeta) : Prop :=
  ∀ m ∈ M, ∀ n, m.nameOf = some n → ∀ k : Nat, up n ≠ "UNNAMED_".toList ++ Nat.toDigits 10 k

/-! ## Proofs -/

theorem toDigits_inj {a b : Nat} (h : Nat.toDigits 10 a = Nat.toDigits 10 b) : a = b := by
  rw [← Nat.ofDigitChars_ten_toDigits (n := a), h, Nat.ofDigitChars_ten_toDigits]

theorem mem_nsConstants {up : Txt → Txt} {M : List ModuleMeta} {c v : Txt} :
    (c, v) ∈ nsConstants up M ↔ ∃ m ∈ M, m.namespace_ = some v ∧ m.nsConst up = some c := by
  simp only [nsConstants, List.mem_filterMap]
  constructor
  · rintro ⟨m, hm, h⟩
    split at h
    · rename_i h1 h2
      simp only [Option.some.injEq, Prod.mk.injEq] at h
      exact ⟨m, hm, by rw [h1, h.2], by rw [h2, h.1]⟩
    · cases h
  · rintro ⟨m, hm, h1, h2⟩
    exact ⟨m, hm, by rw [h1, h2]⟩

theorem mem_prefixConstants {up : Txt → Txt} {M : List ModuleMeta} {c v : Txt} :
    (c, v) ∈ prefixConstants up M ↔ ∃ m ∈ M, m.prefixOf = some v ∧ m.prefixConst up = some c := by
  simp only [prefixConstants, List.mem_filterMap]
  constructor
  · rintro ⟨m, hm, h⟩
    split at h
    · rename_i h1 h2
      simp only [Option.some.injEq, Prod.mk.injEq] at h
      exact ⟨m, hm, by rw [h1, h.2], by rw [h2, h.1]⟩
    · cases h
  · rintro ⟨m, hm, h1, h2⟩
    exact ⟨m, hm, by rw [h1, h2]⟩

/-- A list made from the elements of a list without repetition: a key that only one element has is there once. -/
theorem filter_filterMap {α : Type} {M : List α} (nd : M.Nodup) {f : α → Option (Txt × Txt)} {m : α} {c v : Txt}
    (hm : m ∈ M) (h : f m = some (c, v)) (only : ∀ m' ∈ M, ∀ v', f m' = some (c, v') → m' = m) :
    (M.filterMap f).filter (·.1 = c) = [(c, v)] := by
  induction M with
  | nil => cases hm
  | cons a M ih =>
    have rest : a = m → (M.filterMap f).filter (·.1 = c) = [] := by
      rintro rfl
      rw [List.filter_eq_nil_iff]
      intro x hx
      obtain ⟨m', hm', hx⟩ := List.mem_filterMap.1 hx
      simp only [decide_eq_true_eq]
      intro hc
      obtain ⟨x1, x2⟩ := x
      simp only at hc
      subst hc
      have := only m' (List.mem_cons_of_mem _ hm') _ hx
      subst this
      exact (List.nodup_cons.1 nd).1 hm'
    by_cases ha : a = m
    · subst ha
      rw [List.filterMap_cons_some h, List.filter_cons_of_pos (by simp), rest rfl]
    · have hm : m ∈ M := by
        rcases List.mem_cons.1 hm with h | h
        · exact absurd h.symm ha
        · exact h
      have ih := ih (List.nodup_cons.1 nd).2 hm (fun m' hm' => only m' (List.mem_cons_of_mem _ hm'))
      cases hf : f a with
      | none => rw [List.filterMap_cons_none hf, ih]
      | some x =>
        rw [List.filterMap_cons_some hf, List.filter_cons_of_neg, ih]
        simp only [decide_eq_true_eq]
        intro hc
        obtain ⟨x1, x2⟩ := x
        simp only at hc
        subst hc
        exact ha (only a (List.mem_cons_self ..) _ hf)

theorem nsConst_some {up : Txt → Txt} {m : ModuleMeta} {c : Txt} (h : m.nsConst up = some c) :
    m.namespace_ ≠ none ∧ ((∃ n, m.nameOf = some n ∧ c = "NS_".toList ++ up n) ∨
      (m.nameOf = none ∧ c = "NS_".toList ++ ("UNNAMED_".toList ++ Nat.toDigits 10 m.id))) := by
  unfold ModuleMeta.nsConst at h
  split at h
  · cases h
  · rename_i ns hns
    refine ⟨by rw [hns]; exact nofun, ?_⟩
    simp only [Option.some.injEq] at h
    cases hn : m.nameOf with
    | none => rw [hn] at h; exact .inr ⟨rfl, h.symm⟩
    | some n => rw [hn] at h; exact .inl ⟨n, rfl, h.symm⟩

theorem prefixConst_some {up : Txt → Txt} {m : ModuleMeta} {c : Txt} (h : m.prefixConst up = some c) :
    m.namespace_ ≠ none ∧ ∃ n, m.nameOf = some n ∧ c = "PREFIX_".toList ++ up n := by
  unfold ModuleMeta.prefixConst at h
  split at h
  · rename_i ns n h1 h2
    simp only [Option.some.injEq] at h
    exact ⟨by rw [h1]; exact nofun, n, h2, h.symm⟩
  · cases h

/-- Two modules with the same constant for their namespaces are the same. -/
theorem nsConst_inj {up : Txt → Txt} {M : List ModuleMeta} (ids : (M.map (·.id)).Nodup) (apart : ToldApart up M)
    (plain : NotUnnamed up M) {m m' : ModuleMeta} (hm : m ∈ M) (hm' : m' ∈ M) {c : Txt} (h : m.nsConst up = some c)
    (h' : m'.nsConst up = some c) : m' = m := by
  obtain ⟨hn, h⟩ := nsConst_some h
  obtain ⟨hn', h'⟩ := nsConst_some h'
  rcases h with ⟨n, h1, h2⟩ | ⟨h1, h2⟩ <;> rcases h' with ⟨n', h3, h4⟩ | ⟨h3, h4⟩
  · exact apart m' hm' m hm hn' hn n' n h3 h1 (List.append_cancel_left (h4.symm.trans h2))
  · exact absurd (List.append_cancel_left (h2.symm.trans h4)) (plain m hm n h1 m'.id)
  · exact absurd (List.append_cancel_left (h4.symm.trans h2)) (plain m' hm' n' h3 m.id)
  · have e := toDigits_inj (List.append_cancel_left (List.append_cancel_left (h4.symm.trans h2)))
    have : ∀ {l : List ModuleMeta}, (l.map (·.id)).Nodup → m ∈ l → m' ∈ l → m' = m := by
      intro l
      induction l with
      | nil => intro _ h; cases h
      | cons a l ih =>
        intro nd h h'
        rw [List.map_cons, List.nodup_cons] at nd
        rcases List.mem_cons.1 h with rfl | k <;> rcases List.mem_cons.1 h' with rfl | k'
        · rfl
        · exact absurd (List.mem_map.2 ⟨m', k', e⟩) nd.1
        · exact absurd (List.mem_map.2 ⟨m, k, e.symm⟩) nd.1
        · exact ih nd.2 k k'
    exact this ids hm hm'

/-- Modules have different ids, so they are different. -/
theorem nodup_of_ids {M : List ModuleMeta} (ids : (M.map (·.id)).Nodup) : M.Nodup := by
  induction M with
  | nil => exact List.nodup_nil
  | cons a M ih =>
    rw [List.map_cons, List.nodup_cons] at ids
    exact List.nodup_cons.2 ⟨fun h => ids.1 (List.mem_map_of_mem h), ih ids.2⟩

/-- The constants that the code uses for a module are defined, with the namespace and the prefix of this module,
whatever the names. -/
theorem C82_constants_defined (up : Txt → Txt) (M : List ModuleMeta) {m : ModuleMeta} (hm : m ∈ M) :
    (∀ c, m.nsConst up = some c → ∃ ns, m.namespace_ = some ns ∧ (c, ns) ∈ nsConstants up M) ∧
    (∀ c, m.prefixConst up = some c → ∃ p, m.prefixOf = some p ∧ (c, p) ∈ prefixConstants up M) := by
  constructor
  · intro c h
    cases hn : m.namespace_ with
    | none => exact absurd hn (nsConst_some h).1
    | some ns => exact ⟨ns, rfl, mem_nsConstants.2 ⟨m, hm, hn, h⟩⟩
  · intro c h
    obtain ⟨_, n, h1, _⟩ := prefixConst_some h
    have : ∃ p, m.prefixOf = some p := by
      unfold ModuleMeta.nameOf at h1
      unfold ModuleMeta.prefixOf
      cases hp : m.prefix_ with
      | some p => exact ⟨p, rfl⟩
      | none =>
        rw [hp, Option.or_none] at h1
        exact ⟨n, by rw [h1]; rfl⟩
    obtain ⟨p, hp⟩ := this
    exact ⟨p, hp, mem_prefixConstants.2 ⟨m, hm, hp, h⟩⟩

/-- Each constant stands for the namespace or the prefix of its module if the constants tell the names apart. Missing
for the full property: names that are equal in upper case, or look like the constants of unnamed modules (see below). -/
theorem C82_constants_stand_for_partial (up : Txt → Txt) (M : List ModuleMeta) (ids : (M.map (·.id)).Nodup)
    (apart : ToldApart up M) {m : ModuleMeta} (hm : m ∈ M) :
    (NotUnnamed up M → ∀ c, m.nsConst up = some c → ∃ ns, m.namespace_ = some ns ∧ StandsFor (nsConstants up M) c ns) ∧
    (∀ c, m.prefixConst up = some c → ∃ p, m.prefixOf = some p ∧ StandsFor (prefixConstants up M) c p) := by
  have nd := nodup_of_ids ids
  constructor
  · intro plain c h
    obtain ⟨ns, hn, _⟩ := (C82_constants_defined up M hm).1 c h
    refine ⟨ns, hn, filter_filterMap nd hm (by simp only [hn, h]) ?_⟩
    intro m' hm' v' h'
    split at h'
    · rename_i h1 h2
      simp only [Option.some.injEq, Prod.mk.injEq] at h'
      exact nsConst_inj ids apart plain hm hm' h (h2.trans (by rw [h'.1]))
    · cases h'
  · intro c h
    obtain ⟨p, hp, _⟩ := (C82_constants_defined up M hm).2 c h
    refine ⟨p, hp, filter_filterMap nd hm (by simp only [hp, h]) ?_⟩
    intro m' hm' v' h'
    split at h'
    · rename_i h1 h2
      simp only [Option.some.injEq, Prod.mk.injEq] at h'
      rw [h'.1] at h2
      obtain ⟨hn, n, h3, h4⟩ := prefixConst_some h
      obtain ⟨hn', n', h5, h6⟩ := prefixConst_some h2
      exact apart m' hm' m hm hn' hn n' n h5 h3 (List.append_cancel_left (h6.symm.trans h4))
    · cases h'

/-- For the namespaces of the parser: the ids differ because they are keys of a map. If no namespace has a module name
of its own, and all are printable ASCII, a type tells the prefix and the namespace that its constants stand for. -/
theorem C82_trait_agrees (up : Txt → Txt) (infos : List (Nat × NsInfo)) {m : ModuleMeta} (hm : m ∈ prepareModules infos)
    (noNames : ∀ e ∈ infos, e.2.moduleName = none)
    (ascii : ∀ e ∈ infos, ∀ ns, e.2.namespace_ = some ns → ∀ c ∈ ns, Raw.Printable c) :
    (traitValues m).2 = m.namespace_ ∧
    (∀ c, m.prefixConst up = some c → (traitValues m).1 = m.prefixOf) ∧
    (m.prefixConst up = none → (traitValues m).1 = none) := by
  obtain ⟨⟨id, n⟩, he, rfl⟩ := List.mem_map.1 hm
  have := noNames _ he
  have asc := ascii _ he
  obtain ⟨pfx, ns, nm⟩ := n
  simp only at this asc
  subst this
  have asc : ∀ x, ns = some x → Raw.shown x = x := fun x hx => (Raw.C88_shown_exact_iff x).2 (asc x hx)
  cases pfx <;> cases ns <;>
    simp [asc, traitValues, ModuleMeta.prefixConst, ModuleMeta.nameOf, ModuleMeta.prefixOf, NsInfo.name]

/-- What the root element writes for a key (C61): the values of the constants that the code refers to. -/
theorem C82_root_declarations (up : Txt → Txt) (M : List ModuleMeta) (ids : (M.map (·.id)).Nodup)
    (apart : ToldApart up M) (plain : NotUnnamed up M) (C : Cfg)
    (hC : C.modules = M.map fun m => (m.id, (⟨m.prefixOf, m.namespace_⟩ : Module))) {m : ModuleMeta} (hm : m ∈ M)
    {p n : Txt} (hp : m.prefixConst up = some p) (hn : m.nsConst up = some n) :
    ∃ pv nv, StandsFor (prefixConstants up M) p pv ∧ StandsFor (nsConstants up M) n nv ∧
      rootDecls C [.normal m.id] = [(some pv, nv)] ∧ rootDecls C [.default_ m.id] = [(none, nv)] := by
  obtain ⟨nv, h1, h2⟩ := (C82_constants_stand_for_partial up M ids apart hm).1 plain n hn
  obtain ⟨pv, h3, h4⟩ := (C82_constants_stand_for_partial up M ids apart hm).2 p hp
  have keyed : Assoc.Keyed C.modules := by
    unfold Assoc.Keyed Assoc.keys
    rw [hC, List.map_map]
    exact ids
  have get : Assoc.get C.modules m.id = some ⟨some pv, some nv⟩ := by
    refine Assoc.get_of_mem keyed ?_
    rw [hC]
    exact List.mem_map.2 ⟨m, hm, by rw [h3, h1]⟩
  exact ⟨pv, nv, h4, h2, by simp [rootDecls, get], by simp [rootDecls, get]⟩

/-! ## Findings -/

/-- Finding: prefixes that differ only in what `to_screaming_snake_case` ignores, like `a` and `A`, give the same constant
twice, with different values. -/
theorem C82_prefixes_differing_in_case (up : Txt → Txt) (h : up ['a'] = up ['A']) (ns ns' : Txt) :
    ∃ c, (c, ns) ∈ nsConstants up (prepareModules [(1, ⟨some ['a'], some ns, none⟩), (2, ⟨some ['A'], some ns', none⟩)]) ∧
      (c, ns') ∈ nsConstants up (prepareModules [(1, ⟨some ['a'], some ns, none⟩), (2, ⟨some ['A'], some ns', none⟩)]) ∧
      ∀ v, ¬ StandsFor (nsConstants up (prepareModules [(1, ⟨some ['a'], some ns, none⟩),
        (2, ⟨some ['A'], some ns', none⟩)])) c v := by
  have e : nsConstants up (prepareModules [(1, ⟨some ['a'], some ns, none⟩), (2, ⟨some ['A'], some ns', none⟩)]) =
      [("NS_".toList ++ up ['a'], ns), ("NS_".toList ++ up ['A'], ns')] := rfl
  refine ⟨"NS_".toList ++ up ['a'], ?_, ?_, ?_⟩
  · rw [e]; exact List.mem_cons_self ..
  · rw [e, h]; exact List.mem_cons_of_mem _ (List.mem_cons_self ..)
  · intro v hv
    rw [StandsFor, e, h, List.filter_cons_of_pos (by simp), List.filter_cons_of_pos (by simp)] at hv
    simp at hv

/-- Finding: a prefix like `unnamed_3` gives the constant that the namespace with the id 3 has if it has no prefix. -/
theorem C82_prefix_like_unnamed (up : Txt → Txt) (p : Txt) (h : up p = "UNNAMED_3".toList) (ns ns' : Txt) :
    (ModuleMeta.nsConst up ⟨none, none, some ns, 3⟩) = (ModuleMeta.nsConst up ⟨some p, some p, some ns', 4⟩) := by
  have : "UNNAMED_3".toList = "UNNAMED_".toList ++ Nat.toDigits 10 3 := by decide +kernel
  simp [ModuleMeta.nsConst, ModuleMeta.nameOf, h, this]

/-- Finding: a namespace with a module name and no prefix. The constant that the serializer uses as its prefix is the
module name, while `WithNamespace::prefix` of its types is `None`. -/
theorem C82_module_name_as_prefix (up : Txt → Txt) (ns name : Txt) :
    ∃ m ∈ prepareModules [(1, ⟨none, some ns, some name⟩)],
      prefixConstants up (prepareModules [(1, ⟨none, some ns, some name⟩)]) = [("PREFIX_".toList ++ up name, name)] ∧
      (traitValues m).1 = none :=
  ⟨_, List.mem_cons_self .., rfl, rfl⟩

/-- **Finding.** A namespace with a character outside of ASCII: `WithNamespace::namespace` of its types returns another
text than the constant stands for. -/
theorem C82_trait_not_ascii (up : Txt → Txt) (pfx : Option Txt) (ns : Txt) (c : Char) (hc : c ∈ ns) (h : 128 ≤ c.toNat) :
    ∀ m ∈ prepareModules [(1, ⟨pfx, some ns, none⟩)],
      (nsConstants up [m]).map (·.2) = [ns] ∧ ∃ v, (traitValues m).2 = some v ∧ v ≠ ns := by
  intro m hm
  simp only [prepareModules, List.map_cons, List.map_nil, List.mem_cons, List.not_mem_nil, or_false] at hm
  subst hm
  refine ⟨rfl, Raw.shown ns, ?_, Raw.C88_non_ascii_never_shown ns c hc h⟩
  cases pfx <;> rfl

example : (traitValues ⟨none, none, some "urn:größe".toList, 1⟩).2 = some "urn:grÃ¶Ã\x9fe".toList := by decide +kernel

/-! ## Examples -/

/-- Upper case of ASCII letters, for the examples. -/
def upper (s : Txt) : Txt := s.map Char.toUpper

/-- Three namespaces: `tns`, `xs`, and one without prefix; the last module has no namespace. -/
def exInfos : List (Nat × NsInfo) :=
  [(0, ⟨some "xs".toList, some "urn:xs".toList, none⟩), (1, ⟨some "tns".toList, some "urn:t".toList, none⟩),
   (12, ⟨none, some "urn:u".toList, none⟩), (3, ⟨none, none, none⟩)]

example : (nsConstants upper (prepareModules exInfos)).map (·.1) =
    ["NS_XS".toList, "NS_TNS".toList, "NS_UNNAMED_12".toList] := by decide +kernel

theorem ex_apart : ToldApart upper (prepareModules exInfos) := by
  intro m hm m' hm' _ _ n n' h h' he
  have : ∀ m ∈ prepareModules exInfos, ∀ m' ∈ prepareModules exInfos, m.nameOf.isSome → m'.nameOf.isSome →
      m.nameOf.map upper = m'.nameOf.map upper → m = m' := by decide +kernel
  exact this m hm m' hm' (by rw [h]; rfl) (by rw [h']; rfl) (by rw [h, h', Option.map_some, Option.map_some, he])

theorem ex_plain : NotUnnamed upper (prepareModules exInfos) := by
  intro m hm n h k e
  have : ∀ m ∈ prepareModules exInfos, ((m.nameOf.map upper).getD []).head? ≠ some 'U' := by decide +kernel
  refine this m hm ?_
  rw [h, Option.map_some, Option.getD_some, e]
  rfl

/-- The hypotheses of the theorems hold for these namespaces. -/
example : ∃ m ∈ prepareModules exInfos, ∃ ns, m.nsConst upper = some "NS_TNS".toList ∧ m.namespace_ = some ns ∧
    StandsFor (nsConstants upper (prepareModules exInfos)) "NS_TNS".toList ns := by
  have hm : (⟨some "tns".toList, some "tns".toList, some "urn:t".toList, 1⟩ : ModuleMeta) ∈ prepareModules exInfos := by
    decide +kernel
  have hc : ModuleMeta.nsConst upper ⟨some "tns".toList, some "tns".toList, some "urn:t".toList, 1⟩ =
      some "NS_TNS".toList := by decide +kernel
  obtain ⟨ns, h1, h2⟩ := (C82_constants_stand_for_partial upper _ (by decide +kernel) ex_apart hm).1 ex_plain _ hc
  exact ⟨_, hm, ns, hc, h1, h2⟩

example : ∀ e ∈ exInfos, e.2.moduleName = none := by decide +kernel

/-- Their namespaces are printable. -/
example : ∀ e ∈ exInfos, ∀ ns, e.2.namespace_ = some ns → ∀ c ∈ ns, Raw.Printable c := by
  have : ∀ e ∈ exInfos, ∀ c ∈ e.2.namespace_.getD [], Raw.Printable c := by
    unfold Raw.Printable; decide +kernel
  intro e he ns h c hc
  exact this e he c (by rw [h]; exact hc)

end Verif.Ns

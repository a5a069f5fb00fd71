import Verif.Gen.Dispatch
import Verif.Gen.Modes
import Verif.Meta.Types

/-!
# The names of elements, from the schema to the tags (C67)

How an `xs:element` inside of a content model gets its name: `apply_element_ref`, `apply_group_ref` and the loops of
`apply_group` (xsd-parser/src/pipeline/interpreter/state/generate_types/variant_processor.rs, cited as vp.rs), `TagName`
(models/data/tag_name.rs), and the test of a tag in the generated code (renderer/steps/quick_xml/deserialize.rs
3100-3147).
-/

namespace Verif.ElName

open Verif.Rt Verif.Gen Verif.Gen.Tab
open Verif.Meta (Form)

/-! ## Model -/

/-- A schema document as far as names are concerned: target namespace and `elementFormDefault`. -/
structure Ctx where
  ns : Option Str
  form : Form
deriving DecidableEq, Repr

/-- `ElementType`, models/schema/xs_generated.rs, inside of a content model. The names in `ref_` and `type_` are
resolved already; `inline` is the type that is declared inside. Left out: bounds, `nillable`, annotations, and
`targetNamespace`, which the code does not read. -/
structure Decl where
  name : Option Str := none
  ref_ : Option (Option Str × Str) := none
  type_ : Option Nat := none
  inline : Nat := 0
  form : Option Form := none
deriving DecidableEq, Repr

/-- A particle: an element, a nested `xs:sequence`, `xs:choice` or `xs:all`, or a reference to a group. Wildcards have
no name. -/
inductive Part where
  | elem (d : Decl)
  | nest (ps : List Part)
  | group (g : Option Nat)

structure Group where
  ctx : Ctx
  parts : List Part

structure Schemas where
  groups : Nat → Option Group

inductive EType where
  | type_ (i : Nat)
  | inline (i : Nat)
  | global (r : Option Str × Str)
deriving DecidableEq, Repr

/-- `ElementMeta`, models/meta/element.rs, as far as names are concerned. -/
structure EMeta where
  ns : Option Str
  name : Str
  type_ : EType
  form : Form
deriving DecidableEq, Repr

inductive Err where
  | groupMissingRef
  | unknown
  | unnamed
  | overflow
deriving DecidableEq, Repr

/-- The elements of the group that is being interpreted, and those of the groups that are done: each nested group
becomes a type of its own (`complex_content_builder`, vp.rs 1443-1650, modelled in `Verif.Interp.Groups`). The cache of
group references is left out here: a group that is referred to twice gives the same elements twice. -/
structure St where
  cur : List EMeta := []
  done : List (List EMeta) := []
deriving DecidableEq, Repr

/-- The identifier and type an element is inserted with, vp.rs 756-812. An element without name gets a generated one in
the code; that is not valid in XML Schema and an error here. -/
def Decl.make (c : Ctx) (d : Decl) : Except Err EMeta :=
  match d.ref_, d.name with
  | some r, n => .ok ⟨r.1, n.getD r.2, .global r, d.form.getD c.form⟩
  | none, some n =>
    .ok ⟨c.ns, n, match d.type_ with
      | some t => .type_ t
      | none => .inline d.inline, d.form.getD c.form⟩
  | none, none => .error .unnamed

/-- `find_or_insert`, traits/vec_helper.rs:40-53: an element with the same namespace and name is kept as it is. -/
def insertNew (es : List EMeta) (m : EMeta) : List EMeta :=
  if es.any fun x => x.ns == m.ns && x.name == m.name then es else es ++ [m]

/-- `apply_element_ref`, vp.rs 753-828. -/
def applyElem (c : Ctx) (d : Decl) (st : St) : Except Err St :=
  match d.make c with
  | .error e => .error e
  | .ok m => .ok { st with cur := insertNew st.cur m }

/-- The end of a nested group: groups without elements are dropped (vp.rs 1518-1523). -/
def St.close (outer : List EMeta) (st : St) : St :=
  if st.cur.isEmpty then { st with cur := outer } else ⟨outer, st.done ++ [st.cur]⟩

mutual
/-- One particle: `rec` interprets the parts of a group. The schema is that of the type in all cases (`current_schema`,
type_processor.rs 316-332). -/
def applyPart (S : Schemas) (rec : List Part → St → Except Err St) (c : Ctx) : Part → St → Except Err St
  | .elem d, st => applyElem c d st
  | .nest ps, st =>
    match applyParts S rec c ps { st with cur := [] } with
    | .error e => .error e
    | .ok st' => .ok (st'.close st.cur)
  | .group none, _ => .error .groupMissingRef
  | .group (some g), st =>
    match S.groups g with
    | none => .error .unknown
    | some G => rec G.parts st
/-- `apply_group`, vp.rs 692-728, and the loop of `apply_group_ref`, vp.rs 930-941. -/
def applyParts (S : Schemas) (rec : List Part → St → Except Err St) (c : Ctx) : List Part → St → Except Err St
  | [], st => .ok st
  | p :: ps, st =>
    match applyPart S rec c p st with
    | .error e => .error e
    | .ok st => applyParts S rec c ps st
end

/-- The interpretation of the content of a type; `fuel` bounds the depth of group references. -/
def interp (S : Schemas) (c : Ctx) : Nat → List Part → St → Except Err St
  | 0, _, _ => .error .overflow
  | fuel + 1, ps, st => applyParts S (interp S c fuel) c ps st

/-- All elements of the generated types. -/
def St.all (st : St) : List EMeta := st.cur ++ st.done.flatten

/-- `TagName::new`, generator/data/complex.rs:602; `pfx` gives the prefixes of the modules. -/
def EMeta.spec (pfx : Option Str → Option Str) (m : EMeta) : NameSpec := ⟨m.name, m.form == .qualified, pfx m.ns, m.ns⟩

/-- The tag the element is written with, serialize.rs:1388-1391; `dflt` is the default namespace of the configuration. -/
def EMeta.tag (pfx : Option Str → Option Str) (dflt : Option Str) (m : EMeta) : Str := ((m.spec pfx).element dflt).text

/-- The test of a tag, deserialize.rs:3120-3146 and 3825. -/
def EMeta.reads (scope : Str → Option Str) (m : EMeta) (tag : Str) : Bool := (⟨[], m.name, m.ns⟩ : QN).test scope tag

/-! ## Specification -/

/-- A declaration occurs in a content model, at any depth and through groups; `c'` is the schema document it is written
in. -/
inductive Occurs (S : Schemas) : Ctx → List Part → Ctx → Decl → Prop
  | here {c ps d} : .elem d ∈ ps → Occurs S c ps c d
  | nest {c ps qs c' d} : .nest qs ∈ ps → Occurs S c qs c' d → Occurs S c ps c' d
  | group {c ps g G c' d} : .group (some g) ∈ ps → S.groups g = some G → Occurs S G.ctx G.parts c' d → Occurs S c ps c' d

/-- The name of the element in XML Schema (3.3.2.3): of a reference that of the global element; of a local element its
name, in the target namespace if it is qualified and in no namespace otherwise. -/
def Names (c : Ctx) (d : Decl) (ns : Option Str) (name : Str) : Prop :=
  match d.ref_ with
  | some r => ns = r.1 ∧ name = r.2
  | none => d.name = some name ∧ ns = if d.form.getD c.form = .qualified then c.ns else none

/-- The type of the element: of a reference that of the global element, which is looked up by its name. -/
def HasType (d : Decl) (t : EType) : Prop :=
  match d.ref_ with
  | some r => t = .global r
  | none => t = match d.type_ with
    | some t => .type_ t
    | none => .inline d.inline

/-- The target namespace of the schema that declares the element. -/
def Decl.home (c : Ctx) (d : Decl) : Option Str :=
  match d.ref_ with
  | some r => r.1
  | none => c.ns

/-! ## Lemmas -/

theorem mem_insertNew {es : List EMeta} {m x : EMeta} (h : x ∈ insertNew es m) : x ∈ es ∨ x = m := by
  unfold insertNew at h
  split at h
  · exact Or.inl h
  · simpa using h

theorem insertNew_mono {es : List EMeta} {m x : EMeta} (h : x ∈ es) : x ∈ insertNew es m := by
  unfold insertNew
  split
  · exact h
  · simp [h]

theorem insertNew_has (es : List EMeta) (m : EMeta) : ∃ x ∈ insertNew es m, x.ns = m.ns ∧ x.name = m.name := by
  unfold insertNew
  split
  · rename_i h
    obtain ⟨x, hx, hp⟩ := List.any_eq_true.mp h
    simp only [Bool.and_eq_true, beq_iff_eq] at hp
    exact ⟨x, hx, hp⟩
  · exact ⟨m, by simp, rfl, rfl⟩

theorem mem_close {outer : List EMeta} {st : St} {x : EMeta} :
    x ∈ (st.close outer).all ↔ x ∈ outer ∨ x ∈ st.all := by
  unfold St.close St.all
  split
  · rename_i h
    simp only [List.isEmpty_iff] at h
    simp [h]
  · simp only [List.mem_append, List.flatten_append, List.flatten_cons, List.flatten_nil, List.append_nil]
    constructor
    · rintro (h | h | h)
      · exact Or.inl h
      · exact Or.inr (Or.inr h)
      · exact Or.inr (Or.inl h)
    · rintro (h | h | h)
      · exact Or.inl h
      · exact Or.inr (Or.inr h)
      · exact Or.inr (Or.inl h)

/-- What holds of every step: elements are kept, and each new one belongs to a declaration. -/
structure Sound (c : Ctx) (R : Decl → Prop) (st st' : St) : Prop where
  keeps : ∀ x ∈ st.all, x ∈ st'.all
  keepsCur : ∀ x ∈ st.cur, x ∈ st'.cur
  from_ : ∀ x ∈ st'.all, x ∈ st.all ∨ ∃ d, R d ∧ d.make c = .ok x
  has : ∀ d, R d → ∃ m, d.make c = .ok m ∧ ∃ x ∈ st'.all, x.ns = m.ns ∧ x.name = m.name

/-- The declarations that occur in a content model, whatever their schema is. -/
def In (S : Schemas) (ps : List Part) (d : Decl) : Prop := ∀ c, ∃ c', Occurs S c ps c' d

theorem occurs_any {S : Schemas} {c c' : Ctx} {ps : List Part} {d : Decl} (h : Occurs S c ps c' d) : In S ps d := by
  induction h with
  | here hm => exact fun c => ⟨c, .here hm⟩
  | nest hm _ ih => exact fun c => (ih c).imp fun _ h => .nest hm h
  | @group c ps g G c' d hm hG _ ih => exact fun c => (ih G.ctx).imp fun _ h => .group hm hG h

theorem in_cons {S : Schemas} {p : Part} {ps : List Part} {d : Decl} :
    In S (p :: ps) d ↔ In S [p] d ∨ In S ps d := by
  constructor
  · intro h
    obtain ⟨c', hc⟩ := h ⟨none, .qualified⟩
    cases hc with
    | here hm =>
      rcases List.mem_cons.mp hm with rfl | hm
      · exact Or.inl (occurs_any (.here (c := ⟨none, .qualified⟩) List.mem_cons_self))
      · exact Or.inr (occurs_any (.here (c := ⟨none, .qualified⟩) hm))
    | nest hm ho =>
      rcases List.mem_cons.mp hm with rfl | hm
      · exact Or.inl (occurs_any (.nest List.mem_cons_self ho))
      · exact Or.inr (occurs_any (.nest hm ho))
    | group hm hG ho =>
      rcases List.mem_cons.mp hm with rfl | hm
      · exact Or.inl (occurs_any (.group (c := c') List.mem_cons_self hG ho))
      · exact Or.inr (occurs_any (.group (c := c') hm hG ho))
  · rintro (h | h)
    · obtain ⟨c', hc⟩ := h ⟨none, .qualified⟩
      cases hc with
      | here hm => exact occurs_any (.here (c := ⟨none, .qualified⟩) (by rw [List.mem_singleton.mp hm]; exact List.mem_cons_self))
      | nest hm ho => exact occurs_any (.nest (by rw [List.mem_singleton.mp hm]; exact List.mem_cons_self) ho)
      | group hm hG ho =>
        exact occurs_any (.group (c := c') (by rw [List.mem_singleton.mp hm]; exact List.mem_cons_self) hG ho)
    · obtain ⟨c', hc⟩ := h ⟨none, .qualified⟩
      cases hc with
      | here hm => exact occurs_any (.here (c := ⟨none, .qualified⟩) (List.mem_cons_of_mem _ hm))
      | nest hm ho => exact occurs_any (.nest (List.mem_cons_of_mem _ hm) ho)
      | group hm hG ho => exact occurs_any (.group (c := c') (List.mem_cons_of_mem _ hm) hG ho)

theorem in_elem {S : Schemas} {d d' : Decl} : In S [.elem d] d' ↔ d' = d := by
  constructor
  · intro h
    obtain ⟨c', hc⟩ := h ⟨none, .qualified⟩
    cases hc with
    | here hm => simpa using hm
    | nest hm _ => simp at hm
    | group hm _ _ => simp at hm
  · rintro rfl
    exact fun c => ⟨c, .here (by simp)⟩

theorem in_nest {S : Schemas} {qs : List Part} {d : Decl} : In S [.nest qs] d ↔ In S qs d := by
  constructor
  · intro h
    obtain ⟨c', hc⟩ := h ⟨none, .qualified⟩
    cases hc with
    | here hm => simp at hm
    | nest hm ho =>
      simp only [List.mem_singleton, Part.nest.injEq] at hm
      subst hm
      exact occurs_any ho
    | group hm _ _ => simp at hm
  · exact fun h c => (h c).imp fun _ h => .nest (by simp) h

theorem in_group {S : Schemas} {g : Nat} {G : Group} (hG : S.groups g = some G) {d : Decl} :
    In S [.group (some g)] d ↔ In S G.parts d := by
  constructor
  · intro h
    obtain ⟨c', hc⟩ := h ⟨none, .qualified⟩
    cases hc with
    | here hm => simp at hm
    | nest hm ho => simp at hm
    | group hm hG' ho =>
      simp only [List.mem_singleton, Part.group.injEq, Option.some.injEq] at hm
      subst hm
      rw [hG] at hG'
      cases hG'
      exact occurs_any ho
  · exact fun h c => (h G.ctx).imp fun _ h => .group (by simp) hG h

theorem Sound.trans {c : Ctx} {R Q : Decl → Prop} {s t u : St} (h : Sound c R s t) (g : Sound c Q t u) :
    Sound c (fun d => R d ∨ Q d) s u where
  keeps := fun x hx => g.keeps x (h.keeps x hx)
  keepsCur := fun x hx => g.keepsCur x (h.keepsCur x hx)
  from_ := by
    intro x hx
    rcases g.from_ x hx with hx | ⟨d, hd, hm⟩
    · rcases h.from_ x hx with hx | ⟨d, hd, hm⟩
      · exact Or.inl hx
      · exact Or.inr ⟨d, Or.inl hd, hm⟩
    · exact Or.inr ⟨d, Or.inr hd, hm⟩
  has := by
    rintro d (hd | hd)
    · obtain ⟨m, hm, x, hx, h1⟩ := h.has d hd
      exact ⟨m, hm, x, g.keeps x hx, h1⟩
    · exact g.has d hd

theorem Sound.congr {c : Ctx} {R Q : Decl → Prop} {s t : St} (h : Sound c R s t) (hQ : ∀ d, Q d ↔ R d) :
    Sound c Q s t where
  keeps := h.keeps
  keepsCur := h.keepsCur
  from_ := fun x hx => (h.from_ x hx).imp id fun ⟨d, hd, hm⟩ => ⟨d, (hQ d).mpr hd, hm⟩
  has := fun d hd => h.has d ((hQ d).mp hd)

theorem applyElem_sound {c : Ctx} {d : Decl} {st st' : St} (h : applyElem c d st = .ok st') :
    Sound c (fun d' => d' = d) st st' := by
  unfold applyElem at h
  cases hm : d.make c with
  | error e => rw [hm] at h; cases h
  | ok m =>
    rw [hm] at h
    simp only [Except.ok.injEq] at h
    subst h
    refine ⟨?_, fun x hx => insertNew_mono hx, ?_, ?_⟩
    · intro x hx
      simp only [St.all, List.mem_append] at hx ⊢
      exact hx.imp insertNew_mono id
    · intro x hx
      simp only [St.all, List.mem_append] at hx ⊢
      rcases hx with hx | hx
      · rcases mem_insertNew hx with hx | rfl
        · exact Or.inl (Or.inl hx)
        · exact Or.inr ⟨d, rfl, hm⟩
      · exact Or.inl (Or.inr hx)
    · rintro d' rfl
      obtain ⟨x, hx, h1⟩ := insertNew_has st.cur m
      exact ⟨m, hm, x, by simp [St.all, hx], h1⟩

mutual
theorem applyPart_sound {S : Schemas} {c : Ctx} {rec : List Part → St → Except Err St}
    (hrec : ∀ ps st st', rec ps st = .ok st' → Sound c (In S ps) st st') :
    ∀ (p : Part) (st st' : St), applyPart S rec c p st = .ok st' → Sound c (In S [p]) st st'
  | .elem d, st, st', h => by
    unfold applyPart at h
    exact (applyElem_sound h).congr fun d' => in_elem
  | .nest ps, st, st', h => by
    unfold applyPart at h
    cases hr : applyParts S rec c ps { st with cur := [] } with
    | error e => rw [hr] at h; cases h
    | ok s =>
      rw [hr] at h
      simp only [Except.ok.injEq] at h
      subst h
      have hs := (applyParts_sound hrec ps _ _ hr).congr fun d => in_nest (d := d)
      refine ⟨?_, ?_, ?_, ?_⟩
      · intro x hx
        rw [mem_close]
        simp only [St.all, List.mem_append] at hx
        rcases hx with hx | hx
        · exact Or.inl hx
        · exact Or.inr (hs.keeps x (by simp [St.all, hx]))
      · intro x hx
        unfold St.close
        split
        · exact hx
        · exact hx
      · intro x hx
        rw [mem_close] at hx
        rcases hx with hx | hx
        · exact Or.inl (by simp [St.all, hx])
        · rcases hs.from_ x hx with hx | hx
          · exact Or.inl (by simp only [St.all, List.nil_append] at hx; simp [St.all, hx])
          · exact Or.inr hx
      · intro d hd
        obtain ⟨m, hm, x, hx, h1⟩ := hs.has d hd
        exact ⟨m, hm, x, mem_close.mpr (Or.inr hx), h1⟩
  | .group none, st, st', h => by
    unfold applyPart at h
    cases h
  | .group (some g), st, st', h => by
    unfold applyPart at h
    cases hG : S.groups g with
    | none => rw [hG] at h; cases h
    | some G =>
      rw [hG] at h
      exact (hrec _ _ _ h).congr fun d => in_group hG
theorem applyParts_sound {S : Schemas} {c : Ctx} {rec : List Part → St → Except Err St}
    (hrec : ∀ ps st st', rec ps st = .ok st' → Sound c (In S ps) st st') :
    ∀ (ps : List Part) (st st' : St), applyParts S rec c ps st = .ok st' → Sound c (In S ps) st st'
  | [], st, st', h => by
    unfold applyParts at h
    cases h
    refine ⟨fun _ hx => hx, fun _ hx => hx, fun _ hx => Or.inl hx, ?_⟩
    intro d hd
    obtain ⟨c', hc⟩ := hd c
    cases hc with
    | here hm => cases hm
    | nest hm _ => cases hm
    | group hm _ _ => cases hm
  | p :: ps, st, st', h => by
    unfold applyParts at h
    cases hp : applyPart S rec c p st with
    | error e => rw [hp] at h; cases h
    | ok s =>
      rw [hp] at h
      exact ((applyPart_sound hrec p st s hp).trans (applyParts_sound hrec ps s st' h)).congr fun d => in_cons
end

theorem interp_sound {S : Schemas} {c : Ctx} : ∀ (fuel : Nat) (ps : List Part) (st st' : St),
    interp S c fuel ps st = .ok st' → Sound c (In S ps) st st'
  | 0, _, _, _, h => by unfold interp at h; cases h
  | fuel + 1, ps, st, st', h => by
    unfold interp at h
    exact applyParts_sound (interp_sound fuel) ps st st' h

/-- All documents that contribute to a content model are alike. -/
theorem occurs_ctx {S : Schemas} {c c' : Ctx} {ps : List Part} {d : Decl} (hS : ∀ g G, S.groups g = some G → G.ctx = c)
    (h : Occurs S c ps c' d) : c' = c := by
  generalize hc : c = c0 at h hS
  induction h with
  | here _ => exact hc ▸ rfl
  | nest _ _ ih => exact ih hc hS
  | @group c1 ps g G c' d _ hG _ ih => exact (ih ((hS g G hG).symm ▸ hc) (fun g' G' h' => by rw [hS g' G' h', hS g G hG])).trans (hS g G hG)

/-! ## Which elements there are -/

/-- **C67.** The generated types have no other elements than those of declarations of the content model. -/
theorem C67_from_declaration {S : Schemas} {c : Ctx} {fuel : Nat} {ps : List Part} {st : St}
    (h : interp S c fuel ps {} = .ok st) {x : EMeta} (hx : x ∈ st.all) :
    ∃ c' d, Occurs S c ps c' d ∧ HasType d x.type_ ∧ d.make c = .ok x := by
  rcases (interp_sound fuel ps _ _ h).from_ x hx with h0 | ⟨d, hd, hm⟩
  · simp [St.all] at h0
  · obtain ⟨c', ho⟩ := hd c
    refine ⟨c', d, ho, ?_, hm⟩
    unfold Decl.make at hm
    unfold HasType
    split at hm
    · rename_i r n hr
      cases hm
      rw [hr]
    · rename_i n hr hn
      cases hm
      rw [hr]
    · cases hm

/-- **C67.** Exactly which tags are read as an element: those with its local name, without prefix or with a prefix for
its namespace (or any prefix, if it has none). -/
theorem C67_read_iff (scope : Str → Option Str) (m : EMeta) (tag : Str) :
    m.reads scope tag = true ↔ (splitName tag).2 = m.name ∧
      ∀ p, (splitName tag).1 = some p → ∀ ns, m.ns = some ns → scope p = some ns := by
  unfold EMeta.reads QN.test
  cases hns : m.ns with
  | none => simp
  | some ns =>
    simp only [resolveLocalName, resolveAttr]
    cases hs : splitName tag with
    | mk p l =>
      cases p with
      | none => simp
      | some p =>
        simp only [Option.some.injEq, forall_eq']
        cases hp : scope p with
        | none => simp
        | some y =>
          by_cases hy : y = ns
          · simp [hy]
          · simp [hy]

/-- The conditions under which the code gives the right names: the documents are alike, references are only used where
local elements are qualified, and declarations with the same local name that belong to the same target namespace have the
same name and type. -/
structure Regular (S : Schemas) (c : Ctx) (ps : List Part) : Prop where
  ctx : ∀ g G, S.groups g = some G → G.ctx = c
  ref_ : ∀ c' d r, Occurs S c ps c' d → d.ref_ = some r → d.name = none ∧ d.form = none ∧ c.form = .qualified
  same : ∀ c' d c'' d' n ns ns', Occurs S c ps c' d → Occurs S c ps c'' d' → d.home c = d'.home c → Names c d ns n →
    Names c d' ns' n → ns = ns' ∧ ∀ t, HasType d t → HasType d' t

/-- The namespaces in scope agree with the prefixes of the generated code: the prefix of a qualified tag (or the default
namespace, if it is written without prefix) stands for its namespace, and there is no default namespace where unqualified
elements are written. -/
def EMeta.Scoped (pfx : Option Str → Option Str) (dflt : Option Str) (scope : Str → Option Str) (m : EMeta) : Prop :=
  if m.form = .qualified then scope ((m.spec pfx).element dflt).pfx = m.ns else scope [] = none

theorem make_names {c : Ctx} {d : Decl} {m : EMeta} (hm : d.make c = .ok m)
    (href : ∀ r, d.ref_ = some r → d.name = none ∧ d.form = none ∧ c.form = .qualified) :
    Names c d (if m.form = .qualified then m.ns else none) m.name ∧ HasType d m.type_ := by
  unfold Decl.make at hm
  unfold Names HasType
  split at hm
  · rename_i n r hr
    obtain ⟨h1, h2, h3⟩ := href r hr
    cases hm
    rw [hr]
    simp [h1, h2, h3]
  · rename_i n hr hn
    cases hm
    rw [hr]
    simp [hn]
  · cases hm

theorem make_home {c : Ctx} {d : Decl} {m : EMeta} (hm : d.make c = .ok m) : m.ns = d.home c := by
  unfold Decl.make at hm
  unfold Decl.home
  split at hm
  · rename_i n r hr
    cases hm
    rw [hr]
  · rename_i n hr hn
    cases hm
    rw [hr]
  · cases hm

theorem names_unique {c : Ctx} {d : Decl} {ns ns' : Option Str} {n n' : Str} (h : Names c d ns n) (h' : Names c d ns' n') :
    ns = ns' ∧ n = n' := by
  unfold Names at h h'
  split at h
  · rename_i r hr
    rw [hr] at h'
    exact ⟨h.1.trans h'.1.symm, h.2.trans h'.2.symm⟩
  · rename_i hr
    rw [hr] at h'
    obtain ⟨h1, h2⟩ := h
    obtain ⟨h1', h2'⟩ := h'
    rw [h1] at h1'
    cases h1'
    exact ⟨h2.trans h2'.symm, rfl⟩

/-- **C67.** Every declaration of the content model, at any depth and through groups, gives an element of its type. All
tags that stand for its name are read as this element, and the tag it is written with stands for its name. -/
theorem C67_names_partial {S : Schemas} {c : Ctx} {fuel : Nat} {ps : List Part} {st : St}
    (h : interp S c fuel ps {} = .ok st) (hR : Regular S c ps) {c' : Ctx} {d : Decl} (ho : Occurs S c ps c' d) :
    ∃ x ∈ st.all, ∃ ns name, Names c' d ns name ∧ HasType d x.type_ ∧
      (∀ scope tag, Denotes scope tag ns name → x.reads scope tag = true) ∧
      ∀ pfx dflt scope, x.Scoped pfx dflt scope → ':' ∉ name → (∀ ns' p, pfx ns' = some p → ':' ∉ p ∧ p ≠ [] ∧ ns'.isSome) →
        Denotes scope (x.tag pfx dflt) ns name := by
  obtain ⟨m, hm, x, hx, h1, h2⟩ := (interp_sound fuel ps _ _ h).has d (occurs_any ho)
  obtain ⟨c'', d', ho', _, hm'⟩ := C67_from_declaration h hx
  have hc := occurs_ctx hR.ctx ho
  subst hc
  obtain ⟨hn, ht⟩ := make_names hm (fun r hr => hR.ref_ _ d r ho hr)
  obtain ⟨hn', ht'⟩ := make_names hm' (fun r hr => hR.ref_ _ d' r ho' hr)
  rw [← h2] at hn
  obtain ⟨hns, hty⟩ := hR.same _ _ _ _ _ _ _ ho' ho (by rw [← make_home hm', ← make_home hm, h1]) hn' hn
  rw [← hns] at hn
  have ht := hty _ ht'
  refine ⟨x, hx, _, _, hn, ht, ?_, ?_⟩
  · intro scope tag hden
    rw [C67_read_iff]
    unfold Denotes at hden
    cases hs : splitName tag with
    | mk p l =>
      rw [hs] at hden
      cases p with
      | none => exact ⟨hden.2, by intro p hp; cases hp⟩
      | some p =>
        simp only at hden
        refine ⟨hden.2.2, ?_⟩
        intro p' hp' ns hns
        cases hp'
        by_cases hq : x.form = .qualified
        · rw [if_pos hq] at hden
          rw [hden.2.1, hns]
        · rw [if_neg hq] at hden
          exact absurd hden.1 (by simp)
  · intro pfx dflt scope hsc hcol hpfx
    unfold EMeta.Scoped at hsc
    unfold EMeta.tag QN.text joinName
    by_cases hq : x.form = .qualified
    · rw [if_pos hq] at hsc ⊢
      by_cases he : ((x.spec pfx).element dflt).pfx = []
      · rw [if_pos he]
        rw [he] at hsc
        unfold Denotes
        have hs : splitName ((x.spec pfx).element dflt).local_ = (none, x.name) := Tab.split_plain x.name hcol
        rw [hs]
        exact ⟨hsc, rfl⟩
      · rw [if_neg he]
        have hpx : ∃ p, pfx x.ns = some p ∧ ((x.spec pfx).element dflt).pfx = p := by
          unfold NameSpec.element at he ⊢
          simp only at he ⊢
          split at he
          · rename_i hcond
            cases hp : pfx x.ns with
            | none =>
              exact absurd (by show (pfx x.ns).getD [] = []; rw [hp]; rfl) he
            | some p =>
              refine ⟨p, rfl, ?_⟩
              rw [if_pos hcond]
              show (pfx x.ns).getD [] = p
              rw [hp]
              rfl
          · exact absurd rfl he
        obtain ⟨p, hp1, hp2⟩ := hpx
        obtain ⟨hp3, _, hp5⟩ := hpfx _ _ hp1
        rw [hp2] at hsc ⊢
        unfold Denotes
        have hs : splitName (p ++ ':' :: ((x.spec pfx).element dflt).local_) = (some p, x.name) :=
          Tab.split_prefixed p x.name hp3
        rw [hs]
        exact ⟨hp5, hsc, rfl⟩
    · rw [if_neg hq] at hsc ⊢
      have he : ((x.spec pfx).element dflt).pfx = [] := by
        unfold NameSpec.element EMeta.spec
        have : (x.form == Form.qualified) = false := by simpa using hq
        simp [this]
      rw [if_pos he]
      unfold Denotes
      have hs : splitName ((x.spec pfx).element dflt).local_ = (none, x.name) := Tab.split_plain x.name hcol
      rw [hs]
      exact ⟨hsc, rfl⟩

/-! ## Examples -/

namespace Ex

def ns : Str := "urn:a".toList
def other : Str := "urn:b".toList

def pfx (n : Option Str) : Option Str := if n = some ns then some "a".toList else if n = some other then some "b".toList else none

def scope (p : Str) : Option Str :=
  if p = "a".toList then some ns else if p = "b".toList then some other else none

def loc (n : String) (t : Nat) : Decl := { name := some n.toList, type_ := some t }
def ref (u : Str) (n : String) : Decl := { ref_ := some (some u, n.toList) }

/-- `<sequence><element name="x" type="t0"/><choice><element ref="b:y"/><group ref="g"/></choice></sequence>`, where `g`
has an element `z` that is unqualified. -/
def S : Schemas := ⟨fun g => if g = 0 then some ⟨⟨some ns, .qualified⟩,
  [.nest [.elem { loc "z" 1 with form := some .unqualified }]]⟩ else none⟩

def content : List Part := [.elem (loc "x" 0), .nest [.elem (ref other "y"), .group (some 0)]]

theorem content_occurs {c' : Ctx} {d : Decl} (h : Occurs S ⟨some ns, .qualified⟩ content c' d) :
    c' = ⟨some ns, .qualified⟩ ∧ (d = loc "x" 0 ∨ d = ref other "y" ∨ d = { loc "z" 1 with form := some .unqualified }) := by
  cases h with
  | here hm => simp [content] at hm; exact ⟨rfl, Or.inl hm⟩
  | nest hm h =>
    simp [content] at hm
    subst hm
    cases h with
    | here hm => simp at hm; exact ⟨rfl, Or.inr (Or.inl hm)⟩
    | nest hm _ => simp at hm
    | group hm hG h =>
      simp at hm
      subst hm
      simp [S] at hG
      subst hG
      cases h with
      | here hm => simp at hm
      | nest hm h =>
        simp at hm
        subst hm
        cases h with
        | here hm => simp at hm; exact ⟨rfl, Or.inr (Or.inr hm)⟩
        | nest hm _ => simp at hm
        | group hm _ _ => simp at hm
      | group hm _ _ => simp at hm
  | group hm _ _ => simp [content] at hm

theorem content_regular : Regular S ⟨some ns, .qualified⟩ content where
  ctx := by
    intro g G h
    simp only [S] at h
    split at h
    · cases h; rfl
    · cases h
  ref_ := by
    intro c' d r ho hr
    obtain ⟨_, rfl | rfl | rfl⟩ := content_occurs ho
    · cases hr
    · exact ⟨rfl, rfl, rfl⟩
    · cases hr
  same := by
    intro c' d c'' d' n n1 n2 ho ho' hh h1 h2
    obtain ⟨_, rfl | rfl | rfl⟩ := content_occurs ho <;> obtain ⟨_, rfl | rfl | rfl⟩ := content_occurs ho' <;>
      first
        | exact ⟨(names_unique h1 h2).1, fun _ h => h⟩
        | exact absurd hh (by decide)
        | exact absurd (h1.1.trans h2.1.symm) (by decide)

/-- The declarations of the example are read and written under their names. -/
example : ∃ st, interp S ⟨some ns, .qualified⟩ 2 content {} = .ok st ∧
    ∀ c' d, Occurs S ⟨some ns, .qualified⟩ content c' d → ∃ x ∈ st.all, ∃ ns name, Names c' d ns name ∧ HasType d x.type_ ∧
      (∀ scope tag, Denotes scope tag ns name → x.reads scope tag = true) ∧
      ∀ pfx dflt scope, x.Scoped pfx dflt scope → ':' ∉ name → (∀ ns' p, pfx ns' = some p → ':' ∉ p ∧ p ≠ [] ∧ ns'.isSome) →
        Denotes scope (x.tag pfx dflt) ns name :=
  ⟨_, rfl, fun _ _ ho => C67_names_partial (fuel := 2) rfl content_regular ho⟩

/-- The tags of the example, and the namespaces in scope agree with them. -/
example : ∃ st, interp S ⟨some ns, .qualified⟩ 2 content {} = .ok st ∧
    st.all.map (·.tag pfx none) = ["a:x".toList, "z".toList, "b:y".toList] ∧ ∀ x ∈ st.all, x.Scoped pfx none scope :=
  ⟨_, rfl, by decide, by unfold EMeta.Scoped; decide⟩

end Ex

/-! ## Findings -/

open Ex

/-- **C67** (negation, for every reference to an element of a namespace in a schema whose local elements are
unqualified, as is the default of XML Schema). The element is written without a prefix, so that its tag does not stand for
its name unless its namespace happens to be the default namespace. -/
theorem C67_reference_unqualified (c : Ctx) (r : Option Str × Str) (hc : c.form = .unqualified) (hcol : ':' ∉ r.2)
    {m : EMeta} (hm : ({ ref_ := some r } : Decl).make c = .ok m) (pfx : Option Str → Option Str) (dflt : Option Str)
    (scope : Str → Option Str) (hs : scope [] ≠ r.1) : ¬ Denotes scope (m.tag pfx dflt) r.1 r.2 := by
  unfold Decl.make at hm
  simp only [Except.ok.injEq] at hm
  subst hm
  have : (EMeta.tag pfx dflt ⟨r.1, r.2, .global r, c.form⟩) = r.2 := by
    simp [EMeta.tag, EMeta.spec, NameSpec.element, QN.text, joinName, hc]
  unfold Denotes
  simp only [Option.getD_none]
  rw [this, Tab.split_plain _ hcol]
  exact fun h => hs h.1

/-- The tag that stands for the global element, in the scope of the example, and the tag that is written. -/
example : ∃ m, (ref ns "x").make ⟨some ns, .unqualified⟩ = .ok m ∧ m.tag pfx none = "x".toList ∧ scope [] ≠ some ns ∧
    Denotes scope "a:x".toList (some ns) "x".toList := ⟨_, rfl, by decide, by decide, rfl, by decide, rfl⟩

/-- **C67** (negation, for every unqualified element). Below a declaration of a default namespace, which is what the root
of a schema with unqualified elements declares (`NameSpec.rootXmlns`), the tag of an unqualified element does not stand for
its name. -/
theorem C67_unqualified_in_default (m : EMeta) (hf : m.form = .unqualified) (hcol : ':' ∉ m.name)
    (pfx : Option Str → Option Str) (dflt : Option Str) (scope : Str → Option Str) (u : Str) (hs : scope [] = some u) :
    Denotes scope (m.tag pfx dflt) (some u) m.name ∧ ¬ Denotes scope (m.tag pfx dflt) none m.name := by
  have : m.tag pfx dflt = m.name := by
    simp [EMeta.tag, EMeta.spec, NameSpec.element, QN.text, joinName, hf]
  unfold Denotes
  rw [this, Tab.split_plain _ hcol]
  exact ⟨⟨hs, rfl⟩, fun h => by rw [hs] at h; cases h.1⟩

/-- The root of a schema with unqualified elements declares its namespace as the default namespace. -/
example : (⟨"root".toList, false, some "a".toList, some ns⟩ : NameSpec).rootXmlns "root".toList = [([], ns)] := by decide

/-- **C67** (negation). A type of the namespace `urn:a` refers to a group of the namespace `urn:b` with a qualified element
`z`: the tag of the element is not read, and it is written in the namespace of the type. -/
theorem C67_group_of_other_namespace : ∃ (S : Schemas) (ps : List Part) (st : St) (d : Decl) (m : EMeta),
    interp S ⟨some ns, .qualified⟩ 2 ps {} = .ok st ∧ Occurs S ⟨some ns, .qualified⟩ ps ⟨some other, .qualified⟩ d ∧
    Names ⟨some other, .qualified⟩ d (some other) "z".toList ∧ st.all = [m] ∧
    Denotes scope "b:z".toList (some other) "z".toList ∧ m.reads scope "b:z".toList = false ∧
    m.tag pfx none = "a:z".toList :=
  ⟨⟨fun _ => some ⟨⟨some other, .qualified⟩, [.nest [.elem (loc "z" 0)]]⟩⟩, [.group (some 0)], _, loc "z" 0, _, rfl,
    .group (g := 0) List.mem_cons_self rfl (.nest List.mem_cons_self (.here List.mem_cons_self)), ⟨rfl, rfl⟩, rfl,
    ⟨rfl, by decide, rfl⟩, by decide, by decide⟩

/-- **C67** (negation). The schema of the group has unqualified elements, that of the type has not: the element is
written with a prefix. -/
theorem C67_group_of_other_form : ∃ (S : Schemas) (ps : List Part) (st : St) (d : Decl) (m : EMeta),
    interp S ⟨some ns, .qualified⟩ 2 ps {} = .ok st ∧ Occurs S ⟨some ns, .qualified⟩ ps ⟨some ns, .unqualified⟩ d ∧
    Names ⟨some ns, .unqualified⟩ d none "z".toList ∧ st.all = [m] ∧ m.tag pfx none = "a:z".toList :=
  ⟨⟨fun _ => some ⟨⟨some ns, .unqualified⟩, [.nest [.elem (loc "z" 0)]]⟩⟩, [.group (some 0)], _, loc "z" 0, _, rfl,
    .group (g := 0) List.mem_cons_self rfl (.nest List.mem_cons_self (.here List.mem_cons_self)), ⟨rfl, rfl⟩, rfl,
    by decide⟩

/-- **C67** (negation). A local element `x` without a namespace and a reference to the global element `x` of the same
schema are different elements of different types; they become one element with the type of the first one. -/
theorem C67_local_and_global_merged : ∃ (ps : List Part) (st : St) (d d' : Decl) (m : EMeta),
    interp S ⟨some ns, .unqualified⟩ 1 ps {} = .ok st ∧ ps = [.elem d, .elem d'] ∧
    Names ⟨some ns, .unqualified⟩ d none "x".toList ∧ Names ⟨some ns, .unqualified⟩ d' (some ns) "x".toList ∧
    HasType d (.type_ 0) ∧ HasType d' (.global (some ns, "x".toList)) ∧ st.all = [m] ∧ m.type_ = .type_ 0 :=
  ⟨_, _, loc "x" 0, ref ns "x", _, rfl, rfl, ⟨rfl, rfl⟩, ⟨rfl, rfl⟩, rfl, rfl, rfl, rfl⟩

/-- **C67** (negation). Tags are read that do not stand for the name of the element: a qualified element without its
namespace, and an unqualified element in the namespace of the schema. -/
theorem C67_lenient : ∃ m m' : EMeta, (loc "x" 0).make ⟨some ns, .qualified⟩ = .ok m ∧
    (loc "x" 0).make ⟨some ns, .unqualified⟩ = .ok m' ∧
    ¬ Denotes scope "x".toList (some ns) "x".toList ∧ m.reads scope "x".toList = true ∧
    ¬ Denotes scope "a:x".toList none "x".toList ∧ m'.reads scope "a:x".toList = true := by
  refine ⟨_, _, rfl, rfl, ?_, by decide, ?_, by decide⟩
  · rintro ⟨h, _⟩
    exact absurd h (by decide)
  · rintro ⟨h, _⟩
    exact absurd h (by decide)

end Verif.ElName

import Verif.Opt.Dynamic

/-!
# Substitution groups and derived types (C64)

Models how the interpreter turns global elements and complex types into entries of the table of types:
`apply_element`, `walk_substitution_groups`, `prepare_substitution_group` and the end of `apply_complex_type`
(`xsd-parser/src/pipeline/interpreter/state/generate_types/variant_processor.rs`, "vp.rs"), `create_type` and
`add_type` (`type_processor.rs`, "tp.rs") and `fix_derived_types.rs`.
-/

namespace Verif.Subst

open Verif.Meta Verif.Opt

/-! ## Model -/

/-- A global `xs:element` (`ElementType`) with its references resolved: the type (`type`, the inline type, or
`xs:anyType`: vp.rs:209-251), `nillable`, `substitutionGroup`, `abstract`. `blocks` is `block="substitution"`, which the
code does not use. -/
structure ElemDecl where
  type_ : Ident
  nillable : Bool := false
  heads : Option (List Ident) := none
  isAbstract : Bool := false
  blocks : Bool := false
deriving DecidableEq, Repr

/-- An `xs:complexType`: the `ComplexMeta` made from its content (vp.rs:321-374, with the base type), `abstract`, and if
it is one of the types that the user marked as dynamic (`is_dynamic`, tp.rs:254-256). -/
structure TypeDecl where
  complex : Complex
  isAbstract : Bool := false
  configured : Bool := false
deriving DecidableEq, Repr

/-- The global elements and the complex types of all schemas, and `elementFormDefault` of each schema. -/
structure Schemas where
  elems : Ident → Option ElemDecl
  types : Ident → Option TypeDecl
  form : Nat → Form

/-- `Error::ExpectedDynamicElement`, `Error::TypeAlreadyDefined`, the panics of `get_type_mut` (tp.rs:191-199) and
`get_node_entry` (tp.rs:336-342), and recursion that does not end. -/
inductive Err where
  | expectedDynamicElement (i : Ident)
  | typeAlreadyDefined (i : Ident)
  | panic
  | overflow
deriving DecidableEq, Repr

/-- `ident.type_ = IdentType::NillableContent`, vp.rs:263-264. -/
def nil (e : Ident) : Ident := { e with kind := .nillableContent }

/-- `ident.type_ = IdentType::SubstitutionElement`, vp.rs:274-275. -/
def sub (e : Ident) : Ident := { e with kind := .substitutionElement }

/-- `ident.type_ = IdentType::DynamicVariant`, vp.rs:389. -/
def dyn (t : Ident) : Ident := { t with kind := .dynamicVariant }

/-- `VariantProcessor::finish` and `finish_mut`, vp.rs:166-188, without documentation. -/
def finish (S : Schemas) (i : Ident) (v : Variant) : MetaType :=
  { MetaType.new v with form := some (S.form i.schema), schema := some i.schema }

/-- `add_type`, tp.rs:205-229, without overwriting. -/
def addType (T : Types) (i : Ident) (ty : MetaType) : Except Err Types :=
  match Assoc.get T i with
  | some _ => .error (.typeAlreadyDefined i)
  | none => .ok (T ++ [(i, ty)])

/-- `DerivedTypeMeta::new_concrete`, models/meta/dynamic.rs. -/
def concrete (i : Ident) : Derived := ⟨i, none, .concrete⟩

/-- `DerivedTypeMeta::new_child`, models/meta/dynamic.rs. -/
def child (i : Ident) (direct : Bool) : Derived := ⟨i, none, if direct then .directChild else .indirectChild⟩

/-- `prepare_substitution_group`, vp.rs:1728-1774. -/
def prepare (cur h : Ident) (direct : Bool) (T : Types) : Except Err Types :=
  match look T h with
  | none => .error .panic
  | some (.reference r) =>
    if r.isSimple then
      .ok (setVariant T h
        (.dynamic ⟨some r.type_, false, orInsert [(h, concrete r.type_)] (cur, child cur direct)⟩))
    else
      addType (setVariant T h
        (.dynamic ⟨some (sub h), false, orInsert [(h, concrete (sub h))] (cur, child cur direct)⟩))
        (sub h) (.new (.reference r))
  | some (.dynamic d) =>
    .ok (setVariant T h (.dynamic { d with derived := orInsert d.derived (cur, child cur direct) }))
  | some _ => .error (.expectedDynamicElement h)

/-- The loop of `walk_substitution_groups`, vp.rs:1351-1364; `rec` is the recursion. -/
def walkList (S : Schemas) (cur : Ident) (rec : List Ident → Types → Except Err Types) (direct : Bool) :
    List Ident → Types → Except Err Types
  | [], T => .ok T
  | h :: hs, T =>
    match prepare cur h direct T with
    | .error e => .error e
    | .ok T1 =>
      match S.elems h with
      | none => .error .panic
      | some d =>
        match d.heads with
        | none => walkList S cur rec direct hs T1
        | some gs =>
          match rec gs T1 with
          | .error e => .error e
          | .ok T2 => walkList S cur rec direct hs T2

/-- `walk_substitution_groups`, vp.rs:1338-1371. `direct` is `depth == 0`. -/
def walk (S : Schemas) (cur : Ident) : Nat → Bool → List Ident → Types → Except Err Types
  | 0, _, _, _ => .error .overflow
  | fuel + 1, direct, hs, T => walkList S cur (fun gs => walk S cur fuel false gs) direct hs T

/-- The steps of `apply_element` for `nillable`, vp.rs:262-271. -/
def applyNillable (S : Schemas) (e : Ident) (d : ElemDecl) (T : Types) : Except Err (Types × Reference) :=
  if d.nillable then
    match addType T (nil e) (finish S e (.reference (.new d.type_))) with
    | .error x => .error x
    | .ok T => .ok (T, { Reference.new (nil e) with nillable := true })
  else .ok (T, .new d.type_)

/-- The steps of `apply_element` for `substitutionGroup`, vp.rs:273-283. -/
def applyHeads (S : Schemas) (fuel : Nat) (e : Ident) (d : ElemDecl) (T : Types) (r : Reference) :
    Except Err (Types × Reference) :=
  match d.heads with
  | none => .ok (T, r)
  | some hs =>
    match addType T (sub e) (finish S e (.reference r)) with
    | .error x => .error x
    | .ok T =>
      match walk S e fuel true hs T with
      | .error x => .error x
      | .ok T => .ok (T, .new (sub e))

/-- `process_node` of an element (tp.rs:73-75, with `create_type`, tp.rs:152-178) and `apply_element`, vp.rs:202-303.
An inline type is handled before: it is a complex type (or another type) of its own, see `Run`. -/
def processElement (S : Schemas) (fuel : Nat) (e : Ident) (d : ElemDecl) (T : Types) : Except Err Types :=
  match look T e with
  | some _ => .ok T
  | none =>
    match applyNillable S e d T with
    | .error x => .error x
    | .ok (T, r) =>
      match applyHeads S fuel e d T r with
      | .error x => .error x
      | .ok (T, r) =>
        addType T e (finish S e (if d.isAbstract then .dynamic ⟨some r.type_, true, []⟩ else .reference r))

/-- The loop over the base types, vp.rs:406-427. `id` is the identifier of the type with the content. -/
def regBase (cur id : Ident) : Nat → Bool → Option Ident → Types → Except Err Types
  | _, _, none, T => .ok T
  | 0, _, some _, _ => .error .overflow
  | fuel + 1, direct, some b, T =>
    match look T b with
    | none => .error .panic
    | some (.dynamic d) =>
      regBase cur id fuel false d.type_
        (setVariant T b (.dynamic { d with derived := orInsert d.derived (cur, child id direct) }))
    | some (.complex c) => regBase cur id fuel false c.base.ident T
    | some _ => .ok T

def TypeDecl.isDyn (d : TypeDecl) : Bool := d.isAbstract || d.configured

/-- The identifier of the type with the content, vp.rs:385-402. -/
def bodyOf (t : Ident) (d : TypeDecl) : Ident := if d.isDyn then dyn t else t

/-- The first part of the end of `apply_complex_type`, vp.rs:388-404. -/
def applyDynamic (S : Schemas) (t : Ident) (d : TypeDecl) (T : Types) : Except Err (Types × Variant) :=
  if d.isDyn then
    match addType T (dyn t) (finish S t (.complex d.complex)) with
    | .error x => .error x
    | .ok T =>
      .ok (T, .dynamic ⟨some (dyn t), d.isAbstract, if d.isAbstract then [] else [(t, concrete (dyn t))]⟩)
  else .ok (T, .complex d.complex)

/-- `process_node` of a complex type, tp.rs:82-84, after its content is processed. -/
def processType (S : Schemas) (fuel : Nat) (t : Ident) (d : TypeDecl) (T : Types) : Except Err Types :=
  match look T t with
  | some _ => .ok T
  | none =>
    match applyDynamic S t d T with
    | .error x => .error x
    | .ok (T, v) =>
      match regBase t (bodyOf t d) fuel true d.complex.base.ident T with
      | .error x => .error x
      | .ok T => addType T t (finish S t v)

/-- The loop of `fix_derived_types` for one derived type, fix_derived_types.rs:28-44. -/
def fixEntry (T : Types) (key : Ident) : Nat → Derived → Option Derived
  | 0, _ => none
  | fuel + 1, der =>
    match getResolved T der.type_ with
    | none => some der
    | some (i, ty) =>
      if key.kind ≠ i.kind then some { der with type_ := i }
      else
        match ty.variant with
        | .dynamic d =>
          match d.type_ with
          | none => some der
          | some b => fixEntry T key fuel { der with type_ := b }
        | _ => some der

/-- `fix_derived_types` for one type, fix_derived_types.rs:18-47. The type itself is replaced by a placeholder in the
table while its derived types are resolved. -/
def fixOne (fuel : Nat) (T : Types) (i : Ident) : Option Types :=
  match look T i with
  | some (.dynamic d) =>
    match d.derived.mapM (fun p => (fixEntry (setVariant T i (.buildIn .string)) p.1 fuel p.2).map (p.1, ·)) with
    | none => none
    | some l => some (setVariant T i (.dynamic { d with derived := l }))
  | _ => some T

/-- `fix_derived_types`, fix_derived_types.rs:17-49. -/
def fixAll (fuel : Nat) (T : Types) : Option Types := (Assoc.keys T).foldlM (fixOne fuel) T

/-! ## Specification -/

/-- `h` is one of the elements in the `substitutionGroup` of `m`. -/
def Direct (S : Schemas) (m h : Ident) : Prop :=
  ∃ d hs, S.elems m = some d ∧ d.heads = some hs ∧ h ∈ hs

/-- `m` is in the substitution group of `h`: `h` is one of its heads, or a head of one of its heads, and so on. -/
inductive Substitutes (S : Schemas) : Ident → Ident → Prop
  | direct {m h} : Direct S m h → Substitutes S m h
  | indirect {m k h} : Direct S m k → Substitutes S k h → Substitutes S m h

/-- `b` is the base type of the complex type `t`. -/
def BaseOf (S : Schemas) (t b : Ident) : Prop := ∃ d, S.types t = some d ∧ d.complex.base.ident = some b

/-- `t` is derived from `b` by extensions and restrictions. -/
inductive Derives (S : Schemas) : Ident → Ident → Prop
  | direct {t b} : BaseOf S t b → Derives S t b
  | indirect {t k b} : BaseOf S t k → Derives S k b → Derives S t b

/-- The entries of the table that belong to the global elements and the complex types. -/
def Family (S : Schemas) (i : Ident) : Prop :=
  (∃ e d, S.elems e = some d ∧ (i = e ∨ i = nil e ∨ i = sub e)) ∨ ∃ t d, S.types t = some d ∧ (i = t ∨ (d.isDyn = true ∧ i = dyn t))

/-- Neither a dynamic nor a complex type, nor a reference to an element. -/
def Neutral : Option Variant → Prop
  | some (.dynamic _) => False
  | some (.complex _) => False
  | some (.reference r) => r.type_.kind ≠ .element ∧ r.type_.kind ≠ .substitutionElement
  | _ => True

/-- The tables during the interpretation, with the components that are processed already. Elements and complex types
are processed once, in any order in which it succeeds (C31: one after the other, what they need before them). All the
rest of the interpreter (simple types, attributes, groups, contents) adds or changes other entries. -/
inductive Run (S : Schemas) : List Ident → Types → Prop
  | start {T} : Assoc.Keyed T → (∀ i, Family S i → look T i = none) → (∀ i, Neutral (look T i)) → Run S [] T
  | element {done T T' fuel e d} : Run S done T → S.elems e = some d → e ∉ done →
      processElement S fuel e d T = .ok T' → Run S (done ++ [e]) T'
  | type_ {done T T' fuel t d} : Run S done T → S.types t = some d → t ∉ done →
      processType S fuel t d T = .ok T' → Run S (done ++ [t]) T'
  | other {done T T'} : Run S done T → Assoc.Keyed T' → (∀ i, Family S i → look T' i = look T i) →
      (∀ i, ¬ Family S i → Neutral (look T' i)) → Run S done T'

/-- The identifiers are of the right kind, and inline types are neither abstract nor marked as dynamic. -/
structure Schemas.Proper (S : Schemas) : Prop where
  elem : ∀ e d, S.elems e = some d → e.kind = .element
  content : ∀ e d, S.elems e = some d → d.type_.kind ≠ .element ∧ d.type_.kind ≠ .substitutionElement
  type_ : ∀ t d, S.types t = some d → t.kind = .type_ ∨ t.kind = .elementType
  base : ∀ t b, BaseOf S t b → b.kind = .type_
  inline : ∀ t d, S.types t = some d → t.kind = .elementType → d.isDyn = false

/-- Where the element `h` is expected, the generated code reads an element `m`, as a value of the type `i`: either `h` is
a plain element, or it is dynamic and `m` is the name of one of the derived types. -/
inductive Reads (T : Types) : Ident → Ident → Ident → Prop
  | plain {h r i} : look T h = some (.reference r) → getResolvedIdent T h = some i → Reads T h h i
  | derived {h dm m der} : look T h = some (.dynamic dm) → (m, der) ∈ dm.derived → Reads T h m der.type_

/-- `i` is the type of the content of the element `e`: its declared type, or a nillable type with that content. -/
def ContentOf (S : Schemas) (T : Types) (e i : Ident) : Prop :=
  ∃ d, S.elems e = some d ∧
    if d.nillable then
      ∃ n, look T i = some (.reference ⟨n, true, 1, .bounded 1⟩) ∧ Synonym T n d.type_
    else getResolvedIdent T d.type_ = some i

/-! ## Tables -/

theorem look_none {T : Types} {i : Ident} : look T i = none ↔ Assoc.get T i = none := by
  simp [look]

theorem get_append (T : Types) (i : Ident) (ty : MetaType) (h : Assoc.get T i = none) (k : Ident) :
    Assoc.get (T ++ [(i, ty)]) k = if k = i then some ty else Assoc.get T k := by
  induction T with
  | nil =>
    simp only [List.nil_append, Assoc.get]
    by_cases hk : i = k
    · simp [hk]
    · rw [if_neg hk, if_neg (fun h => hk h.symm)]
  | cons p T ih =>
    obtain ⟨a, v⟩ := p
    simp only [List.cons_append, Assoc.get] at h ⊢
    by_cases ha : a = i
    · simp [ha] at h
    · rw [if_neg ha] at h
      by_cases hk : a = k
      · subst hk; simp [ha]
      · rw [if_neg hk, if_neg hk, ih h]

theorem addType_ok {T T' : Types} {i : Ident} {ty : MetaType} (h : addType T i ty = .ok T') :
    look T i = none ∧ (∀ k, look T' k = if k = i then some ty.variant else look T k) ∧
      (Assoc.Keyed T → Assoc.Keyed T') := by
  unfold addType at h
  cases hg : Assoc.get T i with
  | some _ => rw [hg] at h; cases h
  | none =>
    rw [hg] at h
    cases h
    refine ⟨look_none.2 hg, fun k => ?_, fun hk => ?_⟩
    · simp only [look, get_append T i ty hg]
      split <;> rfl
    · unfold Assoc.Keyed Assoc.keys at hk ⊢
      rw [List.map_append, List.nodup_append]
      refine ⟨hk, by simp, ?_⟩
      intro a ha b hb
      simp only [List.map_cons, List.map_nil, List.mem_singleton] at hb
      subst hb
      intro he
      subst he
      exact (Assoc.get_eq_none T a).1 hg ha

theorem addType_total {T : Types} {i : Ident} (ty : MetaType) (h : look T i = none) :
    ∃ T', addType T i ty = .ok T' := by
  unfold addType
  rw [look_none.1 h]
  exact ⟨_, rfl⟩

theorem keyed_setVariant {T : Types} (h : Assoc.Keyed T) (i : Ident) (v : Variant) :
    Assoc.Keyed (setVariant T i v) := by
  unfold Assoc.Keyed at h ⊢
  rw [keys_setVariant]
  exact h

theorem look_set {T : Types} {i : Ident} {w : Variant} (h : look T i = some w) (v : Variant) (k : Ident) :
    look (setVariant T i v) k = if k = i then some v else look T k := by
  rw [look_setVariant, h]
  rfl

theorem orInsert_ne_nil (l : List (Ident × Derived)) (p : Ident × Derived) : orInsert l p ≠ [] := by
  unfold orInsert
  split
  · rename_i h
    intro e
    rw [e] at h
    cases h
  · simp

theorem orInsert_cons {a : Ident × Derived} {l : List (Ident × Derived)} {p : Ident × Derived} (h : a.1 ≠ p.1) :
    orInsert (a :: l) p = a :: orInsert l p := by
  unfold orInsert
  simp only [Assoc.get, if_neg h]
  split <;> rfl

theorem keys_orInsert (l : List (Ident × Derived)) (p : Ident × Derived) (k : Ident) :
    k ∈ Assoc.keys (orInsert l p) ↔ k ∈ Assoc.keys l ∨ k = p.1 := by
  unfold orInsert
  split
  · rename_i h
    rw [Assoc.get_isSome] at h
    constructor
    · exact Or.inl
    · rintro (h' | rfl)
      · exact h'
      · exact h
  · simp [Assoc.keys]

theorem keyed_orInsert {l : List (Ident × Derived)} (h : Assoc.Keyed l) (p : Ident × Derived) :
    Assoc.Keyed (orInsert l p) := by
  unfold orInsert
  split
  · exact h
  · rename_i hg
    unfold Assoc.Keyed Assoc.keys at h ⊢
    rw [List.map_append, List.nodup_append]
    refine ⟨h, by simp, ?_⟩
    intro a ha b hb
    simp only [List.map_cons, List.map_nil, List.mem_singleton] at hb
    subst hb
    intro he
    subst he
    exact hg ((Assoc.get_isSome l _).2 ha)

theorem mem_orInsert' {l : List (Ident × Derived)} {p q : Ident × Derived} (h : q ∈ orInsert l p) : q ∈ l ∨ q = p :=
  mem_orInsert l p q h

/-! ## Identifiers -/

theorem sub_inj {e e' : Ident} (h : e.kind = .element) (h' : e'.kind = .element) (hs : sub e = sub e') : e = e' := by
  obtain ⟨a, b, c, k⟩ := e
  obtain ⟨a', b', c', k'⟩ := e'
  simp only [sub, Ident.mk.injEq] at hs h h'
  obtain ⟨rfl, rfl, rfl, -⟩ := hs
  subst h; subst h'; rfl

theorem nil_inj {e e' : Ident} (h : e.kind = .element) (h' : e'.kind = .element) (hs : nil e = nil e') : e = e' := by
  obtain ⟨a, b, c, k⟩ := e
  obtain ⟨a', b', c', k'⟩ := e'
  simp only [nil, Ident.mk.injEq] at hs h h'
  obtain ⟨rfl, rfl, rfl, -⟩ := hs
  subst h; subst h'; rfl

theorem ne_of_kind {i j : Ident} (h : i.kind ≠ j.kind) : i ≠ j := fun e => h (e ▸ rfl)

@[simp] theorem sub_kind (e : Ident) : (sub e).kind = .substitutionElement := rfl
@[simp] theorem nil_kind (e : Ident) : (nil e).kind = .nillableContent := rfl
@[simp] theorem dyn_kind (e : Ident) : (dyn e).kind = .dynamicVariant := rfl

/-! ## The entries of an element -/

/-- The type of the content of an element, as a reference. -/
def content0 (e : Ident) (d : ElemDecl) : Reference :=
  if d.nillable then ⟨nil e, true, 1, .bounded 1⟩ else .new d.type_

/-- The entry of an element that is not abstract and has no members. -/
def var0 (e : Ident) (d : ElemDecl) : Reference := if d.heads.isSome then .new (sub e) else content0 e d

/-- The type of the entry of a dynamic element. -/
def tgt (e : Ident) (d : ElemDecl) : Ident := if d.heads.isSome || d.nillable then sub e else d.type_

/-- The entries of the table for an element with the members `ms`. -/
structure Entry (T : Types) (e : Ident) (d : ElemDecl) (ms : List (Ident × Derived)) : Prop where
  nil_ : d.nillable = true → look T (nil e) = some (.reference (.new d.type_))
  nil_none : d.nillable = false → look T (nil e) = none
  sub_ : d.heads.isSome = true → look T (sub e) = some (.reference (content0 e d))
  sub_none : d.heads = none → d.nillable = false ∨ ms = [] ∨ d.isAbstract = true → look T (sub e) = none
  abstract_ : d.isAbstract = true → look T e = some (.dynamic ⟨some (var0 e d).type_, true, ms⟩)
  plain : d.isAbstract = false → ms = [] → look T e = some (.reference (var0 e d))
  dynamic : d.isAbstract = false → ms ≠ [] →
    look T e = some (.dynamic ⟨some (tgt e d), false, (e, concrete (tgt e d)) :: ms⟩) ∧
    (d.nillable = true → look T (sub e) = some (.reference (content0 e d)))

theorem Entry.congr {T T' : Types} {e : Ident} {d : ElemDecl} {ms : List (Ident × Derived)} (h : Entry T e d ms)
    (h1 : look T' e = look T e) (h2 : look T' (nil e) = look T (nil e)) (h3 : look T' (sub e) = look T (sub e)) :
    Entry T' e d ms :=
  ⟨fun a => by rw [h2]; exact h.nil_ a, fun a => by rw [h2]; exact h.nil_none a, fun a => by rw [h3]; exact h.sub_ a,
    fun a b => by rw [h3]; exact h.sub_none a b, fun a => by rw [h1]; exact h.abstract_ a,
    fun a b => by rw [h1]; exact h.plain a b, fun a b => by rw [h1, h3]; exact h.dynamic a b⟩

theorem Entry.defined {T : Types} {e : Ident} {d : ElemDecl} {ms : List (Ident × Derived)} (h : Entry T e d ms) :
    ∃ v, look T e = some v := by
  cases ha : d.isAbstract with
  | true => exact ⟨_, h.abstract_ ha⟩
  | false =>
    cases ms with
    | nil => exact ⟨_, h.plain ha rfl⟩
    | cons _ _ => exact ⟨_, (h.dynamic ha (by simp)).1⟩

theorem var0_simple (e : Ident) (d : ElemDecl) :
    (var0 e d).isSimple = (d.heads.isSome || !d.nillable) := by
  unfold var0 content0
  cases d.heads <;> cases d.nillable <;> rfl

theorem prepare_entry {T T' : Types} {cur h : Ident} {d : ElemDecl} {ms : List (Ident × Derived)} {direct : Bool}
    (he : Entry T h d ms) (hk : h.kind = .element) (hc : cur ≠ h) (hp : prepare cur h direct T = .ok T') :
    Entry T' h d (orInsert ms (cur, child cur direct)) ∧ (∀ i, i ≠ h → i ≠ sub h → look T' i = look T i) ∧
      (Assoc.Keyed T → Assoc.Keyed T') := by
  have hsub : sub h ≠ h := ne_of_kind (by simp [hk])
  have hnil : nil h ≠ h := ne_of_kind (by simp [hk])
  have hnsub : nil h ≠ sub h := ne_of_kind (by simp)
  unfold prepare at hp
  cases ha : d.isAbstract with
  | true =>
    have hl := he.abstract_ ha
    rw [hl] at hp
    simp only [Except.ok.injEq] at hp
    subst hp
    have hs := look_set hl (.dynamic ⟨some (var0 h d).type_, true, orInsert ms (cur, child cur direct)⟩)
    refine ⟨⟨?_, ?_, ?_, ?_, ?_, ?_, ?_⟩, ?_, fun h => keyed_setVariant h _ _⟩
    · intro a; rw [hs, if_neg hnil]; exact he.nil_ a
    · intro a; rw [hs, if_neg hnil]; exact he.nil_none a
    · intro a; rw [hs, if_neg hsub]; exact he.sub_ a
    · intro a _; rw [hs, if_neg hsub]; exact he.sub_none a (.inr (.inr ha))
    · intro _; rw [hs, if_pos rfl]
    · intro a; rw [ha] at a; cases a
    · intro a; rw [ha] at a; cases a
    · intro i h1 _; rw [hs, if_neg h1]
  | false =>
    by_cases hm : ms = []
    · subst hm
      have hl := he.plain ha rfl
      rw [hl] at hp
      simp only at hp
      have ho : ∀ i, orInsert [(h, concrete i)] (cur, child cur direct) =
          (h, concrete i) :: orInsert [] (cur, child cur direct) := fun i => orInsert_cons (fun e => hc e.symm)
      by_cases hsim : (var0 h d).isSimple
      · rw [if_pos hsim] at hp
        simp only [Except.ok.injEq] at hp
        subst hp
        have hs := look_set hl (.dynamic ⟨some (var0 h d).type_, false,
          orInsert [(h, concrete (var0 h d).type_)] (cur, child cur direct)⟩)
        rw [var0_simple] at hsim
        have ht : (var0 h d).type_ = tgt h d := by
          unfold var0 tgt content0
          cases hh : d.heads with
          | some _ => rfl
          | none => rw [hh] at hsim; cases hn : d.nillable with
            | true => rw [hn] at hsim; cases hsim
            | false => rfl
        rw [ht] at hs
        rw [ht]
        refine ⟨⟨?_, ?_, ?_, ?_, ?_, ?_, ?_⟩, ?_, fun h => keyed_setVariant h _ _⟩
        · intro a; rw [hs, if_neg hnil]; exact he.nil_ a
        · intro a; rw [hs, if_neg hnil]; exact he.nil_none a
        · intro a; rw [hs, if_neg hsub]; exact he.sub_ a
        · intro a _; rw [hs, if_neg hsub]; exact he.sub_none a (.inr (.inl rfl))
        · intro a; rw [ha] at a; cases a
        · intro _ e; exact absurd e (orInsert_ne_nil _ _)
        · intro _ _
          refine ⟨by rw [hs, if_pos rfl, ho], fun hn => ?_⟩
          rw [hs, if_neg hsub]
          apply he.sub_
          cases hh : d.heads with
          | some _ => rfl
          | none => rw [hh, hn] at hsim; cases hsim
        · intro i h1 _; rw [hs, if_neg h1]
      · rw [if_neg hsim] at hp
        obtain ⟨-, hs', hky⟩ := addType_ok hp
        have hs := look_set hl (.dynamic ⟨some (sub h), false,
          orInsert [(h, concrete (sub h))] (cur, child cur direct)⟩)
        rw [var0_simple] at hsim
        have hh : d.heads = none := by cases hh : d.heads with
          | some _ => rw [hh] at hsim; exact absurd rfl hsim
          | none => rfl
        have hn : d.nillable = true := by cases hn : d.nillable with
          | true => rfl
          | false => rw [hn] at hsim; simp at hsim
        have ht : tgt h d = sub h := by unfold tgt; rw [hn, Bool.or_true, if_pos rfl]
        have hv : var0 h d = content0 h d := by unfold var0; rw [hh]; rfl
        rw [hv] at hs'
        refine ⟨⟨?_, ?_, ?_, ?_, ?_, ?_, ?_⟩, ?_, fun h => hky (keyed_setVariant h _ _)⟩
        · intro a; rw [hs', if_neg hnsub, hs, if_neg hnil]; exact he.nil_ a
        · intro a; rw [hn] at a; cases a
        · intro _; rw [hs', if_pos rfl]; rfl
        · rintro _ (a | a | a)
          · rw [hn] at a; cases a
          · exact absurd a (orInsert_ne_nil _ _)
          · rw [ha] at a; cases a
        · intro a; rw [ha] at a; cases a
        · intro _ e; exact absurd e (orInsert_ne_nil _ _)
        · intro _ _
          refine ⟨by rw [hs', if_neg hsub.symm, hs, if_pos rfl, ho, ht], fun _ => ?_⟩
          rw [hs', if_pos rfl]; rfl
        · intro i h1 h2; rw [hs', if_neg h2, hs, if_neg h1]
    · obtain ⟨hl, hsf⟩ := he.dynamic ha hm
      rw [hl] at hp
      simp only [Except.ok.injEq] at hp
      subst hp
      have hs := look_set hl (.dynamic ⟨some (tgt h d), false,
        orInsert ((h, concrete (tgt h d)) :: ms) (cur, child cur direct)⟩)
      rw [orInsert_cons (fun e => hc e.symm)] at hs
      rw [orInsert_cons (fun e => hc e.symm)]
      refine ⟨⟨?_, ?_, ?_, ?_, ?_, ?_, ?_⟩, ?_, fun h => keyed_setVariant h _ _⟩
      · intro a; rw [hs, if_neg hnil]; exact he.nil_ a
      · intro a; rw [hs, if_neg hnil]; exact he.nil_none a
      · intro a; rw [hs, if_neg hsub]; exact he.sub_ a
      · rintro a (b | b | b)
        · rw [hs, if_neg hsub]; exact he.sub_none a (.inl b)
        · exact absurd b (orInsert_ne_nil _ _)
        · rw [ha] at b; cases b
      · intro a; rw [ha] at a; cases a
      · intro _ e; exact absurd e (orInsert_ne_nil _ _)
      · intro _ _
        exact ⟨by rw [hs, if_pos rfl], fun hn => by rw [hs, if_neg hsub]; exact hsf hn⟩
      · intro i h1 _; rw [hs, if_neg h1]

theorem prepare_total {T : Types} {cur h : Ident} {d : ElemDecl} {ms : List (Ident × Derived)} (direct : Bool)
    (he : Entry T h d ms) (hk : h.kind = .element) : ∃ T', prepare cur h direct T = .ok T' := by
  have hsub : sub h ≠ h := ne_of_kind (by simp [hk])
  unfold prepare
  cases ha : d.isAbstract with
  | true => rw [he.abstract_ ha]; exact ⟨_, rfl⟩
  | false =>
    by_cases hm : ms = []
    · have hl := he.plain ha hm
      rw [hl]
      simp only
      split
      · exact ⟨_, rfl⟩
      · rename_i hsim
        apply addType_total
        rw [look_set hl, if_neg hsub]
        refine he.sub_none ?_ (.inr (.inl hm))
        rw [var0_simple] at hsim
        cases hh : d.heads with
        | some _ => rw [hh] at hsim; exact absurd rfl hsim
        | none => rfl
    · rw [(he.dynamic ha hm).1]; exact ⟨_, rfl⟩

/-! ## Walking up the substitution groups -/

/-- The derived types `ms` of the element `e` are those that satisfy `P`. -/
structure Mem (S : Schemas) (P : Ident → Prop) (e : Ident) (ms : List (Ident × Derived)) : Prop where
  keyed : Assoc.Keyed ms
  keys : ∀ k, k ∈ Assoc.keys ms ↔ P k
  entry : ∀ p ∈ ms, p.2.type_ = p.1 ∧ p.2.displayName = none ∧ p.2.relationship ≠ .concrete ∧
    (p.2.relationship = .directChild → Direct S p.1 e)

/-- The elements processed so far have their entries; the members of `e` are those in `P e`. -/
def Elems (S : Schemas) (done : List Ident) (P : Ident → Ident → Prop) (T : Types) : Prop :=
  ∀ e d, S.elems e = some d → e ∈ done → ∃ ms, Entry T e d ms ∧ Mem S (P e) e ms

/-- Elements that are not processed yet have no entry. -/
def Fresh (S : Schemas) (done : List Ident) (T : Types) : Prop :=
  ∀ e d, S.elems e = some d → e ∉ done → look T e = none

/-- Only entries of processed elements change. -/
def Frame (S : Schemas) (done : List Ident) (T T' : Types) : Prop :=
  ∀ i, (∀ e d, S.elems e = some d → e ∈ done → i ≠ e ∧ i ≠ sub e) → look T' i = look T i

theorem Frame.trans {S : Schemas} {done : List Ident} {T T' T'' : Types} (h : Frame S done T T')
    (h' : Frame S done T' T'') : Frame S done T T'' := fun i hi => (h' i hi).trans (h i hi)

theorem Fresh.frame {S : Schemas} (hw : S.Proper) {done : List Ident} {T T' : Types} (h : Fresh S done T)
    (hf : Frame S done T T') : Fresh S done T' := by
  intro e d he hn
  rw [hf e ?_]
  · exact h e d he hn
  · intro e' d' he' hd
    refine ⟨fun h => hn (h ▸ hd), ne_of_kind ?_⟩
    rw [hw.elem e d he]
    simp

/-- One of the elements, or one of those above them. -/
def Reach (S : Schemas) (hs : List Ident) (e : Ident) : Prop := ∃ h ∈ hs, e = h ∨ Substitutes S h e

theorem Mem.congr {S : Schemas} {P P' : Ident → Prop} {e : Ident} {ms : List (Ident × Derived)} (h : Mem S P e ms)
    (hp : ∀ k, P k ↔ P' k) : Mem S P' e ms := ⟨h.keyed, fun k => (h.keys k).trans (hp k), h.entry⟩

theorem Elems.congr {S : Schemas} {done : List Ident} {P P' : Ident → Ident → Prop} {T : Types} (h : Elems S done P T)
    (hp : ∀ e ∈ done, ∀ k, P e k ↔ P' e k) : Elems S done P' T := by
  intro e d he hd
  obtain ⟨ms, h1, h2⟩ := h e d he hd
  exact ⟨ms, h1, h2.congr (hp e hd)⟩

theorem prepare_elems {S : Schemas} (hw : S.Proper) {done : List Ident} {P : Ident → Ident → Prop} {T T' : Types}
    {cur h : Ident} {d : ElemDecl} {direct : Bool} (hc : cur ∉ done) (hd : S.elems h = some d) (hdone : h ∈ done)
    (hdir : direct = true → Direct S cur h) (he : Elems S done P T) (hp : prepare cur h direct T = .ok T') :
    Elems S done (fun e k => P e k ∨ (k = cur ∧ e = h)) T' ∧ Frame S done T T' ∧
      (Assoc.Keyed T → Assoc.Keyed T') := by
  obtain ⟨ms, h1, h2⟩ := he h d hd hdone
  have hk := hw.elem h d hd
  have hch : cur ≠ h := fun e => hc (e ▸ hdone)
  obtain ⟨e1, e2, e3⟩ := prepare_entry h1 hk hch hp
  refine ⟨?_, fun i hi => e2 i (hi h d hd hdone).1 (hi h d hd hdone).2, e3⟩
  intro e d' he' hd'
  by_cases heh : e = h
  · subst heh
    rw [hd] at he'
    cases he'
    refine ⟨_, e1, keyed_orInsert h2.keyed _, fun k => ?_, fun p hp => ?_⟩
    · rw [keys_orInsert, h2.keys]
      simp
    · rcases mem_orInsert' hp with hp | rfl
      · exact h2.entry p hp
      · refine ⟨rfl, rfl, ?_, ?_⟩
        · simp only [child]; split <;> simp
        · intro hr
          apply hdir
          simp only [child] at hr
          cases direct with
          | true => rfl
          | false => cases hr
  · obtain ⟨ms', a1, a2⟩ := he e d' he' hd'
    have hke := hw.elem e d' he'
    refine ⟨ms', a1.congr ?_ ?_ ?_, a2.congr fun k => by simp [heh]⟩
    · exact e2 e heh (ne_of_kind (by simp [hke]))
    · exact e2 _ (ne_of_kind (by simp [hk])) (ne_of_kind (by simp))
    · exact e2 _ (ne_of_kind (by simp [hk])) (fun e => heh (sub_inj hke hk e))

theorem direct_iff {S : Schemas} {m h : Ident} {d : ElemDecl} (hd : S.elems m = some d) :
    Direct S m h ↔ ∃ hs, d.heads = some hs ∧ h ∈ hs := by
  constructor
  · rintro ⟨d', hs, h1, h2, h3⟩
    rw [hd] at h1; cases h1
    exact ⟨hs, h2, h3⟩
  · rintro ⟨hs, h2, h3⟩
    exact ⟨d, hs, hd, h2, h3⟩

/-- The members of the group of `h` are below the heads of `m`. -/
theorem substitutes_iff {S : Schemas} {m h : Ident} {d : ElemDecl} (hd : S.elems m = some d) :
    Substitutes S m h ↔ ∃ hs, d.heads = some hs ∧ Reach S hs h := by
  constructor
  · intro hsu
    cases hsu with
    | direct hx =>
      obtain ⟨hs, h1, h2⟩ := (direct_iff hd).1 hx
      exact ⟨hs, h1, h, h2, .inl rfl⟩
    | @indirect _ k _ hx hy =>
      obtain ⟨hs, h1, h2⟩ := (direct_iff hd).1 hx
      exact ⟨hs, h1, k, h2, .inr hy⟩
  · rintro ⟨hs, h1, k, h2, rfl | h3⟩
    · exact .direct ((direct_iff hd).2 ⟨hs, h1, h2⟩)
    · exact .indirect ((direct_iff hd).2 ⟨hs, h1, h2⟩) h3

theorem reach_nil {S : Schemas} {e : Ident} : ¬ Reach S [] e := by rintro ⟨_, h, _⟩; cases h

theorem reach_cons {S : Schemas} {h : Ident} {hs : List Ident} {e : Ident} :
    Reach S (h :: hs) e ↔ e = h ∨ Substitutes S h e ∨ Reach S hs e := by
  constructor
  · rintro ⟨k, hk, hr⟩
    rcases List.mem_cons.1 hk with rfl | hk
    · rcases hr with hr | hr
      · exact .inl hr
      · exact .inr (.inl hr)
    · exact .inr (.inr ⟨k, hk, hr⟩)
  · rintro (hr | hr | ⟨k, hk, hr⟩)
    · exact ⟨h, List.mem_cons_self, .inl hr⟩
    · exact ⟨h, List.mem_cons_self, .inr hr⟩
    · exact ⟨k, List.mem_cons_of_mem _ hk, hr⟩

/-- What walking up does. -/
def WalkOk (S : Schemas) (done : List Ident) (cur : Ident) (direct : Bool) (hs : List Ident) (T T' : Types) : Prop :=
  ∀ P, Elems S done P T → Fresh S done T → (direct = true → ∀ h ∈ hs, Direct S cur h) →
    Elems S done (fun e k => P e k ∨ (k = cur ∧ Reach S hs e)) T' ∧ Frame S done T T' ∧
    (Assoc.Keyed T → Assoc.Keyed T') ∧ ∀ h ∈ hs, h ∈ done

theorem walkList_ok {S : Schemas} (hw : S.Proper) {done : List Ident} {cur : Ident} (hc : cur ∉ done)
    {rec : List Ident → Types → Except Err Types}
    (hrec : ∀ gs T T', rec gs T = .ok T' → WalkOk S done cur false gs T T') (direct : Bool) :
    ∀ (hs : List Ident) (T T' : Types), walkList S cur rec direct hs T = .ok T' →
      WalkOk S done cur direct hs T T' := by
  intro hs
  induction hs with
  | nil =>
    intro T T' h P he hf _
    simp only [walkList, Except.ok.injEq] at h
    subst h
    exact ⟨he.congr fun e _ k => by simp [reach_nil], fun _ _ => rfl, id, by simp⟩
  | cons h hs ih =>
    intro T T' hr P he hf hdir
    simp only [walkList] at hr
    cases hp : prepare cur h direct T with
    | error x => rw [hp] at hr; cases hr
    | ok T1 =>
      rw [hp] at hr
      simp only at hr
      cases hd : S.elems h with
      | none => rw [hd] at hr; cases hr
      | some d =>
        rw [hd] at hr
        simp only at hr
        have hdone : h ∈ done := by
          refine Classical.byContradiction fun hn => ?_
          have := hf h d hd hn
          unfold prepare at hp
          rw [this] at hp
          cases hp
        obtain ⟨p1, p2, p3⟩ := prepare_elems hw hc hd hdone (fun e => hdir e h (by simp)) he hp
        have hf1 := hf.frame hw p2
        cases hh : d.heads with
        | none =>
          rw [hh] at hr
          obtain ⟨q1, q2, q3, q4⟩ := ih T1 T' hr _ p1 hf1 (fun e x hx => hdir e x (by simp [hx]))
          refine ⟨q1.congr fun e _ k => ?_, p2.trans q2, fun x => q3 (p3 x), ?_⟩
          · rw [reach_cons]
            have : ¬ Substitutes S h e := by
              rw [substitutes_iff hd, hh]
              rintro ⟨_, h, _⟩
              cases h
            constructor
            · rintro ((a | ⟨a, b⟩) | ⟨a, b⟩)
              · exact .inl a
              · exact .inr ⟨a, .inl b⟩
              · exact .inr ⟨a, .inr (.inr b)⟩
            · rintro (a | ⟨a, b | b | b⟩)
              · exact .inl (.inl a)
              · exact .inl (.inr ⟨a, b⟩)
              · exact absurd b this
              · exact .inr ⟨a, b⟩
          · intro x hx
            rcases List.mem_cons.1 hx with rfl | hx
            · exact hdone
            · exact q4 x hx
        | some gs =>
          rw [hh] at hr
          simp only at hr
          cases hg : rec gs T1 with
          | error x => rw [hg] at hr; cases hr
          | ok T2 =>
            rw [hg] at hr
            obtain ⟨g1, g2, g3, -⟩ := hrec gs T1 T2 hg _ p1 hf1 (fun e => by cases e)
            have hf2 := hf1.frame hw g2
            obtain ⟨q1, q2, q3, q4⟩ := ih T2 T' hr _ g1 hf2 (fun e x hx => hdir e x (by simp [hx]))
            refine ⟨q1.congr fun e _ k => ?_, (p2.trans g2).trans q2, fun x => q3 (g3 (p3 x)), ?_⟩
            · rw [reach_cons]
              have : Substitutes S h e ↔ Reach S gs e := by
                rw [substitutes_iff hd, hh]
                constructor
                · rintro ⟨_, e, h⟩; cases e; exact h
                · exact fun h => ⟨gs, rfl, h⟩
              rw [this]
              constructor
              · rintro (((a | ⟨a, b⟩) | ⟨a, b⟩) | ⟨a, b⟩)
                · exact .inl a
                · exact .inr ⟨a, .inl b⟩
                · exact .inr ⟨a, .inr (.inl b)⟩
                · exact .inr ⟨a, .inr (.inr b)⟩
              · rintro (a | ⟨a, b | b | b⟩)
                · exact .inl (.inl (.inl a))
                · exact .inl (.inl (.inr ⟨a, b⟩))
                · exact .inl (.inr ⟨a, b⟩)
                · exact .inr ⟨a, b⟩
            · intro x hx
              rcases List.mem_cons.1 hx with rfl | hx
              · exact hdone
              · exact q4 x hx

theorem walk_ok {S : Schemas} (hw : S.Proper) {done : List Ident} {cur : Ident} (hc : cur ∉ done) (fuel : Nat) :
    ∀ (direct : Bool) (hs : List Ident) (T T' : Types), walk S cur fuel direct hs T = .ok T' →
      WalkOk S done cur direct hs T T' := by
  induction fuel with
  | zero => intro direct hs T T' h; cases h
  | succ fuel ih =>
    intro direct hs T T' h
    exact walkList_ok hw hc (fun gs T T' h => ih false gs T T' h) direct hs T T' h

/-! ## The entries of a complex type -/

/-- The entries of the table for a complex type with the derived types `ms`. -/
structure TEntry (T : Types) (t : Ident) (d : TypeDecl) (ms : List (Ident × Derived)) : Prop where
  dynamic : d.isDyn = true → look T (dyn t) = some (.complex d.complex) ∧
    look T t = some (.dynamic ⟨some (dyn t), d.isAbstract, (if d.isAbstract then [] else [(t, concrete (dyn t))]) ++ ms⟩)
  plain : d.isDyn = false → look T t = some (.complex d.complex)

theorem TEntry.congr {T T' : Types} {t : Ident} {d : TypeDecl} {ms : List (Ident × Derived)} (h : TEntry T t d ms)
    (h1 : look T' t = look T t) (h2 : d.isDyn = true → look T' (dyn t) = look T (dyn t)) : TEntry T' t d ms :=
  ⟨fun a => by rw [h1, h2 a]; exact h.dynamic a, fun a => by rw [h1]; exact h.plain a⟩

/-- The derived types `ms` of a complex type are those that satisfy `P`. -/
structure TMem (S : Schemas) (P : Ident → Prop) (t : Ident) (ms : List (Ident × Derived)) : Prop where
  keyed : Assoc.Keyed ms
  keys : ∀ k, k ∈ Assoc.keys ms ↔ P k
  entry : ∀ p ∈ ms, (∃ d, S.types p.1 = some d ∧ p.2.type_ = bodyOf p.1 d) ∧ p.2.displayName = none ∧
    (p.2.relationship = .directChild ↔ BaseOf S p.1 t) ∧ p.2.relationship ≠ .concrete

def TElems (S : Schemas) (done : List Ident) (P : Ident → Ident → Prop) (T : Types) : Prop :=
  ∀ t d, S.types t = some d → t ∈ done → ∃ ms, TEntry T t d ms ∧ (d.isDyn = true → TMem S (P t) t ms)

def TFresh (S : Schemas) (done : List Ident) (T : Types) : Prop :=
  ∀ t d, S.types t = some d → t ∉ done → look T t = none

def TFrame (S : Schemas) (done : List Ident) (T T' : Types) : Prop :=
  ∀ i, (∀ t d, S.types t = some d → t ∈ done → i ≠ t) → look T' i = look T i

theorem TFrame.trans {S : Schemas} {done : List Ident} {T T' T'' : Types} (h : TFrame S done T T')
    (h' : TFrame S done T' T'') : TFrame S done T T'' := fun i hi => (h' i hi).trans (h i hi)

theorem TFresh.frame {S : Schemas} {done : List Ident} {T T' : Types} (h : TFresh S done T)
    (hf : TFrame S done T T') : TFresh S done T' := by
  intro t d ht hn
  rw [hf t ?_]
  · exact h t d ht hn
  · intro t' d' ht' hd h
    exact hn (h ▸ hd)

theorem TMem.congr {S : Schemas} {P P' : Ident → Prop} {t : Ident} {ms : List (Ident × Derived)} (h : TMem S P t ms)
    (hp : ∀ k, P k ↔ P' k) : TMem S P' t ms := ⟨h.keyed, fun k => (h.keys k).trans (hp k), h.entry⟩

theorem TElems.congr {S : Schemas} {done : List Ident} {P P' : Ident → Ident → Prop} {T : Types}
    (h : TElems S done P T) (hp : ∀ t ∈ done, ∀ k, P t k ↔ P' t k) : TElems S done P' T := by
  intro t d ht hd
  obtain ⟨ms, h1, h2⟩ := h t d ht hd
  exact ⟨ms, h1, fun h => (h2 h).congr (hp t hd)⟩

/-- The base type or one of those above it, among the complex types. -/
def Above (S : Schemas) (b : Option Ident) (x : Ident) : Prop := ∃ b', b = some b' ∧ (x = b' ∨ Derives S b' x)

theorem derives_iff {S : Schemas} {t x : Ident} {d : TypeDecl} (hd : S.types t = some d) :
    Derives S t x ↔ Above S d.complex.base.ident x := by
  constructor
  · intro h
    cases h with
    | direct h => obtain ⟨d', h1, h2⟩ := h; rw [hd] at h1; cases h1; exact ⟨x, h2, .inl rfl⟩
    | @indirect _ k _ h h' =>
      obtain ⟨d', h1, h2⟩ := h
      rw [hd] at h1; cases h1
      exact ⟨k, h2, .inr h'⟩
  · rintro ⟨b, hb, rfl | h⟩
    · exact .direct ⟨d, hd, hb⟩
    · exact .indirect ⟨d, hd, hb⟩ h

theorem not_family_of_base {S : Schemas} (hw : S.Proper) {b : Ident} (hk : b.kind = .type_) (hn : S.types b = none) :
    ¬ Family S b := by
  rintro (⟨e, d, he, h⟩ | ⟨t, d, ht, h⟩)
  · have := hw.elem e d he
    rcases h with rfl | rfl | rfl
    · rw [this] at hk; cases hk
    · simp at hk
    · simp at hk
  · rcases h with rfl | h
    · rw [hn] at ht; cases ht
    · obtain ⟨_, rfl⟩ := h
      simp at hk

/-- What registering at the base types does. -/
theorem regBase_ok {S : Schemas} (hw : S.Proper) {done : List Ident} {cur : Ident} {dc : TypeDecl} (hc : cur ∉ done)
    (hcd : S.types cur = some dc) (fuel : Nat) :
    ∀ (direct : Bool) (b : Option Ident) (T T' : Types) (P : Ident → Ident → Prop),
      regBase cur (bodyOf cur dc) fuel direct b T = .ok T' →
      TElems S done P T → TFresh S done T → (∀ i, ¬ Family S i → Neutral (look T i)) →
      (∀ b', b = some b' → b'.kind = .type_) →
      (if direct then b = dc.complex.base.ident else ∀ x ∈ done, Above S b x → ¬ BaseOf S cur x) →
      (∀ x ∈ done, BaseOf S cur x → ∀ y ∈ done, Derives S x y → ¬ BaseOf S cur y) →
      TElems S done (fun t k => P t k ∨ (k = cur ∧ Above S b t)) T' ∧ TFrame S done T T' ∧
      (Assoc.Keyed T → Assoc.Keyed T') ∧ ∀ b' d', b = some b' → S.types b' = some d' → b' ∈ done := by
  induction fuel using Nat.strongRecOn with
  | ind fuel ih =>
  intro direct b T T' P hr he hf hn hb hdir hacy
  cases b with
  | none =>
    have hr' : T = T' := by cases fuel <;> (simp only [regBase, Except.ok.injEq] at hr; exact hr)
    subst hr'
    refine ⟨he.congr fun t _ k => ?_, fun _ _ => rfl, id, fun b' d' h => by cases h⟩
    constructor
    · exact .inl
    · rintro (h | ⟨_, b', h, _⟩)
      · exact h
      · cases h
  | some b =>
    cases fuel with
    | zero => simp [regBase] at hr
    | succ fuel =>
    have hbk := hb b rfl
    cases hbt : S.types b with
    | none =>
      have hneu := hn b (not_family_of_base hw hbk hbt)
      have hab : ∀ x, Above S (some b) x → x = b := by
        rintro x ⟨b', h, h' | h'⟩
        · cases h; exact h'
        · cases h
          cases h' with
          | direct h => obtain ⟨d, h, _⟩ := h; rw [hbt] at h; cases h
          | indirect h _ => obtain ⟨d, h, _⟩ := h; rw [hbt] at h; cases h
      have : T' = T := by
        simp only [regBase] at hr
        cases hl : look T b with
        | none => rw [hl] at hr; cases hr
        | some v =>
          rw [hl] at hr hneu
          cases v <;> first
            | exact hneu.elim
            | (simp only [Except.ok.injEq] at hr; exact hr.symm)
      subst this
      refine ⟨?_, fun _ _ => rfl, id, ?_⟩
      · intro t d ht hd
        obtain ⟨ms, h1, h2⟩ := he t d ht hd
        refine ⟨ms, h1, fun h => (h2 h).congr fun k => ?_⟩
        constructor
        · exact .inl
        · rintro (h | ⟨_, h⟩)
          · exact h
          · rw [hab t h, hbt] at ht; cases ht
      · intro b' d' h1 h2
        cases h1
        rw [hbt] at h2; cases h2
    | some db =>
      have hbdone : b ∈ done := by
        refine Classical.byContradiction fun hnd => ?_
        have := hf b db hbt hnd
        simp only [regBase, this] at hr
        cases hr
      have habove : ∀ t, Above S (some b) t ↔ t = b ∨ Above S db.complex.base.ident t := by
        intro t
        rw [← derives_iff hbt]
        constructor
        · rintro ⟨b', h, h'⟩; cases h; exact h'
        · intro h; exact ⟨b, rfl, h⟩
      have hdir' : ∀ x ∈ done, Above S db.complex.base.ident x → ¬ BaseOf S cur x := by
        intro x hx ha
        cases direct with
        | false => exact hdir x hx ((habove x).2 (.inr ha))
        | true =>
          simp only [if_true] at hdir
          exact hacy b hbdone ⟨dc, hcd, hdir.symm⟩ x hx ((derives_iff hbt).2 ha)
      have hbdir : direct = true ↔ BaseOf S cur b := by
        cases direct with
        | true =>
          simp only [if_true] at hdir
          exact ⟨fun _ => ⟨dc, hcd, hdir.symm⟩, fun _ => rfl⟩
        | false =>
          have := hdir b hbdone ((habove b).2 (.inl rfl))
          exact ⟨fun h => (by cases h), fun h => absurd h this⟩
      obtain ⟨ms, h1, h2⟩ := he b db hbt hbdone
      have hk' : ∀ b', db.complex.base.ident = some b' → b'.kind = .type_ := fun b' h => hw.base b b' ⟨db, hbt, h⟩
      cases hdy : db.isDyn with
      | false =>
        have hl := h1.plain hdy
        simp only [regBase, hl] at hr
        obtain ⟨q1, q2, q3, q4⟩ := ih fuel (by omega) false _ T T' P hr he hf hn hk' hdir' hacy
        refine ⟨?_, q2, q3, fun b' d' h _ => by cases h; exact hbdone⟩
        intro t d ht hd
        obtain ⟨ms', a1, a2⟩ := q1 t d ht hd
        refine ⟨ms', a1, fun hdd => (a2 hdd).congr fun k => ?_⟩
        simp only [habove]
        have : t ≠ b := by rintro rfl; rw [hbt] at ht; cases ht; rw [hdd] at hdy; cases hdy
        simp [this]
      | true =>
        obtain ⟨hl', hl⟩ := h1.dynamic hdy
        simp only [regBase, hl] at hr
        have hs := fun v => look_set hl v
        have hbd : dyn b ≠ b := ne_of_kind (by simp [hbk])
        cases fuel with
        | zero => simp [regBase] at hr
        | succ fuel =>
        simp only [regBase, hs, if_neg hbd, hl'] at hr
        have hcb : cur ≠ b := fun e => hc (e ▸ hbdone)
        have happ : orInsert ((if db.isAbstract then [] else [(b, concrete (dyn b))]) ++ ms)
            (cur, child (bodyOf cur dc) direct) =
            (if db.isAbstract then [] else [(b, concrete (dyn b))]) ++
              orInsert ms (cur, child (bodyOf cur dc) direct) := by
          cases db.isAbstract with
          | true => rfl
          | false =>
            simp only [Bool.false_eq_true, if_false, List.cons_append, List.nil_append]
            exact orInsert_cons (fun e => hcb e.symm)
        rw [happ] at hr
        have hF : TFrame S done T (setVariant T b (.dynamic ⟨some (dyn b), db.isAbstract,
            (if db.isAbstract then [] else [(b, concrete (dyn b))]) ++
              orInsert ms (cur, child (bodyOf cur dc) direct)⟩)) := by
          intro i hi
          rw [hs, if_neg (hi b db hbt hbdone)]
        have he' : TElems S done (fun t k => P t k ∨ (k = cur ∧ t = b)) (setVariant T b (.dynamic
            ⟨some (dyn b), db.isAbstract, (if db.isAbstract then [] else [(b, concrete (dyn b))]) ++
              orInsert ms (cur, child (bodyOf cur dc) direct)⟩)) := by
          intro t d ht hd
          by_cases htb : t = b
          · subst htb
            rw [hbt] at ht; cases ht
            refine ⟨_, ⟨fun _ => ⟨by rw [hs, if_neg hbd]; exact hl', by rw [hs, if_pos rfl]⟩,
              fun h => by rw [hdy] at h; cases h⟩, fun _ => ⟨keyed_orInsert (h2 hdy).keyed _, fun k => ?_, ?_⟩⟩
            · rw [keys_orInsert, (h2 hdy).keys]; simp
            · intro p hp
              rcases mem_orInsert' hp with hp | rfl
              · exact (h2 hdy).entry p hp
              · refine ⟨⟨dc, hcd, rfl⟩, rfl, ?_, by simp only [child]; split <;> simp⟩
                rw [← hbdir]
                cases direct <;> simp [child]
          · obtain ⟨ms', a1, a2⟩ := he t d ht hd
            refine ⟨ms', a1.congr (by rw [hs, if_neg htb]) (fun _ => ?_), fun h => (a2 h).congr fun k => by simp [htb]⟩
            rw [hs, if_neg (ne_of_kind (by simp [hbk]))]
        have hn' : ∀ i, ¬ Family S i → Neutral (look (setVariant T b (.dynamic
            ⟨some (dyn b), db.isAbstract, (if db.isAbstract then [] else [(b, concrete (dyn b))]) ++
              orInsert ms (cur, child (bodyOf cur dc) direct)⟩)) i) := by
          intro i hi
          rw [hs, if_neg (fun e => hi (.inr ⟨b, db, hbt, .inl e⟩))]
          exact hn i hi
        obtain ⟨q1, q2, q3, q4⟩ := ih fuel (by omega) false _ _ T' _ hr he' (hf.frame hF) hn' hk' hdir' hacy
        refine ⟨q1.congr fun t _ k => ?_, hF.trans q2, fun h => q3 (keyed_setVariant h _ _),
          fun b' d' h _ => by cases h; exact hbdone⟩
        simp only [habove]
        constructor
        · rintro ((a | ⟨a, b⟩) | ⟨a, b⟩)
          · exact .inl a
          · exact .inr ⟨a, .inl b⟩
          · exact .inr ⟨a, .inr b⟩
        · rintro (a | ⟨a, b | b⟩)
          · exact .inl (.inl a)
          · exact .inl (.inr ⟨a, b⟩)
          · exact .inr ⟨a, b⟩

/-! ## The invariant of the run -/

structure Inv (S : Schemas) (done : List Ident) (T : Types) : Prop where
  keyed : Assoc.Keyed T
  elems : Elems S done (fun e k => k ∈ done ∧ Substitutes S k e) T
  fresh : ∀ e d, S.elems e = some d → e ∉ done → look T e = none ∧ look T (nil e) = none ∧ look T (sub e) = none
  types : TElems S done (fun t k => k ∈ done ∧ Derives S k t) T
  tfresh : ∀ t d, S.types t = some d → t ∉ done → look T t = none ∧ (d.isDyn = true → look T (dyn t) = none)
  others : ∀ i, ¬ Family S i → Neutral (look T i)
  closed : ∀ m h, m ∈ done → Direct S m h → h ∈ done
  tclosed : ∀ t b d, t ∈ done → BaseOf S t b → S.types b = some d → b ∈ done
  acc : ∀ m ∈ done, Acc (fun h m => Direct S m h) m
  tacc : ∀ t ∈ done, Acc (fun b t => BaseOf S t b) t

theorem elems_types {S : Schemas} (hw : S.Proper) {e : Ident} {d : ElemDecl} (h : S.elems e = some d) :
    S.types e = none := by
  cases ht : S.types e with
  | none => rfl
  | some d' =>
    have h1 := hw.elem e d h
    rcases hw.type_ e d' ht with h2 | h2 <;> rw [h1] at h2 <;> cases h2

theorem types_elems {S : Schemas} (hw : S.Proper) {t : Ident} {d : TypeDecl} (h : S.types t = some d) :
    S.elems t = none := by
  cases ht : S.elems t with
  | none => rfl
  | some d' => rw [elems_types hw ht] at h; cases h

theorem dyn_inj {S : Schemas} (hw : S.Proper) {t t' : Ident} {d d' : TypeDecl} (h : S.types t = some d)
    (h' : S.types t' = some d') (hd : d.isDyn = true) (hd' : d'.isDyn = true) (hs : dyn t = dyn t') : t = t' := by
  have hk : t.kind = t'.kind := by
    have h1 : t.kind = .type_ := by
      rcases hw.type_ t d h with h1 | h1
      · exact h1
      · rw [hw.inline t d h h1] at hd; cases hd
    have h2 : t'.kind = .type_ := by
      rcases hw.type_ t' d' h' with h1 | h1
      · exact h1
      · rw [hw.inline t' d' h' h1] at hd'; cases hd'
    rw [h1, h2]
  obtain ⟨a, b, c, k⟩ := t
  obtain ⟨a', b', c', k'⟩ := t'
  simp only [dyn, Ident.mk.injEq] at hs hk
  obtain ⟨rfl, rfl, rfl, -⟩ := hs
  subst hk; rfl

theorem Elems.mono {S : Schemas} {done : List Ident} {P : Ident → Ident → Prop} {T T' : Types} (h : Elems S done P T)
    (hl : ∀ e d, S.elems e = some d → e ∈ done →
      look T' e = look T e ∧ look T' (nil e) = look T (nil e) ∧ look T' (sub e) = look T (sub e)) :
    Elems S done P T' := by
  intro e d he hd
  obtain ⟨ms, h1, h2⟩ := h e d he hd
  obtain ⟨a, b, c⟩ := hl e d he hd
  exact ⟨ms, h1.congr a b c, h2⟩

theorem TElems.mono {S : Schemas} {done : List Ident} {P : Ident → Ident → Prop} {T T' : Types}
    (h : TElems S done P T)
    (hl : ∀ t d, S.types t = some d → t ∈ done → look T' t = look T t ∧ (d.isDyn = true → look T' (dyn t) = look T (dyn t))) :
    TElems S done P T' := by
  intro t d ht hd
  obtain ⟨ms, h1, h2⟩ := h t d ht hd
  obtain ⟨a, b⟩ := hl t d ht hd
  exact ⟨ms, h1.congr a b, h2⟩

theorem applyNillable_ok {S : Schemas} {e : Ident} {d : ElemDecl} {T T' : Types} {r : Reference}
    (h : applyNillable S e d T = .ok (T', r)) :
    r = content0 e d ∧ (∀ k, k ≠ nil e → look T' k = look T k) ∧
      (d.nillable = true → look T' (nil e) = some (.reference (.new d.type_))) ∧
      (d.nillable = false → look T' (nil e) = look T (nil e)) ∧ (Assoc.Keyed T → Assoc.Keyed T') := by
  unfold applyNillable at h
  cases hn : d.nillable with
  | false =>
    rw [hn] at h
    simp only [Bool.false_eq_true, if_false, Except.ok.injEq, Prod.mk.injEq] at h
    obtain ⟨rfl, rfl⟩ := h
    exact ⟨by unfold content0; rw [hn]; rfl, fun _ _ => rfl, fun h => (by cases h), fun _ => rfl, id⟩
  | true =>
    rw [hn] at h
    simp only [if_true] at h
    cases ha : addType T (nil e) (finish S e (.reference (.new d.type_))) with
    | error x => rw [ha] at h; cases h
    | ok T1 =>
      rw [ha] at h
      simp only [Except.ok.injEq, Prod.mk.injEq] at h
      obtain ⟨rfl, rfl⟩ := h
      obtain ⟨-, a2, a3⟩ := addType_ok ha
      exact ⟨by unfold content0; rw [hn]; rfl, fun k hk => by rw [a2, if_neg hk],
        fun _ => by rw [a2, if_pos rfl]; rfl, fun h => (by cases h), a3⟩

/-- What processing the heads does. -/
theorem applyHeads_ok {S : Schemas} (hw : S.Proper) {done : List Ident} {e : Ident} {d : ElemDecl} {T T' : Types}
    {r : Reference} {fuel : Nat} {P : Ident → Ident → Prop} (hd : S.elems e = some d) (hc : e ∉ done)
    (he : Elems S done P T) (hf : Fresh S done T) (h : applyHeads S fuel e d T (content0 e d) = .ok (T', r)) :
    r = var0 e d ∧ Elems S done (fun h k => P h k ∨ (k = e ∧ Substitutes S e h)) T' ∧
      (∀ i, (∀ h d, S.elems h = some d → h ∈ done → i ≠ h ∧ i ≠ sub h) → i ≠ sub e → look T' i = look T i) ∧
      (d.heads.isSome = true → look T' (sub e) = some (.reference (content0 e d))) ∧
      (d.heads = none → look T' (sub e) = look T (sub e)) ∧
      (Assoc.Keyed T → Assoc.Keyed T') ∧ ∀ h, Direct S e h → h ∈ done := by
  have hk := hw.elem e d hd
  unfold applyHeads at h
  cases hh : d.heads with
  | none =>
    rw [hh] at h
    simp only [Except.ok.injEq, Prod.mk.injEq] at h
    obtain ⟨rfl, rfl⟩ := h
    refine ⟨by unfold var0; rw [hh]; rfl, he.congr fun h _ k => ?_, fun _ _ _ => rfl, fun h => (by cases h),
      fun _ => rfl, id, ?_⟩
    · rw [substitutes_iff hd, hh]
      constructor
      · exact .inl
      · rintro (a | ⟨_, _, b, _⟩)
        · exact a
        · cases b
    · intro h hx
      rw [direct_iff hd, hh] at hx
      obtain ⟨_, h1, _⟩ := hx
      cases h1
  | some hs =>
    rw [hh] at h
    simp only at h
    cases ha : addType T (sub e) (finish S e (.reference (content0 e d))) with
    | error x => rw [ha] at h; cases h
    | ok T1 =>
      rw [ha] at h
      simp only at h
      cases hwk : walk S e fuel true hs T1 with
      | error x => rw [hwk] at h; cases h
      | ok T2 =>
        rw [hwk] at h
        simp only [Except.ok.injEq, Prod.mk.injEq] at h
        obtain ⟨rfl, rfl⟩ := h
        obtain ⟨-, a2, a3⟩ := addType_ok ha
        have he1 : Elems S done P T1 := by
          refine he.mono fun h dh hdh hdone => ?_
          have hkh := hw.elem h dh hdh
          refine ⟨?_, ?_, ?_⟩
          · rw [a2, if_neg (ne_of_kind (by simp [hkh]))]
          · rw [a2, if_neg (ne_of_kind (by simp))]
          · rw [a2, if_neg (fun x => hc (sub_inj hkh hk x ▸ hdone))]
        have hf1 : Fresh S done T1 := by
          intro h dh hdh hn
          rw [a2, if_neg (ne_of_kind (by simp [hw.elem h dh hdh]))]
          exact hf h dh hdh hn
        obtain ⟨w1, w2, w3, w4⟩ := walk_ok hw hc fuel true hs T1 T2 hwk P he1 hf1
          (fun _ h hx => (direct_iff hd).2 ⟨hs, hh, hx⟩)
        refine ⟨by unfold var0; rw [hh]; rfl, w1.congr fun h _ k => ?_, fun i h1 h2 => ?_, fun _ => ?_,
          fun h => (by cases h), fun x => w3 (a3 x), ?_⟩
        · rw [substitutes_iff hd, hh]
          constructor
          · rintro (a | ⟨a, b⟩)
            · exact .inl a
            · exact .inr ⟨a, hs, rfl, b⟩
          · rintro (a | ⟨a, _, b, b'⟩)
            · exact .inl a
            · cases b; exact .inr ⟨a, b'⟩
        · rw [w2 i h1, a2, if_neg h2]
        · rw [w2 (sub e) ?_, a2, if_pos rfl]
          · rfl
          · intro h dh hdh hdone
            have hkh := hw.elem h dh hdh
            exact ⟨ne_of_kind (by simp [hkh]), fun x => hc (sub_inj hk hkh x ▸ hdone)⟩
        · intro h hx
          rw [direct_iff hd, hh] at hx
          obtain ⟨_, h1, h2⟩ := hx
          cases h1
          exact w4 h h2

theorem substitutes_done {S : Schemas} {done : List Ident}
    (hcl : ∀ m h, m ∈ done → Direct S m h → h ∈ done) {m h : Ident} (hs : Substitutes S m h) (hm : m ∈ done) :
    h ∈ done := by
  induction hs with
  | direct hd => exact hcl _ _ hm hd
  | indirect hd _ ih => exact ih (hcl _ _ hm hd)

theorem family_elem {S : Schemas} {e : Ident} {d : ElemDecl} (h : S.elems e = some d) :
    Family S e ∧ Family S (nil e) ∧ Family S (sub e) :=
  ⟨.inl ⟨e, d, h, .inl rfl⟩, .inl ⟨e, d, h, .inr (.inl rfl)⟩, .inl ⟨e, d, h, .inr (.inr rfl)⟩⟩

theorem family_type {S : Schemas} {t : Ident} {d : TypeDecl} (h : S.types t = some d) :
    Family S t ∧ (d.isDyn = true → Family S (dyn t)) :=
  ⟨.inr ⟨t, d, h, .inl rfl⟩, fun hd => .inr ⟨t, d, h, .inr ⟨hd, rfl⟩⟩⟩

theorem Inv.element {S : Schemas} (hw : S.Proper) {done : List Ident} {T T' : Types} {fuel : Nat} {e : Ident}
    {d : ElemDecl} (hi : Inv S done T) (hd : S.elems e = some d) (hc : e ∉ done)
    (h : processElement S fuel e d T = .ok T') : Inv S (done ++ [e]) T' := by
  have hk := hw.elem e d hd
  obtain ⟨f1, f2, f3⟩ := hi.fresh e d hd hc
  unfold processElement at h
  rw [f1] at h
  simp only at h
  cases hn : applyNillable S e d T with
  | error x => rw [hn] at h; cases h
  | ok x =>
  obtain ⟨T1, r1⟩ := x
  rw [hn] at h
  simp only at h
  obtain ⟨rfl, n2, n3, n3', n4⟩ := applyNillable_ok hn
  have he1 : Elems S done (fun e k => k ∈ done ∧ Substitutes S k e) T1 := by
    refine hi.elems.mono fun h dh hdh hdone => ?_
    have hkh := hw.elem h dh hdh
    exact ⟨n2 _ (ne_of_kind (by simp [hkh])), n2 _ (fun x => hc (nil_inj hkh hk x ▸ hdone)),
      n2 _ (ne_of_kind (by simp))⟩
  have hf1 : Fresh S done T1 := by
    intro h dh hdh hx
    rw [n2 _ (ne_of_kind (by simp [hw.elem h dh hdh]))]
    exact (hi.fresh h dh hdh hx).1
  cases hh : applyHeads S fuel e d T1 (content0 e d) with
  | error x => rw [hh] at h; cases h
  | ok x =>
  obtain ⟨T2, r2⟩ := x
  rw [hh] at h
  simp only at h
  obtain ⟨rfl, w1, w2, w3, w3', w4, w5⟩ := applyHeads_ok hw hd hc he1 hf1 hh
  obtain ⟨-, a2, a3⟩ := addType_ok h
  clear h
  have hsube : sub e ≠ e := ne_of_kind (by simp [hk])
  have hnile : nil e ≠ e := ne_of_kind (by simp [hk])
  have hcl : ∀ m h, m ∈ done ++ [e] → Direct S m h → h ∈ done ++ [e] := by
    intro m h hm hx
    rw [List.mem_append, List.mem_singleton] at hm
    rcases hm with hm | rfl
    · exact List.mem_append_left _ (hi.closed m h hm hx)
    · exact List.mem_append_left _ (w5 h hx)
  have hnos : ∀ m, m ∈ done ++ [e] → ¬ Substitutes S m e := by
    intro m hm hs
    rw [List.mem_append, List.mem_singleton] at hm
    rcases hm with hm | rfl
    · exact hc (substitutes_done hi.closed hs hm)
    · cases hs with
      | direct hx => exact hc (w5 _ hx)
      | indirect hx hy => exact hc (substitutes_done hi.closed hy (w5 _ hx))
  refine ⟨?_, ?_, ?_, ?_, ?_, ?_, hcl, ?_, ?_, ?_⟩
  · exact a3 (w4 (n4 hi.keyed))
  · intro h dh hdh hdone
    rw [List.mem_append, List.mem_singleton] at hdone
    rcases hdone with hdone | rfl
    · obtain ⟨ms, e1, e2⟩ := w1 h dh hdh hdone
      have hkh := hw.elem h dh hdh
      have hhe : h ≠ e := fun x => hc (x ▸ hdone)
      refine ⟨ms, e1.congr ?_ ?_ ?_, e2.congr fun k => ?_⟩
      · rw [a2, if_neg hhe]
      · rw [a2, if_neg (ne_of_kind (by simp [hk]))]
      · rw [a2, if_neg (ne_of_kind (by simp [hk]))]
      · simp only [List.mem_append, List.mem_singleton]
        constructor
        · rintro (⟨a, b⟩ | ⟨rfl, b⟩)
          · exact ⟨.inl a, b⟩
          · exact ⟨.inr rfl, b⟩
        · rintro ⟨a | rfl, b⟩
          · exact .inl ⟨a, b⟩
          · exact .inr ⟨rfl, b⟩
    · rw [hd] at hdh
      cases hdh
      refine ⟨[], ⟨?_, ?_, ?_, ?_, ?_, ?_, ?_⟩, ⟨List.nodup_nil, fun k => ?_, by simp⟩⟩
      · intro hnn
        rw [a2, if_neg hnile, w2 (nil h) ?_ (ne_of_kind (by simp)), n3 hnn]
        intro h' dh' hdh' _
        exact ⟨ne_of_kind (by simp [hw.elem h' dh' hdh']), ne_of_kind (by simp)⟩
      · intro hnn
        rw [a2, if_neg hnile, w2 (nil h) ?_ (ne_of_kind (by simp)), n3' hnn, f2]
        intro h' dh' hdh' _
        exact ⟨ne_of_kind (by simp [hw.elem h' dh' hdh']), ne_of_kind (by simp)⟩
      · intro hhs
        rw [a2, if_neg hsube, w3 hhs]
      · intro hhs _
        rw [a2, if_neg hsube, w3' hhs, n2 _ (ne_of_kind (by simp)), f3]
      · intro hab
        rw [a2, if_pos rfl]
        simp only [finish, MetaType.new, hab, if_true]
      · intro hab _
        rw [a2, if_pos rfl]
        simp only [finish, MetaType.new, hab, Bool.false_eq_true, if_false]
      · intro _ hx; exact absurd rfl hx
      · constructor
        · intro hx; cases hx
        · rintro ⟨hx, hy⟩; exact absurd hy (hnos k hx)
  · intro h dh hdh hx
    rw [List.mem_append, List.mem_singleton, not_or] at hx
    have hkh := hw.elem h dh hdh
    obtain ⟨g1, g2, g3⟩ := hi.fresh h dh hdh hx.1
    refine ⟨?_, ?_, ?_⟩
    · rw [a2, if_neg hx.2, w2 h ?_ (ne_of_kind (by simp [hkh])), n2 _ (ne_of_kind (by simp [hkh])), g1]
      intro h' dh' hdh' hdone
      exact ⟨fun x => hx.1 (x ▸ hdone), ne_of_kind (by simp [hkh])⟩
    · rw [a2, if_neg (ne_of_kind (by simp [hk])), w2 (nil h) ?_ (ne_of_kind (by simp)),
        n2 _ (fun x => hx.2 (nil_inj hkh hk x)), g2]
      intro h' dh' hdh' hdone
      exact ⟨ne_of_kind (by simp [hw.elem h' dh' hdh']), ne_of_kind (by simp)⟩
    · rw [a2, if_neg (ne_of_kind (by simp [hk])), w2 (sub h) ?_ (fun x => hx.2 (sub_inj hkh hk x)),
        n2 _ (ne_of_kind (by simp)), g3]
      intro h' dh' hdh' hdone
      have hkh' := hw.elem h' dh' hdh'
      exact ⟨ne_of_kind (by simp [hkh']), fun x => hx.1 (sub_inj hkh hkh' x ▸ hdone)⟩
  all_goals
    have htk : ∀ t d, S.types t = some d → t ≠ e ∧ t ≠ nil e ∧ t ≠ sub e ∧ ∀ h d, S.elems h = some d → h ∈ done →
        t ≠ h ∧ t ≠ sub h := by
      intro t dt ht
      rcases hw.type_ t dt ht with hkt | hkt
      all_goals
        refine ⟨ne_of_kind (by simp [hkt, hk]), ne_of_kind (by simp [hkt]), ne_of_kind (by simp [hkt]), ?_⟩
        intro h' dh' hdh' _
        exact ⟨ne_of_kind (by simp [hkt, hw.elem h' dh' hdh']), ne_of_kind (by simp [hkt])⟩
    have hdk : ∀ t, dyn t ≠ e ∧ dyn t ≠ nil e ∧ dyn t ≠ sub e ∧ ∀ h d, S.elems h = some d → h ∈ done →
        dyn t ≠ h ∧ dyn t ≠ sub h := by
      intro t
      refine ⟨ne_of_kind (by simp [hk]), ne_of_kind (by simp), ne_of_kind (by simp), ?_⟩
      intro h' dh' hdh' _
      exact ⟨ne_of_kind (by simp [hw.elem h' dh' hdh']), ne_of_kind (by simp)⟩
    have hfr : ∀ i, (i ≠ e ∧ i ≠ nil e ∧ i ≠ sub e ∧ ∀ h d, S.elems h = some d → h ∈ done → i ≠ h ∧ i ≠ sub h) →
        look T' i = look T i := by
      rintro i ⟨i1, i2, i3, i4⟩
      rw [a2, if_neg i1, w2 i i4 i3, n2 i i2]
  · intro t dt ht hdone
    have hdone' : t ∈ done := by
      rw [List.mem_append, List.mem_singleton] at hdone
      rcases hdone with h | h
      · exact h
      · exact absurd h (htk t dt ht).1
    obtain ⟨ms, e1, e2⟩ := hi.types t dt ht hdone'
    refine ⟨ms, e1.congr (hfr t (htk t dt ht)) (fun _ => hfr _ (hdk t)), fun hdy => (e2 hdy).congr fun k => ?_⟩
    simp only [List.mem_append, List.mem_singleton]
    constructor
    · rintro ⟨a, b⟩; exact ⟨.inl a, b⟩
    · rintro ⟨a | rfl, b⟩
      · exact ⟨a, b⟩
      · have hxt : ∃ dk, S.types k = some dk := by
          cases b with
          | direct hb => exact ⟨_, hb.choose_spec.1⟩
          | indirect hb _ => exact ⟨_, hb.choose_spec.1⟩
        obtain ⟨dk, hdk'⟩ := hxt
        rw [elems_types hw hd] at hdk'
        cases hdk'
  · intro t dt ht hx
    rw [List.mem_append, not_or] at hx
    rw [hfr t (htk t dt ht), hfr _ (hdk t)]
    exact hi.tfresh t dt ht hx.1
  · intro i hni
    rw [hfr i ?_]
    · exact hi.others i hni
    · obtain ⟨c1, c2, c3⟩ := family_elem hd
      refine ⟨fun x => hni (x ▸ c1), fun x => hni (x ▸ c2), fun x => hni (x ▸ c3), ?_⟩
      intro h dh hdh _
      obtain ⟨c1, c2, c3⟩ := family_elem hdh
      exact ⟨fun x => hni (x ▸ c1), fun x => hni (x ▸ c3)⟩
  · intro t b db hm hb htb
    rw [List.mem_append, List.mem_singleton] at hm ⊢
    rcases hm with hm | rfl
    · exact .inl (hi.tclosed t b db hm hb htb)
    · obtain ⟨dt, h1, _⟩ := hb
      rw [elems_types hw hd] at h1; cases h1
  · intro m hm
    rw [List.mem_append, List.mem_singleton] at hm
    rcases hm with hm | rfl
    · exact hi.acc m hm
    · exact .intro _ fun h hx => hi.acc h (w5 h hx)
  · intro m hm
    rw [List.mem_append, List.mem_singleton] at hm
    rcases hm with hm | rfl
    · exact hi.tacc m hm
    · refine .intro _ fun b hb => ?_
      obtain ⟨dt, h1, _⟩ := hb
      rw [elems_types hw hd] at h1; cases h1

theorem derives_done {S : Schemas} {done : List Ident}
    (hcl : ∀ t b d, t ∈ done → BaseOf S t b → S.types b = some d → b ∈ done) {t b : Ident} {d : TypeDecl}
    (hs : Derives S t b) (hb : S.types b = some d) (hm : t ∈ done) : b ∈ done := by
  induction hs with
  | direct hd => exact hcl _ _ _ hm hd hb
  | @indirect _ k _ hd h' ih =>
    have : ∃ dk, S.types k = some dk := by
      cases h' with
      | direct hb => exact ⟨_, hb.choose_spec.1⟩
      | indirect hb _ => exact ⟨_, hb.choose_spec.1⟩
    obtain ⟨dk, hk⟩ := this
    exact ih hb (hcl _ _ _ hm hd hk)

theorem derives_irrefl {S : Schemas} {t : Ident} (ha : Acc (fun b t => BaseOf S t b) t) :
    ∀ u, Derives S t u → ¬ Derives S u t ∧ u ≠ t := by
  induction ha with
  | intro t _ ih =>
    have key : ¬ Derives S t t := by
      intro h
      cases h with
      | direct hb => exact absurd rfl (ih t hb t (.direct hb)).2
      | @indirect _ k _ hb h' => exact (ih k hb t h').1 (.direct hb)
    intro u hu
    refine ⟨fun hu' => ?_, fun e => key (e ▸ hu)⟩
    have trans : ∀ {x y z}, Derives S x y → Derives S y z → Derives S x z := by
      intro x y z h1 h2
      induction h1 with
      | direct hb => exact .indirect hb h2
      | indirect hb _ ih => exact .indirect hb (ih h2)
    exact key (trans hu hu')

theorem applyDynamic_ok {S : Schemas} {t : Ident} {d : TypeDecl} {T T' : Types} {v : Variant}
    (h : applyDynamic S t d T = .ok (T', v)) :
    (d.isDyn = true → v = .dynamic ⟨some (dyn t), d.isAbstract, if d.isAbstract then [] else [(t, concrete (dyn t))]⟩ ∧
      look T' (dyn t) = some (.complex d.complex)) ∧ (d.isDyn = false → v = .complex d.complex ∧ T' = T) ∧
      (∀ k, k ≠ dyn t → look T' k = look T k) ∧ (Assoc.Keyed T → Assoc.Keyed T') := by
  unfold applyDynamic at h
  cases hn : d.isDyn with
  | false =>
    rw [hn] at h
    simp only [Bool.false_eq_true, if_false, Except.ok.injEq, Prod.mk.injEq] at h
    obtain ⟨rfl, rfl⟩ := h
    exact ⟨fun h => (by cases h), fun _ => ⟨rfl, rfl⟩, fun _ _ => rfl, id⟩
  | true =>
    rw [hn] at h
    simp only [if_true] at h
    cases ha : addType T (dyn t) (finish S t (.complex d.complex)) with
    | error x => rw [ha] at h; cases h
    | ok T1 =>
      rw [ha] at h
      simp only [Except.ok.injEq, Prod.mk.injEq] at h
      obtain ⟨rfl, rfl⟩ := h
      obtain ⟨-, a2, a3⟩ := addType_ok ha
      exact ⟨fun _ => ⟨rfl, by rw [a2, if_pos rfl]; rfl⟩, fun h => (by cases h), fun k hk => by rw [a2, if_neg hk], a3⟩

theorem Inv.type_ {S : Schemas} (hw : S.Proper) {done : List Ident} {T T' : Types} {fuel : Nat} {t : Ident}
    {d : TypeDecl} (hi : Inv S done T) (hd : S.types t = some d) (hc : t ∉ done)
    (h : processType S fuel t d T = .ok T') : Inv S (done ++ [t]) T' := by
  obtain ⟨f1, f2⟩ := hi.tfresh t d hd hc
  unfold processType at h
  rw [f1] at h
  simp only at h
  cases hn : applyDynamic S t d T with
  | error x => rw [hn] at h; cases h
  | ok x =>
  obtain ⟨T1, v⟩ := x
  rw [hn] at h
  simp only at h
  obtain ⟨n1, n1', n2, n3⟩ := applyDynamic_ok hn
  have hdt : t ≠ dyn t := by
    rcases hw.type_ t d hd with hk | hk <;> exact ne_of_kind (by simp [hk])
  have n2' : ∀ k, (d.isDyn = true → k ≠ dyn t) → look T1 k = look T k := by
    intro k hk
    cases hdy : d.isDyn with
    | true => exact n2 k (hk hdy)
    | false => rw [(n1' hdy).2]
  have he1 : TElems S done (fun t k => k ∈ done ∧ Derives S k t) T1 := by
    refine hi.types.mono fun u du hdu hdone => ⟨?_, fun hdyu => n2' _ fun hdy x => ?_⟩
    · apply n2
      rcases hw.type_ u du hdu with hk | hk <;> exact ne_of_kind (by simp [hk])
    · exact hc (dyn_inj hw hdu hd hdyu hdy x ▸ hdone)
  have hf1 : TFresh S done T1 := by
    intro u du hdu hx
    rw [n2 u (by rcases hw.type_ u du hdu with hk | hk <;> exact ne_of_kind (by simp [hk]))]
    exact (hi.tfresh u du hdu hx).1
  have hn1 : ∀ i, ¬ Family S i → Neutral (look T1 i) := by
    intro i hni
    rw [n2' i (fun hdy x => hni (x ▸ (family_type hd).2 hdy))]
    exact hi.others i hni
  have hbase : ∀ x ∈ done, BaseOf S t x → ∀ y ∈ done, Derives S x y → ¬ BaseOf S t y := by
    rintro x hx ⟨d1, h1, h1'⟩ y hy hxy ⟨d2, h2, h2'⟩
    rw [h1] at h2; cases h2
    rw [h1'] at h2'; cases h2'
    exact (derives_irrefl (hi.tacc x hx) x hxy).2 rfl
  cases hr : regBase t (bodyOf t d) fuel true d.complex.base.ident T1 with
  | error x => rw [hr] at h; cases h
  | ok T2 =>
  rw [hr] at h
  simp only at h
  obtain ⟨w1, w2, w3, w4⟩ := regBase_ok hw hc hd fuel true _ T1 T2 _ hr he1 hf1 hn1
    (fun b hb => hw.base t b ⟨d, hd, hb⟩) (by simp) hbase
  obtain ⟨-, a2, a3⟩ := addType_ok h
  clear h
  have hclt : ∀ b db, BaseOf S t b → S.types b = some db → b ∈ done := by
    rintro b db ⟨d1, h1, h1'⟩ hb
    rw [hd] at h1; cases h1
    exact w4 b db h1' hb
  have hnos : ∀ m, m ∈ done ++ [t] → ¬ Derives S m t := by
    intro m hm hs
    rw [List.mem_append, List.mem_singleton] at hm
    rcases hm with hm | rfl
    · exact hc (derives_done hi.tclosed hs hd hm)
    · cases hs with
      | direct hx => exact hc (hclt _ _ hx hd)
      | @indirect _ k _ hx hy =>
        have : ∃ dk, S.types k = some dk := by
          cases hy with
          | direct hb => exact ⟨_, hb.choose_spec.1⟩
          | indirect hb _ => exact ⟨_, hb.choose_spec.1⟩
        obtain ⟨dk, hk⟩ := this
        exact hc (derives_done hi.tclosed hy hd (hclt k dk hx hk))
  have hfr : ∀ i, i ≠ t → (d.isDyn = true → i ≠ dyn t) → (∀ u d, S.types u = some d → u ∈ done → i ≠ u) → look T' i = look T i := by
    intro i h1 h2 h3
    rw [a2, if_neg h1, w2 i h3, n2' i h2]
  have hek : ∀ e d, S.elems e = some d → look T' e = look T e ∧ look T' (nil e) = look T (nil e) ∧
      look T' (sub e) = look T (sub e) := by
    intro e de hde
    have hk := hw.elem e de hde
    have hty : ∀ {i : Ident}, i.kind = .element ∨ i.kind = .nillableContent ∨ i.kind = .substitutionElement →
        ∀ u d, S.types u = some d → i ≠ u := by
      intro i hi u du hu
      rcases hw.type_ u du hu with hk | hk <;> rcases hi with h | h | h <;> exact ne_of_kind (by simp [h, hk])
    refine ⟨hfr _ (hty (.inl hk) t d hd) (fun _ => ne_of_kind (by simp [hk])) fun u du hu _ => hty (.inl hk) u du hu,
      hfr _ (hty (.inr (.inl rfl)) t d hd) (fun _ => ne_of_kind (by simp)) fun u du hu _ => hty (.inr (.inl rfl)) u du hu,
      hfr _ (hty (.inr (.inr rfl)) t d hd) (fun _ => ne_of_kind (by simp)) fun u du hu _ => hty (.inr (.inr rfl)) u du hu⟩
  have hdynu : ∀ (u : Ident) x dx, S.types x = some dx → dyn u ≠ x := by
    intro u x dx hx
    rcases hw.type_ x dx hx with hk | hk <;> exact ne_of_kind (by simp [hk])
  have hte : S.elems t = none := types_elems hw hd
  refine ⟨a3 (w3 (n3 hi.keyed)), ?_, ?_, ?_, ?_, ?_, ?_, ?_, ?_, ?_⟩
  · intro e de hde hdone
    have hdone' : e ∈ done := by
      rw [List.mem_append, List.mem_singleton] at hdone
      rcases hdone with h | rfl
      · exact h
      · rw [hte] at hde; cases hde
    obtain ⟨ms, e1, e2⟩ := hi.elems e de hde hdone'
    obtain ⟨c1, c2, c3⟩ := hek e de hde
    refine ⟨ms, e1.congr c1 c2 c3, e2.congr fun k => ?_⟩
    simp only [List.mem_append, List.mem_singleton]
    constructor
    · rintro ⟨a, b⟩; exact ⟨.inl a, b⟩
    · rintro ⟨a | rfl, b⟩
      · exact ⟨a, b⟩
      · have : ∃ dk, S.elems k = some dk := by
          cases b with
          | direct hb => exact ⟨_, hb.choose_spec.choose_spec.1⟩
          | indirect hb _ => exact ⟨_, hb.choose_spec.choose_spec.1⟩
        obtain ⟨dk, hdk'⟩ := this
        rw [hte] at hdk'; cases hdk'
  · intro e de hde hx
    rw [List.mem_append, not_or] at hx
    obtain ⟨c1, c2, c3⟩ := hek e de hde
    rw [c1, c2, c3]
    exact hi.fresh e de hde hx.1
  · intro u du hdu hdone
    rw [List.mem_append, List.mem_singleton] at hdone
    rcases hdone with hdone | rfl
    · obtain ⟨ms, e1, e2⟩ := w1 u du hdu hdone
      have hut : u ≠ t := fun x => hc (x ▸ hdone)
      refine ⟨ms, e1.congr ?_ (fun _ => ?_), fun hdy => (e2 hdy).congr fun k => ?_⟩
      · rw [a2, if_neg hut]
      · rw [a2, if_neg (hdynu u t d hd)]
      · simp only [← derives_iff hd, List.mem_append, List.mem_singleton]
        constructor
        · rintro (⟨a, b⟩ | ⟨rfl, b⟩)
          · exact ⟨.inl a, b⟩
          · exact ⟨.inr rfl, b⟩
        · rintro ⟨a | rfl, b⟩
          · exact .inl ⟨a, b⟩
          · exact .inr ⟨rfl, b⟩
    · rw [hd] at hdu
      cases hdu
      refine ⟨[], ⟨fun hdy => ⟨?_, ?_⟩, fun hdy => ?_⟩, fun _ => ⟨List.nodup_nil, fun k => ?_, by simp⟩⟩
      · rw [a2, if_neg (hdynu u u d hd), w2 _ (fun x dx hx _ => hdynu u x dx hx)]
        exact (n1 hdy).2
      · rw [a2, if_pos rfl, (n1 hdy).1, List.append_nil]; rfl
      · rw [a2, if_pos rfl, (n1' hdy).1]; rfl
      · constructor
        · intro hx; cases hx
        · rintro ⟨hx, hy⟩; exact absurd hy (hnos k hx)
  · intro u du hdu hx
    rw [List.mem_append, List.mem_singleton, not_or] at hx
    obtain ⟨g1, g2⟩ := hi.tfresh u du hdu hx.1
    refine ⟨?_, fun hdyu => ?_⟩
    · rw [hfr u hx.2 (fun _ x => hdynu t u du hdu x.symm) (fun v dv hv hvd x => hx.1 (x ▸ hvd)), g1]
    · rw [a2, if_neg (hdynu u t d hd), w2 _ (fun x dx hx _ => hdynu u x dx hx), n2' _ ?_, g2 hdyu]
      intro hdy x
      exact hx.2 (dyn_inj hw hdu hd hdyu hdy x)
  · intro i hni
    rw [hfr i ?_ ?_ ?_]
    · exact hi.others i hni
    · exact fun x => hni (x ▸ (family_type hd).1)
    · exact fun hdy x => hni (x ▸ (family_type hd).2 hdy)
    · exact fun u du hu _ x => hni (x ▸ (family_type hu).1)
  · intro m h hm hx
    rw [List.mem_append, List.mem_singleton] at hm ⊢
    rcases hm with hm | rfl
    · exact .inl (hi.closed m h hm hx)
    · obtain ⟨_, _, h1, _⟩ := hx
      rw [hte] at h1; cases h1
  · intro u b db hm hb htb
    rw [List.mem_append, List.mem_singleton] at hm ⊢
    rcases hm with hm | rfl
    · exact .inl (hi.tclosed u b db hm hb htb)
    · exact .inl (hclt b db hb htb)
  · intro m hm
    rw [List.mem_append, List.mem_singleton] at hm
    rcases hm with hm | rfl
    · exact hi.acc m hm
    · refine .intro _ fun b hb => ?_
      obtain ⟨_, _, h1, _⟩ := hb
      rw [hte] at h1; cases h1
  · intro m hm
    rw [List.mem_append, List.mem_singleton] at hm
    rcases hm with hm | rfl
    · exact hi.tacc m hm
    · refine .intro _ fun b hb => ?_
      cases hbt : S.types b with
      | some db => exact hi.tacc b (hclt b db hb hbt)
      | none =>
        refine .intro _ fun c hc => ?_
        obtain ⟨_, h1, _⟩ := hc
        rw [hbt] at h1; cases h1

theorem Run.inv {S : Schemas} (hw : S.Proper) {done : List Ident} {T : Types} (hr : Run S done T) : Inv S done T := by
  induction hr with
  | start hk hf hn =>
    refine ⟨hk, fun _ _ _ h => absurd h List.not_mem_nil, ?_, fun _ _ _ h => absurd h List.not_mem_nil, ?_,
      fun i _ => hn i, fun _ _ h => absurd h List.not_mem_nil, fun _ _ _ h => absurd h List.not_mem_nil,
      fun _ h => absurd h List.not_mem_nil, fun _ h => absurd h List.not_mem_nil⟩
    · intro e d he _
      obtain ⟨a, b, c⟩ := family_elem he
      exact ⟨hf _ a, hf _ b, hf _ c⟩
    · intro t d ht _
      obtain ⟨a, b⟩ := family_type ht
      exact ⟨hf _ a, fun hdy => hf _ (b hdy)⟩
  | element _ hd hc h ih => exact ih.element hw hd hc h
  | type_ _ hd hc h ih => exact ih.type_ hw hd hc h
  | other _ hk hf hn ih =>
    refine ⟨hk, ?_, ?_, ?_, ?_, hn, ih.closed, ih.tclosed, ih.acc, ih.tacc⟩
    · refine ih.elems.mono fun e d he _ => ?_
      obtain ⟨a, b, c⟩ := family_elem he
      exact ⟨hf _ a, hf _ b, hf _ c⟩
    · intro e d he hx
      obtain ⟨a, b, c⟩ := family_elem he
      rw [hf _ a, hf _ b, hf _ c]
      exact ih.fresh e d he hx
    · refine ih.types.mono fun t d ht _ => ?_
      obtain ⟨a, b⟩ := family_type ht
      exact ⟨hf _ a, fun hdy => hf _ (b hdy)⟩
    · intro t d ht hx
      obtain ⟨a, b⟩ := family_type ht
      rw [hf _ a]
      exact ⟨(ih.tfresh t d ht hx).1, fun hdy => by rw [hf _ (b hdy)]; exact (ih.tfresh t d ht hx).2 hdy⟩

end Verif.Subst

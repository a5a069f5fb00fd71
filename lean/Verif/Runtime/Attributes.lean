import Verif.Runtime.Namespaces
import Verif.Runtime.Maps

/-!
# Reading the attributes of a start tag (C07)

The generated function `from_bytes_start`
(xsd-parser/src/pipeline/renderer/steps/quick_xml/deserialize.rs 1815-1911, 2917-3032) with
the helper functions it calls (xsd-parser-types/src/quick_xml/deserialize.rs 680-686,
725-745, 814-907).

Simplifications: the values of all attributes have one type `V`; `parse` of a declaration is
`from_utf8`, `unescape` and `deserialize_str` together.
-/

namespace Verif.Rt

section
variable {E V : Type}

/-! ## Model -/

/-- `QName::decompose` of quick-xml (external): the part before the first colon, if there is
one, and the local part. -/
def splitName (s : Str) : Option Str × Str :=
  match s.dropWhile (· != ':') with
  | [] => (none, s)
  | _ :: l => (some (s.takeWhile (· != ':')), l)

/-- `quick_xml::name::ResolveResult`. -/
inductive Resolved where
  | unbound
  | bound (ns : Str)
  | unknown
deriving DecidableEq, Repr

/-- `DeserializeHelper::resolve(name, true)`, types deserialize.rs:680-686: `scope` gives the
namespaces in scope at the tag. Names without prefix are unbound. -/
def resolveAttr (scope : Str → Option Str) (key : Str) : Resolved × Str :=
  match splitName key with
  | (none, l) => (.unbound, l)
  | (some p, l) =>
    match scope p with
    | some ns => (.bound ns, l)
    | none => (.unknown, l)

/-- `resolve_local_name`, types deserialize.rs:886-892. -/
def resolveLocalName (scope : Str → Option Str) (key ns : Str) : Option Str :=
  match resolveAttr scope key with
  | (.unbound, l) => some l
  | (.bound x, l) => if x = ns then some l else none
  | (.unknown, _) => none

/-- A declared attribute of a generated type. `ns` is the namespace constant of the module,
if there is one (renderer deserialize.rs:2933-2940). -/
structure AttrDecl (E V : Type) where
  ns : Option Str
  name : Str
  required : Bool
  default : Option V
  parse : Str → Except E V

/-- The condition of the `if` generated for a declared attribute, `deserializer_matcher`,
renderer deserialize.rs:2941-2960. -/
def AttrDecl.accepts (scope : Str → Option Str) (d : AttrDecl E V) (a : Attr) : Bool :=
  match d.ns with
  | some ns => resolveLocalName scope a.key ns == some d.name
  | none => (splitName a.key).2 == d.name

/-- What is done with an attribute no declaration accepts (`default_attrib_handler`,
renderer deserialize.rs:1842-1858). -/
inductive AnyAttr where
  /-- no wildcard: `raise_unexpected_attrib_checked` -/
  | checked
  /-- a field of type `Attributes`: `push` -/
  | store
  /-- `allow_any_attribute` without a field: ignored -/
  | ignore
deriving DecidableEq, Repr

/-- The errors of `from_bytes_start`. -/
inductive AttrErr (E : Type) where
  | invalid (e : E)
  | duplicate (name : Str)
  | unexpected (key : Str)
  | missing (name : Str)
deriving DecidableEq, Repr

/-- The namespace of the `xsi` attributes. -/
def xsiNs : Str := "http://www.w3.org/2001/XMLSchema-instance".toList

/-- `is_globally_allowed_attrib`, types deserialize.rs:867-878. -/
def globallyAllowed (scope : Str → Option Str) (a : Attr) : Bool :=
  match resolveAttr scope a.key with
  | (.bound x, l) =>
    x == xsiNs && (l == "schemaLocation".toList || l == "noNamespaceSchemaLocation".toList ||
      l == "type".toList || l == "nil".toList)
  | _ => false

/-- The filter of `filter_xmlns_attributes`, types deserialize.rs:814-825. -/
def isXmlnsKey (key : Str) : Bool := key == xmlnsStr || (xmlnsStr ++ [':']).isPrefixOf key

/-- A generated type as far as attributes are concerned. -/
structure AttrTable (E V : Type) where
  decls : List (AttrDecl E V)
  any : AnyAttr

/-- The chain of `if … else if …`: the first declaration that accepts the attribute. -/
def findDecl (scope : Str → Option Str) (a : Attr) : List (AttrDecl E V) → Nat →
    Option (Nat × AttrDecl E V)
  | [], _ => none
  | d :: ds, i => if d.accepts scope a then some (i, d) else findDecl scope a ds (i + 1)

/-- The local variables of `from_bytes_start`: one `Option` per declared attribute and the
wildcard map. -/
structure Slots (V : Type) where
  val : Nat → Option V := fun _ => none
  rest : AttrMap := []

/-- The body of the loop over the attributes, renderer deserialize.rs:1861-1871;
`read_attrib`, types deserialize.rs:725-745. -/
def readAttr (scope : Str → Option Str) (t : AttrTable E V) (st : Slots V) (a : Attr) :
    Except (AttrErr E) (Slots V) :=
  match findDecl scope a t.decls 0 with
  | some (i, d) =>
    if (st.val i).isSome then .error (.duplicate d.name)
    else
      match d.parse a.value with
      | .error e => .error (.invalid e)
      | .ok v => .ok { st with val := fun j => if j = i then some v else st.val j }
  | none =>
    match t.any with
    | .checked => if globallyAllowed scope a then .ok st else .error (.unexpected a.key)
    | .store =>
      match st.rest.push a.key a.value with
      | (m, true) => .ok { st with rest := m }
      | (_, false) => .error (.duplicate a.key)
    | .ignore => .ok st

/-- The loop over the attributes: an item of quick-xml's iterator is an attribute or an
error (malformed or repeated key). -/
def readAttrs (scope : Str → Option Str) (t : AttrTable E V) :
    Slots V → List (Except E Attr) → Except (AttrErr E) (Slots V)
  | st, [] => .ok st
  | _, .error e :: _ => .error (.invalid e)
  | st, .ok a :: rest =>
    if isXmlnsKey a.key then readAttrs scope t st rest
    else
      match readAttr scope t st a with
      | .error e => .error e
      | .ok st => readAttrs scope t st rest

/-- `deserializer_struct_field_init`, renderer deserialize.rs:2992-3023: the value of one
field. -/
def initField (d : AttrDecl E V) (v : Option V) : Except (AttrErr E) (Option V) :=
  match d.default with
  | some x => .ok (some (v.getD x))
  | none =>
    if d.required then
      match v with
      | some v => .ok (some v)
      | none => .error (.missing d.name)
    else .ok v

/-- All fields, in declaration order. -/
def initFields (val : Nat → Option V) : List (AttrDecl E V) → Nat →
    Except (AttrErr E) (List (Option V))
  | [], _ => .ok []
  | d :: ds, i =>
    match initField d (val i) with
    | .error e => .error e
    | .ok v =>
      match initFields val ds (i + 1) with
      | .error e => .error e
      | .ok vs => .ok (v :: vs)

/-- `from_bytes_start`, renderer deserialize.rs:1815-1911. The loop is left out for types
without attributes that ignore all attributes. -/
def fromBytesStart (scope : Str → Option Str) (t : AttrTable E V) (items : List (Except E Attr)) :
    Except (AttrErr E) (List (Option V) × AttrMap) :=
  let looped :=
    if t.decls.isEmpty && t.any == .ignore then .ok {} else readAttrs scope t {} items
  match looped with
  | .error e => .error e
  | .ok st =>
    match initFields st.val t.decls 0 with
    | .error e => .error e
    | .ok vs => .ok (vs, st.rest)

/-! ## Specification -/

/-- The declaration an attribute belongs to: the first one that accepts it. -/
def owner (scope : Str → Option Str) (t : AttrTable E V) (a : Attr) : Option Nat :=
  t.decls.findIdx? fun d => d.accepts scope a

/-- The attributes that belong to declaration `i` (namespace declarations excluded). -/
def owned (scope : Str → Option Str) (t : AttrTable E V) (as : List Attr) (i : Nat) : List Attr :=
  (as.filter fun a => !isXmlnsKey a.key).filter fun a => owner scope t a == some i

/-- The attributes that belong to no declaration. -/
def foreign (scope : Str → Option Str) (t : AttrTable E V) (as : List Attr) : List Attr :=
  (as.filter fun a => !isXmlnsKey a.key).filter fun a => owner scope t a == none

/-- A start tag with attributes `as` is valid for the type and its fields have the values
`vs`: every declared attribute occurs at most once; if it occurs its value is the parsed
text, otherwise it has its default value or is absent, but then it is not required; and
without wildcard the other attributes are `xsi` ones. -/
structure ValidTag (scope : Str → Option Str) (t : AttrTable E V) (as : List Attr)
    (vs : List (Option V)) : Prop where
  length : vs.length = t.decls.length
  field : ∀ i d, t.decls[i]? = some d →
    (owned scope t as i = [] ∧ vs[i]? = some d.default ∧ (d.required = true → d.default ≠ none)) ∨
    ∃ a v, owned scope t as i = [a] ∧ d.parse a.value = .ok v ∧ vs[i]? = some (some v)
  others : t.any = .checked → ∀ a ∈ foreign scope t as, globallyAllowed scope a = true
  unique : t.any = .store → ((foreign scope t as).map (·.key)).Nodup

/-! ## Proof -/

theorem findDecl_findIdx (scope : Str → Option Str) (a : Attr) (ds : List (AttrDecl E V)) (k : Nat) :
    (findDecl scope a ds k).map (·.1) = (ds.findIdx? fun d => d.accepts scope a).map (· + k) := by
  induction ds generalizing k with
  | nil => rfl
  | cons d ds ih =>
    simp only [findDecl, List.findIdx?_cons]
    by_cases h : d.accepts scope a = true
    · simp [h]
    · simp only [h, Bool.false_eq_true, if_false, ih (k + 1)]
      cases List.findIdx? (fun d => d.accepts scope a) ds with
      | none => rfl
      | some n => simp; omega

theorem findDecl_get (scope : Str → Option Str) (a : Attr) (ds : List (AttrDecl E V)) (k i : Nat)
    (d : AttrDecl E V) (h : findDecl scope a ds k = some (i, d)) : k ≤ i ∧ ds[i - k]? = some d := by
  induction ds generalizing k with
  | nil => cases h
  | cons x ds ih =>
    simp only [findDecl] at h
    by_cases hx : x.accepts scope a = true
    · rw [if_pos hx] at h
      simp only [Option.some.injEq, Prod.mk.injEq] at h
      obtain ⟨rfl, rfl⟩ := h
      simp
    · rw [if_neg hx] at h
      obtain ⟨h1, h2⟩ := ih (k + 1) h
      refine ⟨by omega, ?_⟩
      have : i - k = (i - (k + 1)) + 1 := by omega
      rw [this, List.getElem?_cons_succ]; exact h2

theorem findDecl_none (scope : Str → Option Str) (t : AttrTable E V) (a : Attr)
    (h : findDecl scope a t.decls 0 = none) : owner scope t a = none := by
  have := findDecl_findIdx scope a t.decls 0
  rw [h] at this
  unfold owner
  cases hh : List.findIdx? (fun d => d.accepts scope a) t.decls with
  | none => rfl
  | some n => rw [hh] at this; cases this

theorem findDecl_some (scope : Str → Option Str) (t : AttrTable E V) (a : Attr) (i : Nat)
    (d : AttrDecl E V) (h : findDecl scope a t.decls 0 = some (i, d)) :
    owner scope t a = some i ∧ t.decls[i]? = some d := by
  have h1 := findDecl_findIdx scope a t.decls 0
  have h2 := findDecl_get scope a t.decls 0 i d h
  rw [h] at h1
  unfold owner
  cases hh : List.findIdx? (fun d => d.accepts scope a) t.decls with
  | none => rw [hh] at h1; cases h1
  | some n =>
    rw [hh] at h1
    simp only [Option.map_some, Option.some.injEq, Nat.add_zero] at h1
    exact ⟨by rw [h1], by simpa using h2.2⟩

theorem owned_cons (scope : Str → Option Str) (t : AttrTable E V) (a : Attr) (as : List Attr)
    (i : Nat) : owned scope t (a :: as) i =
      if !isXmlnsKey a.key && owner scope t a == some i then a :: owned scope t as i
      else owned scope t as i := by
  unfold owned
  cases hx : isXmlnsKey a.key
  · cases ho : (owner scope t a == some i) <;> simp [hx, ho]
  · simp [hx]

theorem foreign_cons (scope : Str → Option Str) (t : AttrTable E V) (a : Attr) (as : List Attr) :
    foreign scope t (a :: as) =
      if !isXmlnsKey a.key && owner scope t a == none then a :: foreign scope t as
      else foreign scope t as := by
  unfold foreign
  cases hx : isXmlnsKey a.key
  · cases ho : owner scope t a <;> simp [hx, ho]
  · simp [hx]

/-- What the loop does to one slot. -/
def SlotSpec (d : AttrDecl E V) (before : Option V) (as : List Attr) (after : Option V) : Prop :=
  (as = [] ∧ after = before) ∨
    ∃ a v, before = none ∧ as = [a] ∧ d.parse a.value = .ok v ∧ after = some v

/-- What the loop does. -/
structure LoopSpec (scope : Str → Option Str) (t : AttrTable E V) (st : Slots V)
    (as : List Attr) (st' : Slots V) : Prop where
  slot : ∀ i d, t.decls[i]? = some d → SlotSpec d (st.val i) (owned scope t as i) (st'.val i)
  out : ∀ i, t.decls[i]? = none → st'.val i = st.val i
  others : t.any = .checked → ∀ a ∈ foreign scope t as, globallyAllowed scope a = true
  unique : t.any = .store →
    ((st.rest.map (·.1)) ++ (foreign scope t as).map (·.key)).Nodup
  rest : st'.rest = if t.any = .store
    then st.rest ++ (foreign scope t as).map (fun a => (a.key, a.value)) else st.rest

theorem owner_out (scope : Str → Option Str) (t : AttrTable E V) (a : Attr) (i : Nat)
    (h : owner scope t a = some i) : ∃ d, t.decls[i]? = some d := by
  unfold owner at h
  have := List.findIdx?_eq_some_iff_getElem.mp h
  obtain ⟨h1, _⟩ := this
  exact ⟨_, List.getElem?_eq_getElem h1⟩

theorem slots_ext {s s' : Slots V} (h1 : ∀ i, s.val i = s'.val i) (h2 : s.rest = s'.rest) : s = s' := by
  cases s; cases s'
  simp only at h1 h2
  subst h2
  congr
  funext i; exact h1 i

theorem readAttrs_spec (scope : Str → Option Str) (t : AttrTable E V) (as : List Attr)
    (st : Slots V) (hst : t.any = .store → (st.rest.map (·.1)).Nodup) (st' : Slots V) :
    readAttrs scope t st (as.map .ok) = .ok st' ↔ LoopSpec scope t st as st' := by
  induction as generalizing st with
  | nil =>
    simp only [List.map_nil, readAttrs, Except.ok.injEq]
    constructor
    · rintro rfl
      exact ⟨fun i d _ => Or.inl ⟨rfl, rfl⟩, fun _ _ => rfl, fun _ a ha => by simp [foreign] at ha,
        fun h => by simpa [foreign] using hst h, by simp [foreign]⟩
    · intro h
      apply slots_ext
      · intro i
        cases hd : t.decls[i]? with
        | none => exact (h.out i hd).symm
        | some d =>
          rcases h.slot i d hd with ⟨_, h⟩ | ⟨a, v, _, h, _⟩
          · exact h.symm
          · simp [owned] at h
      · have := h.rest
        simp only [foreign, List.filter_nil, List.map_nil, List.append_nil, ite_self] at this
        exact this.symm
  | cons a as ih =>
    simp only [List.map_cons, readAttrs]
    cases hx : isXmlnsKey a.key with
    | true =>
      simp only [if_true]
      rw [ih st hst]
      have ho : ∀ i, owned scope t (a :: as) i = owned scope t as i := fun i => by
        rw [owned_cons]; simp [hx]
      have hf : foreign scope t (a :: as) = foreign scope t as := by rw [foreign_cons]; simp [hx]
      constructor
      · rintro ⟨h1, h2, h3, h4, h5⟩
        exact ⟨fun i d hd => by rw [ho]; exact h1 i d hd, h2, by rwa [hf], by rwa [hf], by rwa [hf]⟩
      · rintro ⟨h1, h2, h3, h4, h5⟩
        exact ⟨fun i d hd => by rw [← ho]; exact h1 i d hd, h2, by rwa [← hf], by rwa [← hf],
          by rwa [← hf]⟩
    | false =>
      simp only [Bool.false_eq_true, if_false]
      unfold readAttr
      cases hfd : findDecl scope a t.decls 0 with
      | some p =>
        obtain ⟨i, d⟩ := p
        obtain ⟨ho, hd⟩ := findDecl_some scope t a i d hfd
        have hown : ∀ j, owned scope t (a :: as) j =
            if j = i then a :: owned scope t as j else owned scope t as j := by
          intro j
          rw [owned_cons, hx, ho]
          by_cases hj : j = i
          · subst hj; simp
          · rw [if_neg hj]
            have : (some i == some j) = false := by
              simp only [beq_eq_false_iff_ne, ne_eq, Option.some.injEq]; exact fun h => hj h.symm
            simp [this]
        have hf : foreign scope t (a :: as) = foreign scope t as := by
          rw [foreign_cons, hx, ho]; simp
        simp only
        cases hv : st.val i with
        | some w =>
          simp only [Option.isSome_some, if_true]
          constructor
          · intro h; cases h
          · intro h
            rcases h.slot i d hd with ⟨h, _⟩ | ⟨_, _, h, _⟩
            · rw [hown, if_pos rfl] at h; cases h
            · rw [hv] at h; cases h
        | none =>
          simp only [Option.isSome_none, Bool.false_eq_true, if_false]
          cases hp : d.parse a.value with
          | error e =>
            constructor
            · intro h; cases h
            · intro h
              rcases h.slot i d hd with ⟨h, _⟩ | ⟨a', v, _, h, h2, _⟩
              · rw [hown, if_pos rfl] at h; cases h
              · rw [hown, if_pos rfl] at h
                simp only [List.cons.injEq] at h
                rw [← h.1, hp] at h2; cases h2
          | ok v =>
            simp only
            rw [ih { st with val := fun j => if j = i then some v else st.val j } hst]
            constructor
            · rintro ⟨h1, h2, h3, h4, h5⟩
              refine ⟨?_, ?_, by rwa [hf], by rwa [hf], by rwa [hf]⟩
              · intro j d' hd'
                rw [hown]
                have := h1 j d' hd'
                by_cases hj : j = i
                · subst hj
                  rw [hd] at hd'; cases hd'
                  rw [if_pos rfl]
                  simp only [if_true] at this
                  rcases this with ⟨e1, e2⟩ | ⟨_, _, e1, _⟩
                  · rw [e1]; exact Or.inr ⟨a, v, hv, rfl, hp, e2⟩
                  · cases e1
                · rw [if_neg hj]; simpa [hj] using this
              · intro j hj
                have := h2 j hj
                have hji : j ≠ i := by rintro rfl; rw [hd] at hj; cases hj
                simpa [hji] using this
            · rintro ⟨h1, h2, h3, h4, h5⟩
              refine ⟨?_, ?_, by rwa [← hf], by rwa [← hf], by rwa [← hf]⟩
              · intro j d' hd'
                have := h1 j d' hd'
                rw [hown] at this
                by_cases hj : j = i
                · subst hj
                  rw [hd] at hd'; cases hd'
                  rw [if_pos rfl] at this
                  rcases this with ⟨e1, _⟩ | ⟨a', v', _, e1, e2, e3⟩
                  · cases e1
                  · simp only [List.cons.injEq] at e1
                    rw [← e1.1, hp] at e2
                    simp only [Except.ok.injEq] at e2
                    subst e2
                    exact Or.inl ⟨e1.2, by simpa using e3⟩
                · rw [if_neg hj] at this; simpa [hj] using this
              · intro j hj
                have := h2 j hj
                have hji : j ≠ i := by rintro rfl; rw [hd] at hj; cases hj
                simpa [hji] using this
      | none =>
        have ho := findDecl_none scope t a hfd
        have hown : ∀ j, owned scope t (a :: as) j = owned scope t as j := by
          intro j
          rw [owned_cons, hx, ho]; simp
        have hf : foreign scope t (a :: as) = a :: foreign scope t as := by
          rw [foreign_cons, hx, ho]; simp
        simp only
        cases hany : t.any with
        | checked =>
          simp only
          by_cases hg : globallyAllowed scope a = true
          · rw [if_pos hg]
            simp only
            rw [ih st hst]
            constructor
            · rintro ⟨h1, h2, h3, h4, h5⟩
              refine ⟨fun i d hd => by rw [hown]; exact h1 i d hd, h2, ?_, ?_, ?_⟩
              · intro _ x hx'
                rw [hf] at hx'
                rcases List.mem_cons.mp hx' with rfl | hx'
                · exact hg
                · exact h3 hany x hx'
              · intro h; rw [hany] at h; cases h
              · rw [hany] at h5 ⊢; simpa using h5
            · rintro ⟨h1, h2, h3, h4, h5⟩
              refine ⟨fun i d hd => by rw [← hown]; exact h1 i d hd, h2, ?_, ?_, ?_⟩
              · intro _ x hx'
                exact h3 hany x (by rw [hf]; exact List.mem_cons_of_mem _ hx')
              · intro h; rw [hany] at h; cases h
              · rw [hany] at h5 ⊢; simpa using h5
          · rw [if_neg hg]
            constructor
            · intro h; cases h
            · intro h; exact absurd (h.others hany a (by rw [hf]; simp)) hg
        | ignore =>
          simp only
          rw [ih st hst]
          constructor
          · rintro ⟨h1, h2, h3, h4, h5⟩
            refine ⟨fun i d hd => by rw [hown]; exact h1 i d hd, h2, ?_, ?_, ?_⟩
            · intro h; rw [hany] at h; cases h
            · intro h; rw [hany] at h; cases h
            · rw [hany] at h5 ⊢; simpa using h5
          · rintro ⟨h1, h2, h3, h4, h5⟩
            refine ⟨fun i d hd => by rw [← hown]; exact h1 i d hd, h2, ?_, ?_, ?_⟩
            · intro h; rw [hany] at h; cases h
            · intro h; rw [hany] at h; cases h
            · rw [hany] at h5 ⊢; simpa using h5
        | store =>
          simp only [AttrMap.push]
          by_cases hk : (st.rest.any fun e => e.1 == a.key) = true
          · rw [if_pos hk]
            constructor
            · intro h; cases h
            · intro h
              have hn := h.unique hany
              rw [hf, List.map_cons, List.nodup_append] at hn
              have := hn.2.2 a.key ((AttrMap.any_iff st.rest a.key).mp hk) a.key (by simp)
              exact absurd rfl this
          · rw [if_neg hk]
            simp only
            have hk' : a.key ∉ st.rest.map (·.1) := fun h => hk ((AttrMap.any_iff _ _).mpr h)
            have hst' : ((st.rest ++ [(a.key, a.value)]).map (·.1)).Nodup := by
              rw [List.map_append, List.nodup_append]
              refine ⟨hst hany, by simp, ?_⟩
              intro x hx' y hy
              simp only [List.map_cons, List.map_nil, List.mem_singleton] at hy
              subst hy
              intro hxy; subst hxy; exact hk' hx'
            rw [ih { st with rest := st.rest ++ [(a.key, a.value)] } (fun _ => hst')]
            constructor
            · rintro ⟨h1, h2, h3, h4, h5⟩
              refine ⟨fun i d hd => by rw [hown]; exact h1 i d hd, h2, ?_, ?_, ?_⟩
              · intro h; rw [hany] at h; cases h
              · intro h; have := h4 h; rw [hf]; simpa using this
              · rw [hany] at h5 ⊢; rw [hf]; simpa using h5
            · rintro ⟨h1, h2, h3, h4, h5⟩
              refine ⟨fun i d hd => by rw [← hown]; exact h1 i d hd, h2, ?_, ?_, ?_⟩
              · intro h; rw [hany] at h; cases h
              · intro h; have := h4 h; rw [hf] at this; simpa using this
              · rw [hany] at h5 ⊢; rw [hf] at h5; simpa using h5

theorem initFields_spec (val : Nat → Option V) (ds : List (AttrDecl E V)) (k : Nat)
    (vs : List (Option V)) :
    initFields val ds k = .ok vs ↔
      vs.length = ds.length ∧ ∀ i d, ds[i]? = some d →
        ∃ v, initField d (val (k + i)) = .ok v ∧ vs[i]? = some v := by
  induction ds generalizing k vs with
  | nil =>
    simp only [initFields, Except.ok.injEq]
    constructor
    · rintro rfl; exact ⟨rfl, fun i d h => by simp at h⟩
    · rintro ⟨h, _⟩; exact (List.length_eq_zero_iff.mp h).symm
  | cons d ds ih =>
    simp only [initFields]
    cases hi : initField d (val k) with
    | error e =>
      constructor
      · intro h; cases h
      · rintro ⟨_, h⟩
        obtain ⟨v, h, _⟩ := h 0 d rfl
        rw [Nat.add_zero, hi] at h; cases h
    | ok v =>
      simp only
      cases hr : initFields val ds (k + 1) with
      | error e =>
        constructor
        · intro h; cases h
        · rintro ⟨hl, h⟩
          cases vs with
          | nil => simp at hl
          | cons w ws =>
            have := (ih (k + 1) ws).mpr ⟨by simpa using hl, fun i d' hd => by
              obtain ⟨v, h1, h2⟩ := h (i + 1) d' (by simpa using hd)
              exact ⟨v, by rw [← h1]; congr 2; omega, by simpa using h2⟩⟩
            rw [hr] at this; cases this
      | ok ws =>
        simp only [Except.ok.injEq]
        have h0 := (ih (k + 1) ws).mp hr
        constructor
        · rintro rfl
          refine ⟨by simp [h0.1], ?_⟩
          intro i d' hd
          cases i with
          | zero =>
            simp only [List.getElem?_cons_zero, Option.some.injEq] at hd
            subst hd
            exact ⟨v, hi, rfl⟩
          | succ i =>
            obtain ⟨w, h1, h2⟩ := h0.2 i d' (by simpa using hd)
            exact ⟨w, by rw [← h1]; congr 2; omega, by simpa using h2⟩
        · rintro ⟨hl, h⟩
          cases vs with
          | nil => simp at hl
          | cons w ws' =>
            have := (ih (k + 1) ws').mpr ⟨by simpa using hl, fun i d' hd => by
              obtain ⟨v, h1, h2⟩ := h (i + 1) d' (by simpa using hd)
              exact ⟨v, by rw [← h1]; congr 2; omega, by simpa using h2⟩⟩
            rw [hr] at this
            simp only [Except.ok.injEq] at this
            obtain ⟨v', h1, h2⟩ := h 0 d rfl
            rw [Nat.add_zero, hi] at h1
            simp only [Except.ok.injEq] at h1
            simp only [List.getElem?_cons_zero, Option.some.injEq] at h2
            rw [this, h1, h2]

/-- **C07.** The attributes of a start tag are accepted with field values `vs` exactly if the
tag is valid in the sense of `ValidTag`, and the wildcard field holds exactly the attributes
that belong to no declaration, in document order. In particular a repeated declared
attribute, an attribute that is neither declared nor an `xsi` one, and a missing required
attribute are all rejected. -/
theorem C07_accepted_iff (scope : Str → Option Str) (t : AttrTable E V) (as : List Attr)
    (vs : List (Option V)) (rest : AttrMap) :
    fromBytesStart scope t (as.map .ok) = .ok (vs, rest) ↔
      ValidTag scope t as vs ∧
        rest = if t.any = .store then (foreign scope t as).map fun a => (a.key, a.value) else [] := by
  have hloop : ∀ st, (if t.decls.isEmpty && t.any == .ignore then Except.ok ({} : Slots V)
      else readAttrs scope t {} (as.map .ok)) = .ok st ↔ LoopSpec scope t {} as st := by
    intro st
    by_cases hc : (t.decls.isEmpty && t.any == .ignore) = true
    · rw [if_pos hc]
      simp only [Bool.and_eq_true, List.isEmpty_iff, beq_iff_eq] at hc
      simp only [Except.ok.injEq]
      constructor
      · rintro rfl
        refine ⟨fun i d hd => by rw [hc.1] at hd; simp at hd, fun _ _ => rfl,
          fun h => (by rw [hc.2] at h; cases h), fun h => (by rw [hc.2] at h; cases h), ?_⟩
        rw [if_neg (by rw [hc.2]; simp)]
      · intro h
        apply slots_ext
        · intro i
          exact (h.out i (by rw [hc.1]; rfl)).symm
        · have := h.rest
          rw [if_neg (by rw [hc.2]; simp)] at this
          exact this.symm
    · rw [if_neg hc]
      exact readAttrs_spec scope t as {} (fun _ => List.nodup_nil) st
  unfold fromBytesStart
  simp only
  constructor
  · intro h
    cases hl : (if t.decls.isEmpty && t.any == .ignore then Except.ok ({} : Slots V)
        else readAttrs scope t {} (as.map .ok)) with
    | error e => rw [hl] at h; cases h
    | ok st =>
      rw [hl] at h
      have L := (hloop st).mp hl
      simp only at h
      cases hi : initFields st.val t.decls 0 with
      | error e => rw [hi] at h; cases h
      | ok ws =>
        rw [hi] at h
        simp only [Except.ok.injEq, Prod.mk.injEq] at h
        obtain ⟨rfl, rfl⟩ := h
        obtain ⟨h1, h2⟩ := (initFields_spec _ _ _ _).mp hi
        refine ⟨⟨h1, ?_, L.others, fun h => by simpa using L.unique h⟩, by simpa using L.rest⟩
        intro i d hd
        obtain ⟨v, h3, h4⟩ := h2 i d hd
        rw [Nat.zero_add] at h3
        rcases L.slot i d hd with ⟨e1, e2⟩ | ⟨a, w, _, e1, e2, e3⟩
        · left
          simp only at e2
          rw [e2] at h3
          unfold initField at h3
          cases hdef : d.default with
          | some x =>
            rw [hdef] at h3
            simp only [Option.getD_none, Except.ok.injEq] at h3
            exact ⟨e1, by rw [h4, ← h3], fun _ => by simp⟩
          | none =>
            rw [hdef] at h3
            simp only at h3
            by_cases hr : d.required = true
            · rw [if_pos hr] at h3; cases h3
            · rw [if_neg hr] at h3
              simp only [Except.ok.injEq] at h3
              exact ⟨e1, by rw [h4, ← h3], fun h => absurd h hr⟩
        · right
          rw [e3] at h3
          refine ⟨a, w, e1, e2, ?_⟩
          rw [h4]
          unfold initField at h3
          cases hdef : d.default with
          | some x => rw [hdef] at h3; simpa using h3.symm
          | none =>
            rw [hdef] at h3
            simp only [ite_self, Except.ok.injEq] at h3
            rw [← h3]
  · rintro ⟨⟨h1, h2, h3, h4⟩, h5⟩
    -- the slots after the loop
    let val : Nat → Option V := fun i =>
      match t.decls[i]? with
      | none => none
      | some d =>
        match owned scope t as i with
        | [] => none
        | a :: _ => match d.parse a.value with
          | .ok v => some v
          | .error _ => none
    have L : LoopSpec scope t {} as ⟨val, rest⟩ := by
      refine ⟨?_, ?_, h3, fun h => by simpa using h4 h, by simpa using h5⟩
      · intro i d hd
        rcases h2 i d hd with ⟨e1, _⟩ | ⟨a, v, e1, e2, _⟩
        · left; refine ⟨e1, ?_⟩; simp [val, hd, e1]
        · right; refine ⟨a, v, rfl, e1, e2, ?_⟩; simp [val, hd, e1, e2]
      · intro i hd; simp [val, hd]
    rw [(hloop _).mpr L]
    simp only
    have hi : initFields val t.decls 0 = .ok vs := by
      rw [initFields_spec]
      refine ⟨h1, ?_⟩
      intro i d hd
      rw [Nat.zero_add]
      rcases h2 i d hd with ⟨e1, e2, e3⟩ | ⟨a, v, e1, e2, e3⟩
      · have hv : val i = none := by simp [val, hd, e1]
        refine ⟨d.default, ?_, e2⟩
        rw [hv]
        unfold initField
        cases hdef : d.default with
        | some x => rfl
        | none =>
          simp only
          by_cases hr : d.required = true
          · exact absurd hdef (e3 hr)
          · rw [if_neg hr]
      · have hv : val i = some v := by simp [val, hd, e1, e2]
        refine ⟨some v, ?_, e3⟩
        rw [hv]
        unfold initField
        cases hdef : d.default with
        | some x => rfl
        | none => simp
    rw [hi]

/-- **C07**, order: reading the same attributes in another order gives the same fields or is
rejected as well; the wildcard holds the same attributes. -/
theorem C07_order_independent (scope : Str → Option Str) (t : AttrTable E V) (as bs : List Attr)
    (hp : as.Perm bs) (vs : List (Option V)) (rest : AttrMap)
    (h : fromBytesStart scope t (as.map .ok) = .ok (vs, rest)) :
    ∃ rest', fromBytesStart scope t (bs.map .ok) = .ok (vs, rest') ∧ rest.Perm rest' := by
  obtain ⟨hv, hr⟩ := (C07_accepted_iff scope t as vs rest).mp h
  have hf : (foreign scope t as).Perm (foreign scope t bs) := (hp.filter _).filter _
  have ho : ∀ i, (owned scope t as i).Perm (owned scope t bs i) := fun i => (hp.filter _).filter _
  refine ⟨_, (C07_accepted_iff scope t bs vs _).mpr ⟨⟨hv.length, ?_, ?_, ?_⟩, rfl⟩, ?_⟩
  · intro i d hd
    rcases hv.field i d hd with ⟨e1, e2⟩ | ⟨a, v, e1, e2⟩
    · left; have := ho i; rw [e1] at this; exact ⟨this.symm.eq_nil, e2⟩
    · right; have := ho i; rw [e1] at this
      exact ⟨a, v, List.perm_singleton.mp this.symm, e2⟩
  · intro h a ha; exact hv.others h a (hf.mem_iff.mpr ha)
  · intro h; exact ((hf.map _).nodup_iff).mp (hv.unique h)
  · rw [hr]
    by_cases hs : t.any = .store
    · rw [if_pos hs, if_pos hs]; exact hf.map _
    · rw [if_neg hs, if_neg hs]

/-- **C07**, errors reported by the XML reader for an attribute (e.g. a repeated key) are never
swallowed, unless the type ignores all attributes. -/
theorem C07_reader_errors_reported (scope : Str → Option Str) (t : AttrTable E V)
    (items : List (Except E Attr)) (e : E) (he : .error e ∈ items)
    (ht : ¬ (t.decls = [] ∧ t.any = .ignore)) :
    ∀ r, fromBytesStart scope t items ≠ .ok r := by
  have loop : ∀ (items : List (Except E Attr)) (st st' : Slots V), .error e ∈ items →
      readAttrs scope t st items ≠ .ok st' := by
    intro items
    induction items with
    | nil => intro st st' h; cases h
    | cons x items ih =>
      intro st st' h hr
      cases x with
      | error e' => cases hr
      | ok a =>
        have hm : .error e ∈ items := by
          rcases List.mem_cons.mp h with h | h
          · cases h
          · exact h
        simp only [readAttrs] at hr
        by_cases hx : isXmlnsKey a.key = true
        · rw [if_pos hx] at hr; exact ih st st' hm hr
        · rw [if_neg hx] at hr
          cases hra : readAttr scope t st a with
          | error e' => rw [hra] at hr; cases hr
          | ok st1 => rw [hra] at hr; exact ih st1 st' hm hr
  intro r hr
  unfold fromBytesStart at hr
  simp only at hr
  rw [if_neg (by simpa using ht)] at hr
  cases hl : readAttrs scope t {} items with
  | error e' => rw [hl] at hr; cases hr
  | ok st => exact loop items {} st he hl

/-- **C07**, namespace declarations: the attributes left out of `owned` and `foreign` are exactly those
named `xmlns` or `xmlns:p`. -/
theorem C07_namespace_declaration_iff (key : Str) :
    isXmlnsKey key = true ↔ key = "xmlns".toList ∨ ∃ p, key = "xmlns:".toList ++ p := by
  have hx : xmlnsStr ++ [':'] = "xmlns:".toList := by decide
  have hy : xmlnsStr = "xmlns".toList := by decide
  unfold isXmlnsKey
  rw [hx, hy]
  simp only [Bool.or_eq_true, beq_iff_eq, List.isPrefixOf_iff_prefix]
  constructor
  · rintro (h | ⟨p, h⟩)
    · exact .inl h
    · exact .inr ⟨p, h.symm⟩
  · rintro (h | ⟨p, h⟩)
    · exact .inl h
    · exact .inr ⟨p, h.symm⟩

example : isXmlnsKey "xmlns:a".toList = true ∧ isXmlnsKey "xmlnsa".toList = false := by decide

/-- **C07**, attributes allowed on every element: exactly the four attributes XML Schema defines in the
instance namespace, written with a prefix bound to that namespace. -/
theorem C07_globally_allowed_iff (scope : Str → Option Str) (a : Attr) :
    globallyAllowed scope a = true ↔
      ∃ p l, splitName a.key = (some p, l) ∧
        scope p = some "http://www.w3.org/2001/XMLSchema-instance".toList ∧
        l ∈ ["schemaLocation".toList, "noNamespaceSchemaLocation".toList, "type".toList, "nil".toList] := by
  unfold globallyAllowed resolveAttr
  cases hs : splitName a.key with
  | mk p l =>
    cases p with
    | none => simp
    | some p =>
      cases hn : scope p with
      | none =>
        simp only [hn]
        constructor
        · intro h; cases h
        · rintro ⟨p', l', e, h, _⟩
          simp only [Prod.mk.injEq, Option.some.injEq] at e
          rw [← e.1, hn] at h; cases h
      | some ns =>
        simp only [hn, Bool.and_eq_true, Bool.or_eq_true, beq_iff_eq]
        constructor
        · rintro ⟨h1, h2⟩
          refine ⟨p, l, rfl, by rw [hn, h1]; rfl, ?_⟩
          rcases h2 with ((rfl | rfl) | rfl) | rfl
          · exact List.mem_cons_self
          · exact .tail _ List.mem_cons_self
          · exact .tail _ (.tail _ List.mem_cons_self)
          · exact .tail _ (.tail _ (.tail _ List.mem_cons_self))
        · rintro ⟨p', l', e, h1, h2⟩
          simp only [Prod.mk.injEq, Option.some.injEq] at e
          obtain ⟨rfl, rfl⟩ := e
          rw [hn, Option.some.injEq] at h1
          refine ⟨h1, ?_⟩
          rcases List.mem_cons.mp h2 with h | h2
          · exact .inl (.inl (.inl h))
          · rcases List.mem_cons.mp h2 with h | h2
            · exact .inl (.inl (.inr h))
            · rcases List.mem_cons.mp h2 with h | h2
              · exact .inl (.inr h)
              · exact .inr (List.mem_singleton.mp h2)

/-- The attribute carries the expanded name `(ns, name)` of the declaration, in the sense of
Namespaces in XML. -/
def SameName (scope : Str → Option Str) (d : AttrDecl E V) (a : Attr) : Prop :=
  match splitName a.key with
  | (none, l) => d.ns = none ∧ l = d.name
  | (some p, l) => d.ns = scope p ∧ d.ns ≠ none ∧ l = d.name

/-- **C07** (partial), which attributes belong to a declaration: those with its expanded name
do. Conversely an attribute that is accepted has its local name, and if both the attribute has a
prefix and the declaration has a namespace, it has its expanded name. Missing: prefixed attributes for
declarations without namespace, and unprefixed attributes for declarations with one, which
are accepted although the names differ (`C07_other_name_accepted`). -/
theorem C07_matching_partial (scope : Str → Option Str) (d : AttrDecl E V) (a : Attr) :
    (SameName scope d a → d.accepts scope a = true) ∧
    (d.accepts scope a = true → (splitName a.key).2 = d.name) ∧
    (d.accepts scope a = true → (splitName a.key).1 ≠ none → d.ns ≠ none → SameName scope d a) := by
  unfold SameName AttrDecl.accepts resolveLocalName resolveAttr
  cases hs : splitName a.key with
  | mk p l =>
    cases p with
    | none =>
      cases hn : d.ns with
      | none => simp
      | some ns => simp
    | some p =>
      cases hn : d.ns with
      | none => simp
      | some ns =>
        simp only
        cases hsc : scope p with
        | none => simp
        | some x =>
          simp only
          by_cases hx : x = ns
          · subst hx; simp
          · simp only [if_neg hx]
            refine ⟨?_, ?_, ?_⟩
            · rintro ⟨h, _⟩; simp only [Option.some.injEq] at h; exact absurd h.symm hx
            · intro h; simp at h
            · intro h; simp at h

/-- **C07** is false of attributes in a foreign namespace: `x:id` is taken for the undeclared-namespace
attribute `id`, so that a tag with both is rejected as a duplicate; and the unprefixed
`lang` is taken for the declared `xml:lang`-like attribute of a namespace. -/
theorem C07_other_name_accepted :
    (∃ (t : AttrTable Unit Str) (scope : Str → Option Str) (a b : Attr) (d : AttrDecl Unit Str),
      t.decls = [d] ∧ ¬ SameName scope d a ∧ SameName scope d b ∧
      fromBytesStart scope t [.ok a] = .ok ([some a.value], []) ∧
      fromBytesStart scope t [.ok a, .ok b] = .error (.duplicate d.name)) ∧
    (∃ (t : AttrTable Unit Str) (scope : Str → Option Str) (a : Attr) (d : AttrDecl Unit Str),
      t.decls = [d] ∧ ¬ SameName scope d a ∧
      fromBytesStart scope t [.ok a] = .ok ([some a.value], [])) := by
  constructor
  · let d : AttrDecl Unit Str := ⟨none, ['i', 'd'], false, none, .ok⟩
    refine ⟨⟨[d], .checked⟩, fun p => if p = ['x'] then some ['n'] else none,
      ⟨['x', ':', 'i', 'd'], ['1']⟩, ⟨['i', 'd'], ['2']⟩, d, rfl, ?_, ?_, rfl, rfl⟩
    · intro h; exact h.2.1 rfl
    · exact ⟨rfl, rfl⟩
  · let d : AttrDecl Unit Str := ⟨some ['n'], ['l'], false, none, .ok⟩
    refine ⟨⟨[d], .checked⟩, fun _ => none, ⟨['l'], ['1']⟩, d, rfl, ?_, rfl⟩
    intro h
    have : (some ['n'] : Option Str) = none := h.1
    cases this

/-- Non-vacuity: a valid tag with a declared, a defaulted, an `xsi` and a namespace attribute;
and the three kinds of rejection. -/
example :
    let scope : Str → Option Str := fun p => if p = ['x'] then some xsiNs else none
    let t : AttrTable Unit Str := ⟨[⟨none, ['a'], true, none, .ok⟩, ⟨none, ['b'], false, some ['0'], .ok⟩], .checked⟩
    let xs : Attr := ⟨['x', ':', 'n', 'i', 'l'], ['0']⟩
    let ns : Attr := ⟨xmlnsStr ++ [':', 'x'], ['u']⟩
    let a : Attr := ⟨['a'], ['1']⟩
    ValidTag scope t [xs, ns, a] [some ['1'], some ['0']] ∧
    fromBytesStart scope t [.ok xs, .ok ns] = .error (.missing ['a']) ∧
    fromBytesStart scope t [.ok a, .ok a] = .error (.duplicate ['a']) ∧
    fromBytesStart scope t [.ok a, .ok ⟨['c'], []⟩] = .error (.unexpected ['c']) := by
  intro scope t xs ns a
  refine ⟨?_, rfl, rfl, rfl⟩
  exact ((C07_accepted_iff scope t [xs, ns, a] [some ['1'], some ['0']] []).mp rfl).1

end

end Verif.Rt

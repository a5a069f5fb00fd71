import Verif.Util.Assoc

/-!
# Identifiers in the configuration (C100)

Models `IdentQuadruple` (config/mod.rs 682-695), its `resolve` (784-841) and conversions (844-875), and `Schemas::resolve_schema`
(1092-1119), in `xsd-parser/src`. With it the configuration names the types to generate, user defined and dynamic types.
-/

namespace Verif.Parser.ConfigIdents

open Verif.Assoc

abbrev Txt := List Char

/-! ## Model -/

/-- `IdentType`, models/ident.rs 59-92; the kinds 7-10, which have no test of their own, are `other`. -/
inductive Kind where
  | type_ | group | element | elementType | attribute | attributeGroup | buildIn | other
deriving DecidableEq, Repr

/-- `Name`, models/name.rs 8-14. -/
inductive Name where
  | named (s : Txt)
  | generated (s : Txt)
deriving DecidableEq, Repr

def Name.str : Name → Txt
  | .named s => s
  | .generated s => s

/-- `TypeIdent`: namespace, schema, name and kind. -/
structure Ident where
  ns : Nat
  schema : Nat
  name : Name
  kind : Kind
deriving DecidableEq, Repr

/-- `SchemaContent`: the components of a schema document, as far as they are looked at. -/
inductive Comp where
  | element (name : Option Txt)
  | simpleType (name : Option Txt)
  | complexType (name : Option Txt)
  | other
deriving DecidableEq, Repr

/-- `SchemaInfo`. -/
structure Info where
  name : Option Txt
  location : Option Txt
  content : List Comp
deriving DecidableEq, Repr

/-- `Schemas`, models/schema/mod.rs 39-48: the schemas are in the order of their ids. -/
structure Schemas where
  schemas : List (Nat × Info)
  namespaces : List (Nat × List Nat)
  knownNs : List (Option Txt × Nat)
  knownPrefixes : List (Txt × Nat)

/-- `NamespaceIdent` and `SchemaIdent`, config/mod.rs 963-980 and 1031-1040. -/
inductive NsRef where
  | id (n : Nat)
  | pre (p : Txt)
  | uri (u : Txt)
  | anonymous
deriving DecidableEq, Repr

inductive SchemaRef where
  | id (n : Nat)
  | name (s : Txt)
  | location (l : Txt)
deriving DecidableEq, Repr

structure Quad where
  ns : Option NsRef
  schema : Option SchemaRef
  name : Txt
  kind : Kind
deriving DecidableEq, Repr

inductive Err where
  | anonymousUndefined
  | unknownPrefix (p : Txt)
  | unknownNamespace (u : Txt)
deriving DecidableEq, Repr

/-- The test in `resolve_schema`, config/mod.rs 1101-1113. -/
def matchesComp (kind : Kind) (name : Txt) : Comp → Bool
  | .element x => kind == .element && x == some name
  | .simpleType x => kind == .type_ && x == some name
  | .complexType x => kind == .type_ && x == some name
  | .other => false

/-- `Schemas::resolve_schema`, config/mod.rs 1093-1119. -/
def resolveSchema (S : Schemas) (ns : Nat) (name : Txt) (kind : Kind) : Option Nat :=
  (get S.namespaces ns).bind fun ids => ids.find? fun id =>
    match get S.schemas id with
    | none => false
    | some info => info.content.any (matchesComp kind name)

/-- The namespace in `resolve`, config/mod.rs 794-810. -/
def resolveNs (S : Schemas) : Option NsRef → Except Err Nat
  | none | some .anonymous => match get S.knownNs none with
    | some n => .ok n
    | none => .error .anonymousUndefined
  | some (.id n) => .ok n
  | some (.pre p) => match get S.knownPrefixes p with
    | some n => .ok n
    | none => .error (.unknownPrefix p)
  | some (.uri u) => match get S.knownNs (some u) with
    | some n => .ok n
    | none => .error (.unknownNamespace u)

/-- `x.schemas.len() == 1`, config/mod.rs 815-821. -/
def only : List Nat → Option Nat
  | [x] => some x
  | _ => none

/-- The schema in `resolve`, config/mod.rs 812-831; 0 is `SchemaId::UNKNOWN`. -/
def resolveSchemaRef (S : Schemas) (ns : Nat) (name : Txt) (kind : Kind) : Option SchemaRef → Nat
  | none => (((get S.namespaces ns).bind only).or (resolveSchema S ns name kind)).getD 0
  | some (.id n) => n
  | some (.name s) => ((S.schemas.find? fun p => p.2.name == some s).map (·.1)).getD 0
  | some (.location l) => ((S.schemas.find? fun p => p.2.location == some l).map (·.1)).getD 0

/-- `IdentQuadruple::resolve`, config/mod.rs 784-841. -/
def resolve (S : Schemas) (q : Quad) : Except Err Ident :=
  match resolveNs S q.ns with
  | .error e => .error e
  | .ok ns => .ok ⟨ns, resolveSchemaRef S ns q.name q.kind q.schema, .named q.name, q.kind⟩

/-- `From<(IdentType, X)>`, config/mod.rs 855-875: the text is split at its first colon. -/
def fromText (kind : Kind) (s : Txt) : Quad :=
  if ':' ∈ s then ⟨some (.pre (s.takeWhile (· != ':'))), none, (s.dropWhile (· != ':')).drop 1, kind⟩
  else ⟨none, none, s, kind⟩

/-- `From<TypeIdent>`, config/mod.rs 844-853. -/
def fromIdent (i : Ident) : Quad := ⟨some (.id i.ns), some (.id i.schema), i.name.str, i.kind⟩

/-! ## Specification -/

/-- The schema declares an element, or a simple or complex type, of this name at its top level. -/
def Declares (S : Schemas) (id : Nat) (kind : Kind) (name : Txt) : Prop :=
  ∃ info, get S.schemas id = some info ∧
    (kind = .element ∧ .element (some name) ∈ info.content ∨
      kind = .type_ ∧ (.simpleType (some name) ∈ info.content ∨ .complexType (some name) ∈ info.content))

/-- The schema belongs to the namespace. -/
def InNs (S : Schemas) (ns id : Nat) : Prop := ∃ ids, get S.namespaces ns = some ids ∧ id ∈ ids

/-- What a reference to a namespace means. -/
def Means (S : Schemas) (ns : Nat) : Option NsRef → Prop
  | none | some .anonymous => get S.knownNs none = some ns
  | some (.id n) => n = ns
  | some (.pre p) => get S.knownPrefixes p = some ns
  | some (.uri u) => get S.knownNs (some u) = some ns

/-! ## Proofs -/

theorem resolveNs_ok {S : Schemas} {r : Option NsRef} {ns : Nat} : resolveNs S r = .ok ns ↔ Means S ns r := by
  unfold resolveNs Means
  rcases r with _ | (n | p | u | _)
  · cases h : get S.knownNs none <;> simp [h]
  · simp
  · cases h : get S.knownPrefixes p <;> simp [h]
  · cases h : get S.knownNs (some u) <;> simp [h]
  · cases h : get S.knownNs none <;> simp [h]

theorem test_iff {S : Schemas} {id : Nat} {kind : Kind} {name : Txt} :
    (match get S.schemas id with
      | none => false
      | some info => info.content.any (matchesComp kind name)) = true ↔ Declares S id kind name := by
  unfold Declares
  cases get S.schemas id with
  | none => simp
  | some info =>
    simp only [List.any_eq_true, Option.some.injEq, exists_eq_left']
    constructor
    · rintro ⟨c, hc, hm⟩
      cases c <;> simp only [matchesComp, Bool.and_eq_true, beq_iff_eq, Bool.false_eq_true] at hm
      · obtain ⟨rfl, rfl⟩ := hm; exact .inl ⟨rfl, hc⟩
      · obtain ⟨rfl, rfl⟩ := hm; exact .inr ⟨rfl, .inl hc⟩
      · obtain ⟨rfl, rfl⟩ := hm; exact .inr ⟨rfl, .inr hc⟩
    · rintro (⟨rfl, h⟩ | ⟨rfl, h | h⟩)
      · exact ⟨_, h, by simp [matchesComp]⟩
      · exact ⟨_, h, by simp [matchesComp]⟩
      · exact ⟨_, h, by simp [matchesComp]⟩

theorem find_first {α : Type} {p : α → Bool} {l : List α} {a : α} (h : l.find? p = some a) :
    p a = true ∧ ∃ l1 l2, l = l1 ++ a :: l2 ∧ ∀ x ∈ l1, p x = false := by
  rw [List.find?_eq_some_iff_append] at h
  obtain ⟨h1, l1, l2, h2, h3⟩ := h
  exact ⟨h1, l1, l2, h2, fun x hx => by simpa using h3 x hx⟩

/-! ## C100 -/

/-- **C100**. Resolving succeeds exactly if the namespace is known; the result has this namespace, the name and the kind. -/
theorem C100_namespace (S : Schemas) (q : Quad) :
    (∀ i, resolve S q = .ok i → Means S i.ns q.ns ∧ i.name = .named q.name ∧ i.kind = q.kind) ∧
    ((∃ i, resolve S q = .ok i) ↔ ∃ ns, Means S ns q.ns) := by
  unfold resolve
  cases h : resolveNs S q.ns with
  | error e =>
    refine ⟨by simp, ?_⟩
    constructor
    · rintro ⟨i, hi⟩; cases hi
    · rintro ⟨ns, hn⟩
      rw [resolveNs_ok.mpr hn] at h
      cases h
  | ok ns =>
    have hm := resolveNs_ok.mp h
    refine ⟨?_, ⟨fun _ => ⟨ns, hm⟩, fun _ => ⟨_, rfl⟩⟩⟩
    rintro i hi
    cases hi
    exact ⟨hm, rfl, rfl⟩

/-- **C100**. Without a schema, an identifier whose element or type is declared in a schema of its namespace gets the first such
schema, however many schemas the namespace has. -/
theorem C100_declared (S : Schemas) (q : Quad) (i : Ident) (hq : q.schema = none) (h : resolve S q = .ok i)
    (hd : ∃ id, InNs S i.ns id ∧ Declares S id q.kind q.name) :
    Declares S i.schema q.kind q.name ∧
      ∃ l1 l2, get S.namespaces i.ns = some (l1 ++ i.schema :: l2) ∧ ∀ id ∈ l1, ¬ Declares S id q.kind q.name := by
  obtain ⟨id, ⟨ids, hg, hm⟩, hdec⟩ := hd
  unfold resolve at h
  cases hn : resolveNs S q.ns with
  | error e => rw [hn] at h; cases h
  | ok ns =>
    rw [hn, hq] at h
    cases h
    simp only at hg ⊢
    simp only [resolveSchemaRef, resolveSchema, hg, Option.bind_some]
    by_cases h1 : ∃ x, ids = [x]
    · obtain ⟨x, rfl⟩ := h1
      simp only [List.mem_singleton] at hm
      subst hm
      exact ⟨hdec, [], [], rfl, by simp⟩
    · have ho : only ids = none := by
        unfold only
        split
        · exact absurd ⟨_, rfl⟩ h1
        · rfl
      rw [ho, Option.none_or]
      cases hf : ids.find? (fun id => match get S.schemas id with
          | none => false
          | some info => info.content.any (matchesComp q.kind q.name)) with
      | none =>
        rw [List.find?_eq_none] at hf
        exact absurd (test_iff.mpr hdec) (hf id hm)
      | some x =>
        obtain ⟨a, l1, l2, b, c⟩ := find_first hf
        refine ⟨test_iff.mp a, l1, l2, by rw [b]; rfl, fun y hy hc => ?_⟩
        have := c y hy
        rw [test_iff.mpr hc] at this
        cases this

/-- **C100**. If no schema of the namespace declares it, the schema is left open (0), unless the namespace has just one. So a schema is
never made up. -/
theorem C100_undeclared (S : Schemas) (q : Quad) (i : Ident) (hq : q.schema = none) (h : resolve S q = .ok i)
    (hd : ∀ id, InNs S i.ns id → ¬ Declares S id q.kind q.name) :
    i.schema = 0 ∨ get S.namespaces i.ns = some [i.schema] := by
  unfold resolve at h
  cases hn : resolveNs S q.ns with
  | error e => rw [hn] at h; cases h
  | ok ns =>
    rw [hn, hq] at h
    cases h
    simp only at hd ⊢
    simp only [resolveSchemaRef, resolveSchema]
    cases hg : get S.namespaces ns with
    | none => exact .inl rfl
    | some ids =>
      simp only [Option.bind_some]
      by_cases h1 : ∃ x, ids = [x]
      · obtain ⟨x, rfl⟩ := h1
        exact .inr rfl
      · have ho : only ids = none := by
          unfold only
          split
          · exact absurd ⟨_, rfl⟩ h1
          · rfl
        rw [ho, Option.none_or]
        have hf : ids.find? (fun id => match get S.schemas id with
            | none => false
            | some info => info.content.any (matchesComp q.kind q.name)) = none := by
          rw [List.find?_eq_none]
          intro x hx hc
          exact hd x ⟨ids, hg, hx⟩ (test_iff.mp hc)
        rw [hf]
        exact .inl rfl

/-- **C100**. `prefix:name` is the name in the namespace of the prefix, a text without colon a name in no namespace. -/
theorem C100_text (S : Schemas) (kind : Kind) (p n : Txt) (hp : ':' ∉ p) :
    (∀ i, resolve S (fromText kind (p ++ ':' :: n)) = .ok i → get S.knownPrefixes p = some i.ns ∧ i.name = .named n ∧ i.kind = kind) ∧
    (∀ i, resolve S (fromText kind p) = .ok i → get S.knownNs none = some i.ns ∧ i.name = .named p ∧ i.kind = kind) ∧
    (get S.knownPrefixes p = none → resolve S (fromText kind (p ++ ':' :: n)) = .error (.unknownPrefix p)) := by
  have hall : ∀ c ∈ p, (c != ':') = true := fun c hc => by
    simp only [bne_iff_ne, ne_eq]
    rintro rfl
    exact hp hc
  have h1 : fromText kind (p ++ ':' :: n) = ⟨some (.pre p), none, n, kind⟩ := by
    unfold fromText
    rw [if_pos (by simp), List.takeWhile_append_of_pos hall, List.dropWhile_append_of_pos hall]
    simp
  have h2 : fromText kind p = ⟨none, none, p, kind⟩ := by
    unfold fromText
    rw [if_neg hp]
  rw [h1, h2]
  refine ⟨fun i hi => (C100_namespace S _).1 i hi, fun i hi => (C100_namespace S _).1 i hi, fun hn => ?_⟩
  simp [resolve, resolveNs, hn]

/-- **C100** (partial). An identifier of the type information stands for itself, for all tables. Missing: generated names, see
`C100_generated_names_lost`. -/
theorem C100_round_trip_partial (S : Schemas) (i : Ident) (s : Txt) (h : i.name = .named s) : resolve S (fromIdent i) = .ok i := by
  obtain ⟨ns, schema, name, kind⟩ := i
  simp only at h
  subst h
  rfl

/-- **C100** (negation). Types with generated names (anonymous types) cannot be named: no identifier of the configuration ever resolves
to one, not even the one made from the type's own identifier. -/
theorem C100_generated_names_lost (S : Schemas) (q : Quad) (i : Ident) (s : Txt) (h : i.name = .generated s) : resolve S q ≠ .ok i := by
  intro hr
  have := ((C100_namespace S q).1 i hr).2.1
  rw [h] at this
  cases this

/-- **C100** (negation). Schemas are found by name among those of all namespaces, and the first one wins: a schema that has the same name as
an earlier one (files with the same name in two directories) is never found, whatever namespace is asked for. -/
theorem C100_same_schema_name (S : Schemas) (q : Quad) (i : Ident) (s : Txt) (l1 l2 : List (Nat × Info)) (id1 id2 : Nat) (info1 info2 : Info)
    (hS : S.schemas = l1 ++ (id1, info1) :: l2) (_h2 : (id2, info2) ∈ l2) (hk : (S.schemas.map (·.1)).Nodup) (hn1 : info1.name = some s)
    (_hn2 : info2.name = some s) (hq : q.schema = some (.name s)) (h : resolve S q = .ok i) : i.schema ≠ id2 := by
  unfold resolve at h
  cases hn : resolveNs S q.ns with
  | error e => rw [hn] at h; cases h
  | ok ns =>
    rw [hn, hq] at h
    cases h
    simp only [resolveSchemaRef]
    rw [hS, List.map_append, List.map_cons, List.nodup_append, List.nodup_cons] at hk
    obtain ⟨-, ⟨hk1, -⟩, hk3⟩ := hk
    have hm2 : id2 ∈ l2.map (·.1) := List.mem_map.mpr ⟨_, _h2, rfl⟩
    rw [hS, List.find?_append]
    cases hf : l1.find? (fun p => p.2.name == some s) with
    | some p =>
      intro e
      simp only [Option.some_or, Option.map_some, Option.getD_some] at e
      exact hk3 p.1 (List.mem_map.mpr ⟨p, List.mem_of_find?_eq_some hf, rfl⟩) id2 (by simp [hm2]) e
    | none =>
      have : (List.find? (fun p : Nat × Info => p.2.name == some s) ((id1, info1) :: l2)) = some (id1, info1) := by
        rw [List.find?_cons_of_pos]
        simp [hn1]
      rw [this]
      simp only [Option.none_or, Option.map_some, Option.getD_some]
      rintro rfl
      exact hk1 hm2

/-! ## Examples -/

namespace Ex

/-- `a/types.xsd` and `b/types.xsd` of two namespaces, and `c.xsd` of the first. -/
def S : Schemas where
  schemas := [(1, ⟨some "types".toList, some "a/types.xsd".toList, [.simpleType (some "T".toList)]⟩),
    (2, ⟨some "types".toList, some "b/types.xsd".toList, [.complexType (some "T".toList)]⟩),
    (3, ⟨some "c".toList, some "c.xsd".toList, [.other, .element (some "E".toList)]⟩)]
  namespaces := [(2, [1, 3]), (3, [2])]
  knownNs := [(some "urn:a".toList, 2), (some "urn:b".toList, 3)]
  knownPrefixes := [("a".toList, 2), ("b".toList, 3)]

example : resolve S (fromText .element "a:E".toList) = .ok ⟨2, 3, .named "E".toList, .element⟩ ∧
    resolve S (fromText .type_ "b:T".toList) = .ok ⟨3, 2, .named "T".toList, .type_⟩ ∧
    resolve S (fromText .type_ "a:X".toList) = .ok ⟨2, 0, .named "X".toList, .type_⟩ ∧
    resolve S (fromText .type_ "x:T".toList) = .error (.unknownPrefix "x".toList) ∧
    resolve S (fromText .type_ "T".toList) = .error .anonymousUndefined := ⟨rfl, rfl, rfl, rfl, rfl⟩

/-- The hypotheses of `C100_declared` and of `C100_same_schema_name`: the second schema `types` is asked for in its own namespace, and the
first is found, which belongs to another namespace. -/
example : InNs S 2 3 ∧ Declares S 3 .element "E".toList ∧ (S.schemas.map (·.1)).Nodup ∧
    resolve S ⟨some (.uri "urn:b".toList), some (.name "types".toList), "T".toList, .type_⟩ = .ok ⟨3, 1, .named "T".toList, .type_⟩ :=
  ⟨⟨[1, 3], rfl, by decide⟩, ⟨_, rfl, .inl ⟨rfl, by decide⟩⟩, by decide, rfl⟩

end Ex

end Verif.Parser.ConfigIdents

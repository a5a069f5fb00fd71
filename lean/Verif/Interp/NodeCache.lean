import Verif.Models.SchemaSearch
import Verif.Naming.Builder

/-!
# The components of the schemas and what they refer to (C84, C85)

Models `xsd-parser/src/pipeline/interpreter/state/crate_node_cache.rs` and `crate_ident_cache.rs`:
every named component of every schema document, and every anonymous one inside of them, becomes a
node of a graph; the references between them are resolved; `xs:redefine` and `xs:override` replace
components of another document.

Simplifications. The syntax of a component is the list of what the `process_*` functions meet in
it, in their order (`Item`): references to other components, anonymous components, and the border
of a group; facets, occurrences and the like are not looked at by this code. The namespace of a
reference is already the number of the namespace (`parse_qname`, state.rs 227-252, without the
error for unknown namespaces). A node is the number of its declaration, which also stands for the
address in `NodeDependencyKey::InlineElement`.
-/

namespace Verif.NodeCache

open Verif.Assoc Verif.Models Verif.Naming

/-! ## Model -/

/-- `TypeIdent`, models/ident.rs 11-28. -/
structure Id where
  ns : Nat
  schema : Nat
  kind : Nat
  name : Name
deriving DecidableEq, Repr

/-- `TypeIdent::with_schema`. -/
def Id.withSchema (i : Id) (s : Nat) : Id := { i with schema := s }

/-- What `IdentCache` stores of an identifier: only the text of its name, ident_cache.rs 85. -/
def Id.text (i : Id) : TIdent := ⟨i.ns, i.schema, i.kind, i.name.str⟩

/-- What comes out of the cache has a given name (`Name::new_named`, ident_cache.rs 328 and
crate_node_cache.rs 956). -/
def Id.ofText (t : TIdent) : Id := ⟨t.ns, t.schema, t.kind, .named t.name⟩

/-- The variants of `NodeDependency`, state.rs 71-83. -/
inductive Strength where
  | strong | weak | lazy
deriving DecidableEq, Repr

/-- `NodeDependency`, state.rs 71-83. -/
structure Link where
  strength : Strength
  target : Id
deriving DecidableEq, Repr

/-- `NodeDependencyKey`, state.rs 64-69. -/
inductive Key where
  | named (ns kind : Nat) (name : Txt)
  | inline (label : Nat)
deriving DecidableEq, Repr

/-- `NodeCacheEntry`, state.rs 57-62. The `BTreeMap` of the dependencies is in the order of
insertion. -/
structure Node where
  label : Nat
  kind : Nat
  deps : List (Key × Link) := []
  base : Option Id := none
deriving DecidableEq, Repr

/-- How the name of an anonymous component is chosen: from the name of the local element
(crate_node_cache.rs 704-715); for the simple types of attributes, lists and unions (469-480,
506-511, 663-669) the name is an input. -/
inductive NameFrom where
  | element (name : Txt)
  | given (name : Name)
deriving DecidableEq, Repr

/-- What the `process_*` functions meet in a component. -/
inductive Item where
  /-- `resolve_type_ident` and `add_dependency` -/
  | ref (strength : Strength) (kind : Nat) (ns : Option Nat) (name : Txt)
  /-- `process_group`, `process_attribute_group`: a frame on the stack around the content -/
  | group (body : List Item)
  /-- `new_inline_entry` and `add_dependency_with_key` -/
  | inline (label kind : Nat) (name : NameFrom) (body : List Item)

/-- A named component at the top of a document or inside of `xs:redefine` or `xs:override`. -/
structure Comp where
  label : Nat
  kind : Nat
  name : Txt
  body : List Item

/-- `SchemaContent` without annotations and notations. `xs:override` is processed like
`xs:redefine` (crate_node_cache.rs 222-338). -/
inductive Content where
  | load (location : Txt)
  | redefine (location : Txt) (comps : List Comp)
  | comp (c : Comp)

/-- `SchemaInfo`. -/
structure Doc where
  ns : Nat
  deps : List (Txt × Dep) := []
  content : List Content

/-- `Schemas`: the documents in the order of their numbers and the namespaces that are always
searched (crate_ident_cache.rs 41-45). -/
structure Docs where
  docs : List (Nat × Doc)
  globals : List Nat := []

/-- `StackEntry` without the documents, crate_node_cache.rs 63-74; the top of the stack first. -/
inductive Frame where
  | node (name : Name)
  | group
deriving DecidableEq, Repr

/-- The part of `NodeCacheProcessor` that is changed, crate_node_cache.rs 53-61. -/
structure St where
  nodes : List (Id × Node) := []
  idents : Cache := {}
  processed : List Nat := []

/-- Errors: a name that cannot be resolved; a run that does not end. -/
inductive Err where
  | unknown
  | ambiguous
  | diverged
deriving DecidableEq, Repr

/-- `self.ident_cache.insert(…); self.node_cache.insert(…)`. -/
def St.put (st : St) (i : Id) (n : Node) : St :=
  { st with nodes := upsert st.nodes i fun _ => n, idents := st.idents.insert i.text }

/-- `auto_extend`, crate_node_cache.rs 1013-1027. -/
def autoExtend (unify : Txt → Txt) (stopAtGroup replace : Bool) (b : Builder) : List Frame → Builder
  | [] => b
  | .node name :: _ => b.addExtension unify replace name.str
  | .group :: fs => if stopAtGroup then b else autoExtend unify stopAtGroup replace b fs

/-- The name of an anonymous component, crate_node_cache.rs 704-715 (a local element without type
has a name, so there is an extension). -/
def inlineName (unify : Txt → Txt) (stack : List Frame) : NameFrom → Name
  | .given n => n
  | .element n =>
    let b := autoExtend unify true false (Builder.new.addExtension unify true n) stack
    (({ b with withId := false }).finish unify 0).1

/-- `resolve_type_ident`, crate_node_cache.rs 916-936, with `parse_type_ident`. -/
def resolveRef (st : St) (schema : Nat) (base : Option Id) (ns kind : Nat) (name : Txt) :
    Except Err Id :=
  match base with
  | some b =>
    if b.ns = ns ∧ b.name.str = name ∧ b.kind = kind then .ok b else search
  | none => search
where
  /-- crate_node_cache.rs 930-935 -/
  search : Except Err Id :=
    let q : TIdent := ⟨ns, 0, kind, name⟩
    match st.idents.resolveFor schema q with
    | .ok i => .ok (.ofText i)
    | _ =>
      match st.idents.resolve q with
      | .ok i => .ok (.ofText i)
      | .ambiguous => .error .ambiguous
      | .unknown => .error .unknown
      | .diverged => .error .diverged

mutual

/-- One call of a `process_*` function; the node is the active entry (`active_entry_mut`). -/
def processItem (unify : Txt → Txt) (schema ns : Nat) (stack : List Frame) (n : Node) (st : St) :
    Item → Except Err (Node × St)
  | .ref strength kind rns name =>
    match resolveRef st schema n.base (rns.getD ns) kind name with
    | .error e => .error e
    | .ok i =>
      .ok ({ n with deps := upsert n.deps (.named (rns.getD ns) kind name) fun _ => ⟨strength, i⟩ },
        st)
  | .group body => processItems unify schema ns (.group :: stack) n st body
  | .inline label kind from_ body =>
    let name := inlineName unify stack from_
    match processItems unify schema ns (.node name :: stack) { label, kind } st body with
    | .error e => .error e
    | .ok (m, st) =>
      let i : Id := ⟨ns, schema, kind, name⟩
      .ok ({ n with deps := upsert n.deps (.inline label) fun _ => ⟨.weak, i⟩ }, st.put i m)

/-- The loops over the content. -/
def processItems (unify : Txt → Txt) (schema ns : Nat) (stack : List Frame) (n : Node) (st : St) :
    List Item → Except Err (Node × St)
  | [] => .ok (n, st)
  | i :: is =>
    match processItem unify schema ns stack n st i with
    | .error e => .error e
    | .ok (n, st) => processItems unify schema ns stack n st is

end

/-- The identifier of a component in a document. -/
def Comp.ident (c : Comp) (ns schema : Nat) : Id := ⟨ns, schema, c.kind, .named c.name⟩

/-- `new_entry`, crate_node_cache.rs 752-778, and `new_redefined_entry`, 808-838, where the base
is set. -/
def newEntry (unify : Txt → Txt) (schema ns : Nat) (base : Option Nat) (st : St) (c : Comp) :
    Except Err St :=
  let n : Node :=
    { label := c.label, kind := c.kind, base := base.map fun b => c.ident ns b }
  match processItems unify schema ns [.node (.named c.name)] n st c.body with
  | .error e => .error e
  | .ok (n, st) => .ok (st.put (c.ident ns schema) n)

/-- The new identifiers of a `for` loop over components. -/
def newEntries (unify : Txt → Txt) (schema ns : Nat) (base : Option Nat) (st : St) :
    List Comp → Except Err St
  | [] => .ok st
  | c :: cs =>
    match newEntry unify schema ns base st c with
    | .error e => .error e
    | .ok st => newEntries unify schema ns base st cs

/-- The dependency found in crate_node_cache.rs 361-367: the first one that points to the old
identifier, if that is not what this component itself redefines. -/
def Node.hit (n : Node) (old : Id) : Option (Key × Link) :=
  n.deps.find? fun d => d.2.target = old && n.base ≠ some old

/-- The body of the inner loop of `resolve_dependencies`, crate_node_cache.rs 355-391, for one
identifier; the second component is the set `idents`. -/
def redirectOne (schema : Nat) (old : Id) (s : St × List Id) (e : Id) : St × List Id :=
  match get s.1.nodes e with
  | none => s
  | some n =>
    match n.hit old with
    | none => s
    | some (key, link) =>
      let deps := upsert n.deps key fun _ => { link with target := old.withSchema schema }
      if e.schema = schema then
        ({ s.1 with nodes := upsert s.1.nodes e fun _ => { n with deps } }, s.2)
      else (s.1.put (e.withSchema schema) { n with deps, base := some e }, setInsert e s.2)

/-- What `schema_set(schema).collect()` yields. -/
def Lists (c : Cache) (schema : Nat) (out : List TIdent) : Prop :=
  ∃ fuel, c.iterRun fuel (c.iterNew schema) = some out

/-- One round of the outer loop of `resolve_dependencies`, crate_node_cache.rs 348-391, for the
identifier that was taken and the identifiers that are listed. -/
def round (schema : Nat) (old : Id) (listed : List TIdent) (s : St × List Id) : St × List Id :=
  (listed.map Id.ofText).foldl (redirectOne schema old) (s.1, s.2.filter (· ≠ old))

/-- `resolve_dependencies`, crate_node_cache.rs 342-392: which identifier is taken from the
`HashSet`, and in which order the `HashSet`s of the documents are listed, is not determined. -/
inductive Resolves (schema : Nat) : St × List Id → St → Prop
  | done (st : St) : Resolves schema (st, []) st
  | round {st : St} {todo : List Id} {old : Id} {out listed : List TIdent} {st' : St} :
      old ∈ todo → Lists st.idents schema out → listed.Perm out →
      Resolves schema (round schema old listed (st, todo)) st' → Resolves schema (st, todo) st'

/-- `resolve_dependencies` with one of these orders. The first argument bounds the rounds. -/
def resolveDeps (schema : Nat) : Nat → St × List Id → Option St
  | _, (st, []) => some st
  | 0, (_, _ :: _) => none
  | fuel + 1, (st, old :: todo) =>
    match st.idents.iterRun 1000 (st.idents.iterNew schema) with
    | none => none
    | some listed => resolveDeps schema fuel (round schema old listed (st, old :: todo))

/-- `process_redefine` and `process_override`, crate_node_cache.rs 222-338. -/
def processRedefine (unify : Txt → Txt) (schema ns base : Nat) (st : St) (cs : List Comp) :
    Except Err St :=
  match newEntries unify schema ns (some base) st cs with
  | .error e => .error e
  | .ok st =>
    let olds := cs.foldl (fun l c => setInsert (c.ident ns base) l) []
    match resolveDeps schema 1000 (st, olds) with
    | none => .error .diverged
    | some st => .ok st

/-- `process_schema`, crate_node_cache.rs 91-220. The first argument bounds the depth. -/
def processSchema (unify : Txt → Txt) (D : Docs) : Nat → Nat → St → Except Err St
  | 0, _, _ => .error .diverged
  | fuel + 1, id, st =>
    if id ∈ st.processed then .ok st
    else
      match get D.docs id with
      | none => .error .unknown
      | some d =>
        let st := { st with processed := id :: st.processed }
        let idents := d.deps.foldl (fun c x => c.addDep id x.2) (st.idents.addSchema d.ns id)
        match imports (processSchema unify D fuel) id d { st with idents } d.content with
        | .error e => .error e
        | .ok st => content id d st d.content
where
  /-- `process_schema_imports`, 107-152 -/
  imports (process : Nat → St → Except Err St) (id : Nat) (d : Doc) (st : St) :
      List Content → Except Err St
    | [] => .ok st
    | .comp _ :: cs => imports process id d st cs
    | .load loc :: cs =>
      match get d.deps loc with
      | none => imports process id d st cs
      | some base =>
        match process base.target st with
        | .error e => .error e
        | .ok st => imports process id d st cs
    | .redefine loc comps :: cs =>
      match get d.deps loc with
      | none => imports process id d st cs
      | some base =>
        match process base.target st with
        | .error e => .error e
        | .ok st =>
          match processRedefine unify id d.ns base.target st comps with
          | .error e => .error e
          | .ok st => imports process id d st cs
  /-- `process_schema_content`, 154-220 -/
  content (id : Nat) (d : Doc) (st : St) : List Content → Except Err St
    | [] => .ok st
    | .comp c :: cs =>
      match newEntry unify id d.ns none st c with
      | .error e => .error e
      | .ok st => content id d st cs
    | _ :: cs => content id d st cs

/-- The names of a document, crate_ident_cache.rs 60-132. -/
def Doc.names (d : Doc) (id : Nat) : List TIdent :=
  d.content.flatMap fun
    | .load _ => []
    | .redefine _ cs => cs.map fun c => (c.ident d.ns id).text
    | .comp c => [(c.ident d.ns id).text]

/-- `create_ident_cache`, crate_ident_cache.rs 35-134. -/
def createIdentCache (D : Docs) (c : Cache) : Cache :=
  let c := D.docs.foldl (fun c d => c.addSchema d.2.ns d.1) c
  let c := D.globals.foldl Cache.addGlobal c
  D.docs.foldl (fun c d =>
    (d.2.names d.1).foldl Cache.insert (d.2.deps.foldl (fun c x => c.addDep d.1 x.2) c)) c

/-- `process`, crate_node_cache.rs 77-89. -/
def processAll (unify : Txt → Txt) (D : Docs) : List (Nat × Doc) → St → Except Err St
  | [], st => .ok st
  | d :: ds, st =>
    match processSchema unify D (D.docs.length + 1) d.1 st with
    | .error e => .error e
    | .ok st => processAll unify D ds st

/-- `State::new` and `create_node_cache`; `c` has the built-in types, that are added in between
(`add_type`). -/
def createNodeCache (unify : Txt → Txt) (D : Docs) (builtin : List TIdent := []) : Except Err St :=
  let c := builtin.foldl Cache.insert (createIdentCache D {})
  processAll unify D D.docs { idents := D.globals.foldl Cache.addGlobal c }

end Verif.NodeCache

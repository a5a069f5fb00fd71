import Verif.Parser.Finish
import Verif.Parser.Prefixes
import Verif.Parser.Resolvers

/-!
# The parser as it is configured (C99)

Models `exec_parser` (lib.rs 126-180), `ParserConfig` (config/parser.rs 8-68) and `WebResolver`
(pipeline/parser/resolver/web_resolver.rs 28-58), all in `xsd-parser/src`, on top of the models of the other resolvers (C76) and of the
parser (C24-C27). The names of schemas and the debug output are left out. The functions of the crates `url` and `reqwest` and of the
operating system are parameters.
-/

namespace Verif.Parser.Config

open Verif.Assoc Verif.Models Verif.Parser

variable {E B : Type}

/-! ## Model -/

/-- What the resolvers ask of other crates: URLs and files (`Files`), the scheme of a URL, and the answer of a server: an error of the
transport, or a status and a body. -/
structure Net (E B : Type) where
  files : Files E B
  scheme : Txt → Txt
  send : Txt → Except E (Nat × B)

/-- `matches!(url.scheme(), "http" | "https")`, web_resolver.rs 40. -/
def Net.isWeb (N : Net E B) (url : Txt) : Bool := N.scheme url == "http".toList || N.scheme url == "https".toList

/-- The location that a request denotes, web_resolver.rs 31-35 and file_resolver.rs 26-30. -/
def Net.url (N : Net E B) (req : Req) : Option Txt :=
  match req.cur with
  | some c => N.files.join c req.loc
  | none => N.files.parse req.loc

/-- `url.as_str().split(['\\', '/']).next_back()`, web_resolver.rs 49-52. -/
def lastSegment (url : Txt) : Txt := (url.reverse.takeWhile fun c => c != '/' && c != '\\').reverse

/-- `Resolver for WebResolver`, web_resolver.rs 28-58. -/
def webResolve (N : Net E B) (req : Req) : Answer E B :=
  match N.url req with
  | none => .notMine
  | some url =>
    if !N.isWeb url then .notMine
    else
      match N.send url with
      | .error e => .error e
      | .ok (_, body) => .found ⟨some (stripNameExt (lastSegment url)), url, body⟩

/-- `config::Resolver`, config/parser.rs 44-52. -/
inductive Kind where
  | web
  | file
deriving DecidableEq, Repr

/-- The resolver of a kind; its state is whether the client of `WebResolver` was created (web_resolver.rs 44). -/
def boxed (N : Net E B) : Kind → Boxed Bool E B
  | .web => ⟨fun s req => (webResolve N req, s || (N.url req).any N.isWeb), false⟩
  | .file => stateless (fileResolve N.files) false

/-- lib.rs 129-144. -/
def resolvers (N : Net E B) (ks : List Kind) : List (Boxed Bool E B) := ks.foldl (fun rs k => addResolver rs (boxed N k)) []

/-- `config::Schema`, config/parser.rs 54-68. -/
inductive Source where
  | url (u : Txt)
  | file (path : Txt)
  | text (doc : Doc)
deriving DecidableEq, Repr

/-- `ParserConfig`, config/parser.rs 8-28, with the flags. -/
structure Cfg where
  kinds : List Kind
  namespaces : List (Txt × Txt)
  schemas : List Source
  resolveIncludes : Bool
  defaultNamespaces : Bool

/-- The answers of a fresh combination of resolvers and the documents behind them; `parse` is the deserialization of a schema. -/
def world (N : Net E B) (parse : B → Option Doc) (ks : List Kind) : World where
  locate req :=
    match (manyResolve (resolvers N ks) req).1 with
    | .found f => some f.loc
    | _ => none
  doc l :=
    match (if N.isWeb l then (N.send l).toOption.map (·.2) else (N.files.path l).bind fun p => (N.files.open_ p).toOption) with
    | some b => parse b
    | none => none

/-- `with_default_namespaces`, pipeline/parser/mod.rs 215-220, and lib.rs 152-158. -/
def entries (c : Cfg) : List PEntry :=
  (if c.defaultNamespaces then
    [.anonymous, .ns "xs".toList "http://www.w3.org/2001/XMLSchema".toList,
      .ns "xml".toList "http://www.w3.org/XML/1998/namespace".toList,
      .ns "xsi".toList "http://www.w3.org/2001/XMLSchema-instance".toList] else []) ++
    c.namespaces.map fun p => .ns p.1 p.2

inductive XErr where
  | path (p : Txt)
  | load (e : LErr)
deriving DecidableEq, Repr

/-- `add_schema_from_file`, mod.rs 371-379: `canon` is `canonicalize` followed by `Url::from_file_path`. -/
def sourceAct (canon : Txt → Option Txt) : Source → Except XErr Act
  | .url u => .ok (.url u)
  | .file p => match canon p with
    | some u => .ok (.url u)
    | none => .error (.path p)
  | .text d => .ok (.str d)

/-- The loop over the schemas, lib.rs 160-169. -/
def addSources (W : World) (canon : Txt → Option Txt) (fuel : Nat) : St → List Source → Option (Except XErr St)
  | st, [] => some (.ok st)
  | st, s :: ss =>
    match sourceAct canon s with
    | .error e => some (.error e)
    | .ok a =>
      match act W fuel st a with
      | none => none
      | some (.error e) => some (.error (.load e))
      | some (.ok st) => addSources W canon fuel st ss

/-- `exec_parser`, lib.rs 126-171, up to `finish`. -/
def execParser (N : Net E B) (parse : B → Option Doc) (canon : Txt → Option Txt) (fuel : Nat) (c : Cfg) : Option (Except XErr St) :=
  addSources (world N parse c.kinds) canon fuel (St.start (entries c) c.resolveIncludes) c.schemas

/-! ## Specification -/

/-- An `http` or `https` address. -/
def OnWeb (N : Net E B) (url : Txt) : Prop := N.scheme url = "http".toList ∨ N.scheme url = "https".toList

instance (N : Net E B) (url : Txt) : Decidable (OnWeb N url) := by unfold OnWeb; infer_instance

/-- Of the crate `url`: addresses of the web are not paths of files. -/
def Net.Sane (N : Net E B) : Prop := ∀ url, OnWeb N url → N.files.path url = none

/-- Who answers a request: the web for `http` and `https`, the file system for what denotes a file, each only if it is configured. -/
def expected (N : Net E B) (ks : List Kind) (req : Req) : Answer E B :=
  match N.url req with
  | none => .notMine
  | some url =>
    if OnWeb N url then
      if .web ∈ ks then
        match N.send url with
        | .error e => .error e
        | .ok (_, body) => .found ⟨some (stripNameExt (lastSegment url)), url, body⟩
      else .notMine
    else if .file ∈ ks then
      match N.files.path url with
      | none => .notMine
      | some p =>
        match N.files.open_ p with
        | .error e => .error e
        | .ok b => .found ⟨p.getLast?.map stripNameExt, url, b⟩
    else .notMine

/-! ## Proofs -/

theorem isWeb_iff (N : Net E B) (url : Txt) : N.isWeb url = true ↔ OnWeb N url := by
  simp [Net.isWeb, OnWeb]

def single (N : Net E B) : Kind → Req → Answer E B
  | .web => webResolve N
  | .file => fileResolve N.files

def first (N : Net E B) : List Kind → Req → Answer E B
  | [], _ => .notMine
  | k :: ks, req =>
    match single N k req with
    | .notMine => first N ks req
    | a => a

def withStates (N : Net E B) (l : List (Kind × Bool)) : List (Boxed Bool E B) := l.map fun p => { boxed N p.1 with st := p.2 }

theorem resolvers_eq (N : Net E B) (ks : List Kind) : resolvers N ks = withStates N (ks.map fun k => (k, false)) := by
  have h : ∀ rs : List (Boxed Bool E B), ks.foldl (fun rs k => addResolver rs (boxed N k)) rs = rs ++ withStates N (ks.map fun k => (k, false)) := by
    induction ks with
    | nil => intro rs; simp [withStates]
    | cons k ks ih =>
      intro rs
      rw [List.foldl_cons, ih]
      have : boxed N k = { boxed N k with st := false } := by cases k <;> rfl
      simp only [addResolver, withStates, List.map_cons, List.append_assoc, List.cons_append, List.nil_append]
      rw [← this]
  exact (h []).trans (List.nil_append _)

theorem boxed_resolve (N : Net E B) (k : Kind) (s : Bool) (req : Req) :
    ∃ s', (boxed N k).resolve s req = (single N k req, s') := by
  cases k with
  | web => exact ⟨_, rfl⟩
  | file => exact ⟨_, rfl⟩

theorem manyResolve_states (N : Net E B) (l : List (Kind × Bool)) (req : Req) :
    ∃ l', manyResolve (withStates N l) req = (first N (l.map (·.1)) req, withStates N l') ∧ l'.map (·.1) = l.map (·.1) := by
  induction l with
  | nil => exact ⟨[], rfl, rfl⟩
  | cons p l ih =>
    obtain ⟨k, s⟩ := p
    obtain ⟨l', h1, h2⟩ := ih
    obtain ⟨s', hs⟩ := boxed_resolve N k s req
    have e : withStates N ((k, s) :: l) = { boxed N k with st := s } :: withStates N l := rfl
    cases hk : single N k req with
    | notMine =>
      refine ⟨(k, s') :: l', ?_, by simp [h2]⟩
      rw [e, manyResolve]
      simp only [hs, hk, h1, List.map_cons, first]
      rfl
    | found f =>
      refine ⟨(k, s') :: l, ?_, rfl⟩
      rw [e, manyResolve]
      simp only [hs, hk, List.map_cons, first]
      rfl
    | error x =>
      refine ⟨(k, s') :: l, ?_, rfl⟩
      rw [e, manyResolve]
      simp only [hs, hk, List.map_cons, first]
      rfl

theorem history_states (N : Net E B) (reqs : List Req) (l : List (Kind × Bool)) :
    (manyHistory (withStates N l) reqs).1 = reqs.map (first N (l.map (·.1))) := by
  induction reqs generalizing l with
  | nil => rfl
  | cons req reqs ih =>
    obtain ⟨l', h1, h2⟩ := manyResolve_states N l req
    rw [manyHistory, List.map_cons]
    simp only [h1]
    rw [ih l', h2]

theorem file_eq (N : Net E B) (req : Req) : fileResolve N.files req = match N.url req with
    | none => .notMine
    | some url => match N.files.path url with
      | none => .notMine
      | some p => match N.files.open_ p with
        | .error e => .error e
        | .ok b => .found ⟨p.getLast?.map stripNameExt, url, b⟩ := rfl

theorem first_expected {N : Net E B} (hN : N.Sane) (ks : List Kind) (req : Req) : first N ks req = expected N ks req := by
  induction ks with
  | nil =>
    unfold first expected
    cases N.url req with
    | none => rfl
    | some url => simp
  | cons k ks ih =>
    rw [first, ih]
    cases k with
    | web =>
      simp only [single, webResolve]
      unfold expected
      cases N.url req with
      | none => rfl
      | some url =>
        simp only
        simp only [← isWeb_iff]
        cases hw : N.isWeb url with
        | false => simp
        | true => cases hs : N.send url with
          | error e => simp
          | ok p => simp
    | file =>
      simp only [single, file_eq]
      unfold expected
      cases N.url req with
      | none => rfl
      | some url =>
        simp only
        simp only [← isWeb_iff]
        cases hw : N.isWeb url with
        | true => simp [hN url ((isWeb_iff N url).mp hw)]
        | false =>
          cases hp : N.files.path url with
          | none => simp
          | some p => cases ho : N.files.open_ p with
            | error e => simp [ho]
            | ok b => simp [ho]

theorem answer_expected {N : Net E B} (hN : N.Sane) (ks : List Kind) (req : Req) :
    (manyResolve (resolvers N ks) req).1 = expected N ks req := by
  rw [resolvers_eq]
  obtain ⟨l', h1, -⟩ := manyResolve_states N (ks.map fun k => (k, false)) req
  rw [h1]
  simp only [List.map_map]
  have : ks.map ((fun p : Kind × Bool => p.1) ∘ fun k => (k, false)) = ks := by
    rw [show ((fun p : Kind × Bool => p.1) ∘ fun k => (k, false)) = id from rfl, List.map_id]
  rw [this, first_expected hN]

theorem entries_schemas (c : Cfg) : schemasOf (entries c) = [] := by
  have h : ∀ l : List (Txt × Txt), schemasOf (l.map fun p => PEntry.ns p.1 p.2) = [] := by
    intro l
    induction l with
    | nil => rfl
    | cons p l ih => simpa [schemasOf] using ih
  have h2 := h c.namespaces
  unfold entries
  unfold schemasOf at h2 ⊢
  rw [List.filterMap_append, h2]
  split <;> simp

/-- The calls that a successful run makes. -/
theorem addSources_session {W : World} {canon : Txt → Option Txt} {fuel : Nat} {ss : List Source} {st st' : St}
    (h : addSources W canon fuel st ss = some (.ok st')) :
    ∃ acts, session W fuel st acts = some (.ok st') ∧ (∀ d, .text d ∈ ss → Act.str d ∈ acts) ∧ (∀ u, .url u ∈ ss → Act.url u ∈ acts) ∧
      ∀ p, .file p ∈ ss → ∃ u, canon p = some u ∧ Act.url u ∈ acts := by
  induction ss generalizing st with
  | nil =>
    refine ⟨[], ?_, by simp, by simp, by simp⟩
    simpa [addSources, session] using h
  | cons s ss ih =>
    rw [addSources] at h
    cases ha : sourceAct canon s with
    | error e => rw [ha] at h; simp at h
    | ok a =>
      rw [ha] at h
      simp only at h
      cases hb : act W fuel st a with
      | none => rw [hb] at h; simp at h
      | some r =>
        rw [hb] at h
        cases r with
        | error e => simp at h
        | ok st1 =>
          obtain ⟨acts, h1, h2, h3, h4⟩ := ih h
          refine ⟨a :: acts, ?_, ?_, ?_, ?_⟩
          · rw [session]; simp only [hb]; exact h1
          · intro d hd
            rcases List.mem_cons.mp hd with rfl | hd
            · simp only [sourceAct, Except.ok.injEq] at ha
              rw [← ha]; simp
            · exact List.mem_cons_of_mem _ (h2 d hd)
          · intro u hu
            rcases List.mem_cons.mp hu with rfl | hu
            · simp only [sourceAct, Except.ok.injEq] at ha
              rw [← ha]; simp
            · exact List.mem_cons_of_mem _ (h3 u hu)
          · intro p hp
            rcases List.mem_cons.mp hp with rfl | hp
            · simp only [sourceAct] at ha
              cases hc : canon p with
              | none => rw [hc] at ha; cases ha
              | some u =>
                rw [hc] at ha
                simp only [Except.ok.injEq] at ha
                exact ⟨u, rfl, by rw [← ha]; simp⟩
            · obtain ⟨u, h5, h6⟩ := h4 p hp
              exact ⟨u, h5, List.mem_cons_of_mem _ h6⟩

/-! ## C99 -/

/-- **C99**. For every history of requests, each is answered by the web if it denotes an `http` or `https` address, by the file system
if it denotes a file, and by nobody otherwise or if that resolver is not configured. -/
theorem C99_resolvers {N : Net E B} (hN : N.Sane) (ks : List Kind) (reqs : List Req) :
    (manyHistory (resolvers N ks) reqs).1 = reqs.map (expected N ks) := by
  rw [resolvers_eq, history_states]
  simp only [List.map_map]
  have : ks.map ((fun p : Kind × Bool => p.1) ∘ fun k => (k, false)) = ks := by
    rw [show ((fun p : Kind × Bool => p.1) ∘ fun k => (k, false)) = id from rfl, List.map_id]
  rw [this]
  exact List.map_congr_left fun req _ => first_expected hN ks req

/-- **C99**. The result of the parser does not depend on the order in which the resolvers are configured, nor on repetitions. -/
theorem C99_resolver_order {N : Net E B} (hN : N.Sane) (parse : B → Option Doc) (canon : Txt → Option Txt) (fuel : Nat) (c : Cfg)
    (ks : List Kind) (h : ∀ k, k ∈ ks ↔ k ∈ c.kinds) :
    execParser N parse canon fuel { c with kinds := ks } = execParser N parse canon fuel c := by
  have hw : world N parse ks = world N parse c.kinds := by
    unfold world
    congr 1
    funext req
    rw [answer_expected hN, answer_expected hN]
    unfold expected
    simp only [h]
  unfold execParser
  rw [show ({ c with kinds := ks } : Cfg).kinds = ks from rfl, hw]
  rfl

/-- **C99**. If the configured parser succeeds with `RESOLVE_INCLUDES`, then every configured schema is loaded, and with it everything that
can be reached from it by references; no location is loaded twice; all this whatever the flags for namespaces and the resolvers are. -/
theorem C99_loaded {N : Net E B} (hN : N.Sane) (parse : B → Option Doc) (canon : Txt → Option Txt) (fuel : Nat) (c : Cfg) (st : St)
    (hi : c.resolveIncludes = true) (h : execParser N parse canon fuel c = some (.ok st)) :
    ∃ out, finish st = some out ∧ (out.schemas.filterMap (·.2.loc)).Nodup ∧
      (∀ d, .text d ∈ c.schemas → ∃ id info, get out.schemas id = some info ∧ info.loc = none ∧ info.doc = d) ∧
      (∀ u, (.url u ∈ c.schemas ∨ ∃ p, .file p ∈ c.schemas ∧ canon p = some u) →
        ∃ f, expected N c.kinds { loc := u, kind := .user } = .found f ∧
          ∀ l, Reaches (world N parse c.kinds) f.loc l → ∃ id info, get out.schemas id = some info ∧ info.loc = some l) := by
  unfold execParser at h
  rw [hi] at h
  obtain ⟨acts, h1, h2, h3, h4⟩ := addSources_session h
  obtain ⟨out, o1, o2⟩ := C24_each_once (entries_schemas c) h1
  obtain ⟨out', o1', -, r2, r3⟩ := C24_references_loaded (entries_schemas c) h1
  have hloc : ∀ req, (world N parse c.kinds).locate req = match expected N c.kinds req with
      | .found f => some f.loc
      | _ => none := by
    intro req
    unfold world
    simp only [answer_expected hN]
  have hexp : ∀ loc t t' link, expected N c.kinds (linkReq loc t link) = expected N c.kinds (linkReq loc t' link) := by
    intro loc t t' link
    have hu : N.url (linkReq loc t link) = N.url (linkReq loc t' link) := by
      unfold linkReq Net.url
      cases link.kind <;> rfl
    unfold expected
    rw [hu]
  obtain ⟨out2, o1'', rr⟩ := C24_reachable_loaded (entries_schemas c)
    (fun loc t t' link => by rw [hloc, hloc, hexp loc t t' link]) h1
  rw [o1] at o1' o1''
  cases o1'
  cases o1''
  refine ⟨out, o1, o2, fun d hd => r2 d (h2 d hd), ?_⟩
  intro u hu
  have hact : Act.url u ∈ acts := by
    rcases hu with hu | ⟨p, hp, hc⟩
    · exact h3 u hu
    · obtain ⟨u', a1, a2⟩ := h4 p hp
      rw [hc] at a1
      cases a1
      exact a2
  obtain ⟨l, id, info, x1, x2, x3⟩ := r3 u hact
  rw [hloc] at x1
  cases he : expected N c.kinds { loc := u, kind := .user } with
  | notMine => rw [he] at x1; cases x1
  | error e => rw [he] at x1; cases x1
  | found f =>
    rw [he] at x1
    simp only [Option.some.injEq] at x1
    subst x1
    exact ⟨f, rfl, fun l' hr => rr id info f.loc l' x2 x3 hr⟩

/-- **C99**. And its prefixes are those of C25: they can always be determined, and no two namespaces share one, unless an offered prefix
looks like a generated one. -/
theorem C99_prefixes_partial {N : Net E B} (parse : B → Option Doc) (canon : Txt → Option Txt) (fuel : Nat) (c : Cfg) (st : St)
    (h : execParser N parse canon fuel c = some (.ok st)) (alternative generate : Bool) :
    ∃ rows known, finishPrefixes alternative generate st = some (rows, known) ∧
      ((generate = true → NoClash rows) → ∀ r ∈ rows, ∀ r' ∈ rows, ∀ p, r.pre = some p → r'.pre = some p → r = r') := by
  obtain ⟨acts, h1, -⟩ := addSources_session h
  obtain ⟨rows, known, a, -, b, -⟩ := C25_prefixes_distinct_partial (entries_schemas c) h1 alternative generate
  exact ⟨rows, known, a, fun hc => (b hc).2⟩

/-- **C99** (negation). The status of the server is not looked at: for every address and every status, also 404, the body is taken as the
schema, and the resolvers after it are not asked. -/
theorem C99_status_ignored (N : Net E B) (ks : List Kind) (req : Req) (url : Txt) (status : Nat) (body : B) (hu : N.url req = some url)
    (hw : OnWeb N url) (hs : N.send url = .ok (status, body)) :
    ∃ f, (manyResolve (resolvers N (.web :: ks)) req).1 = .found f ∧ f.content = body := by
  rw [resolvers_eq]
  obtain ⟨l', h1, -⟩ := manyResolve_states N ((Kind.web :: ks).map fun k => (k, false)) req
  rw [h1]
  refine ⟨⟨some (stripNameExt (lastSegment url)), url, body⟩, ?_, rfl⟩
  simp [first, single, webResolve, hu, (isWeb_iff N url).mpr hw, hs]

/-! ## Examples -/

namespace Ex

/-- A web server with `http:a.xsd`, which includes `b.xsd`, and an error page for everything else; a file `/c.xsd`. -/
def net : Net Nat Nat where
  files := {
    join := fun c r => some ((c.takeWhile (· != ':')) ++ ':' :: r)
    parse := some
    path := fun u => if u.takeWhile (· != ':') = "file".toList then some [(u.dropWhile (· != ':')).drop 1] else none
    open_ := fun p => if p = ["c.xsd".toList] then .ok 3 else .error 0 }
  scheme := fun u => u.takeWhile (· != ':')
  send := fun u => if u = "http:a.xsd".toList then .ok (200, 1) else if u = "http:b.xsd".toList then .ok (200, 2) else .ok (404, 9)

def parse : Nat → Option Doc
  | 1 => some { target := some "urn:a".toList, links := [⟨.incl, "b.xsd".toList, none⟩] }
  | 2 => some { target := some "urn:a".toList, links := [] }
  | 3 => some { target := none, links := [] }
  | _ => none

def cfg : Cfg := ⟨[.file, .web], [], [.url "http:a.xsd".toList, .file "c.xsd".toList], true, true⟩

theorem sane : net.Sane := by
  intro url h
  simp only [OnWeb, net] at h
  simp only [net]
  rcases h with h | h <;> rw [h] <;> exact if_neg (by decide)

def canon (p : Txt) : Option Txt := some ("file:".toList ++ p)

/-- The run loads the three documents. -/
example : ((execParser net parse canon 9 cfg).map fun r => match r with
    | .ok st => (schemasOf st.entries).map (·.loc)
    | .error _ => []) = some [some "http:a.xsd".toList, some "http:b.xsd".toList, some "file:c.xsd".toList] := by decide +kernel

/-- A reference to a document that the server does not have is an error of the XML in the page. -/
example : execParser net parse canon 9 { cfg with schemas := [.url "http:d.xsd".toList] } =
    some (.error (.load (.parse "http:d.xsd".toList))) := by rfl

end Ex

end Verif.Parser.Config

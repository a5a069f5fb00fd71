import Verif.Runtime.Driver
import Verif.Runtime.Serializer

/-!
# Wildcard elements (C14, C18, C03)

`xml::Element` (xsd-parser-types/src/xml/element.rs) holds an arbitrary element: what the
generated code uses for `xs:any`.

Simplifications: names and attribute values are character lists (no UTF-8 errors); the map
of attributes is the list of its entries in insertion order (`IndexMap`); the map of
namespaces (`HashMap`) is a list of entries whose iteration order is an arbitrary
permutation `ord`.
-/

namespace Verif.Rt

/-! ## Model: values -/

/-- The values that are not elements, xml/value.rs:13-25. -/
inductive LeafVal where
  | text (s : Str)
  | cdata (s : Str)
  | comment (s : Str)
deriving DecidableEq, Repr

mutual

/-- `Element`, element.rs:29-41. -/
inductive Elem where
  | mk (name : Str) (attrs : List Attr) (nss : List Binding) (values : Vals)

/-- `Vec<Value>`, xml/value.rs:13-25. -/
inductive Vals where
  | nil
  | elem (e : Elem) (rest : Vals)
  | leaf (v : LeafVal) (rest : Vals)

end

def Vals.append : Vals → Vals → Vals
  | .nil, b => b
  | .elem e r, b => .elem e (r.append b)
  | .leaf v r, b => .leaf v (r.append b)

def Elem.name : Elem → Str | .mk n _ _ _ => n
def Elem.attrs : Elem → List Attr | .mk _ a _ _ => a
def Elem.nss : Elem → List Binding | .mk _ _ b _ => b
def Elem.values : Elem → Vals | .mk _ _ _ v => v

/-- `self.element.values.push(value)` (for a list of values). -/
def Elem.extend : Elem → Vals → Elem
  | .mk n a b v, vs => .mk n a b (v.append vs)

/-! ## Model: serializer -/

/-- `Event::Comment`/`CData`/`Text` for a value, element.rs:282-308. -/
def LeafVal.event : LeafVal → Event
  | .text s => .text s
  | .cdata s => .cdata s
  | .comment s => .comment s

/-- The attribute filter, element.rs:221-232. -/
def keepAttr (nss : List Binding) (a : Attr) : Bool :=
  match declPrefix a.key with
  | some p => !(nss.any fun b => b.1 == p)
  | none => true

/-- The start tag, element.rs:203-237: the tag and the helper after the declarations. -/
def Elem.tag (ord : List Binding → List Binding) (name : Option Str) (e : Elem) (h : SerHelper) :
    Tag × SerHelper :=
  let r := (ord e.nss).foldl (fun r b => r.2.writeXmlns r.1 b.1 b.2)
    ((⟨name.getD e.name, []⟩ : Tag), h.beginScope)
  (⟨r.1.name, r.1.attrs ++ e.attrs.filter (keepAttr e.nss)⟩, r.2)

/-- `ElementSerializer`, element.rs:169-190. -/
inductive ESt where
  | start (name : Option Str) (e : Elem)
  | end_ (name : Option Str) (e : Elem)
  | nextValue (name : Option Str) (e : Elem) (values : Vals)
  | sub (name : Option Str) (e : Elem) (values : Vals) (inner : ESt)
  | done

namespace ESt

/-- Branch `Start`, element.rs:202-256. -/
def startStep (ord : List Binding → List Binding) (name : Option Str) (e : Elem) (h : SerHelper) :
    Event × ESt × SerHelper :=
  match e.values with
  | .nil => (.empty (e.tag ord name h).1, .done, (e.tag ord name h).2.endScope)
  | vs => (.start (e.tag ord name h).1, .nextValue name e vs, (e.tag ord name h).2)

/-- Branch `NextValue`, element.rs:266-309, with the following iteration of the loop if the
branch only changes the state (`End` for no more values, `SubElement` for an element, whose
serializer is in state `Start`). -/
def valueStep (ord : List Binding → List Binding) (name : Option Str) (e : Elem) (h : SerHelper) :
    Vals → Event × ESt × SerHelper
  | .nil => (.end_ (name.getD e.name), .done, h.endScope)
  | .elem c rest =>
    ((startStep ord none c h).1, .sub name e rest (startStep ord none c h).2.1,
      (startStep ord none c h).2.2)
  | .leaf v rest => (v.event, .nextValue name e rest, h)

/-- `next_item`, element.rs:199-337. -/
def next (ord : List Binding → List Binding) : ESt → SerHelper →
    Option (Except Unit Event) × ESt × SerHelper
  | .start name e, h =>
    (some (.ok (startStep ord name e h).1), (startStep ord name e h).2)
  | .end_ name e, h => (some (.ok (.end_ (name.getD e.name))), .done, h.endScope)
  | .nextValue name e vs, h =>
    (some (.ok (valueStep ord name e h vs).1), (valueStep ord name e h vs).2)
  | .sub name e vs inner, h =>
    match next ord inner h with
    | (none, _, h) => (some (.ok (valueStep ord name e h vs).1), (valueStep ord name e h vs).2)
    | (some ev, inner, h) => (some ev, .sub name e vs inner, h)
  | .done, h => (none, .done, h)

end ESt

/-- `ElementSerializer` as a serializer. -/
def elemSer (ord : List Binding → List Binding) : Ser ESt Unit where
  next := ESt.next ord

/-! ## Model: deserializer -/

/-- `ElementDeserializer`, element.rs:349-352: the element read so far and the deserializer of
the child that is being read. -/
inductive EDe where
  | one (e : Elem)
  | sub (e : Elem) (s : EDe)

inductive EErr where
  | attribute
  | unexpected
deriving DecidableEq, Repr

/-- `create_element`, element.rs:363-387. The attribute iterator of quick-xml reports
repeated attributes as errors; other syntax errors in tags are not modelled. -/
def createElement (t : Tag) (nss : List Binding) : Except EErr Elem :=
  if (t.attrs.map (·.key)).Nodup then .ok (.mk t.name t.attrs nss .nil) else .error .attribute

namespace EDe

def elem : EDe → Elem
  | one e => e
  | sub e _ => e

/-- `self.element.values.push(..)` -/
def push (s : EDe) (v : Vals) : EDe :=
  match s with
  | one e => one (e.extend v)
  | sub e s => sub (e.extend v) s

/-- `Deserializer::init`, element.rs:392-424. -/
def init (h : Helper) (ev : Event) : Except EErr (Output EDe Elem × Helper) :=
  match ev with
  | .start t => do
    let e ← createElement t h.askNamespaces.1
    return (⟨.deser (one e), .none, true⟩, h.askNamespaces.2)
  | .empty t => do
    let e ← createElement t h.askNamespaces.1
    return (⟨.data e, .none, true⟩, h.askNamespaces.2)
  | ev => .ok (⟨.none, .cont ev, true⟩, h)

/-- The artifact part of the macro `handle_output`, element.rs:435-445. -/
def store (s : EDe) : Artifact EDe Elem → EDe
  | .none => s
  | .data e => s.push (.elem e .nil)
  | .deser d => sub s.elem d

/-- The own part of `next`, element.rs:469-511. -/
def own (s : EDe) (h : Helper) (ev : Event) : Except EErr (Output EDe Elem × Helper) :=
  match ev with
  | .start _ | .empty _ => do
    let (out, h) ← init h ev
    match out.event with
    | .none => return (⟨.deser (s.store out.artifact), .none, true⟩, h)
    | .brk e => return (⟨.deser (s.store out.artifact), .brk e, true⟩, h)
    | .cont e => return (⟨.deser (s.store out.artifact), .brk e, true⟩, h)
  | .end_ _ => .ok (⟨.data s.elem, .none, true⟩, h)
  | .text x => .ok (⟨.deser (s.push (.leaf (.text x) .nil)), .none, true⟩, h)
  | .cdata x => .ok (⟨.deser (s.push (.leaf (.cdata x) .nil)), .none, true⟩, h)
  | .comment x => .ok (⟨.deser (s.push (.leaf (.comment x) .nil)), .none, true⟩, h)
  | ev => .ok (⟨.deser s, .brk ev, true⟩, h)

/-- `Deserializer::next`, element.rs:426-512. -/
def next : EDe → Helper → Event → Except EErr (Output EDe Elem × Helper)
  | one e, h, ev => own (one e) h ev
  | sub e s, h, ev => do
    let (out, h) ← next s h ev
    match out.event with
    | .none => return (⟨.deser ((one e).store out.artifact), .none, true⟩, h)
    | .brk ev => return (⟨.deser ((one e).store out.artifact), .brk ev, true⟩, h)
    | .cont ev => own ((one e).store out.artifact) h ev

/-- `Deserializer::finish`, element.rs:514-524. -/
def finish : EDe → Elem
  | one e => e
  | sub e s => e.extend (.elem (finish s) .nil)

end EDe

/-- `ElementDeserializer` as a deserializer. -/
def elemDeser : Deser Helper EErr Elem where
  S := EDe
  init := EDe.init
  next := EDe.next
  finish := fun s _ => .ok s.finish

/-- The run-time environment: every event is shown to the helper first. -/
def elemEnv : Env Helper EErr := ⟨Helper.handleEvent, fun _ => .unexpected⟩

/-! ## Specification -/

mutual

/-- An element tree as a user sees it, without namespace declarations: names, attributes in
order, text, CDATA and comments. References, processing instructions and the like are
left out. -/
inductive Plain where
  | elem (name : Str) (attrs : List Attr) (children : Plains)

inductive Plains where
  | nil
  | elem (e : Plain) (rest : Plains)
  | leaf (v : LeafVal) (rest : Plains)

end

/-- The attributes that are not namespace declarations. -/
def Tag.plainAttrs (t : Tag) : List Attr := t.attrs.filter fun a => (declPrefix a.key).isNone

/-- The text, CDATA or comment of an event. -/
def Event.leafVal : Event → Option LeafVal
  | .text s => some (.text s)
  | .cdata s => some (.cdata s)
  | .comment s => some (.comment s)
  | _ => none

/-- The user's view of the children of an element of a document. -/
def Nodes.plain : Nodes → Plains
  | .nil => .nil
  | .cons (.elem t ch) ns => .elem (.elem t.name t.plainAttrs ch.plain) ns.plain
  | .cons (.emptyElem t) ns => .elem (.elem t.name t.plainAttrs .nil) ns.plain
  | .cons (.leaf e _) ns =>
    match e.leafVal with
    | some v => .leaf v ns.plain
    | none => ns.plain

/-- All attribute names on a tag are distinct, in the whole tree (required by XML). -/
def Tag.UniqueAttrs (t : Tag) : Prop := (t.attrs.map (·.key)).Nodup

def Nodes.UniqueAttrs : Nodes → Prop
  | .nil => True
  | .cons (.elem t ch) ns => t.UniqueAttrs ∧ ch.UniqueAttrs ∧ ns.UniqueAttrs
  | .cons (.emptyElem t) ns => t.UniqueAttrs ∧ ns.UniqueAttrs
  | .cons (.leaf _ _) ns => ns.UniqueAttrs

mutual

/-- An element tree with the namespaces in scope at every element. -/
inductive Scoped where
  | elem (name : Str) (attrs : List Attr) (scope : Str → Option Str) (children : Scopeds)

inductive Scopeds where
  | nil
  | elem (e : Scoped) (rest : Scopeds)
  | leaf (v : LeafVal) (rest : Scopeds)

end

/-- The user's view with namespaces, below the open elements `ts`. -/
def Nodes.scoped (ts : List Tag) : Nodes → Scopeds
  | .nil => .nil
  | .cons (.elem t ch) ns =>
    .elem (.elem t.name t.plainAttrs (fun p => inScope p (t :: ts)) (ch.scoped (t :: ts)))
      (ns.scoped ts)
  | .cons (.emptyElem t) ns =>
    .elem (.elem t.name t.plainAttrs (fun p => inScope p (t :: ts)) .nil) (ns.scoped ts)
  | .cons (.leaf e _) ns =>
    match e.leafVal with
    | some v => .leaf v (ns.scoped ts)
    | none => ns.scoped ts

/-- In the whole tree every prefix is bound to one namespace only, and never un-bound. -/
def Tag.OneNs (f : Str → Str) (t : Tag) : Prop := ∀ b ∈ t.decls, b.2 = f b.1 ∧ b.2 ≠ []

def Nodes.OneNs (f : Str → Str) : Nodes → Prop
  | .nil => True
  | .cons (.elem t ch) ns => t.OneNs f ∧ ch.OneNs f ∧ ns.OneNs f
  | .cons (.emptyElem t) ns => t.OneNs f ∧ ns.OneNs f
  | .cons (.leaf _ _) ns => ns.OneNs f

/-- A document with one root element. -/
def Nodes.single (t : Tag) (ch : Nodes) : Nodes := .cons (.elem t ch) .nil

/-! ## The serializer writes a tree -/

theorem LeafVal.event_isLeaf (v : LeafVal) : v.event.isLeaf = true := by cases v <;> rfl

mutual

/-- The tree written for an element. -/
def Elem.node (ord : List Binding → List Binding) (name : Option Str) (h : SerHelper) :
    Elem → Node
  | .mk n a b .nil => .emptyElem ((Elem.mk n a b .nil).tag ord name h).1
  | .mk n a b (.elem c r) =>
    .elem ((Elem.mk n a b (.elem c r)).tag ord name h).1
      (.cons (Elem.node ord none ((Elem.mk n a b (.elem c r)).tag ord name h).2 c)
        (Vals.nodes ord ((Elem.mk n a b (.elem c r)).tag ord name h).2 r))
  | .mk n a b (.leaf v r) =>
    .elem ((Elem.mk n a b (.leaf v r)).tag ord name h).1
      (.cons (.leaf v.event v.event_isLeaf)
        (Vals.nodes ord ((Elem.mk n a b (.leaf v r)).tag ord name h).2 r))

def Vals.nodes (ord : List Binding → List Binding) (h : SerHelper) : Vals → Nodes
  | .nil => .nil
  | .elem c r => .cons (Elem.node ord none h c) (Vals.nodes ord h r)
  | .leaf v r => .cons (.leaf v.event v.event_isLeaf) (Vals.nodes ord h r)

end

theorem foldl_xmlns_innerOf (bs : List Binding) (h : SerHelper) :
    ∀ (t : Tag) (h' : SerHelper), InnerOf h h' →
      InnerOf h (bs.foldl (fun r b => r.2.writeXmlns r.1 b.1 b.2) (t, h')).2 := by
  induction bs with
  | nil => intro t h' i; exact i
  | cons b bs ih => intro t h' i; exact ih _ _ (innerOf_xmlns i t b.1 b.2)

theorem foldl_xmlns_name (bs : List Binding) :
    ∀ (t : Tag) (h' : SerHelper),
      (bs.foldl (fun r b => r.2.writeXmlns r.1 b.1 b.2) (t, h')).1.name = t.name := by
  induction bs with
  | nil => intro t h'; rfl
  | cons b bs ih =>
    intro t h'
    rw [List.foldl_cons, ih]
    unfold SerHelper.writeXmlns SerHelper.addEntry
    cases h'.entries.find? fun e => e.ns == b.2 with
    | none => rfl
    | some e => simp only; by_cases hp : e.pfx = b.1 <;> simp [hp]

theorem tag_innerOf (ord : List Binding → List Binding) (name : Option Str) (e : Elem)
    (h : SerHelper) : InnerOf h (e.tag ord name h).2 :=
  foldl_xmlns_innerOf _ h _ _ (innerOf_begin h)

theorem tag_name (ord : List Binding → List Binding) (name : Option Str) (e : Elem)
    (h : SerHelper) : (e.tag ord name h).1.name = name.getD e.name :=
  foldl_xmlns_name _ _ _

/-- Steps of a child are steps of the parent. -/
theorem steps_sub (ord : List Binding → List Binding) {name : Option Str} {e : Elem} {vs : Vals}
    {s s' : ESt} {h h' : SerHelper} {evs : List Event}
    (a : (elemSer ord).Steps s h evs s' h') :
    (elemSer ord).Steps (.sub name e vs s) h evs (.sub name e vs s') h' := by
  induction a with
  | refl => exact .refl
  | step hn _ ih =>
    refine .step ?_ ih
    show ESt.next ord _ _ = _
    simp only [ESt.next]
    have hn : ESt.next ord _ _ = _ := hn
    rw [hn]

/-- From a state that behaves like `NextValue` with the values `vs` on. -/
theorem valueStep_congr (ord : List Binding → List Binding) {s : ESt} {name : Option Str} {e : Elem}
    {h : SerHelper} {vs : Vals} {evs : List Event} {s' : ESt} {h' : SerHelper}
    (hs : ESt.next ord s h
      = (some (.ok (ESt.valueStep ord name e h vs).1), (ESt.valueStep ord name e h vs).2))
    (hne : evs ≠ []) (a : (elemSer ord).Steps (.nextValue name e vs) h evs s' h') :
    (elemSer ord).Steps s h evs s' h' := by
  cases a with
  | refl => exact absurd rfl hne
  | step hn r =>
    refine .step ?_ r
    show ESt.next ord s h = _
    rw [hs]
    exact hn

mutual

theorem steps_elem (ord : List Binding → List Binding) (name : Option Str) (e : Elem)
    (h : SerHelper) (ok : h.Ok) :
    (elemSer ord).Steps (.start name e) h (e.node ord name h).events .done h := by
  match e with
  | .mk n a b .nil =>
    simp only [Elem.node, Node.events]
    refine .step (s' := .done) (h' := h) ?_ .refl
    show ESt.next ord _ _ = _
    simp only [ESt.next, ESt.startStep, Elem.values]
    rw [innerOf_end ok (tag_innerOf ord name _ h)]
  | .mk n a b (.elem c r) =>
    have i := tag_innerOf ord name (.mk n a b (.elem c r)) h
    have := steps_vals ord name (.mk n a b (.elem c r)) (.elem c r) h ok _ i
    simp only [Elem.node, Node.events]
    refine .step (s' := .nextValue name (.mk n a b (.elem c r)) (.elem c r)) rfl ?_
    rw [tag_name]
    exact this
  | .mk n a b (.leaf v r) =>
    have i := tag_innerOf ord name (.mk n a b (.leaf v r)) h
    have := steps_vals ord name (.mk n a b (.leaf v r)) (.leaf v r) h ok _ i
    simp only [Elem.node, Node.events]
    refine .step (s' := .nextValue name (.mk n a b (.leaf v r)) (.leaf v r)) rfl ?_
    rw [tag_name]
    exact this

theorem steps_vals (ord : List Binding → List Binding) (name : Option Str) (e : Elem) (vs : Vals)
    (h : SerHelper) (ok : h.Ok) (h' : SerHelper) (i : InnerOf h h') :
    (elemSer ord).Steps (.nextValue name e vs) h'
      ((vs.nodes ord h').events ++ [.end_ (name.getD e.name)]) .done h := by
  match vs with
  | .nil =>
    simp only [Vals.nodes, Nodes.events, List.nil_append]
    refine .step (s' := .done) (h' := h) ?_ .refl
    show ESt.next ord _ _ = _
    simp only [ESt.next, ESt.valueStep]
    rw [innerOf_end ok i]
  | .elem c r =>
    simp only [Vals.nodes, Nodes.events, List.append_assoc]
    have ok' := innerOf_ok ok i
    -- the child
    have hc := steps_elem ord none c h' ok'
    have hr := steps_vals ord name e r h ok h' i
    have hc' := steps_sub ord (name := name) (e := e) (vs := r) hc
    have hdone : (elemSer ord).Steps (.sub name e r .done) h'
        ((r.nodes ord h').events ++ [.end_ (name.getD e.name)]) .done h :=
      valueStep_congr ord rfl (by simp) hr
    have hall := hc'.trans hdone
    -- the first step from `nextValue` is the one from `sub … start`
    obtain ⟨ev, evs, hevs⟩ : ∃ ev evs, (Elem.node ord none h' c).events
        ++ ((Vals.nodes ord h' r).events ++ [Event.end_ (name.getD e.name)]) = ev :: evs := by
      cases (Elem.node ord none h' c).events with
      | cons x xs => exact ⟨x, _, rfl⟩
      | nil =>
        cases (Vals.nodes ord h' r).events with
        | cons x xs => exact ⟨x, _, rfl⟩
        | nil => exact ⟨_, _, rfl⟩
    rw [hevs] at hall ⊢
    cases hall with
    | step hn rest =>
      refine .step ?_ rest
      exact hn
  | .leaf v r =>
    simp only [Vals.nodes, Nodes.events, Node.events, List.cons_append, List.nil_append]
    exact .step (s' := .nextValue name e r) (h' := h') rfl (steps_vals ord name e r h ok h' i)

end

theorem emits_elem (ord : List Binding → List Binding) (name : Option Str) (e : Elem)
    (h : SerHelper) (ok : h.Ok) :
    (elemSer ord).Emits (.start name e) h (e.node ord name h).events h := by
  have := (steps_elem ord name e h ok).emits (.done (s' := .done) (h' := h) rfl)
  simpa using this

/-- **C14**, wildcard elements: for every element (whatever its attributes, namespaces and
nesting), every override of its name and every iteration order of the namespace maps, the
serializer emits the events of one well-nested element and leaves the namespace scope
exactly as it found it. -/
theorem C14_element_balanced (ord : List Binding → List Binding) (name : Option Str) (e : Elem)
    (h : SerHelper) (ok : h.Ok) :
    ∃ n : Node, (elemSer ord).Emits (.start name e) h n.events h :=
  ⟨_, emits_elem ord name e h ok⟩

/-! ## The deserializer reads a tree -/

/-- The values that are read for some children below the open elements `ts`. -/
def Nodes.vals (ts : List Tag) : Nodes → Vals
  | .nil => .nil
  | .cons (.elem t ch) ns =>
    .elem (.mk t.name t.attrs (Resolver.visible (flatBindings (t :: ts))) (ch.vals (t :: ts)))
      (ns.vals ts)
  | .cons (.emptyElem t) ns =>
    .elem (.mk t.name t.attrs (Resolver.visible (flatBindings (t :: ts))) .nil) (ns.vals ts)
  | .cons (.leaf e _) ns =>
    match e.leafVal with
    | some v => .leaf v (ns.vals ts)
    | none => ns.vals ts

theorem Vals.append_nil : ∀ v : Vals, v.append .nil = v
  | .nil => rfl
  | .elem e r => by simp only [Vals.append]; rw [append_nil r]
  | .leaf x r => by simp only [Vals.append]; rw [append_nil r]

theorem Vals.append_assoc (b c : Vals) : ∀ a : Vals, (a.append b).append c = a.append (b.append c)
  | .nil => rfl
  | .elem e r => by simp only [Vals.append]; rw [append_assoc b c r]
  | .leaf x r => by simp only [Vals.append]; rw [append_assoc b c r]

theorem Elem.extend_nil (e : Elem) : e.extend .nil = e := by
  cases e; simp [Elem.extend, Vals.append_nil]

theorem Elem.extend_extend (e : Elem) (a b : Vals) :
    (e.extend a).extend b = e.extend (a.append b) := by
  cases e; simp [Elem.extend, Vals.append_assoc]

/-- The state of the deserializer with the enclosing elements `es`, innermost first. -/
def EDe.plug : List Elem → EDe → EDe
  | [], s => s
  | e :: es, s => plug es (.sub e s)

theorem plug_next (es : List Elem) {s s' : EDe} {h h' : Helper} {ev : Event} {de : DEvent}
    (hde : ∀ e, de ≠ .cont e) (hn : s.next h ev = .ok (⟨.deser s', de, true⟩, h')) :
    (EDe.plug es s).next h ev = .ok (⟨.deser (EDe.plug es s'), de, true⟩, h') := by
  induction es generalizing s s' with
  | nil => exact hn
  | cons e es ih =>
    apply ih
    simp only [EDe.next, hn]
    cases de with
    | none => rfl
    | brk x => rfl
    | cont x => exact absurd rfl (hde x)

/-- The helper stands between two events, with the elements `ts` open. -/
def At (h : Helper) (ts : List Tag) : Prop :=
  ∃ p : Pos, Agrees h p ∧ (if p.closing then p.opened.tail else p.opened) = ts

theorem At.start {h : Helper} {ts : List Tag} (a : At h ts) (t : Tag) :
    Agrees (h.handleEvent (.start t)) ⟨t :: ts, false⟩ := by
  obtain ⟨p, ag, hp⟩ := a
  exact agrees_after ag (by simp [Pos.after, hp])

theorem At.empty {h : Helper} {ts : List Tag} (a : At h ts) (t : Tag) :
    Agrees (h.handleEvent (.empty t)) ⟨t :: ts, true⟩ := by
  obtain ⟨p, ag, hp⟩ := a
  exact agrees_after ag (by simp [Pos.after, hp])

theorem At.end_ {h : Helper} {t : Tag} {ts : List Tag} (a : At h (t :: ts)) (n : Str) :
    At (h.handleEvent (.end_ n)) ts := by
  obtain ⟨p, ag, hp⟩ := a
  exact ⟨⟨t :: ts, true⟩, agrees_after ag (by simp [Pos.after, hp]), rfl⟩

theorem At.leaf {h : Helper} {ts : List Tag} (a : At h ts) {e : Event}
    (he : e.isLeaf = true ∨ e = .eof) : At (h.handleEvent e) ts := by
  obtain ⟨p, ag, hp⟩ := a
  refine ⟨⟨ts, false⟩, agrees_after ag ?_, rfl⟩
  rcases he with he | rfl
  · cases e <;> simp_all [Pos.after, Event.isLeaf]
  · simp [Pos.after, hp]

theorem Agrees.at {h : Helper} {ts : List Tag} (a : Agrees h ⟨ts, false⟩) : At h ts :=
  ⟨_, a, rfl⟩

/-- One step of the driver that keeps an intermediate deserializer. -/
theorem run_step {s s' : EDe} {h h' : Helper} {ev : Event} {de : DEvent} (rest : List Event)
    (hn : s.next (h.handleEvent ev) ev = .ok (⟨.deser s', de, true⟩, h'))
    (hl : leftover none de.event true = some none) :
    Drv.run elemEnv elemDeser ⟨h, some s, none⟩ (ev :: rest)
      = Drv.run elemEnv elemDeser ⟨h', some s', none⟩ rest := by
  have hc : callDeser elemDeser (some s) (elemEnv.track h ev) ev
      = .ok (⟨.deser s', de, true⟩, h') := hn
  have hh : Drv.handleEvent elemEnv elemDeser ⟨h, some s, none⟩ ev
      = .ok (none, ⟨h', some s', none⟩) := by
    simp only [Drv.handleEvent, handleSkip, hc, hl, Artifact.dataOf, Artifact.deserOf]
  rw [Drv.run, hh]

theorem createElement_ok {t : Tag} (hu : t.UniqueAttrs) (nss : List Binding) :
    createElement t nss = .ok (.mk t.name t.attrs nss .nil) := by
  unfold createElement
  exact if_pos hu

theorem run_start {t : Tag} (hu : t.UniqueAttrs) {h : Helper} {ts : List Tag} (a : At h ts)
    (es : List Elem) (e : Elem) (rest : List Event) :
    ∃ h', At h' (t :: ts) ∧
      Drv.run elemEnv elemDeser ⟨h, some (EDe.plug es (.one e)), none⟩ (.start t :: rest)
        = Drv.run elemEnv elemDeser ⟨h', some (EDe.plug (e :: es) (.one
            (.mk t.name t.attrs (Resolver.visible (flatBindings (t :: ts))) .nil))), none⟩ rest := by
  have a1 := a.start t
  obtain ⟨hns, a2⟩ := agrees_ask a1
  refine ⟨_, a2.at, ?_⟩
  refine run_step (de := .none) rest (plug_next es (by simp) ?_) rfl
  simp only [EDe.next, EDe.own, EDe.init, hns, createElement_ok hu, EDe.store, EDe.elem]
  rfl

theorem run_nodes (ns : Nodes) (hu : ns.UniqueAttrs) (ts : List Tag) (h : Helper) (a : At h ts)
    (es : List Elem) (e : Elem) (rest : List Event) :
    ∃ h', At h' ts ∧
      Drv.run elemEnv elemDeser ⟨h, some (EDe.plug es (.one e)), none⟩ (ns.events ++ rest)
        = Drv.run elemEnv elemDeser
            ⟨h', some (EDe.plug es (.one (e.extend (ns.vals ts)))), none⟩ rest := by
  match ns with
  | .nil => exact ⟨h, a, by simp [Nodes.events, Nodes.vals, Elem.extend_nil]⟩
  | .cons (.elem t ch) ns =>
    simp only [Nodes.UniqueAttrs] at hu
    simp only [Nodes.events, Node.events, List.cons_append, List.append_assoc, List.nil_append,
      Nodes.vals]
    obtain ⟨h1, a1, e1⟩ := run_start hu.1 a es e (ch.events ++ .end_ t.name :: (ns.events ++ rest))
    rw [e1]
    obtain ⟨h2, a2, e2⟩ := run_nodes ch hu.2.1 (t :: ts) h1 a1 (e :: es)
      (.mk t.name t.attrs (Resolver.visible (flatBindings (t :: ts))) .nil)
      (.end_ t.name :: (ns.events ++ rest))
    rw [e2]
    have a3 := a2.end_ t.name
    have e3 := run_step (de := .none) (h' := h2.handleEvent (.end_ t.name))
      (s := EDe.plug es (.sub e (.one (.mk t.name t.attrs
        (Resolver.visible (flatBindings (t :: ts))) (ch.vals (t :: ts))))))
      (s' := EDe.plug es (.one (e.extend (.elem (.mk t.name t.attrs
        (Resolver.visible (flatBindings (t :: ts))) (ch.vals (t :: ts))) .nil))))
      (ev := .end_ t.name) (ns.events ++ rest) (plug_next es (by simp) rfl) rfl
    rw [show (EDe.plug (e :: es) (.one ((Elem.mk t.name t.attrs
        (Resolver.visible (flatBindings (t :: ts))) .nil).extend (ch.vals (t :: ts)))))
      = EDe.plug es (.sub e (.one (.mk t.name t.attrs
        (Resolver.visible (flatBindings (t :: ts))) (ch.vals (t :: ts))))) from rfl, e3]
    obtain ⟨h4, a4, e4⟩ := run_nodes ns hu.2.2 ts _ a3 es
      (e.extend (.elem (.mk t.name t.attrs (Resolver.visible (flatBindings (t :: ts)))
        (ch.vals (t :: ts))) .nil)) rest
    refine ⟨h4, a4, ?_⟩
    rw [e4, Elem.extend_extend]
    rfl
  | .cons (.emptyElem t) ns =>
    simp only [Nodes.UniqueAttrs] at hu
    simp only [Nodes.events, Node.events, List.cons_append, List.nil_append, Nodes.vals]
    have a1 := a.empty t
    obtain ⟨hns, a2⟩ := agrees_ask a1
    rw [run_step (de := .none)
      (s' := EDe.plug es (.one (e.extend (.elem (.mk t.name t.attrs
        (Resolver.visible (flatBindings (t :: ts))) .nil) .nil)))) _
      (plug_next es (by simp) (by
        simp only [EDe.next, EDe.own, EDe.init, hns, createElement_ok hu.1, EDe.store, EDe.push]
        rfl)) rfl]
    obtain ⟨h4, a4, e4⟩ := run_nodes ns hu.2 ts _ ⟨_, a2, rfl⟩ es
      (e.extend (.elem (.mk t.name t.attrs (Resolver.visible (flatBindings (t :: ts)))
        .nil) .nil)) rest
    refine ⟨h4, a4, ?_⟩
    rw [e4, Elem.extend_extend]
    rfl
  | .cons (.leaf ev he) ns =>
    simp only [Nodes.UniqueAttrs] at hu
    simp only [Nodes.events, Node.events, List.cons_append, List.nil_append, Nodes.vals]
    have a1 := a.leaf (Or.inl he)
    have hstep : ∃ de, (EDe.one e).next (h.handleEvent ev) ev
        = .ok (⟨.deser (.one (e.extend (match ev.leafVal with
            | some v => .leaf v .nil | none => .nil))), de, true⟩, h.handleEvent ev) ∧
        (∀ x, de ≠ .cont x) ∧ leftover none de.event true = some none := by
      cases ev with
      | text s => exact ⟨.none, rfl, by simp, rfl⟩
      | cdata s => exact ⟨.none, rfl, by simp, rfl⟩
      | comment s => exact ⟨.none, rfl, by simp, rfl⟩
      | ref s => exact ⟨.brk (.ref s), by simp [EDe.next, EDe.own, Event.leafVal, Elem.extend_nil],
          by simp, rfl⟩
      | pi s => exact ⟨.brk (.pi s), by simp [EDe.next, EDe.own, Event.leafVal, Elem.extend_nil],
          by simp, rfl⟩
      | decl s => exact ⟨.brk (.decl s), by
          simp [EDe.next, EDe.own, Event.leafVal, Elem.extend_nil], by simp, rfl⟩
      | docType s => exact ⟨.brk (.docType s), by
          simp [EDe.next, EDe.own, Event.leafVal, Elem.extend_nil], by simp, rfl⟩
      | _ => cases he
    obtain ⟨de, hn, hde, hl⟩ := hstep
    rw [run_step _ (plug_next es hde hn) hl]
    obtain ⟨h4, a4, e4⟩ := run_nodes ns hu ts _ a1 es
      (e.extend (match ev.leafVal with | some v => .leaf v .nil | none => .nil)) rest
    refine ⟨h4, a4, ?_⟩
    rw [e4, Elem.extend_extend]
    cases ev.leafVal <;> rfl

/-- What is read for an element with start tag `t` and content `ch`. -/
def readElem (t : Tag) (ch : Nodes) : Elem :=
  .mk t.name t.attrs (Resolver.visible (flatBindings [t])) (ch.vals [t])

theorem run_root_start {t : Tag} (hu : t.UniqueAttrs) (rest : List Event) :
    ∃ h', At h' [t] ∧
      Drv.run elemEnv elemDeser { helper := {} } (.start t :: rest)
        = Drv.run elemEnv elemDeser ⟨h', some (EDe.plug [] (.one
            (.mk t.name t.attrs (Resolver.visible (flatBindings [t])) .nil))), none⟩ rest := by
  have a1 : Agrees (Helper.handleEvent {} (.start t)) ⟨[t], false⟩ :=
    At.start ⟨{}, agrees_init, rfl⟩ t
  obtain ⟨hns, a2⟩ := agrees_ask a1
  refine ⟨_, a2.at, ?_⟩
  have hc : callDeser elemDeser none (elemEnv.track {} (.start t)) (.start t)
      = .ok (⟨.deser (.one (.mk t.name t.attrs (Resolver.visible (flatBindings [t])) .nil)),
          .none, true⟩, (Helper.handleEvent {} (.start t)).askNamespaces.2) := by
    show EDe.init (Helper.handleEvent {} (.start t)) (.start t) = _
    simp only [EDe.init]
    rw [hns, createElement_ok hu]
    rfl
  rw [Drv.run]
  simp only [Drv.handleEvent, handleSkip, hc]
  rfl

theorem run_root {t : Tag} (hu : t.UniqueAttrs) {ch : Nodes} (huc : ch.UniqueAttrs)
    (rest : List Event) :
    Drv.run elemEnv elemDeser { helper := {} } ((Node.elem t ch).events ++ rest)
      = .done (readElem t ch) rest := by
  simp only [Node.events, List.cons_append, List.append_assoc, List.nil_append]
  obtain ⟨h1, a1, e1⟩ := run_root_start hu (ch.events ++ .end_ t.name :: rest)
  rw [e1]
  obtain ⟨h2, a2, e2⟩ := run_nodes ch huc [t] h1 a1 []
    (.mk t.name t.attrs (Resolver.visible (flatBindings [t])) .nil) (.end_ t.name :: rest)
  rw [e2]
  rfl

/-! ## Round trip -/

theorem foldl_xmlns_plain (bs : List Binding) :
    ∀ (t : Tag) (h' : SerHelper),
      (bs.foldl (fun r b => r.2.writeXmlns r.1 b.1 b.2) (t, h')).1.plainAttrs = t.plainAttrs := by
  induction bs with
  | nil => intro t h'; rfl
  | cons b bs ih =>
    intro t h'
    rw [List.foldl_cons, ih]
    have hadd : (h'.addEntry t b.1 b.2).1.plainAttrs = t.plainAttrs := by
      simp [SerHelper.addEntry, Tag.plainAttrs, List.filter_append, declPrefix_xmlnsKey]
    unfold SerHelper.writeXmlns
    cases h'.entries.find? fun e => e.ns == b.2 with
    | none => exact hadd
    | some e =>
      by_cases hp : e.pfx = b.1
      · simp [hp]
      · simpa [hp] using hadd

theorem tag_plain (ord : List Binding → List Binding) (name : Option Str) (e : Elem)
    (h : SerHelper) :
    (e.tag ord name h).1.plainAttrs = e.attrs.filter fun a => (declPrefix a.key).isNone := by
  have hnil : (⟨name.getD e.name, []⟩ : Tag).plainAttrs = [] := rfl
  have := foldl_xmlns_plain (ord e.nss) ⟨name.getD e.name, []⟩ h.beginScope
  rw [hnil] at this
  unfold Elem.tag
  simp only [Tag.plainAttrs, List.filter_append] at this ⊢
  rw [this, List.nil_append, List.filter_filter]
  apply List.filter_congr
  intro a _
  unfold keepAttr
  cases declPrefix a.key <;> simp

theorem plain_node (ord : List Binding → List Binding) (name : Option Str) (e : Elem)
    (h : SerHelper) (r : Nodes) :
    (Nodes.cons (e.node ord name h) r).plain
      = .elem (.elem (name.getD e.name) (e.attrs.filter fun a => (declPrefix a.key).isNone)
          (e.values.nodes ord (e.tag ord name h).2).plain) r.plain := by
  match e with
  | .mk n a b .nil =>
    simp only [Elem.node, Nodes.plain, tag_name, tag_plain, Elem.values, Vals.nodes]
  | .mk n a b (.elem c r') =>
    simp only [Elem.node]
    rw [Nodes.plain, tag_name, tag_plain]
    simp only [Elem.values, Vals.nodes]
  | .mk n a b (.leaf v r') =>
    simp only [Elem.node]
    rw [Nodes.plain, tag_name, tag_plain]
    simp only [Elem.values, Vals.nodes]

theorem leafVal_event (v : LeafVal) : v.event.leafVal = some v := by cases v <;> rfl

theorem plain_vals (ord : List Binding → List Binding) (ns : Nodes) (ts : List Tag)
    (h : SerHelper) : ((ns.vals ts).nodes ord h).plain = ns.plain := by
  match ns with
  | .nil => rfl
  | .cons (.elem t ch) ns =>
    simp only [Nodes.vals, Vals.nodes]
    rw [plain_node, plain_vals ord ns ts h]
    simp only [Elem.values, Elem.attrs, Elem.name, Option.getD_none]
    rw [plain_vals ord ch (t :: ts), Nodes.plain]
    rfl
  | .cons (.emptyElem t) ns =>
    simp only [Nodes.vals, Vals.nodes]
    rw [plain_node, plain_vals ord ns ts h, Nodes.plain]
    rfl
  | .cons (.leaf ev he) ns =>
    simp only [Nodes.vals, Nodes.plain]
    cases ev.leafVal with
    | none => exact plain_vals ord ns ts h
    | some v =>
      simp only [Vals.nodes, Nodes.plain, leafVal_event]
      rw [plain_vals ord ns ts h]

/-- **C18** (partial), structure: every element tree (with distinct attribute names on every
tag) is read completely, and writing the value again (into any document, in any
iteration order of the namespace maps) gives an element with the same tree of names,
attributes, text, CDATA and comments. Missing: references and processing instructions, which
are dropped (`C18_references_lost`). -/
theorem C18_structure_partial (ord : List Binding → List Binding) (t : Tag) (ch : Nodes)
    (hu : t.UniqueAttrs) (huc : ch.UniqueAttrs) (h : SerHelper) (ok : h.Ok) :
    ∃ v out, Drv.run elemEnv elemDeser { helper := {} } (Node.elem t ch).events = .done v [] ∧
      (elemSer ord).Emits (.start none v) h (Node.events out) h ∧
      (Nodes.cons out .nil).plain = (Nodes.single t ch).plain := by
  refine ⟨readElem t ch, _, ?_, emits_elem ord none _ h ok, ?_⟩
  · simpa using run_root hu huc []
  · rw [plain_node]
    simp only [readElem, Elem.values, Elem.attrs, Elem.name, Option.getD_none]
    rw [plain_vals]
    simp only [Nodes.single, Nodes.plain]
    rfl

/-! ### Namespaces -/

theorem visible_consistent {f : Str → Str} {bs : List (Nat × Binding)}
    (hc : ∀ b ∈ bs, b.2.2 = f b.2.1 ∧ b.2.2 ≠ []) (p ns : Str) :
    (p, ns) ∈ Resolver.visible bs ↔ ∃ l, (l, p, ns) ∈ bs := by
  induction bs with
  | nil => simp [Resolver.visible]
  | cons b bs ih =>
    obtain ⟨l, q, n⟩ := b
    have ih := ih fun b hb => hc b (by simp [hb])
    have hq := hc (l, q, n) (by simp)
    simp only at hq
    simp only [Resolver.visible]
    by_cases hany : bs.any (fun b => b.2.1 == q) = true
    · rw [if_pos hany, ih]
      constructor
      · rintro ⟨l', hl⟩; exact ⟨l', by simp [hl]⟩
      · rintro ⟨l', hl⟩
        rcases List.mem_cons.mp hl with heq | hl
        · obtain ⟨rfl, rfl, rfl⟩ : l' = l ∧ p = q ∧ ns = n := by simpa using heq
          obtain ⟨⟨l2, q2, n2⟩, hm, hq2⟩ := List.any_eq_true.mp hany
          have hq2 : q2 = p := by simpa using hq2
          subst hq2
          have h2 := (hc _ (List.mem_cons_of_mem _ hm)).1
          simp only at h2
          rw [← hq.1] at h2
          subst h2
          exact ⟨l2, hm⟩
        · exact ⟨l', hl⟩
    · rw [if_neg hany, if_neg hq.2]
      simp only [List.mem_cons, Prod.mk.injEq, ih]
      constructor
      · rintro (⟨rfl, rfl⟩ | ⟨l', hl⟩)
        · exact ⟨l, Or.inl ⟨rfl, rfl, rfl⟩⟩
        · exact ⟨l', Or.inr hl⟩
      · rintro ⟨l', ⟨rfl, rfl, rfl⟩ | hl⟩
        · exact Or.inl ⟨rfl, rfl⟩
        · exact Or.inr ⟨l', hl⟩

theorem mem_flatBindings (ts : List Tag) (b : Binding) :
    (∃ l, (l, b) ∈ flatBindings ts) ↔ b ∈ openDecls ts := by
  induction ts with
  | nil => simp [flatBindings, openDecls]
  | cons t ts ih =>
    simp only [flatBindings, openDecls, List.mem_append, List.mem_map, List.mem_reverse, ← ih]
    constructor
    · rintro ⟨l, hl | ⟨x, hx, heq⟩⟩
      · exact Or.inr ⟨l, hl⟩
      · cases heq; exact Or.inl hx
    · rintro (hb | ⟨l, hl⟩)
      · exact ⟨_, Or.inr ⟨b, hb, rfl⟩⟩
      · exact ⟨l, Or.inl hl⟩

/-- Every declaration of the open tags is the one prescribed by `f`. -/
def Consistent (f : Str → Str) (ts : List Tag) : Prop :=
  ∀ b ∈ openDecls ts, b.2 = f b.1 ∧ b.2 ≠ []

theorem mem_visible {f : Str → Str} {ts : List Tag} (hc : Consistent f ts) (b : Binding) :
    b ∈ Resolver.visible (flatBindings ts) ↔ b ∈ openDecls ts := by
  obtain ⟨p, ns⟩ := b
  rw [visible_consistent (f := f) (fun b hb => hc b.2 ((mem_flatBindings ts b.2).mp ⟨b.1, hb⟩)),
    mem_flatBindings]

/-- In consistent documents a prefix is bound iff it is declared. -/
theorem inScope_consistent {f : Str → Str} {ts : List Tag} (hc : Consistent f ts) (p ns : Str) :
    inScope p ts = some ns ↔ (p, ns) ∈ openDecls ts := by
  constructor
  · intro h
    rw [inScope_find] at h
    cases hf : (openDecls ts).find? fun b => b.1 == p with
    | none => rw [hf] at h; cases h
    | some b =>
      have h1 : b.1 = p := by simpa using List.find?_some hf
      have h2 := List.mem_of_find?_eq_some hf
      rw [hf] at h
      simp only [Option.bind_some, if_neg (hc b h2).2, Option.some.injEq] at h
      rw [← h1, ← h]; exact h2
  · exact inScope_of_mem hc

/-- Same declared bindings, same scope. -/
theorem inScope_congr {f : Str → Str} {ts ts' : List Tag} (hc : Consistent f ts)
    (hc' : Consistent f ts') (hm : ∀ b, b ∈ openDecls ts' ↔ b ∈ openDecls ts) :
    (fun p => inScope p ts') = fun p => inScope p ts := by
  funext p
  apply Option.ext
  intro ns
  rw [inScope_consistent hc, inScope_consistent hc', hm]

theorem foldl_xmlns_agrees (bs : List Binding) (outer : List Tag) :
    ∀ (t : Tag) (h : SerHelper), SAgrees ⟨h, t :: outer⟩ →
      let r := bs.foldl (fun r b => r.2.writeXmlns r.1 b.1 b.2) (t, h)
      SAgrees ⟨r.2, r.1 :: outer⟩ ∧
      ∀ b, b ∈ openDecls (r.1 :: outer) ↔ b ∈ openDecls (t :: outer) ∨ b ∈ bs := by
  induction bs with
  | nil => intro t h a; exact ⟨a, by simp⟩
  | cons b bs ih =>
    intro t h a
    have a1 : SAgrees ⟨(h.writeXmlns t b.1 b.2).2, (h.writeXmlns t b.1 b.2).1 :: outer⟩ :=
      sagrees_step (op := .xmlns b.1 b.2) a rfl
    obtain ⟨a2, hm⟩ := ih _ _ a1
    refine ⟨a2, fun x => ?_⟩
    rw [List.foldl_cons] at *
    rw [hm x]
    have hd := writeXmlns_decls a t outer b.1 b.2 rfl
    simp only at hd
    rw [hd]
    by_cases hl : ((openDecls (t :: outer)).find? fun c => c.2 == b.2).map (·.1) = some b.1
    · rw [if_pos hl]
      have hb : b ∈ openDecls (t :: outer) := by
        cases hf : (openDecls (t :: outer)).find? fun c => c.2 == b.2 with
        | none => rw [hf] at hl; cases hl
        | some c =>
          rw [hf] at hl
          have h1 : c.1 = b.1 := by simpa using hl
          have h2 : c.2 = b.2 := by simpa using List.find?_some hf
          have : c = b := Prod.ext h1 h2
          rw [← this]; exact List.mem_of_find?_eq_some hf
      simp only [List.mem_cons]
      constructor
      · rintro (h1 | h1)
        · exact Or.inl h1
        · exact Or.inr (Or.inr h1)
      · rintro (h1 | rfl | h1)
        · exact Or.inl h1
        · exact Or.inl hb
        · exact Or.inr h1
    · rw [if_neg hl]
      simp only [List.mem_cons]
      constructor
      · rintro ((h1 | h1) | h1)
        · exact Or.inr (Or.inl h1)
        · exact Or.inl h1
        · exact Or.inr (Or.inr h1)
      · rintro (h1 | h1 | h1)
        · exact Or.inl (Or.inr h1)
        · exact Or.inl (Or.inl h1)
        · exact Or.inr h1

/-- The documents read (`ts`) and written (`ts'`) agree at the current position. -/
structure Mirror (f : Str → Str) (ts ts' : List Tag) (h : SerHelper) : Prop where
  agrees : SAgrees ⟨h, ts'⟩
  left : Consistent f ts
  right : ∀ b, b ∈ openDecls ts' ↔ b ∈ openDecls ts

theorem Mirror.consistent {f : Str → Str} {ts ts' : List Tag} {h : SerHelper}
    (m : Mirror f ts ts' h) : Consistent f ts' := fun b hb => m.left b ((m.right b).mp hb)

theorem mirror_tag {f : Str → Str} {ts ts' : List Tag} {h : SerHelper} (m : Mirror f ts ts' h)
    {t : Tag} (ht : t.OneNs f) (ord : List Binding → List Binding) (hord : ∀ l, (ord l).Perm l)
    (name : Option Str) (vs : Vals) :
    Mirror f (t :: ts)
      (((Elem.mk t.name t.attrs (Resolver.visible (flatBindings (t :: ts))) vs).tag ord name h).1
        :: ts')
      ((Elem.mk t.name t.attrs (Resolver.visible (flatBindings (t :: ts))) vs).tag ord name h).2 := by
  have hc : Consistent f (t :: ts) := by
    intro b hb
    simp only [openDecls, List.mem_append, List.mem_reverse] at hb
    rcases hb with hb | hb
    · exact ht b hb
    · exact m.left b hb
  have a0 : SAgrees ⟨h.beginScope, ⟨name.getD t.name, []⟩ :: ts'⟩ :=
    sagrees_step (op := .open (name.getD t.name)) m.agrees rfl
  obtain ⟨a1, hm⟩ := foldl_xmlns_agrees
    (ord (Resolver.visible (flatBindings (t :: ts)))) ts' _ _ a0
  -- no attribute that declares a namespace is left
  have hkeep : ∀ a ∈ t.attrs, keepAttr (Resolver.visible (flatBindings (t :: ts))) a = true →
      declPrefix a.key = none := by
    intro a ha hk
    unfold keepAttr at hk
    cases hd : declPrefix a.key with
    | none => rfl
    | some p =>
      exfalso
      rw [hd] at hk
      have hmem : (p, a.value) ∈ openDecls (t :: ts) := by
        simp only [openDecls, List.mem_append, List.mem_reverse]
        left
        simp only [Tag.decls, List.mem_filterMap]
        exact ⟨a, ha, by simp [hd]⟩
      have := (mem_visible hc _).mpr hmem
      simp only [Bool.not_eq_true', List.any_eq_false] at hk
      exact hk _ this (by simp)
  have hdecls : ∀ r : Tag, (⟨r.name, r.attrs ++ t.attrs.filter
      (keepAttr (Resolver.visible (flatBindings (t :: ts))))⟩ : Tag).decls = r.decls := by
    intro r
    simp only [Tag.decls, List.filterMap_append]
    have : (t.attrs.filter (keepAttr (Resolver.visible (flatBindings (t :: ts))))).filterMap
        (fun a => (declPrefix a.key).map fun p => (p, a.value)) = [] := by
      rw [List.filterMap_eq_nil_iff]
      intro a ha
      rw [List.mem_filter] at ha
      simp [hkeep a ha.1 ha.2]
    rw [this, List.append_nil]
  refine ⟨⟨?_, ?_⟩, hc, ?_⟩
  · exact a1.level
  · have := a1.entries
    simp only at this
    simp only [Elem.tag, Elem.nss, Elem.attrs, Elem.name, this, flatEntries, hdecls]
  · intro b
    have h1 := hm b
    simp only [Elem.tag, Elem.nss, Elem.attrs, Elem.name, openDecls, hdecls]
    simp only [openDecls] at h1
    rw [h1]
    simp only [Tag.decls, List.filterMap_nil, List.reverse_nil, List.nil_append]
    rw [(hord _).mem_iff, mem_visible hc, m.right]
    simp only [openDecls, List.mem_append, List.mem_reverse, Tag.decls]
    constructor
    · rintro (h1 | h1)
      · exact Or.inr h1
      · exact h1
    · exact Or.inr

theorem scoped_node (ord : List Binding → List Binding) (name : Option Str) (e : Elem)
    (h : SerHelper) (ts : List Tag) (r : Nodes) :
    (Nodes.cons (e.node ord name h) r).scoped ts
      = .elem (.elem (name.getD e.name) (e.attrs.filter fun a => (declPrefix a.key).isNone)
          (fun p => inScope p ((e.tag ord name h).1 :: ts))
          ((e.values.nodes ord (e.tag ord name h).2).scoped ((e.tag ord name h).1 :: ts)))
          (r.scoped ts) := by
  match e with
  | .mk n a b .nil =>
    simp only [Elem.node, Nodes.scoped, tag_name, tag_plain, Elem.values, Vals.nodes]
  | .mk n a b (.elem c r') =>
    simp only [Elem.node]
    rw [Nodes.scoped, tag_name, tag_plain]
    simp only [Elem.values, Vals.nodes]
  | .mk n a b (.leaf v r') =>
    simp only [Elem.node]
    rw [Nodes.scoped, tag_name, tag_plain]
    simp only [Elem.values, Vals.nodes]

theorem scoped_vals (f : Str → Str) (ord : List Binding → List Binding)
    (hord : ∀ l, (ord l).Perm l) (ns : Nodes) (hns : ns.OneNs f) (ts ts' : List Tag)
    (h : SerHelper) (m : Mirror f ts ts' h) :
    ((ns.vals ts).nodes ord h).scoped ts' = ns.scoped ts := by
  match ns with
  | .nil => rfl
  | .cons (.elem t ch) ns =>
    simp only [Nodes.OneNs] at hns
    have m' := mirror_tag m hns.1 ord hord none (ch.vals (t :: ts))
    simp only [Nodes.vals, Vals.nodes]
    rw [scoped_node, scoped_vals f ord hord ns hns.2.2 ts ts' h m]
    rw [inScope_congr m'.left m'.consistent m'.right]
    rw [show (Elem.mk t.name t.attrs (Resolver.visible (flatBindings (t :: ts)))
      (ch.vals (t :: ts))).values = ch.vals (t :: ts) from rfl]
    rw [scoped_vals f ord hord ch hns.2.1 _ _ _ m', Nodes.scoped]
    rfl
  | .cons (.emptyElem t) ns =>
    simp only [Nodes.OneNs] at hns
    have m' := mirror_tag m hns.1 ord hord none .nil
    simp only [Nodes.vals, Vals.nodes]
    rw [scoped_node, scoped_vals f ord hord ns hns.2 ts ts' h m]
    rw [inScope_congr m'.left m'.consistent m'.right, Nodes.scoped]
    rfl
  | .cons (.leaf ev he) ns =>
    simp only [Nodes.OneNs] at hns
    simp only [Nodes.vals, Nodes.scoped]
    cases ev.leafVal with
    | none => exact scoped_vals f ord hord ns hns ts ts' h m
    | some v =>
      simp only [Vals.nodes, Nodes.scoped, leafVal_event]
      rw [scoped_vals f ord hord ns hns ts ts' h m]

/-- **C18** (partial), namespaces: if in the element every prefix is bound to one namespace
only (and never un-bound), the element that is written has, at every element of the tree,
exactly the namespace bindings in scope that the original had there; so all qualified names
keep their meaning. Missing: prefixes bound to several namespaces
(`C18_namespace_changed`). -/
theorem C18_namespaces_partial (ord : List Binding → List Binding) (hord : ∀ l, (ord l).Perm l)
    (f : Str → Str) (t : Tag) (ch : Nodes) (hu : t.UniqueAttrs) (huc : ch.UniqueAttrs)
    (ht : t.OneNs f) (hch : ch.OneNs f) :
    ∃ v out, Drv.run elemEnv elemDeser { helper := {} } (Node.elem t ch).events = .done v [] ∧
      (elemSer ord).Emits (.start none v) {} (Node.events out) {} ∧
      (Nodes.cons out .nil).scoped [] = (Nodes.single t ch).scoped [] := by
  refine ⟨readElem t ch, _, ?_, emits_elem ord none _ {} (fun e he => by cases he), ?_⟩
  · simpa using run_root hu huc []
  · have m : Mirror f [] [] {} := ⟨sagrees_init, by simp [Consistent, openDecls], by simp⟩
    have m' := mirror_tag m ht ord hord none (ch.vals [t])
    rw [scoped_node]
    unfold readElem
    rw [inScope_congr m'.left m'.consistent m'.right]
    rw [show (Elem.mk t.name t.attrs (Resolver.visible (flatBindings [t]))
      (ch.vals [t])).values = ch.vals [t] from rfl]
    rw [scoped_vals f ord hord ch hch _ _ _ m']
    simp only [Nodes.single, Nodes.scoped]
    rfl

/-! ### Findings -/

section Findings

private def dns : Str → Attr := fun v => ⟨xmlnsStr ++ [':', 'p'], v⟩

/-- **C18** is false in general (1): in `<r xmlns:p="1"><c xmlns:p="2"><p:g xmlns:p="1"/></c></r>`
the element `p:g` is in namespace `1`; after reading and writing it is in namespace `2`. -/
theorem C18_namespace_changed :
    let r : Tag := ⟨['r'], [dns ['1']]⟩
    let c : Tag := ⟨['c'], [dns ['2']]⟩
    let g : Tag := ⟨['p', ':', 'g'], [dns ['1']]⟩
    let g' : Tag := ⟨['p', ':', 'g'], []⟩
    (∃ v, Drv.run elemEnv elemDeser { helper := {} }
        [.start r, .start c, .empty g, .end_ c.name, .end_ r.name] = .done v [] ∧
      (elemSer id).Emits (.start none v) {}
        [.start r, .start c, .empty g', .end_ c.name, .end_ r.name] {}) ∧
    inScope ['p'] [g, c, r] = some ['1'] ∧ inScope ['p'] [g', c, r] = some ['2'] := by
  refine ⟨⟨_, rfl, ?_⟩, by decide, by decide⟩
  exact .step rfl (.step rfl (.step rfl (.step rfl (.step rfl (.done rfl)))))

/-- **C18** is false in general (2): a reference in the text is lost. `<a>x&lt;y</a>` is
written as `<a>xy</a>`. -/
theorem C18_references_lost :
    let a : Tag := ⟨['a'], []⟩
    ∃ v, Drv.run elemEnv elemDeser { helper := {} }
        [.start a, .text ['x'], .ref ['l', 't'], .text ['y'], .end_ a.name] = .done v [] ∧
      (elemSer id).Emits (.start none v) {} [.start a, .text ['x'], .text ['y'], .end_ a.name] {} := by
  refine ⟨_, rfl, ?_⟩
  exact .step rfl (.step rfl (.step rfl (.step rfl (.done rfl))))

end Findings

/-! ## C03: truncated documents -/

/-- The events of a document that stops inside some open elements: for every open element its
start tag and its complete children so far, outermost first. -/
def truncated : List (Tag × Nodes) → List Event
  | [] => []
  | (t, ch) :: rest => .start t :: (ch.events ++ truncated rest)

theorem run_truncated (opens : List (Tag × Nodes))
    (hu : ∀ o ∈ opens, o.1.UniqueAttrs ∧ o.2.UniqueAttrs) (ts : List Tag) (h : Helper)
    (a : At h ts) (es : List Elem) (e : Elem) (rest : List Event) :
    ∃ h' es' e', Drv.run elemEnv elemDeser ⟨h, some (EDe.plug es (.one e)), none⟩
        (truncated opens ++ rest)
      = Drv.run elemEnv elemDeser ⟨h', some (EDe.plug es' (.one e')), none⟩ rest := by
  induction opens generalizing ts h es e with
  | nil => exact ⟨h, es, e, rfl⟩
  | cons o opens ih =>
    obtain ⟨t, ch⟩ := o
    have hu1 := hu (t, ch) (by simp)
    obtain ⟨h1, a1, e1⟩ := run_start hu1.1 a es e (ch.events ++ (truncated opens ++ rest))
    obtain ⟨h2, a2, e2⟩ := run_nodes ch hu1.2 (t :: ts) h1 a1 (e :: es)
      (.mk t.name t.attrs (Resolver.visible (flatBindings (t :: ts))) .nil)
      (truncated opens ++ rest)
    obtain ⟨h3, es3, e3, e4⟩ := ih (fun o ho => hu o (by simp [ho])) (t :: ts) h2 a2 (e :: es) _
    refine ⟨h3, es3, e3, ?_⟩
    simp only [truncated, List.cons_append, List.append_assoc]
    rw [e1, e2, e4]

theorem run_eofs (n : Nat) (es : List Elem) (e : Elem) (h : Helper) :
    (Drv.run elemEnv elemDeser ⟨h, some (EDe.plug es (.one e)), none⟩
      (List.replicate n .eof)).decided = false := by
  induction n generalizing h with
  | zero => rfl
  | succ n ih =>
    rw [List.replicate_succ, run_step (de := .brk .eof) _ (plug_next es (by simp) rfl) rfl]
    exact ih _

theorem run_eofs_init (n : Nat) (h : Helper) :
    (Drv.run elemEnv elemDeser ⟨h, none, none⟩ (List.replicate n .eof)).decided = false := by
  induction n generalizing h with
  | zero => rfl
  | succ n ih => rw [List.replicate_succ, Drv.run]; exact ih _

/-- **C03** is false for wildcard elements: on every document that stops inside the root
element (or is empty) reading an `Element` never returns, however often the reader
reports the end of the file. -/
theorem C03_element_diverges_on_truncated (opens : List (Tag × Nodes))
    (hu : ∀ o ∈ opens, o.1.UniqueAttrs ∧ o.2.UniqueAttrs) (n : Nat) :
    (Drv.run elemEnv elemDeser { helper := {} }
      (truncated opens ++ List.replicate n .eof)).decided = false := by
  cases opens with
  | nil => exact run_eofs_init n {}
  | cons o opens =>
    obtain ⟨t, ch⟩ := o
    have hu1 := hu (t, ch) (by simp)
    obtain ⟨h1, a1, e1⟩ := run_root_start hu1.1
      (ch.events ++ (truncated opens ++ List.replicate n .eof))
    obtain ⟨h2, a2, e2⟩ := run_nodes ch hu1.2 [t] h1 a1 []
      (.mk t.name t.attrs (Resolver.visible (flatBindings [t])) .nil)
      (truncated opens ++ List.replicate n .eof)
    obtain ⟨h3, es3, e3, e4⟩ := run_truncated opens (fun o ho => hu o (by simp [ho])) [t] h2 a2 [] _
      (List.replicate n .eof)
    simp only [truncated, List.cons_append, List.append_assoc]
    rw [e1, e2, e4]
    exact run_eofs n es3 e3 h3

/-- Non-vacuity: a document that satisfies the hypotheses of the round-trip theorems, with
two namespaces, an attribute and nested content. -/
example :
    let f : Str → Str := fun p => if p = ['p'] then ['1'] else ['2']
    let r : Tag := ⟨['r'], [dns ['1'], ⟨['k'], ['v']⟩]⟩
    let c : Tag := ⟨['c'], [⟨xmlnsStr, ['2']⟩, dns ['1']]⟩
    let ch : Nodes := .cons (.leaf (.text ['x']) rfl) (.cons (.elem c (.cons (.emptyElem c) .nil)) .nil)
    r.UniqueAttrs ∧ ch.UniqueAttrs ∧ r.OneNs f ∧ ch.OneNs f := by
  simp only [Nodes.UniqueAttrs, Nodes.OneNs, Tag.UniqueAttrs, Tag.OneNs]
  decide

end Verif.Rt

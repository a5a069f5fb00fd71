/-!
# XML events

The event alphabet shared by the runtime models: what `quick_xml::Reader::read_event`
returns (external crate, not part of the repository) and what
`xsd-parser-types/src/quick_xml/reader/mod.rs` hands to the deserializers.

Simplifications: names, keys and texts are lists of characters (the code uses byte
slices, UTF-8 decoding is not modelled); `Text` and `GeneralRef` hold the *raw* text as it
stands in the document (the code calls `unescape` on it at the points of use); payloads of
comments and the like are kept, because `xml::Element` stores them.
-/

namespace Verif.Rt

abbrev Str := List Char

/-- One attribute of a start tag, `quick_xml::events::attributes::Attribute`. -/
structure Attr where
  key : Str
  value : Str
deriving DecidableEq, Repr

/-- A start tag, `quick_xml::events::BytesStart`. -/
structure Tag where
  name : Str
  attrs : List Attr
deriving DecidableEq, Repr

/-- `quick_xml::events::Event`. -/
inductive Event where
  | start (t : Tag)
  | empty (t : Tag)
  | end_ (name : Str)
  | text (s : Str)
  | cdata (s : Str)
  | ref (s : Str)
  | comment (s : Str)
  | pi (s : Str)
  | decl (s : Str)
  | docType (s : Str)
  | eof
deriving DecidableEq, Repr

namespace Event

/-- Events that neither open nor close an element nor end the document. -/
def isLeaf : Event → Bool
  | start _ | empty _ | end_ _ | eof => false
  | _ => true

/-- Does the event carry character data? -/
def isChars : Event → Bool
  | text _ | cdata _ | ref _ => true
  | _ => false

end Event

mutual

/-- A piece of well-formed element content. -/
inductive Node where
  /-- `<t> … </t>` -/
  | elem (t : Tag) (children : Nodes)
  /-- `<t/>` -/
  | emptyElem (t : Tag)
  /-- text, CDATA, reference, comment, processing instruction, … -/
  | leaf (e : Event) (h : e.isLeaf = true)

/-- A list of content pieces. -/
inductive Nodes where
  | nil
  | cons (n : Node) (ns : Nodes)

end

mutual

/-- The events a reader produces for a piece of content. -/
def Node.events : Node → List Event
  | .elem t ch => .start t :: (ch.events ++ [.end_ t.name])
  | .emptyElem t => [.empty t]
  | .leaf e _ => [e]

def Nodes.events : Nodes → List Event
  | .nil => []
  | .cons n ns => n.events ++ ns.events

end

end Verif.Rt

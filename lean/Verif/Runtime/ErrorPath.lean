import Verif.Runtime.Events

/-!
# Element path attached to errors (C23)

`ErrorReader` (xsd-parser-types/src/quick_xml/reader/error_reader.rs 46-57) updates an
`ErrorInfo` (xsd-parser-types/src/quick_xml/error.rs 364-385) with every event it reads and
attaches its list of element names to every error.
-/

namespace Verif.Rt

/-- `ErrorInfo::update`, error.rs:369-384 (names as they stand in the document). -/
def ErrorInfo.update (elements : List Str) : Event → List Str
  | .start t => elements ++ [t.name]
  | .end_ _ => elements.dropLast
  | _ => elements

/-- The element list attached to an error raised after these events were read. -/
def errorPath (es : List Event) : List Str := es.foldl ErrorInfo.update []

/-! ## Specification: positions in a document -/

/-- A position between two events of a well-formed document: the content read completely
before the outermost open element, and the open elements from the outside in, each with the
content already read inside it. -/
structure Position where
  before : Nodes
  opened : List (Tag × Nodes)

/-- The events read up to a position. -/
def Position.read (p : Position) : List Event :=
  p.before.events ++ p.opened.flatMap fun o => .start o.1 :: o.2.events

/-- The names of the elements open at a position, from the outside in. -/
def Position.path (p : Position) : List Str := p.opened.map fun o => o.1.name

/-! ## Proof -/

mutual

theorem update_node (n : Node) (acc : List Str) :
    n.events.foldl ErrorInfo.update acc = acc := by
  match n with
  | .elem t ch =>
    simp only [Node.events, List.foldl_cons, List.foldl_append, List.foldl_nil]
    rw [update_nodes ch]
    simp [ErrorInfo.update]
  | .emptyElem t => rfl
  | .leaf e he => cases e <;> first | rfl | simp [Event.isLeaf] at he

theorem update_nodes (ns : Nodes) (acc : List Str) :
    ns.events.foldl ErrorInfo.update acc = acc := by
  match ns with
  | .nil => rfl
  | .cons n ns =>
    simp only [Nodes.events, List.foldl_append]
    rw [update_node n, update_nodes ns]

end

theorem path_opened (os : List (Tag × Nodes)) (acc : List Str) :
    (os.flatMap fun o => Event.start o.1 :: o.2.events).foldl ErrorInfo.update acc
      = acc ++ os.map fun o => o.1.name := by
  induction os generalizing acc with
  | nil => simp
  | cons o os ih =>
    simp only [List.flatMap_cons, List.cons_append, List.foldl_cons, List.foldl_append,
      List.map_cons]
    rw [update_nodes, ih]
    simp [ErrorInfo.update]

/-- **C23.** At every position of every well-formed document the path attached to an error
is the list of names of the open elements, outermost first. -/
theorem C23_error_path_is_open_elements (p : Position) : errorPath p.read = p.path := by
  unfold errorPath Position.read Position.path
  rw [List.foldl_append, update_nodes, path_opened]
  simp

/-- Appending a finished node to a list of nodes. -/
def Nodes.snoc : Nodes → Node → Nodes
  | .nil, m => .cons m .nil
  | .cons n ns, m => .cons n (ns.snoc m)

def Nodes.append : Nodes → Nodes → Nodes
  | .nil, ms => ms
  | .cons n ns, ms => .cons n (ns.append ms)

theorem Nodes.events_snoc (ns : Nodes) (m : Node) : (ns.snoc m).events = ns.events ++ m.events := by
  match ns with
  | .nil => simp [Nodes.snoc, Nodes.events]
  | .cons n ns => simp [Nodes.snoc, Nodes.events, Nodes.events_snoc ns]

theorem prefix_append_cases {α} {xs a b : List α} (h : xs <+: a ++ b) :
    xs <+: a ∨ ∃ ys, xs = a ++ ys ∧ ys <+: b := by
  induction a generalizing xs with
  | nil => exact Or.inr ⟨xs, rfl, h⟩
  | cons x a ih =>
    cases xs with
    | nil => exact Or.inl (List.nil_prefix)
    | cons y xs =>
      rw [List.cons_append, List.cons_prefix_cons] at h
      obtain ⟨rfl, h⟩ := h
      rcases ih h with h | ⟨ys, rfl, h2⟩
      · exact Or.inl (by rw [List.cons_prefix_cons]; exact ⟨rfl, h⟩)
      · exact Or.inr ⟨ys, rfl, h2⟩

mutual

/-- Every proper prefix of the events of a node is nothing, or opens it. -/
theorem prefix_node (n : Node) (xs : List Event) (h : xs <+: n.events) :
    xs = n.events ∨ xs = [] ∨
      ∃ t before os, xs = .start t :: (Position.mk before os).read := by
  match n with
  | .elem t ch =>
    simp only [Node.events] at h ⊢
    cases xs with
    | nil => exact Or.inr (Or.inl rfl)
    | cons x xs =>
      rw [List.cons_prefix_cons] at h
      obtain ⟨rfl, h⟩ := h
      rcases List.prefix_concat_iff.mp h with h | h
      · exact Or.inl (by rw [h])
      · obtain ⟨p, hp⟩ := prefix_nodes ch xs h
        exact Or.inr (Or.inr ⟨t, p.before, p.opened, by rw [hp]⟩)
  | .emptyElem t =>
    simp only [Node.events] at h ⊢
    rcases List.prefix_concat_iff.mp (show xs <+: [] ++ [Event.empty t] from h) with h | h
    · exact Or.inl h
    · exact Or.inr (Or.inl (List.prefix_nil.mp h))
  | .leaf e he =>
    simp only [Node.events] at h ⊢
    rcases List.prefix_concat_iff.mp (show xs <+: [] ++ [e] from h) with h | h
    · exact Or.inl h
    · exact Or.inr (Or.inl (List.prefix_nil.mp h))

/-- Every prefix of the events of a document is a position. -/
theorem prefix_nodes (ns : Nodes) (xs : List Event) (h : xs <+: ns.events) :
    ∃ p : Position, xs = p.read := by
  match ns with
  | .nil =>
    simp only [Nodes.events] at h
    exact ⟨⟨.nil, []⟩, by rw [List.prefix_nil.mp h]; rfl⟩
  | .cons n ns =>
    simp only [Nodes.events] at h
    rcases prefix_append_cases h with h1 | ⟨ys, rfl, h2⟩
    · rcases prefix_node n xs h1 with h1 | h1 | ⟨t, b, os, h1⟩
      · exact ⟨⟨.cons n .nil, []⟩, by simp [Position.read, Nodes.events, h1]⟩
      · exact ⟨⟨.nil, []⟩, by simp [Position.read, Nodes.events, h1]⟩
      · exact ⟨⟨.nil, (t, b) :: os⟩, by simp [Position.read, Nodes.events, h1]⟩
    · obtain ⟨p, hp⟩ := prefix_nodes ns ys h2
      exact ⟨⟨.cons n p.before, p.opened⟩, by simp [Position.read, Nodes.events, hp]⟩

end

/-- **C23**, completeness of the specification: every prefix of every well-formed document
is a position, so the previous theorem covers every moment of reading a document. -/
theorem C23_every_prefix_is_a_position (doc : Nodes) (xs : List Event) (h : xs <+: doc.events) :
    ∃ p : Position, xs = p.read ∧ errorPath xs = p.path := by
  obtain ⟨p, rfl⟩ := prefix_nodes doc xs h
  exact ⟨p, rfl, C23_error_path_is_open_elements p⟩

/-- **C23**, consequence: an error raised by an end tag (say a missing child) is reported
with the path of the *parent*: the element it is about is no longer part of the path. -/
theorem C23_end_tag_error_names_parent (p : Position) (t : Tag) (content : Nodes) :
    errorPath (p.read ++ (Node.elem t content).events) = p.path := by
  unfold errorPath
  rw [List.foldl_append, update_node]
  exact C23_error_path_is_open_elements p

/-- Non-vacuity: an error inside `<c>` of `<a><b/>text<c>`. -/
example :
    errorPath [.decl [], .start ⟨['a'], []⟩, .empty ⟨['b'], []⟩, .text ['t'],
      .start ⟨['c'], []⟩] = [['a'], ['c']] := by decide

end Verif.Rt

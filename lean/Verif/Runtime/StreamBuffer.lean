/-!
# The buffer of the reader for streams (C102)

Models `IoReader` (xsd-parser-types/src/quick_xml/reader/io_reader.rs 12-43), the reader of the generated code for every `BufRead`.
-/

namespace Verif.Runtime.StreamBuffer

variable {Byte Event : Type}

/-! ## Model -/

/-- `IoReader` (io_reader.rs 12-15): the input that is not read yet, as the bytes of one event after the other (a simplification: how
quick_xml finds the end of an event is not modelled), and the buffer. -/
structure IoReader (Byte : Type) where
  inner : List (List Byte)
  buffer : List Byte
deriving DecidableEq, Repr

/-- `IoReader::new` (io_reader.rs 19-24). -/
def new (input : List (List Byte)) : IoReader Byte := ⟨input, []⟩

/-- `NsReader::read_event_into` of quick_xml, an external function: it appends the bytes of the next event to the buffer and gives an
event that refers to the appended part. What event it is (`decode`) is a parameter. -/
def readEventInto (decode : List Byte → Event) (inner : List (List Byte)) (buffer : List Byte) :
    Option Event × List (List Byte) × List Byte :=
  match inner with
  | [] => (none, [], buffer)
  | bytes :: rest => (some (decode ((buffer ++ bytes).drop buffer.length)), rest, buffer ++ bytes)

/-- `read_event` (io_reader.rs 37-42); `into_owned` copies the event. `none` is the end of the input (`Event::Eof`). -/
def readEvent (decode : List Byte → Event) (r : IoReader Byte) : Option Event × IoReader Byte :=
  match readEventInto decode r.inner r.buffer with
  | (e, inner, buffer) => (e, ⟨inner, buffer⟩)

/-- The generated code calls `read_event` again and again (`DeserializeHelper`, xsd-parser-types/src/quick_xml/deserialize.rs): the
events of `n` calls and the reader after them. -/
def reads (decode : List Byte → Event) : Nat → IoReader Byte → List (Option Event) × IoReader Byte
  | 0, r => ([], r)
  | n + 1, r =>
    let (e, r') := readEvent decode r
    let (es, r'') := reads decode n r'
    (e :: es, r'')

/-! ## Proofs -/

theorem reads_spec (decode : List Byte → Event) : ∀ (n : Nat) (r : IoReader Byte),
    (∀ k < n, (reads decode n r).1[k]? = some ((r.inner[k]?).map decode)) ∧
    (reads decode n r).1.length = n ∧
    (reads decode n r).2 = ⟨r.inner.drop n, r.buffer ++ (r.inner.take n).flatten⟩ := by
  intro n
  induction n with
  | zero => intro r; simp [reads]
  | succ n ih =>
    rintro ⟨inner, buffer⟩
    cases inner with
    | nil =>
      obtain ⟨h1, h2, h3⟩ := ih ⟨[], buffer⟩
      refine ⟨fun k hk => ?_, by simp [reads, readEvent, readEventInto, h2], by simp [reads, readEvent, readEventInto, h3]⟩
      cases k with
      | zero => simp [reads, readEvent, readEventInto]
      | succ k => simpa [reads, readEvent, readEventInto] using h1 k (by omega)
    | cons b rest =>
      obtain ⟨h1, h2, h3⟩ := ih ⟨rest, buffer ++ b⟩
      refine ⟨fun k hk => ?_, by simp [reads, readEvent, readEventInto, h2], by simp [reads, readEvent, readEventInto, h3]⟩
      cases k with
      | zero => simp [reads, readEvent, readEventInto]
      | succ k => simpa [reads, readEvent, readEventInto] using h1 k (by omega)

/-- What was read before does not change what is read: call number `k` gives the event number `k` of the input, and after the last one
the end of the input. Partial: the memory for this is not bounded by the events (`C102_buffer_keeps_everything`). -/
theorem C102_events_partial (decode : List Byte → Event) (input : List (List Byte)) (n k : Nat) (hk : k < n) :
    (reads decode n (new input)).1[k]? = some ((input[k]?).map decode) :=
  (reads_spec decode n (new input)).1 k hk

/-- Finding: the buffer is never cleared. After any number of calls it holds all bytes that were read since the reader was made, not
only those of the last event. -/
theorem C102_buffer_keeps_everything (decode : List Byte → Event) (input : List (List Byte)) (n : Nat) :
    (reads decode n (new input)).2.buffer = (input.take n).flatten := by
  simp [reads_spec, new]

/-- Finding: no size of the buffer is enough, even if no event has more than one byte. -/
theorem C102_buffer_unbounded (decode : List Byte → Event) (b : Byte) (size : Nat) :
    ∃ (input : List (List Byte)) (n : Nat), (∀ e ∈ input, e.length ≤ 1) ∧ size < (reads decode n (new input)).2.buffer.length := by
  refine ⟨List.replicate (size + 1) [b], size + 1, ?_, ?_⟩
  · intro e he
    simp [List.eq_of_mem_replicate he]
  · simp [C102_buffer_keeps_everything, List.length_flatten]

/-! ## Non-vacuity -/

example : reads (fun l => l.length) 4 (new ["<a>".toList, "text".toList, "</a>".toList]) =
    ([some 3, some 4, some 4, none], ⟨[], "<a>text</a>".toList⟩) := by decide +kernel

end Verif.Runtime.StreamBuffer

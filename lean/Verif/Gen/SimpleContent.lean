import Verif.Gen.Leaf

/-!
# Structs with simple content (C04)

A complex type with simple content, `StructMode::Content` with a simple content type:
`render_deserializer_fn_init_simple` (renderer/steps/quick_xml/deserialize.rs:2027-2054),
`render_deserializer_fn_next_content_simple` (2165-2189) and
`deserializer_struct_field_fn_handle_simple` (2664-2728).
-/

namespace Verif.Gen

open Verif.Rt

section
variable {H A V W : Type}

/-- A struct with attributes and the field `content` of a simple type. -/
structure SimpleTy (H A V W : Type) where
  ofTag : H → Tag → Except GErr A
  num : Str → Option Str
  bad : GErr
  parse : H → Str → Except GErr V
  build : A → V → W

/-- `handle_content`, 2664-2728. The content has been given to the struct only once, so
`store_content` does not fail. -/
def SimpleTy.handle (T : SimpleTy H A V W) (a : A) (r : Except GErr (Output Str V)) :
    Except GErr (Output (A × Str) W) :=
  match r with
  | .error e => .error e
  | .ok out =>
    match out.artifact with
    | .none => .ok ⟨.none, out.event, out.allowAny⟩
    | .data v => .ok ⟨.data (T.build a v), out.event, out.allowAny⟩
    | .deser c => .ok ⟨.deser (a, c), out.event, out.allowAny⟩

/-- `ContentDeserializer` of the content. -/
def SimpleTy.content (T : SimpleTy H A V W) : GDe H Str V := simpleDe T.num T.bad T.parse

/-- The deserializer; the state is `Content__` with its deserializer, since `init` goes on to
`next` at once. -/
def SimpleTy.de (T : SimpleTy H A V W) : GDe H (A × Str) W where
  init := fun h e =>
    match tagOf e with
    | none => .ok ⟨.none, .brk e, false⟩
    | some t =>
      match T.ofTag h t with
      | .error err => .error err
      | .ok a => T.handle a (T.content.init h e)
  next := fun s h e => T.handle s.1 (T.content.next s.2 h e)
  finish := fun s h => (T.content.finish s.2 h).map (T.build s.1)

theorem simpleTy_running (track : H → Event → H) (T : SimpleTy H A V W) (a : A)
    {st : Option Str} {h : H} {evs : List Event} {v : V} (fd : Feeds track T.content st h evs v) :
    ∀ s, st = some s → Feeds track T.de (some (a, s)) h evs (T.build a v) := by
  induction fd with
  | @last st h e v x hc =>
    intro s hs
    subst hs
    refine .last (a := x) ?_
    show T.handle a (T.content.next s _ _) = _
    rw [show T.content.next s (track h e) e = _ from hc]
    rfl
  | @step st h e es v c ev x hc hq _ ih =>
    intro s hs
    subst hs
    refine .step (c := (a, c)) (ev := ev) (a := x) ?_ hq (ih c rfl)
    show T.handle a (T.content.next s _ _) = _
    rw [show T.content.next s (track h e) e = _ from hc]
    rfl

/-- **C04** for complex types with simple content: the element is read exactly, the attributes
from its tag and the content from its character data, however they are split into events. -/
theorem C04_complex_simple_content (track : H → Event → H) (T : SimpleTy H A V W) (h : H) (t : Tag)
    (n : Str) (a : A) (ha : T.ofTag (track h (.start t)) t = .ok a) (pieces : List Event)
    (hl : ∀ e ∈ pieces, e.isLeaf = true) (c : Str) (hc : charContent T.num pieces = some c) (v : V)
    (hp : T.parse ((Event.start t :: pieces ++ [Event.end_ n]).foldl track h) (trimAscii c)
      = .ok v) :
    Feeds track T.de none h (.start t :: (pieces ++ [.end_ n])) (T.build a v) := by
  have h1 := simple_feeds_go track T.num T.bad T.parse n v pieces (track h (.start t)) [] c hl hc hp
  refine .step (c := (a, [])) (ev := .none) (a := false) ?_ (Or.inl rfl)
    (simpleTy_running track T a h1 [] rfl)
  show T.de.init _ _ = _
  simp only [SimpleTy.de, tagOf, ha]
  rfl

/-- **C04** for complex types with simple content: an empty tag is an empty text. -/
theorem C04_complex_empty_tag (track : H → Event → H) (T : SimpleTy H A V W) (h : H) (t : Tag)
    (a : A) (ha : T.ofTag (track h (.empty t)) t = .ok a) (v : V)
    (hp : T.parse (track h (.empty t)) [] = .ok v) :
    Feeds track T.de none h [.empty t] (T.build a v) := by
  refine .last (a := false) ?_
  show T.de.init _ _ = _
  simp only [SimpleTy.de, tagOf, ha, SimpleTy.content, simpleDe, hp]
  rfl

end

/-- Non-vacuity: `<p currency="EUR">4<![CDATA[2]]></p>`. -/
example : ∃ T : SimpleTy Unit Str Str (Str × Str),
    Feeds (fun h _ => h) T.de none ()
      [.start ⟨"p".toList, [⟨"currency".toList, "EUR".toList⟩]⟩, .text "4".toList,
        .cdata "2".toList, .end_ "p".toList] ("EUR".toList, "42".toList) := by
  let T : SimpleTy Unit Str Str (Str × Str) :=
    { ofTag := fun _ t => .ok ((t.attrs.head?.map (·.value)).getD [])
      num := fun _ => none
      bad := .value 0
      parse := fun _ s => .ok s
      build := fun a v => (a, v) }
  exact ⟨T, C04_complex_simple_content (fun h _ => h) T () _ _ "EUR".toList rfl
    [.text "4".toList, .cdata "2".toList] (by decide) "42".toList rfl "42".toList rfl⟩

end Verif.Gen

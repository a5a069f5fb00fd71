import Verif.Generate.DocumentsExamples
/-!
# A document with nested groups that the generated code reads: an example (C71)
-/
namespace Verif.Generate

open Verif.Meta
open Verif.Occurs (MaxOccurs Container fromOccurs Allows)
open Verif.Rt hiding Node
open Verif.Gen
open Verif.Gen.Tab

def nestedIn (name type : String) (mn : Nat) (mx : MaxOccurs) : Element :=
  ⟨nm name, .type_ (tid type) .group, .unqualified, ⟨false, false, true, false, false⟩, mn, mx, none, []⟩

def pairDef : MetaType := .new (.sequence ⟨false, [el "key" "string" 1 (.bounded 1), el "value" "string" 0 (.bounded 1)]⟩)
def entryDef : MetaType := .new (.choice ⟨false, [el "note" "string" 1 (.bounded 1), nestedIn "pair" "Pair" 1 (.bounded 1)]⟩)
def reportContentDef : MetaType :=
  .new (.sequence ⟨false, [el "title" "string" 1 (.bounded 1), nestedIn "entry" "Entry" 0 .unbounded]⟩)
def reportDef : MetaType := .new (.complex ⟨.none, some (tid "ReportContent"), 1, .bounded 1, false, false, []⟩)

/-- A report: a title, and then any number of entries. An entry is a note or a pair, a pair is a key and perhaps a value. -/
def reportTypes : Types :=
  [(tid "string", .new (.buildIn .string)), (tid "Pair", pairDef), (tid "Entry", entryDef),
   (tid "ReportContent", reportContentDef), (tid "Report", reportDef)]

def reportSetup : Setup Str := { orderSetup with types := reportTypes }

theorem reportTypes_acyclic : Acyclic reportTypes := by
  rintro i ⟨k, path, ⟨ty, r, hg, hv, _⟩, _⟩
  have := List.mem_of_getElem? (indexOf_get hg)
  simp only [reportTypes, List.mem_cons, Prod.mk.injEq, List.not_mem_nil, or_false] at this
  rcases this with ⟨_, rfl⟩ | ⟨rfl, rfl⟩ | ⟨_, rfl⟩ | ⟨_, rfl⟩ | ⟨_, rfl⟩ <;> cases hv

theorem reportSetup_supported : reportSetup.Supported := supportedCheck_sound _ (by decide +kernel)
theorem reportSetup_filled : reportSetup.Filled := filledCheck_sound _ (by decide +kernel)
theorem reportSetup_nested : reportSetup.compile.Nested 2 := nestedCheck_sound _ _ (by decide +kernel)

/-- The groups are nested two deep. -/
example : nestedCheck reportSetup.compile 1 = false := by decide +kernel

theorem reportSetup_xsiFree : reportSetup.XsiFree := by
  intro D hD a ha
  exact Or.inl ((by decide +kernel : ∀ D ∈ reportSetup.compile.structs, ∀ a ∈ D.attrs, a.name.local_ ∉
    ["schemaLocation".toList, "noNamespaceSchemaLocation".toList, "type".toList, "nil".toList]) D hD a ha)

/-- An element without text. -/
def leafNode (s : String) : Node := .elem (nm s) none [] [.text []]
def leafTag (s : String) : Tag := ⟨'z' :: ':' :: s.toList, []⟩
def leafItem (s : String) : Item Node := .child 0 [.empty (leafTag s)] (leafNode s)

theorem leaf_valid (name : String) (mn : Nat) (mx : MaxOccurs) :
    Valid anyText reportTypes (.times (el name "string" mn mx) 1 [leafNode name]) :=
  one_time (.element (i := tid "string") rfl (.textValue
    (.builtInText (ty := .new (.buildIn .string)) (b := .string) (by decide +kernel) rfl trivial)))

theorem optional_once : Allows 0 (.bounded 1) 1 := ⟨Nat.zero_le _, by intro b h; cases h; decide⟩
theorem optional_not : Allows 0 (.bounded 1) 0 := ⟨Nat.zero_le _, fun _ _ => Nat.zero_le _⟩

theorem pair_valid (ns : List Node) (h : ns = [] ∨ ns = [leafNode "value"]) :
    Valid anyText reportTypes (.particle (nestedIn "entry" "Entry" 0 .unbounded) (leafNode "key" :: ns)) := by
  have hp : Valid anyText reportTypes (.group (tid "Pair") (leafNode "key" :: ns)) := by
    refine .sequence (ty := pairDef) (by decide +kernel) rfl ?_
    refine .cons (k := 1) (a := [leafNode "key"]) once (leaf_valid ..) ?_
    rcases h with rfl | rfl
    · exact .cons (k := 0) (a := []) (b := []) optional_not .zero .nil
    · exact .cons (k := 1) (a := [leafNode "value"]) (b := []) optional_once (leaf_valid ..) .nil
  refine .nested rfl (.choice (ty := entryDef) (e := nestedIn "pair" "Pair" 1 (.bounded 1)) (k := 1) (by decide +kernel) rfl
    (by simp) once (one_time (.nested rfl hp)))

theorem note_valid : Valid anyText reportTypes (.particle (nestedIn "entry" "Entry" 0 .unbounded) [leafNode "note"]) :=
  .nested rfl (.choice (ty := entryDef) (e := el "note" "string" 1 (.bounded 1)) (k := 1) (by decide +kernel) rfl
    (by simp) once (leaf_valid ..))

def reportKids : List Node :=
  [leafNode "title", leafNode "key", leafNode "value", leafNode "note", leafNode "key"]

theorem report_valid : Valid anyText reportTypes (.value (tid "Report") none [] reportKids) := by
  refine .complexValue (ty := reportDef) (k := 1) (by decide +kernel) rfl rfl
    ⟨fun a ha => (by cases ha), fun n v hv => (by cases hv)⟩ (fun a ha => by cases ha) once ?_
  have hentries : Valid anyText reportTypes (.times (nestedIn "entry" "Entry" 0 .unbounded) 3
      [leafNode "key", leafNode "value", leafNode "note", leafNode "key"]) :=
    .succ (a := [leafNode "key", leafNode "value"]) (pair_valid _ (Or.inr rfl))
      (.succ (a := [leafNode "note"]) note_valid (.succ (a := [leafNode "key"]) (b := []) (pair_valid _ (Or.inl rfl)) .zero))
  have hseq : Valid anyText reportTypes (.group (tid "ReportContent") reportKids) := by
    refine .sequence (ty := reportContentDef) (by decide +kernel) rfl ?_
    refine .cons (k := 1) (a := [leafNode "title"]) once (leaf_valid ..) ?_
    exact .cons (k := 3) (b := []) ⟨Nat.zero_le _, by intro b h; cases h⟩ hentries .nil
  have := Valid.oneMore hseq .noTimes
  simpa using this

def reportTag : Tag := ⟨"z:report".toList, [⟨"xmlns:z".toList, "urn:a".toList⟩]⟩

def reportItems : List (Item Node) :=
  [leafItem "title", (Item.pad (.text " ".toList) : Item Node), leafItem "key", leafItem "value",
    (Item.pad (.comment "then".toList) : Item Node), leafItem "note", leafItem "key"]

/-- `<z:report xmlns:z="urn:a"><z:title/> <z:key/><z:value/><!--then--><z:note/><z:key/></z:report>`. -/
def reportDocument : List Event := .start reportTag :: (itemEvents reportItems ++ [.end_ reportTag.name])

theorem leaf_renders (p : Pos) (s : String)
    (h : posScope (posTrack p (.empty (leafTag s))) ['z'] = some "urn:a".toList) :
    Renders reportSetup p (leafNode s) [.empty (leafTag s)] :=
  Renders.empty (t := leafTag s) (means_z _ _ s h) .nil (Or.inr rfl)

theorem reportDocument_renders : Renders reportSetup {} (.elem (nm "report") none [] reportKids) reportDocument := by
  refine Renders.element (items := reportItems) (t := reportTag) (means_z _ _ "report" (by decide +kernel)) ?_ ?_ ?_
  · exact .xmlns (by decide +kernel) .nil
  · intro e he
    simp only [reportItems, leafItem, List.mem_cons, List.not_mem_nil, or_false, Item.pad.injEq] at he
    rcases he with he | rfl | he | he | rfl | he | he <;> first | (cases he; done) | decide +kernel
  · rintro q evs n ⟨l, j, r, he, hq⟩
    unfold reportItems leafItem at he
    rcases l with _ | ⟨x1, _ | ⟨x2, _ | ⟨x3, _ | ⟨x4, _ | ⟨x5, _ | ⟨x6, _ | ⟨x7, l⟩⟩⟩⟩⟩⟩⟩ <;>
      simp only [List.cons_append, List.nil_append, List.cons.injEq, Item.child.injEq, reduceCtorEq, false_and,
        and_false] at he
    · obtain ⟨⟨_, rfl, rfl⟩, _⟩ := he
      subst hq
      exact leaf_renders _ _ (by decide +kernel)
    · obtain ⟨rfl, rfl, ⟨_, rfl, rfl⟩, _⟩ := he
      subst hq
      exact leaf_renders _ _ (by decide +kernel)
    · obtain ⟨rfl, rfl, rfl, ⟨_, rfl, rfl⟩, _⟩ := he
      subst hq
      exact leaf_renders _ _ (by decide +kernel)
    · obtain ⟨rfl, rfl, rfl, rfl, rfl, ⟨_, rfl, rfl⟩, _⟩ := he
      subst hq
      exact leaf_renders _ _ (by decide +kernel)
    · obtain ⟨rfl, rfl, rfl, rfl, rfl, rfl, ⟨_, rfl, rfl⟩, _⟩ := he
      subst hq
      exact leaf_renders _ _ (by decide +kernel)
    · simp at he

/-- The hypotheses of the theorem hold for this document: it is read. -/
example : ∃ v, Doc reportSetup.compile (.struct 4) {} reportDocument v ∧ ∀ n, depth v + 2 < n → ∀ rest,
    Drv.run (genEnv posTrack) (de reportSetup.compile n (.struct 4)).toDeser { helper := {} } (reportDocument ++ rest)
      = .done v rest :=
  C71_valid_document_read_partial reportSetup anyText reportTypes_acyclic reportSetup_supported reportSetup_filled 2
    reportSetup_nested reportSetup_xsiFree (fun _ s _ => ⟨⟨s, rfl⟩, _, rfl⟩) (fun _ _ _ h => h) (tid "Report") 4
    (by decide +kernel) (nm "report") _ _ report_valid _ reportDocument_renders

/-- The value that is read: three entries, of which the first is a pair with a value. -/
def reportValue : Val Str :=
  .struct [] [[.simple []], [.alt 1 [.struct [] [[.simple []], [.simple []]]], .alt 0 [.simple []],
    .alt 1 [.struct [] [[.simple []], []]]]]

def isValue {H S E : Type} : Run H S E (Val Str) → Option (Val Str)
  | .done v [] => some v
  | _ => none

example : isValue (Drv.run (genEnv posTrack) (de reportSetup.compile 9 (.struct 4)).toDeser { helper := {} } reportDocument)
    = some reportValue := rfl

end Verif.Generate

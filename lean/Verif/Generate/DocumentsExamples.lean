import Verif.Generate.Checks
/-!
# A document that the generated code reads: an example (C71)
-/
namespace Verif.Generate

open Verif.Meta
open Verif.Occurs (MaxOccurs Container fromOccurs Allows)
open Verif.Rt hiding Node
open Verif.Gen
open Verif.Gen.Tab

variable {X : Type}

/-! ## An order -/

def nm (s : String) : PropIdent := ⟨1, .named s.toList⟩
def tid (s : String) : Ident := ⟨1, 0, .named s.toList, .type_⟩

def el (name type : String) (mn : Nat) (mx : MaxOccurs) : Element :=
  ⟨nm name, .type_ (tid type) .element, .qualified, ⟨false, false, true, false, false⟩, mn, mx, none, []⟩

def orderDef : MetaType :=
  .new (.complex ⟨.none, some (tid "OrderContent"), 1, .bounded 1, false, false,
    [⟨⟨0, .named "id".toList⟩, .type_ (tid "string"), .required, .unqualified, none, none, [], none⟩]⟩)

def contentDef (text : String) : MetaType :=
  .new (.sequence ⟨false, [el "name" text 1 (.bounded 1), ⟨nm "parts", .type_ (tid "Part") .group, .unqualified,
    ⟨false, false, true, false, false⟩, 0, .unbounded, none, []⟩]⟩)

def partDef : MetaType :=
  .new (.choice ⟨false, [el "note" "string" 1 (.bounded 1), el "order" "Order" 1 (.bounded 1)]⟩)

/-- Orders: a required attribute `id` without a namespace, a name of the type `text`, and then any number of notes or
orders. `Text` is a synonym. -/
def ordersWith (text : String) : Types :=
  [(tid "string", .new (.buildIn .string)), (tid "Text", .new (.reference (.new (tid "string")))),
   (tid "Part", partDef), (tid "OrderContent", contentDef text), (tid "Order", orderDef)]

def orderTypes : Types := ordersWith "string"

/-- Every text is a string. -/
def anyText : Lex where
  builtIn := fun _ _ => True
  custom := fun _ _ => False
  customValue := fun _ _ _ => False
  facets := fun _ _ => True
  words := fun _ => []
  anyElement := fun _ _ => False
  anyAttribute := fun _ _ => False

def orderSetup : Setup Str where
  flags := ⟨true, true, true, true, true⟩
  fuel := 9
  types := orderTypes
  parse := fun _ s => .ok s
  num := fun _ => none
  nsName := fun n => if n = 1 then some "urn:a".toList else none
  elementPrefix := fun _ => ['p']
  attributePrefix := fun _ => []
  used := fun _ => true

theorem orderTypes_acyclic : Acyclic orderTypes := by
  have hsyn : ∀ i k, Synonym orderTypes i k → i = tid "Text" ∧ k = tid "string" := by
    rintro i k ⟨ty, r, hg, hv, hk, _⟩
    have := List.mem_of_getElem? (indexOf_get hg)
    simp only [orderTypes, ordersWith, List.mem_cons, Prod.mk.injEq, List.not_mem_nil, or_false] at this
    rcases this with ⟨_, rfl⟩ | ⟨rfl, rfl⟩ | ⟨_, rfl⟩ | ⟨_, rfl⟩ | ⟨_, rfl⟩ <;> cases hv
    exact ⟨rfl, hk.symm⟩
  rintro i ⟨k, path, hs, hf⟩
  obtain ⟨rfl, rfl⟩ := hsyn _ _ hs
  have hne : tid "string" ≠ tid "Text" := by decide +kernel
  generalize he : tid "Text" = j at hf hne
  generalize tid "string" = s at hf hne he hsyn
  cases hf with
  | here _ => exact hne rfl
  | step h _ => exact hne ((hsyn _ _ h).1.trans he)

theorem orderSetup_supported : orderSetup.Supported := supportedCheck_sound _ (by decide +kernel)

theorem orderSetup_filled : orderSetup.Filled := filledCheck_sound _ (by decide +kernel)

theorem orderSetup_shape : orderSetup.compile.Nested 1 := nestedCheck_sound _ _ (by decide +kernel)

theorem orderSetup_xsiFree : orderSetup.XsiFree := by
  intro D hD a ha
  exact Or.inl ((by decide +kernel : ∀ D ∈ orderSetup.compile.structs, ∀ a ∈ D.attrs, a.name.local_ ∉
    ["schemaLocation".toList, "noNamespaceSchemaLocation".toList, "type".toList, "nil".toList]) D hD a ha)

theorem orderSetup_reads : orderSetup.ReadsTexts anyText := fun _ s _ => ⟨⟨s, rfl⟩, _, rfl⟩

def orderKids : List Node :=
  [.elem (nm "name") none [] [.text "cake".toList], .elem (nm "note") none [] [.text []]]

def orderAttrs : List (PropIdent × Txt) := [(⟨0, .named "id".toList⟩, "7".toList)]

theorem string_valid (text : String) (h : text = "string" ∨ text = "Text") (s : Txt) :
    Valid anyText (ordersWith text) (.text (tid "string") s) :=
  .builtInText (ty := .new (.buildIn .string)) (b := .string) (by rcases h with rfl | rfl <;> decide +kernel) rfl trivial

theorem text_valid (text : String) (h : text = "string" ∨ text = "Text") (s : Txt) :
    Valid anyText (ordersWith text) (.text (tid text) s) := by
  rcases h with rfl | rfl
  · exact string_valid _ (Or.inl rfl) s
  · exact .refText (ty := .new (.reference (.new (tid "string")))) (r := .new (tid "string")) (by decide +kernel) rfl rfl
      rfl (string_valid _ (Or.inr rfl) s)

theorem once : Allows 1 (.bounded 1) 1 := ⟨Nat.le_refl _, by intro b h; cases h; decide⟩

theorem one_time {P : Lex} {T : Types} {e : Element} {ns : List Node} (h : Valid P T (.particle e ns)) :
    Valid P T (.times e 1 ns) := by
  have := Valid.succ h .zero
  simpa using this

theorem order_valid (text : String) (htext : text = "string" ∨ text = "Text") :
    Valid anyText (ordersWith text) (.value (tid "Order") none orderAttrs orderKids) := by
  refine .complexValue (ty := orderDef) (k := 1)
    (by rcases htext with rfl | rfl <;> decide +kernel) rfl rfl ⟨?_, ?_⟩ ?_ once ?_
  · intro a ha _ _
    simp only [List.mem_cons, List.not_mem_nil, or_false] at ha
    subst ha
    exact ⟨"7".toList, by decide +kernel⟩
  · intro n v h
    simp only [orderAttrs, List.mem_cons, Prod.mk.injEq, List.not_mem_nil, or_false] at h
    obtain ⟨rfl, rfl⟩ := h
    exact Or.inl ⟨_, List.mem_cons_self .., rfl, by decide, _, rfl⟩
  · intro a ha t ht v _
    simp only [List.mem_cons, List.not_mem_nil, or_false] at ha
    subst ha
    cases ht
    exact string_valid text htext v
  · have hseq : Valid anyText (ordersWith text) (.group (tid "OrderContent") orderKids) := by
      refine .sequence (ty := contentDef text)
        (by rcases htext with rfl | rfl <;> decide +kernel) rfl ?_
      refine .cons (k := 1) (a := [.elem (nm "name") none [] [.text "cake".toList]])
        (b := [.elem (nm "note") none [] [.text []]]) once
        (one_time (.element (i := tid text) rfl (.textValue (text_valid text htext _)))) ?_
      have hgroup : Valid anyText (ordersWith text) (.group (tid "Part") [.elem (nm "note") none [] [.text []]]) :=
        .choice (ty := partDef) (k := 1)
          (by rcases htext with rfl | rfl <;> decide +kernel) rfl (List.mem_cons_self ..) once
          (one_time (.element (i := tid "string") rfl (.textValue (string_valid text htext _))))
      have := Valid.cons (P := anyText) (T := ordersWith text) (k := 1)
        (e := ⟨nm "parts", .type_ (tid "Part") .group, .unqualified, ⟨false, false, true, false, false⟩, 0, .unbounded,
          none, []⟩) ⟨Nat.zero_le _, by intro b h; cases h⟩ (one_time (.nested rfl hgroup)) .nil
      simpa using this
    have := Valid.oneMore hseq .noTimes
    simpa using this

/-- The tag `<z:order xmlns:z="urn:a" id="7">`. -/
def orderTag : Tag := ⟨"z:order".toList, [⟨"xmlns:z".toList, "urn:a".toList⟩, ⟨"id".toList, "7".toList⟩]⟩

def nameEvents : List Event :=
  [.start ⟨"z:name".toList, []⟩, .text "ca".toList, .comment "c".toList, .cdata "ke".toList, .end_ "z:name".toList]

def noteEvents : List Event := [.empty ⟨"z:note".toList, []⟩]

def orderItems : List (Item Node) :=
  [(Item.pad (.text " ".toList) : Item Node), .child 0 nameEvents (.elem (nm "name") none [] [.text "cake".toList]),
    (Item.pad (.comment "first".toList) : Item Node), .child 0 noteEvents (.elem (nm "note") none [] [.text []])]

/-- `<z:order xmlns:z="urn:a" id="7"> <z:name>ca<!--c--><![CDATA[ke]]></z:name><!--first--><z:note/></z:order>`. -/
def orderDocument : List Event := .start orderTag :: (itemEvents orderItems ++ [.end_ orderTag.name])

theorem means_z (p : Pos) (e : Event) (s : String) (h : posScope (posTrack p e) ['z'] = some "urn:a".toList) : Means (posScope (posTrack p e)) ('z' :: ':' :: s.toList) (orderSetup.elementName (nm s)) := by
  refine ⟨['z'], rfl, by decide, fun h => (by cases h), ?_⟩
  intro _ ns hns
  have hn : some "urn:a".toList = some ns := hns
  rw [← hn]; exact h

theorem orderDocument_renders : Renders orderSetup {} (.elem (nm "order") none orderAttrs orderKids) orderDocument := by
  refine Renders.element (items := orderItems) (t := orderTag) (means_z _ _ "order" (by decide +kernel)) ?_ ?_ ?_
  · refine .xmlns (by decide +kernel) (.attr (by decide +kernel) ⟨[], rfl, by decide, fun _ => rfl, fun h => absurd rfl h⟩
      (by decide +kernel) (by intro v h; cases h) .nil)
  · intro e he
    simp only [orderItems, List.mem_cons, List.not_mem_nil, or_false, Item.pad.injEq] at he
    rcases he with rfl | he | rfl | he
    · decide +kernel
    · cases he
    · rfl
    · cases he
  · rintro q evs n ⟨l, j, r, he, hq⟩
    unfold orderItems at he
    rcases l with _ | ⟨x, _ | ⟨y, _ | ⟨z, _ | ⟨w, l⟩⟩⟩⟩
    · simp at he
    · simp only [List.cons_append, List.nil_append, List.cons.injEq, Item.child.injEq] at he
      obtain ⟨rfl, ⟨_, rfl, rfl⟩, _⟩ := he
      subst hq
      exact Renders.text (t := ⟨"z:name".toList, []⟩) (s := "cake".toList)
        (pieces := [.text "ca".toList, .comment "c".toList, .cdata "ke".toList])
        (means_z _ _ "name" (by decide +kernel)) .nil (by decide) (by decide +kernel)
    · simp at he
    · simp only [List.cons_append, List.nil_append, List.cons.injEq, Item.child.injEq] at he
      obtain ⟨rfl, rfl, rfl, ⟨_, rfl, rfl⟩, _⟩ := he
      subst hq
      exact Renders.empty (t := ⟨"z:note".toList, []⟩) (means_z _ _ "note" (by decide +kernel)) .nil (Or.inr rfl)
    · simp at he

/-- The hypotheses of the theorem hold for this document: it is read. -/
example : ∃ v, Doc orderSetup.compile (.struct 4) {} orderDocument v ∧ ∀ n, depth v + 1 < n → ∀ rest,
    Drv.run (genEnv posTrack) (de orderSetup.compile n (.struct 4)).toDeser { helper := {} } (orderDocument ++ rest)
      = .done v rest :=
  C71_valid_document_read_partial orderSetup anyText orderTypes_acyclic orderSetup_supported orderSetup_filled 1 orderSetup_shape
    orderSetup_xsiFree orderSetup_reads (fun _ _ _ h => h) (tid "Order") 4 (by decide +kernel) (nm "order") _ _
    (order_valid _ (Or.inl rfl)) _ orderDocument_renders

/-! ## The same order, before the optimizer

`name` has the type `Text`, a synonym that the optimizer resolves. -/

open Verif.Opt in
/-- What a definition uses. -/
def usesOf : Variant → List Ident
  | .reference r => [r.type_]
  | .complex c => c.content.toList ++ c.base.ident.toList
  | .sequence g | .choice g | .all g => g.elements.filterMap fun e =>
      match e.variant with
      | .type_ k .group => some k
      | _ => none
  | _ => []

open Verif.Opt in
theorem rawTypes_wellFormed : WellFormed (ordersWith "Text") := by
  have hat : ∀ {i v}, look (ordersWith "Text") i = some v → ∃ ty, (i, ty) ∈ ordersWith "Text" ∧ ty.variant = v := by
    intro i v h
    obtain ⟨ty, hg, rfl⟩ := look_iff.1 h
    exact ⟨ty, Assoc.mem_of_get hg, rfl⟩
  have hkind : ∀ p ∈ ordersWith "Text", (∀ d, p.2.variant ≠ .dynamic d) ∧ (∀ d, p.2.variant ≠ .simple d) ∧
      (∀ d, p.2.variant ≠ .union d) ∧ (∀ d, p.2.variant ≠ .enumeration d) ∧ points p.2.variant ⊆ usesOf p.2.variant := by
    intro p hp
    simp only [ordersWith, List.mem_cons, List.not_mem_nil, or_false] at hp
    rcases hp with rfl | rfl | rfl | rfl | rfl <;>
      simp [MetaType.new, points, usesOf, orderDef, contentDef, partDef]
  have hrank : ∀ p ∈ ordersWith "Text", ∀ k ∈ usesOf p.2.variant,
      [tid "string", tid "Text", tid "Part", tid "OrderContent", tid "Order"].idxOf k <
        [tid "string", tid "Text", tid "Part", tid "OrderContent", tid "Order"].idxOf p.1 ∧
      (Assoc.get (ordersWith "Text") k).isSome = true := by decide +kernel
  refine ⟨by unfold Assoc.Keyed; decide +kernel, ?_, ?_⟩
  · rintro i k ⟨v, h1, h2⟩
    obtain ⟨ty, hm, rfl⟩ := hat h1
    obtain ⟨ty', h⟩ := Option.isSome_iff_exists.1 (hrank _ hm k ((hkind _ hm).2.2.2.2 h2)).2
    exact ⟨ty', h⟩
  · refine noLoop_of_rank _ ([tid "string", tid "Text", tid "Part", tid "OrderContent", tid "Order"].idxOf ·) ?_
    have key : ∀ {a b v}, look (ordersWith "Text") a = some v → b ∈ usesOf v →
        [tid "string", tid "Text", tid "Part", tid "OrderContent", tid "Order"].idxOf b <
        [tid "string", tid "Text", tid "Part", tid "OrderContent", tid "Order"].idxOf a := by
      intro a b v h1 h2
      obtain ⟨ty, hm, rfl⟩ := hat h1
      exact (hrank _ hm b h2).1
    rintro a b (h | ⟨v, h1, h2⟩)
    · cases h with
      | reference h => exact key h (by simp [usesOf])
      | member h => obtain ⟨ty, hm, hv⟩ := hat h; exact absurd hv ((hkind _ hm).2.2.1 _)
      | variant h => obtain ⟨ty, hm, hv⟩ := hat h; exact absurd hv ((hkind _ hm).2.2.2.1 _)
      | simple h => obtain ⟨ty, hm, hv⟩ := hat h; exact absurd hv ((hkind _ hm).2.1 _)
      | derived h => obtain ⟨ty, hm, hv⟩ := hat h; exact absurd hv ((hkind _ hm).1 _)
      | content h hc => exact key h (by simp [usesOf, hc])
      | sequence h he hv => exact key h (List.mem_filterMap.2 ⟨_, he, by simp [hv]⟩)
      | choice h he hv => exact key h (List.mem_filterMap.2 ⟨_, he, by simp [hv]⟩)
      | all h he hv => exact key h (List.mem_filterMap.2 ⟨_, he, by simp [hv]⟩)
    · obtain ⟨ty, hm, rfl⟩ := hat h1
      exact key h1 ((hkind _ hm).2.2.2.2 h2)

open Verif.Opt in
/-- The order, valid before the optimizer, is read by the code generated after it. -/
example : ∃ v, ∀ n, depth v + 1 < n → ∀ rest,
    Drv.run (genEnv posTrack) (de orderSetup.compile n (.struct 4)).toDeser { helper := {} } (orderDocument ++ rest)
      = .done v rest := by
  obtain ⟨T', h1, h2⟩ := C71_optimized_document_read_partial (X := Str) anyText { resolveTypedefs := true }
    ⟨anyTypeIdent [], fun _ => .named [], fun _ => []⟩ (ordersWith "Text") (by simp [OptFlags.Plain]) rawTypes_wellFormed (fun _ => trivial) (by simp) (by simp) (by simp) 37
    (by decide)
  have h3 : execOptimizer 37 { resolveTypedefs := true } ⟨anyTypeIdent [], fun _ => .named [], fun _ => []⟩
      (ordersWith "Text") = .ok orderTypes := by decide +kernel
  rw [h3] at h1
  cases h1
  exact h2 orderSetup rfl orderSetup_supported orderSetup_filled 1 orderSetup_shape orderSetup_xsiFree orderSetup_reads
    (fun _ _ _ h => h) (tid "Order") 4 (by decide +kernel) (nm "order") _ _ (order_valid _ (Or.inr rfl)) _
    orderDocument_renders

end Verif.Generate

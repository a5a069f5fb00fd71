import Verif.Generate.Data
import Verif.Naming.Cases

/-!
# The fields of a struct and the variants of an enum (C97)

Models which fields and variants are written for a complex type or a group, and what they are called: `new_simple`, `new_enum`,
`new_struct`, `new_text_before` and `new_content` (pipeline/generator/data/complex.rs 167-211, 214-341, 344-510, 684-768),
`ComplexDataStruct::render_type` (pipeline/renderer/steps/types.rs 339-373) and the names of `Naming` and `ExplicitNaming`
(models/naming/explicit.rs 147-161), all in `xsd-parser/src`. The formatting of names is that of `Verif.Naming.Cases` (C96).
-/

namespace Verif.Generate.FieldNames

open Verif.Meta Verif.Generate Verif.Naming Verif.Naming.Cases
open Verif.Occurs (MaxOccurs Container fromOccurs)

/-! ## Model -/

/-- What the names depend on: the flags, `content_display_name`, and the postfixes of `ExplicitNaming` (none with the default naming). -/
structure Cfg where
  fl : GFlags
  content : Str
  elementPostfix : Option Str
  attributePostfix : Option Str

/-- The name that is formatted: the display name, or the name, traits/naming.rs 89-140. -/
def shown (display : Option Str) (i : PropIdent) : Str := display.getD i.name.str

/-- `format_element_field_name`, explicit.rs 147-153; without postfix it is that of the default naming. -/
def elementField (c : Cfg) (s : Str) : Str := fieldName (s ++ c.elementPostfix.getD [])

/-- `format_attribute_field_name`, explicit.rs 155-161. -/
def attributeField (c : Cfg) (s : Str) : Str := fieldName (s ++ c.attributePostfix.getD [])

/-- `ComplexDataElement::new`, complex.rs 597-626: elements that never occur, and wildcards without support for them, are left out. -/
def elementWritten (c : Cfg) (e : Element) : Bool :=
  fromOccurs e.min e.max != .none && (match e.variant with | .any _ => c.fl.any | _ => true)

/-- `ComplexDataAttribute::new_field`, complex.rs 777-794. -/
def attributeWritten (c : Cfg) (a : Attribute) : Bool :=
  a.use_ != .prohibited && (match a.variant with | .any _ => c.fl.any | _ => true)

def attributeFields (c : Cfg) (as : List Attribute) : List Str :=
  (as.filter (attributeWritten c)).map fun a => attributeField c (shown a.displayName a.ident)

def elementFields (c : Cfg) (es : List Element) : List Str :=
  (es.filter (elementWritten c)).map fun e => elementField c (shown e.displayName e.ident)

def elementVariants (c : Cfg) (es : List Element) : List Str :=
  (es.filter (elementWritten c)).map fun e => variantName (shown e.displayName e.ident)

/-- `TypeMode` of complex.rs: simple content, a choice, or `xs:all` and sequences. -/
inductive Kind where
  | simple | choice | group
deriving DecidableEq

/-- `new_simple`: the attributes and the content. -/
def simpleMembers (c : Cfg) (min : Nat) (max : MaxOccurs) (as : List Attribute) : List (List Str) :=
  [attributeFields c as ++ if fromOccurs min max = .none then [] else [c.content]]

/-- `new_enum`: an enum, or a struct and the enum of its content. -/
def choiceMembers (c : Cfg) (mm : MixedMode) (min : Nat) (max : MaxOccurs) (as : List Attribute) (es : List Element) : List (List Str) :=
  if fromOccurs min max = .single ∧ mm ≠ .complex ∧ attributeFields c as = [] ∧ c.fl.flattenEnum = true then [elementVariants c es]
  else if fromOccurs min max = .none ∨ elementVariants c es = [] then [attributeFields c as]
  else if mm = .complex then
    [attributeFields c as ++ [elementField c "text_before".toList, c.content], elementVariants c es]
  else [attributeFields c as ++ [c.content], elementVariants c es]

/-- `new_struct`: one struct, or a struct and the struct of its content. -/
def groupMembers (c : Cfg) (mm : MixedMode) (min : Nat) (max : MaxOccurs) (as : List Attribute) (es : List Element) : List (List Str) :=
  let fs := elementFields c es
  if fromOccurs min max = .single ∧ c.fl.flattenStruct = true then
    [attributeFields c as ++
      if mm = .complex then elementField c (if fs = [] then "text".toList else "text_before".toList) :: fs else fs]
  else if fromOccurs min max = .none ∨ fs = [] then [attributeFields c as]
  else if mm = .complex then [attributeFields c as ++ [elementField c "text_before".toList, c.content], fs]
  else [attributeFields c as ++ [c.content], fs]

/-- The names of the members of the types that are written, one list for each type. -/
def members (c : Cfg) (k : Kind) (mm : MixedMode) (min : Nat) (max : MaxOccurs) (as : List Attribute) (es : List Element) :
    List (List Str) :=
  match k with
  | .simple => simpleMembers c min max as
  | .choice => choiceMembers c mm min max as es
  | .group => groupMembers c mm min max as es

/-! ## Specification -/

/-- All names consist of words, and which words they are: attributes, elements as fields, elements as variants, the content and the
two names for text. -/
structure InWords (c : Cfg) (as : List Attribute) (es : List Element) (wa : Attribute → List Str) (we wv : Element → List Str)
    (wc wt wb : List Str) : Prop where
  attrs : ∀ a ∈ as, Written (wa a) (shown a.displayName a.ident ++ c.attributePostfix.getD [])
  elems : ∀ e ∈ es, Written (we e) (shown e.displayName e.ident ++ c.elementPostfix.getD [])
  variants : ∀ e ∈ es, Written (wv e) (shown e.displayName e.ident)
  text : Written wt ("text".toList ++ c.elementPostfix.getD [])
  textBefore : Written wb ("text_before".toList ++ c.elementPostfix.getD [])
  content : Written wc c.content
  /-- The name of the content is in the style of fields. -/
  contentStyle : fieldName c.content = c.content

/-! ## Proofs -/

theorem nodup_idents {g : List Str → Str} {L : List (List Str)} (hg : ∀ v ∈ L, ∀ w ∈ L, g v = g w → v = w) (h : L.Nodup) :
    (L.map g).Nodup := by
  induction L with
  | nil => simp
  | cons v L ih =>
    rw [List.nodup_cons] at h
    rw [List.map_cons, List.nodup_cons]
    refine ⟨?_, ih (fun a ha b hb => hg a (by simp [ha]) b (by simp [hb])) h.2⟩
    intro hm
    obtain ⟨w, hw, he⟩ := List.mem_map.mp hm
    have := hg v (by simp) w (by simp [hw]) he.symm
    exact h.1 (this ▸ hw)

def fieldOf (ws : List Str) : Str := asIdent (joinWith '_' ws)
def variantOf (ws : List Str) : Str := asIdent (ws.map cap).flatten

theorem fieldOf_inj {v w : List Str} {s t : Str} (hv : Written v s) (hw : Written w t) (h : fieldOf v = fieldOf w) : v = w := by
  rw [fieldOf, fieldOf, ← (C96_names_partial hv).1, ← (C96_names_partial hw).1] at h
  exact (C96_same_name_iff_partial hv hw).1.mp h

theorem variantOf_inj {v w : List Str} {s t : Str} (hv : Written v s) (hw : Written w t) (h : variantOf v = variantOf w) : v = w := by
  rw [variantOf, variantOf, ← (C96_names_partial hv).2.1, ← (C96_names_partial hw).2.1] at h
  exact (C96_same_name_iff_partial hv hw).2.1.mp h

/-- All words of fields. -/
def allWords (as : List Attribute) (es : List Element) (wa : Attribute → List Str) (we : Element → List Str) (wc wt wb : List Str) :
    List (List Str) := as.map wa ++ (wt :: wb :: (es.map we ++ [wc]))

theorem sub_nodup {c : Cfg} {as : List Attribute} {es : List Element} {wa : Attribute → List Str} {we wv : Element → List Str}
    {wc wt wb : List Str} (h : InWords c as es wa we wv wc wt wb) (hn : (allWords as es wa we wc wt wb).Nodup) {L : List (List Str)}
    (hs : L.Sublist (allWords as es wa we wc wt wb)) : (L.map fieldOf).Nodup := by
  have hw : ∀ w ∈ L, ∃ s, Written w s := by
    intro w hw
    have := hs.subset hw
    simp only [allWords, List.mem_append, List.mem_cons, List.mem_map, List.not_mem_nil, or_false] at this
    rcases this with ⟨a, ha, rfl⟩ | rfl | rfl | ⟨e, he, rfl⟩ | rfl
    · exact ⟨_, h.attrs a ha⟩
    · exact ⟨_, h.text⟩
    · exact ⟨_, h.textBefore⟩
    · exact ⟨_, h.elems e he⟩
    · exact ⟨_, h.content⟩
  refine nodup_idents (fun v hv w hw' he => ?_) (hs.nodup hn)
  obtain ⟨s, h1⟩ := hw v hv
  obtain ⟨t, h2⟩ := hw w hw'
  exact fieldOf_inj h1 h2 he

theorem attributeFields_eq {c : Cfg} {as : List Attribute} {wa : Attribute → List Str}
    (h : ∀ a ∈ as, Written (wa a) (shown a.displayName a.ident ++ c.attributePostfix.getD [])) :
    attributeFields c as = ((as.filter (attributeWritten c)).map wa).map fieldOf := by
  unfold attributeFields
  rw [List.map_map]
  apply List.map_congr_left
  intro a ha
  exact (C96_names_partial (h a (List.mem_filter.mp ha).1)).1

theorem elementFields_eq {c : Cfg} {es : List Element} {we : Element → List Str}
    (h : ∀ e ∈ es, Written (we e) (shown e.displayName e.ident ++ c.elementPostfix.getD [])) :
    elementFields c es = ((es.filter (elementWritten c)).map we).map fieldOf := by
  unfold elementFields
  rw [List.map_map]
  apply List.map_congr_left
  intro e he
  exact (C96_names_partial (h e (List.mem_filter.mp he).1)).1

theorem elementVariants_nodup {c : Cfg} {es : List Element} {wv : Element → List Str}
    (h : ∀ e ∈ es, Written (wv e) (shown e.displayName e.ident)) (hn : (es.map wv).Nodup) : (elementVariants c es).Nodup := by
  have h1 : elementVariants c es = ((es.filter (elementWritten c)).map wv).map variantOf := by
    unfold elementVariants
    rw [List.map_map]
    apply List.map_congr_left
    intro e he
    exact (C96_names_partial (h e (List.mem_filter.mp he).1)).2.1
  rw [h1]
  refine nodup_idents ?_ (((List.filter_sublist (l := es)).map wv).nodup hn)
  intro v hv w hw he
  obtain ⟨e, he1, rfl⟩ := List.mem_map.mp hv
  obtain ⟨e', he2, rfl⟩ := List.mem_map.mp hw
  exact variantOf_inj (h e (List.mem_filter.mp he1).1) (h e' (List.mem_filter.mp he2).1) he

/-! ## C97 -/

/-- **C97** (partial). If the names of the attributes and elements of a type, of its content (`content`) and of its texts (`text`,
`text_before`) consist of different words then the fields of all structs, and the variants of all enums, that are written for the type
have different names, whatever the flags, the postfixes and the occurrences are. Missing: names that share their words
(`C97_attribute_and_element_clash`, `C97_content_clash`, `C97_text_clash`) and names that do not consist of words (see C96). -/
theorem C97_members_distinct_partial {c : Cfg} {as : List Attribute} {es : List Element} {wa : Attribute → List Str}
    {we wv : Element → List Str} {wc wt wb : List Str} (h : InWords c as es wa we wv wc wt wb)
    (hf : (as.map wa ++ (wt :: wb :: (es.map we ++ [wc]))).Nodup) (hv : (es.map wv).Nodup)
    (k : Kind) (mm : MixedMode) (min : Nat) (max : MaxOccurs) : ∀ l ∈ members c k mm min max as es, l.Nodup := by
  have hA := attributeFields_eq h.attrs
  have hE := elementFields_eq h.elems
  have hV : (elementVariants c es).Nodup := elementVariants_nodup h.variants hv
  have hC : c.content = fieldOf wc := by
    rw [← h.contentStyle]; exact (C96_names_partial h.content).1
  have hT : elementField c "text".toList = fieldOf wt := (C96_names_partial h.text).1
  have hB : elementField c "text_before".toList = fieldOf wb := (C96_names_partial h.textBefore).1
  have sa : ((as.filter (attributeWritten c)).map wa).Sublist (as.map wa) := List.filter_sublist.map wa
  have se : ((es.filter (elementWritten c)).map we).Sublist (es.map we) := List.filter_sublist.map we
  have go : ∀ L : List (List Str), L.Sublist (wt :: wb :: (es.map we ++ [wc])) →
      (attributeFields c as ++ L.map fieldOf).Nodup := by
    intro L hL
    rw [hA, ← List.map_append]
    exact sub_nodup h hf (sa.append hL)
  have n0 : (attributeFields c as).Nodup := by simpa using go [] (List.nil_sublist _)
  have nC : (attributeFields c as ++ [c.content]).Nodup := by
    have := go [wc] (((List.sublist_append_right _ _).cons _).cons _)
    rw [hC]; exact this
  have nBC : (attributeFields c as ++ [elementField c "text_before".toList, c.content]).Nodup := by
    have := go [wb, wc] (((List.sublist_append_right _ _).cons_cons _).cons _)
    rw [hC, hB]; exact this
  have nE : (elementFields c es).Nodup := by
    rw [hE]
    exact sub_nodup h hf
      (((se.trans (List.sublist_append_left _ _)).cons _ |>.cons _).trans (List.sublist_append_right _ _))
  have nAE : (attributeFields c as ++ elementFields c es).Nodup := by
    rw [hE]
    exact go _ (((se.trans (List.sublist_append_left _ _)).cons _).cons _)
  have nABE : (attributeFields c as ++ elementField c "text_before".toList :: elementFields c es).Nodup := by
    have := go (wb :: (es.filter (elementWritten c)).map we) (((se.trans (List.sublist_append_left _ _)).cons_cons _).cons _)
    rw [hE, hB]; exact this
  have nAT : (attributeFields c as ++ [elementField c "text".toList]).Nodup := by
    have := go [wt] ((List.nil_sublist _).cons_cons _)
    rw [hT]; exact this
  intro l hl
  cases k with
  | simple =>
    simp only [members, simpleMembers, List.mem_singleton] at hl
    subst hl
    split
    · simpa using n0
    · exact nC
  | choice =>
    simp only [members, choiceMembers] at hl
    split at hl
    · rw [List.mem_singleton] at hl; subst hl; exact hV
    · split at hl
      · rw [List.mem_singleton] at hl; subst hl; exact n0
      · split at hl
        · simp only [List.mem_cons, List.not_mem_nil, or_false] at hl
          rcases hl with rfl | rfl
          · exact nBC
          · exact hV
        · simp only [List.mem_cons, List.not_mem_nil, or_false] at hl
          rcases hl with rfl | rfl
          · exact nC
          · exact hV
  | group =>
    simp only [members, groupMembers] at hl
    split at hl
    · rw [List.mem_singleton] at hl
      subst hl
      split
      · by_cases he : elementFields c es = []
        · rw [if_pos he, he]; exact nAT
        · rw [if_neg he]; exact nABE
      · exact nAE
    · split at hl
      · rw [List.mem_singleton] at hl; subst hl; exact n0
      · split at hl
        · simp only [List.mem_cons, List.not_mem_nil, or_false] at hl
          rcases hl with rfl | rfl
          · exact nBC
          · exact nE
        · simp only [List.mem_cons, List.not_mem_nil, or_false] at hl
          rcases hl with rfl | rfl
          · exact nC
          · exact nE

theorem Written.append {ws vs : List Str} {s t : Str} (h : Written ws s) (h' : Written vs t) : Written (ws ++ vs) (s ++ '_' :: t) := by
  induction h with
  | one hw hf => exact .sep hw hf (by decide) h'
  | @sep w f s ws c hw hf hc hs ih =>
    rw [List.cons_append, List.append_assoc, List.cons_append]
    exact .sep hw hf hc ih
  | @caps w f s ws c hw hf hc hs ih =>
    rw [List.cons_append, List.append_assoc, List.cons_append]
    exact .caps hw hf hc ih

/-- **C97** (partial). `ExplicitNaming::with_attribute_field_postfix` does what it is for: with a word as postfix of attributes, it is enough
that the attributes differ from one another, and the elements, the content and the texts from one another, if none of the latter ends
with the postfix. -/
theorem C97_attribute_postfix_partial {c : Cfg} {p : Str} (hp : Word p) (ha : c.attributePostfix = some ('_' :: p))
    (he : c.elementPostfix = none) (hcs : fieldName c.content = c.content) {as : List Attribute} {es : List Element}
    {wa : Attribute → List Str} {we : Element → List Str} {wc : List Str} (hwc : Written wc c.content)
    (hwa : ∀ a ∈ as, Written (wa a) (shown a.displayName a.ident)) (hwe : ∀ e ∈ es, Written (we e) (shown e.displayName e.ident))
    (na : (as.map wa).Nodup) (ne : (["text".toList] :: ["text".toList, "before".toList] :: (es.map we ++ [wc])).Nodup)
    (hl : ∀ ws ∈ ["text".toList] :: ["text".toList, "before".toList] :: (es.map we ++ [wc]), ws.getLast? ≠ some p)
    (k : Kind) (mm : MixedMode) (min : Nat) (max : MaxOccurs) : ∀ l ∈ members c k mm min max as es, l.Nodup := by
  have w1 : Word "text".toList := exWord _ (by decide)
  have w2 : Word "before".toList := exWord _ (by decide)
  have hW : InWords c as es (fun a => wa a ++ [p]) we we wc ["text".toList] ["text".toList, "before".toList] := by
    refine ⟨?_, ?_, hwe, ?_, ?_, hwc, hcs⟩
    · intro a hm
      rw [ha]
      exact Written.append (hwa a hm) (.one hp (.inl rfl))
    · intro e hm
      rw [he, Option.getD_none, List.append_nil]
      exact hwe e hm
    · rw [he, Option.getD_none, List.append_nil]
      exact .one w1 (.inl rfl)
    · rw [he, Option.getD_none, List.append_nil]
      exact .sep (f := "text".toList) (c := '_') (s := "before".toList) w1 (.inl rfl) (by decide) (.one w2 (.inl rfl))
  have hve : (es.map we).Nodup := by
    rw [List.nodup_cons, List.nodup_cons] at ne
    exact (List.sublist_append_left _ _).nodup ne.2.2
  refine C97_members_distinct_partial hW ?_ hve k mm min max
  rw [List.nodup_append]
  refine ⟨?_, ne, ?_⟩
  · have : as.map (fun a => wa a ++ [p]) = (as.map wa).map (· ++ [p]) := by simp
    rw [this]
    clear hW hl ne hwa this
    induction as with
    | nil => simp
    | cons a as ih =>
      simp only [List.map_cons, List.nodup_cons] at na ⊢
      refine ⟨?_, ih na.2⟩
      intro hm
      obtain ⟨x, hx, hxe⟩ := List.mem_map.mp hm
      have := List.append_cancel_right hxe
      exact na.1 (this ▸ hx)
  · intro x hx y hy hxy
    obtain ⟨a, -, rfl⟩ := List.mem_map.mp hx
    subst hxy
    exact hl _ hy (by simp)

def exCfg : Cfg := ⟨⟨true, true, true, true, true⟩, "content".toList, none, none⟩
def exCfgPost : Cfg := { exCfg with attributePostfix := some "_attrib".toList }
def exEl (s : String) : Element :=
  ⟨⟨1, .named s.toList⟩, .type_ ⟨1, 0, .named "T".toList, .type_⟩ .element, .qualified, ⟨false, false, true, false, false⟩, 1, .bounded 1, none, []⟩
def exAt (s : String) : Attribute := ⟨⟨1, .named s.toList⟩, .type_ ⟨1, 0, .named "T".toList, .type_⟩, .required, .unqualified, none, none, [], none⟩

/-- An attribute and an element with the same name: they clash, unless there is a postfix. -/
example : members exCfg .group .complex 1 (.bounded 1) [exAt "id", exAt "xmlLang"] [exEl "id"] =
    [["id".toList, "xml_lang".toList, "text_before".toList, "id".toList]] ∧
    members exCfgPost .group .complex 1 (.bounded 1) [exAt "id", exAt "xmlLang"] [exEl "id"] =
    [["id_attrib".toList, "xml_lang_attrib".toList, "text_before".toList, "id".toList]] ∧
    members exCfg .choice .none 0 .unbounded [exAt "id"] [exEl "foo-bar", exEl "baz"] =
    [["id".toList, "content".toList], ["FooBar".toList, "Baz".toList]] := by decide +kernel

theorem exOne (s : String) (h : (2 ≤ s.toList.length && s.toList.all Char.isLower) = true) : Written [s.toList] s.toList :=
  .one (exWord _ h) (.inl rfl)

/-- The hypotheses of both theorems are met. -/
example : InWords exCfg [exAt "lang"] [exEl "id"] (fun a => [a.ident.name.str]) (fun e => [e.ident.name.str]) (fun e => [e.ident.name.str])
    ["content".toList] ["text".toList] ["text".toList, "before".toList] ∧
    ([exAt "lang"].map (fun a => [a.ident.name.str]) ++
      (["text".toList] :: ["text".toList, "before".toList] :: ([exEl "id"].map (fun e => [e.ident.name.str]) ++ [["content".toList]]))).Nodup := by
  refine ⟨⟨?_, ?_, ?_, exOne "text" (by decide), ?_, exOne "content" (by decide), by decide +kernel⟩, by decide +kernel⟩
  · intro a ha; rw [List.mem_singleton] at ha; subst ha; exact exOne "lang" (by decide)
  · intro a ha; rw [List.mem_singleton] at ha; subst ha; exact exOne "id" (by decide)
  · intro a ha; rw [List.mem_singleton] at ha; subst ha; exact exOne "id" (by decide)
  · exact .sep (f := "text".toList) (c := '_') (s := "before".toList) (exWord _ (by decide)) (.inl rfl) (by decide) (exOne "before" (by decide))

example : (["text".toList] :: ["text".toList, "before".toList] :: ([exEl "id"].map (fun e => [e.ident.name.str]) ++ [["content".toList]])).Nodup ∧
    (∀ ws ∈ ["text".toList] :: ["text".toList, "before".toList] :: ([exEl "id"].map (fun e => [e.ident.name.str]) ++ [["content".toList]]),
      ws.getLast? ≠ some "attrib".toList) ∧ Word "attrib".toList := by
  refine ⟨by decide +kernel, by decide +kernel, exWord _ (by decide)⟩

/-- **C97** (negation). With the default naming, an attribute and an element of the same name get the same field, whatever the name is
and whatever else the type has, if the elements are fields of the struct itself. -/
theorem C97_attribute_and_element_clash (c : Cfg) (hn : c.elementPostfix = none ∧ c.attributePostfix = none) (hfl : c.fl.flattenStruct = true)
    (mm : MixedMode) (as : List Attribute) (es : List Element) (a : Attribute) (e : Element) (ha : a ∈ as) (he : e ∈ es)
    (wa : attributeWritten c a = true) (we : elementWritten c e = true) (h : shown a.displayName a.ident = shown e.displayName e.ident) :
    ∃ l ∈ members c .group mm 1 (.bounded 1) as es, ¬ l.Nodup := by
  have hs : fromOccurs 1 (.bounded 1) = .single := by decide
  simp only [members, groupMembers, hs, hfl, and_self, if_true]
  refine ⟨_, List.mem_singleton.mpr rfl, fun hnd => ?_⟩
  rw [List.nodup_append] at hnd
  have h1 : attributeField c (shown a.displayName a.ident) ∈ attributeFields c as :=
    List.mem_map.mpr ⟨a, List.mem_filter.mpr ⟨ha, wa⟩, rfl⟩
  have h2 : elementField c (shown e.displayName e.ident) ∈ elementFields c es :=
    List.mem_map.mpr ⟨e, List.mem_filter.mpr ⟨he, we⟩, rfl⟩
  refine hnd.2.2 _ h1 (elementField c (shown e.displayName e.ident)) ?_ ?_
  · split
    · exact List.mem_cons_of_mem _ h2
    · exact h2
  · unfold attributeField elementField
    rw [hn.1, hn.2, h]

example : exCfg.fl.flattenStruct = true ∧ attributeWritten exCfg (exAt "id") = true ∧ elementWritten exCfg (exEl "id") = true ∧
    shown (exAt "id").displayName (exAt "id").ident = shown (exEl "id").displayName (exEl "id").ident := by decide +kernel

/-- **C97** (negation). So do an attribute called `content` (in any style) and the content of a type with simple content. -/
theorem C97_content_clash (c : Cfg) (hn : c.attributePostfix = none) (min : Nat) (max : MaxOccurs) (ho : fromOccurs min max ≠ .none)
    (mm : MixedMode) (as : List Attribute) (es : List Element) (a : Attribute) (ha : a ∈ as) (wa : attributeWritten c a = true)
    (h : fieldName (shown a.displayName a.ident) = c.content) : ∃ l ∈ members c .simple mm min max as es, ¬ l.Nodup := by
  simp only [members, simpleMembers, if_neg ho]
  refine ⟨_, List.mem_singleton.mpr rfl, fun hnd => ?_⟩
  rw [List.nodup_append] at hnd
  have h1 : attributeField c (shown a.displayName a.ident) ∈ attributeFields c as :=
    List.mem_map.mpr ⟨a, List.mem_filter.mpr ⟨ha, wa⟩, rfl⟩
  refine hnd.2.2 _ h1 c.content (by simp) ?_
  unfold attributeField
  rw [hn, Option.getD_none, List.append_nil, h]

example : fieldName (shown (exAt "Content").displayName (exAt "Content").ident) = exCfg.content ∧ fromOccurs 1 (.bounded 1) ≠ .none := by
  decide +kernel

/-- **C97** (negation). So do an element called `textBefore` and the text before the first element of a mixed type. -/
theorem C97_text_clash (c : Cfg) (hn : c.elementPostfix = none) (hfl : c.fl.flattenStruct = true) (as : List Attribute) (es : List Element)
    (e : Element) (he : e ∈ es) (we : elementWritten c e = true) (h : fieldName (shown e.displayName e.ident) = "text_before".toList) :
    ∃ l ∈ members c .group .complex 1 (.bounded 1) as es, ¬ l.Nodup := by
  have hs : fromOccurs 1 (.bounded 1) = .single := by decide
  have h2 : elementField c (shown e.displayName e.ident) ∈ elementFields c es :=
    List.mem_map.mpr ⟨e, List.mem_filter.mpr ⟨he, we⟩, rfl⟩
  have hne : elementFields c es ≠ [] := fun h => by rw [h] at h2; cases h2
  simp only [members, groupMembers, hs, hfl, and_self, if_true, if_neg hne]
  refine ⟨_, List.mem_singleton.mpr rfl, fun hnd => ?_⟩
  rw [List.nodup_append, List.nodup_cons] at hnd
  apply hnd.2.1.1
  have h3 : elementField c "text_before".toList = elementField c (shown e.displayName e.ident) := by
    unfold elementField
    rw [hn, Option.getD_none, List.append_nil, List.append_nil, h]
    decide +kernel
  rw [h3]
  exact h2

example : fieldName (shown (exEl "textBefore").displayName (exEl "textBefore").ident) = "text_before".toList := by decide +kernel

/-- **C97**. Members with a display name are called after it alone: whatever their XML names are replaced by, the members of the generated
types keep their names. So display names can be used to avoid the clashes above. -/
theorem C97_display_names (c : Cfg) (k : Kind) (mm : MixedMode) (min : Nat) (max : MaxOccurs) (as : List Attribute) (es : List Element)
    (ga : Attribute → PropIdent) (ge : Element → PropIdent) (ha : ∀ a ∈ as, a.displayName ≠ none) (he : ∀ e ∈ es, e.displayName ≠ none) :
    members c k mm min max (as.map fun a => { a with ident := ga a }) (es.map fun e => { e with ident := ge e }) =
      members c k mm min max as es := by
  have hsh : ∀ (d : Option Str) (i j : PropIdent), d ≠ none → shown d i = shown d j := by
    intro d i j hd
    cases d with
    | none => exact absurd rfl hd
    | some d => rfl
  have h1 : attributeFields c (as.map fun a => { a with ident := ga a }) = attributeFields c as := by
    unfold attributeFields
    rw [List.filter_map, List.map_map]
    exact List.map_congr_left fun a hm => by
      simp only [Function.comp_apply]
      rw [hsh a.displayName (ga a) a.ident (ha a (List.mem_filter.mp hm).1)]
  have h2 : elementFields c (es.map fun e => { e with ident := ge e }) = elementFields c es := by
    unfold elementFields
    rw [List.filter_map, List.map_map]
    exact List.map_congr_left fun e hm => by
      simp only [Function.comp_apply]
      rw [hsh e.displayName (ge e) e.ident (he e (List.mem_filter.mp hm).1)]
  have h3 : elementVariants c (es.map fun e => { e with ident := ge e }) = elementVariants c es := by
    unfold elementVariants
    rw [List.filter_map, List.map_map]
    exact List.map_congr_left fun e hm => by
      simp only [Function.comp_apply]
      rw [hsh e.displayName (ge e) e.ident (he e (List.mem_filter.mp hm).1)]
  cases k with
  | simple => simp only [members, simpleMembers, h1]
  | choice => simp only [members, choiceMembers, h1, h3]
  | group => simp only [members, groupMembers, h1, h2]

example : members exCfg .group .none 1 (.bounded 1) [{ exAt "id" with displayName := some "idAttribute".toList }] [exEl "id"] =
    [["id_attribute".toList, "id".toList]] := by decide +kernel

end Verif.Generate.FieldNames

import Verif.Generate.EmptyChoice
/-!
# Names and defaults of the members of types generated for `serde` (C80)

Models `pipeline/renderer/steps/serde/{mod,quick_xml,serde_xml_rs_v7,serde_xml_rs_v8}.rs` and `models/data/tag_name.rs`:
the `rename` and the `default` of the members of a struct, and the `rename` of the variants of an enum. Everything else
these steps write (paths, derives, documentation) is not modelled, nor is what `serde` and the crates behind it make of it.
-/
namespace Verif.Generate.Serde

open Verif.Meta
open Verif.Generate
open Verif.Occurs (MaxOccurs Container fromOccurs Allows)

/-! ## Model -/

/-- The three render steps. -/
inductive Crate where
  | quickXml | v7 | v8
deriving DecidableEq, Repr

/-- What the `#[serde(..)]` attribute of a member says: its name, and whether the member may be missing. -/
structure Member where
  name : Txt
  default_ : Bool
deriving DecidableEq, Repr

/-- `TagName::get(true)`, tag_name.rs:45-60; `pre` gives the prefix of the module of a namespace. -/
def tagName (pre : Nat → Option Txt) (i : PropIdent) (f : Form) : Txt :=
  match (if f = .qualified then pre i.ns else none) with
  | some p => p ++ ':' :: i.name.str
  | none => i.name.str

/-- The name of members for text, quick_xml.rs:469-473, serde_xml_rs_v7.rs:472-476, serde_xml_rs_v8.rs:556-560. -/
def textName : Crate → Txt
  | .quickXml => "$text".toList
  | .v7 | .v8 => "#text".toList

/-- The name of a member or a variant for an element: as for `textName`, and quick_xml.rs:503-507,
serde_xml_rs_v7.rs:504-508, serde_xml_rs_v8.rs:592-596. `cn` is `content_display_name`: the element made by `new_content`
has it as name, and the empty default tag name (generator/data/complex.rs:722-768). -/
def elementName (c : Crate) (pre : Nat → Option Txt) (cn : Txt) (d : DElement) : Txt :=
  if d.target = .text then textName c
  else
    match c with
    | .v8 => if d.target = .content then [] else tagName pre d.ident d.form
    | _ => if d.target = .content then cn else d.ident.name.str

/-- `Occurs::array_to_vec`, serde_xml_rs_v8.rs:60-67. -/
def arrayToVec : Container → Container
  | .staticList _ => .dynamicList
  | c => c

/-- The `default` of a member for an element, quick_xml.rs:486-489, serde_xml_rs_v7.rs:489-492, serde_xml_rs_v8.rs:575-578. -/
def elementDefault (c : Crate) (o : Container) : Bool :=
  match (if c = .v8 then arrayToVec o else o) with
  | .optional | .dynamicList => true
  | .none | .single | .staticList _ => false

/-- `ComplexDataElement::render_field_serde_*`, quick_xml.rs:460-498, serde_xml_rs_v7.rs:463-500, serde_xml_rs_v8.rs:547-587. -/
def elementMember (c : Crate) (pre : Nat → Option Txt) (cn : Txt) (d : DElement) : Member :=
  ⟨elementName c pre cn d, elementDefault c d.occurs⟩

/-- `ComplexDataAttribute::render_field_serde_*`, quick_xml.rs:410-457, serde_xml_rs_v7.rs:412-460,
serde_xml_rs_v8.rs:497-544. That `use_` is `Optional` is the same as being an `Option` or having a default value, except
for required attributes with a default value, where the default value decides. -/
def attributeMember (c : Crate) (pre : Nat → Option Txt) (a : DAttribute) : Member :=
  ⟨match c with
    | .quickXml => '@' :: a.ident.name.str
    | .v7 => tagName pre a.ident a.form
    | .v8 => '@' :: tagName pre a.ident a.form,
   a.default_.isSome || a.isOption⟩

/-- `is_empty_string_content`, serde/mod.rs:17-29 (`TypeIdent::STRING` has neither a namespace nor a schema). -/
def isString (T : Types) (simple : Option Ident) : Bool :=
  match simple.bind (getResolvedIdent T) with
  | some i => i.kind == .buildIn && i.name == .named "String".toList
  | none => false

/-- The name of the member for the content, quick_xml.rs:400, serde_xml_rs_v7.rs:406, serde_xml_rs_v8.rs:472-493;
`content` is the content of the complex type (serde_xml_rs_v8.rs:47-56). -/
def contentName (c : Crate) (T : Types) (simple content : Option Ident) : Txt :=
  match c with
  | .quickXml => if simple.isSome then "$text".toList else "$value".toList
  | .v7 => "$value".toList
  | .v8 =>
    match ((content.bind (getResolvedType T)).map MetaType.variant : Option Variant) with
    | some (.enumeration _) | some (.buildIn _) | some (.reference _) => "#text".toList
    | _ => "#content".toList

/-- `ComplexDataContent::render_field_serde_*`, quick_xml.rs:391-408, serde_xml_rs_v7.rs:393-410, serde_xml_rs_v8.rs:459-495.
There is no member if the content never occurs. -/
def contentMember (c : Crate) (T : Types) (mn : Nat) (mx : MaxOccurs) (simple content : Option Ident) : List Member :=
  if fromOccurs mn mx = .none then [] else [⟨contentName c T simple content, isString T simple || mn == 0⟩]

/-- The members of the content of a struct, quick_xml.rs:341-386, serde_xml_rs_v7.rs:343-388, serde_xml_rs_v8.rs:409-454. -/
def modeMembers (c : Crate) (pre : Nat → Option Txt) (cn : Txt) (T : Types) (content : Option Ident) : SMode → List Member
  | .empty _ => []
  | .content mn mx simple => contentMember c T mn mx simple content
  | .all es _ | .sequence es _ => es.map (elementMember c pre cn)

/-- The members of the struct (or the names of the variants of the enum) that is written for a complex type. -/
def members (c : Crate) (pre : Nat → Option Txt) (cn : Txt) (fl : GFlags) (T : Types) (fuel : Nat) (ct : Complex) :
    Option (List Member) :=
  match newComplex fl T fuel ct with
  | some (.struct_ mode ats _ _) =>
    some (ats.map (attributeMember c pre) ++ modeMembers c pre cn T ct.content mode)
  | some (.enum_ es _ _) => some (es.map fun d => ⟨elementName c pre cn d, false⟩)
  | none => none

/-! ## Specification -/

/-- The name of an element or attribute in a document: the namespace, if it is qualified, and the local name. -/
def expanded (i : PropIdent) (f : Form) : Option Nat × Txt := (if f = .qualified then some i.ns else none, i.name.str)

/-- A name of an element or attribute: not empty, does not start with one of the characters with a special meaning, and has
no colon. -/
def NCName (n : Txt) : Prop := (∃ x r, n = x :: r ∧ x ≠ '@' ∧ x ≠ '#' ∧ x ≠ '$') ∧ ':' ∉ n

/-- The prefixes that are used are names, every namespace that is used has one, and no two have the same. -/
def PrefixesOk (pre : Nat → Option Txt) (ns : List Nat) : Prop :=
  ∀ n ∈ ns, (∃ p, pre n = some p ∧ NCName p) ∧ ∀ m ∈ ns, pre n = pre m → n = m

/-- The elements of the group that is the content of a complex type. -/
def elementsOf (T : Types) (ct : Complex) : List Element :=
  match ((ct.content.bind (getResolvedType T)).map MetaType.variant : Option Variant) with
  | some (.all g) | some (.choice g) | some (.sequence g) => g.elements
  | _ => []

/-- What tells two attributes apart: for `quick-xml` the local name only. -/
def attributeKey (c : Crate) (a : Attribute) : Option Nat × Txt :=
  if c = .quickXml then (none, a.ident.name.str) else expanded a.ident a.form

/-- What tells two elements apart: only for `serde-xml-rs` 0.8 the name in documents, otherwise the local name. -/
def elementKey (c : Crate) (e : Element) : Option Nat × Txt :=
  if c = .v8 then expanded e.ident e.form else (none, e.ident.name.str)

/-- What must be different in a schema for the members of a struct to be different: what tells the attributes apart, and what
tells the elements apart. For `serde-xml-rs` 0.7 no element has the name of an attribute that is not qualified. There is not
more than one text. -/
structure Separate (c : Crate) (pre : Nat → Option Txt) (as : List Attribute) (es : List Element) : Prop where
  attributes : ((as.filter fun a => a.use_ != .prohibited).map (attributeKey c)).Nodup
  elements : (es.map (elementKey c)).Nodup
  apart : c = .v7 → ∀ a ∈ as, ∀ e ∈ es, a.ident.name.str = e.ident.name.str → a.form = .qualified
  texts : (es.filter fun e => e.variant == .text).length ≤ 1
  names : (∀ a ∈ as, NCName a.ident.name.str) ∧ ∀ e ∈ es, NCName e.ident.name.str
  prefixes : PrefixesOk pre ((as.filter fun a => a.form == .qualified).map (·.ident.ns) ++
    (es.filter fun e => e.form == .qualified).map (·.ident.ns))

/-- The name of the member for an element of the schema. -/
def memberName (c : Crate) (pre : Nat → Option Txt) (e : Element) : Txt :=
  if e.variant = .text then textName c else if c = .v8 then tagName pre e.ident e.form else e.ident.name.str

/-- The name of the member for an attribute of the schema. -/
def attributeName (c : Crate) (pre : Nat → Option Txt) (a : Attribute) : Txt :=
  match c with
  | .quickXml => '@' :: a.ident.name.str
  | .v7 => tagName pre a.ident a.form
  | .v8 => '@' :: tagName pre a.ident a.form

/-! ## Proofs -/

theorem append_colon {p q n m : Txt} (hp : ':' ∉ p) (hq : ':' ∉ q) (h : p ++ ':' :: n = q ++ ':' :: m) :
    p = q ∧ n = m := by
  induction p generalizing q with
  | nil =>
    cases q with
    | nil => simpa using h
    | cons y q => simp at h; exact absurd h.1 (by simp at hq; exact hq.1)
  | cons x p ih =>
    cases q with
    | nil => simp at h; exact absurd h.1.symm (by simp at hp; exact hp.1)
    | cons y q =>
      simp only [List.cons_append, List.cons.injEq] at h
      simp only [List.mem_cons, not_or] at hp hq
      obtain ⟨h1, h2⟩ := ih hp.2 hq.2 h.2
      exact ⟨by rw [h.1, h1], h2⟩

theorem tagName_unqualified {pre : Nat → Option Txt} {i : PropIdent} : tagName pre i .unqualified = i.name.str := rfl

theorem tagName_qualified {pre : Nat → Option Txt} {i : PropIdent} {p : Txt} (h : pre i.ns = some p) :
    tagName pre i .qualified = p ++ ':' :: i.name.str := by simp [tagName, h]

theorem tagName_inj {pre : Nat → Option Txt} {ns : List Nat} (hp : PrefixesOk pre ns) {i j : PropIdent} {f g : Form}
    (hi : NCName i.name.str) (hj : NCName j.name.str) (hf : f = .qualified → i.ns ∈ ns) (hg : g = .qualified → j.ns ∈ ns)
    (h : tagName pre i f = tagName pre j g) : expanded i f = expanded j g := by
  cases f with
  | qualified =>
    obtain ⟨⟨p, h1, h2⟩, h3⟩ := hp _ (hf rfl)
    rw [tagName_qualified h1] at h
    cases g with
    | qualified =>
      obtain ⟨⟨q, h4, h5⟩, _⟩ := hp _ (hg rfl)
      rw [tagName_qualified h4] at h
      obtain ⟨h6, h7⟩ := append_colon h2.2 h5.2 h
      have := h3 _ (hg rfl) (by rw [h1, h4, h6])
      simp [expanded, this, h7]
    | unqualified =>
      rw [tagName_unqualified] at h
      exact absurd (by rw [← h]; simp) hj.2
  | unqualified =>
    rw [tagName_unqualified] at h
    cases g with
    | qualified =>
      obtain ⟨⟨q, h4, h5⟩, _⟩ := hp _ (hg rfl)
      rw [tagName_qualified h4] at h
      exact absurd (by rw [h]; simp) hi.2
    | unqualified => simpa [expanded, tagName_unqualified] using h

/-- Tag names start like names. -/
theorem tagName_head {pre : Nat → Option Txt} {i : PropIdent} {f : Form} (hi : NCName i.name.str)
    (hf : f = .qualified → ∃ p, pre i.ns = some p ∧ NCName p) :
    ∃ x r, tagName pre i f = x :: r ∧ x ≠ '@' ∧ x ≠ '#' ∧ x ≠ '$' := by
  cases f with
  | unqualified => exact hi.1
  | qualified =>
    obtain ⟨p, h1, ⟨⟨x, r, h2, h3⟩, _⟩⟩ := hf rfl
    exact ⟨x, r ++ ':' :: i.name.str, by rw [tagName_qualified h1, h2]; rfl, h3⟩

theorem newElement_key {fl : GFlags} {T : Types} {fuel : Nat} {m b : Bool} {e : Element} {d : DElement}
    (h : newElement fl T fuel m e = some (some d, b)) :
    d.ident = e.ident ∧ d.form = e.form ∧ (d.target = .text ↔ e.variant = .text) ∧ d.target ≠ .content := by
  unfold newElement at h
  by_cases hn : fromOccurs e.min e.max = .none
  · rw [if_pos hn] at h; cases h
  · rw [if_neg hn] at h
    cases hv : e.variant with
    | text => rw [hv] at h; cases h; simp
    | any w =>
      rw [hv] at h
      simp only at h
      split at h
      · cases h; simp
      · cases h
    | type_ i mode =>
      rw [hv] at h
      simp only at h
      split at h
      · cases h; simp
      · cases h

theorem elementName_eq {c : Crate} {pre : Nat → Option Txt} {cn : Txt} {fl : GFlags} {T : Types} {fuel : Nat} {m b : Bool}
    {e : Element} {d : DElement} (h : newElement fl T fuel m e = some (some d, b)) :
    elementName c pre cn d = memberName c pre e := by
  obtain ⟨h1, h2, h3, h4⟩ := newElement_key h
  unfold elementName memberName
  by_cases ht : e.variant = .text
  · rw [if_pos ht, if_pos (h3.2 ht)]
  · rw [if_neg ht, if_neg (fun hc => ht (h3.1 hc))]
    cases c <;> simp [h4, h1, h2]

theorem newElements_names {c : Crate} {pre : Nat → Option Txt} {cn : Txt} {fl : GFlags} {T : Types} {fuel : Nat} {m b : Bool}
    {es : List Element} {ds : List DElement} (h : newElements fl T fuel m es = some (ds, b)) :
    ∃ es' : List Element, es'.Sublist es ∧ ds.map (elementName c pre cn) = es'.map (memberName c pre) := by
  induction es generalizing ds b with
  | nil => cases h; exact ⟨[], .refl _, rfl⟩
  | cons e es ih =>
    unfold newElements at h
    split at h
    · rename_i d a ds' b' h1 h2
      cases h
      obtain ⟨es', h3, h4⟩ := ih h2
      cases d with
      | none => exact ⟨es', h3.cons _, by simpa using h4⟩
      | some d =>
        exact ⟨e :: es', h3.cons_cons _, by simp [h4, elementName_eq h1]⟩
    · cases h

theorem newAttributes_names {c : Crate} {pre : Nat → Option Txt} {fl : GFlags} (as : List Attribute) :
    ∃ as' : List Attribute, as'.Sublist (as.filter fun a => a.use_ != .prohibited) ∧
      (newAttributes fl as).1.map (fun a => (attributeMember c pre a).name) = as'.map (attributeName c pre) := by
  induction as with
  | nil => exact ⟨[], .refl _, rfl⟩
  | cons a as ih =>
    obtain ⟨as', h1, h2⟩ := ih
    simp only [newAttributes] at h2
    by_cases hp : a.use_ = .prohibited
    · refine ⟨as', by simpa [hp] using h1, ?_⟩
      simpa [newAttributes, newAttribute, hp] using h2
    · have hf : ((a :: as).filter fun a => a.use_ != .prohibited) = a :: as.filter fun a => a.use_ != .prohibited := by
        simp [hp]
      rw [hf]
      cases hv : a.variant with
      | any w =>
        cases hfl : fl.any with
        | false =>
          refine ⟨as', h1.cons _, ?_⟩
          simpa [newAttributes, newAttribute, hp, hv, hfl] using h2
        | true =>
          have hn : (newAttribute fl a).1 = some ⟨a.ident, none, a.use_ == .optional, none, a.form⟩ := by
            simp [newAttribute, hp, hv, hfl]
          refine ⟨a :: as', h1.cons_cons _, ?_⟩
          simp only [newAttributes, List.filterMap_cons, hn, List.map_cons]
          rw [← h2]
          cases c <;> rfl
      | type_ i =>
        have hn : (newAttribute fl a).1 =
            some ⟨a.ident, some i, a.use_ == .optional && a.default_.isNone, a.default_, a.form⟩ := by
          simp [newAttribute, hp, hv]
        refine ⟨a :: as', h1.cons_cons _, ?_⟩
        simp only [newAttributes, List.filterMap_cons, hn, List.map_cons]
        rw [← h2]
        cases c <;> rfl

theorem pairwise_of_count {α : Type} {p : α → Bool} {l : List α} (h : (l.filter p).length ≤ 1) :
    l.Pairwise fun a b => ¬ (p a = true ∧ p b = true) := by
  induction l with
  | nil => exact .nil
  | cons a l ih =>
    refine .cons (fun b hb hab => ?_) (ih ?_)
    · have : b ∈ l.filter p := List.mem_filter.2 ⟨hb, hab.2⟩
      have hl := List.length_pos_of_mem this
      simp only [List.filter_cons, hab.1, if_true, List.length_cons] at h
      omega
    · cases hpa : p a
      · simpa [hpa] using h
      · simp only [List.filter_cons, hpa, if_true, List.length_cons] at h
        omega

theorem textName_head (c : Crate) : ∃ x r, textName c = x :: r ∧ (x = '#' ∨ x = '$') := by
  cases c <;> exact ⟨_, _, rfl, by decide⟩

section
variable {c : Crate} {pre : Nat → Option Txt} {as : List Attribute} {es : List Element}

theorem Separate.prefixA (_ : Separate c pre as es) {a : Attribute} (ha : a ∈ as) (hq : a.form = .qualified) :
    a.ident.ns ∈ (as.filter fun a => a.form == .qualified).map (·.ident.ns) ++
      (es.filter fun e => e.form == .qualified).map (·.ident.ns) :=
  List.mem_append_left _ (List.mem_map.2 ⟨a, List.mem_filter.2 ⟨ha, by simp [hq]⟩, rfl⟩)

theorem Separate.prefixE (_ : Separate c pre as es) {e : Element} (he : e ∈ es) (hq : e.form = .qualified) :
    e.ident.ns ∈ (as.filter fun a => a.form == .qualified).map (·.ident.ns) ++
      (es.filter fun e => e.form == .qualified).map (·.ident.ns) :=
  List.mem_append_right _ (List.mem_map.2 ⟨e, List.mem_filter.2 ⟨he, by simp [hq]⟩, rfl⟩)

theorem Separate.headA (h : Separate c pre as es) {a : Attribute} (ha : a ∈ as) :
    ∃ x r, tagName pre a.ident a.form = x :: r ∧ x ≠ '@' ∧ x ≠ '#' ∧ x ≠ '$' :=
  tagName_head (h.names.1 a ha) fun hq => (h.prefixes _ (h.prefixA ha hq)).1

theorem Separate.headE (h : Separate c pre as es) {e : Element} (he : e ∈ es) :
    ∃ x r, memberName c pre e = x :: r ∧ x ≠ '@' ∧ (e.variant ≠ .text → x ≠ '#' ∧ x ≠ '$') := by
  unfold memberName
  split
  · rename_i ht
    obtain ⟨x, r, h1, h2⟩ := textName_head c
    exact ⟨x, r, h1, by rcases h2 with rfl | rfl <;> decide, fun hn => absurd ht hn⟩
  · split
    · obtain ⟨x, r, h1, h2, h3⟩ := tagName_head (pre := pre) (f := e.form) (h.names.2 e he)
        fun hq => (h.prefixes _ (h.prefixE he hq)).1
      exact ⟨x, r, h1, h2, fun _ => h3⟩
    · obtain ⟨x, r, h1, h2, h3⟩ := (h.names.2 e he).1
      exact ⟨x, r, h1, h2, fun _ => h3⟩

theorem Separate.elementNames (h : Separate c pre as es) : (es.map (memberName c pre)).Nodup := by
  have h1 : es.Pairwise fun a b => elementKey c a ≠ elementKey c b := List.pairwise_map.1 h.elements
  have h2 := pairwise_of_count h.texts
  refine List.pairwise_map.2 ((h1.and h2).imp_of_mem fun {a b} ha hb hab he => ?_)
  have key : ∀ a ∈ es, ∀ b ∈ es, a.variant = .text → b.variant ≠ .text → memberName c pre a ≠ memberName c pre b := by
    intro a ha b hb hta htb heq
    obtain ⟨x, r, h3, _, h4⟩ := h.headE hb
    have h5 : memberName c pre a = textName c := if_pos hta
    obtain ⟨y, s, h6, h7⟩ := textName_head c
    rw [h3, h5, h6] at heq
    cases heq
    rcases h7 with rfl | rfl
    · exact (h4 htb).1 rfl
    · exact (h4 htb).2 rfl
  by_cases hta : a.variant = .text
  · by_cases htb : b.variant = .text
    · exact hab.2 ⟨by simp [hta], by simp [htb]⟩
    · exact key a ha b hb hta htb he
  · by_cases htb : b.variant = .text
    · exact key b hb a ha htb hta he.symm
    · unfold memberName at he
      rw [if_neg hta, if_neg htb] at he
      by_cases hc : c = .v8
      · rw [if_pos hc, if_pos hc] at he
        refine hab.1 ?_
        unfold elementKey
        rw [if_pos hc, if_pos hc]
        exact tagName_inj h.prefixes (h.names.2 a ha) (h.names.2 b hb) (h.prefixE ha) (h.prefixE hb) he
      · rw [if_neg hc, if_neg hc] at he
        refine hab.1 ?_
        unfold elementKey
        rw [if_neg hc, if_neg hc, he]

theorem Separate.attributeNames (h : Separate c pre as es) :
    ((as.filter fun a => a.use_ != .prohibited).map (attributeName c pre)).Nodup := by
  have h1 := List.pairwise_map.1 h.attributes
  refine List.pairwise_map.2 (h1.imp_of_mem fun {a b} ha hb hab he => hab ?_)
  have ha := (List.mem_filter.1 ha).1
  have hb := (List.mem_filter.1 hb).1
  cases c with
  | quickXml =>
    simp only [attributeName, List.cons.injEq, true_and] at he
    simp [attributeKey, he]
  | v7 => exact tagName_inj h.prefixes (h.names.1 a ha) (h.names.1 b hb) (h.prefixA ha) (h.prefixA hb) he
  | v8 =>
    simp only [attributeName, List.cons.injEq, true_and] at he
    exact tagName_inj h.prefixes (h.names.1 a ha) (h.names.1 b hb) (h.prefixA ha) (h.prefixA hb) he

theorem Separate.apartNames (h : Separate c pre as es) {a : Attribute} {e : Element} (ha : a ∈ as) (he : e ∈ es) :
    attributeName c pre a ≠ memberName c pre e := by
  intro hn
  obtain ⟨x, r, h1, h2, h3⟩ := h.headE he
  rw [h1] at hn
  cases c with
  | quickXml => cases hn; exact h2 rfl
  | v8 => cases hn; exact h2 rfl
  | v7 =>
    have hn : tagName pre a.ident a.form = x :: r := hn
    obtain ⟨y, s, h4, h5⟩ := h.headA ha
    by_cases ht : e.variant = .text
    · have : memberName .v7 pre e = textName .v7 := if_pos ht
      rw [this, ← hn, h4] at h1
      cases h1
      exact h5.2.1 rfl
    · have : memberName .v7 pre e = e.ident.name.str := by simp [memberName, ht]
      rw [this, ← hn] at h1
      cases hf : a.form with
      | qualified =>
        obtain ⟨p, h6, _⟩ := (h.prefixes _ (h.prefixA ha hf)).1
        rw [hf, tagName_qualified h6] at h1
        exact (h.names.2 e he).2 (by rw [h1]; simp)
      | unqualified =>
        rw [hf, tagName_unqualified] at h1
        have := h.apart rfl a ha e he h1.symm
        rw [hf] at this
        cases this

/-- The name of the member for the content is not the name of an attribute. -/
theorem Separate.content (h : Separate c pre as es) {a : Attribute} (ha : a ∈ as) (T : Types) (s i : Option Ident) :
    attributeName c pre a ≠ contentName c T s i := by
  have hc : ∃ x r, contentName c T s i = x :: r ∧ (x = '#' ∨ x = '$') := by
    unfold contentName
    cases c with
    | quickXml => cases s <;> exact ⟨_, _, rfl, by decide⟩
    | v7 => exact ⟨_, _, rfl, by decide⟩
    | v8 =>
      simp only
      split <;> exact ⟨_, _, rfl, by decide⟩
  obtain ⟨x, r, h1, h2⟩ := hc
  rw [h1]
  intro hn
  cases c with
  | quickXml => cases hn; rcases h2 with h2 | h2 <;> exact absurd h2 (by decide)
  | v8 => cases hn; rcases h2 with h2 | h2 <;> exact absurd h2 (by decide)
  | v7 =>
    obtain ⟨y, s, h4, h5⟩ := h.headA ha
    have hn : tagName pre a.ident a.form = x :: r := hn
    rw [h4] at hn
    cases hn
    rcases h2 with rfl | rfl
    · exact h5.2.1 rfl
    · exact h5.2.2 rfl

end

theorem newElements_mem {fl : GFlags} {T : Types} {fuel : Nat} {m b : Bool} {es : List Element} {ds : List DElement}
    (h : newElements fl T fuel m es = some (ds, b)) :
    (∀ d ∈ ds, ∃ e ∈ es, ∃ x, newElement fl T fuel m e = some (some d, x)) ∧
    ∀ e ∈ es, ∃ o x, newElement fl T fuel m e = some (o, x) ∧ ∀ d, o = some d → d ∈ ds := by
  induction es generalizing ds b with
  | nil => cases h; simp
  | cons e es ih =>
    unfold newElements at h
    split at h
    · rename_i o a ds' b' h1 h2
      cases h
      obtain ⟨h3, h4⟩ := ih h2
      constructor
      · intro d hd
        rcases List.mem_append.1 hd with hd | hd
        · have : o = some d := by simpa using hd
          exact ⟨e, by simp, a, by rw [h1, this]⟩
        · obtain ⟨e', h5, h6⟩ := h3 d hd
          exact ⟨e', by simp [h5], h6⟩
      · intro e' he
        rcases List.mem_cons.1 he with rfl | he
        · exact ⟨o, a, h1, fun d hd => List.mem_append_left _ (by simp [hd])⟩
        · obtain ⟨o', x, h5, h6⟩ := h4 e' he
          exact ⟨o', x, h5, fun d hd => List.mem_append_right _ (h6 d hd)⟩
    · cases h

/-- What is generated for a complex type that is not mixed: an enum with the elements as variants, or a struct with the
attributes and nothing else, with a content, or with the elements. -/
def Shape (fl : GFlags) (T : Types) (fuel : Nat) (ct : Complex) (cd : CData) : Prop :=
  (∃ els a b m x, cd = .enum_ els a b ∧ newElements fl T fuel m (elementsOf T ct) = some (els, x)) ∨
  ∃ mode b cont, cd = .struct_ mode (newAttributes fl ct.attributes).1 b cont ∧
    ((∃ a, mode = .empty a) ∨ (∃ s, mode = .content ct.min ct.max s) ∨
      ∃ els a m x, (mode = .all els a ∨ mode = .sequence els a) ∧
        newElements fl T fuel m (elementsOf T ct) = some (els, x))

theorem newStruct_shape {fl : GFlags} {T : Types} {fuel : Nat} {ct : Complex} {cd : CData} {all : Bool} {mm : MixedMode}
    {es : List Element} (hm : mm ≠ .complex) (he : es = elementsOf T ct)
    (h : newStruct fl T fuel all mm ct.min ct.max ct.attributes es = some cd) : Shape fl T fuel ct cd := by
  unfold newStruct at h
  split at h
  · cases h
  · rename_i els a hels
    subst he
    cases h
    refine Or.inr ?_
    unfold structData
    have hg : ∀ a', groupMode all els a' = .all els a' ∨ groupMode all els a' = .sequence els a' := by
      intro a'; cases all <;> simp [groupMode]
    simp only [hm, if_false]
    split
    · refine ⟨_, _, _, rfl, ?_⟩
      split
      · exact Or.inl ⟨_, rfl⟩
      · exact Or.inr (Or.inr ⟨els, _, _, _, hg _, hels⟩)
    · split
      · exact ⟨_, _, _, rfl, Or.inl ⟨_, rfl⟩⟩
      · exact ⟨_, _, _, rfl, Or.inr (Or.inl ⟨_, rfl⟩)⟩

theorem newStruct_shape_nil {fl : GFlags} {T : Types} {fuel : Nat} {ct : Complex} {cd : CData} {all : Bool} {mm : MixedMode}
    (hm : mm ≠ .complex) (h : newStruct fl T fuel all mm ct.min ct.max ct.attributes [] = some cd) :
    Shape fl T fuel ct cd := by
  cases h
  refine Or.inr ?_
  unfold structData
  simp only [hm, if_false, if_true, or_true]
  split <;> exact ⟨_, _, _, rfl, Or.inl ⟨_, rfl⟩⟩

theorem newEnum_shape {fl : GFlags} {T : Types} {fuel : Nat} {ct : Complex} {cd : CData} {mm : MixedMode}
    {es : List Element} (hm : mm ≠ .complex) (he : es = elementsOf T ct)
    (h : newEnum fl T fuel mm ct.min ct.max ct.attributes es = some cd) : Shape fl T fuel ct cd := by
  unfold newEnum at h
  split at h
  · cases h
  · rename_i els a hels
    subst he
    cases h
    unfold enumData
    simp only [hm, if_false]
    split
    · exact Or.inl ⟨_, _, _, _, _, rfl, hels⟩
    · refine Or.inr ?_
      split
      · exact ⟨_, _, _, rfl, Or.inl ⟨_, rfl⟩⟩
      · exact ⟨_, _, _, rfl, Or.inr (Or.inl ⟨_, rfl⟩)⟩

theorem newComplex_shape {fl : GFlags} {T : Types} {fuel : Nat} {ct : Complex} {cd : CData}
    (hm : ct.isMixed = false ∨ fl.mixed = false) (h : newComplex fl T fuel ct = some cd) : Shape fl T fuel ct cd := by
  have hmm : mixedMode fl ct.isMixed .complex ≠ .complex := by
    rcases hm with hm | hm <;> cases hb : ct.isMixed <;> simp [mixedMode, hm, hb] <;> simp_all
  unfold newComplex at h
  cases hc : (ct.content.bind fun i => (getResolvedType T i).map fun ty => (ty.variant, i)) with
  | none =>
    simp only [hc] at h
    exact newStruct_shape_nil hmm h
  | some p =>
    obtain ⟨v, i⟩ := p
    have hv : ((ct.content.bind (getResolvedType T)).map MetaType.variant : Option Variant) = some v := by
      cases h1 : ct.content with
      | none => rw [h1] at hc; cases hc
      | some j =>
        rw [h1] at hc
        cases h2 : getResolvedType T j with
        | none => simp [h2] at hc
        | some ty =>
          simp [h2] at hc ⊢
          exact hc.1
    simp only [hc] at h
    have simple : ∀ {cd : CData} {i : Ident}, newSimple fl i ct.min ct.max ct.attributes = cd → Shape fl T fuel ct cd := by
      intro cd i h
      subst h
      exact Or.inr ⟨_, _, _, rfl, Or.inr (Or.inl ⟨_, rfl⟩)⟩
    cases v with
    | all g => exact newStruct_shape hmm (by simp [elementsOf, hv]) h
    | choice g => exact newEnum_shape hmm (by simp [elementsOf, hv]) h
    | sequence g => exact newStruct_shape hmm (by simp [elementsOf, hv]) h
    | buildIn _ => exact simple (Option.some.inj h)
    | union _ => exact simple (Option.some.inj h)
    | enumeration _ => exact simple (Option.some.inj h)
    | reference _ => exact simple (Option.some.inj h)
    | simple _ => exact simple (Option.some.inj h)
    | custom _ => exact simple (Option.some.inj h)
    | dynamic _ => exact newStruct_shape_nil hmm h
    | complex _ => exact newStruct_shape_nil hmm h

/-- **C80** (partial: not for the members of mixed types with support for mixed types, see `C80_mixed_content_name`; for
`quick-xml` and `serde-xml-rs` 0.7 more has to be different in the schema than in documents, see `C80_same_local_name` and
`C80_attribute_and_element`). The members of the struct, or the variants of the enum, generated for a complex type have
different names. -/
theorem C80_names_distinct_partial (c : Crate) (pre : Nat → Option Txt) (cn : Txt) (fl : GFlags) (T : Types) (fuel : Nat)
    (ct : Complex) (ms : List Member) (hs : Separate c pre ct.attributes (elementsOf T ct))
    (hm : ct.isMixed = false ∨ fl.mixed = false) (h : members c pre cn fl T fuel ct = some ms) :
    (ms.map (·.name)).Nodup := by
  unfold members at h
  cases hcd : newComplex fl T fuel ct with
  | none => rw [hcd] at h; cases h
  | some cd =>
    rw [hcd] at h
    have els_nodup : ∀ {m x els}, newElements fl T fuel m (elementsOf T ct) = some (els, x) →
        (els.map (elementName c pre cn)).Nodup := by
      intro m x els hels
      obtain ⟨es', h1, h2⟩ := newElements_names (c := c) (pre := pre) (cn := cn) hels
      rw [h2]
      exact hs.elementNames.sublist (h1.map _)
    obtain ⟨as', ha1, ha2⟩ := newAttributes_names (c := c) (pre := pre) (fl := fl) ct.attributes
    have ha3 : (as'.map (attributeName c pre)).Nodup := hs.attributeNames.sublist (ha1.map _)
    have ha4 : ∀ a ∈ as', a ∈ ct.attributes := fun a h => (List.mem_filter.1 (ha1.subset h)).1
    rcases newComplex_shape hm hcd with ⟨els, a, b, m, x, rfl, hels⟩ | ⟨mode, b, cont, rfl, hmode⟩
    · cases h
      simpa [List.map_map, Function.comp_def] using els_nodup hels
    · cases h
      simp only [List.map_append, List.map_map, Function.comp_def, ha2]
      rcases hmode with ⟨a, rfl⟩ | ⟨s, rfl⟩ | ⟨els, a, m, x, hmode, hels⟩
      · simpa [modeMembers] using ha3
      · simp only [modeMembers, contentMember]
        split
        · simpa using ha3
        · refine List.nodup_append.2 ⟨ha3, by simp, ?_⟩
          intro n hn n' hn'
          obtain ⟨a, h1, rfl⟩ := List.mem_map.1 hn
          simp only [List.map_cons, List.map_nil, List.mem_singleton] at hn'
          rw [hn']
          exact hs.content (ha4 a h1) _ _ _
      · have : modeMembers c pre cn T ct.content mode = els.map (elementMember c pre cn) := by
          rcases hmode with rfl | rfl <;> rfl
        rw [this]
        simp only [List.map_map, Function.comp_def, elementMember]
        refine List.nodup_append.2 ⟨ha3, els_nodup hels, ?_⟩
        intro n hn n' hn'
        obtain ⟨a, h1, rfl⟩ := List.mem_map.1 hn
        obtain ⟨es', h2, h3⟩ := newElements_names (c := c) (pre := pre) (cn := cn) hels
        have hn' : n' ∈ els.map (elementName c pre cn) := hn'
        rw [h3] at hn'
        obtain ⟨e, h4, rfl⟩ := List.mem_map.1 hn'
        exact hs.apartNames (ha4 a h1) (h2.subset h4)

/-- **C80**. A member without a default stands for something that has to be there: a required attribute, an element that
occurs at least once, or the content, where that occurs at least once. -/
theorem C80_no_default_required (c : Crate) (pre : Nat → Option Txt) (cn : Txt) (fl : GFlags) (T : Types) (fuel : Nat)
    (ct : Complex) (ms : List Member) (hm : ct.isMixed = false ∨ fl.mixed = false)
    (h : members c pre cn fl T fuel ct = some ms) (hd : ∀ es a b, newComplex fl T fuel ct ≠ some (.enum_ es a b))
    (m : Member) (hmem : m ∈ ms) (hdef : m.default_ = false) :
    (∃ a ∈ ct.attributes, a.use_ = .required ∧ m.name = attributeName c pre a) ∨
    (∃ e ∈ elementsOf T ct, 1 ≤ e.min ∧ m.name = memberName c pre e) ∨
    1 ≤ ct.min ∧ ms.getLast? = some m := by
  unfold members at h
  cases hcd : newComplex fl T fuel ct with
  | none => rw [hcd] at h; cases h
  | some cd =>
    rw [hcd] at h
    rcases newComplex_shape hm hcd with ⟨els, a, b, _, x, rfl, hels⟩ | ⟨mode, b, cont, rfl, hmode⟩
    · exact absurd hcd (hd _ _ _)
    · cases h
      rcases List.mem_append.1 hmem with hmem | hmem
      · left
        obtain ⟨d, h1, rfl⟩ := List.mem_map.1 hmem
        simp only [newAttributes, List.mem_filterMap] at h1
        obtain ⟨a, h2, h3⟩ := h1
        refine ⟨a, h2, ?_⟩
        unfold newAttribute at h3
        split at h3
        · cases h3
        · rename_i hp
          cases hv : a.variant with
          | any w =>
            rw [hv] at h3
            simp only at h3
            split at h3
            · cases h3
              simp only [attributeMember, Bool.or_eq_false_iff] at hdef
              cases hu : a.use_ with
              | prohibited => exact absurd hu hp
              | optional => simp [hu] at hdef
              | required => exact ⟨rfl, by cases c <;> rfl⟩
            · cases h3
          | type_ i =>
            rw [hv] at h3
            cases h3
            simp only [attributeMember, Bool.or_eq_false_iff] at hdef
            cases hu : a.use_ with
            | prohibited => exact absurd hu hp
            | optional => cases hdf : a.default_ <;> simp [hu, hdf] at hdef
            | required => exact ⟨rfl, by cases c <;> rfl⟩
      · right
        rcases hmode with ⟨a, rfl⟩ | ⟨s, rfl⟩ | ⟨els, a, _, x, hmode, hels⟩
        · cases hmem
        · right
          simp only [modeMembers, contentMember] at hmem ⊢
          split at hmem
          · cases hmem
          · rename_i hn
            rw [List.mem_singleton] at hmem
            rw [if_neg hn, ← hmem]
            rw [hmem] at hdef
            simp only [Bool.or_eq_false_iff, beq_eq_false_iff_ne] at hdef
            exact ⟨Nat.pos_of_ne_zero hdef.2, by simp⟩
        · left
          have : modeMembers c pre cn T ct.content mode = els.map (elementMember c pre cn) := by
            rcases hmode with rfl | rfl <;> rfl
          rw [this] at hmem
          obtain ⟨d, h1, rfl⟩ := List.mem_map.1 hmem
          obtain ⟨e, h2, y, h3⟩ := (newElements_mem hels).1 d h1
          refine ⟨e, h2, ?_, elementName_eq h3⟩
          refine Nat.pos_of_ne_zero fun h0 => ?_
          have ho : d.occurs = .optional ∨ d.occurs = fromOccurs e.min e.max := by
            unfold newElement at h3
            split at h3
            · cases h3
            · split at h3
              · split at h3
                · cases h3; simp
                · cases h3
              · cases h3; simp
              · split at h3
                · cases h3
                  simp only
                  split <;> simp
                · cases h3
          have hne : fromOccurs e.min e.max ≠ .none := by
            intro hc
            unfold newElement at h3
            rw [if_pos hc] at h3
            cases h3
          have hopt : d.occurs = .optional ∨ d.occurs = .dynamicList := by
            rcases ho with ho | ho
            · exact Or.inl ho
            · rw [ho]
              rw [h0] at hne ⊢
              unfold fromOccurs at hne ⊢
              split <;> simp_all
              split <;> simp_all
          simp only [elementMember, elementDefault] at hdef
          rcases hopt with ho | ho <;> cases c <;> simp [ho, arrayToVec] at hdef

/-- **C80**. A required attribute without a default value, and an element that occurs exactly once (and is not a choice that
can be matched with nothing), have a member without a default: that they are missing is noticed. -/
theorem C80_required_no_default_partial (c : Crate) (pre : Nat → Option Txt) (cn : Txt) (fl : GFlags) (T : Types) (fuel : Nat)
    (ct : Complex) (ms : List Member) (hm : ct.isMixed = false ∨ fl.mixed = false)
    (h : members c pre cn fl T fuel ct = some ms) (hd : ∀ es a b, newComplex fl T fuel ct ≠ some (.enum_ es a b)) :
    (∀ a ∈ ct.attributes, a.use_ = .required → a.default_ = none → (∃ t, a.variant = .type_ t) →
      (⟨attributeName c pre a, false⟩ : Member) ∈ ms) ∧
    ((∃ ds al ats b co, newComplex fl T fuel ct = some (.struct_ (.sequence ds al) ats b co) ∨
        newComplex fl T fuel ct = some (.struct_ (.all ds al) ats b co)) →
      ∀ e ∈ elementsOf T ct, e.min = 1 → e.max = .bounded 1 →
        ∀ i mode, e.variant = .type_ i mode → isOptionalChoice T fuel i = some false →
          (⟨memberName c pre e, false⟩ : Member) ∈ ms) := by
  unfold members at h
  cases hcd : newComplex fl T fuel ct with
  | none => rw [hcd] at h; cases h
  | some cd =>
    rw [hcd] at h
    rcases newComplex_shape hm hcd with ⟨els, a, b, _, x, rfl, hels⟩ | ⟨mode, b, cont, rfl, hmode⟩
    · exact absurd hcd (hd _ _ _)
    · cases h
      constructor
      · rintro a ha hu hdf ⟨t, hv⟩
        refine List.mem_append_left _ (List.mem_map.2 ⟨⟨a.ident, some t, false, none, a.form⟩, ?_, ?_⟩)
        · exact List.mem_filterMap.2 ⟨a, ha, by simp [newAttribute, hu, hdf, hv]⟩
        · cases c <;> rfl
      · rintro ⟨ds, al, ats, b', co, hshape⟩ e he h1 h2 i mode' hv ho
        obtain ⟨els, a, m, x, hmode, hels⟩ : ∃ els a m x, (mode = .all els a ∨ mode = .sequence els a) ∧
            newElements fl T fuel m (elementsOf T ct) = some (els, x) := by
          rcases hmode with ⟨a, rfl⟩ | ⟨s, rfl⟩ | h
          · rcases hshape with h | h <;> cases h
          · rcases hshape with h | h <;> cases h
          · exact h
        have : modeMembers c pre cn T ct.content mode = els.map (elementMember c pre cn) := by
          rcases hmode with rfl | rfl <;> rfl
        rw [this]
        obtain ⟨o, y, h3, h4⟩ := (newElements_mem hels).2 e he
        have hs : fromOccurs e.min e.max = .single := by rw [h1, h2]; rfl
        have h5 := h3
        unfold newElement at h3
        rw [if_neg (by rw [hs]; simp), hv] at h3
        simp only [hs, if_true, ho] at h3
        split at h3
        · rename_i opt dyn hopt hdyn
          cases hopt
          cases h3
          refine List.mem_append_right _ (List.mem_map.2 ⟨_, h4 _ rfl, ?_⟩)
          simp only [elementMember, elementName_eq h5]
          cases c <;> rfl
        · cases h3

/-! ## Examples -/

def elIn (ns : Nat) (name : String) (mn : Nat) (mx : MaxOccurs) : Element :=
  ⟨⟨ns, .named name.toList⟩, .type_ (tid "string") .element, .qualified, ⟨false, false, true, false, false⟩, mn, mx, none, []⟩

def attrIn (name : String) (u : Use) : Attribute :=
  ⟨nm name, .type_ (tid "string"), u, .unqualified, none, none, [], none⟩

def plain : GFlags := ⟨false, true, false, false, false⟩

/-- Namespaces `1` and `2` have the prefixes `a` and `b`. -/
def prefixes : Nat → Option Txt
  | 1 => some ['a']
  | 2 => some ['b']
  | _ => none

def table (g : Group) : Types := [(tid "string", .new (.buildIn .string)), (tid "Content", .new (.sequence g))]

def typeWith (mn : Nat) (mx : MaxOccurs) (mixed : Bool) (as : List Attribute) : Complex :=
  ⟨.none, some (tid "Content"), mn, mx, false, mixed, as⟩

instance (n : Txt) : Decidable (NCName n) :=
  match n with
  | [] => isFalse fun h => by obtain ⟨⟨x, r, h, _⟩, _⟩ := h; cases h
  | x :: r =>
    decidable_of_iff ((x ≠ '@' ∧ x ≠ '#' ∧ x ≠ '$') ∧ ':' ∉ x :: r)
      ⟨fun h => ⟨⟨x, r, rfl, h.1⟩, h.2⟩, fun h => by
        obtain ⟨⟨y, s, h1, h2⟩, h3⟩ := h
        cases h1
        exact ⟨h2, h3⟩⟩

theorem prefixesOk_of {ns : List Nat} (h : ∀ n ∈ ns, n = 1 ∨ n = 2) : PrefixesOk prefixes ns := by
  intro n hn
  refine ⟨?_, ?_⟩
  · rcases h n hn with rfl | rfl
    · exact ⟨_, rfl, by decide⟩
    · exact ⟨_, rfl, by decide⟩
  · intro m hm he
    rcases h n hn with rfl | rfl <;> rcases h m hm with rfl | rfl <;> first | rfl | simp [prefixes] at he

def orderGroup : Group := ⟨false, [elIn 1 "id" 1 (.bounded 1), elIn 1 "note" 0 (.bounded 1), elIn 1 "item" 1 .unbounded]⟩

def orderType : Complex := typeWith 1 (.bounded 1) false [attrIn "lang" .optional, attrIn "key" .required]

/-- An attribute and elements of a struct for `serde-xml-rs` 0.8, and for `quick-xml`. -/
example : members .v8 prefixes "content".toList plain (table orderGroup) 9 orderType =
    some [⟨"@lang".toList, true⟩, ⟨"@key".toList, false⟩, ⟨"a:id".toList, false⟩, ⟨"a:note".toList, true⟩,
      ⟨"a:item".toList, true⟩] := by decide +kernel

example : members .quickXml prefixes "content".toList plain (table orderGroup) 9 orderType =
    some [⟨"@lang".toList, true⟩, ⟨"@key".toList, false⟩, ⟨"id".toList, false⟩, ⟨"note".toList, true⟩,
      ⟨"item".toList, true⟩] := by decide +kernel

theorem order_separate (c : Crate) : Separate c prefixes orderType.attributes (elementsOf (table orderGroup) orderType) := by
  have he : elementsOf (table orderGroup) orderType = orderGroup.elements := by decide +kernel
  rw [he]
  refine ⟨?_, ?_, ?_, ?_, ⟨?_, ?_⟩, prefixesOk_of ?_⟩
  · cases c <;> decide +kernel
  · cases c <;> decide +kernel
  · intro _; decide +kernel
  · decide +kernel
  · decide +kernel
  · decide +kernel
  · decide +kernel

/-- The hypotheses of `C80_names_distinct_partial` are met. -/
example (c : Crate) (ms : List Member)
    (h : members c prefixes "content".toList plain (table orderGroup) 9 orderType = some ms) : (ms.map (·.name)).Nodup :=
  C80_names_distinct_partial c prefixes _ plain _ 9 orderType ms (order_separate c) (Or.inl rfl) h

/-- The hypotheses of `C80_no_default_required` are met by the member `id`. -/
example : (∃ a ∈ orderType.attributes, a.use_ = .required ∧ "id".toList = attributeName .quickXml prefixes a) ∨
    (∃ e ∈ elementsOf (table orderGroup) orderType, 1 ≤ e.min ∧ "id".toList = memberName .quickXml prefixes e) ∨
    1 ≤ orderType.min ∧ (members .quickXml prefixes "content".toList plain (table orderGroup) 9 orderType).bind
      List.getLast? = some ⟨"id".toList, false⟩ := by
  have h : members .quickXml prefixes "content".toList plain (table orderGroup) 9 orderType =
      some [⟨"@lang".toList, true⟩, ⟨"@key".toList, false⟩, ⟨"id".toList, false⟩, ⟨"note".toList, true⟩,
        ⟨"item".toList, true⟩] := by decide +kernel
  rcases C80_no_default_required .quickXml prefixes "content".toList plain (table orderGroup) 9 orderType _ (Or.inl rfl) h
    (fun es a b hc => by
      have h' : (match newComplex plain (table orderGroup) 9 orderType with
        | some (.enum_ _ _ _) => true | _ => false) = false := by decide +kernel
      rw [hc] at h'; cases h') ⟨"id".toList, false⟩ (by decide) rfl with h | h | h
  · exact Or.inl h
  · exact Or.inr (Or.inl h)
  · exact absurd h.2 (by decide)

def isSequence : Option CData → Bool
  | some (.struct_ (.sequence _ _) _ _ _) => true
  | _ => false

/-- The hypotheses of `C80_required_no_default_partial` are met by the attribute `key` and the element `id`. -/
example (c : Crate) (ms : List Member)
    (h : members c prefixes "content".toList plain (table orderGroup) 9 orderType = some ms) :
    (⟨attributeName c prefixes (attrIn "key" .required), false⟩ : Member) ∈ ms ∧
    (⟨memberName c prefixes (elIn 1 "id" 1 (.bounded 1)), false⟩ : Member) ∈ ms := by
  have hs : isSequence (newComplex plain (table orderGroup) 9 orderType) = true := by decide +kernel
  have he : elementsOf (table orderGroup) orderType = orderGroup.elements := by decide +kernel
  obtain ⟨h1, h2⟩ := C80_required_no_default_partial c prefixes _ plain _ 9 orderType ms (Or.inl rfl) h
    (fun es a b hc => by rw [hc] at hs; cases hs)
  refine ⟨h1 _ (by simp [orderType, typeWith]) rfl rfl ⟨_, rfl⟩, h2 ?_ _ ?_ rfl rfl (tid "string") .element rfl
    (by decide +kernel)⟩
  · cases hn : newComplex plain (table orderGroup) 9 orderType with
    | none => rw [hn] at hs; cases hs
    | some cd =>
      rw [hn] at hs
      cases cd with
      | enum_ _ _ _ => cases hs
      | struct_ mode ats b co =>
        cases mode with
        | sequence ds al => exact ⟨ds, al, ats, b, co, Or.inl rfl⟩
        | _ => cases hs
  · rw [he]; simp [orderGroup]

/-! ## Findings -/

def twoGroup : Group := ⟨false, [elIn 1 "id" 1 (.bounded 1), elIn 2 "id" 1 (.bounded 1)]⟩

/-- **C80**, finding: for `quick-xml` and `serde-xml-rs` 0.7 the elements `id` of two namespaces get members with the same
name, which is rejected when the generated code is compiled. For `serde-xml-rs` 0.8 the members are different. -/
theorem C80_same_local_name (c : Crate) (hc : c ≠ .v8) :
    Separate .v8 prefixes [] (elementsOf (table twoGroup) (typeWith 1 (.bounded 1) false [])) ∧
    ∃ ms, members c prefixes "content".toList plain (table twoGroup) 9 (typeWith 1 (.bounded 1) false []) = some ms ∧
      ¬ (ms.map (·.name)).Nodup := by
  have he : elementsOf (table twoGroup) (typeWith 1 (.bounded 1) false []) = twoGroup.elements := by decide +kernel
  rw [he]
  refine ⟨⟨?_, ?_, ?_, ?_, ⟨?_, ?_⟩, prefixesOk_of ?_⟩, [⟨"id".toList, false⟩, ⟨"id".toList, false⟩], ?_, by decide⟩
  · decide +kernel
  · decide +kernel
  · intro h; cases h
  · decide +kernel
  · decide +kernel
  · decide +kernel
  · decide +kernel
  · cases c with
    | v8 => exact absurd rfl hc
    | _ => decide +kernel

/-- **C80**, finding: for `serde-xml-rs` 0.7 an attribute and an element with the same name get members with the same name. -/
theorem C80_attribute_and_element :
    members .v7 prefixes "content".toList plain (table orderGroup) 9 (typeWith 1 (.bounded 1) false [attrIn "id" .required]) =
      some [⟨"id".toList, false⟩, ⟨"id".toList, false⟩, ⟨"note".toList, true⟩, ⟨"item".toList, true⟩] := by
  decide +kernel

/-- **C80**, finding: with support for mixed types, the member for the content of a mixed type that is repeated has the empty
name for `serde-xml-rs` 0.8, and the name of the field for the others. No document has an element with the empty name. -/
theorem C80_mixed_content_name :
    members .v8 prefixes "content".toList ⟨false, true, true, false, false⟩ (table orderGroup) 9
      (typeWith 0 .unbounded true []) = some [⟨"#text".toList, true⟩, ⟨[], true⟩] ∧
    members .quickXml prefixes "content".toList ⟨false, true, true, false, false⟩ (table orderGroup) 9
      (typeWith 0 .unbounded true []) = some [⟨"$text".toList, true⟩, ⟨"content".toList, true⟩] := by
  constructor <;> decide +kernel

/-- **C80**, finding: an element that has to occur at least twice gets a member with a default, so that documents without it
are accepted. -/
theorem C80_required_list_has_default (c : Crate) :
    members c (fun _ => none) "content".toList plain (table ⟨false, [elIn 1 "item" 2 .unbounded]⟩) 9
      (typeWith 1 (.bounded 1) false []) = some [⟨"item".toList, true⟩] := by
  cases c <;> decide +kernel

def choiceTable : Types :=
  [(tid "string", .new (.buildIn .string)), (tid "Content", .new (.choice ⟨false, [elIn 1 "a" 0 (.bounded 1), elIn 1 "b" 1 (.bounded 1)]⟩)),
   (tid "Doc", .new (.complex (typeWith 1 (.bounded 1) false [])))]

/-- **C80**, finding: the content of a type with a choice that can be matched with nothing gets a member without a default,
so that the empty element, which is valid, is rejected. -/
theorem C80_empty_choice_rejected (P : Lex) (c : Crate) :
    Valid P choiceTable (.value (tid "Doc") none [] []) ∧
    ∃ n, members c prefixes "content".toList plain choiceTable 9 (typeWith 1 (.bounded 1) false []) = some [⟨n, false⟩] := by
  constructor
  · refine .complexValue (k := 1) (g := tid "Content") (c := typeWith 1 (.bounded 1) false [])
      (ty := .new (.complex (typeWith 1 (.bounded 1) false []))) (by decide +kernel) rfl rfl ⟨?_, ?_⟩ ?_ ?_ ?_
    · intro a ha; cases ha
    · intro n v h; cases h
    · intro a ha; cases ha
    · exact ⟨Nat.le_refl _, fun b hb => by cases hb; exact Nat.le_refl _⟩
    · have : Valid P choiceTable (.group (tid "Content") []) :=
        .choice (e := elIn 1 "a" 0 (.bounded 1)) (k := 0)
          (ty := .new (.choice ⟨false, [elIn 1 "a" 0 (.bounded 1), elIn 1 "b" 1 (.bounded 1)]⟩))
          (by decide +kernel) rfl (by simp) ⟨Nat.le_refl _, fun b hb => Nat.zero_le _⟩ .zero
      exact .oneMore this .noTimes
  · cases c
    · exact ⟨"$value".toList, by decide +kernel⟩
    · exact ⟨"$value".toList, by decide +kernel⟩
    · exact ⟨"#content".toList, by decide +kernel⟩

def listTable : Types :=
  [(tid "string", .new (.buildIn .string)), (tid "Content", .new (.reference ⟨tid "string", false, 0, .unbounded⟩)),
   (tid "Doc", .new (.complex (typeWith 1 (.bounded 1) false [])))]

/-- **C80**, finding: a content that is a list gets a member without a default, although the empty list is valid and written
as an empty text. (For strings, where the same holds, the member has a default.) -/
theorem C80_empty_list_rejected (P : Lex) (hP : P.words [] = []) (c : Crate) :
    Valid P listTable (.value (tid "Doc") none [] [.text []]) ∧
    ∃ n, members c prefixes "content".toList plain listTable 9 (typeWith 1 (.bounded 1) false []) = some [⟨n, false⟩] := by
  constructor
  · refine .simpleValue (g := tid "Content") (c := typeWith 1 (.bounded 1) false [])
      (ty := .new (.complex (typeWith 1 (.bounded 1) false []))) (by decide +kernel) rfl rfl ⟨?_, ?_⟩ ?_ ?_
    · intro a ha; cases ha
    · intro n v h; cases h
    · intro a ha; cases ha
    · refine .listText (r := ⟨tid "string", false, 0, .unbounded⟩)
        (ty := .new (.reference ⟨tid "string", false, 0, .unbounded⟩)) (by decide +kernel) rfl (fun h => by cases h.1) ?_ ?_
      · rw [hP]; exact ⟨Nat.le_refl _, fun b hb => by cases hb⟩
      · rw [hP]; intro w hw; cases hw
  · cases c
    · exact ⟨"$text".toList, by decide +kernel⟩
    · exact ⟨"$value".toList, by decide +kernel⟩
    · exact ⟨"#text".toList, by decide +kernel⟩

end Verif.Generate.Serde

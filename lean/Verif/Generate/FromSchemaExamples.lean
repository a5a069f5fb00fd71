import Verif.Generate.FromSchema
import Verif.Generate.DocumentsExamples
/-!
# A document that the code generated from its schema reads: an example (C72)
-/
namespace Verif.Generate

open Verif.Meta Verif.Opt Verif.Interp
open Verif.Occurs (MaxOccurs Allows)
open Verif.Rt hiding Node
open Verif.Gen
open Verif.Gen.Tab

/-! ## The schema

    <xs:element name="order" type="Order"/>
    <xs:complexType name="Order">
      <xs:sequence>
        <xs:element name="name" type="Text"/>
        <xs:choice minOccurs="0" maxOccurs="unbounded">
          <xs:element name="note" type="xs:string"/>
          <xs:element name="order" type="Order"/>
        </xs:choice>
      </xs:sequence>
      <xs:attribute name="id" type="xs:string" use="required"/>
    </xs:complexType>
-/

def orderElement : Ident := ⟨1, 0, .named "order".toList, .element⟩

def declared (name type : String) : Part :=
  .elem ⟨nm name, tid type, .qualified, none, 1, .bounded 1, []⟩

def orderContent : Top :=
  ⟨.sequence, nm "content", tid "OrderContent", none, 1, .bounded 1,
    [declared "name" "Text", .group .choice (nm "parts") (tid "Part") none 0 .unbounded
      [declared "note" "string", declared "order" "Order"]]⟩

def idAttribute : Attribute :=
  ⟨⟨0, .named "id".toList⟩, .type_ (tid "string"), .required, .unqualified, none, none, [], none⟩

def orderSchema : List Def :=
  [.complex (tid "Order") [idAttribute] (some orderContent), .element orderElement (tid "Order")]

/-- The simple types: `xs:string` and a synonym. -/
def simpleTypes : Types :=
  [(tid "string", .new (.buildIn .string)), (tid "Text", .new (.reference (.new (tid "string"))))]

def schemaTypes (text : String) : Types :=
  ordersWith text ++ [(orderElement, .new (.reference (.new (tid "Order"))))]

theorem orderSchema_interpreted : interpret orderSchema simpleTypes = .ok (schemaTypes "Text") := by rfl

theorem simpleTypes_simple : SimpleTable simpleTypes := by
  intro i v h
  obtain ⟨ty, hg, rfl⟩ := look_iff.1 h
  have := Assoc.mem_of_get hg
  simp only [simpleTypes, List.mem_cons, Prod.mk.injEq, List.not_mem_nil, or_false] at this
  rcases this with ⟨_, rfl⟩ | ⟨_, rfl⟩
  · exact ⟨[], rfl, by simp⟩
  · exact ⟨[tid "string"], rfl, by simp only [List.mem_cons, List.not_mem_nil, or_false]; rintro k rfl; exact ⟨_, rfl⟩⟩

theorem orderSchema_apart : NamesApart simpleTypes orderSchema := by
  refine ⟨by decide +kernel, ?_, by decide +kernel⟩
  have : ∀ d ∈ orderSchema, Assoc.get simpleTypes d.ident = none := by decide +kernel
  rintro d hd ⟨ty, h⟩
  rw [this d hd] at h
  cases h

theorem orderSchema_ok : ∀ d ∈ orderSchema, d.Ok (fun _ => (.sequence, [])) simpleTypes orderSchema := by
  intro d hd
  simp only [orderSchema, List.mem_cons, List.not_mem_nil, or_false] at hd
  rcases hd with rfl | rfl
  · refine ⟨?_, ?_⟩
    · intro a ha t ht
      simp only [List.mem_cons, List.not_mem_nil, or_false] at ha
      subst ha
      cases ht
      exact ⟨_, rfl⟩
    · intro t ht
      cases ht
      refine ⟨by simp [orderContent], by decide +kernel, (by intro k h; cases h), ?_⟩
      simp [orderContent, declared, Interp.Plain, Part.Plain, elemNames]
      decide +kernel
  · intro t ht
    simp only [orderSchema, List.mem_cons, List.not_mem_nil, or_false, Def.element.injEq, reduceCtorEq, false_or] at ht
    exact absurd ht.1 (by decide +kernel)

theorem string_known (s : Txt) : Valid anyText simpleTypes (.text (tid "string") s) :=
  .builtInText (ty := .new (.buildIn .string)) (b := .string) rfl rfl trivial

theorem text_known (s : Txt) : Valid anyText simpleTypes (.text (tid "Text") s) :=
  .refText (ty := .new (.reference (.new (tid "string")))) (r := .new (tid "string")) rfl rfl rfl rfl (string_known s)

theorem one_element {V : Meaning} {w : AnyMeta → Node → Prop} {name type : String} {x as kids}
    (h : V (tid type) x as kids) : (declared name type).lang V w [.elem (nm name) x as kids] := by
  rw [declared, Part.lang]
  exact ⟨[[.elem (nm name) x as kids]], once, rfl, fun i hi => by
    simp only [List.mem_cons, List.not_mem_nil, or_false] at hi
    subst hi
    exact ⟨x, as, kids, rfl, h⟩⟩

/-- The order of C71 is valid for the element `order` of the schema. -/
theorem order_schemaValid : SchemaValid anyText simpleTypes orderSchema orderElement none orderAttrs orderKids := by
  refine ⟨3, .element (target := tid "Order") (by simp [orderSchema])
    (.complex (decl := [idAttribute]) (content := some orderContent) (by simp [orderSchema]) ⟨⟨?_, ?_⟩, ?_⟩ ?_)⟩
  · intro a ha _ _
    simp only [List.mem_cons, List.not_mem_nil, or_false] at ha
    subst ha
    exact ⟨"7".toList, by decide +kernel⟩
  · intro n v h
    simp only [orderAttrs, List.mem_cons, Prod.mk.injEq, List.not_mem_nil, or_false] at h
    obtain ⟨rfl, rfl⟩ := h
    exact Or.inl ⟨_, List.mem_cons_self .., rfl, by decide, _, rfl⟩
  · intro a ha t ht v _
    simp only [List.mem_cons, List.not_mem_nil, or_false] at ha
    subst ha
    cases ht
    exact string_known v
  · refine ⟨[orderKids], once, rfl, fun i hi => ?_⟩
    simp only [List.mem_cons, List.not_mem_nil, or_false] at hi
    subst hi
    refine ⟨[_], [_], rfl, one_element (name := "name") (.known (.textValue (text_known _))), [_], [], rfl, ?_, rfl⟩
    rw [Part.lang]
    refine ⟨[[.elem (nm "note") none [] [.text []]]], ⟨Nat.zero_le _, by intro b h; cases h⟩, rfl, fun i hi => ?_⟩
    simp only [List.mem_cons, List.not_mem_nil, or_false] at hi
    subst hi
    exact ⟨_, List.mem_cons_self .., one_element (.known (.textValue (string_known _)))⟩

/-- An order without a name is not. -/
example : ¬ Valid anyText (schemaTypes "Text") (.value orderElement none orderAttrs []) := by
  intro h
  obtain ⟨n, hn⟩ := (C72_table_exact_partial orderSchema_interpreted simpleTypes_simple orderSchema_apart orderSchema_ok
    _ _ _ _).1 h
  have hroot : ∀ n, ¬ ValidWithin anyText simpleTypes orderSchema n (tid "Order") none orderAttrs [] := by
    intro n hn
    cases n with
    | zero => exact hn
    | succ n =>
      cases hn with
      | element h1 _ => simp [orderSchema] at h1; exact absurd h1.1 (by decide +kernel)
      | complex h1 _ h3 =>
        simp [orderSchema] at h1
        obtain ⟨-, rfl⟩ := h1
        obtain ⟨is, ⟨h5, h6⟩, h7, h8⟩ := h3
        rcases is with _ | ⟨a, is⟩
        · simp [orderContent] at h5
        · have ha : a = [] := by
            cases a with
            | nil => rfl
            | cons _ _ => simp at h7
          obtain ⟨b, c, h9, h10, -⟩ := h8 a (List.mem_cons_self ..)
          rw [ha] at h9
          obtain ⟨rfl, rfl⟩ := List.append_eq_nil_iff.1 h9.symm
          rw [declared, Part.lang] at h10
          obtain ⟨js, ⟨j1, _⟩, j2, j3⟩ := h10
          rcases js with _ | ⟨j, js⟩
          · simp at j1
          · obtain ⟨x, as, kids, rfl, -⟩ := j3 j (List.mem_cons_self ..)
            simp at j2
      | extension h1 | restriction h1 => simp [orderSchema] at h1
      | known h1 => exact absurd h1 (undefined_value (by decide +kernel) _ _ _)
  cases n with
  | zero => exact hn
  | succ n =>
    cases hn with
    | element h1 h2 =>
      simp [orderSchema] at h1
      subst h1
      exact hroot n h2
    | complex h1 => simp [orderSchema] at h1; exact absurd h1.1 (by decide +kernel)
    | extension h1 | restriction h1 => simp [orderSchema] at h1
    | known h1 => exact absurd h1 (undefined_value (by decide +kernel) _ _ _)

/-! ## From the schema to the value -/

def schemaSetup : Setup Str := { orderSetup with types := schemaTypes "string" }

theorem simpleTypes_at {i : Ident} {v : Variant} (h : look simpleTypes i = some v) :
    v = .buildIn .string ∨ (i = tid "Text" ∧ v = .reference (.new (tid "string"))) := by
  obtain ⟨ty, hg, rfl⟩ := look_iff.1 h
  have := Assoc.mem_of_get hg
  simp only [simpleTypes, List.mem_cons, Prod.mk.injEq, List.not_mem_nil, or_false] at this
  rcases this with ⟨_, rfl⟩ | ⟨rfl, rfl⟩
  · exact .inl rfl
  · exact .inr ⟨rfl, rfl⟩

theorem simpleTypes_wellFormed : WellFormed simpleTypes := by
  have key : ∀ a b, Rel simpleTypes a b → a = tid "Text" ∧ b = tid "string" := by
    rintro a b ⟨v, h1, h2⟩
    rcases simpleTypes_at h1 with rfl | ⟨rfl, rfl⟩
    · cases h2
    · exact ⟨rfl, h2.symm⟩
  refine ⟨by unfold Assoc.Keyed; decide +kernel, fun i k h => ?_, ?_⟩
  · rw [(key i k (rel_iff.1 (.inr h))).2]
    exact ⟨_, rfl⟩
  · refine noLoop_of_rank _ (fun i => if i = tid "Text" then 1 else 0) fun a b h => ?_
    obtain ⟨rfl, rfl⟩ := key a b (rel_iff.1 h)
    decide +kernel

theorem orderSchema_closed : ClosedSchema simpleTypes orderSchema := by
  intro i target h
  simp only [orderSchema, List.mem_cons, List.not_mem_nil, or_false, Def.element.injEq, reduceCtorEq, false_or] at h
  obtain ⟨-, rfl⟩ := h
  exact .inr ⟨_, List.mem_cons_self .., rfl⟩

/-- The hypotheses of `C72_table_well_formed_partial` hold for the schema. -/
theorem schemaTypes_wellFormed : WellFormed (schemaTypes "Text") :=
  C72_table_well_formed_partial orderSchema_interpreted simpleTypes_simple orderSchema_apart orderSchema_ok
    orderSchema_closed simpleTypes_wellFormed

theorem schemaSetup_acyclic : Acyclic (schemaTypes "string") := by
  have hsyn : ∀ i k, Synonym (schemaTypes "string") i k → (i = tid "Text" ∨ i = orderElement) ∧
      (k = tid "string" ∨ k = tid "Order") := by
    rintro i k ⟨ty, r, hg, hv, hk, _⟩
    have := Assoc.mem_of_get hg
    simp only [schemaTypes, ordersWith, List.cons_append, List.nil_append, List.mem_cons, Prod.mk.injEq,
      List.not_mem_nil, or_false] at this
    rcases this with ⟨_, rfl⟩ | ⟨rfl, rfl⟩ | ⟨_, rfl⟩ | ⟨_, rfl⟩ | ⟨_, rfl⟩ | ⟨rfl, rfl⟩ <;> cases hv
    · exact ⟨.inl rfl, .inl hk.symm⟩
    · exact ⟨.inr rfl, .inr hk.symm⟩
  have hne : ∀ k, (k = tid "string" ∨ k = tid "Order") → (k = tid "Text" ∨ k = orderElement) → False := by
    rintro k (rfl | rfl) (h | h) <;> exact absurd h (by decide +kernel)
  rintro i ⟨k, path, hs, hf⟩
  obtain ⟨h1, h2⟩ := hsyn _ _ hs
  cases hf with
  | here _ => exact hne _ h2 h1
  | step h _ => exact hne _ h2 (hsyn _ _ h).1

theorem schemaSetup_supported : schemaSetup.Supported := supportedCheck_sound _ (by decide +kernel)

theorem schemaSetup_filled : schemaSetup.Filled := filledCheck_sound _ (by decide +kernel)

theorem schemaSetup_shape : schemaSetup.compile.Nested 1 := nestedCheck_sound _ _ (by decide +kernel)

theorem schemaSetup_xsiFree : schemaSetup.XsiFree := by
  intro D hD a ha
  exact Or.inl ((by decide +kernel : ∀ D ∈ schemaSetup.compile.structs, ∀ a ∈ D.attrs, a.name.local_ ∉
    ["schemaLocation".toList, "noNamespaceSchemaLocation".toList, "type".toList, "nil".toList]) D hD a ha)

theorem schemaSetup_reads : schemaSetup.ReadsTexts anyText := fun _ s _ => ⟨⟨s, rfl⟩, _, rfl⟩

theorem names_same (p : Pos) (n : Node) (evs : List Event) (h : Renders orderSetup p n evs) :
    Renders schemaSetup p n evs := by
  have hattrs : ∀ scope l as, AttrsRender orderSetup scope l as → AttrsRender schemaSetup scope l as := by
    intro scope l as h
    induction h with
    | nil => exact .nil
    | xmlns hx _ ih => exact .xmlns hx ih
    | xsi hx hg _ ih => exact .xsi hx hg ih
    | attr hx hm hu hn _ ih => exact .attr hx hm hu hn ih
  induction h with
  | element hn ha hpad _ ih => exact .element hn (hattrs _ _ _ ha) hpad ih
  | text hn ha hl hc => exact .text hn (hattrs _ _ _ ha) hl hc
  | empty hn ha hk => exact .empty hn (hattrs _ _ _ ha) hk

/-- The hypotheses hold for the schema above and its order: from the element `order` of the schema to the value. -/
example : ∃ v, ∀ n, depth v + 1 < n → ∀ rest,
    Drv.run (genEnv posTrack) (de schemaSetup.compile n (.struct 4)).toDeser { helper := {} } (orderDocument ++ rest)
      = .done v rest := by
  obtain ⟨T', h1, h2⟩ := C72_schema_document_read_partial (X := Str) anyText (fun _ => (.sequence, [])) simpleTypes
    (schemaTypes "Text") orderSchema orderSchema_interpreted simpleTypes_simple orderSchema_apart orderSchema_ok
    { resolveTypedefs := true } ⟨anyTypeIdent [], fun _ => .named [], fun _ => []⟩ (by simp [OptFlags.Plain])
    orderSchema_closed simpleTypes_wellFormed (fun _ => trivial) (by simp) (by simp) (by simp) 50 (by decide)
  have h3 : execOptimizer 50 { resolveTypedefs := true } ⟨anyTypeIdent [], fun _ => .named [], fun _ => []⟩
      (schemaTypes "Text") = .ok (schemaTypes "string") := by decide +kernel
  rw [h3] at h1
  cases h1
  exact h2 schemaSetup rfl schemaSetup_supported schemaSetup_filled 1 schemaSetup_shape
    schemaSetup_xsiFree schemaSetup_reads (fun _ _ _ h => h) orderElement 4 (by decide +kernel) (nm "order") _ _
    order_schemaValid _ (names_same _ _ _ orderDocument_renders)

end Verif.Generate

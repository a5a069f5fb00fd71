import Verif.Interp.SchemaTypes
/-!
# Extended types of a schema: an example (C72)

    <xs:complexType name="Entry">
      <xs:sequence><xs:element name="name" type="Text"/></xs:sequence>
    </xs:complexType>
    <xs:complexType name="Person">
      <xs:complexContent><xs:extension base="Entry">
        <xs:sequence><xs:element name="child" type="Person" minOccurs="0" maxOccurs="unbounded"/></xs:sequence>
      </xs:extension></xs:complexContent>
    </xs:complexType>
    <xs:complexType name="Employee">
      <xs:complexContent><xs:extension base="Person">
        <xs:choice><xs:element name="desk" type="Text"/><xs:element name="remote" type="Text"/></xs:choice>
      </xs:extension></xs:complexContent>
    </xs:complexType>
    <xs:element name="employee" type="Employee"/>
-/
namespace Verif.Interp

open Verif.Meta Verif.Opt
open Verif.Occurs (MaxOccurs Allows)

def staffName (n : String) : PropIdent := ⟨0, .named n.toList⟩

def staffElem (name type : String) (min : Nat := 1) (max : MaxOccurs := .bounded 1) : Part :=
  .elem ⟨staffName name, exId type, .qualified, none, min, max, []⟩

def entryTop : Top := ⟨.sequence, staffName "content", exId "EntryContent", none, 1, .bounded 1, [staffElem "name" "Text"]⟩

def personTop : Top :=
  ⟨.sequence, staffName "content", exId "PersonSequence", none, 1, .bounded 1, [staffElem "child" "Person" 0 .unbounded]⟩

def employeeTop : Top :=
  ⟨.choice, staffName "place", exId "EmployeeChoice", none, 1, .bounded 1,
    [staffElem "desk" "Text", staffElem "remote" "Text"]⟩

def staffElement : Ident := ⟨0, 0, .named "employee".toList, .element⟩

def staffSchema : List Def :=
  [.complex (exId "Entry") [] (some entryTop),
   .extension (exId "Person") (exId "Entry") (exId "PersonContent") [] (some personTop),
   .extension (exId "Employee") (exId "Person") (exId "EmployeeContent") [] (some employeeTop),
   .element staffElement (exId "Employee")]

def staffSimple : Types := [(exId "Text", .new (.buildIn .string))]

theorem staff_extensible :
    Extensible staffSchema (exId "Person") (some [staffName "name", staffName "child"]) :=
  .more (base := exId "Entry") (copy := exId "PersonContent") (decl := []) (t := personTop) (ns := [staffName "name"])
    (by simp [staffSchema])
    (.sequence (decl := []) (t := entryTop) (by simp [staffSchema]) ⟨rfl, rfl, rfl⟩) rfl

theorem staff_simple : SimpleTable staffSimple := by
  intro i v h
  obtain ⟨ty, hg, rfl⟩ := look_iff.1 h
  have := Assoc.mem_of_get hg
  simp only [staffSimple, List.mem_cons, Prod.mk.injEq, List.not_mem_nil, or_false] at this
  obtain ⟨_, rfl⟩ := this
  exact ⟨[], rfl, by simp⟩

theorem staff_apart : NamesApart staffSimple staffSchema := by
  refine ⟨by decide +kernel, ?_, by decide +kernel⟩
  have : ∀ d ∈ staffSchema, Assoc.get staffSimple d.ident = none := by decide +kernel
  rintro d hd ⟨ty, h⟩
  rw [this d hd] at h
  cases h

theorem staff_ok : ∀ d ∈ staffSchema, d.Ok (fun _ => (.sequence, [])) staffSimple staffSchema := by
  intro d hd
  simp only [staffSchema, List.mem_cons, List.not_mem_nil, or_false] at hd
  rcases hd with rfl | rfl | rfl | rfl
  · refine ⟨(by intro a ha; cases ha), ?_⟩
    rintro t ⟨⟩
    exact ⟨by simp [entryTop], by decide +kernel, (by intro k h; cases h), by simp [entryTop, staffElem, Plain, Part.Plain]⟩
  · refine ⟨(by intro a ha; cases ha), some [staffName "name"],
      .sequence (decl := []) (t := entryTop) (by simp [staffSchema]) ⟨rfl, rfl, rfl⟩, ?_⟩
    rintro t ⟨⟩
    refine ⟨⟨by simp [personTop], by decide +kernel, (by intro k h; cases h),
      by simp [personTop, staffElem, Plain, Part.Plain]⟩, ?_⟩
    rintro ns ⟨⟩ _
    exact ⟨⟨rfl, rfl, rfl⟩, by decide +kernel⟩
  · refine ⟨(by intro a ha; cases ha), _, staff_extensible, ?_⟩
    rintro t ⟨⟩
    refine ⟨⟨by simp [employeeTop], by decide +kernel, (by intro k h; cases h),
      by simp [employeeTop, staffElem, Plain, Part.Plain]⟩, ?_⟩
    rintro ns ⟨⟩ h
    cases h
  · intro t ht
    simp only [staffSchema, List.mem_cons, List.not_mem_nil, or_false, Def.element.injEq, reduceCtorEq, false_or] at ht
    exact absurd ht.1 (by decide +kernel)

theorem staff_interpreted : ∃ T, interpret staffSchema staffSimple = .ok T := by
  have : (interpret staffSchema staffSimple).isOk = true := by decide +kernel
  cases h : interpret staffSchema staffSimple with
  | ok T => exact ⟨T, rfl⟩
  | error e => rw [h] at this; cases this

theorem staff_one {V : Meaning} {w : AnyMeta → Node → Prop} {name type : String} {min : Nat} {max : MaxOccurs} {x as kids}
    (h : V (exId type) x as kids) (hm : Allows min max 1) :
    (staffElem name type min max).lang V w [.elem (staffName name) x as kids] := by
  rw [staffElem, Part.lang]
  exact ⟨[[.elem (staffName name) x as kids]], hm, rfl, fun i hi => by
    simp only [List.mem_cons, List.not_mem_nil, or_false] at hi
    subst hi
    exact ⟨x, as, kids, rfl, h⟩⟩

theorem staff_text (P : Lex) (hP : ∀ b s, P.builtIn b s) (s : Txt) : Valid P staffSimple (.text (exId "Text") s) :=
  .builtInText (ty := .new (.buildIn .string)) (b := .string) rfl rfl (hP _ _)

/-- An employee named `s` with one child, working remotely. -/
def staffKids (s : Txt) : List Node :=
  [.elem (staffName "name") none [] [.text s],
   .elem (staffName "child") none [] [.elem (staffName "name") none [] [.text s]],
   .elem (staffName "remote") none [] [.text s]]

/-- The hypotheses of `C72_table_exact_partial` hold for a schema with extensions of extensions, and the table accepts a
document with content of all three types. -/
example (P : Lex) (hP : ∀ b s, P.builtIn b s) (s : Txt) : ∃ T, interpret staffSchema staffSimple = .ok T ∧
    Valid P T (.value staffElement none [] (staffKids s)) := by
  obtain ⟨T, hT⟩ := staff_interpreted
  refine ⟨T, hT, (C72_table_exact_partial hT staff_simple staff_apart staff_ok _ _ _ _).2 ⟨4, ?_⟩⟩
  have hattrs : DeclaredAttrs P staffSimple [] [] := by
    refine ⟨⟨by simp, by simp⟩, by simp⟩
  -- one instance of a sequence that occurs once
  have once : ∀ (L : Lang) (ns : List Node), L ns → Repeat 1 (.bounded 1) L ns := fun L ns h => by rwa [repeat_one]
  have hname : ∀ n, Children P (ValidWithin P staffSimple staffSchema (n + 1)) (some entryTop)
      [.elem (staffName "name") none [] [.text s]] := fun n =>
    once _ _ ((concat_one _ _).2 (staff_one (.known (.textValue (staff_text P hP s))) (allows_one.2 rfl)))
  have hentry : ∀ n, ContentOf P (ValidWithin P staffSimple staffSchema (n + 1)) staffSchema (exId "Entry")
      [.elem (staffName "name") none [] [.text s]] := fun n =>
    .own (decl := []) (content := some entryTop) (by simp [staffSchema]) (hname n)
  have hchild : ValidWithin P staffSimple staffSchema 2 (exId "Person") none []
      [.elem (staffName "name") none [] [.text s]] := by
    refine .extension (base := exId "Entry") (copy := exId "PersonContent") (decl := []) (content := some personTop)
      (by simp [staffSchema]) hattrs ?_
    refine .extended (base := exId "Entry") (copy := exId "PersonContent") (decl := []) (content := some personTop)
      (a := [.elem (staffName "name") none [] [.text s]]) (b := []) (by simp [staffSchema]) (hentry 0) ?_
    refine once _ _ ((concat_one _ _).2 ?_)
    rw [staffElem, Part.lang]
    exact ⟨[], ⟨Nat.zero_le _, by intro b h; cases h⟩, rfl, by simp⟩
  refine .element (target := exId "Employee") (by simp [staffSchema]) ?_
  refine .extension (base := exId "Person") (copy := exId "EmployeeContent") (decl := []) (content := some employeeTop)
    (by simp [staffSchema]) hattrs ?_
  refine .extended (base := exId "Person") (copy := exId "EmployeeContent") (decl := []) (content := some employeeTop)
    (a := (staffKids s).take 2) (b := (staffKids s).drop 2) (by simp [staffSchema]) ?_ ?_
  · refine .extended (base := exId "Entry") (copy := exId "PersonContent") (decl := []) (content := some personTop)
      (a := (staffKids s).take 1) (b := [.elem (staffName "child") none [] [.elem (staffName "name") none [] [.text s]]])
      (by simp [staffSchema]) (hentry 1) ?_
    exact once _ _ ((concat_one _ _).2 (staff_one hchild ⟨Nat.zero_le _, by intro b h; cases h⟩))
  · exact once _ _ ⟨_, List.mem_cons_of_mem _ (List.mem_cons_self ..),
      staff_one (.known (.textValue (staff_text P hP s))) (allows_one.2 rfl)⟩

/-- The hypotheses of `C72_second_component_ignored` hold for the same schema: a second type `Person` is passed over. -/
example (decl : List Attribute) (rest : List Def) :
    interpret (staffSchema ++ .complex (exId "Person") decl none :: rest) staffSimple
      = interpret (staffSchema ++ rest) staffSimple := by
  obtain ⟨T, hT⟩ := staff_interpreted
  exact C72_second_component_ignored hT staff_apart staff_ok
    (d := .extension (exId "Person") (exId "Entry") (exId "PersonContent") [] (some personTop))
    (by simp [staffSchema]) rfl rest

/-! ## Restrictions

    <xs:complexType name="Contact">
      <xs:sequence>
        <xs:element name="name" type="Text"/>
        <xs:element name="mail" type="Text" minOccurs="0" maxOccurs="unbounded"/>
        <xs:element name="phone" type="Text" minOccurs="0"/>
      </xs:sequence>
    </xs:complexType>
    <xs:complexType name="Mailed">
      <xs:complexContent><xs:restriction base="Contact">
        <xs:sequence>
          <xs:element name="name" type="Text"/>
          <xs:element name="mail" type="Text" maxOccurs="unbounded"/>
        </xs:sequence>
      </xs:restriction></xs:complexContent>
    </xs:complexType>
    <xs:complexType name="Once">
      <xs:complexContent><xs:restriction base="Mailed">
        <xs:sequence><xs:element name="name" type="Text"/><xs:element name="mail" type="Text"/></xs:sequence>
      </xs:restriction></xs:complexContent>
    </xs:complexType>
    <xs:complexType name="Worker">
      <xs:complexContent><xs:extension base="Once">
        <xs:sequence><xs:element name="desk" type="Text"/></xs:sequence>
      </xs:extension></xs:complexContent>
    </xs:complexType>
-/

def contactDecl (name : String) (min : Nat := 1) (max : MaxOccurs := .bounded 1) : ElementDecl :=
  ⟨staffName name, exId "Text", .qualified, none, min, max, []⟩

def contactTop (type : String) (ds : List ElementDecl) : Top :=
  ⟨.sequence, staffName "content", exId type, none, 1, .bounded 1, ds.map .elem⟩

def contactDecls : List ElementDecl :=
  [contactDecl "name", contactDecl "mail" 0 .unbounded, contactDecl "phone" 0]

def mailedDecls : List ElementDecl := [contactDecl "name", contactDecl "mail" 1 .unbounded]

def onceDecls : List ElementDecl := [contactDecl "name", contactDecl "mail"]

def contactSchema : List Def :=
  [.complex (exId "Contact") [] (some (contactTop "ContactSequence" contactDecls)),
   .restriction (exId "Mailed") (exId "Contact") (exId "MailedContent") [] (some (contactTop "MailedSequence" mailedDecls)),
   .restriction (exId "Once") (exId "Mailed") (exId "OnceContent") [] (some (contactTop "OnceSequence" onceDecls)),
   .extension (exId "Worker") (exId "Once") (exId "WorkerContent") []
     (some (contactTop "WorkerSequence" [contactDecl "desk"]))]

theorem contact_plain (type : String) (ds : List ElementDecl) (h : ds ≠ []) (hn : (ds.map (·.ident)).Nodup) :
    (contactTop type ds).Plain fun _ => (.sequence, []) := by
  refine ⟨by simpa [contactTop] using h, by rw [contactTop, elemNames_elems]; exact hn, (by intro k h; cases h), ?_⟩
  simp only [contactTop]
  clear h hn
  induction ds with
  | nil => trivial
  | cons d ds ih => exact ⟨trivial, ih⟩

theorem contact_apart : NamesApart staffSimple contactSchema := by
  refine ⟨by decide +kernel, ?_, by decide +kernel⟩
  have : ∀ d ∈ contactSchema, Assoc.get staffSimple d.ident = none := by decide +kernel
  rintro d hd ⟨ty, h⟩
  rw [this d hd] at h
  cases h

theorem contact_ok : ∀ d ∈ contactSchema, d.Ok (fun _ => (.sequence, [])) staffSimple contactSchema := by
  intro d hd
  simp only [contactSchema, List.mem_cons, List.not_mem_nil, or_false] at hd
  rcases hd with rfl | rfl | rfl | rfl
  · refine ⟨(by intro a ha; cases ha), ?_⟩
    rintro t ⟨⟩
    exact contact_plain _ _ (by simp [contactDecls]) (by decide +kernel)
  · refine ⟨(by intro a ha; cases ha), _, contactTop "ContactSequence" contactDecls, rfl,
      .complex (decl := []) (by simp [contactSchema]), rfl, rfl, rfl, contactDecls, mailedDecls, rfl, rfl,
      by simp [mailedDecls], by decide +kernel, ⟨1, by decide +kernel⟩, ?_⟩
    intro d₀ h₀ d hd _ _
    simp only [contactDecls, mailedDecls, List.mem_cons, List.not_mem_nil, or_false] at h₀ hd
    rcases h₀ with rfl | rfl | rfl <;> rcases hd with rfl | rfl <;> rfl
  · refine ⟨(by intro a ha; cases ha), _, contactTop "MailedSequence" mailedDecls, rfl,
      .restriction (base := exId "Contact") (copy := exId "MailedContent") (decl := []) (by simp [contactSchema]), rfl, rfl,
      rfl, mailedDecls, onceDecls, rfl, rfl, by simp [onceDecls], by decide +kernel, ⟨2, by decide +kernel⟩, ?_⟩
    intro d₀ h₀ d hd _ _
    simp only [onceDecls, mailedDecls, List.mem_cons, List.not_mem_nil, or_false] at h₀ hd
    rcases h₀ with rfl | rfl <;> rcases hd with rfl | rfl <;> rfl
  · refine ⟨(by intro a ha; cases ha), _,
      .restricted (base := exId "Mailed") (copy := exId "OnceContent") (decl := []) (t := contactTop "OnceSequence" onceDecls)
        (by simp [contactSchema]) ⟨rfl, rfl, rfl⟩, ?_⟩
    rintro t ⟨⟩
    refine ⟨contact_plain _ _ (by simp) (by decide +kernel), ?_⟩
    rintro ns ⟨⟩ _
    exact ⟨⟨rfl, rfl, rfl⟩, by decide +kernel⟩

theorem contact_interpreted : ∃ T, interpret contactSchema staffSimple = .ok T := by
  have : (interpret contactSchema staffSimple).isOk = true := by decide +kernel
  cases h : interpret contactSchema staffSimple with
  | ok T => exact ⟨T, rfl⟩
  | error e => rw [h] at this; cases this

theorem contact_one (P : Lex) (hP : ∀ b s, P.builtIn b s) (s : Txt) (name : String) {min : Nat} {max : MaxOccurs}
    (hm : Allows min max 1) (n : Nat) :
    (Part.elem (contactDecl name min max)).lang (ValidWithin P staffSimple contactSchema (n + 1)) P.anyElement
      [.elem (staffName name) none [] [.text s]] :=
  staff_one (name := name) (type := "Text") (.known (.textValue (staff_text P hP s))) hm

/-- The hypotheses of `C72_table_exact_partial` hold for restrictions of restrictions and their extensions: a worker has a
name, one mail address and a desk, a `Mailed` contact must have a mail address. -/
example (P : Lex) (hP : ∀ b s, P.builtIn b s) (s : Txt) : ∃ T, interpret contactSchema staffSimple = .ok T ∧
    Valid P T (.value (exId "Worker") none []
      [.elem (staffName "name") none [] [.text s], .elem (staffName "mail") none [] [.text s],
       .elem (staffName "desk") none [] [.text s]]) ∧
    ¬ Valid P T (.value (exId "Mailed") none [] [.elem (staffName "name") none [] [.text s]]) := by
  obtain ⟨T, hT⟩ := contact_interpreted
  refine ⟨T, hT, (C72_table_exact_partial hT staff_simple contact_apart contact_ok _ _ _ _).2 ⟨2, ?_⟩, ?_⟩
  · have once : ∀ (L : Lang) (ns : List Node), L ns → Repeat 1 (.bounded 1) L ns := fun L ns h => by rwa [repeat_one]
    refine .extension (base := exId "Once") (copy := exId "WorkerContent") (decl := [])
      (content := some (contactTop "WorkerSequence" [contactDecl "desk"])) (by simp [contactSchema])
      ⟨⟨by simp, by simp⟩, by simp⟩ ?_
    refine .extended (base := exId "Once") (copy := exId "WorkerContent") (decl := [])
      (content := some (contactTop "WorkerSequence" [contactDecl "desk"]))
      (a := [.elem (staffName "name") none [] [.text s], .elem (staffName "mail") none [] [.text s]])
      (b := [.elem (staffName "desk") none [] [.text s]]) (by simp [contactSchema]) ?_
      (once _ _ ((concat_one _ _).2 (contact_one P hP s _ (allows_one.2 rfl) 0)))
    refine .restricted (base := exId "Mailed") (copy := exId "OnceContent") (decl := [])
      (content := some (contactTop "OnceSequence" onceDecls)) (by simp [contactSchema]) (once _ _ ?_)
    exact (concat_two _ _ _).2 ⟨[_], [_], rfl, contact_one P hP s _ (allows_one.2 rfl) 0,
      contact_one P hP s _ (allows_one.2 rfl) 0⟩
  · intro h
    obtain ⟨n, hn⟩ := (C72_table_exact_partial hT staff_simple contact_apart contact_ok _ _ _ _).1 h
    cases n with
    | zero => exact hn
    | succ n =>
      cases hn with
      | element h1 | complex h1 | extension h1 => simp [contactSchema, exId] at h1
      | known h1 => exact absurd h1 (undefined_value (by decide +kernel) _ _ _)
      | restriction h1 _ h3 =>
        simp [contactSchema, exId] at h1
        obtain ⟨-, -, -, rfl⟩ := h1
        have h4 : Repeat 1 (.bounded 1) _ _ := h3
        rw [repeat_one] at h4
        obtain ⟨a, b, h5, h6, h7⟩ := (concat_two _ _ _).1 h4
        have one : ∀ {name : String} {min : Nat} {max : MaxOccurs} {ns : List Node},
            (Part.elem (contactDecl name min max)).lang (ValidWithin P staffSimple contactSchema n) P.anyElement ns →
            ∀ m ∈ ns, ∃ x as kids, m = .elem (staffName name) x as kids := by
          intro name min max ns hl m hm
          rw [contactDecl, Part.lang] at hl
          obtain ⟨is, -, rfl, i2⟩ := hl
          obtain ⟨i, hi, hmi⟩ := List.mem_flatten.1 hm
          obtain ⟨x, as, kids, rfl, -⟩ := i2 i hi
          simp only [List.mem_cons, List.not_mem_nil, or_false] at hmi
          exact ⟨x, as, kids, hmi⟩
        have hb : b ≠ [] := by
          rintro rfl
          rw [contactDecl, Part.lang] at h7
          obtain ⟨is, ⟨i1, -⟩, i2, i3⟩ := h7
          rcases is with _ | ⟨j, js⟩
          · simp at i1
          · obtain ⟨x, as, kids, rfl, -⟩ := i3 j (List.mem_cons_self ..)
            simp at i2
        obtain ⟨m, hm⟩ := List.exists_mem_of_ne_nil _ hb
        obtain ⟨x, as, kids, rfl⟩ := one h7 m hm
        have : Node.elem (staffName "mail") x as kids ∈ [Node.elem (staffName "name") none [] [.text s]] :=
          h5 ▸ List.mem_append_right _ hm
        simp [staffName] at this

end Verif.Interp

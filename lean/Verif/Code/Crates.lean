import Verif.Code.PathData

/-!
# Names of crates in the generated code (C91)

The renderer can be told how the crates `alloc` and `xsd_parser_types` are called in the project that contains the
generated code. Models `patch_using_impl`, `resolve_build_in` and `resolve_ident_path_impl` of
`xsd-parser/src/pipeline/renderer/context.rs` (81-92, 361-394) and the types of fields (C89), which are rendered by
`resolve_type_for_module` (66-70).
-/
namespace Verif.Code

/-- `alloc_crate` and `xsd_parser_types` of the renderer, renderer/mod.rs 191-205. -/
structure Crates where
  alloc : Ident
  types : Ident

/-- `str::strip_prefix` (std). -/
def stripPrefix (pre s : List Char) : Option (List Char) :=
  if pre.isPrefixOf s then some (s.drop pre.length) else none

/-- `patch_using_impl`, context.rs 378-394. -/
def Crates.patch (C : Crates) (s : List Char) : List Char :=
  match stripPrefix "xsd_parser_types::".toList s with
  | some r => C.types ++ "::".toList ++ r
  | none =>
    match stripPrefix "::xsd_parser_types::".toList s with
    | some r => "::".toList ++ C.types ++ "::".toList ++ r
    | none =>
      match stripPrefix "alloc::".toList s with
      | some r => C.alloc ++ "::".toList ++ r
      | none =>
        match stripPrefix "::alloc::".toList s with
        | some r => "::".toList ++ C.alloc ++ "::".toList ++ r
        | none => s

/-- `resolve_build_in`, context.rs 81-92 (`none`: the `unwrap` panics). -/
def Crates.buildIn (C : Crates) (absolute : Bool) (path : List Char) : Option IdentPath :=
  (fromStr (C.patch path)).map fun p => if absolute then p else .ofIdent p.ident

/-- `resolve_ident_path_impl`, context.rs 361-376: the path and the `use` declarations that are added; `add_usings`
(108-115) replaces the names of the crates once more. -/
def Crates.identPath (C : Crates) (absolute : Bool) (path : List Char) : Option (IdentPath × List (List Char)) :=
  (fromStr (C.patch path)).map fun p =>
    if absolute then (p, []) else (.ofIdent p.ident, [C.patch (C.patch path)])

/-- `resolve_type_for_module`, context.rs 66-70: the tokens and the `use` declarations that are added. -/
def Crates.fieldType (C : Crates) (p : PathData) (dst : List Ident) : TypeTokens × List (List Char) :=
  (p.resolveRelativeTo dst, p.usings.map C.patch)

/-! ## Specification -/

/-- The text of a path. -/
def pathText (leading : Bool) (mods : List Ident) (i : Ident) : List Char :=
  (if leading then [':', ':'] else []) ++ ((mods.flatMap fun m => m ++ [':', ':']) ++ i)

/-- The modules of a path, with the configured names for the two crates. -/
def Crates.rename (C : Crates) : List Ident → List Ident
  | [] => []
  | m :: ms =>
    if m = "xsd_parser_types".toList then C.types :: ms
    else if m = "alloc".toList then C.alloc :: ms
    else m :: ms

/-! ## Proofs -/

theorem isPrefixOf_append (a b : List Char) : a.isPrefixOf (a ++ b) = true := by
  rw [List.isPrefixOf_iff_prefix]; exact List.prefix_append a b

theorem strip_append (a b : List Char) : stripPrefix a (a ++ b) = some b := by
  simp [stripPrefix, isPrefixOf_append]

/-- Two names before `::`. -/
theorem strip_other {a b : List Char} (ha : ∀ c ∈ a, c ≠ ':') (hb : ∀ c ∈ b, c ≠ ':') (h : b ≠ a) (r : List Char) :
    stripPrefix (a ++ [':', ':']) (b ++ [':', ':'] ++ r) = none := by
  unfold stripPrefix
  rw [if_neg]
  intro hp
  rw [List.isPrefixOf_iff_prefix] at hp
  obtain ⟨t, ht⟩ := hp
  refine h ?_
  clear h
  induction a generalizing b with
  | nil =>
    cases b with
    | nil => rfl
    | cons y b =>
      simp only [List.nil_append, List.cons_append, List.cons.injEq] at ht
      exact absurd ht.1.symm (hb y (by simp))
  | cons x a ih =>
    cases b with
    | nil =>
      simp only [List.nil_append, List.cons_append, List.cons.injEq] at ht
      exact absurd ht.1 (ha x (by simp))
    | cons y b =>
      simp only [List.cons_append, List.cons.injEq] at ht
      obtain ⟨rfl, ht⟩ := ht
      rw [ih (b := b) (fun c hc => ha c (List.mem_cons_of_mem _ hc)) (fun c hc => hb c (List.mem_cons_of_mem _ hc)) ht]

/-- A name without `::`. -/
theorem strip_name {a b : List Char} (hb : ∀ c ∈ b, c ≠ ':') : stripPrefix (a ++ [':', ':']) b = none := by
  unfold stripPrefix
  rw [if_neg]
  intro hp
  rw [List.isPrefixOf_iff_prefix] at hp
  exact hb ':' (hp.subset (by simp)) rfl

theorem strip_head {x y : Char} (h : x ≠ y) (a b : List Char) : stripPrefix (x :: a) (y :: b) = none := by
  unfold stripPrefix
  rw [if_neg]
  simp [List.isPrefixOf, h]

theorem strip_colons (a b : List Char) : stripPrefix (':' :: ':' :: a) (':' :: ':' :: b) = stripPrefix a b := by
  simp [stripPrefix, List.isPrefixOf]

/-- `::` before a name. -/
theorem strip_colon_name {a b : List Char} (h : b.head? ≠ some ':') : stripPrefix (':' :: a) b = none := by
  cases b with
  | nil => simp [stripPrefix, List.isPrefixOf]
  | cons y b => exact strip_head (fun e => h (by rw [e]; rfl)) a b

theorem types_plain : ∀ c ∈ "xsd_parser_types".toList, c ≠ ':' := by decide
theorem alloc_plain : ∀ c ∈ "alloc".toList, c ≠ ':' := by decide

/-- The part of a path after a leading `::`. -/
theorem strip_path (a : List Char) (ha : ∀ c ∈ a, c ≠ ':') (mods : List Ident) (i : Ident)
    (hm : ∀ m ∈ mods, PlainIdent m) (hi : PlainIdent i) :
    stripPrefix (a ++ [':', ':']) (pathText false mods i)
      = match mods with
        | [] => none
        | m :: ms => if m = a then some (pathText false ms i) else none := by
  cases mods with
  | nil => exact strip_name fun c hc => (hi.2 c hc).1
  | cons m ms =>
    have e : pathText false (m :: ms) i = m ++ [':', ':'] ++ pathText false ms i := by simp [pathText]
    rw [e]
    by_cases h : m = a
    · subst h
      rw [strip_append]; simp
    · rw [strip_other ha (fun c hc => ((hm m (by simp)).2 c hc).1) h]; simp [h]

theorem pathText_head (mods : List Ident) (i : Ident) (hm : ∀ m ∈ mods, PlainIdent m) (hi : PlainIdent i) :
    (pathText false mods i).head? ≠ some ':' := by
  have first : ∀ (x : Ident) (r : List Char), PlainIdent x → (x ++ r).head? ≠ some ':' := by
    intro x r hx
    cases x with
    | nil => exact absurd rfl hx.1
    | cons c x => simpa using (hx.2 c (by simp)).1
  cases mods with
  | nil => simpa [pathText] using first i [] hi
  | cons m ms =>
    have := first m ([':', ':'] ++ pathText false ms i) (hm m (by simp))
    simpa [pathText] using this

/-- **C91.** In the text of a path the names of the two crates are replaced by the configured ones, at the beginning
and nowhere else, with and without a leading `::`. -/
theorem C91_patch_exact (C : Crates) (leading : Bool) (mods : List Ident) (i : Ident)
    (hm : ∀ m ∈ mods, PlainIdent m) (hi : PlainIdent i) :
    C.patch (pathText leading mods i) = pathText leading (C.rename mods) i := by
  have h1 := strip_path _ types_plain mods i hm hi
  have h2 := strip_path _ alloc_plain mods i hm hi
  have hh := pathText_head mods i hm hi
  have e1 : "xsd_parser_types::".toList = "xsd_parser_types".toList ++ [':', ':'] := by decide
  have e2 : "::xsd_parser_types::".toList = ':' :: ':' :: ("xsd_parser_types".toList ++ [':', ':']) := by decide
  have e3 : "alloc::".toList = "alloc".toList ++ [':', ':'] := by decide
  have e4 : "::alloc::".toList = ':' :: ':' :: ("alloc".toList ++ [':', ':']) := by decide
  have e5 : "::".toList = [':', ':'] := by decide
  have ne : "alloc".toList ≠ "xsd_parser_types".toList := by decide
  unfold Crates.patch
  rw [e1, e2, e3, e4, e5]
  cases leading with
  | false =>
    rw [h1, h2, strip_colon_name hh, strip_colon_name hh]
    cases mods with
    | nil => rfl
    | cons m ms =>
      by_cases c1 : m = "xsd_parser_types".toList
      · simp [c1, Crates.rename, pathText]
      · by_cases c2 : m = "alloc".toList
        · simp [c2, Crates.rename, pathText]
        · simp only [if_neg c1, if_neg c2, Crates.rename]
  | true =>
    have et : ∀ ms, pathText true ms i = ':' :: ':' :: pathText false ms i := by intro ms; simp [pathText]
    have x1 : ∀ s, stripPrefix ("xsd_parser_types".toList ++ [':', ':']) (':' :: s) = none :=
      fun s => strip_head (by decide) _ _
    have x2 : ∀ s, stripPrefix ("alloc".toList ++ [':', ':']) (':' :: s) = none :=
      fun s => strip_head (by decide) _ _
    rw [et, et, x1, x2, strip_colons, strip_colons, h1, h2]
    cases mods with
    | nil => rfl
    | cons m ms =>
      by_cases c1 : m = "xsd_parser_types".toList
      · simp [c1, Crates.rename, pathText]
      · by_cases c2 : m = "alloc".toList
        · simp [c2, Crates.rename, pathText]
        · simp only [if_neg c1, if_neg c2, Crates.rename]

/-- The names of the crates are identifiers, and neither is called like the other one. -/
structure Crates.Sane (C : Crates) : Prop where
  alloc : PlainIdent C.alloc
  types : PlainIdent C.types
  apart : C.types ≠ "alloc".toList
  apart' : C.alloc ≠ "xsd_parser_types".toList

theorem rename_plain {C : Crates} (h : C.Sane) {mods : List Ident} (hm : ∀ m ∈ mods, PlainIdent m) :
    ∀ m ∈ C.rename mods, PlainIdent m := by
  cases mods with
  | nil => exact hm
  | cons x ms =>
    intro m hx
    simp only [Crates.rename] at hx
    by_cases c1 : x = "xsd_parser_types".toList
    · rw [if_pos c1] at hx
      rcases List.mem_cons.1 hx with rfl | hx
      · exact h.types
      · exact hm m (by simp [hx])
    · rw [if_neg c1] at hx
      by_cases c2 : x = "alloc".toList
      · rw [if_pos c2] at hx
        rcases List.mem_cons.1 hx with rfl | hx
        · exact h.alloc
        · exact hm m (by simp [hx])
      · rw [if_neg c2] at hx
        exact hm m hx

theorem rename_rename {C : Crates} (h : C.Sane) (mods : List Ident) : C.rename (C.rename mods) = C.rename mods := by
  cases mods with
  | nil => rfl
  | cons x ms =>
    simp only [Crates.rename]
    by_cases c1 : x = "xsd_parser_types".toList
    · rw [if_pos c1]
      simp only [Crates.rename]
      by_cases c3 : C.types = "xsd_parser_types".toList
      · rw [if_pos c3]
      · rw [if_neg c3, if_neg h.apart]
    · rw [if_neg c1]
      by_cases c2 : x = "alloc".toList
      · rw [if_pos c2]
        simp only [Crates.rename, if_neg h.apart']
        by_cases c3 : C.alloc = "alloc".toList
        · rw [if_pos c3]
        · rw [if_neg c3]
      · rw [if_neg c2]
        simp only [Crates.rename, if_neg c1, if_neg c2]

theorem parse_pathText {mods : List Ident} {i : Ident} (hm : ∀ m ∈ mods, PlainIdent m) (hi : PlainIdent i)
    (leading : Bool) : fromStr (pathText leading mods i) = some ⟨some mods, i, leading⟩ := by
  cases leading with
  | true => exact C46_parse_absolute mods i hm hi
  | false => exact C46_display_parse_partial (some mods) i hm hi

/-- **C91.** The paths of the code that the render steps write (`resolve_ident_path`), absolute or imported, and of the
containers with absolute paths (`resolve_build_in`), mean in every module the item of the crate with the configured
name. -/
theorem C91_paths_renamed (C : Crates) (h : C.Sane) (mods : List Ident) (i : Ident) (hm : ∀ m ∈ mods, PlainIdent m)
    (hi : PlainIdent i) (absolute : Bool) (dst : List Ident) :
    (∃ p uses, C.identPath absolute (pathText true mods i) = some (p, uses) ∧
      meaning uses dst (p.relativeTo dst) = some (.ext (C.rename mods ++ [i]))) ∧
    ∃ p, C.buildIn true (pathText true mods i) = some p ∧
      meaning [] dst (p.relativeTo dst) = some (.ext (C.rename mods ++ [i])) := by
  have hp := rename_plain h hm
  have e := C91_patch_exact C true mods i hm hi
  have e2 := C91_patch_exact C true (C.rename mods) i hp hi
  rw [rename_rename h] at e2
  have hparse := parse_pathText hp hi true
  have ho : Outside ⟨some (C.rename mods), i, true⟩ := ⟨rfl, rfl, hp, hi⟩
  have ht : target (pathText true (C.rename mods) i) = some (C.rename mods ++ [i]) := by
    simp [target, hparse]
  refine ⟨?_, _, by simp only [Crates.buildIn, e, hparse, Option.map_some, if_true], meaning_outside ho _ _⟩
  cases absolute with
  | true => exact ⟨_, _, by simp only [Crates.identPath, e, hparse, Option.map_some, if_true]; rfl, meaning_outside ho _ _⟩
  | false =>
    refine ⟨.ofIdent i, [pathText true (C.rename mods) i], by simp [Crates.identPath, e, e2, hparse], ?_⟩
    simp [meaning, IdentPath.ofIdent, IdentPath.relativeTo, importedName, ht]

/-- **C91.** If types are imported, those of the runtime are imported from the crate with the configured name. -/
theorem C91_imported_types_renamed (C : Crates) (h : C.Sane) (T : TypeCfg) (ha : T.absolute = false) (w : IdentPath)
    (hw : Outside w) (p : IdentPath) (dst : List Ident) :
    meaning (C.fieldType (T.wrap w true { path := p }) dst).2 dst (C.fieldType (T.wrap w true { path := p }) dst).1.head
      = some (.ext (C.rename (w.path.getD []) ++ [w.ident])) := by
  have e : w.display = pathText false (w.path.getD []) w.ident := by simp [IdentPath.display, pathText]
  have hp := rename_plain h hw.2.2.1
  have ht : target (pathText false (C.rename (w.path.getD [])) w.ident) = some (C.rename (w.path.getD []) ++ [w.ident]) := by
    simp [target, parse_pathText hp hw.2.2.2 false]
  have hu : (C.fieldType (T.wrap w true { path := p }) dst).2
      = [pathText false (C.rename (w.path.getD [])) w.ident] := by
    simp [Crates.fieldType, TypeCfg.wrap, ha, e, C91_patch_exact C false _ _ hw.2.2.1 hw.2.2.2]
  have hh : (C.fieldType (T.wrap w true { path := p }) dst).1.head = ⟨false, [.name w.ident]⟩ := by
    simp [Crates.fieldType, TypeCfg.wrap, ha, PathData.resolveRelativeTo, IdentPath.ofIdent, IdentPath.relativeTo]
  rw [hu, hh]
  simp [meaning, importedName, ht]

/-- **C91, finding.** With `ABSOLUTE_PATHS_INSTEAD_USINGS` the types of fields keep the name `xsd_parser_types`,
whatever the name of the crate is: a nillable element, for every configured name. -/
theorem C91_absolute_types_not_renamed (C : Crates) (other : C.types ≠ "xsd_parser_types".toList) (p : IdentPath)
    (dst : List Ident) :
    let t := C.fieldType ((defaultTypes true).element false true { path := p }) dst
    meaning t.2 dst t.1.head = some (.ext ["xsd_parser_types".toList, "xml".toList, "Nillable".toList]) ∧
    ["xsd_parser_types".toList, "xml".toList, "Nillable".toList]
      ≠ C.rename ["xsd_parser_types".toList, "xml".toList] ++ ["Nillable".toList] := by
  refine ⟨?_, ?_⟩
  · exact meaning_outside (defaultTypes_outside true).2.1 _ dst
  · simp only [Crates.rename, if_true, List.cons_append, ne_eq, List.cons.injEq, not_and]
    intro e
    exact absurd e.symm other

/-- `as_absolute_path` of `String`, models/meta/type_.rs 322; the type of a field is made of it in generator/mod.rs
473-479. -/
def stringType : PathData := { path := ⟨some ["std".toList, "string".toList], "String".toList, true⟩ }

/-- **C91, finding.** With `BUILD_IN_ABSOLUTE_PATHS` and `alloc` as the crate for collections, vectors are those of
`alloc`, but strings are still those of `std`. -/
theorem C91_string_of_std (T : Ident) (dst : List Ident) :
    let C : Crates := ⟨"alloc".toList, T⟩
    (C.buildIn true "::alloc::vec::Vec".toList).map (·.full) = some ["alloc".toList, "vec".toList, "Vec".toList] ∧
    meaning (C.fieldType stringType dst).2 dst (C.fieldType stringType dst).1.head
      = some (.ext ["std".toList, "string".toList, "String".toList]) := by
  have pl : ∀ m ∈ ["alloc".toList, "vec".toList], PlainIdent m := by
    intro m hm
    have : m = "alloc".toList ∨ m = "vec".toList := by simpa using hm
    rcases this with rfl | rfl <;> exact ⟨by decide, by decide⟩
  have pv : PlainIdent "Vec".toList := ⟨by decide, by decide⟩
  refine ⟨?_, ?_⟩
  · have e : "::alloc::vec::Vec".toList = pathText true ["alloc".toList, "vec".toList] "Vec".toList := by decide
    have r : Crates.rename ⟨"alloc".toList, T⟩ ["alloc".toList, "vec".toList] = ["alloc".toList, "vec".toList] := by
      simp [Crates.rename]
    simp only [Crates.buildIn]
    rw [e, C91_patch_exact _ true _ _ pl pv, r, parse_pathText pl pv true]
    rfl
  · have ho : Outside stringType.path := by
      refine ⟨rfl, rfl, ?_, ⟨by decide, by decide⟩⟩
      intro m hm
      have : m = "std".toList ∨ m = "string".toList := by simpa [stringType] using hm
      rcases this with rfl | rfl <;> exact ⟨by decide, by decide⟩
    exact meaning_outside ho _ dst

/-! ## Non-vacuity -/

/-- The defaults, renderer/mod.rs 80-81. -/
def defaultCrates : Crates := ⟨"std".toList, "xsd_parser_types".toList⟩

example : defaultCrates.Sane := ⟨⟨by decide, by decide⟩, ⟨by decide, by decide⟩, by decide, by decide⟩

def ownCrates : Crates := ⟨"alloc".toList, "my_types".toList⟩

theorem ownCrates_sane : ownCrates.Sane := ⟨⟨by decide, by decide⟩, ⟨by decide, by decide⟩, by decide, by decide⟩

example : ownCrates.patch "::xsd_parser_types::xml::Text".toList = "::my_types::xml::Text".toList := by decide +kernel
example : defaultCrates.patch "alloc::vec::Vec".toList = "std::vec::Vec".toList := by decide +kernel
example : defaultCrates.patch "my::alloc::vec::Vec".toList = "my::alloc::vec::Vec".toList := by decide +kernel

example (p : IdentPath) (dst : List Ident) :=
  C91_imported_types_renamed ownCrates ownCrates_sane (defaultTypes false) rfl _ (defaultTypes_outside false).2.1 p dst

end Verif.Code

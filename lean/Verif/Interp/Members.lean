import Verif.Meta.Types
import Verif.Util.Decimal

/-!
# The members of a generated type (C32)

Models the functions of the interpreter that add members to a group of elements
(`ElementsMeta::insert_checked`, `VecHelper::find_or_insert`, `ElementsMeta::push_any`) and the pass
that resolves equal names (`fix_element_naming_conflicts`). All files cited below are in
`xsd-parser/src`; "variant_processor.rs" is
`pipeline/interpreter/state/generate_types/variant_processor.rs`.
-/

namespace Verif.Interp

open Verif.Meta Verif.Decimal
open Verif.Naming (Name)
open Verif.Occurs (MaxOccurs)

/-! ## Model -/

/-- `ElementMetaFlags::default`, models/meta/element.rs 67-71: `IDENTIFY_BY_TAG`. -/
def Flags.default : Flags := ⟨false, false, true, false, false⟩

/-- `ElementMeta::new`, models/meta/element.rs 124-141. -/
def newElement (ident : PropIdent) (t : Ident) (mode : Mode) (form : Form) : Element :=
  ⟨ident, .type_ t mode, form, Flags.default, 1, .bounded 1, none, []⟩

/-- `ElementMeta::any`, models/meta/element.rs 144-156. -/
def newAny (ident : PropIdent) (m : AnyMeta) : Element :=
  ⟨ident, .any m, .unqualified, Flags.default, 1, .bounded 1, none, []⟩

/-- `ElementMeta::is_any`. -/
def isAny (e : Element) : Bool :=
  match e.variant with
  | .any _ => true
  | _ => false

/-- The pattern of the assertions in `apply_element_ref`: a member that is an element. -/
def isElement (e : Element) : Bool :=
  match e.variant with
  | .type_ _ .element => true
  | _ => false

/-- The part of an `xs:element` inside a group that `apply_element_ref` uses: the name and the type
are resolved before. -/
structure ElementDecl where
  ident : PropIdent
  type_ : Ident
  form : Form
  nillable : Option Bool
  min : Nat
  max : MaxOccurs
  documentation : List Txt
deriving DecidableEq, Repr

/-- `Update<ElementType> for ElementMeta`, generate_types/update.rs 34-44, and the loop that adds
the documentation, variant_processor.rs 815-823. -/
def ElementDecl.update (d : ElementDecl) (e : Element) : Element :=
  { e with
    min := d.min
    max := d.max
    flags := match d.nillable with
      | some b => { e.flags with nillable := b }
      | none => e.flags
    documentation := e.documentation ++ d.documentation }

/-- `VecHelper::find_or_insert`, traits/vec_helper.rs 37-50, followed by a change of the returned
member. -/
def findOrInsert (ident : PropIdent) (new : Element) (f : Element → Element) :
    List Element → List Element
  | [] => [f new]
  | e :: es => if e.ident = ident then f e :: es else e :: findOrInsert ident new f es

/-- `apply_element_ref`, variant_processor.rs 753-828. `none`: the assertion that a member found by
its name is an element fails. -/
def addElement (d : ElementDecl) (es : List Element) : Option (List Element) :=
  match es.find? (fun e => e.ident == d.ident) with
  | some e =>
    if isElement e then
      some (findOrInsert d.ident (newElement d.ident d.type_ .element d.form) d.update es)
    else none
  | none => some (findOrInsert d.ident (newElement d.ident d.type_ .element d.form) d.update es)

/-- `format!("{}_{next}", …)` on the name of an identifier, variant_processor.rs 1710-1711. The
kind of the name is kept. -/
def suffixed (i : PropIdent) (n : Nat) : PropIdent :=
  { i with name := match i.name with
    | .named s => .named (s ++ '_' :: dec n)
    | .generated s => .generated (s ++ '_' :: dec n) }

/-- The loop of `insert_checked`, variant_processor.rs 1706-1719. `next` is an `i32` (the default
for an integer literal whose type is not fixed otherwise); `none`: the addition overflows, which is
a panic if overflow checks are on. (Without them the number wraps to -2147483648 and then stays at
0 for ever.) `fuel` is never used up, see `search_fuel`. -/
def search (es : List Element) (ident : PropIdent) : Nat → Nat → Option PropIdent
  | 0, _ => none
  | fuel + 1, next =>
    if next + next < 2 ^ 31 then
      if es.any (fun e => e.ident == suffixed ident (next + next)) then
        search es ident fuel (next + next)
      else some (suffixed ident (next + next))
    else none

/-- The member with the name gets a display name if it has none, variant_processor.rs 1702-1704. -/
def markFirst (ident : PropIdent) : List Element → List Element
  | [] => []
  | e :: es =>
    if e.ident = ident then
      (if e.displayName = none then
        { e with displayName := some (ident.name.str ++ ['_', '1']) } else e) :: es
    else e :: markFirst ident es

/-- `ElementsMeta::insert_checked`, variant_processor.rs 1694-1723. -/
def insertChecked (ident : PropIdent) (f : PropIdent → Element) (es : List Element) :
    Option (List Element) :=
  if es.any (fun e => e.ident == ident) then
    (search es ident 31 1).map fun i => markFirst ident es ++ [f i]
  else some (es ++ [f ident])

/-- A nested group as member: the end of `complex_content_builder`,
variant_processor.rs 1588-1602 and 1607-1631. -/
def newNested (t : Ident) (min : Nat) (max : MaxOccurs) (ident : PropIdent) : Element :=
  { newElement ident t .group .unqualified with min := min, max := max }

/-- `Name::is_generated`, models/name.rs 66-69. -/
def isGenerated : Name → Bool
  | .generated _ => true
  | .named _ => false

/-- The loop of `push_any`, models/meta/element.rs 262-268. -/
def renumber : Nat → List Element → List Element × Nat
  | i, [] => ([], i)
  | i, e :: es =>
    if isAny e && isGenerated e.ident.name then
      let r := renumber (i + 1) es
      ({ e with displayName := some ("any_".toList ++ dec i) } :: r.1, r.2)
    else
      let r := renumber i es
      (e :: r.1, r.2)

/-- `ElementsMeta::push_any`, models/meta/element.rs 261-277. -/
def pushAny (el : Element) (es : List Element) : List Element :=
  let r := renumber 0 es
  let name := if r.2 > 0 then "any_".toList ++ dec r.2 else "any".toList
  r.1 ++ [{ el with displayName := some name }]

/-- What is added to a group: an `xs:element`, a nested group, an `xs:any`. -/
inductive Member where
  | element (d : ElementDecl)
  | nested (field : PropIdent) (t : Ident) (min : Nat) (max : MaxOccurs)
  | any (ident : PropIdent) (m : AnyMeta) (min : Nat) (max : MaxOccurs)
deriving DecidableEq, Repr

/-- Add one member; `apply_any` is variant_processor.rs 961-990. -/
def Member.add : Member → List Element → Option (List Element)
  | .element d, es => addElement d es
  | .nested i t min max, es => insertChecked i (newNested t min max) es
  | .any i m min max, es => some (pushAny { newAny i m with min := min, max := max } es)

/-- Add members one after the other, as the loop of `apply_group` does
(variant_processor.rs 701-723). -/
def addAll : List Member → List Element → Option (List Element)
  | [], es => some es
  | m :: ms, es =>
    match m.add es with
    | none => none
    | some es => addAll ms es

/-! ### Resolving equal names -/

/-- `make_ns_display_name`, interpreter/state/fix_element_naming_conflicts.rs 64-70; `pre` gives
the module name or prefix of a namespace. -/
def nsDisplay (pre : Nat → Option Txt) (x : Nat × Txt) : Option Txt :=
  (pre x.1).map fun p => p ++ '_' :: x.2

/-- State of the inner loop: the display names, `index`, `ns_renamed`. -/
structure Fix where
  disp : List (Option Txt)
  index : Nat
  renamed : Bool

/-- The body of the inner loop, fix_element_naming_conflicts.rs 41-55, for the pair `a` (number
`i`) and `b` (number `j`). -/
def fixPair (pre : Nat → Option Txt) (a b : Nat × Txt) (j : Nat) (st : Fix) : Fix :=
  if a.2 = b.2 then
    if a.1 = b.1 then
      ⟨st.disp.set j (some (b.2 ++ '_' :: dec st.index)), st.index + 1, st.renamed⟩
    else ⟨st.disp.set j (nsDisplay pre b), st.index, true⟩
  else st

/-- The inner loop: `rest` are the members from number `j` on. -/
def fixInner (pre : Nat → Option Txt) (a : Nat × Txt) : Nat → List (Nat × Txt) → Fix → Fix
  | _, [], st => st
  | j, b :: rest, st => fixInner pre a (j + 1) rest (fixPair pre a b j st)

/-- The outer loop, fix_element_naming_conflicts.rs 36-61: the given members start at number `i`. -/
def fixOuter (pre : Nat → Option Txt) : Nat → List (Nat × Txt) → List (Option Txt) → List (Option Txt)
  | _, [], disp => disp
  | i, a :: rest, disp =>
    let st := fixInner pre a (i + 1) rest ⟨disp, 2, false⟩
    fixOuter pre (i + 1) rest (if st.renamed then st.disp.set i (nsDisplay pre a) else st.disp)

/-- `IdentSlice::get_ident` for groups, fix_element_naming_conflicts.rs 90-93. -/
def nsName (e : Element) : Nat × Txt := (e.ident.ns, e.ident.name.str)

/-- `IdentSlice::set_display_name` for groups. -/
def setDisplays (es : List Element) (disp : List (Option Txt)) : List Element :=
  es.zipWith (fun e d => { e with displayName := d }) disp

/-- `fix_naming_conflicts` for groups, fix_element_naming_conflicts.rs 32-62. -/
def fixConflicts (pre : Nat → Option Txt) (es : List Element) : List Element :=
  setDisplays es (fixOuter pre 0 (es.map nsName) (es.map (·.displayName)))

/-! ## Specification -/

/-- The name of a member in the generated code before it is formatted:
`display_name.unwrap_or(name.as_str())`, traits/naming.rs 99-113. -/
def shown (e : Element) : Txt := e.displayName.getD e.ident.name.str

/-- The same member up to its display name. -/
def SameMember (e e' : Element) : Prop := e' = { e with displayName := e'.displayName }

/-! ## Adding members -/

theorem findOrInsert_idents (ident : PropIdent) (new : Element) (f : Element → Element)
    (hn : (f new).ident = ident) (hf : ∀ e, (f e).ident = e.ident) (es : List Element) :
    (findOrInsert ident new f es).map (·.ident) =
      if ident ∈ es.map (·.ident) then es.map (·.ident) else es.map (·.ident) ++ [ident] := by
  induction es with
  | nil => simp [findOrInsert, hn]
  | cons e es ih =>
    rw [findOrInsert]
    by_cases h : e.ident = ident
    · simp [h, hf]
    · have h' : ident ≠ e.ident := fun x => h x.symm
      rw [if_neg h, List.map_cons, ih]
      by_cases hm : ident ∈ es.map (·.ident)
      · rw [if_pos hm, if_pos (by simp [hm])]
        rfl
      · rw [if_neg hm, if_neg (by simpa [h'] using hm)]
        rfl

theorem suffixed_inj {i : PropIdent} {m n : Nat} (h : suffixed i m = suffixed i n) : m = n := by
  unfold suffixed at h
  cases hi : i.name with
  | named s =>
    rw [hi] at h
    simp only [PropIdent.mk.injEq, Name.named.injEq, List.append_cancel_left_eq, List.cons.injEq, true_and] at h
    exact dec_inj h
  | generated s =>
    rw [hi] at h
    simp only [PropIdent.mk.injEq, Name.generated.injEq, List.append_cancel_left_eq, List.cons.injEq, true_and] at h
    exact dec_inj h

theorem any_ident {es : List Element} {i : PropIdent} :
    es.any (fun e => e.ident == i) = true ↔ i ∈ es.map (·.ident) := by
  simp only [List.any_eq_true, beq_iff_eq, List.mem_map]

/-- The loop returns the first unused candidate. -/
theorem search_some {es : List Element} {ident i : PropIdent} {fuel : Nat} {k : Nat}
    (h : search es ident fuel (2 ^ k) = some i) :
    ∃ m, k < m ∧ m < 31 ∧ i = suffixed ident (2 ^ m) ∧ i ∉ es.map (·.ident) ∧
      ∀ l, k < l → l < m → suffixed ident (2 ^ l) ∈ es.map (·.ident) := by
  induction fuel generalizing k with
  | zero => cases h
  | succ fuel ih =>
    have e : 2 ^ k + 2 ^ k = 2 ^ (k + 1) := by rw [Nat.pow_succ]; omega
    rw [search, e] at h
    split at h
    · rename_i hlt
      have hk : k + 1 < 31 := (Nat.pow_lt_pow_iff_right (by decide)).mp hlt
      split at h
      · rename_i hu
        obtain ⟨m, h1, h2, h3, h4, h5⟩ := ih h
        refine ⟨m, by omega, h2, h3, h4, fun l hl hlm => ?_⟩
        by_cases hlk : l = k + 1
        · subst hlk; exact any_ident.mp hu
        · exact h5 l (by omega) hlm
      · rename_i hu
        cases h
        exact ⟨k + 1, by omega, hk, rfl, fun hm => hu (any_ident.mpr hm), fun l h1 h2 => by omega⟩
    · cases h

/-- The loop fails only if all candidates are used. -/
theorem search_none {es : List Element} {ident : PropIdent} {fuel : Nat} {k : Nat} (hf : 31 ≤ fuel + k)
    (h : search es ident fuel (2 ^ k) = none) :
    ∀ l, k < l → l < 31 → suffixed ident (2 ^ l) ∈ es.map (·.ident) := by
  induction fuel generalizing k with
  | zero => intro l h1 h2; omega
  | succ fuel ih =>
    have e : 2 ^ k + 2 ^ k = 2 ^ (k + 1) := by rw [Nat.pow_succ]; omega
    rw [search, e] at h
    split at h
    · split at h
      · rename_i hu
        intro l h1 h2
        by_cases hlk : l = k + 1
        · subst hlk; exact any_ident.mp hu
        · exact ih (by omega) h l (by omega) h2
      · cases h
    · rename_i hlt
      intro l h1 h2
      exact absurd ((Nat.pow_lt_pow_iff_right (by decide)).mpr (show k + 1 < 31 by omega)) hlt

theorem markFirst_spec (ident : PropIdent) (es : List Element) :
    (markFirst ident es).length = es.length ∧
    ∀ (n : Nat) (e e' : Element), es[n]? = some e → (markFirst ident es)[n]? = some e' →
      SameMember e e' ∧ (e.ident ≠ ident → e' = e) := by
  induction es with
  | nil => exact ⟨rfl, fun n e e' h => by simp at h⟩
  | cons a es ih =>
    rw [markFirst]
    by_cases h : a.ident = ident
    · rw [if_pos h]
      refine ⟨rfl, fun n e e' h1 h2 => ?_⟩
      cases n with
      | zero =>
        simp only [List.getElem?_cons_zero, Option.some.injEq] at h1 h2
        subst h1
        split at h2
        · subst h2; exact ⟨rfl, fun hn => absurd h hn⟩
        · subst h2; exact ⟨rfl, fun hn => absurd h hn⟩
      | succ n =>
        simp only [List.getElem?_cons_succ] at h1 h2
        rw [h1] at h2; cases h2
        exact ⟨rfl, fun _ => rfl⟩
    · rw [if_neg h]
      refine ⟨by simp [ih.1], fun n e e' h1 h2 => ?_⟩
      cases n with
      | zero =>
        simp only [List.getElem?_cons_zero, Option.some.injEq] at h1 h2
        subst h1; subst h2
        exact ⟨rfl, fun _ => rfl⟩
      | succ n => exact ih.2 n e e' (by simpa using h1) (by simpa using h2)

theorem markFirst_idents (ident : PropIdent) (es : List Element) :
    (markFirst ident es).map (·.ident) = es.map (·.ident) := by
  induction es with
  | nil => rfl
  | cons a es ih =>
    rw [markFirst]
    split
    · split <;> rfl
    · rw [List.map_cons, ih]; rfl

theorem markFirst_isAny (ident : PropIdent) (es : List Element) :
    (markFirst ident es).map isAny = es.map isAny := by
  induction es with
  | nil => rfl
  | cons a es ih =>
    rw [markFirst]
    split
    · split <;> rfl
    · rw [List.map_cons, ih]; rfl

/-- **C32.** A nested group is added under an identifier that no member has; the members before it
keep everything but possibly their display name, and only the one with the wanted identifier can
change that. -/
theorem C32_nested_fresh {ident : PropIdent} {f : PropIdent → Element} (hf : ∀ i, (f i).ident = i)
    {es es' : List Element} (h : insertChecked ident f es = some es') :
    ∃ new : Element, ∃ old : List Element, es' = old ++ [new] ∧ new = f new.ident ∧
      new.ident ∉ es.map (·.ident) ∧ new.ident.ns = ident.ns ∧
      (ident ∉ es.map (·.ident) → new.ident = ident) ∧ old.length = es.length ∧
      ∀ (n : Nat) (e e' : Element), es[n]? = some e → old[n]? = some e' →
        SameMember e e' ∧ (e.ident ≠ ident → e' = e) := by
  rw [insertChecked] at h
  split at h
  · rename_i hu
    rw [Option.map_eq_some_iff] at h
    obtain ⟨i, hs, rfl⟩ := h
    obtain ⟨m, -, -, h3, h4, -⟩ := search_some (k := 0) hs
    refine ⟨f i, markFirst ident es, rfl, by rw [hf], by rw [hf]; exact h4, ?_, ?_, (markFirst_spec ident es).1,
      (markFirst_spec ident es).2⟩
    · rw [hf, h3]; rfl
    · exact fun hn => absurd (any_ident.mp hu) hn
  · rename_i hu
    cases h
    refine ⟨f ident, es, rfl, by rw [hf], ?_, by rw [hf], fun _ => hf _, rfl, fun n e e' h1 h2 => ?_⟩
    · rw [hf]; exact fun hm => hu (any_ident.mpr hm)
    · rw [h1] at h2; cases h2
      exact ⟨rfl, fun _ => rfl⟩

theorem nodup_subset_length {α : Type} [DecidableEq α] : ∀ (l m : List α), l.Nodup → (∀ x ∈ l, x ∈ m) → l.length ≤ m.length := by
  intro l
  induction l with
  | nil => intro m _ _; exact Nat.zero_le _
  | cons a l ih =>
    intro m hn hs
    obtain ⟨ha, hn⟩ := List.nodup_cons.mp hn
    have hm := hs a (by simp)
    have := ih (m.erase a) hn (fun x hx => by
      have hxa : x ≠ a := fun h => ha (h ▸ hx)
      exact (List.mem_erase_of_ne hxa).mpr (hs x (by simp [hx])))
    rw [List.length_erase_of_mem hm] at this
    have : 0 < m.length := List.length_pos_of_mem hm
    simp only [List.length_cons]; omega

/-- **C32.** The numbers do not run out before 31 members are there. (`C32_many_clashes_overflow`
shows that they can run out afterwards.) -/
theorem C32_nested_total_partial {ident : PropIdent} {f : PropIdent → Element} {es : List Element}
    (hl : es.length ≤ 30) : ∃ es', insertChecked ident f es = some es' := by
  rw [insertChecked]
  split
  · rename_i hu
    cases hs : search es ident 31 1 with
    | some i => exact ⟨_, rfl⟩
    | none =>
      exfalso
      have hall := search_none (k := 0) (by omega) hs
      let cands := ident :: (List.range 30).map fun k => suffixed ident (2 ^ (k + 1))
      have hne : ∀ n, suffixed ident n ≠ ident := by
        intro n h
        have hlen : (suffixed ident n).name.str.length = ident.name.str.length := by rw [h]
        unfold suffixed at hlen
        cases hi : ident.name <;> rw [hi] at hlen <;> simp [Name.str] at hlen
      have hnd : cands.Nodup := by
        refine List.nodup_cons.mpr ⟨?_, ?_⟩
        · intro hm
          obtain ⟨k, -, hk⟩ := List.mem_map.mp hm
          exact hne _ hk
        · refine List.Pairwise.map _ ?_ (List.nodup_range (n := 30))
          intro a b hab h
          have := suffixed_inj h
          have := (Nat.pow_right_inj (by decide : 1 < 2)).mp this
          omega
      have := nodup_subset_length cands (es.map (·.ident)) hnd (fun x hx => by
        rcases List.mem_cons.mp hx with rfl | hx
        · exact any_ident.mp hu
        · obtain ⟨k, hk, rfl⟩ := List.mem_map.mp hx
          exact hall (k + 1) (by omega) (by have := List.mem_range.mp hk; omega))
      simp [cands] at this
      omega
  · exact ⟨_, rfl⟩

/-- **C32.** Adding an element changes only the member with its identifier, if there is one, and
adds a member otherwise. -/
theorem C32_element_kept {d : ElementDecl} {es es' : List Element} (h : addElement d es = some es') :
    (d.ident ∈ es.map (·.ident) → es'.map (·.ident) = es.map (·.ident)) ∧
    (d.ident ∉ es.map (·.ident) → es'.map (·.ident) = es.map (·.ident) ++ [d.ident]) ∧
    ∀ (n : Nat) (e : Element), es[n]? = some e → e.ident ≠ d.ident → es'[n]? = some e := by
  have h' : es' = findOrInsert d.ident (newElement d.ident d.type_ .element d.form) d.update es := by
    rw [addElement] at h
    split at h
    · split at h
      · cases h; rfl
      · cases h
    · cases h; rfl
  subst h'
  have hi := findOrInsert_idents d.ident (newElement d.ident d.type_ .element d.form) d.update rfl (fun _ => rfl) es
  refine ⟨fun hm => by rw [hi, if_pos hm], fun hm => by rw [hi, if_neg hm], ?_⟩
  clear h hi
  induction es with
  | nil => intro n e h; simp at h
  | cons a es ih =>
    intro n e h hne
    rw [findOrInsert]
    cases n with
    | zero =>
      simp only [List.getElem?_cons_zero, Option.some.injEq] at h
      subst h
      rw [if_neg hne]; rfl
    | succ n =>
      simp only [List.getElem?_cons_succ] at h
      split
      · simpa using h
      · simpa using ih n e h hne

/-! ### Lists of members -/

/-- The identifier of a wildcard. -/
def Member.wild : Member → Option PropIdent
  | .any i _ _ _ => some i
  | _ => none

theorem renumber_idents (i : Nat) (es : List Element) :
    (renumber i es).1.map (·.ident) = es.map (·.ident) ∧ (renumber i es).1.map isAny = es.map isAny := by
  induction es generalizing i with
  | nil => exact ⟨rfl, rfl⟩
  | cons e es ih =>
    rw [renumber]
    split
    · exact ⟨by simp [(ih (i + 1)).1], by simp [(ih (i + 1)).2, isAny]⟩
    · exact ⟨by simp [(ih i).1], by simp [(ih i).2]⟩

/-- Identifier and kind of the members. -/
def keysOf (es : List Element) : List (PropIdent × Bool) := es.map fun e => (e.ident, isAny e)

theorem keysOf_eq (es : List Element) : keysOf es = (es.map (·.ident)).zip (es.map isAny) := by
  induction es with
  | nil => rfl
  | cons e es ih => simp only [keysOf, List.map_cons, List.zip_cons_cons] at *; rw [ih]

theorem findOrInsert_keys (d : ElementDecl) (es : List Element) :
    keysOf (findOrInsert d.ident (newElement d.ident d.type_ .element d.form) d.update es) =
      if d.ident ∈ es.map (·.ident) then keysOf es else keysOf es ++ [(d.ident, false)] := by
  induction es with
  | nil => simp [findOrInsert, keysOf, newElement, ElementDecl.update, isAny]
  | cons e es ih =>
    rw [findOrInsert]
    by_cases h : e.ident = d.ident
    · simp [h, keysOf, ElementDecl.update, isAny]
    · have h' : d.ident ≠ e.ident := fun x => h x.symm
      rw [if_neg h]
      show (e.ident, isAny e) :: keysOf _ = _
      rw [ih]
      by_cases hm : d.ident ∈ es.map (·.ident)
      · rw [if_pos hm, if_pos (by simp [hm])]; rfl
      · rw [if_neg hm, if_neg (by simpa [h'] using hm)]; rfl

theorem keysOf_append (a b : List Element) : keysOf (a ++ b) = keysOf a ++ keysOf b := by
  simp [keysOf]

/-- What adding a member does to identifiers and kinds. -/
theorem add_keys {m : Member} {es es' : List Element} (h : m.add es = some es') :
    keysOf es' = keysOf es ∨
    (∃ i, m.wild = none ∧ i ∉ es.map (·.ident) ∧ keysOf es' = keysOf es ++ [(i, false)]) ∨
    ∃ i, m.wild = some i ∧ keysOf es' = keysOf es ++ [(i, true)] := by
  cases m with
  | element d =>
    rw [Member.add, addElement] at h
    have h' : es' = findOrInsert d.ident (newElement d.ident d.type_ .element d.form) d.update es := by
      split at h
      · split at h
        · cases h; rfl
        · cases h
      · cases h; rfl
    rw [h', findOrInsert_keys]
    by_cases hm : d.ident ∈ es.map (·.ident)
    · rw [if_pos hm]; exact Or.inl rfl
    · rw [if_neg hm]; exact Or.inr (Or.inl ⟨_, rfl, hm, rfl⟩)
  | nested i t min max =>
    refine Or.inr (Or.inl ?_)
    rw [Member.add, insertChecked] at h
    split at h
    · rw [Option.map_eq_some_iff] at h
      obtain ⟨j, hs, rfl⟩ := h
      obtain ⟨-, -, -, -, h4, -⟩ := search_some (k := 0) hs
      refine ⟨j, rfl, h4, ?_⟩
      rw [keysOf_append, keysOf_eq (markFirst i es), markFirst_idents, markFirst_isAny, ← keysOf_eq]
      rfl
    · rename_i hu
      cases h
      exact ⟨i, rfl, fun hm => hu (any_ident.mpr hm), by rw [keysOf_append]; rfl⟩
  | any i m min max =>
    refine Or.inr (Or.inr ⟨i, rfl, ?_⟩)
    rw [Member.add] at h
    cases h
    rw [pushAny, keysOf_append, keysOf_eq (renumber 0 es).1, (renumber_idents 0 es).1, (renumber_idents 0 es).2, ← keysOf_eq]
    rfl

/-- **C32.** However members are added, those that are not wildcards have pairwise distinct
identifiers, and the wildcards have the identifiers they were given, in order. -/
theorem C32_distinct {ms : List Member} {es : List Element} (h : addAll ms [] = some es) :
    ((es.filter fun e => !isAny e).map (·.ident)).Nodup ∧
    (es.filter isAny).map (·.ident) = ms.filterMap Member.wild := by
  have key : ∀ (ms : List Member) (es es' : List Element), addAll ms es = some es' →
      (((keysOf es).filter fun x => !x.2).map (·.1)).Nodup →
      (((keysOf es').filter fun x => !x.2).map (·.1)).Nodup ∧
      ((keysOf es').filter fun x => x.2).map (·.1) =
        ((keysOf es).filter fun x => x.2).map (·.1) ++ ms.filterMap Member.wild := by
    intro ms
    induction ms with
    | nil => intro es es' h hn; cases h; exact ⟨hn, by simp⟩
    | cons m ms ih =>
      intro es es' h hn
      rw [addAll] at h
      split at h
      · cases h
      · rename_i e1 he
        rcases add_keys he with hk | ⟨i, hw, hi, hk⟩ | ⟨i, hw, hk⟩
        · obtain ⟨h1, h2⟩ := ih e1 es' h (by rw [hk]; exact hn)
          refine ⟨h1, ?_⟩
          cases hw : m.wild with
          | none => rw [h2, hk, List.filterMap_cons_none hw]
          | some i =>
            exfalso
            cases m with
            | any i m min max =>
              rw [Member.add] at he
              cases he
              rw [pushAny, keysOf_append, keysOf_eq (renumber 0 es).1, (renumber_idents 0 es).1, (renumber_idents 0 es).2,
                ← keysOf_eq] at hk
              have := congrArg List.length hk
              simp [keysOf] at this
            | element d => cases hw
            | nested i t min max => cases hw
        · have hi' : i ∉ (keysOf es).map (·.1) := by simpa [keysOf] using hi
          obtain ⟨h1, h2⟩ := ih e1 es' h (by
            rw [hk, List.filter_append, List.map_append, List.nodup_append]
            refine ⟨hn, by simp, ?_⟩
            intro a ha b hb hab
            simp at hb
            subst hab; subst hb
            obtain ⟨x, hx, hxa⟩ := List.mem_map.mp ha
            exact hi' (List.mem_map.mpr ⟨x, (List.mem_filter.mp hx).1, hxa⟩))
          refine ⟨h1, ?_⟩
          rw [h2, hk, List.filterMap_cons_none hw]
          simp
        · obtain ⟨h1, h2⟩ := ih e1 es' h (by rw [hk]; simpa using hn)
          refine ⟨h1, ?_⟩
          rw [h2, hk, List.filterMap_cons_some hw]
          simp
  have := key ms [] es h (by simp [keysOf])
  constructor
  · have h1 := this.1
    rw [keysOf, List.filter_map, List.map_map] at h1
    exact h1
  · have h2 := this.2
    rw [keysOf, List.filter_map, List.map_map] at h2
    simp only [keysOf, List.map_nil, List.filter_nil, List.nil_append] at h2
    exact h2

/-- **C32.** All members have pairwise distinct identifiers, if the name builder gives each wildcard
an identifier of its own. -/
theorem C32_all_distinct {ms : List Member} {es : List Element} (h : addAll ms [] = some es)
    (hw : (ms.filterMap Member.wild).Nodup)
    (hd : ∀ e ∈ es, isAny e = false → e.ident ∉ ms.filterMap Member.wild) :
    (es.map (·.ident)).Nodup := by
  obtain ⟨h1, h2⟩ := C32_distinct h
  rw [← h2] at hw hd
  clear h h2
  induction es with
  | nil => exact List.nodup_nil
  | cons e es ih =>
    rw [List.map_cons, List.nodup_cons]
    cases ha : isAny e with
    | true =>
      simp only [List.filter_cons, ha, Bool.not_true, if_true, List.map_cons] at h1 hw hd
      simp only [Bool.false_eq_true, if_false] at h1
      rw [List.nodup_cons] at hw
      refine ⟨?_, ih hw.2 (fun x hx hxa hm => hd x (by simp [hx]) hxa (List.mem_cons_of_mem _ hm)) h1⟩
      intro hm
      obtain ⟨x, hx, hxe⟩ := List.mem_map.mp hm
      cases hxa : isAny x with
      | true => exact hw.1 (List.mem_map.mpr ⟨x, List.mem_filter.mpr ⟨hx, hxa⟩, hxe⟩)
      | false => exact hd x (by simp [hx]) hxa (by simp [hxe])
    | false =>
      simp only [List.filter_cons, ha, Bool.not_false, if_true, List.map_cons, List.nodup_cons] at h1 hw hd
      simp only [Bool.false_eq_true, if_false] at hw hd
      refine ⟨?_, ih hw (fun x hx hxa => hd x (by simp [hx]) hxa) h1.2⟩
      intro hm
      obtain ⟨x, hx, hxe⟩ := List.mem_map.mp hm
      cases hxa : isAny x with
      | true => exact hd e (by simp) ha (List.mem_map.mpr ⟨x, List.mem_filter.mpr ⟨hx, hxa⟩, hxe⟩)
      | false => exact h1.1 (List.mem_map.mpr ⟨x, List.mem_filter.mpr ⟨hx, by simp [hxa]⟩, hxe⟩)

/-! ## Resolving equal names -/

theorem fixInner_disp (pre : Nat → Option Txt) (a : Nat × Txt) (rest : List (Nat × Txt)) (j : Nat) (st : Fix)
    (hn : a ∉ rest) (hl : j + rest.length ≤ st.disp.length) :
    (fixInner pre a j rest st).disp.length = st.disp.length ∧
    (fixInner pre a j rest st).renamed = (st.renamed || rest.any fun b => decide (a.2 = b.2)) ∧
    ∀ n : Nat, (fixInner pre a j rest st).disp[n]? =
      match if j ≤ n then rest[n - j]? else none with
      | some b => if a.2 = b.2 then some (nsDisplay pre b) else st.disp[n]?
      | none => st.disp[n]? := by
  induction rest generalizing j st with
  | nil => exact ⟨rfl, by simp [fixInner], fun n => by simp [fixInner]⟩
  | cons b rest ih =>
    obtain ⟨hab, hn⟩ := not_or.mp (fun h => hn (List.mem_cons.mpr h))
    simp only [List.length_cons] at hl
    rw [fixInner]
    have hlen : (fixPair pre a b j st).disp.length = st.disp.length := by
      rw [fixPair]
      split
      · split <;> simp
      · rfl
    have hp : (fixPair pre a b j st).renamed = (st.renamed || decide (a.2 = b.2)) ∧
        ∀ n : Nat, (fixPair pre a b j st).disp[n]? =
          if n = j ∧ a.2 = b.2 then some (nsDisplay pre b) else st.disp[n]? := by
      rw [fixPair]
      by_cases h2 : a.2 = b.2
      · have h1 : a.1 ≠ b.1 := fun h1 => hab (Prod.ext h1 h2)
        rw [if_pos h2, if_neg h1]
        refine ⟨by simp [h2], fun n => ?_⟩
        rw [List.getElem?_set]
        by_cases hj : n = j
        · subst hj; simp [h2]; omega
        · have : ¬ j = n := fun h => hj h.symm
          simp [hj, this]
      · rw [if_neg h2]
        exact ⟨by simp [h2], fun n => by simp [h2]⟩
    obtain ⟨h1, h2, h3⟩ := ih (j + 1) (fixPair pre a b j st) hn (by rw [hlen]; omega)
    refine ⟨by rw [h1, hlen], by rw [h2, hp.1, List.any_cons, Bool.or_assoc], fun n => ?_⟩
    rw [h3 n, hp.2 n]
    by_cases hj : n = j
    · subst hj
      have : ¬ n + 1 ≤ n := by omega
      simp only [this, if_false, Nat.le_refl, if_true, Nat.sub_self, List.getElem?_cons_zero, true_and]
    · by_cases hlt : j + 1 ≤ n
      · have hle : j ≤ n := by omega
        obtain ⟨k, rfl⟩ : ∃ k, n = j + 1 + k := ⟨n - (j + 1), by omega⟩
        have e1 : j + 1 + k - (j + 1) = k := by omega
        have e2 : j + 1 + k - j = k + 1 := by omega
        simp only [hlt, hle, if_true, e1, e2, List.getElem?_cons_succ, hj, false_and, if_false]
      · have hle : ¬ j ≤ n := by omega
        simp only [hlt, hle, if_false, hj, false_and]

theorem ite_iff {p q : Prop} [Decidable p] [Decidable q] {α : Type} {x y : α} (h : p ↔ q) :
    (if p then x else y) = if q then x else y := by
  by_cases hp : p
  · rw [if_pos hp, if_pos (h.mp hp)]
  · rw [if_neg hp, if_neg (fun hq => hp (h.mpr hq))]

/-- What resolving equal names means: a member whose name another member has gets the name with the
prefix of its namespace, all others keep what they have. -/
theorem fixOuter_spec (pre : Nat → Option Txt) (rest before : List (Nat × Txt)) (disp : List (Option Txt))
    (hn : (before ++ rest).Nodup) (hl : disp.length = before.length + rest.length)
    (orig : List (Option Txt))
    (hi : ∀ (n : Nat) (b : Nat × Txt), (before ++ rest)[n]? = some b →
      disp[n]? = if ∃ c ∈ before ++ rest, c ≠ b ∧ c.2 = b.2 ∧ (n < before.length ∨ c ∈ before)
        then some (nsDisplay pre b) else orig[n]?) :
    ∀ (n : Nat) (b : Nat × Txt), (before ++ rest)[n]? = some b →
      (fixOuter pre before.length rest disp)[n]? =
        if ∃ c ∈ before ++ rest, c ≠ b ∧ c.2 = b.2 then some (nsDisplay pre b) else orig[n]? := by
  induction rest generalizing before disp with
  | nil =>
    intro n b hb
    rw [fixOuter, hi n b hb]
    simp only [List.append_nil] at hb ⊢
    have hlt : n < before.length := (List.getElem?_eq_some_iff.mp hb).1
    refine ite_iff ⟨?_, ?_⟩
    · rintro ⟨c, h1, h2, h3, -⟩; exact ⟨c, h1, h2, h3⟩
    · rintro ⟨c, h1, h2, h3⟩; exact ⟨c, h1, h2, h3, Or.inl hlt⟩
  | cons a rest ih =>
    have hassoc : before ++ a :: rest = (before ++ [a]) ++ rest := by simp
    have hna : a ∉ rest := by
      rw [List.nodup_append] at hn
      exact (List.nodup_cons.mp hn.2.1).1
    have hnb : a ∉ before := by
      rw [List.nodup_append] at hn
      exact fun h => hn.2.2 a h a (by simp) rfl
    rw [fixOuter]
    simp only [List.length_cons] at hl
    obtain ⟨h1, h2, h3⟩ := fixInner_disp pre a rest (before.length + 1) ⟨disp, 2, false⟩ hna (by simp only; omega)
    simp only [Bool.false_or] at h2
    have key := ih (before ++ [a])
      (if (fixInner pre a (before.length + 1) rest ⟨disp, 2, false⟩).renamed then
        (fixInner pre a (before.length + 1) rest ⟨disp, 2, false⟩).disp.set before.length (nsDisplay pre a)
        else (fixInner pre a (before.length + 1) rest ⟨disp, 2, false⟩).disp)
      (by rw [← hassoc]; exact hn)
      (by split <;> simp [h1, hl] <;> omega)
      (by
        intro n b hb
        rw [← hassoc] at hb ⊢
        have hib := hi n b hb
        rcases Nat.lt_trichotomy n before.length with hlt | heq | hgt
        · -- a member before `a`: not touched in this round
          have hd : (if (fixInner pre a (before.length + 1) rest ⟨disp, 2, false⟩).renamed then
              (fixInner pre a (before.length + 1) rest ⟨disp, 2, false⟩).disp.set before.length (nsDisplay pre a)
              else (fixInner pre a (before.length + 1) rest ⟨disp, 2, false⟩).disp)[n]? = disp[n]? := by
            have h3n := h3 n
            have hx : ¬ before.length + 1 ≤ n := by omega
            simp only [hx, if_false] at h3n
            split
            · rw [List.getElem?_set_ne (by omega), h3n]
            · exact h3n
          rw [hd, hib]
          have e1 : n < (before ++ [a]).length := by simp; omega
          simp only [hlt, e1, true_or, and_true]
        · -- `a` itself
          subst heq
          have hba : b = a := by simpa using hb.symm
          subst hba
          have hd0 : (fixInner pre b (before.length + 1) rest ⟨disp, 2, false⟩).disp[before.length]? =
              disp[before.length]? := by
            have h3n := h3 before.length
            have hx : ¬ before.length + 1 ≤ before.length := by omega
            simpa only [hx, if_false] using h3n
          have e1 : before.length < (before ++ [b]).length := by simp
          simp only [e1, true_or, and_true]
          by_cases hr : (rest.any fun c => decide (b.2 = c.2)) = true
          · rw [h2, if_pos hr, List.getElem?_set_self (by rw [h1]; simp only; omega)]
            obtain ⟨c, hc, hcb⟩ := List.any_eq_true.mp hr
            have hcb := of_decide_eq_true hcb
            rw [if_pos ⟨c, by simp [hc], fun h => hna (h ▸ hc), hcb.symm⟩]
          · rw [h2, if_neg hr, hd0, hib]
            congr 1
            apply propext
            constructor
            · rintro ⟨c, hc, hcb, hcn, -⟩; exact ⟨c, hc, hcb, hcn⟩
            · rintro ⟨c, hc, hcb, hcn⟩
              refine ⟨c, hc, hcb, hcn, Or.inr ?_⟩
              rcases List.mem_append.mp hc with h | h
              · exact h
              · rcases List.mem_cons.mp h with h | h
                · exact absurd h hcb
                · exact absurd (List.any_eq_true.mpr ⟨c, h, decide_eq_true hcn.symm⟩) hr
        · -- a member after `a`
          have hd : (if (fixInner pre a (before.length + 1) rest ⟨disp, 2, false⟩).renamed then
              (fixInner pre a (before.length + 1) rest ⟨disp, 2, false⟩).disp.set before.length (nsDisplay pre a)
              else (fixInner pre a (before.length + 1) rest ⟨disp, 2, false⟩).disp)[n]? =
              (fixInner pre a (before.length + 1) rest ⟨disp, 2, false⟩).disp[n]? := by
            split
            · rw [List.getElem?_set_ne (by omega)]
            · rfl
          have h3n := h3 n
          have hx : before.length + 1 ≤ n := by omega
          have hrest : rest[n - (before.length + 1)]? = some b := by
            rw [List.getElem?_append_right (by omega)] at hb
            obtain ⟨k, rfl⟩ : ∃ k, n = before.length + 1 + k := ⟨n - (before.length + 1), by omega⟩
            have e1 : before.length + 1 + k - before.length = k + 1 := by omega
            have e2 : before.length + 1 + k - (before.length + 1) = k := by omega
            rw [e1] at hb
            rw [e2]
            simpa using hb
          simp only [hx, if_true, hrest] at h3n
          rw [hd, h3n, hib]
          have hbr : b ∈ rest := List.mem_of_getElem? hrest
          have hab : a ≠ b := fun h => hna (h ▸ hbr)
          have hnlt : ¬ n < before.length := by omega
          have hnlt' : ¬ n < (before ++ [a]).length := by simp; omega
          simp only [hnlt, hnlt', false_or]
          by_cases h2 : a.2 = b.2
          · rw [if_pos h2, if_pos ⟨a, by simp, hab, h2, by simp⟩]
          · rw [if_neg h2]
            congr 1
            apply propext
            constructor
            · rintro ⟨c, hc, hcb, hcn, hm⟩; exact ⟨c, hc, hcb, hcn, by simp [hm]⟩
            · rintro ⟨c, hc, hcb, hcn, hm⟩
              refine ⟨c, hc, hcb, hcn, ?_⟩
              rcases List.mem_append.mp hm with h | h
              · exact h
              · rw [List.mem_singleton] at h
                exact absurd (h ▸ hcn) h2)
    intro n b hb
    rw [hassoc] at hb
    have := key n b hb
    rw [List.length_append, List.length_singleton] at this
    rw [this, hassoc]

/-- **C32.** If no two members have the same namespace and name, resolving conflicts gives each
member whose name occurs again the name with the prefix of its namespace (or none, if there is no
prefix), and leaves all others alone. -/
theorem C32_conflicts_exact (pre : Nat → Option Txt) (es : List Element) (hn : (es.map nsName).Nodup) :
    (fixConflicts pre es).length = es.length ∧
    ∀ (n : Nat) (e : Element), es[n]? = some e → ∃ e', (fixConflicts pre es)[n]? = some e' ∧ SameMember e e' ∧
      e'.displayName =
        if ∃ c ∈ es, nsName c ≠ nsName e ∧ c.ident.name.str = e.ident.name.str then nsDisplay pre (nsName e)
        else e.displayName := by
  have key := fixOuter_spec pre (es.map nsName) [] (es.map (·.displayName)) (by simpa using hn) (by simp)
    (es.map (·.displayName)) (by intro n b hb; simp)
  simp only [List.length_nil, List.nil_append] at key
  have get : ∀ (n : Nat) (e : Element), es[n]? = some e →
      (fixOuter pre 0 (es.map nsName) (es.map (·.displayName)))[n]? =
        some (if ∃ c ∈ es, nsName c ≠ nsName e ∧ c.ident.name.str = e.ident.name.str then nsDisplay pre (nsName e)
          else e.displayName) := by
    intro n e he
    rw [key n (nsName e) (by simp [he])]
    have hiff : (∃ c ∈ es.map nsName, c ≠ nsName e ∧ c.2 = (nsName e).2) ↔
        ∃ c ∈ es, nsName c ≠ nsName e ∧ c.ident.name.str = e.ident.name.str := by
      constructor
      · rintro ⟨c, hc, h1, h2⟩
        obtain ⟨x, hx, rfl⟩ := List.mem_map.mp hc
        exact ⟨x, hx, h1, h2⟩
      · rintro ⟨x, hx, h1, h2⟩
        exact ⟨nsName x, List.mem_map.mpr ⟨x, hx, rfl⟩, h1, h2⟩
    by_cases h : ∃ c ∈ es, nsName c ≠ nsName e ∧ c.ident.name.str = e.ident.name.str
    · rw [if_pos (hiff.mpr h), if_pos h]
    · rw [if_neg (fun x => h (hiff.mp x)), if_neg h]
      simp [he]
  refine ⟨?_, fun n e he => ?_⟩
  · rw [fixConflicts, setDisplays, List.length_zipWith]
    apply Nat.min_eq_left
    rcases Nat.lt_or_ge (fixOuter pre 0 (es.map nsName) (es.map (·.displayName))).length es.length with h | h
    · have := get _ _ (List.getElem?_eq_getElem h)
      simp at this
    · exact h
  · have hz := get n e he
    generalize hdn : (if ∃ c ∈ es, nsName c ≠ nsName e ∧ c.ident.name.str = e.ident.name.str
      then nsDisplay pre (nsName e) else e.displayName) = dn at hz
    refine ⟨{ e with displayName := dn }, ?_, rfl, rfl⟩
    rw [fixConflicts, setDisplays, List.getElem?_zipWith, he, hz]

theorem nodup_split {α β : Type} (p : α → Bool) (f : α → β) {es : List α}
    (h1 : ((es.filter p).map f).Nodup) (h2 : ((es.filter fun x => !p x).map f).Nodup)
    (h3 : ∀ x ∈ es, ∀ y ∈ es, p x = true → p y = false → f x ≠ f y) : (es.map f).Nodup := by
  induction es with
  | nil => exact List.nodup_nil
  | cons e es ih =>
    have h3' : ∀ x ∈ es, ∀ y ∈ es, p x = true → p y = false → f x ≠ f y :=
      fun x hx y hy => h3 x (by simp [hx]) y (by simp [hy])
    rw [List.map_cons, List.nodup_cons]
    cases ha : p e with
    | true =>
      simp only [List.filter_cons, ha, if_true, List.map_cons, List.nodup_cons] at h1
      simp only [List.filter_cons, ha, Bool.not_true, Bool.false_eq_true, if_false] at h2
      refine ⟨fun hm => ?_, ih h1.2 h2 h3'⟩
      obtain ⟨x, hx, hxe⟩ := List.mem_map.mp hm
      cases hxa : p x with
      | true => exact h1.1 (List.mem_map.mpr ⟨x, List.mem_filter.mpr ⟨hx, hxa⟩, hxe⟩)
      | false => exact h3 e (by simp) x (by simp [hx]) ha hxa hxe.symm
    | false =>
      simp only [List.filter_cons, ha, Bool.false_eq_true, if_false] at h1
      simp only [List.filter_cons, ha, Bool.not_false, if_true, List.map_cons, List.nodup_cons] at h2
      refine ⟨fun hm => ?_, ih h1 h2.2 h3'⟩
      obtain ⟨x, hx, hxe⟩ := List.mem_map.mp hm
      cases hxa : p x with
      | true => exact h3 x (by simp [hx]) e (by simp) hxa ha hxe
      | false => exact h2.1 (List.mem_map.mpr ⟨x, List.mem_filter.mpr ⟨hx, by simp [hxa]⟩, hxe⟩)

theorem nodup_of_inj {α β γ : Type} {f : α → β} {g : α → γ} {l : List α} (h : (l.map g).Nodup)
    (hi : ∀ x ∈ l, ∀ y ∈ l, f x = f y → g x = g y) : (l.map f).Nodup := by
  induction l with
  | nil => exact List.nodup_nil
  | cons a l ih =>
    rw [List.map_cons, List.nodup_cons] at h ⊢
    refine ⟨fun hm => ?_, ih h.2 (fun x hx y hy => hi x (by simp [hx]) y (by simp [hy]))⟩
    obtain ⟨x, hx, hxa⟩ := List.mem_map.mp hm
    exact h.1 (List.mem_map.mpr ⟨x, hx, hi x (by simp [hx]) a (by simp) hxa⟩)

/-- The identifier an element, nested group or wildcard comes with. -/
def Member.ident : Member → PropIdent
  | .element d => d.ident
  | .nested i _ _ _ => i
  | .any i _ _ _ => i

/-- The display names of `n` wildcards. -/
def wildNames (n : Nat) : List (Option Txt) :=
  if n = 1 then [some "any".toList] else (List.range n).map fun i => some ("any_".toList ++ dec i)

/-- Name and display name of a member that is no wildcard, if the names in `D` are used. -/
def Named (ns : Nat) (D : Txt → Prop) (e : Element) : Prop :=
  ∃ b, D b ∧ ((e.ident = ⟨ns, .named b⟩ ∧ (e.displayName = none ∨ e.displayName = some (b ++ ['_', '1']))) ∨
    ∃ k, 1 ≤ k ∧ e.ident = ⟨ns, .named (b ++ '_' :: dec (2 ^ k))⟩ ∧ e.displayName = none)

structure Tidy (ns : Nat) (D : Txt → Prop) (es : List Element) : Prop where
  named : ∀ e ∈ es, isAny e = false → Named ns D e
  wild : ∀ e ∈ es, isAny e = true → isGenerated e.ident.name = true
  disp : (es.filter isAny).map (·.displayName) = wildNames (es.filter isAny).length

theorem renumber_displays (i : Nat) (es : List Element)
    (hw : ∀ e ∈ es, isAny e = true → isGenerated e.ident.name = true) :
    (renumber i es).2 = i + (es.filter isAny).length ∧
    ((renumber i es).1.filter isAny).map (·.displayName) =
      (List.range' i (es.filter isAny).length).map fun i => some ("any_".toList ++ dec i) := by
  induction es generalizing i with
  | nil => exact ⟨rfl, rfl⟩
  | cons e es ih =>
    have hw' : ∀ e ∈ es, isAny e = true → isGenerated e.ident.name = true := fun x hx => hw x (by simp [hx])
    rw [renumber]
    cases ha : isAny e with
    | true =>
      rw [if_pos (by simp [hw e (by simp) ha])]
      obtain ⟨h1, h2⟩ := ih (i + 1) hw'
      simp only [List.filter_cons, ha, if_true, List.length_cons, List.range'_succ, List.map_cons]
      refine ⟨by rw [h1]; omega, ?_⟩
      rw [if_pos (by simpa [isAny] using ha), List.map_cons, h2]
    | false =>
      rw [if_neg (by simp)]
      obtain ⟨h1, h2⟩ := ih i hw'
      simp only [List.filter_cons, ha, Bool.false_eq_true, if_false]
      exact ⟨h1, h2⟩

theorem renumber_mem {i : Nat} {es : List Element} {e : Element} (h : e ∈ (renumber i es).1) :
    (isAny e = false → e ∈ es) ∧ (isAny e = true → ∃ e' ∈ es, isAny e' = true ∧ e'.ident = e.ident) := by
  induction es generalizing i with
  | nil => simp [renumber] at h
  | cons a es ih =>
    rw [renumber] at h
    split at h
    · rename_i ha
      simp only [Bool.and_eq_true] at ha
      rcases List.mem_cons.mp h with rfl | h
      · refine ⟨fun hf => ?_, fun _ => ⟨a, by simp, ha.1, rfl⟩⟩
        have : isAny a = false := hf
        rw [ha.1] at this; cases this
      · obtain ⟨h1, h2⟩ := ih h
        refine ⟨fun hf => by simp [h1 hf], fun ht => ?_⟩
        obtain ⟨e', he', hh⟩ := h2 ht
        exact ⟨e', by simp [he'], hh⟩
    · rcases List.mem_cons.mp h with rfl | h
      · exact ⟨fun _ => by simp, fun ht => ⟨e, by simp, ht, rfl⟩⟩
      · obtain ⟨h1, h2⟩ := ih h
        refine ⟨fun hf => by simp [h1 hf], fun ht => ?_⟩
        obtain ⟨e', he', hh⟩ := h2 ht
        exact ⟨e', by simp [he'], hh⟩

theorem findOrInsert_mem {d : ElementDecl} {new : Element} {es : List Element} {e : Element}
    (h : e ∈ findOrInsert d.ident new d.update es) :
    e ∈ es ∨ e = d.update new ∨ ∃ e' ∈ es, e = d.update e' := by
  induction es with
  | nil => rw [findOrInsert, List.mem_singleton] at h; exact Or.inr (Or.inl h)
  | cons a es ih =>
    rw [findOrInsert] at h
    split at h
    · rcases List.mem_cons.mp h with rfl | h
      · exact Or.inr (Or.inr ⟨a, by simp, rfl⟩)
      · exact Or.inl (by simp [h])
    · rcases List.mem_cons.mp h with rfl | h
      · exact Or.inl (by simp)
      · rcases ih h with h | h | ⟨e', h1, h2⟩
        · exact Or.inl (by simp [h])
        · exact Or.inr (Or.inl h)
        · exact Or.inr (Or.inr ⟨e', by simp [h1], h2⟩)

theorem findOrInsert_wild (d : ElementDecl) (es : List Element) :
    ((findOrInsert d.ident (newElement d.ident d.type_ .element d.form) d.update es).filter isAny).map
      (·.displayName) = (es.filter isAny).map (·.displayName) := by
  induction es with
  | nil => rfl
  | cons a es ih =>
    rw [findOrInsert]
    split
    · have : isAny (d.update a) = isAny a := rfl
      simp only [List.filter_cons, this]
      split <;> rfl
    · simp only [List.filter_cons]
      split
      · rw [List.map_cons, ih]; rfl
      · exact ih

theorem markFirst_wild (ident : PropIdent) (es : List Element)
    (hw : ∀ e ∈ es, isAny e = true → e.ident ≠ ident) :
    ((markFirst ident es).filter isAny).map (·.displayName) = (es.filter isAny).map (·.displayName) := by
  induction es with
  | nil => rfl
  | cons a es ih =>
    rw [markFirst]
    split
    · rename_i ha
      have hna : isAny a = false := by
        cases h : isAny a with
        | false => rfl
        | true => exact absurd ha (hw a (by simp) h)
      have : isAny (if a.displayName = none then { a with displayName := some (ident.name.str ++ ['_', '1']) } else a) =
          false := by
        split
        · exact hna
        · exact hna
      rw [List.filter_cons_of_neg (by rw [this]; simp), List.filter_cons_of_neg (by rw [hna]; simp)]
    · simp only [List.filter_cons]
      split
      · rw [List.map_cons, ih (fun e he => hw e (by simp [he]))]; rfl
      · exact ih (fun e he => hw e (by simp [he]))

theorem markFirst_mem {ident : PropIdent} {es : List Element} {e : Element} (h : e ∈ markFirst ident es) :
    e ∈ es ∨ ∃ e' ∈ es, e'.ident = ident ∧ e'.displayName = none ∧
      e = { e' with displayName := some (ident.name.str ++ ['_', '1']) } := by
  induction es with
  | nil => simp [markFirst] at h
  | cons a es ih =>
    rw [markFirst] at h
    split at h
    · rename_i ha
      rcases List.mem_cons.mp h with h | h
      · split at h
        · rename_i hn
          exact Or.inr ⟨a, by simp, ha, hn, h⟩
        · exact Or.inl (by simp [h])
      · exact Or.inl (by simp [h])
    · rcases List.mem_cons.mp h with rfl | h
      · exact Or.inl (by simp)
      · rcases ih h with h | ⟨e', h1, h2⟩
        · exact Or.inl (by simp [h])
        · exact Or.inr ⟨e', by simp [h1], h2⟩

theorem not_any_of_named {es : List Element} {ident : PropIdent} {b : Txt} (hb : ident.name = .named b)
    (hw : ∀ e ∈ es, isAny e = true → isGenerated e.ident.name = true) :
    ∀ e ∈ es, isAny e = true → e.ident ≠ ident := by
  intro e he ha hi
  have := hw e he ha
  rw [hi, hb] at this
  cases this

theorem Tidy.add {ns : Nat} {D : Txt → Prop} (hD : ∀ b, D b → '_' ∉ b) {m : Member} {es es' : List Element}
    (ht : Tidy ns D es) (hm : m.wild = none → ∃ b, D b ∧ m.ident = ⟨ns, .named b⟩)
    (hw : ∀ i, m.wild = some i → isGenerated i.name = true) (h : m.add es = some es') : Tidy ns D es' := by
  cases m with
  | element d =>
    obtain ⟨b, hb, hi⟩ := hm rfl
    have hi : d.ident = ⟨ns, .named b⟩ := hi
    have h' : es' = findOrInsert d.ident (newElement d.ident d.type_ .element d.form) d.update es := by
      rw [Member.add, addElement] at h
      split at h
      · split at h
        · cases h; rfl
        · cases h
      · cases h; rfl
    subst h'
    refine ⟨fun e he ha => ?_, fun e he ha => ?_, ?_⟩
    · rcases findOrInsert_mem he with h | rfl | ⟨e', h1, rfl⟩
      · exact ht.named e h ha
      · exact ⟨b, hb, Or.inl ⟨hi, Or.inl rfl⟩⟩
      · exact ht.named e' h1 ha
    · rcases findOrInsert_mem he with h | rfl | ⟨e', h1, rfl⟩
      · exact ht.wild e h ha
      · cases ha
      · exact ht.wild e' h1 ha
    · have hd := findOrInsert_wild d es
      have hl := congrArg List.length hd
      simp only [List.length_map] at hl
      rw [hd, hl, ht.disp]
  | nested i t min max =>
    obtain ⟨b, hb, hi⟩ := hm rfl
    have hi : i = ⟨ns, .named b⟩ := hi
    subst hi
    rw [Member.add, insertChecked] at h
    split at h
    · rw [Option.map_eq_some_iff] at h
      obtain ⟨j, hs, rfl⟩ := h
      obtain ⟨k, h1, -, rfl, -, -⟩ := search_some (k := 0) hs
      refine ⟨fun e he ha => ?_, fun e he ha => ?_, ?_⟩
      · rcases List.mem_append.mp he with he | he
        · rcases markFirst_mem he with he | ⟨e', he', hi, hn, rfl⟩
          · exact ht.named e he ha
          · obtain ⟨b', hb', hor⟩ := ht.named e' he' ha
            rcases hor with ⟨h3, -⟩ | ⟨k', -, h3, -⟩
            · rw [hi] at h3
              cases h3
              exact ⟨b, hb, Or.inl ⟨hi, Or.inr rfl⟩⟩
            · rw [hi] at h3
              simp only [PropIdent.mk.injEq, Name.named.injEq, true_and] at h3
              exact absurd (by rw [h3]; simp) (hD b hb)
        · rw [List.mem_singleton] at he
          subst he
          exact ⟨b, hb, Or.inr ⟨k, h1, rfl, rfl⟩⟩
      · rcases List.mem_append.mp he with he | he
        · rcases markFirst_mem he with he | ⟨e', he', hi, hn, rfl⟩
          · exact ht.wild e he ha
          · exact ht.wild e' he' ha
        · rw [List.mem_singleton] at he
          subst he
          cases ha
      · have hd := markFirst_wild ⟨ns, .named b⟩ es (not_any_of_named rfl ht.wild)
        have hl := congrArg List.length hd
        simp only [List.length_map] at hl
        rw [List.filter_append, show ([newNested t min max (suffixed ⟨ns, .named b⟩ (2 ^ k))] : List Element).filter isAny = []
          from rfl, List.append_nil, hd, hl, ht.disp]
    · cases h
      refine ⟨fun e he ha => ?_, fun e he ha => ?_, ?_⟩
      · rcases List.mem_append.mp he with he | he
        · exact ht.named e he ha
        · rw [List.mem_singleton] at he
          subst he
          exact ⟨b, hb, Or.inl ⟨rfl, Or.inl rfl⟩⟩
      · rcases List.mem_append.mp he with he | he
        · exact ht.wild e he ha
        · rw [List.mem_singleton] at he
          subst he
          cases ha
      · rw [List.filter_append, show ([newNested t min max ⟨ns, .named b⟩] : List Element).filter isAny = [] from rfl,
          List.append_nil, ht.disp]
  | any i m min max =>
    have hg := hw i rfl
    rw [Member.add] at h
    cases h
    obtain ⟨h1, h2⟩ := renumber_displays 0 es ht.wild
    refine ⟨fun e he ha => ?_, fun e he ha => ?_, ?_⟩
    · rcases List.mem_append.mp he with he | he
      · exact ht.named e ((renumber_mem he).1 ha) ha
      · rw [List.mem_singleton] at he
        subst he
        cases ha
    · rcases List.mem_append.mp he with he | he
      · obtain ⟨e', he', ha', hi⟩ := (renumber_mem he).2 ha
        rw [← hi]; exact ht.wild e' he' ha'
      · rw [List.mem_singleton] at he
        subst he
        exact hg
    · have hl := congrArg List.length h2
      simp only [List.length_map, List.length_range'] at hl
      rw [pushAny, List.filter_append]
      generalize hnew : ({ newAny i m with min := min, max := max } : Element) = el
      have hel : isAny el = true := by rw [← hnew]; rfl
      have hf : ∀ n, ([{ el with displayName := n }] : List Element).filter isAny = [{ el with displayName := n }] := by
        intro n
        have : isAny { el with displayName := n } = true := hel
        simp [this]
      rw [hf, List.map_append, h2, List.length_append, hl, h1]
      simp only [Nat.zero_add, List.length_singleton, List.map_cons, List.map_nil]
      cases hc : (es.filter isAny).length with
      | zero => simp [wildNames]
      | succ n =>
        rw [if_pos (Nat.succ_pos n), wildNames, if_neg (show ¬ n + 1 + 1 = 1 by omega), List.range_succ, List.map_append,
          List.range_eq_range']
        rfl

theorem nodup_wildNames (n : Nat) : (wildNames n).Nodup := by
  rw [wildNames]
  split
  · simp
  · refine List.Pairwise.map _ ?_ (List.nodup_range (n := n))
    intro a b hab h
    simp only [Option.some.injEq, List.append_cancel_left_eq] at h
    exact hab (dec_inj h)

theorem takeWhile_base {b r : Txt} (hb : '_' ∉ b) : (b ++ '_' :: r).takeWhile (· != '_') = b := by
  induction b with
  | nil => simp
  | cons c b ih =>
    have hc : c ≠ '_' := fun h => hb (by simp [h])
    rw [List.cons_append, List.takeWhile_cons_of_pos (by simpa using hc), ih (fun h => hb (by simp [h]))]

theorem takeWhile_all {b : Txt} (hb : '_' ∉ b) : b.takeWhile (· != '_') = b := by
  induction b with
  | nil => rfl
  | cons c b ih =>
    have hc : c ≠ '_' := fun h => hb (by simp [h])
    rw [List.takeWhile_cons_of_pos (by simpa using hc), ih (fun h => hb (by simp [h]))]

theorem dec_two_pow_ne_one {k : Nat} (hk : 1 ≤ k) : dec (2 ^ k) ≠ ['1'] := by
  intro h
  have h1 : dec 1 = ['1'] := by decide +kernel
  have := dec_inj (h.trans h1.symm)
  have h2 : 2 ^ 1 ≤ 2 ^ k := Nat.pow_le_pow_right (by decide) hk
  omega

theorem shown_base {ns : Nat} {D : Txt → Prop} (hD : ∀ b, D b → '_' ∉ b) {e : Element} (h : Named ns D e) :
    D ((shown e).takeWhile (· != '_')) := by
  obtain ⟨b, hb, ⟨hi, hd | hd⟩ | ⟨k, hk, hi, hd⟩⟩ := h
  · rw [shown, hd, hi]
    show D (List.takeWhile (fun x => x != '_') b)
    rw [takeWhile_all (hD b hb)]; exact hb
  · rw [shown, hd]
    show D (List.takeWhile (fun x => x != '_') (b ++ ['_', '1']))
    rw [takeWhile_base (hD b hb)]; exact hb
  · rw [shown, hd, hi]
    show D (List.takeWhile (fun x => x != '_') (b ++ '_' :: dec (2 ^ k)))
    rw [takeWhile_base (hD b hb)]; exact hb

/-- The text of a member that is no wildcard tells which member it is. -/
theorem shown_inj {ns : Nat} {D : Txt → Prop} (hD : ∀ b, D b → '_' ∉ b) {e e' : Element} (h : Named ns D e)
    (h' : Named ns D e') (hs : shown e = shown e') : e.ident = e'.ident := by
  have split_eq : ∀ {b b' r r' : Txt}, '_' ∉ b → '_' ∉ b' → b ++ '_' :: r = b' ++ '_' :: r' → b = b' ∧ r = r' := by
    intro b b' r r' h1 h2 h
    have hb := congrArg (List.takeWhile (· != '_')) h
    rw [takeWhile_base h1, takeWhile_base h2] at hb
    subst hb
    simpa using h
  have split_ne : ∀ {b b' r : Txt}, '_' ∉ b → b ≠ b' ++ '_' :: r := by
    intro b b' r h1 h
    exact h1 (by rw [h]; simp)
  obtain ⟨b, hb, hor⟩ := h
  obtain ⟨b', hb', hor'⟩ := h'
  rcases hor with ⟨hi, hd | hd⟩ | ⟨k, hk, hi, hd⟩ <;> rcases hor' with ⟨hi', hd' | hd'⟩ | ⟨k', hk', hi', hd'⟩ <;>
    rw [shown, shown, hd, hd'] at hs <;> rw [hi, hi'] at hs ⊢ <;>
    simp only [Option.getD_none, Option.getD_some, Name.str] at hs
  · rw [hs]
  · exact absurd hs (split_ne (hD b hb))
  · exact absurd hs (split_ne (hD b hb))
  · exact absurd hs.symm (split_ne (hD b' hb'))
  · rw [(split_eq (hD b hb) (hD b' hb') hs).1]
  · exact absurd (split_eq (hD b hb) (hD b' hb') hs).2.symm (dec_two_pow_ne_one hk')
  · exact absurd hs.symm (split_ne (hD b' hb'))
  · exact absurd (split_eq (hD b hb) (hD b' hb') hs).2 (dec_two_pow_ne_one hk)
  · rw [hs]

/-- **C32.** The names in the generated code are pairwise distinct, if the elements and groups come
from one namespace and have no underscore in their names and are not called `any`, and each wildcard
has a generated name of its own without underscore.

Missing: names with underscores and elements called `any` (where the claim is false, see
`C32_renamed_clash` and `C32_any_clash`), and several namespaces (where `C32_conflicts_exact` says
what the names are). -/
theorem C32_shown_distinct_partial {ns : Nat} {ms : List Member} {es : List Element}
    (h : addAll ms [] = some es)
    (hp : ∀ m ∈ ms, m.wild = none → ∃ b, m.ident = ⟨ns, .named b⟩ ∧ '_' ∉ b ∧ b ≠ "any".toList)
    (hw : ∀ m ∈ ms, ∀ i, m.wild = some i → ∃ g, i.name = .generated g ∧ '_' ∉ g ∧
      ∀ m' ∈ ms, m'.wild = none → m'.ident.name.str ≠ g)
    (hu : ((ms.filterMap Member.wild).map fun i => i.name.str).Nodup) (pre : Nat → Option Txt) :
    ((fixConflicts pre es).map shown).Nodup := by
  let D : Txt → Prop := fun b => ∃ m ∈ ms, m.wild = none ∧ m.ident = ⟨ns, .named b⟩
  have hD : ∀ b, D b → '_' ∉ b := by
    rintro b ⟨m, hm, hn, hi⟩
    obtain ⟨b', h1, h2, -⟩ := hp m hm hn
    rw [hi] at h1; cases h1; exact h2
  have ht : Tidy ns D es := by
    have key : ∀ (l : List Member) (xs xs' : List Element), (∀ m ∈ l, m ∈ ms) → Tidy ns D xs → addAll l xs = some xs' →
        Tidy ns D xs' := by
      intro l
      induction l with
      | nil => intro xs xs' _ ht h; cases h; exact ht
      | cons m l ih =>
        intro xs xs' hs ht h
        rw [addAll] at h
        split at h
        · cases h
        · rename_i x1 hx
          refine ih x1 xs' (fun m hm => hs m (by simp [hm])) ?_ h
          refine ht.add hD (fun hn => ?_) (fun i hi => ?_) hx
          · obtain ⟨b, hb, -⟩ := hp m (hs m (by simp)) hn
            exact ⟨b, ⟨m, hs m (by simp), hn, hb⟩, hb⟩
          · obtain ⟨g, hg, -⟩ := hw m (hs m (by simp)) i hi
            rw [hg]; rfl
    exact key ms [] es (fun _ h => h) ⟨by simp, by simp, rfl⟩ h
  obtain ⟨hn1, hn2⟩ := C32_distinct h
  -- the wildcards
  have hwild : ∀ e ∈ es, isAny e = true → ∃ g, e.ident.name = .generated g ∧ '_' ∉ g ∧ ¬ D g := by
    intro e he ha
    have hm : e.ident ∈ ms.filterMap Member.wild := by
      rw [← hn2]; exact List.mem_map.mpr ⟨e, List.mem_filter.mpr ⟨he, ha⟩, rfl⟩
    obtain ⟨m, hm, hi⟩ := List.mem_filterMap.mp hm
    obtain ⟨g, h1, h2, h3⟩ := hw m hm _ hi
    refine ⟨g, h1, h2, ?_⟩
    rintro ⟨m', hm', hn', hi'⟩
    exact h3 m' hm' hn' (by rw [hi']; rfl)
  -- all names are distinct
  have hstr : (es.map fun e => e.ident.name.str).Nodup := by
    refine nodup_split isAny _ ?_ ?_ ?_
    · rw [← hn2, List.map_map] at hu
      exact hu
    · refine nodup_of_inj hn1 (fun x hx y hy hxy => ?_)
      have nsn : ∀ e, Named ns D e → ∃ b, e.ident = ⟨ns, .named b⟩ := by
        rintro e ⟨b, -, ⟨hi, -⟩ | ⟨k, -, hi, -⟩⟩
        · exact ⟨_, hi⟩
        · exact ⟨_, hi⟩
      obtain ⟨hx, hxa⟩ := List.mem_filter.mp hx
      obtain ⟨hy, hya⟩ := List.mem_filter.mp hy
      obtain ⟨b, hb⟩ := nsn x (ht.named x hx (by simpa using hxa))
      obtain ⟨b', hb'⟩ := nsn y (ht.named y hy (by simpa using hya))
      rw [hb, hb'] at hxy ⊢
      have : b = b' := hxy
      rw [this]
    · intro x hx y hy hxa hya heq
      obtain ⟨g, h1, h2, h3⟩ := hwild x hx hxa
      obtain ⟨b, hb, ⟨hi, -⟩ | ⟨k, -, hi, -⟩⟩ := ht.named y hy hya
      · rw [h1, hi] at heq
        have : g = b := heq
        exact h3 (this ▸ hb)
      · rw [h1, hi] at heq
        have : g = b ++ '_' :: dec (2 ^ k) := heq
        exact h2 (by rw [this]; simp)
  -- resolving conflicts changes nothing
  have hfix : (fixConflicts pre es).map shown = es.map shown := by
    obtain ⟨hl, hget⟩ := C32_conflicts_exact pre es (nodup_of_inj hstr (fun x _ y _ hxy => congrArg Prod.snd hxy))
    apply List.ext_getElem?
    intro n
    rw [List.getElem?_map, List.getElem?_map]
    cases he : es[n]? with
    | none =>
      rw [List.getElem?_eq_none_iff] at he
      rw [List.getElem?_eq_none_iff.mpr (by omega)]
    | some e =>
      obtain ⟨e', h1, h2, h3⟩ := hget n e he
      rw [h1]
      have hno : ¬ ∃ c ∈ es, nsName c ≠ nsName e ∧ c.ident.name.str = e.ident.name.str := by
        rintro ⟨c, hc, hne, heq⟩
        obtain ⟨k, hk⟩ := List.getElem?_of_mem hc
        have hkn : k ≠ n := by
          rintro rfl
          rw [he] at hk; cases hk
          exact hne rfl
        have hk' : (es.map fun e => e.ident.name.str)[k]? = some e.ident.name.str := by simp [hk, heq]
        have hn' : (es.map fun e => e.ident.name.str)[n]? = some e.ident.name.str := by simp [he]
        rw [List.getElem?_eq_some_iff] at hk' hn'
        obtain ⟨hk1, hk2⟩ := hk'
        obtain ⟨hn1, hn2⟩ := hn'
        rcases Nat.lt_or_gt_of_ne hkn with hlt | hlt
        · exact List.pairwise_iff_getElem.mp hstr k n hk1 hn1 hlt (hk2.trans hn2.symm)
        · exact List.pairwise_iff_getElem.mp hstr n k hn1 hk1 hlt (hn2.trans hk2.symm)
      rw [if_neg hno] at h3
      rw [h2, h3]
  rw [hfix]
  refine nodup_split isAny shown ?_ ?_ ?_
  · -- wildcards have the display names of `wildNames`
    refine nodup_of_inj (g := fun e => e.displayName) (by rw [ht.disp]; exact nodup_wildNames _) ?_
    intro x hx y hy hxy
    have some_disp : ∀ e ∈ es.filter isAny, ∃ t, e.displayName = some t := by
      intro e he
      have : e.displayName ∈ wildNames (es.filter isAny).length := by
        rw [← ht.disp]; exact List.mem_map.mpr ⟨e, he, rfl⟩
      rw [wildNames] at this
      split at this
      · exact ⟨_, List.mem_singleton.mp this⟩
      · obtain ⟨i, -, hi⟩ := List.mem_map.mp this
        exact ⟨_, hi.symm⟩
    obtain ⟨a, ha⟩ := some_disp x hx
    obtain ⟨b, hb⟩ := some_disp y hy
    rw [shown, shown, ha, hb] at hxy
    rw [ha, hb]
    exact congrArg some hxy
  · exact nodup_of_inj hn1 (fun x hx y hy hxy => by
      obtain ⟨hx, hxa⟩ := List.mem_filter.mp hx
      obtain ⟨hy, hya⟩ := List.mem_filter.mp hy
      exact shown_inj hD (ht.named x hx (by simpa using hxa)) (ht.named y hy (by simpa using hya)) hxy)
  · intro x hx y hy hxa hya heq
    have hb := shown_base hD (ht.named y hy hya)
    rw [← heq] at hb
    have hx' : x.displayName ∈ wildNames (es.filter isAny).length := by
      rw [← ht.disp]; exact List.mem_map.mpr ⟨x, List.mem_filter.mpr ⟨hx, hxa⟩, rfl⟩
    have htw : (shown x).takeWhile (· != '_') = "any".toList := by
      rw [wildNames] at hx'
      split at hx'
      · rw [shown, List.mem_singleton.mp hx']
        show List.takeWhile (· != '_') "any".toList = _
        decide +kernel
      · obtain ⟨i, -, hi⟩ := List.mem_map.mp hx'
        rw [shown, ← hi]
        show List.takeWhile (fun x => x != '_') ("any".toList ++ '_' :: dec i) = _
        exact takeWhile_base (by decide +kernel)
    rw [htw] at hb
    obtain ⟨m, hm, hn, hi⟩ := hb
    obtain ⟨b', h1, -, h3⟩ := hp m hm hn
    rw [hi] at h1
    cases h1
    exact h3 rfl

/-! ## Examples and counterexamples -/

/-- An element, a nested group, a wildcard. -/
def exElement (name : String) (ns : Nat := 0) : Member :=
  .element ⟨⟨ns, .named name.toList⟩, exId "T", .qualified, none, 1, .bounded 1, []⟩

def exNested (name : String) (ns : Nat := 0) : Member :=
  .nested ⟨ns, .named name.toList⟩ (exId "G") 1 (.bounded 1)

def exAny (n : Nat) : Member :=
  .any ⟨9, .generated ("any".toList ++ dec n)⟩ ⟨none, none, none, none, []⟩ 1 (.bounded 1)

/-- The names in the generated code. -/
def shownAll (pre : Nat → Option Txt) (ms : List Member) : Option (List String) :=
  (addAll ms []).map fun es => (fixConflicts pre es).map fun e => String.ofList (shown e)

/-- Prefixes of three namespaces. -/
def exPre : Nat → Option Txt
  | 0 => some "a".toList
  | 1 => some "b".toList
  | _ => none

-- the hypotheses of the theorems above are met
example : shownAll exPre [exElement "x", exNested "g", exAny 1, exNested "g", exElement "y", exAny 5, exNested "x", exElement "x"] =
    some ["x_1", "g_1", "any_0", "g_2", "y", "any_1", "x_2"] := by decide +kernel

example : ∀ m ∈ [exElement "x", exNested "g", exAny 1, exNested "g", exAny 5], m.wild = none →
    ∃ b, m.ident = ⟨0, .named b⟩ ∧ '_' ∉ b ∧ b ≠ "any".toList := by
  simp only [List.mem_cons, List.not_mem_nil, or_false]
  rintro m (rfl | rfl | rfl | rfl | rfl) h
  · exact ⟨"x".toList, by decide +kernel⟩
  · exact ⟨"g".toList, by decide +kernel⟩
  · cases h
  · exact ⟨"g".toList, by decide +kernel⟩
  · cases h

example : (([exElement "x", exNested "g", exAny 1, exNested "g", exAny 5].filterMap Member.wild).map
    fun i => i.name.str).Nodup := by decide +kernel

example : shownAll exPre [exElement "x" 0, exElement "y" 0, exElement "x" 1, exElement "x" 2] =
    some ["a_x", "y", "b_x", "x"] := by decide +kernel

/-- **C32 (negation).** An element called `any` and a wildcard get the same name. -/
theorem C32_any_clash : shownAll exPre [exElement "any", exAny 1] = some ["any", "any"] := by decide +kernel

/-- **C32 (negation).** The display name given to the first use of a group can be the name of an
element. -/
theorem C32_renamed_clash :
    shownAll exPre [exNested "g", exNested "g", exElement "g_1"] = some ["g_1", "g_2", "g_1"] := by decide +kernel

/-- **C32 (negation).** The name with a prefix can be the name of another element, and two
namespaces without prefix leave equal names as they are. -/
theorem C32_prefix_clash :
    shownAll exPre [exElement "x" 0, exElement "x" 1, exElement "a_x" 0] = some ["a_x", "b_x", "a_x"] ∧
    shownAll exPre [exElement "x" 2, exElement "x" 3] = some ["x", "x"] := by decide +kernel

/-- **C32 (negation).** An element with the name of a group that was used before it in the same
list makes the interpreter panic; the other order is fine. -/
theorem C32_group_then_element_panics :
    addAll [exNested "g", exElement "g"] [] = none ∧
    shownAll exPre [exElement "g", exNested "g"] = some ["g_1", "g_2"] := by decide +kernel

/-- **C32 (negation).** A group can be used 31 times in one list, and not 32 times: the number of
the candidate overflows. -/
theorem C32_many_clashes_overflow :
    (addAll (List.replicate 31 (exNested "g")) []).isSome = true ∧
    addAll (List.replicate 32 (exNested "g")) [] = none := by decide +kernel

end Verif.Interp

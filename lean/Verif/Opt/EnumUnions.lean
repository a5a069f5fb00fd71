import Verif.Opt.Unions
import Verif.Opt.Dynamic
/-!
# Merging the enumerations inside a union into one enumeration (C55)

Models `xsd-parser/src/pipeline/optimizer/merge_enum_unions.rs`.
-/
namespace Verif.Opt

open Verif.Meta

/-! ## Model -/

/-- `next: Option<MetaTypeVariant>`, which is only ever empty, a union or an enumeration. -/
inductive MAcc where
  | none
  | union (types : List UnionType)
  | enum (variants : List EnumVariant)
deriving DecidableEq

/-- `variants.find_or_insert(ident, |ident| EnumerationMetaVariant::new(ident).with_type(type_))` followed by setting the
display name, merge_enum_unions.rs:116-122, 135-140, 158-161. -/
def insertVariant (vs : List EnumVariant) (x : PropIdent × Option Ident × Option Txt) : List EnumVariant :=
  findOrInsert (fun v : EnumVariant => v.ident == x.1) ⟨x.1, .optional, x.2.1, none, [], none⟩
    (fun v => { v with displayName := x.2.2 }) vs

/-- The conversion of what was collected so far to an enumeration, merge_enum_unions.rs:105-129. -/
def MAcc.toEnum : MAcc → List EnumVariant
  | .none => []
  | .enum vs => vs
  | .union ts => (ts.map fun t => (t.type_.toProp, some t.type_, t.displayName)).foldl insertVariant []

/-- The branch for an enumeration, merge_enum_unions.rs:104-141. -/
def MAcc.addEnum (acc : MAcc) (vs : List EnumVariant) : MAcc :=
  .enum ((vs.map fun v => (v.ident, v.type_, v.displayName)).foldl insertVariant acc.toEnum)

/-- The branch for other types, merge_enum_unions.rs:145-165. -/
def MAcc.addMember (acc : MAcc) (i : Ident) (dn : Option Txt) : MAcc :=
  match acc with
  | .none => .union [⟨i, dn⟩]
  | .union ts => .union (ts ++ [⟨i, dn⟩])
  | .enum vs => .enum (insertVariant vs (i.toProp, some i, dn))

/-- `Optimizer::merge_enum_union_impl`, merge_enum_unions.rs:86-168. `fuel` bounds the depth of the recursion. -/
def mergeF (T : Types) : Nat → Ident → Option Txt → MAcc → Option MAcc
  | 0, _, _, _ => none
  | fuel + 1, i, dn, acc =>
    match look T i with
    | none => some acc
    | some (.union u) => u.types.foldlM (fun acc t => mergeF T fuel t.type_ t.displayName acc) acc
    | some (.enumeration x) => some (acc.addEnum x.variants)
    | some v =>
      match v.target with
      | some k => mergeF T fuel k dn acc
      | none => some (acc.addMember i dn)

/-- `Optimizer::merge_enum_union`, merge_enum_unions.rs:36-57. The new definition has the default base and constrains. -/
def mergeEnumUnion (fuel : Nat) (T : Types) (i : Ident) : Res Types :=
  match look T i with
  | none => .err (.unknownType i)
  | some (.union _) =>
    match mergeF T fuel i none .none with
    | none => .diverged
    | some .none => .ok T
    | some (.union ts) => .ok (setVariant T i (.union ⟨.none, ts, .default⟩))
    | some (.enum vs) => .ok (setVariant T i (.enumeration ⟨.none, vs, .default⟩))
  | some _ => .err (.expectedUnion i)

/-- `Optimizer::merge_enum_unions`, merge_enum_unions.rs:62-84. -/
def mergeEnumUnions (fuel : Nat) (T : Types) : Res Types :=
  forEach (mergeEnumUnion fuel) T ((T.filter (fun p => isUnion p.2.variant)).map (·.1))

/-! ## Specification -/

def isEnumV : Variant → Bool
  | .enumeration _ => true
  | _ => false

/-- A definition that is neither a union, an enumeration nor a synonym. -/
def IsLeaf (v : Variant) : Prop := isUnion v = false ∧ isEnumV v = false ∧ v.target = none

/-- An alternative of a simple type, going into unions, enumerations and through synonyms: a name together with a type
(texts of that type) or without one (the name itself is the text). -/
inductive Item (T : Types) : Ident → PropIdent × Option Ident → Prop
  | member {i u t it} : look T i = some (.union u) → t ∈ u.types → Item T t.type_ it → Item T i it
  | variant {i x v} : look T i = some (.enumeration x) → v ∈ x.variants → Item T i (v.ident, v.type_)
  | synonym {i k it} : Synonym T i k → Item T k it → Item T i it
  | leaf {i v} : look T i = some v → IsLeaf v → Item T i (i.toProp, some i)

/-- The alternative accepts the text. -/
def ItemAccepts (P : Lex) (T : Types) (it : PropIdent × Option Ident) (s : Txt) : Prop :=
  (it.2 = none ∧ it.1.name = .named s) ∨ ∃ t, it.2 = some t ∧ Valid P T (.text t s)

/-- Alternatives with the same name are the same. -/
def NamesDiffer (S : PropIdent × Option Ident → Prop) : Prop := ∀ p a b, S (p, a) → S (p, b) → a = b

/-- An enumeration is inside: `i` is one, is a union with a member that contains one, or a synonym of such a type. -/
inductive ContainsEnum (T : Types) : Ident → Prop
  | enum {i x} : look T i = some (.enumeration x) → ContainsEnum T i
  | member {i u t} : look T i = some (.union u) → t ∈ u.types → ContainsEnum T t.type_ → ContainsEnum T i
  | synonym {i k} : Synonym T i k → ContainsEnum T k → ContainsEnum T i

/-! ## Proofs -/

def varItems (vs : List EnumVariant) : List (PropIdent × Option Ident) := vs.map fun v => (v.ident, v.type_)

def MAcc.items : MAcc → List (PropIdent × Option Ident)
  | .none => []
  | .union ts => ts.map fun t => (t.type_.toProp, some t.type_)
  | .enum vs => varItems vs

theorem insertVariant_items {S : PropIdent × Option Ident → Prop} (hS : NamesDiffer S) (vs : List EnumVariant)
    (x : PropIdent × Option Ident × Option Txt) (hv : ∀ it ∈ varItems vs, S it) (hx : S (x.1, x.2.1))
    (it : PropIdent × Option Ident) :
    it ∈ varItems (insertVariant vs x) ↔ it ∈ varItems vs ∨ it = (x.1, x.2.1) := by
  unfold insertVariant
  rcases findOrInsert_cases (fun v : EnumVariant => v.ident == x.1) ⟨x.1, .optional, x.2.1, none, [], none⟩
      (fun v => { v with displayName := x.2.2 }) vs with ⟨a, e, b, rfl, he, hr⟩ | ⟨-, hr⟩
  · rw [hr]
    have heq : varItems (a ++ { e with displayName := x.2.2 } :: b) = varItems (a ++ e :: b) := by
      simp [varItems]
    rw [heq]
    have hm : (e.ident, e.type_) ∈ varItems (a ++ e :: b) := by simp [varItems]
    have hid : e.ident = x.1 := by simpa using he
    have : e.type_ = x.2.1 := by
      have h1 := hv _ hm
      rw [hid] at h1
      exact hS _ _ _ h1 hx
    rw [hid, this] at hm
    exact ⟨Or.inl, fun h => h.elim id (fun h => by rw [h]; exact hm)⟩
  · rw [hr]
    simp [varItems]

theorem foldVariants_items {S : PropIdent × Option Ident → Prop} (hS : NamesDiffer S)
    (l : List (PropIdent × Option Ident × Option Txt)) (vs : List EnumVariant) (hv : ∀ it ∈ varItems vs, S it)
    (hl : ∀ x ∈ l, S (x.1, x.2.1)) (it : PropIdent × Option Ident) :
    it ∈ varItems (l.foldl insertVariant vs) ↔ it ∈ varItems vs ∨ ∃ x ∈ l, it = (x.1, x.2.1) := by
  induction l generalizing vs with
  | nil => simp
  | cons x l ih =>
    have hx := hl x (by simp)
    have hi := insertVariant_items hS vs x hv hx
    rw [List.foldl_cons, ih _ (fun it h => ((hi it).1 h).elim (hv it) (fun h => by rw [h]; exact hx))
      (fun y hy => hl y (List.mem_cons_of_mem _ hy)), hi]
    constructor
    · rintro ((h | h) | ⟨y, hy, h⟩)
      · exact Or.inl h
      · exact Or.inr ⟨x, by simp, h⟩
      · exact Or.inr ⟨y, by simp [hy], h⟩
    · rintro (h | ⟨y, hy, h⟩)
      · exact Or.inl (Or.inl h)
      · rcases List.mem_cons.1 hy with rfl | hy
        · exact Or.inl (Or.inr h)
        · exact Or.inr ⟨y, hy, h⟩

theorem toEnum_items {S : PropIdent × Option Ident → Prop} (hS : NamesDiffer S) (acc : MAcc)
    (h : ∀ it ∈ acc.items, S it) (it : PropIdent × Option Ident) : it ∈ varItems acc.toEnum ↔ it ∈ acc.items := by
  cases acc with
  | none => simp [MAcc.toEnum, MAcc.items, varItems]
  | enum vs => exact Iff.rfl
  | union ts =>
    simp only [MAcc.toEnum, MAcc.items] at h ⊢
    rw [foldVariants_items hS _ _ (by simp [varItems]) (by
      intro x hx
      obtain ⟨t, ht, rfl⟩ := List.mem_map.1 hx
      exact h _ (List.mem_map.2 ⟨t, ht, rfl⟩))]
    simp only [varItems, List.map_nil, List.not_mem_nil, false_or, List.mem_map]
    constructor
    · rintro ⟨x, ⟨t, ht, rfl⟩, rfl⟩; exact ⟨t, ht, rfl⟩
    · rintro ⟨t, ht, rfl⟩; exact ⟨_, ⟨t, ht, rfl⟩, rfl⟩

theorem addEnum_items {S : PropIdent × Option Ident → Prop} (hS : NamesDiffer S) (acc : MAcc) (vs : List EnumVariant)
    (h : ∀ it ∈ acc.items, S it) (hv : ∀ v ∈ vs, S (v.ident, v.type_)) (it : PropIdent × Option Ident) :
    it ∈ (acc.addEnum vs).items ↔ it ∈ acc.items ∨ ∃ v ∈ vs, it = (v.ident, v.type_) := by
  simp only [MAcc.addEnum, MAcc.items]
  rw [foldVariants_items hS _ _ (fun it hi => h it ((toEnum_items hS acc h it).1 hi)) (by
    intro x hx
    obtain ⟨v, hm, rfl⟩ := List.mem_map.1 hx
    exact hv v hm), toEnum_items hS acc h]
  constructor
  · rintro (h | ⟨x, hx, rfl⟩)
    · exact Or.inl h
    · obtain ⟨v, hm, rfl⟩ := List.mem_map.1 hx
      exact Or.inr ⟨v, hm, rfl⟩
  · rintro (h | ⟨v, hm, rfl⟩)
    · exact Or.inl h
    · exact Or.inr ⟨_, List.mem_map.2 ⟨v, hm, rfl⟩, rfl⟩

theorem addMember_items {S : PropIdent × Option Ident → Prop} (hS : NamesDiffer S) (acc : MAcc) (i : Ident)
    (dn : Option Txt) (h : ∀ it ∈ acc.items, S it) (hi : S (i.toProp, some i)) (it : PropIdent × Option Ident) :
    it ∈ (acc.addMember i dn).items ↔ it ∈ acc.items ∨ it = (i.toProp, some i) := by
  cases acc with
  | none => simp [MAcc.addMember, MAcc.items]
  | union ts => simp [MAcc.addMember, MAcc.items]
  | enum vs =>
    simp only [MAcc.addMember, MAcc.items]
    exact insertVariant_items hS vs _ h hi it

/-- What is known of the accumulator: the members of a union are leaves of the table. -/
def MAcc.Ok (T : Types) : MAcc → Prop
  | .union ts => ∀ t ∈ ts, ∃ v, look T t.type_ = some v ∧ IsLeaf v
  | _ => True

def MAcc.isEnum : MAcc → Prop
  | .enum _ => True
  | _ => False

def MAcc.isNone : MAcc → Prop
  | .none => True
  | _ => False

theorem item_union {T : Types} {i : Ident} {u : Union} (h : look T i = some (.union u)) (it : PropIdent × Option Ident) :
    Item T i it ↔ ∃ t ∈ u.types, Item T t.type_ it := by
  constructor
  · intro hi
    cases hi with
    | member h' ht hi => rw [h] at h'; cases h'; exact ⟨_, ht, hi⟩
    | variant h' _ => rw [h] at h'; cases h'
    | synonym hs _ => obtain ⟨v, hv, ht⟩ := synonym_look.1 hs; rw [h] at hv; cases hv; cases ht
    | leaf h' hl => rw [h] at h'; cases h'; cases hl.1
  · rintro ⟨t, ht, hi⟩; exact .member h ht hi

theorem item_enum {T : Types} {i : Ident} {x : Enumeration} (h : look T i = some (.enumeration x))
    (it : PropIdent × Option Ident) : Item T i it ↔ ∃ v ∈ x.variants, it = (v.ident, v.type_) := by
  constructor
  · intro hi
    cases hi with
    | member h' ht hi => rw [h] at h'; cases h'
    | variant h' hv => rw [h] at h'; cases h'; exact ⟨_, hv, rfl⟩
    | synonym hs _ => obtain ⟨v, hv, ht⟩ := synonym_look.1 hs; rw [h] at hv; cases hv; cases ht
    | leaf h' hl => rw [h] at h'; cases h'; cases hl.2.1
  · rintro ⟨v, hv, rfl⟩; exact .variant h hv

theorem item_synonym {T : Types} {i k : Ident} (h : Synonym T i k) (it : PropIdent × Option Ident) :
    Item T i it ↔ Item T k it := by
  obtain ⟨v, hv, ht⟩ := synonym_look.1 h
  constructor
  · intro hi
    cases hi with
    | member h' _ _ => rw [hv] at h'; cases h'; cases ht
    | variant h' _ => rw [hv] at h'; cases h'; cases ht
    | synonym hs hi => rw [h.unique hs]; exact hi
    | leaf h' hl => rw [hv] at h'; cases h'; rw [hl.2.2] at ht; cases ht
  · exact .synonym h

theorem item_leaf {T : Types} {i : Ident} {v : Variant} (h : look T i = some v) (hl : IsLeaf v)
    (it : PropIdent × Option Ident) : Item T i it ↔ it = (i.toProp, some i) := by
  constructor
  · intro hi
    cases hi with
    | member h' _ _ => rw [h] at h'; cases h'; cases hl.1
    | variant h' _ => rw [h] at h'; cases h'; cases hl.2.1
    | synonym hs _ => obtain ⟨v', hv, ht⟩ := synonym_look.1 hs; rw [h] at hv; cases hv; rw [hl.2.2] at ht; cases ht
    | leaf _ _ => rfl
  · rintro rfl; exact .leaf h hl

theorem item_none {T : Types} {i : Ident} (h : look T i = none) (it : PropIdent × Option Ident) : ¬ Item T i it := by
  intro hi
  cases hi with
  | member h' _ _ => rw [h] at h'; cases h'
  | variant h' _ => rw [h] at h'; cases h'
  | synonym hs _ => obtain ⟨v', hv, ht⟩ := synonym_look.1 hs; rw [h] at hv; cases hv
  | leaf h' _ => rw [h] at h'; cases h'

theorem containsEnum_not {T : Types} {i : Ident} {v : Variant} (h : look T i = some v) (hl : IsLeaf v) :
    ¬ ContainsEnum T i := by
  intro hi
  cases hi with
  | enum h' => rw [h] at h'; cases h'; cases hl.2.1
  | member h' _ _ => rw [h] at h'; cases h'; cases hl.1
  | synonym hs _ => obtain ⟨v', hv, ht⟩ := synonym_look.1 hs; rw [h] at hv; cases hv; rw [hl.2.2] at ht; cases ht

theorem containsEnum_none {T : Types} {i : Ident} (h : look T i = none) : ¬ ContainsEnum T i := by
  intro hi
  cases hi with
  | enum h' => rw [h] at h'; cases h'
  | member h' _ _ => rw [h] at h'; cases h'
  | synonym hs _ => obtain ⟨v', hv, ht⟩ := synonym_look.1 hs; rw [h] at hv; cases hv

theorem containsEnum_union {T : Types} {i : Ident} {u : Union} (h : look T i = some (.union u)) :
    ContainsEnum T i ↔ ∃ t ∈ u.types, ContainsEnum T t.type_ := by
  constructor
  · intro hi
    cases hi with
    | enum h' => rw [h] at h'; cases h'
    | member h' ht hi => rw [h] at h'; cases h'; exact ⟨_, ht, hi⟩
    | synonym hs _ => obtain ⟨v', hv, ht⟩ := synonym_look.1 hs; rw [h] at hv; cases hv; cases ht
  · rintro ⟨t, ht, hi⟩; exact .member h ht hi

theorem containsEnum_synonym {T : Types} {i k : Ident} (h : Synonym T i k) : ContainsEnum T i ↔ ContainsEnum T k := by
  obtain ⟨v, hv, ht⟩ := synonym_look.1 h
  constructor
  · intro hi
    cases hi with
    | enum h' => rw [hv] at h'; cases h'; cases ht
    | member h' _ _ => rw [hv] at h'; cases h'; cases ht
    | synonym hs hi => rw [h.unique hs]; exact hi
  · exact .synonym h

theorem mergeF_union {T : Types} {n : Nat} {i : Ident} {dn : Option Txt} {acc : MAcc} {u : Union}
    (h : look T i = some (.union u)) :
    mergeF T (n + 1) i dn acc = u.types.foldlM (fun acc t => mergeF T n t.type_ t.displayName acc) acc := by
  rw [mergeF, h]

theorem mergeF_enum {T : Types} {n : Nat} {i : Ident} {dn : Option Txt} {acc : MAcc} {x : Enumeration}
    (h : look T i = some (.enumeration x)) : mergeF T (n + 1) i dn acc = some (acc.addEnum x.variants) := by
  rw [mergeF, h]

theorem mergeF_other {T : Types} {n : Nat} {i : Ident} {dn : Option Txt} {acc : MAcc} {v : Variant}
    (h : look T i = some v) (hu : isUnion v = false) (he : isEnumV v = false) :
    mergeF T (n + 1) i dn acc =
      match v.target with | some k => mergeF T n k dn acc | none => some (acc.addMember i dn) := by
  rw [mergeF, h]
  cases v <;> simp_all [isUnion, isEnumV]

/-- The kinds of definitions the recursion distinguishes. -/
theorem kinds (T : Types) (i : Ident) :
    look T i = none ∨ (∃ u, look T i = some (.union u)) ∨ (∃ x, look T i = some (.enumeration x)) ∨
    (∃ k v, Synonym T i k ∧ look T i = some v ∧ v.target = some k ∧ isUnion v = false ∧ isEnumV v = false) ∨
    ∃ v, look T i = some v ∧ IsLeaf v := by
  cases h : look T i with
  | none => exact Or.inl rfl
  | some v =>
    right
    cases hu : isUnion v with
    | true => cases v <;> simp [isUnion] at hu; exact Or.inl ⟨_, rfl⟩
    | false =>
      right
      cases he : isEnumV v with
      | true => cases v <;> simp [isEnumV] at he; exact Or.inl ⟨_, rfl⟩
      | false =>
        right
        cases ht : v.target with
        | some k => exact Or.inl ⟨k, v, synonym_look.2 ⟨v, h, ht⟩, rfl, ht, hu, he⟩
        | none => exact Or.inr ⟨v, rfl, hu, he, ht⟩

theorem mergeF_spec {T : Types} {S : PropIdent × Option Ident → Prop} (hS : NamesDiffer S) (n : Nat) (i : Ident)
    (dn : Option Txt) (acc acc' : MAcc) (h : mergeF T n i dn acc = some acc') (ha : ∀ it ∈ acc.items, S it)
    (hi : ∀ it, Item T i it → S it) (hok : acc.Ok T) :
    (∀ it, it ∈ acc'.items ↔ it ∈ acc.items ∨ Item T i it) ∧ acc'.Ok T ∧
    (acc'.isEnum ↔ acc.isEnum ∨ ContainsEnum T i) := by
  induction n generalizing i dn acc acc' with
  | zero => cases h
  | succ n ih =>
    rcases kinds T i with hl | ⟨u, hl⟩ | ⟨x, hl⟩ | ⟨k, v, hs, hl, ht, hu, he⟩ | ⟨v, hl, hleaf⟩
    · rw [mergeF, hl] at h
      cases h
      exact ⟨fun it => ⟨Or.inl, fun h => h.elim id (fun h => absurd h (item_none hl it))⟩, hok,
        ⟨Or.inl, fun h => h.elim id (fun h => absurd h (containsEnum_none hl))⟩⟩
    · rw [mergeF_union hl] at h
      have hsub : ∀ t ∈ u.types, ∀ it, Item T t.type_ it → S it := fun t ht it h => hi it (.member hl ht h)
      simp only [item_union hl, containsEnum_union hl]
      clear hl hi
      generalize u.types = ts at h hsub
      induction ts generalizing acc with
      | nil => simp only [List.foldlM_nil] at h; cases h; simp [hok]
      | cons t ts ih' =>
        simp only [List.foldlM_cons, Option.bind_eq_bind, Option.bind_eq_some_iff] at h
        obtain ⟨mid, hm, hr⟩ := h
        obtain ⟨h1, h2, h3⟩ := ih t.type_ t.displayName acc mid hm ha (hsub t (by simp)) hok
        obtain ⟨g1, g2, g3⟩ := ih' mid (fun it hit => ((h1 it).1 hit).elim (ha it) (hsub t (by simp) it)) h2 hr
          (fun t' ht' => hsub t' (List.mem_cons_of_mem _ ht'))
        refine ⟨fun it => ?_, g2, ?_⟩
        · rw [g1, h1]
          simp only [List.mem_cons, exists_eq_or_imp, or_assoc]
        · rw [g3, h3]
          simp only [List.mem_cons, exists_eq_or_imp, or_assoc]
    · rw [mergeF_enum hl] at h
      cases h
      refine ⟨fun it => ?_, trivial, ?_⟩
      · rw [addEnum_items hS acc _ ha (fun v hv => hi _ (.variant hl hv)), item_enum hl]
      · exact ⟨fun _ => Or.inr (.enum hl), fun _ => trivial⟩
    · rw [mergeF_other hl hu he, ht] at h
      obtain ⟨h1, h2, h3⟩ := ih k dn acc acc' h ha (fun it hit => hi it (.synonym hs hit)) hok
      exact ⟨fun it => by rw [h1, item_synonym hs], h2, by rw [h3, containsEnum_synonym hs]⟩
    · rw [mergeF_other hl hleaf.1 hleaf.2.1, hleaf.2.2] at h
      cases h
      refine ⟨fun it => ?_, ?_, ?_⟩
      · rw [addMember_items hS acc i dn ha (hi _ (.leaf hl hleaf)), item_leaf hl hleaf]
      · cases acc with
        | none => intro t ht; simp at ht; subst ht; exact ⟨v, hl, hleaf⟩
        | union ts =>
          intro t ht
          rcases List.mem_append.1 ht with ht | ht
          · exact hok t ht
          · simp at ht; subst ht; exact ⟨v, hl, hleaf⟩
        | enum vs => exact trivial
      · have := containsEnum_not hl hleaf
        cases acc <;> simp [MAcc.addMember, MAcc.isEnum, this]

/-- One step of the pass: the definition of `i` is replaced. -/
structure Merged (T T' : Types) (i : Ident) (u : Union) (V : Variant) : Prop where
  old : look T i = some (.union u)
  new : look T' i = some V
  other : ∀ k, k ≠ i → look T' k = look T k
  items : (∃ vs, V = .enumeration ⟨.none, vs, .default⟩ ∧ (∀ it, it ∈ varItems vs ↔ Item T i it)) ∨
    (∃ ts, V = .union ⟨.none, ts, .default⟩ ∧ (∀ it, it ∈ (MAcc.union ts).items ↔ Item T i it) ∧
      ∀ t ∈ ts, ∃ v, look T t.type_ = some v ∧ IsLeaf v)
  enum : isEnumV V = true ↔ ContainsEnum T i

theorem mergeEnumUnion_ok {n : Nat} {T T' : Types} {i : Ident} (h : mergeEnumUnion n T i = .ok T')
    (hd : NamesDiffer (Item T i)) :
    (T' = T ∧ ∃ u, look T i = some (.union u) ∧ (∀ it, ¬ Item T i it) ∧ ¬ ContainsEnum T i) ∨ ∃ u V, Merged T T' i u V := by
  unfold mergeEnumUnion at h
  cases hl : look T i with
  | none => rw [hl] at h; cases h
  | some v =>
    rw [hl] at h
    cases v with
    | union u =>
      simp only at h
      cases hm : mergeF T n i none .none with
      | none => rw [hm] at h; cases h
      | some acc =>
        rw [hm] at h
        obtain ⟨h1, h2, h3⟩ := mergeF_spec hd n i none .none acc hm (by simp [MAcc.items]) (fun it h => h) trivial
        have h1 : ∀ it, it ∈ acc.items ↔ Item T i it := fun it => by rw [h1]; simp [MAcc.items]
        have h3 : acc.isEnum ↔ ContainsEnum T i := by rw [h3]; simp [MAcc.isEnum]
        cases acc with
        | none =>
          cases h
          exact Or.inl ⟨rfl, u, rfl, fun it hi => by have := (h1 it).2 hi; simp [MAcc.items] at this,
            fun hc => h3.2 hc⟩
        | union ts =>
          cases h
          refine Or.inr ⟨u, _, hl, by rw [look_setVariant, if_pos rfl, hl]; rfl,
            fun k hk => by rw [look_setVariant, if_neg hk], Or.inr ⟨ts, rfl, h1, h2⟩, ?_⟩
          rw [← h3]; simp [isEnumV, MAcc.isEnum]
        | enum vs =>
          cases h
          refine Or.inr ⟨u, _, hl, by rw [look_setVariant, if_pos rfl, hl]; rfl,
            fun k hk => by rw [look_setVariant, if_neg hk], Or.inl ⟨vs, rfl, h1⟩, ?_⟩
          rw [← h3]; simp [isEnumV, MAcc.isEnum]
    | _ => cases h

theorem Merged.new_not_synonym {T T' : Types} {i : Ident} {u : Union} {V : Variant} (h : Merged T T' i u V) (k : Ident) :
    ¬ Synonym T' i k := by
  intro hs
  obtain ⟨v, hv, ht⟩ := synonym_look.1 hs
  rw [h.new] at hv; cases hv
  rcases h.items with ⟨vs, rfl, -⟩ | ⟨ts, rfl, -⟩ <;> cases ht

theorem Merged.old_not_synonym {T T' : Types} {i : Ident} {u : Union} {V : Variant} (h : Merged T T' i u V) (k : Ident) :
    ¬ Synonym T i k := by
  intro hs
  obtain ⟨v, hv, ht⟩ := synonym_look.1 hs
  rw [h.old] at hv; cases hv; cases ht

theorem Merged.leaf_ne {T T' : Types} {i : Ident} {u : Union} {V : Variant} (h : Merged T T' i u V) {t : Ident}
    {v : Variant} (ht : look T t = some v) (hl : IsLeaf v) : t ≠ i := by
  rintro rfl
  rw [h.old] at ht; cases ht; cases hl.1

theorem Merged.item {T T' : Types} {i : Ident} {u : Union} {V : Variant} (h : Merged T T' i u V) (j : Ident)
    (it : PropIdent × Option Ident) : Item T' j it ↔ Item T j it := by
  have new_i : ∀ it, Item T' i it ↔ Item T i it := by
    intro it
    rcases h.items with ⟨vs, hV, hit⟩ | ⟨ts, hV, hit, hleaf⟩
    · have hn := h.new; rw [hV] at hn
      rw [item_enum hn, ← hit]
      simp only [varItems, List.mem_map]
      exact ⟨fun ⟨v, hv, he⟩ => ⟨v, hv, he.symm⟩, fun ⟨v, hv, he⟩ => ⟨v, hv, he.symm⟩⟩
    · have hn := h.new; rw [hV] at hn
      rw [item_union hn, ← hit]
      simp only [MAcc.items, List.mem_map]
      constructor
      · rintro ⟨t, ht, hi⟩
        obtain ⟨v, hv, hl⟩ := hleaf t ht
        have : look T' t.type_ = some v := by rw [h.other _ (h.leaf_ne hv hl)]; exact hv
        rw [item_leaf this hl] at hi
        exact ⟨t, ht, hi.symm⟩
      · rintro ⟨t, ht, rfl⟩
        obtain ⟨v, hv, hl⟩ := hleaf t ht
        have : look T' t.type_ = some v := by rw [h.other _ (h.leaf_ne hv hl)]; exact hv
        exact ⟨t, ht, (item_leaf this hl _).2 rfl⟩
  constructor
  · intro hi
    induction hi with
    | @member a w t it hl ht hsub ih =>
      by_cases ha : a = i
      · subst ha; exact (new_i it).1 (.member hl ht hsub)
      · rw [h.other a ha] at hl; exact .member hl ht ih
    | @variant a x v hl hv =>
      by_cases ha : a = i
      · subst ha; exact (new_i _).1 (.variant hl hv)
      · rw [h.other a ha] at hl; exact .variant hl hv
    | @synonym a k it hs _ ih =>
      have ha : a ≠ i := by rintro rfl; exact h.new_not_synonym k hs
      exact .synonym ((synonym_congr (h.other a ha) k).1 hs) ih
    | @leaf a v hl hv =>
      by_cases ha : a = i
      · subst ha; exact (new_i _).1 (.leaf hl hv)
      · rw [h.other a ha] at hl; exact .leaf hl hv
  · intro hi
    induction hi with
    | @member a w t it hl ht hsub ih =>
      by_cases ha : a = i
      · subst ha; exact (new_i it).2 (.member hl ht hsub)
      · rw [← h.other a ha] at hl; exact .member hl ht ih
    | @variant a x v hl hv =>
      by_cases ha : a = i
      · subst ha; exact (new_i _).2 (.variant hl hv)
      · rw [← h.other a ha] at hl; exact .variant hl hv
    | @synonym a k it hs _ ih =>
      have ha : a ≠ i := by rintro rfl; exact h.old_not_synonym k hs
      exact .synonym ((synonym_congr (h.other a ha) k).2 hs) ih
    | @leaf a v hl hv =>
      by_cases ha : a = i
      · subst ha; exact (new_i _).2 (.leaf hl hv)
      · rw [← h.other a ha] at hl; exact .leaf hl hv

/-- A valid text is accepted by one of the alternatives. -/
theorem item_of_valid {P : Lex} {T : Types} {i : Ident} {s : Txt} (h : Valid P T (.text i s)) :
    ∃ it, Item T i it ∧ ItemAccepts P T it s := by
  generalize hj : Judge.text i s = j at h
  induction h generalizing i s with
  | refText h1 h2 h3 h4 h5 ih =>
    cases hj
    rename_i r _
    by_cases hn : r.nillable = true
    · refine ⟨_, .leaf (look_of h1 h2) ⟨rfl, rfl, ?_⟩, Or.inr ⟨_, rfl, .refText h1 h2 h3 h4 h5⟩⟩
      simp [Variant.target, Reference.isSimple, hn]
    · obtain ⟨it, hi, ha⟩ := ih rfl
      exact ⟨it, .synonym ⟨_, r, h1, h2, rfl, by simpa using hn, h3, h4⟩ hi, ha⟩
  | listText h1 h2 h3 h4 h5 =>
    cases hj
    refine ⟨_, .leaf (look_of h1 h2) ⟨rfl, rfl, ?_⟩, Or.inr ⟨_, rfl, .listText h1 h2 h3 h4 h5⟩⟩
    rename_i r _ _
    simp only [Variant.target]
    rw [if_neg]
    intro hs
    exact h3 ((isSimple_iff r).1 hs).2
  | unionText h1 h2 h3 h4 h5 ih =>
    cases hj
    obtain ⟨it, hi, ha⟩ := ih rfl
    exact ⟨it, .member (look_of h1 h2) h3 hi, ha⟩
  | builtInText h1 h2 h3 =>
    cases hj; exact ⟨_, .leaf (look_of h1 h2) ⟨rfl, rfl, rfl⟩, Or.inr ⟨_, rfl, .builtInText h1 h2 h3⟩⟩
  | customText h1 h2 h3 =>
    cases hj; exact ⟨_, .leaf (look_of h1 h2) ⟨rfl, rfl, rfl⟩, Or.inr ⟨_, rfl, .customText h1 h2 h3⟩⟩
  | literalText h1 h2 h3 h4 h5 => cases hj; exact ⟨_, .variant (look_of h1 h2) h3, Or.inl ⟨h4, h5⟩⟩
  | variantText h1 h2 h3 h4 h5 => cases hj; exact ⟨_, .variant (look_of h1 h2) h3, Or.inr ⟨_, h4, h5⟩⟩
  | simpleText h1 h2 h3 h4 h5 =>
    cases hj; exact ⟨_, .leaf (look_of h1 h2) ⟨rfl, rfl, rfl⟩, Or.inr ⟨_, rfl, .simpleText h1 h2 h3 h4 h5⟩⟩
  | simpleListText h1 h2 h3 h4 h5 =>
    cases hj; exact ⟨_, .leaf (look_of h1 h2) ⟨rfl, rfl, rfl⟩, Or.inr ⟨_, rfl, .simpleListText h1 h2 h3 h4 h5⟩⟩
  | _ => cases hj

/-- Without facets of unions, a text accepted by an alternative is valid. -/
theorem valid_of_item {P : Lex} {T : Types} (hP : NoFacets P T) {i : Ident} {it : PropIdent × Option Ident} {s : Txt}
    (h : Item T i it) (ha : ItemAccepts P T it s) : Valid P T (.text i s) := by
  induction h with
  | member hl ht _ ih =>
    obtain ⟨ty, hg, hv⟩ := look_iff.1 hl
    exact .unionText hg hv ht (by rw [hP.2 _ _ hl]; exact hP.1 s) (ih ha)
  | variant hl hv =>
    obtain ⟨ty, hg, hv'⟩ := look_iff.1 hl
    rcases ha with ⟨h1, h2⟩ | ⟨t, h1, h2⟩
    · exact .literalText hg hv' hv h1 h2
    · exact .variantText hg hv' hv h1 h2
  | synonym hs _ ih => exact (ih ha).text_synonym hs
  | leaf hl hleaf =>
    rcases ha with ⟨h1, -⟩ | ⟨t, h1, h2⟩
    · cases h1
    · cases h1; exact h2

/-- A step loses no document. -/
theorem Merged.accepts {P : Lex} {T T' : Types} {i : Ident} {u : Union} {V : Variant} (h : Merged T T' i u V)
    (hd : ∀ s, P.facets .default s) {j : Judge} (hv : Valid P T j) : Valid P T' j := by
  refine Valid.simulate (fun k => ?_) hv
  by_cases hk : k = i
  · subst hk
    right
    intro j hj hs
    rcases hs.union hj h.old with ⟨m, s, rfl, hm, -, hR⟩ | ⟨s, xsi, rfl, hR⟩
    · obtain ⟨it, hi, ha⟩ := item_of_valid hR
      have hi' : Item T' k it := (h.item k it).2 (.member h.old hm ((h.item _ it).1 hi))
      obtain ⟨ty, hg, hvar⟩ := look_iff.1 h.new
      rcases h.items with ⟨vs, rfl, -⟩ | ⟨ts, rfl, -, hleaf⟩
      · obtain ⟨v, hv, rfl⟩ := (item_enum h.new it).1 hi'
        rcases ha with ⟨h1, h2⟩ | ⟨t, h1, h2⟩
        · exact .literalText hg hvar hv h1 h2
        · exact .variantText hg hvar hv h1 h2
      · obtain ⟨t, ht, hit⟩ := (item_union h.new it).1 hi'
        obtain ⟨v, hv, hl⟩ := hleaf t ht
        have : look T' t.type_ = some v := by rw [h.other _ (h.leaf_ne hv hl)]; exact hv
        rw [item_leaf this hl] at hit
        subst hit
        rcases ha with ⟨h1, -⟩ | ⟨t', h1, h2⟩
        · cases h1
        · cases h1; exact .unionText hg hvar ht (hd s) h2
    · exact .textValue hR
  · left; exact (h.other k hk).symm

/-- A step adds no document if unions have no facets. -/
theorem Merged.accepts_no_more {P : Lex} {T T' : Types} {i : Ident} {u : Union} {V : Variant} (h : Merged T T' i u V)
    (hP : NoFacets P T) {j : Judge} (hv : Valid P T' j) : Valid P T j := by
  refine Valid.simulate (fun k => ?_) hv
  by_cases hk : k = i
  · subst hk
    right
    intro j hj hs
    have fin : ∀ s it, Item T' k it → ItemAccepts P T it s → Valid P T (.text k s) :=
      fun s it hi ha => valid_of_item hP ((h.item k it).1 hi) ha
    rcases h.items with ⟨vs, hV, -⟩ | ⟨ts, hV, -, hleaf⟩
    · have hn := h.new
      rw [hV] at hn
      rcases hs.enumeration hj hn with ⟨v, s, rfl, hv, ha⟩ | ⟨s, xsi, rfl, hR⟩
      · exact fin s _ (.variant hn hv) ha
      · exact .textValue hR
    · have hn := h.new
      rw [hV] at hn
      rcases hs.union hj hn with ⟨m, s, rfl, hm, -, hR⟩ | ⟨s, xsi, rfl, hR⟩
      · obtain ⟨v, hv, hl⟩ := hleaf m hm
        have : look T' m.type_ = some v := by rw [h.other _ (h.leaf_ne hv hl)]; exact hv
        exact fin s _ (.member hn hm (.leaf this hl)) (Or.inr ⟨_, rfl, hR⟩)
      · exact .textValue hR
  · left; exact h.other k hk

theorem Merged.noFacets {P : Lex} {T T' : Types} {i : Ident} {u : Union} {V : Variant} (h : Merged T T' i u V)
    (hP : NoFacets P T) : NoFacets P T' := by
  refine ⟨hP.1, fun k w hk => ?_⟩
  by_cases hki : k = i
  · subst hki
    rw [h.new] at hk
    rcases h.items with ⟨vs, rfl, -⟩ | ⟨ts, rfl, -⟩ <;> cases hk
    rfl
  · rw [h.other k hki] at hk; exact hP.2 k w hk

theorem Merged.containsEnum {T T' : Types} {i : Ident} {u : Union} {V : Variant} (h : Merged T T' i u V) (j : Ident) :
    ContainsEnum T' j ↔ ContainsEnum T j := by
  have new_i : ContainsEnum T' i ↔ ContainsEnum T i := by
    rw [← h.enum]
    rcases h.items with ⟨vs, hV, -⟩ | ⟨ts, hV, -, hleaf⟩
    · have hn := h.new
      rw [hV] at hn
      rw [hV]
      exact ⟨fun _ => rfl, fun _ => .enum hn⟩
    · have hn := h.new
      rw [hV] at hn
      rw [hV, containsEnum_union hn]
      constructor
      · rintro ⟨t, ht, hc⟩
        obtain ⟨v, hv, hl⟩ := hleaf t ht
        have : look T' t.type_ = some v := by rw [h.other _ (h.leaf_ne hv hl)]; exact hv
        exact absurd hc (containsEnum_not this hl)
      · intro h; cases h
  constructor
  · intro hc
    induction hc with
    | @enum a x hl =>
      by_cases ha : a = i
      · subst ha; exact new_i.1 (.enum hl)
      · rw [h.other a ha] at hl; exact .enum hl
    | @member a w t hl ht hsub ih =>
      by_cases ha : a = i
      · subst ha; exact new_i.1 (.member hl ht hsub)
      · rw [h.other a ha] at hl; exact .member hl ht ih
    | @synonym a k hs _ ih =>
      have ha : a ≠ i := by rintro rfl; exact h.new_not_synonym k hs
      exact .synonym ((synonym_congr (h.other a ha) k).1 hs) ih
  · intro hc
    induction hc with
    | @enum a x hl =>
      by_cases ha : a = i
      · subst ha; exact new_i.2 (.enum hl)
      · rw [← h.other a ha] at hl; exact .enum hl
    | @member a w t hl ht hsub ih =>
      by_cases ha : a = i
      · subst ha; exact new_i.2 (.member hl ht hsub)
      · rw [← h.other a ha] at hl; exact .member hl ht ih
    | @synonym a k hs _ ih =>
      have ha : a ≠ i := by rintro rfl; exact h.old_not_synonym k hs
      exact .synonym ((synonym_congr (h.other a ha) k).2 hs) ih

/-! ## Termination -/

theorem mergeF_total {T : Types} (rank : Ident → Nat) (hr : ∀ i k, Inside T i k → rank k < rank i) (n : Nat) (i : Ident)
    (dn : Option Txt) (acc : MAcc) (h : rank i < n) : ∃ acc', mergeF T n i dn acc = some acc' := by
  induction n generalizing i dn acc with
  | zero => omega
  | succ n ih =>
    rcases kinds T i with hl | ⟨u, hl⟩ | ⟨x, hl⟩ | ⟨k, v, hs, hl, ht, hu, he⟩ | ⟨v, hl, hleaf⟩
    · rw [mergeF, hl]; exact ⟨acc, rfl⟩
    · rw [mergeF_union hl]
      have hlt : ∀ t ∈ u.types, rank t.type_ < n := by
        intro t ht
        have := hr i t.type_ (Or.inr ⟨u, hl, t, ht, rfl⟩)
        omega
      generalize u.types = ts at hlt
      induction ts generalizing acc with
      | nil => exact ⟨acc, rfl⟩
      | cons t ts ih' =>
        obtain ⟨m, hm⟩ := ih t.type_ t.displayName acc (hlt t (by simp))
        simp only [List.foldlM_cons, hm, Option.bind_eq_bind, Option.bind_some]
        exact ih' m (fun t' ht' => hlt t' (List.mem_cons_of_mem _ ht'))
    · rw [mergeF_enum hl]; exact ⟨_, rfl⟩
    · rw [mergeF_other hl hu he, ht]
      have := hr i k (Or.inl hs)
      exact ih k dn acc (by omega)
    · rw [mergeF_other hl hleaf.1 hleaf.2.1, hleaf.2.2]; exact ⟨_, rfl⟩

theorem mergeF_members {T : Types} (n : Nat) (i : Ident) (dn : Option Txt) (acc acc' : MAcc)
    (h : mergeF T n i dn acc = some acc') (hok : acc.Ok T) : acc'.Ok T := by
  induction n generalizing i dn acc acc' with
  | zero => cases h
  | succ n ih =>
    rcases kinds T i with hl | ⟨u, hl⟩ | ⟨x, hl⟩ | ⟨k, v, hs, hl, ht, hu, he⟩ | ⟨v, hl, hleaf⟩
    · rw [mergeF, hl] at h; cases h; exact hok
    · rw [mergeF_union hl] at h
      clear hl
      generalize u.types = ts at h
      induction ts generalizing acc with
      | nil => simp only [List.foldlM_nil] at h; cases h; exact hok
      | cons t ts ih' =>
        simp only [List.foldlM_cons, Option.bind_eq_bind, Option.bind_eq_some_iff] at h
        obtain ⟨mid, hm, hr⟩ := h
        exact ih' mid (ih _ _ _ _ hm hok) hr
    · rw [mergeF_enum hl] at h; cases h; exact trivial
    · rw [mergeF_other hl hu he, ht] at h; exact ih _ _ _ _ h hok
    · rw [mergeF_other hl hleaf.1 hleaf.2.1, hleaf.2.2] at h
      cases h
      cases acc with
      | none => intro t ht; simp at ht; subst ht; exact ⟨v, hl, hleaf⟩
      | union ts =>
        intro t ht
        rcases List.mem_append.1 ht with ht | ht
        · exact hok t ht
        · simp at ht; subst ht; exact ⟨v, hl, hleaf⟩
      | enum vs => exact trivial

/-- `r` goes down into unions and synonyms, and is zero for the leaves. -/
def RankOk (T : Types) (r : Ident → Nat) : Prop :=
  (∀ a b, Inside T a b → r b < r a) ∧ ∀ a v, look T a = some v → IsLeaf v → r a = 0

theorem mergeEnumUnion_total {T : Types} {n : Nat} {i : Ident} {u : Union} (hi : look T i = some (.union u)) :
    (mergeEnumUnion n T i = .diverged ∧ mergeF T n i none .none = none) ∨
    ∃ T', mergeEnumUnion n T i = .ok T' ∧ (∀ k, k ≠ i → look T' k = look T k) ∧
      ∀ r, RankOk T r → RankOk T' r := by
  unfold mergeEnumUnion
  rw [hi]
  simp only
  cases hm : mergeF T n i none .none with
  | none => exact Or.inl ⟨rfl, rfl⟩
  | some acc =>
    right
    cases acc with
    | none => exact ⟨T, rfl, fun _ _ => rfl, fun _ h => h⟩
    | enum vs =>
      refine ⟨_, rfl, fun k hk => by rw [look_setVariant, if_neg hk], fun r hr => ?_⟩
      have hn : look (setVariant T i (.enumeration ⟨.none, vs, .default⟩)) i = some (.enumeration ⟨.none, vs, .default⟩) := by
        rw [look_setVariant, if_pos rfl, hi]; rfl
      have ho : ∀ k, k ≠ i → look (setVariant T i (.enumeration ⟨.none, vs, .default⟩)) k = look T k :=
        fun k hk => by rw [look_setVariant, if_neg hk]
      constructor
      · intro a b hab
        by_cases ha : a = i
        · subst ha
          rcases hab with hs | ⟨w, hw, -⟩
          · obtain ⟨v, hv, ht⟩ := synonym_look.1 hs; rw [hn] at hv; cases hv; cases ht
          · rw [hn] at hw; cases hw
        · refine hr.1 a b ?_
          rcases hab with hs | ⟨w, hw, h⟩
          · exact Or.inl ((synonym_congr (ho a ha) b).1 hs)
          · rw [ho a ha] at hw; exact Or.inr ⟨w, hw, h⟩
      · intro a v hv hl
        by_cases ha : a = i
        · subst ha; rw [hn] at hv; cases hv; cases hl.2.1
        · rw [ho a ha] at hv; exact hr.2 a v hv hl
    | union ts =>
      refine ⟨_, rfl, fun k hk => by rw [look_setVariant, if_neg hk], fun r hr => ?_⟩
      have hn : look (setVariant T i (.union ⟨.none, ts, .default⟩)) i = some (.union ⟨.none, ts, .default⟩) := by
        rw [look_setVariant, if_pos rfl, hi]; rfl
      have ho : ∀ k, k ≠ i → look (setVariant T i (.union ⟨.none, ts, .default⟩)) k = look T k :=
        fun k hk => by rw [look_setVariant, if_neg hk]
      have hm' := mergeF_members n i none .none _ hm trivial
      have hpos : 0 < r i := by
        cases hu : u.types with
        | nil =>
          cases n with
          | zero => cases hm
          | succ n => rw [mergeF_union hi, hu] at hm; cases hm
        | cons t rest =>
          have := hr.1 i t.type_ (Or.inr ⟨u, hi, t, by simp [hu], rfl⟩)
          omega
      constructor
      · intro a b hab
        by_cases ha : a = i
        · subst ha
          rcases hab with hs | ⟨w, hw, t, ht, rfl⟩
          · obtain ⟨v, hv, ht⟩ := synonym_look.1 hs; rw [hn] at hv; cases hv; cases ht
          · rw [hn] at hw; cases hw
            obtain ⟨v, hv, hl⟩ := hm' t ht
            rw [hr.2 _ v hv hl]; exact hpos
        · refine hr.1 a b ?_
          rcases hab with hs | ⟨w, hw, h⟩
          · exact Or.inl ((synonym_congr (ho a ha) b).1 hs)
          · rw [ho a ha] at hw; exact Or.inr ⟨w, hw, h⟩
      · intro a v hv hl
        by_cases ha : a = i
        · subst ha; rw [hn] at hv; cases hv; cases hl.1
        · rw [ho a ha] at hv; exact hr.2 a v hv hl

theorem mergeAll_total (n : Nat) (ids : List Ident) (hn : ids.Nodup) (T : Types)
    (hu : ∀ i ∈ ids, ∃ u, look T i = some (.union u)) :
    ((∃ T', forEach (mergeEnumUnion n) T ids = .ok T') ∨ forEach (mergeEnumUnion n) T ids = .diverged) ∧
    ∀ r, RankOk T r → (∀ i, r i < n) → ∃ T', forEach (mergeEnumUnion n) T ids = .ok T' := by
  induction ids generalizing T with
  | nil => exact ⟨Or.inl ⟨T, rfl⟩, fun _ _ _ => ⟨T, rfl⟩⟩
  | cons i ids ih =>
    obtain ⟨u, hi⟩ := hu i (by simp)
    rw [List.nodup_cons] at hn
    rcases mergeEnumUnion_total (n := n) hi with ⟨h, hF⟩ | ⟨T', h, ho, hr⟩
    · refine ⟨Or.inr (by simp only [forEach, h, Res.unwrap]), fun r hr hb => ?_⟩
      obtain ⟨acc, ha⟩ := mergeF_total r hr.1 n i none .none (hb i)
      rw [hF] at ha; cases ha
    · obtain ⟨h1, h2⟩ := ih hn.2 T' (fun k hk => by
        rw [ho k (by rintro rfl; exact hn.1 hk)]; exact hu k (List.mem_cons_of_mem _ hk))
      simp only [forEach, h, Res.unwrap]
      exact ⟨h1, fun r hr' hb => h2 r (hr r hr') hb⟩

/-- What the pass has achieved after the unions `S`. -/
structure MergeInv (T₀ T : Types) (S : Ident → Prop) : Prop where
  item : ∀ j it, Item T j it ↔ Item T₀ j it
  contains : ∀ j, ContainsEnum T j ↔ ContainsEnum T₀ j
  other : ∀ k, ¬ S k → look T k = look T₀ k
  done : ∀ k, S k →
    (ContainsEnum T₀ k ∧ ∃ vs, look T k = some (.enumeration ⟨.none, vs, .default⟩) ∧
      ∀ it, it ∈ varItems vs ↔ Item T₀ k it) ∨
    (¬ ContainsEnum T₀ k ∧ ∃ u, look T k = some (.union u))
  accepts : ∀ P : Lex, (∀ s, P.facets .default s) → ∀ j, Valid P T₀ j → Valid P T j
  noMore : ∀ P : Lex, NoFacets P T₀ → NoFacets P T ∧ ∀ j, Valid P T j → Valid P T₀ j

theorem MergeInv.start (T : Types) : MergeInv T T (fun _ => False) :=
  ⟨fun _ _ => Iff.rfl, fun _ => Iff.rfl, fun _ _ => rfl, fun _ h => h.elim, fun _ _ _ h => h, fun _ h => ⟨h, fun _ h => h⟩⟩

theorem MergeInv.step {T₀ T T' : Types} {S : Ident → Prop} {n : Nat} {i : Ident} (hI : MergeInv T₀ T S) (hS : ¬ S i)
    (hd : NamesDiffer (Item T₀ i)) (h : mergeEnumUnion n T i = .ok T') : MergeInv T₀ T' (fun k => k = i ∨ S k) := by
  have hd' : NamesDiffer (Item T i) := fun p a b h1 h2 => hd p a b ((hI.item _ _).1 h1) ((hI.item _ _).1 h2)
  rcases mergeEnumUnion_ok h hd' with ⟨rfl, u, hu, -, hc⟩ | ⟨u, V, hM⟩
  · refine ⟨hI.item, hI.contains, fun k hk => hI.other k (fun h => hk (Or.inr h)), ?_, hI.accepts, hI.noMore⟩
    rintro k (rfl | hk)
    · exact Or.inr ⟨fun h => hc ((hI.contains k).2 h), u, hu⟩
    · exact hI.done k hk
  · refine ⟨fun j it => by rw [hM.item, hI.item], fun j => by rw [hM.containsEnum, hI.contains], ?_, ?_,
      fun P hP j hv => hM.accepts hP (hI.accepts P hP j hv), fun P hP => ?_⟩
    · intro k hk
      rw [hM.other k (fun h => hk (Or.inl h)), hI.other k (fun h => hk (Or.inr h))]
    · rintro k (rfl | hk)
      · have he := hM.enum
        rw [hI.contains] at he
        rcases hM.items with ⟨vs, rfl, hit⟩ | ⟨ts, rfl, -⟩
        · exact Or.inl ⟨he.1 rfl, vs, hM.new, fun it => by rw [hit, hI.item]⟩
        · exact Or.inr ⟨fun h => absurd (he.2 h) (by simp [isEnumV]), _, hM.new⟩
      · rw [hM.other k (by rintro rfl; exact hS hk)]
        exact hI.done k hk
    · obtain ⟨h1, h2⟩ := hI.noMore P hP
      exact ⟨hM.noFacets h1, fun j hv => h2 j (hM.accepts_no_more h1 hv)⟩

theorem mergeAll_inv (n : Nat) (ids : List Ident) (hn : ids.Nodup) (T₀ T T' : Types) (S : Ident → Prop)
    (hI : MergeInv T₀ T S) (hS : ∀ i ∈ ids, ¬ S i) (hd : ∀ i ∈ ids, NamesDiffer (Item T₀ i))
    (h : forEach (mergeEnumUnion n) T ids = .ok T') : ∃ S', MergeInv T₀ T' S' ∧ ∀ k, S' k ↔ k ∈ ids ∨ S k := by
  induction ids generalizing T S with
  | nil => simp only [forEach] at h; cases h; exact ⟨S, hI, by simp⟩
  | cons i ids ih =>
    rw [List.nodup_cons] at hn
    cases hr : mergeEnumUnion n T i with
    | ok T₁ =>
      simp only [forEach, hr, Res.unwrap] at h
      obtain ⟨S', h1, h2⟩ := ih hn.2 T₁ _ (hI.step (hS i (by simp)) (hd i (by simp)) hr)
        (fun k hk h => h.elim (by rintro rfl; exact hn.1 hk) (hS k (List.mem_cons_of_mem _ hk)))
        (fun k hk => hd k (List.mem_cons_of_mem _ hk)) h
      refine ⟨S', h1, fun k => ?_⟩
      rw [h2, List.mem_cons]
      constructor
      · rintro (h | h | h)
        · exact Or.inl (Or.inr h)
        · exact Or.inl (Or.inl h)
        · exact Or.inr h
      · rintro ((h | h) | h)
        · exact Or.inr (Or.inl h)
        · exact Or.inl h
        · exact Or.inr (Or.inr h)
    | err e => simp only [forEach, hr, Res.unwrap] at h; cases h
    | panic => simp only [forEach, hr, Res.unwrap] at h; cases h
    | diverged => simp only [forEach, hr, Res.unwrap] at h; cases h

theorem unionIds {T : Types} (hk : Assoc.Keyed T) :
    ((T.filter (fun p => isUnion p.2.variant)).map (·.1)).Nodup ∧
    ∀ i, i ∈ (T.filter (fun p => isUnion p.2.variant)).map (·.1) ↔ ∃ u, look T i = some (.union u) := by
  refine ⟨List.Sublist.nodup ((List.filter_sublist).map _) hk, fun i => ?_⟩
  simp only [List.mem_map, List.mem_filter]
  constructor
  · rintro ⟨⟨i, ty⟩, ⟨hm, hu⟩, rfl⟩
    have := Assoc.get_of_mem hk hm
    cases hv : ty.variant with
    | union u => exact ⟨u, look_of this hv⟩
    | _ => simp only [hv, isUnion] at hu; cases hu
  · rintro ⟨u, hu⟩
    obtain ⟨ty, h1, h2⟩ := look_iff.1 hu
    exact ⟨(i, ty), ⟨Assoc.mem_of_get h1, by simp only [h2, isUnion]⟩, rfl⟩

/-- No two alternatives of a union have the same name. -/
def UnionNamesDiffer (T : Types) : Prop := ∀ i u, look T i = some (.union u) → NamesDiffer (Item T i)

theorem merge_inv {n : Nat} {T T' : Types} (hk : Assoc.Keyed T) (hd : UnionNamesDiffer T)
    (h : mergeEnumUnions n T = .ok T') : ∃ S, MergeInv T T' S ∧ ∀ k, S k ↔ ∃ u, look T k = some (.union u) := by
  obtain ⟨h1, h2⟩ := unionIds hk
  obtain ⟨S, hS, hm⟩ := mergeAll_inv n _ h1 T T T' _ (.start T) (fun _ _ h => h)
    (fun i hi => by obtain ⟨u, hu⟩ := (h2 i).1 hi; exact hd i u hu) h
  exact ⟨S, hS, fun k => by rw [hm, h2]; simp⟩

/-! ## Theorems -/

/-- C55: the pass does not panic. -/
theorem C55_never_panics (n : Nat) (T : Types) (hk : Assoc.Keyed T) :
    (∃ T', mergeEnumUnions n T = .ok T') ∨ mergeEnumUnions n T = .diverged :=
  (mergeAll_total n _ (unionIds hk).1 T (fun i hi => ((unionIds hk).2 i).1 hi)).1

/-- C55: the pass ends when no union contains itself (through members and synonyms). -/
theorem C55_ends (T : Types) (hk : Assoc.Keyed T) (hl : NoLoop (Inside T)) (n : Nat) (hn : T.length + 1 < n) :
    ∃ T', mergeEnumUnions n T = .ok T' := by
  obtain ⟨rank, hr, hb⟩ := rank_of_noLoop (Inside T) (Assoc.keys T) (by
    intro i k h
    have : Defined T i := by
      rcases h with h | ⟨u, h, -⟩
      · exact h.defined
      · obtain ⟨ty, h1, -⟩ := look_iff.1 h; exact ⟨ty, h1⟩
    obtain ⟨ty, h1⟩ := this
    exact List.mem_map.2 ⟨(i, ty), Assoc.mem_of_get h1, rfl⟩) hl
  classical
  let r : Ident → Nat := fun a => if ∃ v, look T a = some v ∧ IsLeaf v then 0 else rank a + 1
  refine (mergeAll_total n _ (unionIds hk).1 T (fun i hi => ((unionIds hk).2 i).1 hi)).2 r ⟨?_, ?_⟩ ?_
  · intro a b hab
    have h0 := hr a b hab
    have ha : ¬ ∃ v, look T a = some v ∧ IsLeaf v := by
      rintro ⟨v, hv, hl⟩
      rcases hab with hs | ⟨u, hu, -⟩
      · obtain ⟨w, hw, ht⟩ := synonym_look.1 hs; rw [hv] at hw; cases hw; rw [hl.2.2] at ht; cases ht
      · rw [hv] at hu; cases hu; cases hl.1
    simp only [r, if_neg ha]
    split <;> omega
  · intro a v hv hl
    simp only [r]
    rw [if_pos ⟨v, hv, hl⟩]
  · intro a
    have := hb a
    simp only [Assoc.keys, List.length_map] at this
    simp only [r]
    split <;> omega

/-- C55: no type gains or loses an alternative if the alternatives of each union have different names.
Missing: unions with two alternatives of the same name; the second is lost, see `C55_same_name_lost`. -/
theorem C55_same_alternatives_partial (n : Nat) (T T' : Types) (hk : Assoc.Keyed T) (hd : UnionNamesDiffer T)
    (h : mergeEnumUnions n T = .ok T') (i : Ident) (it : PropIdent × Option Ident) : Item T' i it ↔ Item T i it := by
  obtain ⟨S, hS, -⟩ := merge_inv hk hd h
  exact hS.item i it

/-- C55: a union with an enumeration inside becomes an enumeration that lists exactly the alternatives of the union;
another union stays a union; other types are not touched. -/
theorem C55_becomes_enumeration_partial (n : Nat) (T T' : Types) (hk : Assoc.Keyed T) (hd : UnionNamesDiffer T)
    (h : mergeEnumUnions n T = .ok T') (i : Ident) :
    (∀ u, look T i = some (.union u) → ContainsEnum T i → ∃ x, look T' i = some (.enumeration x) ∧
      ∀ p t, (∃ v ∈ x.variants, v.ident = p ∧ v.type_ = t) ↔ Item T i (p, t)) ∧
    (∀ u, look T i = some (.union u) → ¬ ContainsEnum T i → ∃ u', look T' i = some (.union u')) ∧
    ((∀ u, look T i ≠ some (.union u)) → look T' i = look T i) := by
  obtain ⟨S, hS, hm⟩ := merge_inv hk hd h
  refine ⟨fun u hu hc => ?_, fun u hu hc => ?_, fun hu => hS.other i (fun h => ?_)⟩
  · rcases hS.done i ((hm i).2 ⟨u, hu⟩) with ⟨-, vs, hv, hit⟩ | ⟨h, -⟩
    · refine ⟨_, hv, fun p t => ?_⟩
      rw [← hit]
      simp only [varItems, List.mem_map, Prod.mk.injEq]
    · exact absurd hc h
  · rcases hS.done i ((hm i).2 ⟨u, hu⟩) with ⟨h, -⟩ | ⟨-, h⟩
    · exact absurd h hc
    · exact h
  · obtain ⟨u, h⟩ := (hm i).1 h
    exact hu u h

/-- C55: no document that was accepted is rejected afterwards, if the alternatives of each union have different names.
Missing: unions with two alternatives of the same name. -/
theorem C55_accepts_no_less_partial (P : Lex) (n : Nat) (T T' : Types) (hk : Assoc.Keyed T) (hd : UnionNamesDiffer T)
    (hP : ∀ s, P.facets .default s) (h : mergeEnumUnions n T = .ok T') (j : Judge) (hv : Valid P T j) : Valid P T' j := by
  obtain ⟨S, hS, -⟩ := merge_inv hk hd h
  exact hS.accepts P hP j hv

/-- C55: exactly the same documents are accepted, if also no union has facets of its own.
Missing: unions with facets, whose facets are lost, see `C55_facets_lost`. -/
theorem C55_same_documents_partial (P : Lex) (n : Nat) (T T' : Types) (hk : Assoc.Keyed T) (hd : UnionNamesDiffer T)
    (hP : NoFacets P T) (h : mergeEnumUnions n T = .ok T') (j : Judge) : Valid P T' j ↔ Valid P T j := by
  obtain ⟨S, hS, -⟩ := merge_inv hk hd h
  exact ⟨(hS.noMore P hP).2 j, hS.accepts P hP.1 j⟩

/-! ## Examples and counterexamples -/

def litVar (s : String) : EnumVariant := ⟨⟨0, .named s.toList⟩, .optional, none, none, [], none⟩

/-- A union of a string type `A` and the enumeration `E` = {"x", "y"}. -/
def exMerge : Types :=
  [(exId "A", .new (.buildIn .string)),
   (exId "E", .new (.enumeration ⟨.none, [litVar "x", litVar "y"], .default⟩)),
   (exId "U", .new (.union ⟨.none, [⟨exId "A", none⟩, ⟨exId "E", none⟩], .default⟩))]

theorem exMerge_items (it : PropIdent × Option Ident) (h : Item exMerge (exId "U") it) :
    it = ((exId "A").toProp, some (exId "A")) ∨ it = ((litVar "x").ident, none) ∨ it = ((litVar "y").ident, none) := by
  have hU : look exMerge (exId "U") = some (.union ⟨.none, [⟨exId "A", none⟩, ⟨exId "E", none⟩], .default⟩) := by
    decide +kernel
  have hA : look exMerge (exId "A") = some (.buildIn .string) := by decide +kernel
  have hE : look exMerge (exId "E") = some (.enumeration ⟨.none, [litVar "x", litVar "y"], .default⟩) := by decide +kernel
  obtain ⟨t, ht, hi⟩ := (item_union hU it).1 h
  simp only [List.mem_cons, List.not_mem_nil, or_false] at ht
  rcases ht with rfl | rfl
  · exact Or.inl ((item_leaf hA ⟨rfl, rfl, rfl⟩ it).1 hi)
  · obtain ⟨v, hv, rfl⟩ := (item_enum hE it).1 hi
    simp only [List.mem_cons, List.not_mem_nil, or_false] at hv
    rcases hv with rfl | rfl
    · exact Or.inr (Or.inl rfl)
    · exact Or.inr (Or.inr rfl)

theorem exMerge_union (i : Ident) (u : Union) (h : look exMerge i = some (.union u)) : i = exId "U" ∧ u.constrains = .default := by
  obtain ⟨ty, h1, h2⟩ := look_iff.1 h
  have hall : ∀ p ∈ exMerge, ∀ u, p.2.variant = .union u → p.1 = exId "U" ∧ u.constrains = .default := by
    intro p hp u hu
    simp only [exMerge, List.mem_cons, List.not_mem_nil, or_false] at hp
    rcases hp with rfl | rfl | rfl <;> cases hu
    exact ⟨rfl, rfl⟩
  exact hall (i, ty) (Assoc.mem_of_get h1) u h2

/-- The hypotheses of the theorems hold for the example. -/
example : Assoc.Keyed exMerge ∧ NoLoop (Inside exMerge) ∧ UnionNamesDiffer exMerge ∧ ContainsEnum exMerge (exId "U") ∧
    NoFacets ⟨fun _ _ => True, fun _ _ => True, fun _ _ _ => True, fun _ _ => True, fun _ => [], fun _ _ => True,
      fun _ _ => True⟩ exMerge := by
  have hU : look exMerge (exId "U") = some (.union ⟨.none, [⟨exId "A", none⟩, ⟨exId "E", none⟩], .default⟩) := by
    decide +kernel
  refine ⟨by unfold Assoc.Keyed; decide +kernel, ?_, ?_, ?_, fun _ => trivial, fun i u h => (exMerge_union i u h).2⟩
  · refine noLoop_of_rank _ (fun i => if i = exId "U" then 1 else 0) ?_
    rintro a b (h | ⟨u, h, t, ht, rfl⟩)
    · exfalso
      obtain ⟨ty, r, h1, h2, -⟩ := h
      have hall : ∀ p ∈ exMerge, ∀ r, p.2.variant ≠ .reference r := by
        intro p hp r hr
        simp only [exMerge, List.mem_cons, List.not_mem_nil, or_false] at hp
        rcases hp with rfl | rfl | rfl <;> cases hr
      exact hall (a, ty) (Assoc.mem_of_get h1) r h2
    · obtain ⟨rfl, -⟩ := exMerge_union a u h
      rw [hU] at h; cases h
      simp only [List.mem_cons, List.not_mem_nil, or_false] at ht
      rcases ht with rfl | rfl <;> decide +kernel
  · intro i u hu p a b h1 h2
    obtain ⟨rfl, -⟩ := exMerge_union i u hu
    have h1 := exMerge_items _ h1
    have h2 := exMerge_items _ h2
    simp only [Prod.mk.injEq] at h1 h2
    have n1 : (exId "A").toProp ≠ (litVar "x").ident := by decide +kernel
    have n2 : (exId "A").toProp ≠ (litVar "y").ident := by decide +kernel
    rcases h1 with ⟨rfl, rfl⟩ | ⟨rfl, rfl⟩ | ⟨rfl, rfl⟩ <;> rcases h2 with ⟨h, rfl⟩ | ⟨h, rfl⟩ | ⟨h, rfl⟩ <;>
      first | rfl | exact absurd h n1 | exact absurd h n2 | exact absurd h.symm n1 | exact absurd h.symm n2
  · exact .member hU (t := ⟨exId "E", none⟩) (by simp) (.enum (x := ⟨.none, [litVar "x", litVar "y"], .default⟩)
      (by decide +kernel))

/-- The pass on the example. -/
example : mergeEnumUnions 5 exMerge = .ok
    [(exId "A", .new (.buildIn .string)),
     (exId "E", .new (.enumeration ⟨.none, [litVar "x", litVar "y"], .default⟩)),
     (exId "U", .new (.enumeration ⟨.none,
       [⟨(exId "A").toProp, .optional, some (exId "A"), none, [], none⟩, litVar "x", litVar "y"], .default⟩))] := by
  decide +kernel

/-- A union of the enumeration {"B"} and the type `B`. -/
def exSameName : Types :=
  [(exId "B", .new (.buildIn .u8)),
   (exId "E", .new (.enumeration ⟨.none, [litVar "B"], .default⟩)),
   (exId "U", .new (.union ⟨.none, [⟨exId "E", none⟩, ⟨exId "B", none⟩], .default⟩))]

/-- C55 (negation): if a literal has the name of a member type, the member type is lost, and documents are rejected that
were accepted before. -/
theorem C55_same_name_lost (P : Lex) (s : Txt) (hb : P.builtIn .u8 s) (hd : P.facets .default s) (hs : s ≠ ['B']) :
    ∃ T', mergeEnumUnions 5 exSameName = .ok T' ∧ Valid P exSameName (.text (exId "U") s) ∧
      ¬ Valid P T' (.text (exId "U") s) := by
  refine ⟨[(exId "B", .new (.buildIn .u8)),
    (exId "E", .new (.enumeration ⟨.none, [litVar "B"], .default⟩)),
    (exId "U", .new (.enumeration ⟨.none, [litVar "B"], .default⟩))], by decide +kernel, ?_, ?_⟩
  · exact .unionText (ty := .new (.union ⟨.none, [⟨exId "E", none⟩, ⟨exId "B", none⟩], .default⟩)) (m := ⟨exId "B", none⟩)
      rfl rfl (by simp) hd (.builtInText (ty := .new (.buildIn .u8)) rfl rfl hb)
  · intro hv
    obtain ⟨it, hi, ha⟩ := item_of_valid hv
    obtain ⟨v, hv, rfl⟩ := (item_enum (x := ⟨.none, [litVar "B"], .default⟩) rfl it).1 hi
    simp only [List.mem_cons, List.not_mem_nil, or_false] at hv
    subst hv
    rcases ha with ⟨-, h⟩ | ⟨t, h, -⟩
    · simp only [litVar, Naming.Name.named.injEq] at h
      exact hs h.symm
    · cases h

/-- A union with facets of its own. -/
def exMergeFacets (c : Constrains) : Types :=
  [(exId "A", .new (.buildIn .string)),
   (exId "E", .new (.enumeration ⟨.none, [], .default⟩)),
   (exId "U", .new (.union ⟨.none, [⟨exId "A", none⟩, ⟨exId "E", none⟩], c⟩))]

/-- C55 (negation): the facets of the union are lost. -/
theorem C55_facets_lost (P : Lex) (c : Constrains) (s : Txt) (hb : P.builtIn .string s) (hc : ¬ P.facets c s) :
    ∃ T', mergeEnumUnions 5 (exMergeFacets c) = .ok T' ∧ ¬ Valid P (exMergeFacets c) (.text (exId "U") s) ∧
      Valid P T' (.text (exId "U") s) := by
  refine ⟨[(exId "A", .new (.buildIn .string)),
    (exId "E", .new (.enumeration ⟨.none, [], .default⟩)),
    (exId "U", .new (.enumeration ⟨.none, [⟨(exId "A").toProp, .optional, some (exId "A"), none, [], none⟩], .default⟩))],
    rfl, ?_, ?_⟩
  · intro hv
    obtain ⟨-, -, h, -⟩ := valid_union_inv (T := exMergeFacets c) (i := exId "U")
      (u := ⟨.none, [⟨exId "A", none⟩, ⟨exId "E", none⟩], c⟩) rfl hv
    exact hc h
  · refine .variantText (ty := .new (.enumeration ⟨.none,
      [⟨(exId "A").toProp, .optional, some (exId "A"), none, [], none⟩], .default⟩)) rfl rfl (List.mem_singleton.2 rfl) rfl
      (.builtInText (ty := .new (.buildIn .string)) rfl rfl hb)

/-- C55 (negation): for a union that contains itself the recursion never ends (in Rust: a stack overflow). -/
theorem C55_self_union_never_ends (n : Nat) : mergeEnumUnions n exSelfUnion = .diverged := by
  have hl : look exSelfUnion (exId "U") = some (.union ⟨.none, [⟨exId "U", none⟩], .default⟩) := by decide +kernel
  have : ∀ n dn acc, mergeF exSelfUnion n (exId "U") dn acc = none := by
    intro n
    induction n with
    | zero => intro dn acc; rfl
    | succ n ih =>
      intro dn acc
      rw [mergeF_union hl]
      simp [ih]
  have hids : (exSelfUnion.filter (fun p => isUnion p.2.variant)).map (·.1) = [exId "U"] := by decide +kernel
  simp only [mergeEnumUnions, hids, forEach, mergeEnumUnion, hl, this, Res.unwrap]

/-- C55 (negation): the documentation and the namespaces in scope of a literal do not survive, even in a union of one
enumeration. (The namespaces are needed to read the literals of an enumeration of qualified names.) -/
theorem C55_literal_context_lost (v : EnumVariant) :
    ∃ T', mergeEnumUnions 5
      [(exId "E", .new (.enumeration ⟨.none, [v], .default⟩)),
       (exId "U", .new (.union ⟨.none, [⟨exId "E", none⟩], .default⟩))] = .ok T' ∧
      look T' (exId "U") = some (.enumeration ⟨.none, [⟨v.ident, .optional, v.type_, v.displayName, [], none⟩], .default⟩) :=
  ⟨_, rfl, rfl⟩

end Verif.Opt

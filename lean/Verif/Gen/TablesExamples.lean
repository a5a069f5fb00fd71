import Verif.Gen.Tables

/-!
# Whole documents: an example, and documents that do not survive (C13)
-/

namespace Verif.Gen.Tab

open Verif.Rt Verif.Occurs

/-- Names of the two namespaces. -/
def inA (l : String) : QN := ⟨"a".toList, l.toList, some "urn:a".toList⟩

def inB (l : String) : QN := ⟨"b".toList, l.toList, some "urn:b".toList⟩

def ordersNeed : List (Str × Str) :=
  [("a".toList, "urn:a".toList), ("b".toList, "urn:b".toList)]

def ordersBinds (p : Str) : Str := "urn:".toList ++ p

/-- Everything is declared at the root (`NamespaceSerialization::Global`). -/
def atRoot : Option (Val Str → Str → Bool → List (Str × Str)) :=
  some fun _ _ root => if root then ordersNeed else []

def Body.isSeq : Body → Bool
  | .seq _ => true
  | _ => false

/-- A check for `Schema.Shape.fieldDistinct`: the local names differ. -/
def distinctFrom {X : Type} (G : Schema X) (D : StructSpec X) : List FieldSpec → Bool
  | [] => true
  | g :: r => ((D.body.isSeq && decide (g.max = .bounded g.min)) ||
      r.all fun f => (f.expand G).all fun a => (g.expand G).all fun b =>
        decide (a.name.local_ ≠ b.name.local_)) && distinctFrom G D r

theorem distinctFrom_spec {X : Type} (G : Schema X) (D : StructSpec X) (es : List FieldSpec)
    (h : distinctFrom G D es = true) : ∀ (i j : Nat) f g, es[i]? = some f → es[j]? = some g → j < i →
    ¬ Exact D g → ∀ a ∈ f.expand G, ∀ b ∈ g.expand G, Distinct a.name b.name := by
  induction es with
  | nil => intro i j f g hf; simp at hf
  | cons e es ih =>
    intro i j f g hf hg hj hne a ha b hb
    simp only [distinctFrom, Bool.and_eq_true, Bool.or_eq_true, List.all_eq_true,
      decide_eq_true_eq] at h
    cases i with
    | zero => omega
    | succ i =>
      rw [List.getElem?_cons_succ] at hf
      cases j with
      | zero =>
        simp only [List.getElem?_cons_zero, Option.some.injEq] at hg
        subst hg
        rcases h.1 with ⟨h1, h2⟩ | h1
        · refine absurd ⟨?_, h2⟩ hne
          cases hb : D.body <;> rw [hb] at h1 <;> first | exact ⟨_, rfl⟩ | (cases h1; done)
        · exact Or.inl (h1 f (List.mem_of_getElem? hf) a ha b hb)
      | succ j =>
        rw [List.getElem?_cons_succ] at hg
        exact ih h.2 i j f g hf hg (by omega) hne a ha b hb

/-- Orders: items, which may have sub-items (sequences); a note (simple); a price (simple content
with an attribute); an address (`xs:all`); payments (a repeated choice); a contact (an enum); extras
(a repeated choice inside the sequence); and another price. -/
def orders : Schema Str where
  structs := [
    { attrs := [⟨⟨[], "id".toList, none⟩, true, none, 0⟩, ⟨inB "kind", false, none, 0⟩]
      body := .seq [⟨inA "item", 1, .unbounded, .struct 1⟩, ⟨inB "note", 0, .bounded 1, .simple 0⟩,
        ⟨inA "price", 1, .bounded 1, .struct 2⟩, ⟨inA "address", 0, .bounded 1, .struct 3⟩,
        ⟨inA "payment", 1, .bounded 1, .struct 4⟩, ⟨inB "contact", 0, .bounded 1, .struct 5⟩,
        ⟨⟨[], "extras".toList, none⟩, 0, .unbounded, .variant 6⟩, ⟨inA "price", 0, .bounded 1, .struct 2⟩]
      xmlns := atRoot },
    { attrs := []
      body := .seq [⟨inA "name", 1, .bounded 1, .simple 0⟩, ⟨inA "item", 0, .unbounded, .struct 1⟩]
      xmlns := atRoot },
    { attrs := [⟨⟨[], "currency".toList, none⟩, false, none, 0⟩]
      body := .text 0
      xmlns := atRoot },
    { attrs := []
      body := .all [⟨inA "city", 1, .bounded 1, .simple 0⟩, ⟨inA "street", 0, .bounded 1, .simple 0⟩]
      xmlns := atRoot },
    { attrs := []
      body := .choice [⟨inA "cash", 1, .bounded 1, .struct 2⟩, ⟨inB "card", 1, .bounded 1, .simple 0⟩]
        1 .unbounded
      xmlns := atRoot },
    { attrs := []
      body := .enum [⟨inA "mail", 1, .bounded 2, .simple 0⟩, ⟨inA "phone", 1, .bounded 1, .simple 0⟩]
      xmlns := atRoot },
    { attrs := []
      body := .choice [⟨inA "gift", 1, .bounded 1, .struct 2⟩, ⟨inB "code", 0, .bounded 1, .simple 0⟩]
        0 .unbounded
      xmlns := atRoot }]
  print := fun _ s => some s
  parse := fun _ s => .ok s
  num := fun _ => none

theorem orders_good : orders.Good ordersBinds ordersNeed where
  root := by intro b hb _; revert b; decide +kernel
  decls := by
    intro D hD f hf x root
    cases hk : f.ty with
    | struct k =>
      intro b hb _
      simp only [tyDeclares] at hb
      cases hD' : orders.structs[k]? with
      | none => rw [hD'] at hb; cases hb
      | some D' =>
        have : D'.xmlns = atRoot := by
          have := List.mem_of_getElem? hD'
          simp only [orders, List.mem_cons, List.not_mem_nil, or_false] at this
          rcases this with rfl | rfl | rfl | rfl | rfl | rfl | rfl <;> rfl
        simp only [hD', StructSpec.declares, this, atRoot, Option.map_some, Option.getD_some] at hb
        cases root
        · cases hb
        · exact (by decide +kernel : ∀ b ∈ ordersNeed, ordersBinds b.1 = b.2 ∧ b.2 ≠ []) b hb
    | simple k => intro b hb; cases hb
    | variant k => intro b hb; cases hb
  fits := by
    intro D hD
    simp only [orders, List.mem_cons, List.not_mem_nil, or_false] at hD
    rcases hD with rfl | rfl | rfl | rfl | rfl | rfl | rfl
    · trivial
    · trivial
    · trivial
    · show _ ≠ []
      simp
    · refine ⟨by simp, ?_⟩
      intro f hf
      simp only [List.mem_cons, List.not_mem_nil, or_false] at hf
      rcases hf with rfl | rfl <;> exact ⟨Nat.le_refl _, rfl⟩
    · rfl
    · refine ⟨by simp, ?_⟩
      intro f hf
      simp only [List.mem_cons, List.not_mem_nil, or_false] at hf
      rcases hf with rfl | rfl <;> exact ⟨by decide, rfl⟩
  max := by
    intro D hD f hf
    simp only [orders, List.mem_cons, List.not_mem_nil, or_false] at hD
    rcases hD with rfl | rfl | rfl | rfl | rfl | rfl | rfl <;>
      simp only [Body.elements, List.mem_cons, List.not_mem_nil, or_false] at hf <;>
      first | (rcases hf with rfl | rfl | rfl | rfl | rfl | rfl | rfl | rfl <;> simp; done) |
        (rcases hf with rfl | rfl <;> simp; done)
  tys := by
    intro D hD f hf k hk
    simp only [orders, List.mem_cons, List.not_mem_nil, or_false] at hD
    rcases hD with rfl | rfl | rfl | rfl | rfl | rfl | rfl <;>
      simp only [Body.elements, List.mem_cons, List.not_mem_nil, or_false] at hf <;>
      first
      | (rcases hf with rfl | rfl <;> cases hk; done)
      | (rcases hf with rfl | rfl | rfl | rfl | rfl | rfl | rfl | rfl <;> cases hk
         exact ⟨⟨_, rfl⟩, _, _, _, _, rfl, rfl⟩)
  fieldPlain := by
    intro D hD f hf
    simp only [orders, List.mem_cons, List.not_mem_nil, or_false] at hD
    rcases hD with rfl | rfl | rfl | rfl | rfl | rfl | rfl <;>
      simp only [Body.elements, List.mem_cons, List.not_mem_nil, or_false] at hf <;>
      first
      | (rcases hf with rfl | rfl | rfl | rfl | rfl | rfl | rfl | rfl <;> exact ⟨by decide, by decide⟩; done)
      | (rcases hf with rfl | rfl <;> exact ⟨by decide, by decide⟩; done)
  fieldDistinct := by
    intro D hD
    refine distinctFrom_spec orders D _ ?_
    revert D
    decide +kernel
  attrPlain := by
    intro D hD a ha
    simp only [orders, List.mem_cons, List.not_mem_nil, or_false] at hD
    rcases hD with rfl | rfl | rfl | rfl | rfl | rfl | rfl <;>
      simp only [List.mem_cons, List.not_mem_nil, or_false] at ha
    · rcases ha with rfl | rfl <;> exact ⟨⟨by decide, by decide⟩, by decide⟩
    · subst ha; exact ⟨⟨by decide, by decide⟩, by decide⟩
  attrDistinct := by
    intro D hD i j f g hf hg hij
    simp only [orders, List.mem_cons, List.not_mem_nil, or_false] at hD
    rcases hD with rfl | rfl | rfl | rfl | rfl | rfl | rfl <;>
      (rcases i with _ | _ | i <;> rcases j with _ | _ | j <;>
        simp at hf hg hij <;> subst hf hg <;> exact Or.inl (by decide))

theorem orders_attrs (ty : TyRef) (w : Val Str) (name : Str) (root : Bool) :
    AttrsNamed orders ordersNeed ty w name root := by
  intro k D hty hD a ha
  have hD := List.mem_of_getElem? hD
  simp only [orders, List.mem_cons, List.not_mem_nil, or_false] at hD
  rcases hD with rfl | rfl | rfl | rfl | rfl | rfl | rfl <;>
    simp only [List.mem_cons, List.not_mem_nil, or_false] at ha
  · rcases ha with rfl | rfl
    · exact Or.inl rfl
    · exact Or.inr (by intro ns h; cases h; exact List.mem_append_left _ (by decide))
  · subst ha; exact Or.inl rfl

theorem orders_declared : orders.Declared ordersNeed := by
  intro D hD f hf x root
  refine ⟨?_, orders_attrs _ _ _ _⟩
  simp only [orders, List.mem_cons, List.not_mem_nil, or_false] at hD
  rcases hD with rfl | rfl | rfl | rfl | rfl | rfl | rfl <;>
    simp only [Body.elements, List.mem_cons, List.not_mem_nil, or_false] at hf <;>
    first
    | (rcases hf with rfl | rfl | rfl | rfl | rfl | rfl | rfl | rfl <;>
        first
        | exact Or.inl rfl
        | (exact Or.inr fun ns h => List.mem_append_left _ (by cases h; decide)))
    | (rcases hf with rfl | rfl <;>
        exact Or.inr fun ns h => List.mem_append_left _ (by cases h; decide))

/-- `<price currency="EUR">4</price>`. -/
def aPrice : Val Str := .struct [some "EUR".toList] [[.simple "4".toList]]

/-- `<o id="1"><a:item><a:name>x</a:name><a:item><a:name>&lt;y&gt;</a:name></a:item></a:item>
<b:note>hi there</b:note><a:price currency="EUR">4</a:price><a:address><a:city>z</a:city></a:address>
<a:payment><b:card>1</b:card><a:cash currency="EUR">4</a:cash></a:payment>
<b:contact><a:mail>m</a:mail><a:mail>n</a:mail></b:contact>
<b:code>7</b:code><a:gift currency="EUR">4</a:gift><a:price currency="EUR">4</a:price></o>`. -/
def anOrder : Val Str :=
  .struct [some "1".toList, none] [
    [.struct [] [[.simple "x".toList], [.struct [] [[.simple "<y>".toList], []]]]],
    [.simple "hi there".toList],
    [aPrice],
    [.struct [] [[.simple "z".toList], []]],
    [.struct [] [[.alt 1 [.simple "1".toList], .alt 0 [aPrice]]]],
    [.alt 0 [.simple "m".toList, .simple "n".toList]],
    [.alt 1 [.simple "7".toList], .alt 0 [aPrice]],
    [aPrice]]

theorem orders_simple (s : Str) (h1 : hasCdataEnd s = false) (h2 : trimAscii s = s) :
    HasTy orders (.simple 0) (.simple s) :=
  .simple ⟨h1, by rw [h2]; rfl⟩

theorem orders_item (s : Str) (h1 : hasCdataEnd s = false) (h2 : trimAscii s = s)
    (subs : List (Val Str)) (hs : ∀ v ∈ subs, HasTy orders (.struct 1) v) :
    HasTy orders (.struct 1) (.struct [] [[.simple s], subs]) := by
  refine .fields rfl ⟨rfl, by intro i a v h; simp at h⟩ (Or.inl rfl) rfl ?_ ?_
  · intro i f hf
    rcases i with _ | _ | i <;> simp at hf <;> subst hf
    · exact ⟨by simp, by intro b hb; cases hb; simp⟩
    · exact ⟨Nat.zero_le _, by intro b hb; cases hb⟩
  · intro i f v hf hv
    rcases i with _ | _ | i <;> simp at hf <;> subst hf
    · simp only [List.getD_cons_zero, List.mem_singleton] at hv
      subst hv
      exact orders_simple s h1 h2
    · exact hs v hv

theorem aPrice_hasTy : HasTy orders (.struct 2) aPrice := by
  refine .text rfl ⟨rfl, ?_⟩ rfl ⟨by decide +kernel, rfl⟩
  intro i a v ha hv
  rcases i with _ | i <;> simp at ha hv
  subst ha hv
  exact ⟨_, rfl, rfl⟩

theorem anAddress_hasTy :
    HasTy orders (.struct 3) (.struct [] [[.simple "z".toList], []]) := by
  refine .fields rfl ⟨rfl, by intro i a v h; simp at h⟩ (Or.inr rfl) rfl ?_ ?_
  · intro i f hf
    rcases i with _ | _ | i <;> simp at hf <;> subst hf
    · exact ⟨by simp, by intro b hb; cases hb; simp⟩
    · exact ⟨Nat.zero_le _, by intro b hb; cases hb; simp⟩
  · intro i f v hf hv
    rcases i with _ | _ | i <;> simp at hf <;> subst hf <;> simp at hv
    subst hv
    exact orders_simple _ (by decide +kernel) (by decide +kernel)

theorem aPayment_hasTy : HasTy orders (.struct 4)
    (.struct [] [[.alt 1 [.simple "1".toList], .alt 0 [aPrice]]]) := by
  refine .choice rfl ⟨rfl, by intro i a v h; simp at h⟩ rfl
    ⟨by decide, by intro b hb; cases hb⟩ ?_
  intro v hv
  simp only [List.mem_cons, List.not_mem_nil, or_false] at hv
  rcases hv with rfl | rfl
  · exact .variant rfl rfl rfl (orders_simple _ (by decide +kernel) (by decide +kernel))
  · exact .variant rfl rfl rfl aPrice_hasTy

theorem aContact_hasTy :
    HasTy orders (.struct 5) (.alt 0 [.simple "m".toList, .simple "n".toList]) := by
  refine .enum rfl rfl rfl (by simp) ⟨by simp, by intro b hb; cases hb; simp⟩ ?_
  intro v hv
  simp only [List.mem_cons, List.not_mem_nil, or_false] at hv
  rcases hv with rfl | rfl <;> exact orders_simple _ (by decide +kernel) (by decide +kernel)

theorem anOrder_hasTy : HasTy orders (.struct 0) anOrder := by
  refine .fields rfl ⟨rfl, ?_⟩ (Or.inl rfl) rfl ?_ ?_
  · intro i a v ha hv
    rcases i with _ | _ | i <;> simp at ha hv <;> subst ha hv
    · exact ⟨_, rfl, rfl⟩
    · exact ⟨rfl, rfl⟩
  · intro i f hf
    rcases i with _ | _ | _ | _ | _ | _ | _ | _ | i <;> simp at hf <;> subst hf <;>
      exact ⟨by simp, by intro b hb; cases hb <;> simp⟩
  · intro i f v hf hv
    rcases i with _ | _ | _ | _ | _ | _ | _ | _ | i <;> simp at hf <;> subst hf <;> simp at hv <;>
      first | subst hv | rcases hv with rfl | rfl
    · refine orders_item _ (by decide +kernel) (by decide +kernel) _ ?_
      intro v hv
      simp only [List.mem_singleton] at hv
      subst hv
      exact orders_item _ (by decide +kernel) (by decide +kernel) _ (by simp)
    · exact orders_simple _ (by decide +kernel) (by decide +kernel)
    · exact aPrice_hasTy
    · exact anAddress_hasTy
    · exact aPayment_hasTy
    · exact aContact_hasTy
    · exact .variant rfl rfl rfl (orders_simple _ (by decide +kernel) (by decide +kernel))
    · exact .variant rfl rfl rfl aPrice_hasTy
    · exact aPrice_hasTy

/-- The hypotheses of `C13_document_round_trip_partial` are met. -/
example (rest : List Event) : ∃ out evs,
    (ser orders 5).Emits (.struct 0 (.init anOrder "o".toList true)) {} out {} ∧
      reread out = some evs ∧
      Drv.run (genEnv posTrack) (de orders 5 (.struct 0)).toDeser { helper := {} } (evs ++ rest)
        = .done anOrder rest :=
  C13_document_round_trip_partial orders ordersBinds ordersNeed orders_good 0 _ rfl anOrder
    anOrder_hasTy (orders_declared.named orders_good.toShape _ _) _ (by decide +kernel)
    (by intro b hb _; revert b; decide +kernel) (orders_attrs _ _ _ _) 5 (by decide +kernel) rest

/-- `C14_documents_balanced` for the same order, and for a value that does not have the type. -/
example : (ser orders 5).Balanced (.struct 0 (.init anOrder "o".toList true)) ∧
    (ser orders 5).Balanced (.struct 0 (.init (.simple "x".toList) "o".toList true)) :=
  ⟨C14_documents_balanced orders 5 (.struct 0, anOrder) (some "o".toList) true _ rfl,
    C14_documents_balanced orders 5 (.struct 0, .simple "x".toList) (some "o".toList) true _ rfl⟩

/-- A type of the namespace `urn:a` with a child of a simple type that is declared in `urn:b`
(`<xs:element ref="b:x"/>`), serialized with `NamespaceSerialization::Local`: the struct declares
the namespace of its own tag, serialize.rs:777-800, and the `ContentSerializer` of the child
declares nothing. -/
def imported : Schema Str where
  structs := [
    { attrs := []
      body := .seq [⟨⟨"b".toList, "x".toList, some "urn:b".toList⟩, 1, .bounded 1, .simple 0⟩]
      xmlns := some fun _ _ _ => [("a".toList, "urn:a".toList)] }]
  print := fun _ s => some s
  parse := fun _ s => .ok s
  num := fun _ => none

def anImported : Val Str := .struct [] [[.simple "1".toList]]

def importedOut : List Event :=
  [.start ⟨"a:o".toList, [⟨"xmlns:a".toList, "urn:a".toList⟩]⟩, .start ⟨"b:x".toList, []⟩,
    .text "1".toList, .end_ "b:x".toList, .end_ "a:o".toList]

theorem anImported_hasTy : HasTy imported (.struct 0) anImported := by
  refine .fields rfl ⟨rfl, by intro i a v h; simp at h⟩ (Or.inl rfl) rfl ?_ ?_
  · intro i f hf
    rcases i with _ | i <;> simp at hf
    subst hf
    exact ⟨by simp, by intro b hb; cases hb; simp⟩
  · intro i f v hf hv
    rcases i with _ | i <;> simp at hf
    subst hf
    simp only [List.getD_cons_zero, List.mem_singleton] at hv
    subst hv
    exact .simple ⟨by decide +kernel, rfl⟩

/-- **C13 fails** for `NamespaceSerialization::Local` when a child of simple type belongs to
another namespace: the value is written without an error, its prefix is not declared anywhere,
and the deserializer of the same type rejects the document. -/
theorem C13_local_mode_unreadable (n : Nat) :
    HasTy imported (.struct 0) anImported ∧
    (ser imported (n + 2)).Emits (.struct 0 (.init anImported "a:o".toList true)) {} importedOut {} ∧
    reread importedOut = some importedOut ∧
    (∀ t, .start t ∈ importedOut → ∀ a ∈ t.attrs, a.key ≠ "xmlns:b".toList) ∧
    ∃ e rest, Drv.run (genEnv posTrack) (de imported (n + 2) (.struct 0)).toDeser { helper := {} }
      importedOut = .fail e rest := by
  refine ⟨anImported_hasTy, ?_, by decide +kernel, ?_, ?_⟩
  · exact .emit rfl (.emit rfl (.emit rfl (.emit rfl (.again rfl (.emit rfl (.done rfl))))))
  · intro t ht a ha
    simp only [importedOut, List.mem_cons, Event.start.injEq, reduceCtorEq, List.not_mem_nil,
      or_false] at ht
    rcases ht with rfl | rfl
    · simp only [List.mem_singleton] at ha
      subst ha
      decide
    · cases ha
  · exact ⟨_, _, rfl⟩

end Verif.Gen.Tab

import Verif.Gen.TablesExamples
import Verif.Gen.Documents

/-!
# Documents that the generated code reads: an example (C71)
-/

namespace Verif.Gen.Tab

open Verif.Rt Verif.Occurs

/-- The tag `<z:item xmlns:z="urn:a">`, with a prefix that the serializer would not choose. -/
def zItem : Tag := ⟨"z:item".toList, [⟨"xmlns:z".toList, "urn:a".toList⟩]⟩

def zName : List Event :=
  [.start ⟨"z:name".toList, []⟩, .text " ca".toList, .comment "c".toList, .cdata "ke".toList,
    .end_ "z:name".toList]

/-- The name of the item between a comment and blanks. -/
def zItems : List (Item (Val Str)) :=
  [(Item.pad (.comment "first".toList) : Item (Val Str)), .child 0 zName (.simple "cake".toList),
    (Item.pad (.text "  ".toList) : Item (Val Str))]

/-- `<z:item xmlns:z="urn:a"><!--first--><z:name> ca<!--c--><![CDATA[ke]]></z:name>  </z:item>`. -/
def zDocument : List Event := .start zItem :: (itemEvents zItems ++ [.end_ zItem.name])

theorem zItems_child {p q : Pos} {i : Nat} {evs : List Event} {v : Val Str} (h : ChildAt p zItems q i evs v) :
    i = 0 ∧ evs = zName ∧ v = .simple "cake".toList ∧ q = after p [.comment "first".toList] := by
  obtain ⟨l, r, he, hq⟩ := h
  unfold zItems at he
  rcases l with _ | ⟨x, _ | ⟨y, _ | ⟨z, l⟩⟩⟩
  · simp at he
  · simp only [List.cons_append, List.nil_append, List.cons.injEq, Item.child.injEq] at he
    obtain ⟨hx, ⟨h1, h2, h3⟩, _⟩ := he
    exact ⟨h1.symm, h2.symm, h3.symm, by rw [hq, ← hx]; rfl⟩
  · simp at he
  · simp at he

theorem zDocument_doc : Doc orders (.struct 1) {} zDocument (.struct [] [[.simple "cake".toList], []]) := by
  refine Doc.seq (D := orders.structs[1]) (es := [⟨inA "name", 1, .bounded 1, .simple 0⟩,
    ⟨inA "item", 0, .unbounded, .struct 1⟩]) (items := zItems) rfl rfl ?_ ?_ ?_ ?_ ?_ ?_ ?_
  · refine ⟨⟨rfl, ?_, ?_, ?_⟩, ?_⟩
    · intro i d h
      exact absurd h (by simp [attrTable, orders])
    · intro _
      decide +kernel
    · intro h
      cases h
    · intro a ha
      simp only [zItem, List.mem_singleton] at ha
      subst ha
      exact Or.inl (by decide +kernel)
  · intro e he
    simp only [zItems, List.mem_cons, List.not_mem_nil, or_false, Item.pad.injEq] at he
    rcases he with rfl | he | rfl
    · rfl
    · cases he
    · decide +kernel
  · intro i evs v h
    simp only [zItems, List.mem_cons, List.not_mem_nil, or_false, Item.child.injEq] at h
    rcases h with h | h | h
    · cases h
    · rw [h.1]; simp
    · cases h
  · decide +kernel
  · intro i f hf
    rcases i with _ | _ | i
    · cases hf; exact ⟨by decide +kernel, by intro b h; cases h; decide +kernel⟩
    · cases hf; exact ⟨by decide +kernel, by intro b h; cases h⟩
    · cases hf
  · intro q i evs v f hc hf _
    obtain ⟨rfl, rfl, rfl, rfl⟩ := zItems_child hc
    cases hf
    refine ⟨_, _, ⟨"z:name".toList, []⟩, rfl, rfl, "z".toList, rfl, by decide, by decide, ?_⟩
    intro _ ns h
    cases h
    decide +kernel
  · intro q i evs v f hc hf
    obtain ⟨rfl, rfl, rfl, rfl⟩ := zItems_child hc
    cases hf
    exact Doc.simple (t := ⟨"z:name".toList, []⟩)
      (pieces := [.text " ca".toList, .comment "c".toList, .cdata "ke".toList]) (c := " cake".toList)
      (fun _ h => by cases h) (by decide) (by decide +kernel) rfl

/-- The hypotheses of the theorem hold for the table of orders and this document. -/
example (rest : List Event) :
    Drv.run (genEnv posTrack) (de orders 9 (.struct 1)).toDeser { helper := {} } (zDocument ++ rest)
      = .done (.struct [] [[.simple "cake".toList], []]) rest :=
  C71_described_document_read_partial orders 1 orders_good.toShape.nested 1 _ _ zDocument_doc 9 (by decide) rest

end Verif.Gen.Tab

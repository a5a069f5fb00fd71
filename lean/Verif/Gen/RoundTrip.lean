import Verif.Gen.Serialize
import Verif.Gen.Wrapped
import Verif.Gen.All
import Verif.Gen.Content

/-!
# Values survive writing and reading: one level (C13)

A struct or enum is written (`shellZ`) and read back by the deserializer of its kind; if its
attributes and the values of its parts survive, so does the whole value. `Verif.Gen.Tables` ties
the knot for whole tables of types.
-/

namespace Verif.Gen

open Verif.Rt Verif.Occurs

section
variable {W V S I E U : Type}

/-! ## What generated serializers write -/

def FVal.toList : FVal V → List V
  | .one v => [v]
  | .many vs => vs

/-- All the values of a list, one after the other. -/
theorem iter_emits (create : V → Option Str → Except E S) (z : Zer S E) (name : Option Str)
    (h : SerHelper) (out : V → List Event) (xs : List V)
    (hc : ∀ x ∈ xs, ∃ s, create x name = .ok s ∧ z.Emits s h (out x) h) :
    (iterZ create z).Emits (.pending name xs) h (xs.flatMap out) h := by
  induction xs with
  | nil => exact .done rfl
  | cons x xs ih =>
    obtain ⟨s, h1, h2⟩ := hc x (by simp)
    have first : (iterZ create z).step (.pending name (x :: xs)) h
        = (.again (.emitting name xs s), h) := by simp [iterZ, h1]
    obtain ⟨s1, h3, a, b⟩ := Zer.lift (z' := iterZ create z) (f := ISt.emitting name xs)
      (by intro s h ev s1 h1 he; simp [iterZ, he])
      (by intro s h s1 h1 he; simp [iterZ, he]) h2
    have last : (iterZ create z).step (.emitting name xs s1) h3
        = (.again (.pending name xs), h) := by simp [iterZ, b]
    rw [List.flatMap_cons]
    exact .again first (a.emits (.again last (ih fun y hy => hc y (by simp [hy]))))

/-- `is_root` for the values of a field: `IterSerializer` never passes it on. -/
def FVal.root : FVal V → Bool → Bool
  | .one _, r => r
  | .many _, _ => false

theorem field_emits (create : V → Option Str → Bool → Except E S) (z : Zer S E)
    (name : Option Str) (root : Bool) (h : SerHelper) (out : V → List Event) (x : FVal V)
    (hc : ∀ v ∈ x.toList, ∃ s, create v name (x.root root) = .ok s ∧ z.Emits s h (out v) h) :
    ∃ c, fieldEnter create name root x = .ok c ∧
      (fieldZ create z).Emits c h (x.toList.flatMap out) h := by
  cases x with
  | one v =>
    obtain ⟨s, h1, h2⟩ := hc v (by simp [FVal.toList])
    simp only [FVal.root] at h1
    refine ⟨.one s, by simp [fieldEnter, h1, Except.map], ?_⟩
    obtain ⟨s2, h3, a, b⟩ := Zer.lift (z' := fieldZ create z) (f := FSt.one)
      (by intro s h ev s1 h1 he; simp [fieldZ, he])
      (by intro s h s1 h1 he; simp [fieldZ, he]) h2
    have := a.emits (ys := []) (h3 := h) (.done (by simp [fieldZ, b]))
    simpa [FVal.toList] using this
  | many vs =>
    refine ⟨.many (.pending name vs), rfl, ?_⟩
    have r := iter_emits (fun v n => create v n false) z name h out vs hc
    obtain ⟨s2, h3, a, b⟩ := Zer.lift (z' := fieldZ create z) (f := FSt.many)
      (by intro s h ev s1 h1 he; simp [fieldZ, he])
      (by intro s h s1 h1 he; simp [fieldZ, he]) r
    have := a.emits (ys := []) (h3 := h) (.done (by simp [fieldZ, b]))
    simpa [FVal.toList] using this

theorem shell_parts (Z : Shell W I E) (w : W) (name : Str) (root : Bool) (h : SerHelper)
    (out : Nat → List Event)
    (hp : ∀ i, i < Z.parts → ∃ c, Z.enter w root i = .ok c ∧ Z.z.Emits c h (out i) h) :
    ∀ (k i : Nat), i + k = Z.parts →
      ∃ s, Z.goto w name root i = .ok s ∧
        (shellZ Z).Steps s h ((List.range' i k).flatMap out) (Z.final name) h := by
  intro k
  induction k with
  | zero =>
    intro i hi
    have : ¬ i < Z.parts := by omega
    exact ⟨_, by simp only [Shell.goto, if_neg this]; rfl, .refl⟩
  | succ k ih =>
    intro i hi
    have hlt : i < Z.parts := by omega
    obtain ⟨c, hc, r⟩ := hp i hlt
    obtain ⟨s2, hg, r2⟩ := ih (i + 1) (by omega)
    refine ⟨.at_ w name root i c, by simp [Shell.goto, hlt, hc, Except.map], ?_⟩
    obtain ⟨s1, h1, a, b⟩ := Zer.lift (z' := shellZ Z) (f := ShSt.at_ w name root i)
      (by intro s h ev s1 h1 he; simp [shellZ, he])
      (by intro s h s1 h1 he; simp [shellZ, he]) r
    have last : (shellZ Z).step (.at_ w name root i s1) h1 = (.again s2, h) := by
      simp [shellZ, b, hg]
    rw [List.range'_succ, List.flatMap_cons]
    exact a.trans (.again last r2)

/-- A generated element writes its start tag, its parts in order, and its end tag. -/
theorem shell_emits (Z : Shell W I E) (w : W) (name : Str) (root : Bool) (h h1 : SerHelper)
    (ok : h.Ok) (t : Tag) (ht : Z.openTag w name root h = (.ok t, h1))
    (hel : Z.isElement = true) (h0 : Z.parts ≠ 0) (out : Nat → List Event)
    (hp : ∀ i, i < Z.parts → ∃ c, Z.enter w root i = .ok c ∧ Z.z.Emits c h1 (out i) h1) :
    (shellZ Z).Emits (.init w name root) h
      (.start t :: ((List.range Z.parts).flatMap out ++ [.end_ t.name])) h := by
  obtain ⟨s, hg, r⟩ := shell_parts Z w name root h1 out hp Z.parts 0 (by omega)
  have first : (shellZ Z).step (.init w name root) h = (.emit (.start t) s, h1) := by
    simp [shellZ, hg, hel, ht, h0]
  have hf : Z.final name = .end_ name := by simp [Shell.final, hel, h0]
  rw [hf] at r
  have hn := openTag_name Z w name root h h1 t ht
  have hsc := openTag_scope Z w name root h h1 t ht
  have hh : (if Z.xmlns.isSome = true then h1.endScope else h1) = h := by
    cases hx : Z.xmlns.isSome with
    | true => rw [hx, if_pos rfl] at hsc; exact innerOf_end ok hsc
    | false => rw [hx] at hsc; exact hsc
  refine .emit first ?_
  rw [List.range_eq_range', hn]
  exact r.emits (.emit (s' := .done) (h' := h) (by simp [shellZ, hh]) (.done rfl))

/-- A generated element without parts writes an empty tag. -/
theorem shell_emits_empty (Z : Shell W I E) (w : W) (name : Str) (root : Bool)
    (h h1 : SerHelper) (ok : h.Ok) (t : Tag) (ht : Z.openTag w name root h = (.ok t, h1))
    (hel : Z.isElement = true) (h0 : Z.parts = 0) :
    (shellZ Z).Emits (.init w name root) h [.empty t] h := by
  have hsc := openTag_scope Z w name root h h1 t ht
  have hh : (if Z.xmlns.isSome = true then h1.endScope else h1) = h := by
    cases hx : Z.xmlns.isSome with
    | true => rw [hx, if_pos rfl] at hsc; exact innerOf_end ok hsc
    | false => rw [hx] at hsc; exact hsc
  refine .emit (s' := .done) (h' := h) ?_ (.done rfl)
  simp [shellZ, Shell.goto, hel, ht, h0, hh]

/-- A generated type that does not represent an element writes its parts only. -/
theorem group_emits (Z : Shell W I E) (w : W) (name : Str) (root : Bool) (h : SerHelper)
    (hel : Z.isElement = false) (out : Nat → List Event)
    (hp : ∀ i, i < Z.parts → ∃ c, Z.enter w root i = .ok c ∧ Z.z.Emits c h (out i) h) :
    (shellZ Z).Emits (.init w name root) h ((List.range Z.parts).flatMap out) h := by
  obtain ⟨s, hg, r⟩ := shell_parts Z w name root h out hp Z.parts 0 (by omega)
  have first : (shellZ Z).step (.init w name root) h = (.again s, h) := by
    simp [shellZ, hg, hel]
  have hf : Z.final name = .done := by simp [Shell.final, hel]
  rw [hf] at r
  have := r.emits (ys := []) (h3 := h) (.done rfl)
  rw [List.append_nil] at this
  rw [List.range_eq_range']
  exact .again first this

end

/-! ## One level -/

section
variable {H A C V X W S E U : Type}

/-- What is asked of `sim`, "the reader is at a position like": an equivalence, and after the end
of an element the reader is at a position like the one before. -/
structure Sim (track : H → Event → H) (sim : H → H → Prop) : Prop where
  symm : ∀ a b, sim a b → sim b a
  trans : ∀ a b c, sim a b → sim b c → sim a c
  end_ : ∀ h h1 t n, sim h1 (track h (.start t)) → sim (track h1 (.end_ n)) h
  empty : ∀ h t, sim (track h (.empty t)) h
  start : ∀ h h1 t, sim h1 h → sim (track h1 (.start t)) (track h (.start t))

/-- The events are an element whose tag satisfies `tag`; the deserializer reads them as `v`, for
a reader at any position like `hd`, and afterwards the reader is at a position like the one
before. -/
def ReadsAs (track : H → Event → H) (sim : H → H → Prop) (d : GDe H C V) (tag : H → Tag → Prop)
    (evs : List Event) (v : V) (hd : H) : Prop :=
  ∃ e es t, evs = e :: es ∧ tagOf e = some t ∧ ∀ hd', sim hd' hd →
    tag (track hd' e) t ∧ Feeds track d none hd' evs v ∧ sim (evs.foldl track hd') hd'

/-- **Specification**: the value `u`, written as an element called `name` by a child
serializer (in a namespace context `sh`), and read again, gives the value `v`. -/
def Survives (track : H → Event → H) (sim : H → H → Prop)
    (create : U → Option Str → Bool → Except E S) (z : Zer S E) (d : GDe H C V)
    (tag : H → Tag → Prop) (name : Option Str) (root : Bool) (u : U) (v : V) (sh : SerHelper)
    (hd : H) : Prop :=
  ∃ s out evs, create u name root = .ok s ∧ z.Emits s sh out sh ∧ reread out = some evs ∧
    ReadsAs track sim d tag evs v hd

theorem reread_flatMap {T : Type} (f g : T → List Event) (l : List T)
    (h : ∀ x ∈ l, reread (f x) = some (g x)) : reread (l.flatMap f) = some (l.flatMap g) := by
  induction l with
  | nil => rfl
  | cons x l ih =>
    rw [List.flatMap_cons, List.flatMap_cons]
    exact reread_append _ _ _ _ (h x (by simp)) (ih fun y hy => h y (by simp [hy]))

theorem itemEvents_append (xs ys : List (Item V)) :
    itemEvents (xs ++ ys) = itemEvents xs ++ itemEvents ys := by
  simp [itemEvents]

theorem valuesOf_append (i : Nat) (xs ys : List (Item V)) :
    valuesOf i (xs ++ ys) = valuesOf i xs ++ valuesOf i ys := by
  simp [valuesOf]

theorem childFields_append (xs ys : List (Item V)) :
    childFields (xs ++ ys) = childFields xs ++ childFields ys := by
  simp [childFields]

/-- The children of field `i`. -/
def kidsOf (den : U → V) (evs : U → List Event) (i : Nat) (us : List U) : List (Item V) :=
  us.map fun u => .child i (evs u) (den u)

theorem kidsOf_values (den : U → V) (evs : U → List Event) (i j : Nat) (us : List U) :
    valuesOf j (kidsOf den evs i us) = if i = j then us.map den else [] := by
  induction us with
  | nil => simp [kidsOf, valuesOf]
  | cons u us ih =>
    unfold kidsOf valuesOf at ih ⊢
    rw [List.map_cons, List.filterMap_cons]
    by_cases h : i = j
    · subst h
      simp only [if_true] at ih ⊢
      rw [ih]
      rfl
    · simp only [h, if_false] at ih ⊢
      exact ih

theorem kidsOf_fields (den : U → V) (evs : U → List Event) (i : Nat) (us : List U) :
    ∀ j ∈ childFields (kidsOf den evs i us), j = i := by
  intro j hj
  simp only [childFields, kidsOf, List.filterMap_map, List.mem_filterMap, Function.comp] at hj
  obtain ⟨u, _, h⟩ := hj
  simp at h
  exact h.symm

theorem kidsOf_events (den : U → V) (evs : U → List Event) (i : Nat) (us : List U) :
    itemEvents (kidsOf den evs i us) = us.flatMap evs := by
  simp [itemEvents, kidsOf, List.flatMap_map, Item.events]

/-- The children of all fields from `i` on. -/
def allKids (den : U → V) (evs : Nat → U → List Event) (us : Nat → List U) (i k : Nat) :
    List (Item V) :=
  (List.range' i k).flatMap fun j => kidsOf den (evs j) j (us j)

theorem allKids_succ (den : U → V) (evs : Nat → U → List Event) (us : Nat → List U) (i k : Nat) :
    allKids den evs us i (k + 1) = kidsOf den (evs i) i (us i) ++ allKids den evs us (i + 1) k := by
  simp [allKids, List.range'_succ]

theorem allKids_values (den : U → V) (evs : Nat → U → List Event) (us : Nat → List U) (k : Nat) :
    ∀ i j, valuesOf j (allKids den evs us i k)
      = if i ≤ j ∧ j < i + k then (us j).map den else [] := by
  induction k with
  | zero => intro i j; rw [if_neg (by omega)]; rfl
  | succ k ih =>
    intro i j
    rw [allKids_succ, valuesOf_append, kidsOf_values, ih]
    by_cases h : i = j
    · subst h
      rw [if_pos rfl, if_neg (by omega), if_pos (by omega), List.append_nil]
    · rw [if_neg h, List.nil_append]
      by_cases h2 : i + 1 ≤ j ∧ j < i + 1 + k
      · rw [if_pos h2, if_pos (by omega)]
      · rw [if_neg h2, if_neg (by omega)]

theorem allKids_fields (den : U → V) (evs : Nat → U → List Event) (us : Nat → List U) (k : Nat) :
    ∀ i, (∀ j ∈ childFields (allKids den evs us i k), i ≤ j) ∧
      (childFields (allKids den evs us i k)).Pairwise (· ≤ ·) := by
  induction k with
  | zero => intro i; exact ⟨fun j hj => (by simp [allKids, childFields] at hj), List.Pairwise.nil⟩
  | succ k ih =>
    intro i
    obtain ⟨h1, h2⟩ := ih (i + 1)
    rw [allKids_succ, childFields_append]
    have hk := kidsOf_fields den (evs i) i (us i)
    constructor
    · intro j hj
      rcases List.mem_append.mp hj with h | h
      · exact Nat.le_of_eq (hk j h).symm
      · exact Nat.le_trans (Nat.le_succ i) (h1 j h)
    · rw [List.pairwise_append]
      refine ⟨?_, h2, ?_⟩
      · exact List.Pairwise.imp_of_mem (R := fun _ _ => True)
          (fun ha hb _ => by rw [hk _ ha, hk _ hb]; exact Nat.le_refl i) (List.pairwise_of_forall fun _ _ => trivial)
      · intro a ha b hb
        rw [hk a ha]
        exact Nat.le_trans (Nat.le_succ i) (h1 b hb)

theorem allKids_events (den : U → V) (evs : Nat → U → List Event) (us : Nat → List U)
    (i k : Nat) : itemEvents (allKids den evs us i k)
      = (List.range' i k).flatMap fun j => (us j).flatMap (evs j) := by
  unfold allKids
  generalize List.range' i k = l
  induction l with
  | nil => rfl
  | cons x l ih => rw [List.flatMap_cons, List.flatMap_cons, itemEvents_append, kidsOf_events, ih]

theorem picks_mono {fs : List (Field H C V)} {i : Nat} {P Q : Nat → Prop} {h : H} {t : Tag}
    (hpq : ∀ j, j < i → P j → Q j) (hp : Picks fs i P h t) : Picks fs i Q h t :=
  ⟨hp.1, fun j f hj hq hf => hp.2 j f hj (fun h => hq (hpq j hj h)) hf⟩

/-- Items all of which can be read from any position like the first. Fields with `P` get no more
children when the children of later fields come. -/
theorem itemsOk_of (track : H → Event → H) (fs : List (Field H C V)) (sim : H → H → Prop)
    (trans : ∀ a b c, sim a b → sim b c → sim a c) (h0 : H) (P : Nat → Prop) (items : List (Item V))
    (hi : ∀ it ∈ items, ∃ i evs v, it = .child i evs v ∧ ∀ h, sim h h0 →
      ValidChild track fs P h i evs v ∧ sim (evs.foldl track h) h) :
    ∀ seen h, (∀ pre i evs v suf, items = pre ++ .child i evs v :: suf → ∀ j, j < i → P j →
        Past fs ((childFields pre).reverse ++ seen) j) → sim h h0 →
      ItemsOk track fs seen h items ∧ sim ((itemEvents items).foldl track h) h0 := by
  induction items with
  | nil => exact fun _ h _ hs => ⟨trivial, hs⟩
  | cons it items ih =>
    intro seen h hpast hs
    obtain ⟨i, evs, v, rfl, hv⟩ := hi it (by simp)
    obtain ⟨⟨f, e, es, t, p1, p2, p3, p4, p5⟩, s1⟩ := hv h hs
    have s2 := trans _ _ _ s1 hs
    obtain ⟨r1, r2⟩ := ih (fun x hx => hi x (by simp [hx])) (i :: seen) _ (by
      intro pre i' evs' v' suf he j hj hP
      have := hpast (.child i evs v :: pre) i' evs' v' suf (by rw [he]; rfl) j hj hP
      have hcf : childFields (.child i evs v :: pre) = i :: childFields pre := rfl
      rw [hcf, List.reverse_cons, List.append_assoc] at this
      exact this) s2
    refine ⟨⟨⟨f, e, es, t, p1, p2, p3, picks_mono (fun j hj hP => ?_) p4, p5⟩, r1⟩, ?_⟩
    · exact hpast [] i evs v items rfl j hj hP
    show sim (List.foldl track h (evs ++ itemEvents items)) h0
    rw [List.foldl_append]
    exact r2

/-- What a generated element with parts writes: start tag, the values of the parts in order, end
tag; and what is read again. -/
theorem shell_written (track : H → Event → H) (sim : H → H → Prop)
    (create : U → Option Str → Bool → Except E S) (z : Zer S E)
    (Z : Shell W (FSt U S) E) (hZ : Z.isElement = true) (hz : Z.z = fieldZ create z)
    (h0 : Z.parts ≠ 0) (w : W) (name : Str) (root : Bool) (fname : Nat → Option Str)
    (froot : Nat → Bool) (fval : Nat → FVal U) (den : U → V) (d : Nat → U → GDe H C V)
    (tag : Nat → U → H → Tag → Prop)
    (henter : ∀ i, i < Z.parts →
      Z.enter w root i = fieldEnter create (fname i) (froot i) (fval i))
    (sh sh1 : SerHelper) (ok : sh.Ok) (t : Tag) (ht : Z.openTag w name root sh = (.ok t, sh1))
    (hd : H)
    (kids : ∀ i u r, i < Z.parts → u ∈ (fval i).toList →
      Survives track sim create z (d i u) (tag i u) (fname i) r u (den u) sh1 hd) :
    ∃ (evs : Nat → U → List Event) (out : List Event),
      (shellZ Z).Emits (.init w name root) sh (.start t :: (out ++ [.end_ t.name])) sh ∧
      reread out = some ((List.range Z.parts).flatMap fun i => (fval i).toList.flatMap (evs i)) ∧
      ∀ i u, i < Z.parts → u ∈ (fval i).toList →
        ReadsAs track sim (d i u) (tag i u) (evs i u) (den u) hd := by
  have main : ∀ i u, ∃ out evs : List Event, i < Z.parts → u ∈ (fval i).toList →
      (∃ s, create u (fname i) ((fval i).root (froot i)) = .ok s ∧ z.Emits s sh1 out sh1) ∧
      reread out = some evs ∧ ReadsAs track sim (d i u) (tag i u) evs (den u) hd := by
    intro i u
    by_cases hi : i < Z.parts
    · by_cases hu : u ∈ (fval i).toList
      · obtain ⟨s, out, evs, h1, h2, h3, h4⟩ := kids i u ((fval i).root (froot i)) hi hu
        exact ⟨out, evs, fun _ _ => ⟨⟨s, h1, h2⟩, h3, h4⟩⟩
      · exact ⟨[], [], fun _ h => absurd h hu⟩
    · exact ⟨[], [], fun h => absurd h hi⟩
  let out := fun i u => Classical.choose (main i u)
  let evs := fun i u => Classical.choose (Classical.choose_spec (main i u))
  have hm : ∀ i u, i < Z.parts → u ∈ (fval i).toList →
      (∃ s, create u (fname i) ((fval i).root (froot i)) = .ok s ∧
        z.Emits s sh1 (out i u) sh1) ∧
      reread (out i u) = some (evs i u) ∧
      ReadsAs track sim (d i u) (tag i u) (evs i u) (den u) hd :=
    fun i u => Classical.choose_spec (Classical.choose_spec (main i u))
  refine ⟨evs, (List.range Z.parts).flatMap fun i => (fval i).toList.flatMap (out i), ?_, ?_, ?_⟩
  · exact shell_emits Z w name root sh sh1 ok t ht hZ h0
      (fun i => (fval i).toList.flatMap (out i)) (by
        intro i hi
        rw [henter i hi, hz]
        exact field_emits create z (fname i) (froot i) sh1 (out i) (fval i)
          fun v hv => (hm i v hi hv).1)
  · apply reread_flatMap
    intro i hi
    apply reread_flatMap
    intro u hu
    exact (hm i u (List.mem_range.mp hi) hu).2.1
  · exact fun i u hi hu => (hm i u hi hu).2.2

/-- What is left to prove for an element with parts: that the items are read. -/
theorem element_survives (track : H → Event → H) (sim : H → H → Prop) (S : Sim track sim)
    {C' X : Type} (d : GDe H C' X) (hd : H) (t : Tag) (items : List (Item V)) (x : X)
    (hi : ∀ it ∈ items, ∃ i evs v, it = .child i evs v ∧ ∀ h, sim h (track hd (.start t)) →
      sim (evs.foldl track h) h)
    (hf : ∀ hd', sim hd' hd → Feeds track d none hd'
      (.start t :: (itemEvents items ++ [.end_ t.name])) x) :
    ReadsAs track sim d (fun _ t' => t' = t) (.start t :: (itemEvents items ++ [.end_ t.name])) x
      hd := by
  refine ⟨.start t, _, t, rfl, rfl, fun hd' hs => ⟨rfl, hf hd' hs, ?_⟩⟩
  have s1 := S.start hd hd' t hs
  have go : ∀ (l : List (Item V)), (∀ it ∈ l, it ∈ items) → ∀ h, sim h (track hd (.start t)) →
      sim ((itemEvents l).foldl track h) (track hd (.start t)) := by
    intro l
    induction l with
    | nil => exact fun _ h hs => hs
    | cons it l ih =>
      intro hl h hs
      obtain ⟨i, evs, v, rfl, hv⟩ := hi it (hl it (by simp))
      show sim ((evs ++ itemEvents l).foldl track h) _
      rw [List.foldl_append]
      exact ih (fun x hx => hl x (by simp [hx])) _ (S.trans _ _ _ (hv h hs) hs)
  rw [List.foldl_cons, List.foldl_append]
  exact S.end_ hd' _ t t.name
    (S.trans _ _ _ (go items (fun _ h => h) _ s1) (S.symm _ _ s1))

/-- The items that a struct writes for its fields. -/
theorem allKids_mem (den : U → V) (evs : Nat → U → List Event) (us : Nat → List U) (k : Nat)
    (it : Item V) (h : it ∈ allKids den evs us 0 k) :
    ∃ i u, i < k ∧ u ∈ us i ∧ it = .child i (evs i u) (den u) := by
  simp only [allKids, List.mem_flatMap] at h
  obtain ⟨i, hi, hk⟩ := h
  simp only [kidsOf, List.mem_map] at hk
  obtain ⟨u, hu, rfl⟩ := hk
  rw [← List.range_eq_range', List.mem_range] at hi
  exact ⟨i, u, hi, hu, rfl⟩

/-- The value has as many values for field `j` as it may have. -/
def Full (fs : List (Field H C V)) (fval : Nat → FVal U) (j : Nat) : Prop :=
  ∀ f, fs[j]? = some f → f.max = .bounded (fval j).toList.length

theorem count_childFields (j : Nat) (items : List (Item V)) :
    (childFields items).count j = (valuesOf j items).length := by
  induction items with
  | nil => rfl
  | cons it items ih =>
    cases it with
    | pad e => exact ih
    | child i evs v =>
      have h1 : childFields (.child i evs v :: items) = i :: childFields items := rfl
      have h2 : valuesOf j (.child i evs v :: items)
          = if i = j then v :: valuesOf j items else valuesOf j items := by
        unfold valuesOf
        rw [List.filterMap_cons]
        split <;> simp_all
      rw [h1, h2, List.count_cons, ih]
      by_cases hij : i = j <;> simp [hij]

/-- In a list of children in the order of the fields, the children of a field come before those of
later fields. -/
theorem past_of_sorted (fs : List (Field H C V)) (fval : Nat → FVal U) (items : List (Item V))
    (hs : (childFields items).Pairwise (· ≤ ·))
    (hn : ∀ j f, fs[j]? = some f → (valuesOf j items).length = (fval j).toList.length)
    (pre : List (Item V)) (i : Nat) (evs : List Event) (v : V) (suf : List (Item V))
    (he : items = pre ++ .child i evs v :: suf) (j : Nat) (hj : j < i) (hP : Full fs fval j) :
    Past fs ((childFields pre).reverse ++ []) j := by
  right
  intro f hf
  rw [hP f hf, List.append_nil, List.count_reverse, ← hn j f hf, ← count_childFields, he]
  have happ : childFields (pre ++ .child i evs v :: suf) = childFields pre ++ i :: childFields suf := by
    simp [childFields, List.filterMap_append]
  rw [he, happ, List.pairwise_append] at hs
  rw [happ, List.count_append]
  have h0 : (i :: childFields suf).count j = 0 := by
    rw [List.count_eq_zero]
    intro hm
    rcases List.mem_cons.mp hm with rfl | hm
    · omega
    · have := (List.pairwise_cons.mp hs.2.1).1 j hm
      omega
  rw [h0]
  rfl

/-- **C13**, one level: a struct with sequence content that represents an element. It is
written with any namespaces and attributes (`t` is the tag it writes) and read again. If its
attributes are read back as `a`, the numbers of values are within the bounds of the fields, and
every value survives and is written so that it belongs to its field (`Picks`: it has the name of
the field, and the fields before it do not take it unless they are full), then the struct
survives. -/
theorem C13_struct_round_trip (track : H → Event → H) (sim : H → H → Prop) (hsim : Sim track sim)
    (T : SeqTy H A C V X) (hT : T.isElement = true) (hmax : ∀ f ∈ T.fields, f.max ≠ .bounded 0)
    (create : U → Option Str → Bool → Except E S) (z : Zer S E)
    (Z : Shell W (FSt U S) E) (hZ : Z.isElement = true) (hz : Z.z = fieldZ create z)
    (hn : Z.parts = T.fields.length)
    (w : W) (name : Str) (root : Bool) (fname : Nat → Option Str) (froot : Nat → Bool)
    (fval : Nat → FVal U) (den : U → V)
    (henter : ∀ i, i < Z.parts →
      Z.enter w root i = fieldEnter create (fname i) (froot i) (fval i))
    (hcount : ∀ i f, T.fields[i]? = some f → Allows f.min f.max (fval i).toList.length)
    (sh sh1 : SerHelper) (ok : sh.Ok) (t : Tag) (ht : Z.openTag w name root sh = (.ok t, sh1))
    (hd : H) (a : A)
    (ha : ∀ hd', sim hd' hd → T.ofTag (track hd' (.start t)) t = .ok a)
    (hae : ∀ hd', sim hd' hd → T.ofTag (track hd' (.empty t)) t = .ok a)
    (kids : ∀ i f u r, T.fields[i]? = some f → u ∈ (fval i).toList →
      Survives track sim create z f.de (Picks T.fields i (Full T.fields fval)) (fname i) r u (den u)
        sh1 (track hd (.start t))) :
    ∃ out evs, (shellZ Z).Emits (.init w name root) sh out sh ∧ reread out = some evs ∧
      ReadsAs track sim T.de (fun _ t' => t' = t) evs
        (T.build a ((List.range T.fields.length).map fun i => (fval i).toList.map den)) hd := by
  by_cases h0 : Z.parts = 0
  · refine ⟨[.empty t], [.empty t], shell_emits_empty Z w name root sh sh1 ok t ht hZ h0, rfl, ?_⟩
    refine ⟨.empty t, [], t, rfl, rfl, fun hd' hs => ⟨rfl, ?_, hsim.empty _ _⟩⟩
    have hf : T.fields = [] := List.eq_nil_of_length_eq_zero (by rw [← hn]; exact h0)
    have := C09_empty_tag_feeds track T hT hmax hd' t a (hae hd' hs) (by rw [hf]; simp)
    rw [hf] at this ⊢
    exact this
  · cases hT0 : T.fields with
    | nil => rw [hT0] at hn; exact absurd hn h0
    | cons f0 fs0 =>
    rw [← hT0]
    have hlen : ∀ i, i < Z.parts → T.fields[i]? = some (T.fields.getD i f0) := by
      intro i hi
      rw [hn] at hi
      rw [List.getD_eq_getElem?_getD, List.getElem?_eq_getElem hi]
      rfl
    obtain ⟨evs, out, hem, hre, hkids⟩ := shell_written track sim create z Z hZ hz h0 w name root
      fname froot fval den (fun i _ => (T.fields.getD i f0).de)
      (fun i _ => Picks T.fields i (Full T.fields fval))
      henter sh sh1 ok t ht (track hd (.start t))
      (fun i u r hi hu => kids i _ u r (hlen i hi) hu)
    let items := allKids den evs (fun i => (fval i).toList) 0 Z.parts
    have hev : itemEvents items
        = (List.range Z.parts).flatMap fun i => (fval i).toList.flatMap (evs i) := by
      rw [allKids_events, ← List.range_eq_range']
    have hitems : ∀ it ∈ items, ∃ i ev v, it = .child i ev v ∧
        ∀ h, sim h (track hd (.start t)) →
          ValidChild track T.fields (Full T.fields fval) h i ev v ∧ sim (ev.foldl track h) h := by
      intro it hit
      obtain ⟨i, u, hi, hu, rfl⟩ := allKids_mem den evs _ _ it hit
      refine ⟨i, _, _, rfl, fun h hs => ?_⟩
      obtain ⟨e, es, tg, h1, h2, h3⟩ := hkids i u hi hu
      obtain ⟨p1, p2, p3⟩ := h3 h hs
      exact ⟨⟨_, e, es, tg, hlen i hi, h1, h2, p1, p2⟩, p3⟩
    refine ⟨_, .start t :: (itemEvents items ++ [.end_ t.name]), hem, ?_, ?_⟩
    · show Option.map _ (reread _) = _
      rw [reread_append _ _ _ [.end_ t.name] hre rfl, hev]
      rfl
    · refine element_survives track sim hsim T.de hd t items _ ?_ ?_
      · intro it hit
        obtain ⟨i, ev, v, h1, h2⟩ := hitems it hit
        exact ⟨i, ev, v, h1, fun h hs => (h2 h hs).2⟩
      · intro hd' hs
        have hlens : ∀ i f, T.fields[i]? = some f →
            (valuesOf i items).length = (fval i).toList.length := by
          intro i f hf
          have hi : i < T.fields.length := by
            rw [List.getElem?_eq_some_iff] at hf
            exact hf.1
          rw [allKids_values, if_pos (by omega), List.length_map]
        have io := (itemsOk_of track T.fields sim hsim.trans _ _ items hitems [] _
          (past_of_sorted T.fields fval items (allKids_fields den evs _ _ 0).2 hlens)
          (hsim.start hd hd' t hs)).1
        have sq : InSequence T.fields items := by
          refine ⟨(allKids_fields den evs _ _ 0).2, ?_⟩
          intro i f hf
          rw [hlens i f hf]
          exact hcount i f hf
        have := C09_sequence_feeds track T hT hmax hd' t a (ha hd' hs) items io sq
        have hv : (List.range T.fields.length).map (fun i => valuesOf i items)
            = (List.range T.fields.length).map fun i => (fval i).toList.map den := by
          apply List.map_congr_left
          intro i hi
          rw [List.mem_range] at hi
          rw [allKids_values, if_pos (by omega)]
        rw [hv] at this
        exact this

/-- The items of a list of children, for the content specifications of `xs:all` and of
choices. -/
theorem allItems_of (track : H → Event → H) (fs : List (Field H C V)) (sim : H → H → Prop)
    (trans : ∀ a b c, sim a b → sim b c → sim a c) (h0 : H) (items : List (Item V))
    (hi : ∀ it ∈ items, ∃ i evs v f, it = .child i evs v ∧ fs[i]? = some f ∧
      ReadsAs track sim f.de (FirstNamed fs i) evs v h0) :
    ∀ h, sim h h0 → AllItems track fs h items := by
  induction items with
  | nil => exact fun h hs => trivial
  | cons it items ih =>
    intro h hs
    obtain ⟨i, evs, v, f, rfl, hf, e, es, tg, rfl, htg, hv⟩ := hi it (by simp)
    obtain ⟨p1, p2, p3⟩ := hv h hs
    exact ⟨⟨f, e, es, hf, rfl, ⟨tg, htg, Or.inl p1⟩, p2⟩,
      ih (fun x hx => hi x (by simp [hx])) _ (trans _ _ _ p3 hs)⟩

/-- **C13**, one level, for `xs:all`. -/
theorem C13_all_round_trip (track : H → Event → H) (sim : H → H → Prop) (hsim : Sim track sim)
    (T : SeqTy H A C V X) (hT : T.isElement = true) (hmax : ∀ f ∈ T.fields, f.max ≠ .bounded 0)
    (create : U → Option Str → Bool → Except E S) (z : Zer S E)
    (Z : Shell W (FSt U S) E) (hZ : Z.isElement = true) (hz : Z.z = fieldZ create z)
    (hn : Z.parts = T.fields.length) (h0 : Z.parts ≠ 0)
    (w : W) (name : Str) (root : Bool) (fname : Nat → Option Str) (froot : Nat → Bool)
    (fval : Nat → FVal U) (den : U → V)
    (henter : ∀ i, i < Z.parts →
      Z.enter w root i = fieldEnter create (fname i) (froot i) (fval i))
    (hcount : ∀ i f, T.fields[i]? = some f → Allows f.min f.max (fval i).toList.length)
    (sh sh1 : SerHelper) (ok : sh.Ok) (t : Tag) (ht : Z.openTag w name root sh = (.ok t, sh1))
    (hd : H) (a : A)
    (ha : ∀ hd', sim hd' hd → T.ofTag (track hd' (.start t)) t = .ok a)
    (kids : ∀ i f u r, T.fields[i]? = some f → u ∈ (fval i).toList →
      Survives track sim create z f.de (FirstNamed T.fields i) (fname i) r u (den u) sh1
        (track hd (.start t))) :
    ∃ out evs, (shellZ Z).Emits (.init w name root) sh out sh ∧ reread out = some evs ∧
      ReadsAs track sim T.allDe (fun _ t' => t' = t) evs
        (T.build a ((List.range T.fields.length).map fun i => (fval i).toList.map den)) hd := by
  cases hT0 : T.fields with
  | nil => rw [hT0] at hn; exact absurd hn h0
  | cons f0 fs0 =>
  rw [← hT0]
  have hlen : ∀ i, i < Z.parts → T.fields[i]? = some (T.fields.getD i f0) := by
    intro i hi
    rw [hn] at hi
    rw [List.getD_eq_getElem?_getD, List.getElem?_eq_getElem hi]
    rfl
  obtain ⟨evs, out, hem, hre, hkids⟩ := shell_written track sim create z Z hZ hz h0 w name root
    fname froot fval den (fun i _ => (T.fields.getD i f0).de) (fun i _ => FirstNamed T.fields i)
    henter sh sh1 ok t ht (track hd (.start t))
    (fun i u r hi hu => kids i _ u r (hlen i hi) hu)
  let items := allKids den evs (fun i => (fval i).toList) 0 Z.parts
  have hev : itemEvents items
      = (List.range Z.parts).flatMap fun i => (fval i).toList.flatMap (evs i) := by
    rw [allKids_events, ← List.range_eq_range']
  have hitems : ∀ it ∈ items, ∃ i ev v f, it = .child i ev v ∧ T.fields[i]? = some f ∧
      ReadsAs track sim f.de (FirstNamed T.fields i) ev v (track hd (.start t)) := by
    intro it hit
    obtain ⟨i, u, hi, hu, rfl⟩ := allKids_mem den evs _ _ it hit
    exact ⟨i, _, _, _, rfl, hlen i hi, hkids i u hi hu⟩
  refine ⟨_, .start t :: (itemEvents items ++ [.end_ t.name]), hem, ?_, ?_⟩
  · show Option.map _ (reread _) = _
    rw [reread_append _ _ _ [.end_ t.name] hre rfl, hev]
    rfl
  · refine element_survives track sim hsim T.allDe hd t items _ ?_ ?_
    · intro it hit
      obtain ⟨i, ev, v, f, h1, h2, e, es, tg, h3, h4, h5⟩ := hitems it hit
      exact ⟨i, ev, v, h1, fun h hs => (h5 h hs).2.2⟩
    · intro hd' hs
      have io := allItems_of track T.fields sim hsim.trans _ items hitems _
        (hsim.start hd hd' t hs)
      have := C11_all_feeds track T hT hmax hd' t a (ha hd' hs) items io (by
        intro i f hf
        have hi : i < T.fields.length := by
          rw [List.getElem?_eq_some_iff] at hf
          exact hf.1
        rw [allKids_values, if_pos (by omega), List.length_map]
        exact hcount i f hf)
      have hv : (List.range T.fields.length).map (fun i => valuesOf i items)
          = (List.range T.fields.length).map fun i => (fval i).toList.map den := by
        apply List.map_congr_left
        intro i hi
        rw [List.mem_range] at hi
        rw [allKids_values, if_pos (by omega)]
      rw [hv] at this
      exact this

theorem contentOk_of (track : H → Event → H) (d : GDe H C V) (sim : H → H → Prop)
    (trans : ∀ a b c, sim a b → sim b c → sim a c) (h0 : H) (items : List (Item V))
    (hi : ∀ it ∈ items, ∃ i evs v, it = .child i evs v ∧
      ReadsAs track sim d (fun _ _ => True) evs v h0) :
    ∀ h, sim h h0 → ContentOk track d h items := by
  induction items with
  | nil => exact fun h hs => trivial
  | cons it items ih =>
    intro h hs
    obtain ⟨i, evs, v, rfl, e, es, tg, rfl, htg, hv⟩ := hi it (by simp)
    obtain ⟨_, p2, p3⟩ := hv h hs
    exact ⟨⟨e, es, tg, rfl, htg, p2⟩, ih (fun x hx => hi x (by simp [hx])) _ (trans _ _ _ p3 hs)⟩

theorem kidsOf_allValues (den : U → V) (evs : U → List Event) (i : Nat) (us : List U) :
    allValues (kidsOf den evs i us) = us.map den := by
  induction us with
  | nil => rfl
  | cons u us ih =>
    unfold kidsOf allValues at ih ⊢
    rw [List.map_cons, List.filterMap_cons, List.map_cons, ← ih]

/-- **C13**, one level, for structs with the field `content` (for example, a list of the
alternatives of a repeated choice). -/
theorem C13_content_round_trip (track : H → Event → H) (sim : H → H → Prop) (hsim : Sim track sim)
    (T : ContentTy H A C V X) (hT : T.isElement = true) (hmax : T.content.max ≠ .bounded 0)
    (create : U → Option Str → Bool → Except E S) (z : Zer S E)
    (Z : Shell W (FSt U S) E) (hZ : Z.isElement = true) (hz : Z.z = fieldZ create z)
    (hn : Z.parts = 1)
    (w : W) (name : Str) (root : Bool) (fname : Option Str) (froot : Bool)
    (fval : FVal U) (den : U → V)
    (henter : Z.enter w root 0 = fieldEnter create fname froot fval)
    (hcount : Allows T.content.min T.content.max fval.toList.length)
    (sh sh1 : SerHelper) (ok : sh.Ok) (t : Tag) (ht : Z.openTag w name root sh = (.ok t, sh1))
    (hd : H) (a : A)
    (ha : ∀ hd', sim hd' hd → T.ofTag (track hd' (.start t)) t = .ok a)
    (kids : ∀ u r, u ∈ fval.toList →
      Survives track sim create z T.content.de (fun _ _ => True) fname r u (den u) sh1
        (track hd (.start t))) :
    ∃ out evs, (shellZ Z).Emits (.init w name root) sh out sh ∧ reread out = some evs ∧
      ReadsAs track sim T.de (fun _ t' => t' = t) evs (T.build a (fval.toList.map den)) hd := by
  obtain ⟨evs, out, hem, hre, hkids⟩ := shell_written track sim create z Z hZ hz (by omega) w name
    root (fun _ => fname) (fun _ => froot) (fun _ => fval) den (fun _ _ => T.content.de)
    (fun _ _ _ _ => True) (by
      intro i hi
      rw [hn] at hi
      rw [show i = 0 by omega]
      exact henter)
    sh sh1 ok t ht (track hd (.start t)) (fun i u r _ hu => kids u r hu)
  let items := kidsOf den (evs 0) 0 fval.toList
  have hev : itemEvents items
      = (List.range Z.parts).flatMap fun i => fval.toList.flatMap (evs i) := by
    rw [kidsOf_events, hn]
    simp
  have hitems : ∀ it ∈ items, ∃ i ev v, it = .child i ev v ∧
      ReadsAs track sim T.content.de (fun _ _ => True) ev v (track hd (.start t)) := by
    intro it hit
    simp only [items, kidsOf, List.mem_map] at hit
    obtain ⟨u, hu, rfl⟩ := hit
    exact ⟨0, _, _, rfl, hkids 0 u (by omega) hu⟩
  refine ⟨_, .start t :: (itemEvents items ++ [.end_ t.name]), hem, ?_, ?_⟩
  · show Option.map _ (reread _) = _
    rw [reread_append _ _ _ [.end_ t.name] hre rfl, hev]
    rfl
  · refine element_survives track sim hsim T.de hd t items _ ?_ ?_
    · intro it hit
      obtain ⟨i, ev, v, h1, e, es, tg, h3, h4, h5⟩ := hitems it hit
      exact ⟨i, ev, v, h1, fun h hs => (h5 h hs).2.2⟩
    · intro hd' hs
      have io := contentOk_of track T.content.de sim hsim.trans _ items hitems _
        (hsim.start hd hd' t hs)
      have hv : allValues items = fval.toList.map den := kidsOf_allValues den (evs 0) 0 _
      have := C12_content_feeds track T hT hmax hd' t a (ha hd' hs) items io (by
        rw [hv, List.length_map]
        exact hcount)
      rw [hv] at this
      exact this

theorem oneOf_of (track : H → Event → H) (fs : List (Field H C V)) (sim : H → H → Prop)
    (trans : ∀ a b c, sim a b → sim b c → sim a c) (h0 : H) (i : Nat) (f : Field H C V)
    (hf : fs[i]? = some f) (items : List (Item V))
    (hi : ∀ it ∈ items, ∃ evs v, it = .child i evs v ∧
      ReadsAs track sim f.de (FirstNamed fs i) evs v h0) :
    ∀ h, sim h h0 → OneOf track fs i h items := by
  induction items with
  | nil => exact fun h hs => trivial
  | cons it items ih =>
    intro h hs
    obtain ⟨evs, v, rfl, e, es, tg, rfl, htg, hv⟩ := hi it (by simp)
    obtain ⟨p1, p2, p3⟩ := hv h hs
    exact ⟨rfl, ⟨f, e, es, tg, hf, rfl, htg, p1, p2⟩,
      ih (fun x hx => hi x (by simp [hx])) _ (trans _ _ _ p3 hs)⟩

/-- **C13**, one level, for enums that represent an element: the values of one alternative. -/
theorem C13_enum_round_trip (track : H → Event → H) (sim : H → H → Prop) (hsim : Sim track sim)
    (T : EnumTy H C V X) (hT : T.isElement = true) (i : Nat) (f : Field H C V)
    (hf : T.alts[i]? = some f) (hmax : f.max ≠ .bounded 0)
    (create : U → Option Str → Bool → Except E S) (z : Zer S E)
    (Z : Shell W (FSt U S) E) (hZ : Z.isElement = true) (hz : Z.z = fieldZ create z)
    (hn : Z.parts = 1)
    (w : W) (name : Str) (root : Bool) (fname : Option Str) (froot : Bool)
    (fval : FVal U) (den : U → V)
    (henter : Z.enter w root 0 = fieldEnter create fname froot fval)
    (hne : fval.toList ≠ []) (hcount : Allows f.min f.max fval.toList.length)
    (sh sh1 : SerHelper) (ok : sh.Ok) (t : Tag) (ht : Z.openTag w name root sh = (.ok t, sh1))
    (hd : H)
    (ha : ∀ hd', sim hd' hd → T.check (track hd' (.start t)) t = .ok ())
    (kids : ∀ u r, u ∈ fval.toList →
      Survives track sim create z f.de (FirstNamed T.alts i) fname r u (den u) sh1
        (track hd (.start t))) :
    ∃ out evs, (shellZ Z).Emits (.init w name root) sh out sh ∧ reread out = some evs ∧
      ReadsAs track sim T.de (fun _ t' => t' = t) evs (T.build i (fval.toList.map den)) hd := by
  obtain ⟨evs, out, hem, hre, hkids⟩ := shell_written track sim create z Z hZ hz (by omega) w name
    root (fun _ => fname) (fun _ => froot) (fun _ => fval) den (fun _ _ => f.de)
    (fun _ _ => FirstNamed T.alts i) (by
      intro j hj
      rw [hn] at hj
      rw [show j = 0 by omega]
      exact henter)
    sh sh1 ok t ht (track hd (.start t)) (fun i u r _ hu => kids u r hu)
  let items := kidsOf den (evs 0) i fval.toList
  have hev : itemEvents items
      = (List.range Z.parts).flatMap fun i => fval.toList.flatMap (evs i) := by
    rw [kidsOf_events, hn]
    simp
  have hitems : ∀ it ∈ items, ∃ ev v, it = .child i ev v ∧
      ReadsAs track sim f.de (FirstNamed T.alts i) ev v (track hd (.start t)) := by
    intro it hit
    simp only [items, kidsOf, List.mem_map] at hit
    obtain ⟨u, hu, rfl⟩ := hit
    exact ⟨_, _, rfl, hkids 0 u (by omega) hu⟩
  have hv : valuesOf i items = fval.toList.map den := by rw [kidsOf_values, if_pos rfl]
  refine ⟨_, .start t :: (itemEvents items ++ [.end_ t.name]), hem, ?_, ?_⟩
  · show Option.map _ (reread _) = _
    rw [reread_append _ _ _ [.end_ t.name] hre rfl, hev]
    rfl
  · refine element_survives track sim hsim T.de hd t items _ ?_ ?_
    · intro it hit
      obtain ⟨ev, v, h1, e, es, tg, h3, h4, h5⟩ := hitems it hit
      exact ⟨i, ev, v, h1, fun h hs => (h5 h hs).2.2⟩
    · intro hd' hs
      have io := oneOf_of track T.alts sim hsim.trans _ i f hf items hitems _
        (hsim.start hd hd' t hs)
      have := C12_choice_feeds track T hT hd' t (ha hd' hs) i f hf hmax items io
        (by rw [hv]; simpa using hne) (by rw [hv, List.length_map]; exact hcount)
      rw [hv] at this
      exact this

end

end Verif.Gen

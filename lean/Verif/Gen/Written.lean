import Verif.Gen.Documents

/-!
# What the generated code writes is a document of the table (C13)

Tables with nested groups (`Schema.Nested`): the serializers write every value of a type as a document that the table
describes for this value (`Doc`), and the deserializers read it back. Values may contain nested sequences and choices at any
depth.
-/

namespace Verif.Gen.Tab

open Verif.Rt Verif.Occurs

variable {X : Type}

/-! ## Specification -/

/-- The values of a type; `HasTy` with nested groups. A group holds at least one element: without one it would leave no
trace in the document. -/
inductive Holds (G : Schema X) : TyRef → Val X → Prop
  | simple {k x} (h : SimpleOk G k x) : Holds G (.simple k) (.simple x)
  | fields {k D es as fs} (hD : G.structs[k]? = some D) (ha : AttrsOk G D as)
      (hb : D.body = .seq es ∨ D.body = .all es) (hfl : fs.length = es.length)
      (hc : ∀ (i : Nat) f, es[i]? = some f → Allows f.min f.max (fs.getD i []).length)
      (hf : ∀ (i : Nat) f v, es[i]? = some f → v ∈ fs.getD i [] → Holds G f.ty v) :
      Holds G (.struct k) (.struct as fs)
  | group {k D es fs} (hD : G.structs[k]? = some D) (hb : D.body = .seq es) (hfl : fs.length = es.length)
      (hne : ∃ vs ∈ fs, vs ≠ [])
      (hc : ∀ (i : Nat) f, es[i]? = some f → Allows f.min f.max (fs.getD i []).length)
      (hf : ∀ (i : Nat) f v, es[i]? = some f → v ∈ fs.getD i [] → Holds G f.ty v) :
      Holds G (.variant k) (.struct [] fs)
  | choice {k D alts mn mx as vs} (hD : G.structs[k]? = some D) (ha : AttrsOk G D as)
      (hb : D.body = .choice alts mn mx) (hc : Allows mn mx vs.length)
      (hv : ∀ v ∈ vs, Holds G (.variant k) v) : Holds G (.struct k) (.struct as [vs])
  | variant {k D alts mn mx i f v} (hD : G.structs[k]? = some D)
      (hb : D.body = .choice alts mn mx) (hf : alts[i]? = some f) (hv : Holds G f.ty v) :
      Holds G (.variant k) (.alt i [v])
  | enum {k D alts i f vs} (hD : G.structs[k]? = some D) (hb : D.body = .enum alts)
      (hf : alts[i]? = some f) (hne : vs ≠ []) (hc : Allows f.min f.max vs.length)
      (hv : ∀ v ∈ vs, Holds G f.ty v) : Holds G (.struct k) (.alt i vs)
  | text {k D j as x} (hD : G.structs[k]? = some D) (ha : AttrsOk G D as) (hb : D.body = .text j)
      (hx : SimpleOk G j x) : Holds G (.struct k) (.struct as [[.simple x]])

/-- `Part G ty w f x`: the value `w` of type `ty` has the value `x` for its field or alternative `f`. -/
inductive Part (G : Schema X) : TyRef → Val X → FieldSpec → Val X → Prop
  | field {k D es as fs i f x} (hD : G.structs[k]? = some D) (hb : D.body = .seq es ∨ D.body = .all es)
      (hf : es[i]? = some f) (hx : x ∈ fs.getD i []) : Part G (.struct k) (.struct as fs) f x
  | group {k D es as fs i f x} (hD : G.structs[k]? = some D) (hb : D.body = .seq es)
      (hf : es[i]? = some f) (hx : x ∈ fs.getD i []) : Part G (.variant k) (.struct as fs) f x
  | choice {k D alts mn mx as vs i xs f x} (hD : G.structs[k]? = some D)
      (hb : D.body = .choice alts mn mx) (hv : .alt i xs ∈ vs) (hf : alts[i]? = some f) (hx : x ∈ xs) :
      Part G (.struct k) (.struct as [vs]) f x
  | variant {k D alts mn mx i xs f x} (hD : G.structs[k]? = some D) (hb : D.body = .choice alts mn mx)
      (hf : alts[i]? = some f) (hx : x ∈ xs) : Part G (.variant k) (.alt i xs) f x
  | enum {k D alts i f vs x} (hD : G.structs[k]? = some D) (hb : D.body = .enum alts)
      (hf : alts[i]? = some f) (hx : x ∈ vs) : Part G (.struct k) (.alt i vs) f x

/-- `w` has `x` for `f` somewhere inside. -/
inductive Inside (G : Schema X) : TyRef → Val X → FieldSpec → Val X → Prop
  | here {ty w f x} (h : Part G ty w f x) : Inside G ty w f x
  | there {ty w f x g y} (h : Part G ty w f x) (hi : Inside G f.ty x g y) : Inside G ty w g y

/-- All names that are written inside the value can be resolved; `Named` with nested groups. -/
def AllNamed (G : Schema X) (need : List (Str × Str)) (ty : TyRef) (v : Val X) : Prop :=
  ∀ f x, Inside G ty v f x → (∀ j, f.ty ≠ .variant j) → ElementNamed G need f x

/-- `Schema.Good` with nested groups. -/
structure Schema.NestedGood (G : Schema X) (d : Nat) (binds : Str → Str) (need : List (Str × Str)) : Prop
    extends G.Nested d where
  root : Agrees binds need
  decls : ∀ D ∈ G.structs, ∀ f ∈ D.body.elements, ∀ x root, Agrees binds (tyDeclares G x f.name.text root f.ty)

theorem AllNamed.part {G : Schema X} {need : List (Str × Str)} {ty : TyRef} {w : Val X} (h : AllNamed G need ty w)
    {f : FieldSpec} {x : Val X} (hp : Part G ty w f x) :
    AllNamed G need f.ty x ∧ ((∀ j, f.ty ≠ .variant j) → ElementNamed G need f x) :=
  ⟨fun g y hi => h g y (.there hp hi), h f x (.here hp)⟩

theorem Part.spec {G : Schema X} {ty : TyRef} {w : Val X} {f : FieldSpec} {x : Val X} (h : Part G ty w f x) :
    ∃ D ∈ G.structs, f ∈ D.body.elements := by
  cases h with
  | field hD hb hf _ =>
    refine ⟨_, List.mem_of_getElem? hD, ?_⟩
    rcases hb with hb | hb <;> rw [hb] <;> exact List.mem_of_getElem? hf
  | group hD hb hf _ => exact ⟨_, List.mem_of_getElem? hD, by rw [hb]; exact List.mem_of_getElem? hf⟩
  | choice hD hb _ hf _ => exact ⟨_, List.mem_of_getElem? hD, by rw [hb]; exact List.mem_of_getElem? hf⟩
  | variant hD hb hf _ => exact ⟨_, List.mem_of_getElem? hD, by rw [hb]; exact List.mem_of_getElem? hf⟩
  | enum hD hb hf _ => exact ⟨_, List.mem_of_getElem? hD, by rw [hb]; exact List.mem_of_getElem? hf⟩

/-- If the names of all types can be resolved, then those inside any value. -/
theorem Schema.Declared.allNamed {G : Schema X} {need : List (Str × Str)} (h : G.Declared need) (ty : TyRef) (v : Val X) :
    AllNamed G need ty v := by
  intro f x hi hne
  induction hi with
  | here hp => obtain ⟨D, hD, hf⟩ := hp.spec; exact h D hD _ hf _
  | there _ _ ih => exact ih hne

/-- The values without nested sequences. -/
theorem HasTy.holds {G : Schema X} {ty : TyRef} {v : Val X} (h : HasTy G ty v) : Holds G ty v := by
  induction h with
  | simple h => exact .simple h
  | fields hD ha hb hfl hc _ ih => exact .fields hD ha hb hfl hc ih
  | choice hD ha hb hc _ ih => exact .choice hD ha hb hc ih
  | variant hD hb hf _ ih => exact .variant hD hb hf ih
  | enum hD hb hf hne hc _ ih => exact .enum hD hb hf hne hc ih
  | text hD ha hb hx => exact .text hD ha hb hx

/-! ## Parts -/

/-- The value is written, and what is written is a document for it, wherever a reader meets it. -/
def Written (G : Schema X) (n : Nat) (ty : TyRef) (name : Option Str) (root : Bool) (v : Val X) (sh : SerHelper)
    (hd : Pos) (Q : Pos → List Event → Prop) : Prop :=
  ∃ s out evs, mk (ty, v) name root = .ok s ∧ (ser G n).Emits s sh out sh ∧ reread out = some evs ∧
    ∀ hd', simPos hd' hd → (Doc G ty hd' evs v ∧ Q hd' evs) ∧ simPos (after hd' evs) hd'

/-- The element has this name, if it is one. -/
def OpensField (f : FieldSpec) (p : Pos) (evs : List Event) : Prop := (∀ j, f.ty ≠ .variant j) → Opens p evs f.name

section
variable {U S E : Type}

/-- What the fields write, and what is read again. -/
theorem parts_written (create : U → Option Str → Bool → Except E S) (z : Zer S E) (sh : SerHelper) (N : Nat)
    (fname : Nat → Option Str) (froot : Nat → Bool) (fval : Nat → FVal U) (R : Nat → U → List Event → Prop)
    (kids : ∀ i u r, i < N → u ∈ (fval i).toList → ∃ s out evs, create u (fname i) r = .ok s ∧
      z.Emits s sh out sh ∧ reread out = some evs ∧ R i u evs) :
    ∃ (evs : Nat → U → List Event) (out : Nat → List Event),
      (∀ i, i < N → ∃ c, fieldEnter create (fname i) (froot i) (fval i) = .ok c ∧
        (fieldZ create z).Emits c sh (out i) sh) ∧
      reread ((List.range N).flatMap out)
        = some ((List.range N).flatMap fun i => (fval i).toList.flatMap (evs i)) ∧
      ∀ i u, i < N → u ∈ (fval i).toList → R i u (evs i u) := by
  have main : ∀ i u, ∃ out evs : List Event, i < N → u ∈ (fval i).toList →
      (∃ s, create u (fname i) ((fval i).root (froot i)) = .ok s ∧ z.Emits s sh out sh) ∧
      reread out = some evs ∧ R i u evs := by
    intro i u
    by_cases hi : i < N
    · by_cases hu : u ∈ (fval i).toList
      · obtain ⟨s, out, evs, h1, h2, h3, h4⟩ := kids i u ((fval i).root (froot i)) hi hu
        exact ⟨out, evs, fun _ _ => ⟨⟨s, h1, h2⟩, h3, h4⟩⟩
      · exact ⟨[], [], fun _ h => absurd h hu⟩
    · exact ⟨[], [], fun h => absurd h hi⟩
  let out := fun i u => Classical.choose (main i u)
  let evs := fun i u => Classical.choose (Classical.choose_spec (main i u))
  have hm : ∀ i u, i < N → u ∈ (fval i).toList →
      (∃ s, create u (fname i) ((fval i).root (froot i)) = .ok s ∧ z.Emits s sh (out i u) sh) ∧
      reread (out i u) = some (evs i u) ∧ R i u (evs i u) :=
    fun i u => Classical.choose_spec (Classical.choose_spec (main i u))
  refine ⟨evs, fun i => (fval i).toList.flatMap (out i), ?_, ?_, ?_⟩
  · intro i hi
    exact field_emits create z (fname i) (froot i) sh (out i) (fval i) fun v hv => (hm i v hi hv).1
  · apply reread_flatMap
    intro i hi
    apply reread_flatMap
    intro u hu
    exact (hm i u (List.mem_range.mp hi) hu).2.1
  · exact fun i u hi hu => (hm i u hi hu).2.2

end

/-- Children that can be read at any position like the first: they can be read one after the other. -/
theorem children_at {P : Pos → Nat → List Event → Val X → Prop} {hd : Pos} (items : List (Item (Val X)))
    (h : ∀ it ∈ items, ∃ i evs v, it = .child i evs v ∧ ∀ hd', simPos hd' hd → P hd' i evs v ∧
      simPos (after hd' evs) hd') :
    ∀ hd', simPos hd' hd → simPos (after hd' (itemEvents items)) hd' ∧
      ∀ q i evs v, ChildAt hd' items q i evs v → P q i evs v := by
  induction items with
  | nil =>
    intro hd' hs
    refine ⟨rfl, ?_⟩
    rintro q i evs v ⟨l, r, he, -⟩
    cases l <;> cases he
  | cons it items ih =>
    intro hd' hs
    obtain ⟨i, evs, v, rfl, hv⟩ := h it (by simp)
    obtain ⟨p1, p2⟩ := hv hd' hs
    obtain ⟨r1, r2⟩ := ih (fun x hx => h x (by simp [hx])) (after hd' evs) (posSim.trans _ _ _ p2 hs)
    have hev : itemEvents (.child i evs v :: items) = evs ++ itemEvents items := rfl
    refine ⟨?_, ?_⟩
    · rw [hev, after_append]
      exact posSim.trans _ _ _ r1 p2
    · rintro q j evs' v' ⟨l, r, he, hq⟩
      cases l with
      | nil =>
        simp only [List.nil_append, List.cons.injEq] at he
        obtain ⟨he, -⟩ := he
        cases he
        subst hq
        exact p1
      | cons x l =>
        simp only [List.cons_append, List.cons.injEq] at he
        obtain ⟨rfl, he⟩ := he
        refine r2 q j evs' v' ⟨l, r, he, ?_⟩
        rw [hq, ← after_append]
        rfl

theorem Doc.of_variant {G : Schema X} {k : Nat} {D : StructSpec X} {alts : List FieldSpec} {mn : Nat} {mx : MaxOccurs}
    {i : Nat} {f : FieldSpec} {p : Pos} {evs : List Event} {y : Val X} (hD : G.structs[k]? = some D)
    (hb : D.body = .choice alts mn mx) (hf : alts[i]? = some f) (h : Doc G (.variant k) p evs (.alt i [y])) :
    Doc G f.ty p evs y ∧ OpensField f p evs := by
  generalize hv : Val.alt i [y] = v at h
  cases h with
  | variant hD' hb' hf' hn hd =>
    cases hv
    rw [hD] at hD'; cases hD'; rw [hb] at hb'; cases hb'
    rw [hf] at hf'; cases hf'
    exact ⟨hd, hn⟩
  | group => cases hv

theorem mem_writeAttrs {G : Schema X} {as : List (AttrSpec X)} {vs : List (Option X)} {a : Attr}
    (h : a ∈ writeAttrs G as vs) : ∃ b ∈ as, a.key = b.name.text := by
  induction as generalizing vs with
  | nil => cases vs <;> cases h
  | cons b as ih =>
    cases vs with
    | nil => cases h
    | cons v vs =>
      rcases List.mem_append.mp h with h | h
      · refine ⟨b, by simp, ?_⟩
        unfold writeAttr at h
        cases v with
        | none => cases h
        | some x =>
          simp only at h
          split at h
          · simp only [List.mem_singleton] at h; rw [h]
          · cases h
      · obtain ⟨b', h1, h2⟩ := ih h
        exact ⟨b', List.mem_cons_of_mem _ h1, h2⟩

/-- The attributes are valid if they can be read. -/
theorem tagOk_of {G : Schema X} {as : List (AttrSpec X)} {p : Pos} {t : Tag} {vs : List (Option X)}
    (h : readTag G as p t = .ok vs) (hn : NamesOk (posScope p) as t) : TagOk G as p t vs := by
  unfold readTag at h
  cases hr : fromBytesStart (posScope p) (attrTable G as) (t.attrs.map .ok) with
  | error e => rw [hr] at h; cases e <;> cases h
  | ok r =>
    obtain ⟨vs', xs⟩ := r
    rw [hr] at h
    simp only [Except.ok.injEq] at h
    subst h
    exact ⟨((C07_accepted_iff (posScope p) (attrTable G as) t.attrs vs' xs).mp hr).1, hn⟩

/-- Simple values. -/
theorem simple_written (G : Schema X) (n k : Nat) (x : X) (hx : SimpleOk G k x) (name : Str) (sh : SerHelper) :
    ∃ out e rest t, (ser G (n + 1)).Emits (.simple k (.begin (some name) x)) sh out sh ∧
      reread out = some (e :: rest) ∧ tagOf e = some t ∧ t = ⟨name, []⟩ ∧
      ∀ hd, Doc G (.simple k) hd (e :: rest) (.simple x) ∧ simPos (after hd (e :: rest)) hd := by
  have lift : ∀ {c : CSt X} {h h' : SerHelper} {evs : List Event},
      (contentZ (fun x _ => .ok (G.print k x)) fun _ => ()).Emits c h evs h' →
      (ser G (n + 1)).Emits (.simple k c) h evs h' :=
    fun e => emits_map (SSt.simple k) (ser_simple G n k) e
  unfold SimpleOk at hx
  cases hp : G.print k x with
  | none =>
    rw [hp] at hx
    refine ⟨[.empty ⟨name, []⟩], .empty ⟨name, []⟩, [], ⟨name, []⟩, ?_, rfl, rfl, rfl, ?_⟩
    · exact lift (.emit (s' := .done) (h' := sh) (by simp [contentZ, hp]) (.done rfl))
    · exact fun hd => ⟨.simpleEmpty (fun _ h => by cases h) hx, around_empty hd _⟩
  | some s =>
    rw [hp] at hx
    obtain ⟨hc, hparse⟩ := hx
    obtain ⟨evs, _, hr, hch, hl⟩ := reread_text G.num s
    have doc : ∀ (pieces : List Event) hd, (∀ e ∈ pieces, e.isLeaf = true) → charContent G.num pieces = some s →
        Doc G (.simple k) hd (.start ⟨name, []⟩ :: (pieces ++ [.end_ name])) (.simple x) ∧
        simPos (after hd (.start ⟨name, []⟩ :: (pieces ++ [.end_ name]))) hd := by
      intro pieces hd hl hch
      refine ⟨.simple (fun _ h => by cases h) hl hch hparse, ?_⟩
      unfold after
      rw [List.foldl_cons, List.foldl_append]
      exact around_end hd _ ⟨name, []⟩ name (around_leaves pieces _ hl)
    have first : (contentZ (E := Unit) (fun x _ => .ok (G.print k x)) fun _ => ()).step
        (.begin (some name) x) sh = (.emit (.start ⟨name, []⟩) (.data (some name) s), sh) := by
      simp [contentZ, hp, hc]
    have fin : (contentZ (E := Unit) (fun x _ => .ok (G.print k x)) fun _ => ()).Emits
        (.end_ name) sh [.end_ name] sh := .emit (s' := .done) rfl (.done rfl)
    by_cases hs : s = []
    · refine ⟨[.start ⟨name, []⟩, .end_ name], .start ⟨name, []⟩, [.end_ name], ⟨name, []⟩, ?_, rfl, rfl, rfl, ?_⟩
      · exact lift (.emit first (.again (s' := .end_ name) (h' := sh) (by simp [contentZ, hs]) fin))
      · exact fun hd => doc [] hd (by simp) (by rw [hs]; rfl)
    · refine ⟨[.start ⟨name, []⟩, .text (escape s), .end_ name], .start ⟨name, []⟩,
        evs ++ [.end_ name], ⟨name, []⟩, ?_, ?_, rfl, rfl, ?_⟩
      · exact lift (.emit first (.emit (s' := .end_ name) (h' := sh) (by simp [contentZ, hs]) fin))
      · show Option.map _ (reread _) = _
        rw [show [Event.text (escape s), .end_ name] = [.text (escape s)] ++ [.end_ name] from rfl,
          reread_append _ _ _ [.end_ name] hr rfl]
        rfl
      · exact fun hd => doc evs hd hl hch

/-! ## The induction -/

/-- What the induction proves: elements and groups are written. -/
structure Writing (G : Schema X) (binds : Str → Str) (need : List (Str × Str)) (n : Nat) : Prop where
  element : ∀ (ty : TyRef) (v : Val X) (q : QN) (root : Bool) (sh : SerHelper) (hd : Pos),
    (∀ k, ty ≠ .variant k) → depth v < n → Holds G ty v → sh.Ok → Synced binds sh (Pos.around hd) →
    AllInScope need (Pos.around hd) → Plain q → AllNamed G need ty v →
    Resolvable (need ++ tyDeclares G v q.text root ty) q → Agrees binds (tyDeclares G v q.text root ty) →
    AttrsNamed G need ty v q.text root →
    Written G n ty (some q.text) root v sh hd fun p evs => Opens p evs q
  group : ∀ (k : Nat) (v : Val X) (name : Option Str) (root : Bool) (sh : SerHelper) (hd : Pos), depth v < n →
    Holds G (.variant k) v → sh.Ok → Synced binds sh (Pos.around hd) → AllInScope need (Pos.around hd) →
    AllNamed G need (.variant k) v → Written G n (.variant k) name root v sh hd fun _ _ => True

/-- The value of a field or of an alternative. -/
theorem field_written {G : Schema X} {d : Nat} {binds : Str → Str} {need : List (Str × Str)}
    (good : G.NestedGood d binds need) {n : Nat} (ih : Writing G binds need n) {f : FieldSpec} {x : Val X}
    (hf : ∃ D ∈ G.structs, f ∈ D.body.elements) (hx : depth x < n) (hv : Holds G f.ty x) (root : Bool) {sh : SerHelper}
    (ok : sh.Ok) {hd : Pos} (hs : Synced binds sh (Pos.around hd)) (hneed : AllInScope need (Pos.around hd))
    (hnm : AllNamed G need f.ty x ∧ ((∀ j, f.ty ≠ .variant j) → ElementNamed G need f x)) :
    Written G n f.ty (some f.name.text) root x sh hd (OpensField f) := by
  obtain ⟨D, hD, hf⟩ := hf
  by_cases hvar : ∃ k, f.ty = .variant k
  · obtain ⟨k, hk⟩ := hvar
    have hop : ∀ p evs, OpensField f p evs := fun p evs h => absurd hk (h k)
    rw [hk] at hv hnm ⊢
    obtain ⟨s, out, evs, h1, h2, h3, h4⟩ := ih.group k x (some f.name.text) root sh hd hx hv ok hs hneed hnm.1
    exact ⟨s, out, evs, h1, h2, h3, fun hd' hs' => ⟨⟨(h4 hd' hs').1.1, hop _ _⟩, (h4 hd' hs').2⟩⟩
  · have hne : ∀ k, f.ty ≠ .variant k := fun k h => hvar ⟨k, h⟩
    have hn := hnm.2 hne root
    obtain ⟨s, out, evs, h1, h2, h3, h4⟩ := ih.element f.ty x f.name root sh hd hne hx hv ok hs hneed
      (good.plain D hD f hf) hnm.1 hn.1 (good.decls D hD f hf x root) hn.2
    exact ⟨s, out, evs, h1, h2, h3, fun hd' hs' => ⟨⟨(h4 hd' hs').1.1, fun _ => (h4 hd' hs').1.2⟩, (h4 hd' hs').2⟩⟩

/-- What is said about the children of some fields `es` with the values `fs`. -/
structure Wrote (G : Schema X) (es : List FieldSpec) (fs : List (List (Val X))) (items : List (Item (Val X))) (hd : Pos) :
    Prop where
  kids : ∀ it ∈ items, ∃ i evs v, it = .child i evs v ∧ i < es.length
  order : (childFields items).Pairwise (· ≤ ·)
  values : ∀ i, i < es.length → valuesOf i items = fs.getD i []
  same : ∀ hd', simPos hd' hd → simPos (after hd' (itemEvents items)) hd'
  docs : ∀ hd', simPos hd' hd → ∀ q (i : Nat) evs v f, ChildAt hd' items q i evs v → es[i]? = some f →
    Doc G f.ty q evs v ∧ OpensField f q evs

theorem Wrote.pads {G : Schema X} {es : List FieldSpec} {fs : List (List (Val X))} {items : List (Item (Val X))} {hd : Pos}
    (h : Wrote G es fs items hd) : ∀ e, .pad e ∈ items → Padding e = true := by
  intro e he
  obtain ⟨i, evs, v, h1, -⟩ := h.kids _ he
  cases h1

theorem Wrote.index {G : Schema X} {es : List FieldSpec} {fs : List (List (Val X))} {items : List (Item (Val X))} {hd : Pos}
    (h : Wrote G es fs items hd) : ∀ i evs v, .child i evs v ∈ items → i < es.length := by
  intro i evs v he
  obtain ⟨i', evs', v', h1, h2⟩ := h.kids _ he
  cases h1
  exact h2

theorem Wrote.fields {G : Schema X} {es : List FieldSpec} {fs : List (List (Val X))} {items : List (Item (Val X))} {hd : Pos}
    (h : Wrote G es fs items hd) (hl : fs.length = es.length) :
    (List.range es.length).map (valuesOf · items) = fs := by
  apply List.ext_getElem?
  intro i
  rw [List.getElem?_map]
  by_cases hi : i < es.length
  · rw [List.getElem?_range hi, Option.map_some, h.values i hi, List.getD_eq_getElem?_getD,
      List.getElem?_eq_getElem (by omega), Option.getD_some]
  · rw [List.getElem?_eq_none (by simpa using hi), List.getElem?_eq_none (by omega)]
    rfl

/-- The fields of a struct or of a nested sequence. -/
theorem fields_written {G : Schema X} {d : Nat} {binds : Str → Str} {need : List (Str × Str)}
    (good : G.NestedGood d binds need) {n : Nat} (ih : Writing G binds need n) {es : List FieldSpec}
    {fs : List (List (Val X))} {ty : TyRef} {w : Val X}
    (hp : ∀ (i : Nat) f x, es[i]? = some f → x ∈ fs.getD i [] → Part G ty w f x ∧ Holds G f.ty x ∧ depth x < n)
    (hnm : AllNamed G need ty w) {sh : SerHelper}
    (ok : sh.Ok) {hd : Pos} (hs : Synced binds sh (Pos.around hd)) (hneed : AllInScope need (Pos.around hd)) :
    ∃ (items : List (Item (Val X))) (out : Nat → List Event),
      (∀ i, i < es.length → ∃ c, fieldEnter mk (fieldName es i) false (fieldVals es fs i) = .ok c ∧
        (fieldZ mk (ser G n)).Emits c sh (out i) sh) ∧
      reread ((List.range es.length).flatMap out) = some (itemEvents items) ∧ Wrote G es fs items hd := by
  obtain ⟨evs, out, h1, h2, h3⟩ := parts_written mk (ser G n) sh es.length (fieldName es) (fun _ => false)
    (fieldVals es fs) (fun i u ev => ∀ hd', simPos hd' hd →
      (∀ f, es[i]? = some f → Doc G f.ty hd' ev u.2 ∧ OpensField f hd' ev) ∧ simPos (after hd' ev) hd') (by
    intro i u r hi hu
    have hfi := List.getElem?_eq_getElem hi
    rw [fieldVals_some es fs i _ hfi] at hu
    obtain ⟨x, hx, rfl⟩ := List.mem_map.mp hu
    obtain ⟨p1, p2, p3⟩ := hp i _ x hfi hx
    obtain ⟨s, out, ev, q1, q2, q3, q4⟩ := field_written good ih p1.spec p3 p2 r ok hs hneed (hnm.part p1)
    refine ⟨s, out, ev, by simpa [fieldName, hfi] using q1, q2, q3, fun hd' hs' => ?_⟩
    obtain ⟨r1, r2⟩ := q4 hd' hs'
    refine ⟨?_, r2⟩
    intro f hf
    rw [hfi] at hf
    cases hf
    exact r1)
  let items := allKids Prod.snd evs (fun i => (fieldVals es fs i).toList) 0 es.length
  have hev : itemEvents items = (List.range es.length).flatMap fun i => (fieldVals es fs i).toList.flatMap (evs i) := by
    rw [allKids_events, ← List.range_eq_range']
  have hitems : ∀ it ∈ items, ∃ i ev v, it = .child i ev v ∧ ∀ hd', simPos hd' hd →
      (i < es.length ∧ ∀ f, es[i]? = some f → Doc G f.ty hd' ev v ∧ OpensField f hd' ev) ∧ simPos (after hd' ev) hd' := by
    intro it hit
    obtain ⟨i, u, hi, hu, rfl⟩ := allKids_mem Prod.snd evs _ _ it hit
    refine ⟨i, _, _, rfl, fun hd' hs' => ?_⟩
    obtain ⟨q1, q2⟩ := h3 i u hi hu hd' hs'
    exact ⟨⟨hi, q1⟩, q2⟩
  have hat := children_at items hitems
  refine ⟨items, out, h1, by rw [h2, hev], ?_⟩
  exact
    { kids := by
        intro it hit
        obtain ⟨i, ev, v, q1, q2⟩ := hitems it hit
        exact ⟨i, ev, v, q1, (q2 hd rfl).1.1⟩
      order := (allKids_fields Prod.snd evs _ _ 0).2
      values := by
        intro i hi
        rw [allKids_values, if_pos (by omega), fieldVals_some es fs i _ (List.getElem?_eq_getElem hi), snd_map]
      same := fun hd' hs' => (hat hd' hs').1
      docs := fun hd' hs' q i evs v f hc hf => ((hat hd' hs').2 q i evs v hc).2 f hf }

/-- A nested sequence, or the variant of a choice. -/
theorem group_written {G : Schema X} {d : Nat} {binds : Str → Str} {need : List (Str × Str)}
    (good : G.NestedGood d binds need) {n : Nat} (ih : Writing G binds need n) (k : Nat) (v : Val X) (name : Option Str)
    (root : Bool) (sh : SerHelper) (hd : Pos) (hdepth : depth v < n + 1) (hv : Holds G (.variant k) v) (ok : sh.Ok)
    (hs : Synced binds sh (Pos.around hd)) (hneed : AllInScope need (Pos.around hd))
    (hnm : AllNamed G need (.variant k) v) : Written G (n + 1) (.variant k) name root v sh hd fun _ _ => True := by
  cases hv with
  | @group _ D es fs hD hb hfl hne hc hf =>
    obtain ⟨items, out, h1, h2, h3⟩ := fields_written good ih (es := es) (fs := fs) (ty := .variant k)
      (w := .struct [] fs) (by
        intro i f x hfi hx
        have hdx := depth_field ([] : List (Option X)) fs i x hx
        exact ⟨.group hD hb hfi hx, hf i f x hfi hx, by omega⟩) hnm ok hs hneed
    have hparts : (groupShell (ser G n) D.body).parts = es.length := by
      show D.body.groupParts = _
      rw [hb]
      rfl
    have hem := group_emits (groupShell (ser G n) D.body) (.struct [] fs) [] root sh rfl out (by
      intro i hi
      rw [hparts] at hi
      obtain ⟨c, c1, c2⟩ := h1 i hi
      refine ⟨c, ?_, c2⟩
      show enterPart false (D.body.groupPart (.struct [] fs) i) = _
      rw [hb]
      simp [Body.groupPart, List.getElem?_eq_getElem hi, enterPart, Val.fields]
      simpa [fieldName, fieldVals, List.getElem?_eq_getElem hi] using c1)
    rw [hparts] at hem
    refine ⟨_, _, itemEvents items, rfl, emits_map (SSt.variant k) (ser_variant G n k D hD) hem, h2, fun hd' hs' => ?_⟩
    refine ⟨⟨?_, trivial⟩, h3.same hd' hs'⟩
    have := Doc.group (G := G) (k := k) (p := hd') (items := items) hD hb (by
        have hitems : items ≠ [] := by
          intro h0
          obtain ⟨vs, hvs, hvs0⟩ := hne
          obtain ⟨i, hi⟩ := List.getElem?_of_mem hvs
          have hlt : i < es.length := by
            rw [← hfl]
            exact (List.getElem?_eq_some_iff.mp hi).1
          have h4 := h3.values i hlt
          rw [h0, List.getD_eq_getElem?_getD, hi] at h4
          exact hvs0 h4.symm
        cases items with
        | nil => exact absurd rfl hitems
        | cons it r =>
          obtain ⟨i, evs, v, rfl, -⟩ := h3.kids it (by simp)
          exact ⟨i, evs, v, r, rfl⟩) h3.pads h3.index h3.order
      (by
        intro i f hfi
        have hlt := (List.getElem?_eq_some_iff.mp hfi).1
        rw [h3.values i hlt]
        exact hc i f hfi)
      (fun q i evs v f hca hfi => (h3.docs hd' hs' q i evs v f hca hfi).2)
      (fun q i evs v f hca hfi => (h3.docs hd' hs' q i evs v f hca hfi).1)
    rw [h3.fields hfl] at this
    exact this
  | @variant _ D alts mn mx i f x hD hb hfi hx =>
    have hdx := depth_alt i [x] x (by simp)
    have hp : Part G (.variant k) (.alt i [x]) f x := .variant hD hb hfi (by simp)
    obtain ⟨s, out, evs, h1, h2, h3, h4⟩ := field_written good ih hp.spec (by omega) hx
      ((fieldVal f [x]).root false) ok hs hneed (hnm.part hp)
    obtain ⟨c, hc1, hc2⟩ := field_emits mk (ser G n) (some f.name.text) false sh (fun _ => out)
      (fieldVal f [x]) (by
        intro u hu
        rw [fieldVal_toList] at hu
        simp only [List.map_cons, List.map_nil, List.mem_singleton] at hu
        subst hu
        exact ⟨s, h1, h2⟩)
    rw [fieldVal_toList] at hc2
    simp only [List.map_cons, List.map_nil, List.flatMap_cons, List.flatMap_nil, List.append_nil] at hc2
    have hem := group_emits (groupShell (ser G n) D.body) (.alt i [x]) [] root sh rfl (fun _ => out) (by
      intro j _
      refine ⟨c, ?_, hc2⟩
      show enterPart false (D.body.groupPart (.alt i [x]) j) = _
      rw [hb]
      show enterPart false (altPart alts (.alt i [x])) = _
      simp only [altPart, hfi, Option.map_some, enterPart]
      exact hc1)
    have hout : (List.range (groupShell (ser G n) D.body).parts).flatMap (fun _ => out) = out := by
      simp [groupShell, hb, Body.groupParts]
    rw [hout] at hem
    refine ⟨_, out, evs, rfl, emits_map (SSt.variant k) (ser_variant G n k D hD) hem, h3, fun hd' hs' => ?_⟩
    obtain ⟨⟨q1, q2⟩, q3⟩ := h4 hd' hs'
    exact ⟨⟨.variant hD hb hfi q2 q1, trivial⟩, q3⟩

/-- An element with complex type. -/
theorem struct_written {G : Schema X} {d : Nat} {binds : Str → Str} {need : List (Str × Str)}
    (good : G.NestedGood d binds need) {n : Nat} (ih : Writing G binds need n) (k : Nat)
    (D : StructSpec X) (hD : G.structs[k]? = some D) (v : Val X) (hv : Holds G (.struct k) v)
    (hnm : AllNamed G need (.struct k) v) (hdepth : depth v < n + 1) (name : Str) (root : Bool) (sh : SerHelper)
    (ok : sh.Ok) (hd : Pos) (hs : Synced binds sh (Pos.around hd)) (hag : Agrees binds (D.declares v name root))
    (han : AttrsNamed G need (.struct k) v name root)
    (hneed : AllInScope need (Pos.around hd) ∨ ∀ b ∈ need, b ∈ D.declares v name root) :
    ∃ out evs t, (ser G (n + 1)).Emits (.struct k (.init v name root)) sh out sh ∧ reread out = some evs ∧
      t.name = name ∧ AllInScope (need ++ D.declares v name root) (t :: Pos.around hd) ∧
      (∃ e es, evs = e :: es ∧ tagOf e = some t) ∧
      ∀ hd', simPos hd' hd → Doc G (.struct k) hd' evs v ∧ simPos (after hd' evs) hd' := by
  have hmem := List.mem_of_getElem? hD
  obtain ⟨t, sh1, ds, hopen, hname, hattrs, hscope⟩ := openTag_synced G (ser G n) k D v name root sh
    binds hag (fun a ha => (good.attrPlain D hmem a ha).2)
  obtain ⟨hsync, hdecl, hmono⟩ := hscope (Pos.around hd) hs
  have hneed' : AllInScope need (t :: Pos.around hd) := by
    intro b hb hp
    rcases hneed with h | h
    · exact hmono _ _ hp (good.root b hb hp).1 (h b hb hp)
    · exact hdecl b (h b hb) hp
  have havail : AllInScope (need ++ D.declares v name root) (t :: Pos.around hd) := by
    intro b hb hp
    rcases List.mem_append.mp hb with h | h
    · exact hneed' b h hp
    · exact hdecl b h hp
  have ok1 : sh1.Ok := by
    have := openTag_scope _ _ _ _ _ _ _ hopen
    split at this
    · exact innerOf_ok ok this
    · rw [this]; exact ok
  have hread : ∀ as, v.attrs = as → AttrsOk G D as → ∀ hd', simPos hd' hd → ∀ e, tagOf e = some t →
      TagOk G D.attrs (posTrack hd' e) t as := by
    intro as has ha hd' hs' e he
    have hp : (posTrack hd' e).opened = t :: Pos.around hd := by
      rw [opened_tag hd' e t he, show Pos.around hd' = Pos.around hd from hs']
    rw [has] at hattrs
    have hdecls : ∀ d ∈ declAttrs ds, isXmlnsKey d.key = true := by
      intro d hd
      simp only [declAttrs, List.mem_map] at hd
      obtain ⟨b, _, rfl⟩ := hd
      rw [isXmlnsKey_decl, declPrefix_xmlnsKey]
      rfl
    have hknown : ∀ a ∈ D.attrs, Known (posScope (posTrack hd' e)) a.name := by
      intro a ha
      refine known_of_resolvable _ _ _ (han k D rfl hD a ha) ?_
      intro b hb hne
      show inScope b.1 (posTrack hd' e).opened = _
      rw [hp]
      exact havail b hb hne
    refine tagOk_of (read_written G D.attrs as _ t (declAttrs ds) hdecls hattrs (good.attrPlain D hmem) hknown
      (good.attrDistinct D hmem) ha.1 ha.2) ?_
    intro a ha
    rw [hattrs] at ha
    rcases List.mem_append.mp ha with ha | ha
    · exact Or.inl (hdecls a ha)
    · obtain ⟨b, hb, hk⟩ := mem_writeAttrs ha
      exact Or.inr (Or.inr ⟨b, hb, by rw [hk]; exact means_text _ _ (good.attrPlain D hmem b hb).1 (hknown b hb)⟩)
  -- the content is written between the tags
  have wrap : ∀ (out : Nat → List Event) (content : List Event), D.body.parts ≠ 0 →
      (∀ i, i < D.body.parts → ∃ c, (shell G (ser G n) k D).enter v root i = .ok c ∧
        (fieldZ mk (ser G n)).Emits c sh1 (out i) sh1) →
      reread ((List.range D.body.parts).flatMap out) = some content →
      (∀ hd', simPos hd' hd → Doc G (.struct k) hd' (.start t :: (content ++ [.end_ t.name])) v ∧
        simPos (after (posTrack hd' (.start t)) content) (posTrack hd' (.start t))) →
      ∃ out evs t, (ser G (n + 1)).Emits (.struct k (.init v name root)) sh out sh ∧ reread out = some evs ∧
        t.name = name ∧ AllInScope (need ++ D.declares v name root) (t :: Pos.around hd) ∧
        (∃ e es, evs = e :: es ∧ tagOf e = some t) ∧
        ∀ hd', simPos hd' hd → Doc G (.struct k) hd' evs v ∧ simPos (after hd' evs) hd' := by
    intro out content h0 hc hr hdoc
    have hem := shell_emits (shell G (ser G n) k D) v name root sh sh1 ok t hopen rfl h0 out hc
    refine ⟨_, .start t :: (content ++ [.end_ t.name]), t, emits_map (SSt.struct k) (ser_struct G n k D hD) hem, ?_,
      hname, havail, ⟨_, _, rfl, rfl⟩, fun hd' hs' => ⟨(hdoc hd' hs').1, ?_⟩⟩
    · show Option.map _ (reread _) = _
      have hr' : reread ((List.range (shell G (ser G n) k D).parts).flatMap out) = some content := hr
      rw [reread_append _ _ _ [.end_ t.name] hr' rfl]
      rfl
    · unfold after
      rw [List.foldl_cons, List.foldl_append]
      exact around_end hd' _ t t.name (hdoc hd' hs').2
  have hstart : ∀ hd', simPos hd' hd → simPos (posTrack hd' (.start t)) (posTrack hd (.start t)) :=
    fun hd' hs' => posSim.start hd hd' t hs'
  cases hv with
  | @fields _ D' es as fs hD' ha hb hfl hc hf =>
    rw [hD] at hD'
    cases hD'
    have hes : D.body.elements = es := by rcases hb with hb | hb <;> rw [hb] <;> rfl
    have hparts : D.body.parts = es.length := by rcases hb with hb | hb <;> rw [hb] <;> rfl
    have hat := hread as rfl ha
    by_cases h0 : es = []
    · subst h0
      have hem := shell_emits_empty (shell G (ser G n) k D) (.struct as fs) name root sh sh1 ok t hopen rfl hparts
      have hfs : fs = [] := List.eq_nil_of_length_eq_zero hfl
      subst hfs
      exact ⟨_, [.empty t], t, emits_map (SSt.struct k) (ser_struct G n k D hD) hem, rfl, hname, havail,
        ⟨_, _, rfl, rfl⟩, fun hd' hs' =>
          ⟨.fieldsEmpty hD hb (hat hd' hs' (.empty t) rfl) (by simp), around_empty hd' t⟩⟩
    · obtain ⟨items, out, h1, h2, h3⟩ := fields_written good ih (es := es) (fs := fs) (ty := .struct k)
        (w := .struct as fs) (by
          intro i f x hfi hx
          have hdx := depth_field as fs i x hx
          exact ⟨.field hD hb hfi hx, hf i f x hfi hx, by omega⟩) hnm ok1
        (hd := posTrack hd (.start t)) hsync hneed'
      refine wrap out (itemEvents items)
        (by rw [hparts]; exact fun h => h0 (List.eq_nil_of_length_eq_zero h)) ?_
        (by rw [hparts]; exact h2) ?_
      · intro i hi
        rw [hparts] at hi
        obtain ⟨c, c1, c2⟩ := h1 i hi
        refine ⟨c, ?_, c2⟩
        rw [← c1]
        show enterPart (D.body.forwards && root) (D.body.part k (.struct as fs) i) = _
        rcases hb with hb | hb <;> rw [hb] <;>
          simp [Body.forwards, Body.part, List.getElem?_eq_getElem hi, enterPart, Val.fields, fieldName, fieldVals]
      · intro hd' hs'
        refine ⟨?_, h3.same _ (hstart hd' hs')⟩
        have hcount : ∀ (i : Nat) f, es[i]? = some f → Allows f.min f.max (valuesOf i items).length := by
          intro i f hfi
          rw [h3.values i (List.getElem?_eq_some_iff.mp hfi).1]
          exact hc i f hfi
        have hdocs := h3.docs _ (hstart hd' hs')
        have htag := hat hd' hs' (.start t) rfl
        rw [← h3.fields hfl]
        rcases hb with hb | hb
        · exact .seq hD hb htag h3.pads h3.index h3.order hcount
            (fun q i evs v f hca hfi => (hdocs q i evs v f hca hfi).2)
            (fun q i evs v f hca hfi => (hdocs q i evs v f hca hfi).1)
        · exact .all hD hb htag h3.pads h3.index hcount
            (fun q i evs v f hca hfi => (hdocs q i evs v f hca hfi).2
              (fun j hj => (good.groups D hmem f (by rw [hes]; exact List.mem_of_getElem? hfi) j hj).1 es hb))
            (fun q i evs v f hca hfi => (hdocs q i evs v f hca hfi).1)
  | @choice _ D' alts mn mx as vs hD' ha hb hc hv =>
    rw [hD] at hD'
    cases hD'
    have hat := hread as rfl ha
    have hparts : D.body.parts = 1 := by rw [hb]; rfl
    obtain ⟨evs, out, h1, h2, h3⟩ := parts_written mk (ser G n) sh1 1 (fun _ => none) (fun _ => false)
      (fun _ => fieldVal (contentSpec k mn mx) vs) (fun _ u ev => u.2 ∈ vs ∧ ∀ hd', simPos hd' (posTrack hd (.start t)) →
        Doc G (.variant k) hd' ev u.2 ∧ simPos (after hd' ev) hd') (by
      intro i u r hi hu
      rw [fieldVal_toList] at hu
      obtain ⟨x, hx, rfl⟩ := List.mem_map.mp hu
      have hdx := depth_field as [vs] 0 x hx
      obtain ⟨s, o, ev, q1, q2, q3, q4⟩ := ih.group k x none r sh1 (posTrack hd (.start t)) (by omega) (hv x hx) ok1
        hsync hneed' (by
          intro g y hi hne
          refine hnm g y ?_ hne
          cases hi with
          | here hp =>
            cases hp with
            | group hD' hb' _ _ => rw [hD] at hD'; cases hD'; rw [hb] at hb'; cases hb'
            | variant hD' hb' hf hy =>
              rw [hD] at hD'; cases hD'; rw [hb] at hb'; cases hb'
              exact .here (.choice hD hb hx hf hy)
          | there hp hi =>
            cases hp with
            | group hD' hb' _ _ => rw [hD] at hD'; cases hD'; rw [hb] at hb'; cases hb'
            | variant hD' hb' hf hy =>
              rw [hD] at hD'; cases hD'; rw [hb] at hb'; cases hb'
              exact .there (.choice hD hb hx hf hy) hi)
      exact ⟨s, o, ev, q1, q2, q3, hx, fun hd' hs' => ⟨(q4 hd' hs').1.1, (q4 hd' hs').2⟩⟩)
    simp only [List.range_one, List.flatMap_cons, List.flatMap_nil, List.append_nil, fieldVal_toList] at h2
    -- the variants as children
    have kid : ∀ x ∈ vs, ∃ i f y, x = .alt i [y] ∧ alts[i]? = some f ∧
        ∀ hd', simPos hd' (posTrack hd (.start t)) → (Doc G f.ty hd' (evs 0 (.variant k, x)) y ∧
          OpensField f hd' (evs 0 (.variant k, x))) ∧ simPos (after hd' (evs 0 (.variant k, x))) hd' := by
      intro x hx
      have h4 := (h3 0 (.variant k, x) (by omega) (by
        rw [fieldVal_toList]; exact List.mem_map.mpr ⟨x, hx, rfl⟩)).2
      cases hv x hx with
      | @group _ D' es fs hD' hb' => rw [hD] at hD'; cases hD'; rw [hb] at hb'; cases hb'
      | @variant _ D' alts' mn' mx' i f y hD' hb' hf hy =>
        rw [hD] at hD'; cases hD'; rw [hb] at hb'; cases hb'
        refine ⟨i, f, y, rfl, hf, fun hd' hs' => ?_⟩
        obtain ⟨q1, q2⟩ := h4 hd' hs'
        refine ⟨?_, q2⟩
        exact q1.of_variant hD hb hf
    have hitems : ∀ vs' : List (Val X), (∀ x ∈ vs', x ∈ vs) → ∃ items : List (Item (Val X)),
        itemEvents items = vs'.flatMap (fun x => evs 0 (.variant k, x)) ∧ variantsOf Val.alt items = vs' ∧
        ∀ it ∈ items, ∃ i ev v, it = .child i ev v ∧ ∀ hd', simPos hd' (posTrack hd (.start t)) →
          (i < alts.length ∧ ∀ f, alts[i]? = some f → Doc G f.ty hd' ev v ∧ OpensField f hd' ev) ∧
            simPos (after hd' ev) hd' := by
      intro vs'
      induction vs' with
      | nil => exact fun _ => ⟨[], rfl, rfl, by simp⟩
      | cons x vs' ihv =>
        intro hsub
        obtain ⟨items, e1, e2, e3⟩ := ihv fun y hy => hsub y (by simp [hy])
        obtain ⟨i, f, y, hxy, hfi, hk⟩ := kid x (hsub x (by simp))
        refine ⟨.child i (evs 0 (.variant k, x)) y :: items, ?_, ?_, ?_⟩
        · show _ ++ itemEvents items = _
          rw [e1]
          rfl
        · show Val.alt i [y] :: variantsOf Val.alt items = _
          rw [e2, hxy]
        · intro it hit
          rcases List.mem_cons.mp hit with rfl | hit
          · refine ⟨i, _, y, rfl, fun hd' hs' => ?_⟩
            obtain ⟨q1, q2⟩ := hk hd' hs'
            refine ⟨⟨(List.getElem?_eq_some_iff.mp hfi).1, ?_⟩, q2⟩
            intro f' hf'
            rw [hfi] at hf'
            cases hf'
            exact q1
          · exact e3 it hit
    obtain ⟨items, e1, e2, e3⟩ := hitems vs fun _ h => h
    refine wrap out (itemEvents items) (by rw [hparts]; omega) ?_ ?_ ?_
    · intro i hi
      rw [hparts] at hi
      obtain ⟨c, c1, c2⟩ := h1 i hi
      refine ⟨c, ?_, c2⟩
      rw [← c1]
      show enterPart (D.body.forwards && root) (D.body.part k (.struct as [vs]) i) = _
      rw [hb]
      rfl
    · rw [hparts]
      simp only [List.range_one, List.flatMap_cons, List.flatMap_nil, List.append_nil]
      rw [h2, e1, List.flatMap_map]
      rfl
    · intro hd' hs'
      obtain ⟨q1, q2⟩ := children_at items e3 _ (hstart hd' hs')
      refine ⟨?_, q1⟩
      have := Doc.choice (G := G) (k := k) (p := hd') (items := items) hD hb (hat hd' hs' (.start t) rfl)
        (by
          intro e he
          obtain ⟨i, ev, v, h, -⟩ := e3 _ he
          cases h)
        (by
          intro i ev v he
          obtain ⟨i', ev', v', h, h'⟩ := e3 _ he
          cases h
          exact (h' _ rfl).1.1)
        (by rw [e2]; exact hc)
        (fun q i evs v f hca hfi => ((q2 q i evs v hca).2 f hfi).2)
        (fun q i evs v f hca hfi => ((q2 q i evs v hca).2 f hfi).1)
      rw [e2] at this
      exact this
  | @enum _ D' alts i f vs hD' hb hfi hne hc hv =>
    rw [hD] at hD'
    cases hD'
    have has : D.attrs = [] := by
      have := good.fits D hmem
      rw [hb] at this
      exact this
    have hat := hread [] rfl ⟨by rw [has]; rfl, by intro i a v h; rw [has] at h; simp at h⟩
    rw [has] at hat
    have hparts : D.body.parts = 1 := by rw [hb]; rfl
    obtain ⟨evs, out, h1, h2, h3⟩ := parts_written mk (ser G n) sh1 1 (fun _ => some f.name.text) (fun _ => root)
      (fun _ => fieldVal f vs) (fun _ u ev => ∀ hd', simPos hd' (posTrack hd (.start t)) →
        (Doc G f.ty hd' ev u.2 ∧ OpensField f hd' ev) ∧ simPos (after hd' ev) hd') (by
      intro j u r hj hu
      rw [fieldVal_toList] at hu
      obtain ⟨x, hx, rfl⟩ := List.mem_map.mp hu
      have hdx := depth_alt i vs x hx
      have hp : Part G (.struct k) (.alt i vs) f x := .enum hD hb hfi hx
      exact field_written good ih hp.spec (by omega) (hv x hx) r ok1 hsync hneed' (hnm.part hp))
    simp only [List.range_one, List.flatMap_cons, List.flatMap_nil, List.append_nil] at h2
    let items := kidsOf Prod.snd (evs 0) i (fieldVal f vs).toList
    have hvals : valuesOf i items = vs := by
      rw [kidsOf_values, if_pos rfl, fieldVal_toList, snd_map]
    have hitems : ∀ it ∈ items, ∃ j ev v, it = .child j ev v ∧ ∀ hd', simPos hd' (posTrack hd (.start t)) →
        (j = i ∧ Doc G f.ty hd' ev v ∧ OpensField f hd' ev) ∧ simPos (after hd' ev) hd' := by
      intro it hit
      obtain ⟨u, hu, rfl⟩ := List.mem_map.mp hit
      refine ⟨i, _, _, rfl, fun hd' hs' => ?_⟩
      obtain ⟨q1, q2⟩ := h3 0 u (by omega) hu hd' hs'
      exact ⟨⟨rfl, q1⟩, q2⟩
    refine wrap out (itemEvents items) (by rw [hparts]; omega) ?_ ?_ ?_
    · intro j hj
      rw [hparts] at hj
      obtain ⟨c, c1, c2⟩ := h1 j hj
      refine ⟨c, ?_, c2⟩
      rw [← c1]
      show enterPart (D.body.forwards && root) (D.body.part k (.alt i vs) j) = _
      rw [hb]
      simp [Body.forwards, Body.part, altPart, hfi, enterPart]
    · rw [hparts]
      simp only [List.range_one, List.flatMap_cons, List.flatMap_nil, List.append_nil]
      rw [h2, kidsOf_events]
    · intro hd' hs'
      obtain ⟨q1, q2⟩ := children_at items hitems _ (hstart hd' hs')
      refine ⟨?_, q1⟩
      have := Doc.enum (G := G) (k := k) (p := hd') (items := items) hD hb hfi (hat hd' hs' (.start t) rfl)
        (by
          intro e he
          obtain ⟨j, ev, v, h, -⟩ := hitems _ he
          cases h)
        (by
          intro j ev v he
          obtain ⟨j', ev', v', h, h'⟩ := hitems _ he
          cases h
          exact (h' _ rfl).1.1)
        (by rw [hvals]; exact hne) (by rw [hvals]; exact hc)
        (fun q j evs v hca => (q2 q j evs v hca).2.2)
        (fun q j evs v hca => (q2 q j evs v hca).2.1)
      rw [hvals] at this
      exact this
  | @text _ D' j as x hD' ha hb hx =>
    rw [hD] at hD'
    cases hD'
    have hat := hread as rfl ha
    obtain ⟨m, rfl⟩ : ∃ m, n = m + 1 := by
      simp only [depth, depthss, depths] at hdepth
      exact ⟨n - 1, by omega⟩
    have hparts : D.body.parts = 1 := by rw [hb]; rfl
    obtain ⟨out, pieces, c, h1, h2, h3, h4, h5⟩ := content_text G m j x hx sh1
    refine wrap (fun _ => out) pieces (by rw [hparts]; omega) ?_ ?_ ?_
    · intro i hi
      have henter : (shell G (ser G (m + 1)) k D).enter (.struct as [[.simple x]]) root i
          = .ok (.one (.simple j (.begin none x))) := by
        show enterPart (D.body.forwards && root) (D.body.part k (.struct as [[.simple x]]) i) = _
        rw [hb]
        rfl
      refine ⟨_, henter, ?_⟩
      obtain ⟨s2, h3, a, b⟩ := Zer.lift (z' := fieldZ mk (ser G (m + 1))) (f := FSt.one)
        (by intro s h ev s1 h1 he; simp [fieldZ, he])
        (by intro s h s1 h1 he; simp [fieldZ, he]) h1
      have := a.emits (ys := []) (h3 := sh1) (.done (by simp [fieldZ, b]))
      rw [List.append_nil] at this
      exact this
    · rw [hparts]
      simpa using h2
    · intro hd' hs'
      exact ⟨.text hD hb (hat hd' hs' (.start t) rfl) h3 h4 h5, around_leaves pieces _ h3⟩

/-- All values are written, by induction on their depth. -/
theorem writing_all {G : Schema X} {d : Nat} {binds : Str → Str} {need : List (Str × Str)}
    (good : G.NestedGood d binds need) : ∀ n, Writing G binds need n := by
  intro n
  induction n with
  | zero => exact ⟨by intro ty v q root sh hd _ h; omega, by intro k v name root sh hd h; omega⟩
  | succ n ih =>
    refine ⟨?_, fun k v name root sh hd hdepth hv ok hs hneed hnm =>
      group_written good ih k v name root sh hd hdepth hv ok hs hneed hnm⟩
    intro ty v q root sh hd hnv hdepth hty ok hs hneed hplain hnm hres hag han
    cases ty with
    | simple k =>
      cases hty with
      | @simple _ x hx =>
        obtain ⟨out, e, rest, t, h1, h2, h3, h4, h5⟩ := simple_written G n k x hx q.text sh
        refine ⟨_, out, e :: rest, rfl, h1, h2, fun hd' hs' => ?_⟩
        obtain ⟨h6, h7⟩ := h5 hd'
        refine ⟨⟨h6, e, rest, t, rfl, h3, ?_⟩, h7⟩
        rw [h4]
        refine means_text _ _ hplain (known_of_resolvable _ _ _ hres ?_)
        intro b hb hne
        simp only [tyDeclares, List.append_nil] at hb
        show inScope b.1 (posTrack hd' e).opened = _
        rw [opened_tag hd' e t h3, h4, show Pos.around hd' = Pos.around hd from hs']
        exact hneed b hb hne
    | struct k =>
      have hD : ∃ D, G.structs[k]? = some D := by cases hty <;> exact ⟨_, ‹_›⟩
      obtain ⟨D, hD⟩ := hD
      obtain ⟨out, evs, t, h1, h2, h4, h5, ⟨e, es, he, ht⟩, h6⟩ := struct_written good ih k
        D hD v hty hnm hdepth q.text root sh ok hd hs (by simpa [tyDeclares, hD] using hag)
        han (Or.inl hneed)
      refine ⟨_, out, evs, rfl, h1, h2, fun hd' hs' => ⟨⟨(h6 hd' hs').1, e, es, t, he, ht, ?_⟩, (h6 hd' hs').2⟩⟩
      rw [h4]
      refine means_text _ _ hplain (known_of_resolvable _ _ _ hres ?_)
      intro b hb hne
      simp only [tyDeclares, hD, Option.map_some, Option.getD_some] at hb
      show inScope b.1 (posTrack hd' e).opened = _
      rw [opened_tag hd' e _ ht, show Pos.around hd' = Pos.around hd from hs']
      exact h5 b hb hne
    | variant k => exact absurd rfl (hnv k)

/-- **C13** (tables with nested sequences and choices): every value of every type is written as a document that the table
describes for it (`Doc`), and read back from it: the serializer succeeds, its output can be read, and the deserializer
returns exactly the value, leaving the rest of the input. The root declares the namespaces `need`, and the names that are
written for the value can be resolved. Missing: mixed and nillable content, wildcards and dynamic types. -/
theorem C13_nested_round_trip_partial (G : Schema X) (d : Nat) (binds : Str → Str) (need : List (Str × Str))
    (good : G.NestedGood d binds need) (k : Nat) (D : StructSpec X) (hD : G.structs[k]? = some D) (v : Val X)
    (hv : Holds G (.struct k) v) (hnm : AllNamed G need (.struct k) v) (name : Str)
    (hneed : ∀ b ∈ need, b ∈ D.declares v name true) (hag : Agrees binds (D.declares v name true))
    (han : AttrsNamed G need (.struct k) v name true) (n : Nat) (hn : depth v + d < n) (rest : List Event) :
    ∃ out evs, (ser G n).Emits (.struct k (.init v name true)) {} out {} ∧ reread out = some evs ∧
      Doc G (.struct k) {} evs v ∧
      Drv.run (genEnv posTrack) (de G n (.struct k)).toDeser { helper := {} } (evs ++ rest) = .done v rest := by
  cases n with
  | zero => omega
  | succ n =>
    obtain ⟨out, evs, t, h1, h2, _, _, _, h3⟩ := struct_written good (writing_all good n) k D hD v hv hnm
      (by omega) name true {} (by intro e he; cases he) {} (by intro e he; cases he) hag han (Or.inr hneed)
    have hdoc := (h3 {} rfl).1
    exact ⟨out, evs, h1, h2, hdoc,
      C71_described_document_read_partial G d good.toNested k evs v hdoc (n + 1) hn rest⟩

end Verif.Gen.Tab

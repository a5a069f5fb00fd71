import Verif.Interp.RedefineExamples

/-!
# Anonymous components (C85)

The anonymous types of local elements, and of attributes, lists and unions, become nodes with a
generated name.
-/

namespace Verif.NodeCache

open Verif.Assoc Verif.Models Verif.Naming Verif.Dfs

/-! ## Specification -/

/-- An anonymous component of a document: which declaration, its kind, and the name that it gets. -/
structure Anon where
  label : Nat
  kind : Nat
  name : Name

mutual

/-- The anonymous components inside of an item. -/
def Item.anons (unify : Txt → Txt) (stack : List Frame) : Item → List Anon
  | .ref .. => []
  | .group body => anons unify (.group :: stack) body
  | .inline label kind from_ body =>
    ⟨label, kind, inlineName unify stack from_⟩ ::
      anons unify (.node (inlineName unify stack from_) :: stack) body

def anons (unify : Txt → Txt) (stack : List Frame) : List Item → List Anon
  | [] => []
  | i :: is => i.anons unify stack ++ anons unify stack is

end

def Comp.anons (unify : Txt → Txt) (c : Comp) : List Anon :=
  NodeCache.anons unify [.node (.named c.name)] c.body

/-- The components of a document. -/
def Doc.comps (d : Doc) : List Comp :=
  d.content.flatMap fun
    | .load _ => []
    | .redefine _ cs => cs
    | .comp c => [c]

/-- Different anonymous components of a document get different names. -/
def Doc.Distinct (unify : Txt → Txt) (d : Doc) : Prop :=
  ∀ a ∈ d.comps.flatMap (Comp.anons unify), ∀ b ∈ d.comps.flatMap (Comp.anons unify),
    a.kind = b.kind → a.name = b.name → a.label = b.label

/-- Every anonymous component that is used is stored with its own declaration. -/
def KeepsAnons (st : St) : Prop :=
  ∀ i n, get st.nodes i = some n → ∀ label l, (Key.inline label, l) ∈ n.deps →
    ∃ m, get st.nodes l.target = some m ∧ m.label = label

/-! ## Proof -/

/-- The table of the names and declarations. -/
structure Tabled (T : Nat → Nat → Name → Nat) (st : St) : Prop where
  keyed : ∀ i n, get st.nodes i = some n → Keyed n.deps
  node : ∀ i n g, get st.nodes i = some n → i.name = .generated g →
    n.label = T i.schema i.kind i.name
  dep : ∀ i n, get st.nodes i = some n → ∀ label l, (Key.inline label, l) ∈ n.deps →
    (∃ g, l.target.name = .generated g) ∧ (get st.nodes l.target).isSome ∧
      label = T l.target.schema l.target.kind l.target.name

theorem Tabled.keeps {T : Nat → Nat → Name → Nat} {st : St} (h : Tabled T st) : KeepsAnons st := by
  intro i n hi label l hl
  obtain ⟨⟨g, hg⟩, hs, ht⟩ := h.dep i n hi label l hl
  cases hm : get st.nodes l.target with
  | none => rw [hm] at hs; cases hs
  | some m => exact ⟨m, rfl, (h.node _ m g hm hg).trans ht.symm⟩

/-- The dependencies of a node that is being built. -/
def TabledNode (T : Nat → Nat → Name → Nat) (st : St) (n : Node) : Prop :=
  Keyed n.deps ∧ ∀ label l, (Key.inline label, l) ∈ n.deps →
    (∃ g, l.target.name = .generated g) ∧ (get st.nodes l.target).isSome ∧
      label = T l.target.schema l.target.kind l.target.name

theorem TabledNode.mono {T : Nat → Nat → Name → Nat} {st st' : St} {n : Node}
    (h : TabledNode T st n) (hg : ∀ i, (get st.nodes i).isSome → (get st'.nodes i).isSome) :
    TabledNode T st' n :=
  ⟨h.1, fun label l hl => by
    obtain ⟨a, b, c⟩ := h.2 label l hl
    exact ⟨a, hg _ b, c⟩⟩

theorem isSome_put (st : St) (i : Id) (n : Node) (j : Id) (h : (get st.nodes j).isSome) :
    (get (st.put i n).nodes j).isSome := by
  unfold St.put
  simp only
  rw [get_upsert]
  split
  · rfl
  · exact h

theorem Tabled.put {T : Nat → Nat → Name → Nat} {st : St} (h : Tabled T st) {i : Id} {n : Node}
    (hn : TabledNode T st n) (hl : ∀ g, i.name = .generated g → n.label = T i.schema i.kind i.name) :
    Tabled T (st.put i n) := by
  have hg : ∀ j, get (st.put i n).nodes j = if i = j then some n else get st.nodes j :=
    fun j => get_upsert _ _ _ _
  have hn' := hn.mono (isSome_put st i n)
  refine ⟨?_, ?_, ?_⟩
  · intro j m hj
    rw [hg] at hj
    split at hj
    · cases hj; exact hn.1
    · exact h.keyed j m hj
  · intro j m g hj hjn
    rw [hg] at hj
    split at hj
    · rename_i hij
      subst hij
      cases hj; exact hl g hjn
    · exact h.node j m g hj hjn
  · intro j m hj label l hm
    rw [hg] at hj
    split at hj
    · cases hj; exact hn'.2 label l hm
    · obtain ⟨a, b, c⟩ := h.dep j m hj label l hm
      exact ⟨a, isSome_put st i n _ b, c⟩

/-- The table has the anonymous components of a document. -/
def Fills (T : Nat → Nat → Name → Nat) (s : Nat) (as : List Anon) : Prop :=
  ∀ a ∈ as, T s a.kind a.name = a.label

theorem TabledNode.add {T : Nat → Nat → Name → Nat} {st : St} {n : Node} (h : TabledNode T st n)
    (k : Key) (l : Link) (hk : ∀ label, k = .inline label → (∃ g, l.target.name = .generated g) ∧
      (get st.nodes l.target).isSome ∧ label = T l.target.schema l.target.kind l.target.name) :
    TabledNode T st { n with deps := upsert n.deps k fun _ => l } := by
  refine ⟨h.1.upsert k _, fun label l' hm => ?_⟩
  rcases mem_upsert h.1 hm with he | hm
  · cases he; exact hk label rfl
  · exact h.2 label l' hm

mutual

theorem processItem_tabled (unify : Txt → Txt) {T : Nat → Nat → Name → Nat} (s ns : Nat) :
    ∀ (i : Item) (stack : List Frame) (n : Node) (st : St) (r : Node × St), i.Ok →
      Fills T s (i.anons unify stack) → Tabled T st → TabledNode T st n →
      processItem unify s ns stack n st i = .ok r →
      Tabled T r.2 ∧ TabledNode T r.2 r.1 ∧ r.1.label = n.label ∧
        ∀ i, (get st.nodes i).isSome → (get r.2.nodes i).isSome
  | .ref strength kind rns name, stack, n, st, r, hok, hf, hst, hn, h => by
    simp only [processItem] at h
    split at h
    · cases h
    · cases h
      exact ⟨hst, hn.add _ _ (fun label he => by cases he), rfl, fun _ h => h⟩
  | .group body, stack, n, st, r, hok, hf, hst, hn, h => by
    simp only [processItem] at h
    exact processItems_tabled unify s ns body _ n st r hok hf hst hn h
  | .inline label kind from_ body, stack, n, st, r, hok, hf, hst, hn, h => by
    simp only [processItem] at h
    split at h
    · cases h
    · rename_i m st1 hm
      cases h
      have hf0 : T s kind (inlineName unify stack from_) = label := hf _ List.mem_cons_self
      obtain ⟨a, b, c, e⟩ := processItems_tabled unify s ns body _ { label, kind } st (m, st1) hok.2
        (fun x hx => hf x (List.mem_cons_of_mem _ hx)) hst
        ⟨keyed_nil, (fun _ _ hx => by cases hx)⟩ hm
      simp only at a b c e
      have hgen : ∃ g, inlineName unify stack from_ = .generated g := by
        cases from_ with
        | element nm => exact inlineName_element unify stack nm
        | given nm => exact hok.1 nm rfl
      have hput : Tabled T (st1.put ⟨ns, s, kind, inlineName unify stack from_⟩ m) :=
        a.put b fun g _ => c.trans hf0.symm
      have hsome : ∀ i, (get st.nodes i).isSome →
          (get (st1.put ⟨ns, s, kind, inlineName unify stack from_⟩ m).nodes i).isSome :=
        fun i hi => isSome_put _ _ _ _ (e i hi)
      refine ⟨hput, (hn.mono hsome).add _ _ ?_, rfl, hsome⟩
      rintro label' ⟨⟩
      refine ⟨hgen, ?_, hf0.symm⟩
      unfold St.put
      simp only
      rw [get_upsert, if_pos rfl]
      rfl

theorem processItems_tabled (unify : Txt → Txt) {T : Nat → Nat → Name → Nat} (s ns : Nat) :
    ∀ (is : List Item) (stack : List Frame) (n : Node) (st : St) (r : Node × St), OkItems is →
      Fills T s (anons unify stack is) → Tabled T st → TabledNode T st n →
      processItems unify s ns stack n st is = .ok r →
      Tabled T r.2 ∧ TabledNode T r.2 r.1 ∧ r.1.label = n.label ∧
        ∀ i, (get st.nodes i).isSome → (get r.2.nodes i).isSome
  | [], stack, n, st, r, _, _, hst, hn, h => by
    simp only [processItems, Except.ok.injEq] at h
    subst h
    exact ⟨hst, hn, rfl, fun _ h => h⟩
  | i :: is, stack, n, st, r, hok, hf, hst, hn, h => by
    simp only [processItems] at h
    split at h
    · cases h
    · rename_i n1 st1 h1
      obtain ⟨a, b, c, d⟩ := processItem_tabled unify s ns i stack n st (n1, st1) hok.1
        (fun x hx => hf x (List.mem_append_left _ hx)) hst hn h1
      simp only at a b c d
      obtain ⟨a', b', c', d'⟩ := processItems_tabled unify s ns is stack n1 st1 r hok.2
        (fun x hx => hf x (List.mem_append_right _ hx)) a b h
      exact ⟨a', b', c'.trans c, fun i hi => d' i (d i hi)⟩

end

theorem newEntry_tabled (unify : Txt → Txt) {T : Nat → Nat → Name → Nat} (s ns : Nat)
    (base : Option Nat) {st st' : St} {c : Comp} (hc : OkItems c.body)
    (hf : Fills T s (c.anons unify)) (hst : Tabled T st)
    (h : newEntry unify s ns base st c = .ok st') : Tabled T st' := by
  unfold newEntry at h
  simp only at h
  split at h
  · cases h
  · rename_i n st1 h1
    cases h
    obtain ⟨a, b, -, -⟩ := processItems_tabled unify s ns c.body _ _ st (n, st1) hc hf hst
      ⟨keyed_nil, (fun _ _ hx => by cases hx)⟩ h1
    exact a.put b fun g hg => by cases hg

theorem newEntries_tabled (unify : Txt → Txt) {T : Nat → Nat → Name → Nat} (s ns : Nat)
    (base : Option Nat) : ∀ (cs : List Comp) {st st' : St}, (∀ c ∈ cs, OkItems c.body) →
    (∀ c ∈ cs, Fills T s (c.anons unify)) → Tabled T st →
    newEntries unify s ns base st cs = .ok st' → Tabled T st' := by
  intro cs
  induction cs with
  | nil =>
    intro st st' _ _ hst h
    simp only [newEntries, Except.ok.injEq] at h
    subst h; exact hst
  | cons c cs ih =>
    intro st st' hok hf hst h
    simp only [newEntries] at h
    split at h
    · cases h
    · rename_i st1 h1
      exact ih (fun c hc => hok c (List.mem_cons_of_mem _ hc))
        (fun c hc => hf c (List.mem_cons_of_mem _ hc))
        (newEntry_tabled unify s ns base (hok c List.mem_cons_self) (hf c List.mem_cons_self) hst h1)
        h

/-- Redirecting a dependency: only references by name are redirected. -/
theorem redirectOne_tabled {T : Nat → Nat → Name → Nat} (s : Nat) {old : Id}
    (hold : ∃ name, old.name = .named name) {x : St × List Id} (hx : Tabled T x.1) {e : Id}
    (he : ∃ name, e.name = .named name) : Tabled T (redirectOne s old x e).1 := by
  unfold redirectOne
  cases hg : get x.1.nodes e with
  | none => exact hx
  | some n =>
    simp only
    cases hh : n.hit old with
    | none => exact hx
    | some kl =>
      obtain ⟨k, l⟩ := kl
      simp only
      have hm := List.mem_of_find?_eq_some hh
      have hp := List.find?_some hh
      simp only [Bool.and_eq_true, decide_eq_true_eq] at hp
      obtain ⟨name, hname⟩ := hold
      have hn : TabledNode T x.1 n := ⟨hx.keyed e n hg, hx.dep e n hg⟩
      have hk : ∀ label, k ≠ .inline label := by
        rintro label rfl
        obtain ⟨⟨g, hg'⟩, -⟩ := hn.2 label l hm
        rw [hp.1, hname] at hg'
        cases hg'
      have hn' := hn.add k { l with target := old.withSchema s } fun label he => absurd he (hk label)
      obtain ⟨ename, hename⟩ := he
      split
      · have hput := hx.put (i := e) hn' fun g hg' => by rw [hename] at hg'; cases hg'
        exact ⟨hput.keyed, hput.node, hput.dep⟩
      · refine hx.put (i := e.withSchema s) ⟨hn'.1, hn'.2⟩ fun g hg' => ?_
        have : e.name = .generated g := hg'
        rw [hename] at this
        cases this

theorem redirectOne_todo (s : Nat) (old : Id) (x : St × List Id) (e : Id)
    (he : ∃ name, e.name = .named name) (h : ∀ o ∈ x.2, ∃ name, o.name = .named name) :
    ∀ o ∈ (redirectOne s old x e).2, ∃ name, o.name = .named name := by
  unfold redirectOne
  split
  · exact h
  · split
    · exact h
    · simp only
      split
      · exact h
      · intro o ho
        rcases (mem_setInsert _ _ _).1 ho with rfl | ho
        · exact he
        · exact h o ho

theorem redirect_tabled {T : Nat → Nat → Name → Nat} (s : Nat) {old : Id}
    (hold : ∃ name, old.name = .named name) : ∀ (es : List Id) (x : St × List Id), Tabled T x.1 →
    (∀ o ∈ x.2, ∃ name, o.name = .named name) → (∀ e ∈ es, ∃ name, e.name = .named name) →
    Tabled T (es.foldl (redirectOne s old) x).1 ∧
      ∀ o ∈ (es.foldl (redirectOne s old) x).2, ∃ name, o.name = .named name := by
  intro es
  induction es with
  | nil => intro x hx ho _; exact ⟨hx, ho⟩
  | cons e es ih =>
    intro x hx ho he
    exact ih _ (redirectOne_tabled s hold hx (he e List.mem_cons_self))
      (redirectOne_todo s old x e (he e List.mem_cons_self) ho)
      fun e' h' => he e' (List.mem_cons_of_mem _ h')

theorem Resolves.tabled {T : Nat → Nat → Name → Nat} {s : Nat} {x : St × List Id} {st' : St}
    (h : Resolves s x st') : Tabled T x.1 → (∀ o ∈ x.2, ∃ name, o.name = .named name) →
    Tabled T st' := by
  induction h with
  | done st => exact fun h _ => h
  | @round st todo old out listed st' hold _ _ _ ih =>
    intro hx ho
    obtain ⟨a, b⟩ := redirect_tabled s (ho old hold) (listed.map Id.ofText)
      (st, todo.filter (· ≠ old)) hx (fun o h => ho o (List.mem_filter.1 h).1) (by
        intro e he
        obtain ⟨t, -, rfl⟩ := List.mem_map.1 he
        exact ⟨_, rfl⟩)
    exact ih a b

theorem mem_comps_comp {d : Doc} {c : Comp} (h : .comp c ∈ d.content) : c ∈ d.comps :=
  List.mem_flatMap.2 ⟨_, h, List.mem_singleton.2 rfl⟩

theorem mem_comps_redefine {d : Doc} {loc : Txt} {cs : List Comp} {c : Comp}
    (h : .redefine loc cs ∈ d.content) (hc : c ∈ cs) : c ∈ d.comps :=
  List.mem_flatMap.2 ⟨_, h, hc⟩

theorem processRedefine_tabled (unify : Txt → Txt) {T : Nat → Nat → Name → Nat} (s ns base : Nat)
    {cs : List Comp} (hok : ∀ c ∈ cs, OkItems c.body) (hf : ∀ c ∈ cs, Fills T s (c.anons unify))
    {st st' : St} (hst : Tabled T st) (h : processRedefine unify s ns base st cs = .ok st') :
    Tabled T st' := by
  unfold processRedefine at h
  split at h
  · cases h
  · rename_i st₁ h₁
    simp only at h
    split at h
    · cases h
    · rename_i st₂ h₂
      cases h
      refine (resolveDeps_resolves s _ _ _ h₂).tabled
        (newEntries_tabled unify s ns (some base) cs hok hf hst h₁) ?_
      intro o ho
      rcases (mem_olds ns base cs [] o).1 ho with ho | ⟨c, -, rfl⟩
      · cases ho
      · exact ⟨_, rfl⟩

theorem imports_tabled (unify : Txt → Txt) {T : Nat → Nat → Name → Nat}
    {process : Nat → St → Except Err St}
    (hp : ∀ id st st', Tabled T st → process id st = .ok st' → Tabled T st')
    {id : Nat} {d : Doc} (hok : ∀ c ∈ d.comps, OkItems c.body)
    (hf : ∀ c ∈ d.comps, Fills T id (c.anons unify)) : ∀ (cs : List Content) (st st' : St),
    (∀ c ∈ cs, c ∈ d.content) → Tabled T st →
    processSchema.imports unify process id d st cs = .ok st' → Tabled T st' := by
  intro cs
  induction cs with
  | nil =>
    intro st st' _ hst h
    simp only [processSchema.imports, Except.ok.injEq] at h
    subst h; exact hst
  | cons c cs ih =>
    intro st st' hsub hst h
    have hsub' : ∀ c ∈ cs, c ∈ d.content := fun c hc => hsub c (List.mem_cons_of_mem _ hc)
    cases c with
    | comp c =>
      simp only [processSchema.imports] at h
      exact ih st st' hsub' hst h
    | load loc' =>
      simp only [processSchema.imports] at h
      split at h
      · exact ih st st' hsub' hst h
      · split at h
        · cases h
        · rename_i st1 h1
          exact ih st1 st' hsub' (hp _ _ _ hst h1) h
    | redefine loc' comps' =>
      simp only [processSchema.imports] at h
      split at h
      · exact ih st st' hsub' hst h
      · split at h
        · cases h
        · rename_i st1 h1
          split at h
          · cases h
          · rename_i st2 h2
            have hm : Content.redefine loc' comps' ∈ d.content := hsub _ List.mem_cons_self
            exact ih st2 st' hsub' (processRedefine_tabled unify id d.ns _
              (fun c hc => hok c (mem_comps_redefine hm hc))
              (fun c hc => hf c (mem_comps_redefine hm hc)) (hp _ _ _ hst h1) h2) h

theorem content_tabled (unify : Txt → Txt) {T : Nat → Nat → Name → Nat}
    {id : Nat} {d : Doc} (hok : ∀ c ∈ d.comps, OkItems c.body)
    (hf : ∀ c ∈ d.comps, Fills T id (c.anons unify)) : ∀ (cs : List Content) (st st' : St),
    (∀ c ∈ cs, c ∈ d.content) → Tabled T st →
    processSchema.content unify id d st cs = .ok st' → Tabled T st' := by
  intro cs
  induction cs with
  | nil =>
    intro st st' _ hst h
    simp only [processSchema.content, Except.ok.injEq] at h
    subst h; exact hst
  | cons c cs ih =>
    intro st st' hsub hst h
    have hsub' : ∀ c ∈ cs, c ∈ d.content := fun c hc => hsub c (List.mem_cons_of_mem _ hc)
    cases c with
    | comp c =>
      simp only [processSchema.content] at h
      split at h
      · cases h
      · rename_i st1 h1
        have hm := mem_comps_comp (hsub _ List.mem_cons_self)
        exact ih st1 st' hsub' (newEntry_tabled unify id d.ns none (hok c hm) (hf c hm) hst h1) h
    | load loc' =>
      simp only [processSchema.content] at h
      exact ih st st' hsub' hst h
    | redefine loc' comps' =>
      simp only [processSchema.content] at h
      exact ih st st' hsub' hst h

theorem comps_ok {D : Docs} (hD : D.Ok) {id : Nat} {d : Doc} (hd : get D.docs id = some d) :
    ∀ c ∈ d.comps, OkItems c.body := by
  intro c hc
  obtain ⟨x, hx, hc⟩ := List.mem_flatMap.1 hc
  cases x with
  | load _ => cases hc
  | redefine loc cs => exact (hD.redefines id d hd loc cs hx).1 c hc
  | comp c' =>
    rw [List.mem_singleton] at hc
    subst hc
    exact hD.comps id d hd _ hx

theorem processSchema_tabled (unify : Txt → Txt) {T : Nat → Nat → Name → Nat} {D : Docs}
    (hD : D.Ok) (hf : ∀ id d, get D.docs id = some d → ∀ c ∈ d.comps, Fills T id (c.anons unify)) :
    ∀ (fuel id : Nat) (st st' : St), Tabled T st → processSchema unify D fuel id st = .ok st' →
    Tabled T st' := by
  intro fuel
  induction fuel with
  | zero => intro id st st' _ h; simp [processSchema] at h
  | succ fuel ih =>
    intro id st st' hst h
    simp only [processSchema] at h
    split at h
    · cases h; exact hst
    · split at h
      · cases h
      · rename_i d hd
        split at h
        · cases h
        · rename_i st1 h1
          have hok := comps_ok hD hd
          refine content_tabled unify hok (hf id d hd) d.content st1 st' (fun _ h => h) ?_ h
          refine imports_tabled unify ih hok (hf id d hd) d.content _ st1 (fun _ h => h) ?_ h1
          exact ⟨hst.keyed, hst.node, hst.dep⟩

theorem processAll_tabled (unify : Txt → Txt) {T : Nat → Nat → Name → Nat} {D : Docs}
    (hD : D.Ok) (hf : ∀ id d, get D.docs id = some d → ∀ c ∈ d.comps, Fills T id (c.anons unify)) :
    ∀ (ds : List (Nat × Doc)) (st st' : St), Tabled T st → processAll unify D ds st = .ok st' →
    Tabled T st' := by
  intro ds
  induction ds with
  | nil =>
    intro st st' hst h
    simp only [processAll, Except.ok.injEq] at h
    subst h; exact hst
  | cons d ds ih =>
    intro st st' hst h
    simp only [processAll] at h
    split at h
    · cases h
    · rename_i st1 h1
      exact ih st1 st' (processSchema_tabled unify hD hf _ _ _ _ hst h1) h

/-- **C85** If the anonymous components of every document get different names, then every
anonymous component keeps its own declaration, also in copies for redefinitions. -/
theorem C85_anonymous_kept_partial (unify : Txt → Txt) {D : Docs} (hD : D.Ok)
    (hdis : ∀ id d, get D.docs id = some d → d.Distinct unify) (builtin : List TIdent) {st : St}
    (h : createNodeCache unify D builtin = .ok st) : KeepsAnons st := by
  classical
  let T : Nat → Nat → Name → Nat := fun s kind name =>
    if hx : ∃ d a, get D.docs s = some d ∧ a ∈ d.comps.flatMap (Comp.anons unify) ∧
      a.kind = kind ∧ a.name = name then (Classical.choose (Classical.choose_spec hx)).label else 0
  have hT : ∀ id d, get D.docs id = some d → ∀ c ∈ d.comps, Fills T id (c.anons unify) := by
    intro id d hd c hc a ha
    have ham : a ∈ d.comps.flatMap (Comp.anons unify) := List.mem_flatMap.2 ⟨c, hc, ha⟩
    have hx : ∃ d' a', get D.docs id = some d' ∧ a' ∈ d'.comps.flatMap (Comp.anons unify) ∧
      a'.kind = a.kind ∧ a'.name = a.name := ⟨d, a, hd, ham, rfl, rfl⟩
    show (if hx : _ then _ else _) = _
    rw [dif_pos hx]
    have hsp := Classical.choose_spec (Classical.choose_spec hx)
    have hdd := Option.some.inj (hd.symm.trans hsp.1)
    refine hdis id d hd _ ?_ a ham hsp.2.2.1 hsp.2.2.2
    rw [hdd]
    exact hsp.2.1
  refine Tabled.keeps (T := T) (processAll_tabled unify hD hT D.docs _ st ?_ h)
  exact ⟨(fun i n hi => by cases hi), (fun i n g hi => by cases hi), (fun i n hi => by cases hi)⟩

/-! ## What is not kept -/

/-- **C85** In a group the generated name only depends on the name of the element: not on the
group, nor on what is around it. -/
theorem C85_group_names (unify : Txt → Txt) (stack stack' : List Frame) (name : Txt) :
    inlineName unify (.group :: stack) (.element name) =
      inlineName unify (.group :: stack') (.element name) := rfl

/-- Two groups (kind 3), each with a local element `e` with an anonymous type. -/
def groupDocs : Docs :=
  { docs := [(1, { ns := 1, content := [
      .comp ⟨1, 3, ['g'], [.group [.inline 2 2 (.element ['e']) []]]⟩,
      .comp ⟨3, 3, ['k'], [.group [.inline 4 2 (.element ['e']) []]]⟩] })] }

/-- Type `a` with a local element `be` and type `ab` with a local element `e`. -/
def typeDocs : Docs :=
  { docs := [(1, { ns := 1, content := [
      .comp ⟨1, 1, ['a'], [.inline 2 2 (.element ['b', 'e']) []]⟩,
      .comp ⟨3, 1, ['a', 'b'], [.inline 4 2 (.element ['e']) []]⟩] })] }

def keepCheck (D : Docs) : Bool :=
  match createNodeCache id D with
  | .error _ => false
  | .ok st => st.nodes.any fun x => x.2.deps.any fun d =>
    match d.1 with
    | .named .. => false
    | .inline label => (get st.nodes x.1 == some x.2) &&
      match get st.nodes d.2.target with
      | none => true
      | some m => m.label != label

theorem loses_of_check {D : Docs} (h : keepCheck D = true) :
    ∃ st, createNodeCache id D = .ok st ∧ ¬ KeepsAnons st := by
  unfold keepCheck at h
  split at h
  · cases h
  · rename_i st hst
    refine ⟨st, hst, fun hk => ?_⟩
    obtain ⟨⟨i, n⟩, -, h⟩ := List.any_eq_true.1 h
    obtain ⟨⟨k, l⟩, hd, h⟩ := List.any_eq_true.1 h
    simp only at h
    cases k with
    | named => cases h
    | inline label =>
      simp only [Bool.and_eq_true, beq_iff_eq] at h
      obtain ⟨m, hm, hl⟩ := hk i n h.1 label l hd
      rw [hm] at h
      simp [hl] at h

/-- **C85** Two groups of a document with local elements of the same name: the anonymous type of
one element is lost, and both elements get the type of the other one. -/
theorem C85_groups_lose : groupDocs.Ok ∧
    ∃ st, createNodeCache id groupDocs = .ok st ∧ ¬ KeepsAnons st :=
  ⟨docs_ok (by decide +kernel), loses_of_check (by decide +kernel)⟩

/-- **C85** The same for two types and elements whose names are the same when they are put
together. -/
theorem C85_types_lose : typeDocs.Ok ∧
    ∃ st, createNodeCache id typeDocs = .ok st ∧ ¬ KeepsAnons st :=
  ⟨docs_ok (by decide +kernel), loses_of_check (by decide +kernel)⟩

/-- **C85** Without the condition, anonymous components are not kept. -/
theorem C85_not_all_kept : ¬ ∀ D : Docs, D.Ok → ∀ st, createNodeCache id D = .ok st →
    KeepsAnons st := by
  intro h
  obtain ⟨hok, st, hst, hn⟩ := C85_groups_lose
  exact hn (h _ hok st hst)

/-- A type with anonymous types inside of each other, a group, and a redefinition. -/
def nestedDocs : Docs :=
  { docs := [
      (1, { ns := 1, deps := [(['b'], ⟨0, 2⟩)], content := [.redefine ['b'] [newV],
        .comp ⟨1, 1, ['p'], [to 'v', .inline 2 2 (.element ['e']) [
          .inline 3 2 (.element ['f']) [], .group [.inline 4 2 (.element ['f']) []]]]⟩] }),
      (2, baseDoc)] }

/-- The conditions of `C85_anonymous_kept_partial` are met. -/
example : nestedDocs.Ok ∧ (∀ i d, get nestedDocs.docs i = some d → d.Distinct id) ∧
    (∃ st, createNodeCache id nestedDocs = .ok st) := by
  refine ⟨docs_ok (by decide +kernel), ?_, ?_⟩
  · have h : ∀ x ∈ nestedDocs.docs, ∀ a ∈ x.2.comps.flatMap (Comp.anons id),
        ∀ b ∈ x.2.comps.flatMap (Comp.anons id), a.kind = b.kind → a.name = b.name →
        a.label = b.label := by decide +kernel
    exact fun i d hd => h (i, d) (mem_of_get hd)
  · have h : (match createNodeCache id nestedDocs with
      | .ok _ => true
      | .error _ => false) = true := by decide +kernel
    cases hr : createNodeCache id nestedDocs with
    | error e => rw [hr] at h; cases h
    | ok st => exact ⟨st, rfl⟩

end Verif.NodeCache

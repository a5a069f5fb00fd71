import Verif.Interp.Redefine

/-!
# The states in which redefinitions are resolved (C84)

Every state that `create_node_cache` reaches has the properties asked for in `Ready`, so that the
theorems about `resolve_dependencies` hold for every call of `process_redefine` and
`process_override`.
-/

namespace Verif.NodeCache

open Verif.Assoc Verif.Models Verif.Naming Verif.Dfs

/-! ## Well-formed inputs -/

mutual

/-- Anonymous components get generated names, namespaces are known. -/
def Item.Ok : Item → Prop
  | .ref _ _ ns _ => ns ≠ some 0
  | .group body => OkItems body
  | .inline _ _ from_ body => (∀ n, from_ = .given n → ∃ g, n = .generated g) ∧ OkItems body

def OkItems : List Item → Prop
  | [] => True
  | i :: is => i.Ok ∧ OkItems is

end

/-! ## Invariant -/

/-- The target of a dependency has the namespace, kind and name of its key; anonymous components
have generated names. -/
def Fits : Key → Id → Prop
  | .named ns kind name, i => i.ns = ns ∧ i.kind = kind ∧ i.name = .named name
  | .inline _, i => ∃ g, i.name = .generated g

structure GoodNode (n : Node) : Prop where
  keyed : Keyed n.deps
  fits : ∀ d ∈ n.deps, Fits d.1 d.2.target
  base : ∀ b, n.base = some b → ∃ name, b.name = .named name

/-- The state of the run. -/
structure Sound (st : St) : Prop where
  schema : ∀ t e, get st.idents.schemas t = some e → e.schema = t
  node : ∀ i n, get st.nodes i = some n → GoodNode n
  base : ∀ i n b, get st.nodes i = some n → n.base = some b → b.key = i.key ∧ b.schema ≠ i.schema
  names : ∀ i, (get st.nodes i).isSome → Own st.idents i.schema i.key

theorem GoodNode.clean {n : Node} (h : GoodNode n) : Clean n := by
  refine ⟨h.keyed, ?_⟩
  rintro ⟨k, l⟩ hd ⟨k', l'⟩ hd' ht ⟨name, hn⟩
  simp only at ht hn
  have f := h.fits _ hd
  have f' := h.fits _ hd'
  simp only at f f'
  have hk : k = k' := by
    cases k with
    | inline _ =>
      obtain ⟨g, hg⟩ := f
      rw [hn] at hg
      cases hg
    | named ns kind nm =>
      cases k' with
      | inline _ =>
        obtain ⟨g, hg⟩ := f'
        rw [← ht, hn] at hg
        cases hg
      | named ns' kind' nm' =>
        obtain ⟨a, b, c⟩ := f
        obtain ⟨a', b', c'⟩ := f'
        rw [ht] at a b c
        rw [a'] at a; rw [b'] at b; rw [c'] at c
        cases a; cases b; cases c
        rfl
  subst hk
  have e1 := get_of_mem h.keyed hd
  have e2 := get_of_mem h.keyed hd'
  rw [e1] at e2
  cases e2
  rfl

theorem GoodNode.add {n : Node} (h : GoodNode n) (k : Key) (l : Link) (hf : Fits k l.target) :
    GoodNode { n with deps := upsert n.deps k fun _ => l } := by
  refine ⟨h.keyed.upsert k _, ?_, h.base⟩
  rintro ⟨k', l'⟩ hd
  have hg := get_of_mem (h.keyed.upsert k _) hd
  rw [get_upsert] at hg
  split at hg
  · rename_i hk
    subst hk
    cases hg
    exact hf
  · exact h.fits _ (mem_of_get hg)

/-- The names a state knows are kept. -/
def Grows (st st' : St) : Prop :=
  (∀ s key, Own st.idents s key → Own st'.idents s key) ∧
  (∀ s ns, Known st.idents s ns → Known st'.idents s ns) ∧
  (∀ i, (get st.nodes i).isSome → (get st'.nodes i).isSome)

theorem Grows.refl (st : St) : Grows st st := ⟨fun _ _ h => h, fun _ _ h => h, fun _ h => h⟩

theorem Grows.trans {a b c : St} (h : Grows a b) (h' : Grows b c) : Grows a c :=
  ⟨fun s k ho => h'.1 s k (h.1 s k ho), fun s n hk => h'.2.1 s n (h.2.1 s n hk),
    fun i hi => h'.2.2 i (h.2.2 i hi)⟩

theorem get_insert (c : Cache) (i : TIdent) (hi : i.schema ≠ 0) (t : Nat) :
    get (c.insert i).schemas t = if i.schema = t then
      some { ((get c.schemas t).getD { ns := i.ns, schema := i.schema }) with
        types := setInsert (i.kind, i.name)
          ((get c.schemas t).getD { ns := i.ns, schema := i.schema }).types } else
      get c.schemas t := by
  unfold Cache.insert
  rw [if_neg hi]
  simp only
  rw [get_upsert]
  split
  · rename_i h; subst h; rfl
  · rfl

theorem own_insert (c : Cache) (i : TIdent) (hi : i.schema ≠ 0) :
    Own (c.insert i) i.schema (i.kind, i.name) ∧
    (∀ s key, Own c s key → Own (c.insert i) s key) := by
  constructor
  · refine ⟨_, by rw [get_insert c i hi, if_pos rfl], ?_⟩
    exact (mem_setInsert _ _ _).2 (.inl rfl)
  · rintro s key ⟨e, he, hk⟩
    by_cases h : i.schema = s
    · refine ⟨_, by rw [get_insert c i hi, if_pos h], ?_⟩
      rw [he]
      exact (mem_setInsert _ _ _).2 (.inr hk)
    · exact ⟨e, by rw [get_insert c i hi, if_neg h]; exact he, hk⟩

theorem insert_schema (c : Cache) (i : TIdent) (hi : i.schema ≠ 0)
    (h : ∀ t e, get c.schemas t = some e → e.schema = t) :
    ∀ t e, get (c.insert i).schemas t = some e → e.schema = t := by
  intro t e he
  rw [get_insert c i hi] at he
  split at he
  · rename_i hit
    cases he
    simp only
    cases hg : get c.schemas t with
    | none => exact hit
    | some x => exact h t x hg
  · exact h t e he

theorem known_insert (c : Cache) (i : TIdent) (hi : i.schema ≠ 0) {s ns : Nat}
    (h : Known c s ns) : Known (c.insert i) s ns := by
  obtain ⟨e, he, hns⟩ := h.known
  refine ⟨?_, insert_schema c i hi h.schema⟩
  by_cases his : i.schema = s
  · refine ⟨_, by rw [get_insert c i hi, if_pos his], ?_⟩
    rw [he]
    exact hns
  · exact ⟨e, by rw [get_insert c i hi, if_neg his]; exact he, hns⟩

theorem Sound.put {st : St} (h : Sound st) (i : Id) (n : Node) (hn : GoodNode n)
    (hs : i.schema ≠ 0)
    (hb : ∀ b, n.base = some b → b.key = i.key ∧ b.schema ≠ i.schema) :
    Sound (st.put i n) ∧ Grows st (st.put i n) ∧ get (st.put i n).nodes i = some n := by
  have hg : ∀ j, get (st.put i n).nodes j = if i = j then some n else get st.nodes j := by
    intro j; exact get_upsert _ _ _ _
  refine ⟨⟨insert_schema _ _ hs h.schema, ?_, ?_, ?_⟩, ⟨?_, ?_, ?_⟩, ?_⟩
  · intro j m hj
    rw [hg] at hj
    split at hj
    · cases hj; exact hn
    · exact h.node j m hj
  · intro j m b hj hmb
    rw [hg] at hj
    split at hj
    · rename_i hij
      subst hij
      cases hj; exact hb b hmb
    · exact h.base j m b hj hmb
  · intro j hj
    rw [hg] at hj
    split at hj
    · rename_i hij
      subst hij
      exact (own_insert st.idents i.text hs).1
    · exact (own_insert st.idents i.text hs).2 _ _ (h.names j hj)
  · exact fun s key ho => (own_insert st.idents i.text hs).2 s key ho
  · exact fun s ns hk => known_insert _ _ hs hk
  · intro j hj
    rw [hg]
    split
    · rfl
    · exact hj
  · rw [hg, if_pos rfl]

/-! ## References -/

theorem mkIdent_fits (e : Entry) (q : TIdent) (h : q.ns ≠ 0) :
    (e.mkIdent q).ns = q.ns ∧ (e.mkIdent q).kind = q.kind ∧ (e.mkIdent q).name = q.name := by
  simp [Entry.mkIdent, orId, h]

theorem resolveLoop_fits (q : TIdent) (h : q.ns ≠ 0) : ∀ (es : List Entry) (ret : Option TIdent)
    (r : TIdent), (∀ x, ret = some x → x.ns = q.ns ∧ x.kind = q.kind ∧ x.name = q.name) →
    resolveLoop q es ret = some (some r) → r.ns = q.ns ∧ r.kind = q.kind ∧ r.name = q.name := by
  intro es
  induction es with
  | nil => intro ret r hr hx; simp only [resolveLoop, Option.some.injEq] at hx; exact hr r hx
  | cons e es ih =>
    intro ret r hr hx
    simp only [resolveLoop] at hx
    split at hx
    · split at hx
      · cases hx
      · refine ih _ r ?_ hx
        intro x hx'
        cases hx'
        exact mkIdent_fits e q h
    · exact ih _ r hr hx

theorem resolve_fits (c : Cache) (q r : TIdent) (h : q.ns ≠ 0) (hr : c.resolve q = .ok r) :
    r.ns = q.ns ∧ r.kind = q.kind ∧ r.name = q.name := by
  unfold Cache.resolve at hr
  simp only at hr
  split at hr
  · cases hr
  · rename_i ret hret
    split at hr
    · cases hr
    · cases hr
    · rename_i i hi
      cases hr
      have h1 : ∀ x, ret = some x → x.ns = q.ns ∧ x.kind = q.kind ∧ x.name = q.name := by
        intro x hx
        subst hx
        exact resolveLoop_fits q h _ none x (by intro x hx; cases hx) hret
      split at hi
      · exact resolveLoop_fits q h _ ret _ h1 hi
      · simp only [Option.some.injEq] at hi
        exact h1 _ hi

theorem resolveFor_fits (c : Cache) (s : Nat) (q r : TIdent) (h : q.ns ≠ 0)
    (hr : c.resolveFor s q = .ok r) : r.ns = q.ns ∧ r.kind = q.kind ∧ r.name = q.name := by
  unfold Cache.resolveFor at hr
  simp only at hr
  split at hr
  · cases hr
  · cases hr; exact mkIdent_fits _ q h
  · split at hr
    · cases hr; exact mkIdent_fits _ q h
    · cases hr

/-- The document's own definition of a name is found first. -/
theorem resolveFor_own {c : Cache} {s ns : Nat} (hk : Known c s ns) {kind : Nat} {name : Txt}
    (ho : Own c s (kind, name)) : c.resolveFor s ⟨ns, 0, kind, name⟩ = .ok ⟨ns, s, kind, name⟩ := by
  obtain ⟨e, he, hns⟩ := hk.known
  obtain ⟨e', he', hm⟩ := ho
  rw [he] at he'
  cases he'
  have hmatch : e.matches ⟨ns, 0, kind, name⟩ = true := by
    simp [Entry.matches, hns, hm]
  have hsearch : c.search ⟨ns, 0, kind, name⟩ (c.schemas.length + 1) [] s = some ([s], some e) := by
    simp [Cache.search, he, hmatch]
  unfold Cache.resolveFor
  simp only [searchLoop, hsearch]
  simp [Entry.mkIdent, orId, hns, hk.schema s e he]

theorem resolveRef_fits {st : St} {s : Nat} {base : Option Id} {ns kind : Nat} {name : Txt}
    {i : Id} (hns : ns ≠ 0) (hb : ∀ b, base = some b → ∃ n, b.name = .named n)
    (h : resolveRef st s base ns kind name = .ok i) :
    i.ns = ns ∧ i.kind = kind ∧ i.name = .named name := by
  have hsearch : resolveRef.search st s ns kind name = .ok i →
      i.ns = ns ∧ i.kind = kind ∧ i.name = .named name := by
    intro h
    unfold resolveRef.search at h
    simp only at h
    split at h
    · rename_i r hr
      cases h
      obtain ⟨a, b, c⟩ := resolveFor_fits _ _ _ _ hns hr
      exact ⟨a, b, congrArg _ c⟩
    · split at h
      · rename_i r hr
        cases h
        obtain ⟨a, b, c⟩ := resolve_fits _ _ _ hns hr
        exact ⟨a, b, congrArg _ c⟩
      all_goals cases h
  unfold resolveRef at h
  split at h
  · rename_i b
    split at h
    · rename_i hc
      cases h
      obtain ⟨n, hn⟩ := hb _ rfl
      refine ⟨hc.1, hc.2.2, ?_⟩
      have := hc.2.1
      rw [hn] at this ⊢
      exact congrArg _ this
    · exact hsearch h
  · exact hsearch h

/-- A name of the document itself refers to the document's component, or to what the component
redefines. -/
theorem resolveRef_own {st : St} {s : Nat} {base : Option Id} {ns kind : Nat} {name : Txt} {i : Id}
    (hk : Known st.idents s ns) (ho : Own st.idents s (kind, name))
    (h : resolveRef st s base ns kind name = .ok i) :
    i = ⟨ns, s, kind, .named name⟩ ∨ base = some i := by
  have hsearch : resolveRef.search st s ns kind name = .ok i → i = ⟨ns, s, kind, .named name⟩ := by
    intro h
    unfold resolveRef.search at h
    simp only [resolveFor_own hk ho, Except.ok.injEq] at h
    exact h.symm
  unfold resolveRef at h
  split at h
  · split at h
    · cases h; exact .inr rfl
    · exact .inl (hsearch h)
  · exact .inl (hsearch h)

/-! ## The run -/

theorem inlineName_element (unify : Txt → Txt) (stack : List Frame) (n : Txt) :
    ∃ g, inlineName unify stack (.element n) = .generated g := by
  have hext : ∀ (fs : List Frame) (b : Builder), b.ext.isSome →
      (autoExtend unify true false b fs).ext.isSome := by
    intro fs
    induction fs with
    | nil => intro b hb; exact hb
    | cons f fs ih =>
      intro b hb
      cases f with
      | group => simpa [autoExtend] using hb
      | node name =>
        simp only [autoExtend, Builder.addExtension, Bool.false_eq_true, if_false]
        cases b.ext <;> rfl
  have h := hext stack (Builder.new.addExtension unify true n) rfl
  unfold inlineName
  simp only [Builder.finish]
  rw [if_neg (by simp)]
  simp only [h, Bool.or_true, Bool.true_or, if_true]
  exact ⟨_, rfl⟩

/-- What processing the content of a component keeps, and where its references lead. -/
structure Kept (s ns : Nat) (st : St) (n : Node) (st' : St) (n' : Node) : Prop where
  sound : Sound st'
  good : GoodNode n'
  grows : Grows st st'
  same : n'.label = n.label ∧ n'.kind = n.kind ∧ n'.base = n.base
  foreign : ∀ i, i.schema ≠ s → get st'.nodes i = get st.nodes i
  /-- references to names of the document lead to its components -/
  own : ∀ d ∈ n'.deps, d ∈ n.deps ∨ ∀ rns kind name, d.1 = .named rns kind name →
    rns = ns → Own st.idents s (kind, name) →
    d.2.target = ⟨ns, s, kind, .named name⟩ ∨ n.base = some d.2.target

theorem Kept.trans {s ns : Nat} {st st' st'' : St} {n n' n'' : Node} (h : Kept s ns st n st' n')
    (h' : Kept s ns st' n' st'' n'') : Kept s ns st n st'' n'' where
  sound := h'.sound
  good := h'.good
  grows := h.grows.trans h'.grows
  same := ⟨h'.same.1.trans h.same.1, h'.same.2.1.trans h.same.2.1, h'.same.2.2.trans h.same.2.2⟩
  foreign i hi := (h'.foreign i hi).trans (h.foreign i hi)
  own d hd := by
    rcases h'.own d hd with h1 | h1
    · exact h.own d h1
    · right
      intro rns kind name hk hns ho
      rw [← h.same.2.2]
      exact h1 rns kind name hk hns (h.grows.1 _ _ ho)

theorem mem_upsert {K V : Type} [DecidableEq K] {m : List (K × V)} (hm : Keyed m) {k : K} {v : V}
    {x : K × V} (h : x ∈ upsert m k fun _ => v) : x = (k, v) ∨ x ∈ m := by
  obtain ⟨k', v'⟩ := x
  have hg := get_of_mem (hm.upsert k _) h
  rw [get_upsert] at hg
  split at hg
  · rename_i hk; subst hk; cases hg; exact .inl rfl
  · exact .inr (mem_of_get hg)

mutual

theorem processItem_kept (unify : Txt → Txt) {s ns : Nat} (hs : s ≠ 0) (hns : ns ≠ 0) :
    ∀ (i : Item) (stack : List Frame) (n : Node) (st : St) (r : Node × St), i.Ok → Sound st →
      GoodNode n → Known st.idents s ns → processItem unify s ns stack n st i = .ok r →
      Kept s ns st n r.2 r.1
  | .ref strength kind rns name, stack, n, st, r, hok, hst, hn, hk, h => by
    simp only [processItem] at h
    split at h
    · cases h
    · rename_i i hi
      cases h
      have hrns : rns.getD ns ≠ 0 := by
        cases rns with
        | none => exact hns
        | some a => intro h; exact hok (by rw [Item.Ok] at hok; simpa using congrArg some h)
      have hf := resolveRef_fits hrns hn.base hi
      refine ⟨hst, hn.add _ _ hf, .refl _, ⟨rfl, rfl, rfl⟩, fun _ _ => rfl, ?_⟩
      intro d hd
      rcases mem_upsert hn.keyed hd with rfl | hd
      · right
        intro rns' kind' name' hkey hr ho
        cases hkey
        rw [hr] at hi
        exact resolveRef_own hk ho hi
      · exact .inl hd
  | .group body, stack, n, st, r, hok, hst, hn, hk, h => by
    simp only [processItem] at h
    exact processItems_kept unify hs hns body (.group :: stack) n st r hok hst hn hk h
  | .inline label kind from_ body, stack, n, st, r, hok, hst, hn, hk, h => by
    simp only [processItem] at h
    split at h
    · cases h
    · rename_i m st1 hm
      cases h
      have hnew : GoodNode ({ label, kind } : Node) :=
        ⟨keyed_nil, (fun d hd => by cases hd), (fun b hb => by cases hb)⟩
      have k1 := processItems_kept unify hs hns body _ { label, kind } st (m, st1) hok.2 hst hnew
        hk hm
      simp only at k1
      obtain ⟨p1, p2, -⟩ := k1.sound.put ⟨ns, s, kind, inlineName unify stack from_⟩ m k1.good hs
        (fun b hb => by rw [k1.same.2.2] at hb; cases hb)
      have hgen : ∃ g, inlineName unify stack from_ = .generated g := by
        cases from_ with
        | element nm => exact inlineName_element unify stack nm
        | given nm => exact hok.1 nm rfl
      refine ⟨p1, hn.add _ _ hgen, k1.grows.trans p2, ⟨rfl, rfl, rfl⟩, ?_, ?_⟩
      · intro i hi
        refine Eq.trans ?_ (k1.foreign i hi)
        unfold St.put
        simp only
        rw [get_upsert, if_neg]
        intro he
        exact hi (by rw [← he])
      · intro d hd
        rcases mem_upsert hn.keyed hd with rfl | hd
        · right; intro _ _ _ hkey; cases hkey
        · exact .inl hd

theorem processItems_kept (unify : Txt → Txt) {s ns : Nat} (hs : s ≠ 0) (hns : ns ≠ 0) :
    ∀ (is : List Item) (stack : List Frame) (n : Node) (st : St) (r : Node × St), OkItems is →
      Sound st → GoodNode n → Known st.idents s ns →
      processItems unify s ns stack n st is = .ok r → Kept s ns st n r.2 r.1
  | [], stack, n, st, r, _, hst, hn, _, h => by
    simp only [processItems, Except.ok.injEq] at h
    subst h
    exact ⟨hst, hn, .refl _, ⟨rfl, rfl, rfl⟩, fun _ _ => rfl, fun d hd => .inl hd⟩
  | i :: is, stack, n, st, r, hok, hst, hn, hk, h => by
    simp only [processItems] at h
    split at h
    · cases h
    · rename_i n1 st1 h1
      have k1 := processItem_kept unify hs hns i stack n st (n1, st1) hok.1 hst hn hk h1
      simp only at k1
      exact k1.trans (processItems_kept unify hs hns is stack n1 st1 r hok.2 k1.sound k1.good
        (k1.grows.2.1 s ns hk) h)

end

/-- `new_entry`: the component is stored under its identifier; where its references lead. -/
theorem newEntry_spec (unify : Txt → Txt) {s ns : Nat} (hs : s ≠ 0) (hns : ns ≠ 0)
    (base : Option Nat) (hb : ∀ b, base = some b → b ≠ s) {st st' : St} {c : Comp}
    (hc : OkItems c.body) (hst : Sound st) (hk : Known st.idents s ns)
    (h : newEntry unify s ns base st c = .ok st') :
    Sound st' ∧ Grows st st' ∧ (∀ i, i.schema ≠ s → get st'.nodes i = get st.nodes i) ∧
    ∃ n, get st'.nodes (c.ident ns s) = some n ∧ n.label = c.label ∧
      n.base = base.map (c.ident ns) ∧
      ∀ d ∈ n.deps, ∀ kind name, d.1 = .named ns kind name → Own st.idents s (kind, name) →
        d.2.target = ⟨ns, s, kind, .named name⟩ ∨ n.base = some d.2.target := by
  unfold newEntry at h
  simp only at h
  split at h
  · cases h
  · rename_i n st1 h1
    cases h
    have hgood : GoodNode
        { label := c.label, kind := c.kind, base := base.map fun b => c.ident ns b } := by
      refine ⟨keyed_nil, (fun d hd => by cases hd), ?_⟩
      intro b hb
      cases base with
      | none => cases hb
      | some b' => cases hb; exact ⟨_, rfl⟩
    have k1 := processItems_kept unify hs hns c.body _ _ st (n, st1) hc hst hgood hk h1
    simp only at k1
    obtain ⟨p1, p2, p3⟩ := k1.sound.put (c.ident ns s) n k1.good hs (by
      intro b hbb
      rw [k1.same.2.2] at hbb
      cases base with
      | none => cases hbb
      | some b' => cases hbb; exact ⟨rfl, hb b' rfl⟩)
    refine ⟨p1, k1.grows.trans p2, ?_, n, p3, k1.same.1, k1.same.2.2, ?_⟩
    · intro i hi
      refine Eq.trans ?_ (k1.foreign i hi)
      unfold St.put
      simp only
      rw [get_upsert, if_neg]
      intro he
      exact hi (by rw [← he]; rfl)
    · intro d hd kind name hkey ho
      rcases k1.own d hd with h' | h'
      · cases h'
      · rw [k1.same.2.2]; exact h' ns kind name hkey rfl ho

theorem newEntries_spec (unify : Txt → Txt) {s ns : Nat} (hs : s ≠ 0) (hns : ns ≠ 0)
    (base : Option Nat) (hb : ∀ b, base = some b → b ≠ s) : ∀ (cs : List Comp) {st st' : St},
    (∀ c ∈ cs, OkItems c.body) → Sound st → Known st.idents s ns →
    newEntries unify s ns base st cs = .ok st' →
    Sound st' ∧ Grows st st' ∧ (∀ i, i.schema ≠ s → get st'.nodes i = get st.nodes i) ∧
    ∀ c ∈ cs, (get st'.nodes (c.ident ns s)).isSome := by
  intro cs
  induction cs with
  | nil =>
    intro st st' _ hst _ h
    simp only [newEntries, Except.ok.injEq] at h
    subst h
    exact ⟨hst, .refl _, fun _ _ => rfl, fun c hc => by cases hc⟩
  | cons c cs ih =>
    intro st st' hok hst hk h
    simp only [newEntries] at h
    split at h
    · cases h
    · rename_i st1 h1
      obtain ⟨a1, a2, a3, n, a4, -⟩ := newEntry_spec unify hs hns base hb
        (hok c List.mem_cons_self) hst hk h1
      obtain ⟨b1, b2, b3, b4⟩ := ih (fun c hc => hok c (List.mem_cons_of_mem _ hc)) a1
        (a2.2.1 s ns hk) h
      refine ⟨b1, a2.trans b2, fun i hi => (b3 i hi).trans (a3 i hi), ?_⟩
      intro c' hc'
      rcases List.mem_cons.1 hc' with rfl | hc'
      · exact b2.2.2 _ (by rw [a4]; rfl)
      · exact b4 c' hc'

theorem mem_olds (ns base : Nat) (cs : List Comp) : ∀ (l : List Id) (o : Id),
    o ∈ cs.foldl (fun l c => setInsert (c.ident ns base) l) l ↔
      o ∈ l ∨ ∃ c ∈ cs, o = c.ident ns base := by
  induction cs with
  | nil => intro l o; simp
  | cons c cs ih =>
    intro l o
    rw [List.foldl_cons, ih, mem_setInsert]
    constructor
    · rintro ((h | h) | ⟨c', hc', h⟩)
      · exact .inr ⟨c, List.mem_cons_self, h⟩
      · exact .inl h
      · exact .inr ⟨c', List.mem_cons_of_mem _ hc', h⟩
    · rintro (h | ⟨c', hc', h⟩)
      · exact .inl (.inr h)
      · rcases List.mem_cons.1 hc' with rfl | hc'
        · exact .inl (.inl h)
        · exact .inr ⟨c', hc', h⟩

/-- The identifiers `idents` of `process_redefine` and `process_override`. -/
def olds (ns base : Nat) (cs : List Comp) : List Id :=
  cs.foldl (fun l c => setInsert (c.ident ns base) l) []

/-- **C84** In every state of the run, once the new components of a redefinition are stored, what
`Ready` asks for holds. -/
theorem C84_ready (unify : Txt → Txt) {s ns base : Nat} (hs : s ≠ 0) (hns : ns ≠ 0) (hb : base ≠ s)
    {cs : List Comp} (hok : ∀ c ∈ cs, OkItems c.body) {st st₁ : St} (hst : Sound st)
    (hk : Known st.idents s ns) (h : newEntries unify s ns (some base) st cs = .ok st₁) :
    Ready s ns st₁ (olds ns base cs) := by
  obtain ⟨a1, a2, a3, a4⟩ := newEntries_spec unify hs hns (some base)
    (by rintro _ ⟨⟩; exact hb) cs hok hst hk h
  refine ⟨hs, a2.2.1 s ns hk, ?_, fun i n hg => (a1.node i n hg).clean, a1.base, ?_⟩
  · intro o ho
    rcases (mem_olds ns base cs [] o).1 ho with ho | ⟨c, hc, rfl⟩
    · cases ho
    · have := a4 c hc
      exact ⟨hb, ⟨_, rfl⟩, a1.names (c.ident ns s) this, this⟩
  · intro i hi his
    rw [← his]
    exact a1.names i hi

/-- **C84** `process_redefine` and `process_override` from any state of the run, whatever the
order of the sets: afterwards nothing that is seen from the document refers to a replaced
component, except for a component to what it redefines itself; there is a new component for every
replaced one, and it is the one that is seen. -/
theorem C84_redefine_partial (unify : Txt → Txt) {s ns base : Nat} (hs : s ≠ 0) (hns : ns ≠ 0)
    (hb : base ≠ s) {cs : List Comp} (hok : ∀ c ∈ cs, OkItems c.body) {st st₁ st₂ : St}
    (hst : Sound st) (hk : Known st.idents s ns)
    (h : newEntries unify s ns (some base) st cs = .ok st₁)
    (hsame : SameNamespace s ns st₁ (olds ns base cs))
    (hr : Resolves s (st₁, olds ns base cs) st₂) :
    (∀ c ∈ cs, Replaced s st₁ (olds ns base cs) (c.ident ns base)) ∧
    (∀ out, Lists st₂.idents s out → ∀ t ∈ out, ∀ n, get st₂.nodes (.ofText t) = some n →
      ∀ d ∈ n.deps, Replaced s st₁ (olds ns base cs) d.2.target → n.base = some d.2.target) ∧
    (∀ i, Replaced s st₁ (olds ns base cs) i → (get st₂.nodes (i.withSchema s)).isSome ∧
      ∀ out, Lists st₂.idents s out → ⟨ns, s, i.kind, i.name.str⟩ ∈ out) ∧
    (∀ i, i.schema ≠ s → get st₂.nodes i = get st.nodes i) := by
  have hready := C84_ready unify hs hns hb hok hst hk h
  obtain ⟨a, b, -, -, e, -⟩ := C84_redefined_partial hready hsame hr
  refine ⟨fun c hc => .redefined ((mem_olds _ _ _ _ _).2 (.inr ⟨c, hc, rfl⟩)), a, b, ?_⟩
  intro i hi
  exact (e i hi).trans ((newEntries_spec unify hs hns (some base) (by rintro _ ⟨⟩; exact hb) cs hok
    hst hk h).2.2.1 i hi)

/-! ## Every state of the run is sound -/

theorem Fits.withSchema {k : Key} {i : Id} (h : Fits k i) (s : Nat) : Fits k (i.withSchema s) := by
  cases k with
  | named ns kind name => exact h
  | inline l => exact h

theorem hit_fits {n : Node} (h : GoodNode n) {old : Id} {k : Key} {l : Link}
    (hh : n.hit old = some (k, l)) : Fits k old := by
  have hm := List.mem_of_find?_eq_some hh
  have hp := List.find?_some hh
  simp only [Bool.and_eq_true, decide_eq_true_eq] at hp
  have := h.fits _ hm
  rw [hp.1] at this
  exact this

theorem redirectOne_sound {s : Nat} (hs : s ≠ 0) (old : Id) {x : St × List Id} (hx : Sound x.1)
    {e : Id} (he : ∃ name, e.name = .named name) :
    Sound (redirectOne s old x e).1 ∧ Grows x.1 (redirectOne s old x e).1 := by
  unfold redirectOne
  cases hg : get x.1.nodes e with
  | none => exact ⟨hx, .refl _⟩
  | some n =>
    simp only
    cases hh : n.hit old with
    | none => exact ⟨hx, .refl _⟩
    | some kl =>
      obtain ⟨k, l⟩ := kl
      simp only
      have hn := hx.node e n hg
      have hgood := hn.add k { l with target := old.withSchema s } ((hit_fits hn hh).withSchema s)
      split
      · have hget : ∀ j, get (upsert x.1.nodes e fun _ =>
            { n with deps := upsert n.deps k fun _ => { l with target := old.withSchema s } }) j =
            if e = j then some
              { n with deps := upsert n.deps k fun _ => { l with target := old.withSchema s } }
            else get x.1.nodes j := fun j => get_upsert _ _ _ _
        refine ⟨⟨hx.schema, ?_, ?_, ?_⟩, fun _ _ h => h, fun _ _ h => h, ?_⟩
        · intro i m hi
          simp only [hget] at hi
          split at hi
          · cases hi; exact hgood
          · exact hx.node i m hi
        · intro i m b hi hb
          simp only [hget] at hi
          split at hi
          · rename_i hei
            subst hei
            cases hi; exact hx.base e n b hg hb
          · exact hx.base i m b hi hb
        · intro i hi
          simp only [hget] at hi
          split at hi
          · rename_i hei
            subst hei
            exact hx.names e (by rw [hg]; rfl)
          · exact hx.names i hi
        · intro i hi
          simp only [hget]
          split
          · rfl
          · exact hi
      · rename_i hne
        obtain ⟨a, b, -⟩ := hx.put (e.withSchema s)
          { n with deps := upsert n.deps k fun _ => { l with target := old.withSchema s },
                   base := some e }
          ⟨hgood.keyed, hgood.fits, by rintro _ ⟨⟩; exact he⟩ hs (by
            rintro _ ⟨⟩
            exact ⟨rfl, hne⟩)
        exact ⟨a, b⟩

theorem redirect_sound {s : Nat} (hs : s ≠ 0) (old : Id) : ∀ (es : List Id) (x : St × List Id),
    Sound x.1 → (∀ e ∈ es, ∃ name, e.name = .named name) →
    Sound (es.foldl (redirectOne s old) x).1 ∧ Grows x.1 (es.foldl (redirectOne s old) x).1 := by
  intro es
  induction es with
  | nil => intro x hx _; exact ⟨hx, .refl _⟩
  | cons e es ih =>
    intro x hx he
    obtain ⟨a, b⟩ := redirectOne_sound hs old hx (he e List.mem_cons_self)
    obtain ⟨c, d⟩ := ih _ a fun e' h' => he e' (List.mem_cons_of_mem _ h')
    exact ⟨c, b.trans d⟩

theorem Resolves.sound {s : Nat} (hs : s ≠ 0) {x : St × List Id} {st' : St}
    (h : Resolves s x st') : Sound x.1 → Sound st' ∧ Grows x.1 st' := by
  induction h with
  | done st => exact fun h => ⟨h, .refl _⟩
  | @round st todo old out listed st' _ _ _ _ ih =>
    intro hx
    obtain ⟨a, b⟩ := redirect_sound hs old (listed.map Id.ofText) (st, todo.filter (· ≠ old)) hx (by
      intro e he
      obtain ⟨t, -, rfl⟩ := List.mem_map.1 he
      exact ⟨_, rfl⟩)
    obtain ⟨c, d⟩ := ih a
    exact ⟨c, b.trans d⟩

theorem get_addSchema (c : Cache) (ns s t : Nat) : get (c.addSchema ns s).schemas t =
    if s = t then some ((get c.schemas t).getD { ns, schema := s }) else get c.schemas t := by
  unfold Cache.addSchema
  simp only
  rw [get_upsert]
  split
  · rename_i h; subst h; rfl
  · rfl

theorem addDep_entry (c : Cache) (s : Nat) (d : Dep) (t : Nat) (e : Entry) :
    (get c.schemas t = some e → ∃ e', get (c.addDep s d).schemas t = some e' ∧ e'.ns = e.ns ∧
      e'.schema = e.schema ∧ e'.types = e.types) ∧
    (get (c.addDep s d).schemas t = some e → ∃ e', get c.schemas t = some e' ∧ e'.ns = e.ns ∧
      e'.schema = e.schema ∧ e'.types = e.types) := by
  unfold Cache.addDep
  cases hg : get c.schemas s with
  | none => exact ⟨fun h => ⟨e, h, rfl, rfl, rfl⟩, fun h => ⟨e, h, rfl, rfl, rfl⟩⟩
  | some x =>
    simp only
    split
    · exact ⟨fun h => ⟨e, h, rfl, rfl, rfl⟩, fun h => ⟨e, h, rfl, rfl, rfl⟩⟩
    · simp only [get_upsert]
      by_cases hst : s = t
      · subst hst
        rw [if_pos rfl, hg]
        constructor
        · rintro ⟨⟩; exact ⟨_, rfl, rfl, rfl, rfl⟩
        · rintro ⟨⟩; exact ⟨_, rfl, rfl, rfl, rfl⟩
      · rw [if_neg hst]
        exact ⟨fun h => ⟨e, h, rfl, rfl, rfl⟩, fun h => ⟨e, h, rfl, rfl, rfl⟩⟩

/-- What the changes of the names keep. -/
def Wider (c c' : Cache) : Prop :=
  ((∀ t e, get c.schemas t = some e → e.schema = t) →
    ∀ t e, get c'.schemas t = some e → e.schema = t) ∧
  (∀ s key, Own c s key → Own c' s key) ∧
  (∀ s e, get c.schemas s = some e → ∃ e', get c'.schemas s = some e' ∧ e'.ns = e.ns)

theorem Wider.refl (c : Cache) : Wider c c :=
  ⟨fun h => h, fun _ _ h => h, fun _ e h => ⟨e, h, rfl⟩⟩

theorem Wider.trans {a b c : Cache} (h : Wider a b) (h' : Wider b c) : Wider a c := by
  refine ⟨fun x => h'.1 (h.1 x), fun s k x => h'.2.1 s k (h.2.1 s k x), ?_⟩
  intro s e he
  obtain ⟨e', he', hn⟩ := h.2.2 s e he
  obtain ⟨e'', he'', hn'⟩ := h'.2.2 s e' he'
  exact ⟨e'', he'', hn'.trans hn⟩

theorem Wider.known {c c' : Cache} (h : Wider c c') {s ns : Nat} (hk : Known c s ns) :
    Known c' s ns := by
  obtain ⟨e, he, hn⟩ := hk.known
  obtain ⟨e', he', hn'⟩ := h.2.2 s e he
  exact ⟨⟨e', he', hn'.trans hn⟩, h.1 hk.schema⟩

theorem wider_addSchema (c : Cache) (ns s : Nat) : Wider c (c.addSchema ns s) := by
  refine ⟨?_, ?_, ?_⟩
  · intro h t e he
    rw [get_addSchema] at he
    split at he
    · rename_i hst
      cases hg : get c.schemas t with
      | none => rw [hg] at he; cases he; exact hst
      | some x => rw [hg] at he; cases he; exact h t _ hg
    · exact h t e he
  · rintro t key ⟨e, he, hm⟩
    refine ⟨e, ?_, hm⟩
    rw [get_addSchema, he]
    split <;> rfl
  · intro t e he
    refine ⟨e, ?_, rfl⟩
    rw [get_addSchema, he]
    split <;> rfl

theorem wider_addDep (c : Cache) (s : Nat) (d : Dep) : Wider c (c.addDep s d) := by
  refine ⟨?_, ?_, ?_⟩
  · intro h t e he
    obtain ⟨e', he', -, hs, -⟩ := (addDep_entry c s d t e).2 he
    rw [← hs]; exact h t e' he'
  · rintro t key ⟨e, he, hm⟩
    obtain ⟨e', he', -, -, ht⟩ := (addDep_entry c s d t e).1 he
    exact ⟨e', he', by rw [ht]; exact hm⟩
  · intro t e he
    obtain ⟨e', he', hn, -, -⟩ := (addDep_entry c s d t e).1 he
    exact ⟨e', he', hn⟩

theorem wider_addGlobal (c : Cache) (ns : Nat) : Wider c (c.addGlobal ns) := .refl c

theorem wider_insert (c : Cache) (i : TIdent) : Wider c (c.insert i) := by
  by_cases hi : i.schema = 0
  · unfold Cache.insert
    simp only [hi, if_true]
    exact .refl c
  · refine ⟨insert_schema c i hi, (own_insert c i hi).2, ?_⟩
    intro s e he
    by_cases his : i.schema = s
    · refine ⟨_, by rw [get_insert c i hi, if_pos his], ?_⟩
      rw [he]; rfl
    · exact ⟨e, by rw [get_insert c i hi, if_neg his]; exact he, rfl⟩

theorem wider_fold {A : Type} (f : Cache → A → Cache) (hf : ∀ c a, Wider c (f c a)) :
    ∀ (l : List A) (c : Cache), Wider c (l.foldl f c) := by
  intro l
  induction l with
  | nil => exact fun c => .refl c
  | cons a l ih => exact fun c => (hf c a).trans (ih _)

theorem Sound.wider {st : St} (h : Sound st) {c : Cache} (hw : Wider st.idents c)
    (p : List Nat) : Sound { st with idents := c, processed := p } ∧
      Grows st { st with idents := c, processed := p } :=
  ⟨⟨hw.1 h.schema, h.node, h.base, fun i hi => hw.2.1 _ _ (h.names i hi)⟩,
    fun s k ho => hw.2.1 s k ho, fun s ns hk => hw.known hk, fun _ hi => hi⟩

/-- What is asked of the documents: every document has its own number, no number is 0, and a
document does not redefine itself. -/
structure Docs.Ok (D : Docs) : Prop where
  keyed : Keyed D.docs
  ids : ∀ id d, get D.docs id = some d → id ≠ 0 ∧ d.ns ≠ 0
  comps : ∀ id d, get D.docs id = some d → ∀ c, .comp c ∈ d.content → OkItems c.body
  redefines : ∀ id d, get D.docs id = some d → ∀ loc cs, .redefine loc cs ∈ d.content →
    (∀ c ∈ cs, OkItems c.body) ∧ ∀ b, get d.deps loc = some b → b.target ≠ id

/-- A state of the run. -/
structure Run (D : Docs) (st : St) : Prop where
  sound : Sound st
  known : ∀ id d, get D.docs id = some d → Known st.idents id d.ns

theorem Run.grows {D : Docs} {st st' : St} (h : Run D st) (hs : Sound st') (hg : Grows st st') :
    Run D st' := ⟨hs, fun id d hd => hg.2.1 _ _ (h.known id d hd)⟩

/-- What happened to a document: its redefinitions were resolved in a state that fits, and its own
components were stored. -/
def Done (unify : Txt → Txt) (D : Docs) (id : Nat) : Prop :=
  ∀ d, get D.docs id = some d →
    (∀ loc cs b, .redefine loc cs ∈ d.content → get d.deps loc = some b →
      ∃ st st₁ st₂, Run D st ∧ newEntries unify id d.ns (some b.target) st cs = .ok st₁ ∧
        Ready id d.ns st₁ (olds d.ns b.target cs) ∧ Resolves id (st₁, olds d.ns b.target cs) st₂ ∧
        Run D st₂) ∧
    (∀ c, .comp c ∈ d.content → ∃ st st₁, Run D st ∧ newEntry unify id d.ns none st c = .ok st₁ ∧
      Run D st₁)

mutual

theorem processItem_processed (unify : Txt → Txt) (s ns : Nat) : ∀ (i : Item) (stack : List Frame)
    (n : Node) (st : St) (r : Node × St), processItem unify s ns stack n st i = .ok r →
    r.2.processed = st.processed
  | .ref .., stack, n, st, r, h => by
    simp only [processItem] at h
    split at h
    · cases h
    · cases h; rfl
  | .group body, stack, n, st, r, h => by
    simp only [processItem] at h
    exact processItems_processed unify s ns body _ n st r h
  | .inline label kind from_ body, stack, n, st, r, h => by
    simp only [processItem] at h
    split at h
    · cases h
    · rename_i m st1 hm
      cases h
      exact processItems_processed unify s ns body _ _ st (m, st1) hm

theorem processItems_processed (unify : Txt → Txt) (s ns : Nat) : ∀ (is : List Item)
    (stack : List Frame) (n : Node) (st : St) (r : Node × St),
    processItems unify s ns stack n st is = .ok r → r.2.processed = st.processed
  | [], stack, n, st, r, h => by
    simp only [processItems, Except.ok.injEq] at h
    subst h; rfl
  | i :: is, stack, n, st, r, h => by
    simp only [processItems] at h
    split at h
    · cases h
    · rename_i n1 st1 h1
      exact (processItems_processed unify s ns is stack n1 st1 r h).trans
        (processItem_processed unify s ns i stack n st (n1, st1) h1)

end

theorem newEntry_processed (unify : Txt → Txt) (s ns : Nat) (base : Option Nat) {st st' : St}
    {c : Comp} (h : newEntry unify s ns base st c = .ok st') : st'.processed = st.processed := by
  unfold newEntry at h
  simp only at h
  split at h
  · cases h
  · rename_i n st1 h1
    cases h
    exact processItems_processed unify s ns _ _ _ _ (n, st1) h1

theorem newEntries_processed (unify : Txt → Txt) (s ns : Nat) (base : Option Nat) :
    ∀ (cs : List Comp) {st st' : St}, newEntries unify s ns base st cs = .ok st' →
    st'.processed = st.processed := by
  intro cs
  induction cs with
  | nil => intro st st' h; simp only [newEntries, Except.ok.injEq] at h; subst h; rfl
  | cons c cs ih =>
    intro st st' h
    simp only [newEntries] at h
    split at h
    · cases h
    · rename_i st1 h1
      exact (ih h).trans (newEntry_processed unify s ns base h1)

theorem redirect_processed (s : Nat) (old : Id) : ∀ (es : List Id) (x : St × List Id),
    (es.foldl (redirectOne s old) x).1.processed = x.1.processed := by
  intro es
  induction es with
  | nil => intro x; rfl
  | cons e es ih =>
    intro x
    rw [List.foldl_cons, ih]
    unfold redirectOne
    split
    · rfl
    · split
      · rfl
      · simp only
        split <;> rfl

theorem Resolves.processed {s : Nat} {x : St × List Id} {st' : St} (h : Resolves s x st') :
    st'.processed = x.1.processed := by
  induction h with
  | done st => rfl
  | round _ _ _ _ ih => exact ih.trans (redirect_processed s _ _ _)

theorem processRedefine_run (unify : Txt → Txt) {D : Docs} {id : Nat} {d : Doc}
    (hD : D.Ok) (hd : get D.docs id = some d) {loc : Txt} {cs : List Comp} {b : Dep}
    (hm : .redefine loc cs ∈ d.content) (hb : get d.deps loc = some b) {st st' : St}
    (hst : Run D st) (h : processRedefine unify id d.ns b.target st cs = .ok st') :
    Run D st' ∧ st'.processed = st.processed ∧ ∃ st₁,
      newEntries unify id d.ns (some b.target) st cs = .ok st₁ ∧
      Ready id d.ns st₁ (olds d.ns b.target cs) ∧ Resolves id (st₁, olds d.ns b.target cs) st' := by
  obtain ⟨h0, hns⟩ := hD.ids id d hd
  obtain ⟨hok, hne⟩ := hD.redefines id d hd loc cs hm
  unfold processRedefine at h
  split at h
  · cases h
  · rename_i st₁ h₁
    simp only at h
    split at h
    · cases h
    · rename_i st₂ h₂
      cases h
      have hr := resolveDeps_resolves id _ _ _ h₂
      have hready := C84_ready unify h0 hns (hne b hb) hok hst.sound (hst.known id d hd) h₁
      obtain ⟨a1, a2, -, -⟩ := newEntries_spec unify h0 hns (some b.target)
        (by rintro _ ⟨⟩; exact hne b hb) cs hok hst.sound (hst.known id d hd) h₁
      obtain ⟨b1, b2⟩ := hr.sound h0 a1
      exact ⟨hst.grows b1 (a2.trans b2),
        hr.processed.trans (newEntries_processed unify id d.ns _ cs h₁), st₁, h₁, hready, hr⟩

/-- What a part of the run keeps. -/
def Goes (unify : Txt → Txt) (D : Docs) (st st' : St) : Prop :=
  Run D st' ∧ (∀ x ∈ st.processed, x ∈ st'.processed) ∧
  ∀ x ∈ st'.processed, x ∈ st.processed ∨ Done unify D x

theorem Goes.trans {unify : Txt → Txt} {D : Docs} {a b c : St} (h : Goes unify D a b)
    (h' : Goes unify D b c) : Goes unify D a c := by
  refine ⟨h'.1, fun x hx => h'.2.1 x (h.2.1 x hx), ?_⟩
  intro x hx
  rcases h'.2.2 x hx with hx | hx
  · exact h.2.2 x hx
  · exact .inr hx

theorem imports_goes (unify : Txt → Txt) {D : Docs} (hD : D.Ok)
    {process : Nat → St → Except Err St}
    (hp : ∀ id st st', Run D st → process id st = .ok st' → Goes unify D st st')
    {id : Nat} {d : Doc} (hd : get D.docs id = some d) : ∀ (cs : List Content) (st st' : St),
    (∀ c ∈ cs, c ∈ d.content) → Run D st →
    processSchema.imports unify process id d st cs = .ok st' → Goes unify D st st' ∧
    ∀ loc comps b, .redefine loc comps ∈ cs → get d.deps loc = some b →
      ∃ st st₁ st₂, Run D st ∧ newEntries unify id d.ns (some b.target) st comps = .ok st₁ ∧
        Ready id d.ns st₁ (olds d.ns b.target comps) ∧
        Resolves id (st₁, olds d.ns b.target comps) st₂ ∧ Run D st₂ := by
  intro cs
  induction cs with
  | nil =>
    intro st st' _ hst h
    simp only [processSchema.imports, Except.ok.injEq] at h
    subst h
    exact ⟨⟨hst, fun _ h => h, fun _ h => .inl h⟩, fun loc comps b hm => by cases hm⟩
  | cons c cs ih =>
    intro st st' hsub hst h
    have hsub' : ∀ c ∈ cs, c ∈ d.content := fun c hc => hsub c (List.mem_cons_of_mem _ hc)
    cases c with
    | comp c =>
      simp only [processSchema.imports] at h
      obtain ⟨a, b⟩ := ih st st' hsub' hst h
      refine ⟨a, fun loc comps x hm => ?_⟩
      rcases List.mem_cons.1 hm with hm | hm
      · cases hm
      · exact b loc comps x hm
    | load loc' =>
      simp only [processSchema.imports] at h
      have hgo : Goes unify D st st' ∧ ∀ loc comps b, .redefine loc comps ∈ cs →
          get d.deps loc = some b →
          ∃ st st₁ st₂, Run D st ∧ newEntries unify id d.ns (some b.target) st comps = .ok st₁ ∧
            Ready id d.ns st₁ (olds d.ns b.target comps) ∧
            Resolves id (st₁, olds d.ns b.target comps) st₂ ∧ Run D st₂ := by
        split at h
        · exact ih st st' hsub' hst h
        · split at h
          · cases h
          · rename_i st1 h1
            have g1 := hp _ _ _ hst h1
            obtain ⟨a, b⟩ := ih st1 st' hsub' g1.1 h
            exact ⟨g1.trans a, b⟩
      refine ⟨hgo.1, fun loc comps x hm => ?_⟩
      rcases List.mem_cons.1 hm with hm | hm
      · cases hm
      · exact hgo.2 loc comps x hm
    | redefine loc' comps' =>
      simp only [processSchema.imports] at h
      split at h
      · rename_i hnone
        obtain ⟨a, b⟩ := ih st st' hsub' hst h
        refine ⟨a, fun loc comps x hm hx => ?_⟩
        rcases List.mem_cons.1 hm with hm | hm
        · cases hm; rw [hnone] at hx; cases hx
        · exact b loc comps x hm hx
      · rename_i base hbase
        split at h
        · cases h
        · rename_i st1 h1
          have g1 := hp _ _ _ hst h1
          split at h
          · cases h
          · rename_i st2 h2
            obtain ⟨r1, r2, sn, r3, r4, r5⟩ := processRedefine_run unify hD hd
              (hsub _ List.mem_cons_self) hbase g1.1 h2
            have g2 : Goes unify D st1 st2 :=
              ⟨r1, fun x hx => by rw [r2]; exact hx, fun x hx => .inl (by rw [← r2]; exact hx)⟩
            obtain ⟨a, b⟩ := ih st2 st' hsub' r1 h
            refine ⟨(g1.trans g2).trans a, fun loc comps x hm hx => ?_⟩
            rcases List.mem_cons.1 hm with hm | hm
            · cases hm
              rw [hbase] at hx
              cases hx
              exact ⟨st1, sn, st2, g1.1, r3, r4, r5, r1⟩
            · exact b loc comps x hm hx

theorem content_goes (unify : Txt → Txt) {D : Docs} (hD : D.Ok)
    {id : Nat} {d : Doc} (hd : get D.docs id = some d) : ∀ (cs : List Content) (st st' : St),
    (∀ c ∈ cs, c ∈ d.content) → Run D st →
    processSchema.content unify id d st cs = .ok st' → Goes unify D st st' ∧
    ∀ c, .comp c ∈ cs → ∃ st st₁, Run D st ∧ newEntry unify id d.ns none st c = .ok st₁ ∧
      Run D st₁ := by
  intro cs
  induction cs with
  | nil =>
    intro st st' _ hst h
    simp only [processSchema.content, Except.ok.injEq] at h
    subst h
    exact ⟨⟨hst, fun _ h => h, fun _ h => .inl h⟩, fun c hm => by cases hm⟩
  | cons c cs ih =>
    intro st st' hsub hst h
    have hsub' : ∀ c ∈ cs, c ∈ d.content := fun c hc => hsub c (List.mem_cons_of_mem _ hc)
    cases c with
    | comp c =>
      simp only [processSchema.content] at h
      split at h
      · cases h
      · rename_i st1 h1
        obtain ⟨h0, hns⟩ := hD.ids id d hd
        obtain ⟨a1, a2, -⟩ := newEntry_spec unify h0 hns none (by rintro _ ⟨⟩)
          (hD.comps id d hd c (hsub _ List.mem_cons_self)) hst.sound (hst.known id d hd) h1
        have hrun := hst.grows a1 a2
        have hpr := newEntry_processed unify id d.ns none h1
        obtain ⟨a, b⟩ := ih st1 st' hsub' hrun h
        refine ⟨Goes.trans ⟨hrun, fun x hx => by rw [hpr]; exact hx,
          fun x hx => .inl (by rw [← hpr]; exact hx)⟩ a, fun c' hm => ?_⟩
        rcases List.mem_cons.1 hm with hm | hm
        · cases hm; exact ⟨st, st1, hst, h1, hrun⟩
        · exact b c' hm
    | load loc' =>
      simp only [processSchema.content] at h
      obtain ⟨a, b⟩ := ih st st' hsub' hst h
      refine ⟨a, fun c' hm => ?_⟩
      rcases List.mem_cons.1 hm with hm | hm
      · cases hm
      · exact b c' hm
    | redefine loc' comps' =>
      simp only [processSchema.content] at h
      obtain ⟨a, b⟩ := ih st st' hsub' hst h
      refine ⟨a, fun c' hm => ?_⟩
      rcases List.mem_cons.1 hm with hm | hm
      · cases hm
      · exact b c' hm

theorem processSchema_goes (unify : Txt → Txt) {D : Docs} (hD : D.Ok) : ∀ (fuel id : Nat)
    (st st' : St), Run D st → processSchema unify D fuel id st = .ok st' →
    Goes unify D st st' ∧ id ∈ st'.processed := by
  intro fuel
  induction fuel with
  | zero => intro id st st' _ h; simp [processSchema] at h
  | succ fuel ih =>
    intro id st st' hst h
    simp only [processSchema] at h
    split at h
    · rename_i hm
      cases h
      exact ⟨⟨hst, fun _ h => h, fun _ h => .inl h⟩, hm⟩
    · split at h
      · cases h
      · rename_i d hd
        split at h
        · cases h
        · rename_i st1 h1
          have hw : Wider st.idents
              (d.deps.foldl (fun c x => c.addDep id x.2) (st.idents.addSchema d.ns id)) :=
            (wider_addSchema _ _ _).trans (wider_fold _ (fun c (a : Txt × Dep) => wider_addDep c id a.2) _ _)
          obtain ⟨s0, g0⟩ := hst.sound.wider hw (id :: st.processed)
          have r0 := hst.grows s0 g0
          obtain ⟨g1, d1⟩ := imports_goes unify hD
            (fun i s s' hs hp => (ih i s s' hs hp).1) hd d.content _ st1 (fun _ h => h) r0 h1
          obtain ⟨g2, d2⟩ := content_goes unify hD hd d.content st1 st' (fun _ h => h) g1.1 h
          have hdone : Done unify D id := by
            intro d' hd'
            rw [hd] at hd'
            cases hd'
            exact ⟨d1, d2⟩
          have g := g1.trans g2
          refine ⟨⟨g.1, fun x hx => g.2.1 x (List.mem_cons_of_mem _ hx), ?_⟩,
            g.2.1 id List.mem_cons_self⟩
          intro x hx
          rcases g.2.2 x hx with hx | hx
          · rcases List.mem_cons.1 hx with rfl | hx
            · exact .inr hdone
            · exact .inl hx
          · exact .inr hx

theorem processAll_goes (unify : Txt → Txt) {D : Docs} (hD : D.Ok) : ∀ (ds : List (Nat × Doc))
    (st st' : St), Run D st → processAll unify D ds st = .ok st' →
    Goes unify D st st' ∧ ∀ d ∈ ds, d.1 ∈ st'.processed := by
  intro ds
  induction ds with
  | nil =>
    intro st st' hst h
    simp only [processAll, Except.ok.injEq] at h
    subst h
    exact ⟨⟨hst, fun _ h => h, fun _ h => .inl h⟩, fun d hd => by cases hd⟩
  | cons d ds ih =>
    intro st st' hst h
    simp only [processAll] at h
    split at h
    · cases h
    · rename_i st1 h1
      obtain ⟨g1, m1⟩ := processSchema_goes unify hD _ _ _ _ hst h1
      obtain ⟨g2, m2⟩ := ih st1 st' g1.1 h
      refine ⟨g1.trans g2, fun x hx => ?_⟩
      rcases List.mem_cons.1 hx with rfl | hx
      · exact g2.2.1 _ m1
      · exact m2 x hx

theorem known_schemas : ∀ (ds : List (Nat × Doc)) (c : Cache), Keyed ds →
    (∀ t e, get c.schemas t = some e → e.schema = t) →
    (∀ d ∈ ds, get c.schemas d.1 = none) →
    ∀ d ∈ ds, Known (ds.foldl (fun c d => c.addSchema d.2.ns d.1) c) d.1 d.2.ns := by
  intro ds
  induction ds with
  | nil => intro c _ _ _ d hd; cases hd
  | cons x ds ih =>
    intro c hk hs hn d hd
    have hk' : Keyed ds ∧ ∀ d ∈ ds, d.1 ≠ x.1 := by
      have hk : (x.1 :: ds.map Prod.fst).Nodup := hk
      rw [List.nodup_cons] at hk
      exact ⟨hk.2, fun d hd he => hk.1 (by rw [← he]; exact List.mem_map_of_mem hd)⟩
    have hs' := (wider_addSchema c x.2.ns x.1).1 hs
    rw [List.foldl_cons]
    rcases List.mem_cons.1 hd with rfl | hd
    · refine (wider_fold _ (fun c (a : Nat × Doc) => wider_addSchema c a.2.ns a.1) ds _).known
        ⟨⟨{ ns := d.2.ns, schema := d.1 }, ?_, rfl⟩, hs'⟩
      rw [get_addSchema, if_pos rfl, hn d List.mem_cons_self]
      rfl
    · refine ih _ hk'.1 hs' ?_ d hd
      intro y hy
      rw [get_addSchema, if_neg fun h => hk'.2 y hy h.symm]
      exact hn y (List.mem_cons_of_mem _ hy)

/-- **C84** In every run that ends, for every document: each of its redefinitions was resolved in
a state that meets the conditions of `C84_redefined_partial`, and each of its own components was
stored in a state in which the redefinitions are known. -/
theorem C84_every_redefinition (unify : Txt → Txt) {D : Docs} (hD : D.Ok) (builtin : List TIdent)
    {st : St} (h : createNodeCache unify D builtin = .ok st) :
    Run D st ∧ ∀ d ∈ D.docs, Done unify D d.1 := by
  have h0 : ∀ d ∈ D.docs, Known (D.docs.foldl (fun c d => c.addSchema d.2.ns d.1) {}) d.1 d.2.ns :=
    known_schemas D.docs {} hD.keyed (fun t e he => by cases he) fun d _ => rfl
  have hw0 : Wider ({} : Cache) (D.docs.foldl (fun c d => c.addSchema d.2.ns d.1) {}) :=
    wider_fold _ (fun c (a : Nat × Doc) => wider_addSchema c a.2.ns a.1) _ _
  have hw : Wider (D.docs.foldl (fun c d => c.addSchema d.2.ns d.1) {})
      (D.globals.foldl Cache.addGlobal (builtin.foldl Cache.insert (createIdentCache D {}))) := by
    refine Wider.trans (Wider.trans ?_ (wider_fold _ wider_insert builtin _))
      (wider_fold _ wider_addGlobal D.globals _)
    unfold createIdentCache
    refine Wider.trans (wider_fold _ wider_addGlobal D.globals _) (wider_fold _ ?_ D.docs _)
    intro c d
    exact (wider_fold _ (fun c (a : Txt × Dep) => wider_addDep c d.1 a.2) d.2.deps c).trans
      (wider_fold _ wider_insert _ _)
  have hrun : Run D { idents := (D.globals.foldl Cache.addGlobal
      (builtin.foldl Cache.insert (createIdentCache D {})) : Cache) } := by
    refine ⟨⟨hw.1 (hw0.1 fun t e he => by cases he), (fun i n hi => by cases hi),
      (fun i n b hi => by cases hi), (fun i hi => by cases hi)⟩, ?_⟩
    intro id d hd
    exact hw.known (h0 (id, d) (mem_of_get hd))
  obtain ⟨g, m⟩ := processAll_goes unify hD D.docs _ st hrun h
  refine ⟨g.1, fun d hd => ?_⟩
  rcases g.2.2 d.1 (m d hd) with hx | hx
  · cases hx
  · exact hx

/-- **C84** A component of the document itself that is stored after the redefinitions refers to
the new components: nothing that it refers to in its namespace is a replaced component. -/
theorem C84_later_components_partial (unify : Txt → Txt) {s ns : Nat} (hs : s ≠ 0) (hns : ns ≠ 0)
    {st₁ : St} {todo : List Id} (hready : Ready s ns st₁ todo) (hsame : SameNamespace s ns st₁ todo)
    (htodo : ∀ o ∈ todo, o.ns = ns) {st₂ : St} (hr : Resolves s (st₁, todo) st₂) (hst₂ : Sound st₂)
    {st st' : St} (hst : Sound st) (hk : Known st.idents s ns) (hlater : Grows st₂ st)
    {c : Comp} (hc : OkItems c.body) (h : newEntry unify s ns none st c = .ok st') :
    ∃ n, get st'.nodes (c.ident ns s) = some n ∧ n.label = c.label ∧
      ∀ d ∈ n.deps, ¬ Replaced s st₁ todo d.2.target := by
  obtain ⟨a1, -, -, n, hn, hl, hbase, hown⟩ := newEntry_spec unify hs hns none (by rintro _ ⟨⟩) hc
    hst hk h
  refine ⟨n, hn, hl, ?_⟩
  intro d hd hrep
  obtain ⟨-, b, -⟩ := C84_redefined_partial hready hsame hr
  obtain ⟨hsome, -⟩ := b _ hrep
  have hown' : Own st.idents s (d.2.target.kind, d.2.target.name.str) :=
    hlater.1 _ _ (hst₂.names _ hsome)
  have hrns : d.2.target.ns = ns := by
    rcases Classical.em (d.2.target ∈ todo) with ht | ht
    · exact htodo _ ht
    · exact hsame _ hrep ht
  have hsch : d.2.target.schema ≠ s ∧ ∃ name, d.2.target.name = .named name := by
    generalize d.2.target = i at hrep
    cases hrep with
    | redefined h => exact ⟨(hready.todo _ h).1, (hready.todo _ h).2.1⟩
    | refers _ _ h _ _ _ _ => exact ⟨h, _, rfl⟩
  have hf := (a1.node _ _ hn).fits d hd
  obtain ⟨k, l⟩ := d
  simp only at *
  obtain ⟨name, hname⟩ := hsch.2
  cases k with
  | inline lb =>
    obtain ⟨g, hg⟩ := hf
    rw [hname] at hg
    cases hg
  | named rns kind nm =>
    obtain ⟨f1, f2, f3⟩ := hf
    rw [hrns] at f1
    subst f1
    rcases hown (.named _ kind nm, l) hd kind nm rfl (by
      rw [f2, f3] at hown'; exact hown') with ht | ht
    · exact hsch.1 (by rw [ht])
    · rw [hbase] at ht; cases ht

end Verif.NodeCache

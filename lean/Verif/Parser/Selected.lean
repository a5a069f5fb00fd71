import Verif.Parser.ConfigIdents

/-!
# The types that are selected for generation (C101)

Models the last part of `exec_generator_with_ident_cache` (lib.rs 354-426): the user defined types of the configuration and the
choice what to generate, with `Generator::with_type` (pipeline/generator/mod.rs 263-277), `generate_type` (344-350),
`generate_all_types` (368-376), `generate_named_types` (395-406) and `get_or_create_type_ref_mut` (440-455), in `xsd-parser/src`.

Only what is requested directly is modelled; what is added for the members of these types is in `Verif.Generate.Worklist` (there
`generate_pending` runs once at the end; for a list of types it runs after each of them, which requests nothing of the list itself).
-/

namespace Verif.Parser.Selected

open Verif.Assoc Verif.Parser.ConfigIdents

/-! ## Model -/

/-- Why the generator stops: an identifier that is not resolved by the schemas (`triple.resolve`), one that is not resolved by the
cache of identifiers (`ident_cache.resolve`), `Error::UnknownType` (pipeline/generator/mod.rs 469). -/
inductive Stop where
  | config (e : Err)
  | cache (i : Ident)
  | unknownType (i : Ident)
deriving Repr

/-- `Generate` (config/generator.rs 407-416). -/
inductive Generate where
  | all
  | named
  | types (qs : List Quad)

/-- The keys of `State::cache` and the identifiers in `State::pending` (pipeline/generator/mod.rs 440-455, 516-519). -/
structure State where
  known : List Ident
  pending : List Ident
deriving Repr

/-- `is_named` of a name. -/
def isNamed : Name → Bool
  | .named _ => true
  | .generated _ => false

/-- `with_type` (pipeline/generator/mod.rs 263-277): the identifier gets a fixed reference and is not queued. -/
def withType (st : State) (i : Ident) : State := { st with known := i :: st.known }

/-- `get_or_create_type_ref_mut` and `create_type_ref` (pipeline/generator/mod.rs 440-525), without the reference itself. -/
def request (table : List Ident) (st : State) (i : Ident) : Except Stop State :=
  if i ∈ st.known then .ok st
  else if i ∈ table then .ok ⟨i :: st.known, st.pending ++ [i]⟩
  else .error (.unknownType i)

/-- The loops of `generate_all_types` and `generate_named_types` (pipeline/generator/mod.rs 369-372, 397-402). -/
def requestAll (table : List Ident) : State → List Ident → Except Stop State
  | st, [] => .ok st
  | st, i :: is => match request table st i with
    | .error e => .error e
    | .ok st' => requestAll table st' is

/-- `for triple in config.types` (lib.rs 401-408). The cache of identifiers is a parameter: what it finds for an identifier. -/
def userTypes (S : Schemas) (cache : Option (Ident → Option Ident)) : State → List Quad → Except Stop State
  | st, [] => .ok st
  | st, q :: qs => match resolve S q with
    | .error e => .error (.config e)
    | .ok i => match cache with
      | none => userTypes S cache (withType st i) qs
      | some f => match f i with
        | none => .error (.cache i)
        | some j => userTypes S cache (withType st j) qs

/-- `Generate::Types` (lib.rs 414-420). -/
def requestTypes (S : Schemas) (table : List Ident) : State → List Quad → Except Stop State
  | st, [] => .ok st
  | st, q :: qs => match resolve S q with
    | .error e => .error (.config e)
    | .ok i => match request table st i with
      | .error e => .error e
      | .ok st' => requestTypes S table st' qs

/-- `match config.generate` (lib.rs 411-421). -/
def generate (S : Schemas) (table : List Ident) (st : State) : Generate → Except Stop State
  | .all => requestAll table st table
  | .named => requestAll table st (table.filter fun i => isNamed i.name)
  | .types qs => requestTypes S table st qs

/-- `exec_generator_with_ident_cache` (lib.rs 401-421): the types that are queued. `table` are the keys of the type information. -/
def exec (S : Schemas) (cache : Option (Ident → Option Ident)) (user : List Quad) (g : Generate) (table : List Ident) :
    Except Stop (List Ident) :=
  match userTypes S cache ⟨[], []⟩ user with
  | .error e => .error e
  | .ok st => match generate S table st g with
    | .error e => .error e
    | .ok st' => .ok st'.pending

/-! ## Specification -/

/-- The component that an identifier of the list of user defined types stands for. -/
def Stands (S : Schemas) (cache : Option (Ident → Option Ident)) (q : Quad) (i : Ident) : Prop :=
  ∃ k, resolve S q = .ok k ∧ match cache with
    | none => i = k
    | some f => f k = some i

/-- `i` is provided by the user. -/
def ByUser (S : Schemas) (cache : Option (Ident → Option Ident)) (user : List Quad) (i : Ident) : Prop :=
  ∃ q ∈ user, Stands S cache q i

/-- `i` is asked for by the configuration. -/
def Asked (S : Schemas) (table : List Ident) : Generate → Ident → Prop
  | .all, i => i ∈ table
  | .named, i => i ∈ table ∧ ∃ s, i.name = .named s
  | .types qs, i => ∃ q ∈ qs, resolve S q = .ok i

/-! ## Proofs -/

theorem exists_cons {α : Type} {p : α → Prop} {a : α} {l : List α} : (∃ x, x ∈ a :: l ∧ p x) ↔ p a ∨ ∃ x, x ∈ l ∧ p x := by
  simp

/-- What a sequence of requests leads to. -/
structure Leads (table : List Ident) (st : State) (req : Ident → Prop) (st' : State) : Prop where
  known : ∀ i, i ∈ st'.known ↔ i ∈ st.known ∨ req i
  pending : ∀ i, i ∈ st'.pending ↔ i ∈ st.pending ∨ req i ∧ i ∉ st.known
  nodup : (∀ i ∈ st.pending, i ∈ st.known) → st.pending.Nodup → st'.pending.Nodup
  sub : (∀ i ∈ st.pending, i ∈ st.known) → ∀ i ∈ st'.pending, i ∈ st'.known
  ok : ∀ i, req i → i ∈ table ∨ i ∈ st.known

theorem leads_nil (table : List Ident) (st : State) {req : Ident → Prop} (h : ∀ i, ¬ req i) : Leads table st req st :=
  ⟨fun i => by simp [h i], fun i => by simp [h i], fun _ h => h, fun h => h, fun i hi => absurd hi (h i)⟩

theorem leads_request {table : List Ident} {st st' : State} {i : Ident} (h : request table st i = .ok st') :
    Leads table st (· = i) st' := by
  unfold request at h
  by_cases hk : i ∈ st.known
  · rw [if_pos hk] at h
    cases h
    refine ⟨fun j => ⟨.inl, ?_⟩, fun j => ⟨.inl, ?_⟩, fun _ h => h, fun h => h, ?_⟩
    · rintro (h | rfl)
      · exact h
      · exact hk
    · rintro (h | ⟨rfl, h⟩)
      · exact h
      · exact absurd hk h
    · rintro j rfl
      exact .inr hk
  · rw [if_neg hk] at h
    by_cases ht : i ∈ table
    · rw [if_pos ht] at h
      cases h
      refine ⟨fun j => ?_, fun j => ?_, fun hs hn => ?_, fun hs j hj => ?_, ?_⟩
      · simp only [List.mem_cons]
        exact Or.comm
      · simp only [List.mem_append, List.mem_singleton]
        constructor
        · rintro (h | rfl)
          · exact .inl h
          · exact .inr ⟨rfl, hk⟩
        · rintro (h | ⟨h, -⟩)
          · exact .inl h
          · exact .inr h
      · rw [List.nodup_append]
        refine ⟨hn, by simp, fun a ha b hb => ?_⟩
        simp only [List.mem_singleton] at hb
        subst hb
        rintro rfl
        exact hk (hs _ ha)
      · simp only [List.mem_append, List.mem_singleton] at hj
        rcases hj with hj | rfl
        · exact List.mem_cons_of_mem _ (hs _ hj)
        · exact List.mem_cons_self
      · rintro j rfl
        exact .inl ht
    · rw [if_neg ht] at h
      cases h

theorem leads_trans {table : List Ident} {a b c : State} {p q r : Ident → Prop} (h1 : Leads table a p b)
    (h2 : Leads table b q c) (hr : ∀ i, r i ↔ p i ∨ q i) : Leads table a r c := by
  refine ⟨fun i => ?_, fun i => ?_, fun hs hn => h2.nodup (h1.sub hs) (h1.nodup hs hn), fun hs => h2.sub (h1.sub hs), fun i hi => ?_⟩
  · rw [h2.known, h1.known, hr, or_assoc]
  · rw [h2.pending, h1.pending, h1.known, hr]
    by_cases hp : p i <;> by_cases hk : i ∈ a.known <;> simp [hp, hk]
  · rcases (hr i).1 hi with h | h
    · exact h1.ok i h
    · rcases h2.ok i h with h | h
      · exact .inl h
      · rcases (h1.known i).1 h with h | h
        · exact .inr h
        · exact h1.ok i h

theorem request_fails {table : List Ident} {st : State} {i : Ident} {e : Stop} (h : request table st i = .error e) :
    i ∉ table ∧ i ∉ st.known := by
  unfold request at h
  by_cases hk : i ∈ st.known
  · rw [if_pos hk] at h; cases h
  · by_cases ht : i ∈ table
    · rw [if_neg hk, if_pos ht] at h; cases h
    · exact ⟨ht, hk⟩

theorem leads_all {table : List Ident} : ∀ (is : List Ident) (st : State), (∀ i ∈ is, i ∈ table) →
    ∃ st', requestAll table st is = .ok st' ∧ Leads table st (· ∈ is) st' := by
  intro is
  induction is with
  | nil => exact fun st _ => ⟨st, rfl, leads_nil table st (by simp)⟩
  | cons i is ih =>
    intro st hi
    cases h : request table st i with
    | error e => exact absurd (hi i List.mem_cons_self) (request_fails h).1
    | ok st1 =>
      obtain ⟨st2, h2, l2⟩ := ih st1 fun j hj => hi j (List.mem_cons_of_mem _ hj)
      exact ⟨st2, by simp [requestAll, h, h2], leads_trans (leads_request h) l2 fun j => by simp⟩

theorem leads_types {S : Schemas} {table : List Ident} : ∀ (qs : List Quad) (st st' : State),
    requestTypes S table st qs = .ok st' → Leads table st (fun i => ∃ q ∈ qs, resolve S q = .ok i) st' ∧
      ∀ q ∈ qs, ∃ i, resolve S q = .ok i := by
  intro qs
  induction qs with
  | nil =>
    intro st st' h
    cases h
    exact ⟨leads_nil table st (by simp), by simp⟩
  | cons q qs ih =>
    intro st st' h
    unfold requestTypes at h
    cases hq : resolve S q with
    | error e => simp [hq] at h
    | ok i =>
      cases hr : request table st i with
      | error e => simp [hq, hr] at h
      | ok st1 =>
        simp only [hq, hr] at h
        obtain ⟨l2, h2⟩ := ih st1 st' h
        refine ⟨leads_trans (leads_request hr) l2 fun j => ?_, ?_⟩
        · rw [exists_cons, hq, Except.ok.injEq]
          exact or_congr_left eq_comm
        · rintro q' hq'
          rcases List.mem_cons.1 hq' with rfl | hq'
          · exact ⟨i, hq⟩
          · exact h2 q' hq'

theorem types_succeed {S : Schemas} {table : List Ident} : ∀ (qs : List Quad) (st : State),
    (∀ q ∈ qs, ∃ i, resolve S q = .ok i ∧ (i ∈ table ∨ i ∈ st.known)) → ∃ st', requestTypes S table st qs = .ok st' := by
  intro qs
  induction qs with
  | nil => exact fun st _ => ⟨st, rfl⟩
  | cons q qs ih =>
    intro st h
    obtain ⟨i, hq, hi⟩ := h q List.mem_cons_self
    cases hr : request table st i with
    | error e =>
      obtain ⟨h1, h2⟩ := request_fails hr
      exact absurd hi (by simp [h1, h2])
    | ok st1 =>
      obtain ⟨st2, h2⟩ := ih st1 fun q' hq' => by
        obtain ⟨j, h1, h2⟩ := h q' (List.mem_cons_of_mem _ hq')
        exact ⟨j, h1, h2.imp_right fun h => ((leads_request hr).known j).2 (.inl h)⟩
      exact ⟨st2, by simp [requestTypes, hq, hr, h2]⟩

theorem user_spec {S : Schemas} {cache : Option (Ident → Option Ident)} : ∀ (user : List Quad) (st : State),
    (∀ st', userTypes S cache st user = .ok st' → st'.pending = st.pending ∧
      (∀ i, i ∈ st'.known ↔ i ∈ st.known ∨ ByUser S cache user i) ∧ ∀ q ∈ user, ∃ i, Stands S cache q i) ∧
    ((∀ q ∈ user, ∃ i, Stands S cache q i) → ∃ st', userTypes S cache st user = .ok st') := by
  intro user
  induction user with
  | nil =>
    intro st
    refine ⟨fun st' h => ?_, fun _ => ⟨st, rfl⟩⟩
    cases h
    exact ⟨rfl, by simp [ByUser], by simp⟩
  | cons q user ih =>
    intro st
    -- one step, once it is known what the first identifier stands for
    have step : ∀ j, Stands S cache q j → (∀ j', Stands S cache q j' → j' = j) →
        userTypes S cache st (q :: user) = userTypes S cache (withType st j) user →
        (∀ st', userTypes S cache st (q :: user) = .ok st' → st'.pending = st.pending ∧
          (∀ i, i ∈ st'.known ↔ i ∈ st.known ∨ ByUser S cache (q :: user) i) ∧ ∀ q' ∈ q :: user, ∃ i, Stands S cache q' i) ∧
        ((∀ q' ∈ q :: user, ∃ i, Stands S cache q' i) → ∃ st', userTypes S cache st (q :: user) = .ok st') := by
      intro j hj hu heq
      rw [heq]
      obtain ⟨a, b⟩ := ih (withType st j)
      refine ⟨fun st' h => ?_, fun h => b fun q' hq' => h q' (List.mem_cons_of_mem _ hq')⟩
      obtain ⟨a1, a2, a3⟩ := a st' h
      refine ⟨a1, fun i => ?_, ?_⟩
      · rw [a2]
        rw [ByUser, ByUser, exists_cons, withType, List.mem_cons]
        constructor
        · rintro ((rfl | h) | h)
          · exact .inr (.inl hj)
          · exact .inl h
          · exact .inr (.inr h)
        · rintro (h | h | h)
          · exact .inl (.inr h)
          · exact .inl (.inl (hu i h))
          · exact .inr h
      · intro q' hq'
        rcases List.mem_cons.1 hq' with rfl | hq'
        · exact ⟨j, hj⟩
        · exact a3 q' hq'
    have fails : (∀ j, ¬ Stands S cache q j) → (∃ e, userTypes S cache st (q :: user) = .error e) →
        (∀ st', userTypes S cache st (q :: user) = .ok st' → st'.pending = st.pending ∧
          (∀ i, i ∈ st'.known ↔ i ∈ st.known ∨ ByUser S cache (q :: user) i) ∧ ∀ q' ∈ q :: user, ∃ i, Stands S cache q' i) ∧
        ((∀ q' ∈ q :: user, ∃ i, Stands S cache q' i) → ∃ st', userTypes S cache st (q :: user) = .ok st') := by
      rintro hn ⟨e, he⟩
      refine ⟨fun st' h => ?_, fun h => ?_⟩
      · rw [he] at h; cases h
      · obtain ⟨i, hi⟩ := h q List.mem_cons_self
        exact absurd hi (hn i)
    cases hq : resolve S q with
    | error e =>
      refine fails ?_ ⟨.config e, by simp [userTypes, hq]⟩
      rintro j ⟨k, hk, -⟩
      rw [hq] at hk; cases hk
    | ok k =>
      cases cache with
      | none =>
        refine step k ⟨k, hq, rfl⟩ ?_ (by simp [userTypes, hq])
        rintro j ⟨k', hk, rfl⟩
        rw [hq] at hk; cases hk; rfl
      | some f =>
        cases hf : f k with
        | none =>
          refine fails ?_ ⟨.cache k, by simp [userTypes, hq, hf]⟩
          rintro j ⟨k', hk, hj⟩
          rw [hq] at hk; cases hk
          simp only [hf] at hj; cases hj
        | some j =>
          refine step j ⟨k, hq, hf⟩ ?_ (by simp [userTypes, hq, hf])
          rintro j' ⟨k', hk, hj⟩
          rw [hq] at hk; cases hk
          simp only [hf] at hj; cases hj; rfl

theorem named_iff (n : Name) : isNamed n = true ↔ ∃ s, n = .named s := by
  cases n <;> simp [isNamed]

/-- What is queued is exactly what the configuration asks for and the user does not provide, and each of these once. -/
theorem C101_selected {S : Schemas} {cache : Option (Ident → Option Ident)} {user : List Quad} {g : Generate} {table out : List Ident}
    (h : exec S cache user g table = .ok out) :
    (∀ i, i ∈ out ↔ Asked S table g i ∧ ¬ ByUser S cache user i) ∧ out.Nodup ∧ ∀ i ∈ out, i ∈ table := by
  unfold exec at h
  cases hu : userTypes S cache ⟨[], []⟩ user with
  | error e => simp [hu] at h
  | ok st =>
    obtain ⟨u1, u2, -⟩ := (user_spec user ⟨[], []⟩).1 st hu
    have key : ∀ st', generate S table st g = .ok st' → Leads table st (Asked S table g) st' := by
      intro st' hg
      cases g with
      | all =>
        obtain ⟨st2, h1, h2⟩ := leads_all table st fun i h => h
        rw [generate, h1] at hg; cases hg
        exact h2
      | named =>
        obtain ⟨st2, h1, h2⟩ := leads_all (table := table) (table.filter fun i => isNamed i.name) st fun i h => (List.mem_filter.1 h).1
        rw [generate, h1] at hg; cases hg
        have : (fun i => i ∈ table.filter fun i => isNamed i.name) = Asked S table .named := by
          funext i
          simp only [List.mem_filter, named_iff, Asked]
        rw [← this]
        exact h2
      | types qs => exact (leads_types qs st st' hg).1
    cases hg : generate S table st g with
    | error e => simp [hu, hg] at h
    | ok st' =>
      simp only [hu, hg] at h
      cases h
      have l := key st' hg
      have hk : ∀ i, i ∈ st.known ↔ ByUser S cache user i := fun i => by rw [u2]; simp
      have hm : ∀ i, i ∈ st'.pending ↔ Asked S table g i ∧ ¬ ByUser S cache user i := fun i => by
        rw [l.pending, u1, hk]; simp
      refine ⟨hm, l.nodup (by simp [u1]) (by simp [u1]), fun i hi => ?_⟩
      obtain ⟨a, b⟩ := (hm i).1 hi
      rcases l.ok i a with h | h
      · exact h
      · exact absurd ((hk i).1 h) b

/-- The selection succeeds exactly if every user defined type stands for something and, if types are listed, each of them is resolved
to a type that exists or is provided by the user. Partial: a listed identifier that only the cache of identifiers can resolve stands for
a type too, but is rejected (`C101_cache_not_asked`). -/
theorem C101_succeeds_partial (S : Schemas) (cache : Option (Ident → Option Ident)) (user : List Quad) (g : Generate) (table : List Ident) :
    (∃ out, exec S cache user g table = .ok out) ↔
      (∀ q ∈ user, ∃ i, Stands S cache q i) ∧
      ∀ qs, g = .types qs → ∀ q ∈ qs, ∃ i, resolve S q = .ok i ∧ (i ∈ table ∨ ByUser S cache user i) := by
  constructor
  · rintro ⟨out, h⟩
    unfold exec at h
    cases hu : userTypes S cache ⟨[], []⟩ user with
    | error e => simp [hu] at h
    | ok st =>
      obtain ⟨-, u2, u3⟩ := (user_spec user ⟨[], []⟩).1 st hu
      refine ⟨u3, ?_⟩
      rintro qs rfl q hq
      cases hg : generate S table st (.types qs) with
      | error e => simp [hu, hg] at h
      | ok st' =>
        obtain ⟨l, a⟩ := leads_types qs st st' hg
        obtain ⟨i, hi⟩ := a q hq
        refine ⟨i, hi, (l.ok i ⟨q, hq, hi⟩).imp_right fun h => ?_⟩
        simpa using (u2 i).1 h
  · rintro ⟨h1, h2⟩
    obtain ⟨st, hu⟩ := (user_spec user ⟨[], []⟩).2 h1
    obtain ⟨-, u2, -⟩ := (user_spec user ⟨[], []⟩).1 st hu
    have : ∃ st', generate S table st g = .ok st' := by
      cases g with
      | all =>
        obtain ⟨st2, h, -⟩ := leads_all table st fun i h => h
        exact ⟨st2, h⟩
      | named =>
        obtain ⟨st2, h, -⟩ := leads_all (table := table) (table.filter fun i => isNamed i.name) st fun i h => (List.mem_filter.1 h).1
        exact ⟨st2, h⟩
      | types qs =>
        refine types_succeed qs st fun q hq => ?_
        obtain ⟨i, hi, h⟩ := h2 qs rfl q hq
        exact ⟨i, hi, h.imp_right fun h => (u2 i).2 (.inr h)⟩
    obtain ⟨st', hg⟩ := this
    exact ⟨st'.pending, by simp [exec, hu, hg]⟩

/-- Elements and types can be listed by their name alone: if the type information has an entry for every declared element and type,
then a list of names of declared elements and types is accepted, and for each of them a component that has this name in the namespace
that is meant is queued or provided by the user. -/
theorem C101_declared_listed {S : Schemas} {cache : Option (Ident → Option Ident)} {user qs : List Quad} {table : List Ident}
    (hu : ∀ q ∈ user, ∃ i, Stands S cache q i)
    (ht : ∀ ns id kind name, InNs S ns id → Declares S id kind name → (⟨ns, id, .named name, kind⟩ : Ident) ∈ table)
    (hq : ∀ q ∈ qs, q.schema = none ∧ ∃ ns id, Means S ns q.ns ∧ InNs S ns id ∧ Declares S id q.kind q.name) :
    ∃ out, exec S cache user (.types qs) table = .ok out ∧ ∀ q ∈ qs, ∃ ns id, Means S ns q.ns ∧ InNs S ns id ∧
      Declares S id q.kind q.name ∧
      ((⟨ns, id, .named q.name, q.kind⟩ : Ident) ∈ out ∨ ByUser S cache user ⟨ns, id, .named q.name, q.kind⟩) := by
  have key : ∀ q ∈ qs, ∃ ns id, resolve S q = .ok ⟨ns, id, .named q.name, q.kind⟩ ∧ Means S ns q.ns ∧ InNs S ns id ∧
      Declares S id q.kind q.name := by
    intro q hqs
    obtain ⟨h1, ns, id, hm, hn, hd⟩ := hq q hqs
    obtain ⟨c1, c2⟩ := C100_namespace S q
    obtain ⟨⟨n, s, x, k⟩, hi⟩ := c2.2 ⟨ns, hm⟩
    obtain ⟨m1, m2, m3⟩ := c1 _ hi
    simp only at m1 m2 m3
    subst m2 m3
    have hns : n = ns := by
      have a := resolveNs_ok.2 m1
      rw [resolveNs_ok.2 hm] at a
      cases a; rfl
    subst hns
    obtain ⟨d1, l1, l2, d2, -⟩ := C100_declared S q _ h1 hi ⟨id, hn, hd⟩
    exact ⟨n, s, hi, hm, ⟨_, d2, by simp⟩, d1⟩
  obtain ⟨out, ho⟩ := (C101_succeeds_partial S cache user (.types qs) table).2 ⟨hu, by
    rintro qs' h q hqs
    cases h
    obtain ⟨ns, id, hi, -, hn, hd⟩ := key q hqs
    exact ⟨_, hi, .inl (ht ns id _ _ hn hd)⟩⟩
  refine ⟨out, ho, fun q hqs => ?_⟩
  obtain ⟨ns, id, hi, hm, hn, hd⟩ := key q hqs
  refine ⟨ns, id, hm, hn, hd, ?_⟩
  by_cases hb : ByUser S cache user ⟨ns, id, .named q.name, q.kind⟩
  · exact .inr hb
  · exact .inl (((C101_selected ho).1 _).2 ⟨⟨q, hqs, hi⟩, hb⟩)

/-- Finding: the cache of identifiers is asked for the user defined types only, and not for the types to generate. If the schemas alone
leave the schema of a listed identifier open, the generator fails, although the cache knows the one type that is meant. -/
theorem C101_cache_not_asked {S : Schemas} {f : Ident → Option Ident} {user qs : List Quad} {table : List Ident} {q : Quad} {i j : Ident}
    (hq : q ∈ qs) (hi : resolve S q = .ok i) (_hf : f i = some j) (_hj : j ∈ table) (ht : i ∉ table)
    (hu : ¬ ByUser S (some f) user i) : ∀ out, exec S (some f) user (.types qs) table ≠ .ok out := by
  intro out h
  obtain ⟨k, hk, h⟩ := ((C101_succeeds_partial S (some f) user (.types qs) table).1 ⟨out, h⟩).2 qs rfl q hq
  rw [hi] at hk; cases hk
  rcases h with h | h
  · exact ht h
  · exact hu h

/-! ## Non-vacuity -/

/-- Namespace 2 has two schemas; the second one declares an attribute, which `Schemas::resolve_schema` does not look for. -/
def S2 : Schemas where
  schemas := [(1, ⟨none, none, [.simpleType (some "T".toList)]⟩), (3, ⟨none, none, [.other, .element (some "E".toList)]⟩)]
  namespaces := [(2, [1, 3])]
  knownNs := [(none, 2)]
  knownPrefixes := []

def iT : Ident := ⟨2, 1, .named "T".toList, .type_⟩
def iE : Ident := ⟨2, 3, .named "E".toList, .element⟩
def iA : Ident := ⟨2, 3, .named "A".toList, .attribute⟩
def iX : Ident := ⟨2, 3, .generated "X".toList, .type_⟩

def table2 : List Ident := [iT, iE, iA, iX]

/-- Finds the attribute. -/
def cache2 (i : Ident) : Option Ident := if i.kind = .attribute then some iA else some i

def ok? : Except Stop (List Ident) → Option (List Ident)
  | .ok l => some l
  | .error _ => none

example : ok? (exec S2 none [fromText .type_ "T".toList] .all table2) = some [iE, iA, iX] ∧
    ok? (exec S2 none [fromText .type_ "T".toList] .named table2) = some [iE, iA] ∧
    ok? (exec S2 none [] (.types [fromText .element "E".toList, fromText .type_ "T".toList, fromText .element "E".toList]) table2) = some [iE, iT] ∧
    ok? (exec S2 (some cache2) [fromText .attribute "A".toList] .named table2) = some [iT, iE] ∧
    ok? (exec S2 (some cache2) [] (.types [fromText .attribute "A".toList]) table2) = none := by decide +kernel

/-- The hypotheses of the finding are met by the attribute. -/
example : resolve S2 (fromText .attribute "A".toList) = .ok ⟨2, 0, .named "A".toList, .attribute⟩ ∧
    cache2 ⟨2, 0, .named "A".toList, .attribute⟩ = some iA ∧ iA ∈ table2 ∧ (⟨2, 0, .named "A".toList, .attribute⟩ : Ident) ∉ table2 ∧
    ¬ ByUser S2 (some cache2) [] ⟨2, 0, .named "A".toList, .attribute⟩ :=
  ⟨rfl, by decide, by decide, by decide, fun ⟨_, h, _⟩ => by cases h⟩

/-- The table of the example has an entry for every declared element and type, and the two names are declared. -/
example : (∀ ns id kind name, InNs S2 ns id → Declares S2 id kind name → (⟨ns, id, .named name, kind⟩ : Ident) ∈ table2) ∧
    Means S2 2 (fromText .element "E".toList).ns ∧ InNs S2 2 3 ∧ Declares S2 3 .element "E".toList := by
  refine ⟨?_, rfl, ⟨[1, 3], rfl, by decide⟩, ⟨_, rfl, .inl ⟨rfl, by decide⟩⟩⟩
  rintro ns id kind name ⟨ids, h1, h2⟩ ⟨info, h3, h4⟩
  have hns : ns = 2 := by
    by_cases h : ns = 2
    · exact h
    · have h' : ¬ 2 = ns := fun e => h e.symm
      simp [S2, Verif.Assoc.get, h, h'] at h1
  subst hns
  have : ids = [1, 3] := by simpa [S2, Verif.Assoc.get] using h1.symm
  subst this
  rcases List.mem_cons.1 h2 with rfl | h2
  · have : info = ⟨none, none, [.simpleType (some "T".toList)]⟩ := by simpa [S2, Verif.Assoc.get] using h3.symm
    subst this
    rcases h4 with ⟨rfl, h⟩ | ⟨rfl, h | h⟩ <;> simp at h
    subst h
    decide
  · rw [List.mem_singleton] at h2
    subst h2
    have : info = ⟨none, none, [.other, .element (some "E".toList)]⟩ := by simpa [S2, Verif.Assoc.get] using h3.symm
    subst this
    rcases h4 with ⟨rfl, h⟩ | ⟨rfl, h | h⟩ <;> simp at h
    subst h
    decide

end Verif.Parser.Selected

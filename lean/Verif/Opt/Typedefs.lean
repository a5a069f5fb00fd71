import Verif.Meta.Valid
/-!
# Resolving typedefs (C36)

Models `Optimizer::resolve_typedefs` (`xsd-parser/src/pipeline/optimizer/resolve_typedefs.rs`) and `TypedefMap`
(`optimizer/misc/typedef_map.rs`). The map is built from the table the pass starts with (the optimizer caches it; the
passes that turn types into references clear the cache).
-/
namespace Verif.Opt

open Verif.Meta

/-- `TypedefMap::resolve`, optimizer/misc/typedef_map.rs:26-30, on the map built by `TypedefMap::new` (12-24). The
recursion has no loop check; `fuel` bounds its depth and `none` means that it is deeper. -/
def tdResolveF (T : Types) : Nat → Ident → Option Ident
  | 0, _ => none
  | fuel + 1, i =>
    match (Assoc.get T i).bind (·.variant.target) with
    | none => some i
    | some k => tdResolveF T fuel k

/-- `TypedefMap::resolve` where it ends (`tdResolve_eq`: always, when no typedefs form a loop). -/
def tdResolve (T : Types) (i : Ident) : Ident := (tdResolveF T (T.length + 1) i).getD i

/-- The `resolve_base!` macro, resolve_typedefs.rs:32-40. -/
def shortBase (f : Ident → Ident) : Base → Base
  | .none => .none
  | .ext i => .ext (f i)
  | .restr i => .restr (f i)

/-- The body of the loop over the elements of a group, resolve_typedefs.rs:92-96. -/
def shortElement (f : Ident → Ident) (e : Element) : Element :=
  match e.variant with
  | .type_ i m => { e with variant := .type_ (f i) m }
  | _ => e

/-- The body of the loop over the attributes, resolve_typedefs.rs:83-87. -/
def shortAttribute (f : Ident → Ident) (a : Attribute) : Attribute :=
  match a.variant with
  | .type_ i => { a with variant := .type_ (f i) }
  | _ => a

def shortGroup (f : Ident → Ident) (g : Group) : Group := { g with elements := g.elements.map (shortElement f) }

/-- The `match` on the variant, resolve_typedefs.rs:45-99. -/
def shortVariant (f : Ident → Ident) : Variant → Variant
  | .reference r => if r.isSingle then .reference { r with type_ := f r.type_ } else .reference r
  | .union u => .union { u with
      base := shortBase f u.base, types := u.types.map fun m => { m with type_ := f m.type_ } }
  | .dynamic d => .dynamic { d with
      type_ := d.type_.map f, derived := d.derived.map fun p => (p.1, { p.2 with type_ := f p.2.type_ }) }
  | .enumeration e => .enumeration { e with
      base := shortBase f e.base, variants := e.variants.map fun v => { v with type_ := v.type_.map f } }
  | .complex c => .complex { c with
      base := shortBase f c.base, content := c.content.map f, attributes := c.attributes.map (shortAttribute f) }
  | .all g => .all (shortGroup f g)
  | .choice g => .choice (shortGroup f g)
  | .sequence g => .sequence (shortGroup f g)
  | v => v

/-- `Optimizer::resolve_typedefs`, resolve_typedefs.rs:27-103. -/
def resolveTypedefs (T : Types) : Types :=
  T.map fun p => (p.1, { p.2 with variant := shortVariant (tdResolve T) p.2.variant })

/-! ## Specification -/

/-- The type of an element / attribute that is not a wildcard. -/
def elementType : ElementVariant → Option Ident
  | .type_ i _ => some i
  | _ => none

def attributeType : AttrVariant → Option Ident
  | .type_ i => some i
  | _ => none

/-- The type identifiers mentioned in a definition that the pass is meant to rewrite: all but the base of a simple type,
the target of a repeated reference and the names of derived types. -/
def rewritten : Variant → List Ident
  | .reference r => if r.min = 1 ∧ r.max = .bounded 1 then [r.type_] else []
  | .union u => u.base.ident.toList ++ u.types.map (·.type_)
  | .dynamic d => d.type_.toList ++ d.derived.map (·.2.type_)
  | .enumeration e => e.base.ident.toList ++ e.variants.filterMap (·.type_)
  | .complex c => c.base.ident.toList ++ c.content.toList ++
      c.attributes.filterMap fun a => attributeType a.variant
  | .all g | .choice g | .sequence g => g.elements.filterMap fun e => elementType e.variant
  | .buildIn _ | .custom _ | .simple _ => []

/-! ## Proofs -/

theorem target_bind (T : Types) (i k : Ident) :
    (Assoc.get T i).bind (·.variant.target) = some k ↔ Synonym T i k := by
  rw [synonym_iff]
  cases Assoc.get T i <;> simp

theorem tdResolveF_follow {T : Types} {i j : Ident} {p : List Ident} (h : Follow T i p j)
    (he : ∀ k, ¬ Synonym T j k) (n : Nat) (hn : p.length ≤ n) : tdResolveF T n i = some j := by
  induction h generalizing n with
  | @here i hd =>
    cases n with
    | zero => simp at hn
    | succ n =>
      have : (Assoc.get T i).bind (·.variant.target) = none := by
        cases hb : (Assoc.get T i).bind (·.variant.target) with
        | none => rfl
        | some k => exact absurd ((target_bind T i k).1 hb) (he k)
      simp [tdResolveF, this]
  | @step i k path j hs hf ih =>
    cases n with
    | zero => simp at hn
    | succ n =>
      have := (target_bind T i k).2 hs
      simp only [tdResolveF, this]
      exact ih he n (by simpa using hn)

theorem follow_length {T : Types} (ha : Acyclic T) {i j : Ident} {p : List Ident} (h : Follow T i p j) :
    p.length ≤ T.length := by
  have := nodup_length_le (m := Assoc.keys T) (ha.nodup h) (fun x hx => by
    obtain ⟨ty, hty⟩ := h.defined.2.2.2.2 x hx
    exact (Assoc.get_isSome T x).1 (by rw [hty]; rfl))
  simpa [Assoc.keys] using this

/-- C36: the recursion over typedefs ends when no typedefs form a loop, and then agrees with `get_resolved`. -/
theorem C36_typedef_recursion_ends (T : Types) (ha : Acyclic T) (hc : Closed T) (i : Ident) (n : Nat)
    (hn : T.length < n) : tdResolveF T n i = some (res T i) := by
  by_cases hd : Defined T i
  · obtain ⟨p, hp⟩ := res_follow hd
    exact tdResolveF_follow hp (fun k => res_end_closed ha hc i k) n
      (Nat.le_trans (follow_length ha hp) (Nat.le_of_lt hn))
  · rw [res_undefined hd]
    cases n with
    | zero => simp at hn
    | succ n =>
      have : (Assoc.get T i).bind (·.variant.target) = none := by
        cases hb : (Assoc.get T i).bind (·.variant.target) with
        | none => rfl
        | some k => exact absurd ((target_bind T i k).1 hb).defined hd
      simp [tdResolveF, this]

theorem tdResolve_eq {T : Types} (ha : Acyclic T) (hc : Closed T) : tdResolve T = res T := by
  funext i
  simp [tdResolve, C36_typedef_recursion_ends T ha hc i _ (Nat.lt_succ_self _)]

/-- C36 (negation): with a loop of typedefs the recursion never ends, whatever the depth. -/
theorem C36_loop_never_ends (n : Nat) :
    tdResolveF exLoop n (exId "A") = none ∧ tdResolveF exLoop n (exId "B") = none := by
  have h1 : (Assoc.get exLoop (exId "A")).bind (·.variant.target) = some (exId "B") := by decide +kernel
  have h2 : (Assoc.get exLoop (exId "B")).bind (·.variant.target) = some (exId "A") := by decide +kernel
  induction n with
  | zero => exact ⟨rfl, rfl⟩
  | succ n ih => simp only [tdResolveF, h1, h2]; exact ⟨ih.2, ih.1⟩

theorem get_map {T : Types} (g : MetaType → MetaType) (i : Ident) :
    Assoc.get (T.map fun p => (p.1, g p.2)) i = (Assoc.get T i).map g := by
  induction T with
  | nil => rfl
  | cons p T ih =>
    obtain ⟨a, v⟩ := p
    simp only [List.map_cons, Assoc.get]
    by_cases h : a = i
    · simp [h]
    · simp [h, ih]

theorem get_resolveTypedefs (T : Types) (i : Ident) :
    Assoc.get (resolveTypedefs T) i =
      (Assoc.get T i).map fun ty => { ty with variant := shortVariant (tdResolve T) ty.variant } :=
  get_map (fun ty => { ty with variant := shortVariant (tdResolve T) ty.variant }) i

theorem shortBase_map {f : Ident → Ident} (hf : ∀ i, f (f i) = f i) (b : Base) :
    (shortBase f b).mapIdents f = b.mapIdents f := by
  cases b <;> simp [shortBase, Base.mapIdents, hf]

theorem shortGroup_map {f : Ident → Ident} (hf : ∀ i, f (f i) = f i) (g : Group) :
    (shortGroup f g).mapIdents f = g.mapIdents f := by
  have : ∀ e : Element, (shortElement f e).mapIdents f = e.mapIdents f := by
    intro e
    simp only [shortElement]
    cases hv : e.variant <;> simp [Element.mapIdents, ElementVariant.mapIdents, hv, hf]
  simp [shortGroup, Group.mapIdents, Function.comp_def, this]

/-- Rewriting mentions by their resolved names does not change a definition up to synonyms. -/
theorem shortVariant_map {f : Ident → Ident} (hf : ∀ i, f (f i) = f i) (v : Variant) :
    (shortVariant f v).mapIdents f = v.mapIdents f := by
  have hat : ∀ a : Attribute, (shortAttribute f a).mapIdents f = a.mapIdents f := by
    intro a
    simp only [shortAttribute]
    cases hv : a.variant <;> simp [Attribute.mapIdents, AttrVariant.mapIdents, hv, hf]
  have hopt : ∀ o : Option Ident, (o.map f).map f = o.map f := by
    intro o; cases o <;> simp [hf]
  cases v with
  | reference r =>
    simp only [shortVariant]
    by_cases h : r.isSingle
    · simp [h, Variant.mapIdents, hf]
    · simp [h]
  | union u => simp [shortVariant, Variant.mapIdents, shortBase_map hf, UnionType.mapIdents, Function.comp_def, hf]
  | dynamic d =>
    simp only [shortVariant, Variant.mapIdents, hopt]
    simp [Derived.mapIdents, Function.comp_def, hf]
  | enumeration e =>
    simp only [shortVariant, Variant.mapIdents, shortBase_map hf]
    simp [EnumVariant.mapIdents, Function.comp_def, hf]
  | complex c =>
    simp only [shortVariant, Variant.mapIdents, shortBase_map hf, hopt]
    simp [Function.comp_def, hat]
  | all g => simp [shortVariant, Variant.mapIdents, shortGroup_map hf]
  | choice g => simp [shortVariant, Variant.mapIdents, shortGroup_map hf]
  | sequence g => simp [shortVariant, Variant.mapIdents, shortGroup_map hf]
  | _ => rfl

theorem shortVariant_keyProps (f : Ident → Ident) (v : Variant) : (shortVariant f v).keyProps = v.keyProps := by
  cases v with
  | reference r =>
    simp only [shortVariant]
    by_cases h : r.isSingle <;> simp [h, Variant.keyProps]
  | dynamic d => simp [shortVariant, Variant.keyProps]
  | _ => rfl

theorem shortVariant_target (f : Ident → Ident) (v : Variant) : (shortVariant f v).target = v.target.map f := by
  cases v with
  | reference r =>
    simp only [shortVariant]
    by_cases h : r.isSingle
    · have h' : Reference.isSingle { r with type_ := f r.type_ } = true := h
      simp only [h, if_true, Variant.target, Reference.isSimple, h']
      cases r.nillable <;> simp
    · simp [h, Variant.target, Reference.isSimple]
  | _ => rfl

theorem synonym_after {T : Types} (ha : Acyclic T) (hc : Closed T) (i k' : Ident) :
    Synonym (resolveTypedefs T) i k' ↔ ∃ k, Synonym T i k ∧ k' = res T k := by
  simp only [synonym_iff, get_resolveTypedefs, tdResolve_eq ha hc]
  cases hg : Assoc.get T i with
  | none => simp
  | some ty =>
    simp only [Option.map_some, Option.some.injEq, exists_eq_left', shortVariant_target]
    cases ty.variant.target with
    | none => simp
    | some k =>
      constructor
      · intro h; exact ⟨k, rfl, by simpa using h.symm⟩
      · rintro ⟨_, h, rfl⟩; cases h; rfl

theorem defined_after (T : Types) (i : Ident) : Defined (resolveTypedefs T) i ↔ Defined T i := by
  simp only [Defined, get_resolveTypedefs]
  cases Assoc.get T i <;> simp

theorem res_defined {T : Types} {i : Ident} (h : Defined T i) : Defined T (res T i) := by
  obtain ⟨p, hp⟩ := res_follow h
  exact hp.defined.2.1

theorem end_after {T : Types} (ha : Acyclic T) (hc : Closed T) (i k : Ident) :
    ¬ Synonym (resolveTypedefs T) (res T i) k := by
  rw [synonym_after ha hc]
  rintro ⟨k', h, -⟩
  exact res_end_closed ha hc i k' h

/-- C36: after the pass there is still no loop of typedefs and no undefined target. -/
theorem C36_stays_well_formed (T : Types) (ha : Acyclic T) (hc : Closed T) :
    Acyclic (resolveTypedefs T) ∧ Closed (resolveTypedefs T) := by
  constructor
  · rintro i ⟨k', p, hs, hf⟩
    obtain ⟨k, hk, rfl⟩ := (synonym_after ha hc i k').1 hs
    cases hf with
    | here _ => exact end_after ha hc k _ hs
    | step hs' _ => exact end_after ha hc k _ hs'
  · intro i k' hs
    obtain ⟨k, hk, rfl⟩ := (synonym_after ha hc i k').1 hs
    rw [defined_after]
    exact res_defined (hc _ _ hk)

/-- C36: every name is still defined and stands for the same type as before. -/
theorem C36_same_names (T : Types) (ha : Acyclic T) (hc : Closed T) (i : Ident) :
    (Defined (resolveTypedefs T) i ↔ Defined T i) ∧ res (resolveTypedefs T) i = res T i := by
  refine ⟨defined_after T i, ?_⟩
  have hw := C36_stays_well_formed T ha hc
  by_cases hs : ∃ k, Synonym T i k
  · obtain ⟨k, hk⟩ := hs
    have h1 : Synonym (resolveTypedefs T) i (res T k) := (synonym_after ha hc i _).2 ⟨k, hk, rfl⟩
    have h2 : Defined (resolveTypedefs T) (res T k) := hw.2 _ _ h1
    rw [res_synonym hw.1 h1 h2, res_synonym ha hk (hc _ _ hk)]
    exact res_of_not_synonym (fun x hx => absurd hx (end_after ha hc k x))
  · have h1 : res T i = i := res_of_not_synonym (fun k hk => absurd ⟨k, hk⟩ hs)
    rw [h1]
    apply res_of_not_synonym
    intro k' hk'
    obtain ⟨k, hk, -⟩ := (synonym_after ha hc i k').1 hk'
    exact absurd ⟨k, hk⟩ hs

/-- C36: every definition is unchanged up to synonyms, so no mention changes the type it resolves to; nothing but
mentions of types is changed. -/
theorem C36_same_up_to_synonyms (T : Types) (ha : Acyclic T) (hc : Closed T) (i : Ident) (ty : MetaType)
    (h : Assoc.get T i = some ty) :
    ∃ ty', Assoc.get (resolveTypedefs T) i = some ty' ∧ SameUpToSynonyms T ty ty' ∧
      ty'.form = ty.form ∧ ty'.schema = ty.schema ∧ ty'.redefinedBase = ty.redefinedBase ∧
      ty'.documentation = ty.documentation := by
  refine ⟨{ ty with variant := shortVariant (res T) ty.variant }, ?_, ⟨rfl, ?_⟩, rfl, rfl, rfl, rfl⟩
  · rw [get_resolveTypedefs, h, tdResolve_eq ha hc]; rfl
  exact (shortVariant_map (res_idem ha) ty.variant).symm

theorem transfer_there {T : Types} (ha : Acyclic T) (hc : Closed T) : Transfer (res T) T (resolveTypedefs T) := by
  refine ⟨fun i k hs hd => res_synonym ha hs hd, ?_⟩
  intro i₁ i₂ v₁ hf hd
  obtain ⟨ty, h1, h2⟩ := get_of_denotes hd
  refine ⟨shortVariant (res T) v₁, ?_, (shortVariant_map (res_idem ha) v₁).symm, (shortVariant_keyProps _ _).symm⟩
  simp only [denotes, (C36_same_names T ha hc i₂).2, get_resolveTypedefs, ← hf, h1, tdResolve_eq ha hc]
  simp [h2]

theorem transfer_back {T : Types} (ha : Acyclic T) (hc : Closed T) : Transfer (res T) (resolveTypedefs T) T := by
  refine ⟨?_, ?_⟩
  · intro i k hs hd
    obtain ⟨k', hk', rfl⟩ := (synonym_after ha hc i k).1 hs
    rw [res_idem ha]
    exact res_synonym ha hk' (hc _ _ hk')
  · intro i₁ i₂ v₁ hf hd
    obtain ⟨ty', h1, h2⟩ := get_of_denotes hd
    rw [(C36_same_names T ha hc i₁).2, get_resolveTypedefs, tdResolve_eq ha hc] at h1
    cases hg : Assoc.get T (res T i₁) with
    | none => rw [hg] at h1; cases h1
    | some ty =>
      rw [hg] at h1
      simp only [Option.map_some, Option.some.injEq] at h1
      subst h1
      refine ⟨ty.variant, by simp [denotes, ← hf, hg], ?_, ?_⟩
      · rw [← h2]; exact shortVariant_map (res_idem ha) _
      · rw [← h2]; exact shortVariant_keyProps _ _

/-- C36: the pass changes the set of accepted documents of no type, group or list of particles. -/
theorem C36_same_documents (P : Lex) (T : Types) (ha : Acyclic T) (hc : Closed T) (j : Judge) :
    Valid P (resolveTypedefs T) j ↔ Valid P T j :=
  ⟨fun h => h.transfer (transfer_back ha hc) j rfl, fun h => h.transfer (transfer_there ha hc) j rfl⟩

theorem rewritten_short {f : Ident → Ident} (v : Variant) : rewritten (shortVariant f v) = (rewritten v).map f := by
  have hb : ∀ b : Base, (shortBase f b).ident.toList = b.ident.toList.map f := by
    intro b; cases b <;> rfl
  have ho : ∀ o : Option Ident, (o.map f).toList = o.toList.map f := by
    intro o; cases o <;> rfl
  have hg : ∀ es : List Element,
      (es.map (shortElement f)).filterMap (fun e => elementType e.variant)
        = (es.filterMap fun e => elementType e.variant).map f := by
    intro es
    induction es with
    | nil => rfl
    | cons e es ih =>
      have h1 : elementType (shortElement f e).variant = (elementType e.variant).map f := by
        simp only [shortElement]
        cases hv : e.variant <;> simp [hv, elementType]
      rw [List.map_cons, List.filterMap_cons, List.filterMap_cons, ih, h1]
      cases elementType e.variant <;> simp
  have hat : ∀ l : List Attribute,
      (l.map (shortAttribute f)).filterMap (fun a => attributeType a.variant)
        = (l.filterMap fun a => attributeType a.variant).map f := by
    intro l
    induction l with
    | nil => rfl
    | cons e l ih =>
      have h1 : attributeType (shortAttribute f e).variant = (attributeType e.variant).map f := by
        simp only [shortAttribute]
        cases hv : e.variant <;> simp [hv, attributeType]
      rw [List.map_cons, List.filterMap_cons, List.filterMap_cons, ih, h1]
      cases attributeType e.variant <;> simp
  cases v with
  | reference r =>
    simp only [shortVariant]
    by_cases h : r.isSingle
    · have h' : r.min = 1 ∧ r.max = .bounded 1 := by simpa [Reference.isSingle] using h
      simp [h, rewritten, h']
    · have h' : ¬ (r.min = 1 ∧ r.max = .bounded 1) := by simpa [Reference.isSingle] using h
      simp [h, rewritten, h']
  | union u => simp [shortVariant, rewritten, hb]
  | dynamic d => simp [shortVariant, rewritten, ho]
  | enumeration e =>
    simp only [shortVariant, rewritten, hb, List.map_append]
    congr 1
    induction e.variants with
    | nil => rfl
    | cons v l ih =>
      simp only [List.map_cons, List.filterMap_cons]
      cases v.type_ <;> simp [ih]
  | complex c =>
    simp only [shortVariant, rewritten, hb, ho, List.map_append]
    rw [← hat]
  | all g => exact hg g.elements
  | choice g => exact hg g.elements
  | sequence g => exact hg g.elements
  | _ => rfl

/-- C36 (partial): after the pass no mention of a typedef is left, except as the base of a simple type, as the target of a
repeated reference and as a name of a derived type. Missing: those mentions, which the pass does not rewrite
(`C36_simple_base_kept`). -/
theorem C36_no_typedef_mentioned_partial (T : Types) (ha : Acyclic T) (hc : Closed T) (i : Ident) (ty : MetaType)
    (h : Assoc.get (resolveTypedefs T) i = some ty) (m : Ident) (hm : m ∈ rewritten ty.variant) (k : Ident) :
    ¬ Synonym (resolveTypedefs T) m k := by
  rw [get_resolveTypedefs, tdResolve_eq ha hc] at h
  cases hg : Assoc.get T i with
  | none => rw [hg] at h; cases h
  | some ty₀ =>
    rw [hg] at h
    simp only [Option.map_some, Option.some.injEq] at h
    subst h
    rw [rewritten_short] at hm
    obtain ⟨m₀, -, rfl⟩ := List.mem_map.1 hm
    exact end_after ha hc m₀ k

/-- C36 (negation): the base of a simple type stays a typedef. -/
theorem C36_simple_base_kept :
    let T : Types := exChain ++ [(exId "S", .new (.simple ⟨exId "A", false, .default⟩))]
    (Assoc.get (resolveTypedefs T) (exId "S")).map (·.variant) = some (.simple ⟨exId "A", false, .default⟩) ∧
      res T (exId "A") = exId "C" := by
  decide +kernel

theorem shortVariant_idem {f g : Ident → Ident} (h : ∀ i, g (f i) = f i) (v : Variant) :
    shortVariant g (shortVariant f v) = shortVariant f v := by
  have hb : ∀ b, shortBase g (shortBase f b) = shortBase f b := by
    intro b; cases b <;> simp [shortBase, h]
  have he : ∀ e, shortElement g (shortElement f e) = shortElement f e := by
    intro e
    simp only [shortElement]
    cases hv : e.variant <;> simp [hv, h]
  have hat : ∀ a, shortAttribute g (shortAttribute f a) = shortAttribute f a := by
    intro a
    simp only [shortAttribute]
    cases hv : a.variant <;> simp [hv, h]
  have ho : ∀ o : Option Ident, (o.map f).map g = o.map f := by
    intro o; cases o <;> simp [h]
  cases v with
  | reference r =>
    simp only [shortVariant]
    by_cases hs : r.isSingle
    · simp only [hs, if_true, shortVariant]
      have : Reference.isSingle { r with type_ := f r.type_ } = true := hs
      simp [this, h]
    · simp [hs, shortVariant]
  | union u => simp [shortVariant, hb, Function.comp_def, h]
  | dynamic d =>
    simp only [shortVariant, ho]
    simp [Function.comp_def, h]
  | enumeration e =>
    simp only [shortVariant, hb]
    simp [Function.comp_def, h]
  | complex c =>
    simp only [shortVariant, hb, ho]
    simp [Function.comp_def, hat]
  | all g => simp [shortVariant, shortGroup, Function.comp_def, he]
  | choice g => simp [shortVariant, shortGroup, Function.comp_def, he]
  | sequence g => simp [shortVariant, shortGroup, Function.comp_def, he]
  | _ => rfl

/-- C36: running the pass a second time changes nothing. -/
theorem C36_idempotent (T : Types) (ha : Acyclic T) (hc : Closed T) :
    resolveTypedefs (resolveTypedefs T) = resolveTypedefs T := by
  have hw := C36_stays_well_formed T ha hc
  have hf : tdResolve (resolveTypedefs T) = res T := by
    rw [tdResolve_eq hw.1 hw.2]
    funext i
    exact (C36_same_names T ha hc i).2
  have h1 : resolveTypedefs (resolveTypedefs T) =
      (resolveTypedefs T).map fun p => (p.1, { p.2 with variant := shortVariant (res T) p.2.variant }) := by
    simp only [resolveTypedefs] at hf ⊢
    rw [hf]
  rw [h1]
  conv => lhs; rw [resolveTypedefs, tdResolve_eq ha hc]
  conv => rhs; rw [resolveTypedefs, tdResolve_eq ha hc]
  simp [Function.comp_def, shortVariant_idem (res_idem ha)]

/-! ### A concrete case -/

theorem exChain_closed : Closed exChain := by
  intro i k h
  rcases exChain_synonym i k h with ⟨-, rfl⟩ | ⟨-, rfl⟩
  · exact ⟨.new (.reference (.new (exId "C"))), by decide +kernel⟩
  · exact ⟨.new (.buildIn .string), by decide +kernel⟩

/-- `A = B`, `B = C` become `A = C`, `B = C`. -/
example : Acyclic exChain ∧ Closed exChain ∧ resolveTypedefs exChain ≠ exChain ∧
    (Assoc.get (resolveTypedefs exChain) (exId "A")).map (·.variant) = some (.reference (.new (exId "C"))) :=
  ⟨exChain_acyclic, exChain_closed, by decide +kernel, by decide +kernel⟩

/-- `A` accepts the texts of the built-in string before and after. -/
example (P : Lex) (s : Txt) (h : P.builtIn .string s) : Valid P (resolveTypedefs exChain) (.text (exId "A") s) :=
  (C36_same_documents P exChain exChain_acyclic exChain_closed _).2
    (.refText (ty := .new (.reference (.new (exId "B")))) (by decide +kernel) rfl rfl rfl
      (.refText (ty := .new (.reference (.new (exId "C")))) (by decide +kernel) rfl rfl rfl
        (.builtInText (ty := .new (.buildIn .string)) (by decide +kernel) rfl h)))

end Verif.Opt

import Verif.Generate.EndToEnd
import Verif.Gen.TablesExamples
/-!
# Checks for the hypotheses of C71

Functions that check `Nested`, `Supported` and `Filled` for a given table; the examples use them. They look at local names
only.
-/
namespace Verif.Generate

open Verif.Meta
open Verif.Occurs (MaxOccurs Container fromOccurs Allows)
open Verif.Rt hiding Node
open Verif.Gen
open Verif.Gen.Tab

variable {X : Type}

/-! ## A check for `Nested` -/

def fitsCheck (as : List (AttrSpec X)) : Body → Bool
  | .seq _ | .text _ => true
  | .all fs => !fs.isEmpty
  | .choice alts _ mx => decide (mx ≠ .bounded 0) && alts.all fun f => decide (f.min ≤ 1) && decide (f.max = .bounded 1)
  | .enum _ => as.isEmpty

def plainCheck (n : QN) : Bool := decide (':' ∉ n.pfx) && decide (':' ∉ n.local_)

def distinctAttrs : List (AttrSpec X) → Bool
  | [] => true
  | a :: r => (r.all fun b => decide (a.name.local_ ≠ b.name.local_)) && distinctAttrs r

/-- The fields that can come first. -/
def leading : List FieldSpec → List FieldSpec
  | [] => []
  | f :: r => if f.min = 0 then f :: leading r else [f]

/-- The fields that can come last. -/
def trailing : List FieldSpec → List FieldSpec
  | [] => []
  | f :: r => if r.all fun g => g.min == 0 then f :: trailing r else trailing r

def beginsIn (G : Schema X) : Nat → FieldSpec → List FieldSpec
  | n, f =>
    match f.ty, n with
    | .variant _, 0 => []
    | .variant k, n + 1 =>
      match G.structs[k]? with
      | some D =>
        match D.body with
        | .seq es => (leading es).flatMap (beginsIn G n)
        | b => b.elements.flatMap (beginsIn G n)
      | none => []
    | _, _ => [f]

def remainsIn (G : Schema X) : Nat → TyRef → List FieldSpec
  | n + 1, .variant k =>
    match G.structs[k]? with
    | some D =>
      match D.body with
      | .seq es => (trailing es).flatMap fun g =>
          (if g.max = .bounded g.min then [] else beginsIn G n g) ++ remainsIn G n g.ty
      | b => b.elements.flatMap fun g => remainsIn G n g.ty
    | none => []
  | _, _ => []

def deepCheck (G : Schema X) : Nat → TyRef → Bool
  | 0, .variant _ => false
  | n + 1, .variant k =>
    match G.structs[k]? with
    | some D => D.body.elements.all fun f => deepCheck G n f.ty
    | none => true
  | _, _ => true

/-- No local name occurs in both lists. -/
def disjoint (as bs : List FieldSpec) : Bool := as.all fun a => bs.all fun b => decide (a.name.local_ ≠ b.name.local_)

def seqPairs (G : Schema X) (d : Nat) : List FieldSpec → Bool
  | [] => true
  | g :: r => ((leading r).all fun f => disjoint (beginsIn G d f)
      ((if g.max = .bounded g.min then [] else beginsIn G d g) ++ remainsIn G d g.ty)) && seqPairs G d r

def altPairs (G : Schema X) (d : Nat) : List FieldSpec → Bool
  | [] => true
  | g :: r => (r.all fun f => disjoint (beginsIn G d f) (beginsIn G d g)) && altPairs G d r

def groupCheck (G : Schema X) (D : StructSpec X) (f : FieldSpec) : Bool :=
  match f.ty with
  | .variant k =>
    (match D.body with
      | .all _ => false
      | .enum _ => decide (f.min ≤ 1) && decide (f.max = .bounded 1)
      | _ => true) &&
    match G.structs[k]? with
    | some D' =>
      (match D'.body with
        | .seq es => !es.isEmpty
        | .choice .. => true
        | _ => false)
    | none => false
  | _ => true

def orderCheck (G : Schema X) (d : Nat) : Body → Bool
  | .seq es => seqPairs G d es && es.all fun f => decide (f.max = .bounded 1) || disjoint (beginsIn G d f) (remainsIn G d f.ty)
  | .choice alts _ mx => altPairs G d alts && (decide (mx = .bounded 1) ||
      alts.all fun f => alts.all fun g => disjoint (beginsIn G d f) (remainsIn G d g.ty))
  | b => altPairs G d b.elements

def nestedCheck (G : Schema X) (d : Nat) : Bool :=
  G.structs.all fun D =>
    fitsCheck D.attrs D.body &&
    (D.body.elements.all fun f =>
      decide (f.max ≠ .bounded 0) && groupCheck G D f && deepCheck G d f.ty && plainCheck f.name) &&
    orderCheck G d D.body &&
    (D.attrs.all fun a => plainCheck a.name && !isXmlnsKey a.name.text) && distinctAttrs D.attrs

theorem distinctAttrs_spec (as : List (AttrSpec X)) (h : distinctAttrs as = true) : ∀ (i j : Nat) a b, as[i]? = some a →
    as[j]? = some b → i ≠ j → Distinct a.name b.name := by
  induction as with
  | nil => intro i j a b h; simp at h
  | cons x as ih =>
    simp only [distinctAttrs, Bool.and_eq_true, List.all_eq_true, decide_eq_true_eq] at h
    intro i j a b ha hb hij
    cases i with
    | zero =>
      cases j with
      | zero => exact absurd rfl hij
      | succ j =>
        simp only [List.getElem?_cons_zero, Option.some.injEq] at ha
        subst ha
        exact Or.inl (h.1 b (List.mem_of_getElem? (by simpa using hb)))
    | succ i =>
      cases j with
      | zero =>
        simp only [List.getElem?_cons_zero, Option.some.injEq] at hb
        subst hb
        exact Or.inl fun he => h.1 a (List.mem_of_getElem? (by simpa using ha)) he.symm
      | succ j => exact ih h.2 i j a b (by simpa using ha) (by simpa using hb) (by omega)

theorem leading_mem {es : List FieldSpec} {i : Nat} {g : FieldSpec} (hg : es[i]? = some g)
    (hm : ∀ (j : Nat) g', j < i → es[j]? = some g' → g'.min = 0) : g ∈ leading es := by
  induction es generalizing i with
  | nil => simp at hg
  | cons f r ih =>
    unfold leading
    cases i with
    | zero =>
      simp only [List.getElem?_cons_zero, Option.some.injEq] at hg
      subst hg
      split <;> simp
    | succ i =>
      rw [if_pos (hm 0 f (by omega) rfl)]
      exact List.mem_cons_of_mem _ (ih (by simpa using hg) fun j g' hj h => hm (j + 1) g' (by omega) (by simpa using h))

theorem trailing_mem {es : List FieldSpec} {i : Nat} {g : FieldSpec} (hg : es[i]? = some g)
    (hm : ∀ (j : Nat) g', i < j → es[j]? = some g' → g'.min = 0) : g ∈ trailing es := by
  induction es generalizing i with
  | nil => simp at hg
  | cons f r ih =>
    unfold trailing
    cases i with
    | zero =>
      simp only [List.getElem?_cons_zero, Option.some.injEq] at hg
      subst hg
      rw [if_pos]
      · simp
      · rw [List.all_eq_true]
        intro x hx
        obtain ⟨j, hj⟩ := List.getElem?_of_mem hx
        simpa using hm (j + 1) x (by omega) (by simpa using hj)
    | succ i =>
      have := ih (i := i) (by simpa using hg) fun j g' hj h => hm (j + 1) g' (by omega) (by simpa using h)
      split
      · exact List.mem_cons_of_mem _ this
      · exact this

theorem deep_of_check {G : Schema X} {n : Nat} {ty : TyRef} (h : deepCheck G n ty = true) : G.Deep n ty := by
  induction n generalizing ty with
  | zero => cases ty <;> first | trivial | cases h
  | succ n ih =>
    cases ty with
    | variant k =>
      intro D hD f hf
      simp only [deepCheck, hD, List.all_eq_true] at h
      exact ih (h f hf)
    | _ => trivial

theorem beginsIn_of {G : Schema X} {f a : FieldSpec} (h : Begins G f a) : ∀ n, G.Deep n f.ty → a ∈ beginsIn G n f := by
  induction h with
  | @element f hv =>
    intro n _
    unfold beginsIn
    cases hf : f.ty with
    | variant k => exact absurd hf (hv k)
    | _ => simp
  | @seq f k D es i g a hv hD hb hg hm _ ih =>
    intro n hn
    rw [hv] at hn
    cases n with
    | zero => exact hn.elim
    | succ n =>
      unfold beginsIn
      simp only [hv, hD, hb]
      exact List.mem_flatMap.2 ⟨g, leading_mem hg hm, ih n (hn D hD g (by rw [hb]; exact List.mem_of_getElem? hg))⟩
  | @choice f k D g a hv hD hb hg _ ih =>
    intro n hn
    rw [hv] at hn
    cases n with
    | zero => exact hn.elim
    | succ n =>
      unfold beginsIn
      have := ih n (hn D hD g hg)
      cases hbd : D.body with
      | seq es => exact absurd hbd (hb es)
      | _ =>
        rw [hbd] at hg
        simp only [hv, hD, hbd]
        exact List.mem_flatMap.2 ⟨g, hg, this⟩

theorem remainsIn_of {G : Schema X} {ty : TyRef} {a : FieldSpec} (h : Remains G ty a) :
    ∀ n, G.Deep n ty → a ∈ remainsIn G n ty := by
  induction h with
  | @more k D es i g a hD hb hg hx hm h =>
    intro n hn
    cases n with
    | zero => exact hn.elim
    | succ n =>
      have := beginsIn_of h n (hn D hD g (by rw [hb]; exact List.mem_of_getElem? hg))
      simp only [remainsIn, hD, hb]
      exact List.mem_flatMap.2 ⟨g, trailing_mem hg hm, by rw [if_neg hx]; simp [this]⟩
  | @last k D es i g a hD hb hg hm _ ih =>
    intro n hn
    cases n with
    | zero => exact hn.elim
    | succ n =>
      have := ih n (hn D hD g (by rw [hb]; exact List.mem_of_getElem? hg))
      simp only [remainsIn, hD, hb]
      exact List.mem_flatMap.2 ⟨g, trailing_mem hg hm, by simp [this]⟩
  | @choice k D g a hD hb hg _ ih =>
    intro n hn
    cases n with
    | zero => exact hn.elim
    | succ n =>
      have := ih n (hn D hD g hg)
      cases hbd : D.body with
      | seq es => exact absurd hbd (hb es)
      | _ =>
        rw [hbd] at hg
        simp only [remainsIn, hD, hbd]
        exact List.mem_flatMap.2 ⟨g, hg, this⟩

theorem disjoint_spec {as bs : List FieldSpec} (h : disjoint as bs = true) {a b : FieldSpec} (ha : a ∈ as) (hb : b ∈ bs) :
    Distinct a.name b.name := by
  simp only [disjoint, List.all_eq_true, decide_eq_true_eq] at h
  exact Or.inl (h a ha b hb)

theorem disjoint_symm {as bs : List FieldSpec} (h : disjoint as bs = true) {a b : FieldSpec} (ha : a ∈ as) (hb : b ∈ bs) :
    Distinct b.name a.name := by
  simp only [disjoint, List.all_eq_true, decide_eq_true_eq] at h
  exact Or.inl (h a ha b hb).symm

theorem seqPairs_spec {G : Schema X} {d : Nat} {es : List FieldSpec} (h : seqPairs G d es = true) {i j : Nat}
    {f g : FieldSpec} (hf : es[i]? = some f) (hg : es[j]? = some g) (hj : j < i)
    (hm : ∀ (m : Nat) f', j < m → m < i → es[m]? = some f' → f'.min = 0) :
    disjoint (beginsIn G d f) ((if g.max = .bounded g.min then [] else beginsIn G d g) ++ remainsIn G d g.ty) = true := by
  induction es generalizing i j with
  | nil => simp at hf
  | cons x r ih =>
    simp only [seqPairs, Bool.and_eq_true, List.all_eq_true] at h
    obtain ⟨i, rfl⟩ : ∃ i', i = i' + 1 := ⟨i - 1, by omega⟩
    cases j with
    | zero =>
      simp only [List.getElem?_cons_zero, Option.some.injEq] at hg
      subst hg
      exact h.1 f (leading_mem (by simpa using hf) fun m f' h1 h2 => hm (m + 1) f' (by omega) (by omega) (by simpa using h2))
    | succ j =>
      exact ih h.2 (by simpa using hf) (by simpa using hg) (by omega) fun m f' h1 h2 h3 =>
        hm (m + 1) f' (by omega) (by omega) (by simpa using h3)

theorem altPairs_spec {G : Schema X} {d : Nat} {es : List FieldSpec} (h : altPairs G d es = true) {i j : Nat}
    {f g : FieldSpec} (hf : es[i]? = some f) (hg : es[j]? = some g) (hij : i ≠ j) {a b : FieldSpec}
    (ha : a ∈ beginsIn G d f) (hb : b ∈ beginsIn G d g) : Distinct a.name b.name := by
  induction es generalizing i j with
  | nil => simp at hf
  | cons x r ih =>
    simp only [altPairs, Bool.and_eq_true, List.all_eq_true] at h
    cases i with
    | zero =>
      cases j with
      | zero => exact absurd rfl hij
      | succ j =>
        simp only [List.getElem?_cons_zero, Option.some.injEq] at hf
        subst hf
        exact disjoint_symm (h.1 g (List.mem_of_getElem? (by simpa using hg))) hb ha
    | succ i =>
      cases j with
      | zero =>
        simp only [List.getElem?_cons_zero, Option.some.injEq] at hg
        subst hg
        exact disjoint_spec (h.1 f (List.mem_of_getElem? (by simpa using hf))) ha hb
      | succ j => exact ih h.2 (by simpa using hf) (by simpa using hg) (by omega)

theorem nestedCheck_sound (G : Schema X) (d : Nat) (h : nestedCheck G d = true) : G.Nested d := by
  simp only [nestedCheck, List.all_eq_true, Bool.and_eq_true, decide_eq_true_eq, plainCheck, Bool.not_eq_true'] at h
  have hdeep : ∀ D ∈ G.structs, ∀ f ∈ D.body.elements, G.Deep d f.ty := fun D hD f hf =>
    deep_of_check ((h D hD).1.1.1.2 f hf).1.2
  have hbeg : ∀ D ∈ G.structs, ∀ f ∈ D.body.elements, ∀ a, Begins G f a → a ∈ beginsIn G d f := fun D hD f hf a ha =>
    beginsIn_of ha d (hdeep D hD f hf)
  have hrem : ∀ D ∈ G.structs, ∀ f ∈ D.body.elements, ∀ a, Remains G f.ty a → a ∈ remainsIn G d f.ty :=
    fun D hD f hf a ha => remainsIn_of ha d (hdeep D hD f hf)
  refine ⟨?_, ?_, ?_, hdeep, ?_, ?_, ?_, ?_, ?_, ?_, ?_⟩
  · intro D hD
    have := (h D hD).1.1.1.1
    cases hb : D.body <;> rw [hb] at this <;>
      simp only [fitsCheck, Bool.and_eq_true, List.all_eq_true, decide_eq_true_eq, Bool.not_eq_true',
        List.isEmpty_eq_false_iff, List.isEmpty_iff] at this
    · trivial
    · exact this
    · exact this
    · exact this
    · trivial
  · intro D hD f hf
    exact ((h D hD).1.1.1.2 f hf).1.1.1
  · intro D hD f hf k hk
    have := ((h D hD).1.1.1.2 f hf).1.1.2
    simp only [groupCheck, hk, Bool.and_eq_true] at this
    refine ⟨?_, ?_, ?_⟩
    · intro es hb
      rw [hb] at this
      cases this.1
    · intro alts hb
      rw [hb] at this
      simpa using this.1
    · cases hg : G.structs[k]? with
      | none => rw [hg] at this; cases this.2
      | some D' =>
        rw [hg] at this
        refine ⟨D', rfl, ?_⟩
        cases hb : D'.body with
        | seq es => exact Or.inl ⟨es, rfl, by simpa [hb] using this.2⟩
        | choice alts mn mx => exact Or.inr ⟨alts, mn, mx, rfl⟩
        | _ => simp [hb] at this
  · intro D hD f hf
    exact ((h D hD).1.1.1.2 f hf).2
  · intro D hD es hb i j f g hf hg hj hm a b ha hbr
    have hc := (h D hD).1.1.2
    simp only [hb, orderCheck, Bool.and_eq_true] at hc
    have hes : D.body.elements = es := by rw [hb]; rfl
    have hfm : f ∈ D.body.elements := by rw [hes]; exact List.mem_of_getElem? hf
    have hgm : g ∈ D.body.elements := by rw [hes]; exact List.mem_of_getElem? hg
    refine disjoint_spec (seqPairs_spec hc.1 hf hg hj hm) (hbeg D hD f hfm a ha) ?_
    rcases hbr with ⟨hx, hb'⟩ | hb'
    · rw [if_neg hx]
      exact List.mem_append_left _ (hbeg D hD g hgm b hb')
    · exact List.mem_append_right _ (hrem D hD g hgm b hb')
  · intro D hD hb i j f g hf hg hij _ a b ha hb'
    have hc := (h D hD).1.1.2
    have hp : altPairs G d D.body.elements = true := by
      cases hbd : D.body with
      | seq es => exact absurd hbd (hb es)
      | choice alts mn mx =>
        simp only [hbd, orderCheck, Bool.and_eq_true] at hc
        exact hc.1
      | _ => simpa only [hbd, orderCheck] using hc
    exact altPairs_spec hp hf hg hij (hbeg D hD f (List.mem_of_getElem? hf) a ha)
      (hbeg D hD g (List.mem_of_getElem? hg) b hb')
  · intro D hD es hb f hf hx a b ha hr
    have hc := (h D hD).1.1.2
    simp only [hb, orderCheck, Bool.and_eq_true, List.all_eq_true, Bool.or_eq_true, decide_eq_true_eq] at hc
    have hfm : f ∈ D.body.elements := by rw [hb]; exact hf
    exact disjoint_spec ((hc.2 f hf).resolve_left hx) (hbeg D hD f hfm a ha) (hrem D hD f hfm b hr)
  · intro D hD alts mn mx hb hx f hf g hg a b ha hr
    have hc := (h D hD).1.1.2
    simp only [hb, orderCheck, Bool.and_eq_true, List.all_eq_true, Bool.or_eq_true, decide_eq_true_eq] at hc
    exact disjoint_spec (hc.2.resolve_left hx f hf g hg) (hbeg D hD f (by rw [hb]; exact hf) a ha)
      (hrem D hD g (by rw [hb]; exact hg) b hr)
  · intro D hD a ha
    exact (h D hD).1.2 a ha
  · intro D hD
    exact distinctAttrs_spec _ (h D hD).2

/-! ## Checks for `Supported` and `Filled` -/

def Setup.supportedCheck (S : Setup X) : Bool :=
  S.types.all fun x => !S.used x.1 ||
    match x.2.variant with
    | .complex c => (S.complexOf c).isSome
    | .choice g => (S.choiceAlts g).isSome
    | .sequence g => (S.groupFields g).isSome
    | _ => true

theorem supportedCheck_sound (S : Setup X) (h : S.supportedCheck = true) : S.Supported := by
  intro i ty hm hu
  have := List.all_eq_true.1 h (i, ty) hm
  simp only [hu, Bool.not_true, Bool.false_or] at this
  refine ⟨fun c hv => ?_, fun g hv => ?_, fun g hv => ?_⟩ <;> (rw [hv] at this; exact this)

def nestedFilledCheck (T : Types) (e : Element) : Bool :=
  match e.variant with
  | .type_ j .group =>
    match denotes T j with
    | some (.choice x) => e.min == 0 || neverEmpty x.elements || (decide (fromOccurs e.min e.max = .single) && res T j == j)
    | _ => true
  | _ => true

def altFilledCheck (T : Types) (e : Element) : Bool :=
  match e.variant with
  | .type_ j .group =>
    match denotes T j with
    | some (.choice x) => neverEmpty x.elements
    | _ => true
  | _ => true

def groupFilledCheck (T : Types) : Variant → Bool
  | .choice x => x.elements.all (altFilledCheck T)
  | .sequence x => x.elements.all (nestedFilledCheck T)
  | _ => true

def contentFilledCheck (T : Types) (c : Complex) : Bool :=
  match c.content.bind (denotes T) with
  | some v => groupFilledCheck T v &&
    match v with
    | .choice x => c.min == 0 || neverEmpty x.elements
    | _ => true
  | none => true

def Setup.filledCheck (S : Setup X) : Bool :=
  S.types.all fun x => !S.used x.1 || (groupFilledCheck S.types x.2.variant &&
    match x.2.variant with
    | .complex c => contentFilledCheck S.types c
    | _ => true)

theorem groupFilled_of_check {T : Types} {v : Variant} (h : groupFilledCheck T v = true) : GroupFilled T v := by
  cases v with
  | choice x =>
    intro e he j y hv hd
    have := List.all_eq_true.1 h e he
    simpa [altFilledCheck, hv, hd] using this
  | sequence x =>
    intro e he j y hv hd
    have := List.all_eq_true.1 h e he
    simpa [nestedFilledCheck, hv, hd, or_assoc] using this
  | _ => trivial

theorem filledCheck_sound (S : Setup X) (h : S.filledCheck = true) : S.Filled := by
  intro i ty hm hu
  have := List.all_eq_true.1 h (i, ty) hm
  simp only [hu, Bool.not_true, Bool.false_or, Bool.and_eq_true] at this
  refine ⟨groupFilled_of_check this.1, ?_⟩
  intro c g v hv hc hd
  have h2 := this.2
  simp only [hv, contentFilledCheck, hc, Option.bind_some, hd, Bool.and_eq_true] at h2
  refine ⟨groupFilled_of_check h2.1, ?_⟩
  rintro x rfl
  simpa using h2.2

end Verif.Generate

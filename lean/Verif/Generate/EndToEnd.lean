import Verif.Generate.Documents
import Verif.Opt.Pipeline
/-!
# Optimizing and generating: valid documents are still read (C71, C69)

The optimizer (C69) accepts no less, and the code generated for the optimized type information reads what is valid for
it (C71). Together: what is valid for the type information before the optimizer is read by the code generated after it.
-/
namespace Verif.Generate

open Verif.Meta Verif.Opt
open Verif.Rt hiding Node
open Verif.Gen
open Verif.Gen.Tab

variable {X : Type}

/-- **C71.** The type information `T` is optimized and code is generated for the result. The optimizer ends without an
error, and every document that was valid for `T`, before the optimizer, is read by the deserializer of the type generated
for it. The hypotheses are those of `C69_accepts_no_less_partial` about `T` and those of `C71_valid_document_read_partial`
about the optimized type information; what is missing there is missing here. -/
theorem C71_optimized_document_read_partial (P : Lex) (F : OptFlags) (env : Env) (T : Types) (plain : F.Plain)
    (wf : WellFormed T) (hP : ∀ s, P.facets .default s)
    (narrows : F.unrestrictedComplex ∨ F.unrestrictedSimple ∨ F.unrestrictedEnum ∨ F.unrestrictedUnion →
      Narrows P F.bases T ∧ NoListBase T)
    (literals : F.removeEmptyEnumVariants → NoEmptyLiteral T)
    (dynamics : F.removeDuplicates → KeysByCount T)
    (fuel : Nat) (hfuel : (T.length + 1) * (T.length + 1) < fuel) :
    ∃ T', execOptimizer fuel F env T = .ok T' ∧ ∀ S : Setup X, S.types = T' → S.Supported → S.Filled →
      ∀ d, S.compile.Nested d → S.XsiFree → S.ReadsTexts P → (∀ n as kids, ¬ P.customValue n as kids) →
      ∀ (i : Ident) (k : Nat), S.tyRef i = some (.struct k) →
      ∀ (name : PropIdent) (as : List (PropIdent × Txt)) (kids : List Node), Valid P T (.value i none as kids) →
      ∀ evs, Renders S {} (.elem name none as kids) evs →
      ∃ v, ∀ n, depth v + d < n → ∀ rest,
        Drv.run (genEnv posTrack) (de S.compile n (.struct k)).toDeser { helper := {} } (evs ++ rest) = .done v rest := by
  obtain ⟨T', h1, _, hac, _, h2⟩ := C69_accepts_no_less_partial P F env T plain wf hP narrows literals dynamics fuel hfuel
  refine ⟨T', h1, ?_⟩
  rintro S rfl hsup hfill d hshape hfree hp hcustom i k hk name as kids hv evs hr
  obtain ⟨v, _, h⟩ := C71_valid_document_read_partial S P hac hsup hfill d hshape hfree hp hcustom i k hk name as kids
    (h2 _ hv) evs hr
  exact ⟨v, h⟩

end Verif.Generate

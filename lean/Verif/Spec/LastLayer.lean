import Verif.Spec.Fri
import Verif.Spec.Dft
import Verif.Model.Fri

/-!
# Specification: the last check of FRI, in terms of what the proof opens
-/

namespace Hodor.Spec

variable {F : Type} [Field F] [DecidableEq F] [StarkField F]

/-- The last check of FRI at the position `idx`, `m` being the size of the domain after the last fold: the value of the final coefficients is the fold, by the challenge of
the last root, of the last two values that the proof opens. -/
def LastOpeningOk (proof : FriProof F) (m idx : ℕ) : Prop :=
  ∃ root β d d' init q0 q1, proof.roots.getLast? = some root ∧ encodeRootIntoChallenge root = .ok β ∧
    Domain.newForSize F m = .ok d ∧ Domain.newForSize F (2 * m) = .ok d' ∧ proof.queries = init ++ [q0, q1] ∧
    evalPoly proof.finalCoefficients (d.generator ^ (idx % m)) = foldAt (d'.generator ^ (idx % m)) q0.value q1.value β

end Hodor.Spec

import Verif.Spec.Soundness
import Verif.Spec.Fri
import Verif.Spec.Ali
import Verif.Spec.Dft
import Verif.Model.Fri

/-!
# Specification: what decides whether an honestly computed proof is accepted
-/

namespace Hodor.Spec

open Polynomial

variable {F : Type} [Field F] [DecidableEq F] [StarkField F]

/-- The check of the last layer, at the point with index `idx` of the domain of size `m`: the final coefficients have the same value as their fold by
the challenge of the last root. -/
def LastFoldOk (proof : FriProof F) (m idx : ℕ) : Prop :=
  ∃ root β d, proof.roots.getLast? = some root ∧ encodeRootIntoChallenge root = .ok β ∧ Domain.newForSize F m = .ok d ∧
    evalPoly proof.finalCoefficients (d.generator ^ (idx % m)) =
      evalPoly (foldCoeffs β proof.finalCoefficients) (d.generator ^ (idx % m))

/-- The points outside the trace domain (of size `T`, generator `g`) at which the function `G` has the value of the composition of the constraints `cs` and `bs` with the
challenges `cc` and `bc`, the registers being read as `E` says. -/
def agreement (g : F) (T D : ℕ) (E : F → Env F) (cs : List (Constraint F)) (bs : List (BoundaryConstraint F)) (G : F → F)
    (cc bc : List (F × F)) : Set F :=
  { x | x ^ T ≠ 1 ∧ G x = compositionAt g T D (E x) (cs.zip cc) (bs.zip bc) x }

/-- Some polynomial of degree below `N` agrees with the composition at more than `N + T` points. -/
def AgreesOften (g : F) (T D N : ℕ) (E : F → Env F) (cs : List (Constraint F)) (bs : List (BoundaryConstraint F))
    (cc bc : List (F × F)) : Prop :=
  ∃ G : F[X], G.degree < (N : ℕ) ∧ ¬ (agreement g T D E cs bs (fun x => G.eval x) cc bc).encard ≤ (N + T : ℕ)

end Hodor.Spec

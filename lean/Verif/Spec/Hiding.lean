import Verif.Spec.Air
import Mathlib.LinearAlgebra.Lagrange

/-!
# Specification: what is read off a column
-/

namespace Hodor.Spec

variable {F : Type} [Field F]

/-- The value at `x` of the polynomial of degree less than `N` that has the value `c i` at `g^i`, for each row `i < N`. -/
noncomputable def columnAt (g : F) (N : ℕ) (c : Fin N → F) (x : F) : F :=
  (Lagrange.interpolate Finset.univ (fun i : Fin N => g ^ (i : ℕ)) c).eval x

/-- The column of a register in a table with `N` rows. -/
def column (witness : List (List F)) (N : ℕ) (r : Register) : Fin N → F := fun i => cellR witness r i

end Hodor.Spec

import Verif.Spec.Ali

/-!
# Specification: DEEP quotients
-/

namespace Hodor.Spec

open Polynomial

variable {F : Type} [Field F]

/-- The first DEEP word at `x`: the random combination, over the openings `((r, m), α)`, of the quotients
`(P_r(x) - P_r(m z)) / (x - m z)`. -/
noncomputable def deepAt (P : ℕ → F[X]) (z : F) (openings : List ((ℕ × F) × F)) (x : F) : F :=
  (openings.map (fun q => q.2 * ((P q.1.1).eval x - (P q.1.1).eval (q.1.2 * z)) / (x - q.1.2 * z))).sum

/-- The second DEEP word at `x`: `(G(x) - G(z)) / (x - z)`. -/
noncomputable def deepGAt (G : F[X]) (z x : F) : F := (G.eval x - G.eval z) / (x - z)

end Hodor.Spec

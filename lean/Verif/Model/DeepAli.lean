import Verif.Model.Arp
import Verif.Model.Utils

/-!
# DEEP-ALI for a single witness polynomial (`src/ali/deep_ali.rs`)

The file is commented out of the crate's module list (`src/ali/mod.rs` 107). `From<ALI>` (24-54) only moves the fields of an `ALI` type that no longer exists and is not modelled.
-/

namespace Hodor

variable {F : Type} [Field F]

/-- The fields that `make_deep` sets (`src/ali/deep_ali.rs` 12-22, 163-166). -/
structure DeepOut (F : Type) where
  zM : List F
  fAtZM : List F
  h1 : Poly F .values
  h2 : Poly F .values

/-- `src/ali/deep_ali.rs` 79-91: a point `z * mask`. -/
def deepPoint (z : F) : StepDifference F → Res F
  | .mask m => .ok (z * m)
  | .steps _ => .panic

variable [DecidableEq F] [StarkField F]

/-- `src/ali/deep_ali.rs` 57-169 `make_deep`; `Worker::new()` (line 64) becomes a parameter because its CPU count depends on the machine. -/
def makeDeep (w : Worker) (fPoly gPoly : Poly F .coefficients) (allMasks : List (StepDifference F))
    (fLde gLde : Poly F .values) (z : F) : Res (DeepOut F) := do
  let zM ← mapRes (deepPoint z) allMasks
  let fAtZM := zM.map (fun m => fPoly.evaluateAt w m)
  let uCoeffs ← interpolate (zM.zip fAtZM)
  let uPoly ← Poly.fromCoeffs uCoeffs
  let zPoly ← Poly.fromRoots w zM
  let dSize := fLde.size
  let dPrimeSize := gLde.size
  let uValues ← uPoly.lde w (dSize / uPoly.size)
  let h1 ← fLde.subAssignV w uValues
  let zValues ← zPoly.lde w (dSize / zPoly.size)
  let zInv ← zValues.batchInversion w
  let h1 ← h1.mulAssign w zInv
  let den ← Poly.fromValues (List.replicate dPrimeSize (1 : F))
  let den := den.distributePowers w den.omega
  let den := { den with coeffs := parChunks w den.coeffs (fun _ _ v => v.map (fun x => x - z)) }
  let den ← den.batchInversion w
  let gAtZ := gPoly.evaluateAt w z
  let h2 := { gLde with coeffs := parChunks w gLde.coeffs (fun _ _ v => v.map (fun x => x - gAtZ)) }
  let h2 ← h2.mulAssign w den
  pure { zM := zM, fAtZM := fAtZM, h1 := h1, h2 := h2 }

end Hodor

import Verif.Model.Stark

/-!
# Specification: parameters of a proof for which completeness is expected
-/

namespace Hodor.Spec

/-- Parameters of a run with `2^k` rows, maximal constraint degree `2^f`, LDE factor `2^e` and `2^o` final FRI
coefficients on a machine `w`. -/
structure RunParams (F : Type) [Field F] [StarkField F] (w : Worker) (k f e o : ℕ) : Prop where
  /-- the largest domain exists in the field -/
  size : k + f + e ≤ StarkField.S F
  /-- sizes fit the `u32` bit reversal of the FFT -/
  size32 : k + f < 32
  /-- FRI has at least one folding step -/
  out : o < k
  /-- the last FRI tree has at least two leaves -/
  factor : 1 ≤ e + o
  factor32 : e + o < 32
  /-- the LDE does not run into defect C09 (`factor ≥ 2 * cpus` on several CPUs) -/
  lde1 : w.cpus = 1 ∨ 2 ^ f < 2 * w.cpus
  lde2 : w.cpus = 1 ∨ 2 ^ e < 2 * w.cpus
  /-- challenges of the transcript are field elements (see C21) -/
  challenge : numBits F < 256 ∧ numBits F % 64 ≠ 0 ∧ numBits F % 64 ≠ 1
  /-- the coset used by the prover is not the domain -/
  coset : (StarkField.mulGen : F) ^ 2 ^ (k + f) ≠ 1

/-- Parameters of a run as in `RunParams`, but for any number of CPUs and any number of final FRI coefficients. -/
structure ProverParams (F : Type) [Field F] [StarkField F] (k f e o : ℕ) : Prop where
  /-- the largest domain exists in the field -/
  size : k + f + e ≤ StarkField.S F
  /-- sizes fit the `u32` bit reversal of the FFT -/
  size32 : k + f < 32
  /-- the last FRI tree has at least two leaves -/
  factor : 1 ≤ e + o
  factor32 : e + o < 32
  /-- challenges of the transcript are field elements (see C21) -/
  challenge : numBits F < 256 ∧ numBits F % 64 ≠ 0 ∧ numBits F % 64 ≠ 1
  /-- the coset used by the prover is not the domain -/
  coset : (StarkField.mulGen : F) ^ 2 ^ (k + f) ≠ 1

end Hodor.Spec

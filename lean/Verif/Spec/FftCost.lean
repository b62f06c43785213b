import Verif.Model.Res
import Mathlib.Data.Nat.Log
import Mathlib.Data.Nat.Digits.Defs
import Mathlib.Algebra.BigOperators.Group.Finset.Basic

/-!
# Specification: field operations of the transforms
-/

namespace Hodor.Spec

/-- A power by squaring: a squaring for each binary digit after the first one, a product for each digit that is set. -/
def powExact (e : ℕ) : ℕ := Nat.log 2 e + (Nat.digits 2 e).sum

/-- The serial transform of `2^logN` values: `logN` rounds with `2^logN / 2` butterflies of four operations, and the power `ω^(2^j)` for each `j < logN`. -/
def serialFftOps (logN : ℕ) : ℕ := logN * (4 * (2 ^ logN / 2)) + logN * (logN + 1) / 2

/-- One task of the parallel transform of `2^logN` values on `2^logCpus` tasks: two powers; three operations for *every* value of the input and one for each value of the
row; a serial transform of the row. -/
def fftTaskOps (logN logCpus j : ℕ) : ℕ :=
  powExact j + powExact (j * 2 ^ (logN - logCpus)) + (3 * 2 ^ logN + 2 ^ (logN - logCpus)) + serialFftOps (logN - logCpus)

/-- All tasks, and the power that is common to them. -/
def parallelFftOps (logN logCpus : ℕ) : ℕ := (logCpus + 1) + ∑ j ∈ Finset.range (2 ^ logCpus), fftTaskOps logN logCpus j

end Hodor.Spec

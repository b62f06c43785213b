import Mathlib.Algebra.BigOperators.Group.Finset.Basic
import Mathlib.Algebra.Field.Basic

/-!
# Specification: discrete Fourier transform and polynomial evaluation on lists
-/

namespace Hodor.Spec

open Finset

variable {F : Type} [Field F]

/-- Value at `x` of the polynomial with coefficient list `a` (constant term first). -/
def evalPoly (a : List F) (x : F) : F := ∑ i ∈ range a.length, a.getD i 0 * x ^ i

/-- `b` lists the values of the polynomial `a` at `shift * ω^0, shift * ω^1, …, shift * ω^(n-1)`. -/
def EvaluatesOn (a : List F) (shift ω : F) (n : ℕ) (b : List F) : Prop :=
  b.length = n ∧ ∀ j, j < n → b[j]? = some (evalPoly a (shift * ω ^ j))

/-- The discrete Fourier transform of `a` with root `ω`:
output `j` is `∑ i, a[i] * ω^(i*j)`. -/
def IsDft (a : List F) (ω : F) (b : List F) : Prop :=
  b.length = a.length ∧
    ∀ j, j < a.length → b[j]? = some (∑ i ∈ range a.length, a.getD i 0 * ω ^ (i * j))

end Hodor.Spec

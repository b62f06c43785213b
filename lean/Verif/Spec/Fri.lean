import Mathlib.Algebra.Polynomial.Eval.Defs
import Mathlib.Algebra.Polynomial.Eval.Degree
import Mathlib.Algebra.Field.Basic

/-! # Specification: folding of a polynomial -/

namespace Hodor.Spec

open Polynomial

variable {F : Type} [Field F]

/-- `q` is the fold of `p` by the challenge `β`: if `p(X) = E(X²) + X·O(X²)` then `q = E + β·O`. -/
def IsFold (β : F) (p q : F[X]) : Prop :=
  ∃ E O : F[X], p = E.comp (X ^ 2) + X * O.comp (X ^ 2) ∧ q = E + C β * O

/-- `l` lists the values of `p` at `1, ω, …, ω^(n-1)`. -/
def Codeword (p : F[X]) (ω : F) (n : ℕ) (l : List F) : Prop :=
  l.length = n ∧ ∀ i, i < n → l[i]? = some (p.eval (ω ^ i))

/-- The fold by `β` of a list of coefficients: each pair `a, b` becomes `a + β b`. -/
def foldCoeffs (β : F) : List F → List F
  | a :: b :: l => (a + β * b) :: foldCoeffs β l
  | l => l

/-- The fold by `β` of the values `a` at `x` and `b` at `-x`: the even part plus `β` times the odd part. -/
def foldAt (x a b β : F) : F := (a + b) / 2 + β * ((a - b) / (2 * x))

end Hodor.Spec

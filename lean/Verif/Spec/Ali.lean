import Verif.Spec.Air
import Mathlib.Algebra.BigOperators.Group.Finset.Basic
import Mathlib.Order.Interval.Finset.Nat

/-!
# Specification: quotients of constraints and the composition polynomial
-/

namespace Hodor.Spec

open Polynomial

variable {F : Type} [Field F]

/-- Rows at which a dense constraint is enforced in a trace of `numRows` rows: from `start_at`, leaving out
the last `span` rows. -/
def enforcedRows (d : DenseConstraint) (numRows : ℕ) : Finset ℕ := Finset.Ico d.startAt (numRows - d.span)

/-- The polynomial that vanishes exactly at the points of the given rows, evaluated at `x`; row `i` is the
point `g^i`. -/
def zerofierAt (g : F) (rows : Finset ℕ) (x : F) : F := ∏ i ∈ rows, (x - g ^ i)

/-- The same as a polynomial. -/
noncomputable def zerofier (g : F) (rows : Finset ℕ) : F[X] := ∏ i ∈ rows, (X - C (g ^ i))

/-- The divisor of a constraint at `x`. -/
def divisorAt (g : F) (numRows : ℕ) (c : Constraint F) (x : F) : F :=
  match c.density with
  | .dense d => zerofierAt g (enforcedRows d numRows) x
  | _ => 1

/-- The random weight of a constraint whose degree is `n` below the maximum: `α` when `n = 0`, otherwise
`α x^n + β`. -/
def weightAt (n : ℕ) (αβ : F × F) (x : F) : F := if n = 0 then αβ.1 else αβ.1 * x ^ n + αβ.2

/-- The composition at a point `x`: the weighted sum of all quotients
`constraint(x) / divisor(x)` and `(register(x) - value) / (x - point of the row)`, the registers being
read as `e` says. `D` is the maximal degree, `cs` and `bs` are the constraints with their challenges. -/
def compositionAt (g : F) (numRows D : ℕ) (e : Env F) (cs : List (Constraint F × F × F))
    (bs : List (BoundaryConstraint F × F × F)) (x : F) : F :=
  (cs.map (fun c => constraintValue e c.1 * weightAt (D - c.1.degree) c.2 x / divisorAt g numRows c.1 x)).sum +
  (bs.map (fun b => (e b.1.register (.mask 1) - b.1.value.getD 0) * weightAt (D - 1) b.2 x
    / (x - g ^ b.1.atRow))).sum

/-- Instances for which proving is expected to work: `n` registers, `2^k` rows, maximal constraint degree
`2^f`, every constraint dense with the same density, every term a product of at least one power of a register
read at some step difference, declared degrees that are not too small, and boundary constraints with
a value. -/
structure Suitable (inst : InstanceProperties F) (n k f : ℕ) : Prop where
  rows : inst.numRows = 2 ^ k
  registers : inst.numRegisters = n
  pos : 0 < n
  two_rows : 1 ≤ k
  terms : ∀ c ∈ inst.constraints, ∀ t ∈ c.terms, termFactors t ≠ [] ∧ termDegree t ≤ c.degree ∧
    ∀ u ∈ termFactors t, (∃ r, r < n ∧ u.register = .register r) ∧ ∃ j, u.stepsDifference = .steps j
  density : ∃ d, d.startAt + d.span ≤ 2 ^ k ∧ ∀ c ∈ inst.constraints, c.density = .dense d
  degrees : (∀ c ∈ inst.constraints, c.degree ≤ 2 ^ f) ∧ ∃ c ∈ inst.constraints, c.degree = 2 ^ f
  boundary : ∀ b ∈ inst.boundaryConstraints, (∃ r, r < n ∧ b.register = .register r) ∧ b.atRow < 2 ^ k ∧
    ∃ v, b.value = some v

/-- Instances the prover can be run on: as `Suitable`, but the constraints may have different densities and terms whose degree exceeds the declared
degree of their constraint, and boundary constraints may be at any row. -/
structure Runnable (inst : InstanceProperties F) (n k f : ℕ) : Prop where
  rows : inst.numRows = 2 ^ k
  registers : inst.numRegisters = n
  pos : 0 < n
  two_rows : 1 ≤ k
  terms : ∀ c ∈ inst.constraints, ∀ t ∈ c.terms, termFactors t ≠ [] ∧
    ∀ u ∈ termFactors t, (∃ r, r < n ∧ u.register = .register r) ∧ ∃ j, u.stepsDifference = .steps j
  density : ∀ c ∈ inst.constraints, ∃ d, c.density = .dense d ∧ d.startAt + d.span ≤ 2 ^ k
  degrees : (∀ c ∈ inst.constraints, c.degree ≤ 2 ^ f) ∧ ∃ c ∈ inst.constraints, c.degree = 2 ^ f
  boundary : ∀ b ∈ inst.boundaryConstraints, (∃ r, r < n ∧ b.register = .register r) ∧ ∃ v, b.value = some v

end Hodor.Spec

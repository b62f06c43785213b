import Verif.Spec.FftCost
import Verif.Spec.Air
import Verif.Spec.Cost
import Verif.Model.Worker

/-!
# What setting up a prover costs

A field operation is an addition, a subtraction, a product, a squaring, an inverse or a conversion from an integer. `S` is the number of times two divides the
order of the multiplicative group. A vector of `n` entries is split into `w.numSpawnedThreads n` chunks of `w.chunkSize n` entries (property C03).
-/

namespace Hodor.Spec

variable {F : Type}

/-- Reading a number from its decimal digits: the constant ten, and a conversion, a product and a sum for each digit. -/
def decimalOps (m : ℕ) : ℕ := 1 + 3 * (Nat.digits 10 m).length

/-- The generator of the domain of the next power of two is found by squaring. -/
def domainOps (S n : ℕ) : ℕ := S - Nat.clog 2 n

/-- A new polynomial: its domain, the size as a field element, and the inverses of the size, of the generator and of the coset shift. -/
def polyOps (S n : ℕ) : ℕ := domainOps S n + decimalOps (2 ^ Nat.clog 2 n) + 3

/-- Where the chunks of a table of powers begin: one power for each. -/
def startOps (w : Worker) (n : ℕ) : ℕ := ∑ i ∈ Finset.range (w.numSpawnedThreads n), powExact (i * w.chunkSize n)

/-- Inverting all values together: three products for each, one inverse, and the products of the chunks combined in all ways. -/
def invertAllOps (w : Worker) (n : ℕ) : ℕ := 3 * n + w.numSpawnedThreads n ^ 2 + 1

/-- Tables of the powers of the generator, of half of those of its inverse, and of the shifted powers. -/
def tableOps (w : Worker) (n : ℕ) : ℕ := 1 + (startOps w n + n) + (startOps w (n / 2) + n / 2) + n

/-- The first row, counted from the start of the trace, which the span of the constraint does not fit into. -/
def lastRow (rows : ℕ) : ConstraintDensity → ℕ
  | .dense d => rows - d.span
  | _ => 0

/-- The divisors of one density, on `n` points: the excluded points, the vanishing polynomial of all rows by one power for each point, the inverses, and for each
point a difference and a product for each excluded row. -/
def densityOps (S : ℕ) (w : Worker) (k n rows : ℕ) (d : ConstraintDensity) : ℕ :=
  (excludedRows (2 ^ k) rows d + powExact (lastRow rows d)) + polyOps S n +
  (startOps w n + w.numSpawnedThreads n + n * (k + 3)) +
  invertAllOps w n +
  (startOps w n + w.numSpawnedThreads n + n * (2 * excludedRows (2 ^ k) rows d + 1))

/-- The divisor of one row with boundary values, on `n` points: the point of the row, a linear polynomial, its values, their inverses. -/
def boundaryOps (S : ℕ) (w : Worker) (n row : ℕ) : ℕ :=
  powExact row + (polyOps S 2 + 1) + (domainOps S n + (startOps w n + w.numSpawnedThreads n + 3 * n) + polyOps S n) + invertAllOps w n

/-- One power for each factor of each term of a constraint: the shift by its number of steps. -/
def shiftOps (t : UnivariateTerm F) : ℕ :=
  match t.stepsDifference with
  | .steps n => powExact n
  | .mask _ => 0

/-- The largest degree of the constraints. -/
def degreeOf (inst : InstanceProperties F) : ℕ := inst.constraints.foldr (fun c m => max c.degree m) 0

/-- The number of rows of the padded trace is `2 ^ rowsLog`. -/
def rowsLog (inst : InstanceProperties F) : ℕ := Nat.clog 2 inst.numRows

/-- The number of points on which the constraints are evaluated. -/
def pointsOf (inst : InstanceProperties F) : ℕ := 2 ^ Nat.clog 2 (2 ^ rowsLog inst * degreeOf inst)

/-- The field operations of setting up a prover: two times the domain of the rows, the shifts, the domain and the tables of the points, the divisors of every density and
of every row with a boundary value. -/
def setupOps (S : ℕ) (w : Worker) (inst : InstanceProperties F) : ℕ :=
  domainOps S (2 ^ rowsLog inst) + (inst.constraints.map (fun c => ((factors c).map shiftOps).sum)).sum +
  domainOps S inst.numRows + domainOps S (pointsOf inst) + tableOps w (pointsOf inst) +
  ((densitiesOf inst.constraints).map (densityOps S w (rowsLog inst) (pointsOf inst) inst.numRows)).sum +
  ∑ r ∈ (inst.boundaryConstraints.map (fun b => b.atRow)).toFinset, boundaryOps S w (pointsOf inst) r

/-- What does not depend on the number of points except through its logarithm `L`; `t` is the number of tasks. -/
def setupOverhead (S L t : ℕ) : ℕ := 3 * S + t ^ 2 + (4 * L + 2) * t + 5 * L + 30

end Hodor.Spec

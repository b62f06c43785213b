import Verif.Model.Stark
import Verif.Spec.Densities

/-!
# Specification: what a verification costs

Hash calls and field operations, in terms of the contents of the proof and of the instance. `S` is the two-adicity of the field
(the largest supported domain has `2^S` points).
-/

namespace Hodor.Spec

variable {F : Type}

/-- A power with exponent `e`: at most two operations per binary digit. -/
def powOps (e : ℕ) : ℕ := 2 * (Nat.log 2 e + 1)

/-- A power whose exponent is at most `2^S`. -/
def powOpsS (S : ℕ) : ℕ := 2 * (S + 1)

/-! ## Hash calls -/

/-- One opening: the leaf and one node per digest of the path. -/
def openingHashes (q : IopQuery F) : ℕ := 1 + q.path.length

/-- A FRI proof: the two openings that belong to each root. -/
def friHashes (p : FriProof F) : ℕ := ((p.queries.take (2 * p.roots.length)).map openingHashes).sum

/-- The openings of a proof. -/
def openingsHashes (p : InstanceProof F) : ℕ :=
  (p.fQueries.map openingHashes).sum + openingHashes p.gQuery + friHashes p.friProofH1 + friHashes p.friProofH2

/-- The transcript: two challenges per constraint and per boundary constraint, one per claimed value, `z`, and two positions. -/
def transcriptHashes (constraints boundary values : ℕ) : ℕ := 2 * constraints + 2 * boundary + values + 3

/-! ## Field operations -/

/-- One term: a power and a product per factor, and a product. -/
def termOps : ConstraintTerm F → ℕ
  | .univariate t => powOps t.power + 1
  | .polyvariate p => (p.terms.map (fun t => powOps t.power + 2)).sum + 1

/-- One constraint: its terms and their sum. -/
def constraintOps (c : Constraint F) : ℕ := (c.terms.map (fun t => termOps t + 1)).sum

/-- The rows on which a constraint of this density is not imposed: the rows before the start, the last rows, and the rows by which the
table of `numRows` rows is padded to `size`. -/
def excludedRows (size numRows : ℕ) : ConstraintDensity → ℕ
  | .dense d => d.startAt + (size - (numRows - d.span))
  | _ => 0

/-- The divisor of one density: two powers, one inversion, and three operations for every row that is not constrained. -/
def divisorOps (size numRows : ℕ) (d : ConstraintDensity) : ℕ := powOps size + powOps numRows + 2 + 3 * excludedRows size numRows d

/-- A FRI proof with `rounds` roots and `coeffs` final coefficients. -/
def friOps (S rounds coeffs : ℕ) : ℕ := 3 + S + 4 * powOpsS S + rounds * (powOpsS S + 9) + 3 * coeffs

/-- The value of the composition at `z`: one divisor for each different density, the constraints, the boundary constraints. -/
def compositionOps (size numRows maxPower : ℕ) (constraints : List (Constraint F)) (boundary : List (BoundaryConstraint F)) : ℕ :=
  ((densitiesOf constraints).map (divisorOps size numRows)).sum + (constraints.map (fun c => constraintOps c + powOps maxPower + 5)).sum +
    (boundary.map (fun b => powOps b.atRow + powOps maxPower + 8)).sum

/-- The transcript, the two simulated values and everything else. -/
def otherOps (S constraints boundary values coeffs : ℕ) : ℕ :=
  2 * constraints + 2 * boundary + 9 * values + coeffs + 2 * S + 2 * powOpsS S + 5

end Hodor.Spec

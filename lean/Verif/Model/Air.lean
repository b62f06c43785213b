import Verif.Model.Field

/-!
# Registers, constraints and the constraint builder (`src/air/mod.rs`, `src/air/constraint.rs`)

`u64` degrees and powers are natural numbers; the arithmetic on them is checked (`checkedAdd64`,
`checkedMul64`), as in a build with overflow checks.
-/

namespace Hodor

/-- `src/air/mod.rs` 17-23 `enum Register` -/
inductive Register where
  | programCounter (i : ℕ)
  | register (i : ℕ)
  | constant (i : ℕ)
  | aux (i : ℕ)
deriving DecidableEq

/-- `src/air/mod.rs` 29-33 `DenseConstraint` -/
structure DenseConstraint where
  startAt : ℕ
  span : ℕ
deriving DecidableEq

/-- `src/air/mod.rs` 37-42 `RepeatedConstraint` -/
structure RepeatedConstraint where
  startAt : ℕ
  span : ℕ
  interval : ℕ
deriving DecidableEq

/-- `src/air/mod.rs` 47-50 `SparseConstraint` -/
structure SparseConstraint where
  rows : List ℕ
deriving DecidableEq

/-- `src/air/mod.rs` 52-57 `enum ConstraintDensity` -/
inductive ConstraintDensity where
  | dense (d : DenseConstraint)
  | repeated (d : RepeatedConstraint)
  | sparse (d : SparseConstraint)
deriving DecidableEq

/-- `src/air/mod.rs` 76-83 `DenseConstraint::default` -/
def DenseConstraint.default : DenseConstraint := { startAt := 0, span := 1 }

/-- `src/air/mod.rs` 66-73 `DenseConstraint::new` -/
def DenseConstraint.new (startingAt span : ℕ) : Res DenseConstraint := do
  Res.assert (1 ≤ span)
  pure { startAt := startingAt, span := span }

/-- `src/air/mod.rs` 59-63 `ConstraintDensity::default` -/
def ConstraintDensity.default : ConstraintDensity := .dense DenseConstraint.default

/-- `src/air/constraint.rs` 129-133 `enum StepDifference` -/
inductive StepDifference (F : Type) where
  | steps (n : ℕ)
  | mask (m : F)
deriving DecidableEq

/-- `src/air/constraint.rs` 121-127 `UnivariateTerm` -/
structure UnivariateTerm (F : Type) where
  coeff : F
  register : Register
  stepsDifference : StepDifference F
  power : ℕ
deriving DecidableEq

/-- `src/air/constraint.rs` 148-153 `PolyvariateTerm` -/
structure PolyvariateTerm (F : Type) where
  coeff : F
  terms : List (UnivariateTerm F)
  totalDegree : ℕ
deriving DecidableEq

/-- `src/air/constraint.rs` 115-119 `enum ConstraintTerm` -/
inductive ConstraintTerm (F : Type) where
  | univariate (t : UnivariateTerm F)
  | polyvariate (p : PolyvariateTerm F)
deriving DecidableEq

/-- `src/air/constraint.rs` 17-23 `Constraint` -/
structure Constraint (F : Type) where
  constantTerm : F
  terms : List (ConstraintTerm F)
  degree : ℕ
  density : ConstraintDensity
deriving DecidableEq

/-- `src/air/constraint.rs` 10-15 `BoundaryConstraint` -/
structure BoundaryConstraint (F : Type) where
  register : Register
  atRow : ℕ
  value : Option F
deriving DecidableEq

/-- `u64` addition with overflow check. -/
def checkedAdd64 (a b : ℕ) : Res ℕ := if a + b < 2 ^ 64 then .ok (a + b) else .panic

/-- `u64::checked_mul(..).expect(..)` -/
def checkedMul64 (a b : ℕ) : Res ℕ := if a * b < 2 ^ 64 then .ok (a * b) else .panic

variable {F : Type} [Field F]

namespace UnivariateTerm

/-- `src/air/constraint.rs` 157-166 `From<Register>` -/
def ofRegister (r : Register) : UnivariateTerm F :=
  { coeff := 1, register := r, stepsDifference := .steps 0, power := 1 }

/-- `src/air/constraint.rs` 168-178 `MulAssign<&F>` / `MulAssign<F>` -/
def mulScalar (t : UnivariateTerm F) (x : F) : UnivariateTerm F := { t with coeff := t.coeff * x }

/-- `src/air/constraint.rs` 181-183 `set_step_difference` -/
def setStepDifference (t : UnivariateTerm F) (steps : ℕ) : UnivariateTerm F :=
  { t with stepsDifference := .steps steps }

/-- `src/air/constraint.rs` 185-191 `pow`: only the exponent is multiplied, the coefficient is kept. -/
def pow (t : UnivariateTerm F) (power : ℕ) : Res (UnivariateTerm F) := do
  let newPower ← checkedMul64 t.power power
  pure { t with power := newPower }

end UnivariateTerm

namespace PolyvariateTerm

/-- `src/air/constraint.rs` 196-211 `From<(F, UnivariateTerm)>` -/
def ofPair (coeff : F) (t : UnivariateTerm F) : PolyvariateTerm F :=
  { coeff := coeff * t.coeff, terms := [{ t with coeff := 1 }], totalDegree := t.power }

/-- `src/air/constraint.rs` 213-221 `Default` -/
def default : PolyvariateTerm F := { coeff := 1, terms := [], totalDegree := 0 }

/-- `src/air/constraint.rs` 223-231 `MulAssign<UnivariateTerm>` -/
def mulUnivariate (p : PolyvariateTerm F) (t : UnivariateTerm F) : Res (PolyvariateTerm F) := do
  let d ← checkedAdd64 p.totalDegree t.power
  pure { coeff := p.coeff * t.coeff, terms := p.terms ++ [{ t with coeff := 1 }], totalDegree := d }

/-- `src/air/constraint.rs` 233-243 `MulAssign<F>` / `MulAssign<&F>` -/
def mulScalar (p : PolyvariateTerm F) (x : F) : PolyvariateTerm F := { p with coeff := p.coeff * x }

/-- `src/air/constraint.rs` 245-251 `MulAssign<PolyvariateTerm>` -/
def mulPolyvariate (p q : PolyvariateTerm F) : Res (PolyvariateTerm F) := do
  let d ← checkedAdd64 p.totalDegree q.totalDegree
  pure { coeff := p.coeff * q.coeff, terms := p.terms ++ q.terms, totalDegree := d }

end PolyvariateTerm

namespace Constraint

/-- `src/air/constraint.rs` 255-264 `Default` -/
def default : Constraint F :=
  { constantTerm := 0, terms := [], degree := 0, density := .dense DenseConstraint.default }

/-- The recurring `if self.degree < d { self.degree = d }; self.terms.push(t)`
(`src/air/constraint.rs` 268-271 and so on). -/
def push (c : Constraint F) (d : ℕ) (t : ConstraintTerm F) : Constraint F :=
  { c with degree := if c.degree < d then d else c.degree, terms := c.terms ++ [t] }

/-- `src/air/constraint.rs` 266-273 `AddAssign<PolyvariateTerm>` -/
def addPolyvariate (c : Constraint F) (t : PolyvariateTerm F) : Constraint F :=
  c.push t.totalDegree (.polyvariate t)

/-- `src/air/constraint.rs` 275-284 `SubAssign<PolyvariateTerm>` -/
def subPolyvariate (c : Constraint F) (t : PolyvariateTerm F) : Constraint F :=
  c.push t.totalDegree (.polyvariate { t with coeff := -t.coeff })

/-- `src/air/constraint.rs` 286-293 `AddAssign<UnivariateTerm>` -/
def addUnivariate (c : Constraint F) (t : UnivariateTerm F) : Constraint F :=
  c.push t.power (.univariate t)

/-- `src/air/constraint.rs` 295-304 `SubAssign<UnivariateTerm>` -/
def subUnivariate (c : Constraint F) (t : UnivariateTerm F) : Constraint F :=
  c.push t.power (.univariate { t with coeff := -t.coeff })

/-- `src/air/constraint.rs` 306-310 `AddAssign<&F>` -/
def addConstant (c : Constraint F) (x : F) : Constraint F :=
  { c with constantTerm := c.constantTerm + x }

/-- `src/air/constraint.rs` 312-316 `SubAssign<&F>` -/
def subConstant (c : Constraint F) (x : F) : Constraint F :=
  { c with constantTerm := c.constantTerm - x }

end Constraint

end Hodor

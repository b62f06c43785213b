import Verif.Model.Arp

/-!
# The VDF programs (`src/experiments/vdf.rs`, `src/experiments/cubic_vdf.rs`)

`num_operations + 1` on `usize` does not overflow for a witness that fits in memory; it is a natural number here.
-/

namespace Hodor

variable {F : Type} [Field F]

/-- `src/experiments/vdf.rs` 20-33 and `cubic_vdf.rs` 22-35 `square` -/
def vdfSquare (el : F × F) (nonResidue : F) : F × F :=
  let twoC0C1 := el.1 * el.2
  let twoC0C1 := twoC0C1 + twoC0C1
  let c0 := el.1 ^ 2
  let c1 := el.2 ^ 2
  let c1 := c1 * nonResidue
  (c0 + c1, twoC0C1)

/-- `src/experiments/cubic_vdf.rs` 37-61 `mul` -/
def vdfMul (el other : F × F) (nonResidue : F) : F × F :=
  let ac := el.1 * other.1
  let bdByR := el.2 * other.2 * nonResidue
  let ad := el.1 * other.2
  let bc := el.2 * other.1
  (ac + bdByR, ad + bc)

/-- `src/experiments/vdf.rs` 12-16 `VDF` and `cubic_vdf.rs` 13-17 `CubicVDF` -/
structure Vdf (F : Type) where
  startC0 : F
  startC1 : F
  numOperations : ℕ

/-- `src/experiments/vdf.rs` 90-96, the body of the loop; the state is `v0, v1` and the two columns. -/
def vdfStep (nonResidue : F) (i : ℕ) (s : (F × F) × List F × List F) : Res ((F × F) × List F × List F) := do
  let tmp := vdfSquare s.1 nonResidue
  let c0 ← wr s.2.1 (i + 1) tmp.1
  let c1 ← wr s.2.2 (i + 1) tmp.2
  pure (tmp, c0, c1)

/-- `src/experiments/vdf.rs` 18-131 `VDF::into_arp` -/
def Vdf.intoArp (v : Vdf F) : Res (List (List F) × InstanceProperties F) := do
  let nonResidue : F := -1
  let c0Now : UnivariateTerm F := .ofRegister (.register 0)
  let c1Now : UnivariateTerm F := .ofRegister (.register 1)
  let c0Next := (UnivariateTerm.ofRegister (F := F) (.register 0)).setStepDifference 1
  let c1Next := (UnivariateTerm.ofRegister (F := F) (.register 1)).setStepDifference 1
  let c0Squared ← c0Now.pow 2
  let c1Squared ← c1Now.pow 2
  let c1SquaredByR := c1Squared.mulScalar nonResidue
  let two : F := 1 + 1
  let twoC0C1 := (PolyvariateTerm.default : PolyvariateTerm F).mulScalar two
  let twoC0C1 ← twoC0C1.mulUnivariate c0Now
  let twoC0C1 ← twoC0C1.mulUnivariate c1Now
  let constraint0 := (((Constraint.default : Constraint F).subUnivariate c0Squared).subUnivariate c1SquaredByR).addUnivariate c0Next
  let constraint1 := ((Constraint.default : Constraint F).subPolyvariate twoC0C1).addUnivariate c1Next
  let numValues := v.numOperations + 1
  let c0Witness ← wr (List.replicate numValues (0 : F)) 0 v.startC0
  let c1Witness ← wr (List.replicate numValues (0 : F)) 0 v.startC1
  let s ← forN v.numOperations 0 ((v.startC0, v.startC1), c0Witness, c1Witness) (vdfStep nonResidue)
  let initialC0 : BoundaryConstraint F := { register := .register 0, atRow := 0, value := some v.startC0 }
  let initialC1 : BoundaryConstraint F := { register := .register 1, atRow := 0, value := some v.startC1 }
  let finalC0 : BoundaryConstraint F := { register := .register 0, atRow := v.numOperations, value := s.2.1.getLast? }
  let finalC1 : BoundaryConstraint F := { register := .register 1, atRow := v.numOperations, value := s.2.2.getLast? }
  let props : InstanceProperties F :=
    { numRows := v.numOperations + 1, numRegisters := 2, constraints := [constraint0, constraint1],
      boundaryConstraints := [initialC0, initialC1, finalC0, finalC1] }
  pure ([s.2.1, s.2.2], props)

/-- The variables of the loop in `src/experiments/cubic_vdf.rs` 214-231. -/
structure CubicState (F : Type) where
  v : F × F
  vSquared : F × F
  c0 : List F
  c1 : List F
  s0 : List F
  s1 : List F

/-- `src/experiments/cubic_vdf.rs` 218-231, the body of the loop. -/
def cubicStep (nonResidue : F) (i : ℕ) (s : CubicState F) : Res (CubicState F) := do
  let cubed := vdfMul s.vSquared s.v nonResidue
  let c0 ← wr s.c0 (i + 1) cubed.1
  let c1 ← wr s.c1 (i + 1) cubed.2
  let tmp := vdfSquare cubed nonResidue
  let s0 ← wr s.s0 (i + 1) tmp.1
  let s1 ← wr s.s1 (i + 1) tmp.2
  let r : CubicState F := { v := cubed, vSquared := tmp, c0 := c0, c1 := c1, s0 := s0, s1 := s1 }
  pure r

/-- A term of `src/experiments/cubic_vdf.rs` 81-135: coefficient, register, step difference, power. -/
def cubicTerm (coeff : F) (r steps power : ℕ) : UnivariateTerm F :=
  { coeff := coeff, register := .register r, stepsDifference := .steps steps, power := power }

/-- A product of `src/experiments/cubic_vdf.rs` 136-140, 160-170, 181-191: coefficient and two factors, total degree 2. -/
def cubicProduct (coeff : F) (a b : UnivariateTerm F) : PolyvariateTerm F :=
  { coeff := coeff, terms := [a, b], totalDegree := 2 }

/-- `src/experiments/cubic_vdf.rs` 20-265 `CubicVDF::into_arp` -/
def Vdf.intoArpCubic (v : Vdf F) : Res (List (List F) × InstanceProperties F) := do
  let nonResidue : F := -1
  let c0Now := cubicTerm (1 : F) 0 0 1
  let c1Now := cubicTerm (1 : F) 1 0 1
  let c0Next := cubicTerm (1 : F) 0 1 1
  let c1Next := cubicTerm (1 : F) 1 1 1
  let c0Squared := cubicTerm (1 : F) 0 0 2
  let c1SquaredByR := cubicTerm nonResidue 1 0 2
  let inter0 := cubicTerm (1 : F) 2 0 1
  let inter1 := cubicTerm (1 : F) 3 0 1
  let two : F := 1 + 1
  let twoC0C1 := cubicProduct two c0Now c1Now
  let constraint0 := (((Constraint.default : Constraint F).subUnivariate c0Squared).subUnivariate c1SquaredByR).addUnivariate inter0
  let constraint1 := ((Constraint.default : Constraint F).subPolyvariate twoC0C1).addUnivariate inter1
  let c0ByInter := cubicProduct (1 : F) c0Now inter0
  let rC1ByInter := cubicProduct nonResidue c1Now inter1
  let constraint2 := (((Constraint.default : Constraint F).subPolyvariate c0ByInter).subPolyvariate rC1ByInter).addUnivariate c0Next
  let c0ByInter1 := cubicProduct (1 : F) c0Now inter1
  let c1ByInter0 := cubicProduct (1 : F) c1Now inter0
  let constraint3 := (((Constraint.default : Constraint F).subPolyvariate c0ByInter1).subPolyvariate c1ByInter0).addUnivariate c1Next
  let numValues := v.numOperations + 1
  let tmp := vdfSquare (v.startC0, v.startC1) nonResidue
  let c0 ← wr (List.replicate numValues (0 : F)) 0 v.startC0
  let c1 ← wr (List.replicate numValues (0 : F)) 0 v.startC1
  let s0 ← wr (List.replicate numValues (0 : F)) 0 tmp.1
  let s1 ← wr (List.replicate numValues (0 : F)) 0 tmp.2
  let init : CubicState F := { v := (v.startC0, v.startC1), vSquared := tmp, c0 := c0, c1 := c1, s0 := s0, s1 := s1 }
  let s ← forN v.numOperations 0 init (cubicStep nonResidue)
  let initialC0 : BoundaryConstraint F := { register := .register 0, atRow := 0, value := some v.startC0 }
  let initialC1 : BoundaryConstraint F := { register := .register 1, atRow := 0, value := some v.startC1 }
  let finalC0 : BoundaryConstraint F := { register := .register 0, atRow := v.numOperations, value := s.c0.getLast? }
  let finalC1 : BoundaryConstraint F := { register := .register 1, atRow := v.numOperations, value := s.c1.getLast? }
  let props : InstanceProperties F :=
    { numRows := v.numOperations + 1, numRegisters := 4, constraints := [constraint0, constraint1, constraint2, constraint3],
      boundaryConstraints := [initialC0, initialC1, finalC0, finalC1] }
  pure ([s.c0, s.c1, s.s0, s.s1], props)

end Hodor

import Verif.Spec.Verify

/-!
# The statement a proof is checked against
-/

namespace Hodor.Spec

variable {F : Type} [Field F]

/-- The instance with other values in its boundary constraints, which fix the inputs and outputs of the computation. -/
def withValues (inst : InstanceProperties F) (vals : List F) : InstanceProperties F :=
  { inst with boundaryConstraints := List.zipWith (fun b x => { b with value := some x }) inst.boundaryConstraints vals }

/-- The factor with which the value of a boundary constraint enters the composition at `x`: the weight `α x^(D-1) + β` divided by `x` minus the point of its row. -/
def boundaryFactor (g : F) (D : ℕ) (x : F) (b : BoundaryConstraint F × F × F) : F := weightAt (D - 1) b.2 x / (x - g ^ b.1.atRow)

/-- By how much the composition at `x` falls if the boundary values become `vals`. -/
def compositionShift (g : F) (D : ℕ) (x : F) (bs : List (BoundaryConstraint F × F × F)) (vals : List F) : F :=
  ((bs.zip vals).map (fun q => (q.2 - q.1.1.value.getD 0) * boundaryFactor g D x q.1)).sum

end Hodor.Spec

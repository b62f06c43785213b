import Verif.Spec.Ali

/-!
# Specification: what two densities add to the composition
-/

namespace Hodor.Spec

variable {F : Type} [Field F]

/-- The weighted sum of the quotients of the constraints `cs` alone, the registers being read as `E` says. -/
def quotientSum (g : F) (T D : ℕ) (E : F → Env F) (cs : List (Constraint F × F × F)) (x : F) : F :=
  (cs.map (fun c => constraintValue (E x) c.1 * weightAt (D - c.1.degree) c.2 x / divisorAt g T c.1 x)).sum

/-- The sum of the weights of the constraints `cs`. -/
def weightSum (D : ℕ) (cs : List (Constraint F × F × F)) (x : F) : F := (cs.map (fun c => weightAt (D - c.1.degree) c.2 x)).sum

/-- The constraints have the two densities `d₁` and `d₂`, the first of them being of density `d₁`. -/
def TwoDensities (cs : List (Constraint F)) (d₁ d₂ : ConstraintDensity) : Prop :=
  d₁ ≠ d₂ ∧ (∃ c cs', cs = c :: cs' ∧ c.density = d₁) ∧ (∃ c ∈ cs, c.density = d₂) ∧ ∀ c ∈ cs, c.density = d₁ ∨ c.density = d₂

/-- The densities of the constraints, in order of first appearance. -/
def densitiesOf : List (Constraint F) → List ConstraintDensity
  | [] => []
  | c :: cs => c.density :: (densitiesOf cs).filter (fun d => d ≠ c.density)

/-- The constraints grouped by density, the groups in order of first appearance and the constraints in the given order. -/
def groupsOf (cs : List (Constraint F)) : List (ConstraintDensity × List (Constraint F)) :=
  (densitiesOf cs).map (fun d => (d, cs.filter (fun c => c.density = d)))

/-- The polynomial that vanishes on the rows of a density, at `x`. -/
def densityZero (g : F) (T : ℕ) (x : F) : ConstraintDensity → F
  | .dense d => zerofierAt g (enforcedRows d T) x
  | _ => 1

/-- What is added to the sum of quotients at `x` when every group of constraints starts from the sum `a` accumulated so far instead of zero: the group then counts `a`, once on its own and once with every weight, and
divides it by the group's divisor. The pairs `cc` are used up in order. -/
def excess (g : F) (T D : ℕ) (E : F → Env F) (x : F) : List (ConstraintDensity × List (Constraint F)) → List (F × F) → F → F
  | [], _, _ => 0
  | (d, cs) :: gs, cc, a =>
    let extra := a * (1 + weightSum D (cs.zip cc) x) / densityZero g T x d
    extra + excess g T D E x gs (cc.drop cs.length) (a + quotientSum g T D E (cs.zip cc) x + extra)

end Hodor.Spec

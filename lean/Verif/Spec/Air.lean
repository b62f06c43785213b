import Verif.Model.Arp
import Mathlib.Algebra.Polynomial.Eval.Degree

/-!
# Specification: what a constraint means

A constraint is a polynomial expression in register values. `Env` says which value a register has when
read with a given step difference; `constraintValue` is the value of the expression.
-/

namespace Hodor.Spec

open Polynomial

variable {F : Type} [Field F]

/-- The value of a register read with a step difference. -/
abbrev Env (F : Type) := Register → StepDifference F → F

/-- `coeff * value^power` -/
def uniValue (e : Env F) (t : UnivariateTerm F) : F :=
  t.coeff * e t.register t.stepsDifference ^ t.power

/-- `coeff * ∏ terms` -/
def polyTermValue (e : Env F) (p : PolyvariateTerm F) : F :=
  p.coeff * (p.terms.map (uniValue e)).prod

/-- Value of a term. -/
def termValue (e : Env F) : ConstraintTerm F → F
  | .univariate t => uniValue e t
  | .polyvariate p => polyTermValue e p

/-- `constant + ∑ terms` -/
def constraintValue (e : Env F) (c : Constraint F) : F :=
  c.constantTerm + (c.terms.map (termValue e)).sum

/-- Reading a trace, `w r i` being register `r` at row `i`, from row `row`: step difference `k` reads row
`row + k`. (Masks do not occur in a trace constraint.) -/
def rowEnv (w : Register → ℕ → F) (row : ℕ) : Env F
  | r, .steps k => w r (row + k)
  | _, .mask _ => 0

/-- Reading register polynomials at a point `x`: a mask `m` reads the polynomial at `m * x`. -/
noncomputable def pointEnv (P : ℕ → F[X]) (x : F) : Env F
  | .register r, .mask m => (P r).eval (m * x)
  | _, _ => 0

/-- The univariate factors of a term. -/
def termFactors : ConstraintTerm F → List (UnivariateTerm F)
  | .univariate t => [t]
  | .polyvariate p => p.terms

/-- All univariate factors of a constraint. -/
def factors (c : Constraint F) : List (UnivariateTerm F) := c.terms.flatMap termFactors

/-- Total degree of a term in the register values. -/
def termDegree (t : ConstraintTerm F) : ℕ := ((termFactors t).map (fun u => u.power)).sum

/-- The trace table as a function: row `i` of register number `r`. -/
def cell (witness : List (List F)) (r i : ℕ) : F := (witness.getD r []).getD i 0

/-- The same indexed by register (ARP registers are numbered). -/
def cellR (witness : List (List F)) : Register → ℕ → F
  | .register r, i => cell witness r i
  | _, _ => 0

/-- A table of `n` registers and `T` rows. -/
def IsTable (witness : List (List F)) (n T : ℕ) : Prop :=
  witness.length = n ∧ ∀ r ∈ witness, r.length = T

/-- The instance only refers to existing registers (numbered `< n`) and rows `< T`, by step differences,
and all its constraints are dense with a span that fits. -/
structure WellFormed (inst : InstanceProperties F) (n T : ℕ) : Prop where
  dense : ∀ c ∈ inst.constraints, ∃ d, c.density = .dense d ∧ d.span ≤ T
  factors : ∀ c ∈ inst.constraints, ∀ t ∈ factors c,
    (∃ r, r < n ∧ t.register = .register r) ∧ ∃ k, t.stepsDifference = .steps k
  boundary : ∀ b ∈ inst.boundaryConstraints, (∃ r, r < n ∧ b.register = .register r) ∧ b.atRow < T

/-- Constraint `c` holds at row `row` of a trace with `T` rows: the rows it reads exist and its value is
zero. -/
def HoldsAt (w : Register → ℕ → F) (T : ℕ) (c : Constraint F) (row : ℕ) : Prop :=
  (∀ t ∈ factors c, ∀ k, t.stepsDifference = .steps k → row + k < T) ∧
    constraintValue (rowEnv w row) c = 0

/-- The rows a constraint is enforced at: from `start_at`, leaving out the last `span` rows. -/
def Enforced (c : Constraint F) (T row : ℕ) : Prop :=
  ∃ d, c.density = .dense d ∧ d.startAt ≤ row ∧ row + d.span < T

/-- The trace satisfies the instance. -/
def Satisfies (inst : InstanceProperties F) (w : Register → ℕ → F) (T : ℕ) : Prop :=
  (∀ c ∈ inst.constraints, ∀ row, Enforced c T row → HoldsAt w T c row) ∧
    ∀ b ∈ inst.boundaryConstraints, ∀ v, b.value = some v → w b.register b.atRow = v

/-- A product term obtained with the operators of the constraint builder. -/
inductive BuiltPoly : PolyvariateTerm F → Prop
  | ofPair (x : F) (t : UnivariateTerm F) : BuiltPoly (.ofPair x t)
  | default : BuiltPoly .default
  | mulUnivariate {p : PolyvariateTerm F} (t : UnivariateTerm F) {q} :
      BuiltPoly p → p.mulUnivariate t = .ok q → BuiltPoly q
  | mulScalar {p : PolyvariateTerm F} (x : F) : BuiltPoly p → BuiltPoly (p.mulScalar x)
  | mulPolyvariate {p p' q : PolyvariateTerm F} :
      BuiltPoly p → BuiltPoly p' → p.mulPolyvariate p' = .ok q → BuiltPoly q

/-- A constraint obtained with the operators of the constraint builder. -/
inductive Built : Constraint F → Prop
  | default : Built .default
  | addPolyvariate {c : Constraint F} {t} : Built c → BuiltPoly t → Built (c.addPolyvariate t)
  | subPolyvariate {c : Constraint F} {t} : Built c → BuiltPoly t → Built (c.subPolyvariate t)
  | addUnivariate {c : Constraint F} (t) : Built c → Built (c.addUnivariate t)
  | subUnivariate {c : Constraint F} (t) : Built c → Built (c.subUnivariate t)
  | addConstant {c : Constraint F} (x) : Built c → Built (c.addConstant x)
  | subConstant {c : Constraint F} (x) : Built c → Built (c.subConstant x)
  | setDensity {c : Constraint F} (d) : Built c → Built { c with density := d }

/-- The polynomial obtained by composing a factor with the register polynomials. -/
noncomputable def uniPoly (P : ℕ → F[X]) (t : UnivariateTerm F) : F[X] :=
  match t.register, t.stepsDifference with
  | .register r, .mask m => C t.coeff * ((P r).comp (C m * X)) ^ t.power
  | _, _ => C t.coeff * 0 ^ t.power

/-- The polynomial of a term. -/
noncomputable def termPoly (P : ℕ → F[X]) : ConstraintTerm F → F[X]
  | .univariate t => uniPoly P t
  | .polyvariate p => C p.coeff * (p.terms.map (uniPoly P)).prod

/-- The polynomial of a constraint, `constant + ∑ terms`, over the register polynomials `P`. -/
noncomputable def constraintPoly (P : ℕ → F[X]) (c : Constraint F) : F[X] :=
  C c.constantTerm + (c.terms.map (termPoly P)).sum

end Hodor.Spec

import Verif.Model.Machine
import Verif.Model.Density

/-!
# Constraints, the witness check and divisors with 64-bit words

The rest of the model treats the unsigned arithmetic on numbers given by the user (powers, step differences, first
rows, spans) as in a build with overflow checks. Here the same functions are modelled with 64-bit words in both build
profiles. Words are natural numbers below `2^64`.
-/

namespace Hodor

/-- `a + b` on `u64`/`usize`: overflow panics with overflow checks and wraps without. -/
def addWord (p : Profile) (a b : ℕ) : Res ℕ :=
  if a + b < 2 ^ 64 then .ok (a + b)
  else match p with
    | .debug => .panic
    | .release => .ok ((a + b) % 2 ^ 64)

/-- `a - b` on `u64`/`usize`: underflow panics with overflow checks and wraps without. -/
def subWord (p : Profile) (a b : ℕ) : Res ℕ :=
  if b ≤ a then .ok (a - b)
  else match p with
    | .debug => .panic
    | .release => .ok ((2 ^ 64 + a - b) % 2 ^ 64)

variable {F : Type} [Field F]

/-- `src/air/constraint.rs` 223-231 `MulAssign<UnivariateTerm>`: `self.total_degree += rhs.power` -/
def PolyvariateTerm.mulUnivariateWord (p : Profile) (q : PolyvariateTerm F) (t : UnivariateTerm F) : Res (PolyvariateTerm F) := do
  let d ← addWord p q.totalDegree t.power
  pure { coeff := q.coeff * t.coeff, terms := q.terms ++ [{ t with coeff := 1 }], totalDegree := d }

/-- `src/air/constraint.rs` 245-251 `MulAssign<PolyvariateTerm>` -/
def PolyvariateTerm.mulPolyvariateWord (p : Profile) (q r : PolyvariateTerm F) : Res (PolyvariateTerm F) := do
  let d ← addWord p q.totalDegree r.totalDegree
  pure { coeff := q.coeff * r.coeff, terms := q.terms ++ r.terms, totalDegree := d }

/-- `src/arp/per_register/mod.rs` 185-214 `evaluate_univariate_term_on_witness`: `base_row + step_delta` on words. -/
def evaluateUnivariateWord (p : Profile) (t : UnivariateTerm F) (witness : List (List F)) (baseRow : ℕ) : Res F := do
  let delta ← (match t.stepsDifference with
    | .steps n => .ok n
    | .mask _ => .panic : Res ℕ)
  let n ← t.register.num
  let cells ← rd witness n
  let row ← addWord p baseRow delta
  let value ← (match cells[row]? with
    | none => .err .invalidValue
    | some v => .ok v : Res F)
  pure (value ^ t.power * t.coeff)

/-- `src/arp/per_register/mod.rs` 154-183 `evaluate_term_on_witness` -/
def evaluateTermWord (p : Profile) (witness : List (List F)) (baseRow : ℕ) : ConstraintTerm F → Res F
  | .univariate t => evaluateUnivariateWord p t witness baseRow
  | .polyvariate q => do
    let r ← forEach q.terms (1 : F) (fun t r => do
      let v ← evaluateUnivariateWord p t witness baseRow
      pure (r * v))
    pure (r * q.coeff)

/-- `src/arp/per_register/mod.rs` 140-152 `evaluate_constraint_on_witness` -/
def evaluateConstraintWord (p : Profile) (c : Constraint F) (witness : List (List F)) (baseRow : ℕ) : Res F :=
  forEach c.terms c.constantTerm (fun t value => do
    let v ← evaluateTermWord p witness baseRow t
    pure (value + v))

/-- `src/arp/density_query.rs` 34-44 and 20-31: `num_rows - span` on words. -/
def denseRowsWord (p : Profile) (d : DenseConstraint) (numRows : ℕ) : Res (List ℕ) := do
  let limit ← subWord p numRows d.span
  pure ((List.range (limit - d.startAt)).map (fun i => d.startAt + i))

/-- `src/arp/per_register/mod.rs` 231-244 -/
def checkRowWord [DecidableEq F] (p : Profile) (c : Constraint F) (witness : List (List F)) (row : ℕ) : Res Unit := do
  let value ← evaluateConstraintWord p c witness row
  if value ≠ 0 then .err .unsatisfied else pure ()

/-- `src/arp/per_register/mod.rs` 219-245 -/
def checkConstraintWord [DecidableEq F] (p : Profile) (witness : List (List F)) (numRows : ℕ) (c : Constraint F) : Res Unit :=
  match c.density with
  | .dense d => do
    let rows ← denseRowsWord p d numRows
    forEach rows () (fun row _ => checkRowWord p c witness row)
  | _ => .panic

/-- `src/arp/per_register/mod.rs` 107-113 `is_satisfied` and 135-265 `verify_witness` -/
def isSatisfiedWord [DecidableEq F] (p : Profile) (inst : InstanceProperties F) (witness : List (List F)) : Res Unit := do
  let row0 ← rd witness 0
  let numRows := row0.length
  forEach inst.constraints () (fun c _ => checkConstraintWord p witness numRows c)
  forEach inst.boundaryConstraints () (fun b _ => checkBoundary witness b)

/-- `src/ali/per_register/mod.rs` 68-74 and `src/verifier/mod.rs` 642-648: the divisor degree (never used). -/
def divisorDegreeWord (p : Profile) (size numRows : ℕ) (d : DenseConstraint) : Res ℕ := do
  let a ← subWord p size d.startAt
  let b ← subWord p size numRows
  let a ← subWord p a b
  subWord p a d.span

/-- `src/ali/per_register/mod.rs` 76-94: the excluded points; `for _ in last_step..size` is empty if `last_step ≥ size`. -/
def excludedRootsWord (p : Profile) (columnDomain : Domain F) (d : DenseConstraint) (numRows : ℕ) : Res (List F) := do
  let g := columnDomain.generator
  let lastStep ← subWord p numRows d.span
  pure (powersRunning g 1 d.startAt ++ powersRunning g (g ^ lastStep) (columnDomain.size - lastStep))

/-- `src/verifier/mod.rs` 635-677 `inverse_divisor_for_dense_constraint` -/
def inverseDivisorAtWord [DecidableEq F] (p : Profile) (x : F) (columnDomain : Domain F) (d : DenseConstraint)
    (numRows : ℕ) : Res F := do
  let _ ← divisorDegreeWord p columnDomain.size numRows d
  let inv ← Res.okOr (inverse (x ^ columnDomain.size - 1)) .divisionByZero
  let g := columnDomain.generator
  let inv := mulLinearRunning x g d.startAt 1 inv
  let lastStep ← subWord p numRows d.span
  pure (mulLinearRunning x g (columnDomain.size - lastStep) (g ^ lastStep) inv)

end Hodor

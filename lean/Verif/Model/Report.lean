import Verif.Model.Arp
import Verif.Model.Bytes

/-!
# Printing constraints and the texts of errors (`src/air/constraint.rs` 25-113, `src/lib.rs` 40-62)

`Model/Arp.lean` keeps only the kind of an error. Here the witness check is modelled with the texts it puts
into its errors. Texts are lists of characters. Writing to a `String` cannot fail, so a `fmt` function either
returns its text or panics (`unimplemented!`).
-/

namespace Hodor

variable {F : Type} [Field F]

/-- `{}` of a `usize` or `u64`: the decimal digits. -/
def fmtNat (n : ℕ) : List Char := Nat.toDigits 10 n

/-- `{:016x}` of each limb, from the most significant one (crate `ff_derive_ce`, `Display` of a
representation): `k` hexadecimal digits, the lowest last. -/
def hexDigits : ℕ → ℕ → List Char
  | 0, _ => []
  | k + 1, n => hexDigits k (n / 16) ++ [Nat.digitChar (n % 16)]

/-- `{}` of a field element (crate `ff_derive_ce`): the name of the type and the canonical representation,
`Fr(0x…)`, 16 digits per limb. -/
def fmtField [StarkField F] (name : List Char) (x : F) : List Char :=
  name ++ "(0x".toList ++ hexDigits (16 * limbs F) (StarkField.repr x) ++ ")".toList

/-- `src/air/constraint.rs` 60-72 and 97-109: the step difference and the register are matched in this order,
everything but `Steps` and `Register` is `unimplemented!()`. -/
def fmtFactor (t : UnivariateTerm F) : Res (List Char) := do
  let numSteps ← (match t.stepsDifference with
    | .steps n => .ok n
    | .mask _ => .panic : Res ℕ)
  let regNum ← (match t.register with
    | .register n => .ok n
    | _ => .panic : Res ℕ)
  pure ("(R_".toList ++ fmtNat regNum ++ "(t+".toList ++ fmtNat numSteps ++ "))^".toList ++ fmtNat t.power)

/-- `src/air/constraint.rs` 46-55 and 87-96: the sign or coefficient in front of a term; `sep` is what follows
the coefficient. -/
def fmtSign [DecidableEq F] [StarkField F] (name : List Char) (sep : List Char) (coeff : F) : List Char :=
  if coeff = 1 then "+ ".toList
  else if coeff = -1 then "- ".toList
  else "+ ".toList ++ fmtField name coeff ++ sep

/-- `src/air/constraint.rs` 84-113 `Display for UnivariateTerm` -/
def fmtUnivariate [DecidableEq F] [StarkField F] (name : List Char) (t : UnivariateTerm F) : Res (List Char) := do
  let s ← fmtFactor t
  pure (fmtSign name "*".toList t.coeff ++ s)

/-- `src/air/constraint.rs` 58-76: the factors of a product, separated by `*`; their own coefficients are not
printed. -/
def fmtFactors : List (UnivariateTerm F) → Res (List Char)
  | [] => .ok []
  | [t] => fmtFactor t
  | t :: ts => do
    let s ← fmtFactor t
    let r ← fmtFactors ts
    pure (s ++ "*".toList ++ r)

/-- `src/air/constraint.rs` 40-82 `Display for ConstraintTerm` -/
def fmtTerm [DecidableEq F] [StarkField F] (name : List Char) : ConstraintTerm F → Res (List Char)
  | .univariate t => fmtUnivariate name t
  | .polyvariate p => do
    let s ← fmtFactors p.terms
    pure (fmtSign name "* ".toList p.coeff ++ s)

/-- `src/air/constraint.rs` 29-36: the terms, separated by blanks. -/
def fmtTerms [DecidableEq F] [StarkField F] (name : List Char) : List (ConstraintTerm F) → Res (List Char)
  | [] => .ok []
  | [t] => fmtTerm name t
  | t :: ts => do
    let s ← fmtTerm name t
    let r ← fmtTerms name ts
    pure (s ++ " ".toList ++ r)

/-- `src/air/constraint.rs` 25-38 `Display for Constraint` -/
def fmtConstraint [DecidableEq F] [StarkField F] (name : List Char) (c : Constraint F) : Res (List Char) := do
  let s ← fmtTerms name c.terms
  pure ("Polynomial constraint of degree ".toList ++ fmtNat c.degree ++ "\n0 = ".toList
    ++ fmtField name c.constantTerm ++ " ".toList ++ s ++ ";".toList)

/-! ## Errors with their texts -/

/-- `src/lib.rs` 40-46 `enum SynthesisError`, with the texts. -/
inductive Report where
  | error
  | unsatisfied (text : List Char)
  | invalidValue (text : List Char)
  | divisionByZero (text : List Char)
deriving DecidableEq

/-- The kind of an error, as used in the rest of the model. -/
def Report.kind : Report → SynthesisError
  | .error => .error
  | .unsatisfied _ => .unsatisfied
  | .invalidValue _ => .invalidValue
  | .divisionByZero _ => .divisionByZero

/-- `src/lib.rs` 53-62 `Display for SynthesisError` -/
def Report.fmt : Report → List Char
  | .error => "General error for now".toList
  | .unsatisfied d => "Unsatisfied constraint, ".toList ++ d
  | .invalidValue d => "Invalid parameter value, ".toList ++ d
  | .divisionByZero d => "Division by zero, ".toList ++ d

/-- Outcome of a Rust function whose errors carry their texts. -/
inductive Rep (α : Type) where
  | ok (a : α)
  | err (e : Report)
  | panic
deriving DecidableEq

namespace Rep

/-- Sequencing: `?` on `Err`, unwinding on panic. -/
def bind {α β : Type} (x : Rep α) (f : α → Rep β) : Rep β :=
  match x with
  | ok a => f a
  | err e => err e
  | panic => panic

instance : Monad Rep where
  pure := ok
  bind := bind

/-- Forgetting the texts. -/
def forget {α : Type} : Rep α → Res α
  | ok a => .ok a
  | err e => .err e.kind
  | panic => .panic

/-- A computation that cannot return an error (indexing, `fmt`). -/
def ofRes {α : Type} : Res α → Rep α
  | .ok a => ok a
  | .err _ => panic
  | .panic => panic

/-- `for x in l { s = body(x, s) }` -/
def forEach {α σ : Type} : List α → σ → (α → σ → Rep σ) → Rep σ
  | [], s, _ => .ok s
  | x :: l, s, body => body x s >>= fun s' => forEach l s' body

end Rep

/-- `src/arp/per_register/mod.rs` 185-214 `evaluate_univariate_term_on_witness` -/
def evaluateUnivariateReport (t : UnivariateTerm F) (witness : List (List F)) (baseRow : ℕ) : Rep F := do
  let delta ← (match t.stepsDifference with
    | .steps n => .ok n
    | .mask _ => .panic : Rep ℕ)
  let n ← Rep.ofRes t.register.num
  let row ← Rep.ofRes (rd witness n)
  let value ← (match row[baseRow + delta]? with
    | none => .err (.invalidValue ("access to the value out of the trace at row ".toList ++ fmtNat (baseRow + delta)))
    | some v => .ok v : Rep F)
  pure (value ^ t.power * t.coeff)

/-- `src/arp/per_register/mod.rs` 154-183 `evaluate_term_on_witness` -/
def evaluateTermReport (witness : List (List F)) (baseRow : ℕ) : ConstraintTerm F → Rep F
  | .univariate t => evaluateUnivariateReport t witness baseRow
  | .polyvariate p => do
    let r ← Rep.forEach p.terms (1 : F) (fun t r => do
      let v ← evaluateUnivariateReport t witness baseRow
      pure (r * v))
    pure (r * p.coeff)

/-- `src/arp/per_register/mod.rs` 140-152 `evaluate_constraint_on_witness` -/
def evaluateConstraintReport (c : Constraint F) (witness : List (List F)) (baseRow : ℕ) : Rep F :=
  Rep.forEach c.terms c.constantTerm (fun t value => do
    let v ← evaluateTermReport witness baseRow t
    pure (value + v))

/-- `src/arp/per_register/mod.rs` 231-244: the check of one row. The text of the error prints the constraint. -/
def checkRowReport [DecidableEq F] [StarkField F] (name : List Char) (c : Constraint F) (witness : List (List F))
    (row : ℕ) : Rep Unit := do
  let value ← evaluateConstraintReport c witness row
  if value ≠ 0 then do
    let text ← Rep.ofRes (fmtConstraint name c)
    Rep.err (.unsatisfied ("constraint:\n".toList ++ text ++ "\nis unsatisfied at the row ".toList ++ fmtNat row))
  else pure ()

/-- `src/arp/per_register/mod.rs` 219-245: the check of one constraint. -/
def checkConstraintReport [DecidableEq F] [StarkField F] (name : List Char) (witness : List (List F)) (numRows : ℕ)
    (c : Constraint F) : Rep Unit :=
  match c.density with
  | .dense d => do
    let rows ← Rep.ofRes (denseRows d numRows)
    Rep.forEach rows () (fun row _ => checkRowReport name c witness row)
  | _ => .panic

/-- `src/arp/per_register/mod.rs` 248-262: the check of one boundary constraint. -/
def checkBoundaryReport [DecidableEq F] (witness : List (List F)) (b : BoundaryConstraint F) : Rep Unit := do
  let n ← Rep.ofRes b.register.num
  match b.value with
  | some expected => do
    let row ← Rep.ofRes (rd witness n)
    let v ← Rep.ofRes (rd row b.atRow)
    if expected ≠ v then .err .error else pure ()
  | none => pure ()

/-- `src/arp/per_register/mod.rs` 107-113 `is_satisfied` and 135-265 `verify_witness`, errors with their texts. -/
def isSatisfiedReport [DecidableEq F] [StarkField F] (name : List Char) (inst : InstanceProperties F)
    (witness : List (List F)) : Rep Unit := do
  let row0 ← Rep.ofRes (rd witness 0)
  let numRows := row0.length
  Rep.forEach inst.constraints () (fun c _ => checkConstraintReport name witness numRows c)
  Rep.forEach inst.boundaryConstraints () (fun b _ => checkBoundaryReport witness b)

end Hodor

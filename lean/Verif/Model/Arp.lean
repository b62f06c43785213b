import Verif.Model.Air
import Verif.Model.Poly

/-!
# ARP (`src/arp/mod.rs`, `src/arp/mappings.rs`, `src/arp/density_query.rs`,
`src/arp/per_register/mod.rs`) and the test trace system (`src/air/test_trace_system.rs`)
-/

namespace Hodor

/-- `src/arp/mod.rs` 78-84 `InstanceProperties` -/
structure InstanceProperties (F : Type) where
  numRows : ℕ
  numRegisters : ℕ
  constraints : List (Constraint F)
  boundaryConstraints : List (BoundaryConstraint F)
deriving DecidableEq

/-- `for x in l.iter() { out.push(f(x)?) }` -/
def mapRes {α β : Type} (f : α → Res β) : List α → Res (List β)
  | [] => .ok []
  | x :: l => do
    let y ← f x
    let ys ← mapRes f l
    pure (y :: ys)

/-- The recurring `match r { Register::Register(n) => n, _ => unreachable!() }`
(e.g. `src/arp/per_register/mod.rs` 195-198). -/
def Register.num : Register → Res ℕ
  | .register i => .ok i
  | _ => .panic

/-! ## Trace system -/

/-- `src/air/test_trace_system.rs` 17-35 `TestTraceSystem`. Register names are dropped (only their number
is kept). A witness generator sees the system through `get_step_number` and `get_register`, i.e. the
current step and the register table; it returns values with register and step delta. The generators of
`add_constraint` and of constant registers are stored but never called and are dropped. -/
structure TraceSystem (F : Type) where
  pcRegisters : ℕ
  registers : ℕ
  constantRegisters : ℕ
  auxRegisters : ℕ
  pcRegistersWitness : List (List F)
  registersWitness : List (List F)
  constantRegistersWitness : List (List F)
  auxRegistersWitness : List (List F)
  witnessGenerators : List (List (List F) → ℕ → Res (List (F × Register × ℕ)))
  constraints : List (Constraint F)
  boundaryConstraints : List (BoundaryConstraint F)
  currentStep : ℕ

namespace TraceSystem
variable {F : Type}

/-- `src/air/test_trace_system.rs` 249-266 `new`: every witness table starts with one empty row. -/
def new : TraceSystem F :=
  { pcRegisters := 0, registers := 0, constantRegisters := 0, auxRegisters := 0,
    pcRegistersWitness := [[]], registersWitness := [[]], constantRegistersWitness := [[]],
    auxRegistersWitness := [[]], witnessGenerators := [], constraints := [],
    boundaryConstraints := [], currentStep := 0 }

/-- `src/air/test_trace_system.rs` 41-51 `allocate_register` -/
def allocateRegister (t : TraceSystem F) : Register × TraceSystem F :=
  (.register t.registers,
    { t with registers := t.registers + 1, registersWitness := t.registersWitness ++ [[]] })

/-- `src/air/test_trace_system.rs` 76-88 `allocate_constant_register` -/
def allocateConstantRegister (t : TraceSystem F) : Register × TraceSystem F :=
  (.constant t.constantRegisters,
    { t with constantRegisters := t.constantRegisters + 1,
             constantRegistersWitness := t.constantRegistersWitness ++ [[]] })

/-- `src/air/test_trace_system.rs` 91-100 `allocate_aux_register` -/
def allocateAuxRegister (t : TraceSystem F) : Register × TraceSystem F :=
  (.aux t.auxRegisters,
    { t with auxRegisters := t.auxRegisters + 1,
             auxRegistersWitness := t.auxRegistersWitness ++ [[]] })

/-- `src/air/test_trace_system.rs` 53-74 `get_register`; `TracingError::Error` is `.error`. -/
def getRegister (rows : List (List F)) (step : ℕ) (r : Register) : Res F :=
  match r with
  | .register n => do
    let row ← Res.okOr rows[n]? .error
    Res.okOr row[step]? .error
  | _ => .err .error

/-- `src/air/test_trace_system.rs` 102-112 `add_constraint` -/
def addConstraint (t : TraceSystem F) (c : Constraint F) : TraceSystem F :=
  { t with constraints := t.constraints ++ [c] }

/-- `src/air/test_trace_system.rs` 114-123 `add_constraint_with_witness` -/
def addConstraintWithWitness (t : TraceSystem F) (c : Constraint F)
    (g : List (List F) → ℕ → Res (List (F × Register × ℕ))) : TraceSystem F :=
  { t with constraints := t.constraints ++ [c], witnessGenerators := t.witnessGenerators ++ [g] }

/-- `src/air/test_trace_system.rs` 125-141 `add_boundary_constraint` -/
def addBoundaryConstraint (t : TraceSystem F) (r : Register) (atStep : ℕ) (v : Option F) :
    TraceSystem F :=
  { t with boundaryConstraints :=
      t.boundaryConstraints ++ [{ register := r, atRow := atStep, value := v }] }

/-- `src/air/test_trace_system.rs` 143-150 `step` -/
def step (t : TraceSystem F) (numSteps : ℕ) : Res (TraceSystem F) :=
  if numSteps = 0 then .err .error else .ok { t with currentStep := t.currentStep + numSteps }

variable [Field F]

/-- `src/air/test_trace_system.rs` 279-294: store one generated value; row `i` is the loop counter. -/
def storeValue (i : ℕ) (v : F × Register × ℕ) (rows : List (List F)) : Res (List (List F)) := do
  let n ← v.2.1.num
  let row ← rd rows n
  let at_ := i + v.2.2
  let row := if row.length ≤ at_ then resize row (at_ + 1) 0 else row
  let row ← wr row at_ v.1
  wr rows n row

/-- `generator(&self).unwrap()` (line 278): an `Err` becomes a panic. -/
def unwrapRes {α : Type} : Res α → Res α
  | .ok a => .ok a
  | _ => .panic

/-- `src/air/test_trace_system.rs` 277-295: one generator at loop counter `i`. -/
def runGenerator (i currentStep : ℕ) (g : List (List F) → ℕ → Res (List (F × Register × ℕ)))
    (rows : List (List F)) : Res (List (List F)) := do
  let values ← unwrapRes (g rows currentStep)
  forEach values rows (storeValue i)

/-- `src/air/test_trace_system.rs` 276-296: one step; state is (rows, current_step). -/
def runStep (gens : List (List (List F) → ℕ → Res (List (F × Register × ℕ)))) (i : ℕ)
    (s : List (List F) × ℕ) : Res (List (List F) × ℕ) := do
  let rows ← forEach gens s.1 (runGenerator i s.2)
  pure (rows, s.2 + 1)

/-- `src/air/test_trace_system.rs` 268-298 `calculate_witness`; the arguments `a`, `b` are not used by the
code (lines 269-270 start from 1 and 1). -/
def calculateWitness (t : TraceSystem F) (_a _b steps : ℕ) : Res (TraceSystem F) := do
  let row0 ← rd t.registersWitness 0
  let rows ← wr t.registersWitness 0 (row0 ++ [1])
  let row1 ← rd rows 1
  let rows ← wr rows 1 (row1 ++ [1])
  let (rows, cs) ← forN steps 0 (rows, t.currentStep) (runStep t.witnessGenerators)
  pure { t with registersWitness := rows, currentStep := cs }

end TraceSystem

section fibonacci
variable {F : Type} [Field F]

/-- `src/air/test_trace_system.rs` 169-175 `witness_derivation_function_0` -/
def fibGenerator0 (a b : Register) (rows : List (List F)) (step : ℕ) :
    Res (List (F × Register × ℕ)) := do
  let v ← TraceSystem.getRegister rows step b
  pure [(v, a, 1)]

/-- `src/air/test_trace_system.rs` 177-185 `witness_derivation_function_1` -/
def fibGenerator1 (a b : Register) (rows : List (List F)) (step : ℕ) :
    Res (List (F × Register × ℕ)) := do
  let x ← TraceSystem.getRegister rows step a
  let y ← TraceSystem.getRegister rows step b
  pure [(x + y, b, 1)]

/-- `src/air/test_trace_system.rs` 187, 220-221 `fib_constraint_0` -/
def fibConstraint0 (a b : Register) : Constraint F :=
  ((Constraint.default : Constraint F).subUnivariate
      { coeff := (1 : F), register := b, stepsDifference := .steps 0, power := 1 }).addUnivariate
    { coeff := (1 : F), register := a, stepsDifference := .steps 1, power := 1 }

/-- `src/air/test_trace_system.rs` 189, 223-225 `fib_constraint_1` -/
def fibConstraint1 (a b : Register) : Constraint F :=
  (((Constraint.default : Constraint F).subUnivariate
      { coeff := (1 : F), register := a, stepsDifference := .steps 0, power := 1 }).subUnivariate
    { coeff := (1 : F), register := b, stepsDifference := .steps 0, power := 1 }).addUnivariate
    { coeff := (1 : F), register := b, stepsDifference := .steps 1, power := 1 }

/-- `src/air/test_trace_system.rs` 165-245 `Fibonacci::trace` on a trace system. `final_b : Option<u64>`,
`at_step : Option<usize>`; `F::from_str(..)` of a decimal number is the cast (trusted). -/
def fibTrace (finalB atStep : Option ℕ) (t : TraceSystem F) : Res (TraceSystem F) := do
  let (a, t) := t.allocateRegister
  let (b, t) := t.allocateRegister
  let t := t.addConstraintWithWitness (fibConstraint0 a b) (fibGenerator0 a b)
  let t := t.addConstraintWithWitness (fibConstraint1 a b) (fibGenerator1 a b)
  match finalB with
  | none => pure t
  | some fb => do
    let at_ ← Res.expect atStep
    let t := t.addBoundaryConstraint a 0 (some 1)
    let t := t.addBoundaryConstraint b 0 (some 1)
    pure (t.addBoundaryConstraint b at_ (some (fb : F)))

end fibonacci

/-! ## Conversion of a trace system (`src/arp/mod.rs` 87-246) -/

/-- `src/arp/mod.rs` 103-125 `remap_register` -/
def remapRegister (reg aux const : ℕ) : Register → Register
  | .programCounter i => .register i
  | .register i => .register (i + reg)
  | .aux i => .register (i + aux)
  | .constant i => .register (i + const)

section
variable {F : Type}

/-- `src/arp/mod.rs` 127-139 `remap_univariate_term` -/
def remapUnivariateTerm (f : Register → Register) (t : UnivariateTerm F) : UnivariateTerm F :=
  { t with register := f t.register }

/-- `src/arp/mod.rs` 141-167 `remap_term` -/
def remapTerm (f : Register → Register) : ConstraintTerm F → ConstraintTerm F
  | .univariate t => .univariate (remapUnivariateTerm f t)
  | .polyvariate p => .polyvariate { p with terms := p.terms.map (remapUnivariateTerm f) }

/-- `src/arp/mod.rs` 169-182 `remap_constraint` -/
def remapConstraint (f : Register → Register) (c : Constraint F) : Constraint F :=
  { c with terms := c.terms.map (remapTerm f) }

/-- `src/arp/mod.rs` 205-209 (and 211-227): the non-empty rows. -/
def nonEmptyRows (rows : List (List F)) : List (List F) := rows.filter (fun r => r.length ≠ 0)

/-- `src/arp/mod.rs` 88-245 `into_arp` -/
def TraceSystem.intoArp (t : TraceSystem F) : Res (Option (List (List F)) × InstanceProperties F) := do
  let total := t.pcRegisters + t.registers + t.auxRegisters + t.constantRegisters
  let numRows := t.currentStep + 1
  let regC := t.pcRegisters
  let auxC := regC + t.registers
  let constC := auxC + t.auxRegisters
  let f := remapRegister regC auxC constC
  let constraints := t.constraints.map (remapConstraint f)
  let boundary := t.boundaryConstraints.map (fun b => { b with register := f b.register })
  let witness := nonEmptyRows t.pcRegistersWitness ++ nonEmptyRows t.registersWitness ++
    nonEmptyRows t.auxRegistersWitness ++ nonEmptyRows t.constantRegistersWitness
  Res.assert (witness.length = total)
  let w := if witness.length = 0 then none else some witness
  pure (w, { numRows := numRows, numRegisters := t.registers, constraints := constraints,
             boundaryConstraints := boundary })

end

/-! ## Masks (`src/arp/mappings.rs`) -/

section masks
variable {F : Type} [Field F]

/-- `src/arp/mappings.rs` 6-22 `remap_univariate_term` -/
def maskUnivariateTerm (d : Domain F) (t : UnivariateTerm F) : Res (UnivariateTerm F) :=
  match t.stepsDifference with
  | .steps n => .ok { t with stepsDifference := .mask (d.generator ^ n) }
  | .mask _ => .panic

/-- `src/arp/mappings.rs` 24-44 `remap_term` -/
def maskTerm (d : Domain F) : ConstraintTerm F → Res (ConstraintTerm F)
  | .univariate t => do
    let t ← maskUnivariateTerm d t
    pure (.univariate t)
  | .polyvariate p => do
    let ts ← mapRes (maskUnivariateTerm d) p.terms
    pure (.polyvariate { p with terms := ts })

/-- `src/arp/mappings.rs` 46-56 `remap_constraint` -/
def maskConstraint (d : Domain F) (c : Constraint F) : Res (Constraint F) := do
  let ts ← mapRes (maskTerm d) c.terms
  pure { c with terms := ts }

/-- `src/arp/per_register/mod.rs` 93-105 `from_instance` and 120-133 `route`; the result is the
`properties` of the `ARPInstance` (its only field). -/
def fromInstance [DecidableEq F] [StarkField F] (inst : InstanceProperties F) :
    Res (InstanceProperties F) := do
  let numRowsSup := nextPow2 inst.numRows
  let columnDomain ← Domain.newForSize F numRowsSup
  let cs ← mapRes (maskConstraint columnDomain) inst.constraints
  pure { inst with constraints := cs }

/-! ## Witness polynomials (`src/arp/per_register/mod.rs` 13-91) -/

/-- `src/arp/per_register/mod.rs` 32-41: the CPU hint. -/
def witnessHint (w : Worker) (numRegisters : ℕ) : Option ℕ :=
  if w.cpus ≤ numRegisters then some 1
  else
    let t := numRegisters / w.cpus
    some (if numRegisters % w.cpus ≠ 0 then t + 1 else t)

/-- `src/arp/per_register/mod.rs` 13-68 `make_witness_polymonials` -/
def makeWitnessPolynomials [DecidableEq F] [StarkField F] (witness : List (List F)) (w : Worker) :
    Res (List (Poly F .coefficients)) := do
  let numRegisters := witness.length
  let row0 ← rd witness 0
  let numRows := row0.length
  Res.assert (witness.all (fun r => numRows = r.length))
  let domain ← Domain.newForSize F (nextPow2 numRows)
  let logN := domain.powerOfTwo
  let omegaInv ← Res.expect (inverse domain.generator)
  let minv ← Res.expect (inverse ((domain.size : ℕ) : F))
  let rows ← mapRes (fun r => bestFft w r omegaInv logN (witnessHint w numRegisters)) witness
  mapRes (fun r => Poly.fromCoeffs (parChunks w r (fun _ _ v => v.map (fun x => x * minv)))) rows

/-- `src/arp/per_register/mod.rs` 71-91 `calculate_witness_polys` -/
def calculateWitnessPolys [DecidableEq F] [StarkField F] (inst : InstanceProperties F)
    (witness : List (List F)) (w : Worker) : Res (List (Poly F .coefficients)) := do
  let numRegisters := witness.length
  let row0 ← rd witness 0
  let numRows := row0.length
  Res.assert (witness.all (fun r => numRows = r.length))
  if numRegisters ≠ inst.numRegisters then .err .error
  else if numRows ≠ inst.numRows then .err .error
  else makeWitnessPolynomials witness w

/-! ## Checking a witness (`src/arp/per_register/mod.rs` 135-265) -/

/-- `src/arp/per_register/mod.rs` 185-214 `evaluate_univariate_term_on_witness` -/
def evaluateUnivariateTermOnWitness (t : UnivariateTerm F) (witness : List (List F)) (baseRow : ℕ) :
    Res F := do
  let delta ← (match t.stepsDifference with
    | .steps n => .ok n
    | .mask _ => .panic : Res ℕ)
  let n ← t.register.num
  let row ← rd witness n
  let value ← (match row[baseRow + delta]? with
    | none => .err .invalidValue
    | some v => .ok v : Res F)
  pure (value ^ t.power * t.coeff)

/-- `src/arp/per_register/mod.rs` 154-183 `evaluate_term_on_witness` -/
def evaluateTermOnWitness (witness : List (List F)) (baseRow : ℕ) : ConstraintTerm F → Res F
  | .univariate t => evaluateUnivariateTermOnWitness t witness baseRow
  | .polyvariate p => do
    let r ← forEach p.terms (1 : F) (fun t r => do
      let v ← evaluateUnivariateTermOnWitness t witness baseRow
      pure (r * v))
    pure (r * p.coeff)

/-- `src/arp/per_register/mod.rs` 140-152 `evaluate_constraint_on_witness` -/
def evaluateConstraintOnWitness (c : Constraint F) (witness : List (List F)) (baseRow : ℕ) : Res F :=
  forEach c.terms c.constantTerm (fun t value => do
    let v ← evaluateTermOnWitness witness baseRow t
    pure (value + v))

/-- `src/arp/density_query.rs` 34-44 and 20-31 `DenseConstraintQuery`: the rows it yields.
`num_rows - span` underflows (panics) when the span exceeds the trace. -/
def denseRows (d : DenseConstraint) (numRows : ℕ) : Res (List ℕ) := do
  Res.assert (d.span ≤ numRows)
  let limit := numRows - d.span
  pure ((List.range (limit - d.startAt)).map (fun i => d.startAt + i))

/-- `src/arp/per_register/mod.rs` 231-244: the check of one row. -/
def checkRow [DecidableEq F] (c : Constraint F) (witness : List (List F)) (row : ℕ) : Res Unit := do
  let value ← evaluateConstraintOnWitness c witness row
  if value ≠ 0 then .err .unsatisfied else pure ()

/-- `src/arp/per_register/mod.rs` 219-245: the check of one constraint. -/
def checkConstraint [DecidableEq F] (witness : List (List F)) (numRows : ℕ) (c : Constraint F) :
    Res Unit :=
  match c.density with
  | .dense d => do
    let rows ← denseRows d numRows
    forEach rows () (fun row _ => checkRow c witness row)
  | _ => .panic

/-- `src/arp/per_register/mod.rs` 248-262: the check of one boundary constraint. -/
def checkBoundary [DecidableEq F] (witness : List (List F)) (b : BoundaryConstraint F) : Res Unit := do
  let n ← b.register.num
  match b.value with
  | some expected => do
    let row ← rd witness n
    let v ← rd row b.atRow
    if expected ≠ v then .err .error else pure ()
  | none => pure ()

/-- `src/arp/per_register/mod.rs` 107-113 `is_satisfied` and 135-265 `verify_witness` -/
def isSatisfied [DecidableEq F] (inst : InstanceProperties F) (witness : List (List F)) : Res Unit := do
  let row0 ← rd witness 0
  let numRows := row0.length
  forEach inst.constraints () (fun c _ => checkConstraint witness numRows c)
  forEach inst.boundaryConstraints () (fun b _ => checkBoundary witness b)

end masks

end Hodor

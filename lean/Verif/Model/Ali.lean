import Verif.Model.Arp
import Verif.Model.Utils
import Verif.Model.Transcript

/-!
# ALI and DEEP (`src/ali/mod.rs`, `src/ali/per_register/mod.rs`, `src/ali/per_register/deep.rs`)

`IndexSet` and `IndexMap` keep insertion order; they are lists without repeated keys (`insertSet`,
`assocInsert`). The `usize`/`u64` subtractions are checked, as in a build with overflow checks; the
products `size * power` are natural numbers (no 64-bit wrap-around).
-/

namespace Hodor

/-- `IndexSet::insert` -/
def insertSet {α : Type} [DecidableEq α] (s : List α) (x : α) : List α := if x ∈ s then s else s ++ [x]

/-- `IndexMap::get` -/
def assocGet {κ α : Type} [DecidableEq κ] : List (κ × α) → κ → Option α
  | [], _ => none
  | (k', v) :: m, k => if k' = k then some v else assocGet m k

/-- `IndexMap::insert` -/
def assocInsert {κ α : Type} [DecidableEq κ] : List (κ × α) → κ → α → List (κ × α)
  | [], k, v => [(k, v)]
  | (k', v') :: m, k, v => if k' = k then (k', v) :: m else (k', v') :: assocInsert m k v

/-- `src/ali/mod.rs` 30-34 `MaskProperties` -/
structure MaskProperties (F : Type) where
  register : Register
  stepsDifference : StepDifference F
deriving DecidableEq

/-- `src/ali/mod.rs` 43-48 `WitnessEvaluationData` -/
structure WitnessEvaluationData (F : Type) where
  mask : MaskProperties F
  power : ℕ
  totalLdeLength : ℕ
deriving DecidableEq

section masks
variable {F : Type} [DecidableEq F]

/-- `src/ali/mod.rs` 84-91, 94-101 -/
def UnivariateTerm.maskProperties (t : UnivariateTerm F) : MaskProperties F :=
  { register := t.register, stepsDifference := t.stepsDifference }

/-- `src/ali/mod.rs` 79-105 `get_masks_from_term` -/
def getMasksFromTerm (set : List (MaskProperties F)) : ConstraintTerm F → List (MaskProperties F)
  | .univariate t => insertSet set t.maskProperties
  | .polyvariate p => p.terms.foldl (fun s t => insertSet s t.maskProperties) set

/-- `src/ali/mod.rs` 58-65 `get_masks_from_constraint` -/
def getMasksFromConstraint (set : List (MaskProperties F)) (c : Constraint F) : List (MaskProperties F) :=
  c.terms.foldl getMasksFromTerm set

/-- `src/ali/mod.rs` 67-77 `get_mask_from_boundary_constraint` -/
def getMaskFromBoundaryConstraint [Field F] (set : List (MaskProperties F)) (b : BoundaryConstraint F) :
    List (MaskProperties F) :=
  insertSet set { register := b.register, stepsDifference := .mask 1 }

/-- `src/ali/per_register/mod.rs` 164-172 (and `src/verifier/mod.rs` 193-201): group a constraint with
those of the same density, in order of first appearance. -/
def pushBatch (c : Constraint F) :
    List (ConstraintDensity × List (Constraint F)) → List (ConstraintDensity × List (Constraint F))
  | [] => [(c.density, [c])]
  | (d, b) :: m => if d = c.density then (d, b ++ [c]) :: m else (d, b) :: pushBatch c m

/-- `src/ali/per_register/mod.rs` 40-45 (and `src/verifier/mod.rs` 180-187): maximal constraint degree. -/
def maxDegree (cs : List (Constraint F)) : ℕ :=
  cs.foldl (fun m c => if c.degree > m then c.degree else m) 0

end masks

/-- `src/ali/per_register/mod.rs` 21-33 `ALIInstance` -/
structure AliInstance (F : Type) where
  properties : InstanceProperties F
  maxConstraintPower : ℕ
  columnDomain : Domain F
  constraintsDomain : Domain F
  allMasks : List (MaskProperties F)
  allBoundaryConstrainedRegisters : List Register
  constraintDivisors : List (ConstraintDensity × Poly F .values)
  boundaryConstraintDivisors : List (ℕ × Poly F .values)
  constraintsBatchedByDensity : List (ConstraintDensity × List (Constraint F))
  precomputations : PrecomputedOmegas F

variable {F : Type} [Field F]

/-- `src/ali/per_register/mod.rs` 122-127: one chunk of `x^T - 1`, `x *= g`. -/
def vanishingRunning (T : ℕ) (g : F) : F → ℕ → List F
  | _, 0 => []
  | x, n + 1 => (x ^ T - 1) :: vanishingRunning T g (x * g) n

/-- `src/ali/per_register/mod.rs` 144-156: multiply one chunk by `∏ (x - root)`, `x *= g`. -/
def mulRootsRunning (roots : List F) (g : F) : F → List F → List F
  | _, [] => []
  | x, v :: l => roots.foldl (fun d r => d * (x - r)) v :: mulRootsRunning roots g (x * g) l

/-- `src/ali/per_register/mod.rs` 68-74 (and `src/verifier/mod.rs` 642-648): the divisor degree; only its
underflow checks have an effect (the degree itself is never used). -/
def divisorDegree (size numRows : ℕ) (d : DenseConstraint) : Res ℕ := do
  Res.assert (d.startAt ≤ size)
  Res.assert (numRows ≤ size)
  Res.assert (size - numRows ≤ size - d.startAt)
  Res.assert (d.span ≤ size - d.startAt - (size - numRows))
  pure (size - d.startAt - (size - numRows) - d.span)

/-- `src/ali/per_register/mod.rs` 76-94: the excluded points, by running products. -/
def excludedRoots (columnDomain : Domain F) (d : DenseConstraint) (numRows : ℕ) : Res (List F) := do
  let g := columnDomain.generator
  Res.assert (d.span ≤ numRows)
  let lastStep := numRows - d.span
  pure (powersRunning g 1 d.startAt ++ powersRunning g (g ^ lastStep) (columnDomain.size - lastStep))

section
variable [DecidableEq F] [StarkField F]

/-- `src/ali/per_register/mod.rs` 60-162 `inverse_divisor_for_dense_constraint_in_coset` -/
def inverseDivisorInCoset (columnDomain evaluationDomain : Domain F) (d : DenseConstraint) (numRows : ℕ)
    (w : Worker) : Res (Poly F .values) := do
  let _ ← divisorDegree columnDomain.size numRows d
  let roots ← excludedRoots columnDomain d numRows
  let g := evaluationDomain.generator
  let p ← Poly.newForSizeValues evaluationDomain.size
  let p := { p with coeffs := parChunks w p.coeffs (fun ch i v =>
    vanishingRunning columnDomain.size g (g ^ (i * ch) * StarkField.mulGen) v.length) }
  let p ← p.batchInversion w
  pure { p with coeffs := parChunks w p.coeffs (fun ch i v =>
    mulRootsRunning roots g (g ^ (i * ch) * StarkField.mulGen) v) }

/-- `src/ali/per_register/mod.rs` 216-219 (and `deep.rs` 60-62, 129-131): the polynomial `X - root`. -/
def linearPoly (root : F) : Res (Poly F .coefficients) := do
  let q ← Poly.newForSizeCoeffs 2
  let c ← wr q.coeffs 1 1
  let c0 ← rd c 0
  let c ← wr c 0 (c0 - root)
  pure { q with coeffs := c }

/-- `src/ali/per_register/mod.rs` 214-227: one boundary divisor. -/
def boundaryDivisor (columnDomain constraintsDomain : Domain F) (row : ℕ) (w : Worker) :
    Res (Poly F .values) := do
  let q ← linearPoly (columnDomain.generator ^ row)
  let v ← q.cosetEvaluateAtDomainForDegreeOne w constraintsDomain.size
  v.batchInversion w

/-- `src/ali/per_register/mod.rs` 176-192: divisors of one density. -/
def densityDivisor (columnDomain constraintsDomain : Domain F) (numRows : ℕ) (w : Worker) :
    ConstraintDensity → Res (Poly F .values)
  | .dense d => inverseDivisorInCoset columnDomain constraintsDomain d numRows w
  | _ => .panic

/-- `src/ali/per_register/mod.rs` 36-244 `from_arp` -/
def AliInstance.fromArp (arp : InstanceProperties F) (w : Worker) : Res (AliInstance F) := do
  let maxConstraintPower := maxDegree arp.constraints
  let columnDomain ← Domain.newForSize F arp.numRows
  let constraintsDomain ← Domain.newForSize F (columnDomain.size * maxConstraintPower)
  let precomputed ← PrecomputedOmegas.newForDomain constraintsDomain w
  let masks := arp.constraints.foldl getMasksFromConstraint []
  let batches := arp.constraints.foldl (fun m c => pushBatch c m) []
  let divisors ← forEach batches [] (fun b m => do
    let p ← densityDivisor columnDomain constraintsDomain arp.numRows w b.1
    pure (assocInsert m b.1 p))
  let boundaryRegisters := arp.boundaryConstraints.foldl (fun s b => insertSet s b.register) []
  let masks := arp.boundaryConstraints.foldl getMaskFromBoundaryConstraint masks
  let rows := arp.boundaryConstraints.foldl (fun s b => insertSet s b.atRow) []
  let boundaryDivisors ← forEach rows [] (fun row m => do
    let p ← boundaryDivisor columnDomain constraintsDomain row w
    pure (assocInsert m row p))
  pure { properties := arp, maxConstraintPower := maxConstraintPower, columnDomain := columnDomain,
         constraintsDomain := constraintsDomain, allMasks := masks,
         allBoundaryConstrainedRegisters := boundaryRegisters, constraintDivisors := divisors,
         boundaryConstraintDivisors := boundaryDivisors, constraintsBatchedByDensity := batches,
         precomputations := precomputed }

/-- `src/ali/per_register/mod.rs` 257-272 `evaluate_for_mask` -/
def evaluateForMask (f : Poly F .coefficients) (w : Worker) : StepDifference F → Res (Poly F .coefficients)
  | .mask m => .ok (f.distributePowers w m)
  | .steps _ => .panic

/-- `src/ali/per_register/mod.rs` 276-290: all masked witness polynomials. -/
def maskedPolynomials (masks : List (MaskProperties F)) (witness : List (Poly F .coefficients)) (w : Worker) :
    Res (List (MaskProperties F × Poly F .coefficients)) :=
  forEach masks [] (fun m acc => do
    let r ← m.register.num
    let poly ← rd witness r
    let masked ← evaluateForMask poly w m.stepsDifference
    pure (assocInsert acc m masked))

/-- `src/ali/per_register/mod.rs` 292-308 `calculate_adjustment_polynomial_in_coset` -/
def adjustmentInCoset (adjustment : ℕ) (alpha beta : F) (domain : Domain F) (pre : PrecomputedOmegas F)
    (w : Worker) : Res (Poly F .values) := do
  Res.assert (1 ≤ adjustment)
  Res.assert (pre.coset.length = domain.size)
  let poly ← TraceSystem.unwrapRes (Poly.fromValues pre.coset)
  pure (((poly.pow w adjustment).scale w alpha).addConstant w beta)

/-- `src/ali/per_register/mod.rs` 387-396 and 408-417: multiplication by the coefficient. -/
def applyCoeff (w : Worker) (coeff : F) (base : Poly F .values) : Poly F .values :=
  if coeff ≠ 1 then (if coeff = -1 then base.negate w else base.scale w coeff) else base

/-- The cache of evaluated univariate terms. -/
abbrev TermCache (F : Type) := List (WitnessEvaluationData F × Poly F .values)

/-- `src/ali/per_register/mod.rs` 400-419: evaluation of a term that is not in the cache. -/
def evaluateFresh (t : UnivariateTerm F) (base : Poly F .coefficients) (key : WitnessEvaluationData F)
    (cache : TermCache F) (powerHint : ℕ) (w : Worker) : Res (Poly F .values × TermCache F) := do
  Res.assert (isPow2 powerHint)
  let v ← base.cosetLde w powerHint
  let v := v.pow w t.power
  pure (applyCoeff w t.coeff v, assocInsert cache key v)

/-- `src/ali/per_register/mod.rs` 363-420 `evaluate_univariate_term_into_values` -/
def evaluateUnivariateTerm (t : UnivariateTerm F) (subst : List (MaskProperties F × Poly F .coefficients))
    (cache : TermCache F) (powerHint : ℕ) (w : Worker) : Res (Poly F .values × TermCache F) := do
  Res.assert (isPow2 powerHint)
  let base ← Res.expect (assocGet subst t.maskProperties)
  let key : WitnessEvaluationData F :=
    { mask := t.maskProperties, power := t.power, totalLdeLength := powerHint * base.size }
  match assocGet cache key with
  | some e => pure (applyCoeff w t.coeff e, cache)
  | none => evaluateFresh t base key cache powerHint w

/-- `src/ali/per_register/mod.rs` 343-347: multiply into the accumulator. -/
def mulOpt (w : Worker) (acc : Option (Poly F .values)) (t : Poly F .values) : Res (Option (Poly F .values)) :=
  match acc with
  | some r => do
    let r ← r.mulAssign w t
    pure (some r)
  | none => pure (some t)

/-- `src/ali/per_register/mod.rs` 311-358 `evaluate_constraint_term_into_values` -/
def evaluateConstraintTerm (t : ConstraintTerm F) (subst : List (MaskProperties F × Poly F .coefficients))
    (cache : TermCache F) (powerHint : ℕ) (w : Worker) : Res (Poly F .values × TermCache F) := do
  Res.assert (isPow2 powerHint)
  match t with
  | .univariate t => evaluateUnivariateTerm t subst cache powerHint w
  | .polyvariate p => do
    let (acc, cache) ← forEach p.terms (none, cache) (fun t s => do
      let (v, cache) ← evaluateUnivariateTerm t subst s.2 powerHint w
      let acc ← mulOpt w s.1 v
      pure (acc, cache))
    let v ← Res.expect acc
    pure (v.scale w p.coeff, cache)

/-- `src/ali/per_register/mod.rs` 434-447, 487-500: the adjustment polynomial, if any. -/
def adjustmentOpt (inst : AliInstance F) (w : Worker) (adjustment : ℕ) (alpha beta : F) :
    Res (Option (Poly F .values)) :=
  if adjustment = 0 then pure none
  else do
    let adj ← adjustmentInCoset adjustment alpha beta inst.constraintsDomain inst.precomputations w
    pure (some adj)

/-- `src/ali/per_register/mod.rs` 462-467, 513-518: multiply by the adjustment polynomial, or by `alpha`
alone. -/
def applyAdjustment (w : Worker) (alpha : F) (v : Poly F .values) : Option (Poly F .values) → Res (Poly F .values)
  | some adj => v.mulAssign w adj
  | none => pure (v.scale w alpha)

variable (H : List UInt8 → Digest)

/-- State of the constraint loop of `calculate_g`: `batch_values`, `evaluated_terms_map` and the
transcript. -/
structure GState (F : Type) where
  batch : Poly F .values
  cache : TermCache F
  transcript : Transcript

/-- `src/ali/per_register/mod.rs` 427-470: one constraint; `gValues` is `g_values` at the start of the
batch. -/
def gConstraint (inst : AliInstance F) (w : Worker) (subst : List (MaskProperties F × Poly F .coefficients))
    (gValues : Poly F .values) (c : Constraint F) (s : GState F) : Res (GState F) := do
  Res.assert (c.degree ≤ inst.maxConstraintPower)
  let adjustment := inst.maxConstraintPower - c.degree
  let (alpha, t) ← s.transcript.getChallenge H
  let (beta, t) ← t.getChallenge H
  let adj ← adjustmentOpt inst w adjustment alpha beta
  let (v, cache) ← forEach c.terms (gValues, s.cache) (fun t s => do
    let (sub, cache) ← evaluateConstraintTerm t subst s.2 inst.maxConstraintPower w
    let v ← s.1.addAssignV w sub
    pure (v, cache))
  let v := v.addConstant w c.constantTerm
  let v ← applyAdjustment w alpha v adj
  let batch ← s.batch.addAssignV w v
  pure { batch := batch, cache := cache, transcript := t }

/-- `src/ali/per_register/mod.rs` 425-477: one batch of constraints of the same density; state is
`g_values`, cache and transcript. -/
def gBatch (inst : AliInstance F) (w : Worker) (subst : List (MaskProperties F × Poly F .coefficients))
    (b : ConstraintDensity × List (Constraint F)) (s : GState F) : Res (GState F) := do
  let r ← forEach b.2 s (gConstraint H inst w subst s.batch)
  let divisors ← Res.expect (assocGet inst.constraintDivisors b.1)
  let v ← r.batch.mulAssign w divisors
  let g ← s.batch.addAssignV w v
  pure { r with batch := g }

/-- `src/ali/per_register/mod.rs` 482-524: one boundary constraint. -/
def gBoundary (inst : AliInstance F) (w : Worker) (witness : List (Poly F .coefficients))
    (b : BoundaryConstraint F) (s : GState F) : Res (GState F) := do
  let (alpha, t) ← s.transcript.getChallenge H
  let (beta, t) ← t.getChallenge H
  Res.assert (1 ≤ inst.maxConstraintPower)
  let adjustment := inst.maxConstraintPower - 1
  let adj ← adjustmentOpt inst w adjustment alpha beta
  let r ← b.register.num
  let p ← rd witness r
  let value ← Res.expect b.value
  let c0 ← rd p.coeffs 0
  let c ← wr p.coeffs 0 (c0 - value)
  let v ← ({ p with coeffs := c } : Poly F .coefficients).cosetLde w inst.maxConstraintPower
  let v ← applyAdjustment w alpha v adj
  let divisors ← Res.expect (assocGet inst.boundaryConstraintDivisors b.atRow)
  let v ← v.mulAssign w divisors
  let g ← s.batch.addAssignV w v
  pure { s with batch := g, transcript := t }

/-- `src/ali/per_register/mod.rs` 246-529 `calculate_g` -/
def AliInstance.calculateG (inst : AliInstance F) (transcript : Transcript)
    (witness : List (Poly F .coefficients)) (w : Worker) : Res (Poly F .coefficients × Transcript) := do
  Res.assert (witness.length = inst.properties.numRegisters)
  let g ← Poly.newForSizeValues inst.constraintsDomain.size
  let subst ← maskedPolynomials inst.allMasks witness w
  let s ← forEach inst.constraintsBatchedByDensity
    ({ batch := g, cache := [], transcript := transcript } : GState F) (gBatch H inst w subst)
  let s ← forEach inst.properties.boundaryConstraints s (gBoundary H inst w witness)
  let p ← s.batch.icosetFft w
  pure (p, s.transcript)

/-- The recurring `match d { StepDifference::Mask(m) => m, _ => unreachable!() }`. -/
def StepDifference.maskOf {F : Type} : StepDifference F → Res F
  | .mask m => .ok m
  | .steps _ => .panic

/-- `src/ali/per_register/deep.rs` 60-68, 129-137: the inverses of `x - root` on a domain. -/
def inverseLinear (root : F) (size : ℕ) (w : Worker) : Res (Poly F .values) := do
  let q ← linearPoly root
  let v ← q.evaluateAtDomainForDegreeOne w size
  v.batchInversion w

/-- State of the mask loop of `calculate_deep`. -/
structure DeepState (F : Type) where
  h1 : Poly F .values
  fAtZM : List F
  divisors : List (StepDifference F × Poly F .values)
  transcript : Transcript

/-- `src/ali/per_register/deep.rs` 57-72: the divisor of a mask, from the cache or computed. -/
def deepDivisor (size : ℕ) (w : Worker) (sd : StepDifference F) (root : F)
    (divisors : List (StepDifference F × Poly F .values)) :
    Res (Poly F .values × List (StepDifference F × Poly F .values)) :=
  match assocGet divisors sd with
  | some d => pure (d, divisors)
  | none => do
    let d ← inverseLinear root size w
    pure (d, assocInsert divisors sd d)

/-- `src/ali/per_register/deep.rs` 33-84: one mask. -/
def deepMask (fPolys : List (Poly F .coefficients)) (fLdes : List (Poly F .values)) (size : ℕ) (z : F)
    (w : Worker) (m : MaskProperties F) (s : DeepState F) : Res (DeepState F) := do
  let mask ← m.stepsDifference.maskOf
  let root := mask * z
  let r ← m.register.num
  let p ← rd fPolys r
  let value := p.evaluateAt w root
  let (divisor, divisors) ← deepDivisor size w m.stepsDifference root s.divisors
  let f ← rd fLdes r
  let f := f.addConstant w (-value)
  let (alpha, t) ← s.transcript.getChallenge H
  let f := f.scale w alpha
  let f ← f.mulAssign w divisor
  let h1 ← s.h1.addAssignV w f
  pure { h1 := h1, fAtZM := s.fAtZM ++ [value], divisors := divisors, transcript := t }

/-- Result of `calculate_deep`: `h1`, `h2`, the masked values and `g(z)`, with the transcript. -/
structure DeepResult (F : Type) where
  h1 : Poly F .values
  h2 : Poly F .values
  fAtZM : List F
  gAtZ : F
  transcript : Transcript

/-- `src/ali/per_register/deep.rs` 14-149 `calculate_deep` -/
def AliInstance.calculateDeep (inst : AliInstance F) (fPolys : List (Poly F .coefficients))
    (fLdes : List (Poly F .values)) (gPoly : Poly F .coefficients) (gLde : Poly F .values)
    (transcript : Transcript) (w : Worker) : Res (DeepResult F) := do
  let (z, t) ← transcript.getChallenge H
  let f0 ← rd fLdes 0
  let h1 ← Poly.newForSizeValues f0.size
  let s ← forEach inst.allMasks ({ h1 := h1, fAtZM := [], divisors := [], transcript := t } : DeepState F)
    (deepMask H fPolys fLdes f0.size z w)
  let inv ← inverseLinear z gLde.size w
  let gAtZ := gPoly.evaluateAt w z
  let h2 := gLde.addConstant w (-gAtZ)
  let h2 ← h2.mulAssign w inv
  pure { h1 := s.h1, h2 := h2, fAtZM := s.fAtZM, gAtZ := gAtZ, transcript := s.transcript }

end

end Hodor

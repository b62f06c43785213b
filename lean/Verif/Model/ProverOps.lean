import Verif.Model.SetupCost

/-!
# The prover with its field operations counted

The functions on the path of `Prover::prove`, once more, in the counting monad of `Verif/Model/Cost.lean`, this time with the field operations: one for each
`add_assign`, `sub_assign`, `mul_assign`, `negate`, `square`, `double`, `inverse` and conversion (`from_repr`, `into_repr`), the loop of crate `ff_ce` for `pow`, and its loop
over the decimal digits for `from_str`. Not counted: copies, comparisons, index arithmetic and hashing (a leaf is encoded with `into_raw_repr`, which does not compute). The
operations of all spawned tasks are added up. The steps without field operations (Merkle trees, openings) are lifted from the plain model.
-/

namespace Hodor

/-- `parChunksZip` with the operations of the tasks counted. -/
def parChunksZipT {α β : Type} (w : Worker) (elements : ℕ) (a : List α) (b : List β) (f : List α → List β → Tick (List α)) : Tick (List α) := do
  let c := w.chunkSize elements
  let parts ← mapIdxT (chunks c a) (fun i v =>
    match (chunks c b)[i]? with
    | some u => f v u
    | none => pure v)
  pure parts.flatten

/-- `Result::expect`: an `Err` becomes a panic. -/
def unwrapT {α : Type} (x : Tick α) : Tick α := ⟨x.hashes, x.ops, TraceSystem.unwrapRes x.res⟩

variable {F : Type} [Field F]

/-! ## Polynomials -/

/-- `src/fft/mod.rs` 116-119: two products for each element. -/
def mulRunningT : F → F → List F → Tick (List F)
  | _, _, [] => pure []
  | u, g, x :: l => do
    let y ← Tick.op 1 (x * u)
    let u ← Tick.op 1 (u * g)
    let r ← mulRunningT u g l
    pure (y :: r)

/-- `src/fft/mod.rs` 110-123 `distribute_powers`: one power for each chunk. -/
def distributePowersT (w : Worker) (a : List F) (g : F) : Tick (List F) :=
  parChunksT w a (fun c i v => do
    let u ← powT g (i * c)
    mulRunningT u g v)

/-- `src/polynomials/mod.rs` 59-70 `scale`, 72-83 `negate`, 760-771 `square`, 831-841 `add_constant`: one operation for each element. -/
def mapPolyT {P : Form} (w : Worker) (p : Poly F P) (f : F → F) : Tick (Poly F P) := do
  let c ← parChunksT w p.coeffs (fun _ _ v => mapOpT f v)
  pure { p with coeffs := c }

/-- `src/polynomials/mod.rs` 744-758 `pow`: squares are special. -/
def powPolyT (w : Worker) (p : Poly F .values) (e : ℕ) : Tick (Poly F .values) :=
  if e = 2 then mapPolyT w p (fun x => x * x)
  else do
    let c ← parChunksT w p.coeffs (fun _ _ v => Tick.map (fun x => powT x e) v)
    pure { p with coeffs := c }

/-- `src/polynomials/mod.rs` 817-829 `add_assign`, 875-887 `mul_assign`: one operation for each pair of elements. -/
def zipPolyT (w : Worker) (p q : Poly F .values) (f : F → F → F) : Tick (Poly F .values) := do
  Tick.lift (Res.assert (p.coeffs.length = q.coeffs.length))
  let c ← parChunksZipT w p.coeffs.length p.coeffs q.coeffs (fun a b => Tick.zipUpdate (fun x y => Tick.op 1 (f x y)) a b)
  pure { p with coeffs := c }

/-- `src/polynomials/mod.rs` 611-624 `fft` -/
def fftPolyT (w : Worker) (p : Poly F .coefficients) : Tick (Poly F .values) := do
  let c ← bestFftT w p.coeffs p.omega p.exp none
  pure (Poly.retag _ p c)

/-- `src/polynomials/mod.rs` 773-798 `ifft` -/
def ifftPolyT (w : Worker) (p : Poly F .values) : Tick (Poly F .coefficients) := do
  let c ← bestFftT w p.coeffs p.omegainv p.exp none
  let c ← parChunksT w c (fun _ _ v => mapOpT (fun x => x * p.minv) v)
  pure (Poly.retag _ p c)

/-- `src/polynomials/mod.rs` 800-807 `icoset_fft` -/
def icosetFftPolyT (w : Worker) (p : Poly F .values) : Tick (Poly F .coefficients) := do
  let res ← ifftPolyT w p
  let c ← distributePowersT w res.coeffs p.geninv
  pure { res with coeffs := c }

section
variable [DecidableEq F] [StarkField F]

/-- `src/polynomials/mod.rs` 626-631 `coset_fft` -/
def cosetFftPolyT (w : Worker) (p : Poly F .coefficients) : Tick (Poly F .values) := do
  let c ← distributePowersT w p.coeffs StarkField.mulGen
  fftPolyT w { p with coeffs := c }

/-- `src/polynomials/mod.rs` 451-457 and 578-584: for each coset the powers, a transform, and a product for the next coset. -/
def ldeChunkT (w : Worker) (p : Poly F .coefficients) (hint : Option ℕ) (cosetOmega start : F) (len : ℕ) : Tick (List (List F)) := do
  let (rows, _) ← Tick.forN len 0 (([] : List (List F)), start) (fun _ (rows, g) => do
    let a ← distributePowersT w p.coeffs g
    let c ← bestFftT w a p.omega p.exp hint
    let g ← Tick.op 1 (g * cosetOmega)
    pure (rows ++ [c], g))
  pure rows

/-- `src/polynomials/mod.rs` 434-481 and 560-608; `shift` is what is done with the first power of a chunk: nothing (450) or a product (577). -/
def multiCosetLdeT (w : Worker) (p : Poly F .coefficients) (factor : ℕ) (shift : F → Tick F) : Tick (Poly F .values) := do
  let hint := Poly.ldeHint w factor
  Tick.lift (Res.assert (isPow2 factor))
  let newSize := p.coeffs.length * factor
  let domain ← newForSizeT F newSize
  let cosetOmega := domain.generator
  let ch := w.chunkSize factor
  let results ← Tick.collectN (numChunks factor ch) (fun i => do
    let start ← powT cosetOmega i
    let start ← shift start
    ldeChunkT w p hint cosetOmega start (min ch (factor - i * ch)))
  let finalValues ← Tick.lift (interleave w newSize results.flatten factor)
  ofVecT finalValues

/-- `src/polynomials/mod.rs` 343-346 `lde`, 418-482 `lde_using_multiple_cosets` -/
def ldeT (w : Worker) (p : Poly F .coefficients) (factor : ℕ) : Tick (Poly F .values) :=
  if factor = 1 then fftPolyT w p else multiCosetLdeT w p factor (fun x => pure x)

/-- `src/polynomials/mod.rs` 349-352 `coset_lde`, 544-609 `coset_lde_using_multiple_cosets` -/
def cosetLdeT (w : Worker) (p : Poly F .coefficients) (factor : ℕ) : Tick (Poly F .values) :=
  if factor = 1 then cosetFftPolyT w p else multiCosetLdeT w p factor (fun x => Tick.op 1 (x * StarkField.mulGen))

/-- `src/polynomials/mod.rs` 229-258 `evaluate_at_domain_for_degree_one` -/
def evaluateDegreeOneT (w : Worker) (p : Poly F .coefficients) (domainSize : ℕ) : Tick (Poly F .values) := do
  Tick.lift (Res.assert (p.coeffs.length = 2))
  let alpha ← Tick.lift (rd p.coeffs 1)
  let c ← Tick.lift (rd p.coeffs 0)
  let domain ← newForSizeT F domainSize
  let g := domain.generator
  let v ← parChunksT w (List.replicate domain.size (0 : F)) (fun ch i v => do
    let u ← powT g (i * ch)
    affineRunningT alpha c g u v.length)
  ofVecT v

/-- `src/polynomials/mod.rs` 694-700: two products and a sum for each coefficient. -/
def evalRunningT (g : F) : F → F → List F → Tick F
  | s, _, [] => pure s
  | s, x, a :: l => do
    let v ← Tick.op 1 (x * a)
    let s ← Tick.op 1 (s + v)
    let x ← Tick.op 1 (x * g)
    evalRunningT g s x l

/-- `src/polynomials/mod.rs` 692-702: the task of one chunk. -/
def evalTaskT (g : F) (start : ℕ) : Option (List F) → Tick F
  | some a => do
    let x ← powT g start
    evalRunningT g 0 x a
  | none => pure 0

/-- `src/polynomials/mod.rs` 705-708: a sum for each chunk. -/
def sumT : F → List F → Tick F
  | s, [] => pure s
  | s, v :: l => do
    let s ← Tick.op 1 (s + v)
    sumT s l

/-- `src/polynomials/mod.rs` 685-711 `evaluate_at` -/
def evaluateAtT (w : Worker) (p : Poly F .coefficients) (g : F) : Tick F := do
  let n := p.coeffs.length
  let c := w.chunkSize n
  let numThreads := w.numSpawnedThreads n
  let sub ← Tick.collectN numThreads (fun i => evalTaskT g (i * c) (chunks c p.coeffs)[i]?)
  sumT 0 sub

/-! ## Witness polynomials -/

/-- `src/arp/per_register/mod.rs` 13-68 `make_witness_polymonials` -/
def makeWitnessPolynomialsT (witness : List (List F)) (w : Worker) : Tick (List (Poly F .coefficients)) := do
  let numRegisters := witness.length
  let row0 ← Tick.lift (rd witness 0)
  let numRows := row0.length
  Tick.lift (Res.assert (witness.all (fun r => numRows = r.length)))
  let domain ← newForSizeT F (nextPow2 numRows)
  let logN := domain.powerOfTwo
  let omegaInv ← inverseUnwrapT domain.generator
  let m ← fromStrT F domain.size
  let minv ← inverseUnwrapT m
  let rows ← Tick.map (fun r => bestFftT w r omegaInv logN (witnessHint w numRegisters)) witness
  Tick.map (fun r => do
    let c ← parChunksT w r (fun _ _ v => mapOpT (fun x => x * minv) v)
    ofVecT c) rows

/-- `src/arp/per_register/mod.rs` 71-91 `calculate_witness_polys` -/
def calculateWitnessPolysT (inst : InstanceProperties F) (witness : List (List F)) (w : Worker) : Tick (List (Poly F .coefficients)) := do
  let numRegisters := witness.length
  let row0 ← Tick.lift (rd witness 0)
  let numRows := row0.length
  Tick.lift (Res.assert (witness.all (fun r => numRows = r.length)))
  if numRegisters ≠ inst.numRegisters then Tick.lift (.err .error)
  else if numRows ≠ inst.numRows then Tick.lift (.err .error)
  else makeWitnessPolynomialsT witness w

/-! ## ALI -/

/-- `src/ali/per_register/mod.rs` 257-272 `evaluate_for_mask` -/
def evaluateForMaskT (f : Poly F .coefficients) (w : Worker) : StepDifference F → Tick (Poly F .coefficients)
  | .mask m => do
    let c ← distributePowersT w f.coeffs m
    pure { f with coeffs := c }
  | .steps _ => Tick.lift .panic

/-- `src/ali/per_register/mod.rs` 276-290 -/
def maskedPolynomialsT (masks : List (MaskProperties F)) (witness : List (Poly F .coefficients)) (w : Worker) :
    Tick (List (MaskProperties F × Poly F .coefficients)) :=
  Tick.forEach masks [] (fun m acc => do
    let r ← Tick.lift m.register.num
    let poly ← Tick.lift (rd witness r)
    let masked ← evaluateForMaskT poly w m.stepsDifference
    pure (assocInsert acc m masked))

/-- `src/ali/per_register/mod.rs` 292-308 `calculate_adjustment_polynomial_in_coset` -/
def adjustmentInCosetT (adjustment : ℕ) (alpha beta : F) (domain : Domain F) (pre : PrecomputedOmegas F) (w : Worker) : Tick (Poly F .values) := do
  Tick.lift (Res.assert (1 ≤ adjustment))
  Tick.lift (Res.assert (pre.coset.length = domain.size))
  let poly ← unwrapT (ofVecT pre.coset : Tick (Poly F .values))
  let poly ← powPolyT w poly adjustment
  let poly ← mapPolyT w poly (fun x => x * alpha)
  mapPolyT w poly (fun x => x + beta)

/-- `src/ali/per_register/mod.rs` 387-396 and 408-417: unless the coefficient is one, `-1` is computed for the comparison, and every value is changed. -/
def applyCoeffT (w : Worker) (coeff : F) (base : Poly F .values) : Tick (Poly F .values) :=
  if coeff ≠ 1 then do
    let minusOne ← Tick.op 1 (-1 : F)
    if coeff = minusOne then mapPolyT w base (fun x => -x) else mapPolyT w base (fun x => x * coeff)
  else pure base

/-- `src/ali/per_register/mod.rs` 400-419: evaluation of a term that is not in the cache. -/
def evaluateFreshT (t : UnivariateTerm F) (base : Poly F .coefficients) (key : WitnessEvaluationData F)
    (cache : TermCache F) (powerHint : ℕ) (w : Worker) : Tick (Poly F .values × TermCache F) := do
  Tick.lift (Res.assert (isPow2 powerHint))
  let v ← cosetLdeT w base powerHint
  let v ← powPolyT w v t.power
  let r ← applyCoeffT w t.coeff v
  pure (r, assocInsert cache key v)

/-- `src/ali/per_register/mod.rs` 385-397: a hit in the cache. -/
def evaluateLookupT (t : UnivariateTerm F) (base : Poly F .coefficients) (key : WitnessEvaluationData F)
    (cache : TermCache F) (powerHint : ℕ) (w : Worker) : Option (Poly F .values) → Tick (Poly F .values × TermCache F)
  | some e => do
    let r ← applyCoeffT w t.coeff e
    pure (r, cache)
  | none => evaluateFreshT t base key cache powerHint w

/-- `src/ali/per_register/mod.rs` 363-420 `evaluate_univariate_term_into_values` -/
def evaluateUnivariateTermT (t : UnivariateTerm F) (subst : List (MaskProperties F × Poly F .coefficients))
    (cache : TermCache F) (powerHint : ℕ) (w : Worker) : Tick (Poly F .values × TermCache F) := do
  Tick.lift (Res.assert (isPow2 powerHint))
  let base ← Tick.lift (Res.expect (assocGet subst t.maskProperties))
  let key : WitnessEvaluationData F := { mask := t.maskProperties, power := t.power, totalLdeLength := powerHint * base.size }
  evaluateLookupT t base key cache powerHint w (assocGet cache key)

/-- `src/ali/per_register/mod.rs` 343-347: multiply into the accumulator. -/
def mulOptT (w : Worker) (acc : Option (Poly F .values)) (t : Poly F .values) : Tick (Option (Poly F .values)) :=
  match acc with
  | some r => do
    let r ← zipPolyT w r t (fun a b => a * b)
    pure (some r)
  | none => pure (some t)

/-- `src/ali/per_register/mod.rs` 334-347: one factor. -/
def evaluateFactorT (subst : List (MaskProperties F × Poly F .coefficients)) (powerHint : ℕ) (w : Worker) (t : UnivariateTerm F)
    (s : Option (Poly F .values) × TermCache F) : Tick (Option (Poly F .values) × TermCache F) := do
  let (v, cache) ← evaluateUnivariateTermT t subst s.2 powerHint w
  let acc ← mulOptT w s.1 v
  pure (acc, cache)

/-- `src/ali/per_register/mod.rs` 311-358 `evaluate_constraint_term_into_values` -/
def evaluateConstraintTermT (t : ConstraintTerm F) (subst : List (MaskProperties F × Poly F .coefficients))
    (cache : TermCache F) (powerHint : ℕ) (w : Worker) : Tick (Poly F .values × TermCache F) := do
  Tick.lift (Res.assert (isPow2 powerHint))
  match t with
  | .univariate t => evaluateUnivariateTermT t subst cache powerHint w
  | .polyvariate p => do
    let (acc, cache) ← Tick.forEach p.terms (none, cache) (evaluateFactorT subst powerHint w)
    let v ← Tick.lift (Res.expect acc)
    let v ← mapPolyT w v (fun x => x * p.coeff)
    pure (v, cache)

/-- `src/ali/per_register/mod.rs` 434-447, 487-500 -/
def adjustmentOptT (inst : AliInstance F) (w : Worker) (adjustment : ℕ) (alpha beta : F) : Tick (Option (Poly F .values)) :=
  if adjustment = 0 then pure none
  else do
    let adj ← adjustmentInCosetT adjustment alpha beta inst.constraintsDomain inst.precomputations w
    pure (some adj)

/-- `src/ali/per_register/mod.rs` 462-467, 513-518 -/
def applyAdjustmentT (w : Worker) (alpha : F) (v : Poly F .values) : Option (Poly F .values) → Tick (Poly F .values)
  | some adj => zipPolyT w v adj (fun a b => a * b)
  | none => mapPolyT w v (fun x => x * alpha)

/-- `src/ali/per_register/mod.rs` 450-459: one term of a constraint. -/
def gTermT (inst : AliInstance F) (w : Worker) (subst : List (MaskProperties F × Poly F .coefficients)) (t : ConstraintTerm F)
    (s : Poly F .values × TermCache F) : Tick (Poly F .values × TermCache F) := do
  let (sub, cache) ← evaluateConstraintTermT t subst s.2 inst.maxConstraintPower w
  let v ← zipPolyT w s.1 sub (fun a b => a + b)
  pure (v, cache)

variable (H : List UInt8 → Digest)

/-- `src/ali/per_register/mod.rs` 427-470: one constraint. -/
def gConstraintW (inst : AliInstance F) (w : Worker) (subst : List (MaskProperties F × Poly F .coefficients))
    (gValues : Poly F .values) (c : Constraint F) (s : GState F) : Tick (GState F) := do
  Tick.lift (Res.assert (c.degree ≤ inst.maxConstraintPower))
  let adjustment := inst.maxConstraintPower - c.degree
  let (alpha, t) ← getChallengeT H s.transcript
  let (beta, t) ← getChallengeT H t
  let adj ← adjustmentOptT inst w adjustment alpha beta
  let (v, cache) ← Tick.forEach c.terms (gValues, s.cache) (gTermT inst w subst)
  let v ← mapPolyT w v (fun x => x + c.constantTerm)
  let v ← applyAdjustmentT w alpha v adj
  let batch ← zipPolyT w s.batch v (fun a b => a + b)
  pure { batch := batch, cache := cache, transcript := t }

/-- `src/ali/per_register/mod.rs` 425-477: one batch of constraints. -/
def gBatchW (inst : AliInstance F) (w : Worker) (subst : List (MaskProperties F × Poly F .coefficients))
    (b : ConstraintDensity × List (Constraint F)) (s : GState F) : Tick (GState F) := do
  let r ← Tick.forEach b.2 s (gConstraintW H inst w subst s.batch)
  let divisors ← Tick.lift (Res.expect (assocGet inst.constraintDivisors b.1))
  let v ← zipPolyT w r.batch divisors (fun a b => a * b)
  let g ← zipPolyT w s.batch v (fun a b => a + b)
  pure { r with batch := g }

/-- `src/ali/per_register/mod.rs` 482-524: one boundary constraint. -/
def gBoundaryW (inst : AliInstance F) (w : Worker) (witness : List (Poly F .coefficients))
    (b : BoundaryConstraint F) (s : GState F) : Tick (GState F) := do
  let (alpha, t) ← getChallengeT H s.transcript
  let (beta, t) ← getChallengeT H t
  Tick.lift (Res.assert (1 ≤ inst.maxConstraintPower))
  let adjustment := inst.maxConstraintPower - 1
  let adj ← adjustmentOptT inst w adjustment alpha beta
  let r ← Tick.lift b.register.num
  let p ← Tick.lift (rd witness r)
  let value ← Tick.lift (Res.expect b.value)
  let c0 ← Tick.lift (rd p.coeffs 0)
  let c0 ← Tick.op 1 (c0 - value)
  let c ← Tick.lift (wr p.coeffs 0 c0)
  let v ← cosetLdeT w ({ p with coeffs := c } : Poly F .coefficients) inst.maxConstraintPower
  let v ← applyAdjustmentT w alpha v adj
  let divisors ← Tick.lift (Res.expect (assocGet inst.boundaryConstraintDivisors b.atRow))
  let v ← zipPolyT w v divisors (fun a b => a * b)
  let g ← zipPolyT w s.batch v (fun a b => a + b)
  pure { s with batch := g, transcript := t }

/-- `src/ali/per_register/mod.rs` 246-529 `calculate_g` -/
def calculateGW (inst : AliInstance F) (transcript : Transcript)
    (witness : List (Poly F .coefficients)) (w : Worker) : Tick (Poly F .coefficients × Transcript) := do
  Tick.lift (Res.assert (witness.length = inst.properties.numRegisters))
  let g ← (ofVecT (List.replicate inst.constraintsDomain.size 0) : Tick (Poly F .values))
  let subst ← maskedPolynomialsT inst.allMasks witness w
  let s ← Tick.forEach inst.constraintsBatchedByDensity
    ({ batch := g, cache := [], transcript := transcript } : GState F) (gBatchW H inst w subst)
  let s ← Tick.forEach inst.properties.boundaryConstraints s (gBoundaryW H inst w witness)
  let p ← icosetFftPolyT w s.batch
  pure (p, s.transcript)

/-! ## DEEP -/

/-- `src/ali/per_register/deep.rs` 60-68, 129-137 -/
def inverseLinearT (root : F) (size : ℕ) (w : Worker) : Tick (Poly F .values) := do
  let q ← linearPolyT root
  let v ← evaluateDegreeOneT w q size
  batchInversionT w v

/-- `src/ali/per_register/deep.rs` 57-72: the divisor of a mask, from the cache or computed. -/
def deepDivisorT (size : ℕ) (w : Worker) (sd : StepDifference F) (root : F) (divisors : List (StepDifference F × Poly F .values)) :
    Option (Poly F .values) → Tick (Poly F .values × List (StepDifference F × Poly F .values))
  | some d => pure (d, divisors)
  | none => do
    let d ← inverseLinearT root size w
    pure (d, assocInsert divisors sd d)

/-- `src/ali/per_register/deep.rs` 33-84: one mask. -/
def deepMaskW (fPolys : List (Poly F .coefficients)) (fLdes : List (Poly F .values)) (size : ℕ) (z : F)
    (w : Worker) (m : MaskProperties F) (s : DeepState F) : Tick (DeepState F) := do
  let mask ← Tick.lift m.stepsDifference.maskOf
  let root ← Tick.op 1 (mask * z)
  let r ← Tick.lift m.register.num
  let p ← Tick.lift (rd fPolys r)
  let value ← evaluateAtT w p root
  let (divisor, divisors) ← deepDivisorT size w m.stepsDifference root s.divisors (assocGet s.divisors m.stepsDifference)
  let f ← Tick.lift (rd fLdes r)
  let minusValue ← Tick.op 1 (-value)
  let f ← mapPolyT w f (fun x => x + minusValue)
  let (alpha, t) ← getChallengeT H s.transcript
  let f ← mapPolyT w f (fun x => x * alpha)
  let f ← zipPolyT w f divisor (fun a b => a * b)
  let h1 ← zipPolyT w s.h1 f (fun a b => a + b)
  pure { h1 := h1, fAtZM := s.fAtZM ++ [value], divisors := divisors, transcript := t }

/-- `src/ali/per_register/deep.rs` 14-149 `calculate_deep` -/
def calculateDeepW (inst : AliInstance F) (fPolys : List (Poly F .coefficients))
    (fLdes : List (Poly F .values)) (gPoly : Poly F .coefficients) (gLde : Poly F .values)
    (transcript : Transcript) (w : Worker) : Tick (DeepResult F) := do
  let (z, t) ← getChallengeT H transcript
  let f0 ← Tick.lift (rd fLdes 0)
  let h1 ← (ofVecT (List.replicate f0.size 0) : Tick (Poly F .values))
  let s ← Tick.forEach inst.allMasks ({ h1 := h1, fAtZM := [], divisors := [], transcript := t } : DeepState F)
    (deepMaskW H fPolys fLdes f0.size z w)
  let inv ← inverseLinearT z gLde.size w
  let gAtZ ← evaluateAtT w gPoly z
  let minusG ← Tick.op 1 (-gAtZ)
  let h2 ← mapPolyT w gLde (fun x => x + minusG)
  let h2 ← zipPolyT w h2 inv (fun a b => a * b)
  pure { h1 := s.h1, h2 := h2, fAtZM := s.fAtZM, gAtZ := gAtZ, transcript := s.transcript }

/-! ## FRI -/

/-- `src/fri/fri_on_values.rs` 75-100: one element of the next layer. -/
def friNextValueT (values omegasInv : List F) (stride nextSize : ℕ) (challenge twoInv : F) (idx : ℕ) : Tick F := do
  let a ← Tick.lift (rd values idx)
  let b ← Tick.lift (rd values (idx + nextSize))
  let o ← Tick.lift (rd omegasInv (idx * stride))
  friFoldT a b o challenge twoInv

/-- `src/fri/fri_on_values.rs` 70-104 -/
def friNextValuesT (w : Worker) (values omegasInv : List F) (stride nextSize : ℕ) (challenge twoInv : F) : Tick (List F) := do
  let c := w.chunkSize nextSize
  let parts ← Tick.collectN (numChunks nextSize c) (fun i =>
    Tick.collectN (min c (nextSize - i * c)) (fun j =>
      friNextValueT values omegasInv stride nextSize challenge twoInv (i * c + j)))
  pure parts.flatten

/-- `src/fri/fri_on_values.rs` 107, `src/iop/blake2s_trivial_iop.rs` 230-234, 316-318 `get_challenge_scalar_from_root`: one conversion. -/
def rootChallengeT (t : IopTree) : Tick F := do
  let _ ← Tick.op 1 ()
  Tick.lift t.getChallengeScalarFromRoot

/-- `src/fri/fri_on_values.rs` 61-119: loop body. -/
def friStepValuesW (w : Worker) (omegasInv : List F) (twoInv : F) (i : ℕ) (s : FriState F) : Tick (FriState F) := do
  let stride := 2 ^ i
  Tick.lift (Res.assert (s.current.length = s.nextSize * 2))
  let next ← friNextValuesT w s.current omegasInv stride s.nextSize s.nextChallenge twoInv
  let iop ← Tick.lift (IopTree.create H w next)
  let root ← Tick.lift iop.getRoot
  let ch ← rootChallengeT iop
  let nextPoly ← (ofVecT next : Tick (Poly F .values))
  pure { commitments := s.commitments ++ [iop], values := s.values ++ [nextPoly],
         challenges := s.challenges ++ [ch], roots := s.roots ++ [root], nextChallenge := ch,
         nextSize := s.nextSize / 2, current := nextPoly.coeffs }

/-- `src/fri/fri_on_values.rs` 11-159 `proof_from_lde_by_values` -/
def friProofByValuesW (w : Worker) (ldeValues : Poly F .values) (ldeFactor outputCoeffs : ℕ) : Tick (FriPrototype F) := do
  let l0 ← Tick.lift (IopTree.create H w ldeValues.coeffs)
  let initialDomainSize := ldeValues.size
  let two ← Tick.op 1 (1 + 1 : F)
  let twoInv ← inverseUnwrapT two
  let omegaInv := ldeValues.omegainv
  let omegasInv ← parChunksT w (List.replicate (initialDomainSize / 2) (0 : F)) (fun ch i v => do
    let u ← powT omegaInv (i * ch)
    powersRunningT omegaInv u v.length)
  Tick.lift (Res.assert (isPow2 outputCoeffs))
  Tick.lift (Res.assert (isPow2 ldeFactor))
  let initialDegreePlusOne := initialDomainSize / ldeFactor
  let numSteps ← Tick.lift (log2Floor (initialDegreePlusOne / outputCoeffs))
  let ch ← rootChallengeT l0
  let s ← Tick.forN numSteps 0
    ({ commitments := [], values := [], challenges := [ch], roots := [], nextChallenge := ch,
       nextSize := initialDomainSize / 2, current := ldeValues.coeffs } : FriState F)
    (friStepValuesW H w omegasInv twoInv)
  let challenges := s.challenges.dropLast
  let finalRoot ← Tick.lift (Res.expect s.roots.getLast?)
  Tick.lift (Res.assert (challenges.length = numSteps))
  Tick.lift (Res.assert (s.commitments.length = numSteps))
  Tick.lift (Res.assert (s.values.length = numSteps))
  let finalValues ← (ofVecT s.current : Tick (Poly F .values))
  let finalPoly ← ifftPolyT w finalValues
  pure { l0Commitment := l0, intermediateCommitments := s.commitments, intermediateValues := s.values,
         challenges := challenges, finalRoot := finalRoot,
         finalCoefficients := finalPoly.coeffs.take outputCoeffs,
         initialDegreePlusOne := initialDegreePlusOne, outputCoeffsAtDegreePlusOne := outputCoeffs,
         ldeFactor := ldeFactor }

/-! ## Prover -/

/-- `src/prover/mod.rs` 66-174 `prove` -/
def Prover.proveW (p : Prover F) (witness : List (List F)) : Tick (InstanceProof F) := do
  let w := p.worker
  let t ← Tick.lift (Transcript.new F)
  let witnessPolys ← calculateWitnessPolysT p.arp witness w
  let fLdes ← Tick.map (fun q => ldeT w q p.ldeFactor) witnessPolys
  let fOracles ← Tick.lift (mapRes (fun l => IopTree.create H w l.coeffs) fLdes)
  let fIopRoots ← Tick.lift (mapRes (fun o => o.getRoot) fOracles)
  let t := fIopRoots.foldl (fun t r => t.commitBytes r.bytes) t
  let (gPoly, t) ← calculateGW H p.ali t witnessPolys w
  let gLde ← ldeT w gPoly p.ldeFactor
  let gOracle ← Tick.lift (IopTree.create H w gLde.coeffs)
  let gIopRoot ← Tick.lift gOracle.getRoot
  let t := t.commitBytes gIopRoot.bytes
  let deep ← calculateDeepW H p.ali witnessPolys fLdes gPoly gLde t w
  let proto1 ← friProofByValuesW H w deep.h1 p.ldeFactor p.friFinalDegreePlusOne
  let proto2 ← friProofByValuesW H w deep.h2 p.ldeFactor p.friFinalDegreePlusOne
  let h1IopRoots ← Tick.lift proto1.getRoots
  let h2IopRoots ← Tick.lift proto2.getRoots
  let t ← commitFinalT deep.transcript proto1.finalRoot proto1.finalCoefficients
  let t ← commitFinalT t proto2.finalRoot proto2.finalCoefficients
  let (b1, t) := t.getChallengeBytes H
  let idx1 ← Tick.lift (bytesToChallengeIndex b1 deep.h1.size p.ldeFactor)
  let (b2, _) := t.getChallengeBytes H
  let idx2 ← Tick.lift (bytesToChallengeIndex b2 deep.h2.size p.ldeFactor)
  let proof1 ← Tick.lift (proto1.produceProof H deep.h1 idx1)
  let proof2 ← Tick.lift (proto2.produceProof H deep.h2 idx2)
  let fQueries ← Tick.lift (mapRes (fun o => o.1.query H idx1 o.2.coeffs) (fOracles.zip fLdes))
  let gQuery ← Tick.lift (gOracle.query H idx2 gLde.coeffs)
  pure { fAtZM := deep.fAtZM, fIopRoots := fIopRoots, gIopRoot := gIopRoot, fQueries := fQueries,
         gQuery := gQuery, h1IopRoots := h1IopRoots, h2IopRoots := h2IopRoots, friProofH1 := proof1,
         friProofH2 := proof2 }

end

end Hodor

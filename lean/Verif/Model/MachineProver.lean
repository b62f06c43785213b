import Verif.Model.MachineVerifier

/-!
# The whole prover with 64-bit words

`Model/Ali.lean`, `Model/Poly.lean` and `Model/Stark.lean` compute the sizes of the prover with natural numbers and check its subtractions. Here the
arithmetic of the prover on numbers which the user chooses — rows, degrees, first rows, spans, the LDE factor — is on 64-bit words in both build profiles:
`next_power_of_two` of the number of rows, the product of column domain and degree, the degree of a divisor, the excluded rows, the sizes of the extensions, the
key of the cache, the adjustment of boundary constraints, and `Domain::new_for_size` where it gets one of these sizes.

The remaining sizes are lengths of vectors in memory or sizes of domains that exist; `Domain::new_for_size` cannot overflow on them and is taken over.
Memory is not bounded in the model: an extension by a factor too large for the words is carried out here, although no machine can store it.
-/

namespace Hodor

/-- `for x in l { s = body(x, s) }` with a body that may still be running. -/
def Run.each {α σ : Type} : List α → σ → (α → σ → Run σ) → Run σ
  | [], s, _ => pure s
  | x :: l, s, body => body x s >>= fun s' => Run.each l s' body

/-- `for x in l { v.push(f(x)?) }` with a body that may still be running. -/
def Run.collect {α β : Type} (f : α → Run β) : List α → Run (List β)
  | [] => pure []
  | x :: l => do
    let y ← f x
    let ys ← Run.collect f l
    pure (y :: ys)

variable {F : Type} [Field F] [DecidableEq F] [StarkField F]

/-- `src/arp/per_register/mod.rs` 93-105 `from_instance` and 120-133 `route` -/
def fromInstanceWord (p : Profile) (fuel : ℕ) (inst : InstanceProperties F) : Run (InstanceProperties F) := do
  let numRowsSup ← Run.done (nextPow2Word p inst.numRows)
  let columnDomain ← newForSizeWord p fuel numRowsSup
  let cs ← Run.done (mapRes (maskConstraint columnDomain) inst.constraints)
  pure { inst with constraints := cs }

/-- `src/ali/per_register/mod.rs` 60-162 `inverse_divisor_for_dense_constraint_in_coset` -/
def inverseDivisorInCosetWord (p : Profile) (columnDomain evaluationDomain : Domain F) (d : DenseConstraint) (numRows : ℕ)
    (w : Worker) : Res (Poly F .values) := do
  let _ ← divisorDegreeWord p columnDomain.size numRows d
  let roots ← excludedRootsWord p columnDomain d numRows
  let g := evaluationDomain.generator
  let q ← Poly.newForSizeValues evaluationDomain.size
  let q := { q with coeffs := parChunks w q.coeffs (fun ch i v =>
    vanishingRunning columnDomain.size g (g ^ (i * ch) * StarkField.mulGen) v.length) }
  let q ← q.batchInversion w
  pure { q with coeffs := parChunks w q.coeffs (fun ch i v =>
    mulRootsRunning roots g (g ^ (i * ch) * StarkField.mulGen) v) }

/-- `src/ali/per_register/mod.rs` 176-192: divisors of one density. -/
def densityDivisorWord (p : Profile) (columnDomain constraintsDomain : Domain F) (numRows : ℕ) (w : Worker) :
    ConstraintDensity → Res (Poly F .values)
  | .dense d => inverseDivisorInCosetWord p columnDomain constraintsDomain d numRows w
  | _ => .panic

/-- `src/ali/per_register/mod.rs` 36-244 `from_arp`: the product (49) and both domains (48, 49) on words. -/
def AliInstance.fromArpWord (p : Profile) (fuel : ℕ) (arp : InstanceProperties F) (w : Worker) : Run (AliInstance F) := do
  let maxConstraintPower := maxDegree arp.constraints
  let columnDomain ← newForSizeWord p fuel arp.numRows
  let size ← Run.done (mulWord p columnDomain.size maxConstraintPower)
  let constraintsDomain ← newForSizeWord p fuel size
  let precomputed ← Run.done (PrecomputedOmegas.newForDomain constraintsDomain w)
  let masks := arp.constraints.foldl getMasksFromConstraint []
  let batches := arp.constraints.foldl (fun m c => pushBatch c m) []
  let divisors ← Run.done (forEach batches [] (fun b m => do
    let q ← densityDivisorWord p columnDomain constraintsDomain arp.numRows w b.1
    pure (assocInsert m b.1 q)))
  let boundaryRegisters := arp.boundaryConstraints.foldl (fun s b => insertSet s b.register) []
  let masks := arp.boundaryConstraints.foldl getMaskFromBoundaryConstraint masks
  let rows := arp.boundaryConstraints.foldl (fun s b => insertSet s b.atRow) []
  let boundaryDivisors ← Run.done (forEach rows [] (fun row m => do
    let q ← boundaryDivisor columnDomain constraintsDomain row w
    pure (assocInsert m row q)))
  pure { properties := arp, maxConstraintPower := maxConstraintPower, columnDomain := columnDomain,
         constraintsDomain := constraintsDomain, allMasks := masks,
         allBoundaryConstrainedRegisters := boundaryRegisters, constraintDivisors := divisors,
         boundaryConstraintDivisors := boundaryDivisors, constraintsBatchedByDensity := batches,
         precomputations := precomputed }

/-- `src/prover/mod.rs` 46-64 `new` -/
def Prover.newWord (p : Profile) (fuel : ℕ) (w : Worker) (inst : InstanceProperties F) (ldeFactor friFinalDegreePlusOne : ℕ) :
    Run (Prover F) := do
  let arp ← fromInstanceWord p fuel inst
  let ali ← AliInstance.fromArpWord p fuel arp w
  pure { arp := arp, ali := ali, ldeFactor := ldeFactor, friFinalDegreePlusOne := friFinalDegreePlusOne,
         worker := w }

/-- `src/polynomials/mod.rs` 434-481 (`shift = 1`) and 560-608 (`shift` the multiplicative generator): the product of length and factor (435, 561) and its domain on words. -/
def Poly.multiCosetLdeWord (p : Profile) (fuel : ℕ) (w : Worker) (q : Poly F .coefficients) (factor : ℕ) (shift : F) :
    Run (Poly F .values) := do
  let hint := ldeHint w factor
  let _ ← Run.done (Res.assert (isPow2 factor))
  let newSize ← Run.done (mulWord p q.coeffs.length factor)
  let domain ← newForSizeWord p fuel newSize
  let cosetOmega := domain.generator
  let ch := w.chunkSize factor
  Run.done (do
    let results ← collectN (numChunks factor ch) (fun i =>
      ldeChunk w q hint cosetOmega (cosetOmega ^ i * shift) (min ch (factor - i * ch)))
    let finalValues ← interleave w newSize results.flatten factor
    Poly.fromValues finalValues)

/-- `src/polynomials/mod.rs` 343-346 `lde`, 418-482 `lde_using_multiple_cosets` -/
def Poly.ldeWord (p : Profile) (fuel : ℕ) (w : Worker) (q : Poly F .coefficients) (factor : ℕ) : Run (Poly F .values) :=
  if factor = 1 then .done (q.fft w) else q.multiCosetLdeWord p fuel w factor 1

/-- `src/polynomials/mod.rs` 349-352 `coset_lde`, 544-609 `coset_lde_using_multiple_cosets` -/
def Poly.cosetLdeWord (p : Profile) (fuel : ℕ) (w : Worker) (q : Poly F .coefficients) (factor : ℕ) : Run (Poly F .values) :=
  if factor = 1 then .done (q.cosetFft w) else q.multiCosetLdeWord p fuel w factor StarkField.mulGen

/-- `src/ali/per_register/mod.rs` 400-419: evaluation of a term that is not in the cache. -/
def evaluateFreshWord (p : Profile) (fuel : ℕ) (t : UnivariateTerm F) (base : Poly F .coefficients) (key : WitnessEvaluationData F)
    (cache : TermCache F) (powerHint : ℕ) (w : Worker) : Run (Poly F .values × TermCache F) := do
  let _ ← Run.done (Res.assert (isPow2 powerHint))
  let v ← base.cosetLdeWord p fuel w powerHint
  let v := v.pow w t.power
  pure (applyCoeff w t.coeff v, assocInsert cache key v)

/-- `src/ali/per_register/mod.rs` 363-420 `evaluate_univariate_term_into_values`: the length in the key (382) on words. -/
def evaluateUnivariateTermWord (p : Profile) (fuel : ℕ) (t : UnivariateTerm F) (subst : List (MaskProperties F × Poly F .coefficients))
    (cache : TermCache F) (powerHint : ℕ) (w : Worker) : Run (Poly F .values × TermCache F) := do
  let _ ← Run.done (Res.assert (isPow2 powerHint))
  let base ← Run.done (Res.expect (assocGet subst t.maskProperties))
  let total ← Run.done (mulWord p powerHint base.size)
  let key : WitnessEvaluationData F := { mask := t.maskProperties, power := t.power, totalLdeLength := total }
  match assocGet cache key with
  | some e => pure (applyCoeff w t.coeff e, cache)
  | none => evaluateFreshWord p fuel t base key cache powerHint w

/-- `src/ali/per_register/mod.rs` 311-358 `evaluate_constraint_term_into_values` -/
def evaluateConstraintTermWord (p : Profile) (fuel : ℕ) (t : ConstraintTerm F) (subst : List (MaskProperties F × Poly F .coefficients))
    (cache : TermCache F) (powerHint : ℕ) (w : Worker) : Run (Poly F .values × TermCache F) := do
  let _ ← Run.done (Res.assert (isPow2 powerHint))
  match t with
  | .univariate t => evaluateUnivariateTermWord p fuel t subst cache powerHint w
  | .polyvariate q => do
    let (acc, cache) ← Run.each q.terms ((none, cache) : Option (Poly F .values) × TermCache F) (fun t s => do
      let (v, cache) ← evaluateUnivariateTermWord p fuel t subst s.2 powerHint w
      let acc ← Run.done (mulOpt w s.1 v)
      pure (acc, cache))
    let v ← Run.done (Res.expect acc)
    pure (v.scale w q.coeff, cache)

variable (H : List UInt8 → Digest)

/-- `src/ali/per_register/mod.rs` 427-470: one constraint. The subtraction (433) follows the assertion. -/
def gConstraintWord (p : Profile) (fuel : ℕ) (inst : AliInstance F) (w : Worker) (subst : List (MaskProperties F × Poly F .coefficients))
    (gValues : Poly F .values) (c : Constraint F) (s : GState F) : Run (GState F) := do
  let _ ← Run.done (Res.assert (c.degree ≤ inst.maxConstraintPower))
  let adjustment := inst.maxConstraintPower - c.degree
  let (alpha, t) ← Run.done (s.transcript.getChallenge H)
  let (beta, t) ← Run.done (t.getChallenge H)
  let adj ← Run.done (adjustmentOpt inst w adjustment alpha beta)
  let (v, cache) ← Run.each c.terms (gValues, s.cache) (fun t s => do
    let (sub, cache) ← evaluateConstraintTermWord p fuel t subst s.2 inst.maxConstraintPower w
    let v ← Run.done (s.1.addAssignV w sub)
    pure (v, cache))
  let v := v.addConstant w c.constantTerm
  let v ← Run.done (applyAdjustment w alpha v adj)
  let batch ← Run.done (s.batch.addAssignV w v)
  pure { batch := batch, cache := cache, transcript := t }

/-- `src/ali/per_register/mod.rs` 425-477: one batch of constraints of the same density. -/
def gBatchWord (p : Profile) (fuel : ℕ) (inst : AliInstance F) (w : Worker) (subst : List (MaskProperties F × Poly F .coefficients))
    (b : ConstraintDensity × List (Constraint F)) (s : GState F) : Run (GState F) := do
  let r ← Run.each b.2 s (gConstraintWord H p fuel inst w subst s.batch)
  let divisors ← Run.done (Res.expect (assocGet inst.constraintDivisors b.1))
  let v ← Run.done (r.batch.mulAssign w divisors)
  let g ← Run.done (s.batch.addAssignV w v)
  pure { r with batch := g }

/-- `src/ali/per_register/mod.rs` 482-524: one boundary constraint; the subtraction (486) on words. -/
def gBoundaryWord (p : Profile) (fuel : ℕ) (inst : AliInstance F) (w : Worker) (witness : List (Poly F .coefficients))
    (b : BoundaryConstraint F) (s : GState F) : Run (GState F) := do
  let (alpha, t) ← Run.done (s.transcript.getChallenge H)
  let (beta, t) ← Run.done (t.getChallenge H)
  let adjustment ← Run.done (subWord p inst.maxConstraintPower 1)
  let adj ← Run.done (adjustmentOpt inst w adjustment alpha beta)
  let r ← Run.done b.register.num
  let q ← Run.done (rd witness r)
  let value ← Run.done (Res.expect b.value)
  let c0 ← Run.done (rd q.coeffs 0)
  let c ← Run.done (wr q.coeffs 0 (c0 - value))
  let v ← ({ q with coeffs := c } : Poly F .coefficients).cosetLdeWord p fuel w inst.maxConstraintPower
  let v ← Run.done (applyAdjustment w alpha v adj)
  let divisors ← Run.done (Res.expect (assocGet inst.boundaryConstraintDivisors b.atRow))
  let v ← Run.done (v.mulAssign w divisors)
  let g ← Run.done (s.batch.addAssignV w v)
  pure { s with batch := g, transcript := t }

/-- `src/ali/per_register/mod.rs` 246-529 `calculate_g` -/
def AliInstance.calculateGWord (p : Profile) (fuel : ℕ) (inst : AliInstance F) (transcript : Transcript)
    (witness : List (Poly F .coefficients)) (w : Worker) : Run (Poly F .coefficients × Transcript) := do
  let _ ← Run.done (Res.assert (witness.length = inst.properties.numRegisters))
  let g ← Run.done (Poly.newForSizeValues inst.constraintsDomain.size)
  let subst ← Run.done (maskedPolynomials inst.allMasks witness w)
  let s ← Run.each inst.constraintsBatchedByDensity
    ({ batch := g, cache := [], transcript := transcript } : GState F) (gBatchWord H p fuel inst w subst)
  let s ← Run.each inst.properties.boundaryConstraints s (gBoundaryWord H p fuel inst w witness)
  let q ← Run.done (s.batch.icosetFft w)
  pure (q, s.transcript)

/-- `src/prover/mod.rs` 85-171: the rest of `prove` once the extension of the composition polynomial is there. -/
def Prover.finish (q : Prover F) (witnessPolys : List (Poly F .coefficients)) (fLdes : List (Poly F .values))
    (fOracles : List IopTree) (fIopRoots : List Digest) (gPoly : Poly F .coefficients) (gLde : Poly F .values)
    (t : Transcript) : Res (InstanceProof F) := do
  let w := q.worker
  let gOracle ← IopTree.create H w gLde.coeffs
  let gIopRoot ← gOracle.getRoot
  let t := t.commitBytes gIopRoot.bytes
  let deep ← q.ali.calculateDeep H witnessPolys fLdes gPoly gLde t w
  let proto1 ← friProofByValues H w deep.h1 q.ldeFactor q.friFinalDegreePlusOne
  let proto2 ← friProofByValues H w deep.h2 q.ldeFactor q.friFinalDegreePlusOne
  let h1IopRoots ← proto1.getRoots
  let h2IopRoots ← proto2.getRoots
  let t := commitFinal deep.transcript proto1.finalRoot proto1.finalCoefficients
  let t := commitFinal t proto2.finalRoot proto2.finalCoefficients
  let (b1, t) := t.getChallengeBytes H
  let idx1 ← bytesToChallengeIndex b1 deep.h1.size q.ldeFactor
  let (b2, _) := t.getChallengeBytes H
  let idx2 ← bytesToChallengeIndex b2 deep.h2.size q.ldeFactor
  let proof1 ← proto1.produceProof H deep.h1 idx1
  let proof2 ← proto2.produceProof H deep.h2 idx2
  let fQueries ← mapRes (fun o => o.1.query H idx1 o.2.coeffs) (fOracles.zip fLdes)
  let gQuery ← gOracle.query H idx2 gLde.coeffs
  pure { fAtZM := deep.fAtZM, fIopRoots := fIopRoots, gIopRoot := gIopRoot, fQueries := fQueries,
         gQuery := gQuery, h1IopRoots := h1IopRoots, h2IopRoots := h2IopRoots, friProofH1 := proof1,
         friProofH2 := proof2 }

/-- `src/prover/mod.rs` 66-174 `prove` -/
def Prover.proveWord (p : Profile) (fuel : ℕ) (q : Prover F) (witness : List (List F)) : Run (InstanceProof F) := do
  let w := q.worker
  let t ← Run.done (Transcript.new F)
  let witnessPolys ← Run.done (calculateWitnessPolys q.arp witness w)
  let fLdes ← Run.collect (fun f => f.ldeWord p fuel w q.ldeFactor) witnessPolys
  let fOracles ← Run.done (mapRes (fun l => IopTree.create H w l.coeffs) fLdes)
  let fIopRoots ← Run.done (mapRes (fun o => o.getRoot) fOracles)
  let t := fIopRoots.foldl (fun t r => t.commitBytes r.bytes) t
  let (gPoly, t) ← q.ali.calculateGWord H p fuel t witnessPolys w
  let gLde ← gPoly.ldeWord p fuel w q.ldeFactor
  Run.done (q.finish H witnessPolys fLdes fOracles fIopRoots gPoly gLde t)

end Hodor

import Verif.Model.Cost

/-!
# The prover with its hash calls counted

The functions on the path of `Prover::prove`, once more, in the counting monad of `Verif/Model/Cost.lean`. Only the calls of the hash function are
counted here: the steps that do not hash are lifted from the plain model. One hash call is one `finalize`.
-/

namespace Hodor

namespace Tick

/-- The results of `f 0`, ..., `f (n - 1)`, computed in this order. -/
def collectN {α : Type} : ℕ → (ℕ → Tick α) → Tick (List α)
  | 0, _ => pure []
  | n + 1, f => do
    let l ← collectN n f
    let x ← f n
    pure (l ++ [x])

/-- `for i in lo..lo+n { s = body(i, s) }` -/
def forN {σ : Type} : ℕ → ℕ → σ → (ℕ → σ → Tick σ) → Tick σ
  | 0, _, s, _ => pure s
  | n + 1, lo, s, body => body lo s >>= fun s' => forN n (lo + 1) s' body

/-- `l.into_iter().map(f).collect()` with a body that can fail. -/
def map {α β : Type} (f : α → Tick β) : List α → Tick (List β)
  | [] => pure []
  | x :: l => do
    let y ← f x
    let ys ← map f l
    pure (y :: ys)

/-- `for (a, b) in as.iter_mut().zip(bs.iter()) { *a = f(a, b) }` -/
def zipUpdate {α β : Type} (f : α → β → Tick α) : List α → List β → Tick (List α)
  | a :: as, b :: bs => do
    let x ← f a b
    let r ← zipUpdate f as bs
    pure (x :: r)
  | as, _ => pure as

end Tick

variable {F : Type} [Field F] [DecidableEq F] [StarkField F] (H : List UInt8 → Digest)

/-! ## Merkle trees -/

/-- `src/iop/blake2s_trivial_iop.rs` 180-190 (and 200-209): one call for each pair of nodes. -/
def hashLevelT (w : Worker) (outputs inputs : List Digest) : Tick (List Digest) := do
  let c := w.chunkSize outputs.length
  let parts ← Tick.collectN (chunks c outputs).length (fun i => do
    let o ← Tick.lift (rd (chunks c outputs) i)
    match (chunks (c * 2) inputs)[i]? with
    | some v => Tick.zipUpdate (fun _ pair => Tick.hash (hashNode H pair)) o (chunks 2 v)
    | none => pure o)
  pure parts.flatten

/-- `src/iop/blake2s_trivial_iop.rs` 195-211: body of the loop over levels. -/
def createLevelT (w : Worker) (s : List Digest × ℕ) : Tick (List Digest × ℕ) := do
  let (nodes, len) := s
  let half := len / 2
  let inputs := (nodes.take len).drop half
  let outputs := (nodes.take half).drop (half / 2)
  Tick.lift (Res.assert (outputs.length * 2 = inputs.length))
  Tick.lift (Res.assert (isPow2 outputs.length))
  let outputs ← hashLevelT H w outputs inputs
  pure (nodes.take (half / 2) ++ outputs ++ nodes.drop half, half)

/-- `src/iop/blake2s_trivial_iop.rs` 149-165: one call for each leaf. -/
def hashLeafsT (w : Worker) (leafs : List F) : Tick (List Digest) := do
  let leafHashes := List.replicate leafs.length zeroDigest
  let chunk := w.chunkSize leafs.length
  let parts ← Tick.collectN (chunks chunk leafHashes).length (fun i => do
    let lh ← Tick.lift (rd (chunks chunk leafHashes) i)
    Tick.collectN lh.length (fun j => do
      let leaf ← Tick.lift (rd leafs (i * chunk + j))
      Tick.hash (hashLeaf H leaf)))
  pure parts.flatten

/-- `src/iop/blake2s_trivial_iop.rs` 131-219 `create` -/
def createT (w : Worker) (leafs : List F) : Tick IopTree := do
  let numLeafs := leafs.length
  Tick.lift (Res.assert (numLeafs = nextPow2 numLeafs))
  let nodes := List.replicate numLeafs zeroDigest
  let leafHashes ← hashLeafsT H w leafs
  let numLevels ← Tick.lift (log2Floor numLeafs)
  Tick.lift (Res.assert (1 ≤ numLevels))
  let outputs := nodes.drop (nodes.length / 2)
  Tick.lift (Res.assert (outputs.length * 2 = leafHashes.length))
  Tick.lift (Res.assert (isPow2 outputs.length))
  let level ← hashLevelT H w outputs leafHashes
  let nodes := nodes.take (nodes.length / 2) ++ level
  let (nodes, _) ← Tick.forN (numLevels - 1) 0 (nodes, nodes.length) (fun _ s => createLevelT H w s)
  pure { size := numLeafs, nodes := nodes }

/-- `src/iop/blake2s_trivial_iop.rs` 251-279 `get_path`: the leaf beside the opened one is hashed again (261-264), the other digests are read from the
tree. -/
def getPathT (t : IopTree) (treeIndex : ℕ) (leafs : List F) : Tick (List Digest) := do
  Tick.lift (Res.assert (t.size = t.nodes.length))
  let pair ← Tick.lift (rd leafs (treeIndex ^^^ 1))
  let pairHash ← Tick.hash (hashLeaf H pair)
  let rounds ← Tick.lift (log2Floor (t.nodes.length / 2))
  let (_, _, path) ← Tick.lift (forN rounds 0 (t.nodes, treeIndex / 2, [pairHash]) (fun _ s => pathStep s))
  pure path

/-- `src/iop/blake2s_trivial_iop.rs` 324-338 `query` -/
def queryT (t : IopTree) (naturalIndex : ℕ) (leafs : List F) : Tick (IopQuery F) := do
  Tick.lift (Res.assert (naturalIndex < t.size))
  Tick.lift (Res.assert (naturalIndex < leafs.length))
  let value ← Tick.lift (rd leafs naturalIndex)
  let path ← getPathT H t naturalIndex leafs
  pure { index := naturalIndex, value := value, path := path }

/-! ## ALI and DEEP -/

/-- `src/ali/per_register/mod.rs` 427-470: one constraint. -/
def gConstraintT (inst : AliInstance F) (w : Worker) (subst : List (MaskProperties F × Poly F .coefficients))
    (gValues : Poly F .values) (c : Constraint F) (s : GState F) : Tick (GState F) := do
  Tick.lift (Res.assert (c.degree ≤ inst.maxConstraintPower))
  let adjustment := inst.maxConstraintPower - c.degree
  let (alpha, t) ← getChallengeT H s.transcript
  let (beta, t) ← getChallengeT H t
  let adj ← Tick.lift (adjustmentOpt inst w adjustment alpha beta)
  let (v, cache) ← Tick.lift (forEach c.terms (gValues, s.cache) (fun t s => do
    let (sub, cache) ← evaluateConstraintTerm t subst s.2 inst.maxConstraintPower w
    let v ← s.1.addAssignV w sub
    pure (v, cache)))
  let v := v.addConstant w c.constantTerm
  let v ← Tick.lift (applyAdjustment w alpha v adj)
  let batch ← Tick.lift (s.batch.addAssignV w v)
  pure { batch := batch, cache := cache, transcript := t }

/-- `src/ali/per_register/mod.rs` 425-477: one batch of constraints. -/
def gBatchT (inst : AliInstance F) (w : Worker) (subst : List (MaskProperties F × Poly F .coefficients))
    (b : ConstraintDensity × List (Constraint F)) (s : GState F) : Tick (GState F) := do
  let r ← Tick.forEach b.2 s (gConstraintT H inst w subst s.batch)
  let divisors ← Tick.lift (Res.expect (assocGet inst.constraintDivisors b.1))
  let v ← Tick.lift (r.batch.mulAssign w divisors)
  let g ← Tick.lift (s.batch.addAssignV w v)
  pure { r with batch := g }

/-- `src/ali/per_register/mod.rs` 482-524: one boundary constraint. -/
def gBoundaryT (inst : AliInstance F) (w : Worker) (witness : List (Poly F .coefficients))
    (b : BoundaryConstraint F) (s : GState F) : Tick (GState F) := do
  let (alpha, t) ← getChallengeT H s.transcript
  let (beta, t) ← getChallengeT H t
  Tick.lift (Res.assert (1 ≤ inst.maxConstraintPower))
  let adjustment := inst.maxConstraintPower - 1
  let adj ← Tick.lift (adjustmentOpt inst w adjustment alpha beta)
  let r ← Tick.lift b.register.num
  let p ← Tick.lift (rd witness r)
  let value ← Tick.lift (Res.expect b.value)
  let c0 ← Tick.lift (rd p.coeffs 0)
  let c ← Tick.lift (wr p.coeffs 0 (c0 - value))
  let v ← Tick.lift (({ p with coeffs := c } : Poly F .coefficients).cosetLde w inst.maxConstraintPower)
  let v ← Tick.lift (applyAdjustment w alpha v adj)
  let divisors ← Tick.lift (Res.expect (assocGet inst.boundaryConstraintDivisors b.atRow))
  let v ← Tick.lift (v.mulAssign w divisors)
  let g ← Tick.lift (s.batch.addAssignV w v)
  pure { s with batch := g, transcript := t }

/-- `src/ali/per_register/mod.rs` 246-529 `calculate_g` -/
def calculateGT (inst : AliInstance F) (transcript : Transcript)
    (witness : List (Poly F .coefficients)) (w : Worker) : Tick (Poly F .coefficients × Transcript) := do
  Tick.lift (Res.assert (witness.length = inst.properties.numRegisters))
  let g ← Tick.lift (Poly.newForSizeValues inst.constraintsDomain.size)
  let subst ← Tick.lift (maskedPolynomials inst.allMasks witness w)
  let s ← Tick.forEach inst.constraintsBatchedByDensity
    ({ batch := g, cache := [], transcript := transcript } : GState F) (gBatchT H inst w subst)
  let s ← Tick.forEach inst.properties.boundaryConstraints s (gBoundaryT H inst w witness)
  let p ← Tick.lift (s.batch.icosetFft w)
  pure (p, s.transcript)

/-- `src/ali/per_register/deep.rs` 33-84: one mask. -/
def deepMaskT (fPolys : List (Poly F .coefficients)) (fLdes : List (Poly F .values)) (size : ℕ) (z : F)
    (w : Worker) (m : MaskProperties F) (s : DeepState F) : Tick (DeepState F) := do
  let mask ← Tick.lift m.stepsDifference.maskOf
  let root := mask * z
  let r ← Tick.lift m.register.num
  let p ← Tick.lift (rd fPolys r)
  let value := p.evaluateAt w root
  let (divisor, divisors) ← Tick.lift (deepDivisor size w m.stepsDifference root s.divisors)
  let f ← Tick.lift (rd fLdes r)
  let f := f.addConstant w (-value)
  let (alpha, t) ← getChallengeT H s.transcript
  let f := f.scale w alpha
  let f ← Tick.lift (f.mulAssign w divisor)
  let h1 ← Tick.lift (s.h1.addAssignV w f)
  pure { h1 := h1, fAtZM := s.fAtZM ++ [value], divisors := divisors, transcript := t }

/-- `src/ali/per_register/deep.rs` 14-149 `calculate_deep` -/
def calculateDeepT (inst : AliInstance F) (fPolys : List (Poly F .coefficients))
    (fLdes : List (Poly F .values)) (gPoly : Poly F .coefficients) (gLde : Poly F .values)
    (transcript : Transcript) (w : Worker) : Tick (DeepResult F) := do
  let (z, t) ← getChallengeT H transcript
  let f0 ← Tick.lift (rd fLdes 0)
  let h1 ← Tick.lift (Poly.newForSizeValues f0.size)
  let s ← Tick.forEach inst.allMasks ({ h1 := h1, fAtZM := [], divisors := [], transcript := t } : DeepState F)
    (deepMaskT H fPolys fLdes f0.size z w)
  let inv ← Tick.lift (inverseLinear z gLde.size w)
  let gAtZ := gPoly.evaluateAt w z
  let h2 := gLde.addConstant w (-gAtZ)
  let h2 ← Tick.lift (h2.mulAssign w inv)
  pure { h1 := s.h1, h2 := h2, fAtZM := s.fAtZM, gAtZ := gAtZ, transcript := s.transcript }

/-! ## FRI -/

/-- `src/fri/fri_on_values.rs` 61-119: loop body. -/
def friStepValuesT (w : Worker) (omegasInv : List F) (twoInv : F) (i : ℕ) (s : FriState F) : Tick (FriState F) := do
  let stride := 2 ^ i
  Tick.lift (Res.assert (s.current.length = s.nextSize * 2))
  let next ← Tick.lift (friNextValues w s.current omegasInv stride s.nextSize s.nextChallenge twoInv)
  let iop ← createT H w next
  let root ← Tick.lift iop.getRoot
  let ch ← Tick.lift iop.getChallengeScalarFromRoot
  let nextPoly ← Tick.lift (Poly.fromValues next)
  pure { commitments := s.commitments ++ [iop], values := s.values ++ [nextPoly],
         challenges := s.challenges ++ [ch], roots := s.roots ++ [root], nextChallenge := ch,
         nextSize := s.nextSize / 2, current := nextPoly.coeffs }

/-- `src/fri/fri_on_values.rs` 11-159 `proof_from_lde_by_values` -/
def friProofByValuesT (w : Worker) (ldeValues : Poly F .values) (ldeFactor outputCoeffs : ℕ) :
    Tick (FriPrototype F) := do
  let l0 ← createT H w ldeValues.coeffs
  let initialDomainSize := ldeValues.size
  let twoInv ← Tick.lift (Res.expect (inverse (1 + 1 : F)))
  let omegaInv := ldeValues.omegainv
  let omegasInv := parChunks w (List.replicate (initialDomainSize / 2) (0 : F)) (fun ch i v =>
    powersRunning omegaInv (omegaInv ^ (i * ch)) v.length)
  Tick.lift (Res.assert (isPow2 outputCoeffs))
  Tick.lift (Res.assert (isPow2 ldeFactor))
  let initialDegreePlusOne := initialDomainSize / ldeFactor
  let numSteps ← Tick.lift (log2Floor (initialDegreePlusOne / outputCoeffs))
  let ch ← Tick.lift l0.getChallengeScalarFromRoot
  let s ← Tick.forN numSteps 0
    ({ commitments := [], values := [], challenges := [ch], roots := [], nextChallenge := ch,
       nextSize := initialDomainSize / 2, current := ldeValues.coeffs } : FriState F)
    (friStepValuesT H w omegasInv twoInv)
  let challenges := s.challenges.dropLast
  let finalRoot ← Tick.lift (Res.expect s.roots.getLast?)
  Tick.lift (Res.assert (challenges.length = numSteps))
  Tick.lift (Res.assert (s.commitments.length = numSteps))
  Tick.lift (Res.assert (s.values.length = numSteps))
  let finalValues ← Tick.lift (Poly.fromValues s.current)
  let finalPoly ← Tick.lift (finalValues.ifft w)
  pure { l0Commitment := l0, intermediateCommitments := s.commitments, intermediateValues := s.values,
         challenges := challenges, finalRoot := finalRoot,
         finalCoefficients := finalPoly.coeffs.take outputCoeffs,
         initialDegreePlusOne := initialDegreePlusOne, outputCoeffsAtDegreePlusOne := outputCoeffs,
         ldeFactor := ldeFactor }

/-- `src/fri/query_producer.rs` 21-41: loop body. -/
def produceStepT (x : IopTree × Poly F .values) (s : List (IopQuery F) × List Digest × ℕ × ℕ) :
    Tick (List (IopQuery F) × List Digest × ℕ × ℕ) := do
  let (queries, roots, domainIdx, domainSize) := s
  let coset ← Tick.lift (cosetForNaturalIndex domainIdx domainSize)
  if coset.length ≠ 2 then Tick.lift (.err .invalidValue)
  else do
    let queries ← Tick.forEach coset queries (fun idx qs => do
      let q ← queryT H x.1 idx x.2.coeffs
      pure (qs ++ [q]))
    let root ← Tick.lift x.1.getRoot
    let (nextIdx, nextSize) ← Tick.lift (indexAndSizeForNextDomain domainIdx domainSize)
    pure (queries, roots ++ [root], nextIdx, nextSize)

/-- `src/fri/query_producer.rs` 10-53 `produce_proof` -/
def produceProofT (p : FriPrototype F) (iopValues : Poly F .values) (naturalFirstElementIndex : ℕ) :
    Tick (FriProof F) := do
  let domainSize := p.initialDegreePlusOne * p.ldeFactor
  let (queries, roots, _, _) ← Tick.forEach
    ((p.l0Commitment :: p.intermediateCommitments).zip (iopValues :: p.intermediateValues))
    ([], [], naturalFirstElementIndex, domainSize) (produceStepT H)
  pure { queries := queries, roots := roots, finalCoefficients := p.finalCoefficients,
         initialDegreePlusOne := p.initialDegreePlusOne,
         outputCoeffsAtDegreePlusOne := p.outputCoeffsAtDegreePlusOne, ldeFactor := p.ldeFactor }

/-! ## Prover -/

/-- `src/prover/mod.rs` 66-174 `prove` -/
def Prover.proveT (p : Prover F) (witness : List (List F)) : Tick (InstanceProof F) := do
  let w := p.worker
  let t ← Tick.lift (Transcript.new F)
  let witnessPolys ← Tick.lift (calculateWitnessPolys p.arp witness w)
  let fLdes ← Tick.lift (mapRes (fun q => q.lde w p.ldeFactor) witnessPolys)
  let fOracles ← Tick.map (fun l => createT H w l.coeffs) fLdes
  let fIopRoots ← Tick.lift (mapRes (fun o => o.getRoot) fOracles)
  let t := fIopRoots.foldl (fun t r => t.commitBytes r.bytes) t
  let (gPoly, t) ← calculateGT H p.ali t witnessPolys w
  let gLde ← Tick.lift (gPoly.lde w p.ldeFactor)
  let gOracle ← createT H w gLde.coeffs
  let gIopRoot ← Tick.lift gOracle.getRoot
  let t := t.commitBytes gIopRoot.bytes
  let deep ← calculateDeepT H p.ali witnessPolys fLdes gPoly gLde t w
  let proto1 ← friProofByValuesT H w deep.h1 p.ldeFactor p.friFinalDegreePlusOne
  let proto2 ← friProofByValuesT H w deep.h2 p.ldeFactor p.friFinalDegreePlusOne
  let h1IopRoots ← Tick.lift proto1.getRoots
  let h2IopRoots ← Tick.lift proto2.getRoots
  let t := commitFinal deep.transcript proto1.finalRoot proto1.finalCoefficients
  let t := commitFinal t proto2.finalRoot proto2.finalCoefficients
  let (b1, t) ← getChallengeBytesT H t
  let idx1 ← Tick.lift (bytesToChallengeIndex b1 deep.h1.size p.ldeFactor)
  let (b2, _) ← getChallengeBytesT H t
  let idx2 ← Tick.lift (bytesToChallengeIndex b2 deep.h2.size p.ldeFactor)
  let proof1 ← produceProofT H proto1 deep.h1 idx1
  let proof2 ← produceProofT H proto2 deep.h2 idx2
  let fQueries ← Tick.map (fun o => queryT H o.1 idx1 o.2.coeffs) (fOracles.zip fLdes)
  let gQuery ← queryT H gOracle idx2 gLde.coeffs
  pure { fAtZM := deep.fAtZM, fIopRoots := fIopRoots, gIopRoot := gIopRoot, fQueries := fQueries,
         gQuery := gQuery, h1IopRoots := h1IopRoots, h2IopRoots := h2IopRoots, friProofH1 := proof1,
         friProofH2 := proof2 }

end Hodor

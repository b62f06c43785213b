import Verif.Model.Stark

/-!
# The verifier with its operations counted

The functions on the path of `Verifier::verify`, once more, in a monad which counts the calls of the hash function and the field
operations which the code executes, whatever the outcome (an `Err` or a panic keeps what was spent until then).

Counted as one field operation: `add_assign`, `sub_assign`, `mul_assign`, `square`, `double`, `inverse`, and the conversions `from_repr` and
`into_repr`, which are Montgomery multiplications. `pow` is not one operation: it is the loop of crate `ff_ce` (`powT`). Not counted: copies,
comparisons, integer arithmetic and map lookups. One hash call is one `finalize`.
-/

namespace Hodor

/-- A computation with the number of hash calls and of field operations it executed. -/
structure Tick (α : Type) where
  hashes : ℕ
  ops : ℕ
  res : Res α

namespace Tick

/-- Sequencing: costs add up; after an `Err` or a panic nothing more is executed. -/
@[inline] def bind {α β : Type} (x : Tick α) (f : α → Tick β) : Tick β :=
  match x.res with
  | .ok a => ⟨x.hashes + (f a).hashes, x.ops + (f a).ops, (f a).res⟩
  | .err e => ⟨x.hashes, x.ops, .err e⟩
  | .panic => ⟨x.hashes, x.ops, .panic⟩

instance : Monad Tick where
  pure a := ⟨0, 0, .ok a⟩
  bind := bind

/-- Steps which are not counted. -/
def lift {α : Type} (x : Res α) : Tick α := ⟨0, 0, x⟩

/-- `n` field operations with result `x`. -/
def op {α : Type} (n : ℕ) (x : α) : Tick α := ⟨0, n, .ok x⟩

/-- One call of the hash function. -/
def hash {α : Type} (x : α) : Tick α := ⟨1, 0, .ok x⟩

/-- `for x in l { s = body(x, s) }` -/
def forEach {α σ : Type} : List α → σ → (α → σ → Tick σ) → Tick σ
  | [], s, _ => pure s
  | x :: l, s, body => body x s >>= fun s' => forEach l s' body

/-- `for x in l { if p(x) { return .. } }`: stops at the first hit. -/
def any {α : Type} : List α → (α → Tick Bool) → Tick Bool
  | [], _ => pure false
  | x :: l, p => p x >>= fun b => if b then pure true else any l p

end Tick

variable {F : Type} [Field F] [DecidableEq F] [StarkField F]

/-- `Field::pow` (crate `ff_ce`): from the most significant bit of the exponent down; leading zeros are skipped, every further bit squares, every bit
that is set multiplies. (`found_one` is "the bits above are not all zero".) -/
def powT (x : F) (e : ℕ) : Tick F :=
  if h : e = 0 then pure 1
  else do
    let r ← powT x (e / 2)
    let r ← if e / 2 = 0 then pure r else Tick.op 1 (r * r)
    if e % 2 = 1 then Tick.op 1 (r * x) else pure r
termination_by e
decreasing_by omega

/-- `src/domains/mod.rs` 21-44 `Domain::new_for_size`: one squaring for each turn of the loop 35-37. -/
def newForSizeT (F : Type) [Field F] [StarkField F] (size : ℕ) : Tick (Domain F) :=
  let size := nextPow2 size
  let powerOfTwo := shiftCount size size 0
  let maxPowerOfTwo := StarkField.S F
  if powerOfTwo > maxPowerOfTwo then Tick.lift (.err .error)
  else do
    let generator ← Tick.op (maxPowerOfTwo - powerOfTwo) (squareN (maxPowerOfTwo - powerOfTwo) (StarkField.root (F := F)))
    pure { size := size, powerOfTwo := powerOfTwo, generator := generator }

/-- `F::inverse()` and `ok_or`. -/
def inverseT (x : F) : Tick F := do
  let o ← Tick.op 1 (inverse x)
  Tick.lift (Res.okOr o .divisionByZero)

/-- `src/iop/blake2s_trivial_iop.rs` 48-60 `interpret_hash`: one conversion. -/
def interpretHashT (value : Digest) : Tick F := do
  let _ ← Tick.op 1 ()
  Tick.lift (interpretHash value)

variable (H : List UInt8 → Digest)

/-! ## Transcript -/

/-- `src/transcript/mod.rs` 53-58 `commit_field_element`: one conversion. -/
def commitFieldElementT (t : Transcript) (x : F) : Tick Transcript := Tick.op 1 (t.commitFieldElement x)

/-- `src/transcript/mod.rs` 60-65 `get_challenge_bytes` -/
def getChallengeBytesT (t : Transcript) : Tick (List UInt8 × Transcript) := do
  let value ← Tick.hash (H t.absorbed)
  pure (value.bytes, { absorbed := t.absorbed ++ value.bytes })

/-- `src/transcript/mod.rs` 67-79 `get_challenge` -/
def getChallengeT (t : Transcript) : Tick (F × Transcript) := do
  let value ← Tick.hash (H t.absorbed)
  let c ← interpretHashT value
  pure (c, { absorbed := t.absorbed ++ value.bytes })

/-- `src/verifier/mod.rs` 305-308, 310-313: commit the final root and the final coefficients of a FRI proof. -/
def commitFinalT (t : Transcript) (root : Digest) (coeffs : List F) : Tick Transcript :=
  Tick.forEach coeffs (t.commitBytes root.bytes) (fun x t => commitFieldElementT t x)

/-! ## Merkle openings -/

/-- `src/iop/blake2s_trivial_iop.rs` 239-246: the loop of `verify`. -/
def verifyLoopT : Digest → ℕ → List Digest → Tick Digest
  | hash, _, [] => pure hash
  | hash, idx, el :: path => do
    let hash ← Tick.hash (if idx % 2 = 0 then hashNode H [hash, el] else hashNode H [el, hash])
    verifyLoopT hash (idx / 2) path

/-- `src/iop/blake2s_trivial_iop.rs` 236-249 `verify`, 320-322 `verify_query` -/
def verifyQueryT (q : IopQuery F) (root : Digest) : Tick Bool := do
  let hash ← Tick.hash (hashLeaf H q.value)
  let hash ← verifyLoopT H hash q.index q.path
  pure (decide (hash = root))

/-! ## FRI -/

/-- `src/fri/verifier.rs` 276-282: running evaluation of the final polynomial, three operations per coefficient. -/
def evalFinalT (x : F) : F → F → List F → Tick F
  | acc, _, [] => pure acc
  | acc, power, c :: l => do
    let tmp ← Tick.op 1 (power * c)
    let acc ← Tick.op 1 (acc + tmp)
    let power ← Tick.op 1 (power * x)
    evalFinalT x acc power l

/-- `src/fri/verifier.rs` 270-288: final comparison. -/
def friFinishT (finalCoefficients : List F) (s : FriVState F) : Tick Bool := do
  let point ← powT s.omega s.domainIdx
  let fromCoefficients ← evalFinalT point 0 1 finalCoefficients
  let expected ← Tick.lift (Res.expect s.expected)
  pure (decide (fromCoefficients = expected))

/-- `src/fri/verifier.rs` 137-168: checks on the initial index and initial state. -/
def friStartT (initialDegreePlusOne ldeFactor naturalElementIndex : ℕ) : Tick (F × FriVState F) := do
  let two ← Tick.op 1 (1 + 1 : F)
  let twoInv ← inverseT two
  let domain ← newForSizeT F (initialDegreePlusOne * ldeFactor)
  let domainElement ← powT domain.generator naturalElementIndex
  let el ← powT domainElement domain.size
  if el ≠ 1 then Tick.lift (.err .invalidValue)
  else do
    let el ← powT domainElement (domain.size / 2)
    if el = 1 then Tick.lift (.err .invalidValue)
    else do
      let omegaInv ← inverseT domain.generator
      pure (twoInv, { expected := none, domainSize := domain.size, domainIdx := naturalElementIndex,
                      omega := domain.generator, omegaInv := omegaInv })

/-- `src/fri/verifier.rs` 236-253: the folding step on two opposite values. -/
def friFoldT (fAtOmega fAtMinusOmega divisor challenge twoInv : F) : Tick F := do
  let vEven ← Tick.op 1 (fAtOmega + fAtMinusOmega)
  let vOdd ← Tick.op 1 (fAtOmega - fAtMinusOmega)
  let vOdd ← Tick.op 1 (vOdd * divisor)
  let tmp ← Tick.op 1 (vOdd * challenge)
  let tmp ← Tick.op 1 (tmp + vEven)
  Tick.op 1 (tmp * twoInv)

/-- `src/fri/verifier.rs` 260-266: go to the next domain with the folded value; two squarings. -/
def friAdvanceT (s : FriVState F) (folded : F) : Tick (FriVState F) := do
  let next ← Tick.lift (indexAndSizeForNextDomain s.domainIdx s.domainSize)
  let omega ← Tick.op 1 (s.omega * s.omega)
  let omegaInv ← Tick.op 1 (s.omegaInv * s.omegaInv)
  pure { expected := some folded, domainSize := next.2, domainIdx := next.1, omega := omega, omegaInv := omegaInv }

/-- `src/fri/verifier.rs` 174-267 followed by 270-288: the loop of `verify_proof_queries`. -/
def proofRoundsT (twoInv : F) (finalCoefficients : List F) (naturalElementIndex : ℕ) (expectedFromOracle : F) :
    ℕ → List (Digest × List (IopQuery F)) → FriVState F → Tick Bool
  | _, [], s => friFinishT finalCoefficients s
  | round, (root, queries) :: rest, s => do
    let coset ← Tick.lift (cosetForNaturalIndex s.domainIdx s.domainSize)
    if coset.length ≠ 2 then Tick.lift (.err .invalidValue)
    else if queries.any (fun q => !coset.contains q.index) then pure false
    else if round = 0 ∧ queries.any (fun q => decide (q.index = naturalElementIndex ∧ q.value ≠ expectedFromOracle))
      then pure false
    else do
      Tick.lift (checkTreeIndices coset queries)
      let bad ← Tick.any queries (fun q => do
        let good ← verifyQueryT H q root
        pure (!good))
      if bad then pure false
      else do
        let challenge ← interpretHashT root
        let q0 ← Tick.lift (rd queries 0)
        if queriesConsistent queries coset s = false then pure false
        else do
          let q1 ← Tick.lift (rd queries 1)
          let c0 ← Tick.lift (rd coset 0)
          let divisor ← powT s.omegaInv c0
          let folded ← friFoldT q0.value q1.value divisor challenge twoInv
          let s ← friAdvanceT s folded
          proofRoundsT twoInv finalCoefficients naturalElementIndex expectedFromOracle (round + 1) rest s

/-- `src/fri/mod.rs` 97-103 `verify_proof`, `src/fri/verifier.rs` 131-289 `verify_proof_queries` with two queries per round. -/
def FriProof.verifyT (p : FriProof F) (naturalElementIndex : ℕ) (expectedFromOracle : F) : Tick Bool := do
  let (twoInv, s) ← friStartT p.initialDegreePlusOne p.ldeFactor naturalElementIndex
  if p.queries.length % 2 ≠ 0 then Tick.lift (.err .invalidValue)
  else do
    let rounds := p.roots.zip (chunksExact 2 p.queries)
    proofRoundsT H twoInv p.finalCoefficients naturalElementIndex expectedFromOracle 0 rounds s

/-! ## The value of the composition at `z` -/

/-- `src/verifier/mod.rs` 72-94 `evaluate_univariate_term_on_f_at_z_m` -/
def evaluateUnivariateAtZT (t : UnivariateTerm F) (values : ZValues F) : Tick F := do
  let r ← Tick.lift t.register.num
  let m ← Tick.lift (rd values r)
  let v ← Tick.lift (Res.okOr (assocGet m t.stepsDifference) .unsatisfied)
  let v ← powT v t.power
  Tick.op 1 (v * t.coeff)

/-- `src/verifier/mod.rs` 44-70 `evaluate_term_on_f_at_z_m` -/
def evaluateTermAtZT (values : ZValues F) : ConstraintTerm F → Tick F
  | .univariate t => evaluateUnivariateAtZT t values
  | .polyvariate p => do
    let r ← Tick.forEach p.terms (1 : F) (fun t r => do
      let v ← evaluateUnivariateAtZT t values
      Tick.op 1 (r * v))
    Tick.op 1 (r * p.coeff)

/-- `src/verifier/mod.rs` 31-42 `evaluate_constraint_on_f_at_z_m` -/
def evaluateConstraintAtZT (c : Constraint F) (values : ZValues F) : Tick F :=
  Tick.forEach c.terms c.constantTerm (fun t value => do
    let v ← evaluateTermAtZT values t
    Tick.op 1 (value + v))

/-- `src/verifier/mod.rs` 659-665, 669-674: `tmp = x - root; acc *= tmp; root *= g`, `n` times. -/
def mulLinearRunningT (x g : F) : ℕ → F → F → Tick F
  | 0, _, acc => pure acc
  | n + 1, root, acc => do
    let tmp ← Tick.op 1 (x - root)
    let acc ← Tick.op 1 (acc * tmp)
    let root ← Tick.op 1 (root * g)
    mulLinearRunningT x g n root acc

/-- `src/verifier/mod.rs` 635-677 `inverse_divisor_for_dense_constraint` -/
def inverseDivisorAtT (x : F) (columnDomain : Domain F) (d : DenseConstraint) (numRows : ℕ) : Tick F := do
  let _ ← Tick.lift (divisorDegree columnDomain.size numRows d)
  let q ← powT x columnDomain.size
  let q ← Tick.op 1 (q - 1)
  let inv ← inverseT q
  let g := columnDomain.generator
  let inv ← mulLinearRunningT x g d.startAt 1 inv
  Tick.lift (Res.assert (d.span ≤ numRows))
  let lastStep := numRows - d.span
  let root ← powT g lastStep
  mulLinearRunningT x g (columnDomain.size - lastStep) root inv

/-- `src/verifier/mod.rs` 528-541: the divisor at `z` of one density. -/
def densityDivisorAtT (z : F) (columnDomain : Domain F) (numRows : ℕ) : ConstraintDensity → Tick F
  | .dense d => inverseDivisorAtT z columnDomain d numRows
  | _ => Tick.lift .panic

/-- `src/verifier/mod.rs` 556-566, 613-623: value times `alpha`, or times `alpha*z^adj + beta`. -/
def applyAdjustmentAtT (z : F) (adjustment : ℕ) (alpha beta value : F) : Tick F :=
  if adjustment = 0 then Tick.op 1 (value * alpha)
  else do
    let adj ← powT z adjustment
    let adj ← Tick.op 1 (adj * alpha)
    let adj ← Tick.op 1 (adj + beta)
    Tick.op 1 (value * adj)

/-- `src/verifier/mod.rs` 501-523: the values sent by the prover; line 511 multiplies, although the product is not used. -/
def zValuesT (masks : List (MaskProperties F)) (numRegisters : ℕ) (fAtZM : List F) (z : F) : Tick (ZValues F) :=
  Tick.forEach (masks.zip fAtZM) (List.replicate numRegisters []) (fun x values => do
    let mask ← Tick.lift x.1.stepsDifference.maskOf
    let _ ← Tick.op 1 (mask * z)
    let r ← Tick.lift x.1.register.num
    let m ← Tick.lift (rd values r)
    Tick.lift (wr values r (assocInsert m x.1.stepsDifference x.2)))

/-- `src/verifier/mod.rs` 543-571: one constraint. -/
def gConstraintAtZT (maxPower : ℕ) (z inverseDivisor : F) (values : ZValues F) (c : Constraint F)
    (s : F × List (F × F)) : Tick (F × List (F × F)) := do
  Tick.lift (Res.assert (c.degree ≤ maxPower))
  let ab ← Tick.lift (Res.expect s.2.head?)
  let value ← evaluateConstraintAtZT c values
  let value ← applyAdjustmentAtT z (maxPower - c.degree) ab.1 ab.2 value
  let value ← Tick.op 1 (value * inverseDivisor)
  let g ← Tick.op 1 (s.1 + value)
  pure (g, s.2.tail)

/-- `src/verifier/mod.rs` 578-628: one boundary constraint. -/
def gBoundaryAtZT (maxPower : ℕ) (z : F) (columnDomain : Domain F) (values : ZValues F)
    (b : BoundaryConstraint F) (s : F × List (F × F)) : Tick (F × List (F × F)) := do
  Tick.lift (Res.assert (1 ≤ maxPower))
  let ab ← Tick.lift (Res.expect s.2.head?)
  let r ← Tick.lift b.register.num
  let m ← Tick.lift (rd values r)
  let value ← Tick.lift (Res.okOr (assocGet m (.mask 1)) .unsatisfied)
  let expected ← Tick.lift (Res.okOr b.value .unsatisfied)
  let value ← Tick.op 1 (value - expected)
  let root ← powT columnDomain.generator b.atRow
  let divisor ← Tick.op 1 (z - root)
  let inv ← inverseT divisor
  let value ← applyAdjustmentAtT z (maxPower - 1) ab.1 ab.2 value
  let value ← Tick.op 1 (value * inv)
  let g ← Tick.op 1 (s.1 + value)
  pure (g, s.2.tail)

/-- `src/verifier/mod.rs` 490-631 `calculate_g_at_z_from_f_at_z` -/
def Verifier.calculateGAtZT (v : Verifier F) (constraintChallenges boundaryChallenges : List (F × F))
    (fAtZM : List F) (z : F) : Tick F := do
  let values ← zValuesT v.allMasks v.inst.numRegisters fAtZM z
  let s ← Tick.forEach v.constraintsBatchedByDensity ((0 : F), constraintChallenges) (fun b s => do
    let inv ← densityDivisorAtT z v.columnDomain v.inst.numRows b.1
    Tick.forEach b.2 s (gConstraintAtZT v.maxConstraintPower z inv values))
  let s ← Tick.forEach v.inst.boundaryConstraints (s.1, boundaryChallenges)
    (gBoundaryAtZT v.maxConstraintPower z v.columnDomain values)
  pure s.1

/-! ## The verifier -/

/-- `src/verifier/mod.rs` 405-461 `simulate_h1_from_f_at_z`; `x` is computed once (414). -/
def Verifier.simulateH1T (v : Verifier F) (challenges : List F) (idx : ℕ) (domain : Domain F)
    (fLdesAtX fAtZM : List F) (z : F) : Tick F := do
  let point ← powT domain.generator idx
  Tick.forEach ((v.allMasks.zip fAtZM).zip challenges) (0 : F) (fun x h => do
    let mask ← Tick.lift x.1.1.stepsDifference.maskOf
    let root ← Tick.op 1 (mask * z)
    let r ← Tick.lift x.1.1.register.num
    let f ← Tick.lift (rd fLdesAtX r)
    let num ← Tick.op 1 (f - x.1.2)
    let den ← Tick.op 1 (point - root)
    let inv ← inverseT den
    let num ← Tick.op 1 (num * inv)
    let num ← Tick.op 1 (num * x.2)
    Tick.op 1 (h + num))

/-- `src/verifier/mod.rs` 463-488 `simulate_h2_from_g_at_z` -/
def simulateH2T (idx : ℕ) (domain : Domain F) (gLdeAtX z gAtZ : F) : Tick F := do
  let point ← powT domain.generator idx
  let num ← Tick.op 1 (gLdeAtX - gAtZ)
  let den ← Tick.op 1 (point - z)
  let inv ← inverseT den
  Tick.op 1 (num * inv)

/-- `src/verifier/mod.rs` 277-280, 285-288: draw one pair of challenges. -/
def drawPairT (s : List (F × F) × Transcript) : Tick (List (F × F) × Transcript) := do
  let (alpha, t) ← getChallengeT H s.2
  let (beta, t) ← getChallengeT H t
  pure (s.1 ++ [(alpha, beta)], t)

/-- `src/verifier/mod.rs` 297-299: draw one challenge. -/
def drawOneT (s : List F × Transcript) : Tick (List F × Transcript) := do
  let (alpha, t) ← getChallengeT H s.2
  pure (s.1 ++ [alpha], t)

/-- `src/verifier/mod.rs` 271-324: all challenges, and the two LDE domains. -/
def Verifier.deriveChallengesT (v : Verifier F) (proof : InstanceProof F) :
    Tick (Challenges F × Domain F × Domain F) := do
  let t ← Tick.lift (Transcript.new F)
  let t := proof.fIopRoots.foldl (fun t r => t.commitBytes r.bytes) t
  let (cc, t) ← Tick.forEach v.constraintsBatchedByDensity ([], t) (fun b s =>
    Tick.forEach b.2 s (fun _ s => drawPairT H s))
  let (bc, t) ← Tick.forEach v.inst.boundaryConstraints ([], t) (fun _ s => drawPairT H s)
  let t := t.commitBytes proof.gIopRoot.bytes
  let (z, t) ← getChallengeT H t
  let (h1c, t) ← Tick.forEach v.allMasks ([], t) (fun _ s => drawOneT H s)
  let r1 ← Tick.lift (Res.expect proof.h1IopRoots.getLast?)
  let t ← commitFinalT t r1 proof.friProofH1.finalCoefficients
  let r2 ← Tick.lift (Res.expect proof.h2IopRoots.getLast?)
  let t ← commitFinalT t r2 proof.friProofH2.finalCoefficients
  let fLdeSize := v.columnDomain.size * v.ldeFactor
  let gLdeSize := v.constraintsDomain.size * v.ldeFactor
  let fDomain ← newForSizeT F fLdeSize
  let gDomain ← newForSizeT F gLdeSize
  let (b1, t) ← getChallengeBytesT H t
  let idx1 ← Tick.lift (bytesToChallengeIndex b1 fLdeSize v.ldeFactor)
  let (b2, _) ← getChallengeBytesT H t
  let idx2 ← Tick.lift (bytesToChallengeIndex b2 gLdeSize v.ldeFactor)
  pure ({ constraintChallenges := cc, boundaryChallenges := bc, z := z, h1Challenges := h1c,
          idx1 := idx1, idx2 := idx2 }, fDomain, gDomain)

/-- `src/verifier/mod.rs` 336-344: check the witness queries; `none` is `return Ok(false)`. -/
def checkQueriesT (idx : ℕ) : List (IopQuery F × Digest) → Tick (Option (List F))
  | [] => pure (some [])
  | (q, root) :: l => do
    let good ← verifyQueryT H q root
    if good = false then pure none
    else if q.index ≠ idx then pure none
    else do
      let vs ← checkQueriesT idx l
      pure (vs.map (fun vs => q.value :: vs))

/-- `src/verifier/mod.rs` 365-401: the part after the two simulations of the witness values. -/
def Verifier.verifyGT (proof : InstanceProof F) (ch : Challenges F) (gDomain : Domain F) (h1AtX gAtZ : F) :
    Tick Bool := do
  let good ← verifyQueryT H proof.gQuery proof.gIopRoot
  if good = false then pure false
  else if proof.gQuery.index ≠ ch.idx2 then pure false
  else do
    let h2AtX ← simulateH2T ch.idx2 gDomain proof.gQuery.value ch.z gAtZ
    let valid ← proof.friProofH1.verifyT H ch.idx1 h1AtX
    if valid = false then pure false
    else proof.friProofH2.verifyT H ch.idx2 h2AtX

/-- `src/verifier/mod.rs` 336-401: queries, simulations, FRI. -/
def Verifier.verifyBodyT (v : Verifier F) (proof : InstanceProof F) (ch : Challenges F)
    (fDomain gDomain : Domain F) : Tick Bool := do
  let opened ← checkQueriesT H ch.idx1 (proof.fQueries.zip proof.fIopRoots)
  match opened with
  | none => pure false
  | some fLdesAtX => do
    let h1AtX ← v.simulateH1T ch.h1Challenges ch.idx1 fDomain fLdesAtX proof.fAtZM ch.z
    let gAtZ ← v.calculateGAtZT ch.constraintChallenges ch.boundaryChallenges proof.fAtZM ch.z
    Verifier.verifyGT H proof ch gDomain h1AtX gAtZ

/-- `src/verifier/mod.rs` 265-402 `verify` -/
def Verifier.verifyT (v : Verifier F) (proof : InstanceProof F) : Tick Bool := do
  let (ch, fDomain, gDomain) ← v.deriveChallengesT H proof
  if proof.fQueries.length ≠ v.inst.numRegisters then Tick.lift (.err .unsatisfied)
  else if proof.fQueries.length ≠ proof.fIopRoots.length then Tick.lift (.err .unsatisfied)
  else v.verifyBodyT H proof ch fDomain gDomain

end Hodor

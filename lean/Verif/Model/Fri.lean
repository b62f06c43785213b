import Verif.Model.Iop
import Verif.Model.Poly
import Verif.Model.Utils

/-!
# FRI (`src/fri/mod.rs`, `src/fri/fri_on_values.rs`, `src/fri/verifier.rs`, `src/fri/query_producer.rs`)

`NaiveFriIop<F, I>` is generic over the IOP; the only IOP in the code base is `TrivialBlake2sIOP`
(`Verif/Model/Iop.lean`), with which it is instantiated here. `I::create` makes its own worker
(`Worker::new()`); the model passes the same worker (the tree does not depend on it, theorem `C18_root`).
-/

namespace Hodor

variable {F : Type} [Field F] [DecidableEq F] [StarkField F] (H : List UInt8 → Digest)

/-- `src/fri/mod.rs` 106-117 `FRIProofPrototype` -/
structure FriPrototype (F : Type) where
  l0Commitment : IopTree
  intermediateCommitments : List IopTree
  intermediateValues : List (Poly F .values)
  challenges : List F
  finalRoot : Digest
  finalCoefficients : List F
  initialDegreePlusOne : ℕ
  outputCoeffsAtDegreePlusOne : ℕ
  ldeFactor : ℕ

/-- `src/fri/mod.rs` 139-147 `FRIProof` -/
structure FriProof (F : Type) where
  queries : List (IopQuery F)
  roots : List Digest
  finalCoefficients : List F
  initialDegreePlusOne : ℕ
  outputCoeffsAtDegreePlusOne : ℕ
  ldeFactor : ℕ

/-- The folding step on two opposite values: `src/fri/fri_on_values.rs` 81-98,
`src/fri/verifier.rs` 74-91 and 236-253. -/
def friFold (fAtOmega fAtMinusOmega divisor challenge twoInv : F) : F :=
  let vEven := fAtOmega + fAtMinusOmega
  let vOdd := (fAtOmega - fAtMinusOmega) * divisor
  (vOdd * challenge + vEven) * twoInv

/-- `src/fri/fri_on_values.rs` 75-100: one element of the next layer. -/
def friNextValue (values omegasInv : List F) (stride nextSize : ℕ) (challenge twoInv : F) (idx : ℕ) : Res F := do
  let a ← rd values idx
  let b ← rd values (idx + nextSize)
  let o ← rd omegasInv (idx * stride)
  pure (friFold a b o challenge twoInv)

/-- `src/fri/fri_on_values.rs` 70-104: the next layer, chunk by chunk. -/
def friNextValues (w : Worker) (values omegasInv : List F) (stride nextSize : ℕ) (challenge twoInv : F) :
    Res (List F) := do
  let c := w.chunkSize nextSize
  let parts ← collectN (numChunks nextSize c) (fun i =>
    collectN (min c (nextSize - i * c)) (fun j =>
      friNextValue values omegasInv stride nextSize challenge twoInv (i * c + j)))
  pure parts.flatten

/-- Local variables of the loops of the two provers. -/
structure FriState (F : Type) where
  commitments : List IopTree
  values : List (Poly F .values)
  challenges : List F
  roots : List Digest
  nextChallenge : F
  nextSize : ℕ
  current : List F

/-- `src/fri/fri_on_values.rs` 61-119: loop body. -/
def friStepValues (w : Worker) (omegasInv : List F) (twoInv : F) (i : ℕ) (s : FriState F) : Res (FriState F) := do
  let stride := 2 ^ i
  Res.assert (s.current.length = s.nextSize * 2)
  let next ← friNextValues w s.current omegasInv stride s.nextSize s.nextChallenge twoInv
  let iop ← IopTree.create H w next
  let root ← iop.getRoot
  let ch ← iop.getChallengeScalarFromRoot
  let nextPoly ← Poly.fromValues next
  pure { commitments := s.commitments ++ [iop], values := s.values ++ [nextPoly],
         challenges := s.challenges ++ [ch], roots := s.roots ++ [root], nextChallenge := ch,
         nextSize := s.nextSize / 2, current := nextPoly.coeffs }

/-- `src/fri/fri_on_values.rs` 11-159 `proof_from_lde_by_values` (also `FriIop::proof_from_lde`,
`src/fri/mod.rs` 75-87). -/
def friProofByValues (w : Worker) (ldeValues : Poly F .values) (ldeFactor outputCoeffs : ℕ) :
    Res (FriPrototype F) := do
  let l0 ← IopTree.create H w ldeValues.coeffs
  let initialDomainSize := ldeValues.size
  let twoInv ← Res.expect (inverse (1 + 1 : F))
  let omegaInv := ldeValues.omegainv
  let omegasInv := parChunks w (List.replicate (initialDomainSize / 2) (0 : F)) (fun ch i v =>
    powersRunning omegaInv (omegaInv ^ (i * ch)) v.length)
  Res.assert (isPow2 outputCoeffs)
  Res.assert (isPow2 ldeFactor)
  let initialDegreePlusOne := initialDomainSize / ldeFactor
  let numSteps ← log2Floor (initialDegreePlusOne / outputCoeffs)
  let ch ← l0.getChallengeScalarFromRoot
  let s ← forN numSteps 0
    ({ commitments := [], values := [], challenges := [ch], roots := [], nextChallenge := ch,
       nextSize := initialDomainSize / 2, current := ldeValues.coeffs } : FriState F)
    (friStepValues H w omegasInv twoInv)
  let challenges := s.challenges.dropLast
  let finalRoot ← Res.expect s.roots.getLast?
  Res.assert (challenges.length = numSteps)
  Res.assert (s.commitments.length = numSteps)
  Res.assert (s.values.length = numSteps)
  let finalValues ← Poly.fromValues s.current
  let finalPoly ← finalValues.ifft w
  pure { l0Commitment := l0, intermediateCommitments := s.commitments, intermediateValues := s.values,
         challenges := challenges, finalRoot := finalRoot,
         finalCoefficients := finalPoly.coeffs.take outputCoeffs,
         initialDegreePlusOne := initialDegreePlusOne, outputCoeffsAtDegreePlusOne := outputCoeffs,
         ldeFactor := ldeFactor }

/-- `src/fri/mod.rs` 194-203: task body, `a_0 + beta * a_1` for a pair of coefficients (`old[0]`, `old[1]`
panic on a shorter chunk; here the lengths are asserted even, line 188). -/
def foldPair (challenge : F) (old : List F) : F := old.getD 1 0 * challenge + old.getD 0 0

/-- `src/fri/mod.rs` 186-206: fold the coefficients, chunk by chunk
(`next.chunks_mut(chunk).zip(coeffs.chunks(chunk*2))`). -/
def friNextCoeffs (w : Worker) (coeffs : List F) (nextSize : ℕ) (challenge : F) : List F :=
  let c := w.chunkSize nextSize
  ((chunks c (List.replicate nextSize (0 : F))).mapIdx (fun i o =>
    ((chunks (c * 2) coeffs)[i]?.map
      (fun v => zipUpdate (fun _ pair => foldPair challenge pair) o (chunks 2 v))).getD o)).flatten

/-- `src/fri/mod.rs` 185-222: loop body. -/
def friStepCoeffs (w : Worker) (ldeFactor : ℕ) (s : FriState F) : Res (FriState F) := do
  Res.assert (s.nextSize * 2 = s.current.length)
  let next := friNextCoeffs w s.current s.nextSize s.nextChallenge
  let nextPoly ← Poly.fromCoeffs next
  let nextValues ← nextPoly.lde w ldeFactor
  let iop ← IopTree.create H w nextValues.coeffs
  let root ← iop.getRoot
  let ch ← iop.getChallengeScalarFromRoot
  pure { commitments := s.commitments ++ [iop], values := s.values ++ [nextValues],
         challenges := s.challenges ++ [ch], roots := s.roots ++ [root], nextChallenge := ch,
         nextSize := s.nextSize / 2, current := next }

/-- `src/fri/mod.rs` 156-248 `proof_from_lde_through_coefficients` -/
def friProofThroughCoefficients (w : Worker) (ldeValues : Poly F .values) (ldeFactor outputCoeffs : ℕ) :
    Res (FriPrototype F) := do
  let l0 ← IopTree.create H w ldeValues.coeffs
  let initialDomainSize := ldeValues.size
  Res.assert (isPow2 outputCoeffs)
  Res.assert (isPow2 ldeFactor)
  let initialDegreePlusOne := initialDomainSize / ldeFactor
  let numSteps ← log2Floor (initialDegreePlusOne / outputCoeffs)
  let initialPoly ← ldeValues.ifft w
  let coeffs := initialPoly.coeffs.take initialDegreePlusOne
  let ch ← l0.getChallengeScalarFromRoot
  let s ← forN numSteps 0
    ({ commitments := [], values := [], challenges := [ch], roots := [], nextChallenge := ch,
       nextSize := coeffs.length / 2, current := coeffs } : FriState F)
    (fun _ s => friStepCoeffs H w ldeFactor s)
  let challenges := s.challenges.dropLast
  let finalRoot ← Res.expect s.roots.getLast?
  Res.assert (challenges.length = numSteps)
  Res.assert (s.commitments.length = numSteps)
  Res.assert (s.values.length = numSteps)
  Res.assert (s.current.length = outputCoeffs)
  pure { l0Commitment := l0, intermediateCommitments := s.commitments, intermediateValues := s.values,
         challenges := challenges, finalRoot := finalRoot, finalCoefficients := s.current,
         initialDegreePlusOne := initialDegreePlusOne, outputCoeffsAtDegreePlusOne := outputCoeffs,
         ldeFactor := ldeFactor }

/-- `src/fri/mod.rs` 120-128 `get_roots` -/
def FriPrototype.getRoots (p : FriPrototype F) : Res (List Digest) :=
  forEach (p.l0Commitment :: p.intermediateCommitments) [] (fun c l => do
    let r ← c.getRoot
    pure (l ++ [r]))

/-- `src/fri/query_producer.rs` 21-41: loop body; state is queries, roots, index and size. -/
def produceStep (x : IopTree × Poly F .values) (s : List (IopQuery F) × List Digest × ℕ × ℕ) :
    Res (List (IopQuery F) × List Digest × ℕ × ℕ) := do
  let (queries, roots, domainIdx, domainSize) := s
  let coset ← cosetForNaturalIndex domainIdx domainSize
  if coset.length ≠ 2 then .err .invalidValue
  else do
    let queries ← forEach coset queries (fun idx qs => do
      let q ← x.1.query H idx x.2.coeffs
      pure (qs ++ [q]))
    let root ← x.1.getRoot
    let (nextIdx, nextSize) ← indexAndSizeForNextDomain domainIdx domainSize
    pure (queries, roots ++ [root], nextIdx, nextSize)

/-- `src/fri/query_producer.rs` 10-53 `produce_proof` (also `FriIop::prototype_into_proof`). -/
def FriPrototype.produceProof (p : FriPrototype F) (iopValues : Poly F .values) (naturalFirstElementIndex : ℕ) :
    Res (FriProof F) := do
  let domainSize := p.initialDegreePlusOne * p.ldeFactor
  let (queries, roots, _, _) ← forEach
    ((p.l0Commitment :: p.intermediateCommitments).zip (iopValues :: p.intermediateValues))
    ([], [], naturalFirstElementIndex, domainSize) (produceStep H)
  pure { queries := queries, roots := roots, finalCoefficients := p.finalCoefficients,
         initialDegreePlusOne := p.initialDegreePlusOne,
         outputCoeffsAtDegreePlusOne := p.outputCoeffsAtDegreePlusOne, ldeFactor := p.ldeFactor }

/-- Running state of the two verifiers. -/
structure FriVState (F : Type) where
  expected : Option F
  domainSize : ℕ
  domainIdx : ℕ
  omega : F
  omegaInv : F

/-- `src/fri/verifier.rs` 116-122 (and 276-282): running evaluation of the final polynomial. -/
def evalFinal (x : F) : F → F → List F → F
  | acc, _, [] => acc
  | acc, power, c :: l => evalFinal x (acc + power * c) (power * x) l

/-- `src/fri/verifier.rs` 110-128 (and 270-288): final comparison. -/
def friFinish (finalCoefficients : List F) (s : FriVState F) : Res Bool := do
  let point := s.omega ^ s.domainIdx
  let fromCoefficients := evalFinal point 0 1 finalCoefficients
  let expected ← Res.expect s.expected
  pure (fromCoefficients = expected)

/-- `src/fri/verifier.rs` 15-47 (and 137-168): checks on the initial index and initial state. -/
def friStart (initialDegreePlusOne ldeFactor naturalElementIndex : ℕ) : Res (F × FriVState F) := do
  let twoInv ← Res.okOr (inverse (1 + 1 : F)) .divisionByZero
  let domain ← Domain.newForSize F (initialDegreePlusOne * ldeFactor)
  let domainElement := domain.generator ^ naturalElementIndex
  if domainElement ^ domain.size ≠ 1 then .err .invalidValue
  else if domainElement ^ (domain.size / 2) = 1 then .err .invalidValue
  else do
    let omegaInv ← Res.okOr (inverse domain.generator) .divisionByZero
    pure (twoInv, { expected := none, domainSize := domain.size, domainIdx := naturalElementIndex,
                    omega := domain.generator, omegaInv := omegaInv })

/-- `src/fri/verifier.rs` 100-106 (and 260-266): go to the next domain with the folded value. -/
def friAdvance (s : FriVState F) (folded : F) : Res (FriVState F) := do
  let (nextIdx, nextSize) ← indexAndSizeForNextDomain s.domainIdx s.domainSize
  pure { expected := some folded, domainSize := nextSize, domainIdx := nextIdx,
         omega := s.omega * s.omega, omegaInv := s.omegaInv * s.omegaInv }

/-- `src/fri/verifier.rs` 59-69: `true` when the supplied value agrees (or nothing is expected yet);
reading the supplied value may panic. -/
def prototypeConsistent (values : List F) (coset : List ℕ) (s : FriVState F) : Res Bool :=
  match s.expected with
  | none => .ok true
  | some v => if ¬ coset.contains s.domainIdx then .ok false else do
      let x ← rd values s.domainIdx
      pure (decide (x = v))

/-- `src/fri/verifier.rs` 49-107 followed by 110-128: the loop of `verify_prototype`. -/
def prototypeRounds (twoInv : F) (finalCoefficients : List F) :
    List (Poly F .values × F) → FriVState F → Res Bool
  | [], s => friFinish finalCoefficients s
  | (values, challenge) :: rest, s => do
    let coset ← cosetForNaturalIndex s.domainIdx s.domainSize
    Res.assert (coset.length = 2)
    let c0 ← rd coset 0
    let c1 ← rd coset 1
    Res.assert (c0 < c1)
    let fAtOmega ← rd values.coeffs c0
    let good ← prototypeConsistent values.coeffs coset s
    if good = false then pure false
    else do
      let fAtMinusOmega ← rd values.coeffs c1
      let s ← friAdvance s (friFold fAtOmega fAtMinusOmega (s.omegaInv ^ c0) challenge twoInv)
      prototypeRounds twoInv finalCoefficients rest s

/-- `src/fri/verifier.rs` 10-129 `verify_prototype` -/
def FriPrototype.verify (p : FriPrototype F) (leafValues : Poly F .values) (naturalElementIndex : ℕ) :
    Res Bool := do
  let (twoInv, s) ← friStart p.initialDegreePlusOne p.ldeFactor naturalElementIndex
  prototypeRounds twoInv p.finalCoefficients
    ((leafValues :: p.intermediateValues).zip p.challenges) s

/-- `slice::chunks_exact(n)` for `n > 0`: only full chunks. -/
def chunksExact {α : Type} (n : ℕ) (l : List α) : List (List α) :=
  tab (l.length / n) (fun i => (l.drop (i * n)).take n)

/-- `src/fri/verifier.rs` 198-204: tree indices of the queries against the coset, in order. -/
def checkTreeIndices : List ℕ → List (IopQuery F) → Res Unit
  | c :: cs, q :: qs => if q.index ≠ c then .err .invalidValue else checkTreeIndices cs qs
  | _, _ => .ok ()

/-- `src/fri/verifier.rs` 215-231: consistency with the value folded from the previous layer. -/
def queriesConsistent (queries : List (IopQuery F)) (coset : List ℕ) (s : FriVState F) : Bool :=
  match s.expected with
  | none => true
  | some v =>
    if ¬ coset.contains s.domainIdx then false
    else match queries.filter (fun q => q.index = s.domainIdx) with
      | [q] => decide (q.value = v)
      | _ => false

/-- `src/fri/verifier.rs` 174-267 followed by 270-288: the loop of `verify_proof_queries`. -/
def proofRounds (twoInv : F) (finalCoefficients : List F) (naturalElementIndex : ℕ) (expectedFromOracle : F) :
    ℕ → List (Digest × List (IopQuery F)) → FriVState F → Res Bool
  | _, [], s => friFinish finalCoefficients s
  | round, (root, queries) :: rest, s => do
    let coset ← cosetForNaturalIndex s.domainIdx s.domainSize
    if coset.length ≠ 2 then .err .invalidValue
    else if queries.any (fun q => !coset.contains q.index) then pure false
    else if round = 0 ∧ queries.any (fun q => decide (q.index = naturalElementIndex ∧ q.value ≠ expectedFromOracle))
      then pure false
    else do
      checkTreeIndices coset queries
      if queries.any (fun q => !verifyQuery H q root) then pure false
      else do
        let challenge ← encodeRootIntoChallenge root
        let q0 ← rd queries 0
        if queriesConsistent queries coset s = false then pure false
        else do
          let q1 ← rd queries 1
          let c0 ← rd coset 0
          let s ← friAdvance s (friFold q0.value q1.value (s.omegaInv ^ c0) challenge twoInv)
          proofRounds twoInv finalCoefficients naturalElementIndex expectedFromOracle (round + 1) rest s

/-- `src/fri/verifier.rs` 131-289 `verify_proof_queries` (`% degree` panics for `degree = 0`). -/
def FriProof.verifyQueries (p : FriProof F) (naturalElementIndex degree : ℕ) (expectedFromOracle : F) :
    Res Bool := do
  let (twoInv, s) ← friStart p.initialDegreePlusOne p.ldeFactor naturalElementIndex
  Res.assert (degree ≠ 0)
  if p.queries.length % degree ≠ 0 then .err .invalidValue
  else do
    let rounds := p.roots.zip (chunksExact degree p.queries)
    proofRounds H twoInv p.finalCoefficients naturalElementIndex expectedFromOracle 0 rounds s

/-- `src/fri/mod.rs` 97-103 `verify_proof` (`DEGREE = 2`, line 69). -/
def FriProof.verify (p : FriProof F) (naturalElementIndex : ℕ) (expectedValue : F) : Res Bool :=
  p.verifyQueries H naturalElementIndex 2 expectedValue

end Hodor

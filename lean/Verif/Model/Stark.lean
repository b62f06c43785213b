import Verif.Model.Ali
import Verif.Model.Fri

/-!
# Prover and verifier (`src/prover/mod.rs`, `src/verifier/mod.rs`)

The generic parameters are instantiated as in the tests of the crate: Blake2s transcript, trivial Blake2s
IOP, naive FRI. `Worker::new()` reads the CPU count of the machine and is a parameter.
-/

namespace Hodor

/-- `src/verifier/mod.rs` 97-116 `InstanceProof` -/
structure InstanceProof (F : Type) where
  fAtZM : List F
  fIopRoots : List Digest
  gIopRoot : Digest
  fQueries : List (IopQuery F)
  gQuery : IopQuery F
  h1IopRoots : List Digest
  h2IopRoots : List Digest
  friProofH1 : FriProof F
  friProofH2 : FriProof F

/-- `src/prover/mod.rs` 29-42 `Prover` -/
structure Prover (F : Type) where
  arp : InstanceProperties F
  ali : AliInstance F
  ldeFactor : ℕ
  friFinalDegreePlusOne : ℕ
  worker : Worker

variable {F : Type} [Field F] [DecidableEq F] [StarkField F]

/-- `src/prover/mod.rs` 46-64 `new` -/
def Prover.new (w : Worker) (inst : InstanceProperties F) (ldeFactor friFinalDegreePlusOne : ℕ) :
    Res (Prover F) := do
  let arp ← fromInstance inst
  let ali ← AliInstance.fromArp arp w
  pure { arp := arp, ali := ali, ldeFactor := ldeFactor, friFinalDegreePlusOne := friFinalDegreePlusOne,
         worker := w }

variable (H : List UInt8 → Digest)

/-- `src/prover/mod.rs` 120-123: commit the final root and the final coefficients of a FRI prototype. -/
def commitFinal (t : Transcript) (root : Digest) (coeffs : List F) : Transcript :=
  coeffs.foldl (fun t x => t.commitFieldElement x) (t.commitBytes root.bytes)

/-- `src/prover/mod.rs` 66-174 `prove` -/
def Prover.prove (p : Prover F) (witness : List (List F)) : Res (InstanceProof F) := do
  let w := p.worker
  let t ← Transcript.new F
  let witnessPolys ← calculateWitnessPolys p.arp witness w
  let fLdes ← mapRes (fun q => q.lde w p.ldeFactor) witnessPolys
  let fOracles ← mapRes (fun l => IopTree.create H w l.coeffs) fLdes
  let fIopRoots ← mapRes (fun o => o.getRoot) fOracles
  let t := fIopRoots.foldl (fun t r => t.commitBytes r.bytes) t
  let (gPoly, t) ← p.ali.calculateG H t witnessPolys w
  let gLde ← gPoly.lde w p.ldeFactor
  let gOracle ← IopTree.create H w gLde.coeffs
  let gIopRoot ← gOracle.getRoot
  let t := t.commitBytes gIopRoot.bytes
  let deep ← p.ali.calculateDeep H witnessPolys fLdes gPoly gLde t w
  let proto1 ← friProofByValues H w deep.h1 p.ldeFactor p.friFinalDegreePlusOne
  let proto2 ← friProofByValues H w deep.h2 p.ldeFactor p.friFinalDegreePlusOne
  let h1IopRoots ← proto1.getRoots
  let h2IopRoots ← proto2.getRoots
  let t := commitFinal deep.transcript proto1.finalRoot proto1.finalCoefficients
  let t := commitFinal t proto2.finalRoot proto2.finalCoefficients
  let (b1, t) := t.getChallengeBytes H
  let idx1 ← bytesToChallengeIndex b1 deep.h1.size p.ldeFactor
  let (b2, _) := t.getChallengeBytes H
  let idx2 ← bytesToChallengeIndex b2 deep.h2.size p.ldeFactor
  let proof1 ← proto1.produceProof H deep.h1 idx1
  let proof2 ← proto2.produceProof H deep.h2 idx2
  let fQueries ← mapRes (fun o => o.1.query H idx1 o.2.coeffs) (fOracles.zip fLdes)
  let gQuery ← gOracle.query H idx2 gLde.coeffs
  pure { fAtZM := deep.fAtZM, fIopRoots := fIopRoots, gIopRoot := gIopRoot, fQueries := fQueries,
         gQuery := gQuery, h1IopRoots := h1IopRoots, h2IopRoots := h2IopRoots, friProofH1 := proof1,
         friProofH2 := proof2 }

/-- `src/verifier/mod.rs` 142-157 `Verifier` -/
structure Verifier (F : Type) where
  inst : InstanceProperties F
  maxConstraintPower : ℕ
  columnDomain : Domain F
  constraintsDomain : Domain F
  allMasks : List (MaskProperties F)
  allBoundaryConstrainedRegisters : List Register
  constraintsBatchedByDensity : List (ConstraintDensity × List (Constraint F))
  ldeFactor : ℕ

/-- `src/verifier/mod.rs` 160-244 `new` -/
def Verifier.new (inst : InstanceProperties F) (ldeFactor : ℕ) : Res (Verifier F) := do
  let numRowsSup := nextPow2 inst.numRows
  let columnDomain ← Domain.newForSize F numRowsSup
  let cs ← mapRes (maskConstraint columnDomain) inst.constraints
  let masks := cs.foldl getMasksFromConstraint []
  let maxConstraintPower := maxDegree cs
  let constraintPower := nextPow2 maxConstraintPower
  let constraintsDomain ← Domain.newForSize F (constraintPower * numRowsSup)
  let batches := cs.foldl (fun m c => pushBatch c m) []
  let masks := inst.boundaryConstraints.foldl getMaskFromBoundaryConstraint masks
  let boundaryRegisters := inst.boundaryConstraints.foldl (fun s b => insertSet s b.register) []
  forEach batches () (fun b _ => forEach b.2 () (fun c _ => Res.assert (c.degree ≤ maxConstraintPower)))
  pure { inst := { inst with constraints := cs }, maxConstraintPower := maxConstraintPower,
         columnDomain := columnDomain, constraintsDomain := constraintsDomain, allMasks := masks,
         allBoundaryConstrainedRegisters := boundaryRegisters, constraintsBatchedByDensity := batches,
         ldeFactor := ldeFactor }

/-- The values of the registers under masks: one map per register. -/
abbrev ZValues (F : Type) := List (List (StepDifference F × F))

/-- `src/verifier/mod.rs` 72-94 `evaluate_univariate_term_on_f_at_z_m` -/
def evaluateUnivariateAtZ (t : UnivariateTerm F) (values : ZValues F) : Res F := do
  let r ← t.register.num
  let m ← rd values r
  let v ← Res.okOr (assocGet m t.stepsDifference) .unsatisfied
  pure (v ^ t.power * t.coeff)

/-- `src/verifier/mod.rs` 44-70 `evaluate_term_on_f_at_z_m` -/
def evaluateTermAtZ (values : ZValues F) : ConstraintTerm F → Res F
  | .univariate t => evaluateUnivariateAtZ t values
  | .polyvariate p => do
    let r ← forEach p.terms (1 : F) (fun t r => do
      let v ← evaluateUnivariateAtZ t values
      pure (r * v))
    pure (r * p.coeff)

/-- `src/verifier/mod.rs` 31-42 `evaluate_constraint_on_f_at_z_m` -/
def evaluateConstraintAtZ (c : Constraint F) (values : ZValues F) : Res F :=
  forEach c.terms c.constantTerm (fun t value => do
    let v ← evaluateTermAtZ values t
    pure (value + v))

/-- `src/verifier/mod.rs` 659-665, 669-674: multiply by `(x - root)`, `root *= g`, `n` times. -/
def mulLinearRunning (x g : F) : ℕ → F → F → F
  | 0, _, acc => acc
  | n + 1, root, acc => mulLinearRunning x g n (root * g) (acc * (x - root))

/-- `src/verifier/mod.rs` 635-677 `inverse_divisor_for_dense_constraint` -/
def inverseDivisorAt (x : F) (columnDomain : Domain F) (d : DenseConstraint) (numRows : ℕ) : Res F := do
  let _ ← divisorDegree columnDomain.size numRows d
  let inv ← Res.okOr (inverse (x ^ columnDomain.size - 1)) .divisionByZero
  let g := columnDomain.generator
  let inv := mulLinearRunning x g d.startAt 1 inv
  Res.assert (d.span ≤ numRows)
  let lastStep := numRows - d.span
  pure (mulLinearRunning x g (columnDomain.size - lastStep) (g ^ lastStep) inv)

/-- `src/verifier/mod.rs` 528-541: the divisor at `z` of one density. -/
def densityDivisorAt (z : F) (columnDomain : Domain F) (numRows : ℕ) : ConstraintDensity → Res F
  | .dense d => inverseDivisorAt z columnDomain d numRows
  | _ => .panic

/-- `src/verifier/mod.rs` 556-566, 613-623: value times `alpha`, or times `alpha*z^adj + beta`. -/
def applyAdjustmentAt (z : F) (adjustment : ℕ) (alpha beta value : F) : F :=
  if adjustment = 0 then value * alpha else value * (z ^ adjustment * alpha + beta)

/-- `src/verifier/mod.rs` 501-523: the values sent by the prover, per register and mask. -/
def zValues (masks : List (MaskProperties F)) (numRegisters : ℕ) (fAtZM : List F) : Res (ZValues F) :=
  forEach (masks.zip fAtZM) (List.replicate numRegisters []) (fun x values => do
    let _ ← x.1.stepsDifference.maskOf
    let r ← x.1.register.num
    let m ← rd values r
    wr values r (assocInsert m x.1.stepsDifference x.2))

/-- `src/verifier/mod.rs` 543-571: one constraint; state is `g_at_z` and the remaining challenges. -/
def gConstraintAtZ (maxPower : ℕ) (z inverseDivisor : F) (values : ZValues F) (c : Constraint F)
    (s : F × List (F × F)) : Res (F × List (F × F)) := do
  Res.assert (c.degree ≤ maxPower)
  let ab ← Res.expect s.2.head?
  let value ← evaluateConstraintAtZ c values
  let value := applyAdjustmentAt z (maxPower - c.degree) ab.1 ab.2 value
  pure (s.1 + value * inverseDivisor, s.2.tail)

/-- `src/verifier/mod.rs` 578-628: one boundary constraint; state is `g_at_z` and the remaining
challenges. -/
def gBoundaryAtZ (maxPower : ℕ) (z : F) (columnDomain : Domain F) (values : ZValues F)
    (b : BoundaryConstraint F) (s : F × List (F × F)) : Res (F × List (F × F)) := do
  Res.assert (1 ≤ maxPower)
  let ab ← Res.expect s.2.head?
  let r ← b.register.num
  let m ← rd values r
  let value ← Res.okOr (assocGet m (.mask 1)) .unsatisfied
  let expected ← Res.okOr b.value .unsatisfied
  let inv ← Res.okOr (inverse (z - columnDomain.generator ^ b.atRow)) .divisionByZero
  let value := applyAdjustmentAt z (maxPower - 1) ab.1 ab.2 (value - expected)
  pure (s.1 + value * inv, s.2.tail)

/-- `src/verifier/mod.rs` 490-631 `calculate_g_at_z_from_f_at_z` -/
def Verifier.calculateGAtZ (v : Verifier F) (constraintChallenges boundaryChallenges : List (F × F))
    (fAtZM : List F) (z : F) : Res F := do
  let values ← zValues v.allMasks v.inst.numRegisters fAtZM
  let s ← forEach v.constraintsBatchedByDensity ((0 : F), constraintChallenges) (fun b s => do
    let inv ← densityDivisorAt z v.columnDomain v.inst.numRows b.1
    forEach b.2 s (gConstraintAtZ v.maxConstraintPower z inv values))
  let s ← forEach v.inst.boundaryConstraints (s.1, boundaryChallenges)
    (gBoundaryAtZ v.maxConstraintPower z v.columnDomain values)
  pure s.1

/-- `src/verifier/mod.rs` 405-461 `simulate_h1_from_f_at_z` -/
def Verifier.simulateH1 (v : Verifier F) (challenges : List F) (idx : ℕ) (domain : Domain F)
    (fLdesAtX fAtZM : List F) (z : F) : Res F :=
  forEach ((v.allMasks.zip fAtZM).zip challenges) (0 : F) (fun x h => do
    let mask ← x.1.1.stepsDifference.maskOf
    let r ← x.1.1.register.num
    let f ← rd fLdesAtX r
    let inv ← Res.okOr (inverse (domain.generator ^ idx - mask * z)) .divisionByZero
    pure (h + (f - x.1.2) * inv * x.2))

/-- `src/verifier/mod.rs` 463-488 `simulate_h2_from_g_at_z` -/
def simulateH2 (idx : ℕ) (domain : Domain F) (gLdeAtX z gAtZ : F) : Res F := do
  let inv ← Res.okOr (inverse (domain.generator ^ idx - z)) .divisionByZero
  pure ((gLdeAtX - gAtZ) * inv)

/-- `src/verifier/mod.rs` 277-280, 285-288: draw one pair of challenges. -/
def drawPair (s : List (F × F) × Transcript) : Res (List (F × F) × Transcript) := do
  let (alpha, t) ← s.2.getChallenge H
  let (beta, t) ← t.getChallenge H
  pure (s.1 ++ [(alpha, beta)], t)

/-- `src/verifier/mod.rs` 297-299: draw one challenge. -/
def drawOne (s : List F × Transcript) : Res (List F × Transcript) := do
  let (alpha, t) ← s.2.getChallenge H
  pure (s.1 ++ [alpha], t)

/-- What the verifier derives from the transcript (`src/verifier/mod.rs` 118-126, with `z` and the query
indices). -/
structure Challenges (F : Type) where
  constraintChallenges : List (F × F)
  boundaryChallenges : List (F × F)
  z : F
  h1Challenges : List F
  idx1 : ℕ
  idx2 : ℕ

/-- `src/verifier/mod.rs` 271-324: all challenges, and the two LDE domains. -/
def Verifier.deriveChallenges (v : Verifier F) (proof : InstanceProof F) :
    Res (Challenges F × Domain F × Domain F) := do
  let t ← Transcript.new F
  let t := proof.fIopRoots.foldl (fun t r => t.commitBytes r.bytes) t
  let (cc, t) ← forEach v.constraintsBatchedByDensity ([], t) (fun b s =>
    forEach b.2 s (fun _ s => drawPair H s))
  let (bc, t) ← forEach v.inst.boundaryConstraints ([], t) (fun _ s => drawPair H s)
  let t := t.commitBytes proof.gIopRoot.bytes
  let (z, t) ← t.getChallenge H
  let (h1c, t) ← forEach v.allMasks ([], t) (fun _ s => drawOne H s)
  let r1 ← Res.expect proof.h1IopRoots.getLast?
  let t := commitFinal t r1 proof.friProofH1.finalCoefficients
  let r2 ← Res.expect proof.h2IopRoots.getLast?
  let t := commitFinal t r2 proof.friProofH2.finalCoefficients
  let fLdeSize := v.columnDomain.size * v.ldeFactor
  let gLdeSize := v.constraintsDomain.size * v.ldeFactor
  let fDomain ← Domain.newForSize F fLdeSize
  let gDomain ← Domain.newForSize F gLdeSize
  let (b1, t) := t.getChallengeBytes H
  let idx1 ← bytesToChallengeIndex b1 fLdeSize v.ldeFactor
  let (b2, _) := t.getChallengeBytes H
  let idx2 ← bytesToChallengeIndex b2 gLdeSize v.ldeFactor
  pure ({ constraintChallenges := cc, boundaryChallenges := bc, z := z, h1Challenges := h1c,
          idx1 := idx1, idx2 := idx2 }, fDomain, gDomain)

/-- `src/verifier/mod.rs` 336-344: check the witness queries; `none` is `return Ok(false)`. -/
def checkQueries (idx : ℕ) : List (IopQuery F × Digest) → Option (List F)
  | [] => some []
  | (q, root) :: l =>
    if verifyQuery H q root = false then none
    else if q.index ≠ idx then none
    else (checkQueries idx l).map (fun vs => q.value :: vs)

/-- `src/verifier/mod.rs` 365-401: the part after the two simulations of the witness values. -/
def Verifier.verifyG (proof : InstanceProof F) (ch : Challenges F) (gDomain : Domain F) (h1AtX gAtZ : F) :
    Res Bool :=
  if verifyQuery H proof.gQuery proof.gIopRoot = false then pure false
  else if proof.gQuery.index ≠ ch.idx2 then pure false
  else do
    let h2AtX ← simulateH2 ch.idx2 gDomain proof.gQuery.value ch.z gAtZ
    let valid ← proof.friProofH1.verify H ch.idx1 h1AtX
    if valid = false then pure false
    else proof.friProofH2.verify H ch.idx2 h2AtX

/-- `src/verifier/mod.rs` 336-401: queries, simulations, FRI. -/
def Verifier.verifyBody (v : Verifier F) (proof : InstanceProof F) (ch : Challenges F)
    (fDomain gDomain : Domain F) : Res Bool :=
  match checkQueries H ch.idx1 (proof.fQueries.zip proof.fIopRoots) with
  | none => pure false
  | some fLdesAtX => do
    let h1AtX ← v.simulateH1 ch.h1Challenges ch.idx1 fDomain fLdesAtX proof.fAtZM ch.z
    let gAtZ ← v.calculateGAtZ ch.constraintChallenges ch.boundaryChallenges proof.fAtZM ch.z
    Verifier.verifyG H proof ch gDomain h1AtX gAtZ

/-- `src/verifier/mod.rs` 265-402 `verify` -/
def Verifier.verify (v : Verifier F) (proof : InstanceProof F) : Res Bool := do
  let (ch, fDomain, gDomain) ← v.deriveChallenges H proof
  if proof.fQueries.length ≠ v.inst.numRegisters then .err .unsatisfied
  else if proof.fQueries.length ≠ proof.fIopRoots.length then .err .unsatisfied
  else v.verifyBody H proof ch fDomain gDomain

end Hodor

import Verif.Model.MachineAir

/-!
# The whole verifier with 64-bit words

`Model/Machine.lean` has the sizes which a proof claims as words, `Model/MachineAir.lean` the numbers in a density. Here the sizes computed by
`Verifier::new` and by `verify` from the verifier's own parameters are words too, in both build profiles, so that no number of the verifier is left unbounded.
(The remaining arithmetic on indices cannot overflow: `get_coset_for_natural_index` asserts `index < domain_size` with `domain_size ≤ 2^63`,
`bytes_to_challenge_index` adds one to a number below the size, and the subtractions `max_constraint_power - degree` follow an assertion.)
-/

namespace Hodor

variable {F : Type} [Field F] [DecidableEq F] [StarkField F]

/-- `src/verifier/mod.rs` 160-244 `new`: `next_power_of_two` (166, 189), the product (191) and `new_for_size` (167, 191) on words. -/
def Verifier.newWord (p : Profile) (fuel : ℕ) (inst : InstanceProperties F) (ldeFactor : ℕ) : Run (Verifier F) := do
  let numRowsSup ← Run.done (nextPow2Word p inst.numRows)
  let columnDomain ← newForSizeWord p fuel numRowsSup
  let cs ← Run.done (mapRes (maskConstraint columnDomain) inst.constraints)
  let masks := cs.foldl getMasksFromConstraint []
  let maxConstraintPower := maxDegree cs
  let constraintPower ← Run.done (nextPow2Word p maxConstraintPower)
  let size ← Run.done (mulWord p constraintPower numRowsSup)
  let constraintsDomain ← newForSizeWord p fuel size
  let batches := cs.foldl (fun m c => pushBatch c m) []
  let masks := inst.boundaryConstraints.foldl getMaskFromBoundaryConstraint masks
  let boundaryRegisters := inst.boundaryConstraints.foldl (fun s b => insertSet s b.register) []
  let _ ← Run.done (forEach batches () (fun b _ => forEach b.2 () (fun c _ => Res.assert (c.degree ≤ maxConstraintPower))))
  pure { inst := { inst with constraints := cs }, maxConstraintPower := maxConstraintPower,
         columnDomain := columnDomain, constraintsDomain := constraintsDomain, allMasks := masks,
         allBoundaryConstrainedRegisters := boundaryRegisters, constraintsBatchedByDensity := batches,
         ldeFactor := ldeFactor }

/-- `src/verifier/mod.rs` 528-541: the divisor at `z` of one density. -/
def densityDivisorAtWord (p : Profile) (z : F) (columnDomain : Domain F) (numRows : ℕ) : ConstraintDensity → Res F
  | .dense d => inverseDivisorAtWord p z columnDomain d numRows
  | _ => .panic

/-- `src/verifier/mod.rs` 490-631 `calculate_g_at_z_from_f_at_z` -/
def Verifier.calculateGAtZWord (p : Profile) (v : Verifier F) (constraintChallenges boundaryChallenges : List (F × F))
    (fAtZM : List F) (z : F) : Res F := do
  let values ← zValues v.allMasks v.inst.numRegisters fAtZM
  let s ← forEach v.constraintsBatchedByDensity ((0 : F), constraintChallenges) (fun b s => do
    let inv ← densityDivisorAtWord p z v.columnDomain v.inst.numRows b.1
    forEach b.2 s (gConstraintAtZ v.maxConstraintPower z inv values))
  let s ← forEach v.inst.boundaryConstraints (s.1, boundaryChallenges)
    (gBoundaryAtZ v.maxConstraintPower z v.columnDomain values)
  pure s.1

variable (H : List UInt8 → Digest)

/-- `src/verifier/mod.rs` 271-313: the transcript up to the final coefficients, with the challenges drawn from it. -/
def Verifier.transcriptPart (v : Verifier F) (proof : InstanceProof F) :
    Res (List (F × F) × List (F × F) × F × List F × Transcript) := do
  let t ← Transcript.new F
  let t := proof.fIopRoots.foldl (fun t r => t.commitBytes r.bytes) t
  let (cc, t) ← forEach v.constraintsBatchedByDensity ([], t) (fun b s =>
    forEach b.2 s (fun _ s => drawPair H s))
  let (bc, t) ← forEach v.inst.boundaryConstraints ([], t) (fun _ s => drawPair H s)
  let t := t.commitBytes proof.gIopRoot.bytes
  let (z, t) ← t.getChallenge H
  let (h1c, t) ← forEach v.allMasks ([], t) (fun _ s => drawOne H s)
  let r1 ← Res.expect proof.h1IopRoots.getLast?
  let t := commitFinal t r1 proof.friProofH1.finalCoefficients
  let r2 ← Res.expect proof.h2IopRoots.getLast?
  let t := commitFinal t r2 proof.friProofH2.finalCoefficients
  pure (cc, bc, z, h1c, t)

/-- `src/verifier/mod.rs` 315-324: the products (315, 316) and the domains (318, 319) on words. -/
def Verifier.deriveChallengesWord (p : Profile) (fuel : ℕ) (v : Verifier F) (proof : InstanceProof F) :
    Run (Challenges F × Domain F × Domain F) := do
  let (cc, bc, z, h1c, t) ← Run.done (v.transcriptPart H proof)
  let fLdeSize ← Run.done (mulWord p v.columnDomain.size v.ldeFactor)
  let gLdeSize ← Run.done (mulWord p v.constraintsDomain.size v.ldeFactor)
  let fDomain ← newForSizeWord p fuel fLdeSize
  let gDomain ← newForSizeWord p fuel gLdeSize
  let (b1, t) := t.getChallengeBytes H
  let idx1 ← Run.done (bytesToChallengeIndex b1 fLdeSize v.ldeFactor)
  let (b2, _) := t.getChallengeBytes H
  let idx2 ← Run.done (bytesToChallengeIndex b2 gLdeSize v.ldeFactor)
  pure ({ constraintChallenges := cc, boundaryChallenges := bc, z := z, h1Challenges := h1c,
          idx1 := idx1, idx2 := idx2 }, fDomain, gDomain)

/-- `src/verifier/mod.rs` 336-401 -/
def Verifier.verifyBodyMachine (p : Profile) (fuel : ℕ) (v : Verifier F) (proof : InstanceProof F) (ch : Challenges F)
    (fDomain gDomain : Domain F) : Run Bool :=
  match checkQueries H ch.idx1 (proof.fQueries.zip proof.fIopRoots) with
  | none => pure false
  | some fLdesAtX => do
    let h1AtX ← Run.done (v.simulateH1 ch.h1Challenges ch.idx1 fDomain fLdesAtX proof.fAtZM ch.z)
    let gAtZ ← Run.done (v.calculateGAtZWord p ch.constraintChallenges ch.boundaryChallenges proof.fAtZM ch.z)
    verifyGWord H p fuel proof ch gDomain h1AtX gAtZ

/-- `src/verifier/mod.rs` 265-402 `verify`, all numbers words. -/
def Verifier.verifyMachine (p : Profile) (fuel : ℕ) (v : Verifier F) (proof : InstanceProof F) : Run Bool := do
  let (ch, fDomain, gDomain) ← v.deriveChallengesWord H p fuel proof
  if proof.fQueries.length ≠ v.inst.numRegisters then Run.done (.err .unsatisfied)
  else if proof.fQueries.length ≠ proof.fIopRoots.length then Run.done (.err .unsatisfied)
  else v.verifyBodyMachine H p fuel proof ch fDomain gDomain

end Hodor

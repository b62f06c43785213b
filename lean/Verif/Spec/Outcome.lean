import Verif.Spec.Verify

/-!
# Specification: proofs on which verification aborts
-/

namespace Hodor.Spec

variable {F : Type} [Field F] [DecidableEq F] [StarkField F]

/-- The FRI proofs on which verification at position `idx` aborts: the domain of the claimed size (rounded up to `2^n`) exists and has at least two
points, the position is odd, the openings come in pairs, but there is no root, no opening, or the position is outside the claimed domain. -/
def FriAborts (p : FriProof F) (idx : ℕ) : Prop :=
  ∃ n, (p.initialDegreePlusOne * p.ldeFactor ≤ 2 ^ n ∧ ∀ j, p.initialDegreePlusOne * p.ldeFactor ≤ 2 ^ j → n ≤ j) ∧
    1 ≤ n ∧ n ≤ StarkField.S F ∧ idx % 2 = 1 ∧ p.queries.length % 2 = 0 ∧ (p.roots = [] ∨ p.queries = [] ∨ 2 ^ n ≤ idx)

/-- What is checked of a proof before the two FRI proofs are looked at (the fields `counts` to `poles` of `Accepts`). -/
structure PassesBeforeFri (H : List UInt8 → Digest) (v : Verifier F) (proof : InstanceProof F) (ch : Challenges F) (ω1 ω2 : F) : Prop where
  counts : proof.fQueries.length = v.inst.numRegisters ∧ proof.fIopRoots.length = v.inst.numRegisters
  registers : ∀ (r : ℕ) (q : IopQuery F) (root : Digest), proof.fQueries[r]? = some q → proof.fIopRoots[r]? = some root →
    verifyQuery H q root = true ∧ q.index = ch.idx1
  g : verifyQuery H proof.gQuery proof.gIopRoot = true ∧ proof.gQuery.index = ch.idx2
  claims : v.allMasks.length ≤ proof.fAtZM.length
  poles : (∀ m ∈ v.allMasks, ω1 ^ ch.idx1 ≠ maskOf m * ch.z) ∧ ω2 ^ ch.idx2 ≠ ch.z ∧
    (v.inst.constraints ≠ [] → ch.z ^ v.columnDomain.size ≠ 1) ∧
    ∀ b ∈ v.inst.boundaryConstraints, ch.z ≠ v.columnDomain.generator ^ b.atRow

/-- The value the first FRI proof is checked against. -/
def h1Claim (v : Verifier F) (proof : InstanceProof F) (ch : Challenges F) (ω1 : F) : F :=
  deepClaim v.allMasks proof.fAtZM ch.h1Challenges (openedValue proof.fQueries) ch.z (ω1 ^ ch.idx1)

/-- The value the second FRI proof is checked against. -/
def h2Claim (v : Verifier F) (proof : InstanceProof F) (ch : Challenges F) (ω2 : F) : F :=
  (proof.gQuery.value -
    compositionAt v.columnDomain.generator v.inst.numRows v.maxConstraintPower (claimedEnv v.allMasks proof.fAtZM)
      ((v.constraintsBatchedByDensity.flatMap (fun b => b.2)).zip ch.constraintChallenges)
      (v.inst.boundaryConstraints.zip ch.boundaryChallenges) ch.z) / (ω2 ^ ch.idx2 - ch.z)

end Hodor.Spec

import Verif.Spec.Ali
import Verif.Model.Stark

/-!
# Specification: what an accepted proof has been checked for
-/

namespace Hodor.Spec

variable {F : Type} [Field F] [DecidableEq F]

/-- Instances a verifier can be built for: `n` registers, `2^k` the least power of two that is at least the
number of rows, constraints that read existing
registers by step differences and are dense with a density that fits (different constraints may have different densities),
boundary constraints on existing registers with a value and, if there are any, at least one constraint of positive degree. -/
structure Verifiable (inst : InstanceProperties F) (n k : ℕ) : Prop where
  rows : inst.numRows ≤ 2 ^ k ∧ ∀ j, inst.numRows ≤ 2 ^ j → k ≤ j
  registers : inst.numRegisters = n
  reads : ∀ c ∈ inst.constraints, ∀ u ∈ factors c,
    (∃ r, r < n ∧ u.register = .register r) ∧ ∃ j, u.stepsDifference = .steps j
  density : ∀ c ∈ inst.constraints, ∃ d, c.density = .dense d ∧ d.startAt + d.span ≤ inst.numRows
  boundary : ∀ b ∈ inst.boundaryConstraints, (∃ r, r < n ∧ b.register = .register r) ∧ ∃ v, b.value = some v
  degree : inst.boundaryConstraints ≠ [] → ∃ c ∈ inst.constraints, 1 ≤ c.degree

/-- Reading registers as the prover claims them: `claimed` lists the claimed value for each pair of register and mask. -/
def claimedEnv (masks : List (MaskProperties F)) (claimed : List F) : Env F :=
  fun r s => ((masks.zip claimed).lookup ⟨r, s⟩).getD 0

/-- The mask of a pair of register and mask. -/
def maskOf : MaskProperties F → F
  | ⟨_, .mask m⟩ => m
  | ⟨_, .steps _⟩ => 0

/-- The DEEP combination at `x` of the opened values `opened` with the claimed values at `z` times the masks. -/
def deepClaim (masks : List (MaskProperties F)) (claimed αs : List F) (opened : Register → F) (z x : F) : F :=
  (((masks.zip claimed).zip αs).map (fun q =>
    q.2 * (opened q.1.1.register - q.1.2) / (x - maskOf q.1.1 * z))).sum

/-- The opened value of a register. -/
def openedValue (queries : List (IopQuery F)) : Register → F
  | .register r => (queries[r]?).elim 0 (fun q => q.value)
  | _ => 0

variable [StarkField F] (H : List UInt8 → Digest)

/-- All that is checked of a proof, given the challenges `ch` and the generators `ω1`, `ω2` of the two LDE domains. -/
structure Accepts (v : Verifier F) (proof : InstanceProof F) (ch : Challenges F) (ω1 ω2 : F) : Prop where
  /-- one opening and one root per register -/
  counts : proof.fQueries.length = v.inst.numRegisters ∧ proof.fIopRoots.length = v.inst.numRegisters
  /-- the openings of the registers authenticate against their roots, all at position `idx1` -/
  registers : ∀ (r : ℕ) (q : IopQuery F) (root : Digest), proof.fQueries[r]? = some q → proof.fIopRoots[r]? = some root →
    verifyQuery H q root = true ∧ q.index = ch.idx1
  /-- the opening of `g` authenticates against its root, at position `idx2` -/
  g : verifyQuery H proof.gQuery proof.gIopRoot = true ∧ proof.gQuery.index = ch.idx2
  /-- a value is claimed for each pair of register and mask -/
  claims : v.allMasks.length ≤ proof.fAtZM.length
  /-- no denominator vanishes -/
  poles : (∀ m ∈ v.allMasks, ω1 ^ ch.idx1 ≠ maskOf m * ch.z) ∧ ω2 ^ ch.idx2 ≠ ch.z ∧
    (v.inst.constraints ≠ [] → ch.z ^ v.columnDomain.size ≠ 1) ∧
    ∀ b ∈ v.inst.boundaryConstraints, ch.z ≠ v.columnDomain.generator ^ b.atRow
  /-- FRI accepts the DEEP combination of the register openings -/
  h1 : proof.friProofH1.verify H ch.idx1 (deepClaim v.allMasks proof.fAtZM ch.h1Challenges (openedValue proof.fQueries)
    ch.z (ω1 ^ ch.idx1)) = .ok true
  /-- FRI accepts the DEEP quotient of the opening of `g` with the composition of the claimed values -/
  h2 : proof.friProofH2.verify H ch.idx2 ((proof.gQuery.value -
    compositionAt v.columnDomain.generator v.inst.numRows v.maxConstraintPower (claimedEnv v.allMasks proof.fAtZM)
      ((v.constraintsBatchedByDensity.flatMap (fun b => b.2)).zip ch.constraintChallenges)
      (v.inst.boundaryConstraints.zip ch.boundaryChallenges) ch.z) / (ω2 ^ ch.idx2 - ch.z)) = .ok true

end Hodor.Spec

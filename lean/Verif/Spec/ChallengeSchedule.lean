import Verif.Model.Stark

/-!
# The challenge schedule of the protocol, explicitly

A challenge is the digest of everything absorbed so far, and the digest is absorbed in turn.
-/

namespace Hodor.Spec

variable (H : List UInt8 → Digest)

/-- What has been absorbed after `n` challenges were drawn from the state `s`. -/
def drawn (s : List UInt8) : ℕ → List UInt8
  | 0 => s
  | n + 1 => drawn s n ++ (H (drawn s n)).bytes

/-- The digest that becomes challenge number `n` (from 0) drawn from the state `s`. -/
def draw (s : List UInt8) (n : ℕ) : Digest := H (drawn H s n)

variable {F : Type} [Field F] [StarkField F]

/-- The bytes of a list of roots. -/
def rootBytes (roots : List Digest) : List UInt8 := roots.flatMap Digest.bytes

/-- A root followed by field elements. -/
def finalBytes (root : Digest) (coeffs : List F) : List UInt8 := root.bytes ++ coeffs.flatMap encodeElement

/-- The schedule for `m` constraints, `b` boundary constraints and `q` masks: the witness roots are absorbed, then one pair of challenges per
constraint and one per boundary constraint is drawn; the root of `g` is absorbed, then `z` and one challenge per mask are drawn; then the last root and the
final coefficients of both FRI proofs are absorbed, and the two query positions are drawn. -/
structure Schedule (m b q sizeF sizeG factor : ℕ) (proof : InstanceProof F) (ch : Challenges F) : Prop where
  constraints : ch.constraintChallenges.length = m ∧ ∀ i, i < m → ∃ alpha beta, ch.constraintChallenges[i]? = some (alpha, beta) ∧
    interpretHash (draw H (rootBytes proof.fIopRoots) (2 * i)) = .ok alpha ∧
    interpretHash (draw H (rootBytes proof.fIopRoots) (2 * i + 1)) = .ok beta
  boundary : ch.boundaryChallenges.length = b ∧ ∀ i, i < b → ∃ alpha beta, ch.boundaryChallenges[i]? = some (alpha, beta) ∧
    interpretHash (draw H (rootBytes proof.fIopRoots) (2 * (m + i))) = .ok alpha ∧
    interpretHash (draw H (rootBytes proof.fIopRoots) (2 * (m + i) + 1)) = .ok beta
  z : interpretHash (draw H (drawn H (rootBytes proof.fIopRoots) (2 * (m + b)) ++ proof.gIopRoot.bytes) 0) = .ok ch.z
  masks : ch.h1Challenges.length = q ∧ ∀ i, i < q → ∃ alpha, ch.h1Challenges[i]? = some alpha ∧
    interpretHash (draw H (drawn H (rootBytes proof.fIopRoots) (2 * (m + b)) ++ proof.gIopRoot.bytes) (i + 1)) = .ok alpha
  positions : ∃ r1 r2, proof.h1IopRoots.getLast? = some r1 ∧ proof.h2IopRoots.getLast? = some r2 ∧
    ∃ s, s = drawn H (drawn H (rootBytes proof.fIopRoots) (2 * (m + b)) ++ proof.gIopRoot.bytes) (1 + q) ++
        finalBytes r1 proof.friProofH1.finalCoefficients ++ finalBytes r2 proof.friProofH2.finalCoefficients ∧
      bytesToChallengeIndex (draw H s 0).bytes sizeF factor = .ok ch.idx1 ∧
      bytesToChallengeIndex (draw H s 1).bytes sizeG factor = .ok ch.idx2

end Hodor.Spec

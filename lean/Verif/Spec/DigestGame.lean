import Verif.Spec.Game
import Verif.Model.Transcript

/-!
# Specification: drawing digests instead of challenges

The code has no independent challenges; it has digests, from which it derives field elements and positions. Here the digests are drawn, and everything else is as the code derives it.
-/

namespace Hodor.Spec

variable {F : Type} [Field F] [DecidableEq F] [StarkField F]

/-- What is drawn: a digest wherever the protocol needs a challenge or a position. -/
structure DigestDraw (nc nb nm : ℕ) where
  cc : Fin nc → Digest × Digest
  bc : Fin nb → Digest × Digest
  z : Digest
  α : Fin nm → Digest
  idx : Digest × Digest

/-- The challenges the code derives from the digests: field elements as in `get_challenge` (`src/transcript/mod.rs` 53-70), positions as in
`bytes_to_challenge_index` (`src/verifier/mod.rs` 246-263), for LDE domains of `size1` and `size2` points. -/
structure DigestDraw.Gives {nc nb nm : ℕ} (x : DigestDraw nc nb nm) (size1 size2 ldeFactor : ℕ) (ch : Challenges F) : Prop where
  constraints : ch.constraintChallenges.length = nc ∧
    ∀ j : Fin nc, ∃ a b, ch.constraintChallenges[j.1]? = some (a, b) ∧ interpretHash (x.cc j).1 = .ok a ∧ interpretHash (x.cc j).2 = .ok b
  boundary : ch.boundaryChallenges.length = nb ∧
    ∀ j : Fin nb, ∃ a b, ch.boundaryChallenges[j.1]? = some (a, b) ∧ interpretHash (x.bc j).1 = .ok a ∧ interpretHash (x.bc j).2 = .ok b
  point : interpretHash x.z = .ok ch.z
  masks : ch.h1Challenges.length = nm ∧ ∀ j : Fin nm, ∃ a, ch.h1Challenges[j.1]? = some a ∧ interpretHash (x.α j) = .ok a
  position1 : bytesToChallengeIndex x.idx.1.bytes size1 ldeFactor = .ok ch.idx1
  position2 : bytesToChallengeIndex x.idx.2.bytes size2 ldeFactor = .ok ch.idx2

end Hodor.Spec

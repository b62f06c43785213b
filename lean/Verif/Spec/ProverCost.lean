import Verif.Spec.Cost

/-!
# Specification: what proving costs in hash calls

In terms of the contents of the proof: a Merkle tree whose openings have `depth` digests has `2^depth` leaves.
-/

namespace Hodor.Spec

variable {F : Type}

/-- A tree over `2^depth` leaves: one call for each leaf and one for each of the `2^depth - 1` inner nodes. -/
def treeHashes (depth : ℕ) : ℕ := 2 ^ depth + (2 ^ depth - 1)

/-- A tree with one opening: the leaf beside the opened one is hashed again. -/
def openedTreeHashes (q : IopQuery F) : ℕ := treeHashes q.path.length + 1

/-- The layers of a FRI proof: every layer is a tree with two openings, and the queries of the proof are these pairs of openings, in the order of the
layers. -/
def friProverHashes : List (IopQuery F) → ℕ
  | q :: _ :: rest => (treeHashes q.path.length + 2) + friProverHashes rest
  | _ => 0

/-- The trees of a proof: one for each register, one for the composition, and the layers of the two FRI proofs. -/
def treesHashes (p : InstanceProof F) : ℕ :=
  (p.fQueries.map openedTreeHashes).sum + openedTreeHashes p.gQuery + friProverHashes p.friProofH1.queries + friProverHashes p.friProofH2.queries

end Hodor.Spec

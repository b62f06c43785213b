import Verif.Model.Stark

/-!
# The parts of a proof on which the verdict can depend
-/

namespace Hodor.Spec

variable {F : Type}

/-- Number of rounds of a FRI proof: roots that come with two openings. -/
def friRounds (p : FriProof F) : ℕ := min p.roots.length (p.queries.length / 2)

/-- Two FRI proofs with the same read parts: the same power of two as size of the domain, both an even or both an odd number of openings, the same
number of rounds, the same roots and openings in these rounds, the same final coefficients. The factors of the size, the announced number of final
coefficients, roots without openings and openings without roots may differ. -/
structure SameFri (p q : FriProof F) : Prop where
  size : ∀ k, p.initialDegreePlusOne * p.ldeFactor ≤ 2 ^ k ↔ q.initialDegreePlusOne * q.ldeFactor ≤ 2 ^ k
  parity : p.queries.length % 2 = q.queries.length % 2
  rounds : friRounds p = friRounds q
  roots : ∀ i, i < friRounds p → p.roots[i]? = q.roots[i]?
  openings : ∀ i, i < 2 * friRounds p → p.queries[i]? = q.queries[i]?
  coefficients : p.finalCoefficients = q.finalCoefficients

/-- Two proofs with the same parts outside the two lists of FRI roots, for a verifier that reads `masks` claimed values. -/
structure SameApart (masks : ℕ) (p q : InstanceProof F) : Prop where
  claims : ∀ i, i < masks → p.fAtZM[i]? = q.fAtZM[i]?
  registerRoots : p.fIopRoots = q.fIopRoots
  gRoot : p.gIopRoot = q.gIopRoot
  registerOpenings : p.fQueries = q.fQueries
  gOpening : p.gQuery = q.gQuery
  fri1 : SameFri p.friProofH1 q.friProofH1
  fri2 : SameFri p.friProofH2 q.friProofH2

/-- Two proofs with the same read parts: of the two lists of FRI roots only the last one is read. -/
structure SameRead (masks : ℕ) (p q : InstanceProof F) : Prop extends SameApart masks p q where
  last1 : p.h1IopRoots.getLast? = q.h1IopRoots.getLast?
  last2 : p.h2IopRoots.getLast? = q.h2IopRoots.getLast?

end Hodor.Spec

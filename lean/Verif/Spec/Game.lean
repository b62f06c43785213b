import Verif.Spec.Sampling
import Mathlib.Data.Rat.Defs
import Mathlib.SetTheory.Cardinal.Finite
import Mathlib.Data.Fintype.Pi
import Mathlib.Data.Fintype.Prod

/-!
# Specification: a prover against independent challenges

The verifier draws every challenge and both positions independently and uniformly, each after the prover's message before it. The prover is any
function from what has been drawn so far to its next message. The challenge of a FRI round is, as in the code, the one encoded in the root of the round.
-/

namespace Hodor.Spec

/-- The share of the outcomes with `A`. -/
noncomputable def share {Ω : Type} (A : Ω → Prop) : ℚ := (Nat.card {x // A x} : ℚ) / Nat.card Ω

/-- What is drawn: a pair of challenges for each of `nc` constraints and `nb` boundary constraints, the point, a challenge for each of `nm` masks, all from `S`,
and a position from each of `P1`, `P2`. -/
structure Draw {F : Type} (S : Finset F) (nc nb nm : ℕ) (P1 P2 : Finset ℕ) where
  cc : Fin nc → S × S
  bc : Fin nb → S × S
  z : S
  α : Fin nm → S
  idx : P1 × P2

/-- The challenges drawn. -/
def Draw.challenges {F : Type} {S : Finset F} {nc nb nm : ℕ} {P1 P2 : Finset ℕ} (x : Draw S nc nb nm P1 P2) : Challenges F where
  constraintChallenges := List.ofFn (fun j => ((x.cc j).1.1, (x.cc j).2.1))
  boundaryChallenges := List.ofFn (fun j => ((x.bc j).1.1, (x.bc j).2.1))
  z := x.z
  h1Challenges := List.ofFn (fun j => (x.α j).1)
  idx1 := x.idx.1
  idx2 := x.idx.2

variable {F : Type} [Field F] [DecidableEq F] [StarkField F] (H : List UInt8 → Digest)

/-- A prover: the words of the registers, then the word of `g`, given the challenges of the constraints, then the claimed values, given also the point, then the FRI runs, given also
the challenges of the masks, then the answer, given also the positions. -/
structure Strategy (F : Type) where
  f : List (List F) × List Digest
  g : List (F × F) → List (F × F) → List F × Digest
  claimed : List (F × F) → List (F × F) → F → List F
  runs : List (F × F) → List (F × F) → F → List F → FriRun F × FriRun F
  answer : List (F × F) → List (F × F) → F → List F → ℕ → ℕ → InstanceProof F

/-- What the prover is committed to when the positions are drawn. -/
def Strategy.commitments (s : Strategy F) (ch : Challenges F) : Commitments F where
  fWords := s.f.1
  fRoots := s.f.2
  gWord := (s.g ch.constraintChallenges ch.boundaryChallenges).1
  gRoot := (s.g ch.constraintChallenges ch.boundaryChallenges).2
  claimed := s.claimed ch.constraintChallenges ch.boundaryChallenges ch.z
  run1 := (s.runs ch.constraintChallenges ch.boundaryChallenges ch.z ch.h1Challenges).1
  run2 := (s.runs ch.constraintChallenges ch.boundaryChallenges ch.z ch.h1Challenges).2

/-- The prover's answers, by position. -/
def Strategy.answers (s : Strategy F) (ch : Challenges F) : ℕ → ℕ → InstanceProof F :=
  s.answer ch.constraintChallenges ch.boundaryChallenges ch.z ch.h1Challenges

/-- The answer to what was drawn is a proof object for the commitments, which have the right shape, and is accepted. -/
def Strategy.Passes (s : Strategy F) (v : Verifier F) (slack : ℕ) (d1 d2 : Domain F) (ch : Challenges F) : Prop :=
  (s.commitments ch).Ok H v slack ∧ (s.commitments ch).Answers v (s.answers ch ch.idx1 ch.idx2) ∧
    Accepts H v (s.answers ch ch.idx1 ch.idx2) ch d1.generator d2.generator

/-- The pairs of positions the prover passes with, all else being the same. -/
noncomputable def Strategy.passing (s : Strategy F) (v : Verifier F) (slack : ℕ) (d1 d2 : Domain F) (ch : Challenges F) : Finset (ℕ × ℕ) :=
  open Classical in (oddBelow d1.size ×ˢ oddBelow d2.size).filter (fun b => s.Passes H v slack d1 d2 { ch with idx1 := b.1, idx2 := b.2 })

/-- The prover passes, without luck with a challenge of FRI (C68, C75) and without a collision of the hash function among the strings that are hashed for its commitments and for the
answers it passes with. -/
def Strategy.Wins (s : Strategy F) (v : Verifier F) (slack E1 E2 : ℕ) (d1 d2 : Domain F) (ch : Challenges F) : Prop :=
  s.Passes H v slack d1 d2 ch ∧
    ¬ (s.commitments ch).run1.LuckyWithin d1.generator (Nat.log 2 d1.size) E1 ∧
    ¬ (s.commitments ch).run2.LuckyWithin d2.generator (Nat.log 2 d2.size) E2 ∧
    ¬ CollisionAmong H ((s.commitments ch).HashedAt H (s.answers ch) (s.passing H v slack d1 d2 ch))

end Hodor.Spec

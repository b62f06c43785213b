import Verif.Model.Machine

/-!
# What it means that a run returns
-/

namespace Hodor.Spec

/-- The call ends with outcome `r` after finitely many loop iterations. -/
def Returns {α : Type} (run : ℕ → Run α) (r : Res α) : Prop := ∃ n, ∀ fuel, n ≤ fuel → run fuel = .done r

/-- However many loop iterations are performed, the call has not ended. -/
def NeverReturns {α : Type} (run : ℕ → Run α) : Prop := ∀ fuel, run fuel = .running

/-- The size of the first FRI domain that a proof claims. -/
def claimedSize {F : Type} (p : FriProof F) : ℕ := p.initialDegreePlusOne * p.ldeFactor

/-- The proof as a release build reads it: the claimed size modulo `2^64`. -/
def wrapped {F : Type} (p : FriProof F) : FriProof F :=
  { p with initialDegreePlusOne := claimedSize p % 2 ^ 64, ldeFactor := 1 }

/-- Both FRI proofs as a release build reads them. -/
def wrappedProof {F : Type} (p : InstanceProof F) : InstanceProof F :=
  { p with friProofH1 := wrapped p.friProofH1, friProofH2 := wrapped p.friProofH2 }

end Hodor.Spec

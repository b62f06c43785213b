import Verif.Model.Stark
import Verif.Spec.Air

/-!
# Specification: the contents of a proof, counted
-/

namespace Hodor.Spec

variable {F : Type}

/-- The registers and rows (relative to the current one, around a trace of `T` rows) that some constraint reads, and the registers with a
boundary constraint, with offset 0; with repetitions. -/
def readPairs (inst : InstanceProperties F) (T : ℕ) : List (Register × ℕ) :=
  (inst.constraints.flatMap factors).filterMap (fun u => match u.stepsDifference with
    | .steps j => some (u.register, j % T)
    | .mask _ => none) ++ inst.boundaryConstraints.map (fun b => (b.register, 0))

/-- The digests in the paths of some openings. -/
def pathDigests (qs : List (IopQuery F)) : ℕ := (qs.map (fun q => q.path.length)).sum

/-- The digests in a FRI proof. -/
def friDigests (p : FriProof F) : ℕ := p.roots.length + pathDigests p.queries

/-- The field elements in a FRI proof. -/
def friElements (p : FriProof F) : ℕ := p.queries.length + p.finalCoefficients.length

/-- All digests in a proof. -/
def digestCount (p : InstanceProof F) : ℕ :=
  p.fIopRoots.length + 1 + pathDigests p.fQueries + p.gQuery.path.length + p.h1IopRoots.length + p.h2IopRoots.length +
    friDigests p.friProofH1 + friDigests p.friProofH2

/-- All field elements in a proof. -/
def elementCount (p : InstanceProof F) : ℕ :=
  p.fAtZM.length + p.fQueries.length + 1 + friElements p.friProofH1 + friElements p.friProofH2

/-- The shape of a FRI proof with `m` roots for words of `2^N` elements, at position `idx`: two openings per root, both of the same class of
positions, with paths one digest shorter for each root. -/
structure FriProofShape (p : FriProof F) (N m idx : ℕ) : Prop where
  roots : p.roots.length = m
  paths : p.queries.map (fun q => q.path.length) = (List.range (2 * m)).map (fun t => N - t / 2)
  positions : p.queries.map (fun q => q.index) =
    (List.range (2 * m)).map (fun t => idx % 2 ^ (N - (t / 2 + 1)) + t % 2 * 2 ^ (N - (t / 2 + 1)))

end Hodor.Spec

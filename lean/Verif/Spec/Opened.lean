import Verif.Model.Stark

/-!
# Specification: the point at which the prover opens the witness
-/

namespace Hodor

variable {F : Type} [Field F] [DecidableEq F] [StarkField F] (H : List UInt8 → Digest)

/-- The transcript of a proof after the roots of the registers, from which the challenges of the constraints are drawn. -/
def Spec.afterRoots (roots : List Digest) : Transcript :=
  roots.foldl (fun t r => t.commitBytes r.bytes) ⟨[]⟩

/-- The point at which `prove` opens the witness: the first challenge drawn after the root of the combined polynomial has been committed. -/
def Spec.OpenedAt (prover : Prover F) (w : Worker) (witness : List (List F)) (e : ℕ) (z : F) : Prop :=
  ∃ ps fLdes fTrees fRoots G t gLde gTree gRoot t', calculateWitnessPolys prover.arp witness w = .ok ps ∧
    mapRes (fun q => q.lde w (2 ^ e)) ps = .ok fLdes ∧ mapRes (fun l : Poly F .values => IopTree.create H w l.coeffs) fLdes = .ok fTrees ∧
    mapRes (fun o : IopTree => o.getRoot) fTrees = .ok fRoots ∧
    prover.ali.calculateG H (Spec.afterRoots fRoots) ps w = .ok (G, t) ∧
    G.lde w (2 ^ e) = .ok gLde ∧ IopTree.create H w gLde.coeffs = .ok gTree ∧ gTree.getRoot = .ok gRoot ∧
    (t.commitBytes gRoot.bytes).getChallenge H = .ok (z, t')

end Hodor

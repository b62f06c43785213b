import Verif.Model.Stark

/-!
# What it means that a prover run used given challenges

`Draws H t l t'`: the challenges drawn one after the other from the transcript `t` are the list `l`, and `t'` is the transcript afterwards.
A computation *uses* the challenges `l` if it gives the same result with every hash function and every transcript from which `l` is drawn.
-/

namespace Hodor.Spec

variable {F : Type} [Field F] [DecidableEq F] [StarkField F]

/-- Successive challenges. -/
def Draws (H : List UInt8 → Digest) : Transcript → List F → Transcript → Prop
  | t, [], t' => t' = t
  | t, c :: l, t' => ∃ t1, t.getChallenge H = .ok (c, t1) ∧ Draws H t1 l t'

/-- The challenges of a list of pairs, in the order of drawing. -/
def pairChallenges (l : List (F × F)) : List F := l.flatMap (fun p => [p.1, p.2])

/-- The run of `prove` on `witness` that returned `proof` used the challenges `ch`: its constraint polynomial `G` is computed with the constraint and
boundary challenges of `ch` (and with nothing else from the transcript), its DEEP words and out-of-domain values with `ch`'s out-of-domain point and mask
challenges, and the FRI proofs and all openings of the proof are those for the positions of `ch`. -/
def ProverUsed (H : List UInt8 → Digest) (p : Prover F) (witness : List (List F)) (proof : InstanceProof F) (ch : Challenges F) : Prop :=
  ∃ (polys : List (Poly F .coefficients)) (ldes : List (Poly F .values)) (trees : List IopTree) (G : Poly F .coefficients)
    (gLde : Poly F .values) (gTree : IopTree) (deep : DeepResult F) (proto1 proto2 : FriPrototype F),
    -- the commitments of the proof
    calculateWitnessPolys p.arp witness p.worker = .ok polys ∧ mapRes (fun q => q.lde p.worker p.ldeFactor) polys = .ok ldes ∧
    mapRes (fun l => IopTree.create H p.worker l.coeffs) ldes = .ok trees ∧ mapRes (fun t => t.getRoot) trees = .ok proof.fIopRoots ∧
    G.lde p.worker p.ldeFactor = .ok gLde ∧ IopTree.create H p.worker gLde.coeffs = .ok gTree ∧ gTree.getRoot = .ok proof.gIopRoot ∧
    -- the challenges come from a transcript that first absorbed the witness roots, later the root of `G`
    (∃ t t' t'', Draws H t (pairChallenges ch.constraintChallenges ++ pairChallenges ch.boundaryChallenges) t' ∧
      t.absorbed = proof.fIopRoots.flatMap Digest.bytes ∧ Draws H (t'.commitBytes proof.gIopRoot.bytes) (ch.z :: ch.h1Challenges) t'') ∧
    -- `G` is computed from the constraint and boundary challenges
    (∀ H' t t', Draws H' t (pairChallenges ch.constraintChallenges ++ pairChallenges ch.boundaryChallenges) t' →
      p.ali.calculateG H' t polys p.worker = .ok (G, t')) ∧
    -- the DEEP words are computed from `z` and the mask challenges
    (∀ H' t t', Draws H' t (ch.z :: ch.h1Challenges) t' →
      p.ali.calculateDeep H' polys ldes G gLde t p.worker = .ok { deep with transcript := t' }) ∧
    proof.fAtZM = deep.fAtZM ∧
    -- the FRI proofs and the openings are for the derived positions
    friProofByValues H p.worker deep.h1 p.ldeFactor p.friFinalDegreePlusOne = .ok proto1 ∧
    friProofByValues H p.worker deep.h2 p.ldeFactor p.friFinalDegreePlusOne = .ok proto2 ∧
    proto1.getRoots = .ok proof.h1IopRoots ∧ proto2.getRoots = .ok proof.h2IopRoots ∧
    proto1.produceProof H deep.h1 ch.idx1 = .ok proof.friProofH1 ∧ proto2.produceProof H deep.h2 ch.idx2 = .ok proof.friProofH2 ∧
    mapRes (fun o => o.1.query H ch.idx1 o.2.coeffs) (trees.zip ldes) = .ok proof.fQueries ∧
    gTree.query H ch.idx2 gLde.coeffs = .ok proof.gQuery

end Hodor.Spec

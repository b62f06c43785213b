import Verif.Spec.Soundness
import Verif.Spec.Verify
import Verif.Spec.Merkle
import Verif.Spec.Fri
import Verif.Spec.Arp

/-!
# Specification: the interactive protocol with the checks of the code

A prover commits to one word per register and to the word of `g`, claims the values at `z`, and commits to the words of two FRI runs.
It then has to answer the queries at the positions `idx1`, `idx2` it is given. Its answer is a proof object, checked as
`verify` does (`Accepts`, see C54).
-/

namespace Hodor.Spec

variable {F : Type} [Field F] [DecidableEq F] [StarkField F] (H : List UInt8 → Digest)

/-- `root` is the root of the Merkle tree over `word`. -/
def RootOf (word : List F) (root : Digest) : Prop := ∃ w tree, IopTree.create H w word = .ok tree ∧ tree.getRoot = .ok root

/-- What a FRI prover is committed to: a word for each round, their roots, and the final coefficients. -/
structure FriRun (F : Type) where
  words : ℕ → List F
  roots : List Digest
  fin : List F

/-- The commitments of a prover. -/
structure Commitments (F : Type) where
  fWords : List (List F)
  fRoots : List Digest
  gWord : List F
  gRoot : Digest
  claimed : List F
  run1 : FriRun F
  run2 : FriRun F

/-- The rounds are committed: round `r` on a domain that is `2^r` times smaller than the first, of size `size`. Their number and that of the
final coefficients together stand for the degree bound `bound`. -/
structure FriRun.Committed (run : FriRun F) (size bound : ℕ) : Prop where
  rounds : ∀ r root, run.roots[r]? = some root → (run.words r).length * 2 ^ r = size ∧ RootOf H (run.words r) root
  shape : run.fin.length * 2 ^ run.roots.length = bound

/-- All roots are roots of trees over words of the right sizes, and the two FRI runs have the number of rounds and of final coefficients
for `slack` times the degree bounds. -/
structure Commitments.Ok (c : Commitments F) (v : Verifier F) (slack : ℕ) : Prop where
  f : IsTable c.fWords v.inst.numRegisters (v.columnDomain.size * v.ldeFactor)
  fRoots : ∀ (r : ℕ) word root, c.fWords[r]? = some word → c.fRoots[r]? = some root → RootOf H word root
  g : c.gWord.length = v.constraintsDomain.size * v.ldeFactor ∧ RootOf H c.gWord c.gRoot
  run1 : c.run1.Committed H (v.columnDomain.size * v.ldeFactor) (slack * v.columnDomain.size)
  run2 : c.run2.Committed H (v.constraintsDomain.size * v.ldeFactor) (slack * v.constraintsDomain.size)

/-- A FRI proof for the given run and header, with an opened pair for each round. -/
structure FriRun.Proves (run : FriRun F) (p : FriProof F) (degree factor : ℕ) : Prop where
  roots : p.roots = run.roots
  fin : p.finalCoefficients = run.fin
  header : p.initialDegreePlusOne = degree ∧ p.ldeFactor = factor
  openings : 2 * run.roots.length ≤ p.queries.length

/-- A proof object that answers for the given commitments. -/
structure Commitments.Answers (c : Commitments F) (v : Verifier F) (p : InstanceProof F) : Prop where
  fRoots : p.fIopRoots = c.fRoots
  gRoot : p.gIopRoot = c.gRoot
  claimed : p.fAtZM = c.claimed
  run1 : c.run1.Proves p.friProofH1 v.columnDomain.size v.ldeFactor
  run2 : c.run2.Proves p.friProofH2 v.constraintsDomain.size v.ldeFactor

/-- The prover has an accepted answer for all odd positions `i`, `j` of the two LDE domains, whatever was drawn before. -/
def Commitments.Accepted (c : Commitments F) (v : Verifier F) (ch : Challenges F) (d1 d2 : Domain F)
    (answer : ℕ → ℕ → InstanceProof F) : Prop :=
  ∀ i j, i < d1.size → i % 2 = 1 → j < d2.size → j % 2 = 1 →
    c.Answers v (answer i j) ∧ Accepts H v (answer i j) { ch with idx1 := i, idx2 := j } d1.generator d2.generator

/-- Luck with the challenge of a round of FRI (the one encoded in the round's root): the word of the round is at the odd positions the polynomial `P`, of
degree too high for the round, and this is the single challenge for which the fold of `P` has the degree required in the next
round (C29). -/
def FriRun.Lucky (run : FriRun F) (ω : F) : Prop :=
  ∃ r root β, ∃ P : Polynomial F, run.roots[r]? = some root ∧ encodeRootIntoChallenge root = .ok β ∧
    (∀ j, j < (run.words r).length → j % 2 = 1 → (run.words r)[j]? = some (P.eval ((ω ^ 2 ^ r) ^ j))) ∧
    ¬ P.degree < (2 * (run.fin.length * 2 ^ (run.roots.length - (r + 1))) : ℕ) ∧
    ∃ Q, IsFold β P Q ∧ Q.degree < (run.fin.length * 2 ^ (run.roots.length - (r + 1)) : ℕ)

/-- A string hashed for the tree over a word. -/
def WordHashed (word : List F) (s : List UInt8) : Prop :=
  ∃ m, word.length = 2 ^ m ∧ TreeHashed H (fun i => word.getD i 0) m s

/-- The strings hashed for the trees of the committed words, and when the openings in the accepted answers are checked. -/
def Commitments.Hashed (c : Commitments F) (d1 d2 : Domain F) (answer : ℕ → ℕ → InstanceProof F) (s : List UInt8) : Prop :=
  (∃ word, (word ∈ c.fWords ∨ word = c.gWord ∨ (∃ r, r < c.run1.roots.length ∧ word = c.run1.words r) ∨
    ∃ r, r < c.run2.roots.length ∧ word = c.run2.words r) ∧ WordHashed H word s) ∨
  ∃ i j q, i < d1.size ∧ i % 2 = 1 ∧ j < d2.size ∧ j % 2 = 1 ∧ (q ∈ (answer i j).fQueries ∨ q = (answer i j).gQuery ∨
    q ∈ (answer i j).friProofH1.queries ∨ q ∈ (answer i j).friProofH2.queries) ∧ s ∈ openingHashed H q.value q.path q.index

end Hodor.Spec

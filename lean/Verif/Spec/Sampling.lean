import Verif.Spec.Proximity

/-!
# Specification: soundness when only part of the positions are answered

The prover has accepted answers for a set `B` of pairs of positions (`idx1`, `idx2`), not for all. Its words are then only close to polynomials:
they agree with them at all but at most `E` odd positions.
-/

namespace Hodor.Spec

open Polynomial

variable {F : Type} [Field F] [DecidableEq F]

/-- `P` has degree at most `D` and differs from the word, on the powers of `ω`, at no more than `E` of the odd positions below `N`. -/
def Decodes (ω : F) (N D E : ℕ) (word : List F) (P : F[X]) : Prop :=
  P.natDegree ≤ D ∧ ((oddBelow N).filter (fun i => word.getD i 0 ≠ P.eval (ω ^ i))).card ≤ E

/-- The values of the registers' words at position `i`. -/
def registersAt (fWords : List (List F)) (i : ℕ) : Register → F
  | .register r => (fWords.getD r []).getD i 0
  | _ => 0

variable [StarkField F] (H : List UInt8 → Digest)

/-- Luck with the challenge `α` of the `j`-th mask, given those of the masks before it: the combination of the DEEP quotients of the masks up to the `j`-th is a polynomial of
degree below the bound at all but at most `E` odd positions, but that of the masks before the `j`-th and the `j`-th quotient are not, there. -/
def LuckyMaskAt (v : Verifier F) (d1 : Domain F) (slack E : ℕ) (fWords : List (List F)) (z : F) (y before : List F) (j : ℕ) (α : F) : Prop :=
  ∃ (m : MaskProperties F) (c : F), v.allMasks[j]? = some m ∧ y[j]? = some c ∧
    LuckyLine (oddBelow d1.size) (fun i => d1.generator ^ i) (slack * v.columnDomain.size) E
      (fun i => deepClaim (v.allMasks.take j) y before (registersAt fWords i) z (d1.generator ^ i))
      (fun i => (registersAt fWords i m.register - c) / (d1.generator ^ i - maskOf m * z)) α

/-- Luck with a mask challenge. -/
def LuckyMaskWithin (v : Verifier F) (d1 : Domain F) (slack E : ℕ) (fWords : List (List F)) (z : F) (y αs : List F) : Prop :=
  ∃ (j : ℕ) (α : F), αs[j]? = some α ∧ LuckyMaskAt v d1 slack E fWords z y (αs.take j) j α

/-- `P` are polynomials that the words of all registers that are read anywhere decode to, with at most `E1` errors, and `G` is one the word of `g` decodes to, with
at most `E2` errors. -/
structure DecodesAll (v : Verifier F) (d1 d2 : Domain F) (slack E1 E2 : ℕ) (fWords : List (List F)) (gWord : List F) (P : ℕ → F[X]) (G : F[X]) : Prop where
  f : ∀ m ∈ v.allMasks, ∀ r, m.register = .register r → Decodes d1.generator d1.size (slack * v.columnDomain.size) E1 (fWords.getD r []) (P r)
  g : Decodes d2.generator d2.size (slack * v.constraintsDomain.size) E2 gWord G

/-- The points out of the domain at which the polynomial of `g` has the value of the composition of the registers' polynomials. -/
def consistentPoints (v : Verifier F) (d1 d2 : Domain F) (slack E1 E2 : ℕ) (fWords : List (List F)) (gWord : List F) (cc bc : List (F × F)) : Set F :=
  { z | OutOfDomain v z ∧ ∃ P G, DecodesAll v d1 d2 slack E1 E2 fWords gWord P G ∧
    G.eval z = compositionAt v.columnDomain.generator v.inst.numRows v.maxConstraintPower (pointEnv P z)
      ((v.constraintsBatchedByDensity.flatMap (fun b => b.2)).zip cc) (v.inst.boundaryConstraints.zip bc) z }

/-- Luck with the point: there are at most `slack · size of the constraints domain + size of the column domain` such points. They are fixed before `z` is drawn. -/
def LuckyPointWithin (v : Verifier F) (d1 d2 : Domain F) (slack E1 E2 : ℕ) (fWords : List (List F)) (gWord : List F) (cc bc : List (F × F)) : Prop :=
  (consistentPoints v d1 d2 slack E1 E2 fWords gWord cc bc).encard ≤ slack * v.constraintsDomain.size + v.columnDomain.size

/-- For these constraint challenges some word of `g` has more such points. -/
def WinnableWithin (v : Verifier F) (d1 d2 : Domain F) (slack E1 E2 : ℕ) (fWords : List (List F)) (cc bc : List (F × F)) : Prop :=
  ∃ gWord, gWord.length = v.constraintsDomain.size * v.ldeFactor ∧ ¬ LuckyPointWithin v d1 d2 slack E1 E2 fWords gWord cc bc

/-- The trace is read off from the committed words: the words of all registers that are read anywhere decode to polynomials (uniquely, in the ranges of the theorems), whose values
on the domain of the trace are the columns. -/
def ReadOff (v : Verifier F) (d1 : Domain F) (slack E : ℕ) (fWords : List (List F)) (witness : List (List F)) : Prop :=
  ∀ m ∈ v.allMasks, ∀ r, m.register = .register r → ∃ P, Decodes d1.generator d1.size (slack * v.columnDomain.size) E (fWords.getD r []) P ∧
    ∀ row, row < v.inst.numRows → cell witness r row = P.eval (v.columnDomain.generator ^ row)

/-- Accepted answers for the pairs of positions in `B`. -/
def Commitments.AcceptedAt (c : Commitments F) (v : Verifier F) (ch : Challenges F) (d1 d2 : Domain F)
    (answer : ℕ → ℕ → InstanceProof F) (B : Finset (ℕ × ℕ)) : Prop :=
  ∀ b ∈ B, c.Answers v (answer b.1 b.2) ∧ Accepts H v (answer b.1 b.2) { ch with idx1 := b.1, idx2 := b.2 } d1.generator d2.generator

/-- The strings hashed for the trees of the committed words, and when the openings in the answers for `B` are checked. -/
def Commitments.HashedAt (c : Commitments F) (answer : ℕ → ℕ → InstanceProof F) (B : Finset (ℕ × ℕ)) (s : List UInt8) : Prop :=
  (∃ word, (word ∈ c.fWords ∨ word = c.gWord ∨ (∃ r, r < c.run1.roots.length ∧ word = c.run1.words r) ∨
    ∃ r, r < c.run2.roots.length ∧ word = c.run2.words r) ∧ WordHashed H word s) ∨
  ∃ b ∈ B, ∃ q, (q ∈ (answer b.1 b.2).fQueries ∨ q = (answer b.1 b.2).gQuery ∨
    q ∈ (answer b.1 b.2).friProofH1.queries ∨ q ∈ (answer b.1 b.2).friProofH2.queries) ∧ s ∈ openingHashed H q.value q.path q.index

end Hodor.Spec

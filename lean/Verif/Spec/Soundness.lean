import Verif.Model.Stark
import Mathlib.Data.Set.Card

/-!
# Specification: the verifier with an ideal low-degree test

The prover sends words (one per register), is given the constraint challenges, sends the word of `g`, is given the point `z`, sends
the openings `y`, and is given the mask challenges. The ideal test replaces FRI: it looks at the whole word that the verifier computes with
`simulate_h1_from_f_at_z` (and `simulate_h2_from_g_at_z`) and accepts when it is the evaluation of a polynomial of degree below
`slack` times the required bound at the odd positions, which are the only positions that the code ever queries (C23). The slack of
the FRI of the code is 2: an honest proof has one round more than the degree bound dictates (`C46_honest_shape`).
-/

namespace Hodor.Spec

open Polynomial

variable {F : Type} [Field F] [DecidableEq F] [StarkField F]

/-- The word computed by `simulate_h1_from_f_at_z` has low degree at the positions that can be queried. -/
def LowH1 (v : Verifier F) (slack : ℕ) (fWords : List (List F)) (z : F) (y αs : List F) : Prop :=
  ∃ (dom : Domain F) (Q : F[X]), Domain.newForSize F (v.columnDomain.size * v.ldeFactor) = .ok dom ∧
    Q.degree < (slack * v.columnDomain.size : ℕ) ∧
    ∀ idx, idx < dom.size → idx % 2 = 1 → ∃ opened, mapRes (fun word => rd word idx) fWords = .ok opened ∧
      v.simulateH1 αs idx dom opened y z = .ok (Q.eval (dom.generator ^ idx))

/-- The word computed by `simulate_h2_from_g_at_z`, with the value of `g` computed from the openings, has low degree at the
positions that can be queried. -/
def LowH2 (v : Verifier F) (slack : ℕ) (gWord : List F) (cc bc : List (F × F)) (z : F) (y : List F) : Prop :=
  ∃ (gAtZ : F) (dom : Domain F) (Q : F[X]), v.calculateGAtZ cc bc y z = .ok gAtZ ∧
    Domain.newForSize F (v.constraintsDomain.size * v.ldeFactor) = .ok dom ∧
    Q.degree < (slack * v.constraintsDomain.size : ℕ) ∧
    ∀ idx, idx < dom.size → idx % 2 = 1 → ∃ x, rd gWord idx = .ok x ∧
      simulateH2 idx dom x z gAtZ = .ok (Q.eval (dom.generator ^ idx))

/-- Luck with a mask challenge: with any other value of one of them, the others being the same, the test of `h1` would fail. -/
def LuckyMask (v : Verifier F) (slack : ℕ) (fWords : List (List F)) (z : F) (y αs : List F) : Prop :=
  ∃ (j : ℕ) (α : F), αs[j]? = some α ∧ ∀ x, LowH1 v slack fWords z y (αs.set j x) → x = α

/-- The prover passes both tests at the point `z`, for some openings, and without luck with the mask challenges. -/
def WinsAt (v : Verifier F) (slack : ℕ) (fWords : List (List F)) (gWord : List F) (cc bc : List (F × F)) (z : F) : Prop :=
  ∃ y αs, y.length = v.allMasks.length ∧ αs.length = v.allMasks.length ∧ LowH1 v slack fWords z y αs ∧
    LowH2 v slack gWord cc bc z y ∧ ¬ LuckyMask v slack fWords z y αs

/-- The point is not in the LDE domain of `g`. -/
def OutOfDomain (v : Verifier F) (z : F) : Prop := z ^ (v.constraintsDomain.size * v.ldeFactor) ≠ 1

/-- The points at which the prover passes without luck with the mask challenges. -/
def winningPoints (v : Verifier F) (slack : ℕ) (fWords : List (List F)) (gWord : List F) (cc bc : List (F × F)) : Set F :=
  { z | OutOfDomain v z ∧ WinsAt v slack fWords gWord cc bc z }

/-- Luck with the point: after `gWord` was sent, only `slack · size of the constraints domain + size of the column domain` points (out of the whole field)
would have been winning. -/
def LuckyPoint (v : Verifier F) (slack : ℕ) (fWords : List (List F)) (gWord : List F) (cc bc : List (F × F)) : Prop :=
  (winningPoints v slack fWords gWord cc bc).encard ≤ slack * v.constraintsDomain.size + v.columnDomain.size

/-- For these constraint challenges there is some word of `g` which wins at more points than that. -/
def Winnable (v : Verifier F) (slack : ℕ) (fWords : List (List F)) (cc bc : List (F × F)) : Prop :=
  ∃ gWord, gWord.length = v.constraintsDomain.size * v.ldeFactor ∧ ¬ LuckyPoint v slack fWords gWord cc bc

/-- Luck with a coordinate of a list of pairs of challenges: with any other value of one of the coordinates, all others being the same, `W`
would fail. -/
def OnlyValue (W : List (F × F) → List (F × F) → Prop) (cc bc : List (F × F)) : Prop :=
  (∃ (j : ℕ) (p : F × F), cc[j]? = some p ∧
    ((∀ x, W (cc.set j (x, p.2)) bc → x = p.1) ∨ (∀ x, W (cc.set j (p.1, x)) bc → x = p.2))) ∨
  (∃ (j : ℕ) (p : F × F), bc[j]? = some p ∧
    ((∀ x, W cc (bc.set j (x, p.2)) → x = p.1) ∨ (∀ x, W cc (bc.set j (p.1, x)) → x = p.2)))

/-- Luck with a constraint challenge: with any other value of one of them, the others being the same, every word of `g` would
need luck with the point. -/
def LuckyConstraint (v : Verifier F) (slack : ℕ) (fWords : List (List F)) (cc bc : List (F × F)) : Prop :=
  OnlyValue (Winnable v slack fWords) cc bc

end Hodor.Spec

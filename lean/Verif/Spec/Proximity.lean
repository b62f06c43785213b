import Verif.Spec.Interactive

/-!
# Specification: agreement of words with polynomials at part of the positions
-/

namespace Hodor.Spec

open Polynomial

variable {F : Type} [Field F]

/-- The odd positions below `N`. -/
def oddBelow (N : ℕ) : Finset ℕ := (Finset.range N).filter (fun i => i % 2 = 1)

/-- Luck with a combination of two words `u`, `v` at the points `x i`, `i ∈ s`: for the challenge `β` the word `u + β v` is the polynomial `Q`, of degree below `D`, at all positions of `S`, that is at
all but at most `e` of the positions, but `u` and `v` themselves are not polynomials of degree below `D` there. -/
def LuckyLine {ι : Type} [DecidableEq ι] (s : Finset ι) (x : ι → F) (D e : ℕ) (u v : ι → F) (β : F) : Prop :=
  ∃ (Q : F[X]) (S : Finset ι), Q.degree < (D : ℕ) ∧ S ⊆ s ∧ (s \ S).card ≤ e ∧ (∀ i ∈ S, u i + β * v i = Q.eval (x i)) ∧
    ¬ ∃ U V : F[X], U.degree < (D : ℕ) ∧ V.degree < (D : ℕ) ∧ ∀ i ∈ S, u i = U.eval (x i) ∧ v i = V.eval (x i)

/-- The word `W` of size `2 N`, on the points `g^0, g^1, …`, agrees with `P` at the positions `j` of `S` and at their partners `j + N`. -/
def AgreesOnPairs (g : F) (N : ℕ) (W : List F) (S : Finset ℕ) (P : F[X]) : Prop :=
  ∀ j ∈ S, W[j]? = some (P.eval (g ^ j)) ∧ W[j + N]? = some (P.eval (g ^ (j + N)))

/-- Luck with the challenge `β` of a FRI round: the word `W` of size `2 N` on the points `g^0, g^1, …` folds by `β` to a polynomial of degree below `D` at all positions of `S`, that is at all but at most `e` of
the odd positions, but is not a polynomial of degree below `2 D` at these positions and their partners. -/
def LuckyFold (g : F) (N : ℕ) (W : List F) (D e : ℕ) (β : F) : Prop :=
  ∃ (Q : F[X]) (S : Finset ℕ), Q.degree < (D : ℕ) ∧ S ⊆ oddBelow N ∧ (oddBelow N \ S).card ≤ e ∧
    (∀ j ∈ S, ∃ a b, W[j]? = some a ∧ W[j + N]? = some b ∧ foldAt (g ^ j) a b β = Q.eval (g ^ (2 * j))) ∧
    ¬ ∃ P : F[X], P.degree < (2 * D : ℕ) ∧ AgreesOnPairs g N W S P

/-- Luck with a FRI run on the domain of size `2^n` generated by `ω`, with at most `E` unanswered positions: some round's challenge (the one encoded in the round's root) is lucky for the round's word. -/
def FriRun.LuckyWithin [DecidableEq F] [StarkField F] (run : FriRun F) (ω : F) (n E : ℕ) : Prop :=
  ∃ r root β, run.roots[r]? = some root ∧ encodeRootIntoChallenge root = .ok β ∧
    LuckyFold (ω ^ 2 ^ r) (2 ^ (n - (r + 1))) (run.words r) (run.fin.length * 2 ^ (run.roots.length - (r + 1))) (E / 2 ^ (r + 1)) β

end Hodor.Spec

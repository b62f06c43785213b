import Verif.Lemmas.Fri
import Verif.Lemmas.LdeExact

/-! # The FRI prover through coefficients, for every word and every worker -/

namespace Hodor

open Polynomial Finset

variable {F : Type} [Field F]

/-- The first `m` coefficients of `p`. -/
noncomputable def truncPoly (m : ℕ) (p : F[X]) : F[X] := ∑ i ∈ range m, monomial i (p.coeff i)

theorem coeff_truncPoly (m : ℕ) (p : F[X]) (i : ℕ) : (truncPoly m p).coeff i = if i < m then p.coeff i else 0 := by
  unfold truncPoly
  rw [finset_sum_coeff]
  simp only [coeff_monomial]
  rw [Finset.sum_ite_eq' (range m) i (fun j => p.coeff j)]
  simp

theorem degree_truncPoly (m : ℕ) (p : F[X]) : (truncPoly m p).degree < (m : ℕ) := by
  rw [degree_lt_iff_coeff_zero]
  intro i hi
  rw [coeff_truncPoly, if_neg (by omega)]

theorem truncPoly_of_degree {m : ℕ} {p : F[X]} (h : p.degree < (m : ℕ)) : truncPoly m p = p := by
  ext i
  rw [coeff_truncPoly]
  split
  · rfl
  · rw [degree_lt_iff_coeff_zero] at h
    exact (h i (by omega)).symm

variable [DecidableEq F] [StarkField F] (H : List UInt8 → Digest)

/-- Values of `p` at the points the code uses for the LDE by `2^f` into the domain of size `2^m`. -/
def ldeVals (w : Worker) (f m : ℕ) (p : F[X]) (j : ℕ) : F := p.eval (genOf F m ^ ldeExp w f j)

/-- Folded polynomial and root of layer `i` of the prover through coefficients, started on the codeword of `p`. -/
noncomputable def coLayer (w : Worker) (n f : ℕ) (p : F[X]) : ℕ → F[X] × Digest
  | 0 => (truncPoly (2 ^ (n - f)) p, rootOf H n (friVals n p))
  | i + 1 =>
    let q := foldPoly (challengeOf F (coLayer w n f p i).2) (coLayer w n f p i).1
    (q, rootOf H (n - (i + 1)) (ldeVals w f (n - (i + 1)) q))

/-- Challenge of layer `i`. -/
noncomputable def coBeta (w : Worker) (n f : ℕ) (p : F[X]) (i : ℕ) : F := challengeOf F (coLayer H w n f p i).2

/-- Polynomial of layer `i`. -/
noncomputable def coPoly (w : Worker) (n f : ℕ) (p : F[X]) (i : ℕ) : F[X] := (coLayer H w n f p i).1

theorem coPoly_succ (w : Worker) (n f : ℕ) (p : F[X]) (i : ℕ) :
    coPoly H w n f p (i + 1) = foldPoly (coBeta H w n f p i) (coPoly H w n f p i) := rfl

theorem coPoly_degree (w : Worker) (n f : ℕ) (p : F[X]) :
    ∀ i, i ≤ n - f → (coPoly H w n f p i).degree < (2 ^ (n - f - i) : ℕ) := by
  intro i
  induction i with
  | zero => intro _; exact degree_truncPoly _ _
  | succ i ih =>
    intro hi
    have := ih (by omega)
    rw [coPoly_succ]
    apply degree_foldPoly
    have e : 2 ^ (n - f - i) = 2 * 2 ^ (n - f - (i + 1)) := by
      rw [show n - f - i = (n - f - (i + 1)) + 1 by omega, pow_succ]; ring
    rwa [e] at this

/-- Values of layer `i`, `i ≥ 1`, as a table; layer 0 is the input. -/
noncomputable def coVals (w : Worker) (n f : ℕ) (p : F[X]) (i j : ℕ) : F :=
  if i = 0 then friVals n p j else ldeVals w f (n - i) (coPoly H w n f p i) j

noncomputable def coTree (w : Worker) (n f : ℕ) (p : F[X]) (i : ℕ) : IopTree :=
  honestTree H (coVals H w n f p i) (n - i - 1)

theorem coTree_create (w w' : Worker) (n f : ℕ) (p : F[X]) {i : ℕ} (hi : i < n) :
    IopTree.create H w' (tab (2 ^ (n - i)) (coVals H w n f p i)) = .ok (coTree H w n f p i) := by
  unfold coTree
  obtain ⟨k, hk⟩ : ∃ k, n - i = k + 1 := ⟨n - i - 1, by omega⟩
  rw [hk, create_tab, Nat.add_sub_cancel]

theorem coRoot_eq (w : Worker) (n f : ℕ) (p : F[X]) (i : ℕ) :
    rootOf H (n - i) (coVals H w n f p i) = (coLayer H w n f p i).2 := by
  cases i with
  | zero => rfl
  | succ i => rfl

theorem coTree_root (w : Worker) (n f : ℕ) (p : F[X]) {i : ℕ} (hi : i < n) :
    (coTree H w n f p i).getRoot = .ok (coLayer H w n f p i).2 := by
  rw [← coRoot_eq]
  unfold coTree rootOf
  rw [getRoot_eq]
  have : n - i - 1 + 1 = n - i := by omega
  rw [this]

theorem coTree_challenge (hc : ChallengeOk F) (w : Worker) (n f : ℕ) (p : F[X]) {i : ℕ} (hi : i < n) :
    ((coTree H w n f p i).getChallengeScalarFromRoot : Res F) = .ok (coBeta H w n f p i) := by
  unfold IopTree.getChallengeScalarFromRoot
  rw [coTree_root H w n f p hi]
  simp only [Res.ok_bind, encodeRootIntoChallenge]
  exact interpretHash_ok hc _

/-- State after `i` steps. -/
noncomputable def coState (w : Worker) (n f : ℕ) (p : F[X]) (i : ℕ) : FriState F :=
  { commitments := tab i (fun t => coTree H w n f p (t + 1))
    values := tab i (fun t => mkPoly .values (n - (t + 1)) (coVals H w n f p (t + 1)))
    challenges := tab (i + 1) (coBeta H w n f p)
    roots := tab i (fun t => (coLayer H w n f p (t + 1)).2)
    nextChallenge := coBeta H w n f p i
    nextSize := 2 ^ (n - f - i) / 2
    current := tab (2 ^ (n - f - i)) (coPoly H w n f p i).coeff }

theorem friStepCoeffs_co (hc : ChallengeOk F) (w : Worker) {n f : ℕ} (hn : n ≤ StarkField.S F) (h32 : n - f ≤ 32)
    (p : F[X]) {i : ℕ} (hi : i + 1 < n) (hif : i + 1 ≤ n - f) :
    friStepCoeffs H w (2 ^ f) (coState H w n f p i) = .ok (coState H w n f p (i + 1)) := by
  obtain ⟨m, hm⟩ : ∃ m, n - f - i = m + 1 := ⟨n - f - i - 1, by omega⟩
  have hm' : n - f - (i + 1) = m := by omega
  have hp1 : 2 ^ (m + 1) = 2 * 2 ^ m := by ring
  have hd : 2 ^ (m + 1) / 2 = 2 ^ m := by omega
  unfold friStepCoeffs coState
  simp only [hm, hm', length_tab, hd]
  rw [show 2 ^ m * 2 = 2 ^ (m + 1) by ring]
  simp only [decide_true, Res.assert_true, Res.ok_bind]
  have hnext : friNextCoeffs w (tab (2 ^ (m + 1)) (coPoly H w n f p i).coeff) (2 ^ m) (coBeta H w n f p i)
      = tab (2 ^ m) (coPoly H w n f p (i + 1)).coeff := by
    rw [hp1, friNextCoeffs_tab]
    apply tab_congr
    intro j _
    rw [coPoly_succ, coeff_foldPoly]; ring
  have hmf : m + f = n - (i + 1) := by omega
  have hdeg := coPoly_degree H w n f p (i + 1) hif
  rw [hm'] at hdeg
  simp only [hnext]
  rw [fromCoeffs_pow (by omega)]
  simp only [Res.ok_bind]
  have hv : mkPoly .values (m + f) (fun idx => evalF (2 ^ m) (coPoly H w n f p (i + 1)).coeff (genOf F (m + f) ^ ldeExp w f idx))
      = mkPoly .values (n - (i + 1)) (coVals H w n f p (i + 1)) := by
    rw [hmf]
    apply mkPoly_congr
    intro j _
    rw [evalF_coeff hdeg]
    unfold coVals
    rw [if_neg (by omega)]
    rfl
  rw [lde_exact w (by omega) (by omega), hv]
  simp only [Res.ok_bind, mkPoly_coeffs]
  rw [coTree_create H w w n f p (i := i + 1) (by omega)]
  simp only [Res.ok_bind]
  rw [coTree_root H w n f p (by omega), coTree_challenge H hc w n f p (by omega)]
  simp only [Res.ok_bind, Res.pure_def, tab_succ]

/-- What the prover through coefficients returns. -/
noncomputable def coPrototype (w : Worker) (n f o : ℕ) (p : F[X]) : FriPrototype F :=
  let k := n - f - o
  { l0Commitment := coTree H w n f p 0
    intermediateCommitments := tab k (fun t => coTree H w n f p (t + 1))
    intermediateValues := tab k (fun t => mkPoly .values (n - (t + 1)) (coVals H w n f p (t + 1)))
    challenges := tab k (coBeta H w n f p)
    finalRoot := (coLayer H w n f p k).2
    finalCoefficients := tab (2 ^ o) (coPoly H w n f p k).coeff
    initialDegreePlusOne := 2 ^ (n - f)
    outputCoeffsAtDegreePlusOne := 2 ^ o
    ldeFactor := 2 ^ f }

theorem friProofThroughCoefficients_co (hc : ChallengeOk F) (w : Worker) {n f o : ℕ} (hn : n ≤ StarkField.S F)
    (hfo : f + o < n) (h1 : 1 ≤ f + o) (h32 : n < 32) {p : F[X]} (hp : p.degree < (2 ^ n : ℕ)) :
    friProofThroughCoefficients H w (mkPoly .values n (friVals n p)) (2 ^ f) (2 ^ o)
      = .ok (coPrototype H w n f o p) := by
  unfold friProofThroughCoefficients
  simp only [mkPoly_coeffs, mkPoly_size, isPow2_pow, Res.assert_true]
  have hcr := coTree_create H w w n f p (i := 0) (by omega)
  have hv0 : coVals H w n f p 0 = friVals n p := rfl
  rw [hv0] at hcr
  simp only [Nat.sub_zero] at hcr
  rw [hcr]
  simp only [Res.ok_bind, log2Floor_steps hfo.le, coTree_challenge H hc w n f p (i := 0) (by omega),
    friVals_ifft w hn h32 hp]
  obtain ⟨k, hk⟩ : ∃ k, n - f - o = k + 1 := ⟨n - f - o - 1, by omega⟩
  have hdf : 2 ^ n / 2 ^ f = 2 ^ (n - f) := Nat.pow_div (by omega) (by norm_num)
  have hmin : min (2 ^ (n - f)) (2 ^ n) = 2 ^ (n - f) :=
    min_eq_left (Nat.pow_le_pow_right (by norm_num) (by omega))
  simp only [mkPoly_coeffs, take_tab, hdf, hmin, length_tab]
  have loop := forN_eq (fun i => coState H w n f p i)
    (fun _ s => friStepCoeffs H w (2 ^ f) s) (n - f - o) 0
    (fun i _ hi => friStepCoeffs_co H hc w hn (by omega) p (by omega) (by omega))
  have htr : tab (2 ^ (n - f)) p.coeff = tab (2 ^ (n - f)) (coPoly H w n f p 0).coeff := by
    apply tab_congr
    intro j hj
    unfold coPoly coLayer
    simp only [coeff_truncPoly, hj, if_true]
  have hst : coState H w n f p 0
      = { commitments := [], values := [], challenges := [coBeta H w n f p 0], roots := [],
          nextChallenge := coBeta H w n f p 0, nextSize := 2 ^ (n - f) / 2, current := tab (2 ^ (n - f)) p.coeff } := by
    rw [htr]; rfl
  rw [hst] at loop
  rw [loop]
  simp only [Res.ok_bind, Nat.zero_add]
  have hm : n - f - (n - f - o) = o := by omega
  unfold coState
  rw [hm]
  simp only [dropLast_tab, length_tab, decide_true, Res.assert_true, Res.ok_bind]
  rw [hk, getLast?_tab]
  simp only [Res.expect_some, Res.ok_bind, Res.pure_def]
  unfold coPrototype
  simp only [hk]

end Hodor

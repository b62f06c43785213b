import Verif.Model.Fri
import Verif.Spec.Fri
import Verif.Lemmas.Merkle
import Verif.Lemmas.Challenge
import Verif.Lemmas.Valid
import Verif.Lemmas.Poly3
import Mathlib.Algebra.Polynomial.Expand
import Mathlib.Algebra.Polynomial.Inductions
import Mathlib.Tactic.FieldSimp

/-! # Folding lemmas and closed forms of the FRI provers -/

namespace Hodor

open Polynomial

section fold
variable {F : Type} [Field F]

/-- Even and odd parts. -/
noncomputable def evenP (p : F[X]) : F[X] := contract 2 p
noncomputable def oddP (p : F[X]) : F[X] := contract 2 p.divX

noncomputable def foldPoly (β : F) (p : F[X]) : F[X] := evenP p + C β * oddP p

theorem coeff_evenP (p : F[X]) (i : ℕ) : (evenP p).coeff i = p.coeff (2 * i) := by
  unfold evenP; rw [coeff_contract (by norm_num), mul_comm]

theorem coeff_oddP (p : F[X]) (i : ℕ) : (oddP p).coeff i = p.coeff (2 * i + 1) := by
  unfold oddP; rw [coeff_contract (by norm_num), coeff_divX, mul_comm]

theorem coeff_foldPoly (β : F) (p : F[X]) (i : ℕ) :
    (foldPoly β p).coeff i = p.coeff (2 * i) + β * p.coeff (2 * i + 1) := by
  unfold foldPoly
  rw [coeff_add, coeff_C_mul, coeff_evenP, coeff_oddP]

theorem even_odd_split (p : F[X]) : p = (evenP p).comp (X ^ 2) + X * (oddP p).comp (X ^ 2) := by
  rw [← expand_eq_comp_X_pow, ← expand_eq_comp_X_pow]
  ext n
  rw [coeff_add]
  cases n with
  | zero => simp [coeff_expand, coeff_evenP]
  | succ n =>
    rw [coeff_X_mul, coeff_expand (by norm_num), coeff_expand (by norm_num), coeff_evenP, coeff_oddP]
    by_cases h : 2 ∣ n + 1
    · have h2 : ¬ 2 ∣ n := by omega
      rw [if_pos h, if_neg h2, add_zero]; congr 1; omega
    · have h2 : 2 ∣ n := by omega
      rw [if_neg h, if_pos h2, zero_add]; congr 1; omega

theorem isFold_foldPoly (β : F) (p : F[X]) : Spec.IsFold β p (foldPoly β p) :=
  ⟨evenP p, oddP p, even_odd_split p, rfl⟩

theorem isFold_unique {β : F} {p q : F[X]} (h : Spec.IsFold β p q) : q = foldPoly β p := by
  obtain ⟨E, O, hp, hq⟩ := h
  have hc : ∀ i, p.coeff (2 * i) = E.coeff i ∧ p.coeff (2 * i + 1) = O.coeff i := by
    intro i
    rw [hp, ← expand_eq_comp_X_pow, ← expand_eq_comp_X_pow]
    constructor
    · rw [coeff_add, coeff_expand (by norm_num), if_pos (by omega)]
      have : (X * (expand F 2) O).coeff (2 * i) = 0 := by
        cases i with
        | zero => simp
        | succ i =>
          rw [show 2 * (i + 1) = (2 * i + 1) + 1 by ring, coeff_X_mul, coeff_expand (by norm_num),
            if_neg (by omega)]
      rw [this, add_zero]; congr 1; omega
    · rw [coeff_add, coeff_X_mul, coeff_expand (by norm_num), coeff_expand (by norm_num), if_neg (by omega),
        if_pos (by omega), zero_add]
      congr 1; omega
  ext i
  rw [coeff_foldPoly, (hc i).1, (hc i).2, hq, coeff_add, coeff_C_mul]

theorem degree_foldPoly {β : F} {p : F[X]} {m : ℕ} (h : p.degree < (2 * m : ℕ)) : (foldPoly β p).degree < m := by
  rw [degree_lt_iff_coeff_zero] at h ⊢
  intro i hi
  rw [coeff_foldPoly, h _ (by omega), h _ (by omega)]
  simp

theorem friFold_eval (h2 : (2 : F) ≠ 0) {x : F} (hx : x ≠ 0) (β : F) (p : F[X]) :
    friFold (p.eval x) (p.eval (-x)) x⁻¹ β (2 : F)⁻¹ = (foldPoly β p).eval (x ^ 2) := by
  have e : ∀ y : F, p.eval y = (evenP p).eval (y ^ 2) + y * (oddP p).eval (y ^ 2) := by
    intro y
    conv_lhs => rw [even_odd_split p]
    simp
  have : (-x) ^ 2 = x ^ 2 := by ring
  unfold friFold foldPoly
  rw [e x, e (-x), this, eval_add, eval_mul, eval_C]
  field_simp
  ring

end fold

variable {F : Type} [Field F] [DecidableEq F] [StarkField F] (H : List UInt8 → Digest)

/-- Value table of `p` on the domain of size `2^m`. -/
def friVals (m : ℕ) (p : F[X]) (j : ℕ) : F := p.eval (genOf F m ^ j)

/-- Merkle root over a value table of size `2^m`. -/
def rootOf (m : ℕ) (leaf : ℕ → F) : Digest := Spec.merkle H (fun i => H (encodeLeaf (leaf i))) m 0

/-- The folded polynomials `P_0 = p`, `P_{i+1} = fold β_i P_i`, `β_i` the challenge of the root over `P_i`. -/
noncomputable def friLayer (n : ℕ) (p : F[X]) : ℕ → F[X]
  | 0 => p
  | i + 1 => foldPoly (challengeOf F (rootOf H (n - i) (friVals (n - i) (friLayer n p i)))) (friLayer n p i)

/-- Root and challenge of layer `i`. -/
noncomputable def friRoot (n : ℕ) (p : F[X]) (i : ℕ) : Digest := rootOf H (n - i) (friVals (n - i) (friLayer H n p i))
noncomputable def friBeta (n : ℕ) (p : F[X]) (i : ℕ) : F := challengeOf F (friRoot H n p i)

theorem friLayer_succ (n : ℕ) (p : F[X]) (i : ℕ) :
    friLayer H n p (i + 1) = foldPoly (friBeta H n p i) (friLayer H n p i) := rfl

theorem friLayer_degree {n d : ℕ} {p : F[X]} (hp : p.degree < (2 ^ d : ℕ)) :
    ∀ i, i ≤ d → (friLayer H n p i).degree < (2 ^ (d - i) : ℕ) := by
  intro i
  induction i with
  | zero => intro _; exact hp
  | succ i ih =>
    intro hi
    have := ih (by omega)
    rw [friLayer_succ]
    apply degree_foldPoly
    have e : 2 ^ (d - i) = 2 * 2 ^ (d - (i + 1)) := by
      rw [show d - i = (d - (i + 1)) + 1 by omega, pow_succ]; ring
    rwa [e] at this

/-! ### Domain facts -/

theorem genOf_sq {m : ℕ} (h : m + 1 ≤ StarkField.S F) : genOf F (m + 1) ^ 2 = genOf F m := by
  simpa using genOf_pow (F := F) (k := m) (m := 1) h

theorem genOf_half {m : ℕ} (h : m + 1 ≤ StarkField.S F) (j : ℕ) :
    genOf F (m + 1) ^ (j + 2 ^ m) = - genOf F (m + 1) ^ j := by
  have := genOf_halfNeg (F := F) h (by omega)
  simp only [Nat.add_sub_cancel] at this
  rw [pow_add, this]; ring

/-- One fold at the pair `j`, `j + 2^m` of the domain of size `2^(m+1)`. -/
theorem friFold_domain {m : ℕ} (h : m + 1 ≤ StarkField.S F) (β : F) (p : F[X]) (j : ℕ) :
    friFold (friVals (m + 1) p j) (friVals (m + 1) p (j + 2 ^ m)) ((genOf F (m + 1))⁻¹ ^ j) β (2 : F)⁻¹
      = friVals m (foldPoly β p) j := by
  unfold friVals
  rw [genOf_half h, inv_pow, friFold_eval (two_ne_zero_of_S (by omega)) (pow_ne_zero _ (genOf_ne_zero h)),
    ← pow_mul, mul_comm j 2, pow_mul, genOf_sq h]

theorem friFold_domain' {m : ℕ} (h : m + 1 ≤ StarkField.S F) (β : F) (p : F[X]) (j : ℕ) :
    friFold (friVals (m + 1) p j) (friVals (m + 1) p (j + 2 ^ m)) ((genOf F (m + 1)) ^ j)⁻¹ β (2 : F)⁻¹
      = friVals m (foldPoly β p) j := by
  rw [← inv_pow]; exact friFold_domain h β p j

/-! ### The prover by values -/

theorem friNextValues_tab (w : Worker) (m M stride : ℕ) (v o : ℕ → F) (ch t : F)
    (hM : ∀ j, j < 2 ^ m → j * stride < M) :
    friNextValues w (tab (2 ^ (m + 1)) v) (tab M o) stride (2 ^ m) ch t
      = .ok (tab (2 ^ m) (fun j => friFold (v j) (v (j + 2 ^ m)) (o (j * stride)) ch t)) := by
  unfold friNextValues
  simp only
  have hc := w.chunkSize_pos (2 ^ m)
  generalize w.chunkSize (2 ^ m) = c at hc
  have h2 : 2 ^ (m + 1) = 2 ^ m + 2 ^ m := by rw [pow_succ]; ring
  rw [collectN_eq _ _ (fun i => tab (min c (2 ^ m - i * c)) (fun j =>
    friFold (v (i * c + j)) (v (i * c + j + 2 ^ m)) (o ((i * c + j) * stride)) ch t))]
  · simp only [Res.ok_bind, Res.pure_def]
    rw [flatten_chunks_tab hc (2 ^ m) (fun j => friFold (v j) (v (j + 2 ^ m)) (o (j * stride)) ch t)]
  · intro i _
    apply collectN_eq
    intro j hj
    unfold friNextValue
    rw [rd_tab (by omega), rd_tab (by omega), rd_tab (hM _ (by omega))]
    rfl

theorem getChallenge_honest (hc : ChallengeOk F) (leaf : ℕ → F) (k : ℕ) :
    ((honestTree H leaf k).getChallengeScalarFromRoot : Res F) = .ok (challengeOf F (rootOf H (k + 1) leaf)) := by
  unfold IopTree.getChallengeScalarFromRoot
  rw [getRoot_eq]
  simp only [Res.ok_bind, encodeRootIntoChallenge]
  exact interpretHash_ok hc _

/-- Tree over layer `i`. -/
noncomputable def friTree (n : ℕ) (p : F[X]) (i : ℕ) : IopTree :=
  honestTree H (friVals (n - i) (friLayer H n p i)) (n - i - 1)

/-- Value polynomial of layer `i`. -/
noncomputable def friPoly (n : ℕ) (p : F[X]) (i : ℕ) : Poly F .values :=
  mkPoly .values (n - i) (friVals (n - i) (friLayer H n p i))

/-- State after `i` steps of either prover, apart from `nextSize` and `current`. -/
noncomputable def friStateAt (n : ℕ) (p : F[X]) (i nextSize : ℕ) (current : List F) : FriState F :=
  { commitments := tab i (fun t => friTree H n p (t + 1))
    values := tab i (fun t => friPoly H n p (t + 1))
    challenges := tab (i + 1) (friBeta H n p)
    roots := tab i (fun t => friRoot H n p (t + 1))
    nextChallenge := friBeta H n p i
    nextSize := nextSize
    current := current }

theorem friTree_create (w : Worker) (n : ℕ) (p : F[X]) {i : ℕ} (hi : i < n) :
    IopTree.create H w (tab (2 ^ (n - i)) (friVals (n - i) (friLayer H n p i))) = .ok (friTree H n p i) := by
  unfold friTree
  obtain ⟨k, hk⟩ : ∃ k, n - i = k + 1 := ⟨n - i - 1, by omega⟩
  rw [hk, create_tab, Nat.add_sub_cancel]

theorem friTree_root (n : ℕ) (p : F[X]) {i : ℕ} (hi : i < n) :
    (friTree H n p i).getRoot = .ok (friRoot H n p i) := by
  unfold friTree friRoot rootOf
  rw [getRoot_eq]
  have : n - i - 1 + 1 = n - i := by omega
  rw [this]

theorem friTree_challenge (hc : ChallengeOk F) (n : ℕ) (p : F[X]) {i : ℕ} (hi : i < n) :
    ((friTree H n p i).getChallengeScalarFromRoot : Res F) = .ok (friBeta H n p i) := by
  unfold friTree
  rw [getChallenge_honest H hc]
  have : n - i - 1 + 1 = n - i := by omega
  rw [this]; rfl

theorem friStepValues_eq (hc : ChallengeOk F) (w : Worker) {n : ℕ} (hn : n ≤ StarkField.S F) (p : F[X]) {i : ℕ}
    (hi : i + 1 < n) :
    friStepValues H w (tab (2 ^ n / 2) (fun j => (genOf F n)⁻¹ ^ j)) (2 : F)⁻¹ i
        (friStateAt H n p i (2 ^ (n - i) / 2) (tab (2 ^ (n - i)) (friVals (n - i) (friLayer H n p i))))
      = .ok (friStateAt H n p (i + 1) (2 ^ (n - (i + 1)) / 2)
          (tab (2 ^ (n - (i + 1))) (friVals (n - (i + 1)) (friLayer H n p (i + 1))))) := by
  obtain ⟨m, hm⟩ : ∃ m, n - i = m + 1 := ⟨n - i - 1, by omega⟩
  have hm' : n - (i + 1) = m := by omega
  have hp1 : 2 ^ (m + 1) = 2 * 2 ^ m := by ring
  have hd : 2 ^ (m + 1) / 2 = 2 ^ m := by omega
  unfold friStepValues friStateAt
  simp only [hm, hm', length_tab, hd]
  rw [show 2 ^ m * 2 = 2 ^ (m + 1) by ring]
  simp only [decide_true, Res.assert_true, Res.ok_bind]
  have hN : 2 ^ n = 2 * (2 ^ m * 2 ^ i) := by
    rw [← pow_add, ← pow_succ']; congr 1; omega
  rw [friNextValues_tab]
  swap
  · intro j hj
    have : j * 2 ^ i < 2 ^ m * 2 ^ i := Nat.mul_lt_mul_of_pos_right hj (by positivity)
    omega
  have hnext : tab (2 ^ m) (fun j => friFold (friVals (m + 1) (friLayer H n p i) j)
        (friVals (m + 1) (friLayer H n p i) (j + 2 ^ m)) ((genOf F n)⁻¹ ^ (j * 2 ^ i)) (friBeta H n p i) 2⁻¹)
      = tab (2 ^ (n - (i + 1))) (friVals (n - (i + 1)) (friLayer H n p (i + 1))) := by
    rw [hm']
    apply tab_congr
    intro j _
    have hg : genOf F (m + 1) = genOf F n ^ 2 ^ i := by
      have : n = (m + 1) + i := by omega
      rw [this, genOf_pow (by omega)]
    have : (genOf F n)⁻¹ ^ (j * 2 ^ i) = (genOf F (m + 1))⁻¹ ^ j := by
      rw [hg, mul_comm, pow_mul, inv_pow]
    rw [this, friFold_domain (by omega), friLayer_succ]
  simp only [Res.ok_bind, hnext]
  rw [friTree_create H w n p (by omega)]
  simp only [Res.ok_bind]
  rw [friTree_root H n p (by omega), friTree_challenge H hc n p (by omega), fromValues_pow (by omega)]
  simp only [Res.ok_bind, Res.pure_def, mkPoly_coeffs, hm']
  unfold friPoly
  simp only [tab_succ, hm']

/-- The prototype of an honest prover. -/
noncomputable def honestPrototype (n f o : ℕ) (p : F[X]) : FriPrototype F :=
  let k := n - f - o
  { l0Commitment := friTree H n p 0
    intermediateCommitments := tab k (fun t => friTree H n p (t + 1))
    intermediateValues := tab k (fun t => friPoly H n p (t + 1))
    challenges := tab k (friBeta H n p)
    finalRoot := friRoot H n p k
    finalCoefficients := tab (2 ^ o) (friLayer H n p k).coeff
    initialDegreePlusOne := 2 ^ (n - f)
    outputCoeffsAtDegreePlusOne := 2 ^ o
    ldeFactor := 2 ^ f }

theorem getLast?_tab {α : Type} (n : ℕ) (g : ℕ → α) : (tab (n + 1) g).getLast? = some (g n) := by
  rw [tab_succ]; simp

theorem dropLast_tab {α : Type} (n : ℕ) (g : ℕ → α) : (tab (n + 1) g).dropLast = tab n g := by
  rw [tab_succ]; simp

theorem friVals_ifft (w : Worker) {m : ℕ} (hm : m ≤ StarkField.S F) (h32 : m < 32) {p : F[X]}
    (hp : p.degree < (2 ^ m : ℕ)) :
    (mkPoly .values m (friVals m p)).ifft w = .ok (mkPoly .coefficients m p.coeff) :=
  ifft_poly w hm h32 hp

theorem log2Floor_steps {n f o : ℕ} (h : f + o ≤ n) :
    log2Floor (2 ^ n / 2 ^ f / 2 ^ o) = .ok (n - f - o) := by
  rw [Nat.pow_div (by omega) (by norm_num), Nat.pow_div (by omega) (by norm_num), log2Floor_pow]

theorem friProofByValues_eq (hc : ChallengeOk F) (w : Worker) {n f o : ℕ} (hn : n ≤ StarkField.S F)
    (hfo : f + o < n) (h1 : 1 ≤ f + o) (h32 : f + o < 32) {p : F[X]} (hp : p.degree < (2 ^ n : ℕ)) :
    friProofByValues H w (mkPoly .values n (friVals n p)) (2 ^ f) (2 ^ o) = .ok (honestPrototype H n f o p) := by
  unfold friProofByValues
  have h2 : (1 + 1 : F) = 2 := by norm_num
  simp only [mkPoly_coeffs, mkPoly_size, mkPoly_omegainv, powers_par, h2,
    inverse_of_ne (two_ne_zero_of_S (F := F) (by omega)), Res.expect_some, isPow2_pow, Res.assert_true]
  have hcr := friTree_create H w n p (i := 0) (by omega)
  simp only [Nat.sub_zero, friLayer] at hcr
  rw [hcr]
  simp only [Res.ok_bind, log2Floor_steps hfo.le, friTree_challenge H hc n p (i := 0) (by omega)]
  obtain ⟨k, hk⟩ : ∃ k, n - f - o = k + 1 := ⟨n - f - o - 1, by omega⟩
  have loop := forN_eq (fun i => friStateAt H n p i (2 ^ (n - i) / 2)
      (tab (2 ^ (n - i)) (friVals (n - i) (friLayer H n p i))))
    (friStepValues H w (tab (2 ^ n / 2) (fun j => (genOf F n)⁻¹ ^ j)) (2 : F)⁻¹) (n - f - o) 0
    (fun i _ hi => friStepValues_eq H hc w hn p (by omega))
  have hst : friStateAt H n p 0 (2 ^ (n - 0) / 2) (tab (2 ^ (n - 0)) (friVals (n - 0) (friLayer H n p 0)))
      = { commitments := [], values := [], challenges := [friBeta H n p 0], roots := [],
          nextChallenge := friBeta H n p 0, nextSize := 2 ^ n / 2, current := tab (2 ^ n) (friVals n p) } := rfl
  rw [hst] at loop
  rw [loop]
  simp only [Res.ok_bind, Nat.zero_add]
  have hm : n - (n - f - o) = f + o := by omega
  unfold friStateAt
  rw [hm]
  simp only [dropLast_tab, length_tab, decide_true, Res.assert_true, Res.ok_bind]
  rw [fromValues_pow (by omega)]
  have hdeg := friLayer_degree H (n := n) hp (n - f - o) (by omega)
  rw [hm] at hdeg
  simp only [Res.ok_bind, friVals_ifft w (show f + o ≤ StarkField.S F by omega) h32 hdeg]
  rw [hk, getLast?_tab]
  simp only [Res.expect_some, Res.ok_bind, Res.pure_def, mkPoly_coeffs, take_tab]
  unfold honestPrototype
  have hmin : min (2 ^ o) (2 ^ (f + o)) = 2 ^ o :=
    min_eq_left (Nat.pow_le_pow_right (by norm_num) (by omega))
  rw [hmin, Nat.pow_div (by omega) (by norm_num)]
  simp only [hk]

/-! ### The prover through coefficients -/

omit [StarkField F] [DecidableEq F] in
theorem friNextCoeffs_tab (w : Worker) (n : ℕ) (h : ℕ → F) (ch : F) :
    friNextCoeffs w (tab (2 * n) h) n ch = tab n (fun i => h (2 * i + 1) * ch + h (2 * i)) := by
  unfold friNextCoeffs
  simp only
  have hc := w.chunkSize_pos n
  generalize w.chunkSize n = c at hc
  rw [replicate_eq_tab, chunks_tab c n, mapIdx_tab, chunks_tab (c * 2),
    ← flatten_chunks_tab hc n (fun i => h (2 * i + 1) * ch + h (2 * i))]
  congr 1
  apply tab_congr
  intro i hi
  have hlt := numChunks_lt hc hi
  rw [getElem?_tab, numChunks_double hc, if_pos hi]
  simp only [Option.map_some, Option.getD_some]
  have e : min (c * 2) (2 * n - i * (c * 2)) = 2 * min c (n - i * c) := by
    have : i * (c * 2) = 2 * (i * c) := by ring
    rw [this]; omega
  rw [e, chunks_tab, zipUpdate_tab]
  have hnc : numChunks (2 * min c (n - i * c)) 2 = min c (n - i * c) := by
    unfold numChunks; omega
  rw [hnc]
  apply tab_congr
  intro j hj
  rw [if_pos hj]
  have e2 : min 2 (2 * min c (n - i * c) - j * 2) = 2 := by omega
  rw [e2, tab_two]
  have e3 : i * (c * 2) + (j * 2 + 0) = 2 * (i * c + j) := by ring
  have e4 : i * (c * 2) + (j * 2 + 1) = 2 * (i * c + j) + 1 := by ring
  rw [e3, e4]
  rfl

theorem friStepCoeffs_eq (hc : ChallengeOk F) (w : Worker) {n f : ℕ} (hn : n ≤ StarkField.S F) (h32 : n - f ≤ 32)
    (hok : LdeOk w (2 ^ f)) {p : F[X]} (hp : p.degree < (2 ^ (n - f) : ℕ)) {i : ℕ} (hi : i + 1 < n)
    (hif : i + 1 ≤ n - f) :
    friStepCoeffs H w (2 ^ f)
        (friStateAt H n p i (2 ^ (n - f - i) / 2) (tab (2 ^ (n - f - i)) (friLayer H n p i).coeff))
      = .ok (friStateAt H n p (i + 1) (2 ^ (n - f - (i + 1)) / 2)
          (tab (2 ^ (n - f - (i + 1))) (friLayer H n p (i + 1)).coeff)) := by
  obtain ⟨m, hm⟩ : ∃ m, n - f - i = m + 1 := ⟨n - f - i - 1, by omega⟩
  have hm' : n - f - (i + 1) = m := by omega
  have hp1 : 2 ^ (m + 1) = 2 * 2 ^ m := by ring
  have hd : 2 ^ (m + 1) / 2 = 2 ^ m := by omega
  unfold friStepCoeffs friStateAt
  simp only [hm, hm', length_tab, hd]
  rw [show 2 ^ m * 2 = 2 ^ (m + 1) by ring]
  simp only [decide_true, Res.assert_true, Res.ok_bind]
  have hnext : friNextCoeffs w (tab (2 ^ (m + 1)) (friLayer H n p i).coeff) (2 ^ m) (friBeta H n p i)
      = tab (2 ^ m) (friLayer H n p (i + 1)).coeff := by
    rw [hp1, friNextCoeffs_tab]
    apply tab_congr
    intro j _
    rw [friLayer_succ, coeff_foldPoly]; ring
  have hmf : m + f = n - (i + 1) := by omega
  have hdeg := friLayer_degree H (n := n) hp (i + 1) hif
  rw [hm'] at hdeg
  simp only [hnext]
  rw [fromCoeffs_pow (by omega)]
  simp only [Res.ok_bind]
  rw [lde_poly w (by omega) (by omega) hok hdeg, hmf]
  simp only [Res.ok_bind, mkPoly_coeffs]
  have hcr := friTree_create H w n p (i := i + 1) (by omega)
  unfold friVals at hcr
  rw [hcr]
  simp only [Res.ok_bind]
  rw [friTree_root H n p (by omega), friTree_challenge H hc n p (by omega)]
  simp only [Res.ok_bind, Res.pure_def]
  unfold friPoly friVals
  simp only [tab_succ]

theorem friProofThroughCoefficients_eq (hc : ChallengeOk F) (w : Worker) {n f o : ℕ} (hn : n ≤ StarkField.S F)
    (hfo : f + o < n) (h1 : 1 ≤ f + o) (h32 : n < 32) (hok : LdeOk w (2 ^ f)) {p : F[X]}
    (hp : p.degree < (2 ^ (n - f) : ℕ)) :
    friProofThroughCoefficients H w (mkPoly .values n (friVals n p)) (2 ^ f) (2 ^ o)
      = .ok (honestPrototype H n f o p) := by
  have hpn : p.degree < (2 ^ n : ℕ) := lt_of_lt_of_le hp
    (by exact_mod_cast Nat.pow_le_pow_right (by norm_num) (by omega))
  unfold friProofThroughCoefficients
  simp only [mkPoly_coeffs, mkPoly_size, isPow2_pow, Res.assert_true]
  have hcr := friTree_create H w n p (i := 0) (by omega)
  simp only [Nat.sub_zero, friLayer] at hcr
  rw [hcr]
  simp only [Res.ok_bind, log2Floor_steps hfo.le, friTree_challenge H hc n p (i := 0) (by omega),
    friVals_ifft w hn h32 hpn]
  obtain ⟨k, hk⟩ : ∃ k, n - f - o = k + 1 := ⟨n - f - o - 1, by omega⟩
  have hdf : 2 ^ n / 2 ^ f = 2 ^ (n - f) := Nat.pow_div (by omega) (by norm_num)
  have hmin : min (2 ^ (n - f)) (2 ^ n) = 2 ^ (n - f) :=
    min_eq_left (Nat.pow_le_pow_right (by norm_num) (by omega))
  simp only [mkPoly_coeffs, take_tab, hdf, hmin, length_tab]
  have loop := forN_eq (fun i => friStateAt H n p i (2 ^ (n - f - i) / 2)
      (tab (2 ^ (n - f - i)) (friLayer H n p i).coeff))
    (fun _ s => friStepCoeffs H w (2 ^ f) s) (n - f - o) 0
    (fun i _ hi => friStepCoeffs_eq H hc w hn (by omega) hok hp (by omega) (by omega))
  have hst : friStateAt H n p 0 (2 ^ (n - f - 0) / 2) (tab (2 ^ (n - f - 0)) (friLayer H n p 0).coeff)
      = { commitments := [], values := [], challenges := [friBeta H n p 0], roots := [],
          nextChallenge := friBeta H n p 0, nextSize := 2 ^ (n - f) / 2, current := tab (2 ^ (n - f)) p.coeff } := rfl
  rw [hst] at loop
  rw [loop]
  simp only [Res.ok_bind, Nat.zero_add]
  have hm : n - f - (n - f - o) = o := by omega
  unfold friStateAt
  rw [hm]
  simp only [dropLast_tab, length_tab, decide_true, Res.assert_true, Res.ok_bind]
  rw [hk, getLast?_tab]
  simp only [Res.expect_some, Res.ok_bind, Res.pure_def]
  unfold honestPrototype
  simp only [hk]

end Hodor

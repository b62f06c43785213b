import Verif.Lemmas.FriCoeffs
import Verif.Lemmas.SoundV
import Verif.Props.Fri
import Verif.Props.LdeExact

/-!
# C25: what the prover through coefficients returns for every word and worker, and exactly when the two provers agree
-/

namespace Hodor

open Polynomial Finset

variable {F : Type} [Field F] [DecidableEq F] [StarkField F] (H : List UInt8 → Digest)

/-- What the prover through coefficients returns for the word `v`, whose interpolant is `p`, on a domain of size `2^n`, for factor `2^f` and
`2^o` final coefficients: `P 0` is `p` without its coefficients from `2^(n-f)` on, `P (i+1)` the fold of `P i`. -/
structure Spec.FriThroughCoefficients (w : Worker) (n f o : ℕ) (v : List F) (p : F[X]) (P : ℕ → F[X]) (proto : FriPrototype F) : Prop where
  /-- the input is the codeword of `p` -/
  input : ∃ d, Domain.newForSize F (2 ^ n) = .ok d ∧ Spec.Codeword p d.generator (2 ^ n) v
  /-- higher coefficients of the input are dropped -/
  cut : ∀ i, (P 0).coeff i = if i < 2 ^ (n - f) then p.coeff i else 0
  /-- the input, not its cut, is committed in the first tree -/
  l0 : IopTree.create H w v = .ok proto.l0Commitment
  /-- number of layers and challenges -/
  steps : proto.intermediateCommitments.length = n - f - o ∧ proto.intermediateValues.length = n - f - o ∧
    proto.challenges.length = n - f - o
  /-- challenge `i` comes from the root over layer `i`, and `P (i+1)` is the fold of `P i` by it -/
  challenge : ∀ i, i < n - f - o → ∃ tree root β,
    (proto.l0Commitment :: proto.intermediateCommitments)[i]? = some tree ∧ tree.getRoot = .ok root ∧
    encodeRootIntoChallenge root = .ok β ∧ proto.challenges[i]? = some β ∧ Spec.IsFold β (P i) (P (i + 1))
  /-- layer `i+1` has at index `j` the value of `P (i+1)` at the point with index `ldePoint j`, and it is committed -/
  layer : ∀ i, i < n - f - o → ∃ q tree d, proto.intermediateValues[i]? = some q ∧
    Domain.newForSize F (2 ^ (n - (i + 1))) = .ok d ∧ q.coeffs.length = 2 ^ (n - (i + 1)) ∧
    (∀ j, j < 2 ^ (n - (i + 1)) →
      q.coeffs[j]? = some ((P (i + 1)).eval (d.generator ^ Spec.ldePoint (w.chunkSize (2 ^ f)) (2 ^ f) j))) ∧
    proto.intermediateCommitments[i]? = some tree ∧ IopTree.create H w q.coeffs = .ok tree
  /-- the final coefficients are those of the last fold -/
  final : proto.finalCoefficients.length = 2 ^ o ∧ (P (n - f - o)).degree < (2 ^ o : ℕ) ∧
    ∀ i, i < 2 ^ o → proto.finalCoefficients[i]? = some ((P (n - f - o)).coeff i)
  /-- the final root is the root over the last layer -/
  finalRoot : ∃ tree, (proto.l0Commitment :: proto.intermediateCommitments)[n - f - o]? = some tree ∧
    tree.getRoot = .ok proto.finalRoot
  /-- parameters -/
  params : proto.initialDegreePlusOne = 2 ^ (n - f) ∧ proto.ldeFactor = 2 ^ f ∧
    proto.outputCoeffsAtDegreePlusOne = 2 ^ o

theorem coTree_list (w : Worker) {n f k : ℕ} (p : F[X]) {i : ℕ} (hi : i < k + 1) :
    (coTree H w n f p 0 :: tab k (fun t => coTree H w n f p (t + 1)))[i]? = some (coTree H w n f p i) := by
  have e' : coTree H w n f p 0 :: tab k (fun t => coTree H w n f p (t + 1)) = tab (k + 1) (fun t => coTree H w n f p t) := by
    rw [tab_succ']
  rw [e', getElem?_tab, if_pos hi]

/-- **C25 (exactly).** For every word of size `2^n`, of any degree, every worker, factor `2^f` and number of final coefficients `2^o` with at least one
folding step, the prover through coefficients returns the prototype described by `Spec.FriThroughCoefficients`. -/
theorem C25_coefficients_exact (hc : ChallengeOk F) (w : Worker) (v : Poly F .values) (hv : v.Valid) (n f o : ℕ)
    (hl : v.size = 2 ^ n) (hfo : f + o < n) (h1 : 1 ≤ f + o) (h32 : n < 32) :
    ∃ (proto : FriPrototype F) (p : F[X]) (P : ℕ → F[X]), friProofThroughCoefficients H w v (2 ^ f) (2 ^ o) = .ok proto ∧
      p.degree < (2 ^ n : ℕ) ∧ Spec.FriThroughCoefficients H w n f o v.coeffs p P proto := by
  obtain ⟨hn, p, hp, rfl⟩ := exists_friVals hv hl
  refine ⟨_, p, coPoly H w n f p, friProofThroughCoefficients_co H hc w hn hfo h1 h32 hp, hp, ?_⟩
  constructor
  · exact ⟨_, newForSize_pow hn, codeword_friVals p⟩
  · exact coeff_truncPoly _ _
  · exact coTree_create H w w n f p (i := 0) (by omega)
  · simp [coPrototype]
  · intro i hi
    refine ⟨_, _, _, coTree_list H w p (by omega), coTree_root H w n f p (by omega), interpretHash_ok hc _, ?_, ?_⟩
    · simp only [coPrototype, getElem?_tab, hi, if_true]; rfl
    · exact isFold_foldPoly _ _
  · intro i hi
    refine ⟨mkPoly .values (n - (i + 1)) (coVals H w n f p (i + 1)), coTree H w n f p (i + 1), _, ?_, newForSize_pow (by omega), ?_, ?_, ?_, ?_⟩
    · simp only [coPrototype, getElem?_tab, hi, if_true]
    · simp
    · intro j hj
      rw [mkPoly_coeffs, getElem?_tab, if_pos hj]
      rfl
    · simp only [coPrototype, getElem?_tab, hi, if_true]
    · exact coTree_create H w w n f p (by omega)
  · refine ⟨by simp [coPrototype], ?_, fun i hi => ?_⟩
    · have := coPoly_degree H w n f p (n - f - o) (by omega)
      rwa [show n - f - (n - f - o) = o by omega] at this
    · simp only [coPrototype, getElem?_tab, hi, if_true]
  · exact ⟨_, coTree_list H w p (by omega), coTree_root H w n f p (by omega)⟩
  · exact ⟨rfl, rfl, rfl⟩

theorem honestTree_congr {m : ℕ} {g h : ℕ → F} (e : ∀ j, j < 2 ^ (m + 1) → g j = h j) : honestTree H g m = honestTree H h m := by
  have h1 := create_tab H ⟨1, by norm_num⟩ m g
  have h2 := create_tab H ⟨1, by norm_num⟩ m h
  rw [tab_congr e] at h1
  rw [h1] at h2
  exact Res.ok.inj h2

theorem rootOf_congr {m : ℕ} (hm : 1 ≤ m) {g h : ℕ → F} (e : ∀ j, j < 2 ^ m → g j = h j) : rootOf H m g = rootOf H m h := by
  obtain ⟨k, rfl⟩ : ∃ k, m = k + 1 := ⟨m - 1, by omega⟩
  have h1 := getRoot_eq H k g
  have h2 := getRoot_eq H k h
  rw [honestTree_congr H e, h2] at h1
  exact (Res.ok.inj h1).symm

/-- If the first folds agree and the code's LDE points do not matter for the layers, the two prototypes are equal. -/
theorem coPrototype_eq (w : Worker) {n f o : ℕ} (hfo : f + o < n) (h1 : 1 ≤ f + o) {p : F[X]}
    (h0 : foldPoly (friBeta H n p 0) (truncPoly (2 ^ (n - f)) p) = foldPoly (friBeta H n p 0) p)
    (hv : ∀ i, 1 ≤ i → i ≤ n - f - o → ∀ q : F[X], q.degree < (2 ^ (n - f - i) : ℕ) →
      ∀ j, j < 2 ^ (n - i) → ldeVals w f (n - i) q j = friVals (n - i) q j) :
    coPrototype H w n f o p = honestPrototype H n f o p := by
  have key : ∀ i, i ≤ n - f - o → (coLayer H w n f p i).2 = friRoot H n p i ∧ (1 ≤ i → coPoly H w n f p i = friLayer H n p i) := by
    intro i
    induction i with
    | zero => exact fun _ => ⟨rfl, fun h => absurd h (by norm_num)⟩
    | succ i ih =>
      intro hi
      obtain ⟨ih1, ih2⟩ := ih (by omega)
      have hβ : coBeta H w n f p i = friBeta H n p i := by unfold coBeta friBeta; rw [ih1]
      have hp : coPoly H w n f p (i + 1) = friLayer H n p (i + 1) := by
        rw [coPoly_succ, friLayer_succ, hβ]
        rcases Nat.eq_zero_or_pos i with h | h
        · subst h; exact h0
        · rw [ih2 h]
      refine ⟨?_, fun _ => hp⟩
      have hd := coPoly_degree H w n f p (i + 1) (by omega)
      unfold friRoot
      rw [← hp, ← coRoot_eq]
      apply rootOf_congr H (by omega)
      intro j hj
      exact hv (i + 1) (by omega) hi _ hd j hj
  have hval : ∀ i, i ≤ n - f - o → ∀ j, j < 2 ^ (n - i) → coVals H w n f p i j = friVals (n - i) (friLayer H n p i) j := by
    intro i hi j hj
    rcases Nat.eq_zero_or_pos i with h | h
    · subst h; rfl
    · unfold coVals
      rw [if_neg (by omega), ← (key i hi).2 h]
      exact hv i h hi _ (coPoly_degree H w n f p i (by omega)) j hj
  have htree : ∀ i, i ≤ n - f - o → coTree H w n f p i = friTree H n p i := by
    intro i hi
    unfold coTree friTree
    apply honestTree_congr
    intro j hj
    exact hval i hi j (by rwa [show n - i - 1 + 1 = n - i by omega] at hj)
  have hlast : coPoly H w n f p (n - f - o) = friLayer H n p (n - f - o) := (key _ (le_refl _)).2 (by omega)
  unfold coPrototype honestPrototype
  simp only
  rw [htree 0 (by omega), (key _ (le_refl _)).1, hlast]
  congr 1
  · exact tab_congr fun t ht => htree (t + 1) (by omega)
  · exact tab_congr fun t ht => mkPoly_congr (hval (t + 1) (by omega))
  · apply tab_congr
    intro t ht
    unfold coBeta friBeta
    rw [(key t (by omega)).1]

theorem ldeVals_of_ok {w : Worker} {f : ℕ} (h : LdeOk w (2 ^ f)) (m : ℕ) (q : F[X]) (j : ℕ) : ldeVals w f m q j = friVals m q j := by
  unfold ldeVals friVals
  rw [ldeExp_of_ok h]

theorem ldeVals_of_const {w : Worker} {f m : ℕ} {q : F[X]} (hq : q.degree < (1 : ℕ)) (j : ℕ) : ldeVals w f m q j = friVals m q j := by
  have : q = C (q.coeff 0) := eq_C_of_degree_le_zero (degree_le_of_natDegree_le (by
    rcases eq_or_ne q 0 with h0 | h0
    · simp [h0]
    · have := (natDegree_lt_iff_degree_lt h0).2 hq
      omega))
  unfold ldeVals friVals
  rw [this, eval_C, eval_C]

/-- **C25 (exactly when, codewords).** For given sizes and a given worker, the two provers return the same for all codewords of the declared degree if and only if the declared degree bound is 2, the
worker has one CPU, or the factor is below twice the number of CPUs. -/
theorem C25_agree_iff (hc : ChallengeOk F) (w : Worker) (n f o : ℕ) (hn : n ≤ StarkField.S F)
    (hfo : f + o < n) (h1 : 1 ≤ f + o) (h32 : n < 32) :
    (∀ (v : Poly F .values) (p : F[X]) (d : Domain F), v.Valid → Domain.newForSize F (2 ^ n) = .ok d →
        Spec.Codeword p d.generator (2 ^ n) v.coeffs → p.degree < (2 ^ (n - f) : ℕ) →
        friProofThroughCoefficients H w v (2 ^ f) (2 ^ o) = friProofByValues H w v (2 ^ f) (2 ^ o)) ↔
      2 ^ (n - f) = 2 ∨ w.cpus = 1 ∨ 2 ^ f < 2 * w.cpus := by
  have hle : ∀ p : F[X], p.degree < (2 ^ (n - f) : ℕ) → p.degree < (2 ^ n : ℕ) := fun p hp => lt_of_lt_of_le hp
    (by exact_mod_cast Nat.pow_le_pow_right (by norm_num) (by omega))
  constructor
  · intro h
    by_contra hcon
    rw [not_or] at hcon
    obtain ⟨h2, hok⟩ := hcon
    have hnf : 2 ≤ n - f := by
      by_contra hlt
      have : n - f = 1 := by omega
      rw [this] at h2
      exact h2 rfl
    obtain ⟨c, hc2, hcf, hexp⟩ := ldeExp_wrong (w := w) (f := f) hok
    have h4 : 4 ≤ 2 ^ (n - f) := by
      calc 4 = 2 ^ 2 := rfl
        _ ≤ 2 ^ (n - f) := Nat.pow_le_pow_right (by norm_num) hnf
    have hX : (X ^ 2 : F[X]).degree < (2 ^ (n - f) : ℕ) := by
      rw [degree_X_pow]
      exact_mod_cast (by omega : 2 < 2 ^ (n - f))
    have hv : (mkPoly .values n (friVals n (X ^ 2 : F[X]))).Valid := valid_mkPoly _ hn _
    have := h _ (X ^ 2) _ hv (newForSize_pow hn) (codeword_friVals _) hX
    rw [friProofThroughCoefficients_co H hc w hn hfo h1 h32 (hle _ hX),
      friProofByValues_eq H hc w hn hfo h1 (by omega) (hle _ hX)] at this
    have hiv := congrArg FriPrototype.intermediateValues (Res.ok.inj this)
    simp only [coPrototype, honestPrototype] at hiv
    have h00 := tab_inj.1 hiv 0 (by omega)
    have hfold : ∀ β : F, foldPoly β (X ^ 2 : F[X]) = X := by
      intro β
      ext i
      rw [coeff_foldPoly, coeff_X_pow, coeff_X_pow, coeff_X, if_neg (by omega : ¬ 2 * i + 1 = 2)]
      by_cases hi : 1 = i
      · subst hi; simp
      · rw [if_neg (by omega), if_neg hi]; simp
    have hcn : c < 2 ^ (n - 1) := lt_of_lt_of_le hcf (Nat.pow_le_pow_right (by norm_num) (by omega))
    have hval := mkPoly_inj.1 h00 c hcn
    rw [coVals, if_neg (by omega), coPoly_succ, friLayer_succ, ldeVals, friVals] at hval
    have e0 : coPoly H w n f (X ^ 2 : F[X]) 0 = X ^ 2 := truncPoly_of_degree hX
    have e1 : friLayer H n (X ^ 2 : F[X]) 0 = X ^ 2 := rfl
    rw [e0, e1, hfold, hfold, eval_X, eval_X, hexp] at hval
    have := (genOf_prim (F := F) (k := n - 1) (by omega)).pow_inj (by omega) hcn hval
    omega
  · intro h v p d hv hd hcode hp
    obtain ⟨-, rfl⟩ := eq_mk_of_codeword hv hd hcode
    rw [friProofThroughCoefficients_co H hc w hn hfo h1 h32 (hle _ hp), friProofByValues_eq H hc w hn hfo h1 (by omega) (hle _ hp)]
    rw [coPrototype_eq H w hfo h1]
    · rw [truncPoly_of_degree hp]
    · intro i hi1 hi2 q hq j _
      rcases h with h | h
      · have : n - f = 1 := Nat.pow_right_injective (le_refl 2) (by simpa using h)
        rw [show n - f - i = 0 by omega] at hq
        exact ldeVals_of_const (by simpa using hq) j
      · exact ldeVals_of_ok h _ _ _

/-- **C25 (exactly when, all words).** On a worker for which `lde` is right, the two provers return the same for a word, of any degree, if and only if the first fold of the coefficients that the prover
through coefficients drops is zero; `β` is the first challenge. -/
theorem C25_any_word_iff (hc : ChallengeOk F) (w : Worker) (v : Poly F .values) (hv : v.Valid) (n f o : ℕ)
    (hfo : f + o < n) (h1 : 1 ≤ f + o) (h32 : n < 32) (hw : w.cpus = 1 ∨ 2 ^ f < 2 * w.cpus)
    (p : F[X]) (hp : p.degree < (2 ^ n : ℕ)) (d : Domain F) (hd : Domain.newForSize F (2 ^ n) = .ok d)
    (hcode : Spec.Codeword p d.generator (2 ^ n) v.coeffs) (tree : IopTree) (root : Digest) (β : F)
    (ht : IopTree.create H w v.coeffs = .ok tree) (hr : tree.getRoot = .ok root) (hβ : encodeRootIntoChallenge root = .ok β) :
    friProofThroughCoefficients H w v (2 ^ f) (2 ^ o) = friProofByValues H w v (2 ^ f) (2 ^ o) ↔
      ∀ i, 2 ^ (n - f) ≤ 2 * i → p.coeff (2 * i) + β * p.coeff (2 * i + 1) = 0 := by
  obtain ⟨hn, rfl⟩ := eq_mk_of_codeword hv hd hcode
  have hβ' : β = friBeta H n p 0 := by
    have e1 := friTree_create H w n p (i := 0) (by omega)
    have e2 := friTree_root H n p (i := 0) (by omega)
    simp only [mkPoly_coeffs] at ht
    have : tree = friTree H n p 0 := by
      have e3 : IopTree.create H w (tab (2 ^ n) (friVals n p)) = .ok (friTree H n p 0) := e1
      rw [ht] at e3
      exact Res.ok.inj e3
    subst this
    rw [hr] at e2
    cases e2
    have := interpretHash_ok hc (friRoot H n p 0)
    unfold encodeRootIntoChallenge at hβ
    rw [this] at hβ
    exact (Res.ok.inj hβ).symm
  rw [friProofThroughCoefficients_co H hc w hn hfo h1 h32 hp, friProofByValues_eq H hc w hn hfo h1 (by omega) hp]
  have hpow : 2 ^ (n - f) = 2 * 2 ^ (n - f - 1) := by
    rw [show n - f = (n - f - 1) + 1 by omega, pow_succ, Nat.add_sub_cancel]; ring
  have hpow' : 2 ^ n = 2 * 2 ^ (n - 1) := by
    rw [show n = (n - 1) + 1 by omega, pow_succ, Nat.add_sub_cancel]; ring
  have hfold : foldPoly β (truncPoly (2 ^ (n - f)) p) = foldPoly β p ↔
      ∀ i, 2 ^ (n - f) ≤ 2 * i → p.coeff (2 * i) + β * p.coeff (2 * i + 1) = 0 := by
    constructor
    · intro e i hi
      have := congrArg (fun q => coeff q i) e
      simp only [coeff_foldPoly, coeff_truncPoly] at this
      rw [if_neg (by omega), if_neg (by omega)] at this
      rw [← this]; ring
    · intro h
      ext i
      rw [coeff_foldPoly, coeff_foldPoly, coeff_truncPoly, coeff_truncPoly]
      by_cases hi : 2 * i < 2 ^ (n - f)
      · rw [if_pos hi, if_pos (by omega)]
      · rw [if_neg hi, if_neg (by omega), h i (by omega)]; ring
  rw [← hfold]
  constructor
  · intro e
    have hiv := congrArg FriPrototype.intermediateValues (Res.ok.inj e)
    simp only [coPrototype, honestPrototype] at hiv
    have h00 := mkPoly_inj.1 (tab_inj.1 hiv 0 (by omega))
    have hd1 : (foldPoly β (truncPoly (2 ^ (n - f)) p)).degree < (2 ^ (n - 1) : ℕ) := by
      apply degree_foldPoly
      rw [← hpow']
      exact lt_of_lt_of_le (degree_truncPoly _ _) (by exact_mod_cast Nat.pow_le_pow_right (by norm_num) (by omega))
    have hd2 : (foldPoly β p).degree < (2 ^ (n - 1) : ℕ) := by
      apply degree_foldPoly
      rwa [← hpow']
    apply poly_unique (N := n - 1) (by omega) hd1 hd2
    intro j hj
    have := h00 j hj
    rw [coVals, if_neg (by omega), ldeVals_of_ok hw, coPoly_succ, friLayer_succ] at this
    rw [hβ']
    exact this
  · intro e
    rw [coPrototype_eq H w hfo h1]
    · rw [← hβ']; exact e
    · intro i _ _ q _ j _
      exact ldeVals_of_ok hw _ _ _

/-- Non-vacuity: with 32 points, factor 8 and one final coefficient the provers differ on some codeword with 2 CPUs, and agree on all of them with 1 CPU or with 8. -/
example : ChallengeOk Fr ∧ 5 ≤ StarkField.S Fr ∧
    (∃ (v : Poly Fr .values) (p : Fr[X]) (d : Domain Fr), v.Valid ∧ Domain.newForSize Fr (2 ^ 5) = .ok d ∧
      Spec.Codeword p d.generator (2 ^ 5) v.coeffs ∧ p.degree < (2 ^ (5 - 3) : ℕ) ∧
      friProofThroughCoefficients toyHash ⟨2, by norm_num⟩ v (2 ^ 3) (2 ^ 0) ≠ friProofByValues toyHash ⟨2, by norm_num⟩ v (2 ^ 3) (2 ^ 0)) ∧
    ∀ c, c = 1 ∨ c = 8 → ∀ (hc : 0 < c) (v : Poly Fr .values) (p : Fr[X]) (d : Domain Fr), v.Valid → Domain.newForSize Fr (2 ^ 5) = .ok d →
      Spec.Codeword p d.generator (2 ^ 5) v.coeffs → p.degree < (2 ^ (5 - 3) : ℕ) →
      friProofThroughCoefficients toyHash ⟨c, hc⟩ v (2 ^ 3) (2 ^ 0) = friProofByValues toyHash ⟨c, hc⟩ v (2 ^ 3) (2 ^ 0) := by
  have hch : ChallengeOk Fr := by unfold ChallengeOk; decide +kernel
  refine ⟨hch, by decide, ?_, ?_⟩
  · have := (C25_agree_iff toyHash hch ⟨2, by norm_num⟩ 5 3 0 (by decide) (by norm_num) (by norm_num) (by norm_num)).not.2 (by norm_num)
    push Not at this
    exact this
  · intro c hc' hc
    refine (C25_agree_iff toyHash hch ⟨c, hc⟩ 5 3 0 (by decide) (by norm_num) (by norm_num) (by norm_num)).2 ?_
    rcases hc' with rfl | rfl
    · right; left; rfl
    · right; right; norm_num

/-- Non-vacuity of `C25_any_word_iff`: the word of `X^4`, one above the declared degree 4 in 32 points with factor 8, is a case where the provers differ. -/
example (tree : IopTree) (root : Digest) (β : Fr)
    (ht : IopTree.create toyHash ⟨1, by norm_num⟩ (tab 32 (friVals 5 (X ^ 4 : Fr[X]))) = .ok tree) (hr : tree.getRoot = .ok root)
    (hβ : encodeRootIntoChallenge root = .ok β) :
    friProofThroughCoefficients toyHash ⟨1, by norm_num⟩ (mkPoly .values 5 (friVals 5 (X ^ 4 : Fr[X]))) (2 ^ 3) (2 ^ 0) ≠
      friProofByValues toyHash ⟨1, by norm_num⟩ (mkPoly .values 5 (friVals 5 (X ^ 4 : Fr[X]))) (2 ^ 3) (2 ^ 0) := by
  have hch : ChallengeOk Fr := by unfold ChallengeOk; decide +kernel
  have h5 : 5 ≤ StarkField.S Fr := by decide
  have hd : (X ^ 4 : Fr[X]).degree < (2 ^ 5 : ℕ) := by
    rw [degree_X_pow]; norm_num
  rw [Ne, C25_any_word_iff toyHash hch ⟨1, by norm_num⟩ _ (valid_mkPoly _ h5 _) 5 3 0 (by norm_num) (by norm_num) (by norm_num) (Or.inl rfl)
    (X ^ 4) hd _ (newForSize_pow h5) (codeword_friVals _) tree root β ht hr hβ]
  intro h
  have := h 2 (by norm_num)
  simp [coeff_X_pow] at this

end Hodor

import Verif.Lemmas.FriSound
import Verif.Props.Merkle
import Verif.Lemmas.FftKernels

/-! # C24 – C30: FRI -/

namespace Hodor

open Polynomial

variable {F : Type} [Field F] [DecidableEq F] [StarkField F] (H : List UInt8 → Digest)

/-! ### C24: the prover by values -/

/-- What C24 asks of the prototype made from a codeword of `P 0` on a domain of size `2^n`, for factor `2^f`
and `2^o` final coefficients: `P` are the successive folds. -/
structure Spec.FriHonest (w : Worker) (n f o : ℕ) (v : List F) (P : ℕ → F[X]) (proto : FriPrototype F) : Prop where
  /-- the input is the codeword of `P 0` -/
  input : ∃ d, Domain.newForSize F (2 ^ n) = .ok d ∧ Spec.Codeword (P 0) d.generator (2 ^ n) v
  /-- it is committed in the first tree -/
  l0 : IopTree.create H w v = .ok proto.l0Commitment
  /-- number of layers and challenges -/
  steps : proto.intermediateCommitments.length = n - f - o ∧ proto.intermediateValues.length = n - f - o ∧
    proto.challenges.length = n - f - o
  /-- challenge `i` comes from the root over layer `i`, and `P (i+1)` is the fold of `P i` by it -/
  challenge : ∀ i, i < n - f - o → ∃ tree root β,
    (proto.l0Commitment :: proto.intermediateCommitments)[i]? = some tree ∧ tree.getRoot = .ok root ∧
    encodeRootIntoChallenge root = .ok β ∧ proto.challenges[i]? = some β ∧ Spec.IsFold β (P i) (P (i + 1))
  /-- layer `i+1` is the codeword of `P (i+1)` on the domain of size `2^(n-(i+1))`, and it is committed -/
  layer : ∀ i, i < n - f - o → ∃ q tree d, proto.intermediateValues[i]? = some q ∧
    Domain.newForSize F (2 ^ (n - (i + 1))) = .ok d ∧ Spec.Codeword (P (i + 1)) d.generator (2 ^ (n - (i + 1))) q.coeffs ∧
    proto.intermediateCommitments[i]? = some tree ∧ IopTree.create H w q.coeffs = .ok tree
  /-- the final coefficients are the first `2^o` coefficients of the last fold -/
  final : proto.finalCoefficients.length = 2 ^ o ∧
    ∀ i, i < 2 ^ o → proto.finalCoefficients[i]? = some ((P (n - f - o)).coeff i)
  /-- the final root is the root over the last layer -/
  finalRoot : ∃ tree, (proto.l0Commitment :: proto.intermediateCommitments)[n - f - o]? = some tree ∧
    tree.getRoot = .ok proto.finalRoot
  /-- parameters -/
  params : proto.initialDegreePlusOne = 2 ^ (n - f) ∧ proto.ldeFactor = 2 ^ f ∧
    proto.outputCoeffsAtDegreePlusOne = 2 ^ o

theorem friTree_list {n k : ℕ} (p : F[X]) {i : ℕ} (hi : i < k + 1) :
    (friTree H n p 0 :: tab k (fun t => friTree H n p (t + 1)))[i]? = some (friTree H n p i) := by
  have e' : friTree H n p 0 :: tab k (fun t => friTree H n p (t + 1)) = tab (k + 1) (fun t => friTree H n p t) := by
    rw [tab_succ']
  rw [e', getElem?_tab, if_pos hi]

theorem codeword_friVals {m : ℕ} (p : F[X]) : Spec.Codeword p (genOf F m) (2 ^ m) (tab (2 ^ m) (friVals m p)) := by
  refine ⟨length_tab _ _, fun i hi => ?_⟩
  rw [getElem?_tab, if_pos hi]; rfl

theorem honestPrototype_spec (hc : ChallengeOk F) (w : Worker) {n f o : ℕ} (hn : n ≤ StarkField.S F)
    (hfo : f + o < n) (h1 : 1 ≤ f + o) (p : F[X]) :
    Spec.FriHonest H w n f o (tab (2 ^ n) (friVals n p)) (friLayer H n p) (honestPrototype H n f o p) := by
  constructor
  · exact ⟨_, newForSize_pow hn, codeword_friVals p⟩
  · have := friTree_create H w n p (i := 0) (by omega)
    exact this
  · simp [honestPrototype]
  · intro i hi
    refine ⟨_, _, _, friTree_list H p (by omega), friTree_root H n p (by omega), interpretHash_ok hc _, ?_, ?_⟩
    · simp only [honestPrototype, getElem?_tab, hi, if_true]; rfl
    · exact isFold_foldPoly _ _
  · intro i hi
    refine ⟨friPoly H n p (i + 1), friTree H n p (i + 1), _, ?_, newForSize_pow (by omega), ?_, ?_, ?_⟩
    · simp only [honestPrototype, getElem?_tab, hi, if_true]
    · exact codeword_friVals _
    · simp only [honestPrototype, getElem?_tab, hi, if_true]
    · exact friTree_create H w n p (by omega)
  · refine ⟨by simp [honestPrototype], fun i hi => ?_⟩
    simp only [honestPrototype, getElem?_tab, hi, if_true]
  · exact ⟨_, friTree_list H p (by omega), friTree_root H n p (by omega)⟩
  · exact ⟨rfl, rfl, rfl⟩

/-- Every valid value vector is the codeword of a polynomial. -/
theorem exists_friVals {v : Poly F .values} (hv : v.Valid) {n : ℕ} (hl : v.size = 2 ^ n) :
    n ≤ StarkField.S F ∧ ∃ p : F[X], p.degree < (2 ^ n : ℕ) ∧ v = mkPoly .values n (friVals n p) := by
  obtain ⟨k, g, hk, rfl⟩ := hv.exists_mk
  rw [mkPoly_size] at hl
  have : k = n := Nat.pow_right_injective (le_refl 2) hl
  subst this
  refine ⟨hk, ?_⟩
  obtain ⟨p, hp, hg⟩ := exists_poly_values (F := F) hk one_ne_zero g
  refine ⟨p, hp, mkPoly_congr fun i hi => ?_⟩
  rw [← hg i hi, one_mul]; rfl

/-- **C24.** For every codeword (of any polynomial `P 0` of degree below the domain size), factor `2^f`, number
of final coefficients `2^o` with at least one folding step, worker and hash, the by-values prover returns a
prototype whose layers are the codewords of the successive folds. If `P 0` has the declared degree, the last
fold has degree below `2^o`, so the final coefficients are all of it. -/
theorem C24_fri_by_values (hc : ChallengeOk F) (w : Worker) (v : Poly F .values) (hv : v.Valid) (n f o : ℕ)
    (hl : v.size = 2 ^ n) (hfo : f + o < n) (h1 : 1 ≤ f + o) (h32 : f + o < 32) :
    ∃ (proto : FriPrototype F) (P : ℕ → F[X]), friProofByValues H w v (2 ^ f) (2 ^ o) = .ok proto ∧
      (P 0).degree < (2 ^ n : ℕ) ∧ Spec.FriHonest H w n f o v.coeffs P proto ∧
      ((P 0).degree < (2 ^ (n - f) : ℕ) → (P (n - f - o)).degree < (2 ^ o : ℕ)) := by
  obtain ⟨hn, p, hp, rfl⟩ := exists_friVals hv hl
  refine ⟨_, friLayer H n p, friProofByValues_eq H hc w hn hfo h1 h32 hp, hp, honestPrototype_spec H hc w hn hfo h1 p, ?_⟩
  intro hd
  have := friLayer_degree H (n := n) hd (n - f - o) (by omega)
  rwa [show n - f - (n - f - o) = o by omega] at this

/-- **C24** (no folding step): when the declared degree is not above the output size the prover panics. -/
theorem C24_no_steps_panics (w : Worker) (v : Poly F .values) (hv : v.Valid) (n f o : ℕ) (hl : v.size = 2 ^ n)
    (hfo : n ≤ f + o) (hc : ChallengeOk F) : friProofByValues H w v (2 ^ f) (2 ^ o) = .panic := by
  obtain ⟨hn, p, hp, rfl⟩ := exists_friVals hv hl
  unfold friProofByValues
  rcases Nat.eq_zero_or_pos n with h0 | h0
  · subst h0
    have : IopTree.create H w (mkPoly .values 0 (friVals 0 p)).coeffs = .panic := by
      apply C18_bad_sizes
      rintro ⟨k, hk, e⟩
      simp only [mkPoly_coeffs, length_tab] at e
      have := Nat.pow_right_injective (le_refl 2) e
      omega
    rw [this]; rfl
  · have h2 : (1 + 1 : F) = 2 := by norm_num
    simp only [mkPoly_coeffs, mkPoly_size, mkPoly_omegainv, powers_par, h2,
      inverse_of_ne (two_ne_zero_of_S (F := F) (by omega)), Res.expect_some, isPow2_pow, Res.assert_true]
    have hcr := friTree_create H w n p (i := 0) (by omega)
    simp only [Nat.sub_zero, friLayer] at hcr
    rw [hcr]
    simp only [Res.ok_bind]
    rcases Nat.lt_or_ge n (f + o) with hlt | hge
    · have : 2 ^ n / 2 ^ f / 2 ^ o = 0 := by
        rw [Nat.div_div_eq_div_mul, ← pow_add]
        exact Nat.div_eq_of_lt (Nat.pow_lt_pow_right (by norm_num) hlt)
      rw [this]; rfl
    · have : n - f - o = 0 := by omega
      rw [log2Floor_steps hge, this]
      simp only [Res.ok_bind, friTree_challenge H hc n p (i := 0) (by omega), forN]
      rfl

/-- **C24** (one-point last layer): with factor 1 and one final coefficient every word is folded to a single point, of which no tree can be made: the prover panics. -/
theorem C24_single_point_panics (w : Worker) (v : Poly F .values) (hv : v.Valid) (n : ℕ) (hl : v.size = 2 ^ n)
    (hc : ChallengeOk F) : friProofByValues H w v 1 1 = .panic := by
  rcases Nat.eq_zero_or_pos n with h0 | h0
  · exact C24_no_steps_panics H w v hv n 0 0 hl (by omega) hc
  obtain ⟨hn, p, hp, rfl⟩ := exists_friVals hv hl
  unfold friProofByValues
  have h2 : (1 + 1 : F) = 2 := by norm_num
  have hp1 : isPow2 1 = true := isPow2_pow 0
  simp only [mkPoly_coeffs, mkPoly_size, mkPoly_omegainv, powers_par, h2,
    inverse_of_ne (two_ne_zero_of_S (F := F) (by omega)), Res.expect_some, hp1, Res.assert_true]
  have hcr := friTree_create H w n p (i := 0) (by omega)
  simp only [Nat.sub_zero, friLayer] at hcr
  rw [hcr]
  have hlog : log2Floor (2 ^ n / 1 / 1) = .ok n := by simpa using log2Floor_steps (n := n) (f := 0) (o := 0) (by omega)
  simp only [Res.ok_bind, hlog, friTree_challenge H hc n p (i := 0) (by omega)]
  obtain ⟨k, rfl⟩ : ∃ k, n = k + 1 := ⟨n - 1, by omega⟩
  have loop := forN_eq (fun i => friStateAt H (k + 1) p i (2 ^ (k + 1 - i) / 2)
      (tab (2 ^ (k + 1 - i)) (friVals (k + 1 - i) (friLayer H (k + 1) p i))))
    (friStepValues H w (tab (2 ^ (k + 1) / 2) (fun j => (genOf F (k + 1))⁻¹ ^ j)) (2 : F)⁻¹) k 0
    (fun i _ hi => friStepValues_eq H hc w hn p (by omega))
  have hst : friStateAt H (k + 1) p 0 (2 ^ (k + 1 - 0) / 2) (tab (2 ^ (k + 1 - 0)) (friVals (k + 1 - 0) (friLayer H (k + 1) p 0)))
      = { commitments := [], values := [], challenges := [friBeta H (k + 1) p 0], roots := [],
          nextChallenge := friBeta H (k + 1) p 0, nextSize := 2 ^ (k + 1) / 2, current := tab (2 ^ (k + 1)) (friVals (k + 1) p) } := rfl
  rw [hst] at loop
  rw [forN_succ_last, loop]
  simp only [Res.ok_bind, Nat.zero_add]
  have : friStepValues H w (tab (2 ^ (k + 1) / 2) (fun j => (genOf F (k + 1))⁻¹ ^ j)) (2 : F)⁻¹ k
      (friStateAt H (k + 1) p k (2 ^ (k + 1 - k) / 2) (tab (2 ^ (k + 1 - k)) (friVals (k + 1 - k) (friLayer H (k + 1) p k)))) = .panic := by
    unfold friStepValues friStateAt
    have e1 : k + 1 - k = 0 + 1 := by omega
    simp only [e1, length_tab, Nat.zero_add, pow_one, Nat.reduceDiv, Nat.one_mul, decide_true, Res.assert_true, Res.ok_bind]
    have hlt : 0 * 2 ^ k < 2 ^ (k + 1) / 2 := by
      have : 2 ^ (k + 1) = 2 * 2 ^ k := by ring
      have := Nat.two_pow_pos k
      omega
    have hnext := friNextValues_tab w 0 (2 ^ (k + 1) / 2) (2 ^ k) (friVals 1 (friLayer H (k + 1) p k)) (fun j => (genOf F (k + 1))⁻¹ ^ j)
      (friBeta H (k + 1) p k) (2 : F)⁻¹ (fun j hj => by
        obtain rfl : j = 0 := by simpa using hj
        exact hlt)
    simp only [Nat.zero_add, pow_one, pow_zero] at hnext
    rw [hnext]
    simp only [Res.ok_bind]
    rw [C18_bad_sizes]
    · rfl
    · rintro ⟨k', hk', e⟩
      simp only [length_tab] at e
      have : 2 ^ 1 ≤ 2 ^ k' := Nat.pow_le_pow_right (by norm_num) hk'
      omega
  rw [this]
  rfl

/-! ### C25: the two provers agree -/

/-- **C25 (part).** On every codeword of a polynomial of the declared degree the two provers return the same
prototype. Missing: workers for which `lde(factor)` itself is wrong (`C09_lde_wrong`). -/
theorem C25_provers_agree_partial (hc : ChallengeOk F) (w : Worker) (v : Poly F .values) (hv : v.Valid) (n f o : ℕ)
    (hl : v.size = 2 ^ n) (hfo : f + o < n) (h1 : 1 ≤ f + o) (h32 : n < 32)
    (hw : w.cpus = 1 ∨ 2 ^ f < 2 * w.cpus)
    (p : F[X]) (hp : p.degree < (2 ^ (n - f) : ℕ)) (d : Domain F) (hd : Domain.newForSize F (2 ^ n) = .ok d)
    (hcode : Spec.Codeword p d.generator (2 ^ n) v.coeffs) :
    ∃ proto, friProofByValues H w v (2 ^ f) (2 ^ o) = .ok proto ∧
      friProofThroughCoefficients H w v (2 ^ f) (2 ^ o) = .ok proto := by
  obtain ⟨k, g, hk, rfl⟩ := hv.exists_mk
  rw [mkPoly_size] at hl
  have : k = n := Nat.pow_right_injective (le_refl 2) hl
  subst this
  rw [newForSize_pow hk] at hd
  cases hd
  have e : mkPoly .values k g = mkPoly .values k (friVals k p) := by
    apply mkPoly_congr
    intro i hi
    have := hcode.2 i hi
    rw [mkPoly_coeffs, getElem?_tab, if_pos hi] at this
    exact Option.some.inj this
  have hpn : p.degree < (2 ^ k : ℕ) := lt_of_lt_of_le hp
    (by exact_mod_cast Nat.pow_le_pow_right (by norm_num) (by omega))
  rw [e]
  exact ⟨_, friProofByValues_eq H hc w hk hfo h1 (by omega) hpn,
    friProofThroughCoefficients_eq H hc w hk hfo h1 h32 hw hp⟩

/-! ### C26, C27: honest prototypes and proofs -/

/-- A codeword of declared degree is `mkPoly` of its value table. -/
theorem eq_mk_of_codeword {v : Poly F .values} (hv : v.Valid) {n : ℕ} {p : F[X]} {d : Domain F}
    (hd : Domain.newForSize F (2 ^ n) = .ok d) (hcode : Spec.Codeword p d.generator (2 ^ n) v.coeffs) :
    n ≤ StarkField.S F ∧ v = mkPoly .values n (friVals n p) := by
  obtain ⟨k, g, hk, rfl⟩ := hv.exists_mk
  have hl := hcode.1
  rw [mkPoly_coeffs, length_tab] at hl
  have : k = n := Nat.pow_right_injective (le_refl 2) hl
  subst this
  rw [newForSize_pow hk] at hd
  cases hd
  refine ⟨hk, mkPoly_congr fun i hi => ?_⟩
  have := hcode.2 i hi
  rw [mkPoly_coeffs, getElem?_tab, if_pos hi] at this
  exact Option.some.inj this

/-- **C26.** The prototype made from any codeword of declared degree is accepted at every odd index, for every
output size; even indices are refused with an error. -/
theorem C26_prototype_accepted (hc : ChallengeOk F) (w : Worker) (v : Poly F .values) (hv : v.Valid) (n f o : ℕ)
    (hfo : f + o < n) (h1 : 1 ≤ f + o) (h32 : f + o < 32)
    (p : F[X]) (hp : p.degree < (2 ^ (n - f) : ℕ)) (d : Domain F) (hd : Domain.newForSize F (2 ^ n) = .ok d)
    (hcode : Spec.Codeword p d.generator (2 ^ n) v.coeffs) (proto : FriPrototype F)
    (hproto : friProofByValues H w v (2 ^ f) (2 ^ o) = .ok proto) (idx : ℕ) (hidx : idx < 2 ^ n) :
    proto.verify v idx = if idx % 2 = 1 then .ok true else .err .invalidValue := by
  obtain ⟨hn, rfl⟩ := eq_mk_of_codeword hv hd hcode
  have hpn : p.degree < (2 ^ n : ℕ) := lt_of_lt_of_le hp
    (by exact_mod_cast Nat.pow_le_pow_right (by norm_num) (by omega))
  rw [friProofByValues_eq H hc w hn hfo h1 h32 hpn] at hproto
  cases hproto
  rw [verifyPrototype_honest H hn hfo hidx]
  have hdeg := friLayer_degree H (n := n) hp (n - f - o) (by omega)
  rw [show n - f - (n - f - o) = o by omega] at hdeg
  rw [evalPoly_coeff hdeg]
  simp

/-- **C27 (part).** With one final coefficient (`output_coeffs_at_degree_plus_one = 1`) the honest proof is
accepted at every odd index with the true value. Missing: larger outputs, where it is false
(`C27_output_rejected`). -/
theorem C27_proof_accepted_partial (hc : ChallengeOk F) (w : Worker) (v : Poly F .values) (hv : v.Valid) (n f : ℕ)
    (hf : f < n) (h1 : 1 ≤ f) (h32 : f < 32)
    (p : F[X]) (hp : p.degree < (2 ^ (n - f) : ℕ)) (d : Domain F) (hd : Domain.newForSize F (2 ^ n) = .ok d)
    (hcode : Spec.Codeword p d.generator (2 ^ n) v.coeffs) (idx : ℕ) (hidx : idx < 2 ^ n) (hodd : idx % 2 = 1) :
    ∃ proto proof x, friProofByValues H w v (2 ^ f) 1 = .ok proto ∧ proto.produceProof H v idx = .ok proof ∧
      v.coeffs[idx]? = some x ∧ proof.verify H idx x = .ok true := by
  obtain ⟨hn, rfl⟩ := eq_mk_of_codeword hv hd hcode
  have hpn : p.degree < (2 ^ n : ℕ) := lt_of_lt_of_le hp
    (by exact_mod_cast Nat.pow_le_pow_right (by norm_num) (by omega))
  have e1 := friProofByValues_eq H hc w (f := f) (o := 0) hn (by omega) (by omega) (by omega) hpn
  rw [pow_zero] at e1
  refine ⟨_, _, friVals n p idx, e1, produceProof_honest H (by omega) (by omega) hidx, ?_, ?_⟩
  · rw [mkPoly_coeffs, getElem?_tab, if_pos hidx]
  · rw [verifyProof_honest H hc hn (by omega) (by omega) hidx, if_pos hodd]
    have hdeg := friLayer_degree H (n := n) hp (n - f - 0) (by omega)
    have hdeg0 : (friLayer H n p (n - f - 0)).degree < (2 ^ 0 : ℕ) := by
      rwa [show n - f - (n - f - 0) = 0 by omega] at hdeg
    have hconst := eq_C_of_degree_le_zero (p := friLayer H n p (n - f - 0)) (by
      rw [Polynomial.degree_le_iff_coeff_zero]
      intro m hm
      exact (degree_lt_iff_coeff_zero _ _).1 hdeg0 m (by
        have : 0 < m := by exact_mod_cast hm
        rw [pow_zero]; omega))
    rw [evalPoly_coeff hdeg0, friLayer_succ]
    congr 1
    apply decide_eq_true
    rw [hconst]
    have : foldPoly (friBeta H n p (n - f - 0)) (C ((friLayer H n p (n - f - 0)).coeff 0))
        = C ((friLayer H n p (n - f - 0)).coeff 0) := by
      ext i
      rw [coeff_foldPoly, coeff_C, coeff_C, coeff_C]
      cases i with
      | zero => simp
      | succ i => simp
    rw [this]

/-- A polynomial equal to its own fold is constant. -/
theorem fold_fixed_const {β : F} {p : F[X]} (h : foldPoly β p = p) : ∃ c, p = C c := by
  refine ⟨p.coeff 0, eq_C_of_natDegree_eq_zero ?_⟩
  by_contra hne
  have hp : p ≠ 0 := by rintro rfl; simp at hne
  have hlt : p.natDegree < 2 * p.natDegree := by omega
  have := congrArg (fun q => q.coeff p.natDegree) h
  simp only [coeff_foldPoly] at this
  rw [coeff_eq_zero_of_natDegree_lt hlt, coeff_eq_zero_of_natDegree_lt (by omega : p.natDegree < 2 * p.natDegree + 1)] at this
  simp only [mul_zero, add_zero] at this
  exact hp (leadingCoeff_eq_zero.1 this.symm)

/-- **C27 is false for two or more final coefficients.** For output `2^o` (`o ≥ 1`) and factor at least 4, the
honest proof is accepted at *all* odd indices only when the last folded polynomial — of degree below `2^o`, whose
coefficients the proof carries — happens to be constant: the verifier folds once more than the prover. -/
theorem C27_output_rejected (hc : ChallengeOk F) (w : Worker) (v : Poly F .values) (hv : v.Valid) (n f o : ℕ)
    (hfo : f + o < n) (hf : 2 ≤ f) (h32 : f + o < 32)
    (p : F[X]) (hp : p.degree < (2 ^ (n - f) : ℕ)) (d : Domain F) (hd : Domain.newForSize F (2 ^ n) = .ok d)
    (hcode : Spec.Codeword p d.generator (2 ^ n) v.coeffs) (proto : FriPrototype F)
    (hproto : friProofByValues H w v (2 ^ f) (2 ^ o) = .ok proto)
    (hall : ∀ idx, idx < 2 ^ n → idx % 2 = 1 → ∃ proof x, proto.produceProof H v idx = .ok proof ∧
      v.coeffs[idx]? = some x ∧ proof.verify H idx x = .ok true) :
    ∀ i, 1 ≤ i → i < 2 ^ o → proto.finalCoefficients[i]? = some 0 := by
  obtain ⟨hn, rfl⟩ := eq_mk_of_codeword hv hd hcode
  have hpn : p.degree < (2 ^ n : ℕ) := lt_of_lt_of_le hp
    (by exact_mod_cast Nat.pow_le_pow_right (by norm_num) (by omega))
  rw [friProofByValues_eq H hc w hn hfo (by omega) h32 hpn] at hproto
  cases hproto
  set P := friLayer H n p (n - f - o) with hP
  have hdeg : P.degree < (2 ^ o : ℕ) := by
    have := friLayer_degree H (n := n) hp (n - f - o) (by omega)
    rwa [show n - f - (n - f - o) = o by omega] at this
  set Q := friLayer H n p (n - f - o + 1) with hQ
  have hQP : Q = foldPoly (friBeta H n p (n - f - o)) P := friLayer_succ H n p (n - f - o)
  have hdegQ : Q.degree < (2 ^ o : ℕ) := by
    rw [hQP]
    apply degree_foldPoly
    refine lt_of_lt_of_le hdeg ?_
    exact_mod_cast (by omega : 2 ^ o ≤ 2 * 2 ^ o)
  -- equality on the odd points of the domain of size 2^(f+o-1)
  obtain ⟨m, hm⟩ : ∃ m, f + o - 1 = m + 1 := ⟨f + o - 2, by omega⟩
  have hpt : ∀ i, i < 2 ^ m → P.eval (genOf F (m + 1) * genOf F m ^ i) = Q.eval (genOf F (m + 1) * genOf F m ^ i) := by
    intro i hi
    have hp1 : 2 ^ (m + 1) = 2 * 2 ^ m := by ring
    have hle : 2 ^ (m + 1) ≤ 2 ^ n := Nat.pow_le_pow_right (by norm_num) (by omega)
    obtain ⟨proof, x, hpr, hx, hver⟩ := hall (2 * i + 1) (by omega) (by omega)
    rw [produceProof_honest H hfo (by omega) (by omega)] at hpr
    cases hpr
    rw [mkPoly_coeffs, getElem?_tab, if_pos (by omega)] at hx
    cases hx
    rw [verifyProof_honest H hc hn hfo (by omega) (by omega), if_pos (by omega)] at hver
    have hver := of_decide_eq_true (Res.ok.inj hver)
    rw [evalPoly_coeff hdeg, hm, Nat.mod_eq_of_lt (by omega)] at hver
    have e : genOf F (m + 1) ^ (2 * i + 1) = genOf F (m + 1) * genOf F m ^ i := by
      rw [pow_succ, pow_mul, genOf_sq (by omega)]; ring
    rw [e] at hver
    exact hver
  have hle : (2 ^ o : ℕ) ≤ 2 ^ m := Nat.pow_le_pow_right (by norm_num) (by omega)
  have hPQ : P = Q := by
    apply eq_of_eval_coset (genOf_prim (F := F) (k := m) (by omega)) (genOf_ne_zero (F := F) (k := m + 1) (by omega))
      _ _ hpt
    · exact lt_of_lt_of_le hdeg (by exact_mod_cast hle)
    · exact lt_of_lt_of_le hdegQ (by exact_mod_cast hle)
  obtain ⟨c, hcst⟩ := fold_fixed_const (hQP.symm.trans hPQ.symm)
  intro i hi1 hi2
  simp only [honestPrototype, getElem?_tab, hi2, if_true]
  rw [← hP, hcst, coeff_C, if_neg (by omega)]

/-! ### C28: what an accepted proof shows -/

omit [DecidableEq F] [StarkField F] in
theorem friFold_foldAt (h2 : (2 : F) ≠ 0) {x : F} (hx : x ≠ 0) (a b β : F) :
    friFold a b x⁻¹ β (2 : F)⁻¹ = Spec.foldAt x a b β := by
  unfold friFold Spec.foldAt
  field_simp
  ring

omit [Field F] [DecidableEq F] [StarkField F] in
theorem rounds_getElem? {α : Type} (roots : List α) (qs : List F) (hl : qs.length % 2 = 0) (r : ℕ) :
    (roots.zip (chunksExact 2 qs)).length = min roots.length (qs.length / 2) ∧
    (r < min roots.length (qs.length / 2) → ∃ root a b, roots[r]? = some root ∧ qs[2 * r]? = some a ∧
      qs[2 * r + 1]? = some b ∧ (roots.zip (chunksExact 2 qs))[r]? = some (root, [a, b])) := by
  have hlen : (chunksExact 2 qs).length = qs.length / 2 := by simp [chunksExact]
  refine ⟨by rw [List.length_zip, hlen], fun hr => ?_⟩
  have hr1 : r < roots.length := by omega
  have hr2 : r < qs.length / 2 := by omega
  have e1 : roots[r]? = some roots[r] := List.getElem?_eq_getElem hr1
  have e2 : qs[2 * r]? = some qs[2 * r] := List.getElem?_eq_getElem (by omega)
  have e3 : qs[2 * r + 1]? = some qs[2 * r + 1] := List.getElem?_eq_getElem (by omega)
  refine ⟨_, _, _, e1, e2, e3, ?_⟩
  rw [List.getElem?_zip_eq_some]
  refine ⟨e1, ?_⟩
  simp only [chunksExact, getElem?_tab, hr2, if_true, Option.some.injEq]
  rw [mul_comm r 2, List.drop_eq_getElem_cons (by omega : 2 * r < qs.length),
    List.drop_eq_getElem_cons (by omega : 2 * r + 1 < qs.length)]
  rfl

omit [Field F] [DecidableEq F] [StarkField F] in
theorem rounds_two {α : Type} (roots : List α) (qs : List F) :
    ∀ x ∈ roots.zip (chunksExact 2 qs), x.2.length = 2 := by
  intro x hx
  have := (List.of_mem_zip hx).2
  simp only [chunksExact, tab, List.mem_map, List.mem_range] at this
  obtain ⟨i, hi, e⟩ := this
  rw [← e, List.length_take, List.length_drop]
  omega

/-- A field whose two-adicity is zero has no domain the verifier starts on. -/
theorem friStart_inv {d f idx : ℕ} {t : F} {s : FriVState F} (h : friStart d f idx = .ok (t, s)) :
    ∃ n, Nat.clog 2 (d * f) = n ∧ 1 ≤ n ∧ n ≤ StarkField.S F ∧ idx % 2 = 1 ∧ t = (2 : F)⁻¹ ∧
      s = { expected := none, domainSize := 2 ^ n, domainIdx := idx, omega := genOf F n, omegaInv := (genOf F n)⁻¹ } := by
  have hcl : Nat.clog 2 (d * f) ≤ StarkField.S F := by
    by_contra hh
    unfold friStart at h
    obtain ⟨a, ha, h⟩ := Res.bind_eq_ok.1 h
    obtain ⟨b, hb, h⟩ := Res.bind_eq_ok.1 h
    rw [newForSize_eq, if_neg hh] at hb
    cases hb
  have hn1 : 1 ≤ Nat.clog 2 (d * f) := by
    by_contra hh
    have h0 : Nat.clog 2 (d * f) = 0 := by omega
    unfold friStart at h
    obtain ⟨a, ha, h⟩ := Res.bind_eq_ok.1 h
    obtain ⟨b, hb, h⟩ := Res.bind_eq_ok.1 h
    rw [newForSize_eq, if_pos hcl, h0] at hb
    cases hb
    simp only [pow_zero, Nat.reduceDiv, if_true] at h
    split at h <;> cases h
  rw [friStart_gen hcl rfl hn1] at h
  split at h
  · cases h
    exact ⟨_, rfl, hn1, hcl, by assumption, rfl, rfl⟩
  · cases h

/-- **C28.** Whatever a proof contains, if it is accepted for index `idx` and oracle value `v` then: the claimed
domain exists, `idx` is an odd position of it, and for each of the `k ≥ 1` checked rounds the two opened values
are authenticated under that round's root at positions `idx mod 2^(n-r-1)` and half a domain further, the value
at the queried position is `v` (first round) or the fold of the previous round's pair by the challenge of the
previous root, and the fold of the last round is the value of the final coefficients at the matching point. -/
theorem C28_accepted_chain (p : FriProof F) (idx : ℕ) (v : F) (h : p.verify H idx v = .ok true) :
    ∃ n d k, Domain.newForSize F (p.initialDegreePlusOne * p.ldeFactor) = .ok d ∧ d.size = 2 ^ n ∧
      IsPrimitiveRoot d.generator (2 ^ n) ∧ idx < 2 ^ n ∧ idx % 2 = 1 ∧
      k = min p.roots.length (p.queries.length / 2) ∧ 1 ≤ k ∧ k ≤ n ∧
      ∃ (root : ℕ → Digest) (lo hi : ℕ → IopQuery F) (β : ℕ → F),
        (∀ r, r < k →
          p.roots[r]? = some (root r) ∧ p.queries[2 * r]? = some (lo r) ∧ p.queries[2 * r + 1]? = some (hi r) ∧
          (lo r).index = idx % 2 ^ (n - (r + 1)) ∧ (hi r).index = (lo r).index + 2 ^ (n - (r + 1)) ∧
          verifyQuery H (lo r) (root r) = true ∧ verifyQuery H (hi r) (root r) = true ∧
          encodeRootIntoChallenge (root r) = .ok (β r)) ∧
        (∀ r, r < k → (if idx % 2 ^ (n - r) = (lo r).index then (lo r).value else (hi r).value) =
          if r = 0 then v else
            Spec.foldAt ((d.generator ^ 2 ^ (r - 1)) ^ (lo (r - 1)).index) (lo (r - 1)).value (hi (r - 1)).value (β (r - 1))) ∧
        Spec.foldAt ((d.generator ^ 2 ^ (k - 1)) ^ (lo (k - 1)).index) (lo (k - 1)).value (hi (k - 1)).value (β (k - 1))
          = Spec.evalPoly p.finalCoefficients ((d.generator ^ 2 ^ k) ^ (idx % 2 ^ (n - k))) := by
  unfold FriProof.verify FriProof.verifyQueries at h
  obtain ⟨⟨t, s⟩, hs, h⟩ := Res.bind_eq_ok.1 h
  obtain ⟨n, hn, hn1, hnS, hodd, rfl, rfl⟩ := friStart_inv hs
  simp only [ne_eq, OfNat.ofNat_ne_zero, not_false_eq_true, decide_true, Res.assert_true, Res.ok_bind] at h
  split at h
  · cases h
  rename_i hq
  have hq : p.queries.length % 2 = 0 := not_not.1 hq
  have hlen := (rounds_getElem? p.roots p.queries hq 0).1
  have hk1 : 1 ≤ min p.roots.length (p.queries.length / 2) := by
    by_contra hh
    have : (p.roots.zip (chunksExact 2 p.queries)) = [] := List.length_eq_zero_iff.1 (by omega)
    rw [this, proofRounds] at h
    unfold friFinish at h
    obtain ⟨e, he, h⟩ := Res.bind_eq_ok.1 h
    rw [Res.expect_eq_ok] at he
    cases he
  have hidx : idx < 2 ^ n := by
    obtain ⟨root, a, b, _, _, _, e⟩ := (rounds_getElem? p.roots p.queries hq 0).2 (by omega)
    cases hL : p.roots.zip (chunksExact 2 p.queries) with
    | nil => rw [hL] at e; cases e
    | cons x rest =>
      rw [hL] at e h
      simp only [List.getElem?_cons_zero, Option.some.injEq] at e
      subst e
      obtain ⟨m', β, _, hlt, _⟩ := proofRounds_cons_inv H (m := n) rfl h
      exact hlt
  obtain ⟨hkn, folded, hr, hfin⟩ := proofRounds_sound H _ 0 n _ (rounds_two _ _) rfl hidx h
  rw [hlen] at hkn hfin
  set k := min p.roots.length (p.queries.length / 2) with hk
  have hrr : ∀ r, ∃ (root : Digest) (lo hi : IopQuery F) (β : F), r < k →
      p.roots[r]? = some root ∧ p.queries[2 * r]? = some lo ∧ p.queries[2 * r + 1]? = some hi ∧
      lo.index = idx % 2 ^ (n - (r + 1)) ∧ hi.index = lo.index + 2 ^ (n - (r + 1)) ∧
      verifyQuery H lo root = true ∧ verifyQuery H hi root = true ∧ encodeRootIntoChallenge root = .ok β ∧
      folded r = Spec.foldAt ((genOf F n ^ 2 ^ r) ^ lo.index) lo.value hi.value β ∧
      (if idx % 2 ^ (n - r) = lo.index then lo.value else hi.value) = if r = 0 then v else folded (r - 1) := by
    intro r
    by_cases hrk : r < k
    · obtain ⟨root, a, b, e1, e2, e3, e4⟩ := (rounds_getElem? p.roots p.queries hq r).2 hrk
      obtain ⟨lo, hi, β, f1, f2, f3, f4, f5, f6, f7, f8, f9⟩ := hr r _ _ e4
      simp only [List.cons.injEq, and_true] at f1
      obtain ⟨rfl, rfl⟩ := f1
      refine ⟨root, a, b, β, fun _ => ⟨e1, e2, e3, f2, by rw [f2]; exact f3, f4, f5, f6, ?_, ?_⟩⟩
      · rw [f7, f2, inv_pow, inv_pow, friFold_foldAt (two_ne_zero_of_S (by omega))
          (pow_ne_zero _ (pow_ne_zero _ (genOf_ne_zero hnS)))]
      · by_cases h0 : r = 0
        · rw [if_pos h0]
          subst h0
          have f8 := f8 rfl
          rw [Nat.sub_zero, Nat.mod_eq_of_lt hidx]
          by_cases hi' : idx = a.index
          · rw [if_pos hi']; exact f8 a (by simp) hi'.symm
          · rw [if_neg hi']
            apply f8 b (by simp)
            obtain ⟨m, rfl⟩ : ∃ m, n = m + 1 := ⟨n - 1, by omega⟩
            rcases index_in_coset hidx with hh | hh
            · exact absurd (hh.trans f2.symm) hi'
            · rw [f3]; exact hh.symm
        · rw [if_neg h0]
          apply f9
          rw [if_neg h0]
    · have q : IopQuery F := { index := 0, value := 0, path := [] }
      exact ⟨zeroDigest, q, q, 0, fun hh => absurd hh hrk⟩
  choose root lo hi β hall using hrr
  refine ⟨n, _, k, by rw [newForSize_eq, hn, if_pos hnS], rfl, genOf_prim hnS, hidx, hodd, rfl, hk1, hkn, root, lo, hi, β, ?_, ?_, ?_⟩
  · intro r hrk
    obtain ⟨e1, e2, e3, e4, e5, e6, e7, e8, _⟩ := hall r hrk
    exact ⟨e1, e2, e3, e4, e5, e6, e7, e8⟩
  · intro r hrk
    obtain ⟨_, _, _, _, _, _, _, _, _, e⟩ := hall r hrk
    rw [e]
    split
    · rfl
    · exact (hall (r - 1) (by omega)).2.2.2.2.2.2.2.2.1
  · rw [if_neg (by omega)] at hfin
    rw [← (hall (k - 1) (by omega)).2.2.2.2.2.2.2.2.1]
    exact Option.some.inj hfin

/-- The words `W 0, …, W (k-1)` on the domains generated by `ω, ω^2, ω^4, …` of sizes `2^n, 2^(n-1), …` pass the
FRI check at position `idx`: `W 0` has value `v` there, each word is at `idx` the fold of the previous one by the
previous challenge, and the last fold is the value of the final polynomial. -/
structure Spec.FoldConsistent (ω : F) (n k idx : ℕ) (v : F) (W : ℕ → List F) (β : ℕ → F) (fin : List F) : Prop where
  start : (W 0)[idx]? = some v
  step : ∀ r, r < k → ∃ a b, (W r)[idx % 2 ^ (n - (r + 1))]? = some a ∧
    (W r)[idx % 2 ^ (n - (r + 1)) + 2 ^ (n - (r + 1))]? = some b ∧
    (r + 1 < k → (W (r + 1))[idx % 2 ^ (n - (r + 1))]? =
      some (Spec.foldAt ((ω ^ 2 ^ r) ^ (idx % 2 ^ (n - (r + 1)))) a b (β r))) ∧
    (r + 1 = k → Spec.foldAt ((ω ^ 2 ^ r) ^ (idx % 2 ^ (n - (r + 1)))) a b (β r) =
      Spec.evalPoly fin ((ω ^ 2 ^ k) ^ (idx % 2 ^ (n - k))))

/-- **C28** (committed words): if the round roots of an accepted proof are the roots of trees over words
`W 0, W 1, …` of sizes `2^n, 2^(n-1), …`, then those words pass the FRI check at `idx` with the oracle value and
the challenges of the roots — or the hash collides on two of the strings hashed for these trees and openings. -/
theorem C28_committed (hb : numBits F < 256) (p : FriProof F) (idx : ℕ) (v : F) (h : p.verify H idx v = .ok true)
    (n : ℕ) (d : Domain F) (hd : Domain.newForSize F (p.initialDegreePlusOne * p.ldeFactor) = .ok d)
    (hdn : d.size = 2 ^ n) (k : ℕ) (hk : k = min p.roots.length (p.queries.length / 2))
    (W : ℕ → List F) (β : ℕ → F)
    (hW : ∀ r, r < k → (W r).length = 2 ^ (n - r) ∧ ∃ w tree root, IopTree.create H w (W r) = .ok tree ∧
      tree.getRoot = .ok root ∧ p.roots[r]? = some root ∧ encodeRootIntoChallenge root = .ok (β r)) :
    Spec.FoldConsistent d.generator n k idx v W β p.finalCoefficients ∨
    Spec.CollisionAmong H (fun s => (∃ r, r < k ∧ Spec.TreeHashed H (fun i => (W r).getD i 0) (n - r) s) ∨
      ∃ q ∈ p.queries, s ∈ Spec.openingHashed H q.value q.path q.index) := by
  obtain ⟨n', d', k', hd', hn', hprim, hidx, hodd, hk', hk1, hkn, root, lo, hi, β', hr, hc, hf⟩ :=
    C28_accepted_chain H p idx v h
  rw [hd] at hd'
  cases hd'
  have : n' = n := Nat.pow_right_injective (le_refl 2) (hn'.symm.trans hdn)
  subst this
  have : k' = k := hk'.trans hk.symm
  subst this
  by_contra hcon
  rw [not_or] at hcon
  obtain ⟨hcon, hnc⟩ := hcon
  have hβ : ∀ r, r < k' → β r = β' r := by
    intro r hrk
    obtain ⟨_, w, tree, rt, _, _, e1, e2⟩ := hW r hrk
    obtain ⟨e3, _, _, _, _, _, _, e4⟩ := hr r hrk
    rw [e1] at e3
    cases e3
    rw [e2] at e4
    exact Res.ok.inj e4
  have hopen : ∀ r, r < k' → ∀ q ∈ p.queries, verifyQuery H q (root r) = true → q.index < 2 ^ (n' - r) →
      (W r)[q.index]? = some q.value := by
    intro r hrk q hq hv hlt
    obtain ⟨hl, w, tree, rt, hcr, hgr, e1, _⟩ := hW r hrk
    obtain ⟨e3, _⟩ := hr r hrk
    rw [e1] at e3
    cases e3
    rcases C19_merkle_binding H hb w (W r) (n' - r) hl tree _ hcr hgr q hv with hg | ⟨x, y, hx, hy, hxy⟩
    · have := hg.2
      rwa [Nat.mod_eq_of_lt hlt] at this
    · exfalso
      apply hnc
      refine ⟨x, y, ?_, ?_, hxy⟩
      · rcases hx with hx | hx
        · exact .inl ⟨r, hrk, hx⟩
        · exact .inr ⟨q, hq, hx⟩
      · rcases hy with hy | hy
        · exact .inl ⟨r, hrk, hy⟩
        · exact .inr ⟨q, hq, hy⟩
  have hsz : ∀ r, r < k' → 2 ^ (n' - r) = 2 * 2 ^ (n' - (r + 1)) := by
    intro r hrk
    rw [← pow_succ']; congr 1; omega
  have hlo : ∀ r, r < k' → (W r)[idx % 2 ^ (n' - (r + 1))]? = some (lo r).value := by
    intro r hrk
    obtain ⟨_, e2, _, e4, _, e6, _, _⟩ := hr r hrk
    have hm := Nat.mod_lt idx (show 0 < 2 ^ (n' - (r + 1)) by positivity)
    have := hopen r hrk _ (List.mem_of_getElem? e2) e6 (by rw [e4, hsz r hrk]; omega)
    rwa [e4] at this
  have hhi : ∀ r, r < k' → (W r)[idx % 2 ^ (n' - (r + 1)) + 2 ^ (n' - (r + 1))]? = some (hi r).value := by
    intro r hrk
    obtain ⟨_, _, e3, e4, e5, _, e7, _⟩ := hr r hrk
    have hm := Nat.mod_lt idx (show 0 < 2 ^ (n' - (r + 1)) by positivity)
    have := hopen r hrk _ (List.mem_of_getElem? e3) e7 (by rw [e5, e4, hsz r hrk]; omega)
    rwa [e5, e4] at this
  -- the value at the queried position
  have hcur : ∀ r, r < k' → (W r)[idx % 2 ^ (n' - r)]? =
      some (if idx % 2 ^ (n' - r) = (lo r).index then (lo r).value else (hi r).value) := by
    intro r hrk
    obtain ⟨_, _, _, e4, _⟩ := hr r hrk
    have hlt := Nat.mod_lt idx (show 0 < 2 ^ (n' - r) by positivity)
    have hmm : idx % 2 ^ (n' - r) % 2 ^ (n' - (r + 1)) = idx % 2 ^ (n' - (r + 1)) :=
      Nat.mod_mod_of_dvd _ (pow_dvd_pow 2 (by omega))
    have hs := hsz r hrk
    obtain ⟨m, hm⟩ : ∃ m, n' - r = m + 1 := ⟨n' - (r + 1), by omega⟩
    have hm' : n' - (r + 1) = m := by omega
    rw [hm] at hlt
    rw [hm, hm'] at hmm
    have hin := index_in_coset hlt
    rw [hmm] at hin
    rw [e4, hm, hm']
    have h1 := hlo r hrk
    have h2 := hhi r hrk
    rw [hm'] at h1 h2
    by_cases hh : idx % 2 ^ (m + 1) = idx % 2 ^ m
    · rw [if_pos hh, hh, h1]
    · rw [if_neg hh]
      rcases hin with h' | h'
      · exact absurd h' hh
      · rw [h', h2]
  apply hcon
  constructor
  · have := hcur 0 (by omega)
    rw [hc 0 (by omega), if_pos rfl, Nat.sub_zero, Nat.mod_eq_of_lt hidx] at this
    exact this
  · intro r hrk
    refine ⟨_, _, hlo r hrk, hhi r hrk, ?_, ?_⟩
    · intro hr1
      rw [hcur (r + 1) hr1, hc (r + 1) hr1, if_neg (by omega), Nat.add_sub_cancel, hβ r hrk,
        (hr r hrk).2.2.2.1]
    · intro hr1
      have : r = k' - 1 := by omega
      subst this
      rw [← hf, hβ _ hrk, (hr _ hrk).2.2.2.1]

/-! ### C29: degree of accepted words -/

/-- **C29 is false.** For every word of size `2^n` whatsoever — and every claimed degree bound `d` and factor `f`
whose domain has that size, say `d = 1` — there are a single root, the root of the tree over that word, and final
coefficients such that at *every* odd position a proof with exactly these roots and coefficients is accepted with
the word's value: number of rounds and of final coefficients are not checked against the degree bound. -/
theorem C29_any_word_accepted (hc : ChallengeOk F) (w : Worker) (W : List F) (n d f : ℕ) (hn : n ≤ StarkField.S F)
    (hn1 : 1 ≤ n) (hW : W.length = 2 ^ n) (hd : Nat.clog 2 (d * f) = n) :
    ∃ tree root fin, IopTree.create H w W = .ok tree ∧ tree.getRoot = .ok root ∧
      ∀ idx, idx < 2 ^ n → idx % 2 = 1 → ∃ (proof : FriProof F) (v : F), W[idx]? = some v ∧
        proof.roots = [root] ∧ proof.finalCoefficients = fin ∧ proof.initialDegreePlusOne = d ∧
        proof.ldeFactor = f ∧ proof.verify H idx v = .ok true := by
  obtain ⟨p, hp, hg⟩ := exists_poly_values (F := F) hn one_ne_zero (fun i => W.getD i 0)
  have hWt : W = tab (2 ^ n) (friVals n p) := by
    have := eq_tab_getD W 0
    rw [hW] at this
    rw [this]
    apply tab_congr
    intro i hi
    have := hg i hi
    rw [one_mul] at this
    rw [← this]; rfl
  subst hWt
  have htree := friTree_create H w n p (i := 0) (by omega)
  refine ⟨friTree H n p 0, friRoot H n p 0, tab (2 ^ (n - 1)) (friLayer H n p 1).coeff, htree,
    friTree_root H n p (by omega), ?_⟩
  intro idx hidx hodd
  refine ⟨{ queries := tab (2 * 1) (friQueryAt H n p idx), roots := [friRoot H n p 0],
            finalCoefficients := tab (2 ^ (n - 1)) (friLayer H n p 1).coeff, initialDegreePlusOne := d,
            outputCoeffsAtDegreePlusOne := 1, ldeFactor := f }, friVals n p idx, ?_, rfl, rfl, rfl, rfl, ?_⟩
  · rw [getElem?_tab, if_pos hidx]
  · unfold FriProof.verify FriProof.verifyQueries
    simp only
    rw [friStart_eq' H hn hd hn1 p hidx, if_pos hodd]
    simp only [Res.ok_bind, ne_eq, OfNat.ofNat_ne_zero, not_false_eq_true, decide_true, Res.assert_true, length_tab,
      Nat.mul_mod_right, not_true_eq_false, if_false]
    have hroots : [friRoot H n p 0] = tab 1 (friRoot H n p) := rfl
    rw [chunksExact_tab, hroots, zip_tab, min_self]
    have := proofRounds_honest H hc (k := 1) hn (by omega) (tab (2 ^ (n - 1)) (friLayer H n p 1).coeff) p hidx
      (friVals n p idx) rfl 1 0 rfl
    have e : ∀ t, t < 1 → (friRoot H n p t, [friQueryAt H n p idx (2 * t), friQueryAt H n p idx (2 * t + 1)])
        = (friRoot H n p (0 + t), [friQuery H n p (0 + t) (friIdx n idx (0 + t + 1)),
           friQuery H n p (0 + t) (friIdx n idx (0 + t + 1) + 2 ^ (n - (0 + t + 1)))]) := by
      intro t ht
      have : t = 0 := by omega
      subst this
      simp [friQueryAt]
    rw [tab_congr e, this, friFinish_vstate H (by omega)]
    have hdeg := friLayer_degree H (n := n) hp 1 (by omega)
    rw [evalPoly_coeff hdeg]
    simp

/-- A challenge is bad for `P` at level `M` when `P` has degree at least `2M` but its fold has degree below `M`. -/
def Spec.BadChallenge (M : ℕ) (P : F[X]) (β : F) : Prop :=
  ¬ P.degree < (2 * M : ℕ) ∧ ∃ Q, Spec.IsFold β P Q ∧ Q.degree < (M : ℕ)

omit [DecidableEq F] [StarkField F] in
/-- **C29** (challenges): every polynomial has at most one bad challenge at each level. -/
theorem C29_bad_challenge_unique (M : ℕ) (P : F[X]) (β γ : F) (h : Spec.BadChallenge M P β)
    (h' : Spec.BadChallenge M P γ) : β = γ := by
  obtain ⟨hd, Q, hQ, hQd⟩ := h
  obtain ⟨-, Q', hQ', hQd'⟩ := h'
  have e := isFold_unique hQ
  have e' := isFold_unique hQ'
  subst e e'
  rw [degree_lt_iff_coeff_zero] at hd hQd hQd'
  push Not at hd
  obtain ⟨j, hj, hne⟩ := hd
  have h1 := hQd (j / 2) (by omega)
  have h2 := hQd' (j / 2) (by omega)
  rw [coeff_foldPoly] at h1 h2
  have hodd : P.coeff (2 * (j / 2) + 1) ≠ 0 := by
    intro h0
    rw [h0, mul_zero, add_zero] at h1
    rcases Nat.mod_two_eq_zero_or_one j with hm | hm
    · rw [show 2 * (j / 2) = j by omega] at h1; exact hne h1
    · rw [show 2 * (j / 2) + 1 = j by omega] at h0; exact hne h0
  exact mul_right_cancel₀ hodd (by linear_combination h1 - h2)

omit [DecidableEq F] [StarkField F] in
theorem foldAt_eval (h2 : (2 : F) ≠ 0) {x : F} (hx : x ≠ 0) (β : F) (p : F[X]) :
    Spec.foldAt x (p.eval x) (p.eval (-x)) β = (foldPoly β p).eval (x ^ 2) := by
  rw [← friFold_foldAt h2 hx, friFold_eval h2 hx]

omit [DecidableEq F] [StarkField F] in
theorem evalPoly_polyOf (l : List F) (x : F) : Spec.evalPoly l x = (polyOf l.length (fun i => l.getD i 0)).eval x := by
  rw [polyOf_eval]; rfl

/-- The algebra behind C29: words that pass the FRI check at every odd position. -/
theorem foldConsistent_low_degree {n k : ℕ} (hn : n ≤ StarkField.S F) (hk1 : 1 ≤ k) (hkn : k < n) (W : ℕ → List F)
    (β : ℕ → F) (fin : List F) (hfin : fin.length ≤ 2 ^ (n - k - 1))
    (hW0 : (W 0).length = 2 ^ n)
    (h : ∀ idx, idx < 2 ^ n → idx % 2 = 1 → ∃ v, Spec.FoldConsistent (genOf F n) n k idx v W β fin) :
    ∃ P : ℕ → F[X],
      (∀ r, r ≤ k → (P r).degree < (2 ^ (n - r - 1) : ℕ)) ∧
      (∀ r, r < k ∨ r = 0 → ∀ j, j < 2 ^ (n - r) → j % 2 = 1 → (W r)[j]? = some ((P r).eval ((genOf F n ^ 2 ^ r) ^ j))) ∧
      (∀ r, P (r + 1) = foldPoly (β r) (P r)) ∧
      P k = polyOf fin.length (fun i => fin.getD i 0) := by
  obtain ⟨n, rfl⟩ : ∃ n', n = n' + 1 := ⟨n - 1, by omega⟩
  have h2 : (2 : F) ≠ 0 := two_ne_zero_of_S (by omega)
  obtain ⟨p, hp, hpv⟩ := exists_poly_values (F := F) (k := n) (by omega) (genOf_ne_zero (F := F) (k := n + 1) (by omega))
    (fun i => (W 0).getD (2 * i + 1) 0)
  let P : ℕ → F[X] := fun r => Nat.rec p (fun i q => foldPoly (β i) q) r
  have P0 : P 0 = p := rfl
  have Ps : ∀ r, P (r + 1) = foldPoly (β r) (P r) := fun r => rfl
  clear_value P
  have hg : ∀ r, r ≤ n + 1 → genOf F (n + 1) ^ 2 ^ r = genOf F (n + 1 - r) := by
    intro r
    induction r with
    | zero => intro _; simp
    | succ r ih =>
      intro hr
      rw [pow_succ, pow_mul, ih (by omega)]
      have := genOf_sq (F := F) (m := n + 1 - (r + 1)) (by omega)
      rw [show n + 1 - (r + 1) + 1 = n + 1 - r by omega] at this
      exact this
  have hdeg : ∀ r, r ≤ k → (P r).degree < (2 ^ (n + 1 - r - 1) : ℕ) := by
    intro r
    induction r with
    | zero => intro _; rw [P0]; simpa using hp
    | succ r ih =>
      intro hr
      rw [Ps]
      apply degree_foldPoly
      have := ih (by omega)
      rwa [show 2 * 2 ^ (n + 1 - (r + 1) - 1) = 2 ^ (n + 1 - r - 1) by rw [← pow_succ']; congr 1; omega]
  have hv0 : ∀ j, j < 2 ^ (n + 1) → j % 2 = 1 → (W 0)[j]? = some ((P 0).eval (genOf F (n + 1) ^ j)) := by
    intro j hj hj1
    have hp1 : 2 ^ (n + 1) = 2 * 2 ^ n := by ring
    have := hpv (j / 2) (by omega)
    have e : genOf F (n + 1) * genOf F n ^ (j / 2) = genOf F (n + 1) ^ j := by
      rw [← genOf_sq (F := F) (m := n) (by omega), ← pow_mul, ← pow_succ']
      congr 1; omega
    have e3 : 2 * (j / 2) + 1 = j := by omega
    simp only [e, e3] at this
    rw [P0, this]
    have : j < (W 0).length := by omega
    simp [List.getElem?_eq_getElem this]
  -- folding
  have hfold : ∀ r, r < k → (∀ j, j < 2 ^ (n + 1 - r) → j % 2 = 1 →
      (W r)[j]? = some ((P r).eval ((genOf F (n + 1) ^ 2 ^ r) ^ j))) →
      ∀ j, j < 2 ^ (n + 1 - (r + 1)) → j % 2 = 1 →
        (r + 1 < k → (W (r + 1))[j]? = some ((P (r + 1)).eval ((genOf F (n + 1) ^ 2 ^ (r + 1)) ^ j))) ∧
        (r + 1 = k → (P (r + 1)).eval ((genOf F (n + 1) ^ 2 ^ (r + 1)) ^ j) =
          Spec.evalPoly fin ((genOf F (n + 1) ^ 2 ^ (r + 1)) ^ j)) := by
    intro r hrk ih j hj hj1
    obtain ⟨m, hm⟩ : ∃ m, n + 1 - r = m + 1 + 1 := ⟨n - r - 1, by omega⟩
    have hm' : n + 1 - (r + 1) = m + 1 := by omega
    have hp1 : 2 ^ (m + 1) = 2 * 2 ^ m := by ring
    have hp2 : 2 ^ (m + 1 + 1) = 2 * 2 ^ (m + 1) := by ring
    have hle : 2 ^ (m + 1) ≤ 2 ^ (n + 1) := Nat.pow_le_pow_right (by norm_num) (by omega)
    rw [hm'] at hj
    rw [hm] at ih
    obtain ⟨v, hcon⟩ := h j (by omega) hj1
    obtain ⟨a, b, ha, hb, hn1, hn2⟩ := hcon.step r hrk
    rw [hm', Nat.mod_eq_of_lt hj] at ha hb hn1 hn2
    rw [ih j (by omega) hj1] at ha
    rw [ih (j + 2 ^ (m + 1)) (by omega) (by omega)] at hb
    have hgr := hg r (by omega)
    rw [hm] at hgr
    have hgS : m + 1 + 1 ≤ StarkField.S F := by omega
    have hx : ((genOf F (n + 1) ^ 2 ^ r) ^ (j + 2 ^ (m + 1))) = -((genOf F (n + 1) ^ 2 ^ r) ^ j) := by
      rw [hgr]; exact genOf_half hgS j
    have hxs : ((genOf F (n + 1) ^ 2 ^ r) ^ j) ^ 2 = (genOf F (n + 1) ^ 2 ^ (r + 1)) ^ j := by
      rw [← pow_mul, mul_comm j 2, pow_mul, ← pow_mul _ (2 ^ r) 2, ← pow_succ]
    have hne : (genOf F (n + 1) ^ 2 ^ r) ^ j ≠ 0 := pow_ne_zero _ (pow_ne_zero _ (genOf_ne_zero hn))
    cases ha
    cases hb
    rw [hx] at hn1 hn2
    rw [foldAt_eval h2 hne, hxs] at hn1 hn2
    refine ⟨fun hh => ?_, fun hh => ?_⟩
    · rw [Ps]; exact hn1 hh
    · rw [Ps, hn2 hh]
      subst hh
      rw [hm', Nat.mod_eq_of_lt hj]
  have hvals : ∀ r, r < k ∨ r = 0 → ∀ j, j < 2 ^ (n + 1 - r) → j % 2 = 1 →
      (W r)[j]? = some ((P r).eval ((genOf F (n + 1) ^ 2 ^ r) ^ j)) := by
    intro r
    induction r with
    | zero => intro _ j hj hj1; rw [pow_zero, pow_one]; exact hv0 j hj hj1
    | succ r ih =>
      intro hr j hj hj1
      exact (hfold r (by omega) (ih (by omega)) j hj hj1).1 (by omega)
  refine ⟨P, hdeg, hvals, Ps, ?_⟩
  obtain ⟨k, rfl⟩ : ∃ k', k = k' + 1 := ⟨k - 1, by omega⟩
  obtain ⟨m, hm⟩ : ∃ m, n + 1 - (k + 1) = m + 1 := ⟨n - k - 1, by omega⟩
  have hm' : n + 1 - (k + 1) - 1 = m := by omega
  have hp1 : 2 ^ (m + 1) = 2 * 2 ^ m := by ring
  apply eq_of_eval_coset (genOf_prim (F := F) (k := m) (by omega)) (genOf_ne_zero (F := F) (k := m + 1) (by omega))
  · have := hdeg (k + 1) le_rfl
    rwa [hm'] at this
  · refine lt_of_lt_of_le (polyOf_degree _ _) ?_
    rw [hm'] at hfin
    exact_mod_cast hfin
  · intro i hi
    have e : genOf F (m + 1) * genOf F m ^ i = genOf F (m + 1) ^ (2 * i + 1) := by
      rw [← genOf_sq (F := F) (m := m) (by omega), ← pow_mul, ← pow_succ']
    have := (hfold k (by omega) (hvals k (by omega)) (2 * i + 1) (by rw [hm]; omega) (by omega)).2 rfl
    rw [hg (k + 1) (by omega), hm, evalPoly_polyOf] at this
    rw [e, this]

/-- **C29 (part).** Let every odd position of the claimed domain have an accepted proof, all with the same round
roots (committing to words `W 0, W 1, …` of sizes `2^n, 2^(n-1), …`), the same final coefficients and at least as
many query pairs as roots, with fewer than `n` rounds and at most `2^(n-k-1)` final coefficients. Then the first
word agrees at its odd positions with a polynomial of degree below `(number of final coefficients) · 2^(rounds)`,
or some round's challenge is the bad one for its word, or the hash collides. What is missing for C29: the bound is in terms of the
proof's own rounds and coefficients, not the claimed degree; with those unchecked C29 is false
(`C29_any_word_accepted`). -/
theorem C29_low_degree_partial (hb : numBits F < 256) (hc : ChallengeOk F) (proof : ℕ → FriProof F) (v : ℕ → F)
    (roots : List Digest) (fin : List F) (n dp1 f : ℕ) (d : Domain F)
    (hd : Domain.newForSize F (dp1 * f) = .ok d) (hdn : d.size = 2 ^ n)
    (hacc : ∀ idx, idx < 2 ^ n → idx % 2 = 1 → (proof idx).roots = roots ∧ (proof idx).finalCoefficients = fin ∧
      (proof idx).initialDegreePlusOne = dp1 ∧ (proof idx).ldeFactor = f ∧
      2 * roots.length ≤ (proof idx).queries.length ∧ (proof idx).verify H idx (v idx) = .ok true)
    (hk1 : 1 ≤ roots.length) (hkn : roots.length < n) (hfin : fin.length ≤ 2 ^ (n - roots.length - 1))
    (W : ℕ → List F)
    (hW : ∀ r, r < roots.length → (W r).length = 2 ^ (n - r) ∧ ∃ w tree root, IopTree.create H w (W r) = .ok tree ∧
      tree.getRoot = .ok root ∧ roots[r]? = some root) :
    (∃ p : F[X], p.degree < (fin.length * 2 ^ roots.length : ℕ) ∧
      ∀ j, j < 2 ^ n → j % 2 = 1 → (W 0)[j]? = some (p.eval (d.generator ^ j)) ∧ v j = p.eval (d.generator ^ j)) ∨
    (∃ r P root β, r < roots.length ∧ roots[r]? = some root ∧ encodeRootIntoChallenge root = .ok β ∧
      (∀ j, j < 2 ^ (n - r) → j % 2 = 1 → (W r)[j]? = some (eval ((d.generator ^ 2 ^ r) ^ j) P)) ∧
      Spec.BadChallenge (fin.length * 2 ^ (roots.length - (r + 1))) P β) ∨
    Spec.CollisionAmong H (fun s => (∃ r, r < roots.length ∧ Spec.TreeHashed H (fun i => (W r).getD i 0) (n - r) s) ∨
      ∃ idx, ∃ q ∈ (proof idx).queries, s ∈ Spec.openingHashed H q.value q.path q.index) := by
  by_cases hcol : Spec.CollisionAmong H (fun s => (∃ r, r < roots.length ∧
      Spec.TreeHashed H (fun i => (W r).getD i 0) (n - r) s) ∨
      ∃ idx, ∃ q ∈ (proof idx).queries, s ∈ Spec.openingHashed H q.value q.path q.index)
  · exact .inr (.inr hcol)
  set k := roots.length with hk
  have hroot : ∀ r, ∃ root, r < k → roots[r]? = some root := by
    intro r
    by_cases hr : r < k
    · exact ⟨roots[r], fun _ => List.getElem?_eq_getElem hr⟩
    · exact ⟨zeroDigest, fun h => absurd h hr⟩
  choose root hroot using hroot
  have hβ : ∀ r, (encodeRootIntoChallenge (root r) : Res F) = .ok (challengeOf F (root r)) := fun r => interpretHash_ok hc _
  have hcons : ∀ idx, idx < 2 ^ n → idx % 2 = 1 →
      Spec.FoldConsistent d.generator n k idx (v idx) W (fun r => challengeOf F (root r)) fin := by
    intro idx hi ho
    obtain ⟨h1, h2, h3, h4, h5, h6⟩ := hacc idx hi ho
    have := C28_committed H hb (proof idx) idx (v idx) h6 n d (by rw [h3, h4]; exact hd) hdn k
      (by rw [h1]; omega) W (fun r => challengeOf F (root r)) (by
        intro r hr
        obtain ⟨e1, w, tree, rt, e2, e3, e4⟩ := hW r hr
        rw [hroot r hr] at e4
        cases e4
        exact ⟨e1, w, tree, _, e2, e3, by rw [h1]; exact hroot r hr, hβ r⟩)
    rw [h2] at this
    rcases this with hg | ⟨x, y, hx, hy, hxy⟩
    · exact hg
    · exfalso
      apply hcol
      exact ⟨x, y, hx.imp id (fun ⟨q, hq⟩ => ⟨idx, q, hq⟩), hy.imp id (fun ⟨q, hq⟩ => ⟨idx, q, hq⟩), hxy⟩
  rw [newForSize_eq] at hd
  split at hd
  · rename_i hS
    cases hd
    have : Nat.clog 2 (dp1 * f) = n := Nat.pow_right_injective (le_refl 2) hdn
    simp only [this] at hcons hS ⊢
    obtain ⟨P, hPd, hPv, hPs, hPk⟩ := foldConsistent_low_degree hS hk1 hkn W _ fin hfin
      (hW 0 (by omega)).1 (fun idx hi ho => ⟨_, hcons idx hi ho⟩)
    have hdk : (P k).degree < (fin.length : ℕ) := by rw [hPk]; exact polyOf_degree _ _
    by_cases hbad : ∃ r, r < k ∧ ¬ (P r).degree < (fin.length * 2 ^ (k - r) : ℕ) ∧
        (P (r + 1)).degree < (fin.length * 2 ^ (k - (r + 1)) : ℕ)
    · obtain ⟨r, hr, hb1, hb2⟩ := hbad
      refine .inr (.inl ⟨r, P r, root r, _, hr, hroot r hr, hβ r, hPv r (.inl hr), ?_, P (r + 1), ?_, hb2⟩)
      · rw [show 2 * (fin.length * 2 ^ (k - (r + 1))) = fin.length * 2 ^ (k - r) by
          rw [show k - r = k - (r + 1) + 1 by omega]; ring]
        exact hb1
      · rw [hPs]; exact isFold_foldPoly _ _
    · left
      push Not at hbad
      have : ∀ i, i ≤ k → (P (k - i)).degree < (fin.length * 2 ^ i : ℕ) := by
        intro i
        induction i with
        | zero => intro _; simpa using hdk
        | succ i ih =>
          intro hi
          by_contra hcon
          have h1 := hbad (k - (i + 1)) (by omega) (by
            rw [show k - (k - (i + 1)) = i + 1 by omega]; exact not_lt.1 hcon)
          rw [show k - (i + 1) + 1 = k - i by omega, show k - (k - i) = i by omega] at h1
          exact absurd (ih (by omega)) (not_lt.2 h1)
      have h0 := this k le_rfl
      rw [Nat.sub_self] at h0
      refine ⟨P 0, h0, fun j hj hj1 => ?_⟩
      have hv := hPv 0 (.inr rfl) j hj hj1
      rw [pow_zero, pow_one] at hv
      refine ⟨hv, ?_⟩
      have := (hcons j hj hj1).start
      rw [hv] at this
      exact (Option.some.inj this).symm
  · cases hd

/-! ### C30: the verifier on arbitrary proofs -/

/-- **C30 is false** (1): a proof without roots or without queries makes the verifier panic. -/
theorem C30_no_rounds_panics (p : FriProof F) (idx : ℕ) (v : F) (n : ℕ) (hn1 : 1 ≤ n) (hn : n ≤ StarkField.S F)
    (hd : Nat.clog 2 (p.initialDegreePlusOne * p.ldeFactor) = n) (hodd : idx % 2 = 1)
    (h : p.queries = [] ∨ (p.roots = [] ∧ p.queries.length % 2 = 0)) : p.verify H idx v = .panic := by
  unfold FriProof.verify FriProof.verifyQueries
  rw [friStart_gen hn hd hn1, if_pos hodd]
  have hq : p.queries.length % 2 = 0 := by
    rcases h with h | h
    · simp [h]
    · exact h.2
  have hz : p.roots.zip (chunksExact 2 p.queries) = [] := by
    rcases h with h | h
    · simp [h, chunksExact]
    · simp [h.1]
  simp only [Res.ok_bind, ne_eq, OfNat.ofNat_ne_zero, not_false_eq_true, decide_true, Res.assert_true, hq,
    not_true_eq_false, if_false, hz, proofRounds]
  rfl

/-- **C30 is false** (2): an index outside the domain the proof claims makes the verifier panic. -/
theorem C30_index_panics (p : FriProof F) (idx : ℕ) (v : F) (n : ℕ) (hn1 : 1 ≤ n) (hn : n ≤ StarkField.S F)
    (hd : Nat.clog 2 (p.initialDegreePlusOne * p.ldeFactor) = n) (hodd : idx % 2 = 1) (hidx : 2 ^ n ≤ idx)
    (hr : 1 ≤ p.roots.length) (hq : 2 ≤ p.queries.length) (hq2 : p.queries.length % 2 = 0) :
    p.verify H idx v = .panic := by
  unfold FriProof.verify FriProof.verifyQueries
  rw [friStart_gen hn hd hn1, if_pos hodd]
  simp only [Res.ok_bind, ne_eq, OfNat.ofNat_ne_zero, not_false_eq_true, decide_true, Res.assert_true, hq2,
    not_true_eq_false, if_false]
  obtain ⟨root, a, b, _, _, _, e⟩ := (rounds_getElem? p.roots p.queries hq2 0).2 (by omega)
  cases hL : p.roots.zip (chunksExact 2 p.queries) with
  | nil => rw [hL] at e; cases e
  | cons x rest =>
    obtain ⟨rt, qs⟩ := x
    rw [proofRounds]
    have : cosetForNaturalIndex idx (2 ^ n) = .panic := by
      unfold cosetForNaturalIndex
      have : ¬ idx < 2 ^ n := by omega
      simp [this, Res.assert]
    simp only [this]
    rfl

theorem proofRounds_no_panic (hc : ChallengeOk F) {t : F} {fin : List F} {idx : ℕ} {v : F} :
    ∀ (L : List (Digest × List (IopQuery F))) (round m : ℕ) (s : FriVState F),
      (∀ x ∈ L, x.2.length = 2) → s.domainSize = 2 ^ m → s.domainIdx < 2 ^ m → L.length ≤ m →
      (L ≠ [] ∨ s.expected.isSome) → proofRounds H t fin idx v round L s ≠ .panic := by
  intro L
  induction L with
  | nil =>
    intro round m s _ _ _ _ he
    simp only [ne_eq, not_true_eq_false, false_or] at he
    obtain ⟨e, he⟩ := Option.isSome_iff_exists.1 he
    rw [proofRounds]
    unfold friFinish
    rw [he]
    simp
  | cons x rest ih =>
    intro round m s hL hs hi hlen _
    obtain ⟨root, qs⟩ := x
    obtain ⟨q0, q1, rfl⟩ := List.length_eq_two.1 (hL (root, qs) (by simp))
    obtain ⟨m', rfl⟩ : ∃ m', m = m' + 1 := ⟨m - 1, by simp at hlen; omega⟩
    rw [proofRounds, hs, coset_eq hi]
    have r0 : rd [q0, q1] 0 = .ok q0 := rfl
    have r1 : rd [q0, q1] 1 = .ok q1 := rfl
    have r2 : rd [s.domainIdx % 2 ^ m', s.domainIdx % 2 ^ m' + 2 ^ m'] 0 = .ok (s.domainIdx % 2 ^ m') := rfl
    simp only [Res.ok_bind, encodeRootIntoChallenge, interpretHash_ok hc, r0, r1, r2]
    split
    · simp
    split
    · simp
    split
    · simp
    unfold checkTreeIndices checkTreeIndices
    split
    · simp
    split
    · simp
    simp only [checkTreeIndices, Res.ok_bind]
    split
    · simp
    split
    · simp
    unfold friAdvance
    rw [hs, nextDomain_eq hi]
    simp only [Res.ok_bind, Res.pure_def]
    apply ih (round + 1) m'
    · exact fun x hx => hL x (List.mem_cons_of_mem _ hx)
    · rfl
    · exact Nat.mod_lt _ (by positivity)
    · simpa using hlen
    · right; rfl

/-- **C30 (part).** With an index inside the claimed domain and between `1` and `n` rounds, the verifier returns
`true`, `false` or an error, whatever the roots, values, paths and coefficients. Missing: proofs without rounds,
with more rounds than the domain has halvings, and indices outside the domain the proof claims. -/
theorem C30_no_panic_partial (hc : ChallengeOk F) (p : FriProof F) (idx : ℕ) (v : F) (n : ℕ)
    (hd : Nat.clog 2 (p.initialDegreePlusOne * p.ldeFactor) = n) (hidx : idx < 2 ^ n)
    (hr : 1 ≤ p.roots.length) (hq : 2 ≤ p.queries.length)
    (hk : min p.roots.length (p.queries.length / 2) ≤ n) : p.verify H idx v ≠ .panic := by
  unfold FriProof.verify FriProof.verifyQueries
  cases hst : (friStart p.initialDegreePlusOne p.ldeFactor idx : Res (F × FriVState F)) with
  | panic =>
    exfalso
    unfold friStart at hst
    rw [newForSize_eq] at hst
    cases h2 : inverse (1 + 1 : F) with
    | none => rw [h2] at hst; cases hst
    | some x =>
      rw [h2] at hst
      simp only [Res.okOr_some, Res.ok_bind] at hst
      split at hst
      · rename_i hS
        simp only [Res.ok_bind, inverse_of_ne (genOf_ne_zero hS), Res.okOr_some] at hst
        split at hst
        · cases hst
        split at hst <;> cases hst
      · cases hst
  | err e => simp
  | ok ts =>
    obtain ⟨t, s⟩ := ts
    obtain ⟨n', hn', hn1, hnS, hodd, rfl, rfl⟩ := friStart_inv hst
    have : n' = n := hn'.symm.trans hd
    subst this
    simp only [Res.ok_bind, ne_eq, OfNat.ofNat_ne_zero, not_false_eq_true, decide_true, Res.assert_true]
    split
    · simp
    rename_i hq2
    have hq2 : p.queries.length % 2 = 0 := not_not.1 hq2
    have hl := (rounds_getElem? p.roots p.queries hq2 0).1
    apply proofRounds_no_panic H hc _ 0 n' _ (rounds_two _ _) rfl hidx (by rw [hl]; exact hk)
    left
    intro h0
    rw [h0] at hl
    simp at hl
    omega

/-! ### Non-vacuity -/

/-- The codeword of `3 + 5x + 7x² + x³` on 16 points of `Fr`, proved with factor 4 and output `out`: verdicts on the
prototype at 5, on the proof at position 5 with the true value and with another one, and the number of roots. -/
def friDemo (out : ℕ) : Res (Bool × Bool × Bool × ℕ) := do
  let d ← Domain.newForSize Fr 16
  let v ← Poly.fromValues (tab 16 (fun i => (3 + 5 * d.generator ^ i + 7 * (d.generator ^ i) ^ 2
    + (d.generator ^ i) ^ 3 : Fr)))
  let proto ← friProofByValues toyHash ⟨2, by norm_num⟩ v 4 out
  let a ← proto.verify v 5
  let proof ← proto.produceProof toyHash v 5
  let x ← rd v.coeffs 5
  let b ← proof.verify toyHash 5 x
  let c ← proof.verify toyHash 5 (x + 1)
  pure (a, b, c, proof.roots.length)

/-- C24–C28: the conditions on the field hold for `Fr`, the prover and both verifiers succeed on the example, and
a wrong oracle value is rejected; with two final coefficients the honest proof is rejected. -/
example : ChallengeOk Fr ∧ friDemo 1 = .ok (true, true, false, 3) ∧ friDemo 2 = .ok (true, false, false, 2) :=
  ⟨by unfold ChallengeOk; decide +kernel, by decide +kernel, by decide +kernel⟩

/-- C29: the attack's hypotheses with claimed degree below 1 on 16 points. -/
example : Nat.clog 2 (1 * 16) = 4 ∧ 4 ≤ StarkField.S Fr := by decide +kernel

/-- C29: a bad challenge exists: `x² - x³` folds to `x(1 - β)`, so `β = 1` is bad at level 1. -/
example : Spec.BadChallenge 1 (X ^ 2 - X ^ 3 : Fr[X]) 1 := by
  refine ⟨?_, 0, ?_, by simp⟩
  · intro h
    have := (degree_lt_iff_coeff_zero _ _).1 h 2 (by norm_num)
    rw [coeff_sub, coeff_X_pow, coeff_X_pow] at this
    norm_num at this
  · refine ⟨X, -X, ?_, ?_⟩
    · simp; ring
    · simp

end Hodor

import Verif.Lemmas.Valid
import Verif.Model.F257

/-! # C04, C05, C06: FFT -/

namespace Hodor

variable {F : Type} [Field F]

/-- **C04.** On every vector of length `2^k` (`k < 32`) and every `ω` with `ω^(2^(k-1)) = -1`
(no condition for `k = 0`), `serial_fft` returns normally (no out-of-bounds access) with the DFT. -/
theorem C04_serial_fft (k : ℕ) (hk : k < 32) (a : List F) (ha : a.length = 2 ^ k) (ω : F)
    (hω : k ≠ 0 → ω ^ 2 ^ (k - 1) = -1) :
    ∃ b, serialFft a ω k = .ok b ∧ Spec.IsDft a ω b := by
  have e := eq_tab_getD a 0
  rw [ha] at e
  rw [e]
  exact ⟨_, serialFft_tab k hk ω hω _, isDft_tab' _ _ _⟩
where
  isDft_tab' (n : ℕ) (g : ℕ → F) (ω : F) : Spec.IsDft (tab n g) ω (tab n (dftF ω n g)) := by
    unfold Spec.IsDft
    rw [length_tab, length_tab]
    refine ⟨rfl, fun j hj => ?_⟩
    rw [getElem?_tab, if_pos hj]
    congr 1
    unfold dftF
    apply Finset.sum_congr rfl
    intro i hi
    rw [List.getD, getElem?_tab, if_pos (Finset.mem_range.1 hi), Option.getD_some]

/-- Non-vacuity of C04: `ω = 3^64` in `Fr`, length 4. -/
example : ((3 : Fr) ^ 64) ^ 2 ^ (2 - 1) = -1 ∧
    serialFft ([1, 2, 3, 4] : List Fr) (3 ^ 64) 2 = .ok [10, 30, 255, 223] := by
  constructor
  · decide +kernel
  · decide +kernel

/-- **C05** (`best_fft`): for every worker and every admissible CPU hint (`1 ≤ hint ≤ cpus`, or none) the
result is the DFT. -/
theorem C05_best_fft (w : Worker) (k : ℕ) (hk : k < 32) (a : List F) (ha : a.length = 2 ^ k) (ω : F)
    (hω : k ≠ 0 → ω ^ 2 ^ (k - 1) = -1) (hint : Option ℕ)
    (hh : ∀ h, hint = some h → 0 < h ∧ h ≤ w.cpus) :
    ∃ b, bestFft w a ω k hint = .ok b ∧ Spec.IsDft a ω b := by
  have e := eq_tab_getD a 0
  rw [ha] at e
  rw [e]
  exact ⟨_, bestFft_tab w k hk ω hω _ hint hh, C04_serial_fft.isDft_tab' _ _ _⟩

/-- **C05** (`parallel_fft`): for every split into `2^c` sub-transforms, `c ≤ k`, and every worker. -/
theorem C05_parallel_fft (w : Worker) (k c : ℕ) (hk : k < 32) (hc : c ≤ k) (a : List F)
    (ha : a.length = 2 ^ k) (ω : F) (hω : k ≠ 0 → ω ^ 2 ^ (k - 1) = -1) (h1 : k = 0 → ω = 1) :
    ∃ b, parallelFft w a ω k c = .ok b ∧ Spec.IsDft a ω b := by
  have e := eq_tab_getD a 0
  rw [ha] at e
  rw [e]
  refine ⟨_, parallelFft_tab w k c (by omega) hc ω hω ?_ _, C04_serial_fft.isDft_tab' _ _ _⟩
  by_cases h0 : k = 0
  · rw [h1 h0, one_pow]
  · exact HalfNeg.pow_eq_one hω h0

/-- **C05**: any two workers / hints give the same vector. -/
theorem C05_cpu_independent (w w' : Worker) (k : ℕ) (hk : k < 32) (a : List F) (ha : a.length = 2 ^ k)
    (ω : F) (hω : k ≠ 0 → ω ^ 2 ^ (k - 1) = -1) (hint hint' : Option ℕ)
    (hh : ∀ h, hint = some h → 0 < h ∧ h ≤ w.cpus) (hh' : ∀ h, hint' = some h → 0 < h ∧ h ≤ w'.cpus) :
    bestFft w a ω k hint = bestFft w' a ω k hint' := by
  have e := eq_tab_getD a 0
  rw [ha] at e
  rw [e, bestFft_tab w k hk ω hω _ hint hh, bestFft_tab w' k hk ω hω _ hint' hh']

/-- Non-vacuity of C05: 8 points, 4 CPUs (so the parallel branch with 4 sub-transforms runs). -/
example : ((3 : Fr) ^ 32) ^ 2 ^ (3 - 1) = -1 ∧
    bestFft ⟨4, by norm_num⟩ ([1, 2, 3, 4, 5, 6, 7, 8] : List Fr) (3 ^ 32) 3 none
      = serialFft [1, 2, 3, 4, 5, 6, 7, 8] (3 ^ 32) 3 := by
  constructor
  · decide +kernel
  · decide +kernel

variable [StarkField F]

/-- **C06** (`fft`/`ifft`): on every well-formed polynomial, with any workers, `fft` returns the values
at `ω^i` and `ifft` undoes it. -/
theorem C06_fft (w w' : Worker) (p : Poly F .coefficients) (hp : p.Valid) (h32 : p.exp < 32) :
    ∃ q, p.fft w = .ok q ∧ q.Valid ∧ Spec.EvaluatesOn p.coeffs 1 p.omega p.size q.coeffs ∧
      q.ifft w' = .ok p := by
  obtain ⟨k, g, hk, rfl⟩ := hp.exists_mk
  simp only [mkPoly_exp] at h32
  refine ⟨_, fft_mk w hk h32 g, valid_mkPoly _ hk _, ?_, ?_⟩
  · rw [mkPoly_size]
    apply evaluatesOn_tab
    intro j _
    rw [mkPoly_coeffs, evalPoly_tab, dftF_eq_evalF', one_mul]; rfl
  · rw [ifft_mk w' hk h32]
    congr 1
    apply mkPoly_congr
    intro i hi
    rw [dftF_inv_dftF (genOf_prim hk) (by positivity) _ hi]
    have h1 := pow2_cast_ne_zero hk
    field_simp

/-- **C06** (`ifft`/`fft`): `ifft` returns the coefficients of the polynomial with the given values and
`fft` undoes it. -/
theorem C06_ifft (w w' : Worker) (v : Poly F .values) (hv : v.Valid) (h32 : v.exp < 32) :
    ∃ p, v.ifft w = .ok p ∧ p.Valid ∧ Spec.EvaluatesOn p.coeffs 1 v.omega v.size v.coeffs ∧
      p.fft w' = .ok v := by
  obtain ⟨k, g, hk, rfl⟩ := hv.exists_mk
  simp only [mkPoly_exp] at h32
  obtain ⟨p, hpd, hpe⟩ := exists_poly_values hk (one_ne_zero) g
  simp only [one_mul] at hpe
  have e : mkPoly Form.values k g = mkPoly .values k (fun i => p.eval (genOf F k ^ i)) :=
    mkPoly_congr (fun i hi => (hpe i hi).symm)
  rw [e]
  refine ⟨_, ifft_poly w hk h32 hpd, valid_mkPoly _ hk _, ?_, ?_⟩
  · rw [mkPoly_size]
    apply evaluatesOn_tab
    intro j _
    rw [mkPoly_coeffs, evalPoly_tab, evalF_coeff hpd, one_mul]; rfl
  · rw [fft_poly w' hk h32 hpd]

/-- **C06** (cosets): `coset_fft` returns the values at `g·ω^i`, `g` the multiplicative generator, and
`icoset_fft` undoes it. -/
theorem C06_coset_fft (w w' : Worker) (p : Poly F .coefficients) (hp : p.Valid) (h32 : p.exp < 32) :
    ∃ q, p.cosetFft w = .ok q ∧ q.Valid ∧
      Spec.EvaluatesOn p.coeffs StarkField.mulGen p.omega p.size q.coeffs ∧ q.icosetFft w' = .ok p := by
  obtain ⟨k, g, hk, rfl⟩ := hp.exists_mk
  simp only [mkPoly_exp] at h32
  refine ⟨_, cosetFft_mk w hk h32 g, valid_mkPoly _ hk _, ?_, ?_⟩
  · rw [mkPoly_size]
    apply evaluatesOn_tab
    intro j _
    rw [mkPoly_coeffs, evalPoly_tab, dftF_eq_evalF]; rfl
  · rw [icosetFft_mk w' hk h32]
    congr 1
    apply mkPoly_congr
    intro i hi
    rw [dftF_inv_dftF (genOf_prim hk) (by positivity) _ hi, inv_pow]
    have h1 := pow2_cast_ne_zero hk
    have h2 := pow_ne_zero i (StarkField.mulGen_ne_zero (F := F))
    field_simp

/-- **C06** (cosets, other direction). -/
theorem C06_icoset_fft (w w' : Worker) (v : Poly F .values) (hv : v.Valid) (h32 : v.exp < 32) :
    ∃ p, v.icosetFft w = .ok p ∧ p.Valid ∧
      Spec.EvaluatesOn p.coeffs StarkField.mulGen v.omega v.size v.coeffs ∧ p.cosetFft w' = .ok v := by
  obtain ⟨k, g, hk, rfl⟩ := hv.exists_mk
  simp only [mkPoly_exp] at h32
  obtain ⟨p, hpd, hpe⟩ := exists_poly_values hk (StarkField.mulGen_ne_zero (F := F)) g
  have e : mkPoly Form.values k g
      = mkPoly .values k (fun i => p.eval (StarkField.mulGen * genOf F k ^ i)) :=
    mkPoly_congr (fun i hi => (hpe i hi).symm)
  rw [e]
  refine ⟨_, icosetFft_poly w hk h32 hpd, valid_mkPoly _ hk _, ?_, ?_⟩
  · rw [mkPoly_size]
    apply evaluatesOn_tab
    intro j _
    rw [mkPoly_coeffs, evalPoly_tab, evalF_coeff hpd]; rfl
  · rw [cosetFft_poly w' hk h32 hpd]

/-- **C06** (arbitrary coset generator): `coset_fft_for_generator(c)` returns the values at `c·ω^i`; for
`c ≠ 0`, `icoset_fft_for_generator` with the inverse of `c` undoes it. -/
theorem C06_coset_fft_for_generator (w w' : Worker) (p : Poly F .coefficients) (hp : p.Valid)
    (h32 : p.exp < 32) (c : F) (hc : c ≠ 0) :
    ∃ q, p.cosetFftForGenerator w c = .ok q ∧ q.Valid ∧
      Spec.EvaluatesOn p.coeffs c p.omega p.size q.coeffs ∧
      q.icosetFftForGenerator w' c⁻¹ = .ok p := by
  obtain ⟨k, g, hk, rfl⟩ := hp.exists_mk
  simp only [mkPoly_exp] at h32
  refine ⟨_, cosetFftForGenerator_mk w hk h32 g c, valid_mkPoly _ hk _, ?_, ?_⟩
  · rw [mkPoly_size]
    apply evaluatesOn_tab
    intro j _
    rw [mkPoly_coeffs, evalPoly_tab, dftF_eq_evalF]; rfl
  · rw [icosetFftForGenerator_mk w' hk h32]
    congr 1
    apply mkPoly_congr
    intro i hi
    rw [dftF_inv_dftF (genOf_prim hk) (by positivity) _ hi, inv_pow]
    have h1 := pow2_cast_ne_zero hk
    have h2 := pow_ne_zero i hc
    field_simp

/-- Every object returned by `from_coeffs` / `from_values` is well-formed, so the hypotheses of C06 are
met by every polynomial a user can build. -/
theorem C06_constructors_valid [DecidableEq F] {P : Form} (l : List F) (p : Poly F P)
    (h : Poly.ofVec l = .ok p) : p.Valid := by
  rw [eq_tab_getD l 0, ofVec_tab] at h
  split at h
  · cases h; exact valid_mkPoly _ ‹_› _
  · cases h

/-- Non-vacuity: a polynomial with 3 coefficients over `Fr` (padded to 4). -/
example : ∃ p : Poly Fr .coefficients, Poly.fromCoeffs [5, 6, 7] = .ok p ∧ p.Valid ∧ p.exp < 32 ∧
    p.coeffs = [5, 6, 7, 0] := by
  refine ⟨_, rfl, C06_constructors_valid [5, 6, 7] _ rfl, by decide +kernel, by decide +kernel⟩

end Hodor

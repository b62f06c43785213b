import Verif.Lemmas.DitFft
import Verif.Lemmas.Radix4
import Verif.Lemmas.RecursiveFft
import Verif.Model.FilteringLde
import Verif.Props.Fft
import Verif.Props.Lde

/-! # C07, C08, C53: the other transform kernels -/

namespace Hodor

variable {F : Type} [Field F]

/-- A vector as a table that is zero past its end. -/
theorem eq_tab_pad {k : ℕ} (a : List F) (ha : a.length = 2 ^ k) : a = tab (2 ^ k) (fun i => a.getD i 0) := by
  have e := eq_tab_getD a 0
  rw [ha] at e
  exact e

theorem getD_pad {a : List F} {N : ℕ} (hz : ∀ i, N ≤ i → i < a.length → a[i]? = some 0) :
    ∀ j, N ≤ j → a.getD j 0 = 0 := by
  intro j hj
  rw [List.getD]
  by_cases h : j < a.length
  · rw [hz j hj h, Option.getD_some]
  · rw [List.getElem?_eq_none (by omega), Option.getD_none]

/-! ## C07 -/

/-- **C07** (decimation in frequency, serial): for every bound `nz` past which the input is zero. -/
theorem C07_serial_dit (k : ℕ) (hk : k < 64) (a : List F) (ha : a.length = 2 ^ k) (ω : F)
    (hω : k ≠ 0 → ω ^ 2 ^ (k - 1) = -1) (nz : ℕ) (hz : ∀ i, nz ≤ i → i < a.length → a[i]? = some 0) :
    ∃ b, serialDitFft a ω k nz = .ok b ∧ Spec.IsDft a ω b := by
  have hx := getD_pad hz
  rw [eq_tab_pad a ha]
  exact ⟨_, serialDitFft_tab k hk ω hω nz _ hx, C04_serial_fft.isDft_tab' _ _ _⟩

/-- **C07** (decimation in frequency, parallel), every split into `2^c` sub-transforms. -/
theorem C07_parallel_dit (w : Worker) (k c : ℕ) (hk : k < 64) (hc : c ≤ k) (a : List F) (ha : a.length = 2 ^ k) (ω : F)
    (hω : k ≠ 0 → ω ^ 2 ^ (k - 1) = -1) (h1 : k = 0 → ω = 1) (nz : ℕ)
    (hz : ∀ i, nz ≤ i → i < a.length → a[i]? = some 0) :
    ∃ b, parallelDitFft w a ω k c nz = .ok b ∧ Spec.IsDft a ω b := by
  have hx := getD_pad hz
  rw [eq_tab_pad a ha]
  refine ⟨_, parallelDitFft_tab w k c (by omega) hc ω hω ?_ nz _ hx, C04_serial_fft.isDft_tab' _ _ _⟩
  by_cases h0 : k = 0
  · rw [h1 h0, one_pow]
  · exact HalfNeg.pow_eq_one hω h0

/-- **C07** (`best_DIT_fft`), every worker. -/
theorem C07_best_dit (w : Worker) (k : ℕ) (hk : k < 64) (a : List F) (ha : a.length = 2 ^ k) (ω : F)
    (hω : k ≠ 0 → ω ^ 2 ^ (k - 1) = -1) (nz : ℕ) (hz : ∀ i, nz ≤ i → i < a.length → a[i]? = some 0) :
    ∃ b, bestDitFft w a ω k nz = .ok b ∧ Spec.IsDft a ω b := by
  have hx := getD_pad hz
  rw [eq_tab_pad a ha]
  exact ⟨_, bestDitFft_tab w k hk ω hω nz _ hx, C04_serial_fft.isDft_tab' _ _ _⟩

/-- **C07** (radix 4, serial), every even `log n`. -/
theorem C07_serial_radix4 (k : ℕ) (hk : k < 64) (he : k % 2 = 0) (a : List F) (ha : a.length = 2 ^ k) (ω : F)
    (hω : k ≠ 0 → ω ^ 2 ^ (k - 1) = -1) :
    ∃ b, serialRadix4 a ω k = .ok b ∧ Spec.IsDft a ω b := by
  rw [eq_tab_pad a ha]
  obtain ⟨K, rfl⟩ : ∃ K, k = 2 * K := ⟨k / 2, by omega⟩
  exact ⟨_, serialRadix4_tab K hk ω hω _, C04_serial_fft.isDft_tab' _ _ _⟩

/-- **C07** (radix 4, parallel), every even split. -/
theorem C07_parallel_radix4 (w : Worker) (k c : ℕ) (hk : k < 64) (he : k % 2 = 0) (hc : c ≤ k) (hce : c % 2 = 0) (a : List F)
    (ha : a.length = 2 ^ k) (ω : F) (hω : k ≠ 0 → ω ^ 2 ^ (k - 1) = -1) (h1 : k = 0 → ω = 1) :
    ∃ b, parallelRadix4 w a ω k c = .ok b ∧ Spec.IsDft a ω b := by
  rw [eq_tab_pad a ha]
  obtain ⟨K, rfl⟩ : ∃ K, k = 2 * K := ⟨k / 2, by omega⟩
  obtain ⟨c, rfl⟩ : ∃ c', c = 2 * c' := ⟨c / 2, by omega⟩
  refine ⟨_, parallelRadix4_tab w K c hk (by omega) ω hω ?_ _, C04_serial_fft.isDft_tab' _ _ _⟩
  by_cases h0 : 2 * K = 0
  · rw [h1 h0, one_pow]
  · exact HalfNeg.pow_eq_one hω h0

/-- **C07** (radix 4 `best_fft`), every worker. -/
theorem C07_best_radix4 (w : Worker) (k : ℕ) (hk : k < 64) (he : k % 2 = 0) (a : List F) (ha : a.length = 2 ^ k) (ω : F)
    (hω : k ≠ 0 → ω ^ 2 ^ (k - 1) = -1) :
    ∃ b, bestRadix4 w a ω k = .ok b ∧ Spec.IsDft a ω b := by
  rw [eq_tab_pad a ha]
  obtain ⟨K, rfl⟩ : ∃ K, k = 2 * K := ⟨k / 2, by omega⟩
  exact ⟨_, bestRadix4_tab w K hk ω hω _, C04_serial_fft.isDft_tab' _ _ _⟩

/-- **C07**: radix 4 refuses odd `log n` by panicking, it never returns a wrong transform. -/
theorem C07_radix4_odd (w : Worker) (k c : ℕ) (he : k % 2 = 1) (a : List F) (ω : F) :
    serialRadix4 a ω k = .panic ∧ parallelRadix4 w a ω k c = .panic ∧ bestRadix4 w a ω k = .panic := by
  have h : decide (k % 2 = 0) = false := by rw [he]; rfl
  have hb : bestRadix4 w a ω k = .panic := by unfold bestRadix4; rw [h]; rfl
  refine ⟨?_, ?_, hb⟩
  · unfold serialRadix4
    rw [h]
    simp only [Res.assert]
    split <;> [split <;> rfl; rfl]
  · unfold parallelRadix4
    rw [h]
    simp only [Res.assert]
    split <;> rfl

/-- **C07** (prefetching kernels): with `nightly` every transform returns, on every input (also where it panics), exactly what
the default kernel returns; all results about `best_fft` therefore hold for both builds. -/
theorem C07_prefetch_fft (nightly : Bool) (w : Worker) (a : List F) (ω : F) (logN : ℕ) (hint : Option ℕ) :
    kernelFft nightly w a ω logN hint = bestFft w a ω logN hint := by
  cases nightly
  · rfl
  · exact prefetchBestFft_eq w a ω logN hint

/-- Non-vacuity of C07: 16 points, 4 CPUs, 3 non-zero entries. -/
example : ((3 : Fr) ^ 16) ^ 2 ^ (4 - 1) = -1 ∧
    bestDitFft ⟨4, by norm_num⟩ ([5, 6, 7] ++ List.replicate 13 0 : List Fr) (3 ^ 16) 4 3
      = serialFft ([5, 6, 7] ++ List.replicate 13 0) (3 ^ 16) 4 ∧
    bestRadix4 ⟨5, by norm_num⟩ ([5, 6, 7] ++ List.replicate 13 1 : List Fr) (3 ^ 16) 4
      = serialFft ([5, 6, 7] ++ List.replicate 13 1) (3 ^ 16) 4 := by
  refine ⟨?_, ?_, ?_⟩ <;> decide +kernel

/-! ## C08 -/

/-- **C08** (`serial_lde`), default and prefetching. -/
theorem C08_serial_lde (k e : ℕ) (hk : k < 32) (a : List F) (ha : a.length = 2 ^ k) (ω : F)
    (hω : k ≠ 0 → ω ^ 2 ^ (k - 1) = -1) (hz : ∀ i, a.length / 2 ^ e ≤ i → i < a.length → a[i]? = some 0) :
    ∃ b, serialLde a ω k (2 ^ e) = .ok b ∧ prefetchSerialLde a ω k (2 ^ e) = .ok b ∧ Spec.IsDft a ω b := by
  have hx := getD_pad hz
  rw [ha] at hx
  rw [eq_tab_pad a ha]
  exact ⟨_, serialLde_tab k e hk ω hω _ hx, prefetchSerialLde_tab k e hk ω hω _ hx, C04_serial_fft.isDft_tab' _ _ _⟩

/-- **C08** (`parallel_lde`), default and prefetching, every split. -/
theorem C08_parallel_lde (w : Worker) (k c e : ℕ) (hk : k < 32) (hc : c ≤ k) (a : List F) (ha : a.length = 2 ^ k) (ω : F)
    (hω : k ≠ 0 → ω ^ 2 ^ (k - 1) = -1) (h1 : k = 0 → ω = 1)
    (hz : ∀ i, a.length / 2 ^ e ≤ i → i < a.length → a[i]? = some 0) :
    ∃ b, parallelLde w a ω k c (2 ^ e) = .ok b ∧ prefetchParallelLde w a ω k c (2 ^ e) = .ok b ∧ Spec.IsDft a ω b := by
  have hx := getD_pad hz
  rw [ha] at hx
  rw [eq_tab_pad a ha]
  have h1' : ω ^ 2 ^ k = 1 := by
    by_cases h0 : k = 0
    · rw [h1 h0, one_pow]
    · exact HalfNeg.pow_eq_one hω h0
  exact ⟨_, parallelLde_tab w k c e (by omega) hc ω hω h1' _ hx,
    prefetchParallelLde_tab w k c e (by omega) hc ω hω h1' _ hx, C04_serial_fft.isDft_tab' _ _ _⟩

/-- **C08** (`best_lde`): both builds, every worker, every power-of-two factor (also larger than the vector). -/
theorem C08_best_lde (nightly : Bool) (w : Worker) (k e : ℕ) (hk : k < 32) (a : List F) (ha : a.length = 2 ^ k) (ω : F)
    (hω : k ≠ 0 → ω ^ 2 ^ (k - 1) = -1) (hz : ∀ i, a.length / 2 ^ e ≤ i → i < a.length → a[i]? = some 0) :
    ∃ b, kernelLde nightly w a ω k (2 ^ e) = .ok b ∧ Spec.IsDft a ω b := by
  have hx := getD_pad hz
  rw [ha] at hx
  rw [eq_tab_pad a ha]
  unfold kernelLde
  cases nightly
  · exact ⟨_, bestLde_tab w k e hk ω hω _ hx, C04_serial_fft.isDft_tab' _ _ _⟩
  · exact ⟨_, prefetchBestLde_tab w k e hk ω hω _ hx, C04_serial_fft.isDft_tab' _ _ _⟩

/-- Non-vacuity of C08: 16 points, factor 8, 2 CPUs (sparse rounds and the parallel branch). -/
example : ((3 : Fr) ^ 16) ^ 2 ^ (4 - 1) = -1 ∧
    bestLde ⟨2, by norm_num⟩ ([5, 6] ++ List.replicate 14 0 : List Fr) (3 ^ 16) 4 8
      = serialFft ([5, 6] ++ List.replicate 14 0) (3 ^ 16) 4 ∧
    prefetchBestLde ⟨2, by norm_num⟩ ([5, 6] ++ List.replicate 14 0 : List Fr) (3 ^ 16) 4 8
      = serialFft ([5, 6] ++ List.replicate 14 0) (3 ^ 16) 4 := by
  refine ⟨?_, ?_, ?_⟩ <;> decide +kernel

section poly
variable [StarkField F] [DecidableEq F]

theorem kernelLde_tab (nightly : Bool) (w : Worker) (L e : ℕ) (hL : L < 32) (ω : F) (hω : HalfNeg ω L) (x : ℕ → F)
    (hx : ∀ j, 2 ^ L / 2 ^ e ≤ j → x j = 0) :
    kernelLde nightly w (tab (2 ^ L) x) ω L (2 ^ e) = .ok (tab (2 ^ L) (dftF ω (2 ^ L) x)) := by
  unfold kernelLde
  cases nightly
  · exact bestLde_tab w L e hL ω hω x hx
  · exact prefetchBestLde_tab w L e hL ω hω x hx

theorem extendAndTransform_tab (nightly : Bool) (w : Worker) {k f : ℕ} (hS : k + f ≤ StarkField.S F) (h32 : k + f < 32)
    (g : ℕ → F) :
    Poly.extendAndTransform nightly w (tab (2 ^ k) g) (2 ^ f)
      = .ok (mkPoly .values (k + f) (fun i => evalF (2 ^ k) g (genOf F (k + f) ^ i))) := by
  unfold Poly.extendAndTransform
  simp only [length_tab]
  rw [← pow_add, newForSize_pow hS, Res.ok_bind]
  have hle : 2 ^ k ≤ 2 ^ (k + f) := Nat.pow_le_pow_right (by norm_num) (by omega)
  rw [resize_tab]
  show kernelLde nightly w _ (genOf F (k + f)) (k + f) _ >>= _ = _
  rw [kernelLde_tab nightly w (k + f) f h32 _ (genOf_halfNeg hS) _, Res.ok_bind, fromValues_pow hS]
  · congr 1
    apply mkPoly_congr
    intro i _
    rw [dftF_eq_evalF']
    unfold evalF
    rw [show 2 ^ (k + f) = 2 ^ k + (2 ^ (k + f) - 2 ^ k) by omega, Finset.sum_range_add]
    rw [Finset.sum_eq_zero (s := Finset.range (2 ^ (k + f) - 2 ^ k)), add_zero]
    · apply Finset.sum_congr rfl
      intro t ht
      dsimp only
      rw [if_pos (Finset.mem_range.1 ht)]
    · intro t _
      dsimp only
      rw [if_neg (by omega), zero_mul]
  · intro j hj
    rw [pow_add, Nat.mul_div_cancel _ (by positivity)] at hj
    exact if_neg (by omega)

/-- **C08** (`filtering_lde`): unlike `lde` (C09), correct for every worker, in both builds. -/
theorem C08_filtering_lde (nightly : Bool) (w : Worker) (p : Poly F .coefficients) (hp : p.Valid) (f : ℕ)
    (hS : p.exp + f ≤ StarkField.S F) (h32 : p.exp + f < 32) :
    Spec.LdeCorrect p (2 ^ f) 1 (p.filteringLde nightly w (2 ^ f)) := by
  obtain ⟨k, g, hk, rfl⟩ := hp.exists_mk
  simp only [mkPoly_exp] at h32 hS
  have e : (mkPoly .coefficients k g).filteringLde nightly w (2 ^ f)
      = .ok (mkPoly .values (k + f) (fun i => evalF (2 ^ k) g (genOf F (k + f) ^ i))) := by
    unfold Poly.filteringLde
    split
    · rename_i h1
      have : f = 0 := by
        rcases Nat.eq_zero_or_pos f with h | h
        · exact h
        · have := Nat.one_lt_two_pow (n := f) (by omega); omega
      subst this
      rw [fft_mk w hk (by omega)]
      congr 1
      apply mkPoly_congr
      intro i _
      rw [dftF_eq_evalF']; rfl
    · rw [isPow2_iff.2 ⟨f, rfl⟩, Res.assert_true, Res.ok_bind]
      exact extendAndTransform_tab nightly w hS h32 g
  unfold Spec.LdeCorrect
  rw [mkPoly_size, ← pow_add, newForSize_pow hS, e]
  refine ⟨_, _, rfl, rfl, rfl, ?_⟩
  apply evaluatesOn_tab
  intro j _
  rw [mkPoly_coeffs, evalPoly_tab, one_mul]

/-- **C08** (`coset_filtering_lde`): correct for every worker, in both builds. -/
theorem C08_coset_filtering_lde (nightly : Bool) (w : Worker) (p : Poly F .coefficients) (hp : p.Valid) (f : ℕ)
    (hS : p.exp + f ≤ StarkField.S F) (h32 : p.exp + f < 32) :
    Spec.LdeCorrect p (2 ^ f) StarkField.mulGen (p.cosetFilteringLde nightly w (2 ^ f)) := by
  obtain ⟨k, g, hk, rfl⟩ := hp.exists_mk
  simp only [mkPoly_exp] at h32 hS
  have e : (mkPoly .coefficients k g).cosetFilteringLde nightly w (2 ^ f)
      = .ok (mkPoly .values (k + f) (fun i => evalF (2 ^ k) g (StarkField.mulGen * genOf F (k + f) ^ i))) := by
    unfold Poly.cosetFilteringLde
    split
    · rename_i h1
      have : f = 0 := by
        rcases Nat.eq_zero_or_pos f with h | h
        · exact h
        · have := Nat.one_lt_two_pow (n := f) (by omega); omega
      subst this
      rw [cosetFft_mk w hk (by omega)]
      congr 1
      apply mkPoly_congr
      intro i _
      rw [dftF_eq_evalF]; rfl
    · rw [isPow2_iff.2 ⟨f, rfl⟩, Res.assert_true, Res.ok_bind]
      dsimp only
      rw [distributePowers_mk]
      rw [mkPoly_coeffs, extendAndTransform_tab nightly w hS h32]
      congr 1
      apply mkPoly_congr
      intro i _
      unfold evalF
      apply Finset.sum_congr rfl
      intro t _
      rw [mul_pow]; ring
  unfold Spec.LdeCorrect
  rw [mkPoly_size, ← pow_add, newForSize_pow hS, e]
  refine ⟨_, _, rfl, rfl, rfl, ?_⟩
  apply evaluatesOn_tab
  intro j _
  rw [mkPoly_coeffs, evalPoly_tab]

/-- Non-vacuity: factor 4 on 2 CPUs, where `lde` returns a wrong vector (`C09_lde_wrong`), `filtering_lde` does not. -/
example : ∃ p : Poly Fr .coefficients, Poly.fromCoeffs [0, 1] = .ok p ∧ p.exp + 2 ≤ StarkField.S Fr ∧
    p.filteringLde true ⟨2, by norm_num⟩ 4 = p.ldeNaive ⟨2, by norm_num⟩ 4 ∧
    p.filteringLde false ⟨2, by norm_num⟩ 4 ≠ p.lde ⟨2, by norm_num⟩ 4 :=
  ⟨_, rfl, by decide +kernel, by decide +kernel, by decide +kernel⟩

end poly

/-! ## C53: the recursive kernels -/

/-- **C53** (`recursive_fft::best_fft`): the DFT for every vector of length at least 2, every worker. -/
theorem C53_recursive_fft (w : Worker) (k : ℕ) (hk : k ≠ 0) (a : List F) (ha : a.length = 2 ^ k) (ω : F)
    (hω : ω ^ 2 ^ (k - 1) = -1) :
    ∃ b, recursiveFft k a ω = .ok b ∧ recursiveBestFft w a ω k = .ok b ∧ Spec.IsDft a ω b := by
  rw [eq_tab_pad a ha]
  exact ⟨_, recursiveFft_tab k hk ω (fun _ => hω) _, recursiveBestFft_tab w k hk ω (fun _ => hω) _,
    C04_serial_fft.isDft_tab' _ _ _⟩

/-- **C53** (`recursive_lde::best_lde`): the DFT for every vector of length at least 2; no zero pattern is required. -/
theorem C53_recursive_lde [DecidableEq F] (w : Worker) (k : ℕ) (hk : k ≠ 0) (a : List F) (ha : a.length = 2 ^ k) (ω : F)
    (hω : ω ^ 2 ^ (k - 1) = -1) :
    ∃ b, recursiveLde k a ω = .ok b ∧ recursiveBestLde w a ω k = .ok b ∧ Spec.IsDft a ω b := by
  rw [eq_tab_pad a ha]
  exact ⟨_, recursiveLde_tab k hk ω (fun _ => hω) _, recursiveBestLde_tab w k hk ω (fun _ => hω) _,
    C04_serial_fft.isDft_tab' _ _ _⟩

/-- **C53**: on a vector of length 1, where `serial_fft` returns the vector unchanged (C04), `recursive_fft` panics, and
`recursive_lde` panics unless the entry is zero. -/
theorem C53_length_one [DecidableEq F] (w : Worker) (x ω : F) :
    recursiveFft 0 [x] ω = .panic ∧ recursiveBestFft w [x] ω 0 = .panic ∧
    recursiveLde 0 [x] ω = (if x = 0 then .ok [0] else .panic) := by
  have h : recursiveFft 0 [x] ω = .panic := rfl
  refine ⟨h, ?_, ?_⟩
  · unfold recursiveBestFft
    rw [if_pos (Nat.zero_le _)]
    exact h
  · rw [recursiveLde]
    by_cases hx : x = 0
    · simp [hx]
    · simp [hx]

/-- Non-vacuity of C53: 8 points on 2 CPUs. -/
example : ((3 : Fr) ^ 32) ^ 2 ^ (3 - 1) = -1 ∧
    recursiveBestFft ⟨2, by norm_num⟩ ([1, 2, 3, 4, 5, 6, 7, 8] : List Fr) (3 ^ 32) 3
      = serialFft [1, 2, 3, 4, 5, 6, 7, 8] (3 ^ 32) 3 ∧
    recursiveBestLde ⟨2, by norm_num⟩ ([1, 2, 0, 0, 0, 0, 0, 0] : List Fr) (3 ^ 32) 3
      = serialFft [1, 2, 0, 0, 0, 0, 0, 0] (3 ^ 32) 3 := by
  refine ⟨?_, ?_, ?_⟩ <;> decide +kernel

end Hodor

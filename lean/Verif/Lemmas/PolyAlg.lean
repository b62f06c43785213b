import Verif.Lemmas.Lde
import Mathlib.LinearAlgebra.Lagrange

/-!
Connection between coefficient tables and Mathlib polynomials.
-/

namespace Hodor

open Finset Polynomial

section
variable {F : Type} [Field F]

/-- The polynomial with coefficients `g 0, …, g (n-1)`. -/
noncomputable def polyOf (n : ℕ) (g : ℕ → F) : F[X] := ∑ i ∈ range n, C (g i) * X ^ i

theorem polyOf_eval (n : ℕ) (g : ℕ → F) (x : F) : (polyOf n g).eval x = evalF n g x := by
  unfold polyOf evalF
  simp [eval_finset_sum]

theorem polyOf_coeff (n : ℕ) (g : ℕ → F) (i : ℕ) :
    (polyOf n g).coeff i = if i < n then g i else 0 := by
  unfold polyOf
  simp [finset_sum_coeff, coeff_C_mul, coeff_X_pow]

theorem polyOf_degree (n : ℕ) (g : ℕ → F) : (polyOf n g).degree < n := by
  rw [degree_lt_iff_coeff_zero]
  intro m hm
  rw [polyOf_coeff, if_neg (by exact_mod_cast not_lt.2 hm)]

theorem evalF_coeff {n : ℕ} {p : F[X]} (h : p.degree < n) (x : F) :
    evalF n p.coeff x = p.eval x := by
  rw [← polyOf_eval]
  congr 1
  ext i
  rw [polyOf_coeff]
  split
  · rfl
  · rename_i hi
    exact ((degree_lt_iff_coeff_zero _ _).1 h i (by omega)).symm

theorem polyOf_coeff_self {n : ℕ} {p : F[X]} (h : p.degree < n) : polyOf n p.coeff = p := by
  ext i
  rw [polyOf_coeff]
  split
  · rfl
  · rename_i hi
    exact ((degree_lt_iff_coeff_zero _ _).1 h i (by omega)).symm

theorem polyOf_congr {n : ℕ} {g h : ℕ → F} (e : ∀ i, i < n → g i = h i) : polyOf n g = polyOf n h := by
  ext i; rw [polyOf_coeff, polyOf_coeff]; split
  · exact e _ ‹_›
  · rfl

/-- Two polynomials of degree `< n` that agree on the points `s·ω^i`, `i < n`, are equal. -/
theorem eq_of_eval_coset {n : ℕ} {ω s : F} (hω : IsPrimitiveRoot ω n) (hs : s ≠ 0) {p q : F[X]}
    (hp : p.degree < n) (hq : q.degree < n) (h : ∀ i, i < n → p.eval (s * ω ^ i) = q.eval (s * ω ^ i)) :
    p = q := by
  apply Polynomial.eq_of_degrees_lt_of_eval_index_eq (s := range n) (v := fun i => s * ω ^ i)
  · intro i hi j hj e
    simp only [coe_range, Set.mem_Iio] at hi hj
    exact hω.pow_inj hi hj (mul_left_cancel₀ hs e)
  · simpa using hp
  · simpa using hq
  · intro i hi
    exact h i (mem_range.1 hi)

variable [StarkField F]

theorem ifft_poly (w : Worker) {k : ℕ} (hk : k ≤ StarkField.S F) (h32 : k < 32) {p : F[X]}
    (hp : p.degree < (2 ^ k : ℕ)) :
    (mkPoly .values k (fun i => p.eval (genOf F k ^ i))).ifft w = .ok (mkPoly .coefficients k p.coeff) := by
  rw [ifft_mk w hk h32]
  congr 1
  apply mkPoly_congr
  intro i hi
  have e : dftF (genOf F k)⁻¹ (2 ^ k) (fun i => p.eval (genOf F k ^ i)) i
      = dftF (genOf F k)⁻¹ (2 ^ k) (dftF (genOf F k) (2 ^ k) p.coeff) i := by
    apply dftF_congr
    intro j _
    rw [dftF_eq_evalF', evalF_coeff hp]
  rw [e, dftF_inv_dftF (genOf_prim hk) (by positivity) _ hi]
  have h1 := pow2_cast_ne_zero hk
  field_simp

theorem icosetFft_poly (w : Worker) {k : ℕ} (hk : k ≤ StarkField.S F) (h32 : k < 32) {p : F[X]}
    (hp : p.degree < (2 ^ k : ℕ)) :
    (mkPoly .values k (fun i => p.eval (StarkField.mulGen * genOf F k ^ i))).icosetFft w
      = .ok (mkPoly .coefficients k p.coeff) := by
  rw [icosetFft_mk w hk h32]
  congr 1
  apply mkPoly_congr
  intro i hi
  have e : dftF (genOf F k)⁻¹ (2 ^ k) (fun i => p.eval (StarkField.mulGen * genOf F k ^ i)) i
      = dftF (genOf F k)⁻¹ (2 ^ k)
        (dftF (genOf F k) (2 ^ k) (fun i => p.coeff i * StarkField.mulGen ^ i)) i := by
    apply dftF_congr
    intro j _
    rw [dftF_eq_evalF, evalF_coeff hp]
  rw [e, dftF_inv_dftF (genOf_prim hk) (by positivity) _ hi]
  have h1 := pow2_cast_ne_zero hk
  have h2 := pow_ne_zero i (StarkField.mulGen_ne_zero (F := F))
  rw [inv_pow]
  field_simp

theorem fft_poly (w : Worker) {k : ℕ} (hk : k ≤ StarkField.S F) (h32 : k < 32) {p : F[X]}
    (hp : p.degree < (2 ^ k : ℕ)) :
    (mkPoly .coefficients k p.coeff).fft w = .ok (mkPoly .values k (fun i => p.eval (genOf F k ^ i))) := by
  rw [fft_mk w hk h32]
  congr 1
  apply mkPoly_congr
  intro i _
  rw [dftF_eq_evalF', evalF_coeff hp]

theorem cosetFft_poly (w : Worker) {k : ℕ} (hk : k ≤ StarkField.S F) (h32 : k < 32) {p : F[X]}
    (hp : p.degree < (2 ^ k : ℕ)) :
    (mkPoly .coefficients k p.coeff).cosetFft w
      = .ok (mkPoly .values k (fun i => p.eval (StarkField.mulGen * genOf F k ^ i))) := by
  rw [cosetFft_mk w hk h32]
  congr 1
  apply mkPoly_congr
  intro i _
  rw [dftF_eq_evalF, evalF_coeff hp]

theorem lde_poly [DecidableEq F] (w : Worker) {k f : ℕ} (hk : k + f ≤ StarkField.S F) (h32 : k < 32)
    (hok : LdeOk w (2 ^ f)) {p : F[X]} (hp : p.degree < (2 ^ k : ℕ)) :
    (mkPoly .coefficients k p.coeff).lde w (2 ^ f)
      = .ok (mkPoly .values (k + f) (fun i => p.eval (genOf F (k + f) ^ i))) := by
  rw [lde_mk w hk h32 hok]
  congr 1
  apply mkPoly_congr
  intro i _
  rw [evalF_coeff hp]

theorem cosetLde_poly [DecidableEq F] (w : Worker) {k f : ℕ} (hk : k + f ≤ StarkField.S F) (h32 : k < 32)
    (hok : LdeOk w (2 ^ f)) {p : F[X]} (hp : p.degree < (2 ^ k : ℕ)) :
    (mkPoly .coefficients k p.coeff).cosetLde w (2 ^ f)
      = .ok (mkPoly .values (k + f) (fun i => p.eval (StarkField.mulGen * genOf F (k + f) ^ i))) := by
  rw [cosetLde_mk w hk h32 hok]
  congr 1
  apply mkPoly_congr
  intro i _
  rw [evalF_coeff hp]

/-- Any value table is the evaluation of a polynomial of degree `< 2^k`. -/
theorem exists_poly_values {k : ℕ} (hk : k ≤ StarkField.S F) {s : F} (hs : s ≠ 0) (v : ℕ → F) :
    ∃ p : F[X], p.degree < (2 ^ k : ℕ) ∧ ∀ i, i < 2 ^ k → p.eval (s * genOf F k ^ i) = v i := by
  have hinj : Set.InjOn (fun i => s * genOf F k ^ i) (range (2 ^ k) : Set ℕ) := by
    intro i hi j hj e
    simp only [coe_range, Set.mem_Iio] at hi hj
    exact (genOf_prim hk).pow_inj hi hj (mul_left_cancel₀ hs e)
  refine ⟨Lagrange.interpolate (range (2 ^ k)) (fun i => s * genOf F k ^ i) v, ?_, ?_⟩
  · have := Lagrange.degree_interpolate_lt v hinj
    simpa using this
  · intro i hi
    exact Lagrange.eval_interpolate_at_node v hinj (mem_range.2 hi)

end

end Hodor

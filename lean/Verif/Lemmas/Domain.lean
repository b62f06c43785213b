import Verif.Model.Domain
import Verif.Lemmas.ParallelFft
import Mathlib.Algebra.Field.GeomSum
import Mathlib.Algebra.CharP.Two
import Mathlib.Tactic.LinearCombination

namespace Hodor

open Finset

theorem nextPow2_pow (k : ℕ) : nextPow2 (2 ^ k) = 2 ^ k := by
  unfold nextPow2; rw [Nat.clog_pow _ _ (by norm_num)]

theorem isPow2_iff {n : ℕ} : isPow2 n = true ↔ ∃ k, n = 2 ^ k := by
  unfold isPow2
  constructor
  · intro h
    simp only [Bool.and_eq_true, bne_iff_ne, beq_iff_eq] at h
    exact ⟨Nat.clog 2 n, h.2.symm⟩
  · rintro ⟨k, rfl⟩
    simp [nextPow2_pow]

theorem shiftCount_pow (fuel k acc : ℕ) (h : k ≤ fuel) :
    shiftCount fuel (2 ^ k) acc = acc + k := by
  induction fuel generalizing k acc with
  | zero => simp at h; subst h; rfl
  | succ fuel ih =>
    cases k with
    | zero => simp [shiftCount]
    | succ k =>
      rw [shiftCount, if_neg]
      · rw [Nat.pow_succ, Nat.mul_div_cancel _ (by norm_num), ih _ _ (by omega)]; ring
      · intro h
        have : 2 ^ (k + 1) > 1 := Nat.one_lt_two_pow (by omega)
        omega

theorem squareN_eq {F : Type} [Field F] (n : ℕ) (g : F) : squareN n g = g ^ 2 ^ n := by
  induction n generalizing g with
  | zero => simp [squareN]
  | succ n ih => rw [squareN, ih, ← pow_two, ← pow_mul, pow_succ']

variable {F : Type} [Field F] [StarkField F]

/-- Generator of the domain of size `2^k`. -/
def genOf (F : Type) [Field F] [StarkField F] (k : ℕ) : F :=
  StarkField.root ^ 2 ^ (StarkField.S F - k)

theorem newForSize_eq (n : ℕ) :
    Domain.newForSize F n =
      if Nat.clog 2 n ≤ StarkField.S F then
        .ok { size := 2 ^ Nat.clog 2 n, powerOfTwo := Nat.clog 2 n, generator := genOf F (Nat.clog 2 n) }
      else .err .error := by
  unfold Domain.newForSize
  have : shiftCount (nextPow2 n) (nextPow2 n) 0 = Nat.clog 2 n := by
    unfold nextPow2
    rw [shiftCount_pow _ _ _ (Nat.lt_two_pow_self).le, Nat.zero_add]
  simp only [this, squareN_eq]
  by_cases h : Nat.clog 2 n ≤ StarkField.S F
  · rw [if_neg (by omega), if_pos h]; rfl
  · rw [if_pos (by omega), if_neg h]

theorem newForSize_pow {k : ℕ} (hk : k ≤ StarkField.S F) :
    Domain.newForSize F (2 ^ k) = .ok { size := 2 ^ k, powerOfTwo := k, generator := genOf F k } := by
  rw [newForSize_eq, Nat.clog_pow _ _ (by norm_num), if_pos hk]

theorem genOf_prim {k : ℕ} (hk : k ≤ StarkField.S F) : IsPrimitiveRoot (genOf F k) (2 ^ k) := by
  apply (StarkField.root_prim (F := F)).pow (by positivity)
  rw [← pow_add]; congr 1; omega

theorem genOf_pow {k m : ℕ} (h : k + m ≤ StarkField.S F) :
    (genOf F (k + m)) ^ 2 ^ m = genOf F k := by
  unfold genOf
  rw [← pow_mul, ← pow_add]; congr 2; omega

theorem genOf_ne_zero {k : ℕ} (hk : k ≤ StarkField.S F) : genOf F k ≠ 0 :=
  (genOf_prim hk).ne_zero (by positivity)

theorem genOf_pow_card {k : ℕ} (hk : k ≤ StarkField.S F) : genOf F k ^ 2 ^ k = 1 :=
  (genOf_prim hk).pow_eq_one

theorem halfNeg_of_prim {ω : F} {k : ℕ} (h : IsPrimitiveRoot ω (2 ^ k)) : HalfNeg ω k := by
  intro h0
  obtain ⟨m, rfl⟩ := Nat.exists_eq_succ_of_ne_zero h0
  simp only [Nat.succ_eq_add_one, Nat.add_sub_cancel]
  have h2 : IsPrimitiveRoot (ω ^ 2 ^ m) 2 := h.pow (by positivity) (by rw [Nat.succ_eq_add_one, pow_succ])
  exact h2.eq_neg_one_of_two_right

theorem genOf_halfNeg {k : ℕ} (hk : k ≤ StarkField.S F) : HalfNeg (genOf F k) k :=
  halfNeg_of_prim (genOf_prim hk)

theorem two_ne_zero_of_S (h : 1 ≤ StarkField.S F) : (2 : F) ≠ 0 := by
  intro h2
  have hp := genOf_prim (F := F) (k := 1) h
  have := (genOf_halfNeg (F := F) (k := 1) h) (by norm_num)
  simp only [Nat.sub_self, pow_zero, pow_one] at this
  have h1 : genOf F 1 = 1 := by
    rw [this]
    linear_combination (-1 : F) * h2
  have := hp.pow_ne_one_of_pos_of_lt (l := 1) (by norm_num) (by norm_num)
  simp [h1] at this

theorem pow2_cast_ne_zero {k : ℕ} (hk : k ≤ StarkField.S F) : ((2 ^ k : ℕ) : F) ≠ 0 := by
  rcases Nat.eq_zero_or_pos k with h | h
  · subst h; simp
  · rw [Nat.cast_pow]
    exact pow_ne_zero _ (by exact_mod_cast two_ne_zero_of_S (F := F) (by omega))

omit [StarkField F] in
/-- Orthogonality of the characters `i ↦ ω^(i*j)`. -/
theorem sum_prim {ω : F} {n : ℕ} (h : IsPrimitiveRoot ω n) (hn : 0 < n) {j k : ℕ} (hj : j < n)
    (hk : k < n) :
    ∑ i ∈ range n, ω ^ (i * j) * (ω⁻¹) ^ (i * k) = if j = k then (n : F) else 0 := by
  have hω : ω ≠ 0 := h.ne_zero hn.ne'
  have e : ∀ i, ω ^ (i * j) * (ω⁻¹) ^ (i * k) = (ω ^ j * (ω⁻¹) ^ k) ^ i := by
    intro i
    rw [mul_pow, ← pow_mul, ← pow_mul, mul_comm j, mul_comm k]
  simp only [e]
  split
  · rename_i h1
    subst h1
    have : ω ^ j * (ω⁻¹) ^ j = 1 := by
      rw [← mul_pow, mul_inv_cancel₀ hω, one_pow]
    simp only [this, one_pow, sum_const, card_range, nsmul_eq_mul, mul_one]
  · rename_i h1
    set ζ := ω ^ j * (ω⁻¹) ^ k with hζ
    have h2 : ζ ≠ 1 := by
      intro h3
      apply h1
      apply h.pow_inj hj hk
      have : ω ^ j * (ω⁻¹) ^ k * ω ^ k = ω ^ k := by rw [← hζ, h3, one_mul]
      rwa [mul_assoc, ← mul_pow, inv_mul_cancel₀ hω, one_pow, mul_one] at this
    have h3 : ζ ^ n = 1 := by
      rw [hζ, mul_pow, ← pow_mul, ← pow_mul, mul_comm j, mul_comm k, pow_mul, pow_mul,
        h.pow_eq_one, inv_pow, h.pow_eq_one]
      simp
    have h4 := mul_geom_sum ζ n
    rw [h3, sub_self] at h4
    rcases mul_eq_zero.1 h4 with h5 | h5
    · exact absurd (sub_eq_zero.1 h5) h2
    · exact h5

omit [StarkField F] in
theorem dftF_inv_dftF {ω : F} {n : ℕ} (h : IsPrimitiveRoot ω n) (hn : 0 < n) (x : ℕ → F) {k : ℕ}
    (hk : k < n) : dftF ω⁻¹ n (dftF ω n x) k = n * x k := by
  unfold dftF
  simp only [sum_mul]
  rw [sum_comm]
  have : ∀ i ∈ range n, (∑ j ∈ range n, x i * ω ^ (i * j) * ω⁻¹ ^ (j * k))
      = if i = k then n * x k else 0 := by
    intro i hi
    have hi := mem_range.1 hi
    have e : ∀ j, x i * ω ^ (i * j) * ω⁻¹ ^ (j * k) = x i * (ω ^ (j * i) * ω⁻¹ ^ (j * k)) := by
      intro j; rw [mul_comm i j, mul_assoc]
    simp only [e]
    rw [← mul_sum, sum_prim h hn hi hk]
    split
    · rename_i h; subst h; ring
    · ring
  rw [sum_congr rfl this, sum_ite_eq' (range n) k]
  simp [hk]

omit [StarkField F] in
theorem dftF_congr {ω : F} {n : ℕ} {x y : ℕ → F} (h : ∀ i, i < n → x i = y i) (k : ℕ) :
    dftF ω n x k = dftF ω n y k := by
  unfold dftF
  apply sum_congr rfl
  intro i hi
  rw [h i (mem_range.1 hi)]

end Hodor

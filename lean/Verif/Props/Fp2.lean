import Verif.Model.Fp2
import Mathlib.Algebra.QuadraticAlgebra.Basic
import Mathlib.FieldTheory.Finite.Basic
import Mathlib.Algebra.CharP.Lemmas
import Mathlib.Algebra.CharP.Algebra
import Mathlib.NumberTheory.LegendreSymbol.Basic
import Mathlib.Tactic.LinearCombination

/-!
# C47, C48, C49: the quadratic extension

The specification is `F[u]/(u² - 3)`, Mathlib's `QuadraticAlgebra F 3 0` over the 252-bit field.
-/

namespace Hodor

open StarkField

/-- `F[u]/(u² - 3)` -/
abbrev K := QuadraticAlgebra FrStark 3 0

/-- The element `c0 + c1·u`. -/
def Fq2.toK (x : Fq2) : K := ⟨x.c0, x.c1⟩

theorem Fq2.toK_inj {x y : Fq2} : x.toK = y.toK ↔ x = y := by
  rw [QuadraticAlgebra.ext_iff, Fq2.ext_iff]; rfl

/-! ### The constants -/

theorem two_ne : (2 : FrStark) ≠ 0 := natCast_ne_zero_of_lt (a := 2) (by norm_num) (by decide +kernel)

theorem rawFq_eq {l : List ℕ} {n : ℕ} (h : limbInt l % starkPrime = n * 2 ^ 256 % starkPrime) : rawFq l = (n : FrStark) := by
  have h2 : ((limbInt l : ℕ) : FrStark) = (n * 2 ^ 256 : ℕ) := (ZMod.natCast_eq_natCast_iff' _ _ _).2 h
  show ((limbInt l : ℕ) : FrStark) * (2 ^ 256)⁻¹ = n
  rw [h2, Nat.cast_mul, mul_assoc, Nat.cast_pow, Nat.cast_ofNat, mul_inv_cancel₀ (pow_ne_zero _ two_ne), mul_one]

theorem nonResidue_eq : nonResidue = 3 := by
  have := rawFq_eq (l := [0xffffffffffffffa1, 0xffffffffffffffff, 0xffffffffffffffff, 0x07fffffffffff9b0]) (n := 3) (by decide +kernel)
  exact_mod_cast this

theorem minusOne_eq : minusOne = -1 := by
  have h : minusOne = ((starkPrime - 1 : ℕ) : FrStark) := rawFq_eq (by decide +kernel)
  rw [h, Nat.cast_sub (by decide +kernel), ZMod.natCast_self, Nat.cast_one, zero_sub]

theorem rawFq_zero : rawFq [0, 0, 0, 0] = 0 := by
  have := rawFq_eq (l := [0, 0, 0, 0]) (n := 0) (by decide +kernel)
  exact_mod_cast this

theorem fPrecomputed_eq : fPrecomputed = ⟨6, 0⟩ := by
  have := rawFq_eq (l := [0xffffffffffffff41, 0xffffffffffffffff, 0xffffffffffffffff, 0x07fffffffffff350]) (n := 6) (by decide +kernel)
  rw [fPrecomputed, this, rawFq_zero]; norm_num

/-- The second coefficient of `E_PRECOMPUTED`. -/
def eConst : ℕ := 2599127771280771111494737816600757520908996875452096623836955028922386980563

theorem ePrecomputed_eq : ePrecomputed = ⟨0, (eConst : FrStark)⟩ := by
  have := rawFq_eq (l := [0xb11079dbfdb6981f, 0x701bb8e5e5b53751, 0x6fe88e46d707bcab, 0x02365bb6d67e6298]) (n := eConst) (by decide +kernel)
  rw [ePrecomputed, this, rawFq_zero]

/-- `E² · F = 1` in the extension. -/
theorem eConst_sq : (eConst : FrStark) * eConst * 3 * 6 = 1 := by
  have : ((eConst * eConst * 3 * 6 : ℕ) : FrStark) = ((1 : ℕ) : FrStark) := (ZMod.natCast_eq_natCast_iff' _ _ _).2 (by decide +kernel)
  exact_mod_cast this

theorem three_pow : (3 : FrStark) ^ ((starkPrime - 1) / 2) = -1 := by
  have := (zpow_eq_iff (p := starkPrime) (a := 3) 252 (starkPrime - 1) (b := (starkPrime - 1) / 2) (by decide +kernel)).2 (by decide +kernel)
  rw [Nat.cast_sub (by decide +kernel), ZMod.natCast_self, Nat.cast_one, zero_sub] at this
  exact_mod_cast this

theorem six_pow : (6 : FrStark) ^ ((starkPrime - 1) / 2) = -1 := by
  have := (zpow_eq_iff (p := starkPrime) (a := 6) 252 (starkPrime - 1) (b := (starkPrime - 1) / 2) (by decide +kernel)).2 (by decide +kernel)
  rw [Nat.cast_sub (by decide +kernel), ZMod.natCast_self, Nat.cast_one, zero_sub] at this
  exact_mod_cast this

theorem neg_one_ne_one : (-1 : FrStark) ≠ 1 := by
  intro h
  apply two_ne
  linear_combination -h

/-- 3 is not a square: `F[u]/(u² - 3)` is a field. -/
theorem three_not_square (r : FrStark) : r ^ 2 ≠ 3 := by
  intro h
  have h3 := three_pow
  have hr : r ≠ 0 := by
    rintro rfl
    exact natCast_ne_zero_of_lt (p := starkPrime) (a := 3) (by norm_num) (by decide +kernel) (by rw [Nat.cast_ofNat, ← h]; ring)
  rw [← h, ← pow_mul, show 2 * ((starkPrime - 1) / 2) = starkPrime - 1 by decide +kernel, ZMod.pow_card_sub_one_eq_one hr] at h3
  exact neg_one_ne_one h3.symm

instance : Fact (∀ r : FrStark, r ^ 2 ≠ 3 + 0 * r) := ⟨fun r => by rw [zero_mul, add_zero]; exact three_not_square r⟩

/-! ### C47: arithmetic -/

namespace Fq2

theorem zero_toK : zero.toK = 0 := rfl
theorem one_toK : one.toK = 1 := rfl

theorem square_toK (x : Fq2) : x.square.toK = x.toK ^ 2 := by
  rw [pow_two]
  ext <;> simp only [square, toK, nonResidue_eq, QuadraticAlgebra.re_mul, QuadraticAlgebra.im_mul] <;> ring

theorem mul_toK (x y : Fq2) : (x.mul y).toK = x.toK * y.toK := by
  ext <;> simp only [mul, toK, nonResidue_eq, QuadraticAlgebra.re_mul, QuadraticAlgebra.im_mul] <;> ring

theorem isZero_iff (x : Fq2) : x.isZero = true ↔ x = zero := by
  simp [isZero, Fq2.ext_iff, zero]

/-- **C47**: every operation of the extension type is the corresponding operation of `F[u]/(u² - 3)`. -/
theorem C47_operations (x y : Fq2) (a : FrStark) :
    zero.toK = 0 ∧ one.toK = 1 ∧ (x.isZero = true ↔ x.toK = 0) ∧
    (x.add y).toK = x.toK + y.toK ∧ (x.sub y).toK = x.toK - y.toK ∧ x.negate.toK = -x.toK ∧ x.double.toK = 2 * x.toK ∧
    (x.mul y).toK = x.toK * y.toK ∧ x.square.toK = x.toK ^ 2 ∧
    (x.mulBy0 a).toK = x.toK * ⟨a, 0⟩ ∧ (x.mulBy1 a).toK = x.toK * ⟨0, a⟩ := by
  refine ⟨rfl, rfl, ?_, rfl, rfl, rfl, ?_, mul_toK x y, square_toK x, ?_, ?_⟩
  · rw [isZero_iff, ← toK_inj, zero_toK]
  · rw [two_mul]; rfl
  · ext <;> simp only [mulBy0, toK, QuadraticAlgebra.re_mul, QuadraticAlgebra.im_mul] <;> ring
  · ext <;> simp only [mulBy1, toK, nonResidue_eq, QuadraticAlgebra.re_mul, QuadraticAlgebra.im_mul] <;> ring

/-- **C47**: `inverse` is the inverse, and is `None` exactly for zero. -/
theorem C47_inverse (x : Fq2) :
    (x.inv = none ↔ x.toK = 0) ∧ ∀ y, x.inv = some y ↔ x.toK * y.toK = 1 := by
  have hz := (C47_operations x x 0).2.2.1
  have hn : x.toK ≠ 0 → x.c0 * x.c0 - x.c1 * x.c1 * nonResidue ≠ 0 := by
    intro h h0
    rw [nonResidue_eq] at h0
    by_cases h1 : x.c1 = 0
    · rw [h1] at h0
      have : x.c0 = 0 := by simpa using h0
      exact h (by ext <;> simp [toK, h1, this])
    · apply three_not_square (x.c0 / x.c1)
      field_simp
      linear_combination h0
  by_cases h : x.toK = 0
  · have : x.inv = none := by rw [inv, if_pos (hz.2 h)]
    simp [this, h]
  · have hx : x.inv = some { c0 := x.c0 * (x.c0 * x.c0 - x.c1 * x.c1 * nonResidue)⁻¹, c1 := -(x.c1 * (x.c0 * x.c0 - x.c1 * x.c1 * nonResidue)⁻¹) } := by
      rw [inv, if_neg (fun e => h (hz.1 e))]
      simp only [inverse_of_ne (hn h), Option.map_some]
    have key : x.toK * (⟨x.c0 * (x.c0 * x.c0 - x.c1 * x.c1 * nonResidue)⁻¹, -(x.c1 * (x.c0 * x.c0 - x.c1 * x.c1 * nonResidue)⁻¹)⟩ : Fq2).toK = 1 := by
      have := hn h
      rw [nonResidue_eq] at this ⊢
      ext
      · simp only [toK, QuadraticAlgebra.re_mul, QuadraticAlgebra.re_one]
        linear_combination mul_inv_cancel₀ this
      · simp only [toK, QuadraticAlgebra.im_mul, QuadraticAlgebra.im_one]
        ring
    refine ⟨by simp [hx, h], fun y => ?_⟩
    rw [hx, Option.some_inj, ← toK_inj]
    constructor
    · intro e; rw [← e]; exact key
    · intro e
      exact mul_left_cancel₀ h (key.trans e.symm)

/-- A concrete inverse: `(2 + u)⁻¹ = 2 - u`. -/
example : (⟨2, 1⟩ : Fq2).inv = some ⟨2, -1⟩ := by
  rw [(C47_inverse _).2]
  ext
  · simp only [toK, QuadraticAlgebra.re_mul, QuadraticAlgebra.re_one]; ring
  · simp only [toK, QuadraticAlgebra.im_mul, QuadraticAlgebra.im_one]; ring

/-! ### C48: the norm -/

/-- **C48** (what holds): the code's `norm` is `c0² + 3·c1²`; it is multiplicative on a pair exactly if one of the four coefficients is
zero, and is the norm of the extension exactly on the base field. The claim asks for multiplicativity on every pair: refuted below. -/
theorem C48_norm_partial (x y : Fq2) :
    ((x.mul y).norm = x.norm * y.norm ↔ x.c0 = 0 ∨ x.c1 = 0 ∨ y.c0 = 0 ∨ y.c1 = 0) ∧
    (x.norm = QuadraticAlgebra.norm x.toK ↔ x.c1 = 0) := by
  have h12 : (12 : FrStark) ≠ 0 := natCast_ne_zero_of_lt (a := 12) (by norm_num) (by decide +kernel)
  have h6 : (6 : FrStark) ≠ 0 := natCast_ne_zero_of_lt (a := 6) (by norm_num) (by decide +kernel)
  constructor
  · have e : (x.mul y).norm - x.norm * y.norm = 12 * (x.c0 * (x.c1 * (y.c0 * y.c1))) := by
      simp only [mul, norm, nonResidue_eq]; ring
    rw [← sub_eq_zero, e]
    simp [h12]
  · have e : x.norm - QuadraticAlgebra.norm x.toK = 6 * (x.c1 * x.c1) := by
      rw [QuadraticAlgebra.norm_def]
      simp only [norm, toK, nonResidue_eq]; ring
    rw [← sub_eq_zero, e]
    simp [h6]

/-- **C48 is false**: `norm` is not multiplicative. -/
theorem C48_norm_not_multiplicative : ∃ x y : Fq2, (x.mul y).norm ≠ x.norm * y.norm := by
  refine ⟨⟨1, 1⟩, ⟨1, 1⟩, fun h => ?_⟩
  have := (C48_norm_partial _ _).1.1 h
  simp at this

theorem natCast_of_pow {a b c : ℕ} (hb : b < 2 ^ 252) (h : powMod a starkPrime 252 b = c % starkPrime) : (a : FrStark) ^ b = c :=
  (zpow_eq_iff 252 c hb).2 h

/-- **C48 is false**: `7 + 4u = (2 + u)²`, but `legendre` says it is not a square. -/
theorem C48_legendre_wrong : (⟨2, 1⟩ : Fq2).square = ⟨7, 4⟩ ∧ (⟨7, 4⟩ : Fq2).legendre = -1 := by
  constructor
  · simp only [square, nonResidue_eq, Fq2.mk.injEq]
    constructor <;> norm_num
  · have hn : (⟨7, 4⟩ : Fq2).norm = ((97 : ℕ) : FrStark) := by
      simp only [norm, nonResidue_eq]; norm_num
    have h0 : ((97 : ℕ) : FrStark) ≠ 0 := natCast_ne_zero_of_lt (by norm_num) (by decide +kernel)
    have h1 : ((97 : ℕ) : FrStark) ^ ((starkPrime - 1) / 2) ≠ 1 := by
      rw [Ne, zpow_one_iff 252 (by decide +kernel)]; decide +kernel
    rw [legendre, fqLegendre, hn, if_neg h0, if_neg h1]

/-- **C48 is false**: `legendre` is not a homomorphism. -/
theorem C48_legendre_not_multiplicative : ∃ x y : Fq2, (x.mul y).legendre ≠ x.legendre * y.legendre := by
  refine ⟨⟨2, 1⟩, ⟨2, 1⟩, ?_⟩
  have hm : (⟨2, 1⟩ : Fq2).mul ⟨2, 1⟩ = ⟨7, 4⟩ := by
    simp only [mul, nonResidue_eq, Fq2.mk.injEq]
    constructor <;> norm_num
  rw [hm, C48_legendre_wrong.2]
  unfold legendre fqLegendre
  split
  · norm_num
  · split <;> norm_num

/-! ### Powers -/

theorem powBit_toK (x : Fq2) (bit : Bool) (s : Fq2 × Bool) (v : ℕ) (h1 : s.1.toK = x.toK ^ v) (h2 : s.2 = decide (v ≠ 0)) :
    (powBit x bit s).1.toK = x.toK ^ (2 * v + bit.toNat) ∧ (powBit x bit s).2 = decide (2 * v + bit.toNat ≠ 0) := by
  obtain ⟨s1, s2⟩ := s
  simp only at h1 h2
  subst h2
  by_cases hv : v = 0
  · subst hv
    cases bit <;> simp [powBit, mul_toK, h1]
  · cases bit <;> simp [powBit, hv, mul_toK, square_toK, h1, pow_succ, pow_mul, mul_comm 2 v]

theorem powFold_toK (x : Fq2) (e n : ℕ) (s : Fq2 × Bool) (v : ℕ) (h1 : s.1.toK = x.toK ^ v) (h2 : s.2 = decide (v ≠ 0)) :
    (((List.range n).reverse.map fun i => e.testBit i).foldl (fun s bit => powBit x bit s) s).1.toK = x.toK ^ (v * 2 ^ n + e % 2 ^ n) := by
  induction n generalizing s v with
  | zero => simp [h1, Nat.mod_one]
  | succ n ih =>
    have hb := powBit_toK x (e.testBit n) s v h1 h2
    rw [List.range_succ, List.reverse_append, List.reverse_singleton, List.singleton_append, List.map_cons, List.foldl_cons, ih _ _ hb.1 hb.2]
    congr 1
    rw [Nat.mod_pow_succ, Nat.toNat_testBit]
    ring

/-- `pow` is exponentiation by the integer of the limbs. -/
theorem pow_toK (x : Fq2) (exp : List ℕ) (h : limbInt exp < 2 ^ (64 * exp.length)) : (x.pow exp).toK = x.toK ^ limbInt exp := by
  have := powFold_toK x (limbInt exp) (64 * exp.length) (one, false) 0 (by simp [one_toK]) (by simp)
  rw [pow, this, Nat.mod_eq_of_lt h, Nat.zero_mul, Nat.zero_add]

/-! ### C49: square roots -/

instance : CharP K starkPrime := charP_of_injective_algebraMap (algebraMap FrStark K).injective starkPrime

/-- Frobenius is conjugation. -/
theorem pow_q (z : K) : z ^ starkPrime = ⟨z.re, -z.im⟩ := by
  have hC : ∀ c : FrStark, (⟨c, 0⟩ : K) = algebraMap FrStark K c := fun c => rfl
  have hz : z = algebraMap FrStark K z.re + algebraMap FrStark K z.im * (⟨0, 1⟩ : K) := by
    rw [← hC, ← hC]
    ext <;> simp
  have hu2 : (⟨0, 1⟩ : K) ^ 2 = algebraMap FrStark K 3 := by
    rw [← hC, pow_two]
    ext <;> simp
  have hu : (⟨0, 1⟩ : K) ^ starkPrime = -⟨0, 1⟩ := by
    have : (⟨0, 1⟩ : K) ^ starkPrime = (⟨0, 1⟩ : K) ^ (2 * ((starkPrime - 1) / 2) + 1) := congrArg _ (by decide +kernel)
    rw [this, pow_succ, pow_mul, hu2, ← map_pow, three_pow, map_neg, map_one, neg_one_mul]
  have hc : ∀ c : FrStark, (algebraMap FrStark K c) ^ starkPrime = algebraMap FrStark K c := by
    intro c; rw [← map_pow, ZMod.pow_card]
  conv_lhs => rw [hz]
  rw [add_pow_char, mul_pow, hc, hc, hu, ← hC, ← hC]
  ext <;> simp

theorem pow_q_sq (z : K) : (z ^ starkPrime) ^ starkPrime = z := by
  rw [pow_q, pow_q]; ext <;> simp

/-- An external square root of the base field: what the derive macro's `sqrt` promises. -/
def IsSqrt (fqSqrt : FrStark → Option FrStark) : Prop :=
  ∀ a, (∀ r, fqSqrt a = some r → r ^ 2 = a) ∧ (fqSqrt a = none → ¬ IsSquare a)

/-- Such a function exists. -/
theorem exists_isSqrt : ∃ f, IsSqrt f := by
  classical
  refine ⟨fun a => if h : IsSquare a then some h.choose else none, fun a => ⟨fun r hr => ?_, fun hn => ?_⟩⟩
  · simp only at hr
    split at hr
    next h => rw [← Option.some.inj hr, pow_two]; exact h.choose_spec.symm
    next => cases hr
  · simp only at hn
    split at hn
    next => cases hn
    next h => exact h

theorem half_square : (starkPrime - 1) / 4 * 2 * (starkPrime + 1) * 2 = starkPrime * starkPrime - 1 := by decide +kernel

theorem qMinusOneByFour_eq : limbInt qMinusOneByFour = (starkPrime - 1) / 4 := by decide +kernel
theorem fqChar_eq : limbInt fqChar = starkPrime := by decide +kernel
theorem qSquaredMinusOneByTwo_eq : limbInt qSquaredMinusOneByTwo = (starkPrime * starkPrime - 1) / 2 := by decide +kernel
theorem qMinusOneByTwo_eq : limbInt qMinusOneByTwo = (starkPrime - 1) / 2 := by decide +kernel

theorem pow_order {z : K} (hz : z ≠ 0) : z ^ (starkPrime * starkPrime - 1) = 1 := by
  have h := pow_q_sq z
  rw [← pow_mul, show starkPrime * starkPrime = (starkPrime * starkPrime - 1) + 1 by decide +kernel, pow_succ] at h
  exact mul_right_cancel₀ hz (h.trans (one_mul z).symm)


theorem pow_half {z : K} (hz : z ≠ 0) : z ^ ((starkPrime * starkPrime - 1) / 2) = 1 ∨ z ^ ((starkPrime * starkPrime - 1) / 2) = -1 := by
  have h : (z ^ ((starkPrime * starkPrime - 1) / 2)) ^ 2 = 1 := by
    rw [← pow_mul, show (starkPrime * starkPrime - 1) / 2 * 2 = starkPrime * starkPrime - 1 by decide +kernel, pow_order hz]
  exact sq_eq_one_iff.1 h

/-- In `F[u]/(u² - 3)` a non-zero element whose `(q²-1)/2`-th power is not 1 is not a square. -/
theorem half_of_square {z : K} (hz : z ≠ 0) (h : IsSquare z) : z ^ ((starkPrime * starkPrime - 1) / 2) = 1 := by
  obtain ⟨y, rfl⟩ := h
  have hy : y ≠ 0 := by rintro rfl; simp at hz
  rw [← pow_two, ← pow_mul, show 2 * ((starkPrime * starkPrime - 1) / 2) = starkPrime * starkPrime - 1 by decide +kernel, pow_order hy]

theorem K_neg_one_ne_one : (-1 : K) ≠ 1 := by
  intro h
  have := congrArg QuadraticAlgebra.re h
  exact neg_one_ne_one this

/-- An element fixed by Frobenius lies in the base field. -/
theorem im_zero_of_fixed {z : K} (h : z ^ starkPrime = z) : z.im = 0 := by
  rw [pow_q] at h
  have h2 := congrArg QuadraticAlgebra.im h
  simp only at h2
  have : (2 : FrStark) * z.im = 0 := by linear_combination -h2
  exact (mul_eq_zero.1 this).resolve_left two_ne

/-- An element of the base field whose `(q-1)/2`-th power is 1 in the extension is a square of the base field. -/
theorem re_square {z : K} (hz : z ≠ 0) (him : z.im = 0) (h : z ^ ((starkPrime - 1) / 2) = 1) : IsSquare z.re := by
  have hC : z = algebraMap FrStark K z.re := by
    show z = ⟨z.re, 0⟩
    ext <;> simp [him]
  have hr : z.re ≠ 0 := by
    intro e; apply hz; rw [hC, e, map_zero]
  rw [ZMod.euler_criterion starkPrime hr]
  have e : starkPrime / 2 = (starkPrime - 1) / 2 := by decide +kernel
  rw [e]
  apply (algebraMap FrStark K).injective
  rw [map_pow, ← hC, h, map_one]

/-- The value of `b = a^((q-1)/4)` and its products. -/
theorem b_facts {X : K} (hX : X ≠ 0) :
    let b := X ^ ((starkPrime - 1) / 4)
    let N := b ^ starkPrime * b
    N ^ 2 = X ^ ((starkPrime * starkPrime - 1) / 2) ∧
    (b ^ 2 * X) ^ ((starkPrime - 1) / 2) = N ∧
    ((N ^ 2 = 1) → (b ^ 2 * X) ^ starkPrime = b ^ 2 * X) := by
  intro b N
  have hb : b ≠ 0 := pow_ne_zero _ hX
  have h1 : N ^ 2 = X ^ ((starkPrime * starkPrime - 1) / 2) := by
    simp only [N, b]
    rw [← pow_succ, ← pow_mul, ← pow_mul]
    exact congrArg _ (by decide +kernel)
  refine ⟨h1, ?_, ?_⟩
  · simp only [N, b]
    rw [← pow_mul, ← pow_succ, ← pow_mul, ← pow_succ, ← pow_mul]
    exact congrArg _ (by decide +kernel)
  · intro h
    have e : (b ^ 2 * X) ^ starkPrime = b ^ 2 * X * X ^ ((starkPrime * starkPrime - 1) / 2) := by
      simp only [b]
      rw [← pow_mul, ← pow_succ, ← pow_mul, ← pow_add]
      exact congrArg _ (by decide +kernel)
    rw [e, ← h1, h, mul_one]

theorem limbInt4 : limbInt qMinusOneByFour < 2 ^ (64 * qMinusOneByFour.length) ∧ limbInt fqChar < 2 ^ (64 * fqChar.length) ∧
    limbInt qSquaredMinusOneByTwo < 2 ^ (64 * qSquaredMinusOneByTwo.length) := by decide +kernel

theorem minusOneFp2_toK : minusOneFp2.toK = -1 := by
  rw [minusOneFp2, minusOne_eq, rawFq_zero]
  ext
  · rfl
  · exact neg_zero.symm

theorem mulBy0_toK (x : Fq2) (a : FrStark) : (x.mulBy0 a).toK = x.toK * algebraMap FrStark K a := (C47_operations x x a).2.2.2.2.2.2.2.2.2.1

theorem mulBy1_toK (x : Fq2) (a : FrStark) : (x.mulBy1 a).toK = x.toK * ⟨0, a⟩ := (C47_operations x x a).2.2.2.2.2.2.2.2.2.2

theorem eq_algebraMap {z : K} (h : z.im = 0) : z = algebraMap FrStark K z.re := by
  show z = ⟨z.re, 0⟩
  ext <;> simp [h]

theorem sqrt_core (fqSqrt : FrStark → Option FrStark) (hs : IsSqrt fqSqrt) (x : Fq2) (hx : x.toK ≠ 0) :
    ∃ r, x.sqrt fqSqrt = .ok r ∧ (x.toK ^ ((starkPrime * starkPrime - 1) / 2) = -1 → r = none) ∧
      (x.toK ^ ((starkPrime * starkPrime - 1) / 2) = 1 → ∃ y, r = some y ∧ y.toK ^ 2 = x.toK) := by
  have hz := (C47_operations x x 0).2.2.1
  obtain ⟨h1, h2, h3⟩ := b_facts hx
  have hb : (x.pow qMinusOneByFour).toK = x.toK ^ ((starkPrime - 1) / 4) := by rw [pow_toK _ _ limbInt4.1, qMinusOneByFour_eq]
  rw [← hb] at h1 h2 h3
  have hbq : ((x.pow qMinusOneByFour).pow fqChar).toK = (x.pow qMinusOneByFour).toK ^ starkPrime := by
    rw [pow_toK _ _ limbInt4.2.1, fqChar_eq]
  rw [← hbq] at h1 h2 h3
  have hb0 : (x.pow qMinusOneByFour).toK ≠ 0 := by rw [hb]; exact pow_ne_zero _ hx
  rw [sqrt, if_neg (fun e => hx (hz.1 e))]
  dsimp only
  generalize x.pow qMinusOneByFour = b at *
  generalize b.pow fqChar = c at *
  have ha0 : (c.mul b).square = minusOneFp2 ↔ x.toK ^ ((starkPrime * starkPrime - 1) / 2) = -1 := by
    rw [← toK_inj, square_toK, mul_toK, h1, minusOneFp2_toK]
  have hN1 : c.mul b = one ↔ c.toK * b.toK = 1 := by rw [← toK_inj, mul_toK, one_toK]
  have hw : (b.square.mul x).toK = b.toK ^ 2 * x.toK := by rw [mul_toK, square_toK]
  simp only [ha0, hN1]
  rcases pow_half hx with hp | hp
  swap
  · exact ⟨none, by rw [if_pos hp]; rfl, fun _ => rfl, fun h => absurd (hp.symm.trans h) K_neg_one_ne_one⟩
  rw [if_neg (by rw [hp]; exact K_neg_one_ne_one.symm)]
  rw [hp] at h1
  have hw0 : b.toK ^ 2 * x.toK ≠ 0 := mul_ne_zero (pow_ne_zero _ hb0) hx
  have him := im_zero_of_fixed (h3 h1)
  have hre : b.toK ^ 2 * x.toK = algebraMap FrStark K (b.square.mul x).c0 := by
    rw [← hw]; exact eq_algebraMap (by rw [hw]; exact him)
  have hc1 : (b.square.mul x).c1 = 0 := by
    have : (b.square.mul x).toK.im = 0 := by rw [hw]; exact him
    exact this
  by_cases hN : c.toK * b.toK = 1
  · rw [if_pos hN]
    have hsq : IsSquare (b.square.mul x).c0 := by
      have := re_square hw0 him (h2.trans hN)
      rwa [← hw] at this
    obtain ⟨r, hr⟩ : ∃ r, fqSqrt (b.square.mul x).c0 = some r := by
      cases h : fqSqrt (b.square.mul x).c0 with
      | none => exact absurd hsq ((hs _).2 h)
      | some r => exact ⟨r, rfl⟩
    have hr2 := (hs _).1 r hr
    have hy : (c.mulBy0 r).toK ^ 2 = x.toK := by
      rw [mulBy0_toK, mul_pow, ← map_pow, hr2, ← hre]
      linear_combination x.toK * h1
    refine ⟨some (c.mulBy0 r), ?_, ?_, ?_⟩
    · simp [hc1, hr, Res.assert]
    · intro h; exact absurd (h.symm.trans hp) K_neg_one_ne_one
    · exact fun _ => ⟨_, rfl, hy⟩
  · rw [if_neg hN]
    have hN' : c.toK * b.toK = -1 := (sq_eq_one_iff.1 h1).resolve_left hN
    have h6 : algebraMap FrStark K 6 ≠ 0 := by
      rw [Ne, map_eq_zero]; exact natCast_ne_zero_of_lt (a := 6) (by norm_num) (by decide +kernel)
    have hv : ((b.square.mul x).mulBy0 6).toK = b.toK ^ 2 * x.toK * algebraMap FrStark K 6 := by rw [mulBy0_toK, hw]
    have hvim : (b.toK ^ 2 * x.toK * algebraMap FrStark K 6).im = 0 := by
      rw [← hv]; show (b.square.mul x).c1 * 6 = 0; rw [hc1, zero_mul]
    have hsq : IsSquare ((b.square.mul x).mulBy0 6).c0 := by
      have := re_square (mul_ne_zero hw0 h6) hvim (by rw [mul_pow, h2, hN', ← map_pow, six_pow, map_neg, map_one]; ring)
      rwa [← hv] at this
    obtain ⟨r, hr⟩ : ∃ r, fqSqrt ((b.square.mul x).mulBy0 6).c0 = some r := by
      cases h : fqSqrt ((b.square.mul x).mulBy0 6).c0 with
      | none => exact absurd hsq ((hs _).2 h)
      | some r => exact ⟨r, rfl⟩
    have hr2 := (hs _).1 r hr
    have hre6 : algebraMap FrStark K ((b.square.mul x).mulBy0 6).c0 = b.toK ^ 2 * x.toK * algebraMap FrStark K 6 := by
      have him6 : ((b.square.mul x).mulBy0 6).toK.im = 0 := by rw [hv]; exact hvim
      rw [← hv]; exact (eq_algebraMap him6).symm
    have he : (⟨0, (eConst : FrStark)⟩ : K) ^ 2 * algebraMap FrStark K 6 = 1 := by
      have e1 : (⟨0, (eConst : FrStark)⟩ : K) ^ 2 = algebraMap FrStark K (eConst * eConst * 3) := by
        show _ = (⟨eConst * eConst * 3, 0⟩ : K)
        rw [pow_two]
        ext
        · simp only [QuadraticAlgebra.re_mul]; ring
        · simp only [QuadraticAlgebra.im_mul]; ring
      rw [e1, ← map_mul, eConst_sq, map_one]
    have hy : ((c.mulBy0 r).mulBy1 eConst).toK ^ 2 = x.toK := by
      rw [mulBy1_toK, mulBy0_toK, mul_pow, mul_pow, ← map_pow, hr2, hre6]
      linear_combination x.toK * h1 + (c.toK ^ 2 * b.toK ^ 2 * x.toK) * he
    refine ⟨some ((c.mulBy0 r).mulBy1 eConst), ?_, ?_, ?_⟩
    · have hd : ((b.square.mul x).mulBy0 6).c1 = 0 := by show (b.square.mul x).c1 * 6 = 0; rw [hc1, zero_mul]
      simp [fPrecomputed_eq, ePrecomputed_eq, hd, hr, Res.assert]
    · intro h; exact absurd (h.symm.trans hp) K_neg_one_ne_one
    · exact fun _ => ⟨_, rfl, hy⟩

theorem square_iff_half {z : K} (hz : z ≠ 0) : IsSquare z ↔ z ^ ((starkPrime * starkPrime - 1) / 2) = 1 := by
  refine ⟨half_of_square hz, fun h => ?_⟩
  obtain ⟨f, hf⟩ := exists_isSqrt
  obtain ⟨r, -, -, h2⟩ := sqrt_core f hf ⟨z.re, z.im⟩ hz
  obtain ⟨y, -, hy⟩ := h2 h
  exact ⟨y.toK, by rw [← pow_two, hy]; rfl⟩

/-- **C49**: for every element, `sqrt` returns (no assertion fails), its answer is `None` exactly if the element has no square root in
`F[u]/(u² - 3)`, and otherwise the returned element squares to the input. -/
theorem C49_sqrt (fqSqrt : FrStark → Option FrStark) (hs : IsSqrt fqSqrt) (x : Fq2) :
    ∃ r, x.sqrt fqSqrt = .ok r ∧ (r = none ↔ ¬ IsSquare x.toK) ∧ ∀ y, r = some y → y.toK ^ 2 = x.toK := by
  by_cases hx : x.toK = 0
  · refine ⟨some zero, by rw [sqrt, if_pos ((C47_operations x x 0).2.2.1.2 hx)]; rfl, ?_, ?_⟩
    · simp [hx]
    · rintro y e
      rw [← Option.some.inj e, hx, zero_toK]; ring
  · obtain ⟨r, hr, h1, h2⟩ := sqrt_core fqSqrt hs x hx
    refine ⟨r, hr, ?_⟩
    rw [square_iff_half hx]
    rcases pow_half hx with hp | hp
    · obtain ⟨y, rfl, hy⟩ := h2 hp
      refine ⟨by simp [hp], fun y' e => by rw [← Option.some.inj e, hy]⟩
    · refine ⟨by simp [h1 hp, hp, K_neg_one_ne_one], fun y' e => ?_⟩
      rw [h1 hp] at e; cases e

/-- **C49**: `xi`, used to pick the constants, is 1 exactly on the non-zero squares and -1 on the other non-zero elements. -/
theorem C49_xi (x : Fq2) (hx : x.toK ≠ 0) : (x.xi = one ↔ IsSquare x.toK) ∧ (x.xi = minusOneFp2 ↔ ¬ IsSquare x.toK) := by
  have h := pow_half hx
  rw [← toK_inj, ← toK_inj, xi, pow_toK _ _ limbInt4.2.2, qSquaredMinusOneByTwo_eq, one_toK, minusOneFp2_toK, square_iff_half hx]
  refine ⟨Iff.rfl, fun h1 h2 => ?_, fun h1 => h.resolve_left h1⟩
  exact K_neg_one_ne_one (h1.symm.trans h2)

/-- The claim is about real inputs: `7 + 4u` has the root `±(2 + u)`. -/
example (fqSqrt : FrStark → Option FrStark) (hs : IsSqrt fqSqrt) : ∃ y, (⟨7, 4⟩ : Fq2).sqrt fqSqrt = .ok (some y) ∧ (y = ⟨2, 1⟩ ∨ y = ⟨-2, -1⟩) := by
  obtain ⟨r, hr, hn, hy⟩ := C49_sqrt fqSqrt hs ⟨7, 4⟩
  have h74 : (⟨7, 4⟩ : Fq2).toK = (⟨2, 1⟩ : Fq2).toK ^ 2 := by rw [← square_toK, C48_legendre_wrong.1]
  cases r with
  | none => exact absurd (⟨_, by rw [h74, pow_two]⟩) (hn.1 rfl)
  | some y =>
    refine ⟨y, hr, ?_⟩
    have := hy y rfl
    rw [h74] at this
    rcases sq_eq_sq_iff_eq_or_eq_neg.1 this with e | e
    · exact .inl (toK_inj.1 e)
    · exact .inr (toK_inj.1 e)

/-- **C49**: the search for the constants ends, at an element without a square root, and computes exactly the two constants that `sqrt` uses. -/
theorem C49_constants (fuel : ℕ) :
    (3 ≤ fuel → findConstants fuel = .ok (some (ePrecomputed, fPrecomputed)) ∧ ∃ c, findC fuel ⟨1, 1⟩ = some c ∧ ¬ IsSquare c.toK) ∧
    (fuel < 3 → findConstants fuel = .ok none) := by
  have h1 : (⟨1, 1⟩ : Fq2).xi = one := by decide +kernel
  have h2 : (⟨2, 1⟩ : Fq2).xi = one := by decide +kernel
  have h3 : (⟨3, 1⟩ : Fq2).xi = minusOneFp2 := by decide +kernel
  have a1 : (⟨1, 1⟩ : Fq2).add one = ⟨2, 1⟩ := by decide +kernel
  have a2 : (⟨2, 1⟩ : Fq2).add one = ⟨3, 1⟩ := by decide +kernel
  have hne : minusOneFp2 ≠ one := by decide +kernel
  refine ⟨fun h => ?_, fun h => ?_⟩
  · obtain ⟨n, rfl⟩ := Nat.exists_eq_add_of_le h
    have hc : findC (3 + n) ⟨1, 1⟩ = some ⟨3, 1⟩ := by
      rw [show 3 + n = n + 1 + 1 + 1 by omega]
      simp only [findC, h1, a1, h2, a2, h3, if_true, if_neg hne]
    refine ⟨?_, _, hc, ?_⟩
    · have hi : (((⟨3, 1⟩ : Fq2).pow qMinusOneByTwo).mul ⟨3, 1⟩).inv = some ePrecomputed := by decide +kernel
      have hs : (((⟨3, 1⟩ : Fq2).pow qMinusOneByTwo).mul ⟨3, 1⟩).square = fPrecomputed := by decide +kernel
      have hm : ePrecomputed.mul (((⟨3, 1⟩ : Fq2).pow qMinusOneByTwo).mul ⟨3, 1⟩) = one := by decide +kernel
      simp only [findConstants, hc, hi, hs, hm]
      rfl
    · refine ((C49_xi ⟨3, 1⟩ fun h0 => ?_).2).1 h3
      exact one_ne_zero (α := FrStark) (congrArg QuadraticAlgebra.im h0)
  · have hc : findC fuel ⟨1, 1⟩ = none := by
      obtain rfl | rfl | rfl : fuel = 0 ∨ fuel = 1 ∨ fuel = 2 := by omega
      · rfl
      · simp [findC, h1]
      · simp [findC, h1, a1, h2]
    rw [findConstants, hc]
    rfl

/-- **C49**: an element has a square root exactly if its negation has: `sqrt` answers `None` for both or for neither. Trying the negated
element after a `None`, as the benchmark of the file does (fp2.rs 518-523), never helps. -/
theorem C49_negation (fqSqrt : FrStark → Option FrStark) (hs : IsSqrt fqSqrt) (x : Fq2) :
    x.sqrt fqSqrt = .ok none ↔ x.negate.sqrt fqSqrt = .ok none := by
  have hneg : ∀ z : K, IsSquare z → IsSquare (-z) := fun z hz => by
    have h1 : IsSquare (-1 : K) := (square_iff_half (neg_ne_zero.2 one_ne_zero)).2
      (Even.neg_one_pow (by rw [Nat.even_iff]; decide +kernel))
    rw [neg_eq_neg_one_mul]
    exact h1.mul hz
  have key : ∀ y : Fq2, y.sqrt fqSqrt = .ok none ↔ ¬ IsSquare y.toK := fun y => by
    obtain ⟨r, hr, hn, -⟩ := C49_sqrt fqSqrt hs y
    rw [hr, ← hn]
    exact ⟨fun e => Res.ok.inj e, fun e => by rw [e]⟩
  have ht : x.negate.toK = -x.toK := rfl
  rw [key, key, ht]
  exact not_congr ⟨hneg _, fun h => by simpa using hneg _ h⟩

/-- **C49**: repeated roots. The square of an element without a square root has a root, but the one `sqrt` returns has none, and neither has its negation:
the chain of roots of the benchmark (fp2.rs 518-523), which asserts that there is always a next one, stops there. -/
theorem C49_chain_stops (fqSqrt : FrStark → Option FrStark) (hs : IsSqrt fqSqrt) (y : Fq2) (hy : ¬ IsSquare y.toK) :
    ∃ r, y.square.sqrt fqSqrt = .ok (some r) ∧ r.sqrt fqSqrt = .ok none ∧ r.negate.sqrt fqSqrt = .ok none := by
  have none_of : ∀ z : Fq2, ¬ IsSquare z.toK → z.sqrt fqSqrt = .ok none := fun z hz => by
    obtain ⟨r, hr, hn, -⟩ := C49_sqrt fqSqrt hs z
    rw [hr, hn.2 hz]
  obtain ⟨r, hr, hn, hsq⟩ := C49_sqrt fqSqrt hs y.square
  have h2 : y.square.toK = y.toK ^ 2 := square_toK y
  cases r with
  | none => exact absurd ⟨y.toK, by rw [h2, pow_two]⟩ (hn.1 rfl)
  | some r =>
    have hry := hsq r rfl
    rw [h2] at hry
    have hr0 : r.sqrt fqSqrt = .ok none := by
      rcases sq_eq_sq_iff_eq_or_eq_neg.1 hry with e | e
      · exact none_of r (by rw [e]; exact hy)
      · have : r = y.negate := toK_inj.1 e
        rw [this]
        exact (C49_negation fqSqrt hs y).1 (none_of y hy)
    exact ⟨r, hr, hr0, (C49_negation fqSqrt hs r).1 hr0⟩

/-- There are such elements: the `3 + u` the constants come from. -/
example : ¬ IsSquare (⟨3, 1⟩ : Fq2).toK := by
  refine ((C49_xi ⟨3, 1⟩ fun h0 => ?_).2).1 (by decide +kernel)
  exact one_ne_zero (α := FrStark) (congrArg QuadraticAlgebra.im h0)

end Fq2

end Hodor

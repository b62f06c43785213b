import Verif.Model.Field
import Mathlib.Algebra.Field.ZMod
import Mathlib.NumberTheory.LucasPrimality
import Mathlib.Tactic.NormNum.Prime
import Mathlib.GroupTheory.OrderOfElement
import Mathlib.FieldTheory.Finite.Basic

/-!
# The two large fields of the repository

`src/experiments/mod.rs` 18-21 and `src/bn256.rs` 4-7. `#[derive(PrimeField)]` (external crate `ff_derive_ce`) computes
`S` as the number of times 2 divides `p - 1` and `root_of_unity` as the generator to the power `(p-1)/2^S`; an element is stored
as its Montgomery residue with `R = 2^256` (four limbs). Primality is proved with Lucas's criterion.
-/

namespace Hodor

/-- `a^b mod m`, by repeated squaring over `fuel` bits. -/
def powMod (a m : ℕ) : ℕ → ℕ → ℕ
  | 0, _ => 1 % m
  | f + 1, b => (fun h => if b % 2 = 1 then h * h % m * a % m else h * h % m) (powMod a m f (b / 2))

theorem powMod_eq (a m f b : ℕ) (h : b < 2 ^ f) : powMod a m f b = a ^ b % m := by
  induction f generalizing b with
  | zero =>
    have : b = 0 := by simpa using h
    subst this; rfl
  | succ f ih =>
    have h2 : b / 2 < 2 ^ f := by omega
    simp only [powMod, ih _ h2]
    have e : a ^ b = a ^ (b / 2) * a ^ (b / 2) * a ^ (b % 2) := by
      rw [← pow_add, ← pow_add]; congr 1; omega
    split
    next h1 => rw [e, h1, pow_one]; simp [Nat.mul_mod]
    next h1 =>
      have : b % 2 = 0 := by omega
      rw [e, this, pow_zero, mul_one]; simp [Nat.mul_mod]

/-- Deciding equations between powers in `ZMod p`. -/
theorem zpow_eq_iff {p a b : ℕ} (f c : ℕ) (h : b < 2 ^ f) : ((a : ZMod p) ^ b = (c : ZMod p)) ↔ powMod a p f b = c % p := by
  rw [powMod_eq a p f b h, ← Nat.cast_pow, ZMod.natCast_eq_natCast_iff']

theorem zpow_one_iff {p a b : ℕ} (f : ℕ) (h : b < 2 ^ f) : ((a : ZMod p) ^ b = 1) ↔ powMod a p f b = 1 % p := by
  have := zpow_eq_iff (p := p) (a := a) f 1 h
  rwa [Nat.cast_one] at this

/-- What the derive macro produces from a modulus, a generator and `p - 1 = 2^S * t`. -/
@[reducible] def derivedField (p g S t : ℕ) [hp : Fact p.Prime] (hS : p - 1 = 2 ^ (S + 1) * t)
    (hg0 : (g : ZMod p) ≠ 0) (hg : (g : ZMod p) ^ (2 ^ S * t) ≠ 1) (hp2 : (2 : ZMod p) ≠ 0) : StarkField (ZMod p) where
  S := S + 1
  root := (g : ZMod p) ^ t
  root_prim := by
    have : orderOf ((g : ZMod p) ^ t) = 2 ^ (S + 1) := by
      apply orderOf_eq_prime_pow
      · rw [← pow_mul, mul_comm]; exact hg
      · rw [← pow_mul, mul_comm, ← hS]
        exact ZMod.pow_card_sub_one_eq_one hg0
    rw [← this]
    exact IsPrimitiveRoot.orderOf _
  mulGen := g
  mulGen_ne_zero := hg0
  modulus := p
  modulus_pos := hp.out.one_lt
  repr := ZMod.val
  repr_lt := ZMod.val_lt
  cast_repr := ZMod.natCast_zmod_val
  rawRepr := fun x => (x * 2 ^ 256).val
  rawRepr_lt := fun x => ZMod.val_lt _
  ofRawRepr := fun n => (n : ZMod p) * (2 ^ 256)⁻¹
  ofRawRepr_rawRepr := by
    intro x
    rw [ZMod.natCast_zmod_val, mul_assoc, mul_inv_cancel₀ (pow_ne_zero _ hp2), mul_one]

/-- `src/experiments/mod.rs` 19 -/
def starkPrime : ℕ := 3618502788666131213697322783095070105623107215331596699973092056135872020481

theorem starkPrime_factors : starkPrime - 1 = 2 ^ 192 * (5 * 7 * 98714381 * 166848103) := by decide +kernel

theorem starkPrime_cases {q : ℕ} (hq : q.Prime) (hd : q ∣ starkPrime - 1) :
    q = 2 ∨ q = 5 ∨ q = 7 ∨ q = 98714381 ∨ q = 166848103 := by
  rw [starkPrime_factors, hq.dvd_mul, hq.dvd_mul, hq.dvd_mul, hq.dvd_mul] at hd
  rcases hd with h | ((h | h) | h) | h
  · exact .inl ((Nat.prime_dvd_prime_iff_eq hq Nat.prime_two).1 (hq.dvd_of_dvd_pow h))
  · exact .inr (.inl ((Nat.prime_dvd_prime_iff_eq hq (by norm_num)).1 h))
  · exact .inr (.inr (.inl ((Nat.prime_dvd_prime_iff_eq hq (by norm_num)).1 h)))
  · exact .inr (.inr (.inr (.inl ((Nat.prime_dvd_prime_iff_eq hq (by norm_num)).1 h))))
  · exact .inr (.inr (.inr (.inr ((Nat.prime_dvd_prime_iff_eq hq (by norm_num)).1 h))))

theorem starkPrime_prime : Nat.Prime starkPrime := by
  have pw : ∀ b, b < 2 ^ 252 → (((3 : ZMod starkPrime)) ^ b = 1 ↔ powMod 3 starkPrime 252 b = 1 % starkPrime) :=
    fun b hb => zpow_one_iff (p := starkPrime) (a := 3) 252 hb
  refine lucas_primality starkPrime 3 ((pw _ (by decide +kernel)).2 (by decide +kernel)) ?_
  intro q hq hd
  rcases starkPrime_cases hq hd with rfl | rfl | rfl | rfl | rfl <;> rw [Ne, pw _ (by decide +kernel)] <;> decide +kernel

instance : Fact (Nat.Prime starkPrime) := ⟨starkPrime_prime⟩

/-- `src/experiments/mod.rs` 21 `Fr`, the field of the VDF experiments. -/
abbrev FrStark := ZMod starkPrime

theorem natCast_ne_zero_of_lt {p a : ℕ} (h0 : 0 < a) (h : a < p) : (a : ZMod p) ≠ 0 := by
  intro e
  rw [ZMod.natCast_eq_zero_iff] at e
  exact absurd (Nat.le_of_dvd h0 e) (by omega)

instance : StarkField FrStark :=
  derivedField starkPrime 3 191 (5 * 7 * 98714381 * 166848103) starkPrime_factors
    (natCast_ne_zero_of_lt (by norm_num) (by decide +kernel))
    (by rw [Ne, zpow_one_iff 252 (by decide +kernel)]; decide +kernel)
    (natCast_ne_zero_of_lt (a := 2) (by norm_num) (by decide +kernel))

/-- `src/bn256.rs` 5 -/
def bnPrime : ℕ := 52435875175126190479447740508185965837690552500527637822603658699938581184513

theorem bnPrime_factors : bnPrime - 1 = 2 ^ 32 *
    (3 * 11 * 19 * 10177 * 125527 * 859267 * 906349 ^ 2 * 2508409 * 2529403 * 52437899 * 254760293 ^ 2) := by decide +kernel

theorem bnPrime_cases {q : ℕ} (hq : q.Prime) (hd : q ∣ bnPrime - 1) :
    q = 2 ∨ q = 3 ∨ q = 11 ∨ q = 19 ∨ q = 10177 ∨ q = 125527 ∨ q = 859267 ∨ q = 906349 ∨ q = 2508409 ∨
      q = 2529403 ∨ q = 52437899 ∨ q = 254760293 := by
  have pp : ∀ {r : ℕ}, Nat.Prime r → q ∣ r → q = r := fun hr h => (Nat.prime_dvd_prime_iff_eq hq hr).1 h
  rw [bnPrime_factors] at hd
  simp only [hq.dvd_mul] at hd
  rcases hd with h | ((((((((((h | h) | h) | h) | h) | h) | h) | h) | h) | h) | h)
  · exact .inl (pp Nat.prime_two (hq.dvd_of_dvd_pow h))
  · exact (.inr (.inl (pp (by norm_num) h)))
  · exact (.inr (.inr (.inl (pp (by norm_num) h))))
  · exact (.inr (.inr (.inr (.inl (pp (by norm_num) h)))))
  · exact (.inr (.inr (.inr (.inr (.inl (pp (by norm_num) h))))))
  · exact (.inr (.inr (.inr (.inr (.inr (.inl (pp (by norm_num) h)))))))
  · exact (.inr (.inr (.inr (.inr (.inr (.inr (.inl (pp (by norm_num) h))))))))
  · exact (.inr (.inr (.inr (.inr (.inr (.inr (.inr (.inl (pp (by norm_num) (hq.dvd_of_dvd_pow h))))))))))
  · exact (.inr (.inr (.inr (.inr (.inr (.inr (.inr (.inr (.inl (pp (by norm_num) h))))))))))
  · exact (.inr (.inr (.inr (.inr (.inr (.inr (.inr (.inr (.inr (.inl (pp (by norm_num) h)))))))))))
  · exact (.inr (.inr (.inr (.inr (.inr (.inr (.inr (.inr (.inr (.inr (.inl (pp (by norm_num) h))))))))))))
  · exact (.inr (.inr (.inr (.inr (.inr (.inr (.inr (.inr (.inr (.inr (.inr (pp (by norm_num) (hq.dvd_of_dvd_pow h)))))))))))))

theorem bnPrime_prime : Nat.Prime bnPrime := by
  have pw : ∀ b, b < 2 ^ 255 → (((7 : ZMod bnPrime)) ^ b = 1 ↔ powMod 7 bnPrime 255 b = 1 % bnPrime) :=
    fun b hb => zpow_one_iff (p := bnPrime) (a := 7) 255 hb
  refine lucas_primality bnPrime 7 ((pw _ (by decide +kernel)).2 (by decide +kernel)) ?_
  intro q hq hd
  rcases bnPrime_cases hq hd with rfl | rfl | rfl | rfl | rfl | rfl | rfl | rfl | rfl | rfl | rfl | rfl <;>
    rw [Ne, pw _ (by decide +kernel)] <;> decide +kernel

instance : Fact (Nat.Prime bnPrime) := ⟨bnPrime_prime⟩

/-- `src/bn256.rs` 7 `Fr` -/
abbrev FrBn := ZMod bnPrime

instance : StarkField FrBn :=
  derivedField bnPrime 7 31 (3 * 11 * 19 * 10177 * 125527 * 859267 * 906349 ^ 2 * 2508409 * 2529403 * 52437899 * 254760293 ^ 2)
    bnPrime_factors
    (natCast_ne_zero_of_lt (by norm_num) (by decide +kernel))
    (by rw [Ne, zpow_one_iff 255 (by decide +kernel)]; decide +kernel)
    (natCast_ne_zero_of_lt (a := 2) (by norm_num) (by decide +kernel))

end Hodor

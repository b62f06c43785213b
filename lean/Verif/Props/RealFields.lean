import Verif.Model.Fields
import Verif.Props.Vdf
import Verif.Props.Transcript

/-!
# C50, C51: the repository's own fields, and the VDFs over them
-/

namespace Hodor

open Spec

theorem numBits_stark : numBits FrStark = 252 := by
  show Nat.log 2 starkPrime + 1 = 252
  rw [(Nat.log_eq_iff (b := 2) (m := 251) (n := starkPrime) (.inl (by norm_num))).2 (by decide +kernel)]

theorem numBits_bn : numBits FrBn = 255 := by
  show Nat.log 2 bnPrime + 1 = 255
  rw [(Nat.log_eq_iff (b := 2) (m := 254) (n := bnPrime) (.inl (by norm_num))).2 (by decide +kernel)]

theorem order_stark : orderOf (3 : FrStark) = starkPrime - 1 := by
  have pw : ∀ b, b < 2 ^ 252 → (((3 : FrStark)) ^ b = 1 ↔ powMod 3 starkPrime 252 b = 1 % starkPrime) :=
    fun b hb => zpow_one_iff (p := starkPrime) (a := 3) 252 hb
  refine orderOf_eq_of_pow_and_pow_div_prime (by decide +kernel) ((pw _ (by decide +kernel)).2 (by decide +kernel)) ?_
  intro q hq hd
  rcases starkPrime_cases hq hd with rfl | rfl | rfl | rfl | rfl <;> rw [Ne, pw _ (by decide +kernel)] <;> decide +kernel

theorem order_bn : orderOf (7 : FrBn) = bnPrime - 1 := by
  have pw : ∀ b, b < 2 ^ 255 → (((7 : FrBn)) ^ b = 1 ↔ powMod 7 bnPrime 255 b = 1 % bnPrime) :=
    fun b hb => zpow_one_iff (p := bnPrime) (a := 7) 255 hb
  refine orderOf_eq_of_pow_and_pow_div_prime (by decide +kernel) ((pw _ (by decide +kernel)).2 (by decide +kernel)) ?_
  intro q hq hd
  rcases bnPrime_cases hq hd with rfl | rfl | rfl | rfl | rfl | rfl | rfl | rfl | rfl | rfl | rfl | rfl <;>
    rw [Ne, pw _ (by decide +kernel)] <;> decide +kernel

/-- The generator of a field is never in a subgroup of 2-power order, so the prover's coset never meets a domain. -/
theorem gen_pow_ne {p g : ℕ} [Fact p.Prime] (ho : orderOf (g : ZMod p) = p - 1) (q : ℕ) (hq : q.Prime) (h2 : q ≠ 2) (hd : q ∣ p - 1) (K : ℕ) :
    (g : ZMod p) ^ 2 ^ K ≠ 1 := by
  intro h
  have h1 := orderOf_dvd_of_pow_eq_one h
  rw [ho] at h1
  have := hq.dvd_of_dvd_pow (hd.trans h1)
  exact h2 ((Nat.prime_dvd_prime_iff_eq hq Nat.prime_two).1 this)

/-- **C50** for the field of the experiments: its modulus is prime, the declared generator generates the whole multiplicative group, the largest
2-power domain has `2^192` elements, challenge derivation is total on it, and no coset `3·H` meets a domain. -/
theorem C50_experiments_field :
    Nat.Prime (StarkField.modulus FrStark) ∧ orderOf (StarkField.mulGen : FrStark) = StarkField.modulus FrStark - 1 ∧
    StarkField.S FrStark = 192 ∧ orderOf (StarkField.root : FrStark) = 2 ^ 192 ∧
    (∀ d : Digest, ∃ c : FrStark, (interpretHash d : Res FrStark) = .ok c) ∧
    ∀ K x, (x : FrStark) ^ 2 ^ K = 1 → (StarkField.mulGen * x) ^ 2 ^ K ≠ 1 := by
  refine ⟨starkPrime_prime, ?_, rfl, (StarkField.root_prim (F := FrStark)).eq_orderOf.symm, fun d => ⟨_, interpretHash_ok ⟨by rw [numBits_stark]; norm_num, by rw [numBits_stark]; norm_num, by rw [numBits_stark]; norm_num⟩ d⟩, ?_⟩
  · have := order_stark
    exact_mod_cast this
  · intro K x hx
    rw [mul_pow, hx, mul_one]
    exact gen_pow_ne (p := starkPrime) (g := 3) (by exact_mod_cast order_stark) 5 (by norm_num) (by norm_num) (by decide +kernel) K

/-- **C50** for `src/bn256.rs`. -/
theorem C50_bn256_field :
    Nat.Prime (StarkField.modulus FrBn) ∧ orderOf (StarkField.mulGen : FrBn) = StarkField.modulus FrBn - 1 ∧
    StarkField.S FrBn = 32 ∧ orderOf (StarkField.root : FrBn) = 2 ^ 32 ∧
    (∀ d : Digest, ∃ c : FrBn, (interpretHash d : Res FrBn) = .ok c) ∧
    ∀ K x, (x : FrBn) ^ 2 ^ K = 1 → (StarkField.mulGen * x) ^ 2 ^ K ≠ 1 := by
  refine ⟨bnPrime_prime, ?_, rfl, (StarkField.root_prim (F := FrBn)).eq_orderOf.symm, fun d => ⟨_, interpretHash_ok ⟨by rw [numBits_bn]; norm_num, by rw [numBits_bn]; norm_num, by rw [numBits_bn]; norm_num⟩ d⟩, ?_⟩
  · have := order_bn
    exact_mod_cast this
  · intro K x hx
    rw [mul_pow, hx, mul_one]
    exact gen_pow_ne (p := bnPrime) (g := 7) (by exact_mod_cast order_bn) 3 (by norm_num) (by norm_num) (by decide +kernel) K

/-- The parameters of a run, over the field of the experiments: only sizes and the LDE defect remain as conditions. -/
theorem runParams_stark (w : Worker) (k f e o : ℕ) (h1 : k + f < 32) (h2 : o < k) (h3 : 1 ≤ e + o) (h4 : e + o < 32)
    (h5 : w.cpus = 1 ∨ 2 ^ f < 2 * w.cpus) (h6 : w.cpus = 1 ∨ 2 ^ e < 2 * w.cpus) : RunParams FrStark w k f e o where
  size := by show k + f + e ≤ 192; omega
  size32 := h1
  out := h2
  factor := h3
  factor32 := h4
  lde1 := h5
  lde2 := h6
  challenge := by rw [numBits_stark]; norm_num
  coset := by
    have := C50_experiments_field.2.2.2.2.2 (k + f) 1 (one_pow _)
    rwa [mul_one] at this

theorem lde1_of (w : Worker) : w.cpus = 1 ∨ 2 ^ 1 < 2 * w.cpus := by
  have := w.pos
  omega

variable (H : List UInt8 → Digest)

/-- **C51**: the squaring VDF of `src/experiments/vdf.rs` over its own field, on one CPU or on enough CPUs for the LDE to be right
(C09; this is what is missing from the full claim), for every number of operations `2^k - 1` (`1 ≤ k ≤ 30`), every
LDE factor `2^e`, every start and every hash function: `prove` returns an error if the out-of-domain point it draws lies in the LDE domain of `g`, and otherwise
a proof that `verify` accepts. -/
theorem C51_vdf_experiments_partial (w : Worker) (k e : ℕ) (hw : w.cpus = 1 ∨ 2 ^ e < 2 * w.cpus) (hk : 1 ≤ k) (hk2 : k < 31) (he : 1 ≤ e) (he2 : e < 32)
    (v : Vdf FrStark) (hv : v.numOperations + 1 = 2 ^ k) :
    ∃ wit inst prover ver z, v.intoArp = .ok (wit, inst) ∧ Prover.new w inst (2 ^ e) 1 = .ok prover ∧
      Verifier.new inst (2 ^ e) = .ok ver ∧ OpenedAt H prover w wit e z ∧
      (z ^ 2 ^ (k + 1 + e) = 1 → prover.prove H wit = .err .error) ∧
      (z ^ 2 ^ (k + 1 + e) ≠ 1 → ∃ proof, prover.prove H wit = .ok proof ∧ ver.verify H proof = .ok true) :=
  C38_proved H w k e v hv (runParams_stark w k 1 e 0 (by omega) (by omega) he (by omega) (lde1_of w) hw)

/-- **C51** for the cubic VDF of `src/experiments/cubic_vdf.rs`. -/
theorem C51_cubic_experiments_partial (w : Worker) (k e : ℕ) (hw : w.cpus = 1 ∨ 2 ^ e < 2 * w.cpus) (hk : 1 ≤ k) (hk2 : k < 31) (he : 1 ≤ e) (he2 : e < 32)
    (v : Vdf FrStark) (hv : v.numOperations + 1 = 2 ^ k) :
    ∃ wit inst prover ver z, v.intoArpCubic = .ok (wit, inst) ∧ Prover.new w inst (2 ^ e) 1 = .ok prover ∧
      Verifier.new inst (2 ^ e) = .ok ver ∧ OpenedAt H prover w wit e z ∧
      (z ^ 2 ^ (k + 1 + e) = 1 → prover.prove H wit = .err .error) ∧
      (z ^ 2 ^ (k + 1 + e) ≠ 1 → ∃ proof, prover.prove H wit = .ok proof ∧ ver.verify H proof = .ok true) :=
  C39_proved H w k e v hv (runParams_stark w k 1 e 0 (by omega) (by omega) he (by omega) (lde1_of w) hw)

/-- The hypotheses of C51 hold for the parameters of the repository's tests (`2^20 - 1` operations, LDE factor 16). -/
example : (⟨1, 1, 2 ^ 20 - 1⟩ : Vdf FrStark).numOperations + 1 = 2 ^ 20 ∧ (1 : ℕ) ≤ 20 ∧ 20 < 31 ∧ 2 ^ 4 = 16 := ⟨rfl, by norm_num, by norm_num, by norm_num⟩

end Hodor

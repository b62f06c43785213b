import Mathlib.RingTheory.RootsOfUnity.PrimitiveRoots
import Verif.Model.Res

/-!
# Field parameters

What the code uses of `ff::PrimeField` (external crate `ff_ce` 0.7, trusted):
field arithmetic, `F::S`, `F::root_of_unity()`, `F::multiplicative_generator()`,
the modulus, and the two integer representations `into_repr`/`from_repr`
(canonical residue) and `into_raw_repr`/`from_raw_repr` (Montgomery residue).
-/

namespace Hodor

/-- Constants and representations of an `ff::PrimeField`
(as used in `src/domains/mod.rs` 29-37, `src/transcript/mod.rs` 35-36, 53-79,
`src/iop/blake2s_trivial_iop.rs` 36-66). -/
class StarkField (F : Type) [Field F] where
  /-- `F::S` -/
  S : ℕ
  /-- `F::root_of_unity()` -/
  root : F
  /-- `root_of_unity` has order exactly `2^S` -/
  root_prim : IsPrimitiveRoot root (2 ^ S)
  /-- `F::multiplicative_generator()` -/
  mulGen : F
  mulGen_ne_zero : mulGen ≠ 0
  /-- `F::char()` -/
  modulus : ℕ
  modulus_pos : 1 < modulus
  /-- `into_repr()` as an integer -/
  repr : F → ℕ
  repr_lt : ∀ x, repr x < modulus
  /-- `from_repr` of an integer below the modulus -/
  cast_repr : ∀ x, ((repr x : ℕ) : F) = x
  /-- `into_raw_repr()` as an integer -/
  rawRepr : F → ℕ
  rawRepr_lt : ∀ x, rawRepr x < modulus
  /-- `from_raw_repr` of an integer below the modulus -/
  ofRawRepr : ℕ → F
  ofRawRepr_rawRepr : ∀ x, ofRawRepr (rawRepr x) = x

/-- `F::inverse()` of `ff::Field`: `None` exactly for zero. -/
def inverse {F : Type} [Field F] [DecidableEq F] (x : F) : Option F :=
  if x = 0 then none else some x⁻¹

section
variable {F : Type} [Field F] [DecidableEq F]

@[simp] theorem inverse_zero : inverse (0 : F) = none := by simp [inverse]
theorem inverse_of_ne {x : F} (h : x ≠ 0) : inverse x = some x⁻¹ := by simp [inverse, h]
theorem inverse_eq_some {x y : F} : inverse x = some y ↔ x ≠ 0 ∧ x⁻¹ = y := by
  unfold inverse; split <;> simp_all
theorem inverse_eq_none {x : F} : inverse x = none ↔ x = 0 := by
  unfold inverse; split <;> simp_all
end

/-- `u64::next_power_of_two` (0 and 1 give 1). -/
def nextPow2 (n : ℕ) : ℕ := 2 ^ Nat.clog 2 n

/-- `usize::is_power_of_two` -/
def isPow2 (n : ℕ) : Bool := n != 0 && nextPow2 n == n

/-- `log2_floor` (`src/utils/mod.rs` 108-118 and `src/fft/multicore.rs` 119-129):
panics on 0; the `while (1 << (pow+1)) <= num` loop computes `⌊log2 num⌋`. -/
def log2Floor (num : ℕ) : Res ℕ := do
  Res.assert (0 < num)
  pure (Nat.log 2 num)

end Hodor

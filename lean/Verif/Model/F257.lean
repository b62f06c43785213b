import Verif.Model.Field
import Mathlib.Algebra.Field.ZMod
import Mathlib.Tactic.NormNum.Prime
import Mathlib.GroupTheory.OrderOfElement

/-!
# The field `Fr` of `src/lib.rs` 35-38

`#[PrimeFieldModulus = "257"] #[PrimeFieldGenerator = "3"] pub struct Fr`.
`257 - 1 = 2^8`, so `S = 8` and `root_of_unity = 3^1`. One limb; the Montgomery factor
`2^64 mod 257` is `1`, so the two integer representations coincide.
-/

namespace Hodor

instance : Fact (Nat.Prime 257) := ⟨by norm_num⟩

/-- `src/lib.rs` 38 `Fr` -/
abbrev Fr := ZMod 257

theorem fr_three_order : orderOf (3 : Fr) = 2 ^ 8 := by
  apply orderOf_eq_prime_pow
  · decide +kernel
  · decide +kernel

instance : StarkField Fr where
  S := 8
  root := 3
  root_prim := by
    rw [← fr_three_order]
    exact IsPrimitiveRoot.orderOf _
  mulGen := 3
  mulGen_ne_zero := by decide
  modulus := 257
  modulus_pos := by norm_num
  repr := ZMod.val
  repr_lt := ZMod.val_lt
  cast_repr := ZMod.natCast_zmod_val
  rawRepr := ZMod.val
  rawRepr_lt := ZMod.val_lt
  ofRawRepr := fun n => (n : Fr)
  ofRawRepr_rawRepr := ZMod.natCast_zmod_val

end Hodor

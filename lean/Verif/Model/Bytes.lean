import Verif.Model.Worker

/-!
# Bytes, digests and the integer encodings of field elements

Blake2s (crate `blake2s_simd`, external) is a parameter `H : List UInt8 → Digest`. The Merkle tree
(`src/iop/blake2s_trivial_iop.rs` 8-16) and the transcript (`src/transcript/mod.rs` 10-18) use the same
parameters (length 32, same key, same personalisation), hence the same function `H`.
-/

namespace Hodor

/-- `[u8; 32]` -/
structure Digest where
  bytes : List UInt8
  len : bytes.length = 32
deriving DecidableEq

/-- Little-endian bytes of `n`, exactly `k` of them (`PrimeFieldRepr::write_le` of crate `ff_ce`:
limbs from the least significant, each little-endian; for `k = 8 * limbs`). -/
def leBytes : ℕ → ℕ → List UInt8
  | 0, _ => []
  | k + 1, n => UInt8.ofNat (n % 256) :: leBytes k (n / 256)

/-- `PrimeFieldRepr::write_be`: the reverse. -/
def beBytes (k n : ℕ) : List UInt8 := (leBytes k n).reverse

/-- Integer with the given little-endian bytes (`read_le`). -/
def ofLeBytes : List UInt8 → ℕ
  | [] => 0
  | b :: l => b.toNat + 256 * ofLeBytes l

/-- Integer with the given big-endian bytes (`read_be`). -/
def ofBeBytes (l : List UInt8) : ℕ := ofLeBytes l.reverse

section
variable (F : Type) [Field F] [StarkField F]

/-- `F::NUM_BITS` (crate `ff_derive_ce`: bit length of the modulus). -/
def numBits : ℕ := Nat.log 2 (StarkField.modulus F) + 1

/-- `F::CAPACITY` (crate `ff_derive_ce`: `NUM_BITS - 1`). -/
def capacity : ℕ := numBits F - 1

/-- Number of 64-bit limbs of `F::Repr` (crate `ff_derive_ce`: the least `l ≥ 1` with
`2 * modulus ≤ 2^(64 l)`; the modulus is odd, so this is `⌈(NUM_BITS + 1) / 64⌉`). -/
def limbs : ℕ := (numBits F + 64) / 64

/-- `SHAVE_BITS` (`src/iop/blake2s_trivial_iop.rs` 23, `src/transcript/mod.rs` 35). -/
def shaveBits : ℕ := 256 - capacity F

end

variable {F : Type} [Field F] [StarkField F]

/-- `src/iop/blake2s_trivial_iop.rs` 36-43 `encode_leaf`: the raw (Montgomery) representation, little
endian, in a zeroed 32-byte array. (For more than 4 limbs `write_le` does not fit and `expect` panics;
`Blake2sLeafEncoder::new` line 25 asserts `NUM_BITS < 256`, theorems about encodings assume it.) -/
def encodeLeaf (x : F) : List UInt8 :=
  leBytes (8 * limbs F) (StarkField.rawRepr x) ++ List.replicate (32 - 8 * limbs F) 0

/-- `PrimeField::from_repr` (crate `ff_ce`): `Err(NotInField)` unless the integer is below the modulus. -/
def fromRepr (n : ℕ) : Option F := if n < StarkField.modulus F then some (n : F) else none

/-- `src/iop/blake2s_trivial_iop.rs` 48-60 `interpret_hash`; the same code is in
`src/transcript/mod.rs` 71-77 (`get_challenge`). `read_be` reads the first `8 * limbs` bytes (and fails
when there are fewer); the most significant limb is and-ed with `2^(64 - SHAVE_BITS % 64) - 1`, which on
the integer is reduction modulo `2^(64 * (limbs - 1) + 64 - SHAVE_BITS % 64)`. -/
def interpretHash (value : Digest) : Res F := do
  Res.assert (8 * limbs F ≤ value.bytes.length)
  let repr := ofBeBytes (value.bytes.take (8 * limbs F))
  let repr := repr % 2 ^ (64 * (limbs F - 1) + (64 - shaveBits F % 64))
  Res.expect (fromRepr repr)

end Hodor

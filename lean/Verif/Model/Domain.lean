import Verif.Model.Field

/-!
# Evaluation domains (`src/domains/mod.rs`)
-/

namespace Hodor

/-- `src/domains/mod.rs` 14-18 `struct Domain` -/
structure Domain (F : Type) where
  size : ℕ
  powerOfTwo : ℕ
  generator : F
deriving DecidableEq

/-- `src/domains/mod.rs` 25-28: `while k != 1 { k >>= 1; power_of_two += 1; }`
(`fuel` bounds the number of iterations; it is started with `k` itself, which is enough). -/
def shiftCount : ℕ → ℕ → ℕ → ℕ
  | 0, _, acc => acc
  | fuel + 1, k, acc => if k = 1 then acc else shiftCount fuel (k / 2) (acc + 1)

/-- `src/domains/mod.rs` 35-37: `for _ in 0..n { generator.square() }` -/
def squareN {F : Type} [Field F] : ℕ → F → F
  | 0, g => g
  | n + 1, g => squareN n (g * g)

namespace Domain

variable {F : Type} [Field F] [StarkField F]

/-- `src/domains/mod.rs` 21-44 `Domain::new_for_size`
(overflow of `next_power_of_two` beyond `2^63` is not modelled). -/
def newForSize (F : Type) [Field F] [StarkField F] (size : ℕ) : Res (Domain F) :=
  let size := nextPow2 size
  let powerOfTwo := shiftCount size size 0
  let maxPowerOfTwo := StarkField.S F
  if powerOfTwo > maxPowerOfTwo then .err .error
  else
    .ok { size := size
          powerOfTwo := powerOfTwo
          generator := squareN (maxPowerOfTwo - powerOfTwo) (StarkField.root (F := F)) }

end Domain

/-- `vec![a, b].sort()` for two indices. -/
def sortPair (a b : ℕ) : List ℕ := if a ≤ b then [a, b] else [b, a]

/-- `src/domains/mod.rs` 46-54 `Domain::coset_for_natural_index_and_size` -/
def cosetForNaturalIndexAndSize (naturalIndex domainSize : ℕ) : Res (List ℕ) := do
  Res.assert (1 < domainSize)
  Res.assert (isPow2 domainSize)
  let pair := (naturalIndex + domainSize / 2) % domainSize
  pure (sortPair naturalIndex pair)

/-- `src/domains/mod.rs` 56-71 `Domain::index_and_size_for_next_domain` -/
def indexAndSizeForNextDomain (naturalIndex domainSize : ℕ) : Res (ℕ × ℕ) := do
  Res.assert (1 < domainSize)
  Res.assert (isPow2 domainSize)
  let nextSize := domainSize / 2
  let nextIndex := if naturalIndex < nextSize then naturalIndex else naturalIndex - nextSize
  pure (nextIndex, nextSize)

end Hodor

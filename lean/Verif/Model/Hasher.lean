import Verif.Model.Bytes

/-!
# Personalised hashers (`src/utils/mod.rs` 14-107)

`Keccak256Hasher` and `Sha256Hasher` have the same code around an external streaming hash. As for the transcript, the state of the streaming
hash is the list of absorbed bytes and its result is `H` of that list.
-/

namespace Hodor

/-- `src/utils/mod.rs` 48-51 `Keccak256Hasher`, 78-81 `Sha256Hasher` -/
structure Hasher where
  absorbed : List UInt8
deriving DecidableEq

/-- `src/utils/mod.rs` 54-61 and 84-91 `new` -/
def Hasher.new (personalization : List UInt8) : Hasher := { absorbed := [] ++ personalization }

/-- `src/utils/mod.rs` 63-65 and 93-95 `update` -/
def Hasher.update (h : Hasher) (data : List UInt8) : Hasher := { absorbed := h.absorbed ++ data }

/-- `src/utils/mod.rs` 67-75 and 97-105 `finalize`: the state is replaced by a fresh, unpersonalised one. -/
def Hasher.finalize (H : List UInt8 → Digest) (h : Hasher) : List UInt8 × Hasher :=
  ((H h.absorbed).bytes, { absorbed := [] })

end Hodor

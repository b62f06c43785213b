import Verif.Model.Bytes

/-! # Specification: Merkle tree over a hash function -/

namespace Hodor.Spec

/-- Digest of the `i`-th node at height `d` over the leaf digests `lh`. -/
def merkle (H : List UInt8 → Digest) (lh : ℕ → Digest) : ℕ → ℕ → Digest
  | 0, i => lh i
  | d + 1, i => H ((merkle H lh d (2 * i)).bytes ++ (merkle H lh d (2 * i + 1)).bytes)

variable {F : Type} [Field F] [StarkField F]

/-- The byte strings hashed when a tree of height `k` over `leaf 0, …, leaf (2^k - 1)` is built. -/
inductive TreeHashed (H : List UInt8 → Digest) (leaf : ℕ → F) (k : ℕ) : List UInt8 → Prop
  | leaf (i : ℕ) (hi : i < 2 ^ k) : TreeHashed H leaf k (encodeLeaf (leaf i))
  | node (d i : ℕ) (hd : d < k) (hi : i < 2 ^ (k - (d + 1))) :
      TreeHashed H leaf k
        ((merkle H (fun i => H (encodeLeaf (leaf i))) d (2 * i)).bytes
          ++ (merkle H (fun i => H (encodeLeaf (leaf i))) d (2 * i + 1)).bytes)

/-- The byte strings hashed on the way up from a digest along an authentication path. -/
def pathHashed (H : List UInt8 → Digest) : Digest → ℕ → List Digest → List (List UInt8)
  | _, _, [] => []
  | h, idx, el :: path =>
    let s := if idx % 2 = 0 then h.bytes ++ el.bytes else el.bytes ++ h.bytes
    s :: pathHashed H (H s) (idx / 2) path

/-- The byte strings hashed when an opening `(value, path, index)` is checked. -/
def openingHashed (H : List UInt8 → Digest) (value : F) (path : List Digest) (idx : ℕ) : List (List UInt8) :=
  encodeLeaf value :: pathHashed H (H (encodeLeaf value)) idx path

/-- Two different strings with the same digest, both among the strings satisfying `P`. -/
def CollisionAmong (H : List UInt8 → Digest) (P : List UInt8 → Prop) : Prop :=
  ∃ x y, P x ∧ P y ∧ x ≠ y ∧ H x = H y

end Hodor.Spec

import Verif.Lemmas.Merkle

/-! # Field elements derived from digests -/

namespace Hodor

variable {F : Type} [Field F] [StarkField F]

/-- The field element derived from a digest. -/
def challengeOf (F : Type) [Field F] [StarkField F] (d : Digest) : F :=
  ((ofBeBytes (d.bytes.take (8 * limbs F)) % 2 ^ (64 * (limbs F - 1) + (64 - shaveBits F % 64)) : ℕ) : F)

/-- The fields for which challenge derivation cannot panic (C21). -/
def ChallengeOk (F : Type) [Field F] [StarkField F] : Prop :=
  numBits F < 256 ∧ numBits F % 64 ≠ 0 ∧ numBits F % 64 ≠ 1

/-- Number of bits kept by the mask. -/
theorem kept_bits (hb : numBits F < 256) :
    64 * (limbs F - 1) + (64 - shaveBits F % 64)
      = if numBits F % 64 = 0 then numBits F + 63
        else if numBits F % 64 = 1 then numBits F + 63 else numBits F - 1 := by
  have h1 : 1 ≤ numBits F := by unfold numBits; omega
  unfold limbs shaveBits capacity
  split
  · omega
  · split <;> omega

theorem interpretHash_ok (h : ChallengeOk F) (d : Digest) : (interpretHash d : Res F) = .ok (challengeOf F d) := by
  obtain ⟨hb, h0, h1⟩ := h
  have hk := kept_bits hb
  rw [if_neg h0, if_neg h1] at hk
  unfold challengeOf
  set n := ofBeBytes (d.bytes.take (8 * limbs F)) % 2 ^ (64 * (limbs F - 1) + (64 - shaveBits F % 64)) with hn
  have hlt : n < 2 ^ capacity F := by
    rw [hn, hk]; exact Nat.mod_lt _ (by positivity)
  have hlt2 : n < StarkField.modulus F := by
    have : 2 ^ capacity F ≤ StarkField.modulus F := by
      unfold capacity numBits
      rw [Nat.add_sub_cancel]
      exact Nat.pow_log_le_self 2 (by have := StarkField.modulus_pos (F := F); omega)
    omega
  unfold interpretHash
  have hlim := limbs_le_four hb
  simp only [d.len, hlim, decide_true, Res.assert_true, Res.ok_bind]
  rw [← hn]
  simp [fromRepr, hlt2]

end Hodor

import Verif.Model.Hasher

/-! # C58: personalised hashers (`src/utils/mod.rs`) -/

namespace Hodor

variable (H : List UInt8 → Digest)

/-- Feed several pieces of data. -/
def Hasher.updates (h : Hasher) (data : List (List UInt8)) : Hasher := data.foldl Hasher.update h

theorem Hasher.updates_absorbed (h : Hasher) (data : List (List UInt8)) : (h.updates data).absorbed = h.absorbed ++ data.flatten := by
  induction data generalizing h with
  | nil => simp [updates]
  | cons d l ih =>
    show ((h.update d).updates l).absorbed = _
    rw [ih]; simp [update]

/-- **C58** (first use): the digest is the hash of the personalisation followed by the data, however the data is cut into pieces. -/
theorem C58_digest_partial (p : List UInt8) (data : List (List UInt8)) :
    (((Hasher.new p).updates data).finalize H).1 = (H (p ++ data.flatten)).bytes := by
  simp [Hasher.finalize, Hasher.updates_absorbed, Hasher.new]

/-- **C58** (the claim is false on reuse): after `finalize` the hasher no longer depends on its personalisation, so that two hashers with different
personalisations return the same digest for the same data. -/
theorem C58_reuse_loses_personalization (p q : List UInt8) (first second data : List (List UInt8)) :
    ((((Hasher.new p).updates first).finalize H).2.updates data).finalize H =
    ((((Hasher.new q).updates second).finalize H).2.updates data).finalize H := rfl

/-- **C58** (size of the defect): the digest after reuse is the right one exactly if the hash of the data with and without the personalisation
coincide: an empty personalisation or a collision of the hash function. -/
theorem C58_reuse_right_iff (p : List UInt8) (first data : List (List UInt8)) :
    ((((Hasher.new p).updates first).finalize H).2.updates data).finalize H = ((Hasher.new p).updates data).finalize H ↔
      p = [] ∨ (p ++ data.flatten ≠ data.flatten ∧ H (p ++ data.flatten) = H data.flatten) := by
  have e1 : ((((Hasher.new p).updates first).finalize H).2.updates data).finalize H = ((H data.flatten).bytes, { absorbed := [] }) := by
    simp [Hasher.finalize, Hasher.updates_absorbed]
  have e2 : ((Hasher.new p).updates data).finalize H = ((H (p ++ data.flatten)).bytes, { absorbed := [] }) := by
    simp [Hasher.finalize, Hasher.updates_absorbed, Hasher.new]
  rw [e1, e2, Prod.mk.injEq]
  have inj : ∀ a b : Digest, a.bytes = b.bytes → a = b := by rintro ⟨a, ha⟩ ⟨b, hb⟩ e; cases e; rfl
  constructor
  · rintro ⟨h, -⟩
    by_cases hp : p = []
    · exact .inl hp
    · exact .inr ⟨by simpa using hp, (inj _ _ h).symm⟩
  · rintro (rfl | ⟨-, h⟩)
    · exact ⟨rfl, rfl⟩
    · exact ⟨by rw [h], rfl⟩

/-- **C58** (concrete): for a hash that separates the strings "A" and "", the reused digest is wrong. -/
theorem C58_reuse_wrong (h : H [65] ≠ H []) :
    ((((Hasher.new [65]).updates []).finalize H).2.updates []).finalize H ≠ ((Hasher.new [65]).updates []).finalize H := by
  rw [Ne, C58_reuse_right_iff]
  rintro (e | ⟨-, e⟩)
  · cases e
  · exact h (by simpa using e)

/-- Such hashes exist. -/
example : ∃ H : List UInt8 → Digest, H [65] ≠ H [] :=
  ⟨fun l => ⟨List.replicate 32 (UInt8.ofNat l.length), by simp⟩, by decide⟩

end Hodor

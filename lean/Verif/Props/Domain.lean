import Verif.Lemmas.Domain
import Verif.Model.F257

/-! # C01, C02: evaluation domains -/

namespace Hodor

variable {F : Type} [Field F] [StarkField F]

/-- `2^k` is the least power of two that is at least `n`. -/
def Spec.LeastPow2 (n k : ℕ) : Prop := n ≤ 2 ^ k ∧ ∀ j, n ≤ 2 ^ j → k ≤ j

/-- **C01.** `Domain::new_for_size(n)` succeeds exactly when the least power of two `2^k ≥ n` has
`k ≤ S`; the domain has that size and its generator has order exactly `2^k`. -/
theorem C01_domain (n k : ℕ) (h : Spec.LeastPow2 n k) :
    (k ≤ StarkField.S F → ∃ d, Domain.newForSize F n = .ok d ∧ d.size = 2 ^ k ∧ d.powerOfTwo = k ∧
      orderOf d.generator = 2 ^ k) ∧
    (StarkField.S F < k → Domain.newForSize F n = .err .error) := by
  have hk : Nat.clog 2 n = k := by
    apply le_antisymm
    · exact (Nat.clog_le_iff_le_pow (by norm_num)).2 h.1
    · exact h.2 _ (Nat.le_pow_clog (by norm_num) _)
  rw [newForSize_eq, hk]
  constructor
  · intro hS
    rw [if_pos hS]
    exact ⟨_, rfl, rfl, rfl, (genOf_prim hS).eq_orderOf.symm⟩
  · intro hS
    rw [if_neg (by omega)]

/-- **C01** (points): the `size` powers of the generator are pairwise distinct, i.e. the domain has
`size` different points. -/
theorem C01_points_distinct (n : ℕ) (d : Domain F) (h : Domain.newForSize F n = .ok d) (i j : ℕ)
    (hi : i < d.size) (hj : j < d.size) (e : d.generator ^ i = d.generator ^ j) : i = j := by
  rw [newForSize_eq] at h
  split at h
  · rename_i hS
    cases h
    exact (genOf_prim hS).pow_inj hi hj e
  · cases h

/-- Non-vacuity: for the crate's test field (`S = 8`) size 5 gives the domain of size 8. -/
example : Spec.LeastPow2 5 3 ∧ 3 ≤ StarkField.S Fr ∧
    Domain.newForSize Fr 5 = .ok { size := 8, powerOfTwo := 3, generator := 3 ^ 32 } := by
  refine ⟨⟨by norm_num, fun j hj => ?_⟩, by decide, by decide +kernel⟩
  by_contra hlt
  have : 2 ^ j ≤ 2 ^ 2 := Nat.pow_le_pow_right (by norm_num) (by omega)
  omega

/-- Non-vacuity of the error case: 257 points need `2^9 > 2^S`. -/
example : Spec.LeastPow2 257 9 ∧ StarkField.S Fr < 9 := by
  refine ⟨⟨by norm_num, fun j hj => ?_⟩, by decide⟩
  by_contra hlt
  have : 2 ^ j ≤ 2 ^ 8 := Nat.pow_le_pow_right (by norm_num) (by omega)
  omega

/-- **C02** (coset): for a domain of size `2^k > 1` and an index below the size, the coset of `i` is
the increasing pair of the two domain indices whose points are `x` and `-x`, `x = generator^i`. -/
theorem C02_coset (n : ℕ) (d : Domain F) (h : Domain.newForSize F n = .ok d) (h1 : 1 < d.size)
    (i : ℕ) (hi : i < d.size) :
    ∃ a b, cosetForNaturalIndexAndSize i d.size = .ok [a, b] ∧ a < b ∧ b < d.size ∧ (i = a ∨ i = b) ∧
      ∀ j, j < d.size → (j ∈ [a, b] ↔ (d.generator ^ j = d.generator ^ i ∨
        d.generator ^ j = -(d.generator ^ i))) := by
  rw [newForSize_eq] at h
  split at h
  swap; · cases h
  rename_i hS
  cases h
  simp only at *
  generalize Nat.clog 2 n = k at *
  obtain ⟨m, rfl⟩ : ∃ m, k = m + 1 := ⟨k - 1, by
    rcases k with _ | k
    · simp at h1
    · rfl⟩
  have hm : 2 ^ (m + 1) / 2 = 2 ^ m := by rw [pow_succ]; omega
  have hs : 2 ^ (m + 1) = 2 ^ m + 2 ^ m := by rw [pow_succ]; ring
  have hneg : genOf F (m + 1) ^ 2 ^ m = -1 := genOf_halfNeg hS (by omega)
  have hcard := genOf_pow_card hS
  have hpair : genOf F (m + 1) ^ ((i + 2 ^ m) % 2 ^ (m + 1)) = -(genOf F (m + 1) ^ i) := by
    rw [← pow_mod_orderOf, ← (genOf_prim hS).eq_orderOf, Nat.mod_mod, (genOf_prim hS).eq_orderOf,
      pow_mod_orderOf, pow_add, hneg]
    ring
  unfold cosetForNaturalIndexAndSize
  have hp : isPow2 (2 ^ (m + 1)) = true := isPow2_iff.2 ⟨_, rfl⟩
  simp only [h1, decide_true, hp, Res.assert_true, Res.ok_bind, hm, Res.pure_def]
  have key : ∀ j, j < 2 ^ (m + 1) → ((j = i ∨ j = (i + 2 ^ m) % 2 ^ (m + 1)) ↔
      (genOf F (m + 1) ^ j = genOf F (m + 1) ^ i ∨ genOf F (m + 1) ^ j = -(genOf F (m + 1) ^ i))) := by
    intro j hj
    rw [← hpair]
    constructor
    · rintro (rfl | rfl)
      · exact Or.inl rfl
      · exact Or.inr rfl
    · rintro (e | e)
      · exact Or.inl ((genOf_prim hS).pow_inj hj hi e)
      · exact Or.inr ((genOf_prim hS).pow_inj hj (Nat.mod_lt _ (by positivity)) e)
  have hpos : 0 < 2 ^ m := by positivity
  by_cases hlt : i < 2 ^ m
  · have e : (i + 2 ^ m) % 2 ^ (m + 1) = i + 2 ^ m := Nat.mod_eq_of_lt (by omega)
    rw [e] at key ⊢
    refine ⟨i, i + 2 ^ m, ?_, by omega, by omega, Or.inl rfl, ?_⟩
    · unfold sortPair; rw [if_pos (by omega)]
    · intro j hj
      rw [← key j hj]; simp
  · have e : (i + 2 ^ m) % 2 ^ (m + 1) = i - 2 ^ m := by
      rw [show i + 2 ^ m = (i - 2 ^ m) + 2 ^ (m + 1) by omega, Nat.add_mod_right]
      exact Nat.mod_eq_of_lt (by omega)
    rw [e] at key ⊢
    refine ⟨i - 2 ^ m, i, ?_, by omega, by omega, Or.inr rfl, ?_⟩
    · unfold sortPair; rw [if_neg (by omega)]
    · intro j hj
      rw [← key j hj]; simp [or_comm]

/-- **C02** (next domain): the next index is in range for the halved domain, its point there is the
square of the point of `i`, and both members of a coset map to the same next index. -/
theorem C02_next (n : ℕ) (d : Domain F) (h : Domain.newForSize F n = .ok d) (h1 : 1 < d.size)
    (i : ℕ) (hi : i < d.size) :
    ∃ j, indexAndSizeForNextDomain i d.size = .ok (j, d.size / 2) ∧ j < d.size / 2 ∧
      (d.generator ^ 2) ^ j = (d.generator ^ i) ^ 2 ∧
      ∀ i', i' < d.size → d.generator ^ i' = -(d.generator ^ i) →
        indexAndSizeForNextDomain i' d.size = .ok (j, d.size / 2) := by
  have hgen : Domain.newForSize F n = .ok d := h
  rw [newForSize_eq] at h
  split at h
  swap; · cases h
  rename_i hS
  cases h
  simp only at *
  generalize Nat.clog 2 n = k at *
  obtain ⟨m, rfl⟩ : ∃ m, k = m + 1 := ⟨k - 1, by
    rcases k with _ | k
    · simp at h1
    · rfl⟩
  have hm : 2 ^ (m + 1) / 2 = 2 ^ m := by rw [pow_succ]; omega
  have hs : 2 ^ (m + 1) = 2 ^ m + 2 ^ m := by rw [pow_succ]; ring
  have hneg : genOf F (m + 1) ^ 2 ^ m = -1 := genOf_halfNeg hS (by omega)
  have hp : isPow2 (2 ^ (m + 1)) = true := isPow2_iff.2 ⟨_, rfl⟩
  have hform : ∀ t, indexAndSizeForNextDomain t (2 ^ (m + 1))
      = .ok ((if t < 2 ^ m then t else t - 2 ^ m), 2 ^ m) := by
    intro t
    unfold indexAndSizeForNextDomain
    simp only [h1, decide_true, hp, Res.assert_true, Res.ok_bind, hm, Res.pure_def]
  have hsq : ∀ t, (genOf F (m + 1) ^ 2) ^ (if t < 2 ^ m then t else t - 2 ^ m)
      = (genOf F (m + 1) ^ t) ^ 2 := by
    intro t
    split
    · rw [← pow_mul, ← pow_mul, mul_comm]
    · rename_i hlt
      obtain ⟨u, rfl⟩ : ∃ u, t = u + 2 ^ m := ⟨t - 2 ^ m, by omega⟩
      rw [Nat.add_sub_cancel, pow_add, hneg, ← pow_mul, mul_comm 2 u, pow_mul]
      ring
  have hlt : ∀ t, t < 2 ^ (m + 1) → (if t < 2 ^ m then t else t - 2 ^ m) < 2 ^ m := by
    intro t ht; split <;> omega
  refine ⟨_, by rw [hform, hm], by rw [hm]; exact hlt i hi, hsq i, ?_⟩
  intro i' hi' e
  rw [hform, hm]
  congr 2
  have hprim : IsPrimitiveRoot (genOf F (m + 1) ^ 2) (2 ^ m) :=
    (genOf_prim hS).pow (by positivity) (by rw [pow_succ]; ring)
  apply hprim.pow_inj (hlt i' hi') (hlt i hi)
  rw [hsq, hsq, e]
  ring

/-- Non-vacuity: size 8, index 5: the coset is `[1, 5]`, the next index is 1. -/
example : ∃ d : Domain Fr, Domain.newForSize Fr 8 = .ok d ∧ 1 < d.size ∧ 5 < d.size ∧
    cosetForNaturalIndexAndSize 5 8 = .ok [1, 5] ∧ indexAndSizeForNextDomain 5 8 = .ok (1, 4) :=
  ⟨_, rfl, by decide +kernel, by decide +kernel, by decide +kernel, by decide +kernel⟩

end Hodor

import Verif.Props.Fp2

/-! # C59: the order on the quadratic extension (`fp2.rs` 108-125) -/

namespace Hodor

open StarkField

namespace Fq2

theorem repr_inj {x y : FrStark} : StarkField.repr x = StarkField.repr y ↔ x = y := by
  constructor
  · intro h
    rw [← cast_repr x, ← cast_repr y, h]
  · rintro rfl; rfl

theorem cmp_lt_iff (x y : Fq2) :
    x.cmp y = .lt ↔ StarkField.repr x.c1 < StarkField.repr y.c1 ∨ (x.c1 = y.c1 ∧ StarkField.repr x.c0 < StarkField.repr y.c0) := by
  unfold cmp fqCmp
  rcases lt_trichotomy (StarkField.repr x.c1) (StarkField.repr y.c1) with h | h | h
  · simp [compare_lt_iff_lt.2 h, h]
  · rw [compare_eq_iff_eq.2 h]
    have := repr_inj.1 h
    simp [compare_lt_iff_lt, h, this]
  · rw [compare_gt_iff_gt.2 h]
    have h1 : ¬ StarkField.repr x.c1 < StarkField.repr y.c1 := by omega
    have h2 : x.c1 ≠ y.c1 := fun e => by rw [e] at h; omega
    simp [h1, h2]

theorem cmp_eq_iff (x y : Fq2) : x.cmp y = .eq ↔ x = y := by
  unfold cmp fqCmp
  rw [Fq2.ext_iff]
  rcases lt_trichotomy (StarkField.repr x.c1) (StarkField.repr y.c1) with h | h | h
  · rw [compare_lt_iff_lt.2 h]
    have h2 : x.c1 ≠ y.c1 := fun e => by rw [e] at h; omega
    simp [h2]
  · rw [compare_eq_iff_eq.2 h]
    have := repr_inj.1 h
    simp [compare_eq_iff_eq, repr_inj, this]
  · rw [compare_gt_iff_gt.2 h]
    have h2 : x.c1 ≠ y.c1 := fun e => by rw [e] at h; omega
    simp [h2]

theorem cmp_swap (x y : Fq2) : y.cmp x = (x.cmp y).swap := by
  rcases hxy : x.cmp y with _ | _ | _
  · rw [cmp_lt_iff] at hxy
    show _ = Ordering.gt
    rcases hyx : y.cmp x with _ | _ | _
    · rw [cmp_lt_iff] at hyx
      rcases hxy with h | ⟨e, h⟩ <;> rcases hyx with h' | ⟨e', h'⟩
      · omega
      · rw [e'] at h; omega
      · rw [e] at h'; omega
      · omega
    · rw [cmp_eq_iff] at hyx
      subst hyx
      rcases hxy with h | ⟨-, h⟩ <;> omega
    · rfl
  · rw [cmp_eq_iff] at hxy
    subst hxy
    show _ = Ordering.eq
    rw [cmp_eq_iff]
  · show _ = Ordering.lt
    rw [cmp_lt_iff]
    by_contra hn
    rw [not_or, not_and, not_lt] at hn
    rcases Nat.lt_or_eq_of_le hn.1 with h | h
    · have : x.cmp y = .lt := (cmp_lt_iff x y).2 (.inl h)
      rw [this] at hxy; cases hxy
    · have e := repr_inj.1 h
      have h0 := hn.2 e.symm
      rw [not_lt] at h0
      rcases Nat.lt_or_eq_of_le h0 with h0 | h0
      · have : x.cmp y = .lt := (cmp_lt_iff x y).2 (.inr ⟨e, h0⟩)
        rw [this] at hxy; cases hxy
      · have : x.cmp y = .eq := (cmp_eq_iff x y).2 (Fq2.ext (repr_inj.1 h0) e)
        rw [this] at hxy; cases hxy

end Fq2

/-- **C59.** `cmp` on the extension is a strict total order that agrees with equality: `Equal` exactly for equal elements, swapping the arguments
reverses the answer, `Less` is transitive, and it is the lexicographic order with the coefficient of `u` first, coefficients compared as
integers below the modulus. -/
theorem C59_order (x y z : Fq2) :
    (x.cmp y = .eq ↔ x = y) ∧ y.cmp x = (x.cmp y).swap ∧ (x.cmp y = .lt → y.cmp z = .lt → x.cmp z = .lt) ∧
    (x.cmp y = .lt ↔ StarkField.repr x.c1 < StarkField.repr y.c1 ∨ (x.c1 = y.c1 ∧ StarkField.repr x.c0 < StarkField.repr y.c0)) := by
  refine ⟨Fq2.cmp_eq_iff x y, Fq2.cmp_swap x y, ?_, Fq2.cmp_lt_iff x y⟩
  rw [Fq2.cmp_lt_iff, Fq2.cmp_lt_iff, Fq2.cmp_lt_iff]
  rintro (h | ⟨e, h⟩) (h' | ⟨e', h'⟩)
  · exact .inl (by omega)
  · exact .inl (by rw [← e']; exact h)
  · exact .inl (by rw [e]; exact h')
  · exact .inr ⟨e.trans e', by omega⟩

/-- **C59** (choice of a square root): of a non-zero element and its negation exactly one is the larger, so "the larger root" is well defined. -/
theorem C59_sign (x : Fq2) (h : x ≠ Fq2.zero) :
    (x.cmp x.negate = .gt ∧ x.negate.cmp x = .lt) ∨ (x.cmp x.negate = .lt ∧ x.negate.cmp x = .gt) := by
  have hne : x.cmp x.negate ≠ .eq := by
    rw [Ne, Fq2.cmp_eq_iff]
    intro e
    apply h
    rw [Fq2.ext_iff] at e
    have self : ∀ a : FrStark, a = -a → a = 0 := by
      intro a ha
      have : (2 : FrStark) * a = 0 := by rw [two_mul]; nth_rewrite 2 [ha]; exact add_neg_cancel a
      exact (mul_eq_zero.1 this).resolve_left two_ne
    exact Fq2.ext (self _ e.1) (self _ e.2)
  rw [Fq2.cmp_swap x x.negate]
  rcases h2 : x.cmp x.negate with _ | _ | _
  · exact .inr ⟨rfl, rfl⟩
  · exact absurd h2 hne
  · exact .inl ⟨rfl, rfl⟩

/-- `1 + 2u > 2 + u`: the coefficient of `u` decides. -/
example : Fq2.cmp ⟨1, 2⟩ ⟨2, 1⟩ = .gt ∧ (⟨1, 2⟩ : Fq2) ≠ Fq2.zero := by decide +kernel

end Hodor

import Verif.Props.Merkle

/-! # C63: comparing commitments compares the committed vectors -/

namespace Hodor

variable {F : Type} [Field F] [StarkField F] (H : List UInt8 → Digest)

/-- Any two created commitments can be compared; the outcome is whether their roots are equal. -/
theorem iopEq_roots (w w' : Worker) (a b : List F) (ta tb : IopTree)
    (hca : IopTree.create H w a = .ok ta) (hcb : IopTree.create H w' b = .ok tb) :
    ∃ ra rb k l, 1 ≤ k ∧ 1 ≤ l ∧ a.length = 2 ^ k ∧ b.length = 2 ^ l ∧ ta.getRoot = .ok ra ∧ tb.getRoot = .ok rb ∧
      ra = Spec.merkle H (fun i => H (encodeLeaf (a.getD i 0))) k 0 ∧ rb = Spec.merkle H (fun i => H (encodeLeaf (b.getD i 0))) l 0 ∧
      ta.eq tb = .ok (decide (ra = rb)) := by
  have pos : ∀ (w : Worker) (a : List F) (ta : IopTree), IopTree.create H w a = .ok ta → ∃ k, 1 ≤ k ∧ a.length = 2 ^ k := by
    intro w a ta h
    by_contra hn
    rw [C18_bad_sizes H w a hn] at h
    cases h
  obtain ⟨k, hk, ha⟩ := pos w a ta hca
  obtain ⟨l, hl, hb⟩ := pos w' b tb hcb
  obtain ⟨t1, c1, -, r1⟩ := C18_root H w a k hk ha
  obtain ⟨t2, c2, -, r2⟩ := C18_root H w' b l hl hb
  rw [c1] at hca; cases hca
  rw [c2] at hcb; cases hcb
  refine ⟨_, _, k, l, hk, hl, ha, hb, r1, r2, rfl, rfl, ?_⟩
  unfold IopTree.eq
  rw [r1, r2]; rfl

/-- **C63.** Comparing two commitments with `==` never panics. Commitments to equal vectors are equal, whatever the numbers of CPUs they were built with. If two
commitments are equal then the committed vectors are equal, in length and in every element, or two different strings hashed while building them
collide. -/
theorem C63_commitment_equality (hb : numBits F < 256) (w w' : Worker) (a b : List F) (ta tb : IopTree)
    (hca : IopTree.create H w a = .ok ta) (hcb : IopTree.create H w' b = .ok tb) :
    (ta.eq tb = .ok true ∨ ta.eq tb = .ok false) ∧ (a = b → ta.eq tb = .ok true) ∧
    (ta.eq tb = .ok true → a = b ∨ ∃ k l, a.length = 2 ^ k ∧ b.length = 2 ^ l ∧
      Spec.CollisionAmong H (fun s => Spec.TreeHashed H (fun i => a.getD i 0) k s ∨
        Spec.TreeHashed H (fun i => b.getD i 0) l s)) := by
  obtain ⟨ra, rb, k, l, -, -, ha, hbl, h1, h2, e1, e2, he⟩ := iopEq_roots H w w' a b ta tb hca hcb
  refine ⟨?_, ?_, ?_⟩
  · rw [he]; by_cases h : ra = rb <;> simp [h]
  · intro hab
    subst hab
    have hkl : k = l := Nat.pow_right_injective (le_refl 2) (ha.symm.trans hbl)
    subst hkl
    rw [he, e1, e2]; simp
  · intro ht
    rw [he] at ht
    have hr : ra = rb := by simpa using ht
    subst hr
    rcases C19_same_root H hb w w' a b k l ha hbl ta tb ra hca hcb h1 h2 with h | h
    · exact Or.inl h
    · exact Or.inr ⟨k, l, ha, hbl, h⟩

/-- Non-vacuity: commitments to two vectors, built with different numbers of CPUs, compared with themselves and each other. -/
def equalityVerdicts : Res (Bool × Bool) := do
  let a ← IopTree.create toyHash ⟨1, by norm_num⟩ ([3, 1, 4, 1] : List Fr)
  let b ← IopTree.create toyHash ⟨3, by norm_num⟩ ([3, 1, 4, 1] : List Fr)
  let c ← IopTree.create toyHash ⟨1, by norm_num⟩ ([3, 1] : List Fr)
  let x ← a.eq b
  let y ← a.eq c
  pure (x, y)

example : equalityVerdicts = .ok (true, false) := by decide +kernel

end Hodor

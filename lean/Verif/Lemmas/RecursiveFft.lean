import Verif.Lemmas.FftKernels

/-! # Recursive transforms -/

namespace Hodor

open Finset

variable {F : Type} [Field F]

theorem evenOdd_tab {α : Type} (m : ℕ) (g : ℕ → α) :
    evenOdd (tab (2 * m) g) = .ok (tab m (fun i => g (2 * i)), tab m (fun i => g (2 * i + 1))) := by
  induction m generalizing g with
  | zero => rfl
  | succ m ih =>
    rw [show 2 * (m + 1) = 2 * m + 1 + 1 by ring, tab_succ', tab_succ', evenOdd, ih, tab_succ' m, tab_succ' m]
    rfl

theorem forEnum_tab {α σ : Type} (body : ℕ → α → σ → Res σ) (h : ℕ → α) (st : ℕ → σ) (m lo : ℕ)
    (hb : ∀ j, j < m → body (lo + j) (h j) (st (lo + j)) = .ok (st (lo + j + 1))) :
    forEnum lo (tab m h) (st lo) body = .ok (st (lo + m)) := by
  induction m generalizing h lo with
  | zero => rfl
  | succ m ih =>
    rw [tab_succ', forEnum]
    have := hb 0 (by omega)
    rw [Nat.add_zero] at this
    rw [this, Res.ok_bind, ih]
    · congr 2; omega
    · intro j hj
      have := hb (j + 1) (by omega)
      rw [show lo + (j + 1) = lo + 1 + j by omega] at this
      exact this

/-- Entries written by the recombination loop after `j` steps. -/
def recF (m : ℕ) (ω : F) (y0 y1 : ℕ → F) (j i : ℕ) : F :=
  if i < j then y0 i + y1 i * ω ^ i
  else if m ≤ i ∧ i < m + j then y0 (i - m) - y1 (i - m) * ω ^ (i - m)
  else 0

theorem recF_step {m j : ℕ} (hj : j < m) (ω : F) (y0 y1 : ℕ → F) (i : ℕ) :
    (if i = j + m then y0 j - y1 j * ω ^ j else if i = j then y0 j + y1 j * ω ^ j else recF m ω y0 y1 j i)
      = recF m ω y0 y1 (j + 1) i := by
  unfold recF
  by_cases h1 : i = j + m
  · subst h1
    rw [if_pos rfl, if_neg (by omega), if_pos (by omega), show j + m - m = j by omega]
  rw [if_neg h1]
  by_cases h2 : i = j
  · subst h2
    rw [if_pos rfl, if_pos (by omega)]
  rw [if_neg h2]
  have e1 : i < j ↔ i < j + 1 := by omega
  have e2 : (m ≤ i ∧ i < m + j) ↔ (m ≤ i ∧ i < m + (j + 1)) := by omega
  simp only [e1, e2]

theorem recombine_loop (m : ℕ) (ω : F) (y0 y1 : ℕ → F) (rec : ℕ → F × F → List F × F → Res (List F × F))
    (hrec : ∀ j, j < m → rec j (y0 j, y1 j) (tab (2 * m) (recF m ω y0 y1 j), ω ^ j)
      = .ok (tab (2 * m) (recF m ω y0 y1 (j + 1)), ω ^ (j + 1))) :
    forEnum 0 ((tab m y0).zip (tab m y1)) (List.replicate (2 * m) (0 : F), (1 : F)) rec
      = .ok (tab (2 * m) (recF m ω y0 y1 m), ω ^ m) := by
  have key := forEnum_tab rec (fun i => (y0 i, y1 i))
    (fun j => (tab (2 * m) (recF m ω y0 y1 j), ω ^ j)) m 0 (by simpa only [Nat.zero_add] using hrec)
  have h0 : tab (2 * m) (recF m ω y0 y1 0) = tab (2 * m) (fun _ => (0 : F)) := by
    apply tab_congr
    intro i _
    unfold recF
    rw [if_neg (by omega), if_neg (by omega)]
  rw [List.zip, zipWith_tab, Nat.min_self, replicate_eq_tab]
  simp only [h0, pow_zero, Nat.zero_add] at key
  exact key

theorem recombine_step {m j : ℕ} (hj : j < m) (ω : F) (y0 y1 : ℕ → F) :
    recombine m ω j (y0 j, y1 j) (tab (2 * m) (recF m ω y0 y1 j), ω ^ j)
      = .ok (tab (2 * m) (recF m ω y0 y1 (j + 1)), ω ^ (j + 1)) := by
  unfold recombine
  have h1 : j < 2 * m := by omega
  have h2 : j + m < 2 * m := by omega
  simp only [wr_tab h1, wr_tab h2, Res.ok_bind, Res.pure_def, ← pow_succ]
  congr 2
  apply tab_congr
  intro i _
  exact recF_step hj ω y0 y1 i

theorem recombineSparse_step [DecidableEq F] {m j : ℕ} (hj : j < m) (ω : F) (y0 y1 : ℕ → F) :
    recombineSparse m ω j (y0 j, y1 j) (tab (2 * m) (recF m ω y0 y1 j), ω ^ j)
      = .ok (tab (2 * m) (recF m ω y0 y1 (j + 1)), ω ^ (j + 1)) := by
  unfold recombineSparse
  have h1 : j < 2 * m := by omega
  have h2 : j + m < 2 * m := by omega
  simp only
  split
  · simp only [wr_tab h1, wr_tab h2, Res.ok_bind, Res.pure_def, ← pow_succ]
    congr 2
    apply tab_congr
    intro i _
    exact recF_step hj ω y0 y1 i
  · rename_i hy1
    have hy1 : y1 j = 0 := by simpa using hy1
    split
    · simp only [wr_tab h1, wr_tab h2, Res.ok_bind, Res.pure_def, ← pow_succ]
      congr 2
      apply tab_congr
      intro i _
      rw [← recF_step hj ω y0 y1 i, hy1, zero_mul, add_zero, sub_zero]
    · rename_i hy0
      have hy0 : y0 j = 0 := by simpa using hy0
      rw [Res.pure_def, ← pow_succ]
      congr 2
      apply tab_congr
      intro i _
      rw [← recF_step hj ω y0 y1 i, hy1, hy0]
      by_cases c1 : i = j + m
      · rw [if_pos c1]
        unfold recF
        rw [if_neg (by omega), if_neg (by omega)]
        ring
      by_cases c2 : i = j
      · rw [if_neg c1, if_pos c2]
        unfold recF
        rw [if_neg (by omega), if_neg (by omega)]
        ring
      rw [if_neg c1, if_neg c2]

/-- Recombining the transforms of the even and odd entries. -/
theorem recF_dft (L : ℕ) (ω : F) (hω : ω ^ 2 ^ L = -1) (x : ℕ → F) (i : ℕ) (hi : i < 2 * 2 ^ L) :
    recF (2 ^ L) ω (dftF (ω ^ 2) (2 ^ L) (fun i => x (2 * i))) (dftF (ω ^ 2) (2 ^ L) (fun i => x (2 * i + 1))) (2 ^ L) i
      = dftF ω (2 ^ (L + 1)) x i := by
  set m := 2 ^ L with hm
  have hsplit : ∀ k, dftF ω (2 ^ (L + 1)) x k
      = dftF (ω ^ 2) m (fun i => x (2 * i)) k + dftF (ω ^ 2) m (fun i => x (2 * i + 1)) k * ω ^ k := by
    intro k
    unfold dftF
    rw [show 2 ^ (L + 1) = 2 * m by rw [hm]; ring, sum_range_two_mul, sum_add_distrib, sum_mul]
    congr 1
    · apply sum_congr rfl
      intro t _
      rw [← pow_mul]; congr 2; ring
    · apply sum_congr rfl
      intro t _
      rw [mul_assoc, ← pow_mul, ← pow_add]; congr 2; ring
  rw [hsplit]
  unfold recF
  split
  · rfl
  · rw [if_pos (by omega)]
    obtain ⟨j, rfl⟩ : ∃ j, i = m + j := ⟨i - m, by omega⟩
    rw [show m + j - m = j by omega]
    have hper : ∀ y : ℕ → F, dftF (ω ^ 2) m y (m + j) = dftF (ω ^ 2) m y j := by
      intro y
      unfold dftF
      apply sum_congr rfl
      intro t _
      rw [Nat.mul_add, pow_add, show (ω ^ 2) ^ (t * m) = 1 by
        rw [← pow_mul, show 2 * (t * m) = m * (2 * t) by ring, pow_mul, hω, pow_mul]; simp, one_mul]
    rw [hper, hper, pow_add, hω]
    ring

theorem HalfNeg.sq {ω : F} {L : ℕ} (h : HalfNeg ω (L + 1)) : HalfNeg (ω ^ 2) L := by
  intro h0
  rw [← pow_mul, ← pow_succ', show L - 1 + 1 = L by omega]
  exact h (by omega)

theorem two_point (ω : F) (hω : HalfNeg ω 1) (x : ℕ → F) :
    [x 0 + x 1, x 0 - x 1] = tab (2 ^ 1) (dftF ω (2 ^ 1) x) := by
  have := hω (by omega)
  simp only [Nat.sub_self, pow_zero, pow_one] at this
  rw [pow_one, tab_succ, tab_succ, tab_zero]
  unfold dftF
  rw [sum_range_succ, sum_range_succ, sum_range_zero, sum_range_succ, sum_range_succ, sum_range_zero, this]
  simp [sub_eq_add_neg]

theorem recursiveFft_tab (L : ℕ) (hL : L ≠ 0) (ω : F) (hω : HalfNeg ω L) (x : ℕ → F) :
    recursiveFft L (tab (2 ^ L) x) ω = .ok (tab (2 ^ L) (dftF ω (2 ^ L) x)) := by
  induction L generalizing ω x with
  | zero => exact absurd rfl hL
  | succ L ih =>
    rw [recursiveFft]
    rcases Nat.eq_zero_or_pos L with rfl | hpos
    · rw [if_pos (by rw [length_tab]; rfl), rd_tab (by norm_num), rd_tab (by norm_num)]
      simp only [Res.ok_bind, Res.pure_def]
      rw [← two_point ω hω x]
    · have hne : 2 ^ (L + 1) ≠ 2 := by
        have : 2 ≤ 2 ^ L := by
          calc 2 = 2 ^ 1 := rfl
            _ ≤ 2 ^ L := Nat.pow_le_pow_right (by norm_num) hpos
        rw [pow_succ]; omega
      have hm : 2 ^ (L + 1) = 2 * 2 ^ L := by ring
      have hn : ω ^ 2 ^ L = -1 := hω (by omega)
      rw [if_neg (by rw [length_tab]; exact hne)]
      simp only [length_tab, decide_true, Res.assert_true, Res.ok_bind]
      rw [hm, evenOdd_tab]
      simp only [Res.ok_bind]
      rw [ih (by omega) _ hω.sq, ih (by omega) _ hω.sq]
      simp only [Res.ok_bind]
      rw [show 2 * 2 ^ L / 2 = 2 ^ L by omega, recombine_loop _ _ _ _ _ (fun j hj => recombine_step hj _ _ _)]
      simp only [Res.ok_bind, Res.pure_def]
      congr 1
      apply tab_congr
      intro i hi
      rw [recF_dft L ω hn x i hi, hm]

theorem recursiveLde_tab [DecidableEq F] (L : ℕ) (hL : L ≠ 0) (ω : F) (hω : HalfNeg ω L) (x : ℕ → F) :
    recursiveLde L (tab (2 ^ L) x) ω = .ok (tab (2 ^ L) (dftF ω (2 ^ L) x)) := by
  induction L generalizing ω x with
  | zero => exact absurd rfl hL
  | succ L ih =>
    rw [recursiveLde]
    split
    · rename_i hz
      rw [List.all_eq_true] at hz
      rw [length_tab, replicate_eq_tab]
      simp only [Res.pure_def]
      congr 1
      apply tab_congr
      intro k _
      unfold dftF
      symm
      apply sum_eq_zero
      intro i hi
      have := hz (x i) (by
        rw [List.mem_iff_getElem?]
        exact ⟨i, by rw [getElem?_tab, if_pos (mem_range.1 hi)]⟩)
      rw [of_decide_eq_true this, zero_mul]
    · rcases Nat.eq_zero_or_pos L with rfl | hpos
      · rw [if_pos (by rw [length_tab]; rfl), rd_tab (by norm_num), rd_tab (by norm_num)]
        simp only [Res.ok_bind, Res.pure_def]
        rw [← two_point ω hω x]
      · have hne : 2 ^ (L + 1) ≠ 2 := by
          have : 2 ≤ 2 ^ L := by
            calc 2 = 2 ^ 1 := rfl
              _ ≤ 2 ^ L := Nat.pow_le_pow_right (by norm_num) hpos
          rw [pow_succ]; omega
        have hm : 2 ^ (L + 1) = 2 * 2 ^ L := by ring
        have hn : ω ^ 2 ^ L = -1 := hω (by omega)
        rw [if_neg (by rw [length_tab]; exact hne)]
        simp only [length_tab, decide_true, Res.assert_true, Res.ok_bind]
        rw [hm, evenOdd_tab]
        simp only [Res.ok_bind]
        rw [ih (by omega) _ hω.sq, ih (by omega) _ hω.sq]
        simp only [Res.ok_bind]
        rw [show 2 * 2 ^ L / 2 = 2 ^ L by omega, recombine_loop _ _ _ _ _ (fun j hj => recombineSparse_step hj _ _ _)]
        simp only [Res.ok_bind, Res.pure_def]
        congr 1
        apply tab_congr
        intro i hi
        rw [recF_dft L ω hn x i hi, hm]

theorem recursiveBestFft_tab (w : Worker) (L : ℕ) (hL : L ≠ 0) (ω : F) (hω : HalfNeg ω L) (x : ℕ → F) :
    recursiveBestFft w (tab (2 ^ L) x) ω L = .ok (tab (2 ^ L) (dftF ω (2 ^ L) x)) := by
  unfold recursiveBestFft
  split
  · exact recursiveFft_tab L hL ω hω x
  · rename_i h
    have hc : w.logNumCpus ≤ L := by omega
    unfold recursiveParallelFft
    simp only [hc, decide_true, Res.assert_true, Res.ok_bind, length_tab]
    apply collectRows_tab w L _ hc ω (hω.pow_eq_one hL) x
    intro j
    rw [fftShuffle_tab L _ j hc ω (hω.pow_eq_one hL), Res.ok_bind]
    exact recursiveFft_tab _ (by omega) _ (hω.pow _ hc) _

theorem skipZeroAdd_tab [DecidableEq F] (L c : ℕ) (x : ℕ → F) (i s : ℕ) (hi : i < 2 ^ (L - c))
    (hlt : i + s * 2 ^ (L - c) < 2 ^ L) (g : ℕ → F) (e : F) :
    skipZeroAdd (tab (2 ^ L) x) L (L - c) i s (tab (2 ^ (L - c)) g) e
      = .ok (tab (2 ^ (L - c)) (fun k => if k = i then g i + x (i + s * 2 ^ (L - c)) * e else g k)) := by
  unfold skipZeroAdd
  rw [Nat.mod_eq_of_lt hlt]
  simp only [rd_tab hlt, Res.ok_bind]
  split
  · simp only [rd_tab hi, wr_tab hi, Res.ok_bind]
  · rename_i h
    rw [not_not.1 h, Res.pure_def]
    congr 1
    apply tab_congr
    intro k _
    split
    · rename_i h; rw [h]; ring
    · rfl

theorem recursiveBestLde_tab [DecidableEq F] (w : Worker) (L : ℕ) (hL : L ≠ 0) (ω : F) (hω : HalfNeg ω L) (x : ℕ → F) :
    recursiveBestLde w (tab (2 ^ L) x) ω L = .ok (tab (2 ^ L) (dftF ω (2 ^ L) x)) := by
  unfold recursiveBestLde
  split
  · exact recursiveLde_tab L hL ω hω x
  · rename_i h
    have hc : w.logNumCpus ≤ L := by omega
    unfold recursiveParallelLde
    simp only [hc, decide_true, Res.assert_true, Res.ok_bind, length_tab]
    apply collectRows_tab w L _ hc ω (hω.pow_eq_one hL) x
    intro j
    rw [shuffleRow_tab L _ j hc ω (hω.pow_eq_one hL) x _
      (fun i s hi _ hlt g e' => skipZeroAdd_tab L _ x i s hi hlt g e'), Res.ok_bind]
    exact recursiveLde_tab _ (by omega) _ (hω.pow _ hc) _

end Hodor

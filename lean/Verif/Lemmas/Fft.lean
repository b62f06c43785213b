import Verif.Lemmas.Bitrev
import Verif.Lemmas.Chunks
import Verif.Spec.Dft
import Mathlib.Algebra.BigOperators.Ring.Finset
import Mathlib.Tactic.FieldSimp

namespace Hodor

open Finset

variable {F : Type} [Field F]

/-- Transform on functions; `dftF ω n g k = ∑_{i<n} g i * ω^(i*k)`. -/
def dftF (ω : F) (n : ℕ) (g : ℕ → F) (k : ℕ) : F := ∑ i ∈ range n, g i * ω ^ (i * k)

/-- `ω^(2^(L-1)) = -1` when `L ≥ 1`. -/
def HalfNeg (ω : F) (L : ℕ) : Prop := L ≠ 0 → ω ^ (2 ^ (L - 1)) = -1

theorem sum_range_two_mul {M : Type} [AddCommMonoid M] (m : ℕ) (f : ℕ → M) :
    ∑ t ∈ range (2 * m), f t = ∑ t ∈ range m, (f (2 * t) + f (2 * t + 1)) := by
  induction m with
  | zero => simp
  | succ m ih =>
    rw [show 2 * (m + 1) = 2 * m + 1 + 1 by ring, sum_range_succ, sum_range_succ, ih, sum_range_succ,
      add_assoc]

theorem HalfNeg.pow_eq_one {ω : F} {L : ℕ} (h : HalfNeg ω L) (hL : L ≠ 0) : ω ^ (2 ^ L) = 1 := by
  obtain ⟨k, rfl⟩ := Nat.exists_eq_succ_of_ne_zero hL
  have := h hL
  simp only [Nat.succ_eq_add_one, Nat.add_sub_cancel] at this
  rw [Nat.succ_eq_add_one, Nat.pow_succ, pow_mul, this]; ring

theorem butterfly_tab {n : ℕ} {g : ℕ → F} {i i' : ℕ} {w : F} (hi : i < n) (hi' : i' < n)
    (hne : i ≠ i') :
    butterfly (tab n g) i i' w = .ok (tab n (fun k =>
      if k = i then g i + g i' * w else if k = i' then g i - g i' * w else g k)) := by
  unfold butterfly
  simp only [rd_tab hi, rd_tab hi', wr_tab hi', Res.ok_bind, wr_tab hi, hne, if_false]

/-- Effect of one round with half-block size `m`. -/
def roundF (m : ℕ) (wm : F) (g : ℕ → F) (i : ℕ) : F :=
  if i % (2 * m) < m then g i + g (i + m) * wm ^ (i % (2 * m))
  else g (i - m) - g i * wm ^ (i % (2 * m) - m)

theorem fftBlock_tab {n m b : ℕ} (hb : 2 * m * (b + 1) ≤ n) (g : ℕ → F) (wm : F) :
    fftBlock (tab n g) (2 * m * b) m wm = .ok (tab n (fun i =>
      if 2 * m * b ≤ i ∧ i < 2 * m * (b + 1) then roundF m wm g i else g i)) := by
  unfold fftBlock
  set k := 2 * m * b with hk
  have hk2 : 2 * m * (b + 1) = k + 2 * m := by rw [hk]; ring
  rw [hk2] at hb ⊢
  have key := forN_eq
    (f := fun j => (tab n (fun i =>
      if k ≤ i ∧ i < k + j then g i + g (i + m) * wm ^ (i - k)
      else if k + m ≤ i ∧ i < k + m + j then g (i - m) - g i * wm ^ (i - m - k)
      else g i), wm ^ j))
    (fun j (aw : List F × F) => do
      let a ← butterfly aw.1 (k + j) (k + j + m) aw.2
      pure (a, aw.2 * wm)) m 0 ?_
  · have h0 : (fun i => if k ≤ i ∧ i < k + 0 then g i + g (i + m) * wm ^ (i - k)
      else if k + m ≤ i ∧ i < k + m + 0 then g (i - m) - g i * wm ^ (i - m - k) else g i) = g := by
      funext i
      rw [if_neg (by omega), if_neg (by omega)]
    rw [h0, pow_zero] at key
    simp only at key ⊢
    rw [key]
    simp only [Res.ok_bind, Res.pure_def, Nat.zero_add]
    congr 1
    apply tab_congr
    intro i hi
    by_cases h1 : k ≤ i ∧ i < k + 2 * m
    · rw [if_pos h1]
      have hmod : i % (2 * m) = i - k := by
        have : i = (i - k) + 2 * m * b := by omega
        conv_lhs => rw [this]
        rw [Nat.add_mul_mod_self_left, Nat.mod_eq_of_lt (by omega)]
      unfold roundF
      rw [hmod]
      by_cases h2 : i - k < m
      · rw [if_pos (by omega), if_pos h2]
      · rw [if_neg (by omega), if_pos (by omega), if_neg h2]
        congr 3
        omega
    · rw [if_neg h1, if_neg (by omega), if_neg (by omega)]
  · intro j _ hj
    have hj : j < m := by omega
    simp only
    rw [butterfly_tab (by omega) (by omega) (by omega)]
    simp only [Res.ok_bind, Res.pure_def]
    rw [pow_succ]
    congr 2
    apply tab_congr
    intro i hi
    by_cases h1 : i = k + j
    · subst h1
      rw [if_pos rfl, if_neg (by omega), if_neg (by omega), if_neg (by omega), if_neg (by omega),
        if_pos (by omega)]
      congr 3; omega
    · rw [if_neg h1]
      by_cases h2 : i = k + j + m
      · subst h2
        rw [if_pos rfl, if_neg (by omega), if_neg (by omega), if_neg (by omega), if_neg (by omega),
          if_neg (by omega), if_pos (by omega)]
        have e : k + j + m - m = k + j := by omega
        have e2 : k + j - k = j := by omega
        rw [e, e2]
      · rw [if_neg h2]
        have e1 : (k ≤ i ∧ i < k + j) ↔ (k ≤ i ∧ i < k + (j + 1)) := by omega
        have e2 : (k + m ≤ i ∧ i < k + m + j) ↔ (k + m ≤ i ∧ i < k + m + (j + 1)) := by omega
        simp only [e1, e2]

theorem fftRound_tab {n m B : ℕ} (hm : 0 < m) (hn : n = 2 * m * B) (g : ℕ → F) (ω : F) :
    fftRound (tab n g) n m ω = .ok (tab n (roundF m (ω ^ (n / (2 * m))) g)) := by
  unfold fftRound
  have hB : numChunks n (2 * m) = B := by
    unfold numChunks
    rw [hn]
    have : 2 * m * B + 2 * m - 1 = (2 * m - 1) + 2 * m * B := by omega
    rw [this, Nat.add_mul_div_left _ _ (by omega), Nat.div_eq_of_lt (by omega), Nat.zero_add]
  rw [hB]
  simp only
  set wm := ω ^ (n / (2 * m))
  have key := forN_eq
    (f := fun b => tab n (fun i => if i < 2 * m * b then roundF m wm g i else g i))
    (fun b a => fftBlock a (2 * m * b) m wm) B 0 ?_
  · simp only [Nat.mul_zero, Nat.not_lt_zero, if_false, Nat.zero_add] at key
    rw [key]
    congr 1
    apply tab_congr
    intro i hi
    rw [if_pos (by omega)]
  · intro b _ hb
    have hle : 2 * m * (b + 1) ≤ n := by
      rw [hn]; exact Nat.mul_le_mul_left _ (by omega)
    rw [fftBlock_tab hle]
    congr 1
    apply tab_congr
    intro i hi
    have hk2 : 2 * m * (b + 1) = 2 * m * b + 2 * m := by ring
    by_cases h1 : i < 2 * m * b
    · rw [if_neg (by omega), if_pos h1, if_pos (by omega)]
    · by_cases h2 : i < 2 * m * (b + 1)
      · rw [if_pos (by omega), if_pos h2]
        -- roundF only looks inside the block
        unfold roundF
        have hmod : i % (2 * m) = i - 2 * m * b := by
          have : i = (i - 2 * m * b) + 2 * m * b := by omega
          conv_lhs => rw [this]
          rw [Nat.add_mul_mod_self_left, Nat.mod_eq_of_lt (by omega)]
        rw [hmod]
        by_cases h3 : i - 2 * m * b < m
        · rw [if_pos h3, if_pos h3]
          simp only
          rw [if_neg h1, if_neg (by omega)]
        · rw [if_neg h3, if_neg h3]
          simp only
          rw [if_neg h1, if_neg (by omega)]
      · rw [if_neg (by omega), if_neg h1, if_neg h2]

/-- State after `s` rounds. -/
def fftInv (x : ℕ → F) (ω : F) (L s i : ℕ) : F :=
  ∑ t ∈ range (2 ^ s), x (t * 2 ^ (L - s) + bitreverse (i / 2 ^ s) (L - s))
    * ω ^ (2 ^ (L - s) * (t * (i % 2 ^ s)))

theorem fftInv_step (x : ℕ → F) (ω : F) (L s : ℕ) (hs : s < L) (hω : HalfNeg ω L)
    (i : ℕ) :
    roundF (2 ^ s) (ω ^ (2 ^ L / (2 * 2 ^ s))) (fftInv x ω L s) i = fftInv x ω L (s + 1) i := by
  obtain ⟨d, rfl⟩ : ∃ d, L = s + 1 + d := ⟨L - s - 1, by omega⟩
  have hm : 0 < 2 ^ s := by positivity
  have hpw : 2 ^ (s + 1 + d) / (2 * 2 ^ s) = 2 ^ d := by
    rw [show 2 * 2 ^ s = 2 ^ (s + 1) by ring, pow_add, Nat.mul_div_cancel_left _ (by positivity)]
  rw [hpw]
  have hneg : (ω ^ 2 ^ d) ^ 2 ^ s = -1 := by
    have := hω (by omega)
    rw [show s + 1 + d - 1 = d + s by omega, pow_add] at this
    rw [← pow_mul]; exact this
  set m := 2 ^ s with hmdef
  set W := ω ^ 2 ^ d with hW
  have e1 : s + 1 + d - s = d + 1 := by omega
  have e2 : s + 1 + d - (s + 1) = d := by omega
  -- decompose i
  obtain ⟨b, r, hr, rfl⟩ : ∃ b r, r < 2 * m ∧ i = 2 * m * b + r :=
    ⟨i / (2 * m), i % (2 * m), Nat.mod_lt _ (by omega), (Nat.div_add_mod _ _).symm⟩
  have hmod : (2 * m * b + r) % (2 * m) = r := by
    rw [Nat.mul_add_mod, Nat.mod_eq_of_lt hr]
  -- right-hand side, split into even and odd t
  have hR : fftInv x ω (s + 1 + d) (s + 1) (2 * m * b + r)
      = ∑ t ∈ range m, (x (t * 2 ^ (d + 1) + bitreverse b d) * (W ^ 2) ^ (t * r)
        + x (t * 2 ^ (d + 1) + (2 ^ d + bitreverse b d)) * (W ^ 2) ^ (t * r) * W ^ r) := by
    unfold fftInv
    rw [show 2 ^ (s + 1) = 2 * m by rw [hmdef]; ring, sum_range_two_mul, e2]
    apply sum_congr rfl
    intro t _
    have hdiv : (2 * m * b + r) / (2 * m) = b := by
      rw [Nat.mul_add_div (by omega), Nat.div_eq_of_lt hr, Nat.add_zero]
    rw [hdiv, hmod, hW]
    congr 1
    · congr 1
      · congr 1; ring
      · rw [← pow_mul, ← pow_mul]; congr 1; ring
    · rw [mul_assoc]
      congr 1
      · congr 1; ring
      · rw [← pow_mul, ← pow_mul, ← pow_mul, ← pow_add]; congr 1; ring
  -- left-hand side values
  have hL : ∀ q r', r' < m → fftInv x ω (s + 1 + d) s (m * q + r')
      = ∑ t ∈ range m, x (t * 2 ^ (d + 1) + bitreverse q (d + 1)) * (W ^ 2) ^ (t * r') := by
    intro q r' hr'
    unfold fftInv
    rw [e1, ← hmdef]
    apply sum_congr rfl
    intro t _
    have hdiv : (m * q + r') / m = q := by
      rw [Nat.mul_add_div hm, Nat.div_eq_of_lt hr', Nat.add_zero]
    have hmod' : (m * q + r') % m = r' := by
      rw [Nat.mul_add_mod, Nat.mod_eq_of_lt hr']
    rw [hdiv, hmod', hW]
    congr 1
    rw [← pow_mul, ← pow_mul]; congr 1; ring
  have hev : bitreverse (2 * b) (d + 1) = bitreverse b d := by
    rw [bitreverse_succ]; simp
  have hod : bitreverse (2 * b + 1) (d + 1) = 2 ^ d + bitreverse b d := by
    rw [bitreverse_succ]
    have h1 : (2 * b + 1) % 2 = 1 := by omega
    have h2 : (2 * b + 1) / 2 = b := by omega
    rw [h1, h2, one_mul]
  rw [hR]
  unfold roundF
  rw [hmod]
  by_cases hrm : r < m
  · rw [if_pos hrm, show 2 * m * b + r = m * (2 * b) + r by ring, hL _ _ hrm,
      show m * (2 * b) + r + m = m * (2 * b + 1) + r by ring, hL _ _ hrm, hev, hod, sum_add_distrib,
      sum_mul]
  · rw [if_neg hrm]
    obtain ⟨r', rfl⟩ : ∃ r', r = m + r' := ⟨r - m, by omega⟩
    have hr' : r' < m := by omega
    have hW2 : (W ^ 2) ^ m = 1 := by rw [← pow_mul, mul_comm, pow_mul, hneg]; ring
    rw [show 2 * m * b + (m + r') - m = m * (2 * b) + r' by
        have : 2 * m * b = m * (2 * b) := by ring
        omega,
      hL _ _ hr', show 2 * m * b + (m + r') = m * (2 * b + 1) + r' by ring, hL _ _ hr', hev, hod,
      show m + r' - m = r' by omega, sum_mul, ← sum_sub_distrib]
    apply sum_congr rfl
    intro t _
    have h1 : (W ^ 2) ^ (t * (m + r')) = (W ^ 2) ^ (t * r') := by
      rw [Nat.mul_add, pow_add, Nat.mul_comm t m, pow_mul, hW2, one_pow, one_mul]
    have h2 : W ^ (m + r') = - W ^ r' := by rw [pow_add, hneg]; ring
    rw [h1, h2]; ring

/-- `serial_fft` computes the DFT. -/
theorem serialFft_tab (L : ℕ) (hL : L < 32) (ω : F) (hω : HalfNeg ω L) (x : ℕ → F) :
    serialFft (tab (2 ^ L) x) ω L = .ok (tab (2 ^ L) (dftF ω (2 ^ L) x)) := by
  have h32 : 2 ^ L % 2 ^ 32 = 2 ^ L :=
    Nat.mod_eq_of_lt (Nat.pow_lt_pow_right (by norm_num) hL)
  unfold serialFft
  simp only [length_tab, h32, hL, decide_true, Res.assert_true, Res.ok_bind]
  rw [bitrevPermute_tab]
  simp only [Res.ok_bind]
  have key := forN_eq
    (f := fun s => (tab (2 ^ L) (fftInv x ω L s), 2 ^ s))
    (fun _ (am : List F × ℕ) => do
      let a ← fftRound am.1 (2 ^ L) am.2 ω
      pure (a, am.2 * 2)) L 0 ?_
  · have h0 : tab (2 ^ L) (fftInv x ω L 0) = tab (2 ^ L) (fun i => x (bitreverse i L)) := by
      apply tab_congr
      intro i hi
      simp [fftInv]
    rw [h0, pow_zero] at key
    rw [key]
    simp only [Res.ok_bind, Res.pure_def, Nat.zero_add]
    congr 1
    apply tab_congr
    intro i hi
    unfold fftInv dftF
    apply sum_congr rfl
    intro t _
    rw [Nat.sub_self, Nat.mod_eq_of_lt hi]
    simp
  · intro s _ hs
    have hs : s < L := by omega
    have hn : 2 ^ L = 2 * 2 ^ s * 2 ^ (L - s - 1) := by
      rw [← pow_succ', ← pow_add]; congr 1; omega
    rw [fftRound_tab (by positivity) hn]
    simp only [Res.ok_bind, Res.pure_def]
    rw [pow_succ]
    congr 2
    apply tab_congr
    intro i hi
    exact fftInv_step x ω L s hs hω i

end Hodor

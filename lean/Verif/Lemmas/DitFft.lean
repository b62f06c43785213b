import Verif.Lemmas.FftKernels

/-! # Decimation in frequency (`dit_fft`) -/

namespace Hodor

open Finset

variable {F : Type} [Field F]

theorem ditButterfly_tab {n h k : ℕ} {g : ℕ → F} {w : F} (hh : 0 < h) (hk : k + h < n) :
    ditButterfly (tab n g) k h w = .ok (tab n (fun i =>
      if i = k then g k + g (k + h) else if i = k + h then (g k - g (k + h)) * w else g i)) := by
  unfold ditButterfly
  have hk' : k < n := by omega
  have hne : k ≠ k + h := by omega
  simp only [rd_tab hk, rd_tab hk', wr_tab hk, wr_tab hk', Res.ok_bind, hne, if_false]

/-- Effect of one round with half-block length `h` when `count` butterflies of every block are done. -/
def ditF (h count : ℕ) (wm : F) (g : ℕ → F) (i : ℕ) : F :=
  if i % (2 * h) < count then g i + g (i + h)
  else if h ≤ i % (2 * h) ∧ i % (2 * h) < h + count then (g (i - h) - g i) * wm ^ (i % (2 * h) - h)
  else g i

theorem ditBlock_tab {n h b c : ℕ} (hc : c ≤ h) (hb : 2 * h * (b + 1) ≤ n) (g : ℕ → F) (wm : F) :
    ditBlock (tab n g) (2 * h * b) h c wm = .ok (tab n (fun i =>
      if 2 * h * b ≤ i ∧ i < 2 * h * (b + 1) then ditF h c wm g i else g i)) := by
  unfold ditBlock
  set k := 2 * h * b with hk
  have hk2 : 2 * h * (b + 1) = k + 2 * h := by rw [hk]; ring
  rw [hk2] at hb ⊢
  have key := forN_eq
    (f := fun j => (tab n (fun i =>
      if k ≤ i ∧ i < k + j then g i + g (i + h)
      else if k + h ≤ i ∧ i < k + h + j then (g (i - h) - g i) * wm ^ (i - h - k)
      else g i), wm ^ j))
    (fun j (aw : List F × F) => do
      let a ← ditButterfly aw.1 (k + j) h aw.2
      pure (a, aw.2 * wm)) c 0 ?_
  · have h0 : (fun i => if k ≤ i ∧ i < k + 0 then g i + g (i + h)
      else if k + h ≤ i ∧ i < k + h + 0 then (g (i - h) - g i) * wm ^ (i - h - k) else g i) = g := by
      funext i
      rw [if_neg (by omega), if_neg (by omega)]
    rw [h0, pow_zero] at key
    simp only at key ⊢
    rw [key]
    simp only [Res.ok_bind, Res.pure_def, Nat.zero_add]
    congr 1
    apply tab_congr
    intro i hi
    by_cases h1 : k ≤ i ∧ i < k + 2 * h
    · rw [if_pos h1]
      have hmod : i % (2 * h) = i - k := by
        have : i = (i - k) + 2 * h * b := by omega
        conv_lhs => rw [this]
        rw [Nat.add_mul_mod_self_left, Nat.mod_eq_of_lt (by omega)]
      unfold ditF
      rw [hmod]
      by_cases h2 : i - k < c
      · rw [if_pos (by omega), if_pos h2]
      · rw [if_neg (by omega), if_neg h2]
        by_cases h3 : h ≤ i - k ∧ i - k < h + c
        · rw [if_pos (by omega), if_pos h3]
          congr 2
          omega
        · rw [if_neg (by omega), if_neg h3]
    · rw [if_neg h1, if_neg (by omega), if_neg (by omega)]
  · intro j _ hj
    have hj : j < c := by omega
    simp only
    rw [ditButterfly_tab (by omega) (by omega)]
    simp only [Res.ok_bind, Res.pure_def]
    rw [pow_succ]
    congr 2
    apply tab_congr
    intro i hi
    by_cases h1 : i = k + j
    · subst h1
      rw [if_pos rfl, if_neg (by omega), if_neg (by omega), if_neg (by omega), if_neg (by omega),
        if_pos (by omega)]
    · rw [if_neg h1]
      by_cases h2 : i = k + j + h
      · subst h2
        rw [if_pos rfl, if_neg (by omega), if_neg (by omega), if_neg (by omega), if_neg (by omega),
          if_neg (by omega), if_pos (by omega)]
        have e : k + j + h - h = k + j := by omega
        have e2 : k + j - k = j := by omega
        rw [e, e2]
      · rw [if_neg h2]
        have e1 : (k ≤ i ∧ i < k + j) ↔ (k ≤ i ∧ i < k + (j + 1)) := by omega
        have e2 : (k + h ≤ i ∧ i < k + h + j) ↔ (k + h ≤ i ∧ i < k + h + (j + 1)) := by omega
        simp only [e1, e2]

/-- One round; the butterflies left out act on zeroes. -/
theorem ditRound_tab {n m h nz : ℕ} (hm : 0 < m) (hh : 0 < h) (hn : n = 2 * h * m) (g : ℕ → F) (ω : F)
    (hz : ∀ i, nz ≤ i % (2 * h) → g i = 0) :
    ditRound (tab n g) n m nz ω = .ok (tab n (ditF h h (ω ^ m) g)) := by
  unfold ditRound
  have hbl : n / m = 2 * h := by rw [hn, Nat.mul_div_cancel _ hm]
  simp only [hbl, show 2 * h / 2 = h by omega]
  set wm := ω ^ m
  have key := forN_eq
    (f := fun b => tab n (fun i => if i < 2 * h * b then ditF h (min h nz) wm g i else g i))
    (fun b a => ditBlock a (b * (2 * h)) h (min h nz) wm) m 0 ?_
  · simp only [Nat.mul_zero, Nat.not_lt_zero, if_false, Nat.zero_add] at key
    rw [key]
    congr 1
    apply tab_congr
    intro i hi
    rw [if_pos (by omega)]
    have hlt := Nat.mod_lt i (show 0 < 2 * h by omega)
    have hadd : i % (2 * h) < h → (i + h) % (2 * h) = i % (2 * h) + h := by
      intro hlt
      rw [Nat.add_mod, Nat.mod_eq_of_lt (show h < 2 * h by omega), Nat.mod_eq_of_lt (by omega)]
    have hsub : h ≤ i % (2 * h) → (i - h) % (2 * h) = i % (2 * h) - h := by
      intro hle
      have e : i - h = (i % (2 * h) - h) + 2 * h * (i / (2 * h)) := by
        have := Nat.mod_add_div i (2 * h)
        omega
      rw [e, Nat.add_mul_mod_self_left, Nat.mod_eq_of_lt (by omega)]
    unfold ditF
    by_cases h1 : i % (2 * h) < h
    · rw [if_pos h1]
      by_cases h2 : i % (2 * h) < nz
      · rw [if_pos (by omega)]
      · rw [if_neg (by omega), if_neg (by omega), hz i (by omega), hz (i + h) (by rw [hadd h1]; omega), add_zero]
    · rw [if_neg h1, if_pos (⟨by omega, by omega⟩ : h ≤ i % (2 * h) ∧ i % (2 * h) < h + h), if_neg (by omega)]
      by_cases h2 : i % (2 * h) - h < nz
      · rw [if_pos (by omega)]
      · rw [if_neg (by omega), hz i (by omega), hz (i - h) (by rw [hsub (by omega)]; omega)]
        ring
  · intro b _ hb
    have hle : 2 * h * (b + 1) ≤ n := by
      rw [hn]; exact Nat.mul_le_mul_left _ (by omega)
    rw [Nat.mul_comm b, ditBlock_tab (by omega) hle]
    congr 1
    apply tab_congr
    intro i hi
    have hk2 : 2 * h * (b + 1) = 2 * h * b + 2 * h := by ring
    by_cases h1 : i < 2 * h * b
    · rw [if_neg (by omega), if_pos h1, if_pos (by omega)]
    · by_cases h2 : i < 2 * h * (b + 1)
      · rw [if_pos (by omega), if_pos h2]
        unfold ditF
        have hmod : i % (2 * h) = i - 2 * h * b := by
          have : i = (i - 2 * h * b) + 2 * h * b := by omega
          conv_lhs => rw [this]
          rw [Nat.add_mul_mod_self_left, Nat.mod_eq_of_lt (by omega)]
        rw [hmod]
        by_cases h3 : i - 2 * h * b < min h nz
        · rw [if_pos h3, if_pos h3]
          simp only
          rw [if_neg h1, if_neg (by omega)]
        · rw [if_neg h3, if_neg h3]
          by_cases h4 : h ≤ i - 2 * h * b ∧ i - 2 * h * b < h + min h nz
          · rw [if_pos h4, if_pos h4]
            simp only
            rw [if_neg h1, if_neg (by omega)]
          · rw [if_neg h4, if_neg h4]
            simp only
            rw [if_neg h1]
      · rw [if_neg (by omega), if_neg h1, if_neg h2]

/-- State after `s` rounds. -/
def ditInv (x : ℕ → F) (ω : F) (L s i : ℕ) : F :=
  ∑ t ∈ range (2 ^ s), x (i % 2 ^ (L - s) + t * 2 ^ (L - s))
    * ω ^ ((i % 2 ^ (L - s) + t * 2 ^ (L - s)) * bitreverse (i / 2 ^ (L - s)) s)

theorem ditInv_step (x : ℕ → F) (ω : F) (L s : ℕ) (hs : s < L) (hω : HalfNeg ω L) (i : ℕ) :
    ditF (2 ^ (L - s - 1)) (2 ^ (L - s - 1)) (ω ^ 2 ^ s) (ditInv x ω L s) i = ditInv x ω L (s + 1) i := by
  have e1 : L - (s + 1) = L - s - 1 := by omega
  have hΛ : 2 ^ (L - s) = 2 * 2 ^ (L - s - 1) := by rw [← pow_succ']; congr 1; omega
  have hhs : 2 ^ (L - s - 1) * 2 ^ s = 2 ^ (L - 1) := by rw [← pow_add]; congr 1; omega
  set h := 2 ^ (L - s - 1) with hh
  have hpos : 0 < h := by positivity
  have hneg : ω ^ (h * 2 ^ s) = -1 := by rw [hhs]; exact hω (by omega)
  obtain ⟨b, r, hr, rfl⟩ : ∃ b r, r < 2 * h ∧ i = 2 * h * b + r :=
    ⟨i / (2 * h), i % (2 * h), Nat.mod_lt _ (by omega), (Nat.div_add_mod _ _).symm⟩
  have hmod : (2 * h * b + r) % (2 * h) = r := by rw [Nat.mul_add_mod, Nat.mod_eq_of_lt hr]
  have hL : ∀ r', r' < 2 * h → ditInv x ω L s (2 * h * b + r')
      = ∑ t ∈ range (2 ^ s), x (r' + t * (2 * h)) * ω ^ ((r' + t * (2 * h)) * bitreverse b s) := by
    intro r' hr'
    unfold ditInv
    rw [hΛ, Nat.mul_add_mod, Nat.mod_eq_of_lt hr', Nat.mul_add_div (by omega), Nat.div_eq_of_lt hr', Nat.add_zero]
  have hR : ∀ c r', r' < h → ditInv x ω L (s + 1) (h * c + r')
      = ∑ t ∈ range (2 ^ s), (x (r' + t * (2 * h)) * ω ^ ((r' + t * (2 * h)) * bitreverse c (s + 1))
        + x (r' + h + t * (2 * h)) * ω ^ ((r' + h + t * (2 * h)) * bitreverse c (s + 1))) := by
    intro c r' hr'
    unfold ditInv
    rw [e1, ← hh, Nat.mul_add_mod, Nat.mod_eq_of_lt hr', Nat.mul_add_div hpos, Nat.div_eq_of_lt hr', Nat.add_zero,
      show 2 ^ (s + 1) = 2 * 2 ^ s by ring, sum_range_two_mul]
    apply sum_congr rfl
    intro t _
    have a1 : r' + 2 * t * h = r' + t * (2 * h) := by ring
    have a2 : r' + (2 * t + 1) * h = r' + h + t * (2 * h) := by ring
    rw [a1, a2, Nat.add_zero]
  have hev : bitreverse (2 * b) (s + 1) = bitreverse b s := by
    rw [bitreverse_succ]; simp
  have hod : bitreverse (2 * b + 1) (s + 1) = 2 ^ s + bitreverse b s := by
    rw [bitreverse_succ]
    have h1 : (2 * b + 1) % 2 = 1 := by omega
    have h2 : (2 * b + 1) / 2 = b := by omega
    rw [h1, h2, one_mul]
  unfold ditF
  rw [hmod]
  by_cases hrm : r < h
  · rw [if_pos hrm, hL r hr, show 2 * h * b + r + h = 2 * h * b + (r + h) by ring, hL (r + h) (by omega),
      show 2 * h * b + r = h * (2 * b) + r by ring, hR _ _ hrm, hev, sum_add_distrib]
  · rw [if_neg hrm, if_pos (by omega)]
    obtain ⟨r', rfl⟩ : ∃ r', r = h + r' := ⟨r - h, by omega⟩
    have hr' : r' < h := by omega
    rw [show 2 * h * b + (h + r') - h = 2 * h * b + r' by omega, hL _ (by omega), hL _ hr,
      show 2 * h * b + (h + r') = h * (2 * b + 1) + r' by ring, hR _ _ hr', hod, ← sum_sub_distrib, sum_mul,
      show h + r' - h = r' by omega]
    apply sum_congr rfl
    intro t _
    have hper : ω ^ (t * (2 * h) * 2 ^ s) = 1 := by
      rw [show t * (2 * h) * 2 ^ s = (h * 2 ^ s) * (2 * t) by ring, pow_mul, hneg, pow_mul]
      simp
    have p1 : ω ^ ((r' + t * (2 * h)) * (2 ^ s + bitreverse b s))
        = (ω ^ 2 ^ s) ^ r' * ω ^ ((r' + t * (2 * h)) * bitreverse b s) := by
      rw [show (r' + t * (2 * h)) * (2 ^ s + bitreverse b s)
        = 2 ^ s * r' + t * (2 * h) * 2 ^ s + (r' + t * (2 * h)) * bitreverse b s by ring, pow_add, pow_add, hper, pow_mul]
      ring
    have p2 : ω ^ ((r' + h + t * (2 * h)) * (2 ^ s + bitreverse b s))
        = - ((ω ^ 2 ^ s) ^ r' * ω ^ ((r' + h + t * (2 * h)) * bitreverse b s)) := by
      rw [show (r' + h + t * (2 * h)) * (2 ^ s + bitreverse b s)
        = 2 ^ s * r' + h * 2 ^ s + t * (2 * h) * 2 ^ s + (r' + h + t * (2 * h)) * bitreverse b s by ring,
        pow_add, pow_add, pow_add, hper, hneg, pow_mul]
      ring
    rw [p1, p2, Nat.add_comm h r']
    ring

/-- A zero-padded input stays zero past the bound in every block. -/
theorem ditInv_zero {x : ℕ → F} {ω : F} {L s nz i : ℕ} (hx : ∀ j, nz ≤ j → x j = 0) (hi : nz ≤ i % 2 ^ (L - s)) :
    ditInv x ω L s i = 0 := by
  unfold ditInv
  apply sum_eq_zero
  intro t _
  rw [hx _ (by omega), zero_mul]

theorem serialDitFft_tab (L : ℕ) (hL : L < 64) (ω : F) (hω : HalfNeg ω L) (nz : ℕ) (x : ℕ → F)
    (hx : ∀ j, nz ≤ j → x j = 0) :
    serialDitFft (tab (2 ^ L) x) ω L nz = .ok (tab (2 ^ L) (dftF ω (2 ^ L) x)) := by
  unfold serialDitFft
  simp only [length_tab, hL, decide_true, Res.assert_true, Res.ok_bind]
  have key := forN_eq
    (f := fun s => (tab (2 ^ L) (ditInv x ω L s), 2 ^ s))
    (fun _ (am : List F × ℕ) => do
      let a ← ditRound am.1 (2 ^ L) am.2 nz ω
      pure (a, am.2 * 2)) L 0 ?_
  · have h0 : tab (2 ^ L) (ditInv x ω L 0) = tab (2 ^ L) x := by
      apply tab_congr
      intro i hi
      simp [ditInv, Nat.mod_eq_of_lt hi]
    rw [h0, pow_zero] at key
    rw [key]
    simp only [Res.ok_bind, Nat.zero_add]
    rw [bitrevPermute_tab]
    congr 1
    apply tab_congr
    intro i hi
    unfold ditInv dftF
    apply sum_congr rfl
    intro t _
    rw [Nat.sub_self, pow_zero, Nat.mod_one, Nat.div_one, bitreverse_bitreverse i L hi]
    simp
  · intro s _ hs
    have hs : s < L := by omega
    have hΛ : 2 ^ (L - s) = 2 * 2 ^ (L - s - 1) := by rw [← pow_succ']; congr 1; omega
    have hn : 2 ^ L = 2 * 2 ^ (L - s - 1) * 2 ^ s := by
      rw [← hΛ, ← pow_add]; congr 1; omega
    dsimp only
    rw [ditRound_tab (by positivity) (by positivity) hn _ _ (fun i hi => ditInv_zero hx (by rw [hΛ]; exact hi))]
    simp only [Res.ok_bind, Res.pure_def]
    rw [pow_succ]
    congr 2
    apply tab_congr
    intro i hi
    exact ditInv_step x ω L s hs hω i

theorem parallelDitFft_tab (w : Worker) (L c : ℕ) (hL : L - c < 64) (hc : c ≤ L) (ω : F)
    (hω : HalfNeg ω L) (h1 : ω ^ 2 ^ L = 1) (nz : ℕ) (x : ℕ → F) (hx : ∀ j, nz ≤ j → x j = 0) :
    parallelDitFft w (tab (2 ^ L) x) ω L c nz = .ok (tab (2 ^ L) (dftF ω (2 ^ L) x)) := by
  unfold parallelDitFft
  simp only [hc, decide_true, Res.assert_true, Res.ok_bind, length_tab]
  apply collectRows_tab w L c hc ω h1 x
  intro j
  rw [shuffleRow_tab L c j hc ω h1 x _ (fun i s hi _ hlt g e' => plainAdd_tab L c x i s hi hlt g e'), Res.ok_bind]
  -- only entries below the row length matter
  have e : tab (2 ^ (L - c)) (rowF L c ω x j)
      = tab (2 ^ (L - c)) (fun i => if i < 2 ^ (L - c) then rowF L c ω x j i else 0) :=
    tab_congr (fun i hi => (if_pos hi).symm)
  show serialDitFft (tab (2 ^ (L - c)) (rowF L c ω x j)) _ _ _ = _
  rw [e, serialDitFft_tab (L - c) hL _ (hω.pow c hc)]
  · congr 1
    apply tab_congr
    intro k _
    unfold dftF
    apply sum_congr rfl
    intro i hi
    dsimp only
    rw [if_pos (mem_range.1 hi)]
  · intro i hi
    split
    · exact rowF_zero hx j i (by omega)
    · rfl

theorem bestDitFft_tab (w : Worker) (L : ℕ) (hL : L < 64) (ω : F) (hω : HalfNeg ω L) (nz : ℕ) (x : ℕ → F)
    (hx : ∀ j, nz ≤ j → x j = 0) :
    bestDitFft w (tab (2 ^ L) x) ω L nz = .ok (tab (2 ^ L) (dftF ω (2 ^ L) x)) := by
  unfold bestDitFft
  split
  · exact serialDitFft_tab L hL ω hω nz x hx
  · exact parallelDitFft_tab w L _ (by omega) (by omega) ω hω (hω.pow_eq_one (by omega)) nz x hx

end Hodor

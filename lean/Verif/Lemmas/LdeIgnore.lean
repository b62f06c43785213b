import Verif.Lemmas.FftKernels

/-!
# The pruned transforms on vectors that are not zero-padded
-/

namespace Hodor

open Finset

variable {F : Type} [Field F]

/-- What a sparse round does to the values: the second halves of the blocks that start with a known entry get a copy of it. -/
def copyF (s e : ℕ) (g : ℕ → F) (i : ℕ) : F := if 2 ^ s ≤ i % 2 ^ e ∧ i % 2 ^ e < 2 ^ (s + 1) then g (i - 2 ^ s) else g i

/-- The residue of the second operand of a butterfly in a sparse round. -/
theorem odd_residue {s e i : ℕ} (hse : s < e) (hi : i % 2 ^ (s + 1) < 2 ^ s) : (i + 2 ^ s) % 2 ^ e = i % 2 ^ e + 2 ^ s := by
  have h1 : 2 ^ e = 2 ^ (s + 1) * 2 ^ (e - (s + 1)) := by rw [← pow_add]; congr 1; omega
  have h2 : i % 2 ^ e = i % 2 ^ (s + 1) + 2 ^ (s + 1) * (i / 2 ^ (s + 1) % 2 ^ (e - (s + 1))) := by rw [h1, Nat.mod_mul]
  have h3 : i / 2 ^ (s + 1) % 2 ^ (e - (s + 1)) + 1 ≤ 2 ^ (e - (s + 1)) := Nat.mod_lt _ (by positivity)
  have h4 := Nat.mul_le_mul_left (2 ^ (s + 1)) h3
  rw [← h1, Nat.mul_add, mul_one] at h4
  have h5 : 2 ^ (s + 1) = 2 * 2 ^ s := pow_succ' _ _
  rw [Nat.add_mod, Nat.mod_eq_of_lt (a := 2 ^ s) (Nat.pow_lt_pow_right (by norm_num) hse), Nat.mod_eq_of_lt]
  omega

theorem sparseButterfly_copy {n s e i : ℕ} {g : ℕ → F} {w : F} (hse : s < e) (hi : i % 2 ^ (s + 1) < 2 ^ s) (hn : i + 2 ^ s < n) :
    sparseButterfly (tab n g) i (i + 2 ^ s) (2 ^ e) s w = .ok (tab n (fun k => if k = i + 2 ^ s ∧ i % 2 ^ e < 2 ^ s then g i else g k)) := by
  unfold sparseButterfly
  have h1 : isNonZero (i + 2 ^ s) (2 ^ e) s = false := by
    rw [isNonZero_pow, odd_residue hse hi]
    simp
  rw [h1, isNonZero_pow]
  by_cases h : i % 2 ^ e < 2 ^ s
  · simp only [h, decide_true, rd_tab (show i < n by omega), wr_tab hn, Res.ok_bind, and_true]
  · simp only [h, decide_false, and_false, if_false]

theorem sparseBlock_copy {n s e b : ℕ} (hse : s < e) (hb : 2 * 2 ^ s * (b + 1) ≤ n) (g : ℕ → F) (wm : F) :
    sparseBlock (tab n g) (2 * 2 ^ s * b) (2 ^ s) (2 ^ e) s wm =
      .ok (tab n (fun i => if 2 * 2 ^ s * b ≤ i ∧ i < 2 * 2 ^ s * (b + 1) then copyF s e g i else g i)) := by
  set m := 2 ^ s with hm
  have hm0 : 0 < m := by positivity
  set k := 2 * m * b with hk
  have hk2 : 2 * m * (b + 1) = k + 2 * m := by rw [hk]; ring
  rw [hk2] at hb ⊢
  have hps : 2 ^ (s + 1) = 2 * m := pow_succ' _ _
  have hkm : ∀ j, j < m → (k + j) % 2 ^ (s + 1) < 2 ^ s := by
    intro j hj
    rw [hps, hk, Nat.add_comm, Nat.add_mul_mod_self_left, Nat.mod_eq_of_lt (by omega)]
    exact hj
  unfold sparseBlock
  have key := forN_eq
    (f := fun j => (tab n (fun i => if k + m ≤ i ∧ i < k + m + j then copyF s e g i else g i), wm ^ j))
    (fun j (aw : List F × F) => do
      let a ← sparseButterfly aw.1 (k + j) (k + j + m) (2 ^ e) s aw.2
      pure (a, aw.2 * wm)) m 0 ?_
  · rw [show (fun i => if k + m ≤ i ∧ i < k + m + 0 then copyF s e g i else g i) = g by
      funext i
      rw [if_neg (by omega)], pow_zero, Nat.zero_add] at key
    rw [key]
    simp only [Res.ok_bind, Res.pure_def]
    congr 1
    apply tab_congr
    intro i _
    by_cases h1 : k + m ≤ i ∧ i < k + m + m
    · rw [if_pos h1, if_pos (by omega)]
    · rw [if_neg h1]
      by_cases h2 : k ≤ i ∧ i < k + 2 * m
      · rw [if_pos h2]
        obtain ⟨j, rfl⟩ : ∃ j, i = k + j := ⟨i - k, by omega⟩
        unfold copyF
        have hj : j < m := by omega
        rw [if_neg]
        rintro ⟨h3, h4⟩
        have h5 := hkm j hj
        have h6 : (k + j) % 2 ^ e % 2 ^ (s + 1) = (k + j) % 2 ^ (s + 1) := Nat.mod_mod_of_dvd _ (pow_dvd_pow 2 (by omega))
        rw [Nat.mod_eq_of_lt h4] at h6
        omega
      · rw [if_neg h2]
  · intro j _ hj
    have hj : j < m := by omega
    dsimp only
    rw [hm, sparseButterfly_copy hse (hkm j hj) (by omega)]
    simp only [Res.ok_bind, Res.pure_def]
    rw [pow_succ]
    congr 2
    apply tab_congr
    intro i _
    rw [← hm]
    by_cases hi : i = k + j + m
    · subst hi
      rw [if_pos (show k + m ≤ k + j + m ∧ k + j + m < k + m + (j + 1) by omega)]
      unfold copyF
      have hr := odd_residue hse (hkm j hj)
      rw [← hm] at hr
      rw [hr, hps, ← hm]
      by_cases hz : (k + j) % 2 ^ e < m
      · rw [if_pos (show k + j + m = k + j + m ∧ (k + j) % 2 ^ e < m from ⟨rfl, hz⟩), if_neg (show ¬ (k + m ≤ k + j ∧ k + j < k + m + j) by omega),
          if_pos (show m ≤ (k + j) % 2 ^ e + m ∧ (k + j) % 2 ^ e + m < 2 * m by omega)]
        congr 1
        omega
      · rw [if_neg (show ¬ (k + j + m = k + j + m ∧ (k + j) % 2 ^ e < m) from fun hc => hz hc.2),
          if_neg (show ¬ (k + m ≤ k + j + m ∧ k + j + m < k + m + j) by omega),
          if_neg (show ¬ (m ≤ (k + j) % 2 ^ e + m ∧ (k + j) % 2 ^ e + m < 2 * m) by omega)]
    · rw [if_neg (show ¬ (i = k + j + m ∧ (k + j) % 2 ^ e < m) from fun hc => hi hc.1)]
      by_cases h1 : k + m ≤ i ∧ i < k + m + j
      · rw [if_pos h1, if_pos (show k + m ≤ i ∧ i < k + m + (j + 1) by omega)]
      · rw [if_neg h1, if_neg (show ¬ (k + m ≤ i ∧ i < k + m + (j + 1)) by omega)]

theorem ldeRound_copy {L s e : ℕ} (hs : s < L) (hse : s < e) (g : ℕ → F) (ω : F) :
    ldeRound (tab (2 ^ L) g) (2 ^ L) (2 ^ s) (2 ^ e) s ω = .ok (tab (2 ^ L) (copyF s e g)) := by
  have hn : 2 ^ L = 2 * 2 ^ s * 2 ^ (L - s - 1) := by rw [← pow_succ', ← pow_add]; congr 1; omega
  have hm : 0 < 2 ^ s := by positivity
  unfold ldeRound
  dsimp only
  rw [isDenseRound_pow, decide_eq_false (by omega)]
  simp only [Bool.false_eq_true, if_false]
  have hB : numChunks (2 ^ L) (2 * 2 ^ s) = 2 ^ (L - s - 1) := by
    unfold numChunks
    rw [hn]
    generalize 2 ^ (L - s - 1) = B
    generalize 2 ^ s = m at *
    have : 2 * m * B + 2 * m - 1 = (2 * m - 1) + 2 * m * B := by omega
    rw [this, Nat.add_mul_div_left _ _ (by omega), Nat.div_eq_of_lt (by omega), Nat.zero_add]
  rw [hB]
  have key := forN_eq
    (f := fun b => tab (2 ^ L) (fun i => if i < 2 * 2 ^ s * b then copyF s e g i else g i))
    (fun b a => sparseBlock a (2 * 2 ^ s * b) (2 ^ s) (2 ^ e) s (ω ^ (2 ^ L / (2 * 2 ^ s)))) (2 ^ (L - s - 1)) 0 ?_
  · rw [show (fun i => if i < 2 * 2 ^ s * 0 then copyF s e g i else g i) = g by
      funext i
      rw [if_neg (by omega)], Nat.zero_add, ← hn] at key
    rw [key]
    congr 1
    apply tab_congr
    intro i hi
    rw [if_pos hi]
  · intro b _ hb
    have hle : 2 * 2 ^ s * (b + 1) ≤ 2 ^ L := by
      rw [hn]; exact Nat.mul_le_mul_left _ (by omega)
    have hk2 : 2 * 2 ^ s * (b + 1) = 2 * 2 ^ s * b + 2 * 2 ^ s := by ring
    rw [sparseBlock_copy hse hle]
    congr 1
    apply tab_congr
    intro i _
    rw [hk2]
    by_cases h1 : i < 2 * 2 ^ s * b
    · rw [if_neg (by omega), if_pos h1, if_pos (by omega)]
    · rw [if_neg h1]
      by_cases h2 : i < 2 * 2 ^ s * b + 2 * 2 ^ s
      · rw [if_pos (by omega), if_pos h2]
        unfold copyF
        by_cases h3 : 2 ^ s ≤ i % 2 ^ e ∧ i % 2 ^ e < 2 ^ (s + 1)
        · rw [if_pos h3, if_pos h3]
          dsimp only
          rw [if_neg]
          -- the copied entry is in the same block
          intro hlt
          have h6 : i % 2 ^ e % 2 ^ (s + 1) = i % 2 ^ (s + 1) := Nat.mod_mod_of_dvd _ (pow_dvd_pow 2 (by omega))
          rw [Nat.mod_eq_of_lt h3.2] at h6
          have hps : 2 ^ (s + 1) = 2 * 2 ^ s := pow_succ' _ _
          obtain ⟨j, rfl⟩ : ∃ j, i = 2 * 2 ^ s * b + j := ⟨i - 2 * 2 ^ s * b, by omega⟩
          have h7 : (2 * 2 ^ s * b + j) % (2 * 2 ^ s) = j := by
            rw [Nat.add_comm, Nat.add_mul_mod_self_left, Nat.mod_eq_of_lt (by omega)]
          rw [hps, h7] at h6
          omega
        · rw [if_neg h3, if_neg h3]
          dsimp only
          rw [if_neg h1]
      · rw [if_neg (by omega), if_neg h2]

/-- The values after the first `s` rounds, all of them sparse. -/
def copiedF (s e : ℕ) (g : ℕ → F) (i : ℕ) : F := if i % 2 ^ e < 2 ^ s then g (i - i % 2 ^ e) else g i

theorem copyF_copiedF {s e : ℕ} (hse : s < e) (g : ℕ → F) (i : ℕ) : copyF s e (copiedF s e g) i = copiedF (s + 1) e g i := by
  have hps : 2 ^ (s + 1) = 2 * 2 ^ s := pow_succ' _ _
  have hlt : 2 ^ (s + 1) ≤ 2 ^ e := Nat.pow_le_pow_right (by norm_num) (by omega)
  unfold copyF copiedF
  by_cases h : 2 ^ s ≤ i % 2 ^ e ∧ i % 2 ^ e < 2 ^ (s + 1)
  · have hle := Nat.mod_le i (2 ^ e)
    have h1 : (i - 2 ^ s) % 2 ^ e = i % 2 ^ e - 2 ^ s := by
      have hd := Nat.mod_add_div i (2 ^ e)
      rw [show i - 2 ^ s = (i % 2 ^ e - 2 ^ s) + 2 ^ e * (i / 2 ^ e) by omega, Nat.add_mul_mod_self_left, Nat.mod_eq_of_lt (by omega)]
    rw [if_pos h, if_pos h.2, h1, if_pos (by omega)]
    congr 1
    omega
  · rw [if_neg h]
    by_cases h1 : i % 2 ^ e < 2 ^ s
    · rw [if_pos h1, if_pos (by omega)]
    · rw [if_neg h1, if_neg (by omega)]

/-- The sparse rounds of the LDE kernels, from any values. -/
theorem sparseRounds_copy (L e N : ℕ) (ω : F) (hN : N ≤ L) (hNe : N ≤ e) (g : ℕ → F) :
    forN N 0 (tab (2 ^ L) g, 1) (fun step (am : List F × ℕ) => do
      let a ← ldeRound am.1 (2 ^ L) am.2 (2 ^ e) step ω
      pure (a, am.2 * 2))
    = .ok (tab (2 ^ L) (copiedF N e g), 2 ^ N) := by
  have key := forN_eq
    (f := fun s => (tab (2 ^ L) (copiedF s e g), 2 ^ s))
    (fun step (am : List F × ℕ) => do
      let a ← ldeRound am.1 (2 ^ L) am.2 (2 ^ e) step ω
      pure (a, am.2 * 2)) N 0 ?_
  · rw [show copiedF 0 e g = g by
      funext i
      unfold copiedF
      split
      · rename_i h
        congr 1
        rw [pow_zero] at h
        omega
      · rfl, pow_zero, Nat.zero_add] at key
    exact key
  · intro s _ hs
    dsimp only
    rw [ldeRound_copy (by omega) (by omega)]
    simp only [Res.ok_bind, Res.pure_def]
    rw [pow_succ]
    congr 2
    apply tab_congr
    intro i _
    exact copyF_copiedF (by omega) g i

/-- The first `N` values, zero-padded. -/
def keepF (N : ℕ) (x : ℕ → F) (j : ℕ) : F := if j < N then x j else 0

theorem keepF_zero (N : ℕ) (x : ℕ → F) (j : ℕ) (h : N ≤ j) : keepF N x j = 0 := if_neg (by omega)

theorem forN_add {σ : Type} (a b lo : ℕ) (s : σ) (body : ℕ → σ → Res σ) :
    forN (a + b) lo s body = forN a lo s body >>= fun t => forN b (lo + a) t body := by
  induction a generalizing lo s with
  | zero => simp [forN]
  | succ a ih =>
    rw [show a + 1 + b = (a + b) + 1 by omega]
    show (body lo s >>= fun t => forN (a + b) (lo + 1) t body) = ((body lo s >>= fun t => forN a (lo + 1) t body) >>= _)
    rw [bind_assoc]
    congr 1
    funext t
    rw [ih, show lo + 1 + a = lo + (a + 1) by omega]

/-- The rounds of the LDE kernels only look at the entries that are known to be nonzero. -/
theorem ldeRounds_ignore (L e : ℕ) (he : e ≤ L) (ω : F) (hω : HalfNeg ω L) (x g : ℕ → F)
    (hg : ∀ i, i < 2 ^ L → i % 2 ^ e = 0 → g i = x (bitreverse i L)) :
    forN L 0 (tab (2 ^ L) g, 1) (fun step (am : List F × ℕ) => do
      let a ← ldeRound am.1 (2 ^ L) am.2 (2 ^ e) step ω
      pure (a, am.2 * 2))
    = .ok (tab (2 ^ L) (dftF ω (2 ^ L) (keepF (2 ^ L / 2 ^ e) x)), 2 ^ L) := by
  have h := ldeRounds_tab L e ω hω (keepF (2 ^ L / 2 ^ e) x) (keepF_zero _ x)
  rw [← h, show L = e + (L - e) by omega, forN_add, forN_add, ← show L = e + (L - e) by omega, sparseRounds_copy L e e ω he le_rfl,
    sparseRounds_copy L e e ω he le_rfl]
  congr 3
  apply tab_congr
  intro i hi
  unfold copiedF
  have hm := Nat.mod_lt i (show 0 < 2 ^ e by positivity)
  rw [if_pos hm, if_pos hm]
  have h0 : (i - i % 2 ^ e) % 2 ^ e = 0 := by
    have hd := Nat.mod_add_div i (2 ^ e)
    rw [show i - i % 2 ^ e = 2 ^ e * (i / 2 ^ e) by omega, Nat.mul_mod_right]
  rw [hg _ (by omega) h0]
  have := (bitreverse_lt_iff (i - i % 2 ^ e) L e he).2 h0
  unfold keepF
  dsimp only
  rw [if_pos (by rw [Nat.pow_div he (by norm_num)]; exact this)]

/-- With a factor above the length all rounds are sparse and the first entry is copied everywhere. -/
theorem ldeRounds_over (L e : ℕ) (he : L < e) (ω : F) (g : ℕ → F) :
    forN L 0 (tab (2 ^ L) g, 1) (fun step (am : List F × ℕ) => do
      let a ← ldeRound am.1 (2 ^ L) am.2 (2 ^ e) step ω
      pure (a, am.2 * 2))
    = .ok (tab (2 ^ L) (fun _ => g 0), 2 ^ L) := by
  rw [sparseRounds_copy L e L ω le_rfl he.le]
  congr 2
  apply tab_congr
  intro i hi
  have hlt : 2 ^ L < 2 ^ e := Nat.pow_lt_pow_right (by norm_num) he
  unfold copiedF
  rw [Nat.mod_eq_of_lt (show i < 2 ^ e by omega), if_pos hi, Nat.sub_self]

/-- What the serial kernels return for any vector of the right length. -/
def prunedF (ω : F) (L e : ℕ) (x : ℕ → F) (j : ℕ) : F := if e ≤ L then dftF ω (2 ^ L) (keepF (2 ^ L / 2 ^ e) x) j else x 0

theorem ldeRounds_any (L e : ℕ) (ω : F) (hω : HalfNeg ω L) (x g : ℕ → F) (h0 : g 0 = x 0)
    (hg : e ≤ L → ∀ i, i < 2 ^ L → i % 2 ^ e = 0 → g i = x (bitreverse i L)) :
    forN L 0 (tab (2 ^ L) g, 1) (fun step (am : List F × ℕ) => do
      let a ← ldeRound am.1 (2 ^ L) am.2 (2 ^ e) step ω
      pure (a, am.2 * 2))
    = .ok (tab (2 ^ L) (prunedF ω L e x), 2 ^ L) := by
  by_cases he : e ≤ L
  · rw [ldeRounds_ignore L e he ω hω x g (hg he)]
    congr 2
    apply tab_congr
    intro i _
    unfold prunedF
    rw [if_pos he]
  · rw [ldeRounds_over L e (by omega) ω g, h0]
    congr 2
    apply tab_congr
    intro i _
    unfold prunedF
    rw [if_neg he]

theorem bitreverse_zero_left (L : ℕ) : bitreverse 0 L = 0 := by
  have := (bitreverse_lt_iff 0 L L le_rfl).2 (Nat.zero_mod _)
  rw [Nat.sub_self, pow_zero] at this
  omega

theorem serialLde_any (L e : ℕ) (hL : L < 32) (ω : F) (hω : HalfNeg ω L) (x : ℕ → F) :
    serialLde (tab (2 ^ L) x) ω L (2 ^ e) = .ok (tab (2 ^ L) (prunedF ω L e x)) := by
  have h32 : 2 ^ L % 2 ^ 32 = 2 ^ L := Nat.mod_eq_of_lt (Nat.pow_lt_pow_right (by norm_num) hL)
  unfold serialLde
  simp only [length_tab, h32, hL, decide_true, Res.assert_true, Res.ok_bind]
  rw [bitrevPermute_tab]
  simp only [Res.ok_bind]
  rw [ldeRounds_any L e ω hω x _ (by rw [bitreverse_zero_left]) (fun _ i _ _ => rfl)]
  rfl

theorem bitrevPermuteUpTo_any (L N : ℕ) (x : ℕ → F) :
    bitrevPermuteUpTo (tab (2 ^ L) x) (2 ^ L) N L =
      .ok (tab (2 ^ L) (fun i => if i < min (2 ^ L) N ∨ bitreverse i L < min (2 ^ L) N then x (bitreverse i L) else x i)) := by
  unfold bitrevPermuteUpTo
  have key := forN_eq
    (f := fun k => tab (2 ^ L) (fun i =>
      if i < k ∨ bitreverse i L < k then x (bitreverse i L) else x i))
    (fun k a => if k < bitreverse k L then swapAt a (bitreverse k L) k else .ok a) (min (2 ^ L) N) 0 ?_
  · simp only [Nat.not_lt_zero, or_self, if_false, Nat.zero_add] at key
    exact key
  · intro k _ hk
    exact bitrevPermute_step (by omega)

theorem prefetchSerialLde_any (L e : ℕ) (hL : L < 32) (ω : F) (hω : HalfNeg ω L) (x : ℕ → F) :
    prefetchSerialLde (tab (2 ^ L) x) ω L (2 ^ e) = .ok (tab (2 ^ L) (prunedF ω L e x)) := by
  have hlt : 2 ^ L < 2 ^ 32 := Nat.pow_lt_pow_right (by norm_num) hL
  have h32 : 2 ^ L % 2 ^ 32 = 2 ^ L := Nat.mod_eq_of_lt hlt
  have h32' : 2 ^ L / 2 ^ e % 2 ^ 32 = 2 ^ L / 2 ^ e := Nat.mod_eq_of_lt (lt_of_le_of_lt (Nat.div_le_self _ _) hlt)
  unfold prefetchSerialLde
  have h0 : decide (2 ^ e ≠ 0) = true := decide_eq_true (by positivity)
  simp only [length_tab, h32, h32', hL, h0, decide_true, Res.assert_true, Res.ok_bind]
  rw [bitrevPermuteUpTo_any L _ x]
  simp only [Res.ok_bind]
  rw [← forN_congr_inv (fun _ (s : List F × ℕ) => 1 ≤ s.2) (fun step (am : List F × ℕ) => do
      let a ← ldeRound am.1 (2 ^ L) am.2 (2 ^ e) step ω
      pure (a, am.2 * 2)) _ L 0 (tab (2 ^ L) (fun i => if i < min (2 ^ L) (2 ^ L / 2 ^ e) ∨ bitreverse i L < min (2 ^ L) (2 ^ L / 2 ^ e) then x (bitreverse i L) else x i), 1)
      le_rfl, ldeRounds_any L e ω hω x]
  · rfl
  · rw [bitreverse_zero_left, ite_self]
  · intro he i hi h
    rw [if_pos]
    right
    have := (bitreverse_lt_iff i L e he).2 h
    rw [← Nat.pow_div he (by norm_num)] at this
    exact lt_min (bitreverse_lt i L) this
  · intro i s s' _ _ h e
    simp only [Res.pure_def, Res.bind_eq_ok, Res.ok.injEq] at e
    obtain ⟨a, _, rfl⟩ := e
    show 1 ≤ s.2 * 2
    omega
  · intro i s _ _ h
    rw [← prefetchLdeRound_eq _ _ _ _ _ h]

/-! ## Parallel kernels, any length -/

theorem interleave_short {α : Type} (w : Worker) (q m len : ℕ) (hm : 0 < m) (hlen : len ≤ q * m) (T : ℕ → ℕ → α) :
    interleave w len (tab m (fun j => tab q (T j))) m = .ok (tab len (fun idx => T (idx % m) (idx / m))) := by
  unfold interleave
  simp only
  have hch := w.chunkSize_pos len
  set ch := w.chunkSize len
  rw [collectN_eq _ _ (fun i => tab (min ch (len - i * ch)) (fun j =>
    T ((i * ch + j) % m) ((i * ch + j) / m)))]
  · simp only [Res.ok_bind, Res.pure_def]
    rw [flatten_chunks_tab hch len (fun idx => T (idx % m) (idx / m))]
  · intro i hi
    apply collectN_eq
    intro j hj
    have hlt : i * ch + j < q * m := by
      have := numChunks_lt hch hi
      omega
    rw [rd_tab (Nat.mod_lt _ hm), Res.ok_bind, rd_tab]
    rw [Nat.div_lt_iff_lt_mul hm]
    exact hlt

theorem collectRows_short (w : Worker) (L c len : ℕ) (hc : c ≤ L) (hlen : len ≤ 2 ^ L) (ω : F) (h1 : ω ^ 2 ^ L = 1) (x : ℕ → F)
    (row : ℕ → Res (List F))
    (hrow : ∀ j, row j = .ok (tab (2 ^ (L - c)) (dftF (ω ^ 2 ^ c) (2 ^ (L - c)) (rowF L c ω x j)))) :
    (collectN (2 ^ c) row >>= fun tmp => interleave w len tmp (2 ^ c)) = .ok (tab len (dftF ω (2 ^ L) x)) := by
  have hfull := collectRows_tab w L c hc ω h1 x row hrow
  have hAB : 2 ^ (L - c) * 2 ^ c = 2 ^ L := by rw [← pow_add]; congr 1; omega
  rw [collectN_eq _ _ (fun j => tab (2 ^ (L - c)) (dftF (ω ^ 2 ^ c) (2 ^ (L - c)) (rowF L c ω x j))) (fun j _ => hrow j)] at hfull ⊢
  simp only [Res.ok_bind] at hfull ⊢
  rw [interleave_short w _ _ _ (by positivity) (by omega)] at hfull ⊢
  congr 1
  apply tab_congr
  intro i hi
  have := congrArg (fun l : List F => l[i]?) (Res.ok.inj hfull)
  simp only [getElem?_tab, if_pos (show i < 2 ^ L by omega)] at this
  exact Option.some.inj this

theorem ldeAdd_short (a : List F) (L c N : ℕ) (hN : N ≤ a.length) (i s : ℕ) (hi : i < 2 ^ (L - c))
    (hlt : i + s * 2 ^ (L - c) < 2 ^ L) (g : ℕ → F) (e : F) :
    ldeAdd a L (L - c) N i s (tab (2 ^ (L - c)) g) e
      = .ok (tab (2 ^ (L - c)) (fun k => if k = i then g i + keepF N (fun j => a.getD j 0) (i + s * 2 ^ (L - c)) * e else g k)) := by
  unfold ldeAdd keepF
  dsimp only
  rw [Nat.mod_eq_of_lt hlt]
  split
  · rename_i h
    have hr : rd a (i + s * 2 ^ (L - c)) = .ok (a.getD (i + s * 2 ^ (L - c)) 0) := by
      conv_lhs => rw [eq_tab_getD a 0]
      exact rd_tab (by omega)
    simp only [hr, rd_tab hi, wr_tab hi, Res.ok_bind]
  · congr 1
    apply tab_congr
    intro k _
    split
    · rename_i h; rw [h]; ring
    · rfl

theorem parallelLde_short (w : Worker) (a : List F) (L c e : ℕ) (hL : L - c < 32) (hc : c ≤ L) (ha : a.length ≤ 2 ^ L) (ω : F)
    (hω : HalfNeg ω L) (h1 : ω ^ 2 ^ L = 1) :
    parallelLde w a ω L c (2 ^ e) = .ok (tab a.length (dftF ω (2 ^ L) (keepF (a.length / 2 ^ e) (fun j => a.getD j 0)))) ∧
    prefetchParallelLde w a ω L c (2 ^ e) = .ok (tab a.length (dftF ω (2 ^ L) (keepF (a.length / 2 ^ e) (fun j => a.getD j 0)))) := by
  have h0 : decide (2 ^ e ≠ 0) = true := decide_eq_true (by positivity)
  have hx : ∀ j, 2 ^ L / 2 ^ e ≤ j → keepF (a.length / 2 ^ e) (fun j => a.getD j 0) j = 0 := fun j hj =>
    keepF_zero _ _ _ (le_trans (Nat.div_le_div_right ha) hj)
  have hN : a.length / 2 ^ e ≤ a.length := Nat.div_le_self _ _
  constructor
  · unfold parallelLde
    simp only [hc, h0, decide_true, Res.assert_true, Res.ok_bind]
    apply collectRows_short w L c _ hc ha ω h1
    intro j
    rw [shuffleRow_tab L c j hc ω h1 (keepF (a.length / 2 ^ e) (fun j => a.getD j 0)) _ (fun i s hi _ hlt g e' => ldeAdd_short a L c _ hN i s hi hlt g e'), Res.ok_bind]
    exact ldeRowTransform_tab hc hL hω hx j
  · unfold prefetchParallelLde
    simp only [hc, h0, decide_true, Res.assert_true, Res.ok_bind]
    apply collectRows_short w L c _ hc ha ω h1
    intro j
    rw [shuffleRow_tab L c j hc ω h1 (keepF (a.length / 2 ^ e) (fun j => a.getD j 0)) _ (fun i s hi _ hlt g e' => ldeAdd_short a L c _ hN i s hi hlt g e'), Res.ok_bind]
    exact prefetchLdeRowTransform_tab hc hL hω hx j

theorem sum_keepF (ω : F) {n N : ℕ} (hN : N ≤ n) (x : ℕ → F) (j : ℕ) : dftF ω n (keepF N x) j = ∑ i ∈ range N, x i * ω ^ (i * j) := by
  unfold dftF keepF
  rw [← sum_subset (range_subset_range.2 hN) (fun i _ hi => by rw [if_neg (by simpa using hi), zero_mul])]
  apply sum_congr rfl
  intro i hi
  rw [if_pos (by simpa using hi)]

end Hodor

import Verif.Lemmas.ParallelFft
import Verif.Model.FftKernels

namespace Hodor

open Finset

variable {F : Type} [Field F]

theorem forN_succ_last {σ : Type} (n lo : ℕ) (s : σ) (body : ℕ → σ → Res σ) :
    forN (n + 1) lo s body = (forN n lo s body >>= fun s => body (lo + n) s) := by
  induction n generalizing lo s with
  | zero =>
    simp only [forN, Res.ok_bind, Nat.add_zero]
    cases body lo s <;> rfl
  | succ n ih =>
    rw [forN]
    conv_rhs => rw [forN]
    cases h : body lo s with
    | ok s' =>
      simp only [Res.ok_bind]
      rw [ih, show lo + 1 + n = lo + (n + 1) by omega]
    | err e => rfl
    | panic => rfl

/-- Two loops agree if their bodies agree on the states allowed by an invariant of one of them. -/
theorem forN_congr_inv {σ : Type} (I : ℕ → σ → Prop) (body body' : ℕ → σ → Res σ) (n lo : ℕ) (s : σ) (h0 : I lo s)
    (hI : ∀ i s s', lo ≤ i → i < lo + n → I i s → body i s = .ok s' → I (i + 1) s')
    (hb : ∀ i s, lo ≤ i → i < lo + n → I i s → body i s = body' i s) :
    forN n lo s body = forN n lo s body' := by
  induction n generalizing lo s with
  | zero => rfl
  | succ n ih =>
    simp only [forN]
    rw [← hb lo s le_rfl (by omega) h0]
    cases h : body lo s with
    | ok s' =>
      simp only [Res.ok_bind]
      exact ih (lo + 1) s' (hI lo s s' le_rfl (by omega) h0 h)
        (fun i s s' h1 h2 => hI i s s' (by omega) (by omega)) (fun i s h1 h2 => hb i s (by omega) (by omega))
    | err e => rfl
    | panic => rfl

/-- Unrolling the last iteration of a block does not change it. -/
theorem unroll_last (bf : ℕ → List F → F → Res (List F)) (a : List F) (m : ℕ) (hm : 1 ≤ m) (wm : F) :
    (do
      let (a, w) ← forN (m - 1) 0 (a, (1 : F)) (fun j (a, w) => do
        let a ← bf j a w
        pure (a, w * wm))
      bf (m - 1) a w)
    = (do
      let (a, _) ← forN m 0 (a, (1 : F)) (fun j (a, w) => do
        let a ← bf j a w
        pure (a, w * wm))
      pure a) := by
  obtain ⟨m, rfl⟩ := Nat.exists_eq_add_of_le' hm
  rw [forN_succ_last, Nat.add_sub_cancel, Nat.zero_add]
  cases forN m 0 (a, (1 : F)) (fun j (a, w) => do
        let a ← bf j a w
        pure (a, w * wm)) with
  | ok s =>
    simp only [Res.ok_bind]
    cases bf m s.1 s.2 <;> rfl
  | err e => rfl
  | panic => rfl

theorem prefetchFftBlock_eq (a : List F) (k m : ℕ) (hm : 1 ≤ m) (wm : F) :
    prefetchFftBlock a k m wm = fftBlock a k m wm := by
  unfold prefetchFftBlock fftBlock
  rw [decide_eq_true hm, Res.assert_true, Res.ok_bind]
  exact unroll_last (fun j a w => butterfly a (k + j) (k + j + m) w) a m hm wm

theorem prefetchSparseBlock_eq (a : List F) (k m f step : ℕ) (hm : 1 ≤ m) (wm : F) :
    prefetchSparseBlock a k m f step wm = sparseBlock a k m f step wm := by
  unfold prefetchSparseBlock sparseBlock
  rw [decide_eq_true hm, Res.assert_true, Res.ok_bind]
  exact unroll_last (fun j a w => sparseButterfly a (k + j) (k + j + m) f step w) a m hm wm

theorem prefetchFftRound_eq (a : List F) (n m : ℕ) (hm : 1 ≤ m) (ω : F) :
    prefetchFftRound a n m ω = fftRound a n m ω := by
  unfold prefetchFftRound fftRound
  apply forN_congr
  intro b a _ _
  exact prefetchFftBlock_eq a _ m hm _

theorem prefetchLdeRound_eq (a : List F) (n m f step : ℕ) (hm : 1 ≤ m) (ω : F) :
    prefetchLdeRound a n m f step ω = ldeRound a n m f step ω := by
  unfold prefetchLdeRound ldeRound
  dsimp only
  split
  · apply forN_congr
    intro b a _ _
    exact prefetchFftBlock_eq a _ m hm _
  · apply forN_congr
    intro b a _ _
    exact prefetchSparseBlock_eq a _ m f step hm _

/-- The prefetching kernel is the same function as `serial_fft`, on every input. -/
theorem prefetchSerialFft_eq (a : List F) (ω : F) (logN : ℕ) : prefetchSerialFft a ω logN = serialFft a ω logN := by
  unfold prefetchSerialFft serialFft
  dsimp only
  congr 1; funext _
  congr 1; funext _
  congr 1; funext a'
  congr 1
  apply forN_congr_inv (fun _ (s : List F × ℕ) => 1 ≤ s.2)
  · exact le_rfl
  · intro i s s' _ _ h e
    simp only [Res.pure_def, Res.bind_eq_ok, Res.ok.injEq] at e
    obtain ⟨a, _, rfl⟩ := e
    show 1 ≤ s.2 * 2
    omega
  · intro i s _ _ h
    rw [prefetchFftRound_eq _ _ _ h]

theorem prefetchBestFft_eq (w : Worker) (a : List F) (ω : F) (logN : ℕ) (hint : Option ℕ) :
    prefetchBestFft w a ω logN hint = bestFft w a ω logN hint := by
  have h : ∀ c, prefetchParallelFft w a ω logN c = parallelFft w a ω logN c := by
    intro c
    unfold prefetchParallelFft parallelFft
    simp only [prefetchSerialFft_eq]
  unfold prefetchBestFft bestFft
  simp only [prefetchSerialFft_eq, h]
  cases hint <;> rfl

/-! ## Sparse rounds -/

theorem isNonZero_pow (idx e step : ℕ) : isNonZero idx (2 ^ e) step = decide (idx % 2 ^ e < 2 ^ step) := by
  unfold isNonZero
  rw [Nat.and_two_pow_sub_one_eq_mod]

theorem isDenseRound_pow (e step : ℕ) : isDenseRound (2 ^ e) step = decide (e ≤ step) := by
  unfold isDenseRound
  by_cases h : e ≤ step
  · rw [decide_eq_true h, decide_eq_true]
    rw [Nat.div_le_iff_le_mul_add_pred (by positivity)]
    have := Nat.pow_le_pow_right (n := 2) (by norm_num) h
    omega
  · rw [decide_eq_false h, decide_eq_false]
    rw [Nat.pow_div (by omega) (by norm_num)]
    have : 1 < 2 ^ (e - step) := Nat.one_lt_two_pow (by omega)
    omega

theorem sparseButterfly_tab {n : ℕ} {g : ℕ → F} {i i' f step : ℕ} {w : F} (hi : i < n) (hi' : i' < n) (hne : i ≠ i')
    (h : isNonZero i f step = false → g i = 0) (h' : isNonZero i' f step = false → g i' = 0) :
    sparseButterfly (tab n g) i i' f step w = butterfly (tab n g) i i' w := by
  rw [butterfly_tab hi hi' hne]
  unfold sparseButterfly
  cases e' : isNonZero i' f step <;> cases e : isNonZero i f step
  · rw [h e, h' e']
    simp only
    congr 1
    apply tab_congr
    intro k _
    split
    · rename_i hk; rw [hk, h e]; ring
    · split
      · rename_i hk; rw [hk, h' e']; ring
      · rfl
  · simp only [rd_tab hi, wr_tab hi', Res.ok_bind]
    congr 1
    apply tab_congr
    intro k _
    rw [h' e']
    by_cases h1 : k = i
    · subst h1; simp [hne]
    · by_cases h2 : k = i'
      · simp [h1, h2]
      · simp [h1, h2]
  · simp only [rd_tab hi', wr_tab hi', wr_tab hi, Res.ok_bind]
    congr 1
    apply tab_congr
    intro k _
    rw [h e]
    by_cases h1 : k = i
    · simp [h1]
    · by_cases h2 : k = i' <;> simp [h1, h2]
  · exact butterfly_tab hi hi' hne

theorem sparseBlock_tab {n m b f step : ℕ} (hb : 2 * m * (b + 1) ≤ n) (g : ℕ → F) (wm : F)
    (hz : ∀ i, 2 * m * b ≤ i → i < 2 * m * (b + 1) → isNonZero i f step = false → g i = 0) :
    sparseBlock (tab n g) (2 * m * b) m f step wm = fftBlock (tab n g) (2 * m * b) m wm := by
  have hk2 : 2 * m * (b + 1) = 2 * m * b + 2 * m := by ring
  unfold sparseBlock fftBlock
  congr 1
  set k := 2 * m * b with hk
  rw [hk2] at hz hb
  apply forN_congr_inv (fun j (s : List F × F) => ∃ g', s.1 = tab n g' ∧
    ∀ i, (k + j ≤ i ∧ i < k + m) ∨ (k + j + m ≤ i ∧ i < k + 2 * m) → g' i = g i)
  · exact ⟨g, rfl, fun i _ => rfl⟩
  · rintro j ⟨s, w⟩ ⟨s', w'⟩ _ hj ⟨g', hs, hg⟩ e
    obtain rfl : s = tab n g' := hs
    have hj' : j < m := by omega
    have e1 := hg (k + j) (by omega)
    have e2 := hg (k + j + m) (by omega)
    dsimp only at e
    rw [sparseButterfly_tab (by omega) (by omega) (by omega) (by rw [e1]; exact hz _ (by omega) (by omega))
      (by rw [e2]; exact hz _ (by omega) (by omega)), butterfly_tab (by omega) (by omega) (by omega)] at e
    simp only [Res.ok_bind, Res.pure_def, Res.ok.injEq, Prod.mk.injEq] at e
    refine ⟨_, e.1.symm, fun i hi => ?_⟩
    rw [if_neg (by omega), if_neg (by omega)]
    exact hg i (by omega)
  · rintro j ⟨s, w⟩ _ hj ⟨g', hs, hg⟩
    obtain rfl : s = tab n g' := hs
    have hj' : j < m := by omega
    have e1 := hg (k + j) (by omega)
    have e2 := hg (k + j + m) (by omega)
    dsimp only
    rw [sparseButterfly_tab (by omega) (by omega) (by omega) (by rw [e1]; exact hz _ (by omega) (by omega))
      (by rw [e2]; exact hz _ (by omega) (by omega))]

/-- A sparse round does the same as a dense one when the operands it skips are zero. -/
theorem ldeRound_tab {n m B f step : ℕ} (hm : 0 < m) (hn : n = 2 * m * B) (g : ℕ → F) (ω : F)
    (hz : isDenseRound f step = false → ∀ i, i < n → isNonZero i f step = false → g i = 0) :
    ldeRound (tab n g) n m f step ω = .ok (tab n (roundF m (ω ^ (n / (2 * m))) g)) := by
  rw [← fftRound_tab hm hn g ω]
  unfold ldeRound fftRound
  dsimp only
  split
  · rfl
  · rename_i hd
    have hz := hz (by simpa using hd)
    have hB : numChunks n (2 * m) = B := by
      unfold numChunks
      rw [hn]
      have : 2 * m * B + 2 * m - 1 = (2 * m - 1) + 2 * m * B := by omega
      rw [this, Nat.add_mul_div_left _ _ (by omega), Nat.div_eq_of_lt (by omega), Nat.zero_add]
    rw [hB]
    apply forN_congr_inv (fun b (s : List F) => ∃ g', s = tab n g' ∧ ∀ i, 2 * m * b ≤ i → g' i = g i)
    · exact ⟨g, rfl, fun _ _ => rfl⟩
    · rintro b s s' _ hb ⟨g', rfl, hg⟩ e
      have hle : 2 * m * (b + 1) ≤ n := by
        rw [hn]; exact Nat.mul_le_mul_left _ (by omega)
      rw [sparseBlock_tab hle, fftBlock_tab hle] at e
      · simp only [Res.ok.injEq] at e
        refine ⟨_, e.symm, fun i hi => ?_⟩
        rw [if_neg (by omega)]
        exact hg i (by have : 2 * m * (b + 1) = 2 * m * b + 2 * m := by ring
                       omega)
      · intro i h1 h2
        rw [hg i h1]
        exact hz i (by omega)
    · rintro b s _ hb ⟨g', rfl, hg⟩
      have hle : 2 * m * (b + 1) ≤ n := by
        rw [hn]; exact Nat.mul_le_mul_left _ (by omega)
      apply sparseBlock_tab hle
      intro i h1 h2
      rw [hg i h1]
      exact hz i (by omega)

/-! ## The zero pattern of a zero-padded input -/

theorem bitreverse_lt_iff (n l e : ℕ) (he : e ≤ l) : bitreverse n l < 2 ^ (l - e) ↔ n % 2 ^ e = 0 := by
  induction e generalizing n l with
  | zero => simp [bitreverse_lt, Nat.mod_one]
  | succ e ih =>
    obtain ⟨l, rfl⟩ : ∃ l', l = l' + 1 := ⟨l - 1, by omega⟩
    rw [bitreverse_succ, show l + 1 - (e + 1) = l - e by omega]
    have hle : 2 ^ (l - e) ≤ 2 ^ l := Nat.pow_le_pow_right (by norm_num) (by omega)
    have hmod : n % 2 ^ (e + 1) = n % 2 + 2 * (n / 2 % 2 ^ e) := by
      rw [Nat.pow_succ, Nat.mul_comm, Nat.mod_mul]
    rw [hmod]
    rcases Nat.mod_two_eq_zero_or_one n with h | h
    · rw [h, Nat.zero_mul, Nat.zero_add, ih (n / 2) l (by omega)]
      omega
    · rw [h]
      omega

/-- After `s` rounds a zero-padded input is zero at the positions `is_non_zero` excludes. -/
theorem fftInv_zero (x : ℕ → F) (ω : F) (L e s i : ℕ) (hs : s ≤ L) (hse : s < e)
    (hx : ∀ j, 2 ^ L / 2 ^ e ≤ j → x j = 0) (hi : i < 2 ^ L) (hn : isNonZero i (2 ^ e) s = false) :
    fftInv x ω L s i = 0 := by
  rw [isNonZero_pow] at hn
  have hn : 2 ^ s ≤ i % 2 ^ e := by simpa using hn
  unfold fftInv
  apply sum_eq_zero
  intro t _
  rw [hx, zero_mul]
  by_cases heL : e ≤ L
  · rw [Nat.pow_div heL (by norm_num)]
    by_contra hlt
    push_neg at hlt
    have hlt' : bitreverse (i / 2 ^ s) (L - s) < 2 ^ (L - s - (e - s)) := by
      rw [show L - s - (e - s) = L - e by omega]; omega
    rw [bitreverse_lt_iff _ _ _ (by omega)] at hlt'
    have : i % 2 ^ e = i % 2 ^ s := by
      rw [show e = s + (e - s) by omega, pow_add, Nat.mod_mul, hlt']
      simp
    have h2 := Nat.mod_lt i (show 0 < 2 ^ s by positivity)
    omega
  · have : 2 ^ L < 2 ^ e := Nat.pow_lt_pow_right (by norm_num) (by omega)
    rw [Nat.div_eq_of_lt this]
    omega

/-- The rounds of the LDE kernels, from the bit-reversed input. -/
theorem ldeRounds_tab (L e : ℕ) (ω : F) (hω : HalfNeg ω L) (x : ℕ → F) (hx : ∀ j, 2 ^ L / 2 ^ e ≤ j → x j = 0) :
    forN L 0 (tab (2 ^ L) (fun i => x (bitreverse i L)), 1) (fun step (am : List F × ℕ) => do
      let a ← ldeRound am.1 (2 ^ L) am.2 (2 ^ e) step ω
      pure (a, am.2 * 2))
    = .ok (tab (2 ^ L) (dftF ω (2 ^ L) x), 2 ^ L) := by
  have key := forN_eq
    (f := fun s => (tab (2 ^ L) (fftInv x ω L s), 2 ^ s))
    (fun step (am : List F × ℕ) => do
      let a ← ldeRound am.1 (2 ^ L) am.2 (2 ^ e) step ω
      pure (a, am.2 * 2)) L 0 ?_
  · have h0 : tab (2 ^ L) (fftInv x ω L 0) = tab (2 ^ L) (fun i => x (bitreverse i L)) := by
      apply tab_congr
      intro i hi
      simp [fftInv]
    rw [h0, pow_zero] at key
    rw [key]
    congr 2
    · apply tab_congr
      intro i hi
      unfold fftInv dftF
      rw [Nat.zero_add]
      apply sum_congr rfl
      intro t _
      rw [Nat.sub_self, Nat.mod_eq_of_lt hi]
      simp
    · rw [Nat.zero_add]
  · intro s _ hs
    have hs : s < L := by omega
    have hn : 2 ^ L = 2 * 2 ^ s * 2 ^ (L - s - 1) := by
      rw [← pow_succ', ← pow_add]; congr 1; omega
    rw [ldeRound_tab (by positivity) hn]
    · simp only [Res.ok_bind, Res.pure_def]
      rw [pow_succ]
      congr 2
      apply tab_congr
      intro i hi
      exact fftInv_step x ω L s hs hω i
    · intro hd i hi hz
      rw [isDenseRound_pow] at hd
      exact fftInv_zero x ω L e s i (by omega) (by simpa using hd) hx hi hz

/-- `serial_lde` computes the DFT of a zero-padded vector. -/
theorem serialLde_tab (L e : ℕ) (hL : L < 32) (ω : F) (hω : HalfNeg ω L) (x : ℕ → F)
    (hx : ∀ j, 2 ^ L / 2 ^ e ≤ j → x j = 0) :
    serialLde (tab (2 ^ L) x) ω L (2 ^ e) = .ok (tab (2 ^ L) (dftF ω (2 ^ L) x)) := by
  have h32 : 2 ^ L % 2 ^ 32 = 2 ^ L :=
    Nat.mod_eq_of_lt (Nat.pow_lt_pow_right (by norm_num) hL)
  unfold serialLde
  simp only [length_tab, h32, hL, decide_true, Res.assert_true, Res.ok_bind]
  rw [bitrevPermute_tab]
  simp only [Res.ok_bind]
  rw [ldeRounds_tab L e ω hω x hx]
  rfl

/-- Stopping the bit reversal at the first zero is harmless. -/
theorem bitrevPermuteUpTo_tab (L N : ℕ) (x : ℕ → F) (hx : ∀ j, N ≤ j → x j = 0) :
    bitrevPermuteUpTo (tab (2 ^ L) x) (2 ^ L) N L = .ok (tab (2 ^ L) (fun i => x (bitreverse i L))) := by
  unfold bitrevPermuteUpTo
  have key := forN_eq
    (f := fun k => tab (2 ^ L) (fun i =>
      if i < k ∨ bitreverse i L < k then x (bitreverse i L) else x i))
    (fun k a => if k < bitreverse k L then swapAt a (bitreverse k L) k else .ok a) (min (2 ^ L) N) 0 ?_
  · simp only [Nat.not_lt_zero, or_self, if_false, Nat.zero_add] at key
    rw [key]
    congr 1
    apply tab_congr
    intro i hi
    have := bitreverse_lt i L
    split
    · rfl
    · rename_i h
      rw [hx i (by omega), hx (bitreverse i L) (by omega)]
  · intro k _ hk
    exact bitrevPermute_step (by omega)

theorem prefetchSerialLde_tab (L e : ℕ) (hL : L < 32) (ω : F) (hω : HalfNeg ω L) (x : ℕ → F)
    (hx : ∀ j, 2 ^ L / 2 ^ e ≤ j → x j = 0) :
    prefetchSerialLde (tab (2 ^ L) x) ω L (2 ^ e) = .ok (tab (2 ^ L) (dftF ω (2 ^ L) x)) := by
  have hlt : 2 ^ L < 2 ^ 32 := Nat.pow_lt_pow_right (by norm_num) hL
  have h32 : 2 ^ L % 2 ^ 32 = 2 ^ L := Nat.mod_eq_of_lt hlt
  have h32' : 2 ^ L / 2 ^ e % 2 ^ 32 = 2 ^ L / 2 ^ e := Nat.mod_eq_of_lt (lt_of_le_of_lt (Nat.div_le_self _ _) hlt)
  unfold prefetchSerialLde
  have h0 : decide (2 ^ e ≠ 0) = true := decide_eq_true (by positivity)
  simp only [length_tab, h32, h32', hL, h0, decide_true, Res.assert_true, Res.ok_bind]
  rw [bitrevPermuteUpTo_tab L _ x hx]
  simp only [Res.ok_bind]
  rw [← forN_congr_inv (fun _ (s : List F × ℕ) => 1 ≤ s.2) (fun step (am : List F × ℕ) => do
      let a ← ldeRound am.1 (2 ^ L) am.2 (2 ^ e) step ω
      pure (a, am.2 * 2)) _ L 0 (tab (2 ^ L) (fun i => x (bitreverse i L)), 1) le_rfl, ldeRounds_tab L e ω hω x hx]
  · rfl
  · intro i s s' _ _ h e
    simp only [Res.pure_def, Res.bind_eq_ok, Res.ok.injEq] at e
    obtain ⟨a, _, rfl⟩ := e
    show 1 ≤ s.2 * 2
    omega
  · intro i s _ _ h
    rw [← prefetchLdeRound_eq _ _ _ _ _ h]

/-! ## Parallel kernels -/

/-- The shuffle loops, when every update adds `y i s * elt` to entry `i`. -/
theorem shuffleRow_tab (L c j : ℕ) (hc : c ≤ L) (ω : F) (hω : ω ^ 2 ^ L = 1) (x : ℕ → F)
    (add : ℕ → ℕ → List F → F → Res (List F))
    (hadd : ∀ i s, i < 2 ^ (L - c) → s < 2 ^ c → i + s * 2 ^ (L - c) < 2 ^ L → ∀ g e,
      add i s (tab (2 ^ (L - c)) g) e = .ok (tab (2 ^ (L - c)) (fun k => if k = i then g i + x (i + s * 2 ^ (L - c)) * e else g k))) :
    shuffleRow (2 ^ c) (2 ^ (L - c)) (ω ^ j) (ω ^ (j * 2 ^ (L - c))) add = .ok (tab (2 ^ (L - c)) (fun i =>
      ∑ s ∈ range (2 ^ c), x (i + s * 2 ^ (L - c)) * ω ^ (j * (i + s * 2 ^ (L - c))))) := by
  unfold shuffleRow
  set A := 2 ^ (L - c) with hA
  set B := 2 ^ c with hB
  have hAB : A * B = 2 ^ L := by rw [hA, hB, ← pow_add]; congr 1; omega
  have hApos : 0 < A := by positivity
  set ρ : ℕ → F := fun i => ∑ s ∈ range B, x (i + s * A) * ω ^ (j * (i + s * A)) with hρ
  have inner : ∀ i, i < A → ∀ g : ℕ → F, g i = 0 →
      forN B 0 (tab A g, ω ^ (j * i)) (fun s (te : List F × F) => do
        let tmp ← add i s te.1 te.2
        pure (tmp, te.2 * ω ^ (j * A)))
      = .ok (tab A (fun k => if k = i then ρ i else g k), ω ^ (j * i)) := by
    intro i hi g hg
    have key := forN_eq
      (f := fun b => (tab A (fun k => if k = i then
          ∑ s ∈ range b, x (i + s * A) * ω ^ (j * (i + s * A)) else g k), ω ^ (j * (i + b * A))))
      (fun s (te : List F × F) => do
        let tmp ← add i s te.1 te.2
        pure (tmp, te.2 * ω ^ (j * A))) B 0 ?_
    · have h0 : tab A (fun k => if k = i then
          ∑ s ∈ range 0, x (i + s * A) * ω ^ (j * (i + s * A)) else g k) = tab A g := by
        apply tab_congr
        intro k _
        split
        · rename_i h; subst h; simp [hg]
        · rfl
      simp only [h0, Nat.zero_mul, Nat.add_zero] at key
      rw [key]
      congr 2
      · rw [Nat.zero_add]
      rw [Nat.zero_add, Nat.mul_add, Nat.mul_comm B A, hAB, pow_add, Nat.mul_comm j (2 ^ L), pow_mul ω (2 ^ L),
        hω, one_pow, mul_one]
    · intro s _ hs
      have hs : s < B := by omega
      have hlt : i + s * A < 2 ^ L := by
        rw [← hAB]
        calc i + s * A < A + s * A := by omega
          _ = (s + 1) * A := by ring
          _ ≤ B * A := Nat.mul_le_mul_right _ hs
          _ = A * B := by ring
      dsimp only
      rw [hadd i s hi hs hlt]
      simp only [Res.ok_bind, Res.pure_def, if_true]
      congr 2
      · apply tab_congr
        intro k _
        by_cases h : k = i
        · simp only [h, if_true]
          rw [sum_range_succ]
        · simp [h]
      · rw [← pow_add]; congr 1; ring
  have key := forN_eq
    (f := fun i => (tab A (fun k => if k < i then ρ k else 0), ω ^ (j * i)))
    (fun i (te : List F × F) => do
      let te ← forN B 0 te (fun s (te : List F × F) => do
        let tmp ← add i s te.1 te.2
        pure (tmp, te.2 * ω ^ (j * A)))
      pure (te.1, te.2 * ω ^ j)) A 0 ?_
  · simp only [Nat.not_lt_zero, if_false, Nat.mul_zero, pow_zero] at key
    rw [replicate_eq_tab]
    simp only [Nat.zero_add] at key
    rw [key]
    simp only [Res.ok_bind, Res.pure_def]
    congr 1
    apply tab_congr
    intro k hk
    rw [if_pos hk]
  · intro i _ hi
    have hi : i < A := by omega
    rw [inner i hi _ (by simp)]
    simp only [Res.ok_bind, Res.pure_def]
    congr 2
    · apply tab_congr
      intro k _
      by_cases h : k = i
      · simp [h]
      · simp only [h, if_false]
        have : k < i ↔ k < i + 1 := by omega
        simp only [this]
    · rw [← pow_add]; rfl

/-- The row of sub-transform `j`. -/
def rowF (L c : ℕ) (ω : F) (x : ℕ → F) (j i : ℕ) : F :=
  ∑ s ∈ range (2 ^ c), x (i + s * 2 ^ (L - c)) * ω ^ (j * (i + s * 2 ^ (L - c)))

/-- Collecting the transforms of the rows gives the transform. -/
theorem collectRows_tab (w : Worker) (L c : ℕ) (hc : c ≤ L) (ω : F) (h1 : ω ^ 2 ^ L = 1) (x : ℕ → F)
    (row : ℕ → Res (List F))
    (hrow : ∀ j, row j = .ok (tab (2 ^ (L - c)) (dftF (ω ^ 2 ^ c) (2 ^ (L - c)) (rowF L c ω x j)))) :
    (collectN (2 ^ c) row >>= fun tmp => interleave w (2 ^ L) tmp (2 ^ c))
      = .ok (tab (2 ^ L) (dftF ω (2 ^ L) x)) := by
  set A := 2 ^ (L - c) with hA
  set B := 2 ^ c with hB
  have hAB : A * B = 2 ^ L := by rw [hA, hB, ← pow_add]; congr 1; omega
  rw [collectN_eq _ _ (fun j => tab A (dftF (ω ^ B) A (rowF L c ω x j))) (fun j _ => hrow j)]
  simp only [Res.ok_bind]
  rw [← hAB, interleave_tab w A B (by positivity)]
  congr 1
  apply tab_congr
  intro k hk
  unfold dftF rowF
  rw [sum_range_mul]
  apply sum_congr rfl
  intro i _
  rw [sum_mul]
  apply sum_congr rfl
  intro s _
  rw [← pow_mul, mul_assoc, ← pow_add, ← hA]
  congr 1
  -- exponents differ by a multiple of 2^L
  have hk' : k = k % B + B * (k / B) := (Nat.mod_add_div _ _).symm
  have : (i + s * A) * k = k % B * (i + s * A) + B * (i * (k / B)) + 2 ^ L * (s * (k / B)) := by
    conv_lhs => rw [hk']
    rw [← hAB]; ring
  rw [this, pow_add _ _ (2 ^ L * _), pow_mul ω (2 ^ L), h1, one_pow, mul_one]

theorem ldeAdd_tab (L c N : ℕ) (x : ℕ → F) (hx : ∀ j, N ≤ j → x j = 0) (i s : ℕ) (hi : i < 2 ^ (L - c))
    (hlt : i + s * 2 ^ (L - c) < 2 ^ L) (g : ℕ → F) (e : F) :
    ldeAdd (tab (2 ^ L) x) L (L - c) N i s (tab (2 ^ (L - c)) g) e
      = .ok (tab (2 ^ (L - c)) (fun k => if k = i then g i + x (i + s * 2 ^ (L - c)) * e else g k)) := by
  unfold ldeAdd
  dsimp only
  rw [Nat.mod_eq_of_lt hlt]
  split
  · simp only [rd_tab hlt, rd_tab hi, wr_tab hi, Res.ok_bind]
  · rw [hx _ (by omega)]
    congr 1
    apply tab_congr
    intro k _
    split
    · rename_i h; rw [h]; ring
    · rfl

theorem plainAdd_tab (L c : ℕ) (x : ℕ → F) (i s : ℕ) (hi : i < 2 ^ (L - c))
    (hlt : i + s * 2 ^ (L - c) < 2 ^ L) (g : ℕ → F) (e : F) :
    plainAdd (tab (2 ^ L) x) (L - c) i s (tab (2 ^ (L - c)) g) e
      = .ok (tab (2 ^ (L - c)) (fun k => if k = i then g i + x (i + s * 2 ^ (L - c)) * e else g k)) := by
  unfold plainAdd
  simp only [rd_tab hlt, rd_tab hi, wr_tab hi, Res.ok_bind]

/-- Rows of a zero-padded vector are zero-padded. -/
theorem rowF_zero {L c N : ℕ} {ω : F} {x : ℕ → F} (hx : ∀ j, N ≤ j → x j = 0) (j i : ℕ) (hi : N ≤ i) :
    rowF L c ω x j i = 0 := by
  unfold rowF
  apply sum_eq_zero
  intro s _
  rw [hx _ (by omega), zero_mul]

theorem padding_row {L c e : ℕ} (hc : c ≤ L) (he : ¬ 2 ^ e / 2 ^ c ≤ 1) : 2 ^ e / 2 ^ c = 2 ^ (e - c) ∧
    2 ^ (L - c) / 2 ^ (e - c) = 2 ^ L / 2 ^ e := by
  have hce : c < e := by
    by_contra h
    apply he
    rw [Nat.div_le_iff_le_mul_add_pred (by positivity)]
    have := Nat.pow_le_pow_right (n := 2) (by norm_num) (show e ≤ c by omega)
    omega
  refine ⟨Nat.pow_div (by omega) (by norm_num), ?_⟩
  have h1 : 2 ^ L = 2 ^ c * 2 ^ (L - c) := by rw [← pow_add]; congr 1; omega
  have h2 : 2 ^ e = 2 ^ c * 2 ^ (e - c) := by rw [← pow_add]; congr 1; omega
  rw [h1, h2, Nat.mul_div_mul_left _ _ (by positivity)]

theorem ldeRowTransform_tab {L c e : ℕ} (hc : c ≤ L) (hL : L - c < 32) {ω : F} (hω : HalfNeg ω L) {x : ℕ → F}
    (hx : ∀ j, 2 ^ L / 2 ^ e ≤ j → x j = 0) (j : ℕ) :
    ldeRowTransform (tab (2 ^ (L - c)) (rowF L c ω x j)) (ω ^ 2 ^ c) (L - c) (2 ^ e / 2 ^ c)
      = .ok (tab (2 ^ (L - c)) (dftF (ω ^ 2 ^ c) (2 ^ (L - c)) (rowF L c ω x j))) := by
  unfold ldeRowTransform
  split
  · exact serialFft_tab _ hL _ (hω.pow c hc) _
  · rename_i he
    obtain ⟨h1, h2⟩ := padding_row hc he
    rw [h1]
    apply serialLde_tab _ _ hL _ (hω.pow c hc)
    intro i hi
    rw [h2] at hi
    exact rowF_zero hx j i hi

theorem prefetchLdeRowTransform_tab {L c e : ℕ} (hc : c ≤ L) (hL : L - c < 32) {ω : F} (hω : HalfNeg ω L) {x : ℕ → F}
    (hx : ∀ j, 2 ^ L / 2 ^ e ≤ j → x j = 0) (j : ℕ) :
    prefetchLdeRowTransform (tab (2 ^ (L - c)) (rowF L c ω x j)) (ω ^ 2 ^ c) (L - c) (2 ^ e / 2 ^ c)
      = .ok (tab (2 ^ (L - c)) (dftF (ω ^ 2 ^ c) (2 ^ (L - c)) (rowF L c ω x j))) := by
  unfold prefetchLdeRowTransform
  split
  · rw [prefetchSerialFft_eq]
    exact serialFft_tab _ hL _ (hω.pow c hc) _
  · rename_i he
    obtain ⟨h1, h2⟩ := padding_row hc he
    rw [h1]
    apply prefetchSerialLde_tab _ _ hL _ (hω.pow c hc)
    intro i hi
    rw [h2] at hi
    exact rowF_zero hx j i hi

theorem parallelLde_tab (w : Worker) (L c e : ℕ) (hL : L - c < 32) (hc : c ≤ L) (ω : F)
    (hω : HalfNeg ω L) (h1 : ω ^ 2 ^ L = 1) (x : ℕ → F) (hx : ∀ j, 2 ^ L / 2 ^ e ≤ j → x j = 0) :
    parallelLde w (tab (2 ^ L) x) ω L c (2 ^ e) = .ok (tab (2 ^ L) (dftF ω (2 ^ L) x)) := by
  unfold parallelLde
  have h0 : decide (2 ^ e ≠ 0) = true := decide_eq_true (by positivity)
  simp only [hc, h0, decide_true, Res.assert_true, Res.ok_bind, length_tab]
  apply collectRows_tab w L c hc ω h1 x
  intro j
  rw [shuffleRow_tab L c j hc ω h1 x _ (fun i s hi _ hlt g e' => ldeAdd_tab L c _ x hx i s hi hlt g e'), Res.ok_bind]
  exact ldeRowTransform_tab hc hL hω hx j

theorem prefetchParallelLde_tab (w : Worker) (L c e : ℕ) (hL : L - c < 32) (hc : c ≤ L) (ω : F)
    (hω : HalfNeg ω L) (h1 : ω ^ 2 ^ L = 1) (x : ℕ → F) (hx : ∀ j, 2 ^ L / 2 ^ e ≤ j → x j = 0) :
    prefetchParallelLde w (tab (2 ^ L) x) ω L c (2 ^ e) = .ok (tab (2 ^ L) (dftF ω (2 ^ L) x)) := by
  unfold prefetchParallelLde
  have h0 : decide (2 ^ e ≠ 0) = true := decide_eq_true (by positivity)
  simp only [hc, h0, decide_true, Res.assert_true, Res.ok_bind, length_tab]
  apply collectRows_tab w L c hc ω h1 x
  intro j
  rw [shuffleRow_tab L c j hc ω h1 x _ (fun i s hi _ hlt g e' => ldeAdd_tab L c _ x hx i s hi hlt g e'), Res.ok_bind]
  exact prefetchLdeRowTransform_tab hc hL hω hx j

theorem bestLde_tab (w : Worker) (L e : ℕ) (hL : L < 32) (ω : F) (hω : HalfNeg ω L) (x : ℕ → F)
    (hx : ∀ j, 2 ^ L / 2 ^ e ≤ j → x j = 0) :
    bestLde w (tab (2 ^ L) x) ω L (2 ^ e) = .ok (tab (2 ^ L) (dftF ω (2 ^ L) x)) := by
  unfold bestLde
  split
  · exact serialLde_tab L e hL ω hω x hx
  · exact parallelLde_tab w L _ e (by omega) (by omega) ω hω (hω.pow_eq_one (by omega)) x hx

theorem prefetchBestLde_tab (w : Worker) (L e : ℕ) (hL : L < 32) (ω : F) (hω : HalfNeg ω L) (x : ℕ → F)
    (hx : ∀ j, 2 ^ L / 2 ^ e ≤ j → x j = 0) :
    prefetchBestLde w (tab (2 ^ L) x) ω L (2 ^ e) = .ok (tab (2 ^ L) (dftF ω (2 ^ L) x)) := by
  unfold prefetchBestLde
  split
  · exact prefetchSerialLde_tab L e hL ω hω x hx
  · exact prefetchParallelLde_tab w L _ e (by omega) (by omega) ω hω (hω.pow_eq_one (by omega)) x hx

end Hodor

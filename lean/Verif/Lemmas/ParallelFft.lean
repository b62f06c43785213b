import Verif.Lemmas.Fft

namespace Hodor

open Finset

variable {F : Type} [Field F]

theorem collectN_eq {α : Type} (n : ℕ) (f : ℕ → Res α) (g : ℕ → α)
    (h : ∀ i, i < n → f i = .ok (g i)) : collectN n f = .ok (tab n g) := by
  induction n with
  | zero => rfl
  | succ n ih =>
    rw [collectN, ih (fun i hi => h i (by omega)), Res.ok_bind, h n (by omega)]
    simp [tab_succ]

theorem replicate_eq_tab {α : Type} (n : ℕ) (x : α) : List.replicate n x = tab n (fun _ => x) := by
  apply eq_tab_of_getElem? (by simp)
  intro i hi
  simp [hi]

/-- splitting a sum over `A*B` indices into residue-like rows -/
theorem sum_range_mul {M : Type} [AddCommMonoid M] (A B : ℕ) (f : ℕ → M) :
    ∑ t ∈ range (A * B), f t = ∑ i ∈ range A, ∑ s ∈ range B, f (i + s * A) := by
  rw [sum_comm]
  induction B with
  | zero => simp
  | succ B ih =>
    rw [Nat.mul_succ, sum_range_add, ih, sum_range_succ]
    congr 1
    apply sum_congr rfl
    intro i _
    congr 1
    ring

theorem fftShuffle_tab (L c j : ℕ) (hc : c ≤ L) (ω : F) (hω : ω ^ 2 ^ L = 1) (x : ℕ → F) :
    fftShuffle (tab (2 ^ L) x) ω L c j = .ok (tab (2 ^ (L - c)) (fun i =>
      ∑ s ∈ range (2 ^ c), x (i + s * 2 ^ (L - c)) * ω ^ (j * (i + s * 2 ^ (L - c))))) := by
  unfold fftShuffle
  simp only
  set A := 2 ^ (L - c) with hA
  set B := 2 ^ c with hB
  have hAB : A * B = 2 ^ L := by rw [hA, hB, ← pow_add]; congr 1; omega
  have hApos : 0 < A := by positivity
  set ρ : ℕ → F := fun i => ∑ s ∈ range B, x (i + s * A) * ω ^ (j * (i + s * A)) with hρ
  have inner : ∀ i, i < A → ∀ g : ℕ → F, g i = 0 →
      forN B 0 (tab A g, ω ^ (j * i)) (fun s (te : List F × F) => do
        let t ← rd (tab (2 ^ L) x) ((i + s * A) % 2 ^ L)
        let y ← rd te.1 i
        let tmp ← wr te.1 i (y + t * te.2)
        pure (tmp, te.2 * ω ^ (j * A)))
      = .ok (tab A (fun k => if k = i then ρ i else g k), ω ^ (j * i)) := by
    intro i hi g hg
    have key := forN_eq
      (f := fun b => (tab A (fun k => if k = i then
          ∑ s ∈ range b, x (i + s * A) * ω ^ (j * (i + s * A)) else g k), ω ^ (j * (i + b * A))))
      (fun s (te : List F × F) => do
        let t ← rd (tab (2 ^ L) x) ((i + s * A) % 2 ^ L)
        let y ← rd te.1 i
        let tmp ← wr te.1 i (y + t * te.2)
        pure (tmp, te.2 * ω ^ (j * A))) B 0 ?_
    · have h0 : tab A (fun k => if k = i then
          ∑ s ∈ range 0, x (i + s * A) * ω ^ (j * (i + s * A)) else g k) = tab A g := by
        apply tab_congr
        intro k _
        split
        · rename_i h; subst h; simp [hg]
        · rfl
      simp only [h0, Nat.zero_mul, Nat.add_zero] at key
      rw [key]
      congr 2
      · rw [Nat.zero_add]
      rw [Nat.zero_add, Nat.mul_add, Nat.mul_comm B A, hAB, pow_add, Nat.mul_comm j (2 ^ L), pow_mul ω (2 ^ L),
        hω, one_pow, mul_one]
    · intro s _ hs
      have hs : s < B := by omega
      have hlt : i + s * A < 2 ^ L := by
        rw [← hAB]
        calc i + s * A < A + s * A := by omega
          _ = (s + 1) * A := by ring
          _ ≤ B * A := Nat.mul_le_mul_right _ hs
          _ = A * B := by ring
      simp only [Nat.mod_eq_of_lt hlt, rd_tab hlt, rd_tab hi, wr_tab hi, Res.ok_bind, Res.pure_def,
        if_true]
      congr 2
      · apply tab_congr
        intro k _
        by_cases h : k = i
        · simp only [h, if_true]
          rw [sum_range_succ]
        · simp [h]
      · rw [← pow_add]; congr 1; ring
  have key := forN_eq
    (f := fun i => (tab A (fun k => if k < i then ρ k else 0), ω ^ (j * i)))
    (fun i (te : List F × F) => do
      let te ← forN B 0 te (fun s (te : List F × F) => do
        let t ← rd (tab (2 ^ L) x) ((i + s * A) % 2 ^ L)
        let y ← rd te.1 i
        let tmp ← wr te.1 i (y + t * te.2)
        pure (tmp, te.2 * ω ^ (j * A)))
      pure (te.1, te.2 * ω ^ j)) A 0 ?_
  · simp only [Nat.not_lt_zero, if_false, Nat.mul_zero, pow_zero] at key
    rw [replicate_eq_tab]
    simp only [Nat.zero_add] at key
    rw [key]
    simp only [Res.ok_bind, Res.pure_def]
    congr 1
    apply tab_congr
    intro k hk
    rw [if_pos hk]
  · intro i _ hi
    have hi : i < A := by omega
    rw [inner i hi _ (by simp)]
    simp only [Res.ok_bind, Res.pure_def]
    congr 2
    · apply tab_congr
      intro k _
      by_cases h : k = i
      · simp [h]
      · simp only [h, if_false]
        have : k < i ↔ k < i + 1 := by omega
        simp only [this]
    · rw [← pow_add]; rfl

theorem interleave_tab {α : Type} (w : Worker) (q m : ℕ) (hm : 0 < m) (T : ℕ → ℕ → α) :
    interleave w (q * m) (tab m (fun j => tab q (T j))) m
      = .ok (tab (q * m) (fun idx => T (idx % m) (idx / m))) := by
  unfold interleave
  simp only
  have hch := w.chunkSize_pos (q * m)
  set ch := w.chunkSize (q * m)
  rw [collectN_eq _ _ (fun i => tab (min ch (q * m - i * ch)) (fun j =>
    T ((i * ch + j) % m) ((i * ch + j) / m)))]
  · simp only [Res.ok_bind, Res.pure_def]
    rw [flatten_chunks_tab hch (q * m) (fun idx => T (idx % m) (idx / m))]
  · intro i hi
    apply collectN_eq
    intro j hj
    have hlt : i * ch + j < q * m := by
      have := numChunks_lt hch hi
      omega
    rw [rd_tab (Nat.mod_lt _ hm), Res.ok_bind, rd_tab]
    rw [Nat.div_lt_iff_lt_mul hm]
    exact hlt

theorem HalfNeg.pow {ω : F} {L : ℕ} (h : HalfNeg ω L) (c : ℕ) (hc : c ≤ L) :
    HalfNeg (ω ^ 2 ^ c) (L - c) := by
  intro h0
  rw [← pow_mul, ← pow_add]
  rw [show c + (L - c - 1) = L - 1 by omega]
  exact h (by omega)

theorem parallelFft_tab (w : Worker) (L c : ℕ) (hL : L - c < 32) (hc : c ≤ L) (ω : F)
    (hω : HalfNeg ω L) (h1 : ω ^ 2 ^ L = 1) (x : ℕ → F) :
    parallelFft w (tab (2 ^ L) x) ω L c = .ok (tab (2 ^ L) (dftF ω (2 ^ L) x)) := by
  unfold parallelFft
  simp only [hc, decide_true, Res.assert_true, Res.ok_bind]
  set A := 2 ^ (L - c) with hA
  set B := 2 ^ c with hB
  have hAB : A * B = 2 ^ L := by rw [hA, hB, ← pow_add]; congr 1; omega
  rw [collectN_eq _ _ (fun j => tab A (dftF (ω ^ B) A (fun i =>
      ∑ s ∈ range B, x (i + s * A) * ω ^ (j * (i + s * A)))))]
  · simp only [Res.ok_bind, length_tab]
    rw [← hAB, interleave_tab w A B (by positivity)]
    congr 1
    apply tab_congr
    intro k hk
    unfold dftF
    rw [sum_range_mul]
    apply sum_congr rfl
    intro i _
    rw [sum_mul]
    apply sum_congr rfl
    intro s _
    rw [← pow_mul, mul_assoc, ← pow_add]
    congr 1
    -- exponents differ by a multiple of 2^L
    have hk' : k = k % B + B * (k / B) := (Nat.mod_add_div _ _).symm
    have : (i + s * A) * k = k % B * (i + s * A) + B * (i * (k / B)) + 2 ^ L * (s * (k / B)) := by
      conv_lhs => rw [hk']
      rw [← hAB]; ring
    rw [this, pow_add _ _ (2 ^ L * _), pow_mul ω (2 ^ L), h1, one_pow, mul_one]
  · intro j hj
    rw [fftShuffle_tab L c j hc ω h1, Res.ok_bind, hA, serialFft_tab _ hL _ (hω.pow c hc)]

theorem bestFft_tab (w : Worker) (L : ℕ) (hL : L < 32) (ω : F) (hω : HalfNeg ω L) (x : ℕ → F)
    (hint : Option ℕ) (hh : ∀ h, hint = some h → 0 < h ∧ h ≤ w.cpus) :
    bestFft w (tab (2 ^ L) x) ω L hint = .ok (tab (2 ^ L) (dftF ω (2 ^ L) x)) := by
  have main : ∀ lc, (if lc = 0 ∨ L ≤ lc then serialFft (tab (2 ^ L) x) ω L
      else parallelFft w (tab (2 ^ L) x) ω L lc) = .ok (tab (2 ^ L) (dftF ω (2 ^ L) x)) := by
    intro lc
    split
    · exact serialFft_tab L hL ω hω x
    · rename_i h
      push_neg at h
      exact parallelFft_tab w L lc (by omega) (by omega) ω hω (hω.pow_eq_one (by omega)) x
  unfold bestFft
  cases hint with
  | none => exact main _
  | some h =>
    obtain ⟨h1, h2⟩ := hh h rfl
    simp only [h2, decide_true, Res.assert_true, Res.ok_bind, log2Floor, h1, Res.pure_def]
    exact main _

theorem mulRunning_tab (u g : F) (n : ℕ) (x : ℕ → F) :
    mulRunning u g (tab n x) = tab n (fun i => x i * (u * g ^ i)) := by
  induction n generalizing u x with
  | zero => rfl
  | succ n ih =>
    rw [tab_succ', mulRunning, ih, tab_succ']
    simp only [pow_zero, mul_one]
    congr 1
    apply tab_congr
    intro i _
    ring

theorem distributePowers_tab (w : Worker) (n : ℕ) (x : ℕ → F) (g : F) :
    distributePowers w (tab n x) g = tab n (fun i => x i * g ^ i) := by
  unfold distributePowers
  apply parChunks_tab
  intro c i _ _ _
  rw [mulRunning_tab]
  apply tab_congr
  intro j _
  rw [← pow_add]

end Hodor

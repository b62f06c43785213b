import Verif.Lemmas.Poly

namespace Hodor

open Finset

variable {F : Type} [Field F] [StarkField F] [DecidableEq F]

omit [Field F] [StarkField F] [DecidableEq F] in
theorem ldeHint_eq (w : Worker) {factor : ℕ} (h : 0 < factor) : Poly.ldeHint w factor = some 1 := by
  unfold Poly.ldeHint
  split
  · rfl
  · rename_i h1
    push_neg at h1
    simp [Nat.div_eq_of_lt h1, Nat.mod_eq_of_lt h1, h.ne']

omit [DecidableEq F] in
theorem ldeChunk_mk (w : Worker) {k : ℕ} (hk : k ≤ StarkField.S F) (h32 : k < 32) (g : ℕ → F)
    (Ω start : F) (len : ℕ) :
    Poly.ldeChunk w (mkPoly .coefficients k g) (some 1) Ω start len
      = .ok (tab len (fun j => tab (2 ^ k) (fun t => evalF (2 ^ k) g (start * Ω ^ j * genOf F k ^ t)))) := by
  unfold Poly.ldeChunk
  have key := forN_eq
    (f := fun j => (tab j (fun j => tab (2 ^ k) (fun t =>
      evalF (2 ^ k) g (start * Ω ^ j * genOf F k ^ t))), start * Ω ^ j))
    (fun _ (rg : List (List F) × F) => do
      let c ← bestFft w (distributePowers w (mkPoly .coefficients k g).coeffs rg.2)
        (mkPoly .coefficients k g).omega (mkPoly .coefficients k g).exp (some 1)
      pure (rg.1 ++ [c], rg.2 * Ω)) len 0 ?_
  · simp only [tab_zero, pow_zero, mul_one, Nat.zero_add] at key
    rw [key]
    rfl
  · intro j _ _
    simp only [mkPoly_coeffs, mkPoly_omega, mkPoly_exp, distributePowers_tab]
    rw [bestFft_tab w k h32 _ (genOf_halfNeg hk) _ _ (by
      intro h e; cases e; exact ⟨Nat.one_pos, w.pos⟩)]
    simp only [Res.ok_bind, Res.pure_def, tab_succ, pow_succ, mul_assoc]
    congr 4
    apply tab_congr
    intro t _
    rw [dftF_eq_evalF]
    congr 1
    ring

/-- Exponent of the coset generator used by the code for coset `r`. -/
def ldeStart (w : Worker) (factor r : ℕ) : ℕ := r / w.chunkSize factor + r % w.chunkSize factor

/-- What the multi-coset LDE computes. -/
theorem multiCosetLde_mk (w : Worker) {k f : ℕ} (hk : k + f ≤ StarkField.S F) (h32 : k < 32)
    (g : ℕ → F) (shift : F) :
    Poly.multiCosetLde w (mkPoly .coefficients k g) (2 ^ f) shift
      = .ok (mkPoly .values (k + f) (fun idx => evalF (2 ^ k) g
          (shift * genOf F (k + f) ^ (ldeStart w (2 ^ f) (idx % 2 ^ f) + 2 ^ f * (idx / 2 ^ f))))) := by
  unfold Poly.multiCosetLde
  have hp : isPow2 (2 ^ f) = true := isPow2_iff.2 ⟨f, rfl⟩
  simp only [hp, Res.assert_true, Res.ok_bind, mkPoly_coeffs, length_tab]
  rw [← pow_add, newForSize_pow hk]
  simp only [Res.ok_bind]
  rw [ldeHint_eq w (by positivity)]
  set c := w.chunkSize (2 ^ f) with hc
  have hcpos : 0 < c := w.chunkSize_pos _
  set Ω := genOf F (k + f) with hΩ
  have hω : Ω ^ 2 ^ f = genOf F k := genOf_pow hk
  rw [collectN_eq _ _ (fun i => tab (min c (2 ^ f - i * c)) (fun j => tab (2 ^ k) (fun t =>
    evalF (2 ^ k) g (Ω ^ i * shift * Ω ^ j * genOf F k ^ t))))]
  · simp only [Res.ok_bind]
    have hfl : (tab (numChunks (2 ^ f) c) (fun i => tab (min c (2 ^ f - i * c)) (fun j =>
        tab (2 ^ k) (fun t => evalF (2 ^ k) g (Ω ^ i * shift * Ω ^ j * genOf F k ^ t))))).flatten
        = tab (2 ^ f) (fun r => tab (2 ^ k) (fun t =>
            evalF (2 ^ k) g (shift * Ω ^ (ldeStart w (2 ^ f) r + 2 ^ f * t)))) := by
      rw [← flatten_chunks_tab hcpos (2 ^ f)]
      congr 1
      apply tab_congr
      intro i hi
      apply tab_congr
      intro j hj
      apply tab_congr
      intro t _
      have hjc : j < c := by omega
      have e1 : (i * c + j) / c = i := by
        rw [Nat.mul_comm, Nat.mul_add_div hcpos, Nat.div_eq_of_lt hjc, Nat.add_zero]
      have e2 : (i * c + j) % c = j := by
        rw [Nat.mul_comm, Nat.mul_add_mod, Nat.mod_eq_of_lt hjc]
      unfold ldeStart
      rw [← hc, e1, e2, ← hω, ← pow_mul, pow_add, pow_add]
      congr 1
      ring
    rw [hfl, pow_add, interleave_tab w _ _ (by positivity)]
    simp only [Res.ok_bind]
    rw [← pow_add, fromValues_pow hk]
  · intro i _
    rw [ldeChunk_mk w (by omega) h32]

/-- The CPU counts for which the start generators are right. -/
def LdeOk (w : Worker) (factor : ℕ) : Prop := w.cpus = 1 ∨ factor < 2 * w.cpus

theorem ldeStart_of_ok {w : Worker} {factor : ℕ} (h : LdeOk w factor) {r : ℕ} (hr : r < factor) :
    ldeStart w factor r = r := by
  unfold ldeStart
  rcases h with h | h
  · have : w.chunkSize factor = factor := by
      unfold Worker.chunkSize
      rw [h, if_neg (by omega), Nat.div_one]
    rw [this, Nat.div_eq_of_lt hr, Nat.mod_eq_of_lt hr, Nat.zero_add]
  · have : w.chunkSize factor = 1 := by
      unfold Worker.chunkSize
      split
      · rfl
      · rename_i h1
        exact Nat.div_eq_of_lt_le (by omega) (by omega)
    rw [this, Nat.div_one, Nat.mod_one, Nat.add_zero]

theorem ldeStart_add_eq {w : Worker} {factor : ℕ} (h : LdeOk w factor) (hf : 0 < factor) (idx : ℕ) :
    ldeStart w factor (idx % factor) + factor * (idx / factor) = idx := by
  rw [ldeStart_of_ok h (Nat.mod_lt _ hf), Nat.mod_add_div]

theorem lde_mk (w : Worker) {k f : ℕ} (hk : k + f ≤ StarkField.S F) (h32 : k < 32)
    (hok : LdeOk w (2 ^ f)) (g : ℕ → F) :
    (mkPoly .coefficients k g).lde w (2 ^ f)
      = .ok (mkPoly .values (k + f) (fun idx => evalF (2 ^ k) g (genOf F (k + f) ^ idx))) := by
  unfold Poly.lde Poly.ldeUsingMultipleCosets
  split
  · rename_i h1
    have : f = 0 := by
      rcases Nat.eq_zero_or_pos f with h | h
      · exact h
      · have := Nat.one_lt_two_pow (n := f) (by omega); omega
    subst this
    rw [fft_mk w (by omega) h32]
    congr 1
    apply mkPoly_congr
    intro i _
    rw [dftF_eq_evalF']; rfl
  · rw [multiCosetLde_mk w hk h32]
    congr 1
    apply mkPoly_congr
    intro i _
    rw [ldeStart_add_eq hok (by positivity), one_mul]

theorem cosetLde_mk (w : Worker) {k f : ℕ} (hk : k + f ≤ StarkField.S F) (h32 : k < 32)
    (hok : LdeOk w (2 ^ f)) (g : ℕ → F) :
    (mkPoly .coefficients k g).cosetLde w (2 ^ f)
      = .ok (mkPoly .values (k + f) (fun idx =>
          evalF (2 ^ k) g (StarkField.mulGen * genOf F (k + f) ^ idx))) := by
  unfold Poly.cosetLde Poly.cosetLdeUsingMultipleCosets
  split
  · rename_i h1
    have : f = 0 := by
      rcases Nat.eq_zero_or_pos f with h | h
      · exact h
      · have := Nat.one_lt_two_pow (n := f) (by omega); omega
    subst this
    rw [cosetFft_mk w (by omega) h32]
    congr 1
    apply mkPoly_congr
    intro i _
    rw [dftF_eq_evalF]; rfl
  · rw [multiCosetLde_mk w hk h32]
    congr 1
    apply mkPoly_congr
    intro i _
    rw [ldeStart_add_eq hok (by positivity)]

omit [StarkField F] [DecidableEq F] in
theorem naive_rows {rowv : F → List F} (Ω start : F) (len : ℕ)
    (body : ℕ → List (List F) × F → Res (List (List F) × F))
    (hrow : ∀ j rs, j < len → body j (rs, start * Ω ^ j)
      = .ok (rs ++ [rowv (start * Ω ^ j)], start * Ω ^ j * Ω)) :
    forN len 0 (([] : List (List F)), start) body
      = .ok (tab len (fun j => rowv (start * Ω ^ j)), start * Ω ^ len) := by
  have key := forN_eq
    (f := fun j => (tab j (fun j => rowv (start * Ω ^ j)), start * Ω ^ j)) body len 0 ?_
  · simp only [tab_zero, pow_zero, mul_one, Nat.zero_add] at key
    exact key
  · intro j _ hj
    rw [hrow j _ (by omega)]
    simp only [tab_succ, pow_succ, mul_assoc]

theorem ldeNaive_mk (w : Worker) {k f : ℕ} (hk : k + f ≤ StarkField.S F) (h32 : k < 32)
    (g : ℕ → F) :
    (mkPoly .coefficients k g).ldeNaive w (2 ^ f)
      = .ok (mkPoly .values (k + f) (fun idx => evalF (2 ^ k) g (genOf F (k + f) ^ idx))) := by
  unfold Poly.ldeNaive
  split
  · rename_i h1
    have : f = 0 := by
      rcases Nat.eq_zero_or_pos f with h | h
      · exact h
      · have := Nat.one_lt_two_pow (n := f) (by omega); omega
    subst this
    rw [fft_mk w (by omega) h32]
    congr 1
    apply mkPoly_congr
    intro i _
    rw [dftF_eq_evalF']; rfl
  · have hp : isPow2 (2 ^ f) = true := isPow2_iff.2 ⟨f, rfl⟩
    simp only [hp, Res.assert_true, Res.ok_bind, mkPoly_coeffs, length_tab]
    rw [← pow_add, newForSize_pow hk]
    simp only [Res.ok_bind]
    rw [naive_rows (rowv := fun c => tab (2 ^ k) (fun t => evalF (2 ^ k) g (c * genOf F k ^ t)))
      (genOf F (k + f)) 1 (2 ^ f)]
    swap
    · intro j rs _
      split
      · rename_i h
        rw [fft_mk w (by omega) h32]
        simp only [Res.ok_bind, Res.pure_def, mkPoly_coeffs]
        congr 4
        apply tab_congr
        intro t _
        have h' : 1 * genOf F (k + f) ^ j = 1 := h
        rw [dftF_eq_evalF', h', one_mul]
      · rw [cosetFftForGenerator_mk w (by omega) h32]
        simp only [Res.ok_bind, Res.pure_def, mkPoly_coeffs]
        congr 4
        apply tab_congr
        intro t _
        rw [dftF_eq_evalF]
    simp only [Res.ok_bind]
    rw [pow_add, interleave_tab w _ _ (by positivity)]
    simp only [Res.ok_bind]
    rw [← pow_add, fromValues_pow hk]
    congr 1
    apply mkPoly_congr
    intro idx _
    rw [← genOf_pow hk, ← pow_mul, one_mul, ← pow_add, Nat.mod_add_div]

theorem cosetLdeNaive_mk (w : Worker) {k f : ℕ} (hk : k + f ≤ StarkField.S F) (h32 : k < 32)
    (g : ℕ → F) :
    (mkPoly .coefficients k g).cosetLdeNaive w (2 ^ f)
      = .ok (mkPoly .values (k + f) (fun idx =>
          evalF (2 ^ k) g (StarkField.mulGen * genOf F (k + f) ^ idx))) := by
  unfold Poly.cosetLdeNaive
  split
  · rename_i h1
    have : f = 0 := by
      rcases Nat.eq_zero_or_pos f with h | h
      · exact h
      · have := Nat.one_lt_two_pow (n := f) (by omega); omega
    subst this
    rw [cosetFft_mk w (by omega) h32]
    congr 1
    apply mkPoly_congr
    intro i _
    rw [dftF_eq_evalF]; rfl
  · have hp : isPow2 (2 ^ f) = true := isPow2_iff.2 ⟨f, rfl⟩
    simp only [hp, Res.assert_true, Res.ok_bind, mkPoly_coeffs, length_tab]
    rw [← pow_add, newForSize_pow hk]
    simp only [Res.ok_bind]
    rw [naive_rows (rowv := fun c => tab (2 ^ k) (fun t => evalF (2 ^ k) g (c * genOf F k ^ t)))
      (genOf F (k + f)) StarkField.mulGen (2 ^ f)]
    swap
    · intro j rs _
      rw [cosetFftForGenerator_mk w (by omega) h32]
      simp only [Res.ok_bind, Res.pure_def, mkPoly_coeffs]
      congr 4
      apply tab_congr
      intro t _
      rw [dftF_eq_evalF]
    simp only [Res.ok_bind]
    rw [pow_add, interleave_tab w _ _ (by positivity)]
    simp only [Res.ok_bind]
    rw [← pow_add, fromValues_pow hk]
    congr 1
    apply mkPoly_congr
    intro idx _
    rw [← genOf_pow hk, ← pow_mul, mul_assoc, ← pow_add, Nat.mod_add_div]

end Hodor

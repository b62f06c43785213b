import Verif.Model.Poly
import Verif.Lemmas.Domain

namespace Hodor

open Finset

variable {F : Type} [Field F] [StarkField F]

/-- Canonical polynomial object of size `2^k` holding `g 0, …`. -/
def mkPoly (P : Form) (k : ℕ) (g : ℕ → F) : Poly F P :=
  { coeffs := tab (2 ^ k) g, exp := k, omega := genOf F k, omegainv := (genOf F k)⁻¹,
    geninv := StarkField.mulGen⁻¹, minv := ((2 ^ k : ℕ) : F)⁻¹ }

@[simp] theorem mkPoly_coeffs (P : Form) (k : ℕ) (g : ℕ → F) : (mkPoly P k g).coeffs = tab (2 ^ k) g := rfl
@[simp] theorem mkPoly_exp (P : Form) (k : ℕ) (g : ℕ → F) : (mkPoly P k g).exp = k := rfl
@[simp] theorem mkPoly_omega (P : Form) (k : ℕ) (g : ℕ → F) : (mkPoly P k g).omega = genOf F k := rfl
@[simp] theorem mkPoly_omegainv (P : Form) (k : ℕ) (g : ℕ → F) :
    (mkPoly P k g).omegainv = (genOf F k)⁻¹ := rfl
@[simp] theorem mkPoly_geninv (P : Form) (k : ℕ) (g : ℕ → F) :
    (mkPoly P k g).geninv = StarkField.mulGen⁻¹ := rfl
@[simp] theorem mkPoly_minv (P : Form) (k : ℕ) (g : ℕ → F) :
    (mkPoly P k g).minv = ((2 ^ k : ℕ) : F)⁻¹ := rfl
@[simp] theorem mkPoly_size (P : Form) (k : ℕ) (g : ℕ → F) : (mkPoly P k g).size = 2 ^ k := by
  simp [Poly.size]

theorem mkPoly_congr {P : Form} {k : ℕ} {g h : ℕ → F} (e : ∀ i, i < 2 ^ k → g i = h i) :
    mkPoly P k g = mkPoly P k h := by
  unfold mkPoly; rw [tab_congr e]

theorem mkPoly_inj {P : Form} {k : ℕ} {g h : ℕ → F} :
    mkPoly P k g = mkPoly P k h ↔ ∀ i, i < 2 ^ k → g i = h i := by
  constructor
  · intro e
    have := congrArg Poly.coeffs e
    exact tab_inj.1 this
  · exact mkPoly_congr

theorem resize_tab {α : Type} (n m : ℕ) (g : ℕ → α) (x : α) :
    resize (tab n g) m x = tab m (fun i => if i < n then g i else x) := by
  unfold resize
  rw [take_tab, length_tab, replicate_eq_tab]
  by_cases h : m ≤ n
  · have e1 : min m n = m := by omega
    have e2 : m - n = 0 := by omega
    rw [e1, e2, tab_zero, List.append_nil]
    apply tab_congr
    intro i hi
    rw [if_pos (by omega)]
  · have e1 : min m n = n := by omega
    have e2 : m = n + (m - n) := by omega
    rw [e1]
    conv_rhs => rw [e2, tab_add]
    congr 1
    · apply tab_congr
      intro i hi; rw [if_pos hi]
    · apply tab_congr
      intro i hi; rw [if_neg (by omega)]

section
variable [DecidableEq F]

theorem ofVec_tab {P : Form} (n : ℕ) (g : ℕ → F) :
    (Poly.ofVec (tab n g) : Res (Poly F P)) =
      if Nat.clog 2 n ≤ StarkField.S F then
        .ok (mkPoly P (Nat.clog 2 n) (fun i => if i < n then g i else 0))
      else .err .error := by
  unfold Poly.ofVec
  rw [length_tab, newForSize_eq]
  split
  · rename_i h
    simp only [Res.ok_bind, inverse_of_ne (genOf_ne_zero h),
      inverse_of_ne (StarkField.mulGen_ne_zero (F := F)), inverse_of_ne (pow2_cast_ne_zero h),
      Res.expect_some, Res.pure_def, resize_tab]
    rfl
  · rfl

theorem ofVec_pow {P : Form} {k : ℕ} (hk : k ≤ StarkField.S F) (g : ℕ → F) :
    (Poly.ofVec (tab (2 ^ k) g) : Res (Poly F P)) = .ok (mkPoly P k g) := by
  rw [ofVec_tab, Nat.clog_pow _ _ (by norm_num), if_pos hk]
  congr 1
  apply mkPoly_congr
  intro i hi; rw [if_pos hi]

theorem fromCoeffs_pow {k : ℕ} (hk : k ≤ StarkField.S F) (g : ℕ → F) :
    Poly.fromCoeffs (tab (2 ^ k) g) = .ok (mkPoly .coefficients k g) := ofVec_pow hk g

theorem fromValues_pow {k : ℕ} (hk : k ≤ StarkField.S F) (g : ℕ → F) :
    Poly.fromValues (tab (2 ^ k) g) = .ok (mkPoly .values k g) := ofVec_pow hk g

end

theorem parMap_tab {α β : Type} (w : Worker) (n : ℕ) (g : ℕ → α) (f : α → β) :
    parChunks w (tab n g) (fun _ _ v => v.map f) = tab n (fun i => f (g i)) := by
  apply parChunks_tab
  intro c i _ _ _
  rw [map_tab]

theorem scale_mk (w : Worker) (P : Form) (k : ℕ) (g : ℕ → F) (c : F) :
    (mkPoly P k g).scale w c = mkPoly P k (fun i => g i * c) := by
  unfold Poly.scale mkPoly
  simp only [parMap_tab]

theorem negate_mk (w : Worker) (P : Form) (k : ℕ) (g : ℕ → F) :
    (mkPoly P k g).negate w = mkPoly P k (fun i => - g i) := by
  unfold Poly.negate mkPoly
  simp only [parMap_tab]

theorem distributePowers_mk (w : Worker) (P : Form) (k : ℕ) (g : ℕ → F) (c : F) :
    (mkPoly P k g).distributePowers w c = mkPoly P k (fun i => g i * c ^ i) := by
  unfold Poly.distributePowers mkPoly
  simp only [distributePowers_tab]

theorem square_mk (w : Worker) (k : ℕ) (g : ℕ → F) :
    (mkPoly .values k g).square w = mkPoly .values k (fun i => g i * g i) := by
  unfold Poly.square mkPoly
  simp only [parMap_tab]

theorem pow_mk (w : Worker) (k : ℕ) (g : ℕ → F) (e : ℕ) :
    (mkPoly .values k g).pow w e = mkPoly .values k (fun i => g i ^ e) := by
  unfold Poly.pow
  split
  · rename_i h
    subst h
    rw [square_mk]
    apply mkPoly_congr
    intro i _; rw [pow_two]
  · unfold mkPoly
    simp only [parMap_tab]

theorem addConstant_mk (w : Worker) (k : ℕ) (g : ℕ → F) (c : F) :
    (mkPoly .values k g).addConstant w c = mkPoly .values k (fun i => g i + c) := by
  unfold Poly.addConstant mkPoly
  simp only [parMap_tab]

theorem parChunksZip_pow (w : Worker) (e m k : ℕ) (g h : ℕ → F) (f : F → F → F) (hk : 2 ^ k ≤ m) :
    parChunksZip w e (tab (2 ^ k) g) (tab m h) (zipUpdate f) = tab (2 ^ k) (fun i => f (g i) (h i)) := by
  rw [parChunksZip_tab]
  apply tab_congr
  intro i hi
  rw [if_pos (by omega)]

theorem addAssignV_mk (w : Worker) (k : ℕ) (g h : ℕ → F) :
    (mkPoly .values k g).addAssignV w (mkPoly .values k h) = .ok (mkPoly .values k (fun i => g i + h i)) := by
  unfold Poly.addAssignV
  simp only [mkPoly_coeffs, length_tab, decide_true, Res.assert_true, Res.ok_bind, Res.pure_def]
  rw [parChunksZip_pow _ _ _ _ _ _ _ (le_refl _)]; rfl

theorem subAssignV_mk (w : Worker) (k : ℕ) (g h : ℕ → F) :
    (mkPoly .values k g).subAssignV w (mkPoly .values k h) = .ok (mkPoly .values k (fun i => g i - h i)) := by
  unfold Poly.subAssignV
  simp only [mkPoly_coeffs, length_tab, decide_true, Res.assert_true, Res.ok_bind, Res.pure_def]
  rw [parChunksZip_pow _ _ _ _ _ _ _ (le_refl _)]; rfl

theorem mulAssign_mk (w : Worker) (k : ℕ) (g h : ℕ → F) :
    (mkPoly .values k g).mulAssign w (mkPoly .values k h) = .ok (mkPoly .values k (fun i => g i * h i)) := by
  unfold Poly.mulAssign
  simp only [mkPoly_coeffs, length_tab, decide_true, Res.assert_true, Res.ok_bind, Res.pure_def]
  rw [parChunksZip_pow _ _ _ _ _ _ _ (le_refl _)]; rfl

theorem addAssignScaledV_mk (w : Worker) (k : ℕ) (g h : ℕ → F) (c : F) :
    (mkPoly .values k g).addAssignScaledV w (mkPoly .values k h) c
      = .ok (mkPoly .values k (fun i => g i + h i * c)) := by
  unfold Poly.addAssignScaledV
  simp only [mkPoly_coeffs, length_tab, decide_true, Res.assert_true, Res.ok_bind, Res.pure_def]
  rw [parChunksZip_pow _ _ _ _ _ _ (fun a b => a + b * c) (le_refl _)]; rfl

/-- Coefficient forms: the other polynomial may be shorter. -/
theorem addAssignC_mk (w : Worker) {k l : ℕ} (hl : l ≤ k) (g h : ℕ → F) :
    (mkPoly .coefficients k g).addAssignC w (mkPoly .coefficients l h)
      = .ok (mkPoly .coefficients k (fun i => if i < 2 ^ l then g i + h i else g i)) := by
  unfold Poly.addAssignC
  have : 2 ^ l ≤ 2 ^ k := Nat.pow_le_pow_right (by norm_num) hl
  simp only [mkPoly_coeffs, length_tab, this, decide_true, Res.assert_true, Res.ok_bind, Res.pure_def]
  rw [parChunksZip_tab]; rfl

theorem subAssignC_mk (w : Worker) {k l : ℕ} (hl : l ≤ k) (g h : ℕ → F) :
    (mkPoly .coefficients k g).subAssignC w (mkPoly .coefficients l h)
      = .ok (mkPoly .coefficients k (fun i => if i < 2 ^ l then g i - h i else g i)) := by
  unfold Poly.subAssignC
  have : 2 ^ l ≤ 2 ^ k := Nat.pow_le_pow_right (by norm_num) hl
  simp only [mkPoly_coeffs, length_tab, this, decide_true, Res.assert_true, Res.ok_bind, Res.pure_def]
  rw [parChunksZip_tab]; rfl

theorem addAssignScaledC_mk (w : Worker) {k l : ℕ} (hl : l ≤ k) (g h : ℕ → F) (c : F) :
    (mkPoly .coefficients k g).addAssignScaledC w (mkPoly .coefficients l h) c
      = .ok (mkPoly .coefficients k (fun i => if i < 2 ^ l then g i + h i * c else g i)) := by
  unfold Poly.addAssignScaledC
  have : 2 ^ l ≤ 2 ^ k := Nat.pow_le_pow_right (by norm_num) hl
  simp only [mkPoly_coeffs, length_tab, this, decide_true, Res.assert_true, Res.ok_bind, Res.pure_def]
  rw [parChunksZip_tab _ _ _ _ _ _ (fun a b => a + b * c)]; rfl

theorem fft_mk (w : Worker) {k : ℕ} (hk : k ≤ StarkField.S F) (h32 : k < 32) (g : ℕ → F) :
    (mkPoly .coefficients k g).fft w = .ok (mkPoly .values k (dftF (genOf F k) (2 ^ k) g)) := by
  unfold Poly.fft
  simp only [mkPoly_coeffs, mkPoly_omega, mkPoly_exp]
  rw [bestFft_tab w k h32 _ (genOf_halfNeg hk) _ _ (by simp)]
  rfl

theorem cosetFftForGenerator_mk (w : Worker) {k : ℕ} (hk : k ≤ StarkField.S F) (h32 : k < 32)
    (g : ℕ → F) (c : F) :
    (mkPoly .coefficients k g).cosetFftForGenerator w c
      = .ok (mkPoly .values k (dftF (genOf F k) (2 ^ k) (fun i => g i * c ^ i))) := by
  unfold Poly.cosetFftForGenerator
  rw [distributePowers_mk, fft_mk w hk h32]

theorem cosetFft_mk (w : Worker) {k : ℕ} (hk : k ≤ StarkField.S F) (h32 : k < 32) (g : ℕ → F) :
    (mkPoly .coefficients k g).cosetFft w
      = .ok (mkPoly .values k (dftF (genOf F k) (2 ^ k) (fun i => g i * StarkField.mulGen ^ i))) := by
  unfold Poly.cosetFft
  rw [distributePowers_mk, fft_mk w hk h32]

theorem ifft_mk (w : Worker) {k : ℕ} (hk : k ≤ StarkField.S F) (h32 : k < 32) (g : ℕ → F) :
    (mkPoly .values k g).ifft w
      = .ok (mkPoly .coefficients k
          (fun i => dftF (genOf F k)⁻¹ (2 ^ k) g i * ((2 ^ k : ℕ) : F)⁻¹)) := by
  unfold Poly.ifft
  simp only [mkPoly_coeffs, mkPoly_omegainv, mkPoly_exp]
  rw [bestFft_tab w k h32 _ (halfNeg_of_prim (genOf_prim hk).inv) _ _ (by simp)]
  simp only [Res.ok_bind, Res.pure_def, parMap_tab]
  rfl

theorem icosetFftForGenerator_mk (w : Worker) {k : ℕ} (hk : k ≤ StarkField.S F) (h32 : k < 32)
    (g : ℕ → F) (c : F) :
    (mkPoly .values k g).icosetFftForGenerator w c
      = .ok (mkPoly .coefficients k
          (fun i => dftF (genOf F k)⁻¹ (2 ^ k) g i * ((2 ^ k : ℕ) : F)⁻¹ * c ^ i)) := by
  unfold Poly.icosetFftForGenerator
  rw [ifft_mk w hk h32]
  simp only [Res.ok_bind, Res.pure_def, distributePowers_mk]

theorem icosetFft_mk (w : Worker) {k : ℕ} (hk : k ≤ StarkField.S F) (h32 : k < 32)
    (g : ℕ → F) :
    (mkPoly .values k g).icosetFft w
      = .ok (mkPoly .coefficients k
          (fun i => dftF (genOf F k)⁻¹ (2 ^ k) g i * ((2 ^ k : ℕ) : F)⁻¹ * StarkField.mulGen⁻¹ ^ i)) := by
  unfold Poly.icosetFft
  rw [ifft_mk w hk h32]
  simp only [Res.ok_bind, Res.pure_def, distributePowers_mk, mkPoly_geninv]

/-- value of the polynomial with coefficients `g 0 … g (n-1)` at `x` -/
def evalF (n : ℕ) (g : ℕ → F) (x : F) : F := ∑ i ∈ range n, g i * x ^ i

omit [StarkField F] in
theorem evalF_congr {n : ℕ} {g h : ℕ → F} (e : ∀ i, i < n → g i = h i) (x : F) :
    evalF n g x = evalF n h x := by
  unfold evalF
  apply sum_congr rfl
  intro i hi
  rw [e i (mem_range.1 hi)]

omit [StarkField F] in
theorem evalPoly_tab (n : ℕ) (g : ℕ → F) (x : F) : Spec.evalPoly (tab n g) x = evalF n g x := by
  unfold Spec.evalPoly evalF
  rw [length_tab]
  apply sum_congr rfl
  intro i hi
  rw [List.getD, getElem?_tab, if_pos (mem_range.1 hi), Option.getD_some]

omit [StarkField F] in
theorem dftF_eq_evalF (ω : F) (n : ℕ) (g : ℕ → F) (c : F) (j : ℕ) :
    dftF ω n (fun i => g i * c ^ i) j = evalF n g (c * ω ^ j) := by
  unfold dftF evalF
  apply sum_congr rfl
  intro i _
  rw [mul_pow, ← pow_mul, mul_comm j i, mul_assoc]

omit [StarkField F] in
theorem dftF_eq_evalF' (ω : F) (n : ℕ) (g : ℕ → F) (j : ℕ) :
    dftF ω n g j = evalF n g (ω ^ j) := by
  have := dftF_eq_evalF ω n g 1 j
  simpa using this

end Hodor

import Verif.Spec.Valid
import Verif.Lemmas.Interpolate

namespace Hodor

variable {F : Type} [Field F] [StarkField F]

theorem valid_mkPoly (P : Form) {k : ℕ} (hk : k ≤ StarkField.S F) (g : ℕ → F) : (mkPoly P k g).Valid := by
  unfold Poly.Valid
  rw [mkPoly_coeffs, length_tab, newForSize_pow hk]
  exact ⟨_, rfl, rfl, rfl, rfl, rfl, rfl, rfl⟩

theorem Poly.Valid.exists_mk {P : Form} {p : Poly F P} (h : p.Valid) :
    ∃ k g, k ≤ StarkField.S F ∧ p = mkPoly P k g := by
  obtain ⟨d, hd, h1, h2, h3, h4, h5, h6⟩ := h
  rw [newForSize_eq] at hd
  split at hd
  swap; · cases hd
  rename_i hS
  cases hd
  simp only at *
  refine ⟨_, fun i => p.coeffs.getD i 0, hS, ?_⟩
  unfold mkPoly
  cases p with
  | mk coeffs exp omega omegainv geninv minv =>
    simp only at *
    subst h2 h3 h4 h5 h6
    congr 1
    · rw [← h1]; exact eq_tab_getD coeffs 0

theorem evaluatesOn_tab {a : List F} {s ω : F} {n : ℕ} {g : ℕ → F}
    (h : ∀ j, j < n → g j = Spec.evalPoly a (s * ω ^ j)) : Spec.EvaluatesOn a s ω n (tab n g) := by
  refine ⟨length_tab _ _, fun j hj => ?_⟩
  rw [getElem?_tab, if_pos hj, h j hj]

theorem isDft_tab (n : ℕ) (g : ℕ → F) (ω : F) : Spec.IsDft (tab n g) ω (tab n (dftF ω n g)) := by
  unfold Spec.IsDft
  rw [length_tab, length_tab]
  refine ⟨rfl, fun j hj => ?_⟩
  rw [getElem?_tab, if_pos hj]
  congr 1
  unfold dftF
  apply Finset.sum_congr rfl
  intro i hi
  rw [List.getD, getElem?_tab, if_pos (Finset.mem_range.1 hi), Option.getD_some]

end Hodor

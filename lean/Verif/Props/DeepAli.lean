import Verif.Model.DeepAli
import Verif.Props.LdeExact
import Verif.Props.Poly
import Verif.Lemmas.SoundV

/-!
# C67: DEEP quotients of a single witness polynomial
-/

namespace Hodor

open Polynomial Finset

variable {F : Type} [Field F] [DecidableEq F] [StarkField F]

/-- What C67 asks of the result for `f`, `g`, the masks `ms` and the point `z`: `h1` are the values of `(f - U) / ∏ (X - z·m)` on the domain of size `2^N`, `U` the interpolant of `f` at the points `z·m`,
and `h2` those of `(g - g(z)) / (X - z)` on the domain of size `2^N'`; both divisions are exact. -/
structure Spec.DeepQuotients (N N' : ℕ) (f g : F[X]) (ms : List F) (z : F) (out : DeepOut F) : Prop where
  points : out.zM = ms.map (fun m => z * m)
  values : out.fAtZM = ms.map (fun m => f.eval (z * m))
  h1 : ∃ U q : F[X], U.degree < (ms.length : ℕ) ∧ (∀ m ∈ ms, U.eval (z * m) = f.eval (z * m)) ∧
    q * (ms.map (fun m => X - C (z * m))).prod + U = f ∧
    out.h1 = mkPoly .values N (fun i => q.eval (genOf F N ^ i))
  h2 : ∃ q : F[X], q * (X - C z) + C (g.eval z) = g ∧ out.h2 = mkPoly .values N' (fun i => q.eval (genOf F N' ^ i))

theorem mapRes_deepPoint (z : F) (ms : List F) : mapRes (deepPoint z) (ms.map StepDifference.mask) = .ok (ms.map (fun m => z * m)) := by
  have := mapRes_ok (deepPoint z) (fun s => match s with | .mask m => z * m | .steps _ => 0) (ms.map StepDifference.mask) (by
    intro x hx
    obtain ⟨m, -, rfl⟩ := List.mem_map.1 hx
    rfl)
  rw [this, List.map_map]
  rfl

theorem batchInversion_zero (w : Worker) (k : ℕ) (a : ℕ → F) (h : ∃ i, i < 2 ^ k ∧ a i = 0) :
    (mkPoly .values k a).batchInversion w = .err .error := by
  rw [batchInversion_tab w _ (2 ^ k) a (mkPoly_coeffs _ _ _), if_pos h]

omit [DecidableEq F] [StarkField F] in
theorem eval_prod_roots (ms : List F) (z x : F) : ((ms.map (fun m => X - C (z * m))).prod).eval x = (ms.map (fun m => x - z * m)).prod := by
  rw [eval_list_prod, List.map_map]
  congr 1
  apply List.map_congr_left
  intro m _
  simp

/-- The common part: everything up to the inversion of the denominators. -/
theorem makeDeep_eq (w : Worker) {k k' N N' : ℕ} {f g : F[X]} (hf : f.degree < (2 ^ k : ℕ)) (hg : g.degree < (2 ^ k' : ℕ))
    (hN : N ≤ StarkField.S F) (hN' : N' ≤ StarkField.S F) (h32 : N < 32) (ms : List F) (hms : 2 ≤ ms.length)
    (hnd : ms.Nodup) {z : F} (hz : z ≠ 0) (hfit : ms.length < 2 ^ N)
    (hu : LdeOk w (2 ^ (N - Nat.clog 2 ms.length))) (hzl : LdeOk w (2 ^ (N - Nat.clog 2 (ms.length + 1))))
    (hroots : ms.length % w.chunkSize ms.length = 0 ∨ w.cpus = 1 ∨
      2 ^ (Nat.clog 2 (ms.length + 1) - Nat.clog 2 (ms.length % w.chunkSize ms.length + 1)) < 2 * w.cpus) :
    ∃ U : F[X], U.degree < (ms.length : ℕ) ∧ (∀ m ∈ ms, U.eval (z * m) = f.eval (z * m)) ∧
    makeDeep w (mkPoly .coefficients k f.coeff) (mkPoly .coefficients k' g.coeff) (ms.map StepDifference.mask)
        (mkPoly .values N (fun i => f.eval (genOf F N ^ i))) (mkPoly .values N' (fun i => g.eval (genOf F N' ^ i))) z
      = (mkPoly .values N (fun i => (ms.map (fun m => genOf F N ^ i - z * m)).prod)).batchInversion w >>= fun zInv =>
        (mkPoly .values N (fun i => f.eval (genOf F N ^ i) - U.eval (genOf F N ^ i))).mulAssign w zInv >>= fun h1 =>
        (mkPoly .values N' (fun i => genOf F N' ^ i - z)).batchInversion w >>= fun den =>
        (mkPoly .values N' (fun i => g.eval (genOf F N' ^ i) - g.eval z)).mulAssign w den >>= fun h2 =>
        .ok { zM := ms.map (fun m => z * m), fAtZM := ms.map (fun m => f.eval (z * m)), h1 := h1, h2 := h2 } := by
  have hzm : (ms.map (fun m => z * m)).Nodup := hnd.map (fun a b e => mul_left_cancel₀ hz e)
  have hev : (ms.map (fun m => z * m)).map (fun m => (mkPoly .coefficients k f.coeff).evaluateAt w m) = ms.map (fun m => f.eval (z * m)) := by
    rw [List.map_map]
    apply List.map_congr_left
    intro m _
    simp only [Function.comp]
    rw [evaluateAt_poly w k hf]
  have hzip : (ms.map (fun m => z * m)).zip (ms.map (fun m => f.eval (z * m))) = ms.map (fun m => (z * m, f.eval (z * m))) := by
    rw [List.zip_map', ]
  obtain ⟨c, hc, hcl, hcv, -⟩ := C15_interpolate (ms.map (fun m => (z * m, f.eval (z * m)))) (by simpa using hms) (by
    rw [List.map_map]
    exact hzm)
  rw [List.length_map] at hcl
  obtain ⟨U, hU, hUc⟩ : ∃ U : F[X], U.degree < (ms.length : ℕ) ∧ c = tab ms.length U.coeff := by
    refine ⟨polyOf ms.length (fun i => c.getD i 0), ?_, ?_⟩
    · rw [degree_lt_iff_coeff_zero]
      intro i hi
      rw [polyOf_coeff, if_neg (by omega)]
    · conv_lhs => rw [eq_tab_getD c 0, hcl]
      apply tab_congr
      intro i hi
      rw [polyOf_coeff, if_pos hi]
  have hclu : Nat.clog 2 ms.length ≤ N := (Nat.clog_le_iff_le_pow (by norm_num)).2 (by omega)
  have hclz : Nat.clog 2 (ms.length + 1) ≤ N := (Nat.clog_le_iff_le_pow (by norm_num)).2 (by omega)
  have hUp : U.degree < (2 ^ Nat.clog 2 ms.length : ℕ) := lt_of_lt_of_le hU (by exact_mod_cast Nat.le_pow_clog (by norm_num) _)
  refine ⟨U, hU, ?_, ?_⟩
  · intro m hm
    have := hcv (z * m, f.eval (z * m)) (List.mem_map.2 ⟨m, hm, rfl⟩)
    rw [hUc, evalPoly_tab, evalF_coeff hU] at this
    exact this
  · have hUpoly : (Poly.fromCoeffs c : Res (Poly F .coefficients)) = .ok (mkPoly .coefficients (Nat.clog 2 ms.length) U.coeff) := by
      unfold Poly.fromCoeffs
      rw [hUc, ofVec_tab, if_pos (le_trans hclu hN)]
      congr 1
      apply mkPoly_congr
      intro i _
      split
      · rfl
      · exact ((degree_lt_iff_coeff_zero _ _).1 hU i (by omega)).symm
    have hlt31 : ms.length < 2 ^ 31 := lt_of_lt_of_le hfit (Nat.pow_le_pow_right (by norm_num) (by omega))
    obtain ⟨zp, hzp, hzprod⟩ := (C14_from_roots_correct_iff (F := F) w ms.length (by omega)
      (lt_of_lt_of_le hfit (Nat.pow_le_pow_right (by norm_num) hN)) hlt31).2 hroots (ms.map (fun m => z * m)) (by simp)
    have hfull : Poly.fromRoots w (ms.map (fun m => z * m)) = .ok (mkPoly .coefficients (Nat.clog 2 (ms.length + 1))
        ((ms.map (fun m => X - C (z * m))).prod).coeff) := by
      obtain ⟨p', d, e1, hv', e2, e3, -⟩ := C14_from_roots_exact w (ms.map (fun m => z * m)) (by
        intro h0
        have := congrArg List.length h0
        rw [List.length_map, List.length_nil] at this
        omega) (by simpa using lt_of_lt_of_le hfit (Nat.pow_le_pow_right (by norm_num) hN)) (by simpa using hlt31)
      rw [hzp] at e1
      cases e1
      obtain ⟨kk, gg, hkk, rfl⟩ := hv'.exists_mk
      rw [List.length_map, newForSize_eq, if_pos (by omega)] at e2
      cases e2
      rw [mkPoly_size] at e3
      have : kk = Nat.clog 2 (ms.length + 1) := Nat.pow_right_injective (le_refl 2) e3
      subst this
      rw [hzp]
      congr 1
      apply mkPoly_congr
      intro i hi
      have := hzprod i
      rw [mkPoly_coeffs, List.getD_eq_getElem?_getD, getElem?_tab, if_pos hi, Option.getD_some, List.map_map] at this
      exact this
    have hZdeg : ((ms.map (fun m => X - C (z * m))).prod).degree < ((2 ^ Nat.clog 2 (ms.length + 1) : ℕ) : WithBot ℕ) := by
      have : ((ms.map (fun m => X - C (z * m))).prod).degree ≤ ((ms.length : ℕ) : WithBot ℕ) := by
        have h := prod_roots_degree (ms.map (fun m => z * m))
        rw [List.map_map, List.length_map] at h
        exact h
      refine lt_of_le_of_lt this ?_
      exact_mod_cast lt_of_lt_of_le (Nat.lt_succ_self _) (Nat.le_pow_clog (by norm_num) _)
    unfold makeDeep
    rw [mapRes_deepPoint]
    simp only [Res.ok_bind, hev]
    rw [hzip, hc]
    simp only [Res.ok_bind]
    rw [hUpoly, Res.ok_bind, hfull, Res.ok_bind]
    simp only [mkPoly_size]
    rw [Nat.pow_div hclu (by norm_num), Nat.pow_div hclz (by norm_num),
      lde_poly w (by omega) (by omega) hu hUp, lde_poly w (by omega) (by omega) hzl hZdeg]
    rw [show Nat.clog 2 ms.length + (N - Nat.clog 2 ms.length) = N by omega,
      show Nat.clog 2 (ms.length + 1) + (N - Nat.clog 2 (ms.length + 1)) = N by omega]
    simp only [Res.ok_bind, subAssignV_mk, eval_prod_roots]
    have hden : (Poly.fromValues (List.replicate (2 ^ N') (1 : F)) : Res (Poly F .values)) = .ok (mkPoly .values N' (fun _ => 1)) := by
      rw [replicate_eq_tab, fromValues_pow hN']
    rw [hden]
    simp only [Res.ok_bind]
    have hden2 : ({ (mkPoly .values N' (fun _ => (1 : F))).distributePowers w (mkPoly .values N' (fun _ => (1 : F))).omega with
        coeffs := parChunks w ((mkPoly .values N' (fun _ => (1 : F))).distributePowers w (mkPoly .values N' (fun _ => (1 : F))).omega).coeffs
          (fun _ _ v => v.map (fun x => x - z)) } : Poly F .values) = mkPoly .values N' (fun i => genOf F N' ^ i - z) := by
      unfold Poly.distributePowers mkPoly
      simp only [distributePowers_tab, parMap_tab, one_mul]
    have hh2 : ({ mkPoly .values N' (fun i => g.eval (genOf F N' ^ i)) with
        coeffs := parChunks w (mkPoly .values N' (fun i => g.eval (genOf F N' ^ i))).coeffs
          (fun _ _ v => v.map (fun x => x - g.eval z)) } : Poly F .values) = mkPoly .values N' (fun i => g.eval (genOf F N' ^ i) - g.eval z) := by
      unfold mkPoly
      simp only [parMap_tab]
    rw [evaluateAt_poly w k' hg, hden2, hh2]
    rfl

/-- **C67.** For every witness polynomial `f` and composition polynomial `g` with their extended values on domains of sizes `2^N` and `2^N'`, every list of at least two different masks, every `z ≠ 0` such
that no `z·m` is in the first domain and `z` is not in the second, and every worker for which the extensions and the product of roots are computed correctly, `make_deep` returns the DEEP quotients. -/
theorem C67_quotients (w : Worker) (k k' N N' : ℕ) (f g : F[X]) (hf : f.degree < (2 ^ k : ℕ)) (hg : g.degree < (2 ^ k' : ℕ))
    (hN : N ≤ StarkField.S F) (hN' : N' ≤ StarkField.S F) (h32 : N < 32) (ms : List F) (hms : 2 ≤ ms.length)
    (hnd : ms.Nodup) (z : F) (hz : z ≠ 0) (hfit : ms.length < 2 ^ N)
    (hu : w.cpus = 1 ∨ 2 ^ (N - Nat.clog 2 ms.length) < 2 * w.cpus)
    (hroots : ms.length % w.chunkSize ms.length = 0 ∨ w.cpus = 1 ∨
      2 ^ (Nat.clog 2 (ms.length + 1) - Nat.clog 2 (ms.length % w.chunkSize ms.length + 1)) < 2 * w.cpus)
    (hout : ∀ m ∈ ms, ∀ i, i < 2 ^ N → genOf F N ^ i ≠ z * m) (hout' : ∀ i, i < 2 ^ N' → genOf F N' ^ i ≠ z) :
    ∃ out, makeDeep w (mkPoly .coefficients k f.coeff) (mkPoly .coefficients k' g.coeff) (ms.map StepDifference.mask)
        (mkPoly .values N (fun i => f.eval (genOf F N ^ i))) (mkPoly .values N' (fun i => g.eval (genOf F N' ^ i))) z = .ok out ∧
      Spec.DeepQuotients N N' f g ms z out := by
  have hzl : LdeOk w (2 ^ (N - Nat.clog 2 (ms.length + 1))) := by
    rcases hu with h | h
    · exact Or.inl h
    · refine Or.inr (lt_of_le_of_lt (Nat.pow_le_pow_right (by norm_num) ?_) h)
      have : Nat.clog 2 ms.length ≤ Nat.clog 2 (ms.length + 1) := Nat.clog_mono_right 2 (by omega)
      omega
  obtain ⟨U, hU, hUv, e⟩ := makeDeep_eq w hf hg hN hN' h32 ms hms hnd hz hfit hu hzl hroots
  have hprod : ∀ i, i < 2 ^ N → (ms.map (fun m => genOf F N ^ i - z * m)).prod ≠ 0 := by
    intro i hi h0
    obtain ⟨m, hm, h1⟩ := List.mem_map.1 (List.prod_eq_zero_iff.1 h0)
    exact hout m hm i hi (sub_eq_zero.1 h1)
  have hsub : ∀ i, i < 2 ^ N' → genOf F N' ^ i - z ≠ 0 := fun i hi h0 => hout' i hi (sub_eq_zero.1 h0)
  rw [batchInversion_mk w N _ hprod] at e
  simp only [Res.ok_bind, mulAssign_mk] at e
  rw [batchInversion_mk w N' _ hsub] at e
  simp only [Res.ok_bind, mulAssign_mk] at e
  have hdvd : (ms.map (fun m => X - C (z * m))).prod ∣ f - U := by
    have hzm : (ms.map (fun m => z * m)).Nodup := hnd.map (fun a b e => mul_left_cancel₀ hz e)
    have h1 : (Multiset.map (fun a => X - C a) (ms.map (fun m => z * m) : Multiset F)).prod ∣ f - U := by
      rcases eq_or_ne (f - U) 0 with h0 | h0
      · rw [h0]; exact dvd_zero _
      · rw [Multiset.prod_X_sub_C_dvd_iff_le_roots h0, Multiset.le_iff_subset (by simpa using hzm)]
        intro a ha
        rw [Multiset.mem_coe] at ha
        obtain ⟨m, hm, rfl⟩ := List.mem_map.1 ha
        rw [mem_roots h0]
        simp [hUv m hm]
    rw [Multiset.map_coe, Multiset.prod_coe, List.map_map] at h1
    exact h1
  obtain ⟨q, hq⟩ := hdvd
  obtain ⟨q2, hq2⟩ : (X - C z) ∣ g - C (g.eval z) := X_sub_C_dvd_sub_C_eval
  refine ⟨_, e, rfl, rfl, ⟨U, q, hU, hUv, ?_, ?_⟩, ⟨q2, ?_, ?_⟩⟩
  · rw [mul_comm, ← hq]; ring
  · apply mkPoly_congr
    intro i hi
    have := congrArg (eval (genOf F N ^ i)) hq
    rw [eval_sub, eval_mul, eval_prod_roots] at this
    rw [this, mul_comm _ (eval _ q), mul_assoc, mul_inv_cancel₀ (hprod i hi), mul_one]
  · rw [mul_comm, ← hq2]; ring
  · apply mkPoly_congr
    intro i hi
    have := congrArg (eval (genOf F N' ^ i)) hq2
    rw [eval_sub, eval_mul, eval_C, eval_sub, eval_X, eval_C] at this
    rw [this, mul_comm _ (eval _ q2), mul_assoc, mul_inv_cancel₀ (hsub i hi), mul_one]

/-- **C67 (points in a domain).** Under the same conditions, if some `z·m` is in the first domain or `z` is in the second, the code returns an error. -/
theorem C67_in_domain (w : Worker) (k k' N N' : ℕ) (f g : F[X]) (hf : f.degree < (2 ^ k : ℕ)) (hg : g.degree < (2 ^ k' : ℕ))
    (hN : N ≤ StarkField.S F) (hN' : N' ≤ StarkField.S F) (h32 : N < 32) (ms : List F) (hms : 2 ≤ ms.length)
    (hnd : ms.Nodup) (z : F) (hz : z ≠ 0) (hfit : ms.length < 2 ^ N)
    (hu : w.cpus = 1 ∨ 2 ^ (N - Nat.clog 2 ms.length) < 2 * w.cpus)
    (hroots : ms.length % w.chunkSize ms.length = 0 ∨ w.cpus = 1 ∨
      2 ^ (Nat.clog 2 (ms.length + 1) - Nat.clog 2 (ms.length % w.chunkSize ms.length + 1)) < 2 * w.cpus)
    (hin : (∃ m ∈ ms, ∃ i, i < 2 ^ N ∧ genOf F N ^ i = z * m) ∨ ∃ i, i < 2 ^ N' ∧ genOf F N' ^ i = z) :
    makeDeep w (mkPoly .coefficients k f.coeff) (mkPoly .coefficients k' g.coeff) (ms.map StepDifference.mask)
        (mkPoly .values N (fun i => f.eval (genOf F N ^ i))) (mkPoly .values N' (fun i => g.eval (genOf F N' ^ i))) z = .err .error := by
  have hzl : LdeOk w (2 ^ (N - Nat.clog 2 (ms.length + 1))) := by
    rcases hu with h | h
    · exact Or.inl h
    · refine Or.inr (lt_of_le_of_lt (Nat.pow_le_pow_right (by norm_num) ?_) h)
      have : Nat.clog 2 ms.length ≤ Nat.clog 2 (ms.length + 1) := Nat.clog_mono_right 2 (by omega)
      omega
  obtain ⟨U, hU, hUv, e⟩ := makeDeep_eq w hf hg hN hN' h32 ms hms hnd hz hfit hu hzl hroots
  rw [e]
  by_cases h1 : ∃ i, i < 2 ^ N ∧ (ms.map (fun m => genOf F N ^ i - z * m)).prod = 0
  · rw [batchInversion_zero w N _ h1]; rfl
  · rw [batchInversion_mk w N _ (fun i hi h0 => h1 ⟨i, hi, h0⟩)]
    simp only [Res.ok_bind, mulAssign_mk]
    have h2 : ∃ i, i < 2 ^ N' ∧ genOf F N' ^ i - z = 0 := by
      rcases hin with ⟨m, hm, i, hi, h0⟩ | ⟨i, hi, h0⟩
      · exact absurd ⟨i, hi, List.prod_eq_zero_iff.2 (List.mem_map.2 ⟨m, hm, sub_eq_zero.2 h0⟩)⟩ h1
      · exact ⟨i, hi, sub_eq_zero.2 h0⟩
    rw [batchInversion_zero w N' _ h2]; rfl

/-- **C67 (too few or repeated points).** With fewer than two masks, repeated masks, or `z = 0` and any masks, the code panics, whatever the polynomials. -/
theorem C67_panics (w : Worker) (fPoly gPoly : Poly F .coefficients) (fLde gLde : Poly F .values) (ms : List F) (z : F)
    (h : ms.length < 2 ∨ ¬ ms.Nodup ∨ z = 0) : makeDeep w fPoly gPoly (ms.map StepDifference.mask) fLde gLde z = .panic := by
  unfold makeDeep
  rw [mapRes_deepPoint]
  simp only [Res.ok_bind]
  rw [C15_interpolate_repeated]
  · rfl
  · have hfst : ((ms.map (fun m => z * m)).zip ((ms.map (fun m => z * m)).map (fun m => fPoly.evaluateAt w m))).map Prod.fst = ms.map (fun m => z * m) := by
      rw [List.map_fst_zip]
      simp
    rw [hfst]
    simp only [List.length_zip, List.length_map, min_self]
    rcases h with h | h | h
    · exact Or.inl h
    · right
      intro hn
      exact h (List.Nodup.of_map _ hn)
    · rcases Nat.lt_or_ge ms.length 2 with h2 | h2
      · exact Or.inl h2
      · right
        intro hn
        subst h
        obtain ⟨a, b, l, rfl⟩ : ∃ a b l, ms = a :: b :: l := by
          match ms, h2 with
          | a :: b :: l, _ => exact ⟨a, b, l, rfl⟩
        simp at hn

/-- Non-vacuity: `f = X + 1`, `g = X²` over `Fr`, domains of size 4 and 8, masks 1 and 3, `z = 5`, on one CPU. -/
example : (X + C 1 : Fr[X]).degree < (2 ^ 1 : ℕ) ∧ (X ^ 2 : Fr[X]).degree < (2 ^ 2 : ℕ) ∧ 3 ≤ StarkField.S Fr ∧ [(1 : Fr), 3].Nodup ∧ (5 : Fr) ≠ 0 ∧
    [(1 : Fr), 3].length < 2 ^ 2 ∧ (∀ m ∈ [(1 : Fr), 3], ∀ i, i < 2 ^ 2 → genOf Fr 2 ^ i ≠ 5 * m) ∧ ∀ i, i < 2 ^ 3 → genOf Fr 3 ^ i ≠ (5 : Fr) := by
  refine ⟨?_, ?_, by decide, by decide, by decide, by decide, ?_, ?_⟩
  · rw [degree_X_add_C]; norm_num
  · rw [degree_X_pow]; norm_num
  · have h : genOf Fr 2 = 241 := by decide +kernel
    rw [h]
    intro m hm i hi
    simp only [List.mem_cons, List.not_mem_nil, or_false] at hm
    rcases hm with rfl | rfl <;> interval_cases i <;> decide +kernel
  · intro i hi
    interval_cases i <;> decide +kernel

end Hodor

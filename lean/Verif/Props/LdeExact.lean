import Verif.Lemmas.LdeExact
import Verif.Props.Lde

/-!
# C09, C10, C14: what the code computes for every worker, and exactly when that is right
-/

namespace Hodor

open Polynomial Finset

variable {F : Type} [Field F] [DecidableEq F] [StarkField F]

/-- The index whose point the code uses for index `idx`, when `factor` cosets are distributed in chunks of `chunk`: coset `r` of a chunk that starts with
coset `i * chunk` is computed as coset `i + r` instead of `i * chunk + r`. -/
def Spec.ldePoint (chunk factor idx : ℕ) : ℕ := idx % factor / chunk + idx % factor % chunk + factor * (idx / factor)

/-- **C09 (exactly).** For every worker `lde` returns, at every index, the value of the polynomial at the point with index `ldePoint`. -/
theorem C09_lde_exact (w : Worker) (p : Poly F .coefficients) (hp : p.Valid) (f : ℕ)
    (hS : p.exp + f ≤ StarkField.S F) (h32 : p.exp < 32) :
    ∃ q d, p.lde w (2 ^ f) = .ok q ∧ Domain.newForSize F (p.size * 2 ^ f) = .ok d ∧ d.size = p.size * 2 ^ f ∧
      q.coeffs.length = p.size * 2 ^ f ∧ ∀ idx, idx < p.size * 2 ^ f →
        q.coeffs[idx]? = some (Spec.evalPoly p.coeffs (d.generator ^ Spec.ldePoint (w.chunkSize (2 ^ f)) (2 ^ f) idx)) := by
  obtain ⟨k, g, hk, rfl⟩ := hp.exists_mk
  simp only [mkPoly_exp] at h32 hS
  rw [mkPoly_size, ← pow_add, newForSize_pow hS, lde_exact w hS h32]
  refine ⟨_, _, rfl, rfl, rfl, by simp, ?_⟩
  intro idx hi
  rw [mkPoly_coeffs, getElem?_tab, if_pos hi, mkPoly_coeffs, evalPoly_tab]
  rfl

/-- **C10 (exactly).** The same for `coset_lde`. -/
theorem C10_coset_lde_exact (w : Worker) (p : Poly F .coefficients) (hp : p.Valid) (f : ℕ)
    (hS : p.exp + f ≤ StarkField.S F) (h32 : p.exp < 32) :
    ∃ q d, p.cosetLde w (2 ^ f) = .ok q ∧ Domain.newForSize F (p.size * 2 ^ f) = .ok d ∧ d.size = p.size * 2 ^ f ∧
      q.coeffs.length = p.size * 2 ^ f ∧ ∀ idx, idx < p.size * 2 ^ f →
        q.coeffs[idx]? = some (Spec.evalPoly p.coeffs
          (StarkField.mulGen * d.generator ^ Spec.ldePoint (w.chunkSize (2 ^ f)) (2 ^ f) idx)) := by
  obtain ⟨k, g, hk, rfl⟩ := hp.exists_mk
  simp only [mkPoly_exp] at h32 hS
  rw [mkPoly_size, ← pow_add, newForSize_pow hS, cosetLde_exact w hS h32]
  refine ⟨_, _, rfl, rfl, rfl, by simp, ?_⟩
  intro idx hi
  rw [mkPoly_coeffs, getElem?_tab, if_pos hi, mkPoly_coeffs, evalPoly_tab]
  rfl

/-- A polynomial with one coefficient has the same value everywhere. -/
theorem ldeCorrect_one (w : Worker) (p : Poly F .coefficients) (hp : p.Valid) (hk : p.exp = 0) (f : ℕ) (hS : f ≤ StarkField.S F) :
    Spec.LdeCorrect p (2 ^ f) 1 (p.lde w (2 ^ f)) ∧ Spec.LdeCorrect p (2 ^ f) StarkField.mulGen (p.cosetLde w (2 ^ f)) := by
  obtain ⟨q, d, h1, h2, h3, h4, h5⟩ := C09_lde_exact w p hp f (by omega) (by omega)
  obtain ⟨q', d', h1', h2', h3', h4', h5'⟩ := C10_coset_lde_exact w p hp f (by omega) (by omega)
  have hlen : p.coeffs.length = 1 := by
    obtain ⟨k, g, -, rfl⟩ := hp.exists_mk
    simp only [mkPoly_exp] at hk
    subst hk
    simp
  have hconst : ∀ x y : F, Spec.evalPoly p.coeffs x = Spec.evalPoly p.coeffs y := by
    intro x y
    unfold Spec.evalPoly
    rw [hlen]
    simp
  refine ⟨⟨q, d, h1, h2, h3, ?_⟩, ⟨q', d', h1', h2', h3', ?_⟩⟩
  · refine ⟨h4.trans h3.symm, fun j hj => ?_⟩
    rw [h5 j (by omega)]
    exact congrArg some (hconst _ _)
  · refine ⟨h4'.trans h3'.symm, fun j hj => ?_⟩
    rw [h5' j (by omega)]
    exact congrArg some (hconst _ _)

/-- **C09 (exactly when).** For a given size `2^k`, factor and worker, `lde` is right for all polynomials if and only if the size is 1, the worker has one CPU, or the factor is below twice the number of
CPUs. -/
theorem C09_lde_correct_iff (w : Worker) (k f : ℕ) (hk : k + f ≤ StarkField.S F) (h32 : k < 32) :
    (∀ p : Poly F .coefficients, p.Valid → p.exp = k → Spec.LdeCorrect p (2 ^ f) 1 (p.lde w (2 ^ f))) ↔
      k = 0 ∨ w.cpus = 1 ∨ 2 ^ f < 2 * w.cpus := by
  constructor
  · intro h
    by_contra hcon
    rw [not_or, not_or, not_lt] at hcon
    obtain ⟨h0, h1, h2⟩ := hcon
    have hp := w.pos
    obtain ⟨p, hp, hs, -, hbad⟩ := C09_lde_wrong (F := F) w k f hk (by omega) h32 (by omega) h2
    refine hbad (h p hp ?_)
    obtain ⟨k', g, -, rfl⟩ := hp.exists_mk
    rw [mkPoly_size] at hs
    simpa using Nat.pow_right_injective (le_refl 2) hs
  · intro h p hp hpk
    rcases h with h | h
    · exact (ldeCorrect_one w p hp (by omega) f (by omega)).1
    · exact C09_lde_partial w p hp f (by omega) (by omega) h

/-- **C10 (exactly when).** The same for `coset_lde`. -/
theorem C10_coset_lde_correct_iff (w : Worker) (k f : ℕ) (hk : k + f ≤ StarkField.S F) (h32 : k < 32) :
    (∀ p : Poly F .coefficients, p.Valid → p.exp = k → Spec.LdeCorrect p (2 ^ f) StarkField.mulGen (p.cosetLde w (2 ^ f))) ↔
      k = 0 ∨ w.cpus = 1 ∨ 2 ^ f < 2 * w.cpus := by
  constructor
  · intro h
    by_contra hcon
    rw [not_or, not_or, not_lt] at hcon
    obtain ⟨h0, h1, h2⟩ := hcon
    have hp := w.pos
    obtain ⟨p, hp, hs, -, hbad⟩ := C10_coset_lde_wrong (F := F) w k f hk (by omega) h32 (by omega) h2
    refine hbad (h p hp ?_)
    obtain ⟨k', g, -, rfl⟩ := hp.exists_mk
    rw [mkPoly_size] at hs
    simpa using Nat.pow_right_injective (le_refl 2) hs
  · intro h p hp hpk
    rcases h with h | h
    · exact (ldeCorrect_one w p hp (by omega) f (by omega)).2
    · exact C10_coset_lde_partial w p hp f (by omega) (by omega) h

/-! ### from_roots -/

/-- **C14 (exactly).** For every worker and non-empty list of roots, `from_roots` returns the polynomial whose value at every point of the domain is the product, over the
chunks of roots, of the chunk's product at the point which the LDE of the chunk uses for that index. -/
theorem C14_from_roots_exact (w : Worker) (roots : List F) (hne : roots ≠ [])
    (hS : roots.length < 2 ^ StarkField.S F) (h32 : roots.length < 2 ^ 31) :
    ∃ p d, Poly.fromRoots w roots = .ok p ∧ p.Valid ∧ Domain.newForSize F (roots.length + 1) = .ok d ∧ p.size = d.size ∧
      ∀ i, i < d.size → Spec.evalPoly p.coeffs (d.generator ^ i) =
        ((chunks (w.chunkSize roots.length) roots).map (fun chunk =>
          let factor := d.size / 2 ^ Nat.clog 2 (chunk.length + 1)
          (chunk.map (fun r => d.generator ^ Spec.ldePoint (w.chunkSize factor) factor i - r)).prod)).prod := by
  have hS' : Nat.clog 2 (roots.length + 1) ≤ StarkField.S F := (Nat.clog_le_iff_le_pow (by norm_num)).2 hS
  have h32' : Nat.clog 2 (roots.length + 1) ≤ 31 := (Nat.clog_le_iff_le_pow (by norm_num)).2 h32
  obtain ⟨Q, hQ, hv, e⟩ := fromRoots_exact w roots hne hS' (by omega)
  refine ⟨_, _, e, valid_mkPoly _ hS' _, by rw [newForSize_eq, if_pos hS'], by rw [mkPoly_size], ?_⟩
  intro i hi
  simp only at hi ⊢
  rw [mkPoly_coeffs, evalPoly_tab, evalF_coeff hQ]
  refine (hv i hi).trans ?_
  congr 1
  apply List.map_congr_left
  intro r hr
  have hl : r.length ≤ roots.length := by
    unfold chunks at hr
    obtain ⟨i, hi, rfl⟩ := mem_tab.1 hr
    simp only [List.length_take, List.length_drop]; omega
  have hk : Nat.clog 2 (r.length + 1) ≤ Nat.clog 2 (roots.length + 1) := Nat.clog_mono_right 2 (by omega)
  unfold chunkAt
  rw [Nat.pow_div hk (by norm_num), eval_list_prod, List.map_map]
  congr 1
  apply List.map_congr_left
  intro a _
  simp only [Function.comp, eval_sub, eval_X, eval_C]
  rfl

omit [StarkField F] [DecidableEq F] in
theorem prod_zero_roots (r : List F) (h : ∀ a ∈ r, a = 0) (x : F) : ((r.map (fun r => X - C r)).prod).eval x = x ^ r.length := by
  induction r with
  | nil => simp
  | cons a r ih =>
    rw [List.map_cons, List.prod_cons, eval_mul, ih (fun b hb => h b (by simp [hb])), h a (by simp), List.length_cons, pow_succ']
    simp

theorem numChunks_uneven {m c : ℕ} (hc : 0 < c) (h : m % c ≠ 0) : numChunks m c = m / c + 1 := by
  unfold numChunks
  have e1 := Nat.div_add_mod m c
  have hlc : m % c < c := Nat.mod_lt _ hc
  rw [show m + c - 1 = (m % c - 1) + c * (m / c + 1) by rw [Nat.mul_add]; omega, Nat.add_mul_div_left _ _ hc,
    Nat.div_eq_of_lt (by omega), Nat.zero_add]

theorem mod_of_last {m c i : ℕ} (h1 : i * c ≤ m) (h2 : m - i * c < c) : m % c = m - i * c := by
  obtain ⟨r, rfl⟩ := Nat.exists_eq_add_of_le h1
  rw [Nat.mul_comm i c, Nat.mul_add_mod, Nat.add_sub_cancel_left, Nat.mod_eq_of_lt]
  omega

/-- **C14 (exactly when).** For `m` roots, `from_roots` builds `∏ (X - r)` for all lists of roots if and only if the roots split evenly over the worker's chunks, or the LDE factor for the
last, shorter chunk of `m % chunk` roots is one for which the LDE is right. -/
theorem C14_from_roots_correct_iff (w : Worker) (m : ℕ) (hm : 0 < m) (hS : m < 2 ^ StarkField.S F) (h32 : m < 2 ^ 31) :
    (∀ roots : List F, roots.length = m → ∃ p, Poly.fromRoots w roots = .ok p ∧ Spec.IsRootProduct roots p.coeffs) ↔
      m % w.chunkSize m = 0 ∨ w.cpus = 1 ∨
        2 ^ (Nat.clog 2 (m + 1) - Nat.clog 2 (m % w.chunkSize m + 1)) < 2 * w.cpus := by
  have hS' : Nat.clog 2 (m + 1) ≤ StarkField.S F := (Nat.clog_le_iff_le_pow (by norm_num)).2 hS
  have h32' : Nat.clog 2 (m + 1) ≤ 31 := (Nat.clog_le_iff_le_pow (by norm_num)).2 h32
  have hc := w.chunkSize_pos m
  have hlt : m < 2 ^ Nat.clog 2 (m + 1) := lt_of_lt_of_le (Nat.lt_succ_self _) (Nat.le_pow_clog (by norm_num) _)
  constructor
  · intro h
    by_contra hcon
    rw [not_or] at hcon
    obtain ⟨h0, hbad⟩ := hcon
    have hbad' : ¬ LdeOk w (2 ^ (Nat.clog 2 (m + 1) - Nat.clog 2 (m % w.chunkSize m + 1))) := hbad
    obtain ⟨j, hj2, hjf, hj1⟩ := ldeExp_wrong hbad'
    set l := m % w.chunkSize m with hl
    set K := Nat.clog 2 (m + 1) with hK
    have hlm : l ≤ m := Nat.mod_le _ _
    have hkl : Nat.clog 2 (l + 1) ≤ K := Nat.clog_mono_right 2 (by omega)
    have hll : l < 2 ^ Nat.clog 2 (l + 1) := lt_of_lt_of_le (Nat.lt_succ_self _) (Nat.le_pow_clog (by norm_num) _)
    have hjl : j * l < 2 ^ K := by
      rw [show K = (K - Nat.clog 2 (l + 1)) + Nat.clog 2 (l + 1) by omega, pow_add]
      exact Nat.mul_lt_mul'' hjf hll
    have hjK : j < 2 ^ K := lt_of_le_of_lt (Nat.le_mul_of_pos_right j (Nat.pos_of_ne_zero h0)) hjl
    obtain ⟨p, e, hp⟩ := h (tab m (fun _ => 0)) (by simp)
    obtain ⟨Q, hQ, hv, e'⟩ := fromRoots_exact w (tab m (fun _ => (0 : F))) (by
      intro h'
      have := congrArg List.length h'
      simp at this
      omega) (by simpa using hS') (by rw [length_tab]; omega)
    simp only [length_tab, ← hK] at hQ hv e'
    rw [e] at e'
    cases e'
    have hQX : Q = ((tab m (fun _ => (0 : F))).map (fun r => X - C r)).prod := by
      ext i
      rw [← hp i, mkPoly_coeffs, List.getD_eq_getElem?_getD, getElem?_tab]
      split
      · rfl
      · exact (degree_lt_iff_coeff_zero _ _).1 hQ i (by omega)
    have hvj := hv j hjK
    rw [hQX, prod_zero_roots _ (by intro a ha; obtain ⟨i, -, rfl⟩ := mem_tab.1 ha; rfl), length_tab, chunks_tab] at hvj
    have hn : numChunks m (w.chunkSize m) = m / w.chunkSize m + 1 := numChunks_uneven hc h0
    have hpart : ∀ r : List F, (∀ a ∈ r, a = 0) → chunkAt F w K r j =
        genOf F K ^ (ldeExp w (K - Nat.clog 2 (r.length + 1)) j * r.length) := by
      intro r hr
      unfold chunkAt
      rw [prod_zero_roots _ hr, ← pow_mul]
    rw [hn, tab_succ, List.map_append, List.prod_append, List.map_singleton, List.prod_singleton, map_tab] at hvj
    have htail : min (w.chunkSize m) (m - m / w.chunkSize m * w.chunkSize m) = l := by
      have e1 := Nat.div_add_mod m (w.chunkSize m)
      rw [← hl] at e1
      have hlc : l < w.chunkSize m := Nat.mod_lt _ hc
      rw [Nat.mul_comm] at e1
      omega
    rw [htail, hpart _ (by intro a ha; obtain ⟨i, -, rfl⟩ := mem_tab.1 ha; rfl), length_tab, hj1, one_mul] at hvj
    have hfull : (tab (m / w.chunkSize m) (fun i => chunkAt F w K (tab (min (w.chunkSize m) (m - i * w.chunkSize m)) (fun _ => (0 : F))) j))
        = tab (m / w.chunkSize m) (fun _ => genOf F K ^ (j * w.chunkSize m)) := by
      apply tab_congr
      intro i hi
      have h1 : (i + 1) * w.chunkSize m ≤ m := (Nat.le_div_iff_mul_le hc).1 hi
      have h2 : min (w.chunkSize m) (m - i * w.chunkSize m) = w.chunkSize m := by
        rw [Nat.add_mul] at h1; omega
      rw [h2, hpart _ (by intro a ha; obtain ⟨i, -, rfl⟩ := mem_tab.1 ha; rfl), length_tab, ldeExp_of_ok]
      exact ldeOk_of_chunk w hm (le_refl _) (by
        rw [Nat.add_mul] at h1; omega)
    rw [hfull, ← replicate_eq_tab, List.prod_replicate, ← pow_mul, ← pow_mul, ← pow_add] at hvj
    have hg := genOf_prim (F := F) hS'
    have hne : genOf F K ^ (j * w.chunkSize m * (m / w.chunkSize m)) ≠ 0 := pow_ne_zero _ (hg.ne_zero (by positivity))
    have hsplit : j * m = j * w.chunkSize m * (m / w.chunkSize m) + j * l := by
      conv_lhs => rw [← Nat.div_add_mod m (w.chunkSize m), ← hl]
      ring
    rw [hsplit, pow_add, pow_add] at hvj
    have := hg.pow_inj hjl (by omega) (mul_left_cancel₀ hne hvj)
    have hl0 : 0 < l := Nat.pos_of_ne_zero h0
    nlinarith
  · intro h roots hr
    subst hr
    have hok : ∀ r ∈ chunks (w.chunkSize roots.length) roots,
        LdeOk w (2 ^ (Nat.clog 2 (roots.length + 1) - Nat.clog 2 (r.length + 1))) := by
      intro r hr
      unfold chunks at hr
      obtain ⟨i, hi, rfl⟩ := mem_tab.1 hr
      have hil := numChunks_lt hc hi
      rw [List.length_take, List.length_drop]
      by_cases hfull : w.chunkSize roots.length ≤ roots.length - i * w.chunkSize roots.length
      · rw [min_eq_left hfull]
        exact ldeOk_of_chunk w hm (le_refl _) (by omega)
      · have hmod : roots.length % w.chunkSize roots.length = roots.length - i * w.chunkSize roots.length := by
          exact mod_of_last (by omega) (by omega)
        rw [min_eq_right (by omega), ← hmod]
        rcases h with h | h
        · omega
        · exact h
    refine ⟨_, fromRoots_ok w roots (by rintro rfl; simp at hm) hS' (by omega) hok, ?_⟩
    intro i
    rw [mkPoly_coeffs, List.getD_eq_getElem?_getD, getElem?_tab]
    split
    · rfl
    · symm
      apply coeff_eq_zero_of_degree_lt
      refine lt_of_le_of_lt (prod_roots_degree roots) ?_
      have : roots.length < i := by omega
      exact_mod_cast this

/-- Uneven splits on both sides: 7 roots on 3 CPUs (chunks 2, 2, 2, 1) are multiplied correctly, 7 roots on 2 CPUs (chunks 3, 3, 1) are not. -/
example : 2 ^ (Nat.clog 2 (7 + 1) - Nat.clog 2 (7 % (Worker.mk 3 (by norm_num)).chunkSize 7 + 1)) < 2 * 3 ∧
    ¬ 2 ^ (Nat.clog 2 (7 + 1) - Nat.clog 2 (7 % (Worker.mk 2 (by norm_num)).chunkSize 7 + 1)) < 2 * 2 ∧
    7 % (Worker.mk 2 (by norm_num)).chunkSize 7 ≠ 0 ∧ 7 < 2 ^ StarkField.S Fr := by decide

end Hodor

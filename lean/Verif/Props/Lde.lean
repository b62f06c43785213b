import Verif.Lemmas.Valid
import Verif.Model.F257

/-! # C09, C10, C14: low degree extension and `from_roots` -/

namespace Hodor

open Polynomial

variable {F : Type} [Field F] [StarkField F] [DecidableEq F]

/-- What C09 asks of one call: the values of `p` on the domain of size `len·factor`, natural order. -/
def Spec.LdeCorrect (p : Poly F .coefficients) (factor : ℕ) (shift : F) (r : Res (Poly F .values)) : Prop :=
  ∃ q d, r = .ok q ∧ Domain.newForSize F (p.size * factor) = .ok d ∧ d.size = p.size * factor ∧
    Spec.EvaluatesOn p.coeffs shift d.generator d.size q.coeffs

/-- **C09 (partial).** `lde(2^f)` is correct whenever the worker has one CPU or `factor < 2·cpus`. Missing: `2 ≤ cpus` and `2·cpus ≤ factor`, where the
code is wrong (`C09_lde_wrong`). -/
theorem C09_lde_partial (w : Worker) (p : Poly F .coefficients) (hp : p.Valid) (f : ℕ)
    (hS : p.exp + f ≤ StarkField.S F) (h32 : p.exp < 32) (hw : w.cpus = 1 ∨ 2 ^ f < 2 * w.cpus) :
    Spec.LdeCorrect p (2 ^ f) 1 (p.lde w (2 ^ f)) := by
  obtain ⟨k, g, hk, rfl⟩ := hp.exists_mk
  simp only [mkPoly_exp] at h32 hS
  unfold Spec.LdeCorrect
  rw [mkPoly_size, ← pow_add, newForSize_pow hS, lde_mk w hS h32 hw]
  refine ⟨_, _, rfl, rfl, rfl, ?_⟩
  apply evaluatesOn_tab
  intro j _
  rw [mkPoly_coeffs, evalPoly_tab, one_mul]

/-- **C10 (partial).** The same for `coset_lde(2^f)`. -/
theorem C10_coset_lde_partial (w : Worker) (p : Poly F .coefficients) (hp : p.Valid) (f : ℕ)
    (hS : p.exp + f ≤ StarkField.S F) (h32 : p.exp < 32) (hw : w.cpus = 1 ∨ 2 ^ f < 2 * w.cpus) :
    Spec.LdeCorrect p (2 ^ f) StarkField.mulGen (p.cosetLde w (2 ^ f)) := by
  obtain ⟨k, g, hk, rfl⟩ := hp.exists_mk
  simp only [mkPoly_exp] at h32 hS
  unfold Spec.LdeCorrect
  rw [mkPoly_size, ← pow_add, newForSize_pow hS, cosetLde_mk w hS h32 hw]
  refine ⟨_, _, rfl, rfl, rfl, ?_⟩
  apply evaluatesOn_tab
  intro j _
  rw [mkPoly_coeffs, evalPoly_tab]

/-- **C09**, naive variant: `lde_using_multiple_cosets_naive` is correct for every worker. -/
theorem C09_lde_naive (w : Worker) (p : Poly F .coefficients) (hp : p.Valid) (f : ℕ)
    (hS : p.exp + f ≤ StarkField.S F) (h32 : p.exp < 32) :
    Spec.LdeCorrect p (2 ^ f) 1 (p.ldeNaive w (2 ^ f)) := by
  obtain ⟨k, g, hk, rfl⟩ := hp.exists_mk
  simp only [mkPoly_exp] at h32 hS
  unfold Spec.LdeCorrect
  rw [mkPoly_size, ← pow_add, newForSize_pow hS, ldeNaive_mk w hS h32]
  refine ⟨_, _, rfl, rfl, rfl, ?_⟩
  apply evaluatesOn_tab
  intro j _
  rw [mkPoly_coeffs, evalPoly_tab, one_mul]

/-- **C10**, naive variant: `coset_lde_using_multiple_cosets_naive` is correct for every worker. -/
theorem C10_coset_lde_naive (w : Worker) (p : Poly F .coefficients) (hp : p.Valid) (f : ℕ)
    (hS : p.exp + f ≤ StarkField.S F) (h32 : p.exp < 32) :
    Spec.LdeCorrect p (2 ^ f) StarkField.mulGen (p.cosetLdeNaive w (2 ^ f)) := by
  obtain ⟨k, g, hk, rfl⟩ := hp.exists_mk
  simp only [mkPoly_exp] at h32 hS
  unfold Spec.LdeCorrect
  rw [mkPoly_size, ← pow_add, newForSize_pow hS, cosetLdeNaive_mk w hS h32]
  refine ⟨_, _, rfl, rfl, rfl, ?_⟩
  apply evaluatesOn_tab
  intro j _
  rw [mkPoly_coeffs, evalPoly_tab]

omit [DecidableEq F] in
theorem lde_wrong_aux (w : Worker) {k f : ℕ} (hk : k + f ≤ StarkField.S F) (hk1 : 1 ≤ k)
    (hc : 2 ≤ w.cpus) (hf : 2 * w.cpus ≤ 2 ^ f) {s : F} (hs : s ≠ 0)
    (h : Spec.EvaluatesOn (mkPoly .coefficients k (fun i => if i = 1 then (1 : F) else 0)).coeffs s
      (genOf F (k + f)) (2 ^ (k + f))
      (mkPoly .values (k + f) (fun idx => evalF (2 ^ k) (fun i => if i = 1 then (1 : F) else 0)
          (s * genOf F (k + f) ^ (ldeStart w (2 ^ f) (idx % 2 ^ f) + 2 ^ f * (idx / 2 ^ f))))).coeffs) :
    False := by
  have ev : ∀ x : F, evalF (2 ^ k) (fun i => if i = 1 then (1 : F) else 0) x = x := by
    intro x
    unfold evalF
    have : 1 < 2 ^ k := Nat.one_lt_two_pow (by omega)
    simp [this]
  set c := w.chunkSize (2 ^ f) with hcd
  have hc2 : 2 ≤ c := by
    rw [hcd]; unfold Worker.chunkSize
    rw [if_neg (by omega)]
    rw [Nat.le_div_iff_mul_le w.pos]; exact hf
  have hcf : c < 2 ^ f := by
    rw [hcd]; unfold Worker.chunkSize
    rw [if_neg (by omega)]
    exact Nat.div_lt_self (by positivity) (by omega)
  have hcl : c < 2 ^ (k + f) := by
    rw [pow_add]; nlinarith [Nat.one_le_two_pow (n := k)]
  have := h.2 c hcl
  rw [mkPoly_coeffs, getElem?_tab, if_pos hcl, mkPoly_coeffs, evalPoly_tab, ev, ev] at this
  have e : ldeStart w (2 ^ f) (c % 2 ^ f) + 2 ^ f * (c / 2 ^ f) = 1 := by
    unfold ldeStart
    rw [← hcd, Nat.mod_eq_of_lt hcf, Nat.div_eq_of_lt hcf, Nat.div_self (by omega), Nat.mod_self,
      Nat.mul_zero]
  rw [e] at this
  have h2 := mul_left_cancel₀ hs (Option.some.inj this)
  have := (genOf_prim hk).pow_inj (by omega) hcl h2
  omega

/-- **C09 is false in the remaining case**: with at least two CPUs and `factor ≥ 2·cpus`, `lde(factor)`
of the polynomial `X` (any vector size `≥ 2`) is not its evaluation on the extended domain. The call
still returns normally. -/
theorem C09_lde_wrong (w : Worker) (k f : ℕ) (hk : k + f ≤ StarkField.S F) (hk1 : 1 ≤ k) (h32 : k < 32)
    (hc : 2 ≤ w.cpus) (hf : 2 * w.cpus ≤ 2 ^ f) :
    ∃ p : Poly F .coefficients, p.Valid ∧ p.size = 2 ^ k ∧ (∃ q, p.lde w (2 ^ f) = .ok q) ∧
      ¬ Spec.LdeCorrect p (2 ^ f) 1 (p.lde w (2 ^ f)) := by
  refine ⟨mkPoly .coefficients k (fun i => if i = 1 then 1 else 0), valid_mkPoly _ (by omega) _,
    mkPoly_size _ _ _, ?_⟩
  unfold Poly.lde Poly.ldeUsingMultipleCosets
  rw [if_neg (by omega), multiCosetLde_mk w hk h32]
  refine ⟨⟨_, rfl⟩, ?_⟩
  unfold Spec.LdeCorrect
  rw [mkPoly_size, ← pow_add, newForSize_pow hk]
  rintro ⟨q, d, hq, hd, _, h⟩
  cases hq; cases hd
  exact lde_wrong_aux w hk hk1 hc hf one_ne_zero h

/-- **C10 is false in the remaining case** (as `C09_lde_wrong`). -/
theorem C10_coset_lde_wrong (w : Worker) (k f : ℕ) (hk : k + f ≤ StarkField.S F) (hk1 : 1 ≤ k)
    (h32 : k < 32) (hc : 2 ≤ w.cpus) (hf : 2 * w.cpus ≤ 2 ^ f) :
    ∃ p : Poly F .coefficients, p.Valid ∧ p.size = 2 ^ k ∧ (∃ q, p.cosetLde w (2 ^ f) = .ok q) ∧
      ¬ Spec.LdeCorrect p (2 ^ f) StarkField.mulGen (p.cosetLde w (2 ^ f)) := by
  refine ⟨mkPoly .coefficients k (fun i => if i = 1 then 1 else 0), valid_mkPoly _ (by omega) _,
    mkPoly_size _ _ _, ?_⟩
  unfold Poly.cosetLde Poly.cosetLdeUsingMultipleCosets
  rw [if_neg (by omega), multiCosetLde_mk w hk h32]
  refine ⟨⟨_, rfl⟩, ?_⟩
  unfold Spec.LdeCorrect
  rw [mkPoly_size, ← pow_add, newForSize_pow hk]
  rintro ⟨q, d, hq, hd, _, h⟩
  cases hq; cases hd
  exact lde_wrong_aux w hk hk1 hc hf StarkField.mulGen_ne_zero h

/-- Non-vacuity: in `Fr` with 2 CPUs, factor 2 is covered by the positive theorems, factor 4 by the
negative ones (`k = 1`, size 2). -/
example : (1 + 1 ≤ StarkField.S Fr ∧ 2 ^ 1 < 2 * 2) ∧ (1 + 2 ≤ StarkField.S Fr ∧ 2 * 2 ≤ 2 ^ 2) := by
  decide

/-- The wrong output, concretely: `X` on 2 CPUs with factor 4 repeats a point. -/
example : ∃ p : Poly Fr .coefficients, Poly.fromCoeffs [0, 1] = .ok p ∧
    ∃ q, p.lde ⟨2, by norm_num⟩ 4 = .ok q ∧ q.coeffs[1]? = q.coeffs[2]? :=
  ⟨_, rfl, _, rfl, by decide +kernel⟩

/-! ### from_roots -/

/-- `coeffs` are the coefficients of `∏ (X - r)` over the list `roots`, padded with zeros. -/
def Spec.IsRootProduct (roots : List F) (coeffs : List F) : Prop :=
  ∀ i, coeffs.getD i 0 = ((roots.map (fun r => X - C r)).prod).coeff i

/-- **C14 (partial).** `from_roots` builds `∏ (X - r)` when the roots split evenly over the worker's
chunks (in particular with one CPU, or when there are fewer roots than CPUs). Missing: uneven splits,
where the code can be wrong (`C14_from_roots_wrong`), and the empty list, which panics. -/
theorem C14_from_roots_partial (w : Worker) (roots : List F) (hne : roots ≠ [])
    (hS : roots.length < 2 ^ StarkField.S F) (h32 : roots.length < 2 ^ 31)
    (hdiv : w.chunkSize roots.length ∣ roots.length) :
    ∃ p, Poly.fromRoots w roots = .ok p ∧ p.Valid ∧ roots.length < p.size ∧
      Spec.IsRootProduct roots p.coeffs := by
  have hS' : Nat.clog 2 (roots.length + 1) ≤ StarkField.S F := (Nat.clog_le_iff_le_pow (by norm_num)).2 hS
  have h32' : Nat.clog 2 (roots.length + 1) ≤ 31 := (Nat.clog_le_iff_le_pow (by norm_num)).2 h32
  have hn : 0 < roots.length := List.length_pos_iff.2 hne
  have hlt : roots.length < 2 ^ Nat.clog 2 (roots.length + 1) :=
    lt_of_lt_of_le (Nat.lt_succ_self _) (Nat.le_pow_clog (by norm_num) _)
  refine ⟨_, fromRoots_ok w roots hne hS' (by omega) ?_, valid_mkPoly _ hS' _, ?_, ?_⟩
  · intro r hr
    obtain ⟨i, hi, rfl⟩ := mem_tab.1 hr
    have hc := w.chunkSize_pos roots.length
    have hil := numChunks_lt hc hi
    apply ldeOk_of_chunk w hn
    · simp only [List.length_take, List.length_drop]
      obtain ⟨t, ht⟩ := hdiv
      set c := w.chunkSize roots.length
      rw [ht] at hil ⊢
      have : i < t := by
        rw [Nat.mul_comm] at hil
        exact Nat.lt_of_mul_lt_mul_left hil
      have h2 : (i + 1) * c ≤ c * t := by rw [Nat.mul_comm c t]; exact Nat.mul_le_mul_right _ this
      rw [Nat.add_mul] at h2
      omega
    · simp only [List.length_take, List.length_drop]; omega
  · rw [mkPoly_size]; exact hlt
  · intro i
    rw [mkPoly_coeffs, List.getD, getElem?_tab]
    split
    · rfl
    · rename_i hi
      symm
      apply coeff_eq_zero_of_degree_lt
      refine lt_of_le_of_lt (prod_roots_degree roots) ?_
      have : roots.length < i := by omega
      exact_mod_cast this

omit [StarkField F] [DecidableEq F] in
/-- One CPU always splits evenly, and so do fewer roots than CPUs. -/
theorem C14_even_split (w : Worker) (n : ℕ) (h : w.cpus = 1 ∨ n < w.cpus) : w.chunkSize n ∣ n := by
  unfold Worker.chunkSize
  split
  · exact one_dvd _
  · rcases h with h | h
    · rw [h, Nat.div_one]
    · omega

/-- **C14 is false for uneven splits**: 7 roots on 2 CPUs (chunks 3, 3, 1) give a wrong polynomial. -/
theorem C14_from_roots_wrong : ∃ p, Poly.fromRoots (F := Fr) ⟨2, by norm_num⟩ [1, 2, 3, 4, 5, 6, 7] = .ok p ∧
    ¬ Spec.IsRootProduct [1, 2, 3, 4, 5, 6, 7] p.coeffs := by
  have h7 : ∃ p, Poly.fromRoots (F := Fr) ⟨2, by norm_num⟩ [1, 2, 3, 4, 5, 6, 7] = .ok p ∧
      p.coeffs.getD 0 0 ≠ ((-1) * (-2) * (-3) * (-4) * (-5) * (-6) * (-7) : Fr) :=
    ⟨_, rfl, by decide +kernel⟩
  obtain ⟨p, hp, hne⟩ := h7
  refine ⟨p, hp, fun h => hne ?_⟩
  rw [h 0]
  simp [coeff_zero_eq_eval_zero]
  ring

/-- The empty list of roots panics. -/
theorem C14_from_roots_empty (w : Worker) : Poly.fromRoots (F := F) w [] = .panic := by
  unfold Poly.fromRoots
  have : Nat.clog 2 ([] : List F).length.succ ≤ StarkField.S F := by simp
  have h0 : w.numSpawnedThreads 0 = 0 := by
    rw [numSpawnedThreads_eq]; unfold numChunks
    exact Nat.div_eq_of_lt (by have := w.chunkSize_pos 0; omega)
  rw [newForSize_eq, if_pos this]
  simp [h0, forEach]

/-- Non-vacuity of C14: 6 roots on 2 CPUs split evenly. -/
example : (Worker.mk 2 (by norm_num)).chunkSize 6 ∣ 6 ∧ 6 < 2 ^ StarkField.S Fr := by decide

end Hodor

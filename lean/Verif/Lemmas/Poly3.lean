import Verif.Lemmas.Poly2

namespace Hodor

open Finset Polynomial

variable {F : Type} [Field F]

/-! ### degree-one evaluation -/

theorem affineRunning_eq (alpha c g u : F) (n : ℕ) :
    Poly.affineRunning alpha c g u n = tab n (fun j => alpha * (u * g ^ j) + c) := by
  induction n generalizing u with
  | zero => rfl
  | succ n ih =>
    rw [Poly.affineRunning, ih, tab_succ']
    simp [pow_succ', mul_assoc]

theorem affine_par (w : Worker) (n : ℕ) (alpha c g s : F) :
    parChunks w (List.replicate n (0 : F)) (fun ch i v =>
      Poly.affineRunning alpha c g (g ^ (i * ch) * s) v.length)
      = tab n (fun i => alpha * (s * g ^ i) + c) := by
  rw [replicate_eq_tab]
  apply parChunks_tab
  intro ch i _ _ _
  rw [affineRunning_eq, length_tab]
  apply tab_congr
  intro j _
  rw [pow_add]; ring

section
variable [StarkField F] [DecidableEq F]

theorem evaluateAtDomainForDegreeOne_mk (w : Worker) (p : Poly F .coefficients) (c0 c1 : F)
    (hp : p.coeffs = [c0, c1]) {n : ℕ} (hn : Nat.clog 2 n ≤ StarkField.S F) :
    p.evaluateAtDomainForDegreeOne w n
      = .ok (mkPoly .values (Nat.clog 2 n) (fun i => c0 + c1 * genOf F (Nat.clog 2 n) ^ i)) := by
  unfold Poly.evaluateAtDomainForDegreeOne
  rw [hp, newForSize_eq, if_pos hn]
  have := affine_par w (2 ^ Nat.clog 2 n) c1 c0 (genOf F (Nat.clog 2 n)) 1
  simp only [mul_one] at this
  simp only [List.length_cons, List.length_nil, decide_true, Res.assert_true, Res.ok_bind, rd,
    List.getElem?_cons_succ, List.getElem?_cons_zero, Res.expect_some, this, zero_add, Nat.reduceAdd]
  rw [fromValues_pow hn]
  congr 1
  apply mkPoly_congr
  intro i _
  ring

theorem cosetEvaluateAtDomainForDegreeOne_mk (w : Worker) (p : Poly F .coefficients) (c0 c1 : F)
    (hp : p.coeffs = [c0, c1]) {n : ℕ} (hn : Nat.clog 2 n ≤ StarkField.S F) :
    p.cosetEvaluateAtDomainForDegreeOne w n
      = .ok (mkPoly .values (Nat.clog 2 n)
          (fun i => c0 + c1 * (StarkField.mulGen * genOf F (Nat.clog 2 n) ^ i))) := by
  unfold Poly.cosetEvaluateAtDomainForDegreeOne
  rw [hp, newForSize_eq, if_pos hn]
  simp only [List.length_cons, List.length_nil, decide_true, Res.assert_true, Res.ok_bind, rd,
    List.getElem?_cons_succ, List.getElem?_cons_zero, Res.expect_some, zero_add, Nat.reduceAdd,
    affine_par]
  rw [fromValues_pow hn]
  congr 1
  apply mkPoly_congr
  intro i _
  ring

/-! ### padding -/

theorem padTail_mk (P : Form) {k l : ℕ} (g : ℕ → F) (hl : l ≤ StarkField.S F) :
    (mkPoly P k g).padTail (2 ^ l)
      = (mkPoly P l (fun i => if i < 2 ^ k then g i else 0), .ok ()) := by
  unfold Poly.padTail
  simp only [newForSize_pow hl, inverse_of_ne (genOf_ne_zero hl), inverse_of_ne (pow2_cast_ne_zero hl),
    mkPoly_coeffs, resize_tab]
  rfl

/-! ### precomputed tables -/

omit [StarkField F] [DecidableEq F] in
theorem powersRunning_eq (g u : F) (n : ℕ) : powersRunning g u n = tab n (fun j => u * g ^ j) := by
  induction n generalizing u with
  | zero => rfl
  | succ n ih =>
    rw [powersRunning, ih, tab_succ']
    simp [pow_succ', mul_assoc]

omit [StarkField F] [DecidableEq F] in
theorem powers_par (w : Worker) (n : ℕ) (g : F) :
    parChunks w (List.replicate n (0 : F)) (fun ch i v => powersRunning g (g ^ (i * ch)) v.length)
      = tab n (fun i => g ^ i) := by
  rw [replicate_eq_tab]
  apply parChunks_tab
  intro ch i _ _ _
  rw [powersRunning_eq, length_tab]
  apply tab_congr
  intro j _
  rw [pow_add]

theorem newForDomain_eq (d : Domain F) (w : Worker) (h : d.generator ≠ 0) :
    PrecomputedOmegas.newForDomain d w = .ok
      { omegas := tab d.size (fun i => d.generator ^ i)
        coset := tab d.size (fun i => d.generator ^ i * StarkField.mulGen)
        omegasInv := tab (d.size / 2) (fun i => d.generator⁻¹ ^ i) } := by
  unfold PrecomputedOmegas.newForDomain
  simp only [inverse_of_ne h, Res.expect_some, Res.ok_bind, powers_par, parMap_tab, Res.pure_def]

end

/-! ### products of linear factors -/

/-- The polynomial of a coefficient list. -/
noncomputable def polyOfList (l : List F) : F[X] := polyOf l.length (fun i => l.getD i 0)

theorem polyOfList_coeff (l : List F) (i : ℕ) : (polyOfList l).coeff i = l.getD i 0 := by
  unfold polyOfList
  rw [polyOf_coeff]
  split
  · rfl
  · rename_i h
    simp only [List.getD]
    rw [List.getElem?_eq_none (by omega)]; rfl

theorem polyOfList_eval (l : List F) (x : F) : (polyOfList l).eval x = Spec.evalPoly l x := by
  unfold polyOfList Spec.evalPoly
  rw [polyOf_eval]; rfl

theorem mulRoot_tab (n : ℕ) (g : ℕ → F) (r : F) :
    Poly.mulRoot (tab (n + 1) g) r
      = tab (n + 2) (fun i => (if i = 0 then 0 else g (i - 1)) - (if i < n + 1 then g i else 0) * r) := by
  unfold Poly.mulRoot
  rw [length_tab, if_neg (by omega)]
  have : (0 :: tab (n + 1) g) = tab (n + 2) (fun i => if i = 0 then 0 else g (i - 1)) := by
    rw [tab_succ' (n + 1)]; simp
  rw [this, zipUpdate_tab]
  apply tab_congr
  intro i hi
  split <;> simp_all

/-- `mulRoot` multiplies by `X - r`. -/
theorem mulRoot_fold (roots : List F) (hne : roots ≠ []) :
    roots.foldl Poly.mulRoot []
      = tab (roots.length + 1) (fun i => ((roots.map (fun r => X - C r)).prod).coeff i) := by
  induction roots using List.reverseRecOn with
  | nil => exact absurd rfl hne
  | append_singleton l r ih =>
    rw [List.foldl_append]
    simp only [List.foldl_cons, List.foldl_nil, List.map_append, List.map_cons, List.map_nil,
      List.prod_append, List.prod_singleton, List.length_append, List.length_cons, List.length_nil]
    by_cases hl : l = []
    · subst hl
      rw [List.foldl_nil, tab_succ']
      simp [Poly.mulRoot, coeff_X, tab]
    · rw [ih hl, mulRoot_tab]
      apply tab_congr
      intro i hi
      have hdeg : ((l.map (fun r => X - C r)).prod).natDegree ≤ l.length := by
        refine le_trans (natDegree_list_prod_le _) ?_
        rw [List.map_map]
        refine le_trans (List.sum_le_card_nsmul _ 1 ?_) ?_
        · intro x hx
          obtain ⟨a, _, rfl⟩ := List.mem_map.1 hx
          simp
        · simp
      cases i with
      | zero => simp [mul_sub]
      | succ i =>
        rw [coeff_mul_X_sub_C]
        simp only [Nat.succ_ne_zero, if_false, Nat.add_sub_cancel]
        split
        · rfl
        · rename_i h
          rw [coeff_eq_zero_of_natDegree_lt (by omega : _ < i + 1)]

theorem prod_roots_degree (l : List F) : ((l.map (fun r => X - C r)).prod).degree ≤ ((l.length : ℕ) : WithBot ℕ) := by
  apply le_trans degree_le_natDegree
  have hdeg : ((l.map (fun r => X - C r)).prod).natDegree ≤ l.length := by
    refine le_trans (natDegree_list_prod_le _) ?_
    rw [List.map_map]
    refine le_trans (List.sum_le_card_nsmul _ 1 ?_) ?_
    · intro x hx
      obtain ⟨a, _, rfl⟩ := List.mem_map.1 hx
      simp
    · simp
  exact_mod_cast hdeg

theorem chunks_flatten {α : Type} {c : ℕ} (hc : 0 < c) (l : List α) : (chunks c l).flatten = l := by
  cases l with
  | nil =>
    have : numChunks 0 c = 0 := by unfold numChunks; rw [Nat.div_eq_of_lt (by omega)]
    simp [chunks, this]
  | cons a l =>
    obtain ⟨n, g, h⟩ : ∃ (n : ℕ) (g : ℕ → α), (a :: l) = tab n g := ⟨_, _, eq_tab_getD _ a⟩
    rw [h, chunks_tab]
    exact flatten_chunks_tab hc n g

section
variable [StarkField F] [DecidableEq F]

/-- The loop over the sub-products in `from_roots`. -/
theorem fromRoots_loop (w : Worker) (K : ℕ) (hK : K ≤ StarkField.S F) (h32 : K < 32)
    (parts : List (List F)) (hne : ∀ r ∈ parts, r ≠ [])
    (hlen : ∀ r ∈ parts, r.length + 1 ≤ 2 ^ K)
    (hok : ∀ r ∈ parts, LdeOk w (2 ^ (K - Nat.clog 2 (r.length + 1))))
    (acc : Option F[X]) :
    forEach (parts.map (fun r => r.foldl Poly.mulRoot []))
      (acc.map (fun q => mkPoly .values K (fun i => q.eval (genOf F K ^ i))))
      (Poly.fromRootsStep w (2 ^ K))
      = .ok ((if parts = [] then acc
          else some ((acc.getD 1) * (parts.flatten.map (fun r => X - C r)).prod)).map
            (fun q => mkPoly .values K (fun i => q.eval (genOf F K ^ i)))) := by
  induction parts generalizing acc with
  | nil => simp [forEach]
  | cons r parts ih =>
    rw [List.map_cons, forEach]
    unfold Poly.fromRootsStep
    rw [mulRoot_fold r (hne r (by simp)), length_tab, if_neg (by omega)]
    have hl := hlen r (by simp)
    have hk : Nat.clog 2 (r.length + 1) ≤ K := (Nat.clog_le_iff_le_pow (by norm_num)).2 hl
    have hdeg : ((r.map (fun r => X - C r)).prod).degree < ((2 ^ Nat.clog 2 (r.length + 1) : ℕ) : WithBot ℕ) := by
      refine lt_of_le_of_lt (prod_roots_degree r) ?_
      have : r.length < 2 ^ Nat.clog 2 (r.length + 1) :=
        lt_of_lt_of_le (Nat.lt_succ_self _) (Nat.le_pow_clog (by norm_num) _)
      exact_mod_cast this
    have e1 : Poly.fromCoeffs (tab (r.length + 1) (fun i => ((r.map (fun r => X - C r)).prod).coeff i))
        = .ok (mkPoly .coefficients (Nat.clog 2 (r.length + 1))
          ((r.map (fun r => X - C r)).prod).coeff) := by
      unfold Poly.fromCoeffs
      rw [ofVec_tab, if_pos (by omega)]
      congr 1
      apply mkPoly_congr
      intro i _
      split
      · rfl
      · rename_i h
        symm
        apply coeff_eq_zero_of_degree_lt
        refine lt_of_le_of_lt (prod_roots_degree r) ?_
        have : r.length < i := by omega
        exact_mod_cast this
    rw [e1]
    simp only [Res.ok_bind, mkPoly_size]
    rw [Nat.pow_div hk (by norm_num),
      lde_poly w (by omega) (by omega) (hok r (by simp)) hdeg]
    rw [show Nat.clog 2 (r.length + 1) + (K - Nat.clog 2 (r.length + 1)) = K by omega]
    simp only [Res.ok_bind]
    have ih' := ih (fun r hr => hne r (by simp [hr])) (fun r hr => hlen r (by simp [hr]))
      (fun r hr => hok r (by simp [hr])) (some ((acc.getD 1) * (r.map (fun r => X - C r)).prod))
    cases acc with
    | none =>
      simp only [Option.map_none, Res.pure_def, Res.ok_bind]
      simp only [Option.getD_none, one_mul, Option.map_some] at ih' ⊢
      refine Eq.trans ih' ?_
      simp only [reduceCtorEq, if_false, Option.getD_some, List.flatten_cons, List.map_append,
        List.prod_append]
      split
      · rename_i h; subst h; simp
      · rfl
    | some q =>
      simp only [Option.map_some, mulAssign_mk, Res.ok_bind, Res.pure_def]
      simp only [Option.map_some, Option.getD_some, eval_mul] at ih' ⊢
      refine Eq.trans ih' ?_
      simp only [reduceCtorEq, if_false, Option.getD_some, List.flatten_cons, List.map_append,
        List.prod_append]
      split
      · rename_i h; subst h; simp
      · rw [mul_assoc]

theorem fromRoots_ok (w : Worker) (roots : List F) (hne : roots ≠ [])
    (hS : Nat.clog 2 (roots.length + 1) ≤ StarkField.S F) (h32 : Nat.clog 2 (roots.length + 1) < 32)
    (hok : ∀ r ∈ chunks (w.chunkSize roots.length) roots,
      LdeOk w (2 ^ (Nat.clog 2 (roots.length + 1) - Nat.clog 2 (r.length + 1)))) :
    Poly.fromRoots w roots = .ok (mkPoly .coefficients (Nat.clog 2 (roots.length + 1))
      (fun i => ((roots.map (fun r => X - C r)).prod).coeff i)) := by
  have hc := w.chunkSize_pos roots.length
  unfold Poly.fromRoots
  rw [newForSize_eq, if_pos hS]
  simp only [Res.ok_bind]
  rw [numSpawnedThreads_eq]
  set c := w.chunkSize roots.length with hcdef
  set K := Nat.clog 2 (roots.length + 1)
  have e1 : (tab (numChunks roots.length c) fun i =>
      (((chunks c roots)[i]?).map (fun r => r.foldl Poly.mulRoot [])).getD []) = (chunks c roots).map (fun r => r.foldl Poly.mulRoot []) := by
    conv_rhs => unfold chunks
    rw [map_tab]
    apply tab_congr
    intro i hi
    unfold chunks
    rw [getElem?_tab, if_pos hi]
    rfl
  rw [e1]
  have hmem : ∀ r ∈ chunks c roots, r ≠ [] ∧ r.length ≤ roots.length := by
    intro r hr
    unfold chunks at hr
    obtain ⟨i, hi, rfl⟩ := mem_tab.1 hr
    have := numChunks_lt hc hi
    constructor
    · intro h
      have := congrArg List.length h
      simp only [List.length_take, List.length_drop, List.length_nil] at this
      omega
    · simp only [List.length_take, List.length_drop]; omega
  have hp := fromRoots_loop w K hS h32 (chunks c roots) (fun r hr => (hmem r hr).1)
    (fun r hr => le_trans (Nat.succ_le_succ (hmem r hr).2) (Nat.le_pow_clog (by norm_num) _)) hok none
  simp only [Option.map_none] at hp
  rw [hp]
  have hcne : chunks c roots ≠ [] := by
    intro h
    have := congrArg List.flatten h
    rw [chunks_flatten hc] at this
    exact hne this
  rw [if_neg hcne, chunks_flatten hc]
  simp only [Option.getD_none, one_mul, Option.map_some, Res.ok_bind, Res.expect_some]
  rw [ifft_poly w hS h32]
  refine lt_of_le_of_lt (prod_roots_degree roots) ?_
  have : roots.length < 2 ^ K :=
    lt_of_lt_of_le (Nat.lt_succ_self _) (Nat.le_pow_clog (by norm_num) _)
  exact_mod_cast this

omit [StarkField F] [DecidableEq F] in
/-- Full chunks always get an admissible LDE factor. -/
theorem ldeOk_of_chunk (w : Worker) {n m : ℕ} (hn : 0 < n) (hm : w.chunkSize n ≤ m) (hmn : m ≤ n) :
    LdeOk w (2 ^ (Nat.clog 2 (n + 1) - Nat.clog 2 (m + 1))) := by
  right
  have hk : Nat.clog 2 (m + 1) ≤ Nat.clog 2 (n + 1) := Nat.clog_mono_right 2 (by omega)
  rw [← Nat.pow_div hk (by norm_num), Nat.div_lt_iff_lt_mul (by positivity)]
  have h1 : 2 ^ Nat.clog 2 (n + 1) ≤ 2 * n := by
    have := Nat.pow_pred_clog_lt_self (b := 2) (by norm_num) (x := n + 1) (by omega)
    have hpos : 0 < Nat.clog 2 (n + 1) := Nat.clog_pos (by norm_num) (by omega)
    obtain ⟨t, ht⟩ : ∃ t, Nat.clog 2 (n + 1) = t + 1 := ⟨_, (Nat.succ_pred_eq_of_pos hpos).symm⟩
    rw [ht] at this ⊢
    simp only [Nat.pred_succ] at this
    rw [pow_succ]; omega
  have h2 : m + 1 ≤ 2 ^ Nat.clog 2 (m + 1) := Nat.le_pow_clog (by norm_num) _
  have h3 : n < w.cpus * (m + 1) := by
    unfold Worker.chunkSize at hm
    split at hm
    · nlinarith
    · have := Nat.lt_succ_of_le hm
      rw [Nat.div_lt_iff_lt_mul w.pos] at this
      rw [Nat.mul_comm]; exact this
  calc 2 ^ Nat.clog 2 (n + 1) ≤ 2 * n := h1
    _ < 2 * (w.cpus * (m + 1)) := by omega
    _ ≤ 2 * w.cpus * 2 ^ Nat.clog 2 (m + 1) := by
      rw [← Nat.mul_assoc]; exact Nat.mul_le_mul_left _ h2

end

end Hodor

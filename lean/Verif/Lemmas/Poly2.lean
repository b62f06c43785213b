import Verif.Lemmas.PolyAlg
import Verif.Model.Utils

namespace Hodor

open Finset Polynomial

variable {F : Type} [Field F]

theorem numSpawnedThreads_eq (w : Worker) (n : ℕ) :
    w.numSpawnedThreads n = numChunks n (w.chunkSize n) := by
  have hc := w.chunkSize_pos n
  unfold Worker.numSpawnedThreads
  by_cases h : n < w.cpus
  · rw [if_pos h]
    have : w.chunkSize n = 1 := by unfold Worker.chunkSize; rw [if_pos h]
    rw [this]; unfold numChunks; omega
  · rw [if_neg h]
    simp only
    generalize w.chunkSize n = c at hc
    unfold numChunks
    have h1 := Nat.div_add_mod n c
    have h2 := Nat.mod_lt n hc
    symm
    split
    · rename_i h3
      apply Nat.div_eq_of_lt_le
      · rw [Nat.add_mul, Nat.mul_comm]; omega
      · rw [Nat.add_mul, Nat.add_mul, Nat.mul_comm]; omega
    · rename_i h3
      push_neg at h3
      apply Nat.div_eq_of_lt_le
      · rw [Nat.mul_comm]; omega
      · rw [Nat.add_mul, Nat.mul_comm]; omega

theorem sum_tab (n : ℕ) (g : ℕ → F) : (tab n g).sum = ∑ i ∈ range n, g i := by
  induction n with
  | zero => simp
  | succ n ih => rw [tab_succ, List.sum_append, ih, sum_range_succ]; simp

theorem prod_tab (n : ℕ) (g : ℕ → F) : (tab n g).prod = ∏ i ∈ range n, g i := by
  induction n with
  | zero => simp
  | succ n ih => rw [tab_succ, List.prod_append, ih, prod_range_succ]; simp

theorem sum_flatten' (l : List (List F)) : l.flatten.sum = (l.map List.sum).sum := by
  induction l with
  | nil => simp
  | cons a l ih => simp [ih]

theorem prod_flatten' (l : List (List F)) : l.flatten.prod = (l.map List.prod).prod := by
  induction l with
  | nil => simp
  | cons a l ih => simp [ih]

theorem sum_chunks {c : ℕ} (hc : 0 < c) (n : ℕ) (f : ℕ → F) :
    ∑ i ∈ range (numChunks n c), ∑ j ∈ range (min c (n - i * c)), f (i * c + j)
      = ∑ t ∈ range n, f t := by
  rw [← sum_tab n, ← flatten_chunks_tab hc n f, sum_flatten', map_tab, sum_tab]
  apply sum_congr rfl
  intro i _
  rw [sum_tab]

theorem prod_chunks {c : ℕ} (hc : 0 < c) (n : ℕ) (f : ℕ → F) :
    ∏ i ∈ range (numChunks n c), ∏ j ∈ range (min c (n - i * c)), f (i * c + j)
      = ∏ t ∈ range n, f t := by
  rw [← prod_tab n, ← flatten_chunks_tab hc n f, prod_flatten', map_tab, prod_tab]
  apply prod_congr rfl
  intro i _
  rw [prod_tab]

theorem foldl_add_eq (l : List F) (s : F) : l.foldl (fun r v => r + v) s = s + l.sum := by
  induction l generalizing s with
  | nil => simp
  | cons a l ih => simp only [List.foldl_cons, ih, List.sum_cons, add_assoc]

theorem foldl_mul_eq (l : List F) (s : F) : l.foldl (fun r v => r * v) s = s * l.prod := by
  induction l generalizing s with
  | nil => simp
  | cons a l ih => simp only [List.foldl_cons, ih, List.prod_cons, mul_assoc]

/-! ### evaluate_at -/

theorem evalRunning_tab (g s x : F) (n : ℕ) (a : ℕ → F) :
    Poly.evalRunning g s x (tab n a) = s + ∑ j ∈ range n, x * g ^ j * a j := by
  induction n generalizing s x a with
  | zero => simp [Poly.evalRunning]
  | succ n ih =>
    rw [tab_succ', Poly.evalRunning, ih, sum_range_succ']
    simp only [pow_zero, mul_one, pow_succ]
    have : ∑ j ∈ range n, x * g * g ^ j * a (j + 1) = ∑ j ∈ range n, x * (g ^ j * g) * a (j + 1) := by
      apply sum_congr rfl; intro j _; ring
    rw [this]; ring

theorem evaluateAt_tab (w : Worker) (p : Poly F .coefficients) (n : ℕ) (a : ℕ → F)
    (hp : p.coeffs = tab n a) (x : F) : p.evaluateAt w x = evalF n a x := by
  unfold Poly.evaluateAt
  simp only [hp, length_tab]
  rw [numSpawnedThreads_eq, foldl_add_eq, zero_add, sum_tab]
  have hc := w.chunkSize_pos n
  generalize w.chunkSize n = c at hc
  unfold evalF
  rw [← sum_chunks hc n]
  apply sum_congr rfl
  intro i hi
  rw [chunks_tab, getElem?_tab, if_pos (mem_range.1 hi)]
  simp only
  rw [evalRunning_tab, zero_add]
  apply sum_congr rfl
  intro j _
  rw [pow_add]; ring

theorem evaluateAt_mk [StarkField F] (w : Worker) (k : ℕ) (g : ℕ → F) (x : F) :
    (mkPoly .coefficients k g).evaluateAt w x = evalF (2 ^ k) g x :=
  evaluateAt_tab w _ _ _ rfl x

theorem evaluateAt_poly [StarkField F] (w : Worker) (k : ℕ) {p : F[X]} (hp : p.degree < (2 ^ k : ℕ)) (x : F) :
    (mkPoly .coefficients k p.coeff).evaluateAt w x = p.eval x := by
  rw [evaluateAt_mk, evalF_coeff hp]

/-! ### evaluate_at_consequitive_powers -/

theorem accRunning_tab (b s x : F) (n : ℕ) (a : ℕ → F) :
    accRunning b s x (tab n a) = s + ∑ j ∈ range n, a j * (x * b ^ j) := by
  induction n generalizing s x a with
  | zero => simp [accRunning]
  | succ n ih =>
    rw [tab_succ', accRunning, ih, sum_range_succ']
    simp only [pow_zero, mul_one, pow_succ]
    have : ∑ j ∈ range n, a (j + 1) * (x * b * b ^ j) = ∑ j ∈ range n, a (j + 1) * (x * (b ^ j * b)) := by
      apply sum_congr rfl; intro j _; ring
    rw [this]; ring

theorem powerMessages_sum (w : Worker) (n : ℕ) (a : ℕ → F) (f b : F) :
    (powerMessages w (tab n a) f b).sum = ∑ i ∈ range n, a i * (f * b ^ i) := by
  unfold powerMessages
  simp only [length_tab]
  have hc := w.chunkSize_pos n
  generalize w.chunkSize n = c at hc
  rw [chunks_tab, mapIdx_tab, sum_tab, ← sum_chunks hc n]
  apply sum_congr rfl
  intro i _
  rw [accRunning_tab, zero_add]
  apply sum_congr rfl
  intro j _
  rw [pow_add]; ring

theorem sumReceived_perm {l l' : List F} (h : l.Perm l') : sumReceived l = sumReceived l' := by
  unfold sumReceived
  rw [foldl_add_eq, foldl_add_eq, h.sum_eq]

/-! ### batch inversion -/

theorem prefixProds_append (s : F) (l : List F) (x : F) :
    Poly.prefixProds s (l ++ [x])
      = ((Poly.prefixProds s l).1 ++ [(Poly.prefixProds s l).2 * x], (Poly.prefixProds s l).2 * x) := by
  induction l generalizing s with
  | nil => simp [Poly.prefixProds]
  | cons a l ih => simp [Poly.prefixProds, ih]

theorem prefixProds_snd (s : F) (l : List F) : (Poly.prefixProds s l).2 = s * l.prod := by
  induction l generalizing s with
  | nil => simp [Poly.prefixProds]
  | cons a l ih => simp [Poly.prefixProds, ih, mul_assoc]

theorem invBack_spec (l : List F) (h : ∀ x ∈ l, x ≠ 0) :
    (Poly.invBack l.prod⁻¹ l.reverse ((Poly.prefixProds 1 l).1.reverse.drop 1 ++ [1])).reverse
      = l.map (fun x => x⁻¹) := by
  induction l using List.reverseRecOn with
  | nil => simp [Poly.invBack]
  | append_singleton l x ih =>
    have hx : x ≠ 0 := h x (by simp)
    have hl : ∀ y ∈ l, y ≠ 0 := fun y hy => h y (by simp [hy])
    have hp : l.prod ≠ 0 := by
      rw [Ne, List.prod_eq_zero_iff]; intro h0; exact hl 0 h0 rfl
    rw [prefixProds_append]
    simp only [List.reverse_append, List.reverse_cons, List.reverse_nil, List.nil_append,
      List.singleton_append, List.drop_succ_cons, List.drop_zero, List.prod_append,
      List.prod_singleton, List.map_append, List.map_cons, List.map_nil]
    rcases List.eq_nil_or_concat' l with rfl | ⟨l', y, rfl⟩
    · simp [Poly.invBack, Poly.prefixProds]
    · have hy := ih hl
      rw [prefixProds_append] at hy ⊢
      simp only [List.reverse_append, List.reverse_cons, List.reverse_nil, List.nil_append,
        List.singleton_append, List.drop_succ_cons, List.drop_zero, List.cons_append] at hy ⊢
      rw [Poly.invBack]
      have e1 : (Poly.prefixProds 1 l').2 * y = (l' ++ [y]).prod := by
        rw [prefixProds_snd]; simp
      have e2 : (((l' ++ [y]).prod * x)⁻¹ * x) = (l' ++ [y]).prod⁻¹ := by
        field_simp
      have e3 : (l' ++ [y]).prod * ((l' ++ [y]).prod * x)⁻¹ = x⁻¹ := by
        field_simp
      rw [e1, e2, e3, List.reverse_cons, hy]

theorem foldl_skip (i : ℕ) (pi : F) (m : ℕ) (s : ℕ → F) (k : ℕ) (hk : k ≤ m) :
    (List.range k).foldl (fun tmp j =>
      if i = j then tmp else
        match (tab m s)[j]? with
        | some p => tmp * p
        | none => tmp) pi = pi * ∏ j ∈ range k, if i = j then 1 else s j := by
  induction k with
  | zero => simp
  | succ k ih =>
    rw [List.range_succ, List.foldl_append, ih (by omega), prod_range_succ]
    simp only [List.foldl_cons, List.foldl_nil, getElem?_tab, show k < m by omega, if_true]
    split
    · simp
    · rw [mul_assoc]

theorem subInverse_tab (pi : F) (m : ℕ) (s : ℕ → F) (i : ℕ) :
    Poly.subInverse pi (tab m s) i = pi * ∏ j ∈ range m, if i = j then 1 else s j := by
  unfold Poly.subInverse
  rw [length_tab]
  exact foldl_skip i pi m s m (le_refl _)

theorem prod_skip {m i : ℕ} (hi : i < m) (s : ℕ → F) :
    (∏ j ∈ range m, if i = j then 1 else s j) * s i = ∏ j ∈ range m, s j := by
  have h1 : (∏ j ∈ range m, if i = j then (1:F) else s j) * (∏ j ∈ range m, if i = j then s j else 1)
      = ∏ j ∈ range m, s j := by
    rw [← prod_mul_distrib]
    apply prod_congr rfl
    intro j _
    split <;> simp
  rw [← h1]
  congr 1
  rw [prod_ite_eq]
  simp [hi]

variable [DecidableEq F]

theorem batchInversion_tab (w : Worker) (p : Poly F .values) (n : ℕ) (a : ℕ → F)
    (hp : p.coeffs = tab n a) :
    p.batchInversion w = if ∃ i, i < n ∧ a i = 0 then .err .error
      else .ok { p with coeffs := tab n (fun i => (a i)⁻¹) } := by
  unfold Poly.batchInversion
  simp only [hp, length_tab]
  rw [numSpawnedThreads_eq]
  have hc := w.chunkSize_pos n
  generalize w.chunkSize n = c at hc
  rw [chunks_tab c n, mapIdx_tab]
  have e1 : (tab (numChunks n c) fun i =>
      if i < numChunks n c then
        Poly.prefixProds 1 (tab (min c (n - i * c)) fun j => a (i * c + j))
      else (List.replicate (tab (min c (n - i * c)) fun j => a (i * c + j)).length 1, 1))
      = tab (numChunks n c) (fun i => Poly.prefixProds 1 (tab (min c (n - i * c)) fun j => a (i * c + j))) := by
    apply tab_congr; intro i hi; rw [if_pos hi]
  rw [e1]
  have e2 : (tab (numChunks n c) fun i =>
      (((tab (numChunks n c) fun i =>
        Poly.prefixProds 1 (tab (min c (n - i * c)) fun j => a (i * c + j)))[i]?).map Prod.snd).getD 1)
      = tab (numChunks n c) (fun i => ∏ j ∈ range (min c (n - i * c)), a (i * c + j)) := by
    apply tab_congr; intro i hi
    rw [getElem?_tab, if_pos hi]
    simp only [Option.map_some, Option.getD_some]
    rw [prefixProds_snd, one_mul, prod_tab]
  rw [e2, foldl_mul_eq, one_mul, prod_tab, prod_chunks hc n]
  by_cases h0 : ∃ i, i < n ∧ a i = 0
  · rw [if_pos h0]
    obtain ⟨i, hi, h⟩ := h0
    rw [prod_eq_zero (mem_range.2 hi) h]
    simp
  · rw [if_neg h0]
    push_neg at h0
    have hne : ∏ t ∈ range n, a t ≠ 0 := by
      rw [prod_ne_zero_iff]; intro i hi; exact h0 i (mem_range.1 hi)
    rw [inverse_of_ne hne]
    simp only [Res.okOr_some, Res.ok_bind, Res.pure_def]
    congr 2
    rw [mapIdx_tab, ← flatten_chunks_tab hc n (fun i => (a i)⁻¹)]
    congr 1
    apply tab_congr
    intro i hi
    rw [getElem?_tab, if_pos hi, getElem?_tab, if_pos hi]
    simp only
    rw [subInverse_tab]
    have hnz : ∀ x ∈ tab (min c (n - i * c)) (fun j => a (i * c + j)), x ≠ 0 := by
      intro x hx
      obtain ⟨j, hj, rfl⟩ := mem_tab.1 hx
      exact h0 _ (by omega)
    have hsub : ∏ j ∈ range (min c (n - i * c)), a (i * c + j) ≠ 0 := by
      rw [prod_ne_zero_iff]; intro j hj
      have := mem_range.1 hj
      exact h0 _ (by omega)
    have e3 : (∏ t ∈ range n, a t)⁻¹ *
        (∏ j ∈ range (numChunks n c),
          if i = j then 1 else ∏ j_1 ∈ range (min c (n - j * c)), a (j * c + j_1))
        = (tab (min c (n - i * c)) (fun j => a (i * c + j))).prod⁻¹ := by
      rw [prod_tab]
      have := prod_skip hi (fun i => ∏ j ∈ range (min c (n - i * c)), a (i * c + j))
      rw [prod_chunks hc n] at this
      rw [← this] at hne ⊢
      have hA := left_ne_zero_of_mul hne
      field_simp
    rw [e3, invBack_spec _ hnz, map_tab]

theorem batchInversion_mk [StarkField F] (w : Worker) (k : ℕ) (a : ℕ → F) (h : ∀ i, i < 2 ^ k → a i ≠ 0) :
    (mkPoly .values k a).batchInversion w = .ok (mkPoly .values k (fun i => (a i)⁻¹)) := by
  rw [batchInversion_tab w _ _ a rfl, if_neg (by push_neg; exact h)]
  rfl

end Hodor

import Verif.Lemmas.Poly3

namespace Hodor

open Finset Polynomial

variable {F : Type} [Field F]

theorem addOther_tab (n : ℕ) (c o : ℕ → F) :
    addOther (tab n c) (tab n o) = .ok (tab n (fun i => c i + o i)) := by
  unfold addOther
  have key := forN_eq (f := fun t => tab n (fun i => if i < t then c i + o i else c i))
    (fun i cc => do
      let oo ← rd (tab n o) i
      let x ← rd cc i
      wr cc i (x + oo)) n 0 ?_
  · simp only [Nat.not_lt_zero, if_false, Nat.zero_add] at key
    rw [length_tab, key]
    congr 1
    apply tab_congr
    intro i hi
    rw [if_pos hi]
  · intro i _ hi
    have hi : i < n := by omega
    rw [rd_tab hi, Res.ok_bind, rd_tab hi, Res.ok_bind, wr_tab hi]
    congr 1
    apply tab_congr
    intro j _
    by_cases h : j = i
    · subst h; simp
    · by_cases h2 : j < i
      · simp [h, h2, show j < i + 1 by omega]
      · simp [h, h2, show ¬ j < i + 1 by omega]

theorem interpAdd_tab (n : ℕ) (co c : ℕ → F) (d y : F) :
    interpAdd (tab n co) (tab n c) d y = .ok (tab n (fun i => co i + c i * d * y)) := by
  unfold interpAdd
  have key := forN_eq (f := fun t => tab n (fun i => if i < t then co i + c i * d * y else co i))
    (fun i cc => do
      let t ← rd (tab n c) i
      let x ← rd cc i
      wr cc i (x + t * d * y)) n 0 ?_
  · simp only [Nat.not_lt_zero, if_false, Nat.zero_add] at key
    rw [length_tab, key]
    congr 1
    apply tab_congr
    intro i hi
    rw [if_pos hi]
  · intro i _ hi
    have hi : i < n := by omega
    rw [rd_tab hi, Res.ok_bind, rd_tab hi, Res.ok_bind, wr_tab hi]
    congr 1
    apply tab_congr
    intro j _
    by_cases h : j = i
    · subst h; simp
    · by_cases h2 : j < i
      · simp [h, h2, show j < i + 1 by omega]
      · simp [h, h2, show ¬ j < i + 1 by omega]

/-- Product of the linear factors `X - x_t`, `t < j`, `t ≠ k`. -/
noncomputable def otherFactors (x : ℕ → F) (k j : ℕ) : F[X] :=
  ∏ t ∈ (range j).filter (fun t => t ≠ k), (X - C (x t))

theorem otherFactors_succ_ne (x : ℕ → F) {k j : ℕ} (h : j ≠ k) :
    otherFactors x k (j + 1) = otherFactors x k j * (X - C (x j)) := by
  unfold otherFactors
  rw [range_add_one, filter_insert, if_pos h, prod_insert (by simp), mul_comm]

theorem otherFactors_succ_eq (x : ℕ → F) (k : ℕ) :
    otherFactors x k (k + 1) = otherFactors x k k := by
  unfold otherFactors
  rw [range_add_one, filter_insert, if_neg (by simp)]

theorem otherFactors_natDegree (x : ℕ → F) (k j : ℕ) :
    (otherFactors x k j).natDegree ≤ ((range j).filter (fun t => t ≠ k)).card := by
  unfold otherFactors
  rw [natDegree_prod_of_monic _ _ (fun i _ => monic_X_sub_C _)]
  simp

theorem card_others {k n : ℕ} (hk : k < n) : ((range n).filter (fun t => t ≠ k)).card = n - 1 := by
  rw [filter_ne', card_erase_of_mem (mem_range.2 hk), card_range]

theorem card_others_le {k j n : ℕ} (hk : k < n) (hj : j ≤ n) :
    ((range j).filter (fun t => t ≠ k)).card ≤ n - 1 := by
  rw [← card_others hk]
  apply card_le_card
  intro t ht
  simp only [mem_filter, mem_range] at ht ⊢
  exact ⟨by omega, ht.2⟩

variable [DecidableEq F]

/-- State of the inner loop before processing point `j`. -/
noncomputable def interpSt (n : ℕ) (x : ℕ → F) (k j : ℕ) : InterpState F :=
  if (range j).filter (fun t => t ≠ k) = ∅ then
    { contribution := tab n (fun _ => 0), denominator := 1, started := false }
  else
    { contribution := tab n (otherFactors x k j).coeff
      denominator := (otherFactors x k j).eval (x k)
      started := true }

theorem interpInner_step {n k j : ℕ} (hn : 2 ≤ n) (hk : k < n) (hj : j < n) (x y : ℕ → F) :
    interpInner n k (x k) (tab n (fun i => (x i, y i))) j (interpSt n x k j)
      = .ok (interpSt n x k (j + 1)) := by
  unfold interpInner
  rw [rd_tab hj, Res.ok_bind]
  by_cases hjk : j = k
  · subst hjk
    rw [if_pos rfl]
    unfold interpSt
    have e : (range (j + 1)).filter (fun t => t ≠ j) = (range j).filter (fun t => t ≠ j) := by
      rw [range_add_one, filter_insert, if_neg (by simp)]
    rw [e, otherFactors_succ_eq]
    rfl
  · rw [if_neg hjk]
    have hne : (range (j + 1)).filter (fun t => t ≠ k) ≠ ∅ := by
      rw [← nonempty_iff_ne_empty]
      exact ⟨j, by simp [hjk]⟩
    unfold interpSt
    rw [if_neg hne, otherFactors_succ_ne x hjk]
    by_cases he : (range j).filter (fun t => t ≠ k) = ∅
    · have h1 : otherFactors x k j = 1 := by unfold otherFactors; rw [he, prod_empty]
      simp only [if_pos he]
      rw [if_pos trivial, rd_tab (by omega), Res.ok_bind, wr_tab (by omega), Res.ok_bind,
        rd_tab (by omega), Res.ok_bind, wr_tab (by omega), Res.ok_bind, h1, one_mul]
      simp only [Res.pure_def]
      congr 2
      · apply tab_congr
        intro i _
        rcases i with _ | _ | i
        · simp
        · simp [coeff_X, coeff_C]
        · simp [coeff_X, coeff_C]
      · simp
    · simp only [if_neg he]
      rw [if_neg (by simp)]
      rw [map_tab, length_tab]
      simp only [decide_true, Res.assert_true, Res.ok_bind]
      have e0 : List.take n (0 :: tab n (otherFactors x k j).coeff)
          = tab n (fun i => if i = 0 then 0 else (otherFactors x k j).coeff (i - 1)) := by
        have : (0 :: tab n (otherFactors x k j).coeff)
            = tab (n + 1) (fun i => if i = 0 then 0 else (otherFactors x k j).coeff (i - 1)) := by
          rw [tab_succ']; simp
        rw [this, take_tab]
        congr 1
        omega
      rw [e0, addOther_tab]
      simp only [Res.ok_bind, Res.pure_def]
      congr 2
      · apply tab_congr
        intro i _
        cases i with
        | zero => simp [mul_sub]
        | succ i =>
          rw [coeff_mul_X_sub_C]
          simp [sub_eq_add_neg]
      · simp

theorem interpInner_loop {n k : ℕ} (hn : 2 ≤ n) (hk : k < n) (x y : ℕ → F) :
    forN n 0 { contribution := List.replicate n (0 : F), denominator := 1, started := false }
      (interpInner n k (x k) (tab n (fun i => (x i, y i))))
      = .ok { contribution := tab n (otherFactors x k n).coeff
              denominator := (otherFactors x k n).eval (x k)
              started := true } := by
  have key := forN_eq (f := fun j => interpSt n x k j)
    (interpInner n k (x k) (tab n (fun i => (x i, y i)))) n 0
    (fun j _ hj => interpInner_step hn hk (by omega) x y)
  have e0 : interpSt n x k 0
      = { contribution := List.replicate n (0 : F), denominator := 1, started := false } := by
    unfold interpSt
    rw [if_pos (by simp), replicate_eq_tab]
  rw [e0, Nat.zero_add] at key
  rw [key]
  unfold interpSt
  rw [if_neg]
  intro h
  have := congrArg card h
  rw [card_others hk, card_empty] at this
  omega

theorem otherFactors_eval_self (x : ℕ → F) (k n : ℕ) :
    (otherFactors x k n).eval (x k) = ∏ t ∈ (range n).filter (fun t => t ≠ k), (x k - x t) := by
  unfold otherFactors
  rw [eval_prod]
  simp

theorem interpolate_tab {n : ℕ} (hn : 2 ≤ n) (x y : ℕ → F)
    (hx : ∀ i j, i < n → j < n → x i = x j → i = j) :
    interpolate (tab n (fun i => (x i, y i)))
      = .ok (tab n (fun i => ∑ k ∈ range n, (otherFactors x k n).coeff i
          * ((otherFactors x k n).eval (x k))⁻¹ * y k)) := by
  unfold interpolate
  rw [length_tab]
  simp only [hn, decide_true, Res.assert_true, Res.ok_bind]
  have key := forN_eq (f := fun m => tab n (fun i => ∑ k ∈ range m, (otherFactors x k n).coeff i
          * ((otherFactors x k n).eval (x k))⁻¹ * y k))
    (interpOuter n (tab n (fun i => (x i, y i)))) n 0 ?_
  · simp only [range_zero, sum_empty, Nat.zero_add] at key
    rw [replicate_eq_tab, key]
  · intro k _ hk
    have hk : k < n := by omega
    unfold interpOuter
    rw [rd_tab hk, Res.ok_bind, interpInner_loop hn hk]
    have hne : (otherFactors x k n).eval (x k) ≠ 0 := by
      rw [otherFactors_eval_self, prod_ne_zero_iff]
      intro t ht
      simp only [mem_filter, mem_range] at ht
      rw [sub_ne_zero]
      intro e
      exact ht.2 (hx k t hk ht.1 e).symm
    rw [Res.ok_bind, inverse_of_ne hne, Res.expect_some, Res.ok_bind, interpAdd_tab]
    congr 1
    apply tab_congr
    intro i _
    rw [sum_range_succ]

theorem otherFactors_eval_other (x : ℕ → F) {k j n : ℕ} (hj : j < n) (h : j ≠ k) :
    (otherFactors x k n).eval (x j) = 0 := by
  unfold otherFactors
  rw [eval_prod]
  apply prod_eq_zero (i := j)
  · simp [hj, h]
  · simp

theorem interpolate_eval {n : ℕ} (x y : ℕ → F)
    (hx : ∀ i j, i < n → j < n → x i = x j → i = j) {m : ℕ} (hm : m < n) :
    evalF n (fun i => ∑ k ∈ range n, (otherFactors x k n).coeff i
          * ((otherFactors x k n).eval (x k))⁻¹ * y k) (x m) = y m := by
  unfold evalF
  simp only [sum_mul]
  rw [sum_comm]
  have : ∀ k ∈ range n, ∑ i ∈ range n, (otherFactors x k n).coeff i
      * ((otherFactors x k n).eval (x k))⁻¹ * y k * x m ^ i = if k = m then y m else 0 := by
    intro k hk
    have hk := mem_range.1 hk
    have e : ∑ i ∈ range n, (otherFactors x k n).coeff i
        * ((otherFactors x k n).eval (x k))⁻¹ * y k * x m ^ i
        = (∑ i ∈ range n, (otherFactors x k n).coeff i * x m ^ i)
          * ((otherFactors x k n).eval (x k))⁻¹ * y k := by
      rw [sum_mul, sum_mul]
      apply sum_congr rfl
      intro i _
      ring
    have hdeg : (otherFactors x k n).degree < n := by
      refine lt_of_le_of_lt degree_le_natDegree ?_
      have := otherFactors_natDegree x k n
      rw [card_others hk] at this
      have : (otherFactors x k n).natDegree < n := by omega
      exact_mod_cast this
    have e2 := evalF_coeff hdeg (x m)
    unfold evalF at e2
    rw [e, e2]
    split
    · rename_i h
      subst h
      have hne : (otherFactors x k n).eval (x k) ≠ 0 := by
        rw [otherFactors_eval_self, prod_ne_zero_iff]
        intro t ht
        simp only [mem_filter, mem_range] at ht
        rw [sub_ne_zero]
        intro e
        exact ht.2 (hx k t hk ht.1 e).symm
      rw [mul_inv_cancel₀ hne, one_mul]
    · rename_i h
      rw [otherFactors_eval_other x hm (Ne.symm h)]
      simp
  rw [sum_congr rfl this]
  simp [hm]

theorem interpolate_panic {n : ℕ} (x y : ℕ → F) (hn : 2 ≤ n) {i j : ℕ} (hi : i < n) (hj : j < n) (hij : i ≠ j)
    (h : x i = x j) : interpolate (tab n (fun i => (x i, y i))) = .panic := by
  unfold interpolate
  rw [length_tab]
  simp only [hn, decide_true, Res.assert_true, Res.ok_bind]
  set body := interpOuter n (tab n (fun i => (x i, y i))) with hbody
  -- either a step panics or it continues with a table
  have step : ∀ k, k < n → ∀ c : ℕ → F, (body k (tab n c) = .panic) ∨
      ((otherFactors x k n).eval (x k) ≠ 0 ∧ ∃ c', body k (tab n c) = .ok (tab n c')) := by
    intro k hk c
    rw [hbody]
    unfold interpOuter
    rw [rd_tab hk, Res.ok_bind, interpInner_loop hn hk, Res.ok_bind]
    by_cases h0 : (otherFactors x k n).eval (x k) = 0
    · left; simp [h0]
    · right
      refine ⟨h0, ?_⟩
      rw [inverse_of_ne h0, Res.expect_some, Res.ok_bind, interpAdd_tab]
      exact ⟨_, rfl⟩
  have hi0 : (otherFactors x i n).eval (x i) = 0 := by
    rw [h]; exact otherFactors_eval_other x hj (Ne.symm hij)
  have main : ∀ m lo, lo ≤ i → i < lo + m → lo + m ≤ n → ∀ c : ℕ → F, forN m lo (tab n c) body = .panic := by
    intro m
    induction m with
    | zero => intro lo h1 h2; omega
    | succ m ih =>
      intro lo h1 h2 h3 c
      rw [forN]
      rcases step lo (by omega) c with hp | ⟨hne, c', hc'⟩
      · rw [hp]; rfl
      · rw [hc', Res.ok_bind]
        have : lo ≠ i := by rintro rfl; exact hne hi0
        exact ih (lo + 1) (by omega) (by omega) (by omega) c'
  rw [replicate_eq_tab]
  exact main n 0 (by omega) (by omega) (by omega) _

end Hodor

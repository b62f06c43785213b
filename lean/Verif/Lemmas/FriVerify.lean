import Verif.Lemmas.Fri

/-! # Closed forms of the FRI verifiers on honest input -/

namespace Hodor

open Polynomial

variable {F : Type} [Field F] [DecidableEq F] [StarkField F] (H : List UInt8 → Digest)

theorem mod_half {m j : ℕ} (hj : j < 2 ^ (m + 1)) :
    j % 2 ^ m = if j < 2 ^ m then j else j - 2 ^ m := by
  have hp1 : 2 ^ (m + 1) = 2 * 2 ^ m := by ring
  split
  · exact Nat.mod_eq_of_lt ‹_›
  · rw [Nat.mod_eq_sub_mod (by omega), Nat.mod_eq_of_lt (by omega)]

theorem coset_eq {m j : ℕ} (hj : j < 2 ^ (m + 1)) :
    cosetForNaturalIndex j (2 ^ (m + 1)) = .ok [j % 2 ^ m, j % 2 ^ m + 2 ^ m] := by
  have hp1 : 2 ^ (m + 1) = 2 * 2 ^ m := by ring
  have hp : 0 < 2 ^ m := by positivity
  unfold cosetForNaturalIndex sortPair
  simp only [hj, decide_true, Res.assert_true, Res.ok_bind, Res.pure_def]
  have d : 2 ^ (m + 1) / 2 = 2 ^ m := by omega
  rw [d, mod_half hj]
  by_cases h : j < 2 ^ m
  · rw [if_pos h, Nat.mod_eq_of_lt (show j + 2 ^ m < 2 ^ (m + 1) by omega), if_pos (by omega)]
  · have e : (j + 2 ^ m) % 2 ^ (m + 1) = j - 2 ^ m := by
      rw [Nat.mod_eq_sub_mod (by omega), Nat.mod_eq_of_lt (by omega)]; omega
    have e2 : j - 2 ^ m + 2 ^ m = j := by omega
    rw [if_neg h, e, if_neg (by omega), e2]

theorem nextDomain_eq {m j : ℕ} (hj : j < 2 ^ (m + 1)) :
    indexAndSizeForNextDomain j (2 ^ (m + 1)) = .ok (j % 2 ^ m, 2 ^ m) := by
  have hp1 : 2 ^ (m + 1) = 2 * 2 ^ m := by ring
  have hp : 0 < 2 ^ m := by positivity
  unfold indexAndSizeForNextDomain
  have d : 2 ^ (m + 1) / 2 = 2 ^ m := by omega
  have h1 : 1 < 2 ^ (m + 1) := by omega
  simp only [h1, isPow2_pow, decide_true, Res.assert_true, Res.ok_bind, Res.pure_def, d]
  rw [mod_half hj]

omit [DecidableEq F] [StarkField F] in
theorem evalFinal_eq (x acc pw : F) (l : List F) : evalFinal x acc pw l = acc + pw * Spec.evalPoly l x := by
  induction l generalizing acc pw with
  | nil => simp [evalFinal, Spec.evalPoly]
  | cons c l ih =>
    rw [evalFinal, ih]
    unfold Spec.evalPoly
    rw [List.length_cons, Finset.sum_range_succ']
    simp only [List.getD_cons_succ, List.getD_cons_zero, pow_zero, mul_one, pow_succ]
    have : ∑ i ∈ Finset.range l.length, l.getD i 0 * (x ^ i * x)
        = x * ∑ i ∈ Finset.range l.length, l.getD i 0 * x ^ i := by
      rw [Finset.mul_sum]; apply Finset.sum_congr rfl; intro i _; ring
    rw [this]; ring

omit [DecidableEq F] [StarkField F] in
theorem evalPoly_coeff {n : ℕ} {p : F[X]} (hp : p.degree < n) (x : F) :
    Spec.evalPoly (tab n p.coeff) x = p.eval x := by
  rw [evalPoly_tab, evalF_coeff hp]

/-- Index of the query at layer `i`. -/
def friIdx (n idx i : ℕ) : ℕ := idx % 2 ^ (n - i)

/-- Verifier state before round `i` on honest input. -/
noncomputable def vstate (n : ℕ) (p : F[X]) (idx i : ℕ) : FriVState F :=
  { expected := if i = 0 then none else some (friVals (n - i) (friLayer H n p i) (friIdx n idx i))
    domainSize := 2 ^ (n - i)
    domainIdx := friIdx n idx i
    omega := genOf F (n - i)
    omegaInv := (genOf F (n - i))⁻¹ }

theorem friIdx_lt (n idx i : ℕ) : friIdx n idx i < 2 ^ (n - i) := Nat.mod_lt _ (by positivity)

theorem friIdx_succ {n idx i m : ℕ} (hm : n - i = m + 1) : friIdx n idx i % 2 ^ m = friIdx n idx (i + 1) := by
  unfold friIdx
  have : n - (i + 1) = m := by omega
  rw [this, hm, Nat.mod_mod_of_dvd]
  exact pow_dvd_pow 2 (by omega)

theorem friAdvance_vstate {n : ℕ} (hn : n ≤ StarkField.S F) (p : F[X]) (idx : ℕ) {i : ℕ} (hi : i < n) :
    friAdvance (vstate H n p idx i) (friVals (n - (i + 1)) (friLayer H n p (i + 1)) (friIdx n idx (i + 1)))
      = .ok (vstate H n p idx (i + 1)) := by
  obtain ⟨m, hm⟩ : ∃ m, n - i = m + 1 := ⟨n - i - 1, by omega⟩
  have hm' : n - (i + 1) = m := by omega
  have hlt := friIdx_lt n idx i
  rw [hm] at hlt
  unfold friAdvance vstate
  simp only [hm]
  rw [nextDomain_eq hlt, friIdx_succ hm]
  simp only [Res.ok_bind, Res.pure_def, hm']
  rw [← genOf_sq (show m + 1 ≤ StarkField.S F by omega), if_neg (by omega)]
  congr 2 <;> rw [pow_two]
  rw [mul_inv]

theorem friStart_gen {n d f : ℕ} (hn : n ≤ StarkField.S F) (hd : Nat.clog 2 (d * f) = n) (hn1 : 1 ≤ n) (idx : ℕ) :
    (friStart d f idx : Res (F × FriVState F)) =
      if idx % 2 = 1 then .ok ((2 : F)⁻¹,
        { expected := none, domainSize := 2 ^ n, domainIdx := idx, omega := genOf F n, omegaInv := (genOf F n)⁻¹ })
      else .err .invalidValue := by
  unfold friStart
  have h2 : (1 + 1 : F) = 2 := by norm_num
  simp only [h2, inverse_of_ne (two_ne_zero_of_S (F := F) (by omega)), Res.okOr_some, Res.ok_bind]
  rw [newForSize_eq, hd, if_pos hn]
  simp only [Res.ok_bind]
  obtain ⟨m, rfl⟩ : ∃ m, n = m + 1 := ⟨n - 1, by omega⟩
  have hd : 2 ^ (m + 1) / 2 = 2 ^ m := by rw [pow_succ]; omega
  have e1 : (genOf F (m + 1) ^ idx) ^ 2 ^ (m + 1) = 1 := by
    rw [← pow_mul, mul_comm, pow_mul, genOf_pow_card hn, one_pow]
  have e2 : (genOf F (m + 1) ^ idx) ^ 2 ^ m = (-1) ^ idx := by
    have := genOf_halfNeg (F := F) hn (by omega)
    simp only [Nat.add_sub_cancel] at this
    rw [← pow_mul, mul_comm, pow_mul, this]
  have h11 : (-1 : F) ≠ 1 := by
    intro h
    apply two_ne_zero_of_S (F := F) (by omega)
    linear_combination (-1 : F) * h
  rw [hd, e1, e2]
  simp only [ne_eq, not_true_eq_false, if_false, inverse_of_ne (genOf_ne_zero hn), Res.okOr_some, Res.ok_bind,
    Res.pure_def]
  rcases Nat.mod_two_eq_zero_or_one idx with h | h
  · have : (-1 : F) ^ idx = 1 := (Nat.even_iff.2 h).neg_one_pow
    rw [this, if_pos rfl, if_neg (by omega)]
  · have : (-1 : F) ^ idx = -1 := (Nat.odd_iff.2 h).neg_one_pow
    rw [this, if_neg h11, if_pos h]

theorem friStart_eq' {n d f : ℕ} (hn : n ≤ StarkField.S F) (hd : Nat.clog 2 (d * f) = n) (hn1 : 1 ≤ n) (p : F[X]) {idx : ℕ}
    (hidx : idx < 2 ^ n) :
    (friStart d f idx : Res (F × FriVState F)) =
      if idx % 2 = 1 then .ok ((2 : F)⁻¹, vstate H n p idx 0) else .err .invalidValue := by
  rw [friStart_gen hn hd hn1]
  unfold vstate friIdx
  simp [Nat.mod_eq_of_lt hidx]

theorem friStart_eq {n f : ℕ} (hn : n ≤ StarkField.S F) (hf : f ≤ n) (hn1 : 1 ≤ n) (p : F[X]) {idx : ℕ}
    (hidx : idx < 2 ^ n) :
    (friStart (2 ^ (n - f)) (2 ^ f) idx : Res (F × FriVState F)) =
      if idx % 2 = 1 then .ok ((2 : F)⁻¹, vstate H n p idx 0) else .err .invalidValue := by
  apply friStart_eq' H hn _ hn1 p hidx
  rw [← pow_add, Nat.clog_pow _ _ (by norm_num)]; omega

/-- Value of layer `i` at both points of the coset of the query, folded. -/
theorem fold_coset {n : ℕ} (hn : n ≤ StarkField.S F) (p : F[X]) {idx i m : ℕ} (hm : n - i = m + 1) :
    friFold (friVals (m + 1) (friLayer H n p i) (friIdx n idx (i + 1)))
      (friVals (m + 1) (friLayer H n p i) (friIdx n idx (i + 1) + 2 ^ m))
      ((genOf F (m + 1))⁻¹ ^ friIdx n idx (i + 1)) (friBeta H n p i) (2 : F)⁻¹
    = friVals m (friLayer H n p (i + 1)) (friIdx n idx (i + 1)) := by
  rw [friFold_domain (by omega), friLayer_succ]

theorem index_in_coset {m j : ℕ} (hj : j < 2 ^ (m + 1)) : j = j % 2 ^ m ∨ j = j % 2 ^ m + 2 ^ m := by
  have hp1 : 2 ^ (m + 1) = 2 * 2 ^ m := by ring
  rw [mod_half hj]; split <;> omega

theorem prototypeConsistent_honest (p : F[X]) (n idx : ℕ) {i m : ℕ} (hm : n - i = m + 1) :
    prototypeConsistent (tab (2 ^ (m + 1)) (friVals (m + 1) (friLayer H n p i)))
      [friIdx n idx (i + 1), friIdx n idx (i + 1) + 2 ^ m] (vstate H n p idx i) = .ok true := by
  unfold prototypeConsistent vstate
  simp only [hm]
  by_cases h0 : i = 0
  · rw [if_pos h0]
  · rw [if_neg h0]
    have hlt := friIdx_lt n idx i
    rw [hm] at hlt
    have hc := index_in_coset hlt
    rw [friIdx_succ hm] at hc
    have : [friIdx n idx (i + 1), friIdx n idx (i + 1) + 2 ^ m].contains (friIdx n idx i) = true := by
      simpa using hc
    simp only [this, not_true_eq_false, if_false]
    rw [rd_tab hlt]
    simp

theorem prototypeRounds_honest {n k : ℕ} (hn : n ≤ StarkField.S F) (hk : k ≤ n) (fin : List F) (p : F[X]) (idx : ℕ) :
    ∀ r i, i + r = k →
    prototypeRounds (2 : F)⁻¹ fin (tab r (fun t => (friPoly H n p (i + t), friBeta H n p (i + t)))) (vstate H n p idx i)
      = friFinish fin (vstate H n p idx k) := by
  intro r
  induction r with
  | zero => intro i hi; rw [tab_zero, prototypeRounds]; simp at hi; rw [hi]
  | succ r ih =>
    intro i hi
    rw [tab_succ', prototypeRounds]
    obtain ⟨m, hm⟩ : ∃ m, n - i = m + 1 := ⟨n - i - 1, by omega⟩
    have hm' : n - (i + 1) = m := by omega
    have hlt := friIdx_lt n idx i
    rw [hm] at hlt
    have hlt' := friIdx_lt n idx (i + 1)
    rw [hm'] at hlt'
    have hp1 : 2 ^ (m + 1) = 2 * 2 ^ m := by ring
    have hp : 0 < 2 ^ m := by positivity
    have hv : (vstate H n p idx i).domainIdx = friIdx n idx i := rfl
    have hs : (vstate H n p idx i).domainSize = 2 ^ (m + 1) := by simp [vstate, hm]
    have ho : (vstate H n p idx i).omegaInv = (genOf F (m + 1))⁻¹ := by simp [vstate, hm]
    rw [hv, hs, coset_eq hlt, friIdx_succ hm]
    have hvals : (friPoly H n p (i + 0)).coeffs = tab (2 ^ (m + 1)) (friVals (m + 1) (friLayer H n p i)) := by
      simp only [friPoly, Nat.add_zero, hm, mkPoly_coeffs]
    simp only [Res.ok_bind, hvals]
    rw [prototypeConsistent_honest H p n idx hm]
    have r0 : rd [friIdx n idx (i + 1), friIdx n idx (i + 1) + 2 ^ m] 0 = .ok (friIdx n idx (i + 1)) := rfl
    have r1 : rd [friIdx n idx (i + 1), friIdx n idx (i + 1) + 2 ^ m] 1 = .ok (friIdx n idx (i + 1) + 2 ^ m) := rfl
    simp only [List.length_cons, List.length_nil, r0, r1, Res.ok_bind]
    rw [rd_tab (by omega), rd_tab (by omega)]
    simp only [Nat.zero_add, Nat.reduceAdd, decide_true, Res.assert_true, Res.ok_bind,
      show friIdx n idx (i + 1) < friIdx n idx (i + 1) + 2 ^ m by omega, ho, Nat.add_zero,
      Bool.true_eq_false, if_false]
    rw [fold_coset H hn p hm]
    have := friAdvance_vstate H hn p idx (i := i) (by omega)
    rw [hm'] at this
    rw [this]
    simp only [Res.ok_bind]
    have := ih (i + 1) (by omega)
    have e : ∀ t, i + 1 + t = i + (t + 1) := by intro t; omega
    simp only [e] at this
    exact this

omit [DecidableEq F] [StarkField F] in
theorem zip_tab {α β : Type} (m n : ℕ) (g : ℕ → α) (h : ℕ → β) :
    (tab m g).zip (tab n h) = tab (min m n) (fun i => (g i, h i)) := by
  rw [List.zip, zipWith_tab]

theorem friFinish_vstate {n k : ℕ} (hk : 0 < k) (p : F[X]) (idx : ℕ) (fin : List F) :
    friFinish fin (vstate H n p idx k)
      = .ok (decide (Spec.evalPoly fin (genOf F (n - k) ^ friIdx n idx k)
          = (friLayer H n p k).eval (genOf F (n - k) ^ friIdx n idx k))) := by
  unfold friFinish vstate
  simp only [evalFinal_eq]
  rw [if_neg (by omega)]
  simp [friVals]

theorem verifyPrototype_honest {n f o : ℕ} (hn : n ≤ StarkField.S F) (hfo : f + o < n)
    {p : F[X]} {idx : ℕ} (hidx : idx < 2 ^ n) :
    (honestPrototype H n f o p).verify (mkPoly .values n (friVals n p)) idx =
      if idx % 2 = 1 then
        .ok (decide (Spec.evalPoly (tab (2 ^ o) (friLayer H n p (n - f - o)).coeff) (genOf F (f + o) ^ (idx % 2 ^ (f + o)))
          = (friLayer H n p (n - f - o)).eval (genOf F (f + o) ^ (idx % 2 ^ (f + o)))))
      else .err .invalidValue := by
  unfold FriPrototype.verify honestPrototype
  simp only
  rw [friStart_eq H hn (by omega) (by omega) p hidx]
  split
  · simp only [Res.ok_bind]
    have e : mkPoly .values n (friVals n p) :: tab (n - f - o) (fun t => friPoly H n p (t + 1))
        = tab (n - f - o + 1) (fun t => friPoly H n p t) := by
      rw [tab_succ']; rfl
    rw [e, zip_tab, min_eq_right (by omega)]
    have := prototypeRounds_honest H (k := n - f - o) hn (by omega) (tab (2 ^ o) (friLayer H n p (n - f - o)).coeff) p idx
      (n - f - o) 0 (by omega)
    simp only [Nat.zero_add] at this
    rw [this, friFinish_vstate H (by omega)]
    unfold friIdx
    have hm : n - (n - f - o) = f + o := by omega
    rw [hm]
  · rfl

/-! ### Proofs -/

/-- The honest opening of layer `i` at position `j`. -/
noncomputable def friQuery (n : ℕ) (p : F[X]) (i j : ℕ) : IopQuery F :=
  { index := j, value := friVals (n - i) (friLayer H n p i) j,
    path := honestPath H (fun t => H (encodeLeaf (friVals (n - i) (friLayer H n p i) t))) (n - i) j }

/-- Openings of the honest proof: two per layer. -/
noncomputable def friQueryAt (n : ℕ) (p : F[X]) (idx t : ℕ) : IopQuery F :=
  friQuery H n p (t / 2) (friIdx n idx (t / 2 + 1) + (t % 2) * 2 ^ (n - (t / 2 + 1)))

/-- The honest proof. -/
noncomputable def honestProof (n f o : ℕ) (p : F[X]) (idx : ℕ) : FriProof F :=
  let k := n - f - o
  { queries := tab (2 * (k + 1)) (friQueryAt H n p idx)
    roots := tab (k + 1) (friRoot H n p)
    finalCoefficients := tab (2 ^ o) (friLayer H n p k).coeff
    initialDegreePlusOne := 2 ^ (n - f)
    outputCoeffsAtDegreePlusOne := 2 ^ o
    ldeFactor := 2 ^ f }

theorem friTree_query (n : ℕ) (p : F[X]) {i j : ℕ} (hi : i < n) (hj : j < 2 ^ (n - i)) :
    (friTree H n p i).query H j (friPoly H n p i).coeffs = .ok (friQuery H n p i j) := by
  unfold friTree friPoly friQuery
  obtain ⟨k, hk⟩ : ∃ k, n - i = k + 1 := ⟨n - i - 1, by omega⟩
  rw [hk] at hj ⊢
  rw [Nat.add_sub_cancel, mkPoly_coeffs, query_eq H k _ hj]

theorem produceStep_honest {n : ℕ} (p : F[X]) (idx : ℕ) {i : ℕ} (hi : i < n) :
    produceStep H (friTree H n p i, friPoly H n p i)
        (tab (2 * i) (friQueryAt H n p idx), tab i (friRoot H n p), friIdx n idx i, 2 ^ (n - i))
      = .ok (tab (2 * (i + 1)) (friQueryAt H n p idx), tab (i + 1) (friRoot H n p), friIdx n idx (i + 1),
          2 ^ (n - (i + 1))) := by
  obtain ⟨m, hm⟩ : ∃ m, n - i = m + 1 := ⟨n - i - 1, by omega⟩
  have hm' : n - (i + 1) = m := by omega
  have hlt := friIdx_lt n idx i
  rw [hm] at hlt
  have hlt' := friIdx_lt n idx (i + 1)
  rw [hm'] at hlt'
  have hp1 : 2 ^ (m + 1) = 2 * 2 ^ m := by ring
  unfold produceStep
  simp only [hm]
  rw [coset_eq hlt, friIdx_succ hm]
  simp only [Res.ok_bind, List.length_cons, List.length_nil, Nat.zero_add, Nat.reduceAdd, ne_eq, not_true_eq_false,
    if_false, forEach]
  rw [friTree_query H n p hi (by rw [hm]; omega), friTree_query H n p hi (by rw [hm]; omega),
    friTree_root H n p hi, nextDomain_eq hlt, friIdx_succ hm, hm']
  simp only [Res.ok_bind, Res.pure_def]
  have e0 : friQueryAt H n p idx (2 * i) = friQuery H n p i (friIdx n idx (i + 1)) := by
    unfold friQueryAt
    have a : 2 * i / 2 = i := by omega
    have b : 2 * i % 2 = 0 := by omega
    rw [a, b, Nat.zero_mul, Nat.add_zero]
  have e1 : friQueryAt H n p idx (2 * i + 1) = friQuery H n p i (friIdx n idx (i + 1) + 2 ^ m) := by
    unfold friQueryAt
    have a : (2 * i + 1) / 2 = i := by omega
    have b : (2 * i + 1) % 2 = 1 := by omega
    rw [a, b, Nat.one_mul, hm']
  rw [show 2 * (i + 1) = 2 * i + 1 + 1 by ring, tab_succ (2 * i + 1), tab_succ (2 * i), tab_succ i, e0, e1]

theorem forEach_tab {α σ : Type} (g : ℕ → α) (f : ℕ → σ) (body : α → σ → Res σ) (k : ℕ)
    (h : ∀ i, i < k → body (g i) (f i) = .ok (f (i + 1))) : forEach (tab k g) (f 0) body = .ok (f k) := by
  induction k generalizing g f with
  | zero => rfl
  | succ k ih =>
    rw [tab_succ', forEach, h 0 (by omega)]
    simp only [Res.ok_bind]
    exact ih (fun i => g (i + 1)) (fun i => f (i + 1)) (fun i hi => h (i + 1) (by omega))

theorem produceProof_honest {n f o : ℕ} (hfo : f + o < n) (h1 : 1 ≤ f + o) {p : F[X]} {idx : ℕ}
    (hidx : idx < 2 ^ n) :
    (honestPrototype H n f o p).produceProof H (mkPoly .values n (friVals n p)) idx
      = .ok (honestProof H n f o p idx) := by
  unfold FriPrototype.produceProof honestPrototype
  simp only
  have e : mkPoly .values n (friVals n p) :: tab (n - f - o) (fun t => friPoly H n p (t + 1))
      = tab (n - f - o + 1) (fun t => friPoly H n p t) := by
    rw [tab_succ']; rfl
  have e' : friTree H n p 0 :: tab (n - f - o) (fun t => friTree H n p (t + 1))
      = tab (n - f - o + 1) (fun t => friTree H n p t) := by
    rw [tab_succ']
  have hs : 2 ^ (n - f) * 2 ^ f = 2 ^ n := by rw [← pow_add]; congr 1; omega
  rw [e, e', zip_tab, min_self, hs]
  have loop := forEach_tab (fun t => (friTree H n p t, friPoly H n p t))
    (fun i => (tab (2 * i) (friQueryAt H n p idx), tab i (friRoot H n p), friIdx n idx i, 2 ^ (n - i)))
    (produceStep H) (n - f - o + 1) (fun i hi => produceStep_honest H p idx (by omega))
  have h0 : friIdx n idx 0 = idx := by unfold friIdx; rw [Nat.sub_zero, Nat.mod_eq_of_lt hidx]
  simp only [Nat.mul_zero, tab_zero, h0, Nat.sub_zero] at loop
  rw [loop]
  rfl

theorem verifyQuery_honest (n : ℕ) (p : F[X]) {i j : ℕ} (hj : j < 2 ^ (n - i)) :
    verifyQuery H (friQuery H n p i j) (friRoot H n p i) = true := by
  apply decide_eq_true
  exact verify_honest H (fun t => H (encodeLeaf (friVals (n - i) (friLayer H n p i) t))) (n - i) j hj

theorem queriesConsistent_honest (p : F[X]) (n idx : ℕ) {i m : ℕ} (hm : n - i = m + 1) :
    queriesConsistent [friQuery H n p i (friIdx n idx (i + 1)), friQuery H n p i (friIdx n idx (i + 1) + 2 ^ m)]
      [friIdx n idx (i + 1), friIdx n idx (i + 1) + 2 ^ m] (vstate H n p idx i) = true := by
  unfold queriesConsistent vstate
  simp only
  by_cases h0 : i = 0
  · rw [if_pos h0]
  · rw [if_neg h0]
    have hlt := friIdx_lt n idx i
    rw [hm] at hlt
    have hc := index_in_coset hlt
    rw [friIdx_succ hm] at hc
    have hp : 0 < 2 ^ m := by positivity
    have hcon : [friIdx n idx (i + 1), friIdx n idx (i + 1) + 2 ^ m].contains (friIdx n idx i) = true := by
      simpa using hc
    simp only [hcon, not_true_eq_false, if_false]
    have hi1 : ∀ j, (friQuery H n p i j).index = j := fun _ => rfl
    have hv1 : ∀ j, (friQuery H n p i j).value = friVals (n - i) (friLayer H n p i) j := fun _ => rfl
    rcases hc with hc | hc
    · rw [List.filter_cons_of_pos (by simp [hi1, hc]), List.filter_cons_of_neg (by simp [hi1, hc])]
      simp [hv1, hc]
    · rw [List.filter_cons_of_neg (by simp [hi1, hc]), List.filter_cons_of_pos (by simp [hi1, hc])]
      simp [hv1, hc]

theorem proofRounds_honest (hch : ChallengeOk F) {n k : ℕ} (hn : n ≤ StarkField.S F) (hk : k ≤ n) (fin : List F)
    (p : F[X]) {idx : ℕ} (hidx : idx < 2 ^ n) (v : F) (hv : v = friVals n p idx) :
    ∀ r i, i + r = k →
    proofRounds H (2 : F)⁻¹ fin idx v i (tab r (fun t => (friRoot H n p (i + t),
        [friQuery H n p (i + t) (friIdx n idx (i + t + 1)),
         friQuery H n p (i + t) (friIdx n idx (i + t + 1) + 2 ^ (n - (i + t + 1)))]))) (vstate H n p idx i)
      = friFinish fin (vstate H n p idx k) := by
  intro r
  induction r with
  | zero => intro i hi; rw [tab_zero, proofRounds]; simp at hi; rw [hi]
  | succ r ih =>
    intro i hi
    rw [tab_succ', proofRounds]
    obtain ⟨m, hm⟩ : ∃ m, n - i = m + 1 := ⟨n - i - 1, by omega⟩
    have hm' : n - (i + 1) = m := by omega
    have hlt := friIdx_lt n idx i
    rw [hm] at hlt
    have hlt' := friIdx_lt n idx (i + 1)
    rw [hm'] at hlt'
    have hp1 : 2 ^ (m + 1) = 2 * 2 ^ m := by ring
    have hp : 0 < 2 ^ m := by positivity
    have hvi : (vstate H n p idx i).domainIdx = friIdx n idx i := rfl
    have hs : (vstate H n p idx i).domainSize = 2 ^ (m + 1) := by simp [vstate, hm]
    have ho : (vstate H n p idx i).omegaInv = (genOf F (m + 1))⁻¹ := by simp [vstate, hm]
    rw [hvi, hs, coset_eq hlt, friIdx_succ hm]
    simp only [Nat.add_zero, hm']
    set a := friIdx n idx (i + 1) with ha
    have hqi : ∀ j, (friQuery H n p i j).index = j := fun _ => rfl
    have hqv : ∀ j, (friQuery H n p i j).value = friVals (m + 1) (friLayer H n p i) j := by
      intro j; rw [← hm]; rfl
    have hany1 : ([friQuery H n p i a, friQuery H n p i (a + 2 ^ m)].any
        (fun q => !(List.contains [a, a + 2 ^ m] q.index))) = false := by
      simp [hqi]
    have hany2 : ¬ (i = 0 ∧ ([friQuery H n p i a, friQuery H n p i (a + 2 ^ m)].any
        (fun q => decide (q.index = idx ∧ q.value ≠ v))) = true) := by
      rintro ⟨h0, h⟩
      subst h0
      simp only [List.any_cons, List.any_nil, Bool.or_false, Bool.or_eq_true, decide_eq_true_eq, hqi, hqv,
        ← hm, Nat.sub_zero, friLayer] at h
      rcases h with ⟨h1, h2⟩ | ⟨h1, h2⟩
      · rw [h1] at h2; exact h2 hv.symm
      · rw [h1] at h2; exact h2 hv.symm
    have hany3 : ([friQuery H n p i a, friQuery H n p i (a + 2 ^ m)].any
        (fun q => !verifyQuery H q (friRoot H n p i))) = false := by
      simp only [List.any_cons, List.any_nil]
      rw [verifyQuery_honest H n p (by rw [hm]; omega), verifyQuery_honest H n p (by rw [hm]; omega)]
      rfl
    have hchk : checkTreeIndices [a, a + 2 ^ m] [friQuery H n p i a, friQuery H n p i (a + 2 ^ m)] = .ok () := by
      simp [checkTreeIndices, hqi]
    have r0 : rd [a, a + 2 ^ m] 0 = .ok a := rfl
    have r1 : rd [friQuery H n p i a, friQuery H n p i (a + 2 ^ m)] 0 = .ok (friQuery H n p i a) := rfl
    have r2 : rd [friQuery H n p i a, friQuery H n p i (a + 2 ^ m)] 1 = .ok (friQuery H n p i (a + 2 ^ m)) := rfl
    simp only [Res.ok_bind, List.length_cons, List.length_nil, Nat.zero_add, Nat.reduceAdd, ne_eq,
      not_true_eq_false, if_false]
    rw [hany1, if_neg (by simp), if_neg hany2, hchk]
    simp only [Res.ok_bind]
    rw [hany3]
    simp only [Bool.false_eq_true, if_false, encodeRootIntoChallenge, interpretHash_ok hch, Res.ok_bind, r0, r1, r2, ho]
    rw [ha, queriesConsistent_honest H p n idx hm, ← ha]
    simp only [Bool.true_eq_false, if_false, hqv]
    have hb : challengeOf F (friRoot H n p i) = friBeta H n p i := rfl
    rw [hb, ha, fold_coset H hn p hm]
    have := friAdvance_vstate H hn p idx (i := i) (by omega)
    rw [hm'] at this
    rw [this]
    simp only [Res.ok_bind]
    have := ih (i + 1) (by omega)
    have e : ∀ t, i + 1 + t = i + (t + 1) := by intro t; omega
    simp only [e] at this
    exact this

theorem chunksExact_tab {α : Type} (r : ℕ) (g : ℕ → α) :
    chunksExact 2 (tab (2 * r) g) = tab r (fun t => [g (2 * t), g (2 * t + 1)]) := by
  unfold chunksExact
  rw [length_tab, Nat.mul_div_cancel_left _ (by norm_num)]
  apply tab_congr
  intro i hi
  rw [drop_tab, take_tab]
  have : min 2 (2 * r - i * 2) = 2 := by omega
  rw [this, tab_two, mul_comm i 2, Nat.add_zero]

theorem verifyProof_honest (hch : ChallengeOk F) {n f o : ℕ} (hn : n ≤ StarkField.S F) (hfo : f + o < n)
    (h1 : 1 ≤ f + o) {p : F[X]} {idx : ℕ} (hidx : idx < 2 ^ n) :
    (honestProof H n f o p idx).verify H idx (friVals n p idx) =
      if idx % 2 = 1 then
        .ok (decide (Spec.evalPoly (tab (2 ^ o) (friLayer H n p (n - f - o)).coeff)
            (genOf F (f + o - 1) ^ (idx % 2 ^ (f + o - 1)))
          = (friLayer H n p (n - f - o + 1)).eval (genOf F (f + o - 1) ^ (idx % 2 ^ (f + o - 1)))))
      else .err .invalidValue := by
  unfold FriProof.verify FriProof.verifyQueries honestProof
  simp only
  rw [friStart_eq H hn (by omega) (by omega) p hidx]
  split
  · simp only [Res.ok_bind, ne_eq, OfNat.ofNat_ne_zero, not_false_eq_true, decide_true, Res.assert_true, length_tab,
      Nat.mul_mod_right, not_true_eq_false, if_false]
    rw [chunksExact_tab, zip_tab, min_self]
    have := proofRounds_honest H hch (k := n - f - o + 1) hn (by omega)
      (tab (2 ^ o) (friLayer H n p (n - f - o)).coeff) p hidx _ rfl (n - f - o + 1) 0 (by omega)
    simp only [Nat.zero_add] at this
    have e : tab (n - f - o + 1) (fun i => (friRoot H n p i, [friQueryAt H n p idx (2 * i), friQueryAt H n p idx (2 * i + 1)]))
        = tab (n - f - o + 1) (fun t => (friRoot H n p t, [friQuery H n p t (friIdx n idx (t + 1)),
            friQuery H n p t (friIdx n idx (t + 1) + 2 ^ (n - (t + 1)))])) := by
      apply tab_congr
      intro i _
      unfold friQueryAt
      have a : 2 * i / 2 = i := by omega
      have b : 2 * i % 2 = 0 := by omega
      have a' : (2 * i + 1) / 2 = i := by omega
      have b' : (2 * i + 1) % 2 = 1 := by omega
      rw [a, b, a', b', Nat.zero_mul, Nat.add_zero, Nat.one_mul]
    rw [e, this, friFinish_vstate H (by omega)]
    unfold friIdx
    have hm : n - (n - f - o + 1) = f + o - 1 := by omega
    rw [hm]
  · rfl

end Hodor

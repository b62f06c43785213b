import Verif.Lemmas.Valid
import Verif.Model.F257

/-! # C11, C12, C13, C15, C16, C17: polynomial operations -/

namespace Hodor

open Finset Polynomial

variable {F : Type} [Field F]

/-! ### C11: element-wise operations -/

theorem parMap_list {α β : Type} (w : Worker) (l : List α) (f : α → β) :
    parChunks w l (fun _ _ v => v.map f) = l.map f := by
  cases l with
  | nil =>
    unfold parChunks
    have : numChunks 0 (w.chunkSize 0) = 0 := by
      unfold numChunks; exact Nat.div_eq_of_lt (by have := w.chunkSize_pos 0; omega)
    simp [chunks, this]
  | cons a l =>
    obtain ⟨n, g, h⟩ : ∃ (n : ℕ) (g : ℕ → α), (a :: l) = tab n g := ⟨_, _, eq_tab_getD _ a⟩
    rw [h, parMap_tab, map_tab]

theorem parZip_list (w : Worker) (e : ℕ) (a b : List F) (h : a.length = b.length) (f : F → F → F) :
    parChunksZip w e a b (zipUpdate f) = List.zipWith f a b := by
  have ha := eq_tab_getD a 0
  have hb := eq_tab_getD b 0
  rw [ha, hb, parChunksZip_tab, zipWith_tab]
  rw [h, min_self]
  apply tab_congr
  intro i hi
  rw [if_pos hi]

/-- **C11** (unary operations, any worker): every element is mapped; nothing else changes. -/
theorem C11_unary {P : Form} (w : Worker) (p : Poly F P) (c : F) :
    p.scale w c = { p with coeffs := p.coeffs.map (fun x => x * c) } ∧
    p.negate w = { p with coeffs := p.coeffs.map (fun x => -x) } := by
  constructor
  · unfold Poly.scale; rw [parMap_list]
  · unfold Poly.negate; rw [parMap_list]

/-- **C11** (unary operations on values, any worker). -/
theorem C11_unary_values (w : Worker) (p : Poly F .values) (c : F) (e : ℕ) :
    p.addConstant w c = { p with coeffs := p.coeffs.map (fun x => x + c) } ∧
    p.square w = { p with coeffs := p.coeffs.map (fun x => x ^ 2) } ∧
    p.pow w e = { p with coeffs := p.coeffs.map (fun x => x ^ e) } := by
  have hsq : p.square w = { p with coeffs := p.coeffs.map (fun x => x ^ 2) } := by
    unfold Poly.square; rw [parMap_list]
    congr 2; funext x; ring
  refine ⟨?_, hsq, ?_⟩
  · unfold Poly.addConstant; rw [parMap_list]
  · unfold Poly.pow
    split
    · rename_i h; rw [hsq, h]
    · rw [parMap_list]

/-- **C11** (binary operations on values of equal size, any worker). -/
theorem C11_binary_values (w : Worker) (p q : Poly F .values) (h : p.size = q.size) (c : F) :
    p.addAssignV w q = .ok { p with coeffs := List.zipWith (fun a b => a + b) p.coeffs q.coeffs } ∧
    p.subAssignV w q = .ok { p with coeffs := List.zipWith (fun a b => a - b) p.coeffs q.coeffs } ∧
    p.mulAssign w q = .ok { p with coeffs := List.zipWith (fun a b => a * b) p.coeffs q.coeffs } ∧
    p.addAssignScaledV w q c
      = .ok { p with coeffs := List.zipWith (fun a b => a + b * c) p.coeffs q.coeffs } := by
  unfold Poly.size at h
  unfold Poly.addAssignV Poly.subAssignV Poly.mulAssign Poly.addAssignScaledV
  simp only [h, decide_true, Res.assert_true, Res.ok_bind, Res.pure_def]
  refine ⟨?_, ?_, ?_, ?_⟩
  · rw [parZip_list w _ _ _ h]
  · rw [parZip_list w _ _ _ h]
  · rw [parZip_list w _ _ _ h]
  · rw [parZip_list w _ _ _ h (fun a b => a + b * c)]

/-- **C11** (size mismatch): the binary operations on values panic. -/
theorem C11_binary_values_mismatch (w : Worker) (p q : Poly F .values) (h : p.size ≠ q.size) (c : F) :
    p.addAssignV w q = .panic ∧ p.subAssignV w q = .panic ∧ p.mulAssign w q = .panic ∧
    p.addAssignScaledV w q c = .panic := by
  unfold Poly.size at h
  unfold Poly.addAssignV Poly.subAssignV Poly.mulAssign Poly.addAssignScaledV
  simp [h]

theorem evalPoly_ite (m n : ℕ) (h : n ≤ m) (a b : ℕ → F) (x : F) (c : F) :
    evalF m (fun i => if i < n then a i + b i * c else a i) x = evalF m a x + c * evalF n b x := by
  unfold evalF
  have e : ∀ i ∈ range m, (if i < n then a i + b i * c else a i) * x ^ i
      = a i * x ^ i + (if i < n then c * (b i * x ^ i) else 0) := by
    intro i _; split <;> ring
  rw [sum_congr rfl e, sum_add_distrib]
  congr 1
  rw [← sum_filter, mul_sum]
  apply sum_congr
  · ext i; simp; omega
  · intro _ _; rfl

/-- **C11** (coefficient form): `add_assign`, `sub_assign`, `add_assign_scaled` with an operand that is
not longer are polynomial addition, subtraction and `p + c·q`; the size does not change. -/
theorem C11_coefficients (w : Worker) (p q : Poly F .coefficients) (h : q.size ≤ p.size) (c : F) :
    (∃ r, p.addAssignC w q = .ok r ∧ r.size = p.size ∧
      ∀ x, Spec.evalPoly r.coeffs x = Spec.evalPoly p.coeffs x + Spec.evalPoly q.coeffs x) ∧
    (∃ r, p.subAssignC w q = .ok r ∧ r.size = p.size ∧
      ∀ x, Spec.evalPoly r.coeffs x = Spec.evalPoly p.coeffs x - Spec.evalPoly q.coeffs x) ∧
    (∃ r, p.addAssignScaledC w q c = .ok r ∧ r.size = p.size ∧
      ∀ x, Spec.evalPoly r.coeffs x = Spec.evalPoly p.coeffs x + c * Spec.evalPoly q.coeffs x) := by
  unfold Poly.size at *
  unfold Poly.addAssignC Poly.subAssignC Poly.addAssignScaledC
  simp only [h, decide_true, Res.assert_true, Res.ok_bind, Res.pure_def]
  have hp := eq_tab_getD p.coeffs 0
  have hq := eq_tab_getD q.coeffs 0
  generalize p.coeffs.length = m at *
  generalize q.coeffs.length = n at *
  rw [hp, hq]
  simp only [evalPoly_tab]
  refine ⟨⟨_, rfl, ?_, ?_⟩, ⟨_, rfl, ?_, ?_⟩, ⟨_, rfl, ?_, ?_⟩⟩
  · simp [parChunksZip_tab]
  · intro x
    simp only [parChunksZip_tab, evalPoly_tab]
    have := evalPoly_ite m n h (fun i => p.coeffs.getD i 0) (fun i => q.coeffs.getD i 0) x 1
    simpa using this
  · simp [parChunksZip_tab]
  · intro x
    simp only [parChunksZip_tab, evalPoly_tab]
    have := evalPoly_ite m n h (fun i => p.coeffs.getD i 0) (fun i => q.coeffs.getD i 0) x (-1)
    simpa [sub_eq_add_neg] using this
  · simp [parChunksZip_tab w _ m n _ _ (fun a b => a + b * c)]
  · intro x
    simp only [parChunksZip_tab w _ m n _ _ (fun a b => a + b * c), evalPoly_tab]
    exact evalPoly_ite m n h _ _ x c

/-- **C11** (substitution): `distribute_powers(g)` turns `p(X)` into `p(g·X)`; `scale(c)` multiplies the
polynomial by `c`; `negate` negates it. -/
theorem C11_substitution (w : Worker) (p : Poly F .coefficients) (g x : F) :
    Spec.evalPoly (p.distributePowers w g).coeffs x = Spec.evalPoly p.coeffs (g * x) ∧
    Spec.evalPoly (p.scale w g).coeffs x = g * Spec.evalPoly p.coeffs x ∧
    Spec.evalPoly (p.negate w).coeffs x = -Spec.evalPoly p.coeffs x := by
  have hp := eq_tab_getD p.coeffs 0
  unfold Poly.distributePowers Poly.scale Poly.negate
  simp only
  generalize p.coeffs.length = m at *
  rw [hp, distributePowers_tab, parMap_tab, parMap_tab]
  simp only [evalPoly_tab]
  unfold evalF
  refine ⟨?_, ?_, ?_⟩
  · apply sum_congr rfl; intro i _; rw [mul_pow]; ring
  · rw [mul_sum]; apply sum_congr rfl; intro i _; ring
  · rw [← sum_neg_distrib]; apply sum_congr rfl; intro i _; ring

/-- Non-vacuity of C11: sizes 4 and 2, three CPUs. -/
example : ∃ p q r : Poly Fr .coefficients, Poly.fromCoeffs [1, 2, 3] = .ok p ∧
    Poly.fromCoeffs [5, 6] = .ok q ∧ q.size ≤ p.size ∧
    p.addAssignScaledC ⟨3, by norm_num⟩ q 10 = .ok r ∧ r.coeffs = [51, 62, 3, 0] :=
  ⟨_, _, _, rfl, rfl, by decide +kernel, rfl, by decide +kernel⟩

/-! ### C12: evaluation -/

/-- **C12.** `evaluate_at(x)` is the value of the polynomial at `x`, for every worker. -/
theorem C12_evaluate_at (w : Worker) (p : Poly F .coefficients) (x : F) :
    p.evaluateAt w x = Spec.evalPoly p.coeffs x := by
  rw [evaluateAt_tab w p p.coeffs.length (fun i => p.coeffs.getD i 0) (eq_tab_getD _ 0) x]
  rfl

/-- **C12.** Whatever the order in which the partial sums arrive and whatever the worker,
`evaluate_at_consequitive_powers(c, f, b)` returns `f · c(b)`; and some result is always returned. -/
theorem C12_consequitive_powers (w : Worker) (c : List F) (f b r : F) :
    EvaluatesAtConsequitivePowers w c f b r ↔ r = f * Spec.evalPoly c b := by
  have key : (powerMessages w c f b).sum = f * Spec.evalPoly c b := by
    have h := eq_tab_getD c 0
    unfold Spec.evalPoly
    generalize c.length = n at *
    rw [h, powerMessages_sum, mul_sum]
    apply sum_congr rfl
    intro i hi
    rw [List.getD, List.getD, getElem?_tab, if_pos (mem_range.1 hi), Option.getD_some, List.getD]
    ring
  constructor
  · rintro ⟨arr, hperm, rfl⟩
    rw [sumReceived_perm hperm]
    unfold sumReceived
    rw [foldl_add_eq, zero_add, key]
  · rintro rfl
    refine ⟨_, List.Perm.refl _, ?_⟩
    unfold sumReceived
    rw [foldl_add_eq, zero_add, key]

/-- The helpers `mul_polynomial_by_scalar` and `mul_add_polynomials`, for every worker. -/
theorem C11_helpers (w : Worker) (a b : List F) (h : a.length = b.length) (c : F) :
    mulPolynomialByScalar w a c = a.map (fun x => x * c) ∧
    mulAddPolynomials w a b c = .ok (List.zipWith (fun x y => x + y * c) a b) := by
  constructor
  · unfold mulPolynomialByScalar; rw [parMap_list]
  · unfold mulAddPolynomials
    simp only [h, decide_true, Res.assert_true, Res.ok_bind, Res.pure_def]
    rw [parZip_list w _ _ _ h (fun a b => a + b * c)]

/-- Non-vacuity of C12: with 2 CPUs and 3 coefficients there are several messages. -/
example : powerMessages (F := Fr) ⟨2, by norm_num⟩ [1, 2, 3] 10 2 = [10, 40, 120] := by decide +kernel

/-! ### C13: batch inversion -/

variable [DecidableEq F]

/-- **C13.** With no zero entry, `batch_inversion` replaces every entry by its inverse (any worker);
with a zero entry it returns `Err` (and the vector, which the model returns only on success, is not
touched before the error is raised). -/
theorem C13_batch_inversion (w : Worker) (p : Poly F .values) :
    ((∀ x ∈ p.coeffs, x ≠ 0) →
      p.batchInversion w = .ok { p with coeffs := p.coeffs.map (fun x => x⁻¹) }) ∧
    ((∃ x ∈ p.coeffs, x = 0) → p.batchInversion w = .err .error) := by
  have h := eq_tab_getD p.coeffs 0
  rw [batchInversion_tab w p _ _ h]
  constructor
  · intro hne
    rw [if_neg]
    · congr 2
      conv_rhs => rw [h]
      rw [map_tab]
    · rintro ⟨i, hi, h0⟩
      apply hne _ _ h0
      rw [List.getD, List.getElem?_eq_getElem hi, Option.getD_some]
      exact List.getElem_mem hi
  · rintro ⟨x, hx, rfl⟩
    rw [if_pos]
    obtain ⟨i, hi, e⟩ := List.getElem_of_mem hx
    refine ⟨i, hi, ?_⟩
    rw [List.getD, List.getElem?_eq_getElem hi, Option.getD_some, e]

/-- **C13** (in place): with no zero entry the object holds the inverses afterwards and the call returns `Ok`; with a zero entry it returns `Err` and the object is the one before the call. -/
theorem C13_in_place (w : Worker) (p : Poly F .values) :
    ((∀ x ∈ p.coeffs, x ≠ 0) → p.batchInversionMut w = ({ p with coeffs := p.coeffs.map (fun x => x⁻¹) }, .ok ())) ∧
    ((∃ x ∈ p.coeffs, x = 0) → p.batchInversionMut w = (p, .err .error)) := by
  have key : ∀ q, (p.batchInversion w = .ok q → p.batchInversionMut w = (q, .ok ())) ∧
      (p.batchInversion w = .err .error → p.batchInversionMut w = (p, .err .error)) := by
    intro q
    unfold Poly.batchInversion Poly.batchInversionMut
    simp only
    cases inverse (F := F) _ with
    | none => exact ⟨fun h => (by cases h), fun _ => rfl⟩
    | some x => exact ⟨fun h => by injection h with h; rw [← h], fun h => (by cases h)⟩
  exact ⟨fun h => (key _).1 ((C13_batch_inversion w p).1 h), fun h => (key p).2 ((C13_batch_inversion w p).2 h)⟩

/-- Non-vacuity of C13: four entries on 3 CPUs; and a vector with a zero. -/
example : (∃ p q : Poly Fr .values, Poly.fromValues [2, 3, 4, 5] = .ok p ∧ (∀ x ∈ p.coeffs, x ≠ 0) ∧
      p.batchInversion ⟨3, by norm_num⟩ = .ok q ∧ q.coeffs = [129, 86, 193, 103]) ∧
    (∃ p : Poly Fr .values, Poly.fromValues [2, 3, 4] = .ok p ∧
      p.batchInversion ⟨3, by norm_num⟩ = .err .error) :=
  ⟨⟨_, _, rfl, by decide +kernel, rfl, by decide +kernel⟩, _, rfl, by decide +kernel⟩

/-! ### C15: Lagrange interpolation -/

/-- **C15.** On at least two points with pairwise distinct abscissae `interpolate` returns `n`
coefficients of a polynomial through all the points, and it is the only such coefficient vector. -/
theorem C15_interpolate (points : List (F × F)) (hn : 2 ≤ points.length)
    (hx : (points.map Prod.fst).Nodup) :
    ∃ c, interpolate points = .ok c ∧ c.length = points.length ∧
      (∀ pt ∈ points, Spec.evalPoly c pt.1 = pt.2) ∧
      ∀ c' : List F, c'.length = points.length → (∀ pt ∈ points, Spec.evalPoly c' pt.1 = pt.2) → c' = c := by
  have h := eq_tab_getD points (0, 0)
  set n := points.length with hnd
  set x : ℕ → F := fun i => (points.getD i (0, 0)).1 with hxd
  set y : ℕ → F := fun i => (points.getD i (0, 0)).2 with hyd
  have h' : points = tab n (fun i => (x i, y i)) := h
  have hinj : ∀ i j, i < n → j < n → x i = x j → i = j := by
    intro i j hi hj e
    have e1 : (points.map Prod.fst)[i]? = some (x i) := by
      rw [List.getElem?_map, List.getElem?_eq_getElem (by omega)]
      simp [hxd, List.getD, List.getElem?_eq_getElem (show i < points.length by omega)]
    have e2 : (points.map Prod.fst)[j]? = some (x j) := by
      rw [List.getElem?_map, List.getElem?_eq_getElem (by omega)]
      simp [hxd, List.getD, List.getElem?_eq_getElem (show j < points.length by omega)]
    apply (List.getElem?_inj (by simpa using (by omega : i < points.length)) hx).1
    rw [e1, e2, e]
  have hres := interpolate_tab hn x y hinj
  rw [← h'] at hres
  refine ⟨_, hres, length_tab _ _, ?_, ?_⟩
  · intro pt hpt
    rw [h'] at hpt
    obtain ⟨m, hm, rfl⟩ := mem_tab.1 hpt
    rw [evalPoly_tab]
    exact interpolate_eval x y hinj hm
  · intro c' hc' hev
    have hc := eq_tab_getD c' 0
    rw [hc'] at hc
    rw [hc]
    apply tab_congr
    set g : ℕ → F := fun i => ∑ k ∈ range n, (otherFactors x k n).coeff i
          * ((otherFactors x k n).eval (x k))⁻¹ * y k
    have hpoly : polyOf n (fun i => c'.getD i 0) = polyOf n g := by
      apply Polynomial.eq_of_degrees_lt_of_eval_index_eq (s := range n) (v := x)
      · intro i hi j hj e
        simp only [coe_range, Set.mem_Iio] at hi hj
        exact hinj i j hi hj e
      · simpa using polyOf_degree n _
      · simpa using polyOf_degree n _
      · intro i hi
        have hi := mem_range.1 hi
        rw [polyOf_eval, polyOf_eval, interpolate_eval x y hinj hi]
        have := hev (x i, y i) (by rw [h']; exact mem_tab.2 ⟨i, hi, rfl⟩)
        rw [hc, evalPoly_tab] at this
        exact this
    intro i hi
    have := congrArg (fun p => p.coeff i) hpoly
    simpa [polyOf_coeff, hi] using this

/-- **C15** (repeated abscissa, or fewer than two points): `interpolate` panics. -/
theorem C15_interpolate_repeated (points : List (F × F))
    (hx : points.length < 2 ∨ ¬ (points.map Prod.fst).Nodup) : interpolate points = .panic := by
  by_cases hn : points.length < 2
  · unfold interpolate
    simp [show ¬ 2 ≤ points.length by omega]
  · have hx : ¬ (points.map Prod.fst).Nodup := by tauto
    have h := eq_tab_getD points (0, 0)
    have h' : points = tab points.length (fun i =>
      ((fun i => (points.getD i (0, 0)).1) i, (fun i => (points.getD i (0, 0)).2) i)) := h
    have : ∃ i j, i < points.length ∧ j < points.length ∧ i ≠ j ∧
        (points.getD i (0, 0)).1 = (points.getD j (0, 0)).1 := by
      by_contra hcon
      push_neg at hcon
      apply hx
      rw [List.nodup_iff_injective_getElem]
      intro i j e
      by_contra hij
      have hi : i.1 < points.length := by simpa using i.2
      have hj : j.1 < points.length := by simpa using j.2
      apply hcon i.1 j.1 hi hj (fun hh => hij (Fin.ext hh))
      simpa [List.getD, List.getElem?_eq_getElem hi, List.getElem?_eq_getElem hj] using e
    obtain ⟨i, j, hi, hj, hij, e⟩ := this
    rw [h']
    exact interpolate_panic _ _ (by omega) hi hj hij e

/-- Non-vacuity of C15: the parabola through (0,1), (1,3), (2,7). -/
example : interpolate ([(0, 1), (1, 3), (2, 7)] : List (Fr × Fr)) = .ok [1, 1, 1] ∧
    interpolate ([(0, 1), (1, 3), (0, 7)] : List (Fr × Fr)) = .panic := by
  constructor
  · decide +kernel
  · decide +kernel

/-! ### C16: padding and trimming -/

section pad
variable [StarkField F]

theorem evalF_pad (k l : ℕ) (h : k ≤ l) (g : ℕ → F) (x : F) :
    evalF (2 ^ l) (fun i => if i < 2 ^ k then g i else 0) x = evalF (2 ^ k) g x := by
  have hle : 2 ^ k ≤ 2 ^ l := Nat.pow_le_pow_right (by norm_num) h
  have := evalPoly_ite (2 ^ l) (2 ^ k) hle (fun _ => (0 : F)) g x 1
  simpa [evalF] using this

/-- **C16** (`pad_by_factor`, success): padding by a power of two that fits the field keeps the represented
polynomial and gives a well-formed object of the new size. -/
theorem C16_pad_by_factor (p : Poly F .coefficients) (hp : p.Valid) (f : ℕ) (hS : p.exp + f ≤ StarkField.S F) :
    ∃ q, p.padByFactor (2 ^ f) = (q, .ok ()) ∧ q.Valid ∧ q.size = p.size * 2 ^ f ∧
      ∀ x, Spec.evalPoly q.coeffs x = Spec.evalPoly p.coeffs x := by
  obtain ⟨k, g, hk, rfl⟩ := hp.exists_mk
  simp only [mkPoly_exp] at hS
  unfold Poly.padByFactor
  split
  · rename_i h
    rw [h]
    exact ⟨_, rfl, valid_mkPoly _ hk _, by simp, fun _ => rfl⟩
  · rw [if_neg (by rw [nextPow2_pow]; simp)]
    rw [mkPoly_coeffs, length_tab, ← pow_add, padTail_mk _ g hS]
    refine ⟨_, rfl, valid_mkPoly _ hS _, by simp [pow_add], ?_⟩
    intro x
    rw [mkPoly_coeffs, evalPoly_tab, evalPoly_tab]
    exact evalF_pad k (k + f) (by omega) g x

/-- **C16** (`pad_to_size`, success). -/
theorem C16_pad_to_size (p : Poly F .coefficients) (hp : p.Valid) (l : ℕ) (hl : p.size ≤ 2 ^ l)
    (hS : l ≤ StarkField.S F) :
    ∃ q, p.padToSize (2 ^ l) = (q, .ok ()) ∧ q.Valid ∧ q.size = 2 ^ l ∧
      ∀ x, Spec.evalPoly q.coeffs x = Spec.evalPoly p.coeffs x := by
  obtain ⟨k, g, hk, rfl⟩ := hp.exists_mk
  rw [mkPoly_size] at hl
  unfold Poly.padToSize
  rw [mkPoly_coeffs, length_tab, if_neg (by omega), if_neg (by rw [nextPow2_pow]; simp),
    padTail_mk _ g hS]
  refine ⟨_, rfl, valid_mkPoly _ hS _, by simp, ?_⟩
  intro x
  rw [mkPoly_coeffs, evalPoly_tab, evalPoly_tab]
  exact evalF_pad k l ((Nat.pow_le_pow_iff_right (by norm_num)).1 hl) g x

/-- **C16** (rejected arguments): a size that is smaller or not a power of two, or a factor that is not a
power of two, is an `Err` that leaves the polynomial as it was. Partial: C16 asks this of every `Err`; missing is the
`Err` for a target above the field's largest domain, for which it is false (next two theorems). -/
theorem C16_pad_rejected_partial {P : Form} (p : Poly F P) (n : ℕ) :
    ((n < p.size ∨ ¬ ∃ l, n = 2 ^ l) → p.padToSize n = (p, .err .error)) ∧
    ((¬ ∃ l, n = 2 ^ l) → p.padByFactor n = (p, .err .error)) := by
  have hnp : (¬ ∃ l, n = 2 ^ l) → n ≠ nextPow2 n := by
    intro h e; exact h ⟨_, e⟩
  constructor
  · intro h
    unfold Poly.padToSize
    split
    · rfl
    · rename_i h1
      rcases h with h | h
      · exact absurd h h1
      · rw [if_pos (hnp h)]
  · intro h
    unfold Poly.padByFactor
    rw [if_neg (fun e => h ⟨0, by simpa using e⟩), if_pos (hnp h)]

/-- **C16 is false on the remaining error path**: when the new size exceeds the field's largest domain,
`pad_by_factor` returns `Err` but has already resized the coefficient vector, so the object no longer is
the one before the call and is not well-formed. -/
theorem C16_failed_pad_mutates (p : Poly F .coefficients) (hp : p.Valid) (f : ℕ)
    (hS : StarkField.S F < p.exp + f) (hf : 0 < f) :
    ∃ q, p.padByFactor (2 ^ f) = (q, .err .error) ∧ q ≠ p ∧ q.size = p.size * 2 ^ f ∧ ¬ q.Valid := by
  obtain ⟨k, g, hk, rfl⟩ := hp.exists_mk
  simp only [mkPoly_exp] at hS
  have h1 : 1 < 2 ^ f := Nat.one_lt_two_pow (by omega)
  unfold Poly.padByFactor
  rw [if_neg (by omega), if_neg (by rw [nextPow2_pow]; simp), mkPoly_coeffs, length_tab, ← pow_add]
  have hnf : Domain.newForSize F (2 ^ (k + f)) = .err .error := by
    rw [newForSize_eq, Nat.clog_pow _ _ (by norm_num), if_neg (by omega)]
  unfold Poly.padTail
  rw [hnf]
  simp only [mkPoly_coeffs, resize_tab]
  refine ⟨_, rfl, ?_, ?_, ?_⟩
  · intro h
    have := congrArg (fun p => p.coeffs.length) h
    simp only [length_tab, mkPoly_coeffs] at this
    have h2 : 2 ^ k < 2 ^ (k + f) := Nat.pow_lt_pow_right (by norm_num) (by omega)
    omega
  · simp [Poly.size, pow_add]
  · rintro ⟨d, hd, _⟩
    simp only [length_tab] at hd
    rw [hnf] at hd
    cases hd

/-- **C16** (the same for `pad_to_size`). -/
theorem C16_failed_pad_to_size_mutates (p : Poly F .coefficients) (hp : p.Valid) (l : ℕ) (hl : p.size ≤ 2 ^ l) (hS : StarkField.S F < l) :
    ∃ q, p.padToSize (2 ^ l) = (q, .err .error) ∧ q ≠ p ∧ q.size = 2 ^ l ∧ ¬ q.Valid := by
  obtain ⟨k, g, hk, rfl⟩ := hp.exists_mk
  have hsz : (mkPoly (F := F) (P := .coefficients) k g).coeffs.length = 2 ^ k := by rw [mkPoly_coeffs, length_tab]
  have hl' : 2 ^ k ≤ 2 ^ l := by rw [← hsz]; exact hl
  unfold Poly.padToSize
  rw [if_neg (by rw [hsz]; omega), if_neg (by rw [nextPow2_pow]; simp)]
  have hnf : Domain.newForSize F (2 ^ l) = .err .error := by
    rw [newForSize_eq, Nat.clog_pow _ _ (by norm_num), if_neg (by omega)]
  unfold Poly.padTail
  rw [hnf]
  simp only [mkPoly_coeffs]
  have hlen : (resize (tab (2 ^ k) g) (2 ^ l) 0).length = 2 ^ l := by
    obtain ⟨m, rfl⟩ : ∃ m, l = k + m := ⟨l - k, by have := (Nat.pow_le_pow_iff_right (by norm_num : 1 < 2)).1 hl'; omega⟩
    rw [resize_tab, length_tab]
  refine ⟨_, rfl, ?_, ?_, ?_⟩
  · intro h
    have := congrArg (fun p => p.coeffs.length) h
    simp only [hlen, mkPoly_coeffs, length_tab] at this
    have h2 : 2 ^ k < 2 ^ l := Nat.pow_lt_pow_right (by norm_num) (by omega)
    omega
  · exact hlen
  · rintro ⟨d, hd, _⟩
    simp only [hlen] at hd
    rw [hnf] at hd
    cases hd

/-- **C16** (error atomicity, exactly): a failed `pad_to_size` leaves the polynomial unchanged exactly if the size was refused as too small or not a power of two, a failed `pad_by_factor` exactly if the factor is
not a power of two; in the remaining failures (the padded size exceeds the two-adicity) the polynomial is left resized and inconsistent. -/
theorem C16_atomic_iff (p : Poly F .coefficients) (hp : p.Valid) (n : ℕ) :
    ((p.padToSize n).2 ≠ .ok () → ((p.padToSize n).1 = p ↔ n < p.size ∨ ¬ ∃ l, n = 2 ^ l)) ∧
    ((p.padByFactor n).2 ≠ .ok () → ((p.padByFactor n).1 = p ↔ ¬ ∃ l, n = 2 ^ l)) := by
  constructor
  · intro herr
    by_cases h : n < p.size ∨ ¬ ∃ l, n = 2 ^ l
    · rw [((C16_pad_rejected_partial p n).1 h)]
      exact ⟨fun _ => h, fun _ => rfl⟩
    · refine ⟨fun e => absurd e ?_, fun h' => absurd h' h⟩
      rw [not_or, not_not] at h
      obtain ⟨h1, l, rfl⟩ := h
      by_cases hS : l ≤ StarkField.S F
      · obtain ⟨q, e, -⟩ := C16_pad_to_size p hp l (by omega) hS
        rw [e] at herr
        exact absurd rfl herr
      · obtain ⟨q, e, hq, -⟩ := C16_failed_pad_to_size_mutates p hp l (by omega) (by omega)
        rw [e]
        exact hq
  · intro herr
    by_cases h : ¬ ∃ l, n = 2 ^ l
    · rw [((C16_pad_rejected_partial p n).2 h)]
      exact ⟨fun _ => h, fun _ => rfl⟩
    · refine ⟨fun e => absurd e ?_, fun h' => absurd h' h⟩
      rw [not_not] at h
      obtain ⟨f, rfl⟩ := h
      by_cases hS : p.exp + f ≤ StarkField.S F
      · obtain ⟨q, e, -⟩ := C16_pad_by_factor p hp f hS
        rw [e] at herr
        exact absurd rfl herr
      · have hf : 0 < f := by
          obtain ⟨k, g, hk, rfl⟩ := hp.exists_mk
          simp only [mkPoly_exp] at hS
          omega
        obtain ⟨q, e, hq, -⟩ := C16_failed_pad_mutates p hp f (by omega) hf
        rw [e]
        exact hq

/-- **C16** (`trim_to_degree`): the size is unchanged, coefficients up to `degree` are kept, the others are zero. -/
theorem C16_trim {P : Form} (p : Poly F P) (degree : ℕ) :
    (p.trimToDegree degree).size = p.size ∧
    ∀ i, (p.trimToDegree degree).coeffs.getD i 0 = if i ≤ degree then p.coeffs.getD i 0 else 0 := by
  unfold Poly.trimToDegree Poly.size
  simp only
  have h := eq_tab_getD p.coeffs 0
  split
  · rename_i hle
    refine ⟨rfl, fun i => ?_⟩
    split
    · rfl
    · rw [List.getD, List.getElem?_eq_none (by omega)]; rfl
  · rename_i hlt
    simp only
    have e : resize (List.take (degree + 1) p.coeffs) p.coeffs.length 0
        = tab p.coeffs.length (fun i => if i < degree + 1 then p.coeffs.getD i 0 else 0) := by
      conv_lhs => rw [h]
      rw [take_tab, length_tab, resize_tab]
      apply tab_congr
      intro i _
      have : min (degree + 1) p.coeffs.length = degree + 1 := by omega
      rw [this]
    rw [e]
    refine ⟨length_tab _ _, fun i => ?_⟩
    rw [List.getD, getElem?_tab]
    by_cases hi : i < p.coeffs.length
    · rw [if_pos hi, Option.getD_some]
      by_cases hd : i ≤ degree
      · rw [if_pos hd, if_pos (by omega)]
      · rw [if_neg hd, if_neg (by omega)]
    · rw [if_neg hi, Option.getD_none]
      split
      · rw [List.getD, List.getElem?_eq_none (by omega)]; rfl
      · rfl

/-- Non-vacuity of C16: padding 4 → 16 in `Fr`, and the failing pad to 512 elements. -/
example : (∃ p : Poly Fr .coefficients, Poly.fromCoeffs [1, 2, 3] = .ok p ∧ p.exp + 2 ≤ StarkField.S Fr) ∧
    (∃ p : Poly Fr .coefficients, Poly.fromCoeffs [1, 2, 3] = .ok p ∧ StarkField.S Fr < p.exp + 7) :=
  ⟨⟨_, rfl, by decide +kernel⟩, _, rfl, by decide +kernel⟩

/-! ### C17: precomputed tables -/

/-- **C17.** For every domain and worker the tables hold `ω^i`, `g·ω^i` (all `i < n`) and `ω^{-i}`
(`i < n/2`), and nothing more. -/
theorem C17_precomputed (n : ℕ) (d : Domain F) (hd : Domain.newForSize F n = .ok d) (w : Worker) :
    ∃ t, PrecomputedOmegas.newForDomain d w = .ok t ∧
      t.omegas.length = d.size ∧ t.coset.length = d.size ∧ t.omegasInv.length = d.size / 2 ∧
      (∀ i, i < d.size → t.omegas[i]? = some (d.generator ^ i)) ∧
      (∀ i, i < d.size → t.coset[i]? = some (StarkField.mulGen * d.generator ^ i)) ∧
      (∀ i, i < d.size / 2 → ∃ x, t.omegasInv[i]? = some x ∧ x * d.generator ^ i = 1) := by
  rw [newForSize_eq] at hd
  split at hd
  swap; · cases hd
  rename_i hS
  cases hd
  have hne := genOf_ne_zero hS
  refine ⟨_, newForDomain_eq _ w hne, length_tab _ _, length_tab _ _, length_tab _ _, ?_, ?_, ?_⟩
  · intro i hi; rw [getElem?_tab, if_pos hi]
  · intro i hi; rw [getElem?_tab, if_pos hi, mul_comm]
  · intro i hi
    rw [getElem?_tab, if_pos hi]
    refine ⟨_, rfl, ?_⟩
    rw [inv_pow, inv_mul_cancel₀ (pow_ne_zero _ hne)]

/-- Non-vacuity of C17. -/
example : ∃ d : Domain Fr, Domain.newForSize Fr 8 = .ok d ∧ d.size = 8 := ⟨_, rfl, by decide +kernel⟩

/-! ### Degree-one shortcuts (used by ALI), part of C11 -/

/-- `evaluate_at_domain_for_degree_one` and its coset version return the values of `c0 + c1·X` on the
domain (coset) of the requested size. -/
theorem C11_degree_one (w : Worker) (p : Poly F .coefficients) (c0 c1 : F) (hp : p.coeffs = [c0, c1]) (n : ℕ)
    (d : Domain F) (hd : Domain.newForSize F n = .ok d) :
    (∃ q, p.evaluateAtDomainForDegreeOne w n = .ok q ∧
      Spec.EvaluatesOn [c0, c1] 1 d.generator d.size q.coeffs) ∧
    (∃ q, p.cosetEvaluateAtDomainForDegreeOne w n = .ok q ∧
      Spec.EvaluatesOn [c0, c1] StarkField.mulGen d.generator d.size q.coeffs) := by
  rw [newForSize_eq] at hd
  split at hd
  swap; · cases hd
  rename_i hS
  cases hd
  have ev : ∀ x : F, Spec.evalPoly [c0, c1] x = c0 + c1 * x := by
    intro x; simp [Spec.evalPoly, sum_range_succ]
  constructor
  · refine ⟨_, evaluateAtDomainForDegreeOne_mk w p c0 c1 hp hS, ?_⟩
    apply evaluatesOn_tab
    intro j _
    rw [ev, one_mul]
  · refine ⟨_, cosetEvaluateAtDomainForDegreeOne_mk w p c0 c1 hp hS, ?_⟩
    apply evaluatesOn_tab
    intro j _
    rw [ev]

end pad

end Hodor

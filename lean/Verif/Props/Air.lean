import Verif.Lemmas.Air
import Verif.Model.F257

/-!
# C31-C33: constraint builder, constraint degree, witness checking
-/

namespace Hodor

open Polynomial Spec

variable {F : Type} [Field F]

/-! ## C31 -/

/-- **C31** (single-register terms). A term made from a register is that register's value in the same row;
scaling multiplies the value; setting the step difference reads another row. -/
theorem C31_univariate (e : Env F) (r : Register) (t : UnivariateTerm F) (x : F) (k : ℕ) :
    uniValue e (UnivariateTerm.ofRegister r) = e r (.steps 0) ∧
      uniValue e (t.mulScalar x) = uniValue e t * x ∧
      uniValue e (t.setStepDifference k) = t.coeff * e t.register (.steps k) ^ t.power := by
  refine ⟨by simp [uniValue, UnivariateTerm.ofRegister], ?_, rfl⟩
  simp only [uniValue, UnivariateTerm.mulScalar]
  ring

/-- **C31** (products). The product operators multiply values. -/
theorem C31_polyvariate (e : Env F) (t : UnivariateTerm F) (x : F) (p q s : PolyvariateTerm F) :
    polyTermValue e (.ofPair x t) = x * uniValue e t ∧
      polyTermValue e (PolyvariateTerm.default : PolyvariateTerm F) = 1 ∧
      polyTermValue e (p.mulScalar x) = polyTermValue e p * x ∧
      (p.mulUnivariate t = .ok s → polyTermValue e s = polyTermValue e p * uniValue e t) ∧
      (p.mulPolyvariate q = .ok s → polyTermValue e s = polyTermValue e p * polyTermValue e q) := by
  refine ⟨?_, ?_, ?_, ?_, ?_⟩
  · simp [polyTermValue, PolyvariateTerm.ofPair, uniValue, mul_assoc]
  · simp [polyTermValue, PolyvariateTerm.default]
  · simp only [polyTermValue, PolyvariateTerm.mulScalar]; ring
  · intro h
    simp only [PolyvariateTerm.mulUnivariate, Res.bind_eq_ok, Res.pure_def] at h
    obtain ⟨d, _, h⟩ := h
    cases h
    simp only [polyTermValue, List.map_append, List.prod_append, List.map_cons, List.map_nil, List.prod_cons,
      List.prod_nil, mul_one]
    rw [← uniValue_coeff_one e t]; ring
  · intro h
    simp only [PolyvariateTerm.mulPolyvariate, Res.bind_eq_ok, Res.pure_def] at h
    obtain ⟨d, _, h⟩ := h
    cases h
    simp only [polyTermValue, List.map_append, List.prod_append]
    ring

/-- **C31** (sums). `+=` and `-=` on a constraint add and subtract values. -/
theorem C31_constraint (e : Env F) (c : Constraint F) (t : UnivariateTerm F) (p : PolyvariateTerm F) (x : F) :
    constraintValue e (Constraint.default : Constraint F) = 0 ∧
      constraintValue e (c.addUnivariate t) = constraintValue e c + uniValue e t ∧
      constraintValue e (c.subUnivariate t) = constraintValue e c - uniValue e t ∧
      constraintValue e (c.addPolyvariate p) = constraintValue e c + polyTermValue e p ∧
      constraintValue e (c.subPolyvariate p) = constraintValue e c - polyTermValue e p ∧
      constraintValue e (c.addConstant x) = constraintValue e c + x ∧
      constraintValue e (c.subConstant x) = constraintValue e c - x := by
  refine ⟨by simp [constraintValue, Constraint.default], ?_, ?_, ?_, ?_, ?_, ?_⟩
  · rw [Constraint.addUnivariate, constraintValue_push]; rfl
  · rw [Constraint.subUnivariate, constraintValue_push]; simp only [termValue, uniValue]; ring
  · rw [Constraint.addPolyvariate, constraintValue_push]; rfl
  · rw [Constraint.subPolyvariate, constraintValue_push]; simp only [termValue, polyTermValue]; ring
  · simp only [constraintValue, Constraint.addConstant]; ring
  · simp only [constraintValue, Constraint.subConstant]; ring

/-- **C31** (powers, partial). `pow` raises the register's value but not the coefficient, so the value is the
power of the term's value when the coefficient is its own power (for instance for coefficient 1). -/
theorem C31_pow_partial (e : Env F) (t s : UnivariateTerm F) (k : ℕ) (h : t.pow k = .ok s) :
    uniValue e s = t.coeff * (e t.register t.stepsDifference ^ t.power) ^ k ∧
      (t.coeff ^ k = t.coeff → uniValue e s = uniValue e t ^ k) := by
  simp only [UnivariateTerm.pow, Res.bind_eq_ok, Res.pure_def] at h
  obtain ⟨d, hd, h⟩ := h
  simp only [checkedMul64] at hd
  split at hd
  swap; · cases hd
  cases hd; cases h
  simp only [uniValue]
  refine ⟨by rw [pow_mul], fun hc => ?_⟩
  rw [pow_mul, mul_pow, hc]

/-- **C31** (powers, exactly when). `pow` gives the power of the term, in every environment, exactly for the coefficients that are their own power. -/
theorem C31_pow_iff (t s : UnivariateTerm F) (k : ℕ) (h : t.pow k = .ok s) :
    (∀ e : Env F, uniValue e s = uniValue e t ^ k) ↔ t.coeff ^ k = t.coeff := by
  refine ⟨fun he => ?_, fun hc e => (C31_pow_partial e t s k h).2 hc⟩
  have h1 := he (fun _ _ => 1)
  rw [(C31_pow_partial _ t s k h).1] at h1
  simp only [uniValue, one_pow, mul_one] at h1
  exact h1.symm

/-- **C31** is false for `pow` of a scaled term: `(2·r)^2` evaluates to `2·r²`, not `4·r²`. -/
theorem C31_pow_wrong : ∃ (e : Env Fr) (t s : UnivariateTerm Fr), t.pow 2 = .ok s ∧
    uniValue e s ≠ uniValue e t ^ 2 := by
  refine ⟨fun _ _ => 1, (UnivariateTerm.ofRegister (.register 0)).mulScalar 2, _, rfl, ?_⟩
  simp only [uniValue, UnivariateTerm.mulScalar, UnivariateTerm.ofRegister]
  decide +kernel

/-- Overflowing exponents and degrees are refused: `pow` and the products panic exactly when the new power
or degree does not fit in 64 bits. -/
theorem C31_overflow (t : UnivariateTerm F) (p q : PolyvariateTerm F) (k : ℕ) :
    (t.pow k = .panic ↔ 2 ^ 64 ≤ t.power * k) ∧
      (p.mulUnivariate t = .panic ↔ 2 ^ 64 ≤ p.totalDegree + t.power) ∧
      (p.mulPolyvariate q = .panic ↔ 2 ^ 64 ≤ p.totalDegree + q.totalDegree) := by
  refine ⟨?_, ?_, ?_⟩
  · unfold UnivariateTerm.pow checkedMul64
    split
    · simp; omega
    · simp; omega
  · unfold PolyvariateTerm.mulUnivariate checkedAdd64
    split
    · simp; omega
    · simp; omega
  · unfold PolyvariateTerm.mulPolyvariate checkedAdd64
    split
    · simp; omega
    · simp; omega

/-! ## C32 -/

theorem BuiltPoly.degree {p : PolyvariateTerm F} (h : BuiltPoly p) :
    (p.terms.map (fun u => u.power)).sum = p.totalDegree := by
  induction h with
  | ofPair x t => simp [PolyvariateTerm.ofPair]
  | default => simp [PolyvariateTerm.default]
  | mulUnivariate t hp hq ih =>
    simp only [PolyvariateTerm.mulUnivariate, checkedAdd64] at hq
    split at hq
    swap; · cases hq
    cases hq
    simp [ih]
  | mulScalar x hp ih => exact ih
  | mulPolyvariate hp hp' hq ih ih' =>
    simp only [PolyvariateTerm.mulPolyvariate, checkedAdd64] at hq
    split at hq
    swap; · cases hq
    cases hq
    simp [ih, ih']

/-- The degree is the least upper bound of the degrees of the terms. -/
def DegreeExact (c : Constraint F) : Prop :=
  (∀ t ∈ c.terms, termDegree t ≤ c.degree) ∧ (c.degree = 0 ∨ ∃ t ∈ c.terms, termDegree t = c.degree)

theorem DegreeExact.push {c : Constraint F} (h : DegreeExact c) (d : ℕ) (t : ConstraintTerm F)
    (ht : termDegree t = d) : DegreeExact (c.push d t) := by
  obtain ⟨h1, h2⟩ := h
  unfold DegreeExact Constraint.push
  simp only [List.mem_append, List.mem_singleton]
  split
  · refine ⟨?_, Or.inr ⟨t, Or.inr rfl, ht⟩⟩
    rintro s (hs | rfl)
    · exact (h1 s hs).trans (by omega)
    · omega
  · refine ⟨?_, ?_⟩
    · rintro s (hs | rfl)
      · exact h1 s hs
      · omega
    · rcases h2 with h2 | ⟨s, hs, e⟩
      · exact Or.inl h2
      · exact Or.inr ⟨s, Or.inl hs, e⟩

/-- **C32.** The degree field of a constraint built with the operators is exactly the largest total degree
of its terms. -/
theorem C32_degree_exact {c : Constraint F} (h : Built c) :
    (∀ t ∈ c.terms, termDegree t ≤ c.degree) ∧
      (c.degree = 0 ∨ ∃ t ∈ c.terms, termDegree t = c.degree) := by
  induction h with
  | default => simp [Constraint.default]
  | addPolyvariate hc ht ih => exact DegreeExact.push ih _ _ (BuiltPoly.degree ht)
  | subPolyvariate hc ht ih =>
    have h1 := BuiltPoly.degree ht
    exact DegreeExact.push ih _ _ h1
  | addUnivariate t hc ih => exact DegreeExact.push ih _ _ (by simp [termDegree, termFactors])
  | subUnivariate t hc ih => exact DegreeExact.push ih _ _ (by simp [termDegree, termFactors])
  | addConstant x hc ih => exact ih
  | subConstant x hc ih => exact ih
  | setDensity d hc ih => exact ih

/-- **C32.** Composing such a constraint with register polynomials of degree `< T` gives a polynomial whose
value at `x` is the constraint's value at the masked register values, of degree at most `degree·(T-1)`. -/
theorem C32_composition_degree {c : Constraint F} (h : Built c) (P : ℕ → F[X]) (T : ℕ)
    (hP : ∀ r, (P r).degree < T) :
    ∃ Q : F[X], (∀ x, Q.eval x = constraintValue (pointEnv P x) c) ∧
      Q.natDegree ≤ c.degree * (T - 1) := by
  refine ⟨constraintPoly P c, fun x => eval_constraintPoly P x c, ?_⟩
  apply natDegree_constraintPoly P (T - 1) c.degree _ c (C32_degree_exact h).1
  intro r
  by_cases h0 : P r = 0
  · simp [h0]
  · have := hP r
    rw [degree_eq_natDegree h0] at this
    have : (P r).natDegree < T := by exact_mod_cast this
    omega

/-! ## C33 -/

section
variable [DecidableEq F]

theorem checkRow_spec {witness : List (List F)} {n T : ℕ} (h : IsTable witness n T) (row : ℕ)
    {c : Constraint F}
    (hc : ∀ u ∈ factors c, (∃ r, r < n ∧ u.register = .register r) ∧ ∃ k, u.stepsDifference = .steps k) :
    (HoldsAt (cellR witness) T c row → checkRow c witness row = .ok ()) ∧
      (¬ HoldsAt (cellR witness) T c row → ∃ e, checkRow c witness row = .err e) := by
  classical
  unfold checkRow HoldsAt
  rw [evalConstraint_if h row hc]
  by_cases h1 : ∀ u ∈ factors c, InTrace T row u
  · rw [if_pos h1]
    simp only [Res.ok_bind, Res.pure_def]
    by_cases h2 : constraintValue (rowEnv (cellR witness) row) c = 0
    · rw [if_neg (not_not.2 h2)]
      exact ⟨fun _ => rfl, fun hh => absurd ⟨h1, h2⟩ hh⟩
    · rw [if_pos h2]
      exact ⟨fun hh => absurd hh.2 h2, fun _ => ⟨_, rfl⟩⟩
  · rw [if_neg h1]
    simp only [Res.err_bind]
    exact ⟨fun hh => absurd hh.1 h1, fun _ => ⟨_, rfl⟩⟩

theorem checkConstraint_spec {witness : List (List F)} {n T : ℕ} (h : IsTable witness n T)
    {c : Constraint F} (hd : ∃ d, c.density = .dense d ∧ d.span ≤ T)
    (hc : ∀ u ∈ factors c, (∃ r, r < n ∧ u.register = .register r) ∧ ∃ k, u.stepsDifference = .steps k) :
    ((∀ row, Enforced c T row → HoldsAt (cellR witness) T c row) →
        checkConstraint witness T c = .ok ()) ∧
      (¬ (∀ row, Enforced c T row → HoldsAt (cellR witness) T c row) →
        ∃ e, checkConstraint witness T c = .err e) := by
  obtain ⟨d, ed, hs⟩ := hd
  have e : checkConstraint witness T c
      = forEach ((List.range (T - d.span - d.startAt)).map (fun i => d.startAt + i)) ()
          (fun row _ => checkRow c witness row) := by
    unfold checkConstraint denseRows
    rw [ed]
    simp [hs]
  have hmem : ∀ row, row ∈ (List.range (T - d.span - d.startAt)).map (fun i => d.startAt + i) ↔
      Enforced c T row := by
    intro row
    simp only [List.mem_map, List.mem_range, Enforced, ed, ConstraintDensity.dense.injEq]
    constructor
    · rintro ⟨i, hi, rfl⟩
      exact ⟨d, rfl, by omega, by omega⟩
    · rintro ⟨d', rfl, h1, h2⟩
      exact ⟨row - d.startAt, by omega, by omega⟩
  rw [e]
  have key := forEach_check ((List.range (T - d.span - d.startAt)).map (fun i => d.startAt + i))
    (fun row => checkRow c witness row) (fun row => HoldsAt (cellR witness) T c row)
    (fun row _ => (checkRow_spec h row hc).1) (fun row _ => (checkRow_spec h row hc).2)
  simp only [hmem] at key
  rcases key with ⟨h1, h2⟩ | ⟨h1, h2⟩
  · exact ⟨fun _ => h1, fun hh => absurd h2 hh⟩
  · exact ⟨fun hh => absurd hh h2, fun _ => h1⟩

theorem checkBoundary_spec {witness : List (List F)} {n T : ℕ} (h : IsTable witness n T)
    {b : BoundaryConstraint F} (hb : (∃ r, r < n ∧ b.register = .register r) ∧ b.atRow < T) :
    ((∀ v, b.value = some v → cellR witness b.register b.atRow = v) → checkBoundary witness b = .ok ()) ∧
      (¬ (∀ v, b.value = some v → cellR witness b.register b.atRow = v) →
        ∃ e, checkBoundary witness b = .err e) := by
  obtain ⟨⟨r, hr, er⟩, ht⟩ := hb
  obtain ⟨e1, e2⟩ := h.rd_row hr
  unfold checkBoundary
  rw [er]
  simp only [Register.num, Res.ok_bind]
  cases hv : b.value with
  | none => simp
  | some v =>
    have hlt : b.atRow < (witness.getD r []).length := by rw [e2]; exact ht
    have e3 : rd (witness.getD r []) b.atRow = .ok (cell witness r b.atRow) := by
      simp only [rd, cell, List.getElem?_eq_getElem hlt, Res.expect_some,
        List.getD_eq_getElem?_getD (l := witness.getD r []), Option.getD_some]
    simp only [e1, e3, Res.ok_bind, Option.some.injEq, forall_eq', cellR, Res.pure_def]
    by_cases hx : cell witness r b.atRow = v
    · rw [if_neg (by simpa using hx.symm)]
      exact ⟨fun _ => rfl, fun hh => absurd hx hh⟩
    · rw [if_pos (fun hh => hx hh.symm)]
      exact ⟨fun hh => absurd hh hx, fun _ => ⟨_, rfl⟩⟩

/-- **C33.** For a well-formed instance and a table of `n ≥ 1` registers and `T` rows, the check returns
`Ok` exactly when the trace satisfies the instance, and an error (never a panic) otherwise. -/
theorem C33_is_satisfied_iff (inst : InstanceProperties F) (witness : List (List F)) (n T : ℕ) (hn : 0 < n)
    (h : IsTable witness n T) (hwf : WellFormed inst n T) :
    (isSatisfied inst witness = .ok () ↔ Satisfies inst (cellR witness) T) ∧
      (¬ Satisfies inst (cellR witness) T → ∃ e, isSatisfied inst witness = .err e) := by
  obtain ⟨e1, e2⟩ := h.rd_row hn
  have k1 := forEach_check inst.constraints (checkConstraint witness T)
    (fun c => ∀ row, Enforced c T row → HoldsAt (cellR witness) T c row)
    (fun c hc => (checkConstraint_spec h (hwf.dense c hc) (hwf.factors c hc)).1)
    (fun c hc => (checkConstraint_spec h (hwf.dense c hc) (hwf.factors c hc)).2)
  have k2 := forEach_check inst.boundaryConstraints (checkBoundary witness)
    (fun b => ∀ v, b.value = some v → cellR witness b.register b.atRow = v)
    (fun b hb => (checkBoundary_spec h (hwf.boundary b hb)).1)
    (fun b hb => (checkBoundary_spec h (hwf.boundary b hb)).2)
  have e : isSatisfied inst witness
      = (forEach inst.constraints () (fun c _ => checkConstraint witness T c) >>= fun _ =>
          forEach inst.boundaryConstraints () (fun b _ => checkBoundary witness b)) := by
    unfold isSatisfied
    simp only [e1, Res.ok_bind, e2]
  rw [e]
  unfold Satisfies
  rcases k1 with ⟨h1, h2⟩ | ⟨⟨er, h1⟩, h2⟩
  · rw [h1, Res.ok_bind]
    rcases k2 with ⟨h3, h4⟩ | ⟨⟨er, h3⟩, h4⟩
    · rw [h3]
      exact ⟨⟨fun _ => ⟨h2, h4⟩, fun _ => rfl⟩, fun hh => absurd ⟨h2, h4⟩ hh⟩
    · rw [h3]
      exact ⟨⟨fun hh => (by cases hh), fun hh => absurd hh.2 h4⟩, fun _ => ⟨_, rfl⟩⟩
  · rw [h1, Res.err_bind]
    exact ⟨⟨fun hh => (by cases hh), fun hh => absurd hh.1 h2⟩, fun _ => ⟨_, rfl⟩⟩

/-- **C33** outside well-formed instances: an empty table panics; so does a constraint that is not dense, or
whose span exceeds the number of rows, if it is the first one. -/
theorem C33_panics (inst : InstanceProperties F) (row : List F) (rows : List (List F)) (c : Constraint F)
    (cs : List (Constraint F)) (hcs : inst.constraints = c :: cs)
    (hc : (∀ d, c.density ≠ .dense d) ∨ ∃ d, c.density = .dense d ∧ row.length < d.span) :
    isSatisfied inst [] = .panic ∧ isSatisfied inst (row :: rows) = .panic := by
  refine ⟨rfl, ?_⟩
  have e : checkConstraint (row :: rows) row.length c = .panic := by
    unfold checkConstraint
    rcases hc with hc | ⟨d, ed, hl⟩
    · cases hd : c.density with
      | dense d => exact absurd hd (hc d)
      | repeated d => rfl
      | sparse d => rfl
    · rw [ed]
      simp [denseRows, not_le.2 hl]
  unfold isSatisfied
  simp [rd, hcs, forEach, e]

end

/-! ## Non-vacuity -/

/-- A satisfied instance: one register, `r(t+1) = 3·r(t)²`, `r(0) = 2`. -/
def airDemo : InstanceProperties Fr :=
  { numRows := 4, numRegisters := 1,
    constraints := [(Constraint.default.addUnivariate
      ((UnivariateTerm.ofRegister (.register 0)).setStepDifference 1)).subUnivariate
        { coeff := 3, register := .register 0, stepsDifference := .steps 0, power := 2 }],
    boundaryConstraints := [{ register := .register 0, atRow := 0, value := some 2 }] }

example : IsTable [[2, 12, 175, 126]] 1 4 ∧ WellFormed airDemo 1 4 := by
  refine ⟨⟨rfl, by decide⟩, ⟨?_, ?_, ?_⟩⟩
  · intro c hc
    simp only [airDemo, List.mem_singleton] at hc
    exact ⟨DenseConstraint.default, by rw [hc]; rfl, by decide⟩
  · intro c hc t ht
    simp only [airDemo, List.mem_singleton] at hc
    subst hc
    simp only [factors, Constraint.addUnivariate, Constraint.subUnivariate, Constraint.push, Constraint.default,
      List.nil_append, List.cons_append, List.flatMap_cons, List.flatMap_nil, termFactors, List.mem_cons,
      List.append_nil, List.not_mem_nil, or_false] at ht
    rcases ht with rfl | rfl
    · exact ⟨⟨0, by decide, rfl⟩, 1, rfl⟩
    · exact ⟨⟨0, by decide, rfl⟩, 0, rfl⟩
  · intro b hb
    simp only [airDemo, List.mem_singleton] at hb
    subst hb
    exact ⟨⟨0, by decide, rfl⟩, by decide⟩

example : isSatisfied airDemo [[2, 12, 175, 126]] = .ok () := by decide +kernel
example : isSatisfied airDemo [[2, 12, 175, 125]] = .err .unsatisfied := by decide +kernel
example : isSatisfied airDemo [[3, 27, 131, 83]] = .err .error := by decide +kernel

example : ∃ c, airDemo.constraints = [c] ∧ Built c ∧ c.degree = 2 :=
  ⟨_, rfl, Built.subUnivariate _ (Built.addUnivariate _ Built.default), rfl⟩

example : ∃ p q : PolyvariateTerm Fr, BuiltPoly p ∧
    p.mulUnivariate (UnivariateTerm.ofRegister (.register 1)) = .ok q :=
  ⟨_, _, BuiltPoly.ofPair 5 (UnivariateTerm.ofRegister (.register 0)), rfl⟩

end Hodor

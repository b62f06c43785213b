import Verif.Lemmas.Arp
import Verif.Spec.Arp
import Verif.Model.F257
import Mathlib.Data.Nat.Fib.Basic

/-!
# C34-C37: from a trace to an instance with polynomials
-/

namespace Hodor

open Spec Polynomial

section
variable {F : Type} [Field F] [DecidableEq F] [StarkField F]

/-- **C34**: for every CPU count, a witness table of `n` registers and `2^k` rows that matches the instance
is turned into `n` polynomials of degree `< 2^k`, the `r`-th one interpolating register `r`: its value at
`ω^i` is the entry of row `i`. -/
theorem C34_interpolates (w : Worker) (inst : InstanceProperties F) (witness : List (List F)) (n k : ℕ)
    (hn : 0 < n) (h : IsTable witness n (2 ^ k)) (hk : k ≤ StarkField.S F) (h32 : k < 32)
    (h1 : inst.numRegisters = n) (h2 : inst.numRows = 2 ^ k) :
    ∃ P : ℕ → F[X], calculateWitnessPolys inst witness w
        = .ok (tab n (fun r => mkPoly .coefficients k (P r).coeff)) ∧
      (∀ r, r < n → (P r).degree < (2 ^ k : ℕ)) ∧
      ∀ r, r < n → ∀ i, i < 2 ^ k → (P r).eval (genOf F k ^ i) = cell witness r i := by
  have hex : ∀ r, ∃ p : F[X], p.degree < (2 ^ k : ℕ) ∧
      ∀ i, i < 2 ^ k → p.eval (genOf F k ^ i) = cell witness r i := by
    intro r
    obtain ⟨p, hp, hv⟩ := exists_poly_values (F := F) hk one_ne_zero (fun i => cell witness r i)
    exact ⟨p, hp, fun i hi => by simpa using hv i hi⟩
  choose P hP hv using hex
  refine ⟨P, ?_, fun r _ => hP r, fun r _ => hv r⟩
  obtain ⟨e1, e2⟩ := h.rd_row hn
  unfold calculateWitnessPolys
  rw [e1, Res.ok_bind, e2]
  simp only [IsTable.all h, Res.assert_true, Res.ok_bind, h.1, h1, h2, ne_eq, not_true_eq_false, if_false]
  exact makeWitnessPolynomials_ok w hn h hk h32 (fun r _ => hP r) (fun r _ => hv r)

/-- **C34**: a rectangular witness whose number of registers or rows differs from the instance is refused
with an error. -/
theorem C34_mismatch (w : Worker) (inst : InstanceProperties F) (witness : List (List F)) (n T : ℕ)
    (hn : 0 < n) (h : IsTable witness n T) (hne : n ≠ inst.numRegisters ∨ T ≠ inst.numRows) :
    calculateWitnessPolys inst witness w = .err .error := by
  obtain ⟨e1, e2⟩ := h.rd_row hn
  unfold calculateWitnessPolys
  rw [e1, Res.ok_bind, e2]
  simp only [IsTable.all h, Res.assert_true, Res.ok_bind, h.1]
  rcases hne with h1 | h1
  · rw [if_pos h1]
  · by_cases h2 : n = inst.numRegisters
    · rw [if_neg (not_not.2 h2), if_pos h1]
    · rw [if_pos h2]

omit [DecidableEq F] [StarkField F] in
theorem bestFft_panic (w : Worker) {row : List F} {ω : F} {L : ℕ} (h : row.length ≠ 2 ^ L)
    (h1 : row.length ≤ 2 ^ L) : bestFft w row ω L (some 1) = .panic := by
  have h2 : Nat.log 2 1 = 0 := by simp
  have h3 : decide (1 ≤ w.cpus) = true := decide_eq_true w.pos
  simp only [bestFft, log2Floor, h2, h3, Res.assert_true, Res.ok_bind, serialFft, Nat.lt_one_iff,
    decide_true, Nat.zero_lt_one, Res.pure_def, true_or, if_true]
  by_cases hL : L < 32
  · have h4 : row.length % 2 ^ 32 = row.length := by
      apply Nat.mod_eq_of_lt
      exact lt_of_le_of_lt h1 (Nat.pow_lt_pow_right (by norm_num) hL)
    have h5 : decide (row.length = 2 ^ L) = false := decide_eq_false h
    rw [h4, h5, decide_eq_true hL]
    rfl
  · rw [decide_eq_false hL]
    rfl

/-- **C34**: the number of rows has to be a power of two. A rectangular witness that matches an instance
with any other number of rows is not padded: the call panics (or fails when the field has no domain of
that size). A witness without registers, or a ragged one, panics. -/
theorem C34_rows_not_power_of_two (w : Worker) (inst : InstanceProperties F) (witness : List (List F))
    (n T : ℕ) (hn : 0 < n) (h : IsTable witness n T) (h1 : inst.numRegisters = n) (h2 : inst.numRows = T)
    (hT : ∀ k, T ≠ 2 ^ k) :
    calculateWitnessPolys inst witness w
      = if Nat.clog 2 T ≤ StarkField.S F then .panic else .err .error := by
  obtain ⟨e1, e2⟩ := h.rd_row hn
  unfold calculateWitnessPolys
  rw [e1, Res.ok_bind, e2]
  simp only [IsTable.all h, Res.assert_true, Res.ok_bind, h.1, h1, h2, ne_eq, not_true_eq_false, if_false]
  unfold makeWitnessPolynomials
  rw [e1, Res.ok_bind, e2]
  have e3 : Nat.clog 2 (nextPow2 T) = Nat.clog 2 T := by
    unfold nextPow2; rw [Nat.clog_pow _ _ (by norm_num)]
  simp only [IsTable.all h, Res.assert_true, Res.ok_bind, newForSize_eq, e3]
  by_cases hk : Nat.clog 2 T ≤ StarkField.S F
  swap
  · simp only [if_neg hk, Res.err_bind]
  simp only [if_pos hk, Res.ok_bind]
  have e4 : inverse (genOf F (Nat.clog 2 T)) = some (genOf F (Nat.clog 2 T))⁻¹ := by
    unfold inverse; rw [if_neg (genOf_ne_zero hk)]
  have e5 : inverse ((2 ^ Nat.clog 2 T : ℕ) : F) = some ((2 ^ Nat.clog 2 T : ℕ) : F)⁻¹ := by
    unfold inverse; rw [if_neg (pow2_cast_ne_zero hk)]
  rw [e4, e5, h.1, witnessHint_eq w hn]
  simp only [Res.expect_some, Res.ok_bind]
  obtain ⟨row, rows, hw⟩ : ∃ row rows, witness = row :: rows := by
    cases hw : witness with
    | nil => have := h.1; rw [hw] at this; simp at this; omega
    | cons a l => exact ⟨a, l, rfl⟩
  have hl : row.length = T := h.2 row (by rw [hw]; exact List.mem_cons_self ..)
  rw [hw]
  simp only [mapRes]
  rw [bestFft_panic w (by rw [hl]; exact hT _) (by rw [hl]; exact Nat.le_pow_clog (by norm_num) T)]
  rfl

theorem C34_malformed (w : Worker) (inst : InstanceProperties F) (row : List F) (rows : List (List F))
    (h : ∃ r ∈ rows, r.length ≠ row.length) :
    calculateWitnessPolys inst [] w = .panic ∧ calculateWitnessPolys inst (row :: rows) w = .panic := by
  refine ⟨rfl, ?_⟩
  obtain ⟨r, hr, hl⟩ := h
  have e : ((row :: rows).all (fun r => decide (row.length = r.length))) = false := by
    rw [List.all_eq_false]
    exact ⟨r, List.mem_cons_of_mem _ hr, by simpa using fun e => hl e.symm⟩
  unfold calculateWitnessPolys
  simp only [rd, List.getElem?_cons_zero, Res.expect_some, Res.ok_bind]
  rw [e]
  rfl

/-- **C35**: conversion keeps everything but the step differences; in the result, whatever polynomials `P`
are put in for the registers, reading register `r` with step difference `k` at the point `x` evaluates
`P r` at `ω^k * x`. -/
theorem C35_masks (inst : InstanceProperties F) (k : ℕ) (hk : k ≤ StarkField.S F)
    (hT : nextPow2 inst.numRows = 2 ^ k)
    (h : ∀ c ∈ inst.constraints, ∀ u ∈ factors c, (∃ r, u.register = .register r) ∧
      ∃ k, u.stepsDifference = .steps k) :
    ∃ inst', fromInstance inst = .ok inst' ∧ inst'.numRows = inst.numRows ∧
      inst'.numRegisters = inst.numRegisters ∧ inst'.boundaryConstraints = inst.boundaryConstraints ∧
      List.Forall₂ (fun c c' => c'.degree = c.degree ∧ c'.density = c.density ∧
        ∀ (P : ℕ → F[X]) (x : F), constraintValue (pointEnv P x) c' =
          constraintValue (fun r s => match r, s with
            | .register r, .steps j => (P r).eval (genOf F k ^ j * x)
            | _, _ => 0) c) inst.constraints inst'.constraints := by
  refine ⟨_, fromInstance_ok hk hT (fun c hc u hu => (h c hc u hu).2), rfl, rfl, rfl, ?_⟩
  simp only
  rw [List.forall₂_map_right_iff, List.forall₂_same]
  intro c hc
  refine ⟨rfl, rfl, ?_⟩
  intro P x
  apply constraintValue_maskC
  · intro r j
    cases r <;> rfl
  · exact fun u hu => (h c hc u hu).2

/-- **C35**: at the point `ω^i` of the trace domain the converted constraint has the value the original one
has at row `i` of the trace, with row numbers taken cyclically. -/
theorem C35_reads_trace (inst inst' : InstanceProperties F) (k : ℕ) (hk : k ≤ StarkField.S F)
    (hT : nextPow2 inst.numRows = 2 ^ k)
    (h : ∀ c ∈ inst.constraints, ∀ u ∈ factors c, (∃ r, u.register = .register r) ∧
      ∃ k, u.stepsDifference = .steps k)
    (hr : fromInstance inst = .ok inst') (P : ℕ → F[X]) (T : Register → ℕ → F)
    (hv : ∀ r i, i < 2 ^ k → (P r).eval (genOf F k ^ i) = T (.register r) i) (i : ℕ) :
    List.Forall₂ (fun c c' => constraintValue (pointEnv P (genOf F k ^ i)) c'
      = constraintValue (rowEnv (fun r j => T r (j % 2 ^ k)) i) c) inst.constraints inst'.constraints := by
  rw [fromInstance_ok hk hT (fun c hc u hu => (h c hc u hu).2)] at hr
  cases hr
  simp only
  rw [List.forall₂_map_right_iff, List.forall₂_same]
  intro c hc
  rw [constraintValue_maskC (pointEnv P (genOf F k ^ i)) (fun r s => match r, s with
            | .register r, .steps j => (P r).eval (genOf F k ^ j * genOf F k ^ i)
            | _, _ => 0) (genOf F k) (by intro r j; cases r <;> rfl) (fun u hu => (h c hc u hu).2)]
  apply constraintValue_congr
  intro u hu
  obtain ⟨⟨r, er⟩, ⟨m, em⟩⟩ := h c hc u hu
  rw [er, em]
  simp only [rowEnv]
  rw [← hv r _ (Nat.mod_lt _ (by positivity)), ← pow_add, Nat.add_comm m i]
  congr 1
  exact pow_eq_pow_mod _ (genOf_pow_card hk)

end

/-- Two registers, four rows. -/
def arpDemo : InstanceProperties Fr :=
  { numRows := 4, numRegisters := 2,
    constraints := [(Constraint.default.addUnivariate
      ((UnivariateTerm.ofRegister (.register 0)).setStepDifference 1)).subUnivariate
        (UnivariateTerm.ofRegister (.register 1))],
    boundaryConstraints := [] }

example : IsTable [[1, 2, 3, 5], [2, 3, 5, 8]] 2 (2 ^ 2) ∧ 2 ≤ StarkField.S Fr ∧ arpDemo.numRegisters = 2 ∧
    arpDemo.numRows = 2 ^ 2 :=
  ⟨⟨rfl, by decide⟩, by decide, rfl, rfl⟩

example : ∃ ps : List (Poly Fr .coefficients),
    calculateWitnessPolys arpDemo [[1, 2, 3, 5], [2, 3, 5, 8]] ⟨3, by norm_num⟩ = .ok ps ∧ ps.length = 2 := by
  obtain ⟨P, h, -⟩ := C34_interpolates (F := Fr) ⟨3, by norm_num⟩ arpDemo [[1, 2, 3, 5], [2, 3, 5, 8]] 2 2
    (by norm_num) ⟨rfl, by decide⟩ (by decide) (by norm_num) rfl rfl
  exact ⟨_, h, by simp⟩

example : calculateWitnessPolys arpDemo [[1, 2, 3, 5]] ⟨3, by norm_num⟩ = .err .error := by decide +kernel
example : calculateWitnessPolys { arpDemo with numRows := 3 } [[1, 2, 3], [2, 3, 5]] ⟨3, by norm_num⟩ = .panic := by
  decide +kernel
example : calculateWitnessPolys arpDemo [[1, 2, 3, 5], [2, 3, 5]] ⟨3, by norm_num⟩ = .panic := by decide +kernel

example : nextPow2 arpDemo.numRows = 2 ^ 2 ∧ ∀ c ∈ arpDemo.constraints, ∀ u ∈ factors c,
    (∃ r, u.register = .register r) ∧ ∃ k, u.stepsDifference = .steps k := by
  refine ⟨by decide +kernel, ?_⟩
  intro c hc u hu
  simp only [arpDemo, List.mem_singleton] at hc
  subst hc
  have e : factors ((Constraint.default.addUnivariate
      ((UnivariateTerm.ofRegister (.register 0)).setStepDifference 1)).subUnivariate
        (UnivariateTerm.ofRegister (.register 1)) : Constraint Fr)
      = [(UnivariateTerm.ofRegister (F := Fr) (.register 0)).setStepDifference 1,
        { UnivariateTerm.ofRegister (F := Fr) (.register 1) with coeff := (-1 : Fr) }] := rfl
  rw [e] at hu
  simp only [List.mem_cons, List.not_mem_nil, or_false] at hu
  rcases hu with rfl | rfl
  · exact ⟨⟨0, rfl⟩, 1, rfl⟩
  · exact ⟨⟨1, rfl⟩, 0, rfl⟩

end Hodor

import Verif.Model.Vdf
import Verif.Props.Stark
import Mathlib.Algebra.QuadraticAlgebra.Defs

/-!
# C38, C39: the VDF instances

The specification is arithmetic in `F[u]/(u² + 1)`, Mathlib's `QuadraticAlgebra F (-1) 0`: `n` operations of the squaring VDF raise the
start to the power `2^n`, those of the cubic VDF to `3^n`.
-/

namespace Hodor

open Spec

variable {F : Type} [Field F]

/-- `F[u]/(u² + 1)` -/
abbrev Quad (F : Type) [Field F] := QuadraticAlgebra F (-1) 0

/-- The starting point of the VDF. -/
def Vdf.start (v : Vdf F) : Quad F := ⟨v.startC0, v.startC1⟩

/-- Registers 0 and 1 of a trace at a row. -/
def vdfState (w : Register → ℕ → F) (row : ℕ) : Quad F := ⟨w (.register 0) row, w (.register 1) row⟩

theorem vdfSquare_eq (z : Quad F) : vdfSquare (z.re, z.im) (-1) = ((z ^ 2).re, (z ^ 2).im) := by
  simp only [vdfSquare, pow_two, QuadraticAlgebra.re_mul, QuadraticAlgebra.im_mul, Prod.mk.injEq]
  constructor <;> ring

theorem vdfMul_eq (z y : Quad F) : vdfMul (z.re, z.im) (y.re, y.im) (-1) = ((z * y).re, (z * y).im) := by
  simp only [vdfMul, QuadraticAlgebra.re_mul, QuadraticAlgebra.im_mul, Prod.mk.injEq]
  constructor <;> ring

/-! ### The instances in closed form -/

/-- The first constraint of the squaring VDF. -/
def vdfC0 (F : Type) [Field F] : Constraint F :=
  { constantTerm := 0,
    terms := [.univariate ⟨-1, .register 0, .steps 0, 2⟩, .univariate ⟨1, .register 1, .steps 0, 2⟩,
      .univariate ⟨1, .register 0, .steps 1, 1⟩],
    degree := 2, density := .dense ⟨0, 1⟩ }

/-- The second one. -/
def vdfC1 (F : Type) [Field F] : Constraint F :=
  { constantTerm := 0,
    terms := [.polyvariate ⟨-2, [⟨1, .register 0, .steps 0, 1⟩, ⟨1, .register 1, .steps 0, 1⟩], 2⟩,
      .univariate ⟨1, .register 1, .steps 1, 1⟩],
    degree := 2, density := .dense ⟨0, 1⟩ }

/-- The boundary constraints of both VDFs: start and output. -/
def vdfBoundary (N : ℕ) (s o : Quad F) : List (BoundaryConstraint F) :=
  [⟨.register 0, 0, some s.re⟩, ⟨.register 1, 0, some s.im⟩, ⟨.register 0, N, some o.re⟩, ⟨.register 1, N, some o.im⟩]

def vdfInst (N : ℕ) (s o : Quad F) : InstanceProperties F :=
  { numRows := N + 1, numRegisters := 2, constraints := [vdfC0 F, vdfC1 F], boundaryConstraints := vdfBoundary N s o }

def cubicC0 (F : Type) [Field F] : Constraint F :=
  { constantTerm := 0,
    terms := [.univariate ⟨-1, .register 0, .steps 0, 2⟩, .univariate ⟨1, .register 1, .steps 0, 2⟩,
      .univariate ⟨1, .register 2, .steps 0, 1⟩],
    degree := 2, density := .dense ⟨0, 1⟩ }

def cubicC1 (F : Type) [Field F] : Constraint F :=
  { constantTerm := 0,
    terms := [.polyvariate ⟨-2, [⟨1, .register 0, .steps 0, 1⟩, ⟨1, .register 1, .steps 0, 1⟩], 2⟩,
      .univariate ⟨1, .register 3, .steps 0, 1⟩],
    degree := 2, density := .dense ⟨0, 1⟩ }

def cubicC2 (F : Type) [Field F] : Constraint F :=
  { constantTerm := 0,
    terms := [.polyvariate ⟨-1, [⟨1, .register 0, .steps 0, 1⟩, ⟨1, .register 2, .steps 0, 1⟩], 2⟩,
      .polyvariate ⟨1, [⟨1, .register 1, .steps 0, 1⟩, ⟨1, .register 3, .steps 0, 1⟩], 2⟩,
      .univariate ⟨1, .register 0, .steps 1, 1⟩],
    degree := 2, density := .dense ⟨0, 1⟩ }

def cubicC3 (F : Type) [Field F] : Constraint F :=
  { constantTerm := 0,
    terms := [.polyvariate ⟨-1, [⟨1, .register 0, .steps 0, 1⟩, ⟨1, .register 3, .steps 0, 1⟩], 2⟩,
      .polyvariate ⟨-1, [⟨1, .register 1, .steps 0, 1⟩, ⟨1, .register 2, .steps 0, 1⟩], 2⟩,
      .univariate ⟨1, .register 1, .steps 1, 1⟩],
    degree := 2, density := .dense ⟨0, 1⟩ }

def cubicInst (N : ℕ) (s o : Quad F) : InstanceProperties F :=
  { numRows := N + 1, numRegisters := 4, constraints := [cubicC0 F, cubicC1 F, cubicC2 F, cubicC3 F],
    boundaryConstraints := vdfBoundary N s o }

/-- Column of a quantity computed at every row. -/
abbrev col (N : ℕ) (g : ℕ → F) : List F := tab (N + 1) g

/-- A column filled up to row `i`. -/
def filled (N : ℕ) (g : ℕ → F) (i : ℕ) : List F := tab (N + 1) (fun j => if j ≤ i then g j else 0)

theorem filled_start (N : ℕ) (g : ℕ → F) : wr (List.replicate (N + 1) (0 : F)) 0 (g 0) = .ok (filled N g 0) := by
  rw [replicate_eq_tab, wr_tab (by omega)]
  unfold filled
  congr 1
  apply tab_congr
  intro j _
  by_cases h : j = 0
  · subst h; simp
  · simp [h]

theorem filled_step (N : ℕ) (g : ℕ → F) {i : ℕ} (h : i < N) : wr (filled N g i) (i + 1) (g (i + 1)) = .ok (filled N g (i + 1)) := by
  unfold filled
  rw [wr_tab (by omega)]
  congr 1
  apply tab_congr
  intro j _
  by_cases h1 : j = i + 1
  · subst h1; simp
  · by_cases h2 : j ≤ i
    · simp [h1, h2, show j ≤ i + 1 by omega]
    · simp [h1, h2, show ¬ j ≤ i + 1 by omega]

theorem filled_end (N : ℕ) (g : ℕ → F) : filled N g N = col N g := by
  unfold filled
  apply tab_congr
  intro j hj
  simp [show j ≤ N by omega]

theorem intoArp_eq (v : Vdf F) :
    v.intoArp = .ok ([col v.numOperations (fun i => (v.start ^ 2 ^ i).re), col v.numOperations (fun i => (v.start ^ 2 ^ i).im)],
      vdfInst v.numOperations v.start (v.start ^ 2 ^ v.numOperations)) := by
  have h0 := filled_start v.numOperations (fun i => (v.start ^ 2 ^ i).re)
  have h1 := filled_start v.numOperations (fun i => (v.start ^ 2 ^ i).im)
  rw [pow_zero, pow_one] at h0 h1
  have loop := forN_eq (fun i => (((v.start ^ 2 ^ i).re, (v.start ^ 2 ^ i).im), filled v.numOperations (fun i => (v.start ^ 2 ^ i).re) i,
      filled v.numOperations (fun i => (v.start ^ 2 ^ i).im) i)) (vdfStep (-1)) v.numOperations 0 (by
    intro i _ hi
    have e : (v.start ^ 2 ^ i) ^ 2 = v.start ^ 2 ^ (i + 1) := by rw [← pow_mul, ← pow_succ]
    simp only [vdfStep, vdfSquare_eq, e]
    rw [filled_step _ (fun i => (v.start ^ 2 ^ i).re) (by omega), Res.ok_bind,
      filled_step _ (fun i => (v.start ^ 2 ^ i).im) (by omega), Res.ok_bind, Res.pure_def])
  rw [pow_zero, pow_one, Nat.zero_add, filled_end, filled_end] at loop
  have p1 : checkedMul64 1 2 = .ok 2 := rfl
  have p2 : checkedAdd64 0 1 = .ok 1 := rfl
  have p3 : checkedAdd64 1 1 = .ok 2 := rfl
  simp only [Vdf.intoArp, UnivariateTerm.pow, UnivariateTerm.ofRegister, UnivariateTerm.setStepDifference, UnivariateTerm.mulScalar,
    PolyvariateTerm.default, PolyvariateTerm.mulScalar, PolyvariateTerm.mulUnivariate, p1, p2, p3, Res.ok_bind, Res.pure_def]
  erw [h0, Res.ok_bind, h1, Res.ok_bind, loop, Res.ok_bind]
  simp only [getLast?_tab]
  congr 2
  simp only [vdfInst, vdfC0, vdfC1, vdfBoundary, Constraint.default, Constraint.subUnivariate, Constraint.addUnivariate, Constraint.subPolyvariate,
    Constraint.push, DenseConstraint.default, List.nil_append, List.cons_append, Vdf.start]
  norm_num

theorem intoArpCubic_eq (v : Vdf F) :
    v.intoArpCubic = .ok ([col v.numOperations (fun i => (v.start ^ 3 ^ i).re), col v.numOperations (fun i => (v.start ^ 3 ^ i).im),
        col v.numOperations (fun i => ((v.start ^ 3 ^ i) ^ 2).re), col v.numOperations (fun i => ((v.start ^ 3 ^ i) ^ 2).im)],
      cubicInst v.numOperations v.start (v.start ^ 3 ^ v.numOperations)) := by
  have h0 := filled_start v.numOperations (fun i => (v.start ^ 3 ^ i).re)
  have h1 := filled_start v.numOperations (fun i => (v.start ^ 3 ^ i).im)
  have h2 := filled_start v.numOperations (fun i => ((v.start ^ 3 ^ i) ^ 2).re)
  have h3 := filled_start v.numOperations (fun i => ((v.start ^ 3 ^ i) ^ 2).im)
  rw [pow_zero, pow_one] at h0 h1 h2 h3
  have loop := forN_eq (fun i => (⟨((v.start ^ 3 ^ i).re, (v.start ^ 3 ^ i).im), (((v.start ^ 3 ^ i) ^ 2).re, ((v.start ^ 3 ^ i) ^ 2).im),
      filled v.numOperations (fun i => (v.start ^ 3 ^ i).re) i, filled v.numOperations (fun i => (v.start ^ 3 ^ i).im) i,
      filled v.numOperations (fun i => ((v.start ^ 3 ^ i) ^ 2).re) i, filled v.numOperations (fun i => ((v.start ^ 3 ^ i) ^ 2).im) i⟩ : CubicState F))
      (cubicStep (-1)) v.numOperations 0 (by
    intro i _ hi
    have e : (v.start ^ 3 ^ i) ^ 2 * v.start ^ 3 ^ i = v.start ^ 3 ^ (i + 1) := by rw [← pow_succ, ← pow_mul, ← pow_succ]
    simp only [cubicStep, vdfMul_eq, e, vdfSquare_eq]
    rw [filled_step _ (fun i => (v.start ^ 3 ^ i).re) (by omega), Res.ok_bind,
      filled_step _ (fun i => (v.start ^ 3 ^ i).im) (by omega), Res.ok_bind,
      filled_step _ (fun i => ((v.start ^ 3 ^ i) ^ 2).re) (by omega), Res.ok_bind,
      filled_step _ (fun i => ((v.start ^ 3 ^ i) ^ 2).im) (by omega), Res.ok_bind, Res.pure_def])
  rw [pow_zero, pow_one, Nat.zero_add, filled_end, filled_end, filled_end, filled_end] at loop
  have sq : vdfSquare (v.startC0, v.startC1) (-1) = ((v.start ^ 2).re, (v.start ^ 2).im) := vdfSquare_eq v.start
  simp only [Vdf.intoArpCubic, sq]
  erw [h0, Res.ok_bind, h1, Res.ok_bind, h2, Res.ok_bind, h3, Res.ok_bind, loop, Res.ok_bind]
  simp only [getLast?_tab, Res.pure_def]
  congr 2
  simp only [cubicInst, cubicC0, cubicC1, cubicC2, cubicC3, vdfBoundary, cubicTerm, cubicProduct, Constraint.default, Constraint.subUnivariate,
    Constraint.addUnivariate, Constraint.subPolyvariate, Constraint.push, DenseConstraint.default, List.nil_append, List.cons_append, Vdf.start]
  norm_num

/-! ### Meaning of the constraints -/

theorem vdfC0_value (w : Register → ℕ → F) (row : ℕ) :
    constraintValue (rowEnv w row) (vdfC0 F) = w (.register 0) (row + 1) - (w (.register 0) row ^ 2 - w (.register 1) row ^ 2) := by
  simp [constraintValue, vdfC0, termValue, uniValue, rowEnv]; ring

theorem vdfC1_value (w : Register → ℕ → F) (row : ℕ) :
    constraintValue (rowEnv w row) (vdfC1 F) = w (.register 1) (row + 1) - 2 * w (.register 0) row * w (.register 1) row := by
  simp [constraintValue, vdfC1, termValue, uniValue, polyTermValue, rowEnv]; ring

theorem cubicC0_value (w : Register → ℕ → F) (row : ℕ) :
    constraintValue (rowEnv w row) (cubicC0 F) = w (.register 2) row - (w (.register 0) row ^ 2 - w (.register 1) row ^ 2) := by
  simp [constraintValue, cubicC0, termValue, uniValue, rowEnv]; ring

theorem cubicC1_value (w : Register → ℕ → F) (row : ℕ) :
    constraintValue (rowEnv w row) (cubicC1 F) = w (.register 3) row - 2 * w (.register 0) row * w (.register 1) row := by
  simp [constraintValue, cubicC1, termValue, uniValue, polyTermValue, rowEnv]; ring

theorem cubicC2_value (w : Register → ℕ → F) (row : ℕ) :
    constraintValue (rowEnv w row) (cubicC2 F)
      = w (.register 0) (row + 1) - (w (.register 0) row * w (.register 2) row - w (.register 1) row * w (.register 3) row) := by
  simp [constraintValue, cubicC2, termValue, uniValue, polyTermValue, rowEnv]; ring

theorem cubicC3_value (w : Register → ℕ → F) (row : ℕ) :
    constraintValue (rowEnv w row) (cubicC3 F)
      = w (.register 1) (row + 1) - (w (.register 0) row * w (.register 3) row + w (.register 1) row * w (.register 2) row) := by
  simp [constraintValue, cubicC3, termValue, uniValue, polyTermValue, rowEnv]; ring

/-- All factors of these constraints read the current or the next row of a numbered register. -/
def NearFactors (n : ℕ) (c : Constraint F) : Prop :=
  ∀ u ∈ factors c, (∃ r, r < n ∧ u.register = .register r) ∧ ∃ j, j ≤ 1 ∧ u.stepsDifference = .steps j

theorem near_vdf : ∀ c ∈ [vdfC0 F, vdfC1 F], NearFactors 2 c ∧ c.density = .dense ⟨0, 1⟩ := by
  intro c hc
  simp only [List.mem_cons, List.not_mem_nil, or_false] at hc
  rcases hc with rfl | rfl <;> refine ⟨?_, rfl⟩ <;> intro u hu <;>
    simp [factors, vdfC0, vdfC1, termFactors] at hu <;> rcases hu with rfl | rfl | rfl <;>
    exact ⟨⟨_, by norm_num, rfl⟩, _, by norm_num, rfl⟩

theorem near_cubic : ∀ c ∈ [cubicC0 F, cubicC1 F, cubicC2 F, cubicC3 F], NearFactors 4 c ∧ c.density = .dense ⟨0, 1⟩ := by
  intro c hc
  simp only [List.mem_cons, List.not_mem_nil, or_false] at hc
  rcases hc with rfl | rfl | rfl | rfl <;> refine ⟨?_, rfl⟩ <;> intro u hu
  · simp [factors, cubicC0, termFactors] at hu
    rcases hu with rfl | rfl | rfl <;> exact ⟨⟨_, by norm_num, rfl⟩, _, by norm_num, rfl⟩
  · simp [factors, cubicC1, termFactors] at hu
    rcases hu with rfl | rfl | rfl <;> exact ⟨⟨_, by norm_num, rfl⟩, _, by norm_num, rfl⟩
  · simp [factors, cubicC2, termFactors] at hu
    rcases hu with rfl | rfl | rfl | rfl | rfl <;> exact ⟨⟨_, by norm_num, rfl⟩, _, by norm_num, rfl⟩
  · simp [factors, cubicC3, termFactors] at hu
    rcases hu with rfl | rfl | rfl | rfl | rfl <;> exact ⟨⟨_, by norm_num, rfl⟩, _, by norm_num, rfl⟩

theorem holds_iff {n N : ℕ} {c : Constraint F} (h : NearFactors n c ∧ c.density = .dense ⟨0, 1⟩) (w : Register → ℕ → F) :
    (∀ row, Enforced c (N + 1) row → HoldsAt w (N + 1) c row) ↔ ∀ row, row < N → constraintValue (rowEnv w row) c = 0 := by
  constructor
  · intro hh row hr
    exact (hh row ⟨_, h.2, by simp, by simp only; omega⟩).2
  · rintro hh row ⟨d, hd, h1, h2⟩
    rw [h.2] at hd
    cases hd
    simp only at h2
    refine ⟨?_, hh row (by omega)⟩
    intro u hu k hk
    obtain ⟨-, j, hj, e⟩ := h.1 u hu
    rw [e] at hk
    cases hk
    omega

theorem boundary_iff (w : Register → ℕ → F) (N : ℕ) (s o : Quad F) :
    (∀ b ∈ vdfBoundary N s o, ∀ v, b.value = some v → w b.register b.atRow = v) ↔ vdfState w 0 = s ∧ vdfState w N = o := by
  simp only [vdfBoundary, List.mem_cons, List.not_mem_nil, or_false, forall_eq_or_imp, forall_eq, Option.some.injEq, forall_eq', vdfState,
    QuadraticAlgebra.ext_iff]
  tauto

/-- The squaring instance says: start, output, and each row is the square of the one before. -/
theorem vdf_satisfies_iff (N : ℕ) (s o : Quad F) (w : Register → ℕ → F) :
    Satisfies (vdfInst N s o) w (N + 1) ↔
      (∀ row, row < N → vdfState w (row + 1) = vdfState w row ^ 2) ∧ vdfState w 0 = s ∧ vdfState w N = o := by
  unfold Satisfies
  refine and_congr ?_ (boundary_iff w N s o)
  simp only [vdfInst, List.mem_cons, List.not_mem_nil, or_false, forall_eq_or_imp, forall_eq]
  rw [holds_iff (near_vdf _ (by simp)), holds_iff (near_vdf _ (by simp))]
  simp only [vdfC0_value, vdfC1_value, sub_eq_zero]
  rw [← forall₂_and]
  refine forall₂_congr (fun row _ => ?_)
  simp only [vdfState, QuadraticAlgebra.ext_iff, pow_two, QuadraticAlgebra.re_mul, QuadraticAlgebra.im_mul]
  refine and_congr (Eq.congr rfl ?_) (Eq.congr rfl ?_) <;> ring

/-- The cubic instance says: start, output, registers 2 and 3 are the square of registers 0 and 1 and the next row is the product. -/
theorem cubic_satisfies_iff (N : ℕ) (s o : Quad F) (w : Register → ℕ → F) :
    Satisfies (cubicInst N s o) w (N + 1) ↔
      (∀ row, row < N → (⟨w (.register 2) row, w (.register 3) row⟩ : Quad F) = vdfState w row ^ 2 ∧
        vdfState w (row + 1) = vdfState w row ^ 3) ∧ vdfState w 0 = s ∧ vdfState w N = o := by
  unfold Satisfies
  refine and_congr ?_ (boundary_iff w N s o)
  simp only [cubicInst, List.mem_cons, List.not_mem_nil, or_false, forall_eq_or_imp, forall_eq]
  rw [holds_iff (near_cubic _ (by simp)), holds_iff (near_cubic _ (by simp)), holds_iff (near_cubic _ (by simp)), holds_iff (near_cubic _ (by simp))]
  simp only [cubicC0_value, cubicC1_value, cubicC2_value, cubicC3_value, sub_eq_zero]
  rw [← forall₂_and, ← forall₂_and, ← forall₂_and]
  refine forall₂_congr (fun row _ => ?_)
  simp only [vdfState, QuadraticAlgebra.ext_iff, pow_succ, pow_zero, one_mul, QuadraticAlgebra.re_mul, QuadraticAlgebra.im_mul]
  constructor
  · rintro ⟨h1, h2, h3, h4⟩
    rw [h1, h2] at h3 h4
    refine ⟨⟨by rw [h1]; ring, by rw [h2]; ring⟩, by rw [h3]; ring, by rw [h4]; ring⟩
  · rintro ⟨⟨h1, h2⟩, h3, h4⟩
    rw [h1, h2, h3, h4]
    refine ⟨by ring, by ring, by ring, by ring⟩

theorem iterate_pow {w : Register → ℕ → F} {N d : ℕ} {s : Quad F} (h0 : vdfState w 0 = s)
    (h : ∀ row, row < N → vdfState w (row + 1) = vdfState w row ^ d) : ∀ i, i ≤ N → vdfState w i = s ^ d ^ i := by
  intro i
  induction i with
  | zero => intro _; rw [h0, pow_zero, pow_one]
  | succ i ih => intro hi; rw [h i (by omega), ih (by omega), ← pow_mul, ← pow_succ]

/-! ### The properties -/

/-- Replace the output in the boundary constraints by a claimed one. -/
def claimOutput (inst : InstanceProperties F) (o : Quad F) : InstanceProperties F :=
  { inst with boundaryConstraints := inst.boundaryConstraints.take 2 ++
      [⟨.register 0, inst.numRows - 1, some o.re⟩, ⟨.register 1, inst.numRows - 1, some o.im⟩] }

/-- **C38.** For every start and number of operations `N`, `into_arp` returns (without panic) a table of two columns and `N + 1` rows and an
instance with that many rows, such that: the table satisfies the instance and `is_satisfied` accepts it; every trace satisfying the
instance has, at each row `i`, `start^(2^i)`, computed in `F[u]/(u²+1)`; and the instance with a claimed output is satisfiable exactly
when the output is `start^(2^N)`. -/
theorem C38_squaring_vdf [DecidableEq F] (v : Vdf F) :
    ∃ wit inst, v.intoArp = .ok (wit, inst) ∧ inst.numRows = v.numOperations + 1 ∧ IsTable wit 2 (v.numOperations + 1) ∧
      Satisfies inst (cellR wit) (v.numOperations + 1) ∧ isSatisfied inst wit = .ok () ∧
      (∀ w, Satisfies inst w (v.numOperations + 1) → ∀ i, i ≤ v.numOperations → vdfState w i = v.start ^ 2 ^ i) ∧
      ∀ o, (∃ w, Satisfies (claimOutput inst o) w (v.numOperations + 1)) ↔ o = v.start ^ 2 ^ v.numOperations := by
  refine ⟨_, _, intoArp_eq v, rfl, ⟨rfl, ?_⟩, ?_⟩
  · intro r hr
    simp only [List.mem_cons, List.not_mem_nil, or_false] at hr
    rcases hr with rfl | rfl <;> simp
  have hst : ∀ i, i ≤ v.numOperations → vdfState (cellR [col v.numOperations (fun i => (v.start ^ 2 ^ i).re),
      col v.numOperations (fun i => (v.start ^ 2 ^ i).im)]) i = v.start ^ 2 ^ i := by
    intro i hi
    simp [vdfState, cellR, cell, List.getD, show i < v.numOperations + 1 by omega]
  have hstep : ∀ row, row < v.numOperations → vdfState (cellR [col v.numOperations (fun i => (v.start ^ 2 ^ i).re),
      col v.numOperations (fun i => (v.start ^ 2 ^ i).im)]) (row + 1) = vdfState (cellR [col v.numOperations (fun i => (v.start ^ 2 ^ i).re),
      col v.numOperations (fun i => (v.start ^ 2 ^ i).im)]) row ^ 2 := by
    intro row hr
    rw [hst _ (by omega), hst _ (by omega), ← pow_mul, ← pow_succ]
  have h0 := hst 0 (by omega)
  rw [pow_zero, pow_one] at h0
  have hs := (vdf_satisfies_iff v.numOperations v.start (v.start ^ 2 ^ v.numOperations) _).2 ⟨hstep, h0, hst _ le_rfl⟩
  refine ⟨hs, ?_, ?_, ?_⟩
  · refine ((C33_is_satisfied_iff _ _ 2 (v.numOperations + 1) (by norm_num) ⟨rfl, ?_⟩ ⟨?_, ?_, ?_⟩).1).2 hs
    · intro r hr
      simp only [List.mem_cons, List.not_mem_nil, or_false] at hr
      rcases hr with rfl | rfl <;> simp
    · intro c hc
      exact ⟨_, (near_vdf c hc).2, by simp⟩
    · intro c hc u hu
      obtain ⟨h1, j, -, h2⟩ := (near_vdf c hc).1 u hu
      exact ⟨h1, j, h2⟩
    · intro b hb
      simp only [vdfInst, vdfBoundary, List.mem_cons, List.not_mem_nil, or_false] at hb
      rcases hb with rfl | rfl | rfl | rfl <;> exact ⟨⟨_, by norm_num, rfl⟩, by simp⟩
  · intro w hw
    obtain ⟨h1, h2, -⟩ := (vdf_satisfies_iff _ _ _ w).1 hw
    exact iterate_pow h2 h1
  · intro o
    have e : claimOutput (vdfInst v.numOperations v.start (v.start ^ 2 ^ v.numOperations)) o = vdfInst v.numOperations v.start o := rfl
    rw [e]
    constructor
    · rintro ⟨w, hw⟩
      obtain ⟨h1, h2, h3⟩ := (vdf_satisfies_iff _ _ _ w).1 hw
      rw [← h3, iterate_pow h2 h1 _ le_rfl]
    · rintro rfl
      exact ⟨_, hs⟩

/-- **C39.** For every start and number of operations `N`, the cubic VDF's `into_arp` returns a table of four columns and `N + 1` rows
and an instance with that many rows, such that: the table satisfies the instance and `is_satisfied` accepts it; every trace satisfying the
instance has, at each row `i`, `start^(3^i)`, computed in `F[u]/(u²+1)`; and the instance with a claimed output is satisfiable exactly
when the output is `start^(3^N)`. -/
theorem C39_cubic_vdf [DecidableEq F] (v : Vdf F) :
    ∃ wit inst, v.intoArpCubic = .ok (wit, inst) ∧ inst.numRows = v.numOperations + 1 ∧ IsTable wit 4 (v.numOperations + 1) ∧
      Satisfies inst (cellR wit) (v.numOperations + 1) ∧ isSatisfied inst wit = .ok () ∧
      (∀ w, Satisfies inst w (v.numOperations + 1) → ∀ i, i ≤ v.numOperations → vdfState w i = v.start ^ 3 ^ i) ∧
      ∀ o, (∃ w, Satisfies (claimOutput inst o) w (v.numOperations + 1)) ↔ o = v.start ^ 3 ^ v.numOperations := by
  refine ⟨_, _, intoArpCubic_eq v, rfl, ⟨rfl, ?_⟩, ?_⟩
  · intro r hr
    simp only [List.mem_cons, List.not_mem_nil, or_false] at hr
    rcases hr with rfl | rfl | rfl | rfl <;> simp
  obtain ⟨wit, hwit⟩ : ∃ wit, wit = [col v.numOperations (fun i => (v.start ^ 3 ^ i).re), col v.numOperations (fun i => (v.start ^ 3 ^ i).im),
        col v.numOperations (fun i => ((v.start ^ 3 ^ i) ^ 2).re), col v.numOperations (fun i => ((v.start ^ 3 ^ i) ^ 2).im)] := ⟨_, rfl⟩
  rw [← hwit]
  have hst : ∀ i, i ≤ v.numOperations → vdfState (cellR wit) i = v.start ^ 3 ^ i ∧
      (⟨cellR wit (.register 2) i, cellR wit (.register 3) i⟩ : Quad F) = (v.start ^ 3 ^ i) ^ 2 := by
    intro i hi
    rw [hwit]
    constructor <;> simp [vdfState, cellR, cell, List.getD, show i < v.numOperations + 1 by omega]
  have hstep : ∀ row, row < v.numOperations → (⟨cellR wit (.register 2) row, cellR wit (.register 3) row⟩ : Quad F) = vdfState (cellR wit) row ^ 2 ∧
      vdfState (cellR wit) (row + 1) = vdfState (cellR wit) row ^ 3 := by
    intro row hr
    rw [(hst _ (show row ≤ v.numOperations by omega)).2, (hst _ (show row ≤ v.numOperations by omega)).1, (hst (row + 1) (by omega)).1,
      ← pow_mul (v.start) _ 3, ← pow_succ]
    exact ⟨rfl, rfl⟩
  have h0 := (hst 0 (by omega)).1
  rw [pow_zero, pow_one] at h0
  have hs := (cubic_satisfies_iff v.numOperations v.start (v.start ^ 3 ^ v.numOperations) _).2 ⟨hstep, h0, (hst _ le_rfl).1⟩
  refine ⟨hs, ?_, ?_, ?_⟩
  · refine ((C33_is_satisfied_iff _ _ 4 (v.numOperations + 1) (by norm_num) ⟨by rw [hwit]; rfl, ?_⟩ ⟨?_, ?_, ?_⟩).1).2 hs
    · intro r hr
      simp only [hwit, List.mem_cons, List.not_mem_nil, or_false] at hr
      rcases hr with rfl | rfl | rfl | rfl <;> simp
    · intro c hc
      exact ⟨_, (near_cubic c hc).2, by simp⟩
    · intro c hc u hu
      obtain ⟨h1, j, -, h2⟩ := (near_cubic c hc).1 u hu
      exact ⟨h1, j, h2⟩
    · intro b hb
      simp only [cubicInst, vdfBoundary, List.mem_cons, List.not_mem_nil, or_false] at hb
      rcases hb with rfl | rfl | rfl | rfl <;> exact ⟨⟨_, by norm_num, rfl⟩, by simp⟩
  · intro w hw
    obtain ⟨h1, h2, -⟩ := (cubic_satisfies_iff _ _ _ w).1 hw
    exact iterate_pow h2 (fun row hr => (h1 row hr).2)
  · intro o
    have e : claimOutput (cubicInst v.numOperations v.start (v.start ^ 3 ^ v.numOperations)) o = cubicInst v.numOperations v.start o := rfl
    rw [e]
    constructor
    · rintro ⟨w, hw⟩
      obtain ⟨h1, h2, h3⟩ := (cubic_satisfies_iff _ _ _ w).1 hw
      rw [← h3, iterate_pow h2 (fun row hr => (h1 row hr).2) _ le_rfl]
    · rintro rfl
      exact ⟨_, hs⟩

theorem vdf_suitable {k N : ℕ} (hk : 1 ≤ k) (hN : N + 1 = 2 ^ k) (s o : Quad F) : Suitable (vdfInst N s o) 2 k 1 where
  rows := hN
  registers := rfl
  pos := by norm_num
  two_rows := hk
  terms := by
    intro c hc t ht
    have hn := near_vdf c hc
    refine ⟨?_, ?_, ?_⟩
    · simp only [vdfInst, List.mem_cons, List.not_mem_nil, or_false] at hc
      rcases hc with rfl | rfl <;> simp only [vdfC0, vdfC1, List.mem_cons, List.not_mem_nil, or_false] at ht <;>
        rcases ht with rfl | rfl | rfl <;> simp [termFactors]
    · simp only [vdfInst, List.mem_cons, List.not_mem_nil, or_false] at hc
      rcases hc with rfl | rfl <;> simp only [vdfC0, vdfC1, List.mem_cons, List.not_mem_nil, or_false] at ht <;>
        rcases ht with rfl | rfl | rfl <;> simp [termDegree, termFactors, vdfC0, vdfC1]
    · intro u hu
      obtain ⟨h1, j, -, h2⟩ := hn.1 u (List.mem_flatMap.2 ⟨t, ht, hu⟩)
      exact ⟨h1, j, h2⟩
  density := ⟨⟨0, 1⟩, by simp only; omega, fun c hc => (near_vdf c hc).2⟩
  degrees := by
    constructor
    · intro c hc
      simp only [vdfInst, List.mem_cons, List.not_mem_nil, or_false] at hc
      rcases hc with rfl | rfl <;> exact le_refl 2
    · exact ⟨_, List.mem_cons_self, rfl⟩
  boundary := by
    intro b hb
    simp only [vdfInst, vdfBoundary, List.mem_cons, List.not_mem_nil, or_false] at hb
    rcases hb with rfl | rfl | rfl | rfl <;> exact ⟨⟨_, by norm_num, rfl⟩, by simp only; omega, _, rfl⟩

theorem cubic_suitable {k N : ℕ} (hk : 1 ≤ k) (hN : N + 1 = 2 ^ k) (s o : Quad F) : Suitable (cubicInst N s o) 4 k 1 where
  rows := hN
  registers := rfl
  pos := by norm_num
  two_rows := hk
  terms := by
    intro c hc t ht
    have hn := near_cubic c hc
    refine ⟨?_, ?_, ?_⟩
    · simp only [cubicInst, List.mem_cons, List.not_mem_nil, or_false] at hc
      rcases hc with rfl | rfl | rfl | rfl <;> simp only [cubicC0, cubicC1, cubicC2, cubicC3, List.mem_cons, List.not_mem_nil, or_false] at ht <;>
        rcases ht with rfl | rfl | rfl <;> simp [termFactors]
    · simp only [cubicInst, List.mem_cons, List.not_mem_nil, or_false] at hc
      rcases hc with rfl | rfl | rfl | rfl <;> simp only [cubicC0, cubicC1, cubicC2, cubicC3, List.mem_cons, List.not_mem_nil, or_false] at ht <;>
        rcases ht with rfl | rfl | rfl <;> simp [termDegree, termFactors, cubicC0, cubicC1, cubicC2, cubicC3]
    · intro u hu
      obtain ⟨h1, j, -, h2⟩ := hn.1 u (List.mem_flatMap.2 ⟨t, ht, hu⟩)
      exact ⟨h1, j, h2⟩
  density := ⟨⟨0, 1⟩, by simp only; omega, fun c hc => (near_cubic c hc).2⟩
  degrees := by
    constructor
    · intro c hc
      simp only [cubicInst, List.mem_cons, List.not_mem_nil, or_false] at hc
      rcases hc with rfl | rfl | rfl | rfl <;> exact le_refl 2
    · exact ⟨_, List.mem_cons_self, rfl⟩
  boundary := by
    intro b hb
    simp only [cubicInst, vdfBoundary, List.mem_cons, List.not_mem_nil, or_false] at hb
    rcases hb with rfl | rfl | rfl | rfl <;> exact ⟨⟨_, by norm_num, rfl⟩, by simp only; omega, _, rfl⟩

section
variable [DecidableEq F] [StarkField F] (H : List UInt8 → Digest)

/-- The whole pipeline on the squaring VDF with `2^k - 1` operations: `prove` returns an error if the out-of-domain point it draws lies in the
LDE domain of `g`, and otherwise a proof that `verify` accepts. -/
theorem C38_proved (w : Worker) (k e : ℕ) (v : Vdf F) (hv : v.numOperations + 1 = 2 ^ k) (hp : RunParams F w k 1 e 0) :
    ∃ wit inst prover ver z, v.intoArp = .ok (wit, inst) ∧ Prover.new w inst (2 ^ e) 1 = .ok prover ∧
      Verifier.new inst (2 ^ e) = .ok ver ∧ OpenedAt H prover w wit e z ∧
      (z ^ 2 ^ (k + 1 + e) = 1 → prover.prove H wit = .err .error) ∧
      (z ^ 2 ^ (k + 1 + e) ≠ 1 → ∃ proof, prover.prove H wit = .ok proof ∧ ver.verify H proof = .ok true) := by
  obtain ⟨wit, inst, e1, e2, h1, h2, -⟩ := C38_squaring_vdf v
  have hs : Suitable inst 2 k 1 := by
    have := intoArp_eq v
    rw [e1] at this
    have h := (Res.ok.inj this)
    rw [(Prod.mk.inj h).2]
    exact vdf_suitable (by have := hp.out; omega) hv _ _
  rw [hv] at h1 h2
  obtain ⟨prover, ver, z, a, b, c⟩ := C45_complete_partial H w inst 2 k 1 e hs hp wit h1 h2
  exact ⟨wit, inst, prover, ver, z, e1, a, b, c⟩

/-- The same for the cubic VDF. -/
theorem C39_proved (w : Worker) (k e : ℕ) (v : Vdf F) (hv : v.numOperations + 1 = 2 ^ k) (hp : RunParams F w k 1 e 0) :
    ∃ wit inst prover ver z, v.intoArpCubic = .ok (wit, inst) ∧ Prover.new w inst (2 ^ e) 1 = .ok prover ∧
      Verifier.new inst (2 ^ e) = .ok ver ∧ OpenedAt H prover w wit e z ∧
      (z ^ 2 ^ (k + 1 + e) = 1 → prover.prove H wit = .err .error) ∧
      (z ^ 2 ^ (k + 1 + e) ≠ 1 → ∃ proof, prover.prove H wit = .ok proof ∧ ver.verify H proof = .ok true) := by
  obtain ⟨wit, inst, e1, e2, h1, h2, -⟩ := C39_cubic_vdf v
  have hs : Suitable inst 4 k 1 := by
    have := intoArpCubic_eq v
    rw [e1] at this
    have h := (Res.ok.inj this)
    rw [(Prod.mk.inj h).2]
    exact cubic_suitable (by have := hp.out; omega) hv _ _
  rw [hv] at h1 h2
  obtain ⟨prover, ver, z, a, b, c⟩ := C45_complete_partial H w inst 4 k 1 e hs hp wit h1 h2
  exact ⟨wit, inst, prover, ver, z, e1, a, b, c⟩

end

/-- A concrete case: start `1 + u`, three operations, over the field of 257 elements; the hypotheses of `C38_proved`, `C39_proved` hold. -/
example : ((⟨1, 1, 3⟩ : Vdf Fr).intoArp >>= fun r => (.ok r.1 : Res (List (List Fr)))) = .ok [[1, 0, -4, 16], [1, 2, 0, 0]] ∧
    ((⟨1, 1, 3⟩ : Vdf Fr).intoArpCubic >>= fun r => (.ok r.1 : Res (List (List Fr))))
      = .ok [[1, -2, 16, 32], [1, 2, 16, 225], [0, 0, 0, 0], [2, -8, -2, 8]] ∧
    (⟨1, 1, 3⟩ : Vdf Fr).numOperations + 1 = 2 ^ 2 ∧ RunParams Fr ⟨1, by norm_num⟩ 2 1 1 0 :=
  ⟨by decide +kernel, by decide +kernel, rfl,
    ⟨by decide, by norm_num, by norm_num, by norm_num, by norm_num, .inl rfl, .inl rfl, by decide +kernel, by decide +kernel⟩⟩

end Hodor

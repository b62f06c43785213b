import Verif.Lemmas.Cost

/-!
# Costs of the counted verifier: the composition at `z` and the whole verification
-/

set_option linter.unusedSectionVars false

namespace Hodor

open Spec Tick

variable {F : Type} [Field F] [DecidableEq F] [StarkField F]

/-! ## Constraints -/

theorem res_univariateT (t : UnivariateTerm F) (values : ZValues F) : (evaluateUnivariateAtZT t values).res = evaluateUnivariateAtZ t values := by
  unfold evaluateUnivariateAtZT evaluateUnivariateAtZ
  simp only [res_bind, res_lift, res_powT, Res.ok_bind, res_op, Res.pure_def]

theorem costs_univariateT (t : UnivariateTerm F) (values : ZValues F) {P : F → Prop} :
    (evaluateUnivariateAtZT t values).Costs P 0 (powOps t.power + 1) 0 := by
  rw [Nat.add_comm]
  exact lift_bind fun _ _ => lift_bind fun _ _ => lift_bind fun _ _ => pow_bind (costs_op 1 _)

theorem res_termT (values : ZValues F) (t : ConstraintTerm F) : (evaluateTermAtZT values t).res = evaluateTermAtZ values t := by
  cases t with
  | univariate t => exact res_univariateT t values
  | polyvariate p =>
    simp only [evaluateTermAtZT, evaluateTermAtZ, res_bind, res_op, Res.pure_def]
    rw [res_forEach (body' := fun t r => do let v ← evaluateUnivariateAtZ t values; .ok (r * v))]
    intro t _ r
    simp only [res_bind, res_univariateT, res_op]

theorem costs_termT (values : ZValues F) (t : ConstraintTerm F) {P : F → Prop} : (evaluateTermAtZT values t).Costs P 0 (termOps t) 0 := by
  cases t with
  | univariate t => exact costs_univariateT t values
  | polyvariate p =>
    have := costs_forEach (xs := p.terms) (s := (1 : F)) (body := fun t r => do
      let v ← evaluateUnivariateAtZT t values
      Tick.op 1 (r * v)) (ch := fun _ => 0) (co := fun t => powOps t.power + 2) (cl := fun _ => 0)
      (fun t _ r => costs_bind (h := 0) (h' := 0) (o' := 1) (l := 0) (l' := 0) (costs_univariateT t values) fun _ _ => costs_op 1 _)
    have := costs_bind (Q := P) this (f := fun r => op 1 (r * p.coeff)) fun r _ => costs_op 1 _
    simpa [evaluateTermAtZT, termOps] using this

theorem res_constraintT (c : Constraint F) (values : ZValues F) : (evaluateConstraintAtZT c values).res = evaluateConstraintAtZ c values := by
  unfold evaluateConstraintAtZT evaluateConstraintAtZ
  apply res_forEach
  intro t _ r
  simp only [res_bind, res_termT, res_op, Res.pure_def]

theorem costs_constraintT (c : Constraint F) (values : ZValues F) {P : F → Prop} : (evaluateConstraintAtZT c values).Costs P 0 (constraintOps c) 0 := by
  have := costs_forEach (xs := c.terms) (s := c.constantTerm) (body := fun t value => do
      let v ← evaluateTermAtZT values t
      Tick.op 1 (value + v)) (ch := fun _ => 0) (co := fun t => termOps t + 1) (cl := fun _ => 0)
      (fun t _ r => costs_bind (h := 0) (h' := 0) (o' := 1) (l := 0) (l' := 0) (costs_termT values t) fun _ _ => costs_op 1 _)
  refine Costs.weaken (P := fun _ => True) ?_ (fun _ _ => trivial)
  simpa [evaluateConstraintAtZT, constraintOps] using this

/-! ## Divisors -/

theorem res_mulLinearT (x g : F) (n : ℕ) (root acc : F) : (mulLinearRunningT x g n root acc).res = .ok (mulLinearRunning x g n root acc) := by
  induction n generalizing root acc with
  | zero => rfl
  | succ n ih => simp only [mulLinearRunningT, mulLinearRunning, res_bind, res_op, Res.ok_bind, ih]

theorem costs_mulLinearT (x g : F) (n : ℕ) (root acc : F) {P : F → Prop} : (mulLinearRunningT x g n root acc).Costs P 0 (3 * n) (3 * n) := by
  induction n generalizing root acc with
  | zero => exact costs_pure _
  | succ n ih => exact op_bind_ge (op_bind_ge (op_bind_ge (ih _ _)))

theorem res_divisorT (x : F) (dom : Domain F) (d : DenseConstraint) (numRows : ℕ) :
    (inverseDivisorAtT x dom d numRows).res = inverseDivisorAt x dom d numRows := by
  unfold inverseDivisorAtT inverseDivisorAt
  simp only [res_bind, res_lift, res_powT, Res.ok_bind, res_op, res_inverseT, res_mulLinearT, Res.pure_def]

theorem costs_divisorT (x : F) (dom : Domain F) (d : DenseConstraint) (numRows : ℕ) {P : F → Prop} :
    (inverseDivisorAtT x dom d numRows).Costs P 0 (divisorOps dom.size numRows (.dense d)) (3 * excludedRows dom.size numRows (.dense d)) := by
  unfold inverseDivisorAtT
  refine Costs.mono (o := 3 * d.startAt + (3 * (dom.size - (numRows - d.span)) + powOps (numRows - d.span)) + 1 + 1 + powOps dom.size)
    (l := 3 * d.startAt + 3 * (dom.size - (numRows - d.span))) ?_ ?_ ?_
  · refine lift_bind fun _ _ => pow_bind (op_bind (inverse_bind fun inv => ?_))
    have := costs_bind (Q := P) (costs_mulLinearT x dom.generator d.startAt 1 inv) (f := fun inv => do
      Tick.lift (Res.assert (d.span ≤ numRows))
      let root ← powT dom.generator (numRows - d.span)
      mulLinearRunningT x dom.generator (dom.size - (numRows - d.span)) root inv) fun a _ =>
        lift_bind fun _ _ => pow_bind (costs_mulLinearT x dom.generator (dom.size - (numRows - d.span)) _ a)
    simpa using this
  · have : powOps (numRows - d.span) ≤ powOps numRows := by
      have := Nat.log_mono_right (b := 2) (Nat.sub_le numRows d.span)
      unfold powOps; omega
    unfold divisorOps
    simp only [excludedRows]
    omega
  · simp only [excludedRows]
    omega

theorem res_densityT (z : F) (dom : Domain F) (numRows : ℕ) (d : ConstraintDensity) :
    (densityDivisorAtT z dom numRows d).res = densityDivisorAt z dom numRows d := by
  cases d with
  | dense d => exact res_divisorT z dom d numRows
  | _ => rfl

theorem costs_densityT (z : F) (dom : Domain F) (numRows : ℕ) (d : ConstraintDensity) {P : F → Prop} :
    (densityDivisorAtT z dom numRows d).Costs P 0 (divisorOps dom.size numRows d) (3 * excludedRows dom.size numRows d) := by
  cases d with
  | dense d => exact costs_divisorT z dom d numRows
  | _ => exact costs_fail (by simp)

/-! ## The composition -/

theorem res_adjustT (z : F) (n : ℕ) (a b v : F) : (applyAdjustmentAtT z n a b v).res = .ok (applyAdjustmentAt z n a b v) := by
  unfold applyAdjustmentAtT applyAdjustmentAt
  simp only [res_ite, res_op, res_bind, res_powT, Res.ok_bind]
  split <;> rfl

theorem costs_adjustT (z : F) (n m : ℕ) (h : n ≤ m) (a b v : F) {P : F → Prop} : (applyAdjustmentAtT z n a b v).Costs P 0 (powOps m + 3) 0 := by
  have : powOps n ≤ powOps m := by
    have := Nat.log_mono_right (b := 2) h
    unfold powOps; omega
  unfold applyAdjustmentAtT
  split
  · exact (costs_op 1 _).mono (by omega) (le_refl _)
  · refine Costs.mono (o := 1 + 1 + 1 + powOps n) (l := 0) ?_ (by omega) (le_refl _)
    exact pow_bind (op_bind (op_bind (costs_op 1 _)))

theorem res_zValuesT (masks : List (MaskProperties F)) (n : ℕ) (l : List F) (z : F) : (zValuesT masks n l z).res = zValues masks n l := by
  unfold zValuesT zValues
  apply res_forEach
  intro x _ s
  simp only [res_bind, res_lift, res_op, Res.ok_bind]

theorem costs_zValuesT (masks : List (MaskProperties F)) (n : ℕ) (l : List F) (z : F) {P : ZValues F → Prop} :
    (zValuesT masks n l z).Costs P 0 masks.length 0 := by
  have := costs_forEach (xs := masks.zip l) (s := List.replicate n []) (body := fun x values => do
    let mask ← Tick.lift x.1.stepsDifference.maskOf
    let _ ← Tick.op 1 (mask * z)
    let r ← Tick.lift x.1.register.num
    let m ← Tick.lift (rd values r)
    Tick.lift (wr values r (assocInsert m x.1.stepsDifference x.2))) (ch := fun _ => 0) (co := fun _ => 1) (cl := fun _ => 0)
    (fun x _ s => lift_bind fun _ _ => op_bind (o := 0) (lift_bind fun _ _ => lift_bind fun _ _ => costs_lift _))
  refine Costs.weaken (P := fun _ => True) ?_ (fun _ _ => trivial)
  unfold zValuesT
  have h2 : (masks.zip l).length ≤ masks.length := by rw [List.length_zip]; exact Nat.min_le_left _ _
  refine Costs.mono (o := (masks.zip l).length) (l := 0) ?_ h2 (le_refl _)
  simpa using this

theorem res_gConstraintT (m : ℕ) (z inv : F) (values : ZValues F) (c : Constraint F) (s : F × List (F × F)) :
    (gConstraintAtZT m z inv values c s).res = gConstraintAtZ m z inv values c s := by
  unfold gConstraintAtZT gConstraintAtZ
  simp only [res_bind, res_lift, res_constraintT, res_adjustT, res_op, Res.ok_bind, res_pure, Res.pure_def]

theorem costs_gConstraintT (m : ℕ) (z inv : F) (values : ZValues F) (c : Constraint F) (s : F × List (F × F)) {P : F × List (F × F) → Prop} :
    (gConstraintAtZT m z inv values c s).Costs P 0 (constraintOps c + powOps m + 5) 0 := by
  refine lift_bind fun _ _ => lift_bind fun ab _ => ?_
  refine Costs.mono (o := constraintOps c + (powOps m + 3 + 2)) (l := 0 + (0 + 0)) ?_ (by omega) (le_refl _)
  rw [← Nat.zero_add 0]
  refine costs_bind (costs_constraintT c values) fun v _ => ?_
  rw [← Nat.zero_add 0]
  exact costs_bind (h := 0) (h' := 0) (o := powOps m + 3) (o' := 2) (costs_adjustT z _ m (Nat.sub_le _ _) _ _ _) fun v _ => op_bind (o := 1) (op_bind (o := 0) (costs_pure _))

theorem res_gBoundaryT (m : ℕ) (z : F) (dom : Domain F) (values : ZValues F) (b : BoundaryConstraint F) (s : F × List (F × F)) :
    (gBoundaryAtZT m z dom values b s).res = gBoundaryAtZ m z dom values b s := by
  unfold gBoundaryAtZT gBoundaryAtZ
  simp only [res_bind, res_lift, res_powT, res_inverseT, res_adjustT, res_op, Res.ok_bind, res_pure, Res.pure_def]

theorem costs_gBoundaryT (m : ℕ) (z : F) (dom : Domain F) (values : ZValues F) (b : BoundaryConstraint F) (s : F × List (F × F))
    {P : F × List (F × F) → Prop} : (gBoundaryAtZT m z dom values b s).Costs P 0 (powOps b.atRow + powOps m + 8) 0 := by
  refine lift_bind fun _ _ => lift_bind fun ab _ => lift_bind fun _ _ => lift_bind fun _ _ => lift_bind fun _ _ => lift_bind fun _ _ => ?_
  refine Costs.mono (o := powOps m + 3 + 2 + 1 + 1 + powOps b.atRow + 1) (l := 0) ?_ (by omega) (le_refl _)
  refine op_bind (pow_bind (op_bind (inverse_bind fun inv => ?_)))
  rw [← Nat.zero_add 0]
  exact costs_bind (h := 0) (h' := 0) (o := powOps m + 3) (o' := 2) (costs_adjustT z _ m (Nat.sub_le _ _) _ _ _) fun v _ => op_bind (o := 1) (op_bind (o := 0) (costs_pure _))

theorem res_compositionT (v : Verifier F) (cc bc : List (F × F)) (l : List F) (z : F) :
    (v.calculateGAtZT cc bc l z).res = v.calculateGAtZ cc bc l z := by
  unfold Verifier.calculateGAtZT Verifier.calculateGAtZ
  simp only [res_bind, res_zValuesT, res_pure, Res.pure_def]
  congr 1
  funext values
  rw [res_forEach (body' := fun b s => do
    let inv ← densityDivisorAt z v.columnDomain v.inst.numRows b.1
    forEach b.2 s (gConstraintAtZ v.maxConstraintPower z inv values))]
  · congr 1
    funext s
    rw [res_forEach (body' := gBoundaryAtZ v.maxConstraintPower z v.columnDomain values)]
    intro b _ s
    exact res_gBoundaryT _ _ _ _ _ _
  · intro b _ s
    simp only [res_bind, res_densityT]
    congr 1
    funext inv
    exact res_forEach fun c _ s => res_gConstraintT _ _ _ _ _ _

/-- `compositionOps` with the constraints in batches. -/
def batchedOps (size numRows maxPower : ℕ) (batches : List (ConstraintDensity × List (Constraint F)))
    (boundary : List (BoundaryConstraint F)) : ℕ :=
  (batches.map (fun b => divisorOps size numRows b.1 + (b.2.map (fun c => constraintOps c + powOps maxPower + 5)).sum)).sum +
    (boundary.map (fun b => powOps b.atRow + powOps maxPower + 8)).sum

/-- The rows without constraint, over all densities. -/
def excludedTotal (size numRows : ℕ) (batches : List (ConstraintDensity × List (Constraint F))) : ℕ :=
  (batches.map (fun b => excludedRows size numRows b.1)).sum

theorem costs_compositionT (v : Verifier F) (cc bc : List (F × F)) (l : List F) (z : F) {P : F → Prop} :
    (v.calculateGAtZT cc bc l z).Costs P 0
      (v.allMasks.length + batchedOps v.columnDomain.size v.inst.numRows v.maxConstraintPower v.constraintsBatchedByDensity v.inst.boundaryConstraints)
      (3 * excludedTotal v.columnDomain.size v.inst.numRows v.constraintsBatchedByDensity) := by
  unfold Verifier.calculateGAtZT batchedOps
  have key := costs_bind (Q := P) (costs_zValuesT v.allMasks v.inst.numRegisters l z) (f := fun values => do
    let s ← Tick.forEach v.constraintsBatchedByDensity ((0 : F), cc) (fun b s => do
      let inv ← densityDivisorAtT z v.columnDomain v.inst.numRows b.1
      Tick.forEach b.2 s (gConstraintAtZT v.maxConstraintPower z inv values))
    let s ← Tick.forEach v.inst.boundaryConstraints (s.1, bc) (gBoundaryAtZT v.maxConstraintPower z v.columnDomain values)
    pure s.1) fun values _ =>
      costs_bind (costs_forEach (ch := fun b : ConstraintDensity × List (Constraint F) => 0 + (b.2.map (fun _ => 0)).sum)
        (co := fun b : ConstraintDensity × List (Constraint F) => divisorOps v.columnDomain.size v.inst.numRows b.1 + (b.2.map (fun c => constraintOps c + powOps v.maxConstraintPower + 5)).sum)
        (cl := fun b : ConstraintDensity × List (Constraint F) => 3 * excludedRows v.columnDomain.size v.inst.numRows b.1 + (b.2.map (fun _ => 0)).sum)
        fun b _ s => costs_bind (costs_densityT z v.columnDomain v.inst.numRows b.1) fun inv _ =>
          costs_forEach fun c _ s => costs_gConstraintT _ _ _ _ _ _) fun s _ =>
        costs_bind (costs_forEach (ch := fun _ => 0) (co := fun b : BoundaryConstraint F => powOps b.atRow + powOps v.maxConstraintPower + 8) (cl := fun _ => 0)
          fun b _ s => costs_gBoundaryT _ _ _ _ _ _) fun s _ => costs_pure (o := 0) s.1
  have e1 : ∀ (α : Type) (l : List α), (l.map (fun _ => 0)).sum = 0 := by intro α l; simp
  have e2 : (v.constraintsBatchedByDensity.map (fun b => 3 * excludedRows v.columnDomain.size v.inst.numRows b.1)).sum =
      3 * excludedTotal v.columnDomain.size v.inst.numRows v.constraintsBatchedByDensity := by
    unfold excludedTotal
    rw [List.sum_map_mul_left]
  simp only [e1, Nat.add_zero, Nat.zero_add, e2] at key
  exact key

/-! ## The simulated values -/

theorem res_simulateH1T (v : Verifier F) (ch : List F) (idx : ℕ) (dom : Domain F) (fs l : List F) (z : F) :
    (v.simulateH1T ch idx dom fs l z).res = v.simulateH1 ch idx dom fs l z := by
  unfold Verifier.simulateH1T Verifier.simulateH1
  simp only [res_bind, res_powT, Res.ok_bind]
  apply res_forEach
  intro x _ h
  simp only [res_bind, res_lift, res_op, Res.ok_bind, res_inverseT, Res.pure_def]

theorem costs_simulateH1T (v : Verifier F) (ch : List F) (idx : ℕ) (dom : Domain F) (fs l : List F) (z : F) {S : ℕ} (h : idx ≤ 2 ^ S) {P : F → Prop} :
    (v.simulateH1T ch idx dom fs l z).Costs P 0 (7 * v.allMasks.length + powOpsS S) 0 := by
  unfold Verifier.simulateH1T
  refine pow_bind_S h ?_
  have := costs_forEach (xs := (v.allMasks.zip l).zip ch) (s := (0 : F)) (body := fun x h => do
    let mask ← Tick.lift x.1.1.stepsDifference.maskOf
    let root ← Tick.op 1 (mask * z)
    let r ← Tick.lift x.1.1.register.num
    let f ← Tick.lift (rd fs r)
    let num ← Tick.op 1 (f - x.1.2)
    let den ← Tick.op 1 (dom.generator ^ idx - root)
    let inv ← inverseT den
    let num ← Tick.op 1 (num * inv)
    let num ← Tick.op 1 (num * x.2)
    Tick.op 1 (h + num)) (ch := fun _ => 0) (co := fun _ => 7) (cl := fun _ => 0)
    (fun x _ s => lift_bind fun _ _ => op_bind (lift_bind fun _ _ => lift_bind fun _ _ => op_bind (op_bind (inverse_bind fun _ =>
      op_bind (op_bind (costs_op 1 _))))))
  refine Costs.weaken (P := fun _ => True) ?_ (fun _ _ => trivial)
  have h2 : ((v.allMasks.zip l).zip ch).length ≤ v.allMasks.length := by
    rw [List.length_zip, List.length_zip]
    exact (Nat.min_le_left _ _).trans (Nat.min_le_left _ _)
  refine Costs.mono (o := 7 * ((v.allMasks.zip l).zip ch).length) (l := 0) ?_ (by omega) (le_refl _)
  simpa [Nat.mul_comm] using this

theorem res_simulateH2T (idx : ℕ) (dom : Domain F) (a z b : F) : (simulateH2T idx dom a z b).res = simulateH2 idx dom a z b := by
  unfold simulateH2T simulateH2
  simp only [res_bind, res_powT, res_op, Res.ok_bind, res_inverseT, Res.pure_def]

theorem costs_simulateH2T (idx : ℕ) (dom : Domain F) (a z b : F) {S : ℕ} (h : idx ≤ 2 ^ S) {P : F → Prop} :
    (simulateH2T idx dom a z b).Costs P 0 (4 + powOpsS S) 0 :=
  pow_bind_S h (op_bind (op_bind (inverse_bind fun _ => costs_op 1 _)))

/-! ## The verifier -/

variable (H : List UInt8 → Digest)

theorem res_drawPairT (s : List (F × F) × Transcript) : (drawPairT H s).res = drawPair H s := by
  unfold drawPairT drawPair
  simp only [res_bind, res_getChallengeT, res_pure, Res.pure_def]

theorem costs_drawPairT (s : List (F × F) × Transcript) {P : List (F × F) × Transcript → Prop} : (drawPairT H s).Costs P 2 2 0 :=
  costs_bind (h := 1) (h' := 1) (o := 1) (o' := 1) (l := 0) (l' := 0) (costs_getChallengeT H _) fun _ _ =>
    costs_bind (h := 1) (h' := 0) (o := 1) (o' := 0) (l := 0) (l' := 0) (costs_getChallengeT H _) fun _ _ => costs_pure _

theorem res_drawOneT (s : List F × Transcript) : (drawOneT H s).res = drawOne H s := by
  unfold drawOneT drawOne
  simp only [res_bind, res_getChallengeT, res_pure, Res.pure_def]

theorem costs_drawOneT (s : List F × Transcript) {P : List F × Transcript → Prop} : (drawOneT H s).Costs P 1 1 0 :=
  costs_bind (h := 1) (h' := 0) (o := 1) (o' := 0) (l := 0) (l' := 0) (costs_getChallengeT H _) fun _ _ => costs_pure _

theorem res_deriveT (v : Verifier F) (proof : InstanceProof F) : (v.deriveChallengesT H proof).res = v.deriveChallenges H proof := by
  unfold Verifier.deriveChallengesT Verifier.deriveChallenges
  have e1 : ∀ (l : List (ConstraintDensity × List (Constraint F))) (s : List (F × F) × Transcript), (Tick.forEach l s (fun b s =>
      Tick.forEach b.2 s (fun _ s => drawPairT H s))).res = forEach l s (fun b s => forEach b.2 s (fun _ s => drawPair H s)) :=
    fun l s => res_forEach fun b _ s => res_forEach fun _ _ s => res_drawPairT H s
  have e2 : ∀ (l : List (BoundaryConstraint F)) (s : List (F × F) × Transcript), (Tick.forEach l s (fun _ s => drawPairT H s)).res =
      forEach l s (fun _ s => drawPair H s) := fun l s => res_forEach fun _ _ s => res_drawPairT H s
  have e3 : ∀ (l : List (MaskProperties F)) (s : List F × Transcript), (Tick.forEach l s (fun _ s => drawOneT H s)).res =
      forEach l s (fun _ s => drawOne H s) := fun l s => res_forEach fun _ _ s => res_drawOneT H s
  simp only [res_bind, res_lift, e1, e2, e3, res_getChallengeT, res_commitFinalT, Res.ok_bind, res_newForSizeT, res_getChallengeBytesT, res_pure,
    Res.pure_def]

/-- The number of constraints in the batches. -/
def batchedCount (batches : List (ConstraintDensity × List (Constraint F))) : ℕ := (batches.map (fun b => b.2.length)).sum

theorem costs_deriveT (v : Verifier F) (proof : InstanceProof F) {P : Challenges F × Domain F × Domain F → Prop} :
    (v.deriveChallengesT H proof).Costs P
      (transcriptHashes (batchedCount v.constraintsBatchedByDensity) v.inst.boundaryConstraints.length v.allMasks.length)
      (2 * batchedCount v.constraintsBatchedByDensity + 2 * v.inst.boundaryConstraints.length + v.allMasks.length + 1 +
        (proof.friProofH1.finalCoefficients.length + proof.friProofH2.finalCoefficients.length) + 2 * StarkField.S F) 0 := by
  have c1 : ∀ (l : List (ConstraintDensity × List (Constraint F))) (s : List (F × F) × Transcript), (Tick.forEach l s (fun b s =>
      Tick.forEach b.2 s (fun _ s => drawPairT H s))).Costs (fun _ => True) (2 * batchedCount l) (2 * batchedCount l) 0 := by
    intro l s
    have := costs_forEach (xs := l) (s := s) (body := fun b s => Tick.forEach b.2 s (fun _ s => drawPairT H s))
      (ch := fun b => (b.2.map (fun _ => 2)).sum) (co := fun b => (b.2.map (fun _ => 2)).sum) (cl := fun b => (b.2.map (fun _ => 0)).sum)
      fun b _ s => costs_forEach fun _ _ s => costs_drawPairT H s
    unfold batchedCount
    rw [← List.sum_map_mul_left]
    simpa [Nat.mul_comm] using this
  have c2 : ∀ (l : List (BoundaryConstraint F)) (s : List (F × F) × Transcript), (Tick.forEach l s (fun _ s => drawPairT H s)).Costs (fun _ => True)
      (2 * l.length) (2 * l.length) 0 := by
    intro l s
    have := costs_forEach (xs := l) (s := s) (body := fun _ s => drawPairT H s) (ch := fun _ => 2) (co := fun _ => 2) (cl := fun _ => 0)
      fun _ _ s => costs_drawPairT H s
    simpa [Nat.mul_comm] using this
  have c3 : ∀ (l : List (MaskProperties F)) (s : List F × Transcript), (Tick.forEach l s (fun _ s => drawOneT H s)).Costs (fun _ => True)
      l.length l.length 0 := by
    intro l s
    have := costs_forEach (xs := l) (s := s) (body := fun _ s => drawOneT H s) (ch := fun _ => 1) (co := fun _ => 1) (cl := fun _ => 0)
      fun _ _ s => costs_drawOneT H s
    simpa using this
  unfold Verifier.deriveChallengesT transcriptHashes
  refine lift_bind fun t _ => ?_
  have key := costs_bind (Q := P) (c1 v.constraintsBatchedByDensity ([], proof.fIopRoots.foldl (fun t r => t.commitBytes r.bytes) t)) fun a _ =>
    costs_bind (c2 v.inst.boundaryConstraints ([], a.2)) fun b _ =>
    costs_bind (costs_getChallengeT H (b.2.commitBytes proof.gIopRoot.bytes)) fun z _ =>
    costs_bind (c3 v.allMasks ([], z.2)) fun h1 _ =>
    lift_bind (x := Res.expect proof.h1IopRoots.getLast?) fun r1 _ =>
    costs_bind (costs_commitFinalT h1.2 r1 proof.friProofH1.finalCoefficients) fun t1 _ =>
    lift_bind (x := Res.expect proof.h2IopRoots.getLast?) fun r2 _ =>
    costs_bind (costs_commitFinalT t1 r2 proof.friProofH2.finalCoefficients) fun t2 _ =>
    new_bind (n := v.columnDomain.size * v.ldeFactor) fun d1 _ =>
    new_bind (n := v.constraintsDomain.size * v.ldeFactor) fun d2 _ =>
    costs_bind (costs_getChallengeBytesT H t2) fun b1 _ =>
    lift_bind (x := bytesToChallengeIndex b1.1 (v.columnDomain.size * v.ldeFactor) v.ldeFactor) fun i1 _ =>
    costs_bind (costs_getChallengeBytesT H b1.2) fun b2 _ =>
    lift_bind (x := bytesToChallengeIndex b2.1 (v.constraintsDomain.size * v.ldeFactor) v.ldeFactor) fun i2 _ =>
    costs_pure (o := 0) (({ constraintChallenges := a.1, boundaryChallenges := b.1, z := z.1, h1Challenges := h1.1, idx1 := i1, idx2 := i2 } : Challenges F), d1, d2)
  have e : ∀ x y z : ℕ, 2 * x + 2 * y + z + 3 = 2 * x + (2 * y + (1 + (z + (0 + (0 + (1 + (1 + 0))))))) := by intro x y z; omega
  rw [e]
  exact key.mono (by omega) (le_refl _)

theorem res_checkQueriesT (idx : ℕ) (l : List (IopQuery F × Digest)) : (checkQueriesT H idx l).res = .ok (checkQueries H idx l) := by
  induction l with
  | nil => rfl
  | cons x l ih =>
    obtain ⟨q, root⟩ := x
    simp only [checkQueriesT, checkQueries, res_bind, res_verifyQueryT, Res.ok_bind, res_ite, res_pure, ih]
    split
    · rfl
    · split <;> rfl

theorem costs_checkQueriesT (idx : ℕ) (l : List (IopQuery F × Digest)) :
    (checkQueriesT H idx l).Costs (fun o => o ≠ none) (l.map (fun x => openingHashes x.1)).sum 0 0 := by
  induction l with
  | nil => exact costs_pure _
  | cons x l ih =>
    obtain ⟨q, root⟩ := x
    simp only [checkQueriesT, List.map_cons, List.sum_cons]
    refine costs_bind (o := 0) (o' := 0) (l := 0) (l' := 0) (costs_verifyQueryT H q root) fun good _ => ?_
    split
    · exact costs_stop (by simp)
    split
    · exact costs_stop (by simp)
    have := costs_bind' (Q := fun o => o ≠ none) (h' := 0) (o' := 0) (l' := 0) ih (f := fun vs => pure (vs.map (fun vs => q.value :: vs))) (fun vs _ => by
      refine ⟨costs_pure _, fun hn b hb => ?_⟩
      rw [not_not] at hn
      subst hn
      cases hb
      simp)
    simpa using this

theorem res_verifyGT (proof : InstanceProof F) (ch : Challenges F) (dom : Domain F) (a b : F) :
    (Verifier.verifyGT H proof ch dom a b).res = Verifier.verifyG H proof ch dom a b := by
  unfold Verifier.verifyGT Verifier.verifyG
  simp only [res_bind, res_verifyQueryT, Res.ok_bind, res_ite, res_pure, res_simulateH2T, res_friVerifyT, Res.pure_def]

theorem costs_verifyGT (proof : InstanceProof F) (ch : Challenges F) (dom : Domain F) (a b : F) (h1 : ch.idx1 ≤ 2 ^ StarkField.S F)
    (h2 : ch.idx2 ≤ 2 ^ StarkField.S F) :
    (Verifier.verifyGT H proof ch dom a b).Costs (fun b => b = true)
      (openingHashes proof.gQuery + (friHashes proof.friProofH1 + friHashes proof.friProofH2))
      ((4 + powOpsS (StarkField.S F)) + (friOps (StarkField.S F) proof.friProofH1.roots.length proof.friProofH1.finalCoefficients.length +
        friOps (StarkField.S F) proof.friProofH2.roots.length proof.friProofH2.finalCoefficients.length)) 0 := by
  unfold Verifier.verifyGT
  rw [← Nat.zero_add (4 + powOpsS _ + _), ← Nat.zero_add 0]
  refine costs_bind (costs_verifyQueryT H _ _) fun good _ => ?_
  split
  · exact costs_stop (by simp)
  split
  · exact costs_stop (by simp)
  rw [← Nat.zero_add (friHashes _ + _), ← Nat.zero_add 0]
  refine costs_bind (costs_simulateH2T _ _ _ _ _ h2) fun h2AtX _ => ?_
  rw [← Nat.zero_add 0]
  refine costs_bind' (costs_friVerifyT H _ _ _ h1) fun valid _ => ?_
  cases valid with
  | false => exact ⟨costs_stop (by simp), fun _ b hb => by cases hb; simp⟩
  | true => exact ⟨costs_friVerifyT H _ _ _ h2, fun hn => absurd rfl hn⟩

theorem res_verifyBodyT (v : Verifier F) (proof : InstanceProof F) (ch : Challenges F) (d1 d2 : Domain F) :
    (v.verifyBodyT H proof ch d1 d2).res = v.verifyBody H proof ch d1 d2 := by
  unfold Verifier.verifyBodyT Verifier.verifyBody
  rw [res_bind, res_checkQueriesT, Res.ok_bind]
  cases checkQueries H ch.idx1 (proof.fQueries.zip proof.fIopRoots) with
  | none => rfl
  | some fs => simp only [res_bind, res_simulateH1T, res_compositionT, res_verifyGT]

theorem costs_verifyBodyT (v : Verifier F) (proof : InstanceProof F) (ch : Challenges F) (d1 d2 : Domain F) (h1 : ch.idx1 ≤ 2 ^ StarkField.S F)
    (h2 : ch.idx2 ≤ 2 ^ StarkField.S F) (hl : proof.fQueries.length = proof.fIopRoots.length) :
    (v.verifyBodyT H proof ch d1 d2).Costs (fun b => b = true) (openingsHashes proof)
      (8 * v.allMasks.length + 2 * powOpsS (StarkField.S F) + 4 +
        batchedOps v.columnDomain.size v.inst.numRows v.maxConstraintPower v.constraintsBatchedByDensity v.inst.boundaryConstraints +
        friOps (StarkField.S F) proof.friProofH1.roots.length proof.friProofH1.finalCoefficients.length +
        friOps (StarkField.S F) proof.friProofH2.roots.length proof.friProofH2.finalCoefficients.length)
      (3 * excludedTotal v.columnDomain.size v.inst.numRows v.constraintsBatchedByDensity) := by
  have e : ((proof.fQueries.zip proof.fIopRoots).map (fun x => openingHashes x.1)).sum = (proof.fQueries.map openingHashes).sum := by
    rw [← Function.comp_def openingHashes, ← List.map_map, List.map_fst_zip (le_of_eq hl)]
  unfold Verifier.verifyBodyT openingsHashes
  rw [← e]
  have key := costs_bind' (Q := fun b => b = true) (costs_checkQueriesT H ch.idx1 (proof.fQueries.zip proof.fIopRoots)) (f := fun opened => match opened with
    | none => pure false
    | some fLdesAtX => do
      let h1AtX ← v.simulateH1T ch.h1Challenges ch.idx1 d1 fLdesAtX proof.fAtZM ch.z
      let gAtZ ← v.calculateGAtZT ch.constraintChallenges ch.boundaryChallenges proof.fAtZM ch.z
      Verifier.verifyGT H proof ch d2 h1AtX gAtZ)
    (h' := 0 + (0 + (openingHashes proof.gQuery + (friHashes proof.friProofH1 + friHashes proof.friProofH2))))
    (o' := (7 * v.allMasks.length + powOpsS (StarkField.S F)) + ((v.allMasks.length +
        batchedOps v.columnDomain.size v.inst.numRows v.maxConstraintPower v.constraintsBatchedByDensity v.inst.boundaryConstraints) +
      ((4 + powOpsS (StarkField.S F)) + (friOps (StarkField.S F) proof.friProofH1.roots.length proof.friProofH1.finalCoefficients.length +
        friOps (StarkField.S F) proof.friProofH2.roots.length proof.friProofH2.finalCoefficients.length))))
    (l' := 0 + (3 * excludedTotal v.columnDomain.size v.inst.numRows v.constraintsBatchedByDensity + 0)) (fun opened _ => by
      cases opened with
      | none => exact ⟨costs_stop (by simp), fun _ b hb => by cases hb; simp⟩
      | some fs =>
        exact ⟨costs_bind (costs_simulateH1T v _ _ _ _ _ _ h1) fun a _ => costs_bind (costs_compositionT v _ _ _ _) fun b _ =>
          costs_verifyGT H proof ch d2 a b h1 h2, fun hn => absurd (by simp) hn⟩)
  simp only [Nat.zero_add, Nat.add_zero] at key
  rw [show ∀ a b c d : ℕ, a + b + c + d = a + (b + (c + d)) by intros; omega]
  refine key.mono ?_ (le_refl _)
  omega

theorem res_verifyT (v : Verifier F) (proof : InstanceProof F) : (v.verifyT H proof).res = v.verify H proof := by
  unfold Verifier.verifyT Verifier.verify
  simp only [res_bind, res_deriveT, res_ite, res_lift, res_verifyBodyT]

theorem challengeIndex_le {b : List UInt8} {n f i : ℕ} (h : bytesToChallengeIndex b n f = .ok i) : i ≤ n := by
  unfold bytesToChallengeIndex at h
  obtain ⟨-, -, h⟩ := Res.bind_eq_ok.1 h
  obtain ⟨_, hn, h⟩ := Res.bind_eq_ok.1 h
  obtain ⟨-, -, h⟩ := Res.bind_eq_ok.1 h
  cases h
  have h1 := fun x => (Nat.mod_lt x (of_decide_eq_true (Res.assert_eq_ok.1 hn))).le
  split_ifs <;> exact h1 _

theorem derive_indices {v : Verifier F} {proof : InstanceProof F} {r : Challenges F × Domain F × Domain F}
    (h : v.deriveChallenges H proof = .ok r) : r.1.idx1 ≤ 2 ^ StarkField.S F ∧ r.1.idx2 ≤ 2 ^ StarkField.S F := by
  unfold Verifier.deriveChallenges at h
  obtain ⟨_, -, h⟩ := Res.bind_eq_ok.1 h
  obtain ⟨_, -, h⟩ := Res.bind_eq_ok.1 h
  obtain ⟨_, -, h⟩ := Res.bind_eq_ok.1 h
  obtain ⟨_, -, h⟩ := Res.bind_eq_ok.1 h
  obtain ⟨_, -, h⟩ := Res.bind_eq_ok.1 h
  obtain ⟨_, -, h⟩ := Res.bind_eq_ok.1 h
  obtain ⟨_, -, h⟩ := Res.bind_eq_ok.1 h
  obtain ⟨d1, e1, h⟩ := Res.bind_eq_ok.1 h
  obtain ⟨d2, e2, h⟩ := Res.bind_eq_ok.1 h
  obtain ⟨i1, f1, h⟩ := Res.bind_eq_ok.1 h
  obtain ⟨i2, f2, h⟩ := Res.bind_eq_ok.1 h
  cases h
  have g1 := newForSize_size_le e1
  have g2 := newForSize_size_le e2
  exact ⟨(challengeIndex_le f1).trans (g1.1.trans g1.2), (challengeIndex_le f2).trans (g2.1.trans g2.2)⟩

theorem costs_verifyT (v : Verifier F) (proof : InstanceProof F) :
    (v.verifyT H proof).Costs (fun b => b = true)
      (transcriptHashes (batchedCount v.constraintsBatchedByDensity) v.inst.boundaryConstraints.length v.allMasks.length + openingsHashes proof)
      (otherOps (StarkField.S F) (batchedCount v.constraintsBatchedByDensity) v.inst.boundaryConstraints.length v.allMasks.length
          (proof.friProofH1.finalCoefficients.length + proof.friProofH2.finalCoefficients.length) +
        batchedOps v.columnDomain.size v.inst.numRows v.maxConstraintPower v.constraintsBatchedByDensity v.inst.boundaryConstraints +
        friOps (StarkField.S F) proof.friProofH1.roots.length proof.friProofH1.finalCoefficients.length +
        friOps (StarkField.S F) proof.friProofH2.roots.length proof.friProofH2.finalCoefficients.length)
      (3 * excludedTotal v.columnDomain.size v.inst.numRows v.constraintsBatchedByDensity) := by
  unfold Verifier.verifyT otherOps
  have key := costs_bind (Q := fun b => b = true) (costs_deriveT H v proof) (f := fun r =>
    if proof.fQueries.length ≠ v.inst.numRegisters then Tick.lift (.err .unsatisfied)
    else if proof.fQueries.length ≠ proof.fIopRoots.length then Tick.lift (.err .unsatisfied)
    else v.verifyBodyT H proof r.1 r.2.1 r.2.2) (h' := openingsHashes proof)
    (o' := (8 * v.allMasks.length + 2 * powOpsS (StarkField.S F) + 4 +
        batchedOps v.columnDomain.size v.inst.numRows v.maxConstraintPower v.constraintsBatchedByDensity v.inst.boundaryConstraints +
        friOps (StarkField.S F) proof.friProofH1.roots.length proof.friProofH1.finalCoefficients.length +
        friOps (StarkField.S F) proof.friProofH2.roots.length proof.friProofH2.finalCoefficients.length))
    (l' := 3 * excludedTotal v.columnDomain.size v.inst.numRows v.constraintsBatchedByDensity) (fun r hr => by
      rw [res_deriveT] at hr
      obtain ⟨g1, g2⟩ := derive_indices H hr
      split
      · exact costs_fail (by simp)
      split
      · exact costs_fail (by simp)
      · next hl => exact costs_verifyBodyT H v proof r.1 r.2.1 r.2.2 g1 g2 (not_not.1 hl))
  exact key.mono (by omega) (by omega)

end Hodor

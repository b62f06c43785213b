import Verif.Model.ProverOps
import Verif.Props.SetupCost
import Verif.Lemmas.ProverCostP

/-!
# The prover with its field operations counted: the counting version computes the same
-/

set_option linter.unusedSectionVars false

namespace Hodor

open Spec Tick

theorem res_parChunksZipT {α β : Type} (w : Worker) (n : ℕ) (a : List α) (b : List β) {f : List α → List β → Tick (List α)} {g : List α → List β → List α}
    (h : ∀ u v, (f u v).res = .ok (g u v)) : (parChunksZipT w n a b f).res = .ok (parChunksZip w n a b g) := by
  unfold parChunksZipT parChunksZip
  simp only [res_bind, res_pure]
  rw [res_mapIdxT (g := fun i v => match (chunks (w.chunkSize n) b)[i]? with
    | some u => g v u
    | none => v)]
  · rfl
  · intro i v
    cases (chunks (w.chunkSize n) b)[i]? with
    | none => rfl
    | some u => exact h v u

@[simp] theorem res_unwrapT {α : Type} (x : Tick α) : (unwrapT x).res = TraceSystem.unwrapRes x.res := rfl

variable {F : Type} [Field F] [DecidableEq F] [StarkField F]

theorem res_mulRunningT (u g : F) (l : List F) : (mulRunningT u g l).res = .ok (mulRunning u g l) := by
  induction l generalizing u with
  | nil => rfl
  | cons x l ih => simp [mulRunningT, mulRunning, ih]

theorem res_distributePowersT (w : Worker) (a : List F) (g : F) : (distributePowersT w a g).res = .ok (distributePowers w a g) := by
  unfold distributePowersT distributePowers
  exact res_parChunksT w a fun c i v => by simp only [res_bind, res_powT, Res.ok_bind, res_mulRunningT]

theorem res_mapPolyT {P : Form} (w : Worker) (p : Poly F P) (f : F → F) :
    (mapPolyT w p f).res = .ok { p with coeffs := parChunks w p.coeffs (fun _ _ v => v.map f) } := by
  unfold mapPolyT
  simp only [res_bind, res_parChunksT w p.coeffs fun _ _ v => res_mapOpT f v, Res.ok_bind, res_pure]

theorem res_powPolyT (w : Worker) (p : Poly F .values) (e : ℕ) : (powPolyT w p e).res = .ok (p.pow w e) := by
  unfold powPolyT Poly.pow
  split
  · exact res_mapPolyT w p _
  · simp only [res_bind, res_pure]
    rw [res_parChunksT w p.coeffs (g := fun _ _ v => v.map (fun x => x ^ e))]
    · rfl
    · intro _ _ v
      rw [res_map (g := fun x => .ok (x ^ e)) fun x _ => res_powT x e, mapRes_ok _ (fun x => x ^ e) v fun _ _ => rfl]

theorem res_zipPolyT (w : Worker) (p q : Poly F .values) (f : F → F → F) : (zipPolyT w p q f).res =
    (Res.assert (p.coeffs.length = q.coeffs.length) >>= fun _ => .ok { p with coeffs := parChunksZip w p.coeffs.length p.coeffs q.coeffs (zipUpdate f) }) := by
  unfold zipPolyT
  simp only [res_bind, res_lift, res_pure, res_parChunksZipT w _ p.coeffs q.coeffs fun a b => res_zipUpdate (f := fun x y => op 1 (f x y)) (g := f) (fun _ _ => rfl) a b, Res.ok_bind]

theorem res_addPolyT (w : Worker) (p q : Poly F .values) : (zipPolyT w p q (fun a b => a + b)).res = p.addAssignV w q := res_zipPolyT w p q _

theorem res_mulPolyT (w : Worker) (p q : Poly F .values) : (zipPolyT w p q (fun a b => a * b)).res = p.mulAssign w q := res_zipPolyT w p q _

theorem res_fftPolyT (w : Worker) (p : Poly F .coefficients) : (fftPolyT w p).res = p.fft w := by
  unfold fftPolyT Poly.fft
  simp only [res_bind, res_bestFftT, res_pure, Res.pure_def]

theorem res_ifftPolyT (w : Worker) (p : Poly F .values) : (ifftPolyT w p).res = p.ifft w := by
  unfold ifftPolyT Poly.ifft
  simp only [res_bind, res_bestFftT, res_pure, Res.pure_def, res_parChunksT w _ fun _ _ v => res_mapOpT _ v, Res.ok_bind]

theorem res_icosetFftPolyT (w : Worker) (p : Poly F .values) : (icosetFftPolyT w p).res = p.icosetFft w := by
  unfold icosetFftPolyT Poly.icosetFft
  simp only [res_bind, res_ifftPolyT, res_distributePowersT, res_pure, Res.pure_def, Res.ok_bind]
  rfl

theorem res_cosetFftPolyT (w : Worker) (p : Poly F .coefficients) : (cosetFftPolyT w p).res = p.cosetFft w := by
  unfold cosetFftPolyT Poly.cosetFft
  simp only [res_bind, res_fftPolyT, res_distributePowersT, Res.ok_bind]
  rfl

theorem res_ldeChunkT (w : Worker) (p : Poly F .coefficients) (hint : Option ℕ) (c s : F) (len : ℕ) : (ldeChunkT w p hint c s len).res = p.ldeChunk w hint c s len := by
  unfold ldeChunkT Poly.ldeChunk
  simp only [res_bind, res_pure, Res.pure_def]
  rw [res_forN (g := fun _ x => bestFft w (distributePowers w p.coeffs x.2) p.omega p.exp hint >>= fun r => .ok (x.1 ++ [r], x.2 * c))]
  intro i x
  simp only [res_bind, res_distributePowersT, Res.ok_bind, res_bestFftT, res_op, res_pure]

theorem res_multiCosetLdeT (w : Worker) (p : Poly F .coefficients) (factor : ℕ) (shift : F → Tick F) (s : F) (hs : ∀ x, (shift x).res = .ok (x * s)) :
    (multiCosetLdeT w p factor shift).res = p.multiCosetLde w factor s := by
  unfold multiCosetLdeT Poly.multiCosetLde
  simp only [res_bind, res_lift, res_newForSizeT, res_ofVecT]
  congr 1; funext _
  congr 1; funext d
  rw [res_collectN (g := fun i => p.ldeChunk w (Poly.ldeHint w factor) d.generator (d.generator ^ i * s) (min (w.chunkSize factor) (factor - i * w.chunkSize factor)))]
  · rfl
  · intro i _
    simp only [res_bind, res_powT, Res.ok_bind, hs, res_ldeChunkT]

theorem res_ldeT (w : Worker) (p : Poly F .coefficients) (factor : ℕ) : (ldeT w p factor).res = p.lde w factor := by
  unfold ldeT Poly.lde Poly.ldeUsingMultipleCosets
  split
  · exact res_fftPolyT w p
  · exact res_multiCosetLdeT w p factor _ 1 fun x => by simp

theorem res_cosetLdeT (w : Worker) (p : Poly F .coefficients) (factor : ℕ) : (cosetLdeT w p factor).res = p.cosetLde w factor := by
  unfold cosetLdeT Poly.cosetLde Poly.cosetLdeUsingMultipleCosets
  split
  · exact res_cosetFftPolyT w p
  · exact res_multiCosetLdeT w p factor _ _ fun x => rfl

theorem res_evaluateDegreeOneT (w : Worker) (p : Poly F .coefficients) (n : ℕ) : (evaluateDegreeOneT w p n).res = p.evaluateAtDomainForDegreeOne w n := by
  unfold evaluateDegreeOneT Poly.evaluateAtDomainForDegreeOne
  simp only [res_bind, res_lift, res_newForSizeT, res_ofVecT]
  congr 1; funext _
  congr 1; funext a
  congr 1; funext c
  congr 1; funext d
  rw [res_parChunksT w _ (g := fun ch i v => Poly.affineRunning a c d.generator (d.generator ^ (i * ch)) v.length)]
  · rfl
  · intro ch i v
    simp only [res_bind, res_powT, Res.ok_bind, res_affineRunningT]

theorem res_evalRunningT (g s x : F) (l : List F) : (evalRunningT g s x l).res = .ok (Poly.evalRunning g s x l) := by
  induction l generalizing s x with
  | nil => rfl
  | cons a l ih => simp [evalRunningT, Poly.evalRunning, ih]

theorem res_sumT (s : F) (l : List F) : (sumT s l).res = .ok (l.foldl (fun r v => r + v) s) := by
  induction l generalizing s with
  | nil => rfl
  | cons a l ih => simp [sumT, ih]

theorem res_evaluateAtT (w : Worker) (p : Poly F .coefficients) (g : F) : (evaluateAtT w p g).res = .ok (p.evaluateAt w g) := by
  unfold evaluateAtT Poly.evaluateAt
  simp only [res_bind, res_sumT]
  rw [res_collectN (g := fun i => .ok (match (chunks (w.chunkSize p.coeffs.length) p.coeffs)[i]? with
    | some a => Poly.evalRunning g 0 (g ^ (i * w.chunkSize p.coeffs.length)) a
    | none => 0))]
  · rw [collectN_eq _ _ _ fun _ _ => rfl]
    rfl
  · intro i _
    cases (chunks (w.chunkSize p.coeffs.length) p.coeffs)[i]? with
    | none => rfl
    | some a => simp only [evalTaskT, res_bind, res_powT, Res.ok_bind, res_evalRunningT]

theorem res_makeWitnessPolynomialsT (witness : List (List F)) (w : Worker) : (makeWitnessPolynomialsT witness w).res = makeWitnessPolynomials witness w := by
  unfold makeWitnessPolynomialsT makeWitnessPolynomials
  simp only [res_bind, res_lift, res_newForSizeT, res_inverseUnwrapT, fromStrT, res_op, Res.ok_bind]
  congr 1; funext row0
  congr 1; funext _
  congr 1; funext d
  congr 1; funext oi
  congr 1; funext mi
  rw [res_map (g := fun r => bestFft w r oi d.powerOfTwo (witnessHint w witness.length)) fun r _ => res_bestFftT _ _ _ _ _]
  congr 1; funext rows
  refine res_map fun r _ => ?_
  simp only [res_bind, res_parChunksT w _ fun _ _ v => res_mapOpT _ v, Res.ok_bind, res_ofVecT]
  rfl

theorem res_calculateWitnessPolysT (inst : InstanceProperties F) (witness : List (List F)) (w : Worker) :
    (calculateWitnessPolysT inst witness w).res = calculateWitnessPolys inst witness w := by
  unfold calculateWitnessPolysT calculateWitnessPolys
  simp only [res_bind, res_lift, res_ite, res_makeWitnessPolynomialsT]

theorem res_maskedPolynomialsT (masks : List (MaskProperties F)) (witness : List (Poly F .coefficients)) (w : Worker) :
    (maskedPolynomialsT masks witness w).res = maskedPolynomials masks witness w := by
  unfold maskedPolynomialsT maskedPolynomials
  refine res_forEach fun m _ s => ?_
  simp only [res_bind, res_lift, res_pure, Res.pure_def]
  congr 1; funext r
  congr 1; funext p
  obtain ⟨r, sd⟩ := m
  cases sd with
  | steps => rfl
  | mask x =>
    simp only [evaluateForMaskT, evaluateForMask, res_bind, res_distributePowersT, Res.ok_bind, res_pure]
    rfl

theorem res_adjustmentInCosetT (a : ℕ) (alpha beta : F) (d : Domain F) (pre : PrecomputedOmegas F) (w : Worker) :
    (adjustmentInCosetT a alpha beta d pre w).res = adjustmentInCoset a alpha beta d pre w := by
  unfold adjustmentInCosetT adjustmentInCoset
  simp only [res_bind, res_lift, res_unwrapT, res_ofVecT, res_powPolyT, res_mapPolyT, Res.ok_bind]
  rfl

theorem res_applyCoeffT (w : Worker) (c : F) (p : Poly F .values) : (applyCoeffT w c p).res = .ok (applyCoeff w c p) := by
  unfold applyCoeffT applyCoeff
  by_cases h : c = 1
  · simp [h]
  · rw [if_pos h, if_pos h, res_bind, res_op, Res.ok_bind]
    by_cases h' : c = -1
    · rw [if_pos h', if_pos h', res_mapPolyT]
      rfl
    · rw [if_neg h', if_neg h', res_mapPolyT]
      rfl

theorem res_evaluateUnivariateTermT (t : UnivariateTerm F) (subst : List (MaskProperties F × Poly F .coefficients)) (cache : TermCache F) (hint : ℕ) (w : Worker) :
    (evaluateUnivariateTermT t subst cache hint w).res = evaluateUnivariateTerm t subst cache hint w := by
  unfold evaluateUnivariateTermT evaluateUnivariateTerm
  simp only [res_bind, res_lift]
  congr 1; funext _
  congr 1; funext base
  cases assocGet cache { mask := t.maskProperties, power := t.power, totalLdeLength := hint * base.size } with
  | some e => simp only [evaluateLookupT, res_bind, res_applyCoeffT, Res.ok_bind, res_pure, Res.pure_def]
  | none =>
    simp only [evaluateLookupT, evaluateFreshT, evaluateFresh, res_bind, res_lift, res_cosetLdeT, res_powPolyT, res_applyCoeffT, Res.ok_bind, res_pure, Res.pure_def]

theorem res_mulOptT (w : Worker) (acc : Option (Poly F .values)) (t : Poly F .values) : (mulOptT w acc t).res = mulOpt w acc t := by
  cases acc with
  | none => rfl
  | some r => simp only [mulOptT, mulOpt, res_bind, res_mulPolyT, res_pure, Res.pure_def]

theorem res_evaluateConstraintTermT (t : ConstraintTerm F) (subst : List (MaskProperties F × Poly F .coefficients)) (cache : TermCache F) (hint : ℕ) (w : Worker) :
    (evaluateConstraintTermT t subst cache hint w).res = evaluateConstraintTerm t subst cache hint w := by
  unfold evaluateConstraintTermT evaluateConstraintTerm
  simp only [res_bind, res_lift]
  congr 1; funext _
  cases t with
  | univariate t => exact res_evaluateUnivariateTermT t subst cache hint w
  | polyvariate p =>
    simp only [res_bind, res_lift, res_mapPolyT, Res.ok_bind, res_pure, Res.pure_def]
    rw [res_forEach fun u _ s => ?_]
    · rfl
    · simp only [evaluateFactorT, res_bind, res_evaluateUnivariateTermT, res_mulOptT, res_pure]

theorem res_adjustmentOptT (inst : AliInstance F) (w : Worker) (a : ℕ) (alpha beta : F) : (adjustmentOptT inst w a alpha beta).res = adjustmentOpt inst w a alpha beta := by
  unfold adjustmentOptT adjustmentOpt
  simp only [res_ite, res_pure, res_bind, res_adjustmentInCosetT, Res.pure_def]

theorem res_applyAdjustmentT (w : Worker) (alpha : F) (v : Poly F .values) (o : Option (Poly F .values)) : (applyAdjustmentT w alpha v o).res = applyAdjustment w alpha v o := by
  cases o with
  | none => exact res_mapPolyT w v _
  | some adj => exact res_mulPolyT w v adj

variable (H : List UInt8 → Digest)

theorem res_gConstraintW (inst : AliInstance F) (w : Worker) (subst : List (MaskProperties F × Poly F .coefficients)) (g : Poly F .values)
    (c : Constraint F) (s : GState F) : (gConstraintW H inst w subst g c s).res = gConstraint H inst w subst g c s := by
  unfold gConstraintW gConstraint
  simp only [res_bind, res_lift, res_getChallengeT, res_adjustmentOptT, res_mapPolyT, res_applyAdjustmentT, res_addPolyT, Res.ok_bind, res_pure, Res.pure_def]
  congr 1; funext _
  congr 1; funext a
  congr 1; funext b
  congr 1; funext adj
  rw [res_forEach fun t _ s => ?_]
  · rfl
  · simp only [gTermT, res_bind, res_evaluateConstraintTermT, res_addPolyT, res_pure]

theorem res_gBatchW (inst : AliInstance F) (w : Worker) (subst : List (MaskProperties F × Poly F .coefficients))
    (b : ConstraintDensity × List (Constraint F)) (s : GState F) : (gBatchW H inst w subst b s).res = gBatch H inst w subst b s := by
  unfold gBatchW gBatch
  simp only [res_bind, res_lift, res_pure, Res.pure_def, res_forEach fun c _ s' => res_gConstraintW H inst w subst s.batch c s', res_mulPolyT, res_addPolyT]

theorem res_gBoundaryW (inst : AliInstance F) (w : Worker) (witness : List (Poly F .coefficients))
    (b : BoundaryConstraint F) (s : GState F) : (gBoundaryW H inst w witness b s).res = gBoundary H inst w witness b s := by
  unfold gBoundaryW gBoundary
  simp only [res_bind, res_lift, res_getChallengeT, res_adjustmentOptT, res_op, Res.ok_bind, res_cosetLdeT, res_applyAdjustmentT, res_mulPolyT, res_addPolyT, res_pure, Res.pure_def]

theorem res_calculateGW (inst : AliInstance F) (t : Transcript) (witness : List (Poly F .coefficients)) (w : Worker) :
    (calculateGW H inst t witness w).res = inst.calculateG H t witness w := by
  unfold calculateGW AliInstance.calculateG
  simp only [res_bind, res_lift, res_pure, Res.pure_def, res_ofVecT, res_maskedPolynomialsT, res_forEach fun b _ s' => res_gBatchW H inst w _ b s',
    res_forEach fun b _ s' => res_gBoundaryW H inst w _ b s', res_icosetFftPolyT]
  rfl

theorem res_inverseLinearT (root : F) (n : ℕ) (w : Worker) : (inverseLinearT root n w).res = inverseLinear root n w := by
  unfold inverseLinearT inverseLinear
  simp only [res_bind, res_linearPolyT, res_evaluateDegreeOneT, res_batchInversionT]

theorem res_deepDivisorT (n : ℕ) (w : Worker) (sd : StepDifference F) (root : F) (ds : List (StepDifference F × Poly F .values)) :
    (deepDivisorT n w sd root ds (assocGet ds sd)).res = deepDivisor n w sd root ds := by
  unfold deepDivisor
  cases assocGet ds sd with
  | some d => rfl
  | none => simp only [deepDivisorT, res_bind, res_inverseLinearT, res_pure, Res.pure_def]

theorem res_deepMaskW (fPolys : List (Poly F .coefficients)) (fLdes : List (Poly F .values)) (size : ℕ) (z : F)
    (w : Worker) (m : MaskProperties F) (s : DeepState F) : (deepMaskW H fPolys fLdes size z w m s).res = deepMask H fPolys fLdes size z w m s := by
  unfold deepMaskW deepMask
  simp only [res_bind, res_lift, res_getChallengeT, res_op, Res.ok_bind, res_evaluateAtT, res_deepDivisorT, res_mapPolyT, res_mulPolyT, res_addPolyT, res_pure, Res.pure_def]
  rfl

theorem res_calculateDeepW (inst : AliInstance F) (fPolys : List (Poly F .coefficients)) (fLdes : List (Poly F .values))
    (gPoly : Poly F .coefficients) (gLde : Poly F .values) (t : Transcript) (w : Worker) :
    (calculateDeepW H inst fPolys fLdes gPoly gLde t w).res = inst.calculateDeep H fPolys fLdes gPoly gLde t w := by
  unfold calculateDeepW AliInstance.calculateDeep
  simp only [res_bind, res_lift, res_getChallengeT, res_pure, Res.pure_def, res_ofVecT, res_forEach fun m _ s' => res_deepMaskW H fPolys fLdes _ _ w m s',
    res_inverseLinearT, res_evaluateAtT, res_op, Res.ok_bind, res_mapPolyT, res_mulPolyT]
  rfl

theorem res_friNextValuesT (w : Worker) (values om : List F) (stride n : ℕ) (ch ti : F) :
    (friNextValuesT w values om stride n ch ti).res = friNextValues w values om stride n ch ti := by
  unfold friNextValuesT friNextValues
  simp only [res_bind, res_pure, Res.pure_def]
  rw [res_collectN (g := fun i => collectN (min (w.chunkSize n) (n - i * w.chunkSize n)) (fun j => friNextValue values om stride n ch ti (i * w.chunkSize n + j)))]
  intro i _
  refine res_collectN fun j _ => ?_
  simp only [friNextValueT, friNextValue, res_bind, res_lift, res_friFoldT, Res.pure_def]

theorem res_rootChallengeT (t : IopTree) : (rootChallengeT t : Tick F).res = t.getChallengeScalarFromRoot := rfl

theorem res_friStepValuesW (w : Worker) (om : List F) (twoInv : F) (i : ℕ) (s : FriState F) :
    (friStepValuesW H w om twoInv i s).res = friStepValues H w om twoInv i s := by
  unfold friStepValuesW friStepValues
  simp only [res_bind, res_lift, res_friNextValuesT, res_rootChallengeT, res_ofVecT, res_pure, Res.pure_def]
  rfl

theorem res_friProofByValuesW (w : Worker) (v : Poly F .values) (ldeFactor out : ℕ) :
    (friProofByValuesW H w v ldeFactor out).res = friProofByValues H w v ldeFactor out := by
  unfold friProofByValuesW friProofByValues
  simp only [res_bind, res_lift, res_op, Res.ok_bind, res_inverseUnwrapT, res_parChunksT w _ fun c i v => res_powersTask _ c i v, res_rootChallengeT, res_ofVecT,
    res_ifftPolyT, res_pure, Res.pure_def, res_forN fun i s => res_friStepValuesW H w _ _ i s]
  rfl

theorem res_proveW (p : Prover F) (witness : List (List F)) : (p.proveW H witness).res = p.prove H witness := by
  unfold Prover.proveW Prover.prove
  simp only [res_bind, res_lift, res_calculateWitnessPolysT, res_map fun q _ => res_ldeT p.worker q p.ldeFactor, res_calculateGW, res_ldeT, res_calculateDeepW,
    res_friProofByValuesW, res_commitFinalT, Res.ok_bind, res_pure, Res.pure_def]

end Hodor

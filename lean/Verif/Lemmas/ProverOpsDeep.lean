import Verif.Lemmas.ProverOpsG
import Verif.Lemmas.ProverOpsFri

/-!
# The prover with its field operations counted: the quotients, and the counts in terms of the instance
-/

set_option linter.unusedSectionVars false

namespace Hodor

open Spec Tick

variable {F : Type} [Field F] [DecidableEq F] [StarkField F] (H : List UInt8 → Digest)

theorem spent_deepMaskW (w : Worker) {k N : ℕ} {fPolys : List (Poly F .coefficients)} {fLdes : List (Poly F .values)} (hp : ∀ p ∈ fPolys, p.coeffs.length = 2 ^ k)
    (hl : ∀ l ∈ fLdes, l.coeffs.length = 2 ^ N) (z : F) (m : MaskProperties F) {s : DeepState F} (hs : s.h1.coeffs.length = 2 ^ N) :
    (deepMaskW H fPolys fLdes (2 ^ N) z w m s).Spent (fun s' d => s'.h1.coeffs.length = 2 ^ N ∧
      d + (s.divisors.map Prod.fst).toFinset.card * inverseLinearOps (StarkField.S F) w (2 ^ N) =
        (evalOps w (2 ^ k) + 3 + 4 * 2 ^ N) + (s'.divisors.map Prod.fst).toFinset.card * inverseLinearOps (StarkField.S F) w (2 ^ N) ∧
      (s'.divisors.map Prod.fst).toFinset = (s.divisors.map Prod.fst).toFinset ∪ [m.stepsDifference].toFinset) := by
  unfold deepMaskW
  refine spent_lift_bind fun mask _ => ?_
  refine spent_works_bind (works_op 1 _) fun root _ => ?_
  refine spent_lift_bind fun r _ => spent_lift_bind fun p hrp => ?_
  have lp := hp p (List.mem_of_getElem? (rd_inv hrp))
  refine spent_works_bind (works_evaluateAtT w p root) fun value _ => ?_
  rw [lp]
  refine Tick.Spent.bind (Q := fun (x : Poly F .values × List (StepDifference F × Poly F .values)) d =>
    d + (s.divisors.map Prod.fst).toFinset.card * inverseLinearOps (StarkField.S F) w (2 ^ N) =
      (x.2.map Prod.fst).toFinset.card * inverseLinearOps (StarkField.S F) w (2 ^ N) ∧
    (x.2.map Prod.fst).toFinset = (s.divisors.map Prod.fst).toFinset ∪ [m.stepsDifference].toFinset) ?_ ?_
  · cases hg : assocGet s.divisors m.stepsDifference with
    | some d =>
      have hmem : m.stepsDifference ∈ (s.divisors.map Prod.fst).toFinset := by
        by_contra hn
        rw [(assocGet_none _ _).2 hn] at hg
        cases hg
      refine spent_pure ⟨by simp, ?_⟩
      dsimp only
      rw [Finset.union_eq_left.2]
      intro x hx
      rw [List.toFinset_cons, List.toFinset_nil, insert_empty_eq, Finset.mem_singleton] at hx
      rw [hx]
      exact hmem
    | none =>
      have hn := (assocGet_none _ _).1 hg
      unfold deepDivisorT
      refine spent_works_bind (works_inverseLinearT root N w) fun d _ => spent_pure ?_
      dsimp only
      rw [keys_assocInsert]
      refine ⟨by rw [Finset.card_insert_of_notMem hn]; ring, ?_⟩
      rw [List.toFinset_cons, List.toFinset_nil, Finset.union_insert, Finset.union_empty]
  · rintro ⟨dv, dvs⟩ d - ⟨h1, h2⟩
    refine spent_lift_bind fun f hf => ?_
    have lf := hl f (List.mem_of_getElem? (rd_inv hf))
    refine spent_works_bind (works_op 1 _) fun mv _ => ?_
    refine spent_works_bind (works_mapPolyT w f _) fun f1 hf1 => ?_
    refine spent_works_bind (works_getChallengeT H _) fun a _ => ?_
    obtain ⟨alpha, t⟩ := a
    refine spent_works_bind (works_mapPolyT w f1 _) fun f2 hf2 => ?_
    refine spent_works_bind (works_zipPolyT w f2 dv _) fun f3 hf3 => ?_
    refine spent_works_bind (works_zipPolyT w s.h1 f3 _) fun f4 hf4 => spent_pure ⟨(zipPolyT_kept hf4).1.trans hs, ?_, h2⟩
    have e1 := (mapPolyT_kept hf1).1
    have e2 := (mapPolyT_kept hf2).1
    dsimp only at h1 ⊢
    omega

theorem works_calculateDeepW (w : Worker) {ali : AliInstance F} {k N K M : ℕ} {fPolys : List (Poly F .coefficients)} {fLdes : List (Poly F .values)}
    (hp : ∀ p ∈ fPolys, p.coeffs.length = 2 ^ k) (hl : ∀ l ∈ fLdes, l.coeffs.length = 2 ^ N) {gPoly : Poly F .coefficients} {gLde : Poly F .values}
    (hg : gPoly.coeffs.length = 2 ^ K) (hgl : gLde.coeffs.length = 2 ^ M) (t : Transcript) :
    (calculateDeepW H ali fPolys fLdes gPoly gLde t w).Spent (fun r d => (r.h1.coeffs.length = 2 ^ N ∧ r.h2.coeffs.length = 2 ^ M) ∧
      d = 1 + polyOps (StarkField.S F) (2 ^ N) + ali.allMasks.length * (evalOps w (2 ^ k) + 3 + 4 * 2 ^ N) +
      (ali.allMasks.map (fun m => m.stepsDifference)).toFinset.card * inverseLinearOps (StarkField.S F) w (2 ^ N) +
      inverseLinearOps (StarkField.S F) w (2 ^ M) + evalOps w (2 ^ K) + 1 + 2 * 2 ^ M) := by
  unfold calculateDeepW
  refine spent_works_bind (works_getChallengeT H _) fun a _ => ?_
  obtain ⟨z, t⟩ := a
  refine spent_lift_bind fun f0 hf0 => ?_
  have l0 : f0.size = 2 ^ N := hl f0 (List.mem_of_getElem? (rd_inv hf0))
  rw [l0]
  refine spent_works_bind (works_ofVecT _) fun h1 hh1 => ?_
  rw [res_ofVecT] at hh1
  have lh1 := (ofVec_shape (List.length_replicate ..) hh1).1
  rw [List.length_replicate]
  refine (spent_forEach (fun s : DeepState F => s.h1.coeffs.length = 2 ^ N) (fun s => (s.divisors.map Prod.fst).toFinset)
    (fun S => S.card * inverseLinearOps (StarkField.S F) w (2 ^ N)) (fun _ => evalOps w (2 ^ k) + 3 + 4 * 2 ^ N) (fun m => [m.stepsDifference]) lh1
    fun m _ s hs => spent_deepMaskW H w hp hl z m hs).bind ?_
  rintro s d - ⟨e1, e2, e3⟩
  rw [show gLde.size = 2 ^ M from hgl]
  refine spent_works_bind (works_inverseLinearT z M w) fun inv _ => ?_
  refine spent_works_bind (works_evaluateAtT w gPoly z) fun gz _ => ?_
  refine spent_works_bind (works_op 1 _) fun mg _ => ?_
  refine spent_works_bind (works_mapPolyT w gLde _) fun h2 hh2 => ?_
  have l2 := (mapPolyT_kept hh2).1.trans hgl
  refine spent_works_bind (works_zipPolyT w h2 inv _) fun h3 hh3 => spent_pure ⟨⟨e1, (zipPolyT_kept hh3).1.trans l2⟩, ?_⟩
  rw [hg, hgl, l2]
  have e4 : (s.divisors.map Prod.fst).toFinset = (ali.allMasks.map (fun m => m.stepsDifference)).toFinset := by
    rw [e3, List.map_nil, List.toFinset_nil, Finset.empty_union]
    congr 1
    exact List.map_eq_flatMap.symm
  dsimp only at e2
  rw [e4] at e2
  simp only [List.map_nil, List.toFinset_nil, Finset.card_empty, Nat.zero_mul, List.map_const', List.sum_replicate, smul_eq_mul] at e2
  omega

section
variable {inst : InstanceProperties F} {n k f : ℕ}

theorem card_steps (h : Runnable inst n k f) (hk : k ≤ StarkField.S F) :
    ((masksOf (arpOf inst k)).map (fun m => m.stepsDifference)).toFinset.card = ((readPairs inst (2 ^ k)).map (fun x => x.2)).toFinset.card := by
  have hmem := mem_masksOf_iff h hk
  have hlt := readPairs_lt (inst := inst) (k := k)
  rw [← Finset.card_image_of_injOn (s := ((readPairs inst (2 ^ k)).map (fun x => x.2)).toFinset) (f := fun j => (.mask (genOf F k ^ j) : StepDifference F))]
  · congr 1
    ext m
    simp only [List.mem_toFinset, Finset.mem_image, List.mem_map, hmem]
    constructor
    · rintro ⟨a, ⟨x, hx, rfl⟩, rfl⟩
      exact ⟨x.2, ⟨x, hx, rfl⟩, rfl⟩
    · rintro ⟨j, ⟨x, hx, rfl⟩, rfl⟩
      exact ⟨_, ⟨x, hx, rfl⟩, rfl⟩
  · intro x hx y hy exy
    simp only [Finset.mem_coe, List.mem_toFinset, List.mem_map] at hx hy
    obtain ⟨a, ha, rfl⟩ := hx
    obtain ⟨b, hb, rfl⟩ := hy
    simp only [StepDifference.mask.injEq] at exy
    exact (genOf_prim hk).pow_inj (hlt a ha) (hlt b hb) exy

theorem coeffOps_maskU (g : F) (N : ℕ) (u : UnivariateTerm F) : coeffOps N (maskU g u) = coeffOps N u := by
  unfold maskU
  split <;> rfl

theorem pointTermOps_maskT (g : F) (N : ℕ) (t : ConstraintTerm F) : pointTermOps N (maskT g t) = pointTermOps N t := by
  cases t with
  | univariate u => exact coeffOps_maskU g N u
  | polyvariate p =>
    simp only [pointTermOps, maskT, List.map_map, List.length_map]
    congr 3
    exact List.map_congr_left fun u _ => coeffOps_maskU g N u

theorem pointConstraintOps_maskC (g : F) (S N D : ℕ) (c : Constraint F) : pointConstraintOps S N D (maskC g c) = pointConstraintOps S N D c := by
  unfold pointConstraintOps maskC
  dsimp only
  rw [List.map_map]
  congr 4
  funext t
  simp only [Function.comp_apply, pointTermOps_maskT]

theorem readPowers_lt : ∀ x ∈ readPowers inst (2 ^ k), x.2.1 < 2 ^ k := by
  intro x hx
  simp only [readPowers, List.mem_filterMap] at hx
  obtain ⟨u, -, ex⟩ := hx
  cases hu : u.stepsDifference with
  | mask m => rw [hu] at ex; cases ex
  | steps j => rw [hu] at ex; cases ex; exact Nat.mod_lt _ (by positivity)

theorem keysOps_readPowers (h : Runnable inst n k f) (hk : k ≤ StarkField.S F) (w : Worker) :
    keysOps (StarkField.S F) w k f (((arpOf inst k).constraints.flatMap factors).map (factorKey k f)).toFinset =
      ∑ x ∈ (readPowers inst (2 ^ k)).toFinset, (cosetLdeOps (StarkField.S F) w k f + powAllOps (2 ^ (k + f)) x.2.2) := by
  have hver := h.verifiable
  let φ : Register × ℕ × ℕ → WitnessEvaluationData F := fun x => ⟨⟨x.1, .mask (genOf F k ^ x.2.1)⟩, x.2.2, 2 ^ f * 2 ^ k⟩
  have himg : (((arpOf inst k).constraints.flatMap factors).map (factorKey k f)).toFinset = (readPowers inst (2 ^ k)).toFinset.image φ := by
    ext key
    simp only [List.mem_toFinset, Finset.mem_image, readPowers, List.mem_filterMap, List.mem_flatMap, List.mem_map, arpOf]
    constructor
    · rintro ⟨u, ⟨c, ⟨c0, hc0, rfl⟩, hu⟩, rfl⟩
      rw [factors_maskC] at hu
      obtain ⟨u0, hu0, rfl⟩ := List.mem_map.1 hu
      obtain ⟨-, j, ej⟩ := hver.reads c0 hc0 u0 hu0
      refine ⟨(u0.register, j % 2 ^ k, u0.power), ⟨u0, ⟨c0, hc0, hu0⟩, by rw [ej]⟩, ?_⟩
      simp only [φ, factorKey, UnivariateTerm.maskProperties, maskU, ej]
      rw [← pow_mod_orderOf, ← (genOf_prim hk).eq_orderOf, Nat.mod_mod, (genOf_prim hk).eq_orderOf, pow_mod_orderOf]
    · rintro ⟨x, ⟨u0, ⟨c0, hc0, hu0⟩, ex⟩, rfl⟩
      obtain ⟨-, j, ej⟩ := hver.reads c0 hc0 u0 hu0
      rw [ej] at ex
      cases ex
      refine ⟨maskU (genOf F k) u0, ⟨maskC (genOf F k) c0, ⟨c0, hc0, rfl⟩, by rw [factors_maskC]; exact List.mem_map.2 ⟨u0, hu0, rfl⟩⟩, ?_⟩
      simp only [φ, factorKey, UnivariateTerm.maskProperties, maskU, ej]
      rw [← pow_mod_orderOf, ← (genOf_prim hk).eq_orderOf]
  rw [keysOps, himg, Finset.sum_image]
  intro x hx y hy exy
  simp only [Finset.mem_coe, List.mem_toFinset] at hx hy
  simp only [φ, WitnessEvaluationData.mk.injEq, MaskProperties.mk.injEq, StepDifference.mask.injEq] at exy
  obtain ⟨⟨e1, e2⟩, e3, -⟩ := exy
  exact Prod.ext e1 (Prod.ext ((genOf_prim hk).pow_inj (readPowers_lt x hx) (readPowers_lt y hy) e2) e3)

theorem length_batchesOf_arp : (batchesOf (arpOf inst k).constraints).length = (densitiesOf inst.constraints).length := by
  rw [batchesOf_groups, groupsOf, List.length_map]
  congr 1
  apply densitiesOf_congr
  simp only [arpOf, List.map_map]
  rfl

theorem compositionProveOps_eq (h : Runnable inst n k f) (hk : k ≤ StarkField.S F) (w : Worker) :
    polyOps (StarkField.S F) (2 ^ (k + f)) + (masksOf (arpOf inst k)).length * distributeOps w (2 ^ k) +
      keysOps (StarkField.S F) w k f (((arpOf inst k).constraints.flatMap factors).map (factorKey k f)).toFinset +
      ((arpOf inst k).constraints.map (pointConstraintOps (StarkField.S F) (2 ^ (k + f)) (2 ^ f))).sum + (batchesOf (arpOf inst k).constraints).length * (2 * 2 ^ (k + f)) +
      (arpOf inst k).boundaryConstraints.length * pointBoundaryOps (StarkField.S F) w k f +
      (fftOps w (k + f) + 2 ^ (k + f) + distributeOps w (2 ^ (k + f))) = compositionProveOps (StarkField.S F) w inst k f := by
  rw [keysOps_readPowers h hk, length_masksOf h hk, length_batchesOf_arp]
  have e : ((arpOf inst k).constraints.map (pointConstraintOps (StarkField.S F) (2 ^ (k + f)) (2 ^ f))) =
      inst.constraints.map (pointConstraintOps (StarkField.S F) (2 ^ (k + f)) (2 ^ f)) := by
    simp only [arpOf, List.map_map]
    exact List.map_congr_left fun c _ => pointConstraintOps_maskC _ _ _ _ c
  rw [e]
  rfl

end

end Hodor

import Verif.Lemmas.ProverOpsAli
import Verif.Props.ManyDensities
import Verif.Props.SetupCost
import Verif.Props.ProofShape

/-!
# The prover with its field operations counted: all of `calculate_g`
-/

set_option linter.unusedSectionVars false

namespace Hodor

open Spec Tick

variable {F : Type} [Field F] [DecidableEq F] [StarkField F]

theorem Shaped.setCoeffs {P : Form} {K : ℕ} {p : Poly F P} (h : Shaped K p) {c : List F} (hc : c.length = 2 ^ K) : Shaped K ({ p with coeffs := c } : Poly F P) := by
  obtain ⟨g, rfl⟩ := h
  refine ⟨fun i => c.getD i 0, ?_⟩
  conv_lhs => rw [eq_tab_getD c 0, hc]
  rfl

theorem spent_maskedPolynomialsT (w : Worker) {k : ℕ} (masks : List (MaskProperties F)) {witness : List (Poly F .coefficients)} (hws : ∀ p ∈ witness, Shaped k p) :
    (maskedPolynomialsT masks witness w).Spent (fun subst d => d = masks.length * distributeOps w (2 ^ k) ∧
      ∀ m ∈ masks, ∃ q, assocGet subst m = some q ∧ Shaped k q) := by
  unfold maskedPolynomialsT
  refine (spent_forEach (fun s : List (MaskProperties F × Poly F .coefficients) => ∀ m q, assocGet s m = some q → Shaped k q)
    (fun s => (s.map Prod.fst).toFinset) (fun _ => 0) (fun _ => distributeOps w (2 ^ k)) (fun m => [m]) (by simp [assocGet]) ?_).mono ?_
  · intro m _ s hs
    refine spent_lift_bind fun r _ => spent_lift_bind fun p hp => ?_
    have hp' := hws p (List.mem_of_getElem? (rd_inv hp))
    have hw : (evaluateForMaskT p w m.stepsDifference).Works (distributeOps w (2 ^ k)) := by
      unfold evaluateForMaskT
      cases m.stepsDifference with
      | mask x =>
        dsimp only
        rw [← hp'.length]
        exact Works.bind (d := 0) (works_distributePowersT _ _ _) fun _ _ => works_pure _
      | steps j => exact fun _ h => by cases h
    refine spent_works_bind hw fun q hq => spent_pure ⟨?_, by simp, ?_⟩
    · have hq' : Shaped k q := by
        unfold evaluateForMaskT at hq
        cases hm : m.stepsDifference with
        | mask x =>
          rw [hm] at hq
          dsimp only at hq
          rw [res_bind] at hq
          obtain ⟨c, hc, hq⟩ := Res.bind_eq_ok.1 hq
          cases hq
          refine hp'.setCoeffs ?_
          rw [res_distributePowersT] at hc
          cases hc
          exact (parMulRunning_length _ _ _).trans hp'.length
        | steps j => rw [hm] at hq; cases hq
      intro m' q' h'
      rw [assocGet_insert] at h'
      split at h'
      · cases h'; exact hq'
      · exact hs m' q' h'
    · rw [keys_assocInsert]
      simp
  · rintro s d - ⟨h1, h2, h3⟩
    refine ⟨by simpa using h2, fun m hm => ?_⟩
    have hmem : m ∈ (s.map Prod.fst).toFinset := by
      rw [h3]
      simp only [List.map_nil, List.toFinset_nil, Finset.empty_union, List.mem_toFinset, List.mem_flatMap, List.mem_singleton]
      exact ⟨m, hm, rfl⟩
    cases hg : assocGet s m with
    | none => exact absurd hmem ((assocGet_none _ _).1 hg)
    | some q => exact ⟨q, rfl, h1 m q hg⟩

variable (H : List UInt8 → Digest)

section
variable (w : Worker) {k f : ℕ} (hK : k + f ≤ StarkField.S F) (h32 : k < 32)
  {ali : AliInstance F} {arp : InstanceProperties F} (hali : AliOk ali arp k (k + f)) (hD : ali.maxConstraintPower = 2 ^ f)
include hK h32 hali hD

theorem works_calculateGW (hcs : ∀ c ∈ arp.constraints, ∀ t ∈ c.terms, termFactors t ≠ []) (t : Transcript)
    {witness : List (Poly F .coefficients)} (hws : ∀ p ∈ witness, Shaped k p) :
    (calculateGW H ali t witness w).Works (polyOps (StarkField.S F) (2 ^ (k + f)) + (masksOf arp).length * distributeOps w (2 ^ k) +
      keysOps (StarkField.S F) w k f ((arp.constraints.flatMap factors).map (factorKey k f)).toFinset +
      (arp.constraints.map (pointConstraintOps (StarkField.S F) (2 ^ (k + f)) (2 ^ f))).sum + (batchesOf arp.constraints).length * (2 * 2 ^ (k + f)) +
      arp.boundaryConstraints.length * pointBoundaryOps (StarkField.S F) w k f +
      (fftOps w (k + f) + 2 ^ (k + f) + distributeOps w (2 ^ (k + f)))) := by
  have hcos : ali.precomputations.coset.length = 2 ^ (k + f) := by rw [hali.coset, length_tab]
  suffices h : (calculateGW H ali t witness w).Spent (fun _ d => d = polyOps (StarkField.S F) (2 ^ (k + f)) + (masksOf arp).length * distributeOps w (2 ^ k) +
      keysOps (StarkField.S F) w k f ((arp.constraints.flatMap factors).map (factorKey k f)).toFinset +
      (arp.constraints.map (pointConstraintOps (StarkField.S F) (2 ^ (k + f)) (2 ^ f))).sum + (batchesOf arp.constraints).length * (2 * 2 ^ (k + f)) +
      arp.boundaryConstraints.length * pointBoundaryOps (StarkField.S F) w k f +
      (fftOps w (k + f) + 2 ^ (k + f) + distributeOps w (2 ^ (k + f)))) from h
  unfold calculateGW
  refine spent_lift_bind fun _ _ => ?_
  rw [hali.domain, hali.masks, hali.batches, hali.props]
  refine spent_works_bind (works_ofVecT _) fun g hg => ?_
  have hg' : g = mkPoly .values (k + f) (fun _ => 0) := by
    rw [res_ofVecT] at hg
    have := newForSizeValues_pow (F := F) hK
    unfold Poly.newForSizeValues Poly.fromValues at this
    rw [show (domOf F (k + f)).size = 2 ^ (k + f) from rfl, this] at hg
    cases hg
    rfl
  refine (spent_maskedPolynomialsT w (masksOf arp) hws).bind fun subst d1 _ hd1 => ?_
  have hsub : ∀ c ∈ arp.constraints, ∀ u ∈ factors c, SubstHas k subst u := by
    intro c hc u hu
    exact hd1.2 _ ((mem_boundaryMasks _ _ _).2 (Or.inl ((mem_masks _ _ _).2 (Or.inr ⟨c, hc, u, hu, rfl⟩))))
  have hg0 : GSized (k + f) ({ batch := g, cache := [], transcript := t } : GState F) := by
    refine ⟨?_, by intro key v h; simp [assocGet] at h⟩
    dsimp only
    rw [hg']
    exact ⟨by simp, rfl⟩
  refine (spent_forEach (GSized (k + f)) (fun s => cacheKeys s.cache) (keysOps (StarkField.S F) w k f)
    (fun p => (p.2.map (pointConstraintOps (StarkField.S F) (2 ^ (k + f)) (2 ^ f))).sum + 2 * 2 ^ (k + f)) (fun p => (p.2.flatMap factors).map (factorKey k f)) hg0 ?_).bind ?_
  · intro p hp s hs
    obtain ⟨-, hmem⟩ := batch_inv arp.constraints [] [] (by simp) p hp
    refine spent_gBatch H w hK h32 hcos hD (fun c hc t ht => ?_) hs
    have hc' : c ∈ arp.constraints := by simpa using (hmem c hc).1
    exact ⟨hcs c hc' t ht, fun u hu => hsub c hc' u (List.mem_flatMap.2 ⟨t, ht, hu⟩)⟩
  · rintro s d2 - ⟨h1, h2, h3⟩
    refine (spent_forEach (κ := ℕ) (GSized (k + f)) (fun _ => ∅) (fun _ => 0) (fun _ => pointBoundaryOps (StarkField.S F) w k f) (fun _ => []) h1
      fun b _ s hs => (works_gBoundary H w hK h32 hcos hD hws b hs).mono fun _ _ _ h => ⟨h.1, h.2 ▸ rfl, by simp⟩).bind ?_
    rintro s' d3 - ⟨h4, h5, -⟩
    refine spent_works_bind (works_icosetFftPolyT w s'.batch) fun p _ => spent_pure ?_
    have e1 : cacheKeys s.cache = ((arp.constraints.flatMap factors).map (factorKey k f)).toFinset := by
      rw [h3]
      ext x
      have hp := batchesOf_perm arp.constraints
      simp only [cacheKeys, List.map_nil, List.toFinset_nil, Finset.empty_union, List.mem_toFinset, List.mem_flatMap, List.mem_map]
      have hm : ∀ c, c ∈ arp.constraints ↔ ∃ b ∈ batchesOf arp.constraints, c ∈ b.2 := by
        intro c
        rw [← hp.mem_iff, List.mem_flatMap]
      constructor
      · rintro ⟨b, hb, u, ⟨c, hc, hu⟩, e⟩
        exact ⟨u, ⟨c, (hm c).2 ⟨b, hb, hc⟩, hu⟩, e⟩
      · rintro ⟨u, ⟨c, hc, hu⟩, e⟩
        obtain ⟨b, hb, hc⟩ := (hm c).1 hc
        exact ⟨b, hb, u, ⟨c, hc, hu⟩, e⟩
    have e2 : ((batchesOf arp.constraints).map (fun p => (p.2.map (pointConstraintOps (StarkField.S F) (2 ^ (k + f)) (2 ^ f))).sum + 2 * 2 ^ (k + f))).sum =
        (arp.constraints.map (pointConstraintOps (StarkField.S F) (2 ^ (k + f)) (2 ^ f))).sum + (batchesOf arp.constraints).length * (2 * 2 ^ (k + f)) := by
      rw [List.sum_map_add, ← ((batchesOf_perm arp.constraints).map (pointConstraintOps (StarkField.S F) (2 ^ (k + f)) (2 ^ f))).sum_eq]
      congr 1
      · rw [List.map_flatMap, List.flatMap, List.sum_flatten, List.map_map]
        rfl
      · simp
    have e3 : keysOps (StarkField.S F) w k f (cacheKeys ([] : TermCache F)) = 0 := by simp [keysOps, cacheKeys]
    rw [h4.1.1, h4.1.2, List.length_replicate, show (domOf F (k + f)).size = 2 ^ (k + f) from rfl, hd1.1]
    dsimp only at h2 h5
    rw [e1, e2, e3] at h2
    simp only [List.map_const', List.sum_replicate, smul_eq_mul] at h5
    omega

end

end Hodor

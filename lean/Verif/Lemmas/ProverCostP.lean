import Verif.Lemmas.ProverCost

/-!
# Hash calls of the counted prover: ALI, FRI, proof
-/

set_option linter.unusedSectionVars false

namespace Hodor

open Spec

namespace Tick

variable {α β σ : Type}

theorem pays_forEach_sum {xs : List α} {s : σ} {body : α → σ → Tick σ} {c : α → ℕ} (hf : ∀ x s, (body x s).Pays fun _ => c x) :
    (forEach xs s body).Pays fun _ => (xs.map c).sum := by
  induction xs generalizing s with
  | nil => exact pays_pure (by simp)
  | cons x xs ih =>
    exact Pays.bind (φ := fun _ => c x) (ψ := fun _ _ => (xs.map c).sum) (hf x s) (fun s' _ => ih) fun _ _ _ _ => by simp

theorem hashes_lift_bind {x : Res α} {f : α → Tick β} {b : β} (h : (lift x >>= f).res = .ok b) :
    ∃ a, x = .ok a ∧ (f a).res = .ok b ∧ (lift x >>= f).hashes = (f a).hashes := by
  obtain ⟨a, h1, h2, e⟩ := hashes_bind h
  exact ⟨a, h1, h2, by rw [e]; exact Nat.zero_add _⟩

end Tick

open Tick

variable {F : Type} [Field F] [DecidableEq F] [StarkField F] (H : List UInt8 → Digest)

/-! ## ALI and DEEP -/

theorem pays_getChallengeT (t : Transcript) : (getChallengeT H t : Tick (F × Transcript)).Pays fun _ => 1 := fun a ha =>
  ((costs_getChallengeT H t (P := fun _ => True)).exact a ha trivial).1

theorem res_gConstraintPT (inst : AliInstance F) (w : Worker) (subst : List (MaskProperties F × Poly F .coefficients)) (g : Poly F .values)
    (c : Constraint F) (s : GState F) : (gConstraintT H inst w subst g c s).res = gConstraint H inst w subst g c s := by
  unfold gConstraintT gConstraint
  simp only [res_bind, res_lift, res_getChallengeT, res_pure, Res.pure_def]

theorem pays_gConstraintPT (inst : AliInstance F) (w : Worker) (subst : List (MaskProperties F × Poly F .coefficients)) (g : Poly F .values)
    (c : Constraint F) (s : GState F) : (gConstraintT H inst w subst g c s).Pays fun _ => 2 := by
  unfold gConstraintT
  refine pays_lift_bind fun _ _ => pays_const_bind (c := 1) (d := 1) (pays_getChallengeT H _) fun _ _ =>
    pays_const_bind (c := 1) (d := 0) (pays_getChallengeT H _) fun _ _ => ?_
  exact pays_lift_bind fun _ _ => pays_lift_bind fun _ _ => pays_lift_bind fun _ _ => pays_lift_bind fun _ _ => pays_pure rfl

theorem res_gBatchT (inst : AliInstance F) (w : Worker) (subst : List (MaskProperties F × Poly F .coefficients))
    (b : ConstraintDensity × List (Constraint F)) (s : GState F) : (gBatchT H inst w subst b s).res = gBatch H inst w subst b s := by
  unfold gBatchT gBatch
  simp only [res_bind, res_lift, res_pure, Res.pure_def, res_forEach fun c _ s' => res_gConstraintPT H inst w subst s.batch c s']

theorem pays_gBatchT (inst : AliInstance F) (w : Worker) (subst : List (MaskProperties F × Poly F .coefficients))
    (b : ConstraintDensity × List (Constraint F)) (s : GState F) : (gBatchT H inst w subst b s).Pays fun _ => b.2.length * 2 := by
  unfold gBatchT
  refine pays_const_bind (c := b.2.length * 2) (d := 0) (pays_forEach_const fun c s' => pays_gConstraintPT H inst w subst s.batch c s') fun _ _ => ?_
  exact pays_lift_bind fun _ _ => pays_lift_bind fun _ _ => pays_lift_bind fun _ _ => pays_pure rfl

theorem res_gBoundaryPT (inst : AliInstance F) (w : Worker) (witness : List (Poly F .coefficients))
    (b : BoundaryConstraint F) (s : GState F) : (gBoundaryT H inst w witness b s).res = gBoundary H inst w witness b s := by
  unfold gBoundaryT gBoundary
  simp only [res_bind, res_lift, res_getChallengeT, res_pure, Res.pure_def]

theorem pays_gBoundaryPT (inst : AliInstance F) (w : Worker) (witness : List (Poly F .coefficients))
    (b : BoundaryConstraint F) (s : GState F) : (gBoundaryT H inst w witness b s).Pays fun _ => 2 := by
  unfold gBoundaryT
  refine pays_const_bind (c := 1) (d := 1) (pays_getChallengeT H _) fun _ _ =>
    pays_const_bind (c := 1) (d := 0) (pays_getChallengeT H _) fun _ _ => ?_
  refine pays_lift_bind fun _ _ => pays_lift_bind fun _ _ => pays_lift_bind fun _ _ => pays_lift_bind fun _ _ => ?_
  refine pays_lift_bind fun _ _ => pays_lift_bind fun _ _ => pays_lift_bind fun _ _ => pays_lift_bind fun _ _ => ?_
  exact pays_lift_bind fun _ _ => pays_lift_bind fun _ _ => pays_lift_bind fun _ _ => pays_lift_bind fun _ _ => pays_pure rfl

theorem res_calculateGT (inst : AliInstance F) (t : Transcript) (witness : List (Poly F .coefficients)) (w : Worker) :
    (calculateGT H inst t witness w).res = inst.calculateG H t witness w := by
  unfold calculateGT AliInstance.calculateG
  simp only [res_bind, res_lift, res_pure, Res.pure_def, res_forEach fun b _ s' => res_gBatchT H inst w _ b s',
    res_forEach fun b _ s' => res_gBoundaryPT H inst w _ b s']

theorem pays_calculateGT (inst : AliInstance F) (t : Transcript) (witness : List (Poly F .coefficients)) (w : Worker) :
    (calculateGT H inst t witness w).Pays fun _ =>
      (inst.constraintsBatchedByDensity.map (fun b => b.2.length * 2)).sum + inst.properties.boundaryConstraints.length * 2 := by
  unfold calculateGT
  refine pays_lift_bind fun _ _ => pays_lift_bind fun _ _ => pays_lift_bind fun _ _ => ?_
  refine pays_const_bind (pays_forEach_sum fun b s' => pays_gBatchT H inst w _ b s') fun _ _ => ?_
  refine pays_const_bind (d := 0) (pays_forEach_const fun b s' => pays_gBoundaryPT H inst w _ b s') fun _ _ => ?_
  exact pays_lift_bind fun _ _ => pays_pure rfl

theorem res_deepMaskT (fPolys : List (Poly F .coefficients)) (fLdes : List (Poly F .values)) (size : ℕ) (z : F)
    (w : Worker) (m : MaskProperties F) (s : DeepState F) : (deepMaskT H fPolys fLdes size z w m s).res = deepMask H fPolys fLdes size z w m s := by
  unfold deepMaskT deepMask
  simp only [res_bind, res_lift, res_getChallengeT, res_pure, Res.pure_def]

theorem pays_deepMaskT (fPolys : List (Poly F .coefficients)) (fLdes : List (Poly F .values)) (size : ℕ) (z : F)
    (w : Worker) (m : MaskProperties F) (s : DeepState F) : (deepMaskT H fPolys fLdes size z w m s).Pays fun _ => 1 := by
  unfold deepMaskT
  refine pays_lift_bind fun _ _ => pays_lift_bind fun _ _ => pays_lift_bind fun _ _ => pays_lift_bind fun _ _ => pays_lift_bind fun _ _ => ?_
  refine pays_const_bind (c := 1) (d := 0) (pays_getChallengeT H _) fun _ _ => ?_
  exact pays_lift_bind fun _ _ => pays_lift_bind fun _ _ => pays_pure rfl

theorem res_calculateDeepT (inst : AliInstance F) (fPolys : List (Poly F .coefficients)) (fLdes : List (Poly F .values))
    (gPoly : Poly F .coefficients) (gLde : Poly F .values) (t : Transcript) (w : Worker) :
    (calculateDeepT H inst fPolys fLdes gPoly gLde t w).res = inst.calculateDeep H fPolys fLdes gPoly gLde t w := by
  unfold calculateDeepT AliInstance.calculateDeep
  simp only [res_bind, res_lift, res_getChallengeT, res_pure, Res.pure_def, res_forEach fun m _ s' => res_deepMaskT H fPolys fLdes _ _ w m s']

theorem pays_calculateDeepT (inst : AliInstance F) (fPolys : List (Poly F .coefficients)) (fLdes : List (Poly F .values))
    (gPoly : Poly F .coefficients) (gLde : Poly F .values) (t : Transcript) (w : Worker) :
    (calculateDeepT H inst fPolys fLdes gPoly gLde t w).Pays fun _ => 1 + inst.allMasks.length := by
  unfold calculateDeepT
  refine pays_const_bind (pays_getChallengeT H _) fun _ _ => pays_lift_bind fun _ _ => pays_lift_bind fun _ _ => ?_
  rw [show inst.allMasks.length = inst.allMasks.length * 1 + 0 by omega]
  refine pays_const_bind (d := 0) (pays_forEach_const (c := 1) fun m s' => pays_deepMaskT H fPolys fLdes _ _ w m s') fun _ _ => ?_
  exact pays_lift_bind fun _ _ => pays_lift_bind fun _ _ => pays_pure rfl

/-! ## FRI -/

/-- The hash calls for the trees of a list. -/
def treeSum (ts : List IopTree) : ℕ := (ts.map (fun t => treeHashes (Nat.log 2 t.size))).sum

theorem res_friStepValuesT (w : Worker) (om : List F) (twoInv : F) (i : ℕ) (s : FriState F) :
    (friStepValuesT H w om twoInv i s).res = friStepValues H w om twoInv i s := by
  unfold friStepValuesT friStepValues
  simp only [res_bind, res_lift, res_createT, res_pure, Res.pure_def]

theorem friStepValuesT_step {w : Worker} {om : List F} {twoInv : F} {i : ℕ} {s s' : FriState F}
    (h : (friStepValuesT H w om twoInv i s).res = .ok s') (hd : ∀ t ∈ s.commitments, ∃ L, TreeDepth t L) :
    (∀ t ∈ s'.commitments, ∃ L, TreeDepth t L) ∧ treeSum s.commitments + (friStepValuesT H w om twoInv i s).hashes = treeSum s'.commitments := by
  unfold friStepValuesT at h ⊢
  obtain ⟨_, -, h, e1⟩ := hashes_lift_bind h
  obtain ⟨next, -, h, e2⟩ := hashes_lift_bind h
  obtain ⟨iop, hiop, h, e3⟩ := hashes_bind h
  obtain ⟨_, -, h, e4⟩ := hashes_lift_bind h
  obtain ⟨_, -, h, e5⟩ := hashes_lift_bind h
  obtain ⟨_, -, h, e6⟩ := hashes_lift_bind h
  rw [e1, e2, e3, e4, e5, e6, pays_createT H w next iop hiop]
  cases h
  rw [res_createT] at hiop
  obtain ⟨L, -, d⟩ := create_depth H hiop
  refine ⟨?_, ?_⟩
  · intro t ht
    rcases List.mem_append.1 ht with ht | ht
    · exact hd t ht
    · rw [List.mem_singleton] at ht
      subst ht
      exact ⟨L, d⟩
  · simp only [treeSum, List.map_append, List.sum_append, List.map_cons, List.map_nil, List.sum_cons, List.sum_nil]
    rfl

theorem res_friProofByValuesT (w : Worker) (v : Poly F .values) (ldeFactor out : ℕ) :
    (friProofByValuesT H w v ldeFactor out).res = friProofByValues H w v ldeFactor out := by
  unfold friProofByValuesT friProofByValues
  simp only [res_bind, res_lift, res_createT, res_pure, Res.pure_def, res_forN fun i s => res_friStepValuesT H w _ _ i s]

theorem friProofByValuesT_inv {w : Worker} {v : Poly F .values} {ldeFactor out : ℕ} {p : FriPrototype F}
    (h : (friProofByValuesT H w v ldeFactor out).res = .ok p) :
    (∀ t ∈ p.l0Commitment :: p.intermediateCommitments, ∃ L, TreeDepth t L) ∧ p.intermediateCommitments.length = p.intermediateValues.length ∧
      (friProofByValuesT H w v ldeFactor out).hashes = treeSum (p.l0Commitment :: p.intermediateCommitments) := by
  unfold friProofByValuesT at h ⊢
  obtain ⟨l0, hl0, h, e1⟩ := hashes_bind h
  obtain ⟨_, -, h, e2⟩ := hashes_lift_bind h
  obtain ⟨_, -, h, e3⟩ := hashes_lift_bind h
  obtain ⟨_, -, h, e4⟩ := hashes_lift_bind h
  obtain ⟨n, -, h, e5⟩ := hashes_lift_bind h
  obtain ⟨ch, -, h, e6⟩ := hashes_lift_bind h
  obtain ⟨s, hs, h, e7⟩ := hashes_bind h
  obtain ⟨_, -, h, e8⟩ := hashes_lift_bind h
  obtain ⟨_, -, h, e9⟩ := hashes_lift_bind h
  obtain ⟨_, ha, h, e10⟩ := hashes_lift_bind h
  obtain ⟨_, hb, h, e11⟩ := hashes_lift_bind h
  obtain ⟨_, -, h, e12⟩ := hashes_lift_bind h
  obtain ⟨_, -, h, e13⟩ := hashes_lift_bind h
  have ha := of_decide_eq_true (Res.assert_eq_ok.1 ha)
  have hb := of_decide_eq_true (Res.assert_eq_ok.1 hb)
  rw [e1, e2, e3, e4, e5, e6, e7, e8, e9, e10, e11, e12, e13, pays_createT H w _ l0 hl0]
  cases h
  have loop := pays_forN (P := fun _ (s : FriState F) => ∀ t ∈ s.commitments, ∃ L, TreeDepth t L) (φ := fun _ s => treeSum s.commitments)
    (by simp) (fun i s hP _ _ s' hs' => friStepValuesT_step H hs' hP) s hs
  rw [res_createT] at hl0
  obtain ⟨L, -, d⟩ := create_depth H hl0
  refine ⟨?_, ha.trans hb.symm, ?_⟩
  · intro t ht
    rcases List.mem_cons.1 ht with rfl | ht
    · exact ⟨L, d⟩
    · exact loop.1 t ht
  · have h2 := loop.2
    simp only [treeSum, List.map_nil, List.sum_nil, Nat.zero_add] at h2
    simp only [treeSum, List.map_cons, List.sum_cons]
    rw [h2]
    rfl

theorem res_produceStepT (x : IopTree × Poly F .values) (s : List (IopQuery F) × List Digest × ℕ × ℕ) :
    (produceStepT H x s).res = produceStep H x s := by
  unfold produceStepT produceStep
  simp only [res_bind, res_lift, res_pure, res_ite, Res.pure_def]
  congr 1
  funext coset
  split
  · rfl
  · rw [res_forEach (body' := fun idx qs => x.1.query H idx x.2.coeffs >>= fun q => .ok (qs ++ [q]))]
    intro i _ s
    simp only [res_bind, res_queryT, res_pure]

theorem res_produceProofT (p : FriPrototype F) (v : Poly F .values) (i : ℕ) : (produceProofT H p v i).res = p.produceProof H v i := by
  unfold produceProofT FriPrototype.produceProof
  simp only [res_bind, res_pure, Res.pure_def, res_forEach fun x _ s => res_produceStepT H x s]

omit [Field F] [DecidableEq F] [StarkField F] in
theorem friProverHashes_append (qs : List (IopQuery F)) (a b : IopQuery F) (h : qs.length % 2 = 0) :
    friProverHashes (qs ++ [a, b]) = friProverHashes qs + (treeHashes a.path.length + 2) := by
  match qs, h with
  | [], _ => simp [friProverHashes]
  | [_], h => simp at h
  | q :: q' :: rest, h =>
    have ih := friProverHashes_append rest a b (by simp only [List.length_cons] at h; omega)
    simp only [List.cons_append, friProverHashes]
    rw [ih]
    ring
termination_by qs.length

theorem produceStepT_step {x : IopTree × Poly F .values} {L : ℕ} (d : TreeDepth x.1 L) {s s' : List (IopQuery F) × List Digest × ℕ × ℕ}
    (h : (produceStepT H x s).res = .ok s') (hs : s.1.length % 2 = 0) :
    s'.1.length % 2 = 0 ∧ friProverHashes s'.1 = friProverHashes s.1 + (treeHashes (Nat.log 2 x.1.size) + 2) ∧ (produceStepT H x s).hashes = 2 := by
  obtain ⟨qs, roots, idx, size⟩ := s
  unfold produceStepT at h ⊢
  obtain ⟨coset, -, h, e1⟩ := hashes_lift_bind h
  rw [e1]
  by_cases hc : coset.length ≠ 2
  · rw [if_pos hc] at h
    cases h
  · rw [if_neg hc] at h ⊢
    obtain ⟨qs', hq, h, e2⟩ := hashes_bind h
    obtain ⟨_, -, h, e3⟩ := hashes_lift_bind h
    obtain ⟨_, -, h, e4⟩ := hashes_lift_bind h
    rw [e2, e3, e4]
    cases h
    have hp := pays_forEach_const (xs := coset) (s := qs) (c := 1) (body := fun idx qs => queryT H x.1 idx x.2.coeffs >>= fun q => pure (qs ++ [q]))
      (fun i s => pays_const_bind (c := 1) (d := 0) (pays_queryT H x.1 i x.2.coeffs) fun _ _ => pays_pure rfl) qs' hq
    dsimp only at hp hs ⊢
    rw [hp]
    obtain ⟨i, j, rfl⟩ : ∃ i j, coset = [i, j] := by
      match coset, not_not.1 hc with
      | [i, j], _ => exact ⟨i, j, rfl⟩
    obtain ⟨s1, h1, h2, -⟩ := hashes_bind hq
    obtain ⟨s2, h2, h3, -⟩ := hashes_bind h2
    cases h3
    obtain ⟨a, ha, h1, -⟩ := hashes_bind h1
    cases h1
    obtain ⟨b, hb, h2, -⟩ := hashes_bind h2
    cases h2
    rw [res_queryT] at ha hb
    have la := query_depth H d ha
    refine ⟨by simp; omega, ?_, rfl⟩
    rw [List.append_assoc]
    show friProverHashes (qs ++ [a, b]) = _
    rw [friProverHashes_append qs a b hs, la, d.size, Nat.log_pow (by norm_num)]

theorem produceProofT_inv {p : FriPrototype F} {v : Poly F .values} {i : ℕ} {proof : FriProof F}
    (hd : ∀ t ∈ p.l0Commitment :: p.intermediateCommitments, ∃ L, TreeDepth t L) (hl : p.intermediateCommitments.length = p.intermediateValues.length)
    (h : (produceProofT H p v i).res = .ok proof) :
    treeSum (p.l0Commitment :: p.intermediateCommitments) + (produceProofT H p v i).hashes = friProverHashes proof.queries := by
  unfold produceProofT at h ⊢
  obtain ⟨s, hs, h, e⟩ := hashes_bind h
  rw [e]
  cases h
  have key : ∀ (xs : List (IopTree × Poly F .values)) (s s' : List (IopQuery F) × List Digest × ℕ × ℕ), (∀ x ∈ xs, ∃ L, TreeDepth x.1 L) →
      s.1.length % 2 = 0 → (Tick.forEach xs s (produceStepT H)).res = .ok s' →
      friProverHashes s.1 + treeSum (xs.map Prod.fst) + (Tick.forEach xs s (produceStepT H)).hashes = friProverHashes s'.1 := by
    intro xs
    induction xs with
    | nil => intro s s' _ _ h; cases h; rfl
    | cons x xs ih =>
      intro s s' hd hs h
      obtain ⟨s1, h1, h2, e⟩ := hashes_bind h
      obtain ⟨L, d⟩ := hd x (by simp)
      obtain ⟨a1, a2, a3⟩ := produceStepT_step H d h1 hs
      have := ih s1 s' (fun y hy => hd y (by simp [hy])) a1 h2
      rw [← this, a2]
      show _ + (_ >>= _ : Tick _).hashes = _
      rw [e, a3]
      simp only [treeSum, List.map_cons, List.sum_cons]
      ring
  have hz : ((p.l0Commitment :: p.intermediateCommitments).zip (v :: p.intermediateValues)).map Prod.fst = p.l0Commitment :: p.intermediateCommitments :=
    List.map_fst_zip (by simp [hl])
  have := key _ _ s (by
    rintro ⟨t, q⟩ hx
    exact hd t (List.of_mem_zip hx).1) rfl hs
  rw [hz] at this
  have h0 : friProverHashes ([] : List (IopQuery F)) = 0 := rfl
  rw [h0, Nat.zero_add] at this
  exact this

/-! ## Prover -/

theorem res_proveT (p : Prover F) (witness : List (List F)) : (p.proveT H witness).res = p.prove H witness := by
  unfold Prover.proveT Prover.prove
  simp only [res_bind, res_lift, res_pure, Res.pure_def, res_createT, res_calculateGT, res_calculateDeepT, res_friProofByValuesT,
    res_getChallengeBytesT, res_produceProofT, res_queryT, Res.ok_bind, res_map fun x _ => res_createT H _ (Poly.coeffs x), res_map fun (x : IopTree × Poly F .values) _ => res_queryT H x.1 _ x.2.coeffs]

end Hodor

import Verif.Props.Densities

/-!
# C27, C45: at how many positions proofs with several final coefficients are accepted
-/

namespace Hodor

open Polynomial Finset Spec

variable {F : Type} [Field F] [DecidableEq F] [StarkField F] (H : List UInt8 → Digest)

omit [DecidableEq F] [StarkField F] in
/-- A list of coefficients which is its own fold is constant. -/
theorem fold_self {β : F} {l : List F} (h : ∀ i, l.getD i 0 = (foldCoeffs β l).getD i 0) : ∀ i, 1 ≤ i → l.getD i 0 = 0 := by
  have key : ∀ m i, 1 ≤ i → l.length ≤ i + m → l.getD i 0 = 0 := by
    intro m
    induction m with
    | zero =>
      intro i _ hl
      rw [List.getD_eq_getElem?_getD, List.getElem?_eq_none (by omega)]; rfl
    | succ m ih =>
      intro i hi hl
      rw [h, getD_foldCoeffs, ih (2 * i) (by omega) (by omega), ih (2 * i + 1) (by omega) (by omega), mul_zero, add_zero]
  exact fun i hi => key l.length i hi (by omega)

/-- **C27 (how many positions pass).** Of the `2^(e+o-1)` classes of positions which the last check of FRI distinguishes, a proof with `2^o` final coefficients passes at all if the final coefficients are a constant,
and at fewer than `2^o` of them otherwise. -/
theorem C27_last_check_count (proof : FriProof F) (e o : ℕ) (hS : e + o - 1 ≤ StarkField.S F) (hlen : proof.finalCoefficients.length = 2 ^ o)
    (root : Digest) (hroot : proof.roots.getLast? = some root) (β : F) (hβ : encodeRootIntoChallenge root = .ok β) :
    ((∀ i, LastFoldOk proof (2 ^ (e + o - 1)) i) ∧ ∀ i, 1 ≤ i → proof.finalCoefficients.getD i 0 = 0) ∨
      {i | i < 2 ^ (e + o - 1) ∧ LastFoldOk proof (2 ^ (e + o - 1)) i}.encard < (2 ^ o : ℕ) := by
  have hd : Domain.newForSize F (2 ^ (e + o - 1)) = .ok (domOf F (e + o - 1)) := newForSize_pow hS
  have hiff : ∀ i, LastFoldOk proof (2 ^ (e + o - 1)) i ↔ evalPoly proof.finalCoefficients (genOf F (e + o - 1) ^ (i % 2 ^ (e + o - 1))) =
      evalPoly (foldCoeffs β proof.finalCoefficients) (genOf F (e + o - 1) ^ (i % 2 ^ (e + o - 1))) := by
    intro i
    constructor
    · rintro ⟨root', β', d, h1, h2, h3, h4⟩
      rw [hroot] at h1
      cases h1
      rw [hβ] at h2
      cases h2
      rw [hd] at h3
      cases h3
      exact h4
    · intro h
      exact ⟨_, _, _, hroot, hβ, hd, h⟩
  set l := proof.finalCoefficients with hl
  set D := polyOfList l - polyOfList (foldCoeffs β l) with hDd
  have hev : ∀ x, evalPoly l x = evalPoly (foldCoeffs β l) x ↔ D.eval x = 0 := by
    intro x
    rw [hDd, eval_sub, sub_eq_zero, evalPoly_polyOf, evalPoly_polyOf]
    rfl
  by_cases h0 : D = 0
  · left
    refine ⟨fun i => (hiff i).2 ((hev _).2 (by rw [h0, eval_zero])), fold_self (β := β) (fun i => ?_)⟩
    rw [← polyOfList_coeff, ← polyOfList_coeff, sub_eq_zero.1 h0]
  · right
    have hinj : Set.InjOn (fun i => genOf F (e + o - 1) ^ i) {i | i < 2 ^ (e + o - 1) ∧ LastFoldOk proof (2 ^ (e + o - 1)) i} := by
      intro i hi j hj he
      exact (genOf_prim hS).pow_inj hi.1 hj.1 he
    rw [← hinj.encard_image]
    have hsub : (fun i => genOf F (e + o - 1) ^ i) '' {i | i < 2 ^ (e + o - 1) ∧ LastFoldOk proof (2 ^ (e + o - 1)) i} ⊆
        ((D.roots.toFinset : Finset F) : Set F) := by
      rintro x ⟨i, ⟨hi, hok⟩, rfl⟩
      rw [mem_coe, Multiset.mem_toFinset, mem_roots h0, IsRoot, ← hev]
      have := (hiff i).1 hok
      rwa [Nat.mod_eq_of_lt hi] at this
    refine (Set.encard_le_encard hsub).trans_lt ?_
    rw [Set.encard_coe_eq_coe_finsetCard]
    have h1 : D.roots.toFinset.card ≤ D.natDegree := (Multiset.toFinset_card_le _).trans (card_roots' _)
    have h2 : D.natDegree < 2 ^ o := by
      rw [natDegree_lt_iff_degree_lt h0, degree_lt_iff_coeff_zero]
      intro m hm
      rw [hDd, coeff_sub, polyOfList_coeff, polyOfList_coeff, getD_foldCoeffs]
      have z : ∀ j, 2 ^ o ≤ j → l.getD j 0 = 0 := by
        intro j hj
        rw [List.getD_eq_getElem?_getD, List.getElem?_eq_none (by omega)]; rfl
      rw [z m hm, z _ (by omega), z _ (by omega)]
      ring
    exact_mod_cast h1.trans_lt h2

/-- **C45 (several final coefficients).** For every suitable instance, satisfying witness and number `2^o` of final coefficients, where the LDE is right (C09): whenever `prove` returns a proof, `verify` accepts it exactly if
both FRI proofs pass the last check at the position drawn for them. Each FRI proof passes that check everywhere and has constant final coefficients, or it passes at fewer than `2^o` of the `2^(e+o-1)` classes of positions. -/
theorem C45_several_coefficients (w : Worker) {inst : InstanceProperties F} {n k f e o : ℕ} (h : Suitable inst n k f) (hp : RunParams F w k f e o) (witness : List (List F))
    (hw : IsTable witness n (2 ^ k)) (hsat : Satisfies inst (cellR witness) (2 ^ k)) (prover : Prover F)
    (hprover : Prover.new w inst (2 ^ e) (2 ^ o) = .ok prover)
    (v : Verifier F) (hver : Verifier.new inst (2 ^ e) = .ok v) (proof : InstanceProof F)
    (hproof : prover.prove H witness = .ok proof) :
    ∃ ch fDom gDom b, v.deriveChallenges H proof = .ok (ch, fDom, gDom) ∧ v.verify H proof = .ok b ∧
      (b = true ↔ LastFoldOk proof.friProofH1 (2 ^ (e + o - 1)) ch.idx1 ∧ LastFoldOk proof.friProofH2 (2 ^ (e + o - 1)) ch.idx2) ∧
      ∀ fri, fri = proof.friProofH1 ∨ fri = proof.friProofH2 →
        ((∀ i, LastFoldOk fri (2 ^ (e + o - 1)) i) ∧ ∀ i, 1 ≤ i → fri.finalCoefficients.getD i 0 = 0) ∨
        {i | i < 2 ^ (e + o - 1) ∧ LastFoldOk fri (2 ^ (e + o - 1)) i}.encard < (2 ^ o : ℕ) := by
  have hS := hp.size
  have h32 := hp.size32
  have hfac := hp.factor
  have hout := hp.out
  have hch : ChallengeOk F := hp.challenge
  obtain ⟨P, e2, hP, h0, hv⟩ := witnessPolys_ok w (inst := arpOf inst k) h.pos hw (by omega) (by omega) h.registers h.rows
  obtain ⟨v', e3, hver'⟩ := h.newVerifier (by omega) (2 ^ e)
  rw [hver] at e3
  cases e3
  obtain ⟨prover', ep, G, ps, hG, eps, hps, hGv, -, hbad, hgood⟩ := prove_honest H w h hp e2 hP hv hsat
  rw [hprover] at ep
  cases ep
  have hz : runZ H inst n k f e P G ^ 2 ^ (k + f + e) ≠ 1 := by
    intro hc
    rw [hbad hc] at hproof
    cases hproof
  obtain ⟨Q1, Q2, idx1, idx2, hQ1, hQ2, v1, v2, i1, i2, i1l, i1o, i2l, i2o, epr⟩ := hgood hz
  rw [epr] at hproof
  cases hproof
  have hrun := verify_honest_run H h hp hver' eps hps hGv hz v1 v2 i1 i2 i1l i2l
  have l1 := lastFoldOk_honest H hch (o := o) (show k + e ≤ StarkField.S F by omega) (by omega) (show Q1.degree < (2 ^ (k + e - e) : ℕ) by rw [Nat.add_sub_cancel]; exact hQ1) (idx := idx1)
  have l2 := lastFoldOk_honest H hch (o := o) hS (by omega) (show Q2.degree < (2 ^ (k + f + e - e) : ℕ) by rw [Nat.add_sub_cancel]; exact hQ2) (idx := idx2)
  rw [verifyProof_honest H hch (show k + e ≤ StarkField.S F by omega) (by omega) (by omega) i1l, if_pos i1o, Res.ok_bind,
    verifyProof_honest H hch hS (by omega) (by omega) i2l, if_pos i2o] at hrun
  have hb : ∃ b, v.verify H (runProof H inst n k f e o P G ps Q1 Q2 idx1 idx2) = .ok b ∧
      (b = true ↔ LastFoldOk (honestProof H (k + e) e o Q1 idx1) (2 ^ (e + o - 1)) idx1 ∧
        LastFoldOk (honestProof H (k + f + e) e o Q2 idx2) (2 ^ (e + o - 1)) idx2) := by
    rw [hrun, l1, l2]
    split
    · rename_i hA
      rw [decide_eq_false_iff_not] at hA
      exact ⟨false, rfl, ⟨fun h => (by cases h), fun h => absurd h.1 hA⟩⟩
    · rename_i hA
      rw [Bool.not_eq_false, decide_eq_true_eq] at hA
      exact ⟨_, rfl, by rw [decide_eq_true_eq]; exact ⟨fun h => ⟨hA, h⟩, fun h => h.2⟩⟩
  obtain ⟨b, hb1, hb2⟩ := hb
  refine ⟨_, _, _, b, derive_run H hp hver' eps i1 i2, hb1, hb2, ?_⟩
  rintro fri (rfl | rfl)
  · exact C27_last_check_count _ e o (by omega) (by simp [runProof, honestProof]) _ (getLast?_tab _ _) _ (interpretHash_ok hch _)
  · exact C27_last_check_count _ e o (by omega) (by simp [runProof, honestProof]) _ (getLast?_tab _ _) _ (interpretHash_ok hch _)

/-- Two final coefficients, factor 4: the hypotheses of `C45_several_coefficients` are met. -/
example : Suitable (fibInst Fr 2 1 1) 2 2 0 ∧ RunParams Fr ⟨1, by norm_num⟩ 2 0 2 1 ∧ IsTable [[(1 : Fr), 1, 2, 3], [1, 2, 3, 5]] 2 (2 ^ 2) ∧
    isSatisfied (fibInst Fr 2 1 1) [[1, 1, 2, 3], [1, 2, 3, 5]] = .ok () :=
  ⟨fibInst_suitable (F := Fr) 2 (by norm_num) 1 1,
    ⟨by decide, by norm_num, by norm_num, by norm_num, by norm_num, .inl rfl, .inl rfl, by decide +kernel, by decide +kernel⟩,
    ⟨rfl, by decide⟩, by decide +kernel⟩

end Hodor

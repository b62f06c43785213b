import Verif.Lemmas.SoundV

/-! # The verifier on the proof of an honest run, for any witness, densities and output size -/

namespace Hodor

open Polynomial Finset Spec

variable {F : Type} [Field F] [DecidableEq F] [StarkField F] (H : List UInt8 → Digest)

/-- FRI on its honest proof with a wrong expected value answers `false`. -/
theorem verifyProof_wrong {n f o : ℕ} (hn : n ≤ StarkField.S F) (hfo : f + o < n)
    {p : F[X]} {idx : ℕ} (hidx : idx < 2 ^ n) (hodd : idx % 2 = 1) {v : F} (hv : v ≠ friVals n p idx) :
    (honestProof H n f o p idx).verify H idx v = .ok false := by
  unfold FriProof.verify FriProof.verifyQueries honestProof
  simp only
  rw [friStart_eq H hn (by omega) (by omega) p hidx, if_pos hodd]
  simp only [Res.ok_bind, ne_eq, OfNat.ofNat_ne_zero, not_false_eq_true, decide_true, Res.assert_true, length_tab,
      Nat.mul_mod_right, not_true_eq_false, if_false]
  rw [chunksExact_tab, zip_tab, min_self, tab_succ', proofRounds]
  obtain ⟨m, hm⟩ : ∃ m, n = m + 1 := ⟨n - 1, by omega⟩
  have hlt : idx < 2 ^ (m + 1) := hm ▸ hidx
  have hp1 : 2 ^ (m + 1) = 2 * 2 ^ m := by ring
  have hvi : (vstate H n p idx 0).domainIdx = idx := by
    simp only [vstate, friIdx, Nat.sub_zero]; exact Nat.mod_eq_of_lt hidx
  have hs : (vstate H n p idx 0).domainSize = 2 ^ (m + 1) := by simp [vstate, hm]
  rw [hvi, hs, coset_eq hlt]
  have q0 : friQueryAt H n p idx (2 * 0) = friQuery H n p 0 (idx % 2 ^ m) := by
    unfold friQueryAt friIdx
    simp [hm]
  have q1 : friQueryAt H n p idx (2 * 0 + 1) = friQuery H n p 0 (idx % 2 ^ m + 2 ^ m) := by
    unfold friQueryAt friIdx
    simp [hm]
  rw [q0, q1]
  have hqi : ∀ j, (friQuery H n p 0 j).index = j := fun _ => rfl
  have hqv : ∀ j, (friQuery H n p 0 j).value = friVals n p j := fun _ => rfl
  have any1 : ([friQuery H n p 0 (idx % 2 ^ m), friQuery H n p 0 (idx % 2 ^ m + 2 ^ m)].any
      (fun q => !(List.contains [idx % 2 ^ m, idx % 2 ^ m + 2 ^ m] q.index))) = false := by
    simp [hqi]
  have any2 : ((0 : ℕ) = 0 ∧ ([friQuery H n p 0 (idx % 2 ^ m), friQuery H n p 0 (idx % 2 ^ m + 2 ^ m)].any
      (fun q => decide (q.index = idx ∧ q.value ≠ v))) = true) := by
    refine ⟨rfl, ?_⟩
    simp only [List.any_cons, List.any_nil, Bool.or_false, Bool.or_eq_true, decide_eq_true_eq, hqi, hqv]
    rcases index_in_coset hlt with h | h
    · left
      exact ⟨h.symm, by rw [← h]; exact hv.symm⟩
    · right
      exact ⟨h.symm, by rw [← h]; exact hv.symm⟩
  rw [Res.ok_bind, if_neg (by simp), if_neg (by rw [any1]; simp), if_pos any2]
  rfl

theorem drawBatches_ok (hch : ChallengeOk F) (bats : List (ConstraintDensity × List (Constraint F))) (acc : List (F × F))
    (t : Transcript) :
    forEach bats (acc, t) (fun b s => forEach b.2 s (fun _ s => drawPair H s))
      = .ok (acc ++ pairsAt F H (bats.flatMap (fun b => b.2)).length t, afterN H (bats.flatMap (fun b => b.2)).length t) := by
  induction bats generalizing acc t with
  | nil => simp [forEach, pairsAt, afterN]
  | cons b bats ih =>
    rw [forEach, drawPairs_ok H hch, Res.ok_bind, ih, List.flatMap_cons, List.length_append, pairsAt_add, afterN_add, List.append_assoc]

section
variable {inst : InstanceProperties F} {n k f e o : ℕ} {P : ℕ → F[X]} {G : F[X]} {ps : List (ℕ × F)} {Q1 Q2 : F[X]}

theorem Spec.Runnable.verifiable (h : Runnable inst n k f) : Verifiable inst n k where
  rows := by
    rw [h.rows]
    exact ⟨le_refl _, fun j hj => (Nat.pow_le_pow_iff_right (by norm_num)).1 hj⟩
  registers := h.registers
  reads := by
    intro c hc u hu
    obtain ⟨t, ht, hu'⟩ := List.mem_flatMap.1 hu
    exact (h.terms c hc t ht).2 u hu'
  density := by rw [h.rows]; exact h.density
  boundary := h.boundary
  degree := by
    intro _
    obtain ⟨c, hc, e⟩ := h.degrees.2
    exact ⟨c, hc, by rw [e]; exact Nat.one_le_two_pow⟩

theorem Spec.Runnable.newVerifier (h : Runnable inst n k f) (hK : k + f ≤ StarkField.S F) (ldeFactor : ℕ) :
    ∃ v, Verifier.new inst ldeFactor = .ok v ∧ VerOk v (arpOf inst k) k (k + f) ldeFactor := by
  have e1 : nextPow2 inst.numRows = 2 ^ k := h.verifiable.nextPow
  have e2 : mapRes (maskConstraint (domOf F k)) inst.constraints = .ok (arpOf inst k).constraints := by
    rw [mapRes_ok _ (maskC (genOf F k)) _ (fun c hc => maskConstraint_ok _ (fun u hu => (h.verifiable.reads c hc u hu).2))]
    rfl
  have e3 : Domain.newForSize F (2 ^ k) = .ok (domOf F k) := newForSize_pow (by omega)
  have e4 : nextPow2 (2 ^ f) * 2 ^ k = 2 ^ (k + f) := by
    rw [nextPow2_pow, ← pow_add, Nat.add_comm]
  have e5 : Domain.newForSize F (2 ^ (k + f)) = .ok (domOf F (k + f)) := newForSize_pow hK
  unfold Verifier.new
  simp only [e1, e3, Res.ok_bind, e2, h.maxDeg, e4, e5]
  have e6 : forEach (batchesOf (arpOf inst k).constraints) () (fun b _ => forEach b.2 () (fun c _ =>
      Res.assert (decide (c.degree ≤ 2 ^ f)))) = .ok () := by
    apply forEach_unit
    intro b hb
    apply forEach_unit
    intro c hc
    obtain ⟨-, hmem⟩ := batch_inv (arpOf inst k).constraints [] [] (by simp) b hb
    have : c.degree ≤ 2 ^ f := h.maxDeg ▸ le_maxDegree (by simpa using (hmem c hc).1)
    rw [decide_eq_true this]
    rfl
  unfold batchesOf at e6
  rw [e6]
  exact ⟨_, rfl, ⟨rfl, h.maxDeg.symm, rfl, rfl, rfl, rfl, rfl⟩⟩

/-- The verifier derives the prover's challenges. -/
theorem derive_run {w : Worker} (hp : RunParams F w k f e o) {v : Verifier F}
    (hv : VerOk v (arpOf inst k) k (k + f) (2 ^ e)) (eps : masksOf (arpOf inst k) = ps.map toMask) {idx1 idx2 : ℕ}
    (h1 : bytesToChallengeIndex (H (runT3 H inst n k f e o P G ps Q1 Q2).absorbed).bytes (2 ^ (k + e)) (2 ^ e) = .ok idx1)
    (h2 : bytesToChallengeIndex (H (nextT H (runT3 H inst n k f e o P G ps Q1 Q2)).absorbed).bytes (2 ^ (k + f + e)) (2 ^ e)
          = .ok idx2) :
    v.deriveChallenges H (runProof H inst n k f e o P G ps Q1 Q2 idx1 idx2)
      = .ok (⟨pairsAt F H inst.constraints.length (runT1 H n k e P),
          pairsAt F H inst.boundaryConstraints.length (afterN H inst.constraints.length (runT1 H n k e P)),
          runZ H inst n k f e P G, runA H inst n k f e P G ps, idx1, idx2⟩, domOf F (k + e), domOf F (k + f + e)) := by
  have hS := hp.size
  have hnew : Transcript.new F = .ok ⟨[]⟩ := by
    unfold Transcript.new
    rw [decide_eq_true hp.challenge.1]; rfl
  have hlen : ((batchesOf (arpOf inst k).constraints).flatMap (fun b => b.2)).length = inst.constraints.length := by
    rw [(batchesOf_perm _).length_eq]; simp [arpOf]
  have hlen' : (arpOf inst k).boundaryConstraints.length = inst.boundaryConstraints.length := rfl
  have d1 : Domain.newForSize F (2 ^ (k + e)) = .ok (domOf F (k + e)) := newForSize_pow (by omega)
  have d2 : Domain.newForSize F (2 ^ (k + f + e)) = .ok (domOf F (k + f + e)) := newForSize_pow hS
  have s1 : (domOf F k).size * 2 ^ e = 2 ^ (k + e) := (pow_add _ _ _).symm
  have s2 : (domOf F (k + f)).size * 2 ^ e = 2 ^ (k + f + e) := (pow_add _ _ _).symm
  have g1 : (tab (k + e - e - o + 1) (friRoot H (k + e) Q1)).getLast? = some (friRoot H (k + e) Q1 (k + e - e - o)) :=
    getLast?_tab _ _
  have g2 : (tab (k + f + e - e - o + 1) (friRoot H (k + f + e) Q2)).getLast? = some (friRoot H (k + f + e) Q2 (k + f + e - e - o)) :=
    getLast?_tab _ _
  have c1 := drawBatches_ok H hp.challenge (batchesOf (arpOf inst k).constraints) [] (runT1 H n k e P)
  have c2 := drawPairs_ok H hp.challenge (arpOf inst k).boundaryConstraints [] (afterN H inst.constraints.length (runT1 H n k e P))
  have c3 := drawOnes_ok H hp.challenge (ps.map toMask) [] (nextT H (runT2 H inst n k f e P G))
  rw [hlen] at c1
  rw [hlen'] at c2
  rw [List.length_map] at c3
  simp only [List.nil_append] at c1 c2 c3
  unfold Verifier.deriveChallenges
  rw [hv.inst, hv.masks, hv.batches, hv.column, hv.domain, hv.factor, eps, s1, s2, hnew]
  simp only [Res.ok_bind, runProof, g1, g2, Res.expect_some, d1, d2]
  erw [c1]
  simp only [Res.ok_bind]
  erw [c2]
  simp only [Res.ok_bind]
  erw [getChallenge_ok H hp.challenge (runT2 H inst n k f e P G)]
  simp only [Res.ok_bind]
  erw [c3]
  simp only [Res.ok_bind]
  erw [h1, Res.ok_bind]
  erw [h2, Res.ok_bind]
  rfl

/-- The composition at `z` that the verifier of the honest run computes. -/
noncomputable def runComp (inst : InstanceProperties F) (n k f e : ℕ) (P : ℕ → F[X]) (x : F) : F :=
  compositionAt (genOf F k) inst.numRows (2 ^ f) (pointEnv P x)
        ((batched inst k).zip (pairsAt F H inst.constraints.length (runT1 H n k e P)))
        (inst.boundaryConstraints.zip (pairsAt F H inst.boundaryConstraints.length
          (afterN H inst.constraints.length (runT1 H n k e P)))) x

/-- The verifier on the proof of a run: the two FRI proofs, the second one with the value that belongs to the composition. -/
theorem verify_run {w : Worker} (h : Runnable inst n k f) (hp : RunParams F w k f e o) {v : Verifier F}
    (hver : Verifier.new inst (2 ^ e) = .ok v)
    (hv : VerOk v (arpOf inst k) k (k + f) (2 ^ e)) (eps : masksOf (arpOf inst k) = ps.map toMask) {idx1 idx2 : ℕ}
    (hps : ∀ p ∈ ps, p.1 < n ∧ p.2 ^ 2 ^ k = 1)
    (hz : runZ H inst n k f e P G ^ 2 ^ (k + f + e) ≠ 1)
    (v1 : ∀ i, Q1.eval (genOf F (k + e) ^ i) = deepAt P (runZ H inst n k f e P G)
          (ps.zip (runA H inst n k f e P G ps)) (genOf F (k + e) ^ i))
    (h1 : bytesToChallengeIndex (H (runT3 H inst n k f e o P G ps Q1 Q2).absorbed).bytes (2 ^ (k + e)) (2 ^ e) = .ok idx1)
    (h2 : bytesToChallengeIndex (H (nextT H (runT3 H inst n k f e o P G ps Q1 Q2)).absorbed).bytes (2 ^ (k + f + e)) (2 ^ e)
          = .ok idx2)
    (hi1 : idx1 < 2 ^ (k + e)) (hi2 : idx2 < 2 ^ (k + f + e)) :
    v.calculateGAtZ (pairsAt F H inst.constraints.length (runT1 H n k e P))
      (pairsAt F H inst.boundaryConstraints.length (afterN H inst.constraints.length (runT1 H n k e P)))
      (runProof H inst n k f e o P G ps Q1 Q2 idx1 idx2).fAtZM (runZ H inst n k f e P G)
      = .ok (runComp H inst n k f e P (runZ H inst n k f e P G)) ∧
    v.verify H (runProof H inst n k f e o P G ps Q1 Q2 idx1 idx2) = (do
      let valid ← (honestProof H (k + e) e o Q1 idx1).verify H idx1 (friVals (k + e) Q1 idx1)
      if valid = false then pure false
      else (honestProof H (k + f + e) e o Q2 idx2).verify H idx2 ((G.eval (genOf F (k + f + e) ^ idx2) -
          runComp H inst n k f e P (runZ H inst n k f e P G)) / (genOf F (k + f + e) ^ idx2 - runZ H inst n k f e P G))) := by
  have hS := hp.size
  have hzN : runZ H inst n k f e P G ^ 2 ^ (k + e) ≠ 1 := by
    intro hc
    apply hz
    rw [show 2 ^ (k + f + e) = 2 ^ (k + e) * 2 ^ f by rw [← pow_add]; congr 1; omega, pow_mul, hc, one_pow]
  have hzk : runZ H inst n k f e P G ^ 2 ^ k ≠ 1 := by
    intro hc
    apply hzN
    rw [pow_add, pow_mul, hc, one_pow]
  have hpz : ∀ p ∈ ps, p.1 < n ∧ (p.2 * runZ H inst n k f e P G) ^ 2 ^ (k + e) ≠ 1 := by
    intro p hp'
    refine ⟨(hps p hp').1, ?_⟩
    rw [mul_pow]
    have : p.2 ^ 2 ^ (k + e) = 1 := by rw [pow_add, pow_mul, (hps p hp').2, one_pow]
    rw [this, one_mul]
    exact hzN
  have hreg : v.inst.numRegisters = n := by rw [hv.inst]; exact h.registers
  have hm : v.allMasks = ps.map toMask := hv.masks.trans eps
  have a1 := simulateH1_ok v (show k + e ≤ StarkField.S F by omega) P ps hpz hm (runA H inst n k f e P G ps) idx1
  have a2 := calculateGAtZ_poly h.verifiable (h.verifiable.built hver) P hzk (pairsAt F H inst.constraints.length (runT1 H n k e P))
    (pairsAt F H inst.boundaryConstraints.length (afterN H inst.constraints.length (runT1 H n k e P)))
    (length_pairsAt H _ _) (length_pairsAt H _ _)
  rw [show degOf inst k = 2 ^ f from h.maxDeg, eps, List.map_map] at a2
  have a2' : v.calculateGAtZ (pairsAt F H inst.constraints.length (runT1 H n k e P))
    (pairsAt F H inst.boundaryConstraints.length (afterN H inst.constraints.length (runT1 H n k e P)))
    (ps.map (fun p => (P p.1).eval (p.2 * runZ H inst n k f e P G))) (runZ H inst n k f e P G)
      = .ok (runComp H inst n k f e P (runZ H inst n k f e P G)) := a2
  refine ⟨a2', ?_⟩
  have a3 : simulateH2 idx2 (domOf F (k + f + e)) (friQuery H (k + f + e) G 0 idx2).value (runZ H inst n k f e P G)
      (runComp H inst n k f e P (runZ H inst n k f e P G)) =
        .ok ((G.eval (genOf F (k + f + e) ^ idx2) - runComp H inst n k f e P (runZ H inst n k f e P G)) /
          (genOf F (k + f + e) ^ idx2 - runZ H inst n k f e P G)) := by
    unfold simulateH2
    simp only [domOf, inverse_of_ne (domain_ne hS hz idx2), Res.okOr_some, Res.ok_bind, Res.pure_def, div_eq_mul_inv]
    rfl
  rw [← v1 idx1] at a1
  unfold Verifier.verify
  rw [derive_run H hp hv eps h1 h2]
  simp only [Res.ok_bind, hreg]
  have l1 : (runProof H inst n k f e o P G ps Q1 Q2 idx1 idx2).fQueries.length = n := by simp [runProof]
  have l2 : (runProof H inst n k f e o P G ps Q1 Q2 idx1 idx2).fIopRoots.length = n := by simp [runProof]
  rw [l1, l2, if_neg (by simp), if_neg (by simp)]
  unfold Verifier.verifyBody
  have cq : checkQueries H idx1 ((runProof H inst n k f e o P G ps Q1 Q2 idx1 idx2).fQueries.zip
      (runProof H inst n k f e o P G ps Q1 Q2 idx1 idx2).fIopRoots)
      = some (tab n (fun r => (P r).eval (genOf F (k + e) ^ idx1))) := by
    simp only [runProof]
    rw [zip_tab, min_self]
    exact checkQueries_honest H n (k + e) P hi1
  rw [cq]
  simp only [runProof]
  rw [a1]
  simp only [Res.ok_bind]
  rw [a2']
  simp only [Res.ok_bind]
  unfold Verifier.verifyG
  simp only
  rw [if_neg (by rw [verifyQuery_honest H (k + f + e) G (i := 0) hi2]; simp), if_neg (by simp [friQuery]), a3]
  rfl

end

end Hodor

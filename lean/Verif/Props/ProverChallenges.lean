import Verif.Lemmas.ProverRun
import Verif.Props.Stark

/-!
# C44: prover and verifier derive the same challenges, for every instance, worker and witness
-/

namespace Hodor

open Spec

variable {F : Type} [Field F] [DecidableEq F] [StarkField F] (H : List UInt8 → Digest)

/-- **C44.** Whatever the instance, the worker, the parameters and the witness: if `Prover::new` and `prove` succeed, then `Verifier::new` succeeds for
the same instance and factor, the verifier's replay of the transcript on the returned proof succeeds, and the challenges it derives are those the
prover's run used. -/
theorem C44_same_challenges (w : Worker) (inst : InstanceProperties F) (factor out : ℕ) (prover : Prover F)
    (hp : Prover.new w inst factor out = .ok prover) (witness : List (List F)) (proof : InstanceProof F)
    (h : prover.prove H witness = .ok proof) :
    ∃ v, Verifier.new inst factor = .ok v ∧ ∃ ch d1 d2, v.deriveChallenges H proof = .ok (ch, d1, d2) ∧ ProverUsed H prover witness proof ch := by
  -- the prover's construction
  unfold Prover.new at hp
  obtain ⟨arp, n1, hp⟩ := Res.bind_eq_ok.1 hp
  obtain ⟨ali, n2, hp⟩ := Res.bind_eq_ok.1 hp
  cases hp
  unfold fromInstance at n1
  obtain ⟨cd, n3, n1⟩ := Res.bind_eq_ok.1 n1
  obtain ⟨cs, n4, n1⟩ := Res.bind_eq_ok.1 n1
  cases n1
  unfold AliInstance.fromArp at n2
  obtain ⟨cd', n5, n2⟩ := Res.bind_eq_ok.1 n2
  obtain ⟨kd, n6, n2⟩ := Res.bind_eq_ok.1 n2
  obtain ⟨pre, n7, n2⟩ := Res.bind_eq_ok.1 n2
  obtain ⟨dv, n8, n2⟩ := Res.bind_eq_ok.1 n2
  obtain ⟨bd, n9, n2⟩ := Res.bind_eq_ok.1 n2
  have a1 : ali.constraintsDomain = kd := by cases n2; rfl
  have a2 : ali.constraintsBatchedByDensity = cs.foldl (fun m c => pushBatch c m) [] := by cases n2; rfl
  have a3 : ali.allMasks = inst.boundaryConstraints.foldl getMaskFromBoundaryConstraint (cs.foldl getMasksFromConstraint []) := by cases n2; rfl
  have a4 : ali.properties.boundaryConstraints = inst.boundaryConstraints := by cases n2; rfl
  clear n2 n7 n8 n9
  -- the prover's run
  unfold Prover.prove at h
  obtain ⟨t0, r0, h⟩ := Res.bind_eq_ok.1 h
  obtain ⟨polys, r1, h⟩ := Res.bind_eq_ok.1 h
  obtain ⟨ldes, r2, h⟩ := Res.bind_eq_ok.1 h
  obtain ⟨trees, r3, h⟩ := Res.bind_eq_ok.1 h
  obtain ⟨roots, r4, h⟩ := Res.bind_eq_ok.1 h
  obtain ⟨⟨G, t1⟩, r5, h⟩ := Res.bind_eq_ok.1 h
  obtain ⟨gLde, r6, h⟩ := Res.bind_eq_ok.1 h
  obtain ⟨gTree, r7, h⟩ := Res.bind_eq_ok.1 h
  obtain ⟨gRoot, r8, h⟩ := Res.bind_eq_ok.1 h
  obtain ⟨deep, r9, h⟩ := Res.bind_eq_ok.1 h
  obtain ⟨p1, r10, h⟩ := Res.bind_eq_ok.1 h
  obtain ⟨p2, r11, h⟩ := Res.bind_eq_ok.1 h
  obtain ⟨rs1, r12, h⟩ := Res.bind_eq_ok.1 h
  obtain ⟨rs2, r13, h⟩ := Res.bind_eq_ok.1 h
  obtain ⟨idx1, r14, h⟩ := Res.bind_eq_ok.1 h
  obtain ⟨idx2, r15, h⟩ := Res.bind_eq_ok.1 h
  obtain ⟨f1, r16, h⟩ := Res.bind_eq_ok.1 h
  obtain ⟨f2, r17, h⟩ := Res.bind_eq_ok.1 h
  obtain ⟨fq, r18, h⟩ := Res.bind_eq_ok.1 h
  obtain ⟨gq, r19, h⟩ := Res.bind_eq_ok.1 h
  cases h
  simp only at r1 r2 r3 r5 r6 r7 r9 r10 r11 r14 r15 r16 r17 r18 r19
  -- sizes
  have s1 := witnessPolys_size r1
  have s2 := calculateG_size r5
  obtain ⟨⟨f0, hf0, s3, s4⟩, s5, s6⟩ := calculateDeep_size r9
  obtain ⟨P0, hP0, l0⟩ := mem_mapRes r2 f0 hf0
  have s7 := Poly.lde_size (by rw [s1 P0 hP0]; exact nextPow2_idem _) l0
  rw [s1 P0 hP0] at s7
  have s8 := Poly.lde_size (by rw [s2]; exact nextPow2_idem _) r6
  rw [s2, a1] at s8
  obtain ⟨-, -, last1⟩ := friProof_inv r10
  obtain ⟨two, pf, last2⟩ := friProof_inv r11
  have fin1 := produceProof_final r16
  have fin2 := produceProof_final r17
  obtain ⟨e, rfl⟩ := isPow2_iff.1 pf
  have c1 : cd.size = nextPow2 inst.numRows := (domain_size n3).trans (nextPow2_idem _)
  have c2 : cd'.size = nextPow2 inst.numRows := domain_size n5
  have c3 : kd.size = nextPow2 (nextPow2 inst.numRows * maxDegree cs) := by rw [← c2]; exact domain_size n6
  have hm : 1 ≤ maxDegree cs := by
    by_contra h0
    have h0 : maxDegree cs = 0 := by omega
    rw [s5, s8, c3, nextPow2_idem, h0, Nat.mul_zero, Nat.mul_div_cancel _ (by positivity)] at two
    simp [nextPow2] at two
  have c4 : kd.size = nextPow2 inst.numRows * nextPow2 (maxDegree cs) := by
    rw [c3]; exact nextPow2_mul hm
  have s9 : deep.h1.size = nextPow2 inst.numRows * 2 ^ e := by
    rw [s3, s7]
    unfold nextPow2
    rw [← pow_add]; exact nextPow2_pow _
  have s10 : deep.h2.size = kd.size * 2 ^ e := by rw [s5, s8, c3, nextPow2_idem]
  -- the verifier
  have v1 : Domain.newForSize F (nextPow2 (maxDegree cs) * nextPow2 inst.numRows) = .ok kd := by
    rw [← n6, c2]
    apply newForSize_congr
    rw [← c3, c4, Nat.mul_comm]
    unfold nextPow2
    rw [← pow_add]; exact nextPow2_pow _
  have v2 : forEach (cs.foldl (fun m c => pushBatch c m) []) ()
      (fun b _ => forEach b.2 () (fun c _ => Res.assert (c.degree ≤ maxDegree cs))) = .ok () := by
    have hb := batch_inv cs [] [] (by simp)
    generalize cs.foldl (fun m c => pushBatch c m) [] = l at hb
    induction l with
    | nil => rfl
    | cons b l ih =>
      refine forEach_eq_ok_cons.2 ⟨(), ?_, ih (fun p hp => hb p (List.mem_cons_of_mem _ hp))⟩
      have hb := (hb b (List.mem_cons_self ..)).2
      generalize b.2 = m at hb
      induction m with
      | nil => rfl
      | cons c m ihm =>
        refine forEach_eq_ok_cons.2 ⟨(), Res.assert_eq_ok.2 ?_, ihm (fun p hp => hb p (List.mem_cons_of_mem _ hp))⟩
        exact decide_eq_true (le_maxDegree (by simpa using (hb c (List.mem_cons_self ..)).1))
  refine ⟨{ inst := { inst with constraints := cs }, maxConstraintPower := maxDegree cs, columnDomain := cd, constraintsDomain := kd,
            allMasks := inst.boundaryConstraints.foldl getMaskFromBoundaryConstraint (cs.foldl getMasksFromConstraint []),
            allBoundaryConstrainedRegisters := inst.boundaryConstraints.foldl (fun s b => insertSet s b.register) [],
            constraintsBatchedByDensity := cs.foldl (fun m c => pushBatch c m) [], ldeFactor := 2 ^ e },
    Res.bind_eq_ok.2 ⟨_, n3, Res.bind_eq_ok.2 ⟨_, n4, Res.bind_eq_ok.2 ⟨_, v1, Res.bind_eq_ok.2 ⟨_, v2, rfl⟩⟩⟩⟩, ?_⟩
  -- the draws
  obtain ⟨l, l', q1, q2, q3, q4⟩ := calculateG_uses r5
  obtain ⟨z, l2, q5, q6, q7⟩ := calculateDeep_uses r9
  obtain ⟨cc, q8, rfl⟩ := exists_pairs _ l q1
  obtain ⟨bc, q9, rfl⟩ := exists_pairs _ l' q2
  obtain ⟨tm, q10, q11⟩ := Draws_append.1 q3
  obtain ⟨tz, q12, q13⟩ := q6
  have d1 := drawPairs_of_draws _ cc q8 q10 []
  have d2 := drawPairs_of_draws _ bc q9 q11 []
  have d3 := drawOnes_of_draws _ l2 q5 q13 []
  rw [a2] at d1
  rw [a4] at d2
  rw [a3] at d3
  rw [List.nil_append] at d1 d2 d3
  obtain ⟨fd, hfd⟩ : ∃ d, Domain.newForSize F (cd.size * 2 ^ e) = .ok d := by
    obtain ⟨d, hd⟩ := s4
    exact ⟨d, by rw [← hd, s7, c1]⟩
  obtain ⟨gd, hgd⟩ : ∃ d, Domain.newForSize F (kd.size * 2 ^ e) = .ok d := by
    obtain ⟨d, hd⟩ := s6
    exact ⟨d, by rw [← hd, ← s5, s10]⟩
  rw [s9, ← c1] at r14
  rw [s10] at r15
  refine ⟨{ constraintChallenges := cc, boundaryChallenges := bc, z := z, h1Challenges := l2, idx1 := idx1, idx2 := idx2 }, fd, gd, ?_, ?_⟩
  · unfold Verifier.deriveChallenges
    refine Res.bind_eq_ok.2 ⟨_, r0, Res.bind_eq_ok.2 ⟨_, (forEach_nested _ _ _).trans d1, Res.bind_eq_ok.2 ⟨_, d2,
      Res.bind_eq_ok.2 ⟨_, q12, Res.bind_eq_ok.2 ⟨_, d3, Res.bind_eq_ok.2 ⟨_, Res.expect_eq_ok.2 (last1 _ r12),
      Res.bind_eq_ok.2 ⟨_, Res.expect_eq_ok.2 (last2 _ r13), Res.bind_eq_ok.2 ⟨_, hfd, Res.bind_eq_ok.2 ⟨_, hgd,
      Res.bind_eq_ok.2 ⟨_, ?_, Res.bind_eq_ok.2 ⟨_, ?_, rfl⟩⟩⟩⟩⟩⟩⟩⟩⟩⟩⟩
    · simp only [fin1, fin2]; exact r14
    · simp only [fin1, fin2]; exact r15
  · refine ⟨polys, ldes, trees, G, gLde, gTree, deep, p1, p2, r1, r2, r3, r4, r6, r7, r8, ⟨_, _, _, q3, ?_, ⟨_, q12, q13⟩⟩, q4, q7, rfl, r10,
      r11, r12, r13, r16, r17, r18, r19⟩
    rw [absorb_roots]
    obtain ⟨_, -, r0⟩ := Res.bind_eq_ok.1 r0
    cases r0
    rfl

/-- A prover run with the toy hash over the field of 257 elements. -/
def toyRun (inst : InstanceProperties Fr) (witness : List (List Fr)) (w : Worker) (factor out : ℕ) : Res Unit := do
  let p ← Prover.new w inst factor out
  let _ ← p.prove toyHash witness
  pure ()

/-- The hypotheses of `C44_same_challenges` are met by runs outside the scope of the completeness theorem: two density classes, an unsatisfied
witness, and a rejected proof on two CPUs. -/
example : toyRun (mixedInst [doubling, quadrupling]) [[1, 2, 4, 8]] ⟨1, by norm_num⟩ 2 1 = .ok () ∧
    toyRun (mixedInst [doubling, quadrupling]) [[1, 2, 5, 8]] ⟨1, by norm_num⟩ 2 1 = .ok () ∧
    toyRun (fibInst Fr 2 1 1) [[1, 1, 2, 3], [1, 2, 3, 5]] ⟨1, by norm_num⟩ 2 2 = .ok () := by
  decide +kernel

end Hodor

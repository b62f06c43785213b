import Verif.Lemmas.RunAny
import Verif.Spec.LastLayer

/-! # The verifier on the proof of a run on any number of CPUs -/

namespace Hodor

open Polynomial Finset Spec

variable {F : Type} [Field F] [DecidableEq F] [StarkField F] (H : List UInt8 → Digest)

theorem lastOpeningOk_honest (hc : ChallengeOk F) {n f o : ℕ} (hn : n ≤ StarkField.S F) (hfo : f + o < n) (h1 : 1 ≤ f + o) {p : F[X]} {idx : ℕ} :
    LastOpeningOk (honestProof H n f o p idx) (2 ^ (f + o - 1)) idx ↔
      Spec.evalPoly (tab (2 ^ o) (friLayer H n p (n - f - o)).coeff) (genOf F (f + o - 1) ^ (idx % 2 ^ (f + o - 1)))
        = (friLayer H n p (n - f - o + 1)).eval (genOf F (f + o - 1) ^ (idx % 2 ^ (f + o - 1))) := by
  obtain ⟨m, hm⟩ : ∃ m, f + o = m + 1 := ⟨f + o - 1, by omega⟩
  have hm1 : f + o - 1 = m := by omega
  have hnm : n - (n - f - o) = m + 1 := by omega
  have hnm' : n - (n - f - o + 1) = m := by omega
  have hS : m + 1 ≤ StarkField.S F := by omega
  have e1 : (honestProof H n f o p idx).roots.getLast? = some (friRoot H n p (n - f - o)) := getLast?_tab _ _
  have e2 : (encodeRootIntoChallenge (friRoot H n p (n - f - o)) : Res F) = .ok (friBeta H n p (n - f - o)) := interpretHash_ok hc _
  have e3 : Domain.newForSize F (2 ^ m) = .ok (domOf F m) := newForSize_pow (by omega)
  have e4 : Domain.newForSize F (2 * 2 ^ m) = .ok (domOf F (m + 1)) := by
    rw [← pow_succ']; exact newForSize_pow hS
  have e5 : (honestProof H n f o p idx).queries = tab (2 * (n - f - o)) (friQueryAt H n p idx) ++
      [friQuery H n p (n - f - o) (idx % 2 ^ m), friQuery H n p (n - f - o) (idx % 2 ^ m + 2 ^ m)] := by
    have q0 : friQueryAt H n p idx (2 * (n - f - o)) = friQuery H n p (n - f - o) (idx % 2 ^ m) := by
      unfold friQueryAt friIdx
      rw [show 2 * (n - f - o) / 2 = n - f - o by omega, show 2 * (n - f - o) % 2 = 0 by omega, hnm', Nat.zero_mul, Nat.add_zero]
    have q1 : friQueryAt H n p idx (2 * (n - f - o) + 1) = friQuery H n p (n - f - o) (idx % 2 ^ m + 2 ^ m) := by
      unfold friQueryAt friIdx
      rw [show (2 * (n - f - o) + 1) / 2 = n - f - o by omega, show (2 * (n - f - o) + 1) % 2 = 1 by omega, hnm', Nat.one_mul]
    show tab (2 * (n - f - o + 1)) (friQueryAt H n p idx) = _
    rw [show 2 * (n - f - o + 1) = 2 * (n - f - o) + 1 + 1 by ring, tab_succ, tab_succ, q0, q1, List.append_assoc]
    rfl
  have hx : genOf F (m + 1) ^ (idx % 2 ^ m) ≠ 0 := pow_ne_zero _ (genOf_ne_zero hS)
  have hval : foldAt (genOf F (m + 1) ^ (idx % 2 ^ m)) (friQuery H n p (n - f - o) (idx % 2 ^ m)).value
      (friQuery H n p (n - f - o) (idx % 2 ^ m + 2 ^ m)).value (friBeta H n p (n - f - o))
      = (friLayer H n p (n - f - o + 1)).eval (genOf F m ^ (idx % 2 ^ m)) := by
    simp only [friQuery, friVals, hnm]
    rw [genOf_half hS, foldAt_eval (two_ne_zero_of_S (by omega)) hx, friLayer_succ, ← pow_mul, mul_comm _ 2, pow_mul, genOf_sq hS]
  rw [hm1]
  constructor
  · rintro ⟨root, β, d, d', init, q0, q1, h1, h2, h3, h4, h5, h6⟩
    rw [e1] at h1
    cases h1
    rw [e2] at h2
    cases h2
    rw [e3] at h3
    cases h3
    rw [e4] at h4
    cases h4
    rw [e5] at h5
    obtain ⟨-, h5⟩ := List.append_inj' h5 rfl
    cases h5
    exact h6.trans hval
  · intro h
    exact ⟨_, _, _, _, _, _, _, e1, e2, e3, e4, e5, h.trans hval.symm⟩

section
variable {inst : InstanceProperties F} {n k f e o : ℕ} {P Q : ℕ → F[X]} {G L : F[X]} {ps : List (ℕ × F)} {Q1 Q2 : F[X]}

theorem derive_word (hp : ProverParams F k f e o) {v : Verifier F}
    (hv : VerOk v (arpOf inst k) k (k + f) (2 ^ e)) (eps : masksOf (arpOf inst k) = ps.map toMask) {idx1 idx2 : ℕ}
    (h1 : bytesToChallengeIndex (H (runT3 H inst n k f e o Q L ps Q1 Q2).absorbed).bytes (2 ^ (k + e)) (2 ^ e) = .ok idx1)
    (h2 : bytesToChallengeIndex (H (nextT H (runT3 H inst n k f e o Q L ps Q1 Q2)).absorbed).bytes (2 ^ (k + f + e)) (2 ^ e)
          = .ok idx2) :
    v.deriveChallenges H (wordProof H inst n k f e o P Q L ps Q1 Q2 idx1 idx2)
      = .ok (⟨pairsAt F H inst.constraints.length (runT1 H n k e Q),
          pairsAt F H inst.boundaryConstraints.length (afterN H inst.constraints.length (runT1 H n k e Q)),
          runZ H inst n k f e Q L, runA H inst n k f e Q L ps, idx1, idx2⟩, domOf F (k + e), domOf F (k + f + e)) := by
  have hS := hp.size
  have hnew : Transcript.new F = .ok ⟨[]⟩ := by
    unfold Transcript.new
    rw [decide_eq_true hp.challenge.1]; rfl
  have hlen : ((batchesOf (arpOf inst k).constraints).flatMap (fun b => b.2)).length = inst.constraints.length := by
    rw [(batchesOf_perm _).length_eq]; simp [arpOf]
  have hlen' : (arpOf inst k).boundaryConstraints.length = inst.boundaryConstraints.length := rfl
  have d1 : Domain.newForSize F (2 ^ (k + e)) = .ok (domOf F (k + e)) := newForSize_pow (by omega)
  have d2 : Domain.newForSize F (2 ^ (k + f + e)) = .ok (domOf F (k + f + e)) := newForSize_pow hS
  have s1 : (domOf F k).size * 2 ^ e = 2 ^ (k + e) := (pow_add _ _ _).symm
  have s2 : (domOf F (k + f)).size * 2 ^ e = 2 ^ (k + f + e) := (pow_add _ _ _).symm
  have g1 : (tab (k + e - e - o + 1) (friRoot H (k + e) Q1)).getLast? = some (friRoot H (k + e) Q1 (k + e - e - o)) :=
    getLast?_tab _ _
  have g2 : (tab (k + f + e - e - o + 1) (friRoot H (k + f + e) Q2)).getLast? = some (friRoot H (k + f + e) Q2 (k + f + e - e - o)) :=
    getLast?_tab _ _
  have c1 := drawBatches_ok H hp.challenge (batchesOf (arpOf inst k).constraints) [] (runT1 H n k e Q)
  have c2 := drawPairs_ok H hp.challenge (arpOf inst k).boundaryConstraints [] (afterN H inst.constraints.length (runT1 H n k e Q))
  have c3 := drawOnes_ok H hp.challenge (ps.map toMask) [] (nextT H (runT2 H inst n k f e Q L))
  rw [hlen] at c1
  rw [hlen'] at c2
  rw [List.length_map] at c3
  simp only [List.nil_append] at c1 c2 c3
  unfold Verifier.deriveChallenges
  rw [hv.inst, hv.masks, hv.batches, hv.column, hv.domain, hv.factor, eps, s1, s2, hnew]
  simp only [Res.ok_bind, wordProof, g1, g2, Res.expect_some, d1, d2]
  erw [c1]
  simp only [Res.ok_bind]
  erw [c2]
  simp only [Res.ok_bind]
  erw [getChallenge_ok H hp.challenge (runT2 H inst n k f e Q L)]
  simp only [Res.ok_bind]
  erw [c3]
  simp only [Res.ok_bind]
  erw [h1, Res.ok_bind]
  erw [h2, Res.ok_bind]
  rfl

/-- The composition at `x` with the challenges after the committed words `Q`. -/
noncomputable def wordComp (inst : InstanceProperties F) (n k f e : ℕ) (P Q : ℕ → F[X]) (x : F) : F :=
  compositionAt (genOf F k) inst.numRows (2 ^ f) (pointEnv P x)
        ((batched inst k).zip (pairsAt F H inst.constraints.length (runT1 H n k e Q)))
        (inst.boundaryConstraints.zip (pairsAt F H inst.boundaryConstraints.length
          (afterN H inst.constraints.length (runT1 H n k e Q)))) x

theorem verify_word (h : Runnable inst n k f) (hp : ProverParams F k f e o) {v : Verifier F}
    (hver : Verifier.new inst (2 ^ e) = .ok v)
    (hv : VerOk v (arpOf inst k) k (k + f) (2 ^ e)) (eps : masksOf (arpOf inst k) = ps.map toMask) {idx1 idx2 : ℕ}
    (hps : ∀ p ∈ ps, p.1 < n ∧ p.2 ^ 2 ^ k = 1)
    (hz : runZ H inst n k f e Q L ^ 2 ^ (k + f + e) ≠ 1)
    (v1 : ∀ i, i < 2 ^ (k + e) → Q1.eval (genOf F (k + e) ^ i) = wordAt P Q (runZ H inst n k f e Q L)
          (ps.zip (runA H inst n k f e Q L ps)) (genOf F (k + e) ^ i))
    (h1 : bytesToChallengeIndex (H (runT3 H inst n k f e o Q L ps Q1 Q2).absorbed).bytes (2 ^ (k + e)) (2 ^ e) = .ok idx1)
    (h2 : bytesToChallengeIndex (H (nextT H (runT3 H inst n k f e o Q L ps Q1 Q2)).absorbed).bytes (2 ^ (k + f + e)) (2 ^ e)
          = .ok idx2)
    (hi1 : idx1 < 2 ^ (k + e)) (hi2 : idx2 < 2 ^ (k + f + e)) :
    v.verify H (wordProof H inst n k f e o P Q L ps Q1 Q2 idx1 idx2) = (do
      let valid ← (honestProof H (k + e) e o Q1 idx1).verify H idx1 (friVals (k + e) Q1 idx1)
      if valid = false then pure false
      else (honestProof H (k + f + e) e o Q2 idx2).verify H idx2 ((L.eval (genOf F (k + f + e) ^ idx2) -
          wordComp H inst n k f e P Q (runZ H inst n k f e Q L)) / (genOf F (k + f + e) ^ idx2 - runZ H inst n k f e Q L))) := by
  have hS := hp.size
  have hzN : runZ H inst n k f e Q L ^ 2 ^ (k + e) ≠ 1 := by
    intro hc
    apply hz
    rw [show 2 ^ (k + f + e) = 2 ^ (k + e) * 2 ^ f by rw [← pow_add]; congr 1; omega, pow_mul, hc, one_pow]
  have hzk : runZ H inst n k f e Q L ^ 2 ^ k ≠ 1 := by
    intro hc
    apply hzN
    rw [pow_add, pow_mul, hc, one_pow]
  have hpz : ∀ p ∈ ps, p.1 < n ∧ (p.2 * runZ H inst n k f e Q L) ^ 2 ^ (k + e) ≠ 1 := by
    intro p hp'
    refine ⟨(hps p hp').1, ?_⟩
    rw [mul_pow]
    have : p.2 ^ 2 ^ (k + e) = 1 := by rw [pow_add, pow_mul, (hps p hp').2, one_pow]
    rw [this, one_mul]
    exact hzN
  have hreg : v.inst.numRegisters = n := by rw [hv.inst]; exact h.registers
  have hm : v.allMasks = ps.map toMask := hv.masks.trans eps
  have a1 := simulateH1_word v (show k + e ≤ StarkField.S F by omega) P Q ps hpz hm (runA H inst n k f e Q L ps) idx1
  have a2 := calculateGAtZ_poly h.verifiable (h.verifiable.built hver) P hzk (pairsAt F H inst.constraints.length (runT1 H n k e Q))
    (pairsAt F H inst.boundaryConstraints.length (afterN H inst.constraints.length (runT1 H n k e Q)))
    (length_pairsAt H _ _) (length_pairsAt H _ _)
  rw [show degOf inst k = 2 ^ f from h.maxDeg, eps, List.map_map] at a2
  have a2' : v.calculateGAtZ (pairsAt F H inst.constraints.length (runT1 H n k e Q))
    (pairsAt F H inst.boundaryConstraints.length (afterN H inst.constraints.length (runT1 H n k e Q)))
    (ps.map (fun p => (P p.1).eval (p.2 * runZ H inst n k f e Q L))) (runZ H inst n k f e Q L)
      = .ok (wordComp H inst n k f e P Q (runZ H inst n k f e Q L)) := a2
  have a3 : simulateH2 idx2 (domOf F (k + f + e)) (friQuery H (k + f + e) L 0 idx2).value (runZ H inst n k f e Q L)
      (wordComp H inst n k f e P Q (runZ H inst n k f e Q L)) =
        .ok ((L.eval (genOf F (k + f + e) ^ idx2) - wordComp H inst n k f e P Q (runZ H inst n k f e Q L)) /
          (genOf F (k + f + e) ^ idx2 - runZ H inst n k f e Q L)) := by
    unfold simulateH2
    simp only [domOf, inverse_of_ne (domain_ne hS hz idx2), Res.okOr_some, Res.ok_bind, Res.pure_def, div_eq_mul_inv]
    rfl
  rw [← v1 idx1 hi1] at a1
  unfold Verifier.verify
  rw [derive_word H hp hv eps h1 h2]
  simp only [Res.ok_bind, hreg]
  have l1 : (wordProof H inst n k f e o P Q L ps Q1 Q2 idx1 idx2).fQueries.length = n := by simp [wordProof]
  have l2 : (wordProof H inst n k f e o P Q L ps Q1 Q2 idx1 idx2).fIopRoots.length = n := by simp [wordProof]
  rw [l1, l2, if_neg (by simp), if_neg (by simp)]
  unfold Verifier.verifyBody
  have cq : checkQueries H idx1 ((wordProof H inst n k f e o P Q L ps Q1 Q2 idx1 idx2).fQueries.zip
      (wordProof H inst n k f e o P Q L ps Q1 Q2 idx1 idx2).fIopRoots)
      = some (tab n (fun r => (Q r).eval (genOf F (k + e) ^ idx1))) := by
    simp only [wordProof]
    rw [zip_tab, min_self]
    exact checkQueries_honest H n (k + e) Q hi1
  rw [cq]
  simp only [wordProof]
  rw [a1]
  simp only [Res.ok_bind]
  rw [a2']
  simp only [Res.ok_bind]
  unfold Verifier.verifyG
  simp only
  rw [if_neg (by rw [verifyQuery_honest H (k + f + e) L (i := 0) hi2]; simp), if_neg (by simp [friQuery]), a3]
  rfl

end

end Hodor

import Verif.Lemmas.StarkH
import Verif.Props.Ali
import Verif.Props.Fri

/-! # The verifier on the honest proof -/

namespace Hodor

open Polynomial Finset Spec

variable {F : Type} [Field F] [DecidableEq F] [StarkField F] (H : List UInt8 → Digest)

theorem drawOnes_ok (hch : ChallengeOk F) {α : Type} (l : List α) (acc : List F) (t : Transcript) :
    forEach l (acc, t) (fun _ s => drawOne H s) = .ok (acc ++ singlesAt F H l.length t, afterS H l.length t) := by
  induction l generalizing acc t with
  | nil => simp [forEach, singlesAt, afterS]
  | cons a l ih =>
    have e : drawOne H (acc, t) = .ok (acc ++ [chal F H t], nextT H t) := by
      simp only [drawOne, getChallenge_ok H hch, Res.ok_bind, Res.pure_def]
    simp only [forEach, e, Res.ok_bind]
    rw [ih]
    simp [singlesAt, afterS]

section
variable {inst : InstanceProperties F} {n k f e o : ℕ} {P : ℕ → F[X]} {G : F[X]} {ps : List (ℕ × F)} {Q1 Q2 : F[X]}

/-- The verifier derives the prover's challenges. -/
theorem derive_honest {w : Worker} (h : Suitable inst n k f) (hp : RunParams F w k f e o) {v : Verifier F}
    (hv : VerOk v (arpOf inst k) k (k + f) (2 ^ e)) (eps : masksOf (arpOf inst k) = ps.map toMask) {idx1 idx2 : ℕ}
    (h1 : bytesToChallengeIndex (H (runT3 H inst n k f e o P G ps Q1 Q2).absorbed).bytes (2 ^ (k + e)) (2 ^ e) = .ok idx1)
    (h2 : bytesToChallengeIndex (H (nextT H (runT3 H inst n k f e o P G ps Q1 Q2)).absorbed).bytes (2 ^ (k + f + e)) (2 ^ e)
          = .ok idx2) :
    v.deriveChallenges H (runProof H inst n k f e o P G ps Q1 Q2 idx1 idx2)
      = .ok (⟨pairsAt F H inst.constraints.length (runT1 H n k e P),
          pairsAt F H inst.boundaryConstraints.length (afterN H inst.constraints.length (runT1 H n k e P)),
          runZ H inst n k f e P G, runA H inst n k f e P G ps, idx1, idx2⟩, domOf F (k + e), domOf F (k + f + e)) := by
  have hS := hp.size
  obtain ⟨d, hd, hcd, hbat⟩ := h.dense
  have hnew : Transcript.new F = .ok ⟨[]⟩ := by
    unfold Transcript.new
    rw [decide_eq_true hp.challenge.1]; rfl
  have hlen : (arpOf inst k).constraints.length = inst.constraints.length := by simp [arpOf]
  have hlen' : (arpOf inst k).boundaryConstraints.length = inst.boundaryConstraints.length := rfl
  have d1 : Domain.newForSize F (2 ^ (k + e)) = .ok (domOf F (k + e)) := newForSize_pow (by omega)
  have d2 : Domain.newForSize F (2 ^ (k + f + e)) = .ok (domOf F (k + f + e)) := newForSize_pow hS
  have s1 : (domOf F k).size * 2 ^ e = 2 ^ (k + e) := (pow_add _ _ _).symm
  have s2 : (domOf F (k + f)).size * 2 ^ e = 2 ^ (k + f + e) := (pow_add _ _ _).symm
  have g1 : (tab (k + e - e - o + 1) (friRoot H (k + e) Q1)).getLast? = some (friRoot H (k + e) Q1 (k + e - e - o)) :=
    getLast?_tab _ _
  have g2 : (tab (k + f + e - e - o + 1) (friRoot H (k + f + e) Q2)).getLast? = some (friRoot H (k + f + e) Q2 (k + f + e - e - o)) :=
    getLast?_tab _ _
  have c1 := drawPairs_ok H hp.challenge (arpOf inst k).constraints [] (runT1 H n k e P)
  have c2 := drawPairs_ok H hp.challenge (arpOf inst k).boundaryConstraints [] (afterN H inst.constraints.length (runT1 H n k e P))
  have c3 := drawOnes_ok H hp.challenge (ps.map toMask) [] (nextT H (runT2 H inst n k f e P G))
  rw [hlen] at c1
  rw [hlen'] at c2
  rw [List.length_map] at c3
  simp only [List.nil_append] at c1 c2 c3
  unfold Verifier.deriveChallenges
  rw [hv.inst, hv.masks, hv.batches, hbat, hv.column, hv.domain, hv.factor, eps, s1, s2, hnew]
  simp only [Res.ok_bind, runProof, g1, g2, Res.expect_some, forEach, d1, d2]
  erw [c1]
  simp only [Res.ok_bind]
  erw [c2]
  simp only [Res.ok_bind]
  erw [getChallenge_ok H hp.challenge (runT2 H inst n k f e P G)]
  simp only [Res.ok_bind]
  erw [c3]
  simp only [Res.ok_bind]
  erw [h1, Res.ok_bind]
  erw [h2, Res.ok_bind]
  rfl

theorem checkQueries_honest (n N : ℕ) (P : ℕ → F[X]) {idx : ℕ} (hidx : idx < 2 ^ N) :
    checkQueries H idx (tab n (fun r => (friQuery H N (P r) 0 idx, friRoot H N (P r) 0)))
      = some (tab n (fun r => (P r).eval (genOf F N ^ idx))) := by
  induction n generalizing P with
  | zero => rfl
  | succ n ih =>
    rw [tab_succ', tab_succ', checkQueries, if_neg (by rw [verifyQuery_honest H N (P 0) (i := 0) hidx]; simp),
      if_neg (by simp [friQuery]), ih (fun r => P (r + 1))]
    rfl

theorem simulateH1_ok (v : Verifier F) {N : ℕ} (hN : N ≤ StarkField.S F) (P : ℕ → F[X]) {z : F} (ps : List (ℕ × F))
    (hps : ∀ p ∈ ps, p.1 < n ∧ (p.2 * z) ^ 2 ^ N ≠ 1) (hv : v.allMasks = ps.map toMask) (αs : List F)
    (idx : ℕ) :
    v.simulateH1 αs idx (domOf F N) (tab n (fun r => (P r).eval (genOf F N ^ idx)))
        (ps.map (fun p => (P p.1).eval (p.2 * z))) z
      = .ok (deepAt P z (ps.zip αs) (genOf F N ^ idx)) := by
  unfold Verifier.simulateH1 deepAt
  rw [hv, List.zip_map', List.zip_map_left]
  have key : ∀ (l : List ((ℕ × F) × F)) (a : F), (∀ q ∈ l, q.1.1 < n ∧ (q.1.2 * z) ^ 2 ^ N ≠ 1) →
      forEach (l.map (Prod.map (fun p : ℕ × F => (toMask p, (P p.1).eval (p.2 * z))) id)) a (fun x h => do
        let mask ← x.1.1.stepsDifference.maskOf
        let r ← x.1.1.register.num
        let f ← rd (tab n (fun r => (P r).eval (genOf F N ^ idx))) r
        let inv ← Res.okOr (inverse ((domOf F N).generator ^ idx - mask * z)) .divisionByZero
        pure (h + (f - x.1.2) * inv * x.2))
      = .ok (a + (l.map (fun q => q.2 * ((P q.1.1).eval (genOf F N ^ idx) - (P q.1.1).eval (q.1.2 * z)) /
          (genOf F N ^ idx - q.1.2 * z))).sum) := by
    intro l
    induction l with
    | nil => intro a _; simp [forEach]
    | cons q l ih =>
      intro a hl
      obtain ⟨hr, hm⟩ := hl q List.mem_cons_self
      have hne : (domOf F N).generator ^ idx - q.1.2 * z ≠ 0 := domain_ne hN hm idx
      simp only [List.map_cons, forEach, Prod.map, toMask, StepDifference.maskOf, Register.num, Res.ok_bind, rd_tab hr,
        inverse_of_ne hne, Res.okOr_some, id]
      refine (ih _ (fun q' hq' => hl q' (List.mem_cons_of_mem _ hq'))).trans ?_
      rw [List.sum_cons, ← add_assoc]
      congr 3
      simp only [domOf]
      rw [div_eq_mul_inv]; ring
  rw [key _ _ (by
    intro q hq
    exact hps _ (List.of_mem_zip hq).1), zero_add]

theorem simulateH2_ok {M : ℕ} (hM : M ≤ StarkField.S F) (G : F[X]) {z : F} (hz : z ^ 2 ^ M ≠ 1) (idx : ℕ) :
    simulateH2 idx (domOf F M) (G.eval (genOf F M ^ idx)) z (G.eval z) = .ok (deepGAt G z (genOf F M ^ idx)) := by
  unfold simulateH2 deepGAt
  simp only [domOf, inverse_of_ne (domain_ne hM hz idx), Res.okOr_some, Res.ok_bind, Res.pure_def, div_eq_mul_inv]

/-- The verifier on the honest proof accepts iff it accepts both FRI proofs. -/
theorem verify_honest_run {w : Worker} (h : Suitable inst n k f) (hp : RunParams F w k f e o) {v : Verifier F}
    (hv : VerOk v (arpOf inst k) k (k + f) (2 ^ e)) (eps : masksOf (arpOf inst k) = ps.map toMask) {idx1 idx2 : ℕ}
    (hps : ∀ p ∈ ps, p.1 < n ∧ p.2 ^ 2 ^ k = 1)
    (hG : ∀ x, x ^ 2 ^ k ≠ 1 → G.eval x = compositionAt (genOf F k) inst.numRows (2 ^ f) (pointEnv P x)
        ((arpOf inst k).constraints.zip (pairsAt F H inst.constraints.length (runT1 H n k e P)))
        (inst.boundaryConstraints.zip (pairsAt F H inst.boundaryConstraints.length
          (afterN H inst.constraints.length (runT1 H n k e P)))) x)
    (hz : runZ H inst n k f e P G ^ 2 ^ (k + f + e) ≠ 1)
    (v1 : ∀ i, Q1.eval (genOf F (k + e) ^ i) = deepAt P (runZ H inst n k f e P G)
          (ps.zip (runA H inst n k f e P G ps)) (genOf F (k + e) ^ i))
    (v2 : ∀ i, Q2.eval (genOf F (k + f + e) ^ i) = deepGAt G (runZ H inst n k f e P G) (genOf F (k + f + e) ^ i))
    (h1 : bytesToChallengeIndex (H (runT3 H inst n k f e o P G ps Q1 Q2).absorbed).bytes (2 ^ (k + e)) (2 ^ e) = .ok idx1)
    (h2 : bytesToChallengeIndex (H (nextT H (runT3 H inst n k f e o P G ps Q1 Q2)).absorbed).bytes (2 ^ (k + f + e)) (2 ^ e)
          = .ok idx2)
    (hi1 : idx1 < 2 ^ (k + e)) (hi2 : idx2 < 2 ^ (k + f + e)) :
    v.verify H (runProof H inst n k f e o P G ps Q1 Q2 idx1 idx2) = (do
      let valid ← (honestProof H (k + e) e o Q1 idx1).verify H idx1 (friVals (k + e) Q1 idx1)
      if valid = false then pure false
      else (honestProof H (k + f + e) e o Q2 idx2).verify H idx2 (friVals (k + f + e) Q2 idx2)) := by
  have hS := hp.size
  have hzN : runZ H inst n k f e P G ^ 2 ^ (k + e) ≠ 1 := by
    intro hc
    apply hz
    rw [show 2 ^ (k + f + e) = 2 ^ (k + e) * 2 ^ f by rw [← pow_add]; congr 1; omega, pow_mul, hc, one_pow]
  have hzk : runZ H inst n k f e P G ^ 2 ^ k ≠ 1 := by
    intro hc
    apply hzN
    rw [pow_add, pow_mul, hc, one_pow]
  have hpz : ∀ p ∈ ps, p.1 < n ∧ (p.2 * runZ H inst n k f e P G) ^ 2 ^ (k + e) ≠ 1 := by
    intro p hp'
    refine ⟨(hps p hp').1, ?_⟩
    rw [mul_pow]
    have : p.2 ^ 2 ^ (k + e) = 1 := by rw [pow_add, pow_mul, (hps p hp').2, one_pow]
    rw [this, one_mul]
    exact hzN
  have hreg : v.inst.numRegisters = n := by rw [hv.inst]; exact h.registers
  have hm : v.allMasks = ps.map toMask := hv.masks.trans eps
  have a1 := simulateH1_ok v (show k + e ≤ StarkField.S F by omega) P ps hpz hm (runA H inst n k f e P G ps) idx1
  have a2 := calculateGAtZ_ok h (by omega) hv P hzk (pairsAt F H inst.constraints.length (runT1 H n k e P))
    (pairsAt F H inst.boundaryConstraints.length (afterN H inst.constraints.length (runT1 H n k e P)))
    (length_pairsAt H _ _) (length_pairsAt H _ _)
  rw [← hG _ hzk, eps, List.map_map] at a2
  have a2' : v.calculateGAtZ (pairsAt F H inst.constraints.length (runT1 H n k e P))
    (pairsAt F H inst.boundaryConstraints.length (afterN H inst.constraints.length (runT1 H n k e P)))
    (ps.map (fun p => (P p.1).eval (p.2 * runZ H inst n k f e P G))) (runZ H inst n k f e P G)
      = .ok (G.eval (runZ H inst n k f e P G)) := a2
  have a3 := simulateH2_ok hS G hz idx2
  rw [← v1 idx1] at a1
  rw [← v2 idx2] at a3
  unfold Verifier.verify
  rw [derive_honest H h hp hv eps h1 h2]
  simp only [Res.ok_bind, hreg]
  have l1 : (runProof H inst n k f e o P G ps Q1 Q2 idx1 idx2).fQueries.length = n := by simp [runProof]
  have l2 : (runProof H inst n k f e o P G ps Q1 Q2 idx1 idx2).fIopRoots.length = n := by simp [runProof]
  rw [l1, l2, if_neg (by simp), if_neg (by simp)]
  unfold Verifier.verifyBody
  have cq : checkQueries H idx1 ((runProof H inst n k f e o P G ps Q1 Q2 idx1 idx2).fQueries.zip
      (runProof H inst n k f e o P G ps Q1 Q2 idx1 idx2).fIopRoots)
      = some (tab n (fun r => (P r).eval (genOf F (k + e) ^ idx1))) := by
    simp only [runProof]
    rw [zip_tab, min_self]
    exact checkQueries_honest H n (k + e) P hi1
  rw [cq]
  simp only [runProof]
  rw [a1]
  simp only [Res.ok_bind]
  rw [a2']
  simp only [Res.ok_bind]
  unfold Verifier.verifyG
  simp only
  rw [if_neg (by rw [verifyQuery_honest H (k + f + e) G (i := 0) hi2]; simp), if_neg (by simp [friQuery])]
  have a3' : simulateH2 idx2 (domOf F (k + f + e)) (friQuery H (k + f + e) G 0 idx2).value (runZ H inst n k f e P G)
      (G.eval (runZ H inst n k f e P G)) = .ok (friVals (k + f + e) Q2 idx2) := a3
  rw [a3']
  rfl

/-- The FRI proof with one final coefficient is accepted. -/
theorem fri_accepts (hc : ChallengeOk F) {n f : ℕ} (hn : n ≤ StarkField.S F) (hf : f < n) (h1 : 1 ≤ f)
    {p : F[X]} (hp : p.degree < (2 ^ (n - f) : ℕ)) {idx : ℕ} (hidx : idx < 2 ^ n) (hodd : idx % 2 = 1) :
    (honestProof H n f 0 p idx).verify H idx (friVals n p idx) = .ok true := by
  rw [verifyProof_honest H hc hn (by omega) (by omega) hidx, if_pos hodd]
  have hdeg := friLayer_degree H (n := n) hp (n - f - 0) (by omega)
  have hdeg0 : (friLayer H n p (n - f - 0)).degree < (2 ^ 0 : ℕ) := by
    rwa [show n - f - (n - f - 0) = 0 by omega] at hdeg
  have hconst := eq_C_of_degree_le_zero (p := friLayer H n p (n - f - 0)) (by
    rw [Polynomial.degree_le_iff_coeff_zero]
    intro m hm
    exact (degree_lt_iff_coeff_zero _ _).1 hdeg0 m (by
      have : 0 < m := by exact_mod_cast hm
      rw [pow_zero]; omega))
  rw [evalPoly_coeff hdeg0, friLayer_succ]
  congr 1
  apply decide_eq_true
  rw [hconst]
  have : foldPoly (friBeta H n p (n - f - 0)) (C ((friLayer H n p (n - f - 0)).coeff 0))
      = C ((friLayer H n p (n - f - 0)).coeff 0) := by
    ext i
    rw [coeff_foldPoly, coeff_C, coeff_C, coeff_C]
    cases i with
    | zero => simp
    | succ i => simp
  rw [this]

end

end Hodor

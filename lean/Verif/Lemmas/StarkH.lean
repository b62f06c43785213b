import Verif.Lemmas.StarkP
import Verif.Lemmas.FriVerify
import Verif.Props.Transcript
import Verif.Spec.Params

/-! # The honest run: what `prove` returns and what the verifier derives from it -/

namespace Hodor

open Polynomial Finset Spec

variable {F : Type} [Field F] [DecidableEq F] [StarkField F] (H : List UInt8 → Digest)

/-- `get_roots` of the honest prototype. -/
theorem getRoots_honest {n f o : ℕ} (hfo : f + o < n) (h1 : 1 ≤ f + o) (p : F[X]) :
    (honestPrototype H n f o p).getRoots = .ok (tab (n - f - o + 1) (friRoot H n p)) := by
  unfold FriPrototype.getRoots honestPrototype
  simp only
  have e' : friTree H n p 0 :: tab (n - f - o) (fun t => friTree H n p (t + 1))
      = tab (n - f - o + 1) (fun t => friTree H n p t) := by
    rw [tab_succ']
  rw [e']
  have loop := forEach_tab (fun t => friTree H n p t) (fun i => tab i (friRoot H n p))
    (fun c l => do let r ← c.getRoot; pure (l ++ [r])) (n - f - o + 1) (fun i hi => by
      simp only [friTree_root H n p (show i < n by omega), Res.ok_bind, Res.pure_def]
      rw [tab_succ])
  rw [tab_zero] at loop
  exact loop

section run
variable (inst : InstanceProperties F) (n k f e o : ℕ) (P : ℕ → F[X]) (G : F[X]) (ps : List (ℕ × F)) (Q1 Q2 : F[X])

/-- Transcript after the witness roots. -/
noncomputable def runT1 : Transcript :=
  (tab n (fun r => friRoot H (k + e) (P r) 0)).foldl (fun t r => t.commitBytes r.bytes) ⟨[]⟩

/-- Transcript after the challenges of the constraints and the root of `g`. -/
noncomputable def runT2 : Transcript :=
  (afterN H inst.boundaryConstraints.length (afterN H inst.constraints.length (runT1 H n k e P))).commitBytes
    (friRoot H (k + f + e) G 0).bytes

/-- The out-of-domain point. -/
noncomputable def runZ : F := chal F H (runT2 H inst n k f e P G)

/-- The challenges of the masks. -/
noncomputable def runA : List F := singlesAt F H ps.length (nextT H (runT2 H inst n k f e P G))

/-- Transcript before the query indices are drawn. -/
noncomputable def runT3 : Transcript :=
  commitFinal (commitFinal (afterS H ps.length (nextT H (runT2 H inst n k f e P G)))
    (friRoot H (k + e) Q1 (k + e - e - o)) (tab (2 ^ o) (friLayer H (k + e) Q1 (k + e - e - o)).coeff))
    (friRoot H (k + f + e) Q2 (k + f + e - e - o)) (tab (2 ^ o) (friLayer H (k + f + e) Q2 (k + f + e - e - o)).coeff)

/-- The honest proof. -/
noncomputable def runProof (idx1 idx2 : ℕ) : InstanceProof F :=
  { fAtZM := ps.map (fun p => (P p.1).eval (p.2 * runZ H inst n k f e P G))
    fIopRoots := tab n (fun r => friRoot H (k + e) (P r) 0)
    gIopRoot := friRoot H (k + f + e) G 0
    fQueries := tab n (fun r => friQuery H (k + e) (P r) 0 idx1)
    gQuery := friQuery H (k + f + e) G 0 idx2
    h1IopRoots := tab (k + e - e - o + 1) (friRoot H (k + e) Q1)
    h2IopRoots := tab (k + f + e - e - o + 1) (friRoot H (k + f + e) Q2)
    friProofH1 := honestProof H (k + e) e o Q1 idx1
    friProofH2 := honestProof H (k + f + e) e o Q2 idx2 }

end run

theorem calculateDeep_err (hch : ChallengeOk F) (w : Worker) {n k K N M : ℕ} (hNM : N ≤ M)
    (hM : M ≤ StarkField.S F) (h1 : 1 ≤ StarkField.S F) (hn : 0 < n) (hkN : k ≤ N)
    {P : ℕ → F[X]} (hP : ∀ r, (P r).degree < (2 ^ k : ℕ)) {G : F[X]} 
    (ps : List (ℕ × F)) (t : Transcript) (hps : ∀ p ∈ ps, p.1 < n ∧ p.2 ^ 2 ^ k = 1)
    (hz : chal F H t ^ 2 ^ M = 1) {ali : AliInstance F} (hali : ali.allMasks = ps.map toMask) :
    ali.calculateDeep H (tab n (fun r => mkPoly .coefficients k (P r).coeff))
        (tab n (fun r => mkPoly .values N (fun i => (P r).eval (genOf F N ^ i))))
        (mkPoly .coefficients K G.coeff) (mkPoly .values M (fun i => G.eval (genOf F M ^ i))) t w
      = .err .error := by
  have hpow : ∀ p ∈ ps, (p.2 * chal F H t) ^ 2 ^ N = chal F H t ^ 2 ^ N := by
    intro p hp
    rw [mul_pow]
    have : p.2 ^ 2 ^ N = 1 := by
      rw [show 2 ^ N = 2 ^ k * 2 ^ (N - k) by rw [← pow_add]; congr 1; omega, pow_mul, (hps p hp).2, one_pow]
    rw [this, one_mul]
  unfold AliInstance.calculateDeep
  simp only [getChallenge_ok H hch, Res.ok_bind, rd_tab hn, mkPoly_size, newForSizeValues_pow (hNM.trans hM), hali]
  by_cases hzN : chal F H t ^ 2 ^ N = 1
  · cases ps with
    | nil =>
      simp only [List.map_nil, forEach, Res.ok_bind, inverseLinear_eq w hM h1, if_pos hz, Res.pure_def]
      rfl
    | cons p ps =>
      have e : ∀ s, s.divisors = [] → deepMask H (tab n (fun r => mkPoly .coefficients k (P r).coeff))
        (tab n (fun r => mkPoly .values N (fun i => (P r).eval (genOf F N ^ i)))) (2 ^ N) (chal F H t) w (toMask p) s
          = .err .error := by
        intro s hs
        unfold deepMask toMask deepDivisor
        simp only [StepDifference.maskOf, Register.num, Res.ok_bind, Res.pure_def, rd_tab (hps p List.mem_cons_self).1, hs,
          assocGet, inverseLinear_eq w (hNM.trans hM) h1, hpow p List.mem_cons_self, if_pos hzN]
        rfl
      simp only [List.map_cons, forEach]
      rw [e _ rfl]
      rfl
  · obtain ⟨D, e⟩ := deepMasks_ok H hch w (hNM.trans hM) h1 hP ps (fun p hp => ⟨(hps p hp).1, by rw [hpow p hp]; exact hzN⟩)
      (fun _ => 0) [] (D := []) (by intro m d h; cases h) (nextT H t)
    simp only [e, Res.ok_bind, inverseLinear_eq w hM h1, if_pos hz]
    rfl

theorem afterBatches_eq (bs : List (ConstraintDensity × List (Constraint F))) (t : Transcript) :
    afterBatches H bs t = afterN H (bs.flatMap (fun b => b.2)).length t := by
  induction bs generalizing t with
  | nil => rfl
  | cons b bs ih =>
    obtain ⟨d, cs⟩ := b
    rw [afterBatches, ih, List.flatMap_cons, List.length_append, afterN_add]

theorem afterBatches_all (cs : List (Constraint F)) (t : Transcript) :
    afterBatches H (batchesOf cs) t = afterN H cs.length t := by
  rw [afterBatches_eq, (batchesOf_perm cs).length_eq]

/-- What `prove` does on a runnable instance, when `calculate_g` returns `G`. -/
theorem prove_run (w : Worker) {inst : InstanceProperties F} {n k f e o : ℕ} (h : Runnable inst n k f)
    (hp : RunParams F w k f e o) {witness : List (List F)} {P : ℕ → F[X]}
    (hw : calculateWitnessPolys (arpOf inst k) witness w = .ok (tab n (fun r => mkPoly .coefficients k (P r).coeff)))
    (hP : ∀ r, (P r).degree < (2 ^ k : ℕ))
    {G : F[X]} (hG : G.degree < (2 ^ (k + f) : ℕ))
    (hGv : ∀ i, i < 2 ^ (k + f) → G.eval (cosetPt F (k + f) i) =
      gFold H P (2 ^ f) (cosetPt F (k + f) i) (dinvAt (genOf F k) inst.numRows (cosetPt F (k + f) i))
        (batchesOf (arpOf inst k).constraints) (runT1 H n k e P) 0 +
      boundarySum P (2 ^ f) (genOf F k) (cosetPt F (k + f) i) (inst.boundaryConstraints.zip
        (pairsAt F H inst.boundaryConstraints.length (afterN H inst.constraints.length (runT1 H n k e P))))) :
    ∃ prover, Prover.new w inst (2 ^ e) (2 ^ o) = .ok prover ∧ ∃ (ps : List (ℕ × F)),
      masksOf (arpOf inst k) = ps.map toMask ∧
      (∀ p ∈ ps, p.1 < n ∧ p.2 ^ 2 ^ k = 1) ∧
      (prover.arp = arpOf inst k ∧ prover.ali.calculateG H (runT1 H n k e P) (tab n (fun r => mkPoly .coefficients k (P r).coeff)) w
        = .ok (mkPoly .coefficients (k + f) G.coeff,
          afterN H inst.boundaryConstraints.length (afterN H inst.constraints.length (runT1 H n k e P)))) ∧
      (runZ H inst n k f e P G ^ 2 ^ (k + f + e) = 1 → prover.prove H witness = .err .error) ∧
      (runZ H inst n k f e P G ^ 2 ^ (k + f + e) ≠ 1 → ∃ (Q1 Q2 : F[X]) (idx1 idx2 : ℕ),
        Q1.degree < (2 ^ k : ℕ) ∧ Q2.degree < (2 ^ (k + f) : ℕ) ∧
        (∀ i, Q1.eval (genOf F (k + e) ^ i) = deepAt P (runZ H inst n k f e P G)
          (ps.zip (runA H inst n k f e P G ps)) (genOf F (k + e) ^ i)) ∧
        (∀ i, Q2.eval (genOf F (k + f + e) ^ i) = deepGAt G (runZ H inst n k f e P G) (genOf F (k + f + e) ^ i)) ∧
        bytesToChallengeIndex (H (runT3 H inst n k f e o P G ps Q1 Q2).absorbed).bytes (2 ^ (k + e)) (2 ^ e) = .ok idx1 ∧
        bytesToChallengeIndex (H (nextT H (runT3 H inst n k f e o P G ps Q1 Q2)).absorbed).bytes (2 ^ (k + f + e)) (2 ^ e)
          = .ok idx2 ∧
        idx1 < 2 ^ (k + e) ∧ idx1 % 2 = 1 ∧ idx2 < 2 ^ (k + f + e) ∧ idx2 % 2 = 1 ∧
        prover.prove H witness = .ok (runProof H inst n k f e o P G ps Q1 Q2 idx1 idx2)) := by
  have hS := hp.size
  have hout := hp.out
  have hfac := hp.factor
  have h32 := hp.size32
  have h32' := hp.factor32
  obtain ⟨ali, e1, hali⟩ := h.fromArp w (by omega) hp.coset
  obtain ⟨ps, eps, hps⟩ := h.maskPairs (show k ≤ StarkField.S F by omega)
  have hab := afterBatches_all H (arpOf inst k).constraints (runT1 H n k e P)
  rw [show (arpOf inst k).constraints.length = inst.constraints.length by simp [arpOf]] at hab
  have e4 := calculateG_ok H w (by omega) (by omega) hp.lde1 (fun r _ => hP r) hp.challenge hali h.maxDeg h32 h.registers
    (fun c hc => ⟨h.constraintOk c hc, by obtain ⟨d, hd, -⟩ := h.dense c hc; exact ⟨d, hd⟩⟩) h.boundary (runT1 H n k e P) hG (by
      rw [hab]; exact hGv)
  rw [hab] at e4
  refine ⟨⟨arpOf inst k, ali, 2 ^ e, 2 ^ o, w⟩, ?_, ps, eps, hps, ⟨rfl, e4⟩, ?_⟩
  · unfold Prover.new
    rw [h.fromInstance (by omega), Res.ok_bind, e1, Res.ok_bind, Res.pure_def]
  have m1 : mapRes (fun q => q.lde w (2 ^ e)) (tab n (fun r => mkPoly .coefficients k (P r).coeff))
      = .ok (tab n (fun r => mkPoly .values (k + e) (fun i => (P r).eval (genOf F (k + e) ^ i)))) :=
    mapRes_tab _ _ _ _ (fun i _ => lde_poly w (by omega) (by omega) hp.lde2 (hP i))
  have m2 : mapRes (fun l : Poly F .values => IopTree.create H w l.coeffs)
      (tab n (fun r => mkPoly .values (k + e) (fun i => (P r).eval (genOf F (k + e) ^ i))))
      = .ok (tab n (fun r => friTree H (k + e) (P r) 0)) :=
    mapRes_tab _ _ _ _ (fun i _ => friTree_create H w (k + e) (P i) (i := 0) (by omega))
  have m3 : mapRes (fun o : IopTree => o.getRoot) (tab n (fun r => friTree H (k + e) (P r) 0))
      = .ok (tab n (fun r => friRoot H (k + e) (P r) 0)) :=
    mapRes_tab _ _ _ _ (fun i _ => friTree_root H (k + e) (P i) (i := 0) (by omega))
  have m4 := lde_poly w (k := k + f) (f := e) (by omega) (by omega) hp.lde2 hG
  have m5 : IopTree.create H w (mkPoly .values (k + f + e) (fun i => G.eval (genOf F (k + f + e) ^ i))).coeffs
      = .ok (friTree H (k + f + e) G 0) := friTree_create H w (k + f + e) G (i := 0) (by omega)
  have m6 := friTree_root H (k + f + e) G (i := 0) (by omega)
  have hnew : Transcript.new F = .ok ⟨[]⟩ := by
    unfold Transcript.new
    rw [decide_eq_true hp.challenge.1]; rfl
  constructor
  · intro hz
    have m7 := calculateDeep_err H hp.challenge w (k := k) (K := k + f) (N := k + e) (M := k + f + e) (by omega) hS (by omega)
      h.pos (by omega) hP (G := G) ps (runT2 H inst n k f e P G) hps hz (hali.masks.trans eps)
    unfold Prover.prove
    simp only [hnew, Res.ok_bind, hw, m1, m2, m3]
    have e4' : ali.calculateG H ((tab n (fun r => friRoot H (k + e) (P r) 0)).foldl (fun t r => t.commitBytes r.bytes) ⟨[]⟩)
      (tab n (fun r => mkPoly .coefficients k (P r).coeff)) w = _ := e4
    simp only [e4', Res.ok_bind, m4, m5, m6]
    erw [m7]
    rfl
  · intro hz
    have hzN : runZ H inst n k f e P G ^ 2 ^ (k + e) ≠ 1 := by
      intro hc
      apply hz
      rw [show 2 ^ (k + f + e) = 2 ^ (k + e) * 2 ^ f by rw [← pow_add]; congr 1; omega, pow_mul, hc, one_pow]
    have hpz : ∀ p ∈ ps, (p.2 * runZ H inst n k f e P G) ^ 2 ^ (k + e) ≠ 1 := by
      intro p hp'
      rw [mul_pow]
      have : p.2 ^ 2 ^ (k + e) = 1 := by rw [pow_add, pow_mul, (hps p hp').2, one_pow]
      rw [this, one_mul]
      exact hzN
    have m7 := calculateDeep_ok H hp.challenge w (k := k) (K := k + f) (N := k + e) (M := k + f + e) (by omega) hS (by omega)
      h.pos hP hG ps (runT2 H inst n k f e P G) (fun p hp' => ⟨(hps p hp').1, hpz p hp'⟩) hz (hali.masks.trans eps)
    obtain ⟨Q1, hQ1, hQ1v⟩ := exists_deep hP (by positivity) (runZ H inst n k f e P G) (ps.zip (runA H inst n k f e P G ps))
    obtain ⟨Q2, hQ2, hQ2v⟩ := exists_deepG hG (by positivity) (runZ H inst n k f e P G)
    have v1 : ∀ i, Q1.eval (genOf F (k + e) ^ i) = deepAt P (runZ H inst n k f e P G)
          (ps.zip (runA H inst n k f e P G ps)) (genOf F (k + e) ^ i) := by
      intro i
      apply hQ1v
      intro q hq
      exact sub_ne_zero.1 (domain_ne (by omega) (hpz _ (List.of_mem_zip hq).1) i)
    have v2 : ∀ i, Q2.eval (genOf F (k + f + e) ^ i) = deepGAt G (runZ H inst n k f e P G) (genOf F (k + f + e) ^ i) := by
      intro i
      apply hQ2v
      exact sub_ne_zero.1 (domain_ne hS hz i)
    have even : ∀ m, 1 ≤ m → 2 ^ m % 2 = 0 := by
      intro m hm
      exact Nat.mod_eq_zero_of_dvd (dvd_pow_self 2 (by omega))
    obtain ⟨idx1, i1, i1l, i1o⟩ := C23_index_odd (H (runT3 H inst n k f e o P G ps Q1 Q2).absorbed).bytes
      (by rw [(H _).len]; norm_num) (2 ^ (k + e)) (2 ^ e) (by positivity) (even _ (by omega)) (by positivity)
    obtain ⟨idx2, i2, i2l, i2o⟩ := C23_index_odd (H (nextT H (runT3 H inst n k f e o P G ps Q1 Q2)).absorbed).bytes
      (by rw [(H _).len]; norm_num) (2 ^ (k + f + e)) (2 ^ e) (by positivity) (even _ (by omega)) (by positivity)
    refine ⟨Q1, Q2, idx1, idx2, hQ1, hQ2, v1, v2, i1, i2, i1l, i1o, i2l, i2o, ?_⟩
    have q1 : Q1.degree < (2 ^ (k + e) : ℕ) := lt_of_lt_of_le hQ1 (by exact_mod_cast Nat.pow_le_pow_right (by norm_num) (by omega))
    have q2 : Q2.degree < (2 ^ (k + f + e) : ℕ) := lt_of_lt_of_le hQ2 (by exact_mod_cast Nat.pow_le_pow_right (by norm_num) (by omega))
    have w1 : mkPoly .values (k + e) (fun i => deepAt P (runZ H inst n k f e P G) (ps.zip (runA H inst n k f e P G ps))
        (genOf F (k + e) ^ i)) = mkPoly .values (k + e) (friVals (k + e) Q1) :=
      mkPoly_congr (fun i _ => (v1 i).symm)
    have w2 : mkPoly .values (k + f + e) (fun i => deepGAt G (runZ H inst n k f e P G) (genOf F (k + f + e) ^ i))
        = mkPoly .values (k + f + e) (friVals (k + f + e) Q2) :=
      mkPoly_congr (fun i _ => (v2 i).symm)
    have p1 := friProofByValues_eq H hp.challenge w (n := k + e) (f := e) (o := o) (by omega) (by omega) (by omega) h32' q1
    have p2 := friProofByValues_eq H hp.challenge w (n := k + f + e) (f := e) (o := o) (by omega) (by omega) (by omega) h32' q2
    have r1 := getRoots_honest H (n := k + e) (f := e) (o := o) (by omega) (by omega) Q1
    have r2 := getRoots_honest H (n := k + f + e) (f := e) (o := o) (by omega) (by omega) Q2
    have s1 := produceProof_honest H (n := k + e) (f := e) (o := o) (by omega) (by omega) (p := Q1) i1l
    have s2 := produceProof_honest H (n := k + f + e) (f := e) (o := o) (by omega) (by omega) (p := Q2) i2l
    have u1 : mapRes (fun o : IopTree × Poly F .values => o.1.query H idx1 o.2.coeffs)
        ((tab n (fun r => friTree H (k + e) (P r) 0)).zip
          (tab n (fun r => mkPoly .values (k + e) (fun i => (P r).eval (genOf F (k + e) ^ i)))))
        = .ok (tab n (fun r => friQuery H (k + e) (P r) 0 idx1)) := by
      rw [zip_tab, min_self]
      exact mapRes_tab _ _ _ _ (fun i _ => friTree_query H (k + e) (P i) (i := 0) (by omega) i1l)
    have u2 : (friTree H (k + f + e) G 0).query H idx2 (mkPoly .values (k + f + e) (fun i => G.eval (genOf F (k + f + e) ^ i))).coeffs
        = .ok (friQuery H (k + f + e) G 0 idx2) := friTree_query H (k + f + e) G (i := 0) (by omega) i2l
    change _ = Res.ok (⟨mkPoly .values (k + e) (fun i => deepAt P (runZ H inst n k f e P G)
      (ps.zip (runA H inst n k f e P G ps)) (genOf F (k + e) ^ i)),
      mkPoly .values (k + f + e) (fun i => deepGAt G (runZ H inst n k f e P G) (genOf F (k + f + e) ^ i)), _, _, _⟩ : DeepResult F) at m7
    rw [w1, w2] at m7
    unfold Prover.prove
    have e4' : ali.calculateG H ((tab n (fun r => friRoot H (k + e) (P r) 0)).foldl (fun t r => t.commitBytes r.bytes) ⟨[]⟩)
      (tab n (fun r => mkPoly .coefficients k (P r).coeff)) w = _ := e4
    simp only [hnew, Res.ok_bind, hw, m1, m2, m3, e4', m4, m5, m6]
    erw [m7]
    simp only [Res.ok_bind, p1, p2, r1, r2, mkPoly_size]
    erw [i1, Res.ok_bind]
    erw [i2, Res.ok_bind]
    simp only [s1, s2, u1, u2, Res.ok_bind]
    rfl

/-- What `prove` does on a suitable instance with a satisfying witness. -/
theorem prove_honest (w : Worker) {inst : InstanceProperties F} {n k f e o : ℕ} (h : Suitable inst n k f)
    (hp : RunParams F w k f e o) {witness : List (List F)} {P : ℕ → F[X]}
    (hw : calculateWitnessPolys (arpOf inst k) witness w = .ok (tab n (fun r => mkPoly .coefficients k (P r).coeff)))
    (hP : ∀ r, (P r).degree < (2 ^ k : ℕ))
    (hv : ∀ r, r < n → ∀ i, i < 2 ^ k → (P r).eval (genOf F k ^ i) = cell witness r i)
    (hsat : Satisfies inst (cellR witness) (2 ^ k)) :
    ∃ prover, Prover.new w inst (2 ^ e) (2 ^ o) = .ok prover ∧ ∃ (G : F[X]) (ps : List (ℕ × F)),
      G.degree < (2 ^ (k + f) : ℕ) ∧ masksOf (arpOf inst k) = ps.map toMask ∧
      (∀ p ∈ ps, p.1 < n ∧ p.2 ^ 2 ^ k = 1) ∧
      (∀ x, x ^ 2 ^ k ≠ 1 → G.eval x = compositionAt (genOf F k) inst.numRows (2 ^ f) (pointEnv P x)
        ((arpOf inst k).constraints.zip (pairsAt F H inst.constraints.length (runT1 H n k e P)))
        (inst.boundaryConstraints.zip (pairsAt F H inst.boundaryConstraints.length
          (afterN H inst.constraints.length (runT1 H n k e P)))) x) ∧
      (prover.arp = arpOf inst k ∧ prover.ali.calculateG H (runT1 H n k e P) (tab n (fun r => mkPoly .coefficients k (P r).coeff)) w
        = .ok (mkPoly .coefficients (k + f) G.coeff,
          afterN H inst.boundaryConstraints.length (afterN H inst.constraints.length (runT1 H n k e P)))) ∧
      (runZ H inst n k f e P G ^ 2 ^ (k + f + e) = 1 → prover.prove H witness = .err .error) ∧
      (runZ H inst n k f e P G ^ 2 ^ (k + f + e) ≠ 1 → ∃ (Q1 Q2 : F[X]) (idx1 idx2 : ℕ),
        Q1.degree < (2 ^ k : ℕ) ∧ Q2.degree < (2 ^ (k + f) : ℕ) ∧
        (∀ i, Q1.eval (genOf F (k + e) ^ i) = deepAt P (runZ H inst n k f e P G)
          (ps.zip (runA H inst n k f e P G ps)) (genOf F (k + e) ^ i)) ∧
        (∀ i, Q2.eval (genOf F (k + f + e) ^ i) = deepGAt G (runZ H inst n k f e P G) (genOf F (k + f + e) ^ i)) ∧
        bytesToChallengeIndex (H (runT3 H inst n k f e o P G ps Q1 Q2).absorbed).bytes (2 ^ (k + e)) (2 ^ e) = .ok idx1 ∧
        bytesToChallengeIndex (H (nextT H (runT3 H inst n k f e o P G ps Q1 Q2)).absorbed).bytes (2 ^ (k + f + e)) (2 ^ e)
          = .ok idx2 ∧
        idx1 < 2 ^ (k + e) ∧ idx1 % 2 = 1 ∧ idx2 < 2 ^ (k + f + e) ∧ idx2 % 2 = 1 ∧
        prover.prove H witness = .ok (runProof H inst n k f e o P G ps Q1 Q2 idx1 idx2)) := by
  have hS := hp.size
  have h1 := hp.factor
  have h32 := hp.size32
  obtain ⟨ali, e1, hali⟩ := h.fromArp w (by omega) hp.coset
  obtain ⟨G, hG, hGv⟩ := composition_exists H h (by omega) hP hv hsat (runT1 H n k e P)
  obtain ⟨prover, ep, ps, eps, hps, hr, hbad, hgood⟩ := prove_run H w h.runnable hp hw hP hG
    (fun i _ => composition_coset H h (by omega) hp.coset hGv i)
  exact ⟨prover, ep, G, ps, hG, eps, hps, hGv, hr, hbad, hgood⟩

end Hodor

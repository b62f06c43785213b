import Verif.Lemmas.StarkHV
import Verif.Lemmas.ProveOutcome

/-!
# C43-C46: DEEP, challenges, completeness and soundness of the whole proof system
-/

namespace Hodor

open Polynomial Finset Spec

variable {F : Type} [Field F] [DecidableEq F] [StarkField F] (H : List UInt8 → Digest)

/-! ### C43: DEEP -/

/-- **C43.** For every suitable instance, every witness table (satisfying or not), every polynomial `G` below the size of the
constraints domain, every transcript and CPU count — when the drawn point `z` is not in the largest
LDE domain — the two words returned by the prover's `calculate_deep` are evaluations of polynomials of degree below the number of rows
and below the size of the constraints domain, the returned out-of-domain values are those of the registers at `z` times the masks, and at *every* index the
verifier, given the opened values of the registers (of `G`), the out-of-domain values and the mask challenges drawn from the same
transcript, computes exactly the word's value at that index. -/
theorem C43_deep_matches_verifier (w : Worker) (inst : InstanceProperties F) (n k f e o : ℕ) (h : Suitable inst n k f)
    (hp : RunParams F w k f e o) (witness : List (List F)) (hw : IsTable witness n (2 ^ k))
    (G : F[X]) (hG : G.degree < (2 ^ (k + f) : ℕ)) (t t1 : Transcript) (z : F) (hz : t.getChallenge H = .ok (z, t1))
    (hz1 : z ^ 2 ^ (k + f + e) ≠ 1) :
    ∃ arp ali v ps fLdes gPoly gLde r αs fDom gDom,
      fromInstance inst = .ok arp ∧ AliInstance.fromArp arp w = .ok ali ∧ Verifier.new inst (2 ^ e) = .ok v ∧
      calculateWitnessPolys arp witness w = .ok ps ∧ mapRes (fun p => p.lde w (2 ^ e)) ps = .ok fLdes ∧
      Poly.fromCoeffs (tab (2 ^ (k + f)) G.coeff) = .ok gPoly ∧ gPoly.lde w (2 ^ e) = .ok gLde ∧
      Domain.newForSize F (2 ^ (k + e)) = .ok fDom ∧ Domain.newForSize F (2 ^ (k + f + e)) = .ok gDom ∧
      ali.calculateDeep H ps fLdes gPoly gLde t w = .ok r ∧
      forEach v.allMasks ([], t1) (fun _ s => drawOne H s) = .ok (αs, r.transcript) ∧
      r.fAtZM = v.allMasks.map (fun m => polyEnv w ps z m.register m.stepsDifference) ∧ r.gAtZ = G.eval z ∧
      (∃ Q1 : F[X], Q1.degree < (2 ^ k : ℕ) ∧ Codeword Q1 fDom.generator (2 ^ (k + e)) r.h1.coeffs) ∧
      (∃ Q2 : F[X], Q2.degree < (2 ^ (k + f) : ℕ) ∧ Codeword Q2 gDom.generator (2 ^ (k + f + e)) r.h2.coeffs) ∧
      (∀ idx, idx < 2 ^ (k + e) → ∃ opened x, mapRes (fun l => rd l.coeffs idx) fLdes = .ok opened ∧
        rd r.h1.coeffs idx = .ok x ∧ v.simulateH1 αs idx fDom opened r.fAtZM z = .ok x) ∧
      (∀ idx, idx < 2 ^ (k + f + e) → ∃ opened x, rd gLde.coeffs idx = .ok opened ∧
        rd r.h2.coeffs idx = .ok x ∧ simulateH2 idx gDom opened z r.gAtZ = .ok x) := by
  have hS := hp.size
  have h32 := hp.size32
  have hfac := hp.factor
  have hout := hp.out
  have hch : ChallengeOk F := hp.challenge
  rw [getChallenge_ok H hch] at hz
  obtain ⟨rfl, rfl⟩ : chal F H t = z ∧ nextT H t = t1 := by cases hz; exact ⟨rfl, rfl⟩
  obtain ⟨ali, e1, hali⟩ := h.fromArp w (by omega) hp.coset
  obtain ⟨ps, eps, hps⟩ := h.maskPairs (show k ≤ StarkField.S F by omega)
  obtain ⟨P, e2, hP, h0, hv⟩ := witnessPolys_ok w (inst := arpOf inst k) h.pos hw (by omega) (by omega) h.registers h.rows
  obtain ⟨v, e3, hver⟩ := h.newVerifier (by omega) (2 ^ e)
  have hzN : chal F H t ^ 2 ^ (k + e) ≠ 1 := by
    intro hc
    apply hz1
    rw [show 2 ^ (k + f + e) = 2 ^ (k + e) * 2 ^ f by rw [← pow_add]; congr 1; omega, pow_mul, hc, one_pow]
  have hpz : ∀ p ∈ ps, p.1 < n ∧ (p.2 * chal F H t) ^ 2 ^ (k + e) ≠ 1 := by
    intro p hp'
    refine ⟨(hps p hp').1, ?_⟩
    rw [mul_pow]
    have : p.2 ^ 2 ^ (k + e) = 1 := by rw [pow_add, pow_mul, (hps p hp').2, one_pow]
    rw [this, one_mul]
    exact hzN
  have m1 : mapRes (fun q => q.lde w (2 ^ e)) (tab n (fun r => mkPoly .coefficients k (P r).coeff))
      = .ok (tab n (fun r => mkPoly .values (k + e) (fun i => (P r).eval (genOf F (k + e) ^ i)))) :=
    mapRes_tab _ _ _ _ (fun i _ => lde_poly w (by omega) (by omega) hp.lde2 (hP i))
  have m7 := calculateDeep_ok H hch w (k := k) (K := k + f) (N := k + e) (M := k + f + e) (by omega) hS (by omega)
    h.pos hP hG ps t hpz hz1 (hali.masks.trans eps)
  have hm : v.allMasks = ps.map toMask := hver.masks.trans eps
  have c3 := drawOnes_ok H hch (ps.map toMask) [] (nextT H t)
  rw [List.length_map, List.nil_append] at c3
  obtain ⟨Q1, hQ1, hQ1v⟩ := exists_deep hP (by positivity) (chal F H t) (ps.zip (singlesAt F H ps.length (nextT H t)))
  obtain ⟨Q2, hQ2, hQ2v⟩ := exists_deepG hG (by positivity) (chal F H t)
  have v1 : ∀ i, Q1.eval (genOf F (k + e) ^ i) = deepAt P (chal F H t)
        (ps.zip (singlesAt F H ps.length (nextT H t))) (genOf F (k + e) ^ i) := by
    intro i
    apply hQ1v
    intro q hq
    exact sub_ne_zero.1 (domain_ne (by omega) (hpz _ (List.of_mem_zip hq).1).2 i)
  have v2 : ∀ i, Q2.eval (genOf F (k + f + e) ^ i) = deepGAt G (chal F H t) (genOf F (k + f + e) ^ i) := by
    intro i
    apply hQ2v
    exact sub_ne_zero.1 (domain_ne hS hz1 i)
  refine ⟨arpOf inst k, ali, v, _, _, _, _, _, _, domOf F (k + e), domOf F (k + f + e), h.fromInstance (by omega), e1, e3, e2, m1,
    fromCoeffs_pow (by omega) _, lde_poly w hS h32 hp.lde2 hG, newForSize_pow (by omega), newForSize_pow hS, m7,
    by rw [hm]; exact c3, ?_, rfl, ⟨Q1, hQ1, ?_⟩, ⟨Q2, hQ2, ?_⟩, ?_, ?_⟩
  · rw [hm, polyEnv_eq w hP h0, List.map_map]
    rfl
  · refine ⟨by simp, ?_⟩
    intro i hi
    simp only [mkPoly_coeffs, getElem?_tab, if_pos hi]
    rw [← v1]; rfl
  · refine ⟨by simp, ?_⟩
    intro i hi
    simp only [mkPoly_coeffs, getElem?_tab, if_pos hi]
    rw [← v2]; rfl
  · intro idx hi
    refine ⟨tab n (fun r => (P r).eval (genOf F (k + e) ^ idx)), _, mapRes_tab _ _ _ _ (fun r _ => by rw [mkPoly_coeffs, rd_tab hi]),
      by rw [mkPoly_coeffs, rd_tab hi], ?_⟩
    exact simulateH1_ok v (by omega) P ps hpz hm _ idx
  · intro idx hi
    refine ⟨_, _, by rw [mkPoly_coeffs, rd_tab hi], by rw [mkPoly_coeffs, rd_tab hi], ?_⟩
    exact simulateH2_ok hS G hz1 idx

/-- **C43** (the other case): when `z` lies in the LDE domain of `g`, `calculate_deep` returns an error (it does not panic and returns no
words). -/
theorem C43_bad_point (w : Worker) (inst : InstanceProperties F) (n k f e o : ℕ) (h : Suitable inst n k f)
    (hp : RunParams F w k f e o) (witness : List (List F)) (hw : IsTable witness n (2 ^ k))
    (G : F[X]) (hG : G.degree < (2 ^ (k + f) : ℕ)) (t t1 : Transcript) (z : F) (hz : t.getChallenge H = .ok (z, t1))
    (hz1 : z ^ 2 ^ (k + f + e) = 1) :
    ∃ arp ali ps fLdes gPoly gLde,
      fromInstance inst = .ok arp ∧ AliInstance.fromArp arp w = .ok ali ∧
      calculateWitnessPolys arp witness w = .ok ps ∧ mapRes (fun p => p.lde w (2 ^ e)) ps = .ok fLdes ∧
      Poly.fromCoeffs (tab (2 ^ (k + f)) G.coeff) = .ok gPoly ∧ gPoly.lde w (2 ^ e) = .ok gLde ∧
      ali.calculateDeep H ps fLdes gPoly gLde t w = .err .error := by
  have hS := hp.size
  have h32 := hp.size32
  have hfac := hp.factor
  have hout := hp.out
  have hch : ChallengeOk F := hp.challenge
  rw [getChallenge_ok H hch] at hz
  obtain ⟨rfl, rfl⟩ : chal F H t = z ∧ nextT H t = t1 := by cases hz; exact ⟨rfl, rfl⟩
  obtain ⟨ali, e1, hali⟩ := h.fromArp w (by omega) hp.coset
  obtain ⟨ps, eps, hps⟩ := h.maskPairs (show k ≤ StarkField.S F by omega)
  obtain ⟨P, e2, hP, h0, hv⟩ := witnessPolys_ok w (inst := arpOf inst k) h.pos hw (by omega) (by omega) h.registers h.rows
  exact ⟨arpOf inst k, ali, _, _, _, _, h.fromInstance (by omega), e1, e2,
    mapRes_tab _ _ _ _ (fun i _ => lde_poly w (by omega) (by omega) hp.lde2 (hP i)),
    fromCoeffs_pow (by omega) _, lde_poly w hS h32 hp.lde2 hG,
    calculateDeep_err H hch w (k := k) (K := k + f) (N := k + e) (M := k + f + e) (by omega) hS (by omega)
      h.pos (by omega) hP (G := G) ps t hps hz1 (hali.masks.trans eps)⟩

/-! ### C44: challenges -/

/-- **C44, what the challenges mean** (suitable instances; `C44_same_challenges` in `ProverChallenges.lean` is for all). Whenever `prove` returns a proof for a satisfying
witness, the verifier derives from that proof challenges `ch` which are the prover's: the prover's `calculate_g` returned the composition
with `ch`'s constraint and boundary challenges; the out-of-domain values in the proof are the registers at `ch.z` times the masks; the
first FRI roots commit to words `h1`, `h2` that at every index are the DEEP combination with `ch`'s mask challenges and `ch.z`;
and the opened positions are `ch.idx1` for all registers and `ch.idx2` for `g`. -/
theorem C44_challenge_meaning (w : Worker) (inst : InstanceProperties F) (n k f e o : ℕ) (h : Suitable inst n k f)
    (hp : RunParams F w k f e o) (witness : List (List F)) (hw : IsTable witness n (2 ^ k))
    (hsat : Satisfies inst (cellR witness) (2 ^ k)) (prover : Prover F)
    (hprover : Prover.new w inst (2 ^ e) (2 ^ o) = .ok prover) (v : Verifier F) (hver : Verifier.new inst (2 ^ e) = .ok v)
    (proof : InstanceProof F) (hproof : prover.prove H witness = .ok proof) :
    ∃ ch fDom gDom dom ps G fLdes gLde gTree h1 h2 tree1 tree2 root1 root2,
      v.deriveChallenges H proof = .ok (ch, fDom, gDom) ∧
      Domain.newForSize F (2 ^ k) = .ok dom ∧
      calculateWitnessPolys prover.arp witness w = .ok ps ∧ mapRes (fun p => p.lde w (2 ^ e)) ps = .ok fLdes ∧
      (∃ t', prover.ali.calculateG H (afterRoots proof.fIopRoots) ps w = .ok (G, t')) ∧
      (∀ x, x ^ 2 ^ k ≠ 1 → G.evaluateAt w x = compositionAt dom.generator (2 ^ k) (2 ^ f) (polyEnv w ps x)
        (prover.arp.constraints.zip ch.constraintChallenges) (prover.arp.boundaryConstraints.zip ch.boundaryChallenges) x) ∧
      G.lde w (2 ^ e) = .ok gLde ∧ IopTree.create H w gLde.coeffs = .ok gTree ∧ gTree.getRoot = .ok proof.gIopRoot ∧
      proof.fAtZM = v.allMasks.map (fun m => polyEnv w ps ch.z m.register m.stepsDifference) ∧
      (IopTree.create H w h1 = .ok tree1 ∧ tree1.getRoot = .ok root1 ∧ proof.friProofH1.roots.head? = some root1 ∧
        proof.h1IopRoots.head? = some root1 ∧ h1.length = 2 ^ (k + e) ∧
        ∀ idx, idx < 2 ^ (k + e) → ∃ opened x, mapRes (fun l => rd l.coeffs idx) fLdes = .ok opened ∧
          rd h1 idx = .ok x ∧ v.simulateH1 ch.h1Challenges idx fDom opened proof.fAtZM ch.z = .ok x) ∧
      (IopTree.create H w h2 = .ok tree2 ∧ tree2.getRoot = .ok root2 ∧ proof.friProofH2.roots.head? = some root2 ∧
        proof.h2IopRoots.head? = some root2 ∧ h2.length = 2 ^ (k + f + e) ∧
        ∀ idx, idx < 2 ^ (k + f + e) → ∃ opened x, rd gLde.coeffs idx = .ok opened ∧
          rd h2 idx = .ok x ∧ simulateH2 idx gDom opened ch.z (G.evaluateAt w ch.z) = .ok x) ∧
      proof.fQueries.map (fun q => q.index) = List.replicate n ch.idx1 ∧ proof.gQuery.index = ch.idx2 := by
  have hS := hp.size
  have h32 := hp.size32
  have hfac := hp.factor
  have hout := hp.out
  have hch : ChallengeOk F := hp.challenge
  obtain ⟨P, e2, hP, h0, hv⟩ := witnessPolys_ok w (inst := arpOf inst k) h.pos hw (by omega) (by omega) h.registers h.rows
  obtain ⟨v', e3, hver'⟩ := h.newVerifier (by omega) (2 ^ e)
  rw [hver] at e3
  cases e3
  obtain ⟨prover', ep, G, ps, hG, eps, hps, hGv, ⟨earp, eg⟩, hbad, hgood⟩ := prove_honest H w h hp e2 hP hv hsat
  rw [hprover] at ep
  cases ep
  have hz : runZ H inst n k f e P G ^ 2 ^ (k + f + e) ≠ 1 := by
    intro hc
    rw [hbad hc] at hproof
    cases hproof
  obtain ⟨Q1, Q2, idx1, idx2, hQ1, hQ2, v1, v2, i1, i2, i1l, i1o, i2l, i2o, epr⟩ := hgood hz
  rw [epr] at hproof
  cases hproof
  have hzN : runZ H inst n k f e P G ^ 2 ^ (k + e) ≠ 1 := by
    intro hc
    apply hz
    rw [show 2 ^ (k + f + e) = 2 ^ (k + e) * 2 ^ f by rw [← pow_add]; congr 1; omega, pow_mul, hc, one_pow]
  have hpz : ∀ p ∈ ps, p.1 < n ∧ (p.2 * runZ H inst n k f e P G) ^ 2 ^ (k + e) ≠ 1 := by
    intro p hp'
    refine ⟨(hps p hp').1, ?_⟩
    rw [mul_pow]
    have : p.2 ^ 2 ^ (k + e) = 1 := by rw [pow_add, pow_mul, (hps p hp').2, one_pow]
    rw [this, one_mul]
    exact hzN
  have hm : v.allMasks = ps.map toMask := hver'.masks.trans eps
  have hlde := lde_poly w (k := k + f) (f := e) hS h32 hp.lde2 hG
  refine ⟨_, _, _, domOf F k, _, _, _, _, friTree H (k + f + e) G 0, tab (2 ^ (k + e)) (friVals (k + e) Q1),
    tab (2 ^ (k + f + e)) (friVals (k + f + e) Q2), friTree H (k + e) Q1 0, friTree H (k + f + e) Q2 0,
    friRoot H (k + e) Q1 0, friRoot H (k + f + e) Q2 0, derive_honest H h hp hver' eps i1 i2, newForSize_pow (by omega),
    by rw [earp]; exact e2, mapRes_tab _ _ _ _ (fun i _ => lde_poly w (by omega) (by omega) hp.lde2 (hP i)), ⟨_, eg⟩, ?_,
    hlde, friTree_create H w (k + f + e) G (i := 0) (by omega), friTree_root H (k + f + e) G (i := 0) (by omega), ?_,
    ⟨friTree_create H w (k + e) Q1 (i := 0) (by omega), friTree_root H (k + e) Q1 (i := 0) (by omega), ?_, ?_, by simp, ?_⟩,
    ⟨friTree_create H w (k + f + e) Q2 (i := 0) (by omega), friTree_root H (k + f + e) Q2 (i := 0) (by omega), ?_, ?_, by simp, ?_⟩,
    ?_, rfl⟩
  · intro x hx
    rw [polyEnv_eq w hP h0, evaluateAt_poly w (k + f) hG, hGv x hx, h.rows, earp]
    rfl
  · rw [hm, polyEnv_eq w hP h0, List.map_map]
    rfl
  · simp only [runProof, honestProof, tab_succ', List.head?_cons]
  · simp only [runProof, tab_succ', List.head?_cons]
  · intro idx hi
    refine ⟨tab n (fun r => (P r).eval (genOf F (k + e) ^ idx)), _, mapRes_tab _ _ _ _ (fun r _ => by rw [mkPoly_coeffs, rd_tab hi]),
      rd_tab hi, ?_⟩
    exact (simulateH1_ok v (by omega) P ps hpz hm _ idx).trans (congrArg Res.ok (v1 idx).symm)
  · simp only [runProof, honestProof, tab_succ', List.head?_cons]
  · simp only [runProof, tab_succ', List.head?_cons]
  · intro idx hi
    refine ⟨_, _, by rw [mkPoly_coeffs, rd_tab hi], rd_tab hi, ?_⟩
    rw [evaluateAt_poly w (k + f) hG]
    exact (simulateH2_ok hS G hz idx).trans (congrArg Res.ok (v2 idx).symm)
  · simp only [runProof, friQuery, map_tab, replicate_eq_tab]

/-! ### C45: completeness -/

/-- On a suitable instance and a satisfying witness, `prove` fails or returns a proof which `verify` accepts. -/
theorem honest_accepted (w : Worker) (inst : InstanceProperties F) (n k f e : ℕ) (h : Suitable inst n k f)
    (hp : RunParams F w k f e 0) (witness : List (List F)) (hw : IsTable witness n (2 ^ k))
    (hsat : Satisfies inst (cellR witness) (2 ^ k)) :
    ∃ prover v, Prover.new w inst (2 ^ e) 1 = .ok prover ∧ Verifier.new inst (2 ^ e) = .ok v ∧
      ((∃ proof, prover.prove H witness = .ok proof ∧ v.verify H proof = .ok true) ∨ prover.prove H witness = .err .error) := by
  have hS := hp.size
  have h32 := hp.size32
  have hfac : 1 ≤ e := hp.factor
  have hout := hp.out
  have hch : ChallengeOk F := hp.challenge
  obtain ⟨P, e2, hP, h0, hv⟩ := witnessPolys_ok w (inst := arpOf inst k) h.pos hw (by omega) (by omega) h.registers h.rows
  obtain ⟨v, e3, hver⟩ := h.newVerifier (by omega) (2 ^ e)
  obtain ⟨prover, ep, G, ps, hG, eps, hps, hGv, -, hbad, hgood⟩ := prove_honest H w h hp e2 hP hv hsat
  rw [pow_zero] at ep
  refine ⟨prover, v, ep, e3, ?_⟩
  by_cases hz : runZ H inst n k f e P G ^ 2 ^ (k + f + e) = 1
  · exact .inr (hbad hz)
  · obtain ⟨Q1, Q2, idx1, idx2, hQ1, hQ2, v1, v2, i1, i2, i1l, i1o, i2l, i2o, epr⟩ := hgood hz
    refine .inl ⟨_, epr, ?_⟩
    rw [verify_honest_run H h hp hver eps hps hGv hz v1 v2 i1 i2 i1l i2l,
      fri_accepts H hch (by omega) (by omega) hfac (by rw [Nat.add_sub_cancel]; exact hQ1) i1l i1o]
    simp only [Res.ok_bind, Bool.true_eq_false, if_false]
    exact fri_accepts H hch (by omega) (by omega) hfac (by rw [Nat.add_sub_cancel]; exact hQ2) i2l i2o

/-- **C45** (partial: suitable instances — one density —, one final FRI coefficient, parameters without defect). For every such
instance, every satisfying witness, every hash function and CPU count: prover and verifier can be made, and with `z` the out-of-domain point which `prove` draws from its
transcript, `prove` returns an error if `z` lies in the LDE domain of `g`, and otherwise a proof, which `verify` accepts. -/
theorem C45_complete_partial (w : Worker) (inst : InstanceProperties F) (n k f e : ℕ) (h : Suitable inst n k f)
    (hp : RunParams F w k f e 0) (witness : List (List F)) (hw : IsTable witness n (2 ^ k))
    (hsat : Satisfies inst (cellR witness) (2 ^ k)) :
    ∃ prover v z, Prover.new w inst (2 ^ e) 1 = .ok prover ∧ Verifier.new inst (2 ^ e) = .ok v ∧ OpenedAt H prover w witness e z ∧
      (z ^ 2 ^ (k + f + e) = 1 → prover.prove H witness = .err .error) ∧
      (z ^ 2 ^ (k + f + e) ≠ 1 → ∃ proof, prover.prove H witness = .ok proof ∧ v.verify H proof = .ok true) := by
  obtain ⟨prover, v, e1, e2, h'⟩ := honest_accepted H w inst n k f e h hp witness hw hsat
  obtain ⟨prover', z, e3, hz, hbad, hgood, -⟩ := prove_outcome H w inst n k f e 0 h.runnable hp.prover witness hw
  rw [pow_zero, e1] at e3
  cases e3
  refine ⟨prover, v, z, e1, e2, hz, hbad, fun hz => ?_⟩
  obtain ⟨proof, e4⟩ := hgood hz hp.out
  rcases h' with h' | h'
  · exact h'
  · rw [e4] at h'; cases h'

/-- **C45** in the form of the property: whenever `prove` returns `Ok`, `verify` returns `Ok(true)`. -/
theorem C45_prove_ok_verify_ok_partial (w : Worker) (inst : InstanceProperties F) (n k f e : ℕ) (h : Suitable inst n k f)
    (hp : RunParams F w k f e 0) (witness : List (List F)) (hw : IsTable witness n (2 ^ k))
    (hsat : Satisfies inst (cellR witness) (2 ^ k)) (prover : Prover F) (v : Verifier F)
    (hprover : Prover.new w inst (2 ^ e) 1 = .ok prover) (hver : Verifier.new inst (2 ^ e) = .ok v)
    (proof : InstanceProof F) (hproof : prover.prove H witness = .ok proof) : v.verify H proof = .ok true := by
  obtain ⟨prover', v', e1, e2, h'⟩ := honest_accepted H w inst n k f e h hp witness hw hsat
  rw [hprover] at e1
  rw [hver] at e2
  cases e1
  cases e2
  rcases h' with ⟨proof', e3, e4⟩ | e3
  · rw [hproof] at e3
    cases e3
    exact e4
  · rw [hproof] at e3
    cases e3

/-! ### C45: a concrete run, and where completeness fails -/

/-- Prove and verify with the toy hash over the field of 257 elements. -/
def proveVerify (inst : InstanceProperties Fr) (witness : List (List Fr)) (w : Worker) (factor output : ℕ) : Res Bool := do
  let prover ← Prover.new w inst factor output
  let v ← Verifier.new inst factor
  let proof ← prover.prove toyHash witness
  v.verify toyHash proof

/-- The hypotheses of C43-C45 are met by Fibonacci with four rows, factor 2, one final coefficient, on 1 and on 2 CPUs; its
`prove` returns a proof and the proof is accepted. -/
example : Suitable (fibInst Fr 2 1 1) 2 2 0 ∧ IsTable [[(1 : Fr), 1, 2, 3], [1, 2, 3, 5]] 2 (2 ^ 2) ∧
    Satisfies (fibInst Fr 2 1 1) (cellR [[1, 1, 2, 3], [1, 2, 3, 5]]) (2 ^ 2) ∧
    RunParams Fr ⟨1, by norm_num⟩ 2 0 1 0 ∧ RunParams Fr ⟨2, by norm_num⟩ 2 0 1 0 ∧
    proveVerify (fibInst Fr 2 1 1) [[1, 1, 2, 3], [1, 2, 3, 5]] ⟨1, by norm_num⟩ 2 1 = .ok true ∧
    proveVerify (fibInst Fr 2 1 1) [[1, 1, 2, 3], [1, 2, 3, 5]] ⟨2, by norm_num⟩ 2 1 = .ok true := by
  have h := fibInst_suitable (F := Fr) 2 (by norm_num) 1 1
  have ht : IsTable [[(1 : Fr), 1, 2, 3], [1, 2, 3, 5]] 2 (2 ^ 2) := ⟨rfl, by decide⟩
  refine ⟨h, ht, ?_, ⟨by decide, by norm_num, by norm_num, by norm_num, by norm_num, .inl rfl, .inl rfl, by decide +kernel, by decide +kernel⟩,
    ⟨by decide, by norm_num, by norm_num, by norm_num, by norm_num, .inr (by norm_num), .inr (by norm_num), by decide +kernel, by decide +kernel⟩,
    by decide +kernel, by decide +kernel⟩
  exact ((C33_is_satisfied_iff _ _ 2 (2 ^ 2) (by norm_num) ht h.wellFormed).1).1 (by decide +kernel)

/-- **C45 is false for two final FRI coefficients**: the proof of a satisfied instance is rejected (C27). -/
theorem C45_two_coefficients_rejected :
    isSatisfied (fibInst Fr 2 1 1) [[1, 1, 2, 3], [1, 2, 3, 5]] = .ok () ∧
    proveVerify (fibInst Fr 2 1 1) [[1, 1, 2, 3], [1, 2, 3, 5]] ⟨1, by norm_num⟩ 2 2 = .ok false := by decide +kernel

/-- **C45 is false for two densities**: the proof of a satisfied instance is rejected (C41), though each constraint alone
is fine. -/
theorem C45_two_densities_rejected :
    isSatisfied (mixedInst [doubling, quadrupling]) [[1, 2, 4, 8]] = .ok () ∧
    proveVerify (mixedInst [doubling, quadrupling]) [[1, 2, 4, 8]] ⟨1, by norm_num⟩ 2 1 = .ok false ∧
    proveVerify (mixedInst [doubling]) [[1, 2, 4, 8]] ⟨1, by norm_num⟩ 2 1 = .ok true ∧
    proveVerify (mixedInst [quadrupling]) [[1, 2, 4, 8]] ⟨1, by norm_num⟩ 2 1 = .ok true := by decide +kernel

/-- **C45 is false for a large factor on several CPUs**: with factor 4 on two CPUs (C09) the proof is not accepted, on one CPU it is. -/
theorem C45_large_factor_rejected :
    isSatisfied (fibInst Fr 2 1 1) [[1, 1, 2, 3], [1, 2, 3, 5]] = .ok () ∧
    proveVerify (fibInst Fr 2 1 1) [[1, 1, 2, 3], [1, 2, 3, 5]] ⟨2, by norm_num⟩ 4 1 ≠ .ok true ∧
    proveVerify (fibInst Fr 2 1 1) [[1, 1, 2, 3], [1, 2, 3, 5]] ⟨1, by norm_num⟩ 4 1 = .ok true := by decide +kernel

end Hodor

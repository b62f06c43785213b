import Verif.Lemmas.StarkHV

/-!
# An attacker against the verifier

`forge` is not part of the repository: it is an adversary written with the functions of the model. It takes
any witness table (satisfying or not) and any coefficients for `g`, and uses that `verify_proof` does not check the number of
rounds and of final coefficients (`C29_any_word_accepted`).
-/

namespace Hodor

open Polynomial Finset Spec

variable {F : Type} [Field F] [DecidableEq F] [StarkField F] (H : List UInt8 → Digest)

/-- The out-of-domain values of the committed registers, as the verifier expects them. -/
def forgeOpenings (v : Verifier F) (w : Worker) (ps : List (Poly F .coefficients)) (z : F) : Res (List F) :=
  mapRes (fun m : MaskProperties F => do
    let mask ← m.stepsDifference.maskOf
    let r ← m.register.num
    let p ← rd ps r
    pure (p.evaluateAt w (mask * z))) v.allMasks

/-- The word the verifier expects for `h1`. -/
def forgeH1 (v : Verifier F) (fDom : Domain F) (fLdes : List (Poly F .values)) (αs fAtZM : List F) (z : F) :
    Res (List F) :=
  collectN fDom.size (fun i => do
    let opened ← mapRes (fun l : Poly F .values => rd l.coeffs i) fLdes
    v.simulateH1 αs i fDom opened fAtZM z)

/-- The word the verifier expects for `h2`. -/
def forgeH2 (gDom : Domain F) (gLde : Poly F .values) (z gAtZ : F) : Res (List F) :=
  collectN gDom.size (fun i => do
    let x ← rd gLde.coeffs i
    simulateH2 i gDom x z gAtZ)

/-- A FRI proof of one round, with as many final coefficients as half of the word. -/
def forgeFri (proof : FriProof F) (root : Digest) (degree factor : ℕ) : FriProof F :=
  ⟨proof.queries.take 2, [root], proof.finalCoefficients, degree, 1, factor⟩

/-- The point the attacker draws after it has committed to the registers and to `gs`. -/
def forgePoint (w : Worker) (inst : InstanceProperties F) (ldeFactor : ℕ) (witness : List (List F)) (gs : List F) : Res F := do
  let v ← Verifier.new inst ldeFactor
  let arp ← fromInstance inst
  let t ← Transcript.new F
  let ps ← calculateWitnessPolys arp witness w
  let fLdes ← mapRes (fun q => q.lde w ldeFactor) ps
  let fOracles ← mapRes (fun l => IopTree.create H w l.coeffs) fLdes
  let fIopRoots ← mapRes (fun o => o.getRoot) fOracles
  let t := fIopRoots.foldl (fun t r => t.commitBytes r.bytes) t
  let (_, t) ← forEach v.constraintsBatchedByDensity (([] : List (F × F)), t) (fun b s => forEach b.2 s (fun _ s => drawPair H s))
  let (_, t) ← forEach v.inst.boundaryConstraints (([] : List (F × F)), t) (fun _ s => drawPair H s)
  let gPoly ← Poly.fromCoeffs gs
  let gLde ← gPoly.lde w ldeFactor
  let gOracle ← IopTree.create H w gLde.coeffs
  let gIopRoot ← gOracle.getRoot
  let (z, _) : F × Transcript ← (t.commitBytes gIopRoot.bytes).getChallenge H
  pure z

/-- The attacker. -/
def forge (w : Worker) (inst : InstanceProperties F) (ldeFactor : ℕ) (witness : List (List F)) (gs : List F) :
    Res (InstanceProof F) := do
  let v ← Verifier.new inst ldeFactor
  let arp ← fromInstance inst
  let t ← Transcript.new F
  let ps ← calculateWitnessPolys arp witness w
  let fLdes ← mapRes (fun q => q.lde w ldeFactor) ps
  let fOracles ← mapRes (fun l => IopTree.create H w l.coeffs) fLdes
  let fIopRoots ← mapRes (fun o => o.getRoot) fOracles
  let t := fIopRoots.foldl (fun t r => t.commitBytes r.bytes) t
  let (cc, t) ← forEach v.constraintsBatchedByDensity ([], t) (fun b s => forEach b.2 s (fun _ s => drawPair H s))
  let (bc, t) ← forEach v.inst.boundaryConstraints ([], t) (fun _ s => drawPair H s)
  let gPoly ← Poly.fromCoeffs gs
  let gLde ← gPoly.lde w ldeFactor
  let gOracle ← IopTree.create H w gLde.coeffs
  let gIopRoot ← gOracle.getRoot
  let t := t.commitBytes gIopRoot.bytes
  let (z, t) ← t.getChallenge H
  let fAtZM ← forgeOpenings v w ps z
  let (αs, t) ← forEach v.allMasks ([], t) (fun _ s => drawOne H s)
  let gAtZ ← v.calculateGAtZ cc bc fAtZM z
  let fDom ← Domain.newForSize F (v.columnDomain.size * ldeFactor)
  let gDom ← Domain.newForSize F (v.constraintsDomain.size * ldeFactor)
  let h1 ← forgeH1 v fDom fLdes αs fAtZM z
  let h2 ← forgeH2 gDom gLde z gAtZ
  let h1 ← Poly.fromValues h1
  let h2 ← Poly.fromValues h2
  let proto1 ← friProofByValues H w h1 1 (fDom.size / 2)
  let proto2 ← friProofByValues H w h2 1 (gDom.size / 2)
  let r1 ← proto1.l0Commitment.getRoot
  let r2 ← proto2.l0Commitment.getRoot
  let t := commitFinal t r1 proto1.finalCoefficients
  let t := commitFinal t r2 proto2.finalCoefficients
  let (b1, t) := t.getChallengeBytes H
  let idx1 ← bytesToChallengeIndex b1 fDom.size ldeFactor
  let (b2, _) := t.getChallengeBytes H
  let idx2 ← bytesToChallengeIndex b2 gDom.size ldeFactor
  let proof1 ← proto1.produceProof H h1 idx1
  let proof2 ← proto2.produceProof H h2 idx2
  let fQueries ← mapRes (fun o => o.1.query H idx1 o.2.coeffs) (fOracles.zip fLdes)
  let gQuery ← gOracle.query H idx2 gLde.coeffs
  pure { fAtZM := fAtZM, fIopRoots := fIopRoots, gIopRoot := gIopRoot, fQueries := fQueries, gQuery := gQuery,
         h1IopRoots := [r1], h2IopRoots := [r2],
         friProofH1 := forgeFri proof1 r1 v.columnDomain.size ldeFactor,
         friProofH2 := forgeFri proof2 r2 v.constraintsDomain.size ldeFactor }

/-- A one-round FRI proof of an arbitrary word is accepted. -/
theorem forgeFri_accepts (hc : ChallengeOk F) {n d f : ℕ} (hn : n ≤ StarkField.S F) (hn2 : 2 ≤ n) (hd : d * f = 2 ^ n)
    {p : F[X]} (hp : p.degree < (2 ^ n : ℕ)) {idx : ℕ} (hidx : idx < 2 ^ n) (hodd : idx % 2 = 1) :
    (forgeFri (honestProof H n 0 (n - 1) p idx) (friRoot H n p 0) d f).verify H idx (friVals n p idx) = .ok true := by
  have hd' : Nat.clog 2 (d * f) = n := by rw [hd]; exact Nat.clog_pow 2 n (by norm_num)
  have hk : n - 0 - (n - 1) = 1 := by omega
  unfold forgeFri FriProof.verify FriProof.verifyQueries honestProof
  simp only [hk, take_tab, show min 2 (2 * (1 + 1)) = 2 * 1 by norm_num]
  rw [friStart_eq' H hn hd' (by omega) p hidx, if_pos hodd]
  simp only [Res.ok_bind, ne_eq, OfNat.ofNat_ne_zero, not_false_eq_true, decide_true, Res.assert_true, length_tab,
    Nat.mul_mod_right, not_true_eq_false, if_false]
  have hroots : [friRoot H n p 0] = tab 1 (friRoot H n p) := rfl
  rw [chunksExact_tab, hroots, zip_tab, min_self]
  have := proofRounds_honest H hc (k := 1) hn (by omega) (tab (2 ^ (n - 1)) (friLayer H n p 1).coeff) p hidx
    (friVals n p idx) rfl 1 0 rfl
  have e : ∀ t, t < 1 → (friRoot H n p t, [friQueryAt H n p idx (2 * t), friQueryAt H n p idx (2 * t + 1)])
      = (friRoot H n p (0 + t), [friQuery H n p (0 + t) (friIdx n idx (0 + t + 1)),
         friQuery H n p (0 + t) (friIdx n idx (0 + t + 1) + 2 ^ (n - (0 + t + 1)))]) := by
    intro t ht
    have : t = 0 := by omega
    subst this
    simp [friQueryAt]
  rw [tab_congr e, this, friFinish_vstate H (by omega)]
  have hdeg := friLayer_degree H (n := n) hp 1 (by omega)
  rw [evalPoly_coeff hdeg]
  simp

section
variable {inst : InstanceProperties F} {n k f e : ℕ}

/-- What the verifier derives from any proof with at least one root for each of `h1`, `h2`. -/
theorem derive_any {w : Worker} {o : ℕ} (h : Suitable inst n k f) (hp : RunParams F w k f e o) {v : Verifier F}
    (hv : VerOk v (arpOf inst k) k (k + f) (2 ^ e)) {ps : List (ℕ × F)} (eps : masksOf (arpOf inst k) = ps.map toMask)
    (proof : InstanceProof F) {r1 r2 : Digest} (hr1 : proof.h1IopRoots.getLast? = some r1)
    (hr2 : proof.h2IopRoots.getLast? = some r2) {T1 T2 T3 : Transcript}
    (hT1 : T1 = proof.fIopRoots.foldl (fun t r => t.commitBytes r.bytes) ⟨[]⟩)
    (hT2 : T2 = (afterN H inst.boundaryConstraints.length (afterN H inst.constraints.length T1)).commitBytes
      proof.gIopRoot.bytes)
    (hT3 : T3 = commitFinal (commitFinal (afterS H ps.length (nextT H T2)) r1 proof.friProofH1.finalCoefficients)
      r2 proof.friProofH2.finalCoefficients) {idx1 idx2 : ℕ}
    (h1 : bytesToChallengeIndex (H T3.absorbed).bytes (2 ^ (k + e)) (2 ^ e) = .ok idx1)
    (h2 : bytesToChallengeIndex (H (nextT H T3).absorbed).bytes (2 ^ (k + f + e)) (2 ^ e) = .ok idx2) :
    v.deriveChallenges H proof
      = .ok (⟨pairsAt F H inst.constraints.length T1,
          pairsAt F H inst.boundaryConstraints.length (afterN H inst.constraints.length T1),
          chal F H T2, singlesAt F H ps.length (nextT H T2), idx1, idx2⟩, domOf F (k + e), domOf F (k + f + e)) := by
  have hS := hp.size
  obtain ⟨d, hd, hcd, hbat⟩ := h.dense
  have hnew : Transcript.new F = .ok ⟨[]⟩ := by
    unfold Transcript.new
    rw [decide_eq_true hp.challenge.1]; rfl
  have hlen : (arpOf inst k).constraints.length = inst.constraints.length := by simp [arpOf]
  have hlen' : (arpOf inst k).boundaryConstraints.length = inst.boundaryConstraints.length := rfl
  have d1 : Domain.newForSize F (2 ^ (k + e)) = .ok (domOf F (k + e)) := newForSize_pow (by omega)
  have d2 : Domain.newForSize F (2 ^ (k + f + e)) = .ok (domOf F (k + f + e)) := newForSize_pow hS
  have s1 : (domOf F k).size * 2 ^ e = 2 ^ (k + e) := (pow_add _ _ _).symm
  have s2 : (domOf F (k + f)).size * 2 ^ e = 2 ^ (k + f + e) := (pow_add _ _ _).symm
  have c1 := drawPairs_ok H hp.challenge (arpOf inst k).constraints [] T1
  have c2 := drawPairs_ok H hp.challenge (arpOf inst k).boundaryConstraints [] (afterN H inst.constraints.length T1)
  have c3 := drawOnes_ok H hp.challenge (ps.map toMask) [] (nextT H T2)
  rw [hlen] at c1
  rw [hlen'] at c2
  rw [List.length_map] at c3
  simp only [List.nil_append] at c1 c2 c3
  unfold Verifier.deriveChallenges
  rw [hv.inst, hv.masks, hv.batches, hbat, hv.column, hv.domain, hv.factor, eps, s1, s2, hnew]
  simp only [Res.ok_bind, hr1, hr2, Res.expect_some, forEach, d1, d2]
  rw [← hT1]
  erw [c1]
  simp only [Res.ok_bind]
  erw [c2]
  simp only [Res.ok_bind]
  rw [← hT2, getChallenge_ok H hp.challenge T2]
  simp only [Res.ok_bind]
  erw [c3]
  simp only [Res.ok_bind]
  rw [← hT3]
  erw [h1, Res.ok_bind]
  erw [h2, Res.ok_bind]
  rfl

/-- The last part of the verifier, for any values of `g` at the point. -/
theorem simulateH2_any {M : ℕ} (hM : M ≤ StarkField.S F) (G : F[X]) {z : F} (hz : z ^ 2 ^ M ≠ 1) (c : F) (idx : ℕ) :
    simulateH2 idx (domOf F M) (G.eval (genOf F M ^ idx)) z c
      = .ok ((G.eval (genOf F M ^ idx) - c) / (genOf F M ^ idx - z)) := by
  unfold simulateH2
  simp only [domOf, inverse_of_ne (domain_ne hM hz idx), Res.okOr_some, Res.ok_bind, Res.pure_def, div_eq_mul_inv]

/-- The point the attacker draws. -/
theorem forgePoint_eq (w : Worker) {o : ℕ} (h : Suitable inst n k f) (hp : RunParams F w k f e o)
    {v : Verifier F} (ev : Verifier.new inst (2 ^ e) = .ok v) (hv : VerOk v (arpOf inst k) k (k + f) (2 ^ e))
    {witness : List (List F)} {P : ℕ → F[X]}
    (hw : calculateWitnessPolys (arpOf inst k) witness w = .ok (tab n (fun r => mkPoly .coefficients k (P r).coeff)))
    (hP : ∀ r, (P r).degree < (2 ^ k : ℕ)) {G : F[X]} (hG : G.degree < (2 ^ (k + f) : ℕ)) :
    forgePoint H w inst (2 ^ e) witness (tab (2 ^ (k + f)) G.coeff) = .ok (runZ H inst n k f e P G) := by
  have hS := hp.size
  have hout := hp.out
  have hfac := hp.factor
  have h32 := hp.size32
  obtain ⟨d, hd, hcd, hbat⟩ := h.dense
  have m1 : mapRes (fun q => q.lde w (2 ^ e)) (tab n (fun r => mkPoly .coefficients k (P r).coeff))
      = .ok (tab n (fun r => mkPoly .values (k + e) (fun i => (P r).eval (genOf F (k + e) ^ i)))) :=
    mapRes_tab _ _ _ _ (fun i _ => lde_poly w (by omega) (by omega) hp.lde2 (hP i))
  have m2 : mapRes (fun l : Poly F .values => IopTree.create H w l.coeffs)
      (tab n (fun r => mkPoly .values (k + e) (fun i => (P r).eval (genOf F (k + e) ^ i))))
      = .ok (tab n (fun r => friTree H (k + e) (P r) 0)) :=
    mapRes_tab _ _ _ _ (fun i _ => friTree_create H w (k + e) (P i) (i := 0) (by omega))
  have m3 : mapRes (fun o : IopTree => o.getRoot) (tab n (fun r => friTree H (k + e) (P r) 0))
      = .ok (tab n (fun r => friRoot H (k + e) (P r) 0)) :=
    mapRes_tab _ _ _ _ (fun i _ => friTree_root H (k + e) (P i) (i := 0) (by omega))
  have m4 := lde_poly w (k := k + f) (f := e) (by omega) (by omega) hp.lde2 hG
  have m5 : IopTree.create H w (mkPoly .values (k + f + e) (fun i => G.eval (genOf F (k + f + e) ^ i))).coeffs
      = .ok (friTree H (k + f + e) G 0) := friTree_create H w (k + f + e) G (i := 0) (by omega)
  have m6 := friTree_root H (k + f + e) G (i := 0) (by omega)
  have hnew : Transcript.new F = .ok ⟨[]⟩ := by
    unfold Transcript.new
    rw [decide_eq_true hp.challenge.1]; rfl
  have hlen : (arpOf inst k).constraints.length = inst.constraints.length := by simp [arpOf]
  have hlen' : (arpOf inst k).boundaryConstraints.length = inst.boundaryConstraints.length := rfl
  have c1 := drawPairs_ok H hp.challenge (arpOf inst k).constraints [] (runT1 H n k e P)
  have c2 := drawPairs_ok H hp.challenge (arpOf inst k).boundaryConstraints [] (afterN H inst.constraints.length (runT1 H n k e P))
  rw [hlen] at c1
  rw [hlen'] at c2
  simp only [List.nil_append] at c1 c2
  unfold forgePoint
  rw [ev, Res.ok_bind, h.fromInstance (by omega), Res.ok_bind, hnew, Res.ok_bind, hw, Res.ok_bind, m1, Res.ok_bind, m2,
    Res.ok_bind, m3, Res.ok_bind, hv.inst, hv.batches, hbat]
  simp only [Res.ok_bind, forEach, fromCoeffs_pow (show k + f ≤ StarkField.S F by omega), m4, m5, m6]
  erw [c1]
  simp only [Res.ok_bind]
  erw [c2]
  simp only [Res.ok_bind]
  erw [getChallenge_ok H hp.challenge (runT2 H inst n k f e P G)]
  rfl

/-- The attacker succeeds unless the point drawn lies in the LDE domain of `g`. -/
theorem forge_accepted (w : Worker) {o : ℕ} (h : Suitable inst n k f) (hp : RunParams F w k f e o) (h33 : k + f + e ≤ 32)
    {v : Verifier F} (ev : Verifier.new inst (2 ^ e) = .ok v) (hv : VerOk v (arpOf inst k) k (k + f) (2 ^ e))
    {witness : List (List F)} {P : ℕ → F[X]}
    (hw : calculateWitnessPolys (arpOf inst k) witness w = .ok (tab n (fun r => mkPoly .coefficients k (P r).coeff)))
    (hP : ∀ r, (P r).degree < (2 ^ k : ℕ)) {G : F[X]} (hG : G.degree < (2 ^ (k + f) : ℕ))
    (hz : runZ H inst n k f e P G ^ 2 ^ (k + f + e) ≠ 1) :
    ∃ proof, forge H w inst (2 ^ e) witness (tab (2 ^ (k + f)) G.coeff) = .ok proof ∧ v.verify H proof = .ok true := by
  have hS := hp.size
  have hout := hp.out
  have hfac := hp.factor
  have h32 := hp.size32
  obtain ⟨d, hd, hcd, hbat⟩ := h.dense
  obtain ⟨ps, eps, hps⟩ := h.maskPairs (show k ≤ StarkField.S F by omega)
  have hm : v.allMasks = ps.map toMask := hv.masks.trans eps
  have m1 : mapRes (fun q => q.lde w (2 ^ e)) (tab n (fun r => mkPoly .coefficients k (P r).coeff))
      = .ok (tab n (fun r => mkPoly .values (k + e) (fun i => (P r).eval (genOf F (k + e) ^ i)))) :=
    mapRes_tab _ _ _ _ (fun i _ => lde_poly w (by omega) (by omega) hp.lde2 (hP i))
  have m2 : mapRes (fun l : Poly F .values => IopTree.create H w l.coeffs)
      (tab n (fun r => mkPoly .values (k + e) (fun i => (P r).eval (genOf F (k + e) ^ i))))
      = .ok (tab n (fun r => friTree H (k + e) (P r) 0)) :=
    mapRes_tab _ _ _ _ (fun i _ => friTree_create H w (k + e) (P i) (i := 0) (by omega))
  have m3 : mapRes (fun o : IopTree => o.getRoot) (tab n (fun r => friTree H (k + e) (P r) 0))
      = .ok (tab n (fun r => friRoot H (k + e) (P r) 0)) :=
    mapRes_tab _ _ _ _ (fun i _ => friTree_root H (k + e) (P i) (i := 0) (by omega))
  have m4 := lde_poly w (k := k + f) (f := e) (by omega) (by omega) hp.lde2 hG
  have m5 : IopTree.create H w (mkPoly .values (k + f + e) (fun i => G.eval (genOf F (k + f + e) ^ i))).coeffs
      = .ok (friTree H (k + f + e) G 0) := friTree_create H w (k + f + e) G (i := 0) (by omega)
  have m6 := friTree_root H (k + f + e) G (i := 0) (by omega)
  have hnew : Transcript.new F = .ok ⟨[]⟩ := by
    unfold Transcript.new
    rw [decide_eq_true hp.challenge.1]; rfl
  have hlen : (arpOf inst k).constraints.length = inst.constraints.length := by simp [arpOf]
  have hlen' : (arpOf inst k).boundaryConstraints.length = inst.boundaryConstraints.length := rfl
  have d1 : Domain.newForSize F (2 ^ (k + e)) = .ok (domOf F (k + e)) := newForSize_pow (by omega)
  have d2 : Domain.newForSize F (2 ^ (k + f + e)) = .ok (domOf F (k + f + e)) := newForSize_pow hS
  have s1 : (domOf F k).size * 2 ^ e = 2 ^ (k + e) := (pow_add _ _ _).symm
  have s2 : (domOf F (k + f)).size * 2 ^ e = 2 ^ (k + f + e) := (pow_add _ _ _).symm
  set z := runZ H inst n k f e P G with hzdef
  set αs := runA H inst n k f e P G ps with hα
  set cc := pairsAt F H inst.constraints.length (runT1 H n k e P) with hcc
  set bc := pairsAt F H inst.boundaryConstraints.length (afterN H inst.constraints.length (runT1 H n k e P)) with hbc
  have c1 := drawPairs_ok H hp.challenge (arpOf inst k).constraints [] (runT1 H n k e P)
  have c2 := drawPairs_ok H hp.challenge (arpOf inst k).boundaryConstraints [] (afterN H inst.constraints.length (runT1 H n k e P))
  have c3 := drawOnes_ok H hp.challenge (ps.map toMask) [] (nextT H (runT2 H inst n k f e P G))
  rw [hlen] at c1
  rw [hlen'] at c2
  rw [List.length_map] at c3
  simp only [List.nil_append] at c1 c2 c3
  have hzN : z ^ 2 ^ (k + e) ≠ 1 := by
    intro hc
    apply hz
    rw [show 2 ^ (k + f + e) = 2 ^ (k + e) * 2 ^ f by rw [← pow_add]; congr 1; omega, pow_mul, hc, one_pow]
  have hzk : z ^ 2 ^ k ≠ 1 := by
    intro hc
    apply hzN
    rw [pow_add, pow_mul, hc, one_pow]
  have hpz : ∀ p ∈ ps, p.1 < n ∧ (p.2 * z) ^ 2 ^ (k + e) ≠ 1 := by
    intro p hp'
    refine ⟨(hps p hp').1, ?_⟩
    rw [mul_pow]
    have : p.2 ^ 2 ^ (k + e) = 1 := by rw [pow_add, pow_mul, (hps p hp').2, one_pow]
    rw [this, one_mul]
    exact hzN
  -- openings
  have o1 : forgeOpenings v w (tab n (fun r => mkPoly .coefficients k (P r).coeff)) z
      = .ok (ps.map (fun p => (P p.1).eval (p.2 * z))) := by
    unfold forgeOpenings
    rw [hm]
    have : ∀ l : List (ℕ × F), (∀ p ∈ l, p.1 < n) → mapRes (fun m : MaskProperties F => do
        let mask ← m.stepsDifference.maskOf
        let r ← m.register.num
        let p ← rd (tab n (fun r => mkPoly .coefficients k (P r).coeff)) r
        pure (p.evaluateAt w (mask * z))) (l.map toMask) = .ok (l.map (fun p => (P p.1).eval (p.2 * z))) := by
      intro l
      induction l with
      | nil => intro _; rfl
      | cons p l ih =>
        intro hl
        simp only [List.map_cons, mapRes, toMask, StepDifference.maskOf, Register.num, Res.ok_bind,
          rd_tab (hl p List.mem_cons_self), Res.pure_def, evaluateAt_poly w k (hP _)]
        erw [ih (fun q hq => hl q (List.mem_cons_of_mem _ hq))]
        rfl
    exact this ps (fun p hp' => (hps p hp').1)
  -- the value of g the verifier will compute
  have a2 := calculateGAtZ_ok h (by omega) hv P hzk cc bc (length_pairsAt H _ _) (length_pairsAt H _ _)
  set c := compositionAt (genOf F k) inst.numRows (2 ^ f) (pointEnv P z) ((arpOf inst k).constraints.zip cc)
          (inst.boundaryConstraints.zip bc) z with hcdef
  rw [eps, List.map_map] at a2
  have a2' : v.calculateGAtZ cc bc (ps.map (fun p => (P p.1).eval (p.2 * z))) z = .ok c := a2
  -- the words
  have a1 : ∀ idx, _ := simulateH1_ok v (show k + e ≤ StarkField.S F by omega) P ps hpz hm αs
  have a3 : ∀ idx, _ := simulateH2_any hS G hz c
  have w1 : forgeH1 v (domOf F (k + e)) (tab n (fun r => mkPoly .values (k + e) (fun i => (P r).eval (genOf F (k + e) ^ i))))
      αs (ps.map (fun p => (P p.1).eval (p.2 * z))) z
      = .ok (tab (2 ^ (k + e)) (fun i => deepAt P z (ps.zip αs) (genOf F (k + e) ^ i))) := by
    unfold forgeH1
    apply collectN_eq
    intro i hi
    replace hi : i < 2 ^ (k + e) := hi
    have : mapRes (fun l : Poly F .values => rd l.coeffs i)
        (tab n (fun r => mkPoly .values (k + e) (fun i => (P r).eval (genOf F (k + e) ^ i))))
        = .ok (tab n (fun r => (P r).eval (genOf F (k + e) ^ i))) :=
      mapRes_tab _ _ _ _ (fun r _ => by rw [mkPoly_coeffs, rd_tab hi])
    rw [this, Res.ok_bind]
    exact a1 i
  have w2 : forgeH2 (domOf F (k + f + e)) (mkPoly .values (k + f + e) (fun i => G.eval (genOf F (k + f + e) ^ i))) z c
      = .ok (tab (2 ^ (k + f + e)) (fun i => (G.eval (genOf F (k + f + e) ^ i) - c) / (genOf F (k + f + e) ^ i - z))) := by
    unfold forgeH2
    apply collectN_eq
    intro i hi
    replace hi : i < 2 ^ (k + f + e) := hi
    rw [mkPoly_coeffs, rd_tab hi, Res.ok_bind]
    exact a3 i
  obtain ⟨Q1, q1, v1'⟩ := exists_poly_values (F := F) (show k + e ≤ StarkField.S F by omega) one_ne_zero
    (fun i => deepAt P z (ps.zip αs) (genOf F (k + e) ^ i))
  obtain ⟨Q2, q2, v2'⟩ := exists_poly_values (F := F) hS one_ne_zero
    (fun i => (G.eval (genOf F (k + f + e) ^ i) - c) / (genOf F (k + f + e) ^ i - z))
  simp only [one_mul] at v1' v2'
  have w1' : Poly.fromValues (tab (2 ^ (k + e)) (fun i => deepAt P z (ps.zip αs) (genOf F (k + e) ^ i)))
      = .ok (mkPoly .values (k + e) (friVals (k + e) Q1)) := by
    rw [fromValues_pow (by omega)]
    exact congrArg Res.ok (mkPoly_congr (fun i hi => (v1' i hi).symm))
  have w2' : Poly.fromValues (tab (2 ^ (k + f + e)) (fun i => (G.eval (genOf F (k + f + e) ^ i) - c) / (genOf F (k + f + e) ^ i - z)))
      = .ok (mkPoly .values (k + f + e) (friVals (k + f + e) Q2)) := by
    rw [fromValues_pow hS]
    exact congrArg Res.ok (mkPoly_congr (fun i hi => (v2' i hi).symm))
  have half : ∀ m, 1 ≤ m → 2 ^ m / 2 = 2 ^ (m - 1) := by
    intro m hm'
    obtain ⟨m', rfl⟩ : ∃ m', m = m' + 1 := ⟨m - 1, by omega⟩
    rw [pow_succ, Nat.mul_div_cancel _ (by norm_num), Nat.add_sub_cancel]
  have p1 := friProofByValues_eq H hp.challenge w (n := k + e) (f := 0) (o := k + e - 1) (by omega) (by omega) (by omega) (by omega) q1
  have p2 := friProofByValues_eq H hp.challenge w (n := k + f + e) (f := 0) (o := k + f + e - 1) (by omega) (by omega) (by omega) (by omega) q2
  rw [pow_zero, ← half _ (by omega)] at p1 p2
  have l1 : (honestPrototype H (k + e) 0 (k + e - 1) Q1).l0Commitment.getRoot = .ok (friRoot H (k + e) Q1 0) :=
    friTree_root H (k + e) Q1 (i := 0) (by omega)
  have l2 : (honestPrototype H (k + f + e) 0 (k + f + e - 1) Q2).l0Commitment.getRoot = .ok (friRoot H (k + f + e) Q2 0) :=
    friTree_root H (k + f + e) Q2 (i := 0) (by omega)
  set T3 := commitFinal (commitFinal (afterS H ps.length (nextT H (runT2 H inst n k f e P G))) (friRoot H (k + e) Q1 0)
      (honestPrototype H (k + e) 0 (k + e - 1) Q1).finalCoefficients) (friRoot H (k + f + e) Q2 0)
      (honestPrototype H (k + f + e) 0 (k + f + e - 1) Q2).finalCoefficients with hT3
  have even : ∀ m, 1 ≤ m → 2 ^ m % 2 = 0 := by
    intro m hm
    exact Nat.mod_eq_zero_of_dvd (dvd_pow_self 2 (by omega))
  obtain ⟨idx1, i1, i1l, i1o⟩ := C23_index_odd (H T3.absorbed).bytes
    (by rw [(H _).len]; norm_num) (2 ^ (k + e)) (2 ^ e) (by positivity) (even _ (by omega)) (by positivity)
  obtain ⟨idx2, i2, i2l, i2o⟩ := C23_index_odd (H (nextT H T3).absorbed).bytes
    (by rw [(H _).len]; norm_num) (2 ^ (k + f + e)) (2 ^ e) (by positivity) (even _ (by omega)) (by positivity)
  have z1 := produceProof_honest H (n := k + e) (f := 0) (o := k + e - 1) (by omega) (by omega) (p := Q1) i1l
  have z2 := produceProof_honest H (n := k + f + e) (f := 0) (o := k + f + e - 1) (by omega) (by omega) (p := Q2) i2l
  have u1 : mapRes (fun o : IopTree × Poly F .values => o.1.query H idx1 o.2.coeffs)
      ((tab n (fun r => friTree H (k + e) (P r) 0)).zip
        (tab n (fun r => mkPoly .values (k + e) (fun i => (P r).eval (genOf F (k + e) ^ i)))))
      = .ok (tab n (fun r => friQuery H (k + e) (P r) 0 idx1)) := by
    rw [zip_tab, min_self]
    exact mapRes_tab _ _ _ _ (fun i _ => friTree_query H (k + e) (P i) (i := 0) (by omega) i1l)
  have u2 : (friTree H (k + f + e) G 0).query H idx2 (mkPoly .values (k + f + e) (fun i => G.eval (genOf F (k + f + e) ^ i))).coeffs
      = .ok (friQuery H (k + f + e) G 0 idx2) := friTree_query H (k + f + e) G (i := 0) (by omega) i2l
  let proof : InstanceProof F :=
    { fAtZM := ps.map (fun p => (P p.1).eval (p.2 * z))
      fIopRoots := tab n (fun r => friRoot H (k + e) (P r) 0)
      gIopRoot := friRoot H (k + f + e) G 0
      fQueries := tab n (fun r => friQuery H (k + e) (P r) 0 idx1)
      gQuery := friQuery H (k + f + e) G 0 idx2
      h1IopRoots := [friRoot H (k + e) Q1 0]
      h2IopRoots := [friRoot H (k + f + e) Q2 0]
      friProofH1 := forgeFri (honestProof H (k + e) 0 (k + e - 1) Q1 idx1) (friRoot H (k + e) Q1 0) (2 ^ k) (2 ^ e)
      friProofH2 := forgeFri (honestProof H (k + f + e) 0 (k + f + e - 1) Q2 idx2) (friRoot H (k + f + e) Q2 0) (2 ^ (k + f)) (2 ^ e) }
  refine ⟨proof, ?_, ?_⟩
  · unfold forge
    rw [ev, Res.ok_bind, h.fromInstance (by omega), Res.ok_bind, hnew, Res.ok_bind, hw, Res.ok_bind, m1, Res.ok_bind, m2,
      Res.ok_bind, m3, Res.ok_bind, hv.inst, hm, hv.batches, hbat, hv.column, hv.domain, s1, s2, d1, d2]
    simp only [Res.ok_bind, forEach, fromCoeffs_pow (show k + f ≤ StarkField.S F by omega), m4, m5, m6]
    erw [c1]
    simp only [Res.ok_bind]
    erw [c2]
    simp only [Res.ok_bind]
    erw [getChallenge_ok H hp.challenge (runT2 H inst n k f e P G)]
    simp only [Res.ok_bind]
    erw [o1]
    simp only [Res.ok_bind]
    erw [c3]
    simp only [Res.ok_bind]
    erw [a2']
    simp only [Res.ok_bind]
    erw [w1]
    simp only [Res.ok_bind]
    erw [w2]
    simp only [Res.ok_bind, w1', w2']
    erw [p1]
    simp only [Res.ok_bind]
    erw [p2]
    simp only [Res.ok_bind, l1, l2]
    erw [i1, Res.ok_bind]
    erw [i2, Res.ok_bind]
    simp only [z1, z2, u1, u2, Res.ok_bind]
    rfl
  · have hder := derive_any H h hp hv eps proof (r1 := friRoot H (k + e) Q1 0) (r2 := friRoot H (k + f + e) Q2 0) rfl rfl
      (T1 := runT1 H n k e P) (T2 := runT2 H inst n k f e P G) (T3 := T3) rfl rfl rfl i1 i2
    have hreg : v.inst.numRegisters = n := by rw [hv.inst]; exact h.registers
    unfold Verifier.verify
    rw [hder]
    simp only [Res.ok_bind, hreg]
    have l1 : proof.fQueries.length = n := by simp [proof]
    have l2 : proof.fIopRoots.length = n := by simp [proof]
    rw [l1, l2, if_neg (by simp), if_neg (by simp)]
    unfold Verifier.verifyBody
    have cq : checkQueries H idx1 (proof.fQueries.zip proof.fIopRoots)
        = some (tab n (fun r => (P r).eval (genOf F (k + e) ^ idx1))) := by
      simp only [proof]
      rw [zip_tab, min_self]
      exact checkQueries_honest H n (k + e) P i1l
    simp only [cq]
    have b1 : v.simulateH1 (singlesAt F H ps.length (nextT H (runT2 H inst n k f e P G))) idx1 (domOf F (k + e))
      (tab n (fun r => (P r).eval (genOf F (k + e) ^ idx1))) proof.fAtZM (chal F H (runT2 H inst n k f e P G))
        = .ok (friVals (k + e) Q1 idx1) := (a1 idx1).trans (congrArg Res.ok (v1' idx1 i1l).symm)
    have b2 : v.calculateGAtZ cc bc proof.fAtZM (chal F H (runT2 H inst n k f e P G)) = .ok c := a2'
    rw [b1, Res.ok_bind, b2, Res.ok_bind]
    unfold Verifier.verifyG
    simp only
    have gq : verifyQuery H proof.gQuery proof.gIopRoot = true := verifyQuery_honest H (k + f + e) G (i := 0) i2l
    have gi : proof.gQuery.index = idx2 := rfl
    have b3 : simulateH2 idx2 (domOf F (k + f + e)) proof.gQuery.value (chal F H (runT2 H inst n k f e P G)) c
      = .ok (friVals (k + f + e) Q2 idx2) := (a3 idx2).trans (congrArg Res.ok (v2' idx2 i2l).symm)
    rw [gq, gi, if_neg (by simp), if_neg (by simp), b3, Res.ok_bind]
    have f1 : proof.friProofH1.verify H idx1 (friVals (k + e) Q1 idx1) = .ok true :=
      forgeFri_accepts H hp.challenge (by omega) (by omega) (pow_add _ _ _).symm q1 i1l i1o
    have f2 : proof.friProofH2.verify H idx2 (friVals (k + f + e) Q2 idx2) = .ok true :=
      forgeFri_accepts H hp.challenge hS (by omega) (pow_add _ _ _).symm q2 i2l i2o
    rw [f1, Res.ok_bind, if_neg (by simp), f2]

end

end Hodor

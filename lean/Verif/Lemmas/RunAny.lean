import Verif.Lemmas.RunH
import Verif.Lemmas.ProverTotal

/-! # The run of the prover on any number of CPUs, and the verifier on its proof

The committed words need not be those of the polynomials: the LDE may compute them wrongly (C09). -/

namespace Hodor

open Polynomial Finset Spec

variable {F : Type} [Field F] [DecidableEq F] [StarkField F] (H : List UInt8 → Digest)

/-! ### The transcript after `calculate_g` -/

theorem gConstraint_transcript (hch : ChallengeOk F) {ali : AliInstance F} {w : Worker}
    {subst : List (MaskProperties F × Poly F .coefficients)} {g : Poly F .values} {c : Constraint F} {s s' : GState F}
    (h : gConstraint H ali w subst g c s = .ok s') : s'.transcript = nextT H (nextT H s.transcript) := by
  unfold gConstraint at h
  simp only [getChallenge_ok H hch, Res.ok_bind] at h
  obtain ⟨_, -, h⟩ := Res.bind_eq_ok.1 h
  obtain ⟨_, -, h⟩ := Res.bind_eq_ok.1 h
  obtain ⟨_, -, h⟩ := Res.bind_eq_ok.1 h
  obtain ⟨_, -, h⟩ := Res.bind_eq_ok.1 h
  obtain ⟨_, -, h⟩ := Res.bind_eq_ok.1 h
  cases h
  rfl

theorem gConstraints_transcript (hch : ChallengeOk F) {ali : AliInstance F} {w : Worker}
    {subst : List (MaskProperties F × Poly F .coefficients)} {g : Poly F .values} (l : List (Constraint F)) {s s' : GState F}
    (h : forEach l s (gConstraint H ali w subst g) = .ok s') : s'.transcript = afterN H l.length s.transcript := by
  induction l generalizing s with
  | nil => cases h; rfl
  | cons c l ih =>
    obtain ⟨s1, h1, h2⟩ := forEach_eq_ok_cons.1 h
    rw [ih h2, gConstraint_transcript H hch h1]
    rfl

theorem gBatches_transcript (hch : ChallengeOk F) {ali : AliInstance F} {w : Worker}
    {subst : List (MaskProperties F × Poly F .coefficients)} (l : List (ConstraintDensity × List (Constraint F))) {s s' : GState F}
    (h : forEach l s (gBatch H ali w subst) = .ok s') : s'.transcript = afterBatches H l s.transcript := by
  induction l generalizing s with
  | nil => cases h; rfl
  | cons b l ih =>
    obtain ⟨s1, h1, h2⟩ := forEach_eq_ok_cons.1 h
    rw [ih h2]
    unfold gBatch at h1
    obtain ⟨r, hr, h1⟩ := Res.bind_eq_ok.1 h1
    obtain ⟨_, -, h1⟩ := Res.bind_eq_ok.1 h1
    obtain ⟨_, -, h1⟩ := Res.bind_eq_ok.1 h1
    obtain ⟨_, -, h1⟩ := Res.bind_eq_ok.1 h1
    cases h1
    obtain ⟨d, cs⟩ := b
    rw [afterBatches]
    have := gConstraints_transcript H hch _ hr
    simp only at this ⊢
    rw [this]

theorem gBoundaries_transcript (hch : ChallengeOk F) {ali : AliInstance F} {w : Worker}
    {witness : List (Poly F .coefficients)} (l : List (BoundaryConstraint F)) {s s' : GState F}
    (h : forEach l s (gBoundary H ali w witness) = .ok s') : s'.transcript = afterN H l.length s.transcript := by
  induction l generalizing s with
  | nil => cases h; rfl
  | cons b l ih =>
    obtain ⟨s1, h1, h2⟩ := forEach_eq_ok_cons.1 h
    rw [ih h2]
    unfold gBoundary at h1
    simp only [getChallenge_ok H hch, Res.ok_bind] at h1
    repeat obtain ⟨_, -, h1⟩ := Res.bind_eq_ok.1 h1
    cases h1
    rfl

theorem calculateG_transcript (hch : ChallengeOk F) {ali : AliInstance F} {w : Worker} {t : Transcript}
    {witness : List (Poly F .coefficients)} {r : Poly F .coefficients × Transcript} (h : ali.calculateG H t witness w = .ok r) :
    r.2 = afterN H ali.properties.boundaryConstraints.length (afterBatches H ali.constraintsBatchedByDensity t) := by
  unfold AliInstance.calculateG at h
  obtain ⟨_, -, h⟩ := Res.bind_eq_ok.1 h
  obtain ⟨_, -, h⟩ := Res.bind_eq_ok.1 h
  obtain ⟨_, -, h⟩ := Res.bind_eq_ok.1 h
  obtain ⟨s1, h1, h⟩ := Res.bind_eq_ok.1 h
  obtain ⟨s2, h2, h⟩ := Res.bind_eq_ok.1 h
  obtain ⟨_, -, h⟩ := Res.bind_eq_ok.1 h
  cases h
  rw [gBoundaries_transcript H hch _ h2, gBatches_transcript H hch _ h1]

/-! ### `calculate_deep` on words -/

/-- The first DEEP word at `x`: `Q` are the committed words, `P` the polynomials whose values are claimed. -/
noncomputable def wordAt (P Q : ℕ → F[X]) (z : F) (ops : List ((ℕ × F) × F)) (x : F) : F :=
  (ops.map (fun q => q.2 * ((Q q.1.1).eval x - (P q.1.1).eval (q.1.2 * z)) / (x - q.1.2 * z))).sum

theorem deepMask_word (hch : ChallengeOk F) (w : Worker) {n k N : ℕ} (hN : N ≤ StarkField.S F) (h1 : 1 ≤ StarkField.S F)
    {P Q : ℕ → F[X]} (hP : ∀ r, (P r).degree < (2 ^ k : ℕ)) {z : F} (p : ℕ × F) (hr : p.1 < n)
    (hm : (p.2 * z) ^ 2 ^ N ≠ 1) (h : ℕ → F) (l : List F) {D : List (StepDifference F × Poly F .values)}
    (hD : DivisorsOk N z D) (t : Transcript) :
    ∃ D', deepMask H (tab n (fun r => mkPoly .coefficients k (P r).coeff))
        (tab n (fun r => mkPoly .values N (fun i => (Q r).eval (genOf F N ^ i)))) (2 ^ N) z w (toMask p)
        ⟨mkPoly .values N h, l, D, t⟩
      = .ok ⟨mkPoly .values N (fun i => h i + chal F H t * ((Q p.1).eval (genOf F N ^ i) - (P p.1).eval (p.2 * z))
            / (genOf F N ^ i - p.2 * z)), l ++ [(P p.1).eval (p.2 * z)], D', nextT H t⟩ ∧ DivisorsOk N z D' := by
  obtain ⟨D', e, hD'⟩ := deepDivisor_ok w hN h1 hm hD
  refine ⟨D', ?_, hD'⟩
  unfold deepMask toMask
  simp only [StepDifference.maskOf, Register.num, Res.ok_bind, Res.pure_def, rd_tab hr, e, evaluateAt_poly w k (hP _),
    getChallenge_ok H hch, addConstant_mk, scale_mk, mulAssign_mk, addAssignV_mk]
  have : mkPoly .values N (fun i => h i + ((Q p.1).eval (genOf F N ^ i) + -(P p.1).eval (p.2 * z)) * chal F H t *
      (genOf F N ^ i - p.2 * z)⁻¹) = mkPoly .values N (fun i => h i + chal F H t * ((Q p.1).eval (genOf F N ^ i) -
      (P p.1).eval (p.2 * z)) / (genOf F N ^ i - p.2 * z)) := by
    apply mkPoly_congr
    intro i _
    rw [div_eq_mul_inv]; ring
  rw [this]

theorem deepMasks_word (hch : ChallengeOk F) (w : Worker) {n k N : ℕ} (hN : N ≤ StarkField.S F) (h1 : 1 ≤ StarkField.S F)
    {P Q : ℕ → F[X]} (hP : ∀ r, (P r).degree < (2 ^ k : ℕ)) {z : F} (ps : List (ℕ × F))
    (hps : ∀ p ∈ ps, p.1 < n ∧ (p.2 * z) ^ 2 ^ N ≠ 1) (h : ℕ → F) (l : List F)
    {D : List (StepDifference F × Poly F .values)} (hD : DivisorsOk N z D) (t : Transcript) :
    ∃ D', forEach (ps.map toMask) ⟨mkPoly .values N h, l, D, t⟩ (deepMask H
        (tab n (fun r => mkPoly .coefficients k (P r).coeff))
        (tab n (fun r => mkPoly .values N (fun i => (Q r).eval (genOf F N ^ i)))) (2 ^ N) z w)
      = .ok ⟨mkPoly .values N (fun i => h i + wordAt P Q z (ps.zip (singlesAt F H ps.length t)) (genOf F N ^ i)),
          l ++ ps.map (fun p => (P p.1).eval (p.2 * z)), D', afterS H ps.length t⟩ := by
  induction ps generalizing h l D t with
  | nil => exact ⟨D, by simp [forEach, wordAt, afterS]⟩
  | cons p ps ih =>
    obtain ⟨hr, hm⟩ := hps p List.mem_cons_self
    obtain ⟨D1, e1, hD1⟩ := deepMask_word H hch w hN h1 hP (Q := Q) p hr hm h l hD t
    obtain ⟨D2, e2⟩ := ih (fun q hq => hps q (List.mem_cons_of_mem _ hq)) _ _ hD1 (nextT H t)
    refine ⟨D2, ?_⟩
    simp only [List.map_cons, forEach, e1, Res.ok_bind]
    rw [e2]
    simp only [singlesAt, List.length_cons, List.zip_cons_cons, wordAt, List.map_cons, List.sum_cons, afterS, add_assoc,
      List.append_assoc, List.singleton_append]

/-- What `calculate_deep` returns, if it does. -/
theorem calculateDeep_word (hch : ChallengeOk F) (w : Worker) {n k K N M : ℕ} (hNM : N ≤ M)
    (hM : M ≤ StarkField.S F) (h1 : 1 ≤ StarkField.S F) (hn : 0 < n) (hkN : k ≤ N)
    {P Q : ℕ → F[X]} (hP : ∀ r, (P r).degree < (2 ^ k : ℕ)) {G L : F[X]} (hG : G.degree < (2 ^ K : ℕ))
    (ps : List (ℕ × F)) (t : Transcript) (hps : ∀ p ∈ ps, p.1 < n ∧ p.2 ^ 2 ^ k = 1)
    {ali : AliInstance F} (hali : ali.allMasks = ps.map toMask) {r : DeepResult F}
    (hr : ali.calculateDeep H (tab n (fun r => mkPoly .coefficients k (P r).coeff))
        (tab n (fun r => mkPoly .values N (fun i => (Q r).eval (genOf F N ^ i))))
        (mkPoly .coefficients K G.coeff) (mkPoly .values M (fun i => L.eval (genOf F M ^ i))) t w = .ok r) :
    chal F H t ^ 2 ^ M ≠ 1 ∧
    r = ⟨mkPoly .values N (fun i => wordAt P Q (chal F H t) (ps.zip (singlesAt F H ps.length (nextT H t))) (genOf F N ^ i)),
          mkPoly .values M (fun i => (L.eval (genOf F M ^ i) - G.eval (chal F H t)) / (genOf F M ^ i - chal F H t)),
          ps.map (fun p => (P p.1).eval (p.2 * chal F H t)), G.eval (chal F H t), afterS H ps.length (nextT H t)⟩ := by
  have hz : chal F H t ^ 2 ^ M ≠ 1 := by
    intro hz
    unfold AliInstance.calculateDeep at hr
    simp only [getChallenge_ok H hch, Res.ok_bind, inverseLinear_eq w hM h1, mkPoly_size, if_pos hz] at hr
    obtain ⟨_, -, hr⟩ := Res.bind_eq_ok.1 hr
    obtain ⟨_, -, hr⟩ := Res.bind_eq_ok.1 hr
    obtain ⟨_, -, hr⟩ := Res.bind_eq_ok.1 hr
    cases hr
  refine ⟨hz, ?_⟩
  have hzN : chal F H t ^ 2 ^ N ≠ 1 := by
    intro hc
    apply hz
    rw [show 2 ^ M = 2 ^ N * 2 ^ (M - N) by rw [← pow_add]; congr 1; omega, pow_mul, hc, one_pow]
  have hpz : ∀ p ∈ ps, p.1 < n ∧ (p.2 * chal F H t) ^ 2 ^ N ≠ 1 := by
    intro p hp
    refine ⟨(hps p hp).1, ?_⟩
    rw [mul_pow]
    have : p.2 ^ 2 ^ N = 1 := by
      rw [show 2 ^ N = 2 ^ k * 2 ^ (N - k) by rw [← pow_add]; congr 1; omega, pow_mul, (hps p hp).2, one_pow]
    rw [this, one_mul]
    exact hzN
  obtain ⟨D, e⟩ := deepMasks_word H hch w (hNM.trans hM) h1 hP ps hpz (Q := Q) (fun _ => 0) [] (D := []) (by intro m d h; cases h) (nextT H t)
  unfold AliInstance.calculateDeep at hr
  simp only [getChallenge_ok H hch, Res.ok_bind, rd_tab hn, mkPoly_size, newForSizeValues_pow (hNM.trans hM), hali, e,
    inverseLinear_eq w hM h1, if_neg hz, evaluateAt_poly w K hG, addConstant_mk, mulAssign_mk, Res.pure_def, zero_add,
    List.nil_append] at hr
  have : mkPoly .values M (fun i => (L.eval (genOf F M ^ i) + -G.eval (chal F H t)) * (genOf F M ^ i - chal F H t)⁻¹)
      = mkPoly .values M (fun i => (L.eval (genOf F M ^ i) - G.eval (chal F H t)) / (genOf F M ^ i - chal F H t)) := by
    apply mkPoly_congr
    intro i _
    rw [div_eq_mul_inv]; ring
  rw [this] at hr
  cases hr
  rfl

theorem simulateH1_word (v : Verifier F) {n N : ℕ} (hN : N ≤ StarkField.S F) (P Q : ℕ → F[X]) {z : F} (ps : List (ℕ × F))
    (hps : ∀ p ∈ ps, p.1 < n ∧ (p.2 * z) ^ 2 ^ N ≠ 1) (hv : v.allMasks = ps.map toMask) (αs : List F)
    (idx : ℕ) :
    v.simulateH1 αs idx (domOf F N) (tab n (fun r => (Q r).eval (genOf F N ^ idx)))
        (ps.map (fun p => (P p.1).eval (p.2 * z))) z
      = .ok (wordAt P Q z (ps.zip αs) (genOf F N ^ idx)) := by
  unfold Verifier.simulateH1 wordAt
  rw [hv, List.zip_map', List.zip_map_left]
  have key : ∀ (l : List ((ℕ × F) × F)) (a : F), (∀ q ∈ l, q.1.1 < n ∧ (q.1.2 * z) ^ 2 ^ N ≠ 1) →
      forEach (l.map (Prod.map (fun p : ℕ × F => (toMask p, (P p.1).eval (p.2 * z))) id)) a (fun x h => do
        let mask ← x.1.1.stepsDifference.maskOf
        let r ← x.1.1.register.num
        let f ← rd (tab n (fun r => (Q r).eval (genOf F N ^ idx))) r
        let inv ← Res.okOr (inverse ((domOf F N).generator ^ idx - mask * z)) .divisionByZero
        pure (h + (f - x.1.2) * inv * x.2))
      = .ok (a + (l.map (fun q => q.2 * ((Q q.1.1).eval (genOf F N ^ idx) - (P q.1.1).eval (q.1.2 * z)) /
          (genOf F N ^ idx - q.1.2 * z))).sum) := by
    intro l
    induction l with
    | nil => intro a _; simp [forEach]
    | cons q l ih =>
      intro a hl
      obtain ⟨hr, hm⟩ := hl q List.mem_cons_self
      have hne : (domOf F N).generator ^ idx - q.1.2 * z ≠ 0 := domain_ne hN hm idx
      simp only [List.map_cons, forEach, Prod.map, toMask, StepDifference.maskOf, Register.num, Res.ok_bind, rd_tab hr,
        inverse_of_ne hne, Res.okOr_some, id]
      refine (ih _ (fun q' hq' => hl q' (List.mem_cons_of_mem _ hq'))).trans ?_
      congr 1
      simp only [List.sum_cons, domOf, div_eq_mul_inv]
      ring
  refine (key _ 0 ?_).trans (by rw [zero_add])
  intro q hq
  exact hps _ (List.of_mem_zip hq).1

section
variable {inst : InstanceProperties F} {n k f e o : ℕ} {P Q : ℕ → F[X]} {G L : F[X]} {ps : List (ℕ × F)} {Q1 Q2 : F[X]}

/-- The proof of a run with the committed words `Q` and `L` and the claimed values of the polynomials `P`. -/
noncomputable def wordProof (inst : InstanceProperties F) (n k f e o : ℕ) (P Q : ℕ → F[X]) (L : F[X]) (ps : List (ℕ × F)) (Q1 Q2 : F[X])
    (idx1 idx2 : ℕ) : InstanceProof F :=
  { fAtZM := ps.map (fun p => (P p.1).eval (p.2 * runZ H inst n k f e Q L))
    fIopRoots := tab n (fun r => friRoot H (k + e) (Q r) 0)
    gIopRoot := friRoot H (k + f + e) L 0
    fQueries := tab n (fun r => friQuery H (k + e) (Q r) 0 idx1)
    gQuery := friQuery H (k + f + e) L 0 idx2
    h1IopRoots := tab (k + e - e - o + 1) (friRoot H (k + e) Q1)
    h2IopRoots := tab (k + f + e - e - o + 1) (friRoot H (k + f + e) Q2)
    friProofH1 := honestProof H (k + e) e o Q1 idx1
    friProofH2 := honestProof H (k + f + e) e o Q2 idx2 }

/-- What `prove` returns on a runnable instance, if it returns a proof, on any number of CPUs, with the words that are committed. -/
theorem prove_word_lde (w : Worker) (h : Runnable inst n k f) (hp : ProverParams F k f e o) (hout : o < k) {witness : List (List F)}
    (hw : calculateWitnessPolys (arpOf inst k) witness w = .ok (tab n (fun r => mkPoly .coefficients k (P r).coeff)))
    (hP : ∀ r, (P r).degree < (2 ^ k : ℕ)) {prover : Prover F} (hprover : Prover.new w inst (2 ^ e) (2 ^ o) = .ok prover)
    {proof : InstanceProof F} (hproof : prover.prove H witness = .ok proof) :
    ∃ (Q : ℕ → F[X]) (G L : F[X]) (ps : List (ℕ × F)) (Q1 Q2 : F[X]) (idx1 idx2 : ℕ),
      (∀ r i, i < 2 ^ (k + e) → (Q r).eval (genOf F (k + e) ^ i) = (P r).eval (genOf F (k + e) ^ ldeExp w e i)) ∧
      masksOf (arpOf inst k) = ps.map toMask ∧ (∀ p ∈ ps, p.1 < n ∧ p.2 ^ 2 ^ k = 1) ∧ G.degree < (2 ^ (k + f) : ℕ) ∧
      (prover.arp = arpOf inst k ∧ prover.ali.calculateG H (runT1 H n k e Q) (tab n (fun r => mkPoly .coefficients k (P r).coeff)) w
        = .ok (mkPoly .coefficients (k + f) G.coeff,
          afterN H inst.boundaryConstraints.length (afterN H inst.constraints.length (runT1 H n k e Q)))) ∧
      (mkPoly .coefficients (k + f) G.coeff).lde w (2 ^ e) = .ok (mkPoly .values (k + f + e) (fun i => L.eval (genOf F (k + f + e) ^ i))) ∧
      runZ H inst n k f e Q L ^ 2 ^ (k + f + e) ≠ 1 ∧
      Q1.degree < (2 ^ (k + e) : ℕ) ∧ Q2.degree < (2 ^ (k + f + e) : ℕ) ∧
      (∀ i, i < 2 ^ (k + e) → Q1.eval (genOf F (k + e) ^ i) = wordAt P Q (runZ H inst n k f e Q L)
          (ps.zip (runA H inst n k f e Q L ps)) (genOf F (k + e) ^ i)) ∧
      (∀ i, i < 2 ^ (k + f + e) → Q2.eval (genOf F (k + f + e) ^ i) =
        (L.eval (genOf F (k + f + e) ^ i) - G.eval (runZ H inst n k f e Q L)) / (genOf F (k + f + e) ^ i - runZ H inst n k f e Q L)) ∧
      bytesToChallengeIndex (H (runT3 H inst n k f e o Q L ps Q1 Q2).absorbed).bytes (2 ^ (k + e)) (2 ^ e) = .ok idx1 ∧
      bytesToChallengeIndex (H (nextT H (runT3 H inst n k f e o Q L ps Q1 Q2)).absorbed).bytes (2 ^ (k + f + e)) (2 ^ e)
          = .ok idx2 ∧
      idx1 < 2 ^ (k + e) ∧ idx1 % 2 = 1 ∧ idx2 < 2 ^ (k + f + e) ∧ idx2 % 2 = 1 ∧
      proof = wordProof H inst n k f e o P Q L ps Q1 Q2 idx1 idx2 := by
  have hS := hp.size
  have hfac := hp.factor
  have h32 := hp.size32
  have h32' := hp.factor32
  obtain ⟨ali, e1, hali⟩ := h.fromArp w (by omega) hp.coset
  obtain ⟨ps, eps, hps⟩ := h.maskPairs (show k ≤ StarkField.S F by omega)
  have hpr : Prover.new w inst (2 ^ e) (2 ^ o) = .ok ⟨arpOf inst k, ali, 2 ^ e, 2 ^ o, w⟩ := by
    unfold Prover.new
    rw [h.fromInstance (by omega), Res.ok_bind, e1, Res.ok_bind, Res.pure_def]
  rw [hprover] at hpr
  cases hpr
  have hnew : Transcript.new F = .ok ⟨[]⟩ := by
    unfold Transcript.new
    rw [decide_eq_true hp.challenge.1]; rfl
  have hq : ∀ r, ∃ q : F[X], (mkPoly .coefficients k (P r).coeff).lde w (2 ^ e)
      = .ok (mkPoly .values (k + e) (fun i => q.eval (genOf F (k + e) ^ i))) ∧
      mkPoly .values (k + e) (fun idx => evalF (2 ^ k) (P r).coeff (genOf F (k + e) ^ ldeExp w e idx))
        = mkPoly .values (k + e) (fun i => q.eval (genOf F (k + e) ^ i)) := by
    intro r
    have a := lde_exact w (f := e) (show k + e ≤ StarkField.S F by omega) (by omega) (P r).coeff
    obtain ⟨q, -, hq⟩ := shaped_poly (p := mkPoly .values (k + e) (fun idx => evalF (2 ^ k) (P r).coeff
      (genOf F (k + e) ^ ldeExp w e idx))) (by omega) ⟨_, rfl⟩
    exact ⟨q, by rw [a, hq], hq⟩
  choose Q hQ hQP using hq
  have hlink : ∀ r i, i < 2 ^ (k + e) → (Q r).eval (genOf F (k + e) ^ i) = (P r).eval (genOf F (k + e) ^ ldeExp w e i) := by
    intro r i hi
    have := congrArg (fun p : Poly F .values => p.coeffs[i]?) (hQP r)
    simp only [mkPoly_coeffs, getElem?_tab, if_pos hi, Option.some.injEq] at this
    rw [← this, evalF_coeff (hP r)]
  have m1 : mapRes (fun q => q.lde w (2 ^ e)) (tab n (fun r => mkPoly .coefficients k (P r).coeff))
      = .ok (tab n (fun r => mkPoly .values (k + e) (fun i => (Q r).eval (genOf F (k + e) ^ i)))) :=
    mapRes_tab _ _ _ _ (fun i _ => hQ i)
  have m2 : mapRes (fun l : Poly F .values => IopTree.create H w l.coeffs)
      (tab n (fun r => mkPoly .values (k + e) (fun i => (Q r).eval (genOf F (k + e) ^ i))))
      = .ok (tab n (fun r => friTree H (k + e) (Q r) 0)) :=
    mapRes_tab _ _ _ _ (fun i _ => friTree_create H w (k + e) (Q i) (i := 0) (by omega))
  have m3 : mapRes (fun o : IopTree => o.getRoot) (tab n (fun r => friTree H (k + e) (Q r) 0))
      = .ok (tab n (fun r => friRoot H (k + e) (Q r) 0)) :=
    mapRes_tab _ _ _ _ (fun i _ => friTree_root H (k + e) (Q i) (i := 0) (by omega))
  unfold Prover.prove at hproof
  simp only [hnew, Res.ok_bind, hw, m1, m2, m3] at hproof
  obtain ⟨⟨gp, t2⟩, hg, hproof⟩ := Res.bind_eq_ok.1 hproof
  have hgs := calculateG_safe (E := fun _ => True) H w (n := n) (by omega) (by omega) hp.challenge hali h.maxDeg h32 h.registers
    (fun c hc => ⟨h.constraintOk c hc, by obtain ⟨d, hd, -⟩ := h.dense c hc; exact ⟨d, hd⟩⟩) h.boundary
    ((tab n (fun r => friRoot H (k + e) (Q r) 0)).foldl (fun t r => t.commitBytes r.bytes) ⟨[]⟩)
    (witness := tab n (fun r => mkPoly .coefficients k (P r).coeff)) (length_tab _ _) (by
      intro p hp'
      obtain ⟨r, -, rfl⟩ := mem_tab.1 hp'
      exact ⟨_, rfl⟩)
  rw [hg] at hgs
  obtain ⟨g, eg⟩ := hgs
  simp only at eg
  subst eg
  have hgp : ∃ G : F[X], G.degree < (2 ^ (k + f) : ℕ) ∧ mkPoly .coefficients (k + f) g = mkPoly .coefficients (k + f) G.coeff := by
    refine ⟨∑ i ∈ range (2 ^ (k + f)), C (g i) * X ^ i, ?_, ?_⟩
    · refine (degree_sum_le _ _).trans_lt ?_
      refine (Finset.sup_lt_iff (by exact WithBot.bot_lt_coe _)).2 ?_
      intro i hi
      exact (degree_C_mul_X_pow_le _ _).trans_lt (by exact_mod_cast Finset.mem_range.1 hi)
    · apply mkPoly_congr
      intro i hi
      simp only [finset_sum_coeff, coeff_C_mul, coeff_X_pow, mul_ite, mul_one, mul_zero]
      rw [Finset.sum_ite_eq, if_pos (Finset.mem_range.2 hi)]
  obtain ⟨G, hG, egp⟩ := hgp
  rw [egp] at hg hproof
  have ht2 := calculateG_transcript H hp.challenge hg
  simp only [hali.props, hali.batches, afterBatches_all] at ht2
  rw [show (arpOf inst k).constraints.length = inst.constraints.length by simp [arpOf]] at ht2
  subst ht2
  have hl := lde_exact w (f := e) hS h32 G.coeff
  obtain ⟨L, -, eL⟩ := shaped_poly (p := mkPoly .values (k + f + e) (fun idx => evalF (2 ^ (k + f)) G.coeff
    (genOf F (k + f + e) ^ ldeExp w e idx))) hS ⟨_, rfl⟩
  rw [eL] at hl
  have m5 : IopTree.create H w (mkPoly .values (k + f + e) (fun i => L.eval (genOf F (k + f + e) ^ i))).coeffs
      = .ok (friTree H (k + f + e) L 0) := friTree_create H w (k + f + e) L (i := 0) (by omega)
  have m6 := friTree_root H (k + f + e) L (i := 0) (by omega)
  simp only [hl, m5, m6, Res.ok_bind] at hproof
  obtain ⟨d, hd, hproof⟩ := Res.bind_eq_ok.1 hproof
  have hdd := calculateDeep_word H hp.challenge w (N := k + e) (M := k + f + e) (by omega) hS (by omega) h.pos (by omega) hP hG ps
    _ hps (hali.masks.trans eps) hd
  obtain ⟨hz, hdr⟩ := hdd
  change runZ H inst n k f e Q L ^ 2 ^ (k + f + e) ≠ 1 at hz
  obtain ⟨Q1, q1, v1⟩ := exists_poly_values (F := F) (show k + e ≤ StarkField.S F by omega) one_ne_zero (fun i => wordAt P Q (runZ H inst n k f e Q L)
          (ps.zip (runA H inst n k f e Q L ps)) (genOf F (k + e) ^ i))
  obtain ⟨Q2, q2, v2⟩ := exists_poly_values (F := F) hS one_ne_zero (fun i => 
        (L.eval (genOf F (k + f + e) ^ i) - G.eval (runZ H inst n k f e Q L)) / (genOf F (k + f + e) ^ i - runZ H inst n k f e Q L))
  simp only [one_mul] at v1 v2
  have even : ∀ m, 1 ≤ m → 2 ^ m % 2 = 0 := by
    intro m hm
    exact Nat.mod_eq_zero_of_dvd (dvd_pow_self 2 (by omega))
  obtain ⟨idx1, i1, i1l, i1o⟩ := C23_index_odd (H (runT3 H inst n k f e o Q L ps Q1 Q2).absorbed).bytes
    (by rw [(H _).len]; norm_num) (2 ^ (k + e)) (2 ^ e) (by positivity) (even _ (by omega)) (by positivity)
  obtain ⟨idx2, i2, i2l, i2o⟩ := C23_index_odd (H (nextT H (runT3 H inst n k f e o Q L ps Q1 Q2)).absorbed).bytes
    (by rw [(H _).len]; norm_num) (2 ^ (k + f + e)) (2 ^ e) (by positivity) (even _ (by omega)) (by positivity)
  refine ⟨Q, G, L, ps, Q1, Q2, idx1, idx2, hlink, eps, hps, hG, ⟨rfl, hg⟩, hl, hz, q1, q2, v1, v2, i1, i2, i1l, i1o, i2l, i2o, ?_⟩
  have w1 : mkPoly .values (k + e) (fun i => wordAt P Q (runZ H inst n k f e Q L) (ps.zip (runA H inst n k f e Q L ps))
      (genOf F (k + e) ^ i)) = mkPoly .values (k + e) (friVals (k + e) Q1) :=
    mkPoly_congr (fun i hi => (v1 i hi).symm)
  have w2 : mkPoly .values (k + f + e) (fun i => (L.eval (genOf F (k + f + e) ^ i) - G.eval (runZ H inst n k f e Q L)) /
      (genOf F (k + f + e) ^ i - runZ H inst n k f e Q L)) = mkPoly .values (k + f + e) (friVals (k + f + e) Q2) :=
    mkPoly_congr (fun i hi => (v2 i hi).symm)
  replace hdr : d = ⟨mkPoly .values (k + e) (fun i => wordAt P Q (runZ H inst n k f e Q L) (ps.zip (runA H inst n k f e Q L ps))
      (genOf F (k + e) ^ i)), mkPoly .values (k + f + e) (fun i => (L.eval (genOf F (k + f + e) ^ i) - G.eval (runZ H inst n k f e Q L)) /
      (genOf F (k + f + e) ^ i - runZ H inst n k f e Q L)), ps.map (fun p => (P p.1).eval (p.2 * runZ H inst n k f e Q L)),
      G.eval (runZ H inst n k f e Q L), afterS H ps.length (nextT H (runT2 H inst n k f e Q L))⟩ := hdr
  rw [w1, w2] at hdr
  subst hdr
  have p1 := friProofByValues_eq H hp.challenge w (n := k + e) (f := e) (o := o) (by omega) (by omega) (by omega) h32' q1
  have p2 := friProofByValues_eq H hp.challenge w (n := k + f + e) (f := e) (o := o) (by omega) (by omega) (by omega) h32' q2
  have r1 := getRoots_honest H (n := k + e) (f := e) (o := o) (by omega) (by omega) Q1
  have r2 := getRoots_honest H (n := k + f + e) (f := e) (o := o) (by omega) (by omega) Q2
  have s1 := produceProof_honest H (n := k + e) (f := e) (o := o) (by omega) (by omega) (p := Q1) i1l
  have s2 := produceProof_honest H (n := k + f + e) (f := e) (o := o) (by omega) (by omega) (p := Q2) i2l
  have u1 : mapRes (fun o : IopTree × Poly F .values => o.1.query H idx1 o.2.coeffs)
      ((tab n (fun r => friTree H (k + e) (Q r) 0)).zip
        (tab n (fun r => mkPoly .values (k + e) (fun i => (Q r).eval (genOf F (k + e) ^ i)))))
      = .ok (tab n (fun r => friQuery H (k + e) (Q r) 0 idx1)) := by
    rw [zip_tab, min_self]
    exact mapRes_tab _ _ _ _ (fun i _ => friTree_query H (k + e) (Q i) (i := 0) (by omega) i1l)
  have u2 : (friTree H (k + f + e) L 0).query H idx2 (mkPoly .values (k + f + e) (fun i => L.eval (genOf F (k + f + e) ^ i))).coeffs
      = .ok (friQuery H (k + f + e) L 0 idx2) := friTree_query H (k + f + e) L (i := 0) (by omega) i2l
  simp only [Res.ok_bind, p1, p2, r1, r2, mkPoly_size] at hproof
  erw [i1, Res.ok_bind] at hproof
  erw [i2, Res.ok_bind] at hproof
  simp only [s1, s2, u1, u2, Res.ok_bind] at hproof
  cases hproof
  rfl

/-- What `prove` returns on a runnable instance, if it returns a proof, on any number of CPUs. -/
theorem prove_word (w : Worker) (h : Runnable inst n k f) (hp : ProverParams F k f e o) (hout : o < k) {witness : List (List F)}
    (hw : calculateWitnessPolys (arpOf inst k) witness w = .ok (tab n (fun r => mkPoly .coefficients k (P r).coeff)))
    (hP : ∀ r, (P r).degree < (2 ^ k : ℕ)) {prover : Prover F} (hprover : Prover.new w inst (2 ^ e) (2 ^ o) = .ok prover)
    {proof : InstanceProof F} (hproof : prover.prove H witness = .ok proof) :
    ∃ (Q : ℕ → F[X]) (G L : F[X]) (ps : List (ℕ × F)) (Q1 Q2 : F[X]) (idx1 idx2 : ℕ),
      masksOf (arpOf inst k) = ps.map toMask ∧ (∀ p ∈ ps, p.1 < n ∧ p.2 ^ 2 ^ k = 1) ∧ G.degree < (2 ^ (k + f) : ℕ) ∧
      (prover.arp = arpOf inst k ∧ prover.ali.calculateG H (runT1 H n k e Q) (tab n (fun r => mkPoly .coefficients k (P r).coeff)) w
        = .ok (mkPoly .coefficients (k + f) G.coeff,
          afterN H inst.boundaryConstraints.length (afterN H inst.constraints.length (runT1 H n k e Q)))) ∧
      (mkPoly .coefficients (k + f) G.coeff).lde w (2 ^ e) = .ok (mkPoly .values (k + f + e) (fun i => L.eval (genOf F (k + f + e) ^ i))) ∧
      runZ H inst n k f e Q L ^ 2 ^ (k + f + e) ≠ 1 ∧
      Q1.degree < (2 ^ (k + e) : ℕ) ∧ Q2.degree < (2 ^ (k + f + e) : ℕ) ∧
      (∀ i, i < 2 ^ (k + e) → Q1.eval (genOf F (k + e) ^ i) = wordAt P Q (runZ H inst n k f e Q L)
          (ps.zip (runA H inst n k f e Q L ps)) (genOf F (k + e) ^ i)) ∧
      (∀ i, i < 2 ^ (k + f + e) → Q2.eval (genOf F (k + f + e) ^ i) =
        (L.eval (genOf F (k + f + e) ^ i) - G.eval (runZ H inst n k f e Q L)) / (genOf F (k + f + e) ^ i - runZ H inst n k f e Q L)) ∧
      bytesToChallengeIndex (H (runT3 H inst n k f e o Q L ps Q1 Q2).absorbed).bytes (2 ^ (k + e)) (2 ^ e) = .ok idx1 ∧
      bytesToChallengeIndex (H (nextT H (runT3 H inst n k f e o Q L ps Q1 Q2)).absorbed).bytes (2 ^ (k + f + e)) (2 ^ e)
          = .ok idx2 ∧
      idx1 < 2 ^ (k + e) ∧ idx1 % 2 = 1 ∧ idx2 < 2 ^ (k + f + e) ∧ idx2 % 2 = 1 ∧
      proof = wordProof H inst n k f e o P Q L ps Q1 Q2 idx1 idx2 := by
  obtain ⟨Q, G, L, ps, Q1, Q2, idx1, idx2, -, r⟩ := prove_word_lde H w h hp hout hw hP hprover hproof
  exact ⟨Q, G, L, ps, Q1, Q2, idx1, idx2, r⟩

end

end Hodor

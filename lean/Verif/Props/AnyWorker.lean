import Verif.Lemmas.RunAnyV
import Verif.Props.HonestRun
import Verif.Props.LdeExact

/-!
# C09, C10: for which polynomials the extension is right; C45, C64: the verdict on the prover's proof on any number of CPUs
-/

namespace Hodor

open Polynomial Finset Spec

variable {F : Type} [Field F] [DecidableEq F] [StarkField F] (H : List UInt8 → Digest)

section lde

omit [DecidableEq F] in
/-- A polynomial of degree below `2^k` with the same values on two different cosets among the `2^f` first ones is constant. -/
theorem const_of_cosets {k f c : ℕ} (hk : k + f ≤ StarkField.S F) (h2 : 2 ≤ c) (hc : c < 2 ^ f) {s : F} (hs : s ≠ 0) {p : F[X]}
    (hp : p.degree < (2 ^ k : ℕ))
    (h : ∀ j, j < 2 ^ k → p.eval (s * genOf F (k + f) ^ (1 + 2 ^ f * j)) = p.eval (s * genOf F (k + f) ^ (c + 2 ^ f * j))) :
    p = C (p.coeff 0) := by
  have hg : genOf F (k + f) ^ 2 ^ f = genOf F k := genOf_pow hk
  have hw : genOf F (k + f) ≠ 0 := genOf_ne_zero hk
  have hcomp : ∀ a : F, (p.comp (C a * X)).degree < (2 ^ k : ℕ) := by
    intro a
    rw [degree_lt_iff_coeff_zero] at hp ⊢
    intro i hi
    rw [comp_C_mul_X_coeff, hp i hi, zero_mul]
  have he : p.comp (C (s * genOf F (k + f)) * X) = p.comp (C (s * genOf F (k + f) ^ c) * X) := by
    refine eq_of_eval_coset (genOf_prim (show k ≤ StarkField.S F by omega)) one_ne_zero (hcomp _) (hcomp _) ?_
    intro j hj
    have a := h j hj
    simp only [eval_comp, eval_mul, eval_C, eval_X, one_mul]
    rw [pow_add, pow_one, pow_mul, hg, pow_add, pow_mul, hg, ← mul_assoc, ← mul_assoc] at a
    exact a
  ext i
  rw [coeff_C]
  split
  · rename_i hi; rw [hi]
  · rename_i hi
    by_contra hne
    have hik : i < 2 ^ k := by
      by_contra hle
      exact hne ((degree_lt_iff_coeff_zero _ _).1 hp i (by omega))
    have a := congrArg (fun q => q.coeff i) he
    simp only [comp_C_mul_X_coeff] at a
    have b := mul_left_cancel₀ hne a
    rw [mul_pow, mul_pow] at b
    have b' := mul_left_cancel₀ (pow_ne_zero _ hs) b
    rw [← pow_mul] at b'
    have hlt1 : i < 2 ^ (k + f) := lt_of_lt_of_le hik (Nat.pow_le_pow_right (by norm_num) (by omega))
    have hlt2 : c * i < 2 ^ (k + f) := by
      rw [pow_add, mul_comm (2 ^ k)]
      exact Nat.mul_lt_mul'' hc hik
    have := (genOf_prim hk).pow_inj hlt1 hlt2 b'
    nlinarith [Nat.pos_of_ne_zero hi]

/-- The values of `p` at the points the code uses are those of a polynomial of the size of `p` only if `p` is constant or the points are right. -/
theorem codeword_const {w : Worker} {k f : ℕ} (hk : k + f ≤ StarkField.S F) (hbad : ¬ LdeOk w (2 ^ f)) {s : F} (hs : s ≠ 0)
    {p q : F[X]} (hp : p.degree < (2 ^ k : ℕ)) (hq : q.degree < (2 ^ k : ℕ))
    (h : ∀ i, i < 2 ^ (k + f) → p.eval (s * genOf F (k + f) ^ ldeExp w f i) = q.eval (s * genOf F (k + f) ^ i)) :
    p = C (p.coeff 0) := by
  obtain ⟨c, hc2, hcf, hce⟩ := ldeExp_wrong hbad
  have hf : 0 < 2 ^ f := by positivity
  have hlt : ∀ r j, r < 2 ^ f → j < 2 ^ k → r + 2 ^ f * j < 2 ^ (k + f) := by
    intro r j hr hj
    rw [pow_add]
    calc r + 2 ^ f * j < 2 ^ f * (j + 1) := by rw [mul_add]; omega
      _ ≤ 2 ^ f * 2 ^ k := Nat.mul_le_mul le_rfl hj
      _ = 2 ^ k * 2 ^ f := mul_comm _ _
  have hexp : ∀ r j, r < 2 ^ f → ldeExp w f (r + 2 ^ f * j) = ldeExp w f r + 2 ^ f * j := by
    intro r j hr
    unfold ldeExp
    rw [Nat.add_mul_mod_self_left, Nat.mod_eq_of_lt hr, Nat.add_mul_div_left _ _ hf, Nat.div_eq_of_lt hr]
    simp
  have h0 : ldeExp w f 0 = 0 := by
    unfold ldeExp ldeStart
    simp
  have hpq : p = q := by
    refine eq_of_eval_coset (genOf_prim (show k ≤ StarkField.S F by omega)) hs hp hq ?_
    intro j hj
    have := h (0 + 2 ^ f * j) (hlt 0 j hf hj)
    rw [hexp 0 j hf, h0, Nat.zero_add, pow_mul, show genOf F (k + f) ^ 2 ^ f = genOf F k from genOf_pow hk] at this
    exact this
  subst hpq
  refine const_of_cosets hk hc2 hcf hs hp ?_
  intro j hj
  have := h (c + 2 ^ f * j) (hlt c j hcf hj)
  rwa [hexp c j hcf, hce] at this

/-- The polynomial has no coefficient except, possibly, the constant one. -/
def Spec.IsConstant (p : Poly F .coefficients) : Prop := ∀ i, 0 < i → p.coeffs.getD i 0 = 0

/-- The returned table lists, on the domain of size `size * factor` shifted by `shift`, the values of some polynomial with `size` coefficients. -/
def Spec.IsCodeword (size factor : ℕ) (shift : F) (r : Res (Poly F .values)) : Prop :=
  ∃ q d, ∃ a : List F, r = .ok q ∧ Domain.newForSize F (size * factor) = .ok d ∧ a.length = size ∧
    EvaluatesOn a shift d.generator (size * factor) q.coeffs

omit [DecidableEq F] in
theorem isConstant_mk {k : ℕ} {p : F[X]} (hp : p.degree < (2 ^ k : ℕ)) :
    Spec.IsConstant (mkPoly .coefficients k p.coeff) ↔ p = C (p.coeff 0) := by
  have hget : ∀ i, (mkPoly (F := F) .coefficients k p.coeff).coeffs.getD i 0 = p.coeff i := by
    intro i
    rw [mkPoly_coeffs, List.getD_eq_getElem?_getD, getElem?_tab]
    split
    · rfl
    · rename_i h
      exact ((degree_lt_iff_coeff_zero _ _).1 hp i (by omega)).symm
  constructor
  · intro h
    ext i
    rw [coeff_C]
    split
    · rename_i hi; rw [hi]
    · rename_i hi
      rw [← hget]
      exact h i (by omega)
  · intro h i hi
    rw [hget, h, coeff_C, if_neg (by omega)]

theorem exists_poly_mk {k : ℕ} (g : ℕ → F) :
    ∃ p : F[X], p.degree < (2 ^ k : ℕ) ∧ mkPoly .coefficients k g = mkPoly .coefficients k p.coeff := by
  refine ⟨∑ i ∈ range (2 ^ k), C (g i) * X ^ i, ?_, ?_⟩
  · refine (degree_sum_le _ _).trans_lt ?_
    refine (Finset.sup_lt_iff (by exact WithBot.bot_lt_coe _)).2 ?_
    intro i hi
    exact (degree_C_mul_X_pow_le _ _).trans_lt (by exact_mod_cast Finset.mem_range.1 hi)
  · apply mkPoly_congr
    intro i hi
    simp only [finset_sum_coeff, coeff_C_mul, coeff_X_pow, mul_ite, mul_one, mul_zero]
    rw [Finset.sum_ite_eq, if_pos (Finset.mem_range.2 hi)]

/-- The exact condition for any table computed with the points of `ldeExp`. -/
theorem codeword_iff (w : Worker) {k f : ℕ} (hk : k + f ≤ StarkField.S F) {s : F} (hs : s ≠ 0) {p : F[X]}
    (hp : p.degree < (2 ^ k : ℕ)) {r : Res (Poly F .values)}
    (hr : r = .ok (mkPoly .values (k + f) (fun i => p.eval (s * genOf F (k + f) ^ ldeExp w f i)))) :
    (Spec.IsCodeword (2 ^ k) (2 ^ f) s r ↔ LdeOk w (2 ^ f) ∨ Spec.IsConstant (mkPoly .coefficients k p.coeff)) ∧
    (Spec.LdeCorrect (mkPoly .coefficients k p.coeff) (2 ^ f) s r ↔ LdeOk w (2 ^ f) ∨ Spec.IsConstant (mkPoly .coefficients k p.coeff)) := by
  have hdom : Domain.newForSize F (2 ^ k * 2 ^ f) = .ok (domOf F (k + f)) := by
    rw [← pow_add]; exact newForSize_pow hk
  have hev : ∀ x, Spec.evalPoly (mkPoly (F := F) .coefficients k p.coeff).coeffs x = p.eval x := by
    intro x
    rw [mkPoly_coeffs, evalPoly_tab, evalF_coeff hp]
  have h1 : LdeOk w (2 ^ f) ∨ Spec.IsConstant (mkPoly .coefficients k p.coeff) →
      Spec.LdeCorrect (mkPoly .coefficients k p.coeff) (2 ^ f) s r := by
    intro h
    refine ⟨_, _, hr, by rw [mkPoly_size]; exact hdom, by rw [mkPoly_size, ← pow_add]; rfl, ?_⟩
    refine ⟨by simp [domOf], fun j hj => ?_⟩
    have hj' : j < 2 ^ (k + f) := hj
    rw [hev, mkPoly_coeffs, getElem?_tab, if_pos hj']
    congr 1
    rcases h with h | h
    · rw [ldeExp_of_ok h]
      rfl
    · rw [isConstant_mk hp] at h
      rw [h]
      simp
  have h2 : Spec.LdeCorrect (mkPoly .coefficients k p.coeff) (2 ^ f) s r → Spec.IsCodeword (2 ^ k) (2 ^ f) s r := by
    rintro ⟨q, d, a1, a2, a3, a4⟩
    rw [mkPoly_size] at a2 a3
    exact ⟨q, d, (mkPoly (F := F) .coefficients k p.coeff).coeffs, a1, a2, by simp, by rw [← a3]; exact a4⟩
  have h3 : Spec.IsCodeword (2 ^ k) (2 ^ f) s r → LdeOk w (2 ^ f) ∨ Spec.IsConstant (mkPoly .coefficients k p.coeff) := by
    rintro ⟨q, d, a, a1, a2, a3, a4⟩
    by_cases hbad : LdeOk w (2 ^ f)
    · exact .inl hbad
    right
    rw [hr] at a1
    cases a1
    rw [hdom] at a2
    cases a2
    rw [isConstant_mk hp]
    refine codeword_const hk hbad hs hp (q := polyOfList a) (by rw [← a3]; exact polyOf_degree _ _) ?_
    intro i hi
    have := a4.2 i (by rw [← pow_add]; exact hi)
    rw [mkPoly_coeffs, getElem?_tab, if_pos hi] at this
    rw [polyOfList_eval]
    exact Option.some.inj this
  exact ⟨⟨h3, fun h => h2 (h1 h)⟩, ⟨fun h => h3 (h2 h), h1⟩⟩

/-- **C09 (polynomial by polynomial).** For every polynomial, factor and worker: `lde` is right if and only if the worker has one CPU, or the factor is below twice the number of CPUs, or the polynomial is constant. In all other cases its result is not
even the extension of another polynomial of that size. -/
theorem C09_lde_codeword_iff (w : Worker) (p : Poly F .coefficients) (hp : p.Valid) (f : ℕ)
    (hS : p.exp + f ≤ StarkField.S F) (h32 : p.exp < 32) :
    (Spec.LdeCorrect p (2 ^ f) 1 (p.lde w (2 ^ f)) ↔ w.cpus = 1 ∨ 2 ^ f < 2 * w.cpus ∨ Spec.IsConstant p) ∧
    (Spec.IsCodeword p.size (2 ^ f) 1 (p.lde w (2 ^ f)) ↔ w.cpus = 1 ∨ 2 ^ f < 2 * w.cpus ∨ Spec.IsConstant p) := by
  obtain ⟨k, g, hk, rfl⟩ := hp.exists_mk
  simp only [mkPoly_exp] at h32 hS
  obtain ⟨P, hP, eP⟩ := exists_poly_mk (k := k) g
  rw [eP, mkPoly_size, ← or_assoc]
  have hr : (mkPoly .coefficients k P.coeff).lde w (2 ^ f)
      = .ok (mkPoly .values (k + f) (fun i => P.eval (1 * genOf F (k + f) ^ ldeExp w f i))) := by
    rw [lde_exact w hS h32]
    congr 1
    apply mkPoly_congr
    intro i _
    rw [evalF_coeff hP, one_mul]
  exact (codeword_iff w hS one_ne_zero hP hr).symm

/-- **C10 (polynomial by polynomial).** The same for `coset_lde`. -/
theorem C10_coset_lde_codeword_iff (w : Worker) (p : Poly F .coefficients) (hp : p.Valid) (f : ℕ)
    (hS : p.exp + f ≤ StarkField.S F) (h32 : p.exp < 32) :
    (Spec.LdeCorrect p (2 ^ f) StarkField.mulGen (p.cosetLde w (2 ^ f)) ↔ w.cpus = 1 ∨ 2 ^ f < 2 * w.cpus ∨ Spec.IsConstant p) ∧
    (Spec.IsCodeword p.size (2 ^ f) StarkField.mulGen (p.cosetLde w (2 ^ f)) ↔ w.cpus = 1 ∨ 2 ^ f < 2 * w.cpus ∨ Spec.IsConstant p) := by
  obtain ⟨k, g, hk, rfl⟩ := hp.exists_mk
  simp only [mkPoly_exp] at h32 hS
  obtain ⟨P, hP, eP⟩ := exists_poly_mk (k := k) g
  rw [eP, mkPoly_size, ← or_assoc]
  have hr : (mkPoly .coefficients k P.coeff).cosetLde w (2 ^ f)
      = .ok (mkPoly .values (k + f) (fun i => P.eval (StarkField.mulGen * genOf F (k + f) ^ ldeExp w f i))) := by
    rw [cosetLde_exact w hS h32]
    congr 1
    apply mkPoly_congr
    intro i _
    rw [evalF_coeff hP]
  exact (codeword_iff w hS StarkField.mulGen_ne_zero hP hr).symm

end lde

section
variable (w : Worker) {inst : InstanceProperties F} {n k f e o : ℕ}

/-- What `verify` answers on the proof of a run: both FRI proofs must pass their last check, and the claimed value of `g` must be that of the composition. -/
theorem verify_word_iff (h : Runnable inst n k f) (hp : ProverParams F k f e o) (hout : o < k) {P Q : ℕ → F[X]} {G L : F[X]}
    {ps : List (ℕ × F)} {Q1 Q2 : F[X]} {v : Verifier F} (hver : Verifier.new inst (2 ^ e) = .ok v)
    (hver' : VerOk v (arpOf inst k) k (k + f) (2 ^ e)) (eps : masksOf (arpOf inst k) = ps.map toMask) {idx1 idx2 : ℕ}
    (hps : ∀ p ∈ ps, p.1 < n ∧ p.2 ^ 2 ^ k = 1)
    (hz : runZ H inst n k f e Q L ^ 2 ^ (k + f + e) ≠ 1)
    (v1 : ∀ i, i < 2 ^ (k + e) → Q1.eval (genOf F (k + e) ^ i) = wordAt P Q (runZ H inst n k f e Q L)
          (ps.zip (runA H inst n k f e Q L ps)) (genOf F (k + e) ^ i))
    (v2 : ∀ i, i < 2 ^ (k + f + e) → Q2.eval (genOf F (k + f + e) ^ i) =
        (L.eval (genOf F (k + f + e) ^ i) - G.eval (runZ H inst n k f e Q L)) / (genOf F (k + f + e) ^ i - runZ H inst n k f e Q L))
    (i1 : bytesToChallengeIndex (H (runT3 H inst n k f e o Q L ps Q1 Q2).absorbed).bytes (2 ^ (k + e)) (2 ^ e) = .ok idx1)
    (i2 : bytesToChallengeIndex (H (nextT H (runT3 H inst n k f e o Q L ps Q1 Q2)).absorbed).bytes (2 ^ (k + f + e)) (2 ^ e)
          = .ok idx2)
    (i1l : idx1 < 2 ^ (k + e)) (i1o : idx1 % 2 = 1) (i2l : idx2 < 2 ^ (k + f + e)) (i2o : idx2 % 2 = 1) :
    ∃ b, v.verify H (wordProof H inst n k f e o P Q L ps Q1 Q2 idx1 idx2) = .ok b ∧
      (b = true ↔ LastOpeningOk (honestProof H (k + e) e o Q1 idx1) (2 ^ (e + o - 1)) idx1 ∧
        LastOpeningOk (honestProof H (k + f + e) e o Q2 idx2) (2 ^ (e + o - 1)) idx2 ∧
        G.eval (runZ H inst n k f e Q L) = wordComp H inst n k f e P Q (runZ H inst n k f e Q L)) := by
  have hS := hp.size
  have hfac := hp.factor
  have hc : ChallengeOk F := hp.challenge
  rw [verify_word H h hp hver hver' eps hps hz v1 i1 i2 i1l i2l,
    lastOpeningOk_honest H hc (show k + e ≤ StarkField.S F by omega) (by omega) (by omega),
    lastOpeningOk_honest H hc hS (by omega) (by omega),
    verifyProof_honest H hc (show k + e ≤ StarkField.S F by omega) (by omega) (by omega) i1l, if_pos i1o, Res.ok_bind]
  split
  · rename_i hA
    rw [decide_eq_false_iff_not] at hA
    exact ⟨false, rfl, ⟨fun h => (by cases h), fun h => absurd h.1 hA⟩⟩
  · rename_i hA
    rw [Bool.not_eq_false, decide_eq_true_eq] at hA
    by_cases hcomp : G.eval (runZ H inst n k f e Q L) = wordComp H inst n k f e P Q (runZ H inst n k f e Q L)
    · have hval : (L.eval (genOf F (k + f + e) ^ idx2) - wordComp H inst n k f e P Q (runZ H inst n k f e Q L)) /
          (genOf F (k + f + e) ^ idx2 - runZ H inst n k f e Q L) = friVals (k + f + e) Q2 idx2 := by
        rw [← hcomp, friVals, v2 idx2 i2l]
      rw [hval, verifyProof_honest H hc hS (by omega) (by omega) i2l, if_pos i2o]
      refine ⟨_, rfl, ?_⟩
      rw [decide_eq_true_eq]
      exact ⟨fun h => ⟨hA, h, hcomp⟩, fun h => h.2.1⟩
    · rw [verifyProof_wrong H hS (by omega) i2l i2o]
      · exact ⟨_, rfl, by simp [hcomp]⟩
      · rw [friVals, v2 idx2 i2l]
        intro hq
        have hne : genOf F (k + f + e) ^ idx2 - runZ H inst n k f e Q L ≠ 0 := domain_ne hS hz idx2
        rw [div_left_inj' hne] at hq
        exact hcomp (sub_right_injective hq).symm

/-- **C64 (the verifier's answer on any machine).** Whatever the number of CPUs, the LDE factor and the number of final coefficients: whenever `prove` returns a proof for a runnable instance and a witness
table, satisfying or not, `verify` answers that proof, and the answer is `true` exactly if the prover's polynomial `G`, at the point `z` which the verifier derives, has the value of the composition of the
constraints with the verifier's challenges, and in both FRI proofs the final coefficients have the value which the last two openings fold to. -/
theorem C64_accepted_any_worker (h : Runnable inst n k f) (hp : ProverParams F k f e o) (hout : o < k) (witness : List (List F))
    (hw : IsTable witness n (2 ^ k)) (prover : Prover F) (hprover : Prover.new w inst (2 ^ e) (2 ^ o) = .ok prover)
    (v : Verifier F) (hver : Verifier.new inst (2 ^ e) = .ok v) (proof : InstanceProof F)
    (hproof : prover.prove H witness = .ok proof) :
    ∃ ch fDom gDom dom ps G t t1 t' gLde gTree b, v.deriveChallenges H proof = .ok (ch, fDom, gDom) ∧
      Domain.newForSize F (2 ^ k) = .ok dom ∧ calculateWitnessPolys prover.arp witness w = .ok ps ∧
      t = afterRoots proof.fIopRoots ∧ prover.ali.calculateG H t ps w = .ok (G, t') ∧ G.size = 2 ^ (k + f) ∧
      forEach inst.constraints ([], t) (fun _ s => drawPair H s) = .ok (ch.constraintChallenges, t1) ∧
      forEach inst.boundaryConstraints ([], t1) (fun _ s => drawPair H s) = .ok (ch.boundaryChallenges, t') ∧
      G.lde w (2 ^ e) = .ok gLde ∧ IopTree.create H w gLde.coeffs = .ok gTree ∧ gTree.getRoot = .ok proof.gIopRoot ∧
      ch.z ^ 2 ^ (k + f + e) ≠ 1 ∧
      v.verify H proof = .ok b ∧
      (b = true ↔ LastOpeningOk proof.friProofH1 (2 ^ (e + o - 1)) ch.idx1 ∧ LastOpeningOk proof.friProofH2 (2 ^ (e + o - 1)) ch.idx2 ∧
        ch.z ∈ agreement dom.generator (2 ^ k) (2 ^ f) (polyEnv w ps) ((batchesOf prover.arp.constraints).flatMap (·.2))
          inst.boundaryConstraints (G.evaluateAt w) ch.constraintChallenges ch.boundaryChallenges) := by
  have hS := hp.size
  have h32 := hp.size32
  have hc : ChallengeOk F := hp.challenge
  obtain ⟨P, e2, hP, h0, hv⟩ := witnessPolys_ok w (inst := arpOf inst k) h.pos hw (by omega) (by omega) h.registers h.rows
  obtain ⟨v', e3, hver'⟩ := h.newVerifier (by omega) (2 ^ e)
  rw [hver] at e3
  cases e3
  obtain ⟨Q, G, L, ps, Q1, Q2, idx1, idx2, eps, hps, hG, ⟨earp, eg⟩, hl, hz, -, -, v1, v2, i1, i2, i1l, i1o, i2l, i2o, rfl⟩ :=
    prove_word H w h hp hout e2 hP hprover hproof
  have hzk : runZ H inst n k f e Q L ^ 2 ^ k ≠ 1 := by
    intro hc
    apply hz
    rw [show 2 ^ (k + f + e) = 2 ^ k * 2 ^ (f + e) by rw [← pow_add, Nat.add_assoc], pow_mul, hc, one_pow]
  obtain ⟨b, hb1, hb2⟩ := verify_word_iff H h hp hout hver hver' eps hps hz v1 v2 i1 i2 i1l i1o i2l i2o
  refine ⟨_, _, _, domOf F k, _, _, _, _, _, _, friTree H (k + f + e) L 0, b, derive_word H hp hver' eps i1 i2, newForSize_pow (by omega),
    by rw [earp]; exact e2, rfl, eg, by simp, drawPairs_ok H hc _ _ _, drawPairs_ok H hc _ _ _, hl,
    friTree_create H w (k + f + e) L (i := 0) (by omega), friTree_root H (k + f + e) L (i := 0) (by omega), hz, hb1, ?_⟩
  rw [hb2]
  refine and_congr Iff.rfl (and_congr Iff.rfl ?_)
  rw [agreement, Set.mem_ofPred_eq, polyEnv_eq w hP h0, evaluateAt_poly w (k + f) hG, earp]
  unfold wordComp batched
  rw [h.rows]
  exact ⟨fun h => ⟨hzk, h⟩, fun h => h.2⟩

/-- **C45 (the verdict on honest proofs, exactly).** For every suitable instance and satisfying witness, whatever the LDE factor and the number of final FRI coefficients, on every machine with more CPUs than half the maximal constraint
degree: the proof which `prove` returns is accepted if and only if in both FRI proofs the final coefficients have the value which the last two openings fold to. -/
theorem C45_verdict (h : Suitable inst n k f) (hp : ProverParams F k f e o) (hout : o < k)
    (hlde : w.cpus = 1 ∨ 2 ^ f < 2 * w.cpus) (witness : List (List F))
    (hw : IsTable witness n (2 ^ k)) (hsat : Satisfies inst (cellR witness) (2 ^ k))
    (prover : Prover F) (hprover : Prover.new w inst (2 ^ e) (2 ^ o) = .ok prover)
    (v : Verifier F) (hver : Verifier.new inst (2 ^ e) = .ok v) (proof : InstanceProof F)
    (hproof : prover.prove H witness = .ok proof) :
    ∃ ch fDom gDom b, v.deriveChallenges H proof = .ok (ch, fDom, gDom) ∧ v.verify H proof = .ok b ∧
      (b = true ↔ LastOpeningOk proof.friProofH1 (2 ^ (e + o - 1)) ch.idx1 ∧
        LastOpeningOk proof.friProofH2 (2 ^ (e + o - 1)) ch.idx2) := by
  have hS := hp.size
  have h32 := hp.size32
  have hr := h.runnable
  obtain ⟨P, e2, hP, h0, hv⟩ := witnessPolys_ok w (inst := arpOf inst k) hr.pos hw (by omega) (by omega) hr.registers hr.rows
  obtain ⟨v', e3, hver'⟩ := hr.newVerifier (by omega) (2 ^ e)
  rw [hver] at e3
  cases e3
  obtain ⟨Q, G, L, ps, Q1, Q2, idx1, idx2, eps, hps, hG, ⟨earp, eg⟩, hl, hz, -, -, v1, v2, i1, i2, i1l, i1o, i2l, i2o, rfl⟩ :=
    prove_word H w hr hp hout e2 hP hprover hproof
  obtain ⟨b, hb1, hb2⟩ := verify_word_iff H hr hp hout hver hver' eps hps hz v1 v2 i1 i2 i1l i1o i2l i2o
  refine ⟨_, _, _, b, derive_word H hp hver' eps i1 i2, hb1, ?_⟩
  rw [hb2]
  have hzk : runZ H inst n k f e Q L ^ 2 ^ k ≠ 1 := by
    intro hc
    apply hz
    rw [show 2 ^ (k + f + e) = 2 ^ k * 2 ^ (f + e) by rw [← pow_add, Nat.add_assoc], pow_mul, hc, one_pow]
  obtain ⟨ali, e1, hali⟩ := hr.fromArp w (by omega) hp.coset
  have hpr : Prover.new w inst (2 ^ e) (2 ^ o) = .ok ⟨arpOf inst k, ali, 2 ^ e, 2 ^ o, w⟩ := by
    unfold Prover.new
    rw [hr.fromInstance (by omega), Res.ok_bind, e1, Res.ok_bind, Res.pure_def]
  rw [hprover] at hpr
  cases hpr
  obtain ⟨G', hG', hGv⟩ := composition_exists H h (by omega) hP hv hsat (runT1 H n k e Q)
  have hab := afterBatches_all H (arpOf inst k).constraints (runT1 H n k e Q)
  rw [show (arpOf inst k).constraints.length = inst.constraints.length by simp [arpOf]] at hab
  have e4 := calculateG_ok H w (by omega) (by omega) hlde (fun r _ => hP r) hp.challenge hali hr.maxDeg h32 hr.registers
    (fun c hc => ⟨hr.constraintOk c hc, by obtain ⟨d, hd, -⟩ := hr.dense c hc; exact ⟨d, hd⟩⟩) hr.boundary (runT1 H n k e Q) hG' (by
      rw [hab]; exact fun i _ => composition_coset H h (by omega) hp.coset hGv i)
  rw [hab] at e4
  have hGG : G.eval (runZ H inst n k f e Q L) = G'.eval (runZ H inst n k f e Q L) := by
    have a := eg.symm.trans e4
    have a' := (Prod.mk.inj (Res.ok.inj a)).1
    rw [← evaluateAt_poly w (k + f) hG, ← evaluateAt_poly w (k + f) hG', a']
  have hcomp : G.eval (runZ H inst n k f e Q L) = wordComp H inst n k f e P Q (runZ H inst n k f e Q L) := by
    rw [hGG, hGv _ hzk]
    unfold wordComp batched
    obtain ⟨d, hd, hcd, hbat⟩ := h.dense
    rw [hbat]
    simp
  exact ⟨fun a => ⟨a.1, a.2.1⟩, fun a => ⟨a.1, a.2, hcomp⟩⟩

/-- **C64 (false witnesses, on any machine).** On every number of CPUs and for every LDE factor: when the prover's own proof for a witness table that violates the instance is accepted, then there was luck in the
challenges: either the point `z` was one of at most `2^(k+f) + 2^k` points of the field at which the polynomial `G`, committed before `z` was drawn, agrees with the composition; or
some coordinate of the constraint challenges, drawn after the witness was committed, was the only value, the others being the same, for which any polynomial agrees with
the composition at more points than that. -/
theorem C64_violating_needs_luck_any_worker (h : Runnable inst n k f) (hp : ProverParams F k f e o) (hout : o < k)
    (hdeg : ∀ c ∈ inst.constraints, ∀ t ∈ c.terms, termDegree t ≤ c.degree)
    (hspan : ∀ c ∈ inst.constraints, ∀ d, c.density = .dense d → ∀ t ∈ factors c, ∀ j, t.stepsDifference = .steps j → j ≤ d.span)
    (hrows : ∀ b ∈ inst.boundaryConstraints, b.atRow < inst.numRows) (witness : List (List F))
    (hw : IsTable witness n (2 ^ k)) (hbad : ¬ Satisfies inst (cellR witness) (2 ^ k))
    (prover : Prover F) (hprover : Prover.new w inst (2 ^ e) (2 ^ o) = .ok prover)
    (v : Verifier F) (hver : Verifier.new inst (2 ^ e) = .ok v) (proof : InstanceProof F)
    (hproof : prover.prove H witness = .ok proof) (hacc : v.verify H proof = .ok true) :
    ∃ ch fDom gDom dom ps, ∃ G : Poly F .coefficients, ∃ gLde gTree, v.deriveChallenges H proof = .ok (ch, fDom, gDom) ∧
      Domain.newForSize F (2 ^ k) = .ok dom ∧ calculateWitnessPolys prover.arp witness w = .ok ps ∧
      (∃ t', prover.ali.calculateG H (afterRoots proof.fIopRoots) ps w = .ok (G, t')) ∧ G.lde w (2 ^ e) = .ok gLde ∧ IopTree.create H w gLde.coeffs = .ok gTree ∧ gTree.getRoot = .ok proof.gIopRoot ∧
      ch.z ∈ agreement dom.generator (2 ^ k) (2 ^ f) (polyEnv w ps) ((batchesOf prover.arp.constraints).flatMap (·.2))
          inst.boundaryConstraints (G.evaluateAt w) ch.constraintChallenges ch.boundaryChallenges ∧
      ((agreement dom.generator (2 ^ k) (2 ^ f) (polyEnv w ps) ((batchesOf prover.arp.constraints).flatMap (·.2))
          inst.boundaryConstraints (G.evaluateAt w) ch.constraintChallenges ch.boundaryChallenges).encard ≤ (2 ^ (k + f) + 2 ^ k : ℕ) ∨
        OnlyValue (AgreesOften dom.generator (2 ^ k) (2 ^ f) (2 ^ (k + f)) (polyEnv w ps)
          ((batchesOf prover.arp.constraints).flatMap (·.2)) inst.boundaryConstraints)
          ch.constraintChallenges ch.boundaryChallenges) := by
  have hS := hp.size
  have h32 := hp.size32
  have hk : k ≤ StarkField.S F := by omega
  obtain ⟨ch, fDom, gDom, dom, ps, G, t, t1, t', gLde, gTree, b, a1, a2, a3, rfl, a4, a5, a6, a7, a8, a9, a10, a11, a12, a13⟩ :=
    C64_accepted_any_worker H w h hp hout witness hw prover hprover v hver proof hproof
  rw [hacc] at a12
  cases a12
  have hin := (a13.1 rfl).2.2
  refine ⟨ch, fDom, gDom, dom, ps, G, gLde, gTree, a1, a2, a3, ⟨_, a4⟩, a8, a9, a10, hin, ?_⟩
  by_cases hfew : (agreement dom.generator (2 ^ k) (2 ^ f) (polyEnv w ps) ((batchesOf prover.arp.constraints).flatMap (·.2))
          inst.boundaryConstraints (G.evaluateAt w) ch.constraintChallenges ch.boundaryChallenges).encard ≤ (2 ^ (k + f) + 2 ^ k : ℕ)
  · exact .inl hfew
  right
  have harp := prover_arp w h hk hprover
  obtain ⟨P, e2, hP, h0, hv⟩ := witnessPolys_ok w (inst := arpOf inst k) h.pos hw hk (by omega) h.registers h.rows
  rw [harp] at a3 hfew ⊢
  rw [e2] at a3
  cases a3
  rw [newForSize_pow hk] at a2
  cases a2
  have hc : ChallengeOk F := hp.challenge
  rw [drawPairs_ok H hc] at a6 a7
  have l1 : ch.constraintChallenges.length = inst.constraints.length := by
    rw [← (Prod.mk.inj (Res.ok.inj a6)).1]
    simp [length_pairsAt]
  have l2 : ch.boundaryChallenges.length = inst.boundaryConstraints.length := by
    rw [← (Prod.mk.inj (Res.ok.inj a7)).1]
    simp [length_pairsAt]
  have hGe : G.evaluateAt w = fun x => (polyOfList G.coeffs).eval x := by
    funext x
    rw [polyOfList_eval, evaluateAt_tab w G G.coeffs.length (fun i => G.coeffs.getD i 0) (eq_tab_getD _ _)]
    rfl
  have hGd : (polyOfList G.coeffs).degree < (2 ^ (k + f) : ℕ) := by
    rw [← a5]; exact polyOf_degree _ _
  rw [hGe] at hfew
  rw [show polyEnv w (tab n (fun r => mkPoly .coefficients k (P r).coeff)) = pointEnv P from funext (polyEnv_eq w hP h0)] at hfew ⊢
  refine numerator_luck h.verifiable hk hrows hspan (P := P) (W := AgreesOften _ _ _ _ _ _ _) ?_ l1 l2 ⟨_, hGd, hfew⟩ ?_
  · rintro cc bc - - ⟨G', hG', hmany⟩ i
    exact (agreement_identity h hk hdeg hrows hP hG' hmany).1 i
  · rw [h.rows, extracted_witness hw hv]
    exact hbad

end

/-! ### Concrete runs -/

/-- Two CPUs and the LDE factor 8: the hypotheses of `C45_verdict` are met, those of `C45_complete_partial` are not; an honest proof is returned, and rejected. -/
example : Suitable (fibInst Fr 2 1 1) 2 2 0 ∧ ProverParams Fr 2 0 3 0 ∧ ¬ RunParams Fr ⟨2, by norm_num⟩ 2 0 3 0 ∧
    IsTable [[(1 : Fr), 1, 2, 3], [1, 2, 3, 5]] 2 (2 ^ 2) ∧
    isSatisfied (fibInst Fr 2 1 1) [[1, 1, 2, 3], [1, 2, 3, 5]] = .ok () ∧
    proveVerify (fibInst Fr 2 1 1) [[1, 1, 2, 3], [1, 2, 3, 5]] ⟨2, by norm_num⟩ 8 1 = .ok false :=
  ⟨fibInst_suitable (F := Fr) 2 (by norm_num) 1 1,
    ⟨by decide, by norm_num, by norm_num, by norm_num, by decide +kernel, by decide +kernel⟩,
    fun h => by have := h.lde2; norm_num at this, ⟨rfl, by decide⟩, by decide +kernel, by decide +kernel⟩

end Hodor

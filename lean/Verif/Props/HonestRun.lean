import Verif.Spec.HonestRun
import Verif.Props.FriOutcome
import Verif.Props.Soundness

/-!
# C64: what the verifier answers to the prover's own proof, for any witness
-/

namespace Hodor

open Polynomial Finset Spec

variable {F : Type} [Field F] [DecidableEq F] [StarkField F] (H : List UInt8 → Digest)

/-- The check of the last layer of the honest proof. -/
theorem lastFoldOk_honest (hc : ChallengeOk F) {n f o : ℕ} (hn : n ≤ StarkField.S F) (hfo : f + o < n) {p : F[X]}
    (hp : p.degree < (2 ^ (n - f) : ℕ)) {idx : ℕ} :
    LastFoldOk (honestProof H n f o p idx) (2 ^ (f + o - 1)) idx ↔
      Spec.evalPoly (tab (2 ^ o) (friLayer H n p (n - f - o)).coeff) (genOf F (f + o - 1) ^ (idx % 2 ^ (f + o - 1)))
        = (friLayer H n p (n - f - o + 1)).eval (genOf F (f + o - 1) ^ (idx % 2 ^ (f + o - 1))) := by
  have hdeg : (friLayer H n p (n - f - o)).degree < (2 ^ o : ℕ) := by
    have := friLayer_degree H (n := n) hp (n - f - o) (by omega)
    rwa [show n - f - (n - f - o) = o by omega] at this
  have e1 : (honestProof H n f o p idx).roots.getLast? = some (friRoot H n p (n - f - o)) := getLast?_tab _ _
  have e2 : (encodeRootIntoChallenge (friRoot H n p (n - f - o)) : Res F) = .ok (friBeta H n p (n - f - o)) := interpretHash_ok hc _
  have e3 : Domain.newForSize F (2 ^ (f + o - 1)) = .ok (domOf F (f + o - 1)) := newForSize_pow (by omega)
  rw [friLayer_succ, ← evalPoly_foldCoeffs _ hdeg]
  constructor
  · rintro ⟨root, β, d, h1, h2, h3, h4⟩
    rw [e1] at h1
    cases h1
    rw [e2] at h2
    cases h2
    rw [e3] at h3
    cases h3
    exact h4
  · intro h
    exact ⟨_, _, _, e1, e2, e3, h⟩

/-- With one final coefficient the check of the last layer always holds. -/
theorem lastFoldOk_one (hc : ChallengeOk F) {n f : ℕ} (hn : n ≤ StarkField.S F) (hf : f < n) (h1 : 1 ≤ f) {p : F[X]}
    (hp : p.degree < (2 ^ (n - f) : ℕ)) {idx : ℕ} (hidx : idx < 2 ^ n) (hodd : idx % 2 = 1) :
    LastFoldOk (honestProof H n f 0 p idx) (2 ^ (f + 0 - 1)) idx := by
  rw [lastFoldOk_honest H hc hn (by omega) hp]
  have := fri_accepts H hc hn hf h1 hp hidx hodd
  rw [verifyProof_honest H hc hn (by omega) (by omega) hidx, if_pos hodd] at this
  simpa using this

section
variable (w : Worker) {inst : InstanceProperties F} {n k f e o : ℕ}

/-- **C64 (`prove` answers).** For every runnable instance — any densities, declared degrees as large or small as one likes — and every witness table of the right size, satisfying or
not: `prove` returns an error if the out-of-domain point which it draws from the transcript lies in the LDE domain of `g`, and a proof if not. -/
theorem C64_prove_total (h : Runnable inst n k f) (hp : RunParams F w k f e o) (witness : List (List F))
    (hw : IsTable witness n (2 ^ k)) :
    ∃ prover z, Prover.new w inst (2 ^ e) (2 ^ o) = .ok prover ∧ OpenedAt H prover w witness e z ∧
      (z ^ 2 ^ (k + f + e) = 1 → prover.prove H witness = .err .error) ∧
      (z ^ 2 ^ (k + f + e) ≠ 1 → ∃ proof, prover.prove H witness = .ok proof) := by
  obtain ⟨prover, z, e1, hz, hbad, hgood, -⟩ := prove_outcome H w inst n k f e o h hp.prover witness hw
  exact ⟨prover, z, e1, hz, hbad, fun hz => hgood hz hp.out⟩

/-- **C64 (the verifier's answer, exactly).** Whenever `prove` returns a proof for a runnable instance and a witness table, satisfying or not, `verify` answers that proof, and the answer
is `true` exactly if the prover's polynomial `G`, at the point `z` which the verifier derives, has the value of the composition of the
constraints with the verifier's challenges, and in both FRI proofs the final coefficients have the value of their fold (always so when there is one). The challenges are paired
with the constraints grouped by density. -/
theorem C64_accepted_iff (h : Runnable inst n k f) (hp : RunParams F w k f e o) (witness : List (List F))
    (hw : IsTable witness n (2 ^ k)) (prover : Prover F) (hprover : Prover.new w inst (2 ^ e) (2 ^ o) = .ok prover)
    (v : Verifier F) (hver : Verifier.new inst (2 ^ e) = .ok v) (proof : InstanceProof F)
    (hproof : prover.prove H witness = .ok proof) :
    ∃ ch fDom gDom dom ps G t t1 t' gLde gTree b, v.deriveChallenges H proof = .ok (ch, fDom, gDom) ∧
      Domain.newForSize F (2 ^ k) = .ok dom ∧ calculateWitnessPolys prover.arp witness w = .ok ps ∧
      t = afterRoots proof.fIopRoots ∧ prover.ali.calculateG H t ps w = .ok (G, t') ∧ G.size = 2 ^ (k + f) ∧
      forEach inst.constraints ([], t) (fun _ s => drawPair H s) = .ok (ch.constraintChallenges, t1) ∧
      forEach inst.boundaryConstraints ([], t1) (fun _ s => drawPair H s) = .ok (ch.boundaryChallenges, t') ∧
      G.lde w (2 ^ e) = .ok gLde ∧ IopTree.create H w gLde.coeffs = .ok gTree ∧ gTree.getRoot = .ok proof.gIopRoot ∧
      ch.z ^ 2 ^ (k + f + e) ≠ 1 ∧
      (o = 0 → LastFoldOk proof.friProofH1 (2 ^ (e + o - 1)) ch.idx1 ∧ LastFoldOk proof.friProofH2 (2 ^ (e + o - 1)) ch.idx2) ∧
      v.verify H proof = .ok b ∧
      (b = true ↔ LastFoldOk proof.friProofH1 (2 ^ (e + o - 1)) ch.idx1 ∧ LastFoldOk proof.friProofH2 (2 ^ (e + o - 1)) ch.idx2 ∧
        ch.z ∈ agreement dom.generator (2 ^ k) (2 ^ f) (polyEnv w ps) ((batchesOf prover.arp.constraints).flatMap (·.2))
          inst.boundaryConstraints (G.evaluateAt w) ch.constraintChallenges ch.boundaryChallenges) := by
  have hS := hp.size
  have h32 := hp.size32
  have hfac := hp.factor
  have hout := hp.out
  have hc : ChallengeOk F := hp.challenge
  obtain ⟨P, e2, hP, h0, hv⟩ := witnessPolys_ok w (inst := arpOf inst k) h.pos hw (by omega) (by omega) h.registers h.rows
  obtain ⟨v', e3, hver'⟩ := h.newVerifier (by omega) (2 ^ e)
  rw [hver] at e3
  cases e3
  obtain ⟨G, hG, hGv⟩ := exists_poly_values (F := F) (show k + f ≤ StarkField.S F by omega) (StarkField.mulGen_ne_zero (F := F)) (fun i =>
      gFold H P (2 ^ f) (cosetPt F (k + f) i) (dinvAt (genOf F k) inst.numRows (cosetPt F (k + f) i))
        (batchesOf (arpOf inst k).constraints) (runT1 H n k e P) 0 +
      boundarySum P (2 ^ f) (genOf F k) (cosetPt F (k + f) i) (inst.boundaryConstraints.zip
        (pairsAt F H inst.boundaryConstraints.length (afterN H inst.constraints.length (runT1 H n k e P)))))
  obtain ⟨prover', ep, ps, eps, hps, ⟨earp, eg⟩, hbad, hgood⟩ := prove_run H w h hp e2 hP hG hGv
  rw [hprover] at ep
  cases ep
  have hz : runZ H inst n k f e P G ^ 2 ^ (k + f + e) ≠ 1 := by
    intro hc
    rw [hbad hc] at hproof
    cases hproof
  have hzk : runZ H inst n k f e P G ^ 2 ^ k ≠ 1 := by
    intro hc
    apply hz
    rw [show 2 ^ (k + f + e) = 2 ^ k * 2 ^ (f + e) by rw [← pow_add, Nat.add_assoc], pow_mul, hc, one_pow]
  obtain ⟨Q1, Q2, idx1, idx2, hQ1, hQ2, v1, v2, i1, i2, i1l, i1o, i2l, i2o, epr⟩ := hgood hz
  rw [epr] at hproof
  cases hproof
  obtain ⟨-, hrun⟩ := verify_run H h hp hver hver' eps hps hz v1 i1 i2 i1l i2l
  have hb : ∃ b, v.verify H (runProof H inst n k f e o P G ps Q1 Q2 idx1 idx2) = .ok b ∧
      (b = true ↔ LastFoldOk (honestProof H (k + e) e o Q1 idx1) (2 ^ (e + o - 1)) idx1 ∧
        LastFoldOk (honestProof H (k + f + e) e o Q2 idx2) (2 ^ (e + o - 1)) idx2 ∧
        G.eval (runZ H inst n k f e P G) = runComp H inst n k f e P (runZ H inst n k f e P G)) := by
    rw [hrun, lastFoldOk_honest H hc (show k + e ≤ StarkField.S F by omega) (by omega) (by rw [Nat.add_sub_cancel]; exact hQ1),
      lastFoldOk_honest H hc hS (by omega) (by rw [Nat.add_sub_cancel]; exact hQ2),
      verifyProof_honest H hc (show k + e ≤ StarkField.S F by omega) (by omega) (by omega) i1l, if_pos i1o, Res.ok_bind]
    split
    · rename_i hA
      rw [decide_eq_false_iff_not] at hA
      exact ⟨false, rfl, ⟨fun h => (by cases h), fun h => absurd h.1 hA⟩⟩
    · rename_i hA
      rw [Bool.not_eq_false, decide_eq_true_eq] at hA
      by_cases hcomp : G.eval (runZ H inst n k f e P G) = runComp H inst n k f e P (runZ H inst n k f e P G)
      · have hval : (G.eval (genOf F (k + f + e) ^ idx2) - runComp H inst n k f e P (runZ H inst n k f e P G)) /
            (genOf F (k + f + e) ^ idx2 - runZ H inst n k f e P G) = friVals (k + f + e) Q2 idx2 := by
          rw [← hcomp, friVals, v2]
          rfl
        rw [hval, verifyProof_honest H hc hS (by omega) (by omega) i2l, if_pos i2o]
        refine ⟨_, rfl, ?_⟩
        rw [decide_eq_true_eq]
        exact ⟨fun h => ⟨hA, h, hcomp⟩, fun h => h.2.1⟩
      · rw [verifyProof_wrong H hS (by omega) i2l i2o]
        · exact ⟨_, rfl, by simp [hcomp]⟩
        · rw [friVals, v2, deepGAt]
          intro hq
          have hne : genOf F (k + f + e) ^ idx2 - runZ H inst n k f e P G ≠ 0 := domain_ne hS hz idx2
          rw [div_left_inj' hne] at hq
          exact hcomp (sub_right_injective hq).symm
  obtain ⟨b, hb1, hb2⟩ := hb
  refine ⟨_, _, _, domOf F k, _, _, _, _, _, _, friTree H (k + f + e) G 0, b, derive_run H hp hver' eps i1 i2, newForSize_pow (by omega),
    by rw [earp]; exact e2, rfl, eg, by simp, drawPairs_ok H hc _ _ _, drawPairs_ok H hc _ _ _, lde_poly w (k := k + f) (f := e) hS h32 hp.lde2 hG,
    friTree_create H w (k + f + e) G (i := 0) (by omega), friTree_root H (k + f + e) G (i := 0) (by omega), hz, ?_, hb1, ?_⟩
  · rintro rfl
    exact ⟨lastFoldOk_one H hc (by omega) (by omega) (show 1 ≤ e from hfac) (by rw [Nat.add_sub_cancel]; exact hQ1) i1l i1o,
      lastFoldOk_one H hc hS (by omega) (show 1 ≤ e from hfac) (by rw [Nat.add_sub_cancel]; exact hQ2) i2l i2o⟩
  rw [hb2]
  refine and_congr Iff.rfl (and_congr Iff.rfl ?_)
  rw [agreement, Set.mem_ofPred_eq, polyEnv_eq w hP h0, evaluateAt_poly w (k + f) hG, earp]
  unfold runComp batched
  rw [h.rows]
  exact ⟨fun h => ⟨hzk, h⟩, fun h => h.2⟩

omit [DecidableEq F] in
/-- The trace read off from the interpolating polynomials is the witness. -/
theorem extracted_witness {witness : List (List F)} {n k R : ℕ} (hw : IsTable witness n R) {P : ℕ → F[X]}
    (hv : ∀ r, r < n → ∀ i, i < R → (P r).eval (genOf F k ^ i) = cell witness r i) : extracted n k R P = witness := by
  apply List.ext_getElem
  · rw [(extracted_table n k R P).1, hw.1]
  intro r h1 h2
  have hr : r < n := by rw [← hw.1]; exact h2
  have hl1 := (extracted_table n k R P).2 _ (List.getElem_mem h1)
  have hl2 := hw.2 _ (List.getElem_mem h2)
  apply List.ext_getElem
  · rw [hl1, hl2]
  intro i h3 h4
  have hi : i < R := by rw [← hl2]; exact h4
  have e := (extracted_cell n k R P hr hi).trans (hv r hr i hi)
  unfold cell at e
  simpa only [List.getD_eq_getElem?_getD, List.getElem?_eq_getElem h1, List.getElem?_eq_getElem h2, Option.getD_some,
    List.getElem?_eq_getElem h3, List.getElem?_eq_getElem h4] using e

theorem prover_arp (h : Runnable inst n k f) (hk : k ≤ StarkField.S F) {prover : Prover F} {factor out : ℕ}
    (hprover : Prover.new w inst factor out = .ok prover) : prover.arp = arpOf inst k := by
  unfold Prover.new at hprover
  rw [h.fromInstance hk, Res.ok_bind] at hprover
  obtain ⟨ali, -, e⟩ := Res.bind_eq_ok.1 hprover
  cases e
  rfl

/-- Agreement at many points is identity off the trace domain. -/
theorem agreement_identity (h : Runnable inst n k f) (hk : k ≤ StarkField.S F)
    (hdeg : ∀ c ∈ inst.constraints, ∀ t ∈ c.terms, termDegree t ≤ c.degree)
    (hrows : ∀ b ∈ inst.boundaryConstraints, b.atRow < inst.numRows) {P : ℕ → F[X]} (hP : ∀ r, (P r).degree < (2 ^ k : ℕ))
    {G : F[X]} (hG : G.degree < (2 ^ (k + f) : ℕ)) {cc bc : List (F × F)}
    (hS : ¬ (agreement (genOf F k) (2 ^ k) (2 ^ f) (pointEnv P) (batched inst k) inst.boundaryConstraints (fun x => G.eval x) cc bc).encard
      ≤ (2 ^ (k + f) + 2 ^ k : ℕ)) :
    (∀ i, (numerator (genOf F k) (2 ^ k) inst.numRows (degOf inst k) P ((batched inst k).zip cc)
        (inst.boundaryConstraints.zip bc)).eval (genOf F k ^ i) = 0) ∧
    ∀ x, x ^ 2 ^ k ≠ 1 → x ∈ agreement (genOf F k) (2 ^ k) (2 ^ f) (pointEnv P) (batched inst k) inst.boundaryConstraints
      (fun x => G.eval x) cc bc := by
  have hD : degOf inst k = 2 ^ f := h.maxDeg
  have hc : ∀ c ∈ (batched inst k).zip cc, (∃ d, c.1.density = .dense d) ∧ c.1.degree ≤ 2 ^ f ∧
      ∀ t ∈ c.1.terms, termDegree t ≤ c.1.degree := by
    intro c hc
    have hc' := mem_batched.1 (List.of_mem_zip hc).1
    obtain ⟨d, hd, -⟩ := h.verifiable.dense _ hc'
    obtain ⟨c0, hc0, e0⟩ := List.mem_map.1 hc'
    refine ⟨⟨d, hd⟩, hD ▸ le_maxDegree hc', ?_⟩
    rw [← e0]
    intro t ht
    obtain ⟨t0, ht0, rfl⟩ := List.mem_map.1 ht
    rw [termDegree_maskT]
    exact hdeg c0 hc0 t0 ht0
  have hb : ∀ b ∈ inst.boundaryConstraints.zip bc, b.1.atRow < 2 ^ k ∧ 1 ≤ 2 ^ f := by
    intro b hb
    exact ⟨h.rows ▸ hrows _ (List.of_mem_zip hb).1, Nat.one_le_two_pow⟩
  have hPn : ∀ r, (P r).natDegree ≤ 2 ^ k := fun r => natDegree_le_of_degree_le (hP r).le
  have hGn : G.natDegree ≤ 2 ^ (k + f) := natDegree_le_of_degree_le hG.le
  have hN : 2 ^ k * 2 ^ f ≤ 2 ^ (k + f) := (pow_add _ _ _).ge
  rw [hD, h.rows]
  refine ⟨fun i => numerator_zero (genOf_prim hk) (Nat.two_pow_pos k) le_rfl (Nat.two_pow_pos k) hPn hN hGn _ _ hc hb hS (fun z hz => hz) i, ?_⟩
  have key := numerator_eq (genOf_prim hk) (Nat.two_pow_pos k) le_rfl (Nat.two_pow_pos k) hPn hN hGn _ _ hc hb hS (fun z hz => hz)
  intro x hx
  refine ⟨hx, ?_⟩
  have e := congrArg (eval x) key
  rw [eval_sub, eval_mul, eval_numerator (genOf_prim hk) (Nat.two_pow_pos k) le_rfl _ P _ _ (fun c hcm => (hc c hcm).1)
    (fun b hbm => (hb b hbm).1) hx, eval_zero] at e
  have hx' : x ^ 2 ^ k - 1 ≠ 0 := sub_ne_zero.2 hx
  simp only [eval_sub, eval_pow, eval_X, eval_one] at e
  exact mul_right_cancel₀ hx' (sub_eq_zero.1 e)

/-- **C64 (all or few).** For every runnable instance with truthful degrees, every witness table and all challenges: a polynomial of the size of the prover's `G` agrees with the composition
at all points off the trace domain, or at most at `2^(k+f) + 2^k` points of the field. -/
theorem C64_all_or_few (h : Runnable inst n k f) (hk : k ≤ StarkField.S F) (hk32 : k < 32)
    (hdeg : ∀ c ∈ inst.constraints, ∀ t ∈ c.terms, termDegree t ≤ c.degree)
    (hrows : ∀ b ∈ inst.boundaryConstraints, b.atRow < inst.numRows) (witness : List (List F))
    (hw : IsTable witness n (2 ^ k)) (arp : InstanceProperties F) (harp : fromInstance inst = .ok arp)
    (ps : List (Poly F .coefficients)) (hps : calculateWitnessPolys arp witness w = .ok ps)
    (dom : Domain F) (hdom : Domain.newForSize F (2 ^ k) = .ok dom)
    (G : F[X]) (hG : G.degree < (2 ^ (k + f) : ℕ)) (cc bc : List (F × F)) :
    (∀ x, x ^ 2 ^ k ≠ 1 → x ∈ agreement dom.generator (2 ^ k) (2 ^ f) (polyEnv w ps) ((batchesOf arp.constraints).flatMap (·.2))
      inst.boundaryConstraints (fun x => G.eval x) cc bc) ∨
    (agreement dom.generator (2 ^ k) (2 ^ f) (polyEnv w ps) ((batchesOf arp.constraints).flatMap (·.2))
      inst.boundaryConstraints (fun x => G.eval x) cc bc).encard ≤ (2 ^ (k + f) + 2 ^ k : ℕ) := by
  obtain ⟨P, e2, hP, h0, hv⟩ := witnessPolys_ok w (inst := arpOf inst k) h.pos hw hk hk32 h.registers h.rows
  rw [h.fromInstance hk] at harp
  cases harp
  rw [e2] at hps
  cases hps
  rw [newForSize_pow hk] at hdom
  cases hdom
  rw [show polyEnv w (tab n (fun r => mkPoly .coefficients k (P r).coeff)) = pointEnv P from funext (polyEnv_eq w hP h0)]
  by_cases hS : (agreement (genOf F k) (2 ^ k) (2 ^ f) (pointEnv P) (batched inst k) inst.boundaryConstraints (fun x => G.eval x) cc bc).encard
      ≤ (2 ^ (k + f) + 2 ^ k : ℕ)
  · exact .inr hS
  · exact .inl (agreement_identity h hk hdeg hrows hP hG hS).2

/-- **C64 (false witnesses).** When the prover's own proof for a witness table that violates the instance is accepted, then there was luck in the
challenges: either the point `z` was one of at most `2^(k+f) + 2^k` points of the field at which the polynomial `G`, committed before `z` was drawn, agrees with the composition; or
some coordinate of the constraint challenges, drawn after the witness was committed, was the only value, the others being the same, for which any polynomial agrees with
the composition at more points than that. -/
theorem C64_violating_needs_luck (h : Runnable inst n k f) (hp : RunParams F w k f e o)
    (hdeg : ∀ c ∈ inst.constraints, ∀ t ∈ c.terms, termDegree t ≤ c.degree)
    (hspan : ∀ c ∈ inst.constraints, ∀ d, c.density = .dense d → ∀ t ∈ factors c, ∀ j, t.stepsDifference = .steps j → j ≤ d.span)
    (hrows : ∀ b ∈ inst.boundaryConstraints, b.atRow < inst.numRows) (witness : List (List F))
    (hw : IsTable witness n (2 ^ k)) (hbad : ¬ Satisfies inst (cellR witness) (2 ^ k))
    (prover : Prover F) (hprover : Prover.new w inst (2 ^ e) (2 ^ o) = .ok prover)
    (v : Verifier F) (hver : Verifier.new inst (2 ^ e) = .ok v) (proof : InstanceProof F)
    (hproof : prover.prove H witness = .ok proof) (hacc : v.verify H proof = .ok true) :
    ∃ ch fDom gDom dom ps, ∃ G : Poly F .coefficients, ∃ gLde gTree, v.deriveChallenges H proof = .ok (ch, fDom, gDom) ∧
      Domain.newForSize F (2 ^ k) = .ok dom ∧ calculateWitnessPolys prover.arp witness w = .ok ps ∧
      (∃ t', prover.ali.calculateG H (afterRoots proof.fIopRoots) ps w = .ok (G, t')) ∧ G.lde w (2 ^ e) = .ok gLde ∧ IopTree.create H w gLde.coeffs = .ok gTree ∧ gTree.getRoot = .ok proof.gIopRoot ∧
      ch.z ∈ agreement dom.generator (2 ^ k) (2 ^ f) (polyEnv w ps) ((batchesOf prover.arp.constraints).flatMap (·.2))
          inst.boundaryConstraints (G.evaluateAt w) ch.constraintChallenges ch.boundaryChallenges ∧
      ((agreement dom.generator (2 ^ k) (2 ^ f) (polyEnv w ps) ((batchesOf prover.arp.constraints).flatMap (·.2))
          inst.boundaryConstraints (G.evaluateAt w) ch.constraintChallenges ch.boundaryChallenges).encard ≤ (2 ^ (k + f) + 2 ^ k : ℕ) ∨
        OnlyValue (AgreesOften dom.generator (2 ^ k) (2 ^ f) (2 ^ (k + f)) (polyEnv w ps)
          ((batchesOf prover.arp.constraints).flatMap (·.2)) inst.boundaryConstraints)
          ch.constraintChallenges ch.boundaryChallenges) := by
  have hS := hp.size
  have h32 := hp.size32
  have hk : k ≤ StarkField.S F := by omega
  obtain ⟨ch, fDom, gDom, dom, ps, G, t, t1, t', gLde, gTree, b, a1, a2, a3, rfl, a4, a5, a6, a7, a8, a9, a10, a11, -, a12, a13⟩ :=
    C64_accepted_iff H w h hp witness hw prover hprover v hver proof hproof
  rw [hacc] at a12
  cases a12
  have hin := (a13.1 rfl).2.2
  refine ⟨ch, fDom, gDom, dom, ps, G, gLde, gTree, a1, a2, a3, ⟨_, a4⟩, a8, a9, a10, hin, ?_⟩
  by_cases hfew : (agreement dom.generator (2 ^ k) (2 ^ f) (polyEnv w ps) ((batchesOf prover.arp.constraints).flatMap (·.2))
          inst.boundaryConstraints (G.evaluateAt w) ch.constraintChallenges ch.boundaryChallenges).encard ≤ (2 ^ (k + f) + 2 ^ k : ℕ)
  · exact .inl hfew
  right
  have harp := prover_arp w h hk hprover
  obtain ⟨P, e2, hP, h0, hv⟩ := witnessPolys_ok w (inst := arpOf inst k) h.pos hw hk (by omega) h.registers h.rows
  rw [harp] at a3 hfew ⊢
  rw [e2] at a3
  cases a3
  rw [newForSize_pow hk] at a2
  cases a2
  have hc : ChallengeOk F := hp.challenge
  rw [drawPairs_ok H hc] at a6 a7
  have l1 : ch.constraintChallenges.length = inst.constraints.length := by
    rw [← (Prod.mk.inj (Res.ok.inj a6)).1]
    simp [length_pairsAt]
  have l2 : ch.boundaryChallenges.length = inst.boundaryConstraints.length := by
    rw [← (Prod.mk.inj (Res.ok.inj a7)).1]
    simp [length_pairsAt]
  have hGe : G.evaluateAt w = fun x => (polyOfList G.coeffs).eval x := by
    funext x
    rw [polyOfList_eval, evaluateAt_tab w G G.coeffs.length (fun i => G.coeffs.getD i 0) (eq_tab_getD _ _)]
    rfl
  have hGd : (polyOfList G.coeffs).degree < (2 ^ (k + f) : ℕ) := by
    rw [← a5]; exact polyOf_degree _ _
  rw [hGe] at hfew
  rw [show polyEnv w (tab n (fun r => mkPoly .coefficients k (P r).coeff)) = pointEnv P from funext (polyEnv_eq w hP h0)] at hfew ⊢
  refine numerator_luck h.verifiable hk hrows hspan (P := P) (W := AgreesOften _ _ _ _ _ _ _) ?_ l1 l2 ⟨_, hGd, hfew⟩ ?_
  · rintro cc bc - - ⟨G', hG', hmany⟩ i
    exact (agreement_identity h hk hdeg hrows hP hG' hmany).1 i
  · rw [h.rows, extracted_witness hw hv]
    exact hbad

end

/-! ### Concrete runs -/

/-- Two densities are runnable. -/
theorem mixedInst_runnable : Runnable (mixedInst [doubling, quadrupling]) 1 2 0 where
  rows := rfl
  registers := rfl
  pos := by norm_num
  two_rows := by norm_num
  terms := by
    intro c hc t ht
    simp only [mixedInst, List.mem_cons, List.not_mem_nil, or_false] at hc
    rcases hc with rfl | rfl
    · have ht' : t ∈ [ConstraintTerm.univariate _, ConstraintTerm.univariate _] := ht
      simp only [List.mem_cons, List.not_mem_nil, or_false] at ht'
      rcases ht' with rfl | rfl <;> exact ⟨by simp [termFactors], fun u hu => by
        simp only [termFactors, List.mem_singleton] at hu; subst hu; exact ⟨⟨0, by norm_num, rfl⟩, ⟨_, rfl⟩⟩⟩
    · have ht' : t ∈ [ConstraintTerm.univariate _, ConstraintTerm.univariate _] := ht
      simp only [List.mem_cons, List.not_mem_nil, or_false] at ht'
      rcases ht' with rfl | rfl <;> exact ⟨by simp [termFactors], fun u hu => by
        simp only [termFactors, List.mem_singleton] at hu; subst hu; exact ⟨⟨0, by norm_num, rfl⟩, ⟨_, rfl⟩⟩⟩
  density := by
    intro c hc
    simp only [mixedInst, List.mem_cons, List.not_mem_nil, or_false] at hc
    rcases hc with rfl | rfl
    · exact ⟨_, rfl, by decide⟩
    · exact ⟨_, rfl, by decide⟩
  degrees := by
    refine ⟨?_, doubling, by simp [mixedInst], by decide⟩
    intro c hc
    simp only [mixedInst, List.mem_cons, List.not_mem_nil, or_false] at hc
    rcases hc with rfl | rfl <;> decide
  boundary := by
    intro b hb
    simp only [mixedInst, List.mem_cons, List.not_mem_nil, or_false] at hb
    subst hb
    exact ⟨⟨0, by norm_num, rfl⟩, _, rfl⟩

/-- The hypotheses of `C64_accepted_iff` are met with two densities; there the proof of a satisfying table is returned and rejected. -/
example : Runnable (mixedInst [doubling, quadrupling]) 1 2 0 ∧ IsTable [[(1 : Fr), 2, 4, 8]] 1 (2 ^ 2) ∧
    RunParams Fr ⟨1, by norm_num⟩ 2 0 1 0 ∧
    proveVerify (mixedInst [doubling, quadrupling]) [[1, 2, 4, 8]] ⟨1, by norm_num⟩ 2 1 = .ok false :=
  ⟨mixedInst_runnable, ⟨rfl, by decide⟩,
    ⟨by decide, by norm_num, by norm_num, by norm_num, by norm_num, .inl rfl, .inl rfl, by decide +kernel, by decide +kernel⟩,
    by decide +kernel⟩

/-- A violating table of the Fibonacci instance: a proof is returned, and rejected. -/
example : Runnable (fibInst Fr 2 1 1) 2 2 0 ∧ IsTable [[(1 : Fr), 1, 2, 3], [1, 2, 3, 6]] 2 (2 ^ 2) ∧
    isSatisfied (fibInst Fr 2 1 1) [[1, 1, 2, 3], [1, 2, 3, 6]] ≠ .ok () ∧
    proveVerify (fibInst Fr 2 1 1) [[1, 1, 2, 3], [1, 2, 3, 6]] ⟨1, by norm_num⟩ 2 1 = .ok false :=
  ⟨(fibInst_suitable (F := Fr) 2 (by norm_num) 1 1).runnable, ⟨rfl, by decide⟩, by decide +kernel, by decide +kernel⟩

end Hodor

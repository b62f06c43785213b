import Verif.Lemmas.VerifyP
import Verif.Props.Stark

/-!
# C54, C55, C30: what exactly the verifier checks, the schedule of challenges, and panics
-/

namespace Hodor

open Spec

variable {F : Type} [Field F] [DecidableEq F] [StarkField F] (H : List UInt8 → Digest)

/-- **C54**: a proof is accepted exactly if the challenges can be derived and all of `Accepts` holds of them: openings authenticate at the derived
positions, a value is claimed for each pair of register and mask, no denominator vanishes, and FRI accepts the two DEEP values computed from the
openings and the claimed values. Nothing is assumed of the proof, the point `z` or the number of densities. -/
theorem C54_verify_iff (inst : InstanceProperties F) (n k factor : ℕ) (h : Verifiable inst n k) (v : Verifier F)
    (hv : Verifier.new inst factor = .ok v) (proof : InstanceProof F) :
    v.verify H proof = .ok true ↔ ∃ ch d1 d2, v.deriveChallenges H proof = .ok (ch, d1, d2) ∧
      Accepts H v proof ch d1.generator d2.generator := by
  have hb := h.built hv
  have hreg : v.inst.numRegisters = n := by rw [hb.props]; exact h.registers
  unfold Verifier.verify
  cases hder : v.deriveChallenges H proof with
  | err e =>
    constructor
    · intro h; cases h
    · rintro ⟨ch, d1, d2, h, -⟩; cases h
  | panic =>
    constructor
    · intro h; cases h
    · rintro ⟨ch, d1, d2, h, -⟩; cases h
  | ok s =>
    obtain ⟨ch, d1, d2⟩ := s
    obtain ⟨l1, l2, l3, -, -⟩ := derive_inv H hder
    have l2' : ch.boundaryChallenges.length = inst.boundaryConstraints.length := by
      rw [l2, hb.props]; rfl
    have step : (if proof.fQueries.length ≠ v.inst.numRegisters then Res.err .unsatisfied
        else if proof.fQueries.length ≠ proof.fIopRoots.length then .err .unsatisfied
        else v.verifyBody H proof ch d1 d2) = .ok true ↔ Accepts H v proof ch d1.generator d2.generator := by
      by_cases c1 : proof.fQueries.length = v.inst.numRegisters
      swap
      · rw [if_pos c1]
        exact ⟨fun h => (by cases h), fun h => absurd h.counts.1 c1⟩
      by_cases c2 : proof.fQueries.length = proof.fIopRoots.length
      swap
      · rw [if_neg (not_not.2 c1), if_pos c2]
        exact ⟨fun h => (by cases h), fun h => absurd (h.counts.1.trans h.counts.2.symm) c2⟩
      rw [if_neg (not_not.2 c1), if_neg (not_not.2 c2)]
      have hq : (∀ x ∈ proof.fQueries.zip proof.fIopRoots, verifyQuery H x.1 x.2 = true ∧ x.1.index = ch.idx1) ↔
          ∀ (r : ℕ) (q : IopQuery F) (root : Digest), proof.fQueries[r]? = some q → proof.fIopRoots[r]? = some root →
            verifyQuery H q root = true ∧ q.index = ch.idx1 := by
        constructor
        · intro h r q root h1 h2
          apply h (q, root)
          apply List.mem_of_getElem? (i := r)
          rw [List.getElem?_zip_eq_some]
          exact ⟨h1, h2⟩
        · rintro h ⟨q, root⟩ hx
          obtain ⟨r, hr⟩ := List.mem_iff_getElem?.1 hx
          rw [List.getElem?_zip_eq_some] at hr
          exact h r q root hr.1 hr.2
      have hvals : (proof.fQueries.zip proof.fIopRoots).map (fun x => x.1.value) = proof.fQueries.map (fun q => q.value) := by
        have := congrArg (List.map (fun q : IopQuery F => q.value)) (List.map_fst_zip (l₁ := proof.fQueries) (l₂ := proof.fIopRoots) (le_of_eq c2))
        rw [List.map_map] at this
        exact this
      have hopen : ∀ r, openedValue proof.fQueries (.register r) = (proof.fQueries.map (fun q => q.value)).getD r 0 := by
        intro r
        simp only [openedValue, List.getD, List.getElem?_map]
        cases proof.fQueries[r]? <;> rfl
      have hm : ∀ m ∈ v.allMasks, ∃ r x, r < (proof.fQueries.map (fun q => q.value)).length ∧ m = ⟨.register r, .mask x⟩ := by
        rw [List.length_map, c1, hreg, hb.masks]; exact h.masks
      unfold Verifier.verifyBody
      cases hcq : checkQueries H ch.idx1 (proof.fQueries.zip proof.fIopRoots) with
      | none =>
        constructor
        · intro h; cases h
        · intro h
          have := (checkQueries_iff H ch.idx1 (proof.fQueries.zip proof.fIopRoots) _).2 ⟨hq.2 h.registers, rfl⟩
          rw [hcq] at this
          cases this
      | some vals =>
        obtain ⟨hq1, rfl⟩ := (checkQueries_iff H ch.idx1 _ _).1 hcq
        rw [hvals]
        constructor
        · intro e
          obtain ⟨x1, e1, e⟩ := Res.bind_eq_ok.1 e
          obtain ⟨x2, e2, e⟩ := Res.bind_eq_ok.1 e
          obtain ⟨⟨g1, g2, g3⟩, rfl⟩ := (calculateGAtZ_iff h hb l1 l2' _ _ _).1 e2
          obtain ⟨s1, rfl⟩ := (simulateH1_iff v hopen hm l3 g1 _ _ _ _).1 e1
          unfold Verifier.verifyG at e
          by_cases b1 : verifyQuery H proof.gQuery proof.gIopRoot = false
          · rw [if_pos b1] at e; cases e
          by_cases b2 : proof.gQuery.index = ch.idx2
          swap
          · rw [if_neg b1, if_pos b2] at e; cases e
          rw [if_neg b1, if_neg (not_not.2 b2)] at e
          obtain ⟨x3, e3, e⟩ := Res.bind_eq_ok.1 e
          obtain ⟨val, e4, e⟩ := Res.bind_eq_ok.1 e
          unfold simulateH2 at e3
          obtain ⟨inv, e5, e3⟩ := Res.bind_eq_ok.1 e3
          rw [Res.okOr_eq_ok, inverse_eq_some] at e5
          obtain ⟨e5, rfl⟩ := e5
          cases e3
          cases val with
          | false => cases e
          | true =>
            simp only [Bool.true_eq_false, if_false] at e
            exact ⟨⟨c1, c2.symm.trans c1⟩, hq.1 hq1, ⟨by simpa using b1, b2⟩, g1, ⟨s1, fun e' => e5 (sub_eq_zero.2 e'), g2, g3⟩, e4,
              by rw [div_eq_mul_inv]; exact e⟩
        · intro a
          have e1 := (simulateH1_iff v hopen hm l3 a.claims ch.idx1 d1 ch.z _).2 ⟨a.poles.1, rfl⟩
          have e2 := (calculateGAtZ_iff h hb l1 l2' proof.fAtZM ch.z _).2 ⟨⟨a.claims, a.poles.2.2⟩, rfl⟩
          simp only [e1, e2, Res.ok_bind]
          unfold Verifier.verifyG
          rw [if_neg (by rw [a.g.1]; simp), if_neg (not_not.2 a.g.2)]
          unfold simulateH2
          rw [inverse_of_ne (sub_ne_zero.2 a.poles.2.1)]
          simp only [Res.okOr_some, Res.ok_bind, Res.pure_def, a.h1, Bool.true_eq_false, if_false]
          rw [← div_eq_mul_inv]
          exact a.h2
    refine Iff.trans step ?_
    constructor
    · intro a; exact ⟨ch, d1, d2, rfl, a⟩
    · rintro ⟨ch', d1', d2', e, a⟩
      cases e
      exact a

/-- **C54** (the pairs of register and mask for which values are claimed): no pair is listed twice, and the pairs are exactly those some constraint
reads (step difference `j` is the mask `g^j`) and those of the boundary constraints (mask 1). -/
theorem C54_masks (inst : InstanceProperties F) (n k factor : ℕ) (h : Verifiable inst n k) (v : Verifier F)
    (hv : Verifier.new inst factor = .ok v) :
    v.allMasks.Nodup ∧ ∀ r s, (⟨r, s⟩ : MaskProperties F) ∈ v.allMasks ↔
      (∃ c ∈ inst.constraints, ∃ u ∈ factors c, ∃ j, u.register = r ∧ u.stepsDifference = .steps j ∧
        s = .mask (v.columnDomain.generator ^ j)) ∨
      ∃ b ∈ inst.boundaryConstraints, b.register = r ∧ s = .mask 1 := by
  have hb := h.built hv
  have hcol : v.columnDomain.generator = genOf F k := by rw [hb.column]; rfl
  rw [hb.masks, hcol]
  refine ⟨nodup_masksOf _, ?_⟩
  intro r s
  unfold masksOf
  rw [mem_boundaryMasks, mem_masks]
  simp only [List.not_mem_nil, false_or]
  apply or_congr
  · constructor
    · rintro ⟨c, hc, u, hu, e⟩
      obtain ⟨c0, hc0, rfl⟩ := List.mem_map.1 hc
      rw [factors_maskC] at hu
      obtain ⟨u0, hu0, rfl⟩ := List.mem_map.1 hu
      obtain ⟨-, j, ej⟩ := h.reads c0 hc0 u0 hu0
      simp only [UnivariateTerm.maskProperties, maskU, ej, MaskProperties.mk.injEq] at e
      exact ⟨c0, hc0, u0, hu0, j, e.1, ej, e.2.symm⟩
    · rintro ⟨c, hc, u, hu, j, e1, e2, rfl⟩
      refine ⟨maskC (genOf F k) c, List.mem_map.2 ⟨c, hc, rfl⟩, maskU (genOf F k) u, ?_, ?_⟩
      · rw [factors_maskC]; exact List.mem_map.2 ⟨u, hu, rfl⟩
      · simp only [UnivariateTerm.maskProperties, maskU, e2, e1]
  · constructor
    · rintro ⟨b, hb, e⟩
      cases e
      exact ⟨b, hb, rfl, rfl⟩
    · rintro ⟨b, hb, rfl, rfl⟩
      exact ⟨b, hb, rfl⟩

omit [Field F] [StarkField F] in
theorem keys_pushBatch (c : Constraint F) (m : List (ConstraintDensity × List (Constraint F))) (h : (m.map Prod.fst).Nodup) :
    ((pushBatch c m).map Prod.fst).Nodup ∧ ∀ d ∈ (pushBatch c m).map Prod.fst, d ∈ m.map Prod.fst ∨ d = c.density := by
  induction m with
  | nil => simp [pushBatch]
  | cons b m ih =>
    obtain ⟨d, b⟩ := b
    rw [List.map_cons, List.nodup_cons] at h
    obtain ⟨i1, i2⟩ := ih h.2
    rw [pushBatch]
    split
    · rename_i e
      refine ⟨by rw [List.map_cons, List.nodup_cons]; exact h, ?_⟩
      intro x hx
      exact .inl hx
    · rename_i e
      rw [List.map_cons, List.nodup_cons]
      refine ⟨⟨fun hc => ?_, i1⟩, ?_⟩
      · rcases i2 _ hc with h' | h'
        · exact h.1 h'
        · exact e h'
      · intro x hx
        rw [List.mem_cons] at hx
        rcases hx with rfl | hx
        · exact .inl (by simp)
        · rcases i2 x hx with h' | h'
          · exact .inl (by rw [List.map_cons]; exact List.mem_cons_of_mem _ h')
          · exact .inr h'

/-- **C54** (the constraints that are composed): the verifier holds the converted instance, the batches list each of its constraints exactly once, each in the
batch of its density, and no two batches have the same density. -/
theorem C54_batches (inst : InstanceProperties F) (n k factor : ℕ) (h : Verifiable inst n k) (v : Verifier F)
    (hv : Verifier.new inst factor = .ok v) :
    fromInstance inst = .ok v.inst ∧ (v.constraintsBatchedByDensity.flatMap (fun b => b.2)).Perm v.inst.constraints ∧
    (v.constraintsBatchedByDensity.map Prod.fst).Nodup ∧
    ∀ b ∈ v.constraintsBatchedByDensity, b.2 ≠ [] ∧ ∀ c ∈ b.2, c.density = b.1 := by
  have hb := h.built hv
  refine ⟨?_, ?_, ?_, ?_⟩
  · rw [hb.props]
    exact fromInstance_ok hb.order h.nextPow (fun c hc u hu => (h.reads c hc u hu).2)
  · rw [hb.batches, hb.props]
    exact batchesOf_perm _
  · rw [hb.batches]
    unfold batchesOf
    have : ∀ (cs : List (Constraint F)) (m : List (ConstraintDensity × List (Constraint F))), (m.map Prod.fst).Nodup →
        ((cs.foldl (fun m c => pushBatch c m) m).map Prod.fst).Nodup := by
      intro cs
      induction cs with
      | nil => intro m hm; exact hm
      | cons c cs ih => intro m hm; exact ih _ (keys_pushBatch c m hm).1
    exact this _ [] (by simp)
  · intro b hbm
    obtain ⟨h1, h2⟩ := hb.batch hbm
    exact ⟨h1, fun c hc => (h2 c hc).2⟩

/-- **C54** (consequence): a proof that claims fewer values than there are pairs of register and mask is never accepted. -/
theorem C54_missing_claims (inst : InstanceProperties F) (n k factor : ℕ) (h : Verifiable inst n k) (v : Verifier F)
    (hv : Verifier.new inst factor = .ok v) (proof : InstanceProof F) (hlt : proof.fAtZM.length < v.allMasks.length) :
    v.verify H proof ≠ .ok true := by
  intro e
  obtain ⟨ch, d1, d2, -, a⟩ := (C54_verify_iff H inst n k factor h v hv proof).1 e
  have := a.claims
  omega

/-! ### C55: the schedule of challenges -/

/-- **C55**: the constraint and boundary challenges are a function of the register roots alone; the point `z` and the mask challenges of the register roots and the
root of `g` alone; and the query positions of these, the last root of each FRI oracle list and the final coefficients. In particular no challenge depends on the values claimed
at `z`, on the openings, on the other FRI roots or on the FRI parameters in the proof. -/
theorem C55_challenge_schedule (v : Verifier F) (p p' : InstanceProof F) (ch ch' : Challenges F) (d1 d2 d1' d2' : Domain F)
    (h : v.deriveChallenges H p = .ok (ch, d1, d2)) (h' : v.deriveChallenges H p' = .ok (ch', d1', d2')) :
    d1 = d1' ∧ d2 = d2' ∧ (p.fIopRoots = p'.fIopRoots →
      ch.constraintChallenges = ch'.constraintChallenges ∧ ch.boundaryChallenges = ch'.boundaryChallenges ∧
      (p.gIopRoot = p'.gIopRoot → ch.z = ch'.z ∧ ch.h1Challenges = ch'.h1Challenges ∧
        (p.h1IopRoots.getLast? = p'.h1IopRoots.getLast? → p.h2IopRoots.getLast? = p'.h2IopRoots.getLast? →
          p.friProofH1.finalCoefficients = p'.friProofH1.finalCoefficients →
          p.friProofH2.finalCoefficients = p'.friProofH2.finalCoefficients → ch = ch'))) := by
  have e5 := (derive_inv H h).2.2.2
  have e5' := (derive_inv H h').2.2.2
  refine ⟨by have := e5.1.symm.trans e5'.1; injection this, by have := e5.2.symm.trans e5'.2; injection this, ?_⟩
  intro hr
  have hall := fun h2 h3 h4 h5 h6 => derive_congr H v (p := p) (p' := p') hr h2 h3 h4 h5 h6
  have h0 := h
  have h0' := h'
  unfold Verifier.deriveChallenges at h h'
  rw [hr] at h
  obtain ⟨t, a0, h⟩ := Res.bind_eq_ok.1 h
  obtain ⟨t', a0', h'⟩ := Res.bind_eq_ok.1 h'
  obtain rfl : t = t' := by have := a0.symm.trans a0'; injection this
  obtain ⟨x1, a1, h⟩ := Res.bind_eq_ok.1 h
  obtain ⟨x1', a1', h'⟩ := Res.bind_eq_ok.1 h'
  obtain rfl : x1 = x1' := by have := a1.symm.trans a1'; injection this
  obtain ⟨x2, a2, h⟩ := Res.bind_eq_ok.1 h
  obtain ⟨x2', a2', h'⟩ := Res.bind_eq_ok.1 h'
  obtain rfl : x2 = x2' := by have := a2.symm.trans a2'; injection this
  obtain ⟨x3, a3, h⟩ := Res.bind_eq_ok.1 h
  obtain ⟨x3', a3', h'⟩ := Res.bind_eq_ok.1 h'
  obtain ⟨x4, a4, h⟩ := Res.bind_eq_ok.1 h
  obtain ⟨x4', a4', h'⟩ := Res.bind_eq_ok.1 h'
  obtain ⟨_, -, h⟩ := Res.bind_eq_ok.1 h
  obtain ⟨_, -, h⟩ := Res.bind_eq_ok.1 h
  obtain ⟨_, -, h⟩ := Res.bind_eq_ok.1 h
  obtain ⟨_, -, h⟩ := Res.bind_eq_ok.1 h
  obtain ⟨_, -, h⟩ := Res.bind_eq_ok.1 h
  obtain ⟨_, -, h⟩ := Res.bind_eq_ok.1 h
  obtain ⟨_, -, h'⟩ := Res.bind_eq_ok.1 h'
  obtain ⟨_, -, h'⟩ := Res.bind_eq_ok.1 h'
  obtain ⟨_, -, h'⟩ := Res.bind_eq_ok.1 h'
  obtain ⟨_, -, h'⟩ := Res.bind_eq_ok.1 h'
  obtain ⟨_, -, h'⟩ := Res.bind_eq_ok.1 h'
  obtain ⟨_, -, h'⟩ := Res.bind_eq_ok.1 h'
  cases h
  cases h'
  refine ⟨rfl, rfl, ?_⟩
  intro hg
  rw [hg] at a3
  obtain rfl : x3 = x3' := by have := a3.symm.trans a3'; injection this
  obtain rfl : x4 = x4' := by have := a4.symm.trans a4'; injection this
  refine ⟨rfl, rfl, ?_⟩
  intro h3 h4 h5 h6
  have := hall hg h3 h4 h5 h6
  rw [h0, h0'] at this
  injection this with this
  injection this

/-- **C55** (malleability): an accepted proof stays accepted when further claimed values are appended and when the roots other than the last in the two lists
of FRI roots are replaced by any others. -/
theorem C55_malleable (inst : InstanceProperties F) (n k factor : ℕ) (h : Verifiable inst n k) (v : Verifier F)
    (hv : Verifier.new inst factor = .ok v) (proof : InstanceProof F) (ha : v.verify H proof = .ok true)
    (extra : List F) (roots1 roots2 : List Digest) (hr1 : roots1.getLast? = proof.h1IopRoots.getLast?)
    (hr2 : roots2.getLast? = proof.h2IopRoots.getLast?) :
    v.verify H { proof with fAtZM := proof.fAtZM ++ extra, h1IopRoots := roots1, h2IopRoots := roots2 } = .ok true := by
  obtain ⟨ch, d1, d2, e, a⟩ := (C54_verify_iff H inst n k factor h v hv proof).1 ha
  refine (C54_verify_iff H inst n k factor h v hv _).2 ⟨ch, d1, d2, ?_, ?_⟩
  · rw [← e]
    exact derive_congr H v rfl rfl hr1 hr2 rfl rfl
  · have hz : v.allMasks.zip (proof.fAtZM ++ extra) = v.allMasks.zip proof.fAtZM := by
      apply List.ext_getElem?
      intro i
      by_cases hi : i < v.allMasks.length
      · have hi' : i < proof.fAtZM.length := by have := a.claims; omega
        simp only [List.zip, List.getElem?_zipWith, List.getElem?_append_left hi']
      · rw [List.getElem?_eq_none (by rw [List.length_zip]; omega), List.getElem?_eq_none (by rw [List.length_zip]; omega)]
    refine ⟨a.counts, a.registers, a.g, by rw [List.length_append]; have := a.claims; omega, a.poles, ?_, ?_⟩
    · have := a.h1
      unfold deepClaim at this ⊢
      rw [hz]
      exact this
    · have := a.h2
      unfold claimedEnv at this ⊢
      rw [hz]
      exact this

/-- **C55** (both sides agree): the prover and the verifier built for the same instance hold the same constraints, the same list of pairs of register and mask, the same
batches in the same order, the same maximal degree and, unless all constraints are constant, the same domains. -/
theorem C55_same_setup (inst : InstanceProperties F) (n k factor out : ℕ) (h : Verifiable inst n k) (v : Verifier F)
    (hv : Verifier.new inst factor = .ok v) (w : Worker) (p : Prover F) (hp : Prover.new w inst factor out = .ok p) :
    p.arp = v.inst ∧ p.ali.allMasks = v.allMasks ∧ p.ali.constraintsBatchedByDensity = v.constraintsBatchedByDensity ∧
    p.ali.maxConstraintPower = v.maxConstraintPower ∧ p.ali.columnDomain = v.columnDomain ∧ p.ldeFactor = v.ldeFactor ∧
    (1 ≤ v.maxConstraintPower → p.ali.constraintsDomain = v.constraintsDomain) := by
  have hb := h.built hv
  unfold Prover.new at hp
  obtain ⟨arp, e1, hp⟩ := Res.bind_eq_ok.1 hp
  obtain ⟨ali, e2, hp⟩ := Res.bind_eq_ok.1 hp
  cases hp
  have e3 : fromInstance inst = .ok (arpOf inst k) :=
    fromInstance_ok hb.order h.nextPow (fun c hc u hu => (h.reads c hc u hu).2)
  rw [e3] at e1
  injection e1 with e1
  subst e1
  unfold AliInstance.fromArp at e2
  obtain ⟨cd, c1, e2⟩ := Res.bind_eq_ok.1 e2
  obtain ⟨dd, c2, e2⟩ := Res.bind_eq_ok.1 e2
  obtain ⟨_, -, e2⟩ := Res.bind_eq_ok.1 e2
  obtain ⟨_, -, e2⟩ := Res.bind_eq_ok.1 e2
  obtain ⟨_, -, e2⟩ := Res.bind_eq_ok.1 e2
  cases e2
  have hcd : cd = domOf F k := by
    obtain ⟨K, -, e, e'⟩ := newForSize_inv c1
    have h2 : nextPow2 (arpOf inst k).numRows = 2 ^ k := h.nextPow
    rw [h2] at e'
    rw [e, Nat.pow_right_injective (le_refl 2) e']
  refine ⟨hb.props.symm, hb.masks.symm, hb.batches.symm, hb.power.symm, by rw [hb.column]; exact hcd, hb.factor.symm, ?_⟩
  intro hm
  rw [hb.power] at hm
  obtain ⟨K, -, e, e'⟩ := newForSize_inv c2
  obtain ⟨K2, -, f, f'⟩ := hb.domain
  rw [f]
  show dd = _
  rw [e]
  rw [hcd] at e'
  have hs : (domOf F k).size = 2 ^ k := rfl
  rw [hs] at e'
  have key : ∀ m, 1 ≤ m → Nat.clog 2 (2 ^ k * m) = k + Nat.clog 2 m := by
    intro m hm
    apply le_antisymm
    · rw [Nat.clog_le_iff_le_pow (by norm_num), pow_add]
      exact Nat.mul_le_mul_left _ (Nat.le_pow_clog (by norm_num) _)
    · by_contra hlt
      have hlt : Nat.clog 2 (2 ^ k * m) < k + Nat.clog 2 m := by omega
      have h1 : 2 ^ k * m ≤ 2 ^ Nat.clog 2 (2 ^ k * m) := Nat.le_pow_clog (by norm_num) _
      have hk : k ≤ Nat.clog 2 (2 ^ k * m) := by
        by_contra hk
        have : 2 ^ Nat.clog 2 (2 ^ k * m) < 2 ^ k := Nat.pow_lt_pow_right (by norm_num) (by omega)
        have : 2 ^ k * 1 ≤ 2 ^ k * m := Nat.mul_le_mul_left _ hm
        omega
      obtain ⟨j, hj⟩ := Nat.exists_eq_add_of_le hk
      rw [hj, pow_add] at h1
      have h2 : m ≤ 2 ^ j := Nat.le_of_mul_le_mul_left h1 (by positivity)
      have h3 : Nat.clog 2 m ≤ j := (Nat.clog_le_iff_le_pow (by norm_num)).2 h2
      omega
  have g1 : nextPow2 (2 ^ k * maxDegree (arpOf inst k).constraints) = 2 ^ (k + Nat.clog 2 (maxDegree (arpOf inst k).constraints)) := by
    unfold nextPow2; rw [key _ hm]
  have g2 : nextPow2 (nextPow2 (maxDegree (arpOf inst k).constraints) * 2 ^ k) = 2 ^ (k + Nat.clog 2 (maxDegree (arpOf inst k).constraints)) := by
    unfold nextPow2
    rw [← pow_add, Nat.clog_pow _ _ (by norm_num), Nat.add_comm]
  rw [g1] at e'
  rw [g2] at f'
  rw [Nat.pow_right_injective (le_refl 2) e', Nat.pow_right_injective (le_refl 2) f']

/-! ### C30: panics of the whole verifier -/

/-- **C30 is false** (3): a proof without roots of the first (or second) FRI oracle list makes the verifier panic. -/
theorem C30_stark_empty_roots_panics (hch : ChallengeOk F) (v : Verifier F) (proof : InstanceProof F)
    (h : proof.h1IopRoots = [] ∨ proof.h2IopRoots = []) : v.verify H proof = .panic := by
  have key : v.deriveChallenges H proof = .panic := by
    unfold Verifier.deriveChallenges
    have hnew : Transcript.new F = .ok ⟨[]⟩ := by
      unfold Transcript.new
      rw [decide_eq_true hch.1]; rfl
    have hne : ∀ (bats : List (ConstraintDensity × List (Constraint F))) (s : List (F × F) × Transcript), ∃ s', forEach bats s (fun b s =>
        forEach b.2 s (fun _ s => drawPair H s)) = .ok s' := by
      intro bats
      induction bats with
      | nil => intro s; exact ⟨s, rfl⟩
      | cons b bats ih =>
        intro s
        obtain ⟨s', e'⟩ := ih _
        exact ⟨s', by rw [forEach, drawPairs_ok H hch b.2 s.1 s.2, Res.ok_bind]; exact e'⟩
    rw [hnew, Res.ok_bind]
    obtain ⟨s1, e1⟩ := hne v.constraintsBatchedByDensity ([], proof.fIopRoots.foldl (fun t r => t.commitBytes r.bytes) ⟨[]⟩)
    dsimp only
    rw [e1, Res.ok_bind]
    simp only [Res.ok_bind, drawPairs_ok H hch, drawOnes_ok H hch, getChallenge_ok H hch]
    rcases h with h | h
    · simp [h]
    · rw [h]
      cases proof.h1IopRoots.getLast? <;> rfl
  unfold Verifier.verify
  rw [key]
  rfl

/-- **C30 is false** (4): any accepted proof, for any instance, from which the openings of the first FRI proof are removed makes the verifier
panic. -/
theorem C30_stark_no_openings_panics (v : Verifier F) (proof : InstanceProof F) (ha : v.verify H proof = .ok true) :
    v.verify H { proof with friProofH1 := { proof.friProofH1 with queries := [] } } = .panic := by
  unfold Verifier.verify at ha ⊢
  rw [derive_congr H v (p := { proof with friProofH1 := { proof.friProofH1 with queries := [] } }) (p' := proof) rfl rfl rfl rfl rfl rfl]
  obtain ⟨⟨ch, d1, d2⟩, e1, ha⟩ := Res.bind_eq_ok.1 ha
  rw [e1, Res.ok_bind]
  dsimp only at ha ⊢
  split at ha
  · cases ha
  rename_i c1
  rw [if_neg c1]
  split at ha
  · cases ha
  rename_i c2
  rw [if_neg c2]
  unfold Verifier.verifyBody at ha ⊢
  dsimp only
  cases hcq : checkQueries H ch.idx1 (proof.fQueries.zip proof.fIopRoots) with
  | none => rw [hcq] at ha; cases ha
  | some vals =>
    rw [hcq] at ha
    dsimp only at ha ⊢
    obtain ⟨x1, e1, ha⟩ := Res.bind_eq_ok.1 ha
    obtain ⟨x2, e2, ha⟩ := Res.bind_eq_ok.1 ha
    rw [e1, Res.ok_bind, e2, Res.ok_bind]
    unfold Verifier.verifyG at ha ⊢
    dsimp only
    split at ha
    · cases ha
    rename_i c3
    rw [if_neg c3]
    split at ha
    · cases ha
    rename_i c4
    rw [if_neg c4]
    obtain ⟨x3, e3, ha⟩ := Res.bind_eq_ok.1 ha
    obtain ⟨x4, e4, ha⟩ := Res.bind_eq_ok.1 ha
    rw [e3, Res.ok_bind]
    unfold FriProof.verify FriProof.verifyQueries at e4
    obtain ⟨⟨t, s⟩, e5, -⟩ := Res.bind_eq_ok.1 e4
    obtain ⟨N, hN, hN1, hNS, hodd, -, -⟩ := friStart_inv e5
    rw [C30_no_rounds_panics H { proof.friProofH1 with queries := [] } ch.idx1 x1 N hN1 hNS hN hodd (.inl rfl)]
    rfl

/-- A FRI proof whose shape cannot make the verifier panic at an index below `size`: the domain it claims is at least that large, it has
between one and `n` rounds when the domain has `2^n` points. -/
def FriShape (p : FriProof F) (size : ℕ) : Prop :=
  ∃ n, Nat.clog 2 (p.initialDegreePlusOne * p.ldeFactor) = n ∧ size ≤ 2 ^ n ∧ 1 ≤ p.roots.length ∧ 2 ≤ p.queries.length ∧
    min p.roots.length (p.queries.length / 2) ≤ n

/-- **C30** (partial: missing are proofs without FRI roots or openings, with too many rounds or claiming too small a domain; the first kinds and the last do make the
verifier panic). For every other proof object — any roots, openings, indices, paths, claimed values (any number), coefficients — the
verifier returns `true`, `false` or an error. -/
theorem C30_stark_no_panic_partial (hch : ChallengeOk F) (inst : InstanceProperties F) (n k factor : ℕ) (hf : 0 < factor)
    (h : Verifiable inst n k) (v : Verifier F) (hv : Verifier.new inst factor = .ok v) (proof : InstanceProof F)
    (hr1 : proof.h1IopRoots ≠ []) (hr2 : proof.h2IopRoots ≠ [])
    (hs1 : FriShape proof.friProofH1 (v.columnDomain.size * factor)) (hs2 : FriShape proof.friProofH2 (v.constraintsDomain.size * factor)) :
    v.verify H proof ≠ .panic := by
  have hb := h.built hv
  have hreg : v.inst.numRegisters = n := by rw [hb.props]; exact h.registers
  have hcs : 0 < v.columnDomain.size := by rw [hb.column]; exact Nat.two_pow_pos k
  have hgs : 0 < v.constraintsDomain.size := by
    obtain ⟨K, -, e, -⟩ := hb.domain
    rw [e]; exact Nat.two_pow_pos K
  unfold Verifier.verify
  refine bind_ne_panic (derive_ne_panic H hch hr1 hr2 (by rw [hb.factor]; exact hf) hcs hgs) ?_
  rintro ⟨ch, d1, d2⟩ hder
  obtain ⟨l1, l2, l3, -, -⟩ := derive_inv H hder
  obtain ⟨i1, i2⟩ := derive_index H hder
  rw [hb.factor] at i1 i2
  have l2' : ch.boundaryChallenges.length = inst.boundaryConstraints.length := by
    rw [l2, hb.props]; rfl
  dsimp only
  split
  · simp
  rename_i c1
  have c1 := not_not.1 c1
  split
  · simp
  rename_i c2
  have c2 := not_not.1 c2
  unfold Verifier.verifyBody
  cases hcq : checkQueries H ch.idx1 (proof.fQueries.zip proof.fIopRoots) with
  | none => simp
  | some vals =>
    obtain ⟨-, rfl⟩ := (checkQueries_iff H ch.idx1 _ _).1 hcq
    dsimp only
    refine bind_ne_panic (simulateH1_ne_panic v ?_ _ _ _ _ _) ?_
    · rw [List.length_map, List.length_zip, ← c2, min_self, c1, hreg, hb.masks]
      exact h.masks
    intro x1 _
    refine bind_ne_panic (calculateGAtZ_ne_panic h hb l1 l2' _ _) ?_
    intro x2 _
    unfold Verifier.verifyG
    split
    · simp
    split
    · simp
    refine bind_ne_panic ?_ ?_
    · unfold simulateH2
      exact bind_ne_panic (okOr_ne_panic _ _) (fun _ _ => by simp)
    intro x3 _
    obtain ⟨n1, a1, a2, a3, a4, a5⟩ := hs1
    obtain ⟨n2, b1, b2, b3, b4, b5⟩ := hs2
    refine bind_ne_panic (C30_no_panic_partial H hch _ _ _ n1 a1 (by omega) a3 a4 a5) ?_
    intro x4 _
    split
    · simp
    · exact C30_no_panic_partial H hch _ _ _ n2 b1 (by omega) b3 b4 b5

/-! ### Non-vacuity -/

/-- Suitable instances are verifiable. -/
theorem Spec.Suitable.verifiable {inst : InstanceProperties F} {n k f : ℕ} (h : Suitable inst n k f) : Verifiable inst n k where
  rows := ⟨le_of_eq h.rows, fun j hj => by
    rw [h.rows] at hj
    exact (Nat.pow_le_pow_iff_right (by norm_num)).1 hj⟩
  registers := h.registers
  reads := by
    intro c hc u hu
    obtain ⟨t, ht, hu'⟩ := List.mem_flatMap.1 hu
    exact (h.terms c hc t ht).2.2 u hu'
  density := by
    obtain ⟨d, h1, h2⟩ := h.density
    intro c hc
    exact ⟨d, h2 c hc, by rw [h.rows]; exact h1⟩
  boundary := fun b hb => ⟨(h.boundary b hb).1, (h.boundary b hb).2.2⟩
  degree := by
    intro _
    obtain ⟨c, hc, e⟩ := h.degrees.2
    exact ⟨c, hc, by rw [e]; exact Nat.one_le_two_pow⟩

/-- An instance with two densities and three rows (not a power of two) is verifiable, and its verifier has two batches and three claimed values. -/
def threeRows : InstanceProperties Fr := { mixedInst [doubling, quadrupling] with numRows := 3 }

theorem threeRows_verifiable : Verifiable threeRows 1 2 where
  rows := ⟨by decide, fun j hj => by
    have hj : 3 ≤ 2 ^ j := hj
    match j, hj with
    | 0, h => exact absurd h (by decide)
    | 1, h => exact absurd h (by decide)
    | j + 2, _ => omega⟩
  registers := rfl
  reads := by
    intro c hc u hu
    have hc : c = doubling ∨ c = quadrupling := by simpa [threeRows, mixedInst] using hc
    rcases hc with rfl | rfl
    · simp only [factors, termFactors, doubling, Constraint.addUnivariate, Constraint.subUnivariate, Constraint.push, Constraint.default,
        List.nil_append, List.cons_append, List.flatMap_cons, List.flatMap_nil, List.append_nil, List.mem_cons, List.not_mem_nil, or_false] at hu
      rcases hu with rfl | rfl
      · exact ⟨⟨0, by decide, rfl⟩, 0, rfl⟩
      · exact ⟨⟨0, by decide, rfl⟩, 1, rfl⟩
    · simp only [factors, termFactors, quadrupling, Constraint.addUnivariate, Constraint.subUnivariate, Constraint.push, Constraint.default,
        List.nil_append, List.cons_append, List.flatMap_cons, List.flatMap_nil, List.append_nil, List.mem_cons, List.not_mem_nil, or_false] at hu
      rcases hu with rfl | rfl
      · exact ⟨⟨0, by decide, rfl⟩, 0, rfl⟩
      · exact ⟨⟨0, by decide, rfl⟩, 2, rfl⟩
  density := by
    intro c hc
    have hc : c = doubling ∨ c = quadrupling := by simpa [threeRows, mixedInst] using hc
    rcases hc with rfl | rfl
    · exact ⟨⟨0, 1⟩, rfl, by decide⟩
    · exact ⟨⟨0, 2⟩, rfl, by decide⟩
  boundary := by
    intro b hb
    have hb : b = ⟨.register 0, 0, some 1⟩ := by simpa [threeRows, mixedInst] using hb
    subst hb
    exact ⟨⟨0, by decide, rfl⟩, 1, rfl⟩
  degree := fun _ => ⟨doubling, by simp [threeRows, mixedInst], by decide⟩

/-- Number of batches and of claimed values, domain sizes. -/
def setupSizes (inst : InstanceProperties Fr) (factor : ℕ) : Res (ℕ × ℕ × ℕ × ℕ) := do
  let v ← Verifier.new inst factor
  pure (v.constraintsBatchedByDensity.length, v.allMasks.length, v.columnDomain.size, v.constraintsDomain.size)

example : setupSizes threeRows 2 = .ok (2, 3, 4, 4) := by decide +kernel

/-- Two more claimed values, one more and one other root. -/
def tampered (d : Digest) (proof : InstanceProof Fr) : InstanceProof Fr :=
  let roots1 := d :: proof.h1IopRoots
  let roots2 := d :: proof.h2IopRoots.drop 1
  { proof with fAtZM := proof.fAtZM ++ [5, 6], h1IopRoots := roots1, h2IopRoots := roots2 }

/-- Verdict of the verifier on the honest proof for the Fibonacci instance, the same tampered with, and with the openings of the first FRI proof removed. -/
def tamperedVerdicts : Res (Bool × Bool × Bool) := do
  let inst := fibInst Fr 2 1 1
  let prover ← Prover.new ⟨1, by norm_num⟩ inst 2 1
  let v ← Verifier.new inst 2
  let proof ← prover.prove toyHash [[1, 1, 2, 3], [1, 2, 3, 5]]
  let a ← v.verify toyHash proof
  let b ← v.verify toyHash (tampered (toyHash [7]) proof)
  let c := decide (v.verify toyHash { proof with friProofH1 := { proof.friProofH1 with queries := [] } } = .panic)
  pure (a, b, c)

example : tamperedVerdicts = .ok (true, true, true) := by decide +kernel

end Hodor

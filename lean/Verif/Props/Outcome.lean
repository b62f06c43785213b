import Verif.Spec.Outcome
import Verif.Props.Verify

/-!
# C30: exactly when verification aborts
-/

namespace Hodor

open Spec

variable {F : Type} [Field F] [DecidableEq F] [StarkField F] (H : List UInt8 → Digest)

/-- More rounds than halvings: on a domain of one point the two openings have the same position, and the round is refused. -/
theorem proofRounds_one_point (hc : ChallengeOk F) {t : F} {fin : List F} {idx : ℕ} {v : F} (round : ℕ) (root : Digest) (q0 q1 : IopQuery F)
    (rest : List (Digest × List (IopQuery F))) (s : FriVState F) (hs : s.domainSize = 1) (hi : s.domainIdx = 0) {x : F} (he : s.expected = some x) :
    proofRounds H t fin idx v round ((root, [q0, q1]) :: rest) s ≠ .panic := by
  rw [proofRounds, hs, hi]
  have e0 : cosetForNaturalIndex 0 1 = .ok [0, 0] := rfl
  have r0 : rd [q0, q1] 0 = .ok q0 := rfl
  simp only [e0, Res.ok_bind, encodeRootIntoChallenge, interpretHash_ok hc, r0]
  split
  · simp
  split
  · simp
  rename_i hin
  split
  · simp
  unfold checkTreeIndices checkTreeIndices
  split
  · simp
  rename_i h0
  split
  · simp
  rename_i h1
  simp only [checkTreeIndices, Res.ok_bind]
  split
  · simp
  have : queriesConsistent [q0, q1] [0, 0] s = false := by
    unfold queriesConsistent
    rw [he, hi]
    simp [not_not.1 h0, not_not.1 h1]
  rw [if_pos this]
  simp

theorem proofRounds_ne_panic (hc : ChallengeOk F) {t : F} {fin : List F} {idx : ℕ} {v : F} :
    ∀ (L : List (Digest × List (IopQuery F))) (round m : ℕ) (s : FriVState F),
      (∀ x ∈ L, x.2.length = 2) → s.domainSize = 2 ^ m → s.domainIdx < 2 ^ m → (m = 0 → s.expected.isSome) →
      (L ≠ [] ∨ s.expected.isSome) → proofRounds H t fin idx v round L s ≠ .panic := by
  intro L
  induction L with
  | nil =>
    intro round m s _ _ _ _ he
    simp only [ne_eq, not_true_eq_false, false_or] at he
    obtain ⟨e, he⟩ := Option.isSome_iff_exists.1 he
    rw [proofRounds]
    unfold friFinish
    rw [he]
    simp
  | cons x rest ih =>
    intro round m s hL hs hi h0 _
    obtain ⟨root, qs⟩ := x
    obtain ⟨q0, q1, rfl⟩ := List.length_eq_two.1 (hL (root, qs) (by simp))
    cases m with
    | zero =>
      obtain ⟨e, he⟩ := Option.isSome_iff_exists.1 (h0 rfl)
      exact proofRounds_one_point H hc round root q0 q1 rest s hs (by simpa using hi) he
    | succ m' =>
      rw [proofRounds, hs, coset_eq hi]
      have r0 : rd [q0, q1] 0 = .ok q0 := rfl
      have r1 : rd [q0, q1] 1 = .ok q1 := rfl
      have r2 : rd [s.domainIdx % 2 ^ m', s.domainIdx % 2 ^ m' + 2 ^ m'] 0 = .ok (s.domainIdx % 2 ^ m') := rfl
      simp only [Res.ok_bind, encodeRootIntoChallenge, interpretHash_ok hc, r0, r1, r2]
      split
      · simp
      split
      · simp
      split
      · simp
      unfold checkTreeIndices checkTreeIndices
      split
      · simp
      split
      · simp
      simp only [checkTreeIndices, Res.ok_bind]
      split
      · simp
      split
      · simp
      unfold friAdvance
      rw [hs, nextDomain_eq hi]
      simp only [Res.ok_bind, Res.pure_def]
      apply ih (round + 1) m'
      · exact fun x hx => hL x (List.mem_cons_of_mem _ hx)
      · rfl
      · exact Nat.mod_lt _ (by positivity)
      · intro _; rfl
      · right; rfl

theorem clog_least {n m : ℕ} : Nat.clog 2 m = n ↔ m ≤ 2 ^ n ∧ ∀ j, m ≤ 2 ^ j → n ≤ j := by
  constructor
  · rintro rfl
    exact ⟨Nat.le_pow_clog (by norm_num) _, fun j hj => (Nat.clog_le_iff_le_pow (by norm_num)).2 hj⟩
  · rintro ⟨h1, h2⟩
    exact le_antisymm ((Nat.clog_le_iff_le_pow (by norm_num)).2 h1) (h2 _ (Nat.le_pow_clog (by norm_num) _))

/-- **C30**, FRI, exactly: `verify_proof` aborts on the proofs of `FriAborts` and on no other, whatever the roots, values, paths, coefficients and
numbers of rounds. -/
theorem C30_fri_panics_iff (hc : ChallengeOk F) (p : FriProof F) (idx : ℕ) (v : F) : p.verify H idx v = .panic ↔ FriAborts p idx := by
  constructor
  · intro hpan
    unfold FriProof.verify FriProof.verifyQueries at hpan
    cases hst : (friStart p.initialDegreePlusOne p.ldeFactor idx : Res (F × FriVState F)) with
    | panic =>
      exfalso
      unfold friStart at hst
      rw [newForSize_eq] at hst
      cases h2 : inverse (1 + 1 : F) with
      | none => rw [h2] at hst; cases hst
      | some x =>
        rw [h2] at hst
        simp only [Res.okOr_some, Res.ok_bind] at hst
        split at hst
        · rename_i hS
          simp only [Res.ok_bind, inverse_of_ne (genOf_ne_zero hS), Res.okOr_some] at hst
          split at hst
          · cases hst
          split at hst <;> cases hst
        · cases hst
    | err e => rw [hst] at hpan; cases hpan
    | ok ts =>
      rw [hst] at hpan
      obtain ⟨t, s⟩ := ts
      obtain ⟨n, hn, hn1, hnS, hodd, rfl, rfl⟩ := friStart_inv hst
      simp only [Res.ok_bind, ne_eq, OfNat.ofNat_ne_zero, not_false_eq_true, decide_true, Res.assert_true] at hpan
      split at hpan
      · cases hpan
      rename_i hq2
      have hq2 : p.queries.length % 2 = 0 := not_not.1 hq2
      refine ⟨n, clog_least.1 hn, hn1, hnS, hodd, hq2, ?_⟩
      by_contra hcon
      push Not at hcon
      obtain ⟨c1, c2, c3⟩ := hcon
      refine proofRounds_ne_panic H hc _ 0 n _ (rounds_two _ _) rfl c3 (by omega) (.inl ?_) hpan
      intro h0
      have hl := (rounds_getElem? p.roots p.queries hq2 0).1
      rw [h0] at hl
      have l1 := List.length_pos_iff.2 c1
      have l2 := List.length_pos_iff.2 c2
      simp at hl
      omega
  · rintro ⟨n, hn, hn1, hnS, hodd, hq2, h⟩
    have hn := clog_least.2 hn
    by_cases h0 : p.queries = []
    · exact C30_no_rounds_panics H p idx v n hn1 hnS hn hodd (.inl h0)
    by_cases h1 : p.roots = []
    · exact C30_no_rounds_panics H p idx v n hn1 hnS hn hodd (.inr ⟨h1, hq2⟩)
    have l1 := List.length_pos_iff.2 h1
    have l2 := List.length_pos_iff.2 h0
    exact C30_index_panics H p idx v n hn1 hnS hn hodd (by tauto) l1 (by omega) hq2

/-- **C54**: what the verifier does once the challenges are derived: it looks at the FRI proofs exactly if all of `PassesBeforeFri` holds, and its
answer is then theirs; otherwise it answers `false` or an error. -/
theorem C54_outcome (inst : InstanceProperties F) (n k factor : ℕ) (h : Verifiable inst n k) (v : Verifier F)
    (hv : Verifier.new inst factor = .ok v) (proof : InstanceProof F) (ch : Challenges F) (d1 d2 : Domain F)
    (hder : v.deriveChallenges H proof = .ok (ch, d1, d2)) :
    (PassesBeforeFri H v proof ch d1.generator d2.generator ∧
      v.verify H proof = (proof.friProofH1.verify H ch.idx1 (h1Claim v proof ch d1.generator) >>= fun b =>
        if b = false then pure false else proof.friProofH2.verify H ch.idx2 (h2Claim v proof ch d2.generator))) ∨
    (¬ PassesBeforeFri H v proof ch d1.generator d2.generator ∧ (v.verify H proof = .ok false ∨ ∃ e, v.verify H proof = .err e)) := by
  have hb := h.built hv
  have hreg : v.inst.numRegisters = n := by rw [hb.props]; exact h.registers
  obtain ⟨l1, l2, l3, -, -⟩ := derive_inv H hder
  have l2' : ch.boundaryChallenges.length = inst.boundaryConstraints.length := by
    rw [l2, hb.props]; rfl
  unfold Verifier.verify
  rw [hder]
  simp only [Res.ok_bind]
  by_cases c1 : proof.fQueries.length = v.inst.numRegisters
  swap
  · rw [if_pos c1]
    exact .inr ⟨fun h => c1 h.counts.1, .inr ⟨_, rfl⟩⟩
  by_cases c2 : proof.fQueries.length = proof.fIopRoots.length
  swap
  · rw [if_neg (not_not.2 c1), if_pos c2]
    exact .inr ⟨fun h => c2 (h.counts.1.trans h.counts.2.symm), .inr ⟨_, rfl⟩⟩
  rw [if_neg (not_not.2 c1), if_neg (not_not.2 c2)]
  have hq : (∀ x ∈ proof.fQueries.zip proof.fIopRoots, verifyQuery H x.1 x.2 = true ∧ x.1.index = ch.idx1) ↔
      ∀ (r : ℕ) (q : IopQuery F) (root : Digest), proof.fQueries[r]? = some q → proof.fIopRoots[r]? = some root →
        verifyQuery H q root = true ∧ q.index = ch.idx1 := by
    constructor
    · intro h r q root h1 h2
      apply h (q, root)
      apply List.mem_of_getElem? (i := r)
      rw [List.getElem?_zip_eq_some]
      exact ⟨h1, h2⟩
    · rintro h ⟨q, root⟩ hx
      obtain ⟨r, hr⟩ := List.mem_iff_getElem?.1 hx
      rw [List.getElem?_zip_eq_some] at hr
      exact h r q root hr.1 hr.2
  have hvals : (proof.fQueries.zip proof.fIopRoots).map (fun x => x.1.value) = proof.fQueries.map (fun q => q.value) := by
    have := congrArg (List.map (fun q : IopQuery F => q.value)) (List.map_fst_zip (l₁ := proof.fQueries) (l₂ := proof.fIopRoots) (le_of_eq c2))
    rw [List.map_map] at this
    exact this
  have hopen : ∀ r, openedValue proof.fQueries (.register r) = (proof.fQueries.map (fun q => q.value)).getD r 0 := by
    intro r
    simp only [openedValue, List.getD, List.getElem?_map]
    cases proof.fQueries[r]? <;> rfl
  have hm : ∀ m ∈ v.allMasks, ∃ r x, r < (proof.fQueries.map (fun q => q.value)).length ∧ m = ⟨.register r, .mask x⟩ := by
    rw [List.length_map, c1, hreg, hb.masks]; exact h.masks
  unfold Verifier.verifyBody
  cases hcq : checkQueries H ch.idx1 (proof.fQueries.zip proof.fIopRoots) with
  | none =>
    refine .inr ⟨fun h => ?_, .inl rfl⟩
    have := (checkQueries_iff H ch.idx1 (proof.fQueries.zip proof.fIopRoots) _).2 ⟨hq.2 h.registers, rfl⟩
    rw [hcq] at this
    cases this
  | some vals =>
    obtain ⟨hq1, rfl⟩ := (checkQueries_iff H ch.idx1 _ _).1 hcq
    rw [hvals]
    by_cases hp : PassesBeforeFri H v proof ch d1.generator d2.generator
    · refine .inl ⟨hp, ?_⟩
      have e1 := (simulateH1_iff v hopen hm l3 hp.claims ch.idx1 d1 ch.z _).2 ⟨hp.poles.1, rfl⟩
      have e2 := (calculateGAtZ_iff h hb l1 l2' proof.fAtZM ch.z _).2 ⟨⟨hp.claims, hp.poles.2.2⟩, rfl⟩
      simp only [e1, e2, Res.ok_bind]
      unfold Verifier.verifyG
      rw [if_neg (by rw [hp.g.1]; simp), if_neg (not_not.2 hp.g.2)]
      unfold simulateH2
      rw [inverse_of_ne (sub_ne_zero.2 hp.poles.2.1)]
      simp only [Res.okOr_some, Res.ok_bind, Res.pure_def, h1Claim, h2Claim, div_eq_mul_inv]
    · refine .inr ⟨hp, ?_⟩
      dsimp only
      cases e1 : v.simulateH1 ch.h1Challenges ch.idx1 d1 (proof.fQueries.map (fun q => q.value)) proof.fAtZM ch.z with
      | err e => exact .inr ⟨_, rfl⟩
      | panic => exact absurd e1 (simulateH1_ne_panic v hm _ _ _ _ _)
      | ok x1 =>
        rw [Res.ok_bind]
        cases e2 : v.calculateGAtZ ch.constraintChallenges ch.boundaryChallenges proof.fAtZM ch.z with
        | err e => exact .inr ⟨_, rfl⟩
        | panic => exact absurd e2 (calculateGAtZ_ne_panic h hb l1 l2' _ _)
        | ok x2 =>
          rw [Res.ok_bind]
          obtain ⟨⟨g1, g2, g3⟩, rfl⟩ := (calculateGAtZ_iff h hb l1 l2' _ _ _).1 e2
          obtain ⟨s1, rfl⟩ := (simulateH1_iff v hopen hm l3 g1 _ _ _ _).1 e1
          unfold Verifier.verifyG
          by_cases b1 : verifyQuery H proof.gQuery proof.gIopRoot = false
          · rw [if_pos b1]; exact .inl rfl
          by_cases b2 : proof.gQuery.index = ch.idx2
          swap
          · rw [if_neg b1, if_pos b2]; exact .inl rfl
          rw [if_neg b1, if_neg (not_not.2 b2)]
          by_cases b3 : d2.generator ^ ch.idx2 = ch.z
          · have : ∀ y, simulateH2 ch.idx2 d2 proof.gQuery.value ch.z y = .err .divisionByZero := by
              intro y
              unfold simulateH2
              rw [inverse_eq_none.2 (sub_eq_zero.2 b3)]
              rfl
            rw [this]
            exact .inr ⟨_, rfl⟩
          · exact absurd ⟨⟨c1, c2.symm.trans c1⟩, hq.1 hq1, ⟨by simpa using b1, b2⟩, g1, s1, b3, g2, g3⟩ hp

/-- **C30**, whole verifier, exactly: verification of a proof aborts if one of the two lists of FRI roots is empty, or if everything before FRI passes
and the first FRI proof aborts, or the first is accepted and the second aborts; on all other proof objects it returns an answer or an error. -/
theorem C30_stark_panics_iff (hch : ChallengeOk F) (inst : InstanceProperties F) (n k factor : ℕ) (hf : 0 < factor)
    (h : Verifiable inst n k) (v : Verifier F) (hv : Verifier.new inst factor = .ok v) (proof : InstanceProof F) :
    v.verify H proof = .panic ↔ proof.h1IopRoots = [] ∨ proof.h2IopRoots = [] ∨
      ∃ ch d1 d2, v.deriveChallenges H proof = .ok (ch, d1, d2) ∧ PassesBeforeFri H v proof ch d1.generator d2.generator ∧
        (FriAborts proof.friProofH1 ch.idx1 ∨
          proof.friProofH1.verify H ch.idx1 (h1Claim v proof ch d1.generator) = .ok true ∧ FriAborts proof.friProofH2 ch.idx2) := by
  have hb := h.built hv
  have hcs : 0 < v.columnDomain.size := by rw [hb.column]; exact Nat.two_pow_pos k
  have hgs : 0 < v.constraintsDomain.size := by
    obtain ⟨K, -, e, -⟩ := hb.domain
    rw [e]; exact Nat.two_pow_pos K
  by_cases hr1 : proof.h1IopRoots = []
  · exact ⟨fun _ => .inl hr1, fun _ => C30_stark_empty_roots_panics H hch v proof (.inl hr1)⟩
  by_cases hr2 : proof.h2IopRoots = []
  · exact ⟨fun _ => .inr (.inl hr2), fun _ => C30_stark_empty_roots_panics H hch v proof (.inr hr2)⟩
  cases hder : v.deriveChallenges H proof with
  | panic => exact absurd hder (derive_ne_panic H hch hr1 hr2 (by rw [hb.factor]; exact hf) hcs hgs)
  | err e =>
    have : v.verify H proof = .err e := by
      unfold Verifier.verify
      rw [hder]; rfl
    rw [this]
    simp [hr1, hr2]
  | ok s =>
    obtain ⟨ch, d1, d2⟩ := s
    have key : ∀ P : Challenges F → Domain F → Domain F → Prop,
        (∃ ch' d1' d2', (Res.ok (ch, d1, d2) : Res (Challenges F × Domain F × Domain F)) = .ok (ch', d1', d2') ∧ P ch' d1' d2') ↔ P ch d1 d2 := by
      intro P
      constructor
      · rintro ⟨_, _, _, e, hP⟩; cases e; exact hP
      · intro hP; exact ⟨_, _, _, rfl, hP⟩
    rw [key (fun ch d1 d2 => PassesBeforeFri H v proof ch d1.generator d2.generator ∧ (FriAborts proof.friProofH1 ch.idx1 ∨
          proof.friProofH1.verify H ch.idx1 (h1Claim v proof ch d1.generator) = .ok true ∧ FriAborts proof.friProofH2 ch.idx2))]
    simp only [hr1, hr2, false_or]
    rcases C54_outcome H inst n k factor h v hv proof ch d1 d2 hder with ⟨hp, e⟩ | ⟨hp, e⟩
    · rw [e]
      simp only [hp, true_and]
      rw [← C30_fri_panics_iff H hch proof.friProofH1 ch.idx1 (h1Claim v proof ch d1.generator),
        ← C30_fri_panics_iff H hch proof.friProofH2 ch.idx2 (h2Claim v proof ch d2.generator)]
      cases proof.friProofH1.verify H ch.idx1 (h1Claim v proof ch d1.generator) with
      | panic => simp
      | err e => simp
      | ok b => cases b <;> simp
    · simp only [hp, false_and, iff_false]
      rcases e with e | ⟨x, e⟩ <;> rw [e] <;> simp

/-! ### Non-vacuity -/

/-- Both kinds of FRI proofs exist: a proof of three rounds on four points is refused without aborting; without roots, or at a position outside
the claimed four points, verification aborts. -/
example :
    let q : ℕ → IopQuery Fr := fun i => ⟨i, 0, []⟩
    let p : FriProof Fr := ⟨[q 1, q 3, q 0, q 1, q 0, q 0], [toyHash [], toyHash [], toyHash []], [0], 2, 1, 2⟩
    ¬ FriAborts p 1 ∧ FriAborts { p with roots := [] } 1 ∧ FriAborts p 5 := by
  refine ⟨?_, ⟨2, ⟨by norm_num, fun j hj => ?_⟩, by norm_num, by decide, rfl, rfl, .inl rfl⟩,
    ⟨2, ⟨by norm_num, fun j hj => ?_⟩, by norm_num, by decide, rfl, rfl, .inr (.inr (by norm_num))⟩⟩
  · rintro ⟨n, -, h1, -, -, -, h | h | h⟩
    · cases h
    · cases h
    · have := Nat.pow_le_pow_right (n := 2) (by norm_num) h1
      omega
  · exact (Nat.pow_le_pow_iff_right (a := 2) (by norm_num)).1 hj
  · exact (Nat.pow_le_pow_iff_right (a := 2) (by norm_num)).1 hj

end Hodor

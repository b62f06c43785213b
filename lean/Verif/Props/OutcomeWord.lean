import Verif.Props.Outcome
import Verif.Props.Machine

/-!
# C62: exactly when a release build never returns, and a debug build panics
-/

namespace Hodor

open Spec

variable {F : Type} [Field F] [DecidableEq F] [StarkField F] (H : List UInt8 → Digest)

/-- What the word-level verifier does once the challenges are derived (compare `C54_outcome`). -/
theorem C62_word_outcome (inst : InstanceProperties F) (n k factor : ℕ) (h : Verifiable inst n k) (v : Verifier F)
    (hv : Verifier.new inst factor = .ok v) (proof : InstanceProof F) (ch : Challenges F) (d1 d2 : Domain F)
    (hder : v.deriveChallenges H proof = .ok (ch, d1, d2)) (p : Profile) (fuel : ℕ) :
    (PassesBeforeFri H v proof ch d1.generator d2.generator ∧
      v.verifyWord H p fuel proof = (proof.friProofH1.verifyWord H p fuel ch.idx1 (h1Claim v proof ch d1.generator) >>= fun b =>
        if b = false then pure false else proof.friProofH2.verifyWord H p fuel ch.idx2 (h2Claim v proof ch d2.generator))) ∨
    (¬ PassesBeforeFri H v proof ch d1.generator d2.generator ∧
      ∃ r, (r = .ok false ∨ ∃ e, r = .err e) ∧ v.verifyWord H p fuel proof = .done r ∧ v.verify H proof = r) := by
  have hb := h.built hv
  have hreg : v.inst.numRegisters = n := by rw [hb.props]; exact h.registers
  obtain ⟨l1, l2, l3, -, -⟩ := derive_inv H hder
  have l2' : ch.boundaryChallenges.length = inst.boundaryConstraints.length := by
    rw [l2, hb.props]; rfl
  unfold Verifier.verifyWord Verifier.verify
  rw [hder]
  simp only [Run.bind_def, Run.bind_ok, Res.ok_bind]
  by_cases c1 : proof.fQueries.length = v.inst.numRegisters
  swap
  · simp only [if_pos c1]
    exact .inr ⟨fun h => c1 h.counts.1, ⟨_, .inr ⟨_, rfl⟩, rfl, rfl⟩⟩
  by_cases c2 : proof.fQueries.length = proof.fIopRoots.length
  swap
  · simp only [if_neg (not_not.2 c1), if_pos c2]
    exact .inr ⟨fun h => c2 (h.counts.1.trans h.counts.2.symm), ⟨_, .inr ⟨_, rfl⟩, rfl, rfl⟩⟩
  simp only [if_neg (not_not.2 c1), if_neg (not_not.2 c2)]
  have hq : (∀ x ∈ proof.fQueries.zip proof.fIopRoots, verifyQuery H x.1 x.2 = true ∧ x.1.index = ch.idx1) ↔
      ∀ (r : ℕ) (q : IopQuery F) (root : Digest), proof.fQueries[r]? = some q → proof.fIopRoots[r]? = some root →
        verifyQuery H q root = true ∧ q.index = ch.idx1 := by
    constructor
    · intro h r q root h1 h2
      apply h (q, root)
      apply List.mem_of_getElem? (i := r)
      rw [List.getElem?_zip_eq_some]
      exact ⟨h1, h2⟩
    · rintro h ⟨q, root⟩ hx
      obtain ⟨r, hr⟩ := List.mem_iff_getElem?.1 hx
      rw [List.getElem?_zip_eq_some] at hr
      exact h r q root hr.1 hr.2
  have hvals : (proof.fQueries.zip proof.fIopRoots).map (fun x => x.1.value) = proof.fQueries.map (fun q => q.value) := by
    have := congrArg (List.map (fun q : IopQuery F => q.value)) (List.map_fst_zip (l₁ := proof.fQueries) (l₂ := proof.fIopRoots) (le_of_eq c2))
    rw [List.map_map] at this
    exact this
  have hopen : ∀ r, openedValue proof.fQueries (.register r) = (proof.fQueries.map (fun q => q.value)).getD r 0 := by
    intro r
    simp only [openedValue, List.getD, List.getElem?_map]
    cases proof.fQueries[r]? <;> rfl
  have hm : ∀ m ∈ v.allMasks, ∃ r x, r < (proof.fQueries.map (fun q => q.value)).length ∧ m = ⟨.register r, .mask x⟩ := by
    rw [List.length_map, c1, hreg, hb.masks]; exact h.masks
  unfold Verifier.verifyBodyWord Verifier.verifyBody
  cases hcq : checkQueries H ch.idx1 (proof.fQueries.zip proof.fIopRoots) with
  | none =>
    refine .inr ⟨fun h => ?_, ⟨_, .inl rfl, rfl, rfl⟩⟩
    have := (checkQueries_iff H ch.idx1 (proof.fQueries.zip proof.fIopRoots) _).2 ⟨hq.2 h.registers, rfl⟩
    rw [hcq] at this
    cases this
  | some vals =>
    obtain ⟨hq1, rfl⟩ := (checkQueries_iff H ch.idx1 _ _).1 hcq
    rw [hvals]
    by_cases hp : PassesBeforeFri H v proof ch d1.generator d2.generator
    · refine .inl ⟨hp, ?_⟩
      have e1 := (simulateH1_iff v hopen hm l3 hp.claims ch.idx1 d1 ch.z _).2 ⟨hp.poles.1, rfl⟩
      have e2 := (calculateGAtZ_iff h hb l1 l2' proof.fAtZM ch.z _).2 ⟨⟨hp.claims, hp.poles.2.2⟩, rfl⟩
      simp only [e1, e2, Run.bind_def, Run.bind_ok]
      unfold verifyGWord
      rw [if_neg (by rw [hp.g.1]; simp), if_neg (not_not.2 hp.g.2)]
      unfold simulateH2
      rw [inverse_of_ne (sub_ne_zero.2 hp.poles.2.1)]
      simp only [Res.okOr_some, Run.bind_def, Run.bind_ok, Res.pure_def, Res.ok_bind, h1Claim, h2Claim, div_eq_mul_inv]
    · refine .inr ⟨hp, ?_⟩
      dsimp only
      cases e1 : v.simulateH1 ch.h1Challenges ch.idx1 d1 (proof.fQueries.map (fun q => q.value)) proof.fAtZM ch.z with
      | err e => exact ⟨_, .inr ⟨_, rfl⟩, rfl, rfl⟩
      | panic => exact absurd e1 (simulateH1_ne_panic v hm _ _ _ _ _)
      | ok x1 =>
        simp only [Run.bind_def, Run.bind_ok, Res.ok_bind]
        cases e2 : v.calculateGAtZ ch.constraintChallenges ch.boundaryChallenges proof.fAtZM ch.z with
        | err e => exact ⟨_, .inr ⟨_, rfl⟩, rfl, rfl⟩
        | panic => exact absurd e2 (calculateGAtZ_ne_panic h hb l1 l2' _ _)
        | ok x2 =>
          simp only [Run.bind_def, Run.bind_ok, Res.ok_bind]
          obtain ⟨⟨g1, g2, g3⟩, rfl⟩ := (calculateGAtZ_iff h hb l1 l2' _ _ _).1 e2
          obtain ⟨s1, rfl⟩ := (simulateH1_iff v hopen hm l3 g1 _ _ _ _).1 e1
          unfold verifyGWord Verifier.verifyG
          by_cases b1 : verifyQuery H proof.gQuery proof.gIopRoot = false
          · simp only [if_pos b1]; exact ⟨_, .inl rfl, rfl, rfl⟩
          by_cases b2 : proof.gQuery.index = ch.idx2
          swap
          · simp only [if_neg b1, if_pos b2]; exact ⟨_, .inl rfl, rfl, rfl⟩
          simp only [if_neg b1, if_neg (not_not.2 b2)]
          by_cases b3 : d2.generator ^ ch.idx2 = ch.z
          · have : ∀ y, simulateH2 ch.idx2 d2 proof.gQuery.value ch.z y = .err .divisionByZero := by
              intro y
              unfold simulateH2
              rw [inverse_eq_none.2 (sub_eq_zero.2 b3)]
              rfl
            rw [this]
            exact ⟨_, .inr ⟨_, rfl⟩, rfl, rfl⟩
          · exact absurd ⟨⟨c1, c2.symm.trans c1⟩, hq.1 hq1, ⟨by simpa using b1, b2⟩, g1, s1, b3, g2, g3⟩ hp

theorem shiftLoop_mono (m n k acc : ℕ) (hmn : m ≤ n) : shiftLoop m k acc = .running ∨ shiftLoop m k acc = shiftLoop n k acc := by
  induction m generalizing n k acc with
  | zero =>
    unfold shiftLoop
    by_cases hk : k = 1
    · right; cases n <;> simp [hk]
    · left; simp [hk]
  | succ m ih =>
    obtain ⟨n, rfl⟩ : ∃ j, n = j + 1 := ⟨n - 1, by omega⟩
    unfold shiftLoop
    by_cases hk : k = 1
    · right; simp [hk]
    · simp only [hk, if_false]
      exact ih n _ _ (by omega)

/-- Allowing more loop iterations does not change an outcome. -/
theorem friVerifyWord_mono (p : Profile) (proof : FriProof F) (idx : ℕ) (x : F) {m n : ℕ} (hmn : m ≤ n) :
    proof.verifyWord H p m idx x = .running ∨ proof.verifyWord H p m idx x = proof.verifyWord H p n idx x := by
  unfold FriProof.verifyWord friStartWord newForSizeWord
  cases Res.okOr (inverse (1 + 1 : F)) .divisionByZero with
  | err e => right; rfl
  | panic => right; rfl
  | ok t =>
    cases mulWord p proof.initialDegreePlusOne proof.ldeFactor with
    | err e => right; rfl
    | panic => right; rfl
    | ok s =>
      simp only [Run.bind_def, Run.bind_ok]
      cases nextPow2Word p s with
      | err e => right; rfl
      | panic => right; rfl
      | ok s' =>
        simp only [Run.bind_ok]
        rcases shiftLoop_mono m n s' 0 hmn with e | e
        · left; rw [e]; rfl
        · right; rw [e]

/-- The conditions under which the verifier never returns in a release build: everything before FRI passes, and either the size claimed by the first FRI
proof has a residue above `2^63`, or that proof, read with its residue, is accepted and the size claimed by the second one has a residue above `2^63`. -/
theorem C62_never_returns_iff (hS : 1 ≤ StarkField.S F) (inst : InstanceProperties F) (n k factor : ℕ) (h : Verifiable inst n k) (v : Verifier F)
    (hv : Verifier.new inst factor = .ok v) (proof : InstanceProof F) :
    NeverReturns (fun fuel => v.verifyWord H .release fuel proof) ↔
      ∃ ch d1 d2, v.deriveChallenges H proof = .ok (ch, d1, d2) ∧ PassesBeforeFri H v proof ch d1.generator d2.generator ∧
        (2 ^ 63 < claimedSize proof.friProofH1 % 2 ^ 64 ∨
          (wrapped proof.friProofH1).verify H ch.idx1 (h1Claim v proof ch d1.generator) = .ok true ∧
            2 ^ 63 < claimedSize proof.friProofH2 % 2 ^ 64) := by
  cases hder : v.deriveChallenges H proof with
  | panic =>
    refine ⟨fun hn => ?_, fun ⟨_, _, _, e, _⟩ => by cases e⟩
    have := hn 0
    simp only [Verifier.verifyWord, hder] at this
    cases this
  | err e =>
    refine ⟨fun hn => ?_, fun ⟨_, _, _, e, _⟩ => by cases e⟩
    have := hn 0
    simp only [Verifier.verifyWord, hder] at this
    cases this
  | ok s =>
    obtain ⟨ch, d1, d2⟩ := s
    constructor
    · intro hn
      refine ⟨ch, d1, d2, rfl, ?_⟩
      have h63 := hn 63
      simp only at h63
      rcases C62_word_outcome H inst n k factor h v hv proof ch d1 d2 hder .release 63 with ⟨hp, e⟩ | ⟨_, _, _, e, _⟩
      · refine ⟨hp, ?_⟩
        by_contra hcon
        rw [not_or, not_lt, not_and] at hcon
        obtain ⟨c1, c2⟩ := hcon
        rw [h63, friVerifyWord_wrapped H _ _ c1 le_rfl] at e
        cases hw : (wrapped proof.friProofH1).verify H ch.idx1 (h1Claim v proof ch d1.generator) with
        | panic => rw [hw] at e; cases e
        | err x => rw [hw] at e; cases e
        | ok b =>
          rw [hw] at e
          cases b with
          | false => cases e
          | true =>
            rw [Run.bind_def, Run.bind_ok, if_neg (by simp), friVerifyWord_wrapped H _ _ (not_lt.1 (c2 hw)) le_rfl] at e
            cases e
      · rw [h63] at e; cases e
    · rintro ⟨_, _, _, he, hp, hcase⟩ fuel
      cases he
      rcases C62_word_outcome H inst n k factor h v hv proof ch d1 d2 hder .release fuel with ⟨_, e⟩ | ⟨hp', _⟩
      swap
      · exact absurd hp hp'
      simp only
      rw [e]
      by_cases c1 : 2 ^ 63 < claimedSize proof.friProofH1 % 2 ^ 64
      · rw [friVerifyWord_release H hS c1]; rfl
      · obtain ⟨hw, c2⟩ := hcase.resolve_left c1
        by_cases hf : 63 ≤ fuel
        · rw [friVerifyWord_wrapped H _ _ (not_lt.1 c1) hf, hw, Run.bind_def, Run.bind_ok, if_neg (by simp), friVerifyWord_release H hS c2]
        · have hmono := friVerifyWord_mono H .release proof.friProofH1 ch.idx1 (h1Claim v proof ch d1.generator) (m := fuel) (n := 63) (by omega)
          rcases hmono with hm | hm
          · rw [hm]; rfl
          · rw [hm, friVerifyWord_wrapped H _ _ (not_lt.1 c1) le_rfl, hw, Run.bind_def, Run.bind_ok, if_neg (by simp),
              friVerifyWord_release H hS c2]

omit [DecidableEq F] in
theorem derive_roots_ne {v : Verifier F} {proof : InstanceProof F} (hr : proof.h1IopRoots = [] ∨ proof.h2IopRoots = [])
    {ch : Challenges F} {d1 d2 : Domain F} : v.deriveChallenges H proof ≠ .ok (ch, d1, d2) := by
  intro hd
  unfold Verifier.deriveChallenges at hd
  obtain ⟨_, _, hd⟩ := Res.bind_eq_ok.1 hd
  obtain ⟨_, _, hd⟩ := Res.bind_eq_ok.1 hd
  obtain ⟨_, _, hd⟩ := Res.bind_eq_ok.1 hd
  obtain ⟨_, _, hd⟩ := Res.bind_eq_ok.1 hd
  obtain ⟨_, _, hd⟩ := Res.bind_eq_ok.1 hd
  obtain ⟨_, e1, hd⟩ := Res.bind_eq_ok.1 hd
  obtain ⟨_, e2, hd⟩ := Res.bind_eq_ok.1 hd
  rcases hr with hr | hr
  · rw [hr] at e1; cases e1
  · rw [hr] at e2; cases e2

/-- A debug build always returns. It panics on the proofs on which the verifier of the model panics (`C30_stark_panics_iff`), and when a FRI proof claims
a size above `2^63` and is looked at. -/
theorem C62_debug_returns (hS : 1 ≤ StarkField.S F) (hch : ChallengeOk F) (inst : InstanceProperties F) (n k factor : ℕ) (hf : 0 < factor)
    (h : Verifiable inst n k) (v : Verifier F) (hv : Verifier.new inst factor = .ok v) (proof : InstanceProof F) :
    (∃ r, Returns (fun fuel => v.verifyWord H .debug fuel proof) r) ∧
    (Returns (fun fuel => v.verifyWord H .debug fuel proof) .panic ↔ proof.h1IopRoots = [] ∨ proof.h2IopRoots = [] ∨
      ∃ ch d1 d2, v.deriveChallenges H proof = .ok (ch, d1, d2) ∧ PassesBeforeFri H v proof ch d1.generator d2.generator ∧
        (2 ^ 63 < claimedSize proof.friProofH1 ∨ FriAborts proof.friProofH1 ch.idx1 ∨
          proof.friProofH1.verify H ch.idx1 (h1Claim v proof ch d1.generator) = .ok true ∧
            (2 ^ 63 < claimedSize proof.friProofH2 ∨ FriAborts proof.friProofH2 ch.idx2))) := by
  have key : ∀ r, (∀ fuel, 63 ≤ fuel → v.verifyWord H .debug fuel proof = .done r) → ∀ P : Prop, (r = .panic ↔ P) →
      (∃ r, Returns (fun fuel => v.verifyWord H .debug fuel proof) r) ∧ (Returns (fun fuel => v.verifyWord H .debug fuel proof) .panic ↔ P) := by
    intro r hr P hP
    refine ⟨⟨r, 63, hr⟩, ⟨fun hp => hP.1 (Returns.unique ⟨63, hr⟩ hp), fun hp => ?_⟩⟩
    rw [← hP.2 hp]
    exact ⟨63, hr⟩
  have hb := h.built hv
  have hcs : 0 < v.columnDomain.size := by rw [hb.column]; exact Nat.two_pow_pos k
  have hgs : 0 < v.constraintsDomain.size := by
    obtain ⟨K, -, e, -⟩ := hb.domain
    rw [e]; exact Nat.two_pow_pos K
  have hne : v.deriveChallenges H proof = .panic ↔ proof.h1IopRoots = [] ∨ proof.h2IopRoots = [] := by
    constructor
    · intro hd
      by_contra hcon
      rw [not_or] at hcon
      exact derive_ne_panic H hch hcon.1 hcon.2 (by rw [hb.factor]; exact hf) hcs hgs hd
    · intro hr
      have hp := C30_stark_empty_roots_panics H hch v proof hr
      cases hder : v.deriveChallenges H proof with
      | panic => rfl
      | err e => simp [Verifier.verify, hder] at hp
      | ok s =>
        obtain ⟨ch, d1, d2⟩ := s
        exact absurd hder (derive_roots_ne H hr)
  rw [← or_assoc, ← hne]
  cases hder : v.deriveChallenges H proof with
  | panic =>
    apply key .panic
    · intro fuel _
      simp only [Verifier.verifyWord, hder]; rfl
    · simp
  | err e =>
    apply key (.err e)
    · intro fuel _
      simp only [Verifier.verifyWord, hder]; rfl
    · simp
  | ok s =>
    obtain ⟨ch, d1, d2⟩ := s
    have hex : ∀ P : Challenges F → Domain F → Domain F → Prop,
        (((Res.ok (ch, d1, d2) : Res (Challenges F × Domain F × Domain F)) = .panic) ∨
          ∃ ch' d1' d2', (Res.ok (ch, d1, d2) : Res (Challenges F × Domain F × Domain F)) = .ok (ch', d1', d2') ∧ P ch' d1' d2') ↔ P ch d1 d2 := by
      intro P
      constructor
      · rintro (e | ⟨_, _, _, e, hP⟩)
        · cases e
        · cases e; exact hP
      · intro hP; exact .inr ⟨_, _, _, rfl, hP⟩
    rw [hex (fun ch d1 d2 => PassesBeforeFri H v proof ch d1.generator d2.generator ∧
        (2 ^ 63 < claimedSize proof.friProofH1 ∨ FriAborts proof.friProofH1 ch.idx1 ∨
          proof.friProofH1.verify H ch.idx1 (h1Claim v proof ch d1.generator) = .ok true ∧
            (2 ^ 63 < claimedSize proof.friProofH2 ∨ FriAborts proof.friProofH2 ch.idx2)))]
    by_cases hp : PassesBeforeFri H v proof ch d1.generator d2.generator
    swap
    · have hw : ∀ fuel, (v.verify H proof = .ok false ∨ ∃ e, v.verify H proof = .err e) ∧
          v.verifyWord H .debug fuel proof = .done (v.verify H proof) := by
        intro fuel
        rcases C62_word_outcome H inst n k factor h v hv proof ch d1 d2 hder .debug fuel with ⟨hp', _⟩ | ⟨_, r, hr, e1, rfl⟩
        · exact absurd hp' hp
        · exact ⟨hr, e1⟩
      apply key _ (fun fuel _ => (hw fuel).2)
      simp only [hp, false_and, iff_false]
      rcases (hw 0).1 with e | ⟨x, e⟩ <;> rw [e] <;> simp
    have hword : ∀ fuel, v.verifyWord H .debug fuel proof =
        (proof.friProofH1.verifyWord H .debug fuel ch.idx1 (h1Claim v proof ch d1.generator) >>= fun b =>
          if b = false then pure false else proof.friProofH2.verifyWord H .debug fuel ch.idx2 (h2Claim v proof ch d2.generator)) := by
      intro fuel
      rcases C62_word_outcome H inst n k factor h v hv proof ch d1 d2 hder .debug fuel with ⟨_, e⟩ | ⟨hp', _⟩
      · exact e
      · exact absurd hp hp'
    simp only [hp, true_and]
    by_cases c1 : 2 ^ 63 < claimedSize proof.friProofH1
    · apply key .panic
      · intro fuel _
        rw [hword, friVerifyWord_debug H hS c1]; rfl
      · simp only [c1, true_or]
    · rw [← C30_fri_panics_iff H hch proof.friProofH1 ch.idx1 (h1Claim v proof ch d1.generator),
        ← C30_fri_panics_iff H hch proof.friProofH2 ch.idx2 (h2Claim v proof ch d2.generator)]
      have hw1 : ∀ fuel, 63 ≤ fuel → proof.friProofH1.verifyWord H .debug fuel ch.idx1 (h1Claim v proof ch d1.generator) =
          .done (proof.friProofH1.verify H ch.idx1 (h1Claim v proof ch d1.generator)) :=
        fun fuel hfu => friVerifyWord_small H .debug _ _ (not_lt.1 c1) hfu
      cases hr1 : proof.friProofH1.verify H ch.idx1 (h1Claim v proof ch d1.generator) with
      | panic =>
        apply key .panic
        · intro fuel hfu; rw [hword, hw1 fuel hfu, hr1]; rfl
        · simp
      | err e =>
        apply key (.err e)
        · intro fuel hfu; rw [hword, hw1 fuel hfu, hr1]; rfl
        · simp only [c1, reduceCtorEq, false_or, false_and, or_self]
      | ok b =>
        cases b with
        | false =>
          apply key (.ok false)
          · intro fuel hfu; rw [hword, hw1 fuel hfu, hr1]; rfl
          · simp only [c1, reduceCtorEq, false_or, false_and, Res.ok.injEq, Bool.false_eq_true]
        | true =>
          by_cases c2 : 2 ^ 63 < claimedSize proof.friProofH2
          · apply key .panic
            · intro fuel hfu
              rw [hword, hw1 fuel hfu, hr1, Run.bind_def, Run.bind_ok, if_neg (by simp), friVerifyWord_debug H hS c2]
            · simp only [c2, true_or, and_self, or_true]
          · apply key (proof.friProofH2.verify H ch.idx2 (h2Claim v proof ch d2.generator))
            · intro fuel hfu
              rw [hword, hw1 fuel hfu, hr1, Run.bind_def, Run.bind_ok, if_neg (by simp), friVerifyWord_small H .debug _ _ (not_lt.1 c2) hfu]
            · simp only [c1, c2, reduceCtorEq, false_or, true_and]

/-! ### Non-vacuity -/

/-- The second case of both theorems occurs: with the first FRI proof unchanged and the header `(2^63 + 1, 1)` in the second one, the release build is
still running after 100 loop iterations, and the debug build panics. With a wrong opening both answer `false`. -/
def secondHeaderVerdicts : Res (Bool × Bool × Bool × Bool) := do
  let inst := fibInst Fr 2 1 1
  let prover ← Prover.new ⟨1, by norm_num⟩ inst 2 1
  let v ← Verifier.new inst 2
  let proof ← prover.prove toyHash [[1, 1, 2, 3], [1, 2, 3, 5]]
  let fri := { proof.friProofH2 with initialDegreePlusOne := 2 ^ 63 + 1, ldeFactor := 1 }
  let bad := { proof with friProofH2 := fri }
  let q := { proof.gQuery with value := proof.gQuery.value + 1 }
  let worse := { bad with gQuery := q }
  let a := decide (v.verifyWord toyHash .release 100 bad = .running)
  let b := decide (v.verifyWord toyHash .debug 100 bad = .done .panic)
  let c := decide (v.verifyWord toyHash .release 100 worse = .done (.ok false))
  let e := decide (v.verifyWord toyHash .debug 100 worse = .done (.ok false))
  pure (a, b, c, e)

example : secondHeaderVerdicts = .ok (true, true, true, true) := by decide +kernel

example : 1 ≤ StarkField.S Fr := by decide

end Hodor

import Verif.Spec.Interactive
import Verif.Props.Soundness
import Verif.Props.Fri
import Verif.Props.Verify
import Verif.Lemmas.Forge

/-!
# C46: soundness of the interactive protocol with the checks of the code
-/

namespace Hodor

open Polynomial Finset Spec

variable {F : Type} [Field F] [DecidableEq F] [StarkField F] (H : List UInt8 → Digest)

theorem CollisionAmong.mono {P Q : List UInt8 → Prop} (h : ∀ s, P s → Q s) (hc : CollisionAmong H P) : CollisionAmong H Q := by
  obtain ⟨x, y, hx, hy, hne, e⟩ := hc
  exact ⟨x, y, h x hx, h y hy, hne, e⟩

/-- A committed FRI run which answers all odd positions is the evaluation of a polynomial of the degree its shape stands for. -/
theorem fri_low (hb : numBits F < 256) (hc : ChallengeOk F) {run : FriRun F} {n bound d f : ℕ} (hn : n ≤ StarkField.S F)
    (hdf : d * f = 2 ^ n) (hcom : run.Committed H (2 ^ n) bound) (h1 : 1 ≤ bound) (h2 : 2 * bound < 2 ^ n)
    (proof : ℕ → FriProof F) (val : ℕ → F)
    (hacc : ∀ idx, idx < 2 ^ n → idx % 2 = 1 → run.Proves (proof idx) d f ∧ (proof idx).verify H idx (val idx) = .ok true) :
    (∃ p : F[X], p.degree < (bound : ℕ) ∧ ∀ j, j < 2 ^ n → j % 2 = 1 → val j = p.eval (genOf F n ^ j)) ∨
    run.Lucky (genOf F n) ∨
    CollisionAmong H (fun s => (∃ r, r < run.roots.length ∧ WordHashed H (run.words r) s) ∨
      ∃ idx, idx < 2 ^ n ∧ idx % 2 = 1 ∧ ∃ q ∈ (proof idx).queries, s ∈ openingHashed H q.value q.path q.index) := by
  have hdom : Domain.newForSize F (d * f) = .ok (domOf F n) := by rw [hdf]; exact newForSize_pow hn
  have hn1 : 1 < 2 ^ n := by omega
  have hfin1 : 1 ≤ run.fin.length := by
    rcases Nat.eq_zero_or_pos run.fin.length with h0 | h0
    · have := hcom.shape
      rw [h0, Nat.zero_mul] at this
      omega
    · exact h0
  have hn2 : 1 ≤ n := by
    by_contra hcon
    have : n = 0 := by omega
    subst this
    omega
  have e2 : 2 ^ n = 2 * 2 ^ (n - 1) := by rw [← pow_succ']; congr 1; omega
  have hlt : run.fin.length * 2 ^ run.roots.length < 2 ^ (n - 1) := by rw [hcom.shape]; omega
  have hrn : run.roots.length < n - 1 := by
    have : 2 ^ run.roots.length < 2 ^ (n - 1) := lt_of_le_of_lt (Nat.le_mul_of_pos_left _ hfin1) hlt
    exact (Nat.pow_lt_pow_iff_right (by norm_num)).1 this
  have hfin : run.fin.length ≤ 2 ^ (n - run.roots.length - 1) := by
    have : 2 ^ (n - 1) = 2 ^ (n - run.roots.length - 1) * 2 ^ run.roots.length := by
      rw [← pow_add]; congr 1; omega
    rw [this] at hlt
    exact le_of_lt (lt_of_mul_lt_mul_right hlt (Nat.zero_le _))
  have hr1 : 1 ≤ run.roots.length := by
    obtain ⟨hp, hv⟩ := hacc 1 hn1 rfl
    obtain ⟨_, _, k, -, -, -, -, -, hk, hk1, -⟩ := C28_accepted_chain H _ _ _ hv
    rw [hp.roots] at hk
    omega
  have hword : ∀ r, r < run.roots.length → (run.words r).length = 2 ^ (n - r) := by
    intro r hr
    have := (hcom.rounds r _ (List.getElem?_eq_getElem hr)).1
    rw [show 2 ^ n = 2 ^ (n - r) * 2 ^ r by rw [← pow_add]; congr 1; omega] at this
    exact Nat.eq_of_mul_eq_mul_right (Nat.two_pow_pos r) this
  obtain ⟨proof', hproof'⟩ : ∃ proof' : ℕ → FriProof F, proof' = fun idx => if idx < 2 ^ n ∧ idx % 2 = 1 then proof idx else proof 1 :=
    ⟨_, rfl⟩
  have hin : ∀ idx, ∃ idx', idx' < 2 ^ n ∧ idx' % 2 = 1 ∧ proof' idx = proof idx' := by
    intro idx
    by_cases hi : idx < 2 ^ n ∧ idx % 2 = 1
    · exact ⟨idx, hi.1, hi.2, by rw [hproof']; simp only; rw [if_pos hi]⟩
    · exact ⟨1, hn1, rfl, by rw [hproof']; simp only; rw [if_neg hi]⟩
  rcases C29_low_degree_partial H hb hc proof' val run.roots run.fin n d f (domOf F n) hdom rfl (by
      intro idx hi ho
      rw [hproof']
      simp only
      rw [if_pos ⟨hi, ho⟩]
      obtain ⟨hp, hv⟩ := hacc idx hi ho
      exact ⟨hp.roots, hp.fin, hp.header.1, hp.header.2, hp.openings, hv⟩) hr1 (by omega) hfin run.words (by
      intro r hr
      obtain ⟨w, tree, e1, e2⟩ := (hcom.rounds r _ (List.getElem?_eq_getElem hr)).2
      exact ⟨hword r hr, w, tree, _, e1, e2, List.getElem?_eq_getElem hr⟩) with hp | hp | hp
  · obtain ⟨p, hp, hv⟩ := hp
    rw [hcom.shape] at hp
    exact .inl ⟨p, hp, fun j hj ho => (hv j hj ho).2⟩
  · obtain ⟨r, P, root, β, hr, e1, e3, hv, hbad, Q, hQ, hQd⟩ := hp
    refine .inr (.inl ⟨r, root, β, P, e1, e3, ?_, hbad, Q, hQ, hQd⟩)
    intro j hj ho
    rw [hword r hr] at hj
    exact hv j hj ho
  · refine .inr (.inr (CollisionAmong.mono H ?_ hp))
    rintro s (⟨r, hr, hs⟩ | ⟨idx, q, hq, hs⟩)
    · exact .inl ⟨r, hr, _, hword r hr, hs⟩
    · obtain ⟨idx', h3, h4, e⟩ := hin idx
      rw [e] at hq
      exact .inr ⟨idx', h3, h4, q, hq, hs⟩

theorem zip_take_length {α β : Type} (l : List α) (m : List β) : l.zip (m.take l.length) = l.zip m := by
  induction l generalizing m with
  | nil => simp
  | cons a l ih =>
    cases m with
    | nil => simp
    | cons b m => simp [ih]

/-- An opened value is the committed one, or there is a collision. -/
theorem opened_value (hb : numBits F < 256) {word : List F} {root : Digest} {m : ℕ} (hl : word.length = 2 ^ m) (hroot : RootOf H word root)
    {q : IopQuery F} (hq : verifyQuery H q root = true) (hi : q.index < 2 ^ m) :
    word[q.index]? = some q.value ∨ CollisionAmong H (fun s => WordHashed H word s ∨ s ∈ openingHashed H q.value q.path q.index) := by
  obtain ⟨w, tree, e1, e2⟩ := hroot
  rcases C19_merkle_binding H hb w word m hl tree root e1 e2 q hq with ⟨-, h⟩ | h
  · rw [Nat.mod_eq_of_lt hi] at h
    exact .inl h
  · refine .inr (CollisionAmong.mono H ?_ h)
    rintro s (hs | hs)
    · exact .inl ⟨m, hl, hs⟩
    · exact .inr hs

/-- **C46**, partial: soundness of the interactive protocol with the Merkle and FRI checks of the code. A prover who has committed to words,
claims and FRI runs of the right shape and has an accepted answer for all odd positions, knows a satisfying witness, or was lucky with one of the challenges, or there is a
collision of the hash function among the strings hashed for the commitments and the accepted answers.

What is missing: the queries of the code are two positions, not all of them, and derived by Fiat–Shamir as the challenges are; the verifier of the
code does not check the shape (C46_forgery, C30). -/
theorem C46_soundness_partial (hb : numBits F < 256) (hc : ChallengeOk F) (inst : InstanceProperties F) (n k e slack : ℕ) (h : Verifiable inst n k)
    (hs1 : 1 ≤ slack) (hsl : 2 * slack < 2 ^ e)
    (hdeg : ∀ c ∈ inst.constraints, ∀ t ∈ c.terms, termDegree t ≤ c.degree)
    (hspan : ∀ c ∈ inst.constraints, ∀ d, c.density = .dense d → ∀ t ∈ factors c, ∀ j, t.stepsDifference = .steps j → j ≤ d.span)
    (hrows : ∀ b ∈ inst.boundaryConstraints, b.atRow < inst.numRows)
    (v : Verifier F) (hver : Verifier.new inst (2 ^ e) = .ok v) (d1 d2 : Domain F)
    (hd1 : Domain.newForSize F (v.columnDomain.size * v.ldeFactor) = .ok d1)
    (hd2 : Domain.newForSize F (v.constraintsDomain.size * v.ldeFactor) = .ok d2)
    (c : Commitments F) (hcom : c.Ok H v slack) (ch : Challenges F)
    (hcc : ch.constraintChallenges.length = inst.constraints.length)
    (hbc : ch.boundaryChallenges.length = inst.boundaryConstraints.length)
    (hα : ch.h1Challenges.length = v.allMasks.length) (hz : OutOfDomain v ch.z)
    (answer : ℕ → ℕ → InstanceProof F) (hacc : c.Accepted H v ch d1 d2 answer) :
    (∃ witness, IsTable witness n inst.numRows ∧ Satisfies inst (cellR witness) inst.numRows) ∨
      LuckyMask v slack c.fWords ch.z (c.claimed.take v.allMasks.length) ch.h1Challenges ∨
      (ch.z ∈ winningPoints v slack c.fWords c.gWord ch.constraintChallenges ch.boundaryChallenges ∧
        LuckyPoint v slack c.fWords c.gWord ch.constraintChallenges ch.boundaryChallenges) ∨
      (Winnable v slack c.fWords ch.constraintChallenges ch.boundaryChallenges ∧
        LuckyConstraint v slack c.fWords ch.constraintChallenges ch.boundaryChallenges) ∨
      c.run1.Lucky d1.generator ∨ c.run2.Lucky d2.generator ∨ CollisionAmong H (c.Hashed H d1 d2 answer) := by
  by_cases hcol : CollisionAmong H (c.Hashed H d1 d2 answer)
  · exact .inr (.inr (.inr (.inr (.inr (.inr hcol)))))
  by_cases hl1 : c.run1.Lucky d1.generator
  · exact .inr (.inr (.inr (.inr (.inl hl1))))
  by_cases hl2 : c.run2.Lucky d2.generator
  · exact .inr (.inr (.inr (.inr (.inr (.inl hl2)))))
  have he : 1 ≤ e := by
    by_contra hc
    have : e = 0 := by omega
    subst this
    omega
  have hv := h.built hver
  obtain ⟨K, -, hdom, hK⟩ := hv.domain
  have s1 : v.columnDomain.size * v.ldeFactor = 2 ^ (k + e) := by rw [hv.column, hv.factor]; exact (pow_add _ _ _).symm
  have s2 : v.constraintsDomain.size * v.ldeFactor = 2 ^ (K + e) := by rw [hdom, hv.factor]; exact (pow_add _ _ _).symm
  have hreg : v.inst.numRegisters = n := by rw [hv.props]; exact h.registers
  have big : ∀ m, 2 * (slack * 2 ^ m) < 2 ^ (m + e) := by
    intro m
    rw [← mul_assoc, add_comm m e, pow_add]
    exact Nat.mul_lt_mul_of_pos_right hsl (Nat.two_pow_pos m)
  have hord : ∀ m (d : Domain F), Domain.newForSize F (2 ^ m) = .ok d → m ≤ StarkField.S F ∧ d = domOf F m := by
    intro m d hd
    obtain ⟨M, hM, e1, e2⟩ := newForSize_inv hd
    rw [nextPow2_pow] at e2
    have := Nat.pow_right_injective (le_refl 2) e2
    subst this
    exact ⟨hM, e1⟩
  have hd1' := hd1
  have hd2' := hd2
  rw [s1] at hd1'
  rw [s2] at hd2'
  obtain ⟨hS1, rfl⟩ := hord _ _ hd1'
  obtain ⟨hS2, rfl⟩ := hord _ _ hd2'
  have one1 : 1 < 2 ^ (k + e) := Nat.one_lt_two_pow (by omega)
  have one2 : 1 < 2 ^ (K + e) := Nat.one_lt_two_pow (by omega)
  have hf : IsTable c.fWords n (2 ^ (k + e)) := by rw [← hreg, ← s1]; exact hcom.f
  obtain ⟨y, hy⟩ : ∃ y, y = c.claimed.take v.allMasks.length := ⟨_, rfl⟩
  have hzip : v.allMasks.zip y = v.allMasks.zip c.claimed := by rw [hy]; exact zip_take_length _ _
  have hylen : y.length = v.allMasks.length := by
    obtain ⟨a1, a2⟩ := hacc 1 1 one1 rfl one2 rfl
    rw [hy, List.length_take]
    have := a2.claims
    rw [a1.claimed] at this
    omega
  have hm : ∀ m ∈ v.allMasks, ∃ r x, r < n ∧ m = ⟨.register r, .mask x⟩ := by rw [hv.masks]; exact h.masks
  -- the opened values are the committed ones
  have hopen : ∀ i, i < 2 ^ (k + e) → i % 2 = 1 → ∀ r, openedValue (answer i 1).fQueries (.register r) =
      (tab n (fun r => (c.fWords.getD r []).getD i 0)).getD r 0 := by
    intro i hi ho r
    obtain ⟨a1, a2⟩ := hacc i 1 hi ho one2 rfl
    have ha2 := a2.counts
    rw [hreg] at ha2
    by_cases hr : r < n
    · have hr1 : r < (answer i 1).fQueries.length := by omega
      have hr2 : r < (answer i 1).fIopRoots.length := by omega
      have hr3 : r < c.fWords.length := by rw [hf.1]; exact hr
      have hr4 : r < c.fRoots.length := by rw [← a1.fRoots]; exact hr2
      obtain ⟨hq, hidx⟩ := a2.registers r _ _ (List.getElem?_eq_getElem hr1) (List.getElem?_eq_getElem hr2)
      have hroot := hcom.fRoots r _ _ (List.getElem?_eq_getElem hr3) (List.getElem?_eq_getElem hr4)
      have er : (answer i 1).fIopRoots[r] = c.fRoots[r] := by simp only [a1.fRoots]
      rw [er] at hq
      have hidx' : (answer i 1).fQueries[r].index = i := hidx
      rcases opened_value H hb (hf.2 _ (List.getElem_mem hr3)) hroot hq (by rw [hidx']; exact hi) with hval | hval
      · rw [hidx'] at hval
        rw [List.getD_eq_getElem?_getD, getElem?_tab, if_pos hr, Option.getD_some, List.getD_eq_getElem?_getD,
          List.getD_eq_getElem?_getD, List.getElem?_eq_getElem hr3, Option.getD_some, hval, Option.getD_some]
        simp [openedValue, List.getElem?_eq_getElem hr1]
      · refine absurd (CollisionAmong.mono H ?_ hval) hcol
        rintro s (hs | hs)
        · exact .inl ⟨_, .inl (List.getElem_mem hr3), hs⟩
        · exact .inr ⟨i, 1, _, hi, ho, one2, rfl, .inl (List.getElem_mem hr1), hs⟩
    · have hr1 : (answer i 1).fQueries.length ≤ r := by omega
      rw [List.getD_eq_getElem?_getD, getElem?_tab, if_neg hr]
      simp [openedValue, List.getElem?_eq_none hr1]
  have hgopen : ∀ j, j < 2 ^ (K + e) → j % 2 = 1 → rd c.gWord j = .ok (answer 1 j).gQuery.value := by
    intro j hj ho
    obtain ⟨a1, a2⟩ := hacc 1 j one1 rfl hj ho
    have hidx : (answer 1 j).gQuery.index = j := a2.g.2
    have hq := a2.g.1
    rw [a1.gRoot] at hq
    rcases opened_value H hb (hcom.g.1.trans s2) hcom.g.2 hq (by rw [hidx]; exact hj) with hval | hval
    · rw [hidx] at hval
      unfold rd
      rw [hval, Res.expect_some]
    · refine absurd (CollisionAmong.mono H ?_ hval) hcol
      rintro s (hs | hs)
      · exact .inl ⟨_, .inr (.inl rfl), hs⟩
      · exact .inr ⟨1, j, _, one1, rfl, hj, ho, .inr (.inl rfl), hs⟩
  have h1 : LowH1 v slack c.fWords ch.z y ch.h1Challenges := by
    have hcr := hcom.run1
    rw [s1, hv.column] at hcr
    rcases fri_low H hb hc hS1 (d := v.columnDomain.size) (f := v.ldeFactor) s1 hcr
        (Nat.mul_pos hs1 (Nat.two_pow_pos k)) (big k) (fun i => (answer i 1).friProofH1)
        (fun i => deepClaim v.allMasks (answer i 1).fAtZM ch.h1Challenges (openedValue (answer i 1).fQueries) ch.z (genOf F (k + e) ^ i))
        (by
          intro i hi ho
          obtain ⟨a1, a2⟩ := hacc i 1 hi ho one2 rfl
          exact ⟨a1.run1, a2.h1⟩) with ⟨p, hp, hpv⟩ | hl | hl
    · refine ⟨_, p, hd1, by rw [hv.column]; exact hp, ?_⟩
      intro i hi ho
      obtain ⟨a1, a2⟩ := hacc i 1 hi ho one2 rfl
      refine ⟨_, opened_ok hf hi, ?_⟩
      rw [simulateH1_iff v (hopen i hi ho) (by rw [length_tab]; exact hm) hα (le_of_eq hylen.symm)]
      refine ⟨a2.poles.1, ?_⟩
      have := hpv i hi ho
      rw [a1.claimed] at this
      unfold deepClaim at this ⊢
      rw [hzip]
      exact this.symm
    · exact absurd hl hl1
    · refine absurd (CollisionAmong.mono H ?_ hl) hcol
      rintro s (⟨r, hr, hs⟩ | ⟨i, hi, ho, q, hq, hs⟩)
      · exact .inl ⟨_, .inr (.inr (.inl ⟨r, hr, rfl⟩)), hs⟩
      · exact .inr ⟨i, 1, q, hi, ho, one2, rfl, .inr (.inr (.inl hq)), hs⟩
  have hbat : v.constraintsBatchedByDensity.flatMap (fun b => b.2) = batched inst k := by rw [hv.batches]; rfl
  have h2 : LowH2 v slack c.gWord ch.constraintChallenges ch.boundaryChallenges ch.z y := by
    have hcr := hcom.run2
    rw [s2, hdom] at hcr
    obtain ⟨gz, hgz⟩ : ∃ gz, v.calculateGAtZ ch.constraintChallenges ch.boundaryChallenges y ch.z = .ok gz ∧
        gz = compositionAt v.columnDomain.generator v.inst.numRows v.maxConstraintPower (claimedEnv v.allMasks y)
        ((v.constraintsBatchedByDensity.flatMap (fun b => b.2)).zip ch.constraintChallenges) (v.inst.boundaryConstraints.zip ch.boundaryChallenges) ch.z := by
      obtain ⟨a1, a2⟩ := hacc 1 1 one1 rfl one2 rfl
      exact ⟨_, (calculateGAtZ_iff h hv (by rw [hbat, length_batched]; exact hcc) hbc y ch.z _).2
        ⟨⟨le_of_eq hylen.symm, a2.poles.2.2⟩, rfl⟩, rfl⟩
    rcases fri_low H hb hc hS2 (d := v.constraintsDomain.size) (f := v.ldeFactor) s2 hcr
        (Nat.mul_pos hs1 (Nat.two_pow_pos K)) (big K) (fun j => (answer 1 j).friProofH2)
        (fun j => ((answer 1 j).gQuery.value - gz) / (genOf F (K + e) ^ j - ch.z))
        (by
          intro j hj ho
          obtain ⟨a1, a2⟩ := hacc 1 j one1 rfl hj ho
          refine ⟨a1.run2, ?_⟩
          have := a2.h2
          rw [a1.claimed] at this
          rw [hgz.2]
          unfold claimedEnv at this ⊢
          rw [hzip]
          exact this) with ⟨p, hp, hpv⟩ | hl | hl
    · refine ⟨gz, _, p, hgz.1, hd2, by rw [hdom]; exact hp, ?_⟩
      intro j hj ho
      obtain ⟨a1, a2⟩ := hacc 1 j one1 rfl hj ho
      refine ⟨_, hgopen j hj ho, ?_⟩
      unfold simulateH2
      have hne : (domOf F (K + e)).generator ^ j - ch.z ≠ 0 := sub_ne_zero.2 a2.poles.2.1
      simp only [inverse_of_ne hne, Res.okOr_some, Res.ok_bind, Res.pure_def]
      have := hpv j hj ho
      rw [div_eq_mul_inv] at this
      exact congrArg Res.ok this
    · exact absurd hl hl2
    · refine absurd (CollisionAmong.mono H ?_ hl) hcol
      rintro s (⟨r, hr, hs⟩ | ⟨j, hj, ho, q, hq, hs⟩)
      · exact .inl ⟨_, .inr (.inr (.inr ⟨r, hr, rfl⟩)), hs⟩
      · exact .inr ⟨1, j, q, one1, rfl, hj, ho, .inr (.inr (.inr hq)), hs⟩
  rcases C46_ideal_soundness_partial inst n k e slack h hs1 hsl hdeg hspan hrows v hver c.fWords (by rw [s1]; exact hf) c.gWord hcom.g.1
      ch.constraintChallenges ch.boundaryChallenges hcc hbc ch.z hz y ch.h1Challenges hylen hα h1 h2 with hr | hr | hr | hr
  · exact .inl hr
  · rw [← hy]; exact .inr (.inl hr)
  · exact .inr (.inr (.inl hr))
  · exact .inr (.inr (.inr (.inl hr)))

/-- A FRI proof with one root per round and one final coefficient, for the evaluation of a polynomial. -/
noncomputable def shapedProof (n m d f : ℕ) (p : F[X]) (idx : ℕ) : FriProof F :=
  { queries := tab (2 * m) (friQueryAt H n p idx)
    roots := tab m (friRoot H n p)
    finalCoefficients := [(friLayer H n p m).coeff 0]
    initialDegreePlusOne := d
    outputCoeffsAtDegreePlusOne := 1
    ldeFactor := f }

theorem shapedProof_accepts (hc : ChallengeOk F) {n m d f : ℕ} (hn : n ≤ StarkField.S F) (hm1 : 1 ≤ m) (hm : m ≤ n) (hd : d * f = 2 ^ n)
    {p : F[X]} (hp : p.degree < (2 ^ m : ℕ)) {idx : ℕ} (hidx : idx < 2 ^ n) (hodd : idx % 2 = 1) :
    (shapedProof H n m d f p idx).verify H idx (friVals n p idx) = .ok true := by
  have hd' : Nat.clog 2 (d * f) = n := by rw [hd]; exact Nat.clog_pow 2 n (by norm_num)
  unfold shapedProof FriProof.verify FriProof.verifyQueries
  simp only
  rw [friStart_eq' H hn hd' (by omega) p hidx, if_pos hodd]
  simp only [Res.ok_bind, ne_eq, OfNat.ofNat_ne_zero, not_false_eq_true, decide_true, Res.assert_true, length_tab,
    Nat.mul_mod_right, not_true_eq_false, if_false]
  rw [chunksExact_tab, zip_tab, min_self]
  have := proofRounds_honest H hc (k := m) hn hm [(friLayer H n p m).coeff 0] p hidx (friVals n p idx) rfl m 0 (by omega)
  simp only [Nat.zero_add] at this
  have e : ∀ i, i < m → (friRoot H n p i, [friQueryAt H n p idx (2 * i), friQueryAt H n p idx (2 * i + 1)])
      = (friRoot H n p i, [friQuery H n p i (friIdx n idx (i + 1)), friQuery H n p i (friIdx n idx (i + 1) + 2 ^ (n - (i + 1)))]) := by
    intro i _
    unfold friQueryAt
    have a : 2 * i / 2 = i := by omega
    have b : 2 * i % 2 = 0 := by omega
    have a' : (2 * i + 1) / 2 = i := by omega
    have b' : (2 * i + 1) % 2 = 1 := by omega
    rw [a, b, a', b', Nat.zero_mul, Nat.add_zero, Nat.one_mul]
  rw [tab_congr e, this, friFinish_vstate H (by omega)]
  have hdeg := friLayer_degree H (n := n) hp m (le_refl m)
  rw [Nat.sub_self] at hdeg
  have ht : [(friLayer H n p m).coeff 0] = tab (2 ^ 0) (friLayer H n p m).coeff := rfl
  rw [ht, evalPoly_coeff hdeg]
  simp

/-- The words of all rounds are polynomials of the degree required in the round, on the powers of `ω^(2^r)`. -/
def Spec.FriRun.AllLow (run : FriRun F) (ω : F) : Prop :=
  ∀ r, r < run.roots.length → ∃ P : F[X], P.degree < (run.fin.length * 2 ^ (run.roots.length - r) : ℕ) ∧
    ∀ j, j < (run.words r).length → (run.words r)[j]? = some (P.eval ((ω ^ 2 ^ r) ^ j))

/-- The evaluation of a polynomial of degree below `2^m` has a FRI run of `m` rounds with one final coefficient that answers all odd positions; the words of all its rounds have the degree required in the round. -/
theorem fri_run_low (hc : ChallengeOk F) {n m d f : ℕ} (hn : n ≤ StarkField.S F) (hm1 : 1 ≤ m) (hm : m ≤ n) (hd : d * f = 2 ^ n)
    {p : F[X]} (hp : p.degree < (2 ^ m : ℕ)) :
    ∃ (run : FriRun F) (proof : ℕ → FriProof F), run.Committed H (2 ^ n) (2 ^ m) ∧ run.AllLow (genOf F n) ∧
      ∀ idx, idx < 2 ^ n → idx % 2 = 1 → run.Proves (proof idx) d f ∧ (proof idx).verify H idx (p.eval (genOf F n ^ idx)) = .ok true := by
  refine ⟨⟨fun r => tab (2 ^ (n - r)) (friVals (n - r) (friLayer H n p r)), tab m (friRoot H n p), [(friLayer H n p m).coeff 0]⟩,
    shapedProof H n m d f p, ⟨?_, by simp⟩, ?_, ?_⟩
  · intro r root hr
    replace hr : (tab m (friRoot H n p))[r]? = some root := hr
    rw [getElem?_tab] at hr
    split at hr
    · rename_i hlt
      cases hr
      refine ⟨?_, ⟨1, by norm_num⟩, _, friTree_create H _ n p (by omega), friTree_root H n p (by omega)⟩
      show (tab _ _).length * 2 ^ r = 2 ^ n
      rw [length_tab, ← pow_add]
      congr 1
      omega
    · cases hr
  · intro r hr
    replace hr : r < m := by simpa using hr
    refine ⟨friLayer H n p r, ?_, ?_⟩
    · have := friLayer_degree H (n := n) hp r hr.le
      simpa using this
    · intro j hj
      replace hj : j < 2 ^ (n - r) := by simpa using hj
      show (tab (2 ^ (n - r)) (friVals (n - r) (friLayer H n p r)))[j]? = _
      have e := genOf_pow (F := F) (k := n - r) (m := r) (by omega)
      rw [show n - r + r = n by omega] at e
      rw [getElem?_tab, if_pos hj, e]
      rfl
  · intro idx hi ho
    exact ⟨⟨rfl, rfl, ⟨rfl, rfl⟩, by simp [shapedProof]⟩, shapedProof_accepts H hc hn hm1 hm hd hp hi ho⟩

theorem fri_run (hc : ChallengeOk F) {n m d f : ℕ} (hn : n ≤ StarkField.S F) (hm1 : 1 ≤ m) (hm : m ≤ n) (hd : d * f = 2 ^ n)
    {p : F[X]} (hp : p.degree < (2 ^ m : ℕ)) :
    ∃ (run : FriRun F) (proof : ℕ → FriProof F), run.Committed H (2 ^ n) (2 ^ m) ∧
      ∀ idx, idx < 2 ^ n → idx % 2 = 1 → run.Proves (proof idx) d f ∧ (proof idx).verify H idx (p.eval (genOf F n ^ idx)) = .ok true := by
  obtain ⟨run, proof, h1, -, h2⟩ := fri_run_low H hc hn hm1 hm hd hp
  exact ⟨run, proof, h1, h2⟩

theorem exists_openings {m : ℕ} (hm : 1 ≤ m) (word : List F) (hl : word.length = 2 ^ m) :
    ∃ (root : Digest) (q : ℕ → IopQuery F), RootOf H word root ∧
      ∀ i, i < 2 ^ m → (q i).index = i ∧ word[i]? = some (q i).value ∧ verifyQuery H (q i) root = true := by
  have h := C18_merkle_complete H ⟨1, by norm_num⟩ word m
  obtain ⟨tree, root, -, e1, e2, -⟩ := h 0 hm hl (by positivity)
  have : ∀ i, ∃ q : IopQuery F, i < 2 ^ m → q.index = i ∧ word[i]? = some q.value ∧ verifyQuery H q root = true := by
    intro i
    by_cases hi : i < 2 ^ m
    · obtain ⟨tree', root', q, e1', e2', -, h1, h2, -, h3⟩ := h i hm hl hi
      rw [e1] at e1'
      cases e1'
      rw [e2] at e2'
      cases e2'
      exact ⟨q, fun _ => ⟨h1, h2, h3⟩⟩
    · exact ⟨⟨0, 0, []⟩, fun h => absurd h hi⟩
  choose q hq using this
  exact ⟨root, q, ⟨_, tree, e1, e2⟩, hq⟩

/-- Words that pass the ideal tests at the positions `A1`, `A2` have commitments, and accepted answers for these positions: roots and openings that depend only on the words, and, for given challenges, FRI runs of
the shape of the code's own proofs (slack 2), in which all words have the required degree. -/
theorem interactive_on (hc : ChallengeOk F) (inst : InstanceProperties F) (n k e : ℕ) (h : Verifiable inst n k)
    (hk : 2 ≤ inst.numRows) (he : 1 ≤ e) (v : Verifier F) (hver : Verifier.new inst (2 ^ e) = .ok v) (d1 d2 : Domain F)
    (hd1 : Domain.newForSize F (v.columnDomain.size * v.ldeFactor) = .ok d1)
    (hd2 : Domain.newForSize F (v.constraintsDomain.size * v.ldeFactor) = .ok d2)
    (fWords : List (List F)) (hf : IsTable fWords n (v.columnDomain.size * v.ldeFactor)) :
    ∃ fRoots : List Digest, ∀ gWord : List F, gWord.length = v.constraintsDomain.size * v.ldeFactor → ∃ gRoot : Digest,
      ∀ (ch : Challenges F) (y : List F), ch.constraintChallenges.length = inst.constraints.length →
        ch.boundaryChallenges.length = inst.boundaryConstraints.length → ch.h1Challenges.length = v.allMasks.length →
        y.length = v.allMasks.length → ∀ (A1 A2 : ℕ → Prop) (Q1 Q2 : F[X]) (gz : F), Q1.degree < (2 * v.columnDomain.size : ℕ) → Q2.degree < (2 * v.constraintsDomain.size : ℕ) →
        (∀ idx, idx < d1.size → idx % 2 = 1 → A1 idx → ∃ opened, mapRes (fun word => rd word idx) fWords = .ok opened ∧
          v.simulateH1 ch.h1Challenges idx d1 opened y ch.z = .ok (Q1.eval (d1.generator ^ idx))) →
        v.calculateGAtZ ch.constraintChallenges ch.boundaryChallenges y ch.z = .ok gz →
        (∀ idx, idx < d2.size → idx % 2 = 1 → A2 idx → ∃ x, rd gWord idx = .ok x ∧ simulateH2 idx d2 x ch.z gz = .ok (Q2.eval (d2.generator ^ idx))) →
        ∃ (run1 run2 : FriRun F) (answer : ℕ → ℕ → InstanceProof F), Commitments.Ok H ⟨fWords, fRoots, gWord, gRoot, y, run1, run2⟩ v 2 ∧
          run1.AllLow d1.generator ∧ run2.AllLow d2.generator ∧
          ∀ i j, i < d1.size → i % 2 = 1 → A1 i → j < d2.size → j % 2 = 1 → A2 j →
            Commitments.Answers ⟨fWords, fRoots, gWord, gRoot, y, run1, run2⟩ v (answer i j) ∧
              Accepts H v (answer i j) { ch with idx1 := i, idx2 := j } d1.generator d2.generator := by
  have hv := h.built hver
  obtain ⟨K, -, hdom, hK⟩ := hv.domain
  have hkK := (domain_large hK).2
  have s1 : v.columnDomain.size * v.ldeFactor = 2 ^ (k + e) := by rw [hv.column, hv.factor]; exact (pow_add _ _ _).symm
  have s2 : v.constraintsDomain.size * v.ldeFactor = 2 ^ (K + e) := by rw [hdom, hv.factor]; exact (pow_add _ _ _).symm
  have hreg : v.inst.numRegisters = n := by rw [hv.props]; exact h.registers
  have hord : ∀ m (d : Domain F), Domain.newForSize F (2 ^ m) = .ok d → m ≤ StarkField.S F ∧ d = domOf F m := by
    intro m d hd
    obtain ⟨M, hM, e1, e2⟩ := newForSize_inv hd
    rw [nextPow2_pow] at e2
    have := Nat.pow_right_injective (le_refl 2) e2
    subst this
    exact ⟨hM, e1⟩
  have hd1' := hd1
  have hd2' := hd2
  rw [s1] at hd1' hf
  rw [s2] at hd2'
  obtain ⟨hS1, rfl⟩ := hord _ _ hd1'
  obtain ⟨hS2, rfl⟩ := hord _ _ hd2'
  have hm : ∀ m ∈ v.allMasks, ∃ r x, r < n ∧ m = ⟨.register r, .mask x⟩ := by rw [hv.masks]; exact h.masks
  have hbat : v.constraintsBatchedByDensity.flatMap (fun b => b.2) = batched inst k := by rw [hv.batches]; rfl
  have hlen : ∀ r, r < n → (fWords.getD r []).length = 2 ^ (k + e) := by
    intro r hr
    have hr' : r < fWords.length := by rw [hf.1]; exact hr
    rw [List.getD_eq_getElem?_getD, List.getElem?_eq_getElem hr', Option.getD_some]
    exact hf.2 _ (List.getElem_mem hr')
  have hex : ∀ r, ∃ (root : Digest) (q : ℕ → IopQuery F), r < n → RootOf H (fWords.getD r []) root ∧
      ∀ i, i < 2 ^ (k + e) → (q i).index = i ∧ (fWords.getD r [])[i]? = some (q i).value ∧ verifyQuery H (q i) root = true := by
    intro r
    by_cases hr : r < n
    · obtain ⟨root, q, hq⟩ := exists_openings H (show 1 ≤ k + e by omega) _ (hlen r hr)
      exact ⟨root, q, fun _ => hq⟩
    · exact ⟨H [], fun _ => ⟨0, 0, []⟩, fun h => absurd h hr⟩
  choose root q hq using hex
  refine ⟨tab n root, ?_⟩
  intro gWord hg
  rw [s2] at hg
  obtain ⟨gRoot, gq, hgroot, hgq⟩ := exists_openings H (show 1 ≤ K + e by omega) gWord hg
  refine ⟨gRoot, ?_⟩
  intro ch y hcc hbc hα hy A1 A2 Q1 Q2 gz hQ1 hQ2 hv1 hgz hv2
  rw [hv.column, show 2 * (domOf F k).size = 2 ^ (k + 1) from (pow_succ' _ _).symm] at hQ1
  rw [hdom, show 2 * (domOf F K).size = 2 ^ (K + 1) from (pow_succ' _ _).symm] at hQ2
  obtain ⟨run1, proof1, hc1, ha1, hp1⟩ := fri_run_low H hc hS1 (show 1 ≤ k + 1 by omega) (show k + 1 ≤ k + e by omega) s1 hQ1
  obtain ⟨run2, proof2, hc2, ha2, hp2⟩ := fri_run_low H hc hS2 (show 1 ≤ K + 1 by omega) (show K + 1 ≤ K + e by omega) s2 hQ2
  refine ⟨run1, run2, fun i j =>
    { fAtZM := y, fIopRoots := tab n root, gIopRoot := gRoot, fQueries := tab n (fun r => q r i), gQuery := gq j,
      h1IopRoots := [], h2IopRoots := [], friProofH1 := proof1 i, friProofH2 := proof2 j }, ?_, ha1, ha2, ?_⟩
  · refine ⟨by rw [hreg, s1]; exact hf, ?_, ⟨by rw [s2]; exact hg, hgroot⟩, ?_, ?_⟩
    · intro r word rt h1 h2
      replace h2 : (tab n root)[r]? = some rt := h2
      replace h1 : fWords[r]? = some word := h1
      rw [getElem?_tab] at h2
      split at h2
      · rename_i hr
        cases h2
        have := (hq r hr).1
        rw [List.getD_eq_getElem?_getD, h1, Option.getD_some] at this
        exact this
      · cases h2
    · rw [s1, hv.column, show 2 * (domOf F k).size = 2 ^ (k + 1) from (pow_succ' _ _).symm]
      exact hc1
    · rw [s2, hdom, show 2 * (domOf F K).size = 2 ^ (K + 1) from (pow_succ' _ _).symm]
      exact hc2
  · intro i j hi hio hia hj hjo hja
    replace hi : i < 2 ^ (k + e) := hi
    replace hj : j < 2 ^ (K + e) := hj
    obtain ⟨pr1, pa1⟩ := hp1 i hi hio
    obtain ⟨pr2, pa2⟩ := hp2 j hj hjo
    refine ⟨⟨rfl, rfl, rfl, pr1, pr2⟩, ?_⟩
    obtain ⟨opened, ho, hs⟩ := hv1 i hi hio hia
    obtain ⟨x, hx, hs2⟩ := hv2 j hj hjo hja
    have hopen : ∀ r, openedValue (tab n (fun r => q r i)) (.register r) = opened.getD r 0 := by
      intro r
      rw [opened_ok hf hi] at ho
      cases ho
      by_cases hr : r < n
      · have := ((hq r hr).2 i hi).2.1
        rw [List.getD_eq_getElem?_getD, getElem?_tab, if_pos hr, Option.getD_some, List.getD_eq_getElem?_getD, this, Option.getD_some]
        simp [openedValue, getElem?_tab, hr]
      · simp [openedValue, getElem?_tab, hr]
    have hlo : opened.length = n := by
      rw [opened_ok hf hi] at ho
      cases ho
      exact length_tab _ _
    obtain ⟨pole1, val1⟩ := (simulateH1_iff v hopen (by rw [hlo]; exact hm) hα (le_of_eq hy.symm) _ _ _ _).1 hs
    obtain ⟨⟨-, pole3, pole4⟩, val2⟩ := (calculateGAtZ_iff h hv (by rw [hbat, length_batched]; exact hcc) hbc y ch.z _).1 hgz
    have hxv : x = (gq j).value := by
      have := (hgq j hj).2.1
      unfold rd at hx
      rw [this, Res.expect_some] at hx
      cases hx
      rfl
    have pole2 : genOf F (K + e) ^ j ≠ ch.z := by
      intro e'
      unfold simulateH2 at hs2
      rw [inverse_eq_none.2 (sub_eq_zero.2 (show (domOf F (K + e)).generator ^ j = ch.z from e'))] at hs2
      cases hs2
    refine ⟨⟨by rw [hreg]; exact length_tab _ _, by rw [hreg]; exact length_tab _ _⟩, ?_, ⟨(hgq j hj).2.2, (hgq j hj).1⟩, le_of_eq hy.symm,
      ⟨pole1, pole2, pole3, pole4⟩, ?_, ?_⟩
    · intro r q' root' h1 h2
      replace h1 : (tab n (fun r => q r i))[r]? = some q' := h1
      replace h2 : (tab n root)[r]? = some root' := h2
      rw [getElem?_tab] at h1 h2
      by_cases hr : r < n
      · rw [if_pos hr] at h1 h2
        cases h1
        cases h2
        exact ⟨((hq r hr).2 i hi).2.2, ((hq r hr).2 i hi).1⟩
      · rw [if_neg hr] at h1
        cases h1
    · show (proof1 i).verify H i (deepClaim v.allMasks y ch.h1Challenges (openedValue (tab n (fun r => q r i))) ch.z (genOf F (k + e) ^ i)) = .ok true
      rw [← pa1]
      congr 1
      exact val1.symm
    · show (proof2 j).verify H j (((gq j).value - _) / (genOf F (K + e) ^ j - ch.z)) = .ok true
      rw [← pa2, ← val2, ← hxv]
      unfold simulateH2 at hs2
      have hne : (domOf F (K + e)).generator ^ j - ch.z ≠ 0 := sub_ne_zero.2 pole2
      simp only [inverse_of_ne hne, Res.okOr_some, Res.ok_bind, Res.pure_def, Res.ok.injEq] at hs2
      rw [div_eq_mul_inv]
      congr 1

/-- Words that pass the ideal tests have commitments and accepted answers: roots and openings that depend only on the words, and, for given challenges, FRI runs of
the shape of the code's own proofs (slack 2). -/
theorem interactive_of_ideal (hc : ChallengeOk F) (inst : InstanceProperties F) (n k e : ℕ) (h : Verifiable inst n k)
    (hk : 2 ≤ inst.numRows) (he : 1 ≤ e) (v : Verifier F) (hver : Verifier.new inst (2 ^ e) = .ok v) (d1 d2 : Domain F)
    (hd1 : Domain.newForSize F (v.columnDomain.size * v.ldeFactor) = .ok d1)
    (hd2 : Domain.newForSize F (v.constraintsDomain.size * v.ldeFactor) = .ok d2)
    (fWords : List (List F)) (hf : IsTable fWords n (v.columnDomain.size * v.ldeFactor)) :
    ∃ fRoots : List Digest, ∀ gWord : List F, gWord.length = v.constraintsDomain.size * v.ldeFactor → ∃ gRoot : Digest,
      ∀ (ch : Challenges F) (y : List F), ch.constraintChallenges.length = inst.constraints.length →
        ch.boundaryChallenges.length = inst.boundaryConstraints.length → ch.h1Challenges.length = v.allMasks.length →
        y.length = v.allMasks.length → LowH1 v 2 fWords ch.z y ch.h1Challenges →
        LowH2 v 2 gWord ch.constraintChallenges ch.boundaryChallenges ch.z y →
        ∃ run1 run2 answer, Commitments.Ok H ⟨fWords, fRoots, gWord, gRoot, y, run1, run2⟩ v 2 ∧
          Commitments.Accepted H ⟨fWords, fRoots, gWord, gRoot, y, run1, run2⟩ v ch d1 d2 answer := by
  obtain ⟨fRoots, hr⟩ := interactive_on H hc inst n k e h hk he v hver d1 d2 hd1 hd2 fWords hf
  refine ⟨fRoots, fun gWord hg => ?_⟩
  obtain ⟨gRoot, hr⟩ := hr gWord hg
  refine ⟨gRoot, ?_⟩
  rintro ch y hcc hbc hα hy ⟨d1', Q1, hd1'', hQ1, hv1⟩ ⟨gz, d2', Q2, hgz, hd2'', hQ2, hv2⟩
  rw [hd1] at hd1''
  cases hd1''
  rw [hd2] at hd2''
  cases hd2''
  obtain ⟨run1, run2, answer, hok, -, -, hacc⟩ := hr ch y hcc hbc hα hy (fun _ => True) (fun _ => True) Q1 Q2 gz hQ1 hQ2 (fun i a b _ => hv1 i a b) hgz (fun j a b _ => hv2 j a b)
  exact ⟨run1, run2, answer, hok, fun i j a b c d => hacc i j a b trivial c d trivial⟩

/-- The interactive protocol is complete: for a satisfying witness there are words and roots of the registers, for all constraint challenges a word and a root of
`g`, for every out-of-domain point claims, and for all mask challenges FRI runs, of the shape of the code's own proofs, for which
all odd positions have an accepted answer. So the hypotheses of `C46_soundness_partial` are met, with slack 2, without luck and for any hash function. -/
theorem C46_interactive_complete (hc : ChallengeOk F) (inst : InstanceProperties F) (n k e : ℕ) (h : Verifiable inst n k)
    (h2 : 2 ≤ inst.numRows) (he : 1 ≤ e) (hdg : ∃ c ∈ inst.constraints, 1 ≤ c.degree)
    (hdeg : ∀ c ∈ inst.constraints, ∀ t ∈ c.terms, termDegree t ≤ c.degree)
    (hrows : ∀ b ∈ inst.boundaryConstraints, b.atRow < inst.numRows)
    (v : Verifier F) (hver : Verifier.new inst (2 ^ e) = .ok v) (d1 d2 : Domain F)
    (hd1 : Domain.newForSize F (v.columnDomain.size * v.ldeFactor) = .ok d1)
    (hd2 : Domain.newForSize F (v.constraintsDomain.size * v.ldeFactor) = .ok d2)
    (witness : List (List F)) (hw : IsTable witness n inst.numRows) (hsat : Satisfies inst (cellR witness) inst.numRows) :
    ∃ fWords fRoots, ∀ cc bc : List (F × F), cc.length = inst.constraints.length → bc.length = inst.boundaryConstraints.length →
      ∃ gWord gRoot, ∀ z, OutOfDomain v z → ∃ claimed, ∀ αs : List F, αs.length = v.allMasks.length → ∃ run1 run2 answer,
        Commitments.Ok H ⟨fWords, fRoots, gWord, gRoot, claimed, run1, run2⟩ v 2 ∧ ∀ idx1 idx2,
        Commitments.Accepted H ⟨fWords, fRoots, gWord, gRoot, claimed, run1, run2⟩ v ⟨cc, bc, z, αs, idx1, idx2⟩ d1 d2 answer := by
  have hS : v.constraintsDomain.size * v.ldeFactor ≤ 2 ^ StarkField.S F := by
    obtain ⟨M, hM, -, e2⟩ := newForSize_inv hd2
    refine le_trans ?_ (Nat.pow_le_pow_right (by norm_num) hM)
    rw [e2]
    exact Nat.le_pow_clog (by norm_num) _
  obtain ⟨fWords, hf, hrest⟩ := C46_ideal_complete inst n k e 2 h (by norm_num) h2 hdg hdeg hrows v hver hS witness hw hsat
  obtain ⟨fRoots, hroots⟩ := interactive_of_ideal H hc inst n k e h h2 he v hver d1 d2 hd1 hd2 fWords hf
  refine ⟨fWords, fRoots, ?_⟩
  intro cc bc hcc hbc
  obtain ⟨gWord, hg, hrest⟩ := hrest cc bc hcc hbc
  obtain ⟨gRoot, hgr⟩ := hroots gWord hg
  refine ⟨gWord, gRoot, ?_⟩
  intro z hz
  obtain ⟨y, hy, l2, l1⟩ := hrest z hz
  refine ⟨y, ?_⟩
  intro αs hα
  obtain ⟨run1, run2, answer, hok, hacc⟩ := hgr ⟨cc, bc, z, αs, 0, 0⟩ y hcc hbc hα hy (l1 αs) l2
  exact ⟨run1, run2, answer, hok, fun _ _ => hacc⟩

/-- With the LDE factors 2 and 4 the interactive protocol has no soundness, for any instance and even though the FRI runs have the shape of the code's own proofs:
whatever words a prover commits to, whatever it claims and whatever the challenges (with `z` out of the domain), it has accepted answers for all odd positions. -/
theorem C46_small_factor_accepts (hc : ChallengeOk F) (inst : InstanceProperties F) (n k e : ℕ) (h : Verifiable inst n k)
    (h2 : 2 ≤ inst.numRows) (he : 1 ≤ e) (he2 : e ≤ 2)
    (v : Verifier F) (hver : Verifier.new inst (2 ^ e) = .ok v) (d1 d2 : Domain F)
    (hd1 : Domain.newForSize F (v.columnDomain.size * v.ldeFactor) = .ok d1)
    (hd2 : Domain.newForSize F (v.constraintsDomain.size * v.ldeFactor) = .ok d2)
    (fWords : List (List F)) (hf : IsTable fWords n (v.columnDomain.size * v.ldeFactor))
    (gWord : List F) (hg : gWord.length = v.constraintsDomain.size * v.ldeFactor) :
    ∃ fRoots gRoot, ∀ (ch : Challenges F) (y : List F), ch.constraintChallenges.length = inst.constraints.length →
        ch.boundaryChallenges.length = inst.boundaryConstraints.length → ch.h1Challenges.length = v.allMasks.length →
        y.length = v.allMasks.length → OutOfDomain v ch.z →
        ∃ run1 run2 answer, Commitments.Ok H ⟨fWords, fRoots, gWord, gRoot, y, run1, run2⟩ v 2 ∧
          Commitments.Accepted H ⟨fWords, fRoots, gWord, gRoot, y, run1, run2⟩ v ch d1 d2 answer := by
  have hS : v.constraintsDomain.size * v.ldeFactor ≤ 2 ^ StarkField.S F := by
    obtain ⟨M, hM, -, e2⟩ := newForSize_inv hd2
    refine le_trans ?_ (Nat.pow_le_pow_right (by norm_num) hM)
    rw [e2]
    exact Nat.le_pow_clog (by norm_num) _
  obtain ⟨fRoots, hroots⟩ := interactive_of_ideal H hc inst n k e h h2 he v hver d1 d2 hd1 hd2 fWords hf
  obtain ⟨gRoot, hgr⟩ := hroots gWord hg
  refine ⟨fRoots, gRoot, ?_⟩
  intro ch y hcc hbc hα hy hz
  have hsm : 2 ^ e ≤ 2 * 2 := by
    calc 2 ^ e ≤ 2 ^ 2 := Nat.pow_le_pow_right (by norm_num) he2
      _ = 2 * 2 := by norm_num
  obtain ⟨l1, l2⟩ := C46_slack_vacuous inst n k e 2 h he hsm v hver hS fWords hf gWord hg ch.constraintChallenges ch.boundaryChallenges hcc hbc
    ch.z hz y ch.h1Challenges hy
  exact hgr ch y hcc hbc hα hy l1 l2

/-- The shape of the code's own proofs: for a codeword, the number of rounds and of final coefficients stand for twice the degree bound, whatever the output
size. So `slack` is 2. -/
theorem C46_honest_shape (hc : ChallengeOk F) (w : Worker) (u : Poly F .values) (hu : u.Valid) (n f o : ℕ)
    (hl : u.size = 2 ^ n) (hfo : f + o < n) (h1 : 1 ≤ f + o) (h32 : f + o < 32) (idx : ℕ) (hidx : idx < 2 ^ n) :
    ∃ proto proof, friProofByValues H w u (2 ^ f) (2 ^ o) = .ok proto ∧ proto.produceProof H u idx = .ok proof ∧
      proof.finalCoefficients.length * 2 ^ proof.roots.length = 2 * proof.initialDegreePlusOne ∧
      proof.queries.length = 2 * proof.roots.length := by
  obtain ⟨hn, p, hp, rfl⟩ := exists_friVals hu hl
  refine ⟨_, _, friProofByValues_eq H hc w hn hfo h1 h32 hp, produceProof_honest H hfo h1 hidx, ?_, ?_⟩
  · simp only [honestProof, length_tab]
    rw [← pow_add, ← pow_succ']
    congr 1
    omega
  · simp [honestProof]

/-- The hypotheses of `C46_soundness_partial` are met by the instance with three rows, LDE factor 8, slack 2, the point `3` and any challenges. -/
example (cc bc : List (Fr × Fr)) (hcc : cc.length = 2) (hbc : bc.length = 1) (αs : List Fr) :
    numBits Fr < 256 ∧ ChallengeOk Fr ∧ Verifiable threeRows 1 2 ∧ ∃ v d1 d2, Verifier.new threeRows (2 ^ 3) = .ok v ∧
      Domain.newForSize Fr (v.columnDomain.size * v.ldeFactor) = .ok d1 ∧
      Domain.newForSize Fr (v.constraintsDomain.size * v.ldeFactor) = .ok d2 ∧ OutOfDomain v 3 ∧
      (αs.length = v.allMasks.length → ∃ (c : Commitments Fr) (answer : ℕ → ℕ → InstanceProof Fr), c.Ok H v 2 ∧
        c.Accepted H v ⟨cc, bc, 3, αs, 1, 1⟩ d1 d2 answer) := by
  have h := threeRows_verifiable
  obtain ⟨v, e3, hz, hsz, hdeg, hspan, hrows, ht, hsat⟩ := threeRows_setup
  have hch : ChallengeOk Fr := by unfold ChallengeOk; decide +kernel
  have hd1 : Domain.newForSize Fr (v.columnDomain.size * v.ldeFactor) = .ok (domOf Fr 5) := by
    rw [(h.built e3).column, (h.built e3).factor]
    exact newForSize_pow (k := 5) (by decide)
  have hd2 : Domain.newForSize Fr (v.constraintsDomain.size * v.ldeFactor) = .ok (domOf Fr 5) := by
    rw [hsz, (h.built e3).factor]
    exact newForSize_pow (k := 5) (by decide)
  refine ⟨by decide +kernel, hch, h, v, _, _, e3, hd1, hd2, hz, ?_⟩
  intro hα
  obtain ⟨fWords, fRoots, hrest⟩ := C46_interactive_complete H hch threeRows 1 2 3 h (by decide) (by norm_num)
    ⟨doubling, by simp [threeRows, mixedInst], by decide⟩ hdeg hrows v e3 _ _ hd1 hd2 _ ht hsat
  obtain ⟨gWord, gRoot, hrest⟩ := hrest cc bc hcc hbc
  obtain ⟨claimed, hrest⟩ := hrest 3 hz
  obtain ⟨run1, run2, answer, hok, hacc⟩ := hrest αs hα
  exact ⟨_, answer, hok, hacc 1 1⟩

/-- An instance with two conflicting boundary constraints: no witness satisfies it. -/
def conflicting : InstanceProperties Fr :=
  { threeRows with boundaryConstraints := [⟨.register 0, 0, some 1⟩, ⟨.register 0, 0, some 2⟩] }

theorem conflicting_verifiable : Verifiable conflicting 1 2 := by
  have h := threeRows_verifiable
  refine ⟨h.rows, h.registers, h.reads, h.density, ?_, fun _ => ⟨doubling, by simp [conflicting, threeRows, mixedInst], by decide⟩⟩
  intro b hb
  simp only [conflicting, List.mem_cons, List.not_mem_nil, or_false] at hb
  rcases hb with rfl | rfl
  · exact ⟨⟨0, by norm_num, rfl⟩, _, rfl⟩
  · exact ⟨⟨0, by norm_num, rfl⟩, _, rfl⟩

/-- With LDE factor 4, the interactive protocol accepts for all odd positions although the instance has no satisfying witness. -/
example (cc bc : List (Fr × Fr)) (hcc : cc.length = 2) (hbc : bc.length = 2) (αs : List Fr) :
    (¬ ∃ witness, IsTable witness 1 conflicting.numRows ∧ Satisfies conflicting (cellR witness) conflicting.numRows) ∧
    ∃ v d1 d2, Verifier.new conflicting (2 ^ 2) = .ok v ∧ OutOfDomain v 3 ∧
      Domain.newForSize Fr (v.columnDomain.size * v.ldeFactor) = .ok d1 ∧
      Domain.newForSize Fr (v.constraintsDomain.size * v.ldeFactor) = .ok d2 ∧
      (αs.length = v.allMasks.length → ∃ (c : Commitments Fr) (answer : ℕ → ℕ → InstanceProof Fr), c.Ok H v 2 ∧
        c.Accepted H v ⟨cc, bc, 3, αs, 1, 1⟩ d1 d2 answer) := by
  constructor
  · rintro ⟨witness, -, hs⟩
    have h1 := hs.2 ⟨.register 0, 0, some 1⟩ (by simp [conflicting]) 1 rfl
    have h2 := hs.2 ⟨.register 0, 0, some 2⟩ (by simp [conflicting]) 2 rfl
    exact absurd (h1.symm.trans h2) (by decide)
  · have h := conflicting_verifiable
    have hch : ChallengeOk Fr := by unfold ChallengeOk; decide +kernel
    have hss : setupSizes conflicting 4 = .ok (2, 3, 4, 4) := by decide +kernel
    obtain ⟨v, e3⟩ : ∃ v, Verifier.new conflicting (2 ^ 2) = .ok v := by
      cases e : Verifier.new conflicting (2 ^ 2) with
      | ok v => exact ⟨v, rfl⟩
      | err x => unfold setupSizes at hss; rw [show (4 : ℕ) = 2 ^ 2 from rfl, e] at hss; cases hss
      | panic => unfold setupSizes at hss; rw [show (4 : ℕ) = 2 ^ 2 from rfl, e] at hss; cases hss
    have hsz : v.constraintsDomain.size = 4 := by
      unfold setupSizes at hss
      rw [show (4 : ℕ) = 2 ^ 2 from rfl, e3] at hss
      simp only [Res.ok_bind, Res.pure_def, Res.ok.injEq, Prod.mk.injEq] at hss
      exact hss.2.2.2
    have hz : OutOfDomain v 3 := by
      unfold OutOfDomain
      rw [hsz, (h.built e3).factor]
      show (3 : Fr) ^ (4 * 4) ≠ 1
      decide +kernel
    have s1 : v.columnDomain.size * v.ldeFactor = 16 := by rw [(h.built e3).column, (h.built e3).factor]; rfl
    have s2 : v.constraintsDomain.size * v.ldeFactor = 16 := by rw [hsz, (h.built e3).factor]; rfl
    have hd : Domain.newForSize Fr 16 = .ok (domOf Fr 4) := newForSize_pow (k := 4) (by decide)
    refine ⟨v, domOf Fr 4, domOf Fr 4, e3, hz, by rw [s1]; exact hd, by rw [s2]; exact hd, ?_⟩
    intro hα
    obtain ⟨fRoots, gRoot, hrest⟩ := C46_small_factor_accepts H hch conflicting 1 2 2 h (by decide) (by norm_num) (by norm_num) v e3 (domOf Fr 4) (domOf Fr 4)
      (by rw [s1]; exact hd) (by rw [s2]; exact hd) [List.replicate 16 0] (by rw [s1]; exact ⟨rfl, by simp⟩) (List.replicate 16 0) (by rw [s2]; rfl)
    obtain ⟨run1, run2, answer, hok, hacc⟩ := hrest ⟨cc, bc, 3, αs, 1, 1⟩ (List.replicate v.allMasks.length 0) hcc hbc hα List.length_replicate hz
    exact ⟨_, answer, hok, hacc⟩

end Hodor

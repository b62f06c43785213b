import Verif.Lemmas.VerifyG

/-! # The verifier on arbitrary proofs: assembling the steps -/

namespace Hodor

open Finset Spec

variable {F : Type} [Field F] [DecidableEq F]

section
variable [StarkField F]

/-! ### Instances a verifier can be built for -/

variable {inst : InstanceProperties F} {n k : ℕ}

theorem Spec.Verifiable.nextPow (h : Verifiable inst n k) : nextPow2 inst.numRows = 2 ^ k := by
  unfold nextPow2
  congr 1
  apply le_antisymm
  · exact (Nat.clog_le_iff_le_pow (by norm_num)).2 h.rows.1
  · exact h.rows.2 _ (Nat.le_pow_clog (by norm_num) _)

theorem factors_maskC (g : F) (c : Constraint F) : factors (maskC g c) = (factors c).map (maskU g) := by
  unfold factors maskC
  rw [List.flatMap_map, List.map_flatMap]
  congr 1
  funext t
  exact termFactors_maskT g t

theorem Spec.Verifiable.factorOk (h : Verifiable inst n k) : ∀ c ∈ (arpOf inst k).constraints, ∀ u ∈ factors c, FactorOk n u := by
  intro c hc
  obtain ⟨c0, hc0, rfl⟩ := List.mem_map.1 hc
  rw [factors_maskC]
  intro u hu
  obtain ⟨u0, hu0, rfl⟩ := List.mem_map.1 hu
  obtain ⟨⟨r, hr, er⟩, j, ej⟩ := h.reads c0 hc0 u0 hu0
  exact ⟨r, genOf F k ^ j, hr, by simp [maskU, ej, er], by simp [maskU, ej]⟩

omit [DecidableEq F] in
theorem Spec.Verifiable.dense (h : Verifiable inst n k) : ∀ c ∈ (arpOf inst k).constraints,
    ∃ d, c.density = .dense d ∧ DensityFits d inst.numRows (2 ^ k) := by
  intro c hc
  obtain ⟨c0, hc0, rfl⟩ := List.mem_map.1 hc
  obtain ⟨d, e, hd⟩ := h.density c0 hc0
  exact ⟨d, e, hd, h.rows.1⟩

theorem Spec.Verifiable.masks (h : Verifiable inst n k) : ∀ m ∈ masksOf (arpOf inst k),
    ∃ r x, r < n ∧ m = ⟨.register r, .mask x⟩ := by
  intro m hm
  rcases (mem_boundaryMasks _ _ _).1 hm with h' | ⟨b, hb, rfl⟩
  · rcases (mem_masks _ _ _).1 h' with h' | ⟨c, hc, u, hu, rfl⟩
    · simp at h'
    · obtain ⟨r, x, hr, e1, e2⟩ := h.factorOk c hc u hu
      exact ⟨r, x, hr, by simp [UnivariateTerm.maskProperties, e1, e2]⟩
  · obtain ⟨⟨r, hr, er⟩, -⟩ := h.boundary b hb
    exact ⟨r, 1, hr, by rw [er]⟩

omit [StarkField F] in
theorem nodup_masksOf (arp : InstanceProperties F) : (masksOf arp).Nodup :=
  nodup_foldl_insertSet _ _ (nodup_masks _ List.nodup_nil)

/-- The verifier built for an instance. -/
structure VBuilt (v : Verifier F) (inst : InstanceProperties F) (k ldeFactor : ℕ) : Prop where
  order : k ≤ StarkField.S F
  props : v.inst = arpOf inst k
  power : v.maxConstraintPower = maxDegree (arpOf inst k).constraints
  column : v.columnDomain = domOf F k
  domain : ∃ K, K ≤ StarkField.S F ∧ v.constraintsDomain = domOf F K ∧
    2 ^ K = nextPow2 (nextPow2 (maxDegree (arpOf inst k).constraints) * 2 ^ k)
  masks : v.allMasks = masksOf (arpOf inst k)
  batches : v.constraintsBatchedByDensity = batchesOf (arpOf inst k).constraints
  factor : v.ldeFactor = ldeFactor

omit [DecidableEq F] in
theorem newForSize_inv {s : ℕ} {d : Domain F} (h : Domain.newForSize F s = .ok d) :
    ∃ K, K ≤ StarkField.S F ∧ d = domOf F K ∧ 2 ^ K = nextPow2 s := by
  rw [newForSize_eq] at h
  split at h
  · cases h
    exact ⟨_, by assumption, rfl, rfl⟩
  · cases h

theorem Spec.Verifiable.built (h : Verifiable inst n k) {factor : ℕ} {v : Verifier F} (hv : Verifier.new inst factor = .ok v) :
    VBuilt v inst k factor := by
  have e1 := h.nextPow
  have e2 : mapRes (maskConstraint (domOf F k)) inst.constraints = .ok (arpOf inst k).constraints := by
    rw [mapRes_ok _ (maskC (genOf F k)) _ (fun c hc => maskConstraint_ok _ (fun u hu => (h.reads c hc u hu).2))]
    rfl
  unfold Verifier.new at hv
  rw [e1] at hv
  obtain ⟨dom, h1, hv⟩ := Res.bind_eq_ok.1 hv
  have hk : k ≤ StarkField.S F := by
    obtain ⟨K, hK, -, e⟩ := newForSize_inv h1
    have : nextPow2 (2 ^ k) = 2 ^ k := nextPow2_pow k
    rw [this] at e
    have := Nat.pow_right_injective (le_refl 2) e
    omega
  rw [newForSize_pow hk] at h1
  have hdom : dom = domOf F k := by injection h1 with h1; exact h1.symm
  subst hdom
  rw [e2] at hv
  simp only [Res.ok_bind] at hv
  obtain ⟨dom2, h2, hv⟩ := Res.bind_eq_ok.1 hv
  obtain ⟨_, -, hv⟩ := Res.bind_eq_ok.1 hv
  cases hv
  exact ⟨hk, rfl, rfl, rfl, newForSize_inv h2, rfl, rfl, rfl⟩

theorem VBuilt.batch {v : Verifier F} {factor : ℕ} (hb : VBuilt v inst k factor) {b} (h : b ∈ v.constraintsBatchedByDensity) :
    b.2 ≠ [] ∧ ∀ c ∈ b.2, c ∈ (arpOf inst k).constraints ∧ c.density = b.1 := by
  rw [hb.batches] at h
  have := batch_inv (arpOf inst k).constraints [] [] (by simp) b h
  simpa using this

theorem Spec.Verifiable.batchDense (h : Verifiable inst n k) {v : Verifier F} {factor : ℕ} (hb : VBuilt v inst k factor) :
    ∀ b ∈ v.constraintsBatchedByDensity, ∃ d, b.1 = .dense d ∧ DensityFits d inst.numRows (2 ^ k) ∧
      ∀ c ∈ b.2, c.density = .dense d ∧ (∀ u ∈ factors c, FactorOk n u) ∧
        c.degree ≤ maxDegree (arpOf inst k).constraints ∧ c ∈ (arpOf inst k).constraints := by
  intro b hbm
  obtain ⟨hne, hc⟩ := hb.batch hbm
  obtain ⟨c, hcm⟩ := List.exists_mem_of_ne_nil _ hne
  obtain ⟨d, e, hd⟩ := h.dense c (hc c hcm).1
  refine ⟨d, by rw [← (hc c hcm).2, e], hd, ?_⟩
  intro c' hc'
  refine ⟨by rw [(hc c' hc').2, ← (hc c hcm).2, e], h.factorOk c' (hc c' hc').1, le_maxDegree (hc c' hc').1, (hc c' hc').1⟩

/-- The verifier's composition at `z`, exactly. -/
theorem calculateGAtZ_iff (h : Verifiable inst n k) {v : Verifier F} {factor : ℕ} (hb : VBuilt v inst k factor)
    {cc bc : List (F × F)} (hcc : cc.length = (v.constraintsBatchedByDensity.flatMap (fun b => b.2)).length)
    (hbc : bc.length = inst.boundaryConstraints.length) (y : List F) (z x : F) :
    v.calculateGAtZ cc bc y z = .ok x ↔
      (v.allMasks.length ≤ y.length ∧ (v.inst.constraints ≠ [] → z ^ v.columnDomain.size ≠ 1) ∧
        ∀ b ∈ v.inst.boundaryConstraints, z ≠ v.columnDomain.generator ^ b.atRow) ∧
      x = compositionAt v.columnDomain.generator v.inst.numRows v.maxConstraintPower (claimedEnv v.allMasks y)
        ((v.constraintsBatchedByDensity.flatMap (fun b => b.2)).zip cc) (v.inst.boundaryConstraints.zip bc) z := by
  have hnd : v.allMasks.Nodup := hb.masks ▸ nodup_masksOf _
  have hbd := h.batchDense hb
  have hbo : ∀ b ∈ inst.boundaryConstraints, BoundaryOk n b := h.boundary
  obtain ⟨vs, e1, ht⟩ := zValues_table (n := n) hnd (hb.masks ▸ h.masks) y
  have hreg : v.inst.numRegisters = n := by rw [hb.props]; exact h.registers
  have hrows : v.inst.numRows = inst.numRows := by rw [hb.props]; rfl
  have hbs : v.inst.boundaryConstraints = inst.boundaryConstraints := by rw [hb.props]; rfl
  have hbne : v.inst.constraints ≠ [] ↔ v.constraintsBatchedByDensity ≠ [] := by
    have hp := batchesOf_perm (arpOf inst k).constraints
    rw [hb.props, hb.batches]
    constructor
    · intro hne e
      rw [e] at hp
      exact hne (by simpa using hp.symm)
    · intro hne e
      apply hne
      rw [e]
      rfl
  have hclaim : (∀ b ∈ v.constraintsBatchedByDensity, ∀ c ∈ b.2, Claimed (v.allMasks.zip y) c) →
      (∀ b ∈ inst.boundaryConstraints, ((v.allMasks.zip y).lookup ⟨b.register, .mask 1⟩).isSome) →
      v.allMasks.length ≤ y.length := by
    intro h1 h2
    rw [← all_claimed_iff hnd]
    intro m hm
    rw [hb.masks] at hm
    rcases (mem_boundaryMasks _ _ _).1 hm with h' | ⟨b, hb', rfl⟩
    · rcases (mem_masks _ _ _).1 h' with h' | ⟨c, hc, u, hu, rfl⟩
      · simp at h'
      · have : c ∈ (batchesOf (arpOf inst k).constraints).flatMap (fun b => b.2) :=
          (batchesOf_perm _).mem_iff.2 hc
        obtain ⟨b, hb1, hb2⟩ := List.mem_flatMap.1 this
        exact h1 b (hb.batches ▸ hb1) c hb2 u hu
    · exact h2 b hb'
  have hcol : v.columnDomain.generator = genOf F k := by rw [hb.column]; rfl
  have hsz : v.columnDomain.size = 2 ^ k := by rw [hb.column]; rfl
  have eval : (v.allMasks.length ≤ y.length ∧ (v.inst.constraints ≠ [] → z ^ v.columnDomain.size ≠ 1) ∧
        ∀ b ∈ v.inst.boundaryConstraints, z ≠ v.columnDomain.generator ^ b.atRow) →
      v.calculateGAtZ cc bc y z = .ok (compositionAt v.columnDomain.generator v.inst.numRows v.maxConstraintPower
        (claimedEnv v.allMasks y)
        ((v.constraintsBatchedByDensity.flatMap (fun b => b.2)).zip cc) (v.inst.boundaryConstraints.zip bc) z) := by
    rintro ⟨hlen, hz, hzb⟩
    have hall := (all_claimed_iff hnd y).2 hlen
    rw [hsz] at hz
    rw [hcol, hbs] at hzb
    unfold Verifier.calculateGAtZ
    rw [hreg, e1, Res.ok_bind, hbs, hrows, hb.column]
    have hD : inst.boundaryConstraints ≠ [] → 1 ≤ v.maxConstraintPower := by
      intro hne
      obtain ⟨c, hc, hd⟩ := h.degree hne
      rw [hb.power]
      have hm : maskC (genOf F k) c ∈ (arpOf inst k).constraints := List.mem_map.2 ⟨c, hc, rfl⟩
      exact le_trans (show 1 ≤ (maskC (genOf F k) c).degree from hd) (le_maxDegree hm)
    have e2 : forEach v.constraintsBatchedByDensity ((0 : F), cc) (fun b s => do
          let inv ← densityDivisorAt z (domOf F k) inst.numRows b.1
          forEach b.2 s (gConstraintAtZ v.maxConstraintPower z inv vs)) =
        .ok (0 + constraintPart (genOf F k) inst.numRows v.maxConstraintPower (claimsEnv (v.allMasks.zip y))
          ((v.constraintsBatchedByDensity.flatMap (fun b => b.2)).zip cc) z, []) := by
      by_cases hbe : v.constraintsBatchedByDensity = []
      · rw [hbe] at hcc ⊢
        have : cc = [] := by simpa using hcc
        simp [this, forEach, constraintPart]
      · apply vBatches_ok ht hb.order (hz (hbne.2 hbe)) _ _ _ _ hcc
        intro b hbm
        obtain ⟨d, h1, h2, h3⟩ := hbd b hbm
        refine ⟨d, h1, h2, ?_⟩
        intro c hc
        obtain ⟨h4, h5, h6, h7⟩ := h3 c hc
        refine ⟨h4, h5, by rw [hb.power]; exact h6, ?_⟩
        intro u hu
        apply hall
        rw [hb.masks]
        exact (mem_boundaryMasks _ _ _).2 (Or.inl ((mem_masks _ _ _).2 (Or.inr ⟨c, h7, u, hu, rfl⟩)))
    rw [e2, Res.ok_bind]
    have e3 := vBoundaries_ok ht (k := k) (z := z) inst.boundaryConstraints hD (by
      intro b hbm
      refine ⟨hbo b hbm, hall _ ?_, hzb b hbm⟩
      rw [hb.masks]
      exact (mem_boundaryMasks _ _ _).2 (Or.inr ⟨b, hbm, rfl⟩)) (0 + constraintPart (genOf F k) inst.numRows v.maxConstraintPower (claimsEnv (v.allMasks.zip y))
          ((v.constraintsBatchedByDensity.flatMap (fun b => b.2)).zip cc) z) bc hbc
    rw [e3, Res.ok_bind]
    simp only [Res.pure_def, zero_add]
    rfl
  constructor
  · intro e
    have hcond : v.allMasks.length ≤ y.length ∧ (v.inst.constraints ≠ [] → z ^ v.columnDomain.size ≠ 1) ∧
        ∀ b ∈ v.inst.boundaryConstraints, z ≠ v.columnDomain.generator ^ b.atRow := by
      unfold Verifier.calculateGAtZ at e
      rw [hreg, e1, Res.ok_bind, hbs, hrows, hb.column] at e
      obtain ⟨s1, e2, e⟩ := Res.bind_eq_ok.1 e
      obtain ⟨s2, e3, e⟩ := Res.bind_eq_ok.1 e
      obtain ⟨i1, i2⟩ := vBatches_inv ht hb.order (by
        intro b hbm
        obtain ⟨d, h1, h2, h3⟩ := hbd b hbm
        exact ⟨d, h1, h2, fun c hc => (h3 c hc).2.1⟩) e2
      have i3 := vBoundaries_inv ht hbo e3
      refine ⟨hclaim i2 (fun b hb => (i3 b hb).1), ?_, ?_⟩
      · rw [hsz]
        exact fun hne => i1 (hbne.1 hne)
      · rw [hcol, hbs]
        exact fun b hb => (i3 b hb).2
    refine ⟨hcond, ?_⟩
    rw [eval hcond] at e
    cases e
    rfl
  · rintro ⟨hcond, rfl⟩
    exact eval hcond

/-! ### The DEEP combination -/

omit [StarkField F] in
theorem simulateH1_iff (v : Verifier F) {opened : List F} {op : Register → F} (hop : ∀ r, op (.register r) = opened.getD r 0)
    (hm : ∀ m ∈ v.allMasks, ∃ r x, r < opened.length ∧ m = ⟨.register r, .mask x⟩)
    {αs y : List F} (hα : αs.length = v.allMasks.length) (hy : v.allMasks.length ≤ y.length) (idx : ℕ) (dom : Domain F) (z x : F) :
    v.simulateH1 αs idx dom opened y z = .ok x ↔
      (∀ m ∈ v.allMasks, dom.generator ^ idx ≠ maskOf m * z) ∧
      x = deepClaim v.allMasks y αs op z (dom.generator ^ idx) := by
  unfold Verifier.simulateH1 deepClaim
  generalize v.allMasks = ms at hm hα hy ⊢
  have key : ∀ (ms : List (MaskProperties F)) (αs y : List F) (a : F),
      (∀ m ∈ ms, ∃ r x, r < opened.length ∧ m = ⟨.register r, .mask x⟩) → αs.length = ms.length → ms.length ≤ y.length →
      (forEach ((ms.zip y).zip αs) a (fun x h => do
        let mask ← x.1.1.stepsDifference.maskOf
        let r ← x.1.1.register.num
        let f ← rd opened r
        let inv ← Res.okOr (inverse (dom.generator ^ idx - mask * z)) .divisionByZero
        pure (h + (f - x.1.2) * inv * x.2)) = .ok x ↔
      (∀ m ∈ ms, dom.generator ^ idx ≠ maskOf m * z) ∧ x = a + (((ms.zip y).zip αs).map (fun q =>
        q.2 * (op q.1.1.register - q.1.2) /
          (dom.generator ^ idx - maskOf q.1.1 * z))).sum) := by
    intro ms
    induction ms with
    | nil => intro αs y a _ _ _; simp [forEach, eq_comm]
    | cons m ms ih =>
      intro αs y a hm hα hy
      obtain ⟨α, αs, rfl⟩ : ∃ a b, αs = a :: b := by
        cases αs with
        | nil => simp at hα
        | cons a b => exact ⟨a, b, rfl⟩
      obtain ⟨v, y, rfl⟩ : ∃ a b, y = a :: b := by
        cases y with
        | nil => simp at hy
        | cons a b => exact ⟨a, b, rfl⟩
      obtain ⟨r, mm, hr, rfl⟩ := hm m List.mem_cons_self
      have e1 : rd opened r = .ok opened[r] := by simp [rd, hr, Res.expect]
      have e2 : op (.register r) = opened[r] := by rw [hop]; simp [List.getD, hr]
      rw [List.zip_cons_cons, List.zip_cons_cons, forEach_eq_ok_cons]
      simp only [StepDifference.maskOf, Register.num, Res.ok_bind, e1, List.forall_mem_cons, List.map_cons, List.sum_cons, e2]
      have ih' := fun a => ih αs y a (fun m' hm' => hm m' (List.mem_cons_of_mem _ hm')) (by simpa using hα) (by simpa using hy)
      by_cases hne : dom.generator ^ idx = mm * z
      · have : inverse (dom.generator ^ idx - mm * z) = none := inverse_eq_none.2 (sub_eq_zero.2 hne)
        simp only [this, maskOf]
        constructor
        · rintro ⟨s, e, -⟩; cases e
        · rintro ⟨⟨h, -⟩, -⟩; exact absurd hne h
      · simp only [inverse_of_ne (sub_ne_zero.2 hne), Res.okOr_some, Res.ok_bind, Res.pure_def, maskOf]
        constructor
        · rintro ⟨s, e, h⟩
          cases e
          obtain ⟨h1, h2⟩ := (ih' _).1 h
          refine ⟨⟨hne, h1⟩, ?_⟩
          rw [h2, ← add_assoc]
          congr 2
          rw [div_eq_mul_inv]; ring
        · rintro ⟨⟨-, h1⟩, h2⟩
          refine ⟨_, rfl, (ih' _).2 ⟨h1, ?_⟩⟩
          rw [h2, ← add_assoc]
          congr 2
          rw [div_eq_mul_inv]; ring
  have := key ms αs y 0 hm hα hy
  rw [zero_add] at this
  exact this

/-! ### Openings -/

variable (H : List UInt8 → Digest)

theorem checkQueries_iff (idx : ℕ) (l : List (IopQuery F × Digest)) (vs : List F)  :
    checkQueries H idx l = some vs ↔ (∀ x ∈ l, verifyQuery H x.1 x.2 = true ∧ x.1.index = idx) ∧ vs = l.map (fun x => x.1.value) := by
  induction l generalizing vs with
  | nil =>
    constructor
    · intro h; cases h; exact ⟨by simp, rfl⟩
    · rintro ⟨-, rfl⟩; rfl
  | cons x l ih =>
    obtain ⟨q, root⟩ := x
    rw [checkQueries]
    by_cases h1 : verifyQuery H q root = false
    · rw [if_pos h1]; simp [h1]
    · by_cases h2 : q.index = idx
      · rw [if_neg h1, if_neg (by simpa using h2)]
        simp only [Option.map_eq_some_iff, ih, List.forall_mem_cons, List.map_cons]
        have h1' : verifyQuery H q root = true := by simpa using h1
        constructor
        · rintro ⟨vs', ⟨h3, rfl⟩, rfl⟩
          exact ⟨⟨⟨h1', h2⟩, h3⟩, rfl⟩
        · rintro ⟨⟨-, h3⟩, rfl⟩
          exact ⟨_, ⟨h3, rfl⟩, rfl⟩
      · rw [if_neg h1, if_pos h2]
        simp [h2]

/-! ### Challenges -/

omit [DecidableEq F] in
theorem drawPairs_len {α : Type} (l : List α) {s s' : List (F × F) × Transcript}
    (h : forEach l s (fun _ s => drawPair H s) = .ok s') : s'.1.length = s.1.length + l.length := by
  induction l generalizing s with
  | nil => cases h; rfl
  | cons a l ih =>
    obtain ⟨s1, h1, h2⟩ := forEach_eq_ok_cons.1 h
    rw [ih h2]
    unfold drawPair at h1
    obtain ⟨x, -, h1⟩ := Res.bind_eq_ok.1 h1
    obtain ⟨y, -, h1⟩ := Res.bind_eq_ok.1 h1
    cases h1
    simp only [List.length_append, List.length_cons, List.length_nil]
    omega

omit [DecidableEq F] in
theorem drawOnes_len {α : Type} (l : List α) {s s' : List F × Transcript}
    (h : forEach l s (fun _ s => drawOne H s) = .ok s') : s'.1.length = s.1.length + l.length := by
  induction l generalizing s with
  | nil => cases h; rfl
  | cons a l ih =>
    obtain ⟨s1, h1, h2⟩ := forEach_eq_ok_cons.1 h
    rw [ih h2]
    unfold drawOne at h1
    obtain ⟨x, -, h1⟩ := Res.bind_eq_ok.1 h1
    cases h1
    simp only [List.length_append, List.length_cons, List.length_nil]
    omega

omit [DecidableEq F] in
theorem drawBatches_len (bats : List (ConstraintDensity × List (Constraint F))) {s s' : List (F × F) × Transcript}
    (h : forEach bats s (fun b s => forEach b.2 s (fun _ s => drawPair H s)) = .ok s') :
    s'.1.length = s.1.length + (bats.flatMap (fun b => b.2)).length := by
  induction bats generalizing s with
  | nil => cases h; rfl
  | cons b bats ih =>
    obtain ⟨s1, h1, h2⟩ := forEach_eq_ok_cons.1 h
    rw [ih h2, drawPairs_len H _ h1, List.flatMap_cons, List.length_append]
    omega

/-- What is known of derived challenges. -/
theorem derive_inv {v : Verifier F} {proof : InstanceProof F} {ch : Challenges F} {d1 d2 : Domain F}
    (h : v.deriveChallenges H proof = .ok (ch, d1, d2)) :
    ch.constraintChallenges.length = (v.constraintsBatchedByDensity.flatMap (fun b => b.2)).length ∧
    ch.boundaryChallenges.length = v.inst.boundaryConstraints.length ∧ ch.h1Challenges.length = v.allMasks.length ∧
    Domain.newForSize F (v.columnDomain.size * v.ldeFactor) = .ok d1 ∧
    Domain.newForSize F (v.constraintsDomain.size * v.ldeFactor) = .ok d2 := by
  unfold Verifier.deriveChallenges at h
  obtain ⟨t, -, h⟩ := Res.bind_eq_ok.1 h
  obtain ⟨x1, e1, h⟩ := Res.bind_eq_ok.1 h
  obtain ⟨x2, e2, h⟩ := Res.bind_eq_ok.1 h
  obtain ⟨x3, -, h⟩ := Res.bind_eq_ok.1 h
  obtain ⟨x4, e4, h⟩ := Res.bind_eq_ok.1 h
  obtain ⟨_, -, h⟩ := Res.bind_eq_ok.1 h
  obtain ⟨_, -, h⟩ := Res.bind_eq_ok.1 h
  obtain ⟨_, e5, h⟩ := Res.bind_eq_ok.1 h
  obtain ⟨_, e6, h⟩ := Res.bind_eq_ok.1 h
  obtain ⟨_, -, h⟩ := Res.bind_eq_ok.1 h
  obtain ⟨_, -, h⟩ := Res.bind_eq_ok.1 h
  cases h
  have l1 := drawBatches_len H _ e1
  have l2 := drawPairs_len H _ e2
  have l4 := drawOnes_len H _ e4
  simp only [List.length_nil, Nat.zero_add] at l1 l2 l4
  exact ⟨l1, l2, l4, e5, e6⟩

end

end Hodor

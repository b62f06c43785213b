import Verif.Lemmas.CostV
import Verif.Props.ProofShape
import Verif.Props.ManyDensities

/-!
# C77: what a verification costs
-/

namespace Hodor

open Spec Tick

variable {F : Type} [Field F] [DecidableEq F] [StarkField F] (H : List UInt8 → Digest)

/-! ## From the batches of the verifier to the instance -/

omit [Field F] [DecidableEq F] [StarkField F] in
theorem sum_groups [DecidableEq F] (cs : List (Constraint F)) (A : ConstraintDensity → ℕ) (B : Constraint F → ℕ) :
    ((batchesOf cs).map (fun b => A b.1 + (b.2.map B).sum)).sum = ((batchesOf cs).map (fun b => A b.1)).sum + (cs.map B).sum := by
  have h := ((batchesOf_perm cs).map B).sum_eq
  rw [← h, List.sum_map_add]
  congr 1
  induction batchesOf cs with
  | nil => rfl
  | cons b bs ih => simp only [List.map_cons, List.sum_cons, List.flatMap_cons, List.map_append, List.sum_append, ih]

omit [StarkField F] in
theorem sum_densities (cs : List (Constraint F)) (A : ConstraintDensity → ℕ) :
    ((batchesOf cs).map (fun b => A b.1)).sum = ((densitiesOf cs).map A).sum := by
  rw [batchesOf_groups, groupsOf, List.map_map]
  rfl

theorem batchedCount_eq (cs : List (Constraint F)) : batchedCount (batchesOf cs) = cs.length := by
  have := sum_groups cs (fun _ => 0) (fun _ => 1)
  simpa [batchedCount] using this

omit [DecidableEq F] [StarkField F] in
/-- Masking changes neither degree, density, number of factors nor costs. -/
theorem maskConstraint_costs {d : Domain F} {c c' : Constraint F} (h : maskConstraint d c = .ok c') :
    c'.density = c.density ∧ c'.degree = c.degree ∧ constraintOps c' = constraintOps c ∧ (factors c').length = (factors c).length := by
  unfold maskConstraint at h
  obtain ⟨ts, h1, h2⟩ := Res.bind_eq_ok.1 h
  clear h
  cases h2
  have uni : ∀ (u : UnivariateTerm F) u', maskUnivariateTerm d u = .ok u' → u'.power = u.power := by
    intro u u' hm
    unfold maskUnivariateTerm at hm
    split at hm <;> cases hm
    rfl
  have poly : ∀ (us us' : List (UnivariateTerm F)), mapRes (maskUnivariateTerm d) us = .ok us' → us'.map (fun u => u.power) = us.map (fun u => u.power) := by
    intro us us' hm
    have := mapRes_eq_ok hm
    clear hm
    induction this with
    | nil => rfl
    | cons h1 h2 ih => simp only [List.map_cons, ih, uni _ _ h1]
  have term : ∀ t t' : ConstraintTerm F, maskTerm d t = .ok t' → termOps t' = termOps t ∧ (termFactors t').length = (termFactors t).length := by
    intro t t' hm
    cases t with
    | univariate t =>
      simp only [maskTerm] at hm
      obtain ⟨u', hu, e⟩ := Res.bind_eq_ok.1 hm
      cases e
      exact ⟨by simp only [termOps, uni _ _ hu], rfl⟩
    | polyvariate p =>
      simp only [maskTerm] at hm
      obtain ⟨us', hu, e⟩ := Res.bind_eq_ok.1 hm
      cases e
      have e1 := poly _ _ hu
      refine ⟨?_, ?_⟩
      · have e2 : ∀ l : List (UnivariateTerm F), l.map (fun t => powOps t.power + 2) = (l.map (fun u => u.power)).map (fun n => powOps n + 2) := by
          intro l; rw [List.map_map]; rfl
        simp only [termOps, e2, e1]
      · have := congrArg List.length e1
        simpa [termFactors] using this
  have hf := mapRes_eq_ok h1
  clear h1
  have key : (ts.map (fun t => termOps t + 1)).sum = (c.terms.map (fun t => termOps t + 1)).sum ∧
      (ts.flatMap termFactors).length = (c.terms.flatMap termFactors).length := by
    generalize c.terms = cts at hf ⊢
    induction hf with
    | nil => exact ⟨rfl, rfl⟩
    | cons h1 h2 ih =>
      obtain ⟨i1, i2⟩ := ih
      obtain ⟨t1, t2⟩ := term _ _ h1
      simp only [List.map_cons, List.sum_cons, List.flatMap_cons, List.length_append, i1, i2, t1, t2, and_self]
  exact ⟨rfl, rfl, key.1, key.2⟩

omit [DecidableEq F] [StarkField F] in
theorem maskConstraints_costs {d : Domain F} {cs cs' : List (Constraint F)} (h : mapRes (maskConstraint d) cs = .ok cs') :
    cs'.length = cs.length ∧ densitiesOf cs' = densitiesOf cs ∧ cs'.map constraintOps = cs.map constraintOps ∧
      cs'.map (fun c => c.degree) = cs.map (fun c => c.degree) ∧ (cs'.flatMap factors).length = (cs.flatMap factors).length := by
  have := mapRes_eq_ok h
  clear h
  induction this with
  | nil => exact ⟨rfl, rfl, rfl, rfl, rfl⟩
  | cons h1 h2 ih =>
    obtain ⟨i1, i2, i3, i4, i5⟩ := ih
    obtain ⟨j1, j2, j3, j4⟩ := maskConstraint_costs h1
    exact ⟨by simp [i1], by simp only [densitiesOf, j1, i2], by simp [j3, i3], by simp [j2, i4], by simp [j4, i5]⟩

omit [Field F] [StarkField F] in
theorem length_insertSet_le {α : Type} [DecidableEq α] (s : List α) (x : α) : (insertSet s x).length ≤ s.length + 1 := by
  unfold insertSet
  split <;> simp

omit [StarkField F] in
theorem length_masks_le (cs : List (Constraint F)) (bs : List (BoundaryConstraint F)) :
    (bs.foldl getMaskFromBoundaryConstraint (cs.foldl getMasksFromConstraint [])).length ≤ (cs.flatMap factors).length + bs.length := by
  have hu : ∀ (us : List (UnivariateTerm F)) (s : List (MaskProperties F)),
      (us.foldl (fun s u => insertSet s u.maskProperties) s).length ≤ s.length + us.length := by
    intro us
    induction us with
    | nil => intro s; simp
    | cons u us ih =>
      intro s
      have := ih (insertSet s u.maskProperties)
      have := length_insertSet_le s u.maskProperties
      simp only [List.foldl_cons, List.length_cons]
      omega
  have ht : ∀ (ts : List (ConstraintTerm F)) (s : List (MaskProperties F)),
      (ts.foldl getMasksFromTerm s).length ≤ s.length + (ts.flatMap termFactors).length := by
    intro ts
    induction ts with
    | nil => intro s; simp
    | cons t ts ih =>
      intro s
      have h1 := ih (getMasksFromTerm s t)
      have h2 : (getMasksFromTerm s t).length ≤ s.length + (termFactors t).length := by
        cases t with
        | univariate t => exact length_insertSet_le _ _
        | polyvariate p => exact hu p.terms s
      simp only [List.foldl_cons, List.flatMap_cons, List.length_append]
      omega
  have hc : ∀ (cs : List (Constraint F)) (s : List (MaskProperties F)),
      (cs.foldl getMasksFromConstraint s).length ≤ s.length + (cs.flatMap factors).length := by
    intro cs
    induction cs with
    | nil => intro s; simp
    | cons c cs ih =>
      intro s
      have h1 := ih (getMasksFromConstraint s c)
      have h2 : (getMasksFromConstraint s c).length ≤ s.length + (factors c).length := ht c.terms s
      simp only [List.foldl_cons, List.flatMap_cons, List.length_append]
      omega
  have hb : ∀ (bs : List (BoundaryConstraint F)) (s : List (MaskProperties F)),
      (bs.foldl getMaskFromBoundaryConstraint s).length ≤ s.length + bs.length := by
    intro bs
    induction bs with
    | nil => intro s; simp
    | cons b bs ih =>
      intro s
      have := ih (getMaskFromBoundaryConstraint s b)
      have : (getMaskFromBoundaryConstraint s b).length ≤ s.length + 1 := length_insertSet_le _ _
      simp only [List.foldl_cons, List.length_cons]
      omega
  have h1 := hc cs []
  have h2 := hb bs (cs.foldl getMasksFromConstraint [])
  simp only [List.length_nil, Nat.zero_add] at h1
  omega

omit [Field F] [DecidableEq F] [StarkField F] in
theorem maxDegree_le {cs : List (Constraint F)} {D : ℕ} (h : ∀ x ∈ cs.map (fun c => c.degree), x ≤ D) : maxDegree cs ≤ D := by
  have key : ∀ (l : List (Constraint F)) (m : ℕ), m ≤ D → (∀ x ∈ l.map (fun c => c.degree), x ≤ D) →
      l.foldl (fun m c => if c.degree > m then c.degree else m) m ≤ D := by
    intro l
    induction l with
    | nil => intro m hm _; exact hm
    | cons c l ih =>
      intro m hm hl
      rw [List.foldl_cons]
      apply ih
      · split
        · exact hl _ (by simp)
        · exact hm
      · intro x hx
        exact hl x (by simp only [List.map_cons, List.mem_cons]; exact .inr hx)
  exact key cs 0 (Nat.zero_le _) h

/-- The costs of any verification, in terms of the instance. -/
theorem verify_costs {inst : InstanceProperties F} {factor : ℕ} {v : Verifier F} (hv : Verifier.new inst factor = .ok v) {D : ℕ}
    (hD : ∀ c ∈ inst.constraints, c.degree ≤ D) (proof : InstanceProof F) :
    (v.verifyT H proof).Costs (fun b => b = true)
      (transcriptHashes inst.constraints.length inst.boundaryConstraints.length v.allMasks.length + openingsHashes proof)
      (otherOps (StarkField.S F) inst.constraints.length inst.boundaryConstraints.length v.allMasks.length
          (proof.friProofH1.finalCoefficients.length + proof.friProofH2.finalCoefficients.length) +
        compositionOps (2 ^ Nat.clog 2 inst.numRows) inst.numRows D inst.constraints inst.boundaryConstraints +
        friOps (StarkField.S F) proof.friProofH1.roots.length proof.friProofH1.finalCoefficients.length +
        friOps (StarkField.S F) proof.friProofH2.roots.length proof.friProofH2.finalCoefficients.length)
      (3 * ((densitiesOf inst.constraints).map (excludedRows (2 ^ Nat.clog 2 inst.numRows) inst.numRows)).sum) ∧
    v.allMasks.length ≤ (inst.constraints.flatMap factors).length + inst.boundaryConstraints.length := by
  unfold Verifier.new at hv
  obtain ⟨dom, h1, hv⟩ := Res.bind_eq_ok.1 hv
  obtain ⟨cs, h2, hv⟩ := Res.bind_eq_ok.1 hv
  obtain ⟨dom2, h3, hv⟩ := Res.bind_eq_ok.1 hv
  obtain ⟨_, -, hv⟩ := Res.bind_eq_ok.1 hv
  cases hv
  obtain ⟨i1, i2, i3, i4, i5⟩ := maskConstraints_costs h2
  have hsize : dom.size = 2 ^ Nat.clog 2 inst.numRows := by
    rw [newForSize_eq] at h1
    split at h1
    · cases h1
      show 2 ^ Nat.clog 2 (2 ^ Nat.clog 2 inst.numRows) = _
      rw [Nat.clog_pow _ _ (by norm_num)]
    · cases h1
  have hmax : maxDegree cs ≤ D := by
    apply maxDegree_le
    rw [i4]
    intro x hx
    obtain ⟨c, hc, rfl⟩ := List.mem_map.1 hx
    exact hD c hc
  have hpow : powOps (maxDegree cs) ≤ powOps D := by
    have := Nat.log_mono_right (b := 2) hmax
    unfold powOps; omega
  refine ⟨?_, by have := length_masks_le cs inst.boundaryConstraints; rw [i5] at this; exact this⟩
  have key := costs_verifyT H (⟨{ inst with constraints := cs }, maxDegree cs, dom, dom2,
    inst.boundaryConstraints.foldl getMaskFromBoundaryConstraint (cs.foldl getMasksFromConstraint []),
    inst.boundaryConstraints.foldl (fun s b => insertSet s b.register) [], batchesOf cs, factor⟩ : Verifier F) proof
  simp only [batchedCount_eq, i1, batchedOps, excludedTotal, hsize] at key
  rw [sum_groups cs (divisorOps (2 ^ Nat.clog 2 inst.numRows) inst.numRows) (fun c => constraintOps c + powOps (maxDegree cs) + 5), sum_densities cs,
    sum_densities cs, i2] at key
  refine Costs.mono key ?_ (le_refl _)
  unfold compositionOps
  have e1 : (cs.map (fun c => constraintOps c + powOps (maxDegree cs) + 5)).sum ≤ (inst.constraints.map (fun c => constraintOps c + powOps D + 5)).sum := by
    have e2 : ∀ (l : List (Constraint F)) (p : ℕ), l.map (fun c => constraintOps c + p + 5) = (l.map constraintOps).map (fun x => x + p + 5) := by
      intro l p; rw [List.map_map]; rfl
    rw [e2, e2, i3]
    apply List.sum_le_sum
    intro x _
    omega
  have e3 : (inst.boundaryConstraints.map (fun b => powOps b.atRow + powOps (maxDegree cs) + 8)).sum ≤
      (inst.boundaryConstraints.map (fun b => powOps b.atRow + powOps D + 8)).sum := by
    apply List.sum_le_sum
    intro x _
    omega
  dsimp only
  omega

/-- **C77** (any proof). Whatever the instance, the hash function and the proof, also a malformed one, and whatever the outcome: checking the proof takes at most as many hash calls as the transcript has
challenges and the openings in the proof have digests, and at most the listed number of field operations, which is linear in the number of roots and final coefficients in the proof. An
accepted proof takes exactly these hash calls. -/
theorem C77_any_proof (inst : InstanceProperties F) (factor : ℕ) (v : Verifier F) (hv : Verifier.new inst factor = .ok v) (D : ℕ)
    (hD : ∀ c ∈ inst.constraints, c.degree ≤ D) (proof : InstanceProof F) :
    (v.verifyT H proof).res = v.verify H proof ∧
    (v.verifyT H proof).hashes ≤
      transcriptHashes inst.constraints.length inst.boundaryConstraints.length v.allMasks.length + openingsHashes proof ∧
    (v.verify H proof = .ok true → (v.verifyT H proof).hashes =
      transcriptHashes inst.constraints.length inst.boundaryConstraints.length v.allMasks.length + openingsHashes proof) ∧
    (v.verifyT H proof).ops ≤
      otherOps (StarkField.S F) inst.constraints.length inst.boundaryConstraints.length v.allMasks.length
          (proof.friProofH1.finalCoefficients.length + proof.friProofH2.finalCoefficients.length) +
        compositionOps (2 ^ Nat.clog 2 inst.numRows) inst.numRows D inst.constraints inst.boundaryConstraints +
        friOps (StarkField.S F) proof.friProofH1.roots.length proof.friProofH1.finalCoefficients.length +
        friOps (StarkField.S F) proof.friProofH2.roots.length proof.friProofH2.finalCoefficients.length ∧
    v.allMasks.length ≤ (inst.constraints.flatMap factors).length + inst.boundaryConstraints.length := by
  obtain ⟨c, hm⟩ := verify_costs H hv hD proof
  exact ⟨res_verifyT H v proof, c.hashes_le, fun h => (c.exact true (by rw [res_verifyT]; exact h) rfl).1, c.ops_le, hm⟩

/-- **C77** (the rows without constraint are paid one by one). An accepted proof takes at least three field operations for every row which a density leaves out, among them the rows by which the
table is padded to a power of two: with `2^j + 1` rows at least `3 * (2^j - 1)` operations, about three per row. -/
theorem C77_padding (inst : InstanceProperties F) (factor : ℕ) (v : Verifier F) (hv : Verifier.new inst factor = .ok v)
    (proof : InstanceProof F) (ha : v.verify H proof = .ok true) :
    3 * ((densitiesOf inst.constraints).map (excludedRows (2 ^ Nat.clog 2 inst.numRows) inst.numRows)).sum ≤ (v.verifyT H proof).ops ∧
    ∀ c ∈ inst.constraints, ∀ d, c.density = .dense d → ∀ j, inst.numRows = 2 ^ j + 1 → 3 * (2 ^ j - 1) ≤ (v.verifyT H proof).ops := by
  have hD : ∀ c ∈ inst.constraints, c.degree ≤ (inst.constraints.map (fun c => c.degree)).sum := fun c hc =>
    List.single_le_sum (fun _ _ => Nat.zero_le _) _ (List.mem_map.2 ⟨c, hc, rfl⟩)
  obtain ⟨c, -⟩ := verify_costs H hv hD proof
  have h1 := (c.exact true (by rw [res_verifyT]; exact ha) rfl).2
  refine ⟨h1, ?_⟩
  intro c hc d hd j hj
  refine le_trans (Nat.mul_le_mul_left 3 ?_) h1
  have hmem : excludedRows (2 ^ Nat.clog 2 inst.numRows) inst.numRows c.density ∈
      (densitiesOf inst.constraints).map (excludedRows (2 ^ Nat.clog 2 inst.numRows) inst.numRows) :=
    List.mem_map.2 ⟨_, mem_densitiesOf.2 ⟨c, hc, rfl⟩, rfl⟩
  refine le_trans ?_ (List.single_le_sum (fun _ _ => Nat.zero_le _) _ hmem)
  rw [hd, hj]
  simp only [excludedRows]
  have h2 : 2 ^ j + 1 ≤ 2 ^ Nat.clog 2 (2 ^ j + 1) := Nat.le_pow_clog (by norm_num) _
  have h3 : j < Nat.clog 2 (2 ^ j + 1) := (Nat.pow_lt_pow_iff_right (by norm_num : 1 < 2)).1 (by omega)
  have h4 : 2 ^ (j + 1) ≤ 2 ^ Nat.clog 2 (2 ^ j + 1) := Nat.pow_le_pow_right (by norm_num) h3
  rw [pow_succ] at h4
  omega

section
variable {inst : InstanceProperties F} {n k f e o : ℕ}

theorem friHashes_of_shape {p : FriProof F} {N m idx : ℕ} (h : FriProofShape p N m idx) (hm : m ≤ N + 1) :
    friHashes p = m * (2 * N + 3 - m) := by
  obtain ⟨h1, h2⟩ := pathDigests_of_shape h hm
  unfold friHashes
  rw [h.roots, ← h2, List.take_length]
  have e : (p.queries.map openingHashes).sum = p.queries.length + pathDigests p.queries := by
    show (p.queries.map (fun q => 1 + q.path.length)).sum = _
    unfold pathDigests
    simp only [List.sum_map_add]
    simp
  rw [e, h1, h2, Nat.mul_comm 2 m, ← Nat.mul_add]
  congr 1
  omega

/-- **C77** (proofs by `prove`). Checking a proof which `prove` returned for a runnable instance with `n` registers, `2^k` rows and
constraints of degree up to `2^f`, with LDE factor `2^e` and `2^o` final coefficients, takes at most — and if it is accepted exactly — the listed number of
hash calls, which is quadratic in the logarithm `k` of the number of rows, and a number of field operations which does not depend on `k` but through the number of FRI rounds and
the logarithms in `powOps`. -/
theorem C77_honest (w : Worker) (h : Runnable inst n k f) (hp : ProverParams F k f e o) (hout : o < k) (witness : List (List F))
    (hw : IsTable witness n (2 ^ k)) (prover : Prover F) (hprover : Prover.new w inst (2 ^ e) (2 ^ o) = .ok prover)
    (proof : InstanceProof F) (hproof : prover.prove H witness = .ok proof) (factor : ℕ) (v : Verifier F) (hv : Verifier.new inst factor = .ok v) :
    ∃ hashes ops, (v.verifyT H proof).hashes ≤ hashes ∧ (v.verify H proof = .ok true → (v.verifyT H proof).hashes = hashes) ∧
      (v.verifyT H proof).ops ≤ ops ∧
      hashes = (2 * inst.constraints.length + 2 * inst.boundaryConstraints.length + (readPairs inst (2 ^ k)).toFinset.card + 3) +
        n * (k + e + 1) + (k + f + e + 1) + (k - o + 1) * (k + 2 * e + o + 2) + (k + f - o + 1) * (k + f + 2 * e + o + 2) ∧
      ops = otherOps (StarkField.S F) inst.constraints.length inst.boundaryConstraints.length (readPairs inst (2 ^ k)).toFinset.card (2 ^ o + 2 ^ o) +
        compositionOps (2 ^ k) (2 ^ k) (2 ^ f) inst.constraints inst.boundaryConstraints +
        friOps (StarkField.S F) (k - o + 1) (2 ^ o) + friOps (StarkField.S F) (k + f - o + 1) (2 ^ o) := by
  have hS := hp.size
  obtain ⟨a1, a2, a3, a4, a5, a6, a7, idx1, idx2, -, -, -, -, b1, -, b2, s1, s2⟩ := C73_shape H w h hp hout witness hw prover hprover proof hproof
  obtain ⟨v', ev, hver⟩ := h.newVerifier (by omega) factor
  rw [hv] at ev
  cases ev
  have hD : ∀ c ∈ inst.constraints, c.degree ≤ 2 ^ f := by
    intro c hc
    have := h.maxDeg ▸ le_maxDegree (show maskC (genOf F k) c ∈ (arpOf inst k).constraints from List.mem_map.2 ⟨c, hc, rfl⟩)
    exact this
  obtain ⟨c1, c2, c3, c4, -⟩ := C77_any_proof H inst factor v hv (2 ^ f) hD proof
  have hm : v.allMasks.length = (readPairs inst (2 ^ k)).toFinset.card := by
    rw [← length_masksOf h (by omega), hver.masks]
  have hrows : inst.numRows = 2 ^ k := h.rows
  have hclog : Nat.clog 2 (2 ^ k) = k := Nat.clog_pow _ _ (by norm_num)
  have pf : (proof.fQueries.map openingHashes).sum = n * (k + e + 1) := by
    rw [List.sum_eq_card_nsmul (proof.fQueries.map openingHashes) (k + e + 1) (by
      intro x hx
      obtain ⟨q, hq, rfl⟩ := List.mem_map.1 hx
      rw [openingHashes, (b1 q hq).2, Nat.add_comm]), List.length_map, a3, smul_eq_mul]
  have hh : transcriptHashes inst.constraints.length inst.boundaryConstraints.length v.allMasks.length + openingsHashes proof =
      (2 * inst.constraints.length + 2 * inst.boundaryConstraints.length + (readPairs inst (2 ^ k)).toFinset.card + 3) +
        n * (k + e + 1) + (k + f + e + 1) + (k - o + 1) * (k + 2 * e + o + 2) + (k + f - o + 1) * (k + f + 2 * e + o + 2) := by
    unfold transcriptHashes openingsHashes
    rw [hm, pf, openingHashes, b2, friHashes_of_shape s1 (by omega), friHashes_of_shape s2 (by omega),
      show 2 * (k + e) + 3 - (k - o + 1) = k + 2 * e + o + 2 by omega, show 2 * (k + f + e) + 3 - (k + f - o + 1) = k + f + 2 * e + o + 2 by omega]
    ring
  refine ⟨_, _, c2, c3, c4, hh, ?_⟩
  rw [hm, hrows, hclog, a6, a7, s1.roots, s2.roots]

end

/-- A run: the Fibonacci proof with 4 rows is verified by the same instance, and by one that claims only `numRows` rows, with the given span. -/
def costRun (numRows span : ℕ) : Res (ℕ × ℕ × Bool) := do
  let prover ← Prover.new ⟨2, by norm_num⟩ (fibInst Fr 2 1 1) 2 1
  let proof ← prover.prove toyHash [[1, 1, 2, 3], [1, 2, 3, 5]]
  let inst := { fibInst Fr 2 1 1 with
    numRows := numRows
    constraints := (fibInst Fr 2 1 1).constraints.map (fun c => { c with density := .dense ⟨0, span⟩ }) }
  let v ← Verifier.new inst 2
  let r ← (v.verifyT toyHash proof).res
  pure ((v.verifyT toyHash proof).hashes, (v.verifyT toyHash proof).ops, r)

/-- The proof is accepted and its verification takes exactly the hash calls of `C77_honest`. -/
example : costRun 4 1 = .ok ((2 * 2 + 2 * 2 + (readPairs (fibInst Fr 2 1 1) 4).toFinset.card + 3) + 2 * (2 + 1 + 1) + (2 + 0 + 1 + 1) +
    (2 - 0 + 1) * (2 + 2 + 0 + 2) + (2 + 0 - 0 + 1) * (2 + 0 + 2 + 0 + 2), 219, true) := by decide +kernel

/-- A proof accepted for an instance with `2^1 + 1` rows: the hypotheses of `C77_padding`. -/
example : costRun 3 0 = .ok (63, 219, true) := by decide +kernel

end Hodor

import Verif.Lemmas.VerifyH

/-! # The verifier does not panic -/

namespace Hodor

open Spec

theorem bind_ne_panic {α β : Type} {x : Res α} {f : α → Res β} (h1 : x ≠ .panic) (h2 : ∀ a, x = .ok a → f a ≠ .panic) :
    (x >>= f) ≠ .panic := by
  cases x with
  | ok a => exact h2 a rfl
  | err e => simp
  | panic => exact absurd rfl h1

theorem forEach_ne_panic {α σ : Type} (I : σ → Prop) {l : List α} {s : σ} {body : α → σ → Res σ} (hs : I s)
    (h : ∀ a ∈ l, ∀ s, I s → body a s ≠ .panic ∧ ∀ s', body a s = .ok s' → I s') : forEach l s body ≠ .panic := by
  induction l generalizing s with
  | nil => simp [forEach]
  | cons a l ih =>
    obtain ⟨h1, h2⟩ := h a List.mem_cons_self s hs
    exact bind_ne_panic h1 (fun s' e => ih (h2 s' e) (fun b hb => h b (List.mem_cons_of_mem _ hb)))

variable {F : Type} [Field F] [DecidableEq F]

theorem okOr_ne_panic {α : Type} (o : Option α) (e : SynthesisError) : Res.okOr o e ≠ .panic := by cases o <;> simp

variable {n : ℕ}

theorem evaluateUni_ne_panic {claims : List (MaskProperties F × F)} {vs : ZValues F} (h : TableE n claims vs)
    {u : UnivariateTerm F} (hu : FactorOk n u) : evaluateUnivariateAtZ u vs ≠ .panic := by
  rw [evaluateUni_claim h hu]
  split <;> simp

theorem evaluateConstraint_ne_panic {claims : List (MaskProperties F × F)} {vs : ZValues F} (h : TableE n claims vs)
    {c : Constraint F} (hc : ∀ u ∈ factors c, FactorOk n u) : evaluateConstraintAtZ c vs ≠ .panic := by
  unfold evaluateConstraintAtZ
  refine forEach_ne_panic (fun _ => True) trivial ?_
  intro t ht s _
  refine ⟨bind_ne_panic ?_ (fun a _ => by simp), fun _ _ => trivial⟩
  have hfac : ∀ u ∈ termFactors t, evaluateUnivariateAtZ u vs ≠ .panic :=
    fun u hu => evaluateUni_ne_panic h (hc u (List.mem_flatMap.2 ⟨t, ht, hu⟩))
  cases t with
  | univariate u => exact hfac u (by simp [termFactors])
  | polyvariate p =>
    simp only [evaluateTermAtZ]
    refine bind_ne_panic ?_ (fun a _ => by simp)
    refine forEach_ne_panic (fun _ => True) trivial ?_
    intro u hu s _
    exact ⟨bind_ne_panic (hfac u hu) (fun a _ => by simp), fun _ _ => trivial⟩

theorem gConstraint_step {claims : List (MaskProperties F × F)} {vs : ZValues F} (h : TableE n claims vs)
    {c : Constraint F} (hc : ∀ u ∈ factors c, FactorOk n u) {D : ℕ} (hD : c.degree ≤ D) {z inv a : F} {ab : F × F} {cc : List (F × F)} :
    gConstraintAtZ D z inv vs c (a, ab :: cc) ≠ .panic ∧
      ∀ s, gConstraintAtZ D z inv vs c (a, ab :: cc) = .ok s → s.2 = cc := by
  unfold gConstraintAtZ
  simp only [decide_eq_true hD, Res.assert_true, Res.ok_bind, List.head?_cons, Res.expect_some]
  refine ⟨bind_ne_panic (evaluateConstraint_ne_panic h hc) (fun a _ => by simp), ?_⟩
  intro s e
  obtain ⟨x, -, e⟩ := Res.bind_eq_ok.1 e
  cases e
  rfl

theorem gBatch_ne_panic {claims : List (MaskProperties F × F)} {vs : ZValues F} (h : TableE n claims vs) {D : ℕ} {z inv : F}
    (cs : List (Constraint F)) (hc : ∀ c ∈ cs, (∀ u ∈ factors c, FactorOk n u) ∧ c.degree ≤ D) (a : F) (cc : List (F × F))
    (hl : cs.length ≤ cc.length) : forEach cs (a, cc) (gConstraintAtZ D z inv vs) ≠ .panic ∧
      ∀ s, forEach cs (a, cc) (gConstraintAtZ D z inv vs) = .ok s → s.2.length = cc.length - cs.length := by
  induction cs generalizing a cc with
  | nil =>
    refine ⟨by simp [forEach], ?_⟩
    intro s e
    cases e
    simp
  | cons c cs ih =>
    obtain ⟨ab, cc, rfl⟩ : ∃ ab cc', cc = ab :: cc' := by
      cases cc with
      | nil => simp at hl
      | cons a b => exact ⟨a, b, rfl⟩
    obtain ⟨h1, h2⟩ := gConstraint_step h (hc c List.mem_cons_self).1 (hc c List.mem_cons_self).2 (z := z) (inv := inv) (a := a)
      (ab := ab) (cc := cc)
    have ih' := fun s (e : gConstraintAtZ D z inv vs c (a, ab :: cc) = .ok s) =>
      ih (fun c' hc' => hc c' (List.mem_cons_of_mem _ hc')) s.1 s.2 (by rw [h2 s e]; simpa using hl)
    refine ⟨bind_ne_panic h1 (fun s e => (ih' s e).1), ?_⟩
    intro s e
    obtain ⟨s1, e1, e2⟩ := forEach_eq_ok_cons.1 e
    rw [(ih' s1 e1).2 s e2, h2 s1 e1]
    simp

section
variable [StarkField F]

theorem densityDivisor_ne_panic {d : DenseConstraint} {numRows k : ℕ} (hk : k ≤ StarkField.S F)
    (hd : DensityFits d numRows (2 ^ k)) (z : F) : densityDivisorAt z (domOf F k) numRows (.dense d) ≠ .panic := by
  by_cases hz : z ^ 2 ^ k = 1
  · have : inverse (z ^ (domOf F k).size - 1) = none := inverse_eq_none.2 (sub_eq_zero.2 hz)
    have hdd : divisorDegree (domOf F k).size numRows d = .ok _ := divisorDegree_ok hd
    simp only [densityDivisorAt, inverseDivisorAt, hdd, Res.ok_bind, this]
    simp
  · rw [densityDivisorAt, inverseDivisorAt_ok hk hd hz]
    simp

theorem gBatches_ne_panic {claims : List (MaskProperties F × F)} {vs : ZValues F} (h : TableE n claims vs) {D numRows k : ℕ}
    (hk : k ≤ StarkField.S F) {z : F} (bats : List (ConstraintDensity × List (Constraint F)))
    (hb : ∀ b ∈ bats, ∃ d, b.1 = .dense d ∧ DensityFits d numRows (2 ^ k) ∧ ∀ c ∈ b.2, (∀ u ∈ factors c, FactorOk n u) ∧ c.degree ≤ D)
    (a : F) (cc : List (F × F)) (hl : (bats.flatMap (fun b => b.2)).length ≤ cc.length) :
    forEach bats (a, cc) (fun b s => do
        let inv ← densityDivisorAt z (domOf F k) numRows b.1
        forEach b.2 s (gConstraintAtZ D z inv vs)) ≠ .panic := by
  induction bats generalizing a cc with
  | nil => simp [forEach]
  | cons b bats ih =>
    obtain ⟨d, e1, hd, hc⟩ := hb b List.mem_cons_self
    rw [List.flatMap_cons, List.length_append] at hl
    rw [forEach]
    refine bind_ne_panic (bind_ne_panic ?_ (fun inv _ => (gBatch_ne_panic h b.2 hc a cc (by omega)).1)) ?_
    · rw [e1]; exact densityDivisor_ne_panic hk hd z
    · intro s e
      obtain ⟨inv, -, e2⟩ := Res.bind_eq_ok.1 e
      have hs := (gBatch_ne_panic h b.2 hc a cc (by omega)).2 s e2
      exact ih (fun b' hb' => hb b' (List.mem_cons_of_mem _ hb')) s.1 s.2 (by rw [hs]; omega)

theorem gBoundaries_ne_panic {claims : List (MaskProperties F × F)} {vs : ZValues F} (ht : TableE n claims vs) {D k : ℕ}
    {z : F} (bs : List (BoundaryConstraint F)) (hD : bs ≠ [] → 1 ≤ D) (hb : ∀ b ∈ bs, BoundaryOk n b)
    (a : F) (bc : List (F × F)) (hl : bs.length ≤ bc.length) :
    forEach bs (a, bc) (gBoundaryAtZ D z (domOf F k) vs) ≠ .panic := by
  induction bs generalizing a bc with
  | nil => simp [forEach]
  | cons b bs ih =>
    obtain ⟨ab, bc, rfl⟩ : ∃ ab bc', bc = ab :: bc' := by
      cases bc with
      | nil => simp at hl
      | cons a b => exact ⟨a, b, rfl⟩
    have hD := hD (by simp)
    obtain ⟨⟨r, hr, er⟩, v, ev⟩ := hb b List.mem_cons_self
    obtain ⟨row, h1, -⟩ := ht r hr
    have e1 : b.register.num = .ok r := by rw [er]; rfl
    rw [forEach]
    have key : gBoundaryAtZ D z (domOf F k) vs b (a, ab :: bc) ≠ .panic ∧
        ∀ s, gBoundaryAtZ D z (domOf F k) vs b (a, ab :: bc) = .ok s → s.2 = bc := by
      unfold gBoundaryAtZ
      simp only [decide_eq_true hD, Res.assert_true, Res.ok_bind, List.head?_cons, Res.expect_some, e1, rd, h1, ev, Res.okOr_some]
      refine ⟨bind_ne_panic (okOr_ne_panic _ _) (fun x _ => bind_ne_panic (okOr_ne_panic _ _) (fun y _ => by simp)), ?_⟩
      intro s e
      obtain ⟨_, -, e⟩ := Res.bind_eq_ok.1 e
      obtain ⟨_, -, e⟩ := Res.bind_eq_ok.1 e
      cases e
      rfl
    refine bind_ne_panic key.1 (fun s e => ?_)
    exact ih (fun _ => hD) (fun b' hb' => hb b' (List.mem_cons_of_mem _ hb')) s.1 s.2 (by rw [key.2 s e]; simpa using hl)

variable {inst : InstanceProperties F} {k : ℕ}

theorem calculateGAtZ_ne_panic (h : Verifiable inst n k) {v : Verifier F} {factor : ℕ} (hb : VBuilt v inst k factor)
    {cc bc : List (F × F)} (hcc : cc.length = (v.constraintsBatchedByDensity.flatMap (fun b => b.2)).length)
    (hbc : bc.length = inst.boundaryConstraints.length) (y : List F) (z : F) : v.calculateGAtZ cc bc y z ≠ .panic := by
  have hnd : v.allMasks.Nodup := hb.masks ▸ nodup_masksOf _
  obtain ⟨vs, e1, ht⟩ := zValues_table (n := n) hnd (hb.masks ▸ h.masks) y
  have hreg : v.inst.numRegisters = n := by rw [hb.props]; exact h.registers
  have hrows : v.inst.numRows = inst.numRows := by rw [hb.props]; rfl
  have hbs : v.inst.boundaryConstraints = inst.boundaryConstraints := by rw [hb.props]; rfl
  unfold Verifier.calculateGAtZ
  rw [hreg, e1, Res.ok_bind, hbs, hrows, hb.column]
  refine bind_ne_panic ?_ (fun s _ => bind_ne_panic ?_ (fun _ _ => by simp))
  · refine gBatches_ne_panic ht hb.order _ ?_ _ _ (le_of_eq hcc.symm)
    intro b hbm
    obtain ⟨d, h1, h2, h3⟩ := h.batchDense hb b hbm
    exact ⟨d, h1, h2, fun c hc => ⟨(h3 c hc).2.1, by rw [hb.power]; exact (h3 c hc).2.2.1⟩⟩
  · refine gBoundaries_ne_panic ht _ ?_ h.boundary _ _ (le_of_eq hbc.symm)
    intro hne
    obtain ⟨c, hc, hd⟩ := h.degree hne
    rw [hb.power]
    have hm : maskC (genOf F k) c ∈ (arpOf inst k).constraints := List.mem_map.2 ⟨c, hc, rfl⟩
    exact le_trans (show 1 ≤ (maskC (genOf F k) c).degree from hd) (le_maxDegree hm)

omit [StarkField F] in
theorem simulateH1_ne_panic (v : Verifier F) {opened : List F}
    (hm : ∀ m ∈ v.allMasks, ∃ r x, r < opened.length ∧ m = ⟨.register r, .mask x⟩) (αs y : List F) (idx : ℕ) (dom : Domain F) (z : F) :
    v.simulateH1 αs idx dom opened y z ≠ .panic := by
  unfold Verifier.simulateH1
  refine forEach_ne_panic (fun _ => True) trivial ?_
  intro x hx s _
  refine ⟨?_, fun _ _ => trivial⟩
  obtain ⟨r, m, hr, e⟩ := hm x.1.1 (List.of_mem_zip (List.of_mem_zip hx).1).1
  have e1 : rd opened r = .ok opened[r] := by simp [rd, hr, Res.expect]
  rw [e]
  simp only [StepDifference.maskOf, Register.num, Res.ok_bind, e1]
  exact bind_ne_panic (okOr_ne_panic _ _) (fun _ _ => by simp)

variable (H : List UInt8 → Digest)

omit [DecidableEq F] in
theorem drawPair_ne_panic (hch : ChallengeOk F) (s : List (F × F) × Transcript) : drawPair H s ≠ .panic := by
  simp [drawPair, getChallenge_ok H hch]

omit [DecidableEq F] in
theorem drawOne_ne_panic (hch : ChallengeOk F) (s : List F × Transcript) : drawOne H s ≠ .panic := by
  simp [drawOne, getChallenge_ok H hch]

omit [DecidableEq F] in
theorem newForSize_ne_panic (s : ℕ) : Domain.newForSize F s ≠ .panic := by
  rw [newForSize_eq]; split <;> simp

theorem index_ne_panic (d : Digest) {s f : ℕ} (hs : 0 < s) (hf : 0 < f) : bytesToChallengeIndex d.bytes s f ≠ .panic := by
  unfold bytesToChallengeIndex
  have : 8 ≤ d.bytes.length := by rw [d.len]; norm_num
  simp [hs, hf, this]

theorem index_lt {bytes : List UInt8} {s f idx : ℕ} (h : bytesToChallengeIndex bytes s f = .ok idx) : idx < s := by
  unfold bytesToChallengeIndex at h
  obtain ⟨_, -, h⟩ := Res.bind_eq_ok.1 h
  obtain ⟨_, h1, h⟩ := Res.bind_eq_ok.1 h
  obtain ⟨_, -, h⟩ := Res.bind_eq_ok.1 h
  have hs : 0 < s := by simpa [Res.assert_eq_ok] using h1
  cases h
  have := fun x => Nat.mod_lt x hs
  split <;> split <;> exact this _

omit [DecidableEq F] in
theorem derive_ne_panic (hch : ChallengeOk F) {v : Verifier F} {proof : InstanceProof F} (h1 : proof.h1IopRoots ≠ [])
    (h2 : proof.h2IopRoots ≠ []) (hf : 0 < v.ldeFactor) (hc : 0 < v.columnDomain.size) (hg : 0 < v.constraintsDomain.size) :
    v.deriveChallenges H proof ≠ .panic := by
  unfold Verifier.deriveChallenges
  refine bind_ne_panic ?_ (fun t _ => ?_)
  · unfold Transcript.new
    rw [decide_eq_true hch.1]; simp
  refine bind_ne_panic ?_ (fun x1 _ => ?_)
  · refine forEach_ne_panic (fun _ => True) trivial (fun b _ s _ => ⟨?_, fun _ _ => trivial⟩)
    exact forEach_ne_panic (fun _ => True) trivial (fun _ _ s _ => ⟨drawPair_ne_panic H hch s, fun _ _ => trivial⟩)
  refine bind_ne_panic ?_ (fun x2 _ => ?_)
  · exact forEach_ne_panic (fun _ => True) trivial (fun _ _ s _ => ⟨drawPair_ne_panic H hch s, fun _ _ => trivial⟩)
  refine bind_ne_panic ?_ (fun x3 _ => ?_)
  · simp [getChallenge_ok H hch]
  refine bind_ne_panic ?_ (fun x4 _ => ?_)
  · exact forEach_ne_panic (fun _ => True) trivial (fun _ _ s _ => ⟨drawOne_ne_panic H hch s, fun _ _ => trivial⟩)
  refine bind_ne_panic ?_ (fun x5 _ => ?_)
  · rw [List.getLast?_eq_some_getLast h1]; simp
  refine bind_ne_panic ?_ (fun x6 _ => ?_)
  · rw [List.getLast?_eq_some_getLast h2]; simp
  refine bind_ne_panic (newForSize_ne_panic _) (fun x7 _ => ?_)
  refine bind_ne_panic (newForSize_ne_panic _) (fun x8 _ => ?_)
  refine bind_ne_panic (index_ne_panic _ (Nat.mul_pos hc hf) hf) (fun x9 _ => ?_)
  refine bind_ne_panic (index_ne_panic _ (Nat.mul_pos hg hf) hf) (fun x10 _ => ?_)
  simp

omit [DecidableEq F] in
theorem derive_index {v : Verifier F} {proof : InstanceProof F} {ch : Challenges F} {d1 d2 : Domain F}
    (h : v.deriveChallenges H proof = .ok (ch, d1, d2)) :
    ch.idx1 < v.columnDomain.size * v.ldeFactor ∧ ch.idx2 < v.constraintsDomain.size * v.ldeFactor := by
  unfold Verifier.deriveChallenges at h
  obtain ⟨t, -, h⟩ := Res.bind_eq_ok.1 h
  obtain ⟨x1, e1, h⟩ := Res.bind_eq_ok.1 h
  obtain ⟨x2, e2, h⟩ := Res.bind_eq_ok.1 h
  obtain ⟨x3, -, h⟩ := Res.bind_eq_ok.1 h
  obtain ⟨x4, e4, h⟩ := Res.bind_eq_ok.1 h
  obtain ⟨_, -, h⟩ := Res.bind_eq_ok.1 h
  obtain ⟨_, -, h⟩ := Res.bind_eq_ok.1 h
  obtain ⟨_, e5, h⟩ := Res.bind_eq_ok.1 h
  obtain ⟨_, e6, h⟩ := Res.bind_eq_ok.1 h
  obtain ⟨_, i1, h⟩ := Res.bind_eq_ok.1 h
  obtain ⟨_, i2, h⟩ := Res.bind_eq_ok.1 h
  cases h
  exact ⟨index_lt i1, index_lt i2⟩

omit [DecidableEq F] in
/-- Challenges depend on few parts of the proof. -/
theorem derive_congr (v : Verifier F) {p p' : InstanceProof F} (h1 : p.fIopRoots = p'.fIopRoots) (h2 : p.gIopRoot = p'.gIopRoot)
    (h3 : p.h1IopRoots.getLast? = p'.h1IopRoots.getLast?) (h4 : p.h2IopRoots.getLast? = p'.h2IopRoots.getLast?)
    (h5 : p.friProofH1.finalCoefficients = p'.friProofH1.finalCoefficients)
    (h6 : p.friProofH2.finalCoefficients = p'.friProofH2.finalCoefficients) :
    v.deriveChallenges H p = v.deriveChallenges H p' := by
  unfold Verifier.deriveChallenges
  rw [h1, h2, h3, h4, h5, h6]

end

end Hodor

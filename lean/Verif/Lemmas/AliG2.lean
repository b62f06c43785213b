import Verif.Lemmas.AliG

/-! # Lemmas about `calculate_g`: challenges, batches and boundary constraints -/

namespace Hodor

open Polynomial Finset Spec

variable {F : Type} [Field F]

section challenges
variable [StarkField F] (H : List UInt8 → Digest)

/-- Transcript after drawing a challenge. -/
def nextT (t : Transcript) : Transcript := { absorbed := t.absorbed ++ (H t.absorbed).bytes }

/-- The challenge drawn from a transcript. -/
def chal (F : Type) [Field F] [StarkField F] (H : List UInt8 → Digest) (t : Transcript) : F :=
  challengeOf F (H t.absorbed)

theorem getChallenge_ok (h : ChallengeOk F) (t : Transcript) :
    t.getChallenge (F := F) H = .ok (chal F H t, nextT H t) := by
  unfold Transcript.getChallenge
  simp only [interpretHash_ok h, Res.ok_bind]
  rfl

/-- The next `n` pairs of challenges. -/
def pairsAt (F : Type) [Field F] [StarkField F] (H : List UInt8 → Digest) : ℕ → Transcript → List (F × F)
  | 0, _ => []
  | n + 1, t => (chal F H t, chal F H (nextT H t)) :: pairsAt F H n (nextT H (nextT H t))

/-- The transcript after `n` pairs of challenges. -/
def afterN : ℕ → Transcript → Transcript
  | 0, t => t
  | n + 1, t => afterN n (nextT H (nextT H t))

omit [StarkField F] [Field F] in
theorem afterN_add (m n : ℕ) (t : Transcript) : afterN H (m + n) t = afterN H n (afterN H m t) := by
  induction m generalizing t with
  | zero => simp [afterN]
  | succ m ih => rw [Nat.succ_add]; simp only [afterN, ih]

theorem length_pairsAt (n : ℕ) (t : Transcript) : (pairsAt F H n t).length = n := by
  induction n generalizing t with
  | zero => rfl
  | succ n ih => simp [pairsAt, ih]

theorem pairsAt_add (m n : ℕ) (t : Transcript) :
    pairsAt F H (m + n) t = pairsAt F H m t ++ pairsAt F H n (afterN H m t) := by
  induction m generalizing t with
  | zero => simp [pairsAt, afterN]
  | succ m ih => rw [Nat.succ_add]; simp only [pairsAt, afterN, ih, List.cons_append]

end challenges

variable [DecidableEq F] [StarkField F] (H : List UInt8 → Digest)

theorem adjust_ok (w : Worker) {ali : AliInstance F} {K : ℕ} (hK : K ≤ StarkField.S F)
    (hd : ali.constraintsDomain = domOf F K) (hc : ali.precomputations.coset = tab (2 ^ K) (cosetPt F K))
    (adj : ℕ) (α β : F) :
    ∃ a, adjustmentOpt ali w adj α β = .ok a ∧ ∀ v, applyAdjustment w α (mkPoly .values K v) a
      = .ok (mkPoly .values K (fun i => v i * weightAt adj (α, β) (cosetPt F K i))) := by
  unfold adjustmentOpt
  by_cases h0 : adj = 0
  · rw [if_pos h0]
    refine ⟨none, rfl, ?_⟩
    intro v
    simp only [applyAdjustment, scale_mk, weightAt, if_pos h0]
    rfl
  · rw [if_neg h0]
    refine ⟨some (mkPoly .values K (fun i => cosetPt F K i ^ adj * α + β)), ?_, ?_⟩
    · unfold adjustmentInCoset
      rw [hd, hc, decide_eq_true (show 1 ≤ adj by omega), fromValues_pow hK]
      simp only [domOf, length_tab, decide_true, Res.assert_true, Res.ok_bind, TraceSystem.unwrapRes,
        pow_mk, scale_mk, addConstant_mk, Res.pure_def]
    · intro v
      simp only [applyAdjustment, mulAssign_mk, weightAt, if_neg h0]
      congr 1
      apply mkPoly_congr
      intro i _; ring

section
variable (w : Worker) {P : ℕ → F[X]} {k f n : ℕ} (hK : k + f ≤ StarkField.S F) (h32 : k < 32)
  (hok : LdeOk w (2 ^ f)) (hP : ∀ r, r < n → (P r).degree < (2 ^ k : ℕ)) (hch : ChallengeOk F)
  {ali : AliInstance F} {arp : InstanceProperties F} (hali : AliOk ali arp k (k + f))
  (hD : maxDegree arp.constraints = 2 ^ f)
include hK h32 hok hP hch hali hD

/-- A constraint whose terms the prover can evaluate. -/
def ConstraintOk (n : ℕ) (c : Constraint F) : Prop := ∀ t ∈ c.terms, TermOk n t

/-- The substituted witness covers the constraint. -/
def Covers (P : ℕ → F[X]) (k : ℕ) (subst : List (MaskProperties F × Poly F .coefficients)) (c : Constraint F) : Prop :=
  ∀ u ∈ factors c, assocGet subst u.maskProperties = some (maskedOf P k u.maskProperties)

theorem gConstraint_ok {subst : List (MaskProperties F × Poly F .coefficients)} {c : Constraint F}
    (hc : ConstraintOk n c) (hcov : Covers P k subst c) (hdeg : c.degree ≤ 2 ^ f)
    {cache : TermCache F} (hcache : CacheInv P (k + f) cache) (g b : ℕ → F) (t : Transcript) :
    ∃ cache', gConstraint H ali w subst (mkPoly .values (k + f) g) c ⟨mkPoly .values (k + f) b, cache, t⟩
      = .ok ⟨mkPoly .values (k + f) (fun i => b i + (g i + constraintValue (pointEnv P (cosetPt F (k + f) i)) c) *
          weightAt (2 ^ f - c.degree) (chal F H t, chal F H (nextT H t)) (cosetPt F (k + f) i)),
          cache', nextT H (nextT H t)⟩ ∧ CacheInv P (k + f) cache' := by
  obtain ⟨adj, ea, hadj⟩ := adjust_ok w hK hali.domain hali.coset (2 ^ f - c.degree) (chal F H t) (chal F H (nextT H t))
  obtain ⟨c1, e1, hc1⟩ := evaluateTerms_ok w hK h32 hok hP (l := c.terms) (subst := subst) (cache := cache)
    (fun t ht => ⟨hc t ht, fun u hu => hcov u (List.mem_flatMap.2 ⟨t, ht, hu⟩)⟩) hcache g
  refine ⟨c1, ?_, hc1⟩
  unfold gConstraint
  rw [hali.power, hD, decide_eq_true hdeg]
  simp only [Res.assert_true, Res.ok_bind, getChallenge_ok H hch, ea]
  simp only [Res.ok_bind] at e1
  rw [e1]
  simp only [Res.ok_bind, addConstant_mk, hadj, addAssignV_mk, Res.pure_def]
  congr 2
  apply mkPoly_congr
  intro i _
  unfold constraintValue
  ring

/-- Sum over the constraints of a batch at point `x`; `g` is the value `g_values` had before. -/
noncomputable def batchSum (P : ℕ → F[X]) (D : ℕ) (g x : F) (cs : List (Constraint F × F × F)) : F :=
  (cs.map (fun c => (g + constraintValue (pointEnv P x) c.1) * weightAt (D - c.1.degree) c.2 x)).sum

theorem gConstraints_ok {subst : List (MaskProperties F × Poly F .coefficients)} {cs : List (Constraint F)}
    (hc : ∀ c ∈ cs, ConstraintOk n c ∧ Covers P k subst c ∧ c.degree ≤ 2 ^ f)
    {cache : TermCache F} (hcache : CacheInv P (k + f) cache) (g b : ℕ → F) (t : Transcript) :
    ∃ cache', forEach cs ⟨mkPoly .values (k + f) b, cache, t⟩ (gConstraint H ali w subst (mkPoly .values (k + f) g))
      = .ok ⟨mkPoly .values (k + f) (fun i => b i +
          batchSum P (2 ^ f) (g i) (cosetPt F (k + f) i) (cs.zip (pairsAt F H cs.length t))),
          cache', afterN H cs.length t⟩ ∧ CacheInv P (k + f) cache' := by
  induction cs generalizing b cache t with
  | nil =>
    refine ⟨cache, ?_, hcache⟩
    simp [forEach, batchSum, pairsAt, afterN]
  | cons c cs ih =>
    obtain ⟨h1, h2, h3⟩ := hc c List.mem_cons_self
    obtain ⟨c1, e1, hc1⟩ := gConstraint_ok H w hK h32 hok hP hch hali hD h1 h2 h3 hcache g b t
    obtain ⟨c2, e2, hc2⟩ := ih (fun c' hc' => hc c' (List.mem_cons_of_mem _ hc')) hc1 _ (nextT H (nextT H t))
    refine ⟨c2, ?_, hc2⟩
    simp only [forEach, e1, Res.ok_bind]
    rw [e2]
    congr 2
    apply mkPoly_congr
    intro i _
    simp only [batchSum, List.length_cons, pairsAt, List.zip_cons_cons, List.map_cons, List.sum_cons]
    ring

/-- What the constraint loop of `calculate_g` computes at a point `x` of the coset: each batch starts from
the value accumulated so far. -/
noncomputable def gFold (P : ℕ → F[X]) (D : ℕ) (x : F) (dinv : ConstraintDensity → F) :
    List (ConstraintDensity × List (Constraint F)) → Transcript → F → F
  | [], _, g => g
  | (d, cs) :: bs, t, g => gFold P D x dinv bs (afterN H cs.length t)
      (g + (g + batchSum P D g x (cs.zip (pairsAt F H cs.length t))) * dinv d)

/-- Inverse divisor of a density at `x`. -/
def dinvAt (g : F) (numRows : ℕ) (x : F) : ConstraintDensity → F
  | .dense d => (zerofierAt g (enforcedRows d numRows) x)⁻¹
  | _ => 0

/-- Transcript after all batches. -/
def afterBatches : List (ConstraintDensity × List (Constraint F)) → Transcript → Transcript
  | [], t => t
  | (_, cs) :: bs, t => afterBatches bs (afterN H cs.length t)

theorem gBatches_ok {subst : List (MaskProperties F × Poly F .coefficients)}
    {bs : List (ConstraintDensity × List (Constraint F))}
    (hbs : ∀ p ∈ bs, p ∈ batchesOf arp.constraints ∧ (∃ d, p.1 = .dense d) ∧
      ∀ c ∈ p.2, ConstraintOk n c ∧ Covers P k subst c ∧ c.degree ≤ 2 ^ f)
    {cache : TermCache F} (hcache : CacheInv P (k + f) cache) (g : ℕ → F) (t : Transcript) :
    ∃ cache', forEach bs ⟨mkPoly .values (k + f) g, cache, t⟩ (gBatch H ali w subst)
      = .ok ⟨mkPoly .values (k + f) (fun i => gFold H P (2 ^ f) (cosetPt F (k + f) i)
          (dinvAt (genOf F k) arp.numRows (cosetPt F (k + f) i)) bs t (g i)), cache', afterBatches H bs t⟩ := by
  induction bs generalizing g cache t with
  | nil => exact ⟨cache, rfl⟩
  | cons p bs ih =>
    obtain ⟨d, cs⟩ := p
    obtain ⟨hmem, ⟨dd, hd⟩, hcs⟩ := hbs (d, cs) List.mem_cons_self
    obtain ⟨c1, e1, hc1⟩ := gConstraints_ok H w hK h32 hok hP hch hali hD hcs hcache g g t
    have ediv := hali.divisors (d, cs) hmem dd hd
    obtain ⟨c2, e2⟩ := ih (fun p hp => hbs p (List.mem_cons_of_mem _ hp)) hc1
      (fun i => g i + (g i + batchSum P (2 ^ f) (g i) (cosetPt F (k + f) i) (cs.zip (pairsAt F H cs.length t))) *
        dinvAt (genOf F k) arp.numRows (cosetPt F (k + f) i) d) (afterN H cs.length t)
    refine ⟨c2, ?_⟩
    have estep : gBatch H ali w subst (d, cs) ⟨mkPoly .values (k + f) g, cache, t⟩ = .ok
        ⟨mkPoly .values (k + f) (fun i => g i + (g i + batchSum P (2 ^ f) (g i) (cosetPt F (k + f) i)
          (cs.zip (pairsAt F H cs.length t))) * dinvAt (genOf F k) arp.numRows (cosetPt F (k + f) i) d),
          c1, afterN H cs.length t⟩ := by
      unfold gBatch
      simp only at hd ediv
      simp only [e1, Res.ok_bind, ediv, Res.expect_some, mulAssign_mk, addAssignV_mk, Res.pure_def]
      simp only [hd, dinvAt]
    simp only [forEach, estep, Res.ok_bind]
    exact e2

/-- A boundary constraint the prover can evaluate. -/
def BoundaryOk (n : ℕ) (b : BoundaryConstraint F) : Prop := (∃ r, r < n ∧ b.register = .register r) ∧ ∃ v, b.value = some v

/-- Sum over boundary constraints at `x`. -/
noncomputable def boundarySum (P : ℕ → F[X]) (D : ℕ) (g x : F) (bs : List (BoundaryConstraint F × F × F)) : F :=
  (bs.map (fun b => (pointEnv P x b.1.register (.mask 1) - b.1.value.getD 0) * weightAt (D - 1) b.2 x
    / (x - g ^ b.1.atRow))).sum

theorem gBoundary_ok {b : BoundaryConstraint F} (hb : BoundaryOk n b) (hmem : b ∈ arp.boundaryConstraints)
    (cache : TermCache F) (g : ℕ → F) (t : Transcript) :
    gBoundary H ali w (tab n (fun r => mkPoly .coefficients k (P r).coeff)) b ⟨mkPoly .values (k + f) g, cache, t⟩
      = .ok ⟨mkPoly .values (k + f) (fun i => g i +
          (pointEnv P (cosetPt F (k + f) i) b.register (.mask 1) - b.value.getD 0) *
            weightAt (2 ^ f - 1) (chal F H t, chal F H (nextT H t)) (cosetPt F (k + f) i) /
            (cosetPt F (k + f) i - genOf F k ^ b.atRow)), cache, nextT H (nextT H t)⟩ := by
  obtain ⟨⟨r, hr, er⟩, v, ev⟩ := hb
  obtain ⟨adj, ea, hadj⟩ := adjust_ok w hK hali.domain hali.coset (2 ^ f - 1) (chal F H t) (chal F H (nextT H t))
  have hdeg : (P r - C v).degree < (2 ^ k : ℕ) := by
    refine (degree_sub_le _ _).trans_lt (max_lt (hP r hr) ?_)
    refine degree_C_le.trans_lt ?_
    exact_mod_cast Nat.two_pow_pos k
  have epoly : ({ mkPoly .coefficients k (P r).coeff with
      coeffs := tab (2 ^ k) (fun j => if j = 0 then (P r).coeff 0 - v else (P r).coeff j) } : Poly F .coefficients)
      = mkPoly .coefficients k (P r - C v).coeff := by
    have : tab (2 ^ k) (fun j => if j = 0 then (P r).coeff 0 - v else (P r).coeff j) = tab (2 ^ k) (P r - C v).coeff := by
      apply tab_congr
      intro j _
      rw [coeff_sub, coeff_C]
      split
      · rename_i h; rw [h]
      · rw [sub_zero]
    rw [this]
    rfl
  unfold gBoundary
  simp only [getChallenge_ok H hch, Res.ok_bind]
  rw [hali.power, hD, decide_eq_true (Nat.one_le_two_pow), hali.boundary b hmem]
  simp only [Res.assert_true, Res.ok_bind, ea, er, Register.num, rd_tab hr, ev, Res.expect_some, mkPoly_coeffs,
    rd_tab (Nat.two_pow_pos k), wr_tab (Nat.two_pow_pos k), epoly, cosetLde_poly w hK h32 hok hdeg]
  have ec : ∀ i, (StarkField.mulGen : F) * genOf F (k + f) ^ i = cosetPt F (k + f) i := fun i => rfl
  simp only [ec, hadj, Res.ok_bind, mulAssign_mk, addAssignV_mk, Res.pure_def]
  congr 2
  apply mkPoly_congr
  intro i _
  simp only [eval_sub, eval_C, pointEnv, one_mul, Option.getD_some, div_eq_mul_inv]

theorem gBoundaries_ok {bs : List (BoundaryConstraint F)} (hb : ∀ b ∈ bs, BoundaryOk n b ∧ b ∈ arp.boundaryConstraints)
    (cache : TermCache F) (g : ℕ → F) (t : Transcript) :
    forEach bs ⟨mkPoly .values (k + f) g, cache, t⟩ (gBoundary H ali w (tab n (fun r => mkPoly .coefficients k (P r).coeff)))
      = .ok ⟨mkPoly .values (k + f) (fun i => g i + boundarySum P (2 ^ f) (genOf F k) (cosetPt F (k + f) i)
          (bs.zip (pairsAt F H bs.length t))), cache, afterN H bs.length t⟩ := by
  induction bs generalizing g t with
  | nil => simp [forEach, boundarySum, pairsAt, afterN]
  | cons b bs ih =>
    obtain ⟨h1, h2⟩ := hb b List.mem_cons_self
    simp only [forEach, gBoundary_ok H w hK h32 hok hP hch hali hD h1 h2, Res.ok_bind]
    rw [ih (fun b' hb' => hb b' (List.mem_cons_of_mem _ hb'))]
    congr 2
    apply mkPoly_congr
    intro i _
    simp only [boundarySum, List.length_cons, pairsAt, List.zip_cons_cons, List.map_cons, List.sum_cons]
    ring

/-- `calculate_g` interpolates the accumulated values. -/
theorem calculateG_ok (hK32 : k + f < 32) (hreg : arp.numRegisters = n)
    (hcs : ∀ c ∈ arp.constraints, ConstraintOk n c ∧ ∃ d, c.density = .dense d)
    (hbs : ∀ b ∈ arp.boundaryConstraints, BoundaryOk n b) (t : Transcript) {G : F[X]}
    (hG : G.degree < (2 ^ (k + f) : ℕ))
    (hv : ∀ i, i < 2 ^ (k + f) → G.eval (cosetPt F (k + f) i) =
      gFold H P (2 ^ f) (cosetPt F (k + f) i) (dinvAt (genOf F k) arp.numRows (cosetPt F (k + f) i))
        (batchesOf arp.constraints) t 0 +
      boundarySum P (2 ^ f) (genOf F k) (cosetPt F (k + f) i) (arp.boundaryConstraints.zip
        (pairsAt F H arp.boundaryConstraints.length (afterBatches H (batchesOf arp.constraints) t)))) :
    ali.calculateG H t (tab n (fun r => mkPoly .coefficients k (P r).coeff)) w
      = .ok (mkPoly .coefficients (k + f) G.coeff,
          afterN H arp.boundaryConstraints.length (afterBatches H (batchesOf arp.constraints) t)) := by
  have hfac : ∀ c ∈ arp.constraints, ∀ u ∈ factors c, FactorOk n u := by
    intro c hc u hu
    obtain ⟨t, ht, hu'⟩ := List.mem_flatMap.1 hu
    exact ((hcs c hc).1 t ht).1 u hu'
  have hmasks : ∀ m ∈ masksOf arp, ∃ r x, r < n ∧ m = ⟨.register r, .mask x⟩ := by
    intro m hm
    rcases (mem_boundaryMasks _ _ _).1 hm with h | ⟨b, hb, rfl⟩
    · rcases (mem_masks _ _ _).1 h with h | ⟨c, hc, u, hu, rfl⟩
      · simp at h
      · obtain ⟨r, x, hr, e1, e2⟩ := hfac c hc u hu
        exact ⟨r, x, hr, by simp [UnivariateTerm.maskProperties, e1, e2]⟩
    · obtain ⟨⟨r, hr, er⟩, -⟩ := hbs b hb
      exact ⟨r, 1, hr, by rw [er]⟩
  obtain ⟨subst, es, hsub⟩ := maskedPolynomials_ok w P k n (masksOf arp) hmasks
  have hcov : ∀ c ∈ arp.constraints, Covers P k subst c := by
    intro c hc u hu
    exact hsub _ ((mem_boundaryMasks _ _ _).2 (Or.inl ((mem_masks _ _ _).2 (Or.inr ⟨c, hc, u, hu, rfl⟩))))
  obtain ⟨cache, eb⟩ := gBatches_ok H w hK h32 hok hP hch hali hD (subst := subst)
    (bs := batchesOf arp.constraints) (by
      intro p hp
      obtain ⟨hne, hmem⟩ := batch_inv arp.constraints [] [] (by simp) p hp
      refine ⟨hp, ?_, ?_⟩
      · obtain ⟨c, hc⟩ := List.exists_mem_of_ne_nil _ hne
        obtain ⟨h2, h3⟩ := hmem c hc
        obtain ⟨d, e⟩ := (hcs c (by simpa using h2)).2
        exact ⟨d, h3.symm.trans e⟩
      · intro c hc
        have hc' : c ∈ arp.constraints := by simpa using (hmem c hc).1
        exact ⟨(hcs c hc').1, hcov c hc', hD ▸ le_maxDegree hc'⟩)
    (cache := []) (by intro key v h; simp [assocGet] at h) (fun _ => 0) t
  have hnew : (Poly.newForSizeValues (domOf F (k + f)).size : Res (Poly F .values)) = .ok (mkPoly .values (k + f) (fun _ => 0)) :=
    newForSizeValues_pow hK
  unfold AliInstance.calculateG
  rw [hali.props, hali.domain, hali.masks, hali.batches]
  simp only [length_tab, hreg, decide_true, Res.assert_true, Res.ok_bind, hnew, es, eb]
  rw [gBoundaries_ok H w hK h32 hok hP hch hali hD (fun b hb => ⟨hbs b hb, hb⟩)]
  simp only [Res.ok_bind]
  have e : mkPoly (F := F) .values (k + f) (fun i => gFold H P (2 ^ f) (cosetPt F (k + f) i)
        (dinvAt (genOf F k) arp.numRows (cosetPt F (k + f) i)) (batchesOf arp.constraints) t 0 +
      boundarySum P (2 ^ f) (genOf F k) (cosetPt F (k + f) i) (arp.boundaryConstraints.zip
        (pairsAt F H arp.boundaryConstraints.length (afterBatches H (batchesOf arp.constraints) t))))
      = mkPoly .values (k + f) (fun i => G.eval (StarkField.mulGen * genOf F (k + f) ^ i)) :=
    mkPoly_congr (fun i hi => (hv i hi).symm)
  rw [e, icosetFft_poly w hK hK32 hG]
  rfl

end

end Hodor

import Verif.Lemmas.Ali

/-! # Lemmas about `from_arp` and `calculate_g` -/

namespace Hodor

open Polynomial Finset Spec

/-- All masks of an instance, in the order in which prover and verifier collect them. -/
def masksOf {F : Type} [Field F] [DecidableEq F] (arp : InstanceProperties F) : List (MaskProperties F) :=
  arp.boundaryConstraints.foldl getMaskFromBoundaryConstraint (arp.constraints.foldl getMasksFromConstraint [])

/-- The batches of an instance. -/
def batchesOf {F : Type} [DecidableEq F] (cs : List (Constraint F)) : List (ConstraintDensity × List (Constraint F)) :=
  cs.foldl (fun m c => pushBatch c m) []

section
variable {F : Type} [Field F] [DecidableEq F]

/-! ### Batches are a rearrangement of the constraints -/

omit [Field F] in
theorem pushBatch_perm (c : Constraint F) (m : List (ConstraintDensity × List (Constraint F))) :
    ((pushBatch c m).flatMap (fun b => b.2)).Perm (c :: m.flatMap (fun b => b.2)) := by
  induction m with
  | nil => simp [pushBatch]
  | cons b m ih =>
    obtain ⟨d, b⟩ := b
    rw [pushBatch]
    split
    · simp only [List.flatMap_cons, List.append_assoc]
      exact List.perm_middle
    · simp only [List.flatMap_cons]
      exact (ih.append_left b).trans List.perm_middle

omit [Field F] in
theorem batchesOf_perm (cs : List (Constraint F)) : ((batchesOf cs).flatMap (fun b => b.2)).Perm cs := by
  unfold batchesOf
  have : ∀ (cs : List (Constraint F)) m, ((cs.foldl (fun m c => pushBatch c m) m).flatMap (fun b => b.2)).Perm
      (m.flatMap (fun b => b.2) ++ cs) := by
    intro cs
    induction cs with
    | nil => intro m; simp
    | cons c cs ih =>
      intro m
      rw [List.foldl_cons]
      refine (ih _).trans ?_
      refine ((pushBatch_perm c m).append_right cs).trans ?_
      rw [List.cons_append]
      exact List.perm_middle.symm
  simpa using this cs []

end

variable {F : Type} [Field F] [DecidableEq F] [StarkField F]

/-- What `from_arp` computes. -/
structure AliOk (ali : AliInstance F) (arp : InstanceProperties F) (k K : ℕ) : Prop where
  props : ali.properties = arp
  power : ali.maxConstraintPower = maxDegree arp.constraints
  column : ali.columnDomain = domOf F k
  domain : ali.constraintsDomain = domOf F K
  masks : ali.allMasks = masksOf arp
  batches : ali.constraintsBatchedByDensity = batchesOf arp.constraints
  divisors : ∀ p ∈ batchesOf arp.constraints, ∀ d, p.1 = .dense d →
    assocGet ali.constraintDivisors p.1 = some (mkPoly .values K
      (fun i => (zerofierAt (genOf F k) (enforcedRows d arp.numRows) (cosetPt F K i))⁻¹))
  boundary : ∀ b ∈ arp.boundaryConstraints,
    assocGet ali.boundaryConstraintDivisors b.atRow
      = some (mkPoly .values K (fun i => (cosetPt F K i - genOf F k ^ b.atRow)⁻¹))
  coset : ali.precomputations.coset = tab (2 ^ K) (cosetPt F K)

/-- Divisor table of a density. -/
def divisorTable (F : Type) [Field F] [StarkField F] (k K numRows : ℕ) : ConstraintDensity → Poly F .values
  | .dense d => mkPoly .values K (fun i => (zerofierAt (genOf F k) (enforcedRows d numRows) (cosetPt F K i))⁻¹)
  | _ => mkPoly .values K (fun _ => 0)

theorem fromArp_ok (w : Worker) {arp : InstanceProperties F} {k K : ℕ} (hk : Nat.clog 2 arp.numRows = k)
    (hKe : Nat.clog 2 (2 ^ k * maxDegree arp.constraints) = K) (hkK : k ≤ K) (hK : K ≤ StarkField.S F)
    (h1 : 1 ≤ StarkField.S F) (hs : (StarkField.mulGen : F) ^ 2 ^ K ≠ 1)
    (hd : ∀ c ∈ arp.constraints, ∃ d, c.density = .dense d ∧ DensityFits d arp.numRows (2 ^ k)) :
    ∃ ali, AliInstance.fromArp arp w = .ok ali ∧ AliOk ali arp k K := by
  have hb : ∀ p ∈ batchesOf arp.constraints, ∃ d, p.1 = .dense d ∧ DensityFits d arp.numRows (2 ^ k) := by
    intro p hp
    obtain ⟨hne, hmem⟩ := batch_inv arp.constraints [] [] (by simp) p hp
    obtain ⟨c, hc⟩ := List.exists_mem_of_ne_nil _ hne
    obtain ⟨h2, h3⟩ := hmem c hc
    obtain ⟨d, e, hf⟩ := hd c (by simpa using h2)
    exact ⟨d, h3.symm.trans e, hf⟩
  obtain ⟨dm, ed, hdm, -⟩ := forEach_assoc (batchesOf arp.constraints) (fun b => b.1)
    (fun b => densityDivisor (domOf F k) (domOf F K) arp.numRows w b.1) (divisorTable F k K arp.numRows)
    (by
      intro p hp
      obtain ⟨d, e, hf⟩ := hb p hp
      simp only [e, densityDivisor, divisorTable]
      exact inverseDivisorInCoset_ok w hkK hK hs hf) []
  obtain ⟨bm, eb, hbm, -⟩ := forEach_assoc
    (arp.boundaryConstraints.foldl (fun s b => insertSet s b.atRow) []) (fun r => r)
    (fun row => boundaryDivisor (domOf F k) (domOf F K) row w)
    (fun row => mkPoly .values K (fun i => (cosetPt F K i - genOf F k ^ row)⁻¹))
    (fun row _ => boundaryDivisor_ok w hkK hK h1 hs) []
  have e1 : Domain.newForSize F arp.numRows = .ok (domOf F k) := by
    rw [newForSize_eq, hk, if_pos (by omega)]; rfl
  have e2 : Domain.newForSize F (2 ^ k * maxDegree arp.constraints) = .ok (domOf F K) := by
    rw [newForSize_eq, hKe, if_pos hK]; rfl
  have e3 := newForDomain_eq (domOf F K) w (genOf_ne_zero hK)
  unfold AliInstance.fromArp
  rw [e1, Res.ok_bind]
  have e2' : Domain.newForSize F ((domOf F k).size * maxDegree arp.constraints) = .ok (domOf F K) := e2
  simp only [e2', Res.ok_bind, e3]
  unfold batchesOf at ed
  rw [ed, Res.ok_bind, eb, Res.ok_bind]
  refine ⟨_, rfl, ⟨rfl, rfl, rfl, rfl, rfl, rfl, ?_, ?_, ?_⟩⟩
  · intro p hp d hpd
    have := hdm p hp
    rw [hpd] at this ⊢
    exact this
  · intro b hbb
    exact hbm b.atRow ((mem_foldl_insertSet _ _ _ _).2 (Or.inr ⟨b, hbb, rfl⟩))
  · apply tab_congr
    intro i _
    simp only [domOf, cosetPt]; ring

/-! ### Masked witness polynomials -/

/-- The masked polynomial of a register. -/
noncomputable def maskedOf (P : ℕ → F[X]) (k : ℕ) : MaskProperties F → Poly F .coefficients
  | ⟨.register r, .mask m⟩ => mkPoly .coefficients k ((P r).comp (C m * X)).coeff
  | _ => mkPoly .coefficients k (fun _ => 0)

omit [DecidableEq F] [StarkField F] in
theorem degree_comp_mask {p : F[X]} {n : ℕ} (h : p.degree < n) (m : F) : (p.comp (C m * X)).degree < n := by
  rw [degree_lt_iff_coeff_zero] at h ⊢
  intro i hi
  rw [comp_C_mul_X_coeff, h i hi, zero_mul]

theorem maskedPolynomials_ok (w : Worker) (P : ℕ → F[X]) (k n : ℕ) (masks : List (MaskProperties F))
    (h : ∀ m ∈ masks, ∃ r x, r < n ∧ m = ⟨.register r, .mask x⟩) :
    ∃ subst, maskedPolynomials masks (tab n (fun r => mkPoly .coefficients k (P r).coeff)) w = .ok subst ∧
      ∀ m ∈ masks, assocGet subst m = some (maskedOf P k m) := by
  obtain ⟨s, es, hs, -⟩ := forEach_assoc masks (fun m => m) (fun m => do
      let r ← m.register.num
      let poly ← rd (tab n (fun r => mkPoly .coefficients k (P r).coeff)) r
      evaluateForMask poly w m.stepsDifference) (maskedOf P k)
    (by
      intro m hm
      obtain ⟨r, x, hr, rfl⟩ := h m hm
      simp only [Register.num, Res.ok_bind]
      rw [rd_tab hr]
      simp only [Res.ok_bind, evaluateForMask, distributePowers_mk, maskedOf]
      congr 1
      apply mkPoly_congr
      intro i _
      rw [comp_C_mul_X_coeff]) []
  refine ⟨s, ?_, hs⟩
  rw [← es]
  unfold maskedPolynomials
  congr 1
  funext m acc
  simp only [bind_assoc]

/-! ### Terms -/

theorem applyCoeff_mk (w : Worker) (c : F) (K : ℕ) (a : ℕ → F) :
    applyCoeff w c (mkPoly .values K a) = mkPoly .values K (fun i => c * a i) := by
  unfold applyCoeff
  split
  · split
    · rename_i h; subst h
      rw [negate_mk]; apply mkPoly_congr; intro i _; ring
    · rw [scale_mk]; apply mkPoly_congr; intro i _; ring
  · rename_i h
    rw [not_not.1 h]
    apply mkPoly_congr; intro i _; ring

/-- The cache holds correct tables. -/
def CacheInv (P : ℕ → F[X]) (K : ℕ) (cache : TermCache F) : Prop :=
  ∀ key v, assocGet cache key = some v → ∀ r m, key.mask = ⟨.register r, .mask m⟩ →
    v = mkPoly .values K (fun i => (P r).eval (m * cosetPt F K i) ^ key.power)

/-- A factor reads an existing register under a mask. -/
def FactorOk (n : ℕ) (u : UnivariateTerm F) : Prop :=
  ∃ r m, r < n ∧ u.register = .register r ∧ u.stepsDifference = .mask m

section
variable (w : Worker) {P : ℕ → F[X]} {k f n : ℕ} (hK : k + f ≤ StarkField.S F) (h32 : k < 32)
  (hok : LdeOk w (2 ^ f)) (hP : ∀ r, r < n → (P r).degree < (2 ^ k : ℕ))
include hK h32 hok hP

theorem evaluateUni_ok {u : UnivariateTerm F} {subst : List (MaskProperties F × Poly F .coefficients)}
    {cache : TermCache F} (hu : FactorOk n u)
    (hsub : assocGet subst u.maskProperties = some (maskedOf P k u.maskProperties))
    (hc : CacheInv P (k + f) cache) :
    ∃ cache', evaluateUnivariateTerm u subst cache (2 ^ f) w
      = .ok (mkPoly .values (k + f) (fun i => uniValue (pointEnv P (cosetPt F (k + f) i)) u), cache') ∧
      CacheInv P (k + f) cache' := by
  obtain ⟨r, m, hr, e1, e2⟩ := hu
  have em : u.maskProperties = ⟨.register r, .mask m⟩ := by simp [UnivariateTerm.maskProperties, e1, e2]
  have ev : ∀ i, uniValue (pointEnv P (cosetPt F (k + f) i)) u
      = u.coeff * (P r).eval (m * cosetPt F (k + f) i) ^ u.power := by
    intro i; simp [uniValue, e1, e2, pointEnv]
  rw [em] at hsub
  unfold evaluateUnivariateTerm
  have hp2 : isPow2 (2 ^ f) = true := isPow2_pow f
  rw [em, hsub]
  simp only [hp2, Res.assert_true, Res.ok_bind, Res.expect_some, maskedOf]
  generalize hkey : (⟨⟨.register r, .mask m⟩, u.power,
    2 ^ f * (mkPoly Form.coefficients k ((P r).comp (C m * X)).coeff).size⟩ : WitnessEvaluationData F) = key
  have hkm : key.mask = ⟨.register r, .mask m⟩ := by rw [← hkey]
  have hkp : key.power = u.power := by rw [← hkey]
  cases hg : assocGet cache key with
  | some e =>
    simp only
    refine ⟨cache, ?_, hc⟩
    rw [hc key e hg r m hkm, applyCoeff_mk, hkp]
    simp only [ev]
    rfl
  | none =>
    simp only [evaluateFresh, hp2, Res.assert_true, Res.ok_bind]
    rw [cosetLde_poly w hK h32 hok (degree_comp_mask (hP r hr) m)]
    simp only [Res.ok_bind, pow_mk, applyCoeff_mk, ev]
    refine ⟨assocInsert cache key (mkPoly .values (k + f) (fun i => (P r).eval (m * cosetPt F (k + f) i) ^ u.power)), ?_, ?_⟩
    · simp only [eval_comp, eval_mul, eval_C, eval_X, cosetPt]
      rfl
    · intro key' v hv r' m' hm'
      rw [assocGet_insert] at hv
      split at hv
      · rename_i he
        subst he
        rw [hkm] at hm'
        simp only [MaskProperties.mk.injEq, Register.register.injEq, StepDifference.mask.injEq] at hm'
        obtain ⟨rfl, rfl⟩ := hm'
        simp only [Option.some.injEq] at hv
        rw [← hv, hkp]
      · exact hc key' v hv r' m' hm'

theorem evaluateFactors_ok {l : List (UnivariateTerm F)} {subst : List (MaskProperties F × Poly F .coefficients)}
    {cache : TermCache F} (hl : ∀ u ∈ l, FactorOk n u ∧ assocGet subst u.maskProperties = some (maskedOf P k u.maskProperties))
    (hc : CacheInv P (k + f) cache) (a : ℕ → F) :
    ∃ cache', forEach l (some (mkPoly .values (k + f) a), cache) (fun t s => do
      let (v, cache) ← evaluateUnivariateTerm t subst s.2 (2 ^ f) w
      let acc ← mulOpt w s.1 v
      pure (acc, cache))
      = .ok (some (mkPoly .values (k + f)
          (fun i => a i * (l.map (uniValue (pointEnv P (cosetPt F (k + f) i)))).prod)), cache') ∧
      CacheInv P (k + f) cache' := by
  induction l generalizing a cache with
  | nil =>
    refine ⟨cache, ?_, hc⟩
    simp [forEach]
  | cons u l ih =>
    obtain ⟨c1, e1, hc1⟩ := evaluateUni_ok w hK h32 hok hP (hl u List.mem_cons_self).1 (hl u List.mem_cons_self).2 hc
    obtain ⟨c2, e2, hc2⟩ := ih (fun v hv => hl v (List.mem_cons_of_mem _ hv)) hc1
      (fun i => a i * uniValue (pointEnv P (cosetPt F (k + f) i)) u)
    refine ⟨c2, ?_, hc2⟩
    simp only [forEach, e1, Res.ok_bind, mulOpt, mulAssign_mk, Res.pure_def] at e2 ⊢
    rw [e2]
    simp only [List.map_cons, List.prod_cons, mul_assoc]

/-- A term the prover can evaluate: its factors are known and a product has at least one factor. -/
def TermOk (n : ℕ) (t : ConstraintTerm F) : Prop :=
  (∀ u ∈ termFactors t, FactorOk n u) ∧ termFactors t ≠ []

theorem evaluateTerm_ok {t : ConstraintTerm F} {subst : List (MaskProperties F × Poly F .coefficients)}
    {cache : TermCache F} (ht : TermOk n t)
    (hsub : ∀ u ∈ termFactors t, assocGet subst u.maskProperties = some (maskedOf P k u.maskProperties))
    (hc : CacheInv P (k + f) cache) :
    ∃ cache', evaluateConstraintTerm t subst cache (2 ^ f) w
      = .ok (mkPoly .values (k + f) (fun i => termValue (pointEnv P (cosetPt F (k + f) i)) t), cache') ∧
      CacheInv P (k + f) cache' := by
  have hp2 : isPow2 (2 ^ f) = true := isPow2_pow f
  cases t with
  | univariate u =>
    obtain ⟨c, e, hc'⟩ := evaluateUni_ok w hK h32 hok hP (ht.1 u (by simp [termFactors])) (hsub u (by simp [termFactors])) hc
    refine ⟨c, ?_, hc'⟩
    simp only [evaluateConstraintTerm, hp2, Res.assert_true, Res.ok_bind, e]
    rfl
  | polyvariate p =>
    obtain ⟨h1, h2⟩ := ht
    simp only [termFactors] at h1 h2 hsub
    obtain ⟨u, l, hp⟩ := List.exists_cons_of_ne_nil h2
    rw [hp] at h1 hsub
    obtain ⟨c1, e1, hc1⟩ := evaluateUni_ok w hK h32 hok hP (h1 u List.mem_cons_self) (hsub u List.mem_cons_self) hc
    obtain ⟨c2, e2, hc2⟩ := evaluateFactors_ok w hK h32 hok hP
      (l := l) (fun v hv => ⟨h1 v (List.mem_cons_of_mem _ hv), hsub v (List.mem_cons_of_mem _ hv)⟩) hc1
      (fun i => uniValue (pointEnv P (cosetPt F (k + f) i)) u)
    refine ⟨c2, ?_, hc2⟩
    simp only [evaluateConstraintTerm, hp2, Res.assert_true, Res.ok_bind, hp, forEach, e1, mulOpt, Res.pure_def] at e2 ⊢
    rw [e2]
    simp only [Res.ok_bind, Res.expect_some, scale_mk, termValue, polyTermValue, hp, List.map_cons, List.prod_cons]
    congr 2
    apply mkPoly_congr
    intro i _; ring

theorem evaluateTerms_ok {l : List (ConstraintTerm F)} {subst : List (MaskProperties F × Poly F .coefficients)}
    {cache : TermCache F} (hl : ∀ t ∈ l, TermOk n t ∧
      ∀ u ∈ termFactors t, assocGet subst u.maskProperties = some (maskedOf P k u.maskProperties))
    (hc : CacheInv P (k + f) cache) (a : ℕ → F) :
    ∃ cache', forEach l (mkPoly .values (k + f) a, cache) (fun t s => do
      let (sub, cache) ← evaluateConstraintTerm t subst s.2 (2 ^ f) w
      let v ← s.1.addAssignV w sub
      pure (v, cache))
      = .ok (mkPoly .values (k + f)
          (fun i => a i + (l.map (termValue (pointEnv P (cosetPt F (k + f) i)))).sum), cache') ∧
      CacheInv P (k + f) cache' := by
  induction l generalizing a cache with
  | nil =>
    refine ⟨cache, ?_, hc⟩
    simp [forEach]
  | cons t l ih =>
    obtain ⟨c1, e1, hc1⟩ := evaluateTerm_ok w hK h32 hok hP (hl t List.mem_cons_self).1 (hl t List.mem_cons_self).2 hc
    obtain ⟨c2, e2, hc2⟩ := ih (fun v hv => hl v (List.mem_cons_of_mem _ hv)) hc1
      (fun i => a i + termValue (pointEnv P (cosetPt F (k + f) i)) t)
    refine ⟨c2, ?_, hc2⟩
    simp only [forEach, e1, Res.ok_bind, addAssignV_mk, Res.pure_def] at e2 ⊢
    rw [e2]
    simp only [List.map_cons, List.sum_cons, add_assoc]

end

end Hodor

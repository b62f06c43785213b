import Verif.Lemmas.StarkH
import Verif.Props.Fri
import Verif.Lemmas.Valid
import Verif.Lemmas.LdeExact

/-! # Lemmas: the prover does not panic on a runnable instance, whatever the number of CPUs -/

namespace Hodor

open Polynomial Finset Spec

/-- The call does not panic, what it returns satisfies `Q`, and it fails only with errors in `E`. -/
def Safe {α : Type} (E : SynthesisError → Prop) (r : Res α) (Q : α → Prop) : Prop :=
  match r with
  | .ok a => Q a
  | .err e => E e
  | .panic => False

variable {E : SynthesisError → Prop}

theorem Safe.of_ok {α : Type} {r : Res α} {Q : α → Prop} {a : α} (h : r = .ok a) (hq : Q a) : Safe E r Q := by
  rw [h]; exact hq

theorem Safe.bind {α β : Type} {r : Res α} {Q : α → Prop} {f : α → Res β} {R : β → Prop} (h : Safe E r Q)
    (hf : ∀ a, Q a → Safe E (f a) R) : Safe E (r >>= f) R := by
  cases r with
  | ok a => exact hf a h
  | err e => exact h
  | panic => exact h.elim

theorem Safe.ok {α : Type} {r : Res α} {Q : α → Prop} (h : Safe (fun _ => False) r Q) : ∃ a, r = .ok a ∧ Q a := by
  cases r with
  | ok a => exact ⟨a, rfl, h⟩
  | err e => exact h.elim
  | panic => exact h.elim

theorem Safe.forEach {α σ : Type} (I : σ → Prop) {l : List α} {s : σ} {body : α → σ → Res σ} (hs : I s)
    (h : ∀ a ∈ l, ∀ s, I s → Safe E (body a s) I) : Safe E (Hodor.forEach l s body) I := by
  induction l generalizing s with
  | nil => exact hs
  | cons a l ih =>
    exact Safe.bind (h a List.mem_cons_self s hs) (fun s' hs' => ih hs' (fun b hb => h b (List.mem_cons_of_mem _ hb)))

theorem Safe.mapRes {α β : Type} (Q : β → Prop) {l : List α} {f : α → Res β} (h : ∀ a ∈ l, Safe E (f a) Q) :
    Safe E (Hodor.mapRes f l) (fun r => r.length = l.length ∧ ∀ b ∈ r, Q b) := by
  induction l with
  | nil => exact ⟨rfl, by simp⟩
  | cons a l ih =>
    unfold Hodor.mapRes
    refine Safe.bind (h a List.mem_cons_self) (fun b hb => ?_)
    refine Safe.bind (ih (fun c hc => h c (List.mem_cons_of_mem _ hc))) (fun r hr => ?_)
    refine ⟨by simp [hr.1], ?_⟩
    intro c hc
    rcases List.mem_cons.1 hc with rfl | hc
    · exact hb
    · exact hr.2 c hc

variable {F : Type} [Field F] [DecidableEq F] [StarkField F]

/-- A polynomial of size `2^K`. -/
def Shaped {P : Form} (K : ℕ) (p : Poly F P) : Prop := ∃ g, p = mkPoly P K g

/-- Every entry of the cache has size `2^K`. -/
def CacheShape (K : ℕ) (cache : TermCache F) : Prop := ∀ key v, assocGet cache key = some v → Shaped K v

/-- The substituted witness has an entry of size `2^k` for the factor. -/
def SubstHas (k : ℕ) (subst : List (MaskProperties F × Poly F .coefficients)) (u : UnivariateTerm F) : Prop :=
  ∃ q, assocGet subst u.maskProperties = some q ∧ Shaped k q

section
variable (w : Worker) {k f : ℕ} (hK : k + f ≤ StarkField.S F) (h32 : k < 32)
include hK h32

theorem evaluateUni_safe {u : UnivariateTerm F} {subst : List (MaskProperties F × Poly F .coefficients)}
    {cache : TermCache F} (hu : SubstHas k subst u) (hc : CacheShape (k + f) cache) :
    Safe E (evaluateUnivariateTerm u subst cache (2 ^ f) w) (fun r => Shaped (k + f) r.1 ∧ CacheShape (k + f) r.2) := by
  obtain ⟨q, e, g, rfl⟩ := hu
  unfold evaluateUnivariateTerm
  have hp2 : isPow2 (2 ^ f) = true := isPow2_pow f
  rw [e]
  simp only [hp2, Res.assert_true, Res.ok_bind, Res.expect_some]
  split
  · rename_i v hv
    obtain ⟨a, rfl⟩ := hc _ _ hv
    exact ⟨⟨_, applyCoeff_mk w _ _ _⟩, hc⟩
  · simp only [evaluateFresh, hp2, Res.assert_true, Res.ok_bind, cosetLde_exact w hK h32, pow_mk, applyCoeff_mk, Res.pure_def]
    refine ⟨⟨_, rfl⟩, ?_⟩
    intro key v hv
    simp only at hv
    rw [assocGet_insert] at hv
    split at hv
    · cases hv; exact ⟨_, rfl⟩
    · exact hc key v hv

theorem evaluateTerm_safe {t : ConstraintTerm F} {subst : List (MaskProperties F × Poly F .coefficients)}
    {cache : TermCache F} (ht : termFactors t ≠ []) (hsub : ∀ u ∈ termFactors t, SubstHas k subst u)
    (hc : CacheShape (k + f) cache) :
    Safe E (evaluateConstraintTerm t subst cache (2 ^ f) w) (fun r => Shaped (k + f) r.1 ∧ CacheShape (k + f) r.2) := by
  have hp2 : isPow2 (2 ^ f) = true := isPow2_pow f
  cases t with
  | univariate u =>
    simp only [evaluateConstraintTerm, hp2, Res.assert_true, Res.ok_bind]
    exact evaluateUni_safe w hK h32 (hsub u (by simp [termFactors])) hc
  | polyvariate p =>
    simp only [termFactors] at ht hsub
    obtain ⟨u, l, hp⟩ := List.exists_cons_of_ne_nil ht
    rw [hp] at hsub
    simp only [evaluateConstraintTerm, hp2, Res.assert_true, Res.ok_bind, hp]
    refine Safe.bind (Q := fun s : Option (Poly F .values) × TermCache F => (∃ a, s.1 = some a ∧ Shaped (k + f) a) ∧ CacheShape (k + f) s.2) ?_ ?_
    · rw [forEach]
      refine Safe.bind (Q := fun s : Option (Poly F .values) × TermCache F => (∃ a, s.1 = some a ∧ Shaped (k + f) a) ∧ CacheShape (k + f) s.2) ?_ ?_
      · refine Safe.bind (evaluateUni_safe w hK h32 (hsub u List.mem_cons_self) hc) ?_
        rintro ⟨v, c⟩ ⟨h1, h2⟩
        exact ⟨⟨v, rfl, h1⟩, h2⟩
      · intro s hs
        refine Safe.forEach (fun s : Option (Poly F .values) × TermCache F => (∃ a, s.1 = some a ∧ Shaped (k + f) a) ∧ CacheShape (k + f) s.2) hs ?_
        rintro v hv ⟨acc, c⟩ ⟨⟨a, ea, ga, rfl⟩, h2⟩
        simp only at ea
        subst ea
        refine Safe.bind (evaluateUni_safe w hK h32 (hsub v (List.mem_cons_of_mem _ hv)) h2) ?_
        rintro ⟨v, c⟩ ⟨⟨gv, rfl⟩, h3⟩
        simp only [mulOpt, mulAssign_mk, Res.ok_bind, Res.pure_def]
        exact ⟨⟨_, rfl, _, rfl⟩, h3⟩
    · rintro ⟨acc, c⟩ ⟨⟨a, ea, ga, rfl⟩, h2⟩
      simp only at ea
      subst ea
      simp only [Res.expect_some, Res.ok_bind, scale_mk, Res.pure_def]
      exact ⟨⟨_, rfl⟩, h2⟩

end

variable (H : List UInt8 → Digest)

/-- The state of the loops of `calculate_g` holds tables of the right size. -/
def GShape (K : ℕ) (s : GState F) : Prop := Shaped K s.batch ∧ CacheShape K s.cache

section
variable (w : Worker) {k f n : ℕ} (hK : k + f ≤ StarkField.S F) (h32 : k < 32) (hch : ChallengeOk F)
  {ali : AliInstance F} {arp : InstanceProperties F} (hali : AliOk ali arp k (k + f))
  (hD : maxDegree arp.constraints = 2 ^ f)
include hK h32 hch hali hD

theorem gConstraint_safe {subst : List (MaskProperties F × Poly F .coefficients)} {c : Constraint F}
    (ht : ∀ t ∈ c.terms, termFactors t ≠ [] ∧ ∀ u ∈ termFactors t, SubstHas k subst u) (hdeg : c.degree ≤ 2 ^ f)
    {g : Poly F .values} (hg : Shaped (k + f) g) {s : GState F} (hs : GShape (k + f) s) :
    Safe E (gConstraint H ali w subst g c s) (GShape (k + f)) := by
  obtain ⟨⟨b, hb⟩, hc⟩ := hs
  obtain ⟨adj, ea, hadj⟩ := adjust_ok w hK hali.domain hali.coset (2 ^ f - c.degree) (chal F H s.transcript)
    (chal F H (nextT H s.transcript))
  unfold gConstraint
  rw [hali.power, hD, decide_eq_true hdeg]
  simp only [Res.assert_true, Res.ok_bind, getChallenge_ok H hch, ea]
  refine Safe.bind (Q := fun r : Poly F .values × TermCache F => Shaped (k + f) r.1 ∧ CacheShape (k + f) r.2) ?_ ?_
  · refine Safe.forEach (fun r : Poly F .values × TermCache F => Shaped (k + f) r.1 ∧ CacheShape (k + f) r.2) ⟨hg, hc⟩ ?_
    rintro t htm ⟨v, c'⟩ ⟨⟨a, rfl⟩, h2⟩
    refine Safe.bind (evaluateTerm_safe w hK h32 (ht t htm).1 (ht t htm).2 h2) ?_
    rintro ⟨v, c''⟩ ⟨⟨gv, rfl⟩, h3⟩
    simp only [addAssignV_mk, Res.ok_bind, Res.pure_def]
    exact ⟨⟨_, rfl⟩, h3⟩
  · rintro ⟨v, c'⟩ ⟨⟨a, rfl⟩, h2⟩
    simp only [addConstant_mk, hadj, Res.ok_bind, hb, addAssignV_mk, Res.pure_def]
    exact ⟨⟨_, rfl⟩, h2⟩

theorem gBatch_safe {subst : List (MaskProperties F × Poly F .coefficients)} {p : ConstraintDensity × List (Constraint F)}
    (hp : p ∈ batchesOf arp.constraints) (hd : ∃ d, p.1 = .dense d)
    (hcs : ∀ c ∈ p.2, (∀ t ∈ c.terms, termFactors t ≠ [] ∧ ∀ u ∈ termFactors t, SubstHas k subst u) ∧ c.degree ≤ 2 ^ f)
    {s : GState F} (hs : GShape (k + f) s) : Safe E (gBatch H ali w subst p s) (GShape (k + f)) := by
  obtain ⟨d, hd⟩ := hd
  unfold gBatch
  refine Safe.bind (Safe.forEach (GShape (k + f)) hs (fun c hc s' hs' =>
    gConstraint_safe H w hK h32 hch hali hD (hcs c hc).1 (hcs c hc).2 hs.1 hs')) ?_
  rintro ⟨b, c, t⟩ ⟨⟨a, ea⟩, h2⟩
  obtain ⟨⟨a', ea'⟩, -⟩ := hs
  simp only at ea h2
  simp only [hali.divisors p hp d hd, Res.expect_some, Res.ok_bind, ea, ea', mulAssign_mk, addAssignV_mk, Res.pure_def]
  exact ⟨⟨_, rfl⟩, h2⟩

theorem gBoundary_safe {witness : List (Poly F .coefficients)} (hw : witness.length = n) (hws : ∀ p ∈ witness, Shaped k p)
    {b : BoundaryConstraint F} (hb : BoundaryOk n b) (hmem : b ∈ arp.boundaryConstraints) {s : GState F}
    (hs : GShape (k + f) s) : Safe E (gBoundary H ali w witness b s) (GShape (k + f)) := by
  obtain ⟨⟨r, hr, er⟩, v, ev⟩ := hb
  obtain ⟨⟨a, ea⟩, h2⟩ := hs
  obtain ⟨adj, ea', hadj⟩ := adjust_ok w hK hali.domain hali.coset (2 ^ f - 1) (chal F H s.transcript)
    (chal F H (nextT H s.transcript))
  have hr' : r < witness.length := by omega
  obtain ⟨q, hq⟩ := hws witness[r] (List.getElem_mem hr')
  have e1 : rd witness r = .ok (mkPoly .coefficients k q) := by
    unfold rd; rw [List.getElem?_eq_getElem hr', hq]; rfl
  unfold gBoundary
  simp only [getChallenge_ok H hch, Res.ok_bind]
  rw [hali.power, hD, decide_eq_true (Nat.one_le_two_pow), hali.boundary b hmem]
  simp only [Res.assert_true, Res.ok_bind, ea', er, Register.num, e1, ev, Res.expect_some, mkPoly_coeffs,
    rd_tab (Nat.two_pow_pos k), wr_tab (Nat.two_pow_pos k)]
  have e2 : ({ mkPoly .coefficients k q with
      coeffs := tab (2 ^ k) (fun j => if j = 0 then q 0 - v else q j) } : Poly F .coefficients)
      = mkPoly .coefficients k (fun j => if j = 0 then q 0 - v else q j) := rfl
  simp only [e2, cosetLde_exact w hK h32, Res.ok_bind, hadj, mulAssign_mk, ea, addAssignV_mk, Res.pure_def]
  exact ⟨⟨_, rfl⟩, h2⟩

theorem calculateG_safe (hK32 : k + f < 32) (hreg : arp.numRegisters = n)
    (hcs : ∀ c ∈ arp.constraints, ConstraintOk n c ∧ ∃ d, c.density = .dense d)
    (hbs : ∀ b ∈ arp.boundaryConstraints, BoundaryOk n b) (t : Transcript)
    {witness : List (Poly F .coefficients)} (hw : witness.length = n) (hws : ∀ p ∈ witness, Shaped k p) :
    Safe E (ali.calculateG H t witness w) (fun r => Shaped (k + f) r.1) := by
  have hfac : ∀ c ∈ arp.constraints, ∀ u ∈ factors c, FactorOk n u := by
    intro c hc u hu
    obtain ⟨t, ht, hu'⟩ := List.mem_flatMap.1 hu
    exact ((hcs c hc).1 t ht).1 u hu'
  have hmasks : ∀ m ∈ masksOf arp, ∃ r x, r < n ∧ m = ⟨.register r, .mask x⟩ := by
    intro m hm
    rcases (mem_boundaryMasks _ _ _).1 hm with h | ⟨b, hb, rfl⟩
    · rcases (mem_masks _ _ _).1 h with h | ⟨c, hc, u, hu, rfl⟩
      · simp at h
      · obtain ⟨r, x, hr, e1, e2⟩ := hfac c hc u hu
        exact ⟨r, x, hr, by simp [UnivariateTerm.maskProperties, e1, e2]⟩
    · obtain ⟨⟨r, hr, er⟩, -⟩ := hbs b hb
      exact ⟨r, 1, hr, by rw [er]⟩
  have hwt : ∃ P : ℕ → F[X], (∀ r, (P r).degree < (2 ^ k : ℕ)) ∧
      witness = tab n (fun r => mkPoly .coefficients k (P r).coeff) := by
    have : ∀ r, ∃ p : F[X], p.degree < (2 ^ k : ℕ) ∧ ∀ h : r < witness.length, witness[r] = mkPoly .coefficients k p.coeff := by
      intro r
      by_cases h : r < witness.length
      · obtain ⟨q, hq⟩ := hws witness[r] (List.getElem_mem h)
        refine ⟨∑ i ∈ range (2 ^ k), C (q i) * X ^ i, ?_, fun _ => ?_⟩
        · refine (degree_sum_le _ _).trans_lt ?_
          refine (Finset.sup_lt_iff (by exact WithBot.bot_lt_coe _)).2 ?_
          intro i hi
          exact (degree_C_mul_X_pow_le _ _).trans_lt (by exact_mod_cast Finset.mem_range.1 hi)
        · rw [hq]
          apply mkPoly_congr
          intro i hi
          simp only [finset_sum_coeff, coeff_C_mul, coeff_X_pow, mul_ite, mul_one, mul_zero]
          rw [Finset.sum_ite_eq, if_pos (Finset.mem_range.2 hi)]
      · exact ⟨0, by rw [degree_zero]; exact WithBot.bot_lt_coe _, fun h' => (h h').elim⟩
    choose P hP1 hP2 using this
    refine ⟨P, hP1, ?_⟩
    apply List.ext_getElem
    · rw [length_tab, hw]
    · intro i h1 h2
      rw [hP2 i h1]
      simp [tab]
  obtain ⟨P, -, rfl⟩ := hwt
  obtain ⟨subst, es, hsub⟩ := maskedPolynomials_ok w P k n (masksOf arp) hmasks
  have hcov : ∀ c ∈ arp.constraints, ∀ u ∈ factors c, SubstHas k subst u := by
    intro c hc u hu
    refine ⟨_, hsub _ ((mem_boundaryMasks _ _ _).2 (Or.inl ((mem_masks _ _ _).2 (Or.inr ⟨c, hc, u, hu, rfl⟩)))), ?_⟩
    obtain ⟨r, x, hr, e1, e2⟩ := hfac c hc u hu
    simp only [UnivariateTerm.maskProperties, e1, e2, maskedOf]
    exact ⟨_, rfl⟩
  have hnew : (Poly.newForSizeValues (domOf F (k + f)).size : Res (Poly F .values)) = .ok (mkPoly .values (k + f) (fun _ => 0)) :=
    newForSizeValues_pow hK
  unfold AliInstance.calculateG
  rw [hali.props, hali.domain, hali.masks, hali.batches]
  simp only [length_tab, hreg, decide_true, Res.assert_true, Res.ok_bind, hnew, es]
  refine Safe.bind (Safe.forEach (GShape (k + f)) ⟨⟨_, rfl⟩, by intro key v h; simp [assocGet] at h⟩ ?_) ?_
  · intro p hp s hs
    obtain ⟨hne, hmem⟩ := batch_inv arp.constraints [] [] (by simp) p hp
    refine gBatch_safe H w hK h32 hch hali hD hp ?_ ?_ hs
    · obtain ⟨c, hc⟩ := List.exists_mem_of_ne_nil _ hne
      obtain ⟨h2, h3⟩ := hmem c hc
      obtain ⟨d, e⟩ := (hcs c (by simpa using h2)).2
      exact ⟨d, h3.symm.trans e⟩
    · intro c hc
      have hc' : c ∈ arp.constraints := by simpa using (hmem c hc).1
      exact ⟨fun t ht => ⟨((hcs c hc').1 t ht).2, fun u hu => hcov c hc' u (List.mem_flatMap.2 ⟨t, ht, hu⟩)⟩,
        hD ▸ le_maxDegree hc'⟩
  · intro s hs
    refine Safe.bind (Safe.forEach (GShape (k + f)) hs (fun b hb s' hs' =>
      gBoundary_safe H w hK h32 hch hali hD hw hws (hbs b hb) hb hs')) ?_
    rintro ⟨b, c, t'⟩ ⟨⟨a, ea⟩, -⟩
    simp only at ea
    simp only [ea, icosetFft_mk w hK hK32, Res.ok_bind, Res.pure_def]
    exact ⟨_, rfl⟩

end

/-- The cached divisors of `calculate_deep` have the right size. -/
def DivisorsShape (N : ℕ) (D : List (StepDifference F × Poly F .values)) : Prop :=
  ∀ m d, assocGet D m = some d → Shaped N d

theorem inverseLinear_safe (w : Worker) {K : ℕ} (hK : K ≤ StarkField.S F) (h1 : 1 ≤ StarkField.S F) (root : F)
    (hE : root ^ 2 ^ K = 1 → E .error) : Safe E (inverseLinear root (2 ^ K) w) (Shaped K) := by
  rw [inverseLinear_eq w hK h1]
  split
  · rename_i h
    exact hE h
  · exact ⟨_, rfl⟩

theorem deepMask_safe (hch : ChallengeOk F) (w : Worker) {n k N : ℕ} (hN : N ≤ StarkField.S F) (h1 : 1 ≤ StarkField.S F)
    {fPolys : List (Poly F .coefficients)} {fLdes : List (Poly F .values)} (hp : fPolys.length = n) (hl : fLdes.length = n)
    (hls : ∀ l ∈ fLdes, Shaped N l) (z : F) {m : MaskProperties F}
    (hm : ∃ r x, r < n ∧ ((x * z) ^ 2 ^ N = 1 → E .error) ∧ m = ⟨.register r, .mask x⟩) {s : DeepState F} (hs : Shaped N s.h1 ∧ DivisorsShape N s.divisors) :
    Safe E (deepMask H fPolys fLdes (2 ^ N) z w m s) (fun s => Shaped N s.h1 ∧ DivisorsShape N s.divisors) := by
  obtain ⟨r, x, hr, hE, rfl⟩ := hm
  obtain ⟨⟨a, ea⟩, hD⟩ := hs
  have hr1 : r < fPolys.length := by omega
  have hr2 : r < fLdes.length := by omega
  obtain ⟨q, hq⟩ := hls fLdes[r] (List.getElem_mem hr2)
  have e1 : rd fPolys r = .ok fPolys[r] := by unfold rd; rw [List.getElem?_eq_getElem hr1]; rfl
  have e2 : rd fLdes r = .ok (mkPoly .values N q) := by unfold rd; rw [List.getElem?_eq_getElem hr2, hq]; rfl
  unfold deepMask
  simp only [StepDifference.maskOf, Register.num, Res.ok_bind, e1, e2]
  refine Safe.bind (Q := fun r : Poly F .values × List (StepDifference F × Poly F .values) =>
    Shaped N r.1 ∧ DivisorsShape N r.2) ?_ ?_
  · unfold deepDivisor
    split
    · rename_i d hd
      exact ⟨hD _ _ hd, hD⟩
    · refine Safe.bind (inverseLinear_safe w hN h1 _ hE) ?_
      intro d hd
      refine ⟨hd, ?_⟩
      intro m' d' h'
      simp only at h'
      rw [assocGet_insert] at h'
      split at h'
      · cases h'; exact hd
      · exact hD m' d' h'
  · rintro ⟨d, D'⟩ ⟨⟨g, rfl⟩, hD'⟩
    simp only [getChallenge_ok H hch, Res.ok_bind, addConstant_mk, scale_mk, mulAssign_mk, ea, addAssignV_mk, Res.pure_def]
    exact ⟨⟨_, rfl⟩, hD'⟩

theorem calculateDeep_outcome (hch : ChallengeOk F) (w : Worker) {n N M : ℕ} (hNM : N ≤ M) (hM : M ≤ StarkField.S F)
    (h1 : 1 ≤ StarkField.S F) (hn : 0 < n)
    {fPolys : List (Poly F .coefficients)} {fLdes : List (Poly F .values)} (hp : fPolys.length = n) (hl : fLdes.length = n)
    (hls : ∀ l ∈ fLdes, Shaped N l) (gPoly : Poly F .coefficients) {gLde : Poly F .values} (hg : Shaped M gLde)
    {ali : AliInstance F} (hali : ∀ m ∈ ali.allMasks, ∃ r x, r < n ∧ x ^ 2 ^ N = 1 ∧ m = ⟨.register r, .mask x⟩) (t : Transcript) :
    (chal F H t ^ 2 ^ M = 1 → ali.calculateDeep H fPolys fLdes gPoly gLde t w = .err .error) ∧
    (chal F H t ^ 2 ^ M ≠ 1 → ∃ d, ali.calculateDeep H fPolys fLdes gPoly gLde t w = .ok d ∧ Shaped N d.h1 ∧ Shaped M d.h2) := by
  have hN : N ≤ StarkField.S F := hNM.trans hM
  have hr2 : 0 < fLdes.length := by omega
  obtain ⟨q, hq⟩ := hls fLdes[0] (List.getElem_mem hr2)
  have e2 : rd fLdes 0 = .ok (mkPoly .values N q) := by unfold rd; rw [List.getElem?_eq_getElem hr2, hq]; rfl
  obtain ⟨g, rfl⟩ := hg
  unfold AliInstance.calculateDeep
  simp only [getChallenge_ok H hch, Res.ok_bind, e2, mkPoly_size, newForSizeValues_pow hN, inverseLinear_eq w hM h1]
  have loop : ∀ E : SynthesisError → Prop, (chal F H t ^ 2 ^ M = 1 → E .error) →
      Safe E (forEach ali.allMasks ({ h1 := mkPoly .values N (fun _ => 0), fAtZM := [], divisors := [], transcript := nextT H t } : DeepState F)
        (deepMask H fPolys fLdes (2 ^ N) (chal F H t) w)) (fun s : DeepState F => Shaped N s.h1 ∧ DivisorsShape N s.divisors) := by
    intro E hE
    refine Safe.forEach (fun s : DeepState F => Shaped N s.h1 ∧ DivisorsShape N s.divisors)
      ⟨⟨_, rfl⟩, by intro m d h; simp [assocGet] at h⟩ (fun m hm s hs => deepMask_safe H hch w (k := 0) hN h1 hp hl hls _ ?_ hs)
    obtain ⟨r, x, hr, hx, rfl⟩ := hali m hm
    refine ⟨r, x, hr, fun hc => hE ?_, rfl⟩
    rw [mul_pow, hx, one_mul] at hc
    rw [show 2 ^ M = 2 ^ N * 2 ^ (M - N) by rw [← pow_add]; congr 1; omega, pow_mul, hc, one_pow]
  constructor
  · intro hz
    have := loop (fun e => e = .error) (fun _ => rfl)
    generalize forEach ali.allMasks _ _ = r at this ⊢
    rw [if_pos hz]
    cases r with
    | ok s => rfl
    | err e => rw [show e = .error from this]; rfl
    | panic => exact this.elim
  · intro hz
    obtain ⟨s, es, hs, -⟩ := (loop (fun _ => False) hz).ok
    rw [es, Res.ok_bind, if_neg hz]
    simp only [addConstant_mk, mulAssign_mk, Res.ok_bind, Res.pure_def]
    exact ⟨_, rfl, hs, _, rfl⟩

/-- Any table of values is the table of a polynomial. -/
theorem shaped_poly {K : ℕ} (hK : K ≤ StarkField.S F) {p : Poly F .values} (h : Shaped K p) :
    ∃ Q : F[X], Q.degree < (2 ^ K : ℕ) ∧ p = mkPoly .values K (fun i => Q.eval (genOf F K ^ i)) := by
  obtain ⟨g, rfl⟩ := h
  obtain ⟨Q, hQ, hv⟩ := exists_poly_values hK (one_ne_zero (α := F)) g
  refine ⟨Q, hQ, mkPoly_congr (fun i hi => ?_)⟩
  rw [← hv i hi, one_mul]

/-- The part of `prove` after `calculate_deep` (`src/prover/mod.rs` 108-174). -/
def proveEnd (p : Prover F) (fOracles : List IopTree) (fLdes : List (Poly F .values)) (fIopRoots : List Digest)
    (gOracle : IopTree) (gLde : Poly F .values) (gIopRoot : Digest) (deep : DeepResult F) : Res (InstanceProof F) := do
  let w := p.worker
  let proto1 ← friProofByValues H w deep.h1 p.ldeFactor p.friFinalDegreePlusOne
  let proto2 ← friProofByValues H w deep.h2 p.ldeFactor p.friFinalDegreePlusOne
  let h1IopRoots ← proto1.getRoots
  let h2IopRoots ← proto2.getRoots
  let t := commitFinal deep.transcript proto1.finalRoot proto1.finalCoefficients
  let t := commitFinal t proto2.finalRoot proto2.finalCoefficients
  let (b1, t) := t.getChallengeBytes H
  let idx1 ← bytesToChallengeIndex b1 deep.h1.size p.ldeFactor
  let (b2, _) := t.getChallengeBytes H
  let idx2 ← bytesToChallengeIndex b2 deep.h2.size p.ldeFactor
  let proof1 ← proto1.produceProof H deep.h1 idx1
  let proof2 ← proto2.produceProof H deep.h2 idx2
  let fQueries ← mapRes (fun o => o.1.query H idx1 o.2.coeffs) (fOracles.zip fLdes)
  let gQuery ← gOracle.query H idx2 gLde.coeffs
  pure { fAtZM := deep.fAtZM, fIopRoots := fIopRoots, gIopRoot := gIopRoot, fQueries := fQueries,
         gQuery := gQuery, h1IopRoots := h1IopRoots, h2IopRoots := h2IopRoots, friProofH1 := proof1,
         friProofH2 := proof2 }

/-- The words `calculate_deep` hands over have the sizes of the two evaluation domains. -/
def EndShape (p : Prover F) (n k f e o : ℕ) (r : Res (InstanceProof F)) : Prop :=
  p.ldeFactor = 2 ^ e ∧ p.friFinalDegreePlusOne = 2 ^ o ∧ ∃ (Q : ℕ → F[X]) (G Q1 Q2 : F[X]) (fz : List F) (gz : F) (t : Transcript),
    Q1.degree < (2 ^ (k + e) : ℕ) ∧ Q2.degree < (2 ^ (k + f + e) : ℕ) ∧
    r = proveEnd H p (tab n (fun r => friTree H (k + e) (Q r) 0))
      (tab n (fun r => mkPoly .values (k + e) (fun i => (Q r).eval (genOf F (k + e) ^ i))))
      (tab n (fun r => friRoot H (k + e) (Q r) 0)) (friTree H (k + f + e) G 0)
      (mkPoly .values (k + f + e) (fun i => G.eval (genOf F (k + f + e) ^ i))) (friRoot H (k + f + e) G 0)
      ⟨mkPoly .values (k + e) (fun i => Q1.eval (genOf F (k + e) ^ i)),
        mkPoly .values (k + f + e) (fun i => Q2.eval (genOf F (k + f + e) ^ i)), fz, gz, t⟩

/-- `prove` up to `calculate_deep`, step by step. -/
theorem prove_to_deep_any (w : Worker) {inst : InstanceProperties F} {n k f e o : ℕ} (h : Runnable inst n k f)
    (hS : k + f + e ≤ StarkField.S F) (h32 : k + f < 32) (hch : ChallengeOk F) (hcos : (StarkField.mulGen : F) ^ 2 ^ (k + f) ≠ 1)
    {witness : List (List F)} {ps : List (Poly F .coefficients)}
    (hw : calculateWitnessPolys (arpOf inst k) witness w = .ok ps) (hlen : ps.length = n) (hps : ∀ p ∈ ps, Shaped k p) :
    ∃ prover fLdes fTrees fRoots G t gLde gTree gRoot, Prover.new w inst (2 ^ e) (2 ^ o) = .ok prover ∧ prover.arp = arpOf inst k ∧
      mapRes (fun q => q.lde w (2 ^ e)) ps = .ok fLdes ∧ mapRes (fun l : Poly F .values => IopTree.create H w l.coeffs) fLdes = .ok fTrees ∧
      mapRes (fun o : IopTree => o.getRoot) fTrees = .ok fRoots ∧
      prover.ali.calculateG H (fRoots.foldl (fun t r => t.commitBytes r.bytes) ⟨[]⟩) ps w = .ok (G, t) ∧
      G.lde w (2 ^ e) = .ok gLde ∧ IopTree.create H w gLde.coeffs = .ok gTree ∧ gTree.getRoot = .ok gRoot ∧
      (chal F H (t.commitBytes gRoot.bytes) ^ 2 ^ (k + f + e) = 1 → prover.prove H witness = .err .error) ∧
      (chal F H (t.commitBytes gRoot.bytes) ^ 2 ^ (k + f + e) ≠ 1 → EndShape H prover n k f e o (prover.prove H witness)) := by
  have hk1 := h.two_rows
  obtain ⟨ali, e1, hali⟩ := h.fromArp w (by omega) hcos
  obtain ⟨ms, eps, hms⟩ := h.maskPairs (show k ≤ StarkField.S F by omega)
  have hprv : Prover.new w inst (2 ^ e) (2 ^ o) = .ok ⟨arpOf inst k, ali, 2 ^ e, 2 ^ o, w⟩ := by
    unfold Prover.new
    rw [h.fromInstance (by omega), Res.ok_bind, e1, Res.ok_bind, Res.pure_def]
  have hnew : Transcript.new F = .ok ⟨[]⟩ := by
    unfold Transcript.new
    rw [decide_eq_true hch.1]; rfl
  have m1 : ∃ fLdes, mapRes (fun q : Poly F .coefficients => q.lde w (2 ^ e)) ps = .ok fLdes ∧ fLdes.length = ps.length ∧ ∀ l ∈ fLdes, Shaped (k + e) l := by
    refine Safe.ok (Safe.mapRes (Shaped (k + e)) (fun p hp' => ?_))
    obtain ⟨g, rfl⟩ := hps p hp'
    rw [lde_exact w (by omega) (by omega)]
    exact ⟨_, rfl⟩
  obtain ⟨fLdes, m1, hl, hls⟩ := m1
  have hq : ∃ Q : ℕ → F[X], fLdes = tab n (fun r => mkPoly .values (k + e) (fun i => (Q r).eval (genOf F (k + e) ^ i))) := by
    have : ∀ r, ∃ q : F[X], ∀ hr : r < fLdes.length, fLdes[r] = mkPoly .values (k + e) (fun i => q.eval (genOf F (k + e) ^ i)) := by
      intro r
      by_cases hr : r < fLdes.length
      · obtain ⟨q, -, hq⟩ := shaped_poly (by omega) (hls fLdes[r] (List.getElem_mem hr))
        exact ⟨q, fun _ => hq⟩
      · exact ⟨0, fun h' => (hr h').elim⟩
    choose Q hQ using this
    refine ⟨Q, ?_⟩
    apply List.ext_getElem
    · rw [length_tab, hl, hlen]
    · intro i h1 h2
      rw [hQ i h1]
      simp [tab]
  obtain ⟨Q, rfl⟩ := hq
  have m2 : mapRes (fun l : Poly F .values => IopTree.create H w l.coeffs)
      (tab n (fun r => mkPoly .values (k + e) (fun i => (Q r).eval (genOf F (k + e) ^ i))))
      = .ok (tab n (fun r => friTree H (k + e) (Q r) 0)) :=
    mapRes_tab _ _ _ _ (fun i _ => friTree_create H w (k + e) (Q i) (i := 0) (by omega))
  have m3 : mapRes (fun o : IopTree => o.getRoot) (tab n (fun r => friTree H (k + e) (Q r) 0))
      = .ok (tab n (fun r => friRoot H (k + e) (Q r) 0)) :=
    mapRes_tab _ _ _ _ (fun i _ => friTree_root H (k + e) (Q i) (i := 0) (by omega))
  obtain ⟨⟨gPoly, t⟩, hG, g, eg⟩ := (calculateG_safe (E := fun _ => False) H w (by omega) (by omega) hch hali h.maxDeg h32 h.registers
    (fun c hc => ⟨h.constraintOk c hc, by obtain ⟨d, hd, -⟩ := h.dense c hc; exact ⟨d, hd⟩⟩) h.boundary
    ((tab n (fun r => friRoot H (k + e) (Q r) 0)).foldl (fun t r => t.commitBytes r.bytes) ⟨[]⟩) hlen hps).ok
  simp only at eg
  subst eg
  have m4 := lde_exact w (show k + f + e ≤ StarkField.S F from hS) h32 g
  obtain ⟨G, -, eG⟩ := shaped_poly (p := mkPoly .values (k + f + e) (fun idx => evalF (2 ^ (k + f)) g
    (genOf F (k + f + e) ^ ldeExp w e idx))) hS ⟨_, rfl⟩
  rw [eG] at m4
  have m5 : IopTree.create H w (mkPoly .values (k + f + e) (fun i => G.eval (genOf F (k + f + e) ^ i))).coeffs
      = .ok (friTree H (k + f + e) G 0) := friTree_create H w (k + f + e) G (i := 0) (by omega)
  have m6 := friTree_root H (k + f + e) G (i := 0) (by omega)
  obtain ⟨d1, d2⟩ := calculateDeep_outcome H hch w (N := k + e) (M := k + f + e) (by omega) hS (by omega) h.pos hlen
    (length_tab _ _) (fun l hl' => hls l hl') (mkPoly .coefficients (k + f) g) (gLde := mkPoly .values (k + f + e) (fun i => G.eval (genOf F (k + f + e) ^ i)))
    ⟨_, rfl⟩ (ali := ali) (by
      intro m hm
      rw [hali.masks, eps] at hm
      obtain ⟨p, hp', rfl⟩ := List.mem_map.1 hm
      refine ⟨p.1, p.2, (hms p hp').1, ?_, rfl⟩
      rw [pow_add, pow_mul, (hms p hp').2, one_pow]) (t.commitBytes (friRoot H (k + f + e) G 0).bytes)
  refine ⟨_, _, _, _, _, _, _, _, _, hprv, rfl, m1, m2, m3, hG, m4, m5, m6, ?_, ?_⟩
  · intro hz
    unfold Prover.prove
    simp only [hnew, Res.ok_bind, hw, m1, m2, m3, hG, m4, m5, m6, d1 hz]
    rfl
  · intro hz
    obtain ⟨⟨h1, h2, fz, gz, t'⟩, ed, hh1, hh2⟩ := d2 hz
    simp only at hh1 hh2
    obtain ⟨Q1, q1, rfl⟩ := shaped_poly (by omega) hh1
    obtain ⟨Q2, q2, rfl⟩ := shaped_poly (by omega) hh2
    unfold Prover.prove
    simp only [hnew, Res.ok_bind, hw, m1, m2, m3, hG, m4, m5, m6, ed]
    exact ⟨rfl, rfl, Q, G, Q1, Q2, fz, gz, t', q1, q2, rfl⟩

/-- The same for the parameters of a prover. -/
theorem prove_to_deep (w : Worker) {inst : InstanceProperties F} {n k f e o : ℕ} (h : Runnable inst n k f)
    (hp : ProverParams F k f e o) {witness : List (List F)} {ps : List (Poly F .coefficients)}
    (hw : calculateWitnessPolys (arpOf inst k) witness w = .ok ps) (hlen : ps.length = n) (hps : ∀ p ∈ ps, Shaped k p) :
    ∃ prover fLdes fTrees fRoots G t gLde gTree gRoot, Prover.new w inst (2 ^ e) (2 ^ o) = .ok prover ∧ prover.arp = arpOf inst k ∧
      mapRes (fun q => q.lde w (2 ^ e)) ps = .ok fLdes ∧ mapRes (fun l : Poly F .values => IopTree.create H w l.coeffs) fLdes = .ok fTrees ∧
      mapRes (fun o : IopTree => o.getRoot) fTrees = .ok fRoots ∧
      prover.ali.calculateG H (fRoots.foldl (fun t r => t.commitBytes r.bytes) ⟨[]⟩) ps w = .ok (G, t) ∧
      G.lde w (2 ^ e) = .ok gLde ∧ IopTree.create H w gLde.coeffs = .ok gTree ∧ gTree.getRoot = .ok gRoot ∧
      (chal F H (t.commitBytes gRoot.bytes) ^ 2 ^ (k + f + e) = 1 → prover.prove H witness = .err .error) ∧
      (chal F H (t.commitBytes gRoot.bytes) ^ 2 ^ (k + f + e) ≠ 1 → EndShape H prover n k f e o (prover.prove H witness)) :=
  prove_to_deep_any H w h hp.size hp.size32 hp.challenge hp.coset hw hlen hps

/-- The challenge index is a position of the word. -/
theorem challenge_index_lt {b : List UInt8} {s f : ℕ} (hb : 8 ≤ b.length) (hs : 0 < s) (hf : 0 < f) :
    ∃ idx, bytesToChallengeIndex b s f = .ok idx ∧ idx < s := by
  unfold bytesToChallengeIndex
  simp only [hb, hs, hf, decide_true, Res.assert_true, Res.ok_bind, Res.pure_def]
  refine ⟨_, rfl, ?_⟩
  split_ifs <;> exact Nat.mod_lt _ hs

theorem proveEnd_ok {prover : Prover F} {n k f e o : ℕ} {r : Res (InstanceProof F)} (hS : k + f + e ≤ StarkField.S F)
    (hch : ChallengeOk F) (hfac : 1 ≤ e + o) (h32' : e + o < 32) (hout : o < k) (hr : EndShape H prover n k f e o r) :
    ∃ proof, r = .ok proof := by
  obtain ⟨ef, eo, Q, G, Q1, Q2, fz, gz, t', q1, q2, rfl⟩ := hr
  obtain ⟨arp, ali, lf, ff, w⟩ := prover
  simp only at ef eo
  subst ef eo
  unfold proveEnd
  have p1 := friProofByValues_eq H hch w (n := k + e) (f := e) (o := o) (by omega) (by omega) (by omega) h32' q1
  have p2 := friProofByValues_eq H hch w (n := k + f + e) (f := e) (o := o) (by omega) (by omega) (by omega) h32' q2
  have r1 := getRoots_honest H (n := k + e) (f := e) (o := o) (by omega) (by omega) Q1
  have r2 := getRoots_honest H (n := k + f + e) (f := e) (o := o) (by omega) (by omega) Q2
  unfold friVals at p1 p2
  simp only [p1, p2, r1, r2, Res.ok_bind, mkPoly_size, Transcript.getChallengeBytes]
  generalize commitFinal (commitFinal t' (honestPrototype H (k + e) e o Q1).finalRoot
    (honestPrototype H (k + e) e o Q1).finalCoefficients) (honestPrototype H (k + f + e) e o Q2).finalRoot
    (honestPrototype H (k + f + e) e o Q2).finalCoefficients = t3
  obtain ⟨idx1, i1, i1l⟩ := challenge_index_lt (b := (H t3.absorbed).bytes) (s := 2 ^ (k + e)) (f := 2 ^ e)
    (by rw [(H _).len]; norm_num) (by positivity) (by positivity)
  rw [i1]
  simp only [Res.ok_bind]
  obtain ⟨idx2, i2, i2l⟩ := challenge_index_lt (b := (H (t3.absorbed ++ (H t3.absorbed).bytes)).bytes) (s := 2 ^ (k + f + e)) (f := 2 ^ e)
    (by rw [(H _).len]; norm_num) (by positivity) (by positivity)
  have s1 := produceProof_honest H (n := k + e) (f := e) (o := o) (by omega) (by omega) (p := Q1) i1l
  have s2 := produceProof_honest H (n := k + f + e) (f := e) (o := o) (by omega) (by omega) (p := Q2) i2l
  have u1 : mapRes (fun o : IopTree × Poly F .values => o.1.query H idx1 o.2.coeffs)
      ((tab n (fun r => friTree H (k + e) (Q r) 0)).zip
        (tab n (fun r => mkPoly .values (k + e) (fun i => (Q r).eval (genOf F (k + e) ^ i)))))
      = .ok (tab n (fun r => friQuery H (k + e) (Q r) 0 idx1)) := by
    rw [zip_tab, min_self]
    exact mapRes_tab _ _ _ _ (fun i _ => friTree_query H (k + e) (Q i) (i := 0) (by omega) i1l)
  have u2 : (friTree H (k + f + e) G 0).query H idx2 (mkPoly .values (k + f + e) (fun i => G.eval (genOf F (k + f + e) ^ i))).coeffs
      = .ok (friQuery H (k + f + e) G 0 idx2) := friTree_query H (k + f + e) G (i := 0) (by omega) i2l
  unfold friVals at s1 s2
  erw [i2]
  simp only [s1, s2, u1, u2, Res.ok_bind, Res.pure_def]
  exact ⟨_, rfl⟩

theorem proveEnd_no_steps {prover : Prover F} {n k f e o : ℕ} {r : Res (InstanceProof F)} (hS : k + f + e ≤ StarkField.S F)
    (hch : ChallengeOk F) (hout : k ≤ o) (hr : EndShape H prover n k f e o r) : r = .panic := by
  obtain ⟨ef, eo, Q, G, Q1, Q2, fz, gz, t', q1, q2, rfl⟩ := hr
  unfold proveEnd
  simp only [ef, eo]
  rw [C24_no_steps_panics H prover.worker _ (valid_mkPoly _ (by omega) _) (k + e) e o (by simp) (by omega) hch]
  rfl

theorem proveEnd_single_point {prover : Prover F} {n k f : ℕ} {r : Res (InstanceProof F)} (hS : k + f + 0 ≤ StarkField.S F)
    (hch : ChallengeOk F) (hr : EndShape H prover n k f 0 0 r) : r = .panic := by
  obtain ⟨ef, eo, Q, G, Q1, Q2, fz, gz, t', q1, q2, rfl⟩ := hr
  unfold proveEnd
  simp only [ef, eo, pow_zero]
  rw [C24_single_point_panics H prover.worker _ (valid_mkPoly _ (by omega) _) (k + 0) (by simp) hch]
  rfl

end Hodor

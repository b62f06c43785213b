import Verif.Lemmas.StarkHV
import Verif.Spec.Verify

/-! # The verifier on arbitrary proofs -/

namespace Hodor

open Finset Spec

variable {F : Type} [Field F] [DecidableEq F]

theorem assocGet_eq_lookup {κ α : Type} [DecidableEq κ] (m : List (κ × α)) (k : κ) : assocGet m k = m.lookup k := by
  induction m with
  | nil => rfl
  | cons x m ih =>
    obtain ⟨k', v⟩ := x
    rw [assocGet, List.lookup_cons]
    by_cases h : k' = k
    · subst h; simp
    · rw [if_neg h, ih]
      have : (k == k') = false := by simpa using fun e => h e.symm
      rw [this]

theorem lookup_eq_none_of {κ α : Type} [DecidableEq κ] {m : List (κ × α)} {k : κ} (h : ∀ x ∈ m, x.1 ≠ k) :
    m.lookup k = none := by
  induction m with
  | nil => rfl
  | cons x m ih =>
    obtain ⟨k', v⟩ := x
    have h1 := h (k', v) List.mem_cons_self
    have : (k == k') = false := by simpa using fun e => h1 e.symm
    rw [List.lookup_cons, this]
    exact ih (fun y hy => h y (List.mem_cons_of_mem _ hy))

theorem map_fst_zip_take {α β : Type} (l : List α) (l' : List β) : (l.zip l').map Prod.fst = l.take l'.length := by
  induction l generalizing l' with
  | nil => simp
  | cons a l ih =>
    cases l' with
    | nil => simp
    | cons b l' => simp [ih]

/-- The table of the claimed values, exactly. -/
theorem zValues_exact (n : ℕ) (l : List (MaskProperties F × F)) (hnd : (l.map Prod.fst).Nodup)
    (h : ∀ x ∈ l, ∃ r m, r < n ∧ x.1 = ⟨.register r, .mask m⟩) (vs : ZValues F) (hl : vs.length = n) :
    ∃ vs', forEach l vs (fun x values => do
        let _ ← x.1.stepsDifference.maskOf
        let r ← x.1.register.num
        let m ← rd values r
        wr values r (assocInsert m x.1.stepsDifference x.2)) = .ok vs' ∧ vs'.length = n ∧
      ∀ r, r < n → ∃ row row', vs[r]? = some row ∧ vs'[r]? = some row' ∧ ∀ s, assocGet row' s =
        (l.lookup ⟨.register r, s⟩).or (assocGet row s) := by
  induction l generalizing vs with
  | nil =>
    refine ⟨vs, rfl, hl, ?_⟩
    intro r hr
    have hr' : r < vs.length := by omega
    exact ⟨vs[r], vs[r], List.getElem?_eq_getElem hr', List.getElem?_eq_getElem hr', fun s => by simp⟩
  | cons x l ih =>
    obtain ⟨r0, m0, hr0, e0⟩ := h x List.mem_cons_self
    obtain ⟨x1, y⟩ := x
    simp only at e0
    subst e0
    have hr' : r0 < vs.length := by omega
    rw [List.map_cons, List.nodup_cons] at hnd
    obtain ⟨vs', e, hl', hv⟩ := ih hnd.2 (fun a ha => h a (List.mem_cons_of_mem _ ha))
      (vs.set r0 (assocInsert vs[r0] (.mask m0) y)) (by rw [List.length_set]; exact hl)
    refine ⟨vs', ?_, hl', ?_⟩
    · simp only [forEach, StepDifference.maskOf, Register.num, Res.ok_bind]
      have e1 : rd vs r0 = .ok vs[r0] := by simp [rd, hr', Res.expect]
      have e2 : wr vs r0 (assocInsert vs[r0] (.mask m0) y) = .ok (vs.set r0 (assocInsert vs[r0] (.mask m0) y)) := by
        simp [wr, hr']
      rw [e1]
      simp only [Res.ok_bind]
      rw [e2]
      exact e
    · intro r hr
      obtain ⟨row, row', h1, h2, h3⟩ := hv r hr
      have hrl : r < vs.length := by omega
      refine ⟨vs[r], row', List.getElem?_eq_getElem hrl, h2, ?_⟩
      intro s
      rw [h3, List.lookup_cons]
      by_cases hrr : r = r0
      · subst hrr
        rw [List.getElem?_set_self hr'] at h1
        cases h1
        rw [assocGet_insert]
        by_cases hs : StepDifference.mask m0 = s
        · subst hs
          have hnone : l.lookup (⟨.register r, .mask m0⟩ : MaskProperties F) = none :=
            lookup_eq_none_of (fun a ha e' => hnd.1 (List.mem_map.2 ⟨a, ha, e'⟩))
          simp [hnone]
        · have : ((⟨.register r, s⟩ : MaskProperties F) == ⟨.register r, .mask m0⟩) = false := by
            simpa using fun e => hs e.symm
          rw [if_neg hs, this]
      · rw [List.getElem?_set_ne (by omega)] at h1
        rw [List.getElem?_eq_getElem hrl] at h1
        cases h1
        have : ((⟨.register r, s⟩ : MaskProperties F) == ⟨.register r0, .mask m0⟩) = false := by
          simp [hrr]
        rw [this]

/-- The rows of a table give the claimed values. -/
def TableE (n : ℕ) (claims : List (MaskProperties F × F)) (vs : ZValues F) : Prop :=
  ∀ r, r < n → ∃ row, vs[r]? = some row ∧ ∀ s, assocGet row s = claims.lookup ⟨.register r, s⟩

theorem zValues_table {masks : List (MaskProperties F)} {n : ℕ} (hnd : masks.Nodup)
    (h : ∀ m ∈ masks, ∃ r x, r < n ∧ m = ⟨.register r, .mask x⟩) (y : List F) :
    ∃ vs, zValues masks n y = .ok vs ∧ TableE n (masks.zip y) vs := by
  obtain ⟨vs, e, hl, hv⟩ := zValues_exact n (masks.zip y)
    (by rw [map_fst_zip_take]; exact hnd.sublist (List.take_sublist _ _))
    (fun x hx => h _ (List.of_mem_zip hx).1) (List.replicate n []) (by simp)
  refine ⟨vs, e, ?_⟩
  intro r hr
  obtain ⟨row, row', h1, h2, h3⟩ := hv r hr
  refine ⟨row', h2, ?_⟩
  intro s
  rw [h3]
  simp only [List.getElem?_replicate, hr, if_true, Option.some.injEq] at h1
  subst h1
  simp [assocGet]

variable {n : ℕ}

theorem evaluateUni_claim {claims : List (MaskProperties F × F)} {vs : ZValues F} (h : TableE n claims vs)
    {u : UnivariateTerm F} (hu : FactorOk n u) :
    evaluateUnivariateAtZ u vs = match claims.lookup u.maskProperties with
      | some v => .ok (v ^ u.power * u.coeff)
      | none => .err .unsatisfied := by
  obtain ⟨r, x, hr, e1, e2⟩ := hu
  have em : u.maskProperties = ⟨.register r, .mask x⟩ := by simp [UnivariateTerm.maskProperties, e1, e2]
  obtain ⟨row, h1, h2⟩ := h r hr
  unfold evaluateUnivariateAtZ
  simp only [e1, e2, Register.num, Res.ok_bind, Res.pure_def, rd, h1, Res.expect_some, h2, em]
  cases claims.lookup (⟨.register r, .mask x⟩ : MaskProperties F) <;> rfl

/-- All factors are claimed. -/
def Claimed (claims : List (MaskProperties F × F)) (c : Constraint F) : Prop :=
  ∀ u ∈ factors c, (claims.lookup u.maskProperties).isSome

/-- The environment of a list of claims. -/
def claimsEnv (claims : List (MaskProperties F × F)) : Env F := fun r s => (claims.lookup ⟨r, s⟩).getD 0

theorem forEach_mem_ok {α σ : Type} {l : List α} {s t : σ} {body : α → σ → Res σ} (h : forEach l s body = .ok t) :
    ∀ a ∈ l, ∃ s1 s2, body a s1 = .ok s2 := by
  induction l generalizing s with
  | nil => simp
  | cons x l ih =>
    obtain ⟨s1, h1, h2⟩ := forEach_eq_ok_cons.1 h
    intro a ha
    rcases List.mem_cons.1 ha with rfl | ha
    · exact ⟨s, s1, h1⟩
    · exact ih h2 a ha

theorem evaluateConstraint_claimed {claims : List (MaskProperties F × F)} {vs : ZValues F} (h : TableE n claims vs)
    {c : Constraint F} (hc : ∀ u ∈ factors c, FactorOk n u) (hm : Claimed claims c) :
    evaluateConstraintAtZ c vs = .ok (constraintValue (claimsEnv claims) c) := by
  have hu : ∀ u ∈ factors c, evaluateUnivariateAtZ u vs = .ok (uniValue (claimsEnv claims) u) := by
    intro u hu
    rw [evaluateUni_claim h (hc u hu)]
    have := hm u hu
    unfold uniValue claimsEnv
    unfold UnivariateTerm.maskProperties at this ⊢
    cases e : claims.lookup (⟨u.register, u.stepsDifference⟩ : MaskProperties F) with
    | none => rw [e] at this; cases this
    | some v => simp [mul_comm]
  have ht : ∀ t ∈ c.terms, evaluateTermAtZ vs t = .ok (termValue (claimsEnv claims) t) := by
    intro t ht
    have hfac : ∀ u ∈ termFactors t, evaluateUnivariateAtZ u vs = .ok (uniValue (claimsEnv claims) u) :=
      fun u hu' => hu u (List.mem_flatMap.2 ⟨t, ht, hu'⟩)
    cases t with
    | univariate u => exact hfac u (by simp [termFactors])
    | polyvariate p =>
      simp only [termFactors] at hfac
      simp only [evaluateTermAtZ, termValue, polyTermValue]
      have : ∀ (l : List (UnivariateTerm F)) (a : F),
          (∀ u ∈ l, evaluateUnivariateAtZ u vs = .ok (uniValue (claimsEnv claims) u)) →
          forEach l a (fun t r => do let v ← evaluateUnivariateAtZ t vs; pure (r * v))
            = .ok (a * (l.map (uniValue (claimsEnv claims))).prod) := by
        intro l
        induction l with
        | nil => intro a _; simp [forEach]
        | cons u l ih =>
          intro a hl
          simp only [forEach, hl u List.mem_cons_self, Res.ok_bind]
          refine (ih _ (fun u' hu' => hl u' (List.mem_cons_of_mem _ hu'))).trans ?_
          simp [mul_assoc]
      rw [this p.terms 1 hfac]
      simp only [Res.ok_bind, Res.pure_def, one_mul]
      rw [mul_comm]
  unfold evaluateConstraintAtZ constraintValue
  revert ht
  generalize c.constantTerm = a
  generalize c.terms = l
  intro ht
  induction l generalizing a with
  | nil => simp [forEach]
  | cons t l ih =>
    simp only [forEach, ht t List.mem_cons_self, Res.ok_bind]
    refine (ih _ (fun t' ht' => ht t' (List.mem_cons_of_mem _ ht'))).trans ?_
    simp [add_assoc]

theorem claimed_of_ok {claims : List (MaskProperties F × F)} {vs : ZValues F} (h : TableE n claims vs)
    {c : Constraint F} (hc : ∀ u ∈ factors c, FactorOk n u) {x : F} (e : evaluateConstraintAtZ c vs = .ok x) :
    Claimed claims c := by
  intro u hu
  obtain ⟨t, ht, hu'⟩ := List.mem_flatMap.1 hu
  unfold evaluateConstraintAtZ at e
  obtain ⟨s1, s2, e1⟩ := forEach_mem_ok e t ht
  obtain ⟨b, e2, -⟩ := Res.bind_eq_ok.1 e1
  have : ∃ y, evaluateUnivariateAtZ u vs = .ok y := by
    cases t with
    | univariate t =>
      simp only [termFactors, List.mem_singleton] at hu'
      subst hu'
      exact ⟨b, e2⟩
    | polyvariate p =>
      simp only [evaluateTermAtZ] at e2
      obtain ⟨b1, e3, -⟩ := Res.bind_eq_ok.1 e2
      obtain ⟨s3, s4, e4⟩ := forEach_mem_ok e3 u hu'
      obtain ⟨b2, e5, -⟩ := Res.bind_eq_ok.1 e4
      exact ⟨b2, e5⟩
  obtain ⟨y, ey⟩ := this
  rw [evaluateUni_claim h (hc u hu)] at ey
  cases e : claims.lookup u.maskProperties with
  | none => rw [e] at ey; cases ey
  | some v => rfl

/-! ### Composition at `z` -/

section
variable [StarkField F]

/-- The part of the composition that belongs to the constraints. -/
def constraintPart (g : F) (numRows D : ℕ) (e : Env F) (cs : List (Constraint F × F × F)) (x : F) : F :=
  (cs.map (fun c => constraintValue e c.1 * weightAt (D - c.1.degree) c.2 x / divisorAt g numRows c.1 x)).sum

theorem vBatch_ok {claims : List (MaskProperties F × F)} {vs : ZValues F} (ht : TableE n claims vs) {D numRows : ℕ}
    {g z inv : F} (cs : List (Constraint F)) (hc : ∀ c ∈ cs, (∀ u ∈ factors c, FactorOk n u) ∧ c.degree ≤ D ∧
      Claimed claims c ∧ inv = (divisorAt g numRows c z)⁻¹) (a : F) (cc rest : List (F × F)) (hl : cc.length = cs.length) :
    forEach cs (a, cc ++ rest) (gConstraintAtZ D z inv vs) =
      .ok (a + constraintPart g numRows D (claimsEnv claims) (cs.zip cc) z, rest) := by
  induction cs generalizing a cc with
  | nil =>
    have : cc = [] := by simpa using hl
    simp [this, forEach, constraintPart]
  | cons c cs ih =>
    obtain ⟨ab, cc', rfl⟩ : ∃ ab cc', cc = ab :: cc' := by
      cases cc with
      | nil => simp at hl
      | cons a b => exact ⟨a, b, rfl⟩
    obtain ⟨h1, h2, h3, h4⟩ := hc c List.mem_cons_self
    have e : gConstraintAtZ D z inv vs c (a, (ab :: cc') ++ rest) = .ok (a + constraintValue (claimsEnv claims) c *
        weightAt (D - c.degree) ab z / divisorAt g numRows c z, cc' ++ rest) := by
      unfold gConstraintAtZ
      simp only [decide_eq_true h2, Res.assert_true, Res.ok_bind, List.cons_append, List.head?_cons, Res.expect_some,
        evaluateConstraint_claimed ht h1 h3, applyAdjustmentAt_eq, Res.pure_def, List.tail_cons, h4, div_eq_mul_inv]
    simp only [forEach, e, Res.ok_bind]
    rw [ih (fun c' hc' => hc c' (List.mem_cons_of_mem _ hc')) _ _ (by simpa using hl)]
    simp [add_assoc, constraintPart]

theorem densityDivisor_iff {d : DenseConstraint} {numRows k : ℕ} (hk : k ≤ StarkField.S F)
    (hd : DensityFits d numRows (2 ^ k)) {z inv : F} :
    densityDivisorAt z (domOf F k) numRows (.dense d) = .ok inv ↔
      z ^ 2 ^ k ≠ 1 ∧ inv = (zerofierAt (genOf F k) (enforcedRows d numRows) z)⁻¹ := by
  by_cases hz : z ^ 2 ^ k = 1
  · have : inverse (z ^ (domOf F k).size - 1) = none := inverse_eq_none.2 (sub_eq_zero.2 hz)
    have hdd : divisorDegree (domOf F k).size numRows d = .ok _ := divisorDegree_ok hd
    simp only [densityDivisorAt, inverseDivisorAt, hdd, Res.ok_bind, this, hz]
    constructor
    · intro h; cases h
    · rintro ⟨h, -⟩; exact absurd rfl h
  · rw [densityDivisorAt, inverseDivisorAt_ok hk hd hz]
    constructor
    · intro h; cases h; exact ⟨hz, rfl⟩
    · rintro ⟨-, h⟩; rw [h]

theorem vBatches_ok {claims : List (MaskProperties F × F)} {vs : ZValues F} (ht : TableE n claims vs) {D numRows k : ℕ}
    (hk : k ≤ StarkField.S F) {z : F} (hz : z ^ 2 ^ k ≠ 1)
    (bats : List (ConstraintDensity × List (Constraint F)))
    (hb : ∀ b ∈ bats, ∃ d, b.1 = .dense d ∧ DensityFits d numRows (2 ^ k) ∧ ∀ c ∈ b.2, c.density = .dense d ∧
      (∀ u ∈ factors c, FactorOk n u) ∧ c.degree ≤ D ∧ Claimed claims c)
    (a : F) (cc : List (F × F)) (hl : cc.length = (bats.flatMap (fun b => b.2)).length) :
    forEach bats (a, cc) (fun b s => do
        let inv ← densityDivisorAt z (domOf F k) numRows b.1
        forEach b.2 s (gConstraintAtZ D z inv vs)) =
      .ok (a + constraintPart (genOf F k) numRows D (claimsEnv claims) ((bats.flatMap (fun b => b.2)).zip cc) z, []) := by
  induction bats generalizing a cc with
  | nil =>
    have : cc = [] := by simpa using hl
    simp [this, forEach, constraintPart]
  | cons b bats ih =>
    obtain ⟨d, e1, hd, hc⟩ := hb b List.mem_cons_self
    rw [List.flatMap_cons, List.length_append] at hl
    have l1 : (cc.take b.2.length).length = b.2.length := by rw [List.length_take]; omega
    have l2 : (cc.drop b.2.length).length = (bats.flatMap (fun b => b.2)).length := by rw [List.length_drop]; omega
    have e2 : densityDivisorAt z (domOf F k) numRows b.1 = .ok (zerofierAt (genOf F k) (enforcedRows d numRows) z)⁻¹ := by
      rw [e1]; exact (densityDivisor_iff hk hd).2 ⟨hz, rfl⟩
    have e3 := vBatch_ok ht (g := genOf F k) (numRows := numRows) (D := D) (z := z)
      (inv := (zerofierAt (genOf F k) (enforcedRows d numRows) z)⁻¹) b.2 (by
        intro c hcc
        obtain ⟨h1, h2, h3, h4⟩ := hc c hcc
        exact ⟨h2, h3, h4, by simp only [divisorAt, h1]⟩) a (cc.take b.2.length) (cc.drop b.2.length) l1
    rw [List.take_append_drop] at e3
    simp only [forEach, e2, Res.ok_bind, e3]
    rw [ih (fun b' hb' => hb b' (List.mem_cons_of_mem _ hb')) _ _ l2, List.flatMap_cons]
    congr 2
    rw [add_assoc]
    congr 1
    conv_rhs => rw [← List.take_append_drop b.2.length cc, List.zip_append l1.symm]
    simp [constraintPart]

theorem vBatches_inv {claims : List (MaskProperties F × F)} {vs : ZValues F} (ht : TableE n claims vs) {D numRows k : ℕ}
    (hk : k ≤ StarkField.S F) {z : F} {bats : List (ConstraintDensity × List (Constraint F))}
    (hb : ∀ b ∈ bats, ∃ d, b.1 = .dense d ∧ DensityFits d numRows (2 ^ k) ∧ ∀ c ∈ b.2, ∀ u ∈ factors c, FactorOk n u)
    {s s' : F × List (F × F)} (h : forEach bats s (fun b s => do
        let inv ← densityDivisorAt z (domOf F k) numRows b.1
        forEach b.2 s (gConstraintAtZ D z inv vs)) = .ok s') :
    (bats ≠ [] → z ^ 2 ^ k ≠ 1) ∧ ∀ b ∈ bats, ∀ c ∈ b.2, Claimed claims c := by
  have key := forEach_mem_ok h
  constructor
  · intro hne
    obtain ⟨b, hbm⟩ := List.exists_mem_of_ne_nil _ hne
    obtain ⟨d, e1, hd, -⟩ := hb b hbm
    obtain ⟨s1, s2, e2⟩ := key b hbm
    obtain ⟨inv, e3, -⟩ := Res.bind_eq_ok.1 e2
    rw [e1] at e3
    exact ((densityDivisor_iff hk hd).1 e3).1
  · intro b hbm c hc
    obtain ⟨d, e1, hd, hf⟩ := hb b hbm
    obtain ⟨s1, s2, e2⟩ := key b hbm
    obtain ⟨inv, e3, e4⟩ := Res.bind_eq_ok.1 e2
    obtain ⟨s3, s4, e5⟩ := forEach_mem_ok e4 c hc
    unfold gConstraintAtZ at e5
    obtain ⟨_, -, e6⟩ := Res.bind_eq_ok.1 e5
    obtain ⟨_, -, e7⟩ := Res.bind_eq_ok.1 e6
    obtain ⟨x, e8, -⟩ := Res.bind_eq_ok.1 e7
    exact claimed_of_ok ht (hf c hc) e8

/-- The part of the composition that belongs to the boundary constraints. -/
def boundaryPart (g : F) (D : ℕ) (e : Env F) (bs : List (BoundaryConstraint F × F × F)) (x : F) : F :=
  (bs.map (fun b => (e b.1.register (.mask 1) - b.1.value.getD 0) * weightAt (D - 1) b.2 x / (x - g ^ b.1.atRow))).sum

theorem vBoundaries_ok {claims : List (MaskProperties F × F)} {vs : ZValues F} (ht : TableE n claims vs) {D k : ℕ}
    {z : F} (bs : List (BoundaryConstraint F)) (hD : bs ≠ [] → 1 ≤ D)
    (hb : ∀ b ∈ bs, BoundaryOk n b ∧ (claims.lookup ⟨b.register, .mask 1⟩).isSome ∧ z ≠ genOf F k ^ b.atRow)
    (a : F) (bc : List (F × F)) (hl : bc.length = bs.length) :
    forEach bs (a, bc) (gBoundaryAtZ D z (domOf F k) vs) =
      .ok (a + boundaryPart (genOf F k) D (claimsEnv claims) (bs.zip bc) z, []) := by
  induction bs generalizing a bc with
  | nil =>
    have : bc = [] := by simpa using hl
    simp [this, forEach, boundaryPart]
  | cons b bs ih =>
    obtain ⟨ab, bc', rfl⟩ : ∃ ab bc', bc = ab :: bc' := by
      cases bc with
      | nil => simp at hl
      | cons a b => exact ⟨a, b, rfl⟩
    have hD := hD (by simp)
    obtain ⟨⟨⟨r, hr, er⟩, v, ev⟩, hm, hne⟩ := hb b List.mem_cons_self
    obtain ⟨row, h1, h2⟩ := ht r hr
    obtain ⟨y, ey⟩ := Option.isSome_iff_exists.1 hm
    have h3 : assocGet row (.mask 1) = some y := by rw [h2, ← er]; exact ey
    have e : gBoundaryAtZ D z (domOf F k) vs b (a, ab :: bc') = .ok (a +
        (claimsEnv claims b.register (.mask 1) - b.value.getD 0) * weightAt (D - 1) ab z /
        (z - genOf F k ^ b.atRow), bc') := by
      have ec : claimsEnv claims b.register (.mask 1) = y := by unfold claimsEnv; rw [ey]; rfl
      have e1 : b.register.num = .ok r := by rw [er]; rfl
      unfold gBoundaryAtZ
      simp only [decide_eq_true hD, Res.assert_true, Res.ok_bind, List.head?_cons, Res.expect_some, e1,
        rd, h1, h3, ev, Res.okOr_some, domOf, inverse_of_ne (sub_ne_zero.2 hne), applyAdjustmentAt_eq, Res.pure_def, List.tail_cons,
        ec, Option.getD_some, div_eq_mul_inv]
    simp only [forEach, e, Res.ok_bind]
    rw [ih (fun _ => hD) (fun b' hb' => hb b' (List.mem_cons_of_mem _ hb')) _ _ (by simpa using hl)]
    simp [add_assoc, boundaryPart]

theorem vBoundaries_inv {claims : List (MaskProperties F × F)} {vs : ZValues F} (ht : TableE n claims vs) {D k : ℕ}
    {z : F} {bs : List (BoundaryConstraint F)} (hb : ∀ b ∈ bs, BoundaryOk n b) {s s' : F × List (F × F)}
    (h : forEach bs s (gBoundaryAtZ D z (domOf F k) vs) = .ok s') :
    ∀ b ∈ bs, (claims.lookup ⟨b.register, .mask 1⟩).isSome ∧ z ≠ genOf F k ^ b.atRow := by
  intro b hbm
  obtain ⟨⟨r, hr, er⟩, v, ev⟩ := hb b hbm
  obtain ⟨row, h1, h2⟩ := ht r hr
  obtain ⟨s1, s2, e⟩ := forEach_mem_ok h b hbm
  unfold gBoundaryAtZ at e
  obtain ⟨_, -, e⟩ := Res.bind_eq_ok.1 e
  obtain ⟨_, -, e⟩ := Res.bind_eq_ok.1 e
  obtain ⟨r', e1, e⟩ := Res.bind_eq_ok.1 e
  obtain ⟨m, e2, e⟩ := Res.bind_eq_ok.1 e
  obtain ⟨y, e3, e⟩ := Res.bind_eq_ok.1 e
  obtain ⟨_, -, e⟩ := Res.bind_eq_ok.1 e
  obtain ⟨x, e4, e⟩ := Res.bind_eq_ok.1 e
  rw [er] at e1
  cases e1
  have : m = row := by simpa [rd, h1] using e2.symm
  subst this
  rw [Res.okOr_eq_ok, h2] at e3
  rw [Res.okOr_eq_ok, inverse_eq_some] at e4
  exact ⟨by rw [er, e3]; rfl, fun e' => e4.1 (sub_eq_zero.2 e')⟩

end

/-! ### All masks are claimed -/

omit [Field F] in
theorem lookup_zip_isSome {κ α : Type} [DecidableEq κ] (ms : List κ) (y : List α) (m : κ) :
    ((ms.zip y).lookup m).isSome ↔ m ∈ ms.take y.length := by
  induction ms generalizing y with
  | nil => simp
  | cons a ms ih =>
    cases y with
    | nil => simp
    | cons b y =>
      rw [List.zip_cons_cons, List.lookup_cons]
      by_cases h : m = a
      · subst h; simp
      · have : (m == a) = false := by simpa using h
        rw [this]
        simp only [ih, List.length_cons, List.take_succ_cons, List.mem_cons, h, false_or]

omit [Field F] in
theorem all_claimed_iff {κ α : Type} [DecidableEq κ] {ms : List κ} (hnd : ms.Nodup) (y : List α) :
    (∀ m ∈ ms, ((ms.zip y).lookup m).isSome) ↔ ms.length ≤ y.length := by
  simp only [lookup_zip_isSome]
  constructor
  · intro h
    by_contra hlt
    have hlt : y.length < ms.length := by omega
    have h1 := h ms[y.length] (List.getElem_mem _)
    obtain ⟨i, hi, e⟩ := List.mem_iff_getElem.1 h1
    rw [List.length_take] at hi
    rw [List.getElem_take] at e
    have := (List.Nodup.getElem_inj_iff hnd).1 e
    omega
  · intro h m hm
    rwa [List.take_of_length_le h]

end Hodor

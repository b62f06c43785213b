import Verif.Lemmas.AliQ
import Verif.Model.Stark

/-! # Lemmas about the verifier's evaluation at `z` -/

namespace Hodor

open Polynomial Finset Spec

variable {F : Type} [Field F]

/-! ### Suitable instances -/

section suitable
variable [DecidableEq F]

theorem maxDegree_eq {cs : List (Constraint F)} {m : ℕ} (h1 : ∀ c ∈ cs, c.degree ≤ m) (h2 : ∃ c ∈ cs, c.degree = m) :
    maxDegree cs = m := by
  obtain ⟨c, hc, e⟩ := h2
  apply le_antisymm
  · unfold maxDegree
    have : ∀ (l : List (Constraint F)) (a : ℕ), a ≤ m → (∀ c ∈ l, c.degree ≤ m) →
        l.foldl (fun m c => if c.degree > m then c.degree else m) a ≤ m := by
      intro l
      induction l with
      | nil => intro a ha _; exact ha
      | cons c l ih =>
        intro a ha hl
        rw [List.foldl_cons]
        apply ih
        · split
          · exact hl c List.mem_cons_self
          · exact ha
        · exact fun c' hc' => hl c' (List.mem_cons_of_mem _ hc')
    exact this cs 0 (Nat.zero_le _) h1
  · rw [← e]; exact le_maxDegree hc

/-- The converted instance. -/
def arpOf [StarkField F] (inst : InstanceProperties F) (k : ℕ) : InstanceProperties F :=
  { inst with constraints := inst.constraints.map (maskC (genOf F k)) }

omit [DecidableEq F] in
theorem termFactors_maskT (g : F) (t : ConstraintTerm F) : termFactors (maskT g t) = (termFactors t).map (maskU g) := by
  cases t <;> rfl

omit [DecidableEq F] in
theorem power_maskU (g : F) (u : UnivariateTerm F) : (maskU g u).power = u.power := by
  unfold maskU; split <;> rfl

omit [DecidableEq F] in
theorem termDegree_maskT (g : F) (t : ConstraintTerm F) : termDegree (maskT g t) = termDegree t := by
  unfold termDegree
  rw [termFactors_maskT, List.map_map]
  congr 1
  apply List.map_congr_left
  intro u _
  exact power_maskU g u

variable [StarkField F] {inst : InstanceProperties F} {n k f : ℕ}

theorem Spec.Suitable.fromInstance (h : Suitable inst n k f) (hk : k ≤ StarkField.S F) :
    fromInstance inst = .ok (arpOf inst k) := by
  apply fromInstance_ok hk
  · rw [h.rows]; unfold nextPow2; rw [Nat.clog_pow _ _ (by norm_num)]
  · intro c hc u hu
    obtain ⟨t, ht, hu'⟩ := List.mem_flatMap.1 hu
    exact ((h.terms c hc t ht).2.2 u hu').2

theorem Spec.Suitable.constraintOk (h : Suitable inst n k f) : ∀ c ∈ (arpOf inst k).constraints, ConstraintOk n c := by
  intro c hc
  obtain ⟨c0, hc0, rfl⟩ := List.mem_map.1 hc
  intro t ht
  obtain ⟨t0, ht0, rfl⟩ := List.mem_map.1 ht
  obtain ⟨h1, -, h3⟩ := h.terms c0 hc0 t0 ht0
  refine ⟨?_, ?_⟩
  · rw [termFactors_maskT]
    intro u hu
    obtain ⟨u0, hu0, rfl⟩ := List.mem_map.1 hu
    obtain ⟨⟨r, hr, er⟩, j, ej⟩ := h3 u0 hu0
    exact ⟨r, genOf F k ^ j, hr, by simp [maskU, ej, er], by simp [maskU, ej]⟩
  · rw [termFactors_maskT]
    simpa using h1

theorem Spec.Suitable.termDeg (h : Suitable inst n k f) : ∀ c ∈ (arpOf inst k).constraints,
    ∀ t ∈ c.terms, termDegree t ≤ c.degree := by
  intro c hc
  obtain ⟨c0, hc0, rfl⟩ := List.mem_map.1 hc
  intro t ht
  obtain ⟨t0, ht0, rfl⟩ := List.mem_map.1 ht
  rw [termDegree_maskT]
  exact (h.terms c0 hc0 t0 ht0).2.1

theorem Spec.Suitable.maxDeg (h : Suitable inst n k f) : maxDegree (arpOf inst k).constraints = 2 ^ f := by
  apply maxDegree_eq
  · intro c hc
    obtain ⟨c0, hc0, rfl⟩ := List.mem_map.1 hc
    exact h.degrees.1 c0 hc0
  · obtain ⟨c0, hc0, e⟩ := h.degrees.2
    exact ⟨maskC (genOf F k) c0, List.mem_map.2 ⟨c0, hc0, rfl⟩, e⟩

theorem Spec.Suitable.dense (h : Suitable inst n k f) : ∃ d : DenseConstraint, d.startAt + d.span ≤ 2 ^ k ∧
    (∀ c ∈ (arpOf inst k).constraints, c.density = .dense d) ∧
    batchesOf (arpOf inst k).constraints = [(.dense d, (arpOf inst k).constraints)] := by
  obtain ⟨d, h1, h2⟩ := h.density
  have h3 : ∀ c ∈ (arpOf inst k).constraints, c.density = .dense d := by
    intro c hc
    obtain ⟨c0, hc0, rfl⟩ := List.mem_map.1 hc
    exact h2 c0 hc0
  refine ⟨d, h1, h3, batch_single' _ _ ?_ h3⟩
  obtain ⟨c0, hc0, -⟩ := h.degrees.2
  exact List.ne_nil_of_mem (List.mem_map.2 ⟨c0, hc0, rfl⟩)

theorem Spec.Suitable.boundaryOk (h : Suitable inst n k f) : ∀ b ∈ (arpOf inst k).boundaryConstraints, BoundaryOk n b := by
  intro b hb
  obtain ⟨h1, -, h3⟩ := h.boundary b hb
  exact ⟨h1, h3⟩

theorem Spec.Suitable.fromArp (h : Suitable inst n k f) (w : Worker) (hK : k + f ≤ StarkField.S F)
    (hs : (StarkField.mulGen : F) ^ 2 ^ (k + f) ≠ 1) :
    ∃ ali, AliInstance.fromArp (arpOf inst k) w = .ok ali ∧ AliOk ali (arpOf inst k) k (k + f) := by
  have h1 := h.two_rows
  apply fromArp_ok w (k := k) (K := k + f)
  · show Nat.clog 2 inst.numRows = k
    rw [h.rows, Nat.clog_pow _ _ (by norm_num)]
  · rw [h.maxDeg, ← pow_add, Nat.clog_pow _ _ (by norm_num)]
  · omega
  · exact hK
  · omega
  · exact hs
  · obtain ⟨d, hd, hc, -⟩ := h.dense
    intro c hcc
    refine ⟨d, hc c hcc, ?_, ?_⟩
    · show d.startAt + d.span ≤ inst.numRows
      rw [h.rows]; exact hd
    · show inst.numRows ≤ _
      rw [h.rows]

theorem Spec.Suitable.masks (h : Suitable inst n k f) : ∀ m ∈ masksOf (arpOf inst k), ∃ r x, r < n ∧ m = ⟨.register r, .mask x⟩ := by
  intro m hm
  rcases (mem_boundaryMasks _ _ _).1 hm with h' | ⟨b, hb, rfl⟩
  · rcases (mem_masks _ _ _).1 h' with h' | ⟨c, hc, u, hu, rfl⟩
    · simp at h'
    · obtain ⟨t, ht, hu'⟩ := List.mem_flatMap.1 hu
      obtain ⟨r, x, hr, e1, e2⟩ := (h.constraintOk c hc t ht).1 u hu'
      exact ⟨r, x, hr, by simp [UnivariateTerm.maskProperties, e1, e2]⟩
  · obtain ⟨⟨r, hr, er⟩, -⟩ := h.boundary b hb
    exact ⟨r, 1, hr, by rw [er]⟩

/-- At an enforced row the converted constraint of a satisfied instance vanishes. -/
theorem Spec.Suitable.holds (h : Suitable inst n k f) {witness : List (List F)}
    {P : ℕ → F[X]} (hv : ∀ r, r < n → ∀ i, i < 2 ^ k → (P r).eval (genOf F k ^ i) = cell witness r i)
    (hsat : Satisfies inst (cellR witness) (2 ^ k)) {d : DenseConstraint}
    (hd : ∀ c ∈ (arpOf inst k).constraints, c.density = .dense d) :
    ∀ c ∈ (arpOf inst k).constraints, ∀ row ∈ enforcedRows d inst.numRows,
      constraintValue (pointEnv P (genOf F k ^ row)) c = 0 := by
  intro c hc row hrow
  have hcd := hd c hc
  obtain ⟨c0, hc0, rfl⟩ := List.mem_map.1 hc
  have h1 := Finset.mem_Ico.1 hrow
  rw [h.rows] at h1
  obtain ⟨hin, hval⟩ := hsat.1 c0 hc0 row ⟨d, hcd, h1.1, by omega⟩
  have hsteps : ∀ u ∈ factors c0, (∃ r, r < n ∧ u.register = .register r) ∧ ∃ j, u.stepsDifference = .steps j := by
    intro u hu
    obtain ⟨t, ht, hu'⟩ := List.mem_flatMap.1 hu
    exact (h.terms c0 hc0 t ht).2.2 u hu'
  rw [constraintValue_maskC (pointEnv P (genOf F k ^ row)) (fun r s => match r, s with
            | .register r, .steps j => (P r).eval (genOf F k ^ j * genOf F k ^ row)
            | _, _ => 0) (genOf F k) (by intro r j; cases r <;> rfl) (fun u hu => (hsteps u hu).2), ← hval]
  apply constraintValue_congr
  intro u hu
  obtain ⟨⟨r, hr, er⟩, ⟨m, em⟩⟩ := hsteps u hu
  rw [er, em]
  simp only [rowEnv, cellR]
  rw [← pow_add, Nat.add_comm m row]
  exact hv r hr _ (hin u hu m em)

theorem Spec.Suitable.boundaryHolds (h : Suitable inst n k f) {witness : List (List F)}
    {P : ℕ → F[X]} (hv : ∀ r, r < n → ∀ i, i < 2 ^ k → (P r).eval (genOf F k ^ i) = cell witness r i)
    (hsat : Satisfies inst (cellR witness) (2 ^ k)) :
    ∀ b ∈ inst.boundaryConstraints, ∃ r, b.register = .register r ∧ (P r).eval (genOf F k ^ b.atRow) = b.value.getD 0 := by
  intro b hb
  obtain ⟨⟨r, hr, er⟩, hrow, v, ev⟩ := h.boundary b hb
  refine ⟨r, er, ?_⟩
  have := hsat.2 b hb v ev
  rw [hv r hr _ hrow, ev, Option.getD_some, ← this, er]
  rfl

/-! ### Runnable instances -/

theorem Spec.Suitable.runnable (h : Suitable inst n k f) : Runnable inst n k f where
  rows := h.rows
  registers := h.registers
  pos := h.pos
  two_rows := h.two_rows
  terms := fun c hc t ht => ⟨(h.terms c hc t ht).1, (h.terms c hc t ht).2.2⟩
  density := by
    obtain ⟨d, h1, h2⟩ := h.density
    exact fun c hc => ⟨d, h2 c hc, h1⟩
  degrees := h.degrees
  boundary := fun b hb => ⟨(h.boundary b hb).1, (h.boundary b hb).2.2⟩

theorem Spec.Runnable.fromInstance (h : Runnable inst n k f) (hk : k ≤ StarkField.S F) :
    fromInstance inst = .ok (arpOf inst k) := by
  apply fromInstance_ok hk
  · rw [h.rows]; unfold nextPow2; rw [Nat.clog_pow _ _ (by norm_num)]
  · intro c hc u hu
    obtain ⟨t, ht, hu'⟩ := List.mem_flatMap.1 hu
    exact ((h.terms c hc t ht).2 u hu').2

theorem Spec.Runnable.constraintOk (h : Runnable inst n k f) : ∀ c ∈ (arpOf inst k).constraints, ConstraintOk n c := by
  intro c hc
  obtain ⟨c0, hc0, rfl⟩ := List.mem_map.1 hc
  intro t ht
  obtain ⟨t0, ht0, rfl⟩ := List.mem_map.1 ht
  obtain ⟨h1, h3⟩ := h.terms c0 hc0 t0 ht0
  refine ⟨?_, ?_⟩
  · rw [termFactors_maskT]
    intro u hu
    obtain ⟨u0, hu0, rfl⟩ := List.mem_map.1 hu
    obtain ⟨⟨r, hr, er⟩, j, ej⟩ := h3 u0 hu0
    exact ⟨r, genOf F k ^ j, hr, by simp [maskU, ej, er], by simp [maskU, ej]⟩
  · rw [termFactors_maskT]
    simpa using h1

theorem Spec.Runnable.maxDeg (h : Runnable inst n k f) : maxDegree (arpOf inst k).constraints = 2 ^ f := by
  apply maxDegree_eq
  · intro c hc
    obtain ⟨c0, hc0, rfl⟩ := List.mem_map.1 hc
    exact h.degrees.1 c0 hc0
  · obtain ⟨c0, hc0, e⟩ := h.degrees.2
    exact ⟨maskC (genOf F k) c0, List.mem_map.2 ⟨c0, hc0, rfl⟩, e⟩

theorem Spec.Runnable.dense (h : Runnable inst n k f) : ∀ c ∈ (arpOf inst k).constraints,
    ∃ d, c.density = .dense d ∧ DensityFits d inst.numRows (2 ^ k) := by
  intro c hc
  obtain ⟨c0, hc0, rfl⟩ := List.mem_map.1 hc
  obtain ⟨d, h1, h2⟩ := h.density c0 hc0
  exact ⟨d, h1, by rw [h.rows]; exact h2, by rw [h.rows]⟩

theorem Spec.Runnable.fromArp (h : Runnable inst n k f) (w : Worker) (hK : k + f ≤ StarkField.S F)
    (hs : (StarkField.mulGen : F) ^ 2 ^ (k + f) ≠ 1) :
    ∃ ali, AliInstance.fromArp (arpOf inst k) w = .ok ali ∧ AliOk ali (arpOf inst k) k (k + f) := by
  have h1 := h.two_rows
  apply fromArp_ok w (k := k) (K := k + f)
  · show Nat.clog 2 inst.numRows = k
    rw [h.rows, Nat.clog_pow _ _ (by norm_num)]
  · rw [h.maxDeg, ← pow_add, Nat.clog_pow _ _ (by norm_num)]
  · omega
  · exact hK
  · omega
  · exact hs
  · exact h.dense

end suitable

variable [DecidableEq F]

/-! ### Values at `z` -/

omit [Field F] [DecidableEq F] in
theorem mem_zip_of_mem {α β : Type} {l : List α} {l' : List β} {x : α × β} (h : x ∈ l.zip l') : x.1 ∈ l ∧ x.2 ∈ l' :=
  List.of_mem_zip h

theorem zip_map_self {α β : Type} (l : List α) (g : α → β) : l.zip (l.map g) = l.map (fun a => (a, g a)) := by
  induction l with
  | nil => rfl
  | cons a l ih => simp [ih]

/-- Table of the values at `z`. -/
theorem zValues_ok (masks : List (MaskProperties F)) (n : ℕ) (val : MaskProperties F → F)
    (h : ∀ m ∈ masks, ∃ r x, r < n ∧ m = ⟨.register r, .mask x⟩) :
    ∃ vs, zValues masks n (masks.map val) = .ok vs ∧ vs.length = n ∧
      ∀ r x, (⟨.register r, .mask x⟩ : MaskProperties F) ∈ masks → ∃ row, vs[r]? = some row ∧
        assocGet row (.mask x) = some (val ⟨.register r, .mask x⟩) := by
  unfold zValues
  rw [zip_map_self]
  have key : ∀ (l : List (MaskProperties F)) (vs : ZValues F), (∀ m ∈ l, ∃ r x, r < n ∧ m = ⟨.register r, .mask x⟩) →
      vs.length = n → ∃ vs', forEach (l.map (fun m => (m, val m))) vs (fun x values => do
        let _ ← x.1.stepsDifference.maskOf
        let r ← x.1.register.num
        let m ← rd values r
        wr values r (assocInsert m x.1.stepsDifference x.2)) = .ok vs' ∧ vs'.length = n ∧
        ∀ r x, ((⟨.register r, .mask x⟩ : MaskProperties F) ∈ l ∨
            ∃ row, vs[r]? = some row ∧ assocGet row (.mask x) = some (val ⟨.register r, .mask x⟩)) →
          ∃ row, vs'[r]? = some row ∧ assocGet row (.mask x) = some (val ⟨.register r, .mask x⟩) := by
    intro l
    induction l with
    | nil =>
      intro vs _ hl
      refine ⟨vs, rfl, hl, ?_⟩
      rintro r x (h | h)
      · simp at h
      · exact h
    | cons m l ih =>
      intro vs hm hl
      obtain ⟨r, x, hr, rfl⟩ := hm m List.mem_cons_self
      have hr' : r < vs.length := by omega
      obtain ⟨vs', e, hl', hv'⟩ := ih (vs.set r (assocInsert vs[r] (.mask x) (val ⟨.register r, .mask x⟩)))
        (fun m' hm' => hm m' (List.mem_cons_of_mem _ hm')) (by rw [List.length_set]; exact hl)
      refine ⟨vs', ?_, hl', ?_⟩
      · simp only [List.map_cons, forEach, StepDifference.maskOf, Register.num, Res.ok_bind, Res.pure_def]
        have e1 : rd vs r = .ok vs[r] := by simp [rd, hr', Res.expect]
        have e2 : wr vs r (assocInsert vs[r] (.mask x) (val ⟨.register r, .mask x⟩)) =
            .ok (vs.set r (assocInsert vs[r] (.mask x) (val ⟨.register r, .mask x⟩))) := by simp [wr, hr']
        rw [e1]
        simp only [Res.ok_bind]
        rw [e2]
        exact e
      · intro r2 x2 h2
        apply hv'
        by_cases heq : r2 = r ∧ x2 = x
        · obtain ⟨rfl, rfl⟩ := heq
          right
          refine ⟨_, by rw [List.getElem?_set_self hr'], ?_⟩
          rw [assocGet_insert, if_pos rfl]
        · rcases h2 with h2 | ⟨row, h3, h4⟩
          · rcases List.mem_cons.1 h2 with h2 | h2
            · exfalso
              apply heq
              injection h2 with h5 h6
              injection h5 with h5
              injection h6 with h6
              exact ⟨h5, h6⟩
            · exact Or.inl h2
          · right
            by_cases hrr : r2 = r
            · subst hrr
              refine ⟨_, by rw [List.getElem?_set_self hr'], ?_⟩
              rw [assocGet_insert, if_neg]
              · rw [List.getElem?_eq_getElem hr'] at h3
                cases h3
                exact h4
              · intro e'
                injection e' with e'
                exact heq ⟨rfl, e'.symm⟩
            · exact ⟨row, by rw [List.getElem?_set_ne (by omega)]; exact h3, h4⟩
  obtain ⟨vs, e, hl, hv⟩ := key masks (List.replicate n []) h (by simp)
  exact ⟨vs, e, hl, fun r x hm => hv r x (Or.inl hm)⟩

/-- The table at `z` has the values of the register polynomials for the masks in `masks`. -/
def TableAt (P : ℕ → F[X]) (z : F) (masks : List (MaskProperties F)) (vs : ZValues F) : Prop :=
  ∀ r x, (⟨.register r, .mask x⟩ : MaskProperties F) ∈ masks → ∃ row, vs[r]? = some row ∧
        assocGet row (.mask x) = some ((P r).eval (x * z))

theorem evaluateUnivariateAtZ_ok {P : ℕ → F[X]} {z : F} {masks : List (MaskProperties F)} {vs : ZValues F}
    (h : TableAt P z masks vs) {n : ℕ} {u : UnivariateTerm F} (hu : FactorOk n u) (hm : u.maskProperties ∈ masks) :
    evaluateUnivariateAtZ u vs = .ok (uniValue (pointEnv P z) u) := by
  obtain ⟨r, x, -, e1, e2⟩ := hu
  have em : u.maskProperties = ⟨.register r, .mask x⟩ := by simp [UnivariateTerm.maskProperties, e1, e2]
  obtain ⟨row, h1, h2⟩ := h r x (em ▸ hm)
  unfold evaluateUnivariateAtZ
  simp only [e1, e2, Register.num, Res.ok_bind, Res.pure_def, rd, h1, Res.expect_some, h2, Res.okOr_some, uniValue, pointEnv]
  rw [mul_comm]

theorem evaluateConstraintAtZ_ok {P : ℕ → F[X]} {z : F} {masks : List (MaskProperties F)} {vs : ZValues F}
    (h : TableAt P z masks vs) {n : ℕ} {c : Constraint F} (hc : ∀ u ∈ factors c, FactorOk n u)
    (hm : ∀ u ∈ factors c, u.maskProperties ∈ masks) :
    evaluateConstraintAtZ c vs = .ok (constraintValue (pointEnv P z) c) := by
  have ht : ∀ t ∈ c.terms, evaluateTermAtZ vs t = .ok (termValue (pointEnv P z) t) := by
    intro t ht
    have hfac : ∀ u ∈ termFactors t, evaluateUnivariateAtZ u vs = .ok (uniValue (pointEnv P z) u) := by
      intro u hu
      have : u ∈ factors c := List.mem_flatMap.2 ⟨t, ht, hu⟩
      exact evaluateUnivariateAtZ_ok h (hc u this) (hm u this)
    cases t with
    | univariate u => exact hfac u (by simp [termFactors])
    | polyvariate p =>
      simp only [termFactors] at hfac
      simp only [evaluateTermAtZ, termValue, polyTermValue]
      have : ∀ (l : List (UnivariateTerm F)) (a : F), (∀ u ∈ l, evaluateUnivariateAtZ u vs = .ok (uniValue (pointEnv P z) u)) →
          forEach l a (fun t r => do let v ← evaluateUnivariateAtZ t vs; pure (r * v))
            = .ok (a * (l.map (uniValue (pointEnv P z))).prod) := by
        intro l
        induction l with
        | nil => intro a _; simp [forEach]
        | cons u l ih =>
          intro a hl
          simp only [forEach, hl u List.mem_cons_self, Res.ok_bind]
          refine (ih _ (fun u' hu' => hl u' (List.mem_cons_of_mem _ hu'))).trans ?_
          simp [mul_assoc]
      rw [this p.terms 1 hfac]
      simp only [Res.ok_bind, Res.pure_def, one_mul]
      rw [mul_comm]
  unfold evaluateConstraintAtZ constraintValue
  revert ht
  generalize c.constantTerm = a
  generalize c.terms = l
  intro ht
  induction l generalizing a with
  | nil => simp [forEach]
  | cons t l ih =>
    simp only [forEach, ht t List.mem_cons_self, Res.ok_bind]
    refine (ih _ (fun t' ht' => ht t' (List.mem_cons_of_mem _ ht'))).trans ?_
    simp [add_assoc]

omit [DecidableEq F] in
theorem mulLinearRunning_eq (x g : F) (n : ℕ) (root acc : F) :
    mulLinearRunning x g n root acc = acc * ∏ i ∈ range n, (x - root * g ^ i) := by
  induction n generalizing root acc with
  | zero => simp [mulLinearRunning]
  | succ n ih =>
    rw [mulLinearRunning, ih, Finset.prod_range_succ']
    simp only [pow_succ', pow_zero, mul_one, mul_assoc]
    congr 1
    rw [mul_comm]

omit [DecidableEq F] in
theorem applyAdjustmentAt_eq (z : F) (adj : ℕ) (ab : F × F) (v : F) :
    applyAdjustmentAt z adj ab.1 ab.2 v = v * weightAt adj ab z := by
  unfold applyAdjustmentAt weightAt
  split
  · rfl
  · ring

section
variable [StarkField F]

theorem inverseDivisorAt_ok {d : DenseConstraint} {numRows k : ℕ} (hk : k ≤ StarkField.S F)
    (hd : DensityFits d numRows (2 ^ k)) {z : F} (hz : z ^ 2 ^ k ≠ 1) :
    inverseDivisorAt z (domOf F k) d numRows = .ok (zerofierAt (genOf F k) (enforcedRows d numRows) z)⁻¹ := by
  have hsp : d.span ≤ numRows := by have := hd.1; omega
  unfold inverseDivisorAt
  simp only [domOf, divisorDegree_ok hd, Res.ok_bind, inverse_of_ne (sub_ne_zero.2 hz), Res.okOr_some,
    decide_eq_true hsp, Res.assert_true, Res.pure_def, mulLinearRunning_eq, one_mul, ← pow_add]
  rw [mul_assoc, divisor_algebra (genOf_prim hk) (Nat.two_pow_pos k) (by have := hd.1; omega) (by have := hd.2; omega) hz]
  rfl

variable {inst : InstanceProperties F} {n k f : ℕ}

/-- What `Verifier::new` computes. -/
structure VerOk (v : Verifier F) (arp : InstanceProperties F) (k K ldeFactor : ℕ) : Prop where
  inst : v.inst = arp
  power : v.maxConstraintPower = maxDegree arp.constraints
  column : v.columnDomain = domOf F k
  domain : v.constraintsDomain = domOf F K
  masks : v.allMasks = masksOf arp
  batches : v.constraintsBatchedByDensity = batchesOf arp.constraints
  factor : v.ldeFactor = ldeFactor

omit [StarkField F] [Field F] [DecidableEq F] in
theorem forEach_unit {α : Type} (l : List α) (g : α → Res Unit) (h : ∀ a ∈ l, g a = .ok ()) :
    forEach l () (fun a _ => g a) = .ok () := by
  induction l with
  | nil => rfl
  | cons a l ih =>
    simp only [forEach, h a List.mem_cons_self, Res.ok_bind]
    exact ih (fun b hb => h b (List.mem_cons_of_mem _ hb))

theorem Spec.Suitable.newVerifier (h : Suitable inst n k f) (hK : k + f ≤ StarkField.S F) (ldeFactor : ℕ) :
    ∃ v, Verifier.new inst ldeFactor = .ok v ∧ VerOk v (arpOf inst k) k (k + f) ldeFactor := by
  have e1 : nextPow2 inst.numRows = 2 ^ k := by
    rw [h.rows]; unfold nextPow2; rw [Nat.clog_pow _ _ (by norm_num)]
  have e2 : mapRes (maskConstraint (domOf F k)) inst.constraints = .ok (arpOf inst k).constraints := by
    rw [mapRes_ok _ (maskC (genOf F k)) _ (fun c hc => maskConstraint_ok _ (by
      intro u hu
      obtain ⟨t, ht, hu'⟩ := List.mem_flatMap.1 hu
      exact ((h.terms c hc t ht).2.2 u hu').2))]
    rfl
  have e3 : Domain.newForSize F (2 ^ k) = .ok (domOf F k) := newForSize_pow (by omega)
  have e4 : nextPow2 (2 ^ f) * 2 ^ k = 2 ^ (k + f) := by
    unfold nextPow2; rw [Nat.clog_pow _ _ (by norm_num), ← pow_add, Nat.add_comm]
  have e5 : Domain.newForSize F (2 ^ (k + f)) = .ok (domOf F (k + f)) := newForSize_pow hK
  unfold Verifier.new
  simp only [e1, e3, Res.ok_bind, e2, h.maxDeg, e4, e5]
  have e6 : forEach (batchesOf (arpOf inst k).constraints) () (fun b _ => forEach b.2 () (fun c _ =>
      Res.assert (decide (c.degree ≤ 2 ^ f)))) = .ok () := by
    apply forEach_unit
    intro b hb
    apply forEach_unit
    intro c hc
    obtain ⟨-, hmem⟩ := batch_inv (arpOf inst k).constraints [] [] (by simp) b hb
    have : c.degree ≤ 2 ^ f := h.maxDeg ▸ le_maxDegree (by simpa using (hmem c hc).1)
    rw [decide_eq_true this]
    rfl
  unfold batchesOf at e6
  rw [e6]
  exact ⟨_, rfl, ⟨rfl, h.maxDeg.symm, rfl, rfl, rfl, rfl, rfl⟩⟩

theorem gConstraintsAtZ_ok {P : ℕ → F[X]} {z : F} {masks : List (MaskProperties F)} {vs : ZValues F}
    (ht : TableAt P z masks vs) (D : ℕ) (inv : F) (cs : List (Constraint F))
    (hc : ∀ c ∈ cs, (∀ u ∈ factors c, FactorOk n u ∧ u.maskProperties ∈ masks) ∧ c.degree ≤ D)
    (g : F) (cc rest : List (F × F)) (hl : cc.length = cs.length) :
    forEach cs (g, cc ++ rest) (gConstraintAtZ D z inv vs) = .ok (g + ((cs.zip cc).map (fun c =>
      constraintValue (pointEnv P z) c.1 * weightAt (D - c.1.degree) c.2 z * inv)).sum, rest) := by
  induction cs generalizing g cc with
  | nil =>
    have : cc = [] := by simpa using hl
    simp [this, forEach]
  | cons c cs ih =>
    obtain ⟨ab, cc', rfl⟩ : ∃ ab cc', cc = ab :: cc' := by
      cases cc with
      | nil => simp at hl
      | cons a b => exact ⟨a, b, rfl⟩
    obtain ⟨h1, h2⟩ := hc c List.mem_cons_self
    have e : gConstraintAtZ D z inv vs c (g, (ab :: cc') ++ rest) = .ok (g + constraintValue (pointEnv P z) c *
        weightAt (D - c.degree) ab z * inv, cc' ++ rest) := by
      unfold gConstraintAtZ
      simp only [decide_eq_true h2, Res.assert_true, Res.ok_bind, List.cons_append, List.head?_cons, Res.expect_some,
        evaluateConstraintAtZ_ok ht (fun u hu => (h1 u hu).1) (fun u hu => (h1 u hu).2), applyAdjustmentAt_eq,
        Res.pure_def, List.tail_cons]
    simp only [forEach, e, Res.ok_bind]
    rw [ih (fun c' hc' => hc c' (List.mem_cons_of_mem _ hc')) _ _ (by simpa using hl)]
    simp [add_assoc]

theorem gBoundariesAtZ_ok {P : ℕ → F[X]} {z : F} {masks : List (MaskProperties F)} {vs : ZValues F}
    (ht : TableAt P z masks vs) {D : ℕ} (hD : 1 ≤ D) (hk : k ≤ StarkField.S F) (hz : z ^ 2 ^ k ≠ 1)
    (bs : List (BoundaryConstraint F))
    (hb : ∀ b ∈ bs, BoundaryOk n b ∧ (⟨b.register, .mask 1⟩ : MaskProperties F) ∈ masks)
    (g : F) (bc : List (F × F)) (hl : bc.length = bs.length) :
    forEach bs (g, bc) (gBoundaryAtZ D z (domOf F k) vs) = .ok (g + ((bs.zip bc).map (fun b =>
      (pointEnv P z b.1.register (.mask 1) - b.1.value.getD 0) * weightAt (D - 1) b.2 z /
        (z - genOf F k ^ b.1.atRow))).sum, []) := by
  induction bs generalizing g bc with
  | nil =>
    have : bc = [] := by simpa using hl
    simp [this, forEach]
  | cons b bs ih =>
    obtain ⟨ab, bc', rfl⟩ : ∃ ab bc', bc = ab :: bc' := by
      cases bc with
      | nil => simp at hl
      | cons a b => exact ⟨a, b, rfl⟩
    obtain ⟨⟨⟨r, hr, er⟩, v, ev⟩, hm⟩ := hb b List.mem_cons_self
    rw [er] at hm
    obtain ⟨row, h1, h2⟩ := ht r 1 hm
    have hne := sub_pow_ne (genOf_prim hk) hz b.atRow
    have e : gBoundaryAtZ D z (domOf F k) vs b (g, ab :: bc') = .ok (g +
        (pointEnv P z b.register (.mask 1) - b.value.getD 0) * weightAt (D - 1) ab z /
        (z - genOf F k ^ b.atRow), bc') := by
      unfold gBoundaryAtZ
      simp only [decide_eq_true hD, Res.assert_true, Res.ok_bind, List.head?_cons, Res.expect_some, er, Register.num,
        rd, h1, h2, ev, Res.okOr_some, domOf, inverse_of_ne hne, applyAdjustmentAt_eq, Res.pure_def, List.tail_cons,
        pointEnv, Option.getD_some, div_eq_mul_inv]
    simp only [forEach, e, Res.ok_bind]
    rw [ih (fun b' hb' => hb b' (List.mem_cons_of_mem _ hb')) _ _ (by simpa using hl)]
    simp [add_assoc]

/-- The verifier's value of the composition at `z`, when the values sent are those of `P`. -/
theorem calculateGAtZ_ok (h : Suitable inst n k f) (hK : k + f ≤ StarkField.S F) {v : Verifier F} {ldeFactor : ℕ}
    (hv : VerOk v (arpOf inst k) k (k + f) ldeFactor) (P : ℕ → F[X]) {z : F} (hz : z ^ 2 ^ k ≠ 1)
    (cc bc : List (F × F)) (hcc : cc.length = inst.constraints.length)
    (hbc : bc.length = inst.boundaryConstraints.length) :
    v.calculateGAtZ cc bc ((masksOf (arpOf inst k)).map (fun m => pointEnv P z m.register m.stepsDifference)) z
      = .ok (compositionAt (genOf F k) inst.numRows (2 ^ f) (pointEnv P z) ((arpOf inst k).constraints.zip cc)
          (inst.boundaryConstraints.zip bc) z) := by
  obtain ⟨vs, e1, hl, hvs⟩ := zValues_ok (masksOf (arpOf inst k)) n
    (fun m => pointEnv P z m.register m.stepsDifference) h.masks
  have ht : TableAt P z (masksOf (arpOf inst k)) vs := hvs
  obtain ⟨d, hd, hcd, hbat⟩ := h.dense
  have hfit : DensityFits d inst.numRows (2 ^ k) := ⟨by rw [h.rows]; exact hd, by rw [h.rows]⟩
  have hreg : (arpOf inst k).numRegisters = n := h.registers
  unfold Verifier.calculateGAtZ
  rw [hv.inst, hv.masks, hreg, e1, Res.ok_bind, hv.batches, hbat, hv.column, hv.power, h.maxDeg]
  have e2 : densityDivisorAt z (domOf F k) (arpOf inst k).numRows (.dense d)
      = .ok (zerofierAt (genOf F k) (enforcedRows d inst.numRows) z)⁻¹ := inverseDivisorAt_ok (by omega) hfit hz
  have e3 := gConstraintsAtZ_ok (n := n) ht (2 ^ f) (zerofierAt (genOf F k) (enforcedRows d inst.numRows) z)⁻¹
    (arpOf inst k).constraints (by
      intro c hc
      refine ⟨?_, h.maxDeg ▸ le_maxDegree hc⟩
      intro u hu
      obtain ⟨t, ht, hu'⟩ := List.mem_flatMap.1 hu
      exact ⟨(h.constraintOk c hc t ht).1 u hu', (mem_boundaryMasks _ _ _).2 (Or.inl ((mem_masks _ _ _).2 (Or.inr ⟨c, hc, u, hu, rfl⟩)))⟩)
    0 cc [] (by rw [hcc]; simp [arpOf])
  rw [List.append_nil] at e3
  simp only [forEach, e2, Res.ok_bind, e3]
  have e4 := gBoundariesAtZ_ok (n := n) ht (D := 2 ^ f) Nat.one_le_two_pow (show k ≤ StarkField.S F by omega) hz
    (arpOf inst k).boundaryConstraints (by
      intro b hb
      exact ⟨h.boundaryOk b hb, (mem_boundaryMasks _ _ _).2 (Or.inr ⟨b, hb, rfl⟩)⟩)
    (0 + (((arpOf inst k).constraints.zip cc).map (fun c =>
      constraintValue (pointEnv P z) c.1 * weightAt (2 ^ f - c.1.degree) c.2 z *
        (zerofierAt (genOf F k) (enforcedRows d inst.numRows) z)⁻¹)).sum) bc hbc
  rw [e4]
  simp only [Res.ok_bind, Res.pure_def, compositionAt, zero_add]
  congr 3
  apply List.map_congr_left
  intro c hc
  have := hcd c.1 (List.of_mem_zip hc).1
  simp only [divisorAt, this, div_eq_mul_inv]

/-- The composition of a satisfied instance is a polynomial. -/
theorem composition_exists (H : List UInt8 → Digest) (h : Suitable inst n k f) (hK : k + f ≤ StarkField.S F)
    {witness : List (List F)} {P : ℕ → F[X]} (hP : ∀ r, (P r).degree < (2 ^ k : ℕ))
    (hv : ∀ r, r < n → ∀ i, i < 2 ^ k → (P r).eval (genOf F k ^ i) = cell witness r i)
    (hsat : Satisfies inst (cellR witness) (2 ^ k)) (t : Transcript) :
    ∃ G : F[X], G.degree < (2 ^ (k + f) : ℕ) ∧
      ∀ x, x ^ 2 ^ k ≠ 1 → G.eval x = compositionAt (genOf F k) inst.numRows (2 ^ f) (pointEnv P x)
        ((arpOf inst k).constraints.zip (pairsAt F H inst.constraints.length t))
        (inst.boundaryConstraints.zip (pairsAt F H inst.boundaryConstraints.length (afterN H inst.constraints.length t))) x := by
  obtain ⟨d, hd, hcd, hbat⟩ := h.dense
  obtain ⟨G, hG, hGv⟩ := exists_composition (genOf_prim (show k ≤ StarkField.S F by omega))
    (by calc 2 = 2 ^ 1 := rfl
          _ ≤ 2 ^ k := Nat.pow_le_pow_right (by norm_num) h.two_rows) hP (numRows := inst.numRows) (D := 2 ^ f)
    (le_of_eq h.rows) Nat.one_le_two_pow
    ((arpOf inst k).constraints.zip (pairsAt F H inst.constraints.length t))
    (inst.boundaryConstraints.zip (pairsAt F H inst.boundaryConstraints.length (afterN H inst.constraints.length t)))
    (by
      intro c hc
      have hc' := (List.of_mem_zip hc).1
      exact ⟨d, hcd _ hc', h.maxDeg ▸ le_maxDegree hc', h.termDeg _ hc', h.holds hv hsat hcd _ hc'⟩)
    (by
      intro b hb
      exact h.boundaryHolds hv hsat _ (List.of_mem_zip hb).1)
  rw [← pow_add] at hG
  exact ⟨G, hG, hGv⟩

/-- With a single density the accumulated values on the coset are those of the composition. -/
theorem composition_coset (H : List UInt8 → Digest) (h : Suitable inst n k f) (hK : k + f ≤ StarkField.S F)
    (hs : (StarkField.mulGen : F) ^ 2 ^ (k + f) ≠ 1) {P : ℕ → F[X]} {G : F[X]} {t : Transcript}
    (hGv : ∀ x, x ^ 2 ^ k ≠ 1 → G.eval x = compositionAt (genOf F k) inst.numRows (2 ^ f) (pointEnv P x)
        ((arpOf inst k).constraints.zip (pairsAt F H inst.constraints.length t))
        (inst.boundaryConstraints.zip (pairsAt F H inst.boundaryConstraints.length (afterN H inst.constraints.length t))) x)
    (i : ℕ) : G.eval (cosetPt F (k + f) i) =
      gFold H P (2 ^ f) (cosetPt F (k + f) i) (dinvAt (genOf F k) inst.numRows (cosetPt F (k + f) i))
        (batchesOf (arpOf inst k).constraints) t 0 +
      boundarySum P (2 ^ f) (genOf F k) (cosetPt F (k + f) i) (inst.boundaryConstraints.zip
        (pairsAt F H inst.boundaryConstraints.length (afterN H inst.constraints.length t))) := by
  obtain ⟨d, hd, hcd, hbat⟩ := h.dense
  have hlen : (arpOf inst k).constraints.length = inst.constraints.length := by simp [arpOf]
  rw [hGv _ (cosetPt_pow_ne (by omega) hK hs i), hbat]
  simp only [gFold, batchSum, zero_add, dinvAt, hlen]
  unfold compositionAt boundarySum
  rw [← List.sum_map_mul_right]
  congr 2
  apply List.map_congr_left
  intro c hc
  have := hcd c.1 (List.of_mem_zip hc).1
  simp only [divisorAt, this, div_eq_mul_inv]

/-- The prover's composition polynomial. -/
theorem calculateG_suitable (H : List UInt8 → Digest) (h : Suitable inst n k f) (w : Worker) (hK : k + f ≤ StarkField.S F)
    (hK32 : k + f < 32) (hok : LdeOk w (2 ^ f)) (hch : ChallengeOk F) (hs : (StarkField.mulGen : F) ^ 2 ^ (k + f) ≠ 1)
    {witness : List (List F)} {P : ℕ → F[X]} (hP : ∀ r, (P r).degree < (2 ^ k : ℕ))
    (hv : ∀ r, r < n → ∀ i, i < 2 ^ k → (P r).eval (genOf F k ^ i) = cell witness r i)
    (hsat : Satisfies inst (cellR witness) (2 ^ k)) {ali : AliInstance F} (hali : AliOk ali (arpOf inst k) k (k + f))
    (t : Transcript) :
    ∃ G : F[X], G.degree < (2 ^ (k + f) : ℕ) ∧
      ali.calculateG H t (tab n (fun r => mkPoly .coefficients k (P r).coeff)) w
        = .ok (mkPoly .coefficients (k + f) G.coeff,
          afterN H inst.boundaryConstraints.length (afterN H inst.constraints.length t)) ∧
      ∀ x, x ^ 2 ^ k ≠ 1 → G.eval x = compositionAt (genOf F k) inst.numRows (2 ^ f) (pointEnv P x)
        ((arpOf inst k).constraints.zip (pairsAt F H inst.constraints.length t))
        (inst.boundaryConstraints.zip (pairsAt F H inst.boundaryConstraints.length (afterN H inst.constraints.length t))) x := by
  obtain ⟨G, hG, hGv⟩ := composition_exists H h hK hP hv hsat t
  refine ⟨G, hG, ?_, hGv⟩
  obtain ⟨d, hd, hcd, hbat⟩ := h.dense
  have hlen : (arpOf inst k).constraints.length = inst.constraints.length := by simp [arpOf]
  have hab : afterBatches H (batchesOf (arpOf inst k).constraints) t = afterN H inst.constraints.length t := by
    rw [hbat]; simp only [afterBatches, hlen]
  have := calculateG_ok H w hK (by omega) hok (fun r _ => hP r) hch hali h.maxDeg hK32 h.registers
    (fun c hc => ⟨h.constraintOk c hc, d, hcd c hc⟩) h.boundaryOk t hG (by
      intro i _
      rw [hab]
      exact composition_coset H h hK hs hGv i)
  rw [this, hab]
  rfl

end

end Hodor

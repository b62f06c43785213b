import Verif.Lemmas.SoundAlg
import Verif.Lemmas.VerifyH
import Verif.Spec.Soundness

/-! # Soundness with an ideal low-degree test -/

namespace Hodor

open Polynomial Finset Spec

variable {F : Type} [Field F] [DecidableEq F] [StarkField F]

omit [DecidableEq F] in
theorem exists_interp {N : ℕ} (hN : N ≤ StarkField.S F) : ∃ I : List F → F[X], ∀ word, (I word).degree < (2 ^ N : ℕ) ∧
    ∀ i, i < 2 ^ N → (I word).eval (genOf F N ^ i) = word.getD i 0 := by
  have : ∀ word : List F, ∃ p : F[X], p.degree < (2 ^ N : ℕ) ∧
    ∀ i, i < 2 ^ N → p.eval (genOf F N ^ i) = word.getD i 0 := by
    intro word
    obtain ⟨p, h1, h2⟩ := exists_poly_values (F := F) hN one_ne_zero (fun i => word.getD i 0)
    exact ⟨p, h1, fun i hi => by rw [← h2 i hi, one_mul]⟩
  choose I hI using this
  exact ⟨I, hI⟩

omit [DecidableEq F] in
theorem poly_unique {N : ℕ} (hN : N ≤ StarkField.S F) {p q : F[X]} (hp : p.degree < (2 ^ N : ℕ))
    (hq : q.degree < (2 ^ N : ℕ)) (h : ∀ i, i < 2 ^ N → p.eval (genOf F N ^ i) = q.eval (genOf F N ^ i)) : p = q := by
  refine Polynomial.eq_of_degrees_lt_of_eval_index_eq (range (2 ^ N)) (v := fun i => genOf F N ^ i) ?_ ?_ ?_ ?_
  · intro i hi j hj e
    simp only [coe_range, Set.mem_Iio] at hi hj
    exact (genOf_prim hN).pow_inj hi hj e
  · rwa [card_range]
  · rwa [card_range]
  · intro i hi
    exact h i (mem_range.1 hi)

omit [DecidableEq F] in
theorem genOf_pred {N : ℕ} (hN1 : 1 ≤ N) (hN : N ≤ StarkField.S F) : genOf F N ^ 2 = genOf F (N - 1) := by
  have := genOf_pow (F := F) (k := N - 1) (m := 1) (by omega)
  rwa [show N - 1 + 1 = N by omega, pow_one] at this

omit [DecidableEq F] in
/-- Polynomials through given values at the odd positions. -/
theorem exists_interp_odd {N : ℕ} (hN1 : 1 ≤ N) (hN : N ≤ StarkField.S F) :
    ∃ I : List F → F[X], ∀ word, (I word).degree < (2 ^ (N - 1) : ℕ) ∧
    ∀ i, i < 2 ^ N → i % 2 = 1 → (I word).eval (genOf F N ^ i) = word.getD i 0 := by
  have hg := genOf_prim (F := F) hN
  have : ∀ word : List F, ∃ p : F[X], p.degree < (2 ^ (N - 1) : ℕ) ∧
    ∀ i, i < 2 ^ N → i % 2 = 1 → p.eval (genOf F N ^ i) = word.getD i 0 := by
    intro word
    obtain ⟨p, h1, h2⟩ := exists_poly_values (F := F) (show N - 1 ≤ StarkField.S F by omega)
      (hg.ne_zero (by positivity)) (fun i => word.getD (2 * i + 1) 0)
    refine ⟨p, h1, fun i hi ho => ?_⟩
    have e := h2 (i / 2) (by
      have : 2 ^ N = 2 * 2 ^ (N - 1) := by rw [← pow_succ']; congr 1; omega
      omega)
    rw [show 2 * (i / 2) + 1 = i by omega, ← genOf_pred hN1 hN, ← pow_mul, ← pow_succ', show 2 * (i / 2) + 1 = i by omega] at e
    exact e
  choose I hI using this
  exact ⟨I, hI⟩

omit [DecidableEq F] in
theorem poly_unique_odd {N : ℕ} (hN1 : 1 ≤ N) (hN : N ≤ StarkField.S F) {p q : F[X]} (hp : p.degree < (2 ^ (N - 1) : ℕ))
    (hq : q.degree < (2 ^ (N - 1) : ℕ)) (h : ∀ i, i < 2 ^ N → i % 2 = 1 → p.eval (genOf F N ^ i) = q.eval (genOf F N ^ i)) :
    p = q := by
  have e2 : 2 ^ N = 2 * 2 ^ (N - 1) := by rw [← pow_succ']; congr 1; omega
  refine Polynomial.eq_of_degrees_lt_of_eval_index_eq (range (2 ^ (N - 1))) (v := fun i => genOf F N ^ (2 * i + 1)) ?_ ?_ ?_ ?_
  · intro i hi j hj e
    simp only [coe_range, Set.mem_Iio] at hi hj
    have := (genOf_prim hN).pow_inj (by omega) (by omega) e
    omega
  · rwa [card_range]
  · rwa [card_range]
  · intro i hi
    have := mem_range.1 hi
    exact h _ (by omega) (by omega)

/-- Dividing out the point: a word whose DEEP quotient by `x - a` has degree below `m` at the odd positions is there a polynomial of degree at
most `m` with the claimed value at `a`. -/
theorem deep_unique {N m : ℕ} (hN1 : 1 ≤ N) (hN : N ≤ StarkField.S F) (hm : m < 2 ^ (N - 1)) {p q : F[X]}
    (hp : p.degree < (2 ^ (N - 1) : ℕ))
    (hq : q.degree < (m : ℕ)) {a y : F} (ha : a ^ 2 ^ N ≠ 1)
    (h : ∀ i, i < 2 ^ N → i % 2 = 1 → q.eval (genOf F N ^ i) = (p.eval (genOf F N ^ i) - y) * (genOf F N ^ i - a)⁻¹) :
    p.natDegree ≤ m ∧ p.eval a = y := by
  have hR : (C y + q * (X - C a)).natDegree ≤ m := by
    refine (natDegree_add_le _ _).trans (max_le (by simp) ?_)
    by_cases h0 : q = 0
    · simp [h0]
    · refine natDegree_mul_le.trans ?_
      rw [natDegree_X_sub_C]
      have : q.natDegree < m := by
        rw [degree_eq_natDegree h0] at hq
        exact_mod_cast hq
      omega
  have e : p = C y + q * (X - C a) := by
    apply poly_unique_odd hN1 hN hp
    · refine lt_of_le_of_lt degree_le_natDegree ?_
      exact_mod_cast lt_of_le_of_lt hR hm
    · intro i hi ho
      rw [eval_add, eval_mul, h i hi ho]
      simp only [eval_C, eval_sub, eval_X]
      rw [mul_assoc, inv_mul_cancel₀ (domain_ne hN ha i), mul_one]
      ring
  constructor
  · rw [e]; exact hR
  · rw [e]; simp

/-- The verifier's DEEP sum for arbitrary openings. -/
theorem simulateH1_any (v : Verifier F) {n N : ℕ} (hN : N ≤ StarkField.S F) {z : F} (ps : List (ℕ × F))
    (hps : ∀ p ∈ ps, p.1 < n ∧ (p.2 * z) ^ 2 ^ N ≠ 1) (hv : v.allMasks = ps.map toMask) (c : ℕ → F) (y αs : List F)
    (idx : ℕ) :
    v.simulateH1 αs idx (domOf F N) (tab n c) y z
      = .ok (((ps.zip y).zip αs).map (fun q => (c q.1.1.1 - q.1.2) * (genOf F N ^ idx - q.1.1.2 * z)⁻¹ * q.2)).sum := by
  unfold Verifier.simulateH1
  rw [hv, List.zip_map_left, List.zip_map_left]
  have key : ∀ (l : List (((ℕ × F) × F) × F)) (a : F), (∀ q ∈ l, q.1.1.1 < n ∧ (q.1.1.2 * z) ^ 2 ^ N ≠ 1) →
      forEach (l.map (Prod.map (Prod.map toMask id) id)) a (fun x h => do
        let mask ← x.1.1.stepsDifference.maskOf
        let r ← x.1.1.register.num
        let f ← rd (tab n c) r
        let inv ← Res.okOr (inverse ((domOf F N).generator ^ idx - mask * z)) .divisionByZero
        pure (h + (f - x.1.2) * inv * x.2))
      = .ok (a + (l.map (fun q => (c q.1.1.1 - q.1.2) * (genOf F N ^ idx - q.1.1.2 * z)⁻¹ * q.2)).sum) := by
    intro l
    induction l with
    | nil => intro a _; simp [forEach]
    | cons q l ih =>
      intro a hl
      obtain ⟨hr, hm⟩ := hl q List.mem_cons_self
      have hne : (domOf F N).generator ^ idx - q.1.1.2 * z ≠ 0 := domain_ne hN hm idx
      simp only [List.map_cons, forEach, Prod.map, toMask, StepDifference.maskOf, Register.num, Res.ok_bind, rd_tab hr,
        inverse_of_ne hne, Res.okOr_some, id]
      refine (ih _ (fun q' hq' => hl q' (List.mem_cons_of_mem _ hq'))).trans ?_
      rw [List.sum_cons, ← add_assoc]
      rfl
  rw [key _ _ (by
    intro q hq
    exact hps _ (List.of_mem_zip (List.of_mem_zip hq).1).1), zero_add]

section
variable {inst : InstanceProperties F} {n k K e : ℕ}

theorem slack_lt {sl k e : ℕ} (he : 1 ≤ e) (h : sl < 2 ^ (e - 1)) : sl * 2 ^ k < 2 ^ (k + e - 1) := by
  rw [show k + e - 1 = (e - 1) + k by omega, pow_add]
  exact Nat.mul_lt_mul_of_pos_right h (Nat.two_pow_pos k)

theorem opened_ok {fWords : List (List F)} {m : ℕ} (hf : IsTable fWords n m) {idx : ℕ} (hi : idx < m) :
    mapRes (fun word => rd word idx) fWords = .ok (tab n (fun r => (fWords.getD r []).getD idx 0)) := by
  have e := eq_tab_getD fWords []
  rw [hf.1] at e
  have hlen : ∀ r, r < n → (fWords.getD r []).length = m := by
    intro r hr
    have hr' : r < fWords.length := by rw [hf.1]; exact hr
    rw [List.getD_eq_getElem?_getD, List.getElem?_eq_getElem hr', Option.getD_some]
    exact hf.2 _ (List.getElem_mem hr')
  conv_lhs => rw [e]
  refine mapRes_tab _ _ _ _ (fun r hr => ?_)
  have h1 := hlen r hr
  generalize fWords.getD r [] = w at h1 ⊢
  unfold rd
  rw [List.getD_eq_getElem?_getD, List.getElem?_eq_getElem (by omega), Res.expect_some, Option.getD_some]

/-- Without luck with the mask challenges, the words of all opened registers are polynomials of degree at most `2^k`, and
the openings are their values. -/
theorem openings_correct (he : 1 ≤ e) {sl : ℕ} (hs1 : 1 ≤ sl) (hsl : sl < 2 ^ (e - 1)) (hS : k + e ≤ StarkField.S F) {v : Verifier F}
    (hv : VBuilt v inst k (2 ^ e)) {ps : List (ℕ × F)} (eps : masksOf (arpOf inst k) = ps.map toMask)
    {fWords : List (List F)} (hf : IsTable fWords n (2 ^ (k + e))) {z : F}
    (hps : ∀ p ∈ ps, p.1 < n ∧ (p.2 * z) ^ 2 ^ (k + e) ≠ 1) {I : List F → F[X]}
    (hI : ∀ word, (I word).degree < (2 ^ (k + e - 1) : ℕ) ∧
      ∀ i, i < 2 ^ (k + e) → i % 2 = 1 → (I word).eval (genOf F (k + e) ^ i) = word.getD i 0) {y αs : List F}
    (hy : y.length = ps.length) (hα : αs.length = ps.length)
    (hlow : LowH1 v sl fWords z y αs) (hl : ¬ LuckyMask v sl fWords z y αs) :
    (∀ p ∈ ps, (I (fWords.getD p.1 [])).natDegree ≤ sl * 2 ^ k) ∧
      y = ps.map (fun p => (I (fWords.getD p.1 [])).eval (p.2 * z)) := by
  have hm : v.allMasks = ps.map toMask := hv.masks.trans eps
  have s1 : v.columnDomain.size * v.ldeFactor = 2 ^ (k + e) := by rw [hv.column, hv.factor]; exact (pow_add _ _ _).symm
  have s2 : v.columnDomain.size = 2 ^ k := by rw [hv.column]; rfl
  have d1 : Domain.newForSize F (2 ^ (k + e)) = .ok (domOf F (k + e)) := newForSize_pow (by omega)
  have value : ∀ αs, LowH1 v sl fWords z y αs → ∃ Q : F[X], Q.degree < (sl * 2 ^ k : ℕ) ∧ ∀ i, i < 2 ^ (k + e) → i % 2 = 1 →
      Q.eval (genOf F (k + e) ^ i) = (((ps.zip y).zip αs).map (fun q =>
        ((I (fWords.getD q.1.1.1 [])).eval (genOf F (k + e) ^ i) - q.1.2) * (genOf F (k + e) ^ i - q.1.1.2 * z)⁻¹ * q.2)).sum := by
    rintro αs ⟨dom, Q, h1, h2, h3⟩
    rw [s1, d1] at h1
    cases h1
    rw [s2] at h2
    refine ⟨Q, h2, ?_⟩
    intro i hi ho
    obtain ⟨opened, h4, h5⟩ := h3 i hi ho
    rw [opened_ok hf hi] at h4
    cases h4
    rw [simulateH1_any v hS ps hps hm] at h5
    have := Res.ok.inj h5
    rw [show (domOf F (k + e)).generator = genOf F (k + e) from rfl] at this
    rw [← this]
    congr 1
    apply List.map_congr_left
    intro q _
    rw [(hI _).2 i hi ho]
  obtain ⟨Q, hQ, hQv⟩ := value αs hlow
  have each : ∀ (j : ℕ) (p : ℕ × F), ps[j]? = some p → (I (fWords.getD p.1 [])).natDegree ≤ sl * 2 ^ k ∧
      y[j]? = some ((I (fWords.getD p.1 [])).eval (p.2 * z)) := by
    intro j p hj
    have hjl : j < ps.length := by
      rw [List.getElem?_eq_some_iff] at hj; exact hj.1
    obtain ⟨yj, hyj⟩ : ∃ yj, y[j]? = some yj := ⟨y[j], List.getElem?_eq_getElem (by omega)⟩
    obtain ⟨α, hαj⟩ : ∃ α, αs[j]? = some α := ⟨αs[j], List.getElem?_eq_getElem (by omega)⟩
    have hx : ∃ x, LowH1 v sl fWords z y (αs.set j x) ∧ x ≠ α := by
      by_contra hcon
      apply hl
      refine ⟨j, α, hαj, ?_⟩
      intro x hx
      by_contra hne
      exact hcon ⟨x, hx, hne⟩
    obtain ⟨x, hx, hne⟩ := hx
    obtain ⟨Q', hQ', hQv'⟩ := value _ hx
    have hzip : (ps.zip y)[j]? = some (p, yj) := by
      rw [List.getElem?_zip_eq_some]; exact ⟨hj, hyj⟩
    have hpj := hps p (List.mem_of_getElem? hj)
    have := deep_unique (m := sl * 2 ^ k) (by omega) hS (slack_lt he hsl) (hI (fWords.getD p.1 [])).1
      (q := C (x - α)⁻¹ * (Q' - Q)) (y := yj) (a := p.2 * z) (by
        refine lt_of_le_of_lt (degree_mul_le _ _) ?_
        rw [degree_C (inv_ne_zero (sub_ne_zero.2 hne)), zero_add]
        exact (degree_sub_le _ _).trans_lt (max_lt hQ' hQ)) hpj.2 (by
        intro i hi ho
        rw [eval_mul, eval_C, eval_sub, hQv i hi ho, hQv' i hi ho, sum_zip_set _ _ _ j _ α x hzip hαj]
        simp only
        have := sub_ne_zero.2 hne
        field_simp)
    exact ⟨this.1, by rw [hyj, this.2]⟩
  constructor
  · intro p hp
    obtain ⟨j, hj⟩ := List.getElem?_of_mem hp
    exact (each j p hj).1
  · apply List.ext_getElem?
    intro j
    rw [List.getElem?_map]
    cases hj : ps[j]? with
    | none =>
      rw [List.getElem?_eq_none_iff] at hj
      rw [Option.map_none, List.getElem?_eq_none_iff]; omega
    | some p => exact (each j p hj).2

/-- The register polynomials read off from the words. -/
noncomputable def wordPolys (sl k : ℕ) (I : List F → F[X]) (fWords : List (List F)) (r : ℕ) : F[X] :=
  if (I (fWords.getD r [])).natDegree ≤ sl * 2 ^ k then I (fWords.getD r []) else 0

omit [DecidableEq F] [StarkField F] in
theorem natDegree_wordPolys (sl k : ℕ) (I : List F → F[X]) (fWords : List (List F)) (r : ℕ) :
    (wordPolys sl k I fWords r).natDegree ≤ sl * 2 ^ k := by
  unfold wordPolys
  split
  · assumption
  · simp

/-! ### Instances a verifier can be built for -/

theorem Spec.Verifiable.maskPairs (h : Verifiable inst n k) (hk : k ≤ StarkField.S F) :
    ∃ ps : List (ℕ × F), masksOf (arpOf inst k) = ps.map toMask ∧ ∀ p ∈ ps, p.1 < n ∧ p.2 ^ 2 ^ k = 1 := by
  have key : ∀ m ∈ masksOf (arpOf inst k), ∃ p : ℕ × F, m = toMask p ∧ p.1 < n ∧ p.2 ^ 2 ^ k = 1 := by
    intro m hm
    rcases (mem_boundaryMasks _ _ _).1 hm with h' | ⟨b, hb, rfl⟩
    · rcases (mem_masks _ _ _).1 h' with h' | ⟨c, hc, u, hu, rfl⟩
      · simp at h'
      · obtain ⟨c0, hc0, rfl⟩ := List.mem_map.1 hc
        rw [factors_maskC] at hu
        obtain ⟨u0, hu0, rfl⟩ := List.mem_map.1 hu
        obtain ⟨⟨r, hr, er⟩, j, ej⟩ := h.reads c0 hc0 u0 hu0
        refine ⟨(r, genOf F k ^ j), ?_, hr, ?_⟩
        · simp [UnivariateTerm.maskProperties, toMask, maskU, ej, er]
        · rw [← pow_mul, mul_comm, pow_mul, genOf_pow_card hk, one_pow]
    · obtain ⟨⟨r, hr, er⟩, -⟩ := h.boundary b hb
      exact ⟨(r, 1), by simp [toMask, er], hr, one_pow _⟩
  generalize masksOf (arpOf inst k) = ms at key
  induction ms with
  | nil => exact ⟨[], rfl, by simp⟩
  | cons m ms ih =>
    obtain ⟨ps, e, hps⟩ := ih (fun m' hm' => key m' (List.mem_cons_of_mem _ hm'))
    obtain ⟨p, rfl, hp⟩ := key m List.mem_cons_self
    refine ⟨p :: ps, by rw [List.map_cons, e], ?_⟩
    intro q hq
    rcases List.mem_cons.1 hq with rfl | hq
    · exact hp
    · exact hps q hq

/-- At an enforced row the converted constraint of a satisfied instance vanishes. -/
theorem Spec.Verifiable.holds (h : Verifiable inst n k) {witness : List (List F)} {P : ℕ → F[X]}
    (hv : ∀ r, ∀ i, i < inst.numRows → (P r).eval (genOf F k ^ i) = cell witness r i)
    (hsat : Satisfies inst (cellR witness) inst.numRows) :
    ∀ c ∈ (arpOf inst k).constraints, ∀ d, c.density = .dense d → ∀ row ∈ enforcedRows d inst.numRows,
      constraintValue (pointEnv P (genOf F k ^ row)) c = 0 := by
  intro c hc d hcd row hrow
  obtain ⟨c0, hc0, rfl⟩ := List.mem_map.1 hc
  have h1 := Finset.mem_Ico.1 hrow
  obtain ⟨hin, hval⟩ := hsat.1 c0 hc0 row ⟨d, hcd, h1.1, by omega⟩
  have hsteps := h.reads c0 hc0
  rw [constraintValue_maskC (pointEnv P (genOf F k ^ row)) (fun r s => match r, s with
            | .register r, .steps j => (P r).eval (genOf F k ^ j * genOf F k ^ row)
            | _, _ => 0) (genOf F k) (by intro r j; cases r <;> rfl) (fun u hu => (hsteps u hu).2), ← hval]
  apply constraintValue_congr
  intro u hu
  obtain ⟨⟨r, hr, er⟩, ⟨m, em⟩⟩ := hsteps u hu
  rw [er, em]
  simp only [rowEnv, cellR]
  rw [← pow_add, Nat.add_comm m row]
  exact hv r _ (hin u hu m em)

/-- The constraints in the order in which the verifier goes through them. -/
def batched (inst : InstanceProperties F) (k : ℕ) : List (Constraint F) :=
  (batchesOf (arpOf inst k).constraints).flatMap (fun b => b.2)

theorem mem_batched {c : Constraint F} : c ∈ batched inst k ↔ c ∈ (arpOf inst k).constraints := (batchesOf_perm _).mem_iff

theorem length_batched : (batched inst k).length = inst.constraints.length := by
  rw [batched, (batchesOf_perm _).length_eq]
  simp [arpOf]

/-- The maximal degree. -/
abbrev degOf (inst : InstanceProperties F) (k : ℕ) : ℕ := maxDegree (arpOf inst k).constraints

theorem Spec.Verifiable.degPos (h : Verifiable inst n k) {b : BoundaryConstraint F} (hb : b ∈ inst.boundaryConstraints) :
    1 ≤ degOf inst k := by
  obtain ⟨c, hc, hd⟩ := h.degree (List.ne_nil_of_mem hb)
  have hm : maskC (genOf F k) c ∈ (arpOf inst k).constraints := List.mem_map.2 ⟨c, hc, rfl⟩
  exact le_trans (show 1 ≤ (maskC (genOf F k) c).degree from hd) (le_maxDegree hm)

/-- The constraints domain is large enough. -/
theorem domain_large (hK : 2 ^ K = nextPow2 (nextPow2 (degOf inst k) * 2 ^ k)) : 2 ^ k * degOf inst k ≤ 2 ^ K ∧ k ≤ K := by
  have h1 : nextPow2 (degOf inst k) * 2 ^ k ≤ 2 ^ K := by
    rw [hK]; exact Nat.le_pow_clog (by norm_num) _
  have h2 : degOf inst k ≤ nextPow2 (degOf inst k) := Nat.le_pow_clog (by norm_num) _
  have h3 : 1 ≤ nextPow2 (degOf inst k) := Nat.one_le_two_pow
  constructor
  · calc 2 ^ k * degOf inst k ≤ 2 ^ k * nextPow2 (degOf inst k) := Nat.mul_le_mul_left _ h2
      _ ≤ 2 ^ K := by rw [mul_comm]; exact h1
  · have : 2 ^ k ≤ 2 ^ K := le_trans (by simpa using Nat.mul_le_mul_right (2 ^ k) h3) h1
    exact (Nat.pow_le_pow_iff_right (by norm_num)).1 this

omit [Field F] [StarkField F] in
theorem lookup_zip_map {κ : Type} [DecidableEq κ] (ms : List κ) (f : κ → F) {m : κ} (hm : m ∈ ms) :
    (ms.zip (ms.map f)).lookup m = some (f m) := by
  induction ms with
  | nil => simp at hm
  | cons a ms ih =>
    rw [List.map_cons, List.zip_cons_cons, List.lookup_cons]
    by_cases h : m = a
    · subst h; simp
    · have : (m == a) = false := by simpa using h
      rw [this]
      exact ih ((List.mem_cons.1 hm).resolve_left h)

/-- The composition computed from openings that are the values of polynomials. -/
theorem calculateGAtZ_poly (h : Verifiable inst n k) {v : Verifier F} {factor : ℕ} (hb : VBuilt v inst k factor) (P : ℕ → F[X])
    {z : F} (hz : z ^ 2 ^ k ≠ 1) (cc bc : List (F × F))
    (hcc : cc.length = inst.constraints.length) (hbc : bc.length = inst.boundaryConstraints.length) :
    v.calculateGAtZ cc bc ((masksOf (arpOf inst k)).map (fun m => pointEnv P z m.register m.stepsDifference)) z =
      .ok (compositionAt (genOf F k) inst.numRows (degOf inst k) (pointEnv P z) ((batched inst k).zip cc)
        (inst.boundaryConstraints.zip bc) z) := by
  have hg := genOf_pow_card (F := F) hb.order
  have hbat : v.constraintsBatchedByDensity.flatMap (fun b => b.2) = batched inst k := by rw [hb.batches]; rfl
  rw [calculateGAtZ_iff h hb (by rw [hbat, length_batched]; exact hcc) hbc, hbat, hb.masks, hb.props, hb.power, hb.column]
  refine ⟨⟨by simp, fun _ => hz, ?_⟩, ?_⟩
  · intro b _ e
    apply hz
    rw [e]
    show (genOf F k ^ b.atRow) ^ 2 ^ k = 1
    rw [← pow_mul, mul_comm, pow_mul, hg, one_pow]
  · have hE : ∀ m ∈ masksOf (arpOf inst k), claimedEnv (masksOf (arpOf inst k))
        ((masksOf (arpOf inst k)).map (fun m => pointEnv P z m.register m.stepsDifference)) m.register m.stepsDifference =
        pointEnv P z m.register m.stepsDifference := by
      intro m hm
      unfold claimedEnv
      rw [show (⟨m.register, m.stepsDifference⟩ : MaskProperties F) = m from rfl,
        lookup_zip_map _ (fun m => pointEnv P z m.register m.stepsDifference) hm]
      rfl
    unfold compositionAt
    congr 2
    · apply List.map_congr_left
      intro c hc
      have hc' := mem_batched.1 (List.of_mem_zip hc).1
      congr 2
      apply constraintValue_congr
      intro u hu
      exact (hE ⟨u.register, u.stepsDifference⟩
        ((mem_boundaryMasks _ _ _).2 (Or.inl ((mem_masks _ _ _).2 (Or.inr ⟨c.1, hc', u, hu, rfl⟩))))).symm
    · apply List.map_congr_left
      intro b hbm
      have := hE ⟨b.1.register, .mask 1⟩ ((mem_boundaryMasks _ _ _).2 (Or.inr ⟨b.1, (List.of_mem_zip hbm).1, rfl⟩))
      simp only at this
      rw [this]
      rfl

/-- At a winning point, the polynomial of `g` has the value of the composition. -/
theorem wins_composition (h : Verifiable inst n k) (he : 1 ≤ e) {sl : ℕ} (hs1 : 1 ≤ sl) (hsl : sl < 2 ^ (e - 1)) (hS : K + e ≤ StarkField.S F) {v : Verifier F}
    (hv : VBuilt v inst k (2 ^ e)) (hdom : v.constraintsDomain = domOf F K)
    (hK : 2 ^ K = nextPow2 (nextPow2 (degOf inst k) * 2 ^ k)) {fWords : List (List F)} (hf : IsTable fWords n (2 ^ (k + e)))
    {I J : List F → F[X]}
    (hI : ∀ word, (I word).degree < (2 ^ (k + e - 1) : ℕ) ∧
      ∀ i, i < 2 ^ (k + e) → i % 2 = 1 → (I word).eval (genOf F (k + e) ^ i) = word.getD i 0)
    (hJ : ∀ word, (J word).degree < (2 ^ (K + e - 1) : ℕ) ∧
      ∀ i, i < 2 ^ (K + e) → i % 2 = 1 → (J word).eval (genOf F (K + e) ^ i) = word.getD i 0)
    {gWord : List F} {cc bc : List (F × F)} (hcc : cc.length = inst.constraints.length)
    (hbc : bc.length = inst.boundaryConstraints.length) {z : F} (hz : OutOfDomain v z)
    (hw : WinsAt v sl fWords gWord cc bc z) :
    z ^ 2 ^ k ≠ 1 ∧ (J gWord).natDegree ≤ sl * 2 ^ K ∧
      (J gWord).eval z = compositionAt (genOf F k) inst.numRows (degOf inst k) (pointEnv (wordPolys sl k I fWords) z)
        ((batched inst k).zip cc) (inst.boundaryConstraints.zip bc) z := by
  have hkK := (domain_large hK).2
  obtain ⟨ps, eps, hps⟩ := h.maskPairs hv.order
  have hm : v.allMasks = ps.map toMask := hv.masks.trans eps
  have s2 : v.constraintsDomain.size * v.ldeFactor = 2 ^ (K + e) := by
    rw [hdom, hv.factor]; exact (pow_add _ _ _).symm
  have d2 : Domain.newForSize F (2 ^ (K + e)) = .ok (domOf F (K + e)) := newForSize_pow hS
  have s3 : v.constraintsDomain.size = 2 ^ K := by rw [hdom]; rfl
  unfold OutOfDomain at hz
  rw [s2] at hz
  have hzN : z ^ 2 ^ (k + e) ≠ 1 := by
    intro hc
    apply hz
    rw [show 2 ^ (K + e) = 2 ^ (k + e) * 2 ^ (K - k) by rw [← pow_add]; congr 1; omega, pow_mul, hc, one_pow]
  have hzk : z ^ 2 ^ k ≠ 1 := by
    intro hc
    apply hzN
    rw [pow_add, pow_mul, hc, one_pow]
  have hpz : ∀ p ∈ ps, p.1 < n ∧ (p.2 * z) ^ 2 ^ (k + e) ≠ 1 := by
    intro p hp'
    refine ⟨(hps p hp').1, ?_⟩
    rw [mul_pow]
    have : p.2 ^ 2 ^ (k + e) = 1 := by rw [pow_add, pow_mul, (hps p hp').2, one_pow]
    rw [this, one_mul]
    exact hzN
  obtain ⟨y, αs, hy, hα, low1, ⟨c, dom, Q, h1, h2, h3, h4⟩, hl⟩ := hw
  rw [hm, List.length_map] at hy hα
  obtain ⟨hdeg, hyv⟩ := openings_correct he hs1 hsl (by omega) hv eps hf hpz hI hy hα low1 hl
  have hP : ∀ p ∈ ps, wordPolys sl k I fWords p.1 = I (fWords.getD p.1 []) := by
    intro p hp
    unfold wordPolys
    rw [if_pos (hdeg p hp)]
  have hc := calculateGAtZ_poly h hv (wordPolys sl k I fWords) hzk cc bc hcc hbc
  rw [eps, List.map_map] at hc
  have hyv' : y = ps.map ((fun m : MaskProperties F => pointEnv (wordPolys sl k I fWords) z m.register m.stepsDifference) ∘ toMask) := by
    rw [hyv]
    apply List.map_congr_left
    intro p hp
    simp only [Function.comp, toMask, pointEnv, hP p hp]
  rw [← hyv', h1] at hc
  have hc' := Res.ok.inj hc
  rw [s2, d2] at h2
  cases h2
  rw [s3] at h3
  have := deep_unique (m := sl * 2 ^ K) (by omega) hS (slack_lt he hsl) (hJ gWord).1 h3 hz (y := c) (by
    intro i hi ho
    obtain ⟨x, hx, hsim⟩ := h4 i hi ho
    have hxv : x = gWord.getD i 0 := by
      unfold rd at hx
      cases hgi : gWord[i]? with
      | none => rw [hgi] at hx; cases hx
      | some x' =>
        rw [hgi] at hx
        cases hx
        simp [List.getD_eq_getElem?_getD, hgi]
    unfold simulateH2 at hsim
    have hne : (domOf F (K + e)).generator ^ i - z ≠ 0 := domain_ne hS hz i
    simp only [inverse_of_ne hne, Res.okOr_some, Res.ok_bind, Res.pure_def] at hsim
    have := Res.ok.inj hsim
    rw [(hJ gWord).2 i hi ho, ← hxv]
    exact this.symm)
  exact ⟨hzk, this.1, this.2.trans hc'⟩

/-- Challenges for which some word of `g` wins often make the numerator vanish at all rows. -/
theorem winnable_numerator (h : Verifiable inst n k)
    (hdeg : ∀ c ∈ inst.constraints, ∀ t ∈ c.terms, termDegree t ≤ c.degree)
    (hrows : ∀ b ∈ inst.boundaryConstraints, b.atRow < inst.numRows) (he : 1 ≤ e) {sl : ℕ} (hs1 : 1 ≤ sl) (hsl : sl < 2 ^ (e - 1)) (hS : K + e ≤ StarkField.S F) {v : Verifier F}
    (hv : VBuilt v inst k (2 ^ e)) (hdom : v.constraintsDomain = domOf F K)
    (hK : 2 ^ K = nextPow2 (nextPow2 (degOf inst k) * 2 ^ k)) {fWords : List (List F)} (hf : IsTable fWords n (2 ^ (k + e)))
    {I : List F → F[X]}
    (hI : ∀ word, (I word).degree < (2 ^ (k + e - 1) : ℕ) ∧
      ∀ i, i < 2 ^ (k + e) → i % 2 = 1 → (I word).eval (genOf F (k + e) ^ i) = word.getD i 0)
    {cc bc : List (F × F)} (hcc : cc.length = inst.constraints.length)
    (hbc : bc.length = inst.boundaryConstraints.length) (hw : Winnable v sl fWords cc bc) (i : ℕ) :
    (numerator (genOf F k) (2 ^ k) inst.numRows (degOf inst k) (wordPolys sl k I fWords) ((batched inst k).zip cc)
      (inst.boundaryConstraints.zip bc)).eval (genOf F k ^ i) = 0 := by
  obtain ⟨gWord, -, hlp⟩ := hw
  obtain ⟨J, hJ⟩ := exists_interp_odd (by omega) hS
  have s3 : v.constraintsDomain.size = 2 ^ K := by rw [hdom]; rfl
  have s4 : v.columnDomain.size = 2 ^ k := by rw [hv.column]; rfl
  unfold LuckyPoint at hlp
  rw [s3, s4] at hlp
  have hne : (winningPoints v sl fWords gWord cc bc).Nonempty := by
    rw [Set.nonempty_iff_ne_empty]
    intro e'
    rw [e', Set.encard_empty] at hlp
    exact hlp (zero_le)
  obtain ⟨z0, hz0⟩ := hne
  have hG := (wins_composition h he hs1 hsl hS hv hdom hK hf hI hJ hcc hbc hz0.1 hz0.2).2.1
  refine numerator_zero (genOf_prim hv.order) (Nat.two_pow_pos k) h.rows.1
    (Nat.mul_pos hs1 (Nat.two_pow_pos k)) (natDegree_wordPolys sl k I fWords) (G := J gWord)
    (by rw [mul_assoc]; exact Nat.mul_le_mul_left _ (domain_large hK).1) hG _ _ ?_ ?_
    (S := winningPoints v sl fWords gWord cc bc) (by exact_mod_cast hlp) ?_ i
  · intro c hc
    have hc' := mem_batched.1 (List.of_mem_zip hc).1
    obtain ⟨d, hd, -⟩ := h.dense _ hc'
    obtain ⟨c0, hc0, e0⟩ := List.mem_map.1 hc'
    refine ⟨⟨d, hd⟩, le_maxDegree hc', ?_⟩
    rw [← e0]
    intro t ht
    obtain ⟨t0, ht0, rfl⟩ := List.mem_map.1 ht
    rw [termDegree_maskT]
    exact hdeg c0 hc0 t0 ht0
  · intro b hb
    exact ⟨lt_of_lt_of_le (hrows _ (List.of_mem_zip hb).1) h.rows.1, h.degPos (List.of_mem_zip hb).1⟩
  · intro z hz
    have := wins_composition h he hs1 hsl hS hv hdom hK hf hI hJ hcc hbc hz.1 hz.2
    exact ⟨this.1, this.2.2⟩

/-- The trace read off from the words. -/
noncomputable def extracted (n k R : ℕ) (P : ℕ → F[X]) : List (List F) :=
  tab n (fun r => tab R (fun i => (P r).eval (genOf F k ^ i)))

omit [DecidableEq F] in
theorem extracted_table (n k R : ℕ) (P : ℕ → F[X]) : IsTable (extracted n k R P) n R := by
  refine ⟨by simp [extracted], ?_⟩
  intro row hr
  obtain ⟨r, -, rfl⟩ := List.mem_map.1 hr
  simp

omit [DecidableEq F] in
theorem extracted_cell (n k R : ℕ) (P : ℕ → F[X]) {r i : ℕ} (hr : r < n) (hi : i < R) :
    cell (extracted n k R P) r i = (P r).eval (genOf F k ^ i) := by
  unfold cell extracted
  rw [List.getD_eq_getElem?_getD, List.getD_eq_getElem?_getD, getElem?_tab, if_pos hr, Option.getD_some, getElem?_tab, if_pos hi]
  rfl

/-- A trace that satisfies all constraints as polynomials satisfies the instance. -/
theorem satisfies_of_poly (h : Verifiable inst n k)
    (hbrows : ∀ b ∈ inst.boundaryConstraints, b.atRow < inst.numRows)
    (hspan : ∀ c ∈ inst.constraints, ∀ d, c.density = .dense d → ∀ t ∈ factors c, ∀ j, t.stepsDifference = .steps j → j ≤ d.span)
    {P : ℕ → F[X]}
    (hc : ∀ c ∈ (arpOf inst k).constraints, ∀ row ∈ rowsOf inst.numRows c,
      constraintValue (pointEnv P (genOf F k ^ row)) c = 0)
    (hb : ∀ b ∈ inst.boundaryConstraints, pointEnv P (genOf F k ^ b.atRow) b.register (.mask 1) = b.value.getD 0) :
    Satisfies inst (cellR (extracted n k inst.numRows P)) inst.numRows := by
  constructor
  · rintro c0 hc0 row ⟨d, hd, h1, h2⟩
    have hmem : maskC (genOf F k) c0 ∈ (arpOf inst k).constraints := List.mem_map.2 ⟨c0, hc0, rfl⟩
    have hin : ∀ t ∈ factors c0, ∀ j, t.stepsDifference = .steps j → row + j < inst.numRows := by
      intro t ht j hj
      have := hspan c0 hc0 d hd t ht j hj
      omega
    refine ⟨hin, ?_⟩
    have hrow : row ∈ rowsOf inst.numRows (maskC (genOf F k) c0) := by
      have : rowsOf inst.numRows (maskC (genOf F k) c0) = enforcedRows d inst.numRows := by
        simp only [rowsOf, show (maskC (genOf F k) c0).density = c0.density from rfl, hd]
      rw [this]
      exact Finset.mem_Ico.2 ⟨h1, by omega⟩
    have hval := hc _ hmem row hrow
    have hsteps := h.reads c0 hc0
    rw [constraintValue_maskC (pointEnv P (genOf F k ^ row)) (fun r s => match r, s with
            | .register r, .steps j => (P r).eval (genOf F k ^ j * genOf F k ^ row)
            | _, _ => 0) (genOf F k) (by intro r j; cases r <;> rfl) (fun u hu => (hsteps u hu).2)] at hval
    rw [← hval]
    apply constraintValue_congr
    intro u hu
    obtain ⟨⟨r, hr, er⟩, ⟨m, em⟩⟩ := hsteps u hu
    rw [er, em]
    simp only [rowEnv, cellR]
    rw [extracted_cell n k _ P hr (hin u hu m em), ← pow_add, Nat.add_comm m row]
  · intro b hbm v ev
    obtain ⟨⟨r, hr, er⟩, -⟩ := h.boundary b hbm
    have := hb b hbm
    rw [er, ev, Option.getD_some] at this
    simp only [pointEnv, one_mul] at this
    rw [er]
    simp only [cellR]
    rw [extracted_cell n k _ P hr (hbrows b hbm), this]

omit [DecidableEq F] [StarkField F] in
/-- The weight is injective in one of the two challenges. -/
theorem weight_inj {D : ℕ} {p : F × F} {x a : F} :
    (D = 0 → weightAt D (a, p.2) x = weightAt D p x → a = p.1) ∧
    (D ≠ 0 → weightAt D (p.1, a) x = weightAt D p x → a = p.2) := by
  constructor
  · intro h e
    simpa [weightAt, h] using e
  · intro h e
    simpa [weightAt, h] using e

/-- Challenges which make the numerator vanish at all rows: either the trace read off from the polynomials satisfies the instance or there was luck
with a constraint challenge. -/
theorem numerator_luck (h : Verifiable inst n k) (hk : k ≤ StarkField.S F)
    (hbrows : ∀ b ∈ inst.boundaryConstraints, b.atRow < inst.numRows)
    (hspan : ∀ c ∈ inst.constraints, ∀ d, c.density = .dense d → ∀ t ∈ factors c, ∀ j, t.stepsDifference = .steps j → j ≤ d.span)
    {P : ℕ → F[X]} {W : List (F × F) → List (F × F) → Prop}
    (hW : ∀ cc bc, cc.length = inst.constraints.length → bc.length = inst.boundaryConstraints.length → W cc bc → ∀ i,
      (numerator (genOf F k) (2 ^ k) inst.numRows (degOf inst k) P ((batched inst k).zip cc)
        (inst.boundaryConstraints.zip bc)).eval (genOf F k ^ i) = 0)
    {cc bc : List (F × F)} (hcc : cc.length = inst.constraints.length)
    (hbc : bc.length = inst.boundaryConstraints.length) (hw : W cc bc)
    (hsat : ¬ Satisfies inst (cellR (extracted n k inst.numRows P)) inst.numRows) : OnlyValue W cc bc := by
  have hg := genOf_prim (F := F) hk
  have base := hW cc bc hcc hbc hw
  by_cases hc : ∀ c ∈ (arpOf inst k).constraints, ∀ row ∈ rowsOf inst.numRows c,
      constraintValue (pointEnv P (genOf F k ^ row)) c = 0
  · have hb : ¬ ∀ b ∈ inst.boundaryConstraints,
        pointEnv P (genOf F k ^ b.atRow) b.register (.mask 1) = b.value.getD 0 :=
      fun hb => hsat (satisfies_of_poly h hbrows hspan hc hb)
    push Not at hb
    obtain ⟨b, hbm, hne⟩ := hb
    obtain ⟨j, hj⟩ := List.getElem?_of_mem hbm
    have hjl : j < bc.length := by
      rw [hbc]; rw [List.getElem?_eq_some_iff] at hj; exact hj.1
    obtain ⟨p, hp⟩ : ∃ p, bc[j]? = some p := ⟨bc[j], List.getElem?_eq_getElem hjl⟩
    have cof := rest_ne hg (rows := {b.atRow}) (Finset.mem_singleton_self _) (lt_of_lt_of_le (hbrows b hbm) h.rows.1)
    have hne' := sub_ne_zero.2 hne
    have diff : ∀ q, W cc (bc.set j q) →
        weightAt (degOf inst k - 1) q (genOf F k ^ b.atRow) = weightAt (degOf inst k - 1) p (genOf F k ^ b.atRow) := by
      intro q hq
      have e2 := hW _ _ hcc (by rw [List.length_set]; exact hbc) hq b.atRow
      have e1 := base b.atRow
      unfold numerator at e1 e2
      rw [eval_add, eval_sum_map, eval_sum_map] at e1 e2
      have e3 := sum_zip_set (fun x => (numB (genOf F k) (2 ^ k) (degOf inst k) P x).eval (genOf F k ^ b.atRow))
        inst.boundaryConstraints bc j b p q hj hp
      have e4 := eval_numB (genOf F k) (2 ^ k) (degOf inst k) P (b, q) (genOf F k ^ b.atRow)
      have e5 := eval_numB (genOf F k) (2 ^ k) (degOf inst k) P (b, p) (genOf F k ^ b.atRow)
      have e6 := e3.symm.trans (show _ = (0 : F) by linear_combination e2 - e1)
      rw [e4, e5] at e6
      have e7 : (pointEnv P (genOf F k ^ b.atRow) b.register (.mask 1) - b.value.getD 0) *
          zerofierAt (genOf F k) (restRows (2 ^ k) {b.atRow}) (genOf F k ^ b.atRow) *
          (weightAt (degOf inst k - 1) q (genOf F k ^ b.atRow) - weightAt (degOf inst k - 1) p (genOf F k ^ b.atRow)) = 0 := by
        linear_combination e6
      rcases mul_eq_zero.1 e7 with h' | h'
      · rcases mul_eq_zero.1 h' with h' | h'
        · exact absurd h' hne'
        · exact absurd h' cof
      · exact sub_eq_zero.1 h'
    refine .inr ⟨j, p, hp, ?_⟩
    by_cases hD : degOf inst k - 1 = 0
    · exact .inl (fun x hx => weight_inj.1 hD (diff _ hx))
    · exact .inr (fun x hx => weight_inj.2 hD (diff _ hx))
  · push Not at hc
    obtain ⟨c, hcm, row, hrow, hne⟩ := hc
    obtain ⟨j, hj⟩ := List.getElem?_of_mem (mem_batched.2 hcm)
    have hjl : j < cc.length := by
      rw [hcc, ← length_batched (k := k)]; rw [List.getElem?_eq_some_iff] at hj; exact hj.1
    obtain ⟨p, hp⟩ : ∃ p, cc[j]? = some p := ⟨cc[j], List.getElem?_eq_getElem hjl⟩
    have hlt : row < 2 ^ k := by
      obtain ⟨d, hd, -⟩ := h.dense c hcm
      have hrow' := hrow
      simp only [rowsOf, hd] at hrow'
      have h1 := (Finset.mem_Ico.1 hrow').2
      have h2 := h.rows.1
      omega
    have cof := rest_ne hg hrow hlt
    have diff : ∀ q, W (cc.set j q) bc →
        weightAt (degOf inst k - c.degree) q (genOf F k ^ row) = weightAt (degOf inst k - c.degree) p (genOf F k ^ row) := by
      intro q hq
      have e2 := hW _ _ (by rw [List.length_set]; exact hcc) hbc hq row
      have e1 := base row
      unfold numerator at e1 e2
      rw [eval_add, eval_sum_map, eval_sum_map] at e1 e2
      have e3 := sum_zip_set (fun x => (numC (genOf F k) (2 ^ k) inst.numRows (degOf inst k) P x).eval (genOf F k ^ row))
        (batched inst k) cc j c p q hj hp
      have e4 := eval_numC (genOf F k) (2 ^ k) inst.numRows (degOf inst k) P (c, q) (genOf F k ^ row)
      have e5 := eval_numC (genOf F k) (2 ^ k) inst.numRows (degOf inst k) P (c, p) (genOf F k ^ row)
      have e6 := e3.symm.trans (show _ = (0 : F) by linear_combination e2 - e1)
      rw [e4, e5] at e6
      have e7 : constraintValue (pointEnv P (genOf F k ^ row)) c *
          zerofierAt (genOf F k) (restRows (2 ^ k) (rowsOf inst.numRows c)) (genOf F k ^ row) *
          (weightAt (degOf inst k - c.degree) q (genOf F k ^ row) - weightAt (degOf inst k - c.degree) p (genOf F k ^ row)) = 0 := by
        linear_combination e6
      rcases mul_eq_zero.1 e7 with h' | h'
      · rcases mul_eq_zero.1 h' with h' | h'
        · exact absurd h' hne
        · exact absurd h' cof
      · exact sub_eq_zero.1 h'
    refine .inl ⟨j, p, hp, ?_⟩
    by_cases hD : degOf inst k - c.degree = 0
    · exact .inl (fun x hx => weight_inj.1 hD (diff _ hx))
    · exact .inr (fun x hx => weight_inj.2 hD (diff _ hx))

/-- Challenges for which some word of `g` wins often: either the trace read off from the words satisfies the instance or
there was luck with a constraint challenge. -/
theorem winnable_sound (h : Verifiable inst n k)
    (hdeg : ∀ c ∈ inst.constraints, ∀ t ∈ c.terms, termDegree t ≤ c.degree)
    (hbrows : ∀ b ∈ inst.boundaryConstraints, b.atRow < inst.numRows) (he : 1 ≤ e) {sl : ℕ} (hs1 : 1 ≤ sl) (hsl : sl < 2 ^ (e - 1)) (hS : K + e ≤ StarkField.S F) {v : Verifier F}
    (hv : VBuilt v inst k (2 ^ e)) (hdom : v.constraintsDomain = domOf F K)
    (hK : 2 ^ K = nextPow2 (nextPow2 (degOf inst k) * 2 ^ k)) {fWords : List (List F)} (hf : IsTable fWords n (2 ^ (k + e)))
    (hspan : ∀ c ∈ inst.constraints, ∀ d, c.density = .dense d → ∀ t ∈ factors c, ∀ j, t.stepsDifference = .steps j → j ≤ d.span)
    {I : List F → F[X]}
    (hI : ∀ word, (I word).degree < (2 ^ (k + e - 1) : ℕ) ∧
      ∀ i, i < 2 ^ (k + e) → i % 2 = 1 → (I word).eval (genOf F (k + e) ^ i) = word.getD i 0)
    {cc bc : List (F × F)} (hcc : cc.length = inst.constraints.length)
    (hbc : bc.length = inst.boundaryConstraints.length) (hw : Winnable v sl fWords cc bc) :
    Satisfies inst (cellR (extracted n k inst.numRows (wordPolys sl k I fWords))) inst.numRows ∨ LuckyConstraint v sl fWords cc bc := by
  by_cases hsat : Satisfies inst (cellR (extracted n k inst.numRows (wordPolys sl k I fWords))) inst.numRows
  · exact .inl hsat
  right
  exact numerator_luck h hv.order hbrows hspan
    (fun _ _ hcc hbc hw => winnable_numerator h hdeg hbrows he hs1 hsl hS hv hdom hK hf hI hcc hbc hw) hcc hbc hw hsat

end

end Hodor

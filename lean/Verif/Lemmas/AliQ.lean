import Verif.Lemmas.AliG2

/-! # Quotients of constraints as polynomials -/

namespace Hodor

open Polynomial Finset Spec

variable {F : Type} [Field F]

theorem eval_zerofier (g : F) (rows : Finset ℕ) (x : F) : (zerofier g rows).eval x = zerofierAt g rows x := by
  simp [zerofier, zerofierAt, eval_prod]

/-- A polynomial is divisible by the zerofier of some rows iff it vanishes at them. -/
theorem zerofier_dvd_iff {g : F} {n : ℕ} (hg : IsPrimitiveRoot g n) {rows : Finset ℕ} (hr : ∀ i ∈ rows, i < n)
    (p : F[X]) : zerofier g rows ∣ p ↔ ∀ i ∈ rows, p.eval (g ^ i) = 0 := by
  constructor
  · rintro ⟨q, rfl⟩ i hi
    rw [eval_mul, eval_zerofier, zerofierAt, Finset.prod_eq_zero hi (by simp), zero_mul]
  · intro h
    unfold zerofier
    apply Finset.prod_dvd_of_coprime
    · intro i hi j hj hij
      apply isCoprime_X_sub_C_of_isUnit_sub
      rw [isUnit_iff_ne_zero, sub_ne_zero]
      intro e
      exact hij (hg.pow_inj (hr i hi) (hr j hj) e)
    · intro i hi
      exact dvd_iff_isRoot.2 (h i hi)

theorem degree_of_mul_monic {p q z : F[X]} (hz : z.Monic) {N : ℕ} (h : p = z * q) (hp : p.degree < N) : q.degree < N := by
  by_cases hq : q = 0
  · rw [hq, degree_zero]; exact WithBot.bot_lt_coe N
  · refine lt_of_le_of_lt ?_ hp
    rw [h, degree_mul, degree_eq_natDegree hz.ne_zero, degree_eq_natDegree hq]
    exact_mod_cast Nat.le_add_left _ _

theorem monic_zerofier (g : F) (rows : Finset ℕ) : (zerofier g rows).Monic :=
  monic_prod_of_monic _ _ (fun _ _ => monic_X_sub_C _)

theorem natDegree_of_mul_monic {p q z : F[X]} (hz : z.Monic) (h : p = z * q) : q.natDegree ≤ p.natDegree := by
  by_cases hq : q = 0
  · rw [hq]; simp
  · rw [h, hz.natDegree_mul' hq]; omega

/-- The weight as a polynomial. -/
noncomputable def weightPoly (n : ℕ) (αβ : F × F) : F[X] := if n = 0 then C αβ.1 else C αβ.1 * X ^ n + C αβ.2

theorem eval_weightPoly (n : ℕ) (αβ : F × F) (x : F) : (weightPoly n αβ).eval x = weightAt n αβ x := by
  unfold weightPoly weightAt
  split <;> simp

theorem natDegree_weightPoly (n : ℕ) (αβ : F × F) : (weightPoly n αβ).natDegree ≤ n := by
  unfold weightPoly
  split
  · simp
  · refine (natDegree_add_le _ _).trans (max_le ?_ (by simp))
    exact natDegree_C_mul_X_pow_le _ _

theorem degree_lt_of_natDegree {p : F[X]} {d N : ℕ} (h : p.natDegree ≤ d) (hd : d < N) : p.degree < N :=
  lt_of_le_of_lt degree_le_natDegree (by exact_mod_cast lt_of_le_of_lt h hd)

theorem natDegree_le_of_degree {p : F[X]} {N : ℕ} (h : p.degree < N) : p.natDegree ≤ N - 1 := by
  by_cases h0 : p = 0
  · simp [h0]
  · rw [degree_eq_natDegree h0] at h
    have : p.natDegree < N := by exact_mod_cast h
    omega

/-- Pointwise sums of polynomials are polynomials. -/
theorem exists_sum_poly {α : Type} (l : List α) (v : α → F → F) (good : F → Prop) (N : ℕ)
    (h : ∀ a ∈ l, ∃ Q : F[X], Q.degree < N ∧ ∀ x, good x → Q.eval x = v a x) :
    ∃ Q : F[X], Q.degree < N ∧ ∀ x, good x → Q.eval x = (l.map (fun a => v a x)).sum := by
  induction l with
  | nil => exact ⟨0, by rw [degree_zero]; exact WithBot.bot_lt_coe N, by simp⟩
  | cons a l ih =>
    obtain ⟨Q1, hd1, hv1⟩ := h a List.mem_cons_self
    obtain ⟨Q2, hd2, hv2⟩ := ih (fun b hb => h b (List.mem_cons_of_mem _ hb))
    refine ⟨Q1 + Q2, (degree_add_le _ _).trans_lt (max_lt hd1 hd2), ?_⟩
    intro x hx
    simp [hv1 x hx, hv2 x hx]

theorem zerofierAt_ne {g : F} {n : ℕ} (hg : IsPrimitiveRoot g n) {x : F} (hx : x ^ n ≠ 1) (rows : Finset ℕ) :
    zerofierAt g rows x ≠ 0 := by
  unfold zerofierAt
  rw [Finset.prod_ne_zero_iff]
  intro i _ h
  apply hx
  rw [sub_eq_zero.1 h, ← pow_mul, mul_comm, pow_mul, hg.pow_eq_one, one_pow]

theorem sub_pow_ne {g : F} {n : ℕ} (hg : IsPrimitiveRoot g n) {x : F} (hx : x ^ n ≠ 1) (i : ℕ) : x - g ^ i ≠ 0 := by
  intro h
  apply hx
  rw [sub_eq_zero.1 h, ← pow_mul, mul_comm, pow_mul, hg.pow_eq_one, one_pow]

/-- A constraint that holds at all its enforced rows has a polynomial quotient of bounded degree. -/
theorem exists_quotient {g : F} {T : ℕ} (hg : IsPrimitiveRoot g T) (hT : 2 ≤ T) {P : ℕ → F[X]}
    (hP : ∀ r, (P r).degree < T) {numRows D : ℕ} (hnr : numRows ≤ T) {c : Constraint F} {d : DenseConstraint}
    (hd : c.density = .dense d) (hD : c.degree ≤ D) (hD1 : 1 ≤ D) (hc : ∀ t ∈ c.terms, termDegree t ≤ c.degree)
    (hs : ∀ row ∈ enforcedRows d numRows, constraintValue (pointEnv P (g ^ row)) c = 0) (αβ : F × F) :
    ∃ Q : F[X], Q.degree < (T * D : ℕ) ∧ ∀ x, x ^ T ≠ 1 →
      Q.eval x = constraintValue (pointEnv P x) c * weightAt (D - c.degree) αβ x / divisorAt g numRows c x := by
  have hrows : ∀ i ∈ enforcedRows d numRows, i < T := by
    intro i hi
    have := (Finset.mem_Ico.1 hi).2
    omega
  obtain ⟨Q, hQ⟩ := (zerofier_dvd_iff hg hrows (constraintPoly P c)).2 (fun i hi => by
    rw [eval_constraintPoly]; exact hs i hi)
  refine ⟨Q * weightPoly (D - c.degree) αβ, ?_, ?_⟩
  · have h1 := natDegree_of_mul_monic (monic_zerofier g _) hQ
    have h2 := natDegree_constraintPoly P (T - 1) c.degree (fun r => natDegree_le_of_degree (hP r)) c hc
    have h3 := natDegree_weightPoly (D - c.degree) αβ
    refine degree_lt_of_natDegree (natDegree_mul_le.trans (Nat.add_le_add (h1.trans h2) h3)) ?_
    obtain ⟨S, rfl⟩ := Nat.exists_eq_add_of_le hT
    obtain ⟨e, rfl⟩ := Nat.exists_eq_add_of_le hD
    have : 2 + S - 1 = 1 + S := by omega
    rw [this, Nat.add_sub_cancel_left]
    nlinarith [Nat.zero_le (S * e), Nat.zero_le (S * c.degree)]
  · intro x hx
    have hz := zerofierAt_ne hg hx (enforcedRows d numRows)
    have e := congrArg (eval x) hQ
    rw [eval_constraintPoly, eval_mul, eval_zerofier] at e
    rw [eval_mul, eval_weightPoly, e]
    simp only [divisorAt, hd]
    field_simp

/-- The same for boundary constraints. -/
theorem exists_boundary_quotient {g : F} {T : ℕ} (hg : IsPrimitiveRoot g T) (hT : 2 ≤ T) {P : ℕ → F[X]}
    (hP : ∀ r, (P r).degree < T) {D : ℕ} {b : BoundaryConstraint F} {r : ℕ} (hr : b.register = .register r)
    (hD1 : 1 ≤ D) (hs : (P r).eval (g ^ b.atRow) = b.value.getD 0) (αβ : F × F) :
    ∃ Q : F[X], Q.degree < (T * D : ℕ) ∧ ∀ x, x ^ T ≠ 1 →
      Q.eval x = (pointEnv P x b.register (.mask 1) - b.value.getD 0) * weightAt (D - 1) αβ x
        / (x - g ^ b.atRow) := by
  obtain ⟨Q, hQ⟩ : X - C (g ^ b.atRow) ∣ P r - C (b.value.getD 0) := by
    rw [dvd_iff_isRoot]
    simp [hs]
  refine ⟨Q * weightPoly (D - 1) αβ, ?_, ?_⟩
  · have h1 := natDegree_of_mul_monic (monic_X_sub_C _) hQ
    have h2 : (P r - C (b.value.getD 0)).natDegree ≤ T - 1 := by
      rw [natDegree_sub_C]; exact natDegree_le_of_degree (hP r)
    have h3 := natDegree_weightPoly (D - 1) αβ
    refine degree_lt_of_natDegree (natDegree_mul_le.trans (Nat.add_le_add (h1.trans h2) h3)) ?_
    obtain ⟨S, rfl⟩ := Nat.exists_eq_add_of_le hT
    obtain ⟨e, rfl⟩ := Nat.exists_eq_add_of_le hD1
    have : 2 + S - 1 = 1 + S := by omega
    rw [this, Nat.add_sub_cancel_left]
    nlinarith [Nat.zero_le (S * e)]
  · intro x hx
    have hz := sub_pow_ne hg hx b.atRow
    have e := congrArg (eval x) hQ
    simp only [eval_sub, eval_mul, eval_X, eval_C] at e
    rw [eval_mul, eval_weightPoly, hr]
    simp only [pointEnv, one_mul]
    rw [e]
    field_simp

/-- For a satisfied instance the composition is a polynomial of degree below `T * D`. -/
theorem exists_composition {g : F} {T : ℕ} (hg : IsPrimitiveRoot g T) (hT : 2 ≤ T) {P : ℕ → F[X]}
    (hP : ∀ r, (P r).degree < T) {numRows D : ℕ} (hnr : numRows ≤ T) (hD1 : 1 ≤ D)
    (cs : List (Constraint F × F × F)) (bs : List (BoundaryConstraint F × F × F))
    (hc : ∀ c ∈ cs, ∃ d, c.1.density = .dense d ∧ c.1.degree ≤ D ∧ (∀ t ∈ c.1.terms, termDegree t ≤ c.1.degree) ∧
      ∀ row ∈ enforcedRows d numRows, constraintValue (pointEnv P (g ^ row)) c.1 = 0)
    (hb : ∀ b ∈ bs, ∃ r, b.1.register = .register r ∧ (P r).eval (g ^ b.1.atRow) = b.1.value.getD 0) :
    ∃ Q : F[X], Q.degree < (T * D : ℕ) ∧ ∀ x, x ^ T ≠ 1 →
      Q.eval x = compositionAt g numRows D (pointEnv P x) cs bs x := by
  obtain ⟨Q1, hd1, hv1⟩ := exists_sum_poly cs (fun c x => constraintValue (pointEnv P x) c.1 *
    weightAt (D - c.1.degree) c.2 x / divisorAt g numRows c.1 x) (fun x => x ^ T ≠ 1) (T * D) (by
      intro c hcc
      obtain ⟨d, h1, h2, h3, h4⟩ := hc c hcc
      exact exists_quotient hg hT hP hnr h1 h2 hD1 h3 h4 c.2)
  obtain ⟨Q2, hd2, hv2⟩ := exists_sum_poly bs (fun b x => (pointEnv P x b.1.register (.mask 1) - b.1.value.getD 0) *
    weightAt (D - 1) b.2 x / (x - g ^ b.1.atRow)) (fun x => x ^ T ≠ 1) (T * D) (by
      intro b hbb
      obtain ⟨r, h1, h2⟩ := hb b hbb
      exact exists_boundary_quotient hg hT hP h1 hD1 h2 b.2)
  refine ⟨Q1 + Q2, (degree_add_le _ _).trans_lt (max_lt hd1 hd2), ?_⟩
  intro x hx
  rw [eval_add, hv1 x hx, hv2 x hx]
  rfl

end Hodor

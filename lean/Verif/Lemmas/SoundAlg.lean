import Verif.Lemmas.AliQ
import Mathlib.Data.Set.Card

/-! # Algebra of the soundness argument -/

namespace Hodor

open Polynomial Finset Spec

variable {F : Type} [Field F]

/-- The rows that are left out. -/
def restRows (T : ℕ) (rows : Finset ℕ) : Finset ℕ := range T \ rows

theorem zerofier_mul_rest {g : F} {T : ℕ} (hg : IsPrimitiveRoot g T) (hT : 0 < T) {rows : Finset ℕ}
    (hr : ∀ i ∈ rows, i < T) (x : F) : zerofierAt g rows x * zerofierAt g (restRows T rows) x = x ^ T - 1 := by
  unfold zerofierAt restRows
  rw [mul_comm, Finset.prod_sdiff (fun i hi => mem_range.2 (hr i hi)), pow_sub_one_eq_prod hg hT]

theorem rest_ne {g : F} {T : ℕ} (hg : IsPrimitiveRoot g T) {rows : Finset ℕ} {i : ℕ} (hi : i ∈ rows) (hiT : i < T) :
    zerofierAt g (restRows T rows) (g ^ i) ≠ 0 := by
  unfold zerofierAt restRows
  rw [Finset.prod_ne_zero_iff]
  intro j hj e
  rw [mem_sdiff, mem_range] at hj
  have := hg.pow_inj hiT hj.1 (sub_eq_zero.1 e)
  subst this
  exact hj.2 hi

theorem natDegree_zerofier_rest (g : F) (T : ℕ) (rows : Finset ℕ) : (zerofier g (restRows T rows)).natDegree ≤ T := by
  unfold zerofier
  refine (natDegree_prod_le _ _).trans ?_
  calc ∑ i ∈ restRows T rows, (X - C (g ^ i)).natDegree = ∑ i ∈ restRows T rows, 1 :=
        Finset.sum_congr rfl (fun i _ => natDegree_X_sub_C _)
    _ = (restRows T rows).card := by simp
    _ ≤ (range T).card := card_le_card sdiff_subset
    _ = T := card_range T

section
variable (g : F) (T R D : ℕ) (P : ℕ → F[X])

/-- Enforced rows of a constraint. -/
def rowsOf (numRows : ℕ) (c : Constraint F) : Finset ℕ :=
  match c.density with
  | .dense d => enforcedRows d numRows
  | _ => ∅

/-- Numerator of a constraint over the common denominator `x^T - 1`. -/
noncomputable def numC (c : Constraint F × F × F) : F[X] :=
  constraintPoly P c.1 * weightPoly (D - c.1.degree) c.2 * zerofier g (restRows T (rowsOf R c.1))

/-- Numerator of a boundary constraint over the common denominator `x^T - 1`. -/
noncomputable def numB (b : BoundaryConstraint F × F × F) : F[X] :=
  (uniPoly P ⟨1, b.1.register, .mask 1, 1⟩ - C (b.1.value.getD 0)) * weightPoly (D - 1) b.2 *
    zerofier g (restRows T {b.1.atRow})

/-- Numerator of the composition. -/
noncomputable def numerator (cs : List (Constraint F × F × F)) (bs : List (BoundaryConstraint F × F × F)) : F[X] :=
  (cs.map (numC g T R D P)).sum + (bs.map (numB g T D P)).sum

end

theorem eval_sum_map {α : Type} (l : List α) (p : α → F[X]) (x : F) :
    ((l.map p).sum).eval x = (l.map (fun a => (p a).eval x)).sum := by
  rw [← coe_evalRingHom, map_list_sum, List.map_map]
  rfl

theorem eval_numC (g : F) (T R D : ℕ) (P : ℕ → F[X]) (c : Constraint F × F × F) (x : F) :
    (numC g T R D P c).eval x = constraintValue (pointEnv P x) c.1 * weightAt (D - c.1.degree) c.2 x *
      zerofierAt g (restRows T (rowsOf R c.1)) x := by
  unfold numC
  rw [eval_mul, eval_mul, eval_constraintPoly, eval_weightPoly, eval_zerofier]

theorem eval_numB (g : F) (T D : ℕ) (P : ℕ → F[X]) (b : BoundaryConstraint F × F × F) (x : F) :
    (numB g T D P b).eval x = (pointEnv P x b.1.register (.mask 1) - b.1.value.getD 0) * weightAt (D - 1) b.2 x *
      zerofierAt g (restRows T {b.1.atRow}) x := by
  unfold numB
  rw [eval_mul, eval_mul, eval_sub, eval_uniPoly, eval_weightPoly, eval_zerofier, eval_C]
  simp [uniValue]

theorem eval_numerator {g : F} {T R : ℕ} (hg : IsPrimitiveRoot g T) (hT : 0 < T) (hR : R ≤ T) (D : ℕ) (P : ℕ → F[X])
    (cs : List (Constraint F × F × F)) (bs : List (BoundaryConstraint F × F × F))
    (hc : ∀ c ∈ cs, ∃ d, c.1.density = .dense d) (hb : ∀ b ∈ bs, b.1.atRow < T) {x : F} (hx : x ^ T ≠ 1) :
    (numerator g T R D P cs bs).eval x = compositionAt g R D (pointEnv P x) cs bs x * (x ^ T - 1) := by
  unfold numerator compositionAt
  rw [eval_add, eval_sum_map, eval_sum_map, add_mul, ← List.sum_map_mul_right, ← List.sum_map_mul_right]
  congr 2
  · apply List.map_congr_left
    intro c hcm
    obtain ⟨d, hd⟩ := hc c hcm
    have hr : ∀ i ∈ enforcedRows d R, i < T := by
      intro i hi
      have := (Finset.mem_Ico.1 hi).2
      omega
    have hne := zerofierAt_ne hg hx (enforcedRows d R)
    rw [eval_numC, ← zerofier_mul_rest hg hT hr x]
    simp only [divisorAt, rowsOf, hd]
    field_simp
  · apply List.map_congr_left
    intro b hbm
    have hr : ∀ i ∈ ({b.1.atRow} : Finset ℕ), i < T := by
      intro i hi
      rw [Finset.mem_singleton] at hi
      subst hi
      exact hb b hbm
    have hne := sub_pow_ne hg hx b.1.atRow
    have e : zerofierAt g {b.1.atRow} x = x - g ^ b.1.atRow := by simp [zerofierAt]
    rw [eval_numB, ← zerofier_mul_rest hg hT hr x, e]
    field_simp

theorem natDegree_sum_map {α : Type} (l : List α) (p : α → F[X]) (N : ℕ) (h : ∀ a ∈ l, (p a).natDegree ≤ N) :
    ((l.map p).sum).natDegree ≤ N := by
  induction l with
  | nil => simp
  | cons a l ih =>
    rw [List.map_cons, List.sum_cons]
    exact (natDegree_add_le _ _).trans (max_le (h a List.mem_cons_self) (ih (fun b hb => h b (List.mem_cons_of_mem _ hb))))

theorem natDegree_numerator {g : F} {T R M : ℕ} (hT : 0 < M) {D : ℕ} {P : ℕ → F[X]}
    (hP : ∀ r, (P r).natDegree ≤ M)
    (cs : List (Constraint F × F × F)) (bs : List (BoundaryConstraint F × F × F))
    (hc : ∀ c ∈ cs, c.1.degree ≤ D ∧ ∀ t ∈ c.1.terms, termDegree t ≤ c.1.degree) (hb : ∀ b ∈ bs, b.1.atRow < T ∧ 1 ≤ D) :
    (numerator g T R D P cs bs).natDegree ≤ M * D + T := by
  unfold numerator
  refine (natDegree_add_le _ _).trans (max_le (natDegree_sum_map _ _ _ ?_) (natDegree_sum_map _ _ _ ?_))
  · intro c hcm
    obtain ⟨h1, h2⟩ := hc c hcm
    unfold numC
    refine natDegree_mul_le.trans (Nat.add_le_add (natDegree_mul_le.trans ((Nat.add_le_add
      (natDegree_constraintPoly P M c.1.degree hP c.1 h2) (natDegree_weightPoly _ _)).trans ?_))
      (natDegree_zerofier_rest g T _))
    obtain ⟨m, hm⟩ := Nat.exists_eq_add_of_le h1
    obtain ⟨S, rfl⟩ := Nat.exists_eq_add_of_le (Nat.succ_le_of_lt hT)
    rw [hm, Nat.add_sub_cancel_left]
    nlinarith [Nat.zero_le (S * m)]
  · intro b hbm
    unfold numB
    have h1 : (uniPoly P ⟨1, b.1.register, .mask 1, 1⟩ - C (b.1.value.getD 0)).natDegree ≤ M := by
      rw [natDegree_sub_C]
      simpa using natDegree_uniPoly P M hP ⟨1, b.1.register, .mask 1, 1⟩
    refine natDegree_mul_le.trans ((Nat.add_le_add (natDegree_mul_le.trans (Nat.add_le_add h1 (natDegree_weightPoly _ _)))
      (natDegree_zerofier_rest g T _)).trans ?_)
    obtain ⟨m, rfl⟩ := Nat.exists_eq_add_of_le (hb b hbm).2
    obtain ⟨S, rfl⟩ := Nat.exists_eq_add_of_le (Nat.succ_le_of_lt hT)
    rw [Nat.add_sub_cancel_left]
    nlinarith [Nat.zero_le (S * m)]

/-- When the composition agrees with a polynomial at many points, it is that polynomial. -/
theorem numerator_eq {g : F} {T R M N : ℕ} (hg : IsPrimitiveRoot g T) (hT : 0 < T) (hR : R ≤ T) (hM : 0 < M) {D : ℕ} {P : ℕ → F[X]}
    (hP : ∀ r, (P r).natDegree ≤ M) {G : F[X]} (hN : M * D ≤ N) (hG : G.natDegree ≤ N)
    (cs : List (Constraint F × F × F)) (bs : List (BoundaryConstraint F × F × F))
    (hc : ∀ c ∈ cs, (∃ d, c.1.density = .dense d) ∧ c.1.degree ≤ D ∧ ∀ t ∈ c.1.terms, termDegree t ≤ c.1.degree)
    (hb : ∀ b ∈ bs, b.1.atRow < T ∧ 1 ≤ D) {S : Set F} (hS : ¬ S.encard ≤ (N + T : ℕ))
    (h : ∀ z ∈ S, z ^ T ≠ 1 ∧ G.eval z = compositionAt g R D (pointEnv P z) cs bs z) :
    G * (X ^ T - 1) - numerator g T R D P cs bs = 0 := by
  by_contra hne
  classical
  apply hS
  have hsub : S ⊆ ((G * (X ^ T - 1) - numerator g T R D P cs bs).roots.toFinset : Set F) := by
    intro z hz
    obtain ⟨h1, h2⟩ := h z hz
    rw [Finset.mem_coe, Multiset.mem_toFinset, mem_roots hne, IsRoot.def, eval_sub, eval_mul,
      eval_numerator hg hT hR D P cs bs (fun c hcm => (hc c hcm).1) (fun b hbm => (hb b hbm).1) h1, h2]
    simp
  refine (Set.encard_le_encard hsub).trans ?_
  rw [Set.encard_coe_eq_coe_finsetCard]
  have h1 : (G * (X ^ T - 1) - numerator g T R D P cs bs).natDegree ≤ N + T := by
    refine (natDegree_sub_le _ _).trans (max_le ?_ ((natDegree_numerator hM hP cs bs (fun c hcm => (hc c hcm).2) hb).trans (by omega)))
    refine natDegree_mul_le.trans (Nat.add_le_add hG ?_)
    rw [show (X ^ T - 1 : F[X]) = X ^ T - C 1 by simp, natDegree_X_pow_sub_C]
  have h2 := (Multiset.toFinset_card_le (G * (X ^ T - 1) - numerator g T R D P cs bs).roots).trans
    ((card_roots' _).trans h1)
  exact_mod_cast h2

/-- When the composition agrees with a polynomial at many points, the numerator vanishes at all rows. -/
theorem numerator_zero {g : F} {T R M N : ℕ} (hg : IsPrimitiveRoot g T) (hT : 0 < T) (hR : R ≤ T) (hM : 0 < M) {D : ℕ} {P : ℕ → F[X]}
    (hP : ∀ r, (P r).natDegree ≤ M) {G : F[X]} (hN : M * D ≤ N) (hG : G.natDegree ≤ N)
    (cs : List (Constraint F × F × F)) (bs : List (BoundaryConstraint F × F × F))
    (hc : ∀ c ∈ cs, (∃ d, c.1.density = .dense d) ∧ c.1.degree ≤ D ∧ ∀ t ∈ c.1.terms, termDegree t ≤ c.1.degree)
    (hb : ∀ b ∈ bs, b.1.atRow < T ∧ 1 ≤ D) {S : Set F} (hS : ¬ S.encard ≤ (N + T : ℕ))
    (h : ∀ z ∈ S, z ^ T ≠ 1 ∧ G.eval z = compositionAt g R D (pointEnv P z) cs bs z) (i : ℕ) :
    (numerator g T R D P cs bs).eval (g ^ i) = 0 := by
  have key := numerator_eq hg hT hR hM hP hN hG cs bs hc hb hS h
  have e := congrArg (eval (g ^ i)) key
  rw [eval_sub, eval_mul, eval_zero] at e
  have : (X ^ T - 1 : F[X]).eval (g ^ i) = 0 := by
    rw [eval_sub, eval_pow, eval_X, eval_one, ← pow_mul, mul_comm, pow_mul, hg.pow_eq_one, one_pow, sub_self]
  rw [this, mul_zero, zero_sub, neg_eq_zero] at e
  exact e

/-- Changing one element of a zipped sum. -/
theorem sum_zip_set {α β : Type} (φ : α × β → F) (l : List α) (m : List β) (j : ℕ) (a : α) (p q : β)
    (ha : l[j]? = some a) (hp : m[j]? = some p) :
    ((l.zip (m.set j q)).map φ).sum - ((l.zip m).map φ).sum = φ (a, q) - φ (a, p) := by
  induction l generalizing m j with
  | nil => simp at ha
  | cons x l ih =>
    cases m with
    | nil => simp at hp
    | cons y m =>
      cases j with
      | zero =>
        simp only [List.getElem?_cons_zero, Option.some.injEq] at ha hp
        subst ha hp
        simp
      | succ j =>
        simp only [List.getElem?_cons_succ] at ha hp
        have := ih m j ha hp
        simp only [List.set_cons_succ, List.zip_cons_cons, List.map_cons, List.sum_cons]
        rw [← this]
        ring

end Hodor

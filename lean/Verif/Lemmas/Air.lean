import Verif.Spec.Air

/-! Auxiliary lemmas about constraints and witness checking. -/

namespace Hodor

open Polynomial Spec

variable {F : Type} [Field F]

section value

theorem uniValue_coeff_one (e : Env F) (t : UnivariateTerm F) :
    t.coeff * uniValue e { t with coeff := 1 } = uniValue e t := by
  simp [uniValue]

theorem constraintValue_push (e : Env F) (c : Constraint F) (d : ℕ) (t : ConstraintTerm F) :
    constraintValue e (c.push d t) = constraintValue e c + termValue e t := by
  simp [constraintValue, Constraint.push, add_assoc]

theorem eval_uniPoly (P : ℕ → F[X]) (x : F) (t : UnivariateTerm F) :
    (uniPoly P t).eval x = uniValue (pointEnv P x) t := by
  cases t with
  | mk coeff reg sd power =>
    cases reg <;> cases sd <;> simp [uniPoly, uniValue, pointEnv]

theorem eval_termPoly (P : ℕ → F[X]) (x : F) (t : ConstraintTerm F) :
    (termPoly P t).eval x = termValue (pointEnv P x) t := by
  cases t with
  | univariate t => exact eval_uniPoly P x t
  | polyvariate p =>
    simp only [termPoly, termValue, polyTermValue, eval_mul, eval_C]
    congr 1
    rw [← coe_evalRingHom, map_list_prod, List.map_map]
    congr 1
    apply List.map_congr_left
    intro t _
    exact eval_uniPoly P x t

theorem eval_constraintPoly (P : ℕ → F[X]) (x : F) (c : Constraint F) :
    (constraintPoly P c).eval x = constraintValue (pointEnv P x) c := by
  simp only [constraintPoly, constraintValue, eval_add, eval_C]
  congr 1
  rw [← coe_evalRingHom, map_list_sum, List.map_map]
  congr 1
  apply List.map_congr_left
  intro t _
  exact eval_termPoly P x t

theorem natDegree_uniPoly (P : ℕ → F[X]) (D : ℕ) (hP : ∀ r, (P r).natDegree ≤ D) (t : UnivariateTerm F) :
    (uniPoly P t).natDegree ≤ t.power * D := by
  have key : ∀ q : F[X], q.natDegree ≤ D → (C t.coeff * q ^ t.power).natDegree ≤ t.power * D := by
    intro q hq
    refine (natDegree_C_mul_le _ _).trans ?_
    refine natDegree_pow_le.trans ?_
    exact Nat.mul_le_mul_left _ hq
  have hcomp : ∀ r m, ((P r).comp (C m * X)).natDegree ≤ D := by
    intro r m
    refine natDegree_comp_le.trans ?_
    calc (P r).natDegree * (C m * X).natDegree ≤ (P r).natDegree * 1 :=
          Nat.mul_le_mul_left _ ((natDegree_C_mul_le _ _).trans natDegree_X_le)
      _ ≤ D := by rw [mul_one]; exact hP r
  unfold uniPoly
  split
  · exact key _ (hcomp _ _)
  · exact key 0 (by simp)

theorem natDegree_prod_uniPoly (P : ℕ → F[X]) (D : ℕ) (hP : ∀ r, (P r).natDegree ≤ D)
    (l : List (UnivariateTerm F)) :
    ((l.map (uniPoly P)).prod).natDegree ≤ (l.map (fun u => u.power)).sum * D := by
  induction l with
  | nil => simp
  | cons t l ih =>
    simp only [List.map_cons, List.prod_cons, List.sum_cons, add_mul]
    exact natDegree_mul_le.trans (Nat.add_le_add (natDegree_uniPoly P D hP t) ih)

theorem natDegree_termPoly (P : ℕ → F[X]) (D : ℕ) (hP : ∀ r, (P r).natDegree ≤ D) (t : ConstraintTerm F) :
    (termPoly P t).natDegree ≤ termDegree t * D := by
  cases t with
  | univariate t => simpa [termDegree, termFactors, termPoly] using natDegree_uniPoly P D hP t
  | polyvariate p =>
    refine (natDegree_C_mul_le _ _).trans ?_
    exact natDegree_prod_uniPoly P D hP p.terms

theorem natDegree_constraintPoly (P : ℕ → F[X]) (D d : ℕ) (hP : ∀ r, (P r).natDegree ≤ D)
    (c : Constraint F) (hc : ∀ t ∈ c.terms, termDegree t ≤ d) :
    (constraintPoly P c).natDegree ≤ d * D := by
  unfold constraintPoly
  refine (natDegree_add_le _ _).trans (max_le (by simp) ?_)
  revert hc
  generalize c.terms = l
  intro hc
  induction l with
  | nil => simp
  | cons t l ih =>
    simp only [List.map_cons, List.sum_cons]
    refine (natDegree_add_le _ _).trans (max_le ?_ (ih (fun t' h => hc t' (List.mem_cons_of_mem _ h))))
    exact (natDegree_termPoly P D hP t).trans (Nat.mul_le_mul_right _ (hc t List.mem_cons_self))

end value

section loops

/-- A loop that accumulates values which are either available or fail with a fixed error. -/
theorem forEach_acc {α σ β : Type} (l : List α) (s : σ) (f : α → Res β) (op : σ → β → σ)
    (good : α → Prop) [DecidablePred good] (v : α → β) (e : SynthesisError)
    (hf : ∀ a ∈ l, f a = if good a then .ok (v a) else .err e) :
    forEach l s (fun a s => do let b ← f a; pure (op s b))
      = if (∀ a ∈ l, good a) then .ok (l.foldl (fun s a => op s (v a)) s) else .err e := by
  induction l generalizing s with
  | nil => simp [forEach]
  | cons a l ih =>
    have ih' := fun s => ih s (fun b hb => hf b (List.mem_cons_of_mem _ hb))
    simp only [forEach]
    rw [hf a List.mem_cons_self]
    by_cases h : good a
    · rw [if_pos h]
      show forEach l (op s (v a)) (fun a s => do let b ← f a; pure (op s b)) = _
      rw [ih', List.foldl_cons]
      by_cases h2 : ∀ b ∈ l, good b
      · rw [if_pos h2, if_pos]
        intro b hb
        rcases List.mem_cons.1 hb with rfl | hb
        · exact h
        · exact h2 b hb
      · rw [if_neg h2, if_neg]
        intro hh
        exact h2 (fun b hb => hh b (List.mem_cons_of_mem _ hb))
    · rw [if_neg h, if_neg]
      · rfl
      · intro hh; exact h (hh a List.mem_cons_self)

/-- A loop of checks: `Ok` when all hold, otherwise an error, never a panic. -/
theorem forEach_check {α : Type} (l : List α) (f : α → Res Unit) (good : α → Prop)
    (hok : ∀ a ∈ l, good a → f a = .ok ()) (herr : ∀ a ∈ l, ¬ good a → ∃ e, f a = .err e) :
    (forEach l () (fun a _ => f a) = .ok () ∧ ∀ a ∈ l, good a) ∨
      ((∃ e, forEach l () (fun a _ => f a) = .err e) ∧ ¬ ∀ a ∈ l, good a) := by
  induction l with
  | nil => left; simp [forEach]
  | cons a l ih =>
    by_cases h : good a
    · have e := hok a List.mem_cons_self h
      rcases ih (fun b hb => hok b (List.mem_cons_of_mem _ hb))
        (fun b hb => herr b (List.mem_cons_of_mem _ hb)) with ⟨h1, h2⟩ | ⟨⟨e', h1⟩, h2⟩
      · left
        simp only [forEach, e, Res.ok_bind, h1, true_and]
        intro b hb
        rcases List.mem_cons.1 hb with rfl | hb
        · exact h
        · exact h2 b hb
      · right
        simp only [forEach, e, Res.ok_bind, h1]
        exact ⟨⟨e', rfl⟩, fun hh => h2 (fun b hb => hh b (List.mem_cons_of_mem _ hb))⟩
    · obtain ⟨e, he⟩ := herr a List.mem_cons_self h
      right
      simp only [forEach, he, Res.err_bind]
      exact ⟨⟨e, rfl⟩, fun hh => h (hh a List.mem_cons_self)⟩

theorem foldl_mul_prod {α : Type} (l : List α) (v : α → F) (s : F) :
    l.foldl (fun s a => s * v a) s = s * (l.map v).prod := by
  induction l generalizing s with
  | nil => simp
  | cons a l ih => simp [ih, mul_assoc]

theorem foldl_add_sum {α : Type} (l : List α) (v : α → F) (s : F) :
    l.foldl (fun s a => s + v a) s = s + (l.map v).sum := by
  induction l generalizing s with
  | nil => simp
  | cons a l ih => simp [ih, add_assoc]

end loops

section witness
variable {witness : List (List F)} {n T : ℕ}

theorem Spec.IsTable.row (h : IsTable witness n T) {r : ℕ} (hr : r < n) :
    ∃ row, witness[r]? = some row ∧ row.length = T ∧ witness.getD r [] = row := by
  have h1 : r < witness.length := by rw [h.1]; exact hr
  refine ⟨witness[r], List.getElem?_eq_getElem h1, h.2 _ (List.getElem_mem h1), ?_⟩
  simp [List.getD, List.getElem?_eq_getElem h1]

theorem Spec.IsTable.rd_row (h : IsTable witness n T) {r : ℕ} (hr : r < n) :
    rd witness r = .ok (witness.getD r []) ∧ (witness.getD r []).length = T := by
  obtain ⟨row, h1, h2, h3⟩ := h.row hr
  rw [h3]
  exact ⟨by simp [rd, h1], h2⟩

/-- The term reads inside the trace. -/
def InTrace (T row : ℕ) (t : UnivariateTerm F) : Prop :=
  ∀ k, t.stepsDifference = .steps k → row + k < T

theorem evalUni_eq (h : IsTable witness n T) (row : ℕ) {t : UnivariateTerm F}
    (ht : (∃ r, r < n ∧ t.register = .register r) ∧ ∃ k, t.stepsDifference = .steps k) :
    (InTrace T row t → evaluateUnivariateTermOnWitness t witness row
        = .ok (uniValue (rowEnv (cellR witness) row) t)) ∧
      (¬ InTrace T row t → evaluateUnivariateTermOnWitness t witness row = .err .invalidValue) := by
  obtain ⟨⟨r, hr, er⟩, k, ek⟩ := ht
  obtain ⟨e1, e2⟩ := h.rd_row hr
  unfold evaluateUnivariateTermOnWitness uniValue
  rw [ek, er]
  simp only [Res.ok_bind, Register.num, e1]
  constructor
  · intro hin
    have hk := hin k ek
    have : row + k < (witness.getD r []).length := by rw [e2]; exact hk
    rw [List.getElem?_eq_getElem this]
    simp only [Res.ok_bind, Res.pure_def, rowEnv, cellR, cell]
    rw [mul_comm]
    simp only [List.getD_eq_getElem?_getD (l := witness.getD r []), List.getElem?_eq_getElem this, Option.getD_some]
  · intro hin
    have hk : T ≤ row + k := by
      by_contra hc
      apply hin
      intro k' ek'
      rw [ek] at ek'
      cases ek'
      omega
    rw [List.getElem?_eq_none (by rw [e2]; exact hk)]
    rfl

open Classical in
theorem evalUni_if (h : IsTable witness n T) (row : ℕ) {t : UnivariateTerm F}
    (ht : (∃ r, r < n ∧ t.register = .register r) ∧ ∃ k, t.stepsDifference = .steps k) :
    evaluateUnivariateTermOnWitness t witness row =
      if InTrace T row t then .ok (uniValue (rowEnv (cellR witness) row) t) else .err .invalidValue := by
  split
  · exact (evalUni_eq h row ht).1 ‹_›
  · exact (evalUni_eq h row ht).2 ‹_›

open Classical in
theorem evalTerm_if (h : IsTable witness n T) (row : ℕ) {t : ConstraintTerm F}
    (ht : ∀ u ∈ termFactors t, (∃ r, r < n ∧ u.register = .register r) ∧ ∃ k, u.stepsDifference = .steps k) :
    evaluateTermOnWitness witness row t =
      if (∀ u ∈ termFactors t, InTrace T row u) then .ok (termValue (rowEnv (cellR witness) row) t)
      else .err .invalidValue := by
  cases t with
  | univariate t =>
    simp only [evaluateTermOnWitness, termFactors, List.mem_singleton, forall_eq, termValue] at ht ⊢
    exact evalUni_if h row ht
  | polyvariate p =>
    have key := forEach_acc p.terms (1 : F) (fun t => evaluateUnivariateTermOnWitness t witness row)
      (fun r v => r * v) (InTrace T row)
      (uniValue (rowEnv (cellR witness) row)) .invalidValue (fun a ha => evalUni_if h row (ht a ha))
    by_cases hh : ∀ u ∈ termFactors (ConstraintTerm.polyvariate p), InTrace T row u
    · rw [if_pos hh]
      rw [if_pos (show ∀ a ∈ p.terms, InTrace T row a from hh)] at key
      simp only [evaluateTermOnWitness, key, Res.ok_bind, termValue, polyTermValue]
      rw [foldl_mul_prod, one_mul, mul_comm]
      rfl
    · rw [if_neg hh]
      rw [if_neg (show ¬ ∀ a ∈ p.terms, InTrace T row a from hh)] at key
      simp only [evaluateTermOnWitness, key, Res.err_bind]

open Classical in
theorem evalConstraint_if (h : IsTable witness n T) (row : ℕ) {c : Constraint F}
    (hc : ∀ u ∈ factors c, (∃ r, r < n ∧ u.register = .register r) ∧ ∃ k, u.stepsDifference = .steps k) :
    evaluateConstraintOnWitness c witness row =
      if (∀ u ∈ factors c, InTrace T row u) then .ok (constraintValue (rowEnv (cellR witness) row) c)
      else .err .invalidValue := by
  have hc' : ∀ t ∈ c.terms, ∀ u ∈ termFactors t, u ∈ factors c := by
    intro t ht u hu
    exact List.mem_flatMap.2 ⟨t, ht, hu⟩
  unfold evaluateConstraintOnWitness
  rw [forEach_acc c.terms c.constantTerm _ (fun r v => r + v)
    (fun t => ∀ u ∈ termFactors t, InTrace T row u)
    (termValue (rowEnv (cellR witness) row)) .invalidValue
    (fun a ha => evalTerm_if h row (fun u hu => hc u (hc' a ha u hu)))]
  have e : (∀ t ∈ c.terms, ∀ u ∈ termFactors t, InTrace T row u) ↔ ∀ u ∈ factors c, InTrace T row u := by
    constructor
    · intro hh u hu
      obtain ⟨t, ht, hu⟩ := List.mem_flatMap.1 hu
      exact hh t ht u hu
    · intro hh t ht u hu
      exact hh u (hc' t ht u hu)
  simp only [e]
  rw [foldl_add_sum]
  rfl

end witness

end Hodor

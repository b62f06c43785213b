import Verif.Lemmas.Air
import Verif.Lemmas.Lde
import Verif.Lemmas.PolyAlg

/-!
# Lemmas about the ARP: witness polynomials and masks
-/

namespace Hodor

open Spec Polynomial

theorem mapRes_ok {α β : Type} (f : α → Res β) (g : α → β) (l : List α) (h : ∀ x ∈ l, f x = .ok (g x)) :
    mapRes f l = .ok (l.map g) := by
  induction l with
  | nil => rfl
  | cons x l ih =>
    simp only [mapRes]
    rw [h x (List.mem_cons_self ..), ih (fun y hy => h y (List.mem_cons_of_mem _ hy))]
    rfl

theorem mapRes_tab {α β : Type} (f : α → Res β) (n : ℕ) (x : ℕ → α) (g : ℕ → β)
    (h : ∀ i, i < n → f (x i) = .ok (g i)) : mapRes f (tab n x) = .ok (tab n g) := by
  induction n generalizing x g with
  | zero => rfl
  | succ n ih =>
    rw [tab_succ', tab_succ']
    simp only [mapRes]
    rw [h 0 (by omega), ih (fun i => x (i + 1)) (fun i => g (i + 1)) (fun i hi => h (i + 1) (by omega))]
    rfl

theorem mapRes_eq_ok {α β : Type} {f : α → Res β} {l : List α} {ys : List β} (h : mapRes f l = .ok ys) :
    List.Forall₂ (fun x y => f x = .ok y) l ys := by
  induction l generalizing ys with
  | nil => cases h; exact .nil
  | cons x l ih =>
    simp only [mapRes, Res.bind_eq_ok] at h
    obtain ⟨y, hy, zs, hz, h⟩ := h
    cases h
    exact .cons hy (ih hz)

theorem witnessHint_eq (w : Worker) {n : ℕ} (h : 0 < n) : witnessHint w n = some 1 := by
  unfold witnessHint
  split
  · rfl
  · rename_i h1
    push Not at h1
    simp [Nat.div_eq_of_lt h1, Nat.mod_eq_of_lt h1, h.ne']

section
variable {F : Type} [Field F]

/-- A table is the tabulation of its cells. -/
theorem Spec.IsTable.eq_tab {witness : List (List F)} {n T : ℕ} (h : IsTable witness n T) :
    witness = tab n (fun r => tab T (fun i => cell witness r i)) := by
  apply eq_tab_of_getElem? h.1
  intro r hr
  obtain ⟨row, h1, h2, h3⟩ := h.row hr
  rw [h1]
  congr 1
  have := eq_tab_getD row (0 : F)
  rw [h2] at this
  rw [this]
  apply tab_congr
  intro i _
  simp only [cell, h3]

theorem IsTable.all {witness : List (List F)} {n T : ℕ} (h : IsTable witness n T) :
    (witness.all (fun r => decide (T = r.length))) = true := by
  rw [List.all_eq_true]
  intro r hr
  exact decide_eq_true (h.2 r hr).symm

end

section
variable {F : Type} [Field F] [DecidableEq F] [StarkField F]

theorem makeWitnessPolynomials_ok (w : Worker) {witness : List (List F)} {n k : ℕ} (hn : 0 < n)
    (h : IsTable witness n (2 ^ k)) (hk : k ≤ StarkField.S F) (h32 : k < 32) {P : ℕ → F[X]}
    (hP : ∀ r, r < n → (P r).degree < (2 ^ k : ℕ))
    (hv : ∀ r, r < n → ∀ i, i < 2 ^ k → (P r).eval (genOf F k ^ i) = cell witness r i) :
    makeWitnessPolynomials witness w = .ok (tab n (fun r => mkPoly .coefficients k (P r).coeff)) := by
  obtain ⟨e1, e2⟩ := h.rd_row hn
  unfold makeWitnessPolynomials
  rw [e1, Res.ok_bind, e2]
  have e3 : nextPow2 (2 ^ k) = 2 ^ k := by
    unfold nextPow2; rw [Nat.clog_pow _ _ (by norm_num)]
  simp only [IsTable.all h, Res.assert_true, Res.ok_bind, e3, newForSize_pow hk]
  have e4 : inverse (genOf F k) = some (genOf F k)⁻¹ := by
    unfold inverse; rw [if_neg (genOf_ne_zero hk)]
  have e5 : inverse ((2 ^ k : ℕ) : F) = some ((2 ^ k : ℕ) : F)⁻¹ := by
    unfold inverse; rw [if_neg (pow2_cast_ne_zero hk)]
  rw [e4, e5, h.1, witnessHint_eq w hn]
  simp only [Res.expect_some, Res.ok_bind]
  have h1 : mapRes (fun r => bestFft w r (genOf F k)⁻¹ k (some 1)) witness
      = .ok (tab n (fun r => tab (2 ^ k) (dftF (genOf F k)⁻¹ (2 ^ k) (fun i => cell witness r i)))) := by
    conv_lhs => rw [h.eq_tab]
    apply mapRes_tab
    intro r _
    apply bestFft_tab w k h32 _ (halfNeg_of_prim (genOf_prim hk).inv)
    intro h hh
    cases hh
    exact ⟨by norm_num, w.pos⟩
  rw [h1, Res.ok_bind]
  apply mapRes_tab
  intro r hr
  rw [parMap_tab, fromCoeffs_pow hk]
  have := ifft_poly (F := F) w hk h32 (hP r hr)
  rw [ifft_mk w hk h32] at this
  rw [← this]
  congr 1
  apply mkPoly_congr
  intro i _
  congr 1
  apply dftF_congr
  intro j hj
  rw [hv r hr j hj]

/-- The masked form of a factor, term, constraint. -/
def maskU (g : F) (t : UnivariateTerm F) : UnivariateTerm F :=
  match t.stepsDifference with
  | .steps n => { t with stepsDifference := .mask (g ^ n) }
  | .mask _ => t

def maskT (g : F) : ConstraintTerm F → ConstraintTerm F
  | .univariate t => .univariate (maskU g t)
  | .polyvariate p => .polyvariate { p with terms := p.terms.map (maskU g) }

def maskC (g : F) (c : Constraint F) : Constraint F := { c with terms := c.terms.map (maskT g) }

omit [DecidableEq F] [StarkField F] in
theorem maskUnivariateTerm_ok (d : Domain F) {t : UnivariateTerm F} (h : ∃ k, t.stepsDifference = .steps k) :
    maskUnivariateTerm d t = .ok (maskU d.generator t) := by
  obtain ⟨k, e⟩ := h
  simp only [maskUnivariateTerm, maskU, e]

omit [DecidableEq F] [StarkField F] in
theorem maskTerm_ok (d : Domain F) {t : ConstraintTerm F}
    (h : ∀ u ∈ termFactors t, ∃ k, u.stepsDifference = .steps k) :
    maskTerm d t = .ok (maskT d.generator t) := by
  cases t with
  | univariate t =>
    simp only [maskTerm, maskUnivariateTerm_ok d (h t (by simp [termFactors])), maskT]
    rfl
  | polyvariate p =>
    simp only [maskTerm]
    rw [mapRes_ok _ (maskU d.generator) p.terms (fun u hu => maskUnivariateTerm_ok d (h u hu))]
    rfl

omit [DecidableEq F] [StarkField F] in
theorem maskConstraint_ok (d : Domain F) {c : Constraint F}
    (h : ∀ u ∈ factors c, ∃ k, u.stepsDifference = .steps k) :
    maskConstraint d c = .ok (maskC d.generator c) := by
  simp only [maskConstraint]
  rw [mapRes_ok _ (maskT d.generator) _ (fun t ht => maskTerm_ok d (fun u hu => h u
    (List.mem_flatMap.2 ⟨t, ht, hu⟩)))]
  rfl

theorem fromInstance_ok {inst : InstanceProperties F} {k : ℕ} (hk : k ≤ StarkField.S F)
    (hT : nextPow2 inst.numRows = 2 ^ k)
    (h : ∀ c ∈ inst.constraints, ∀ u ∈ factors c, ∃ k, u.stepsDifference = .steps k) :
    fromInstance inst = .ok { inst with constraints := inst.constraints.map (maskC (genOf F k)) } := by
  simp only [fromInstance, hT, newForSize_pow hk, Res.ok_bind]
  rw [mapRes_ok _ (maskC (genOf F k)) _ (fun c hc => maskConstraint_ok _ (h c hc))]
  rfl

section
omit [DecidableEq F] [StarkField F]

/-- Changing the environment and the step differences together leaves values alone. -/
theorem constraintValue_maskC (e e' : Env F) (g : F)
    (h : ∀ r k, e r (.mask (g ^ k)) = e' r (.steps k)) {c : Constraint F}
    (hc : ∀ u ∈ factors c, ∃ k, u.stepsDifference = .steps k) :
    constraintValue e (maskC g c) = constraintValue e' c := by
  have hu : ∀ u : UnivariateTerm F, (∃ k, u.stepsDifference = .steps k) →
      uniValue e (maskU g u) = uniValue e' u := by
    rintro u ⟨k, hk⟩
    simp only [uniValue, maskU, hk, h]
  have ht : ∀ t ∈ c.terms, termValue e (maskT g t) = termValue e' t := by
    intro t ht
    have hf : ∀ u ∈ termFactors t, ∃ k, u.stepsDifference = .steps k :=
      fun u hu => hc u (List.mem_flatMap.2 ⟨t, ht, hu⟩)
    cases t with
    | univariate t => exact hu t (hf t (by simp [termFactors]))
    | polyvariate p =>
      simp only [termValue, maskT, polyTermValue, List.map_map]
      congr 2
      apply List.map_congr_left
      intro u hu'
      exact hu u (hf u hu')
  simp only [constraintValue, maskC, List.map_map]
  congr 2
  apply List.map_congr_left
  intro t h1
  exact ht t h1

/-- Two environments that agree on what the constraint reads give the same value. -/
theorem constraintValue_congr (e e' : Env F) {c : Constraint F}
    (h : ∀ u ∈ factors c, e u.register u.stepsDifference = e' u.register u.stepsDifference) :
    constraintValue e c = constraintValue e' c := by
  have ht : ∀ t ∈ c.terms, termValue e t = termValue e' t := by
    intro t ht
    have hf : ∀ u ∈ termFactors t, uniValue e u = uniValue e' u := by
      intro u hu
      simp only [uniValue, h u (List.mem_flatMap.2 ⟨t, ht, hu⟩)]
    cases t with
    | univariate t => exact hf t (by simp [termFactors])
    | polyvariate p =>
      simp only [termValue, polyTermValue]
      congr 2
      exact List.map_congr_left hf
  simp only [constraintValue]
  congr 2
  exact List.map_congr_left ht

theorem mem_factors_maskC {g : F} {c : Constraint F} {u : UnivariateTerm F} :
    u ∈ factors (maskC g c) ↔ ∃ v ∈ factors c, maskU g v = u := by
  simp only [factors, maskC, List.mem_flatMap, List.mem_map]
  constructor
  · rintro ⟨t', ⟨t, ht, rfl⟩, hu⟩
    cases t with
    | univariate t =>
      simp only [maskT, termFactors, List.mem_singleton] at hu
      exact ⟨t, ⟨_, ht, by simp [termFactors]⟩, hu.symm⟩
    | polyvariate p =>
      simp only [maskT, termFactors, List.mem_map] at hu
      obtain ⟨v, hv, rfl⟩ := hu
      exact ⟨v, ⟨_, ht, hv⟩, rfl⟩
  · rintro ⟨v, ⟨t, ht, hv⟩, rfl⟩
    refine ⟨_, ⟨t, ht, rfl⟩, ?_⟩
    cases t with
    | univariate t =>
      simp only [termFactors, List.mem_singleton] at hv
      simp [maskT, termFactors, hv]
    | polyvariate p => exact List.mem_map_of_mem hv

end

end

end Hodor

import Verif.Lemmas.Proximity
import Mathlib.Algebra.Polynomial.Bivariate
import Mathlib.LinearAlgebra.FiniteDimensional.Lemmas
import Mathlib.LinearAlgebra.Dimension.Constructions

/-! # Lines of words within half the distance of a Reed–Solomon code

The argument of Berlekamp and Welch with the challenge as an indeterminate: a pair of bivariate polynomials `A`, `B` with `A(x_i) (u_i + Z v_i) = B(x_i)` exists by counting dimensions, and the
remainder of the pseudo-division of `B` by `A` vanishes because it does for too many values of `Z`.
-/

namespace Hodor

open Polynomial Finset Spec

variable {F : Type} [Field F]

/-- A bivariate polynomial from its table of coefficients. -/
noncomputable def bivariate (m l : ℕ) : (Fin m × Fin l → F) →ₗ[F] F[X][X] where
  toFun a := ∑ j : Fin m, monomial (j : ℕ) (∑ k : Fin l, monomial (k : ℕ) (a (j, k)))
  map_add' a b := by simp [Finset.sum_add_distrib, map_add]
  map_smul' c a := by
    simp only [Pi.smul_apply, smul_eq_mul, RingHom.id_apply, Finset.smul_sum, smul_monomial]

theorem bivariate_apply {m l : ℕ} (a : Fin m × Fin l → F) :
    bivariate m l a = ∑ j : Fin m, monomial (j : ℕ) (∑ k : Fin l, monomial (k : ℕ) (a (j, k))) := rfl

theorem bivariate_coeff {m l : ℕ} (a : Fin m × Fin l → F) (j : Fin m) : (bivariate m l a).coeff j = ∑ k : Fin l, monomial (k : ℕ) (a (j, k)) := by
  rw [bivariate_apply, finset_sum_coeff, Finset.sum_eq_single j]
  · rw [coeff_monomial_same]
  · intro b _ hb
    rw [coeff_monomial, if_neg (fun h => hb (Fin.ext h))]
  · intro h
    exact absurd (Finset.mem_univ j) h

theorem bivariate_coeff_ge {m l : ℕ} (a : Fin m × Fin l → F) (j : ℕ) (hj : m ≤ j) : (bivariate m l a).coeff j = 0 := by
  rw [bivariate_apply, finset_sum_coeff]
  refine Finset.sum_eq_zero (fun b _ => ?_)
  rw [coeff_monomial, if_neg (by have := b.2; omega)]

theorem bivariate_coeff_coeff {m l : ℕ} (a : Fin m × Fin l → F) (j : Fin m) (k : Fin l) : ((bivariate m l a).coeff j).coeff k = a (j, k) := by
  rw [bivariate_coeff, finset_sum_coeff, Finset.sum_eq_single k]
  · rw [coeff_monomial_same]
  · intro b _ hb
    rw [coeff_monomial, if_neg (fun h => hb (Fin.ext h))]
  · intro h
    exact absurd (Finset.mem_univ k) h

theorem bivariate_natDegree {m l : ℕ} (a : Fin m × Fin (l + 1) → F) (j : ℕ) : ((bivariate m (l + 1) a).coeff j).natDegree ≤ l := by
  by_cases hj : j < m
  · have := bivariate_coeff a ⟨j, hj⟩
    simp only at this
    rw [this]
    refine natDegree_sum_le_of_forall_le _ _ (fun k _ => (natDegree_monomial_le _).trans ?_)
    have := k.2
    omega
  · rw [bivariate_coeff_ge a j (by omega), natDegree_zero]
    exact Nat.zero_le _

theorem bivariate_inj {m l : ℕ} (a : Fin m × Fin l → F) (h : bivariate m l a = 0) : a = 0 := by
  funext ⟨j, k⟩
  rw [← bivariate_coeff_coeff a j k, h]
  simp

/-- The value at `X = x` of a polynomial whose coefficients have degree at most `b` has degree at most `b`. -/
theorem natDegree_eval_C_le {B : F[X][X]} {b : ℕ} (hB : ∀ j, (B.coeff j).natDegree ≤ b) (x : F) : (B.eval (C x)).natDegree ≤ b := by
  rw [eval_eq_sum_range]
  refine natDegree_sum_le_of_forall_le _ _ (fun j _ => ?_)
  rw [← C_pow]
  exact (natDegree_mul_C_le _ _).trans (hB j)

/-- The interpolation step: more unknowns than equations. -/
theorem exists_locator {ι : Type} [DecidableEq ι] {s : Finset ι} {x : ι → F} (hx : Set.InjOn x s) {e : ℕ} (he : e ≤ s.card) (u v : ι → F) :
    ∃ A B : F[X][X], A ≠ 0 ∧ A.natDegree ≤ e ∧ (∀ j, (A.coeff j).natDegree ≤ e) ∧ (∀ j, s.card - e ≤ j → B.coeff j = 0) ∧
      (∀ j, (B.coeff j).natDegree ≤ e + 1) ∧ ∀ i ∈ s, A.eval (C (x i)) * (C (u i) + X * C (v i)) = B.eval (C (x i)) := by
  classical
  let ev : F → F[X][X] →ₗ[F] F[X] := fun c => (Polynomial.leval (C c)).restrictScalars F
  let row : s × Fin (e + 2) → ((Fin (e + 1) × Fin (e + 1) → F) × (Fin (s.card - e) × Fin (e + 2) → F)) →ₗ[F] F := fun p =>
    (lcoeff F (p.2 : ℕ)).comp
      (((LinearMap.mulRight F (C (u p.1) + X * C (v p.1))).comp ((ev (x p.1)).comp ((bivariate (e + 1) (e + 1)).comp (LinearMap.fst F _ _)))) -
        (ev (x p.1)).comp ((bivariate (s.card - e) (e + 2)).comp (LinearMap.snd F _ _)))
  have hker : LinearMap.ker (LinearMap.pi row) ≠ ⊥ := by
    apply LinearMap.ker_ne_bot_of_finrank_lt
    rw [Module.finrank_fintype_fun_eq_card, Module.finrank_prod, Module.finrank_fintype_fun_eq_card, Module.finrank_fintype_fun_eq_card]
    simp only [Fintype.card_prod, Fintype.card_fin, Fintype.card_coe]
    obtain ⟨m, hm⟩ : ∃ m, s.card = m + e := ⟨s.card - e, by omega⟩
    rw [hm, Nat.add_sub_cancel]
    ring_nf
    omega
  obtain ⟨⟨a, b⟩, hab, hne⟩ := Submodule.exists_mem_ne_zero_of_ne_bot hker
  have hrow : ∀ i ∈ s, ∀ k < e + 2, (((bivariate (e + 1) (e + 1) a).eval (C (x i))) * (C (u i) + X * C (v i)) - (bivariate (s.card - e) (e + 2) b).eval (C (x i))).coeff k = 0 := by
    intro i hi k hk
    have := congrFun (LinearMap.mem_ker.1 hab) (⟨i, hi⟩, ⟨k, hk⟩)
    exact this
  have hA := bivariate_natDegree a
  have hB := bivariate_natDegree b
  have heq : ∀ i ∈ s, (bivariate (e + 1) (e + 1) a).eval (C (x i)) * (C (u i) + X * C (v i)) = (bivariate (s.card - e) (e + 2) b).eval (C (x i)) := by
    intro i hi
    rw [← sub_eq_zero]
    ext k
    rw [coeff_zero]
    by_cases hk : k < e + 2
    · exact hrow i hi k hk
    · apply coeff_eq_zero_of_natDegree_lt
      have h1 : (C (u i) + X * C (v i)).natDegree ≤ 1 := by
        refine (natDegree_add_le _ _).trans (max_le (by simp) ((natDegree_mul_C_le _ _).trans natDegree_X_le))
      have h2 := natDegree_eval_C_le hA (x i)
      have h3 := natDegree_eval_C_le hB (x i)
      have h4 := natDegree_sub_le ((bivariate (e + 1) (e + 1) a).eval (C (x i)) * (C (u i) + X * C (v i))) ((bivariate (s.card - e) (e + 2) b).eval (C (x i)))
      have h5 := natDegree_mul_le (p := (bivariate (e + 1) (e + 1) a).eval (C (x i))) (q := C (u i) + X * C (v i))
      have : max ((bivariate (e + 1) (e + 1) a).eval (C (x i)) * (C (u i) + X * C (v i))).natDegree ((bivariate (s.card - e) (e + 2) b).eval (C (x i))).natDegree ≤ e + 1 :=
        max_le (by omega) h3
      omega
  refine ⟨bivariate (e + 1) (e + 1) a, bivariate (s.card - e) (e + 2) b, ?_, ?_, hA, bivariate_coeff_ge b, hB, heq⟩
  · intro h0
    have hb : bivariate (s.card - e) (e + 2) b = 0 := by
      refine Polynomial.eq_zero_of_degree_lt_of_eval_index_eq_zero (v := fun i => C (x i)) s
        (fun i hi j hj h => hx hi hj (C_injective h)) ?_ ?_
      · rw [degree_lt_iff_coeff_zero]
        intro j hj
        exact bivariate_coeff_ge b j (by omega)
      · intro i hi
        rw [← heq i hi, h0, eval_zero, zero_mul]
    apply hne
    rw [bivariate_inj a h0, bivariate_inj b hb]
    rfl
  · rw [natDegree_le_iff_coeff_eq_zero]
    intro j hj
    exact bivariate_coeff_ge a j (by omega)

/-- Pseudo-division in the first variable, with the degrees in the second one. -/
theorem pseudo_division {A : F[X][X]} {d : ℕ} (hA : ∀ j, (A.coeff j).natDegree ≤ d) (k : ℕ) : ∀ (B : F[X][X]) (b : ℕ), (∀ j, (B.coeff j).natDegree ≤ b) →
    (∀ j, A.natDegree + k ≤ j → B.coeff j = 0) →
    ∃ P R : F[X][X], C A.leadingCoeff ^ k * B = A * P + R ∧ (∀ j, A.natDegree ≤ j → R.coeff j = 0) ∧ ∀ j, (R.coeff j).natDegree ≤ b + k * d := by
  induction k with
  | zero =>
    intro B b hb hB
    exact ⟨0, B, by simp, fun j hj => hB j (by omega), fun j => by simpa using hb j⟩
  | succ k ih =>
    intro B b hb hB
    obtain ⟨h, hh⟩ : ∃ h, h = B.coeff (A.natDegree + k) := ⟨_, rfl⟩
    have hco : ∀ j, (C A.leadingCoeff * B - C h * (X ^ k * A)).coeff j = A.leadingCoeff * B.coeff j - h * (if k ≤ j then A.coeff (j - k) else 0) := by
      intro j
      rw [coeff_sub, coeff_C_mul, coeff_C_mul, coeff_X_pow_mul']
    obtain ⟨P, R, e1, e2, e3⟩ := ih (C A.leadingCoeff * B - C h * (X ^ k * A)) (b + d) (by
      intro j
      rw [hco]
      refine (natDegree_sub_le _ _).trans (max_le ?_ ?_)
      · have h1 := hA A.natDegree
        rw [coeff_natDegree] at h1
        have h2 := hb j
        exact natDegree_mul_le.trans (by omega)
      · have h1 : h.natDegree ≤ b := by rw [hh]; exact hb _
        have h2 : (if k ≤ j then A.coeff (j - k) else 0).natDegree ≤ d := by
          split
          · exact hA _
          · simp
        exact natDegree_mul_le.trans (by omega)) (by
      intro j hj
      rw [hco, if_pos (by omega)]
      rcases Nat.eq_or_lt_of_le hj with h0 | h0
      · rw [← h0, Nat.add_sub_cancel, coeff_natDegree, hh]
        ring
      · rw [hB j (by omega), coeff_eq_zero_of_natDegree_lt (by omega)]
        ring)
    refine ⟨P + C A.leadingCoeff ^ k * C h * X ^ k, R, ?_, e2, fun j => (e3 j).trans (by ring_nf; omega)⟩
    linear_combination e1

/-- Within half the distance at most `e (n - e + 2) + 1` challenges are lucky. -/
theorem luckyLine_card_half {ι : Type} [DecidableEq ι] [DecidableEq F] {s : Finset ι} {x : ι → F} (hx : Set.InjOn x s) {D e : ℕ} (h2 : 2 * e + D ≤ s.card)
    {u v : ι → F} (T : Finset F) (hT : ∀ β ∈ T, LuckyLine s x D e u v β) : T.card ≤ e * (s.card - e + 2) + 1 := by
  by_contra hcon
  push Not at hcon
  have hT' : ∀ β : F, ∃ (Q : F[X]) (S : Finset ι), β ∈ T → Q.degree < (D : ℕ) ∧ S ⊆ s ∧ (s \ S).card ≤ e ∧ (∀ i ∈ S, u i + β * v i = Q.eval (x i)) ∧
    ¬ ∃ U V : F[X], U.degree < (D : ℕ) ∧ V.degree < (D : ℕ) ∧ ∀ i ∈ S, u i = U.eval (x i) ∧ v i = V.eval (x i) := by
    intro β
    by_cases hβ : β ∈ T
    · obtain ⟨Q, S, h⟩ := hT β hβ
      exact ⟨Q, S, fun _ => h⟩
    · exact ⟨0, ∅, fun h => absurd h hβ⟩
  choose Q S hQS using hT'
  obtain ⟨A, B, hA0, hAd, hA, hBd, hB, hAB⟩ := exists_locator hx (show e ≤ s.card by omega) u v
  obtain ⟨k, hk⟩ : ∃ k, k = s.card - e - A.natDegree := ⟨_, rfl⟩
  obtain ⟨P, R, hdiv, hRd, hR⟩ := pseudo_division hA k B (e + 1) hB (fun j hj => hBd j (by omega))
  obtain ⟨c, hc⟩ : ∃ c, c = A.leadingCoeff := ⟨_, rfl⟩
  rw [← hc] at hdiv
  have hc0 : c ≠ 0 := by rw [hc]; exact leadingCoeff_ne_zero.2 hA0
  have hcd : c.natDegree ≤ e := by rw [hc, ← coeff_natDegree]; exact hA _
  -- the challenges at which the leading coefficient of the locator does not vanish
  obtain ⟨G, hG⟩ : ∃ G : Finset F, G = T.filter (fun β => c.eval β ≠ 0) := ⟨_, rfl⟩
  have hGT : ∀ β ∈ G, β ∈ T ∧ c.eval β ≠ 0 := fun β hβ => by rw [hG, mem_filter] at hβ; exact hβ
  have hGcard : T.card ≤ G.card + e := by
    have h1 := card_filter_add_card_filter_not (s := T) (fun β => c.eval β ≠ 0)
    have h3 : (T.filter (fun β => ¬ c.eval β ≠ 0)).card ≤ e := by
      refine le_trans (card_le_card (t := c.roots.toFinset) ?_) (le_trans (Multiset.toFinset_card_le _) ((card_roots' c).trans hcd))
      intro β hβ
      rw [mem_filter, not_not] at hβ
      rw [Multiset.mem_toFinset, mem_roots hc0]
      exact hβ.2
    rw [← hG] at h1
    omega
  have hspec : ∀ β ∈ T, B.map (evalRingHom β) = A.map (evalRingHom β) * Q β := by
    intro β hβ
    obtain ⟨hQβ, hSβ, heβ, hvβ, -⟩ := hQS β hβ
    have hcard : s.card - e ≤ (S β).card := by
      rw [card_sdiff_of_subset hSβ] at heβ
      omega
    refine poly_eq_of_many (s := S β) (hx.mono (by exact_mod_cast hSβ)) hcard ?_ ?_ ?_
    · rw [degree_lt_iff_coeff_zero]
      intro j hj
      rw [coeff_map, hBd j hj, map_zero]
    · rcases eq_or_ne (Q β) 0 with h0 | h0
      · rw [h0, mul_zero, degree_zero]
        exact WithBot.bot_lt_coe _
      · have hq : (Q β).natDegree < D := (natDegree_lt_iff_degree_lt h0).2 hQβ
        have h1 : (A.map (evalRingHom β) * Q β).natDegree ≤ e + (Q β).natDegree :=
          natDegree_mul_le.trans (Nat.add_le_add_right (natDegree_map_le.trans hAd) _)
        refine lt_of_le_of_lt degree_le_natDegree ?_
        exact_mod_cast (by omega : (A.map (evalRingHom β) * Q β).natDegree < s.card - e)
    · intro i hi
      have := congrArg (Polynomial.eval β) (hAB i (hSβ hi))
      rw [eval_mul, eval_add, eval_mul, eval_C, eval_X, eval_C, hvβ i hi] at this
      rw [eval_mul, map_evalRingHom_eval, map_evalRingHom_eval]
      exact this.symm
  have hPR : ∀ β ∈ G, P.map (evalRingHom β) = C (c.eval β ^ k) * Q β ∧ R.map (evalRingHom β) = 0 := by
    intro β hβ
    obtain ⟨hβT, hcβ⟩ := hGT β hβ
    have h1 := congrArg (Polynomial.map (evalRingHom β)) hdiv
    rw [Polynomial.map_mul, Polynomial.map_add, Polynomial.map_mul, Polynomial.map_pow, map_C, coe_evalRingHom, hspec β hβT, ← C_pow] at h1
    have hAβ : (A.map (evalRingHom β)).degree = A.natDegree := by
      rw [degree_map_eq_of_leadingCoeff_ne_zero _ (by rw [coe_evalRingHom, ← hc]; exact hcβ), degree_eq_natDegree hA0]
    have h3 : A.map (evalRingHom β) * (C (c.eval β ^ k) * Q β - P.map (evalRingHom β)) = R.map (evalRingHom β) := by
      linear_combination h1
    have h4 : (R.map (evalRingHom β)).degree < A.natDegree := by
      rw [degree_lt_iff_coeff_zero]
      intro j hj
      rw [coeff_map, hRd j hj, map_zero]
    have h5 : C (c.eval β ^ k) * Q β - P.map (evalRingHom β) = 0 := by
      by_contra hne
      rw [← h3, degree_mul, hAβ, degree_eq_natDegree hne] at h4
      norm_cast at h4
      omega
    refine ⟨(sub_eq_zero.1 h5).symm, ?_⟩
    rw [← h3, h5, mul_zero]
  have hke : k * e ≤ (s.card - e) * e := Nat.mul_le_mul_right _ (by omega)
  have hexp : e * (s.card - e + 2) = (s.card - e) * e + 2 * e := by ring
  have hR0 : R = 0 := by
    ext1 j
    rw [coeff_zero]
    refine eq_zero_of_natDegree_lt_card_of_eval_eq_zero' _ G ?_ ?_
    · intro β hβ
      have := congrArg (fun p => p.coeff j) (hPR β hβ).2
      simpa [coeff_map] using this
    · have := hR j
      omega
  -- the positions at which the locator does not vanish
  obtain ⟨K, hK⟩ : ∃ K : Finset ι, K = s.filter (fun i => A.eval (C (x i)) ≠ 0) := ⟨_, rfl⟩
  have hKs : K ⊆ s := by rw [hK]; exact filter_subset _ _
  have hKcard : (s \ K).card ≤ e := by
    refine le_trans ?_ ((card_roots' A).trans hAd)
    refine le_trans (card_le_card_of_injOn (t := A.roots.toFinset) (fun i => C (x i)) ?_ ?_) (Multiset.toFinset_card_le _)
    · intro i hi
      rw [Finset.mem_coe, mem_sdiff, hK, mem_filter, not_and, not_not] at hi
      rw [Finset.mem_coe, Multiset.mem_toFinset, mem_roots hA0]
      exact hi.2 hi.1
    · intro i hi j hj h
      exact hx (mem_sdiff.1 hi).1 (mem_sdiff.1 hj).1 (C_injective h)
  have hval : ∀ β ∈ G, ∀ i ∈ K, u i + β * v i = (Q β).eval (x i) := by
    intro β hβ i hi
    rw [hK, mem_filter] at hi
    obtain ⟨hβT, hcβ⟩ := hGT β hβ
    have h1 := congrArg (Polynomial.eval (C (x i))) hdiv
    rw [hR0, add_zero, eval_mul, eval_mul, eval_pow, eval_C, ← hAB i hi.1] at h1
    have h3 : c ^ k * (C (u i) + X * C (v i)) = P.eval (C (x i)) := by
      apply mul_left_cancel₀ hi.2
      linear_combination h1
    have h4 := congrArg (Polynomial.eval β) h3
    rw [eval_mul, eval_pow, eval_add, eval_mul, eval_C, eval_X, eval_C] at h4
    have h5 := congrArg (Polynomial.eval (x i)) (hPR β hβ).1
    rw [map_evalRingHom_eval, eval_mul, eval_C] at h5
    apply mul_left_cancel₀ (pow_ne_zero k hcβ)
    rw [h4]
    exact h5
  obtain ⟨a, ha, b, hb, hab⟩ := Finset.one_lt_card.1 (show 1 < G.card by omega)
  have hne : a - b ≠ 0 := sub_ne_zero.2 hab
  have hQa := (hQS a (hGT a ha).1).1
  have hQb := (hQS b (hGT b hb).1).1
  obtain ⟨V, hV⟩ : ∃ V : F[X], V = C (a - b)⁻¹ * (Q a - Q b) := ⟨_, rfl⟩
  obtain ⟨U, hU⟩ : ∃ U : F[X], U = Q a - C a * V := ⟨_, rfl⟩
  have degC : ∀ (c : F) (p : F[X]), p.degree < (D : ℕ) → (C c * p).degree < (D : ℕ) := by
    intro c p hp
    exact lt_of_le_of_lt (by rw [← smul_eq_C_mul]; exact degree_smul_le c p) hp
  have degSub : ∀ p q : F[X], p.degree < (D : ℕ) → q.degree < (D : ℕ) → (p - q).degree < (D : ℕ) := fun p q hp hq =>
    lt_of_le_of_lt (degree_sub_le p q) (max_lt hp hq)
  have hVd : V.degree < (D : ℕ) := by rw [hV]; exact degC _ _ (degSub _ _ hQa hQb)
  have hUd : U.degree < (D : ℕ) := by rw [hU]; exact degSub _ _ hQa (degC _ _ hVd)
  have hcommon : ∀ i ∈ K, u i = U.eval (x i) ∧ v i = V.eval (x i) := by
    intro i hi
    have e1 := hval a ha i hi
    have e2 := hval b hb i hi
    have ev : v i = V.eval (x i) := by
      rw [hV, eval_mul, eval_C, eval_sub, ← e1, ← e2]
      field_simp
      ring
    refine ⟨?_, ev⟩
    rw [hU, eval_sub, eval_mul, eval_C, ← ev, ← e1]
    ring
  have hline : ∀ β ∈ T, Q β = U + C β * V := by
    intro β hβ
    obtain ⟨hQβ, hSβ, heβ, hvβ, -⟩ := hQS β hβ
    have hcard : (s \ (K ∩ S β)).card ≤ e + e := card_inter_ge hKcard heβ
    have hsub : K ∩ S β ⊆ s := fun i hi => hSβ (mem_inter.1 hi).2
    rw [card_sdiff_of_subset hsub] at hcard
    have := card_le_card hsub
    refine poly_eq_of_many (s := K ∩ S β) (hx.mono (by exact_mod_cast hsub)) (by omega) hQβ
      (lt_of_le_of_lt (degree_add_le _ _) (max_lt hUd (degC _ _ hVd))) ?_
    intro i hi
    rw [mem_inter] at hi
    obtain ⟨e1, e2⟩ := hcommon i hi.1
    rw [← hvβ i hi.2, eval_add, eval_mul, eval_C, e1, e2]
  -- a lucky challenge is determined by a position outside `K`
  have hhit : ∀ β ∈ T, ∃ i, i ∈ s \ K ∧ i ∈ S β ∧ ¬ (u i = U.eval (x i) ∧ v i = V.eval (x i)) := by
    intro β hβ
    by_contra hno
    apply (hQS β hβ).2.2.2.2
    refine ⟨U, V, hUd, hVd, ?_⟩
    intro i hi
    by_cases hiK : i ∈ K
    · exact hcommon i hiK
    · by_contra hi'
      exact hno ⟨i, mem_sdiff.2 ⟨(hQS β hβ).2.1 hi, hiK⟩, hi, hi'⟩
  have : ∀ β : F, ∃ i, β ∈ T → i ∈ s \ K ∧ i ∈ S β ∧ ¬ (u i = U.eval (x i) ∧ v i = V.eval (x i)) := by
    intro β
    by_cases hβ : β ∈ T
    · obtain ⟨i, hi⟩ := hhit β hβ
      exact ⟨i, fun _ => hi⟩
    · obtain ⟨i, hi⟩ := hhit a (hGT a ha).1
      exact ⟨i, fun h => absurd h hβ⟩
  choose w hw using this
  have hle : T.card ≤ (s \ K).card := by
    refine card_le_card_of_injOn w (fun β hβ => (hw β hβ).1) ?_
    intro β hβ γ hγ h
    obtain ⟨-, h1, hno⟩ := hw β hβ
    have h3 : w β ∈ S γ := h ▸ (hw γ hγ).2.1
    have e1 := (hQS β hβ).2.2.2.1 _ h1
    have e2 := (hQS γ hγ).2.2.2.1 _ h3
    rw [hline β hβ, eval_add, eval_mul, eval_C] at e1
    rw [hline γ hγ, eval_add, eval_mul, eval_C] at e2
    by_contra hβγ
    have hd : β - γ ≠ 0 := sub_ne_zero.2 hβγ
    have ev : v (w β) = V.eval (x (w β)) := by
      have : (β - γ) * (v (w β) - V.eval (x (w β))) = 0 := by linear_combination e1 - e2
      exact sub_eq_zero.1 ((mul_eq_zero.1 this).resolve_left hd)
    apply hno
    refine ⟨?_, ev⟩
    rw [ev] at e1
    exact add_right_cancel e1
  omega

end Hodor

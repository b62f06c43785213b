import Verif.Spec.Proximity
import Mathlib.LinearAlgebra.Lagrange
import Mathlib.Algebra.Order.BigOperators.Group.Finset
import Mathlib.Tactic.LinearCombination
import Mathlib.Tactic.FieldSimp

/-! # Lines of words that are close to a Reed–Solomon code -/

namespace Hodor

open Polynomial Finset Spec

variable {F : Type} [Field F]

/-- Two polynomials of degree below `D` that agree at `D` different points are equal. -/
theorem poly_eq_of_many {ι : Type} {s : Finset ι} {x : ι → F} (hx : Set.InjOn x s) {D : ℕ} (hD : D ≤ s.card) {p q : F[X]}
    (hp : p.degree < (D : ℕ)) (hq : q.degree < (D : ℕ)) (h : ∀ i ∈ s, p.eval (x i) = q.eval (x i)) : p = q :=
  Polynomial.eq_of_degrees_lt_of_eval_index_eq s hx (lt_of_lt_of_le hp (by exact_mod_cast hD)) (lt_of_lt_of_le hq (by exact_mod_cast hD)) h

theorem card_inter_ge {ι : Type} [DecidableEq ι] {s A B : Finset ι} {a b : ℕ} (ha : (s \ A).card ≤ a) (hb : (s \ B).card ≤ b) :
    (s \ (A ∩ B)).card ≤ a + b := by
  have : s \ (A ∩ B) ⊆ (s \ A) ∪ (s \ B) := by
    intro i hi
    simp only [mem_sdiff, mem_inter, mem_union] at hi ⊢
    tauto
  exact (card_le_card this).trans ((card_union_le _ _).trans (Nat.add_le_add ha hb))

/-- At most `e + 1` challenges are lucky. -/
theorem luckyLine_card {ι : Type} [DecidableEq ι] [DecidableEq F] {s : Finset ι} {x : ι → F} (hx : Set.InjOn x s) {D e : ℕ} (h3 : 3 * e + D ≤ s.card)
    {u v : ι → F} (T : Finset F) (hT : ∀ β ∈ T, LuckyLine s x D e u v β) : T.card ≤ e + 1 := by
  by_contra hcon
  push Not at hcon
  have hT' : ∀ β : F, ∃ (Q : F[X]) (S : Finset ι), β ∈ T → Q.degree < (D : ℕ) ∧ S ⊆ s ∧ (s \ S).card ≤ e ∧ (∀ i ∈ S, u i + β * v i = Q.eval (x i)) ∧
    ¬ ∃ U V : F[X], U.degree < (D : ℕ) ∧ V.degree < (D : ℕ) ∧ ∀ i ∈ S, u i = U.eval (x i) ∧ v i = V.eval (x i) := by
    intro β
    by_cases hβ : β ∈ T
    · obtain ⟨Q, S, h⟩ := hT β hβ
      exact ⟨Q, S, fun _ => h⟩
    · exact ⟨0, ∅, fun h => absurd h hβ⟩
  choose Q S hQS using hT'
  obtain ⟨a, ha, b, hb, hab⟩ := Finset.one_lt_card.1 (show 1 < T.card by omega)
  have hne : a - b ≠ 0 := sub_ne_zero.2 hab
  obtain ⟨hQa, hSa, hea, hva, -⟩ := hQS a ha
  obtain ⟨hQb, hSb, heb, hvb, -⟩ := hQS b hb
  obtain ⟨V, hV⟩ : ∃ V : F[X], V = C (a - b)⁻¹ * (Q a - Q b) := ⟨_, rfl⟩
  obtain ⟨U, hU⟩ : ∃ U : F[X], U = Q a - C a * V := ⟨_, rfl⟩
  have degC : ∀ (c : F) (p : F[X]), p.degree < (D : ℕ) → (C c * p).degree < (D : ℕ) := by
    intro c p hp
    exact lt_of_le_of_lt (by rw [← smul_eq_C_mul]; exact degree_smul_le c p) hp
  have degSub : ∀ p q : F[X], p.degree < (D : ℕ) → q.degree < (D : ℕ) → (p - q).degree < (D : ℕ) := fun p q hp hq =>
    lt_of_le_of_lt (degree_sub_le p q) (max_lt hp hq)
  have hVd : V.degree < (D : ℕ) := by rw [hV]; exact degC _ _ (degSub _ _ hQa hQb)
  have hUd : U.degree < (D : ℕ) := by rw [hU]; exact degSub _ _ hQa (degC _ _ hVd)
  have hcommon : ∀ i ∈ S a ∩ S b, u i = U.eval (x i) ∧ v i = V.eval (x i) := by
    intro i hi
    rw [mem_inter] at hi
    have e1 := hva i hi.1
    have e2 := hvb i hi.2
    have ev : v i = V.eval (x i) := by
      rw [hV, eval_mul, eval_C, eval_sub, ← e1, ← e2]
      field_simp
      ring
    refine ⟨?_, ev⟩
    rw [hU, eval_sub, eval_mul, eval_C, ← ev, ← e1]
    ring
  have hline : ∀ β ∈ T, Q β = U + C β * V := by
    intro β hβ
    obtain ⟨hQβ, hSβ, heβ, hvβ, -⟩ := hQS β hβ
    have hcard : (s \ (S a ∩ S b ∩ S β)).card ≤ e + e + e := card_inter_ge (card_inter_ge hea heb) heβ
    have hsub : S a ∩ S b ∩ S β ⊆ s := fun i hi => hSβ (mem_inter.1 hi).2
    rw [card_sdiff_of_subset hsub] at hcard
    have := card_le_card hsub
    refine poly_eq_of_many (s := S a ∩ S b ∩ S β) (hx.mono (by exact_mod_cast hsub)) (by omega) hQβ
      (lt_of_le_of_lt (degree_add_le _ _) (max_lt hUd (degC _ _ hVd))) ?_
    intro i hi
    rw [mem_inter] at hi
    obtain ⟨e1, e2⟩ := hcommon i hi.1
    rw [← hvβ i hi.2, eval_add, eval_mul, eval_C, e1, e2]
  obtain ⟨B, hB⟩ : ∃ B : Finset ι, B = s.filter (fun i => ¬ (u i = U.eval (x i) ∧ v i = V.eval (x i))) := ⟨_, rfl⟩
  have hagree : ∀ β ∈ T, ∀ i ∈ S β, u i + β * v i = U.eval (x i) + β * V.eval (x i) := by
    intro β hβ i hi
    rw [(hQS β hβ).2.2.2.1 i hi, hline β hβ, eval_add, eval_mul, eval_C]
  have honly : ∀ i ∈ B, ∀ β ∈ T, ∀ γ ∈ T, i ∈ S β → i ∈ S γ → β = γ := by
    intro i hi β hβ γ hγ h1 h2
    rw [hB, mem_filter] at hi
    have e1 := hagree β hβ i h1
    have e2 := hagree γ hγ i h2
    by_contra hβγ
    have hd : β - γ ≠ 0 := sub_ne_zero.2 hβγ
    have ev : v i = V.eval (x i) := by
      have : (β - γ) * (v i - V.eval (x i)) = 0 := by linear_combination e1 - e2
      exact sub_eq_zero.1 ((mul_eq_zero.1 this).resolve_left hd)
    apply hi.2
    refine ⟨?_, ev⟩
    rw [ev] at e1
    exact add_right_cancel e1
  have hhit : ∀ β ∈ T, ∃ i, i ∈ B ∧ i ∈ S β := by
    intro β hβ
    by_contra hno
    push Not at hno
    apply (hQS β hβ).2.2.2.2
    refine ⟨U, V, hUd, hVd, ?_⟩
    intro i hi
    by_contra hi'
    exact hno i (by rw [hB, mem_filter]; exact ⟨(hQS β hβ).2.1 hi, hi'⟩) hi
  -- the challenges inject into the disagreement set
  have hTB : T.card ≤ B.card := by
    have : ∀ β : F, ∃ i, β ∈ T → i ∈ B ∧ i ∈ S β := by
      intro β
      by_cases hβ : β ∈ T
      · obtain ⟨i, hi⟩ := hhit β hβ
        exact ⟨i, fun _ => hi⟩
      · obtain ⟨i, hi⟩ := hhit a ha
        exact ⟨i, fun h => absurd h hβ⟩
    choose w hw using this
    refine card_le_card_of_injOn w (fun β hβ => (hw β hβ).1) ?_
    intro β hβ γ hγ e
    exact honly (w β) (hw β hβ).1 β hβ γ hγ (hw β hβ).2 (e ▸ (hw γ hγ).2)
  -- double counting
  have hsum1 : ∑ β ∈ T, (B \ S β).card ≤ T.card * e := by
    rw [← smul_eq_mul]
    apply sum_le_card_nsmul
    intro β hβ
    refine (card_le_card ?_).trans (hQS β hβ).2.2.1
    apply sdiff_subset_sdiff _ (le_refl _)
    rw [hB]
    exact filter_subset _ _
  have hsum2 : ∑ β ∈ T, (B ∩ S β).card ≤ B.card := by
    have e : ∀ β ∈ T, (B ∩ S β).card = ∑ i ∈ B, if i ∈ S β then 1 else 0 := by
      intro β _
      rw [← card_filter, filter_mem_eq_inter]
    rw [sum_congr rfl e, sum_comm, card_eq_sum_ones]
    apply sum_le_sum
    intro i hi
    rw [← card_filter, card_le_one]
    intro β hβ γ hγ
    rw [mem_filter] at hβ hγ
    exact honly i hi β hβ.1 γ hγ.1 hβ.2 hγ.2
  have hsum : T.card * B.card = ∑ β ∈ T, (B \ S β).card + ∑ β ∈ T, (B ∩ S β).card := by
    rw [← sum_add_distrib, sum_congr rfl (fun β _ => card_sdiff_add_card_inter B (S β)), sum_const, smul_eq_mul]
  have hfin : T.card * B.card ≤ T.card * e + B.card := by omega
  obtain ⟨t, ht⟩ : ∃ t, T.card = t + (e + 2) := ⟨T.card - (e + 2), by omega⟩
  obtain ⟨c, hc⟩ : ∃ c, B.card = c + T.card := ⟨B.card - T.card, by omega⟩
  rw [hc, ht] at hfin
  nlinarith [Nat.zero_le (t * c), Nat.zero_le (t * t), Nat.zero_le (t * e), Nat.zero_le (e * c), Nat.zero_le (e * e)]

end Hodor

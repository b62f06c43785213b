import Verif.Spec.Game
import Mathlib.Algebra.BigOperators.Group.Finset.Basic
import Mathlib.Algebra.Order.BigOperators.Group.Finset
import Mathlib.Data.Fintype.BigOperators
import Mathlib.Algebra.Order.Field.Rat
import Mathlib.Tactic.Linarith
import Mathlib.Tactic.FieldSimp
import Mathlib.Tactic.Positivity

/-!
# Shares of outcomes

Union bound, and the share of outcomes in which one independently drawn part has one of few values.
-/

namespace Hodor.Spec

open Finset

variable {Ω X : Type}

theorem share_mono [Finite Ω] {A B : Ω → Prop} (h : ∀ x, A x → B x) : share A ≤ share B := by
  unfold share
  gcongr
  exact Nat.card_le_card_of_injective (fun x : {x // A x} => (⟨x.1, h _ x.2⟩ : {x // B x})) (fun x y e => Subtype.ext (Subtype.mk.inj e))

theorem share_or_le [Finite Ω] (A B : Ω → Prop) : share (fun x => A x ∨ B x) ≤ share A + share B := by
  classical
  have := Fintype.ofFinite Ω
  unfold share
  rw [← add_div]
  gcongr
  simp only [Nat.card_eq_fintype_card, Fintype.card_subtype]
  rw [filter_or]
  exact_mod_cast card_union_le _ _

theorem share_nonneg (A : Ω → Prop) : 0 ≤ share A := by unfold share; positivity

theorem share_of_forall_not (A : Ω → Prop) (h : ∀ x, ¬ A x) : share A = 0 := by
  unfold share
  have : IsEmpty {x // A x} := ⟨fun x => h _ x.2⟩
  simp

theorem share_exists_le [Finite Ω] (n : ℕ) (A : Fin n → Ω → Prop) (c : ℚ) (h : ∀ j, share (A j) ≤ c) : share (fun x => ∃ j, A j x) ≤ n * c := by
  induction n with
  | zero =>
    rw [share_of_forall_not _ (fun x ⟨j, _⟩ => j.elim0)]
    simp
  | succ n ih =>
    have h1 : share (fun x => ∃ j, A j x) ≤ share (fun x => A 0 x ∨ ∃ j : Fin n, A j.succ x) :=
      share_mono (fun x => by rw [Fin.exists_fin_succ]; exact id)
    have h2 := share_or_le (A 0) (fun x => ∃ j : Fin n, A j.succ x)
    have h3 := ih (fun j => A j.succ) (fun j => h _)
    have h4 := h 0
    push_cast
    linarith

/-- If one part of the outcome, whatever the others are, has one of at most `K` of its values when `A` holds, then the share of `A` is at most `K` out of the number of values. -/
theorem share_le_of_part [Finite Ω] [Finite X] (get : Ω → X) (put : Ω → X → Ω) (h1 : ∀ x a, get (put x a) = a) (h2 : ∀ x, put x (get x) = x)
    (h3 : ∀ x a b, put (put x a) b = put x b) (A : Ω → Prop) (K : ℕ) (hK : ∀ x, Nat.card {a // A (put x a)} ≤ K) : share A ≤ K / Nat.card X := by
  classical
  have := Fintype.ofFinite Ω
  have := Fintype.ofFinite X
  unfold share
  rcases isEmpty_or_nonempty Ω with hE | ⟨⟨x0⟩⟩
  · simp only [Nat.card_of_isEmpty, Nat.cast_zero, div_zero]
    positivity
  have hX : Nonempty X := ⟨get x0⟩
  simp only [Nat.card_eq_fintype_card, Fintype.card_subtype] at hK ⊢
  have hcX : (0 : ℚ) < Fintype.card X := by exact_mod_cast Fintype.card_pos
  have hcΩ : (0 : ℚ) < Fintype.card Ω := by exact_mod_cast (Fintype.card_pos_iff.2 ⟨x0⟩)
  rw [div_le_div_iff₀ hcΩ hcX]
  have key : ∑ x : Ω, (univ.filter (fun a => A (put x a))).card = (univ.filter A).card * Fintype.card X := by
    have e1 : ∑ x : Ω, (univ.filter (fun a => A (put x a))).card = (univ.filter (fun p : Ω × X => A (put p.1 p.2))).card := by
      rw [card_filter, Fintype.sum_prod_type]
      exact sum_congr rfl (fun x _ => card_filter _ _)
    rw [e1, ← card_univ (α := X), ← card_product]
    refine card_bij' (fun p _ => (put p.1 p.2, get p.1)) (fun q _ => (put q.1 q.2, get q.1)) ?_ ?_ ?_ ?_
    · intro p hp
      simpa using hp
    · intro q hq
      simp only [mem_filter, mem_univ, true_and, mem_product, and_true] at hq ⊢
      rw [h3, h2]
      exact hq
    · intro p _
      simp only [h3, h1, h2]
    · intro q _
      simp only [h3, h1, h2]
  have : (univ.filter A).card * Fintype.card X ≤ K * Fintype.card Ω := by
    rw [← key, mul_comm K, ← smul_eq_mul]
    exact sum_le_card_nsmul _ _ _ (fun x _ => hK x)
  exact_mod_cast this

/-- The draws as a product. -/
def Draw.equiv {F : Type} (S : Finset F) (nc nb nm : ℕ) (P1 P2 : Finset ℕ) :
    Draw S nc nb nm P1 P2 ≃ (Fin nc → S × S) × (Fin nb → S × S) × S × (Fin nm → S) × (P1 × P2) where
  toFun x := (x.cc, x.bc, x.z, x.α, x.idx)
  invFun x := ⟨x.1, x.2.1, x.2.2.1, x.2.2.2.1, x.2.2.2.2⟩
  left_inv _ := rfl
  right_inv _ := rfl

instance {F : Type} (S : Finset F) (nc nb nm : ℕ) (P1 P2 : Finset ℕ) : Finite (Draw S nc nb nm P1 P2) :=
  Finite.of_equiv _ (Draw.equiv S nc nb nm P1 P2).symm

theorem ofFn_update_set {α : Type} {n : ℕ} (f : Fin n → α) (j : Fin n) (a : α) : List.ofFn (Function.update f j a) = (List.ofFn f).set j a := by
  apply List.ext_getElem
  · simp
  · intro i h1 h2
    simp only [List.getElem_ofFn, List.getElem_set]
    by_cases h : (j : ℕ) = i
    · rw [if_pos h]
      have : (⟨i, by simpa using h1⟩ : Fin n) = j := Fin.ext h.symm
      rw [this, Function.update_self]
    · rw [if_neg h, Function.update_of_ne (fun e => h (by rw [← e]))]

theorem take_ofFn_update {α : Type} {n : ℕ} (f : Fin n → α) (j : Fin n) (a : α) : (List.ofFn (Function.update f j a)).take j = (List.ofFn f).take j := by
  rw [ofFn_update_set]
  exact List.take_set_of_le (le_refl _)

end Hodor.Spec

import Verif.Spec.Hiding
import Mathlib.FieldTheory.Finiteness
import Mathlib.LinearAlgebra.Dimension.Finite
import Mathlib.LinearAlgebra.FiniteDimensional.Lemmas
import Mathlib.RingTheory.RootsOfUnity.PrimitiveRoots

/-!
# Counting columns with given values off the trace domain
-/

namespace Hodor

open Polynomial Spec

variable {F : Type} [Field F]

section
variable {g : F} {N : ℕ} (hg : IsPrimitiveRoot g N)
include hg

theorem gpow_inj : Set.InjOn (fun i : Fin N => g ^ (i : ℕ)) (Finset.univ : Finset (Fin N)) := by
  intro i _ j _ h
  exact Fin.ext (hg.pow_inj i.2 j.2 h)

theorem columnAt_eq (c : Fin N → F) {p : F[X]} (hp : p.degree < (N : ℕ)) (h : ∀ i : Fin N, p.eval (g ^ (i : ℕ)) = c i) (x : F) :
    columnAt g N c x = p.eval x := by
  unfold columnAt
  rw [Lagrange.eq_interpolate_of_eval_eq (s := Finset.univ) (v := fun i : Fin N => g ^ (i : ℕ)) c (gpow_inj hg)
    (by rw [Finset.card_univ, Fintype.card_fin]; exact hp) (fun i _ => h i)]

theorem columnAt_cell (c : Fin N → F) (i : Fin N) : columnAt g N c (g ^ (i : ℕ)) = c i :=
  Lagrange.eval_interpolate_at_node c (gpow_inj hg) (Finset.mem_univ i)

/-- At points off the domain, the free cells in `S` can be filled to meet any values at `|S|` points or fewer. -/
theorem columnAt_surj (S : Finset (Fin N)) (T : Finset F) (hT : ∀ x ∈ T, ∀ i, x ≠ g ^ i) (hST : T.card ≤ S.card) (y : F → F) :
    ∃ c : Fin N → F, (∀ i ∉ S, c i = 0) ∧ ∀ x ∈ T, columnAt g N c x = y x := by
  classical
  set Z : F[X] := ∏ i ∈ (Finset.univ \ S), (X - C (g ^ (i : ℕ))) with hZ
  have hZx : ∀ x ∈ T, Z.eval x ≠ 0 := by
    intro x hx
    rw [hZ, eval_prod]
    refine Finset.prod_ne_zero_iff.2 fun i _ => ?_
    rw [eval_sub, eval_X, eval_C]
    exact sub_ne_zero.2 (hT x hx i)
  set q : F[X] := Lagrange.interpolate T id (fun x => y x / Z.eval x) with hq
  have hZd : Z.degree = ((Finset.univ \ S).card : ℕ) := by
    rw [hZ, degree_prod]
    simp only [degree_X_sub_C, Finset.sum_const, nsmul_one]
  have hd : (Z * q).degree < (N : ℕ) := by
    by_cases h0 : q = 0
    · rw [h0, mul_zero, degree_zero]; exact WithBot.bot_lt_coe _
    have hqd : q.degree < T.card := Lagrange.degree_interpolate_lt _ (Set.injOn_id _)
    rw [degree_mul, hZd]
    have hc : (Finset.univ \ S).card + S.card = N := by
      rw [Finset.card_sdiff_add_card_eq_card (Finset.subset_univ S), Finset.card_univ, Fintype.card_fin]
    obtain ⟨d, hd⟩ : ∃ d : ℕ, q.degree = d := ⟨q.natDegree, degree_eq_natDegree h0⟩
    rw [hd] at hqd ⊢
    have : d < T.card := by exact_mod_cast hqd
    have : (Finset.univ \ S).card + d < N := by omega
    exact_mod_cast this
  refine ⟨fun i => (Z * q).eval (g ^ (i : ℕ)), ?_, ?_⟩
  · intro i hi
    dsimp only
    rw [eval_mul, hZ, eval_prod, Finset.prod_eq_zero (i := i) (by simp [hi]) (by simp), zero_mul]
  · intro x hx
    rw [columnAt_eq hg _ hd (fun _ => rfl), eval_mul, hq]
    have := Lagrange.eval_interpolate_at_node (fun x => y x / Z.eval x) (Set.injOn_id (T : Set F)) hx
    simp only [id] at this
    rw [this, mul_div_cancel₀ _ (hZx x hx)]

/-- Free cells in `S` are determined by the values at `|S|` points off the domain, or more. -/
theorem columnAt_inj (S : Finset (Fin N)) (T : Finset F) (hT : ∀ x ∈ T, ∀ i, x ≠ g ^ i) (hST : S.card ≤ T.card) (c c' : Fin N → F)
    (hS : ∀ i ∉ S, c i = c' i) (h : ∀ x ∈ T, columnAt g N c x = columnAt g N c' x) : c = c' := by
  classical
  set p : F[X] := Lagrange.interpolate Finset.univ (fun i : Fin N => g ^ (i : ℕ)) c - Lagrange.interpolate Finset.univ (fun i : Fin N => g ^ (i : ℕ)) c' with hp
  have hpd : p.degree < (N : ℕ) := by
    have := fun c : Fin N → F => Lagrange.degree_interpolate_lt (s := Finset.univ) c (gpow_inj hg)
    simp only [Finset.card_univ, Fintype.card_fin] at this
    exact (degree_sub_le _ _).trans_lt (max_lt (this c) (this c'))
  have hp0 : p = 0 := by
    set W : Finset F := T ∪ (Finset.univ \ S).image (fun i : Fin N => g ^ (i : ℕ)) with hW
    refine eq_zero_of_degree_lt_of_eval_finset_eq_zero W ?_ ?_
    · have hdis : Disjoint T ((Finset.univ \ S).image (fun i : Fin N => g ^ (i : ℕ))) := by
        rw [Finset.disjoint_left]
        intro x hx hx'
        obtain ⟨i, -, rfl⟩ := Finset.mem_image.1 hx'
        exact hT _ hx i rfl
      rw [hW, Finset.card_union_of_disjoint hdis, Finset.card_image_of_injOn ((gpow_inj hg).mono (by simp))]
      have hc : (Finset.univ \ S).card + S.card = N := by
        rw [Finset.card_sdiff_add_card_eq_card (Finset.subset_univ S), Finset.card_univ, Fintype.card_fin]
      refine hpd.trans_le ?_
      have : N ≤ T.card + (Finset.univ \ S).card := by omega
      exact_mod_cast this
    · intro x hx
      rw [hp, eval_sub, sub_eq_zero]
      rcases Finset.mem_union.1 hx with hx | hx
      · exact h x hx
      · obtain ⟨i, hi, rfl⟩ := Finset.mem_image.1 hx
        have e1 := columnAt_cell hg c i
        have e2 := columnAt_cell hg c' i
        unfold columnAt at e1 e2
        rw [e1, e2]
        exact hS i (Finset.mem_sdiff.1 hi).2
  funext i
  have e1 := columnAt_cell hg c i
  have e2 := columnAt_cell hg c' i
  unfold columnAt at e1 e2
  rw [← e1, ← e2]
  have := congrArg (eval (g ^ (i : ℕ))) hp0
  rw [hp, eval_sub, eval_zero, sub_eq_zero] at this
  exact this

theorem columnAt_add (c c' : Fin N → F) (x : F) : columnAt g N (c + c') x = columnAt g N c x + columnAt g N c' x := by
  unfold columnAt
  rw [map_add, eval_add]

theorem columnAt_smul (a : F) (c : Fin N → F) (x : F) : columnAt g N (a • c) x = a * columnAt g N c x := by
  unfold columnAt
  rw [map_smul, eval_smul, smul_eq_mul]

/-- The number of columns that agree with `c₀` outside `S` and take the same values as `c₀` on `T`. -/
theorem card_columns [Finite F] (S : Finset (Fin N)) (T : Finset F) (hT : ∀ x ∈ T, ∀ i, x ≠ g ^ i) (c₀ : Fin N → F) :
    Nat.card {c : Fin N → F // (∀ i ∉ S, c i = c₀ i) ∧ ∀ x ∈ T, columnAt g N c x = columnAt g N c₀ x} = Nat.card F ^ (S.card - T.card) := by
  classical
  have := Fintype.ofFinite F
  let ext : (S → F) → (Fin N → F) := fun f i => if h : i ∈ S then f ⟨i, h⟩ else 0
  have hext : ∀ c : Fin N → F, (∀ i ∉ S, c i = 0) → ext (fun i => c i) = c := by
    intro c hc
    funext i
    by_cases h : i ∈ S
    · simp [ext, h]
    · simp [ext, h, hc i h]
  have hoff : ∀ f, ∀ i ∉ S, ext f i = 0 := fun f i h => by simp [ext, h]
  have hon : ∀ f (i : S), ext f i = f i := fun f i => by simp [ext]
  have hadd : ∀ f f', ext (f + f') = ext f + ext f' := by
    intro f f'
    funext i
    by_cases h : i ∈ S <;> simp [ext, h]
  have hsmul : ∀ (a : F) f, ext (a • f) = a • ext f := by
    intro a f
    funext i
    by_cases h : i ∈ S <;> simp [ext, h]
  let L : (S → F) →ₗ[F] (T → F) :=
    { toFun := fun f x => columnAt g N (ext f) x
      map_add' := fun f f' => by funext x; rw [hadd, columnAt_add hg]; rfl
      map_smul' := fun a f => by funext x; rw [hsmul, columnAt_smul hg]; rfl }
  have hL : ∀ f x, L f x = columnAt g N (ext f) x := fun _ _ => rfl
  have hker : Module.finrank F (LinearMap.ker L) = S.card - T.card := by
    rcases le_total T.card S.card with h | h
    · have hsurj : Function.Surjective L := by
        intro y
        obtain ⟨c, hc, hy⟩ := columnAt_surj hg S T hT h (fun x => if hx : x ∈ T then y ⟨x, hx⟩ else 0)
        refine ⟨fun i => c i, ?_⟩
        funext x
        rw [hL, hext c hc, hy x x.2, dif_pos x.2]
      have := LinearMap.finrank_range_add_finrank_ker L
      rw [LinearMap.range_eq_top.2 hsurj, finrank_top, Module.finrank_fintype_fun_eq_card, Module.finrank_fintype_fun_eq_card,
        Fintype.card_coe, Fintype.card_coe] at this
      omega
    · have hinj : Function.Injective L := by
        intro f f' hff
        have := columnAt_inj hg S T hT h (ext f) (ext f') (fun i hi => by rw [hoff f i hi, hoff f' i hi])
          (fun x hx => congrFun hff ⟨x, hx⟩)
        funext i
        rw [← hon f i, ← hon f' i, this]
      rw [LinearMap.ker_eq_bot.2 hinj, finrank_bot]
      omega
  rw [← hker, Nat.card_eq_fintype_card (α := F), ← Module.card_eq_pow_finrank (K := F) (V := LinearMap.ker L), ← Nat.card_eq_fintype_card]
  refine Nat.card_congr
    { toFun := fun c => ⟨fun i => c.1 i - c₀ i, ?_⟩
      invFun := fun f => ⟨c₀ + ext f.1, ?_, ?_⟩
      left_inv := ?_
      right_inv := ?_ }
  · rw [LinearMap.mem_ker]
    funext x
    rw [hL]
    have e : ext (fun i : S => c.1 i - c₀ i) = c.1 - c₀ := hext (c.1 - c₀) (fun i hi => by simp [c.2.1 i hi])
    have e2 := columnAt_add hg (c.1 - c₀) c₀ (x : F)
    rw [sub_add_cancel, c.2.2 x x.2] at e2
    rw [e, Pi.zero_apply]
    exact left_eq_add.1 (e2.trans (add_comm _ _))
  · intro i hi
    simp [hoff f.1 i hi]
  · intro x hx
    rw [columnAt_add hg, ← hL f.1 ⟨x, hx⟩, LinearMap.mem_ker.1 f.2]
    simp
  · intro c
    apply Subtype.ext
    dsimp only
    rw [show ext (fun i : S => c.1 i - c₀ i) = c.1 - c₀ from hext (c.1 - c₀) (fun i hi => by simp [c.2.1 i hi])]
    simp
  · intro f
    apply Subtype.ext
    funext i
    simp [hon]

end

end Hodor

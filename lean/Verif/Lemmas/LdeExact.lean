import Verif.Lemmas.Poly3
import Verif.Lemmas.Valid

/-!
# What the multi-coset LDE and `from_roots` compute for every worker
-/

namespace Hodor

open Polynomial Finset

variable {F : Type} [Field F] [StarkField F]

/-- Exponent of the point at which index `idx` is evaluated. -/
def ldeExp (w : Worker) (f idx : ℕ) : ℕ := ldeStart w (2 ^ f) (idx % 2 ^ f) + 2 ^ f * (idx / 2 ^ f)

theorem ldeExp_of_ok {w : Worker} {f : ℕ} (h : LdeOk w (2 ^ f)) (idx : ℕ) : ldeExp w f idx = idx :=
  ldeStart_add_eq h (by positivity) idx

theorem ldeOk_one (w : Worker) : LdeOk w (2 ^ 0) := by
  right
  have := w.pos
  omega

theorem lde_exact [DecidableEq F] (w : Worker) {k f : ℕ} (hk : k + f ≤ StarkField.S F) (h32 : k < 32) (g : ℕ → F) :
    (mkPoly .coefficients k g).lde w (2 ^ f)
      = .ok (mkPoly .values (k + f) (fun idx => evalF (2 ^ k) g (genOf F (k + f) ^ ldeExp w f idx))) := by
  by_cases hf : f = 0
  · subst hf
    rw [lde_mk w hk h32 (ldeOk_one w)]
    congr 1
    apply mkPoly_congr
    intro i _
    rw [ldeExp_of_ok (ldeOk_one w)]
  · unfold Poly.lde Poly.ldeUsingMultipleCosets
    rw [if_neg (by have := Nat.one_lt_two_pow (n := f) hf; omega), multiCosetLde_mk w hk h32]
    congr 1
    apply mkPoly_congr
    intro i _
    rw [one_mul]
    rfl

theorem cosetLde_exact [DecidableEq F] (w : Worker) {k f : ℕ} (hk : k + f ≤ StarkField.S F) (h32 : k < 32) (g : ℕ → F) :
    (mkPoly .coefficients k g).cosetLde w (2 ^ f)
      = .ok (mkPoly .values (k + f) (fun idx => evalF (2 ^ k) g (StarkField.mulGen * genOf F (k + f) ^ ldeExp w f idx))) := by
  by_cases hf : f = 0
  · subst hf
    rw [cosetLde_mk w hk h32 (ldeOk_one w)]
    congr 1
    apply mkPoly_congr
    intro i _
    rw [ldeExp_of_ok (ldeOk_one w)]
  · unfold Poly.cosetLde Poly.cosetLdeUsingMultipleCosets
    rw [if_neg (by have := Nat.one_lt_two_pow (n := f) hf; omega), multiCosetLde_mk w hk h32]
    rfl

/-- Outside the good cases some index is evaluated at the point of index 1. -/
theorem ldeExp_wrong {w : Worker} {f : ℕ} (h : ¬ LdeOk w (2 ^ f)) :
    ∃ c, 2 ≤ c ∧ c < 2 ^ f ∧ ldeExp w f c = 1 := by
  unfold LdeOk at h
  rw [not_or, not_lt] at h
  obtain ⟨h1, hf⟩ := h
  have hp := w.pos
  have hc : 2 ≤ w.cpus := by omega
  refine ⟨w.chunkSize (2 ^ f), ?_, ?_, ?_⟩
  · unfold Worker.chunkSize
    rw [if_neg (by omega), Nat.le_div_iff_mul_le w.pos]
    exact hf
  · unfold Worker.chunkSize
    rw [if_neg (by omega)]
    exact Nat.div_lt_self (by positivity) (by omega)
  · have hcf : w.chunkSize (2 ^ f) < 2 ^ f := by
      unfold Worker.chunkSize
      rw [if_neg (by omega)]
      exact Nat.div_lt_self (by positivity) (by omega)
    have hpos := w.chunkSize_pos (2 ^ f)
    unfold ldeExp ldeStart
    rw [Nat.mod_eq_of_lt hcf, Nat.div_eq_of_lt hcf, Nat.div_self hpos, Nat.mod_self, Nat.mul_zero]

section
variable [DecidableEq F]

/-- The product of the chunk at the points its LDE uses. -/
noncomputable def chunkAt (F : Type) [Field F] [StarkField F] (w : Worker) (K : ℕ) (r : List F) (i : ℕ) : F :=
  ((r.map (fun r => X - C r)).prod).eval (genOf F K ^ ldeExp w (K - Nat.clog 2 (r.length + 1)) i)

/-- The loop over the sub-products in `from_roots`, for every worker. -/
theorem fromRoots_loop_exact (w : Worker) (K : ℕ) (hK : K ≤ StarkField.S F) (h32 : K < 32)
    (parts : List (List F)) (hne : ∀ r ∈ parts, r ≠ [])
    (hlen : ∀ r ∈ parts, r.length + 1 ≤ 2 ^ K) (acc : Option (ℕ → F)) :
    forEach (parts.map (fun r => r.foldl Poly.mulRoot [])) (acc.map (mkPoly .values K)) (Poly.fromRootsStep w (2 ^ K))
      = .ok ((if parts = [] then acc
          else some (fun i => (acc.getD (fun _ => 1)) i * (parts.map (fun r => chunkAt F w K r i)).prod)).map (mkPoly .values K)) := by
  induction parts generalizing acc with
  | nil => simp [forEach]
  | cons r parts ih =>
    rw [List.map_cons, forEach]
    unfold Poly.fromRootsStep
    rw [mulRoot_fold r (hne r (by simp)), length_tab, if_neg (by omega)]
    have hl := hlen r (by simp)
    have hk : Nat.clog 2 (r.length + 1) ≤ K := (Nat.clog_le_iff_le_pow (by norm_num)).2 hl
    have hdeg : ((r.map (fun r => X - C r)).prod).degree < ((2 ^ Nat.clog 2 (r.length + 1) : ℕ) : WithBot ℕ) := by
      refine lt_of_le_of_lt (prod_roots_degree r) ?_
      have : r.length < 2 ^ Nat.clog 2 (r.length + 1) :=
        lt_of_lt_of_le (Nat.lt_succ_self _) (Nat.le_pow_clog (by norm_num) _)
      exact_mod_cast this
    have e1 : Poly.fromCoeffs (tab (r.length + 1) (fun i => ((r.map (fun r => X - C r)).prod).coeff i))
        = .ok (mkPoly .coefficients (Nat.clog 2 (r.length + 1))
          ((r.map (fun r => X - C r)).prod).coeff) := by
      unfold Poly.fromCoeffs
      rw [ofVec_tab, if_pos (by omega)]
      congr 1
      apply mkPoly_congr
      intro i _
      split
      · rfl
      · rename_i h
        symm
        apply coeff_eq_zero_of_degree_lt
        refine lt_of_le_of_lt (prod_roots_degree r) ?_
        have : r.length < i := by omega
        exact_mod_cast this
    rw [e1]
    simp only [Res.ok_bind, mkPoly_size]
    rw [Nat.pow_div hk (by norm_num), lde_exact w (by omega) (by omega)]
    rw [show Nat.clog 2 (r.length + 1) + (K - Nat.clog 2 (r.length + 1)) = K by omega]
    simp only [evalF_coeff hdeg]
    have ih' := ih (fun r hr => hne r (by simp [hr])) (fun r hr => hlen r (by simp [hr]))
      (some (fun i => (acc.getD (fun _ => 1)) i * chunkAt F w K r i))
    cases acc with
    | none =>
      simp only [Option.map_none, Res.pure_def, Res.ok_bind]
      simp only [Option.getD_none, one_mul, Option.map_some] at ih' ⊢
      refine Eq.trans ih' ?_
      simp only [reduceCtorEq, if_false, Option.getD_some, List.map_cons, List.prod_cons]
      split
      · rename_i h; subst h; simp
      · rfl
    | some q =>
      simp only [Option.map_some, mulAssign_mk, Res.ok_bind, Res.pure_def]
      simp only [Option.map_some, Option.getD_some] at ih' ⊢
      refine Eq.trans ih' ?_
      simp only [reduceCtorEq, if_false, Option.getD_some, List.map_cons, List.prod_cons]
      split
      · rename_i h; subst h; simp
      · simp only [mul_assoc, Option.map_some]

theorem fromRoots_exact (w : Worker) (roots : List F) (hne : roots ≠ [])
    (hS : Nat.clog 2 (roots.length + 1) ≤ StarkField.S F) (h32 : Nat.clog 2 (roots.length + 1) < 32) :
    ∃ Q : F[X], Q.degree < (2 ^ Nat.clog 2 (roots.length + 1) : ℕ) ∧
      (∀ i, i < 2 ^ Nat.clog 2 (roots.length + 1) → Q.eval (genOf F (Nat.clog 2 (roots.length + 1)) ^ i) =
        ((chunks (w.chunkSize roots.length) roots).map (fun r => chunkAt F w (Nat.clog 2 (roots.length + 1)) r i)).prod) ∧
      Poly.fromRoots w roots = .ok (mkPoly .coefficients (Nat.clog 2 (roots.length + 1)) Q.coeff) := by
  have hc := w.chunkSize_pos roots.length
  set c := w.chunkSize roots.length with hcdef
  set K := Nat.clog 2 (roots.length + 1) with hKdef
  obtain ⟨Q, hQ, hQv⟩ := exists_poly_values hS (one_ne_zero (α := F))
    (fun i => ((chunks c roots).map (fun r => chunkAt F w K r i)).prod)
  simp only [one_mul] at hQv
  refine ⟨Q, hQ, hQv, ?_⟩
  unfold Poly.fromRoots
  rw [newForSize_eq, if_pos hS]
  simp only [Res.ok_bind]
  rw [numSpawnedThreads_eq, ← hcdef, ← hKdef]
  have e1 : (tab (numChunks roots.length c) fun i =>
      (((chunks c roots)[i]?).map (fun r => r.foldl Poly.mulRoot [])).getD []) = (chunks c roots).map (fun r => r.foldl Poly.mulRoot []) := by
    conv_rhs => unfold chunks
    rw [map_tab]
    apply tab_congr
    intro i hi
    unfold chunks
    rw [getElem?_tab, if_pos hi]
    rfl
  rw [e1]
  have hmem : ∀ r ∈ chunks c roots, r ≠ [] ∧ r.length ≤ roots.length := by
    intro r hr
    unfold chunks at hr
    obtain ⟨i, hi, rfl⟩ := mem_tab.1 hr
    have := numChunks_lt hc hi
    constructor
    · intro h
      have := congrArg List.length h
      simp only [List.length_take, List.length_drop, List.length_nil] at this
      omega
    · simp only [List.length_take, List.length_drop]; omega
  have hp := fromRoots_loop_exact w K hS h32 (chunks c roots) (fun r hr => (hmem r hr).1)
    (fun r hr => le_trans (Nat.succ_le_succ (hmem r hr).2) (Nat.le_pow_clog (by norm_num) _)) none
  simp only [Option.map_none] at hp
  rw [hp]
  have hcne : chunks c roots ≠ [] := by
    intro h
    have := congrArg List.flatten h
    rw [chunks_flatten hc] at this
    exact hne this
  rw [if_neg hcne]
  simp only [Option.getD_none, one_mul, Option.map_some, Res.ok_bind, Res.expect_some]
  rw [← ifft_poly w hS h32 hQ]
  congr 1
  apply mkPoly_congr
  intro i hi
  exact (hQv i hi).symm

end

end Hodor

import Verif.Model.Tensor
import Verif.Model.F257
import Mathlib.LinearAlgebra.Matrix.Kronecker
import Mathlib.Tactic.Ring

/-!
# C56, C57: tensor decompositions (`src/experiments/tensor_lde.rs`)

The specification is Mathlib's Kronecker product `B ⊗ₖ A`, whose entry at row `(q, r)` and column `(q', c)` is `B q q' * A r c`.
-/

namespace Hodor

open scoped Kronecker

variable {F : Type} [Field F]

/-- A list stores a matrix row by row. -/
def RowMajor {m n : ℕ} (l : List F) (A : Matrix (Fin m) (Fin n) F) : Prop :=
  l.length = m * n ∧ ∀ r c, l[r.val * n + c.val]? = some (A r c)

theorem divmod_add {m q r : ℕ} (h : r < m) : (q * m + r) / m = q ∧ (q * m + r) % m = r := by
  have hm : 0 < m := by omega
  constructor
  · rw [Nat.add_comm, Nat.add_mul_div_right _ _ hm, Nat.div_eq_of_lt h, Nat.zero_add]
  · rw [Nat.add_comm, Nat.add_mul_mod_self_right, Nat.mod_eq_of_lt h]

/-- **C56** (block-diagonal queries): the query at row `q*m + r` and column `q'*n + c` is the entry of `1 ⊗ A`, for every block position. -/
theorem C56_identity {m n : ℕ} (l : List F) (A : Matrix (Fin m) (Fin n) F) (h : RowMajor l A) (q q' : ℕ) (r : Fin m) (c : Fin n) :
    queryOverIdentity (l, m, n) (q * m + r, q' * n + c) = .ok (((1 : Matrix ℕ ℕ F) ⊗ₖ A) (q, r) (q', c)) := by
  have hm : m ≠ 0 := by have := r.isLt; omega
  have hn : n ≠ 0 := by have := c.isLt; omega
  unfold queryOverIdentity
  simp only [ne_eq, hm, hn, not_false_eq_true, decide_true, Res.assert_true, Res.ok_bind, (divmod_add r.isLt).1, (divmod_add r.isLt).2,
    (divmod_add c.isLt).1, (divmod_add c.isLt).2, Matrix.kroneckerMap_apply, Matrix.one_apply]
  by_cases e : q = q'
  · rw [if_neg (by simpa using e), if_pos e, one_mul]
    unfold rd
    rw [Nat.mul_comm n, h.2 r c]; rfl
  · rw [if_pos (by simpa using e), if_neg e, zero_mul]; rfl

/-- **C56** (weighted blocks): the query is the entry of `diag(b) ⊗ A`. -/
theorem C56_diagonal {m n k s : ℕ} (l d : List F) (A : Matrix (Fin m) (Fin n) F) (b : Fin k → F) (h : RowMajor l A)
    (hd : d = List.ofFn b) (q q' : Fin k) (r : Fin m) (c : Fin n) :
    queryOverDiagonal (l, m, n) (d, s) (q * m + r, q' * n + c) = .ok ((Matrix.diagonal b ⊗ₖ A) (q, r) (q', c)) := by
  have hm : m ≠ 0 := by have := r.isLt; omega
  have hn : n ≠ 0 := by have := c.isLt; omega
  unfold queryOverDiagonal
  simp only [ne_eq, hm, hn, not_false_eq_true, decide_true, Res.assert_true, Res.ok_bind, (divmod_add r.isLt).1, (divmod_add r.isLt).2,
    (divmod_add c.isLt).1, (divmod_add c.isLt).2, Matrix.kroneckerMap_apply, Matrix.diagonal_apply]
  by_cases e : q = q'
  · subst e
    rw [if_neg (by simp), if_pos rfl]
    unfold rd
    rw [Nat.mul_comm n, h.2 r c, hd]
    simp [mul_comm]
  · have e' : ¬ q.val = q'.val := fun x => e (Fin.ext x)
    rw [if_pos e', if_neg e, zero_mul]; rfl

/-- **C56** (outside the blocks): a diagonal query in block `q ≥ k` panics, an off-diagonal one is 0 however far out. -/
theorem C56_diagonal_outside {m n s : ℕ} (l d : List F) (A : Matrix (Fin m) (Fin n) F) (h : RowMajor l A) (q q' : ℕ) (hq : d.length ≤ q)
    (r : Fin m) (c : Fin n) :
    queryOverDiagonal (l, m, n) (d, s) (q * m + r, q' * n + c) = if q = q' then .panic else .ok 0 := by
  have hm : m ≠ 0 := by have := r.isLt; omega
  have hn : n ≠ 0 := by have := c.isLt; omega
  unfold queryOverDiagonal
  simp only [ne_eq, hm, hn, not_false_eq_true, decide_true, Res.assert_true, Res.ok_bind, (divmod_add r.isLt).1, (divmod_add r.isLt).2,
    (divmod_add c.isLt).1, (divmod_add c.isLt).2]
  by_cases e : q = q'
  · rw [if_neg (by simpa using e), if_pos e]
    unfold rd
    rw [Nat.mul_comm n, h.2 r c, List.getElem?_eq_none hq]; rfl
  · rw [if_pos e, if_neg e]; rfl

/-- **C56** (vectors): the query is the entry of `b ⊗ a`; every other index panics. -/
theorem C56_vector {m k : ℕ} (a : Fin m → F) (b : Fin k → F) (j : Fin k) (i : Fin m) :
    queryVectorOverVector (List.ofFn a, m) (List.ofFn b, k) (j * m + i) = .ok (a i * b j) ∧
    ∀ idx, m * k ≤ idx → queryVectorOverVector (List.ofFn a, m) (List.ofFn b, k) idx = .panic := by
  have hm : 0 < m := by have := i.isLt; omega
  constructor
  · unfold queryVectorOverVector
    simp only [ne_eq, hm.ne', not_false_eq_true, decide_true, Res.assert_true, Res.ok_bind, (divmod_add i.isLt).1, (divmod_add i.isLt).2,
      j.isLt, rd]
    simp
  · intro idx hidx
    unfold queryVectorOverVector
    have : ¬ idx / m < k := by
      rw [Nat.div_lt_iff_lt_mul hm, Nat.mul_comm]; omega
    simp [hm.ne', this]

/-- **C56** (powers): the powers of `x` split into a vector of low powers and one of high powers (the use made of it by the experiment). -/
theorem C56_powers (m k : ℕ) (x : F) (idx : ℕ) (h : idx < m * k) :
    queryVectorOverVector ((List.range m).map (x ^ ·), m) ((List.range k).map (fun j => x ^ (j * m)), k) idx = .ok (x ^ idx) := by
  have hm : 0 < m := Nat.pos_of_ne_zero (by rintro rfl; simp at h)
  have hd : idx / m < k := by rw [Nat.div_lt_iff_lt_mul hm, Nat.mul_comm]; exact h
  have := (C56_vector (fun i : Fin m => x ^ i.val) (fun j : Fin k => x ^ (j.val * m)) ⟨idx / m, hd⟩ ⟨idx % m, Nat.mod_lt _ hm⟩).1
  have e : idx / m * m + idx % m = idx := by rw [Nat.mul_comm]; exact Nat.div_add_mod idx m
  simp only [e, ← pow_add] at this
  rw [Nat.add_comm, e] at this
  rw [← this]
  congr 2
  · congr 1
    apply List.ext_getElem <;> simp
  · congr 1
    apply List.ext_getElem <;> simp

/-- **C57** (what the decomposition provides). Let `ω` have order `s1*s2` and let `v` have order `l*s1*s2` with `v^l = ω`. The call succeeds;
both parts have domain generators of the order of their sub-domain, the second part is an LDE description (its coset generator to its factor
is its domain generator), and every point `v^k * ω^n` of the large domain is, in exactly one way, a power below the first factor of the first coset
generator times a point of the second LDE domain. -/
theorem C57_decompose_partial (l s1 s2 : ℕ) (ω v : F) (hl : 0 < l) (h1 : 0 < s1) (h2 : 0 < s2) (hω : IsPrimitiveRoot ω (s1 * s2))
    (hv : IsPrimitiveRoot v (l * (s1 * s2))) (hvω : v ^ l = ω) :
    ∃ g1 ω1 f1 g2 ω2 f2, decomposeLdeGenerator l (s1 * s2) (s1, s2) ω v = .ok ((g1, ω1, f1), (g2, ω2, f2)) ∧
      IsPrimitiveRoot ω1 s1 ∧ IsPrimitiveRoot ω2 s2 ∧ f1 = l ∧ f2 * s2 = s1 * s2 ∧ g2 ^ f2 = ω2 ∧ g1 ^ f1 = ω ∧
      ∀ x : F, x ^ (l * (s1 * s2)) = 1 → ∃! t : ℕ × ℕ × ℕ, t.1 < f1 ∧ t.2.1 < f2 ∧ t.2.2 < s2 ∧ x = g1 ^ t.1 * (g2 ^ t.2.1 * ω2 ^ t.2.2) := by
  have d1 : s1 * s2 / s1 = s2 := Nat.mul_div_cancel_left _ h1
  have d2 : s1 * s2 / s2 = s1 := Nat.mul_div_cancel _ h2
  refine ⟨v, ω ^ s2, l, ω, ω ^ s1, s1, ?_, hω.pow (Nat.mul_pos h1 h2) (Nat.mul_comm s1 s2), hω.pow (Nat.mul_pos h1 h2) rfl, rfl, rfl, rfl, hvω, ?_⟩
  · unfold decomposeLdeGenerator
    simp [h1.ne', h2.ne', d1, d2]
  · intro x hx
    have key : ∀ k b c : ℕ, v ^ k * (ω ^ b * (ω ^ s1) ^ c) = v ^ (k + l * (b + s1 * c)) := by
      intro k b c
      rw [← pow_mul, ← pow_add, pow_add v k, pow_mul v l, hvω]
    have hN : 0 < l * (s1 * s2) := Nat.mul_pos hl (Nat.mul_pos h1 h2)
    haveI : NeZero (l * (s1 * s2)) := ⟨hN.ne'⟩
    obtain ⟨i, hi, e⟩ := hv.eq_pow_of_pow_eq_one hx
    have hil : i / l < s1 * s2 := by rw [Nat.div_lt_iff_lt_mul hl, Nat.mul_comm]; exact hi
    refine ⟨(i % l, i / l % s1, i / l / s1), ⟨Nat.mod_lt _ hl, Nat.mod_lt _ h1, ?_, ?_⟩, ?_⟩
    · show i / l / s1 < s2
      rw [Nat.div_lt_iff_lt_mul h1, Nat.mul_comm]; exact hil
    · show x = v ^ (i % l) * (ω ^ (i / l % s1) * (ω ^ s1) ^ (i / l / s1))
      rw [key, Nat.mod_add_div, Nat.mod_add_div, e]
    · rintro ⟨k, b, c⟩ ⟨hk, hb, hc, hx2⟩
      simp only at hk hb hc hx2
      rw [key, ← e] at hx2
      have hlt : k + l * (b + s1 * c) < l * (s1 * s2) := by
        have : b + s1 * c < s1 * s2 := by
          calc b + s1 * c < s1 * (c + 1) := by rw [Nat.mul_add]; omega
            _ ≤ s1 * s2 := Nat.mul_le_mul_left _ hc
        calc k + l * (b + s1 * c) < l * (b + s1 * c + 1) := by rw [Nat.mul_add l (b + s1 * c)]; omega
          _ ≤ l * (s1 * s2) := Nat.mul_le_mul_left _ this
      have ei := hv.pow_inj hi hlt hx2
      have q : i / l = b + s1 * c ∧ i % l = k := by
        subst ei
        constructor
        · rw [Nat.add_mul_div_left _ _ hl, Nat.div_eq_of_lt hk, Nat.zero_add]
        · rw [Nat.add_mul_mod_self_left, Nat.mod_eq_of_lt hk]
      have q2 : (b + s1 * c) / s1 = c ∧ (b + s1 * c) % s1 = b := by
        constructor
        · rw [Nat.add_mul_div_left _ _ h1, Nat.div_eq_of_lt hb, Nat.zero_add]
        · rw [Nat.add_mul_mod_self_left, Nat.mod_eq_of_lt hb]
      rw [q.1, q.2, q2.1, q2.2]

/-- **C57** (the full claim is false): the first part satisfies "coset generator to the LDE factor is the domain generator" only if the second
sub-domain is trivial. -/
theorem C57_first_part_wrong (l s1 s2 : ℕ) (ω v : F) (h1 : 0 < s1) (h2 : 0 < s2) (hω : IsPrimitiveRoot ω (s1 * s2)) (hvω : v ^ l = ω)
    (g1 ω1 g2 ω2 : F) (f1 f2 : ℕ) (h : decomposeLdeGenerator l (s1 * s2) (s1, s2) ω v = .ok ((g1, ω1, f1), (g2, ω2, f2))) :
    g1 ^ f1 = ω1 ↔ s2 = 1 := by
  have d1 : s1 * s2 / s1 = s2 := Nat.mul_div_cancel_left _ h1
  unfold decomposeLdeGenerator at h
  simp only [decide_true, Res.assert_true, Res.ok_bind, ne_eq, h1.ne', h2.ne', not_false_eq_true, d1, Res.pure_def, Res.ok.injEq,
    Prod.mk.injEq] at h
  obtain ⟨⟨rfl, rfl, rfl⟩, -⟩ := h
  rw [hvω]
  constructor
  · intro e
    have e2 : ω ^ (s2 - 1) = 1 := by
      have hne : ω ≠ 0 := hω.ne_zero (Nat.mul_pos h1 h2).ne'
      have : ω ^ (s2 - 1) * ω = 1 * ω := by rw [← pow_succ, Nat.sub_add_cancel h2, one_mul]; exact e.symm
      exact mul_right_cancel₀ hne this
    have hdvd := hω.dvd_of_pow_eq_one _ e2
    by_contra hne
    have := Nat.le_of_dvd (by omega) hdvd
    have : s2 ≤ s1 * s2 := Nat.le_mul_of_pos_left _ h1
    omega
  · rintro rfl; rw [pow_one]

/-- **C57** (other inputs): sizes that do not multiply to the domain size, and an empty domain, panic. -/
theorem C57_panics (l n s1 s2 : ℕ) (ω v : F) : decomposeLdeGenerator l n (s1, s2) ω v = .panic ↔ s1 * s2 ≠ n ∨ n = 0 := by
  unfold decomposeLdeGenerator
  by_cases h : s1 * s2 = n
  · by_cases h1 : s1 = 0
    · subst h1; simp at h; subst h; simp
    · by_cases h2 : s2 = 0
      · subst h2; simp at h; subst h; simp [h1]
      · subst h; simp [h1, h2]
  · simp [h]

section nonvacuity

/-- A 2×3 matrix in row-major order. -/
theorem exampleRowMajor : RowMajor ([1, 2, 3, 4, 5, 6] : List Fr) !![1, 2, 3; 4, 5, 6] := by
  refine ⟨rfl, ?_⟩
  intro r c
  fin_cases r <;> fin_cases c <;> rfl

example : queryOverDiagonal (([1, 2, 3, 4, 5, 6] : List Fr), 2, 3) ([7, 8], 2) (3, 5) = .ok 48 := by decide +kernel
example : queryOverDiagonal (([1, 2, 3, 4, 5, 6] : List Fr), 2, 3) ([7, 8], 2) (3, 2) = .ok 0 := by decide +kernel

/-- The hypotheses of C57 hold for a domain of 16 = 2·8 points extended 16 times, as in the repository's test. -/
example : ∃ ω v : Fr, IsPrimitiveRoot ω (2 * 8) ∧ IsPrimitiveRoot v (16 * (2 * 8)) ∧ v ^ 16 = ω :=
  ⟨(StarkField.root : Fr) ^ 16, StarkField.root, StarkField.root_prim.pow (by decide) (by decide), StarkField.root_prim, rfl⟩

end nonvacuity

end Hodor

import Verif.Lemmas.StarkV
import Verif.Spec.Deep

/-! # Lemmas about `calculate_deep` -/

namespace Hodor

open Polynomial Finset Spec

variable {F : Type} [Field F]

section singles
variable [StarkField F] (H : List UInt8 → Digest)

/-- The next `n` challenges. -/
def singlesAt (F : Type) [Field F] [StarkField F] (H : List UInt8 → Digest) : ℕ → Transcript → List F
  | 0, _ => []
  | n + 1, t => chal F H t :: singlesAt F H n (nextT H t)

/-- The transcript after `n` challenges. -/
def afterS : ℕ → Transcript → Transcript
  | 0, t => t
  | n + 1, t => afterS n (nextT H t)

theorem length_singlesAt (n : ℕ) (t : Transcript) : (singlesAt F H n t).length = n := by
  induction n generalizing t with
  | zero => rfl
  | succ n ih => simp [singlesAt, ih]

end singles

variable [DecidableEq F] [StarkField F] (H : List UInt8 → Digest)

theorem inverseLinear_eq (w : Worker) {K : ℕ} (hK : K ≤ StarkField.S F) (h1 : 1 ≤ StarkField.S F) (root : F) :
    inverseLinear root (2 ^ K) w = if root ^ 2 ^ K = 1 then .err .error
      else .ok (mkPoly .values K (fun i => (genOf F K ^ i - root)⁻¹)) := by
  by_cases h : root ^ 2 ^ K = 1
  · rw [if_pos h]
    obtain ⟨i, hi, e⟩ := (genOf_prim hK).eq_pow_of_pow_eq_one h
    obtain ⟨q, e0, hq⟩ := linearPoly_ok h1 root
    have e1 := evaluateAtDomainForDegreeOne_mk w q (-root) 1 hq (n := 2 ^ K)
      (by rw [Nat.clog_pow _ _ (by norm_num)]; exact hK)
    rw [Nat.clog_pow _ _ (by norm_num)] at e1
    unfold inverseLinear
    simp only [e0, Res.ok_bind, e1]
    rw [batchInversion_tab w _ (2 ^ K) _ rfl, if_pos ⟨i, hi, by rw [e]; ring⟩]
  · rw [if_neg h]
    apply inverseLinear_ok w hK h1
    intro i _ e
    apply h
    rw [← e, ← pow_mul, mul_comm, pow_mul, genOf_pow_card hK, one_pow]

omit [DecidableEq F] in
/-- A root outside the domain of size `2^K`. -/
theorem domain_ne {K : ℕ} (hK : K ≤ StarkField.S F) {root : F} (h : root ^ 2 ^ K ≠ 1) (i : ℕ) : genOf F K ^ i - root ≠ 0 := by
  intro e
  apply h
  rw [← sub_eq_zero.1 e, ← pow_mul, mul_comm, pow_mul, genOf_pow_card hK, one_pow]

/-- The mask of register `p.1` at the shift `p.2`. -/
def toMask (p : ℕ × F) : MaskProperties F := ⟨.register p.1, .mask p.2⟩

/-- The cached divisors are the inverses of `x - m z`. -/
def DivisorsOk (N : ℕ) (z : F) (D : List (StepDifference F × Poly F .values)) : Prop :=
  ∀ m d, assocGet D (.mask m) = some d → d = mkPoly .values N (fun i => (genOf F N ^ i - m * z)⁻¹)

theorem deepDivisor_ok (w : Worker) {N : ℕ} (hN : N ≤ StarkField.S F) (h1 : 1 ≤ StarkField.S F) {z m : F}
    (hm : (m * z) ^ 2 ^ N ≠ 1) {D : List (StepDifference F × Poly F .values)} (hD : DivisorsOk N z D) :
    ∃ D', deepDivisor (2 ^ N) w (.mask m) (m * z) D
      = .ok (mkPoly .values N (fun i => (genOf F N ^ i - m * z)⁻¹), D') ∧ DivisorsOk N z D' := by
  unfold deepDivisor
  cases e : assocGet D (.mask m) with
  | some d => exact ⟨D, by rw [hD m d e]; rfl, hD⟩
  | none =>
    refine ⟨assocInsert D (.mask m) (mkPoly .values N (fun i => (genOf F N ^ i - m * z)⁻¹)), ?_, ?_⟩
    · simp only [inverseLinear_eq w hN h1, if_neg hm, Res.ok_bind, Res.pure_def]
    · intro m' d' h'
      rw [assocGet_insert] at h'
      split at h'
      · rename_i he
        cases he
        cases h'
        rfl
      · exact hD m' d' h'

theorem deepMask_ok (hch : ChallengeOk F) (w : Worker) {n k N : ℕ} (hN : N ≤ StarkField.S F) (h1 : 1 ≤ StarkField.S F)
    {P : ℕ → F[X]} (hP : ∀ r, (P r).degree < (2 ^ k : ℕ)) {z : F} (p : ℕ × F) (hr : p.1 < n)
    (hm : (p.2 * z) ^ 2 ^ N ≠ 1) (h : ℕ → F) (l : List F) {D : List (StepDifference F × Poly F .values)}
    (hD : DivisorsOk N z D) (t : Transcript) :
    ∃ D', deepMask H (tab n (fun r => mkPoly .coefficients k (P r).coeff))
        (tab n (fun r => mkPoly .values N (fun i => (P r).eval (genOf F N ^ i)))) (2 ^ N) z w (toMask p)
        ⟨mkPoly .values N h, l, D, t⟩
      = .ok ⟨mkPoly .values N (fun i => h i + chal F H t * ((P p.1).eval (genOf F N ^ i) - (P p.1).eval (p.2 * z))
            / (genOf F N ^ i - p.2 * z)), l ++ [(P p.1).eval (p.2 * z)], D', nextT H t⟩ ∧ DivisorsOk N z D' := by
  obtain ⟨D', e, hD'⟩ := deepDivisor_ok w hN h1 hm hD
  refine ⟨D', ?_, hD'⟩
  unfold deepMask toMask
  simp only [StepDifference.maskOf, Register.num, Res.ok_bind, Res.pure_def, rd_tab hr, e, evaluateAt_poly w k (hP _),
    getChallenge_ok H hch, addConstant_mk, scale_mk, mulAssign_mk, addAssignV_mk]
  have : mkPoly .values N (fun i => h i + ((P p.1).eval (genOf F N ^ i) + -(P p.1).eval (p.2 * z)) * chal F H t *
      (genOf F N ^ i - p.2 * z)⁻¹) = mkPoly .values N (fun i => h i + chal F H t * ((P p.1).eval (genOf F N ^ i) -
      (P p.1).eval (p.2 * z)) / (genOf F N ^ i - p.2 * z)) := by
    apply mkPoly_congr
    intro i _
    rw [div_eq_mul_inv]; ring
  rw [this]

theorem deepMasks_ok (hch : ChallengeOk F) (w : Worker) {n k N : ℕ} (hN : N ≤ StarkField.S F) (h1 : 1 ≤ StarkField.S F)
    {P : ℕ → F[X]} (hP : ∀ r, (P r).degree < (2 ^ k : ℕ)) {z : F} (ps : List (ℕ × F))
    (hps : ∀ p ∈ ps, p.1 < n ∧ (p.2 * z) ^ 2 ^ N ≠ 1) (h : ℕ → F) (l : List F)
    {D : List (StepDifference F × Poly F .values)} (hD : DivisorsOk N z D) (t : Transcript) :
    ∃ D', forEach (ps.map toMask) ⟨mkPoly .values N h, l, D, t⟩ (deepMask H
        (tab n (fun r => mkPoly .coefficients k (P r).coeff))
        (tab n (fun r => mkPoly .values N (fun i => (P r).eval (genOf F N ^ i)))) (2 ^ N) z w)
      = .ok ⟨mkPoly .values N (fun i => h i + deepAt P z (ps.zip (singlesAt F H ps.length t)) (genOf F N ^ i)),
          l ++ ps.map (fun p => (P p.1).eval (p.2 * z)), D', afterS H ps.length t⟩ := by
  induction ps generalizing h l D t with
  | nil => exact ⟨D, by simp [forEach, deepAt, afterS]⟩
  | cons p ps ih =>
    obtain ⟨hr, hm⟩ := hps p List.mem_cons_self
    obtain ⟨D1, e1, hD1⟩ := deepMask_ok H hch w hN h1 hP p hr hm h l hD t
    obtain ⟨D2, e2⟩ := ih (fun q hq => hps q (List.mem_cons_of_mem _ hq)) _ _ hD1 (nextT H t)
    refine ⟨D2, ?_⟩
    simp only [List.map_cons, forEach, e1, Res.ok_bind]
    rw [e2]
    simp only [singlesAt, List.length_cons, List.zip_cons_cons, deepAt, List.map_cons, List.sum_cons, afterS, add_assoc,
      List.append_assoc, List.singleton_append]

/-- `calculate_deep` on honest data, when `z` avoids the domains. -/
theorem calculateDeep_ok (hch : ChallengeOk F) (w : Worker) {n k K N M : ℕ} (hN : N ≤ StarkField.S F)
    (hM : M ≤ StarkField.S F) (h1 : 1 ≤ StarkField.S F) (hn : 0 < n)
    {P : ℕ → F[X]} (hP : ∀ r, (P r).degree < (2 ^ k : ℕ)) {G : F[X]} (hG : G.degree < (2 ^ K : ℕ))
    (ps : List (ℕ × F)) (t : Transcript) (hps : ∀ p ∈ ps, p.1 < n ∧ (p.2 * chal F H t) ^ 2 ^ N ≠ 1)
    (hz : chal F H t ^ 2 ^ M ≠ 1) {ali : AliInstance F} (hali : ali.allMasks = ps.map toMask) :
    ali.calculateDeep H (tab n (fun r => mkPoly .coefficients k (P r).coeff))
        (tab n (fun r => mkPoly .values N (fun i => (P r).eval (genOf F N ^ i))))
        (mkPoly .coefficients K G.coeff) (mkPoly .values M (fun i => G.eval (genOf F M ^ i))) t w
      = .ok ⟨mkPoly .values N (fun i => deepAt P (chal F H t) (ps.zip (singlesAt F H ps.length (nextT H t))) (genOf F N ^ i)),
          mkPoly .values M (fun i => deepGAt G (chal F H t) (genOf F M ^ i)),
          ps.map (fun p => (P p.1).eval (p.2 * chal F H t)), G.eval (chal F H t), afterS H ps.length (nextT H t)⟩ := by
  obtain ⟨D, e⟩ := deepMasks_ok H hch w hN h1 hP ps hps (fun _ => 0) [] (D := []) (by intro m d h; cases h) (nextT H t)
  unfold AliInstance.calculateDeep
  simp only [getChallenge_ok H hch, Res.ok_bind, rd_tab hn, mkPoly_size, newForSizeValues_pow hN, hali, e,
    inverseLinear_eq w hM h1, if_neg hz, evaluateAt_poly w K hG, addConstant_mk, mulAssign_mk, Res.pure_def, zero_add,
    List.nil_append]
  have : mkPoly .values M (fun i => (G.eval (genOf F M ^ i) + -G.eval (chal F H t)) * (genOf F M ^ i - chal F H t)⁻¹)
      = mkPoly .values M (fun i => deepGAt G (chal F H t) (genOf F M ^ i)) := by
    apply mkPoly_congr
    intro i _
    unfold deepGAt
    rw [div_eq_mul_inv]; ring
  rw [this]

omit [DecidableEq F] [StarkField F] in
theorem exists_deep_quotient {p : F[X]} {N : ℕ} (hp : p.degree < N) (hN : 0 < N) (a : F) :
    ∃ Q : F[X], Q.degree < N ∧ ∀ x, x ≠ a → Q.eval x = (p.eval x - p.eval a) / (x - a) := by
  obtain ⟨Q, hQ⟩ := X_sub_C_dvd_sub_C_eval (a := a) (p := p)
  refine ⟨Q, degree_of_mul_monic (monic_X_sub_C a) hQ ?_, ?_⟩
  · refine (degree_sub_le _ _).trans_lt (max_lt hp ?_)
    exact lt_of_le_of_lt degree_C_le (by exact_mod_cast hN)
  · intro x hx
    have := congrArg (fun q => q.eval x) hQ
    simp only [eval_sub, eval_C, eval_mul, eval_X] at this
    rw [this, mul_div_cancel_left₀ _ (sub_ne_zero.2 hx)]

omit [DecidableEq F] [StarkField F] in
/-- The first DEEP word is a polynomial of degree below the number of rows. -/
theorem exists_deep {P : ℕ → F[X]} {N : ℕ} (hP : ∀ r, (P r).degree < N) (hN : 0 < N) (z : F) (ops : List ((ℕ × F) × F)) :
    ∃ Q : F[X], Q.degree < N ∧ ∀ x, (∀ q ∈ ops, x ≠ q.1.2 * z) → Q.eval x = deepAt P z ops x := by
  unfold deepAt
  apply exists_sum_poly ops (fun q x => q.2 * ((P q.1.1).eval x - (P q.1.1).eval (q.1.2 * z)) / (x - q.1.2 * z))
    (fun x => ∀ q ∈ ops, x ≠ q.1.2 * z)
  intro q hq
  obtain ⟨Q, hQ, hv⟩ := exists_deep_quotient (hP q.1.1) hN (q.1.2 * z)
  refine ⟨C q.2 * Q, ?_, ?_⟩
  · by_cases h0 : q.2 = 0
    · rw [h0, C_0, zero_mul, degree_zero]; exact WithBot.bot_lt_coe N
    · rw [degree_C_mul h0]; exact hQ
  · intro x hx
    rw [eval_mul, eval_C, hv x (hx q hq), mul_div_assoc]

omit [DecidableEq F] [StarkField F] in
theorem exists_deepG {G : F[X]} {N : ℕ} (hG : G.degree < N) (hN : 0 < N) (z : F) :
    ∃ Q : F[X], Q.degree < N ∧ ∀ x, x ≠ z → Q.eval x = deepGAt G z x :=
  exists_deep_quotient hG hN z

/-! ### The masks of a suitable instance -/

variable {inst : InstanceProperties F} {n k f : ℕ}

theorem Spec.Runnable.maskPairs (h : Runnable inst n k f) (hk : k ≤ StarkField.S F) :
    ∃ ps : List (ℕ × F), masksOf (arpOf inst k) = ps.map toMask ∧ ∀ p ∈ ps, p.1 < n ∧ p.2 ^ 2 ^ k = 1 := by
  have key : ∀ m ∈ masksOf (arpOf inst k), ∃ p : ℕ × F, m = toMask p ∧ p.1 < n ∧ p.2 ^ 2 ^ k = 1 := by
    intro m hm
    rcases (mem_boundaryMasks _ _ _).1 hm with h' | ⟨b, hb, rfl⟩
    · rcases (mem_masks _ _ _).1 h' with h' | ⟨c, hc, u, hu, rfl⟩
      · simp at h'
      · obtain ⟨c0, hc0, rfl⟩ := List.mem_map.1 hc
        obtain ⟨t, ht, hu'⟩ := List.mem_flatMap.1 hu
        obtain ⟨t0, ht0, rfl⟩ := List.mem_map.1 ht
        rw [termFactors_maskT] at hu'
        obtain ⟨u0, hu0, rfl⟩ := List.mem_map.1 hu'
        obtain ⟨-, hf⟩ := h.terms c0 hc0 t0 ht0
        obtain ⟨⟨r, hr, er⟩, j, ej⟩ := hf u0 hu0
        refine ⟨(r, genOf F k ^ j), ?_, hr, ?_⟩
        · simp [UnivariateTerm.maskProperties, toMask, maskU, ej, er]
        · rw [← pow_mul, mul_comm, pow_mul, genOf_pow_card hk, one_pow]
    · obtain ⟨⟨r, hr, er⟩, -⟩ := h.boundary b hb
      exact ⟨(r, 1), by simp [toMask, er], hr, one_pow _⟩
  generalize masksOf (arpOf inst k) = ms at key
  induction ms with
  | nil => exact ⟨[], rfl, by simp⟩
  | cons m ms ih =>
    obtain ⟨ps, e, hps⟩ := ih (fun m' hm' => key m' (List.mem_cons_of_mem _ hm'))
    obtain ⟨p, rfl, hp⟩ := key m List.mem_cons_self
    refine ⟨p :: ps, by rw [List.map_cons, e], ?_⟩
    intro q hq
    rcases List.mem_cons.1 hq with rfl | hq
    · exact hp
    · exact hps q hq

theorem Spec.Suitable.maskPairs (h : Suitable inst n k f) (hk : k ≤ StarkField.S F) :
    ∃ ps : List (ℕ × F), masksOf (arpOf inst k) = ps.map toMask ∧ ∀ p ∈ ps, p.1 < n ∧ p.2 ^ 2 ^ k = 1 :=
  h.runnable.maskPairs hk

end Hodor

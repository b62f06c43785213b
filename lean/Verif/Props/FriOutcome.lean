import Verif.Lemmas.RunH

/-!
# C27: what exactly the verifier answers to the honest FRI proof
-/

namespace Hodor

open Polynomial Finset Spec

variable {F : Type} [Field F] [DecidableEq F] [StarkField F] (H : List UInt8 → Digest)

omit [DecidableEq F] [StarkField F] in
theorem getD_foldCoeffs (β : F) (l : List F) (i : ℕ) :
    (foldCoeffs β l).getD i 0 = l.getD (2 * i) 0 + β * l.getD (2 * i + 1) 0 := by
  induction l using foldCoeffs.induct generalizing i with
  | case1 a b l ih =>
    rw [foldCoeffs]
    cases i with
    | zero => simp
    | succ i =>
      rw [List.getD_cons_succ, ih, show 2 * (i + 1) = 2 * i + 1 + 1 by ring, List.getD_cons_succ, List.getD_cons_succ,
        List.getD_cons_succ, List.getD_cons_succ]
  | case2 l h =>
    cases l with
    | nil => simp [foldCoeffs]
    | cons a l =>
      cases l with
      | nil =>
        cases i with
        | zero => simp [foldCoeffs]
        | succ i => simp [foldCoeffs]
      | cons b l => exact absurd rfl (h a b l)

omit [DecidableEq F] [StarkField F] in
theorem evalPoly_foldCoeffs (β : F) {m : ℕ} {p : F[X]} (hp : p.degree < m) (x : F) :
    Spec.evalPoly (foldCoeffs β (tab m p.coeff)) x = (foldPoly β p).eval x := by
  rw [evalPoly_polyOf]
  congr 1
  ext i
  have hl : ∀ j, (tab m p.coeff).getD j 0 = p.coeff j := by
    intro j
    rw [List.getD_eq_getElem?_getD, getElem?_tab]
    split
    · rfl
    · rw [(degree_lt_iff_coeff_zero _ _).1 hp j (by omega)]; rfl
  rw [polyOf_coeff, coeff_foldPoly, ← hl, ← hl, ← getD_foldCoeffs]
  split
  · rfl
  · rw [List.getD_eq_getElem?_getD, List.getElem?_eq_none (by omega)]; rfl

/-- **C27 (exactly).** For every codeword of declared degree, every output size `2^o`, factor, index and *every* expected value: at an even index
the proof is refused with an error; at an odd index the answer is `true` exactly if the expected value is the word's value at the index and
the final coefficients, evaluated at the point of the domain of size `2^(f+o-1)` with that index, have the same value as their fold by the
challenge of the last root. With one final coefficient the fold is the list itself. -/
theorem C27_outcome (hc : ChallengeOk F) (w : Worker) (v : Poly F .values) (hv : v.Valid) (n f o : ℕ)
    (hfo : f + o < n) (h1 : 1 ≤ f + o) (h32 : f + o < 32)
    (p : F[X]) (hp : p.degree < (2 ^ (n - f) : ℕ)) (d : Domain F) (hd : Domain.newForSize F (2 ^ n) = .ok d)
    (hcode : Spec.Codeword p d.generator (2 ^ n) v.coeffs) (idx : ℕ) (hidx : idx < 2 ^ n) (x : F) :
    ∃ proto proof root β d', friProofByValues H w v (2 ^ f) (2 ^ o) = .ok proto ∧ proto.produceProof H v idx = .ok proof ∧
      proof.roots.getLast? = some root ∧ encodeRootIntoChallenge root = .ok β ∧
      Domain.newForSize F (2 ^ (f + o - 1)) = .ok d' ∧ proof.finalCoefficients.length = 2 ^ o ∧
      proof.verify H idx x = if idx % 2 = 0 then .err .invalidValue else
        .ok (decide (v.coeffs[idx]? = some x ∧
          evalPoly proof.finalCoefficients (d'.generator ^ (idx % 2 ^ (f + o - 1))) =
          evalPoly (foldCoeffs β proof.finalCoefficients) (d'.generator ^ (idx % 2 ^ (f + o - 1))))) := by
  obtain ⟨hn, rfl⟩ := eq_mk_of_codeword hv hd hcode
  have hpn : p.degree < (2 ^ n : ℕ) := lt_of_lt_of_le hp
    (by exact_mod_cast Nat.pow_le_pow_right (by norm_num) (by omega))
  have hdeg : (friLayer H n p (n - f - o)).degree < (2 ^ o : ℕ) := by
    have := friLayer_degree H (n := n) hp (n - f - o) (by omega)
    rwa [show n - f - (n - f - o) = o by omega] at this
  refine ⟨_, _, friRoot H n p (n - f - o), friBeta H n p (n - f - o), domOf F (f + o - 1),
    friProofByValues_eq H hc w hn hfo h1 h32 hpn, produceProof_honest H hfo h1 hidx, getLast?_tab _ _,
    interpretHash_ok hc _, newForSize_pow (by omega), by simp [honestProof], ?_⟩
  have hx : (mkPoly Form.values n (friVals n p)).coeffs[idx]? = some (friVals n p idx) := by
    rw [mkPoly_coeffs, getElem?_tab, if_pos hidx]
  rw [hx]
  by_cases hodd : idx % 2 = 1
  · rw [if_neg (by omega)]
    by_cases hxv : x = friVals n p idx
    · subst hxv
      rw [verifyProof_honest H hc hn hfo h1 hidx, if_pos hodd, friLayer_succ]
      simp only [true_and, honestProof, domOf]
      rw [evalPoly_foldCoeffs _ hdeg]
    · rw [verifyProof_wrong H hn hfo hidx hodd hxv]
      congr 1
      symm
      apply decide_eq_false
      rintro ⟨h, -⟩
      exact hxv (Option.some.inj h).symm
  · rw [if_pos (by omega)]
    unfold FriProof.verify FriProof.verifyQueries honestProof
    simp only
    rw [friStart_eq H hn (by omega) (by omega) p hidx, if_neg hodd]
    rfl

/-- The hypotheses are met, with two final coefficients: the codeword of `1 + 2X` on eight points. -/
example : ∃ (v : Poly Fr .values) (d : Domain Fr), ChallengeOk Fr ∧ v.Valid ∧ 1 + 1 < 3 ∧ Domain.newForSize Fr (2 ^ 3) = .ok d ∧
    (1 + 2 * X : Fr[X]).degree < (2 ^ (3 - 1) : ℕ) ∧ Spec.Codeword (1 + 2 * X : Fr[X]) d.generator (2 ^ 3) v.coeffs := by
  refine ⟨mkPoly .values 3 (fun i => (1 + 2 * X : Fr[X]).eval (genOf Fr 3 ^ i)), domOf Fr 3, by unfold ChallengeOk; decide +kernel, valid_mkPoly _ (by decide) _, by norm_num, newForSize_pow (by decide), ?_, ?_⟩
  · have : (1 + 2 * X : Fr[X]).degree ≤ 1 := by compute_degree
    exact lt_of_le_of_lt this (by norm_num)
  · refine ⟨by simp, ?_⟩
    intro i hi
    simp only [mkPoly_coeffs, getElem?_tab, if_pos hi]
    rfl

end Hodor

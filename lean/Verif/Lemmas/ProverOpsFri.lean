import Verif.Lemmas.ProverOpsAli
import Verif.Props.SetupCost

/-!
# The prover with its field operations counted: FRI
-/

set_option linter.unusedSectionVars false

namespace Hodor

open Spec Tick

section generic
variable {σ : Type}

theorem spent_forN {n lo : ℕ} {s : σ} {body : ℕ → σ → Tick σ} (I : ℕ → σ → Prop) (c : ℕ → ℕ) (hs : I lo s)
    (h : ∀ i, lo ≤ i → i < lo + n → ∀ s, I i s → (body i s).Spent (fun s' d => I (i + 1) s' ∧ d = c i)) :
    (Tick.forN n lo s body).Spent (fun s' d => I (lo + n) s' ∧ d = ∑ i ∈ Finset.range n, c (lo + i)) := by
  induction n generalizing lo s with
  | zero => exact spent_pure ⟨hs, by simp⟩
  | succ n ih =>
    refine (h lo le_rfl (by omega) s hs).bind fun s1 d1 _ h1 => ?_
    refine (ih h1.1 fun i h2 h3 => h i (by omega) (by omega)).mono fun s2 d2 _ h2 => ⟨by rw [show lo + (n + 1) = lo + 1 + n by omega]; exact h2.1, ?_⟩
    rw [h1.2, h2.2, Finset.sum_range_succ']
    simp only [Nat.add_zero]
    rw [Nat.add_comm]
    congr 1
    refine Finset.sum_congr rfl fun i _ => ?_
    rw [show lo + 1 + i = lo + (i + 1) by omega]

end generic

variable {F : Type} [Field F] [DecidableEq F] [StarkField F]

theorem works_friFoldT (a b o ch ti : F) : (friFoldT a b o ch ti).Works 6 := fun _ _ => rfl

theorem works_friNextValuesT (w : Worker) (values om : List F) (stride n : ℕ) (ch ti : F) : (friNextValuesT w values om stride n ch ti).Works (6 * n) := by
  unfold friNextValuesT
  refine Works.to (Works.bind (d := 0) (works_collectN (c := fun i => min (w.chunkSize n) (n - i * w.chunkSize n) * 6) fun i _ =>
    (works_collectN (c := fun _ => 6) fun j _ => ?_).to (by simp)) fun _ _ => works_pure _) ?_
  · unfold friNextValueT
    exact works_lift_bind fun _ _ => works_lift_bind fun _ _ => works_lift_bind fun _ _ => works_friFoldT _ _ _ _ _
  · rw [← Finset.sum_mul, sum_min_chunks (w.chunkSize_pos _)]
    ring

theorem friNextValues_length {w : Worker} {values om l : List F} {stride n : ℕ} {ch ti : F} (h : friNextValues w values om stride n ch ti = .ok l) : l.length = n := by
  unfold friNextValues at h
  obtain ⟨parts, hp, h⟩ := Res.bind_eq_ok.1 h
  cases h
  obtain ⟨h1, h2⟩ := collectN_inv hp
  have e : parts.map List.length = (List.range (numChunks n (w.chunkSize n))).map (fun i => min (w.chunkSize n) (n - i * w.chunkSize n)) := by
    apply List.ext_getElem
    · simp [h1]
    · intro i hi1 hi2
      have hi : i < parts.length := by simpa using hi1
      have := h2 i parts[i] (List.getElem?_eq_getElem hi)
      simp only [List.getElem_map, List.getElem_range]
      exact (collectN_inv this).1
  rw [List.length_flatten, e]
  exact sum_min_chunks (n := n) (w.chunkSize_pos n)

theorem works_rootChallengeT (t : IopTree) : (rootChallengeT t : Tick F).Works 1 := works_op_bind (works_lift _)

theorem ofVec_shape {P : Form} {l : List F} {p : Poly F P} {m : ℕ} (hl : l.length = 2 ^ m) (h : Poly.ofVec l = .ok p) : p.coeffs.length = 2 ^ m ∧ p.exp = m := by
  rw [eq_tab_getD l 0, hl, ofVec_tab] at h
  split at h
  · cases h
    rw [Nat.clog_pow _ _ (by norm_num)]
    exact ⟨by simp, rfl⟩
  · cases h

variable (H : List UInt8 → Digest)

/-- A layer of the loop of FRI. -/
def FriSized (K i : ℕ) (s : FriState F) : Prop := s.nextSize = 2 ^ (K - 1 - i) ∧ s.current.length = 2 ^ (K - i)

theorem spent_friStepValuesW (w : Worker) (om : List F) (ti : F) {K i : ℕ} (hi : i + 1 < K) {s : FriState F} (hs : FriSized K i s) :
    (friStepValuesW H w om ti i s).Spent (fun s' d => FriSized K (i + 1) s' ∧ d = 6 * 2 ^ (K - 1 - i) + 1 + polyOps (StarkField.S F) (2 ^ (K - 1 - i))) := by
  unfold friStepValuesW
  refine spent_lift_bind fun _ _ => ?_
  rw [hs.1]
  refine spent_works_bind (works_friNextValuesT _ _ _ _ _ _ _) fun next hnext => ?_
  rw [res_friNextValuesT] at hnext
  have ln := friNextValues_length hnext
  refine spent_lift_bind fun iop _ => spent_lift_bind fun root _ => ?_
  refine spent_works_bind (works_rootChallengeT _) fun ch _ => ?_
  refine spent_works_bind (works_ofVecT _) fun p hp => spent_pure ⟨⟨?_, ?_⟩, ?_⟩
  · dsimp only
    rw [show K - 1 - i = K - 1 - (i + 1) + 1 by omega, pow_succ, Nat.mul_div_cancel _ (by norm_num)]
  · dsimp only
    rw [res_ofVecT] at hp
    rw [(ofVec_shape ln hp).1]
    congr 1
    omega
  · rw [ln]
    omega

theorem spent_friProofByValuesW (w : Worker) {v : Poly F .values} {K e o : ℕ} (hv : v.coeffs.length = 2 ^ K) (hm : e + o < K) (h1 : 1 ≤ e + o) :
    (friProofByValuesW H w v (2 ^ e) (2 ^ o)).Spent (fun p d => p.finalCoefficients.length = 2 ^ o ∧ d = friProverOps (StarkField.S F) w K (e + o)) := by
  unfold friProofByValuesW
  have hsz : v.size = 2 ^ K := hv
  have hhalf : 2 ^ K / 2 = 2 ^ (K - 1) := by
    obtain ⟨m, rfl⟩ : ∃ m, K = m + 1 := ⟨K - 1, by omega⟩
    rw [pow_succ, Nat.mul_div_cancel _ (by norm_num)]
    rfl
  simp only [hsz, hhalf]
  refine spent_lift_bind fun l0 _ => ?_
  refine spent_works_bind (works_op 1 _) fun two _ => ?_
  refine spent_works_bind (works_inverseUnwrapT _) fun ti _ => ?_
  refine spent_works_bind (works_powersTable w v.omegainv (2 ^ (K - 1))) fun om _ => ?_
  refine spent_lift_bind fun _ _ => spent_lift_bind fun _ _ => spent_lift_bind fun ns hns => ?_
  rw [log2Floor_steps (by omega)] at hns
  cases hns
  refine spent_works_bind (works_rootChallengeT _) fun ch _ => ?_
  refine (spent_forN (FriSized K) (fun i => 6 * 2 ^ (K - 1 - i) + 1 + polyOps (StarkField.S F) (2 ^ (K - 1 - i))) ⟨rfl, hv⟩
    fun i _ hi s hs => spent_friStepValuesW H w om ti (by omega) hs).bind ?_
  rintro s d - ⟨hs, hd⟩
  refine spent_lift_bind fun _ _ => spent_lift_bind fun _ _ => spent_lift_bind fun _ _ => spent_lift_bind fun _ _ => ?_
  have lc : s.current.length = 2 ^ (e + o) := by
    rw [hs.2]
    congr 1
    omega
  refine spent_works_bind (works_ofVecT _) fun fv hfv => ?_
  rw [res_ofVecT] at hfv
  obtain ⟨lf, xf⟩ := ofVec_shape lc hfv
  refine spent_works_bind (works_ifftPolyT w fv) fun fp hfp => spent_pure ⟨?_, ?_⟩
  · rw [res_ifftPolyT] at hfp
    have e : fp.coeffs.length = fv.coeffs.length := by
      unfold Poly.ifft at hfp
      obtain ⟨c, hc, hfp⟩ := Res.bind_eq_ok.1 hfp
      cases hfp
      exact (parMap_length _ _ _).trans (bestFft_length hc)
    dsimp only
    rw [List.length_take, e, lf]
    exact Nat.min_eq_left (Nat.pow_le_pow_right (by norm_num) (by omega))
  · rw [hd, lc, lf, xf]
    simp only [Nat.zero_add]
    unfold friProverOps
    rw [show K - e - o = K - (e + o) by omega]
    omega

theorem works_commitFinalT (t : Transcript) (root : Digest) (l : List F) : (commitFinalT t root l).Works l.length :=
  (works_forEach (c := fun _ => 1) fun x _ s => works_op 1 _).to (by simp)

end Hodor

import Verif.Lemmas.LdeIgnore
import Verif.Props.FftKernels

/-!
# C08, C70: the pruned transforms on vectors that are not zero-padded, or too short
-/

namespace Hodor

open Finset

variable {F : Type} [Field F]

/-- **C08** (the rest is not read). For a factor up to the length, the result only depends on the first `2^k / factor` entries, whatever stands behind them: it is the transform of these entries, padded with
zeroes, in both builds and on every machine. -/
theorem C08_rest_ignored (nightly : Bool) (w : Worker) (k e : ℕ) (hk : k < 32) (he : e ≤ k) (a : List F) (ha : a.length = 2 ^ k) (ω : F)
    (hω : k ≠ 0 → ω ^ 2 ^ (k - 1) = -1) :
    ∃ b, kernelLde nightly w a ω k (2 ^ e) = .ok b ∧ Spec.IsDft (a.take (2 ^ (k - e)) ++ List.replicate (2 ^ k - 2 ^ (k - e)) 0) ω b := by
  have hle : 2 ^ (k - e) ≤ 2 ^ k := Nat.pow_le_pow_right (by norm_num) (by omega)
  have hlen : (a.take (2 ^ (k - e)) ++ List.replicate (2 ^ k - 2 ^ (k - e)) 0).length = 2 ^ k := by
    rw [List.length_append, List.length_take, List.length_replicate, ha]
    omega
  have hpad : a.take (2 ^ (k - e)) ++ List.replicate (2 ^ k - 2 ^ (k - e)) 0 = tab (2 ^ k) (keepF (2 ^ k / 2 ^ e) (fun j => a.getD j 0)) := by
    apply List.ext_getElem?
    intro i
    rw [getElem?_tab, Nat.pow_div he (by norm_num)]
    unfold keepF
    by_cases hi : i < 2 ^ (k - e)
    · rw [List.getElem?_append_left (by rw [List.length_take, ha]; omega), List.getElem?_take, if_pos hi, if_pos (by omega), if_pos hi, List.getElem?_eq_getElem (by omega)]
      dsimp only
      rw [List.getD_eq_getElem?_getD, List.getElem?_eq_getElem (by omega), Option.getD_some]
    · rw [List.getElem?_append_right (by rw [List.length_take, ha]; omega), List.getElem?_replicate, List.length_take, ha, min_eq_left hle, if_neg hi]
      by_cases h2 : i < 2 ^ k
      · rw [if_pos (by omega), if_pos h2]
      · rw [if_neg (by omega), if_neg h2]
  rw [hpad]
  refine ⟨_, ?_, C04_serial_fft.isDft_tab' _ _ _⟩
  have hs : prunedF ω k e (fun j => a.getD j 0) = dftF ω (2 ^ k) (keepF (2 ^ k / 2 ^ e) (fun j => a.getD j 0)) := by
    funext j
    exact if_pos he
  have hpar : ¬ k ≤ w.logNumCpus → _ := fun h => parallelLde_short w a k w.logNumCpus e (by omega) (by omega) ha.le ω hω (HalfNeg.pow_eq_one hω (by omega))
  rw [ha] at hpar
  unfold kernelLde
  cases nightly
  · simp only [Bool.false_eq_true, if_false]
    unfold bestLde
    split
    · conv_lhs => rw [eq_tab_pad a ha]
      rw [serialLde_any k e hk ω hω, hs]
    · rename_i h
      exact (hpar h).1
  · simp only [if_true]
    unfold prefetchBestLde
    split
    · conv_lhs => rw [eq_tab_pad a ha]
      rw [prefetchSerialLde_any k e hk ω hω, hs]
    · rename_i h
      exact (hpar h).2

/-- **C08** (factor above the length). Then there is no entry to read. The serial kernels (`2^k` values, not more than the largest power of two up to the number of CPUs) return the first entry everywhere, the
parallel ones zeroes: the machines only agree if the first entry is zero, as the caller has to see to. -/
theorem C08_large_factor (nightly : Bool) (w : Worker) (k e : ℕ) (hk : k < 32) (he : k < e) (a : List F) (ha : a.length = 2 ^ k) (ω : F)
    (hω : k ≠ 0 → ω ^ 2 ^ (k - 1) = -1) :
    kernelLde nightly w a ω k (2 ^ e) = .ok (List.replicate (2 ^ k) (if k ≤ w.logNumCpus then a.getD 0 0 else 0)) := by
  have hs : prunedF ω k e (fun j => a.getD j 0) = fun _ => a.getD 0 0 := by
    funext j
    exact if_neg (by omega)
  have hdiv : 2 ^ k / 2 ^ e = 0 := Nat.div_eq_of_lt (Nat.pow_lt_pow_right (by norm_num) he)
  have hz : dftF ω (2 ^ k) (keepF 0 (fun j => a.getD j 0)) = fun _ => 0 := by
    funext j
    rw [sum_keepF ω (Nat.zero_le _)]
    simp
  have hpar : ¬ k ≤ w.logNumCpus → _ := fun h => parallelLde_short w a k w.logNumCpus e (by omega) (by omega) ha.le ω hω (HalfNeg.pow_eq_one hω (by omega))
  rw [ha, hdiv, hz] at hpar
  unfold kernelLde
  cases nightly
  · simp only [Bool.false_eq_true, if_false]
    unfold bestLde
    split
    · conv_lhs => rw [eq_tab_pad a ha]
      rw [serialLde_any k e hk ω hω, hs, replicate_eq_tab]
    · rename_i h
      rw [(hpar h).1, replicate_eq_tab]
  · simp only [if_true]
    unfold prefetchBestLde
    split
    · conv_lhs => rw [eq_tab_pad a ha]
      rw [prefetchSerialLde_any k e hk ω hω, hs, replicate_eq_tab]
    · rename_i h
      rw [(hpar h).2, replicate_eq_tab]

/-- **C70** (short vectors, exactly). On the parallel path a vector `a` with at most `2^k` entries, declared as `2^k`, is transformed: the result has the length of `a` and consists of the first values of the transform of the first
`len / factor` entries of `a`, zero-padded to `2^k`. -/
theorem C70_lde_short_exact (nightly : Bool) (w : Worker) (k e : ℕ) (hk : k < 32) (hw : w.logNumCpus < k) (a : List F) (ha : a.length ≤ 2 ^ k) (ω : F)
    (hω : ω ^ 2 ^ (k - 1) = -1) :
    ∃ b, kernelLde nightly w a ω k (2 ^ e) = .ok b ∧ b.length = a.length ∧
      ∀ j, j < a.length → b[j]? = some (∑ i ∈ range (a.length / 2 ^ e), a.getD i 0 * ω ^ (i * j)) := by
  have hpar := parallelLde_short w a k w.logNumCpus e (by omega) (by omega) ha ω (fun _ => hω) (HalfNeg.pow_eq_one (fun _ => hω) (by omega))
  have hN : a.length / 2 ^ e ≤ 2 ^ k := (Nat.div_le_self _ _).trans ha
  refine ⟨tab a.length (dftF ω (2 ^ k) (keepF (a.length / 2 ^ e) (fun j => a.getD j 0))), ?_, length_tab _ _, ?_⟩
  · unfold kernelLde
    cases nightly
    · simp only [Bool.false_eq_true, if_false]
      unfold bestLde
      rw [if_neg (by omega)]
      exact hpar.1
    · simp only [if_true]
      unfold prefetchBestLde
      rw [if_neg (by omega)]
      exact hpar.2
  · intro j hj
    rw [getElem?_tab, if_pos hj, sum_keepF ω hN]

/-- Non-vacuity: 16 points, no zero among the entries, factor 8; serial and parallel agree with the transform of the first two entries. -/
example : ((3 : Fr) ^ 16) ^ 2 ^ (4 - 1) = -1 ∧
    bestLde ⟨1, by norm_num⟩ ([5, 6] ++ List.replicate 14 9 : List Fr) (3 ^ 16) 4 8 = serialFft ([5, 6] ++ List.replicate 14 0) (3 ^ 16) 4 ∧
    bestLde ⟨16, by norm_num⟩ ([5, 6] ++ List.replicate 14 9 : List Fr) (3 ^ 16) 4 8 = serialFft ([5, 6] ++ List.replicate 14 0) (3 ^ 16) 4 ∧
    prefetchBestLde ⟨16, by norm_num⟩ ([5, 6] ++ List.replicate 14 9 : List Fr) (3 ^ 16) 4 8 = serialFft ([5, 6] ++ List.replicate 14 0) (3 ^ 16) 4 := by
  refine ⟨?_, ?_, ?_, ?_⟩ <;> decide +kernel

/-- Four values with factor 8: the result depends on the number of CPUs. -/
example : bestLde ⟨4, by norm_num⟩ ([5, 6, 7, 8] : List Fr) (3 ^ 64) 2 8 = .ok [5, 5, 5, 5] ∧
    bestLde ⟨2, by norm_num⟩ ([5, 6, 7, 8] : List Fr) (3 ^ 64) 2 8 = .ok [0, 0, 0, 0] := by
  constructor <;> decide +kernel

end Hodor

import Verif.Spec.ProverBound
import Verif.Props.SetupCost

/-!
# Bounds for the stages of proving
-/

namespace Hodor

open Spec

theorem passOps_eq (S c L P : ℕ) : passOps S c L P =
    4 * (2 ^ L * L) + 4 * (2 ^ L * c) + 2 * (2 ^ L * P) + 16 * 2 ^ L + (L * S + 3 * (L * L) + 32 * L + 4 * S + 80) + 16 * (c * L) + 4 * (c * c) + 4 * c := by
  unfold passOps
  ring

theorem two_pow_le {m L : ℕ} (h : m ≤ L) : (2 : ℕ) ^ m ≤ 2 ^ L := Nat.pow_le_pow_right (by norm_num) h

theorem polyOps_le (S : ℕ) {m L : ℕ} (h : m ≤ L) : polyOps S (2 ^ m) ≤ S + 3 * L + 7 := by
  unfold polyOps domainOps
  rw [Nat.clog_pow _ _ (by norm_num)]
  have := decimalOps_le m
  omega

theorem polyOps_two_le (S : ℕ) : polyOps S 2 ≤ S + 10 := by
  have := polyOps_le S (le_refl 1)
  rw [pow_one] at this
  omega

theorem startOps_le_cpus (w : Worker) {m L : ℕ} (h : m ≤ L) : startOps w (2 ^ m) ≤ 4 * (w.cpus * L) := by
  refine le_trans (startOps_le w m) ?_
  calc w.numSpawnedThreads (2 ^ m) * (2 * m) ≤ (2 * w.cpus) * (2 * L) := Nat.mul_le_mul (numSpawnedThreads_le w _) (by omega)
    _ = 4 * (w.cpus * L) := by ring

theorem triangle_le (m : ℕ) : m * (m + 1) / 2 ≤ 2 ^ m := by
  have : m * (m + 1) ≤ 2 * 2 ^ m := by
    induction m with
    | zero => simp
    | succ m ih =>
      have h2 : m + 1 ≤ 2 ^ m := Nat.lt_two_pow_self
      rw [pow_succ]
      nlinarith
  omega

theorem serialFftOps_le (m : ℕ) : serialFftOps m ≤ 2 * (2 ^ m * m) + 2 ^ m := by
  unfold serialFftOps
  have h1 := triangle_le m
  have h2 : m * (4 * (2 ^ m / 2)) ≤ m * (2 * 2 ^ m) := Nat.mul_le_mul_left _ (by omega)
  have e : m * (2 * 2 ^ m) = 2 * (2 ^ m * m) := by ring
  omega

theorem parallelFftOps_le {m l c L : ℕ} (hl : l ≤ m) (hc : 2 ^ l ≤ c) (hm : m ≤ L) :
    parallelFftOps m l ≤ 2 * (2 ^ m * m) + 3 * (2 ^ m * c) + 2 * 2 ^ m + 4 * (c * L) + L + 1 := by
  unfold parallelFftOps
  have h1 : ∀ j ∈ Finset.range (2 ^ l), fftTaskOps m l j ≤ (4 * L + 3 * 2 ^ m) + (2 * (2 ^ (m - l) * m) + 2 * 2 ^ (m - l)) := by
    intro j hj
    rw [Finset.mem_range] at hj
    unfold fftTaskOps
    have a := powExact_le_of_lt hj
    have b : powExact (j * 2 ^ (m - l)) ≤ 2 * m := by
      refine powExact_le_of_lt ?_
      calc j * 2 ^ (m - l) < 2 ^ l * 2 ^ (m - l) := Nat.mul_lt_mul_of_pos_right hj (by positivity)
        _ = 2 ^ m := by rw [← pow_add]; congr 1; omega
    have d := serialFftOps_le (m - l)
    have : 2 ^ (m - l) * (m - l) ≤ 2 ^ (m - l) * m := Nat.mul_le_mul_left _ (by omega)
    omega
  have h2 : ∑ j ∈ Finset.range (2 ^ l), fftTaskOps m l j ≤ 2 ^ l * ((4 * L + 3 * 2 ^ m) + (2 * (2 ^ (m - l) * m) + 2 * 2 ^ (m - l))) := by
    have := Finset.sum_le_card_nsmul _ _ _ h1
    rwa [Finset.card_range, smul_eq_mul] at this
  have h3 : 2 ^ l * 2 ^ (m - l) = 2 ^ m := by rw [← pow_add]; congr 1; omega
  have h4 : 2 ^ l * ((4 * L + 3 * 2 ^ m) + (2 * (2 ^ (m - l) * m) + 2 * 2 ^ (m - l))) ≤ c * (4 * L + 3 * 2 ^ m) + (2 * (2 ^ m * m) + 2 * 2 ^ m) := by
    rw [mul_add]
    refine Nat.add_le_add (Nat.mul_le_mul_right _ hc) (le_of_eq ?_)
    rw [← h3]; ring
  have e : c * (4 * L + 3 * 2 ^ m) = 4 * (c * L) + 3 * (2 ^ m * c) := by ring
  omega

theorem fftOps_le (w : Worker) {m L : ℕ} (h : m ≤ L) :
    fftOps w m ≤ 2 * (2 ^ L * L) + 3 * (2 ^ L * w.cpus) + 2 * 2 ^ L + 4 * (w.cpus * L) + L + 1 := by
  have h1 := two_pow_le h
  have h2 : 2 ^ m * m ≤ 2 ^ L * L := Nat.mul_le_mul h1 h
  have h3 : 2 ^ m * w.cpus ≤ 2 ^ L * w.cpus := Nat.mul_le_mul_right _ h1
  unfold fftOps
  split
  · have := serialFftOps_le m
    omega
  · rename_i hc
    have := parallelFftOps_le (m := m) (l := Nat.log 2 w.cpus) (c := w.cpus) (L := L) (by omega) (Nat.pow_log_le_self 2 (by have := w.pos; omega)) h
    omega

theorem distributeOps_le (w : Worker) {m L : ℕ} (h : m ≤ L) : distributeOps w (2 ^ m) ≤ 4 * (w.cpus * L) + 2 * 2 ^ L := by
  unfold distributeOps
  have := startOps_le_cpus w h
  have := two_pow_le h
  omega

theorem powAllOps_le {m L p P : ℕ} (h : m ≤ L) (hp : p < 2 ^ P) : powAllOps (2 ^ m) p ≤ 2 * (2 ^ L * P) + 2 ^ L := by
  have h1 := two_pow_le h
  unfold powAllOps
  split
  · omega
  · calc 2 ^ m * powExact p ≤ 2 ^ L * (2 * P) := Nat.mul_le_mul h1 (powExact_le_of_lt hp)
      _ = 2 * (2 ^ L * P) := by ring
      _ ≤ _ := Nat.le_add_right _ _

theorem evalOps_le (w : Worker) {m L : ℕ} (h : m ≤ L) : evalOps w (2 ^ m) ≤ 4 * (w.cpus * L) + 3 * 2 ^ L + 2 * w.cpus := by
  unfold evalOps
  have := startOps_le_cpus w h
  have := two_pow_le h
  have := numSpawnedThreads_le w (2 ^ m)
  omega

theorem numSpawnedThreads_le_self (w : Worker) (n : ℕ) : w.numSpawnedThreads n ≤ n := by
  rw [numSpawnedThreads_eq]
  unfold numChunks
  have hc := w.chunkSize_pos n
  generalize w.chunkSize n = c at *
  rcases Nat.eq_zero_or_pos n with rfl | hn
  · rw [Nat.div_eq_of_lt (by omega)]
  · refine Nat.div_le_of_le_mul ?_
    obtain ⟨c', rfl⟩ := Nat.exists_eq_succ_of_ne_zero hc.ne'
    obtain ⟨n', rfl⟩ := Nat.exists_eq_succ_of_ne_zero hn.ne'
    have e : c'.succ * n'.succ = c' * n' + c' + n' + 1 := by simp only [Nat.succ_eq_add_one]; ring
    rw [e]
    have := Nat.zero_le (c' * n')
    omega

theorem cosetsOps_le (S : ℕ) (w : Worker) {k e L s : ℕ} (h : k + e ≤ L) (hs : s ≤ 1) :
    cosetsOps S w k e s ≤ 2 * (2 ^ L * L) + 4 * (2 ^ L * w.cpus) + 4 * 2 ^ L + 2 * S + 3 * L + 7 + 4 * (w.cpus * L) + 2 * w.cpus := by
  unfold cosetsOps
  have h1 : domainOps S (2 ^ (k + e)) ≤ S := Nat.sub_le _ _
  have h2 := polyOps_le S h
  have h3 : ∑ i ∈ Finset.range (w.numSpawnedThreads (2 ^ e)), (powExact i + s) ≤ 4 * (w.cpus * L) + 2 * w.cpus := by
    refine le_trans (Finset.sum_le_card_nsmul _ _ (2 * L + 1) fun i hi => ?_) ?_
    · rw [Finset.mem_range] at hi
      have := powExact_le_of_lt (lt_of_lt_of_le hi (numSpawnedThreads_le_self w _))
      omega
    · rw [Finset.card_range, smul_eq_mul]
      calc w.numSpawnedThreads (2 ^ e) * (2 * L + 1) ≤ 2 * w.cpus * (2 * L + 1) := Nat.mul_le_mul_right _ (numSpawnedThreads_le w _)
        _ = _ := by ring
  have h4 : 2 ^ e * (distributeOps w (2 ^ k) + serialFftOps k + 1) ≤ 2 * (2 ^ L * L) + 4 * (2 ^ L * w.cpus) + 4 * 2 ^ L := by
    have a := distributeOps_le w (le_refl k)
    have b := serialFftOps_le k
    have c : k ≤ 2 ^ k := le_of_lt Nat.lt_two_pow_self
    have hek : 2 ^ e * 2 ^ k ≤ 2 ^ L := by rw [← pow_add]; exact two_pow_le (by omega)
    have d : w.cpus * k ≤ w.cpus * 2 ^ k := Nat.mul_le_mul_left _ c
    have hpos : 1 ≤ 2 ^ k := Nat.one_le_two_pow
    calc 2 ^ e * (distributeOps w (2 ^ k) + serialFftOps k + 1) ≤ 2 ^ e * (4 * (w.cpus * 2 ^ k) + 2 * (2 ^ k * k) + 4 * 2 ^ k) :=
          Nat.mul_le_mul_left _ (by omega)
      _ = (2 ^ e * 2 ^ k) * (4 * w.cpus + 2 * k + 4) := by ring
      _ ≤ 2 ^ L * (4 * w.cpus + 2 * L + 4) := Nat.mul_le_mul hek (by omega)
      _ = _ := by ring
  omega

theorem ldeOps_le (S : ℕ) (w : Worker) {k e L : ℕ} (h : k + e ≤ L) :
    ldeOps S w k e ≤ 2 * (2 ^ L * L) + 4 * (2 ^ L * w.cpus) + 4 * 2 ^ L + 2 * S + 4 * L + 7 + 8 * (w.cpus * L) + 2 * w.cpus := by
  unfold ldeOps
  split
  · have := fftOps_le w (show k ≤ L by omega)
    omega
  · have := cosetsOps_le S w h (show 0 ≤ 1 by omega)
    omega

theorem cosetLdeOps_le (S : ℕ) (w : Worker) {k e L : ℕ} (h : k + e ≤ L) :
    cosetLdeOps S w k e ≤ 2 * (2 ^ L * L) + 4 * (2 ^ L * w.cpus) + 4 * 2 ^ L + 2 * S + 4 * L + 7 + 8 * (w.cpus * L) + 2 * w.cpus := by
  unfold cosetLdeOps
  split
  · have := fftOps_le w (show k ≤ L by omega)
    have := distributeOps_le w (show k ≤ L by omega)
    omega
  · have := cosetsOps_le S w h (le_refl 1)
    omega

theorem inverseLinearOps_le (S : ℕ) (w : Worker) {m L : ℕ} (h : m ≤ L) :
    inverseLinearOps S w (2 ^ m) ≤ 6 * 2 ^ L + 3 * S + 3 * L + 19 + 4 * (w.cpus * L) + 4 * (w.cpus * w.cpus) := by
  unfold inverseLinearOps invertAllOps
  have h1 : domainOps S (2 ^ m) ≤ S := Nat.sub_le _ _
  have h2 := polyOps_le S h
  have h3 := polyOps_two_le S
  have h4 := startOps_le_cpus w h
  have h5 := two_pow_le h
  have h6 : w.numSpawnedThreads (2 ^ m) ^ 2 ≤ 4 * (w.cpus * w.cpus) := by
    calc w.numSpawnedThreads (2 ^ m) ^ 2 ≤ (2 * w.cpus) ^ 2 := Nat.pow_le_pow_left (numSpawnedThreads_le w _) 2
      _ = _ := by ring
  omega

theorem geometric_le (K n : ℕ) (h : n ≤ K) : ∑ i ∈ Finset.range n, 2 ^ (K - 1 - i) ≤ 2 ^ K := by
  have : ∀ n, n ≤ K → ∑ i ∈ Finset.range n, 2 ^ (K - 1 - i) + 2 ^ (K - n) = 2 ^ K := by
    intro n
    induction n with
    | zero => intro _; simp
    | succ n ih =>
      intro hn
      rw [Finset.sum_range_succ, ← ih (by omega)]
      have e : K - n = (K - (n + 1)) + 1 := by omega
      have e2 : K - 1 - n = K - (n + 1) := by omega
      rw [e, e2, pow_succ]
      omega
  have h1 := this n h
  exact le_trans (Nat.le_add_right _ _) h1.le

theorem friProverOps_le (S : ℕ) (w : Worker) {K m L : ℕ} (h : K ≤ L) (hm : m ≤ K) :
    friProverOps S w K m ≤ 2 * (2 ^ L * L) + 3 * (2 ^ L * w.cpus) + 10 * 2 ^ L + L * S + 3 * (L * L) + 12 * L + S + 11 + 8 * (w.cpus * L) := by
  unfold friProverOps
  have h1 := startOps_le_cpus w (show K - 1 ≤ L by omega)
  have h2 := two_pow_le (show K - 1 ≤ L by omega)
  have h3 := polyOps_le S (show m ≤ L by omega)
  have h4 := fftOps_le w (show m ≤ L by omega)
  have h5 := two_pow_le (show m ≤ L by omega)
  have h6 : ∑ i ∈ Finset.range (K - m), (6 * 2 ^ (K - 1 - i) + 1 + polyOps S (2 ^ (K - 1 - i))) ≤ 6 * 2 ^ L + L * (S + 3 * L + 8) := by
    calc ∑ i ∈ Finset.range (K - m), (6 * 2 ^ (K - 1 - i) + 1 + polyOps S (2 ^ (K - 1 - i)))
        ≤ ∑ i ∈ Finset.range (K - m), (6 * 2 ^ (K - 1 - i) + (S + 3 * L + 8)) := by
          refine Finset.sum_le_sum fun i _ => ?_
          have := polyOps_le S (show K - 1 - i ≤ L by omega)
          omega
      _ = 6 * (∑ i ∈ Finset.range (K - m), 2 ^ (K - 1 - i)) + (K - m) * (S + 3 * L + 8) := by
          rw [Finset.sum_add_distrib, Finset.mul_sum, Finset.sum_const, Finset.card_range, smul_eq_mul]
      _ ≤ 6 * 2 ^ L + L * (S + 3 * L + 8) :=
          Nat.add_le_add (Nat.mul_le_mul_left _ (le_trans (geometric_le K (K - m) (by omega)) (two_pow_le h))) (Nat.mul_le_mul_right _ (by omega))
  have e : L * (S + 3 * L + 8) = L * S + 3 * (L * L) + 8 * L := by ring
  omega

theorem adjustmentOps_le (S : ℕ) {m L f a : ℕ} (h : m ≤ L) (hf : f ≤ L) (ha : a ≤ 2 ^ f) :
    adjustmentOps S (2 ^ m) a ≤ 2 * (2 ^ L * L) + 5 * 2 ^ L + S + 3 * L + 7 := by
  unfold adjustmentOps
  split
  · omega
  · have h1 := polyOps_le S h
    have h2 := two_pow_le h
    have h3 := powAllOps_le (p := a) (P := L + 1) h (lt_of_le_of_lt ha (Nat.pow_lt_pow_right (by norm_num) (by omega)))
    have e : 2 ^ L * (L + 1) = 2 ^ L * L + 2 ^ L := by ring
    omega

section
variable {F : Type} [Field F] [DecidableEq F]

theorem pointTermOps_le (N : ℕ) (t : ConstraintTerm F) : pointTermOps N t + N ≤ (2 * (termFactors t).length + 2) * (N + 1) := by
  have hc : ∀ u : UnivariateTerm F, coeffOps N u ≤ N + 1 := by
    intro u; unfold coeffOps; split <;> omega
  cases t with
  | univariate u =>
    have := hc u
    simp only [pointTermOps, termFactors, List.length_cons, List.length_nil]
    omega
  | polyvariate p =>
    have h1 := sum_map_le p.terms (coeffOps N) (N + 1) fun u _ => hc u
    have h2 : (p.terms.length - 1) * N ≤ p.terms.length * (N + 1) := Nat.mul_le_mul (by omega) (by omega)
    simp only [pointTermOps, termFactors]
    have e : (2 * p.terms.length + 2) * (N + 1) = 2 * (p.terms.length * (N + 1)) + 2 * N + 2 := by ring
    omega

theorem pointTerms_le (N : ℕ) (c : Constraint F) :
    (c.terms.map (fun t => pointTermOps N t + N)).sum ≤ (2 * (factors c).length + 2 * c.terms.length) * (N + 1) := by
  unfold factors
  induction c.terms with
  | nil => simp
  | cons t l ih =>
    have h := pointTermOps_le N t
    rw [List.map_cons, List.sum_cons, List.flatMap_cons, List.length_append, List.length_cons]
    have e : (2 * ((termFactors t).length + (l.flatMap termFactors).length) + 2 * (l.length + 1)) * (N + 1) =
        (2 * (termFactors t).length + 2) * (N + 1) + (2 * (l.flatMap termFactors).length + 2 * l.length) * (N + 1) := by ring
    rw [e]
    exact Nat.add_le_add h ih

theorem pointConstraintOps_le (S c P : ℕ) {m L f : ℕ} (h : m ≤ L) (hf : f ≤ L) (cn : Constraint F) :
    pointConstraintOps S (2 ^ m) (2 ^ f) cn ≤ (1 + 2 * (factors cn).length + 2 * cn.terms.length) * passOps S c L P := by
  unfold pointConstraintOps
  have h1 := adjustmentOps_le S (a := 2 ^ f - cn.degree) h hf (Nat.sub_le _ _)
  have h2 := pointTerms_le (2 ^ m) cn
  have h3 := two_pow_le h
  have e := passOps_eq S c L P
  have h4 : 2 + adjustmentOps S (2 ^ m) (2 ^ f - cn.degree) + 3 * 2 ^ m ≤ passOps S c L P := by omega
  have h5 : 2 ^ m + 1 ≤ passOps S c L P := by omega
  have h6 : (2 * (factors cn).length + 2 * cn.terms.length) * (2 ^ m + 1) ≤ (2 * (factors cn).length + 2 * cn.terms.length) * passOps S c L P := Nat.mul_le_mul_left _ h5
  have e2 : (1 + 2 * (factors cn).length + 2 * cn.terms.length) * passOps S c L P =
      passOps S c L P + (2 * (factors cn).length + 2 * cn.terms.length) * passOps S c L P := by ring
  omega

end

end Hodor

import Verif.Lemmas.ProverBound
import Verif.Props.ProverOps

/-!
# C84: proving is quasi-linear
-/

namespace Hodor

open Spec

variable {F : Type} [Field F] [DecidableEq F] [StarkField F] (H : List UInt8 → Digest)

variable {inst : InstanceProperties F} {n k f e o : ℕ}

omit [StarkField F] [Field F] [DecidableEq F] in
theorem card_steps_le (l : List (Register × ℕ)) : (l.map (fun x => x.2)).toFinset.card ≤ l.toFinset.card := by
  have : (l.map (fun x => x.2)).toFinset = l.toFinset.image (fun x => x.2) := by
    ext y; simp
  rw [this]
  exact Finset.card_image_le

omit [StarkField F] in
/-- The formula of C84 is at most the number of passes times the cost of a pass. -/
theorem proveOps_le (S : ℕ) (w : Worker) (P : ℕ) (hP : ∀ c ∈ inst.constraints, ∀ u ∈ factors c, u.power < 2 ^ P) (ho : o ≤ k) :
    proveOps S w inst n k f e o ≤ provePasses inst n k * passOps S w.cpus (k + f + e) P := by
  obtain ⟨L, hL⟩ : ∃ L, k + f + e = L := ⟨_, rfl⟩
  rw [hL]
  have eU := passOps_eq S w.cpus L P
  have hN : 1 ≤ 2 ^ L := Nat.one_le_two_pow
  generalize hU : passOps S w.cpus L P = U at *
  have s1 : witnessOps S n k ≤ (n + 1) * U := by
    unfold witnessOps
    have a : domainOps S (2 ^ k) ≤ S := Nat.sub_le _ _
    have b := decimalOps_le k
    have c := serialFftOps_le k
    have d := two_pow_le (show k ≤ L by omega)
    have d2 : 2 ^ k * k ≤ 2 ^ L * L := Nat.mul_le_mul d (by omega)
    have p := polyOps_le S (show k ≤ L by omega)
    have : n * (serialFftOps k + 2 ^ k + polyOps S (2 ^ k)) ≤ n * U := Nat.mul_le_mul_left _ (by omega)
    rw [Nat.succ_mul]
    omega
  have s2 : n * ldeOps S w k e ≤ n * U := by
    have := ldeOps_le S w (show k + e ≤ L by omega)
    exact Nat.mul_le_mul_left _ (by omega)
  have s3 : ldeOps S w (k + f) e ≤ U := by
    have := ldeOps_le S w (show k + f + e ≤ L by omega)
    omega
  have s4 : friProverOps S w (k + e) (e + o) ≤ U := by
    have := friProverOps_le S w (show k + e ≤ L by omega) (show e + o ≤ k + e by omega)
    omega
  have s5 : friProverOps S w (k + f + e) (e + o) ≤ U := by
    have := friProverOps_le S w (show k + f + e ≤ L by omega) (show e + o ≤ k + f + e by omega)
    omega
  have s6 : 2 * 2 ^ o ≤ U := by
    have := two_pow_le (show o ≤ L by omega)
    omega
  have s7 : polyOps S (2 ^ (k + f)) + (fftOps w (k + f) + 2 ^ (k + f) + distributeOps w (2 ^ (k + f))) ≤ U := by
    have a := polyOps_le S (show k + f ≤ L by omega)
    have b := fftOps_le w (show k + f ≤ L by omega)
    have c := distributeOps_le w (show k + f ≤ L by omega)
    have d := two_pow_le (show k + f ≤ L by omega)
    omega
  have s8 : (readPairs inst (2 ^ k)).toFinset.card * distributeOps w (2 ^ k) +
      (readPairs inst (2 ^ k)).toFinset.card * (evalOps w (2 ^ k) + 3 + 4 * 2 ^ (k + e)) ≤ (readPairs inst (2 ^ k)).toFinset.card * U := by
    rw [← mul_add]
    have a := distributeOps_le w (show k ≤ L by omega)
    have b := evalOps_le w (show k ≤ L by omega)
    have d := two_pow_le (show k + e ≤ L by omega)
    exact Nat.mul_le_mul_left _ (by omega)
  have s9 : ((readPairs inst (2 ^ k)).map (fun x => x.2)).toFinset.card * inverseLinearOps S w (2 ^ (k + e)) ≤ (readPairs inst (2 ^ k)).toFinset.card * U := by
    have a := inverseLinearOps_le S w (show k + e ≤ L by omega)
    exact Nat.mul_le_mul (card_steps_le _) (by omega)
  have s10 : ∑ x ∈ (readPowers inst (2 ^ k)).toFinset, (cosetLdeOps S w k f + powAllOps (2 ^ (k + f)) x.2.2) ≤ (readPowers inst (2 ^ k)).toFinset.card * U := by
    have a := cosetLdeOps_le S w (show k + f ≤ L by omega)
    have := Finset.sum_le_card_nsmul (readPowers inst (2 ^ k)).toFinset (fun x => cosetLdeOps S w k f + powAllOps (2 ^ (k + f)) x.2.2) U ?_
    · rwa [smul_eq_mul] at this
    · intro x hx
      have hx : x ∈ readPowers inst (2 ^ k) := by simpa using hx
      unfold readPowers at hx
      obtain ⟨u, hu, eu⟩ := List.mem_filterMap.1 hx
      obtain ⟨c, hc, hu⟩ := List.mem_flatMap.1 hu
      have hp := hP c hc u hu
      have ex : x.2.2 = u.power := by
        split at eu
        · cases eu; rfl
        · cases eu
      have b := powAllOps_le (p := x.2.2) (P := P) (show k + f ≤ L by omega) (by rw [ex]; exact hp)
      omega
  have s11 : (inst.constraints.map (pointConstraintOps S (2 ^ (k + f)) (2 ^ f))).sum ≤
      (inst.constraints.map (fun c => 1 + 2 * (factors c).length + 2 * c.terms.length)).sum * U := by
    induction inst.constraints with
    | nil => simp
    | cons c l ih =>
      have a := pointConstraintOps_le S w.cpus P (show k + f ≤ L by omega) (show f ≤ L by omega) c
      rw [hU] at a
      rw [List.map_cons, List.sum_cons, List.map_cons, List.sum_cons, Nat.add_mul]
      exact Nat.add_le_add a ih
  have s12 : (densitiesOf inst.constraints).length * (2 * 2 ^ (k + f)) ≤ (densitiesOf inst.constraints).length * U := by
    have d := two_pow_le (show k + f ≤ L by omega)
    exact Nat.mul_le_mul_left _ (by omega)
  have s13 : inst.boundaryConstraints.length * pointBoundaryOps S w k f ≤ inst.boundaryConstraints.length * U := by
    refine Nat.mul_le_mul_left _ ?_
    unfold pointBoundaryOps
    have a := adjustmentOps_le S (a := 2 ^ f - 1) (show k + f ≤ L by omega) (show f ≤ L by omega) (Nat.sub_le _ _)
    have b := cosetLdeOps_le S w (show k + f ≤ L by omega)
    have d := two_pow_le (show k + f ≤ L by omega)
    omega
  have s14 : 1 + polyOps S (2 ^ (k + e)) + inverseLinearOps S w (2 ^ (k + f + e)) + evalOps w (2 ^ (k + f)) + 1 + 2 * 2 ^ (k + f + e) ≤ U := by
    have a := polyOps_le S (show k + e ≤ L by omega)
    have b := inverseLinearOps_le S w (show k + f + e ≤ L by omega)
    have c := evalOps_le w (show k + f ≤ L by omega)
    have d := two_pow_le (show k + f + e ≤ L by omega)
    omega
  have eT : provePasses inst n k * U = (n + 1) * U + n * U + 2 * ((readPairs inst (2 ^ k)).toFinset.card * U) + (readPowers inst (2 ^ k)).toFinset.card * U +
      (densitiesOf inst.constraints).length * U + inst.boundaryConstraints.length * U +
      (inst.constraints.map (fun c => 1 + 2 * (factors c).length + 2 * c.terms.length)).sum * U + 6 * U := by
    unfold provePasses; ring
  rw [eT]
  unfold proveOps compositionProveOps quotientOps
  omega

/-- **C84** (upper bound). Proving is quasi-linear in the size `2^(k+f+e)` of the extended composition polynomial: if `prove` returns a proof and the exponents in the constraints are less than `2^P`, it has used at most one pass over a vector of
that size for each of a number of items of the instance that does not depend on the number of rows. -/
theorem C84_upper (w : Worker) (h : Runnable inst n k f) (hp : ProverParams F k f e o) (hout : o < k) (P : ℕ)
    (hP : ∀ c ∈ inst.constraints, ∀ u ∈ factors c, u.power < 2 ^ P) (witness : List (List F))
    (hw : IsTable witness n (2 ^ k)) (prover : Prover F) (hprover : Prover.new w inst (2 ^ e) (2 ^ o) = .ok prover)
    (proof : InstanceProof F) (hproof : prover.prove H witness = .ok proof) :
    (prover.proveW H witness).ops ≤ provePasses inst n k * passOps (StarkField.S F) w.cpus (k + f + e) P := by
  rw [C84_prove H w h hp hout witness hw prover hprover proof hproof]
  exact proveOps_le _ w P hP (by omega)

/-- The hypothesis on the exponents, the number of passes and the cost of one for the run of `proverOpsRun` (`C84_prove` gives 1327 operations). -/
example : (∀ c ∈ (fibInst Fr 2 1 1).constraints, ∀ u ∈ factors c, u.power < 2 ^ 1) ∧ provePasses (fibInst Fr 2 1 1) 2 2 = 48 ∧ passOps 8 1 3 1 = 587 ∧
    proveOps 8 ⟨1, by norm_num⟩ (fibInst Fr 2 1 1) 2 2 0 1 0 = 1327 := by
  decide +kernel

end Hodor

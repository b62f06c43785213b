import Verif.Props.AnyWorker
import Verif.Props.ProverOutcome
import Verif.Props.RealFields

/-!
# C51: the verdict on the proofs of the VDF experiments, on every machine
-/

namespace Hodor

open Spec

variable (H : List UInt8 → Digest)

/-- What is left of the parameters over the field of the experiments: sizes only. -/
theorem proverParams_stark (k f e o : ℕ) (h1 : k + f < 32) (h3 : 1 ≤ e + o) (h4 : e + o < 32) : ProverParams FrStark k f e o where
  size := by show k + f + e ≤ 192; omega
  size32 := h1
  factor := h3
  factor32 := h4
  challenge := by rw [numBits_stark]; norm_num
  coset := by
    have := C50_experiments_field.2.2.2.2.2 (k + f) 1 (one_pow _)
    rwa [mul_one] at this

/-- A suitable instance whose constraints are of degree at most two, over the field of the experiments, with a satisfying witness: prover and verifier can be built and answer, and the verdict is that of the two last FRI checks. -/
theorem stark_verdict (w : Worker) {inst : InstanceProperties FrStark} {n k : ℕ} (e o : ℕ) (hs : Suitable inst n k 1) (hk2 : k < 31) (ho : o < k)
    (he : 1 ≤ e + o) (he2 : e + o < 32) {wit : List (List FrStark)} (hw : IsTable wit n (2 ^ k)) (hsat : Satisfies inst (cellR wit) (2 ^ k)) :
    ∃ prover ver, Prover.new w inst (2 ^ e) (2 ^ o) = .ok prover ∧ Verifier.new inst (2 ^ e) = .ok ver ∧
      ((∃ err, prover.prove H wit = .err err) ∨
        ∃ proof ch fDom gDom b, prover.prove H wit = .ok proof ∧ ver.deriveChallenges H proof = .ok (ch, fDom, gDom) ∧
          ver.verify H proof = .ok b ∧
          (b = true ↔ LastOpeningOk proof.friProofH1 (2 ^ (e + o - 1)) ch.idx1 ∧ LastOpeningOk proof.friProofH2 (2 ^ (e + o - 1)) ch.idx2)) := by
  have hp := proverParams_stark k 1 e o (by omega) he he2
  have hS := hp.size
  obtain ⟨prover, e1, hne⟩ := C65_prove_no_panic_partial H w inst n k 1 e o hs.runnable hp ho wit hw
  obtain ⟨ver, e2, -⟩ := hs.runnable.newVerifier (by omega) (2 ^ e)
  refine ⟨prover, ver, e1, e2, ?_⟩
  cases hpr : prover.prove H wit with
  | panic => exact absurd hpr hne
  | err er => exact .inl ⟨er, rfl⟩
  | ok proof =>
    obtain ⟨ch, fd, gd, b, a1, a2, a3⟩ := C45_verdict H w hs hp ho (lde1_of w) wit hw hsat prover e1 ver e2 proof hpr
    exact .inr ⟨proof, ch, fd, gd, b, rfl, a1, a2, a3⟩

/-- **C51 (the verdict, on every machine).** The squaring VDF over its own field, for every number of CPUs, every LDE factor and every number of final FRI coefficients below the number of rows: whenever `prove` returns a proof, `verify` answers, and
it accepts exactly if in both FRI proofs the final coefficients have the value which the last two openings fold to. -/
theorem C51_vdf_verdict (w : Worker) (k e o : ℕ) (hk2 : k < 31) (ho : o < k) (he : 1 ≤ e + o) (he2 : e + o < 32)
    (v : Vdf FrStark) (hv : v.numOperations + 1 = 2 ^ k) :
    ∃ wit inst prover ver, v.intoArp = .ok (wit, inst) ∧ Prover.new w inst (2 ^ e) (2 ^ o) = .ok prover ∧
      Verifier.new inst (2 ^ e) = .ok ver ∧
      ((∃ err, prover.prove H wit = .err err) ∨
        ∃ proof ch fDom gDom b, prover.prove H wit = .ok proof ∧ ver.deriveChallenges H proof = .ok (ch, fDom, gDom) ∧
          ver.verify H proof = .ok b ∧
          (b = true ↔ LastOpeningOk proof.friProofH1 (2 ^ (e + o - 1)) ch.idx1 ∧ LastOpeningOk proof.friProofH2 (2 ^ (e + o - 1)) ch.idx2)) := by
  obtain ⟨wit, inst, e1, e2, h1, h2, -⟩ := C38_squaring_vdf v
  have hs : Suitable inst 2 k 1 := by
    have := intoArp_eq v
    rw [e1] at this
    have h := (Res.ok.inj this)
    rw [(Prod.mk.inj h).2]
    exact vdf_suitable (by omega) hv _ _
  rw [hv] at h1 h2
  obtain ⟨prover, ver, a, b, c⟩ := stark_verdict H w e o hs hk2 ho he he2 h1 h2
  exact ⟨wit, inst, prover, ver, e1, a, b, c⟩

/-- **C51** for the cubic VDF, in the same way. -/
theorem C51_cubic_verdict (w : Worker) (k e o : ℕ) (hk2 : k < 31) (ho : o < k) (he : 1 ≤ e + o) (he2 : e + o < 32)
    (v : Vdf FrStark) (hv : v.numOperations + 1 = 2 ^ k) :
    ∃ wit inst prover ver, v.intoArpCubic = .ok (wit, inst) ∧ Prover.new w inst (2 ^ e) (2 ^ o) = .ok prover ∧
      Verifier.new inst (2 ^ e) = .ok ver ∧
      ((∃ err, prover.prove H wit = .err err) ∨
        ∃ proof ch fDom gDom b, prover.prove H wit = .ok proof ∧ ver.deriveChallenges H proof = .ok (ch, fDom, gDom) ∧
          ver.verify H proof = .ok b ∧
          (b = true ↔ LastOpeningOk proof.friProofH1 (2 ^ (e + o - 1)) ch.idx1 ∧ LastOpeningOk proof.friProofH2 (2 ^ (e + o - 1)) ch.idx2)) := by
  obtain ⟨wit, inst, e1, e2, h1, h2, -⟩ := C39_cubic_vdf v
  have hs : Suitable inst 4 k 1 := by
    have := intoArpCubic_eq v
    rw [e1] at this
    have h := (Res.ok.inj this)
    rw [(Prod.mk.inj h).2]
    exact cubic_suitable (by omega) hv _ _
  rw [hv] at h1 h2
  obtain ⟨prover, ver, a, b, c⟩ := stark_verdict H w e o hs hk2 ho he he2 h1 h2
  exact ⟨wit, inst, prover, ver, e1, a, b, c⟩

/-- The parameters of the repository's tests meet the hypotheses on any machine; on four CPUs they do not meet those of `C51_vdf_experiments_partial`. -/
example : (⟨1, 1, 2 ^ 20 - 1⟩ : Vdf FrStark).numOperations + 1 = 2 ^ 20 ∧ 20 < 31 ∧ 0 < 20 ∧ 4 + 0 < 32 ∧
    ¬ ((⟨4, by norm_num⟩ : Worker).cpus = 1 ∨ 2 ^ 4 < 2 * (⟨4, by norm_num⟩ : Worker).cpus) :=
  ⟨rfl, by norm_num, by norm_num, by norm_num, by norm_num⟩

end Hodor

import Verif.Props.RandomOracle
import Verif.Props.Vdf

/-!
# C91 for the VDF experiments

Which outputs of the squaring and the cubic VDF over the field of the experiments the code's prover can get accepted, with a random hash function.
-/

namespace Hodor

open Finset Spec

/-- The hash functions with which `prove` on this table returns a proof that `verify` accepts. -/
def Spec.ProvedAndAccepted {F : Type} [Field F] [DecidableEq F] [StarkField F] (prover : Prover F) (ver : Verifier F) (table : List (List F)) (H : List UInt8 → Digest) : Prop :=
  ∃ proof, prover.prove H table = .ok proof ∧ ver.verify H proof = .ok true

theorem capacity_stark : capacity FrStark = 251 := by unfold capacity; rw [numBits_stark]

/-- Constraints of span one that read one row ahead at most. -/
theorem span_of_near {n : ℕ} {cs : List (Constraint FrStark)} (h : ∀ c ∈ cs, NearFactors n c ∧ c.density = .dense ⟨0, 1⟩) :
    ∀ c ∈ cs, ∀ d, c.density = .dense d → ∀ t ∈ factors c, ∀ j, t.stepsDifference = .steps j → j ≤ d.span := by
  intro c hc d hd u hu j hj
  obtain ⟨h1, h2⟩ := h c hc
  rw [h2] at hd
  cases hd
  obtain ⟨-, j', hj', e⟩ := h1 u hu
  rw [e] at hj
  cases hj
  exact hj'

/-- **C91** (squaring VDF). Over the field of the experiments, `2^k - 1` squarings, any LDE factor `2^e`, output size `2^o` and machine: if the claimed output is not `start^(2^(2^k - 1))`, then for every table of two columns the
share of hash functions with which the code's prover returns a proof that the verifier accepts is at most `(12 + 3 * 2^k) / 2^251 + (2^(k+e+2))^2 / 2^256`. -/
theorem C91_squaring_vdf (w : Worker) (H : List UInt8 → Digest) (B k e o : ℕ) (hk : k < 31) (ho : o < k) (he : 1 ≤ e + o) (heo : e + o < 32) (hB : 480 ≤ B)
    (v : Vdf FrStark) (hv : v.numOperations + 1 = 2 ^ k) :
    ∃ wit inst, v.intoArp = .ok (wit, inst) ∧ ∀ out : Quad FrStark, out ≠ v.start ^ 2 ^ v.numOperations →
      ∃ prover ver, Prover.new w (claimOutput inst out) (2 ^ e) (2 ^ o) = .ok prover ∧ Verifier.new (claimOutput inst out) (2 ^ e) = .ok ver ∧
        ∀ table, IsTable table 2 (2 ^ k) → share (fun r : Oracle B => ProvedAndAccepted prover ver table (r.hash H)) ≤
          (12 + 3 * 2 ^ k : ℚ) / 2 ^ 251 + ((2 ^ (k + e + 2)) ^ 2 : ℚ) / 2 ^ 256 := by
  refine ⟨_, _, intoArp_eq v, fun out hout => ?_⟩
  obtain ⟨wit, inst, h1, -, -, -, -, -, h2⟩ := C38_squaring_vdf v
  rw [intoArp_eq v] at h1
  obtain ⟨rfl, rfl⟩ := Prod.mk.inj (Res.ok.inj h1)
  have hbad : ∀ cells, ¬ Satisfies (vdfInst v.numOperations v.start out) cells (2 ^ k) := fun cells hc => hout ((h2 out).1 ⟨cells, hv ▸ hc⟩)
  have e0 : claimOutput (vdfInst v.numOperations v.start (v.start ^ 2 ^ v.numOperations)) out = vdfInst v.numOperations v.start out := rfl
  rw [e0]
  have hs := vdf_suitable (by omega) hv v.start out
  have hp := proverParams_stark k 1 e o (by omega) he heo
  obtain ⟨prover, -, e1, -⟩ := prove_outcome H w _ 2 k 1 e o hs.runnable hp (tab 2 (fun _ => tab (2 ^ k) (fun _ => 0))) ⟨length_tab _ _, by
    intro c hc
    simp only [tab, List.mem_map] at hc
    obtain ⟨r, -, rfl⟩ := hc
    simp⟩
  obtain ⟨ver, e2, -⟩ := hs.runnable.newVerifier (Nat.le_trans (by omega) hp.size) (2 ^ e)
  refine ⟨prover, ver, e1, e2, fun table ht => ?_⟩
  have := C91_false_witness w _ 2 k 1 e o H B hs.runnable hp ho (fun c hc tm htm => (hs.terms c hc tm htm).2.1) (span_of_near near_vdf)
    (fun b hb => by rw [hs.rows]; exact (hs.boundary b hb).2.1) table ht (hbad _) prover e1 ver e2 (by simpa [vdfInst, vdfBoundary] using hB)
  rw [capacity_stark] at this
  refine this.trans (le_of_eq ?_)
  simp only [vdfInst, vdfBoundary, List.length_cons, List.length_nil]
  push_cast
  congr 2
  all_goals ring

/-- **C91** (squaring VDF, true output). On one CPU, or with an LDE factor below twice the number of CPUs, and one final FRI coefficient: with all but the share `2^(k+1+e) / 2^251` of the hash functions the table `into_arp` returns is proved
and the proof accepted, for the output `into_arp` states. -/
theorem C91_squaring_vdf_complete (w : Worker) (H : List UInt8 → Digest) (B k e : ℕ) (hw : w.cpus = 1 ∨ 2 ^ e < 2 * w.cpus) (hk1 : 1 ≤ k) (hk : k < 31) (he : 1 ≤ e) (he2 : e < 32) (hB : 480 ≤ B)
    (v : Vdf FrStark) (hv : v.numOperations + 1 = 2 ^ k) :
    ∃ wit inst prover ver, v.intoArp = .ok (wit, inst) ∧ inst = claimOutput inst (v.start ^ 2 ^ v.numOperations) ∧
      Prover.new w inst (2 ^ e) 1 = .ok prover ∧ Verifier.new inst (2 ^ e) = .ok ver ∧
      1 - (2 ^ (k + 1 + e) : ℚ) / 2 ^ 251 ≤ share (fun r : Oracle B => ProvedAndAccepted prover ver wit (r.hash H)) := by
  obtain ⟨wit, inst, h1, -, h3, h4, -⟩ := C38_squaring_vdf v
  have h1' := h1
  rw [intoArp_eq v] at h1
  obtain ⟨rfl, rfl⟩ := Prod.mk.inj (Res.ok.inj h1)
  have hs := vdf_suitable hk1 hv v.start (v.start ^ 2 ^ v.numOperations)
  have hp := runParams_stark w k 1 e 0 (by omega) (by omega) he (by omega) (lde1_of w) hw
  rw [hv] at h3 h4
  obtain ⟨prover, -, e1, -⟩ := prove_outcome H w _ 2 k 1 e 0 hs.runnable hp.prover _ h3
  obtain ⟨ver, e2, -⟩ := hs.runnable.newVerifier (Nat.le_trans (by omega) hp.prover.size) (2 ^ e)
  refine ⟨_, _, prover, ver, h1', rfl, e1, e2, ?_⟩
  have := C91_complete w _ 2 k 1 e H B hs hp _ h3 h4 prover e1 ver e2 (by simpa [vdfInst, vdfBoundary] using hB)
  rw [capacity_stark] at this
  exact this

/-- **C91** (cubic VDF). The same for `2^k - 1` cubings and tables of four columns: at most the share `(16 + 3 * 2^k) / 2^251` for a wrong output. -/
theorem C91_cubic_vdf (w : Worker) (H : List UInt8 → Digest) (B k e o : ℕ) (hk : k < 31) (ho : o < k) (he : 1 ≤ e + o) (heo : e + o < 32) (hB : 672 ≤ B)
    (v : Vdf FrStark) (hv : v.numOperations + 1 = 2 ^ k) :
    ∃ wit inst, v.intoArpCubic = .ok (wit, inst) ∧ ∀ out : Quad FrStark, out ≠ v.start ^ 3 ^ v.numOperations →
      ∃ prover ver, Prover.new w (claimOutput inst out) (2 ^ e) (2 ^ o) = .ok prover ∧ Verifier.new (claimOutput inst out) (2 ^ e) = .ok ver ∧
        ∀ table, IsTable table 4 (2 ^ k) → share (fun r : Oracle B => ProvedAndAccepted prover ver table (r.hash H)) ≤ (16 + 3 * 2 ^ k : ℚ) / 2 ^ 251 := by
  refine ⟨_, _, intoArpCubic_eq v, fun out hout => ?_⟩
  obtain ⟨wit, inst, h1, -, -, -, -, -, h2⟩ := C39_cubic_vdf v
  rw [intoArpCubic_eq v] at h1
  obtain ⟨rfl, rfl⟩ := Prod.mk.inj (Res.ok.inj h1)
  have hbad : ∀ cells, ¬ Satisfies (cubicInst v.numOperations v.start out) cells (2 ^ k) := fun cells hc => hout ((h2 out).1 ⟨cells, hv ▸ hc⟩)
  have e0 : claimOutput (cubicInst v.numOperations v.start (v.start ^ 3 ^ v.numOperations)) out = cubicInst v.numOperations v.start out := rfl
  rw [e0]
  have hs := cubic_suitable (by omega) hv v.start out
  have hp := proverParams_stark k 1 e o (by omega) he heo
  obtain ⟨prover, -, e1, -⟩ := prove_outcome H w _ 4 k 1 e o hs.runnable hp (tab 4 (fun _ => tab (2 ^ k) (fun _ => 0))) ⟨length_tab _ _, by
    intro c hc
    simp only [tab, List.mem_map] at hc
    obtain ⟨r, -, rfl⟩ := hc
    simp⟩
  obtain ⟨ver, e2, -⟩ := hs.runnable.newVerifier (Nat.le_trans (by omega) hp.size) (2 ^ e)
  refine ⟨prover, ver, e1, e2, fun table ht => ?_⟩
  have := C91_false_witness_three w _ 4 k 1 e o H B hs.runnable (by norm_num) hp ho (fun c hc tm htm => (hs.terms c hc tm htm).2.1) (span_of_near near_cubic)
    (fun b hb => by rw [hs.rows]; exact (hs.boundary b hb).2.1) table ht (hbad _) prover e1 ver e2 (by simpa [cubicInst, vdfBoundary] using hB)
  rw [capacity_stark] at this
  refine this.trans (le_of_eq ?_)
  simp only [cubicInst, vdfBoundary, List.length_cons, List.length_nil]
  push_cast
  ring

/-- **C91** (cubic VDF, true output). -/
theorem C91_cubic_vdf_complete (w : Worker) (H : List UInt8 → Digest) (B k e : ℕ) (hw : w.cpus = 1 ∨ 2 ^ e < 2 * w.cpus) (hk1 : 1 ≤ k) (hk : k < 31) (he : 1 ≤ e) (he2 : e < 32) (hB : 672 ≤ B)
    (v : Vdf FrStark) (hv : v.numOperations + 1 = 2 ^ k) :
    ∃ wit inst prover ver, v.intoArpCubic = .ok (wit, inst) ∧ inst = claimOutput inst (v.start ^ 3 ^ v.numOperations) ∧
      Prover.new w inst (2 ^ e) 1 = .ok prover ∧ Verifier.new inst (2 ^ e) = .ok ver ∧
      1 - (2 ^ (k + 1 + e) : ℚ) / 2 ^ 251 ≤ share (fun r : Oracle B => ProvedAndAccepted prover ver wit (r.hash H)) := by
  obtain ⟨wit, inst, h1, -, h3, h4, -⟩ := C39_cubic_vdf v
  have h1' := h1
  rw [intoArpCubic_eq v] at h1
  obtain ⟨rfl, rfl⟩ := Prod.mk.inj (Res.ok.inj h1)
  have hs := cubic_suitable hk1 hv v.start (v.start ^ 3 ^ v.numOperations)
  have hp := runParams_stark w k 1 e 0 (by omega) (by omega) he (by omega) (lde1_of w) hw
  rw [hv] at h3 h4
  obtain ⟨prover, -, e1, -⟩ := prove_outcome H w _ 4 k 1 e 0 hs.runnable hp.prover _ h3
  obtain ⟨ver, e2, -⟩ := hs.runnable.newVerifier (Nat.le_trans (by omega) hp.prover.size) (2 ^ e)
  refine ⟨_, _, prover, ver, h1', rfl, e1, e2, ?_⟩
  have := C91_complete w _ 4 k 1 e H B hs hp _ h3 h4 prover e1 ver e2 (by simpa [cubicInst, vdfBoundary] using hB)
  rw [capacity_stark] at this
  exact this

/-! ## The hypotheses are met: the parameters of the repository's tests, a wrong output -/

/-- `2^20 - 1` squarings of `u` give `1`. -/
theorem squarings_of_u : (⟨0, 1⟩ : Quad FrStark) ^ 2 ^ (2 ^ 20 - 1) = 1 := by
  have h4 : (⟨0, 1⟩ : Quad FrStark) ^ 4 = 1 := by
    simp only [pow_succ, pow_zero, one_mul]
    ext <;> simp <;> rfl
  have e : (2 : ℕ) ^ (2 ^ 20 - 1) = 4 * 2 ^ (2 ^ 20 - 3) := by
    rw [show (4 : ℕ) = 2 ^ 2 by norm_num, ← pow_add]
    exact congrArg (fun n => 2 ^ n) (by norm_num)
  rw [e, pow_mul, h4, one_pow]

/-- The parameters of the repository's tests (`2^20 - 1` operations, LDE factor 16, one final coefficient) on eight CPUs, start `u`, claimed output `0`: a proof is accepted with less than the share `2^(-200)` of the hash functions,
whatever the table. -/
example (H : List UInt8 → Digest) : ∃ wit inst prover ver, (⟨0, 1, 2 ^ 20 - 1⟩ : Vdf FrStark).intoArp = .ok (wit, inst) ∧
    Prover.new ⟨8, by norm_num⟩ (claimOutput inst 0) (2 ^ 4) (2 ^ 0) = .ok prover ∧ Verifier.new (claimOutput inst 0) (2 ^ 4) = .ok ver ∧
    ∀ table, IsTable table 2 (2 ^ 20) → share (fun r : Oracle 480 => ProvedAndAccepted prover ver table (r.hash H)) < 1 / 2 ^ 200 := by
  obtain ⟨wit, inst, h1, h2⟩ := C91_squaring_vdf ⟨8, by norm_num⟩ H 480 20 4 0 (by norm_num) (by norm_num) (by norm_num) (by norm_num) le_rfl ⟨0, 1, 2 ^ 20 - 1⟩ rfl
  obtain ⟨prover, ver, h3, h4, h5⟩ := h2 0 (by
    rw [show (⟨0, 1, 2 ^ 20 - 1⟩ : Vdf FrStark).start ^ 2 ^ (⟨0, 1, 2 ^ 20 - 1⟩ : Vdf FrStark).numOperations = 1 from squarings_of_u]
    intro h
    exact zero_ne_one (congrArg QuadraticAlgebra.re h))
  exact ⟨wit, inst, prover, ver, h1, h3, h4, fun table ht => lt_of_le_of_lt (h5 table ht) (by norm_num)⟩

/-- The true output on one CPU: all but the share `2^(-220)`. -/
example (H : List UInt8 → Digest) : ∃ wit inst prover ver, (⟨0, 1, 2 ^ 20 - 1⟩ : Vdf FrStark).intoArpCubic = .ok (wit, inst) ∧
    Prover.new ⟨1, by norm_num⟩ inst (2 ^ 4) 1 = .ok prover ∧ Verifier.new inst (2 ^ 4) = .ok ver ∧
    1 - 1 / 2 ^ 220 < share (fun r : Oracle 672 => ProvedAndAccepted prover ver wit (r.hash H)) := by
  obtain ⟨wit, inst, prover, ver, h1, -, h2, h3, h4⟩ := C91_cubic_vdf_complete ⟨1, by norm_num⟩ H 672 20 4 (.inl rfl) (by norm_num) (by norm_num) (by norm_num) (by norm_num) le_rfl ⟨0, 1, 2 ^ 20 - 1⟩ rfl
  exact ⟨wit, inst, prover, ver, h1, h2, h3, lt_of_lt_of_le (by norm_num) h4⟩

end Hodor

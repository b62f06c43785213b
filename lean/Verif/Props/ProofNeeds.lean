import Verif.Props.Supported
import Verif.Props.Refusals

/-!
# C65: exactly when `prove` returns a proof
-/

namespace Hodor

open Polynomial Spec

variable {F : Type} [Field F] [DecidableEq F] [StarkField F] (H : List UInt8 → Digest)

/-- **C65** (parameters). If a prover can be built for an instance and returns a proof for some witness, then the number of rows, the extension factor and the
number of final FRI coefficients are powers of two, at least one FRI step remains, and the field has the extended domain of the rows. -/
theorem C65_proof_needs {w : Worker} {inst : InstanceProperties F} {factor out : ℕ} {prover : Prover F} {witness : List (List F)}
    {proof : InstanceProof F} (hp : Prover.new w inst factor out = .ok prover) (h : prover.prove H witness = .ok proof) :
    ∃ k e o, inst.numRows = 2 ^ k ∧ factor = 2 ^ e ∧ out = 2 ^ o ∧ o < k ∧ k + e ≤ StarkField.S F ∧
      ∀ f, Runnable inst inst.numRegisters k f → k + f + e ≤ StarkField.S F := by
  have hp' := hp
  have h' := h
  obtain ⟨htab, -, -⟩ := C69_proved_runnable H hp h
  unfold Prover.new at hp
  obtain ⟨arp, n1, hp⟩ := Res.bind_eq_ok.1 hp
  obtain ⟨ali, n2, hp⟩ := Res.bind_eq_ok.1 hp
  cases hp
  unfold fromInstance at n1
  obtain ⟨cd, n3, n1⟩ := Res.bind_eq_ok.1 n1
  obtain ⟨cs, n4, n1⟩ := Res.bind_eq_ok.1 n1
  cases n1
  unfold AliInstance.fromArp at n2
  obtain ⟨cd', n5, n2⟩ := Res.bind_eq_ok.1 n2
  obtain ⟨kd, n6, n2⟩ := Res.bind_eq_ok.1 n2
  obtain ⟨pre, n7, n2⟩ := Res.bind_eq_ok.1 n2
  obtain ⟨dv, n8, n2⟩ := Res.bind_eq_ok.1 n2
  obtain ⟨bd, n9, n2⟩ := Res.bind_eq_ok.1 n2
  have a1 : ali.constraintsDomain = kd := by cases n2; rfl
  clear n2 n7 n8 n9
  unfold Prover.prove at h
  obtain ⟨t0, r0, h⟩ := Res.bind_eq_ok.1 h
  obtain ⟨polys, r1, h⟩ := Res.bind_eq_ok.1 h
  obtain ⟨ldes, r2, h⟩ := Res.bind_eq_ok.1 h
  obtain ⟨trees, r3, h⟩ := Res.bind_eq_ok.1 h
  obtain ⟨roots, r4, h⟩ := Res.bind_eq_ok.1 h
  obtain ⟨⟨G, t1⟩, r5, h⟩ := Res.bind_eq_ok.1 h
  obtain ⟨gLde, r6, h⟩ := Res.bind_eq_ok.1 h
  obtain ⟨gTree, r7, h⟩ := Res.bind_eq_ok.1 h
  obtain ⟨gRoot, r8, h⟩ := Res.bind_eq_ok.1 h
  obtain ⟨deep, r9, h⟩ := Res.bind_eq_ok.1 h
  obtain ⟨p1, r10, -⟩ := Res.bind_eq_ok.1 h
  simp only at r1 r2 r3 r5 r6 r7 r9 r10
  obtain ⟨hpos, -⟩ := calculateWitnessPolys_table r1
  replace hpos : 0 < inst.numRegisters := hpos
  have s1 := witnessPolys_size r1
  have s2 := calculateG_size r5
  obtain ⟨⟨f0, hf0, s3, d1, hd1⟩, s5, d2, hd2⟩ := calculateDeep_size r9
  obtain ⟨P0, hP0, l0⟩ := mem_mapRes r2 f0 hf0
  have s7 := Poly.lde_size (by rw [s1 P0 hP0]; exact nextPow2_idem _) l0
  rw [s1 P0 hP0] at s7
  have s8 := Poly.lde_size (by rw [s2]; exact nextPow2_idem _) r6
  rw [s2, a1] at s8
  obtain ⟨k, hk⟩ : ∃ k, inst.numRows = 2 ^ k := by
    by_contra hn
    push Not at hn
    rw [C65_rows_panics H w inst hpos hn _ _ _ hp' witness htab] at h'
    cases h'
  obtain ⟨-, ⟨o, rfl⟩, ⟨e, rfl⟩, hle⟩ := C70_fri_provers H w deep.h1 factor out p1 (Or.inl r10)
  have c2 : cd'.size = nextPow2 inst.numRows := domain_size n5
  have c3 : kd.size = nextPow2 (nextPow2 inst.numRows * maxDegree cs) := by rw [← c2]; exact domain_size n6
  have sz1 : f0.size = 2 ^ (k + e) := by
    rw [s7, hk, nextPow2_pow, ← pow_add]
  refine ⟨k, e, o, hk, rfl, rfl, ?_, ?_, ?_⟩
  · rw [s3, sz1, nextPow2_pow, pow_add] at hle
    have : 2 * 2 ^ o ≤ 2 ^ k := Nat.le_of_mul_le_mul_right hle (by positivity)
    rw [← pow_succ'] at this
    exact (Nat.pow_le_pow_iff_right (by norm_num)).1 this
  · obtain ⟨K, hK, -, e1⟩ := newForSize_inv hd1
    rw [sz1, nextPow2_pow] at e1
    rwa [← Nat.pow_right_injective (le_refl 2) e1]
  · intro f hf
    obtain ⟨K, hK, -, e1⟩ := newForSize_inv hd2
    obtain ⟨hm, -⟩ := maskConstraints_inv n4
    have hdeg : maxDegree cs = 2 ^ f := by
      refine maxDegree_eq (fun c hc => ?_) ?_
      · have : c.degree ∈ inst.constraints.map (fun c => c.degree) := hm ▸ List.mem_map_of_mem hc
        obtain ⟨c', hc', e'⟩ := List.mem_map.1 this
        exact e' ▸ hf.degrees.1 c' hc'
      · obtain ⟨c', hc', e'⟩ := hf.degrees.2
        have : c'.degree ∈ cs.map (fun c => c.degree) := hm ▸ List.mem_map_of_mem hc'
        obtain ⟨c, hc, e''⟩ := List.mem_map.1 this
        exact ⟨c, hc, e''.trans e'⟩
    rw [s8, c3, hk, nextPow2_pow, hdeg, ← pow_add, nextPow2_pow, nextPow2_pow, ← pow_add, nextPow2_pow] at e1
    rwa [← Nat.pow_right_injective (le_refl 2) e1]

/-- **C65** (outcome, every factor). As `C65_outcome`, for an extension factor of one too: it differs only with a single final coefficient, where the last FRI
tree would have one leaf and `prove` panics. -/
theorem C65_outcome_any (w : Worker) (inst : InstanceProperties F) (n k f e o : ℕ) (h : Runnable inst n k f)
    (hS : k + f + e ≤ StarkField.S F) (h32 : k + f < 32) (h32' : e + o < 32) (hch : ChallengeOk F)
    (hcos : (StarkField.mulGen : F) ^ 2 ^ (k + f) ≠ 1) (witness : List (List F)) (ht : IsTable witness n (2 ^ k)) :
    ∃ prover z, Prover.new w inst (2 ^ e) (2 ^ o) = .ok prover ∧ OpenedAt H prover w witness e z ∧
      (z ^ 2 ^ (k + f + e) = 1 → prover.prove H witness = .err .error) ∧
      (z ^ 2 ^ (k + f + e) ≠ 1 → o < k → 1 ≤ e + o → ∃ proof, prover.prove H witness = .ok proof) ∧
      (z ^ 2 ^ (k + f + e) ≠ 1 → k ≤ o ∨ e + o = 0 → prover.prove H witness = .panic) :=
  prove_outcome_any H w inst n k f e o h hS h32 h32' hch hcos witness ht

/-- **C65** (exactly when). A runnable instance, a witness of the declared shape, sizes within the `u32` bit reversal, whatever the number of CPUs and the hash
function: a prover is built and returns a proof if and only if the factor and the number of final FRI coefficients are powers of two and not both one, there
are fewer final coefficients than rows, the field has a domain of the size of the extended composition, and the point the transcript selects is outside
that domain. -/
theorem C65_exact (w : Worker) {inst : InstanceProperties F} {n k f factor out : ℕ} (h : Runnable inst n k f) (h32 : k + f < 32)
    (h32' : factor * out < 2 ^ 32) (hch : ChallengeOk F) (hcos : (StarkField.mulGen : F) ^ 2 ^ (k + f) ≠ 1)
    {witness : List (List F)} (ht : IsTable witness n (2 ^ k)) :
    (∃ prover proof, Prover.new w inst factor out = .ok prover ∧ prover.prove H witness = .ok proof) ↔
      ∃ e o, factor = 2 ^ e ∧ out = 2 ^ o ∧ 1 < factor * out ∧ o < k ∧ k + f + e ≤ StarkField.S F ∧
        ∃ prover z, Prover.new w inst factor out = .ok prover ∧ OpenedAt H prover w witness e z ∧ z ^ 2 ^ (k + f + e) ≠ 1 := by
  have lt32 : ∀ e o, factor = 2 ^ e → out = 2 ^ o → e + o < 32 := by
    rintro e o rfl rfl
    rw [← pow_add] at h32'
    exact (Nat.pow_lt_pow_iff_right (by norm_num)).1 h32'
  constructor
  · rintro ⟨prover, proof, hnew, hprove⟩
    obtain ⟨k', e, o, hk, rfl, rfl, ho, -, hS⟩ := C65_proof_needs H hnew hprove
    obtain rfl : k' = k := Nat.pow_right_injective (le_refl 2) (hk.symm.trans h.rows)
    have hS := hS f (h.registers ▸ h)
    obtain ⟨prover', z, e1, hz, e2, -, e3⟩ := C65_outcome_any H w inst n _ f e o h hS h32 (lt32 e o rfl rfl) hch hcos witness ht
    rw [hnew] at e1
    cases e1
    have hz1 : z ^ 2 ^ (k' + f + e) ≠ 1 := fun h1 => by
      rw [e2 h1] at hprove
      cases hprove
    refine ⟨e, o, rfl, rfl, ?_, ho, hS, prover, z, hnew, hz, hz1⟩
    rw [← pow_add]
    apply Nat.one_lt_two_pow
    intro h0
    rw [e3 hz1 (Or.inr h0)] at hprove
    cases hprove
  · rintro ⟨e, o, rfl, rfl, h1, ho, hS, prover, z, hnew, hz, hne⟩
    obtain ⟨prover', z', e1, hz', -, e2, -⟩ := C65_outcome_any H w inst n k f e o h hS h32 (lt32 e o rfl rfl) hch hcos witness ht
    rw [hnew] at e1
    cases e1
    obtain rfl := openedAt_unique H hz hz'
    have : 1 ≤ e + o := by
      by_contra h0
      obtain ⟨rfl, rfl⟩ : e = 0 ∧ o = 0 := by omega
      simp at h1
    obtain ⟨proof, hp⟩ := e2 hne ho this
    exact ⟨prover, proof, hnew, hp⟩

/-- The hypotheses of `C65_exact` hold for four rows of a sequence that doubles, factor 8 and two final coefficients; its right-hand side fails for factor 6,
for three final coefficients, for four, for factor and coefficients both one, and for factor 128, which needs 512 points in a field that has 256. -/
example (w : Worker) : Runnable (mixedInst [doubling, quadrupling]) 1 2 0 ∧ IsTable [[(1 : Fr), 2, 4, 8]] 1 (2 ^ 2) ∧
    ∀ p ∈ [(6, 2), (8, 3), (8, 4), (1, 1), (128, 2)], ∀ prover proof,
      ¬ (Prover.new w (mixedInst [doubling, quadrupling]) p.1 p.2 = .ok prover ∧ prover.prove H [[(1 : Fr), 2, 4, 8]] = .ok proof) := by
  have ht : IsTable [[(1 : Fr), 2, 4, 8]] 1 (2 ^ 2) := ⟨rfl, by decide⟩
  refine ⟨mixedInst_runnable, ht, ?_⟩
  intro p hp prover proof hex
  have hb : ∀ p ∈ [(6, 2), (8, 3), (8, 4), (1, 1), (128, 2)], p.1 * p.2 < 2 ^ 32 := by decide
  have hb := hb p hp
  obtain ⟨e, o, he, ho, h1, hk, hS, -⟩ := (C65_exact H w mixedInst_runnable (by norm_num) hb (by unfold ChallengeOk; decide +kernel)
    (by decide +kernel) ht).1 ⟨prover, proof, hex⟩
  have hS : 2 + 0 + e ≤ 8 := hS
  have he' : e ≤ 6 := by omega
  have key : ∀ p ∈ [(6, 2), (8, 3), (8, 4), (1, 1), (128, 2)], ∀ e ≤ 6, ∀ o < 2, ¬ (p.1 = 2 ^ e ∧ p.2 = 2 ^ o ∧ 1 < p.1 * p.2) := by decide
  exact key p hp e he' o hk ⟨he, ho, h1⟩

end Hodor

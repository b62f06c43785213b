import Verif.Spec.Opened
import Verif.Lemmas.ProverTotal
import Verif.Props.Ali

/-!
# Lemmas: what `prove` does on a runnable instance
-/

namespace Hodor

open Polynomial Finset Spec

variable {F : Type} [Field F] [DecidableEq F] [StarkField F] (H : List UInt8 → Digest)

omit [DecidableEq F] in
/-- Parameters for which completeness is expected are parameters of a prover. -/
theorem Spec.RunParams.prover {w : Worker} {k f e o : ℕ} (h : RunParams F w k f e o) : ProverParams F k f e o :=
  ⟨h.size, h.size32, h.factor, h.factor32, h.challenge, h.coset⟩

/-- There is one opening point at most. -/
theorem openedAt_unique {prover : Prover F} {w : Worker} {witness : List (List F)} {e : ℕ} {z z' : F}
    (h : OpenedAt H prover w witness e z) (h' : OpenedAt H prover w witness e z') : z = z' := by
  obtain ⟨ps, l, tr, ro, G, t, gl, gt, gr, t1, a1, a2, a3, a4, a5, a6, a7, a8, a9⟩ := h
  obtain ⟨ps', l', tr', ro', G', t', gl', gt', gr', t1', b1, b2, b3, b4, b5, b6, b7, b8, b9⟩ := h'
  rw [a1] at b1; cases b1
  rw [a2] at b2; cases b2
  rw [a3] at b3; cases b3
  rw [a4] at b4; cases b4
  rw [a5] at b5; cases b5
  rw [a6] at b6; cases b6
  rw [a7] at b7; cases b7
  rw [a8] at b8; cases b8
  rw [a9] at b9; cases b9
  rfl

/-- `prove` on a runnable instance with any power of two as factor, one included, see `C65_outcome_any`. -/
theorem prove_outcome_any (w : Worker) (inst : InstanceProperties F) (n k f e o : ℕ) (h : Runnable inst n k f)
    (hS : k + f + e ≤ StarkField.S F) (h32 : k + f < 32) (h32' : e + o < 32) (hch : ChallengeOk F)
    (hcos : (StarkField.mulGen : F) ^ 2 ^ (k + f) ≠ 1) (witness : List (List F)) (ht : IsTable witness n (2 ^ k)) :
    ∃ prover z, Prover.new w inst (2 ^ e) (2 ^ o) = .ok prover ∧ OpenedAt H prover w witness e z ∧
      (z ^ 2 ^ (k + f + e) = 1 → prover.prove H witness = .err .error) ∧
      (z ^ 2 ^ (k + f + e) ≠ 1 → o < k → 1 ≤ e + o → ∃ proof, prover.prove H witness = .ok proof) ∧
      (z ^ 2 ^ (k + f + e) ≠ 1 → k ≤ o ∨ e + o = 0 → prover.prove H witness = .panic) := by
  obtain ⟨P, e1, -, -, -⟩ := witnessPolys_ok w h.pos ht (by omega) (by omega)
    (show (arpOf inst k).numRegisters = n from h.registers) (show (arpOf inst k).numRows = 2 ^ k from h.rows)
  obtain ⟨prover, fLdes, fTrees, fRoots, G, t, gLde, gTree, gRoot, e2, ea, m1, m2, m3, m4, m5, m6, m7, hd1, hd2⟩ :=
    prove_to_deep_any H w h hS h32 hch hcos e1 (length_tab _ _) (by
      intro p hp'
      simp only [tab, List.mem_map] at hp'
      obtain ⟨r, -, rfl⟩ := hp'
      exact ⟨_, rfl⟩)
  refine ⟨prover, chal F H (t.commitBytes gRoot.bytes), e2, ⟨_, fLdes, fTrees, fRoots, G, t, gLde, gTree, gRoot, _, ea ▸ e1, m1, m2, m3, m4, m5, m6, m7,
    getChallenge_ok H hch _⟩, hd1, fun hz ho h1 => ?_, fun hz ho => ?_⟩
  · exact proveEnd_ok H hS hch h1 h32' ho (hd2 hz)
  · rcases ho with ho | ho
    · exact proveEnd_no_steps H hS hch ho (hd2 hz)
    · obtain ⟨rfl, rfl⟩ : e = 0 ∧ o = 0 := by omega
      exact proveEnd_single_point H hS hch (hd2 hz)

/-- `prove` on a runnable instance, see `C65_outcome`. -/
theorem prove_outcome (w : Worker) (inst : InstanceProperties F) (n k f e o : ℕ) (h : Runnable inst n k f)
    (hp : ProverParams F k f e o) (witness : List (List F)) (ht : IsTable witness n (2 ^ k)) :
    ∃ prover z, Prover.new w inst (2 ^ e) (2 ^ o) = .ok prover ∧ OpenedAt H prover w witness e z ∧
      (z ^ 2 ^ (k + f + e) = 1 → prover.prove H witness = .err .error) ∧
      (z ^ 2 ^ (k + f + e) ≠ 1 → o < k → ∃ proof, prover.prove H witness = .ok proof) ∧
      (z ^ 2 ^ (k + f + e) ≠ 1 → k ≤ o → prover.prove H witness = .panic) := by
  obtain ⟨prover, z, e1, e2, e3, e4, e5⟩ :=
    prove_outcome_any H w inst n k f e o h hp.size hp.size32 hp.factor32 hp.challenge hp.coset witness ht
  have := hp.factor
  exact ⟨prover, z, e1, e2, e3, fun h1 h2 => e4 h1 h2 (by omega), fun h1 h2 => e5 h1 (Or.inl h2)⟩

end Hodor

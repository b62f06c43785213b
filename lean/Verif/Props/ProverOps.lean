import Verif.Lemmas.ProverOpsDeep
import Verif.Props.ProverOutcome
import Verif.Props.ProverCost

/-!
# C84: what proving costs in field operations
-/

set_option linter.unusedSectionVars false

namespace Hodor

open Spec Tick

variable {F : Type} [Field F] [DecidableEq F] [StarkField F] (H : List UInt8 → Digest)

/-- **C84** (same computation). Counting the field operations changes nothing about `prove`: same proof, same error, same panic, for every prover and witness. -/
theorem C84_same (p : Prover F) (witness : List (List F)) : (p.proveW H witness).res = p.prove H witness := res_proveW H p witness

/-- **C84** (hints). The numbers of threads that the extension of a polynomial and the interpolation of the witness request for one transform are always one, however many CPUs there are
and however few transforms: the transforms are serial. -/
theorem C84_hint (w : Worker) (m : ℕ) (hm : 0 < m) : Poly.ldeHint w m = some 1 ∧ witnessHint w m = some 1 := ⟨ldeHint_eq w hm, witnessHint_eq w hm⟩

section
variable {inst : InstanceProperties F} {n k f e o : ℕ}

/-- **C84**. For every runnable instance with `n` registers and `2^k` rows and constraints of degree up to `2^f`, for all supported options, every witness table and number of CPUs:
if `prove` returns a proof, it has used exactly the number of field operations of the specification. It does not depend on the witness or the hash function. -/
theorem C84_prove (w : Worker) (h : Runnable inst n k f) (hp : ProverParams F k f e o) (hout : o < k) (witness : List (List F))
    (hw : IsTable witness n (2 ^ k)) (prover : Prover F) (hprover : Prover.new w inst (2 ^ e) (2 ^ o) = .ok prover)
    (proof : InstanceProof F) (hproof : prover.prove H witness = .ok proof) :
    (prover.proveW H witness).ops = proveOps (StarkField.S F) w inst n k f e o := by
  have hS := hp.size
  have h32 := hp.size32
  have hfac := hp.factor
  obtain ⟨ali, e1, hali⟩ := h.fromArp w (by omega) hp.coset
  have hprv : Prover.new w inst (2 ^ e) (2 ^ o) = .ok ⟨arpOf inst k, ali, 2 ^ e, 2 ^ o, w⟩ := by
    unfold Prover.new
    rw [h.fromInstance (by omega), Res.ok_bind, e1, Res.ok_bind, Res.pure_def]
  rw [hprv] at hprover
  cases hprover
  rw [← res_proveW] at hproof
  suffices hsp : (Prover.proveW H ⟨arpOf inst k, ali, 2 ^ e, 2 ^ o, w⟩ witness).Spent (fun _ d => d = proveOps (StarkField.S F) w inst n k f e o) from hsp proof hproof
  obtain ⟨P, ew, -, -, -⟩ := witnessPolys_ok w h.pos hw (by omega) (by omega)
    (show (arpOf inst k).numRegisters = n from h.registers) (show (arpOf inst k).numRows = 2 ^ k from h.rows)
  have hcs : ∀ c ∈ (arpOf inst k).constraints, ∀ t ∈ c.terms, termFactors t ≠ [] := fun c hc t ht => (h.constraintOk c hc t ht).2
  have hD : ali.maxConstraintPower = 2 ^ f := hali.power.trans h.maxDeg
  unfold Prover.proveW
  refine spent_lift_bind fun t0 _ => ?_
  refine spent_works_bind (works_calculateWitnessPolysT _ w h.pos hw) fun ps hps => ?_
  rw [res_calculateWitnessPolysT] at hps
  dsimp only at hps
  rw [ew] at hps
  cases hps
  have hshape : ∀ p ∈ tab n (fun r => (mkPoly .coefficients k (P r).coeff : Poly F .coefficients)), Shaped k p := by
    intro p hp'
    simp only [tab, List.mem_map] at hp'
    obtain ⟨r, -, rfl⟩ := hp'
    exact ⟨_, rfl⟩
  generalize hps : tab n (fun r => (mkPoly .coefficients k (P r).coeff : Poly F .coefficients)) = ps at hshape
  have hlen : ps.length = n := by rw [← hps, length_tab]
  have hmap : (Tick.map (fun q => ldeT w q (2 ^ e)) ps).Works (n * ldeOps (StarkField.S F) w k e) :=
    (works_map (c := fun _ => ldeOps (StarkField.S F) w k e) fun q hq => works_ldeT w e (hshape q hq).length (hshape q hq).exp).to (by simp [hlen])
  refine spent_works_bind hmap fun fLdes hl => ?_
  rw [res_map (g := fun q : Poly F .coefficients => q.lde w (2 ^ e)) fun q _ => res_ldeT w q _] at hl
  have hls : ∀ l ∈ fLdes, l.coeffs.length = 2 ^ (k + e) := by
    intro l hl'
    obtain ⟨q, hq, eq⟩ := mem_mapRes hl l hl'
    obtain ⟨g, rfl⟩ := hshape q hq
    rw [lde_exact w (by omega) (by omega)] at eq
    cases eq
    simp
  refine spent_lift_bind fun fOracles _ => spent_lift_bind fun fRoots _ => ?_
  refine spent_works_bind (works_calculateGW H w (by omega) (by omega) hali hD hcs _ hshape) fun a ha => ?_
  obtain ⟨gPoly, t1⟩ := a
  rw [res_calculateGW] at ha
  have hgs : Shaped (k + f) gPoly := by
    have := calculateG_safe (E := fun _ => False) H w (by omega) (by omega) hp.challenge hali h.maxDeg h32 h.registers
      (fun c hc => ⟨h.constraintOk c hc, by obtain ⟨d, hd, -⟩ := h.dense c hc; exact ⟨d, hd⟩⟩) h.boundary
      (fRoots.foldl (fun t r => t.commitBytes r.bytes) t0) hlen hshape
    rw [ha] at this
    exact this
  refine spent_works_bind (works_ldeT w e hgs.length hgs.exp) fun gLde hgl => ?_
  rw [res_ldeT] at hgl
  have hgll : gLde.coeffs.length = 2 ^ (k + f + e) := by
    obtain ⟨g, rfl⟩ := hgs
    rw [lde_exact w (by omega) (by omega)] at hgl
    cases hgl
    simp
  refine spent_lift_bind fun gOracle _ => spent_lift_bind fun gRoot _ => ?_
  refine (works_calculateDeepW H w (fun p hp' => (hshape p hp').length) hls hgs.length hgll _).bind ?_
  rintro deep d - ⟨⟨l1, l2⟩, hd⟩
  refine (spent_friProofByValuesW H w l1 (by omega) (by omega)).bind ?_
  rintro p1 d1 - ⟨f1, hd1⟩
  refine (spent_friProofByValuesW H w l2 (by omega) (by omega)).bind ?_
  rintro p2 d2 - ⟨f2, hd2⟩
  refine spent_lift_bind fun _ _ => spent_lift_bind fun _ _ => ?_
  refine spent_works_bind (works_commitFinalT _ _ _) fun t2 _ => ?_
  refine spent_works_bind (works_commitFinalT _ _ _) fun t3 _ => ?_
  refine spent_lift_bind fun _ _ => spent_lift_bind fun _ _ => spent_lift_bind fun _ _ => spent_lift_bind fun _ _ => spent_lift_bind fun _ _ => spent_lift_bind fun _ _ => spent_pure ?_
  rw [compositionProveOps_eq h (by omega), hd, hd1, hd2, f1, f2, hali.masks, card_steps h (by omega), length_masksOf h (by omega)]
  unfold proveOps quotientOps
  omega

/-- **C84** (witness). Two proofs of the same instance with the same options on the same number of CPUs cost the same, whatever their witnesses and the hash functions are: the number of field
operations reveals nothing about the witness. -/
theorem C84_oblivious (H' : List UInt8 → Digest) (w : Worker) (h : Runnable inst n k f) (hp : ProverParams F k f e o) (hout : o < k) (witness witness' : List (List F))
    (hw : IsTable witness n (2 ^ k)) (hw' : IsTable witness' n (2 ^ k)) (prover : Prover F) (hprover : Prover.new w inst (2 ^ e) (2 ^ o) = .ok prover)
    (proof proof' : InstanceProof F) (hproof : prover.prove H witness = .ok proof) (hproof' : prover.prove H' witness' = .ok proof') :
    (prover.proveW H witness).ops = (prover.proveW H' witness').ops := by
  rw [C84_prove H w h hp hout witness hw prover hprover proof hproof, C84_prove H' w h hp hout witness' hw' prover hprover proof' hproof']

end

/-- A run: the Fibonacci instance with 4 rows. -/
def proverOpsRun (w : Worker) : Res (ℕ × Bool) := do
  let prover ← Prover.new w (fibInst Fr 2 1 1) 2 1
  let proof ← (prover.proveW toyHash [[1, 1, 2, 3], [1, 2, 3, 5]]).res
  let v ← Verifier.new (fibInst Fr 2 1 1) 2
  let r ← v.verify toyHash proof
  pure ((prover.proveW toyHash [[1, 1, 2, 3], [1, 2, 3, 5]]).ops, r)

/-- The proof is accepted, and proving has taken exactly the field operations of `C84_prove` (here `n = k = 2`, `e = 1`, `f = o = 0`), on one and on three CPUs. -/
example : proverOpsRun ⟨1, by norm_num⟩ = .ok (proveOps 8 ⟨1, by norm_num⟩ (fibInst Fr 2 1 1) 2 2 0 1 0, true) := by decide +kernel

example : proverOpsRun ⟨3, by norm_num⟩ = .ok (proveOps 8 ⟨3, by norm_num⟩ (fibInst Fr 2 1 1) 2 2 0 1 0, true) := by decide +kernel

end Hodor

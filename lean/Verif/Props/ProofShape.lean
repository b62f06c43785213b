import Verif.Spec.ProofShape
import Verif.Props.AnyWorker
import Verif.Props.Verify

/-!
# C73: the shape and the size of the proofs which `prove` returns
-/

namespace Hodor

open Polynomial Finset Spec

variable {F : Type} [Field F] [DecidableEq F] [StarkField F] (H : List UInt8 → Digest)

theorem friShape_honest {n f o : ℕ} {p : F[X]} {idx : ℕ} :
    FriProofShape (honestProof H n f o p idx) n (n - f - o + 1) idx ∧
      (honestProof H n f o p idx).finalCoefficients.length = 2 ^ o := by
  refine ⟨⟨by simp [honestProof], ?_, ?_⟩, by simp [honestProof]⟩
  · simp only [honestProof, tab, List.map_map]
    apply List.map_congr_left
    intro t _
    simp [friQueryAt, friQuery, honestPath]
  · simp only [honestProof, tab, List.map_map]
    apply List.map_congr_left
    intro t _
    simp [friQueryAt, friQuery, friIdx]

theorem pathDigests_of_shape {p : FriProof F} {N m idx : ℕ} (h : FriProofShape p N m idx) (hm : m ≤ N + 1) :
    pathDigests p.queries = m * (2 * N + 1 - m) ∧ p.queries.length = 2 * m := by
  have hlen := congrArg List.length h.paths
  rw [List.length_map, List.length_map, List.length_range] at hlen
  refine ⟨?_, hlen⟩
  unfold pathDigests
  rw [h.paths]
  clear h hlen
  induction m with
  | zero => simp
  | succ m ih =>
    rw [show 2 * (m + 1) = 2 * m + 1 + 1 by ring, List.range_succ, List.range_succ, List.map_append, List.map_append, List.sum_append,
      List.sum_append, ih (by omega)]
    simp only [List.map_cons, List.map_nil, List.sum_cons, List.sum_nil, Nat.add_zero]
    rw [show 2 * m / 2 = m by omega, show (2 * m + 1) / 2 = m by omega]
    obtain ⟨d, rfl⟩ : ∃ d, N = m + d := ⟨N - m, by omega⟩
    rw [show 2 * (m + d) + 1 - m = m + 2 * d + 1 by omega, show m + d - m = d by omega, show 2 * (m + d) + 1 - (m + 1) = m + 2 * d by omega]
    ring

section
variable {inst : InstanceProperties F} {n k f e o : ℕ}

/-- The masks are those of the pairs that are read. -/
theorem mem_masksOf_iff (h : Runnable inst n k f) (hk : k ≤ StarkField.S F) (m : MaskProperties F) :
    m ∈ masksOf (arpOf inst k) ↔ ∃ x ∈ readPairs inst (2 ^ k), (⟨x.1, .mask (genOf F k ^ x.2)⟩ : MaskProperties F) = m := by
  have hver := h.verifiable
  have hg : genOf F k ^ 2 ^ k = 1 := (genOf_prim hk).pow_eq_one
  unfold masksOf
  rw [mem_boundaryMasks, mem_masks]
  simp only [List.not_mem_nil, false_or, readPairs, List.mem_append, List.mem_filterMap, List.mem_flatMap, List.mem_map]
  constructor
  · rintro (⟨c, hc, u, hu, e⟩ | ⟨b, hb, e⟩)
    · obtain ⟨c0, hc0, rfl⟩ := List.mem_map.1 hc
      rw [factors_maskC] at hu
      obtain ⟨u0, hu0, rfl⟩ := List.mem_map.1 hu
      obtain ⟨-, j, ej⟩ := hver.reads c0 hc0 u0 hu0
      refine ⟨(u0.register, j % 2 ^ k), .inl ⟨u0, ⟨c0, hc0, hu0⟩, by rw [ej]⟩, ?_⟩
      rw [← e]
      simp only [UnivariateTerm.maskProperties, maskU, ej]
      rw [← pow_mod_orderOf, ← (genOf_prim hk).eq_orderOf, Nat.mod_mod, (genOf_prim hk).eq_orderOf, pow_mod_orderOf]
    · refine ⟨(b.register, 0), .inr ⟨b, hb, rfl⟩, ?_⟩
      rw [pow_zero]
      exact e
  · rintro ⟨x, ⟨u0, ⟨c0, hc0, hu0⟩, ex⟩ | ⟨b, hb, rfl⟩, e⟩
    · obtain ⟨-, j, ej⟩ := hver.reads c0 hc0 u0 hu0
      rw [ej] at ex
      cases ex
      refine .inl ⟨maskC (genOf F k) c0, List.mem_map.2 ⟨c0, hc0, rfl⟩, maskU (genOf F k) u0, ?_, ?_⟩
      · rw [factors_maskC]; exact List.mem_map.2 ⟨u0, hu0, rfl⟩
      · rw [← e]
        simp only [UnivariateTerm.maskProperties, maskU, ej]
        rw [← pow_mod_orderOf, ← (genOf_prim hk).eq_orderOf]
    · refine .inr ⟨b, hb, ?_⟩
      rw [← e, pow_zero]

theorem readPairs_lt {inst : InstanceProperties F} {k : ℕ} : ∀ x ∈ readPairs inst (2 ^ k), x.2 < 2 ^ k := by
  intro x hx
  simp only [readPairs, List.mem_append, List.mem_filterMap, List.mem_map] at hx
  rcases hx with ⟨u, -, ex⟩ | ⟨b, -, rfl⟩
  · cases hu : u.stepsDifference with
    | mask m => rw [hu] at ex; cases ex
    | steps j => rw [hu] at ex; cases ex; exact Nat.mod_lt _ (by positivity)
  · positivity

/-- The number of claimed values is the number of different pairs that are read. -/
theorem length_masksOf (h : Runnable inst n k f) (hk : k ≤ StarkField.S F) :
    (masksOf (arpOf inst k)).length = (readPairs inst (2 ^ k)).toFinset.card := by
  have hmem := mem_masksOf_iff h hk
  have hlt := readPairs_lt (inst := inst) (k := k)
  classical
  rw [← List.toFinset_card_of_nodup (nodup_masksOf (arpOf inst k))]
  rw [← Finset.card_image_of_injOn (s := (readPairs inst (2 ^ k)).toFinset) (f := fun x => (⟨x.1, .mask (genOf F k ^ x.2)⟩ : MaskProperties F))]
  · congr 1
    ext m
    simp only [List.mem_toFinset, Finset.mem_image, hmem]
  · intro x hx y hy exy
    simp only [Finset.mem_coe, List.mem_toFinset] at hx hy
    simp only [MaskProperties.mk.injEq, StepDifference.mask.injEq] at exy
    exact Prod.ext exy.1 ((genOf_prim hk).pow_inj (hlt x hx) (hlt y hy) exy.2)

/-- **C73** (shape). Whatever the number of CPUs, the instance, the witness and the parameters: if `prove` returns a proof for a runnable instance with `n` registers, `2^k` rows and
constraints of degree up to `2^f`, with LDE factor `2^e` and `2^o` final coefficients, then it contains
* one claimed value for each different pair of register and offset that is read;
* `n` roots and `n` openings of registers, all at the same odd position, with paths of `k + e` digests, and one root and opening of `g`, with a path of `k + f + e`;
* two FRI proofs at these positions with `k - o + 1` and `k + f - o + 1` roots (listed twice) and `2^o` coefficients each. -/
theorem C73_shape (w : Worker) (h : Runnable inst n k f) (hp : ProverParams F k f e o) (hout : o < k) (witness : List (List F))
    (hw : IsTable witness n (2 ^ k)) (prover : Prover F) (hprover : Prover.new w inst (2 ^ e) (2 ^ o) = .ok prover)
    (proof : InstanceProof F) (hproof : prover.prove H witness = .ok proof) :
    proof.fAtZM.length = (readPairs inst (2 ^ k)).toFinset.card ∧
    proof.fIopRoots.length = n ∧ proof.fQueries.length = n ∧
    proof.h1IopRoots = proof.friProofH1.roots ∧ proof.h2IopRoots = proof.friProofH2.roots ∧
    proof.friProofH1.finalCoefficients.length = 2 ^ o ∧ proof.friProofH2.finalCoefficients.length = 2 ^ o ∧
    ∃ idx1 idx2, idx1 < 2 ^ (k + e) ∧ idx1 % 2 = 1 ∧ idx2 < 2 ^ (k + f + e) ∧ idx2 % 2 = 1 ∧
      (∀ q ∈ proof.fQueries, q.index = idx1 ∧ q.path.length = k + e) ∧
      proof.gQuery.index = idx2 ∧ proof.gQuery.path.length = k + f + e ∧
      FriProofShape proof.friProofH1 (k + e) (k - o + 1) idx1 ∧ FriProofShape proof.friProofH2 (k + f + e) (k + f - o + 1) idx2 := by
  have hS := hp.size
  have h32 := hp.size32
  obtain ⟨P, e2, hP, h0, hv⟩ := witnessPolys_ok w (inst := arpOf inst k) h.pos hw (by omega) (by omega) h.registers h.rows
  obtain ⟨Q, G, L, ps, Q1, Q2, idx1, idx2, eps, hps, hG, ⟨earp, eg⟩, hl, hz, -, -, v1, v2, i1, i2, i1l, i1o, i2l, i2o, rfl⟩ :=
    prove_word H w h hp hout e2 hP hprover hproof
  obtain ⟨s1, c1⟩ := friShape_honest H (n := k + e) (f := e) (o := o) (p := Q1) (idx := idx1)
  obtain ⟨s2, c2⟩ := friShape_honest H (n := k + f + e) (f := e) (o := o) (p := Q2) (idx := idx2)
  rw [Nat.add_sub_cancel] at s1 s2
  refine ⟨?_, by simp [wordProof], by simp [wordProof], rfl, rfl, c1, c2, idx1, idx2, i1l, i1o, i2l, i2o, ?_, rfl, ?_, s1, s2⟩
  · rw [← length_masksOf h (by omega), eps]
    simp [wordProof]
  · intro q hq
    obtain ⟨r, -, rfl⟩ := mem_tab.1 (show q ∈ tab n _ from hq)
    exact ⟨rfl, by simp [friQuery, honestPath]⟩
  · simp [wordProof, friQuery, honestPath]

/-- **C73** (size). The number of digests and of field elements in a proof, exactly: quadratic in the logarithm of the number of rows, linear in the number of
registers. -/
theorem C73_size (w : Worker) (h : Runnable inst n k f) (hp : ProverParams F k f e o) (hout : o < k) (witness : List (List F))
    (hw : IsTable witness n (2 ^ k)) (prover : Prover F) (hprover : Prover.new w inst (2 ^ e) (2 ^ o) = .ok prover)
    (proof : InstanceProof F) (hproof : prover.prove H witness = .ok proof) :
    digestCount proof = n * (k + e + 1) + (k + f + e + 1) + (k - o + 1) * (k + 2 * e + o + 2) + (k + f - o + 1) * (k + f + 2 * e + o + 2) ∧
    elementCount proof = (readPairs inst (2 ^ k)).toFinset.card + (n + 1) + 2 * (k - o + 1) + 2 * (k + f - o + 1) + 2 * 2 ^ o := by
  obtain ⟨a1, a2, a3, a4, a5, a6, a7, idx1, idx2, -, -, -, -, b1, -, b2, s1, s2⟩ := C73_shape H w h hp hout witness hw prover hprover proof hproof
  obtain ⟨p1, l1⟩ := pathDigests_of_shape s1 (by omega)
  obtain ⟨p2, l2⟩ := pathDigests_of_shape s2 (by omega)
  have pf : pathDigests proof.fQueries = n * (k + e) := by
    unfold pathDigests
    rw [List.sum_eq_card_nsmul (proof.fQueries.map (fun q => q.path.length)) (k + e) (by
      intro x hx
      obtain ⟨q, hq, rfl⟩ := List.mem_map.1 hx
      exact (b1 q hq).2), List.length_map, a3, smul_eq_mul]
  constructor
  · unfold digestCount friDigests
    rw [a2, pf, b2, a4, a5, s1.roots, s2.roots, p1, p2]
    obtain ⟨d, rfl⟩ : ∃ d, k = o + d := ⟨k - o, by omega⟩
    rw [show o + d - o = d by omega, show o + d + f - o = d + f by omega, show 2 * (o + d + e) + 1 - (d + 1) = 2 * o + d + 2 * e by omega,
      show 2 * (o + d + f + e) + 1 - (d + f + 1) = 2 * o + d + f + 2 * e by omega]
    ring
  · unfold elementCount friElements
    rw [a1, a3, l1, l2, a6, a7]
    ring

end

/-- A run: the Fibonacci instance with 4 rows, 2 CPUs, LDE factor 2 and one final coefficient. -/
def shapeRun : Res (ℕ × ℕ) := do
  let prover ← Prover.new ⟨2, by norm_num⟩ (fibInst Fr 2 1 1) 2 1
  let proof ← prover.prove toyHash [[1, 1, 2, 3], [1, 2, 3, 5]]
  pure (digestCount proof, elementCount proof)

example : shapeRun = .ok (2 * (2 + 1 + 1) + (2 + 0 + 1 + 1) + (2 - 0 + 1) * (2 + 2 + 0 + 2) + (2 + 0 - 0 + 1) * (2 + 0 + 2 + 0 + 2),
    (readPairs (fibInst Fr 2 1 1) 4).toFinset.card + 3 + 6 + 6 + 2) := by decide +kernel

example : Runnable (fibInst Fr 2 1 1) 2 2 0 ∧ ProverParams Fr 2 0 1 0 ∧ IsTable [[(1 : Fr), 1, 2, 3], [1, 2, 3, 5]] 2 (2 ^ 2) :=
  ⟨(fibInst_suitable (F := Fr) 2 (by norm_num) 1 1).runnable,
    ⟨by decide, by norm_num, by norm_num, by norm_num, by decide +kernel, by decide +kernel⟩, ⟨rfl, by decide⟩⟩

end Hodor

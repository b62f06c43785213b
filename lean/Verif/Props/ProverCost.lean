import Verif.Lemmas.ProverCostP
import Verif.Props.Cost

/-!
# C80: what proving costs in hash calls
-/

namespace Hodor

open Spec Tick

variable {F : Type} [Field F] [DecidableEq F] [StarkField F] (H : List UInt8 → Digest)

theorem length_fAtZM {inst : AliInstance F} {fPolys : List (Poly F .coefficients)} {fLdes : List (Poly F .values)} {gPoly : Poly F .coefficients}
    {gLde : Poly F .values} {t : Transcript} {w : Worker} {d : DeepResult F} (h : inst.calculateDeep H fPolys fLdes gPoly gLde t w = .ok d) :
    d.fAtZM.length = inst.allMasks.length := by
  unfold AliInstance.calculateDeep at h
  obtain ⟨⟨z, t⟩, -, h⟩ := Res.bind_eq_ok.1 h
  obtain ⟨f0, -, h⟩ := Res.bind_eq_ok.1 h
  obtain ⟨h1, -, h⟩ := Res.bind_eq_ok.1 h
  obtain ⟨s, hs, h⟩ := Res.bind_eq_ok.1 h
  obtain ⟨_, -, h⟩ := Res.bind_eq_ok.1 h
  obtain ⟨_, -, h⟩ := Res.bind_eq_ok.1 h
  cases h
  have key : ∀ (ms : List (MaskProperties F)) (s s' : DeepState F), forEach ms s (deepMask H fPolys fLdes f0.size z w) = .ok s' →
      s'.fAtZM.length = s.fAtZM.length + ms.length := by
    intro ms
    induction ms with
    | nil => intro s s' h; cases h; rfl
    | cons m ms ih =>
      intro s s' h
      obtain ⟨s1, h1, h2⟩ := Res.bind_eq_ok.1 h
      rw [ih _ _ h2]
      unfold deepMask at h1
      obtain ⟨_, -, h1⟩ := Res.bind_eq_ok.1 h1
      obtain ⟨_, -, h1⟩ := Res.bind_eq_ok.1 h1
      obtain ⟨_, -, h1⟩ := Res.bind_eq_ok.1 h1
      obtain ⟨_, -, h1⟩ := Res.bind_eq_ok.1 h1
      obtain ⟨_, -, h1⟩ := Res.bind_eq_ok.1 h1
      obtain ⟨_, -, h1⟩ := Res.bind_eq_ok.1 h1
      obtain ⟨_, -, h1⟩ := Res.bind_eq_ok.1 h1
      obtain ⟨_, -, h1⟩ := Res.bind_eq_ok.1 h1
      cases h1
      simp only [List.length_append, List.length_cons, List.length_nil]
      omega
  simpa using key _ _ _ hs

/-- The openings of the register trees. -/
theorem openedTrees {os : List IopTree} {ls : List (Poly F .values)} {i : ℕ} {qs : List (IopQuery F)} (hl : os.length = ls.length)
    (hd : ∀ t ∈ os, ∃ L, TreeDepth t L) (h : mapRes (fun o : IopTree × Poly F .values => o.1.query H i o.2.coeffs) (os.zip ls) = .ok qs) :
    (qs.map openedTreeHashes).sum = treeSum os + (qs.map (fun _ => 1)).sum := by
  induction os generalizing ls qs with
  | nil => cases h; rfl
  | cons o os ih =>
    cases ls with
    | nil => simp at hl
    | cons l ls =>
      simp only [List.zip_cons_cons, mapRes] at h
      obtain ⟨q, hq, h⟩ := Res.bind_eq_ok.1 h
      obtain ⟨qs', hqs, h⟩ := Res.bind_eq_ok.1 h
      cases h
      obtain ⟨L, d⟩ := hd o (by simp)
      have e := ih (by simpa using hl) (fun t ht => hd t (by simp [ht])) hqs
      have lq := query_depth H d hq
      simp only [List.map_cons, List.sum_cons, e, treeSum, openedTreeHashes, lq, d.size, Nat.log_pow (show 1 < 2 by norm_num)]
      ring

theorem created_depths {os : List IopTree} {ls : List (Poly F .values)} {w : Worker}
    (h : List.Forall₂ (fun (l : Poly F .values) t => IopTree.create H w l.coeffs = .ok t) ls os) : ∀ t ∈ os, ∃ L, TreeDepth t L := by
  induction h with
  | nil => simp
  | cons h1 h2 ih =>
    intro t ht
    rcases List.mem_cons.1 ht with rfl | ht
    · obtain ⟨L, -, d⟩ := create_depth H h1
      exact ⟨L, d⟩
    · exact ih t ht

theorem proveT_hashes (p : Prover F) (witness : List (List F)) (proof : InstanceProof F) (h : p.prove H witness = .ok proof) :
    (p.proveT H witness).hashes =
      transcriptHashes (batchedCount p.ali.constraintsBatchedByDensity) p.ali.properties.boundaryConstraints.length proof.fAtZM.length + treesHashes proof := by
  rw [← res_proveT] at h
  unfold Prover.proveT at h ⊢
  obtain ⟨t, -, h, e1⟩ := hashes_lift_bind h
  obtain ⟨polys, -, h, e2⟩ := hashes_lift_bind h
  obtain ⟨ldes, -, h, e3⟩ := hashes_lift_bind h
  obtain ⟨os, hos, h, e4⟩ := hashes_bind h
  obtain ⟨roots, -, h, e5⟩ := hashes_lift_bind h
  obtain ⟨⟨g, t1⟩, hg, h, e6⟩ := hashes_bind h
  obtain ⟨gl, -, h, e7⟩ := hashes_lift_bind h
  obtain ⟨go, hgo, h, e8⟩ := hashes_bind h
  obtain ⟨groot, -, h, e9⟩ := hashes_lift_bind h
  obtain ⟨deep, hdeep, h, e10⟩ := hashes_bind h
  obtain ⟨p1, hp1, h, e11⟩ := hashes_bind h
  obtain ⟨p2, hp2, h, e12⟩ := hashes_bind h
  obtain ⟨_, -, h, e13⟩ := hashes_lift_bind h
  obtain ⟨_, -, h, e14⟩ := hashes_lift_bind h
  obtain ⟨⟨b1, t2⟩, hb1, h, e15⟩ := hashes_bind h
  obtain ⟨i1, -, h, e16⟩ := hashes_lift_bind h
  obtain ⟨⟨b2, t3⟩, hb2, h, e17⟩ := hashes_bind h
  obtain ⟨i2, -, h, e18⟩ := hashes_lift_bind h
  obtain ⟨f1, hf1, h, e19⟩ := hashes_bind h
  obtain ⟨f2, hf2, h, e20⟩ := hashes_bind h
  obtain ⟨fq, hfq, h, e21⟩ := hashes_bind h
  obtain ⟨gq, hgq, h, e22⟩ := hashes_bind h
  rw [e1, e2, e3, e4, e5, e6, e7, e8, e9, e10, e11, e12, e13, e14, e15, e16, e17, e18, e19, e20, e21, e22]
  cases h
  obtain ⟨d1, l1, c1⟩ := friProofByValuesT_inv H hp1
  obtain ⟨d2, l2, c2⟩ := friProofByValuesT_inv H hp2
  have q1 := produceProofT_inv H d1 l1 hf1
  have q2 := produceProofT_inv H d2 l2 hf2
  have ho := pays_map (fun l _ => pays_createT H p.worker (Poly.coeffs l)) os hos
  have cg := pays_calculateGT H _ _ _ _ _ hg
  have cgo := pays_createT H _ _ _ hgo
  have cd := pays_calculateDeepT H _ _ _ _ _ _ _ _ hdeep
  have cq := pays_map (fun (x : IopTree × Poly F .values) _ => pays_queryT H x.1 i1 x.2.coeffs) fq hfq
  have cgq := pays_queryT H _ _ _ _ hgq
  rw [res_map fun (l : Poly F .values) _ => res_createT H _ l.coeffs] at hos
  rw [res_map fun (x : IopTree × Poly F .values) _ => res_queryT H x.1 _ x.2.coeffs] at hfq
  rw [res_calculateDeepT] at hdeep
  rw [res_createT] at hgo
  rw [res_queryT] at hgq
  have lz := length_fAtZM H hdeep
  have hF := mapRes_eq_ok hos
  have op := openedTrees H (os := os) (ls := ldes) hF.length_eq.symm (created_depths H hF) hfq
  obtain ⟨L, -, dg⟩ := create_depth H hgo
  have lg := query_depth H dg hgq
  have b : ∀ t : Transcript, (getChallengeBytesT H t).hashes = 1 := fun _ => rfl
  have pz : ∀ x : InstanceProof F, (pure x : Tick (InstanceProof F)).hashes = 0 := fun _ => rfl
  have eg : openedTreeHashes gq = treeHashes (Nat.log 2 go.size) + 1 := by
    rw [openedTreeHashes, lg, dg.size, Nat.log_pow (by norm_num)]
  have es : (p.ali.constraintsBatchedByDensity.map (fun b => b.2.length * 2)).sum = batchedCount p.ali.constraintsBatchedByDensity * 2 := by
    rw [List.sum_map_mul_right]
    rfl
  unfold treesHashes transcriptHashes
  dsimp only at *
  rw [op, eg, ← q1, ← q2, ← c1, ← c2, ho, cg, cgo, cd, cq, cgq, b, b, pz, lz, es]
  simp only [treeSum]
  ring

/-- **C80** (every proof). For every instance, options, witness and number of CPUs: the counted prover returns what `prove` returns, and if that is a proof, the number of
hash calls is exactly what the proof lets one compute: two for each constraint and for each boundary constraint, one for each claimed value, three more for the transcript,
`2^(depth+1) - 1` for each Merkle tree and one for each opening. -/
theorem C80_any_proof (w : Worker) (inst : InstanceProperties F) (ldeFactor out : ℕ) (prover : Prover F)
    (hprover : Prover.new w inst ldeFactor out = .ok prover) (witness : List (List F)) :
    (prover.proveT H witness).res = prover.prove H witness ∧
    ∀ proof, prover.prove H witness = .ok proof →
      (prover.proveT H witness).hashes =
        transcriptHashes inst.constraints.length inst.boundaryConstraints.length proof.fAtZM.length + treesHashes proof := by
  refine ⟨res_proveT H _ _, fun proof h => ?_⟩
  rw [proveT_hashes H prover witness proof h]
  unfold Prover.new at hprover
  obtain ⟨arp, ha, hprover⟩ := Res.bind_eq_ok.1 hprover
  obtain ⟨ali, hali, hprover⟩ := Res.bind_eq_ok.1 hprover
  cases hprover
  unfold fromInstance at ha
  obtain ⟨_, -, ha⟩ := Res.bind_eq_ok.1 ha
  obtain ⟨cs, hcs, ha⟩ := Res.bind_eq_ok.1 ha
  cases ha
  unfold AliInstance.fromArp at hali
  obtain ⟨_, -, hali⟩ := Res.bind_eq_ok.1 hali
  obtain ⟨_, -, hali⟩ := Res.bind_eq_ok.1 hali
  obtain ⟨_, -, hali⟩ := Res.bind_eq_ok.1 hali
  obtain ⟨_, -, hali⟩ := Res.bind_eq_ok.1 hali
  obtain ⟨_, -, hali⟩ := Res.bind_eq_ok.1 hali
  cases hali
  have := batchedCount_eq cs
  dsimp only
  rw [show cs.foldl (fun m c => pushBatch c m) [] = batchesOf cs from rfl, this, (maskConstraints_costs hcs).1]

omit [Field F] [DecidableEq F] [StarkField F] in
theorem friProverHashes_paths (qs : List (IopQuery F)) (N m : ℕ) (h : qs.map (fun q => q.path.length) = (List.range (2 * m)).map (fun t => N - t / 2))
    (hm : m ≤ N + 1) : friProverHashes qs + 2 ^ (N + 2 - m) = 2 ^ (N + 2) + m := by
  induction m generalizing qs with
  | zero =>
    have : qs = [] := by simpa using h
    subst this
    simp [friProverHashes]
  | succ m ih =>
    rw [show 2 * (m + 1) = 2 * m + 1 + 1 by ring, List.range_succ, List.range_succ, List.map_append, List.map_append] at h
    simp only [List.map_cons, List.map_nil, List.append_assoc, List.cons_append, List.nil_append] at h
    rw [show 2 * m / 2 = m by omega, show (2 * m + 1) / 2 = m by omega] at h
    obtain ⟨l1, l2, rfl, e1, e2⟩ := List.map_eq_append_iff.1 h
    obtain ⟨a, l3, rfl, ea, e3⟩ := List.map_eq_cons_iff.1 e2
    obtain ⟨b, l4, rfl, eb, e4⟩ := List.map_eq_cons_iff.1 e3
    have e4 : l4 = [] := by simpa using e4
    subst e4
    have hlen : l1.length % 2 = 0 := by
      have := congrArg List.length e1
      simp at this
      omega
    have := ih l1 e1 (by omega)
    rw [friProverHashes_append l1 a b hlen, ea, treeHashes]
    have p1 : 2 ^ (N + 2 - m) = 4 * 2 ^ (N - m) := by rw [show N + 2 - m = (N - m) + 2 by omega]; ring
    have p2 : 2 ^ (N + 2 - (m + 1)) = 2 * 2 ^ (N - m) := by rw [show N + 2 - (m + 1) = (N - m) + 1 by omega]; ring
    have p3 : 0 < 2 ^ (N - m) := by positivity
    omega

section
variable {inst : InstanceProperties F} {n k f e o : ℕ}

/-- **C80** (closed form). Proving a runnable instance with `n` registers, `2^k` rows and constraints of degree up to `2^f`, with LDE factor `2^e` and `2^o` final
coefficients, takes exactly `(n + 2) * 2^(k+e+1) + 3 * 2^(k+f+e+1) - 2^(e+o+2)` hash calls for the trees and their openings, up to one for each FRI layer, and
those of the transcript — whatever the witness, the number of CPUs and the hash function. -/
theorem C80_honest (w : Worker) (h : Runnable inst n k f) (hp : ProverParams F k f e o) (hout : o < k) (witness : List (List F))
    (hw : IsTable witness n (2 ^ k)) (prover : Prover F) (hprover : Prover.new w inst (2 ^ e) (2 ^ o) = .ok prover)
    (proof : InstanceProof F) (hproof : prover.prove H witness = .ok proof) :
    (prover.proveT H witness).hashes + 2 ^ (e + o + 2) =
      (n + 2) * 2 ^ (k + e + 1) + 3 * 2 ^ (k + f + e + 1) + (k - o + 1) + (k + f - o + 1) +
        (2 * inst.constraints.length + 2 * inst.boundaryConstraints.length + (readPairs inst (2 ^ k)).toFinset.card + 3) := by
  obtain ⟨a1, a2, a3, a4, a5, a6, a7, idx1, idx2, -, -, -, -, b1, -, b2, s1, s2⟩ := C73_shape H w h hp hout witness hw prover hprover proof hproof
  rw [(C80_any_proof H w inst _ _ prover hprover witness).2 proof hproof, a1]
  have q1 := friProverHashes_paths _ _ _ s1.paths (by omega)
  have q2 := friProverHashes_paths _ _ _ s2.paths (by omega)
  have op : ∀ q : IopQuery F, openedTreeHashes q = 2 ^ (q.path.length + 1) := by
    intro q
    have : 0 < 2 ^ q.path.length := by positivity
    rw [openedTreeHashes, treeHashes, pow_succ]
    omega
  have pf : (proof.fQueries.map openedTreeHashes).sum = n * 2 ^ (k + e + 1) := by
    rw [List.sum_eq_card_nsmul (proof.fQueries.map openedTreeHashes) (2 ^ (k + e + 1)) (by
      intro x hx
      obtain ⟨q, hq, rfl⟩ := List.mem_map.1 hx
      rw [op, (b1 q hq).2]), List.length_map, a3, smul_eq_mul]
  unfold treesHashes transcriptHashes
  rw [pf, op, b2]
  rw [show k + e + 2 - (k - o + 1) = e + o + 1 by omega] at q1
  rw [show k + f + e + 2 - (k + f - o + 1) = e + o + 1 by omega] at q2
  have r1 : 2 ^ (e + o + 2) = 2 * 2 ^ (e + o + 1) := by ring
  have r2 : 2 ^ (k + e + 2) = 2 * 2 ^ (k + e + 1) := by ring
  have r3 : 2 ^ (k + f + e + 2) = 2 * 2 ^ (k + f + e + 1) := by ring
  rw [r1, Nat.add_mul]
  rw [r2] at q1
  rw [r3] at q2
  omega

end

/-- A run: the Fibonacci instance with 4 rows is proved on one and on three CPUs. -/
def proverCostRun (w : Worker) : Res (ℕ × Bool) := do
  let prover ← Prover.new w (fibInst Fr 2 1 1) 2 1
  let proof ← (prover.proveT toyHash [[1, 1, 2, 3], [1, 2, 3, 5]]).res
  let v ← Verifier.new (fibInst Fr 2 1 1) 2
  let r ← v.verify toyHash proof
  pure ((prover.proveT toyHash [[1, 1, 2, 3], [1, 2, 3, 5]]).hashes + 2 ^ (1 + 0 + 2), r)

/-- The proof is accepted, and proving has taken exactly the hash calls of `C80_honest` (here `n = k = 2`, `e = 1`, `f = o = 0`). -/
example : proverCostRun ⟨1, by norm_num⟩ = .ok ((2 + 2) * 2 ^ (2 + 1 + 1) + 3 * 2 ^ (2 + 0 + 1 + 1) + (2 - 0 + 1) + (2 + 0 - 0 + 1) +
    (2 * 2 + 2 * 2 + (readPairs (fibInst Fr 2 1 1) 4).toFinset.card + 3), true) := by decide +kernel

example : proverCostRun ⟨3, by norm_num⟩ = .ok ((2 + 2) * 2 ^ (2 + 1 + 1) + 3 * 2 ^ (2 + 0 + 1 + 1) + (2 - 0 + 1) + (2 + 0 - 0 + 1) +
    (2 * 2 + 2 * 2 + (readPairs (fibInst Fr 2 1 1) 4).toFinset.card + 3), true) := by decide +kernel

end Hodor

import Verif.Lemmas.Oracle
import Verif.Lemmas.RunAnyV
import Verif.Lemmas.ProveOutcome
import Verif.Lemmas.Draws

/-!
# Lemmas: the strings which a run of `prove` hashes up to the out-of-domain point
-/

namespace Hodor

open Finset Spec

variable {F : Type} [Field F] [DecidableEq F] [StarkField F]

/-! ## Trees -/

section
omit [DecidableEq F]

/-- The string hashed for node `i` at height `d` of the tree over `leaf`. -/
def nodeStr (h : List UInt8 → Digest) (leaf : ℕ → F) : ℕ → ℕ → List UInt8
  | 0, i => encodeLeaf (leaf i)
  | d + 1, i => (h (nodeStr h leaf d (2 * i))).bytes ++ (h (nodeStr h leaf d (2 * i + 1))).bytes

theorem merkle_nodeStr (h : List UInt8 → Digest) (leaf : ℕ → F) (d i : ℕ) :
    merkle h (fun i => h (encodeLeaf (leaf i))) d i = h (nodeStr h leaf d i) := by
  induction d generalizing i with
  | zero => rfl
  | succ d ih => simp only [merkle, nodeStr, ih]

theorem rootOf_nodeStr (h : List UInt8 → Digest) (leaf : ℕ → F) (m : ℕ) : rootOf h m leaf = h (nodeStr h leaf m 0) := merkle_nodeStr h leaf m 0

theorem length_nodeStr (hb : numBits F < 256) (h : List UInt8 → Digest) (leaf : ℕ → F) (d i : ℕ) :
    (nodeStr h leaf d i).length = if d = 0 then 32 else 64 := by
  cases d with
  | zero => rw [if_pos rfl]; exact length_encodeLeaf hb _
  | succ d => rw [if_neg (by omega), nodeStr, List.length_append, Digest.len, Digest.len]

theorem length_nodeStr_le (hb : numBits F < 256) (h : List UInt8 → Digest) (leaf : ℕ → F) (d i : ℕ) : (nodeStr h leaf d i).length ≤ 64 := by
  rw [length_nodeStr hb]; split_ifs <;> omega

theorem nodeStr_congr (h h' : List UInt8 → Digest) (leaf : ℕ → F) (K d i : ℕ) (hd : d ≤ K) (hi : i < 2 ^ (K - d))
    (ha : ∀ d', d' < d → ∀ j, j < 2 ^ (K - d') → h (nodeStr h leaf d' j) = h' (nodeStr h leaf d' j)) : nodeStr h' leaf d i = nodeStr h leaf d i := by
  induction d generalizing i with
  | zero => rfl
  | succ d ih =>
    have h2 : 2 ^ (K - d) = 2 * 2 ^ (K - (d + 1)) := by rw [← pow_succ']; congr 1; omega
    have e1 := ih (2 * i) (by omega) (by omega) (fun d' hd' => ha d' (by omega))
    have e2 := ih (2 * i + 1) (by omega) (by omega) (fun d' hd' => ha d' (by omega))
    simp only [nodeStr, e1, e2]
    rw [ha d (by omega) (2 * i) (by omega), ha d (by omega) (2 * i + 1) (by omega)]

theorem nodeStr_leaf_congr (h : List UInt8 → Digest) (leaf leaf' : ℕ → F) (K d i : ℕ) (hd : d ≤ K) (hi : i < 2 ^ (K - d))
    (hl : ∀ j, j < 2 ^ K → leaf j = leaf' j) : nodeStr h leaf d i = nodeStr h leaf' d i := by
  induction d generalizing i with
  | zero => simp only [nodeStr]; rw [hl i (by simpa using hi)]
  | succ d ih =>
    have h2 : 2 ^ (K - d) = 2 * 2 ^ (K - (d + 1)) := by rw [← pow_succ']; congr 1; omega
    simp only [nodeStr, ih (2 * i) (by omega) (by omega), ih (2 * i + 1) (by omega) (by omega)]

/-- The nodes of a tree of height `K`. -/
abbrev Nodes (K : ℕ) : Type := Σ d : Fin (K + 1), Fin (2 ^ (K - d.1))

theorem card_nodes (K : ℕ) : Nat.card (Nodes K) + 1 = 2 ^ (K + 1) := by
  rw [Nat.card_eq_fintype_card, Fintype.card_sigma]
  simp only [Fintype.card_fin]
  rw [Fin.sum_univ_eq_sum_range (fun d => 2 ^ (K - d)) (K + 1)]
  have := Finset.sum_range_reflect (fun d => 2 ^ d) (K + 1)
  simp only [Nat.add_sub_cancel] at this
  have h2 : ∑ x ∈ range (K + 1), 2 ^ (K - x) = ∑ j ∈ range (K + 1), 2 ^ (K + 1 - 1 - j) := by simp
  rw [h2, Finset.sum_range_reflect (fun d => 2 ^ d) (K + 1), Nat.geomSum_eq (le_refl 2)]
  have : 0 < 2 ^ (K + 1) := by positivity
  simp
  omega

theorem treeHashed_iff (h : List UInt8 → Digest) (leaf : ℕ → F) (K : ℕ) (x : List UInt8) :
    TreeHashed h leaf K x ↔ ∃ p : Nodes K, x = nodeStr h leaf p.1 p.2 := by
  constructor
  · rintro (⟨i, hi⟩ | ⟨d, i, hd, hi⟩)
    · exact ⟨⟨⟨0, by omega⟩, ⟨i, hi⟩⟩, rfl⟩
    · refine ⟨⟨⟨d + 1, by omega⟩, ⟨i, hi⟩⟩, ?_⟩
      rw [merkle_nodeStr, merkle_nodeStr]
      rfl
  · rintro ⟨⟨⟨d, hd⟩, ⟨i, hi⟩⟩, rfl⟩
    cases d with
    | zero => exact TreeHashed.leaf i hi
    | succ d =>
      have := TreeHashed.node (H := h) (leaf := leaf) (k := K) d i (by omega) hi
      rw [merkle_nodeStr, merkle_nodeStr] at this
      exact this

end

/-! ## Transcripts -/

/-- The string from which challenge `i` is drawn, if challenge `0` is drawn from `s`. -/
def drawStr (h : List UInt8 → Digest) (s : List UInt8) : ℕ → List UInt8
  | 0 => s
  | i + 1 => drawStr h s i ++ (h (drawStr h s i)).bytes

theorem length_drawStr (h : List UInt8 → Digest) (s : List UInt8) (i : ℕ) : (drawStr h s i).length = s.length + 32 * i := by
  induction i with
  | zero => rfl
  | succ i ih => rw [drawStr, List.length_append, Digest.len, ih]; ring

theorem drawStr_add (h : List UInt8 → Digest) (s : List UInt8) (i j : ℕ) : drawStr h (drawStr h s i) j = drawStr h s (i + j) := by
  induction j with
  | zero => rfl
  | succ j ih => rw [← Nat.add_assoc, drawStr, drawStr, ih]

theorem drawStr_congr (h h' : List UInt8 → Digest) (s : List UInt8) (i : ℕ) (ha : ∀ j, j < i → h (drawStr h s j) = h' (drawStr h s j)) : drawStr h' s i = drawStr h s i := by
  induction i with
  | zero => rfl
  | succ i ih => rw [drawStr, drawStr, ih (fun j hj => ha j (by omega)), ha i (by omega)]

section
omit [DecidableEq F]

/-- The first `m` challenges. -/
noncomputable def drawnList (F : Type) [Field F] [StarkField F] (h : List UInt8 → Digest) (s : List UInt8) (m : ℕ) : List F := tab m (fun i => challengeOf F (h (drawStr h s i)))

theorem drawnList_succ (h : List UInt8 → Digest) (s : List UInt8) (m : ℕ) :
    drawnList F h s (m + 1) = challengeOf F (h s) :: drawnList F h (drawStr h s 1) m := by
  unfold drawnList
  apply List.ext_getElem
  · simp [tab]
  · intro i h1 h2
    cases i with
    | zero => simp [tab, drawStr]
    | succ i =>
      simp only [tab, List.getElem_map, List.getElem_range, List.getElem_cons_succ]
      rw [drawStr_add, Nat.add_comm]

theorem draws_iff (hc : ChallengeOk F) (h : List UInt8 → Digest) (t : Transcript) (l : List F) (t' : Transcript) :
    Draws h t l t' ↔ l = drawnList F h t.absorbed l.length ∧ t' = ⟨drawStr h t.absorbed l.length⟩ := by
  induction l generalizing t with
  | nil =>
    simp only [Draws, List.length_nil, drawStr]
    exact ⟨fun e => ⟨rfl, e⟩, fun e => e.2⟩
  | cons c l ih =>
    simp only [Draws, getChallenge_ok h hc, List.length_cons, drawnList_succ, Res.ok.injEq, Prod.mk.injEq, List.cons.injEq]
    have e1 : (nextT h t).absorbed = drawStr h t.absorbed 1 := rfl
    constructor
    · rintro ⟨t1, ⟨rfl, rfl⟩, hd⟩
      obtain ⟨h1, h2⟩ := (ih _).1 hd
      rw [e1] at h1 h2
      rw [drawStr_add, Nat.add_comm] at h2
      exact ⟨⟨rfl, h1⟩, h2⟩
    · rintro ⟨⟨rfl, h1⟩, h2⟩
      refine ⟨_, ⟨rfl, rfl⟩, (ih _).2 ⟨by rw [e1]; exact h1, ?_⟩⟩
      rw [e1, drawStr_add, Nat.add_comm]
      exact h2

theorem afterN_drawStr (h : List UInt8 → Digest) (n : ℕ) (t : Transcript) : afterN h n t = ⟨drawStr h t.absorbed (2 * n)⟩ := by
  induction n generalizing t with
  | zero => rfl
  | succ n ih =>
    rw [afterN, ih]
    show Transcript.mk (drawStr h (drawStr h t.absorbed 2) (2 * n)) = _
    rw [drawStr_add]
    congr 2
    ring

theorem pairsAt_ofFn (h : List UInt8 → Digest) (n : ℕ) (t : Transcript) :
    pairsAt F h n t = List.ofFn (fun j : Fin n => (challengeOf F (h (drawStr h t.absorbed (2 * j))), challengeOf F (h (drawStr h t.absorbed (2 * j + 1))))) := by
  induction n generalizing t with
  | zero => rfl
  | succ n ih =>
    rw [pairsAt, ih, List.ofFn_succ]
    refine congrArg₂ _ rfl ?_
    congr 1
    funext j
    have e : (nextT h (nextT h t)).absorbed = drawStr h t.absorbed 2 := rfl
    rw [e, drawStr_add, drawStr_add]
    have : ((Fin.succ j : Fin (n + 1)) : ℕ) = j + 1 := rfl
    rw [this]
    congr 4
    all_goals (try ring_nf)

end

/-! ## The strings of a run -/

/-- What is hashed: the nodes of the trees over `n` words, the constraint and boundary challenges, the nodes of the tree over the composition, the point. -/
abbrev RunIdx (n K nc nb K' : ℕ) : Type := (Fin n × Nodes K) ⊕ ((Fin nc × Fin 2) ⊕ (Fin nb × Fin 2)) ⊕ Nodes K' ⊕ Unit

section
variable (n K nc nb K' : ℕ) (W : ℕ → ℕ → F) (gw : List F → ℕ → F)

/-- The transcript after the roots of the words. -/
def baseStr (h : List UInt8 → Digest) : List UInt8 := (tab n (fun r => (h (nodeStr h (W r) K 0)).bytes)).flatten

/-- Which challenge. -/
def drawPos : (Fin nc × Fin 2) ⊕ (Fin nb × Fin 2) → ℕ
  | .inl (j, b) => 2 * j + b
  | .inr (j, b) => 2 * nc + 2 * j + b

theorem drawPos_lt (p : (Fin nc × Fin 2) ⊕ (Fin nb × Fin 2)) : drawPos nc nb p < 2 * (nc + nb) := by
  rcases p with ⟨j, b⟩ | ⟨j, b⟩ <;> simp only [drawPos] <;> have := j.2 <;> have := b.2 <;> omega

theorem drawPos_surj {i : ℕ} (hi : i < 2 * (nc + nb)) : ∃ p, drawPos nc nb p = i := by
  by_cases h : i < 2 * nc
  · exact ⟨.inl (⟨i / 2, by omega⟩, ⟨i % 2, by omega⟩), by simp only [drawPos]; omega⟩
  · exact ⟨.inr (⟨(i - 2 * nc) / 2, by omega⟩, ⟨(i - 2 * nc) % 2, by omega⟩), by simp only [drawPos]; omega⟩

theorem drawPos_inj : Function.Injective (drawPos nc nb) := by
  rintro (⟨j, b⟩ | ⟨j, b⟩) (⟨j', b'⟩ | ⟨j', b'⟩) h <;> simp only [drawPos] at h <;>
    have := j.2 <;> have := b.2 <;> have := j'.2 <;> have := b'.2
  · have : j = j' := Fin.ext (by omega)
    have : b = b' := Fin.ext (by omega)
    simp [*]
  · omega
  · omega
  · have : j = j' := Fin.ext (by omega)
    have : b = b' := Fin.ext (by omega)
    simp [*]

/-- The word of the composition. -/
noncomputable def gLeaf (h : List UInt8 → Digest) : ℕ → F := gw (drawnList F h (baseStr n K W h) (2 * (nc + nb)))

/-- The string from which the point is drawn. -/
noncomputable def pointStr (h : List UInt8 → Digest) : List UInt8 :=
  drawStr h (baseStr n K W h) (2 * (nc + nb)) ++ (h (nodeStr h (gLeaf n K nc nb W gw h) K' 0)).bytes

/-- The strings. -/
noncomputable def runStr : RunIdx n K nc nb K' → (List UInt8 → Digest) → List UInt8
  | .inl (r, p), h => nodeStr h (W r) p.1 p.2
  | .inr (.inl p), h => drawStr h (baseStr n K W h) (drawPos nc nb p)
  | .inr (.inr (.inl p)), h => nodeStr h (gLeaf n K nc nb W gw h) p.1 p.2
  | .inr (.inr (.inr _)), h => pointStr n K nc nb K' W gw h

/-- The order of hashing. -/
def runRank : RunIdx n K nc nb K' → ℕ
  | .inl (_, p) => p.1
  | .inr (.inl p) => K + 1 + drawPos nc nb p
  | .inr (.inr (.inl p)) => K + 1 + 2 * (nc + nb) + p.1
  | .inr (.inr (.inr _)) => K + 1 + 2 * (nc + nb) + K' + 1

omit [DecidableEq F] in
theorem length_baseStr (h : List UInt8 → Digest) : (baseStr n K W h).length = 32 * n := by
  unfold baseStr
  rw [List.length_flatten, tab, List.map_map]
  have : (List.length ∘ fun r => (h (nodeStr h (W r) K 0)).bytes) = fun _ => 32 := funext (fun r => Digest.len _)
  rw [this]
  simp [Nat.mul_comm]

omit [DecidableEq F] in
theorem length_pointStr (h : List UInt8 → Digest) : (pointStr n K nc nb K' W gw h).length = 32 * (n + 2 * (nc + nb) + 1) := by
  rw [pointStr, List.length_append, Digest.len, length_drawStr, length_baseStr]
  ring

omit [DecidableEq F] in
theorem length_runStr (hb : numBits F < 256) (hn : 0 < n) (hnc : 0 < nc) (i : RunIdx n K nc nb K') (h : List UInt8 → Digest) :
    (runStr n K nc nb K' W gw i h).length ≤ 32 * (n + 2 * (nc + nb) + 1) := by
  rcases i with ⟨r, p⟩ | p | p | u
  · exact (length_nodeStr_le hb _ _ _ _).trans (by omega)
  · show (drawStr _ _ _).length ≤ _
    rw [length_drawStr, length_baseStr]
    have := drawPos_lt nc nb p
    omega
  · exact (length_nodeStr_le hb _ _ _ _).trans (by omega)
  · exact (length_pointStr ..).le

omit [DecidableEq F] in
theorem runStr_dep (i : RunIdx n K nc nb K') (h h' : List UInt8 → Digest)
    (ha : ∀ a, runRank n K nc nb K' a < runRank n K nc nb K' i → h (runStr n K nc nb K' W gw a h) = h' (runStr n K nc nb K' W gw a h)) :
    runStr n K nc nb K' W gw i h' = runStr n K nc nb K' W gw i h := by
  have hf : ∀ r : Fin n, ∀ d j, d < runRank n K nc nb K' i → d ≤ K → j < 2 ^ (K - d) → h (nodeStr h (W r) d j) = h' (nodeStr h (W r) d j) := by
    intro r d j h1 h2 h3
    exact ha (.inl (r, ⟨⟨d, by omega⟩, ⟨j, h3⟩⟩)) h1
  have hbase : K < runRank n K nc nb K' i → baseStr n K W h' = baseStr n K W h := by
    intro hK
    unfold baseStr
    congr 1
    apply tab_congr
    intro r hr
    rw [nodeStr_congr h h' (W r) K K 0 le_rfl (by simp) (fun d' hd' j hj => hf ⟨r, hr⟩ d' j (by omega) (by omega) hj), ← hf ⟨r, hr⟩ K 0 (by omega) le_rfl (by simp)]
  have hd : ∀ j, j < 2 * (nc + nb) → K + 1 + j < runRank n K nc nb K' i →
      h (drawStr h (baseStr n K W h) j) = h' (drawStr h (baseStr n K W h) j) := by
    intro j hj hr
    obtain ⟨p, rfl⟩ := drawPos_surj nc nb hj
    exact ha (.inr (.inl p)) hr
  have hdraw : ∀ j, j ≤ 2 * (nc + nb) → K + 1 + j ≤ runRank n K nc nb K' i →
      drawStr h' (baseStr n K W h') j = drawStr h (baseStr n K W h) j := by
    intro j hj hr
    rw [hbase (by omega)]
    exact drawStr_congr h h' _ j (fun j' hj' => hd j' (by omega) (by omega))
  have hgl : K + 1 + 2 * (nc + nb) ≤ runRank n K nc nb K' i → gLeaf n K nc nb W gw h' = gLeaf n K nc nb W gw h := by
    intro hr
    unfold gLeaf drawnList
    congr 1
    apply tab_congr
    intro j hj
    rw [hdraw j (by omega) (by omega), hd j hj (by omega)]
  rcases i with ⟨r, p⟩ | p | p | u
  · exact nodeStr_congr h h' (W r) K p.1 p.2 (by omega) p.2.2 (fun d' hd' j hj => hf r d' j hd' (by omega) hj)
  · exact hdraw _ (drawPos_lt nc nb p).le le_rfl
  · show nodeStr h' (gLeaf n K nc nb W gw h') p.1 p.2 = nodeStr h (gLeaf n K nc nb W gw h) p.1 p.2
    rw [hgl (by simp only [runRank]; omega)]
    refine nodeStr_congr h h' _ K' p.1 p.2 (by omega) p.2.2 (fun d' hd' j hj => ?_)
    exact ha (.inr (.inr (.inl ⟨⟨d', by omega⟩, ⟨j, hj⟩⟩))) (by simp only [runRank]; omega)
  · show pointStr n K nc nb K' W gw h' = pointStr n K nc nb K' W gw h
    have hg : ∀ d j, d ≤ K' → j < 2 ^ (K' - d) → h (nodeStr h (gLeaf n K nc nb W gw h) d j) = h' (nodeStr h (gLeaf n K nc nb W gw h) d j) := by
      intro d j h1 h2
      exact ha (.inr (.inr (.inl ⟨⟨d, by omega⟩, ⟨j, h2⟩⟩))) (by simp only [runRank]; omega)
    unfold pointStr
    rw [hdraw _ le_rfl (by simp only [runRank]; omega), hgl (by simp only [runRank]; omega),
      nodeStr_congr h h' _ K' K' 0 le_rfl (by simp) (fun d' hd' j hj => hg d' j (by omega) hj), ← hg K' 0 le_rfl (by simp)]

end

/-! ## The code's own runs -/

theorem foldl_commit (l : List Digest) (t : Transcript) :
    l.foldl (fun t r => t.commitBytes r.bytes) t = ⟨t.absorbed ++ (l.map (fun r => r.bytes)).flatten⟩ := by
  induction l generalizing t with
  | nil => simp
  | cons d l ih => rw [List.foldl_cons, ih]; simp [Transcript.commitBytes]

omit [DecidableEq F] in
theorem afterRoots_base (n K : ℕ) (W : ℕ → ℕ → F) (H : List UInt8 → Digest) :
    (tab n (fun r => H (nodeStr H (W r) K 0))).foldl (fun (t : Transcript) r => t.commitBytes r.bytes) ⟨[]⟩ = ⟨baseStr n K W H⟩ := by
  rw [foldl_commit, map_tab]
  rfl

omit [DecidableEq F] in
theorem create_root (H : List UInt8 → Digest) (w : Worker) {K : ℕ} (hK : 1 ≤ K) (leaf : ℕ → F) :
    ∃ tree, IopTree.create H w (tab (2 ^ K) leaf) = .ok tree ∧ tree.getRoot = .ok (H (nodeStr H leaf K 0)) := by
  obtain ⟨K, rfl⟩ := Nat.exists_eq_add_of_le' hK
  refine ⟨_, create_tab H w K leaf, ?_⟩
  rw [getRoot_eq, merkle_nodeStr]

omit [DecidableEq F] in
theorem friRoot_nodeStr (H : List UInt8 → Digest) (K : ℕ) (q : Polynomial F) (leaf : ℕ → F) (hl : ∀ i, i < 2 ^ K → q.eval (genOf F K ^ i) = leaf i) :
    friRoot H K q 0 = H (nodeStr H leaf K 0) := by
  show rootOf H (K - 0) (friVals (K - 0) q) = _
  rw [Nat.sub_zero, rootOf_nodeStr]
  rw [nodeStr_leaf_congr H (friVals K q) leaf K K 0 le_rfl (by simp) (fun j hj => hl j hj)]

/-- The strings which the runs of `prove` on a table hash, with all hash functions at once. -/
theorem run_strings (w : Worker) (inst : InstanceProperties F) (n k f e o : ℕ) (h : Runnable inst n k f)
    (hp : ProverParams F k f e o) (witness : List (List F)) (ht : IsTable witness n (2 ^ k)) :
    ∃ (prover : Prover F) (ps : List (Poly F .coefficients)) (W : ℕ → ℕ → F) (gp : List F → ℕ → F) (gw : List F → ℕ → F),
      Prover.new w inst (2 ^ e) (2 ^ o) = .ok prover ∧ calculateWitnessPolys prover.arp witness w = .ok ps ∧ ∀ H : List UInt8 → Digest,
      prover.ali.calculateG H ⟨baseStr n (k + e) W H⟩ ps w
        = .ok (mkPoly .coefficients (k + f) (gp (drawnList F H (baseStr n (k + e) W H) (2 * (inst.constraints.length + inst.boundaryConstraints.length)))),
          ⟨drawStr H (baseStr n (k + e) W H) (2 * (inst.constraints.length + inst.boundaryConstraints.length))⟩) ∧
      OpenedAt H prover w witness e (challengeOf F (H (pointStr n (k + e) inst.constraints.length inst.boundaryConstraints.length (k + f + e) W gw H))) ∧
      ∀ v proof ch d1 d2, o < k → Verifier.new inst (2 ^ e) = .ok v → prover.prove H witness = .ok proof → v.deriveChallenges H proof = .ok (ch, d1, d2) →
        afterRoots proof.fIopRoots = ⟨baseStr n (k + e) W H⟩ ∧
        ch.constraintChallenges = List.ofFn (fun j : Fin inst.constraints.length =>
          (challengeOf F (H (drawStr H (baseStr n (k + e) W H) (2 * j))), challengeOf F (H (drawStr H (baseStr n (k + e) W H) (2 * j + 1))))) ∧
        ch.boundaryChallenges = List.ofFn (fun j : Fin inst.boundaryConstraints.length =>
          (challengeOf F (H (drawStr H (baseStr n (k + e) W H) (2 * inst.constraints.length + 2 * j))),
            challengeOf F (H (drawStr H (baseStr n (k + e) W H) (2 * inst.constraints.length + 2 * j + 1))))) ∧
        ch.z = challengeOf F (H (pointStr n (k + e) inst.constraints.length inst.boundaryConstraints.length (k + f + e) W gw H)) := by
  have hS := hp.size
  have hfac := hp.factor
  have h32 := hp.size32
  have hc := hp.challenge
  have hk1 := h.two_rows
  obtain ⟨P, e1, hP, h0, -⟩ := witnessPolys_ok w (inst := arpOf inst k) h.pos ht (by omega) (by omega) h.registers h.rows
  obtain ⟨ali, e2, hali⟩ := h.fromArp w (by omega) hp.coset
  have hpr : Prover.new w inst (2 ^ e) (2 ^ o) = .ok ⟨arpOf inst k, ali, 2 ^ e, 2 ^ o, w⟩ := by
    unfold Prover.new
    rw [h.fromInstance (by omega), Res.ok_bind, e2, Res.ok_bind, Res.pure_def]
  have hlen : (ali.constraintsBatchedByDensity.flatMap (fun b => b.2)).length = inst.constraints.length := by
    rw [hali.batches, (batchesOf_perm _).length_eq]; simp [arpOf]
  have hlen' : ali.properties.boundaryConstraints.length = inst.boundaryConstraints.length := by rw [hali.props]; rfl
  set nc := inst.constraints.length with hnc
  set nb := inst.boundaryConstraints.length with hnb
  set ps := tab n (fun r => mkPoly .coefficients k (P r).coeff) with hps
  have hg : ∀ l : List F, ∃ g : ℕ → F, ∀ (H : List UInt8 → Digest) (t : Transcript), drawnList F H t.absorbed (2 * (nc + nb)) = l →
      ali.calculateG H t ps w = .ok (mkPoly .coefficients (k + f) g, ⟨drawStr H t.absorbed (2 * (nc + nb))⟩) := by
    intro l
    by_cases hl : ∃ (H : List UInt8 → Digest) (t : Transcript), drawnList F H t.absorbed (2 * (nc + nb)) = l
    · obtain ⟨H, t, hl⟩ := hl
      obtain ⟨⟨gPoly, t'⟩, hG, g, eg⟩ := (calculateG_safe (E := fun _ => False) H w (by omega) (by omega) hp.challenge hali h.maxDeg h32 h.registers
        (fun c hc => ⟨h.constraintOk c hc, by obtain ⟨d, hd, -⟩ := h.dense c hc; exact ⟨d, hd⟩⟩) h.boundary t (length_tab _ _) (by
          intro p hp'
          simp only [hps, tab, List.mem_map] at hp'
          obtain ⟨r, -, rfl⟩ := hp'
          exact ⟨_, rfl⟩ : ∀ p ∈ ps, Shaped k p)).ok
      simp only at eg
      subst eg
      obtain ⟨l1, l2, n1, n2, hd, hu⟩ := calculateG_uses hG
      have hll : (l1 ++ l2).length = 2 * (nc + nb) := by rw [List.length_append, n1, n2, hlen, hlen']; ring
      have h1 := ((draws_iff hc H t _ t').1 hd).1
      rw [hll, hl] at h1
      refine ⟨g, fun H' s hs => hu H' s _ ((draws_iff hc H' s _ _).2 ⟨?_, ?_⟩)⟩
      · rw [hll, hs, h1]
      · rw [hll]
    · exact ⟨fun _ => 0, fun H t ht' => (hl ⟨H, t, ht'⟩).elim⟩
  choose gp hgp using hg
  let W : ℕ → ℕ → F := fun r i => (P r).eval (genOf F (k + e) ^ ldeExp w e i)
  let gw : List F → ℕ → F := fun l i => evalF (2 ^ (k + f)) (gp l) (genOf F (k + f + e) ^ ldeExp w e i)
  have hlde : ∀ r, (mkPoly .coefficients k (P r).coeff).lde w (2 ^ e) = .ok (mkPoly .values (k + e) (W r)) := by
    intro r
    rw [lde_exact w (f := e) (show k + e ≤ StarkField.S F by omega) (by omega) (P r).coeff]
    congr 2
    funext i
    exact evalF_coeff (hP r) _
  have hglde : ∀ l, (mkPoly .coefficients (k + f) (gp l)).lde w (2 ^ e) = .ok (mkPoly .values (k + f + e) (gw l)) := by
    intro l
    exact lde_exact w (f := e) (show k + f + e ≤ StarkField.S F by omega) (by omega) (gp l)
  refine ⟨_, ps, W, gp, gw, hpr, e1, fun H => ?_⟩
  have hG := hgp _ H ⟨baseStr n (k + e) W H⟩ rfl
  refine ⟨hG, ?_, ?_⟩
  · have hcr := fun r => create_root H w (show 1 ≤ k + e by omega) (W r)
    choose tr htr hroot using hcr
    obtain ⟨gt, hgt, hgr⟩ := create_root H w (show 1 ≤ k + f + e by omega) (gw (drawnList F H (baseStr n (k + e) W H) (2 * (nc + nb))))
    refine ⟨ps, tab n (fun r => mkPoly .values (k + e) (W r)), tab n tr, tab n (fun r => H (nodeStr H (W r) (k + e) 0)), _, _, _, gt, _, _, e1,
      mapRes_tab _ _ _ _ (fun r _ => hlde r), mapRes_tab _ _ _ _ (fun r _ => htr r), mapRes_tab _ _ _ _ (fun r _ => hroot r), ?_, hglde _, hgt, hgr,
      getChallenge_ok H hc _⟩
    unfold afterRoots
    rw [afterRoots_base]
    exact hG
  · intro v proof ch d1 d2 hout hver hproof hch
    obtain ⟨v', e3, hver'⟩ := h.newVerifier (show k + f ≤ StarkField.S F by omega) (2 ^ e)
    rw [hver] at e3
    cases e3
    obtain ⟨Q, G, L, ms, Q1, Q2, idx1, idx2, hQ, eps, hms, hGd, ⟨-, eg⟩, hl, -, -, -, -, -, i1, i2, -, -, -, -, rfl⟩ :=
      prove_word_lde H w h hp hout e1 hP hpr hproof
    have hroot : ∀ r, friRoot H (k + e) (Q r) 0 = H (nodeStr H (W r) (k + e) 0) := fun r => friRoot_nodeStr H _ _ _ (hQ r)
    have ht1 : runT1 H n k e Q = ⟨baseStr n (k + e) W H⟩ := by
      unfold runT1
      simp only [hroot]
      exact afterRoots_base n (k + e) W H
    rw [derive_word H hp hver' eps i1 i2] at hch
    cases hch
    rw [ht1] at eg
    have hGG : mkPoly .coefficients (k + f) G.coeff = mkPoly .coefficients (k + f) (gp (drawnList F H (baseStr n (k + e) W H) (2 * (nc + nb)))) := by
      have a := eg.symm.trans hG
      exact (Prod.mk.inj (Res.ok.inj a)).1
    rw [hGG, hglde] at hl
    have hL : friRoot H (k + f + e) L 0 = H (nodeStr H (gw (drawnList F H (baseStr n (k + e) W H) (2 * (nc + nb)))) (k + f + e) 0) := by
      refine friRoot_nodeStr H _ _ _ (fun i hi => ?_)
      have := congrArg (fun p : Poly F .values => p.coeffs[i]?) (Res.ok.inj hl)
      simp only [mkPoly_coeffs, getElem?_tab, if_pos hi, Option.some.injEq] at this
      exact this.symm
    refine ⟨?_, ?_, ?_, ?_⟩
    · show (tab n (fun r => friRoot H (k + e) (Q r) 0)).foldl (fun (t : Transcript) r => t.commitBytes r.bytes) ⟨[]⟩ = _
      exact ht1
    · show pairsAt F H nc (runT1 H n k e Q) = _
      rw [ht1, pairsAt_ofFn]
    · show pairsAt F H nb (afterN H nc (runT1 H n k e Q)) = _
      rw [ht1, afterN_drawStr, pairsAt_ofFn]
      simp only [drawStr_add, Nat.add_assoc]
    · show runZ H inst n k f e Q L = _
      unfold runZ runT2 chal
      rw [ht1, afterN_drawStr, afterN_drawStr, hL]
      show challengeOf F (H (drawStr H (drawStr H _ (2 * nc)) (2 * nb) ++ _)) = challengeOf F (H (drawStr H _ (2 * (nc + nb)) ++ _))
      rw [drawStr_add, ← Nat.mul_add]
      rfl

end Hodor

import Verif.Spec.ReadParts
import Verif.Lemmas.ProverRun
import Verif.Lemmas.VerifyP
import Verif.Props.Verify

/-!
# C85: which parts of a proof the verdict depends on
-/

namespace Hodor

open Spec

section
variable {F : Type} [Field F] [DecidableEq F] [StarkField F] (H : List UInt8 → Digest)

/-! ### Lemmas -/

theorem clog_of_same {a b : ℕ} (h : ∀ k, a ≤ 2 ^ k ↔ b ≤ 2 ^ k) : Nat.clog 2 a = Nat.clog 2 b := by
  apply le_antisymm
  · exact (Nat.clog_le_iff_le_pow (by norm_num)).2 ((h _).2 (Nat.le_pow_clog (by norm_num) _))
  · exact (Nat.clog_le_iff_le_pow (by norm_num)).2 ((h _).1 (Nat.le_pow_clog (by norm_num) _))

theorem chunksExact_getElem? {α : Type} (n : ℕ) (l : List α) (i : ℕ) :
    (chunksExact n l)[i]? = if i < l.length / n then some ((l.drop (i * n)).take n) else none := by
  unfold chunksExact tab
  by_cases h : i < l.length / n
  · rw [if_pos h]; simp [h]
  · rw [if_neg h]; simp [h]

omit [Field F] [DecidableEq F] [StarkField F] in
/-- Rounds without root or without openings are not visited. -/
theorem rounds_congr {p q : FriProof F} (h : SameFri p q) :
    p.roots.zip (chunksExact 2 p.queries) = q.roots.zip (chunksExact 2 q.queries) := by
  apply List.ext_getElem?
  intro i
  have hr := h.rounds
  by_cases hi : i < friRounds p
  · have h1 := h.roots i hi
    have h2 : (p.queries.drop (i * 2)).take 2 = (q.queries.drop (i * 2)).take 2 := by
      apply List.ext_getElem?
      intro j
      by_cases hj : j < 2
      · rw [List.getElem?_take_of_lt hj, List.getElem?_take_of_lt hj, List.getElem?_drop, List.getElem?_drop]
        exact h.openings _ (by omega)
      · rw [List.getElem?_take_eq_none (by omega), List.getElem?_take_eq_none (by omega)]
    have a : i < p.queries.length / 2 := by unfold friRounds at hi; omega
    have b : i < q.queries.length / 2 := by rw [hr] at hi; unfold friRounds at hi; omega
    simp only [List.zip, List.getElem?_zipWith, chunksExact_getElem?, if_pos a, if_pos b, h1, h2]
  · have a : (p.roots.zip (chunksExact 2 p.queries)).length ≤ i := by
      rw [List.length_zip]
      unfold friRounds at hi
      simp only [chunksExact, tab, List.length_map, List.length_range]
      omega
    have b : (q.roots.zip (chunksExact 2 q.queries)).length ≤ i := by
      rw [hr] at hi
      rw [List.length_zip]
      unfold friRounds at hi
      simp only [chunksExact, tab, List.length_map, List.length_range]
      omega
    rw [List.getElem?_eq_none a, List.getElem?_eq_none b]

omit [Field F] [DecidableEq F] [StarkField F] in
theorem claims_congr {α : Type} {masks : List α} {l l' : List F} (h : ∀ i, i < masks.length → l[i]? = l'[i]?) : masks.zip l = masks.zip l' := by
  apply List.ext_getElem?
  intro i
  by_cases hi : i < masks.length
  · simp only [List.zip, List.getElem?_zipWith, h i hi]
  · rw [List.getElem?_eq_none (by rw [List.length_zip]; omega), List.getElem?_eq_none (by rw [List.length_zip]; omega)]

/-! ### C85 -/

/-- **C85** (FRI): two FRI proofs with the same read parts have the same outcome, result, error or panic, at every position and for every expected value. -/
theorem C85_fri (p q : FriProof F) (h : SameFri p q) (idx : ℕ) (value : F) : p.verify H idx value = q.verify H idx value := by
  have h1 : friStart (F := F) p.initialDegreePlusOne p.ldeFactor idx = friStart q.initialDegreePlusOne q.ldeFactor idx := by
    unfold friStart
    rw [newForSize_congr (s := p.initialDegreePlusOne * p.ldeFactor) (s' := q.initialDegreePlusOne * q.ldeFactor)
      (congrArg (2 ^ ·) (clog_of_same h.size))]
  unfold FriProof.verify FriProof.verifyQueries
  rw [h1, rounds_congr h, h.parity, h.coefficients]

/-- Same challenges, same verdict. -/
theorem body_congr (v : Verifier F) (p q : InstanceProof F) (h : SameApart v.allMasks.length p q) (ch : Challenges F) (d1 d2 : Domain F) :
    v.verifyBody H p ch d1 d2 = v.verifyBody H q ch d1 d2 := by
  unfold Verifier.verifyBody Verifier.verifyG Verifier.simulateH1 Verifier.calculateGAtZ zValues
  rw [h.registerRoots, h.registerOpenings, h.gRoot, h.gOpening, claims_congr h.claims]
  simp only [C85_fri H _ _ h.fri1, C85_fri H _ _ h.fri2]

/-- **C85** (the read parts decide): two proofs with the same read parts have the same outcome, result, error or panic, with every verifier. -/
theorem C85_same_outcome (v : Verifier F) (p q : InstanceProof F) (h : SameRead v.allMasks.length p q) : v.verify H p = v.verify H q := by
  unfold Verifier.verify
  rw [derive_congr H v h.registerRoots h.gRoot h.last1 h.last2 h.fri1.coefficients h.fri2.coefficients]
  simp only [h.registerOpenings, h.registerRoots, body_congr H v p q h.toSameApart]

/-- **C85** (the FRI roots only move the positions): whatever the two lists of FRI roots are, they are not compared with the roots in the FRI proofs. If two proofs agree in the other read parts
and the same positions are derived, the outcome is the same. -/
theorem C85_roots_only_positions (v : Verifier F) (p q : InstanceProof F) (h : SameApart v.allMasks.length p q) (ch ch' : Challenges F)
    (d1 d2 d1' d2' : Domain F) (e : v.deriveChallenges H p = .ok (ch, d1, d2)) (e' : v.deriveChallenges H q = .ok (ch', d1', d2'))
    (h1 : ch.idx1 = ch'.idx1) (h2 : ch.idx2 = ch'.idx2) : v.verify H p = v.verify H q := by
  obtain ⟨rfl, rfl, hs⟩ := C55_challenge_schedule H v p q ch ch' d1 d2 d1' d2' e e'
  obtain ⟨a1, a2, hs⟩ := hs h.registerRoots
  obtain ⟨a3, a4, -⟩ := hs h.gRoot
  obtain rfl : ch = ch' := by cases ch; cases ch'; simp_all
  unfold Verifier.verify
  rw [e, e']
  simp only [Res.ok_bind, h.registerOpenings, h.registerRoots, body_congr H v p q h]

/-- **C85** (never unique): to every accepted proof there are infinitely many others that differ from it only in one unread number. -/
theorem C85_never_unique (v : Verifier F) (p : InstanceProof F) (ha : v.verify H p = .ok true) :
    {q : InstanceProof F | v.verify H q = .ok true ∧ ∃ m, q = { p with friProofH1 := { p.friProofH1 with outputCoeffsAtDegreePlusOne := m } }}.Infinite := by
  refine Set.infinite_of_injective_forall_mem (f := fun m : ℕ => { p with friProofH1 := { p.friProofH1 with outputCoeffsAtDegreePlusOne := m } }) ?_ ?_
  · intro a b hab
    simpa using congrArg (fun q : InstanceProof F => q.friProofH1.outputCoeffsAtDegreePlusOne) hab
  · intro m
    refine ⟨?_, m, rfl⟩
    rw [← ha]
    refine C85_same_outcome H v _ _ ⟨⟨fun _ _ => rfl, rfl, rfl, rfl, rfl, ?_, ?_⟩, rfl, rfl⟩
    · exact ⟨fun _ => Iff.rfl, rfl, rfl, fun _ _ => rfl, fun _ _ => rfl, rfl⟩
    · exact ⟨fun _ => Iff.rfl, rfl, rfl, fun _ _ => rfl, fun _ _ => rfl, rfl⟩

end

/-! ### Examples -/

/-- Another FRI proof with the same read parts: other factors of the size, another announced number of coefficients, more roots. -/
def unreadFri (d : Digest) (p : FriProof Fr) : FriProof Fr :=
  { p with initialDegreePlusOne := p.ldeFactor * p.initialDegreePlusOne, ldeFactor := 1, outputCoeffsAtDegreePlusOne := 77, roots := p.roots ++ [d, d, d] }

/-- Another proof with the same read parts. -/
def unread (d : Digest) (p : InstanceProof Fr) : InstanceProof Fr :=
  { p with fAtZM := p.fAtZM ++ [9], h1IopRoots := d :: d :: p.h1IopRoots, h2IopRoots := d :: p.h2IopRoots,
           friProofH1 := unreadFri d p.friProofH1, friProofH2 := unreadFri d p.friProofH2 }

/-- The hypotheses of `C85_same_outcome` for proofs that differ in every unread part. -/
theorem unread_same (d : Digest) (p : InstanceProof Fr) (masks : ℕ) (hm : masks ≤ p.fAtZM.length) (h1 : p.friProofH1.queries.length = 2 * p.friProofH1.roots.length)
    (h2 : p.friProofH2.queries.length = 2 * p.friProofH2.roots.length) (e1 : p.h1IopRoots ≠ []) (e2 : p.h2IopRoots ≠ []) :
    SameRead masks p (unread d p) := by
  have key : ∀ q : FriProof Fr, q.queries.length = 2 * q.roots.length → SameFri q (unreadFri d q) := by
    intro q hq
    have hr : friRounds q = friRounds (unreadFri d q) := by
      simp only [friRounds, unreadFri, List.length_append, List.length_cons, List.length_nil]; omega
    refine ⟨fun k => by simp only [unreadFri, mul_one, mul_comm], rfl, hr, ?_, fun _ _ => rfl, rfl⟩
    intro i hi
    have : i < q.roots.length := by unfold friRounds at hi; omega
    simp only [unreadFri, List.getElem?_append_left this]
  refine ⟨⟨?_, rfl, rfl, rfl, rfl, key _ h1, key _ h2⟩, ?_, ?_⟩
  · intro i hi
    simp only [unread, List.getElem?_append_left (show i < p.fAtZM.length by omega)]
  · obtain ⟨l, x, h⟩ := List.exists_cons_of_ne_nil e1
    simp only [unread, h, List.getLast?_cons_cons]
  · obtain ⟨l, x, h⟩ := List.exists_cons_of_ne_nil e2
    simp only [unread, h, List.getLast?_cons_cons]

/-- The honest proof for the Fibonacci instance meets them and is accepted. -/
def unreadVerdicts : Res (Bool × Bool × Bool) := do
  let inst := fibInst Fr 2 1 1
  let prover ← Prover.new ⟨1, by norm_num⟩ inst 2 1
  let v ← Verifier.new inst 2
  let p ← prover.prove toyHash [[1, 1, 2, 3], [1, 2, 3, 5]]
  let a ← v.verify toyHash p
  let b ← v.verify toyHash (unread (toyHash [7]) p)
  pure (decide (v.allMasks.length ≤ p.fAtZM.length ∧ p.friProofH1.queries.length = 2 * p.friProofH1.roots.length ∧
    p.friProofH2.queries.length = 2 * p.friProofH2.roots.length ∧ p.h1IopRoots ≠ [] ∧ p.h2IopRoots ≠ []), a, b)

example : unreadVerdicts = .ok (true, true, true) := by decide +kernel

/-- Each of the read parts changed on its own in the honest proof. -/
def oneChange (d : Digest) (p : InstanceProof Fr) : List (InstanceProof Fr) :=
  let f := p.friProofH1
  [{ p with fAtZM := p.fAtZM.map (· + 1) },
   { p with fIopRoots := p.fIopRoots.map (fun _ => d) },
   { p with gIopRoot := d },
   { p with fQueries := p.fQueries.map (fun q => { q with value := q.value + 1 }) },
   { p with gQuery := { p.gQuery with value := p.gQuery.value + 1 } },
   { p with friProofH1 := { f with ldeFactor := 2 * f.ldeFactor } },
   { p with friProofH1 := { f with queries := f.queries ++ [p.gQuery] } },
   { p with friProofH1 := { f with roots := [] } },
   { p with friProofH1 := { f with roots := f.roots.map (fun _ => d) } },
   { p with friProofH1 := { f with queries := f.queries.map (fun q => { q with value := q.value + 1 }) } },
   { p with friProofH1 := { f with finalCoefficients := f.finalCoefficients.map (· + 1) } },
   { p with h1IopRoots := p.h1IopRoots ++ [d] },
   { p with h2IopRoots := p.h2IopRoots ++ [d] }]

/-- Which of these are accepted. -/
def changedVerdicts : Res (List Bool) := do
  let inst := fibInst Fr 2 1 1
  let prover ← Prover.new ⟨1, by norm_num⟩ inst 2 1
  let v ← Verifier.new inst 2
  let p ← prover.prove toyHash [[1, 1, 2, 3], [1, 2, 3, 5]]
  pure ((oneChange (toyHash [7]) p).map (fun q => decide (v.verify toyHash q = .ok true)))

example : changedVerdicts = .ok (List.replicate 13 false) := by decide +kernel

end Hodor

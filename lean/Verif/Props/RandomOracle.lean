import Verif.Lemmas.OracleGame
import Verif.Props.AnyWorker
import Verif.Props.Stark
import Verif.Props.ProverOutcome
import Verif.Props.Traced
import Verif.Props.VdfVerdict
import Verif.Props.RealFields

/-!
# C91: the code's prover and verifier with a random hash function

C45, C64 and C65 say what happens with every hash function, in terms of the point and the challenges drawn. Here the hash function itself is drawn.
-/

namespace Hodor

open Finset Spec

variable {F : Type} [Field F] [DecidableEq F] [StarkField F]

section
variable (w : Worker) (inst : InstanceProperties F) (n k f e o : ℕ) (H : List UInt8 → Digest) (B : ℕ)

/-- **C91** (refusal). For every runnable instance and every table, satisfying or not: `prove` fails to return a proof with at most the share `2^(k+f+e) / 2^CAPACITY` of the hash functions,
`2^(k+f+e)` the size of the LDE domain of the combined polynomial. -/
theorem C91_refused [CharP F (StarkField.modulus F)] (h : Runnable inst n k f) (hp : ProverParams F k f e o) (hout : o < k) (witness : List (List F)) (ht : IsTable witness n (2 ^ k))
    (prover : Prover F) (hprover : Prover.new w inst (2 ^ e) (2 ^ o) = .ok prover)
    (hB : 32 * (n + 2 * (inst.constraints.length + inst.boundaryConstraints.length) + 1) ≤ B) :
    share (fun r : Oracle B => ¬ ∃ proof, prover.prove (r.hash H) witness = .ok proof) ≤ (2 ^ (k + f + e) : ℚ) / 2 ^ capacity F := by
  obtain ⟨prover', ps, W, gp, gw, e1, e2, hrun⟩ := run_strings w inst n k f e o h hp witness ht
  rw [hprover] at e1
  cases e1
  have hc := hp.challenge
  have hnc : 0 < inst.constraints.length := by
    obtain ⟨-, c, hc, -⟩ := h.degrees
    exact List.length_pos_of_mem hc
  let z : RunIdx n (k + e) inst.constraints.length inst.boundaryConstraints.length (k + f + e) := .inr (.inr (.inr ()))
  have hev : EvenlyOnto (fun v : RunIdx n (k + e) inst.constraints.length inst.boundaryConstraints.length (k + f + e) → Digest => fun _ : Unit => v z) :=
    EvenlyOnto.precomp (fun _ : Unit => z) (fun _ _ _ => rfl)
  have hev' : EvenlyOnto (fun v : Unit → Digest => v ()) := EvenlyOnto.of_equiv (Equiv.funUnique Unit Digest)
  refine le_trans ?_ (C90_point_in_domain (F := F) hc (k + f + e))
  rw [← (hev.trans hev').share]
  refine share_ranked H B (runStr n (k + e) inst.constraints.length inst.boundaryConstraints.length (k + f + e) W gw) (runRank n (k + e) _ _ (k + f + e))
    (fun i h' => (length_runStr n (k + e) _ _ (k + f + e) W gw hc.1 h.pos hnc i h').trans hB) (runStr_dep n (k + e) _ _ (k + f + e) W gw) _ _ ?_
  intro ord hinj hmon r v hP hv
  obtain ⟨p', z', e3, hz, hbad, hgood, -⟩ := prove_outcome (r.hash H) w inst n k f e o h hp witness ht
  rw [hprover] at e3
  cases e3
  have ez := openedAt_unique (r.hash H) hz (hrun (r.hash H)).2.1
  refine ⟨z', ?_, ?_⟩
  · show interpretHash (v z) = _
    rw [hv z, ez]
    · exact interpretHash_ok hc _
    · intro a ha he
      have he := congrArg List.length he
      have hz' : (runStr n (k + e) inst.constraints.length inst.boundaryConstraints.length (k + f + e) W gw z (r.hash H)).length = _ := length_pointStr ..
      rw [hz'] at he
      have := h.pos
      rcases a with ⟨r', q⟩ | q | q | u
      · have := length_nodeStr_le hc.1 (r.hash H) (W r') q.1 q.2
        simp only [runStr] at he
        omega
      · have := drawPos_lt _ _ q
        simp only [runStr, length_drawStr, length_baseStr] at he
        omega
      · have := length_nodeStr_le hc.1 (r.hash H) (gLeaf n (k + e) inst.constraints.length inst.boundaryConstraints.length W gw (r.hash H)) q.1 q.2
        simp only [runStr] at he
        omega
      · exact lt_irrefl _ ha
  · by_contra hne
    exact hP (hgood hne hout)

/-- **C91** (completeness). For every suitable instance and satisfying witness, with parameters without defect and one final FRI coefficient: with all but the share `2^(k+f+e) / 2^CAPACITY` of the hash functions, `prove`
returns a proof and `verify` accepts it. -/
theorem C91_complete [CharP F (StarkField.modulus F)] (h : Suitable inst n k f) (hp : RunParams F w k f e 0) (witness : List (List F)) (ht : IsTable witness n (2 ^ k))
    (hsat : Satisfies inst (cellR witness) (2 ^ k)) (prover : Prover F) (hprover : Prover.new w inst (2 ^ e) 1 = .ok prover) (v : Verifier F) (hver : Verifier.new inst (2 ^ e) = .ok v)
    (hB : 32 * (n + 2 * (inst.constraints.length + inst.boundaryConstraints.length) + 1) ≤ B) :
    1 - (2 ^ (k + f + e) : ℚ) / 2 ^ capacity F ≤
      share (fun r : Oracle B => ∃ proof, prover.prove (r.hash H) witness = .ok proof ∧ v.verify (r.hash H) proof = .ok true) := by
  have h1 := C91_refused w inst n k f e 0 H B h.runnable hp.prover hp.out witness ht prover hprover hB
  have h2 := share_not (fun r : Oracle B => ∃ proof, prover.prove (r.hash H) witness = .ok proof)
  have h3 : share (fun r : Oracle B => ∃ proof, prover.prove (r.hash H) witness = .ok proof) ≤
      share (fun r : Oracle B => ∃ proof, prover.prove (r.hash H) witness = .ok proof ∧ v.verify (r.hash H) proof = .ok true) := by
    refine share_mono (fun r hr => ?_)
    obtain ⟨prover', v', z, e1, e2, hz, hbad, hgood⟩ := C45_complete_partial (r.hash H) w inst n k f e h hp witness ht hsat
    rw [hprover] at e1
    cases e1
    rw [hver] at e2
    cases e2
    refine hgood (fun hz' => ?_)
    obtain ⟨proof, e3⟩ := hr
    rw [hbad hz'] at e3
    cases e3
  linarith

/-- The share of hash functions with which a false witness is accepted while no challenge is drawn from a string hashed in a tree. -/
theorem false_witness_fresh [CharP F (StarkField.modulus F)] (h : Runnable inst n k f) (hp : ProverParams F k f e o) (hout : o < k)
    (hdeg : ∀ c ∈ inst.constraints, ∀ t ∈ c.terms, termDegree t ≤ c.degree)
    (hspan : ∀ c ∈ inst.constraints, ∀ d, c.density = .dense d → ∀ t ∈ factors c, ∀ j, t.stepsDifference = .steps j → j ≤ d.span)
    (hrows : ∀ b ∈ inst.boundaryConstraints, b.atRow < inst.numRows) (witness : List (List F))
    (ht : IsTable witness n (2 ^ k)) (hbad : ¬ Satisfies inst (cellR witness) (2 ^ k))
    (prover : Prover F) (hprover : Prover.new w inst (2 ^ e) (2 ^ o) = .ok prover) (v : Verifier F) (hver : Verifier.new inst (2 ^ e) = .ok v)
    (hB : 32 * (n + 2 * (inst.constraints.length + inst.boundaryConstraints.length) + 1) ≤ B) :
    ∃ W : ℕ → ℕ → F, share (fun r : Oracle B => Fresh n (k + e) inst.constraints.length inst.boundaryConstraints.length W (r.hash H) ∧
      ∃ proof, prover.prove (r.hash H) witness = .ok proof ∧ v.verify (r.hash H) proof = .ok true) ≤
        (2 * (inst.constraints.length + inst.boundaryConstraints.length) + 2 ^ (k + f) + 2 ^ k : ℚ) / 2 ^ capacity F := by
  classical
  obtain ⟨prover', ps, W, gp, gw, e1, e2, hrun⟩ := run_strings w inst n k f e o h hp witness ht
  rw [hprover] at e1
  cases e1
  have hS := hp.size
  have hc := hp.challenge
  have hnc : 0 < inst.constraints.length := by
    obtain ⟨-, c, hc, -⟩ := h.degrees
    exact List.length_pos_of_mem hc
  refine ⟨W, ?_⟩
  let A : List (F × F) → List (F × F) → Set F := fun cc bc =>
    agreement (domOf F k).generator (2 ^ k) (2 ^ f) (polyEnv w ps) ((batchesOf prover.arp.constraints).flatMap (·.2)) inst.boundaryConstraints
      ((mkPoly .coefficients (k + f) (gp (pairChallenges cc ++ pairChallenges bc))).evaluateAt w) cc bc
  let T : List (F × F) → List (F × F) → Set F := fun cc bc => if (A cc bc).encard ≤ (2 ^ (k + f) + 2 ^ k : ℕ) then A cc bc else ∅
  let V : List (F × F) → List (F × F) → Prop := AgreesOften (domOf F k).generator (2 ^ k) (2 ^ f) (2 ^ (k + f)) (polyEnv w ps)
          ((batchesOf prover.arp.constraints).flatMap (·.2)) inst.boundaryConstraints
  have h1 := share_onlyValue (S := challengeSet F) (nc := inst.constraints.length) (nb := inst.boundaryConstraints.length) (nm := 0) (P1 := {0}) (P2 := {0}) V
  have h2 := share_point (S := challengeSet F) (nc := inst.constraints.length) (nb := inst.boundaryConstraints.length) (nm := 0) (P1 := {0}) (P2 := {0}) T (2 ^ (k + f) + 2 ^ k) (by
    intro cc bc
    show (if _ then _ else _ : Set F).encard ≤ _
    split_ifs with hle
    · exact hle
    · simp)
  have h3 := share_or_le (fun x : Draw (challengeSet F) inst.constraints.length inst.boundaryConstraints.length 0 ({0} : Finset ℕ) ({0} : Finset ℕ) =>
    V x.challenges.constraintChallenges x.challenges.boundaryChallenges ∧ OnlyValue V x.challenges.constraintChallenges x.challenges.boundaryChallenges)
    (fun x => x.challenges.z ∈ T x.challenges.constraintChallenges x.challenges.boundaryChallenges)
  refine le_trans (share_run n (k + e) inst.constraints.length inst.boundaryConstraints.length (k + f + e) W gw hc.1 hc h.pos hnc H B hB _ _ ?_) (h3.trans ((add_le_add h1 h2).trans (le_of_eq ?_)))
  · rintro r x ⟨hf, proof, hproof, hacc⟩
    refine ⟨hf, fun ecc ebc ez => ?_⟩
    obtain ⟨ch, fDom, gDom, dom, ps', G, gLde, gTree, a1, a2, a3, ⟨t', a4⟩, a5, a6, a7, hin, hluck⟩ :=
      C64_violating_needs_luck_any_worker (r.hash H) w h hp hout hdeg hspan hrows witness ht hbad prover hprover v hver proof hproof hacc
    rw [newForSize_pow (by omega)] at a2
    cases a2
    rw [e2] at a3
    cases a3
    obtain ⟨b1, -, b2⟩ := hrun (r.hash H)
    obtain ⟨c1, c2, c3, c4⟩ := b2 v proof ch fDom gDom hout hver hproof a1
    have hl := pairChallenges_ofFn (F := F) (r.hash H) (baseStr n (k + e) W (r.hash H)) inst.constraints.length inst.boundaryConstraints.length
    rw [← c2, ← c3] at hl
    rw [c1, b1, ← hl] at a4
    cases a4
    have hcc : x.challenges.constraintChallenges = ch.constraintChallenges := ecc.trans c2.symm
    have hbc : x.challenges.boundaryChallenges = ch.boundaryChallenges := ebc.trans c3.symm
    have hz : x.challenges.z = ch.z := ez.trans c4.symm
    rw [hcc, hbc, hz]
    by_cases hfew : (A ch.constraintChallenges ch.boundaryChallenges).encard ≤ (2 ^ (k + f) + 2 ^ k : ℕ)
    · right
      show _ ∈ (if _ then _ else _ : Set F)
      rw [if_pos hfew]
      exact hin
    · left
      refine ⟨?_, hluck.resolve_left hfew⟩
      set G := mkPoly (F := F) .coefficients (k + f) (gp (pairChallenges ch.constraintChallenges ++ pairChallenges ch.boundaryChallenges)) with hG
      have hGe : G.evaluateAt w = fun x => (polyOfList G.coeffs).eval x := by
        funext x
        rw [polyOfList_eval, evaluateAt_tab w G G.coeffs.length (fun i => G.coeffs.getD i 0) (eq_tab_getD _ _)]
        rfl
      have hGd : (polyOfList G.coeffs).degree < (2 ^ (k + f) : ℕ) := by
        have := polyOf_degree (F := F) G.coeffs.length (fun i => G.coeffs.getD i 0)
        have hsz : G.coeffs.length = 2 ^ (k + f) := by rw [hG]; simp
        rw [hsz] at this
        unfold polyOfList
        rw [hsz]
        exact this
      refine ⟨_, hGd, ?_⟩
      rw [← hGe]
      exact hfew
  · rw [card_challengeSet]
    push_cast
    ring

/-- **C91** (false witnesses). For every runnable instance whose terms have at most the declared degree, whose constraints reach no further than their span and whose boundary constraints lie in the table, and every witness table that violates it: with at most the share
`(2 (nc + nb) + 2^(k+f) + 2^k) / 2^CAPACITY + (n 2^(k+e+1))^2 / 2^256` of the hash functions `prove` returns a proof that `verify` accepts, `nc`, `nb` the numbers of constraints and boundary constraints. -/
theorem C91_false_witness [CharP F (StarkField.modulus F)] (h : Runnable inst n k f) (hp : ProverParams F k f e o) (hout : o < k)
    (hdeg : ∀ c ∈ inst.constraints, ∀ t ∈ c.terms, termDegree t ≤ c.degree)
    (hspan : ∀ c ∈ inst.constraints, ∀ d, c.density = .dense d → ∀ t ∈ factors c, ∀ j, t.stepsDifference = .steps j → j ≤ d.span)
    (hrows : ∀ b ∈ inst.boundaryConstraints, b.atRow < inst.numRows) (witness : List (List F))
    (ht : IsTable witness n (2 ^ k)) (hbad : ¬ Satisfies inst (cellR witness) (2 ^ k))
    (prover : Prover F) (hprover : Prover.new w inst (2 ^ e) (2 ^ o) = .ok prover) (v : Verifier F) (hver : Verifier.new inst (2 ^ e) = .ok v)
    (hB : 32 * (n + 2 * (inst.constraints.length + inst.boundaryConstraints.length) + 1) ≤ B) :
    share (fun r : Oracle B => ∃ proof, prover.prove (r.hash H) witness = .ok proof ∧ v.verify (r.hash H) proof = .ok true) ≤
      (2 * (inst.constraints.length + inst.boundaryConstraints.length) + 2 ^ (k + f) + 2 ^ k : ℚ) / 2 ^ capacity F + ((n * 2 ^ (k + e + 1)) ^ 2 : ℚ) / 2 ^ 256 := by
  obtain ⟨W, h1⟩ := false_witness_fresh w inst n k f e o H B h hp hout hdeg hspan hrows witness ht hbad prover hprover v hver hB
  have hpos := h.pos
  have hnc : 0 < inst.constraints.length := by
    obtain ⟨-, c, hc, -⟩ := h.degrees
    exact List.length_pos_of_mem hc
  have h2 := share_not_fresh n (k + e) inst.constraints.length inst.boundaryConstraints.length W hp.challenge.1 h.pos H B (by omega)
  refine le_trans (share_mono (B := fun r : Oracle B => _ ∨ _) (fun r hr => ?_)) ((share_or_le _ _).trans (add_le_add h1 h2))
  by_cases hf : Fresh n (k + e) inst.constraints.length inst.boundaryConstraints.length W (r.hash H)
  · exact .inl ⟨hf, hr⟩
  · exact .inr hf

/-- **C91** (false witnesses, three registers or more). With three registers the roots alone are longer than any string hashed in a tree, and the second term of `C91_false_witness` disappears. -/
theorem C91_false_witness_three [CharP F (StarkField.modulus F)] (h : Runnable inst n k f) (hn : 3 ≤ n) (hp : ProverParams F k f e o) (hout : o < k)
    (hdeg : ∀ c ∈ inst.constraints, ∀ t ∈ c.terms, termDegree t ≤ c.degree)
    (hspan : ∀ c ∈ inst.constraints, ∀ d, c.density = .dense d → ∀ t ∈ factors c, ∀ j, t.stepsDifference = .steps j → j ≤ d.span)
    (hrows : ∀ b ∈ inst.boundaryConstraints, b.atRow < inst.numRows) (witness : List (List F))
    (ht : IsTable witness n (2 ^ k)) (hbad : ¬ Satisfies inst (cellR witness) (2 ^ k))
    (prover : Prover F) (hprover : Prover.new w inst (2 ^ e) (2 ^ o) = .ok prover) (v : Verifier F) (hver : Verifier.new inst (2 ^ e) = .ok v)
    (hB : 32 * (n + 2 * (inst.constraints.length + inst.boundaryConstraints.length) + 1) ≤ B) :
    share (fun r : Oracle B => ∃ proof, prover.prove (r.hash H) witness = .ok proof ∧ v.verify (r.hash H) proof = .ok true) ≤
      (2 * (inst.constraints.length + inst.boundaryConstraints.length) + 2 ^ (k + f) + 2 ^ k : ℚ) / 2 ^ capacity F := by
  obtain ⟨W, h1⟩ := false_witness_fresh w inst n k f e o H B h hp hout hdeg hspan hrows witness ht hbad prover hprover v hver hB
  exact (share_mono (fun r hr => ⟨fresh_of_three n (k + e) _ _ W hp.challenge.1 hn _, hr⟩)).trans h1

/-- **C91** (the challenges of a run). Whatever the table and whatever property `R` of the constraint challenges, the boundary challenges and the point: the share of hash functions with which `prove` returns a proof whose challenges,
as the verifier derives them, have the property is at most the share of independent uniform draws from the challenges that have it, plus `(n 2^(k+e+1))^2 / 2^256`; with three registers or more this term is not needed. -/
theorem C91_challenges [CharP F (StarkField.modulus F)] (h : Runnable inst n k f) (hp : ProverParams F k f e o) (hout : o < k) (witness : List (List F)) (ht : IsTable witness n (2 ^ k))
    (prover : Prover F) (hprover : Prover.new w inst (2 ^ e) (2 ^ o) = .ok prover) (v : Verifier F) (hver : Verifier.new inst (2 ^ e) = .ok v)
    (hB : 32 * (n + 2 * (inst.constraints.length + inst.boundaryConstraints.length) + 1) ≤ B) (R : List (F × F) → List (F × F) → F → Prop) :
    share (fun r : Oracle B => ∃ proof ch d1 d2, prover.prove (r.hash H) witness = .ok proof ∧ v.deriveChallenges (r.hash H) proof = .ok (ch, d1, d2) ∧
        R ch.constraintChallenges ch.boundaryChallenges ch.z) ≤
      share (fun x : Draw (challengeSet F) inst.constraints.length inst.boundaryConstraints.length 0 {0} {0} =>
        R x.challenges.constraintChallenges x.challenges.boundaryChallenges x.challenges.z) + (if 3 ≤ n then 0 else ((n * 2 ^ (k + e + 1)) ^ 2 : ℚ) / 2 ^ 256) := by
  obtain ⟨prover', ps, W, gp, gw, e1, e2, hrun⟩ := run_strings w inst n k f e o h hp witness ht
  rw [hprover] at e1
  cases e1
  have hc := hp.challenge
  have hpos := h.pos
  have hnc : 0 < inst.constraints.length := by
    obtain ⟨-, c, hc, -⟩ := h.degrees
    exact List.length_pos_of_mem hc
  have h1 := share_run n (k + e) inst.constraints.length inst.boundaryConstraints.length (k + f + e) W gw hc.1 hc h.pos hnc H B hB
    (fun r : Oracle B => Fresh n (k + e) inst.constraints.length inst.boundaryConstraints.length W (r.hash H) ∧
      ∃ proof ch d1 d2, prover.prove (r.hash H) witness = .ok proof ∧ v.deriveChallenges (r.hash H) proof = .ok (ch, d1, d2) ∧
        R ch.constraintChallenges ch.boundaryChallenges ch.z)
    (fun x => R x.challenges.constraintChallenges x.challenges.boundaryChallenges x.challenges.z) (by
      rintro r x ⟨hf, proof, ch, d1, d2, hproof, hch, hR⟩
      refine ⟨hf, fun ecc ebc ez => ?_⟩
      obtain ⟨-, c2, c3, c4⟩ := (hrun (r.hash H)).2.2 v proof ch d1 d2 hout hver hproof hch
      rw [ecc, ebc, ez, ← c2, ← c3, ← c4]
      exact hR)
  split_ifs with hn
  · rw [add_zero]
    exact (share_mono (fun r hr => ⟨fresh_of_three n (k + e) _ _ W hc.1 hn _, hr⟩)).trans h1
  · have h2 := share_not_fresh n (k + e) inst.constraints.length inst.boundaryConstraints.length W hc.1 h.pos H B (by omega)
    refine le_trans (share_mono (B := fun r : Oracle B => _ ∨ _) (fun r hr => ?_)) ((share_or_le _ _).trans (add_le_add h1 h2))
    by_cases hf : Fresh n (k + e) inst.constraints.length inst.boundaryConstraints.length W (r.hash H)
    · exact .inl ⟨hf, hr⟩
    · exact .inr hf

end

/-! ## The hypotheses are met -/

/-- The Fibonacci program over the field of the experiments, 2^20 rows, LDE factor 16, on any machine: a table that is not the Fibonacci table from `a`, `b` is accepted with less than the share
`2^(-200)` of the hash functions. -/
theorem C91_fibonacci_stark (w : Worker) (H : List UInt8 → Digest) (B : ℕ) (hB : 352 ≤ B) (a b : FrStark) (witness : List (List FrStark)) (ht : IsTable witness 2 (2 ^ 20))
    (hbad : ¬ Satisfies (fibInst FrStark 20 a b) (cellR witness) (2 ^ 20)) :
    ∃ prover v, Prover.new w (fibInst FrStark 20 a b) (2 ^ 4) 1 = .ok prover ∧ Verifier.new (fibInst FrStark 20 a b) (2 ^ 4) = .ok v ∧
      share (fun r : Oracle B => ∃ proof, prover.prove (r.hash H) witness = .ok proof ∧ v.verify (r.hash H) proof = .ok true) < 1 / 2 ^ 200 := by
  have hs := fibInst_suitable (F := FrStark) 20 (by norm_num) a b
  have hp := proverParams_stark 20 0 4 0 (by norm_num) (by norm_num) (by norm_num)
  obtain ⟨prover, -, e1, -⟩ := prove_outcome H w _ 2 20 0 4 0 hs.runnable hp witness ht
  obtain ⟨v, e2, -⟩ := hs.runnable.newVerifier (Nat.le_trans (by norm_num) hp.size) (2 ^ 4)
  refine ⟨prover, v, e1, e2, lt_of_le_of_lt (C91_false_witness w _ 2 20 0 4 0 H B hs.runnable hp (by norm_num) (fun c hc tm htm => (hs.terms c hc tm htm).2.1) ?_ ?_ witness ht hbad
    prover e1 v e2 (by simpa [fibInst] using hB)) ?_⟩
  · intro c hc d hd u hu j hj
    have e0 : c.density = .dense ⟨0, 1⟩ := by
      simp only [fibInst, List.mem_cons, List.not_mem_nil, or_false] at hc
      rcases hc with rfl | rfl <;> rfl
    rw [e0] at hd
    cases hd
    obtain ⟨-, k', hk', e⟩ := fibFactors (F := FrStark) (c := c) hc hu
    rw [e] at hj
    cases hj
    exact hk'
  · intro b hb
    rw [hs.rows]
    exact (hs.boundary b hb).2.1
  · have hcap : capacity FrStark = 251 := by unfold capacity; rw [numBits_stark]
    rw [hcap]
    simp only [fibInst, List.length_cons, List.length_nil]
    norm_num

/-- The same program with the Fibonacci table, on one CPU: with all but the share `2^(-220)` of the hash functions a proof is returned and accepted. -/
theorem C91_fibonacci_stark_complete (H : List UInt8 → Digest) (B : ℕ) (hB : 352 ≤ B) (a b : FrStark) (witness : List (List FrStark)) (ht : IsTable witness 2 (2 ^ 20))
    (hsat : Satisfies (fibInst FrStark 20 a b) (cellR witness) (2 ^ 20)) :
    ∃ prover v, Prover.new ⟨1, by norm_num⟩ (fibInst FrStark 20 a b) (2 ^ 4) 1 = .ok prover ∧ Verifier.new (fibInst FrStark 20 a b) (2 ^ 4) = .ok v ∧
      1 - 1 / 2 ^ 220 < share (fun r : Oracle B => ∃ proof, prover.prove (r.hash H) witness = .ok proof ∧ v.verify (r.hash H) proof = .ok true) := by
  have hs := fibInst_suitable (F := FrStark) 20 (by norm_num) a b
  have hp := runParams_stark ⟨1, by norm_num⟩ 20 0 4 0 (by norm_num) (by norm_num) (by norm_num) (by norm_num) (.inl rfl) (.inl rfl)
  obtain ⟨prover, -, e1, -⟩ := prove_outcome H ⟨1, by norm_num⟩ _ 2 20 0 4 0 hs.runnable hp.prover witness ht
  obtain ⟨v, e2, -⟩ := hs.runnable.newVerifier (Nat.le_trans (by norm_num) hp.prover.size) (2 ^ 4)
  refine ⟨prover, v, e1, e2, lt_of_lt_of_le ?_ (C91_complete _ _ 2 20 0 4 H B hs hp witness ht hsat prover e1 v e2 (by simpa [fibInst] using hB))⟩
  have hcap : capacity FrStark = 251 := by unfold capacity; rw [numBits_stark]
  rw [hcap]
  norm_num

/-- There are violating tables: the table of `a + 1`s. -/
theorem ones_violate (a b : FrStark) (k : ℕ) : IsTable (tab 2 (fun _ => tab (2 ^ k) (fun _ => a + 1))) 2 (2 ^ k) ∧
    ¬ Satisfies (fibInst FrStark k a b) (cellR (tab 2 (fun _ => tab (2 ^ k) (fun _ => a + 1)))) (2 ^ k) := by
  refine ⟨⟨length_tab _ _, fun c hc => ?_⟩, fun h => ?_⟩
  · simp only [tab, List.mem_map] at hc
    obtain ⟨r, -, rfl⟩ := hc
    simp
  have h0 := h.2 ⟨.register 0, 0, some a⟩ (by simp [fibInst]) a rfl
  have h1 : cellR (tab 2 (fun _ => tab (2 ^ k) (fun _ => a + 1))) (.register 0) 0 = a + 1 := by
    simp only [cellR, cell, List.getD, getElem?_tab, if_pos (show 0 < 2 by norm_num), Option.getD_some, if_pos (show 0 < 2 ^ k by positivity)]
  rw [h1] at h0
  exact one_ne_zero (by linear_combination h0 : (1 : FrStark) = 0)

example (H : List UInt8 → Digest) (a b : FrStark) : ∃ prover v, Prover.new ⟨4, by norm_num⟩ (fibInst FrStark 20 a b) (2 ^ 4) 1 = .ok prover ∧ Verifier.new (fibInst FrStark 20 a b) (2 ^ 4) = .ok v ∧
      share (fun r : Oracle 352 => ∃ proof, prover.prove (r.hash H) (tab 2 (fun _ => tab (2 ^ 20) (fun _ => a + 1))) = .ok proof ∧ v.verify (r.hash H) proof = .ok true) < 1 / 2 ^ 200 :=
  C91_fibonacci_stark _ H 352 le_rfl a b _ (ones_violate a b 20).1 (ones_violate a b 20).2

/-- A satisfying table meets the hypotheses of `C91_complete`. -/
example : Suitable (fibInst Fr 2 1 1) 2 2 0 ∧ RunParams Fr ⟨1, by norm_num⟩ 2 0 1 0 ∧ IsTable [[(1 : Fr), 1, 2, 3], [1, 2, 3, 5]] 2 (2 ^ 2) ∧
    isSatisfied (fibInst Fr 2 1 1) [[1, 1, 2, 3], [1, 2, 3, 5]] = .ok () :=
  ⟨fibInst_suitable (F := Fr) 2 (by norm_num) 1 1,
    ⟨by decide, by norm_num, by norm_num, by norm_num, by norm_num, .inl rfl, .inl rfl, by decide +kernel, by decide +kernel⟩, ⟨rfl, by decide⟩, by decide +kernel⟩

end Hodor

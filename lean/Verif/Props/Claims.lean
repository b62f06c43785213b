import Verif.Props.Interactive
import Verif.Props.Transcript
import Verif.Props.Binding

/-!
# C46: the claimed values are chosen after the positions

The verifier absorbs neither the values claimed at `z` nor the roots of the FRI rounds into the transcript it draws the positions from. So a check of the shape of FRI proofs would
not make `verify` sound.
-/

namespace Hodor

open Polynomial Spec

variable {F : Type} [Field F] [DecidableEq F] [StarkField F] (H : List UInt8 → Digest)

theorem forEach_total {α β : Type} (l : List α) (f : α → β → Res β) (hf : ∀ a ∈ l, ∀ s, ∃ s', f a s = .ok s') :
    ∀ s, ∃ s', forEach l s f = .ok s' := by
  induction l with
  | nil => exact fun s => ⟨s, rfl⟩
  | cons a l ih =>
    intro s
    obtain ⟨s1, h1⟩ := hf a (by simp) s
    obtain ⟨s2, h2⟩ := ih (fun b hb => hf b (by simp [hb])) s1
    exact ⟨s2, by simp only [forEach, h1, Res.ok_bind, h2]⟩

omit [DecidableEq F] in
omit [Field F] [DecidableEq F] [StarkField F] in
theorem two_pow_even {m : ℕ} (h : 1 ≤ m) : 2 ^ m % 2 = 0 := by
  obtain ⟨l, rfl⟩ : ∃ l, m = l + 1 := ⟨m - 1, by omega⟩
  rw [pow_succ]
  omega

/-- Challenges can be derived from every proof with a root for each of `h1` and `h2`, and the positions are odd. -/
theorem derive_total (hch : ChallengeOk F) {v : Verifier F} {proof : InstanceProof F} (h1 : proof.h1IopRoots ≠ [])
    (h2 : proof.h2IopRoots ≠ []) {d1 d2 : Domain F} (hd1 : Domain.newForSize F (v.columnDomain.size * v.ldeFactor) = .ok d1)
    (hd2 : Domain.newForSize F (v.constraintsDomain.size * v.ldeFactor) = .ok d2) (hf : 0 < v.ldeFactor)
    (hc : 0 < v.columnDomain.size) (hg : 0 < v.constraintsDomain.size) (hc2 : v.columnDomain.size * v.ldeFactor % 2 = 0)
    (hg2 : v.constraintsDomain.size * v.ldeFactor % 2 = 0) :
    ∃ ch, v.deriveChallenges H proof = .ok (ch, d1, d2) ∧ ch.idx1 < v.columnDomain.size * v.ldeFactor ∧ ch.idx1 % 2 = 1 ∧
      ch.idx2 < v.constraintsDomain.size * v.ldeFactor ∧ ch.idx2 % 2 = 1 := by
  have pair : ∀ {α : Type} (l : List α) (s : List (F × F) × Transcript), ∃ s', forEach l s (fun _ s => drawPair H s) = .ok s' :=
    fun l => forEach_total l _ (fun _ _ s => by simp [drawPair, getChallenge_ok H hch])
  have hnew : Transcript.new F = .ok ⟨[]⟩ := by
    unfold Transcript.new
    rw [decide_eq_true hch.1]; rfl
  obtain ⟨r1, hr1⟩ : ∃ r, proof.h1IopRoots.getLast? = some r := ⟨_, List.getLast?_eq_some_getLast h1⟩
  obtain ⟨r2, hr2⟩ : ∃ r, proof.h2IopRoots.getLast? = some r := ⟨_, List.getLast?_eq_some_getLast h2⟩
  obtain ⟨⟨cc, t1⟩, e1⟩ := forEach_total v.constraintsBatchedByDensity (fun b s => forEach b.2 s (fun _ s => drawPair (F := F) H s))
    (fun b _ s => pair b.2 s) ([], proof.fIopRoots.foldl (fun t r => t.commitBytes r.bytes) ⟨[]⟩)
  obtain ⟨⟨bc, t2⟩, e2⟩ := pair v.inst.boundaryConstraints ([], t1)
  obtain ⟨⟨hs, t3⟩, e3⟩ := forEach_total v.allMasks (fun _ s => drawOne (F := F) H s) (fun _ _ s => by simp [drawOne, getChallenge_ok H hch])
    ([], (nextT H (t2.commitBytes proof.gIopRoot.bytes)))
  have idx : ∀ (d : Digest) (s : ℕ), 0 < s → s * v.ldeFactor % 2 = 0 → ∃ i, bytesToChallengeIndex d.bytes (s * v.ldeFactor) v.ldeFactor = .ok i ∧
      i < s * v.ldeFactor ∧ i % 2 = 1 := by
    intro d s hs hs2
    exact C23_index_odd d.bytes (by rw [d.len]; norm_num) (s * v.ldeFactor) v.ldeFactor (Nat.mul_pos hs hf) hs2 hf
  obtain ⟨T, hT⟩ : ∃ T, T = commitFinal (commitFinal t3 r1 proof.friProofH1.finalCoefficients) r2 proof.friProofH2.finalCoefficients := ⟨_, rfl⟩
  obtain ⟨i1, a1, b1, c1⟩ := idx (H T.absorbed) _ hc hc2
  obtain ⟨i2, a2, b2, c2⟩ := idx (H (T.getChallengeBytes H).2.absorbed) _ hg hg2
  refine ⟨⟨cc, bc, chal F H (t2.commitBytes proof.gIopRoot.bytes), hs, i1, i2⟩, ?_, b1, c1, b2, c2⟩
  unfold Verifier.deriveChallenges
  rw [hnew]
  simp only [Res.ok_bind, e1, e2, hr1, hr2, Res.expect_some, hd1, hd2, getChallenge_ok H hch, e3]
  rw [← hT]
  erw [a1, Res.ok_bind, a2]
  rfl

/-- `fri_run` with the number of openings and of roots. -/
theorem fri_run_exact (hc : ChallengeOk F) {n m d f : ℕ} (hn : n ≤ StarkField.S F) (hm1 : 1 ≤ m) (hm : m ≤ n) (hd : d * f = 2 ^ n)
    {p : F[X]} (hp : p.degree < (2 ^ m : ℕ)) :
    ∃ (run : FriRun F) (proof : ℕ → FriProof F), run.Committed H (2 ^ n) (2 ^ m) ∧ (∀ idx, (proof idx).queries.length = 2 * run.roots.length) ∧
      run.roots ≠ [] ∧
      ∀ idx, idx < 2 ^ n → idx % 2 = 1 → run.Proves (proof idx) d f ∧ (proof idx).verify H idx (p.eval (genOf F n ^ idx)) = .ok true := by
  refine ⟨⟨fun r => tab (2 ^ (n - r)) (friVals (n - r) (friLayer H n p r)), tab m (friRoot H n p), [(friLayer H n p m).coeff 0]⟩,
    shapedProof H n m d f p, ⟨?_, by simp⟩, by simp [shapedProof], ?_, ?_⟩
  · intro r root hr
    replace hr : (tab m (friRoot H n p))[r]? = some root := hr
    rw [getElem?_tab] at hr
    split at hr
    · rename_i hlt
      cases hr
      refine ⟨?_, ⟨1, by norm_num⟩, _, friTree_create H _ n p (by omega), friTree_root H n p (by omega)⟩
      show (tab _ _).length * 2 ^ r = 2 ^ n
      rw [length_tab, ← pow_add]
      congr 1
      omega
    · cases hr
  · intro hcon
    have := congrArg List.length hcon
    simp at this
    omega
  · intro idx hi ho
    exact ⟨⟨rfl, rfl, ⟨rfl, rfl⟩, by simp [shapedProof]⟩, shapedProof_accepts H hc hn hm1 hm hd hp hi ho⟩

/-- No denominator of the verifier vanishes at an out-of-domain point. -/
theorem poles_of_out {inst : InstanceProperties F} {n k e K : ℕ} (h : Verifiable inst n k) {v : Verifier F} (hv : VBuilt v inst k (2 ^ e))
    (hdom : v.constraintsDomain = domOf F K) (hkK : k ≤ K) (hS : K + e ≤ StarkField.S F) {z : F} (hz : OutOfDomain v z) (i j : ℕ) :
    (∀ m ∈ v.allMasks, genOf F (k + e) ^ i ≠ maskOf m * z) ∧ genOf F (K + e) ^ j ≠ z ∧
    (v.inst.constraints ≠ [] → z ^ v.columnDomain.size ≠ 1) ∧
    ∀ b ∈ v.inst.boundaryConstraints, z ≠ v.columnDomain.generator ^ b.atRow := by
  have s2 : v.constraintsDomain.size * v.ldeFactor = 2 ^ (K + e) := by rw [hdom, hv.factor]; exact (pow_add _ _ _).symm
  unfold OutOfDomain at hz
  rw [s2] at hz
  have hzN : z ^ 2 ^ (k + e) ≠ 1 := by
    intro hc
    apply hz
    rw [show 2 ^ (K + e) = 2 ^ (k + e) * 2 ^ (K - k) by rw [← pow_add]; congr 1; omega, pow_mul, hc, one_pow]
  have hzk : z ^ 2 ^ k ≠ 1 := by
    intro hc
    apply hzN
    rw [pow_add, pow_mul, hc, one_pow]
  have hpow : ∀ M, M ≤ StarkField.S F → ∀ i, (genOf F M ^ i) ^ 2 ^ M = 1 := by
    intro M hM i
    rw [← pow_mul, mul_comm, pow_mul, genOf_pow_card hM, one_pow]
  refine ⟨?_, ?_, ?_, ?_⟩
  · intro m hm hcon
    obtain ⟨ps, eps, hps⟩ := h.maskPairs hv.order
    rw [hv.masks.trans eps] at hm
    obtain ⟨p, hp, rfl⟩ := List.mem_map.1 hm
    have hone := hpow (k + e) (by omega) i
    replace hcon : genOf F (k + e) ^ i = p.2 * z := hcon
    rw [hcon, mul_pow, pow_add, pow_mul, (hps p hp).2, one_pow, one_mul, ← pow_add] at hone
    exact hzN hone
  · intro hcon
    have hone := hpow _ hS j
    rw [hcon] at hone
    exact hz hone
  · intro _
    rw [hv.column]
    exact hzk
  · intro b _ hcon
    rw [hv.column] at hcon
    replace hcon : z = genOf F k ^ b.atRow := hcon
    exact hzk (by rw [hcon]; exact hpow _ hv.order _)

/-- **C46**: the values claimed at `z` are free until the positions are known. Whatever words a prover commits to, and for all polynomials `p1`, `p2` of the degree that the FRI of the code tests for,
there are commitments of the right shape, including the whole FRI runs, whose challenges and positions do not depend on the claimed values. Then each list of claimed values, one for each pair of register and mask, is accepted as
soon as it meets two equations at the two positions: two equations for as many unknowns as there are pairs, with no relation to a satisfying witness. -/
theorem C46_claims_unbound (hc : ChallengeOk F) (inst : InstanceProperties F) (n k e : ℕ) (h : Verifiable inst n k)
    (he : 1 ≤ e) (v : Verifier F) (hver : Verifier.new inst (2 ^ e) = .ok v) (d1 d2 : Domain F)
    (hd1 : Domain.newForSize F (v.columnDomain.size * v.ldeFactor) = .ok d1)
    (hd2 : Domain.newForSize F (v.constraintsDomain.size * v.ldeFactor) = .ok d2)
    (fWords : List (List F)) (hf : IsTable fWords n (v.columnDomain.size * v.ldeFactor))
    (gWord : List F) (hg : gWord.length = v.constraintsDomain.size * v.ldeFactor)
    (p1 p2 : F[X]) (hp1 : p1.degree < (2 * v.columnDomain.size : ℕ)) (hp2 : p2.degree < (2 * v.constraintsDomain.size : ℕ)) :
    ∃ fRoots gRoot run1 run2 ch, ∃ proof : List F → InstanceProof F,
      (∀ y, Commitments.Ok H ⟨fWords, fRoots, gWord, gRoot, y, run1, run2⟩ v 2 ∧
        Commitments.Answers ⟨fWords, fRoots, gWord, gRoot, y, run1, run2⟩ v (proof y) ∧
        (proof y).h1IopRoots = run1.roots ∧ (proof y).h2IopRoots = run2.roots ∧
        (proof y).friProofH1.queries.length = 2 * run1.roots.length ∧ (proof y).friProofH2.queries.length = 2 * run2.roots.length ∧
        v.deriveChallenges H (proof y) = .ok (ch, d1, d2)) ∧
      (OutOfDomain v ch.z → ∀ y, y.length = v.allMasks.length →
        (v.verify H (proof y) = .ok true ↔
          deepClaim v.allMasks y ch.h1Challenges (fun r => match r with | .register r => (fWords.getD r []).getD ch.idx1 0 | _ => 0) ch.z (d1.generator ^ ch.idx1) =
            p1.eval (d1.generator ^ ch.idx1) ∧
          (gWord.getD ch.idx2 0 - compositionAt v.columnDomain.generator v.inst.numRows v.maxConstraintPower (claimedEnv v.allMasks y)
            ((v.constraintsBatchedByDensity.flatMap (fun b => b.2)).zip ch.constraintChallenges)
            (v.inst.boundaryConstraints.zip ch.boundaryChallenges) ch.z) / (d2.generator ^ ch.idx2 - ch.z) = p2.eval (d2.generator ^ ch.idx2))) := by
  have hv := h.built hver
  obtain ⟨K, -, hdom, hK⟩ := hv.domain
  have hkK := (domain_large hK).2
  have s1 : v.columnDomain.size * v.ldeFactor = 2 ^ (k + e) := by rw [hv.column, hv.factor]; exact (pow_add _ _ _).symm
  have s2 : v.constraintsDomain.size * v.ldeFactor = 2 ^ (K + e) := by rw [hdom, hv.factor]; exact (pow_add _ _ _).symm
  have hreg : v.inst.numRegisters = n := by rw [hv.props]; exact h.registers
  have hord : ∀ m (d : Domain F), Domain.newForSize F (2 ^ m) = .ok d → m ≤ StarkField.S F ∧ d = domOf F m := by
    intro m d hd
    obtain ⟨M, hM, e1, e2⟩ := newForSize_inv hd
    rw [nextPow2_pow] at e2
    have := Nat.pow_right_injective (le_refl 2) e2
    subst this
    exact ⟨hM, e1⟩
  have hd1' := hd1
  have hd2' := hd2
  rw [s1] at hd1' hf
  rw [s2] at hd2' hg
  obtain ⟨hS1, rfl⟩ := hord _ _ hd1'
  obtain ⟨hS2, rfl⟩ := hord _ _ hd2'
  have hlen : ∀ r, r < n → (fWords.getD r []).length = 2 ^ (k + e) := by
    intro r hr
    have hr' : r < fWords.length := by rw [hf.1]; exact hr
    rw [List.getD_eq_getElem?_getD, List.getElem?_eq_getElem hr', Option.getD_some]
    exact hf.2 _ (List.getElem_mem hr')
  have hex : ∀ r, ∃ (root : Digest) (q : ℕ → IopQuery F), r < n → RootOf H (fWords.getD r []) root ∧
      ∀ i, i < 2 ^ (k + e) → (q i).index = i ∧ (fWords.getD r [])[i]? = some (q i).value ∧ verifyQuery H (q i) root = true := by
    intro r
    by_cases hr : r < n
    · obtain ⟨root, q, hq⟩ := exists_openings H (show 1 ≤ k + e by omega) _ (hlen r hr)
      exact ⟨root, q, fun _ => hq⟩
    · exact ⟨H [], fun _ => ⟨0, 0, []⟩, fun h => absurd h hr⟩
  choose root q hq using hex
  obtain ⟨gRoot, gq, hgroot, hgq⟩ := exists_openings H (show 1 ≤ K + e by omega) gWord hg
  rw [hv.column, show 2 * (domOf F k).size = 2 ^ (k + 1) from (pow_succ' _ _).symm] at hp1
  rw [hdom, show 2 * (domOf F K).size = 2 ^ (K + 1) from (pow_succ' _ _).symm] at hp2
  obtain ⟨run1, proof1, hc1, hl1, hr1, hpr1⟩ := fri_run_exact H hc hS1 (show 1 ≤ k + 1 by omega) (show k + 1 ≤ k + e by omega) s1 hp1
  obtain ⟨run2, proof2, hc2, hl2, hr2, hpr2⟩ := fri_run_exact H hc hS2 (show 1 ≤ K + 1 by omega) (show K + 1 ≤ K + e by omega) s2 hp2
  obtain ⟨mk, hmk⟩ : ∃ mk : ℕ → ℕ → List F → InstanceProof F, mk = fun i j y =>
    { fAtZM := y, fIopRoots := tab n root, gIopRoot := gRoot, fQueries := tab n (fun r => q r i), gQuery := gq j,
      h1IopRoots := run1.roots, h2IopRoots := run2.roots, friProofH1 := proof1 i, friProofH2 := proof2 j } := ⟨_, rfl⟩
  have hodd1 : 1 < 2 ^ (k + e) := Nat.one_lt_two_pow (by omega)
  have hodd2 : 1 < 2 ^ (K + e) := Nat.one_lt_two_pow (by omega)
  obtain ⟨ch, hder, i1, o1, i2, o2⟩ := derive_total H hc (v := v) (proof := mk 1 1 []) (by rw [hmk]; exact hr1) (by rw [hmk]; exact hr2) hd1 hd2
    (by rw [hv.factor]; positivity) (by rw [hv.column]; exact Nat.two_pow_pos k) (by rw [hdom]; exact Nat.two_pow_pos K)
    (by rw [s1]; exact two_pow_even (by omega)) (by rw [s2]; exact two_pow_even (by omega))
  rw [s1] at i1
  rw [s2] at i2
  have hder' : ∀ y, v.deriveChallenges H (mk ch.idx1 ch.idx2 y) = .ok (ch, domOf F (k + e), domOf F (K + e)) := by
    intro y
    rw [← hder]
    refine derive_congr H v ?_ ?_ ?_ ?_ ?_ ?_
    · rw [hmk]
    · rw [hmk]
    · rw [hmk]
    · rw [hmk]
    · rw [hmk]
      exact (hpr1 _ i1 o1).1.fin.trans (hpr1 1 hodd1 rfl).1.fin.symm
    · rw [hmk]
      exact (hpr2 _ i2 o2).1.fin.trans (hpr2 1 hodd2 rfl).1.fin.symm
  refine ⟨tab n root, gRoot, run1, run2, ch, mk ch.idx1 ch.idx2, ?_, ?_⟩
  · intro y
    refine ⟨⟨by rw [hreg, s1]; exact hf, ?_, ⟨by rw [s2]; exact hg, hgroot⟩, ?_, ?_⟩, ?_, by rw [hmk], by rw [hmk], ?_, ?_, hder' y⟩
    · intro r word rt h1 h2
      replace h2 : (tab n root)[r]? = some rt := h2
      replace h1 : fWords[r]? = some word := h1
      rw [getElem?_tab] at h2
      split at h2
      · rename_i hr
        cases h2
        have := (hq r hr).1
        rw [List.getD_eq_getElem?_getD, h1, Option.getD_some] at this
        exact this
      · cases h2
    · rw [s1, hv.column, show 2 * (domOf F k).size = 2 ^ (k + 1) from (pow_succ' _ _).symm]
      exact hc1
    · rw [s2, hdom, show 2 * (domOf F K).size = 2 ^ (K + 1) from (pow_succ' _ _).symm]
      exact hc2
    · rw [hmk]
      exact ⟨rfl, rfl, rfl, (hpr1 _ i1 o1).1, (hpr2 _ i2 o2).1⟩
    · rw [hmk]; exact hl1 _
    · rw [hmk]; exact hl2 _
  · intro hz y hy
    have hgv : (gq ch.idx2).value = gWord.getD ch.idx2 0 := by
      rw [List.getD_eq_getElem?_getD, (hgq _ i2).2.1, Option.getD_some]
    have hov : openedValue (tab n (fun r => q r ch.idx1)) =
        (fun r => match r with | .register r => (fWords.getD r []).getD ch.idx1 0 | _ => 0) := by
      funext r
      cases r with
      | register r =>
        by_cases hr : r < n
        · have := ((hq r hr).2 _ i1).2.1
          simp only [openedValue, getElem?_tab, hr, if_true, Option.elim_some]
          rw [List.getD_eq_getElem?_getD (l := fWords.getD r []), this, Option.getD_some]
        · have : fWords.length ≤ r := by rw [hf.1]; omega
          simp [openedValue, getElem?_tab, hr, List.getD_eq_getElem?_getD, List.getElem?_eq_none this]
      | _ => rfl
    rw [C54_verify_iff H inst n k (2 ^ e) h v hver]
    constructor
    · rintro ⟨ch', d1', d2', hd', a⟩
      rw [hder' y] at hd'
      cases hd'
      have a1 := a.h1
      have a2 := a.h2
      rw [hmk] at a1 a2
      simp only at a1 a2
      rw [hov] at a1
      rw [hgv] at a2
      exact ⟨fri_value_unique H _ _ _ _ a1 (hpr1 _ i1 o1).2, fri_value_unique H _ _ _ _ a2 (hpr2 _ i2 o2).2⟩
    · rintro ⟨q1, q2⟩
      refine ⟨ch, _, _, hder' y, ?_⟩
      rw [hmk]
      refine ⟨⟨by rw [hreg]; exact length_tab _ _, by rw [hreg]; exact length_tab _ _⟩, ?_, ⟨(hgq _ i2).2.2, (hgq _ i2).1⟩, le_of_eq hy.symm,
        poles_of_out h hv hdom hkK hS2 hz _ _, ?_, ?_⟩
      · intro r q' root' h1 h2
        replace h1 : (tab n (fun r => q r ch.idx1))[r]? = some q' := h1
        replace h2 : (tab n root)[r]? = some root' := h2
        rw [getElem?_tab] at h1 h2
        by_cases hr : r < n
        · rw [if_pos hr] at h1 h2
          cases h1
          cases h2
          exact ⟨((hq r hr).2 _ i1).2.2, ((hq r hr).2 _ i1).1⟩
        · rw [if_neg hr] at h1
          cases h1
      · show (proof1 ch.idx1).verify H ch.idx1 (deepClaim v.allMasks y ch.h1Challenges (openedValue (tab n (fun r => q r ch.idx1))) ch.z _) = .ok true
        rw [hov, q1]
        exact (hpr1 _ i1 o1).2
      · show (proof2 ch.idx2).verify H ch.idx2 (((gq ch.idx2).value - _) / _) = .ok true
        rw [hgv, q2]
        exact (hpr2 _ i2 o2).2

/-- **C46 is false**, for all instances that a verifier can be built for: any number of rows, any densities and degrees, any LDE factor, one included (as long as the LDE of a
register has at least two points). Whatever words a prover commits to for the registers
and for `g`, and whatever it claims at `z`, there is a proof which `verify` accepts, unless the point drawn lies in the LDE domain of `g`. (The attacker of `C46_forgery` is a
program, for suitable instances; here the FRI proofs have as many rounds as the domain allows and one final coefficient.) -/
theorem C46_forgery_any (hc : ChallengeOk F) (inst : InstanceProperties F) (n k e : ℕ) (h : Verifiable inst n k)
    (he : 1 ≤ k + e) (v : Verifier F) (hver : Verifier.new inst (2 ^ e) = .ok v) (d1 d2 : Domain F)
    (hd1 : Domain.newForSize F (v.columnDomain.size * v.ldeFactor) = .ok d1)
    (hd2 : Domain.newForSize F (v.constraintsDomain.size * v.ldeFactor) = .ok d2)
    (fWords : List (List F)) (hf : IsTable fWords n (v.columnDomain.size * v.ldeFactor))
    (gWord : List F) (hg : gWord.length = v.constraintsDomain.size * v.ldeFactor)
    (y : List F) (hy : v.allMasks.length ≤ y.length) :
    ∃ proof ch, proof.fAtZM = y ∧ proof.fIopRoots.length = n ∧ (∀ (r : ℕ) word root, fWords[r]? = some word → proof.fIopRoots[r]? = some root → RootOf H word root) ∧
      RootOf H gWord proof.gIopRoot ∧ v.deriveChallenges H proof = .ok (ch, d1, d2) ∧
      (OutOfDomain v ch.z → v.verify H proof = .ok true) := by
  have hv := h.built hver
  obtain ⟨K, -, hdom, hK⟩ := hv.domain
  have hkK := (domain_large hK).2
  have s1 : v.columnDomain.size * v.ldeFactor = 2 ^ (k + e) := by rw [hv.column, hv.factor]; exact (pow_add _ _ _).symm
  have s2 : v.constraintsDomain.size * v.ldeFactor = 2 ^ (K + e) := by rw [hdom, hv.factor]; exact (pow_add _ _ _).symm
  have hreg : v.inst.numRegisters = n := by rw [hv.props]; exact h.registers
  have hord : ∀ m (d : Domain F), Domain.newForSize F (2 ^ m) = .ok d → m ≤ StarkField.S F ∧ d = domOf F m := by
    intro m d hd
    obtain ⟨M, hM, e1, e2⟩ := newForSize_inv hd
    rw [nextPow2_pow] at e2
    have := Nat.pow_right_injective (le_refl 2) e2
    subst this
    exact ⟨hM, e1⟩
  have hd1' := hd1
  have hd2' := hd2
  rw [s1] at hd1' hf
  rw [s2] at hd2' hg
  obtain ⟨hS1, rfl⟩ := hord _ _ hd1'
  obtain ⟨hS2, rfl⟩ := hord _ _ hd2'
  have hlen : ∀ r, r < n → (fWords.getD r []).length = 2 ^ (k + e) := by
    intro r hr
    have hr' : r < fWords.length := by rw [hf.1]; exact hr
    rw [List.getD_eq_getElem?_getD, List.getElem?_eq_getElem hr', Option.getD_some]
    exact hf.2 _ (List.getElem_mem hr')
  have hex : ∀ r, ∃ (root : Digest) (q : ℕ → IopQuery F), r < n → RootOf H (fWords.getD r []) root ∧
      ∀ i, i < 2 ^ (k + e) → (q i).index = i ∧ (fWords.getD r [])[i]? = some (q i).value ∧ verifyQuery H (q i) root = true := by
    intro r
    by_cases hr : r < n
    · obtain ⟨root, q, hq⟩ := exists_openings H (show 1 ≤ k + e by omega) _ (hlen r hr)
      exact ⟨root, q, fun _ => hq⟩
    · exact ⟨H [], fun _ => ⟨0, 0, []⟩, fun h => absurd h hr⟩
  choose root q hq using hex
  obtain ⟨gRoot, gq, hgroot, hgq⟩ := exists_openings H (show 1 ≤ K + e by omega) gWord hg
  have hfac : 0 < v.ldeFactor ∧ 0 < v.columnDomain.size ∧ 0 < v.constraintsDomain.size ∧ v.columnDomain.size * v.ldeFactor % 2 = 0 ∧
      v.constraintsDomain.size * v.ldeFactor % 2 = 0 :=
    ⟨by rw [hv.factor]; positivity, by rw [hv.column]; exact Nat.two_pow_pos k, by rw [hdom]; exact Nat.two_pow_pos K,
      by rw [s1]; exact two_pow_even (by omega), by rw [s2]; exact two_pow_even (by omega)⟩
  -- a first proof object, to see the challenges which do not depend on FRI
  obtain ⟨ch0, hder0, -⟩ := derive_total H hc (v := v) (proof := ⟨y, tab n root, gRoot, [], gq 0, [H []], [H []], ⟨[], [], [], 0, 0, 0⟩, ⟨[], [], [], 0, 0, 0⟩⟩)
    (by simp) (by simp) hd1 hd2 hfac.1 hfac.2.1 hfac.2.2.1 hfac.2.2.2.1 hfac.2.2.2.2
  obtain ⟨I1, hI1⟩ := exists_interp_odd (F := F) (show 1 ≤ k + e by omega) hS1
  obtain ⟨I2, hI2⟩ := exists_interp_odd (F := F) (show 1 ≤ K + e by omega) hS2
  obtain ⟨val1, hval1⟩ : ∃ val1 : ℕ → F, val1 = fun i => deepClaim v.allMasks y ch0.h1Challenges (openedValue (tab n (fun r => q r i))) ch0.z (genOf F (k + e) ^ i) := ⟨_, rfl⟩
  obtain ⟨val2, hval2⟩ : ∃ val2 : ℕ → F, val2 = fun j => ((gq j).value -
    compositionAt v.columnDomain.generator v.inst.numRows v.maxConstraintPower (claimedEnv v.allMasks y)
      ((v.constraintsBatchedByDensity.flatMap (fun b => b.2)).zip ch0.constraintChallenges)
      (v.inst.boundaryConstraints.zip ch0.boundaryChallenges) ch0.z) / (genOf F (K + e) ^ j - ch0.z) := ⟨_, rfl⟩
  have low : ∀ (m : ℕ) (p : F[X]), p.degree < (2 ^ (m - 1) : ℕ) → p.degree < (2 ^ m : ℕ) := by
    intro m p hp
    exact lt_of_lt_of_le hp (by exact_mod_cast Nat.pow_le_pow_right (by norm_num) (by omega))
  obtain ⟨run1, proof1, hc1, -, hr1, hpr1⟩ := fri_run_exact H hc hS1 (show 1 ≤ k + e by omega) le_rfl s1 (low _ _ (hI1 (tab (2 ^ (k + e)) val1)).1)
  obtain ⟨run2, proof2, hc2, -, hr2, hpr2⟩ := fri_run_exact H hc hS2 (show 1 ≤ K + e by omega) le_rfl s2 (low _ _ (hI2 (tab (2 ^ (K + e)) val2)).1)
  obtain ⟨mk, hmk⟩ : ∃ mk : ℕ → ℕ → InstanceProof F, mk = fun i j =>
    { fAtZM := y, fIopRoots := tab n root, gIopRoot := gRoot, fQueries := tab n (fun r => q r i), gQuery := gq j,
      h1IopRoots := run1.roots, h2IopRoots := run2.roots, friProofH1 := proof1 i, friProofH2 := proof2 j } := ⟨_, rfl⟩
  have hodd1 : 1 < 2 ^ (k + e) := Nat.one_lt_two_pow (by omega)
  have hodd2 : 1 < 2 ^ (K + e) := Nat.one_lt_two_pow (by omega)
  obtain ⟨ch, hder, i1, o1, i2, o2⟩ := derive_total H hc (v := v) (proof := mk 1 1) (by rw [hmk]; exact hr1) (by rw [hmk]; exact hr2) hd1 hd2
    hfac.1 hfac.2.1 hfac.2.2.1 hfac.2.2.2.1 hfac.2.2.2.2
  rw [s1] at i1
  rw [s2] at i2
  have hder' : v.deriveChallenges H (mk ch.idx1 ch.idx2) = .ok (ch, domOf F (k + e), domOf F (K + e)) := by
    rw [← hder]
    refine derive_congr H v ?_ ?_ ?_ ?_ ?_ ?_
    · rw [hmk]
    · rw [hmk]
    · rw [hmk]
    · rw [hmk]
    · rw [hmk]
      exact (hpr1 _ i1 o1).1.fin.trans (hpr1 1 hodd1 rfl).1.fin.symm
    · rw [hmk]
      exact (hpr2 _ i2 o2).1.fin.trans (hpr2 1 hodd2 rfl).1.fin.symm
  obtain ⟨-, -, hs⟩ := C55_challenge_schedule H v _ _ ch ch0 _ _ _ _ hder' hder0
  obtain ⟨ec, eb, hs⟩ := hs (by rw [hmk])
  obtain ⟨ez, ea, -⟩ := hs (by rw [hmk])
  refine ⟨mk ch.idx1 ch.idx2, ch, by rw [hmk], by rw [hmk]; exact length_tab _ _, ?_, by rw [hmk]; exact hgroot, hder', ?_⟩
  · intro r word rt h1 h2
    rw [hmk] at h2
    replace h2 : (tab n root)[r]? = some rt := h2
    rw [getElem?_tab] at h2
    split at h2
    · rename_i hr
      cases h2
      have := (hq r hr).1
      rw [List.getD_eq_getElem?_getD, h1, Option.getD_some] at this
      exact this
    · cases h2
  · intro hz
    rw [C54_verify_iff H inst n k (2 ^ e) h v hver]
    refine ⟨ch, _, _, hder', ?_⟩
    rw [hmk]
    refine ⟨⟨by rw [hreg]; exact length_tab _ _, by rw [hreg]; exact length_tab _ _⟩, ?_, ⟨(hgq _ i2).2.2, (hgq _ i2).1⟩, hy,
        poles_of_out h hv hdom hkK hS2 hz _ _, ?_, ?_⟩
    · intro r q' root' h1 h2
      replace h1 : (tab n (fun r => q r ch.idx1))[r]? = some q' := h1
      replace h2 : (tab n root)[r]? = some root' := h2
      rw [getElem?_tab] at h1 h2
      by_cases hr : r < n
      · rw [if_pos hr] at h1 h2
        cases h1
        cases h2
        exact ⟨((hq r hr).2 _ i1).2.2, ((hq r hr).2 _ i1).1⟩
      · rw [if_neg hr] at h1
        cases h1
    · have := (hpr1 _ i1 o1).2
      rw [(hI1 _).2 _ i1 o1, List.getD_eq_getElem?_getD, getElem?_tab, if_pos i1, Option.getD_some, hval1, ← ea, ← ez] at this
      exact this
    · have := (hpr2 _ i2 o2).2
      rw [(hI2 _).2 _ i2 o2, List.getD_eq_getElem?_getD, getElem?_tab, if_pos i2, Option.getD_some, hval2, ← ec, ← eb, ← ez] at this
      exact this

/-! ### An unsatisfiable instance accepted with FRI proofs of the right shape -/

/-- An attacker who commits to zero words only, runs the FRI of the code on zero words, looks at the positions and only then claims `y`. -/
def claimForge (H : List UInt8 → Digest) (w : Worker) (v : Verifier Fr) (y : List Fr) : Res (InstanceProof Fr) := do
  let word1 := List.replicate (v.columnDomain.size * v.ldeFactor) (0 : Fr)
  let word2 := List.replicate (v.constraintsDomain.size * v.ldeFactor) (0 : Fr)
  let tree1 ← IopTree.create H w word1
  let tree2 ← IopTree.create H w word2
  let root1 ← tree1.getRoot
  let root2 ← tree2.getRoot
  let h1 ← Poly.fromValues word1
  let h2 ← Poly.fromValues word2
  let proto1 ← friProofByValues H w h1 v.ldeFactor 1
  let proto2 ← friProofByValues H w h2 v.ldeFactor 1
  let p1 ← proto1.produceProof H h1 1
  let p2 ← proto2.produceProof H h2 1
  let q1 ← tree1.query H 1 word1
  let q2 ← tree2.query H 1 word2
  let roots1 ← proto1.getRoots
  let roots2 ← proto2.getRoots
  let draft : InstanceProof Fr :=
    ⟨y, List.replicate v.inst.numRegisters root1, root2, List.replicate v.inst.numRegisters q1, q2, roots1, roots2, p1, p2⟩
  let (ch, _, _) ← v.deriveChallenges H draft
  let p1 ← proto1.produceProof H h1 ch.idx1
  let p2 ← proto2.produceProof H h2 ch.idx2
  let q1 ← tree1.query H ch.idx1 word1
  let q2 ← tree2.query H ch.idx2 word2
  pure ⟨y, List.replicate v.inst.numRegisters root1, root2, List.replicate v.inst.numRegisters q1, q2, roots1, roots2, p1, p2⟩

/-- The FRI proof is for the given degree and factor, with the number of rounds and of final coefficients for twice the degree, as the FRI of the code
produces it (`C46_honest_shape`), and the roots are those the positions were drawn from. -/
def ShapeChecked (p : FriProof F) (roots : List Digest) (degree factor : ℕ) : Prop :=
  p.initialDegreePlusOne = degree ∧ p.ldeFactor = factor ∧ p.finalCoefficients.length * 2 ^ p.roots.length = 2 * degree ∧
    p.queries.length = 2 * p.roots.length ∧ p.roots = roots

instance (p : FriProof Fr) (roots : List Digest) (degree factor : ℕ) : Decidable (ShapeChecked p roots degree factor) := by
  unfold ShapeChecked; infer_instance

def claimForgeChecked (y : List Fr) : Res Bool := do
  let v ← Verifier.new contradictoryInst 8
  let proof ← claimForge toyHash ⟨1, by norm_num⟩ v y
  let a ← v.verify toyHash proof
  pure (a && decide (ShapeChecked proof.friProofH1 proof.h1IopRoots v.columnDomain.size 8) &&
    decide (ShapeChecked proof.friProofH2 proof.h2IopRoots v.constraintsDomain.size 8) && decide (proof.fAtZM.length = v.allMasks.length))

/-- **C46 is false even with the shape checked**: a proof is accepted for an instance that no trace satisfies, with the LDE factor 8, for which a check
of the shape is enough in the interactive protocol (`C46_soundness_partial` with slack 2), although both FRI proofs have the right shape and the roots from which the positions were
drawn. The values claimed at `z` were chosen for these positions. -/
theorem C46_shape_accepts_unsatisfiable :
    (∀ trace, ¬ Satisfies contradictoryInst trace (2 ^ 2)) ∧
    ∃ v proof, Verifier.new contradictoryInst 8 = .ok v ∧ proof.fAtZM.length = v.allMasks.length ∧
      ShapeChecked proof.friProofH1 proof.h1IopRoots v.columnDomain.size 8 ∧
      ShapeChecked proof.friProofH2 proof.h2IopRoots v.constraintsDomain.size 8 ∧ v.verify toyHash proof = .ok true := by
  refine ⟨C46_accepts_unsatisfiable.1, ?_⟩
  have h : claimForgeChecked [120, 221, 0, 0] = .ok true := by decide +kernel
  unfold claimForgeChecked at h
  obtain ⟨v, hv, h⟩ := Res.bind_eq_ok.1 h
  obtain ⟨proof, -, h⟩ := Res.bind_eq_ok.1 h
  obtain ⟨a, ha, h⟩ := Res.bind_eq_ok.1 h
  simp only [Res.pure_def, Res.ok.injEq, Bool.and_eq_true, decide_eq_true_eq] at h
  obtain ⟨⟨⟨rfl, h1⟩, h2⟩, h3⟩ := h
  exact ⟨v, proof, hv, h3, h1, h2, ha⟩

/-! The claims matter: others are rejected. -/

example : claimForgeChecked [120, 221, 0, 1] = .ok false := by decide +kernel

/-- The hypotheses of `C46_claims_unbound` and `C46_forgery_any` are met by the instance with three rows and LDE factor 8, for zero words and the polynomial `X`. -/
example : ChallengeOk Fr ∧ Verifiable threeRows 1 2 ∧ ∃ v d1 d2, Verifier.new threeRows (2 ^ 3) = .ok v ∧
    Domain.newForSize Fr (v.columnDomain.size * v.ldeFactor) = .ok d1 ∧
    Domain.newForSize Fr (v.constraintsDomain.size * v.ldeFactor) = .ok d2 ∧
    IsTable [List.replicate 32 (0 : Fr)] 1 (v.columnDomain.size * v.ldeFactor) ∧
    (List.replicate 32 (0 : Fr)).length = v.constraintsDomain.size * v.ldeFactor ∧
    (X : Fr[X]).degree < (2 * v.columnDomain.size : ℕ) ∧ (X : Fr[X]).degree < (2 * v.constraintsDomain.size : ℕ) := by
  have h := threeRows_verifiable
  obtain ⟨v, e3, hz, hsz, hdeg, hspan, hrows, ht, hsat⟩ := threeRows_setup
  have hch : ChallengeOk Fr := by unfold ChallengeOk; decide +kernel
  have hcs : v.columnDomain.size = 4 := by rw [(h.built e3).column]; rfl
  have hf : v.ldeFactor = 8 := (h.built e3).factor
  have hd : Domain.newForSize Fr 32 = .ok (domOf Fr 5) := newForSize_pow (k := 5) (by decide)
  refine ⟨hch, h, v, domOf Fr 5, domOf Fr 5, e3, by rw [hcs, hf]; exact hd, by rw [hsz, hf]; exact hd,
    by rw [hcs, hf]; exact ⟨rfl, by simp⟩, by rw [hsz, hf]; rfl, ?_, ?_⟩
  · rw [hcs, degree_X]; norm_num
  · rw [hsz, degree_X]; norm_num

end Hodor

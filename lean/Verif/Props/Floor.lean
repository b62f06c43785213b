import Verif.Props.Game
import Mathlib.LinearAlgebra.Lagrange

/-!
# C88: a floor for the soundness error
-/

namespace Hodor

open Finset Polynomial Spec

variable {F : Type} [Field F] [DecidableEq F] [StarkField F] (H : List UInt8 → Digest)

/-- What holds except with small shares holds with a large share. -/
theorem le_share {Ω : Type} [Finite Ω] [Nonempty Ω] (A B C : Ω → Prop) (b c : ℚ) (hb : share B ≤ b) (hc : share C ≤ c) (h : ∀ x, ¬ B x → ¬ C x → A x) :
    1 - b - c ≤ share A := by
  have h1 : share (fun _ : Ω => True) = 1 := by
    unfold share
    have : Nat.card {x : Ω // True} = Nat.card Ω := Nat.card_congr (Equiv.subtypeUnivEquiv (fun _ => trivial))
    rw [this]
    exact div_self (by exact_mod_cast Nat.card_pos.ne')
  have h2 : share (fun _ : Ω => True) ≤ share (fun x => A x ∨ (B x ∨ C x)) := share_mono (fun x _ => by
    by_cases hB : B x
    · exact .inr (.inl hB)
    · by_cases hC : C x
      · exact .inr (.inr hC)
      · exact .inl (h x hB hC))
  have h3 := (share_or_le A (fun x => B x ∨ C x)).trans (add_le_add_right ((share_or_le B C).trans (add_le_add hb hc)) _)
  linarith

theorem not_lucky_of_low (run : FriRun F) {ω : F} {n m : ℕ} (hrun : run.Committed H (2 ^ n) m) (hlen : run.roots.length ≤ n) (h : run.AllLow ω) (E : ℕ) :
    ¬ run.LuckyWithin ω n E := by
  rintro ⟨r, root, β, hr, -, Q, S, -, hS, -, -, hno⟩
  have hr' : r < run.roots.length := by
    by_contra hc
    rw [List.getElem?_eq_none (by omega)] at hr
    cases hr
  obtain ⟨P, hP, hw⟩ := h r hr'
  have hl : (run.words r).length = 2 ^ (n - r) := by
    have := (hrun.rounds r root hr).1
    have e : 2 ^ n = 2 ^ (n - r) * 2 ^ r := by rw [← pow_add]; congr 1; omega
    rw [e] at this
    exact Nat.eq_of_mul_eq_mul_right (by positivity) this
  have e2 : 2 ^ (n - r) = 2 ^ (n - (r + 1)) + 2 ^ (n - (r + 1)) := by rw [← two_mul, ← pow_succ']; congr 1; omega
  refine hno ⟨P, ?_, ?_⟩
  · have e3 : run.fin.length * 2 ^ (run.roots.length - r) = 2 * (run.fin.length * 2 ^ (run.roots.length - (r + 1))) := by
      rw [show run.roots.length - r = run.roots.length - (r + 1) + 1 by omega, pow_succ']
      ring
    rwa [e3] at hP
  · intro j hj
    have := (mem_oddBelow.1 (hS hj)).1
    exact ⟨hw j (by omega), hw _ (by omega)⟩

/-- For any instance, a prover that commits to zero words has accepted answers for `2^(K + min 2 e - 1)` of the odd positions of the second domain, whatever the challenges, and with any position of the first. -/
theorem zero_words (hc : ChallengeOk F) (inst : InstanceProperties F) (n k e : ℕ) (h : Verifiable inst n k)
    (h2 : 2 ≤ inst.numRows) (he : 1 ≤ e) (v : Verifier F) (hver : Verifier.new inst (2 ^ e) = .ok v) (d1 d2 : Domain F)
    (hd1 : Domain.newForSize F (v.columnDomain.size * v.ldeFactor) = .ok d1)
    (hd2 : Domain.newForSize F (v.constraintsDomain.size * v.ldeFactor) = .ok d2) :
    ∃ (A2 : Finset ℕ) (fWords : List (List F)) (fRoots : List Digest) (gWord : List F) (gRoot : Digest) (y : List F),
      A2 ⊆ oddBelow d2.size ∧ A2.card * 2 ^ e = 2 ^ min 2 e * (oddBelow d2.size).card ∧
      ∀ cc bc : List (F × F), cc.length = inst.constraints.length → bc.length = inst.boundaryConstraints.length → ∀ z, OutOfDomain v z →
        ∀ αs : List F, αs.length = v.allMasks.length → ∃ (run1 run2 : FriRun F) (answer : ℕ → ℕ → InstanceProof F),
          Commitments.Ok H ⟨fWords, fRoots, gWord, gRoot, y, run1, run2⟩ v 2 ∧
          (∀ E, ¬ run1.LuckyWithin d1.generator (Nat.log 2 d1.size) E) ∧ (∀ E, ¬ run2.LuckyWithin d2.generator (Nat.log 2 d2.size) E) ∧
          ∀ i ∈ oddBelow d1.size, ∀ j ∈ A2, Commitments.Answers ⟨fWords, fRoots, gWord, gRoot, y, run1, run2⟩ v (answer i j) ∧
              Accepts H v (answer i j) ⟨cc, bc, z, αs, i, j⟩ d1.generator d2.generator := by
  have hv := h.built hver
  obtain ⟨K, -, hdom, hK⟩ := hv.domain
  obtain ⟨hKD, hkK⟩ := domain_large hK
  have s1 : v.columnDomain.size * v.ldeFactor = 2 ^ (k + e) := by rw [hv.column, hv.factor]; exact (pow_add _ _ _).symm
  have s2 : v.constraintsDomain.size * v.ldeFactor = 2 ^ (K + e) := by rw [hdom, hv.factor]; exact (pow_add _ _ _).symm
  have hord : ∀ m (d : Domain F), Domain.newForSize F (2 ^ m) = .ok d → m ≤ StarkField.S F ∧ d = domOf F m := by
    intro m d hd
    obtain ⟨M, hM, e1, e2⟩ := newForSize_inv hd
    rw [nextPow2_pow] at e2
    have := Nat.pow_right_injective (le_refl 2) e2
    subst this
    exact ⟨hM, e1⟩
  obtain ⟨hS1, rfl⟩ := hord _ _ (s1 ▸ hd1)
  obtain ⟨hS2, rfl⟩ := hord _ _ (s2 ▸ hd2)
  obtain ⟨ps, eps, hps⟩ := h.maskPairs hv.order
  have hm : v.allMasks = ps.map toMask := hv.masks.trans eps
  let fWords : List (List F) := tab n (fun _ => tab (2 ^ (k + e)) (fun _ => 0))
  have hf : IsTable fWords n (v.columnDomain.size * v.ldeFactor) := by
    rw [s1]
    refine ⟨length_tab _ _, ?_⟩
    intro col hcol
    obtain ⟨i, -, rfl⟩ := List.mem_map.1 hcol
    exact length_tab _ _
  let gWord : List F := tab (2 ^ (K + e)) (fun _ => 0)
  have hg : gWord.length = v.constraintsDomain.size * v.ldeFactor := by rw [s2]; exact length_tab _ _
  obtain ⟨fRoots, hr⟩ := interactive_on H hc inst n k e h h2 he v hver _ _ hd1 hd2 fWords hf
  obtain ⟨gRoot, hr⟩ := hr gWord hg
  have hle : K + min 2 e ≤ K + e := by omega
  have hlog : ∀ m, Nat.log 2 (domOf F m).size = m := fun m => Nat.log_pow (by norm_num) m
  refine ⟨oddBelow (2 ^ (K + min 2 e)), fWords, fRoots, gWord, gRoot, ps.map (fun _ => 0), ?_, ?_, ?_⟩
  · intro j hj
    rw [mem_oddBelow] at hj ⊢
    exact ⟨lt_of_lt_of_le hj.1 (Nat.pow_le_pow_right (by norm_num) hle), hj.2⟩
  · rw [card_oddBelow_pow (by omega)]
    show _ = _ * (oddBelow (2 ^ (K + e))).card
    rw [card_oddBelow_pow (by omega), ← pow_add, ← pow_add]
    congr 1
    omega
  intro cc bc hcc hbc z hz αs hα
  unfold OutOfDomain at hz
  rw [s2] at hz
  have hzN : z ^ 2 ^ (k + e) ≠ 1 := by
    intro hc
    apply hz
    rw [show 2 ^ (K + e) = 2 ^ (k + e) * 2 ^ (K - k) by rw [← pow_add]; congr 1; omega, pow_mul, hc, one_pow]
  have hzk : z ^ 2 ^ k ≠ 1 := by
    intro hc
    apply hzN
    rw [pow_add, pow_mul, hc, one_pow]
  have hpz : ∀ p ∈ ps, p.1 < n ∧ (p.2 * z) ^ 2 ^ (k + e) ≠ 1 := by
    intro p hp'
    refine ⟨(hps p hp').1, ?_⟩
    rw [mul_pow]
    have : p.2 ^ 2 ^ (k + e) = 1 := by rw [pow_add, pow_mul, (hps p hp').2, one_pow]
    rw [this, one_mul]
    exact hzN
  have hy : (ps.map (fun _ => (0 : F))).length = v.allMasks.length := by rw [hm]; simp
  have hbat : v.constraintsBatchedByDensity.flatMap (fun b => b.2) = batched inst k := by rw [hv.batches]; rfl
  obtain ⟨c, hgz⟩ : ∃ c, v.calculateGAtZ cc bc (ps.map (fun _ => 0)) z = .ok c := ⟨_, (calculateGAtZ_iff h hv (cc := cc) (bc := bc) (by rw [hbat, length_batched]; exact hcc) hbc _ z _).2
    ⟨⟨by omega, fun _ => by rw [hv.column]; exact hzk, by
      intro b _ e'
      apply hzk
      rw [e', hv.column]
      show (genOf F k ^ b.atRow) ^ 2 ^ k = 1
      rw [← pow_mul, mul_comm, pow_mul, genOf_pow_card hv.order, one_pow]⟩, rfl⟩⟩
  have hinj : Set.InjOn (fun j : ℕ => genOf F (K + e) ^ j) (oddBelow (2 ^ (K + min 2 e)) : Finset ℕ) := by
    intro a ha b hb hab
    have hle' := Nat.pow_le_pow_right (show 0 < 2 by norm_num) hle
    have ha := (mem_oddBelow.1 (mem_coe.1 ha)).1
    have hb := (mem_oddBelow.1 (mem_coe.1 hb)).1
    exact (genOf_prim hS2).pow_inj (by omega) (by omega) hab
  let Q2 : F[X] := Lagrange.interpolate (oddBelow (2 ^ (K + min 2 e))) (fun j : ℕ => genOf F (K + e) ^ j) (fun j => (0 - c) * (genOf F (K + e) ^ j - z)⁻¹)
  have hQ2 : Q2.degree < (2 * v.constraintsDomain.size : ℕ) := by
    refine lt_of_lt_of_le (Lagrange.degree_interpolate_lt _ hinj) ?_
    rw [card_oddBelow_pow (by omega), hdom]
    show ((2 ^ (K + min 2 e - 1) : ℕ) : WithBot ℕ) ≤ ((2 * 2 ^ K : ℕ) : WithBot ℕ)
    rw [← pow_succ']
    exact Nat.cast_le.2 (Nat.pow_le_pow_right (by norm_num) (by omega))
  have t1 : ∀ idx, idx < (domOf F (k + e)).size → idx % 2 = 1 → True → ∃ opened, mapRes (fun word => rd word idx) fWords = .ok opened ∧
      v.simulateH1 αs idx (domOf F (k + e)) opened (ps.map (fun _ => 0)) z = .ok ((0 : F[X]).eval ((domOf F (k + e)).generator ^ idx)) := by
    intro idx hi ho _
    replace hi : idx < 2 ^ (k + e) := hi
    refine ⟨_, opened_ok (s1 ▸ hf) hi, ?_⟩
    have key := simulateH1_ok v (n := n) (show k + e ≤ StarkField.S F by omega) (fun _ => (0 : F[X])) ps hpz hm αs idx
    have z0 : deepAt (fun _ => (0 : F[X])) z (ps.zip αs) (genOf F (k + e) ^ idx) = 0 := by
      unfold deepAt
      simp
    rw [z0] at key
    simp only [eval_zero] at key ⊢
    have et : tab n (fun r => (fWords.getD r []).getD idx 0) = tab n (fun _ => (0 : F)) := by
      refine tab_congr ?_
      intro r hr
      show ((tab n (fun _ => tab (2 ^ (k + e)) (fun _ => (0 : F)))).getD r []).getD idx 0 = 0
      rw [List.getD_eq_getElem?_getD (l := tab n _), getElem?_tab, if_pos hr, Option.getD_some, List.getD_eq_getElem?_getD, getElem?_tab, if_pos hi, Option.getD_some]
    rw [et]
    exact key
  have t2 : ∀ idx, idx < (domOf F (K + e)).size → idx % 2 = 1 → idx ∈ oddBelow (2 ^ (K + min 2 e)) → ∃ x, rd gWord idx = .ok x ∧
      simulateH2 idx (domOf F (K + e)) x z c = .ok (Q2.eval ((domOf F (K + e)).generator ^ idx)) := by
    intro idx hi ho hA
    replace hi : idx < 2 ^ (K + e) := hi
    refine ⟨0, ?_, ?_⟩
    · show rd (tab (2 ^ (K + e)) (fun _ => (0 : F))) idx = .ok 0
      unfold rd
      rw [getElem?_tab, if_pos hi, Res.expect_some]
    · have e1 : Q2.eval (genOf F (K + e) ^ idx) = (0 - c) * (genOf F (K + e) ^ idx - z)⁻¹ := Lagrange.eval_interpolate_at_node _ hinj hA
      have hne : (domOf F (K + e)).generator ^ idx - z ≠ 0 := by
        intro e'
        apply hz
        rw [← sub_eq_zero.1 e', ← pow_mul, mul_comm, pow_mul]
        show (genOf F (K + e) ^ 2 ^ (K + e)) ^ idx = 1
        rw [genOf_pow_card hS2, one_pow]
      unfold simulateH2
      simp only [inverse_of_ne hne, Res.okOr_some, Res.ok_bind, Res.pure_def, Res.ok.injEq]
      rw [show (domOf F (K + e)).generator = genOf F (K + e) from rfl, e1]
  obtain ⟨run1, run2, answer, hok, l1, l2, hacc⟩ := hr ⟨cc, bc, z, αs, 0, 0⟩ (ps.map (fun _ => 0)) hcc hbc hα hy (fun _ => True) (fun j => j ∈ oddBelow (2 ^ (K + min 2 e))) 0 Q2 c
    (by rw [degree_zero]; exact WithBot.bot_lt_coe _) hQ2 t1 hgz t2
  have g1 := hok.run1
  have g2 := hok.run2
  rw [s1] at g1
  rw [s2] at g2
  have len : ∀ (run : FriRun F) (M m : ℕ), run.Committed H M (2 * 2 ^ m) → run.roots.length ≤ m + 1 := by
    intro run M m hrun
    have := hrun.shape
    rw [← pow_succ'] at this
    have hdvd : 2 ^ run.roots.length ∣ 2 ^ (m + 1) := ⟨_, (this.symm.trans (mul_comm _ _))⟩
    exact (Nat.pow_dvd_pow_iff_le_right (by norm_num)).1 hdvd
  have n1 := len _ _ k (by have := g1; rw [hv.column] at this; exact this)
  have n2 := len _ _ K (by have := g2; rw [hdom] at this; exact this)
  refine ⟨run1, run2, answer, hok, fun E => ?_, fun E => ?_, ?_⟩
  · rw [hlog]
    exact not_lucky_of_low H run1 g1 (le_trans n1 (by omega)) l1 E
  · rw [hlog]
    exact not_lucky_of_low H run2 g2 (le_trans n2 (by omega)) l2 E
  · intro i hi j hj
    have hi := mem_oddBelow.1 hi
    have hj' := mem_oddBelow.1 hj
    exact hacc i j hi.1 hi.2 trivial (lt_of_lt_of_le hj'.1 (Nat.pow_le_pow_right (by norm_num) hle)) hj'.2 hj

/-- **C88** (a floor for the soundness error). For every instance, satisfiable or not, there is a strategy that passes for at least the share `min 1 (4 / LDE factor)` of the draws, less the share of points in the LDE domain of `g`; and
this neither by luck with a FRI challenge nor with FRI runs of another shape than the code's own proofs. -/
theorem C88_soundness_floor (hc : ChallengeOk F) (inst : InstanceProperties F) (n k e : ℕ) (h : Verifiable inst n k)
    (h2 : 2 ≤ inst.numRows) (he : 1 ≤ e) (v : Verifier F) (hver : Verifier.new inst (2 ^ e) = .ok v) (d1 d2 : Domain F)
    (hd1 : Domain.newForSize F (v.columnDomain.size * v.ldeFactor) = .ok d1)
    (hd2 : Domain.newForSize F (v.constraintsDomain.size * v.ldeFactor) = .ok d2) :
    ∃ s : Strategy F, ∀ S : Finset F, S.Nonempty →
      min 1 (4 / 2 ^ e) - (d2.size : ℚ) / S.card ≤
        share (fun x : Draw S inst.constraints.length inst.boundaryConstraints.length v.allMasks.length (oddBelow d1.size) (oddBelow d2.size) =>
          s.Passes H v 2 d1 d2 x.challenges ∧ (∀ E, ¬ (s.commitments x.challenges).run1.LuckyWithin d1.generator (Nat.log 2 d1.size) E) ∧
            ∀ E, ¬ (s.commitments x.challenges).run2.LuckyWithin d2.generator (Nat.log 2 d2.size) E) := by
  classical
  obtain ⟨A2, fWords, fRoots, gWord, gRoot, y, hA, hcard, hr⟩ := zero_words H hc inst n k e h h2 he v hver d1 d2 hd1 hd2
  have hr' : ∀ (cc bc : List (F × F)) (z : F) (αs : List F), ∃ (run1 run2 : FriRun F) (answer : ℕ → ℕ → InstanceProof F),
      cc.length = inst.constraints.length → bc.length = inst.boundaryConstraints.length → OutOfDomain v z → αs.length = v.allMasks.length →
          Commitments.Ok H ⟨fWords, fRoots, gWord, gRoot, y, run1, run2⟩ v 2 ∧
          (∀ E, ¬ run1.LuckyWithin d1.generator (Nat.log 2 d1.size) E) ∧ (∀ E, ¬ run2.LuckyWithin d2.generator (Nat.log 2 d2.size) E) ∧
          ∀ i ∈ oddBelow d1.size, ∀ j ∈ A2, Commitments.Answers ⟨fWords, fRoots, gWord, gRoot, y, run1, run2⟩ v (answer i j) ∧
              Accepts H v (answer i j) ⟨cc, bc, z, αs, i, j⟩ d1.generator d2.generator := by
    intro cc bc z αs
    by_cases hl : cc.length = inst.constraints.length ∧ bc.length = inst.boundaryConstraints.length ∧ OutOfDomain v z ∧ αs.length = v.allMasks.length
    · obtain ⟨r1, r2, a, hr⟩ := hr cc bc hl.1 hl.2.1 z hl.2.2.1 αs hl.2.2.2
      exact ⟨r1, r2, a, fun _ _ _ _ => hr⟩
    · exact ⟨⟨fun _ => [], [], []⟩, ⟨fun _ => [], [], []⟩, fun _ _ => ⟨[], [], H [], [], ⟨0, 0, []⟩, [], [], ⟨[], [], [], 0, 0, 0⟩, ⟨[], [], [], 0, 0, 0⟩⟩, fun h1 h2 h3 h4 => absurd ⟨h1, h2, h3, h4⟩ hl⟩
  choose r1 r2 ans hr' using hr'
  refine ⟨⟨(fWords, fRoots), fun _ _ => (gWord, gRoot), fun _ _ _ => y, fun cc bc z αs => (r1 cc bc z αs, r2 cc bc z αs), ans⟩, fun S hS => ?_⟩
  have hv := h.built hver
  obtain ⟨K, -, hdom, hK⟩ := hv.domain
  have z1 : v.columnDomain.size * v.ldeFactor = 2 ^ (k + e) := by rw [hv.column, hv.factor]; exact (pow_add _ _ _).symm
  have z2 : v.constraintsDomain.size * v.ldeFactor = 2 ^ (K + e) := by rw [hdom, hv.factor]; exact (pow_add _ _ _).symm
  have hp1 := newForSize_size (z1 ▸ hd1)
  have hp2 := newForSize_size (z2 ▸ hd2)
  have c1 : 0 < (oddBelow d1.size).card := by rw [hp1, card_oddBelow_pow (by omega)]; positivity
  have c2 : 0 < (oddBelow d2.size).card := by rw [hp2, card_oddBelow_pow (by omega)]; positivity
  obtain ⟨a0, ha0⟩ := hS
  obtain ⟨i0, hi0⟩ := card_pos.1 c1
  obtain ⟨j0, hj0⟩ := card_pos.1 c2
  have : Nonempty (Draw S inst.constraints.length inst.boundaryConstraints.length v.allMasks.length (oddBelow d1.size) (oddBelow d2.size)) :=
    ⟨⟨fun _ => (⟨a0, ha0⟩, ⟨a0, ha0⟩), fun _ => (⟨a0, ha0⟩, ⟨a0, ha0⟩), ⟨a0, ha0⟩, fun _ => ⟨a0, ha0⟩, (⟨i0, hi0⟩, ⟨j0, hj0⟩)⟩⟩
  have hB := share_positions (S := S) (nc := inst.constraints.length) (nb := inst.boundaryConstraints.length) (nm := v.allMasks.length)
    (P1 := oddBelow d1.size) (P2 := oddBelow d2.size) (fun ch : Challenges F => ch.idx2 ∉ A2) ((oddBelow d1.size ×ˢ (oddBelow d2.size \ A2)).card)
    (fun ch => ⟨oddBelow d1.size ×ˢ (oddBelow d2.size \ A2), le_rfl, fun i j hA hi hj => mem_product.2 ⟨hi, mem_sdiff.2 ⟨hj, hA⟩⟩⟩)
  have hC := share_root (S := S) (nc := inst.constraints.length) (nb := inst.boundaryConstraints.length) (nm := v.allMasks.length)
    (P1 := oddBelow d1.size) (P2 := oddBelow d2.size) d2.size (by rw [hp2]; positivity)
  refine le_trans ?_ (le_share _ _ _ _ _ hB hC ?_)
  · have n1 : (0 : ℚ) < (oddBelow d1.size).card := by exact_mod_cast c1
    have n2 : (0 : ℚ) < (oddBelow d2.size).card := by exact_mod_cast c2
    have hle := card_le_card hA
    have hcard' : (A2.card : ℚ) * 2 ^ e = 2 ^ min 2 e * (oddBelow d2.size).card := by exact_mod_cast hcard
    have hmin : min 1 (4 / 2 ^ e : ℚ) = 2 ^ min 2 e / 2 ^ e := by
      rcases le_total e 2 with h | h
      · rw [min_eq_right h, div_self (by positivity), min_eq_left]
        rw [le_div_iff₀ (by positivity), one_mul]
        calc (2 : ℚ) ^ e ≤ 2 ^ 2 := pow_le_pow_right₀ (by norm_num) h
          _ = 4 := by norm_num
      · rw [min_eq_left h, min_eq_right]
        · norm_num
        · rw [div_le_one (by positivity)]
          calc (4 : ℚ) = 2 ^ 2 := by norm_num
            _ ≤ 2 ^ e := pow_le_pow_right₀ (by norm_num) h
    rw [hmin, card_product, card_sdiff_of_subset hA]
    push_cast [Nat.cast_sub hle]
    have : (2 : ℚ) ^ min 2 e / 2 ^ e = A2.card / (oddBelow d2.size).card := by
      rw [div_eq_div_iff (by positivity) n2.ne', hcard']
    rw [this]
    refine le_of_eq ?_
    field_simp
    ring
  · intro x hx hz
    have hz' : OutOfDomain v x.challenges.z := by
      unfold OutOfDomain
      rw [z2, ← hp2]
      exact hz
    obtain ⟨hok, l1, l2, hacc⟩ := hr' x.challenges.constraintChallenges x.challenges.boundaryChallenges x.challenges.z x.challenges.h1Challenges (by simp [Draw.challenges])
      (by simp [Draw.challenges]) hz' (by simp [Draw.challenges])
    obtain ⟨q1, q2⟩ := hacc x.idx.1 x.idx.1.2 x.idx.2 (not_not.1 hx)
    exact ⟨⟨hok, q1, q2⟩, l1, l2⟩

/-- A concrete case: `conflicting` has no satisfying witness (`Props/Interactive`); with LDE factor 8 and challenges from all of the field of 257 elements, some strategy passes for more than 37 percent of the draws. -/
example : ∃ v d1 d2, Verifier.new conflicting (2 ^ 3) = .ok v ∧
      Domain.newForSize Fr (v.columnDomain.size * v.ldeFactor) = .ok d1 ∧
      Domain.newForSize Fr (v.constraintsDomain.size * v.ldeFactor) = .ok d2 ∧
      ∃ s : Strategy Fr, 37 / 100 < share (fun x : Draw (univ : Finset (ZMod 257)) conflicting.constraints.length conflicting.boundaryConstraints.length v.allMasks.length (oddBelow d1.size) (oddBelow d2.size) =>
          s.Passes H v 2 d1 d2 x.challenges) := by
  have h := conflicting_verifiable
  have hch : ChallengeOk Fr := by unfold ChallengeOk; decide +kernel
  have hss : setupSizes conflicting 8 = .ok (2, 3, 4, 4) := by decide +kernel
  obtain ⟨v, e3⟩ : ∃ v, Verifier.new conflicting (2 ^ 3) = .ok v := by
    cases e : Verifier.new conflicting (2 ^ 3) with
    | ok v => exact ⟨v, rfl⟩
    | err x => unfold setupSizes at hss; rw [show (8 : ℕ) = 2 ^ 3 from rfl, e] at hss; cases hss
    | panic => unfold setupSizes at hss; rw [show (8 : ℕ) = 2 ^ 3 from rfl, e] at hss; cases hss
  have hsz : v.constraintsDomain.size = 4 := by
    unfold setupSizes at hss
    rw [show (8 : ℕ) = 2 ^ 3 from rfl, e3] at hss
    simp only [Res.ok_bind, Res.pure_def, Res.ok.injEq, Prod.mk.injEq] at hss
    exact hss.2.2.2
  have s1 : v.columnDomain.size * v.ldeFactor = 32 := by rw [(h.built e3).column, (h.built e3).factor]; rfl
  have s2 : v.constraintsDomain.size * v.ldeFactor = 32 := by rw [hsz, (h.built e3).factor]; rfl
  have hd : Domain.newForSize Fr 32 = .ok (domOf Fr 5) := newForSize_pow (k := 5) (by decide)
  refine ⟨v, domOf Fr 5, domOf Fr 5, e3, by rw [s1]; exact hd, by rw [s2]; exact hd, ?_⟩
  obtain ⟨s, hs⟩ := C88_soundness_floor H hch conflicting 1 2 3 h (by decide) (by norm_num) v e3 (domOf Fr 5) (domOf Fr 5) (by rw [s1]; exact hd) (by rw [s2]; exact hd)
  have hne : (univ : Finset (ZMod 257)).Nonempty := ⟨0, mem_univ _⟩
  refine ⟨s, lt_of_lt_of_le ?_ ((hs (univ : Finset (ZMod 257)) hne).trans (share_mono (fun x hx => hx.1)))⟩
  have hcard : ((univ : Finset (ZMod 257)).card) = 257 := by rw [card_univ, ZMod.card]
  have hsize : (domOf Fr 5).size = 32 := rfl
  rw [hsize, show (Finset.card (univ : Finset (ZMod 257))) = 257 from hcard]
  rw [min_eq_right (by norm_num)]
  norm_num

/-- Together with C86, for LDE factor 16 and the `2^251` challenges of a field of 252 bits, in the setting of its example: the best strategy passes with a share between 24 and 63 percent. -/
example : (24 / 100 : ℚ) < min 1 (4 / 2 ^ 4) - ((2 ^ 25 : ℕ) : ℚ) / (2 ^ 251 : ℕ) := by
  rw [min_eq_right (by norm_num)]
  norm_num

end Hodor

import Verif.Lemmas.Sampling

/-!
# C46: soundness of the interactive protocol when only part of the queries are answered
-/

namespace Hodor

open Polynomial Finset Spec

variable {F : Type} [Field F] [DecidableEq F] [StarkField F] (H : List UInt8 → Digest)

theorem missing_of_many {s t : Finset ℕ} {B : Finset (ℕ × ℕ)} (hB : B ⊆ s ×ˢ t) {E : ℕ} (hm : (s.card - (E + 1)) * t.card < B.card) :
    (s \ B.image Prod.fst).card ≤ E := by
  have hsub : B.image Prod.fst ⊆ s := by
    intro i hi
    obtain ⟨b, hb, rfl⟩ := mem_image.1 hi
    exact (mem_product.1 (hB hb)).1
  have hle : B.card ≤ (B.image Prod.fst).card * t.card := by
    rw [← card_product]
    refine card_le_card ?_
    intro b hb
    exact mem_product.2 ⟨mem_image_of_mem _ hb, (mem_product.1 (hB hb)).2⟩
  have hlt : s.card - (E + 1) < (B.image Prod.fst).card := Nat.lt_of_mul_lt_mul_right (lt_of_lt_of_le hm hle)
  rw [card_sdiff_of_subset hsub]
  omega

theorem missing_of_many' {s t : Finset ℕ} {B : Finset (ℕ × ℕ)} (hB : B ⊆ s ×ˢ t) {E : ℕ} (hm : s.card * (t.card - (E + 1)) < B.card) :
    (t \ B.image Prod.snd).card ≤ E := by
  have hsub : B.image Prod.snd ⊆ t := by
    intro i hi
    obtain ⟨b, hb, rfl⟩ := mem_image.1 hi
    exact (mem_product.1 (hB hb)).2
  have hle : B.card ≤ s.card * (B.image Prod.snd).card := by
    rw [← card_product]
    refine card_le_card ?_
    intro b hb
    exact mem_product.2 ⟨(mem_product.1 (hB hb)).1, mem_image_of_mem _ hb⟩
  have hlt : t.card - (E + 1) < (B.image Prod.snd).card := Nat.lt_of_mul_lt_mul_left (lt_of_lt_of_le hm hle)
  rw [card_sdiff_of_subset hsub]
  omega

/-- **C46** (partial). A prover commits to words of the registers and of `g`, claims values at `z`, and commits to two FRI runs whose numbers of rounds and of final coefficients stand for `slack` times
the degree bounds. It then has accepted answers for the pairs `B` of odd positions, more than `(N₁ - E₁ - 1) N₂` and more than `N₁ (N₂ - E₂ - 1)` of all the
`N₁ N₂` pairs. Then the instance has a satisfying witness, which can be read off from the committed words by decoding them, or one of the challenges was lucky:
* some mask challenge (one of at most `E₁ (N₁ - E₁ + 2) + 1` values, `C46_mask_luck_half`, and of at most `E₁ + 1` within a third of the distance, `C46_mask_luck`);
* the point (one of at most `slack · constraints domain size + column domain size`);
* one coordinate of a constraint challenge was the only value with a winnable `g`;
* the challenge of a FRI round (`C68_round_luck_half`, `C68_round_luck`);
or the hash function collides on the strings hashed.

So if the instance is not satisfiable, two positions drawn at random are answered with probability at most `max (1 - (E₁+1)/N₁) (1 - (E₂+1)/N₂)` (`C46_query_error_partial`), without luck and collisions.
What is missing: in the code positions and challenges are derived by Fiat–Shamir, and the verifier does not check the shape of the FRI proofs
(C46_forgery, C30). -/
theorem C46_sampled_soundness_partial (hb : numBits F < 256) (hc : ChallengeOk F) (inst : InstanceProperties F) (n k e slack E1 E2 : ℕ) (h : Verifiable inst n k)
    (hs1 : 1 ≤ slack) (he : 1 ≤ e)
    (hdeg : ∀ c ∈ inst.constraints, ∀ t ∈ c.terms, termDegree t ≤ c.degree)
    (hspan : ∀ c ∈ inst.constraints, ∀ d, c.density = .dense d → ∀ t ∈ factors c, ∀ j, t.stepsDifference = .steps j → j ≤ d.span)
    (hrows : ∀ b ∈ inst.boundaryConstraints, b.atRow < inst.numRows)
    (v : Verifier F) (hver : Verifier.new inst (2 ^ e) = .ok v) (d1 d2 : Domain F)
    (hd1 : Domain.newForSize F (v.columnDomain.size * v.ldeFactor) = .ok d1)
    (hd2 : Domain.newForSize F (v.constraintsDomain.size * v.ldeFactor) = .ok d2)
    (hE1 : 2 * E1 + slack * v.columnDomain.size < (oddBelow d1.size).card) (hE2 : 2 * E2 + slack * v.constraintsDomain.size < (oddBelow d2.size).card)
    (c : Commitments F) (hcom : c.Ok H v slack) (ch : Challenges F)
    (hcc : ch.constraintChallenges.length = inst.constraints.length)
    (hbc : ch.boundaryChallenges.length = inst.boundaryConstraints.length)
    (hα : ch.h1Challenges.length = v.allMasks.length) (hz : OutOfDomain v ch.z)
    (answer : ℕ → ℕ → InstanceProof F) (B : Finset (ℕ × ℕ)) (hB : B ⊆ oddBelow d1.size ×ˢ oddBelow d2.size)
    (hm1 : ((oddBelow d1.size).card - (E1 + 1)) * (oddBelow d2.size).card < B.card)
    (hm2 : (oddBelow d1.size).card * ((oddBelow d2.size).card - (E2 + 1)) < B.card)
    (hacc : c.AcceptedAt H v ch d1 d2 answer B) :
    (∃ witness, IsTable witness n inst.numRows ∧ ReadOff v d1 slack E1 c.fWords witness ∧ Satisfies inst (cellR witness) inst.numRows) ∨
      LuckyMaskWithin v d1 slack E1 c.fWords ch.z (c.claimed.take v.allMasks.length) ch.h1Challenges ∨
      (ch.z ∈ consistentPoints v d1 d2 slack E1 E2 c.fWords c.gWord ch.constraintChallenges ch.boundaryChallenges ∧
        LuckyPointWithin v d1 d2 slack E1 E2 c.fWords c.gWord ch.constraintChallenges ch.boundaryChallenges) ∨
      (WinnableWithin v d1 d2 slack E1 E2 c.fWords ch.constraintChallenges ch.boundaryChallenges ∧
        OnlyValue (WinnableWithin v d1 d2 slack E1 E2 c.fWords) ch.constraintChallenges ch.boundaryChallenges) ∨
      c.run1.LuckyWithin d1.generator (Nat.log 2 d1.size) E1 ∨ c.run2.LuckyWithin d2.generator (Nat.log 2 d2.size) E2 ∨
      CollisionAmong H (c.HashedAt H answer B) := by
  by_cases hcol : CollisionAmong H (c.HashedAt H answer B)
  · exact .inr (.inr (.inr (.inr (.inr (.inr hcol)))))
  by_cases hl1 : c.run1.LuckyWithin d1.generator (Nat.log 2 d1.size) E1
  · exact .inr (.inr (.inr (.inr (.inl hl1))))
  by_cases hl2 : c.run2.LuckyWithin d2.generator (Nat.log 2 d2.size) E2
  · exact .inr (.inr (.inr (.inr (.inr (.inl hl2)))))
  by_cases hlm : LuckyMaskWithin v d1 slack E1 c.fWords ch.z (c.claimed.take v.allMasks.length) ch.h1Challenges
  · exact .inr (.inl hlm)
  have hv := h.built hver
  obtain ⟨K, -, hdom, hK⟩ := hv.domain
  have hkK := (domain_large hK).2
  have s1 : v.columnDomain.size * v.ldeFactor = 2 ^ (k + e) := by rw [hv.column, hv.factor]; exact (pow_add _ _ _).symm
  have s2 : v.constraintsDomain.size * v.ldeFactor = 2 ^ (K + e) := by rw [hdom, hv.factor]; exact (pow_add _ _ _).symm
  have s3 : v.constraintsDomain.size = 2 ^ K := by rw [hdom]; rfl
  have s4 : v.columnDomain.size = 2 ^ k := by rw [hv.column]; rfl
  have hreg : v.inst.numRegisters = n := by rw [hv.props]; exact h.registers
  have hbat : v.constraintsBatchedByDensity.flatMap (fun b => b.2) = batched inst k := by rw [hv.batches]; rfl
  have hord : ∀ m (d : Domain F), Domain.newForSize F (2 ^ m) = .ok d → m ≤ StarkField.S F ∧ d = domOf F m := by
    intro m d hd
    obtain ⟨M, hM, e1, e2⟩ := newForSize_inv hd
    rw [nextPow2_pow] at e2
    have := Nat.pow_right_injective (le_refl 2) e2
    subst this
    exact ⟨hM, e1⟩
  have hd1' := hd1
  have hd2' := hd2
  rw [s1] at hd1'
  rw [s2] at hd2'
  obtain ⟨hS1, rfl⟩ := hord _ _ hd1'
  obtain ⟨hS2, rfl⟩ := hord _ _ hd2'
  have z1 : (domOf F (k + e)).size = 2 ^ (k + e) := rfl
  have z2 : (domOf F (K + e)).size = 2 ^ (K + e) := rfl
  rw [z1] at hE1 hB hm1 hm2 hl1
  rw [z2] at hE2 hB hm1 hm2 hl2
  rw [Nat.log_pow (by norm_num)] at hl1 hl2
  have c1 : (oddBelow (2 ^ (k + e))).card = 2 ^ (k + e - 1) := card_oddBelow_pow (by omega)
  have c2 : (oddBelow (2 ^ (K + e))).card = 2 ^ (K + e - 1) := card_oddBelow_pow (by omega)
  have miss1 := missing_of_many hB hm1
  have miss2 := missing_of_many' hB hm2
  have sub1 : B.image Prod.fst ⊆ oddBelow (2 ^ (k + e)) := by
    intro i hi
    obtain ⟨b, hb, rfl⟩ := mem_image.1 hi
    exact (mem_product.1 (hB hb)).1
  have sub2 : B.image Prod.snd ⊆ oddBelow (2 ^ (K + e)) := by
    intro i hi
    obtain ⟨b, hb, rfl⟩ := mem_image.1 hi
    exact (mem_product.1 (hB hb)).2
  rw [c1, s4] at hE1
  rw [c2, s3] at hE2
  have hf : IsTable c.fWords n (2 ^ (k + e)) := by rw [← hreg, ← s1]; exact hcom.f
  obtain ⟨y, hy⟩ : ∃ y, y = c.claimed.take v.allMasks.length := ⟨_, rfl⟩
  rw [← hy] at hlm
  have hzip : v.allMasks.zip y = v.allMasks.zip c.claimed := by rw [hy]; exact zip_take_length _ _
  have hylen : y.length = v.allMasks.length := by
    obtain ⟨b, hbB⟩ : B.Nonempty := by
      rw [← card_pos]; omega
    obtain ⟨a1, a2⟩ := hacc b hbB
    rw [hy, List.length_take]
    have := a2.claims
    rw [a1.claimed] at this
    omega
  have hm : ∀ m ∈ v.allMasks, ∃ r x, r < n ∧ m = ⟨.register r, .mask x⟩ := by rw [hv.masks]; exact h.masks
  -- the opened values are the committed ones
  have hopen : ∀ b ∈ B, ∀ r, r < n → openedValue (answer b.1 b.2).fQueries (.register r) = registersAt c.fWords b.1 (.register r) := by
    intro b hbB r hr
    obtain ⟨a1, a2⟩ := hacc b hbB
    have hi := (mem_oddBelow.1 (mem_product.1 (hB hbB)).1).1
    have ha2 := a2.counts
    rw [hreg] at ha2
    have hr1 : r < (answer b.1 b.2).fQueries.length := by omega
    have hr2 : r < (answer b.1 b.2).fIopRoots.length := by omega
    have hr3 : r < c.fWords.length := by rw [hf.1]; exact hr
    have hr4 : r < c.fRoots.length := by rw [← a1.fRoots]; exact hr2
    obtain ⟨hq, hidx⟩ := a2.registers r _ _ (List.getElem?_eq_getElem hr1) (List.getElem?_eq_getElem hr2)
    have hroot := hcom.fRoots r _ _ (List.getElem?_eq_getElem hr3) (List.getElem?_eq_getElem hr4)
    have er : (answer b.1 b.2).fIopRoots[r] = c.fRoots[r] := by simp only [a1.fRoots]
    rw [er] at hq
    have hidx' : (answer b.1 b.2).fQueries[r].index = b.1 := hidx
    rcases opened_value H hb (hf.2 _ (List.getElem_mem hr3)) hroot hq (by rw [hidx']; exact hi) with hval | hval
    · rw [hidx'] at hval
      simp only [openedValue, List.getElem?_eq_getElem hr1, Option.elim_some, registersAt, List.getD_eq_getElem?_getD, List.getElem?_eq_getElem hr3,
        Option.getD_some, hval]
    · refine absurd (CollisionAmong.mono H ?_ hval) hcol
      rintro s (hs | hs)
      · exact .inl ⟨_, .inl (List.getElem_mem hr3), hs⟩
      · exact .inr ⟨b, hbB, _, .inl (List.getElem_mem hr1), hs⟩
  have hgopen : ∀ b ∈ B, (answer b.1 b.2).gQuery.value = c.gWord.getD b.2 0 := by
    intro b hbB
    obtain ⟨a1, a2⟩ := hacc b hbB
    have hj := (mem_oddBelow.1 (mem_product.1 (hB hbB)).2).1
    have hidx : (answer b.1 b.2).gQuery.index = b.2 := a2.g.2
    have hq := a2.g.1
    rw [a1.gRoot] at hq
    rcases opened_value H hb (hcom.g.1.trans s2) hcom.g.2 hq (by rw [hidx]; exact hj) with hval | hval
    · rw [hidx] at hval
      rw [List.getD_eq_getElem?_getD, hval, Option.getD_some]
    · refine absurd (CollisionAmong.mono H ?_ hval) hcol
      rintro s (hs | hs)
      · exact .inl ⟨_, .inr (.inl rfl), hs⟩
      · exact .inr ⟨b, hbB, _, .inr (.inl rfl), hs⟩
  -- one partner for each position
  have hp1 : ∀ i, ∃ j, i ∈ B.image Prod.fst → (i, j) ∈ B := by
    intro i
    by_cases hi : i ∈ B.image Prod.fst
    · obtain ⟨b, hb, rfl⟩ := mem_image.1 hi
      exact ⟨b.2, fun _ => hb⟩
    · exact ⟨0, fun h => absurd h hi⟩
  have hp2 : ∀ j, ∃ i, j ∈ B.image Prod.snd → (i, j) ∈ B := by
    intro j
    by_cases hj : j ∈ B.image Prod.snd
    · obtain ⟨b, hb, rfl⟩ := mem_image.1 hj
      exact ⟨b.1, fun _ => hb⟩
    · exact ⟨0, fun h => absurd h hj⟩
  choose p1 hp1 using hp1
  choose p2 hp2 using hp2
  have hQ1 : ∃ Q1 : F[X], Q1.degree < (slack * 2 ^ k : ℕ) ∧ ∀ i ∈ B.image Prod.fst,
      deepClaim v.allMasks y ch.h1Challenges (registersAt c.fWords i) ch.z (genOf F (k + e) ^ i) = Q1.eval (genOf F (k + e) ^ i) := by
    have hcr := hcom.run1
    rw [s1, s4] at hcr
    rcases C68_agreement H hb hc c.run1 (k + e) (slack * 2 ^ k) v.columnDomain.size v.ldeFactor E1 hS1 s1 hcr
        (Nat.mul_pos hs1 (Nat.two_pow_pos k)) hE1.le (by omega) _ sub1 miss1 (fun i => (answer i (p1 i)).friProofH1)
        (fun i => deepClaim v.allMasks y ch.h1Challenges (registersAt c.fWords i) ch.z (genOf F (k + e) ^ i))
        (by
          intro i hi
          obtain ⟨a1, a2⟩ := hacc _ (hp1 i hi)
          refine ⟨a1.run1, ?_⟩
          have := a2.h1
          rw [a1.claimed] at this
          refine Eq.trans ?_ this
          congr 1
          unfold deepClaim
          rw [hzip]
          congr 1
          apply List.map_congr_left
          intro q hq
          obtain ⟨r, x, hr, em⟩ := hm _ (List.of_mem_zip (List.of_mem_zip hq).1).1
          rw [em]
          simp only
          rw [← hopen _ (hp1 i hi) r hr]
          rfl) with hp | hl | hl
    · exact hp
    · exact absurd hl hl1
    · refine absurd (CollisionAmong.mono H ?_ hl) hcol
      rintro s (⟨r, hr, hs⟩ | ⟨i, hi, q, hq, hs⟩)
      · exact .inl ⟨_, .inr (.inr (.inl ⟨r, hr, rfl⟩)), hs⟩
      · exact .inr ⟨_, hp1 i hi, q, .inr (.inr (.inl hq)), hs⟩
  have hQ2 : ∃ Q2 : F[X], Q2.degree < (slack * 2 ^ K : ℕ) ∧ ∀ i ∈ B.image Prod.snd,
      (c.gWord.getD i 0 - compositionAt (genOf F k) inst.numRows (degOf inst k) (claimedEnv v.allMasks y) ((batched inst k).zip ch.constraintChallenges)
        (inst.boundaryConstraints.zip ch.boundaryChallenges) ch.z) / (genOf F (K + e) ^ i - ch.z) = Q2.eval (genOf F (K + e) ^ i) := by
    have hcr := hcom.run2
    rw [s2, s3] at hcr
    rcases C68_agreement H hb hc c.run2 (K + e) (slack * 2 ^ K) v.constraintsDomain.size v.ldeFactor E2 hS2 s2 hcr
        (Nat.mul_pos hs1 (Nat.two_pow_pos K)) hE2.le (by omega) _ sub2 miss2 (fun j => (answer (p2 j) j).friProofH2)
        (fun j => (c.gWord.getD j 0 - compositionAt (genOf F k) inst.numRows (degOf inst k) (claimedEnv v.allMasks y) ((batched inst k).zip ch.constraintChallenges)
          (inst.boundaryConstraints.zip ch.boundaryChallenges) ch.z) / (genOf F (K + e) ^ j - ch.z))
        (by
          intro j hj
          obtain ⟨a1, a2⟩ := hacc _ (hp2 j hj)
          refine ⟨a1.run2, ?_⟩
          have := a2.h2
          rw [a1.claimed, hgopen _ (hp2 j hj), hbat, hv.props, hv.power, hv.column] at this
          unfold claimedEnv at this ⊢
          rw [hzip]
          exact this) with hp | hl | hl
    · exact hp
    · exact absurd hl hl2
    · refine absurd (CollisionAmong.mono H ?_ hl) hcol
      rintro s (⟨r, hr, hs⟩ | ⟨j, hj, q, hq, hs⟩)
      · exact .inl ⟨_, .inr (.inr (.inr ⟨r, hr, rfl⟩)), hs⟩
      · exact .inr ⟨_, hp2 j hj, q, .inr (.inr (.inr hq)), hs⟩
  obtain ⟨Q1, hQ1, hv1⟩ := hQ1
  obtain ⟨Q2, hQ2, hv2⟩ := hQ2
  have hcons := consistent_of_answers h he (by omega) hS2 hkK hv hdom hcc hbc hz hylen hα sub1 miss1 miss2 hQ1 hQ2 hv1 hv2 hlm
  by_cases hlp : LuckyPointWithin v (domOf F (k + e)) (domOf F (K + e)) slack E1 E2 c.fWords c.gWord ch.constraintChallenges ch.boundaryChallenges
  · exact .inr (.inr (.inl ⟨hcons, hlp⟩))
  have hwin : WinnableWithin v (domOf F (k + e)) (domOf F (K + e)) slack E1 E2 c.fWords ch.constraintChallenges ch.boundaryChallenges :=
    ⟨c.gWord, hcom.g.1, hlp⟩
  by_cases hsat : Satisfies inst (cellR (extracted n k inst.numRows (decodedPolys (genOf F (k + e)) (2 ^ (k + e)) (slack * 2 ^ k) E1 c.fWords))) inst.numRows
  · refine .inl ⟨_, extracted_table _ _ _ _, ?_, hsat⟩
    obtain ⟨-, P, G, hPG, -⟩ := hcons
    intro m hmm r hr
    obtain ⟨r', x, hr', em⟩ := hm _ hmm
    have : r' = r := by rw [em] at hr; exact Register.register.inj hr
    subst this
    have hP := hPG.f m hmm r' hr
    refine ⟨P r', hP, fun row hrow => ?_⟩
    have hrow : row < inst.numRows := by rw [hv.props] at hrow; exact hrow
    rw [extracted_cell n k inst.numRows _ hr' hrow, hv.column]
    rw [s4] at hP
    rw [← decodedPolys_eq (by omega) hS1 (by omega) hP]
    rfl
  refine .inr (.inr (.inr (.inl ⟨hwin, ?_⟩)))
  exact numerator_luck h hv.order hrows hspan
    (fun _ _ hcc hbc hw => winnableWithin_numerator h hdeg hrows he hs1 (by omega) (by omega) hS2 hv hdom hK hcc hbc hw) hcc hbc hwin hsat

/-- Lucky challenges of a mask are lucky for one line of words. -/
theorem luckyMask_line (v : Verifier F) (d1 : Domain F) (slack E : ℕ) (fWords : List (List F)) (z : F) (y before : List F) (j : ℕ) (T : Finset F)
    (hT : ∀ α ∈ T, LuckyMaskAt v d1 slack E fWords z y before j α) :
    T = ∅ ∨ ∃ u w : ℕ → F, ∀ α ∈ T, LuckyLine (oddBelow d1.size) (fun i => d1.generator ^ i) (slack * v.columnDomain.size) E u w α := by
  rcases T.eq_empty_or_nonempty with h0 | ⟨α, hα⟩
  · exact .inl h0
  · right
    obtain ⟨mk, c, h1, h2, -⟩ := hT α hα
    refine ⟨fun i => deepClaim (v.allMasks.take j) y before (registersAt fWords i) z (d1.generator ^ i),
      fun i => (registersAt fWords i mk.register - c) / (d1.generator ^ i - maskOf mk * z), fun γ hγ => ?_⟩
    obtain ⟨_, _, h1', h2', h3⟩ := hT γ hγ
    rw [h1] at h1'
    rw [h2] at h2'
    cases h1'
    cases h2'
    exact h3

/-- **C46 (rarity of luck with the masks).** Given the challenges of the masks before it, at most `E + 1` field elements are lucky as the challenge of the `j`-th mask. -/
theorem C46_mask_luck (v : Verifier F) (d1 : Domain F) (m slack E : ℕ) (hd1 : Domain.newForSize F (2 ^ m) = .ok d1)
    (hE : 3 * E + slack * v.columnDomain.size ≤ (oddBelow d1.size).card) (fWords : List (List F)) (z : F) (y before : List F) (j : ℕ)
    (T : Finset F) (hT : ∀ α ∈ T, LuckyMaskAt v d1 slack E fWords z y before j α) : T.card ≤ E + 1 := by
  obtain ⟨M, hM, e1, e2⟩ := newForSize_inv hd1
  subst e1
  rcases luckyMask_line v _ slack E fWords z y before j T hT with h0 | ⟨u, w, h0⟩
  · rw [h0, card_empty]
    omega
  · exact luckyLine_card (genOf_injOn hM) hE T h0

/-- **C46 (rarity of luck with the masks, up to half the distance).** Given the challenges of the masks before it, at most `E (N - E + 2) + 1` field elements are lucky as the challenge of the `j`-th mask,
`N` the number of odd positions. -/
theorem C46_mask_luck_half (v : Verifier F) (d1 : Domain F) (m slack E : ℕ) (hd1 : Domain.newForSize F (2 ^ m) = .ok d1)
    (hE : 2 * E + slack * v.columnDomain.size ≤ (oddBelow d1.size).card) (fWords : List (List F)) (z : F) (y before : List F) (j : ℕ)
    (T : Finset F) (hT : ∀ α ∈ T, LuckyMaskAt v d1 slack E fWords z y before j α) : T.card ≤ E * ((oddBelow d1.size).card - E + 2) + 1 := by
  obtain ⟨M, hM, e1, e2⟩ := newForSize_inv hd1
  subst e1
  rcases luckyMask_line v _ slack E fWords z y before j T hT with h0 | ⟨u, w, h0⟩
  · rw [h0, card_empty]
    omega
  · exact luckyLine_card_half (genOf_injOn hM) hE T h0

/-- **C46 (queries).** For an instance that no witness satisfies, and without luck and collisions, the pairs of positions with an accepted answer are at most
`max ((N₁ - E₁ - 1) N₂) (N₁ (N₂ - E₂ - 1))` of the `N₁ N₂` pairs. -/
theorem C46_query_error_partial (hb : numBits F < 256) (hc : ChallengeOk F) (inst : InstanceProperties F) (n k e slack E1 E2 : ℕ) (h : Verifiable inst n k)
    (hs1 : 1 ≤ slack) (he : 1 ≤ e)
    (hdeg : ∀ c ∈ inst.constraints, ∀ t ∈ c.terms, termDegree t ≤ c.degree)
    (hspan : ∀ c ∈ inst.constraints, ∀ d, c.density = .dense d → ∀ t ∈ factors c, ∀ j, t.stepsDifference = .steps j → j ≤ d.span)
    (hrows : ∀ b ∈ inst.boundaryConstraints, b.atRow < inst.numRows)
    (hno : ¬ ∃ witness, IsTable witness n inst.numRows ∧ Satisfies inst (cellR witness) inst.numRows)
    (v : Verifier F) (hver : Verifier.new inst (2 ^ e) = .ok v) (d1 d2 : Domain F)
    (hd1 : Domain.newForSize F (v.columnDomain.size * v.ldeFactor) = .ok d1)
    (hd2 : Domain.newForSize F (v.constraintsDomain.size * v.ldeFactor) = .ok d2)
    (hE1 : 2 * E1 + slack * v.columnDomain.size < (oddBelow d1.size).card) (hE2 : 2 * E2 + slack * v.constraintsDomain.size < (oddBelow d2.size).card)
    (c : Commitments F) (hcom : c.Ok H v slack) (ch : Challenges F)
    (hcc : ch.constraintChallenges.length = inst.constraints.length)
    (hbc : ch.boundaryChallenges.length = inst.boundaryConstraints.length)
    (hα : ch.h1Challenges.length = v.allMasks.length) (hz : OutOfDomain v ch.z)
    (answer : ℕ → ℕ → InstanceProof F) (B : Finset (ℕ × ℕ)) (hB : B ⊆ oddBelow d1.size ×ˢ oddBelow d2.size)
    (hacc : c.AcceptedAt H v ch d1 d2 answer B)
    (l1 : ¬ LuckyMaskWithin v d1 slack E1 c.fWords ch.z (c.claimed.take v.allMasks.length) ch.h1Challenges)
    (l2 : ¬ (ch.z ∈ consistentPoints v d1 d2 slack E1 E2 c.fWords c.gWord ch.constraintChallenges ch.boundaryChallenges ∧
        LuckyPointWithin v d1 d2 slack E1 E2 c.fWords c.gWord ch.constraintChallenges ch.boundaryChallenges))
    (l3 : ¬ (WinnableWithin v d1 d2 slack E1 E2 c.fWords ch.constraintChallenges ch.boundaryChallenges ∧
        OnlyValue (WinnableWithin v d1 d2 slack E1 E2 c.fWords) ch.constraintChallenges ch.boundaryChallenges))
    (l4 : ¬ c.run1.LuckyWithin d1.generator (Nat.log 2 d1.size) E1) (l5 : ¬ c.run2.LuckyWithin d2.generator (Nat.log 2 d2.size) E2)
    (l6 : ¬ CollisionAmong H (c.HashedAt H answer B)) :
    B.card ≤ max (((oddBelow d1.size).card - (E1 + 1)) * (oddBelow d2.size).card) ((oddBelow d1.size).card * ((oddBelow d2.size).card - (E2 + 1))) := by
  by_contra hcon
  rw [not_le, max_lt_iff] at hcon
  rcases C46_sampled_soundness_partial H hb hc inst n k e slack E1 E2 h hs1 he hdeg hspan hrows v hver d1 d2 hd1 hd2 hE1 hE2 c hcom ch hcc hbc hα hz answer B hB
    hcon.1 hcon.2 hacc with h | h | h | h | h | h | h
  · exact hno ⟨_, h.choose_spec.1, h.choose_spec.2.2⟩
  · exact l1 h
  · exact l2 h
  · exact l3 h
  · exact l4 h
  · exact l5 h
  · exact l6 h

/-- The hypotheses of `C46_sampled_soundness_partial` are met by the instance with three rows, LDE factor 8, slack 2, `E₁ = E₂ = 3`, the point `3`, any challenges, when position 1 is never answered. -/
example (cc bc : List (Fr × Fr)) (hcc : cc.length = 2) (hbc : bc.length = 1) (αs : List Fr) :
    numBits Fr < 256 ∧ ChallengeOk Fr ∧ Verifiable threeRows 1 2 ∧ ∃ v d1 d2, Verifier.new threeRows (2 ^ 3) = .ok v ∧
      Domain.newForSize Fr (v.columnDomain.size * v.ldeFactor) = .ok d1 ∧
      Domain.newForSize Fr (v.constraintsDomain.size * v.ldeFactor) = .ok d2 ∧ OutOfDomain v 3 ∧
      2 * 3 + 2 * v.columnDomain.size < (oddBelow d1.size).card ∧ 2 * 3 + 2 * v.constraintsDomain.size < (oddBelow d2.size).card ∧
      ((oddBelow d1.size).card - 4) * (oddBelow d2.size).card < ((oddBelow d1.size).erase 1 ×ˢ oddBelow d2.size).card ∧
      (oddBelow d1.size).card * ((oddBelow d2.size).card - 4) < ((oddBelow d1.size).erase 1 ×ˢ oddBelow d2.size).card ∧
      (αs.length = v.allMasks.length → ∃ (c : Commitments Fr) (answer : ℕ → ℕ → InstanceProof Fr), c.Ok H v 2 ∧
        c.AcceptedAt H v ⟨cc, bc, 3, αs, 1, 1⟩ d1 d2 answer ((oddBelow d1.size).erase 1 ×ˢ oddBelow d2.size)) := by
  have h := threeRows_verifiable
  obtain ⟨v, e3, hz, hsz, hdeg, hspan, hrows, ht, hsat⟩ := threeRows_setup
  have hch : ChallengeOk Fr := by unfold ChallengeOk; decide +kernel
  have hcs : v.columnDomain.size = 4 := by rw [(h.built e3).column]; rfl
  have hd1 : Domain.newForSize Fr (v.columnDomain.size * v.ldeFactor) = .ok (domOf Fr 5) := by
    rw [(h.built e3).column, (h.built e3).factor]
    exact newForSize_pow (k := 5) (by decide)
  have hd2 : Domain.newForSize Fr (v.constraintsDomain.size * v.ldeFactor) = .ok (domOf Fr 5) := by
    rw [hsz, (h.built e3).factor]
    exact newForSize_pow (k := 5) (by decide)
  have hc5 : (oddBelow (domOf Fr 5).size).card = 16 := card_oddBelow 4
  have hc4 : ((oddBelow (domOf Fr 5).size).erase 1).card = 15 := by
    rw [card_erase_of_mem (mem_oddBelow.2 ⟨by show 1 < 2 ^ 5; norm_num, rfl⟩), hc5]
  refine ⟨by decide +kernel, hch, h, v, _, _, e3, hd1, hd2, hz, by rw [hcs, hc5]; norm_num, by rw [hsz, hc5]; norm_num,
    by rw [card_product, hc5, hc4]; norm_num, by rw [card_product, hc5, hc4]; norm_num, ?_⟩
  intro hα
  obtain ⟨fWords, fRoots, hrest⟩ := C46_interactive_complete H hch threeRows 1 2 3 h (by decide) (by norm_num)
    ⟨doubling, by simp [threeRows, mixedInst], by decide⟩ hdeg hrows v e3 _ _ hd1 hd2 _ ht hsat
  obtain ⟨gWord, gRoot, hrest⟩ := hrest cc bc hcc hbc
  obtain ⟨claimed, hrest⟩ := hrest 3 hz
  obtain ⟨run1, run2, answer, hok, hacc⟩ := hrest αs hα
  refine ⟨_, answer, hok, ?_⟩
  intro b hb
  obtain ⟨h1, h2⟩ := mem_product.1 hb
  have h1 := mem_oddBelow.1 (mem_of_mem_erase h1)
  have h2 := mem_oddBelow.1 h2
  exact hacc 1 1 b.1 b.2 h1.1 h1.2 h2.1 h2.2

end Hodor

import Verif.Lemmas.Game
import Verif.Props.Sampling

/-!
# C86: soundness error against independent challenges
-/

namespace Hodor

open Finset Polynomial Spec

variable {F : Type} [Field F] [DecidableEq F] [StarkField F] (H : List UInt8 → Digest)

section counts

variable {S : Finset F} {nc nb nm : ℕ} {P1 P2 : Finset ℕ}

omit [Field F] [DecidableEq F] [StarkField F] in
theorem card_subtype_le_one {A : S → Prop} (h : ∀ a b, A a → A b → a = b) : Nat.card {a // A a} ≤ 1 := by
  have : Subsingleton {a // A a} := ⟨fun a b => Subtype.ext (h _ _ a.2 b.2)⟩
  exact Finite.card_le_one_iff_subsingleton.2 this

omit [Field F] [DecidableEq F] [StarkField F] in
/-- The share of constraint challenges for which `W` holds but would fail with any other value of one of them. -/
theorem share_onlyValue (W : List (F × F) → List (F × F) → Prop) :
    share (fun x : Draw S nc nb nm P1 P2 => W x.challenges.constraintChallenges x.challenges.boundaryChallenges ∧
      OnlyValue W x.challenges.constraintChallenges x.challenges.boundaryChallenges) ≤ 2 * (nc + nb) / S.card := by
  have hS : Nat.card S = S.card := by simp
  let A1 (j : Fin nc) (x : Draw S nc nb nm P1 P2) : Prop := W x.challenges.constraintChallenges x.challenges.boundaryChallenges ∧
    ∀ y, W (x.challenges.constraintChallenges.set j (y, (x.cc j).2)) x.challenges.boundaryChallenges → y = (x.cc j).1
  let A2 (j : Fin nc) (x : Draw S nc nb nm P1 P2) : Prop := W x.challenges.constraintChallenges x.challenges.boundaryChallenges ∧
    ∀ y, W (x.challenges.constraintChallenges.set j ((x.cc j).1, y)) x.challenges.boundaryChallenges → y = (x.cc j).2
  let B1 (j : Fin nb) (x : Draw S nc nb nm P1 P2) : Prop := W x.challenges.constraintChallenges x.challenges.boundaryChallenges ∧
    ∀ y, W x.challenges.constraintChallenges (x.challenges.boundaryChallenges.set j (y, (x.bc j).2)) → y = (x.bc j).1
  let B2 (j : Fin nb) (x : Draw S nc nb nm P1 P2) : Prop := W x.challenges.constraintChallenges x.challenges.boundaryChallenges ∧
    ∀ y, W x.challenges.constraintChallenges (x.challenges.boundaryChallenges.set j ((x.bc j).1, y)) → y = (x.bc j).2
  have a1 : ∀ j, share (A1 j) ≤ (1 : ℕ) / S.card := by
    intro j
    rw [← hS]
    refine share_le_of_part (fun x => (x.cc j).1) (fun x a => { x with cc := Function.update x.cc j (a, (x.cc j).2) }) ?_ ?_ ?_ _ 1 ?_
    · intro x a; simp
    · intro x; simp
    · intro x a b; simp
    · intro x
      refine card_subtype_le_one ?_
      rintro a b ⟨ha, -⟩ ⟨-, hb⟩
      have e : ∀ c : S, (Draw.challenges { x with cc := Function.update x.cc j (c, (x.cc j).2) }).constraintChallenges =
          x.challenges.constraintChallenges.set j (c.1, (x.cc j).2.1) := by
        intro c
        unfold Draw.challenges
        dsimp only
        rw [← ofFn_update_set]
        congr 1
        funext i
        by_cases h : i = j
        · subst h; simp
        · simp [Function.update_of_ne h]
      rw [e] at ha hb
      have := hb a.1 (by rw [List.set_set]; simp only [Function.update_self]; exact ha)
      exact Subtype.ext (by simpa using this)
  have a2 : ∀ j, share (A2 j) ≤ (1 : ℕ) / S.card := by
    intro j
    rw [← hS]
    refine share_le_of_part (fun x => (x.cc j).2) (fun x a => { x with cc := Function.update x.cc j ((x.cc j).1, a) }) ?_ ?_ ?_ _ 1 ?_
    · intro x a; simp
    · intro x; simp
    · intro x a b; simp
    · intro x
      refine card_subtype_le_one ?_
      rintro a b ⟨ha, -⟩ ⟨-, hb⟩
      have e : ∀ c : S, (Draw.challenges { x with cc := Function.update x.cc j ((x.cc j).1, c) }).constraintChallenges =
          x.challenges.constraintChallenges.set j ((x.cc j).1.1, c.1) := by
        intro c
        unfold Draw.challenges
        dsimp only
        rw [← ofFn_update_set]
        congr 1
        funext i
        by_cases h : i = j
        · subst h; simp
        · simp [Function.update_of_ne h]
      rw [e] at ha hb
      have := hb a.1 (by rw [List.set_set]; simp only [Function.update_self]; exact ha)
      exact Subtype.ext (by simpa using this)
  have b1 : ∀ j, share (B1 j) ≤ (1 : ℕ) / S.card := by
    intro j
    rw [← hS]
    refine share_le_of_part (fun x => (x.bc j).1) (fun x a => { x with bc := Function.update x.bc j (a, (x.bc j).2) }) ?_ ?_ ?_ _ 1 ?_
    · intro x a; simp
    · intro x; simp
    · intro x a b; simp
    · intro x
      refine card_subtype_le_one ?_
      rintro a b ⟨ha, -⟩ ⟨-, hb⟩
      have e : ∀ c : S, (Draw.challenges { x with bc := Function.update x.bc j (c, (x.bc j).2) }).boundaryChallenges =
          x.challenges.boundaryChallenges.set j (c.1, (x.bc j).2.1) := by
        intro c
        unfold Draw.challenges
        dsimp only
        rw [← ofFn_update_set]
        congr 1
        funext i
        by_cases h : i = j
        · subst h; simp
        · simp [Function.update_of_ne h]
      rw [e] at ha hb
      have := hb a.1 (by rw [List.set_set]; simp only [Function.update_self]; exact ha)
      exact Subtype.ext (by simpa using this)
  have b2 : ∀ j, share (B2 j) ≤ (1 : ℕ) / S.card := by
    intro j
    rw [← hS]
    refine share_le_of_part (fun x => (x.bc j).2) (fun x a => { x with bc := Function.update x.bc j ((x.bc j).1, a) }) ?_ ?_ ?_ _ 1 ?_
    · intro x a; simp
    · intro x; simp
    · intro x a b; simp
    · intro x
      refine card_subtype_le_one ?_
      rintro a b ⟨ha, -⟩ ⟨-, hb⟩
      have e : ∀ c : S, (Draw.challenges { x with bc := Function.update x.bc j ((x.bc j).1, c) }).boundaryChallenges =
          x.challenges.boundaryChallenges.set j ((x.bc j).1.1, c.1) := by
        intro c
        unfold Draw.challenges
        dsimp only
        rw [← ofFn_update_set]
        congr 1
        funext i
        by_cases h : i = j
        · subst h; simp
        · simp [Function.update_of_ne h]
      rw [e] at ha hb
      have := hb a.1 (by rw [List.set_set]; simp only [Function.update_self]; exact ha)
      exact Subtype.ext (by simpa using this)
  have hall : share (fun x : Draw S nc nb nm P1 P2 => W x.challenges.constraintChallenges x.challenges.boundaryChallenges ∧
      OnlyValue W x.challenges.constraintChallenges x.challenges.boundaryChallenges) ≤
      share (fun x : Draw S nc nb nm P1 P2 => ((∃ j, A1 j x) ∨ (∃ j, A2 j x)) ∨ ((∃ j, B1 j x) ∨ ∃ j, B2 j x)) := by
    refine share_mono ?_
    rintro x ⟨hw, (⟨j, p, hp, h | h⟩ | ⟨j, p, hp, h | h⟩)⟩
    all_goals
      obtain ⟨hj, e⟩ := List.getElem?_eq_some_iff.1 hp
      simp only [Draw.challenges, List.length_ofFn] at hj
      simp only [Draw.challenges, List.getElem_ofFn] at e
      subst e
    · exact .inl (.inl ⟨⟨j, hj⟩, hw, h⟩)
    · exact .inl (.inr ⟨⟨j, hj⟩, hw, h⟩)
    · exact .inr (.inl ⟨⟨j, hj⟩, hw, h⟩)
    · exact .inr (.inr ⟨⟨j, hj⟩, hw, h⟩)
  refine hall.trans ((share_or_le _ _).trans ?_)
  have c1 := (share_or_le (fun x => ∃ j, A1 j x) (fun x => ∃ j, A2 j x)).trans (add_le_add (share_exists_le _ _ _ a1) (share_exists_le _ _ _ a2))
  have c2 := (share_or_le (fun x => ∃ j, B1 j x) (fun x => ∃ j, B2 j x)).trans (add_le_add (share_exists_le _ _ _ b1) (share_exists_le _ _ _ b2))
  refine (add_le_add c1 c2).trans (le_of_eq ?_)
  push_cast
  ring

omit [Field F] [DecidableEq F] [StarkField F] in
/-- The share of points in a set fixed before the point is drawn. -/
theorem share_point (T : List (F × F) → List (F × F) → Set F) (K : ℕ) (hT : ∀ cc bc, (T cc bc).encard ≤ K) :
    share (fun x : Draw S nc nb nm P1 P2 => x.challenges.z ∈ T x.challenges.constraintChallenges x.challenges.boundaryChallenges) ≤ K / S.card := by
  have hS : Nat.card S = S.card := by simp
  rw [← hS]
  refine share_le_of_part (fun x => x.z) (fun x a => { x with z := a }) ?_ ?_ ?_ _ K ?_
  · intro x a; rfl
  · intro x; rfl
  · intro x a b; rfl
  · intro x
    have h := hT x.challenges.constraintChallenges x.challenges.boundaryChallenges
    have hf : (T x.challenges.constraintChallenges x.challenges.boundaryChallenges).Finite :=
      Set.finite_of_encard_le_coe h
    have := hf.to_subtype
    have h1 : Nat.card (T x.challenges.constraintChallenges x.challenges.boundaryChallenges) ≤ K := by
      rw [← hf.cast_ncard_eq] at h
      exact_mod_cast h
    refine (Nat.card_le_card_of_injective (fun a : {a : S // _} => (⟨a.1.1, a.2⟩ : T x.challenges.constraintChallenges x.challenges.boundaryChallenges)) ?_).trans h1
    intro a b e
    exact Subtype.ext (Subtype.ext (Subtype.mk.inj e))

omit [Field F] [DecidableEq F] [StarkField F] in
/-- The share of mask challenges one of which has one of at most `K` values that are fixed by what was drawn before it. -/
theorem share_mask (L : List (F × F) → List (F × F) → F → List F → ℕ → F → Prop) (K : ℕ)
    (hL : ∀ cc bc z before j (T : Finset F), (∀ α ∈ T, L cc bc z before j α) → T.card ≤ K) :
    share (fun x : Draw S nc nb nm P1 P2 => ∃ (j : ℕ) (α : F), x.challenges.h1Challenges[j]? = some α ∧
      L x.challenges.constraintChallenges x.challenges.boundaryChallenges x.challenges.z (x.challenges.h1Challenges.take j) j α) ≤ nm * (K / S.card) := by
  classical
  have hS : Nat.card S = S.card := by simp
  let A (j : Fin nm) (x : Draw S nc nb nm P1 P2) : Prop :=
    L x.challenges.constraintChallenges x.challenges.boundaryChallenges x.challenges.z (x.challenges.h1Challenges.take j) j (x.α j)
  refine (share_mono (B := fun x => ∃ j, A j x) ?_).trans (share_exists_le _ _ _ ?_)
  · rintro x ⟨j, α, hα, h⟩
    obtain ⟨hj, e⟩ := List.getElem?_eq_some_iff.1 hα
    simp only [Draw.challenges, List.length_ofFn] at hj
    simp only [Draw.challenges, List.getElem_ofFn] at e
    subst e
    exact ⟨⟨j, hj⟩, h⟩
  · intro j
    rw [← hS]
    refine share_le_of_part (fun x => x.α j) (fun x a => { x with α := Function.update x.α j a }) ?_ ?_ ?_ _ K ?_
    · intro x a; simp
    · intro x; simp
    · intro x a b; simp
    · intro x
      have e : ∀ c : S, (Draw.challenges { x with α := Function.update x.α j c }).h1Challenges.take j = x.challenges.h1Challenges.take j := by
        intro c
        unfold Draw.challenges
        dsimp only
        rw [← take_ofFn_update (fun i => (x.α i).1) j c.1]
        congr 2
        funext i
        by_cases h : i = j
        · subst h; simp
        · simp [Function.update_of_ne h]
      have hT := hL x.challenges.constraintChallenges x.challenges.boundaryChallenges x.challenges.z (x.challenges.h1Challenges.take j) j
        (S.filter (L x.challenges.constraintChallenges x.challenges.boundaryChallenges x.challenges.z (x.challenges.h1Challenges.take j) j))
        (fun α hα => (mem_filter.1 hα).2)
      refine le_trans ?_ hT
      rw [← Fintype.card_coe, ← Nat.card_eq_fintype_card]
      refine Nat.card_le_card_of_injective (fun a : {a : S // _} => ⟨a.1.1, ?_⟩) ?_
      · have h := a.2
        simp only [A, e, Function.update_self] at h
        exact mem_filter.2 ⟨a.1.2, h⟩
      · intro a b e
        exact Subtype.ext (Subtype.ext (Subtype.mk.inj e))


omit [StarkField F] in
/-- The share of points with `z ^ N = 1`. -/
theorem share_root (N : ℕ) (hN : 0 < N) : share (fun x : Draw S nc nb nm P1 P2 => x.challenges.z ^ N = 1) ≤ (N : ℚ) / S.card := by
  refine share_point (fun _ _ => {z : F | z ^ N = 1}) N ?_
  intro _ _
  refine (Set.encard_le_encard (t := ((nthRoots N (1 : F)).toFinset : Set F)) ?_).trans ?_
  · intro z hz
    rw [Finset.mem_coe, Multiset.mem_toFinset, mem_nthRoots hN]
    exact hz
  · rw [Set.encard_coe_eq_coe_finsetCard]
    exact Nat.cast_le.2 ((Multiset.toFinset_card_le _).trans (card_nthRoots _ _))

/-- The share of lucky points. -/
theorem share_lucky_point (v : Verifier F) (d1 d2 : Domain F) (slack E1 E2 : ℕ) (fWords : List (List F)) (g : List (F × F) → List (F × F) → List F) :
    share (fun x : Draw S nc nb nm P1 P2 => x.challenges.z ∈ consistentPoints v d1 d2 slack E1 E2 fWords (g x.challenges.constraintChallenges x.challenges.boundaryChallenges)
        x.challenges.constraintChallenges x.challenges.boundaryChallenges ∧
      LuckyPointWithin v d1 d2 slack E1 E2 fWords (g x.challenges.constraintChallenges x.challenges.boundaryChallenges) x.challenges.constraintChallenges x.challenges.boundaryChallenges) ≤
      ((slack * v.constraintsDomain.size + v.columnDomain.size : ℕ) : ℚ) / S.card := by
  refine share_point (fun cc bc => {z | z ∈ consistentPoints v d1 d2 slack E1 E2 fWords (g cc bc) cc bc ∧ LuckyPointWithin v d1 d2 slack E1 E2 fWords (g cc bc) cc bc}) _ ?_
  intro cc bc
  by_cases hl : LuckyPointWithin v d1 d2 slack E1 E2 fWords (g cc bc) cc bc
  · refine (Set.encard_le_encard (fun z hz => hz.1)).trans ?_
    unfold LuckyPointWithin at hl
    exact_mod_cast hl
  · refine (Set.encard_le_encard (t := ∅) (fun z hz => absurd hz.2 hl)).trans ?_
    simp

/-- The share of mask challenges with luck. -/
theorem share_lucky_mask (v : Verifier F) (d1 : Domain F) (m slack E N : ℕ) (hd1 : Domain.newForSize F (2 ^ m) = .ok d1) (hN : (oddBelow d1.size).card = N)
    (hE : 2 * E + slack * v.columnDomain.size ≤ N) (fWords : List (List F)) (y : List (F × F) → List (F × F) → F → List F) :
    share (fun x : Draw S nc nb nm P1 P2 => LuckyMaskWithin v d1 slack E fWords x.challenges.z
      (y x.challenges.constraintChallenges x.challenges.boundaryChallenges x.challenges.z) x.challenges.h1Challenges) ≤ nm * (((E * (N - E + 2) + 1 : ℕ) : ℚ) / S.card) := by
  refine share_mask (fun cc bc z before j α => LuckyMaskAt v d1 slack E fWords z (y cc bc z) before j α) _ ?_
  intro cc bc z before j T hT
  have := C46_mask_luck_half v d1 m slack E hd1 (by rw [hN]; exact hE) fWords z _ before j T hT
  rwa [hN] at this

omit [Field F] [DecidableEq F] [StarkField F] in
/-- The share of positions, given all else. -/
theorem share_positions (A : Challenges F → Prop) (K : ℕ)
    (hK : ∀ ch : Challenges F, ∃ B : Finset (ℕ × ℕ), B.card ≤ K ∧ ∀ i j, A { ch with idx1 := i, idx2 := j } → i ∈ P1 → j ∈ P2 → (i, j) ∈ B) :
    share (fun x : Draw S nc nb nm P1 P2 => A x.challenges) ≤ (K : ℚ) / (P1.card * P2.card) := by
  have hS : (Nat.card (P1 × P2) : ℚ) = P1.card * P2.card := by simp
  rw [← hS]
  refine share_le_of_part (fun x => x.idx) (fun x a => { x with idx := a }) ?_ ?_ ?_ _ K ?_
  · intro x a; rfl
  · intro x; rfl
  · intro x a b; rfl
  · intro x
    obtain ⟨B, hB, hB'⟩ := hK x.challenges
    refine le_trans ?_ hB
    rw [← Fintype.card_coe, ← Nat.card_eq_fintype_card]
    refine Nat.card_le_card_of_injective (fun a : {a : P1 × P2 // _} => ⟨(a.1.1.1, a.1.2.1), hB' _ _ a.2 a.1.1.2 a.1.2.2⟩) ?_
    intro a b e
    have e := Subtype.mk.inj e
    have e1 := (Prod.mk.inj e).1
    have e2 := (Prod.mk.inj e).2
    exact Subtype.ext (Prod.ext (Subtype.ext e1) (Subtype.ext e2))

end counts

theorem mem_passing (s : Strategy F) (v : Verifier F) (slack : ℕ) (d1 d2 : Domain F) (ch : Challenges F) (b : ℕ × ℕ) :
    b ∈ s.passing H v slack d1 d2 ch ↔ b ∈ oddBelow d1.size ×ˢ oddBelow d2.size ∧ s.Passes H v slack d1 d2 { ch with idx1 := b.1, idx2 := b.2 } := by
  classical
  exact mem_filter

theorem passing_subset (s : Strategy F) (v : Verifier F) (slack : ℕ) (d1 d2 : Domain F) (ch : Challenges F) :
    s.passing H v slack d1 d2 ch ⊆ oddBelow d1.size ×ˢ oddBelow d2.size :=
  fun b hb => ((mem_passing H s v slack d1 d2 ch b).1 hb).1

omit [DecidableEq F] in
theorem newForSize_size {m : ℕ} {d : Domain F} (h : Domain.newForSize F (2 ^ m) = .ok d) : d.size = 2 ^ m := by
  obtain ⟨M, hM, e1, e2⟩ := newForSize_inv h
  rw [nextPow2_pow] at e2
  rw [e1, ← e2]
  rfl

/-- **C86** (soundness error). A prover plays any strategy against challenges drawn independently and uniformly from a set `S` of field elements, and against uniform odd positions.
Either the words of the registers it commits to decode to a witness that satisfies the instance, or the share of the draws with which it wins is at most
the sum of: two for each constraint and boundary constraint, the points in the LDE domain of `g` and the lucky ones, `E₁ (N₁ - E₁ + 2) + 1` for each mask, all divided by the size of `S`; and the larger of
`1 - (E₁ + 1) / N₁` and `1 - (E₂ + 1) / N₂`, where `N₁`, `N₂` are the numbers of odd positions. -/
theorem C86_soundness_error (hb : numBits F < 256) (hc : ChallengeOk F) (inst : InstanceProperties F) (n k e slack E1 E2 : ℕ) (h : Verifiable inst n k)
    (hs1 : 1 ≤ slack) (he : 1 ≤ e)
    (hdeg : ∀ c ∈ inst.constraints, ∀ t ∈ c.terms, termDegree t ≤ c.degree)
    (hspan : ∀ c ∈ inst.constraints, ∀ d, c.density = .dense d → ∀ t ∈ factors c, ∀ j, t.stepsDifference = .steps j → j ≤ d.span)
    (hrows : ∀ b ∈ inst.boundaryConstraints, b.atRow < inst.numRows)
    (v : Verifier F) (hver : Verifier.new inst (2 ^ e) = .ok v) (d1 d2 : Domain F)
    (hd1 : Domain.newForSize F (v.columnDomain.size * v.ldeFactor) = .ok d1)
    (hd2 : Domain.newForSize F (v.constraintsDomain.size * v.ldeFactor) = .ok d2) (N1 N2 : ℕ)
    (hN1 : 2 * N1 = d1.size) (hN2 : 2 * N2 = d2.size)
    (hE1 : 2 * E1 + slack * v.columnDomain.size < N1) (hE2 : 2 * E2 + slack * v.constraintsDomain.size < N2)
    (S : Finset F) (s : Strategy F) :
    (∃ witness, IsTable witness n inst.numRows ∧ ReadOff v d1 slack E1 s.f.1 witness ∧ Satisfies inst (cellR witness) inst.numRows) ∨
      share (fun x : Draw S inst.constraints.length inst.boundaryConstraints.length v.allMasks.length (oddBelow d1.size) (oddBelow d2.size) =>
          s.Wins H v slack E1 E2 d1 d2 x.challenges) ≤
        (2 * (inst.constraints.length + inst.boundaryConstraints.length) + (d2.size + slack * v.constraintsDomain.size + v.columnDomain.size) +
          v.allMasks.length * (E1 * (N1 - E1 + 2) + 1) : ℕ) / S.card + max (1 - (E1 + 1) / N1 : ℚ) (1 - (E2 + 1) / N2) := by
  by_cases hw : ∃ witness, IsTable witness n inst.numRows ∧ ReadOff v d1 slack E1 s.f.1 witness ∧ Satisfies inst (cellR witness) inst.numRows
  · exact .inl hw
  right
  have hv := h.built hver
  obtain ⟨K, -, hdom, hK⟩ := hv.domain
  have z1 : v.columnDomain.size * v.ldeFactor = 2 ^ (k + e) := by rw [hv.column, hv.factor]; exact (pow_add _ _ _).symm
  have z2 : v.constraintsDomain.size * v.ldeFactor = 2 ^ (K + e) := by rw [hdom, hv.factor]; exact (pow_add _ _ _).symm
  have hp1 := newForSize_size (z1 ▸ hd1)
  have hp2 := newForSize_size (z2 ▸ hd2)
  have c1 : (oddBelow d1.size).card = N1 := by
    rw [hp1, card_oddBelow_pow (by omega)]
    rw [hp1, show 2 ^ (k + e) = 2 * 2 ^ (k + e - 1) by rw [← pow_succ']; congr 1; omega] at hN1
    omega
  have c2 : (oddBelow d2.size).card = N2 := by
    rw [hp2, card_oddBelow_pow (by omega)]
    rw [hp2, show 2 ^ (K + e) = 2 * 2 ^ (K + e - 1) by rw [← pow_succ']; congr 1; omega] at hN2
    omega
  -- no luck
  let A5 (ch : Challenges F) : Prop := s.Wins H v slack E1 E2 d1 d2 ch ∧
    ¬ (WinnableWithin v d1 d2 slack E1 E2 s.f.1 ch.constraintChallenges ch.boundaryChallenges ∧
      OnlyValue (WinnableWithin v d1 d2 slack E1 E2 s.f.1) ch.constraintChallenges ch.boundaryChallenges) ∧
    ¬ ch.z ^ d2.size = 1 ∧
    ¬ (ch.z ∈ consistentPoints v d1 d2 slack E1 E2 s.f.1 (s.g ch.constraintChallenges ch.boundaryChallenges).1 ch.constraintChallenges ch.boundaryChallenges ∧
      LuckyPointWithin v d1 d2 slack E1 E2 s.f.1 (s.g ch.constraintChallenges ch.boundaryChallenges).1 ch.constraintChallenges ch.boundaryChallenges) ∧
    ¬ LuckyMaskWithin v d1 slack E1 s.f.1 ch.z ((s.claimed ch.constraintChallenges ch.boundaryChallenges ch.z).take v.allMasks.length) ch.h1Challenges ∧
    ch.constraintChallenges.length = inst.constraints.length ∧ ch.boundaryChallenges.length = inst.boundaryConstraints.length ∧ ch.h1Challenges.length = v.allMasks.length
  have hA5 : ∀ ch : Challenges F, ∃ B : Finset (ℕ × ℕ), B.card ≤ max ((N1 - (E1 + 1)) * N2) (N1 * (N2 - (E2 + 1))) ∧
      ∀ i j, A5 { ch with idx1 := i, idx2 := j } → i ∈ oddBelow d1.size → j ∈ oddBelow d2.size → (i, j) ∈ B := by
    intro ch
    by_cases hex : ∃ i j, A5 { ch with idx1 := i, idx2 := j }
    · obtain ⟨i, j, ⟨hpass, l4, l5, l6⟩, l3, hz, l2, l1, hcc, hbc, hα⟩ := hex
      refine ⟨s.passing H v slack d1 d2 ch, ?_, ?_⟩
      · by_contra hcon
        rw [not_le, max_lt_iff] at hcon
        rcases C46_sampled_soundness_partial H hb hc inst n k e slack E1 E2 h hs1 he hdeg hspan hrows v hver d1 d2 hd1 hd2 (by rw [c1]; exact hE1) (by rw [c2]; exact hE2)
          (s.commitments ch) hpass.1 ch hcc hbc hα (by unfold OutOfDomain; rw [z2, ← hp2]; exact hz) (s.answers ch) (s.passing H v slack d1 d2 ch)
          (passing_subset H s v slack d1 d2 ch) (by rw [c1, c2]; exact hcon.1) (by rw [c1, c2]; exact hcon.2) (fun b hb => ((mem_passing H s v slack d1 d2 ch b).1 hb).2.2) with h | h | h | h | h | h | h
        · exact hw h
        · exact l1 h
        · exact l2 h
        · exact l3 h
        · exact l4 h
        · exact l5 h
        · exact l6 h
      · intro i j hA hi hj
        exact (mem_passing H s v slack d1 d2 ch (i, j)).2 ⟨mem_product.2 ⟨hi, hj⟩, hA.1.1⟩
    · exact ⟨∅, by simp, fun i j hA => absurd ⟨i, j, hA⟩ hex⟩
  have hsum := (share_mono (Ω := Draw S inst.constraints.length inst.boundaryConstraints.length v.allMasks.length (oddBelow d1.size) (oddBelow d2.size))
    (A := fun x => s.Wins H v slack E1 E2 d1 d2 x.challenges) (B := fun x => _ ∨ (_ ∨ (_ ∨ (_ ∨ A5 x.challenges)))) ?_).trans
    ((share_or_le _ _).trans (add_le_add (share_onlyValue (WinnableWithin v d1 d2 slack E1 E2 s.f.1))
      ((share_or_le _ _).trans (add_le_add (share_root d2.size (by rw [hp2]; positivity))
        ((share_or_le _ _).trans (add_le_add (share_lucky_point v d1 d2 slack E1 E2 s.f.1 (fun cc bc => (s.g cc bc).1))
          ((share_or_le _ _).trans (add_le_add (share_lucky_mask v d1 (k + e) slack E1 N1 (z1 ▸ hd1) c1 hE1.le s.f.1 (fun cc bc z => (s.claimed cc bc z).take v.allMasks.length))
            (share_positions A5 _ hA5)))))))))
  · refine hsum.trans (le_of_eq ?_)
    have n1 : (0 : ℚ) < N1 := by exact_mod_cast (by omega : 0 < N1)
    have n2 : (0 : ℚ) < N2 := by exact_mod_cast (by omega : 0 < N2)
    have hmax : ((max ((N1 - (E1 + 1)) * N2) (N1 * (N2 - (E2 + 1))) : ℕ) : ℚ) / (N1 * N2) = max (1 - (E1 + 1) / N1 : ℚ) (1 - (E2 + 1) / N2) := by
      rw [Nat.cast_max, ← max_div_div_right (mul_pos n1 n2).le]
      congr 1
      · push_cast [Nat.cast_sub (show E1 + 1 ≤ N1 by omega)]
        field_simp
      · push_cast [Nat.cast_sub (show E2 + 1 ≤ N2 by omega)]
        field_simp
    rw [c1, c2, hmax]
    push_cast
    ring
  · intro x hx
    by_contra hcon
    simp only [not_or] at hcon
    obtain ⟨a1, a2, a3, a4, a5⟩ := hcon
    exact a5 ⟨hx, a1, a2, a3, a4, by simp [Draw.challenges], by simp [Draw.challenges], by simp [Draw.challenges]⟩

/-- **C86** (completeness). For an instance with a witness there is a strategy that passes whenever the point is not in the LDE domain of `g`, with any positions: it fails with at most the share
`2 N₂ / |S|` of the draws. -/
theorem C86_complete (hc : ChallengeOk F) (inst : InstanceProperties F) (n k e : ℕ) (h : Verifiable inst n k)
    (h2 : 2 ≤ inst.numRows) (he : 1 ≤ e) (hdg : ∃ c ∈ inst.constraints, 1 ≤ c.degree)
    (hdeg : ∀ c ∈ inst.constraints, ∀ t ∈ c.terms, termDegree t ≤ c.degree)
    (hrows : ∀ b ∈ inst.boundaryConstraints, b.atRow < inst.numRows)
    (v : Verifier F) (hver : Verifier.new inst (2 ^ e) = .ok v) (d1 d2 : Domain F)
    (hd1 : Domain.newForSize F (v.columnDomain.size * v.ldeFactor) = .ok d1)
    (hd2 : Domain.newForSize F (v.constraintsDomain.size * v.ldeFactor) = .ok d2)
    (witness : List (List F)) (hw : IsTable witness n inst.numRows) (hsat : Satisfies inst (cellR witness) inst.numRows) :
    ∃ s : Strategy F, ∀ S : Finset F,
      (∀ x : Draw S inst.constraints.length inst.boundaryConstraints.length v.allMasks.length (oddBelow d1.size) (oddBelow d2.size),
        OutOfDomain v x.challenges.z → s.Passes H v 2 d1 d2 x.challenges) ∧
      share (fun x : Draw S inst.constraints.length inst.boundaryConstraints.length v.allMasks.length (oddBelow d1.size) (oddBelow d2.size) =>
        ¬ s.Passes H v 2 d1 d2 x.challenges) ≤ (d2.size : ℚ) / S.card := by
  classical
  obtain ⟨fWords, fRoots, hrest⟩ := C46_interactive_complete H hc inst n k e h h2 he hdg hdeg hrows v hver d1 d2 hd1 hd2 witness hw hsat
  have hg : ∀ cc bc : List (F × F), ∃ gWord gRoot, cc.length = inst.constraints.length → bc.length = inst.boundaryConstraints.length →
      ∀ z, OutOfDomain v z → ∃ claimed, ∀ αs : List F, αs.length = v.allMasks.length → ∃ run1 run2 answer,
        Commitments.Ok H ⟨fWords, fRoots, gWord, gRoot, claimed, run1, run2⟩ v 2 ∧ ∀ idx1 idx2,
        Commitments.Accepted H ⟨fWords, fRoots, gWord, gRoot, claimed, run1, run2⟩ v ⟨cc, bc, z, αs, idx1, idx2⟩ d1 d2 answer := by
    intro cc bc
    by_cases hl : cc.length = inst.constraints.length ∧ bc.length = inst.boundaryConstraints.length
    · obtain ⟨gWord, gRoot, hr⟩ := hrest cc bc hl.1 hl.2
      exact ⟨gWord, gRoot, fun _ _ => hr⟩
    · exact ⟨[], H [], fun h1 h2 => absurd ⟨h1, h2⟩ hl⟩
  choose g gr hg using hg
  have hy : ∀ (cc bc : List (F × F)) (z : F), ∃ claimed, cc.length = inst.constraints.length → bc.length = inst.boundaryConstraints.length → OutOfDomain v z →
      ∀ αs : List F, αs.length = v.allMasks.length → ∃ run1 run2 answer,
        Commitments.Ok H ⟨fWords, fRoots, g cc bc, gr cc bc, claimed, run1, run2⟩ v 2 ∧ ∀ idx1 idx2,
        Commitments.Accepted H ⟨fWords, fRoots, g cc bc, gr cc bc, claimed, run1, run2⟩ v ⟨cc, bc, z, αs, idx1, idx2⟩ d1 d2 answer := by
    intro cc bc z
    by_cases hl : cc.length = inst.constraints.length ∧ bc.length = inst.boundaryConstraints.length ∧ OutOfDomain v z
    · obtain ⟨y, hr⟩ := hg cc bc hl.1 hl.2.1 z hl.2.2
      exact ⟨y, fun _ _ _ => hr⟩
    · exact ⟨[], fun h1 h2 h3 => absurd ⟨h1, h2, h3⟩ hl⟩
  choose y hy using hy
  have hr : ∀ (cc bc : List (F × F)) (z : F) (αs : List F), ∃ run1 run2 answer, cc.length = inst.constraints.length → bc.length = inst.boundaryConstraints.length → OutOfDomain v z →
      αs.length = v.allMasks.length → Commitments.Ok H ⟨fWords, fRoots, g cc bc, gr cc bc, y cc bc z, run1, run2⟩ v 2 ∧ ∀ idx1 idx2,
        Commitments.Accepted H ⟨fWords, fRoots, g cc bc, gr cc bc, y cc bc z, run1, run2⟩ v ⟨cc, bc, z, αs, idx1, idx2⟩ d1 d2 answer := by
    intro cc bc z αs
    by_cases hl : cc.length = inst.constraints.length ∧ bc.length = inst.boundaryConstraints.length ∧ OutOfDomain v z ∧ αs.length = v.allMasks.length
    · obtain ⟨r1, r2, a, hr⟩ := hy cc bc z hl.1 hl.2.1 hl.2.2.1 αs hl.2.2.2
      exact ⟨r1, r2, a, fun _ _ _ _ => hr⟩
    · exact ⟨⟨fun _ => [], [], []⟩, ⟨fun _ => [], [], []⟩, fun _ _ => ⟨[], [], H [], [], ⟨0, 0, []⟩, [], [], ⟨[], [], [], 0, 0, 0⟩, ⟨[], [], [], 0, 0, 0⟩⟩, fun h1 h2 h3 h4 => absurd ⟨h1, h2, h3, h4⟩ hl⟩
  choose r1 r2 ans hr using hr
  have key : ∀ (S : Finset F) (x : Draw S inst.constraints.length inst.boundaryConstraints.length v.allMasks.length (oddBelow d1.size) (oddBelow d2.size)),
      OutOfDomain v x.challenges.z → Strategy.Passes H ⟨(fWords, fRoots), fun cc bc => (g cc bc, gr cc bc), y, fun cc bc z αs => (r1 cc bc z αs, r2 cc bc z αs), ans⟩ v 2 d1 d2 x.challenges := by
    intro S x hz
    obtain ⟨hok, hacc⟩ := hr x.challenges.constraintChallenges x.challenges.boundaryChallenges x.challenges.z x.challenges.h1Challenges (by simp [Draw.challenges])
      (by simp [Draw.challenges]) hz (by simp [Draw.challenges])
    have o1 := mem_oddBelow.1 x.idx.1.2
    have o2 := mem_oddBelow.1 x.idx.2.2
    obtain ⟨h1, h2⟩ := hacc 0 0 x.idx.1 x.idx.2 o1.1 o1.2 o2.1 o2.2
    exact ⟨hok, h1, h2⟩
  refine ⟨_, fun S => ⟨key S, ?_⟩⟩
  have hv := h.built hver
  obtain ⟨K, -, hdom, hK⟩ := hv.domain
  have z2 : v.constraintsDomain.size * v.ldeFactor = 2 ^ (K + e) := by rw [hdom, hv.factor]; exact (pow_add _ _ _).symm
  have hp2 := newForSize_size (z2 ▸ hd2)
  refine (share_mono ?_).trans (share_root d2.size (by rw [hp2]; positivity))
  intro x hx
  by_contra hz
  refine hx (key S x ?_)
  unfold OutOfDomain
  rw [z2, ← hp2]
  exact hz

/-- The hypotheses of `C86_soundness_error` are met by the instance with three rows, LDE factor 8, slack 2, `E₁ = E₂ = 3`. -/
example : numBits Fr < 256 ∧ ChallengeOk Fr ∧ Verifiable threeRows 1 2 ∧ ∃ v d1 d2, Verifier.new threeRows (2 ^ 3) = .ok v ∧
      Domain.newForSize Fr (v.columnDomain.size * v.ldeFactor) = .ok d1 ∧
      Domain.newForSize Fr (v.constraintsDomain.size * v.ldeFactor) = .ok d2 ∧ 2 * 16 = d1.size ∧ 2 * 16 = d2.size ∧
      2 * 3 + 2 * v.columnDomain.size < 16 ∧ 2 * 3 + 2 * v.constraintsDomain.size < 16 := by
  have h := threeRows_verifiable
  obtain ⟨v, e3, hz, hsz, -⟩ := threeRows_setup
  have hch : ChallengeOk Fr := by unfold ChallengeOk; decide +kernel
  have hcs : v.columnDomain.size = 4 := by rw [(h.built e3).column]; rfl
  have hd1 : Domain.newForSize Fr (v.columnDomain.size * v.ldeFactor) = .ok (domOf Fr 5) := by
    rw [(h.built e3).column, (h.built e3).factor]
    exact newForSize_pow (k := 5) (by decide)
  have hd2 : Domain.newForSize Fr (v.constraintsDomain.size * v.ldeFactor) = .ok (domOf Fr 5) := by
    rw [hsz, (h.built e3).factor]
    exact newForSize_pow (k := 5) (by decide)
  exact ⟨by decide +kernel, hch, h, v, _, _, e3, hd1, hd2, rfl, rfl, by rw [hcs]; norm_num, by rw [hsz]; norm_num⟩

/-- The bound for `2^20` rows, two registers, two constraints of degree 2 and three boundary constraints, four masks, LDE factor 16, and the `2^251` challenges of a field of 252 bits: less than 63 percent for each query. -/
example : ((2 * (2 + 3) + (2 ^ 25 + 2 * 2 ^ 21 + 2 ^ 20) + 4 * ((2 ^ 21 + 2 ^ 20 - 1) * (2 ^ 23 - (2 ^ 21 + 2 ^ 20 - 1) + 2) + 1) : ℕ) : ℚ) / (2 ^ 251 : ℕ) +
    max (1 - ((2 ^ 21 + 2 ^ 20 - 1 : ℕ) + 1) / (2 ^ 23 : ℕ) : ℚ) (1 - ((2 ^ 22 + 2 ^ 21 - 1 : ℕ) + 1) / (2 ^ 24 : ℕ)) < 63 / 100 ∧
    2 * (2 ^ 21 + 2 ^ 20 - 1) + 2 * 2 ^ 20 < 2 ^ 23 ∧ 2 * (2 ^ 22 + 2 ^ 21 - 1) + 2 * 2 ^ 21 < 2 ^ 24 := by
  refine ⟨?_, by norm_num, by norm_num⟩
  have hm : max (1 - ((2 ^ 21 + 2 ^ 20 - 1 : ℕ) + 1) / (2 ^ 23 : ℕ) : ℚ) (1 - ((2 ^ 22 + 2 ^ 21 - 1 : ℕ) + 1) / (2 ^ 24 : ℕ)) = 5 / 8 := by
    rw [max_eq_left] <;> norm_num
  rw [hm]
  norm_num

end Hodor

import Verif.Lemmas.HalfDistance
import Verif.Props.Interactive

/-!
# C68: FRI when only part of the positions have accepted answers
-/

namespace Hodor

open Polynomial Finset Spec

variable {F : Type} [Field F] [DecidableEq F] [StarkField F] (H : List UInt8 → Digest)

theorem mem_oddBelow {N i : ℕ} : i ∈ Spec.oddBelow N ↔ i < N ∧ i % 2 = 1 := by
  unfold Spec.oddBelow
  rw [mem_filter, mem_range]

theorem card_oddBelow (m : ℕ) : (Spec.oddBelow (2 ^ (m + 1))).card = 2 ^ m := by
  have : Spec.oddBelow (2 ^ (m + 1)) = (range (2 ^ m)).image (fun i => 2 * i + 1) := by
    ext i
    rw [mem_oddBelow, mem_image, pow_succ]
    constructor
    · rintro ⟨h1, h2⟩
      exact ⟨i / 2, mem_range.2 (by omega), by omega⟩
    · rintro ⟨j, hj, rfl⟩
      have := mem_range.1 hj
      omega
  rw [this, card_image_of_injective _ (fun a b h => by simpa using h), card_range]

omit [DecidableEq F] in
theorem genOf_injOn {m : ℕ} (hm : m ≤ StarkField.S F) : Set.InjOn (fun j : ℕ => genOf F m ^ j) (Spec.oddBelow (2 ^ m)) := by
  intro i hi j hj e
  have hi := (mem_oddBelow.1 (Finset.mem_coe.1 hi)).1
  have hj := (mem_oddBelow.1 (Finset.mem_coe.1 hj)).1
  exact (genOf_prim (F := F) hm).pow_inj hi hj e

/-- A lucky challenge of a round is lucky for the line of the even and the odd part of the word. -/
theorem luckyFold_line {m : ℕ} (hm : m + 2 ≤ StarkField.S F) {W : List F} {D e : ℕ} {β : F} (hβ : Spec.LuckyFold (genOf F (m + 2)) (2 ^ (m + 1)) W D e β) :
    Spec.LuckyLine (Spec.oddBelow (2 ^ (m + 1))) (fun j => genOf F (m + 1) ^ j) D e (fun j => (W.getD j 0 + W.getD (j + 2 ^ (m + 1)) 0) / 2)
      (fun j => (W.getD j 0 - W.getD (j + 2 ^ (m + 1)) 0) / (2 * genOf F (m + 2) ^ j)) β := by
  have h2 : (2 : F) ≠ 0 := two_ne_zero_of_S (by omega)
  have hsq : ∀ j, (genOf F (m + 2) ^ j) ^ 2 = genOf F (m + 1) ^ j := by
    intro j
    rw [← genOf_sq (F := F) (m := m + 1) hm, ← pow_mul, ← pow_mul, mul_comm]
  obtain ⟨Q, S, hQ, hS, he, hv, hno⟩ := hβ
  refine ⟨Q, S, hQ, hS, he, ?_, ?_⟩
  · intro j hj
    obtain ⟨a, b, ha, hb, e1⟩ := hv j hj
    simp only [List.getD_eq_getElem?_getD, ha, hb, Option.getD_some]
    rw [show genOf F (m + 2) ^ (2 * j) = genOf F (m + 1) ^ j by rw [← hsq, ← pow_mul, mul_comm]] at e1
    exact e1
  · rintro ⟨U, V, hU, hV, huv⟩
    apply hno
    refine ⟨U.comp (X ^ 2) + X * V.comp (X ^ 2), ?_, ?_⟩
    · rw [degree_lt_iff_coeff_zero] at hU hV ⊢
      intro i hi
      rw [coeff_add, ← expand_eq_comp_X_pow, ← expand_eq_comp_X_pow]
      rcases Nat.mod_two_eq_zero_or_one i with h | h
      · obtain ⟨t, rfl⟩ : ∃ t, i = t * 2 := ⟨i / 2, by omega⟩
        rw [coeff_expand_mul (by norm_num), hU t (by omega), zero_add]
        cases t with
        | zero => rw [Nat.zero_mul, coeff_X_mul_zero]
        | succ t =>
          rw [show (t + 1) * 2 = t * 2 + 1 + 1 by ring, coeff_X_mul, coeff_expand (by norm_num), if_neg (by omega)]
      · obtain ⟨t, rfl⟩ : ∃ t, i = t * 2 + 1 := ⟨i / 2, by omega⟩
        rw [coeff_X_mul, coeff_expand_mul (by norm_num), hV t (by omega), coeff_expand (by norm_num), if_neg (by omega), zero_add]
    · intro j hj
      obtain ⟨a, b, ha, hb, -⟩ := hv j hj
      obtain ⟨e1, e2⟩ := huv j hj
      simp only [List.getD_eq_getElem?_getD, ha, hb, Option.getD_some] at e1 e2
      have hne : genOf F (m + 2) ^ j ≠ 0 := pow_ne_zero _ (genOf_ne_zero hm)
      have hhalf : genOf F (m + 2) ^ (j + 2 ^ (m + 1)) = - genOf F (m + 2) ^ j := genOf_half hm j
      rw [ha, hb, hhalf]
      simp only [eval_add, eval_mul, eval_comp, eval_pow, eval_X, neg_sq, hsq]
      rw [← e1, ← e2]
      constructor <;> congr 1 <;> field_simp <;> ring

/-- **C68 (challenges).** A word has at most `e + 1` lucky challenges, when the degree bound is at most the number of odd positions less `3 e`. -/
theorem C68_lucky_few (m : ℕ) (hm : m + 2 ≤ StarkField.S F) (W : List F) (D e : ℕ) (h3 : 3 * e + D ≤ 2 ^ m)
    (T : Finset F) (hT : ∀ β ∈ T, Spec.LuckyFold (genOf F (m + 2)) (2 ^ (m + 1)) W D e β) : T.card ≤ e + 1 :=
  luckyLine_card (genOf_injOn (by omega)) (by rw [card_oddBelow]; exact h3) T (fun β hβ => luckyFold_line hm (hT β hβ))

/-- **C68 (challenges, up to half the distance).** A word has at most `e (N - e + 2) + 1` lucky challenges, `N` the number of odd positions, when the degree bound is at most `N - 2 e`. -/
theorem C68_lucky_few_half (m : ℕ) (hm : m + 2 ≤ StarkField.S F) (W : List F) (D e : ℕ) (h2 : 2 * e + D ≤ 2 ^ m)
    (T : Finset F) (hT : ∀ β ∈ T, Spec.LuckyFold (genOf F (m + 2)) (2 ^ (m + 1)) W D e β) : T.card ≤ e * (2 ^ m - e + 2) + 1 := by
  have := luckyLine_card_half (genOf_injOn (F := F) (m := m + 1) (by omega)) (by rw [card_oddBelow]; exact h2) T (fun β hβ => luckyFold_line hm (hT β hβ))
  rwa [card_oddBelow] at this

/-- The odd positions that no accepted position folds to are few. -/
theorem missing_few {n r : ℕ} (hr : r + 1 < n) {A : Finset ℕ} :
    (Spec.oddBelow (2 ^ (n - (r + 1))) \ A.image (fun i => i % 2 ^ (n - (r + 1)))).card * 2 ^ (r + 1) ≤ (Spec.oddBelow (2 ^ n) \ A).card := by
  obtain ⟨m, hm⟩ : ∃ m, n - (r + 1) = m + 1 := ⟨n - (r + 1) - 1, by omega⟩
  rw [hm]
  rw [← card_range (2 ^ (r + 1)), ← card_product]
  have hn : 2 ^ n = 2 ^ (m + 1) * 2 ^ (r + 1) := by rw [← pow_add]; congr 1; omega
  have he : 2 ^ (m + 1) = 2 * 2 ^ m := by ring
  refine card_le_card_of_injOn (fun p => p.1 + 2 ^ (m + 1) * p.2) ?_ ?_
  · rintro ⟨j, t⟩ hp
    simp only [Finset.coe_product, Set.mem_prod, Finset.mem_coe, mem_sdiff, mem_oddBelow, mem_range, mem_image, not_exists, not_and] at hp
    obtain ⟨⟨⟨hj, hj1⟩, hno⟩, ht⟩ := hp
    simp only [Finset.mem_coe, mem_sdiff, mem_oddBelow]
    refine ⟨⟨?_, ?_⟩, ?_⟩
    · rw [hn]
      calc j + 2 ^ (m + 1) * t < 2 ^ (m + 1) * (t + 1) := by rw [Nat.mul_add, Nat.mul_one]; omega
        _ ≤ 2 ^ (m + 1) * 2 ^ (r + 1) := Nat.mul_le_mul_left _ ht
    · rw [he, Nat.mul_assoc, Nat.add_mul_mod_self_left]
      exact hj1
    · intro hA
      exact hno _ hA (by rw [Nat.add_mul_mod_self_left, Nat.mod_eq_of_lt hj])
  · rintro ⟨j, t⟩ hp ⟨j', t'⟩ hp' e
    simp only [Finset.coe_product, Set.mem_prod, Finset.mem_coe, mem_sdiff, mem_oddBelow] at hp hp'
    have h1 := hp.1.1.1
    have h2 := hp'.1.1.1
    simp only at e
    have ej : j = j' := by
      have := congrArg (· % 2 ^ (m + 1)) e
      simpa [Nat.add_mul_mod_self_left, Nat.mod_eq_of_lt h1, Nat.mod_eq_of_lt h2] using this
    subst ej
    have := Nat.eq_of_mul_eq_mul_left (by positivity) (Nat.add_left_cancel e)
    rw [this]

omit [DecidableEq F] in
theorem genOf_pow_two {n : ℕ} (hn : n ≤ StarkField.S F) (r : ℕ) (hr : r ≤ n) : genOf F n ^ 2 ^ r = genOf F (n - r) := by
  obtain ⟨m, rfl⟩ : ∃ m, n = m + r := ⟨n - r, by omega⟩
  rw [genOf_pow hn, Nat.add_sub_cancel]

/-- The combinatorial part of C68: words that pass the FRI check at the positions `A`. -/
theorem foldConsistent_agreement {n k : ℕ} (hn : n ≤ StarkField.S F) (hk1 : 1 ≤ k) (hkn : k < n) (W : ℕ → List F)
    (β : ℕ → F) (fin : List F) (A : Finset ℕ) (hA : A ⊆ Spec.oddBelow (2 ^ n)) {E : ℕ} (hE : (Spec.oddBelow (2 ^ n) \ A).card ≤ E) (v : ℕ → F)
    (h : ∀ idx ∈ A, Spec.FoldConsistent (genOf F n) n k idx (v idx) W β fin) :
    (∃ p : F[X], p.degree < (fin.length * 2 ^ k : ℕ) ∧ ∀ idx ∈ A, v idx = p.eval (genOf F n ^ idx)) ∨
    ∃ r, r < k ∧ Spec.LuckyFold (genOf F n ^ 2 ^ r) (2 ^ (n - (r + 1))) (W r) (fin.length * 2 ^ (k - (r + 1)))
      (E / 2 ^ (r + 1)) (β r) := by
  by_cases hl : ∃ r, r < k ∧ Spec.LuckyFold (genOf F n ^ 2 ^ r) (2 ^ (n - (r + 1))) (W r) (fin.length * 2 ^ (k - (r + 1)))
      (E / 2 ^ (r + 1)) (β r)
  · exact .inr hl
  left
  push Not at hl
  have main : ∀ t, t < k → ∃ p : F[X], p.degree < (fin.length * 2 ^ (t + 1) : ℕ) ∧
      Spec.AgreesOnPairs (genOf F n ^ 2 ^ (k - 1 - t)) (2 ^ (n - (k - 1 - t + 1))) (W (k - 1 - t)) (A.image (fun i => i % 2 ^ (n - (k - 1 - t + 1)))) p := by
    intro t
    induction t with
    | zero =>
      intro _
      have hlk := hl (k - 1) (by omega)
      unfold Spec.LuckyFold at hlk
      by_contra hcon
      apply hlk
      refine ⟨polyOf fin.length (fun i => fin.getD i 0), A.image (fun i => i % 2 ^ (n - (k - 1 + 1))), ?_, ?_, ?_, ?_, ?_⟩
      · rw [show k - (k - 1 + 1) = 0 by omega, pow_zero, Nat.mul_one]
        exact polyOf_degree _ _
      · intro j hj
        obtain ⟨i, hi, rfl⟩ := mem_image.1 hj
        obtain ⟨m, hm⟩ : ∃ m, n - (k - 1 + 1) = m + 1 := ⟨n - k - 1, by omega⟩
        rw [hm, mem_oddBelow]
        refine ⟨Nat.mod_lt _ (by positivity), ?_⟩
        rw [Nat.mod_mod_of_dvd _ (dvd_pow_self 2 (by omega))]
        exact (mem_oddBelow.1 (hA hi)).2
      · rw [Nat.le_div_iff_mul_le (by positivity)]
        exact (missing_few (by omega)).trans hE
      · intro j hj
        obtain ⟨i, hi, rfl⟩ := mem_image.1 hj
        obtain ⟨a, b, ha, hb, -, hf⟩ := (h i hi).step (k - 1) (by omega)
        refine ⟨a, b, ha, hb, ?_⟩
        rw [hf (by omega), evalPoly_polyOf]
        congr 1
        have e : n - k = n - (k - 1 + 1) := by omega
        rw [e, pow_mul, ← pow_mul (genOf F n) (2 ^ (k - 1)) 2, ← pow_succ]
        congr 3
        omega
      · rintro ⟨P, hP, hag⟩
        refine hcon ⟨P, ?_, hag⟩
        rw [show k - (k - 1 + 1) = 0 by omega] at hP
        convert hP using 2
        ring
    | succ t ih =>
      intro ht
      obtain ⟨q, hq, hag⟩ := ih (by omega)
      obtain ⟨r, hr⟩ : ∃ r, r = k - 1 - (t + 1) := ⟨_, rfl⟩
      have hr1 : k - 1 - t = r + 1 := by omega
      rw [← hr]
      rw [hr1] at hag
      have hlk := hl r (by omega)
      by_contra hcon
      apply hlk
      refine ⟨q, A.image (fun i => i % 2 ^ (n - (r + 1))), ?_, ?_, ?_, ?_, ?_⟩
      · rw [show k - (r + 1) = t + 1 by omega]
        exact hq
      · intro j hj
        obtain ⟨i, hi, rfl⟩ := mem_image.1 hj
        obtain ⟨m, hm⟩ : ∃ m, n - (r + 1) = m + 1 := ⟨n - r - 2, by omega⟩
        rw [hm, mem_oddBelow]
        refine ⟨Nat.mod_lt _ (by positivity), ?_⟩
        rw [Nat.mod_mod_of_dvd _ (dvd_pow_self 2 (by omega))]
        exact (mem_oddBelow.1 (hA hi)).2
      · rw [Nat.le_div_iff_mul_le (by positivity)]
        exact (missing_few (by omega)).trans hE
      · intro j hj
        obtain ⟨i, hi, rfl⟩ := mem_image.1 hj
        obtain ⟨a, b, ha, hb, hf, -⟩ := (h i hi).step r (by omega)
        refine ⟨a, b, ha, hb, ?_⟩
        have hf := hf (by omega)
        obtain ⟨m, hm⟩ : ∃ m, n - (r + 1 + 1) = m := ⟨_, rfl⟩
        have hm1 : n - (r + 1) = m + 1 := by omega
        obtain ⟨e1, e2⟩ := hag (i % 2 ^ m) (mem_image.2 ⟨i, hi, by rw [hm]⟩)
        rw [hm] at e2
        rw [hm1] at hf ⊢
        have hlt : i % 2 ^ (m + 1) < 2 ^ (m + 1) := Nat.mod_lt _ (by positivity)
        have hmod : i % 2 ^ (m + 1) % 2 ^ m = i % 2 ^ m := Nat.mod_mod_of_dvd _ (pow_dvd_pow 2 (Nat.le_succ m))
        have hval : (W (r + 1))[i % 2 ^ (m + 1)]? = some (q.eval ((genOf F n ^ 2 ^ (r + 1)) ^ (i % 2 ^ (m + 1)))) := by
          rcases index_in_coset hlt with h0 | h0
          · rw [hmod] at h0
            rw [h0]
            exact e1
          · rw [hmod] at h0
            rw [h0]
            exact e2
        rw [hf] at hval
        rw [Option.some.inj hval, pow_mul, ← pow_mul (genOf F n) (2 ^ r) 2, ← pow_succ]
      · rintro ⟨P, hP, hag'⟩
        refine hcon ⟨P, ?_, hag'⟩
        rw [show k - (r + 1) = t + 1 by omega] at hP
        convert hP using 2
        ring
  obtain ⟨p, hp, hag⟩ := main (k - 1) (by omega)
  rw [show k - 1 - (k - 1) = 0 by omega] at hag
  refine ⟨p, by rwa [show k - 1 + 1 = k by omega] at hp, ?_⟩
  intro idx hidx
  obtain ⟨m, hm⟩ : ∃ m, n = m + 1 := ⟨n - 1, by omega⟩
  subst hm
  have hlt := (mem_oddBelow.1 (hA hidx)).1
  obtain ⟨e1, e2⟩ := hag (idx % 2 ^ m) (mem_image.2 ⟨idx, hidx, rfl⟩)
  rw [pow_zero, pow_one] at e1 e2
  have hval : (W 0)[idx]? = some (p.eval (genOf F (m + 1) ^ idx)) := by
    rcases index_in_coset hlt with h0 | h0
    · rw [h0]; exact e1
    · rw [h0]; exact e2
  rw [(h idx hidx).start] at hval
  exact Option.some.inj hval

/-- **C68.** A prover has committed to a FRI run, of rounds and final coefficients that stand for the degree bound `bound`, on a domain of size `2^n`, and has accepted answers at a set `A` of odd positions that leaves
out at most `E` of them. Then all accepted values lie on one polynomial of degree below `bound` — or a round's challenge was lucky (`C68_round_luck_half`, `C68_round_luck`: few values of the field are), or the hash collides among the
strings hashed for the words and the accepted answers. -/
theorem C68_agreement (hb : numBits F < 256) (hc : ChallengeOk F) (run : FriRun F) (n bound d f E : ℕ) (hn : n ≤ StarkField.S F)
    (hdf : d * f = 2 ^ n) (hcom : run.Committed H (2 ^ n) bound) (h1 : 1 ≤ bound) (h2 : 2 * E + bound ≤ 2 ^ (n - 1)) (hn1 : 1 ≤ n)
    (A : Finset ℕ) (hA : A ⊆ Spec.oddBelow (2 ^ n)) (hE : (Spec.oddBelow (2 ^ n) \ A).card ≤ E)
    (proof : ℕ → FriProof F) (val : ℕ → F)
    (hacc : ∀ idx ∈ A, run.Proves (proof idx) d f ∧ (proof idx).verify H idx (val idx) = .ok true) :
    (∃ p : F[X], p.degree < (bound : ℕ) ∧ ∀ idx ∈ A, val idx = p.eval (genOf F n ^ idx)) ∨
    run.LuckyWithin (genOf F n) n E ∨
    CollisionAmong H (fun s => (∃ r, r < run.roots.length ∧ WordHashed H (run.words r) s) ∨
      ∃ idx ∈ A, ∃ q ∈ (proof idx).queries, s ∈ openingHashed H q.value q.path q.index) := by
  by_cases hcol : CollisionAmong H (fun s => (∃ r, r < run.roots.length ∧ WordHashed H (run.words r) s) ∨
      ∃ idx ∈ A, ∃ q ∈ (proof idx).queries, s ∈ openingHashed H q.value q.path q.index)
  · exact .inr (.inr hcol)
  have hdom : Domain.newForSize F (d * f) = .ok (domOf F n) := by rw [hdf]; exact newForSize_pow hn
  have hfin1 : 1 ≤ run.fin.length := by
    rcases Nat.eq_zero_or_pos run.fin.length with h0 | h0
    · have := hcom.shape
      rw [h0, Nat.zero_mul] at this
      omega
    · exact h0
  have hrn : run.roots.length < n := by
    have : 2 ^ run.roots.length ≤ 2 ^ (n - 1) := le_trans (Nat.le_mul_of_pos_left _ hfin1) (by rw [hcom.shape]; omega)
    have := (Nat.pow_le_pow_iff_right (by norm_num)).1 this
    omega
  have hne : A.Nonempty := by
    rw [Finset.nonempty_iff_ne_empty]
    rintro rfl
    obtain ⟨m, rfl⟩ : ∃ m, n = m + 1 := ⟨n - 1, by omega⟩
    rw [Finset.sdiff_empty, card_oddBelow] at hE
    rw [Nat.add_sub_cancel] at h2
    omega
  have hr1 : 1 ≤ run.roots.length := by
    obtain ⟨idx, hidx⟩ := hne
    obtain ⟨hp, hv⟩ := hacc idx hidx
    obtain ⟨_, _, k, -, -, -, -, -, hk, hk1, -⟩ := C28_accepted_chain H _ _ _ hv
    rw [hp.roots] at hk
    omega
  have hword : ∀ r, r < run.roots.length → (run.words r).length = 2 ^ (n - r) := by
    intro r hr
    have := (hcom.rounds r _ (List.getElem?_eq_getElem hr)).1
    rw [show 2 ^ n = 2 ^ (n - r) * 2 ^ r by rw [← pow_add]; congr 1; omega] at this
    exact Nat.eq_of_mul_eq_mul_right (Nat.two_pow_pos r) this
  have hroot : ∀ r, ∃ root, r < run.roots.length → run.roots[r]? = some root := by
    intro r
    by_cases hr : r < run.roots.length
    · exact ⟨run.roots[r], fun _ => List.getElem?_eq_getElem hr⟩
    · exact ⟨zeroDigest, fun h => absurd h hr⟩
  choose root hroot using hroot
  have hβ : ∀ r, (encodeRootIntoChallenge (root r) : Res F) = .ok (challengeOf F (root r)) := fun r => interpretHash_ok hc _
  have hcons : ∀ idx ∈ A, Spec.FoldConsistent (genOf F n) n run.roots.length idx (val idx) run.words (fun r => challengeOf F (root r)) run.fin := by
    intro idx hidx
    obtain ⟨hp, hv⟩ := hacc idx hidx
    have := C28_committed H hb (proof idx) idx (val idx) hv n (domOf F n) (by rw [hp.header.1, hp.header.2]; exact hdom) rfl run.roots.length
      (by rw [hp.roots]; have := hp.openings; omega) run.words (fun r => challengeOf F (root r)) (by
        intro r hr
        obtain ⟨w, tree, e1, e2⟩ := (hcom.rounds r _ (hroot r hr)).2
        exact ⟨hword r hr, w, tree, _, e1, e2, by rw [hp.roots]; exact hroot r hr, hβ r⟩)
    rw [hp.fin] at this
    rcases this with hg | hg
    · exact hg
    · refine absurd (CollisionAmong.mono H ?_ hg) hcol
      rintro s (⟨r, hr, hs⟩ | ⟨q, hq, hs⟩)
      · exact .inl ⟨r, hr, _, hword r hr, hs⟩
      · exact .inr ⟨idx, hidx, q, hq, hs⟩
  rcases foldConsistent_agreement hn hr1 hrn run.words _ run.fin A hA hE val hcons with ⟨p, hp, hv⟩ | ⟨r, hr, hl⟩
  · rw [hcom.shape] at hp
    exact .inl ⟨p, hp, hv⟩
  · exact .inr (.inl ⟨r, root r, _, hroot r hr, hβ r, hl⟩)

/-- **C68 (rarity of luck).** In round `r`, at most `E / 2^(r+1) + 1` field elements are lucky for a given word. -/
theorem C68_round_luck (n rounds fins E : ℕ) (hn : n ≤ StarkField.S F) (h2 : 3 * E + fins * 2 ^ rounds ≤ 2 ^ (n - 1)) (hr1 : rounds < n) (r : ℕ) (hr : r < rounds) (W : List F)
    (T : Finset F) (hT : ∀ β ∈ T, Spec.LuckyFold (genOf F n ^ 2 ^ r) (2 ^ (n - (r + 1))) W (fins * 2 ^ (rounds - (r + 1))) (E / 2 ^ (r + 1)) β) :
    T.card ≤ E / 2 ^ (r + 1) + 1 := by
  obtain ⟨m, hm⟩ : ∃ m, n = m + 2 + r := ⟨n - 2 - r, by omega⟩
  subst hm
  rw [genOf_pow_two hn r (by omega), show m + 2 + r - r = m + 2 by omega, show m + 2 + r - (r + 1) = m + 1 by omega] at hT
  refine C68_lucky_few m (by omega) W _ _ ?_ T hT
  have e1 : 2 ^ (m + 2 + r - 1) = 2 ^ m * 2 ^ (r + 1) := by rw [← pow_add]; congr 1; omega
  have e2 : fins * 2 ^ rounds = fins * 2 ^ (rounds - (r + 1)) * 2 ^ (r + 1) := by
    rw [Nat.mul_assoc, ← pow_add]; congr 2; omega
  rw [e1, e2] at h2
  refine Nat.le_of_mul_le_mul_right (c := 2 ^ (r + 1)) ?_ (by positivity)
  rw [Nat.add_mul, Nat.mul_assoc]
  have := Nat.div_mul_le_self E (2 ^ (r + 1))
  omega

/-- **C68 (rarity of luck, up to half the distance).** In round `r`, at most `e (N - e + 2) + 1` field elements are lucky for a given word, where `e = E / 2^(r+1)` and `N = 2^(n-r-2)`
is the number of odd positions of the folded word. -/
theorem C68_round_luck_half (n rounds fins E : ℕ) (hn : n ≤ StarkField.S F) (h2 : 2 * E + fins * 2 ^ rounds ≤ 2 ^ (n - 1)) (hr1 : rounds < n) (r : ℕ) (hr : r < rounds) (W : List F)
    (T : Finset F) (hT : ∀ β ∈ T, Spec.LuckyFold (genOf F n ^ 2 ^ r) (2 ^ (n - (r + 1))) W (fins * 2 ^ (rounds - (r + 1))) (E / 2 ^ (r + 1)) β) :
    T.card ≤ E / 2 ^ (r + 1) * (2 ^ (n - r - 2) - E / 2 ^ (r + 1) + 2) + 1 := by
  obtain ⟨m, hm⟩ : ∃ m, n = m + 2 + r := ⟨n - 2 - r, by omega⟩
  subst hm
  rw [genOf_pow_two hn r (by omega), show m + 2 + r - r = m + 2 by omega, show m + 2 + r - (r + 1) = m + 1 by omega] at hT
  rw [show m + 2 + r - r - 2 = m by omega]
  refine C68_lucky_few_half m (by omega) W _ _ ?_ T hT
  have e1 : 2 ^ (m + 2 + r - 1) = 2 ^ m * 2 ^ (r + 1) := by rw [← pow_add]; congr 1; omega
  have e2 : fins * 2 ^ rounds = fins * 2 ^ (rounds - (r + 1)) * 2 ^ (r + 1) := by
    rw [Nat.mul_assoc, ← pow_add]; congr 2; omega
  rw [e1, e2] at h2
  refine Nat.le_of_mul_le_mul_right (c := 2 ^ (r + 1)) ?_ (by positivity)
  rw [Nat.add_mul, Nat.mul_assoc]
  have := Nat.div_mul_le_self E (2 ^ (r + 1))
  omega

/-- **C68 (queries).** If every polynomial of degree below `bound` differs from the oracle values at more than `E` odd positions, then, without luck and collisions, at most `2^(n-1) - E - 1` odd positions have an accepted answer, and
at most `(2^(n-1) - E - 1)^q` of the `2^(n-1)^q` choices of `q` odd positions are all answered. -/
theorem C68_far_rejected (hb : numBits F < 256) (hc : ChallengeOk F) (run : FriRun F) (n bound d f E : ℕ) (hn : n ≤ StarkField.S F)
    (hdf : d * f = 2 ^ n) (hcom : run.Committed H (2 ^ n) bound) (h1 : 1 ≤ bound) (h2 : 2 * E + bound ≤ 2 ^ (n - 1)) (hn1 : 1 ≤ n)
    (A : Finset ℕ) (hA : A ⊆ Spec.oddBelow (2 ^ n)) (proof : ℕ → FriProof F) (val : ℕ → F)
    (hacc : ∀ idx ∈ A, run.Proves (proof idx) d f ∧ (proof idx).verify H idx (val idx) = .ok true)
    (hfar : ∀ p : F[X], p.degree < (bound : ℕ) → E < ((Spec.oddBelow (2 ^ n)).filter (fun i => val i ≠ p.eval (genOf F n ^ i))).card)
    (hluck : ¬ run.LuckyWithin (genOf F n) n E)
    (hcol : ¬ CollisionAmong H (fun s => (∃ r, r < run.roots.length ∧ WordHashed H (run.words r) s) ∨
      ∃ idx ∈ A, ∃ q ∈ (proof idx).queries, s ∈ openingHashed H q.value q.path q.index)) :
    A.card ≤ 2 ^ (n - 1) - (E + 1) ∧ ∀ q : ℕ, (Fintype.piFinset (fun _ : Fin q => A)).card ≤ (2 ^ (n - 1) - (E + 1)) ^ q := by
  have hodd : (Spec.oddBelow (2 ^ n)).card = 2 ^ (n - 1) := by
    obtain ⟨m, rfl⟩ : ∃ m, n = m + 1 := ⟨n - 1, by omega⟩
    rw [card_oddBelow, Nat.add_sub_cancel]
  have key : A.card ≤ 2 ^ (n - 1) - (E + 1) := by
    by_contra hcon
    have hE : (Spec.oddBelow (2 ^ n) \ A).card ≤ E := by
      rw [card_sdiff_of_subset hA, hodd]
      omega
    rcases C68_agreement H hb hc run n bound d f E hn hdf hcom h1 h2 hn1 A hA hE proof val hacc with ⟨p, hp, hv⟩ | h | h
    · have := hfar p hp
      refine absurd (lt_of_lt_of_le this ((card_le_card ?_).trans hE)) (lt_irrefl _)
      intro i hi
      rw [mem_filter] at hi
      rw [mem_sdiff]
      exact ⟨hi.1, fun hiA => hi.2 (hv i hiA)⟩
    · exact hluck h
    · exact hcol h
  refine ⟨key, fun q => ?_⟩
  rw [Fintype.card_piFinset_const]
  exact Nat.pow_le_pow_left key q

/-- The hypotheses of `C68_agreement` are met with a wrong value at an unanswered position: `n = 4`, `bound = 2`, `E = 1`, the polynomial `X + 3` and the value `0` at position `1`, whatever the hash function. -/
example (H : List UInt8 → Digest) : ∃ (run : FriRun Fr) (proof : ℕ → FriProof Fr), numBits Fr < 256 ∧ ChallengeOk Fr ∧ run.Committed H (2 ^ 4) 2 ∧
    (Spec.oddBelow (2 ^ 4) \ (Spec.oddBelow (2 ^ 4)).erase 1).card ≤ 1 ∧
    (∀ idx ∈ (Spec.oddBelow (2 ^ 4)).erase 1, run.Proves (proof idx) 2 8 ∧
      (proof idx).verify H idx (if idx = 1 then 0 else (X + C 3 : Fr[X]).eval (genOf Fr 4 ^ idx)) = .ok true) ∧
    (X + C 3 : Fr[X]).eval (genOf Fr 4 ^ 1) ≠ 0 := by
  have hch : ChallengeOk Fr := by unfold ChallengeOk; decide +kernel
  obtain ⟨run, proof, h1, h2⟩ := fri_run H hch (n := 4) (m := 1) (d := 2) (f := 8) (by decide) (by norm_num) (by norm_num) (by norm_num)
    (p := (X + C 3 : Fr[X])) (by rw [degree_X_add_C]; norm_num)
  refine ⟨run, proof, by decide +kernel, hch, h1, by decide +kernel, ?_, ?_⟩
  · intro idx hidx
    rw [mem_erase, mem_oddBelow] at hidx
    rw [if_neg hidx.1]
    exact h2 idx hidx.2.1 hidx.2.2
  · rw [eval_add, eval_X, eval_C]
    decide +kernel

/-- A word that is far from all polynomials of degree below `2`, as in `C68_far_rejected`, with `n = 4` and `E = 1`: the squares. -/
example (p : Fr[X]) (hp : p.degree < (2 : ℕ)) :
    1 < ((Spec.oddBelow (2 ^ 4)).filter (fun i => (genOf Fr 4 ^ i) ^ 2 ≠ p.eval (genOf Fr 4 ^ i))).card := by
  by_contra hcon
  have hsum := card_filter_add_card_filter_not (s := Spec.oddBelow (2 ^ 4)) (fun i => (genOf Fr 4 ^ i) ^ 2 ≠ p.eval (genOf Fr 4 ^ i))
  rw [card_oddBelow 3] at hsum
  have hX : (X ^ 2 : Fr[X]).degree = 2 := by simp
  have : (X ^ 2 : Fr[X]) = p := by
    refine poly_eq_of_many (s := (Spec.oddBelow (2 ^ 4)).filter (fun i => ¬ (genOf Fr 4 ^ i) ^ 2 ≠ p.eval (genOf Fr 4 ^ i)))
      (x := fun i => genOf Fr 4 ^ i) ((genOf_injOn (by decide)).mono (Finset.coe_subset.2 (filter_subset _ _))) (D := 3) (by omega) (by rw [hX]; norm_num)
      (hp.trans (by norm_num)) ?_
    intro i hi
    have := (mem_filter.1 hi).2
    push Not at this
    rw [eval_pow, eval_X, this]
  rw [← this, hX] at hp
  exact absurd hp (by norm_num)

end Hodor

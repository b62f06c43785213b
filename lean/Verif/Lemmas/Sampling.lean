import Verif.Spec.Sampling
import Verif.Props.Proximity

/-! # Soundness when only part of the positions are answered -/

namespace Hodor

open Polynomial Finset Spec

variable {F : Type} [Field F] [DecidableEq F] [StarkField F]

theorem card_oddBelow_pow {N : ℕ} (hN1 : 1 ≤ N) : (oddBelow (2 ^ N)).card = 2 ^ (N - 1) := by
  obtain ⟨m, rfl⟩ : ∃ m, N = m + 1 := ⟨N - 1, by omega⟩
  rw [card_oddBelow, Nat.add_sub_cancel]

/-- Decoding is unique. -/
theorem decodes_unique {N D E : ℕ} (hN1 : 1 ≤ N) (hN : N ≤ StarkField.S F) (h : 2 * E + D < 2 ^ (N - 1)) {word : List F} {P Q : F[X]}
    (hP : Decodes (genOf F N) (2 ^ N) D E word P) (hQ : Decodes (genOf F N) (2 ^ N) D E word Q) : P = Q := by
  obtain ⟨A, hA⟩ : ∃ A, A = (oddBelow (2 ^ N)).filter (fun i => word.getD i 0 ≠ P.eval (genOf F N ^ i)) := ⟨_, rfl⟩
  obtain ⟨B, hB⟩ : ∃ B, B = (oddBelow (2 ^ N)).filter (fun i => word.getD i 0 ≠ Q.eval (genOf F N ^ i)) := ⟨_, rfl⟩
  have h1 : A.card ≤ E := by rw [hA]; exact hP.2
  have h2 : B.card ≤ E := by rw [hB]; exact hQ.2
  have h3 : D + 1 ≤ (oddBelow (2 ^ N) \ (A ∪ B)).card := by
    have := le_card_sdiff (A ∪ B) (oddBelow (2 ^ N))
    have h4 := card_union_le A B
    rw [card_oddBelow_pow hN1] at this
    omega
  have hd : ∀ R : F[X], R.natDegree ≤ D → R.degree < ((D + 1 : ℕ) : WithBot ℕ) := by
    intro R hR
    refine lt_of_le_of_lt degree_le_natDegree ?_
    exact_mod_cast Nat.lt_succ_of_le hR
  refine poly_eq_of_many (x := fun i => genOf F N ^ i) ((genOf_injOn hN).mono (Finset.coe_subset.2 sdiff_subset)) h3 (hd P hP.1) (hd Q hQ.1) ?_
  intro i hi
  rw [mem_sdiff, mem_union, hA, hB, mem_filter, mem_filter] at hi
  have e1 : word.getD i 0 = P.eval (genOf F N ^ i) := by
    by_contra hc
    exact hi.2 (.inl ⟨hi.1, hc⟩)
  have e2 : word.getD i 0 = Q.eval (genOf F N ^ i) := by
    by_contra hc
    exact hi.2 (.inr ⟨hi.1, hc⟩)
  rw [← e1, ← e2]

omit [DecidableEq F] [StarkField F] in
theorem deepClaim_succ (ms : List (MaskProperties F)) (y αs : List F) (op : Register → F) (z x : F) (j : ℕ) {m : MaskProperties F} {c α : F}
    (h1 : ms[j]? = some m) (h2 : y[j]? = some c) (h3 : αs[j]? = some α) :
    deepClaim (ms.take (j + 1)) y αs op z x = deepClaim (ms.take j) y αs op z x + α * ((op m.register - c) / (x - maskOf m * z)) := by
  induction j generalizing ms y αs with
  | zero =>
    cases ms <;> cases y <;> cases αs <;> simp at h1 h2 h3
    subst h1 h2 h3
    simp [deepClaim, mul_div_assoc]
  | succ j ih =>
    cases ms with
    | nil => simp at h1
    | cons m' ms =>
      cases y with
      | nil => simp at h2
      | cons c' y =>
        cases αs with
        | nil => simp at h3
        | cons α' αs =>
          have := ih ms y αs (by simpa using h1) (by simpa using h2) (by simpa using h3)
          unfold deepClaim at this ⊢
          rw [List.take_succ_cons, List.take_succ_cons]
          simp only [List.zip_cons_cons, List.map_cons, List.sum_cons]
          rw [this]
          ring

omit [DecidableEq F] [StarkField F] in
theorem deepClaim_take (ms : List (MaskProperties F)) (y αs : List F) (op : Register → F) (z x : F) (j : ℕ) :
    deepClaim (ms.take j) y (αs.take j) op z x = deepClaim (ms.take j) y αs op z x := by
  induction j generalizing ms y αs with
  | zero => simp [deepClaim]
  | succ j ih =>
    cases ms with
    | nil => simp [deepClaim]
    | cons m ms =>
      cases y with
      | nil => simp [deepClaim]
      | cons c y =>
        cases αs with
        | nil => simp [deepClaim]
        | cons α αs =>
          have := ih ms y αs
          unfold deepClaim at this ⊢
          simp only [List.take_succ_cons, List.zip_cons_cons, List.map_cons, List.sum_cons]
          rw [this]

/-- Without luck with the mask challenges each DEEP quotient is a polynomial at the answered positions. -/
theorem deep_quotients {v : Verifier F} {d1 : Domain F} {slack E : ℕ} {fWords : List (List F)} {z : F} {y αs : List F}
    (hy : y.length = v.allMasks.length) (hα : αs.length = v.allMasks.length) {A : Finset ℕ} (hA : A ⊆ oddBelow d1.size) (hE : (oddBelow d1.size \ A).card ≤ E)
    {Q : F[X]} (hQ : Q.degree < (slack * v.columnDomain.size : ℕ))
    (h : ∀ i ∈ A, deepClaim v.allMasks y αs (registersAt fWords i) z (d1.generator ^ i) = Q.eval (d1.generator ^ i))
    (hl : ¬ LuckyMaskWithin v d1 slack E fWords z y αs) {j : ℕ} {m : MaskProperties F} {c : F} (hm : v.allMasks[j]? = some m) (hc : y[j]? = some c) :
    ∃ V : F[X], V.degree < (slack * v.columnDomain.size : ℕ) ∧
      ∀ i ∈ A, (registersAt fWords i m.register - c) / (d1.generator ^ i - maskOf m * z) = V.eval (d1.generator ^ i) := by
  have step : ∀ (j : ℕ) m c, v.allMasks[j]? = some m → y[j]? = some c →
      (∃ Q : F[X], Q.degree < (slack * v.columnDomain.size : ℕ) ∧
        ∀ i ∈ A, deepClaim (v.allMasks.take (j + 1)) y αs (registersAt fWords i) z (d1.generator ^ i) = Q.eval (d1.generator ^ i)) →
      ∃ U V : F[X], U.degree < (slack * v.columnDomain.size : ℕ) ∧ V.degree < (slack * v.columnDomain.size : ℕ) ∧ ∀ i ∈ A,
        deepClaim (v.allMasks.take j) y αs (registersAt fWords i) z (d1.generator ^ i) = U.eval (d1.generator ^ i) ∧
        (registersAt fWords i m.register - c) / (d1.generator ^ i - maskOf m * z) = V.eval (d1.generator ^ i) := by
    rintro j m c hm hc ⟨Q, hQ, hv⟩
    have hj : j < αs.length := by
      rw [hα]; exact (List.getElem?_eq_some_iff.1 hm).1
    have hαj := List.getElem?_eq_getElem hj
    by_contra hcon
    apply hl
    refine ⟨j, αs[j], hαj, m, c, hm, hc, Q, A, hQ, hA, hE, ?_, ?_⟩
    · intro i hi
      simp only [deepClaim_take]
      rw [← hv i hi, deepClaim_succ _ _ _ _ _ _ _ hm hc hαj]
    · simp only [deepClaim_take]
      exact hcon
  have down : ∀ t, t ≤ v.allMasks.length → ∃ Q : F[X], Q.degree < (slack * v.columnDomain.size : ℕ) ∧
      ∀ i ∈ A, deepClaim (v.allMasks.take (v.allMasks.length - t)) y αs (registersAt fWords i) z (d1.generator ^ i) = Q.eval (d1.generator ^ i) := by
    intro t
    induction t with
    | zero =>
      intro _
      rw [Nat.sub_zero, List.take_length]
      exact ⟨Q, hQ, h⟩
    | succ t ih =>
      intro ht
      have hj : v.allMasks.length - (t + 1) < v.allMasks.length := by omega
      have hj2 : v.allMasks.length - (t + 1) < y.length := by omega
      obtain ⟨U, V, hU, -, hUV⟩ := step _ _ _ (List.getElem?_eq_getElem hj) (List.getElem?_eq_getElem hj2) (by
        rw [show v.allMasks.length - (t + 1) + 1 = v.allMasks.length - t by omega]
        exact ih (by omega))
      exact ⟨U, hU, fun i hi => (hUV i hi).1⟩
  have hj := (List.getElem?_eq_some_iff.1 hm).1
  obtain ⟨U, V, -, hV, hUV⟩ := step j m c hm hc (by
    have := down (v.allMasks.length - (j + 1)) (by omega)
    rwa [show v.allMasks.length - (v.allMasks.length - (j + 1)) = j + 1 by omega] at this)
  exact ⟨V, hV, fun i hi => (hUV i hi).2⟩

/-- A word whose DEEP quotient is a polynomial at the answered positions decodes to one with the claimed value. -/
theorem decode_of_quotient {N D E : ℕ} (hN : N ≤ StarkField.S F) {A : Finset ℕ} (hE : (oddBelow (2 ^ N) \ A).card ≤ E)
    {word : List F} {V : F[X]} (hV : V.degree < (D : ℕ)) {a c : F} (ha : a ^ 2 ^ N ≠ 1)
    (h : ∀ i ∈ A, (word.getD i 0 - c) / (genOf F N ^ i - a) = V.eval (genOf F N ^ i)) :
    ∃ P : F[X], Decodes (genOf F N) (2 ^ N) D E word P ∧ P.eval a = c := by
  refine ⟨C c + V * (X - C a), ⟨?_, ?_⟩, by simp⟩
  · refine (natDegree_add_le _ _).trans (max_le (by simp) ?_)
    by_cases h0 : V = 0
    · simp [h0]
    · refine natDegree_mul_le.trans ?_
      rw [natDegree_X_sub_C]
      have : V.natDegree < D := by
        rw [degree_eq_natDegree h0] at hV
        exact_mod_cast hV
      omega
  · refine (card_le_card ?_).trans hE
    intro i hi
    rw [mem_filter] at hi
    rw [mem_sdiff]
    refine ⟨hi.1, fun hiA => hi.2 ?_⟩
    rw [eval_add, eval_mul, ← h i hiA]
    simp only [eval_C, eval_sub, eval_X]
    rw [div_mul_cancel₀ _ (domain_ne hN ha i)]
    ring

section
variable {inst : InstanceProperties F} {n k K e : ℕ}

/-- The composition reads only the registers that occur in the masks. -/
theorem composition_congr (h : Verifiable inst n k) {v : Verifier F} {factor : ℕ} (hb : VBuilt v inst k factor) {P P' : ℕ → F[X]}
    {z : F} (hz : z ^ 2 ^ k ≠ 1) (cc bc : List (F × F))
    (hcc : cc.length = inst.constraints.length) (hbc : bc.length = inst.boundaryConstraints.length)
    (hP : ∀ m ∈ v.allMasks, ∀ r, m.register = .register r → P r = P' r) :
    compositionAt (genOf F k) inst.numRows (degOf inst k) (pointEnv P z) ((batched inst k).zip cc)
        (inst.boundaryConstraints.zip bc) z =
    compositionAt (genOf F k) inst.numRows (degOf inst k) (pointEnv P' z) ((batched inst k).zip cc)
        (inst.boundaryConstraints.zip bc) z := by
  have e1 := calculateGAtZ_poly h hb P hz cc bc hcc hbc
  have e2 := calculateGAtZ_poly h hb P' hz cc bc hcc hbc
  have : (masksOf (arpOf inst k)).map (fun m => pointEnv P z m.register m.stepsDifference) =
      (masksOf (arpOf inst k)).map (fun m => pointEnv P' z m.register m.stepsDifference) := by
    apply List.map_congr_left
    intro m hm
    rcases hmr : m.register with r | r | r <;> rcases m.stepsDifference with s | s <;> simp only [pointEnv]
    rw [hP m (by rw [hb.masks]; exact hm) _ hmr]
  rw [this, e2] at e1
  exact (Res.ok.inj e1).symm

/-- The polynomials that the words of the registers decode to, zero for words that are not close to any. -/
noncomputable def decodedPolys (ω : F) (N D E : ℕ) (fWords : List (List F)) (r : ℕ) : F[X] :=
  open Classical in if h : ∃ P, Decodes ω N D E (fWords.getD r []) P then h.choose else 0

omit [StarkField F] in
theorem natDegree_decodedPolys (ω : F) (N D E : ℕ) (fWords : List (List F)) (r : ℕ) : (decodedPolys ω N D E fWords r).natDegree ≤ D := by
  unfold decodedPolys
  split
  · rename_i h
    exact h.choose_spec.1
  · simp

theorem decodedPolys_eq {N D E : ℕ} (hN1 : 1 ≤ N) (hN : N ≤ StarkField.S F) (h : 2 * E + D < 2 ^ (N - 1)) {fWords : List (List F)} {r : ℕ} {P : F[X]}
    (hP : Decodes (genOf F N) (2 ^ N) D E (fWords.getD r []) P) : P = decodedPolys (genOf F N) (2 ^ N) D E fWords r := by
  have hex : ∃ P, Decodes (genOf F N) (2 ^ N) D E (fWords.getD r []) P := ⟨P, hP⟩
  unfold decodedPolys
  rw [dif_pos hex]
  exact decodes_unique hN1 hN h hP hex.choose_spec

/-- Challenges for which some word of `g` has many consistent points make the numerator of the decoded polynomials vanish at all rows. -/
theorem winnableWithin_numerator (h : Verifiable inst n k)
    (hdeg : ∀ c ∈ inst.constraints, ∀ t ∈ c.terms, termDegree t ≤ c.degree)
    (hrows : ∀ b ∈ inst.boundaryConstraints, b.atRow < inst.numRows) (he : 1 ≤ e) {sl E1 E2 : ℕ} (hs1 : 1 ≤ sl)
    (h1 : 2 * E1 + sl * 2 ^ k < 2 ^ (k + e - 1)) (h2 : 2 * E2 + sl * 2 ^ K < 2 ^ (K + e - 1)) (hS : K + e ≤ StarkField.S F) {v : Verifier F}
    (hv : VBuilt v inst k (2 ^ e)) (hdom : v.constraintsDomain = domOf F K)
    (hK : 2 ^ K = nextPow2 (nextPow2 (degOf inst k) * 2 ^ k)) {fWords : List (List F)}
    {cc bc : List (F × F)} (hcc : cc.length = inst.constraints.length)
    (hbc : bc.length = inst.boundaryConstraints.length)
    (hw : WinnableWithin v (domOf F (k + e)) (domOf F (K + e)) sl E1 E2 fWords cc bc) (i : ℕ) :
    (numerator (genOf F k) (2 ^ k) inst.numRows (degOf inst k) (decodedPolys (genOf F (k + e)) (2 ^ (k + e)) (sl * 2 ^ k) E1 fWords) ((batched inst k).zip cc)
      (inst.boundaryConstraints.zip bc)).eval (genOf F k ^ i) = 0 := by
  have hkK := (domain_large hK).2
  obtain ⟨gWord, -, hlp⟩ := hw
  have s2 : v.constraintsDomain.size * v.ldeFactor = 2 ^ (K + e) := by
    rw [hdom, hv.factor]; exact (pow_add _ _ _).symm
  have s3 : v.constraintsDomain.size = 2 ^ K := by rw [hdom]; rfl
  have s4 : v.columnDomain.size = 2 ^ k := by rw [hv.column]; rfl
  have hbat : v.constraintsBatchedByDensity.flatMap (fun b => b.2) = batched inst k := by rw [hv.batches]; rfl
  unfold LuckyPointWithin at hlp
  rw [s3, s4] at hlp
  have key : ∀ z ∈ consistentPoints v (domOf F (k + e)) (domOf F (K + e)) sl E1 E2 fWords gWord cc bc, ∃ G, 
      Decodes (genOf F (K + e)) (2 ^ (K + e)) (sl * 2 ^ K) E2 gWord G ∧ z ^ 2 ^ k ≠ 1 ∧ G.eval z =
      compositionAt (genOf F k) inst.numRows (degOf inst k) (pointEnv (decodedPolys (genOf F (k + e)) (2 ^ (k + e)) (sl * 2 ^ k) E1 fWords) z) ((batched inst k).zip cc)
        (inst.boundaryConstraints.zip bc) z := by
    rintro z ⟨hz, P, G, hPG, hGz⟩
    unfold OutOfDomain at hz
    rw [s2] at hz
    have hzk : z ^ 2 ^ k ≠ 1 := by
      intro hc
      apply hz
      rw [show 2 ^ (K + e) = 2 ^ k * 2 ^ (K + e - k) by rw [← pow_add]; congr 1; omega, pow_mul, hc, one_pow]
    have hg := hPG.g
    rw [s3] at hg
    refine ⟨G, hg, hzk, ?_⟩
    rw [hGz, hbat, hv.props, hv.power, hv.column]
    refine composition_congr h hv hzk cc bc hcc hbc ?_
    intro m hm r hr
    have hf := hPG.f m hm r hr
    rw [s4] at hf
    exact decodedPolys_eq (by omega) (by omega) h1 hf
  have hne : (consistentPoints v (domOf F (k + e)) (domOf F (K + e)) sl E1 E2 fWords gWord cc bc).Nonempty := by
    rw [Set.nonempty_iff_ne_empty]
    intro e'
    rw [e', Set.encard_empty] at hlp
    exact hlp (zero_le)
  obtain ⟨z0, hz0⟩ := hne
  obtain ⟨G, hG, -⟩ := key z0 hz0
  refine numerator_zero (genOf_prim hv.order) (Nat.two_pow_pos k) h.rows.1
    (Nat.mul_pos hs1 (Nat.two_pow_pos k)) (natDegree_decodedPolys _ _ _ _ fWords) (G := G)
    (by rw [mul_assoc]; exact Nat.mul_le_mul_left _ (domain_large hK).1) hG.1 _ _ ?_ ?_
    (S := consistentPoints v (domOf F (k + e)) (domOf F (K + e)) sl E1 E2 fWords gWord cc bc) (by exact_mod_cast hlp) ?_ i
  · intro c hc
    have hc' := mem_batched.1 (List.of_mem_zip hc).1
    obtain ⟨d, hd, -⟩ := h.dense _ hc'
    obtain ⟨c0, hc0, e0⟩ := List.mem_map.1 hc'
    refine ⟨⟨d, hd⟩, le_maxDegree hc', ?_⟩
    rw [← e0]
    intro t ht
    obtain ⟨t0, ht0, rfl⟩ := List.mem_map.1 ht
    rw [termDegree_maskT]
    exact hdeg c0 hc0 t0 ht0
  · intro b hb
    exact ⟨lt_of_lt_of_le (hrows _ (List.of_mem_zip hb).1) h.rows.1, h.degPos (List.of_mem_zip hb).1⟩
  · intro z hz
    obtain ⟨G', hG', hzk, hv'⟩ := key z hz
    rw [decodes_unique (by omega) hS h2 hG hG']
    exact ⟨hzk, hv'⟩

/-- Answers at part of the positions: `z` is a consistent point. -/
theorem consistent_of_answers (h : Verifiable inst n k) (he : 1 ≤ e) {sl E1 E2 : ℕ}
    (h1 : 2 * E1 + sl * 2 ^ k < 2 ^ (k + e - 1)) (hS : K + e ≤ StarkField.S F) (hkK : k ≤ K) {v : Verifier F}
    (hv : VBuilt v inst k (2 ^ e)) (hdom : v.constraintsDomain = domOf F K) {fWords : List (List F)} {gWord : List F}
    {cc bc : List (F × F)} (hcc : cc.length = inst.constraints.length)
    (hbc : bc.length = inst.boundaryConstraints.length) {z : F} (hz : OutOfDomain v z) {y αs : List F}
    (hy : y.length = v.allMasks.length) (hα : αs.length = v.allMasks.length)
    {A1 A2 : Finset ℕ} (hA1 : A1 ⊆ oddBelow (2 ^ (k + e))) (hE1 : (oddBelow (2 ^ (k + e)) \ A1).card ≤ E1)
    (hE2 : (oddBelow (2 ^ (K + e)) \ A2).card ≤ E2)
    {Q1 Q2 : F[X]} (hQ1 : Q1.degree < (sl * 2 ^ k : ℕ)) (hQ2 : Q2.degree < (sl * 2 ^ K : ℕ))
    (hv1 : ∀ i ∈ A1, deepClaim v.allMasks y αs (registersAt fWords i) z (genOf F (k + e) ^ i) = Q1.eval (genOf F (k + e) ^ i))
    (hv2 : ∀ i ∈ A2, (gWord.getD i 0 - compositionAt (genOf F k) inst.numRows (degOf inst k) (claimedEnv v.allMasks y) ((batched inst k).zip cc)
        (inst.boundaryConstraints.zip bc) z) / (genOf F (K + e) ^ i - z) = Q2.eval (genOf F (K + e) ^ i))
    (hl : ¬ LuckyMaskWithin v (domOf F (k + e)) sl E1 fWords z y αs) :
    z ∈ consistentPoints v (domOf F (k + e)) (domOf F (K + e)) sl E1 E2 fWords gWord cc bc := by
  obtain ⟨ps, eps, hps⟩ := h.maskPairs hv.order
  have hm : v.allMasks = ps.map toMask := hv.masks.trans eps
  have s2 : v.constraintsDomain.size * v.ldeFactor = 2 ^ (K + e) := by
    rw [hdom, hv.factor]; exact (pow_add _ _ _).symm
  have s3 : v.constraintsDomain.size = 2 ^ K := by rw [hdom]; rfl
  have s4 : v.columnDomain.size = 2 ^ k := by rw [hv.column]; rfl
  have hbat : v.constraintsBatchedByDensity.flatMap (fun b => b.2) = batched inst k := by rw [hv.batches]; rfl
  have hz' := hz
  unfold OutOfDomain at hz
  rw [s2] at hz
  have hzN : z ^ 2 ^ (k + e) ≠ 1 := by
    intro hc
    apply hz
    rw [show 2 ^ (K + e) = 2 ^ (k + e) * 2 ^ (K - k) by rw [← pow_add]; congr 1; omega, pow_mul, hc, one_pow]
  have hzk : z ^ 2 ^ k ≠ 1 := by
    intro hc
    apply hzN
    rw [pow_add, pow_mul, hc, one_pow]
  have hpz : ∀ p ∈ ps, (p.2 * z) ^ 2 ^ (k + e) ≠ 1 := by
    intro p hp'
    rw [mul_pow]
    have : p.2 ^ 2 ^ (k + e) = 1 := by rw [pow_add, pow_mul, (hps p hp').2, one_pow]
    rw [this, one_mul]
    exact hzN
  obtain ⟨P, hP⟩ : ∃ P, P = decodedPolys (genOf F (k + e)) (2 ^ (k + e)) (sl * 2 ^ k) E1 fWords := ⟨_, rfl⟩
  have each : ∀ (j : ℕ) (p : ℕ × F), ps[j]? = some p →
      Decodes (genOf F (k + e)) (2 ^ (k + e)) (sl * 2 ^ k) E1 (fWords.getD p.1 []) (P p.1) ∧ y[j]? = some ((P p.1).eval (p.2 * z)) := by
    intro j p hj
    have hjl := (List.getElem?_eq_some_iff.1 hj).1
    have hmj : v.allMasks[j]? = some (toMask p) := by rw [hm, List.getElem?_map, hj]; rfl
    have hyl : y.length = ps.length := by rw [hy, hm, List.length_map]
    have hyj : y[j]? = some y[j] := List.getElem?_eq_getElem (by omega)
    obtain ⟨V, hV, hVv⟩ := deep_quotients (d1 := domOf F (k + e)) hy hα hA1 hE1 (by rw [s4]; exact hQ1) hv1 hl hmj hyj
    rw [s4] at hV
    obtain ⟨R, hR, hRe⟩ := decode_of_quotient (show k + e ≤ StarkField.S F by omega) hE1 (word := fWords.getD p.1 []) hV
      (hpz p (List.mem_of_getElem? hj)) (c := y[j]) (fun i hi => hVv i hi)
    have := decodedPolys_eq (show 1 ≤ k + e by omega) (by omega) h1 hR
    rw [← hP] at this
    rw [← this]
    exact ⟨hR, by rw [hRe]; exact hyj⟩
  have hyv : y = (masksOf (arpOf inst k)).map (fun m => pointEnv P z m.register m.stepsDifference) := by
    rw [eps, List.map_map]
    apply List.ext_getElem?
    intro j
    rw [List.getElem?_map]
    cases hj : ps[j]? with
    | none =>
      rw [List.getElem?_eq_none_iff] at hj
      rw [Option.map_none, List.getElem?_eq_none_iff, hy, hm, List.length_map]; omega
    | some p => exact (each j p hj).2
  have hcomp : compositionAt (genOf F k) inst.numRows (degOf inst k) (claimedEnv v.allMasks y) ((batched inst k).zip cc)
        (inst.boundaryConstraints.zip bc) z = compositionAt (genOf F k) inst.numRows (degOf inst k) (pointEnv P z) ((batched inst k).zip cc)
        (inst.boundaryConstraints.zip bc) z := by
    have e1 := calculateGAtZ_poly h hv P hzk cc bc hcc hbc
    rw [← hyv] at e1
    have e2 := (calculateGAtZ_iff h hv (by rw [hbat, length_batched]; exact hcc) hbc y z _).1 e1
    have e3 := e2.2
    rw [hbat, hv.props, hv.power, hv.column] at e3
    exact e3.symm
  obtain ⟨G, hG, hGz⟩ := decode_of_quotient hS hE2 (word := gWord) hQ2 hz hv2
  refine ⟨hz', P, G, ⟨?_, by rw [s3]; exact hG⟩, ?_⟩
  · intro m hmem r hr
    rw [hm] at hmem
    obtain ⟨j, hj⟩ := List.getElem?_of_mem hmem
    rw [List.getElem?_map, Option.map_eq_some_iff] at hj
    obtain ⟨p, hj, rfl⟩ := hj
    simp only [toMask, Register.register.injEq] at hr
    subst hr
    rw [s4]
    exact (each j p hj).1
  · rw [hGz, hcomp, hbat, hv.props, hv.power, hv.column]
    rfl

end

end Hodor

import Verif.Spec.Densities
import Verif.Props.AnyWorker

/-!
# C41, C45: two densities
-/

namespace Hodor

open Polynomial Finset Spec

variable {F : Type} [Field F] [DecidableEq F] [StarkField F] (H : List UInt8 → Digest)

section batches

omit [Field F] [StarkField F] in
theorem batches_two_aux {d₁ d₂ : ConstraintDensity} (hne : d₁ ≠ d₂) (cs : List (Constraint F))
    (h : ∀ c ∈ cs, c.density = d₁ ∨ c.density = d₂) (b₁ b₂ : List (Constraint F)) :
    cs.foldl (fun m c => pushBatch c m) [(d₁, b₁), (d₂, b₂)] =
      [(d₁, b₁ ++ cs.filter (fun c => c.density = d₁)), (d₂, b₂ ++ cs.filter (fun c => c.density = d₂))] := by
  induction cs generalizing b₁ b₂ with
  | nil => simp
  | cons c cs ih =>
    have ih := fun b₁ b₂ => ih (fun c' hc' => h c' (List.mem_cons_of_mem _ hc')) b₁ b₂
    rw [List.foldl_cons]
    rcases h c List.mem_cons_self with e | e
    · have : ¬ c.density = d₂ := by rw [e]; exact hne
      simp only [pushBatch, e, if_true]
      rw [ih]
      simp [e, hne]
    · have : ¬ d₁ = c.density := by rw [e]; exact hne
      simp only [pushBatch, e, hne, if_true, if_false]
      rw [ih]
      simp [e, hne.symm]

omit [Field F] [StarkField F] in
theorem batches_two_aux1 {d₁ d₂ : ConstraintDensity} (hne : d₁ ≠ d₂) (cs : List (Constraint F))
    (h : ∀ c ∈ cs, c.density = d₁ ∨ c.density = d₂) (h2 : ∃ c ∈ cs, c.density = d₂) (b₁ : List (Constraint F)) :
    cs.foldl (fun m c => pushBatch c m) [(d₁, b₁)] =
      [(d₁, b₁ ++ cs.filter (fun c => c.density = d₁)), (d₂, cs.filter (fun c => c.density = d₂))] := by
  induction cs generalizing b₁ with
  | nil => obtain ⟨c, hc, -⟩ := h2; cases hc
  | cons c cs ih =>
    rw [List.foldl_cons]
    rcases h c List.mem_cons_self with e | e
    · simp only [pushBatch, e, if_true]
      rw [ih (fun c' hc' => h c' (List.mem_cons_of_mem _ hc')) (by
        obtain ⟨c', hc', e'⟩ := h2
        rcases List.mem_cons.1 hc' with rfl | hm
        · exact absurd (e.symm.trans e') hne
        · exact ⟨c', hm, e'⟩)]
      simp [e, hne]
    · simp only [pushBatch, e, hne, if_false]
      rw [batches_two_aux hne cs (fun c' hc' => h c' (List.mem_cons_of_mem _ hc'))]
      simp [e, hne.symm]

omit [StarkField F] in
theorem batches_two {d₁ d₂ : ConstraintDensity} {cs : List (Constraint F)} (h : TwoDensities cs d₁ d₂) :
    batchesOf cs = [(d₁, cs.filter (fun c => c.density = d₁)), (d₂, cs.filter (fun c => c.density = d₂))] := by
  obtain ⟨hne, ⟨c, cs', rfl, e⟩, ⟨c2, hc2, e2⟩, hall⟩ := h
  unfold batchesOf
  rw [List.foldl_cons]
  simp only [pushBatch, e]
  rw [batches_two_aux1 hne cs' (fun c' hc' => hall c' (List.mem_cons_of_mem _ hc')) (by
    rcases List.mem_cons.1 hc2 with rfl | hm
    · exact absurd (e.symm.trans e2) hne
    · exact ⟨c2, hm, e2⟩)]
  simp [e, hne]

end batches

section

variable {inst : InstanceProperties F} {n k f : ℕ}

theorem runnable_holds (h : Runnable inst n k f) {witness : List (List F)}
    {P : ℕ → F[X]} (hv : ∀ r, r < n → ∀ i, i < 2 ^ k → (P r).eval (genOf F k ^ i) = cell witness r i)
    (hsat : Satisfies inst (cellR witness) (2 ^ k)) {c : Constraint F} (hc : c ∈ (arpOf inst k).constraints) {d : DenseConstraint}
    (hcd : c.density = .dense d) :
    ∀ row ∈ enforcedRows d inst.numRows, constraintValue (pointEnv P (genOf F k ^ row)) c = 0 := by
  intro row hrow
  obtain ⟨c0, hc0, rfl⟩ := List.mem_map.1 hc
  have h1 := Finset.mem_Ico.1 hrow
  rw [h.rows] at h1
  obtain ⟨hin, hval⟩ := hsat.1 c0 hc0 row ⟨d, hcd, h1.1, by omega⟩
  have hsteps : ∀ u ∈ factors c0, (∃ r, r < n ∧ u.register = .register r) ∧ ∃ j, u.stepsDifference = .steps j := by
    intro u hu
    obtain ⟨t, ht, hu'⟩ := List.mem_flatMap.1 hu
    exact (h.terms c0 hc0 t ht).2 u hu'
  rw [constraintValue_maskC (pointEnv P (genOf F k ^ row)) (fun r s => match r, s with
            | .register r, .steps j => (P r).eval (genOf F k ^ j * genOf F k ^ row)
            | _, _ => 0) (genOf F k) (by intro r j; cases r <;> rfl) (fun u hu => (hsteps u hu).2), ← hval]
  apply constraintValue_congr
  intro u hu
  obtain ⟨⟨r, hr, er⟩, ⟨m, em⟩⟩ := hsteps u hu
  rw [er, em]
  simp only [rowEnv, cellR]
  rw [← pow_add, Nat.add_comm m row]
  exact hv r hr _ (hin u hu m em)

theorem runnable_boundaryHolds (h : Runnable inst n k f) (hrows : ∀ b ∈ inst.boundaryConstraints, b.atRow < inst.numRows) {witness : List (List F)}
    {P : ℕ → F[X]} (hv : ∀ r, r < n → ∀ i, i < 2 ^ k → (P r).eval (genOf F k ^ i) = cell witness r i)
    (hsat : Satisfies inst (cellR witness) (2 ^ k)) :
    ∀ b ∈ inst.boundaryConstraints, ∃ r, b.register = .register r ∧ (P r).eval (genOf F k ^ b.atRow) = b.value.getD 0 := by
  intro b hb
  obtain ⟨⟨r, hr, er⟩, v, ev⟩ := h.boundary b hb
  refine ⟨r, er, ?_⟩
  have := hsat.2 b hb v ev
  rw [hv r hr _ (h.rows ▸ hrows b hb), ev, Option.getD_some, ← this, er]
  rfl

theorem runnable_termDeg (hdeg : ∀ c ∈ inst.constraints, ∀ t ∈ c.terms, termDegree t ≤ c.degree) :
    ∀ c ∈ (arpOf inst k).constraints, ∀ t ∈ c.terms, termDegree t ≤ c.degree := by
  intro c hc
  obtain ⟨c0, hc0, rfl⟩ := List.mem_map.1 hc
  intro t ht
  obtain ⟨t0, ht0, rfl⟩ := List.mem_map.1 ht
  rw [termDegree_maskT]
  exact hdeg c0 hc0 t0 ht0

/-- For a satisfied instance with any densities the composition is a polynomial. -/
theorem composition_exists_any (h : Runnable inst n k f) (hK : k ≤ StarkField.S F)
    (hdeg : ∀ c ∈ inst.constraints, ∀ t ∈ c.terms, termDegree t ≤ c.degree)
    (hrows : ∀ b ∈ inst.boundaryConstraints, b.atRow < inst.numRows)
    {witness : List (List F)} {P : ℕ → F[X]} (hP : ∀ r, (P r).degree < (2 ^ k : ℕ))
    (hv : ∀ r, r < n → ∀ i, i < 2 ^ k → (P r).eval (genOf F k ^ i) = cell witness r i)
    (hsat : Satisfies inst (cellR witness) (2 ^ k)) (cc bc : List (F × F)) :
    ∃ G : F[X], G.degree < (2 ^ (k + f) : ℕ) ∧
      ∀ x, x ^ 2 ^ k ≠ 1 → G.eval x = compositionAt (genOf F k) (2 ^ k) (2 ^ f) (pointEnv P x)
        ((batched inst k).zip cc) (inst.boundaryConstraints.zip bc) x := by
  obtain ⟨G, hG, hGv⟩ := exists_composition (genOf_prim hK)
    (by calc 2 = 2 ^ 1 := rfl
          _ ≤ 2 ^ k := Nat.pow_le_pow_right (by norm_num) h.two_rows) hP (numRows := 2 ^ k) (D := 2 ^ f)
    le_rfl Nat.one_le_two_pow ((batched inst k).zip cc) (inst.boundaryConstraints.zip bc)
    (by
      intro c hc
      have hc' := mem_batched.1 (List.of_mem_zip hc).1
      obtain ⟨d, hd, -⟩ := h.dense _ hc'
      exact ⟨d, hd, h.maxDeg ▸ le_maxDegree hc', runnable_termDeg hdeg _ hc', h.rows ▸ runnable_holds h hv hsat hc' hd⟩)
    (by
      intro b hb
      exact runnable_boundaryHolds h hrows hv hsat _ (List.of_mem_zip hb).1)
  rw [← pow_add] at hG
  exact ⟨G, hG, hGv⟩

omit [DecidableEq F] [StarkField F] in
/-- A weighted sum of quotients has some room left below the degree bound when the largest weight is not counted. -/
theorem exists_quotient_sharp {g : F} {T : ℕ} (hg : IsPrimitiveRoot g T) (hT : 2 ≤ T) {P : ℕ → F[X]}
    (hP : ∀ r, (P r).degree < T) {numRows D : ℕ} (hnr : numRows ≤ T) {c : Constraint F} {d : DenseConstraint}
    (hd : c.density = .dense d) (hD : c.degree ≤ D) (hc : ∀ t ∈ c.terms, termDegree t ≤ c.degree)
    (hs : ∀ row ∈ enforcedRows d numRows, constraintValue (pointEnv P (g ^ row)) c = 0) (αβ : F × F) :
    ∃ Q : F[X], Q.degree < ((T - 1) * D + 1 : ℕ) ∧ ∀ x, x ^ T ≠ 1 →
      Q.eval x = constraintValue (pointEnv P x) c * weightAt (D - c.degree) αβ x / divisorAt g numRows c x := by
  have hrows : ∀ i ∈ enforcedRows d numRows, i < T := by
    intro i hi
    have := (Finset.mem_Ico.1 hi).2
    omega
  obtain ⟨Q, hQ⟩ := (zerofier_dvd_iff hg hrows (constraintPoly P c)).2 (fun i hi => by
    rw [eval_constraintPoly]; exact hs i hi)
  refine ⟨Q * weightPoly (D - c.degree) αβ, ?_, ?_⟩
  · have h1 := natDegree_of_mul_monic (monic_zerofier g _) hQ
    have h2 := natDegree_constraintPoly P (T - 1) c.degree (fun r => natDegree_le_of_degree (hP r)) c hc
    have h3 := natDegree_weightPoly (D - c.degree) αβ
    refine degree_lt_of_natDegree (natDegree_mul_le.trans (Nat.add_le_add (h1.trans h2) h3)) ?_
    obtain ⟨S, rfl⟩ := Nat.exists_eq_add_of_le hT
    obtain ⟨e, rfl⟩ := Nat.exists_eq_add_of_le hD
    have : 2 + S - 1 = 1 + S := by omega
    rw [this, Nat.add_sub_cancel_left]
    nlinarith [Nat.zero_le (S * e), Nat.zero_le (S * c.degree)]
  · intro x hx
    have hz := zerofierAt_ne hg hx (enforcedRows d numRows)
    have e := congrArg (eval x) hQ
    rw [eval_constraintPoly, eval_mul, eval_zerofier] at e
    rw [eval_mul, eval_weightPoly, e]
    simp only [divisorAt, hd]
    field_simp

omit [DecidableEq F] [StarkField F] in
theorem exists_weightSum (D : ℕ) (hD : 1 ≤ D) (cs : List (Constraint F × F × F)) (hpos : ∀ c ∈ cs, 1 ≤ c.1.degree) :
    ∃ W : F[X], W.degree < (D : ℕ) ∧ ∀ x, W.eval x = 1 + weightSum D cs x := by
  obtain ⟨W, h1, h2⟩ := exists_sum_poly cs (fun c x => weightAt (D - c.1.degree) c.2 x) (fun _ => True) D (by
    intro c hc
    refine ⟨weightPoly (D - c.1.degree) c.2, ?_, fun x _ => eval_weightPoly _ _ _⟩
    exact degree_lt_of_natDegree (natDegree_weightPoly _ _) (by have := hpos c hc; omega))
  refine ⟨1 + W, (degree_add_le _ _).trans_lt (max_lt ?_ h1), fun x => ?_⟩
  · rw [degree_one]; exact_mod_cast hD
  · rw [eval_add, eval_one, h2 x trivial]; rfl

theorem two_densities_core (h : Runnable inst n k f) (hK : k + f ≤ StarkField.S F) (hs : (StarkField.mulGen : F) ^ 2 ^ (k + f) ≠ 1)
    (hdeg : ∀ c ∈ inst.constraints, ∀ t ∈ c.terms, termDegree t ≤ c.degree) (hpos : ∀ c ∈ inst.constraints, 1 ≤ c.degree)
    (hrows : ∀ b ∈ inst.boundaryConstraints, b.atRow < inst.numRows)
    {witness : List (List F)} {P : ℕ → F[X]} (hP : ∀ r, (P r).degree < (2 ^ k : ℕ))
    (hv : ∀ r, r < n → ∀ i, i < 2 ^ k → (P r).eval (genOf F k ^ i) = cell witness r i)
    (hsat : Satisfies inst (cellR witness) (2 ^ k)) {d₁ d₂ : ConstraintDensity} {cs₁ cs₂ : List (Constraint F)}
    (hb : batchesOf (arpOf inst k).constraints = [(d₁, cs₁), (d₂, cs₂)])
    (hd₁ : ∀ c ∈ cs₁, c.density = d₁) (hd₂ : ∀ c ∈ cs₂, c.density = d₂) (hne₂ : cs₂ ≠ []) (t : Transcript) (bc : List (F × F))
    {G : F[X]} (hG : G.degree < (2 ^ (k + f) : ℕ))
    (hGv : ∀ i, i < 2 ^ (k + f) → G.eval (cosetPt F (k + f) i) =
      gFold H P (2 ^ f) (cosetPt F (k + f) i) (dinvAt (genOf F k) inst.numRows (cosetPt F (k + f) i))
        (batchesOf (arpOf inst k).constraints) t 0 +
      boundarySum P (2 ^ f) (genOf F k) (cosetPt F (k + f) i) (inst.boundaryConstraints.zip bc))
    {cc : List (F × F)} (hcc : cc = pairsAt F H inst.constraints.length t) :
    ((∀ x, x ^ 2 ^ k ≠ 1 → x ∈ agreement (genOf F k) (2 ^ k) (2 ^ f) (pointEnv P) (batched inst k) inst.boundaryConstraints (fun x => G.eval x) cc bc) ↔
      (∀ x, x ^ 2 ^ k ≠ 1 → quotientSum (genOf F k) (2 ^ k) (2 ^ f) (pointEnv P) (cs₁.zip cc) x = 0) ∨
        ∀ x, 1 + weightSum (2 ^ f) (cs₂.zip (cc.drop cs₁.length)) x = 0) ∧
    ((∀ x, x ^ 2 ^ k ≠ 1 → x ∈ agreement (genOf F k) (2 ^ k) (2 ^ f) (pointEnv P) (batched inst k) inst.boundaryConstraints (fun x => G.eval x) cc bc) ∨
      (agreement (genOf F k) (2 ^ k) (2 ^ f) (pointEnv P) (batched inst k) inst.boundaryConstraints (fun x => G.eval x) cc bc).encard < (2 ^ (k + f) : ℕ)) := by
  have hT2 : 2 ≤ 2 ^ k := by
    calc 2 = 2 ^ 1 := rfl
      _ ≤ 2 ^ k := Nat.pow_le_pow_right (by norm_num) h.two_rows
  have hg := genOf_prim (F := F) (show k ≤ StarkField.S F by omega)
  have hgK := genOf_prim (F := F) hK
  have hgen := StarkField.mulGen_ne_zero (F := F)
  have hbat : batched inst k = cs₁ ++ cs₂ := by simp [batched, hb]
  have hlen : cs₁.length + cs₂.length = inst.constraints.length := by
    rw [← length_batched (inst := inst) (k := k), hbat, List.length_append]
  have hmem : ∀ c, c ∈ cs₁ ∨ c ∈ cs₂ → c ∈ (arpOf inst k).constraints := by
    intro c hc
    rw [← mem_batched, hbat, List.mem_append]
    exact hc
  have hcc' : cc = pairsAt F H cs₁.length t ++ pairsAt F H cs₂.length (afterN H cs₁.length t) := by
    rw [hcc, ← hlen, pairsAt_add]
  have hl1 := length_pairsAt (F := F) H cs₁.length t
  have hl2 := length_pairsAt (F := F) H cs₂.length (afterN H cs₁.length t)
  have hdrop : cc.drop cs₁.length = pairsAt F H cs₂.length (afterN H cs₁.length t) := by
    rw [hcc', List.drop_append_of_le_length (by rw [hl1]), List.drop_eq_nil_of_le hl1.le, List.nil_append]
  have hz1 : cs₁.zip cc = cs₁.zip (pairsAt F H cs₁.length t) := by
    rw [hcc']
    have := List.zip_append (l₁ := cs₁) (r₁ := []) (l₂ := pairsAt F H cs₁.length t) (r₂ := pairsAt F H cs₂.length (afterN H cs₁.length t)) hl1.symm
    simpa using this
  have hz : (batched inst k).zip cc = cs₁.zip (pairsAt F H cs₁.length t) ++ cs₂.zip (pairsAt F H cs₂.length (afterN H cs₁.length t)) := by
    rw [hbat, hcc', List.zip_append hl1.symm]
  obtain ⟨Gc, hGc, hGcv⟩ := composition_exists_any h (by omega) hdeg hrows hP hv hsat cc bc
  have hoff : ∀ i, cosetPt F (k + f) i ^ 2 ^ k ≠ 1 := fun i => cosetPt_pow_ne (by omega) hK hs i
  have hA : ∀ x, x ^ 2 ^ k ≠ 1 → (x ∈ agreement (genOf F k) (2 ^ k) (2 ^ f) (pointEnv P) (batched inst k) inst.boundaryConstraints (fun x => G.eval x) cc bc ↔
      G.eval x = Gc.eval x) := by
    intro x hx
    rw [hGcv x hx]
    exact ⟨fun a => a.2, fun a => ⟨hx, a⟩⟩
  -- the two polynomials of the error
  obtain ⟨Q, hQ, hQv⟩ := exists_sum_poly (cs₁.zip cc) (fun c x => constraintValue (pointEnv P x) c.1 * weightAt (2 ^ f - c.1.degree) c.2 x /
    divisorAt (genOf F k) (2 ^ k) c.1 x) (fun x => x ^ 2 ^ k ≠ 1) ((2 ^ k - 1) * 2 ^ f + 1) (by
      intro c hc
      have hc' := hmem _ (.inl (List.of_mem_zip hc).1)
      obtain ⟨d, hd, -⟩ := h.dense _ hc'
      exact exists_quotient_sharp hg hT2 hP le_rfl hd (h.maxDeg ▸ le_maxDegree hc') (runnable_termDeg hdeg _ hc')
        (h.rows ▸ runnable_holds h hv hsat hc' hd) c.2)
  obtain ⟨W, hW, hWv⟩ := exists_weightSum (2 ^ f) Nat.one_le_two_pow (cs₂.zip (cc.drop cs₁.length)) (by
    intro c hc
    obtain ⟨c0, hc0, e0⟩ := List.mem_map.1 (hmem _ (.inr (List.of_mem_zip hc).1))
    rw [← e0]
    exact hpos c0 hc0)
  have hQv' : ∀ x, x ^ 2 ^ k ≠ 1 → Q.eval x = quotientSum (genOf F k) (2 ^ k) (2 ^ f) (pointEnv P) (cs₁.zip cc) x := hQv
  -- the error on the coset
  have herr : ∀ i, i < 2 ^ (k + f) → G.eval (cosetPt F (k + f) i) = Gc.eval (cosetPt F (k + f) i) +
      Q.eval (cosetPt F (k + f) i) * W.eval (cosetPt F (k + f) i) * dinvAt (genOf F k) inst.numRows (cosetPt F (k + f) i) d₂ := by
    intro i hi
    rw [hGv i hi, hb, C41_two_densities_error, hGcv _ (hoff i), hz, hQv' _ (hoff i), hWv, hdrop, hz1]
    unfold compositionAt boundarySum quotientSum weightSum
    rw [List.map_append, List.sum_append]
    have s1 : ((cs₁.zip (pairsAt F H cs₁.length t)).map (fun c => constraintValue (pointEnv P (cosetPt F (k + f) i)) c.1 *
        weightAt (2 ^ f - c.1.degree) c.2 (cosetPt F (k + f) i))).sum * dinvAt (genOf F k) inst.numRows (cosetPt F (k + f) i) d₁ =
        ((cs₁.zip (pairsAt F H cs₁.length t)).map (fun c => constraintValue (pointEnv P (cosetPt F (k + f) i)) c.1 *
        weightAt (2 ^ f - c.1.degree) c.2 (cosetPt F (k + f) i) / divisorAt (genOf F k) (2 ^ k) c.1 (cosetPt F (k + f) i))).sum := by
      rw [← List.sum_map_mul_right]
      congr 1
      apply List.map_congr_left
      intro c hc
      have hcm := (List.of_mem_zip hc).1
      obtain ⟨d, hd, -⟩ := h.dense _ (hmem _ (.inl hcm))
      rw [← hd₁ _ hcm]
      simp only [divisorAt, hd, dinvAt, div_eq_mul_inv, h.rows]
    have s2 : ((cs₂.zip (pairsAt F H cs₂.length (afterN H cs₁.length t))).map (fun c => constraintValue (pointEnv P (cosetPt F (k + f) i)) c.1 *
        weightAt (2 ^ f - c.1.degree) c.2 (cosetPt F (k + f) i))).sum * dinvAt (genOf F k) inst.numRows (cosetPt F (k + f) i) d₂ =
        ((cs₂.zip (pairsAt F H cs₂.length (afterN H cs₁.length t))).map (fun c => constraintValue (pointEnv P (cosetPt F (k + f) i)) c.1 *
        weightAt (2 ^ f - c.1.degree) c.2 (cosetPt F (k + f) i) / divisorAt (genOf F k) (2 ^ k) c.1 (cosetPt F (k + f) i))).sum := by
      rw [← List.sum_map_mul_right]
      congr 1
      apply List.map_congr_left
      intro c hc
      have hcm := (List.of_mem_zip hc).1
      obtain ⟨d, hd, -⟩ := h.dense _ (hmem _ (.inr hcm))
      rw [← hd₂ _ hcm]
      simp only [divisorAt, hd, dinvAt, div_eq_mul_inv, h.rows]
    rw [s1, s2]
    ring
  have hdinv : ∀ i, dinvAt (genOf F k) inst.numRows (cosetPt F (k + f) i) d₂ ≠ 0 := by
    intro i
    obtain ⟨c, hc⟩ := List.exists_mem_of_ne_nil _ hne₂
    obtain ⟨d, hd, -⟩ := h.dense _ (hmem _ (.inr hc))
    rw [← hd₂ c hc, hd]
    exact inv_ne_zero (zerofierAt_ne hg (hoff i) _)
  have hQW : (Q * W).degree < (2 ^ (k + f) : ℕ) := by
    rw [pow_add]
    by_cases h0 : Q * W = 0
    · rw [h0, degree_zero]; exact WithBot.bot_lt_coe _
    have hQ0 : Q ≠ 0 := left_ne_zero_of_mul h0
    have hW0 : W ≠ 0 := right_ne_zero_of_mul h0
    have q1 := (natDegree_lt_iff_degree_lt hQ0).2 hQ
    have w1 := (natDegree_lt_iff_degree_lt hW0).2 hW
    refine degree_lt_of_natDegree (natDegree_mul_le.trans le_rfl) ?_
    obtain ⟨S, hS⟩ := Nat.exists_eq_add_of_le hT2
    rw [hS] at q1 ⊢
    rw [show 2 + S - 1 = 1 + S by omega] at q1
    nlinarith
  have hall : (∀ x, x ^ 2 ^ k ≠ 1 → x ∈ agreement (genOf F k) (2 ^ k) (2 ^ f) (pointEnv P) (batched inst k) inst.boundaryConstraints (fun x => G.eval x) cc bc) ↔
      G = Gc := by
    refine ⟨fun a => eq_of_eval_coset hgK hgen hG hGc (fun i _ => (hA _ (hoff i)).1 (a _ (hoff i))), ?_⟩
    rintro rfl x hx
    exact (hA x hx).2 rfl
  have hprod : G = Gc ↔ Q * W = 0 := by
    constructor
    · rintro rfl
      refine eq_of_eval_coset hgK hgen hQW (by rw [degree_zero]; exact WithBot.bot_lt_coe _) (fun i hi => ?_)
      have := herr i hi
      rw [left_eq_add, mul_eq_zero, or_iff_left (hdinv i)] at this
      rw [eval_mul, eval_zero]
      exact this
    · intro h0
      refine eq_of_eval_coset hgK hgen hG hGc (fun i hi => ?_)
      have := herr i hi
      rw [← eval_mul, h0, eval_zero, zero_mul, add_zero] at this
      exact this
  have hQ0 : Q = 0 ↔ ∀ x, x ^ 2 ^ k ≠ 1 → quotientSum (genOf F k) (2 ^ k) (2 ^ f) (pointEnv P) (cs₁.zip cc) x = 0 := by
    constructor
    · intro h0 x hx
      rw [← hQv' x hx, h0, eval_zero]
    · intro h0
      refine eq_of_eval_coset hgK hgen (hQ.trans_le ?_) (by rw [degree_zero]; exact WithBot.bot_lt_coe _) (fun i _ => ?_)
      · have h2 : (2 ^ k - 1) * 2 ^ f + 1 ≤ 2 ^ (k + f) := by
          rw [pow_add, Nat.sub_mul, one_mul]
          have a1 : 1 ≤ 2 ^ f := Nat.one_le_two_pow
          have a2 : 2 ^ f ≤ 2 ^ k * 2 ^ f := Nat.le_mul_of_pos_left _ (Nat.two_pow_pos k)
          omega
        exact_mod_cast h2
      · have := hQv' _ (hoff i)
        rw [eval_zero]
        exact this.trans (h0 _ (hoff i))
  have hW0 : W = 0 ↔ ∀ x, 1 + weightSum (2 ^ f) (cs₂.zip (cc.drop cs₁.length)) x = 0 := by
    constructor
    · intro h0 x
      rw [← hWv x, h0, eval_zero]
    · intro h0
      refine eq_of_eval_coset hgK hgen (hW.trans_le ?_) (by rw [degree_zero]; exact WithBot.bot_lt_coe _) (fun i _ => ?_)
      · exact_mod_cast Nat.pow_le_pow_right (by norm_num) (Nat.le_add_left f k)
      · rw [eval_zero, hWv, h0]
  refine ⟨by rw [hall, hprod, mul_eq_zero, hQ0, hW0], ?_⟩
  by_cases he : G = Gc
  · exact .inl (hall.2 he)
  · right
    have hD0 : G - Gc ≠ 0 := sub_ne_zero.2 he
    have hsub : agreement (genOf F k) (2 ^ k) (2 ^ f) (pointEnv P) (batched inst k) inst.boundaryConstraints (fun x => G.eval x) cc bc ⊆
        (((G - Gc).roots.toFinset : Finset F) : Set F) := by
      intro x hx
      rw [mem_coe, Multiset.mem_toFinset, mem_roots hD0, IsRoot, eval_sub, sub_eq_zero]
      exact (hA x hx.1).1 hx
    refine (Set.encard_le_encard hsub).trans_lt ?_
    rw [Set.encard_coe_eq_coe_finsetCard]
    have h1 : (G - Gc).roots.toFinset.card ≤ (G - Gc).natDegree := (Multiset.toFinset_card_le _).trans (card_roots' _)
    have h2 : (G - Gc).natDegree < 2 ^ (k + f) := (natDegree_lt_iff_degree_lt hD0).2 ((degree_sub_le _ _).trans_lt (max_lt hG hGc))
    exact_mod_cast h1.trans_lt h2

/-- **C41, C45 (two densities, exactly).** For every runnable instance whose constraints have exactly two densities (declared degrees truthful and positive), every satisfying witness, every LDE factor and number of final coefficients:
`verify` answers the proof which `prove` returns, and accepts exactly if the last checks of both FRI proofs pass and `z` is in the set `A` of points at which the prover's polynomial `G` agrees with the composition. `A` is everything off the trace domain exactly if the
combined quotients of the constraints of the first density vanish identically, or the weights of the constraints of the second add up to `-1` identically; otherwise `A` has fewer than `2^(k+f)` elements. -/
theorem C45_two_densities_verdict (w : Worker) {e o : ℕ} (h : Runnable inst n k f) (hp : ProverParams F k f e o) (hout : o < k) (hlde : w.cpus = 1 ∨ 2 ^ f < 2 * w.cpus)
    (hdeg : ∀ c ∈ inst.constraints, ∀ t ∈ c.terms, termDegree t ≤ c.degree) (hpos : ∀ c ∈ inst.constraints, 1 ≤ c.degree)
    (hrows : ∀ b ∈ inst.boundaryConstraints, b.atRow < inst.numRows) (d₁ d₂ : ConstraintDensity) (h2 : TwoDensities inst.constraints d₁ d₂)
    (witness : List (List F)) (hw : IsTable witness n (2 ^ k)) (hsat : Satisfies inst (cellR witness) (2 ^ k))
    (prover : Prover F) (hprover : Prover.new w inst (2 ^ e) (2 ^ o) = .ok prover)
    (v : Verifier F) (hver : Verifier.new inst (2 ^ e) = .ok v) (proof : InstanceProof F)
    (hproof : prover.prove H witness = .ok proof) :
    ∃ ch fDom gDom dom ps G t t' gLde gTree b, ∃ A : Set F, ∃ cs₁ cs₂ : List (Constraint F),
      v.deriveChallenges H proof = .ok (ch, fDom, gDom) ∧
      Domain.newForSize F (2 ^ k) = .ok dom ∧ calculateWitnessPolys prover.arp witness w = .ok ps ∧
      t = afterRoots proof.fIopRoots ∧ prover.ali.calculateG H t ps w = .ok (G, t') ∧
      G.lde w (2 ^ e) = .ok gLde ∧ IopTree.create H w gLde.coeffs = .ok gTree ∧ gTree.getRoot = .ok proof.gIopRoot ∧
      cs₁ = prover.arp.constraints.filter (fun c => c.density = d₁) ∧ cs₂ = prover.arp.constraints.filter (fun c => c.density = d₂) ∧
      A = agreement dom.generator (2 ^ k) (2 ^ f) (polyEnv w ps) (cs₁ ++ cs₂)
          inst.boundaryConstraints (G.evaluateAt w) ch.constraintChallenges ch.boundaryChallenges ∧
      v.verify H proof = .ok b ∧
      (b = true ↔ LastOpeningOk proof.friProofH1 (2 ^ (e + o - 1)) ch.idx1 ∧ LastOpeningOk proof.friProofH2 (2 ^ (e + o - 1)) ch.idx2 ∧
        ch.z ∈ A) ∧
      ((∀ x, x ^ 2 ^ k ≠ 1 → x ∈ A) ↔
        (∀ x, x ^ 2 ^ k ≠ 1 → quotientSum dom.generator (2 ^ k) (2 ^ f) (polyEnv w ps) (cs₁.zip ch.constraintChallenges) x = 0) ∨
          ∀ x, 1 + weightSum (2 ^ f) (cs₂.zip (ch.constraintChallenges.drop cs₁.length)) x = 0) ∧
      ((∀ x, x ^ 2 ^ k ≠ 1 → x ∈ A) ∨ A.encard < (2 ^ (k + f) : ℕ)) := by
  have hS := hp.size
  have h32 := hp.size32
  have hk : k ≤ StarkField.S F := by omega
  have hc : ChallengeOk F := hp.challenge
  obtain ⟨ch, fDom, gDom, dom, ps, G, t, t1, t', gLde, gTree, b, a1, a2, a3, a0, a4, a5, a6, a7, a8, a9, a10, a11, a12, a13⟩ :=
    C64_accepted_any_worker H w h hp hout witness hw prover hprover v hver proof hproof
  have harp := prover_arp w h hk hprover
  have h2' : TwoDensities (arpOf inst k).constraints d₁ d₂ := by
    obtain ⟨q1, ⟨c, cs', q2, q3⟩, ⟨c2, q4, q5⟩, q6⟩ := h2
    refine ⟨q1, ⟨maskC (genOf F k) c, cs'.map (maskC (genOf F k)), by simp [arpOf, q2], q3⟩, ⟨maskC (genOf F k) c2, List.mem_map.2 ⟨c2, q4, rfl⟩, q5⟩, ?_⟩
    intro c hc
    obtain ⟨c0, hc0, rfl⟩ := List.mem_map.1 hc
    exact q6 c0 hc0
  have hb := batches_two h2'
  obtain ⟨ali, e1, hali⟩ := h.fromArp w (by omega) hp.coset
  have hpr : Prover.new w inst (2 ^ e) (2 ^ o) = .ok ⟨arpOf inst k, ali, 2 ^ e, 2 ^ o, w⟩ := by
    unfold Prover.new
    rw [h.fromInstance (by omega), Res.ok_bind, e1, Res.ok_bind, Res.pure_def]
  rw [hprover] at hpr
  cases hpr
  obtain ⟨P, e2, hP, h0, hv⟩ := witnessPolys_ok w (inst := arpOf inst k) h.pos hw hk (by omega) h.registers h.rows
  simp only at a3 a4
  rw [e2] at a3
  cases a3
  rw [newForSize_pow hk] at a2
  cases a2
  rw [drawPairs_ok H hc] at a6 a7
  have ecc : ch.constraintChallenges = pairsAt F H inst.constraints.length t := by
    rw [← (Prod.mk.inj (Res.ok.inj a6)).1]; simp
  have et1 : t1 = afterN H inst.constraints.length t := (Prod.mk.inj (Res.ok.inj a6)).2.symm
  have ebc : ch.boundaryChallenges = pairsAt F H inst.boundaryConstraints.length (afterN H inst.constraints.length t) := by
    rw [← (Prod.mk.inj (Res.ok.inj a7)).1, et1]; simp
  obtain ⟨G', hG', hGv⟩ := exists_poly_values (F := F) (show k + f ≤ StarkField.S F by omega) (StarkField.mulGen_ne_zero (F := F)) (fun i =>
      gFold H P (2 ^ f) (cosetPt F (k + f) i) (dinvAt (genOf F k) inst.numRows (cosetPt F (k + f) i))
        (batchesOf (arpOf inst k).constraints) t 0 +
      boundarySum P (2 ^ f) (genOf F k) (cosetPt F (k + f) i) (inst.boundaryConstraints.zip
        (pairsAt F H inst.boundaryConstraints.length (afterN H inst.constraints.length t))))
  have hab := afterBatches_all H (arpOf inst k).constraints t
  rw [show (arpOf inst k).constraints.length = inst.constraints.length by simp [arpOf]] at hab
  have e4 := calculateG_ok H w (by omega) (by omega) hlde (fun r _ => hP r) hp.challenge hali h.maxDeg h32 h.registers
    (fun c hc => ⟨h.constraintOk c hc, by obtain ⟨d, hd, -⟩ := h.dense c hc; exact ⟨d, hd⟩⟩) h.boundary t hG' (by
      rw [hab]; exact hGv)
  have eG : G = mkPoly .coefficients (k + f) G'.coeff := (Prod.mk.inj (Res.ok.inj (a4.symm.trans e4))).1
  have hGe : G.evaluateAt w = fun x => G'.eval x := by
    funext x
    rw [eG, evaluateAt_poly w (k + f) hG']
  have core := two_densities_core H h (by omega) hp.coset hdeg hpos hrows hP hv hsat hb
    (fun c hc => by simpa using (List.mem_filter.1 hc).2) (fun c hc => by simpa using (List.mem_filter.1 hc).2) (by
      obtain ⟨-, -, ⟨c, hc, e⟩, -⟩ := h2'
      exact List.ne_nil_of_mem (List.mem_filter.2 ⟨hc, by simpa using e⟩)) t _ hG' hGv ecc
  rw [show polyEnv w (tab n (fun r => mkPoly .coefficients k (P r).coeff)) = pointEnv P from funext (polyEnv_eq w hP h0), hGe] at a13
  refine ⟨ch, fDom, gDom, _, _, G, t, t', gLde, gTree, b, _, _, _, a1, newForSize_pow hk, e2, a0, a4, a8, a9, a10, rfl, rfl, rfl, a12, ?_, ?_⟩
  · rw [show polyEnv w (tab n (fun r => mkPoly .coefficients k (P r).coeff)) = pointEnv P from funext (polyEnv_eq w hP h0), hGe]
    have hbb : (batchesOf (arpOf inst k).constraints).flatMap (·.2) = (arpOf inst k).constraints.filter (fun c => c.density = d₁) ++
      (arpOf inst k).constraints.filter (fun c => c.density = d₂) := by rw [hb]; simp
    rw [hbb] at a13
    exact a13
  · rw [show polyEnv w (tab n (fun r => mkPoly .coefficients k (P r).coeff)) = pointEnv P from funext (polyEnv_eq w hP h0), hGe]
    have hbb : batched inst k = (arpOf inst k).constraints.filter (fun c => c.density = d₁) ++
      (arpOf inst k).constraints.filter (fun c => c.density = d₂) := by rw [batched, hb]; simp
    rw [hbb, ← ebc] at core
    exact core

end

/-- The instance with a doubling and a quadrupling constraint meets the hypotheses; its satisfying witness is rejected (`C45_two_densities_rejected`). -/
example : Runnable (mixedInst [doubling, quadrupling]) 1 2 0 ∧ ProverParams Fr 2 0 3 1 ∧
    TwoDensities (mixedInst [doubling, quadrupling]).constraints (.dense DenseConstraint.default) (.dense ⟨0, 2⟩) ∧
    (∀ c ∈ (mixedInst [doubling, quadrupling]).constraints, 1 ≤ c.degree ∧ ∀ t ∈ c.terms, termDegree t ≤ c.degree) ∧
    IsTable [[(1 : Fr), 2, 4, 8]] 1 (2 ^ 2) ∧ isSatisfied (mixedInst [doubling, quadrupling]) [[1, 2, 4, 8]] = .ok () :=
  ⟨mixedInst_runnable, ⟨by decide, by norm_num, by norm_num, by norm_num, by decide +kernel, by decide +kernel⟩,
    ⟨by decide, ⟨_, _, rfl, rfl⟩, ⟨quadrupling, by simp [mixedInst], rfl⟩, by simp [mixedInst]; exact ⟨.inl rfl, .inr rfl⟩⟩, by decide +kernel, ⟨rfl, by decide⟩, by decide +kernel⟩

end Hodor

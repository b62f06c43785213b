import Verif.Props.Densities

/-!
# C41, C45: any number of densities
-/

namespace Hodor

open Polynomial Finset Spec

variable {F : Type} [Field F] [DecidableEq F] [StarkField F] (H : List UInt8 → Digest)

section batches

omit [Field F] [DecidableEq F] [StarkField F] in
theorem mem_densitiesOf {cs : List (Constraint F)} {d : ConstraintDensity} : d ∈ densitiesOf cs ↔ ∃ c ∈ cs, c.density = d := by
  induction cs with
  | nil => simp [densitiesOf]
  | cons c cs ih =>
    simp only [densitiesOf, List.mem_cons, List.mem_filter, ih, exists_eq_or_imp]
    by_cases e : d = c.density
    · simp [e]
    · simp [e, Ne.symm e]

omit [Field F] [DecidableEq F] [StarkField F] in
theorem densitiesOf_concat (cs : List (Constraint F)) (c : Constraint F) :
    densitiesOf (cs ++ [c]) = if c.density ∈ densitiesOf cs then densitiesOf cs else densitiesOf cs ++ [c.density] := by
  induction cs with
  | nil => simp [densitiesOf]
  | cons a cs ih =>
    rw [List.cons_append, densitiesOf, ih, densitiesOf]
    by_cases e : c.density = a.density
    · rw [if_pos (show c.density ∈ a.density :: (densitiesOf cs).filter (fun d => d ≠ a.density) by simp [e])]
      by_cases e' : c.density ∈ densitiesOf cs
      · rw [if_pos e']
      · rw [if_neg e']
        simp [e, List.filter_append]
    · by_cases e' : c.density ∈ densitiesOf cs
      · simp [e, e']
      · simp [e, e', List.filter_append]

omit [Field F] [DecidableEq F] [StarkField F] in
theorem nodup_densitiesOf (cs : List (Constraint F)) : (densitiesOf cs).Nodup := by
  induction cs with
  | nil => simp [densitiesOf]
  | cons a cs ih =>
    rw [densitiesOf, List.nodup_cons]
    exact ⟨by simp, ih.filter _⟩

omit [Field F] [DecidableEq F] [StarkField F] in
theorem pushBatch_map (c : Constraint F) (ds : List ConstraintDensity) (hds : ds.Nodup) (cs : List (Constraint F))
    (hcs : c.density ∉ ds → ∀ c' ∈ cs, c'.density ≠ c.density) :
    pushBatch c (ds.map (fun d => (d, cs.filter (fun c => c.density = d)))) =
      (if c.density ∈ ds then ds else ds ++ [c.density]).map (fun d => (d, (cs ++ [c]).filter (fun c => c.density = d))) := by
  induction ds with
  | nil =>
    have : cs.filter (fun c' => c'.density = c.density) = [] := by
      rw [List.filter_eq_nil_iff]
      intro c' hc'
      simpa using hcs (by simp) c' hc'
    simp [pushBatch, List.filter_append, this]
  | cons d ds ih =>
    rw [List.nodup_cons] at hds
    simp only [List.map_cons, pushBatch]
    by_cases e : d = c.density
    · subst e
      simp only [if_true, List.mem_cons, true_or, List.map_cons, List.filter_append]
      congr 1
      · simp
      · apply List.map_congr_left
        intro d hd
        have : ¬ c.density = d := fun e => hds.1 (e ▸ hd)
        simp [this]
    · rw [if_neg e, ih hds.2 (fun h => hcs (by simp [h, Ne.symm e]))]
      have hne : ¬ c.density = d := Ne.symm e
      by_cases e' : c.density ∈ ds
      · simp [e', hne, List.filter_append]
      · simp [e', hne, List.filter_append]

omit [Field F] [StarkField F] in
/-- The batches of the code are the groups of the specification. -/
theorem batchesOf_groups (cs : List (Constraint F)) : batchesOf cs = groupsOf cs := by
  unfold batchesOf
  induction cs using List.reverseRecOn with
  | nil => rfl
  | append_singleton cs c ih =>
    rw [List.foldl_append, ih, List.foldl_cons, List.foldl_nil, groupsOf, pushBatch_map c _ (nodup_densitiesOf cs), groupsOf, densitiesOf_concat]
    intro h c' hc' e
    exact h (mem_densitiesOf.2 ⟨c', hc', e⟩)

end batches

section

variable {inst : InstanceProperties F} {n k f : ℕ}

omit [DecidableEq F] in
/-- What the constraint loop computes, as sum of the quotients and the excess. -/
theorem gFold_excess (P : ℕ → F[X]) (D T : ℕ) (g x : F) (bs : List (ConstraintDensity × List (Constraint F)))
    (hbs : ∀ b ∈ bs, (∃ d, b.1 = .dense d) ∧ ∀ c ∈ b.2, c.density = b.1) (t : Transcript) (a : F) :
    gFold H P D x (dinvAt g T x) bs t a = a + quotientSum g T D (pointEnv P) ((bs.flatMap (·.2)).zip (pairsAt F H (bs.flatMap (·.2)).length t)) x +
      excess g T D (pointEnv P) x bs (pairsAt F H (bs.flatMap (·.2)).length t) a := by
  induction bs generalizing t a with
  | nil => simp [gFold, excess, quotientSum]
  | cons b bs ih =>
    obtain ⟨d, cs⟩ := b
    obtain ⟨⟨d', e⟩, hcs⟩ := hbs _ List.mem_cons_self
    simp only at e hcs
    subst e
    have hl := length_pairsAt (F := F) H cs.length t
    simp only [List.flatMap_cons, List.length_append, pairsAt_add, gFold, excess]
    rw [ih (fun b hb => hbs b (List.mem_cons_of_mem _ hb)), List.zip_append hl.symm, List.drop_append_of_le_length hl.ge,
      List.drop_eq_nil_of_le hl.le, List.nil_append]
    have hz : cs.zip (pairsAt F H cs.length t ++ pairsAt F H (bs.flatMap (·.2)).length (afterN H cs.length t)) = cs.zip (pairsAt F H cs.length t) := by
      have := List.zip_append (l₁ := cs) (r₁ := []) (l₂ := pairsAt F H cs.length t)
        (r₂ := pairsAt F H (bs.flatMap (·.2)).length (afterN H cs.length t)) hl.symm
      simpa using this
    rw [hz]
    have key : a + (a + batchSum P D a x (cs.zip (pairsAt F H cs.length t))) * dinvAt g T x (.dense d') =
        a + quotientSum g T D (pointEnv P) (cs.zip (pairsAt F H cs.length t)) x +
          a * (1 + weightSum D (cs.zip (pairsAt F H cs.length t)) x) / densityZero g T x (.dense d') := by
      have e2 : batchSum P D a x (cs.zip (pairsAt F H cs.length t)) = a * weightSum D (cs.zip (pairsAt F H cs.length t)) x +
          ((cs.zip (pairsAt F H cs.length t)).map (fun c => constraintValue (pointEnv P x) c.1 * weightAt (D - c.1.degree) c.2 x)).sum := by
        unfold batchSum weightSum
        rw [← List.sum_map_mul_left, ← List.sum_map_add]
        congr 1
        apply List.map_congr_left
        intro c _
        ring
      have e3 : ((cs.zip (pairsAt F H cs.length t)).map (fun c => constraintValue (pointEnv P x) c.1 * weightAt (D - c.1.degree) c.2 x)).sum *
          dinvAt g T x (.dense d') = quotientSum g T D (pointEnv P) (cs.zip (pairsAt F H cs.length t)) x := by
        unfold quotientSum
        rw [← List.sum_map_mul_right]
        congr 1
        apply List.map_congr_left
        intro c hc
        simp only [divisorAt, hcs _ (List.of_mem_zip hc).1, dinvAt, div_eq_mul_inv]
      rw [e2, ← e3]
      simp only [dinvAt, densityZero, div_eq_mul_inv]
      ring
    rw [key]
    unfold quotientSum
    rw [List.map_append, List.sum_append]
    ring

theorem many_densities_core (h : Runnable inst n k f) (hK : k + f ≤ StarkField.S F) (hs : (StarkField.mulGen : F) ^ 2 ^ (k + f) ≠ 1)
    (hdeg : ∀ c ∈ inst.constraints, ∀ t ∈ c.terms, termDegree t ≤ c.degree)
    (hrows : ∀ b ∈ inst.boundaryConstraints, b.atRow < inst.numRows)
    {witness : List (List F)} {P : ℕ → F[X]} (hP : ∀ r, (P r).degree < (2 ^ k : ℕ))
    (hv : ∀ r, r < n → ∀ i, i < 2 ^ k → (P r).eval (genOf F k ^ i) = cell witness r i)
    (hsat : Satisfies inst (cellR witness) (2 ^ k)) (t : Transcript) (bc : List (F × F))
    {G : F[X]} (hG : G.degree < (2 ^ (k + f) : ℕ))
    (hGv : ∀ i, i < 2 ^ (k + f) → G.eval (cosetPt F (k + f) i) =
      gFold H P (2 ^ f) (cosetPt F (k + f) i) (dinvAt (genOf F k) inst.numRows (cosetPt F (k + f) i))
        (batchesOf (arpOf inst k).constraints) t 0 +
      boundarySum P (2 ^ f) (genOf F k) (cosetPt F (k + f) i) (inst.boundaryConstraints.zip bc))
    {cc : List (F × F)} (hcc : cc = pairsAt F H inst.constraints.length t) :
    ((∀ x, x ^ 2 ^ k ≠ 1 → x ∈ agreement (genOf F k) (2 ^ k) (2 ^ f) (pointEnv P) (batched inst k) inst.boundaryConstraints (fun x => G.eval x) cc bc) ↔
      ∀ i, i < 2 ^ (k + f) → excess (genOf F k) (2 ^ k) (2 ^ f) (pointEnv P) (cosetPt F (k + f) i) (groupsOf (arpOf inst k).constraints) cc 0 = 0) ∧
    ((∀ x, x ^ 2 ^ k ≠ 1 → x ∈ agreement (genOf F k) (2 ^ k) (2 ^ f) (pointEnv P) (batched inst k) inst.boundaryConstraints (fun x => G.eval x) cc bc) ∨
      (agreement (genOf F k) (2 ^ k) (2 ^ f) (pointEnv P) (batched inst k) inst.boundaryConstraints (fun x => G.eval x) cc bc).encard < (2 ^ (k + f) : ℕ)) := by
  have hgK := genOf_prim (F := F) hK
  have hgen := StarkField.mulGen_ne_zero (F := F)
  obtain ⟨Gc, hGc, hGcv⟩ := composition_exists_any h (by omega) hdeg hrows hP hv hsat cc bc
  have hoff : ∀ i, cosetPt F (k + f) i ^ 2 ^ k ≠ 1 := fun i => cosetPt_pow_ne (by omega) hK hs i
  have hA : ∀ x, x ^ 2 ^ k ≠ 1 → (x ∈ agreement (genOf F k) (2 ^ k) (2 ^ f) (pointEnv P) (batched inst k) inst.boundaryConstraints (fun x => G.eval x) cc bc ↔
      G.eval x = Gc.eval x) := by
    intro x hx
    rw [hGcv x hx]
    exact ⟨fun a => a.2, fun a => ⟨hx, a⟩⟩
  have hlen : ((batchesOf (arpOf inst k).constraints).flatMap (·.2)).length = inst.constraints.length := length_batched (inst := inst) (k := k)
  have herr : ∀ i, i < 2 ^ (k + f) → G.eval (cosetPt F (k + f) i) = Gc.eval (cosetPt F (k + f) i) +
      excess (genOf F k) (2 ^ k) (2 ^ f) (pointEnv P) (cosetPt F (k + f) i) (groupsOf (arpOf inst k).constraints) cc 0 := by
    intro i hi
    rw [hGv i hi, hGcv _ (hoff i), gFold_excess, hlen, ← hcc, h.rows, ← batchesOf_groups, zero_add]
    · unfold compositionAt boundarySum quotientSum batched
      ring
    · intro b hb
      rw [batchesOf_groups, groupsOf, List.mem_map] at hb
      obtain ⟨d, hd, rfl⟩ := hb
      obtain ⟨c, hc, rfl⟩ := mem_densitiesOf.1 hd
      obtain ⟨d, hd, -⟩ := h.dense _ hc
      refine ⟨⟨d, hd⟩, fun c' hc' => ?_⟩
      simpa using (List.mem_filter.1 hc').2
  have hall : (∀ x, x ^ 2 ^ k ≠ 1 → x ∈ agreement (genOf F k) (2 ^ k) (2 ^ f) (pointEnv P) (batched inst k) inst.boundaryConstraints (fun x => G.eval x) cc bc) ↔
      G = Gc := by
    refine ⟨fun a => eq_of_eval_coset hgK hgen hG hGc (fun i _ => (hA _ (hoff i)).1 (a _ (hoff i))), ?_⟩
    rintro rfl x hx
    exact (hA x hx).2 rfl
  refine ⟨?_, ?_⟩
  · rw [hall]
    constructor
    · rintro rfl i hi
      exact left_eq_add.1 (herr i hi)
    · intro h0
      refine eq_of_eval_coset hgK hgen hG hGc (fun i hi => ?_)
      have e := herr i hi
      rw [h0 i hi, add_zero] at e
      exact e
  · by_cases he : G = Gc
    · exact .inl (hall.2 he)
    · right
      have hD0 : G - Gc ≠ 0 := sub_ne_zero.2 he
      have hsub : agreement (genOf F k) (2 ^ k) (2 ^ f) (pointEnv P) (batched inst k) inst.boundaryConstraints (fun x => G.eval x) cc bc ⊆
          (((G - Gc).roots.toFinset : Finset F) : Set F) := by
        intro x hx
        rw [mem_coe, Multiset.mem_toFinset, mem_roots hD0, IsRoot, eval_sub, sub_eq_zero]
        exact (hA x hx.1).1 hx
      refine (Set.encard_le_encard hsub).trans_lt ?_
      rw [Set.encard_coe_eq_coe_finsetCard]
      have h1 : (G - Gc).roots.toFinset.card ≤ (G - Gc).natDegree := (Multiset.toFinset_card_le _).trans (card_roots' _)
      have h2 : (G - Gc).natDegree < 2 ^ (k + f) := (natDegree_lt_iff_degree_lt hD0).2 ((degree_sub_le _ _).trans_lt (max_lt hG hGc))
      exact_mod_cast h1.trans_lt h2

/-- **C41, C45 (any densities, exactly).** For every runnable instance with truthful degrees, whatever the densities of its constraints, every satisfying witness, every LDE factor and number of final coefficients: `verify` answers the proof
which `prove` returns, and accepts exactly if the last checks of both FRI proofs pass and `z` is in the set `A` of points at which the prover's polynomial `G` agrees with the composition. `A` is everything off the trace domain exactly if
the excess, which comes from starting every density from the accumulated sum, vanishes on the `2^(k+f)` points of the coset on which `G` is computed; otherwise `A` has fewer than `2^(k+f)` elements. -/
theorem C45_many_densities_verdict (w : Worker) {e o : ℕ} (h : Runnable inst n k f) (hp : ProverParams F k f e o) (hout : o < k) (hlde : w.cpus = 1 ∨ 2 ^ f < 2 * w.cpus)
    (hdeg : ∀ c ∈ inst.constraints, ∀ t ∈ c.terms, termDegree t ≤ c.degree)
    (hrows : ∀ b ∈ inst.boundaryConstraints, b.atRow < inst.numRows)
    (witness : List (List F)) (hw : IsTable witness n (2 ^ k)) (hsat : Satisfies inst (cellR witness) (2 ^ k))
    (prover : Prover F) (hprover : Prover.new w inst (2 ^ e) (2 ^ o) = .ok prover)
    (v : Verifier F) (hver : Verifier.new inst (2 ^ e) = .ok v) (proof : InstanceProof F)
    (hproof : prover.prove H witness = .ok proof) :
    ∃ ch fDom gDom dom gdom ps G t t' gLde gTree b, ∃ A : Set F, ∃ gs : List (ConstraintDensity × List (Constraint F)),
      v.deriveChallenges H proof = .ok (ch, fDom, gDom) ∧
      Domain.newForSize F (2 ^ k) = .ok dom ∧ Domain.newForSize F (2 ^ (k + f)) = .ok gdom ∧ calculateWitnessPolys prover.arp witness w = .ok ps ∧
      t = afterRoots proof.fIopRoots ∧ prover.ali.calculateG H t ps w = .ok (G, t') ∧
      G.lde w (2 ^ e) = .ok gLde ∧ IopTree.create H w gLde.coeffs = .ok gTree ∧ gTree.getRoot = .ok proof.gIopRoot ∧
      gs = groupsOf prover.arp.constraints ∧
      A = agreement dom.generator (2 ^ k) (2 ^ f) (polyEnv w ps) (gs.flatMap (·.2))
          inst.boundaryConstraints (G.evaluateAt w) ch.constraintChallenges ch.boundaryChallenges ∧
      v.verify H proof = .ok b ∧
      (b = true ↔ LastOpeningOk proof.friProofH1 (2 ^ (e + o - 1)) ch.idx1 ∧ LastOpeningOk proof.friProofH2 (2 ^ (e + o - 1)) ch.idx2 ∧
        ch.z ∈ A) ∧
      ((∀ x, x ^ 2 ^ k ≠ 1 → x ∈ A) ↔
        ∀ i, i < 2 ^ (k + f) → excess dom.generator (2 ^ k) (2 ^ f) (polyEnv w ps) (StarkField.mulGen * gdom.generator ^ i) gs ch.constraintChallenges 0 = 0) ∧
      ((∀ x, x ^ 2 ^ k ≠ 1 → x ∈ A) ∨ A.encard < (2 ^ (k + f) : ℕ)) := by
  have hS := hp.size
  have h32 := hp.size32
  have hk : k ≤ StarkField.S F := by omega
  have hc : ChallengeOk F := hp.challenge
  obtain ⟨ch, fDom, gDom, dom, ps, G, t, t1, t', gLde, gTree, b, a1, a2, a3, a0, a4, a5, a6, a7, a8, a9, a10, a11, a12, a13⟩ :=
    C64_accepted_any_worker H w h hp hout witness hw prover hprover v hver proof hproof
  have harp := prover_arp w h hk hprover
  obtain ⟨ali, e1, hali⟩ := h.fromArp w (by omega) hp.coset
  have hpr : Prover.new w inst (2 ^ e) (2 ^ o) = .ok ⟨arpOf inst k, ali, 2 ^ e, 2 ^ o, w⟩ := by
    unfold Prover.new
    rw [h.fromInstance (by omega), Res.ok_bind, e1, Res.ok_bind, Res.pure_def]
  rw [hprover] at hpr
  cases hpr
  obtain ⟨P, e2, hP, h0, hv⟩ := witnessPolys_ok w (inst := arpOf inst k) h.pos hw hk (by omega) h.registers h.rows
  simp only at a3 a4
  rw [e2] at a3
  cases a3
  rw [newForSize_pow hk] at a2
  cases a2
  rw [drawPairs_ok H hc] at a6 a7
  have ecc : ch.constraintChallenges = pairsAt F H inst.constraints.length t := by
    rw [← (Prod.mk.inj (Res.ok.inj a6)).1]; simp
  have et1 : t1 = afterN H inst.constraints.length t := (Prod.mk.inj (Res.ok.inj a6)).2.symm
  have ebc : ch.boundaryChallenges = pairsAt F H inst.boundaryConstraints.length (afterN H inst.constraints.length t) := by
    rw [← (Prod.mk.inj (Res.ok.inj a7)).1, et1]; simp
  obtain ⟨G', hG', hGv⟩ := exists_poly_values (F := F) (show k + f ≤ StarkField.S F by omega) (StarkField.mulGen_ne_zero (F := F)) (fun i =>
      gFold H P (2 ^ f) (cosetPt F (k + f) i) (dinvAt (genOf F k) inst.numRows (cosetPt F (k + f) i))
        (batchesOf (arpOf inst k).constraints) t 0 +
      boundarySum P (2 ^ f) (genOf F k) (cosetPt F (k + f) i) (inst.boundaryConstraints.zip
        (pairsAt F H inst.boundaryConstraints.length (afterN H inst.constraints.length t))))
  have hab := afterBatches_all H (arpOf inst k).constraints t
  rw [show (arpOf inst k).constraints.length = inst.constraints.length by simp [arpOf]] at hab
  have e4 := calculateG_ok H w (by omega) (by omega) hlde (fun r _ => hP r) hp.challenge hali h.maxDeg h32 h.registers
    (fun c hc => ⟨h.constraintOk c hc, by obtain ⟨d, hd, -⟩ := h.dense c hc; exact ⟨d, hd⟩⟩) h.boundary t hG' (by
      rw [hab]; exact hGv)
  have eG : G = mkPoly .coefficients (k + f) G'.coeff := (Prod.mk.inj (Res.ok.inj (a4.symm.trans e4))).1
  have hGe : G.evaluateAt w = fun x => G'.eval x := by
    funext x
    rw [eG, evaluateAt_poly w (k + f) hG']
  have core := many_densities_core H h (by omega) hp.coset hdeg hrows hP hv hsat t _ hG' hGv ecc
  rw [← ebc, ← hGe] at core
  have hpe : polyEnv w (tab n (fun r => mkPoly .coefficients k (P r).coeff)) = pointEnv P := funext (polyEnv_eq w hP h0)
  refine ⟨ch, fDom, gDom, _, _, _, G, t, t', gLde, gTree, b, _, _, a1, newForSize_pow hk, newForSize_pow (by omega), e2, a0, a4, a8, a9, a10, rfl, rfl, a12, ?_, ?_, ?_⟩
  · rw [← batchesOf_groups]
    exact a13
  · rw [← batchesOf_groups, hpe, batchesOf_groups]
    have := core.1
    rw [batched, batchesOf_groups] at this
    exact this
  · rw [← batchesOf_groups, hpe]
    exact core.2

end

/-- The instance with a doubling and a quadrupling constraint meets the hypotheses; with one density there is no excess. -/
example : Runnable (mixedInst [doubling, quadrupling]) 1 2 0 ∧ ProverParams Fr 2 0 3 1 ∧
    densitiesOf (mixedInst [doubling, quadrupling]).constraints = [.dense DenseConstraint.default, .dense ⟨0, 2⟩] ∧
    (∀ c ∈ (mixedInst [doubling, quadrupling]).constraints, ∀ t ∈ c.terms, termDegree t ≤ c.degree) ∧
    IsTable [[(1 : Fr), 2, 4, 8]] 1 (2 ^ 2) ∧ isSatisfied (mixedInst [doubling, quadrupling]) [[1, 2, 4, 8]] = .ok () ∧
    ∀ (g x : Fr) T D E d cs cc, excess g T D E x [(d, cs)] cc 0 = 0 :=
  ⟨mixedInst_runnable, ⟨by decide, by norm_num, by norm_num, by norm_num, by decide +kernel, by decide +kernel⟩,
    by decide +kernel, by decide +kernel, ⟨rfl, by decide⟩, by decide +kernel, by intros; simp [excess]⟩

end Hodor

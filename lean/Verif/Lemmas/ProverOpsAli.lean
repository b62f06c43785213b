import Verif.Lemmas.ProverOpsPoly

/-!
# The prover with its field operations counted: the composition polynomial

The evaluations of the powers of registers are cached, so the operations of one term depend on the terms before it. They are paid for when they enter the cache:
the operations of a step and the value of the cache before it are the operations without cache misses and the value of the cache after it.
-/

set_option linter.unusedSectionVars false

namespace Hodor

open Spec Tick

section generic
variable {α β σ κ : Type}

/-- If the computation returns, `Q` holds of the result and of the number of field operations. -/
def Tick.Spent (x : Tick α) (Q : α → ℕ → Prop) : Prop := ∀ a, x.res = .ok a → Q a x.ops

theorem Tick.Spent.bind {x : Tick α} {f : α → Tick β} {Q : α → ℕ → Prop} {R : β → ℕ → Prop} (h : x.Spent Q)
    (hf : ∀ a c, x.res = .ok a → Q a c → (f a).Spent (fun b d => R b (c + d))) : (x >>= f).Spent R := by
  intro b hb
  obtain ⟨a, ha, hb, e⟩ := ops_bind hb
  rw [e]
  exact hf a x.ops ha (h a ha) b hb

theorem Tick.Works.spent {x : Tick α} {c : ℕ} (h : x.Works c) : x.Spent (fun a d => x.res = .ok a ∧ d = c) := fun a ha => ⟨ha, h a ha⟩

theorem Tick.Spent.mono {x : Tick α} {Q R : α → ℕ → Prop} (h : x.Spent Q) (hQR : ∀ a c, x.res = .ok a → Q a c → R a c) : x.Spent R :=
  fun a ha => hQR a _ ha (h a ha)

theorem spent_pure {a : α} {Q : α → ℕ → Prop} (h : Q a 0) : (pure a : Tick α).Spent Q := by
  intro b hb
  cases hb
  exact h

theorem spent_lift_bind {x : Res α} {f : α → Tick β} {R : β → ℕ → Prop} (hf : ∀ a, x = .ok a → (f a).Spent R) : (lift x >>= f).Spent R := by
  intro b hb
  obtain ⟨a, ha, hb, e⟩ := ops_bind hb
  rw [e]
  simpa [lift] using hf a ha b hb

theorem spent_works_bind {x : Tick α} {f : α → Tick β} {c : ℕ} {R : β → ℕ → Prop} (h : x.Works c)
    (hf : ∀ a, x.res = .ok a → (f a).Spent (fun b d => R b (c + d))) : (x >>= f).Spent R :=
  h.spent.bind fun a _ ha hd => hd.2 ▸ hf a ha

variable [DecidableEq κ]

/-- A loop whose steps add to a set of keys; `φ` is the value of the set. -/
theorem spent_forEach {l : List α} {s : σ} {body : α → σ → Tick σ} (I : σ → Prop) (K : σ → Finset κ) (φ : Finset κ → ℕ) (c : α → ℕ) (ks : α → List κ) (hs : I s)
    (h : ∀ x ∈ l, ∀ s, I s → (body x s).Spent (fun s' d => I s' ∧ d + φ (K s) = c x + φ (K s') ∧ K s' = K s ∪ (ks x).toFinset)) :
    (Tick.forEach l s body).Spent (fun s' d => I s' ∧ d + φ (K s) = (l.map c).sum + φ (K s') ∧ K s' = K s ∪ (l.flatMap ks).toFinset) := by
  induction l generalizing s with
  | nil => exact spent_pure ⟨hs, by simp, by simp⟩
  | cons x l ih =>
    refine (h x List.mem_cons_self s hs).bind fun s1 d1 _ hq => ?_
    refine (ih hq.1 fun y hy => h y (List.mem_cons_of_mem _ hy)).mono fun s2 d2 _ hq2 => ⟨hq2.1, ?_, ?_⟩
    · have h1 := hq.2.1
      have h2 := hq2.2.1
      rw [List.map_cons, List.sum_cons]
      omega
    · rw [hq2.2.2, hq.2.2, List.flatMap_cons, List.toFinset_append, Finset.union_assoc]

end generic

variable {F : Type} [Field F] [DecidableEq F] [StarkField F]

theorem mapPolyT_kept {P : Form} {w : Worker} {p q : Poly F P} {f : F → F} (h : (mapPolyT w p f).res = .ok q) :
    q.coeffs.length = p.coeffs.length ∧ q.exp = p.exp := by
  rw [res_mapPolyT] at h
  cases h
  exact ⟨parMap_length _ _ _, rfl⟩

theorem zipPolyT_kept {w : Worker} {p q r : Poly F .values} {f : F → F → F} (h : (zipPolyT w p q f).res = .ok r) :
    r.coeffs.length = p.coeffs.length ∧ r.exp = p.exp := by
  rw [res_zipPolyT] at h
  obtain ⟨_, -, h⟩ := Res.bind_eq_ok.1 h
  cases h
  exact ⟨parZip_length _ _ _ _ _, rfl⟩

theorem works_applyCoeffT (w : Worker) (u : UnivariateTerm F) (p : Poly F .values) : (applyCoeffT w u.coeff p).Works (coeffOps p.coeffs.length u) := by
  unfold applyCoeffT coeffOps
  by_cases h : u.coeff = 1
  · rw [if_pos h, if_neg (by simpa using h)]
    exact works_pure _
  · rw [if_neg h, if_pos h]
    refine works_op_bind ?_
    split <;> exact works_mapPolyT _ _ _

/-- The keys of the cache. -/
def cacheKeys (cache : TermCache F) : Finset (WitnessEvaluationData F) := (cache.map Prod.fst).toFinset

/-- What the entries of a cache have cost. -/
def keysOps (S : ℕ) (w : Worker) (k f : ℕ) (s : Finset (WitnessEvaluationData F)) : ℕ := ∑ x ∈ s, (cosetLdeOps S w k f + powAllOps (2 ^ (k + f)) x.power)

/-- The key of a factor. -/
def factorKey (k f : ℕ) (u : UnivariateTerm F) : WitnessEvaluationData F := { mask := u.maskProperties, power := u.power, totalLdeLength := 2 ^ f * 2 ^ k }

theorem keys_assocInsert {κ α : Type} [DecidableEq κ] (l : List (κ × α)) (x : κ) (v : α) :
    ((assocInsert l x v).map Prod.fst).toFinset = insert x (l.map Prod.fst).toFinset := by
  induction l with
  | nil => simp [assocInsert]
  | cons p l ih =>
    obtain ⟨y, z⟩ := p
    unfold assocInsert
    split
    · rename_i h
      subst h
      simp
    · simp only [List.map_cons, List.toFinset_cons, ih]
      rw [Finset.insert_comm]

theorem assocGet_none {κ α : Type} [DecidableEq κ] (l : List (κ × α)) (x : κ) : assocGet l x = none ↔ x ∉ (l.map Prod.fst).toFinset := by
  induction l with
  | nil => simp [assocGet]
  | cons p l ih =>
    obtain ⟨y, z⟩ := p
    unfold assocGet
    split
    · rename_i h
      subst h
      simp
    · rename_i h
      rw [ih]
      simp [Ne.symm h]

theorem Shaped.length {P : Form} {K : ℕ} {p : Poly F P} (h : Shaped K p) : p.coeffs.length = 2 ^ K := by
  obtain ⟨g, rfl⟩ := h
  simp

theorem Shaped.exp {P : Form} {K : ℕ} {p : Poly F P} (h : Shaped K p) : p.exp = K := by
  obtain ⟨g, rfl⟩ := h
  rfl

section
variable (w : Worker) {k f : ℕ} (hK : k + f ≤ StarkField.S F) (h32 : k < 32)
include hK h32

theorem spent_evaluateUni {u : UnivariateTerm F} {subst : List (MaskProperties F × Poly F .coefficients)} {cache : TermCache F}
    (hu : SubstHas k subst u) (hc : CacheShape (k + f) cache) :
    (evaluateUnivariateTermT u subst cache (2 ^ f) w).Spent (fun r c => (r.1.coeffs.length = 2 ^ (k + f) ∧ CacheShape (k + f) r.2) ∧
      c + keysOps (StarkField.S F) w k f (cacheKeys cache) = coeffOps (2 ^ (k + f)) u + keysOps (StarkField.S F) w k f (cacheKeys r.2) ∧
      cacheKeys r.2 = cacheKeys cache ∪ [factorKey k f u].toFinset) := by
  intro r hr
  have hsafe := evaluateUni_safe (E := fun _ => True) w hK h32 hu hc
  have hr' := hr
  rw [res_evaluateUnivariateTermT] at hr'
  rw [hr'] at hsafe
  refine ⟨⟨hsafe.1.length, hsafe.2⟩, ?_⟩
  revert hr
  obtain ⟨q, e, hq⟩ := hu
  suffices h : (evaluateUnivariateTermT u subst cache (2 ^ f) w).Spent (fun r c =>
      c + keysOps (StarkField.S F) w k f (cacheKeys cache) = coeffOps (2 ^ (k + f)) u + keysOps (StarkField.S F) w k f (cacheKeys r.2) ∧
      cacheKeys r.2 = cacheKeys cache ∪ [factorKey k f u].toFinset) from h r
  unfold evaluateUnivariateTermT
  refine spent_lift_bind fun _ _ => ?_
  rw [e]
  refine spent_lift_bind fun q' hq' => ?_
  cases hq'
  have ek : ({ mask := u.maskProperties, power := u.power, totalLdeLength := 2 ^ f * q.size } : WitnessEvaluationData F) = factorKey k f u := by
    unfold factorKey Poly.size
    rw [hq.length]
  simp only [ek]
  cases hg : assocGet cache (factorKey k f u) with
  | some v =>
    have hv := (hc _ _ hg).length
    refine spent_works_bind (works_applyCoeffT w u v) fun v' _ => spent_pure ?_
    have hmem : factorKey k f u ∈ cacheKeys cache := by
      by_contra hn
      rw [(assocGet_none _ _).2 hn] at hg
      cases hg
    refine ⟨by rw [hv]; rfl, ?_⟩
    simp [hmem]
  | none =>
    refine spent_lift_bind fun _ _ => ?_
    have hn : factorKey k f u ∉ cacheKeys cache := (assocGet_none _ _).1 hg
    refine spent_works_bind (works_cosetLdeT w f hq.length hq.exp) fun v hv => ?_
    have lv : v.coeffs.length = 2 ^ (k + f) := by
      rw [res_cosetLdeT] at hv
      obtain ⟨g, rfl⟩ := hq
      rw [cosetLde_exact w hK h32] at hv
      cases hv
      simp
    refine spent_works_bind (works_powPolyT w v u.power) fun v' hv' => ?_
    have lv' : v'.coeffs.length = 2 ^ (k + f) := by
      rw [res_powPolyT] at hv'
      cases hv'
      rw [← lv]
      unfold Poly.pow
      split
      · exact parMap_length _ _ _
      · exact parMap_length _ _ _
    refine spent_works_bind (works_applyCoeffT w u v') fun v'' _ => spent_pure ?_
    have hk : cacheKeys (assocInsert cache (factorKey k f u) v') = insert (factorKey k f u) (cacheKeys cache) := keys_assocInsert _ _ _
    refine ⟨?_, by rw [hk]; simp only [List.toFinset_cons, List.toFinset_nil, Finset.union_insert, Finset.union_empty]⟩
    rw [hk]
    unfold keysOps
    rw [Finset.sum_insert hn, lv, lv']
    simp only [factorKey]
    ring

theorem spent_evaluateTerm {t : ConstraintTerm F} {subst : List (MaskProperties F × Poly F .coefficients)}
    {cache : TermCache F} (ht : termFactors t ≠ []) (hsub : ∀ u ∈ termFactors t, SubstHas k subst u)
    (hc : CacheShape (k + f) cache) :
    (evaluateConstraintTermT t subst cache (2 ^ f) w).Spent (fun r c => (r.1.coeffs.length = 2 ^ (k + f) ∧ CacheShape (k + f) r.2) ∧
      c + keysOps (StarkField.S F) w k f (cacheKeys cache) = pointTermOps (2 ^ (k + f)) t + keysOps (StarkField.S F) w k f (cacheKeys r.2) ∧
      cacheKeys r.2 = cacheKeys cache ∪ ((termFactors t).map (factorKey k f)).toFinset) := by
  unfold evaluateConstraintTermT
  refine spent_lift_bind fun _ _ => ?_
  cases t with
  | univariate u => exact spent_evaluateUni w hK h32 (hsub u (by simp [termFactors])) hc
  | polyvariate p =>
    simp only [termFactors] at ht hsub
    obtain ⟨u, l, hp⟩ := List.exists_cons_of_ne_nil ht
    rw [hp] at hsub
    simp only [pointTermOps, termFactors, hp, List.map_cons, List.sum_cons, List.length_cons, Nat.add_sub_cancel]
    refine Tick.Spent.bind (Q := fun (s : Option (Poly F .values) × TermCache F) c => ((∃ a, s.1 = some a ∧ a.coeffs.length = 2 ^ (k + f)) ∧ CacheShape (k + f) s.2) ∧
      c + keysOps (StarkField.S F) w k f (cacheKeys cache) =
        coeffOps (2 ^ (k + f)) u + (l.map (coeffOps (2 ^ (k + f)))).sum + l.length * 2 ^ (k + f) + keysOps (StarkField.S F) w k f (cacheKeys s.2) ∧
      cacheKeys s.2 = cacheKeys cache ∪ ((u :: l).map (factorKey k f)).toFinset) ?_ ?_
    · rw [Tick.forEach]
      refine Tick.Spent.bind (Q := fun (s : Option (Poly F .values) × TermCache F) c => ((∃ a, s.1 = some a ∧ a.coeffs.length = 2 ^ (k + f)) ∧ CacheShape (k + f) s.2) ∧
        c + keysOps (StarkField.S F) w k f (cacheKeys cache) = coeffOps (2 ^ (k + f)) u + keysOps (StarkField.S F) w k f (cacheKeys s.2) ∧
        cacheKeys s.2 = cacheKeys cache ∪ [factorKey k f u].toFinset) ?_ ?_
      · unfold evaluateFactorT
        refine (spent_evaluateUni w hK h32 (hsub u List.mem_cons_self) hc).bind fun r c _ hr => ?_
        obtain ⟨v, c'⟩ := r
        exact spent_pure ⟨⟨⟨v, rfl, hr.1.1⟩, hr.1.2⟩, hr.2⟩
      · intro s c _ hs
        refine (spent_forEach (fun s : Option (Poly F .values) × TermCache F => (∃ a, s.1 = some a ∧ a.coeffs.length = 2 ^ (k + f)) ∧ CacheShape (k + f) s.2)
          (fun s => cacheKeys s.2) (keysOps (StarkField.S F) w k f) (fun u => coeffOps (2 ^ (k + f)) u + 2 ^ (k + f)) (fun u => [factorKey k f u]) hs.1 ?_).mono ?_
        · rintro v hv ⟨acc, c⟩ ⟨⟨a, ea, la⟩, h2⟩
          simp only at ea
          subst ea
          unfold evaluateFactorT
          refine (spent_evaluateUni w hK h32 (hsub v (List.mem_cons_of_mem _ hv)) h2).bind fun r d _ hr => ?_
          obtain ⟨x, c'⟩ := r
          unfold mulOptT
          refine spent_works_bind (Works.bind (d := 0) (works_zipPolyT w a x _) fun _ _ => works_pure _) fun y hy => spent_pure ?_
          rw [res_bind] at hy
          obtain ⟨z, hz, hy⟩ := Res.bind_eq_ok.1 hy
          cases hy
          refine ⟨⟨⟨z, rfl, (zipPolyT_kept hz).1.trans la⟩, hr.1.2⟩, ?_, hr.2.2⟩
          have := hr.2.1
          dsimp only at this ⊢
          omega
        · rintro s' c' - ⟨h1, h2, h3⟩
          refine ⟨h1, ?_, ?_⟩
          · have := hs.2.1
            rw [List.sum_map_add] at h2
            simp only [List.map_const', List.sum_replicate, smul_eq_mul] at h2
            omega
          · rw [h3, hs.2.2, Finset.union_assoc, ← List.toFinset_append]
            rw [← List.map_eq_flatMap]
            rfl
    · rintro ⟨acc, c'⟩ c - ⟨⟨⟨a, ea, la⟩, h2⟩, h3, h4⟩
      simp only at ea
      subst ea
      refine spent_lift_bind fun b hb => ?_
      cases hb
      refine spent_works_bind (works_mapPolyT w a _) fun v hv => spent_pure ⟨⟨(mapPolyT_kept hv).1.trans la, h2⟩, ?_, h4⟩
      dsimp only at h3 ⊢
      omega

end

variable (H : List UInt8 → Digest)

theorem works_getChallengeT (t : Transcript) : (getChallengeT H t : Tick (F × Transcript)).Works 1 := by
  have h1 : (Tick.hash (H t.absorbed)).Works 0 := fun _ _ => rfl
  unfold getChallengeT
  refine Works.to (Works.bind h1 fun v _ => Works.bind (c := 1) (d := 0) ?_ fun _ _ => works_pure _) rfl
  unfold interpretHashT
  exact Works.bind (works_op 1 _) fun _ _ => works_lift _

theorem works_adjustmentOptT {ali : AliInstance F} {K : ℕ} (w : Worker) (hc : ali.precomputations.coset.length = 2 ^ K) (a : ℕ) (alpha beta : F) :
    (adjustmentOptT ali w a alpha beta).Works (adjustmentOps (StarkField.S F) (2 ^ K) a) := by
  unfold adjustmentOptT adjustmentOps
  split
  · exact works_pure _
  · refine Works.bind (c := polyOps (StarkField.S F) (2 ^ K) + powAllOps (2 ^ K) a + 2 * 2 ^ K) (d := 0) ?_ fun _ _ => works_pure _
    unfold adjustmentInCosetT
    refine works_lift_bind fun _ _ => works_lift_bind fun _ _ => ?_
    refine Works.to (Works.bind (d := powAllOps (2 ^ K) a + (2 ^ K + 2 ^ K)) (works_unwrapT ((works_ofVecT _).to (by rw [hc]))) fun p hp => ?_) (by ring)
    have lp : p.coeffs.length = 2 ^ K := by
      rw [res_unwrapT, res_ofVecT] at hp
      have : (Poly.ofVec ali.precomputations.coset : Res (Poly F .values)) = .ok p := by
        cases hx : (Poly.ofVec ali.precomputations.coset : Res (Poly F .values)) with
        | ok b => rw [hx] at hp; exact hp
        | err e => rw [hx] at hp; cases hp
        | panic => rw [hx] at hp; cases hp
      have := Poly.ofVec_size this
      rw [hc, nextPow2_pow] at this
      exact this
    rw [← lp]
    refine Works.bind (works_powPolyT w p a) fun q hq => ?_
    have lq : q.coeffs.length = p.coeffs.length := by
      rw [res_powPolyT] at hq
      cases hq
      unfold Poly.pow
      split
      · exact parMap_length _ _ _
      · exact parMap_length _ _ _
    rw [← lq]
    refine Works.bind (works_mapPolyT w q _) fun r hr => ?_
    rw [← (mapPolyT_kept hr).1]
    exact works_mapPolyT w r _

theorem works_applyAdjustmentT (w : Worker) (alpha : F) (v : Poly F .values) (o : Option (Poly F .values)) : (applyAdjustmentT w alpha v o).Works v.coeffs.length := by
  cases o with
  | none => exact works_mapPolyT w v _
  | some adj => exact works_zipPolyT w v adj _

theorem applyAdjustmentT_kept {w : Worker} {alpha : F} {v r : Poly F .values} {o : Option (Poly F .values)} (h : (applyAdjustmentT w alpha v o).res = .ok r) :
    r.coeffs.length = v.coeffs.length := by
  cases o with
  | none => exact (mapPolyT_kept h).1
  | some adj => exact (zipPolyT_kept h).1

/-- The state of the loops of `calculate_g` has the right sizes. -/
def GSized (K : ℕ) (s : GState F) : Prop := (s.batch.coeffs.length = 2 ^ K ∧ s.batch.exp = K) ∧ CacheShape K s.cache

section
variable (w : Worker) {k f : ℕ} (hK : k + f ≤ StarkField.S F) (h32 : k < 32)
  {ali : AliInstance F} (hcos : ali.precomputations.coset.length = 2 ^ (k + f)) (hD : ali.maxConstraintPower = 2 ^ f)
include hK h32 hcos hD

theorem spent_gConstraint {subst : List (MaskProperties F × Poly F .coefficients)} {c : Constraint F}
    (ht : ∀ t ∈ c.terms, termFactors t ≠ [] ∧ ∀ u ∈ termFactors t, SubstHas k subst u)
    {g : Poly F .values} (hg : g.coeffs.length = 2 ^ (k + f)) {s : GState F} (hs : GSized (k + f) s) :
    (gConstraintW H ali w subst g c s).Spent (fun s' d => GSized (k + f) s' ∧
      d + keysOps (StarkField.S F) w k f (cacheKeys s.cache) =
        pointConstraintOps (StarkField.S F) (2 ^ (k + f)) (2 ^ f) c + keysOps (StarkField.S F) w k f (cacheKeys s'.cache) ∧
      cacheKeys s'.cache = cacheKeys s.cache ∪ ((factors c).map (factorKey k f)).toFinset) := by
  unfold gConstraintW
  rw [hD]
  refine spent_lift_bind fun _ _ => ?_
  refine spent_works_bind (works_getChallengeT H _) fun a _ => ?_
  obtain ⟨alpha, t⟩ := a
  refine spent_works_bind (works_getChallengeT H _) fun b _ => ?_
  obtain ⟨beta, t⟩ := b
  refine spent_works_bind (works_adjustmentOptT w hcos _ _ _) fun adj _ => ?_
  refine (spent_forEach (fun r : Poly F .values × TermCache F => r.1.coeffs.length = 2 ^ (k + f) ∧ CacheShape (k + f) r.2) (fun r => cacheKeys r.2)
    (keysOps (StarkField.S F) w k f) (fun t => pointTermOps (2 ^ (k + f)) t + 2 ^ (k + f)) (fun t => (termFactors t).map (factorKey k f)) ⟨hg, hs.2⟩ ?_).bind ?_
  · rintro t htm ⟨v, c'⟩ ⟨lv, h2⟩
    unfold gTermT
    rw [hD]
    refine (spent_evaluateTerm w hK h32 (ht t htm).1 (ht t htm).2 h2).bind fun r d _ hr => ?_
    obtain ⟨x, c''⟩ := r
    refine spent_works_bind (works_zipPolyT w v x _) fun y hy => spent_pure ⟨⟨(zipPolyT_kept hy).1.trans lv, hr.1.2⟩, ?_, hr.2.2⟩
    have := hr.2.1
    dsimp only at this lv ⊢
    omega
  · rintro ⟨v, c'⟩ d - ⟨⟨lv, h2⟩, h3, h4⟩
    refine spent_works_bind (works_mapPolyT w v _) fun v1 hv1 => ?_
    refine spent_works_bind (works_applyAdjustmentT w _ v1 adj) fun v2 hv2 => ?_
    refine spent_works_bind (works_zipPolyT w s.batch v2 _) fun v3 hv3 => spent_pure ⟨⟨?_, h2⟩, ?_, ?_⟩
    · have := zipPolyT_kept hv3
      exact ⟨this.1.trans hs.1.1, this.2.trans hs.1.2⟩
    · have e1 := (mapPolyT_kept hv1).1
      have e2 := hs.1.1
      dsimp only at h3 lv ⊢
      unfold pointConstraintOps
      omega
    · dsimp only at h4 ⊢
      rw [h4]
      unfold factors
      rw [List.map_flatMap]

theorem spent_gBatch {subst : List (MaskProperties F × Poly F .coefficients)} {p : ConstraintDensity × List (Constraint F)}
    (hcs : ∀ c ∈ p.2, ∀ t ∈ c.terms, termFactors t ≠ [] ∧ ∀ u ∈ termFactors t, SubstHas k subst u) {s : GState F} (hs : GSized (k + f) s) :
    (gBatchW H ali w subst p s).Spent (fun s' d => GSized (k + f) s' ∧
      d + keysOps (StarkField.S F) w k f (cacheKeys s.cache) =
        (p.2.map (pointConstraintOps (StarkField.S F) (2 ^ (k + f)) (2 ^ f))).sum + 2 * 2 ^ (k + f) + keysOps (StarkField.S F) w k f (cacheKeys s'.cache) ∧
      cacheKeys s'.cache = cacheKeys s.cache ∪ ((p.2.flatMap factors).map (factorKey k f)).toFinset) := by
  unfold gBatchW
  refine (spent_forEach (GSized (k + f)) (fun s => cacheKeys s.cache) (keysOps (StarkField.S F) w k f) (pointConstraintOps (StarkField.S F) (2 ^ (k + f)) (2 ^ f))
    (fun c => (factors c).map (factorKey k f)) hs fun c hc s' hs' => spent_gConstraint H w hK h32 hcos hD (hcs c hc) hs.1.1 hs').bind ?_
  rintro r d - ⟨h1, h2, h3⟩
  refine spent_lift_bind fun q _ => ?_
  refine spent_works_bind (works_zipPolyT w r.batch q _) fun v hv => ?_
  refine spent_works_bind (works_zipPolyT w s.batch v _) fun v' hv' => spent_pure ⟨⟨?_, h1.2⟩, ?_, ?_⟩
  · have := zipPolyT_kept hv'
    exact ⟨this.1.trans hs.1.1, this.2.trans hs.1.2⟩
  · have e1 := h1.1.1
    have e2 := hs.1.1
    dsimp only at h2 ⊢
    omega
  · dsimp only at h3 ⊢
    rw [h3, List.map_flatMap]

theorem works_gBoundary {witness : List (Poly F .coefficients)} (hws : ∀ p ∈ witness, Shaped k p) (b : BoundaryConstraint F) {s : GState F} (hs : GSized (k + f) s) :
    (gBoundaryW H ali w witness b s).Spent (fun s' d => GSized (k + f) s' ∧ d = pointBoundaryOps (StarkField.S F) w k f) := by
  unfold gBoundaryW
  rw [hD]
  refine spent_works_bind (works_getChallengeT H _) fun a _ => ?_
  obtain ⟨alpha, t⟩ := a
  refine spent_works_bind (works_getChallengeT H _) fun b' _ => ?_
  obtain ⟨beta, t⟩ := b'
  refine spent_lift_bind fun _ _ => ?_
  refine spent_works_bind (works_adjustmentOptT w hcos _ _ _) fun adj _ => ?_
  refine spent_lift_bind fun r _ => spent_lift_bind fun p hp => spent_lift_bind fun v _ => spent_lift_bind fun c0 _ => ?_
  have hp' := hws p (List.mem_of_getElem? (rd_inv hp))
  refine spent_works_bind (works_op 1 _) fun c1 _ => spent_lift_bind fun c hc => ?_
  have lc : c.length = 2 ^ k := (wr_length hc).trans hp'.length
  refine spent_works_bind (works_cosetLdeT w f (p := { p with coeffs := c }) lc hp'.exp) fun v hv => ?_
  have lv : v.coeffs.length = 2 ^ (k + f) := by
    rw [res_cosetLdeT] at hv
    obtain ⟨g, rfl⟩ := hp'
    have e : ({ (mkPoly .coefficients k g : Poly F .coefficients) with coeffs := c } : Poly F .coefficients) = mkPoly .coefficients k (fun i => c.getD i 0) := by
      conv_lhs => rw [eq_tab_getD c 0, lc]
      rfl
    rw [e, cosetLde_exact w hK h32] at hv
    cases hv
    simp
  refine spent_works_bind (works_applyAdjustmentT w _ v adj) fun v1 hv1 => spent_lift_bind fun q _ => ?_
  refine spent_works_bind (works_zipPolyT w v1 q _) fun v2 hv2 => ?_
  refine spent_works_bind (works_zipPolyT w s.batch v2 _) fun v3 hv3 => spent_pure ⟨⟨?_, hs.2⟩, ?_⟩
  · have := zipPolyT_kept hv3
    exact ⟨this.1.trans hs.1.1, this.2.trans hs.1.2⟩
  · have e1 := applyAdjustmentT_kept hv1
    have e2 := hs.1.1
    unfold pointBoundaryOps
    omega

end

end Hodor

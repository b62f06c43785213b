import Verif.Props.MachineProver

/-!
# C92: a span greater than the trace in a release build
-/

namespace Hodor

open Spec

/-- The instance with density `ρ` for every constraint. -/
def Spec.withDensity {F : Type} (ρ : ConstraintDensity) (inst : InstanceProperties F) : InstanceProperties F :=
  { inst with constraints := inst.constraints.map (fun c => { c with density := ρ }) }

namespace Run

variable {α β α' β' σ : Type}

/-- Both runs are alike, with related results. -/
def Alike (R : α → β → Prop) (x : Run α) (y : Run β) : Prop :=
  (x = .running ∧ y = .running) ∨ (x = .done .panic ∧ y = .done .panic) ∨ (∃ e, x = .done (.err e) ∧ y = .done (.err e)) ∨
    ∃ a b, x = .done (.ok a) ∧ y = .done (.ok b) ∧ R a b

theorem Alike.of_eq {x y : Run α} (h : x = y) : Alike Eq x y := by
  subst h
  rcases x with (a | e | _) | _
  · exact .inr (.inr (.inr ⟨a, a, rfl, rfl, rfl⟩))
  · exact .inr (.inr (.inl ⟨e, rfl, rfl⟩))
  · exact .inr (.inl ⟨rfl, rfl⟩)
  · exact .inl ⟨rfl, rfl⟩

theorem Alike.eq {x y : Run α} (h : Alike Eq x y) : x = y := by
  rcases h with ⟨rfl, rfl⟩ | ⟨rfl, rfl⟩ | ⟨e, rfl, rfl⟩ | ⟨a, b, rfl, rfl, rfl⟩ <;> rfl

theorem Alike.bind {R : α → β → Prop} {Q : α' → β' → Prop} {x : Run α} {y : Run β} {f : α → Run α'} {g : β → Run β'}
    (h : Alike R x y) (hf : ∀ a b, R a b → Alike Q (f a) (g b)) : Alike Q (Run.bind x f) (Run.bind y g) := by
  rcases h with ⟨rfl, rfl⟩ | ⟨rfl, rfl⟩ | ⟨e, rfl, rfl⟩ | ⟨a, b, rfl, rfl, h⟩
  · exact .inl ⟨rfl, rfl⟩
  · exact .inr (.inl ⟨rfl, rfl⟩)
  · exact .inr (.inr (.inl ⟨e, rfl, rfl⟩))
  · exact hf a b h

theorem Alike.bind_same {Q : α' → β' → Prop} {x : Run α} {f : α → Run α'} {g : α → Run β'}
    (hf : ∀ a, x = .done (.ok a) → Alike Q (f a) (g a)) : Alike Q (Run.bind x f) (Run.bind x g) := by
  rcases x with (a | e | _) | _
  · exact hf a rfl
  · exact .inr (.inr (.inl ⟨e, rfl, rfl⟩))
  · exact .inr (.inl ⟨rfl, rfl⟩)
  · exact .inl ⟨rfl, rfl⟩

theorem Alike.ok {R : α → β → Prop} {a : α} {b : β} (h : R a b) : Alike R (.done (.ok a)) (.done (.ok b)) :=
  .inr (.inr (.inr ⟨a, b, rfl, rfl, h⟩))

end Run

section
variable {F : Type} [Field F] [DecidableEq F] [StarkField F]

omit [Field F] [DecidableEq F] [StarkField F] in
theorem mapRes_keeps {α β : Type} {f : α → Res β} {l : List α} {r : List β} (h : mapRes f l = .ok r) : r.length = l.length := by
  induction l generalizing r with
  | nil => cases h; rfl
  | cons a l ih =>
    unfold mapRes at h
    obtain ⟨b, -, h⟩ := Res.bind_eq_ok.1 h
    obtain ⟨bs, h2, h⟩ := Res.bind_eq_ok.1 h
    cases h
    rw [List.length_cons, List.length_cons, ih h2]

/-- The constraint with density `ρ`. -/
private abbrev lab (ρ : ConstraintDensity) (c : Constraint F) : Constraint F := { c with density := ρ }

omit [DecidableEq F] [StarkField F] in
theorem maskConstraint_lab (d : Domain F) (ρ : ConstraintDensity) (c : Constraint F) :
    maskConstraint d (lab ρ c) = (do let x ← maskConstraint d c; pure (lab ρ x)) := by
  unfold maskConstraint
  show (do let ts ← mapRes (maskTerm d) c.terms; pure { lab ρ c with terms := ts }) = _
  rcases mapRes (maskTerm d) c.terms with a | e | _ <;> rfl

omit [DecidableEq F] [StarkField F] in
theorem mapRes_lab (d : Domain F) (ρ : ConstraintDensity) (cs : List (Constraint F)) :
    mapRes (maskConstraint d) (cs.map (lab ρ)) = (do let x ← mapRes (maskConstraint d) cs; pure (x.map (lab ρ))) := by
  induction cs with
  | nil => rfl
  | cons c cs ih =>
    rw [List.map_cons]
    unfold mapRes
    rw [maskConstraint_lab, ih]
    rcases maskConstraint d c with a | e | _
    · rcases mapRes (maskConstraint d) cs with b | e | _ <;> rfl
    · rfl
    · rfl

omit [StarkField F] in
theorem batches_lab (ρ : ConstraintDensity) (cs : List (Constraint F)) (m : List (Constraint F)) :
    (cs.map (lab ρ)).foldl (fun m c => pushBatch c m) [(ρ, m)] = [(ρ, m ++ cs.map (lab ρ))] := by
  induction cs generalizing m with
  | nil => simp
  | cons c cs ih =>
    rw [List.map_cons, List.foldl_cons]
    have : pushBatch (lab ρ c) [(ρ, m)] = [(ρ, m ++ [lab ρ c])] := by
      show (if ρ = ρ then _ else _) = _
      rw [if_pos rfl]
    rw [this, ih]
    simp

omit [StarkField F] in
theorem batches_labels (ρ : ConstraintDensity) (cs : List (Constraint F)) (h : cs ≠ []) :
    (cs.map (lab ρ)).foldl (fun m c => pushBatch c m) [] = [(ρ, cs.map (lab ρ))] := by
  cases cs with
  | nil => exact absurd rfl h
  | cons c cs =>
    rw [List.map_cons, List.foldl_cons]
    exact batches_lab ρ cs [lab ρ c]

omit [StarkField F] [DecidableEq F] [Field F] in
theorem maxDegree_lab (ρ : ConstraintDensity) (cs : List (Constraint F)) : maxDegree (cs.map (lab ρ)) = maxDegree cs := by
  unfold maxDegree
  rw [List.foldl_map]

omit [StarkField F] [Field F] in
theorem masks_lab (ρ : ConstraintDensity) (cs : List (Constraint F)) (m : List (MaskProperties F)) :
    (cs.map (lab ρ)).foldl getMasksFromConstraint m = cs.foldl getMasksFromConstraint m := by
  rw [List.foldl_map]
  rfl

/-- A set-up with the labels of density `τ`. -/
private def twinOf (B : AliInstance F) (arp : InstanceProperties F) (q : List (Poly F .values)) (τ : ConstraintDensity) : AliInstance F :=
  { B with
    properties := withDensity τ arp
    constraintDivisors := q.map (fun x => (τ, x))
    constraintsBatchedByDensity := (arp.constraints.map (lab τ)).foldl (fun m c => pushBatch c m) [] }

/-- The set-up for `ρ` and for `σ` differ in the labels only. -/
private def Twin (ρ σ : ConstraintDensity) (a b : AliInstance F) : Prop :=
  ∃ (B : AliInstance F) (arp : InstanceProperties F) (q : List (Poly F .values)), a = twinOf B arp q ρ ∧ b = twinOf B arp q σ

theorem fromInstanceWord_lab (p : Profile) (fuel : ℕ) (ρ : ConstraintDensity) (inst : InstanceProperties F) :
    fromInstanceWord p fuel (withDensity ρ inst) = Run.bind (fromInstanceWord p fuel inst) (fun arp => .done (.ok (withDensity ρ arp))) := by
  unfold fromInstanceWord
  simp only [Run.bind_def]
  show Run.bind (Run.done (nextPow2Word p inst.numRows)) _ = _
  rcases nextPow2Word p inst.numRows with n | e | _
  · simp only [Run.bind_ok]
    rcases (newForSizeWord p fuel n : Run (Domain F)) with (d | e | _) | _
    · simp only [Run.bind_ok]
      show Run.bind (Run.done (mapRes (maskConstraint d) (inst.constraints.map (lab ρ)))) _ = _
      rw [mapRes_lab]
      rcases mapRes (maskConstraint d) inst.constraints with x | e | _ <;> rfl
    · rfl
    · rfl
    · rfl
  · rfl
  · rfl

theorem alike_fromArp (p : Profile) (fuel : ℕ) (w : Worker) (ρ σ : ConstraintDensity) (arp : InstanceProperties F)
    (hdiv : ∀ d e : Domain F, newForSizeWord p fuel arp.numRows = .done (.ok d) →
      densityDivisorWord p d e arp.numRows w ρ = densityDivisorWord p d e arp.numRows w σ) :
    Run.Alike (Twin ρ σ) (AliInstance.fromArpWord p fuel (withDensity ρ arp) w) (AliInstance.fromArpWord p fuel (withDensity σ arp) w) := by
  unfold AliInstance.fromArpWord
  simp only [Run.bind_def]
  rw [show (withDensity ρ arp).constraints = arp.constraints.map (lab ρ) from rfl, show (withDensity σ arp).constraints = arp.constraints.map (lab σ) from rfl,
    maxDegree_lab, maxDegree_lab, masks_lab, masks_lab, show (withDensity ρ arp).numRows = arp.numRows from rfl, show (withDensity σ arp).numRows = arp.numRows from rfl,
    show (withDensity ρ arp).boundaryConstraints = arp.boundaryConstraints from rfl, show (withDensity σ arp).boundaryConstraints = arp.boundaryConstraints from rfl]
  refine Run.Alike.bind_same fun d hd => Run.Alike.bind_same fun size _ => Run.Alike.bind_same fun e _ => Run.Alike.bind_same fun pre _ => ?_
  by_cases hc : arp.constraints = []
  · rw [hc]
    refine Run.Alike.bind_same fun divs h1 => Run.Alike.bind_same fun bd _ => Run.Alike.ok ?_
    cases h1
    exact ⟨⟨arp, _, d, e, _, _, [], bd, [], pre⟩, arp, [], by unfold twinOf; rw [hc]; rfl, by unfold twinOf; rw [hc]; rfl⟩
  · rw [batches_labels ρ _ hc, batches_labels σ _ hc]
    have one : ∀ (τ : ConstraintDensity) (x : List (Constraint F)), forEach [(τ, x)] ([] : List (ConstraintDensity × Poly F .values)) (fun b m => do
        let q ← densityDivisorWord p d e arp.numRows w b.1
        pure (assocInsert m b.1 q)) = (do let q ← densityDivisorWord p d e arp.numRows w τ; pure [(τ, q)]) := by
      intro τ x
      unfold forEach forEach
      show (do let s' ← (do let q ← densityDivisorWord p d e arp.numRows w τ; pure (assocInsert [] τ q)); Res.ok s') = _
      rcases densityDivisorWord p d e arp.numRows w τ with q | er | _ <;> rfl
    rw [one, one, hdiv d e hd]
    rcases densityDivisorWord p d e arp.numRows w σ with q | er | _
    · show Run.Alike _ (Run.bind (Run.done (forEach _ _ _)) _) (Run.bind (Run.done (forEach _ _ _)) _)
      refine Run.Alike.bind_same fun bd _ => Run.Alike.ok ?_
      exact ⟨⟨arp, _, d, e, _, _, [], bd, [], pre⟩, arp, [q], by unfold twinOf; rw [batches_labels ρ _ hc]; rfl, by unfold twinOf; rw [batches_labels σ _ hc]; rfl⟩
    · exact .inr (.inr (.inl ⟨er, rfl, rfl⟩))
    · exact .inr (.inl ⟨rfl, rfl⟩)

variable (H : List UInt8 → Digest)

theorem each_lab (p : Profile) (fuel : ℕ) (ρ σ : ConstraintDensity) (a b : AliInstance F) (w : Worker) (subst : List (MaskProperties F × Poly F .coefficients))
    (g : Poly F .values) (cs : List (Constraint F)) (hab : ∀ c s, gConstraintWord H p fuel a w subst g (lab ρ c) s = gConstraintWord H p fuel b w subst g (lab σ c) s) :
    ∀ s, Run.each (cs.map (lab ρ)) s (gConstraintWord H p fuel a w subst g) = Run.each (cs.map (lab σ)) s (gConstraintWord H p fuel b w subst g) := by
  induction cs with
  | nil => intro s; rfl
  | cons c cs ih =>
    intro s
    rw [List.map_cons, List.map_cons]
    unfold Run.each
    rw [hab c s]
    congr 1
    funext s'
    exact ih s'

theorem twin_calculateG (p : Profile) (fuel : ℕ) {ρ σ : ConstraintDensity} {a b : AliInstance F} (h : Twin ρ σ a b) (t : Transcript)
    (witness : List (Poly F .coefficients)) (w : Worker) : a.calculateGWord H p fuel t witness w = b.calculateGWord H p fuel t witness w := by
  obtain ⟨B, arp, q, rfl, rfl⟩ := h
  unfold AliInstance.calculateGWord
  simp only [Run.bind_def]
  show Run.bind (Run.done (Res.assert (decide (witness.length = arp.numRegisters)))) _ = Run.bind (Run.done (Res.assert (decide (witness.length = arp.numRegisters)))) _
  congr 1
  funext _
  congr 1
  funext g
  congr 1
  funext subst
  have e : Run.each (twinOf B arp q ρ).constraintsBatchedByDensity (({ batch := g, cache := [], transcript := t } : GState F)) (gBatchWord H p fuel (twinOf B arp q ρ) w subst) =
      Run.each (twinOf B arp q σ).constraintsBatchedByDensity (({ batch := g, cache := [], transcript := t } : GState F)) (gBatchWord H p fuel (twinOf B arp q σ) w subst) := by
    show Run.each ((arp.constraints.map (lab ρ)).foldl (fun m c => pushBatch c m) []) _ _ = Run.each ((arp.constraints.map (lab σ)).foldl (fun m c => pushBatch c m) []) _ _
    by_cases hc : arp.constraints = []
    · rw [hc]; rfl
    · rw [batches_labels ρ _ hc, batches_labels σ _ hc]
      unfold Run.each Run.each
      congr 1
      unfold gBatchWord
      dsimp only
      rw [each_lab H p fuel ρ σ (twinOf B arp q ρ) (twinOf B arp q σ) w subst g arp.constraints (fun c s => rfl)]
      congr 1
      funext r
      have look : ∀ τ : ConstraintDensity, assocGet (q.map (fun x => (τ, x))) τ = q.head? := by
        intro τ
        cases q with
        | nil => rfl
        | cons x q => show (if τ = τ then some x else _) = _; rw [if_pos rfl]; rfl
      show Run.bind (Run.done (Res.expect (assocGet (q.map (fun x => (ρ, x))) ρ))) _ = Run.bind (Run.done (Res.expect (assocGet (q.map (fun x => (σ, x))) σ))) _
      rw [look, look]
  rw [e]
  rfl

/-- The prover's run for `ρ` and for `σ` is the same, if the divisors are. -/
theorem prove_lab (p : Profile) (fuel : ℕ) (w : Worker) (inst : InstanceProperties F) (factor out : ℕ) (ρ σ : ConstraintDensity) (witness : List (List F))
    (hdiv : ∀ d e : Domain F, newForSizeWord p fuel inst.numRows = .done (.ok d) →
      densityDivisorWord p d e inst.numRows w ρ = densityDivisorWord p d e inst.numRows w σ) :
    (do let q ← Prover.newWord p fuel w (withDensity ρ inst) factor out; q.proveWord H p fuel witness) =
    (do let q ← Prover.newWord p fuel w (withDensity σ inst) factor out; q.proveWord H p fuel witness) := by
  apply Run.Alike.eq
  refine Run.Alike.bind (R := fun a b => ∃ arp ali ali', Twin ρ σ ali ali' ∧
      a = { arp := withDensity ρ arp, ali := ali, ldeFactor := factor, friFinalDegreePlusOne := out, worker := w } ∧
      b = { arp := withDensity σ arp, ali := ali', ldeFactor := factor, friFinalDegreePlusOne := out, worker := w }) ?_ ?_
  · unfold Prover.newWord
    simp only [Run.bind_def]
    rw [fromInstanceWord_lab, fromInstanceWord_lab]
    rcases e : fromInstanceWord p fuel inst with (arp | er | _) | _
    · simp only [Run.bind_ok]
      have hrows : arp.numRows = inst.numRows := by
        unfold fromInstanceWord at e
        simp only [Run.bind_def] at e
        obtain ⟨n, -, e⟩ := Run.bind_eq_ok e
        obtain ⟨d, -, e⟩ := Run.bind_eq_ok e
        obtain ⟨cs, -, e⟩ := Run.bind_eq_ok e
        cases e
        rfl
      refine Run.Alike.bind (alike_fromArp p fuel w ρ σ arp (by rw [hrows]; exact hdiv)) ?_
      intro a b hab
      exact Run.Alike.ok ⟨arp, a, b, hab, rfl, rfl⟩
    · exact .inr (.inr (.inl ⟨er, rfl, rfl⟩))
    · exact .inr (.inl ⟨rfl, rfl⟩)
    · exact .inl ⟨rfl, rfl⟩
  · rintro a b ⟨arp, ali, ali', ht, rfl, rfl⟩
    apply Run.Alike.of_eq
    unfold Prover.proveWord
    dsimp only
    simp only [twin_calculateG H p fuel ht]
    obtain ⟨B, arp', q, rfl, rfl⟩ := ht
    rfl

omit [StarkField F] in
/-- The loop over the batches has one round. -/
theorem forEach_batches {σ' : Type} (τ : ConstraintDensity) (cs : List (Constraint F)) (s : σ') (f : ConstraintDensity × List (Constraint F) → σ' → Res σ') :
    forEach ((cs.map (lab τ)).foldl (fun m c => pushBatch c m) []) s f = if cs = [] then .ok s else f (τ, cs.map (lab τ)) s := by
  by_cases hc : cs = []
  · rw [if_pos hc, hc]; rfl
  · rw [if_neg hc, batches_labels τ _ hc]
    show (do let s' ← f (τ, cs.map (lab τ)) s; forEach [] s' f) = _
    rcases f (τ, cs.map (lab τ)) s with u | er | _ <;> rfl

omit [Field F] [DecidableEq F] [StarkField F] in
theorem forEach_lab {σ' : Type} (τ : ConstraintDensity) (f : Constraint F → σ' → Res σ') (hf : ∀ c s, f (lab τ c) s = f c s) (l : List (Constraint F)) :
    ∀ s, forEach (l.map (lab τ)) s f = forEach l s f := by
  induction l with
  | nil => intro s; rfl
  | cons c l ih =>
    intro s
    show (do let s' ← f (lab τ c) s; forEach (l.map (lab τ)) s' f) = (do let s' ← f c s; forEach l s' f)
    rw [hf]
    rcases f c s with u | er | _
    · exact ih u
    · rfl
    · rfl

/-- The verifier's run for `ρ` and for `σ` is the same, if the divisors at every point are. -/
theorem verify_lab (p : Profile) (fuel : ℕ) (inst : InstanceProperties F) (factor : ℕ) (ρ σ : ConstraintDensity) (proof : InstanceProof F)
    (hdiv : ∀ (d : Domain F) (n : ℕ) (z : F), nextPow2Word p inst.numRows = .ok n → newForSizeWord p fuel n = .done (.ok d) →
      densityDivisorAtWord p z d inst.numRows ρ = densityDivisorAtWord p z d inst.numRows σ) :
    (do let v ← Verifier.newWord p fuel (withDensity ρ inst) factor; v.verifyMachine H p fuel proof) =
    (do let v ← Verifier.newWord p fuel (withDensity σ inst) factor; v.verifyMachine H p fuel proof) := by
  apply Run.Alike.eq
  refine Run.Alike.bind (R := fun a b => ∃ (V : Verifier F) (cs : List (Constraint F)), V.inst.numRows = inst.numRows ∧
      (∀ z, densityDivisorAtWord p z V.columnDomain inst.numRows ρ = densityDivisorAtWord p z V.columnDomain inst.numRows σ) ∧
      a = { V with inst := withDensity ρ V.inst, constraintsBatchedByDensity := (cs.map (lab ρ)).foldl (fun m c => pushBatch c m) [] } ∧
      b = { V with inst := withDensity σ V.inst, constraintsBatchedByDensity := (cs.map (lab σ)).foldl (fun m c => pushBatch c m) [] }) ?_ ?_
  · unfold Verifier.newWord
    simp only [Run.bind_def]
    show Run.Alike _ (Run.bind (Run.done (nextPow2Word p inst.numRows)) _) (Run.bind (Run.done (nextPow2Word p inst.numRows)) _)
    refine Run.Alike.bind_same fun n hn => Run.Alike.bind_same fun d hd => ?_
    show Run.Alike _ (Run.bind (Run.done (mapRes (maskConstraint d) (inst.constraints.map (lab ρ)))) _) (Run.bind (Run.done (mapRes (maskConstraint d) (inst.constraints.map (lab σ)))) _)
    rw [mapRes_lab, mapRes_lab]
    rcases mapRes (maskConstraint d) inst.constraints with cs | er | _
    swap
    · exact .inr (.inr (.inl ⟨er, rfl, rfl⟩))
    swap
    · exact .inr (.inl ⟨rfl, rfl⟩)
    simp only [Res.ok_bind]
    show Run.Alike _ (Run.bind (Run.done (.ok (cs.map (lab ρ)))) _) (Run.bind (Run.done (.ok (cs.map (lab σ)))) _)
    simp only [Run.bind_ok]
    rw [maxDegree_lab, maxDegree_lab, masks_lab, masks_lab]
    refine Run.Alike.bind_same fun cp _ => Run.Alike.bind_same fun size _ => Run.Alike.bind_same fun e _ => ?_
    rw [forEach_batches, forEach_batches, forEach_lab ρ _ (fun _ _ => rfl), forEach_lab σ _ (fun _ _ => rfl)]
    refine Run.Alike.bind_same fun _ _ => Run.Alike.ok ?_
    exact ⟨⟨{ inst with constraints := cs }, _, d, e, _, _, [], factor⟩, cs, rfl, fun z => hdiv d n z (Run.done.inj hn) hd, rfl, rfl⟩
  · rintro a b ⟨V, cs, hrows, hd, rfl, rfl⟩
    apply Run.Alike.of_eq
    have hpart : Verifier.transcriptPart H { V with inst := withDensity ρ V.inst, constraintsBatchedByDensity := (cs.map (lab ρ)).foldl (fun m c => pushBatch c m) [] } proof =
        Verifier.transcriptPart H { V with inst := withDensity σ V.inst, constraintsBatchedByDensity := (cs.map (lab σ)).foldl (fun m c => pushBatch c m) [] } proof := by
      unfold Verifier.transcriptPart
      dsimp only
      simp only [forEach_batches, forEach_map_arg]
      rfl
    have hg : ∀ cc bc y z, Verifier.calculateGAtZWord p { V with inst := withDensity ρ V.inst, constraintsBatchedByDensity := (cs.map (lab ρ)).foldl (fun m c => pushBatch c m) [] } cc bc y z =
        Verifier.calculateGAtZWord p { V with inst := withDensity σ V.inst, constraintsBatchedByDensity := (cs.map (lab σ)).foldl (fun m c => pushBatch c m) [] } cc bc y z := by
      intro cc bc y z
      unfold Verifier.calculateGAtZWord
      dsimp only
      simp only [forEach_batches]
      simp only [show (withDensity ρ V.inst).numRows = inst.numRows from hrows, show (withDensity σ V.inst).numRows = inst.numRows from hrows, hd, forEach_map_arg]
      rfl
    unfold Verifier.verifyMachine Verifier.deriveChallengesWord Verifier.verifyBodyMachine
    simp only [hpart, hg]
    rfl

omit [DecidableEq F] in
theorem newForSizeWord_size {p : Profile} {fuel m : ℕ} (hm : m ≤ 63) {d : Domain F} (h : newForSizeWord p fuel (2 ^ m) = .done (.ok d)) : d.size = 2 ^ m := by
  rcases newForSizeWord_fuel (F := F) p (Nat.pow_le_pow_right (by norm_num) hm : 2 ^ m ≤ 2 ^ 63) fuel with e | e
  · rw [e] at h; cases h
  · rw [e] at h
    obtain ⟨K, -, rfl, e2⟩ := newForSize_inv (Run.done.inj h)
    rw [nextPow2_pow] at e2
    exact e2

omit [StarkField F] in
/-- At a point: a debug build panics, a release build computes the divisor of span zero. -/
theorem divisorAt_wide (d : Domain F) (c : DenseConstraint) (z : F) (hsize : d.size ≤ 2 ^ 63) (h1 : d.size < c.span) (h2 : c.span ≤ 2 ^ 63) :
    densityDivisorAtWord .debug z d d.size (.dense c) = .panic ∧
    densityDivisorAtWord .release z d d.size (.dense c) = densityDivisorAtWord .release z d d.size (.dense ⟨c.startAt, 0⟩) := by
  constructor
  · show inverseDivisorAtWord .debug z d c d.size = .panic
    unfold inverseDivisorAtWord divisorDegreeWord
    unfold subWord
    by_cases h : c.startAt ≤ d.size
    · rw [if_pos h, if_pos le_rfl]
      simp only [Res.ok_bind]
      rw [if_pos (show d.size - d.size ≤ d.size - c.startAt by omega)]
      simp only [Res.ok_bind]
      rw [if_neg (show ¬ c.span ≤ d.size - c.startAt - (d.size - d.size) by omega)]
      rfl
    · rw [if_neg h]
      rfl
  · have tot : ∀ a b, ∃ r, subWord .release a b = .ok r := by
      intro a b
      unfold subWord
      split
      · exact ⟨_, rfl⟩
      · exact ⟨_, rfl⟩
    have dd : ∀ c' : DenseConstraint, ∃ r, divisorDegreeWord .release d.size d.size c' = .ok r := by
      intro c'
      unfold divisorDegreeWord
      obtain ⟨a, ea⟩ := tot d.size c'.startAt
      obtain ⟨b, eb⟩ := tot d.size d.size
      obtain ⟨e, ee⟩ := tot a b
      rw [ea, eb]
      simp only [Res.ok_bind]
      rw [ee]
      exact tot e c'.span
    obtain ⟨r1, e1⟩ := dd c
    obtain ⟨r2, e2⟩ := dd ⟨c.startAt, 0⟩
    show inverseDivisorAtWord .release z d c d.size = inverseDivisorAtWord .release z d ⟨c.startAt, 0⟩ d.size
    unfold inverseDivisorAtWord
    rw [e1, e2]
    dsimp only
    rw [subWord_release (show d.size < 2 ^ 64 by omega), subWord_release (show d.size < 2 ^ 64 by omega),
      show (2 ^ 64 + d.size - c.span) % 2 ^ 64 = 2 ^ 64 + d.size - c.span from Nat.mod_eq_of_lt (by omega),
      show (2 ^ 64 + d.size - 0) % 2 ^ 64 = d.size by rw [Nat.sub_zero, Nat.add_mod_left, Nat.mod_eq_of_lt (by omega)]]
    simp only [Res.ok_bind]
    rw [show d.size - (2 ^ 64 + d.size - c.span) = 0 by omega, show d.size - d.size = 0 by omega]
    rfl

/-- **C92** (a span greater than the trace, in whole runs). Let the number of rows be a power of two, all constraints have first row `s` and a span greater than the number of rows. A release build
behaves in every run of prover and verifier as for span zero, whatever the witness or the proof: it returns the same proofs, errors and verdicts. A debug build never gets a prover, and its verifier
accepts nothing. -/
theorem C92_release_wide_span (w : Worker) (inst : InstanceProperties F) (m s k factor out : ℕ) (hrows : inst.numRows = 2 ^ m) (hk : 2 ^ m < k) (hk2 : k ≤ 2 ^ 63) :
    (∀ fuel witness, (do let q ← Prover.newWord .release fuel w (withDensity (.dense ⟨s, k⟩) inst) factor out; q.proveWord H .release fuel witness) =
      (do let q ← Prover.newWord .release fuel w (withDensity (.dense ⟨s, 0⟩) inst) factor out; q.proveWord H .release fuel witness)) ∧
    (∀ fuel proof, (do let v ← Verifier.newWord .release fuel (withDensity (.dense ⟨s, k⟩) inst) factor; v.verifyMachine H .release fuel proof) =
      (do let v ← Verifier.newWord .release fuel (withDensity (.dense ⟨s, 0⟩) inst) factor; v.verifyMachine H .release fuel proof)) ∧
    (inst.constraints ≠ [] →
      (∀ fuel q, Prover.newWord .debug fuel w (withDensity (.dense ⟨s, k⟩) inst) factor out ≠ .done (.ok q)) ∧
      ∀ fuel proof, (do let v ← Verifier.newWord .debug fuel (withDensity (.dense ⟨s, k⟩) inst) factor; v.verifyMachine H .debug fuel proof) ≠ .done (.ok true)) := by
  have hm : m ≤ 63 := by
    have := hk.le.trans hk2
    exact (Nat.pow_le_pow_iff_right (by norm_num)).1 this
  have h63 : (2 : ℕ) ^ m ≤ 2 ^ 63 := Nat.pow_le_pow_right (by norm_num) hm
  refine ⟨?_, ?_, ?_⟩
  · intro fuel witness
    apply prove_lab
    intro d e hd
    rw [hrows] at hd ⊢
    have hs := newForSizeWord_size hm hd
    have := (C92_release_span d e ⟨s, k⟩ w (by rw [hs]; exact h63) (by rw [hs]; exact hk) hk2).2
    rw [hs] at this
    exact this
  · intro fuel proof
    apply verify_lab
    intro d n z hn hd
    rw [hrows] at hn ⊢
    rw [nextPow2Word_small _ h63, nextPow2_pow] at hn
    cases hn
    have hs := newForSizeWord_size hm hd
    have := (divisorAt_wide d ⟨s, k⟩ z (by rw [hs]; exact h63) (by rw [hs]; exact hk) hk2).2
    rw [hs] at this
    exact this
  · intro hne
    constructor
    · intro fuel q hq
      unfold Prover.newWord at hq
      simp only [Run.bind_def] at hq
      rw [fromInstanceWord_lab] at hq
      obtain ⟨arp', e, hq⟩ := Run.bind_eq_ok hq
      obtain ⟨arp, e0, e'⟩ := Run.bind_eq_ok e
      cases e'
      obtain ⟨ali, hq, -⟩ := Run.bind_eq_ok hq
      have hfacts : arp.numRows = 2 ^ m ∧ arp.constraints ≠ [] := by
        unfold fromInstanceWord at e0
        simp only [Run.bind_def] at e0
        obtain ⟨n, -, e0⟩ := Run.bind_eq_ok e0
        obtain ⟨d, -, e0⟩ := Run.bind_eq_ok e0
        obtain ⟨cs, hcs, e0⟩ := Run.bind_eq_ok e0
        cases e0
        refine ⟨hrows, ?_⟩
        intro h0
        have := mapRes_keeps (Run.done.inj hcs)
        rw [show cs = [] from h0] at this
        exact hne (List.length_eq_zero_iff.1 this.symm)
      unfold AliInstance.fromArpWord at hq
      simp only [Run.bind_def] at hq
      obtain ⟨d, hd, hq⟩ := Run.bind_eq_ok hq
      obtain ⟨size, -, hq⟩ := Run.bind_eq_ok hq
      obtain ⟨e, -, hq⟩ := Run.bind_eq_ok hq
      obtain ⟨pre, -, hq⟩ := Run.bind_eq_ok hq
      obtain ⟨divs, hdivs, hq⟩ := Run.bind_eq_ok hq
      replace hdivs := Run.done.inj hdivs
      replace hd : newForSizeWord .debug fuel arp.numRows = .done (.ok d) := hd
      rw [hfacts.1] at hd
      have hs := newForSizeWord_size hm hd
      rw [show (withDensity (.dense ⟨s, k⟩) arp).constraints = arp.constraints.map (lab (.dense ⟨s, k⟩)) from rfl, forEach_batches, if_neg hfacts.2] at hdivs
      have := (C92_release_span d e ⟨s, k⟩ w (by rw [hs]; exact h63) (by rw [hs]; exact hk) hk2).1
      rw [hs] at this
      rw [show (withDensity (.dense ⟨s, k⟩) arp).numRows = 2 ^ m from hfacts.1] at hdivs
      dsimp only at hdivs
      rw [this] at hdivs
      cases hdivs
    · intro fuel proof hq
      obtain ⟨v, hv, hq⟩ := Run.bind_eq_ok hq
      have hfacts : v.inst.numRows = 2 ^ m ∧ v.columnDomain.size = 2 ^ m ∧ ∃ cs : List (Constraint F), cs ≠ [] ∧ v.constraintsBatchedByDensity = [(.dense ⟨s, k⟩, cs)] := by
        unfold Verifier.newWord at hv
        simp only [Run.bind_def] at hv
        obtain ⟨n, hn, hv⟩ := Run.bind_eq_ok hv
        replace hn : nextPow2Word .debug inst.numRows = .ok n := Run.done.inj hn
        rw [hrows, nextPow2Word_small _ h63, nextPow2_pow] at hn
        cases hn
        obtain ⟨d, hd, hv⟩ := Run.bind_eq_ok hv
        obtain ⟨cs', hcs, hv⟩ := Run.bind_eq_ok hv
        replace hcs : mapRes (maskConstraint d) (inst.constraints.map (lab (.dense ⟨s, k⟩))) = .ok cs' := Run.done.inj hcs
        obtain ⟨cp, -, hv⟩ := Run.bind_eq_ok hv
        obtain ⟨size, -, hv⟩ := Run.bind_eq_ok hv
        obtain ⟨e, -, hv⟩ := Run.bind_eq_ok hv
        obtain ⟨_, -, hv⟩ := Run.bind_eq_ok hv
        cases hv
        rw [mapRes_lab] at hcs
        rcases hcs0 : mapRes (maskConstraint d) inst.constraints with cs | er | _
        · rw [hcs0] at hcs
          cases hcs
          have hlen := mapRes_keeps hcs0
          have hne' : cs ≠ [] := by
            rintro rfl
            exact hne (List.length_eq_zero_iff.1 hlen.symm)
          exact ⟨hrows, newForSizeWord_size hm hd, cs.map (lab (.dense ⟨s, k⟩)), by simpa using hne', batches_labels _ _ hne'⟩
        · rw [hcs0] at hcs; cases hcs
        · rw [hcs0] at hcs; cases hcs
      obtain ⟨hr, hc, cs, hcs, hb⟩ := hfacts
      unfold Verifier.verifyMachine at hq
      simp only [Run.bind_def] at hq
      obtain ⟨⟨ch, fd, gd⟩, -, hq⟩ := Run.bind_eq_ok hq
      dsimp only at hq
      split at hq
      · cases hq
      split at hq
      · cases hq
      unfold Verifier.verifyBodyMachine at hq
      split at hq
      · cases hq
      simp only [Run.bind_def] at hq
      obtain ⟨h1, -, hq⟩ := Run.bind_eq_ok hq
      obtain ⟨g, hg, -⟩ := Run.bind_eq_ok hq
      replace hg := Run.done.inj hg
      unfold Verifier.calculateGAtZWord at hg
      rw [hb] at hg
      have := (divisorAt_wide v.columnDomain ⟨s, k⟩ ch.z (by rw [hc]; exact h63) (by rw [hc]; exact hk) hk2).1
      rw [hc] at this
      obtain ⟨vals, -, hg⟩ := Res.bind_eq_ok.1 hg
      obtain ⟨s', hg, -⟩ := Res.bind_eq_ok.1 hg
      unfold forEach at hg
      dsimp only at hg
      rw [hr, this] at hg
      cases hg

end

/-- The hypotheses of C92_release_wide_span are met by the constant register over four rows with span 5: in a release build every table has the outcome that it has with span zero, and the constant
table gets a proof there. -/
example : (∀ fuel witness, (do let q ← Prover.newWord .release fuel ⟨1, by norm_num⟩ (constantInst 5) 2 1; q.proveWord toyHash .release fuel witness) =
      (do let q ← Prover.newWord .release fuel ⟨1, by norm_num⟩ (constantInst 0) 2 1; q.proveWord toyHash .release fuel witness)) ∧
    (∀ fuel q, Prover.newWord .debug fuel ⟨1, by norm_num⟩ (constantInst 5) 2 1 ≠ .done (.ok q)) ∧
    ∃ proof, (do let q ← Prover.newWord .release 63 ⟨1, by norm_num⟩ (constantInst 0) 2 1; q.proveWord toyHash .release 63 [[5, 5, 5, 5]]) = .done (.ok proof) := by
  have h := C92_release_wide_span toyHash ⟨1, by norm_num⟩ (constantInst 0) 2 0 5 2 1 rfl (by norm_num) (by norm_num)
  refine ⟨h.1, (h.2.2 (by decide)).1, ?_⟩
  have e : builds .release .release 0 0 = .done (.ok true) := C92_builds_differ.1 _ _
  unfold builds at e
  obtain ⟨q, hq, e⟩ := Run.bind_eq_ok e
  obtain ⟨proof, hp, -⟩ := Run.bind_eq_ok e
  exact ⟨proof, by rw [hq]; exact hp⟩

end Hodor

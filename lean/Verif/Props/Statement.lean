import Verif.Spec.Statement
import Verif.Props.Binding
import Verif.Props.ChallengeSchedule
import Verif.Props.MachineVerifier

/-!
# C79: which statements a proof is accepted for
-/

namespace Hodor

open Spec

section
variable {F : Type} [Field F] [DecidableEq F] [StarkField F] (H : List UInt8 → Digest)

omit [Field F] [DecidableEq F] [StarkField F] in
theorem forEach_length {α β σ : Type} (f : σ → Res σ) (l : List α) (l' : List β) (h : l.length = l'.length) (s : σ) :
    forEach l s (fun _ s => f s) = forEach l' s (fun _ s => f s) := by
  induction l generalizing l' s with
  | nil => cases l' with
    | nil => rfl
    | cons => simp at h
  | cons a l ih => cases l' with
    | nil => simp at h
    | cons b l' =>
      simp only [forEach]
      congr 1
      funext t
      exact ih l' (by simpa using h) t

/-- The challenges of a verifier depend on its instance only through the numbers of constraints, boundary constraints and cells read, and the sizes of the domains. -/
theorem derive_shape (v v' : Verifier F) (proof : InstanceProof F)
    (hc : (v.constraintsBatchedByDensity.flatMap (fun b => b.2)).length = (v'.constraintsBatchedByDensity.flatMap (fun b => b.2)).length)
    (hb : v.inst.boundaryConstraints.length = v'.inst.boundaryConstraints.length) (hm : v.allMasks.length = v'.allMasks.length)
    (hd : v.columnDomain.size = v'.columnDomain.size) (hd' : v.constraintsDomain.size = v'.constraintsDomain.size) (hf : v.ldeFactor = v'.ldeFactor) :
    v.deriveChallenges H proof = v'.deriveChallenges H proof := by
  unfold Verifier.deriveChallenges
  simp only [forEach_nested, hd, hd', hf]
  congr 1
  funext t
  rw [forEach_length _ _ _ hc]
  congr 1
  funext s
  rw [forEach_length _ _ _ hb]
  congr 1
  funext s'
  simp only [forEach_length _ _ _ hm]

/-- **C79** (two instances). Let two instances have the same numbers of rows, registers, constraints and boundary constraints, read the same cells, and have the same rounded degree. A proof
accepted for the first is accepted for the second exactly if the two compositions of the claimed values agree at the point `z` (and no row of a boundary constraint of the second is the
point `z`). -/
theorem C79_instances_iff (inst inst' : InstanceProperties F) (n k factor : ℕ) (h : Verifiable inst n k) (h' : Verifiable inst' n k) (v v' : Verifier F)
    (hv : Verifier.new inst factor = .ok v) (hv' : Verifier.new inst' factor = .ok v')
    (hc : inst.constraints.length = inst'.constraints.length) (hb : inst.boundaryConstraints.length = inst'.boundaryConstraints.length)
    (hm : v.allMasks = v'.allMasks) (hd : v.constraintsDomain.size = v'.constraintsDomain.size)
    (proof : InstanceProof F) (ha : v.verify H proof = .ok true) (ch : Challenges F) (d1 d2 : Domain F)
    (hch : v.deriveChallenges H proof = .ok (ch, d1, d2)) :
    v'.verify H proof = .ok true ↔
      (∀ b ∈ inst'.boundaryConstraints, ch.z ≠ v'.columnDomain.generator ^ b.atRow) ∧
      compositionAt v'.columnDomain.generator inst'.numRows v'.maxConstraintPower (claimedEnv v.allMasks proof.fAtZM)
        ((v'.constraintsBatchedByDensity.flatMap (fun b => b.2)).zip ch.constraintChallenges)
        (inst'.boundaryConstraints.zip ch.boundaryChallenges) ch.z =
      compositionAt v.columnDomain.generator inst.numRows v.maxConstraintPower (claimedEnv v.allMasks proof.fAtZM)
        ((v.constraintsBatchedByDensity.flatMap (fun b => b.2)).zip ch.constraintChallenges)
        (inst.boundaryConstraints.zip ch.boundaryChallenges) ch.z := by
  have b := h.built hv
  have b' := h'.built hv'
  have p : (v.constraintsBatchedByDensity.flatMap (fun b => b.2)).length = inst.constraints.length := by
    rw [b.batches, (batchesOf_perm _).length_eq]; simp [arpOf]
  have p' : (v'.constraintsBatchedByDensity.flatMap (fun b => b.2)).length = inst'.constraints.length := by
    rw [b'.batches, (batchesOf_perm _).length_eq]; simp [arpOf]
  have i1 : v.inst.boundaryConstraints = inst.boundaryConstraints := by rw [b.props]; rfl
  have i1' : v'.inst.boundaryConstraints = inst'.boundaryConstraints := by rw [b'.props]; rfl
  have i2 : v.inst.numRows = inst.numRows := by rw [b.props]; rfl
  have i2' : v'.inst.numRows = inst'.numRows := by rw [b'.props]; rfl
  have i3 : v.inst.numRegisters = v'.inst.numRegisters := by
    rw [b.props, b'.props]; exact h.registers.trans h'.registers.symm
  have i4 : v.inst.constraints.length = inst.constraints.length := by rw [b.props]; simp [arpOf]
  have i4' : v'.inst.constraints.length = inst'.constraints.length := by rw [b'.props]; simp [arpOf]
  have hcol : v.columnDomain = v'.columnDomain := by rw [b.column, b'.column]
  have hch' : v'.deriveChallenges H proof = .ok (ch, d1, d2) := by
    rw [← hch]
    refine (derive_shape H v v' proof ?_ ?_ ?_ ?_ hd ?_).symm
    · rw [p, p', hc]
    · rw [i1, i1', hb]
    · rw [hm]
    · rw [hcol]
    · rw [b.factor, b'.factor]
  obtain ⟨ch0, e1, e2, hc0, a⟩ := (C54_verify_iff H inst n k factor h v hv proof).1 ha
  rw [hch] at hc0
  cases hc0
  have hp : d2.generator ^ ch.idx2 - ch.z ≠ 0 := sub_ne_zero.2 a.poles.2.1
  have hne : v'.inst.constraints ≠ [] → v.inst.constraints ≠ [] := by
    intro h1 h2
    apply h1
    rw [← List.length_eq_zero_iff, i4', ← hc, ← i4, h2]; rfl
  rw [C54_verify_iff H inst' n k factor h' v' hv']
  rw [← i1, ← i1', ← i2, ← i2']
  constructor
  · rintro ⟨c', d1', d2', hc', bb⟩
    rw [hch'] at hc'
    cases hc'
    refine ⟨bb.poles.2.2.2, ?_⟩
    have := fri_value_unique H _ _ _ _ bb.h2 a.h2
    rw [div_left_inj' hp] at this
    rw [hm]
    rw [hm] at this
    exact sub_right_injective this
  · rintro ⟨h1, h2⟩
    refine ⟨ch, d1, d2, hch', ⟨i3 ▸ a.counts, a.registers, a.g, hm ▸ a.claims, ⟨hm ▸ a.poles.1, a.poles.2.1, fun hn => hcol ▸ a.poles.2.2.1 (hne hn), h1⟩, ?_, ?_⟩⟩
    · rw [← hm]; exact a.h1
    · rw [← hm, h2]; exact a.h2

/-! ### Other boundary values -/

omit [Field F] [DecidableEq F] [StarkField F] in
theorem zipWith_fields {γ : Type} (f : Register → ℕ → γ) (bs : List (BoundaryConstraint F)) (vals : List F) (hl : vals.length = bs.length) :
    (List.zipWith (fun (b : BoundaryConstraint F) x => { b with value := some x }) bs vals).map (fun b => f b.register b.atRow) = bs.map (fun b => f b.register b.atRow) := by
  induction bs generalizing vals with
  | nil => rfl
  | cons b bs ih => cases vals with
    | nil => simp at hl
    | cons x vals =>
      simp only [List.zipWith_cons_cons, List.map_cons]
      rw [ih vals (by simpa using hl)]

omit [Field F] [DecidableEq F] [StarkField F] in
theorem foldl_register {γ : Type} (f : γ → Register → γ) (bs : List (BoundaryConstraint F)) (vals : List F) (hl : vals.length = bs.length) (s : γ) :
    (List.zipWith (fun (b : BoundaryConstraint F) x => { b with value := some x }) bs vals).foldl (fun s b => f s b.register) s = bs.foldl (fun s b => f s b.register) s := by
  have := congrArg (List.foldl f s) (zipWith_fields (fun r _ => r) bs vals hl)
  rwa [List.foldl_map, List.foldl_map] at this

/-- The verifier for other boundary values differs in these only. -/
theorem new_withValues (inst : InstanceProperties F) (factor : ℕ) (v : Verifier F) (hv : Verifier.new inst factor = .ok v) (vals : List F)
    (hl : vals.length = inst.boundaryConstraints.length) :
    Verifier.new (withValues inst vals) factor = .ok { v with inst := withValues v.inst vals } := by
  rw [new_eq] at hv ⊢
  obtain ⟨d1, e1, hv⟩ := Res.bind_eq_ok.1 hv
  obtain ⟨cs, e2, hv⟩ := Res.bind_eq_ok.1 hv
  obtain ⟨d2, e3, hv⟩ := Res.bind_eq_ok.1 hv
  cases hv
  show (do
    let d1 ← Domain.newForSize F (nextPow2 inst.numRows)
    let cs ← mapRes (maskConstraint d1) inst.constraints
    let d2 ← Domain.newForSize F (nextPow2 (maxDegree cs) * nextPow2 inst.numRows)
    pure (setupRest (withValues inst vals) factor cs d1 d2)) = _
  rw [e1]
  simp only [Res.ok_bind, e2, e3]
  unfold setupRest
  have m1 := foldl_register (fun s r => insertSet s ({ register := r, stepsDifference := .mask 1 } : MaskProperties F)) inst.boundaryConstraints vals hl
    (cs.foldl getMasksFromConstraint [])
  have m2 := foldl_register (fun s r => insertSet s r) inst.boundaryConstraints vals hl []
  have m1' : (withValues inst vals).boundaryConstraints.foldl getMaskFromBoundaryConstraint (cs.foldl getMasksFromConstraint []) =
      inst.boundaryConstraints.foldl getMaskFromBoundaryConstraint (cs.foldl getMasksFromConstraint []) := m1
  have m2' : (withValues inst vals).boundaryConstraints.foldl (fun s b => insertSet s b.register) [] =
      inst.boundaryConstraints.foldl (fun s b => insertSet s b.register) [] := m2
  rw [m1', m2']
  rfl

theorem Spec.Verifiable.withValues {inst : InstanceProperties F} {n k : ℕ} (h : Verifiable inst n k) (vals : List F)
    (hl : vals.length = inst.boundaryConstraints.length) : Verifiable (Spec.withValues inst vals) n k where
  rows := h.rows
  registers := h.registers
  reads := h.reads
  density := h.density
  boundary := by
    intro b hb
    obtain ⟨i, hi, rfl⟩ := List.getElem_of_mem hb
    simp only [Spec.withValues, List.length_zipWith, hl, min_self] at hi
    simp only [Spec.withValues, List.getElem_zipWith]
    exact ⟨(h.boundary _ (List.getElem_mem hi)).1, _, rfl⟩
  degree := by
    intro hne
    apply h.degree
    intro h0
    apply hne
    simp [Spec.withValues, h0]

omit [DecidableEq F] [StarkField F] in
theorem composition_withValues (g : F) (T D : ℕ) (e : Env F) (cs : List (Constraint F × F × F)) (bs : List (BoundaryConstraint F)) (bc : List (F × F)) (vals : List F)
    (hl : vals.length = bs.length) (hb : bc.length = bs.length) (x : F) :
    compositionAt g T D e cs ((List.zipWith (fun (b : BoundaryConstraint F) y => { b with value := some y }) bs vals).zip bc) x =
      compositionAt g T D e cs (bs.zip bc) x - compositionShift g D x (bs.zip bc) vals := by
  unfold compositionAt compositionShift
  rw [add_sub_assoc]
  congr 1
  induction bs generalizing vals bc with
  | nil => simp
  | cons b bs ih => cases vals with
    | nil => simp at hl
    | cons y vals => cases bc with
      | nil => simp at hb
      | cons c bc =>
        simp only [List.zipWith_cons_cons, List.zip_cons_cons, List.map_cons, List.sum_cons]
        rw [ih bc vals (by simpa using hl) (by simpa using hb)]
        simp only [boundaryFactor, Option.getD_some]
        ring

/-- **C79** (other inputs and outputs). Let a proof be accepted for an instance, with the point `z` and the weights that the verifier derives. It is accepted for the same instance with
the boundary values `vals` exactly if the differences of the values, each multiplied by the factor of its constraint, add up to zero. The challenges do not depend on the values. -/
theorem C79_values_iff (inst : InstanceProperties F) (n k factor : ℕ) (h : Verifiable inst n k) (v : Verifier F) (hv : Verifier.new inst factor = .ok v)
    (proof : InstanceProof F) (ha : v.verify H proof = .ok true) (ch : Challenges F) (d1 d2 : Domain F)
    (hch : v.deriveChallenges H proof = .ok (ch, d1, d2)) (vals : List F) (hl : vals.length = inst.boundaryConstraints.length) :
    ∃ v', Verifier.new (withValues inst vals) factor = .ok v' ∧ (∀ p, v'.deriveChallenges H p = v.deriveChallenges H p) ∧
      (v'.verify H proof = .ok true ↔
        compositionShift v.columnDomain.generator v.maxConstraintPower ch.z (inst.boundaryConstraints.zip ch.boundaryChallenges) vals = 0) := by
  have hv' := new_withValues inst factor v hv vals hl
  have b := h.built hv
  have i1 : v.inst.boundaryConstraints = inst.boundaryConstraints := by rw [b.props]; rfl
  have hlen : (withValues inst vals).boundaryConstraints.length = inst.boundaryConstraints.length := by simp [withValues, hl]
  refine ⟨_, hv', fun p => ?_, ?_⟩
  · refine derive_shape H _ v p rfl ?_ rfl rfl rfl rfl
    show (List.zipWith _ v.inst.boundaryConstraints vals).length = _
    simp [i1, hl]
  · rw [C79_instances_iff H inst (withValues inst vals) n k factor h (h.withValues vals hl) v _ hv hv' rfl hlen.symm rfl rfl proof ha ch d1 d2 hch]
    obtain ⟨ch0, e1, e2, hc0, a⟩ := (C54_verify_iff H inst n k factor h v hv proof).1 ha
    rw [hch] at hc0
    cases hc0
    have hbc : ch.boundaryChallenges.length = inst.boundaryConstraints.length := by
      rw [(derive_inv H hch).2.1, i1]
    have hp : ∀ b ∈ (withValues inst vals).boundaryConstraints, ch.z ≠ v.columnDomain.generator ^ b.atRow := by
      intro b hb
      obtain ⟨i, hi, rfl⟩ := List.getElem_of_mem hb
      rw [hlen] at hi
      simp only [withValues, List.getElem_zipWith]
      exact a.poles.2.2.2 _ (by rw [i1]; exact List.getElem_mem hi)
    rw [and_iff_right hp]
    show compositionAt _ inst.numRows v.maxConstraintPower _ _ ((List.zipWith _ inst.boundaryConstraints vals).zip ch.boundaryChallenges) ch.z = _ ↔ _
    rw [composition_withValues _ _ _ _ _ _ _ _ hl hbc, sub_eq_self]

/-! ### How many statements -/

omit [DecidableEq F] [StarkField F] in
/-- The composition's fall as a sum over the boundary constraints. -/
theorem shift_eq_sum (g : F) (D : ℕ) (x : F) (bs : List (BoundaryConstraint F × F × F)) (vals : List F) (hl : vals.length = bs.length) :
    compositionShift g D x bs vals = ∑ i : Fin bs.length, (vals.getD i 0 - (bs[i]).1.value.getD 0) * boundaryFactor g D x bs[i] := by
  unfold compositionShift
  rw [← List.sum_ofFn]
  congr 1
  apply List.ext_getElem
  · simp [hl]
  · intro i h1 h2
    have hi : i < vals.length := by simp only [List.length_map, List.length_zip] at h1; omega
    simp [hi]

theorem card_solutions [Fintype F] {m : ℕ} (a c : Fin m → F) :
    Nat.card {x : Fin m → F // ∑ i, (x i - c i) * a i = 0} = if ∃ i, a i ≠ 0 then Fintype.card F ^ (m - 1) else Fintype.card F ^ m := by
  classical
  split
  · rename_i h
    obtain ⟨j, hj⟩ := h
    have hm : 0 < m := Fin.pos j
    let φ : (Fin m → F) → F := fun x => ∑ i, (x i - c i) * a i
    have hφ : ∀ x s, φ (x + Pi.single j s) = φ x + s * a j := by
      intro x s
      have : ∀ i, ((x + Pi.single j s : Fin m → F) i - c i) * a i = (x i - c i) * a i + (if i = j then s * a j else 0) := by
        intro i
        rw [Pi.add_apply]
        by_cases hi : i = j
        · subst hi; rw [Pi.single_eq_same, if_pos rfl]; ring
        · rw [Pi.single_eq_of_ne hi, if_neg hi]; ring
      show ∑ i, _ = _
      rw [Finset.sum_congr rfl (fun i _ => this i), Finset.sum_add_distrib, Finset.sum_ite_eq' Finset.univ j]
      simp [φ]
    let e : {x : Fin m → F // φ x = 0} × F ≃ (Fin m → F) :=
      { toFun := fun p => p.1.1 + Pi.single j p.2
        invFun := fun y => (⟨y + Pi.single j (-(φ y / a j)), by rw [hφ]; field_simp; ring⟩, φ y / a j)
        left_inv := by
          rintro ⟨⟨x, hx⟩, s⟩
          have h1 : φ (x + Pi.single j s) / a j = s := by rw [hφ, hx, zero_add, mul_div_assoc, div_self hj, mul_one]
          simp only [h1, Prod.mk.injEq, Subtype.mk.injEq, and_true]
          rw [add_assoc, ← Pi.single_add, add_neg_cancel, Pi.single_zero, add_zero]
        right_inv := by
          intro y
          simp only
          rw [add_assoc, ← Pi.single_add, neg_add_cancel, Pi.single_zero, add_zero] }
    have h1 := Nat.card_congr e
    rw [Nat.card_prod, Nat.card_eq_fintype_card (α := F), Nat.card_eq_fintype_card (α := Fin m → F), Fintype.card_fun, Fintype.card_fin] at h1
    have h2 : Fintype.card F ^ m = Fintype.card F ^ (m - 1) * Fintype.card F := by rw [← pow_succ, Nat.sub_add_cancel hm]
    rw [h2] at h1
    exact Nat.eq_of_mul_eq_mul_right Fintype.card_pos h1
  · rename_i h
    have h0 : ∀ i, a i = 0 := fun i => by by_contra hi; exact h ⟨i, hi⟩
    have : ∀ x : Fin m → F, ∑ i, (x i - c i) * a i = 0 := fun x => Finset.sum_eq_zero fun i _ => by rw [h0 i, mul_zero]
    rw [Nat.card_congr (Equiv.subtypeUnivEquiv this), Nat.card_eq_fintype_card, Fintype.card_fun, Fintype.card_fin]

/-- **C79** (how many statements). One proof accepted for an instance with `m` boundary constraints is accepted for `|F|^(m-1)` choices of the boundary values if the factor of some
boundary constraint is not zero, and for all `|F|^m` otherwise. -/
theorem C79_count [Fintype F] (inst : InstanceProperties F) (n k factor : ℕ) (h : Verifiable inst n k) (v : Verifier F) (hv : Verifier.new inst factor = .ok v)
    (proof : InstanceProof F) (ha : v.verify H proof = .ok true) (ch : Challenges F) (d1 d2 : Domain F)
    (hch : v.deriveChallenges H proof = .ok (ch, d1, d2)) (m : ℕ) (hm : inst.boundaryConstraints.length = m) :
    Nat.card {vals : Fin m → F // ∃ v', Verifier.new (withValues inst (List.ofFn vals)) factor = .ok v' ∧ v'.verify H proof = .ok true} =
      if ∃ b ∈ inst.boundaryConstraints.zip ch.boundaryChallenges, boundaryFactor v.columnDomain.generator v.maxConstraintPower ch.z b ≠ 0
      then Fintype.card F ^ (m - 1) else Fintype.card F ^ m := by
  have b := h.built hv
  have i1 : v.inst.boundaryConstraints = inst.boundaryConstraints := by rw [b.props]; rfl
  have hz : (inst.boundaryConstraints.zip ch.boundaryChallenges).length = m := by
    rw [List.length_zip, (derive_inv H hch).2.1, i1, min_self, hm]
  subst hz
  set bs := inst.boundaryConstraints.zip ch.boundaryChallenges with hbs
  have key : ∀ vals : Fin bs.length → F, (∃ v', Verifier.new (withValues inst (List.ofFn vals)) factor = .ok v' ∧ v'.verify H proof = .ok true) ↔
      ∑ i, (vals i - (bs[i]).1.value.getD 0) * boundaryFactor v.columnDomain.generator v.maxConstraintPower ch.z bs[i] = 0 := by
    intro vals
    obtain ⟨v', e1, -, e2⟩ := C79_values_iff H inst n k factor h v hv proof ha ch d1 d2 hch (List.ofFn vals) (by rw [List.length_ofFn, hm])
    rw [shift_eq_sum _ _ _ _ _ (by rw [List.length_ofFn])] at e2
    have e3 : ∀ i : Fin bs.length, (List.ofFn vals).getD i 0 = vals i := by intro i; simp
    simp only [e3] at e2
    rw [← e2]
    constructor
    · rintro ⟨v'', e4, e5⟩
      rw [e1] at e4
      cases e4
      exact e5
    · exact fun e5 => ⟨v', e1, e5⟩
  rw [Nat.card_congr (Equiv.subtypeEquivRight key), card_solutions]
  congr 1
  apply propext
  constructor
  · rintro ⟨i, hi⟩
    exact ⟨_, List.getElem_mem i.2, hi⟩
  · rintro ⟨q, hq, hne⟩
    obtain ⟨i, hi, rfl⟩ := List.getElem_of_mem hq
    exact ⟨⟨i, hi⟩, hne⟩

/-- The values of the boundary constraints. -/
def boundaryValues (inst : InstanceProperties F) : List F := inst.boundaryConstraints.map (fun b => b.value.getD 0)

/-- **C79** (one value changed, two values changed). With the factor of boundary constraint `i` not zero, an accepted proof is not accepted with another value in constraint `i` alone. But
for every value in another constraint `j` there is exactly one in constraint `i` with which it is accepted. -/
theorem C79_change (inst : InstanceProperties F) (n k factor : ℕ) (h : Verifiable inst n k) (v : Verifier F) (hv : Verifier.new inst factor = .ok v)
    (proof : InstanceProof F) (ha : v.verify H proof = .ok true) (ch : Challenges F) (d1 d2 : Domain F)
    (hch : v.deriveChallenges H proof = .ok (ch, d1, d2)) (i : ℕ) (q : BoundaryConstraint F × F × F)
    (hi : (inst.boundaryConstraints.zip ch.boundaryChallenges)[i]? = some q)
    (hq : boundaryFactor v.columnDomain.generator v.maxConstraintPower ch.z q ≠ 0) :
    (∀ x, (∃ v', Verifier.new (withValues inst ((boundaryValues inst).set i x)) factor = .ok v' ∧ v'.verify H proof = .ok true) ↔ x = q.1.value.getD 0) ∧
    ∀ j y, j ≠ i → ∃! x, ∃ v',
      Verifier.new (withValues inst (((boundaryValues inst).set j y).set i x)) factor = .ok v' ∧ v'.verify H proof = .ok true := by
  have b := h.built hv
  have i1 : v.inst.boundaryConstraints = inst.boundaryConstraints := by rw [b.props]; rfl
  have hz : (inst.boundaryConstraints.zip ch.boundaryChallenges).length = inst.boundaryConstraints.length := by
    rw [List.length_zip, (derive_inv H hch).2.1, i1, min_self]
  set bs := inst.boundaryConstraints.zip ch.boundaryChallenges with hbs
  obtain ⟨hi', rfl⟩ := List.getElem?_eq_some_iff.1 hi
  set φ := fun i : Fin bs.length => boundaryFactor v.columnDomain.generator v.maxConstraintPower ch.z bs[i] with hφ
  -- acceptance with the values `l`, value `i` replaced
  have key : ∀ (l : List F) (x : F), l.length = inst.boundaryConstraints.length →
      ((∃ v', Verifier.new (withValues inst (l.set i x)) factor = .ok v' ∧ v'.verify H proof = .ok true) ↔
        (x - (bs[i]).1.value.getD 0) * φ ⟨i, hi'⟩ +
          ∑ r ∈ Finset.univ.erase (⟨i, hi'⟩ : Fin bs.length), (l.getD r 0 - (bs[r]).1.value.getD 0) * φ r = 0) := by
    intro l x hl
    obtain ⟨v', e1, -, e2⟩ := C79_values_iff H inst n k factor h v hv proof ha ch d1 d2 hch (l.set i x) (by rw [List.length_set, hl])
    rw [shift_eq_sum _ _ _ _ _ (by rw [List.length_set, hl, hz]), ← Finset.add_sum_erase _ _ (Finset.mem_univ (⟨i, hi'⟩ : Fin bs.length))] at e2
    have e3 : ((l.set i x).getD i 0) = x := by
      rw [List.getD_eq_getElem?_getD, List.getElem?_set_self (by omega)]; rfl
    have e4 : ∀ r ∈ Finset.univ.erase (⟨i, hi'⟩ : Fin bs.length), (l.set i x).getD r 0 = l.getD r 0 := by
      intro r hr
      have : i ≠ r := fun e => (Finset.mem_erase.1 hr).1 (Fin.ext e.symm)
      rw [List.getD_eq_getElem?_getD, List.getElem?_set_ne this, List.getD_eq_getElem?_getD]
    rw [Finset.sum_congr rfl (fun r hr => by rw [e4 r hr])] at e2
    dsimp only at e2
    rw [e3] at e2
    refine Iff.trans ?_ e2
    constructor
    · rintro ⟨v'', e5, e6⟩
      rw [e1] at e5
      cases e5
      exact e6
    · exact fun e6 => ⟨v', e1, e6⟩
  have old : ∀ r : Fin bs.length, (boundaryValues inst).getD r 0 = (bs[r]).1.value.getD 0 := by
    intro r
    have hr : (r : ℕ) < inst.boundaryConstraints.length := by omega
    have e : (bs[r]).1 = inst.boundaryConstraints[(r : ℕ)] := by simp [hbs]
    rw [e, boundaryValues, List.getD_eq_getElem?_getD, List.getElem?_map, List.getElem?_eq_getElem hr]
    rfl
  have hq' : φ ⟨i, hi'⟩ ≠ 0 := hq
  refine ⟨fun x => ?_, fun j y _ => ?_⟩
  · rw [key _ _ (by simp [boundaryValues]), Finset.sum_eq_zero (fun r _ => by rw [old, sub_self, zero_mul]), add_zero, mul_eq_zero, or_iff_left hq', sub_eq_zero]
  · set S := ∑ r ∈ Finset.univ.erase (⟨i, hi'⟩ : Fin bs.length), (((boundaryValues inst).set j y).getD r 0 - (bs[r]).1.value.getD 0) * φ r with hS
    refine ⟨(bs[i]).1.value.getD 0 - S / φ ⟨i, hi'⟩, ?_, ?_⟩
    · simp only
      rw [key _ _ (by simp [boundaryValues]), ← hS]
      field_simp
      ring
    · intro x hx
      rw [key _ _ (by simp [boundaryValues]), ← hS] at hx
      field_simp
      linear_combination hx

end

/-! ### Concrete cases -/

/-- The Fibonacci computation over four rows: the registers start with 1 and 1, and the second ends with 5. -/
def fibClaim : InstanceProperties Fr :=
  { fibInst Fr 2 1 1 with boundaryConstraints := [⟨.register 0, 0, some 1⟩, ⟨.register 1, 0, some 1⟩, ⟨.register 1, 3, some 5⟩] }

/-- The honest proof for `fibClaim`, verified for other boundary values. -/
def verifyAs (vals : List Fr) : Res Bool := do
  let prover ← Prover.new ⟨1, by norm_num⟩ fibClaim 2 1
  let proof ← prover.prove toyHash [[1, 1, 2, 3], [1, 2, 3, 5]]
  let v ← Verifier.new (withValues fibClaim vals) 2
  v.verify toyHash proof

/-- **C79** (a false statement). The honest proof that the computation started with 1 and 1 ends with 5 is accepted as a proof that, started with 2 and 1, it ends with 58. No
trace satisfies that statement (the end would be 7). -/
theorem C79_false_statement : isSatisfied fibClaim [[1, 1, 2, 3], [1, 2, 3, 5]] = .ok () ∧ verifyAs [1, 1, 5] = .ok true ∧ verifyAs [2, 1, 58] = .ok true ∧
    (∀ trace, ¬ Satisfies (withValues fibClaim [2, 1, 58]) trace (2 ^ 2)) ∧ verifyAs [1, 1, 58] = .ok false := by
  refine ⟨by decide +kernel, by decide +kernel, by decide +kernel, ?_, by decide +kernel⟩
  intro trace hs
  have step0 : ∀ row, row + 1 < 4 → trace (.register 0) (row + 1) = trace (.register 1) row := by
    intro row hrow
    have := (hs.1 (fibConstraint0 (.register 0) (.register 1)) (by simp [withValues, fibClaim, fibInst]) row ⟨⟨0, 1⟩, rfl, Nat.zero_le _, hrow⟩).2
    rw [fibConstraint0_value] at this
    exact sub_eq_zero.1 this
  have step1 : ∀ row, row + 1 < 4 → trace (.register 1) (row + 1) = trace (.register 0) row + trace (.register 1) row := by
    intro row hrow
    have := (hs.1 (fibConstraint1 (.register 0) (.register 1)) (by simp [withValues, fibClaim, fibInst]) row ⟨⟨0, 1⟩, rfl, Nat.zero_le _, hrow⟩).2
    rw [fibConstraint1_value] at this
    have h2 : trace (.register 1) (row + 1) - trace (.register 0) row - trace (.register 1) row = 0 := this
    linear_combination h2
  have b0 : trace (.register 0) 0 = 2 := hs.2 ⟨.register 0, 0, some 2⟩ (by simp [withValues, fibClaim]) 2 rfl
  have b1 : trace (.register 1) 0 = 1 := hs.2 ⟨.register 1, 0, some 1⟩ (by simp [withValues, fibClaim]) 1 rfl
  have b2 : trace (.register 1) 3 = 58 := hs.2 ⟨.register 1, 3, some 58⟩ (by simp [withValues, fibClaim]) 58 rfl
  have r01 := step0 0 (by norm_num)
  have r11 := step1 0 (by norm_num)
  have r02 := step0 1 (by norm_num)
  have r12 := step1 1 (by norm_num)
  have r13 := step1 2 (by norm_num)
  simp only [Nat.zero_add, Nat.reduceAdd] at r01 r11 r02 r12 r13
  rw [r13, r02, r12, r01, r11, b0, b1] at b2
  exact absurd b2 (by decide)

/-- The hypotheses of the theorems on boundary values: the instance is verifiable, its honest proof is accepted (above), and no factor is zero. -/
theorem fibClaim_verifiable : Verifiable fibClaim 2 2 where
  rows := ⟨le_refl _, fun j hj => by
    by_contra h
    have : 2 ^ j ≤ 2 ^ 1 := Nat.pow_le_pow_right (by norm_num) (by omega)
    have h4 : fibClaim.numRows = 4 := rfl
    omega⟩
  registers := rfl
  reads := by
    intro c hc u hu
    obtain ⟨h1, j, -, h2⟩ := fibFactors (F := Fr) hc hu
    exact ⟨h1, j, h2⟩
  density := by
    intro c hc
    simp only [fibClaim, fibInst, List.mem_cons, List.not_mem_nil, or_false] at hc
    rcases hc with rfl | rfl
    · exact ⟨⟨0, 1⟩, rfl, by decide⟩
    · exact ⟨⟨0, 1⟩, rfl, by decide⟩
  boundary := by
    intro b hb
    simp only [fibClaim, List.mem_cons, List.not_mem_nil, or_false] at hb
    rcases hb with rfl | rfl | rfl
    · exact ⟨⟨0, by norm_num, rfl⟩, _, rfl⟩
    · exact ⟨⟨1, by norm_num, rfl⟩, _, rfl⟩
    · exact ⟨⟨1, by norm_num, rfl⟩, _, rfl⟩
  degree := fun _ => ⟨_, List.mem_cons_self, le_refl _⟩

/-- The factors of the three boundary constraints in this run. -/
def factorsOfRun : Res (List Fr) := do
  let prover ← Prover.new ⟨1, by norm_num⟩ fibClaim 2 1
  let proof ← prover.prove toyHash [[1, 1, 2, 3], [1, 2, 3, 5]]
  let v ← Verifier.new fibClaim 2
  let (ch, _, _) ← v.deriveChallenges toyHash proof
  pure ((fibClaim.boundaryConstraints.zip ch.boundaryChallenges).map (fun b =>
    weightAt (v.maxConstraintPower - 1) b.2 ch.z * (ch.z - v.columnDomain.generator ^ b.1.atRow)))

/-- None is zero: the weights and differences are not (shown with a product in place of the quotient). -/
example : ∃ l, factorsOfRun = .ok l ∧ l.length = 3 ∧ 0 ∉ l := by
  have h : (match factorsOfRun with | .ok l => decide (l.length = 3 ∧ 0 ∉ l) | _ => false) = true := by decide +kernel
  cases e : factorsOfRun with
  | ok l => rw [e] at h; exact ⟨l, rfl, of_decide_eq_true h⟩
  | err x => rw [e] at h; cases h
  | panic => rw [e] at h; cases h

end Hodor

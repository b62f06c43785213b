import Verif.Props.Trace

/-!
# C36: the calls made on a trace system and what the converted instance records of them
-/

namespace Hodor

namespace Spec

variable {F : Type}

/-- One call of the interface of a trace system (`src/air/test_trace_system.rs` 38-156 and 268-298). -/
inductive TraceCall (F : Type) where
  | allocateRegister
  | allocateConstantRegister
  | allocateAuxRegister
  | addConstraint (c : Constraint F)
  | addConstraintWithWitness (c : Constraint F) (g : List (List F) → ℕ → Res (List (F × Register × ℕ)))
  | addBoundaryConstraint (r : Register) (atStep : ℕ) (v : Option F)
  | step (n : ℕ)
  | calculateWitness (a b n : ℕ)

/-- The constraint a call asks for, if it asks for one. -/
def TraceCall.constraint? : TraceCall F → Option (Constraint F)
  | .addConstraint c => some c
  | .addConstraintWithWitness c _ => some c
  | _ => none

/-- The boundary constraint a call asks for, if it asks for one. -/
def TraceCall.boundary? : TraceCall F → Option (BoundaryConstraint F)
  | .addBoundaryConstraint r i v => some { register := r, atRow := i, value := v }
  | _ => none

/-- The number of steps a call moves the system by. -/
def TraceCall.moves : TraceCall F → ℕ
  | .step n => n
  | .calculateWitness _ _ n => n
  | _ => 0

end Spec

open Spec

section
variable {F : Type} [Field F]

/-- The call, made on a trace system. -/
def Spec.TraceCall.run (t : TraceSystem F) : TraceCall F → Res (TraceSystem F)
  | .allocateRegister => .ok t.allocateRegister.2
  | .allocateConstantRegister => .ok t.allocateConstantRegister.2
  | .allocateAuxRegister => .ok t.allocateAuxRegister.2
  | .addConstraint c => .ok (t.addConstraint c)
  | .addConstraintWithWitness c g => .ok (t.addConstraintWithWitness c g)
  | .addBoundaryConstraint r i v => .ok (t.addBoundaryConstraint r i v)
  | .step n => t.step n
  | .calculateWitness a b n => t.calculateWitness a b n

/-- The calls one after the other; the first that fails ends the run. -/
def Spec.runCalls : List (TraceCall F) → TraceSystem F → Res (TraceSystem F)
  | [], t => .ok t
  | c :: l, t => do
    let t ← c.run t
    runCalls l t

theorem runStep_count (gens : List (List (List F) → ℕ → Res (List (F × Register × ℕ)))) (n i : ℕ) (s s' : List (List F) × ℕ)
    (h : forN n i s (TraceSystem.runStep gens) = .ok s') : s'.2 = s.2 + n := by
  induction n generalizing i s with
  | zero => cases h; rfl
  | succ n ih =>
    simp only [forN, TraceSystem.runStep] at h
    cases e : forEach gens s.1 (TraceSystem.runGenerator i s.2) with
    | ok rows =>
      rw [e] at h
      have := ih _ _ h
      simp only at this
      omega
    | err x => rw [e] at h; cases h
    | panic => rw [e] at h; cases h

theorem calculateWitness_keeps {t t' : TraceSystem F} {a b n : ℕ} (h : t.calculateWitness a b n = .ok t') :
    t'.constraints = t.constraints ∧ t'.boundaryConstraints = t.boundaryConstraints ∧ t'.currentStep = t.currentStep + n := by
  unfold TraceSystem.calculateWitness at h
  obtain ⟨r0, -, h⟩ := Res.bind_eq_ok.1 h
  obtain ⟨r1, -, h⟩ := Res.bind_eq_ok.1 h
  obtain ⟨r2, -, h⟩ := Res.bind_eq_ok.1 h
  obtain ⟨r3, -, h⟩ := Res.bind_eq_ok.1 h
  obtain ⟨⟨rows, cs⟩, h4, h⟩ := Res.bind_eq_ok.1 h
  cases h
  exact ⟨rfl, rfl, runStep_count _ _ _ _ _ h4⟩

theorem run_call {t t' : TraceSystem F} {c : TraceCall F} (h : c.run t = .ok t') :
    t'.constraints = t.constraints ++ c.constraint?.toList ∧
    t'.boundaryConstraints = t.boundaryConstraints ++ c.boundary?.toList ∧ t'.currentStep = t.currentStep + c.moves := by
  cases c with
  | step n =>
    simp only [TraceCall.run, TraceSystem.step] at h
    split at h
    · cases h
    · cases h
      exact ⟨(List.append_nil _).symm, (List.append_nil _).symm, rfl⟩
  | calculateWitness a b n =>
    obtain ⟨h1, h2, h3⟩ := calculateWitness_keeps (a := a) (b := b) h
    exact ⟨by rw [h1]; exact (List.append_nil _).symm, by rw [h2]; exact (List.append_nil _).symm, h3⟩
  | addConstraint c => cases h; exact ⟨rfl, (List.append_nil _).symm, rfl⟩
  | addConstraintWithWitness c g => cases h; exact ⟨rfl, (List.append_nil _).symm, rfl⟩
  | addBoundaryConstraint r i v => cases h; exact ⟨(List.append_nil _).symm, rfl, rfl⟩
  | _ => cases h; exact ⟨(List.append_nil _).symm, (List.append_nil _).symm, rfl⟩

theorem run_calls (l : List (TraceCall F)) (t t' : TraceSystem F) (h : runCalls l t = .ok t') :
    t'.constraints = t.constraints ++ l.filterMap TraceCall.constraint? ∧
    t'.boundaryConstraints = t.boundaryConstraints ++ l.filterMap TraceCall.boundary? ∧
    t'.currentStep = t.currentStep + (l.map TraceCall.moves).sum := by
  induction l generalizing t with
  | nil => cases h; simp
  | cons c l ih =>
    obtain ⟨u, hu, h⟩ := Res.bind_eq_ok.1 h
    obtain ⟨a1, a2, a3⟩ := run_call hu
    obtain ⟨b1, b2, b3⟩ := ih u h
    refine ⟨?_, ?_, ?_⟩
    · rw [b1, a1, List.append_assoc]
      cases e : c.constraint? <;> simp [e]
    · rw [b2, a2, List.append_assoc]
      cases e : c.boundary? <;> simp [e]
    · rw [b3, a3, List.map_cons, List.sum_cons]
      omega

/-- **C36**: whatever calls are made on a new trace system, in whatever order, the converted instance has exactly the constraints asked for, in the
order of the calls (the challenges are drawn in this order), up to the names of the registers; the same holds for the boundary constraints; and
it has one row more than the steps taken. -/
theorem C36_history (calls : List (TraceCall F)) {t : TraceSystem F} (hrun : runCalls calls .new = .ok t) (hs : Shape t)
    {w : Option (List (List F))} {inst : InstanceProperties F} (h : t.intoArp = .ok (w, inst)) :
    ∃ ρ : Register → ℕ,
      (∀ r r', Allocated t r → Allocated t r' → ρ r = ρ r' → r = r') ∧
      List.Forall₂ (fun c c' => c'.degree = c.degree ∧ c'.density = c.density ∧
        ∀ e : Env F, constraintValue e c' = constraintValue (fun r s => e (.register (ρ r)) s) c)
        (calls.filterMap TraceCall.constraint?) inst.constraints ∧
      List.Forall₂ (fun b b' => b'.register = .register (ρ b.register) ∧ b'.atRow = b.atRow ∧ b'.value = b.value)
        (calls.filterMap TraceCall.boundary?) inst.boundaryConstraints ∧
      inst.numRows = (calls.map TraceCall.moves).sum + 1 := by
  obtain ⟨ρ, h1, -, -, -, h2, h3, h4⟩ := C36_renaming hs h
  obtain ⟨e1, e2, e3⟩ := run_calls calls .new t hrun
  refine ⟨ρ, h1, ?_, ?_, ?_⟩
  · have e : t.constraints = calls.filterMap TraceCall.constraint? := e1
    rwa [e] at h2
  · have e : t.boundaryConstraints = calls.filterMap TraceCall.boundary? := e2
    rwa [e] at h3
  · have e : t.currentStep = (calls.map TraceCall.moves).sum := by rw [e3]; exact Nat.zero_add _
    rw [h4, e]

end

/-- A run to which `C36_history` applies: two registers, constraints added by both calls, a boundary constraint between them, one step. -/
example : ∃ t : TraceSystem Fr, runCalls [.allocateRegister, .allocateRegister, .addConstraint (fibConstraint1 (.register 0) (.register 1)),
      .addBoundaryConstraint (.register 1) 0 (some 1),
      .addConstraintWithWitness (fibConstraint0 (.register 0) (.register 1)) (fibGenerator0 (.register 0) (.register 1)),
      .calculateWitness 1 1 1] .new = .ok t ∧ Shape t ∧ ∃ r, t.intoArp = .ok r :=
  ⟨_, rfl, ⟨⟨[], rfl, rfl⟩, ⟨[[1, 1], [1]], rfl, rfl⟩, ⟨[], rfl, rfl⟩, ⟨[], rfl, rfl⟩⟩, _, rfl⟩

end Hodor

import Verif.Spec.Air

/-!
# Specification: trace systems
-/

namespace Hodor.Spec

variable {F : Type} [Field F]

/-- The register was handed out by the trace system. -/
def Allocated (t : TraceSystem F) : Register → Prop
  | .programCounter i => i < t.pcRegisters
  | .register i => i < t.registers
  | .aux i => i < t.auxRegisters
  | .constant i => i < t.constantRegisters

/-- The recorded witness of a register. -/
def witnessOf (t : TraceSystem F) : Register → List F
  | .programCounter i => t.pcRegistersWitness.getD i []
  | .register i => t.registersWitness.getD i []
  | .aux i => t.auxRegistersWitness.getD i []
  | .constant i => t.constantRegistersWitness.getD i []

/-- The recorded value of a register at a row. -/
def traceCell (t : TraceSystem F) (r : Register) (i : ℕ) : F := (witnessOf t r).getD i 0

/-- The number of registers handed out. -/
def totalRegisters (t : TraceSystem F) : ℕ :=
  t.pcRegisters + t.registers + t.auxRegisters + t.constantRegisters

/-- A table with a row for each of the `n` registers handed out, and one spare row that is empty. -/
def TableShape (rows : List (List F)) (n : ℕ) : Prop := ∃ l, l.length = n ∧ rows = l ++ [[]]

/-- All four tables have this shape. -/
structure Shape (t : TraceSystem F) : Prop where
  pc : TableShape t.pcRegistersWitness t.pcRegisters
  reg : TableShape t.registersWitness t.registers
  aux : TableShape t.auxRegistersWitness t.auxRegisters
  const : TableShape t.constantRegistersWitness t.constantRegisters

/-- A generator that only writes registers with a number below `n`. -/
def WritesBelow (n : ℕ) (g : List (List F) → ℕ → Res (List (F × Register × ℕ))) : Prop :=
  ∀ rows step vals, g rows step = .ok vals → ∀ v ∈ vals, ∃ i, i < n ∧ v.2.1 = .register i

/-- The trace systems a program can build through the interface, when its generators only write registers
that were handed out. -/
inductive Reachable : TraceSystem F → Prop
  | new : Reachable .new
  | allocateRegister {t} : Reachable t → Reachable t.allocateRegister.2
  | allocateConstantRegister {t} : Reachable t → Reachable t.allocateConstantRegister.2
  | allocateAuxRegister {t} : Reachable t → Reachable t.allocateAuxRegister.2
  | addConstraint {t} (c) : Reachable t → Reachable (t.addConstraint c)
  | addConstraintWithWitness {t} (c) {g} : Reachable t → WritesBelow t.registers g →
      Reachable (t.addConstraintWithWitness c g)
  | addBoundaryConstraint {t} (r i v) : Reachable t → Reachable (t.addBoundaryConstraint r i v)
  | step {t t'} (n) : Reachable t → t.step n = .ok t' → Reachable t'
  | calculateWitness {t t'} (a b n) : Reachable t → 2 ≤ t.registers →
      t.calculateWitness a b n = .ok t' → Reachable t'

/-- The trace system's own constraints, as an instance. -/
def ownInstance (t : TraceSystem F) : InstanceProperties F :=
  { numRows := t.currentStep + 1, numRegisters := totalRegisters t, constraints := t.constraints,
    boundaryConstraints := t.boundaryConstraints }

/-- All the registers mentioned by the constraints were handed out, and trace constraints speak of step
differences. -/
structure Closed (t : TraceSystem F) : Prop where
  factors : ∀ c ∈ t.constraints, ∀ u ∈ factors c, Allocated t u.register ∧
    ∃ k, u.stepsDifference = .steps k
  boundary : ∀ b ∈ t.boundaryConstraints, Allocated t b.register

end Hodor.Spec

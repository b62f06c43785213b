import Verif.Lemmas.Trace
import Verif.Props.Air
import Verif.Model.F257
import Mathlib.Data.Nat.Fib.Basic

/-!
# C36-C37: trace systems
-/

namespace Hodor

open Spec

section
variable {F : Type} [Field F]

/-- **C36** (shape): whatever sequence of calls built a trace system, it has one witness row per register
handed out and one spare empty row. -/
theorem C36_shape {t : TraceSystem F} (h : Reachable t) : Shape t := h.inv.shape

/-- **C36**: a successful conversion renames the registers by one injective map `ρ` onto `0 … total-1`, and
uses that same map in the witness table, in every constraint and in every boundary constraint. -/
theorem C36_renaming {t : TraceSystem F} (hs : Shape t) {w : Option (List (List F))}
    {inst : InstanceProperties F} (h : t.intoArp = .ok (w, inst)) :
    ∃ ρ : Register → ℕ,
      (∀ r r', Allocated t r → Allocated t r' → ρ r = ρ r' → r = r') ∧
      (∀ r, Allocated t r → ρ r < totalRegisters t) ∧
      (0 < totalRegisters t → ∃ wit, w = some wit ∧ wit.length = totalRegisters t ∧
        ∀ r, Allocated t r → wit.getD (ρ r) [] = witnessOf t r) ∧
      (totalRegisters t = 0 → w = none) ∧
      List.Forall₂ (fun c c' => c'.degree = c.degree ∧ c'.density = c.density ∧
        ∀ e : Env F, constraintValue e c' = constraintValue (fun r s => e (.register (ρ r)) s) c)
        t.constraints inst.constraints ∧
      List.Forall₂ (fun b b' => b'.register = .register (ρ b.register) ∧ b'.atRow = b.atRow ∧
        b'.value = b.value) t.boundaryConstraints inst.boundaryConstraints ∧
      inst.numRows = t.currentStep + 1 := by
  obtain ⟨h1, -, h3, h4, h5, h6⟩ := intoArp_inv hs h
  refine ⟨renamed t, fun r r' => renamed_inj t, fun r => renamed_lt t, h6, h5, ?_, ?_, h1⟩
  · rw [h3, List.forall₂_map_right_iff, List.forall₂_same]
    exact fun c _ => ⟨rfl, rfl, fun e => remapConstraint_value _ e c⟩
  · rw [h4, List.forall₂_map_right_iff, List.forall₂_same]
    exact fun b _ => ⟨rfl, rfl, rfl⟩

/-- **C36**: the converted instance is satisfied by the converted witness exactly when the trace system's
own constraints hold of its own recorded witness, for any number of rows. -/
theorem C36_same_meaning {t : TraceSystem F} (hs : Shape t) (hc : Closed t) {wit : List (List F)}
    {inst : InstanceProperties F} (h : t.intoArp = .ok (some wit, inst)) (T : ℕ) :
    Satisfies inst (cellR wit) T ↔ Satisfies (ownInstance t) (traceCell t) T := by
  obtain ⟨-, -, h3, h4, h5, h6⟩ := intoArp_inv hs h
  have hpos : 0 < totalRegisters t := by
    by_contra h0
    have := h5 (by omega)
    cases this
  obtain ⟨wit', e, -, hw⟩ := h6 hpos
  cases e
  have hcell : ∀ r, Allocated t r → ∀ i, cellR wit (.register (renamed t r)) i = traceCell t r i := by
    intro r hr i
    simp only [cellR, cell, traceCell, hw r hr]
  have hval : ∀ c ∈ t.constraints, ∀ row,
      constraintValue (rowEnv (cellR wit) row) (remapConstraint (fun r => .register (renamed t r)) c)
        = constraintValue (rowEnv (traceCell t) row) c := by
    intro c hcm row
    rw [remapConstraint_value]
    apply constraintValue_congr
    intro u hu
    obtain ⟨ha, k, hk⟩ := hc.factors c hcm u hu
    rw [hk]
    exact hcell _ ha _
  unfold Satisfies
  rw [h3, h4]
  simp only [List.forall_mem_map]
  apply and_congr
  · apply forall₂_congr
    intro c hcm
    apply forall_congr'
    intro row
    apply imp_congr Iff.rfl
    unfold HoldsAt
    rw [hval c hcm row, factors_remapConstraint]
    simp only [List.forall_mem_map]
    exact Iff.rfl
  · apply forall₂_congr
    intro b hb
    rw [hcell b.register (hc.boundary b hb)]

/-- **C36**, the register count, as far as it holds: a trace system with ordinary registers only reports as
many registers as the witness has rows of values. Missing: the same with program counter, auxiliary or
constant registers, where it is false (`C36_num_registers_wrong`). -/
theorem C36_num_registers_partial {t : TraceSystem F} (hs : Shape t) {wit : List (List F)}
    {inst : InstanceProperties F} (h : t.intoArp = .ok (some wit, inst))
    (h0 : t.pcRegisters = 0 ∧ t.auxRegisters = 0 ∧ t.constantRegisters = 0) :
    inst.numRegisters = wit.length := by
  obtain ⟨-, h2, -, -, h5, h6⟩ := intoArp_inv hs h
  have hpos : 0 < totalRegisters t := by
    by_contra h0
    have := h5 (by omega)
    cases this
  obtain ⟨wit', e, hl, -⟩ := h6 hpos
  cases e
  rw [h2, hl, totalRegisters]
  omega

/-- **C36** fails: as soon as one register is not an ordinary one, the reported number of registers is
smaller than the witness, and computing the witness polynomials of the converted instance with the
converted (rectangular) witness returns an error. -/
theorem C36_num_registers_wrong [DecidableEq F] [StarkField F] {t : TraceSystem F} (hs : Shape t)
    {wit : List (List F)}
    {inst : InstanceProperties F} (h : t.intoArp = .ok (some wit, inst))
    (h0 : 0 < t.pcRegisters + t.auxRegisters + t.constantRegisters) :
    inst.numRegisters < wit.length ∧
      ∀ (worker : Worker) (T : ℕ), IsTable wit wit.length T →
        calculateWitnessPolys inst wit worker = .err .error := by
  obtain ⟨-, h2, -, -, h5, h6⟩ := intoArp_inv hs h
  have hpos : 0 < totalRegisters t := by
    simp only [totalRegisters]; omega
  obtain ⟨wit', e, hl, -⟩ := h6 hpos
  cases e
  have hlt : inst.numRegisters < wit.length := by
    rw [h2, hl, totalRegisters]; omega
  refine ⟨hlt, ?_⟩
  intro worker T hT
  obtain ⟨e1, e2⟩ := hT.rd_row (by omega : 0 < wit.length)
  unfold calculateWitnessPolys
  rw [e1, Res.ok_bind, e2]
  simp only [IsTable.all hT, Res.assert_true, Res.ok_bind]
  rw [if_pos (by omega)]

/-- **C36**, the register count exactly: the reported number of registers is the number of rows of the
converted witness if and only if there are no program counter, auxiliary and constant registers. -/
theorem C36_num_registers_iff {t : TraceSystem F} (hs : Shape t) {wit : List (List F)}
    {inst : InstanceProperties F} (h : t.intoArp = .ok (some wit, inst)) :
    inst.numRegisters = wit.length ↔
      t.pcRegisters = 0 ∧ t.auxRegisters = 0 ∧ t.constantRegisters = 0 := by
  obtain ⟨-, h2, -, -, h5, h6⟩ := intoArp_inv hs h
  have hpos : 0 < totalRegisters t := by
    by_contra h0
    have := h5 (by omega)
    cases this
  obtain ⟨wit', e, hl, -⟩ := h6 hpos
  cases e
  rw [h2, hl, totalRegisters]
  omega

/-- **C36**: the conversion of a trace system fails only by a panic, and it panics exactly if some register
that was handed out has no recorded value. -/
theorem C36_outcome {t : TraceSystem F} (hs : Shape t) :
    ((∃ r, t.intoArp = .ok r) ↔ ∀ r, Allocated t r → witnessOf t r ≠ []) ∧
      (t.intoArp = .panic ↔ ∃ r, Allocated t r ∧ witnessOf t r = []) := by
  have key : (∀ r, Allocated t r → witnessOf t r ≠ []) ↔
      (nonEmptyRows t.pcRegistersWitness ++ nonEmptyRows t.registersWitness ++
        nonEmptyRows t.auxRegistersWitness ++ nonEmptyRows t.constantRegistersWitness).length
      = t.pcRegisters + t.registers + t.auxRegisters + t.constantRegisters := by
    have one : ∀ {rows : List (List F)} {n : ℕ}, TableShape rows n →
        (nonEmptyRows rows).length ≤ n ∧
        ((nonEmptyRows rows).length = n ↔ ∀ i, i < n → rows.getD i [] ≠ []) := by
      rintro rows n ⟨l, hl, e⟩
      refine ⟨hl ▸ nonEmptyRows_length_le e, ?_⟩
      subst hl e
      have e2 : nonEmptyRows (l ++ [[]]) = l.filter (fun r => r.length ≠ 0) := by
        simp [nonEmptyRows, List.filter_append]
      rw [e2, List.length_filter_eq_length_iff]
      constructor
      · intro h i hi
        have := h l[i] (List.getElem_mem hi)
        simp only [List.getD, List.getElem?_append_left hi, List.getElem?_eq_getElem hi, Option.getD_some]
        intro h0
        simp [h0] at this
      · intro h r hr
        obtain ⟨i, hi, rfl⟩ := List.getElem_of_mem hr
        have := h i hi
        simp only [List.getD, List.getElem?_append_left hi, List.getElem?_eq_getElem hi, Option.getD_some] at this
        simpa using this
    obtain ⟨a1, a2⟩ := one hs.pc
    obtain ⟨b1, b2⟩ := one hs.reg
    obtain ⟨c1, c2⟩ := one hs.aux
    obtain ⟨d1, d2⟩ := one hs.const
    simp only [List.length_append]
    constructor
    · intro h
      have e1 := a2.2 (fun i hi => h (.programCounter i) hi)
      have e2 := b2.2 (fun i hi => h (.register i) hi)
      have e3 := c2.2 (fun i hi => h (.aux i) hi)
      have e4 := d2.2 (fun i hi => h (.constant i) hi)
      omega
    · intro h r hr
      cases r with
      | programCounter i => exact a2.1 (by omega) i hr
      | register i => exact b2.1 (by omega) i hr
      | aux i => exact c2.1 (by omega) i hr
      | constant i => exact d2.1 (by omega) i hr
  have hne : (∃ r, Allocated t r ∧ witnessOf t r = []) ↔ ¬ ∀ r, Allocated t r → witnessOf t r ≠ [] := by
    push Not
    rfl
  rw [hne, key]
  unfold TraceSystem.intoArp
  by_cases hl : (nonEmptyRows t.pcRegistersWitness ++ nonEmptyRows t.registersWitness ++
        nonEmptyRows t.auxRegistersWitness ++ nonEmptyRows t.constantRegistersWitness).length
      = t.pcRegisters + t.registers + t.auxRegisters + t.constantRegisters
  · simp only [hl, decide_true, Res.assert_true, Res.ok_bind, Res.pure_def, not_true, iff_false]
    exact ⟨⟨fun _ => trivial, fun _ => ⟨_, rfl⟩⟩, fun h => by cases h⟩
  · simp only [hl, decide_false, not_false_iff, iff_true, iff_false]
    refine ⟨?_, rfl⟩
    rintro ⟨r, h⟩
    cases h

/-- **C36** for every trace system a program can build through the interface: if the conversion succeeds,
the reported number of registers is the number of rows of the converted witness. -/
theorem C36_num_registers_interface {t : TraceSystem F} (hr : Reachable t) {wit : List (List F)}
    {inst : InstanceProperties F} (h : t.intoArp = .ok (some wit, inst)) :
    inst.numRegisters = wit.length := by
  have hi := hr.inv
  have h0 := ((C36_outcome hi.shape).1.1 ⟨_, h⟩)
  refine (C36_num_registers_iff hi.shape h).2 ⟨hi.pc, ?_, ?_⟩
  · by_contra hne
    apply h0 (.aux 0) (Nat.pos_of_ne_zero hne)
    simp only [witnessOf, List.getD]
    cases e : t.auxRegistersWitness[0]? with
    | none => rfl
    | some r => exact hi.aux r (List.mem_of_getElem? e)
  · by_contra hne
    apply h0 (.constant 0) (Nat.pos_of_ne_zero hne)
    simp only [witnessOf, List.getD]
    cases e : t.constantRegistersWitness[0]? with
    | none => rfl
    | some r => exact hi.const r (List.mem_of_getElem? e)

/-- One register was handed out and no step has been recorded: the conversion panics. -/
example : ((TraceSystem.new : TraceSystem Fr).allocateRegister.2).intoArp = .panic :=
  (C36_outcome (C36_shape (Reachable.allocateRegister Reachable.new))).2.2
    ⟨.register 0, Nat.zero_lt_one, rfl⟩

/-- **C36**: the interface has no way to record values for auxiliary and constant registers, so the
conversion of any trace system that allocated one panics. -/
theorem C36_aux_constant_panic {t : TraceSystem F} (h : Reachable t)
    (h0 : 0 < t.auxRegisters + t.constantRegisters) : t.intoArp = .panic := by
  have hi := h.inv
  obtain ⟨lp, hlp, ep⟩ := hi.shape.pc
  obtain ⟨lr, hlr, er⟩ := hi.shape.reg
  have b1 := nonEmptyRows_length_le ep
  have b2 := nonEmptyRows_length_le er
  have b3 : nonEmptyRows t.auxRegistersWitness = [] := by
    unfold nonEmptyRows
    rw [List.filter_eq_nil_iff]
    intro r hr
    rw [hi.aux r hr]; simp
  have b4 : nonEmptyRows t.constantRegistersWitness = [] := by
    unfold nonEmptyRows
    rw [List.filter_eq_nil_iff]
    intro r hr
    rw [hi.const r hr]; simp
  unfold TraceSystem.intoArp
  rw [b3, b4]
  have e : decide ((nonEmptyRows t.pcRegistersWitness ++ nonEmptyRows t.registersWitness ++ [] ++ []).length
      = t.pcRegisters + t.registers + t.auxRegisters + t.constantRegisters) = false := by
    apply decide_eq_false
    simp only [List.length_append, List.length_nil]
    omega
  simp only [e]
  rfl

/-! ## Fibonacci -/

/-- Row `i` of the two Fibonacci registers. -/
def fibA (F : Type) [Field F] (i : ℕ) : F := (Nat.fib (i + 1) : ℕ)
def fibB (F : Type) [Field F] (i : ℕ) : F := (Nat.fib (i + 2) : ℕ)

theorem storeValue_fib {rows : List (List F)} {m i : ℕ} {g : ℕ → F} {v : F} {j : ℕ}
    (hr : rows[j]? = some (tab (i + 1) g)) (hv : v = g (i + 1)) (hm : m = 1) :
    TraceSystem.storeValue i (v, .register j, m) rows = .ok (rows.set j (tab (i + 2) g)) := by
  have hj : j < rows.length := by
    rcases List.getElem?_eq_some_iff.1 hr with ⟨h, -⟩; exact h
  have e1 : resize (tab (i + 1) g) (i + 1 + 1) 0 = tab (i + 1) g ++ [0] := by
    simp [resize, List.take_of_length_le]
  have e2 : wr (tab (i + 1) g ++ [0]) (i + 1) v = .ok (tab (i + 2) g) := by
    unfold wr
    rw [if_pos (by simp), List.set_append_right _ _ (by simp), hv, tab_succ (i + 1)]
    simp
  subst hm
  simp only [TraceSystem.storeValue, Register.num, Res.ok_bind, rd, hr, Res.expect_some, length_tab,
    le_refl, if_true, e1, e2]
  simp [wr, hj]

theorem runStep_fib (i : ℕ) :
    TraceSystem.runStep [fibGenerator0 (.register 0) (.register 1), fibGenerator1 (.register 0) (.register 1)] i
      ([tab (i + 1) (fibA F), tab (i + 1) (fibB F), []], i)
      = .ok ([tab (i + 2) (fibA F), tab (i + 2) (fibB F), []], i + 1) := by
  have g0 : fibGenerator0 (.register 0) (.register 1) [tab (i + 1) (fibA F), tab (i + 1) (fibB F), []] i
      = .ok [(fibB F i, .register 0, 1)] := by
    simp [fibGenerator0, TraceSystem.getRegister, getElem?_tab]
  have g1 : fibGenerator1 (.register 0) (.register 1) [tab (i + 2) (fibA F), tab (i + 1) (fibB F), []] i
      = .ok [(fibA F i + fibB F i, .register 1, 1)] := by
    simp [fibGenerator1, TraceSystem.getRegister, getElem?_tab]
  have s0 := storeValue_fib (rows := [tab (i + 1) (fibA F), tab (i + 1) (fibB F), []]) (m := 1) (i := i)
    (g := fibA F) (v := fibB F i) (j := 0) rfl (by simp [fibA, fibB]) rfl
  have s1 := storeValue_fib (rows := [tab (i + 2) (fibA F), tab (i + 1) (fibB F), []]) (m := 1) (i := i)
    (g := fibB F) (v := fibA F i + fibB F i) (j := 1) rfl (by
      simp only [fibA, fibB]
      rw [show Nat.fib (i + 1 + 2) = Nat.fib (i + 1) + Nat.fib (i + 2) from Nat.fib_add_two]
      push_cast; rfl) rfl
  simp only [List.set_cons_zero, List.set_cons_succ] at s0 s1
  simp only [TraceSystem.runStep, forEach, TraceSystem.runGenerator, g0, TraceSystem.unwrapRes,
    Res.ok_bind, s0, g1, s1, Res.pure_def]

/-- The trace system of the Fibonacci program, with its boundary constraints. -/
def fibSystem (rows : List (List F)) (step : ℕ) (bcs : List (BoundaryConstraint F)) : TraceSystem F :=
  { pcRegisters := 0, registers := 2, constantRegisters := 0, auxRegisters := 0,
    pcRegistersWitness := [[]], registersWitness := rows, constantRegistersWitness := [[]],
    auxRegistersWitness := [[]],
    witnessGenerators := [fibGenerator0 (.register 0) (.register 1), fibGenerator1 (.register 0) (.register 1)],
    constraints := [fibConstraint0 (.register 0) (.register 1), fibConstraint1 (.register 0) (.register 1)],
    boundaryConstraints := bcs, currentStep := step }

theorem fibSystem_run (a b steps : ℕ) (bcs : List (BoundaryConstraint F)) :
    (fibSystem [[], [], []] 0 bcs).calculateWitness a b steps
      = .ok (fibSystem [tab (steps + 1) (fibA F), tab (steps + 1) (fibB F), []] steps bcs) := by
  have hrun := forN_eq (fun i => ([tab (i + 1) (fibA F), tab (i + 1) (fibB F), []], i))
    (TraceSystem.runStep [fibGenerator0 (.register 0) (.register 1), fibGenerator1 (.register 0) (.register 1)])
    steps 0 (fun i _ _ => runStep_fib i)
  have e0 : tab 1 (fibA F) = [1] := by simp [tab, fibA]
  have e1 : tab 1 (fibB F) = [1] := by simp [tab, fibB]
  simp only [Nat.zero_add, e0, e1] at hrun
  unfold TraceSystem.calculateWitness
  have r0 : rd (fibSystem [[], [], []] 0 bcs).registersWitness 0 = .ok ([] : List F) := rfl
  have r1 : wr (fibSystem [[], [], []] 0 bcs).registersWitness 0 ([] ++ [1]) = .ok [[(1 : F)], [], []] := rfl
  have r2 : rd [[(1 : F)], [], []] 1 = .ok [] := rfl
  have r3 : wr [[(1 : F)], [], []] 1 ([] ++ [1]) = .ok [[1], [1], []] := rfl
  rw [r0, Res.ok_bind, r1, Res.ok_bind, r2, Res.ok_bind, r3, Res.ok_bind]
  have r4 : forN steps 0 ([[1], [1], []], (fibSystem [[], [], []] 0 bcs).currentStep)
      (TraceSystem.runStep (fibSystem [[], [], []] 0 bcs).witnessGenerators)
      = .ok ([tab (steps + 1) (fibA F), tab (steps + 1) (fibB F), []], steps) := hrun
  rw [r4]
  rfl

theorem fibSystem_intoArp (steps : ℕ) (bcs : List (BoundaryConstraint F))
    (hb : ∀ b ∈ bcs, ∃ i, b.register = .register i) :
    (fibSystem [tab (steps + 1) (fibA F), tab (steps + 1) (fibB F), []] steps bcs).intoArp
      = .ok (some [tab (steps + 1) (fibA F), tab (steps + 1) (fibB F)],
        { numRows := steps + 1, numRegisters := 2,
          constraints := [fibConstraint0 (.register 0) (.register 1),
            fibConstraint1 (.register 0) (.register 1)],
          boundaryConstraints := bcs }) := by
  have hne : ∀ g : ℕ → F, (tab (steps + 1) g).length ≠ 0 := by intro g; simp
  have e1 : nonEmptyRows [tab (steps + 1) (fibA F), tab (steps + 1) (fibB F), []]
      = [tab (steps + 1) (fibA F), tab (steps + 1) (fibB F)] := by
    simp only [nonEmptyRows, List.filter_cons, hne, ne_eq, not_false_eq_true, decide_true, if_true]
    simp
  have e2 : nonEmptyRows ([[]] : List (List F)) = [] := by simp [nonEmptyRows]
  have e3 : bcs.map (fun b => { b with register := remapRegister 0 2 2 b.register }) = bcs := by
    conv_rhs => rw [← List.map_id bcs]
    apply List.map_congr_left
    intro b hm
    obtain ⟨i, hi⟩ := hb b hm
    cases b
    simp only at hi
    subst hi
    rfl
  have e4 : ([fibConstraint0 (.register 0) (.register 1),
      fibConstraint1 (.register 0) (.register 1)] : List (Constraint F)).map (remapConstraint (remapRegister 0 2 2))
      = [fibConstraint0 (.register 0) (.register 1), fibConstraint1 (.register 0) (.register 1)] := rfl
  unfold TraceSystem.intoArp
  simp only [fibSystem, e1, e2, e3, e4, Nat.zero_add, Nat.add_zero]
  rfl

theorem rowEnv_fib (steps row k : ℕ) (h : row + k < steps + 1) :
    rowEnv (cellR [tab (steps + 1) (fibA F), tab (steps + 1) (fibB F)]) row (.register 0) (.steps k)
        = fibA F (row + k) ∧
      rowEnv (cellR [tab (steps + 1) (fibA F), tab (steps + 1) (fibB F)]) row (.register 1) (.steps k)
        = fibB F (row + k) := by
  constructor <;> simp [rowEnv, cellR, cell, List.getD, h]

end

section
variable {F : Type} [Field F] [DecidableEq F]

/-- The instance obtained from the Fibonacci program. -/
def fibInstance (steps : ℕ) (bcs : List (BoundaryConstraint F)) : InstanceProperties F :=
  { numRows := steps + 1, numRegisters := 2,
    constraints := [fibConstraint0 (.register 0) (.register 1), fibConstraint1 (.register 0) (.register 1)],
    boundaryConstraints := bcs }

/-- The boundary constraints of the Fibonacci program. -/
def fibBoundary (target : Option (ℕ × ℕ)) : List (BoundaryConstraint F) :=
  match target with
  | none => []
  | some (v, r) => [{ register := .register 0, atRow := 0, value := some 1 },
      { register := .register 1, atRow := 0, value := some 1 },
      { register := .register 1, atRow := r, value := some (v : F) }]

theorem fibConstraint0_value (e : Env F) :
    constraintValue e (fibConstraint0 (.register 0) (.register 1))
      = e (.register 0) (.steps 1) - e (.register 1) (.steps 0) := by
  have : (fibConstraint0 (F := F) (.register 0) (.register 1)).terms
    = [.univariate { coeff := -1, register := .register 1, stepsDifference := .steps 0, power := 1 },
       .univariate { coeff := 1, register := .register 0, stepsDifference := .steps 1, power := 1 }] := rfl
  have h0 : (fibConstraint0 (F := F) (.register 0) (.register 1)).constantTerm = 0 := rfl
  simp only [constraintValue, this, h0, List.map_cons, List.map_nil, termValue, uniValue, List.sum_cons,
    List.sum_nil]
  ring

theorem fibConstraint1_value (e : Env F) :
    constraintValue e (fibConstraint1 (.register 0) (.register 1))
      = e (.register 1) (.steps 1) - e (.register 0) (.steps 0) - e (.register 1) (.steps 0) := by
  have : (fibConstraint1 (F := F) (.register 0) (.register 1)).terms
    = [.univariate { coeff := -1, register := .register 0, stepsDifference := .steps 0, power := 1 },
       .univariate { coeff := -1, register := .register 1, stepsDifference := .steps 0, power := 1 },
       .univariate { coeff := 1, register := .register 1, stepsDifference := .steps 1, power := 1 }] := rfl
  have h0 : (fibConstraint1 (F := F) (.register 0) (.register 1)).constantTerm = 0 := rfl
  simp only [constraintValue, this, h0, List.map_cons, List.map_nil, termValue, uniValue, List.sum_cons,
    List.sum_nil]
  ring

theorem fibB_succ (i : ℕ) : fibB F (i + 1) = fibA F i + fibB F i := by
  simp only [fibA, fibB]
  rw [show Nat.fib (i + 1 + 2) = Nat.fib (i + 1) + Nat.fib (i + 2) from Nat.fib_add_two]
  push_cast; rfl

theorem fibFactors {c : Constraint F} (hc : c ∈ (fibInstance (F := F) 0 []).constraints)
    {u : UnivariateTerm F} (hu : u ∈ factors c) :
    (∃ r, r < 2 ∧ u.register = .register r) ∧ ∃ k, k ≤ 1 ∧ u.stepsDifference = .steps k := by
  have e0 : factors (fibConstraint0 (F := F) (.register 0) (.register 1))
    = [{ coeff := -1, register := .register 1, stepsDifference := .steps 0, power := 1 },
       { coeff := 1, register := .register 0, stepsDifference := .steps 1, power := 1 }] := rfl
  have e1 : factors (fibConstraint1 (F := F) (.register 0) (.register 1))
    = [{ coeff := -1, register := .register 0, stepsDifference := .steps 0, power := 1 },
       { coeff := -1, register := .register 1, stepsDifference := .steps 0, power := 1 },
       { coeff := 1, register := .register 1, stepsDifference := .steps 1, power := 1 }] := rfl
  simp only [fibInstance, List.mem_cons, List.not_mem_nil, or_false] at hc
  rcases hc with rfl | rfl
  · rw [e0] at hu
    simp only [List.mem_cons, List.not_mem_nil, or_false] at hu
    rcases hu with rfl | rfl
    · exact ⟨⟨1, by norm_num, rfl⟩, 0, by norm_num, rfl⟩
    · exact ⟨⟨0, by norm_num, rfl⟩, 1, by norm_num, rfl⟩
  · rw [e1] at hu
    simp only [List.mem_cons, List.not_mem_nil, or_false] at hu
    rcases hu with rfl | rfl | rfl
    · exact ⟨⟨0, by norm_num, rfl⟩, 0, by norm_num, rfl⟩
    · exact ⟨⟨1, by norm_num, rfl⟩, 0, by norm_num, rfl⟩
    · exact ⟨⟨1, by norm_num, rfl⟩, 1, by norm_num, rfl⟩

theorem fib_satisfied_iff (steps : ℕ) (target : Option (ℕ × ℕ)) (ht : ∀ v r, target = some (v, r) → r ≤ steps) :
    isSatisfied (fibInstance steps (fibBoundary (F := F) target))
        [tab (steps + 1) (fibA F), tab (steps + 1) (fibB F)] = .ok ()
      ↔ ∀ v r, target = some (v, r) → (v : F) = fibB F r := by
  have htab : IsTable [tab (steps + 1) (fibA F), tab (steps + 1) (fibB F)] 2 (steps + 1) :=
    ⟨rfl, by intro r hr; simp only [List.mem_cons, List.not_mem_nil, or_false] at hr
             rcases hr with rfl | rfl <;> simp⟩
  have hdens : ∀ c ∈ (fibInstance (F := F) 0 []).constraints, c.density = .dense ⟨0, 1⟩ := by
    intro c hc
    simp only [fibInstance, List.mem_cons, List.not_mem_nil, or_false] at hc
    rcases hc with rfl | rfl <;> rfl
  have hwf : WellFormed (fibInstance steps (fibBoundary (F := F) target)) 2 (steps + 1) := by
    refine ⟨?_, ?_, ?_⟩
    · intro c hc
      exact ⟨_, hdens c hc, by simp⟩
    · intro c hc u hu
      obtain ⟨h1, k, -, h2⟩ := fibFactors hc hu
      exact ⟨h1, k, h2⟩
    · intro b hb
      cases target with
      | none => simp [fibInstance, fibBoundary] at hb
      | some p =>
        obtain ⟨v, r⟩ := p
        have := ht v r rfl
        simp only [fibInstance, fibBoundary, List.mem_cons, List.not_mem_nil, or_false] at hb
        rcases hb with rfl | rfl | rfl
        · exact ⟨⟨0, by norm_num, rfl⟩, by simp⟩
        · exact ⟨⟨1, by norm_num, rfl⟩, by simp⟩
        · exact ⟨⟨1, by norm_num, rfl⟩, by simp only; omega⟩
  rw [(C33_is_satisfied_iff _ _ 2 (steps + 1) (by norm_num) htab hwf).1]
  have hcell0 : ∀ i, i < steps + 1 → cellR [tab (steps + 1) (fibA F), tab (steps + 1) (fibB F)] (.register 0) i
      = fibA F i := by
    intro i hi; simp [cellR, cell, List.getD, hi]
  have hcell1 : ∀ i, i < steps + 1 → cellR [tab (steps + 1) (fibA F), tab (steps + 1) (fibB F)] (.register 1) i
      = fibB F i := by
    intro i hi; simp [cellR, cell, List.getD, hi]
  constructor
  · intro h v r e
    subst e
    have := h.2 { register := .register 1, atRow := r, value := some (v : F) }
      (by simp [fibInstance, fibBoundary]) v rfl
    rw [← this]
    exact (hcell1 r (by have := ht v r rfl; omega))
  · intro h
    refine ⟨?_, ?_⟩
    · intro c hc row ⟨d, hd, hd1, hd2⟩
      rw [hdens c hc] at hd
      cases hd
      simp only at hd1 hd2
      refine ⟨?_, ?_⟩
      · intro u hu k hk
        obtain ⟨-, k', hk', e⟩ := fibFactors hc hu
        rw [e] at hk
        cases hk
        omega
      · obtain ⟨a0, b0⟩ := rowEnv_fib (F := F) steps row 0 (by omega)
        obtain ⟨a1, b1⟩ := rowEnv_fib (F := F) steps row 1 (by omega)
        simp only [fibInstance, List.mem_cons, List.not_mem_nil, or_false] at hc
        rcases hc with rfl | rfl
        · rw [fibConstraint0_value, a1, b0]
          simp [fibA, fibB]
        · rw [fibConstraint1_value, a0, b1, b0, fibB_succ]
          simp
    · intro b hb x hx
      cases target with
      | none => simp [fibInstance, fibBoundary] at hb
      | some p =>
        obtain ⟨v, r⟩ := p
        have := ht v r rfl
        simp only [fibInstance, fibBoundary, List.mem_cons, List.not_mem_nil, or_false] at hb
        rcases hb with rfl | rfl | rfl
        · cases hx; rw [hcell0 _ (by simp)]; simp [fibA]
        · cases hx; rw [hcell1 _ (by simp)]; simp [fibB]
        · cases hx; rw [hcell1 _ (by simp only; omega), h v r rfl]

/-- **C37**: for every number of steps (and whatever start values are passed, which the code ignores) the
Fibonacci program yields a trace of `steps + 1` rows, row `i` being `(F(i+1), F(i+2))` in the field, and an
instance with two registers and that many rows. Without a target the trace satisfies the instance; with the
target "`B` equals `v` at row `r`", `r` within the trace, it satisfies it exactly when `v = F(r+2)` in the
field. -/
theorem C37_fibonacci (target : Option (ℕ × ℕ)) (a b steps : ℕ) :
    ∃ (t t' : TraceSystem F) (wit : List (List F)) (inst : InstanceProperties F),
      fibTrace (target.map Prod.fst) (target.map Prod.snd) .new = .ok t ∧
      t.calculateWitness a b steps = .ok t' ∧
      t'.intoArp = .ok (some wit, inst) ∧
      wit = [tab (steps + 1) (fun i => (Nat.fib (i + 1) : F)), tab (steps + 1) (fun i => (Nat.fib (i + 2) : F))] ∧
      inst.numRows = steps + 1 ∧ inst.numRegisters = 2 ∧
      (target = none → isSatisfied inst wit = .ok ()) ∧
      ∀ v r, target = some (v, r) → r ≤ steps →
        (isSatisfied inst wit = .ok () ↔ (v : F) = (Nat.fib (r + 2) : F)) := by
  refine ⟨fibSystem [[], [], []] 0 (fibBoundary target), _, _, _, ?_, fibSystem_run a b steps _,
    fibSystem_intoArp steps _ ?_, rfl, rfl, rfl, ?_, ?_⟩
  · cases target with
    | none => rfl
    | some p => rfl
  · intro b hb
    cases target with
    | none => simp [fibBoundary] at hb
    | some p =>
      simp only [fibBoundary, List.mem_cons, List.not_mem_nil, or_false] at hb
      rcases hb with rfl | rfl | rfl
      · exact ⟨_, rfl⟩
      · exact ⟨_, rfl⟩
      · exact ⟨_, rfl⟩
  · intro h
    subst h
    exact (fib_satisfied_iff steps none (by simp)).2 (by simp)
  · intro v r h hr
    subst h
    rw [show (Nat.fib (r + 2) : F) = fibB F r from rfl]
    refine (fib_satisfied_iff steps (some (v, r)) ?_).trans ?_
    · intro v' r' e; cases e; exact hr
    · constructor
      · intro h; exact h v r rfl
      · intro h v' r' e; cases e; exact h

/-- The Fibonacci example of the repository's tests: target 5 at row 3, three steps. -/
example : ∃ (t t' : TraceSystem Fr) (wit : List (List Fr)) (inst : InstanceProperties Fr),
    fibTrace (some 5) (some 3) .new = .ok t ∧ t.calculateWitness 1 1 3 = .ok t' ∧
      t'.intoArp = .ok (some wit, inst) ∧ isSatisfied inst wit = .ok () := by
  obtain ⟨t, t', wit, inst, h1, h2, h3, -, -, -, -, h7⟩ := C37_fibonacci (F := Fr) (some (5, 3)) 1 1 3
  exact ⟨t, t', wit, inst, h1, h2, h3, (h7 5 3 rfl (by norm_num)).2 (by decide +kernel)⟩

/-- A reachable trace system with two registers, a constraint and a witness (C36). -/
example : ∃ t t' : TraceSystem Fr, Reachable t ∧ t.calculateWitness 1 1 3 = .ok t' ∧ Reachable t' ∧
    ∃ wit inst, t'.intoArp = .ok (some wit, inst) := by
  obtain ⟨t, t', wit, inst, h1, h2, h3, -⟩ := C37_fibonacci (F := Fr) none 1 1 3
  have ht : Reachable t := by
    have e : t = ((TraceSystem.new.allocateRegister.2.allocateRegister.2.addConstraintWithWitness
        (fibConstraint0 (.register 0) (.register 1)) (fibGenerator0 (.register 0) (.register 1))).addConstraintWithWitness
        (fibConstraint1 (.register 0) (.register 1)) (fibGenerator1 (.register 0) (.register 1))) :=
      (Res.ok.inj h1).symm
    rw [e]
    apply Reachable.addConstraintWithWitness
    · apply Reachable.addConstraintWithWitness
      · exact .allocateRegister (.allocateRegister .new)
      · intro rows step vals e v hv
        simp only [fibGenerator0, Res.bind_eq_ok, Res.pure_def, Res.ok.injEq] at e
        obtain ⟨x, -, rfl⟩ := e
        rw [List.mem_singleton.1 hv]
        exact ⟨0, by decide, rfl⟩
    · intro rows step vals e v hv
      simp only [fibGenerator1, Res.bind_eq_ok, Res.pure_def, Res.ok.injEq] at e
      obtain ⟨x, -, y, -, rfl⟩ := e
      rw [List.mem_singleton.1 hv]
      exact ⟨1, by decide, rfl⟩
  refine ⟨t, t', ht, h2, .calculateWitness 1 1 3 ht ?_ h2, wit, inst, h3⟩
  cases h1
  decide

/-- A trace system with an auxiliary register whose rows were filled in through the public fields (C36). -/
def auxSystem : TraceSystem Fr :=
  { fibSystem [[1, 1], [1, 2], []] 1 [] with auxRegisters := 1, auxRegistersWitness := [[7, 9], []] }

example : Shape auxSystem := by
  refine ⟨⟨[], rfl, rfl⟩, ⟨[[1, 1], [1, 2]], rfl, rfl⟩, ⟨[[7, 9]], rfl, rfl⟩, ⟨[], rfl, rfl⟩⟩

example : ∃ inst, auxSystem.intoArp = .ok (some [[1, 1], [1, 2], [7, 9]], inst) ∧ inst.numRegisters = 2 :=
  ⟨_, rfl, rfl⟩

end

end Hodor

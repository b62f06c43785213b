import Verif.Lemmas.Arp
import Verif.Spec.Arp

/-!
# Lemmas about trace systems and their conversion
-/

namespace Hodor

open Spec

variable {F : Type} [Field F]

section
omit [Field F]

theorem nonEmptyRows_length_le {rows l : List (List F)} (h : rows = l ++ [[]]) :
    (nonEmptyRows rows).length ≤ l.length := by
  subst h
  simp only [nonEmptyRows, List.filter_append]
  simp only [List.length_append]
  have := List.length_filter_le (fun r : List F => decide (r.length ≠ 0)) l
  simpa using this

theorem nonEmptyRows_eq {rows l : List (List F)} (h : rows = l ++ [[]])
    (hl : (nonEmptyRows rows).length = l.length) : nonEmptyRows rows = l := by
  subst h
  simp only [nonEmptyRows, List.filter_append] at hl ⊢
  have e : List.filter (fun r : List F => decide (r.length ≠ 0)) [[]] = [] := by simp
  rw [e, List.append_nil] at hl ⊢
  exact List.filter_eq_self.2 (List.length_filter_eq_length_iff.1 hl)

theorem remapConstraint_value [Field F] (f : Register → Register) (e : Env F) (c : Constraint F) :
    constraintValue e (remapConstraint f c) = constraintValue (fun r s => e (f r) s) c := by
  simp only [constraintValue, remapConstraint, List.map_map]
  congr 2
  apply List.map_congr_left
  intro t _
  cases t with
  | univariate t => rfl
  | polyvariate p =>
    simp only [Function.comp, remapTerm, termValue, polyTermValue, List.map_map]
    rfl

theorem factors_remapConstraint (f : Register → Register) (c : Constraint F) :
    factors (remapConstraint f c) = (factors c).map (remapUnivariateTerm f) := by
  simp only [factors, remapConstraint, List.flatMap_map, List.map_flatMap]
  congr 1
  funext t
  cases t with
  | univariate t => rfl
  | polyvariate p => rfl

/-- Where `into_arp` puts a register. -/
def renamed [Field F] (t : TraceSystem F) : Register → ℕ
  | .programCounter i => i
  | .register i => i + t.pcRegisters
  | .aux i => i + (t.pcRegisters + t.registers)
  | .constant i => i + (t.pcRegisters + t.registers + t.auxRegisters)

theorem remapRegister_eq [Field F] (t : TraceSystem F) (r : Register) :
    remapRegister t.pcRegisters (t.pcRegisters + t.registers) (t.pcRegisters + t.registers + t.auxRegisters) r
      = .register (renamed t r) := by
  cases r <;> rfl

end

theorem renamed_inj (t : TraceSystem F) {r r' : Register} (h : Allocated t r) (h' : Allocated t r')
    (e : renamed t r = renamed t r') : r = r' := by
  cases r <;> cases r' <;> simp only [renamed, Allocated] at h h' e <;>
    first | (exfalso; omega) | (congr 1; done) | (congr 1; omega)

theorem renamed_lt (t : TraceSystem F) {r : Register} (h : Allocated t r) :
    renamed t r < totalRegisters t := by
  cases r <;> simp only [renamed, Allocated, totalRegisters] at * <;> omega

/-- What a successful conversion returns. -/
theorem intoArp_inv {t : TraceSystem F} (hs : Shape t) {w : Option (List (List F))}
    {inst : InstanceProperties F} (h : t.intoArp = .ok (w, inst)) :
    inst.numRows = t.currentStep + 1 ∧ inst.numRegisters = t.registers ∧
    inst.constraints = t.constraints.map (remapConstraint (fun r => .register (renamed t r))) ∧
    inst.boundaryConstraints = t.boundaryConstraints.map
      (fun b => { b with register := .register (renamed t b.register) }) ∧
    (totalRegisters t = 0 → w = none) ∧
    (0 < totalRegisters t → ∃ wit, w = some wit ∧ wit.length = totalRegisters t ∧
      ∀ r, Allocated t r → wit.getD (renamed t r) [] = witnessOf t r) := by
  obtain ⟨lp, hlp, ep⟩ := hs.pc
  obtain ⟨lr, hlr, er⟩ := hs.reg
  obtain ⟨la, hla, ea⟩ := hs.aux
  obtain ⟨lc, hlc, ec⟩ := hs.const
  simp only [TraceSystem.intoArp, Res.bind_eq_ok, Res.assert_eq_ok, decide_eq_true_eq] at h
  obtain ⟨-, hlen, h⟩ := h
  simp only [Res.pure_def, Res.ok.injEq, Prod.mk.injEq] at h
  obtain ⟨h1, h2⟩ := h
  subst h2
  have hf : remapRegister t.pcRegisters (t.pcRegisters + t.registers)
      (t.pcRegisters + t.registers + t.auxRegisters) = fun r => .register (renamed t r) := by
    funext r; exact remapRegister_eq t r
  have b1 := nonEmptyRows_length_le ep
  have b2 := nonEmptyRows_length_le er
  have b3 := nonEmptyRows_length_le ea
  have b4 := nonEmptyRows_length_le ec
  simp only [List.length_append] at hlen
  have c1 := nonEmptyRows_eq ep (by omega)
  have c2 := nonEmptyRows_eq er (by omega)
  have c3 := nonEmptyRows_eq ea (by omega)
  have c4 := nonEmptyRows_eq ec (by omega)
  rw [c1, c2, c3, c4] at h1
  have hl : (lp ++ lr ++ la ++ lc).length = totalRegisters t := by
    simp only [List.length_append, totalRegisters]; omega
  rw [hl] at h1
  refine ⟨rfl, rfl, by rw [← hf], by simp only [hf], ?_, ?_⟩
  · intro h0; rw [if_pos h0] at h1; exact h1.symm
  · intro h0
    rw [if_neg (by omega)] at h1
    refine ⟨_, h1.symm, hl, ?_⟩
    intro r hr
    have gl : ∀ (l : List (List F)) (i : ℕ), i < l.length → l.getD i [] = (l ++ [[]]).getD i [] := by
      intro l i hi
      simp [List.getD, List.getElem?_append_left hi]
    cases r with
    | programCounter i =>
      simp only [Allocated, renamed, witnessOf] at *
      rw [ep, ← gl lp i (by omega)]
      simp [List.getD, List.getElem?_append_left, show i < lp.length by omega,
        show i < (lp ++ lr ++ la).length by simp only [List.length_append]; omega,
        show i < (lp ++ lr).length by simp only [List.length_append]; omega]
    | register i =>
      simp only [Allocated, renamed, witnessOf] at *
      rw [er, ← gl lr i (by omega)]
      simp only [List.getD]
      rw [List.getElem?_append_left (by simp only [List.length_append]; omega),
        List.getElem?_append_left (by simp only [List.length_append]; omega),
        List.getElem?_append_right (by omega)]
      congr 2; omega
    | aux i =>
      simp only [Allocated, renamed, witnessOf] at *
      rw [ea, ← gl la i (by omega)]
      simp only [List.getD]
      rw [List.getElem?_append_left (by simp only [List.length_append]; omega),
        List.getElem?_append_right (by simp only [List.length_append]; omega)]
      congr 2; simp only [List.length_append]; omega
    | constant i =>
      simp only [Allocated, renamed, witnessOf] at *
      rw [ec, ← gl lc i (by omega)]
      simp only [List.getD]
      rw [List.getElem?_append_right (by simp only [List.length_append]; omega)]
      congr 2; simp only [List.length_append]; omega

/-! ## Reachable trace systems -/

section
omit [Field F]

theorem TableShape.push [Field F] {rows : List (List F)} {n : ℕ} (h : TableShape rows n) :
    TableShape (rows ++ [[]]) (n + 1) := by
  obtain ⟨l, h1, h2⟩ := h
  exact ⟨l ++ [[]], by simp [h1], by rw [h2]⟩

theorem wr_ok {α : Type} {a b : List α} {i : ℕ} {x : α} (h : wr a i x = .ok b) :
    i < a.length ∧ b = a.set i x := by
  unfold wr at h
  split at h
  · cases h; exact ⟨‹_›, rfl⟩
  · cases h

theorem TableShape.wr [Field F] {rows rows' : List (List F)} {n i : ℕ} {x : List F} (h : TableShape rows n)
    (hi : i < n) (hw : Hodor.wr rows i x = .ok rows') : TableShape rows' n := by
  obtain ⟨l, h1, h2⟩ := h
  obtain ⟨-, h3⟩ := wr_ok hw
  refine ⟨l.set i x, by simp [h1], ?_⟩
  rw [h3, h2, List.set_append_left _ _ (by omega)]

theorem forEach_ok_inv {α σ : Type} (I : σ → Prop) (body : α → σ → Res σ) (l : List α)
    (hb : ∀ x ∈ l, ∀ s s', I s → body x s = .ok s' → I s') (s s' : σ) (hs : I s)
    (h : forEach l s body = .ok s') : I s' := by
  induction l generalizing s with
  | nil => cases h; exact hs
  | cons x l ih =>
    obtain ⟨s1, h1, h2⟩ := forEach_eq_ok_cons.1 h
    exact ih (fun y hy => hb y (List.mem_cons_of_mem _ hy)) s1
      (hb x (List.mem_cons_self ..) s s1 hs h1) h2

theorem forN_ok_inv {σ : Type} (I : σ → Prop) (body : ℕ → σ → Res σ) (n lo : ℕ)
    (hb : ∀ i s s', I s → body i s = .ok s' → I s') (s s' : σ) (hs : I s)
    (h : forN n lo s body = .ok s') : I s' := by
  induction n generalizing lo s with
  | zero => cases h; exact hs
  | succ n ih =>
    simp only [forN, Res.bind_eq_ok] at h
    obtain ⟨s1, h1, h2⟩ := h
    exact ih (lo + 1) s1 (hb lo s s1 hs h1) h2

end

theorem calculateWitness_shape {t t' : TraceSystem F} {a b n : ℕ} (hs : Shape t) (h2 : 2 ≤ t.registers)
    (hg : ∀ g ∈ t.witnessGenerators, WritesBelow t.registers g)
    (h : t.calculateWitness a b n = .ok t') : Shape t' ∧ t'.registers = t.registers ∧
      t'.pcRegisters = t.pcRegisters ∧ t'.auxRegisters = t.auxRegisters ∧
      t'.constantRegisters = t.constantRegisters ∧ t'.auxRegistersWitness = t.auxRegistersWitness ∧
      t'.constantRegistersWitness = t.constantRegistersWitness ∧
      t'.witnessGenerators = t.witnessGenerators := by
  simp only [TraceSystem.calculateWitness, Res.bind_eq_ok, Res.pure_def, Res.ok.injEq] at h
  obtain ⟨row0, -, rows0, hw0, row1, -, rows1, hw1, ⟨rows, cs⟩, hl, h⟩ := h
  subst h
  refine ⟨⟨hs.pc, ?_, hs.aux, hs.const⟩, rfl, rfl, rfl, rfl, rfl, rfl, rfl⟩
  have s1 := TableShape.wr (TableShape.wr hs.reg (by omega) hw0) (by omega) hw1
  apply forN_ok_inv (fun s => TableShape s.1 t.registers) _ n 0 _ _ _ s1 hl
  rintro i ⟨r1, c1⟩ ⟨r2, c2⟩ hI hb
  simp only [TraceSystem.runStep, Res.bind_eq_ok, Res.pure_def, Res.ok.injEq, Prod.mk.injEq] at hb
  obtain ⟨r3, h3, rfl, -⟩ := hb
  apply forEach_ok_inv (fun s => TableShape s t.registers) _ _ _ _ _ hI h3
  intro g hgm s s' hsI hrun
  simp only [TraceSystem.runGenerator, Res.bind_eq_ok] at hrun
  obtain ⟨vals, hv, hrun⟩ := hrun
  have hv' : g s c1 = .ok vals := by
    cases hh : g s c1 <;> rw [hh] at hv <;> simp only [TraceSystem.unwrapRes] at hv
    · exact hv
    · cases hv
    · cases hv
  apply forEach_ok_inv (fun s => TableShape s t.registers) _ _ _ _ _ hsI hrun
  intro v hvm u u' huI hst
  obtain ⟨m, hm, em⟩ := hg g hgm s c1 vals hv' v hvm
  simp only [TraceSystem.storeValue, em, Register.num, Res.ok_bind, Res.bind_eq_ok] at hst
  obtain ⟨row, -, row', -, hw⟩ := hst
  exact TableShape.wr huI hm hw

theorem WritesBelow.mono {n m : ℕ} (h : n ≤ m) {g : List (List F) → ℕ → Res (List (F × Register × ℕ))}
    (hg : WritesBelow n g) : WritesBelow m g := by
  intro rows step vals e v hv
  obtain ⟨i, hi, e'⟩ := hg rows step vals e v hv
  exact ⟨i, by omega, e'⟩

/-- What holds in every reachable trace system. -/
structure ReachInv (t : TraceSystem F) : Prop where
  shape : Shape t
  gens : ∀ g ∈ t.witnessGenerators, WritesBelow t.registers g
  pc : t.pcRegisters = 0
  aux : ∀ r ∈ t.auxRegistersWitness, r = []
  const : ∀ r ∈ t.constantRegistersWitness, r = []

theorem Spec.Reachable.inv {t : TraceSystem F} (h : Reachable t) : ReachInv t := by
  induction h with
  | new =>
    have e : TableShape ([[]] : List (List F)) 0 := ⟨[], rfl, rfl⟩
    refine ⟨⟨e, e, e, e⟩, ?_, rfl, ?_, ?_⟩ <;> intro r hr
    · cases hr
    · simpa [TraceSystem.new] using hr
    · simpa [TraceSystem.new] using hr
  | allocateRegister _ ih =>
    exact ⟨⟨ih.shape.pc, TableShape.push ih.shape.reg, ih.shape.aux, ih.shape.const⟩,
      fun g hg => WritesBelow.mono (Nat.le_succ _) (ih.gens g hg), ih.pc, ih.aux, ih.const⟩
  | allocateConstantRegister _ ih =>
    refine ⟨⟨ih.shape.pc, ih.shape.reg, ih.shape.aux, TableShape.push ih.shape.const⟩, ih.gens, ih.pc, ih.aux, ?_⟩
    intro r hr
    rcases List.mem_append.1 hr with h | h
    · exact ih.const r h
    · simpa using h
  | allocateAuxRegister _ ih =>
    refine ⟨⟨ih.shape.pc, ih.shape.reg, TableShape.push ih.shape.aux, ih.shape.const⟩, ih.gens, ih.pc, ?_, ih.const⟩
    intro r hr
    rcases List.mem_append.1 hr with h | h
    · exact ih.aux r h
    · simpa using h
  | addConstraint c _ ih => exact ⟨ih.shape.casesOn fun a b c d => ⟨a, b, c, d⟩, ih.gens, ih.pc, ih.aux, ih.const⟩
  | addConstraintWithWitness c _ hw ih =>
    refine ⟨ih.shape.casesOn fun a b c d => ⟨a, b, c, d⟩, ?_, ih.pc, ih.aux, ih.const⟩
    intro g hg
    rcases List.mem_append.1 hg with h | h
    · exact ih.gens g h
    · rw [List.mem_singleton.1 h]; exact hw
  | addBoundaryConstraint r i v _ ih =>
    exact ⟨ih.shape.casesOn fun a b c d => ⟨a, b, c, d⟩, ih.gens, ih.pc, ih.aux, ih.const⟩
  | step n _ hst ih =>
    unfold TraceSystem.step at hst
    split at hst
    · cases hst
    · cases hst
      exact ⟨ih.shape.casesOn fun a b c d => ⟨a, b, c, d⟩, ih.gens, ih.pc, ih.aux, ih.const⟩
  | calculateWitness a b n _ h2 hc ih =>
    obtain ⟨s, e1, e2, e3, e4, e5, e6, e7⟩ := calculateWitness_shape ih.shape h2 ih.gens hc
    refine ⟨s, ?_, by rw [e2]; exact ih.pc, by rw [e5]; exact ih.aux, by rw [e6]; exact ih.const⟩
    rw [e7, e1]; exact ih.gens

end Hodor

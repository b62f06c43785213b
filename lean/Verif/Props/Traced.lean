import Verif.Props.VdfVerdict

/-!
# C89: from a program written against the trace system to an accepted proof
-/

namespace Hodor

open Spec

set_option linter.unusedSectionVars false

section
variable {F : Type} [Field F]

theorem getD_append_lt {α : Type} {l l' : List α} {d : α} {i : ℕ} (h : i < l.length) : (l ++ l').getD i d = l[i] := by
  rw [List.getD_eq_getElem?_getD, List.getElem?_append_left h, List.getElem?_eq_getElem h, Option.getD_some]

theorem getD_of_lt {α : Type} {l : List α} {d : α} {i : ℕ} (h : i < l.length) : l.getD i d = l[i] := by
  rw [List.getD_eq_getElem?_getD, List.getElem?_eq_getElem h, Option.getD_some]

theorem remapUnivariate_id {f : Register → Register} {u : UnivariateTerm F} (h : f u.register = u.register) :
    remapUnivariateTerm f u = u := by
  simp only [remapUnivariateTerm, h]

theorem remapConstraint_id {f : Register → Register} {c : Constraint F} (h : ∀ u ∈ factors c, f u.register = u.register) :
    remapConstraint f c = c := by
  have e : c.terms.map (remapTerm f) = c.terms := by
    conv_rhs => rw [← List.map_id c.terms]
    apply List.map_congr_left
    intro t ht
    have h' : ∀ u ∈ termFactors t, remapUnivariateTerm f u = u := fun u hu =>
      remapUnivariate_id (h u (List.mem_flatMap.2 ⟨t, ht, hu⟩))
    cases t with
    | univariate u =>
      simp only [remapTerm, id, h' u (by simp [termFactors])]
    | polyvariate p =>
      have : p.terms.map (remapUnivariateTerm f) = p.terms := by
        conv_rhs => rw [← List.map_id p.terms]
        exact List.map_congr_left h'
      simp only [remapTerm, id, this]
  simp only [remapConstraint, e]

/-- **C89 (the conversion).** For a trace system built through the interface, whose constraints only mention registers that were handed out, a successful conversion returns the
constraints and boundary constraints as they were given, and the recorded column of register `i` as column `i` of the witness. -/
theorem C89_conversion {t : TraceSystem F} (hr : Reachable t) (hc : Closed t) {w : Option (List (List F))}
    {inst : InstanceProperties F} (h : t.intoArp = .ok (w, inst)) :
    inst = { numRows := t.currentStep + 1, numRegisters := t.registers, constraints := t.constraints, boundaryConstraints := t.boundaryConstraints } ∧
    (t.registers = 0 → w = none) ∧ (0 < t.registers → w = some (t.registersWitness.take t.registers)) := by
  have hi := hr.inv
  have h0 : t.auxRegisters + t.constantRegisters = 0 := by
    by_contra hne
    rw [C36_aux_constant_panic hr (Nat.pos_of_ne_zero hne)] at h
    cases h
  obtain ⟨h1, h2, h3, h4, h5, h6⟩ := intoArp_inv hi.shape h
  have htot : totalRegisters t = t.registers := by
    have := hi.pc
    simp only [totalRegisters]; omega
  have hid : ∀ r, Allocated t r → Register.register (renamed t r) = r := by
    intro r ha
    have := hi.pc
    cases r with
    | register i => simp only [renamed, hi.pc, Nat.add_zero]
    | programCounter i => simp only [Allocated] at ha; omega
    | aux i => simp only [Allocated] at ha; omega
    | constant i => simp only [Allocated] at ha; omega
  refine ⟨?_, fun e => h5 (htot.trans e), ?_⟩
  · have e3 : inst.constraints = t.constraints := by
      rw [h3]
      conv_rhs => rw [← List.map_id t.constraints]
      apply List.map_congr_left
      intro c hcm
      exact remapConstraint_id (fun u hu => hid _ (hc.factors c hcm u hu).1)
    have e4 : inst.boundaryConstraints = t.boundaryConstraints := by
      rw [h4]
      conv_rhs => rw [← List.map_id t.boundaryConstraints]
      apply List.map_congr_left
      intro b hb
      simp only [hid _ (hc.boundary b hb), id]
    cases inst
    simp only at h1 h2 e3 e4
    subst h1 h2 e3 e4
    rfl
  · intro hpos
    obtain ⟨wit, e, hl, hw⟩ := h6 (by omega)
    subst e
    obtain ⟨l, hll, el⟩ := hi.shape.reg
    congr 1
    rw [el, ← hll, List.take_left]
    apply List.ext_getElem (by omega)
    intro i hi1 hi2
    have := hw (.register i) (show i < t.registers by omega)
    simp only [renamed, hi.pc, Nat.add_zero, witnessOf, el] at this
    rw [getD_of_lt hi1, getD_append_lt hi2] at this
    exact this

end

section
variable {F : Type} [Field F] [DecidableEq F] [StarkField F] (H : List UInt8 → Digest)

/-- A trace system whose registers are all ordinary ones with `2^k` recorded values converts, to its own instance and table. -/
theorem traced_converts {t : TraceSystem F} {k f : ℕ} (hr : Reachable t)
    (hs : Suitable (ownInstance t) t.registers k f) (h0 : t.auxRegisters = 0 ∧ t.constantRegisters = 0)
    (hcol : ∀ i, i < t.registers → (witnessOf t (.register i)).length = 2 ^ k) :
    t.intoArp = .ok (some (t.registersWitness.take t.registers), ownInstance t) ∧
      IsTable (t.registersWitness.take t.registers) t.registers (2 ^ k) ∧
      ∀ r, Allocated t r → ∀ i, cellR (t.registersWitness.take t.registers) r i = traceCell t r i := by
  have hi := hr.inv
  have hc : Closed t := by
    refine ⟨?_, ?_⟩
    · intro c hcm u hu
      obtain ⟨tm, ht, hu'⟩ := List.mem_flatMap.1 hu
      obtain ⟨⟨r, hr1, hr2⟩, h2⟩ := (hs.terms c hcm tm ht).2.2 u hu'
      rw [hr2]
      exact ⟨hr1, h2⟩
    · intro b hb
      obtain ⟨⟨r, hr1, hr2⟩, -⟩ := hs.boundary b hb
      rw [hr2]
      exact hr1
  have hall : ∀ r, Allocated t r → witnessOf t r ≠ [] := by
    intro r ha
    have := hi.pc
    cases r with
    | register i =>
      intro e
      have := hcol i ha
      rw [e, List.length_nil] at this
      have := Nat.two_pow_pos k
      omega
    | programCounter i => simp only [Allocated] at ha; omega
    | aux i => simp only [Allocated] at ha; omega
    | constant i => simp only [Allocated] at ha; omega
  obtain ⟨⟨w, inst⟩, h⟩ := (C36_outcome hi.shape).1.2 hall
  obtain ⟨e1, -, e2⟩ := C89_conversion hr hc h
  have htot : totalRegisters t = t.registers := by
    have := hi.pc
    simp only [totalRegisters]; omega
  obtain ⟨l, hll, el⟩ := hi.shape.reg
  refine ⟨?_, ?_, ?_⟩
  · rw [h, e1, e2 hs.pos, ownInstance, htot]
  · rw [el, ← hll, List.take_left]
    refine ⟨rfl, ?_⟩
    intro row hrow
    obtain ⟨i, hil, rfl⟩ := List.getElem_of_mem hrow
    have := hcol i (by omega)
    simp only [witnessOf, el] at this
    rw [getD_append_lt hil] at this
    exact this
  · intro r ha i
    have := hi.pc
    cases r with
    | register j =>
      have hj : j < t.registers := ha
      simp only [cellR, cell, traceCell, witnessOf, el]
      rw [← hll, List.take_left, getD_append_lt (by omega : j < l.length), getD_of_lt (by omega : j < l.length)]
    | programCounter i => simp only [Allocated] at ha; omega
    | aux i => simp only [Allocated] at ha; omega
    | constant i => simp only [Allocated] at ha; omega

theorem satisfies_cells {inst : InstanceProperties F} {n k f T : ℕ} (hs : Suitable inst n k f) {w w' : Register → ℕ → F}
    (h : ∀ r, r < n → ∀ i, w (.register r) i = w' (.register r) i) (hsat : Satisfies inst w T) : Satisfies inst w' T := by
  refine ⟨?_, ?_⟩
  · intro c hc row hen
    obtain ⟨h1, h2⟩ := hsat.1 c hc row hen
    refine ⟨h1, ?_⟩
    rw [← h2]
    apply constraintValue_congr
    intro u hu
    obtain ⟨tm, ht, hu'⟩ := List.mem_flatMap.1 hu
    obtain ⟨⟨r, hr1, hr2⟩, j, hj⟩ := (hs.terms c hc tm ht).2.2 u hu'
    rw [hr2, hj]
    exact (h r hr1 _).symm
  · intro b hb v hv
    obtain ⟨⟨r, hr1, hr2⟩, -⟩ := hs.boundary b hb
    have := hsat.2 b hb v hv
    rw [hr2] at this ⊢
    rw [← h r hr1]
    exact this

/-- **C89 (any traced program).** A program builds a trace system through the interface; every register it was handed has `2^k` recorded values, and the recorded values meet the
constraints the program stated. Then the conversion succeeds, prover and verifier can be made for its result, and `prove` returns an error if the out-of-domain point it draws
falls into the extended domain, and otherwise a proof which `verify` accepts. -/
theorem C89_traced_program_partial (w : Worker) {t : TraceSystem F} {k f e : ℕ} (hr : Reachable t)
    (hs : Suitable (ownInstance t) t.registers k f) (h0 : t.auxRegisters = 0 ∧ t.constantRegisters = 0)
    (hcol : ∀ i, i < t.registers → (witnessOf t (.register i)).length = 2 ^ k)
    (hsat : Satisfies (ownInstance t) (traceCell t) (2 ^ k)) (hp : RunParams F w k f e 0) :
    ∃ wit inst prover ver z, t.intoArp = .ok (some wit, inst) ∧ Prover.new w inst (2 ^ e) 1 = .ok prover ∧
      Verifier.new inst (2 ^ e) = .ok ver ∧ OpenedAt H prover w wit e z ∧
      (z ^ 2 ^ (k + f + e) = 1 → prover.prove H wit = .err .error) ∧
      (z ^ 2 ^ (k + f + e) ≠ 1 → ∃ proof, prover.prove H wit = .ok proof ∧ ver.verify H proof = .ok true) := by
  obtain ⟨h1, h2, h3⟩ := traced_converts hr hs h0 hcol
  obtain ⟨prover, ver, z, a, b, c⟩ := C45_complete_partial H w _ _ k f e hs hp _ h2
    (satisfies_cells hs (fun r hr' i => (h3 (.register r) hr' i).symm) hsat)
  exact ⟨_, _, prover, ver, z, h1, a, b, c⟩

/-! ## Fibonacci -/

/-- The instance of the Fibonacci program is suitable. -/
theorem fibInstance_suitable {k : ℕ} (hk : 1 ≤ k) (target : Option (ℕ × ℕ)) (ht : ∀ v r, target = some (v, r) → r < 2 ^ k) :
    Suitable (fibInstance (2 ^ k - 1) (fibBoundary (F := F) target)) 2 k 0 := by
  have h := fibInst_suitable (F := F) k hk 1 1
  have := Nat.two_pow_pos k
  refine ⟨by simp only [fibInstance]; omega, rfl, by norm_num, hk, h.terms, h.density, h.degrees, ?_⟩
  intro b hb
  cases target with
  | none => simp [fibInstance, fibBoundary] at hb
  | some p =>
    obtain ⟨v, r⟩ := p
    have := ht v r rfl
    simp only [fibInstance, fibBoundary, List.mem_cons, List.not_mem_nil, or_false] at hb
    rcases hb with rfl | rfl | rfl
    · exact ⟨⟨0, by norm_num, rfl⟩, by positivity, _, rfl⟩
    · exact ⟨⟨1, by norm_num, rfl⟩, by positivity, _, rfl⟩
    · exact ⟨⟨1, by norm_num, rfl⟩, this, _, rfl⟩

/-- **C89 (what the Fibonacci instance says).** A table of two registers and `steps + 1` rows satisfies the instance of the program with the target "`B` is `v` at row `r`" exactly if its row `i` is
`(F(i+1), F(i+2))` for every `i` and `v` is `F(r+2)` in the field: there is one witness, or none. -/
theorem C89_fibonacci_witness (steps v r : ℕ) (hr : r ≤ steps) (wit : List (List F)) :
    ∃ (t t' : TraceSystem F) (own : List (List F)) (inst : InstanceProperties F),
      fibTrace (some v) (some r) .new = .ok t ∧ t.calculateWitness 1 1 steps = .ok t' ∧ t'.intoArp = .ok (some own, inst) ∧
      (Satisfies inst (cellR wit) (steps + 1) ↔
        (∀ i, i ≤ steps → cell wit 0 i = (Nat.fib (i + 1) : F) ∧ cell wit 1 i = (Nat.fib (i + 2) : F)) ∧ (v : F) = (Nat.fib (r + 2) : F)) := by
  refine ⟨fibSystem [[], [], []] 0 (fibBoundary (some (v, r))), _, _, _, rfl, fibSystem_run 1 1 steps _,
    fibSystem_intoArp steps _ ?_, ?_⟩
  · intro b hb
    simp only [fibBoundary, List.mem_cons, List.not_mem_nil, or_false] at hb
    rcases hb with rfl | rfl | rfl <;> exact ⟨_, rfl⟩
  have e0 : ∀ c, c = fibConstraint0 (F := F) (.register 0) (.register 1) ∨ c = fibConstraint1 (.register 0) (.register 1) →
      c.density = .dense ⟨0, 1⟩ := by
    rintro c (rfl | rfl) <;> rfl
  constructor
  · rintro ⟨hc, hb⟩
    have a0 := hb ⟨.register 0, 0, some 1⟩ (by simp [fibBoundary]) 1 rfl
    have b0 := hb ⟨.register 1, 0, some 1⟩ (by simp [fibBoundary]) 1 rfl
    have br := hb ⟨.register 1, r, some (v : F)⟩ (by simp [fibBoundary]) v rfl
    simp only [cellR] at a0 b0 br
    have key : ∀ i, i ≤ steps → cell wit 0 i = (Nat.fib (i + 1) : F) ∧ cell wit 1 i = (Nat.fib (i + 2) : F) := by
      intro i
      induction i with
      | zero => intro _; exact ⟨by rw [a0]; simp, by rw [b0]; simp⟩
      | succ i ih =>
        intro hi
        obtain ⟨i1, i2⟩ := ih (by omega)
        have c0 := (hc (fibConstraint0 (.register 0) (.register 1)) (by simp) i ⟨_, e0 _ (.inl rfl), by simp, by simp only; omega⟩).2
        have c1 := (hc (fibConstraint1 (.register 0) (.register 1)) (by simp) i ⟨_, e0 _ (.inr rfl), by simp, by simp only; omega⟩).2
        rw [fibConstraint0_value] at c0
        rw [fibConstraint1_value] at c1
        simp only [rowEnv, cellR, Nat.add_zero, i1, i2] at c0 c1
        refine ⟨by rw [sub_eq_zero] at c0; exact c0, ?_⟩
        have : (Nat.fib (i + 1 + 2) : F) = (Nat.fib (i + 1) : F) + (Nat.fib (i + 2) : F) := by
          rw [show Nat.fib (i + 1 + 2) = Nat.fib (i + 1) + Nat.fib (i + 2) from Nat.fib_add_two]
          push_cast; rfl
        rw [this]
        linear_combination c1
    exact ⟨key, by rw [← br]; exact (key r hr).2⟩
  · rintro ⟨key, hv⟩
    refine ⟨?_, ?_⟩
    · rintro c hc row ⟨d, hd, -, hd2⟩
      have hc' : c = fibConstraint0 (F := F) (.register 0) (.register 1) ∨ c = fibConstraint1 (.register 0) (.register 1) := by
        simpa using hc
      rw [e0 c hc'] at hd
      cases hd
      simp only at hd2
      refine ⟨?_, ?_⟩
      · intro u hu k hk
        obtain ⟨-, k', hk', e⟩ := fibFactors (F := F) (c := c) (by simpa [fibInstance] using hc') hu
        rw [e] at hk
        cases hk
        omega
      · obtain ⟨k0, k1⟩ := key row (by omega)
        obtain ⟨k2, k3⟩ := key (row + 1) (by omega)
        rcases hc' with rfl | rfl
        · rw [fibConstraint0_value]
          simp only [rowEnv, cellR, Nat.add_zero, k1, k2]
          rw [sub_eq_zero]
        · rw [fibConstraint1_value]
          simp only [rowEnv, cellR, Nat.add_zero, k0, k1, k3]
          rw [show Nat.fib (row + 1 + 2) = Nat.fib (row + 1) + Nat.fib (row + 2) from Nat.fib_add_two]
          push_cast
          ring
    · intro b hb x hx
      simp only [fibBoundary, List.mem_cons, List.not_mem_nil, or_false] at hb
      rcases hb with rfl | rfl | rfl
      · cases hx
        show cell wit 0 0 = 1
        rw [(key 0 (by omega)).1]; simp
      · cases hx
        show cell wit 1 0 = 1
        rw [(key 0 (by omega)).2]; simp
      · cases hx
        show cell wit 1 r = v
        rw [(key r hr).2, hv]

/-- **C89 (without a target).** If no final value is asked for, the program states no boundary constraint, so the instance says nothing of the start: its witnesses are the tables which follow the recurrence from any two values. -/
theorem C89_fibonacci_no_target (steps : ℕ) (wit : List (List F)) :
    ∃ (t t' : TraceSystem F) (own : List (List F)) (inst : InstanceProperties F),
      fibTrace none none .new = .ok t ∧ t.calculateWitness 1 1 steps = .ok t' ∧ t'.intoArp = .ok (some own, inst) ∧
      (Satisfies inst (cellR wit) (steps + 1) ↔
        ∀ i, i < steps → cell wit 0 (i + 1) = cell wit 1 i ∧ cell wit 1 (i + 1) = cell wit 0 i + cell wit 1 i) := by
  refine ⟨fibSystem [[], [], []] 0 (fibBoundary none), _, _, _, rfl, fibSystem_run 1 1 steps _,
    fibSystem_intoArp steps _ (by intro b hb; simp [fibBoundary] at hb), ?_⟩
  have e0 : ∀ c, c = fibConstraint0 (F := F) (.register 0) (.register 1) ∨ c = fibConstraint1 (.register 0) (.register 1) →
      c.density = .dense ⟨0, 1⟩ := by
    rintro c (rfl | rfl) <;> rfl
  constructor
  · rintro ⟨hc, -⟩ i hi
    have c0 := (hc (fibConstraint0 (.register 0) (.register 1)) (by simp) i ⟨_, e0 _ (.inl rfl), by simp, by simp only; omega⟩).2
    have c1 := (hc (fibConstraint1 (.register 0) (.register 1)) (by simp) i ⟨_, e0 _ (.inr rfl), by simp, by simp only; omega⟩).2
    rw [fibConstraint0_value] at c0
    rw [fibConstraint1_value] at c1
    simp only [rowEnv, cellR, Nat.add_zero] at c0 c1
    exact ⟨by linear_combination c0, by linear_combination c1⟩
  · intro key
    refine ⟨?_, by intro b hb; simp [fibBoundary] at hb⟩
    rintro c hc row ⟨d, hd, -, hd2⟩
    have hc' : c = fibConstraint0 (F := F) (.register 0) (.register 1) ∨ c = fibConstraint1 (.register 0) (.register 1) := by
      simpa using hc
    rw [e0 c hc'] at hd
    cases hd
    simp only at hd2
    refine ⟨?_, ?_⟩
    · intro u hu k hk
      obtain ⟨-, k', hk', e⟩ := fibFactors (F := F) (c := c) (by simpa [fibInstance] using hc') hu
      rw [e] at hk
      cases hk
      omega
    · obtain ⟨k0, k1⟩ := key row (by omega)
      rcases hc' with rfl | rfl
      · rw [fibConstraint0_value]
        simp only [rowEnv, cellR, Nat.add_zero]
        linear_combination k0
      · rw [fibConstraint1_value]
        simp only [rowEnv, cellR, Nat.add_zero]
        linear_combination k1

/-- **C89 (the test of the prover, for every size).** The Fibonacci program with no target or with a true one, run for `2^k - 1` steps: its conversion can be proved with any LDE factor in range, and the proof is accepted (or the out-of-domain point falls into the
extended domain). -/
theorem C89_fibonacci_proved_partial (w : Worker) (k e a b : ℕ) (target : Option (ℕ × ℕ))
    (ht : ∀ v r, target = some (v, r) → r < 2 ^ k ∧ (v : F) = (Nat.fib (r + 2) : F)) (hp : RunParams F w k 0 e 0) :
    ∃ (t t' : TraceSystem F) (wit : List (List F)) (inst : InstanceProperties F) (prover : Prover F) (ver : Verifier F) (z : F), fibTrace (target.map Prod.fst) (target.map Prod.snd) .new = .ok t ∧
      t.calculateWitness a b (2 ^ k - 1) = .ok t' ∧ t'.intoArp = .ok (some wit, inst) ∧
      Prover.new w inst (2 ^ e) 1 = .ok prover ∧ Verifier.new inst (2 ^ e) = .ok ver ∧ OpenedAt H prover w wit e z ∧
      (z ^ 2 ^ (k + e) = 1 → prover.prove H wit = .err .error) ∧
      (z ^ 2 ^ (k + e) ≠ 1 → ∃ proof, prover.prove H wit = .ok proof ∧ ver.verify H proof = .ok true) := by
  have hk : 1 ≤ k := by have := hp.out; omega
  have h2k := Nat.two_pow_pos k
  have hs := fibInstance_suitable (F := F) hk target (fun v r e => (ht v r e).1)
  have e1 : 2 ^ k - 1 + 1 = 2 ^ k := by omega
  have htab : IsTable [tab (2 ^ k - 1 + 1) (fibA F), tab (2 ^ k - 1 + 1) (fibB F)] 2 (2 ^ k) :=
    ⟨rfl, by intro r hr; simp only [List.mem_cons, List.not_mem_nil, or_false] at hr
             rcases hr with rfl | rfl <;> simp [e1]⟩
  have hsat := (fib_satisfied_iff (F := F) (2 ^ k - 1) target (fun v r e => by have := (ht v r e).1; omega)).2
    (fun v r e => (ht v r e).2)
  rw [(C33_is_satisfied_iff _ _ 2 (2 ^ k) (by norm_num) htab hs.wellFormed).1] at hsat
  obtain ⟨prover, ver, z, c1, c2, c3⟩ := C45_complete_partial H w _ 2 k 0 e hs hp _ htab hsat
  refine ⟨fibSystem [[], [], []] 0 (fibBoundary target), _, _, _, prover, ver, z, ?_, fibSystem_run a b _ _,
    fibSystem_intoArp _ _ ?_, c1, c2, c3⟩
  · cases target <;> rfl
  · intro b hb
    cases target with
    | none => simp [fibBoundary] at hb
    | some p =>
      simp only [fibBoundary, List.mem_cons, List.not_mem_nil, or_false] at hb
      rcases hb with rfl | rfl | rfl <;> exact ⟨_, rfl⟩

/-- **C89 (the soundness test of the prover, for every size and every wrong table).** The Fibonacci program with a target within the trace. If the target is false, or the table handed to `prove` differs from the recorded one in some cell, then the proof,
on any number of CPUs and for any number of final coefficients, is accepted only if the out-of-domain point is one at which the prover's `G` happens to agree with the constraints; such points are at most twice as many as rows, or one of the challenges
is the only value of its kind with more. -/
theorem C89_fibonacci_wrong (w : Worker) (k e o : ℕ) (hout : o < k) (v r : ℕ) (hr : r < 2 ^ k) (hp : ProverParams F k 0 e o)
    (wit : List (List F)) (hw : IsTable wit 2 (2 ^ k))
    (hbad : (v : F) ≠ (Nat.fib (r + 2) : F) ∨ ∃ i, i < 2 ^ k ∧ (cell wit 0 i ≠ (Nat.fib (i + 1) : F) ∨ cell wit 1 i ≠ (Nat.fib (i + 2) : F))) :
    ∃ (t t' : TraceSystem F) (own : List (List F)) (inst : InstanceProperties F) (prover : Prover F) (ver : Verifier F),
      fibTrace (some v) (some r) .new = .ok t ∧ t.calculateWitness 1 1 (2 ^ k - 1) = .ok t' ∧ t'.intoArp = .ok (some own, inst) ∧
      Prover.new w inst (2 ^ e) (2 ^ o) = .ok prover ∧ Verifier.new inst (2 ^ e) = .ok ver ∧
      prover.prove H wit ≠ .panic ∧
      ∀ proof, prover.prove H wit = .ok proof → ver.verify H proof = .ok true →
        ∃ ch fDom gDom dom ps, ∃ G : Poly F .coefficients, ∃ gLde gTree, ver.deriveChallenges H proof = .ok (ch, fDom, gDom) ∧
          Domain.newForSize F (2 ^ k) = .ok dom ∧ calculateWitnessPolys prover.arp wit w = .ok ps ∧
          (∃ tr', prover.ali.calculateG H (afterRoots proof.fIopRoots) ps w = .ok (G, tr')) ∧ G.lde w (2 ^ e) = .ok gLde ∧
          IopTree.create H w gLde.coeffs = .ok gTree ∧ gTree.getRoot = .ok proof.gIopRoot ∧
          ch.z ∈ agreement dom.generator (2 ^ k) 1 (polyEnv w ps) ((batchesOf prover.arp.constraints).flatMap (·.2))
              inst.boundaryConstraints (G.evaluateAt w) ch.constraintChallenges ch.boundaryChallenges ∧
          ((agreement dom.generator (2 ^ k) 1 (polyEnv w ps) ((batchesOf prover.arp.constraints).flatMap (·.2))
              inst.boundaryConstraints (G.evaluateAt w) ch.constraintChallenges ch.boundaryChallenges).encard ≤ (2 * 2 ^ k : ℕ) ∨
            OnlyValue (AgreesOften dom.generator (2 ^ k) 1 (2 ^ k) (polyEnv w ps)
              ((batchesOf prover.arp.constraints).flatMap (·.2)) inst.boundaryConstraints)
              ch.constraintChallenges ch.boundaryChallenges) := by
  have hk : 1 ≤ k := by omega
  have h2k := Nat.two_pow_pos k
  have hS := hp.size
  have hs := fibInstance_suitable (F := F) hk (some (v, r)) (fun v' r' e => by cases e; exact hr)
  have hr' := hs.runnable
  have e1 : 2 ^ k - 1 + 1 = 2 ^ k := by omega
  obtain ⟨t, t', own, inst, f1, f2, f3, f4⟩ := C89_fibonacci_witness (F := F) (2 ^ k - 1) v r (by omega) wit
  have f3' : t'.intoArp = .ok (some [tab (2 ^ k - 1 + 1) (fibA F), tab (2 ^ k - 1 + 1) (fibB F)],
      fibInstance (2 ^ k - 1) (fibBoundary (some (v, r)))) := by
    have g1 : fibTrace (F := F) (some v) (some r) .new = .ok (fibSystem [[], [], []] 0 (fibBoundary (some (v, r)))) := rfl
    rw [g1] at f1
    cases f1
    rw [fibSystem_run] at f2
    cases f2
    refine fibSystem_intoArp _ _ ?_
    intro b hb
    simp only [fibBoundary, List.mem_cons, List.not_mem_nil, or_false] at hb
    rcases hb with rfl | rfl | rfl <;> exact ⟨_, rfl⟩
  rw [f3] at f3'
  have einst : inst = fibInstance (2 ^ k - 1) (fibBoundary (some (v, r))) := (Prod.mk.inj (Res.ok.inj f3')).2
  rw [e1] at f4
  have hnot : ¬ Satisfies inst (cellR wit) (2 ^ k) := by
    rw [f4]
    rintro ⟨h1, h2⟩
    rcases hbad with h | ⟨i, hi, h | h⟩
    · exact h h2
    · exact h (h1 i (by omega)).1
    · exact h (h1 i (by omega)).2
  rw [einst] at hnot f3
  obtain ⟨prover, a1, a2⟩ := C65_prove_no_panic_partial (F := F) H w _ 2 k 0 e o hr' hp hout wit hw
  obtain ⟨ver, b1, -⟩ := hr'.newVerifier (by omega) (2 ^ e)
  refine ⟨t, t', own, _, prover, ver, f1, f2, f3, a1, b1, a2, ?_⟩
  intro proof hproof hacc
  have := C64_violating_needs_luck_any_worker H w hr' hp hout
    (fun c hc tm htm => (hs.terms c hc tm htm).2.1) ?_ ?_ wit hw hnot prover a1 ver b1 proof hproof hacc
  · simpa only [Nat.add_zero, pow_zero, two_mul] using this
  · intro c hc d hd u hu j hj
    have e0 : c.density = .dense ⟨0, 1⟩ := by
      simp only [fibInstance, List.mem_cons, List.not_mem_nil, or_false] at hc
      rcases hc with rfl | rfl <;> rfl
    rw [e0] at hd
    cases hd
    obtain ⟨-, k', hk', e⟩ := fibFactors (F := F) (c := c) (by simpa [fibInstance] using hc) hu
    rw [e] at hj
    cases hj
    exact hk'
  · intro b hb
    rw [hs.rows]
    exact (hs.boundary b hb).2.1

/-- The Fibonacci program is a program written against the interface. -/
theorem fibSystem_reachable (v r : ℕ) : Reachable (fibSystem (F := F) [[], [], []] 0 (fibBoundary (some (v, r)))) := by
  have e : fibSystem (F := F) [[], [], []] 0 (fibBoundary (some (v, r))) =
      (((((TraceSystem.new.allocateRegister.2.allocateRegister.2.addConstraintWithWitness
        (fibConstraint0 (.register 0) (.register 1)) (fibGenerator0 (.register 0) (.register 1))).addConstraintWithWitness
        (fibConstraint1 (.register 0) (.register 1)) (fibGenerator1 (.register 0) (.register 1))).addBoundaryConstraint (.register 0) 0 (some 1)).addBoundaryConstraint
        (.register 1) 0 (some 1)).addBoundaryConstraint (.register 1) r (some (v : F))) := rfl
  rw [e]
  refine .addBoundaryConstraint _ _ _ (.addBoundaryConstraint _ _ _ (.addBoundaryConstraint _ _ _ ?_))
  apply Reachable.addConstraintWithWitness
  · apply Reachable.addConstraintWithWitness
    · exact .allocateRegister (.allocateRegister .new)
    · intro rows step vals e v hv
      simp only [fibGenerator0, Res.bind_eq_ok, Res.pure_def, Res.ok.injEq] at e
      obtain ⟨x, -, rfl⟩ := e
      rw [List.mem_singleton.1 hv]
      exact ⟨0, (by norm_num : 0 < 2), rfl⟩
  · intro rows step vals e v hv
    simp only [fibGenerator1, Res.bind_eq_ok, Res.pure_def, Res.ok.injEq] at e
    obtain ⟨x, -, y, -, rfl⟩ := e
    rw [List.mem_singleton.1 hv]
    exact ⟨1, (by norm_num : 1 < 2), rfl⟩

end

/-- The parameters of the repository's two tests (257, four rows, LDE factor 16, one final coefficient) meet the hypotheses, and so does the table of the soundness test (`123` in row 1 of the first register). -/
theorem fibTest_params : RunParams Fr ⟨1, by norm_num⟩ 2 0 4 0 ∧ ProverParams Fr 2 0 4 0 ∧ ((5 : ℕ) : Fr) = (Nat.fib (3 + 2) : Fr) ∧
    cell [[(1 : Fr), 123, 2, 3], [1, 2, 3, 5]] 0 1 ≠ (Nat.fib (1 + 1) : Fr) := by
  refine ⟨⟨by decide, by decide, by decide, by decide, by decide, .inl rfl, .inl rfl, by decide +kernel, by decide +kernel⟩,
    ⟨by decide, by decide, by decide, by decide, by decide +kernel, by decide +kernel⟩, by decide +kernel, by decide +kernel⟩

example (H : List UInt8 → Digest) := C89_fibonacci_proved_partial (F := Fr) H ⟨1, by norm_num⟩ 2 4 1 1 (some (5, 3))
  (by rintro v r ⟨⟩; exact ⟨by norm_num, fibTest_params.2.2.1⟩) fibTest_params.1

example (H : List UInt8 → Digest) (w : Worker) := C89_fibonacci_wrong (F := Fr) H w 2 4 0 (by norm_num) 5 3 (by norm_num) fibTest_params.2.1
  [[1, 123, 2, 3], [1, 2, 3, 5]] ⟨rfl, by decide⟩ (.inr ⟨1, by norm_num, .inl fibTest_params.2.2.2⟩)

/-- The hypotheses of `C89_traced_program_partial` are met by the Fibonacci program after its run. -/
example : ∃ t : TraceSystem Fr, Reachable t ∧ Suitable (ownInstance t) t.registers 2 0 ∧
    (t.auxRegisters = 0 ∧ t.constantRegisters = 0) ∧ (∀ i, i < t.registers → (witnessOf t (.register i)).length = 2 ^ 2) ∧
    Satisfies (ownInstance t) (traceCell t) (2 ^ 2) := by
  refine ⟨fibSystem [tab (3 + 1) (fibA Fr), tab (3 + 1) (fibB Fr), []] 3 (fibBoundary (some (5, 3))),
    .calculateWitness 1 1 3 (fibSystem_reachable 5 3) (by decide) (fibSystem_run 1 1 3 _),
    fibInstance_suitable (F := Fr) (k := 2) (by norm_num) (some (5, 3)) (by rintro v r ⟨⟩; norm_num), ⟨rfl, rfl⟩, ?_, ?_⟩
  · intro i hi
    have : i = 0 ∨ i = 1 := by
      have : i < 2 := hi
      omega
    rcases this with rfl | rfl
    · show (tab (3 + 1) (fibA Fr)).length = _; simp
    · show (tab (3 + 1) (fibB Fr)).length = _; simp
  · have h := (fib_satisfied_iff (F := Fr) 3 (some (5, 3)) (by rintro v r ⟨⟩; norm_num)).2 (by rintro v r ⟨⟩; exact fibTest_params.2.2.1)
    have hs := fibInstance_suitable (F := Fr) (k := 2) (by norm_num) (some (5, 3)) (by rintro v r ⟨⟩; norm_num)
    have htab : IsTable [tab (3 + 1) (fibA Fr), tab (3 + 1) (fibB Fr)] 2 (2 ^ 2) :=
      ⟨rfl, by intro r hr; simp only [List.mem_cons, List.not_mem_nil, or_false] at hr; rcases hr with rfl | rfl <;> simp⟩
    refine satisfies_cells hs ?_ ((C33_is_satisfied_iff _ _ 2 (2 ^ 2) (by norm_num) htab hs.wellFormed).1.1 h)
    intro r hr i
    have : r = 0 ∨ r = 1 := by omega
    rcases this with rfl | rfl <;> rfl

/-- Without a target the zero table is a witness. -/
example : ∃ (t t' : TraceSystem Fr) (own : List (List Fr)) (inst : InstanceProperties Fr),
    fibTrace none none .new = .ok t ∧ t.calculateWitness 1 1 3 = .ok t' ∧ t'.intoArp = .ok (some own, inst) ∧
    Satisfies inst (cellR [[0, 0, 0, 0], [0, 0, 0, 0]]) 4 := by
  obtain ⟨t, t', own, inst, h1, h2, h3, h4⟩ := C89_fibonacci_no_target (F := Fr) 3 [[0, 0, 0, 0], [0, 0, 0, 0]]
  refine ⟨t, t', own, inst, h1, h2, h3, h4.2 ?_⟩
  decide +kernel

end Hodor

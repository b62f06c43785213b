import Verif.Model.MachineAir
import Verif.Model.F257
import Verif.Props.Air
import Verif.Props.Supported
import Verif.Lemmas.StarkV

/-!
# C72: build profiles

With overflow checks (debug) the functions with 64-bit words are those of the rest of the model. Without them (release)
they return the same whenever the debug build does not panic; what they do otherwise is determined.
-/

namespace Hodor

open Spec

variable {F : Type} [Field F]

/-! ## Specification -/

/-- The release outcome agrees with the debug outcome unless the debug build panics. -/
def Refines {α : Type} (debug release : Res α) : Prop := debug = .panic ∨ release = debug

/-- Constraint `c` holds at row `row` of a trace with `T` rows when rows are computed modulo `2^64`: the rows it reads
exist and its value is zero. -/
def HoldsAtWord (w : Register → ℕ → F) (T : ℕ) (c : Constraint F) (row : ℕ) : Prop :=
  (∀ t ∈ factors c, ∀ k, t.stepsDifference = .steps k → (row + k) % 2 ^ 64 < T) ∧
    constraintValue (fun r s => match s with | .steps k => w r ((row + k) % 2 ^ 64) | .mask _ => 0) c = 0

/-- The rows a constraint is enforced at when the number of the last one is computed modulo `2^64`. -/
def EnforcedWord (c : Constraint F) (T row : ℕ) : Prop :=
  ∃ d, c.density = .dense d ∧ d.startAt ≤ row ∧ row < (2 ^ 64 + T - d.span) % 2 ^ 64

/-! ## Debug -/

theorem addWord_debug (a b : ℕ) : addWord .debug a b = if a + b < 2 ^ 64 then .ok (a + b) else .panic := rfl

theorem subWord_debug (a b : ℕ) : subWord .debug a b = (Res.assert (b ≤ a) >>= fun _ => .ok (a - b)) := by
  unfold subWord
  by_cases h : b ≤ a
  · rw [if_pos h, decide_eq_true h]; rfl
  · rw [if_neg h, decide_eq_false h]; rfl

theorem addWord_release (a b : ℕ) : addWord .release a b = .ok ((a + b) % 2 ^ 64) := by
  unfold addWord
  split
  · rw [Nat.mod_eq_of_lt ‹_›]
  · rfl

theorem subWord_release {a b : ℕ} (ha : a < 2 ^ 64) : subWord .release a b = .ok ((2 ^ 64 + a - b) % 2 ^ 64) := by
  unfold subWord
  split
  · rename_i h
    rw [show 2 ^ 64 + a - b = (a - b) + 2 ^ 64 by omega, Nat.add_mod_right, Nat.mod_eq_of_lt (by omega)]
  · rfl

/-! ## Refinement -/

theorem Refines.rfl' {α : Type} (x : Res α) : Refines x x := Or.inr rfl

theorem Refines.bind {α β : Type} {x y : Res α} {f g : α → Res β} (h : Refines x y) (hf : ∀ a, Refines (f a) (g a)) :
    Refines (x >>= f) (y >>= g) := by
  rcases h with rfl | rfl
  · exact Or.inl rfl
  · cases y with
    | ok a => exact hf a
    | err e => exact Or.inr rfl
    | panic => exact Or.inr rfl

theorem Refines.forEach {α σ : Type} {f g : α → σ → Res σ} (l : List α) (h : ∀ a s, Refines (f a s) (g a s)) :
    ∀ s, Refines (Hodor.forEach l s f) (Hodor.forEach l s g) := by
  induction l with
  | nil => intro s; exact Refines.rfl' _
  | cons a l ih => intro s; exact Refines.bind (h a s) ih

theorem Refines.addWord (a b : ℕ) : Refines (Hodor.addWord .debug a b) (Hodor.addWord .release a b) := by
  unfold Hodor.addWord
  split
  · exact Or.inr rfl
  · exact Or.inl rfl

theorem Refines.subWord (a b : ℕ) : Refines (Hodor.subWord .debug a b) (Hodor.subWord .release a b) := by
  unfold Hodor.subWord
  split
  · exact Or.inr rfl
  · exact Or.inl rfl

theorem refines_univariate (t : UnivariateTerm F) (witness : List (List F)) (row : ℕ) :
    Refines (evaluateUnivariateWord .debug t witness row) (evaluateUnivariateWord .release t witness row) := by
  unfold evaluateUnivariateWord
  exact Refines.bind (Refines.rfl' _) fun _ => Refines.bind (Refines.rfl' _) fun _ => Refines.bind (Refines.rfl' _) fun _ =>
    Refines.bind (Refines.addWord _ _) fun _ => Refines.rfl' _

theorem refines_term (t : ConstraintTerm F) (witness : List (List F)) (row : ℕ) :
    Refines (evaluateTermWord .debug witness row t) (evaluateTermWord .release witness row t) := by
  cases t with
  | univariate t => exact refines_univariate t witness row
  | polyvariate q =>
    exact Refines.bind (Refines.forEach _ (fun a s => Refines.bind (refines_univariate a witness row)
      (fun _ => Refines.rfl' _)) _) (fun _ => Refines.rfl' _)

theorem refines_constraint (c : Constraint F) (witness : List (List F)) (row : ℕ) :
    Refines (evaluateConstraintWord .debug c witness row) (evaluateConstraintWord .release c witness row) :=
  Refines.forEach _ (fun a _ => Refines.bind (refines_term a witness row) (fun _ => Refines.rfl' _)) _

section
variable [DecidableEq F]

/-- **C72** (release builds agree with debug builds). For every constraint operation, instance, witness and density,
whatever a debug build returns, value or error, a release build returns too. -/
theorem C72_refines (q r : PolyvariateTerm F) (t : UnivariateTerm F) (inst : InstanceProperties F)
    (witness : List (List F)) (x : F) (columnDomain : Domain F) (d : DenseConstraint) (numRows : ℕ) :
    Refines (q.mulUnivariateWord .debug t) (q.mulUnivariateWord .release t) ∧
    Refines (q.mulPolyvariateWord .debug r) (q.mulPolyvariateWord .release r) ∧
    Refines (isSatisfiedWord .debug inst witness) (isSatisfiedWord .release inst witness) ∧
    Refines (excludedRootsWord .debug columnDomain d numRows) (excludedRootsWord .release columnDomain d numRows) ∧
    Refines (inverseDivisorAtWord .debug x columnDomain d numRows) (inverseDivisorAtWord .release x columnDomain d numRows) := by
  refine ⟨Refines.bind (Refines.addWord _ _) fun _ => Refines.rfl' _,
    Refines.bind (Refines.addWord _ _) fun _ => Refines.rfl' _, ?_,
    Refines.bind (Refines.subWord _ _) fun _ => Refines.rfl' _, ?_⟩
  · refine Refines.bind (Refines.rfl' _) fun row0 => Refines.bind (Refines.forEach _ (fun c _ => ?_) _) fun _ => Refines.rfl' _
    unfold checkConstraintWord
    cases c.density with
    | dense d =>
      exact Refines.bind (Refines.bind (Refines.subWord _ _) fun _ => Refines.rfl' _) fun rows =>
        Refines.forEach _ (fun row _ => Refines.bind (refines_constraint c witness row) fun _ => Refines.rfl' _) _
    | repeated d => exact Or.inl rfl
    | sparse d => exact Or.inl rfl
  · refine Refines.bind (Refines.bind (Refines.subWord _ _) fun _ => Refines.bind (Refines.subWord _ _) fun _ =>
      Refines.bind (Refines.subWord _ _) fun _ => Refines.subWord _ _) fun _ => Refines.bind (Refines.rfl' _) fun _ => ?_
    exact Refines.bind (Refines.subWord _ _) fun _ => Refines.rfl' _

omit [DecidableEq F] in
theorem divisorDegreeWord_debug (size numRows : ℕ) (d : DenseConstraint) :
    divisorDegreeWord .debug size numRows d = divisorDegree size numRows d := by
  unfold divisorDegreeWord divisorDegree
  simp only [subWord_debug]
  by_cases h1 : d.startAt ≤ size
  · by_cases h2 : numRows ≤ size
    · by_cases h3 : size - numRows ≤ size - d.startAt
      · simp [h1, h2, show size ≤ size - d.startAt + numRows by omega]
      · simp [h1, h2, show ¬ size ≤ size - d.startAt + numRows by omega]
    · simp [h1, h2]
  · simp [h1]

omit [DecidableEq F] in
theorem evaluateUnivariateWord_debug {t : UnivariateTerm F} {witness : List (List F)} {row : ℕ}
    (h : ∀ k, t.stepsDifference = .steps k → row + k < 2 ^ 64) :
    evaluateUnivariateWord .debug t witness row = evaluateUnivariateTermOnWitness t witness row := by
  unfold evaluateUnivariateWord evaluateUnivariateTermOnWitness
  cases hk : t.stepsDifference with
  | mask m => rfl
  | steps k =>
    simp only [Res.ok_bind, addWord_debug, if_pos (h k hk)]
    rfl

omit [DecidableEq F] in
theorem evaluateConstraintWord_debug {c : Constraint F} {witness : List (List F)} {row : ℕ}
    (h : ∀ u ∈ factors c, ∀ k, u.stepsDifference = .steps k → row + k < 2 ^ 64) :
    evaluateConstraintWord .debug c witness row = evaluateConstraintOnWitness c witness row := by
  have cong : ∀ {α σ : Type} (l : List α) (f g : α → σ → Res σ), (∀ a ∈ l, ∀ s, f a s = g a s) → ∀ s,
      forEach l s f = forEach l s g := by
    intro α σ l f g
    induction l with
    | nil => intro _ s; rfl
    | cons a l ih =>
      intro hfg s
      simp only [forEach]
      rw [hfg a (by simp)]
      congr 1
      funext s'
      exact ih (fun b hb => hfg b (List.mem_cons_of_mem _ hb)) s'
  refine cong _ _ _ (fun t ht s => ?_) _
  have hu : ∀ u ∈ termFactors t, u ∈ factors c := fun u hu => List.mem_flatMap.2 ⟨t, ht, hu⟩
  congr 1
  cases t with
  | univariate t => exact evaluateUnivariateWord_debug (h t (hu t (by simp [termFactors])))
  | polyvariate q =>
    simp only [evaluateTermWord, evaluateTermOnWitness]
    congr 1
    exact cong _ _ _ (fun u hm s => by rw [evaluateUnivariateWord_debug (h u (hu u hm))]) _

/-- **C72** (debug builds). With overflow checks, and sizes that fit in 64 bits, the functions on words are the ones used
in all other properties. -/
theorem C72_debug (q r : PolyvariateTerm F) (t : UnivariateTerm F) (inst : InstanceProperties F)
    (witness : List (List F)) (x : F) (columnDomain : Domain F) (d : DenseConstraint) (numRows : ℕ)
    (hfit : ∀ c ∈ inst.constraints, ∀ u ∈ factors c, ∀ k, u.stepsDifference = .steps k → ∀ row ∈ witness, row.length + k ≤ 2 ^ 64) :
    q.mulUnivariateWord .debug t = q.mulUnivariate t ∧
    q.mulPolyvariateWord .debug r = q.mulPolyvariate r ∧
    isSatisfiedWord .debug inst witness = isSatisfied inst witness ∧
    excludedRootsWord .debug columnDomain d numRows = excludedRoots columnDomain d numRows ∧
    inverseDivisorAtWord .debug x columnDomain d numRows = inverseDivisorAt x columnDomain d numRows := by
  refine ⟨rfl, rfl, ?_, ?_, ?_⟩
  · unfold isSatisfiedWord isSatisfied
    cases hr : rd witness 0 with
    | err e => rfl
    | panic => rfl
    | ok row0 =>
      have hm : row0 ∈ witness := by
        unfold rd at hr
        cases hw : witness[0]? with
        | none => rw [hw] at hr; cases hr
        | some y =>
          rw [hw] at hr
          cases hr
          exact List.mem_of_getElem? hw
      simp only [Res.ok_bind]
      congr 1
      have cong : ∀ {α σ : Type} (l : List α) (f g : α → σ → Res σ), (∀ a ∈ l, ∀ s, f a s = g a s) → ∀ s,
          forEach l s f = forEach l s g := by
        intro α σ l f g
        induction l with
        | nil => intro _ s; rfl
        | cons a l ih =>
          intro hfg s
          simp only [forEach]
          rw [hfg a (by simp)]
          congr 1
          funext s'
          exact ih (fun b hb => hfg b (List.mem_cons_of_mem _ hb)) s'
      refine cong _ _ _ (fun c hc _ => ?_) _
      unfold checkConstraintWord checkConstraint
      cases c.density with
      | repeated d => rfl
      | sparse d => rfl
      | dense d =>
        have e : denseRowsWord .debug d row0.length = denseRows d row0.length := by
          unfold denseRowsWord denseRows
          rw [subWord_debug]
          by_cases h : d.span ≤ row0.length <;> simp [h]
        simp only [e]
        cases hd : denseRows d row0.length with
        | err e => rfl
        | panic => rfl
        | ok rows =>
          simp only [Res.ok_bind]
          refine cong _ _ _ (fun row hrow _ => ?_) _
          have hlt : row < row0.length := by
            unfold denseRows at hd
            obtain ⟨_, -, hd⟩ := Res.bind_eq_ok.1 hd
            cases hd
            obtain ⟨i, hi, rfl⟩ := List.mem_map.1 hrow
            have := List.mem_range.1 hi
            omega
          unfold checkRowWord checkRow
          rw [evaluateConstraintWord_debug (fun u hu k hk => by have := hfit c hc u hu k hk row0 hm; omega)]
  · unfold excludedRootsWord excludedRoots
    rw [subWord_debug]
    by_cases h : d.span ≤ numRows <;> simp [h]
  · unfold inverseDivisorAtWord inverseDivisorAt
    rw [divisorDegreeWord_debug]
    congr 1
    funext _
    congr 1
    funext inv
    rw [subWord_debug]
    by_cases h : d.span ≤ numRows <;> simp [h]

end

/-! ## Release -/

/-- A factor as it is read at row `row` without overflow checks: from row 0, with the row modulo `2^64`. -/
def shiftFactor (row : ℕ) (t : UnivariateTerm F) : UnivariateTerm F :=
  { t with stepsDifference := match t.stepsDifference with | .steps k => .steps ((row + k) % 2 ^ 64) | .mask m => .mask m }

/-- The same for a term. -/
def shiftTerm (row : ℕ) : ConstraintTerm F → ConstraintTerm F
  | .univariate t => .univariate (shiftFactor row t)
  | .polyvariate q => .polyvariate { q with terms := q.terms.map (shiftFactor row) }

/-- The same for a constraint. -/
def shiftConstraint (row : ℕ) (c : Constraint F) : Constraint F := { c with terms := c.terms.map (shiftTerm row) }

theorem evaluateUnivariateWord_release (t : UnivariateTerm F) (witness : List (List F)) (row : ℕ) :
    evaluateUnivariateWord .release t witness row = evaluateUnivariateTermOnWitness (shiftFactor row t) witness 0 := by
  unfold evaluateUnivariateWord evaluateUnivariateTermOnWitness shiftFactor
  cases hk : t.stepsDifference with
  | mask m => rfl
  | steps k =>
    simp only [Res.ok_bind, addWord_release, Nat.zero_add]
    rfl

theorem forEach_map_arg {α β σ : Type} (h : α → β) (l : List α) (f : β → σ → Res σ) : ∀ s,
    forEach (l.map h) s f = forEach l s (fun a s => f (h a) s) := by
  induction l with
  | nil => intro s; rfl
  | cons a l ih =>
    intro s
    simp only [List.map_cons, forEach]
    congr 1
    funext s'
    exact ih s'

theorem evaluateConstraintWord_release (c : Constraint F) (witness : List (List F)) (row : ℕ) :
    evaluateConstraintWord .release c witness row = evaluateConstraintOnWitness (shiftConstraint row c) witness 0 := by
  unfold evaluateConstraintWord evaluateConstraintOnWitness shiftConstraint
  rw [forEach_map_arg]
  congr 1
  funext t s
  congr 1
  cases t with
  | univariate t => exact evaluateUnivariateWord_release t witness row
  | polyvariate q =>
    simp only [evaluateTermWord, evaluateTermOnWitness, shiftTerm, forEach_map_arg, evaluateUnivariateWord_release]

omit [Field F] in
theorem factors_shift (row : ℕ) (c : Constraint F) : factors (shiftConstraint row c) = (factors c).map (shiftFactor row) := by
  unfold factors shiftConstraint
  simp only [List.flatMap_map, List.map_flatMap]
  congr 1
  funext t
  cases t <;> rfl

theorem holdsAtWord_iff (w : Register → ℕ → F) (T : ℕ) (c : Constraint F) (row : ℕ) :
    HoldsAt w T (shiftConstraint row c) 0 ↔ HoldsAtWord w T c row := by
  unfold HoldsAt HoldsAtWord
  rw [factors_shift]
  apply and_congr
  · simp only [List.mem_map, forall_exists_index, and_imp, forall_apply_eq_imp_iff₂, Nat.zero_add]
    apply forall_congr'; intro u
    apply forall_congr'; intro _
    unfold shiftFactor
    cases u.stepsDifference with
    | mask m => simp
    | steps k => simp
  · have : constraintValue (rowEnv w 0) (shiftConstraint row c)
        = constraintValue (fun r s => match s with | .steps k => w r ((row + k) % 2 ^ 64) | .mask _ => 0) c := by
      have hu : ∀ u : UnivariateTerm F, uniValue (rowEnv w 0) (shiftFactor row u)
          = uniValue (fun r s => match s with | .steps k => w r ((row + k) % 2 ^ 64) | .mask _ => 0) u := by
        intro u
        unfold uniValue shiftFactor
        cases u.stepsDifference with
        | mask m => rfl
        | steps k => simp only [rowEnv, Nat.zero_add]
      unfold constraintValue shiftConstraint
      simp only [List.map_map]
      congr 2
      apply List.map_congr_left
      intro t _
      cases t with
      | univariate t => exact hu t
      | polyvariate q =>
        simp only [Function.comp_apply, shiftTerm, termValue, polyTermValue, List.map_map]
        congr 2
        apply List.map_congr_left
        intro u _
        exact hu u
    rw [this]

section
variable [DecidableEq F]

/-- **C72** (the witness check in release builds, exactly). Without overflow checks, rows are computed modulo `2^64`, both
those a constraint reads and the last one it is enforced at; the check accepts exactly the tables that satisfy the
constraints read in this way. -/
theorem C72_release_satisfied (inst : InstanceProperties F) (witness : List (List F)) (n T : ℕ) (hn : 0 < n) (hT : T < 2 ^ 64)
    (ht : IsTable witness n T) (hd : ∀ c ∈ inst.constraints, ∃ d, c.density = .dense d)
    (hf : ∀ c ∈ inst.constraints, ∀ u ∈ factors c,
      (∃ r, r < n ∧ u.register = .register r) ∧ ∃ k, u.stepsDifference = .steps k)
    (hb : ∀ b ∈ inst.boundaryConstraints, (∃ r, r < n ∧ b.register = .register r) ∧ b.atRow < T) :
    isSatisfiedWord .release inst witness = .ok () ↔
      (∀ c ∈ inst.constraints, ∀ row, EnforcedWord c T row → HoldsAtWord (cellR witness) T c row) ∧
        ∀ b ∈ inst.boundaryConstraints, ∀ v, b.value = some v → cellR witness b.register b.atRow = v := by
  obtain ⟨e1, e2⟩ := ht.rd_row hn
  have hrow : ∀ c ∈ inst.constraints, ∀ row, checkRowWord .release c witness row = checkRow (shiftConstraint row c) witness 0 := by
    intro c _ row
    unfold checkRowWord checkRow
    rw [evaluateConstraintWord_release]
  have hs : ∀ c ∈ inst.constraints, ∀ row, ∀ u ∈ factors (shiftConstraint row c),
      (∃ r, r < n ∧ u.register = .register r) ∧ ∃ k, u.stepsDifference = .steps k := by
    intro c hc row u hu
    rw [factors_shift] at hu
    obtain ⟨v, hv, rfl⟩ := List.mem_map.1 hu
    obtain ⟨hr, k, hk⟩ := hf c hc v hv
    exact ⟨hr, (row + k) % 2 ^ 64, by simp [shiftFactor, hk]⟩
  have hcon : ∀ c ∈ inst.constraints,
      ((∀ row, EnforcedWord c T row → HoldsAtWord (cellR witness) T c row) → checkConstraintWord .release witness T c = .ok ()) ∧
      (¬ (∀ row, EnforcedWord c T row → HoldsAtWord (cellR witness) T c row) →
        ∃ e, checkConstraintWord .release witness T c = .err e) := by
    intro c hc
    obtain ⟨d, ed⟩ := hd c hc
    have e : checkConstraintWord .release witness T c
        = forEach ((List.range ((2 ^ 64 + T - d.span) % 2 ^ 64 - d.startAt)).map (fun i => d.startAt + i)) ()
            (fun row _ => checkRow (shiftConstraint row c) witness 0) := by
      unfold checkConstraintWord denseRowsWord
      rw [ed]
      simp only [subWord_release hT, Res.ok_bind, Res.pure_def]
      congr 1
      funext row _
      exact hrow c hc row
    have hmem : ∀ row, row ∈ (List.range ((2 ^ 64 + T - d.span) % 2 ^ 64 - d.startAt)).map (fun i => d.startAt + i) ↔
        EnforcedWord c T row := by
      intro row
      simp only [List.mem_map, List.mem_range, EnforcedWord, ed, ConstraintDensity.dense.injEq]
      constructor
      · rintro ⟨i, hi, rfl⟩
        exact ⟨d, rfl, by omega, by omega⟩
      · rintro ⟨d', rfl, h1, h2⟩
        exact ⟨row - d.startAt, by omega, by omega⟩
    rw [e]
    have key := forEach_check ((List.range ((2 ^ 64 + T - d.span) % 2 ^ 64 - d.startAt)).map (fun i => d.startAt + i))
      (fun row => checkRow (shiftConstraint row c) witness 0) (fun row => HoldsAtWord (cellR witness) T c row)
      (fun row _ h => (checkRow_spec ht 0 (hs c hc row)).1 ((holdsAtWord_iff _ _ _ _).2 h))
      (fun row _ h => (checkRow_spec ht 0 (hs c hc row)).2 (fun hh => h ((holdsAtWord_iff _ _ _ _).1 hh)))
    simp only [hmem] at key
    rcases key with ⟨h1, h2⟩ | ⟨h1, h2⟩
    · exact ⟨fun _ => h1, fun hh => absurd h2 hh⟩
    · exact ⟨fun hh => absurd hh h2, fun _ => h1⟩
  have k1 := forEach_check inst.constraints (checkConstraintWord .release witness T)
    (fun c => ∀ row, EnforcedWord c T row → HoldsAtWord (cellR witness) T c row)
    (fun c hc => (hcon c hc).1) (fun c hc => (hcon c hc).2)
  have k2 := forEach_check inst.boundaryConstraints (checkBoundary witness)
    (fun b => ∀ v, b.value = some v → cellR witness b.register b.atRow = v)
    (fun b h => (checkBoundary_spec ht (hb b h)).1) (fun b h => (checkBoundary_spec ht (hb b h)).2)
  have e : isSatisfiedWord .release inst witness
      = (forEach inst.constraints () (fun c _ => checkConstraintWord .release witness T c) >>= fun _ =>
          forEach inst.boundaryConstraints () (fun b _ => checkBoundary witness b)) := by
    unfold isSatisfiedWord
    simp only [e1, Res.ok_bind, e2]
  rw [e]
  rcases k1 with ⟨h1, h2⟩ | ⟨⟨er, h1⟩, h2⟩
  · rw [h1, Res.ok_bind]
    rcases k2 with ⟨h3, h4⟩ | ⟨⟨er, h3⟩, h4⟩
    · rw [h3]
      exact ⟨fun _ => ⟨h2, h4⟩, fun _ => rfl⟩
    · rw [h3]
      exact ⟨fun hh => (by cases hh), fun hh => absurd hh.2 h4⟩
  · rw [h1, Res.err_bind]
    exact ⟨fun hh => (by cases hh), fun hh => absurd hh.1 h2⟩

omit [DecidableEq F] in
/-- **C72** (negative step differences). In a release build a step difference of `2^64 - j` reads the row `j` above, from
every row that has one; a debug build panics there. -/
theorem C72_negative_steps (t : UnivariateTerm F) (witness : List (List F)) (n T r j row : ℕ) (ht : IsTable witness n T)
    (hT : T ≤ 2 ^ 64) (hr : r < n) (er : t.register = .register r) (hj : 0 < j) (hjr : j ≤ row) (hrow : row < T)
    (ek : t.stepsDifference = .steps (2 ^ 64 - j)) :
    evaluateUnivariateWord .release t witness row = .ok (cell witness r (row - j) ^ t.power * t.coeff) ∧
      evaluateUnivariateWord .debug t witness row = .panic := by
  obtain ⟨e1, e2⟩ := ht.rd_row hr
  have hidx : (row + (2 ^ 64 - j)) % 2 ^ 64 = row - j := by
    rw [show row + (2 ^ 64 - j) = (row - j) + 2 ^ 64 by omega, Nat.add_mod_right, Nat.mod_eq_of_lt (by omega)]
  have hlt : row - j < (witness.getD r []).length := by rw [e2]; omega
  constructor
  · unfold evaluateUnivariateWord
    rw [ek, er]
    simp only [Res.ok_bind, Register.num, e1, addWord_release, hidx, List.getElem?_eq_getElem hlt, Res.pure_def]
    simp only [cell, List.getD_eq_getElem?_getD (l := witness.getD r []), List.getElem?_eq_getElem hlt, Option.getD_some]
  · unfold evaluateUnivariateWord
    rw [ek, er]
    simp only [Res.ok_bind, Register.num, e1, addWord_debug, if_neg (show ¬ row + (2 ^ 64 - j) < 2 ^ 64 by omega), Res.panic_bind]

/-- **C72** (a span larger than the trace). In a release build the check still refuses every table, for a constraint that
reads any register and starts in the first half of the 64-bit range: rows beyond the trace are reached. (A debug build
panics.) -/
theorem C72_release_large_span (inst : InstanceProperties F) (witness : List (List F)) (n T : ℕ) (hn : 0 < n) (hT : T ≤ 2 ^ 62)
    (ht : IsTable witness n T) (hd : ∀ c ∈ inst.constraints, ∃ d, c.density = .dense d)
    (hf : ∀ c ∈ inst.constraints, ∀ u ∈ factors c,
      (∃ r, r < n ∧ u.register = .register r) ∧ ∃ k, u.stepsDifference = .steps k)
    (hb : ∀ b ∈ inst.boundaryConstraints, (∃ r, r < n ∧ b.register = .register r) ∧ b.atRow < T)
    {c : Constraint F} (hc : c ∈ inst.constraints) (hne : factors c ≠ []) {d : DenseConstraint} (ed : c.density = .dense d)
    (hspan : T < d.span) (hs : d.span ≤ 2 ^ 62) (hstart : d.startAt ≤ 2 ^ 62) :
    isSatisfiedWord .release inst witness ≠ .ok () := by
  rw [ne_eq, C72_release_satisfied inst witness n T hn (by omega) ht hd hf hb]
  rintro ⟨h, -⟩
  obtain ⟨u, hu⟩ := List.exists_mem_of_ne_nil _ hne
  obtain ⟨-, k, hk⟩ := hf c hc u hu
  have hlim : (2 ^ 64 + T - d.span) % 2 ^ 64 = 2 ^ 64 + T - d.span := Nat.mod_eq_of_lt (by omega)
  have key : ∀ row, d.startAt ≤ row → row < 2 ^ 64 + T - d.span → (row + k) % 2 ^ 64 < T := by
    intro row h1 h2
    exact (h c hc row ⟨d, ed, h1, by rw [hlim]; exact h2⟩).1 u hu k hk
  have a1 := key d.startAt (le_refl _) (by omega)
  have a2 := key (d.startAt + 2 ^ 62) (by omega) (by omega)
  omega

/-- **C72** (divisors in release builds). If the span exceeds the trace, only the first `start_at` rows are excluded from the
verifier's divisor: the constraint is enforced at all other rows of the column domain, up to its very last one. If span and
first row fit but together exceed the trace, the divisor is the one of the formula, with points excluded twice. A debug build
panics in both cases. -/
theorem C72_release_divisor (x : F) (columnDomain : Domain F) (d : DenseConstraint) (numRows : ℕ)
    (hsize : columnDomain.size < 2 ^ 63) (hnum : numRows ≤ columnDomain.size) (hspan : d.span < 2 ^ 63)
    (hx : x ^ columnDomain.size ≠ 1) (hbig : numRows < d.startAt + d.span) :
    inverseDivisorAtWord .debug x columnDomain d numRows = .panic ∧
    (numRows < d.span → inverseDivisorAtWord .release x columnDomain d numRows =
      .ok ((x ^ columnDomain.size - 1)⁻¹ * ∏ i ∈ Finset.range d.startAt, (x - columnDomain.generator ^ i))) ∧
    (d.span ≤ numRows → inverseDivisorAtWord .release x columnDomain d numRows =
      .ok ((x ^ columnDomain.size - 1)⁻¹ * (∏ i ∈ Finset.range d.startAt, (x - columnDomain.generator ^ i)) *
        ∏ i ∈ Finset.range (columnDomain.size - (numRows - d.span)), (x - columnDomain.generator ^ (numRows - d.span + i)))) := by
  have hinv : inverse (x ^ columnDomain.size - 1) = some (x ^ columnDomain.size - 1)⁻¹ := inverse_of_ne (sub_ne_zero.2 hx)
  have hdeg : ∃ e, divisorDegreeWord .release columnDomain.size numRows d = .ok e := by
    unfold divisorDegreeWord
    have ok : ∀ a b, ∃ e, subWord .release a b = .ok e := by
      intro a b
      unfold subWord
      split
      · exact ⟨_, rfl⟩
      · exact ⟨_, rfl⟩
    obtain ⟨e1, h1⟩ := ok columnDomain.size d.startAt
    obtain ⟨e2, h2⟩ := ok columnDomain.size numRows
    obtain ⟨e3, h3⟩ := ok e1 e2
    obtain ⟨e4, h4⟩ := ok e3 d.span
    exact ⟨e4, by simp only [h1, h2, h3, h4, Res.ok_bind]⟩
  obtain ⟨e, hdeg⟩ := hdeg
  refine ⟨?_, ?_, ?_⟩
  · unfold inverseDivisorAtWord
    rw [divisorDegreeWord_debug]
    unfold divisorDegree
    by_cases h1 : d.startAt ≤ columnDomain.size
    · by_cases h3 : columnDomain.size - numRows ≤ columnDomain.size - d.startAt
      · have h4 : ¬ d.span ≤ columnDomain.size - d.startAt - (columnDomain.size - numRows) := by omega
        simp [h1, hnum, h3, h4]
      · simp [h1, hnum, h3]
    · simp [h1]
  · intro hlt
    have hlast : (2 ^ 64 + numRows - d.span) % 2 ^ 64 = 2 ^ 64 + numRows - d.span := Nat.mod_eq_of_lt (by omega)
    unfold inverseDivisorAtWord
    simp only [hdeg, hinv, Res.okOr_some, Res.ok_bind, subWord_release (show numRows < 2 ^ 64 by omega), hlast,
      show columnDomain.size - (2 ^ 64 + numRows - d.span) = 0 by omega, mulLinearRunning_eq, one_mul, Finset.range_zero,
      Finset.prod_empty, mul_one, Res.pure_def]
  · intro hle
    have hlast : (2 ^ 64 + numRows - d.span) % 2 ^ 64 = numRows - d.span := by
      rw [show 2 ^ 64 + numRows - d.span = (numRows - d.span) + 2 ^ 64 by omega, Nat.add_mod_right, Nat.mod_eq_of_lt (by omega)]
    unfold inverseDivisorAtWord
    simp only [hdeg, hinv, Res.okOr_some, Res.ok_bind, subWord_release (show numRows < 2 ^ 64 by omega), hlast,
      mulLinearRunning_eq, one_mul, ← pow_add, Res.pure_def]

end

/-- **C72** (degrees in release builds). The total degree of a product is only right modulo `2^64`: it is the sum of the powers
exactly if the sum fits. -/
theorem C72_release_degree (q : PolyvariateTerm F) (t : UnivariateTerm F) (hq : (q.terms.map (fun u : UnivariateTerm F => u.power)).sum = q.totalDegree) :
    ∃ r, q.mulUnivariateWord .release t = .ok r ∧ (r.terms.map (fun u : UnivariateTerm F => u.power)).sum = q.totalDegree + t.power ∧
      r.totalDegree = (q.totalDegree + t.power) % 2 ^ 64 ∧
      (r.totalDegree = (r.terms.map (fun u : UnivariateTerm F => u.power)).sum ↔ q.totalDegree + t.power < 2 ^ 64) := by
  have hs : ((q.terms ++ [{ t with coeff := 1 }]).map (fun u : UnivariateTerm F => u.power)).sum = q.totalDegree + t.power := by
    rw [List.map_append, List.sum_append, hq]
    simp
  refine ⟨_, by unfold PolyvariateTerm.mulUnivariateWord; rw [addWord_release]; rfl, hs, rfl, ?_⟩
  rw [hs]
  constructor
  · intro h
    have := Nat.mod_lt (q.totalDegree + t.power) (show 0 < 2 ^ 64 by norm_num)
    have h' : (q.totalDegree + t.power) % 2 ^ 64 = q.totalDegree + t.power := h
    omega
  · intro h
    exact Nat.mod_eq_of_lt h

/-! ## Concrete cases -/

/-- `R_0(t) - R_0(t-1)`, the previous row written as `2^64 - 1` steps, enforced from row 1. -/
def backwards : InstanceProperties Fr :=
  { numRows := 4, numRegisters := 1,
    constraints := [{ ((Constraint.default.addUnivariate (UnivariateTerm.ofRegister (.register 0))).subUnivariate
      ((UnivariateTerm.ofRegister (.register 0)).setStepDifference (2 ^ 64 - 1))) with density := .dense ⟨1, 1⟩ }],
    boundaryConstraints := [] }

/-- **C72.** The same instance and witness: accepted by a release build, a panic in a debug build. -/
theorem C72_profiles_differ : isSatisfiedWord .release backwards [[5, 5, 5, 5]] = .ok () ∧
    isSatisfiedWord .debug backwards [[5, 5, 5, 5]] = .panic ∧
    isSatisfiedWord .release backwards [[5, 6, 5, 5]] = .err .unsatisfied := by decide +kernel

example : isSatisfiedWord .debug airDemo [[2, 12, 175, 126]] = .ok () ∧ isSatisfiedWord .release airDemo [[2, 12, 175, 126]] = .ok () := by
  decide +kernel

example : IsTable [[(5 : Fr), 5, 5, 5]] 1 4 ∧
    ∀ c ∈ backwards.constraints, (∃ d, c.density = .dense d) ∧
      ∀ u ∈ factors c, (∃ r, r < 1 ∧ u.register = .register r) ∧ ∃ k, u.stepsDifference = .steps k := by
  refine ⟨⟨rfl, by decide⟩, ?_⟩
  intro c hc
  simp only [backwards, List.mem_singleton] at hc
  subst hc
  refine ⟨⟨_, rfl⟩, ?_⟩
  intro u hu
  simp only [factors, Constraint.addUnivariate, Constraint.subUnivariate, Constraint.push, Constraint.default,
    List.nil_append, List.cons_append, List.flatMap_cons, List.flatMap_nil, termFactors, List.mem_cons,
    List.append_nil, List.not_mem_nil, or_false] at hu
  rcases hu with rfl | rfl
  · exact ⟨⟨0, by decide, rfl⟩, 0, rfl⟩
  · exact ⟨⟨0, by decide, rfl⟩, _, rfl⟩

end Hodor

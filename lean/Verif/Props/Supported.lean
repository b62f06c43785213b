import Verif.Model.Density
import Verif.Props.Claims
import Verif.Props.ProverOutcome
import Verif.Props.ProverChallenges

/-!
# C69: positive answers only for instances the code can interpret
-/

namespace Hodor

open Polynomial Spec

variable {F : Type} [Field F] [DecidableEq F] [StarkField F] (H : List UInt8 → Digest)

theorem pushBatch_mem (c : Constraint F) (m : List (ConstraintDensity × List (Constraint F))) :
    (∃ b, (c.density, b) ∈ pushBatch c m ∧ c ∈ b) ∧ ∀ d b, (d, b) ∈ m → ∃ b', (d, b') ∈ pushBatch c m ∧ b ⊆ b' := by
  induction m with
  | nil => simp [pushBatch]
  | cons p m ih =>
    obtain ⟨d, b⟩ := p
    rw [pushBatch]
    by_cases hd : d = c.density
    · rw [if_pos hd]
      refine ⟨⟨b ++ [c], by simp [hd], by simp⟩, ?_⟩
      intro d' b' hm
      rcases List.mem_cons.1 hm with hm | hm
      · cases hm
        exact ⟨b ++ [c], by simp, by simp⟩
      · exact ⟨b', by simp [hm], fun x hx => hx⟩
    · rw [if_neg hd]
      obtain ⟨⟨b1, h1, h2⟩, h3⟩ := ih
      refine ⟨⟨b1, by simp [h1], h2⟩, ?_⟩
      intro d' b' hm
      rcases List.mem_cons.1 hm with hm | hm
      · cases hm
        exact ⟨b, by simp, fun x hx => hx⟩
      · obtain ⟨b'', h4, h5⟩ := h3 d' b' hm
        exact ⟨b'', by simp [h4], h5⟩

/-- Every constraint is in the batch of its density. -/
theorem mem_batches (cs : List (Constraint F)) : ∀ c ∈ cs, ∃ b, (c.density, b) ∈ cs.foldl (fun m c => pushBatch c m) [] ∧ c ∈ b := by
  have key : ∀ (cs : List (Constraint F)) (m : List (ConstraintDensity × List (Constraint F))),
      (∀ c ∈ cs, ∃ b, (c.density, b) ∈ cs.foldl (fun m c => pushBatch c m) m ∧ c ∈ b) ∧
      ∀ d b, (d, b) ∈ m → ∃ b', (d, b') ∈ cs.foldl (fun m c => pushBatch c m) m ∧ b ⊆ b' := by
    intro cs
    induction cs with
    | nil => exact fun m => ⟨by simp, fun d b hm => ⟨b, hm, fun x hx => hx⟩⟩
    | cons c cs ih =>
      intro m
      obtain ⟨h1, h2⟩ := ih (pushBatch c m)
      obtain ⟨⟨b, h3, h4⟩, h5⟩ := pushBatch_mem c m
      rw [List.foldl_cons]
      constructor
      · intro c' hc'
        rcases List.mem_cons.1 hc' with rfl | hc'
        · obtain ⟨b', h6, h7⟩ := h2 _ _ h3
          exact ⟨b', h6, h7 h4⟩
        · exact h1 c' hc'
      · intro d b hm
        obtain ⟨b', h6, h7⟩ := h5 d b hm
        obtain ⟨b'', h8, h9⟩ := h2 d b' h6
        exact ⟨b'', h8, fun x hx => h9 (h7 hx)⟩
  exact (key cs []).1

omit [Field F] [DecidableEq F] [StarkField F] in
theorem mapRes_mem_ok {α β : Type} {f : α → Res β} {l : List α} {ys : List β} (hm : mapRes f l = .ok ys) :
    ∀ x ∈ l, ∃ y ∈ ys, f x = .ok y := by
  have := mapRes_eq_ok hm
  clear hm
  induction this with
  | nil => simp
  | cons h1 h2 ih =>
    intro x hx
    rcases List.mem_cons.1 hx with rfl | hx
    · exact ⟨_, by simp, h1⟩
    · obtain ⟨y, hy, e⟩ := ih x hx
      exact ⟨y, by simp [hy], e⟩

omit [Field F] [DecidableEq F] [StarkField F] in
theorem maxDegree_mem {cs : List (Constraint F)} (h : 1 ≤ maxDegree cs) : ∃ c ∈ cs, c.degree = maxDegree cs := by
  have key : ∀ (l : List (Constraint F)) (m : ℕ),
      l.foldl (fun m c => if c.degree > m then c.degree else m) m = m ∨
      ∃ c ∈ l, c.degree = l.foldl (fun m c => if c.degree > m then c.degree else m) m := by
    intro l
    induction l with
    | nil => exact fun m => Or.inl rfl
    | cons c l ih =>
      intro m
      rw [List.foldl_cons]
      rcases ih (if c.degree > m then c.degree else m) with e | ⟨c', hc', e⟩
      · rw [e]
        split
        · exact Or.inr ⟨c, by simp, rfl⟩
        · exact Or.inl rfl
      · exact Or.inr ⟨c', by simp [hc'], e⟩
  rcases key cs 0 with e | e
  · unfold maxDegree at h
    omega
  · exact e

omit [DecidableEq F] [StarkField F] in
/-- A constraint with masks comes from one with step differences, and reads the same registers. -/
theorem maskConstraint_inv {d : Domain F} {c c' : Constraint F} (h : maskConstraint d c = .ok c') :
    c'.density = c.density ∧ c'.degree = c.degree ∧
    ∀ u ∈ factors c, (∃ j, u.stepsDifference = .steps j) ∧ ∃ u' ∈ factors c', u'.register = u.register := by
  unfold maskConstraint at h
  obtain ⟨ts, h1, h⟩ := Res.bind_eq_ok.1 h
  cases h
  refine ⟨rfl, rfl, ?_⟩
  intro u hu
  obtain ⟨t, ht, hu⟩ := List.mem_flatMap.1 hu
  have uni : ∀ (u : UnivariateTerm F) u', maskUnivariateTerm d u = .ok u' → (∃ j, u.stepsDifference = .steps j) ∧ u'.register = u.register := by
    intro u u' hm
    unfold maskUnivariateTerm at hm
    split at hm
    · rename_i j e
      cases hm
      exact ⟨⟨j, e⟩, rfl⟩
    · cases hm
  obtain ⟨t', ht', e⟩ := mapRes_mem_ok h1 t ht
  cases t with
  | univariate t =>
    replace hu : u = t := by simpa [termFactors] using hu
    subst hu
    unfold maskTerm at e
    obtain ⟨u', hu', e⟩ := Res.bind_eq_ok.1 e
    cases e
    exact ⟨(uni _ _ hu').1, u', List.mem_flatMap.2 ⟨_, ht', by simp [termFactors]⟩, (uni _ _ hu').2⟩
  | polyvariate p =>
    replace hu : u ∈ p.terms := hu
    unfold maskTerm at e
    obtain ⟨us, hus, e⟩ := Res.bind_eq_ok.1 e
    cases e
    obtain ⟨u', hu1, hu2⟩ := mapRes_mem_ok hus u hu
    exact ⟨(uni _ _ hu2).1, u', List.mem_flatMap.2 ⟨_, ht', hu1⟩, (uni _ _ hu2).2⟩

omit [Field F] [DecidableEq F] [StarkField F] in
theorem rd_ok_lt {α : Type} {l : List α} {i : ℕ} {a : α} (h : rd l i = .ok a) : i < l.length := by
  by_contra hn
  rw [rd, List.getElem?_eq_none (by omega)] at h
  cases h

omit [Field F] [DecidableEq F] [StarkField F] in
theorem num_ok {r : Register} {i : ℕ} (h : r.num = .ok i) : r = .register i := by
  cases r <;> cases h
  rfl

omit [Field F] [StarkField F] in
theorem zValues_length {masks : List (MaskProperties F)} {n : ℕ} {y : List F} {vs : ZValues F}
    (h : zValues masks n y = .ok vs) : vs.length = n := by
  have key : ∀ (l : List (MaskProperties F × F)) (v vs : ZValues F), forEach l v (fun x values => do
      let _ ← x.1.stepsDifference.maskOf
      let r ← x.1.register.num
      let m ← rd values r
      wr values r (assocInsert m x.1.stepsDifference x.2)) = .ok vs → vs.length = v.length := by
    intro l
    induction l with
    | nil => intro v vs h; cases h; rfl
    | cons a l ih =>
      intro v vs h
      obtain ⟨v', h1, h2⟩ := forEach_eq_ok_cons.1 h
      rw [ih _ _ h2]
      obtain ⟨_, -, h1⟩ := Res.bind_eq_ok.1 h1
      obtain ⟨r, -, h1⟩ := Res.bind_eq_ok.1 h1
      obtain ⟨m, -, h1⟩ := Res.bind_eq_ok.1 h1
      unfold wr at h1
      split at h1
      · cases h1
        simp
      · cases h1
  simpa using key _ _ _ h

omit [StarkField F] in
theorem evaluateConstraintAtZ_reads {c : Constraint F} {vs : ZValues F} {x : F} (h : evaluateConstraintAtZ c vs = .ok x) :
    ∀ u ∈ factors c, ∃ r, r < vs.length ∧ u.register = .register r := by
  have uni : ∀ (u : UnivariateTerm F) x, evaluateUnivariateAtZ u vs = .ok x → ∃ r, r < vs.length ∧ u.register = .register r := by
    intro u x h
    obtain ⟨r, h1, h⟩ := Res.bind_eq_ok.1 h
    obtain ⟨m, h2, -⟩ := Res.bind_eq_ok.1 h
    exact ⟨r, rd_ok_lt h2, num_ok h1⟩
  intro u hu
  obtain ⟨t, ht, hu⟩ := List.mem_flatMap.1 hu
  obtain ⟨s1, s2, h1⟩ := forEach_mem_ok h t ht
  obtain ⟨y, h1, -⟩ := Res.bind_eq_ok.1 h1
  cases t with
  | univariate t =>
    replace hu : u = t := by simpa [termFactors] using hu
    subst hu
    exact uni _ _ h1
  | polyvariate p =>
    replace hu : u ∈ p.terms := hu
    obtain ⟨y', h1, -⟩ := Res.bind_eq_ok.1 h1
    obtain ⟨s1, s2, h2⟩ := forEach_mem_ok h1 u hu
    obtain ⟨y'', h2, -⟩ := Res.bind_eq_ok.1 h2
    exact uni _ _ h2

theorem assert_true {p : Prop} [Decidable p] {u : Unit} (h : Res.assert (decide p) = .ok u) : p := by
  by_contra hn
  rw [decide_eq_false hn] at h
  cases h

theorem divisorDegree_fits {size rows m : ℕ} {d : DenseConstraint} (h : divisorDegree size rows d = .ok m) :
    d.startAt + d.span ≤ rows := by
  unfold divisorDegree at h
  obtain ⟨_, h1, h⟩ := Res.bind_eq_ok.1 h
  obtain ⟨_, h2, h⟩ := Res.bind_eq_ok.1 h
  obtain ⟨_, h3, h⟩ := Res.bind_eq_ok.1 h
  obtain ⟨_, h4, h⟩ := Res.bind_eq_ok.1 h
  replace h1 := assert_true h1
  replace h2 := assert_true h2
  replace h3 := assert_true h3
  replace h4 := assert_true h4
  omega

omit [StarkField F] in
theorem densityDivisorAt_dense {z x : F} {dom : Domain F} {rows : ℕ} {d : ConstraintDensity}
    (h : densityDivisorAt z dom rows d = .ok x) : ∃ e, d = .dense e ∧ e.startAt + e.span ≤ rows := by
  cases d with
  | dense e =>
    replace h : inverseDivisorAt z dom e rows = .ok x := h
    unfold inverseDivisorAt at h
    obtain ⟨m, h1, -⟩ := Res.bind_eq_ok.1 h
    exact ⟨e, rfl, divisorDegree_fits h1⟩
  | _ => cases h

/-- **C69** (verifier). If a verifier can be built for an instance and it accepts some proof, then the instance is one it can
interpret. -/
theorem C69_accepted_verifiable {inst : InstanceProperties F} {factor : ℕ} {v : Verifier F} {proof : InstanceProof F}
    (hv : Verifier.new inst factor = .ok v) (h : v.verify H proof = .ok true) :
    Verifiable inst inst.numRegisters (Nat.clog 2 inst.numRows) := by
  -- the verifier's fields
  unfold Verifier.new at hv
  obtain ⟨dom, h1, hv⟩ := Res.bind_eq_ok.1 hv
  obtain ⟨cs, h2, hv⟩ := Res.bind_eq_ok.1 hv
  obtain ⟨dom2, h3, hv⟩ := Res.bind_eq_ok.1 hv
  obtain ⟨_, -, hv⟩ := Res.bind_eq_ok.1 hv
  cases hv
  -- the composition at the point is computed
  unfold Verifier.verify at h
  obtain ⟨⟨ch, fd, gd⟩, -, h⟩ := Res.bind_eq_ok.1 h
  simp only at h
  split at h
  · cases h
  split at h
  · cases h
  unfold Verifier.verifyBody at h
  split at h
  · cases h
  obtain ⟨_, -, h⟩ := Res.bind_eq_ok.1 h
  obtain ⟨y, h, -⟩ := Res.bind_eq_ok.1 h
  unfold Verifier.calculateGAtZ at h
  obtain ⟨vs, h4, h⟩ := Res.bind_eq_ok.1 h
  obtain ⟨s, h5, h⟩ := Res.bind_eq_ok.1 h
  obtain ⟨s', h6, -⟩ := Res.bind_eq_ok.1 h
  have hlen := zValues_length h4
  -- what that says of each constraint
  have hcs : ∀ c' ∈ cs, (∃ d, c'.density = .dense d ∧ d.startAt + d.span ≤ inst.numRows) ∧
      ∀ u ∈ factors c', ∃ r, r < inst.numRegisters ∧ u.register = .register r := by
    intro c' hc'
    obtain ⟨b, hb1, hb2⟩ := mem_batches cs c' hc'
    obtain ⟨s1, s2, h7⟩ := forEach_mem_ok h5 _ hb1
    obtain ⟨x, h8, h7⟩ := Res.bind_eq_ok.1 h7
    obtain ⟨s3, s4, h9⟩ := forEach_mem_ok h7 _ hb2
    unfold gConstraintAtZ at h9
    obtain ⟨_, -, h9⟩ := Res.bind_eq_ok.1 h9
    obtain ⟨_, -, h9⟩ := Res.bind_eq_ok.1 h9
    obtain ⟨_, h9, -⟩ := Res.bind_eq_ok.1 h9
    have := evaluateConstraintAtZ_reads h9
    rw [hlen] at this
    exact ⟨densityDivisorAt_dense h8, this⟩
  have hsrc : ∀ c ∈ inst.constraints, ∃ c' ∈ cs, maskConstraint dom c = .ok c' := fun c hc => mapRes_mem_ok h2 c hc
  have hcs' : ∀ c' ∈ cs, ∃ c ∈ inst.constraints, maskConstraint dom c = .ok c' := fun c hc => mem_mapRes h2 c hc
  refine ⟨⟨Nat.le_pow_clog (by omega) _, fun j hj => Nat.clog_le_of_le_pow hj⟩, rfl, ?_, ?_, ?_, ?_⟩
  · intro c hc u hu
    obtain ⟨c', hc', e⟩ := hsrc c hc
    obtain ⟨-, -, h7⟩ := maskConstraint_inv e
    obtain ⟨hj, u', hu', e'⟩ := h7 u hu
    obtain ⟨r, hr, e''⟩ := (hcs c' hc').2 u' hu'
    exact ⟨⟨r, hr, by rw [← e', e'']⟩, hj⟩
  · intro c hc
    obtain ⟨c', hc', e⟩ := hsrc c hc
    rw [← (maskConstraint_inv e).1]
    exact (hcs c' hc').1
  · intro b hb
    obtain ⟨s1, s2, h7⟩ := forEach_mem_ok h6 b hb
    unfold gBoundaryAtZ at h7
    obtain ⟨_, -, h7⟩ := Res.bind_eq_ok.1 h7
    obtain ⟨_, -, h7⟩ := Res.bind_eq_ok.1 h7
    obtain ⟨r, h8, h7⟩ := Res.bind_eq_ok.1 h7
    obtain ⟨_, h9, h7⟩ := Res.bind_eq_ok.1 h7
    obtain ⟨_, -, h7⟩ := Res.bind_eq_ok.1 h7
    obtain ⟨x, h10, h7⟩ := Res.bind_eq_ok.1 h7
    refine ⟨⟨r, by have := rd_ok_lt h9; rwa [hlen] at this, num_ok h8⟩, x, ?_⟩
    cases hval : b.value with
    | none => rw [hval] at h10; cases h10
    | some v => rw [hval] at h10; cases h10; rfl
  · intro hne
    obtain ⟨b, hb⟩ := List.exists_mem_of_ne_nil _ hne
    obtain ⟨s1, s2, h7⟩ := forEach_mem_ok h6 b hb
    unfold gBoundaryAtZ at h7
    obtain ⟨_, h7, -⟩ := Res.bind_eq_ok.1 h7
    replace h7 : 1 ≤ maxDegree cs := assert_true h7
    obtain ⟨c', hc', e⟩ := maxDegree_mem h7
    obtain ⟨c, hc, e'⟩ := hcs' c' hc'
    exact ⟨c, hc, by rw [← (maskConstraint_inv e').2.1]; omega⟩

/-! ### The prover -/

omit [DecidableEq F] [StarkField F] in
/-- Masking keeps the terms. -/
theorem maskConstraint_terms {d : Domain F} {c c' : Constraint F} (h : maskConstraint d c = .ok c') :
    ∀ t ∈ c.terms, ∃ t' ∈ c'.terms, (termFactors t = [] → termFactors t' = []) := by
  unfold maskConstraint at h
  obtain ⟨ts, h1, h⟩ := Res.bind_eq_ok.1 h
  cases h
  intro t ht
  obtain ⟨t', ht', e⟩ := mapRes_mem_ok h1 t ht
  refine ⟨t', ht', fun hn => ?_⟩
  cases t with
  | univariate t => simp [termFactors] at hn
  | polyvariate p =>
    replace hn : p.terms = [] := hn
    unfold maskTerm at e
    obtain ⟨us, hus, e⟩ := Res.bind_eq_ok.1 e
    cases e
    rw [hn] at hus
    cases hus
    rfl

theorem calculateWitnessPolys_table {inst : InstanceProperties F} {witness : List (List F)} {w : Worker}
    {polys : List (Poly F .coefficients)} (h : calculateWitnessPolys inst witness w = .ok polys) :
    0 < inst.numRegisters ∧ IsTable witness inst.numRegisters inst.numRows := by
  unfold calculateWitnessPolys at h
  obtain ⟨row0, h0, h⟩ := Res.bind_eq_ok.1 h
  obtain ⟨_, h1, h⟩ := Res.bind_eq_ok.1 h
  split at h
  · cases h
  split at h
  · cases h
  rename_i e1 e2
  push Not at e1 e2
  have := rd_ok_lt h0
  refine ⟨by omega, e1, ?_⟩
  intro r hr
  have := List.all_eq_true.1 (Res.assert_eq_ok.1 h1) r hr
  rw [decide_eq_true_iff] at this
  omega

/-- A term the prover has evaluated. -/
theorem evaluateConstraintTerm_inv {t : ConstraintTerm F} {subst : List (MaskProperties F × Poly F .coefficients)} {cache : TermCache F}
    {m : ℕ} {w : Worker} {r : Poly F .values × TermCache F} (h : evaluateConstraintTerm t subst cache m w = .ok r) :
    (∃ f, m = 2 ^ f) ∧ termFactors t ≠ [] := by
  unfold evaluateConstraintTerm at h
  obtain ⟨_, h1, h⟩ := Res.bind_eq_ok.1 h
  refine ⟨isPow2_iff.1 (Res.assert_eq_ok.1 h1), ?_⟩
  cases t with
  | univariate t => simp [termFactors]
  | polyvariate p =>
    intro hn
    replace hn : p.terms = [] := hn
    simp only [hn] at h
    cases h

/-- **C69** (prover). If a prover can be built for an instance and returns a proof for some witness, then the witness has the declared shape and the
instance is one the code can interpret. If moreover some constraint has a term, it is even one for which `prove` never panics (`C65_prove_no_panic_partial`). -/
theorem C69_proved_runnable {w : Worker} {inst : InstanceProperties F} {factor out : ℕ} {prover : Prover F} {witness : List (List F)}
    {proof : InstanceProof F} (hp : Prover.new w inst factor out = .ok prover) (h : prover.prove H witness = .ok proof) :
    IsTable witness inst.numRegisters inst.numRows ∧ Verifiable inst inst.numRegisters (Nat.clog 2 inst.numRows) ∧
    ((∃ c ∈ inst.constraints, c.terms ≠ []) → ∃ k f, Runnable inst inst.numRegisters k f) := by
  have hp' := hp
  have h' := h
  -- the prover's construction
  unfold Prover.new at hp
  obtain ⟨arp, n1, hp⟩ := Res.bind_eq_ok.1 hp
  obtain ⟨ali, n2, hp⟩ := Res.bind_eq_ok.1 hp
  cases hp
  unfold fromInstance at n1
  obtain ⟨cd, n3, n1⟩ := Res.bind_eq_ok.1 n1
  obtain ⟨cs, n4, n1⟩ := Res.bind_eq_ok.1 n1
  cases n1
  unfold AliInstance.fromArp at n2
  obtain ⟨cd', n5, n2⟩ := Res.bind_eq_ok.1 n2
  obtain ⟨kd, n6, n2⟩ := Res.bind_eq_ok.1 n2
  obtain ⟨pre, n7, n2⟩ := Res.bind_eq_ok.1 n2
  obtain ⟨dv, n8, n2⟩ := Res.bind_eq_ok.1 n2
  obtain ⟨bd, n9, n2⟩ := Res.bind_eq_ok.1 n2
  have a1 : ali.constraintsDomain = kd := by cases n2; rfl
  have a2 : ali.constraintsBatchedByDensity = cs.foldl (fun m c => pushBatch c m) [] := by cases n2; rfl
  have a3 : ali.allMasks = inst.boundaryConstraints.foldl getMaskFromBoundaryConstraint (cs.foldl getMasksFromConstraint []) := by cases n2; rfl
  have a4 : ali.properties.boundaryConstraints = inst.boundaryConstraints := by cases n2; rfl
  have a5 : ali.properties.numRegisters = inst.numRegisters := by cases n2; rfl
  have a6 : ali.maxConstraintPower = maxDegree cs := by cases n2; rfl
  clear n2 n7 n9
  -- the prover's run
  unfold Prover.prove at h
  obtain ⟨t0, r0, h⟩ := Res.bind_eq_ok.1 h
  obtain ⟨polys, r1, h⟩ := Res.bind_eq_ok.1 h
  obtain ⟨ldes, r2, h⟩ := Res.bind_eq_ok.1 h
  obtain ⟨trees, r3, h⟩ := Res.bind_eq_ok.1 h
  obtain ⟨roots, r4, h⟩ := Res.bind_eq_ok.1 h
  obtain ⟨⟨G, t1⟩, r5, h⟩ := Res.bind_eq_ok.1 h
  obtain ⟨gLde, r6, h⟩ := Res.bind_eq_ok.1 h
  obtain ⟨gTree, r7, h⟩ := Res.bind_eq_ok.1 h
  obtain ⟨gRoot, r8, h⟩ := Res.bind_eq_ok.1 h
  obtain ⟨deep, r9, h⟩ := Res.bind_eq_ok.1 h
  obtain ⟨p1, r10, h⟩ := Res.bind_eq_ok.1 h
  obtain ⟨p2, r11, -⟩ := Res.bind_eq_ok.1 h
  simp only at r1 r2 r3 r5 r6 r7 r9 r10 r11
  obtain ⟨hpos, htab⟩ := calculateWitnessPolys_table r1
  replace htab : IsTable witness inst.numRegisters inst.numRows := htab
  replace hpos : 0 < inst.numRegisters := hpos
  refine ⟨htab, ?_⟩
  -- sizes
  have s1 := witnessPolys_size r1
  have s2 := calculateG_size r5
  obtain ⟨⟨f0, hf0, s3, s4⟩, s5, s6⟩ := calculateDeep_size r9
  obtain ⟨P0, hP0, l0⟩ := mem_mapRes r2 f0 hf0
  have s7 := Poly.lde_size (by rw [s1 P0 hP0]; exact nextPow2_idem _) l0
  rw [s1 P0 hP0] at s7
  have s8 := Poly.lde_size (by rw [s2]; exact nextPow2_idem _) r6
  rw [s2, a1] at s8
  obtain ⟨two1, pf, -⟩ := friProof_inv r10
  obtain ⟨two, -, -⟩ := friProof_inv r11
  obtain ⟨e, rfl⟩ := isPow2_iff.1 pf
  have c2 : cd'.size = nextPow2 inst.numRows := domain_size n5
  have c3 : kd.size = nextPow2 (nextPow2 inst.numRows * maxDegree cs) := by rw [← c2]; exact domain_size n6
  have hm : 1 ≤ maxDegree cs := by
    by_contra h0
    have h0 : maxDegree cs = 0 := by omega
    rw [s5, s8, c3, nextPow2_idem, h0, Nat.mul_zero, Nat.mul_div_cancel _ (by positivity)] at two
    simp [nextPow2] at two
  have s9 : deep.h1.size = nextPow2 inst.numRows * 2 ^ e := by
    rw [s3, s7]
    unfold nextPow2
    rw [← pow_add]; exact nextPow2_pow _
  have hk : ∃ k, inst.numRows = 2 ^ k := by
    by_contra hn
    push Not at hn
    rw [C65_rows_panics H w inst hpos hn _ _ _ hp' witness htab] at h'
    cases h'
  have hk1 : 2 ≤ nextPow2 inst.numRows := by rwa [s9, Nat.mul_div_cancel _ (by positivity)] at two1
  -- the composition
  unfold AliInstance.calculateG at r5
  obtain ⟨_, g1, r5⟩ := Res.bind_eq_ok.1 r5
  obtain ⟨g0, g2, r5⟩ := Res.bind_eq_ok.1 r5
  obtain ⟨sb, g3, r5⟩ := Res.bind_eq_ok.1 r5
  obtain ⟨s, g4, r5⟩ := Res.bind_eq_ok.1 r5
  obtain ⟨s', g5, -⟩ := Res.bind_eq_ok.1 r5
  have hlen : polys.length = inst.numRegisters := by rw [← a5]; exact assert_true g1
  have hreg : ∀ m ∈ ali.allMasks, ∃ r, r < inst.numRegisters ∧ m.register = .register r := by
    intro m hm
    obtain ⟨x1, x2, e1⟩ := forEach_mem_ok g3 m hm
    obtain ⟨r, e2, e1⟩ := Res.bind_eq_ok.1 e1
    obtain ⟨_, e3, -⟩ := Res.bind_eq_ok.1 e1
    exact ⟨r, by have := rd_ok_lt e3; omega, num_ok e2⟩
  have hsrc : ∀ c ∈ inst.constraints, ∃ c' ∈ cs, maskConstraint cd c = .ok c' := fun c hc => mapRes_mem_ok n4 c hc
  have hcs' : ∀ c' ∈ cs, ∃ c ∈ inst.constraints, maskConstraint cd c = .ok c' := fun c hc => mem_mapRes n4 c hc
  have hterm : ∀ c' ∈ cs, ∀ t ∈ c'.terms, (∃ f, maxDegree cs = 2 ^ f) ∧ termFactors t ≠ [] := by
    intro c' hc' t ht
    obtain ⟨b, hb1, hb2⟩ := mem_batches cs c' hc'
    rw [a2] at g4
    obtain ⟨x1, x2, e1⟩ := forEach_mem_ok g4 _ hb1
    unfold gBatch at e1
    obtain ⟨_, e1, -⟩ := Res.bind_eq_ok.1 e1
    obtain ⟨x3, x4, e2⟩ := forEach_mem_ok e1 _ hb2
    unfold gConstraint at e2
    obtain ⟨_, -, e2⟩ := Res.bind_eq_ok.1 e2
    obtain ⟨_, -, e2⟩ := Res.bind_eq_ok.1 e2
    obtain ⟨_, -, e2⟩ := Res.bind_eq_ok.1 e2
    obtain ⟨_, -, e2⟩ := Res.bind_eq_ok.1 e2
    obtain ⟨_, e2, -⟩ := Res.bind_eq_ok.1 e2
    obtain ⟨x5, x6, e3⟩ := forEach_mem_ok e2 t ht
    obtain ⟨_, e3, -⟩ := Res.bind_eq_ok.1 e3
    have := evaluateConstraintTerm_inv e3
    rwa [a6] at this
  have hreads : ∀ c ∈ inst.constraints, ∀ u ∈ factors c,
      (∃ r, r < inst.numRegisters ∧ u.register = .register r) ∧ ∃ j, u.stepsDifference = .steps j := by
    intro c hc u hu
    obtain ⟨c', hc', e⟩ := hsrc c hc
    obtain ⟨-, -, h7⟩ := maskConstraint_inv e
    obtain ⟨hj, u', hu', e'⟩ := h7 u hu
    obtain ⟨r, hr, e''⟩ := hreg u'.maskProperties (by
      rw [a3]
      exact (mem_boundaryMasks _ _ _).2 (Or.inl ((mem_masks _ _ _).2 (Or.inr ⟨c', hc', u', hu', rfl⟩))))
    exact ⟨⟨r, hr, by rw [← e']; exact e''⟩, hj⟩
  have hdens : ∀ c ∈ inst.constraints, ∃ d, c.density = .dense d ∧ d.startAt + d.span ≤ inst.numRows := by
    intro c hc
    obtain ⟨c', hc', e⟩ := hsrc c hc
    obtain ⟨b, hb1, hb2⟩ := mem_batches cs c' hc'
    obtain ⟨x1, x2, e1⟩ := forEach_mem_ok n8 _ hb1
    obtain ⟨q, e1, -⟩ := Res.bind_eq_ok.1 e1
    rw [← (maskConstraint_inv e).1]
    cases hd : c'.density with
    | dense d =>
      rw [hd] at e1
      replace e1 : inverseDivisorInCoset cd' kd d inst.numRows w = .ok q := e1
      unfold inverseDivisorInCoset at e1
      obtain ⟨_, e1, -⟩ := Res.bind_eq_ok.1 e1
      exact ⟨d, rfl, divisorDegree_fits e1⟩
    | _ => rw [hd] at e1; cases e1
  have hbound : ∀ b ∈ inst.boundaryConstraints, (∃ r, r < inst.numRegisters ∧ b.register = .register r) ∧ ∃ v, b.value = some v := by
    intro b hb
    rw [a4] at g5
    obtain ⟨s1, s2, h7⟩ := forEach_mem_ok g5 b hb
    unfold gBoundary at h7
    obtain ⟨_, -, h7⟩ := Res.bind_eq_ok.1 h7
    obtain ⟨_, -, h7⟩ := Res.bind_eq_ok.1 h7
    obtain ⟨_, -, h7⟩ := Res.bind_eq_ok.1 h7
    obtain ⟨_, -, h7⟩ := Res.bind_eq_ok.1 h7
    obtain ⟨r, h8, h7⟩ := Res.bind_eq_ok.1 h7
    obtain ⟨_, h9, h7⟩ := Res.bind_eq_ok.1 h7
    obtain ⟨x, h10, h7⟩ := Res.bind_eq_ok.1 h7
    exact ⟨⟨r, by have := rd_ok_lt h9; omega, num_ok h8⟩, x, Res.expect_eq_ok.1 h10⟩
  have hdeg : ∃ c ∈ inst.constraints, c.degree = maxDegree cs := by
    obtain ⟨c', hc', e'⟩ := maxDegree_mem (cs := cs) hm
    obtain ⟨c, hc, e⟩ := hcs' c' hc'
    exact ⟨c, hc, by rw [← (maskConstraint_inv e).2.1]; exact e'⟩
  constructor
  · refine ⟨⟨Nat.le_pow_clog (by omega) _, fun j hj => Nat.clog_le_of_le_pow hj⟩, rfl, hreads, hdens, hbound, ?_⟩
    intro _
    obtain ⟨c, hc, e⟩ := hdeg
    exact ⟨c, hc, by omega⟩
  · rintro ⟨c0, hc0, ht0⟩
    obtain ⟨k, hk⟩ := hk
    obtain ⟨f, hf⟩ : ∃ f, maxDegree cs = 2 ^ f := by
      obtain ⟨c', hc', e⟩ := hsrc c0 hc0
      obtain ⟨t, ht⟩ := List.exists_mem_of_ne_nil _ ht0
      obtain ⟨t', ht', -⟩ := maskConstraint_terms e t ht
      exact (hterm c' hc' t' ht').1
    refine ⟨k, f, hk, rfl, hpos, ?_, ?_, by rw [← hk]; exact hdens, ?_, hbound⟩
    · rw [hk, nextPow2_pow] at hk1
      by_contra h0
      have : k = 0 := by omega
      rw [this] at hk1
      omega
    · intro c hc t ht
      obtain ⟨c', hc', e⟩ := hsrc c hc
      obtain ⟨t', ht', e'⟩ := maskConstraint_terms e t ht
      exact ⟨fun hn => (hterm c' hc' t' ht').2 (e' hn), fun u hu => hreads c hc u (List.mem_flatMap.2 ⟨t, ht, hu⟩)⟩
    · rw [← hf]
      refine ⟨?_, hdeg⟩
      intro c hc
      obtain ⟨c', hc', e⟩ := hsrc c hc
      rw [← (maskConstraint_inv e).2.1]
      exact le_maxDegree hc'

/-- **C69** (the verifier's answer, for every instance): whatever the instance a verifier has been built for, a proof is accepted exactly if the instance is one
the code can interpret, the challenges can be derived and all of `Accepts` holds of them. -/
theorem C69_accepted_iff {inst : InstanceProperties F} {factor : ℕ} {v : Verifier F} (hv : Verifier.new inst factor = .ok v)
    (proof : InstanceProof F) :
    v.verify H proof = .ok true ↔ Verifiable inst inst.numRegisters (Nat.clog 2 inst.numRows) ∧
      ∃ ch d1 d2, v.deriveChallenges H proof = .ok (ch, d1, d2) ∧ Accepts H v proof ch d1.generator d2.generator := by
  constructor
  · intro h
    have hV := C69_accepted_verifiable H hv h
    exact ⟨hV, (C54_verify_iff H inst _ _ factor hV v hv proof).1 h⟩
  · rintro ⟨hV, h⟩
    exact (C54_verify_iff H inst _ _ factor hV v hv proof).2 h

/-! ### The witness check -/

section
omit [StarkField F]

omit [Field F] [DecidableEq F] in
theorem forEach_unit_iff {α : Type} (l : List α) (f : α → Res Unit) :
    forEach l () (fun a _ => f a) = .ok () ↔ ∀ a ∈ l, f a = .ok () := by
  induction l with
  | nil => simp [forEach]
  | cons a l ih =>
    rw [forEach_eq_ok_cons]
    constructor
    · rintro ⟨_, h1, h2⟩ b hb
      rcases List.mem_cons.1 hb with rfl | hb
      · exact h1
      · exact ih.1 h2 b hb
    · intro h
      exact ⟨(), h a (by simp), ih.2 (fun b hb => h b (by simp [hb]))⟩

omit [DecidableEq F] in
theorem evaluateConstraintOnWitness_reads {c : Constraint F} {witness : List (List F)} {row : ℕ} {x : F}
    (h : evaluateConstraintOnWitness c witness row = .ok x) :
    ∀ u ∈ factors c, (∃ r, r < witness.length ∧ u.register = .register r) ∧ ∃ k, u.stepsDifference = .steps k := by
  have uni : ∀ (u : UnivariateTerm F) x, evaluateUnivariateTermOnWitness u witness row = .ok x →
      (∃ r, r < witness.length ∧ u.register = .register r) ∧ ∃ k, u.stepsDifference = .steps k := by
    intro u x h
    unfold evaluateUnivariateTermOnWitness at h
    obtain ⟨k, h0, h⟩ := Res.bind_eq_ok.1 h
    obtain ⟨r, h1, h⟩ := Res.bind_eq_ok.1 h
    obtain ⟨m, h2, -⟩ := Res.bind_eq_ok.1 h
    refine ⟨⟨r, rd_ok_lt h2, num_ok h1⟩, ?_⟩
    cases hs : u.stepsDifference with
    | steps k => exact ⟨k, rfl⟩
    | mask m => rw [hs] at h0; cases h0
  intro u hu
  obtain ⟨t, ht, hu⟩ := List.mem_flatMap.1 hu
  obtain ⟨s1, s2, h1⟩ := forEach_mem_ok h t ht
  obtain ⟨y, h1, -⟩ := Res.bind_eq_ok.1 h1
  cases t with
  | univariate t =>
    replace hu : u = t := by simpa [termFactors] using hu
    subst hu
    exact uni _ _ h1
  | polyvariate p =>
    replace hu : u ∈ p.terms := hu
    obtain ⟨y', h1, -⟩ := Res.bind_eq_ok.1 h1
    obtain ⟨s1, s2, h2⟩ := forEach_mem_ok h1 u hu
    obtain ⟨y'', h2, -⟩ := Res.bind_eq_ok.1 h2
    exact uni _ _ h2

/-- **C69** (witness check, for every instance): `is_satisfied` answers `Ok` exactly if every constraint is dense with a span that fits, each row it is enforced at
reads existing registers and rows by step differences and gives zero, and every boundary constraint is on a numbered register which, if a value is
given, has it at an existing row. -/
theorem C69_satisfied_iff {witness : List (List F)} {n T : ℕ} (hn : 0 < n) (ht : IsTable witness n T) (inst : InstanceProperties F) :
    isSatisfied inst witness = .ok () ↔
      (∀ c ∈ inst.constraints, (∃ d, c.density = .dense d ∧ d.span ≤ T) ∧ ∀ row, Enforced c T row →
        (∀ u ∈ factors c, (∃ r, r < n ∧ u.register = .register r) ∧ ∃ j, u.stepsDifference = .steps j) ∧
          HoldsAt (cellR witness) T c row) ∧
      ∀ b ∈ inst.boundaryConstraints, ∃ r, b.register = .register r ∧
        ∀ v, b.value = some v → r < n ∧ b.atRow < T ∧ cell witness r b.atRow = v := by
  obtain ⟨e1, e2⟩ := ht.rd_row hn
  have hrow : ∀ c row, checkRow c witness row = .ok () ↔
      (∀ u ∈ factors c, (∃ r, r < n ∧ u.register = .register r) ∧ ∃ j, u.stepsDifference = .steps j) ∧ HoldsAt (cellR witness) T c row := by
    intro c row
    constructor
    · intro h
      have hr : ∀ u ∈ factors c, (∃ r, r < n ∧ u.register = .register r) ∧ ∃ j, u.stepsDifference = .steps j := by
        have h' := h
        unfold checkRow at h'
        obtain ⟨x, h', -⟩ := Res.bind_eq_ok.1 h'
        have := evaluateConstraintOnWitness_reads h'
        rwa [ht.1] at this
      refine ⟨hr, ?_⟩
      by_contra hh
      obtain ⟨e, he⟩ := (checkRow_spec ht row hr).2 hh
      rw [h] at he
      cases he
    · rintro ⟨hr, hh⟩
      exact (checkRow_spec ht row hr).1 hh
  have hc : ∀ c : Constraint F, checkConstraint witness T c = .ok () ↔ (∃ d, c.density = .dense d ∧ d.span ≤ T) ∧
      ∀ row, Enforced c T row →
        (∀ u ∈ factors c, (∃ r, r < n ∧ u.register = .register r) ∧ ∃ j, u.stepsDifference = .steps j) ∧ HoldsAt (cellR witness) T c row := by
    intro c
    unfold checkConstraint
    cases hd : c.density with
    | dense d =>
      unfold denseRows
      by_cases hs : d.span ≤ T
      · simp only [hs, decide_true, Res.assert_true, Res.ok_bind, Res.pure_def, forEach_unit_iff, hrow]
        have hmem : ∀ row, row ∈ (List.range (T - d.span - d.startAt)).map (fun i => d.startAt + i) ↔ Enforced c T row := by
          intro row
          simp only [List.mem_map, List.mem_range, Enforced, hd, ConstraintDensity.dense.injEq]
          constructor
          · rintro ⟨i, hi, rfl⟩
            exact ⟨d, rfl, by omega, by omega⟩
          · rintro ⟨d', rfl, h1, h2⟩
            exact ⟨row - d.startAt, by omega, by omega⟩
        simp only [hmem]
        constructor
        · exact fun h => ⟨⟨d, rfl, hs⟩, h⟩
        · exact fun h => h.2
      · simp only [hs, decide_false, Res.assert_false]
        constructor
        · intro h; cases h
        · rintro ⟨⟨d', hd', hs'⟩, -⟩
          cases hd'
          exact absurd hs' hs
    | repeated d =>
      constructor
      · intro h; cases h
      · rintro ⟨⟨d', hd', -⟩, -⟩; cases hd'
    | sparse d =>
      constructor
      · intro h; cases h
      · rintro ⟨⟨d', hd', -⟩, -⟩; cases hd'
  have hb : ∀ b : BoundaryConstraint F, checkBoundary witness b = .ok () ↔ ∃ r, b.register = .register r ∧
      ∀ v, b.value = some v → r < n ∧ b.atRow < T ∧ cell witness r b.atRow = v := by
    intro b
    unfold checkBoundary
    rw [Res.bind_eq_ok]
    constructor
    · rintro ⟨r, h1, h⟩
      refine ⟨r, num_ok h1, ?_⟩
      intro v hv
      rw [hv] at h
      obtain ⟨ro, h2, h⟩ := Res.bind_eq_ok.1 h
      obtain ⟨x, h3, h⟩ := Res.bind_eq_ok.1 h
      have l1 := rd_ok_lt h2
      have l2 := rd_ok_lt h3
      have e3 := Res.expect_eq_ok.1 h2
      have e4 := Res.expect_eq_ok.1 h3
      have l3 : ro.length = T := ht.2 ro (List.mem_of_getElem? e3)
      have hx : cell witness r b.atRow = x := by
        simp [cell, List.getD_eq_getElem?_getD, e3, e4]
      refine ⟨by rw [ht.1] at l1; exact l1, by omega, ?_⟩
      rw [hx]
      by_contra hne
      rw [if_pos (fun h => hne h.symm)] at h
      cases h
    · rintro ⟨r, hr, h⟩
      refine ⟨r, by rw [hr]; rfl, ?_⟩
      cases hv : b.value with
      | none => rfl
      | some v =>
        obtain ⟨l1, l2, hx⟩ := h v hv
        have l1' : r < witness.length := by rw [ht.1]; exact l1
        have l2' : b.atRow < witness[r].length := by rw [ht.2 _ (List.getElem_mem l1')]; exact l2
        have e3 : witness[r]? = some witness[r] := List.getElem?_eq_getElem l1'
        have e4 : (witness[r])[b.atRow]? = some (witness[r])[b.atRow] := List.getElem?_eq_getElem l2'
        have hx' : (witness[r])[b.atRow] = v := by
          rw [← hx]
          simp [cell, List.getD_eq_getElem?_getD, e3, e4]
        simp only [rd, e3, e4, Res.expect_some, Res.ok_bind, hx']
        simp
  unfold isSatisfied
  simp only [e1, e2, Res.ok_bind]
  rw [Res.bind_eq_ok]
  constructor
  · rintro ⟨_, h1, h2⟩
    exact ⟨fun c hc' => (hc c).1 ((forEach_unit_iff _ _).1 h1 c hc'), fun b hb' => (hb b).1 ((forEach_unit_iff _ _).1 h2 b hb')⟩
  · rintro ⟨h1, h2⟩
    exact ⟨(), (forEach_unit_iff _ _).2 (fun c hc' => (hc c).2 (h1 c hc')), (forEach_unit_iff _ _).2 (fun b hb' => (hb b).2 (h2 b hb'))⟩

end

/-! ### Repeated and sparse constraints -/

/-- A prover can only be built for instances all of whose constraints are dense with a density that fits. -/
theorem C69_prover_dense {w : Worker} {inst : InstanceProperties F} {factor out : ℕ} {prover : Prover F}
    (hp : Prover.new w inst factor out = .ok prover) :
    ∀ c ∈ inst.constraints, ∃ d, c.density = .dense d ∧ d.startAt + d.span ≤ inst.numRows := by
  unfold Prover.new at hp
  obtain ⟨arp, n1, hp⟩ := Res.bind_eq_ok.1 hp
  obtain ⟨ali, n2, -⟩ := Res.bind_eq_ok.1 hp
  unfold fromInstance at n1
  obtain ⟨cd, n3, n1⟩ := Res.bind_eq_ok.1 n1
  obtain ⟨cs, n4, n1⟩ := Res.bind_eq_ok.1 n1
  cases n1
  unfold AliInstance.fromArp at n2
  obtain ⟨cd', n5, n2⟩ := Res.bind_eq_ok.1 n2
  obtain ⟨kd, n6, n2⟩ := Res.bind_eq_ok.1 n2
  obtain ⟨pre, n7, n2⟩ := Res.bind_eq_ok.1 n2
  obtain ⟨dv, n8, -⟩ := Res.bind_eq_ok.1 n2
  intro c hc
  obtain ⟨c', hc', e⟩ := mapRes_mem_ok n4 c hc
  obtain ⟨b, hb1, hb2⟩ := mem_batches cs c' hc'
  obtain ⟨x1, x2, e1⟩ := forEach_mem_ok n8 _ hb1
  obtain ⟨q, e1, -⟩ := Res.bind_eq_ok.1 e1
  rw [← (maskConstraint_inv e).1]
  cases hd : c'.density with
  | dense d =>
    rw [hd] at e1
    replace e1 : inverseDivisorInCoset cd' kd d inst.numRows w = .ok q := e1
    unfold inverseDivisorInCoset at e1
    obtain ⟨_, e1, -⟩ := Res.bind_eq_ok.1 e1
    exact ⟨d, rfl, divisorDegree_fits e1⟩
  | _ => rw [hd] at e1; cases e1

/-- **C69** (repeated and sparse constraints). An instance with a constraint that is not dense gets no positive answer: no prover is built for it, no proof is
accepted for it, and no witness table is found to satisfy it. (Such constraints are not silently treated as dense ones, or skipped.) -/
theorem C69_not_dense {inst : InstanceProperties F} {c : Constraint F} (hc : c ∈ inst.constraints) (hd : ∀ d, c.density ≠ .dense d) :
    (∀ w factor out prover, Prover.new w inst factor out ≠ .ok prover) ∧
    (∀ factor v proof, Verifier.new inst factor = .ok v → v.verify H proof ≠ .ok true) ∧
    (∀ witness n T, 0 < n → IsTable witness n T → isSatisfied inst witness ≠ .ok ()) := by
  refine ⟨?_, ?_, ?_⟩
  · intro w factor out prover h
    obtain ⟨d, e, -⟩ := C69_prover_dense h c hc
    exact hd d e
  · intro factor v proof hv h
    obtain ⟨d, e, -⟩ := (C69_accepted_verifiable H hv h).density c hc
    exact hd d e
  · intro witness n T hn ht h
    obtain ⟨⟨d, e, -⟩, -⟩ := ((C69_satisfied_iff hn ht inst).1 h).1 c hc
    exact hd d e

/-- **C69** (constructors): `new` of a dense, repeated or sparse constraint panics exactly for an empty span, an interval 0 or 1, or no rows; otherwise it stores its
arguments. -/
theorem C69_density_new (start span interval : ℕ) (rows : List ℕ) :
    (DenseConstraint.new start span = if span = 0 then .panic else .ok ⟨start, span⟩) ∧
    (RepeatedConstraint.new start span interval = if span = 0 ∨ interval ≤ 1 then .panic else .ok ⟨start, span, interval⟩) ∧
    (SparseConstraint.new rows = if rows = [] then .panic else .ok ⟨rows⟩) := by
  refine ⟨?_, ?_, ?_⟩
  · unfold DenseConstraint.new
    by_cases h : span = 0
    · simp [h]
    · rw [if_neg h, decide_eq_true (by omega)]; rfl
  · unfold RepeatedConstraint.new
    by_cases h : span = 0 ∨ interval ≤ 1
    · rw [if_pos h]
      have : (decide (interval ≠ 1) && decide (interval ≠ 0) && decide (1 ≤ span)) = false := by
        simp only [Bool.and_eq_false_iff, decide_eq_false_iff_not]
        omega
      rw [this]; rfl
    · rw [if_neg h]
      have : (decide (interval ≠ 1) && decide (interval ≠ 0) && decide (1 ≤ span)) = true := by
        simp only [Bool.and_eq_true, decide_eq_true_iff]
        omega
      rw [this]; rfl
  · unfold SparseConstraint.new
    cases rows <;> rfl

/-- **C69** (defaults): the default dense and repeated constraints are what `new` returns for start 0, span 1 and (repeated) interval 2; the default sparse constraint, which names no row, is
none that `new` returns. -/
theorem C69_density_default : DenseConstraint.new 0 1 = .ok .default ∧ RepeatedConstraint.new 0 1 2 = .ok .default ∧
    ∀ rows, SparseConstraint.new rows ≠ .ok .default := by
  refine ⟨rfl, rfl, fun rows h => ?_⟩
  rw [(C69_density_new 0 0 0 rows).2.2] at h
  split at h
  · cases h
  · rename_i hr
    have : (⟨rows⟩ : SparseConstraint) = .default := by simpa using h
    exact hr (congrArg SparseConstraint.rows this)

/-! ## Non-vacuity -/

/-- The Fibonacci instance with its constraints declared to be repeated every two rows. -/
def repeatedFib : InstanceProperties Fr :=
  { fibInst Fr 2 1 1 with constraints := (fibInst Fr 2 1 1).constraints.map (fun c => { c with density := .repeated .default }) }

/-- A verifier is built for it all the same; it has no answer but panics, errors and `false`. -/
example : (∃ v, Verifier.new repeatedFib 8 = .ok v) ∧
    (∃ c ∈ repeatedFib.constraints, ∀ d, c.density ≠ .dense d) ∧ IsTable [[(1 : Fr), 1, 2, 3], [1, 2, 3, 5]] 2 4 := by
  have : (Verifier.new repeatedFib 8).isOk = true := by decide +kernel
  refine ⟨?_, ?_, rfl, by decide⟩
  · cases h : Verifier.new repeatedFib 8 with
    | ok v => exact ⟨v, rfl⟩
    | err e => rw [h] at this; cases this
    | panic => rw [h] at this; cases this
  · exact ⟨_, List.mem_map.2 ⟨_, List.mem_cons_self, rfl⟩, by intro d h; cases h⟩

example : isSatisfied repeatedFib [[(1 : Fr), 1, 2, 3], [1, 2, 3, 5]] = .panic := by decide +kernel
example : isSatisfied (fibInst Fr 2 1 1) [[(1 : Fr), 1, 2, 3], [1, 2, 3, 5]] = .ok () := by decide +kernel

/-- The hypotheses of `C69_accepted_verifiable` are met: proofs are accepted (`C46_shape_accepts_unsatisfiable`, `C64_accepted_iff`). -/
example : ∃ v proof, Verifier.new contradictoryInst 8 = .ok v ∧ v.verify toyHash proof = .ok true := by
  obtain ⟨-, v, proof, h1, -, -, -, h2⟩ := C46_shape_accepts_unsatisfiable
  exact ⟨v, proof, h1, h2⟩

/-- The hypotheses of `C69_proved_runnable` are met (the prover's run on the Fibonacci witness, evaluated). -/
example : (do
    let p ← Prover.new ⟨1, by decide⟩ (fibInst Fr 2 1 1) 8 1
    p.prove toyHash [[1, 1, 2, 3], [1, 2, 3, 5]] : Res (InstanceProof Fr)).isOk = true := by decide +kernel

end Hodor

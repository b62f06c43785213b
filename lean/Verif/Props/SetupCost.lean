import Verif.Lemmas.SetupCost
import Verif.Props.Supported
import Verif.Props.Verify

/-!
# C83: field operations of setting up a prover
-/

set_option linter.unusedSectionVars false

namespace Hodor

open Spec Tick

section generic
variable {α β σ : Type}

theorem works_forEach {l : List α} {s : σ} {f : α → σ → Tick σ} {c : α → ℕ} (h : ∀ x ∈ l, ∀ s, (f x s).Works (c x)) :
    (Tick.forEach l s f).Works (l.map c).sum := by
  induction l generalizing s with
  | nil => exact works_pure _
  | cons x l ih =>
    rw [List.map_cons, List.sum_cons]
    exact Works.bind (h x (by simp) s) fun s' _ => ih fun y hy => h y (by simp [hy])

theorem works_map {l : List α} {f : α → Tick β} {c : α → ℕ} (h : ∀ x ∈ l, (f x).Works (c x)) : (Tick.map f l).Works (l.map c).sum := by
  induction l with
  | nil => exact works_pure _
  | cons x l ih =>
    rw [List.map_cons, List.sum_cons]
    exact Works.bind (h x (by simp)) fun _ _ => Works.bind (d := 0) (ih fun y hy => h y (by simp [hy])) fun _ _ => works_pure _

end generic

variable {F : Type} [Field F] [DecidableEq F] [StarkField F]

/-! ## Shifts -/

theorem res_maskUnivariateTermT (d : Domain F) (t : UnivariateTerm F) : (maskUnivariateTermT d t).res = maskUnivariateTerm d t := by
  unfold maskUnivariateTermT maskUnivariateTerm
  cases t.stepsDifference with
  | steps n => simp only [res_bind, res_powT, Res.ok_bind, res_pure]
  | mask m => rfl

theorem works_maskUnivariateTermT (d : Domain F) (t : UnivariateTerm F) : (maskUnivariateTermT d t).Works (shiftOps t) := by
  unfold maskUnivariateTermT shiftOps
  cases t.stepsDifference with
  | steps n => exact Works.bind (d := 0) (works_powT _ _) fun _ _ => works_pure _
  | mask m => exact works_lift _

theorem res_maskTermT (d : Domain F) (t : ConstraintTerm F) : (maskTermT d t).res = maskTerm d t := by
  cases t with
  | univariate t => simp only [maskTermT, maskTerm, res_bind, res_maskUnivariateTermT, res_pure, Res.pure_def]
  | polyvariate p => simp only [maskTermT, maskTerm, res_bind, res_map fun t _ => res_maskUnivariateTermT d t, res_pure, Res.pure_def]

theorem works_maskTermT (d : Domain F) (t : ConstraintTerm F) : (maskTermT d t).Works ((termFactors t).map shiftOps).sum := by
  cases t with
  | univariate t =>
    refine (Works.bind (d := 0) (works_maskUnivariateTermT d t) fun _ _ => works_pure _).to ?_
    simp [termFactors]
  | polyvariate p =>
    exact Works.bind (d := 0) (works_map fun t _ => works_maskUnivariateTermT d t) fun _ _ => works_pure _

theorem res_maskConstraintT (d : Domain F) (c : Constraint F) : (maskConstraintT d c).res = maskConstraint d c := by
  simp only [maskConstraintT, maskConstraint, res_bind, res_map fun t _ => res_maskTermT d t, res_pure, Res.pure_def]

theorem works_maskConstraintT (d : Domain F) (c : Constraint F) : (maskConstraintT d c).Works ((factors c).map shiftOps).sum := by
  refine (Works.bind (d := 0) (works_map fun t _ => works_maskTermT d t) fun _ _ => works_pure _).to ?_
  unfold factors
  rw [Nat.add_zero, List.map_flatMap]
  induction c.terms with
  | nil => rfl
  | cons t ts ih => simp [ih]

theorem res_fromInstanceT (inst : InstanceProperties F) : (fromInstanceT inst).res = fromInstance inst := by
  simp only [fromInstanceT, fromInstance, res_bind, res_newForSizeT, res_map fun c _ => res_maskConstraintT _ c, res_pure, Res.pure_def]

theorem works_fromInstanceT (inst : InstanceProperties F) :
    (fromInstanceT inst).Works (domainOps (StarkField.S F) (2 ^ rowsLog inst) + (inst.constraints.map (fun c => ((factors c).map shiftOps).sum)).sum) := by
  refine Works.bind (works_newForSizeT _) fun d _ => ?_
  exact Works.bind (d := 0) (works_map fun c _ => works_maskConstraintT d c) fun _ _ => works_pure _

/-! ## The routed instance -/

theorem mapRes_map_eq {α β γ : Type} {f : α → Res β} {p : α → γ} {q : β → γ} (h : ∀ a b, f a = .ok b → q b = p a) {l : List α} {r : List β}
    (hr : mapRes f l = .ok r) : r.map q = l.map p := by
  induction l generalizing r with
  | nil => cases hr; rfl
  | cons a l ih =>
    unfold mapRes at hr
    obtain ⟨b, hb, hr⟩ := Res.bind_eq_ok.1 hr
    obtain ⟨bs, hbs, hr⟩ := Res.bind_eq_ok.1 hr
    cases hr
    rw [List.map_cons, List.map_cons, h a b hb, ih hbs]

theorem maskConstraint_keeps (d : Domain F) (c c' : Constraint F) (h : maskConstraint d c = .ok c') : (c'.density, c'.degree) = (c.density, c.degree) := by
  unfold maskConstraint at h
  obtain ⟨ts, -, h⟩ := Res.bind_eq_ok.1 h
  cases h
  rfl

theorem fromInstance_keeps {inst arp : InstanceProperties F} (h : fromInstance inst = .ok arp) :
    arp.numRows = inst.numRows ∧ arp.boundaryConstraints = inst.boundaryConstraints ∧
    arp.constraints.map (fun c => (c.density, c.degree)) = inst.constraints.map (fun c => (c.density, c.degree)) := by
  unfold fromInstance at h
  obtain ⟨d, -, h⟩ := Res.bind_eq_ok.1 h
  obtain ⟨cs, hcs, h⟩ := Res.bind_eq_ok.1 h
  cases h
  exact ⟨rfl, rfl, mapRes_map_eq (maskConstraint_keeps d) hcs⟩

theorem densitiesOf_congr {cs cs' : List (Constraint F)} (h : cs.map (fun c => (c.density, c.degree)) = cs'.map (fun c => (c.density, c.degree))) :
    densitiesOf cs = densitiesOf cs' := by
  induction cs generalizing cs' with
  | nil =>
    cases cs' with
    | nil => rfl
    | cons c cs' => simp at h
  | cons c cs ih =>
    cases cs' with
    | nil => simp at h
    | cons c' cs' =>
      simp only [List.map_cons, List.cons.injEq, Prod.mk.injEq] at h
      rw [densitiesOf, densitiesOf, ih h.2, h.1.1]

theorem maxDegree_eq_foldr (cs : List (Constraint F)) : maxDegree cs = cs.foldr (fun c m => max c.degree m) 0 := by
  have h : ∀ (cs : List (Constraint F)) (m : ℕ), cs.foldl (fun m c => if c.degree > m then c.degree else m) m = max (cs.foldr (fun c m => max c.degree m) 0) m := by
    intro cs
    induction cs with
    | nil => intro m; simp
    | cons c cs ih =>
      intro m
      rw [List.foldl_cons, ih, List.foldr_cons]
      split <;> omega
  unfold maxDegree
  rw [h cs 0]
  simp

theorem foldr_degree_congr {cs cs' : List (Constraint F)} (h : cs.map (fun c => (c.density, c.degree)) = cs'.map (fun c => (c.density, c.degree))) :
    cs.foldr (fun c m => max c.degree m) 0 = cs'.foldr (fun c m => max c.degree m) 0 := by
  have e : ∀ cs : List (Constraint F), cs.foldr (fun c m => max c.degree m) 0 = (cs.map (fun c => (c.density, c.degree))).foldr (fun c m => max c.2 m) 0 := by
    intro cs
    rw [List.foldr_map]
  rw [e, e, h]

/-! ## The whole setup -/

theorem res_densityDivisorT (cd ed : Domain F) (rows : ℕ) (w : Worker) (d : ConstraintDensity) :
    (densityDivisorT cd ed rows w d).res = densityDivisor cd ed rows w d := by
  cases d with
  | dense d => exact res_inverseDivisorInCosetT _ _ _ _ _
  | repeated d => rfl
  | sparse d => rfl

theorem works_densityDivisorT (k K rows : ℕ) (w : Worker) (d : ConstraintDensity) :
    (densityDivisorT (domOf F k) (domOf F K) rows w d).Works (densityOps (StarkField.S F) w k (2 ^ K) rows d) := by
  cases d with
  | dense d => exact works_inverseDivisorInCosetT _ _ _ _ _
  | repeated d => exact fun a ha => by cases ha
  | sparse d => exact fun a ha => by cases ha

theorem res_fromArpT (arp : InstanceProperties F) (w : Worker) : (fromArpT arp w).res = AliInstance.fromArp arp w := by
  simp only [fromArpT, AliInstance.fromArp, res_bind, res_newForSizeT, res_newForDomainT, res_pure]
  congr 1; funext cd
  congr 1; funext ed
  congr 1; funext pre
  rw [res_forEach (body' := fun b m => do
    let p ← densityDivisor cd ed arp.numRows w b.1
    pure (assocInsert m b.1 p)) (fun b _ m => by simp only [res_bind, res_densityDivisorT, res_pure]; rfl)]
  congr 1; funext divisors
  rw [res_forEach (body' := fun row m => do
    let p ← boundaryDivisor cd ed row w
    pure (assocInsert m row p)) (fun b _ m => by simp only [res_bind, res_boundaryDivisorT, res_pure]; rfl)]
  rfl

theorem sum_map_rows (bs : List (BoundaryConstraint F)) (f : ℕ → ℕ) :
    ((bs.foldl (fun s b => insertSet s b.atRow) []).map f).sum = ∑ r ∈ (bs.map (fun b => b.atRow)).toFinset, f r := by
  have hn : (bs.foldl (fun s b => insertSet s b.atRow) []).Nodup := nodup_foldl_insertSet (fun b : BoundaryConstraint F => b.atRow) bs List.nodup_nil
  rw [← List.sum_toFinset f hn]
  refine Finset.sum_congr ?_ fun _ _ => rfl
  ext r
  rw [List.mem_toFinset, List.mem_toFinset, mem_foldl_insertSet (fun b : BoundaryConstraint F => b.atRow)]
  simp

theorem works_fromArpT (inst arp : InstanceProperties F) (h : fromInstance inst = .ok arp) (w : Worker) :
    (fromArpT arp w).Works (domainOps (StarkField.S F) inst.numRows + (domainOps (StarkField.S F) (pointsOf inst) + (tableOps w (pointsOf inst) +
      (((densitiesOf inst.constraints).map (densityOps (StarkField.S F) w (rowsLog inst) (pointsOf inst) inst.numRows)).sum +
        ((∑ r ∈ (inst.boundaryConstraints.map (fun b => b.atRow)).toFinset, boundaryOps (StarkField.S F) w (pointsOf inst) r) + 0))))) := by
  obtain ⟨h1, h2, h3⟩ := fromInstance_keeps h
  unfold fromArpT
  rw [h1, h2]
  dsimp only
  refine Works.bind (works_newForSizeT _) fun cd hcd => ?_
  rw [res_newForSizeT] at hcd
  obtain ⟨k, -, rfl, hk⟩ := newForSize_inv hcd
  have ek : k = rowsLog inst := Nat.pow_right_injective (le_refl 2) hk
  have hdeg : maxDegree arp.constraints = degreeOf inst := by rw [maxDegree_eq_foldr, foldr_degree_congr h3]; rfl
  have hN : nextPow2 ((domOf F k).size * maxDegree arp.constraints) = pointsOf inst := by
    rw [hdeg, ek]
    rfl
  refine Works.bind ((works_newForSizeT _).to ?_) fun ed hed => ?_
  · rw [← hN]
    unfold domainOps nextPow2
    rw [Nat.clog_pow _ _ (by norm_num)]
  rw [res_newForSizeT] at hed
  obtain ⟨K, -, rfl, hK⟩ := newForSize_inv hed
  rw [hN] at hK
  rw [← hK]
  refine Works.bind (works_newForDomainT _ _) fun _ _ => ?_
  refine Works.bind ?_ fun _ _ => ?_
  · have e : arp.constraints.foldl (fun m c => pushBatch c m) [] = groupsOf arp.constraints := batchesOf_groups _
    rw [e, ← densitiesOf_congr h3]
    have : (densitiesOf arp.constraints).map (densityOps (StarkField.S F) w (rowsLog inst) (2 ^ K) inst.numRows) =
        (groupsOf arp.constraints).map (fun b => densityOps (StarkField.S F) w (rowsLog inst) (2 ^ K) inst.numRows b.1) := by
      unfold groupsOf
      rw [List.map_map]
      rfl
    rw [this, ← ek]
    exact works_forEach fun b _ s => Works.bind (d := 0) (works_densityDivisorT _ _ _ _ _) fun _ _ => works_pure _
  · refine Works.bind ?_ fun _ _ => works_pure _
    rw [← sum_map_rows]
    exact works_forEach fun b _ s => Works.bind (d := 0) (works_boundaryDivisorT _ _ _ _) fun _ _ => works_pure _

/-- **C83**. Counting field operations changes nothing about the setup, and every setup that succeeds takes exactly the number of operations of the specification. -/
theorem C83_setup (w : Worker) (inst : InstanceProperties F) (ldeFactor final : ℕ) :
    (proverNewT w inst ldeFactor final).res = Prover.new w inst ldeFactor final ∧
    ∀ prover, Prover.new w inst ldeFactor final = .ok prover → (proverNewT w inst ldeFactor final).ops = setupOps (StarkField.S F) w inst := by
  have hr : (proverNewT w inst ldeFactor final).res = Prover.new w inst ldeFactor final := by
    simp only [proverNewT, Prover.new, res_bind, res_fromInstanceT, res_fromArpT, res_pure, Res.pure_def]
  refine ⟨hr, fun prover hp => ?_⟩
  rw [← hr] at hp
  have hw : (proverNewT w inst ldeFactor final).Works _ := Works.bind (works_fromInstanceT inst) fun arp harp => by
    rw [res_fromInstanceT] at harp
    exact Works.bind (d := 0) (works_fromArpT inst arp harp w) fun _ _ => works_pure _
  rw [hw prover hp]
  unfold setupOps
  ring

/-- **C83** (lower bound). For every constraint, on every point of the evaluation domain, two operations for each row it leaves out. -/
theorem C83_lower (w : Worker) (inst : InstanceProperties F) (ldeFactor final : ℕ) (prover : Prover F)
    (h : Prover.new w inst ldeFactor final = .ok prover) (c : Constraint F) (hc : c ∈ inst.constraints) :
    2 * pointsOf inst * excludedRows (2 ^ rowsLog inst) inst.numRows c.density ≤ (proverNewT w inst ldeFactor final).ops := by
  rw [(C83_setup w inst ldeFactor final).2 prover h]
  have hm : c.density ∈ densitiesOf inst.constraints := mem_densitiesOf.2 ⟨c, hc, rfl⟩
  have h1 : densityOps (StarkField.S F) w (rowsLog inst) (pointsOf inst) inst.numRows c.density ≤
      ((densitiesOf inst.constraints).map (densityOps (StarkField.S F) w (rowsLog inst) (pointsOf inst) inst.numRows)).sum :=
    List.single_le_sum (by simp) _ (List.mem_map_of_mem hm)
  have h2 : 2 * pointsOf inst * excludedRows (2 ^ rowsLog inst) inst.numRows c.density ≤
      densityOps (StarkField.S F) w (rowsLog inst) (pointsOf inst) inst.numRows c.density := by
    unfold densityOps
    have : pointsOf inst * (2 * excludedRows (2 ^ rowsLog inst) inst.numRows c.density + 1) =
      2 * pointsOf inst * excludedRows (2 ^ rowsLog inst) inst.numRows c.density + pointsOf inst := by ring
    rw [this]
    omega
  unfold setupOps
  omega

/-- **C83** (padding). If the number of rows is one more than a power of two, the setup takes more than quadratically many operations in the number of rows, whatever the constraints are. -/
theorem C83_padding (w : Worker) (inst : InstanceProperties F) (ldeFactor final : ℕ) (prover : Prover F)
    (h : Prover.new w inst ldeFactor final = .ok prover) (j : ℕ) (hrows : inst.numRows = 2 ^ j + 1) (c : Constraint F) (hc : c ∈ inst.constraints) (hd : 1 ≤ c.degree) :
    4 * (inst.numRows - 1) * (inst.numRows - 2) ≤ (proverNewT w inst ldeFactor final).ops := by
  have hl := C83_lower w inst ldeFactor final prover h c hc
  have hk : rowsLog inst = j + 1 := by
    unfold rowsLog
    rw [hrows]
    refine le_antisymm ((Nat.clog_le_iff_le_pow (by norm_num)).2 ?_) ?_
    · rw [pow_succ]
      have := Nat.one_le_two_pow (n := j)
      omega
    · by_contra hlt
      have hle : Nat.clog 2 (2 ^ j + 1) ≤ j := by omega
      rw [Nat.clog_le_iff_le_pow (by norm_num)] at hle
      omega
  have hdeg : 1 ≤ degreeOf inst := by
    have := le_maxDegree hc
    rw [maxDegree_eq_foldr] at this
    exact le_trans hd this
  have hN : 2 * 2 ^ j ≤ pointsOf inst := by
    unfold pointsOf
    rw [hk]
    refine le_trans ?_ (Nat.le_pow_clog (by norm_num) _)
    rw [pow_succ]
    nlinarith [Nat.one_le_two_pow (n := j)]
  obtain ⟨d, hdense⟩ : ∃ d, c.density = .dense d := (C69_prover_dense h c hc).imp fun _ h => h.1
  have he : 2 ^ j - 1 ≤ excludedRows (2 ^ rowsLog inst) inst.numRows c.density := by
    rw [hdense, hk, hrows, pow_succ]
    simp only [excludedRows]
    omega
  rw [hrows]
  calc 4 * (2 ^ j + 1 - 1) * (2 ^ j + 1 - 2) = 2 * (2 * 2 ^ j) * (2 ^ j - 1) := by rw [Nat.add_sub_cancel, show 2 ^ j + 1 - 2 = 2 ^ j - 1 by omega]; ring
    _ ≤ 2 * pointsOf inst * excludedRows (2 ^ rowsLog inst) inst.numRows c.density := Nat.mul_le_mul (by omega) he
    _ ≤ _ := hl

/-- **C83** (no padding). If the number of rows is a power of two, only the rows before the start and the last rows of the span are left out. -/
theorem C83_no_padding (k : ℕ) (d : DenseConstraint) (h : d.span ≤ 2 ^ k) : excludedRows (2 ^ k) (2 ^ k) (.dense d) = d.startAt + d.span := by
  simp only [excludedRows]
  omega

/-! ## Upper bound -/

theorem powExact_le (e : ℕ) : powExact e ≤ 2 * (Nat.log 2 e + 1) := by
  unfold powExact
  by_cases h : e = 0
  · subst h; simp
  have h1 : (Nat.digits 2 e).sum ≤ (Nat.digits 2 e).length := by
    have : ∀ l : List ℕ, (∀ d ∈ l, d < 2) → l.sum ≤ l.length := by
      intro l
      induction l with
      | nil => intro _; simp
      | cons d l ih =>
        intro h
        have := h d (by simp)
        have := ih fun x hx => h x (by simp [hx])
        simp only [List.sum_cons, List.length_cons]
        omega
    exact this _ fun d hd => Nat.digits_lt_base (by norm_num) hd
  rw [Nat.length_digits 2 e (by norm_num) h] at h1
  omega

theorem powExact_le_of_lt {e L : ℕ} (h : e < 2 ^ L) : powExact e ≤ 2 * L := by
  by_cases h0 : e = 0
  · subst h0; simp [powExact]
  have h1 := powExact_le e
  have := (Nat.log_lt_iff_lt_pow (by norm_num) h0).2 h
  omega

theorem decimalOps_le (L : ℕ) : decimalOps (2 ^ L) ≤ 3 * L + 4 := by
  unfold decimalOps
  rw [Nat.length_digits 10 _ (by norm_num) (by positivity)]
  have : Nat.log 10 (2 ^ L) ≤ L := by
    calc Nat.log 10 (2 ^ L) ≤ Nat.log 2 (2 ^ L) := Nat.log_anti_left (by norm_num) (by norm_num)
      _ = L := Nat.log_pow (by norm_num) _
  omega

theorem startOps_le (w : Worker) (L : ℕ) : startOps w (2 ^ L) ≤ w.numSpawnedThreads (2 ^ L) * (2 * L) := by
  unfold startOps
  refine le_trans (Finset.sum_le_card_nsmul _ _ (2 * L) fun i hi => ?_) (by simp)
  refine powExact_le_of_lt ?_
  rw [Finset.mem_range, numSpawnedThreads_eq] at hi
  unfold numChunks at hi
  have hc := w.chunkSize_pos (2 ^ L)
  have h5 := (Nat.le_div_iff_mul_le hc).1 (Nat.succ_le_of_lt hi)
  rw [Nat.succ_mul] at h5
  omega

theorem densityOps_le (S : ℕ) (w : Worker) (k L rows : ℕ) (hk : k ≤ L) (hr : rows ≤ 2 ^ k) (d : ConstraintDensity) :
    densityOps S w k (2 ^ L) rows d ≤ 2 ^ L * (2 * excludedRows (2 ^ k) rows d + k + 7) + excludedRows (2 ^ k) rows d + setupOverhead S L (w.numSpawnedThreads (2 ^ L)) := by
  unfold densityOps polyOps invertAllOps setupOverhead domainOps
  have h1 := startOps_le w L
  have h2 := decimalOps_le L
  have h3 : powExact (lastRow rows d) ≤ 2 * (L + 1) := by
    refine powExact_le_of_lt ?_
    have : lastRow rows d ≤ rows := by
      cases d <;> simp only [lastRow] <;> omega
    have h4 : (2 : ℕ) ^ k < 2 ^ (L + 1) := Nat.pow_lt_pow_right (by norm_num) (by omega)
    omega
  rw [Nat.clog_pow _ _ (by norm_num)]
  generalize w.numSpawnedThreads (2 ^ L) = t at *
  generalize startOps w (2 ^ L) = s at *
  generalize excludedRows (2 ^ k) rows d = E at *
  generalize (2 : ℕ) ^ L = N at *
  have e : N * (2 * E + k + 7) = N * (k + 3) + 3 * N + N * (2 * E + 1) := by ring
  have e2 : (4 * L + 2) * t = 2 * (t * (2 * L)) + 2 * t := by ring
  rw [e, e2]
  omega

theorem boundaryOps_le (S : ℕ) (w : Worker) (L row : ℕ) :
    boundaryOps S w (2 ^ L) row ≤ 6 * 2 ^ L + powExact row + setupOverhead S L (w.numSpawnedThreads (2 ^ L)) := by
  unfold boundaryOps polyOps invertAllOps setupOverhead domainOps
  have h1 := startOps_le w L
  have h2 := decimalOps_le L
  have h3 := decimalOps_le 1
  rw [Nat.clog_pow _ _ (by norm_num), show Nat.clog 2 2 = 1 by decide]
  generalize w.numSpawnedThreads (2 ^ L) = t at *
  generalize startOps w (2 ^ L) = s at *
  generalize (2 : ℕ) ^ L = N at *
  have e2 : (4 * L + 2) * t = 2 * (t * (2 * L)) + 2 * t := by ring
  rw [e2]
  omega

theorem numSpawnedThreads_le (w : Worker) (n : ℕ) : w.numSpawnedThreads n ≤ 2 * w.cpus := by
  have hp := w.pos
  rw [numSpawnedThreads_eq]
  unfold numChunks Worker.chunkSize
  split
  · omega
  · rename_i h
    have hc : 0 < n / w.cpus := Nat.div_pos (by omega) hp
    have h1 := Nat.lt_mul_div_succ n hp
    refine Nat.le_of_lt_succ ((Nat.div_lt_iff_lt_mul hc).2 ?_)
    generalize n / w.cpus = c at *
    have : w.cpus ≤ w.cpus * c := Nat.le_mul_of_pos_right _ hc
    calc n + c - 1 < w.cpus * (c + 1) + c := by omega
      _ = w.cpus * c + w.cpus + c := by ring
      _ ≤ 2 * (w.cpus * c) + c := by omega
      _ = (2 * w.cpus).succ * c := by rw [Nat.succ_eq_add_one]; ring

theorem setupOverhead_mono (S L : ℕ) {t t' : ℕ} (h : t ≤ t') : setupOverhead S L t ≤ setupOverhead S L t' := by
  unfold setupOverhead
  have h1 : t ^ 2 ≤ t' ^ 2 := Nat.pow_le_pow_left h 2
  have h2 : (4 * L + 2) * t ≤ (4 * L + 2) * t' := Nat.mul_le_mul_left _ h
  omega

theorem tableOps_le (w : Worker) (L : ℕ) (S : ℕ) : domainOps S (2 ^ L) + tableOps w (2 ^ L) + 2 * S ≤ 3 * 2 ^ L + setupOverhead S L (2 * w.cpus) := by
  unfold tableOps setupOverhead domainOps
  have h1 := startOps_le w L
  have h2 : startOps w (2 ^ L / 2) ≤ 2 * w.cpus * (2 * L) := by
    cases L with
    | zero => simp [startOps, numSpawnedThreads_eq, numChunks, Worker.chunkSize, w.pos]
    | succ L =>
      rw [pow_succ, Nat.mul_div_cancel _ (by norm_num)]
      refine le_trans (startOps_le w L) ?_
      exact Nat.mul_le_mul (numSpawnedThreads_le w _) (by omega)
  have h3 : w.numSpawnedThreads (2 ^ L) * (2 * L) ≤ 2 * w.cpus * (2 * L) := Nat.mul_le_mul_right _ (numSpawnedThreads_le w _)
  have e2 : (4 * L + 2) * (2 * w.cpus) = 2 * (2 * w.cpus * (2 * L)) + 2 * (2 * w.cpus) := by ring
  rw [e2]
  omega

theorem sum_map_le {α : Type} (l : List α) (f : α → ℕ) (B : ℕ) (h : ∀ x ∈ l, f x ≤ B) : (l.map f).sum ≤ l.length * B := by
  induction l with
  | nil => simp
  | cons x l ih =>
    have h1 := h x (by simp)
    have h2 := ih fun y hy => h y (by simp [hy])
    rw [List.map_cons, List.sum_cons, List.length_cons, Nat.succ_mul]
    omega

/-- **C83** (upper bound). If no constraint leaves out more than `E` rows, the setup takes, for the tables, for each density and for each row with a boundary value, at most `2 E + k + 7` operations for each
point, `2 ^ k` being the padded number of rows, `E` more, and a number that only depends on the logarithm of the number of points and on the number of CPUs; and the powers for the shifts and for the rows. -/
theorem C83_upper (w : Worker) (inst : InstanceProperties F) (ldeFactor final : ℕ) (prover : Prover F)
    (h : Prover.new w inst ldeFactor final = .ok prover) (hd : 1 ≤ degreeOf inst) (L E : ℕ) (hL : pointsOf inst = 2 ^ L)
    (hE : ∀ c ∈ inst.constraints, excludedRows (2 ^ rowsLog inst) inst.numRows c.density ≤ E) :
    (proverNewT w inst ldeFactor final).ops ≤
      (1 + (densitiesOf inst.constraints).length + (inst.boundaryConstraints.map (fun b => b.atRow)).toFinset.card) *
        (2 ^ L * (2 * E + rowsLog inst + 7) + E + setupOverhead (StarkField.S F) L (2 * w.cpus)) +
      (inst.constraints.map (fun c => ((factors c).map shiftOps).sum)).sum +
      ∑ r ∈ (inst.boundaryConstraints.map (fun b => b.atRow)).toFinset, powExact r := by
  rw [(C83_setup w inst ldeFactor final).2 prover h]
  unfold setupOps
  rw [hL]
  generalize hB : 2 ^ L * (2 * E + rowsLog inst + 7) + E + setupOverhead (StarkField.S F) L (2 * w.cpus) = B
  have hkL : rowsLog inst ≤ L := by
    have e : Nat.clog 2 (2 ^ rowsLog inst * degreeOf inst) = L := Nat.pow_right_injective (le_refl 2) hL
    rw [← e]
    have h1 : Nat.clog 2 (2 ^ rowsLog inst) ≤ Nat.clog 2 (2 ^ rowsLog inst * degreeOf inst) := Nat.clog_mono_right 2 (Nat.le_mul_of_pos_right _ hd)
    rwa [Nat.clog_pow _ _ (by norm_num)] at h1
  have hrows : inst.numRows ≤ 2 ^ rowsLog inst := Nat.le_pow_clog (by norm_num) _
  have hmono := setupOverhead_mono (StarkField.S F) L (numSpawnedThreads_le w (2 ^ L))
  have h1 : ((densitiesOf inst.constraints).map (densityOps (StarkField.S F) w (rowsLog inst) (2 ^ L) inst.numRows)).sum ≤ (densitiesOf inst.constraints).length * B := by
    refine sum_map_le _ _ _ fun d hd => ?_
    obtain ⟨c, hc, e⟩ := mem_densitiesOf.1 hd
    have h2 := densityOps_le (StarkField.S F) w (rowsLog inst) L inst.numRows hkL hrows d
    have h3 := hE c hc
    rw [e] at h3
    have h4 : 2 ^ L * (2 * excludedRows (2 ^ rowsLog inst) inst.numRows d + rowsLog inst + 7) ≤ 2 ^ L * (2 * E + rowsLog inst + 7) :=
      Nat.mul_le_mul_left _ (by omega)
    omega
  have hN : 7 * 2 ^ L ≤ 2 ^ L * (2 * E + rowsLog inst + 7) := by
    rw [Nat.mul_comm 7]
    exact Nat.mul_le_mul_left _ (by omega)
  have h2 : ∑ r ∈ (inst.boundaryConstraints.map (fun b => b.atRow)).toFinset, boundaryOps (StarkField.S F) w (2 ^ L) r ≤
      (inst.boundaryConstraints.map (fun b => b.atRow)).toFinset.card * B + ∑ r ∈ (inst.boundaryConstraints.map (fun b => b.atRow)).toFinset, powExact r := by
    calc _ ≤ ∑ r ∈ (inst.boundaryConstraints.map (fun b => b.atRow)).toFinset, (B + powExact r) := by
          refine Finset.sum_le_sum fun r _ => ?_
          have := boundaryOps_le (StarkField.S F) w L r
          omega
      _ = _ := by rw [Finset.sum_add_distrib, Finset.sum_const, smul_eq_mul]
  have h3 : domainOps (StarkField.S F) (2 ^ rowsLog inst) + domainOps (StarkField.S F) inst.numRows + domainOps (StarkField.S F) (2 ^ L) + tableOps w (2 ^ L) ≤ B := by
    have := tableOps_le w L (StarkField.S F)
    have : domainOps (StarkField.S F) (2 ^ rowsLog inst) ≤ StarkField.S F := Nat.sub_le _ _
    have : domainOps (StarkField.S F) inst.numRows ≤ StarkField.S F := Nat.sub_le _ _
    omega
  have e : (1 + (densitiesOf inst.constraints).length + (inst.boundaryConstraints.map (fun b => b.atRow)).toFinset.card) * B =
      B + (densitiesOf inst.constraints).length * B + (inst.boundaryConstraints.map (fun b => b.atRow)).toFinset.card * B := by ring
  rw [e]
  omega

theorem ok_of_isOk {α : Type} {r : Res α} (h : (match r with | .ok _ => true | _ => false) = true) : ∃ a, r = .ok a := by
  cases r with
  | ok a => exact ⟨a, rfl⟩
  | err e => cases h
  | panic => cases h

/-- Non-vacuity of C83: an instance of three rows with two densities and one boundary value, and the same with four rows, on two CPUs. -/
example : (∃ p, Prover.new ⟨2, by norm_num⟩ threeRows 2 1 = .ok p) ∧ (proverNewT ⟨2, by norm_num⟩ threeRows 2 1).ops = 274 ∧ threeRows.numRows = 2 ^ 1 + 1 ∧
    pointsOf threeRows = 2 ^ 2 ∧ 1 ≤ degreeOf threeRows ∧ (∃ c ∈ threeRows.constraints, excludedRows (2 ^ rowsLog threeRows) 3 c.density = 3 ∧ 1 ≤ c.degree) ∧
    (∀ c ∈ threeRows.constraints, excludedRows (2 ^ rowsLog threeRows) 3 c.density ≤ 3) ∧
    (∃ p, Prover.new ⟨2, by norm_num⟩ (mixedInst [doubling, quadrupling]) 2 1 = .ok p) ∧
    (proverNewT ⟨2, by norm_num⟩ (mixedInst [doubling, quadrupling]) 2 1).ops = 258 := by
  refine ⟨ok_of_isOk (by decide +kernel), by decide +kernel, rfl, by decide +kernel, by decide +kernel, ?_, by decide +kernel, ok_of_isOk (by decide +kernel), by decide +kernel⟩
  exact ⟨quadrupling, by simp [threeRows, mixedInst], by decide +kernel, by decide +kernel⟩

end Hodor

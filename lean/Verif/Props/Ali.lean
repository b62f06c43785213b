import Verif.Lemmas.StarkV
import Verif.Props.Arp
import Verif.Props.Trace
import Verif.Props.Transcript

/-!
# C40-C42: divisors, quotients and the composition polynomial
-/

namespace Hodor

open Spec Polynomial

section
variable {F : Type} [Field F] [DecidableEq F] [StarkField F]

/-! ## C40 -/

/-- **C40** (prover): for every number of rows, `from_arp` stores for every density occurring in the instance
the table of inverses of the polynomial vanishing exactly on the enforced rows, over the points
`mulGen * ω^i` of the constraints domain. (`k` is the size of the trace domain, the number of rows rounded up
to a power of two, `K` that of the constraints domain; the coset must not meet the trace domain.) -/
theorem C40_prover_divisors (w : Worker) (arp : InstanceProperties F) (k K : ℕ) (hk : Nat.clog 2 arp.numRows = k)
    (hKe : Nat.clog 2 (2 ^ k * maxDegree arp.constraints) = K) (hkK : k ≤ K) (hK : K ≤ StarkField.S F)
    (h1 : 1 ≤ StarkField.S F) (hs : (StarkField.mulGen : F) ^ 2 ^ K ≠ 1)
    (hd : ∀ c ∈ arp.constraints, ∃ d, c.density = .dense d ∧ d.startAt + d.span ≤ arp.numRows) :
    ∃ ali dom, AliInstance.fromArp arp w = .ok ali ∧ Domain.newForSize F (2 ^ K) = .ok dom ∧
      ∀ p ∈ ali.constraintsBatchedByDensity, ∃ d tbl, p.1 = .dense d ∧
        assocGet ali.constraintDivisors p.1 = some tbl ∧ tbl.coeffs.length = 2 ^ K ∧
        ∀ i, i < 2 ^ K → tbl.coeffs[i]? = some (1 / zerofierAt (genOf F k) (enforcedRows d arp.numRows)
          (StarkField.mulGen * dom.generator ^ i)) := by
  have hle : arp.numRows ≤ 2 ^ k := by rw [← hk]; exact Nat.le_pow_clog (by norm_num) _
  obtain ⟨ali, e, h⟩ := fromArp_ok w hk hKe hkK hK h1 hs (fun c hc => by
    obtain ⟨d, e1, e2⟩ := hd c hc
    exact ⟨d, e1, e2, hle⟩)
  refine ⟨ali, _, e, newForSize_pow hK, ?_⟩
  rw [h.batches]
  intro p hp
  obtain ⟨hne, hmem⟩ := batch_inv arp.constraints [] [] (by simp) p hp
  obtain ⟨c, hc⟩ := List.exists_mem_of_ne_nil _ hne
  obtain ⟨h2, h3⟩ := hmem c hc
  obtain ⟨d, e1, -⟩ := hd c (by simpa using h2)
  refine ⟨d, _, h3.symm.trans e1, h.divisors p hp d (h3.symm.trans e1), by simp, ?_⟩
  intro i hi
  rw [mkPoly_coeffs, getElem?_tab, if_pos hi, one_div]
  rfl

/-- **C40** (verifier): at every point outside the trace domain the verifier's divisor is the inverse of the
polynomial vanishing exactly on the enforced rows; inside the trace domain it reports a division by zero. -/
theorem C40_verifier_divisor (numRows k : ℕ) (hk : k ≤ StarkField.S F) (hle : numRows ≤ 2 ^ k) (d : DenseConstraint)
    (hd : d.startAt + d.span ≤ numRows) (dom : Domain F) (hdom : Domain.newForSize F (2 ^ k) = .ok dom) (z : F) :
    inverseDivisorAt z dom d numRows = if z ^ 2 ^ k = 1 then .err .divisionByZero
      else .ok (1 / zerofierAt dom.generator (enforcedRows d numRows) z) := by
  rw [newForSize_pow hk] at hdom
  cases hdom
  split
  · rename_i h
    unfold inverseDivisorAt
    simp only [divisorDegree_ok ⟨hd, hle⟩, Res.ok_bind, h, sub_self]
    simp [inverse, Res.okOr]
  · rename_i h
    rw [one_div]
    exact inverseDivisorAt_ok hk ⟨hd, hle⟩ h

/-- **C40**: a density that excludes more rows than there are makes both sides panic. -/
theorem C40_too_wide_panics (w : Worker) (numRows k K : ℕ) (hle : numRows ≤ 2 ^ k) (d : DenseConstraint)
    (hd : numRows < d.startAt + d.span) (dom domK : Domain F) (hdom : dom.size = 2 ^ k) (z : F) :
    inverseDivisorAt z dom d numRows = .panic ∧ inverseDivisorInCoset dom domK d numRows w = .panic := by
  have h : divisorDegree dom.size numRows d = .panic := divisorDegree_panic (by rintro ⟨h1, -⟩; omega)
  constructor
  · unfold inverseDivisorAt; rw [h]; rfl
  · unfold inverseDivisorInCoset; rw [h]; rfl

/-- **C40**: the polynomial that vanishes on the enforced rows is `x^T - 1` without the factors of the excluded
rows: the first `start_at` ones, and those from `numRows - span` on. -/
theorem C40_excluded (numRows k : ℕ) (hk : k ≤ StarkField.S F) (hle : numRows ≤ 2 ^ k) (d : DenseConstraint)
    (hd : d.startAt + d.span ≤ numRows) (x : F) :
    zerofierAt (genOf F k) (enforcedRows d numRows) x *
      zerofierAt (genOf F k) (Finset.range d.startAt ∪ Finset.Ico (numRows - d.span) (2 ^ k)) x = x ^ 2 ^ k - 1 := by
  rw [pow_sub_one_eq_prod (genOf_prim hk) (Nat.two_pow_pos k)]
  unfold zerofierAt enforcedRows
  rw [← Finset.prod_union]
  · apply Finset.prod_congr _ (fun _ _ => rfl)
    ext i
    simp only [Finset.mem_union, Finset.mem_Ico, Finset.mem_range]
    omega
  · rw [Finset.disjoint_left]
    intro i
    simp only [Finset.mem_union, Finset.mem_Ico, Finset.mem_range]
    omega

/-! ## C42 -/

/-- **C42**: let the polynomials `P` interpolate a trace of `2^k` rows, let `c` be a dense constraint and `c'`
its converted form. The polynomial of `c'` is a multiple of the zerofier of the enforced rows exactly when `c`
holds at all these rows (row numbers are taken cyclically). -/
theorem C42_quotient_iff (inst arp : InstanceProperties F) (n k : ℕ) (hk : k ≤ StarkField.S F)
    (hrows : inst.numRows = 2 ^ k)
    (hsteps : ∀ c ∈ inst.constraints, ∀ u ∈ factors c, (∃ r, r < n ∧ u.register = .register r) ∧
      ∃ j, u.stepsDifference = .steps j)
    (harp : fromInstance inst = .ok arp) (P : ℕ → F[X]) (witness : List (List F))
    (hv : ∀ r, r < n → ∀ i, i < 2 ^ k → (P r).eval (genOf F k ^ i) = cell witness r i) :
    List.Forall₂ (fun c c' => ∀ d, c.density = .dense d →
      ((∃ Q, constraintPoly P c' = zerofier (genOf F k) (enforcedRows d (2 ^ k)) * Q) ↔
        ∀ row, d.startAt ≤ row → row + d.span < 2 ^ k →
          constraintValue (rowEnv (fun r i => cellR witness r (i % 2 ^ k)) row) c = 0))
      inst.constraints arp.constraints := by
  have hT : nextPow2 inst.numRows = 2 ^ k := by
    rw [hrows]; unfold nextPow2; rw [Nat.clog_pow _ _ (by norm_num)]
  rw [fromInstance_ok hk hT (fun c hc u hu => (hsteps c hc u hu).2)] at harp
  cases harp
  simp only
  rw [List.forall₂_map_right_iff, List.forall₂_same]
  intro c hc d _
  have key : ∀ row, eval (genOf F k ^ row) (constraintPoly P (maskC (genOf F k) c))
      = constraintValue (rowEnv (fun r i => cellR witness r (i % 2 ^ k)) row) c := by
    intro row
    rw [eval_constraintPoly, constraintValue_maskC (pointEnv P (genOf F k ^ row)) (fun r s => match r, s with
            | .register r, .steps j => (P r).eval (genOf F k ^ j * genOf F k ^ row)
            | _, _ => 0) (genOf F k) (by intro r j; cases r <;> rfl) (fun u hu => (hsteps c hc u hu).2)]
    apply constraintValue_congr
    intro u hu
    obtain ⟨⟨r, hr, er⟩, ⟨m, em⟩⟩ := hsteps c hc u hu
    rw [er, em]
    simp only [rowEnv, cellR]
    rw [← hv r hr _ (Nat.mod_lt _ (by positivity)), ← pow_add, Nat.add_comm m row]
    congr 1
    exact pow_eq_pow_mod _ (genOf_pow_card hk)
  have := zerofier_dvd_iff (genOf_prim hk) (rows := enforcedRows d (2 ^ k)) (fun i hi => by
    have := (Finset.mem_Ico.1 hi).2; omega) (constraintPoly P (maskC (genOf F k) c))
  rw [show (∃ Q, constraintPoly P (maskC (genOf F k) c) = zerofier (genOf F k) (enforcedRows d (2 ^ k)) * Q) ↔
    zerofier (genOf F k) (enforcedRows d (2 ^ k)) ∣ constraintPoly P (maskC (genOf F k) c) from Iff.rfl, this]
  constructor
  · intro h row h1 h2
    rw [← key]
    exact h row (Finset.mem_Ico.2 ⟨h1, by omega⟩)
  · intro h row hrow
    have := Finset.mem_Ico.1 hrow
    rw [key]
    exact h row this.1 (by omega)

/-- **C42** (boundary): `(P - v) / (x - ω^row)` is a polynomial exactly when the register has value `v` at
the row. -/
theorem C42_boundary_iff (P : F[X]) (k row : ℕ) (v : F) :
    (∃ Q, P - C v = (X - C (genOf F k ^ row)) * Q) ↔ P.eval (genOf F k ^ row) = v := by
  rw [show (∃ Q, P - C v = (X - C (genOf F k ^ row)) * Q) ↔ X - C (genOf F k ^ row) ∣ P - C v from Iff.rfl,
    dvd_iff_isRoot]
  simp [sub_eq_zero]

/-! ## C41 -/

/-- Reading the witness polynomials at `x`: a mask `m` reads the polynomial of the register at `m * x`. -/
def polyEnv (w : Worker) (ps : List (Poly F .coefficients)) (x : F) : Env F
  | .register r, .mask m => match ps[r]? with
    | some p => p.evaluateAt w (m * x)
    | none => 0
  | _, _ => 0

theorem polyEnv_eq (w : Worker) {n k : ℕ} {P : ℕ → F[X]} (hP : ∀ r, (P r).degree < (2 ^ k : ℕ))
    (h0 : ∀ r, n ≤ r → P r = 0) (x : F) :
    polyEnv w (tab n (fun r => mkPoly .coefficients k (P r).coeff)) x = pointEnv P x := by
  funext r s
  cases r <;> cases s <;> try rfl
  rename_i r m
  simp only [polyEnv, pointEnv, getElem?_tab]
  by_cases h : r < n
  · rw [if_pos h]
    exact evaluateAt_poly w k (hP r) _
  · rw [if_neg h, h0 r (by omega)]
    simp

/-- The polynomials of a witness. -/
theorem witnessPolys_ok (w : Worker) {inst : InstanceProperties F} {witness : List (List F)} {n k : ℕ}
    (hn : 0 < n) (h : IsTable witness n (2 ^ k)) (hk : k ≤ StarkField.S F) (h32 : k < 32)
    (h1 : inst.numRegisters = n) (h2 : inst.numRows = 2 ^ k) :
    ∃ P : ℕ → F[X], calculateWitnessPolys inst witness w
        = .ok (tab n (fun r => mkPoly .coefficients k (P r).coeff)) ∧
      (∀ r, (P r).degree < (2 ^ k : ℕ)) ∧ (∀ r, n ≤ r → P r = 0) ∧
      ∀ r, r < n → ∀ i, i < 2 ^ k → (P r).eval (genOf F k ^ i) = cell witness r i := by
  obtain ⟨P, e, hP, hv⟩ := C34_interpolates w inst witness n k hn h hk h32 h1 h2
  refine ⟨fun r => if r < n then P r else 0, ?_, ?_, ?_, ?_⟩
  · rw [e]
    congr 1
    apply tab_congr
    intro r hr
    simp only [if_pos hr]
  · intro r
    by_cases hr : r < n
    · simp only [if_pos hr]; exact hP r hr
    · simp only [if_neg hr, degree_zero]; exact WithBot.bot_lt_coe _
  · intro r hr
    simp only [if_neg (not_lt.2 hr)]
  · intro r hr i hi
    simp only [if_pos hr]; exact hv r hr i hi

variable (H : List UInt8 → Digest)

theorem drawPairs_ok (hch : ChallengeOk F) {α : Type} (l : List α) (acc : List (F × F)) (t : Transcript) :
    forEach l (acc, t) (fun _ s => drawPair H s) = .ok (acc ++ pairsAt F H l.length t, afterN H l.length t) := by
  induction l generalizing acc t with
  | nil => simp [forEach, pairsAt, afterN]
  | cons a l ih =>
    have e : drawPair H (acc, t) = .ok (acc ++ [(chal F H t, chal F H (nextT H t))], nextT H (nextT H t)) := by
      simp only [drawPair, getChallenge_ok H hch, Res.ok_bind, Res.pure_def]
    simp only [forEach, e, Res.ok_bind]
    rw [ih]
    simp [pairsAt, afterN]

/-- **C41** (partial: a single density, a power of two of rows and as maximal degree, no defective LDE). For every
suitable instance, every witness that satisfies it, every starting transcript and CPU count: the prover's
`calculate_g` returns a polynomial `G` which at every `z` outside the trace domain has the value of the composition
of the constraints with the challenges drawn from the transcript; the verifier, given the same challenges and
the values of the witness polynomials at `z` times the masks, computes that value `G(z)`. -/
theorem C41_composition_partial (w : Worker) (inst : InstanceProperties F) (n k f : ℕ) (h : Suitable inst n k f)
    (witness : List (List F)) (hw : IsTable witness n (2 ^ k)) (hsat : Satisfies inst (cellR witness) (2 ^ k))
    (hK : k + f ≤ StarkField.S F) (hK32 : k + f < 32) (hok : w.cpus = 1 ∨ 2 ^ f < 2 * w.cpus) (hch : ChallengeOk F)
    (hs : (StarkField.mulGen : F) ^ 2 ^ (k + f) ≠ 1) (t : Transcript) (ldeFactor : ℕ) :
    ∃ arp ali ps v G t' cc bc t1 dom, fromInstance inst = .ok arp ∧ AliInstance.fromArp arp w = .ok ali ∧
      calculateWitnessPolys arp witness w = .ok ps ∧ Verifier.new inst ldeFactor = .ok v ∧
      ali.calculateG H t ps w = .ok (G, t') ∧
      forEach inst.constraints ([], t) (fun _ s => drawPair H s) = .ok (cc, t1) ∧
      forEach inst.boundaryConstraints ([], t1) (fun _ s => drawPair H s) = .ok (bc, t') ∧
      Domain.newForSize F (2 ^ k) = .ok dom ∧
      G.size = 2 ^ (k + f) ∧
      ∀ z, z ^ 2 ^ k ≠ 1 →
        G.evaluateAt w z = compositionAt dom.generator (2 ^ k) (2 ^ f) (polyEnv w ps z) (arp.constraints.zip cc)
          (arp.boundaryConstraints.zip bc) z ∧
        v.calculateGAtZ cc bc (v.allMasks.map (fun m => polyEnv w ps z m.register m.stepsDifference)) z
          = .ok (G.evaluateAt w z) := by
  obtain ⟨ali, e1, hali⟩ := h.fromArp w hK hs
  obtain ⟨P, e2, hP, h0, hv⟩ := witnessPolys_ok w (inst := arpOf inst k) h.pos hw (by omega) (by omega) h.registers h.rows
  obtain ⟨v, e3, hver⟩ := h.newVerifier hK ldeFactor
  obtain ⟨G, hG, e4, hGv⟩ := calculateG_suitable H h w hK hK32 hok hch hs hP hv hsat hali t
  refine ⟨arpOf inst k, ali, _, v, _, _, _, _, _, _, h.fromInstance (by omega), e1, e2, e3, e4,
    drawPairs_ok H hch _ _ _, drawPairs_ok H hch _ _ _, newForSize_pow (by omega), by simp, ?_⟩
  intro z hz
  simp only [List.nil_append]
  rw [polyEnv_eq w hP h0, evaluateAt_poly w (k + f) hG, hGv z hz, ← h.rows]
  refine ⟨rfl, ?_⟩
  rw [hver.masks]
  exact calculateGAtZ_ok h hK hver P hz _ _ (length_pairsAt H _ _) (length_pairsAt H _ _)

/-- **C41** (what `calculate_g` computes in general). For any number of densities the values of `G` on the coset are
obtained batch by batch, where every batch starts from the values accumulated so far: both as the initial
value of the batch and of each constraint in it. With one density the accumulated values are zero and
this is the composition; with more it is not. -/
theorem C41_accumulated_values (w : Worker) (arp : InstanceProperties F) (ali : AliInstance F) (n k f : ℕ)
    (hreg : arp.numRegisters = n) (hrows : arp.numRows = 2 ^ k) (hk1 : 1 ≤ k)
    (hD : maxDegree arp.constraints = 2 ^ f)
    (hK : k + f ≤ StarkField.S F) (hK32 : k + f < 32) (hok : w.cpus = 1 ∨ 2 ^ f < 2 * w.cpus) (hch : ChallengeOk F)
    (hs : (StarkField.mulGen : F) ^ 2 ^ (k + f) ≠ 1)
    (hd : ∀ c ∈ arp.constraints, ∃ d, c.density = .dense d ∧ d.startAt + d.span ≤ 2 ^ k)
    (hcs : ∀ c ∈ arp.constraints, ∀ t ∈ c.terms, termFactors t ≠ [] ∧
      ∀ u ∈ termFactors t, ∃ r m, r < n ∧ u.register = .register r ∧ u.stepsDifference = .mask m)
    (hbs : ∀ b ∈ arp.boundaryConstraints, (∃ r, r < n ∧ b.register = .register r) ∧ ∃ v, b.value = some v)
    (hali : AliInstance.fromArp arp w = .ok ali) (P : ℕ → F[X]) (hP : ∀ r, r < n → (P r).degree < (2 ^ k : ℕ))
    (t : Transcript) :
    ∃ G t', ali.calculateG H t (tab n (fun r => mkPoly .coefficients k (P r).coeff)) w = .ok (G, t') ∧
      ∀ i, i < 2 ^ (k + f) → G.evaluateAt w (cosetPt F (k + f) i) =
      gFold H P (2 ^ f) (cosetPt F (k + f) i) (dinvAt (genOf F k) arp.numRows (cosetPt F (k + f) i))
        (batchesOf arp.constraints) t 0 +
      boundarySum P (2 ^ f) (genOf F k) (cosetPt F (k + f) i) (arp.boundaryConstraints.zip
        (pairsAt F H arp.boundaryConstraints.length (afterBatches H (batchesOf arp.constraints) t))) := by
  obtain ⟨ali', e, hok'⟩ := fromArp_ok (k := k) (K := k + f) w (by rw [hrows, Nat.clog_pow _ _ (by norm_num)])
    (by rw [hD, ← pow_add, Nat.clog_pow _ _ (by norm_num)]) (by omega) hK (by omega) hs (fun c hc => by
      obtain ⟨d, h1, h2⟩ := hd c hc
      exact ⟨d, h1, by rw [hrows]; exact h2, by rw [hrows]⟩)
  rw [hali] at e
  cases e
  obtain ⟨G, hG, hGv⟩ := exists_poly_values (F := F) hK (StarkField.mulGen_ne_zero (F := F)) (fun i =>
    gFold H P (2 ^ f) (cosetPt F (k + f) i) (dinvAt (genOf F k) arp.numRows (cosetPt F (k + f) i))
        (batchesOf arp.constraints) t 0 +
      boundarySum P (2 ^ f) (genOf F k) (cosetPt F (k + f) i) (arp.boundaryConstraints.zip
        (pairsAt F H arp.boundaryConstraints.length (afterBatches H (batchesOf arp.constraints) t))))
  refine ⟨_, _, calculateG_ok H w hK (by omega) hok hP hch hok' hD hK32 hreg (fun c hc => ⟨fun t ht =>
    ⟨(hcs c hc t ht).2, (hcs c hc t ht).1⟩, by obtain ⟨d, h1, -⟩ := hd c hc; exact ⟨d, h1⟩⟩) hbs t hG hGv, ?_⟩
  intro i hi
  rw [evaluateAt_poly w (k + f) hG]
  exact hGv i hi

omit [DecidableEq F] in
/-- **C41** (two densities): with the correct values `g₁` of the first batch, the second batch contributes its
correct value plus the error `g₁ * (1 + ∑ weights) / Z₂`. -/
theorem C41_two_densities_error (P : ℕ → F[X]) (D : ℕ) (x : F) (dinv : ConstraintDensity → F)
    (d₁ d₂ : ConstraintDensity) (cs₁ cs₂ : List (Constraint F)) (t : Transcript) :
    let w₁ := cs₁.zip (pairsAt F H cs₁.length t)
    let w₂ := cs₂.zip (pairsAt F H cs₂.length (afterN H cs₁.length t))
    let g₁ := (w₁.map (fun c => constraintValue (pointEnv P x) c.1 * weightAt (D - c.1.degree) c.2 x)).sum * dinv d₁
    let g₂ := (w₂.map (fun c => constraintValue (pointEnv P x) c.1 * weightAt (D - c.1.degree) c.2 x)).sum * dinv d₂
    gFold H P D x dinv [(d₁, cs₁), (d₂, cs₂)] t 0 = g₁ + g₂ +
      g₁ * (1 + (w₂.map (fun c => weightAt (D - c.1.degree) c.2 x)).sum) * dinv d₂ := by
  intro w₁ w₂ g₁ g₂
  have e1 : batchSum P D 0 x w₁ = (w₁.map (fun c => constraintValue (pointEnv P x) c.1 * weightAt (D - c.1.degree) c.2 x)).sum := by
    simp only [batchSum, zero_add]
  have e2 : ∀ g, batchSum P D g x w₂ = g * (w₂.map (fun c => weightAt (D - c.1.degree) c.2 x)).sum +
      (w₂.map (fun c => constraintValue (pointEnv P x) c.1 * weightAt (D - c.1.degree) c.2 x)).sum := by
    intro g
    unfold batchSum
    rw [← List.sum_map_mul_left, ← List.sum_map_add]
    congr 1
    apply List.map_congr_left
    intro c _
    ring
  simp only [gFold]
  rw [e1, e2]
  simp only [zero_add, g₁, g₂]
  ring

end

/-! ## Examples and the failure with two densities -/

/-- The Fibonacci instance: two registers and `2^k` rows. -/
def fibInst (F : Type) [Field F] (k : ℕ) (a b : F) : InstanceProperties F :=
  { numRows := 2 ^ k, numRegisters := 2,
    constraints := [fibConstraint0 (.register 0) (.register 1), fibConstraint1 (.register 0) (.register 1)],
    boundaryConstraints := [⟨.register 0, 0, some a⟩, ⟨.register 1, 0, some b⟩] }

/-- It is suitable for every field and number of rows. -/
theorem fibInst_suitable {F : Type} [Field F] (k : ℕ) (hk : 1 ≤ k) (a b : F) : Suitable (fibInst F k a b) 2 k 0 where
  rows := rfl
  registers := rfl
  pos := by norm_num
  two_rows := hk
  terms := by
    intro c hc t ht
    simp only [fibInst, List.mem_cons, List.not_mem_nil, or_false] at hc
    rcases hc with rfl | rfl
    · simp only [fibConstraint0, Constraint.addUnivariate, Constraint.subUnivariate, Constraint.push, Constraint.default,
        List.nil_append, List.cons_append, List.mem_cons, List.not_mem_nil, or_false] at ht
      rcases ht with rfl | rfl <;>
      · refine ⟨by simp [termFactors], by simp [termDegree, termFactors, fibConstraint0, Constraint.addUnivariate, Constraint.subUnivariate, Constraint.push, Constraint.default], ?_⟩
        intro u hu
        simp only [termFactors, List.mem_singleton] at hu
        subst hu
        exact ⟨⟨_, by norm_num, rfl⟩, _, rfl⟩
    · simp only [fibConstraint1, Constraint.addUnivariate, Constraint.subUnivariate, Constraint.push, Constraint.default,
        List.nil_append, List.cons_append, List.mem_cons, List.not_mem_nil, or_false] at ht
      rcases ht with rfl | rfl | rfl <;>
      · refine ⟨by simp [termFactors], by simp [termDegree, termFactors, fibConstraint1, Constraint.addUnivariate, Constraint.subUnivariate, Constraint.push, Constraint.default], ?_⟩
        intro u hu
        simp only [termFactors, List.mem_singleton] at hu
        subst hu
        exact ⟨⟨_, by norm_num, rfl⟩, _, rfl⟩
  density := by
    refine ⟨DenseConstraint.default, ?_, ?_⟩
    · show 0 + 1 ≤ 2 ^ k
      exact Nat.one_le_two_pow
    · intro c hc
      simp only [fibInst, List.mem_cons, List.not_mem_nil, or_false] at hc
      rcases hc with rfl | rfl <;> rfl
  degrees := by
    constructor
    · intro c hc
      simp only [fibInst, List.mem_cons, List.not_mem_nil, or_false] at hc
      rcases hc with rfl | rfl <;> exact le_refl 1
    · exact ⟨_, List.mem_cons_self, rfl⟩
  boundary := by
    intro b' hb
    simp only [fibInst, List.mem_cons, List.not_mem_nil, or_false] at hb
    rcases hb with rfl | rfl
    · exact ⟨⟨0, by norm_num, rfl⟩, Nat.two_pow_pos k, _, rfl⟩
    · exact ⟨⟨1, by norm_num, rfl⟩, Nat.two_pow_pos k, _, rfl⟩

theorem Spec.Suitable.wellFormed {F : Type} [Field F] {inst : InstanceProperties F} {n k f : ℕ}
    (h : Suitable inst n k f) : WellFormed inst n (2 ^ k) where
  dense := by
    intro c hc
    obtain ⟨d, h1, h2⟩ := h.density
    exact ⟨d, h2 c hc, by omega⟩
  factors := by
    intro c hc u hu
    obtain ⟨t, ht, hu'⟩ := List.mem_flatMap.1 hu
    exact (h.terms c hc t ht).2.2 u hu'
  boundary := by
    intro b hb
    obtain ⟨h1, h2, -⟩ := h.boundary b hb
    exact ⟨h1, h2⟩

example : Suitable (fibInst Fr 2 1 1) 2 2 0 ∧ IsTable [[(1 : Fr), 1, 2, 3], [1, 2, 3, 5]] 2 (2 ^ 2) ∧
    Satisfies (fibInst Fr 2 1 1) (cellR [[1, 1, 2, 3], [1, 2, 3, 5]]) (2 ^ 2) ∧ 2 + 0 ≤ StarkField.S Fr ∧
    (StarkField.mulGen : Fr) ^ 2 ^ (2 + 0) ≠ 1 ∧ ChallengeOk Fr := by
  have h := fibInst_suitable (F := Fr) 2 (by norm_num) 1 1
  have ht : IsTable [[(1 : Fr), 1, 2, 3], [1, 2, 3, 5]] 2 (2 ^ 2) := ⟨rfl, by decide⟩
  refine ⟨h, ht, ?_, by decide, by decide +kernel, by unfold ChallengeOk; decide +kernel⟩
  exact ((C33_is_satisfied_iff _ _ 2 (2 ^ 2) (by norm_num) ht h.wellFormed).1).1 (by decide +kernel)

/-- Compare the prover's polynomial at `z` with the verifier's value. -/
def proverVerifierAgree (inst : InstanceProperties Fr) (witness : List (List Fr)) (w : Worker) (z : Fr) : Res Bool := do
  let t ← Transcript.new Fr
  let t := t.commitBytes [1, 2, 3, 4, 5, 6]
  let arp ← fromInstance inst
  let ali ← AliInstance.fromArp arp w
  let ps ← calculateWitnessPolys arp witness w
  let v ← Verifier.new inst 2
  let (G, _) ← ali.calculateG toyHash t ps w
  let (cc, t1) ← forEach v.constraintsBatchedByDensity ([], t) (fun b s => forEach b.2 s (fun _ s => drawPair toyHash s))
  let (bc, _) ← forEach inst.boundaryConstraints ([], t1) (fun _ s => drawPair toyHash s)
  let g ← v.calculateGAtZ cc bc (v.allMasks.map (fun m => polyEnv w ps z m.register m.stepsDifference)) z
  pure (decide (g = G.evaluateAt w z))

/-- `r(next) = 2 r` at all rows but the last. -/
def doubling : Constraint Fr :=
  ((Constraint.default : Constraint Fr).subUnivariate { coeff := (2 : Fr), register := .register 0, stepsDifference := .steps 0, power := 1 }).addUnivariate
    { coeff := (1 : Fr), register := .register 0, stepsDifference := .steps 1, power := 1 }

/-- `r(next of next) = 4 r` at all rows but the last two. -/
def quadrupling : Constraint Fr :=
  { ((Constraint.default : Constraint Fr).subUnivariate { coeff := (4 : Fr), register := .register 0, stepsDifference := .steps 0, power := 1 }).addUnivariate
    { coeff := (1 : Fr), register := .register 0, stepsDifference := .steps 2, power := 1 } with density := .dense ⟨0, 2⟩ }

def mixedInst (cs : List (Constraint Fr)) : InstanceProperties Fr :=
  { numRows := 4, numRegisters := 1, constraints := cs, boundaryConstraints := [⟨.register 0, 0, some 1⟩] }

/-- **C41** fails with two densities: the trace satisfies the instance, but the verifier's value at `z = 5` is not the value of
the polynomial the prover computed. Each of the two constraints alone is fine. -/
theorem C41_two_densities_wrong :
    isSatisfied (mixedInst [doubling, quadrupling]) [[1, 2, 4, 8]] = .ok () ∧
      proverVerifierAgree (mixedInst [doubling, quadrupling]) [[1, 2, 4, 8]] ⟨1, by norm_num⟩ 5 = .ok false ∧
      proverVerifierAgree (mixedInst [doubling]) [[1, 2, 4, 8]] ⟨1, by norm_num⟩ 5 = .ok true ∧
      proverVerifierAgree (mixedInst [quadrupling]) [[1, 2, 4, 8]] ⟨1, by norm_num⟩ 5 = .ok true := by
  decide +kernel

/-- The hypotheses of `C40_prover_divisors` hold for an instance whose number of rows is not a power of two. -/
example : Nat.clog 2 3 = 2 ∧ Nat.clog 2 (2 ^ 2 * maxDegree [doubling]) = 2 ∧
    (StarkField.mulGen : Fr) ^ 2 ^ 2 ≠ 1 ∧ ∀ c ∈ [doubling], ∃ d, c.density = .dense d ∧ d.startAt + d.span ≤ 3 := by
  refine ⟨by decide +kernel, by decide +kernel, by decide +kernel, ?_⟩
  intro c hc
  rw [List.mem_singleton] at hc
  subst hc
  exact ⟨DenseConstraint.default, rfl, by decide⟩

/-- `C40_verifier_divisor`: four rows of which the first three are enforced. -/
example : ∃ dom, Domain.newForSize Fr (2 ^ 2) = .ok dom ∧
    inverseDivisorAt 5 dom DenseConstraint.default 4 = .ok (1 / zerofierAt dom.generator (enforcedRows DenseConstraint.default 4) 5) ∧
    (5 : Fr) ^ 2 ^ 2 ≠ 1 := by
  refine ⟨_, newForSize_pow (by decide), ?_, by decide +kernel⟩
  rw [C40_verifier_divisor 4 2 (by decide) (by norm_num) _ (by decide) _ (newForSize_pow (by decide)), if_neg (by decide +kernel)]

end Hodor

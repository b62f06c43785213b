import Verif.Model.SingleWitness
import Verif.Props.Arp

/-!
# C66: the single witness polynomial
-/

namespace Hodor

open Spec Polynomial

section
variable {F : Type} [Field F]

/-- Cell of the padded table at index `t`: `rs` registers per row. -/
def swVal (witness : List (List F)) (n T rs t : ℕ) : F := if t % rs < n ∧ t / rs < T then cell witness (t % rs) (t / rs) else 0

/-- Chunk `i` after registers below `reg` and the first `j` rows of register `reg`. -/
def swState (witness : List (List F)) (rs start range reg j t : ℕ) : F :=
  if (t % rs < reg ∧ t / rs < range) ∨ (t % rs = reg ∧ t / rs < j) then cell witness (t % rs) (t / rs + start) else 0

theorem swCell_ok {witness : List (List F)} {n T rs start range len reg j : ℕ} (h : IsTable witness n T) (hreg : reg < n) (hrs : n ≤ rs)
    (hj : j < range) (hr : range + start ≤ T) (hlen : range * rs ≤ len) :
    swCell rs start reg (tab T (fun i => cell witness reg i)) j (tab len (swState witness rs start range reg j))
      = .ok (tab len (swState witness rs start range reg (j + 1))) := by
  have hpos : 0 < rs := by omega
  have hidx : j * rs + reg < len := by
    have : (j + 1) * rs ≤ range * rs := Nat.mul_le_mul_right _ hj
    rw [Nat.add_mul, Nat.one_mul] at this
    omega
  unfold swCell
  rw [rd_tab (by omega), Res.ok_bind, wr_tab hidx]
  congr 1
  apply tab_congr
  intro t _
  have hdm := Nat.div_add_mod t rs
  have hmod := Nat.mod_lt t hpos
  have e1 : (j * rs + reg) % rs = reg := by rw [Nat.add_comm, Nat.add_mul_mod_self_right, Nat.mod_eq_of_lt (by omega)]
  have e2 : (j * rs + reg) / rs = j := by
    rw [Nat.add_comm, Nat.add_mul_div_right _ _ hpos, Nat.div_eq_of_lt (by omega), Nat.zero_add]
  unfold swState
  by_cases ht : t = j * rs + reg
  · subst ht
    rw [if_pos rfl, e1, e2, if_pos (Or.inr ⟨rfl, by omega⟩)]
  · rw [if_neg ht]
    have : ¬ (t % rs = reg ∧ t / rs = j) := by
      rintro ⟨h1, h2⟩
      apply ht
      rw [← hdm, h1, h2, Nat.mul_comm]
    have hiff : ((t % rs < reg ∧ t / rs < range) ∨ (t % rs = reg ∧ t / rs < j)) ↔
        ((t % rs < reg ∧ t / rs < range) ∨ (t % rs = reg ∧ t / rs < j + 1)) := by
      constructor
      · rintro (h | h)
        · exact Or.inl h
        · exact Or.inr ⟨h.1, by omega⟩
      · rintro (h | h)
        · exact Or.inl h
        · refine Or.inr ⟨h.1, ?_⟩
          have : t / rs ≠ j := fun e => this ⟨h.1, e⟩
          omega
    simp only [hiff]

theorem swChunk_ok {witness : List (List F)} {n T rs chunk i len : ℕ} (h : IsTable witness n T) (hrs : n ≤ rs) (hs : chunk * i ≤ T)
    (hlen : min chunk (T - chunk * i) * rs ≤ len) (hle : len ≤ chunk * rs) :
    swChunk witness T rs chunk i (tab len (fun _ => 0)) = .ok (tab len (fun t => swVal witness n T rs (i * (chunk * rs) + t))) := by
  have hend : (if T < chunk * (i + 1) then T else chunk * (i + 1)) - chunk * i = min chunk (T - chunk * i) := by
    rw [Nat.mul_add, Nat.mul_one]
    split <;> omega
  have hle' : chunk * i ≤ (if T < chunk * (i + 1) then T else chunk * (i + 1)) := by
    rw [Nat.mul_add, Nat.mul_one]
    split <;> omega
  unfold swChunk
  simp only [hle', decide_true, Res.assert_true, Res.ok_bind, hend]
  set range := min chunk (T - chunk * i) with hrange
  have loop := forN_eq (fun reg => tab len (swState witness rs (chunk * i) range reg 0))
    (fun reg f => do
      let row ← rd witness reg
      forN range 0 f (swCell rs (chunk * i) reg row)) witness.length 0 (by
      intro reg _ hreg
      rw [Nat.zero_add, h.1] at hreg
      have hrow : rd witness reg = .ok (tab T (fun i => cell witness reg i)) := by
        conv_lhs => rw [h.eq_tab]
        rw [rd_tab hreg]
      rw [hrow, Res.ok_bind]
      have inner := forN_eq (fun j => tab len (swState witness rs (chunk * i) range reg j))
        (swCell rs (chunk * i) reg (tab T (fun i => cell witness reg i))) range 0 (by
          intro j _ hj
          exact swCell_ok h hreg hrs (by omega) (by omega) hlen)
      rw [inner, Nat.zero_add]
      congr 1
      apply tab_congr
      intro t _
      unfold swState
      have hiff : ((t % rs < reg ∧ t / rs < range) ∨ (t % rs = reg ∧ t / rs < range)) ↔
          ((t % rs < reg + 1 ∧ t / rs < range) ∨ (t % rs = reg + 1 ∧ t / rs < 0)) := by
        generalize t / rs = q
        omega
      simp only [hiff])
  have h0 : tab len (fun _ => (0 : F)) = tab len (swState witness rs (chunk * i) range 0 0) := by
    apply tab_congr
    intro t _
    unfold swState
    rw [if_neg (by rintro (h | h) <;> exact absurd h.2 (by first | exact Nat.not_lt_zero _ | exact fun _ => Nat.not_lt_zero _ h.1))]
  rw [h0, loop, Nat.zero_add, h.1]
  congr 1
  apply tab_congr
  intro t ht
  rcases Nat.eq_zero_or_pos rs with hz | hpos
  · subst hz
    rw [Nat.mul_zero] at hle
    omega
  have e1 : (i * (chunk * rs) + t) % rs = t % rs := by
    rw [← Nat.mul_assoc, Nat.add_comm, Nat.add_mul_mod_self_right]
  have e2 : (i * (chunk * rs) + t) / rs = t / rs + chunk * i := by
    rw [← Nat.mul_assoc, Nat.add_comm, Nat.add_mul_div_right _ _ hpos, Nat.mul_comm i]
  have ht2 : t / rs < chunk := (Nat.div_lt_iff_lt_mul hpos).2 (by omega)
  unfold swState swVal
  rw [e1, e2]
  have hiff : ((t % rs < n ∧ t / rs < range) ∨ (t % rs = n ∧ t / rs < 0)) ↔ (t % rs < n ∧ t / rs + chunk * i < T) := by
    clear e2
    generalize t / rs = q at *
    generalize chunk * i = z at *
    omega
  simp only [hiff]

theorem swChunk_panic {witness : List (List F)} {T rs chunk i : ℕ} (hs : T < chunk * i) (f : List F) :
    swChunk witness T rs chunk i f = .panic := by
  unfold swChunk
  have : ¬ (chunk * i ≤ if T < chunk * (i + 1) then T else chunk * (i + 1)) := by
    rw [if_pos (by rw [Nat.mul_add]; omega)]
    omega
  simp only [this, decide_false]
  rfl

theorem mapRes_panics {α β : Type} {f : α → Res β} {l : List α} (h : ∀ x ∈ l, (∃ y, f x = .ok y) ∨ f x = .panic)
    (hp : ∃ x ∈ l, f x = .panic) : mapRes f l = .panic := by
  induction l with
  | nil => obtain ⟨x, hx, -⟩ := hp; simp at hx
  | cons x l ih =>
    simp only [mapRes]
    rcases h x (List.mem_cons_self ..) with ⟨y, hy⟩ | hy
    · rw [hy, Res.ok_bind, ih (fun z hz => h z (List.mem_cons_of_mem _ hz))]
      · rfl
      · obtain ⟨z, hz, hzp⟩ := hp
        rcases List.mem_cons.1 hz with rfl | hz
        · rw [hzp] at hy; cases hy
        · exact ⟨z, hz, hzp⟩
    · rw [hy]; rfl

end

section
variable {F : Type} [Field F] [DecidableEq F] [StarkField F]

/-- Some chunk of `c` rows starts after row `T` and before row `Tsup`. -/
def Spec.GapAfter (c T Tsup : ℕ) : Prop := ∃ i, T < c * i ∧ c * i < Tsup

theorem chunk_geom {c rs m i : ℕ} (hc : 0 < c) (hrs : 0 < rs) (hi : i < numChunks (rs * m) (c * rs)) : c * i < m := by
  have := numChunks_lt (by positivity) hi
  have e : i * (c * rs) = rs * (c * i) := by ring
  rw [e] at this
  exact Nat.lt_of_mul_lt_mul_left this

/-- The outcome of the padded copy. -/
theorem swParts {witness : List (List F)} {n T : ℕ} (hn : 0 < n) (h : IsTable witness n T) (w : Worker) :
    (Spec.GapAfter (w.chunkSize T) T (nextPow2 T) →
      mapRes (fun p => swChunk witness T (nextPow2 n) (w.chunkSize T) p.1 p.2)
        ((chunks (w.chunkSize T * nextPow2 n) (List.replicate (nextPow2 n * nextPow2 T) (0 : F))).mapIdx (fun i v => (i, v))) = .panic) ∧
    (¬ Spec.GapAfter (w.chunkSize T) T (nextPow2 T) →
      mapRes (fun p => swChunk witness T (nextPow2 n) (w.chunkSize T) p.1 p.2)
        ((chunks (w.chunkSize T * nextPow2 n) (List.replicate (nextPow2 n * nextPow2 T) (0 : F))).mapIdx (fun i v => (i, v))) =
        .ok (tab (numChunks (nextPow2 n * nextPow2 T) (w.chunkSize T * nextPow2 n)) (fun i =>
          tab (min (w.chunkSize T * nextPow2 n) (nextPow2 n * nextPow2 T - i * (w.chunkSize T * nextPow2 n)))
            (fun t => swVal witness n T (nextPow2 n) (i * (w.chunkSize T * nextPow2 n) + t))))) := by
  have hc := w.chunkSize_pos T
  set c := w.chunkSize T
  have hrs : 0 < nextPow2 n := by unfold nextPow2; positivity
  have hnrs : n ≤ nextPow2 n := Nat.le_pow_clog (by norm_num) n
  have hTs : T ≤ nextPow2 T := Nat.le_pow_clog (by norm_num) T
  set rs := nextPow2 n
  set Ts := nextPow2 T
  have hrep : List.replicate (rs * Ts) (0 : F) = tab (rs * Ts) (fun _ => 0) := by
    apply eq_tab_of_getElem? (by simp)
    intro i hi
    rw [List.getElem?_replicate, if_pos hi]
  rw [hrep, chunks_tab, mapIdx_tab]
  have hone : ∀ i, i < numChunks (rs * Ts) (c * rs) → c * i ≤ T →
      swChunk witness T rs c i (tab (min (c * rs) (rs * Ts - i * (c * rs))) (fun _ => 0))
        = .ok (tab (min (c * rs) (rs * Ts - i * (c * rs))) (fun t => swVal witness n T rs (i * (c * rs) + t))) := by
    intro i hi hle
    apply swChunk_ok h hnrs hle _ (min_le_left _ _)
    apply le_min
    · exact Nat.mul_le_mul_right _ (min_le_left _ _)
    · have e : rs * Ts - i * (c * rs) = (Ts - c * i) * rs := by
        rw [Nat.sub_mul]
        congr 1 <;> ring
      rw [e]
      apply Nat.mul_le_mul_right
      exact le_trans (min_le_right _ _) (by omega)
  refine ⟨fun hgap => ?_, fun hgap => ?_⟩
  · obtain ⟨i, h1, h2⟩ := hgap
    apply mapRes_panics
    · intro x hx
      rw [tab, List.mem_map] at hx
      obtain ⟨i, hi, rfl⟩ := hx
      rw [List.mem_range] at hi
      rcases Nat.lt_or_ge T (c * i) with hlt | hge
      · exact Or.inr (swChunk_panic hlt _)
      · exact Or.inl ⟨_, hone i hi hge⟩
    · have hi : i < numChunks (rs * Ts) (c * rs) := by
        have : i * (c * rs) < rs * Ts := by
          have e : i * (c * rs) = rs * (c * i) := by ring
          rw [e]
          exact Nat.mul_lt_mul_of_pos_left h2 hrs
        have := lt_numChunks (c := c * rs) (by positivity) this
        rwa [Nat.mul_div_cancel _ (by positivity)] at this
      refine ⟨(i, tab (min (c * rs) (rs * Ts - i * (c * rs))) (fun _ => 0)), ?_, swChunk_panic h1 _⟩
      rw [tab, List.mem_map]
      exact ⟨i, List.mem_range.2 hi, rfl⟩
  · apply mapRes_tab
    intro i hi
    apply hone i hi
    by_contra hlt
    exact hgap ⟨i, by omega, chunk_geom hc hrs hi⟩

/-- **C66 (outcome).** For every table of `n ≥ 1` registers and `T` rows and every worker: the conversion panics exactly when some chunk of rows starts beyond the last row, returns an error exactly when
it does not and the padded table is larger than the largest domain, and otherwise succeeds. -/
theorem C66_outcome (w : Worker) (witness : List (List F)) (n T k r : ℕ) (hn : 0 < n) (h : IsTable witness n T)
    (hT : nextPow2 T = 2 ^ k) (hr : nextPow2 n = 2 ^ r) (h32 : k + r < 32) :
    (Spec.GapAfter (w.chunkSize T) T (2 ^ k) → makeSingleWitnessPolynomial witness w = .panic) ∧
    (¬ Spec.GapAfter (w.chunkSize T) T (2 ^ k) → StarkField.S F < k + r → makeSingleWitnessPolynomial witness w = .err .error) ∧
    (¬ Spec.GapAfter (w.chunkSize T) T (2 ^ k) → k + r ≤ StarkField.S F →
      ∃ p : F[X], p.degree < (2 ^ (k + r) : ℕ) ∧
        makeSingleWitnessPolynomial witness w = .ok (mkPoly .coefficients (k + r) p.coeff) ∧
        ∀ row reg, row < 2 ^ k → reg < 2 ^ r →
          p.eval (genOf F (k + r) ^ (row * 2 ^ r + reg)) = if reg < n ∧ row < T then cell witness reg row else 0) := by
  obtain ⟨e1, e2⟩ := h.rd_row hn
  have hparts := swParts hn h w
  rw [hT, hr] at hparts
  have hpow : 2 ^ r * 2 ^ k = 2 ^ (k + r) := by rw [pow_add, Nat.mul_comm]
  have hmk : ∀ {res}, mapRes (fun p => swChunk witness T (2 ^ r) (w.chunkSize T) p.1 p.2)
      ((chunks (w.chunkSize T * 2 ^ r) (List.replicate (2 ^ r * 2 ^ k) (0 : F))).mapIdx (fun i v => (i, v))) = res →
      makeSingleWitnessPolynomial witness w = res >>= fun parts => (Poly.fromValues parts.flatten) >>= fun poly => poly.ifft w := by
    intro res hres
    unfold makeSingleWitnessPolynomial
    rw [e1, Res.ok_bind, e2]
    simp only [h.1, hT, hr]
    rw [hres]
  have hc := w.chunkSize_pos T
  refine ⟨fun hg => ?_, fun hg hS => ?_, fun hg hS => ?_⟩
  · rw [hmk (hparts.1 hg)]; rfl
  · rw [hmk (hparts.2 hg), Res.ok_bind, flatten_chunks_tab (by positivity), hpow]
    have : (Poly.fromValues (tab (2 ^ (k + r)) (swVal witness n T (2 ^ r))) : Res (Poly F .values)) = .err .error := by
      unfold Poly.fromValues
      rw [ofVec_tab, Nat.clog_pow _ _ (by norm_num), if_neg (by omega)]
    rw [this]; rfl
  · rw [hmk (hparts.2 hg), Res.ok_bind, flatten_chunks_tab (by positivity), hpow, fromValues_pow hS, Res.ok_bind]
    obtain ⟨p, hp, hv⟩ := exists_poly_values (F := F) hS one_ne_zero (swVal witness n T (2 ^ r))
    refine ⟨p, hp, ?_, ?_⟩
    · rw [← ifft_poly (F := F) w hS h32 hp]
      congr 1
      apply mkPoly_congr
      intro i hi
      rw [← hv i hi, one_mul]
    · intro row reg hrow hreg
      have hlt : row * 2 ^ r + reg < 2 ^ (k + r) := by
        have : (row + 1) * 2 ^ r ≤ 2 ^ k * 2 ^ r := Nat.mul_le_mul_right _ hrow
        rw [← pow_add, Nat.add_mul, Nat.one_mul] at this
        omega
      have := hv _ hlt
      rw [one_mul] at this
      rw [this]
      unfold swVal
      have e1 : (row * 2 ^ r + reg) % 2 ^ r = reg := by rw [Nat.add_comm, Nat.add_mul_mod_self_right, Nat.mod_eq_of_lt hreg]
      have e2 : (row * 2 ^ r + reg) / 2 ^ r = row := by
        rw [Nat.add_comm, Nat.add_mul_div_right _ _ (by positivity), Nat.div_eq_of_lt hreg, Nat.zero_add]
      rw [e1, e2]

/-- With a power-of-two number of rows no chunk starts beyond the last row; with one CPU neither. -/
theorem C66_no_gap (w : Worker) (T k : ℕ) (hT : nextPow2 T = 2 ^ k) (h : T = 2 ^ k ∨ w.cpus = 1) :
    ¬ Spec.GapAfter (w.chunkSize T) T (2 ^ k) := by
  rintro ⟨i, h1, h2⟩
  rcases h with h | h
  · omega
  · have hle : T ≤ 2 ^ k := by rw [← hT]; exact Nat.le_pow_clog (by norm_num) T
    have hlt : 2 ^ k < 2 * T ∨ T = 0 ∨ T = 1 := by
      rcases Nat.lt_or_ge T 2 with h2 | h2
      · omega
      · left
        rw [← hT]
        unfold nextPow2
        have hc : 0 < Nat.clog 2 T := Nat.clog_pos (by norm_num) h2
        have := Nat.pow_pred_clog_lt_self (b := 2) (by norm_num) h2
        obtain ⟨m, hm⟩ : ∃ m, Nat.clog 2 T = m + 1 := ⟨Nat.clog 2 T - 1, by omega⟩
        rw [hm, Nat.pred_succ] at this
        rw [hm, pow_succ]
        omega
    unfold Worker.chunkSize at h1 h2
    rw [h] at h1 h2
    split at h1
    · rename_i h0
      have hT0 : T = 0 := by omega
      subst hT0
      have : k = 0 := by
        have := Nat.pow_right_injective (le_refl 2) hT
        simpa using this.symm
      subst this
      simp only [Nat.zero_lt_one, if_true, Nat.one_mul] at h2
      omega
    · rename_i h0
      rw [if_neg h0, Nat.div_one] at h2
      rw [Nat.div_one] at h1
      have hi : 2 ≤ i := by
        by_contra hi
        have : i = 0 ∨ i = 1 := by omega
        rcases this with rfl | rfl <;> omega
      have : T * 2 ≤ T * i := Nat.mul_le_mul_left _ hi
      rcases hlt with hlt | hlt | hlt
      · omega
      · omega
      · subst hlt
        have : k = 0 := by
          have := Nat.pow_right_injective (le_refl 2) hT
          simpa using this.symm
        subst this
        omega

/-- Reading the single polynomial `f` at a point `x`: whatever the register, a mask `m` reads `f` at `m * x`. -/
noncomputable def Spec.singleEnv (f : F[X]) (x : F) : Env F
  | _, .mask m => f.eval (m * x)
  | _, _ => 0

/-- The masked form of a factor, term, constraint. -/
def swMaskU (G g : F) (t : UnivariateTerm F) : UnivariateTerm F :=
  match t.register, t.stepsDifference with
  | .register r, .steps n => { t with stepsDifference := .mask (g ^ n * G ^ r) }
  | _, _ => t

def swMaskT (G g : F) : ConstraintTerm F → ConstraintTerm F
  | .univariate t => .univariate (swMaskU G g t)
  | .polyvariate p => .polyvariate { p with terms := p.terms.map (swMaskU G g) }

def swMaskC (G g : F) (c : Constraint F) : Constraint F := { c with terms := c.terms.map (swMaskT G g) }

/-- A factor that names a plain register and a step difference. -/
def Spec.Plain (u : UnivariateTerm F) : Prop := (∃ r, u.register = .register r) ∧ ∃ k, u.stepsDifference = .steps k

theorem swMaskConstraint_ok (d d' : Domain F) {c : Constraint F} (h : ∀ u ∈ factors c, Spec.Plain u) :
    swMaskConstraint d d' c = .ok (swMaskC d.generator d'.generator c) := by
  have hu : ∀ u : UnivariateTerm F, Spec.Plain u → swMaskUnivariateTerm d d' u = .ok (swMaskU d.generator d'.generator u) := by
    rintro u ⟨⟨r, hr⟩, k, hk⟩
    simp only [swMaskUnivariateTerm, swMaskU, hr, hk, Register.num, Res.ok_bind]
  have ht : ∀ t : ConstraintTerm F, (∀ u ∈ termFactors t, Spec.Plain u) → swMaskTerm d d' t = .ok (swMaskT d.generator d'.generator t) := by
    intro t h
    cases t with
    | univariate t =>
      simp only [swMaskTerm, hu t (h t (by simp [termFactors])), swMaskT]
      rfl
    | polyvariate p =>
      simp only [swMaskTerm]
      rw [mapRes_ok _ (swMaskU d.generator d'.generator) p.terms (fun u hu' => hu u (h u hu'))]
      rfl
  simp only [swMaskConstraint]
  rw [mapRes_ok _ (swMaskT d.generator d'.generator) _ (fun t h1 => ht t (fun u hu => h u (List.mem_flatMap.2 ⟨t, h1, hu⟩)))]
  rfl

theorem constraintValue_swMaskC (e e' : Env F) (G g : F) (h : ∀ r r' k, e r' (.mask (g ^ k * G ^ r)) = e' (.register r) (.steps k))
    {c : Constraint F} (hc : ∀ u ∈ factors c, Spec.Plain u) : constraintValue e (swMaskC G g c) = constraintValue e' c := by
  have hu : ∀ u : UnivariateTerm F, Spec.Plain u → uniValue e (swMaskU G g u) = uniValue e' u := by
    rintro u ⟨⟨r, hr⟩, k, hk⟩
    simp only [uniValue, swMaskU, hr, hk, h]
  have ht : ∀ t ∈ c.terms, termValue e (swMaskT G g t) = termValue e' t := by
    intro t ht
    have hf : ∀ u ∈ termFactors t, Spec.Plain u := fun u hu => hc u (List.mem_flatMap.2 ⟨t, ht, hu⟩)
    cases t with
    | univariate t => exact hu t (hf t (by simp [termFactors]))
    | polyvariate p =>
      simp only [termValue, swMaskT, polyTermValue, List.map_map]
      congr 2
      apply List.map_congr_left
      intro u hu'
      exact hu u (hf u hu')
  simp only [constraintValue, swMaskC, List.map_map]
  congr 2
  apply List.map_congr_left
  intro t h1
  exact ht t h1

/-- `2^r` steps of the generator of size `2^(k+r)` are one step of the generator of size `2^k`. -/
theorem genOf_pow_sub {k r : ℕ} (hk : k + r ≤ StarkField.S F) : genOf F (k + r) ^ 2 ^ r = genOf F k := by
  exact genOf_pow hk

/-- **C66 (whole conversion).** For every instance with plain constraints, every table of the declared shape and every worker for which no chunk of rows starts beyond the last row: the conversion and
the routing succeed, give one polynomial of degree below the padded table size, and keep everything but the step differences; each routed constraint, with every factor read from that one polynomial at the
point `ω^i` of the row domain, has the value of the original constraint at row `i` of the padded table, rows taken cyclically. -/
theorem C66_reads_trace (w : Worker) (inst : InstanceProperties F) (witness : List (List F)) (n T k r : ℕ) (hn : 0 < n) (h : IsTable witness n T)
    (hT : nextPow2 T = 2 ^ k) (hr : nextPow2 n = 2 ^ r) (h32 : k + r < 32) (hS : k + r ≤ StarkField.S F)
    (hg : ¬ Spec.GapAfter (w.chunkSize T) T (2 ^ k)) (h1 : inst.numRegisters = n) (h2 : inst.numRows = T)
    (hc : ∀ c ∈ inst.constraints, ∀ u ∈ factors c, (∃ m, m < n ∧ u.register = .register m) ∧ ∃ j, u.stepsDifference = .steps j) :
    ∃ (a a' : SingleWitnessArp F) (f : F[X]), SingleWitnessArp.fromInstance (some witness) inst w = .ok a ∧ a.route = .ok a' ∧
      f.degree < (2 ^ (k + r) : ℕ) ∧ a'.witnessPoly = some (mkPoly .coefficients (k + r) f.coeff) ∧
      a'.properties.numRows = T ∧ a'.properties.numRegisters = n ∧ a'.properties.boundaryConstraints = inst.boundaryConstraints ∧
      List.Forall₂ (fun c c' => c'.degree = c.degree ∧ c'.density = c.density ∧ ∀ i,
        constraintValue (Spec.singleEnv f (genOf F k ^ i)) c' =
          constraintValue (rowEnv (fun reg j => if j % 2 ^ k < T then cellR witness reg (j % 2 ^ k) else 0) i) c)
        inst.constraints a'.properties.constraints := by
  obtain ⟨-, -, h3⟩ := C66_outcome w witness n T k r hn h hT hr h32
  obtain ⟨f, hf, hmk, hv⟩ := h3 hg hS
  have hplain : ∀ c ∈ inst.constraints, ∀ u ∈ factors c, Spec.Plain u := by
    intro c hc' u hu
    obtain ⟨⟨m, -, hm⟩, hj⟩ := hc c hc' u hu
    exact ⟨⟨m, hm⟩, hj⟩
  have hroute : SingleWitnessArp.route { witnessPoly := some (mkPoly .coefficients (k + r) f.coeff), properties := inst } =
      .ok { witnessPoly := some (mkPoly .coefficients (k + r) f.coeff),
            properties := { inst with constraints := inst.constraints.map (swMaskC (genOf F (k + r)) (genOf F k)) } } := by
    unfold SingleWitnessArp.route
    simp only [h1, h2, hT, hr]
    rw [show 2 ^ r * 2 ^ k = 2 ^ (k + r) by rw [pow_add, Nat.mul_comm], newForSize_pow hS, newForSize_pow (by omega)]
    simp only [Res.ok_bind]
    rw [mapRes_ok _ (swMaskC (genOf F (k + r)) (genOf F k)) _ (fun c hc' => swMaskConstraint_ok _ _ (hplain c hc'))]
    rfl
  refine ⟨_, _, f, ?_, hroute, hf, rfl, h2, h1, rfl, ?_⟩
  · unfold SingleWitnessArp.fromInstance
    simp only [hmk, Res.ok_bind, Res.pure_def]
  · simp only
    rw [List.forall₂_map_right_iff, List.forall₂_same]
    intro c hc'
    refine ⟨rfl, rfl, fun i => ?_⟩
    rw [constraintValue_swMaskC (Spec.singleEnv f (genOf F k ^ i)) (fun reg s => match reg, s with
      | .register m, .steps j => f.eval (genOf F k ^ j * genOf F (k + r) ^ m * genOf F k ^ i)
      | _, _ => 0) _ _ (fun _ _ _ => rfl) (hplain c hc')]
    apply constraintValue_congr
    intro u hu
    obtain ⟨⟨m, hmn, hm⟩, j, hj⟩ := hc c hc' u hu
    rw [hm, hj]
    simp only [rowEnv, cellR]
    have hm2 : m < 2 ^ r := lt_of_lt_of_le hmn (by rw [← hr]; exact Nat.le_pow_clog (by norm_num) n)
    have := hv ((i + j) % 2 ^ k) m (Nat.mod_lt _ (by positivity)) hm2
    simp only [hmn, true_and] at this
    rw [← this]
    congr 1
    rw [pow_add, pow_mul', genOf_pow_sub hS, ← pow_eq_pow_mod _ (genOf_pow_card (F := F) (k := k) (by omega)), pow_add]
    ring

end

/-- Non-vacuity: two registers and three rows padded to four, with one CPU; and the same table with two CPUs panics in no chunk, with five rows and two CPUs it does. -/
example : IsTable [[1, 2, 3], [2, 3, 5]] 2 3 ∧ (∀ r ∈ [[1, 2, 3], [2, 3, (5 : Fr)]], r.length = 3) ∧ nextPow2 3 = 2 ^ 2 ∧ nextPow2 2 = 2 ^ 1 ∧
    ¬ Spec.GapAfter ((⟨1, by norm_num⟩ : Worker).chunkSize 3) 3 (2 ^ 2) ∧ 2 + 1 ≤ StarkField.S Fr := by
  refine ⟨⟨rfl, by decide⟩, by decide, by decide +kernel, by decide +kernel, C66_no_gap _ 3 2 (by decide +kernel) (Or.inr rfl), by decide⟩

example : (makeSingleWitnessPolynomial [[1, 2, 3, 5, 8], [2, 3, 5, 8, 13]] ⟨2, by norm_num⟩ : Res (Poly Fr .coefficients)) = .panic :=
  (C66_outcome (F := Fr) ⟨2, by norm_num⟩ [[1, 2, 3, 5, 8], [2, 3, 5, 8, 13]] 2 5 3 1 (by norm_num) ⟨rfl, by decide⟩ (by decide +kernel) (by decide +kernel)
    (by norm_num)).1 ⟨3, by decide, by decide⟩

end Hodor

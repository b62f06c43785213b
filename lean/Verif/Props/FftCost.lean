import Verif.Model.FftCost
import Verif.Spec.FftCost
import Verif.Lemmas.ProverCost
import Verif.Props.Fft

/-!
# C81: field operations of the transforms
-/

set_option linter.unusedSectionVars false

namespace Hodor

open Spec

namespace Tick

variable {α β σ : Type}

/-- If the computation returns, it has executed `c` field operations. -/
def Works (x : Tick α) (c : ℕ) : Prop := ∀ a, x.res = .ok a → x.ops = c

theorem ops_bind {x : Tick α} {f : α → Tick β} {b : β} (h : (x >>= f).res = .ok b) :
    ∃ a, x.res = .ok a ∧ (f a).res = .ok b ∧ (x >>= f).ops = x.ops + (f a).ops := by
  rw [res_bind] at h
  obtain ⟨a, ha, hb⟩ := Res.bind_eq_ok.1 h
  refine ⟨a, ha, hb, ?_⟩
  show (bind x f).ops = _
  unfold bind
  rw [ha]

theorem Works.bind {x : Tick α} {f : α → Tick β} {c d : ℕ} (hx : x.Works c) (hf : ∀ a, x.res = .ok a → (f a).Works d) : (x >>= f).Works (c + d) := by
  intro b hb
  obtain ⟨a, ha, hb', e⟩ := ops_bind hb
  rw [e, hx a ha, hf a ha b hb']

theorem works_pure (a : α) : (pure a : Tick α).Works 0 := fun _ _ => rfl
theorem works_lift (x : Res α) : (lift x).Works 0 := fun _ _ => rfl
theorem works_op (n : ℕ) (a : α) : (op n a).Works n := fun _ _ => rfl

theorem works_lift_bind {x : Res α} {f : α → Tick β} {d : ℕ} (hf : ∀ a, x = .ok a → (f a).Works d) : (lift x >>= f).Works d := by
  have := Works.bind (works_lift x) hf
  simpa using this

theorem works_op_bind {a : α} {f : α → Tick β} {d : ℕ} (hf : (f a).Works d) : (op 1 a >>= f).Works (d + 1) := by
  have := Works.bind (works_op 1 a) (fun b hb => by cases hb; exact hf)
  rwa [Nat.add_comm] at this

/-- A loop with an invariant; step `i` takes `c i` operations. -/
theorem works_forN {n lo : ℕ} {s : σ} {f : ℕ → σ → Tick σ} {P : ℕ → σ → Prop} {c : ℕ → ℕ} (h0 : P lo s)
    (hf : ∀ i s, lo ≤ i → i < lo + n → P i s → (f i s).Works (c i) ∧ ∀ s', (f i s).res = .ok s' → P (i + 1) s') :
    (forN n lo s f).Works (∑ i ∈ Finset.range n, c (lo + i)) := by
  induction n generalizing lo s with
  | zero => exact works_pure s
  | succ n ih =>
    obtain ⟨h1, h2⟩ := hf lo s (le_refl _) (by omega) h0
    rw [Finset.sum_range_succ', Nat.add_comm (∑ i ∈ Finset.range n, _)]
    refine Works.bind h1 fun s' hs' => ?_
    have := ih (h2 s' hs') fun i s hi hi' hP => hf i s (by omega) (by omega) hP
    simpa only [Nat.add_assoc, Nat.add_comm 1] using this

theorem works_forN_const {n lo : ℕ} {s : σ} {f : ℕ → σ → Tick σ} {c : ℕ} (hf : ∀ i s, (f i s).Works c) : (forN n lo s f).Works (n * c) := by
  have := works_forN (n := n) (lo := lo) (s := s) (f := f) (P := fun _ _ => True) (c := fun _ => c) trivial
    fun i s _ _ _ => ⟨hf i s, fun _ _ => trivial⟩
  simpa using this

theorem works_collectN {n : ℕ} {f : ℕ → Tick α} {c : ℕ → ℕ} (hf : ∀ i < n, (f i).Works (c i)) :
    (collectN n f).Works (∑ i ∈ Finset.range n, c i) := by
  induction n with
  | zero => exact works_pure []
  | succ n ih =>
    rw [Finset.sum_range_succ]
    refine Works.bind (ih fun i hi => hf i (by omega)) fun l _ => ?_
    exact Works.bind (d := 0) (hf n (by omega)) fun _ _ => works_pure _

end Tick

open Tick

variable {F : Type} [Field F] [DecidableEq F] [StarkField F]

theorem works_powT (x : F) (e : ℕ) : (powT x e).Works (powExact e) := by
  suffices h : ∀ e, (powT x e).ops = powExact e from fun _ _ => h e
  intro e
  induction e using Nat.strong_induction_on with
  | _ e ih =>
    by_cases h0 : e = 0
    · subst h0
      unfold powT
      simp [powExact]
      rfl
    have ih2 := ih (e / 2) (by omega)
    have hd : Nat.digits 2 e = e % 2 :: Nat.digits 2 (e / 2) := Nat.digits_def' (by norm_num) (by omega)
    obtain ⟨r, hr⟩ : ∃ r, (powT x (e / 2)).res = .ok r := ⟨_, res_powT x (e / 2)⟩
    unfold powT
    rw [dif_neg h0]
    by_cases h1 : e / 2 = 0
    · have he : e = 1 := by omega
      subst he
      have p0 : powT x 0 = pure 1 := by unfold powT; simp
      simp only [show 1 / 2 = 0 by norm_num, p0, if_true, show 1 % 2 = 1 by norm_num]
      simp [powExact]
      rfl
    · have hlog : Nat.log 2 e = Nat.log 2 (e / 2) + 1 := by
        rw [Nat.log_div_base]
        have : 1 ≤ Nat.log 2 e := (Nat.le_log_iff_pow_le (by norm_num) h0).2 (by omega)
        omega
      show (Tick.bind _ _).ops = _
      unfold Tick.bind
      rw [hr]
      simp only [h1, if_false]
      show (powT x (e / 2)).ops + (Tick.bind _ _).ops = _
      rw [ih2]
      simp only [powExact, hd, List.sum_cons, hlog]
      rcases Nat.mod_two_eq_zero_or_one e with hm | hm <;> rw [hm]
      · show _ + (1 + 0) = _
        omega
      · show _ + (1 + 1) = _
        omega

theorem powExact_pow (k : ℕ) : powExact (2 ^ k) = k + 1 := by
  have hd : ∀ k, (Nat.digits 2 (2 ^ k)).sum = 1 := by
    intro k
    induction k with
    | zero => simp
    | succ k ih =>
      rw [Nat.digits_def' (by norm_num) (by positivity), show 2 ^ (k + 1) / 2 = 2 ^ k by rw [pow_succ]; omega, List.sum_cons, ih,
        show 2 ^ (k + 1) % 2 = 0 by rw [pow_succ]; omega]
  rw [powExact, hd, Nat.log_pow (by norm_num)]

/-! ## Erasure -/

theorem res_butterflyT (a : List F) (i i' : ℕ) (w : F) : (butterflyT a i i' w).res = butterfly a i i' w := by
  unfold butterflyT butterfly
  simp only [res_bind, res_lift, res_op, Res.ok_bind]

theorem res_fftBlockT (a : List F) (k m : ℕ) (wm : F) : (fftBlockT a k m wm).res = fftBlock a k m wm := by
  unfold fftBlockT fftBlock
  simp only [res_bind, res_pure, Res.pure_def]
  congr 1
  refine res_forN fun j s => ?_
  simp only [res_bind, res_butterflyT, res_op, Res.ok_bind, res_pure]

theorem res_fftRoundT (a : List F) (n m : ℕ) (ω : F) : (fftRoundT a n m ω).res = fftRound a n m ω := by
  unfold fftRoundT fftRound
  simp only [res_bind, res_powT, Res.ok_bind]
  exact res_forN fun b s => res_fftBlockT _ _ _ _

theorem res_serialFftT (a : List F) (ω : F) (logN : ℕ) : (serialFftT a ω logN).res = serialFft a ω logN := by
  unfold serialFftT serialFft
  simp only [res_bind, res_lift, res_pure, Res.pure_def]
  congr 1; funext _
  congr 1; funext _
  congr 1; funext a'
  congr 1
  refine res_forN fun i s => ?_
  simp only [res_bind, res_fftRoundT, res_pure]

theorem res_fftShuffleT (a : List F) (ω : F) (logN logCpus j : ℕ) : (fftShuffleT a ω logN logCpus j).res = fftShuffle a ω logN logCpus j := by
  unfold fftShuffleT fftShuffle
  simp only [res_bind, res_powT, Res.ok_bind, res_pure, Res.pure_def]
  congr 1
  refine res_forN fun i s => ?_
  simp only [res_bind, res_pure, res_op, Res.ok_bind]
  congr 1
  refine res_forN fun i s => ?_
  simp only [res_bind, res_lift, res_pure, res_op, Res.ok_bind]

theorem res_parallelFftT (w : Worker) (a : List F) (ω : F) (logN logCpus : ℕ) : (parallelFftT w a ω logN logCpus).res = parallelFft w a ω logN logCpus := by
  unfold parallelFftT parallelFft
  simp only [res_bind, res_lift, res_powT, Res.ok_bind]
  congr 1; funext _
  congr 1
  refine res_collectN fun j _ => ?_
  unfold fftTaskT
  simp only [res_bind, res_fftShuffleT, res_serialFftT]

theorem res_bestFftT (w : Worker) (a : List F) (ω : F) (logN : ℕ) (hint : Option ℕ) : (bestFftT w a ω logN hint).res = bestFft w a ω logN hint := by
  unfold bestFftT bestFft
  simp only [res_bind, res_lift, res_ite, res_serialFftT, res_parallelFftT]
  cases hint <;> simp only [bind_assoc]

/-! ## Counts -/

theorem works_butterflyT (a : List F) (i i' : ℕ) (w : F) : (butterflyT a i i' w).Works 3 := by
  unfold butterflyT
  exact works_lift_bind fun _ _ => works_op_bind (d := 2) <| works_lift_bind fun _ _ => works_op_bind (d := 1) <| works_lift_bind fun _ _ =>
    works_lift_bind fun _ _ => works_op_bind (d := 0) <| works_lift _

theorem works_fftBlockT (a : List F) (k m : ℕ) (wm : F) : (fftBlockT a k m wm).Works (m * 4) := by
  unfold fftBlockT
  refine Works.bind (c := m * 4) (d := 0) (works_forN_const fun j s => ?_) fun _ _ => works_pure _
  exact Works.bind (c := 3) (d := 1) (works_butterflyT _ _ _ _) fun _ _ => works_op_bind (d := 0) (works_pure _)

theorem works_fftRoundT (a : List F) (n m : ℕ) (ω : F) : (fftRoundT a n m ω).Works (powExact (n / (2 * m)) + numChunks n (2 * m) * (m * 4)) := by
  unfold fftRoundT
  exact Works.bind (works_powT _ _) fun _ _ => works_forN_const fun b s => works_fftBlockT _ _ _ _

theorem works_serialFftT (a : List F) (ω : F) (logN : ℕ) : (serialFftT a ω logN).Works (serialFftOps logN) := by
  unfold serialFftT
  refine works_lift_bind fun _ _ => works_lift_bind fun _ hn => works_lift_bind fun a' _ => ?_
  have hn := of_decide_eq_true (Res.assert_eq_ok.1 hn)
  rw [hn]
  refine Works.bind (c := serialFftOps logN) (d := 0) ?_ fun _ _ => works_pure _
  have := works_forN (n := logN) (lo := 0) (s := (a', 1)) (f := fun _ (s : List F × ℕ) => (fftRoundT s.1 (2 ^ logN) s.2 ω >>= fun a => pure (a, s.2 * 2) : Tick (List F × ℕ)))
    (P := fun i s => s.2 = 2 ^ i) (c := fun i => (logN - i) + 4 * (2 ^ logN / 2)) rfl (by
      rintro i ⟨a, m⟩ - hi hm
      dsimp only at hm ⊢
      subst hm
      obtain ⟨d, rfl⟩ : ∃ d, logN = i + 1 + d := ⟨logN - (i + 1), by omega⟩
      have e1 : 2 ^ (i + 1 + d) / (2 * 2 ^ i) = 2 ^ d := by
        rw [show 2 * 2 ^ i = 2 ^ (i + 1) by ring, pow_add, Nat.mul_div_cancel_left _ (by positivity)]
      have e2 : numChunks (2 ^ (i + 1 + d)) (2 * 2 ^ i) = 2 ^ d := by
        unfold numChunks
        have hp : 0 < 2 ^ i := by positivity
        have : 2 ^ (i + 1 + d) + 2 * 2 ^ i - 1 = (2 * 2 ^ i - 1) + 2 * 2 ^ i * 2 ^ d := by
          have : 2 ^ (i + 1 + d) = 2 * 2 ^ i * 2 ^ d := by ring
          omega
        rw [this, Nat.add_mul_div_left _ _ (by omega), Nat.div_eq_of_lt (by omega), Nat.zero_add]
      refine ⟨?_, ?_⟩
      · have w := Works.bind (d := 0) (works_fftRoundT a (2 ^ (i + 1 + d)) (2 ^ i) ω) (fun a' _ => works_pure (a', 2 ^ i * 2))
        rw [e1, e2, powExact_pow] at w
        have : d + 1 + 2 ^ d * (2 ^ i * 4) + 0 = i + 1 + d - i + 4 * (2 ^ (i + 1 + d) / 2) := by
          rw [show 2 ^ (i + 1 + d) / 2 = 2 ^ d * 2 ^ i by rw [show i + 1 + d = (d + i) + 1 by ring, pow_succ, pow_add]; omega]
          have : i + 1 + d - i = d + 1 := by omega
          rw [this]
          ring
        rw [this] at w
        exact w
      · intro s' hs'
        rw [res_bind] at hs'
        obtain ⟨_, -, hs'⟩ := Res.bind_eq_ok.1 hs'
        cases hs'
        rw [pow_succ])
  simp only [Nat.zero_add] at this
  have hsum : ∑ i ∈ Finset.range logN, ((logN - i) + 4 * (2 ^ logN / 2)) = serialFftOps logN := by
    rw [Finset.sum_add_distrib, Finset.sum_const, Finset.card_range, smul_eq_mul, serialFftOps, Nat.add_comm]
    congr 1
    rw [← Finset.sum_range_reflect]
    have h1 : ∑ j ∈ Finset.range logN, (logN - (logN - 1 - j)) = ∑ j ∈ Finset.range logN, (j + 1) :=
      Finset.sum_congr rfl fun j hj => by have := Finset.mem_range.1 hj; omega
    rw [h1]
    have h2 := Finset.sum_range_id_mul_two (logN + 1)
    rw [Finset.sum_range_succ'] at h2
    simp only [Nat.add_zero, Nat.add_sub_cancel] at h2
    rw [Nat.mul_comm (logN + 1)] at h2
    omega
  rw [hsum] at this
  exact this

theorem works_fftTaskT (a : List F) (ω newOmega : F) (logN logCpus j : ℕ) (h : logCpus ≤ logN) :
    (fftTaskT a ω newOmega logN logCpus j).Works (fftTaskOps logN logCpus j) := by
  unfold fftTaskT fftTaskOps
  refine Works.bind ?_ fun _ _ => works_serialFftT _ _ _
  unfold fftShuffleT
  rw [Nat.add_assoc]
  refine Works.bind (works_powT _ _) fun _ _ => Works.bind (works_powT _ _) fun _ _ => ?_
  refine Works.bind (d := 0) (c := 3 * 2 ^ logN + 2 ^ (logN - logCpus)) ?_ fun _ _ => works_pure _
  have e : 3 * 2 ^ logN + 2 ^ (logN - logCpus) = 2 ^ (logN - logCpus) * (2 ^ logCpus * 3 + 1) := by
    have : 2 ^ logN = 2 ^ (logN - logCpus) * 2 ^ logCpus := by rw [← pow_add]; congr 1; omega
    rw [this]
    ring
  rw [e]
  refine works_forN_const fun i s => ?_
  refine Works.bind (c := 2 ^ logCpus * 3) (d := 1) (works_forN_const fun i s => ?_) fun _ _ => works_op_bind (d := 0) (works_pure _)
  exact works_lift_bind fun _ _ => works_op_bind (d := 2) <| works_lift_bind fun _ _ => works_op_bind (d := 1) <| works_lift_bind fun _ _ =>
    works_op_bind (d := 0) (works_pure _)

theorem works_parallelFftT (w : Worker) (a : List F) (ω : F) (logN logCpus : ℕ) : (parallelFftT w a ω logN logCpus).Works (parallelFftOps logN logCpus) := by
  unfold parallelFftT parallelFftOps
  refine works_lift_bind fun _ ha => ?_
  have ha := of_decide_eq_true (Res.assert_eq_ok.1 ha)
  rw [← powExact_pow]
  refine Works.bind (works_powT _ _) fun _ _ => ?_
  exact Works.bind (d := 0) (works_collectN fun j _ => works_fftTaskT a ω _ logN logCpus j ha) fun _ _ => works_lift _

/-- **C81** (serial). Whenever the serial transform returns, it has executed exactly `2 n log n + log n (log n + 1) / 2` field operations, `n = 2^logN`; the counted transform
returns what the transform returns. -/
theorem C81_serial (a : List F) (ω : F) (logN : ℕ) :
    (serialFftT a ω logN).res = serialFft a ω logN ∧ ∀ b, serialFft a ω logN = .ok b → (serialFftT a ω logN).ops = serialFftOps logN :=
  ⟨res_serialFftT a ω logN, fun b hb => works_serialFftT a ω logN b (by rw [res_serialFftT]; exact hb)⟩

/-- **C81** (parallel). Whenever the parallel transform returns, its tasks have executed exactly the listed field operations. -/
theorem C81_parallel (w : Worker) (a : List F) (ω : F) (logN logCpus : ℕ) :
    (parallelFftT w a ω logN logCpus).res = parallelFft w a ω logN logCpus ∧
    ∀ b, parallelFft w a ω logN logCpus = .ok b →
      (parallelFftT w a ω logN logCpus).ops = parallelFftOps logN logCpus ∧
      ∀ j < 2 ^ logCpus, (fftTaskT a ω (ω ^ 2 ^ logCpus) logN logCpus j).ops = fftTaskOps logN logCpus j := by
  refine ⟨res_parallelFftT w a ω logN logCpus, fun b hb => ⟨works_parallelFftT w a ω logN logCpus b (by rw [res_parallelFftT]; exact hb), ?_⟩⟩
  intro j hj
  unfold parallelFft at hb
  obtain ⟨_, ha, hb⟩ := Res.bind_eq_ok.1 hb
  obtain ⟨rows, hr, -⟩ := Res.bind_eq_ok.1 hb
  have ha := of_decide_eq_true (Res.assert_eq_ok.1 ha)
  obtain ⟨hl, hi⟩ := collectN_inv hr
  have := hi j rows[j] (List.getElem?_eq_getElem (by omega))
  refine works_fftTaskT a ω _ logN logCpus j ha rows[j] ?_
  unfold fftTaskT
  simp only [res_bind, res_fftShuffleT, res_serialFftT]
  exact this

/-- **C81** (no gain beyond a constant number of CPUs). Every task of the parallel transform reads the whole input: it executes more than `3 n` operations, however many CPUs
there are; so on `2^logCpus` CPUs the tasks together execute more than `3 n 2^logCpus`. A serial transform takes less than `n (2 log n + 1)` operations once `n ≥ 16`, so the
longest task is faster than a serial transform by less than a factor `(2 log n + 1) / 3`. -/
theorem C81_task_bound (logN logCpus : ℕ) :
    (∀ j, 3 * 2 ^ logN < fftTaskOps logN logCpus j) ∧ 3 * 2 ^ logN * 2 ^ logCpus < parallelFftOps logN logCpus ∧
    (4 ≤ logN → ∀ j, 3 * serialFftOps logN < (2 * logN + 1) * fftTaskOps logN logCpus j) := by
  have h1 : ∀ j, 3 * 2 ^ logN < fftTaskOps logN logCpus j := by
    intro j
    have : 0 < 2 ^ (logN - logCpus) := by positivity
    unfold fftTaskOps
    omega
  refine ⟨h1, ?_, ?_⟩
  · unfold parallelFftOps
    have : ∑ _j ∈ Finset.range (2 ^ logCpus), 3 * 2 ^ logN ≤ ∑ j ∈ Finset.range (2 ^ logCpus), fftTaskOps logN logCpus j :=
      Finset.sum_le_sum fun j _ => (h1 j).le
    rw [Finset.sum_const, Finset.card_range, smul_eq_mul, Nat.mul_comm] at this
    omega
  · intro h4 j
    have hlog : ∀ m, 4 ≤ m → m * (m + 1) / 2 ≤ 2 ^ m := by
      intro m hm
      induction m, hm using Nat.le_induction with
      | base => norm_num
      | succ m hm ih =>
        have h2 : (m + 1) * (m + 1 + 1) / 2 = m * (m + 1) / 2 + (m + 1) := by
          rw [show (m + 1) * (m + 1 + 1) = m * (m + 1) + 2 * (m + 1) by ring, Nat.add_mul_div_left _ _ (by norm_num)]
        have h3 : m + 1 ≤ 2 ^ m := Nat.lt_two_pow_self
        rw [h2, pow_succ]
        omega
    have hs : serialFftOps logN ≤ (2 * logN + 1) * 2 ^ logN := by
      unfold serialFftOps
      have e2 : 4 * (2 ^ logN / 2) = 2 * 2 ^ logN := by
        obtain ⟨d, rfl⟩ : ∃ d, logN = d + 1 := ⟨logN - 1, by omega⟩
        rw [pow_succ]; omega
      rw [e2]
      have := hlog logN h4
      calc _ ≤ logN * (2 * 2 ^ logN) + 2 ^ logN := by omega
        _ = (2 * logN + 1) * 2 ^ logN := by ring
    have := h1 j
    calc 3 * serialFftOps logN ≤ (2 * logN + 1) * (3 * 2 ^ logN) := by nlinarith
      _ < _ := Nat.mul_lt_mul_of_pos_left this (by omega)

/-- **C81** (dispatch). `best_fft` takes the operations of the serial transform if the hint, or the number of CPUs, is one or is not less than the size (in bits), and those of the
parallel transform otherwise. -/
theorem C81_best (w : Worker) (a : List F) (ω : F) (logN : ℕ) (hint : Option ℕ) (b : List F) (h : bestFft w a ω logN hint = .ok b) :
    (bestFftT w a ω logN hint).res = .ok b ∧
    (bestFftT w a ω logN hint).ops =
      if Nat.log 2 (hint.getD w.cpus) = 0 ∨ logN ≤ Nat.log 2 (hint.getD w.cpus) then serialFftOps logN
      else parallelFftOps logN (Nat.log 2 (hint.getD w.cpus)) := by
  have hr : (bestFftT w a ω logN hint).res = .ok b := by rw [res_bestFftT]; exact h
  refine ⟨hr, ?_⟩
  suffices hw : (bestFftT w a ω logN hint).Works (if Nat.log 2 (hint.getD w.cpus) = 0 ∨ logN ≤ Nat.log 2 (hint.getD w.cpus) then serialFftOps logN
      else parallelFftOps logN (Nat.log 2 (hint.getD w.cpus))) from hw b hr
  unfold bestFftT
  refine works_lift_bind fun c hc => ?_
  have : c = Nat.log 2 (hint.getD w.cpus) := by
    cases hint with
    | none => cases hc; rfl
    | some h =>
      obtain ⟨_, -, hc⟩ := Res.bind_eq_ok.1 hc
      unfold log2Floor at hc
      obtain ⟨_, -, hc⟩ := Res.bind_eq_ok.1 hc
      cases hc
      rfl
  subst this
  split
  · exact works_serialFftT _ _ _
  · exact works_parallelFftT _ _ _ _ _

/-- Non-vacuity of C81: eight values, on one task, on four tasks and dispatched by the number of CPUs (two tasks). -/
example : (serialFft ([1, 2, 3, 4, 5, 6, 7, 8] : List Fr) (3 ^ 32) 3) = .ok [36, 45, 60, 174, 253, 75, 189, 204] ∧ (serialFftT ([1, 2, 3, 4, 5, 6, 7, 8] : List Fr) (3 ^ 32) 3).ops = 54 ∧ serialFftOps 3 = 54 ∧
    (parallelFftT ⟨4, by norm_num⟩ ([1, 2, 3, 4, 5, 6, 7, 8] : List Fr) (3 ^ 32) 3 2).ops = 142 ∧ parallelFftOps 3 2 = 142 ∧
    (bestFft ⟨3, by norm_num⟩ ([1, 2, 3, 4, 5, 6, 7, 8] : List Fr) (3 ^ 32) 3 none) = .ok [36, 45, 60, 174, 253, 75, 189, 204] ∧
    (bestFftT ⟨3, by norm_num⟩ ([1, 2, 3, 4, 5, 6, 7, 8] : List Fr) (3 ^ 32) 3 none).ops = parallelFftOps 3 1 := by
  refine ⟨by decide +kernel, by decide +kernel, by decide +kernel, by decide +kernel, by decide +kernel, by decide +kernel, by decide +kernel⟩

end Hodor

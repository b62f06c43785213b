import Verif.Model.SetupCost
import Verif.Spec.SetupCost
import Verif.Props.FftCost
import Verif.Props.ManyDensities
import Verif.Lemmas.Poly3
import Verif.Lemmas.ProverRun

/-!
# The counted setup: erasure and exact counts
-/

set_option linter.unusedSectionVars false

namespace Hodor

open Spec Tick

section generic
variable {α β : Type}

theorem rd_some {l : List α} {i : ℕ} {v : α} (h : l[i]? = some v) : rd l i = .ok v := by
  unfold rd; rw [h]; rfl

theorem res_mapIdxT {l : List α} {f : ℕ → α → Tick β} {g : ℕ → α → β} (h : ∀ i v, (f i v).res = .ok (g i v)) :
    (mapIdxT l f).res = .ok (l.mapIdx g) := by
  cases l with
  | nil => rfl
  | cons a l' =>
    generalize hl : a :: l' = l
    have : Inhabited α := ⟨a⟩
    unfold mapIdxT
    rw [res_collectN (g := fun i => .ok (g i (l[i]?.getD default))), collectN_eq _ _ (fun i => g i (l[i]?.getD default)) (fun _ _ => rfl)]
    · congr 1
      apply List.ext_getElem?
      intro i
      by_cases hi : i < l.length
      · simp [tab, hi]
      · simp [tab, hi]
    · intro i hi
      have e : l[i]? = some l[i] := by simp [hi]
      simp only [res_bind, res_lift, rd_some e, Res.ok_bind, h, e, Option.getD_some]

theorem sum_mapIdx_range [Inhabited α] (l : List α) (c : ℕ → α → ℕ) :
    (l.mapIdx c).sum = ∑ i ∈ Finset.range l.length, c i (l[i]?.getD default) := by
  induction l using List.reverseRecOn with
  | nil => rfl
  | append_singleton l a ih =>
    rw [List.mapIdx_append, List.sum_append, ih, List.length_append, List.length_singleton, Finset.sum_range_succ]
    congr 1
    · refine Finset.sum_congr rfl fun i hi => ?_
      rw [List.getElem?_append_left (Finset.mem_range.1 hi)]
    · simp

theorem works_mapIdxT {l : List α} {f : ℕ → α → Tick β} {c : ℕ → α → ℕ} (h : ∀ i v, l[i]? = some v → (f i v).Works (c i v)) :
    (mapIdxT l f).Works (l.mapIdx c).sum := by
  cases l with
  | nil => exact works_pure _
  | cons a l' =>
    generalize hl : a :: l' = l at *
    have : Inhabited α := ⟨a⟩
    rw [sum_mapIdx_range]
    refine works_collectN fun i hi => ?_
    have e : l[i]? = some l[i] := by simp [hi]
    refine works_lift_bind fun v hv => ?_
    rw [rd_some e] at hv
    cases hv
    rw [e]
    exact h i _ e

theorem sum_mapIdx_chunks {c : ℕ} (hc : 0 < c) (l : List α) (s : ℕ → ℕ) (d : ℕ) :
    ((chunks c l).mapIdx (fun i v => s i + v.length * d)).sum = (∑ i ∈ Finset.range (chunks c l).length, s i) + l.length * d := by
  have h1 : ∀ L : List (List α), (L.mapIdx (fun i v => s i + v.length * d)).sum = (∑ i ∈ Finset.range L.length, s i) + L.flatten.length * d := by
    intro L
    induction L using List.reverseRecOn with
    | nil => simp
    | append_singleton L a ih =>
      rw [List.mapIdx_append, List.sum_append, ih, List.length_append, List.length_singleton, Finset.sum_range_succ]
      simp
      ring
  rw [h1, chunks_flatten hc]

theorem res_parChunksT (w : Worker) (l : List α) {f : ℕ → ℕ → List α → Tick (List β)} {g : ℕ → ℕ → List α → List β}
    (h : ∀ c i v, (f c i v).res = .ok (g c i v)) : (parChunksT w l f).res = .ok (parChunks w l g) := by
  unfold parChunksT parChunks
  simp only [res_bind, res_mapIdxT (fun i v => h (w.chunkSize l.length) i v), Res.ok_bind, res_pure]

theorem works_parChunksT (w : Worker) (l : List α) {f : ℕ → ℕ → List α → Tick (List β)} {s : ℕ → ℕ} {d : ℕ}
    (h : ∀ i v, (f (w.chunkSize l.length) i v).Works (s i + v.length * d)) :
    (parChunksT w l f).Works ((∑ i ∈ Finset.range (w.numSpawnedThreads l.length), s i) + l.length * d) := by
  rw [numSpawnedThreads_eq, ← length_chunks, ← sum_mapIdx_chunks (w.chunkSize_pos _)]
  exact Works.bind (d := 0) (works_mapIdxT fun i v _ => h i v) fun _ _ => works_pure _

theorem Tick.Works.to {x : Tick α} {c d : ℕ} (h : x.Works c) (e : c = d) : x.Works d := e ▸ h

end generic

variable {F : Type} [Field F] [DecidableEq F] [StarkField F]

/-! ## Small parts -/

theorem res_inverseUnwrapT (x : F) : (inverseUnwrapT x).res = Res.expect (inverse x) := by
  simp only [inverseUnwrapT, res_bind, res_op, Res.ok_bind, res_lift]

theorem works_inverseUnwrapT (x : F) : (inverseUnwrapT x).Works 1 := by
  exact Works.bind (works_op 1 _) fun _ _ => works_lift _

theorem works_newForSizeT (n : ℕ) : (newForSizeT F n).Works (domainOps (StarkField.S F) n) := by
  unfold newForSizeT
  have e : shiftCount (nextPow2 n) (nextPow2 n) 0 = Nat.clog 2 n := by
    have := shiftCount_pow (nextPow2 n) (Nat.clog 2 n) 0 (Nat.le_of_lt Nat.lt_two_pow_self)
    rw [Nat.zero_add] at this
    exact this
  simp only [e]
  split
  · exact fun a ha => by cases ha
  · exact Works.bind (d := 0) (works_op _ _) fun _ _ => works_pure _

theorem res_ofVecT {P : Form} (l : List F) : (ofVecT l : Tick (Poly F P)).res = Poly.ofVec l := by
  simp only [ofVecT, Poly.ofVec, fromStrT, res_bind, res_newForSizeT, res_inverseUnwrapT, res_op, Res.ok_bind, res_pure, Res.pure_def]

theorem works_ofVecT {P : Form} (l : List F) : (ofVecT l : Tick (Poly F P)).Works (polyOps (StarkField.S F) l.length) := by
  have h : (ofVecT l : Tick (Poly F P)).Works (domainOps (StarkField.S F) l.length + (1 + (1 + (decimalOps (2 ^ Nat.clog 2 l.length) + (1 + 0))))) := by
    refine Works.bind (works_newForSizeT _) fun d hd => ?_
    refine Works.bind (works_inverseUnwrapT _) fun _ _ => ?_
    refine Works.bind (works_inverseUnwrapT _) fun _ _ => ?_
    rw [res_newForSizeT] at hd
    rw [show d.size = 2 ^ Nat.clog 2 l.length from domain_size hd]
    refine Works.bind (works_op _ _) fun _ _ => ?_
    exact Works.bind (works_inverseUnwrapT _) fun _ _ => works_pure _
  exact h.to (by unfold polyOps; omega)

theorem res_powersRunningT (g : F) (u : F) (n : ℕ) : (powersRunningT g u n).res = .ok (powersRunning g u n) := by
  induction n generalizing u with
  | zero => rfl
  | succ n ih => simp only [powersRunningT, powersRunning, res_bind, res_op, Res.ok_bind, ih, res_pure]

theorem works_powersRunningT (g : F) (u : F) (n : ℕ) : (powersRunningT g u n).Works n := by
  induction n generalizing u with
  | zero => exact works_pure _
  | succ n ih => exact works_op_bind (Works.bind (d := 0) (ih _) fun _ _ => works_pure _)

theorem res_mapOpT (f : F → F) (l : List F) : (mapOpT f l).res = .ok (l.map f) := by
  induction l with
  | nil => rfl
  | cons x l ih => simp only [mapOpT, res_bind, res_op, Res.ok_bind, ih, res_pure, List.map_cons]

theorem works_mapOpT (f : F → F) (l : List F) : (mapOpT f l).Works l.length := by
  induction l with
  | nil => exact works_pure _
  | cons x l ih => exact works_op_bind (Works.bind (d := 0) ih fun _ _ => works_pure _)

/-! ## Tables -/

theorem powersRunning_length (g u : F) (n : ℕ) : (powersRunning g u n).length = n := by
  induction n generalizing u with
  | zero => rfl
  | succ n ih => simp [powersRunning, ih]

/-- A task may change the values of its chunk, not their number. -/
theorem parChunks_length {α β : Type} (w : Worker) (l : List α) (f : ℕ → ℕ → List α → List β) (h : ∀ c i v, (f c i v).length = v.length) :
    (parChunks w l f).length = l.length := by
  unfold parChunks
  conv_rhs => rw [← chunks_flatten (w.chunkSize_pos l.length) l]
  rw [List.length_flatten, List.length_flatten]
  congr 1
  apply List.ext_getElem?
  intro i
  simp [List.getElem?_mapIdx, h, Function.comp_def]

theorem res_powersTask (g : F) (c i : ℕ) (v : List F) :
    (do let u ← powT g (i * c); powersRunningT g u v.length : Tick (List F)).res = .ok (powersRunning g (g ^ (i * c)) v.length) := by
  simp only [res_bind, res_powT, Res.ok_bind, res_powersRunningT]

theorem res_newForDomainT (d : Domain F) (w : Worker) : (newForDomainT d w).res = PrecomputedOmegas.newForDomain d w := by
  simp only [newForDomainT, PrecomputedOmegas.newForDomain, res_bind, res_inverseUnwrapT, res_pure,
    res_parChunksT w _ (res_powersTask _), res_parChunksT w _ (fun _ _ v => res_mapOpT _ v), Res.ok_bind, Res.pure_def]

theorem works_powersTable (w : Worker) (g : F) (n : ℕ) : (parChunksT w (List.replicate n (0 : F)) (fun ch i v => do
    let u ← powT g (i * ch)
    powersRunningT g u v.length)).Works (startOps w n + n) := by
  have := works_parChunksT w (List.replicate n (0 : F)) (s := fun i => powExact (i * w.chunkSize n)) (d := 1) (f := fun ch i v => do
    let u ← powT g (i * ch)
    powersRunningT g u v.length) (fun i v => by
      rw [List.length_replicate, Nat.mul_one]
      exact Works.bind (works_powT _ _) fun _ _ => works_powersRunningT _ _ _)
  rw [List.length_replicate, Nat.mul_one] at this
  exact this

theorem works_newForDomainT (d : Domain F) (w : Worker) : (newForDomainT d w).Works (tableOps w d.size) := by
  have h : (newForDomainT d w).Works (1 + ((startOps w d.size + d.size) + ((startOps w (d.size / 2) + d.size / 2) + (d.size + 0)))) := by
    refine Works.bind (works_inverseUnwrapT _) fun _ _ => ?_
    refine Works.bind (works_powersTable _ _ _) fun om hom => ?_
    refine Works.bind (works_powersTable _ _ _) fun _ _ => ?_
    refine Works.bind ?_ fun _ _ => works_pure _
    rw [res_parChunksT w _ (res_powersTask _)] at hom
    cases hom
    have hl : (parChunks w (List.replicate d.size (0 : F)) (fun ch i v => powersRunning d.generator (d.generator ^ (i * ch)) v.length)).length = d.size := by
      rw [parChunks_length w _ _ (fun _ _ _ => powersRunning_length _ _ _), List.length_replicate]
    have := works_parChunksT w (parChunks w (List.replicate d.size (0 : F)) (fun ch i v => powersRunning d.generator (d.generator ^ (i * ch)) v.length))
      (s := fun _ => 0) (d := 1) (f := fun _ _ v => mapOpT (fun x => x * StarkField.mulGen) v) (fun i v => by
        rw [Nat.zero_add, Nat.mul_one]; exact works_mapOpT _ _)
    rw [hl] at this
    simpa using this
  exact h.to (by unfold tableOps; omega)

/-! ## Inverting all values -/

section
open Poly

theorem res_prefixProdsT (s : F) (l : List F) : (prefixProdsT s l).res = .ok (prefixProds s l) := by
  induction l generalizing s with
  | nil => rfl
  | cons a l ih => simp only [prefixProdsT, prefixProds, res_bind, res_op, Res.ok_bind, ih, res_pure]

theorem works_prefixProdsT (s : F) (l : List F) : (prefixProdsT s l).Works l.length := by
  induction l generalizing s with
  | nil => exact works_pure _
  | cons a l ih => exact works_op_bind (Works.bind (d := 0) (ih _) fun _ _ => works_pure _)

theorem prefixProds_length (s : F) (l : List F) : (prefixProds s l).1.length = l.length := by
  induction l generalizing s with
  | nil => rfl
  | cons a l ih => simp [prefixProds, ih]

theorem res_invBackT (s : F) (as gs : List F) : (invBackT s as gs).res = .ok (invBack s as gs) := by
  induction as generalizing s gs with
  | nil => cases gs <;> rfl
  | cons a as ih =>
    cases gs with
    | nil => rfl
    | cons g gs => simp only [invBackT, invBack, res_bind, res_op, Res.ok_bind, ih, res_pure]

theorem works_invBackT (s : F) (as gs : List F) (h : as.length = gs.length) : (invBackT s as gs).Works (as.length * 2) := by
  induction as generalizing s gs with
  | nil => cases gs <;> exact works_pure _
  | cons a as ih =>
    cases gs with
    | nil => simp at h
    | cons g gs =>
      have : (invBackT s (a :: as) (g :: gs)).Works (as.length * 2 + 1 + 1) := by
        refine works_op_bind ?_
        refine works_op_bind ?_
        exact Works.bind (d := 0) (ih (s * a) gs (by simpa using h)) fun r _ => works_pure (g * s :: r)
      exact this.to (by simp; ring)

theorem res_prodT (s : F) (l : List F) : (prodT s l).res = .ok (l.foldl (fun r v => r * v) s) := by
  induction l generalizing s with
  | nil => rfl
  | cons a l ih => simp only [prodT, res_bind, res_op, Res.ok_bind, ih, List.foldl_cons]

theorem works_prodT (s : F) (l : List F) : (prodT s l).Works l.length := by
  induction l generalizing s with
  | nil => exact works_pure _
  | cons a l ih => exact works_op_bind (ih _)

theorem res_subInverseT (x : F) (l : List F) (i : ℕ) : (subInverseT x l i).res = .ok (subInverse x l i) := by
  unfold subInverseT subInverse
  generalize List.range l.length = js
  induction js generalizing x with
  | nil => rfl
  | cons j js ih =>
    simp only [Tick.forEach, List.foldl_cons, res_bind, subInverseStepT]
    by_cases e : i = j
    · simp only [e, if_true, res_pure, Res.ok_bind]
      rw [← e]
      exact ih x
    · simp only [e, if_false]
      cases l[j]? <;> exact ih _

theorem works_subInverseT (x : F) (l : List F) (i : ℕ) (hi : i < l.length) : (subInverseT x l i).Works (l.length - 1) := by
  unfold subInverseT
  have h : ∀ (js : List ℕ) (x : F), (∀ j ∈ js, j < l.length) → js.Nodup →
      (Tick.forEach js x (subInverseStepT l i)).Works (js.length - if i ∈ js then 1 else 0) := by
    intro js
    induction js with
    | nil => intro x _ _; exact works_pure _
    | cons j js ih =>
      intro x hj hn
      rw [List.nodup_cons] at hn
      have ih' := fun x => ih x (fun j h => hj j (by simp [h])) hn.2
      simp only [Tick.forEach]
      by_cases e : i = j
      · subst e
        have hni : i ∉ js := hn.1
        have h1 : subInverseStepT l i i x = pure x := by simp [subInverseStepT]
        rw [h1]
        refine (Works.bind (works_pure x) fun y _ => ih' y).to ?_
        simp [hni]
      · obtain ⟨v, hv⟩ : ∃ v, l[j]? = some v := ⟨l[j]'(hj j (by simp)), by simp [hj j (by simp)]⟩
        have h1 : subInverseStepT l i j x = Tick.op 1 (x * v) := by simp only [subInverseStepT, e, if_false, hv]
        rw [h1]
        refine (Works.bind (works_op 1 _) fun y _ => ih' y).to ?_
        simp only [List.mem_cons, e, false_or, List.length_cons]
        split
        · rename_i hm
          have := List.length_pos_of_mem hm
          omega
        · omega
  have := h (List.range l.length) x (fun j hj => List.mem_range.1 hj) List.nodup_range
  refine this.to ?_
  simp [hi]

theorem res_invTaskT (a : List F) (o1 : Option (List F × F)) (o2 : Option F) :
    (invTaskT a o1 o2).res = .ok (match o1, o2 with
      | some (g, _), some s => (invBack s a.reverse (g.reverse.drop 1 ++ [1])).reverse
      | _, _ => a) := by
  cases o1 with
  | none => rfl
  | some g =>
    cases o2 with
    | none => rfl
    | some s => simp only [invTaskT, res_bind, res_invBackT, Res.ok_bind, res_pure]

theorem res_batchInversionT (w : Worker) (p : Poly F .values) : (batchInversionT w p).res = p.batchInversion w := by
  unfold batchInversionT Poly.batchInversion
  have h1 : ∀ (i : ℕ) (a : List F), (if i < w.numSpawnedThreads p.coeffs.length then prefixProdsT 1 a else pure (List.replicate a.length 1, 1) : Tick (List F × F)).res =
      .ok (if i < w.numSpawnedThreads p.coeffs.length then prefixProds 1 a else (List.replicate a.length 1, 1)) := by
    intro i a
    split
    · exact res_prefixProdsT _ _
    · rfl
  simp only [res_bind, res_mapIdxT h1, Res.ok_bind, res_prodT, res_op, res_lift]
  congr 1
  funext x
  rw [res_collectN (g := fun i => .ok (subInverse x _ i)) (fun i _ => res_subInverseT _ _ _), collectN_eq _ _ _ (fun _ _ => rfl), Res.ok_bind]
  rw [res_mapIdxT (fun i a => res_invTaskT a _ _)]
  rfl

theorem works_batchInversionT (w : Worker) (p : Poly F .values) : (batchInversionT w p).Works (invertAllOps w p.coeffs.length) := by
  generalize ht : w.numSpawnedThreads p.coeffs.length = t
  generalize hn : p.coeffs.length = n
  have hc := w.chunkSize_pos n
  have hlen : (chunks (w.chunkSize n) p.coeffs).length = t := by rw [length_chunks, ← ht, numSpawnedThreads_eq, hn]
  have key : ∀ d, ((chunks (w.chunkSize n) p.coeffs).mapIdx (fun _ v => 0 + v.length * d)).sum = n * d := by
    intro d
    rw [sum_mapIdx_chunks hc p.coeffs (fun _ => 0) d, hn]
    simp
  have h : (batchInversionT w p).Works (n * 1 + (t + (1 + (0 + ((∑ i ∈ Finset.range t, (t - 1)) + (n * 2 + 0)))))) := by
    unfold batchInversionT
    dsimp only
    rw [ht, hn]
    have h1 : ∀ (i : ℕ) (a : List F), (if i < t then prefixProdsT 1 a else pure (List.replicate a.length 1, 1) : Tick (List F × F)).res =
        .ok (if i < t then prefixProds 1 a else (List.replicate a.length 1, 1)) := by
      intro i a
      split
      · exact res_prefixProdsT _ _
      · rfl
    refine Works.bind ?_ fun ph hph => ?_
    · refine (works_mapIdxT (c := fun _ v => 0 + v.length * 1) fun i v hv => ?_).to (key 1)
      have hi : i < t := by
        rw [← hlen]
        exact (List.getElem?_eq_some_iff.1 hv).1
      rw [if_pos hi, Nat.zero_add, Nat.mul_one]
      exact works_prefixProdsT _ _
    · rw [res_mapIdxT h1] at hph
      cases hph
      refine Works.bind ((works_prodT _ _).to (length_tab _ _)) fun _ _ => ?_
      refine Works.bind (works_op 1 _) fun _ _ => ?_
      refine Works.bind (works_lift _) fun x _ => ?_
      refine Works.bind (works_collectN fun i hi => (works_subInverseT _ _ _ (by rw [length_tab]; exact hi)).to (by rw [length_tab])) fun sub hsub => ?_
      refine Works.bind ?_ fun _ _ => works_pure _
      rw [res_collectN (g := fun i => .ok (subInverse x _ i)) (fun i _ => res_subInverseT _ _ _), collectN_eq _ _ _ (fun _ _ => rfl)] at hsub
      cases hsub
      refine (works_mapIdxT (c := fun _ v => 0 + v.length * 2) fun i v hv => ?_).to (key 2)
      have hi : i < t := by
        rw [← hlen]
        exact (List.getElem?_eq_some_iff.1 hv).1
      have e1 : ((chunks (w.chunkSize n) p.coeffs).mapIdx (fun i a => if i < t then prefixProds 1 a else (List.replicate a.length 1, 1)))[i]? = some (prefixProds 1 v) := by
        rw [List.getElem?_mapIdx, hv]
        simp [hi]
      rw [e1]
      have e2 : ∀ g : ℕ → F, (tab t g)[i]? = some (g i) := by
        intro g
        simp [tab, hi]
      rw [e2]
      refine (Works.bind (d := 0) (works_invBackT _ _ _ ?_) fun _ _ => works_pure _).to (by simp)
      rw [List.length_reverse, List.length_append, List.length_drop, List.length_reverse, prefixProds_length, List.length_singleton]
      have : 0 < v.length := by
        have hi2 : i < numChunks n (w.chunkSize n) := by rw [← numSpawnedThreads_eq, ← hn, ht]; exact hi
        have e3 : v = (p.coeffs.drop (i * w.chunkSize n)).take (w.chunkSize n) := by
          have := hv
          unfold chunks at this
          rw [hn] at this
          simp only [tab, List.getElem?_map, List.getElem?_range, hi2, Option.map_some, Option.some.injEq] at this
          exact this.symm
        rw [e3, List.length_take, List.length_drop, hn]
        have h4 : i * w.chunkSize n < n := by
          unfold numChunks at hi2
          have h5 := (Nat.le_div_iff_mul_le hc).1 (Nat.succ_le_of_lt hi2)
          rw [Nat.succ_mul] at h5
          omega
        omega
      omega
  refine h.to ?_
  rw [Finset.sum_const, Finset.card_range, smul_eq_mul]
  unfold invertAllOps
  rw [← hn, ht]
  cases t with
  | zero => simp; ring
  | succ t => simp; ring

end

/-! ## Divisors -/

theorem res_vanishingRunningT (T : ℕ) (g x : F) (n : ℕ) : (vanishingRunningT T g x n).res = .ok (vanishingRunning T g x n) := by
  induction n generalizing x with
  | zero => rfl
  | succ n ih => simp only [vanishingRunningT, vanishingRunning, res_bind, res_op, res_powT, Res.ok_bind, ih, res_pure]

theorem works_vanishingRunningT (T : ℕ) (g x : F) (n : ℕ) : (vanishingRunningT T g x n).Works (n * (powExact T + 2)) := by
  induction n generalizing x with
  | zero => exact (works_pure _).to (by simp)
  | succ n ih =>
    have : (vanishingRunningT T g x (n + 1)).Works (powExact T + ((n * (powExact T + 2) + 0 + 1) + 1)) := by
      refine Works.bind (works_powT _ _) fun _ _ => ?_
      refine works_op_bind (works_op_bind ?_)
      exact Works.bind (d := 0) (ih _) fun _ _ => works_pure _
    exact this.to (by ring)

theorem res_mulRootsT (x d : F) (roots : List F) : (mulRootsT x d roots).res = .ok (roots.foldl (fun d r => d * (x - r)) d) := by
  induction roots generalizing d with
  | nil => rfl
  | cons r roots ih => simp only [mulRootsT, res_bind, res_op, Res.ok_bind, ih, List.foldl_cons]

theorem works_mulRootsT (x d : F) (roots : List F) : (mulRootsT x d roots).Works (2 * roots.length) := by
  induction roots generalizing d with
  | nil => exact works_pure _
  | cons r roots ih => exact works_op_bind (works_op_bind (ih _))

theorem res_mulRootsRunningT (roots : List F) (g x : F) (l : List F) : (mulRootsRunningT roots g x l).res = .ok (mulRootsRunning roots g x l) := by
  induction l generalizing x with
  | nil => rfl
  | cons v l ih => simp only [mulRootsRunningT, mulRootsRunning, res_bind, res_op, res_mulRootsT, Res.ok_bind, ih, res_pure]

theorem works_mulRootsRunningT (roots : List F) (g x : F) (l : List F) : (mulRootsRunningT roots g x l).Works (l.length * (2 * roots.length + 1)) := by
  induction l generalizing x with
  | nil => exact (works_pure _).to (by simp)
  | cons v l ih =>
    have : (mulRootsRunningT roots g x (v :: l)).Works (2 * roots.length + (l.length * (2 * roots.length + 1) + 0 + 1)) := by
      refine Works.bind (works_mulRootsT _ _ _) fun _ _ => ?_
      refine works_op_bind ?_
      exact Works.bind (d := 0) (ih _) fun _ _ => works_pure _
    exact this.to (by rw [List.length_cons]; ring)

theorem res_excludedRootsT (cd : Domain F) (d : DenseConstraint) (rows : ℕ) : (excludedRootsT cd d rows).res = excludedRoots cd d rows := by
  simp only [excludedRootsT, excludedRoots, res_bind, res_powersRunningT, Res.ok_bind, res_lift, res_powT, res_pure, Res.pure_def]

theorem works_excludedRootsT (cd : Domain F) (d : DenseConstraint) (rows : ℕ) :
    (excludedRootsT cd d rows).Works (excludedRows cd.size rows (.dense d) + powExact (rows - d.span)) := by
  have : (excludedRootsT cd d rows).Works (d.startAt + (0 + (powExact (rows - d.span) + ((cd.size - (rows - d.span)) + 0)))) := by
    refine Works.bind (works_powersRunningT _ _ _) fun _ _ => ?_
    refine Works.bind (works_lift _) fun _ _ => ?_
    refine Works.bind (works_powT _ _) fun _ _ => ?_
    exact Works.bind (works_powersRunningT _ _ _) fun _ _ => works_pure _
  exact this.to (by simp only [excludedRows]; omega)

theorem excludedRoots_length {cd : Domain F} {d : DenseConstraint} {rows : ℕ} {l : List F} (h : excludedRoots cd d rows = .ok l) :
    l.length = excludedRows cd.size rows (.dense d) := by
  unfold excludedRoots at h
  obtain ⟨_, _, h⟩ := Res.bind_eq_ok.1 h
  cases h
  rw [List.length_append, powersRunning_length, powersRunning_length]
  rfl

theorem Spec.startOps.add (w : Worker) (n : ℕ) :
    ∑ i ∈ Finset.range (w.numSpawnedThreads n), (powExact (i * w.chunkSize n) + 1) = startOps w n + w.numSpawnedThreads n := by
  rw [Finset.sum_add_distrib]
  simp [startOps]

theorem vanishingRunning_length (T : ℕ) (g x : F) (n : ℕ) : (vanishingRunning T g x n).length = n := by
  induction n generalizing x with
  | zero => rfl
  | succ n ih => simp [vanishingRunning, ih]

theorem ofVec_length {P : Form} {l : List F} {p : Poly F P} (h : Poly.ofVec l = .ok p) : p.coeffs.length = 2 ^ Nat.clog 2 l.length := by
  unfold Poly.ofVec at h
  obtain ⟨d, hd, h⟩ := Res.bind_eq_ok.1 h
  obtain ⟨_, _, h⟩ := Res.bind_eq_ok.1 h
  obtain ⟨_, _, h⟩ := Res.bind_eq_ok.1 h
  obtain ⟨_, _, h⟩ := Res.bind_eq_ok.1 h
  cases h
  have e : d.size = 2 ^ Nat.clog 2 l.length := domain_size hd
  have : l.length ≤ d.size := by rw [e]; exact Nat.le_pow_clog (by norm_num) _
  simp only [resize]
  rw [← e]
  simp
  omega

theorem batchInversion_length {w : Worker} {p q : Poly F .values} (h : p.batchInversion w = .ok q) : q.coeffs.length = p.coeffs.length := by
  have hp : p.coeffs = tab p.coeffs.length (fun i => p.coeffs[i]?.getD 0) := by
    apply List.ext_getElem?
    intro i
    by_cases hi : i < p.coeffs.length
    · simp [tab, hi]
    · simp [tab, hi]
  rw [batchInversion_tab w p _ _ hp] at h
  split at h
  · cases h
  · cases h; exact length_tab _ _

theorem res_inverseDivisorInCosetT (cd ed : Domain F) (d : DenseConstraint) (rows : ℕ) (w : Worker) :
    (inverseDivisorInCosetT cd ed d rows w).res = inverseDivisorInCoset cd ed d rows w := by
  simp only [inverseDivisorInCosetT, inverseDivisorInCoset, Poly.newForSizeValues, Poly.fromValues, res_bind, res_lift, res_excludedRootsT, res_ofVecT]
  congr 1; funext _
  congr 1; funext roots
  congr 1; funext p
  rw [res_parChunksT w p.coeffs (g := fun ch i v => vanishingRunning cd.size ed.generator (ed.generator ^ (i * ch) * StarkField.mulGen) v.length)
    (fun c i v => by simp only [res_bind, res_powT, res_op, Res.ok_bind, res_vanishingRunningT]), Res.ok_bind, res_batchInversionT]
  congr 1; funext q
  rw [res_parChunksT w q.coeffs (g := fun ch i v => mulRootsRunning roots ed.generator (ed.generator ^ (i * ch) * StarkField.mulGen) v)
    (fun c i v => by simp only [res_bind, res_powT, res_op, Res.ok_bind, res_mulRootsRunningT]), Res.ok_bind]
  rfl

theorem works_inverseDivisorInCosetT (k K : ℕ) (d : DenseConstraint) (rows : ℕ) (w : Worker) :
    (inverseDivisorInCosetT (domOf F k) (domOf F K) d rows w).Works (densityOps (StarkField.S F) w k (2 ^ K) rows (.dense d)) := by
  have hN : (2 : ℕ) ^ Nat.clog 2 (2 ^ K) = 2 ^ K := by rw [Nat.clog_pow _ _ (by norm_num)]
  have : (inverseDivisorInCosetT (domOf F k) (domOf F K) d rows w).Works
      (0 + ((excludedRows (2 ^ k) rows (.dense d) + powExact (rows - d.span)) + (polyOps (StarkField.S F) (2 ^ K) +
        ((startOps w (2 ^ K) + w.numSpawnedThreads (2 ^ K) + 2 ^ K * (k + 3)) + (invertAllOps w (2 ^ K) +
          ((startOps w (2 ^ K) + w.numSpawnedThreads (2 ^ K) + 2 ^ K * (2 * excludedRows (2 ^ k) rows (.dense d) + 1)) + 0)))))) := by
    refine Works.bind (works_lift _) fun _ _ => ?_
    refine Works.bind (works_excludedRootsT _ _ _) fun roots hroots => ?_
    refine Works.bind ((works_ofVecT _).to (by rw [List.length_replicate]; rfl)) fun p hp => ?_
    rw [res_excludedRootsT] at hroots
    rw [res_ofVecT] at hp
    have hpl : p.coeffs.length = 2 ^ K := by
      rw [ofVec_length hp, List.length_replicate]
      exact hN
    have hrl := excludedRoots_length hroots
    refine Works.bind ?_ fun v hv => ?_
    · have := works_parChunksT w p.coeffs (s := fun i => powExact (i * w.chunkSize (2 ^ K)) + 1) (d := k + 3) (f := fun ch i v => do
        let x ← powT (domOf F K).generator (i * ch)
        let x ← Tick.op 1 (x * StarkField.mulGen)
        vanishingRunningT (domOf F k).size (domOf F K).generator x v.length) (fun i v => by
          rw [hpl]
          refine (Works.bind (works_powT _ _) fun _ _ => works_op_bind (works_vanishingRunningT _ _ _ _)).to ?_
          rw [show powExact (domOf F k).size = k + 1 from powExact_pow k]
          ring)
      rw [hpl, Spec.startOps.add] at this
      exact this
    · rw [res_parChunksT w p.coeffs (g := fun ch i v => vanishingRunning (domOf F k).size (domOf F K).generator ((domOf F K).generator ^ (i * ch) * StarkField.mulGen) v.length)
        (fun c i v => by simp only [res_bind, res_powT, res_op, Res.ok_bind, res_vanishingRunningT])] at hv
      cases hv
      have hl := parChunks_length w p.coeffs (fun ch i v => vanishingRunning (domOf F k).size (domOf F K).generator ((domOf F K).generator ^ (i * ch) * StarkField.mulGen) v.length)
        (fun _ _ _ => vanishingRunning_length _ _ _ _)
      rw [hpl] at hl
      refine Works.bind ((works_batchInversionT w _).to (by dsimp only; rw [hl])) fun q hq => ?_
      refine Works.bind ?_ fun _ _ => works_pure _
      rw [res_batchInversionT] at hq
      have hql := batchInversion_length hq
      dsimp only at hql
      rw [hl] at hql
      have := works_parChunksT w q.coeffs (s := fun i => powExact (i * w.chunkSize (2 ^ K)) + 1) (d := 2 * excludedRows (2 ^ k) rows (.dense d) + 1) (f := fun ch i v => do
        let x ← powT (domOf F K).generator (i * ch)
        let x ← Tick.op 1 (x * StarkField.mulGen)
        mulRootsRunningT roots (domOf F K).generator x v) (fun i v => by
          rw [hql]
          refine (Works.bind (works_powT _ _) fun _ _ => works_op_bind (works_mulRootsRunningT _ _ _ _)).to ?_
          rw [hrl]
          show _ + (_ * (2 * excludedRows (2 ^ k) rows (.dense d) + 1) + 1) = _
          ring)
      rw [hql, Spec.startOps.add] at this
      exact this
  exact this.to (by simp only [densityOps, lastRow]; ring)

/-! ## Boundary rows -/

theorem res_linearPolyT (root : F) : (linearPolyT root).res = linearPoly root := by
  simp only [linearPolyT, linearPoly, Poly.newForSizeCoeffs, Poly.fromCoeffs, res_bind, res_lift, res_ofVecT, res_op, Res.ok_bind, res_pure, Res.pure_def]

theorem works_linearPolyT (root : F) : (linearPolyT root).Works (polyOps (StarkField.S F) 2 + 1) := by
  refine Works.bind ((works_ofVecT _).to (by rw [List.length_replicate])) fun _ _ => ?_
  refine works_lift_bind fun _ _ => works_lift_bind fun _ _ => ?_
  exact works_op_bind (works_lift_bind fun _ _ => works_pure _)

theorem res_affineRunningT (alpha c g u : F) (n : ℕ) : (affineRunningT alpha c g u n).res = .ok (Poly.affineRunning alpha c g u n) := by
  induction n generalizing u with
  | zero => rfl
  | succ n ih => simp only [affineRunningT, Poly.affineRunning, res_bind, res_op, Res.ok_bind, ih, res_pure]

theorem works_affineRunningT (alpha c g u : F) (n : ℕ) : (affineRunningT alpha c g u n).Works (n * 3) := by
  induction n generalizing u with
  | zero => exact works_pure _
  | succ n ih =>
    have : (affineRunningT alpha c g u (n + 1)).Works (n * 3 + 0 + 1 + 1 + 1) := by
      refine works_op_bind (works_op_bind (works_op_bind ?_))
      exact Works.bind (d := 0) (ih _) fun _ _ => works_pure _
    exact this.to (by ring)

theorem affineRunning_length (alpha c g u : F) (n : ℕ) : (Poly.affineRunning alpha c g u n).length = n := by
  induction n generalizing u with
  | zero => rfl
  | succ n ih => simp [Poly.affineRunning, ih]

theorem res_affineTask (alpha c g : F) (ch i : ℕ) (v : List F) :
    (do let u ← powT g (i * ch)
        let u ← Tick.op 1 (u * StarkField.mulGen)
        affineRunningT alpha c g u v.length : Tick (List F)).res = .ok (Poly.affineRunning alpha c g (g ^ (i * ch) * StarkField.mulGen) v.length) := by
  simp only [res_bind, res_powT, res_op, Res.ok_bind, res_affineRunningT]

theorem res_cosetEvaluateT (w : Worker) (p : Poly F .coefficients) (n : ℕ) : (cosetEvaluateT w p n).res = p.cosetEvaluateAtDomainForDegreeOne w n := by
  simp only [cosetEvaluateT, Poly.cosetEvaluateAtDomainForDegreeOne, Poly.fromValues, res_bind, res_lift, res_newForSizeT, res_ofVecT,
    res_parChunksT w _ (res_affineTask _ _ _), Res.ok_bind]

theorem works_cosetEvaluateT (w : Worker) (p : Poly F .coefficients) (K : ℕ) :
    (cosetEvaluateT w p (2 ^ K)).Works (domainOps (StarkField.S F) (2 ^ K) + (startOps w (2 ^ K) + w.numSpawnedThreads (2 ^ K) + 3 * 2 ^ K) + polyOps (StarkField.S F) (2 ^ K)) := by
  rw [Nat.add_assoc]
  refine works_lift_bind fun _ _ => works_lift_bind fun alpha _ => works_lift_bind fun c _ => ?_
  refine Works.bind (works_newForSizeT _) fun d hd => ?_
  rw [res_newForSizeT] at hd
  have e : d.size = 2 ^ K := by rw [domain_size hd, nextPow2_pow]
  refine Works.bind ?_ fun v hv => ?_
  · have := works_parChunksT w (List.replicate d.size (0 : F)) (s := fun i => powExact (i * w.chunkSize (2 ^ K)) + 1) (d := 3) (f := fun ch i v => do
      let u ← powT d.generator (i * ch)
      let u ← Tick.op 1 (u * StarkField.mulGen)
      affineRunningT alpha c d.generator u v.length) (fun i v => by
        rw [List.length_replicate, e]
        refine (Works.bind (works_powT _ _) fun _ _ => works_op_bind (works_affineRunningT _ _ _ _ _)).to ?_
        ring)
    rw [List.length_replicate, e, Spec.startOps.add, Nat.mul_comm (2 ^ K) 3] at this
    rw [e]
    exact this
  · rw [res_parChunksT w _ (res_affineTask _ _ _)] at hv
    cases hv
    refine (works_ofVecT _).to ?_
    rw [parChunks_length w _ _ (fun _ _ _ => affineRunning_length _ _ _ _ _), List.length_replicate, e]

theorem res_boundaryDivisorT (cd ed : Domain F) (row : ℕ) (w : Worker) : (boundaryDivisorT cd ed row w).res = boundaryDivisor cd ed row w := by
  simp only [boundaryDivisorT, boundaryDivisor, res_bind, res_powT, Res.ok_bind, res_linearPolyT, res_cosetEvaluateT, res_batchInversionT]

theorem works_boundaryDivisorT (cd : Domain F) (K row : ℕ) (w : Worker) :
    (boundaryDivisorT cd (domOf F K) row w).Works (boundaryOps (StarkField.S F) w (2 ^ K) row) := by
  unfold boundaryOps
  rw [Nat.add_assoc, Nat.add_assoc]
  refine Works.bind (works_powT _ _) fun _ _ => ?_
  refine Works.bind (works_linearPolyT _) fun q hq => ?_
  refine Works.bind (works_cosetEvaluateT w q K) fun v hv => ?_
  refine (works_batchInversionT w v).to ?_
  congr 1
  rw [res_cosetEvaluateT] at hv
  unfold Poly.cosetEvaluateAtDomainForDegreeOne at hv
  obtain ⟨_, _, hv⟩ := Res.bind_eq_ok.1 hv
  obtain ⟨_, _, hv⟩ := Res.bind_eq_ok.1 hv
  obtain ⟨_, _, hv⟩ := Res.bind_eq_ok.1 hv
  obtain ⟨d, hd, hv⟩ := Res.bind_eq_ok.1 hv
  have e : d.size = 2 ^ K := by rw [domain_size hd]; exact nextPow2_pow K
  rw [ofVec_length hv, parChunks_length w _ _ (fun _ _ _ => affineRunning_length _ _ _ _ _), List.length_replicate, e, Nat.clog_pow _ _ (by norm_num)]

end Hodor

import Verif.Lemmas.ProverOps
import Verif.Spec.ProverOps
import Verif.Lemmas.ProverTotal

/-!
# The prover with its field operations counted: operations on polynomials
-/

set_option linter.unusedSectionVars false

namespace Hodor

open Spec Tick

theorem rd_inv {α : Type} {l : List α} {i : ℕ} {v : α} (h : rd l i = .ok v) : l[i]? = some v := by
  unfold rd at h
  cases e : l[i]? with
  | none => rw [e] at h; cases h
  | some x => rw [e] at h; cases h; rfl

theorem works_unwrapT {α : Type} {x : Tick α} {c : ℕ} (h : x.Works c) : (unwrapT x).Works c := by
  intro a ha
  rw [res_unwrapT] at ha
  have : ∃ b, x.res = .ok b := by
    cases hx : x.res with
    | ok b => exact ⟨b, rfl⟩
    | err e => rw [hx] at ha; cases ha
    | panic => rw [hx] at ha; cases ha
  obtain ⟨b, hb⟩ := this
  exact h b hb

theorem works_zipUpdateT {α β : Type} (f : α → β → α) (a : List α) (b : List β) (h : a.length = b.length) :
    (Tick.zipUpdate (fun x y => Tick.op 1 (f x y)) a b).Works a.length := by
  induction a generalizing b with
  | nil => cases b <;> exact works_pure _
  | cons x a ih =>
    cases b with
    | nil => simp at h
    | cons y b => exact works_op_bind (Works.bind (d := 0) (ih b (by simpa using h)) fun _ _ => works_pure _)

theorem getElem?_chunks {α : Type} (c : ℕ) (l : List α) (i : ℕ) : (chunks c l)[i]? = if i < numChunks l.length c then some ((l.drop (i * c)).take c) else none := by
  unfold chunks
  rw [getElem?_tab]

theorem works_parChunksZipT {α β : Type} (w : Worker) (n : ℕ) (a : List α) (b : List β) {f : List α → List β → Tick (List α)}
    (h : ∀ u v, u.length = v.length → (f u v).Works u.length) (hab : a.length = b.length) : (parChunksZipT w n a b f).Works a.length := by
  have e := sum_mapIdx_chunks (w.chunkSize_pos n) a (fun _ => 0) 1
  simp only [Finset.sum_const_zero, Nat.zero_add, Nat.mul_one] at e
  rw [← e]
  refine Works.bind (d := 0) (works_mapIdxT fun i v hv => ?_) fun _ _ => works_pure _
  rw [getElem?_chunks] at hv ⊢
  rw [← hab]
  split at hv
  · rename_i hi
    rw [if_pos hi]
    obtain rfl := Option.some.inj hv
    exact h _ _ (by simp [hab])
  · cases hv

variable {F : Type} [Field F] [DecidableEq F] [StarkField F]

theorem works_mulRunningT (u g : F) (l : List F) : (mulRunningT u g l).Works (l.length * 2) := by
  induction l generalizing u with
  | nil => exact works_pure _
  | cons x l ih =>
    have : (mulRunningT u g (x :: l)).Works (l.length * 2 + 1 + 1) :=
      works_op_bind (works_op_bind (Works.bind (d := 0) (ih _) fun _ _ => works_pure _))
    exact this.to (by simp; ring)

theorem works_distributePowersT (w : Worker) (a : List F) (g : F) : (distributePowersT w a g).Works (distributeOps w a.length) := by
  have := works_parChunksT w a (s := fun i => powExact (i * w.chunkSize a.length)) (d := 2) (f := fun c i v => do
    let u ← powT g (i * c)
    mulRunningT u g v) (fun i v => Works.bind (works_powT _ _) fun _ _ => works_mulRunningT _ _ _)
  refine Works.to this ?_
  unfold distributeOps startOps
  ring

theorem works_mapPolyT {P : Form} (w : Worker) (p : Poly F P) (f : F → F) : (mapPolyT w p f).Works p.coeffs.length := by
  have := works_parChunksT w p.coeffs (s := fun _ => 0) (d := 1) (f := fun _ _ v => mapOpT f v) (fun i v => (works_mapOpT f v).to (by simp))
  unfold mapPolyT
  refine Works.to (Works.bind (d := 0) this fun _ _ => works_pure _) ?_
  simp

theorem works_powPolyT (w : Worker) (p : Poly F .values) (e : ℕ) : (powPolyT w p e).Works (powAllOps p.coeffs.length e) := by
  unfold powPolyT powAllOps
  split
  · exact works_mapPolyT w p _
  · have := works_parChunksT w p.coeffs (s := fun _ => 0) (d := powExact e) (f := fun _ _ v => Tick.map (fun x => powT x e) v) (fun i v =>
      (works_map (c := fun _ => powExact e) fun x _ => works_powT x e).to (by simp))
    refine Works.to (Works.bind (d := 0) this fun _ _ => works_pure _) ?_
    simp

theorem works_zipPolyT (w : Worker) (p q : Poly F .values) (f : F → F → F) : (zipPolyT w p q f).Works p.coeffs.length := by
  unfold zipPolyT
  refine works_lift_bind fun _ h => ?_
  have h := Res.assert_eq_ok.1 h
  exact Works.bind (d := 0) (works_parChunksZipT w _ _ _ (fun u v e => works_zipUpdateT f u v e) (by simpa using h)) fun _ _ => works_pure _

theorem works_bestFftT (w : Worker) (a : List F) (ω : F) (logN : ℕ) (hint : Option ℕ) : (bestFftT w a ω logN hint).Works
    (if Nat.log 2 (hint.getD w.cpus) = 0 ∨ logN ≤ Nat.log 2 (hint.getD w.cpus) then serialFftOps logN else parallelFftOps logN (Nat.log 2 (hint.getD w.cpus))) := by
  intro b hb
  rw [res_bestFftT] at hb
  exact (C81_best w a ω logN hint b hb).2

theorem works_bestFftT_one (w : Worker) (a : List F) (ω : F) (logN : ℕ) : (bestFftT w a ω logN (some 1)).Works (serialFftOps logN) :=
  (works_bestFftT w a ω logN (some 1)).to (by simp)

theorem works_fftPolyT (w : Worker) (p : Poly F .coefficients) : (fftPolyT w p).Works (fftOps w p.exp) :=
  Works.bind (d := 0) (works_bestFftT w _ _ _ none) fun _ _ => works_pure _

theorem works_ifftPolyT (w : Worker) (p : Poly F .values) : (ifftPolyT w p).Works (fftOps w p.exp + p.coeffs.length) := by
  refine Works.bind (works_bestFftT w _ _ _ none) fun c hc => ?_
  rw [res_bestFftT] at hc
  have := works_parChunksT w c (s := fun _ => 0) (d := 1) (f := fun _ _ v => mapOpT (fun x => x * p.minv) v) (fun i v => (works_mapOpT _ v).to (by simp))
  refine Works.to (Works.bind (d := 0) this fun _ _ => works_pure _) ?_
  simp [bestFft_length hc]

theorem works_icosetFftPolyT (w : Worker) (p : Poly F .values) : (icosetFftPolyT w p).Works (fftOps w p.exp + p.coeffs.length + distributeOps w p.coeffs.length) := by
  refine Works.bind (works_ifftPolyT w p) fun c hc => ?_
  rw [res_ifftPolyT] at hc
  have e : c.coeffs.length = p.coeffs.length := by
    unfold Poly.ifft at hc
    obtain ⟨r, h1, hc⟩ := Res.bind_eq_ok.1 hc
    cases hc
    exact (parMap_length _ _ _).trans (bestFft_length h1)
  rw [← e]
  exact Works.bind (d := 0) (works_distributePowersT _ _ _) fun _ _ => works_pure _

theorem works_cosetFftPolyT (w : Worker) (p : Poly F .coefficients) : (cosetFftPolyT w p).Works (distributeOps w p.coeffs.length + fftOps w p.exp) :=
  Works.bind (works_distributePowersT _ _ _) fun _ _ => works_fftPolyT _ _

theorem works_ldeChunkT (w : Worker) (p : Poly F .coefficients) (c s : F) (len : ℕ) :
    (ldeChunkT w p (some 1) c s len).Works (len * (distributeOps w p.coeffs.length + serialFftOps p.exp + 1)) := by
  refine Works.bind (c := len * (distributeOps w p.coeffs.length + serialFftOps p.exp + 1)) (d := 0) (works_forN_const fun i x => ?_) fun _ _ => works_pure _
  exact Works.to (Works.bind (works_distributePowersT _ _ _) fun _ _ => Works.bind (works_bestFftT_one _ _ _ _) fun _ _ => works_op_bind (works_pure _)) (by ring)

theorem works_multiCosetLdeT (w : Worker) {p : Poly F .coefficients} {k e : ℕ} (hl : p.coeffs.length = 2 ^ k) (he : p.exp = k) {shift : F → Tick F} {c : ℕ}
    (hs : ∀ x, (shift x).Works c) : (multiCosetLdeT w p (2 ^ e) shift).Works (cosetsOps (StarkField.S F) w k e c) := by
  unfold multiCosetLdeT
  have hn : p.coeffs.length * 2 ^ e = 2 ^ (k + e) := by rw [hl, pow_add]
  simp only [ldeHint_eq w (Nat.one_le_two_pow : 1 ≤ 2 ^ e), hn]
  refine works_lift_bind fun _ _ => ?_
  refine Works.to (Works.bind (works_newForSizeT _) fun d _ => Works.bind (works_collectN fun i _ =>
    Works.bind (works_powT _ _) fun _ _ => Works.bind (hs _) fun _ _ => works_ldeChunkT _ _ _ _ _) fun r _ =>
    works_lift_bind (d := polyOps (StarkField.S F) (2 ^ (k + e))) fun v hv => (works_ofVecT _).to (by rw [interleave_length hv])) ?_
  unfold cosetsOps
  rw [numSpawnedThreads_eq, Finset.sum_congr rfl fun i _ => (Nat.add_assoc _ _ _).symm, Finset.sum_add_distrib, ← Finset.sum_mul, sum_min_chunks (w.chunkSize_pos _), hl, he]
  ring

theorem works_ldeT (w : Worker) {p : Poly F .coefficients} {k : ℕ} (e : ℕ) (hl : p.coeffs.length = 2 ^ k) (he : p.exp = k) :
    (ldeT w p (2 ^ e)).Works (ldeOps (StarkField.S F) w k e) := by
  unfold ldeT ldeOps
  by_cases h : e = 0
  · subst h
    rw [if_pos (pow_zero 2), if_pos rfl]
    exact he ▸ works_fftPolyT w p
  · rw [if_neg h, if_neg (by simpa using h)]
    exact works_multiCosetLdeT w hl he fun x => works_pure _

theorem works_cosetLdeT (w : Worker) {p : Poly F .coefficients} {k : ℕ} (e : ℕ) (hl : p.coeffs.length = 2 ^ k) (he : p.exp = k) :
    (cosetLdeT w p (2 ^ e)).Works (cosetLdeOps (StarkField.S F) w k e) := by
  unfold cosetLdeT cosetLdeOps
  by_cases h : e = 0
  · subst h
    rw [if_pos (pow_zero 2), if_pos rfl, ← hl, ← he]
    exact works_cosetFftPolyT w p
  · rw [if_neg h, if_neg (by simpa using h)]
    exact works_multiCosetLdeT w hl he fun x => works_op 1 _

theorem works_evaluateDegreeOneT (w : Worker) (p : Poly F .coefficients) (K : ℕ) :
    (evaluateDegreeOneT w p (2 ^ K)).Works (domainOps (StarkField.S F) (2 ^ K) + (startOps w (2 ^ K) + 3 * 2 ^ K) + polyOps (StarkField.S F) (2 ^ K)) := by
  unfold evaluateDegreeOneT
  refine works_lift_bind fun _ _ => works_lift_bind fun a _ => works_lift_bind fun c _ => ?_
  refine Works.to (Works.bind (d := startOps w (2 ^ K) + 2 ^ K * 3 + polyOps (StarkField.S F) (2 ^ K)) (works_newForSizeT _) fun d hd => ?_) (by ring)
  rw [res_newForSizeT] at hd
  have hs : d.size = 2 ^ K := (domain_size hd).trans (nextPow2_pow K)
  have := works_parChunksT w (List.replicate d.size (0 : F)) (s := fun i => powExact (i * w.chunkSize (2 ^ K))) (d := 3) (f := fun ch i v => do
    let u ← powT d.generator (i * ch)
    affineRunningT a c d.generator u v.length) (fun i v => by
      rw [List.length_replicate, hs]
      exact Works.bind (works_powT _ _) fun _ _ => works_affineRunningT _ _ _ _ _)
  rw [List.length_replicate, hs] at this
  rw [hs]
  refine Works.bind this fun v hv => ?_
  rw [res_parChunksT w _ (g := fun ch i v => Poly.affineRunning a c d.generator (d.generator ^ (i * ch)) v.length) (fun ch i v => by
    simp only [res_bind, res_powT, Res.ok_bind, res_affineRunningT])] at hv
  cases hv
  refine (works_ofVecT _).to ?_
  rw [parChunks_length _ _ _ fun c i v => affineRunning_length _ _ _ _ _, List.length_replicate]

theorem works_inverseLinearT (root : F) (K : ℕ) (w : Worker) : (inverseLinearT root (2 ^ K) w).Works (inverseLinearOps (StarkField.S F) w (2 ^ K)) := by
  unfold inverseLinearT inverseLinearOps
  refine Works.to (Works.bind (works_linearPolyT _) fun q _ => Works.bind (works_evaluateDegreeOneT w q K) fun v hv => (works_batchInversionT w v).to ?_) (Nat.add_assoc _ _ _).symm
  rw [res_evaluateDegreeOneT] at hv
  congr 1
  unfold Poly.evaluateAtDomainForDegreeOne at hv
  obtain ⟨_, -, hv⟩ := Res.bind_eq_ok.1 hv
  obtain ⟨_, -, hv⟩ := Res.bind_eq_ok.1 hv
  obtain ⟨_, -, hv⟩ := Res.bind_eq_ok.1 hv
  obtain ⟨d, hd, hv⟩ := Res.bind_eq_ok.1 hv
  have hs : d.size = 2 ^ K := (domain_size hd).trans (nextPow2_pow K)
  have := Poly.ofVec_size hv
  rw [parChunks_length _ _ _ fun c i v => affineRunning_length _ _ _ _ _, List.length_replicate, hs, nextPow2_pow] at this
  exact this

theorem works_evalRunningT (g s x : F) (l : List F) : (evalRunningT g s x l).Works (l.length * 3) := by
  induction l generalizing s x with
  | nil => exact works_pure _
  | cons a l ih =>
    have : (evalRunningT g s x (a :: l)).Works (l.length * 3 + 1 + 1 + 1) := works_op_bind (works_op_bind (works_op_bind (ih _ _)))
    exact this.to (by simp; ring)

theorem works_sumT (s : F) (l : List F) : (sumT s l).Works l.length := by
  induction l generalizing s with
  | nil => exact works_pure _
  | cons a l ih => exact works_op_bind (ih _)

theorem works_evaluateAtT (w : Worker) (p : Poly F .coefficients) (g : F) : (evaluateAtT w p g).Works (evalOps w p.coeffs.length) := by
  unfold evaluateAtT
  have h1 : ∀ i < w.numSpawnedThreads p.coeffs.length, (evalTaskT g (i * w.chunkSize p.coeffs.length) (chunks (w.chunkSize p.coeffs.length) p.coeffs)[i]?).Works
      (powExact (i * w.chunkSize p.coeffs.length) + min (w.chunkSize p.coeffs.length) (p.coeffs.length - i * w.chunkSize p.coeffs.length) * 3) := by
    intro i hi
    rw [numSpawnedThreads_eq] at hi
    rw [getElem?_chunks, if_pos hi]
    exact Works.bind (works_powT _ _) fun _ _ => (works_evalRunningT _ _ _ _).to (by simp)
  refine Works.to (Works.bind (d := w.numSpawnedThreads p.coeffs.length) (works_collectN h1) fun l hl => (works_sumT _ _).to ?_) ?_
  · rw [res_collectN (g := fun i => (evalTaskT g (i * w.chunkSize p.coeffs.length) (chunks (w.chunkSize p.coeffs.length) p.coeffs)[i]?).res) fun _ _ => rfl] at hl
    exact (collectN_inv hl).1
  · unfold evalOps startOps
    rw [Finset.sum_add_distrib, ← Finset.sum_mul]
    conv_lhs => enter [1, 2]; rw [numSpawnedThreads_eq, sum_min_chunks (w.chunkSize_pos _)]
    ring

/-! ## Witness polynomials -/

theorem works_makeWitnessPolynomialsT {witness : List (List F)} {n k : ℕ} (w : Worker) (hn : 1 ≤ n) (hw : IsTable witness n (2 ^ k)) :
    (makeWitnessPolynomialsT witness w).Works (witnessOps (StarkField.S F) n k) := by
  unfold makeWitnessPolynomialsT
  simp only [hw.1, witnessHint_eq w hn]
  refine works_lift_bind fun row0 h0 => works_lift_bind fun _ _ => ?_
  have hr : row0.length = 2 ^ k := hw.2 _ (List.mem_of_getElem? (rd_inv h0))
  rw [hr, nextPow2_pow]
  refine Works.to (Works.bind (d := 1 + (decimalOps (2 ^ k) + (1 + (n * serialFftOps k + n * (2 ^ k + polyOps (StarkField.S F) (2 ^ k))))))
    (works_newForSizeT _) fun d hd => ?_) (by unfold witnessOps; ring)
  rw [res_newForSizeT] at hd
  obtain ⟨K, -, rfl, hK⟩ := newForSize_inv hd
  rw [nextPow2_pow] at hK
  obtain rfl : K = k := Nat.pow_right_injective (le_refl 2) hK
  refine Works.bind (works_inverseUnwrapT _) fun oi _ => ?_
  refine Works.bind (works_op _ _) fun m _ => ?_
  refine Works.bind (works_inverseUnwrapT _) fun mi _ => ?_
  refine Works.bind ((works_map (c := fun _ => serialFftOps K) fun r _ => works_bestFftT_one _ _ _ _).to (by simp [hw.1])) fun rows hrows => ?_
  rw [res_map (g := fun r => bestFft w r oi (domOf F K).powerOfTwo (some 1)) fun r _ => res_bestFftT _ _ _ _ _] at hrows
  have hlen : rows.length = n := (mapRes_eq_ok hrows).length_eq.symm.trans hw.1
  refine (works_map (c := fun _ => 2 ^ K + polyOps (StarkField.S F) (2 ^ K)) fun r hr => ?_).to (by simp [hlen])
  obtain ⟨x, hx, e⟩ := mem_mapRes hrows r hr
  have hl : r.length = 2 ^ K := (bestFft_length e).trans (hw.2 x hx)
  have := works_parChunksT w r (s := fun _ => 0) (d := 1) (f := fun _ _ v => mapOpT (fun x => x * mi) v) (fun i v => (works_mapOpT _ v).to (by simp))
  refine Works.bind (this.to (by simp [hl])) fun v hv => (works_ofVecT _).to ?_
  rw [res_parChunksT w _ fun _ _ v => res_mapOpT _ v] at hv
  cases hv
  rw [parMap_length, hl]

theorem works_calculateWitnessPolysT (inst : InstanceProperties F) {witness : List (List F)} {n k : ℕ} (w : Worker) (hn : 1 ≤ n) (hw : IsTable witness n (2 ^ k)) :
    (calculateWitnessPolysT inst witness w).Works (witnessOps (StarkField.S F) n k) := by
  unfold calculateWitnessPolysT
  refine works_lift_bind fun row0 h0 => works_lift_bind fun _ _ => ?_
  split
  · intro a ha; cases ha
  · split
    · intro a ha; cases ha
    · exact works_makeWitnessPolynomialsT w hn hw

end Hodor

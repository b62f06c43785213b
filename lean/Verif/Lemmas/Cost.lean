import Verif.Model.Cost
import Verif.Spec.Cost
import Verif.Lemmas.Domain

/-!
# Costs of the counted verifier
-/

set_option linter.unusedSectionVars false

namespace Hodor

open Spec

namespace Tick

variable {α β : Type}

/-! ## Erasure -/

@[simp] theorem res_pure (a : α) : (pure a : Tick α).res = .ok a := rfl
@[simp] theorem res_lift (x : Res α) : (lift x).res = x := rfl
@[simp] theorem res_op (n : ℕ) (x : α) : (op n x).res = .ok x := rfl
@[simp] theorem res_hash (x : α) : (hash x).res = .ok x := rfl

@[simp] theorem res_bind (x : Tick α) (f : α → Tick β) : (x >>= f).res = x.res >>= fun a => (f a).res := by
  show (bind x f).res = _
  unfold bind
  cases x.res <;> rfl

@[simp] theorem res_ite (c : Prop) [Decidable c] (x y : Tick α) : (if c then x else y).res = if c then x.res else y.res := by
  split <;> rfl

theorem res_forEach {σ : Type} {l : List α} {s : σ} {body : α → σ → Tick σ} {body' : α → σ → Res σ}
    (h : ∀ x ∈ l, ∀ s, (body x s).res = body' x s) : (forEach l s body).res = Hodor.forEach l s body' := by
  induction l generalizing s with
  | nil => rfl
  | cons x l ih =>
    simp only [forEach, Hodor.forEach, res_bind, h x (by simp)]
    congr 1
    funext s'
    exact ih fun y hy => h y (by simp [hy])

theorem res_any {l : List α} {p : α → Tick Bool} {p' : α → Bool} (h : ∀ x, (p x).res = .ok (p' x)) :
    (any l p).res = .ok (l.any p') := by
  induction l with
  | nil => rfl
  | cons x l ih =>
    simp only [any, res_bind, h, Res.ok_bind, List.any_cons]
    cases p' x <;> simp [ih]

/-! ## Costs

`x.Costs P h o l`: at most `h` hash calls and `o` operations, and if the result satisfies `P`, exactly `h` hash calls and at least `l` operations. -/

structure Costs (x : Tick α) (P : α → Prop) (h o l : ℕ) : Prop where
  hashes_le : x.hashes ≤ h
  ops_le : x.ops ≤ o
  exact : ∀ a, x.res = .ok a → P a → x.hashes = h ∧ l ≤ x.ops

variable {P : α → Prop} {Q : β → Prop} {h h' o o' l l' : ℕ}

theorem Costs.mono {x : Tick α} (c : x.Costs P h o l) (ho : o ≤ o') (hl : l' ≤ l) : x.Costs P h o' l' :=
  ⟨c.hashes_le, c.ops_le.trans ho, fun a ha hP => ⟨(c.exact a ha hP).1, hl.trans (c.exact a ha hP).2⟩⟩

theorem Costs.weaken {x : Tick α} {P' : α → Prop} (c : x.Costs P h o l) (hP : ∀ a, P' a → P a) : x.Costs P' h o l :=
  ⟨c.hashes_le, c.ops_le, fun a ha h => c.exact a ha (hP a h)⟩

theorem costs_pure (a : α) : (pure a : Tick α).Costs P 0 o 0 := ⟨Nat.zero_le _, Nat.zero_le _, fun _ _ _ => ⟨rfl, Nat.zero_le _⟩⟩

/-- A result without `P` claims nothing but the upper bounds. -/
theorem costs_stop {a : α} (hP : ¬ P a) : (pure a : Tick α).Costs P h o l :=
  ⟨Nat.zero_le _, Nat.zero_le _, fun b hb h => by cases hb; exact absurd h hP⟩

theorem costs_fail {x : Res α} (hx : ∀ a, x ≠ .ok a) : (lift x).Costs P h o l :=
  ⟨Nat.zero_le _, Nat.zero_le _, fun b hb _ => absurd hb (hx b)⟩

theorem costs_lift (x : Res α) : (lift x).Costs P 0 o 0 := ⟨Nat.zero_le _, Nat.zero_le _, fun _ _ _ => ⟨rfl, Nat.zero_le _⟩⟩

theorem costs_op (n : ℕ) (x : α) : (op n x).Costs P 0 n 0 := ⟨Nat.zero_le _, le_refl _, fun _ _ _ => ⟨rfl, Nat.zero_le _⟩⟩

theorem costs_op_ge (n : ℕ) (x : α) : (op n x).Costs P 0 n n := ⟨Nat.zero_le _, le_refl _, fun _ _ _ => ⟨rfl, le_refl _⟩⟩

theorem costs_hash (x : α) : (hash x).Costs P 1 0 0 := ⟨le_refl _, Nat.zero_le _, fun _ _ _ => ⟨rfl, Nat.zero_le _⟩⟩

/-- If the continuation reaches `Q` only from results with `P`, the costs add up. -/
theorem costs_bind' {x : Tick α} {f : α → Tick β} (cx : x.Costs P h o l)
    (cf : ∀ a, x.res = .ok a → (f a).Costs Q h' o' l' ∧ (¬ P a → ∀ b, (f a).res = .ok b → ¬ Q b)) :
    (x >>= f).Costs Q (h + h') (o + o') (l + l') := by
  have e : (x >>= f) = bind x f := rfl
  rw [e]
  unfold bind
  cases hx : x.res with
  | ok a =>
    obtain ⟨c, hP⟩ := cf a hx
    refine ⟨Nat.add_le_add cx.hashes_le c.hashes_le, Nat.add_le_add cx.ops_le c.ops_le, ?_⟩
    intro b hb hQ
    have hPa : P a := by
      by_contra hn
      exact hP hn b hb hQ
    obtain ⟨e1, l1⟩ := cx.exact a hx hPa
    obtain ⟨e2, l2⟩ := c.exact b hb hQ
    exact ⟨by simp only [e1, e2], Nat.add_le_add l1 l2⟩
  | err e => exact ⟨cx.hashes_le.trans (Nat.le_add_right _ _), cx.ops_le.trans (Nat.le_add_right _ _), fun b hb => by cases hb⟩
  | panic => exact ⟨cx.hashes_le.trans (Nat.le_add_right _ _), cx.ops_le.trans (Nat.le_add_right _ _), fun b hb => by cases hb⟩

theorem costs_bind {x : Tick α} {f : α → Tick β} (cx : x.Costs (fun _ => True) h o l)
    (cf : ∀ a, x.res = .ok a → (f a).Costs Q h' o' l') : (x >>= f).Costs Q (h + h') (o + o') (l + l') :=
  costs_bind' cx fun a ha => ⟨cf a ha, fun hn => absurd trivial hn⟩

theorem lift_bind {x : Res α} {f : α → Tick β} (cf : ∀ a, x = .ok a → (f a).Costs Q h o l) : (lift x >>= f).Costs Q h o l := by
  have := costs_bind (costs_lift (o := 0) x) cf
  simpa using this

theorem op_bind {x : α} {f : α → Tick β} (cf : (f x).Costs Q h o l) : (op 1 x >>= f).Costs Q h (o + 1) l := by
  have := costs_bind (costs_op 1 x) (fun a ha => by cases ha; exact cf)
  simpa [Nat.add_comm] using this

theorem op_bind_ge {x : α} {f : α → Tick β} (cf : (f x).Costs Q h o l) : (op 1 x >>= f).Costs Q h (o + 1) (l + 1) := by
  have := costs_bind (costs_op_ge 1 x) (fun a ha => by cases ha; exact cf)
  simpa [Nat.add_comm] using this

theorem hash_bind {x : α} {f : α → Tick β} (cf : (f x).Costs Q h o l) : (hash x >>= f).Costs Q (h + 1) o l := by
  have := costs_bind (costs_hash x) (fun a ha => by cases ha; exact cf)
  simpa [Nat.add_comm] using this

theorem costs_forEach {σ : Type} {xs : List α} {s : σ} {body : α → σ → Tick σ} {ch co cl : α → ℕ}
    (hb : ∀ x ∈ xs, ∀ s, (body x s).Costs (fun _ => True) (ch x) (co x) (cl x)) :
    (forEach xs s body).Costs (fun _ => True) (xs.map ch).sum (xs.map co).sum (xs.map cl).sum := by
  induction xs generalizing s with
  | nil => exact costs_pure s
  | cons x xs ih =>
    simp only [List.map_cons, List.sum_cons]
    exact costs_bind (hb x (by simp) s) fun s' _ => ih fun y hy => hb y (by simp [hy])

/-- A loop with early exit, at the costs of the whole list if there is no hit. -/
theorem costs_any {xs : List α} {p : α → Tick Bool} {ch : α → ℕ} (hp : ∀ x ∈ xs, (p x).Costs (fun _ => True) (ch x) 0 0) :
    (any xs p).Costs (fun b => b = false) (xs.map ch).sum 0 0 := by
  induction xs with
  | nil => exact costs_pure false
  | cons x xs ih =>
    simp only [List.map_cons, List.sum_cons]
    refine costs_bind (h := ch x) (o := 0) (l := 0) (o' := 0) (l' := 0) (hp x (by simp)) fun b _ => ?_
    cases b with
    | true => exact costs_stop (by simp)
    | false => exact ih fun y hy => hp y (by simp [hy])

end Tick

open Tick

variable {F : Type} [Field F] [DecidableEq F] [StarkField F]

/-! ## Powers -/

theorem res_powT (x : F) (e : ℕ) : (powT x e).res = .ok (x ^ e) := by
  induction e using Nat.strong_induction_on with
  | _ e ih =>
    unfold powT
    split
    · next h => subst h; simp
    · next h =>
      simp only [res_bind, ih (e / 2) (by omega), Res.ok_bind]
      by_cases h2 : e / 2 = 0 <;> by_cases h1 : e % 2 = 1 <;>
        simp only [h2, h1, if_true, if_false, res_bind, res_pure, res_op, Res.ok_bind]
      · rw [show e = 1 by omega]; simp
      · omega
      · rw [← pow_add, ← pow_succ]; congr 2; omega
      · rw [← pow_add]; congr 2; omega

theorem costs_powT (x : F) (e : ℕ) {P : F → Prop} : (powT x e).Costs P 0 (powOps e) 0 := by
  suffices h : ∀ e, (powT x e).hashes = 0 ∧ (powT x e).ops ≤ powOps e from
    ⟨le_of_eq (h e).1, (h e).2, fun _ _ _ => ⟨(h e).1, Nat.zero_le _⟩⟩
  intro e
  induction e using Nat.strong_induction_on with
  | _ e ih =>
    by_cases h0 : e = 0
    · subst h0
      unfold powT
      simp only [dif_pos]
      exact ⟨rfl, Nat.zero_le _⟩
    by_cases h1 : e = 1
    · subst h1
      have p0 : powT x 0 = pure 1 := by unfold powT; simp
      unfold powT
      simp only [one_ne_zero, dite_false, show 1 / 2 = 0 by norm_num, p0, if_true, show 1 % 2 = 1 by norm_num]
      exact ⟨rfl, le_of_eq_of_le (b := 1) rfl (by decide)⟩
    obtain ⟨i1, i2⟩ := ih (e / 2) (by omega)
    have hlog : Nat.log 2 e = Nat.log 2 (e / 2) + 1 := by
      rw [Nat.log_div_base]
      have : 1 ≤ Nat.log 2 e := (Nat.le_log_iff_pow_le (by norm_num) h0).2 (by omega)
      omega
    have hr := res_powT x (e / 2)
    unfold powT
    rw [dif_neg h0]
    have hne : e / 2 ≠ 0 := by omega
    show (Tick.bind _ _).hashes = 0 ∧ (Tick.bind _ _).ops ≤ _
    unfold Tick.bind
    rw [hr]
    simp only [hne, if_false]
    show (powT x (e / 2)).hashes + (Tick.bind _ _).hashes = 0 ∧ (powT x (e / 2)).ops + (Tick.bind _ _).ops ≤ _
    unfold Tick.bind
    simp only [res_op]
    unfold powOps at i2 ⊢
    rw [hlog]
    split
    · simp only [op]; omega
    · simp only [op, pure]; omega

theorem powOps_le {e S : ℕ} (h : e ≤ 2 ^ S) : powOps e ≤ powOpsS S := by
  have := Nat.log_mono_right (b := 2) h
  rw [Nat.log_pow (by norm_num)] at this
  unfold powOps powOpsS
  omega

theorem costs_powT_S (x : F) {e S : ℕ} (h : e ≤ 2 ^ S) {P : F → Prop} : (powT x e).Costs P 0 (powOpsS S) 0 :=
  (costs_powT x e).mono (powOps_le h) (le_refl _)

theorem pow_bind {β : Type} {Q : β → Prop} {h o l : ℕ} {x : F} {e : ℕ} {f : F → Tick β} (cf : (f (x ^ e)).Costs Q h o l) :
    (powT x e >>= f).Costs Q h (o + powOps e) l := by
  have := costs_bind (costs_powT x e) (fun a ha => by rw [res_powT] at ha; cases ha; exact cf)
  simpa [Nat.add_comm] using this

theorem pow_bind_S {β : Type} {Q : β → Prop} {h o l : ℕ} {x : F} {e S : ℕ} (he : e ≤ 2 ^ S) {f : F → Tick β}
    (cf : (f (x ^ e)).Costs Q h o l) : (powT x e >>= f).Costs Q h (o + powOpsS S) l :=
  (pow_bind cf).mono (Nat.add_le_add_left (powOps_le he) _) (le_refl _)

/-! ## Building blocks -/

omit [DecidableEq F] in
theorem res_newForSizeT (n : ℕ) : (newForSizeT F n).res = Domain.newForSize F n := by
  unfold newForSizeT Domain.newForSize
  simp only [res_ite, res_lift, res_bind, res_op, Res.ok_bind, res_pure]

omit [DecidableEq F] in
theorem costs_newForSizeT (n : ℕ) {P : Domain F → Prop} : (newForSizeT F n).Costs P 0 (StarkField.S F) 0 := by
  unfold newForSizeT
  simp only []
  split
  · exact costs_lift _
  · have := costs_bind (Q := P) (costs_op (P := fun _ => True) (StarkField.S F - shiftCount (nextPow2 n) (nextPow2 n) 0)
      (squareN (StarkField.S F - shiftCount (nextPow2 n) (nextPow2 n) 0) (StarkField.root (F := F))))
      (f := fun g => pure { size := nextPow2 n, powerOfTwo := shiftCount (nextPow2 n) (nextPow2 n) 0, generator := g })
      (fun a _ => costs_pure (o := 0) _)
    exact this.mono (by omega) (le_refl _)

omit [DecidableEq F] in
theorem new_bind {β : Type} {Q : β → Prop} {h o l n : ℕ} {f : Domain F → Tick β}
    (cf : ∀ d, Domain.newForSize F n = .ok d → (f d).Costs Q h o l) : (newForSizeT F n >>= f).Costs Q h (o + StarkField.S F) l := by
  have := costs_bind (costs_newForSizeT n) (fun d hd => cf d (by rw [← res_newForSizeT]; exact hd))
  simpa [Nat.add_comm] using this

omit [DecidableEq F] in
/-- The domain is not larger than the largest one. -/
theorem newForSize_size_le {n : ℕ} {d : Domain F} (h : Domain.newForSize F n = .ok d) : n ≤ d.size ∧ d.size ≤ 2 ^ StarkField.S F := by
  rw [newForSize_eq] at h
  split at h
  · cases h
    exact ⟨Nat.le_pow_clog (by norm_num) _, Nat.pow_le_pow_right (by norm_num) (by assumption)⟩
  · cases h

omit [StarkField F] in
theorem res_inverseT (x : F) : (inverseT x).res = Res.okOr (inverse x) .divisionByZero := rfl

omit [StarkField F] in
theorem inverse_bind {β : Type} {Q : β → Prop} {h o l : ℕ} {x : F} {f : F → Tick β}
    (cf : ∀ y, (f y).Costs Q h o l) : (inverseT x >>= f).Costs Q h (o + 1) l := by
  have c : (inverseT x).Costs (fun _ => True) 0 1 0 := by
    unfold inverseT
    exact op_bind (o := 0) (costs_lift _)
  have := costs_bind c (fun a _ => cf a)
  simpa [Nat.add_comm] using this

omit [DecidableEq F] in
theorem res_interpretHashT (d : Digest) : (interpretHashT d : Tick F).res = interpretHash d := rfl

omit [DecidableEq F] in
theorem costs_interpretHashT (d : Digest) {P : F → Prop} : (interpretHashT d : Tick F).Costs P 0 1 0 := by
  unfold interpretHashT
  exact op_bind (o := 0) (costs_lift _)

variable (H : List UInt8 → Digest)

omit [DecidableEq F] in
theorem res_getChallengeT (t : Transcript) : (getChallengeT H t : Tick (F × Transcript)).res = t.getChallenge H := by
  unfold getChallengeT Transcript.getChallenge
  simp only [res_bind, res_hash, Res.ok_bind, res_interpretHashT, res_pure]
  rfl

omit [DecidableEq F] in
theorem costs_getChallengeT (t : Transcript) {P : F × Transcript → Prop} : (getChallengeT H t : Tick (F × Transcript)).Costs P 1 1 0 := by
  unfold getChallengeT
  refine hash_bind (h := 0) ?_
  exact costs_bind (h' := 0) (o' := 0) (l' := 0) (costs_interpretHashT _) fun _ _ => costs_pure _

theorem res_getChallengeBytesT (t : Transcript) : (getChallengeBytesT H t).res = .ok (t.getChallengeBytes H) := rfl

theorem costs_getChallengeBytesT (t : Transcript) {P : List UInt8 × Transcript → Prop} : (getChallengeBytesT H t).Costs P 1 0 0 :=
  hash_bind (h := 0) (costs_pure _)

omit [DecidableEq F] in
theorem res_commitFinalT (t : Transcript) (root : Digest) (coeffs : List F) :
    (commitFinalT t root coeffs).res = .ok (commitFinal t root coeffs) := by
  unfold commitFinalT commitFinal
  generalize t.commitBytes root.bytes = t
  induction coeffs generalizing t with
  | nil => rfl
  | cons x l ih =>
    simp only [Tick.forEach, res_bind, commitFieldElementT, res_op, Res.ok_bind, List.foldl_cons]
    exact ih _

omit [DecidableEq F] in
theorem costs_commitFinalT (t : Transcript) (root : Digest) (coeffs : List F) {P : Transcript → Prop} :
    (commitFinalT t root coeffs).Costs P 0 coeffs.length 0 := by
  have := costs_forEach (xs := coeffs) (s := t.commitBytes root.bytes) (body := fun x t => commitFieldElementT t x) (ch := fun _ => 0)
    (co := fun _ => 1) (cl := fun _ => 0) (fun x _ s => costs_op 1 _)
  refine (Costs.weaken (P := fun _ => True) ?_ (fun _ _ => trivial))
  unfold commitFinalT
  simpa using this

/-! ## Openings -/

theorem res_verifyLoopT (d : Digest) (idx : ℕ) (path : List Digest) : (verifyLoopT H d idx path).res = .ok (verifyLoop H d idx path) := by
  induction path generalizing d idx with
  | nil => rfl
  | cons x l ih => simp only [verifyLoopT, verifyLoop, res_bind, res_hash, Res.ok_bind, ih]

theorem costs_verifyLoopT (d : Digest) (idx : ℕ) (path : List Digest) {P : Digest → Prop} :
    (verifyLoopT H d idx path).Costs P path.length 0 0 := by
  induction path generalizing d idx with
  | nil => exact costs_pure _
  | cons x l ih => exact hash_bind (ih _ _)

omit [Field F] [DecidableEq F] [StarkField F] in
variable [Field F] [StarkField F] in
theorem res_verifyQueryT (q : IopQuery F) (root : Digest) : (verifyQueryT H q root).res = .ok (verifyQuery H q root) := by
  unfold verifyQueryT verifyQuery IopTree.verify
  simp only [res_bind, res_hash, Res.ok_bind, res_verifyLoopT, res_pure]

omit [DecidableEq F] in
theorem costs_verifyQueryT (q : IopQuery F) (root : Digest) {P : Bool → Prop} : (verifyQueryT H q root).Costs P (openingHashes q) 0 0 := by
  unfold verifyQueryT openingHashes
  rw [Nat.add_comm]
  refine hash_bind ?_
  exact costs_bind (h' := 0) (o' := 0) (l' := 0) (costs_verifyLoopT H _ _ _) fun _ _ => costs_pure _

/-! ## FRI -/

theorem res_evalFinalT (x acc power : F) (l : List F) : (evalFinalT x acc power l).res = .ok (evalFinal x acc power l) := by
  induction l generalizing acc power with
  | nil => rfl
  | cons c l ih => simp only [evalFinalT, evalFinal, res_bind, res_op, Res.ok_bind, ih]

theorem costs_evalFinalT (x acc power : F) (l : List F) {P : F → Prop} : (evalFinalT x acc power l).Costs P 0 (3 * l.length) 0 := by
  induction l generalizing acc power with
  | nil => exact costs_pure _
  | cons c l ih => exact op_bind (op_bind (op_bind (ih _ _)))

theorem res_friFinishT (coeffs : List F) (s : FriVState F) : (friFinishT coeffs s).res = friFinish coeffs s := by
  unfold friFinishT friFinish
  simp only [res_bind, res_powT, Res.ok_bind, res_evalFinalT, res_lift, res_pure]
  rfl

theorem costs_friFinishT (coeffs : List F) (s : FriVState F) {S : ℕ} (hs : s.domainIdx ≤ 2 ^ S) {P : Bool → Prop} :
    (friFinishT coeffs s).Costs P 0 (3 * coeffs.length + powOpsS S) 0 := by
  unfold friFinishT
  refine pow_bind_S hs ?_
  exact costs_bind (h' := 0) (o' := 0) (l' := 0) (costs_evalFinalT _ _ _ _) fun _ _ => lift_bind fun _ _ => costs_pure _

theorem res_friStartT (a b idx : ℕ) : (friStartT a b idx : Tick (F × FriVState F)).res = friStart a b idx := by
  unfold friStartT friStart
  simp only [res_bind, res_op, Res.ok_bind, res_inverseT, res_newForSizeT, res_powT, res_ite, res_lift, res_pure]
  rfl

theorem costs_friStartT (a b idx : ℕ) (h : idx ≤ 2 ^ StarkField.S F) {P : F × FriVState F → Prop} :
    (friStartT a b idx : Tick (F × FriVState F)).Costs P 0 (3 + StarkField.S F + 3 * powOpsS (StarkField.S F)) 0 := by
  unfold friStartT
  refine Costs.mono (o := StarkField.S F + (1 + powOpsS (StarkField.S F) + powOpsS (StarkField.S F) + powOpsS (StarkField.S F)) + 1 + 1) (l := 0)
    ?_ (by omega) (le_refl _)
  refine op_bind (inverse_bind fun _ => ?_)
  rw [Nat.add_comm (StarkField.S F)]
  refine new_bind fun d hd => ?_
  have hle := (newForSize_size_le hd).2
  refine pow_bind_S h (pow_bind_S hle ?_)
  split
  · exact costs_fail (by simp)
  · refine pow_bind_S (le_trans (Nat.div_le_self _ _) hle) ?_
    split
    · exact costs_fail (by simp)
    · exact inverse_bind (o := 0) fun _ => costs_pure _

theorem res_friFoldT (a b c d e : F) : (friFoldT a b c d e).res = .ok (friFold a b c d e) := rfl

theorem costs_friFoldT (a b c d e : F) {P : F → Prop} : (friFoldT a b c d e).Costs P 0 6 0 :=
  op_bind (op_bind (op_bind (op_bind (op_bind (costs_op 1 _)))))

theorem res_friAdvanceT (s : FriVState F) (x : F) : (friAdvanceT s x).res = friAdvance s x := by
  unfold friAdvanceT friAdvance
  simp only [res_bind, res_lift, res_op, Res.ok_bind, res_pure]
  rfl

theorem costs_friAdvanceT (s : FriVState F) (x : F) {P : FriVState F → Prop} : (friAdvanceT s x).Costs P 0 2 0 :=
  lift_bind fun _ _ => op_bind (op_bind (o := 0) (costs_pure _))

theorem friAdvance_idx_le {s s' : FriVState F} {x : F} (h : friAdvance s x = .ok s') : s'.domainIdx ≤ s.domainIdx := by
  unfold friAdvance at h
  obtain ⟨p, hp, h⟩ := Res.bind_eq_ok.1 h
  cases h
  unfold indexAndSizeForNextDomain at hp
  obtain ⟨-, -, hp⟩ := Res.bind_eq_ok.1 hp
  obtain ⟨-, -, hp⟩ := Res.bind_eq_ok.1 hp
  cases hp
  dsimp only
  split <;> omega

theorem coset_head_le {idx size c0 : ℕ} {coset : List ℕ} (h : cosetForNaturalIndex idx size = .ok coset) (h0 : rd coset 0 = .ok c0) : c0 ≤ idx := by
  unfold cosetForNaturalIndex at h
  obtain ⟨-, -, h⟩ := Res.bind_eq_ok.1 h
  cases h
  unfold sortPair at h0
  split at h0 <;> · cases h0; omega

theorem res_proofRoundsT (twoInv : F) (coeffs : List F) (idx : ℕ) (v : F) (round : ℕ) (rounds : List (Digest × List (IopQuery F))) (s : FriVState F) :
    (proofRoundsT H twoInv coeffs idx v round rounds s).res = proofRounds H twoInv coeffs idx v round rounds s := by
  induction rounds generalizing round s with
  | nil => exact res_friFinishT coeffs s
  | cons x rest ih =>
    obtain ⟨root, queries⟩ := x
    have ha : ∀ q : IopQuery F, (do let good ← verifyQueryT H q root; pure (!good) : Tick Bool).res = .ok (!verifyQuery H q root) := by
      intro q; simp only [res_bind, res_verifyQueryT, Res.ok_bind, res_pure]
    simp only [proofRoundsT, proofRounds, res_bind, res_lift, res_ite, res_pure, res_any ha, Res.ok_bind, res_interpretHashT, res_powT, res_friFoldT,
      res_friAdvanceT, ih, encodeRootIntoChallenge]
    rfl

theorem costs_proofRoundsT (twoInv : F) (coeffs : List F) (idx : ℕ) (v : F) {S : ℕ} (round : ℕ) (rounds : List (Digest × List (IopQuery F)))
    (s : FriVState F) (hs : s.domainIdx ≤ 2 ^ S) :
    (proofRoundsT H twoInv coeffs idx v round rounds s).Costs (fun b => b = true) (rounds.map (fun r => (r.2.map openingHashes).sum)).sum
      (rounds.length * (powOpsS S + 9) + (3 * coeffs.length + powOpsS S)) 0 := by
  induction rounds generalizing round s with
  | nil => simpa [proofRoundsT] using costs_friFinishT coeffs s hs
  | cons x rest ih =>
    obtain ⟨root, queries⟩ := x
    have ha : ∀ q ∈ queries, (do let good ← verifyQueryT H q root; pure (!good) : Tick Bool).Costs (fun _ => True) (openingHashes q) 0 0 :=
      fun q _ => costs_bind (h' := 0) (o' := 0) (l' := 0) (costs_verifyQueryT H q root) fun _ _ => costs_pure _
    simp only [proofRoundsT, List.map_cons, List.sum_cons, List.length_cons]
    refine lift_bind fun coset hc => ?_
    split
    · exact costs_fail (by simp)
    split
    · exact costs_stop (by simp)
    split
    · exact costs_stop (by simp)
    refine lift_bind fun _ _ => ?_
    refine Costs.mono (o := 0 + (1 + (rest.length * (powOpsS S + 9) + (3 * coeffs.length + powOpsS S) + 2 + 6 + powOpsS S))) (l := 0 + 0) ?_
      (by ring_nf; omega) (le_refl _)
    refine costs_bind' (costs_any ha) fun bad _ => ?_
    cases bad with
    | true => exact ⟨costs_stop (by simp), fun _ b hb => by cases hb; simp⟩
    | false =>
      refine ⟨?_, fun hn => absurd rfl hn⟩
      simp only [Bool.false_eq_true, if_false]
      rw [← Nat.zero_add (List.map _ rest).sum, ← Nat.zero_add 0]
      refine costs_bind (costs_interpretHashT root) fun challenge _ => lift_bind fun q0 _ => ?_
      split
      · exact costs_stop (by simp)
      refine lift_bind fun q1 _ => lift_bind fun c0 h0 => pow_bind_S ((coset_head_le hc h0).trans hs) ?_
      have := costs_bind (Q := fun b => b = true) (costs_friFoldT q0.value q1.value (s.omegaInv ^ c0) challenge twoInv) fun folded _ =>
        costs_bind (costs_friAdvanceT s folded) fun s' h' =>
          ih (round + 1) s' ((friAdvance_idx_le (by rw [← res_friAdvanceT]; exact h')).trans hs)
      refine Costs.mono (h := _) ?_ (le_refl _) (le_refl _)
      convert this.mono (le_refl _) (Nat.zero_le _) using 1
      · omega
      · omega

/-- The openings that belong to the roots, in order. -/
theorem sum_rounds (g : IopQuery F → ℕ) (roots : List Digest) (qs : List (IopQuery F)) (hq : qs.length % 2 = 0) :
    ((roots.zip (chunksExact 2 qs)).map (fun r => (r.2.map g).sum)).sum = ((qs.take (2 * roots.length)).map g).sum := by
  induction roots generalizing qs with
  | nil => simp
  | cons r roots ih =>
    match qs, hq with
    | [], _ => simp [chunksExact]
    | [_], hq => simp at hq
    | a :: b :: qs, hq =>
      have hlen : (a :: b :: qs).length / 2 = qs.length / 2 + 1 := by simp only [List.length_cons]; omega
      have hch : chunksExact 2 (a :: b :: qs) = [a, b] :: chunksExact 2 qs := by
        unfold chunksExact
        rw [hlen, tab_succ']
        congr 1
        apply tab_congr
        intro i _
        rw [show (i + 1) * 2 = i * 2 + 1 + 1 by ring, List.drop_succ_cons, List.drop_succ_cons]
      rw [hch, List.zip_cons_cons, List.map_cons, List.sum_cons, ih qs (by simp only [List.length_cons] at hq; omega), List.length_cons,
        show 2 * (roots.length + 1) = 2 * roots.length + 1 + 1 by ring, List.take_succ_cons, List.take_succ_cons]
      simp only [List.map_cons, List.sum_cons, List.map_nil, List.sum_nil]
      omega

theorem friStart_idx {a b idx : ℕ} {r : F × FriVState F} (h : friStart a b idx = .ok r) : r.2.domainIdx = idx := by
  unfold friStart at h
  obtain ⟨_, -, h⟩ := Res.bind_eq_ok.1 h
  obtain ⟨_, -, h⟩ := Res.bind_eq_ok.1 h
  dsimp only at h
  split at h
  · cases h
  split at h
  · cases h
  obtain ⟨_, -, h⟩ := Res.bind_eq_ok.1 h
  cases h
  rfl

theorem res_friVerifyT (p : FriProof F) (idx : ℕ) (v : F) : (p.verifyT H idx v).res = p.verify H idx v := by
  unfold FriProof.verifyT FriProof.verify FriProof.verifyQueries
  simp only [res_bind, res_friStartT, res_ite, res_lift, res_proofRoundsT, ne_eq, OfNat.ofNat_ne_zero, not_false_eq_true, decide_true, Res.assert_true,
    Res.ok_bind]

theorem costs_friVerifyT (p : FriProof F) (idx : ℕ) (v : F) (h : idx ≤ 2 ^ StarkField.S F) :
    (p.verifyT H idx v).Costs (fun b => b = true) (friHashes p) (friOps (StarkField.S F) p.roots.length p.finalCoefficients.length) 0 := by
  unfold FriProof.verifyT friHashes friOps
  refine Costs.mono (o := (3 + StarkField.S F + 3 * powOpsS (StarkField.S F)) +
    (p.roots.length * (powOpsS (StarkField.S F) + 9) + (3 * p.finalCoefficients.length + powOpsS (StarkField.S F)))) (l := 0 + 0) ?_ (by omega) (le_refl _)
  rw [← Nat.zero_add (List.map _ _).sum]
  refine costs_bind (costs_friStartT _ _ _ h) fun r hr => ?_
  rw [res_friStartT] at hr
  dsimp only
  split
  · exact costs_fail (by simp)
  · next hq =>
    have := costs_proofRoundsT H r.1 p.finalCoefficients idx v (S := StarkField.S F) 0 (p.roots.zip (chunksExact 2 p.queries)) r.2
      (by rw [friStart_idx hr]; exact h)
    rw [sum_rounds openingHashes p.roots p.queries (by omega)] at this
    refine this.mono (Nat.add_le_add_right (Nat.mul_le_mul_right _ ?_) _) (le_refl _)
    rw [List.length_zip]
    exact Nat.min_le_left _ _

end Hodor

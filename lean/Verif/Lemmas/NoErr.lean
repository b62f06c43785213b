import Verif.Lemmas.AliG2
import Verif.Lemmas.VerifyH
import Verif.Lemmas.ProverRun

/-! # Lemmas: calls that cannot return an error, and runs of the prover that panic -/

namespace Hodor

open Polynomial Finset Spec

variable {F : Type} [Field F] [DecidableEq F] [StarkField F] (H : List UInt8 → Digest)

theorem serialFft_panics {a : List F} {ω : F} {n : ℕ} (h : ∀ k, a.length ≠ 2 ^ k) (hn : a.length ≤ 2 ^ n) : serialFft a ω n = .panic := by
  unfold serialFft
  by_cases h32 : n < 32
  · have : a.length < 2 ^ 32 := lt_of_le_of_lt hn (Nat.pow_lt_pow_right (by norm_num) h32)
    simp only [decide_eq_true h32, Nat.mod_eq_of_lt this, decide_eq_false (h n), Res.assert_true, Res.ok_bind]
    rfl
  · rw [decide_eq_false h32]; rfl

theorem witnessHint_one (w : Worker) {n : ℕ} (hn : 0 < n) : witnessHint w n = some 1 := by
  unfold witnessHint
  split
  · rfl
  · rename_i h
    have h' : n < w.cpus := by omega
    simp only [Nat.div_eq_of_lt h', Nat.mod_eq_of_lt h']
    rw [if_pos (by omega)]

theorem makeWitness_panics (w : Worker) {witness : List (List F)} {n T : ℕ} (hn : 0 < n) (ht : IsTable witness n T)
    (hT : ∀ k, T ≠ 2 ^ k) (hS : Nat.clog 2 T ≤ StarkField.S F) : makeWitnessPolynomials witness w = .panic := by
  obtain ⟨hl, hr⟩ := ht
  obtain ⟨r, rs, rfl⟩ := List.exists_cons_of_ne_nil (l := witness) (by intro e; subst e; simp at hl; omega)
  have hrl := hr r List.mem_cons_self
  unfold makeWitnessPolynomials
  have e0 : rd (r :: rs) 0 = .ok r := rfl
  simp only [e0, Res.ok_bind]
  have eall : (r :: rs).all (fun x => decide (r.length = x.length)) = true := by
    rw [List.all_eq_true]
    intro x hx
    rw [decide_eq_true_iff, hrl, hr x hx]
  rw [eall, hrl]
  simp only [Res.assert_true, Res.ok_bind]
  have ed : Domain.newForSize F (nextPow2 T) = .ok (domOf F (Nat.clog 2 T)) := newForSize_pow hS
  rw [ed]
  simp only [Res.ok_bind]
  have eh : witnessHint w (r :: rs).length = some 1 := witnessHint_one w (by simp)
  rw [eh]
  have eb : ∀ ω : F, bestFft w r ω (domOf F (Nat.clog 2 T)).powerOfTwo (some 1) = .panic := by
    intro ω
    unfold bestFft
    have hp := w.pos
    have hlog : log2Floor 1 = .ok 0 := by decide
    simp only [decide_eq_true (show 1 ≤ w.cpus by omega), Res.assert_true, Res.ok_bind, hlog, true_or, if_true]
    apply serialFft_panics
    · rw [hrl]; exact hT
    · rw [hrl]; exact Nat.le_pow_clog (by norm_num) _
  cases inverse (domOf F (Nat.clog 2 T)).generator with
  | none => rfl
  | some a =>
    simp only [Res.expect_some, Res.ok_bind]
    cases inverse (((domOf F (Nat.clog 2 T)).size : ℕ) : F) with
    | none => rfl
    | some b =>
      simp only [Res.expect_some, Res.ok_bind, mapRes, eb]
      rfl

/-- The call does not return an error. -/
def NoErr {α : Type} (r : Res α) : Prop := ∀ e, r ≠ .err e

theorem NoErr.bind {α β : Type} {r : Res α} {f : α → Res β} (h : NoErr r) (hf : ∀ a, NoErr (f a)) : NoErr (r >>= f) := by
  cases r with
  | ok a => exact hf a
  | err e => exact (h e rfl).elim
  | panic => exact fun e h => by cases h

theorem NoErr.ok {α : Type} (a : α) : NoErr (Res.ok a) := fun e h => by cases h

theorem NoErr.assert (b : Bool) : NoErr (Res.assert b) := by
  cases b <;> exact fun e h => by cases h

theorem NoErr.expect {α : Type} (o : Option α) : NoErr (Res.expect o) := by
  cases o <;> exact fun e h => by cases h

theorem NoErr.rd {α : Type} (l : List α) (i : ℕ) : NoErr (rd l i) := by
  unfold Hodor.rd
  cases l[i]? <;> exact fun e h => by cases h

theorem NoErr.forEach {α σ : Type} {l : List α} {s : σ} {body : α → σ → Res σ} (h : ∀ a ∈ l, ∀ s, NoErr (body a s)) :
    NoErr (Hodor.forEach l s body) := by
  induction l generalizing s with
  | nil => exact NoErr.ok _
  | cons a l ih => exact NoErr.bind (h a List.mem_cons_self s) (fun s' => ih (fun b hb => h b (List.mem_cons_of_mem _ hb)))

theorem panic_bind {α β : Type} {r : Res α} {f : α → Res β} (h : NoErr r) (hf : ∀ a, r = .ok a → f a = .panic) : (r >>= f) = .panic := by
  cases r with
  | ok a => exact hf a rfl
  | err e => exact (h e rfl).elim
  | panic => rfl

theorem forEach_panics {α σ : Type} {l : List α} {s : σ} {body : α → σ → Res σ} (h : ∀ a ∈ l, ∀ s, NoErr (body a s))
    (hp : ∃ a ∈ l, ∀ s, body a s = .panic) : forEach l s body = .panic := by
  induction l generalizing s with
  | nil => obtain ⟨a, ha, -⟩ := hp; simp at ha
  | cons a l ih =>
    obtain ⟨b, hb, hb'⟩ := hp
    rw [forEach]
    rcases List.mem_cons.1 hb with rfl | hb
    · rw [hb']; rfl
    · exact panic_bind (h a List.mem_cons_self s) (fun s' _ => ih (fun c hc => h c (List.mem_cons_of_mem _ hc)) ⟨b, hb, hb'⟩)

section
variable {w : Worker} {ali : AliInstance F} {subst : List (MaskProperties F × Poly F .coefficients)}

theorem noErr_mulAssign (p q : Poly F .values) : NoErr (p.mulAssign w q) := NoErr.bind (NoErr.assert _) (fun _ => NoErr.ok _)

theorem noErr_addAssign (p q : Poly F .values) : NoErr (p.addAssignV w q) := NoErr.bind (NoErr.assert _) (fun _ => NoErr.ok _)

theorem evaluateTerm_panics (t : ConstraintTerm F) (cache : TermCache F) {D : ℕ} (hD : ∀ j, D ≠ 2 ^ j) :
    evaluateConstraintTerm t subst cache D w = .panic := by
  unfold evaluateConstraintTerm
  have : isPow2 D = false := by
    rw [Bool.eq_false_iff]
    intro h
    obtain ⟨j, hj⟩ := isPow2_iff.1 h
    exact hD j hj
  rw [this]; rfl

theorem noErr_gConstraint (hch : ChallengeOk F) (hD : ∀ j, ali.maxConstraintPower ≠ 2 ^ j) (g : Poly F .values) (c : Constraint F)
    (s : GState F) : NoErr (gConstraint H ali w subst g c s) ∧ (c.terms ≠ [] → gConstraint H ali w subst g c s = .panic) := by
  have hadj : ∀ α β : F, NoErr (adjustmentOpt ali w (ali.maxConstraintPower - c.degree) α β) := by
    intro α β
    unfold adjustmentOpt
    split
    · exact NoErr.ok _
    · refine NoErr.bind ?_ (fun _ => NoErr.ok _)
      unfold adjustmentInCoset
      refine NoErr.bind (NoErr.assert _) (fun _ => NoErr.bind (NoErr.assert _) (fun _ => NoErr.bind ?_ (fun _ => NoErr.ok _)))
      unfold TraceSystem.unwrapRes
      split <;> exact fun e h => by cases h
  have happ : ∀ (α : F) (v : Poly F .values) a, NoErr (applyAdjustment w α v a) := by
    intro α v a
    cases a with
    | none => exact NoErr.ok _
    | some a => exact noErr_mulAssign _ _
  unfold gConstraint
  constructor
  · refine NoErr.bind (NoErr.assert _) (fun _ => ?_)
    simp only [getChallenge_ok H hch, Res.ok_bind]
    refine NoErr.bind (hadj _ _) (fun a => NoErr.bind (NoErr.forEach (fun t _ s => ?_)) (fun _ => ?_))
    · rw [evaluateTerm_panics t _ hD]; exact fun e h => by cases h
    · exact NoErr.bind (happ _ _ _) (fun _ => NoErr.bind (noErr_addAssign _ _) (fun _ => NoErr.ok _))
  · intro ht
    refine panic_bind (NoErr.assert _) (fun _ _ => ?_)
    simp only [getChallenge_ok H hch, Res.ok_bind]
    refine panic_bind (hadj _ _) (fun a _ => ?_)
    obtain ⟨t, ts, et⟩ := List.exists_cons_of_ne_nil ht
    rw [et]
    simp only [forEach, evaluateTerm_panics t _ hD]
    rfl

theorem noErr_gBatch (hch : ChallengeOk F) (hD : ∀ j, ali.maxConstraintPower ≠ 2 ^ j) (b : ConstraintDensity × List (Constraint F))
    (s : GState F) : NoErr (gBatch H ali w subst b s) ∧
      ((∃ c ∈ b.2, c.terms ≠ []) → gBatch H ali w subst b s = .panic) := by
  unfold gBatch
  constructor
  · exact NoErr.bind (NoErr.forEach (fun c _ s' => (noErr_gConstraint H hch hD _ c s').1)) (fun _ => NoErr.bind (NoErr.expect _)
      (fun _ => NoErr.bind (noErr_mulAssign _ _) (fun _ => NoErr.bind (noErr_addAssign _ _) (fun _ => NoErr.ok _))))
  · rintro ⟨c, hc, ht⟩
    rw [forEach_panics (fun c _ s' => (noErr_gConstraint H hch hD _ c s').1) ⟨c, hc, fun s' => (noErr_gConstraint H hch hD _ c s').2 ht⟩]
    rfl

end

omit [DecidableEq F] [StarkField F] in
theorem maskConstraints_inv {d : Domain F} {cs cs' : List (Constraint F)} (h : mapRes (maskConstraint d) cs = .ok cs') :
    cs'.map (fun c => c.degree) = cs.map (fun c => c.degree) ∧ ((∃ c ∈ cs, c.terms ≠ []) → ∃ c ∈ cs', c.terms ≠ []) := by
  induction cs generalizing cs' with
  | nil => cases h; simp
  | cons c cs ih =>
    unfold mapRes at h
    obtain ⟨c', h1, h⟩ := Res.bind_eq_ok.1 h
    obtain ⟨cs'', h2, h⟩ := Res.bind_eq_ok.1 h
    cases h
    unfold maskConstraint at h1
    obtain ⟨ts, h3, h1⟩ := Res.bind_eq_ok.1 h1
    cases h1
    obtain ⟨i1, i2⟩ := ih h2
    refine ⟨by simp [i1], ?_⟩
    rintro ⟨x, hx, hxt⟩
    rcases List.mem_cons.1 hx with rfl | hx
    · refine ⟨_, List.mem_cons_self, ?_⟩
      simp only
      intro e
      obtain ⟨y, ys, ey⟩ := List.exists_cons_of_ne_nil hxt
      rw [ey] at h3
      unfold mapRes at h3
      obtain ⟨z, -, h3⟩ := Res.bind_eq_ok.1 h3
      obtain ⟨zs, -, h3⟩ := Res.bind_eq_ok.1 h3
      rw [e] at h3
      cases h3
    · obtain ⟨y, hy, hyt⟩ := i2 ⟨x, hx, hxt⟩
      exact ⟨y, List.mem_cons_of_mem _ hy, hyt⟩

end Hodor

import Verif.Spec.ProverChallenges
import Verif.Props.ChallengeSchedule

/-! # Computations that depend on the transcript only through the challenges drawn -/

namespace Hodor

open Spec

variable {F : Type} [Field F] [DecidableEq F] [StarkField F]

omit [DecidableEq F] in
theorem Draws_append {H : List UInt8 → Digest} {l l' : List F} {t t' : Transcript} :
    Draws H t (l ++ l') t' ↔ ∃ t1, Draws H t l t1 ∧ Draws H t1 l' t' := by
  induction l generalizing t with
  | nil => simp [Draws]
  | cons c l ih =>
    simp only [List.cons_append, Draws, ih]
    constructor
    · rintro ⟨t1, h1, t2, h2, h3⟩; exact ⟨t2, ⟨t1, h1, h2⟩, h3⟩
    · rintro ⟨t2, ⟨t1, h1, h2⟩, h3⟩; exact ⟨t1, h1, t2, h2, h3⟩

/-- `f` draws `n` challenges from the transcript in its state, and depends on the transcript and the hash function only through them. -/
def Uses {σ : Type} (F : Type) [Field F] [StarkField F] (get : σ → Transcript) (set : σ → Transcript → σ) (n : ℕ)
    (f : (List UInt8 → Digest) → σ → Res σ) : Prop :=
  ∀ H s s', f H s = .ok s' → ∃ l : List F, l.length = n ∧ Draws H (get s) l (get s') ∧
    ∀ H' t t', Draws H' t l t' → f H' (set s t) = .ok (set s' t')

omit [DecidableEq F] in
theorem Uses.forEach {σ α : Type} {get : σ → Transcript} {set : σ → Transcript → σ} {n : α → ℕ}
    {f : (List UInt8 → Digest) → α → σ → Res σ} (h : ∀ a, Uses F get set (n a) (fun H => f H a)) (l : List α) :
    Uses F get set (l.map n).sum (fun H s => Hodor.forEach l s (f H)) := by
  induction l with
  | nil =>
    intro H s s' e
    cases e
    refine ⟨[], rfl, rfl, ?_⟩
    intro H' t t' e
    cases e
    rfl
  | cons a l ih =>
    intro H s s' e
    obtain ⟨s1, e1, e2⟩ := forEach_eq_ok_cons.1 e
    obtain ⟨l1, n1, d1, u1⟩ := h a H s s1 e1
    obtain ⟨l2, n2, d2, u2⟩ := ih H s1 s' e2
    refine ⟨l1 ++ l2, by simp [n1, n2], Draws_append.2 ⟨_, d1, d2⟩, ?_⟩
    intro H' t t' d
    obtain ⟨t1, da, db⟩ := Draws_append.1 d
    exact forEach_eq_ok_cons.2 ⟨_, u1 H' t t1 da, u2 H' t1 t' db⟩

/-- The state of `calculate_g` with another transcript. -/
def gSet (s : GState F) (t : Transcript) : GState F := { s with transcript := t }

theorem gConstraint_uses (inst : AliInstance F) (w : Worker) (subst : List (MaskProperties F × Poly F .coefficients)) (g : Poly F .values)
    (c : Constraint F) : Uses F GState.transcript gSet 2 (fun H => gConstraint H inst w subst g c) := by
  intro H s s' e
  unfold gConstraint at e
  obtain ⟨_, e1, e⟩ := Res.bind_eq_ok.1 e
  obtain ⟨x, e2, e⟩ := Res.bind_eq_ok.1 e
  obtain ⟨y, e3, e⟩ := Res.bind_eq_ok.1 e
  obtain ⟨adj, e4, e⟩ := Res.bind_eq_ok.1 e
  obtain ⟨v, e5, e⟩ := Res.bind_eq_ok.1 e
  obtain ⟨v1, e6, e⟩ := Res.bind_eq_ok.1 e
  obtain ⟨b, e7, e⟩ := Res.bind_eq_ok.1 e
  cases e
  refine ⟨[x.1, y.1], rfl, ⟨_, e2, _, e3, rfl⟩, ?_⟩
  rintro H' t t' ⟨t1, d1, t2, d2, d3⟩
  cases d3
  exact Res.bind_eq_ok.2 ⟨_, e1, Res.bind_eq_ok.2 ⟨_, d1, Res.bind_eq_ok.2 ⟨_, d2, Res.bind_eq_ok.2 ⟨_, e4, Res.bind_eq_ok.2 ⟨_, e5,
    Res.bind_eq_ok.2 ⟨_, e6, Res.bind_eq_ok.2 ⟨_, e7, rfl⟩⟩⟩⟩⟩⟩⟩

theorem gBatch_uses (inst : AliInstance F) (w : Worker) (subst : List (MaskProperties F × Poly F .coefficients))
    (b : ConstraintDensity × List (Constraint F)) :
    Uses F GState.transcript gSet (2 * b.2.length) (fun H => gBatch H inst w subst b) := by
  intro H s s' e
  unfold gBatch at e
  obtain ⟨r, e1, e⟩ := Res.bind_eq_ok.1 e
  obtain ⟨d, e2, e⟩ := Res.bind_eq_ok.1 e
  obtain ⟨v, e3, e⟩ := Res.bind_eq_ok.1 e
  obtain ⟨g, e4, e⟩ := Res.bind_eq_ok.1 e
  cases e
  obtain ⟨l, n, d1, u⟩ := Uses.forEach (fun c => gConstraint_uses inst w subst s.batch c) b.2 H s r e1
  refine ⟨l, by rw [n]; simp [Nat.mul_comm], d1, ?_⟩
  intro H' t t' d'
  exact Res.bind_eq_ok.2 ⟨_, u H' t t' d', Res.bind_eq_ok.2 ⟨_, e2, Res.bind_eq_ok.2 ⟨_, e3, Res.bind_eq_ok.2 ⟨_, e4, rfl⟩⟩⟩⟩

theorem gBoundary_uses (inst : AliInstance F) (w : Worker) (witness : List (Poly F .coefficients)) (b : BoundaryConstraint F) :
    Uses F GState.transcript gSet 2 (fun H => gBoundary H inst w witness b) := by
  intro H s s' e
  unfold gBoundary at e
  obtain ⟨x, e2, e⟩ := Res.bind_eq_ok.1 e
  obtain ⟨y, e3, e⟩ := Res.bind_eq_ok.1 e
  obtain ⟨_, e1, e⟩ := Res.bind_eq_ok.1 e
  obtain ⟨adj, e4, e⟩ := Res.bind_eq_ok.1 e
  obtain ⟨r, e5, e⟩ := Res.bind_eq_ok.1 e
  obtain ⟨p, e6, e⟩ := Res.bind_eq_ok.1 e
  obtain ⟨val, e7, e⟩ := Res.bind_eq_ok.1 e
  obtain ⟨c0, e8, e⟩ := Res.bind_eq_ok.1 e
  obtain ⟨c, e9, e⟩ := Res.bind_eq_ok.1 e
  obtain ⟨v, e10, e⟩ := Res.bind_eq_ok.1 e
  obtain ⟨v1, e11, e⟩ := Res.bind_eq_ok.1 e
  obtain ⟨d, e12, e⟩ := Res.bind_eq_ok.1 e
  obtain ⟨v2, e13, e⟩ := Res.bind_eq_ok.1 e
  obtain ⟨g, e14, e⟩ := Res.bind_eq_ok.1 e
  cases e
  refine ⟨[x.1, y.1], rfl, ⟨_, e2, _, e3, rfl⟩, ?_⟩
  rintro H' t t' ⟨t1, d1, t2, d2, d3⟩
  cases d3
  unfold gBoundary
  simp only [gSet, e1, d1, d2, e4, e5, e6, e7, e8, e9, e10, e11, e12, e13, e14, Res.ok_bind, Res.pure_def]

theorem calculateG_uses {H : List UInt8 → Digest} {inst : AliInstance F} {t t1 : Transcript} {witness : List (Poly F .coefficients)} {w : Worker}
    {G : Poly F .coefficients} (h : inst.calculateG H t witness w = .ok (G, t1)) :
    ∃ l l' : List F, l.length = 2 * (inst.constraintsBatchedByDensity.flatMap (fun b => b.2)).length ∧
      l'.length = 2 * inst.properties.boundaryConstraints.length ∧ Draws H t (l ++ l') t1 ∧
      ∀ H' t t', Draws H' t (l ++ l') t' → inst.calculateG H' t witness w = .ok (G, t') := by
  unfold AliInstance.calculateG at h
  obtain ⟨_, e1, h⟩ := Res.bind_eq_ok.1 h
  obtain ⟨g, e2, h⟩ := Res.bind_eq_ok.1 h
  obtain ⟨sb, e3, h⟩ := Res.bind_eq_ok.1 h
  obtain ⟨s1, e4, h⟩ := Res.bind_eq_ok.1 h
  obtain ⟨s2, e5, h⟩ := Res.bind_eq_ok.1 h
  obtain ⟨p, e6, h⟩ := Res.bind_eq_ok.1 h
  cases h
  obtain ⟨l, n, d, u⟩ := Uses.forEach (fun b => gBatch_uses inst w sb b) inst.constraintsBatchedByDensity H _ _ e4
  obtain ⟨l', n', d', u'⟩ := Uses.forEach (fun b => gBoundary_uses inst w witness b) inst.properties.boundaryConstraints H _ _ e5
  refine ⟨l, l', ?_, by rw [n']; simp [Nat.mul_comm], Draws_append.2 ⟨_, d, d'⟩, ?_⟩
  · rw [n]
    generalize inst.constraintsBatchedByDensity = bs
    clear u u' d d' n n' e3 e4 e5 e6
    induction bs with
    | nil => rfl
    | cons b bs ih => simp only [List.map_cons, List.sum_cons, List.flatMap_cons, List.length_append, ih]; ring
  · intro H' t t' hd
    obtain ⟨t1, da, db⟩ := Draws_append.1 hd
    have a1 := u H' t t1 da
    have a2 := u' H' t1 t' db
    unfold AliInstance.calculateG
    simp only [gSet] at a1 a2
    simp only [e1, e2, e3, Res.ok_bind, a1, a2, e6, Res.pure_def]

/-- The state of `calculate_deep` with another transcript. -/
def dSet (s : DeepState F) (t : Transcript) : DeepState F := { s with transcript := t }

theorem deepMask_uses (fPolys : List (Poly F .coefficients)) (fLdes : List (Poly F .values)) (size : ℕ) (z : F) (w : Worker) (m : MaskProperties F) :
    Uses F DeepState.transcript dSet 1 (fun H => deepMask H fPolys fLdes size z w m) := by
  intro H s s' e
  unfold deepMask at e
  obtain ⟨mk, e1, e⟩ := Res.bind_eq_ok.1 e
  obtain ⟨r, e2, e⟩ := Res.bind_eq_ok.1 e
  obtain ⟨p, e3, e⟩ := Res.bind_eq_ok.1 e
  obtain ⟨d, e4, e⟩ := Res.bind_eq_ok.1 e
  obtain ⟨f, e5, e⟩ := Res.bind_eq_ok.1 e
  obtain ⟨x, e6, e⟩ := Res.bind_eq_ok.1 e
  obtain ⟨f1, e7, e⟩ := Res.bind_eq_ok.1 e
  obtain ⟨h1, e8, e⟩ := Res.bind_eq_ok.1 e
  cases e
  refine ⟨[x.1], rfl, ⟨_, e6, rfl⟩, ?_⟩
  rintro H' t t' ⟨t1, d1, d2⟩
  cases d2
  unfold deepMask
  simp only [dSet, e1, e2, e3, e4, e5, d1, e7, e8, Res.ok_bind, Res.pure_def]

theorem calculateDeep_uses {H : List UInt8 → Digest} {inst : AliInstance F} {t : Transcript} {fPolys : List (Poly F .coefficients)}
    {fLdes : List (Poly F .values)} {G : Poly F .coefficients} {gLde : Poly F .values} {w : Worker} {r : DeepResult F}
    (h : inst.calculateDeep H fPolys fLdes G gLde t w = .ok r) :
    ∃ (z : F) (l : List F), l.length = inst.allMasks.length ∧ Draws H t (z :: l) r.transcript ∧
      ∀ H' t t', Draws H' t (z :: l) t' → inst.calculateDeep H' fPolys fLdes G gLde t w = .ok { r with transcript := t' } := by
  unfold AliInstance.calculateDeep at h
  obtain ⟨x, e1, h⟩ := Res.bind_eq_ok.1 h
  obtain ⟨f0, e2, h⟩ := Res.bind_eq_ok.1 h
  obtain ⟨h1, e3, h⟩ := Res.bind_eq_ok.1 h
  obtain ⟨s, e4, h⟩ := Res.bind_eq_ok.1 h
  obtain ⟨inv, e5, h⟩ := Res.bind_eq_ok.1 h
  obtain ⟨h2, e6, h⟩ := Res.bind_eq_ok.1 h
  cases h
  obtain ⟨l, n, d, u⟩ := Uses.forEach (fun m => deepMask_uses fPolys fLdes f0.size x.1 w m) inst.allMasks H _ _ e4
  refine ⟨x.1, l, by rw [n]; simp, ⟨_, e1, d⟩, ?_⟩
  rintro H' t t' ⟨t1, d1, d2⟩
  have a1 := u H' t1 t' d2
  unfold AliInstance.calculateDeep
  simp only [dSet] at a1
  simp only [d1, e2, e3, Res.ok_bind, a1, e5, e6, Res.pure_def]

/-! ### The verifier draws the same challenges -/

omit [DecidableEq F] in
/-- A list of even length is a list of pairs. -/
theorem exists_pairs : ∀ (n : ℕ) (l : List F), l.length = 2 * n → ∃ ps : List (F × F), ps.length = n ∧ pairChallenges ps = l
  | 0, l, h => ⟨[], rfl, by rw [Nat.mul_zero, List.length_eq_zero_iff] at h; rw [h]; rfl⟩
  | n + 1, l, h => by
    match l, h with
    | a :: b :: l, h =>
      obtain ⟨ps, h1, h2⟩ := exists_pairs n l (by simp at h; omega)
      exact ⟨(a, b) :: ps, by simp [h1], by rw [← h2]; rfl⟩

omit [DecidableEq F] in
theorem drawPairs_of_draws {H : List UInt8 → Digest} {α : Type} (l : List α) (ps : List (F × F)) (hl : ps.length = l.length) {t t' : Transcript}
    (h : Draws H t (pairChallenges ps) t') (acc : List (F × F)) :
    forEach l (acc, t) (fun _ s => drawPair H s) = .ok (acc ++ ps, t') := by
  induction l generalizing ps t acc with
  | nil =>
    rw [List.length_nil, List.length_eq_zero_iff] at hl
    subst hl
    cases h
    simp [forEach]
  | cons a l ih =>
    match ps, hl with
    | p :: ps, hl =>
      obtain ⟨t1, d1, t2, d2, d3⟩ := h
      refine forEach_eq_ok_cons.2 ⟨(acc ++ [(p.1, p.2)], t2), ?_, ?_⟩
      · unfold drawPair
        simp only [d1, d2, Res.ok_bind, Res.pure_def]
      · rw [ih ps (by simpa using hl) d3]
        simp

omit [DecidableEq F] in
theorem drawOnes_of_draws {H : List UInt8 → Digest} {α : Type} (l : List α) (ps : List F) (hl : ps.length = l.length) {t t' : Transcript}
    (h : Draws H t ps t') (acc : List F) :
    forEach l (acc, t) (fun _ s => drawOne H s) = .ok (acc ++ ps, t') := by
  induction l generalizing ps t acc with
  | nil =>
    rw [List.length_nil, List.length_eq_zero_iff] at hl
    subst hl
    cases h
    simp [forEach]
  | cons a l ih =>
    match ps, hl with
    | p :: ps, hl =>
      obtain ⟨t1, d1, d2⟩ := h
      refine forEach_eq_ok_cons.2 ⟨(acc ++ [p], t1), ?_, ?_⟩
      · unfold drawOne
        simp only [d1, Res.ok_bind, Res.pure_def]
      · rw [ih ps (by simpa using hl) d2]
        simp

end Hodor

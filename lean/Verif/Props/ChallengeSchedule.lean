import Verif.Spec.ChallengeSchedule
import Verif.Props.Verify

/-!
# C55: the exact challenge schedule of the verifier
-/

namespace Hodor

open Spec

variable {F : Type} [Field F] [DecidableEq F] [StarkField F] (H : List UInt8 → Digest)

theorem drawn_add (s : List UInt8) (m n : ℕ) : drawn H (drawn H s m) n = drawn H s (m + n) := by
  induction n with
  | zero => rfl
  | succ n ih => rw [← Nat.add_assoc, drawn, drawn, ih]

theorem draw_add (s : List UInt8) (m n : ℕ) : draw H (drawn H s m) n = draw H s (m + n) := by
  unfold draw; rw [drawn_add]

omit [DecidableEq F] in
theorem getChallenge_inv {t : Transcript} {x : F × Transcript} (h : t.getChallenge H = .ok x) :
    interpretHash (draw H t.absorbed 0) = .ok x.1 ∧ x.2.absorbed = drawn H t.absorbed 1 := by
  unfold Transcript.getChallenge at h
  obtain ⟨c, hc, h⟩ := Res.bind_eq_ok.1 h
  cases h
  exact ⟨hc, rfl⟩

omit [DecidableEq F] in
theorem drawPairs_schedule {α : Type} (l : List α) {s s' : List (F × F) × Transcript} (h : forEach l s (fun _ s => drawPair H s) = .ok s') :
    s'.2.absorbed = drawn H s.2.absorbed (2 * l.length) ∧ ∃ ps, s'.1 = s.1 ++ ps ∧ ps.length = l.length ∧
      ∀ i, i < l.length → ∃ alpha beta, ps[i]? = some (alpha, beta) ∧
        interpretHash (draw H s.2.absorbed (2 * i)) = .ok alpha ∧ interpretHash (draw H s.2.absorbed (2 * i + 1)) = .ok beta := by
  induction l generalizing s with
  | nil => cases h; exact ⟨rfl, [], by simp, rfl, fun i hi => by simp at hi⟩
  | cons a l ih =>
    obtain ⟨s1, h1, h2⟩ := forEach_eq_ok_cons.1 h
    obtain ⟨e, ps, hps, hl, hi⟩ := ih h2
    unfold drawPair at h1
    obtain ⟨x, hx, h1⟩ := Res.bind_eq_ok.1 h1
    obtain ⟨y, hy, h1⟩ := Res.bind_eq_ok.1 h1
    cases h1
    obtain ⟨x1, x2⟩ := getChallenge_inv H hx
    obtain ⟨y1, y2⟩ := getChallenge_inv H hy
    simp only at e hps hi
    rw [x2] at y1 y2
    rw [drawn_add] at y2
    rw [draw_add] at y1
    rw [y2] at e hi
    refine ⟨by rw [e, drawn_add]; congr 1; simp only [List.length_cons]; omega, (x.1, y.1) :: ps, by rw [hps]; simp, by simp [hl], ?_⟩
    intro i hi'
    cases i with
    | zero => exact ⟨x.1, y.1, rfl, x1, y1⟩
    | succ i =>
      obtain ⟨al, be, q1, q2, q3⟩ := hi i (by simp at hi'; omega)
      refine ⟨al, be, by simpa using q1, ?_, ?_⟩
      · rw [← q2, draw_add]; congr 2; omega
      · rw [← q3, draw_add]; congr 2; omega

omit [DecidableEq F] in
theorem drawOnes_schedule {α : Type} (l : List α) {s s' : List F × Transcript} (h : forEach l s (fun _ s => drawOne H s) = .ok s') :
    s'.2.absorbed = drawn H s.2.absorbed l.length ∧ ∃ ps, s'.1 = s.1 ++ ps ∧ ps.length = l.length ∧
      ∀ i, i < l.length → ∃ alpha, ps[i]? = some alpha ∧ interpretHash (draw H s.2.absorbed i) = .ok alpha := by
  induction l generalizing s with
  | nil => cases h; exact ⟨rfl, [], by simp, rfl, fun i hi => by simp at hi⟩
  | cons a l ih =>
    obtain ⟨s1, h1, h2⟩ := forEach_eq_ok_cons.1 h
    obtain ⟨e, ps, hps, hl, hi⟩ := ih h2
    unfold drawOne at h1
    obtain ⟨x, hx, h1⟩ := Res.bind_eq_ok.1 h1
    cases h1
    obtain ⟨x1, x2⟩ := getChallenge_inv H hx
    simp only at e hps hi
    rw [x2] at e hi
    refine ⟨by rw [e, drawn_add]; congr 1; simp only [List.length_cons]; omega, x.1 :: ps, by rw [hps]; simp, by simp [hl], ?_⟩
    intro i hi'
    cases i with
    | zero => exact ⟨x.1, rfl, x1⟩
    | succ i =>
      obtain ⟨al, q1, q2⟩ := hi i (by simp at hi'; omega)
      refine ⟨al, by simpa using q1, ?_⟩
      rw [← q2, draw_add]; congr 2; omega

theorem forEach_app {α σ : Type} (l l' : List α) (s : σ) (f : α → σ → Res σ) :
    forEach (l ++ l') s f = (forEach l s f >>= fun s => forEach l' s f) := by
  induction l generalizing s with
  | nil => rfl
  | cons a l ih =>
    show (f a s >>= fun s => forEach (l ++ l') s f) = ((f a s >>= fun s => forEach l s f) >>= _)
    rw [bind_assoc]
    congr 1
    funext s
    exact ih s

theorem forEach_nested {α β σ : Type} (l : List (β × List α)) (s : σ) (f : α → σ → Res σ) :
    forEach l s (fun b s => forEach b.2 s f) = forEach (l.flatMap (fun b => b.2)) s f := by
  induction l generalizing s with
  | nil => rfl
  | cons a l ih =>
    rw [List.flatMap_cons, forEach_app]
    show (forEach a.2 s f >>= fun s => forEach l s (fun b s => forEach b.2 s f)) = _
    congr 1
    funext s
    exact ih s

theorem absorb_roots (roots : List Digest) (t : Transcript) :
    (roots.foldl (fun t r => t.commitBytes r.bytes) t).absorbed = t.absorbed ++ rootBytes roots := by
  induction roots generalizing t with
  | nil => simp [rootBytes]
  | cons r roots ih =>
    rw [List.foldl_cons, ih]
    simp [Transcript.commitBytes, rootBytes]

omit [DecidableEq F] in
theorem absorb_elements (l : List F) (t : Transcript) :
    (l.foldl (fun t x => t.commitFieldElement x) t).absorbed = t.absorbed ++ l.flatMap encodeElement := by
  induction l generalizing t with
  | nil => simp
  | cons r roots ih =>
    rw [List.foldl_cons, ih]
    simp [Transcript.commitFieldElement, Transcript.commitBytes]

omit [DecidableEq F] in
theorem absorb_final (t : Transcript) (r : Digest) (l : List F) :
    (commitFinal t r l).absorbed = t.absorbed ++ finalBytes r l := by
  unfold commitFinal finalBytes
  rw [absorb_elements]
  simp [Transcript.commitBytes]

/-- **C55** (exact schedule): whenever the verifier derives challenges, each of them is the challenge that the protocol prescribes: which bytes are hashed for it is
spelled out by `Spec.Schedule`. -/
theorem C55_exact_schedule (v : Verifier F) (proof : InstanceProof F) (ch : Challenges F) (d1 d2 : Domain F)
    (h : v.deriveChallenges H proof = .ok (ch, d1, d2)) :
    Schedule H (v.constraintsBatchedByDensity.flatMap (fun b => b.2)).length v.inst.boundaryConstraints.length v.allMasks.length
      (v.columnDomain.size * v.ldeFactor) (v.constraintsDomain.size * v.ldeFactor) v.ldeFactor proof ch := by
  unfold Verifier.deriveChallenges at h
  obtain ⟨t, e0, h⟩ := Res.bind_eq_ok.1 h
  obtain ⟨x1, e1, h⟩ := Res.bind_eq_ok.1 h
  obtain ⟨x2, e2, h⟩ := Res.bind_eq_ok.1 h
  obtain ⟨x3, e3, h⟩ := Res.bind_eq_ok.1 h
  obtain ⟨x4, e4, h⟩ := Res.bind_eq_ok.1 h
  obtain ⟨r1, e5, h⟩ := Res.bind_eq_ok.1 h
  obtain ⟨r2, e6, h⟩ := Res.bind_eq_ok.1 h
  obtain ⟨_, -, h⟩ := Res.bind_eq_ok.1 h
  obtain ⟨_, -, h⟩ := Res.bind_eq_ok.1 h
  obtain ⟨i1, e7, h⟩ := Res.bind_eq_ok.1 h
  obtain ⟨i2, e8, h⟩ := Res.bind_eq_ok.1 h
  cases h
  have ht : t.absorbed = [] := by
    unfold Transcript.new at e0
    obtain ⟨_, -, e0⟩ := Res.bind_eq_ok.1 e0
    cases e0; rfl
  rw [forEach_nested] at e1
  obtain ⟨a1, p1, q1, l1, s1⟩ := drawPairs_schedule H _ e1
  obtain ⟨a2, p2, q2, l2, s2⟩ := drawPairs_schedule H _ e2
  obtain ⟨c3, a3⟩ := getChallenge_inv H e3
  obtain ⟨a4, p4, q4, l4, s4⟩ := drawOnes_schedule H _ e4
  simp only [absorb_roots, ht, List.nil_append] at a1 s1 q1
  simp only [a1, List.nil_append] at a2 s2 q2
  rw [drawn_add, ← Nat.mul_add] at a2
  simp only [Transcript.commitBytes, a2] at c3 a3
  simp only [a3, List.nil_append] at a4 s4 q4
  rw [drawn_add] at a4
  refine ⟨⟨by rw [q1]; exact l1, ?_⟩, ⟨by rw [q2]; exact l2, ?_⟩, c3, ⟨by rw [q4]; exact l4, ?_⟩, r1, r2, Res.expect_eq_ok.1 e5, Res.expect_eq_ok.1 e6, _, rfl, ?_, ?_⟩
  · intro i hi
    rw [q1]; exact s1 i hi
  · intro i hi
    obtain ⟨al, be, b1, b2, b3⟩ := s2 i hi
    refine ⟨al, be, by rw [q2]; exact b1, ?_, ?_⟩
    · rw [← b2, draw_add, Nat.mul_add]
    · rw [← b3, draw_add, Nat.mul_add, Nat.add_assoc]
  · intro i hi
    obtain ⟨al, b1, b2⟩ := s4 i hi
    refine ⟨al, by rw [q4]; exact b1, ?_⟩
    rw [← b2, draw_add]; congr 2; omega
  · have : (Transcript.getChallengeBytes H (commitFinal (commitFinal x4.2 r1 proof.friProofH1.finalCoefficients) r2 proof.friProofH2.finalCoefficients)).1 =
        (H ((commitFinal (commitFinal x4.2 r1 proof.friProofH1.finalCoefficients) r2 proof.friProofH2.finalCoefficients).absorbed)).bytes := rfl
    simp only [this, absorb_final, a4] at e7
    exact e7
  · have : ∀ t : Transcript, (Transcript.getChallengeBytes H (Transcript.getChallengeBytes H t).2).1 = (draw H t.absorbed 1).bytes := fun t => rfl
    simp only [this, absorb_final, a4] at e8
    exact e8

/-! ### A concrete instance -/

/-- Numbers of challenges derived for the honest Fibonacci proof, and its query positions. -/
def derivedCounts : Res (ℕ × ℕ × ℕ × ℕ × ℕ) := do
  let inst := fibInst Fr 2 1 1
  let prover ← Prover.new ⟨1, by norm_num⟩ inst 2 1
  let v ← Verifier.new inst 2
  let proof ← prover.prove toyHash [[1, 1, 2, 3], [1, 2, 3, 5]]
  let x ← v.deriveChallenges toyHash proof
  pure (x.1.constraintChallenges.length, x.1.boundaryChallenges.length, x.1.h1Challenges.length, x.1.idx1, x.1.idx2)

example : derivedCounts = .ok (2, 2, 4, 5, 7) := by decide +kernel

end Hodor

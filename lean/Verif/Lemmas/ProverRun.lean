import Verif.Lemmas.Sizes
import Verif.Lemmas.Draws

/-! # Sizes of the polynomials of a successful prover run, and the FRI roots it commits to -/

namespace Hodor

open Spec

variable {F : Type} [Field F] [DecidableEq F] [StarkField F]

theorem nextPow2_idem (n : ℕ) : nextPow2 (nextPow2 n) = nextPow2 n := nextPow2_pow _

theorem domain_size {s : ℕ} {d : Domain F} (h : Domain.newForSize F s = .ok d) : d.size = nextPow2 s := by
  obtain ⟨K, -, rfl, hK⟩ := newForSize_inv h
  exact hK

theorem newForSize_congr {s s' : ℕ} (h : nextPow2 s = nextPow2 s') : Domain.newForSize F s = Domain.newForSize F s' := by
  have : Nat.clog 2 s = Nat.clog 2 s' := Nat.pow_right_injective (le_refl 2) h
  rw [newForSize_eq, newForSize_eq, this]

theorem ofVec_domain {P : Form} {l : List F} {p : Poly F P} (h : Poly.ofVec l = .ok p) : ∃ d, Domain.newForSize F l.length = .ok d := by
  unfold Poly.ofVec at h
  obtain ⟨d, h1, -⟩ := Res.bind_eq_ok.1 h
  exact ⟨d, h1⟩

theorem nextPow2_mul {k m : ℕ} (hm : 1 ≤ m) : nextPow2 (2 ^ k * m) = 2 ^ k * nextPow2 m := by
  unfold nextPow2
  rw [← pow_add]
  congr 1
  apply le_antisymm
  · rw [Nat.clog_le_iff_le_pow (by norm_num), pow_add]
    exact Nat.mul_le_mul_left _ (Nat.le_pow_clog (by norm_num) _)
  · rcases Nat.lt_or_ge m 2 with h | h
    · have : m = 1 := by omega
      subst this
      rw [Nat.clog_one_right, Nat.add_zero, Nat.mul_one, Nat.clog_pow _ _ (by norm_num)]
    · have h1 := Nat.pow_pred_clog_lt_self (b := 2) (by norm_num) h
      have hp := Nat.clog_pos (b := 2) (by norm_num) h
      have : k + (Nat.clog 2 m).pred < Nat.clog 2 (2 ^ k * m) := by
        rw [Nat.lt_clog_iff_pow_lt (by norm_num), pow_add]
        exact Nat.mul_lt_mul_of_pos_left h1 (by positivity)
      rw [Nat.pred_eq_sub_one] at this
      omega

theorem mem_mapRes {α β : Type} {f : α → Res β} {l : List α} {l' : List β} (h : mapRes f l = .ok l') : ∀ y ∈ l', ∃ x ∈ l, f x = .ok y := by
  induction l generalizing l' with
  | nil => cases h; simp
  | cons a l ih =>
    obtain ⟨y, h1, h⟩ := Res.bind_eq_ok.1 h
    obtain ⟨ys, h2, h⟩ := Res.bind_eq_ok.1 h
    cases h
    intro z hz
    rcases List.mem_cons.1 hz with rfl | hz
    · exact ⟨a, by simp, h1⟩
    · obtain ⟨x, hx, e⟩ := ih h2 z hz
      exact ⟨x, by simp [hx], e⟩

/-- The witness polynomials have as many coefficients as the column domain has points. -/
theorem witnessPolys_size {inst : InstanceProperties F} {witness : List (List F)} {w : Worker} {polys : List (Poly F .coefficients)}
    (h : calculateWitnessPolys inst witness w = .ok polys) : ∀ p ∈ polys, p.size = nextPow2 inst.numRows := by
  unfold calculateWitnessPolys at h
  obtain ⟨row0, h0, h⟩ := Res.bind_eq_ok.1 h
  obtain ⟨_, h1, h⟩ := Res.bind_eq_ok.1 h
  split at h
  · cases h
  split at h
  · cases h
  rename_i hr
  rw [ne_eq, not_not] at hr
  unfold makeWitnessPolynomials at h
  obtain ⟨_, -, h⟩ := Res.bind_eq_ok.1 h
  obtain ⟨_, -, h⟩ := Res.bind_eq_ok.1 h
  obtain ⟨_, -, h⟩ := Res.bind_eq_ok.1 h
  obtain ⟨_, -, h⟩ := Res.bind_eq_ok.1 h
  obtain ⟨_, -, h⟩ := Res.bind_eq_ok.1 h
  obtain ⟨rows, h2, h⟩ := Res.bind_eq_ok.1 h
  intro p hp
  obtain ⟨r, hr1, e⟩ := mem_mapRes h p hp
  obtain ⟨x, hx, e2⟩ := mem_mapRes h2 r hr1
  have h1 := Res.assert_eq_ok.1 h1
  rw [List.all_eq_true] at h1
  have := h1 x hx
  rw [decide_eq_true_eq] at this
  rw [Poly.ofVec_size e, parMap_length, bestFft_length e2, ← this, hr]

theorem gConstraint_size {H : List UInt8 → Digest} {inst : AliInstance F} {w : Worker} {subst : List (MaskProperties F × Poly F .coefficients)}
    {g : Poly F .values} {c : Constraint F} {s s' : GState F} (h : gConstraint H inst w subst g c s = .ok s') : s'.batch.size = s.batch.size := by
  unfold gConstraint at h
  obtain ⟨_, e1, e⟩ := Res.bind_eq_ok.1 h
  obtain ⟨x, e2, e⟩ := Res.bind_eq_ok.1 e
  obtain ⟨y, e3, e⟩ := Res.bind_eq_ok.1 e
  obtain ⟨adj, e4, e⟩ := Res.bind_eq_ok.1 e
  obtain ⟨v, e5, e⟩ := Res.bind_eq_ok.1 e
  obtain ⟨v1, e6, e⟩ := Res.bind_eq_ok.1 e
  obtain ⟨b, e7, e⟩ := Res.bind_eq_ok.1 e
  cases e
  exact Poly.addAssignV_size e7

theorem calculateG_size {H : List UInt8 → Digest} {inst : AliInstance F} {t t1 : Transcript} {witness : List (Poly F .coefficients)} {w : Worker}
    {G : Poly F .coefficients} (h : inst.calculateG H t witness w = .ok (G, t1)) : G.size = nextPow2 inst.constraintsDomain.size := by
  unfold AliInstance.calculateG at h
  obtain ⟨_, e1, h⟩ := Res.bind_eq_ok.1 h
  obtain ⟨g, e2, h⟩ := Res.bind_eq_ok.1 h
  obtain ⟨sb, e3, h⟩ := Res.bind_eq_ok.1 h
  obtain ⟨s1, e4, h⟩ := Res.bind_eq_ok.1 h
  obtain ⟨s2, e5, h⟩ := Res.bind_eq_ok.1 h
  obtain ⟨p, e6, h⟩ := Res.bind_eq_ok.1 h
  cases h
  have hg : g.size = nextPow2 inst.constraintsDomain.size := by
    rw [Poly.ofVec_size e2, List.length_replicate]
  have h1 : s1.batch.size = g.size := by
    refine forEach_ok_inv (fun s : GState F => s.batch.size = g.size) _ _ ?_ _ _ rfl e4
    intro b _ s s' hs e
    unfold gBatch at e
    obtain ⟨r, q1, e⟩ := Res.bind_eq_ok.1 e
    obtain ⟨d, q2, e⟩ := Res.bind_eq_ok.1 e
    obtain ⟨v, q3, e⟩ := Res.bind_eq_ok.1 e
    obtain ⟨g, q4, e⟩ := Res.bind_eq_ok.1 e
    cases e
    exact (Poly.addAssignV_size q4).trans hs
  have h2 : s2.batch.size = g.size := by
    refine forEach_ok_inv (fun s : GState F => s.batch.size = g.size) _ _ ?_ _ _ h1 e5
    intro b _ s s' hs e
    unfold gBoundary at e
    obtain ⟨x, e2, e⟩ := Res.bind_eq_ok.1 e
    obtain ⟨y, e3, e⟩ := Res.bind_eq_ok.1 e
    obtain ⟨_, e1, e⟩ := Res.bind_eq_ok.1 e
    obtain ⟨adj, e4, e⟩ := Res.bind_eq_ok.1 e
    obtain ⟨r, e5, e⟩ := Res.bind_eq_ok.1 e
    obtain ⟨p, e6, e⟩ := Res.bind_eq_ok.1 e
    obtain ⟨val, e7, e⟩ := Res.bind_eq_ok.1 e
    obtain ⟨c0, e8, e⟩ := Res.bind_eq_ok.1 e
    obtain ⟨c, e9, e⟩ := Res.bind_eq_ok.1 e
    obtain ⟨v, e10, e⟩ := Res.bind_eq_ok.1 e
    obtain ⟨v1, e11, e⟩ := Res.bind_eq_ok.1 e
    obtain ⟨d, e12, e⟩ := Res.bind_eq_ok.1 e
    obtain ⟨v2, e13, e⟩ := Res.bind_eq_ok.1 e
    obtain ⟨g', e14, e⟩ := Res.bind_eq_ok.1 e
    cases e
    exact (Poly.addAssignV_size e14).trans hs
  rw [Poly.icosetFft_size e6, h2, hg]

/-- Sizes of the DEEP words; the domains of their sizes exist. -/
theorem calculateDeep_size {H : List UInt8 → Digest} {inst : AliInstance F} {t : Transcript} {fPolys : List (Poly F .coefficients)}
    {fLdes : List (Poly F .values)} {G : Poly F .coefficients} {gLde : Poly F .values} {w : Worker} {r : DeepResult F}
    (h : inst.calculateDeep H fPolys fLdes G gLde t w = .ok r) :
    (∃ f0 ∈ fLdes, r.h1.size = nextPow2 f0.size ∧ ∃ d, Domain.newForSize F f0.size = .ok d) ∧
      r.h2.size = gLde.size ∧ ∃ d, Domain.newForSize F gLde.size = .ok d := by
  unfold AliInstance.calculateDeep at h
  obtain ⟨x, e1, h⟩ := Res.bind_eq_ok.1 h
  obtain ⟨f0, e2, h⟩ := Res.bind_eq_ok.1 h
  obtain ⟨h1, e3, h⟩ := Res.bind_eq_ok.1 h
  obtain ⟨s, e4, h⟩ := Res.bind_eq_ok.1 h
  obtain ⟨inv, e5, h⟩ := Res.bind_eq_ok.1 h
  obtain ⟨h2, e6, h⟩ := Res.bind_eq_ok.1 h
  cases h
  refine ⟨⟨f0, ?_, ?_, ?_⟩, ?_, ?_⟩
  · exact List.mem_of_getElem? (Res.expect_eq_ok.1 e2)
  · have hg : h1.size = nextPow2 f0.size := by
      rw [Poly.ofVec_size e3, List.length_replicate]
    rw [← hg]
    refine forEach_ok_inv (fun s : DeepState F => s.h1.size = h1.size) _ _ ?_ _ _ rfl e4
    intro b _ s s' hs e
    unfold deepMask at e
    obtain ⟨mk, e1, e⟩ := Res.bind_eq_ok.1 e
    obtain ⟨r, e2, e⟩ := Res.bind_eq_ok.1 e
    obtain ⟨p, e3, e⟩ := Res.bind_eq_ok.1 e
    obtain ⟨d, e4, e⟩ := Res.bind_eq_ok.1 e
    obtain ⟨f, e5, e⟩ := Res.bind_eq_ok.1 e
    obtain ⟨x, e6, e⟩ := Res.bind_eq_ok.1 e
    obtain ⟨f1, e7, e⟩ := Res.bind_eq_ok.1 e
    obtain ⟨h1, e8, e⟩ := Res.bind_eq_ok.1 e
    cases e
    exact (Poly.addAssignV_size e8).trans hs
  · obtain ⟨d, hd⟩ := ofVec_domain e3
    rw [List.length_replicate] at hd
    exact ⟨d, hd⟩
  · exact (Poly.mulAssign_size e6).trans (Poly.addConstant_size w gLde _)
  · unfold inverseLinear at e5
    obtain ⟨q, -, e5⟩ := Res.bind_eq_ok.1 e5
    obtain ⟨v, e5, -⟩ := Res.bind_eq_ok.1 e5
    unfold Poly.evaluateAtDomainForDegreeOne at e5
    obtain ⟨_, -, e5⟩ := Res.bind_eq_ok.1 e5
    obtain ⟨_, -, e5⟩ := Res.bind_eq_ok.1 e5
    obtain ⟨_, -, e5⟩ := Res.bind_eq_ok.1 e5
    obtain ⟨d, e5, -⟩ := Res.bind_eq_ok.1 e5
    exact ⟨d, e5⟩

/-! ### FRI -/

theorem getRoots_eq (l : List IopTree) (acc roots : List Digest) (h : forEach l acc (fun c l => do
    let r ← c.getRoot
    pure (l ++ [r])) = .ok roots) : ∃ rs, mapRes (fun c : IopTree => c.getRoot) l = .ok rs ∧ roots = acc ++ rs := by
  induction l generalizing acc with
  | nil => cases h; exact ⟨[], rfl, by simp⟩
  | cons c l ih =>
    obtain ⟨s, h1, h2⟩ := forEach_eq_ok_cons.1 h
    obtain ⟨r, h3, h1⟩ := Res.bind_eq_ok.1 h1
    cases h1
    obtain ⟨rs, q1, q2⟩ := ih _ h2
    exact ⟨r :: rs, Res.bind_eq_ok.2 ⟨_, h3, Res.bind_eq_ok.2 ⟨_, q1, rfl⟩⟩, by rw [q2]; simp⟩

theorem mapRes_append {α β : Type} {f : α → Res β} {l l' : List α} {r r' : List β} (h : mapRes f l = .ok r) (h' : mapRes f l' = .ok r') :
    mapRes f (l ++ l') = .ok (r ++ r') := by
  induction l generalizing r with
  | nil => cases h; exact h'
  | cons a l ih =>
    obtain ⟨y, h1, h⟩ := Res.bind_eq_ok.1 h
    obtain ⟨ys, h2, h⟩ := Res.bind_eq_ok.1 h
    cases h
    exact Res.bind_eq_ok.2 ⟨_, h1, Res.bind_eq_ok.2 ⟨_, ih h2, rfl⟩⟩

/-- A successful FRI run folds at least once, its parameters are powers of two, and its final root is the last one of `get_roots`. -/
theorem friProof_inv {H : List UInt8 → Digest} {w : Worker} {v : Poly F .values} {factor out : ℕ} {p : FriPrototype F}
    (h : friProofByValues H w v factor out = .ok p) :
    2 ≤ v.size / factor ∧ isPow2 factor = true ∧ ∀ roots, p.getRoots = .ok roots → roots.getLast? = some p.finalRoot := by
  unfold friProofByValues at h
  obtain ⟨l0, e0, h⟩ := Res.bind_eq_ok.1 h
  obtain ⟨ti, e1, h⟩ := Res.bind_eq_ok.1 h
  obtain ⟨_, e2, h⟩ := Res.bind_eq_ok.1 h
  obtain ⟨_, e3, h⟩ := Res.bind_eq_ok.1 h
  obtain ⟨ns, e4, h⟩ := Res.bind_eq_ok.1 h
  obtain ⟨ch, e5, h⟩ := Res.bind_eq_ok.1 h
  obtain ⟨s, e6, h⟩ := Res.bind_eq_ok.1 h
  obtain ⟨fr, e7, h⟩ := Res.bind_eq_ok.1 h
  obtain ⟨_, e8, h⟩ := Res.bind_eq_ok.1 h
  obtain ⟨_, e9, h⟩ := Res.bind_eq_ok.1 h
  obtain ⟨_, e10, h⟩ := Res.bind_eq_ok.1 h
  obtain ⟨fv, e11, h⟩ := Res.bind_eq_ok.1 h
  obtain ⟨fp, e12, h⟩ := Res.bind_eq_ok.1 h
  cases h
  have inv : mapRes (fun c : IopTree => c.getRoot) s.commitments = .ok s.roots := by
    refine forN_ok_inv (fun s : FriState F => mapRes (fun c : IopTree => c.getRoot) s.commitments = .ok s.roots) _ _ _ ?_ _ _ rfl e6
    intro i s s' hs e
    unfold friStepValues at e
    obtain ⟨_, -, e⟩ := Res.bind_eq_ok.1 e
    obtain ⟨nx, -, e⟩ := Res.bind_eq_ok.1 e
    obtain ⟨iop, -, e⟩ := Res.bind_eq_ok.1 e
    obtain ⟨root, q, e⟩ := Res.bind_eq_ok.1 e
    obtain ⟨c, -, e⟩ := Res.bind_eq_ok.1 e
    obtain ⟨np, -, e⟩ := Res.bind_eq_ok.1 e
    cases e
    exact mapRes_append hs (Res.bind_eq_ok.2 ⟨_, q, Res.bind_eq_ok.2 ⟨_, rfl, rfl⟩⟩)
  have e7 := Res.expect_eq_ok.1 e7
  refine ⟨?_, Res.assert_eq_ok.1 e3, ?_⟩
  · have hns : ns ≠ 0 := by
      rintro rfl
      cases e6
      cases e7
    unfold log2Floor at e4
    obtain ⟨_, -, e4⟩ := Res.bind_eq_ok.1 e4
    cases e4
    have h2 : 2 ≤ v.size / factor / out := by
      by_contra hlt
      exact hns (Nat.log_of_lt (by omega))
    exact h2.trans (Nat.div_le_self _ _)
  · intro roots hr
    obtain ⟨rs, q1, q2⟩ := getRoots_eq _ _ _ hr
    obtain ⟨r0, q3, q1⟩ := Res.bind_eq_ok.1 q1
    obtain ⟨rs', q4, q1⟩ := Res.bind_eq_ok.1 q1
    cases q1
    rw [q2, List.nil_append]
    have : rs' = s.roots := by
      have := q4.symm.trans inv
      cases this; rfl
    rw [this, List.getLast?_cons, e7]
    rfl

theorem produceProof_final {H : List UInt8 → Digest} {p : FriPrototype F} {v : Poly F .values} {i : ℕ} {q : FriProof F}
    (h : p.produceProof H v i = .ok q) : q.finalCoefficients = p.finalCoefficients := by
  unfold FriPrototype.produceProof at h
  obtain ⟨x, -, h⟩ := Res.bind_eq_ok.1 h
  cases h
  rfl

end Hodor

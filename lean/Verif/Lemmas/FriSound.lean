import Verif.Lemmas.FriVerify

/-! # What acceptance by the FRI verifier implies -/

namespace Hodor

open Polynomial

variable {F : Type} [Field F] [DecidableEq F] [StarkField F] (H : List UInt8 → Digest)

theorem proofRounds_cons_inv {t : F} {fin : List F} {idx : ℕ} {v : F} {round : ℕ} {root : Digest}
    {q0 q1 : IopQuery F} {rest : List (Digest × List (IopQuery F))} {s : FriVState F} {m : ℕ}
    (hs : s.domainSize = 2 ^ m)
    (h : proofRounds H t fin idx v round ((root, [q0, q1]) :: rest) s = .ok true) :
    ∃ m' β, m = m' + 1 ∧ s.domainIdx < 2 ^ m ∧ q0.index = s.domainIdx % 2 ^ m' ∧
      q1.index = s.domainIdx % 2 ^ m' + 2 ^ m' ∧
      verifyQuery H q0 root = true ∧ verifyQuery H q1 root = true ∧
      encodeRootIntoChallenge root = .ok β ∧
      (round = 0 → ∀ q ∈ [q0, q1], q.index = idx → q.value = v) ∧
      (∀ e, s.expected = some e → (if s.domainIdx = q0.index then q0.value else q1.value) = e) ∧
      proofRounds H t fin idx v (round + 1) rest
        { expected := some (friFold q0.value q1.value (s.omegaInv ^ (s.domainIdx % 2 ^ m')) β t)
          domainSize := 2 ^ m', domainIdx := s.domainIdx % 2 ^ m', omega := s.omega * s.omega,
          omegaInv := s.omegaInv * s.omegaInv } = .ok true := by
  rw [proofRounds] at h
  obtain ⟨coset, hcoset, h⟩ := Res.bind_eq_ok.1 h
  have hlt : s.domainIdx < s.domainSize := by
    unfold cosetForNaturalIndex at hcoset
    obtain ⟨u, hu, _⟩ := Res.bind_eq_ok.1 hcoset
    simpa [Res.assert_eq_ok] using hu
  rw [hs] at hlt hcoset
  split at h
  · cases h
  split at h
  · cases h
  rename_i hlen hcont
  split at h
  · cases h
  rename_i hfirst
  obtain ⟨u, hchk, h⟩ := Res.bind_eq_ok.1 h
  split at h
  · cases h
  rename_i hver
  obtain ⟨β, hβ, h⟩ := Res.bind_eq_ok.1 h
  have r0 : rd [q0, q1] 0 = .ok q0 := rfl
  have r1 : rd [q0, q1] 1 = .ok q1 := rfl
  simp only [r0, r1, Res.ok_bind] at h
  split at h
  · cases h
  rename_i hcons
  obtain ⟨c0, hc0, h⟩ := Res.bind_eq_ok.1 h
  obtain ⟨s', hadv, h⟩ := Res.bind_eq_ok.1 h
  cases m with
  | zero =>
    exfalso
    unfold friAdvance indexAndSizeForNextDomain at hadv
    simp [hs] at hadv
  | succ m' =>
    rw [coset_eq hlt] at hcoset
    cases hcoset
    have hp : 0 < 2 ^ m' := by positivity
    have hc0' : c0 = s.domainIdx % 2 ^ m' := by
      have : rd [s.domainIdx % 2 ^ m', s.domainIdx % 2 ^ m' + 2 ^ m'] 0 = .ok (s.domainIdx % 2 ^ m') := rfl
      rw [this] at hc0; cases hc0; rfl
    simp only [checkTreeIndices] at hchk
    split at hchk
    · cases hchk
    rename_i hq0
    split at hchk
    · cases hchk
    rename_i hq1
    have hq0 : q0.index = s.domainIdx % 2 ^ m' := not_not.1 hq0
    have hq1 : q1.index = s.domainIdx % 2 ^ m' + 2 ^ m' := not_not.1 hq1
    unfold friAdvance at hadv
    rw [hs, nextDomain_eq hlt] at hadv
    simp only [Res.ok_bind, Res.pure_def] at hadv
    cases hadv
    have hver' : verifyQuery H q0 root = true ∧ verifyQuery H q1 root = true := by
      simp only [List.any_cons, List.any_nil, Bool.or_false, Bool.or_eq_true, Bool.not_eq_true', not_or,
        Bool.not_eq_false] at hver
      exact hver
    refine ⟨m', β, rfl, hlt, hq0, hq1, hver'.1, hver'.2, hβ, ?_, ?_, ?_⟩
    · intro h0 q hq hqi
      by_contra hne
      apply hfirst
      refine ⟨h0, ?_⟩
      rw [List.any_eq_true]
      exact ⟨q, hq, by simpa using ⟨hqi, hne⟩⟩
    · intro e he
      have hidx := index_in_coset hlt
      unfold queriesConsistent at hcons
      simp only [he, Bool.not_eq_false] at hcons
      have hcon : [s.domainIdx % 2 ^ m', s.domainIdx % 2 ^ m' + 2 ^ m'].contains s.domainIdx = true := by
        simpa using hidx
      simp only [hcon, not_true_eq_false, if_false] at hcons
      by_cases hi : s.domainIdx = q0.index
      · rw [if_pos hi]
        have h1 : ¬ q1.index = s.domainIdx := by omega
        rw [List.filter_cons_of_pos (by simp [hi]), List.filter_cons_of_neg (by simpa using h1)] at hcons
        simpa using hcons
      · rw [if_neg hi]
        have h1 : q1.index = s.domainIdx := by
          rcases hidx with hh | hh
          · exact absurd (hh.trans hq0.symm) hi
          · rw [hq1]; exact hh.symm
        rw [List.filter_cons_of_neg (by simpa using fun h => hi h.symm), List.filter_cons_of_pos (by simpa using h1)] at hcons
        simpa using hcons
    · rw [hc0'] at h
      exact h

theorem proofRounds_sound {t : F} {fin : List F} {idx : ℕ} {v : F} :
    ∀ (L : List (Digest × List (IopQuery F))) (round m : ℕ) (s : FriVState F),
      (∀ x ∈ L, x.2.length = 2) → s.domainSize = 2 ^ m → s.domainIdx < 2 ^ m →
      proofRounds H t fin idx v round L s = .ok true →
      L.length ≤ m ∧ ∃ folded : ℕ → F,
        (∀ r root qs, L[r]? = some (root, qs) → ∃ lo hi β, qs = [lo, hi] ∧
          lo.index = s.domainIdx % 2 ^ (m - (r + 1)) ∧
          hi.index = s.domainIdx % 2 ^ (m - (r + 1)) + 2 ^ (m - (r + 1)) ∧
          verifyQuery H lo root = true ∧ verifyQuery H hi root = true ∧
          encodeRootIntoChallenge root = .ok β ∧
          folded r = friFold lo.value hi.value ((s.omegaInv ^ 2 ^ r) ^ (s.domainIdx % 2 ^ (m - (r + 1)))) β t ∧
          (round + r = 0 → ∀ q ∈ [lo, hi], q.index = idx → q.value = v) ∧
          (∀ e, (if r = 0 then s.expected else some (folded (r - 1))) = some e →
            (if s.domainIdx % 2 ^ (m - r) = lo.index then lo.value else hi.value) = e)) ∧
        (if L.length = 0 then s.expected else some (folded (L.length - 1)))
          = some (Spec.evalPoly fin ((s.omega ^ 2 ^ L.length) ^ (s.domainIdx % 2 ^ (m - L.length)))) := by
  intro L
  induction L with
  | nil =>
    intro round m s _ _ hi h
    rw [proofRounds] at h
    unfold friFinish at h
    obtain ⟨e, he, h⟩ := Res.bind_eq_ok.1 h
    rw [Res.expect_eq_ok] at he
    refine ⟨by simp, fun _ => 0, by simp, ?_⟩
    simp only [Res.pure_def, Res.ok.injEq, decide_eq_true_eq, evalFinal_eq, zero_add, one_mul] at h
    simp only [List.length_nil, if_true, pow_zero, pow_one, Nat.sub_zero, Nat.mod_eq_of_lt hi]
    rw [he, h]
  | cons x rest ih =>
    intro round m s hL hs hi h
    obtain ⟨root, qs⟩ := x
    have hq2 := hL (root, qs) (by simp)
    obtain ⟨q0, q1, rfl⟩ := List.length_eq_two.1 hq2
    obtain ⟨m', β, rfl, hlt, h0, h1, hv0, hv1, hβ, hfirst, hexp, hrest⟩ := proofRounds_cons_inv H hs h
    obtain ⟨hlen, folded, hf, hfin⟩ := ih (round + 1) m' _ (fun x hx => hL x (List.mem_cons_of_mem _ hx)) rfl
      (Nat.mod_lt _ (by positivity)) hrest
    refine ⟨by simpa using hlen, fun r => if r = 0 then
      friFold q0.value q1.value (s.omegaInv ^ (s.domainIdx % 2 ^ m')) β t else folded (r - 1), ?_, ?_⟩
    · intro r root' qs' hr
      cases r with
      | zero =>
        simp only [List.getElem?_cons_zero, Option.some.injEq, Prod.mk.injEq] at hr
        obtain ⟨rfl, rfl⟩ := hr
        refine ⟨q0, q1, β, rfl, by simpa using h0, by simpa using h1, hv0, hv1, hβ, by simp, ?_, ?_⟩
        · intro hh; exact hfirst (by omega)
        · intro e he
          rw [if_pos rfl] at he
          rw [Nat.sub_zero, Nat.mod_eq_of_lt hlt]
          exact hexp e he
      | succ r =>
        rw [List.getElem?_cons_succ] at hr
        obtain ⟨lo, hi', β', e1, e2, e3, e4, e5, e6, e7, e8, e9⟩ := hf r root' qs' hr
        have hrl : r < rest.length := by
          by_contra hh
          rw [List.getElem?_eq_none (by omega)] at hr; cases hr
        have hmm : ∀ a, a ≤ m' → s.domainIdx % 2 ^ m' % 2 ^ a = s.domainIdx % 2 ^ a := by
          intro a ha
          exact Nat.mod_mod_of_dvd _ (pow_dvd_pow 2 ha)
        have hsub : m' + 1 - (r + 1 + 1) = m' - (r + 1) := by omega
        have hsub2 : m' + 1 - (r + 1) = m' - r := by omega
        simp only [hmm (m' - (r + 1)) (by omega), hmm (m' - r) (by omega)] at e2 e3 e7 e9
        refine ⟨lo, hi', β', e1, ?_, ?_, e4, e5, e6, ?_, ?_, ?_⟩
        · rw [hsub]; exact e2
        · rw [hsub]; exact e3
        · simp only [Nat.add_eq_zero_iff, one_ne_zero, and_false, if_false, Nat.add_sub_cancel, hsub]
          rw [e7]
          congr 2
          rw [← pow_two, ← pow_mul, ← pow_succ']
        · intro hh; exact e8 (by omega)
        · intro e he
          rw [hsub2]
          apply e9 e
          rw [← he]
          cases r with
          | zero => simp
          | succ r => simp
    · have hmm : s.domainIdx % 2 ^ m' % 2 ^ (m' - rest.length) = s.domainIdx % 2 ^ (m' - rest.length) :=
        Nat.mod_mod_of_dvd _ (pow_dvd_pow 2 (by omega))
      simp only [hmm] at hfin
      have hsub : m' + 1 - (rest.length + 1) = m' - rest.length := by omega
      simp only [List.length_cons, Nat.add_sub_cancel, hsub]
      rw [if_neg (by omega)]
      have e : (s.omega * s.omega) ^ 2 ^ rest.length = s.omega ^ 2 ^ (rest.length + 1) := by
        rw [← pow_two, ← pow_mul, ← pow_succ']
      rw [e] at hfin
      rw [← hfin]
      cases rest with
      | nil => simp
      | cons a l => simp

end Hodor

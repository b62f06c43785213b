import Verif.Props.Merkle
import Verif.Props.Fri
import Verif.Props.Verify

/-!
# C60, C61: what a commitment and an accepted proof fix

C60 concerns roots that need not come from a tree built by the library. C61 lifts it to whole proofs.
-/

namespace Hodor

open Spec

section merkle

variable {F : Type} [Field F] [StarkField F] (H : List UInt8 → Digest)

theorem verifyLoop_same (P : List UInt8 → Prop) : ∀ (p p' : List Digest) (h h' : Digest) (i i' : ℕ), p.length = p'.length →
    i % 2 ^ p.length = i' % 2 ^ p.length →
    (∀ s ∈ pathHashed H h i p, P s) → (∀ s ∈ pathHashed H h' i' p', P s) → verifyLoop H h i p = verifyLoop H h' i' p' →
    (h = h' ∧ p = p') ∨ CollisionAmong H P := by
  intro p
  induction p with
  | nil =>
    intro p' h h' i i' hl _ _ _ e
    obtain rfl : p' = [] := List.length_eq_zero_iff.1 (by simpa using hl.symm)
    exact .inl ⟨e, rfl⟩
  | cons el p ih =>
    intro p' h h' i i' hl hi hp hp' e
    obtain ⟨el', p', rfl⟩ : ∃ a b, p' = a :: b := by
      cases p' with
      | nil => simp at hl
      | cons a b => exact ⟨a, b, rfl⟩
    simp only [List.length_cons, Nat.add_right_cancel_iff] at hl
    have hb : i % 2 = i' % 2 := by
      have h2 : (2 : ℕ) ∣ 2 ^ (el :: p).length := dvd_pow_self 2 (by simp)
      rw [← Nat.mod_mod_of_dvd i h2, hi, Nat.mod_mod_of_dvd i' h2]
    have hq : i / 2 % 2 ^ p.length = i' / 2 % 2 ^ p.length := by
      rw [List.length_cons, pow_succ, Nat.mul_comm] at hi
      rw [← Nat.mod_mul_right_div_self i, ← Nat.mod_mul_right_div_self i', hi]
    set s : List UInt8 := if i % 2 = 0 then h.bytes ++ el.bytes else el.bytes ++ h.bytes with hs
    set s' : List UInt8 := if i' % 2 = 0 then h'.bytes ++ el'.bytes else el'.bytes ++ h'.bytes with hs'
    have e1 : verifyLoop H h i (el :: p) = verifyLoop H (H s) (i / 2) p := by
      rw [verifyLoop]; congr 1; rw [hs]; split <;> simp [hashNode]
    have e2 : verifyLoop H h' i' (el' :: p') = verifyLoop H (H s') (i' / 2) p' := by
      rw [verifyLoop]; congr 1; rw [hs']; split <;> simp [hashNode]
    have q1 : pathHashed H h i (el :: p) = s :: pathHashed H (H s) (i / 2) p := rfl
    have q2 : pathHashed H h' i' (el' :: p') = s' :: pathHashed H (H s') (i' / 2) p' := rfl
    rw [q1] at hp
    rw [q2] at hp'
    rw [e1, e2] at e
    rcases ih p' (H s) (H s') (i / 2) (i' / 2) hl hq (fun x hx => hp x (List.mem_cons_of_mem _ hx))
      (fun x hx => hp' x (List.mem_cons_of_mem _ hx)) e with ⟨ed, ep⟩ | hc
    · by_cases es : s = s'
      · left
        rw [hs, hs', ← hb] at es
        have : h = h' ∧ el = el' := by
          split at es
          · exact append_bytes_inj es
          · have := append_bytes_inj es; exact ⟨this.2, this.1⟩
        exact ⟨this.1, by rw [this.2, ep]⟩
      · exact .inr ⟨s, s', hp s (by simp), hp' s' (by simp), es, ed⟩
    · exact .inr hc

/-- **C60** (same shape): whatever the root is, two openings of the same position with authentication paths of the same length that verify against it
are identical, unless two different strings hashed while checking them collide. -/
theorem C60_same_length_partial (root : Digest) (q q' : IopQuery F) (hv : verifyQuery H q root = true) (hv' : verifyQuery H q' root = true)
    (hl : q.path.length = q'.path.length) (hi : q.index % 2 ^ q.path.length = q'.index % 2 ^ q.path.length) :
    (q.value = q'.value ∧ q.path = q'.path) ∨
    CollisionAmong H (fun s => s ∈ openingHashed H q.value q.path q.index ∨ s ∈ openingHashed H q'.value q'.path q'.index) := by
  simp only [verifyQuery, IopTree.verify, decide_eq_true_eq] at hv hv'
  rcases verifyLoop_same H (fun s => s ∈ openingHashed H q.value q.path q.index ∨ s ∈ openingHashed H q'.value q'.path q'.index)
    q.path q'.path (hashLeaf H q.value) (hashLeaf H q'.value) q.index q'.index hl hi
    (fun s hs => .inl (List.mem_cons_of_mem _ hs)) (fun s hs => .inr (List.mem_cons_of_mem _ hs)) (hv.trans hv'.symm) with ⟨e, ep⟩ | hc
  · by_cases es : encodeLeaf q.value = encodeLeaf q'.value
    · exact .inl ⟨encodeLeaf_inj es, ep⟩
    · exact .inr ⟨_, _, .inl (List.mem_cons_self ..), .inr (List.mem_cons_self ..), es, e⟩
  · exact .inr hc

theorem verifyLoop_zero_snoc (h : Digest) (p : List Digest) (e : Digest) :
    verifyLoop H h 0 (p ++ [e]) = H ((verifyLoop H h 0 p).bytes ++ e.bytes) := by
  rw [verifyLoop_append]; simp

/-- **C60** (position 0): at position 0 no assumption on the lengths of the paths is needed. -/
theorem C60_position_zero_partial (hb : numBits F < 256) (root : Digest) (q q' : IopQuery F) (hv : verifyQuery H q root = true)
    (hv' : verifyQuery H q' root = true) (hi : q.index = 0) (hi' : q'.index = 0) :
    (q.value = q'.value ∧ q.path = q'.path) ∨
    CollisionAmong H (fun s => s ∈ openingHashed H q.value q.path q.index ∨ s ∈ openingHashed H q'.value q'.path q'.index) := by
  simp only [verifyQuery, IopTree.verify, decide_eq_true_eq] at hv hv'
  have e := hv.trans hv'.symm
  rw [hi, hi'] at e ⊢
  clear hv hv' hi hi'
  obtain ⟨_, x, p⟩ := q
  obtain ⟨_, x', p'⟩ := q'
  simp only at e ⊢
  induction p using List.reverseRecOn generalizing p' with
  | nil =>
    rcases List.eq_nil_or_concat p' with rfl | ⟨p', a', rfl⟩
    · by_cases ex : encodeLeaf x = encodeLeaf x'
      · exact .inl ⟨encodeLeaf_inj ex, rfl⟩
      · exact .inr ⟨_, _, .inl (List.mem_cons_self ..), .inr (List.mem_cons_self ..), ex, e⟩
    · right
      rw [List.concat_eq_append] at *
      rw [verifyLoop_zero_snoc] at e
      refine ⟨_, _, .inl (List.mem_cons_self ..), .inr (List.mem_cons_of_mem _ ?_), ?_, e⟩
      · have : hashLeaf H x' = H (encodeLeaf x') := rfl
        rw [← this, pathHashed_append]; simp
      · intro h
        have := congrArg List.length h
        rw [length_encodeLeaf hb, List.length_append, Digest.len, Digest.len] at this
        omega
  | append_singleton p a ih =>
    rcases List.eq_nil_or_concat p' with rfl | ⟨p', a', rfl⟩
    · right
      rw [verifyLoop_zero_snoc] at e
      refine ⟨_, _, .inl (List.mem_cons_of_mem _ ?_), .inr (List.mem_cons_self ..), ?_, e⟩
      · have : hashLeaf H x = H (encodeLeaf x) := rfl
        rw [← this, pathHashed_append]; simp
      · intro h
        have := congrArg List.length h
        rw [length_encodeLeaf hb, List.length_append, Digest.len, Digest.len] at this
        omega
    · rw [List.concat_eq_append] at *
      rw [verifyLoop_zero_snoc, verifyLoop_zero_snoc] at e
      have m1 : ∀ (x : F) (p : List Digest) (a : Digest), openingHashed H x (p ++ [a]) 0 =
          openingHashed H x p 0 ++ [(verifyLoop H (hashLeaf H x) 0 p).bytes ++ a.bytes] := by
        intro x p a
        unfold openingHashed
        rw [pathHashed_append]; simp [hashLeaf]
      rw [m1, m1]
      by_cases es : (verifyLoop H (hashLeaf H x) 0 p).bytes ++ a.bytes = (verifyLoop H (hashLeaf H x') 0 p').bytes ++ a'.bytes
      · obtain ⟨e1, rfl⟩ := append_bytes_inj es
        rcases ih p' e1 with ⟨r1, r2⟩ | ⟨u, v, hu, hv, huv, hH⟩
        · exact .inl ⟨r1, by rw [r2]⟩
        · exact .inr ⟨u, v, hu.imp (List.mem_append_left _) (List.mem_append_left _),
            hv.imp (List.mem_append_left _) (List.mem_append_left _), huv, hH⟩
      · exact .inr ⟨_, _, .inl (by simp), .inr (by simp), es, e⟩

/-- **C60** (the full claim is false at every other position): the check does not look at the length of the path. For every hash function, every position
other than 0 and any two values there is a root against which both values verify at that position, each with a path for a tree large enough to have that position;
no collision is involved. -/
theorem C60_equivocation (idx : ℕ) (h0 : idx ≠ 0) (x y : F) :
    ∃ (root : Digest) (q q' : IopQuery F), q.index = idx ∧ q'.index = idx ∧ q.value = x ∧ q'.value = y ∧
      idx < 2 ^ q.path.length ∧ idx < 2 ^ q'.path.length ∧
      verifyQuery H q root = true ∧ verifyQuery H q' root = true := by
  set t := Nat.log 2 idx with ht
  have lt : idx < 2 ^ (t + 1) := Nat.lt_pow_succ_log_self (by norm_num) idx
  have le : 2 ^ t ≤ idx := Nat.pow_log_le_self 2 h0
  have bt : idx / 2 ^ t = 1 := by
    apply Nat.div_eq_of_lt_le <;> rw [pow_succ] at * <;> omega
  have bt' : idx / 2 ^ (t + 1) = 0 := Nat.div_eq_of_lt lt
  set X := verifyLoop H (hashLeaf H x) idx (List.replicate t zeroDigest) with hX
  set Y := verifyLoop H (hashLeaf H y) idx (List.replicate (t + 1) zeroDigest) with hY
  refine ⟨hashNode H [Y, X], ⟨idx, x, List.replicate t zeroDigest ++ [Y]⟩, ⟨idx, y, List.replicate (t + 1) zeroDigest ++ [X]⟩, rfl, rfl, rfl, rfl, ?_, ?_, ?_, ?_⟩
  · simpa using lt
  · simp only [List.length_append, List.length_replicate, List.length_singleton]
    exact lt.trans (Nat.pow_lt_pow_right (by norm_num) (by omega))
  · simp only [verifyQuery, IopTree.verify, decide_eq_true_eq]
    rw [verifyLoop_append, ← hX]
    simp [bt, hashNode_two]
  · simp only [verifyQuery, IopTree.verify, decide_eq_true_eq]
    rw [verifyLoop_append, ← hY]
    simp [bt', hashNode_two]

end merkle

section proofs

variable {F : Type} [Field F] [DecidableEq F] [StarkField F] (H : List UInt8 → Digest)

/-- A FRI proof is accepted for at most one value at a position. -/
theorem fri_value_unique (p : FriProof F) (idx : ℕ) (v v' : F) (h : p.verify H idx v = .ok true) (h' : p.verify H idx v' = .ok true) : v = v' := by
  obtain ⟨n, d, k, hd, hn, -, -, -, -, hk1, -, root, lo, hi, β, hr, hc, -⟩ := C28_accepted_chain H p idx v h
  obtain ⟨n', d', k', hd', hn', -, -, -, -, hk1', -, root', lo', hi', β', hr', hc', -⟩ := C28_accepted_chain H p idx v' h'
  rw [hd] at hd'
  cases hd'
  have : n = n' := Nat.pow_right_injective (le_refl 2) (hn.symm.trans hn')
  subst this
  have e1 : lo 0 = lo' 0 := by have := (hr 0 hk1).2.1.symm.trans (hr' 0 hk1').2.1; injection this
  have e2 : hi 0 = hi' 0 := by have := (hr 0 hk1).2.2.1.symm.trans (hr' 0 hk1').2.2.1; injection this
  have a := hc 0 hk1
  have a' := hc' 0 hk1'
  rw [if_pos rfl] at a a'
  rw [← a, ← a', e1, e2]

/-- **C61** (claimed values): in an accepted proof the values claimed at `z` can be replaced by others, keeping acceptance, exactly if one value is claimed per pair of register and
mask and the replacement leaves two field elements unchanged: the DEEP combination at the one queried point and the composition at `z`. Nothing else ties the claimed values
to the commitments. -/
theorem C61_claimed_values (inst : InstanceProperties F) (n k factor : ℕ) (h : Verifiable inst n k) (v : Verifier F)
    (hv : Verifier.new inst factor = .ok v) (proof : InstanceProof F) (ha : v.verify H proof = .ok true) (ch : Challenges F) (d1 d2 : Domain F)
    (hch : v.deriveChallenges H proof = .ok (ch, d1, d2)) (claimed : List F) :
    v.verify H { proof with fAtZM := claimed } = .ok true ↔
      v.allMasks.length ≤ claimed.length ∧
      deepClaim v.allMasks claimed ch.h1Challenges (openedValue proof.fQueries) ch.z (d1.generator ^ ch.idx1) =
        deepClaim v.allMasks proof.fAtZM ch.h1Challenges (openedValue proof.fQueries) ch.z (d1.generator ^ ch.idx1) ∧
      compositionAt v.columnDomain.generator v.inst.numRows v.maxConstraintPower (claimedEnv v.allMasks claimed)
        ((v.constraintsBatchedByDensity.flatMap (fun b => b.2)).zip ch.constraintChallenges)
        (v.inst.boundaryConstraints.zip ch.boundaryChallenges) ch.z =
      compositionAt v.columnDomain.generator v.inst.numRows v.maxConstraintPower (claimedEnv v.allMasks proof.fAtZM)
        ((v.constraintsBatchedByDensity.flatMap (fun b => b.2)).zip ch.constraintChallenges)
        (v.inst.boundaryConstraints.zip ch.boundaryChallenges) ch.z := by
  obtain ⟨ch0, e1, e2, hc0, a⟩ := (C54_verify_iff H inst n k factor h v hv proof).1 ha
  rw [hch] at hc0
  cases hc0
  have hch' : v.deriveChallenges H { proof with fAtZM := claimed } = .ok (ch, d1, d2) := by
    rw [← hch]; exact derive_congr H v rfl rfl rfl rfl rfl rfl
  have hp : d2.generator ^ ch.idx2 - ch.z ≠ 0 := sub_ne_zero.2 a.poles.2.1
  rw [C54_verify_iff H inst n k factor h v hv]
  constructor
  · rintro ⟨c', d1', d2', hc', b⟩
    rw [hch'] at hc'
    cases hc'
    refine ⟨b.claims, fri_value_unique H _ _ _ _ b.h1 a.h1, ?_⟩
    have := fri_value_unique H _ _ _ _ b.h2 a.h2
    rw [div_left_inj' hp] at this
    exact sub_right_injective this
  · rintro ⟨h1, h2, h3⟩
    refine ⟨ch, d1, d2, hch', ⟨a.counts, a.registers, a.g, h1, a.poles, ?_, ?_⟩⟩
    · have := a.h1; rw [← h2] at this; exact this
    · have := a.h2; rw [← h3] at this; exact this

/-- **C61** (openings): two accepted proofs for the same verifier that agree in the register roots, the root of `g`, the last root of each FRI oracle and the final coefficients have the
same openings of all registers and of `g`, provided their authentication paths have the same lengths, unless two different strings hashed while checking these openings collide. -/
theorem C61_openings (inst : InstanceProperties F) (n k factor : ℕ) (h : Verifiable inst n k) (v : Verifier F)
    (hv : Verifier.new inst factor = .ok v) (p p' : InstanceProof F) (ha : v.verify H p = .ok true) (ha' : v.verify H p' = .ok true)
    (hf : p.fIopRoots = p'.fIopRoots) (hg : p.gIopRoot = p'.gIopRoot) (h1 : p.h1IopRoots.getLast? = p'.h1IopRoots.getLast?)
    (h2 : p.h2IopRoots.getLast? = p'.h2IopRoots.getLast?) (c1 : p.friProofH1.finalCoefficients = p'.friProofH1.finalCoefficients)
    (c2 : p.friProofH2.finalCoefficients = p'.friProofH2.finalCoefficients)
    (hl : p.fQueries.map (fun q => q.path.length) = p'.fQueries.map (fun q => q.path.length))
    (hlg : p.gQuery.path.length = p'.gQuery.path.length) :
    (p.fQueries = p'.fQueries ∧ p.gQuery = p'.gQuery) ∨
    CollisionAmong H (fun s => ∃ q ∈ p.gQuery :: p'.gQuery :: (p.fQueries ++ p'.fQueries), s ∈ openingHashed H q.value q.path q.index) := by
  obtain ⟨ch, d1, d2, e, a⟩ := (C54_verify_iff H inst n k factor h v hv p).1 ha
  obtain ⟨ch', d1', d2', e', a'⟩ := (C54_verify_iff H inst n k factor h v hv p').1 ha'
  obtain ⟨-, -, hs⟩ := C55_challenge_schedule H v p p' ch ch' d1 d2 d1' d2' e e'
  obtain ⟨-, -, hs⟩ := hs hf
  obtain ⟨-, -, hs⟩ := hs hg
  obtain rfl := hs h1 h2 c1 c2
  by_contra hcon
  rw [not_or] at hcon
  obtain ⟨hne, hnc⟩ := hcon
  have same : ∀ (q q' : IopQuery F) (root : Digest), q ∈ p.gQuery :: p'.gQuery :: (p.fQueries ++ p'.fQueries) →
      q' ∈ p.gQuery :: p'.gQuery :: (p.fQueries ++ p'.fQueries) → verifyQuery H q root = true → verifyQuery H q' root = true →
      q.path.length = q'.path.length → q.index = q'.index → q = q' := by
    intro q q' root hq hq' hv hv' hl hi
    rcases C60_same_length_partial H root q q' hv hv' hl (by rw [hi]) with ⟨e1, e2⟩ | ⟨x, y, hx, hy, hxy, hH⟩
    · cases q; cases q'; simp only at hi e1 e2; subst hi e1 e2; rfl
    · exact absurd ⟨x, y, hx.elim (fun t => ⟨q, hq, t⟩) (fun t => ⟨q', hq', t⟩), hy.elim (fun t => ⟨q, hq, t⟩) (fun t => ⟨q', hq', t⟩), hxy, hH⟩ hnc
  apply hne
  constructor
  · have hlen : p.fQueries.length = p'.fQueries.length := by have := congrArg List.length hl; simpa using this
    apply List.ext_getElem hlen
    intro i hi hi'
    have hir : i < p.fIopRoots.length := by have := a.counts; omega
    have hir' : i < p'.fIopRoots.length := by rw [← hf]; exact hir
    have b := a.registers i _ _ (List.getElem?_eq_getElem hi) (List.getElem?_eq_getElem hir)
    have b' := a'.registers i _ _ (List.getElem?_eq_getElem hi') (List.getElem?_eq_getElem hir')
    have er : p'.fIopRoots[i] = p.fIopRoots[i] := by simp [hf]
    rw [er] at b'
    refine same _ _ _ ?_ ?_ b.1 b'.1 ?_ (b.2.trans b'.2.symm)
    · simp
    · simp
    · have := congrArg (fun l => l[i]?) hl
      simpa [List.getElem?_map, List.getElem?_eq_getElem hi, List.getElem?_eq_getElem hi'] using this
  · exact same _ _ p.gIopRoot (by simp) (by simp) a.g.1 (by rw [hg]; exact a'.g.1) hlg (a.g.2.trans a'.g.2.symm)

end proofs

/-! Non-vacuity for C60: `5` and `9` at position `1` against one root, with paths of lengths one and two, under the hash of the examples. -/

example : verifyQuery (F := Fr) toyHash ⟨1, 5, [verifyLoop toyHash (hashLeaf toyHash (9 : Fr)) 1 [zeroDigest]]⟩
    (hashNode toyHash [verifyLoop toyHash (hashLeaf toyHash (9 : Fr)) 1 [zeroDigest], hashLeaf toyHash (5 : Fr)]) = true := by decide +kernel

example : verifyQuery (F := Fr) toyHash ⟨1, 9, [zeroDigest, hashLeaf toyHash (5 : Fr)]⟩
    (hashNode toyHash [verifyLoop toyHash (hashLeaf toyHash (9 : Fr)) 1 [zeroDigest], hashLeaf toyHash (5 : Fr)]) = true := by decide +kernel

/-! Non-vacuity for C61: the honest Fibonacci proof claims `12, 150, 184, 52`. The claims `57, 6, 184, 53` leave the two field elements unchanged and are accepted as well; the
claims `13, 150, 184, 52` do not and are rejected. -/

def claimVerdicts : Res (List Fr × Bool × Bool × Bool) := do
  let inst := fibInst Fr 2 1 1
  let prover ← Prover.new ⟨1, by norm_num⟩ inst 2 1
  let v ← Verifier.new inst 2
  let proof ← prover.prove toyHash [[1, 1, 2, 3], [1, 2, 3, 5]]
  let a ← v.verify toyHash proof
  let b ← v.verify toyHash { proof with fAtZM := [57, 6, 184, 53] }
  let c ← v.verify toyHash { proof with fAtZM := [13, 150, 184, 52] }
  pure (proof.fAtZM, a, b, c)

example : claimVerdicts = .ok ([12, 150, 184, 52], true, true, false) := by decide +kernel

end Hodor

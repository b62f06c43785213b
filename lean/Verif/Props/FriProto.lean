import Verif.Props.Fri

/-!
# C52: what acceptance of a FRI prototype means

`verify_prototype` accepts exactly the fold-consistent words; this holds for every prototype, honest or not.
-/

namespace Hodor

open Polynomial

variable {F : Type} [Field F] [DecidableEq F] [StarkField F]

/-- The condition checked by the remaining rounds, layer by layer. -/
def FriChain (fin : List F) : List (List F × F) → ℕ → ℕ → F → Option F → Prop
  | [], _, j, x, e => e = some (Spec.evalPoly fin (x ^ j))
  | (W, β) :: rest, m, j, x, e => ∃ m' a b, m = m' + 1 ∧ W[j % 2 ^ m']? = some a ∧ W[j % 2 ^ m' + 2 ^ m']? = some b ∧
      (∀ v, e = some v → W[j]? = some v) ∧
      FriChain fin rest m' (j % 2 ^ m') (x ^ 2) (some (Spec.foldAt (x ^ (j % 2 ^ m')) a b β))

omit [Field F] [DecidableEq F] [StarkField F] in
theorem rd_eq_ok_iff {l : List F} {i : ℕ} {a : F} : rd l i = .ok a ↔ l[i]? = some a := by
  unfold rd
  cases h : l[i]? <;> simp

theorem prototypeRounds_iff (h2 : (2 : F) ≠ 0) (fin : List F) :
    ∀ (L : List (Poly F .values × F)) (m : ℕ) (s : FriVState F) (_ : s.domainSize = 2 ^ m)  (_ : s.domainIdx < 2 ^ m) (_ : s.omega ≠ 0) (_ : s.omegaInv = s.omega⁻¹),
      prototypeRounds (2 : F)⁻¹ fin L s = .ok true ↔
        FriChain fin (L.map fun x => (x.1.coeffs, x.2)) m s.domainIdx s.omega s.expected := by
  intro L
  induction L with
  | nil =>
    intro m s hs hi ho hoi
    rw [prototypeRounds, List.map_nil, FriChain]
    unfold friFinish
    cases he : s.expected with
    | none => simp [Res.expect]
    | some e => simp [Res.expect, evalFinal_eq, eq_comm]
  | cons x rest ih =>
    intro m s hs hi ho hoi
    obtain ⟨W, β⟩ := x
    rw [prototypeRounds, List.map_cons, FriChain]
    cases m with
    | zero =>
      have hd : s.domainSize = 1 := by rw [hs]; rfl
      have hj : s.domainIdx = 0 := by simpa using hi
      constructor
      · intro h
        obtain ⟨c, hc, h⟩ := Res.bind_eq_ok.1 h
        rw [hd, hj] at hc
        have hc' : c = [0, 0] := by
          have : cosetForNaturalIndex 0 1 = .ok [0, 0] := by decide
          rw [this] at hc; cases hc; rfl
        subst hc'
        simp [rd, Res.assert] at h
      · rintro ⟨m', a, b, e, -⟩
        omega
    | succ m' =>
      have hp1 : 2 ^ (m' + 1) = 2 * 2 ^ m' := by ring
      have hp : 0 < 2 ^ m' := by positivity
      rw [hs, coset_eq hi]
      have r0 : rd [s.domainIdx % 2 ^ m', s.domainIdx % 2 ^ m' + 2 ^ m'] 0 = .ok (s.domainIdx % 2 ^ m') := rfl
      have r1 : rd [s.domainIdx % 2 ^ m', s.domainIdx % 2 ^ m' + 2 ^ m'] 1 = .ok (s.domainIdx % 2 ^ m' + 2 ^ m') := rfl
      have hmod := Nat.mod_lt s.domainIdx hp
      simp only [List.length_cons, List.length_nil, r0, r1, Res.ok_bind, Nat.zero_add, Nat.reduceAdd, decide_true, Res.assert_true,
        show s.domainIdx % 2 ^ m' < s.domainIdx % 2 ^ m' + 2 ^ m' by omega]
      have hcon : [s.domainIdx % 2 ^ m', s.domainIdx % 2 ^ m' + 2 ^ m'].contains s.domainIdx = true := by
        simpa using index_in_coset hi
      have hadv : ∀ y, friAdvance s y = .ok { expected := some y, domainSize := 2 ^ m', domainIdx := s.domainIdx % 2 ^ m', omega := s.omega * s.omega, omegaInv := s.omegaInv * s.omegaInv } := by
        intro y
        unfold friAdvance
        rw [hs, nextDomain_eq hi]
        rfl
      have hfold : ∀ a b, friFold a b (s.omegaInv ^ (s.domainIdx % 2 ^ m')) β (2 : F)⁻¹ = Spec.foldAt (s.omega ^ (s.domainIdx % 2 ^ m')) a b β := by
        intro a b
        rw [hoi, inv_pow, friFold_foldAt h2 (pow_ne_zero _ ho)]
      have hih := fun y => ih m' { expected := some y, domainSize := 2 ^ m', domainIdx := s.domainIdx % 2 ^ m', omega := s.omega * s.omega, omegaInv := s.omegaInv * s.omegaInv }
        rfl hmod (mul_ne_zero ho ho) (by simp only [hoi, mul_inv])
      have hproto : prototypeConsistent W.coeffs [s.domainIdx % 2 ^ m', s.domainIdx % 2 ^ m' + 2 ^ m'] s = .ok true ↔ ∀ v, s.expected = some v → W.coeffs[s.domainIdx]? = some v := by
        unfold prototypeConsistent
        cases he : s.expected with
        | none => simp
        | some v =>
          simp only [hcon, not_true_eq_false, if_false, Option.some.injEq, forall_eq']
          constructor
          · intro h
            obtain ⟨x, hx, h⟩ := Res.bind_eq_ok.1 h
            rw [rd_eq_ok_iff] at hx
            have := of_decide_eq_true (Res.ok.inj h)
            rw [hx, this]
          · intro h
            rw [rd_eq_ok_iff.2 h]
            simp
      constructor
      · intro h
        obtain ⟨a, ha, h⟩ := Res.bind_eq_ok.1 h
        obtain ⟨g, hg, h⟩ := Res.bind_eq_ok.1 h
        cases g with
        | false => simp at h
        | true =>
          simp only [Bool.true_eq_false, if_false] at h
          obtain ⟨b, hb, h⟩ := Res.bind_eq_ok.1 h
          rw [hadv, Res.ok_bind, hih, hfold] at h
          refine ⟨m', a, b, rfl, rd_eq_ok_iff.1 ha, rd_eq_ok_iff.1 hb, hproto.1 hg, ?_⟩
          rw [pow_two]
          exact h
      · rintro ⟨m'', a, b, e, ha, hb, hv, hrest⟩
        obtain rfl : m' = m'' := by omega
        rw [rd_eq_ok_iff.2 ha]
        simp only [Res.ok_bind]
        rw [hproto.2 hv]
        simp only [Res.ok_bind, Bool.true_eq_false, if_false]
        rw [rd_eq_ok_iff.2 hb]
        simp only [Res.ok_bind]
        rw [hadv, Res.ok_bind, hih, hfold]
        rw [pow_two] at hrest
        exact hrest

omit [StarkField F] [DecidableEq F] in
theorem friChain_iff (fin : List F) :
    ∀ (L : List (List F × F)) (m j : ℕ) (x : F) (e : Option F) (_ : j < 2 ^ m),
      FriChain fin L m j x e ↔
        L.length ≤ m ∧ (L = [] → e = some (Spec.evalPoly fin (x ^ j))) ∧
        (∀ W β, L[0]? = some (W, β) → ∀ v, e = some v → W[j]? = some v) ∧
        ∀ r W β, L[r]? = some (W, β) → ∃ a b, W[j % 2 ^ (m - (r + 1))]? = some a ∧
          W[j % 2 ^ (m - (r + 1)) + 2 ^ (m - (r + 1))]? = some b ∧
          (∀ W' β', L[r + 1]? = some (W', β') → W'[j % 2 ^ (m - (r + 1))]? =
            some (Spec.foldAt ((x ^ 2 ^ r) ^ (j % 2 ^ (m - (r + 1)))) a b β)) ∧
          (r + 1 = L.length → Spec.foldAt ((x ^ 2 ^ r) ^ (j % 2 ^ (m - (r + 1)))) a b β =
            Spec.evalPoly fin ((x ^ 2 ^ (r + 1)) ^ (j % 2 ^ (m - (r + 1))))) := by
  intro L
  induction L with
  | nil => intro m j x e hj; simp [FriChain]
  | cons y rest ih =>
    intro m j x e hj
    obtain ⟨W, β⟩ := y
    rw [FriChain]
    have hmm : ∀ {m' a : ℕ}, a ≤ m' → j % 2 ^ m' % 2 ^ a = j % 2 ^ a := fun ha => Nat.mod_mod_of_dvd _ (pow_dvd_pow 2 ha)
    have hx : ∀ r, (x ^ 2) ^ 2 ^ r = x ^ 2 ^ (r + 1) := fun r => by rw [← pow_mul, ← pow_succ']
    constructor
    · rintro ⟨m', a, b, rfl, ha, hb, he, hrest⟩
      rw [ih _ _ _ _ (Nat.mod_lt _ (by positivity))] at hrest
      obtain ⟨h1, h2, h3, h4⟩ := hrest
      refine ⟨by simpa using h1, by simp, ?_, ?_⟩
      · intro W' β' h
        simp only [List.getElem?_cons_zero, Option.some.injEq, Prod.mk.injEq] at h
        obtain ⟨rfl, rfl⟩ := h
        exact he
      · intro r W' β' h
        cases r with
        | zero =>
          simp only [List.getElem?_cons_zero, Option.some.injEq, Prod.mk.injEq] at h
          obtain ⟨rfl, rfl⟩ := h
          refine ⟨a, b, by simpa using ha, by simpa using hb, ?_, ?_⟩
          · intro W'' β'' h
            rw [Nat.zero_add, List.getElem?_cons_succ] at h
            have := h3 W'' β'' h _ rfl
            simpa using this
          · intro hl
            have hr : rest = [] := by simpa using hl
            have := Option.some.inj (h2 hr)
            simpa using this
        | succ r =>
          rw [List.getElem?_cons_succ] at h
          have hrl : r < rest.length := by
            by_contra hh
            rw [List.getElem?_eq_none (by omega)] at h; cases h
          obtain ⟨a', b', ha', hb', hn, hf⟩ := h4 r W' β' h
          have hs : m' + 1 - (r + 1 + 1) = m' - (r + 1) := by omega
          rw [hmm (by omega)] at ha' hb' hn hf
          rw [hx] at hn hf
          rw [hs]
          refine ⟨a', b', ha', hb', ?_, ?_⟩
          · intro W'' β'' h'
            rw [List.getElem?_cons_succ] at h'
            exact hn W'' β'' h'
          · intro hl
            rw [hf (by simpa using hl), hx]
    · rintro ⟨h1, -, h3, h4⟩
      rw [List.length_cons] at h1
      obtain ⟨m', rfl⟩ : ∃ m', m = m' + 1 := ⟨m - 1, by omega⟩
      obtain ⟨a, b, ha, hb, hn, hf⟩ := h4 0 W β (by simp)
      simp only [Nat.zero_add, Nat.add_sub_cancel, pow_zero, pow_one] at ha hb hn hf
      refine ⟨m', a, b, rfl, ha, hb, h3 W β (by simp), ?_⟩
      rw [ih _ _ _ _ (Nat.mod_lt _ (by positivity))]
      refine ⟨by omega, ?_, ?_, ?_⟩
      · rintro rfl
        rw [hf (by simp)]
      · intro W' β' h v hv
        cases hv
        exact hn W' β' (by simpa using h)
      · intro r W' β' h
        have hrl : r < rest.length := by
          by_contra hh
          rw [List.getElem?_eq_none (by omega)] at h; cases h
        obtain ⟨a', b', ha', hb', hn', hf'⟩ := h4 (r + 1) W' β' (by simpa using h)
        have hs : m' + 1 - (r + 1 + 1) = m' - (r + 1) := by omega
        rw [hs] at ha' hb' hn' hf'
        rw [hmm (by omega)]
        refine ⟨a', b', ha', hb', ?_, ?_⟩
        · intro W'' β'' h'
          rw [hx]
          exact hn' W'' β'' (by simpa using h')
        · intro hl
          rw [hx, hx]
          exact hf' (by simpa using hl)

/-- The word of round `r` of a prototype: the leaf values, then the intermediate ones. -/
def FriPrototype.word (p : FriPrototype F) (leaf : Poly F .values) (r : ℕ) : List F :=
  (((leaf :: p.intermediateValues)[r]?).map Poly.coeffs).getD []

/-- **C52.** For every prototype (honest or not) and every word: `verify_prototype` accepts index `idx` exactly if `idx` is an odd position of
the claimed domain, there is a round and not more rounds than the domain can be halved, and the supplied words are fold-consistent along the query path of
`idx` under the supplied challenges, ending in the final coefficients. -/
theorem C52_prototype_iff (p : FriPrototype F) (leaf : Poly F .values) (idx n k : ℕ) (d : Domain F)
    (hd : Domain.newForSize F (p.initialDegreePlusOne * p.ldeFactor) = .ok d) (hdn : d.size = 2 ^ n)
    (hk : k = min (p.intermediateValues.length + 1) p.challenges.length) :
    p.verify leaf idx = .ok true ↔ idx < 2 ^ n ∧ idx % 2 = 1 ∧ 1 ≤ k ∧ k ≤ n ∧
      ∃ v, Spec.FoldConsistent d.generator n k idx v (p.word leaf) (fun r => p.challenges.getD r 0) p.finalCoefficients := by
  have hcl : Nat.clog 2 (p.initialDegreePlusOne * p.ldeFactor) ≤ StarkField.S F := by
    by_contra hh
    rw [newForSize_eq, if_neg hh] at hd
    cases hd
  rw [newForSize_eq, if_pos hcl] at hd
  cases hd
  obtain rfl : Nat.clog 2 (p.initialDegreePlusOne * p.ldeFactor) = n := Nat.pow_right_injective (le_refl 2) hdn
  set n := Nat.clog 2 (p.initialDegreePlusOne * p.ldeFactor) with hn
  set L := (leaf :: p.intermediateValues).zip p.challenges with hL
  have hlen : L.length = k := by rw [hL, List.length_zip, List.length_cons, hk]
  have hget : ∀ r, r < k → ∃ W : Poly F .values, (L.map fun x => (x.1.coeffs, x.2))[r]? = some (W.coeffs, p.challenges.getD r 0) ∧ p.word leaf r = W.coeffs := by
    intro r hr
    have hr1 : r < (leaf :: p.intermediateValues).length := by rw [List.length_cons]; omega
    have hr2 : r < p.challenges.length := by omega
    refine ⟨(leaf :: p.intermediateValues)[r], ?_, ?_⟩
    · rw [List.getElem?_map, hL, List.getElem?_eq_getElem (by rw [← hL, hlen]; exact hr), List.getElem_zip]
      simp [List.getD_eq_getElem?_getD, hr2]
    · rw [FriPrototype.word, List.getElem?_eq_getElem hr1]; rfl
  have hnone : ∀ r, k ≤ r → (L.map fun x => (x.1.coeffs, x.2))[r]? = none := by
    intro r hr
    exact List.getElem?_eq_none (by rw [List.length_map]; omega)
  unfold FriPrototype.verify
  rcases Nat.eq_zero_or_pos n with h0 | hn1
  · constructor
    · intro h
      obtain ⟨⟨t, s⟩, hs, -⟩ := Res.bind_eq_ok.1 h
      obtain ⟨n', e, h1, -⟩ := friStart_inv hs
      omega
    · rintro ⟨-, -, h1, h2, -⟩; omega
  rw [friStart_gen hcl rfl hn1]
  by_cases hodd : idx % 2 = 1
  swap
  · rw [if_neg hodd]
    simp [hodd]
  rw [if_pos hodd]
  simp only [Res.ok_bind, ← hL]
  by_cases hidx : idx < 2 ^ n
  swap
  · simp only [hidx, false_and, iff_false]
    intro h
    cases hLc : L with
    | nil =>
      rw [hLc, prototypeRounds] at h
      simp [friFinish, Res.expect] at h
    | cons x rest =>
      rw [hLc, prototypeRounds] at h
      obtain ⟨c, hc, -⟩ := Res.bind_eq_ok.1 h
      unfold cosetForNaturalIndex at hc
      simp [hidx, Res.assert] at hc
  rw [prototypeRounds_iff (two_ne_zero_of_S (F := F) (by omega)) _ L n _ rfl hidx (genOf_ne_zero hcl) rfl, friChain_iff _ _ _ _ _ _ hidx]
  simp only [List.length_map, hlen, hidx, hodd, true_and]
  constructor
  · rintro ⟨h1, h2, -, h4⟩
    have hk1 : 1 ≤ k := by
      by_contra hh
      have : L = [] := List.length_eq_zero_iff.1 (by omega)
      have := h2 (by rw [this]; rfl)
      cases this
    refine ⟨hk1, h1, ?_⟩
    have hstep : ∀ r, r < k → ∃ a b, (p.word leaf r)[idx % 2 ^ (n - (r + 1))]? = some a ∧
        (p.word leaf r)[idx % 2 ^ (n - (r + 1)) + 2 ^ (n - (r + 1))]? = some b ∧
        (r + 1 < k → (p.word leaf (r + 1))[idx % 2 ^ (n - (r + 1))]? =
          some (Spec.foldAt ((genOf F n ^ 2 ^ r) ^ (idx % 2 ^ (n - (r + 1)))) a b (p.challenges.getD r 0))) ∧
        (r + 1 = k → Spec.foldAt ((genOf F n ^ 2 ^ r) ^ (idx % 2 ^ (n - (r + 1)))) a b (p.challenges.getD r 0) =
          Spec.evalPoly p.finalCoefficients ((genOf F n ^ 2 ^ k) ^ (idx % 2 ^ (n - k)))) := by
      intro r hr
      obtain ⟨W, e1, e2⟩ := hget r hr
      obtain ⟨a, b, ha, hb, hnx, hf⟩ := h4 r _ _ e1
      refine ⟨a, b, by rw [e2]; exact ha, by rw [e2]; exact hb, ?_, ?_⟩
      · intro hr1
        obtain ⟨W', e1', e2'⟩ := hget (r + 1) hr1
        rw [e2']
        exact hnx _ _ e1'
      · intro hr1
        have := hf hr1
        rw [hr1] at this
        rw [hr1]
        exact this
    obtain ⟨a, b, ha, hb, -, -⟩ := hstep 0 hk1
    rw [Nat.zero_add] at ha hb
    have hn' : n = n - 1 + 1 := by omega
    have hc := index_in_coset (m := n - 1) (j := idx) (by rw [← hn']; exact hidx)
    rcases hc with hc | hc
    · exact ⟨a, ⟨by rw [hc]; exact ha, hstep⟩⟩
    · exact ⟨b, ⟨by rw [hc]; exact hb, hstep⟩⟩
  · rintro ⟨hk1, hkn, v, hv, hstep⟩
    refine ⟨hkn, ?_, ?_, ?_⟩
    · intro h
      have : L = [] := by simpa using h
      rw [this] at hlen
      simp at hlen
      omega
    · intro W β _ v hv; cases hv
    · intro r W β h
      have hr : r < k := by
        by_contra hh
        rw [hnone r (by omega)] at h; cases h
      obtain ⟨W1, e1, e2⟩ := hget r hr
      rw [e1] at h
      simp only [Option.some.injEq, Prod.mk.injEq] at h
      obtain ⟨rfl, rfl⟩ := h
      obtain ⟨a, b, ha, hb, hnx, hf⟩ := hstep r hr
      rw [e2] at ha hb
      refine ⟨a, b, ha, hb, ?_, ?_⟩
      · intro W' β' h'
        have hr1 : r + 1 < k := by
          by_contra hh
          rw [hnone _ (by omega)] at h'; cases h'
        obtain ⟨W2, e1', e2'⟩ := hget (r + 1) hr1
        rw [e1'] at h'
        simp only [Option.some.injEq, Prod.mk.injEq] at h'
        obtain ⟨rfl, -⟩ := h'
        rw [← e2']
        exact hnx hr1
      · intro hr1
        have := hf hr1
        rw [← hr1] at this
        exact this

/-- The same prototype checked against the word it was made from and against one with a changed value on the query path. -/
def protoDemo : Res (Bool × Bool) := do
  let d ← Domain.newForSize Fr 16
  let v ← Poly.fromValues (tab 16 (fun i => (3 + 5 * d.generator ^ i : Fr)))
  let bad ← Poly.fromValues (tab 16 (fun i => if i = 13 then (0 : Fr) else 3 + 5 * d.generator ^ i))
  let proto ← friProofByValues toyHash ⟨2, by norm_num⟩ v 4 1
  let a ← proto.verify v 5
  let b ← proto.verify bad 5
  pure (a, b)

/-- C52 is met by accepted and by rejected prototypes. -/
example : protoDemo = .ok (true, false) := by decide +kernel

end Hodor

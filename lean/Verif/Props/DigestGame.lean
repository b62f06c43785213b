import Verif.Spec.DigestGame
import Verif.Props.Uniform
import Verif.Props.Floor

/-!
# C90: the soundness error in terms of digests

C86 and C88 speak of challenges drawn from a set. The code derives its challenges from digests. Drawing the digests is the same as drawing the challenges from
the `2^CAPACITY` smallest field elements and the positions from the odd ones.
-/

namespace Hodor

open Finset Spec

/-! ## Maps that hit every value equally often -/

/-- Every value of `φ` is taken equally often. -/
def EvenlyOnto {A B : Type} (φ : A → B) : Prop := ∃ (C : Type) (_ : Finite C) (_ : Nonempty C) (e : A ≃ B × C), ∀ a, φ a = (e a).1

theorem EvenlyOnto.of_card {A B : Type} [Finite A] (φ : A → B) (c : ℕ) (hc : 0 < c) (h : ∀ b, Nat.card {a // φ a = b} = c) : EvenlyOnto φ := by
  have e1 : ∀ b, Nonempty ({a // φ a = b} ≃ Fin c) := fun b => ⟨Finite.equivFinOfCardEq (h b)⟩
  have : Nonempty (Fin c) := ⟨⟨0, hc⟩⟩
  refine ⟨Fin c, inferInstance, this, ((Equiv.sigmaFiberEquiv φ).symm.trans (Equiv.sigmaCongrRight (fun b => (e1 b).some))).trans (Equiv.sigmaEquivProd B (Fin c)), ?_⟩
  intro a
  rfl

theorem EvenlyOnto.share {A B : Type} [Finite A] {φ : A → B} (h : EvenlyOnto φ) (P : B → Prop) : Spec.share (fun a => P (φ a)) = Spec.share P := by
  obtain ⟨C, hf, hne, e, he⟩ := h
  have hB : Finite B := Finite.of_surjective (fun a => (e a).1) (fun b => ⟨e.symm (b, hne.some), by simp⟩)
  have e1 : {a // P (φ a)} ≃ {b // P b} × C :=
    { toFun := fun a => (⟨(e a.1).1, he a.1 ▸ a.2⟩, (e a.1).2)
      invFun := fun x => ⟨e.symm (x.1.1, x.2), by rw [he]; simpa using x.1.2⟩
      left_inv := fun a => by simp
      right_inv := fun x => by simp }
  have hc : (Nat.card C : ℚ) ≠ 0 := by
    have : 0 < Nat.card C := Finite.card_pos
    positivity
  unfold Spec.share
  rw [Nat.card_congr e1, Nat.card_congr e, Nat.card_prod, Nat.card_prod]
  push_cast
  rw [mul_div_mul_right _ _ hc]

theorem EvenlyOnto.prod {A B A' B' : Type} {φ : A → B} {ψ : A' → B'} (h : EvenlyOnto φ) (h' : EvenlyOnto ψ) :
    EvenlyOnto (fun x : A × A' => (φ x.1, ψ x.2)) := by
  obtain ⟨C, hf, hne, e, he⟩ := h
  obtain ⟨C', hf', hne', e', he'⟩ := h'
  refine ⟨C × C', inferInstance, inferInstance, (Equiv.prodCongr e e').trans (Equiv.prodProdProdComm _ _ _ _), ?_⟩
  rintro ⟨a, a'⟩
  simp [he, he']

theorem EvenlyOnto.pi {A B : Type} {φ : A → B} (h : EvenlyOnto φ) (n : ℕ) : EvenlyOnto (fun (x : Fin n → A) j => φ (x j)) := by
  obtain ⟨C, hf, hne, e, he⟩ := h
  refine ⟨Fin n → C, inferInstance, inferInstance, (Equiv.arrowCongr (Equiv.refl _) e).trans (Equiv.arrowProdEquivProdArrow _ _ _), ?_⟩
  intro a
  funext j
  simp [he, Equiv.arrowProdEquivProdArrow]

theorem EvenlyOnto.congr {A B A' B' : Type} {φ : A → B} (h : EvenlyOnto φ) (eA : A' ≃ A) (eB : B ≃ B') : EvenlyOnto (fun a => eB (φ (eA a))) := by
  obtain ⟨C, hf, hne, e, he⟩ := h
  refine ⟨C, hf, hne, (eA.trans e).trans (Equiv.prodCongr eB (Equiv.refl _)), ?_⟩
  intro a
  simp [he]

/-! ## Digests and challenges -/

/-- A draw of digests as a tuple. -/
def digestDrawEquiv (nc nb nm : ℕ) :
    DigestDraw nc nb nm ≃ (Fin nc → Digest × Digest) × (Fin nb → Digest × Digest) × Digest × (Fin nm → Digest) × (Digest × Digest) where
  toFun x := (x.cc, x.bc, x.z, x.α, x.idx)
  invFun x := ⟨x.1, x.2.1, x.2.2.1, x.2.2.2.1, x.2.2.2.2⟩
  left_inv _ := rfl
  right_inv _ := rfl

instance (nc nb nm : ℕ) : Finite (DigestDraw nc nb nm) := Finite.of_equiv _ (digestDrawEquiv nc nb nm).symm

/-- A draw of challenges from a tuple. -/
def drawEquiv {F : Type} (S : Finset F) (nc nb nm : ℕ) (P1 P2 : Finset ℕ) :
    (Fin nc → S × S) × (Fin nb → S × S) × S × (Fin nm → S) × (P1 × P2) ≃ Draw S nc nb nm P1 P2 where
  toFun x := ⟨x.1, x.2.1, x.2.2.1, x.2.2.2.1, x.2.2.2.2⟩
  invFun x := (x.cc, x.bc, x.z, x.α, x.idx)
  left_inv _ := rfl
  right_inv _ := rfl

section

variable {F : Type} [Field F] [DecidableEq F] [StarkField F]

/-- The field elements that are challenges of some digest. -/
def challengeSet (F : Type) [Field F] [DecidableEq F] [StarkField F] : Finset F := (range (2 ^ capacity F)).image (fun n : ℕ => (n : F))

omit [DecidableEq F] in
theorem capacity_lt_modulus : 2 ^ capacity F ≤ StarkField.modulus F := by
  unfold capacity numBits
  rw [Nat.add_sub_cancel]
  exact Nat.pow_log_le_self 2 (by have := StarkField.repr_lt (0 : F); omega)

omit [DecidableEq F] in
theorem repr_natCast [CharP F (StarkField.modulus F)] (m : ℕ) (hm : m < StarkField.modulus F) : StarkField.repr (m : F) = m :=
  CharP.natCast_injOn_Iio F (StarkField.modulus F) (StarkField.repr_lt _) hm (StarkField.cast_repr _)

theorem mem_challengeSet [CharP F (StarkField.modulus F)] (x : F) : x ∈ challengeSet F ↔ StarkField.repr x < 2 ^ capacity F := by
  unfold challengeSet
  rw [mem_image]
  constructor
  · rintro ⟨n, hn, rfl⟩
    rw [mem_range] at hn
    rwa [repr_natCast n (lt_of_lt_of_le hn capacity_lt_modulus)]
  · intro h
    exact ⟨StarkField.repr x, mem_range.2 h, StarkField.cast_repr x⟩

theorem card_challengeSet [CharP F (StarkField.modulus F)] : (challengeSet F).card = 2 ^ capacity F := by
  unfold challengeSet
  rw [card_image_of_injOn, card_range]
  intro a ha b hb he
  rw [coe_range, Set.mem_Iio] at ha hb
  have := congrArg StarkField.repr he
  simp only at this
  rwa [repr_natCast a (lt_of_lt_of_le ha capacity_lt_modulus), repr_natCast b (lt_of_lt_of_le hb capacity_lt_modulus)] at this

theorem challengeOf_mem [CharP F (StarkField.modulus F)] (hc : ChallengeOk F) (d : Digest) : challengeOf F d ∈ challengeSet F := by
  rw [mem_challengeSet]
  have h := (C75_challenge_uniform hc (challengeOf F d)).2
  by_contra hlt
  rw [if_neg hlt, Finite.card_eq_zero_iff] at h
  exact h.false ⟨d, interpretHash_ok hc d⟩

theorem even_challenge [CharP F (StarkField.modulus F)] (hc : ChallengeOk F) :
    EvenlyOnto (fun d : Digest => (⟨challengeOf F d, challengeOf_mem hc d⟩ : challengeSet F)) := by
  refine EvenlyOnto.of_card _ (2 ^ (256 - capacity F)) (by positivity) ?_
  intro b
  have h := (C75_challenge_uniform hc b.1).2
  rw [if_pos ((mem_challengeSet b.1).1 b.2)] at h
  rw [← h]
  refine Nat.card_congr (Equiv.subtypeEquivRight (fun d => ?_))
  rw [interpretHash_ok hc d, Subtype.ext_iff, Res.ok.injEq]

end

/-- The position derived from a digest. -/
def positionOf (N e : ℕ) (d : Digest) : ℕ :=
  match bytesToChallengeIndex d.bytes (2 ^ N) (2 ^ e) with
  | .ok i => i
  | _ => 0

theorem positionOf_ok (N e : ℕ) (d : Digest) : bytesToChallengeIndex d.bytes (2 ^ N) (2 ^ e) = .ok (positionOf N e d) := by
  have h : ∃ i, bytesToChallengeIndex d.bytes (2 ^ N) (2 ^ e) = .ok i := by
    unfold bytesToChallengeIndex
    have := d.len
    rw [decide_eq_true (show 8 ≤ d.bytes.length by omega), decide_eq_true (show 0 < 2 ^ N by positivity), decide_eq_true (show 0 < 2 ^ e by positivity)]
    exact ⟨_, rfl⟩
  obtain ⟨i, hi⟩ := h
  unfold positionOf
  rw [hi]

theorem positionOf_mem (N e : ℕ) (hN : N ≤ 64) (hN1 : 1 ≤ N) (d : Digest) : positionOf N e d ∈ oddBelow (2 ^ N) := by
  have h := C75_index_uniform N e hN hN1 (positionOf N e d)
  rw [mem_oddBelow]
  by_contra hlt
  rw [if_neg hlt, Finite.card_eq_zero_iff] at h
  exact h.false ⟨d, positionOf_ok N e d⟩

theorem even_position (N e : ℕ) (hN : N ≤ 64) (hN1 : 1 ≤ N) :
    EvenlyOnto (fun d : Digest => (⟨positionOf N e d, positionOf_mem N e hN hN1 d⟩ : oddBelow (2 ^ N))) := by
  refine EvenlyOnto.of_card _ (2 ^ (257 - N)) (by positivity) ?_
  intro b
  have h := C75_index_uniform N e hN hN1 b.1
  rw [if_pos (mem_oddBelow.1 b.2)] at h
  rw [← h]
  refine Nat.card_congr (Equiv.subtypeEquivRight (fun d => ?_))
  rw [positionOf_ok N e d, Subtype.ext_iff, Res.ok.injEq]

section

variable {F : Type} [Field F] [DecidableEq F] [StarkField F] (H : List UInt8 → Digest)

/-- The challenges of a draw of digests. -/
noncomputable def drawOf [CharP F (StarkField.modulus F)] (hc : ChallengeOk F) (nc nb nm N M e : ℕ) (hN : N ≤ 64) (hM : M ≤ 64) (hN1 : 1 ≤ N) (hM1 : 1 ≤ M)
    (x : DigestDraw nc nb nm) : Draw (challengeSet F) nc nb nm (oddBelow (2 ^ N)) (oddBelow (2 ^ M)) :=
  let f : Digest → challengeSet F := fun d => ⟨challengeOf F d, challengeOf_mem hc d⟩
  ⟨fun j => (f (x.cc j).1, f (x.cc j).2), fun j => (f (x.bc j).1, f (x.bc j).2), f x.z, fun j => f (x.α j),
    (⟨positionOf N e x.idx.1, positionOf_mem N e hN hN1 _⟩, ⟨positionOf M e x.idx.2, positionOf_mem M e hM hM1 _⟩)⟩

theorem even_drawOf [CharP F (StarkField.modulus F)] (hc : ChallengeOk F) (nc nb nm N M e : ℕ) (hN : N ≤ 64) (hM : M ≤ 64) (hN1 : 1 ≤ N) (hM1 : 1 ≤ M) :
    EvenlyOnto (drawOf hc nc nb nm N M e hN hM hN1 hM1) := by
  have hf := even_challenge (F := F) hc
  have h := (((hf.prod hf).pi nc).prod (((hf.prod hf).pi nb).prod (hf.prod ((hf.pi nm).prod ((even_position N e hN hN1).prod (even_position M e hM hM1)))))).congr
    (digestDrawEquiv nc nb nm) (drawEquiv (challengeSet F) nc nb nm (oddBelow (2 ^ N)) (oddBelow (2 ^ M)))
  exact h

theorem drawOf_gives [CharP F (StarkField.modulus F)] (hc : ChallengeOk F) (nc nb nm N M e : ℕ) (hN : N ≤ 64) (hM : M ≤ 64) (hN1 : 1 ≤ N) (hM1 : 1 ≤ M)
    (x : DigestDraw nc nb nm) (ch : Challenges F) :
    x.Gives (2 ^ N) (2 ^ M) (2 ^ e) ch ↔ ch = (drawOf hc nc nb nm N M e hN hM hN1 hM1 x).challenges := by
  constructor
  · rintro ⟨⟨l1, h1⟩, ⟨l2, h2⟩, h3, ⟨l4, h4⟩, h5, h6⟩
    obtain ⟨cc, bc, z, α, i, j⟩ := ch
    simp only at *
    rw [interpretHash_ok hc, Res.ok.injEq] at h3
    rw [positionOf_ok, Res.ok.injEq] at h5 h6
    have a1 : cc = List.ofFn (fun j => (challengeOf F (x.cc j).1, challengeOf F (x.cc j).2)) := by
      refine List.ext_getElem? (fun t => ?_)
      by_cases ht : t < nc
      · obtain ⟨a, b, e1, e2, e3⟩ := h1 ⟨t, ht⟩
        rw [interpretHash_ok hc, Res.ok.injEq] at e2 e3
        rw [List.getElem?_ofFn, dif_pos ht, e1, e2, e3]
      · rw [List.getElem?_eq_none (by omega), List.getElem?_eq_none (by rw [List.length_ofFn]; omega)]
    have a2 : bc = List.ofFn (fun j => (challengeOf F (x.bc j).1, challengeOf F (x.bc j).2)) := by
      refine List.ext_getElem? (fun t => ?_)
      by_cases ht : t < nb
      · obtain ⟨a, b, e1, e2, e3⟩ := h2 ⟨t, ht⟩
        rw [interpretHash_ok hc, Res.ok.injEq] at e2 e3
        rw [List.getElem?_ofFn, dif_pos ht, e1, e2, e3]
      · rw [List.getElem?_eq_none (by omega), List.getElem?_eq_none (by rw [List.length_ofFn]; omega)]
    have a4 : α = List.ofFn (fun j => challengeOf F (x.α j)) := by
      refine List.ext_getElem? (fun t => ?_)
      by_cases ht : t < nm
      · obtain ⟨a, e1, e2⟩ := h4 ⟨t, ht⟩
        rw [interpretHash_ok hc, Res.ok.injEq] at e2
        rw [List.getElem?_ofFn, dif_pos ht, e1, e2]
      · rw [List.getElem?_eq_none (by omega), List.getElem?_eq_none (by rw [List.length_ofFn]; omega)]
    rw [a1, a2, a4, ← h3, ← h5, ← h6]
    rfl
  · rintro rfl
    refine ⟨⟨by simp [Draw.challenges], fun j => ?_⟩, ⟨by simp [Draw.challenges], fun j => ?_⟩, interpretHash_ok hc _, ⟨by simp [Draw.challenges], fun j => ?_⟩,
      positionOf_ok _ _ _, positionOf_ok _ _ _⟩
    · exact ⟨_, _, by simp only [Draw.challenges]; rw [List.getElem?_ofFn, dif_pos j.2]; rfl, interpretHash_ok hc _, interpretHash_ok hc _⟩
    · exact ⟨_, _, by simp only [Draw.challenges]; rw [List.getElem?_ofFn, dif_pos j.2]; rfl, interpretHash_ok hc _, interpretHash_ok hc _⟩
    · exact ⟨_, by simp only [Draw.challenges]; rw [List.getElem?_ofFn, dif_pos j.2]; rfl, interpretHash_ok hc _⟩

/-- **C90** (drawing digests). Every draw of digests gives exactly one list of challenges and positions, and the share of the draws of digests whose challenges have a property is the share
of the independent draws from the `2^CAPACITY` smallest field elements and the odd positions that have it. -/
theorem C90_digests [CharP F (StarkField.modulus F)] (hc : ChallengeOk F) (nc nb nm N M e : ℕ) (hN : N ≤ 64) (hM : M ≤ 64) (hN1 : 1 ≤ N) (hM1 : 1 ≤ M) :
    (∀ x : DigestDraw nc nb nm, ∃! ch : Challenges F, x.Gives (2 ^ N) (2 ^ M) (2 ^ e) ch) ∧
    ∃ S : Finset F, S.card = 2 ^ capacity F ∧ (∀ a, a ∈ S ↔ StarkField.repr a < 2 ^ capacity F) ∧ ∀ A : Challenges F → Prop,
      share (fun x : DigestDraw nc nb nm => ∃ ch, x.Gives (2 ^ N) (2 ^ M) (2 ^ e) ch ∧ A ch) =
        share (fun x : Draw S nc nb nm (oddBelow (2 ^ N)) (oddBelow (2 ^ M)) => A x.challenges) := by
  refine ⟨fun x => ⟨_, (drawOf_gives hc nc nb nm N M e hN hM hN1 hM1 x _).2 rfl, fun ch h => (drawOf_gives hc nc nb nm N M e hN hM hN1 hM1 x _).1 h⟩,
    challengeSet F, card_challengeSet, mem_challengeSet, fun A => ?_⟩
  rw [← (even_drawOf (F := F) hc nc nb nm N M e hN hM hN1 hM1).share]
  congr 1
  funext x
  simp only [drawOf_gives hc nc nb nm N M e hN hM hN1 hM1, exists_eq_left]

/-- The sizes of the LDE domains of a verifier. -/
theorem lde_sizes (inst : InstanceProperties F) (n k e : ℕ) (h : Verifiable inst n k) (v : Verifier F) (hver : Verifier.new inst (2 ^ e) = .ok v) (d1 d2 : Domain F)
    (hd1 : Domain.newForSize F (v.columnDomain.size * v.ldeFactor) = .ok d1)
    (hd2 : Domain.newForSize F (v.constraintsDomain.size * v.ldeFactor) = .ok d2) :
    v.ldeFactor = 2 ^ e ∧ ∃ N M, e ≤ N ∧ e ≤ M ∧ N ≤ StarkField.S F ∧ M ≤ StarkField.S F ∧ d1.size = 2 ^ N ∧ d2.size = 2 ^ M := by
  have hv := h.built hver
  obtain ⟨K, -, hdom, hK⟩ := hv.domain
  have z1 : v.columnDomain.size * v.ldeFactor = 2 ^ (k + e) := by rw [hv.column, hv.factor]; exact (pow_add _ _ _).symm
  have z2 : v.constraintsDomain.size * v.ldeFactor = 2 ^ (K + e) := by rw [hdom, hv.factor]; exact (pow_add _ _ _).symm
  obtain ⟨m1, hm1, e1, f1⟩ := newForSize_inv hd1
  obtain ⟨m2, hm2, e2, f2⟩ := newForSize_inv hd2
  rw [z1, nextPow2_pow] at f1
  rw [z2, nextPow2_pow] at f2
  have g1 := Nat.pow_right_injective (le_refl 2) f1
  have g2 := Nat.pow_right_injective (le_refl 2) f2
  refine ⟨hv.factor, m1, m2, ?_, ?_, hm1, hm2, by rw [e1]; rfl, by rw [e2]; rfl⟩ <;> omega

/-- **C90** (soundness error). A prover plays any strategy against challenges and positions derived from independent uniform digests. Either the words of the registers it commits to decode to a
witness that satisfies the instance, or the share of the draws of digests with which it wins is at most the bound of C86 with `2^CAPACITY` challenges. -/
theorem C90_soundness_error [CharP F (StarkField.modulus F)] (hb : numBits F < 256) (hc : ChallengeOk F) (hS : StarkField.S F ≤ 64)
    (inst : InstanceProperties F) (n k e slack E1 E2 : ℕ) (h : Verifiable inst n k)
    (hs1 : 1 ≤ slack) (he : 1 ≤ e)
    (hdeg : ∀ c ∈ inst.constraints, ∀ t ∈ c.terms, termDegree t ≤ c.degree)
    (hspan : ∀ c ∈ inst.constraints, ∀ d, c.density = .dense d → ∀ t ∈ factors c, ∀ j, t.stepsDifference = .steps j → j ≤ d.span)
    (hrows : ∀ b ∈ inst.boundaryConstraints, b.atRow < inst.numRows)
    (v : Verifier F) (hver : Verifier.new inst (2 ^ e) = .ok v) (d1 d2 : Domain F)
    (hd1 : Domain.newForSize F (v.columnDomain.size * v.ldeFactor) = .ok d1)
    (hd2 : Domain.newForSize F (v.constraintsDomain.size * v.ldeFactor) = .ok d2) (N1 N2 : ℕ)
    (hN1 : 2 * N1 = d1.size) (hN2 : 2 * N2 = d2.size)
    (hE1 : 2 * E1 + slack * v.columnDomain.size < N1) (hE2 : 2 * E2 + slack * v.constraintsDomain.size < N2) (s : Strategy F) :
    (∃ witness, IsTable witness n inst.numRows ∧ ReadOff v d1 slack E1 s.f.1 witness ∧ Satisfies inst (cellR witness) inst.numRows) ∨
      share (fun x : DigestDraw inst.constraints.length inst.boundaryConstraints.length v.allMasks.length =>
          ∃ ch, x.Gives d1.size d2.size v.ldeFactor ch ∧ s.Wins H v slack E1 E2 d1 d2 ch) ≤
        (2 * (inst.constraints.length + inst.boundaryConstraints.length) + (d2.size + slack * v.constraintsDomain.size + v.columnDomain.size) +
          v.allMasks.length * (E1 * (N1 - E1 + 2) + 1) : ℕ) / 2 ^ capacity F + max (1 - (E1 + 1) / N1 : ℚ) (1 - (E2 + 1) / N2) := by
  obtain ⟨hf, N, M, heN, heM, hN, hM, s1, s2⟩ := lde_sizes inst n k e h v hver d1 d2 hd1 hd2
  obtain ⟨-, S, hcard, -, hA⟩ := C90_digests (F := F) hc inst.constraints.length inst.boundaryConstraints.length v.allMasks.length N M e (by omega) (by omega) (he.trans heN) (he.trans heM)
  have key := C86_soundness_error H hb hc inst n k e slack E1 E2 h hs1 he hdeg hspan hrows v hver d1 d2 hd1 hd2 N1 N2 hN1 hN2 hE1 hE2 S s
  rw [hcard] at key
  have hA := hA (fun ch => s.Wins H v slack E1 E2 d1 d2 ch)
  rw [← s1, ← s2, ← hf] at hA
  rw [hA]
  push_cast at key ⊢
  exact key

/-- **C90** (floor). Some strategy passes with at least the share `min(1, 4 / LDE factor)` of the draws of digests, less the share of points in the LDE domain of `g`, whether the instance can be satisfied or not. -/
theorem C90_soundness_floor [CharP F (StarkField.modulus F)] (hc : ChallengeOk F) (hS : StarkField.S F ≤ 64) (inst : InstanceProperties F) (n k e : ℕ) (h : Verifiable inst n k)
    (h2 : 2 ≤ inst.numRows) (he : 1 ≤ e) (v : Verifier F) (hver : Verifier.new inst (2 ^ e) = .ok v) (d1 d2 : Domain F)
    (hd1 : Domain.newForSize F (v.columnDomain.size * v.ldeFactor) = .ok d1)
    (hd2 : Domain.newForSize F (v.constraintsDomain.size * v.ldeFactor) = .ok d2) :
    ∃ s : Strategy F, min 1 (4 / 2 ^ e) - (d2.size : ℚ) / 2 ^ capacity F ≤
        share (fun x : DigestDraw inst.constraints.length inst.boundaryConstraints.length v.allMasks.length =>
          ∃ ch, x.Gives d1.size d2.size v.ldeFactor ch ∧ s.Passes H v 2 d1 d2 ch ∧
            (∀ E, ¬ (s.commitments ch).run1.LuckyWithin d1.generator (Nat.log 2 d1.size) E) ∧
            ∀ E, ¬ (s.commitments ch).run2.LuckyWithin d2.generator (Nat.log 2 d2.size) E) := by
  obtain ⟨hf, N, M, heN, heM, hN, hM, s1, s2⟩ := lde_sizes inst n k e h v hver d1 d2 hd1 hd2
  obtain ⟨-, S, hcard, -, hA⟩ := C90_digests (F := F) hc inst.constraints.length inst.boundaryConstraints.length v.allMasks.length N M e (by omega) (by omega) (he.trans heN) (he.trans heM)
  obtain ⟨s, hs⟩ := C88_soundness_floor H hc inst n k e h h2 he v hver d1 d2 hd1 hd2
  refine ⟨s, ?_⟩
  have hs := hs S (card_pos.1 (by rw [hcard]; positivity))
  have hA := hA (fun ch => s.Passes H v 2 d1 d2 ch ∧ (∀ E, ¬ (s.commitments ch).run1.LuckyWithin d1.generator (Nat.log 2 d1.size) E) ∧
            ∀ E, ¬ (s.commitments ch).run2.LuckyWithin d2.generator (Nat.log 2 d2.size) E)
  rw [← s1, ← s2, ← hf] at hA
  rw [hA]
  rw [hcard] at hs
  push_cast at hs ⊢
  exact hs

/-- **C90** (how often an honest prover is refused). If the LDE domain of `g` has `2^M` points, at most the share `2^M / 2^CAPACITY` of the digests gives a point inside it, with which
`prove` returns an error (C65). -/
theorem C90_point_in_domain [CharP F (StarkField.modulus F)] (hc : ChallengeOk F) (M : ℕ) :
    share (fun d : Digest => ∃ z : F, interpretHash d = .ok z ∧ z ^ 2 ^ M = 1) ≤ (2 ^ M : ℚ) / 2 ^ capacity F := by
  classical
  have h := C75_luck (F := F) hc (fun z => z ^ 2 ^ M = 1) (2 ^ M) (fun T hT => by
    have hsub : T ⊆ (Polynomial.nthRoots (2 ^ M) (1 : F)).toFinset := fun a ha => by
      rw [Multiset.mem_toFinset, Polynomial.mem_nthRoots (by positivity)]
      exact hT a ha
    exact ((card_le_card hsub).trans (Multiset.toFinset_card_le _)).trans (Polynomial.card_nthRoots _ _))
  unfold share
  have hD : (0 : ℚ) < Nat.card Digest := by rw [card_digest]; positivity
  rw [div_le_div_iff₀ hD (by positivity)]
  have e1 : Nat.card {d : Digest // ∃ z : F, interpretHash d = .ok z ∧ z ^ 2 ^ M = 1} = Nat.card {d : Digest // ∃ β : F, β ^ 2 ^ M = 1 ∧ interpretHash d = .ok β} :=
    Nat.card_congr (Equiv.subtypeEquivRight (fun d => by simp only [and_comm]))
  rw [e1]
  exact_mod_cast h

end

/-! ## The hypotheses are met -/

/-- The hypotheses of `C90_soundness_error` are met by the instance with three rows, LDE factor 8, slack 2, `E₁ = E₂ = 3`; the bound has `2^8` challenges. -/
example (H : List UInt8 → Digest) (s : Strategy Fr) : ∃ v d1 d2, Verifier.new threeRows (2 ^ 3) = .ok v ∧
      Domain.newForSize Fr (v.columnDomain.size * v.ldeFactor) = .ok d1 ∧ Domain.newForSize Fr (v.constraintsDomain.size * v.ldeFactor) = .ok d2 ∧
      ((∃ witness, IsTable witness 1 threeRows.numRows ∧ ReadOff v d1 2 3 s.f.1 witness ∧ Satisfies threeRows (cellR witness) threeRows.numRows) ∨
      share (fun x : DigestDraw threeRows.constraints.length threeRows.boundaryConstraints.length v.allMasks.length =>
          ∃ ch, x.Gives d1.size d2.size v.ldeFactor ch ∧ s.Wins H v 2 3 3 d1 d2 ch) ≤
        (2 * (threeRows.constraints.length + threeRows.boundaryConstraints.length) + (d2.size + 2 * v.constraintsDomain.size + v.columnDomain.size) +
          v.allMasks.length * (3 * (16 - 3 + 2) + 1) : ℕ) / 2 ^ capacity Fr + max (1 - ((3 : ℕ) + 1) / (16 : ℕ) : ℚ) (1 - ((3 : ℕ) + 1) / (16 : ℕ))) := by
  have h := threeRows_verifiable
  obtain ⟨v, e3, hz, hsz, hdeg, hspan, hrows, -⟩ := threeRows_setup
  have hch : ChallengeOk Fr := by unfold ChallengeOk; decide +kernel
  have hcs : v.columnDomain.size = 4 := by rw [(h.built e3).column]; rfl
  have hd1 : Domain.newForSize Fr (v.columnDomain.size * v.ldeFactor) = .ok (domOf Fr 5) := by
    rw [(h.built e3).column, (h.built e3).factor]
    exact newForSize_pow (k := 5) (by decide)
  have hd2 : Domain.newForSize Fr (v.constraintsDomain.size * v.ldeFactor) = .ok (domOf Fr 5) := by
    rw [hsz, (h.built e3).factor]
    exact newForSize_pow (k := 5) (by decide)
  refine ⟨v, _, _, e3, hd1, hd2, C90_soundness_error H (by decide +kernel) hch (by decide) threeRows 1 2 3 2 3 3 h (by norm_num) (by norm_num) hdeg hspan hrows v e3 _ _ hd1 hd2 16 16 rfl rfl
    (by rw [hcs]; norm_num) (by rw [hsz]; norm_num) s⟩

/-- In the field of the experiments, with an LDE domain of `2^30` points, fewer than one in `2^220` digests stops the prover. -/
example : share (fun d : Digest => ∃ z : FrStark, interpretHash d = .ok z ∧ z ^ 2 ^ 30 = 1) < 1 / 2 ^ 220 := by
  have hn : numBits FrStark = 252 := by
    show Nat.log 2 starkPrime + 1 = 252
    rw [Nat.log_eq_of_pow_le_of_lt_pow (m := 251)] <;> decide +kernel
  have hc : capacity FrStark = 251 := by unfold capacity; rw [hn]
  have h := C90_point_in_domain (F := FrStark) ⟨by omega, by omega, by omega⟩ 30
  rw [hc] at h
  refine lt_of_le_of_lt h ?_
  norm_num

end Hodor

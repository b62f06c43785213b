import Verif.Spec.Oracle
import Verif.Props.DigestGame
import Mathlib.Data.Set.Finite.List
import Mathlib.Data.Fin.Tuple.Sort

/-!
# Lemmas: answers of a random hash function to strings which depend on earlier answers
-/

namespace Hodor

open Finset Spec

/-! ## Tables of values -/

section
variable {T D : Type} [Finite T] [Finite D] [Nonempty D] [DecidableEq T]

/-- If the `i`-th place `q i` is fixed by the values at the places before it, all values are taken equally often. -/
theorem card_answers (q : ℕ → (T → D) → T) (m : ℕ) (hq : ∀ i, i < m → ∀ ω d, ∀ j, j ≤ i → q j (Function.update ω (q i ω) d) = q j ω)
    (hne : ∀ i, i < m → ∀ j, j < i → ∀ ω, q j ω ≠ q i ω) (v : ℕ → D) :
    Nat.card {ω : T → D // ∀ i, i < m → ω (q i ω) = v i} * Nat.card D ^ m = Nat.card (T → D) := by
  induction m with
  | zero =>
    rw [pow_zero, mul_one]
    exact Nat.card_congr (Equiv.subtypeUnivEquiv (fun ω i hi => absurd hi (by omega)))
  | succ m ih =>
    have ih := ih (fun i hi => hq i (by omega)) (fun i hi => hne i (by omega))
    have hm := hq m (by omega)
    have key : ∀ (ω : T → D) d i, i < m → (Function.update ω (q m ω) d) (q i (Function.update ω (q m ω) d)) = ω (q i ω) := by
      intro ω d i hi
      rw [hm ω d i (by omega), Function.update_of_ne (hne m (by omega) i hi ω)]
    have e : {ω : T → D // ∀ i, i < m → ω (q i ω) = v i} ≃ {ω : T → D // ∀ i, i < m + 1 → ω (q i ω) = v i} × D :=
      { toFun := fun ω => (⟨Function.update ω.1 (q m ω.1) (v m), fun i hi => by
            rcases Nat.lt_succ_iff_lt_or_eq.1 hi with h | rfl
            · rw [key _ _ _ h]; exact ω.2 i h
            · rw [hm _ _ i le_rfl, Function.update_self]⟩, ω.1 (q m ω.1))
        invFun := fun x => ⟨Function.update x.1.1 (q m x.1.1) x.2, fun i hi => by rw [key _ _ _ hi]; exact x.1.2 i (by omega)⟩
        left_inv := fun ω => by
          apply Subtype.ext
          simp only [hm _ _ m le_rfl, Function.update_idem, Function.update_eq_self]
        right_inv := fun x => by
          refine Prod.ext (Subtype.ext ?_) ?_
          · simp only [hm _ _ m le_rfl, Function.update_idem]
            rw [← x.1.2 m (by omega), Function.update_eq_self]
          · simp only [hm _ _ m le_rfl, Function.update_self] }
    rw [← ih, Nat.card_congr e, Nat.card_prod, pow_succ]
    ring

theorem even_answers (q : ℕ → (T → D) → T) (m : ℕ) (hq : ∀ i, i < m → ∀ ω d, ∀ j, j ≤ i → q j (Function.update ω (q i ω) d) = q j ω)
    (hne : ∀ i, i < m → ∀ j, j < i → ∀ ω, q j ω ≠ q i ω) : EvenlyOnto (fun (ω : T → D) (i : Fin m) => ω (q i ω)) := by
  have hD : 0 < Nat.card D := Nat.card_pos
  have hΩ : 0 < Nat.card (T → D) := Nat.card_pos
  have hc := fun v : ℕ → D => card_answers q m hq hne v
  obtain ⟨d0⟩ : Nonempty D := inferInstance
  have hfib : ∀ v : Fin m → D, Nat.card {ω : T → D // (fun i : Fin m => ω (q i ω)) = v} * Nat.card D ^ m = Nat.card (T → D) := by
    intro v
    rw [← hc (fun i => if h : i < m then v ⟨i, h⟩ else d0)]
    congr 1
    refine Nat.card_congr (Equiv.subtypeEquivRight (fun ω => ?_))
    constructor
    · rintro rfl i hi
      simp [hi]
    · intro h
      funext i
      rw [h i i.2]; simp
  refine EvenlyOnto.of_card _ (Nat.card (T → D) / Nat.card D ^ m) ?_ (fun v => ?_)
  · refine Nat.div_pos ?_ (by positivity)
    exact Nat.le_of_dvd hΩ ⟨_, by rw [mul_comm]; exact (hc (fun _ => d0)).symm⟩
  · rw [← hfib v, Nat.mul_div_cancel _ (by positivity)]

end

/-! ## Random hash functions -/

instance finite_shortStrings (B : ℕ) : Finite {s : List UInt8 // s.length ≤ B} := by
  have : Finite UInt8 := Finite.of_injective (fun x : UInt8 => x.toBitVec.toFin) (fun a b h => by
    have h : a.toBitVec.toFin = b.toBitVec.toFin := h
    exact UInt8.toBitVec_inj.1 (BitVec.toFin_inj.1 h))
  have := List.finite_length_le UInt8 B
  exact this.to_subtype

instance : Nonempty Digest := ⟨zeroDigest⟩

theorem oracle_hash_update {B : ℕ} (o : Oracle B) (H : List UInt8 → Digest) (s : List UInt8) (h : s.length ≤ B) (d : Digest) :
    Oracle.hash (Function.update o ⟨s, h⟩ d) H = Function.update (o.hash H) s d := by
  funext x
  unfold Oracle.hash
  by_cases hx : x = s
  · subst hx
    rw [dif_pos h, Function.update_self, Function.update_self]
  · rw [Function.update_of_ne hx]
    split_ifs with h'
    · rw [Function.update_of_ne]
      intro e
      exact hx (Subtype.mk.inj e)
    · rfl

/-- `P` is decided by the answers of a random hash function to strings `s 0`, `s 1`, …, each of which is fixed by the answers to those before it; the answers to
strings asked for the first time are independent and uniform. -/
theorem share_adaptive (H : List UInt8 → Digest) (B M : ℕ) (s : ℕ → (List UInt8 → Digest) → List UInt8) (hlen : ∀ i, i < M → ∀ h, (s i h).length ≤ B)
    (hdep : ∀ i, i < M → ∀ h h', (∀ a, a < i → h (s a h) = h' (s a h)) → s i h' = s i h) (P : Oracle B → Prop) (R : (Fin M → Digest) → Prop)
    (hPR : ∀ o v, P o → (∀ i : Fin M, (∀ a, a < i.1 → s a (o.hash H) ≠ s i (o.hash H)) → v i = o.hash H (s i (o.hash H))) → R v) :
    share P ≤ share R := by
  classical
  let T := {s : List UInt8 // s.length ≤ B} ⊕ Fin M
  have hT : Finite T := inferInstance
  let hω : (T → Digest) → List UInt8 → Digest := fun ω => Oracle.hash (fun x => ω (.inl x)) H
  let New : ℕ → (T → Digest) → Prop := fun i ω => ∀ a, a < i → s a (hω ω) ≠ s i (hω ω)
  let Q : ℕ → (T → Digest) → T := fun i ω =>
    if h : (s i (hω ω)).length ≤ B ∧ New i ω then .inl ⟨s i (hω ω), h.1⟩ else if h : i < M then .inr ⟨i, h⟩ else .inl ⟨[], by simp⟩
  have hQ1 : ∀ i (hi : i < M) ω, New i ω → Q i ω = .inl ⟨s i (hω ω), hlen i hi _⟩ := fun i hi ω h => dif_pos ⟨hlen i hi _, h⟩
  have hQ2 : ∀ i (hi : i < M) ω, ¬ New i ω → Q i ω = .inr ⟨i, hi⟩ := fun i hi ω h => by
    show dite _ _ _ = _
    rw [dif_neg (fun h' => h h'.2), dif_pos hi]
  have hinl : ∀ ω x d, hω (Function.update ω (.inl x) d) = Function.update (hω ω) x.1 d := by
    intro ω x d
    show Oracle.hash _ H = Function.update (Oracle.hash _ H) _ _
    rw [← oracle_hash_update _ _ _ x.2]
    congr 1
    funext y
    by_cases hy : y = x
    · subst hy; rw [Function.update_self, Function.update_self]
    · rw [Function.update_of_ne hy, Function.update_of_ne (fun e => hy (Sum.inl.inj e))]
  have hinr : ∀ ω x d, hω (Function.update ω (.inr x) d) = hω ω := by
    intro ω x d
    show Oracle.hash _ H = Oracle.hash _ H
    congr 1
  have same : ∀ i, i < M → ∀ ω d, ∀ a, a ≤ i → s a (hω (Function.update ω (Q i ω) d)) = s a (hω ω) := by
    intro i hi ω d
    by_cases hn : New i ω
    · rw [hQ1 i hi ω hn, hinl]
      have : ∀ a, a < i → (hω ω) (s a (hω ω)) = Function.update (hω ω) (s i (hω ω)) d (s a (hω ω)) := fun a ha => by
        rw [Function.update_of_ne (hn a ha)]
      intro a ha
      exact hdep a (by omega) _ _ (fun b hb => this b (by omega))
    · rw [hQ2 i hi ω hn, hinr]
      exact fun _ _ => rfl
  have hev := even_answers Q M (fun i hi ω d j hj => by
      have e := same i hi ω d
      have hn : New j (Function.update ω (Q i ω) d) ↔ New j ω :=
        forall_congr' (fun a => forall_congr' (fun ha => by rw [e a (by omega), e j hj]))
      by_cases hj' : New j ω
      · rw [hQ1 j (by omega) _ (hn.2 hj'), hQ1 j (by omega) _ hj']
        exact congrArg Sum.inl (Subtype.ext (e j hj))
      · rw [hQ2 j (by omega) _ (fun h => hj' (hn.1 h)), hQ2 j (by omega) _ hj']) (fun i hi j hj ω e => by
      by_cases h1 : New i ω <;> by_cases h2 : New j ω
      · rw [hQ1 i hi _ h1, hQ1 j (by omega) _ h2] at e
        exact h1 j hj (Subtype.mk.inj (Sum.inl.inj e))
      · rw [hQ1 i hi _ h1, hQ2 j (by omega) _ h2] at e; cases e
      · rw [hQ2 i hi _ h1, hQ1 j (by omega) _ h2] at e; cases e
      · rw [hQ2 i hi _ h1, hQ2 j (by omega) _ h2] at e
        have := Fin.mk.inj (Sum.inr.inj e)
        omega)
  have hfst : EvenlyOnto (fun (ω : T → Digest) => (fun x => ω (.inl x) : Oracle B)) :=
    ⟨Fin M → Digest, inferInstance, inferInstance, Equiv.sumArrowEquivProdArrow _ _ _, fun _ => rfl⟩
  rw [← hfst.share P, ← hev.share R]
  refine share_mono (fun ω hP => hPR _ _ hP (fun i hi => ?_))
  have hn : New i ω := hi
  show ω (Q i ω) = _
  rw [hQ1 i i.2 ω hn]
  show _ = Oracle.hash _ _ _
  unfold Oracle.hash
  rw [dif_pos (hlen i i.2 _)]
  rfl

/-- The same with strings numbered by any finite type, each fixed by the answers to those of lower rank. -/
theorem share_ranked {I : Type} [Finite I] (H : List UInt8 → Digest) (B : ℕ) (s : I → (List UInt8 → Digest) → List UInt8) (rank : I → ℕ) (hlen : ∀ i h, (s i h).length ≤ B)
    (hdep : ∀ i h h', (∀ a, rank a < rank i → h (s a h) = h' (s a h)) → s i h' = s i h) (P : Oracle B → Prop) (R : (I → Digest) → Prop)
    (hPR : ∀ ord : I → ℕ, Function.Injective ord → (∀ a b, rank a < rank b → ord a < ord b) → ∀ o v, P o →
      (∀ i, (∀ a, ord a < ord i → s a (o.hash H) ≠ s i (o.hash H)) → v i = o.hash H (s i (o.hash H))) → R v) :
    share P ≤ share R := by
  classical
  obtain ⟨M, ⟨e0⟩⟩ := Finite.exists_equiv_fin I
  let e : Fin M ≃ I := (Tuple.sort (rank ∘ e0.symm)).trans e0.symm
  have hmono : ∀ a b : Fin M, a ≤ b → rank (e a) ≤ rank (e b) := fun a b h => Tuple.monotone_sort (rank ∘ e0.symm) h
  have hord : ∀ a b : I, rank a < rank b → (e.symm a : ℕ) < e.symm b := by
    intro a b h
    by_contra hc
    have := hmono (e.symm b) (e.symm a) (by rw [Fin.le_def]; omega)
    rw [Equiv.apply_symm_apply, Equiv.apply_symm_apply] at this
    omega
  let s' : ℕ → (List UInt8 → Digest) → List UInt8 := fun i h => if hi : i < M then s (e ⟨i, hi⟩) h else []
  have hs' : ∀ i (hi : i < M) h, s' i h = s (e ⟨i, hi⟩) h := fun i hi h => dif_pos hi
  have hev : EvenlyOnto (fun v : I → Digest => fun i : Fin M => v (e i)) :=
    ⟨Unit, inferInstance, inferInstance, (Equiv.arrowCongr e.symm (Equiv.refl _)).trans (Equiv.prodPUnit _).symm, fun v => rfl⟩
  have h := share_adaptive H B M s' (fun i hi h => by rw [hs' i hi]; exact hlen _ _) (fun i hi h h' ha => by
    rw [hs' i hi, hs' i hi]
    refine hdep _ _ _ (fun a hr => ?_)
    have := ha (e.symm a) (by simpa using hord a _ hr)
    rw [hs' _ (e.symm a).2] at this
    simpa using this) P (fun v => R (fun i => v (e.symm i))) (fun o v hP hv => by
    refine hPR (fun i => e.symm i) (fun a b hab => e.symm.injective (Fin.ext hab)) hord o _ hP (fun i hi => ?_)
    have := hv (e.symm i) (fun a ha => by
      have ham : a < M := ha.trans (e.symm i).2
      rw [hs' a ham, hs' _ (e.symm i).2]
      have := hi (e ⟨a, ham⟩) (by simpa using ha)
      simpa using this)
    rw [hs' _ (e.symm i).2] at this
    simpa using this)
  refine h.trans (le_of_eq ?_)
  rw [← hev.share]
  simp

/-- Among the answers to `N` strings, two different strings have the same one with at most the share `N (N - 1) / 2^256` of the hash functions. -/
theorem share_collision {I : Type} [Finite I] (H : List UInt8 → Digest) (B : ℕ) (s : I → (List UInt8 → Digest) → List UInt8) (rank : I → ℕ) (hlen : ∀ i h, (s i h).length ≤ B)
    (hdep : ∀ i h h', (∀ a, rank a < rank i → h (s a h) = h' (s a h)) → s i h' = s i h) :
    share (fun o : Oracle B => CollisionAmong (o.hash H) (fun x => ∃ i, x = s i (o.hash H))) ≤ (Nat.card I * (Nat.card I - 1) : ℚ) / 2 ^ 256 := by
  classical
  have := Fintype.ofFinite I
  have h1 : share (fun o : Oracle B => CollisionAmong (o.hash H) (fun x => ∃ i, x = s i (o.hash H))) ≤ share (fun v : I → Digest => ∃ i j, i ≠ j ∧ v i = v j) := by
    refine share_ranked H B s rank hlen hdep _ _ ?_
    rintro ord hinj hmon o v ⟨x, y, ⟨i, rfl⟩, ⟨j, rfl⟩, hne, heq⟩ hv
    have hfirst : ∀ i, ∃ i', s i' (o.hash H) = s i (o.hash H) ∧ ∀ a, ord a < ord i' → s a (o.hash H) ≠ s i' (o.hash H) := by
      intro i
      obtain ⟨i', hi', hm⟩ := Finset.exists_min_image (Finset.univ.filter (fun i' => s i' (o.hash H) = s i (o.hash H))) ord ⟨i, by simp⟩
      rw [mem_filter] at hi'
      refine ⟨i', hi'.2, fun a ha e => ?_⟩
      have := hm a (by rw [mem_filter]; exact ⟨mem_univ _, e.trans hi'.2⟩)
      omega
    obtain ⟨i', e1, n1⟩ := hfirst i
    obtain ⟨j', e2, n2⟩ := hfirst j
    refine ⟨i', j', fun e => hne ?_, ?_⟩
    · rw [← e1, ← e2, e]
    · rw [hv i' n1, hv j' n2, e1, e2, heq]
  refine h1.trans ?_
  have h2 : ∀ p : {p : I × I // p.1 ≠ p.2}, share (fun v : I → Digest => v p.1.1 = v p.1.2) ≤ (1 : ℕ) / Nat.card Digest := by
    intro p
    refine share_le_of_part (fun v => v p.1.1) (fun v a => Function.update v p.1.1 a) ?_ ?_ ?_ _ 1 ?_
    · intro v a; simp
    · intro v; simp
    · intro v a b; simp
    · intro v
      have : Subsingleton {a // Function.update v p.1.1 a p.1.1 = Function.update v p.1.1 a p.1.2} := ⟨by
        rintro ⟨a, ha⟩ ⟨b, hb⟩
        rw [Function.update_self, Function.update_of_ne p.2.symm] at ha hb
        exact Subtype.ext (ha.trans hb.symm)⟩
      exact Finite.card_le_one_iff_subsingleton.2 this
  obtain ⟨K, ⟨e⟩⟩ := Finite.exists_equiv_fin {p : I × I // p.1 ≠ p.2}
  have hK : K = Nat.card I * Nat.card I - Nat.card I := by
    rw [← Nat.card_fin K, ← Nat.card_congr e, Nat.card_eq_fintype_card, Nat.card_eq_fintype_card, Fintype.card_subtype, ← Finset.card_univ, ← Finset.offDiag_card univ]
    congr 1
    ext p
    simp
  have h3 := share_exists_le K (fun j (v : I → Digest) => v (e.symm j).1.1 = v (e.symm j).1.2) _ (fun j => h2 (e.symm j))
  refine (share_mono (fun v => ?_)).trans (h3.trans (le_of_eq ?_))
  · rintro ⟨i, j, hij, hv⟩
    exact ⟨e ⟨(i, j), hij⟩, by simpa using hv⟩
  · rw [hK, card_digest, Nat.cast_sub (Nat.le_mul_self _)]
    push_cast
    ring

end Hodor

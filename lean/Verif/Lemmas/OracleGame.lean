import Verif.Lemmas.OracleRun
import Verif.Props.Game

/-!
# Lemmas: challenges of the strings of a run, and strings hashed twice
-/

namespace Hodor

open Finset Spec

/-! ## Even maps -/

theorem EvenlyOnto.trans {A B C : Type} {φ : A → B} {ψ : B → C} (h : EvenlyOnto φ) (h' : EvenlyOnto ψ) : EvenlyOnto (fun a => ψ (φ a)) := by
  obtain ⟨X, hf, hne, e, he⟩ := h
  obtain ⟨X', hf', hne', e', he'⟩ := h'
  refine ⟨X' × X, inferInstance, inferInstance, e.trans ((Equiv.prodCongr e' (Equiv.refl _)).trans (Equiv.prodAssoc _ _ _)), fun a => ?_⟩
  simp [he, he']

theorem EvenlyOnto.arrow {A B : Type} {φ : A → B} (h : EvenlyOnto φ) (J : Type) [Finite J] : EvenlyOnto (fun (x : J → A) j => φ (x j)) := by
  obtain ⟨C, hf, hne, e, he⟩ := h
  refine ⟨J → C, inferInstance, inferInstance, (Equiv.arrowCongr (Equiv.refl _) e).trans (Equiv.arrowProdEquivProdArrow _ _ _), ?_⟩
  intro a
  funext j
  simp [he, Equiv.arrowProdEquivProdArrow]

theorem EvenlyOnto.precomp {I J D : Type} [Finite I] [Finite D] [Nonempty D] (ι : J → I) (hι : Function.Injective ι) : EvenlyOnto (fun (v : I → D) j => v (ι j)) := by
  classical
  let e : J ⊕ {i // i ∉ Set.range ι} ≃ I :=
    (Equiv.sumCongr (Equiv.ofInjective ι hι) (Equiv.refl _)).trans (Equiv.sumCompl (fun i => i ∈ Set.range ι))
  refine ⟨{i // i ∉ Set.range ι} → D, inferInstance, inferInstance, (Equiv.arrowCongr e.symm (Equiv.refl D)).trans (Equiv.sumArrowEquivProdArrow _ _ _), fun v => ?_⟩
  funext j
  rfl

theorem EvenlyOnto.of_equiv {A B : Type} (e : A ≃ B) : EvenlyOnto (fun a => e a) :=
  ⟨Unit, inferInstance, inferInstance, e.trans (Equiv.prodPUnit _).symm, fun _ => rfl⟩

theorem share_not {Ω : Type} [Finite Ω] [Nonempty Ω] (A : Ω → Prop) : share A + share (fun x => ¬ A x) = 1 := by
  classical
  have := Fintype.ofFinite Ω
  unfold share
  rw [← add_div, div_eq_one_iff_eq (by have : 0 < Nat.card Ω := Nat.card_pos; positivity)]
  simp only [Nat.card_eq_fintype_card]
  rw [Fintype.card_subtype_compl, Nat.cast_sub (Fintype.card_subtype_le A)]
  ring

variable {F : Type} [Field F] [DecidableEq F] [StarkField F]

/-! ## Challenges -/

/-- The digests of the challenges and of the point, among those of a run. -/
abbrev DrawIdx (nc nb : ℕ) : Type := ((Fin nc × Fin 2) ⊕ (Fin nb × Fin 2)) ⊕ Unit

def drawIdx (n K nc nb K' : ℕ) : DrawIdx nc nb → RunIdx n K nc nb K'
  | .inl p => .inr (.inl p)
  | .inr _ => .inr (.inr (.inr ()))

theorem drawIdx_inj (n K nc nb K' : ℕ) : Function.Injective (drawIdx n K nc nb K') := by
  rintro (p | _) (q | _) h <;> simp [drawIdx] at h ⊢
  exact h

/-- The draw with given challenges. -/
def vecDraw {F : Type} (S : Finset F) (nc nb : ℕ) : (DrawIdx nc nb → S) ≃ Draw S nc nb 0 ({0} : Finset ℕ) ({0} : Finset ℕ) where
  toFun y := ⟨fun j => (y (.inl (.inl (j, 0))), y (.inl (.inl (j, 1)))), fun j => (y (.inl (.inr (j, 0))), y (.inl (.inr (j, 1)))), y (.inr ()), fun j => j.elim0,
    (⟨0, by simp⟩, ⟨0, by simp⟩)⟩
  invFun x := fun i => match i with
    | .inl (.inl (j, b)) => if b = 0 then (x.cc j).1 else (x.cc j).2
    | .inl (.inr (j, b)) => if b = 0 then (x.bc j).1 else (x.bc j).2
    | .inr _ => x.z
  left_inv y := by
    funext i
    rcases i with (⟨j, b⟩ | ⟨j, b⟩) | u
    · fin_cases b <;> rfl
    · fin_cases b <;> rfl
    · rfl
  right_inv x := by
    obtain ⟨cc, bc, z, α, i1, i2⟩ := x
    have e1 : (⟨0, by simp⟩ : ({0} : Finset ℕ)) = i1 := Subtype.ext (mem_singleton.1 i1.2).symm
    have e2 : (⟨0, by simp⟩ : ({0} : Finset ℕ)) = i2 := Subtype.ext (mem_singleton.1 i2.2).symm
    show Draw.mk cc bc z _ _ = Draw.mk cc bc z _ _
    congr 1
    · funext j
      exact j.elim0
    · exact Prod.ext e1 e2

/-- The challenges which the digests of a run give. -/
def runDraw (n K nc nb K' : ℕ) [CharP F (StarkField.modulus F)] (hc : ChallengeOk F) (v : RunIdx n K nc nb K' → Digest) :
    Draw (challengeSet F) nc nb 0 ({0} : Finset ℕ) ({0} : Finset ℕ) :=
  vecDraw (challengeSet F) nc nb (fun i => ⟨challengeOf F (v (drawIdx n K nc nb K' i)), challengeOf_mem hc _⟩)

theorem even_runDraw (n K nc nb K' : ℕ) [CharP F (StarkField.modulus F)] (hc : ChallengeOk F) : EvenlyOnto (runDraw (F := F) n K nc nb K' hc) :=
  ((EvenlyOnto.precomp (D := Digest) _ (drawIdx_inj n K nc nb K')).trans ((even_challenge hc).arrow (DrawIdx nc nb))).trans (EvenlyOnto.of_equiv (vecDraw _ nc nb))

omit [DecidableEq F] in
theorem drawnList_add (h : List UInt8 → Digest) (s : List UInt8) (a b : ℕ) :
    drawnList F h s (a + b) = drawnList F h s a ++ drawnList F h (drawStr h s a) b := by
  induction a generalizing s with
  | zero => rw [Nat.zero_add]; rfl
  | succ a ih =>
    rw [Nat.succ_add, drawnList_succ, drawnList_succ, ih, drawStr_add, Nat.add_comm 1 a]
    rfl

omit [DecidableEq F] in
theorem pairChallenges_pairsAt (h : List UInt8 → Digest) (n : ℕ) (t : Transcript) : pairChallenges (pairsAt F h n t) = drawnList F h t.absorbed (2 * n) := by
  induction n generalizing t with
  | zero => rfl
  | succ n ih =>
    rw [pairsAt, pairChallenges, List.flatMap_cons, ← pairChallenges, ih, show 2 * (n + 1) = 2 * n + 1 + 1 by ring, drawnList_succ, drawnList_succ, drawStr_add]
    rfl

omit [DecidableEq F] in
theorem pairChallenges_ofFn (h : List UInt8 → Digest) (s : List UInt8) (nc nb : ℕ) :
    pairChallenges (List.ofFn (fun j : Fin nc => (challengeOf F (h (drawStr h s (2 * j))), challengeOf F (h (drawStr h s (2 * j + 1)))))) ++
      pairChallenges (List.ofFn (fun j : Fin nb => (challengeOf F (h (drawStr h s (2 * nc + 2 * j))), challengeOf F (h (drawStr h s (2 * nc + 2 * j + 1)))))) =
    drawnList F h s (2 * (nc + nb)) := by
  have e1 := pairsAt_ofFn (F := F) h nc ⟨s⟩
  have e2 := pairsAt_ofFn (F := F) h nb ⟨drawStr h s (2 * nc)⟩
  simp only [drawStr_add, ← Nat.add_assoc] at e1 e2
  rw [← e1, ← e2, pairChallenges_pairsAt, pairChallenges_pairsAt, Nat.mul_add, drawnList_add]

/-! ## Strings hashed twice -/

section
variable (n K nc nb K' : ℕ) (W : ℕ → ℕ → F) (gw : List F → ℕ → F)

/-- No string from which a challenge is drawn is hashed in a tree over one of the words. -/
def Fresh (h : List UInt8 → Digest) : Prop :=
  ∀ (j : ℕ), j < 2 * (nc + nb) → ∀ (r : Fin n) (p : Nodes K), nodeStr h (W r) p.1 p.2 ≠ drawStr h (baseStr n K W h) j

omit [DecidableEq F] in
theorem fresh_of_three (hb : numBits F < 256) (hn : 3 ≤ n) (h : List UInt8 → Digest) : Fresh n K nc nb W h := by
  intro j hj r p e
  have h1 := length_nodeStr_le hb h (W r) p.1 p.2
  rw [e, length_drawStr, length_baseStr] at h1
  omega

omit [DecidableEq F] in
/-- The strings from which challenges are drawn are asked for the first time. -/
theorem fresh_draws (hb : numBits F < 256) (hn : 0 < n) (hnc : 0 < nc) {h : List UInt8 → Digest} (hf : Fresh n K nc nb W h)
    {ord : RunIdx n K nc nb K' → ℕ} (hinj : Function.Injective ord) (hmon : ∀ a b, runRank n K nc nb K' a < runRank n K nc nb K' b → ord a < ord b)
    (i : DrawIdx nc nb) (a : RunIdx n K nc nb K') (ha : ord a < ord (drawIdx n K nc nb K' i)) :
    runStr n K nc nb K' W gw a h ≠ runStr n K nc nb K' W gw (drawIdx n K nc nb K' i) h := by
  have hrank : runRank n K nc nb K' a ≤ runRank n K nc nb K' (drawIdx n K nc nb K' i) := by
    by_contra hc
    have := hmon _ _ (not_le.1 hc)
    omega
  intro e
  rcases i with p | u
  · have hp := drawPos_lt nc nb p
    rcases a with ⟨r, q⟩ | q | q | u
    · exact hf _ hp r q e
    · have hne : drawPos nc nb q ≠ drawPos nc nb p := fun h => by
        rw [drawPos_inj nc nb h] at ha
        exact lt_irrefl _ ha
      have := congrArg List.length e
      simp only [drawIdx, runStr, length_drawStr] at this
      omega
    · simp only [drawIdx, runRank] at hrank; omega
    · simp only [drawIdx, runRank] at hrank; omega
  · have e' := congrArg List.length e
    simp only [drawIdx, runStr, length_pointStr] at e'
    rcases a with ⟨r, q⟩ | q | q | u
    · have := length_nodeStr_le hb h (W r) q.1 q.2
      simp only [runStr] at e'
      omega
    · have := drawPos_lt nc nb q
      simp only [runStr, length_drawStr, length_baseStr] at e'
      omega
    · have := length_nodeStr_le hb h (gLeaf n K nc nb W gw h) q.1 q.2
      simp only [runStr] at e'
      omega
    · exact lt_irrefl _ ha

omit [DecidableEq F] in
/-- The share of hash functions for which the digests of the challenges and of the point are as `R` says. -/
theorem share_run (hb : numBits F < 256) [CharP F (StarkField.modulus F)] (hc : ChallengeOk F) [DecidableEq F] (hn : 0 < n) (hnc : 0 < nc) (H : List UInt8 → Digest) (B : ℕ)
    (hB : 32 * (n + 2 * (nc + nb) + 1) ≤ B) (P : Oracle B → Prop) (R : Draw (challengeSet F) nc nb 0 ({0} : Finset ℕ) ({0} : Finset ℕ) → Prop)
    (hPR : ∀ o x, P o → Fresh n K nc nb W (o.hash H) ∧ (
      x.challenges.constraintChallenges = List.ofFn (fun j : Fin nc =>
          (challengeOf F (o.hash H (drawStr (o.hash H) (baseStr n K W (o.hash H)) (2 * j))), challengeOf F (o.hash H (drawStr (o.hash H) (baseStr n K W (o.hash H)) (2 * j + 1))))) →
      x.challenges.boundaryChallenges = List.ofFn (fun j : Fin nb =>
          (challengeOf F (o.hash H (drawStr (o.hash H) (baseStr n K W (o.hash H)) (2 * nc + 2 * j))),
            challengeOf F (o.hash H (drawStr (o.hash H) (baseStr n K W (o.hash H)) (2 * nc + 2 * j + 1))))) →
      x.challenges.z = challengeOf F (o.hash H (pointStr n K nc nb K' W gw (o.hash H))) → R x)) :
    share P ≤ share R := by
  rw [← (even_runDraw (F := F) n K nc nb K' hc).share R]
  refine share_ranked H B (runStr n K nc nb K' W gw) (runRank n K nc nb K') (fun i h => (length_runStr n K nc nb K' W gw hb hn hnc i h).trans hB)
    (runStr_dep n K nc nb K' W gw) P _ ?_
  intro ord hinj hmon o v hP hv
  obtain ⟨hf, hR⟩ := hPR o (runDraw n K nc nb K' hc v) hP
  have hval := fun i => hv (drawIdx n K nc nb K' i) (fresh_draws n K nc nb K' W gw hb hn hnc hf hinj hmon i)
  refine hR ?_ ?_ ?_
  · unfold runDraw vecDraw Draw.challenges
    simp only [Equiv.coe_fn_mk, hval]
    rfl
  · unfold runDraw vecDraw Draw.challenges
    simp only [Equiv.coe_fn_mk, hval]
    rfl
  · unfold runDraw vecDraw Draw.challenges
    simp only [Equiv.coe_fn_mk, hval]
    rfl

omit [DecidableEq F] in
/-- Without collisions, nodes of different heights of one tree have different strings. -/
theorem nodeStr_height (hb : numBits F < 256) {h : List UInt8 → Digest} (leaf : ℕ → F)
    (hcol : ¬ CollisionAmong h (fun x => ∃ p : Nodes K, x = nodeStr h leaf p.1 p.2)) (a b i j : ℕ) (hab : a < b) (hbK : b ≤ K) (hi : i < 2 ^ (K - a)) (hj : j < 2 ^ (K - b)) :
    nodeStr h leaf a i ≠ nodeStr h leaf b j := by
  induction a generalizing b i j with
  | zero =>
    intro e
    have := congrArg List.length e
    rw [length_nodeStr hb, length_nodeStr hb, if_pos rfl, if_neg (by omega)] at this
    omega
  | succ a ih =>
    obtain ⟨b, rfl⟩ : ∃ b', b = b' + 1 := ⟨b - 1, by omega⟩
    have h1 : 2 ^ (K - a) = 2 * 2 ^ (K - (a + 1)) := by rw [← pow_succ']; congr 1; omega
    have h2 : 2 ^ (K - b) = 2 * 2 ^ (K - (b + 1)) := by rw [← pow_succ']; congr 1; omega
    intro e
    have e1 := (List.append_inj e (by rw [Digest.len, Digest.len])).1
    have e2 : h (nodeStr h leaf a (2 * i)) = h (nodeStr h leaf b (2 * j)) := by
      cases hx : h (nodeStr h leaf a (2 * i)); cases hy : h (nodeStr h leaf b (2 * j))
      simp only [hx, hy] at e1
      subst e1
      rfl
    refine hcol ⟨_, _, ⟨⟨⟨a, by omega⟩, ⟨2 * i, by show _ < 2 ^ (K - a); omega⟩⟩, rfl⟩, ⟨⟨⟨b, by omega⟩, ⟨2 * j, by show _ < 2 ^ (K - b); omega⟩⟩, rfl⟩,
      ih b (2 * i) (2 * j) (by omega) (by omega) (by omega) (by omega), e2⟩

theorem digest_ext {d d' : Digest} (h : d.bytes = d'.bytes) : d = d' := by
  cases d; cases d'; simp only at h; subst h; rfl

/-- Strings hashed in the trees over the words. -/
def TreeStr (h : List UInt8 → Digest) (x : List UInt8) : Prop := ∃ i : Fin n × Nodes K, x = nodeStr h (W i.1) i.2.1 i.2.2

omit [DecidableEq F] in
/-- Without collisions in the trees, a challenge is drawn from a string hashed in a tree only if there is one word and its root is the encoding of one of its values. -/
theorem fresh_or (hb : numBits F < 256) (hn : 0 < n) (h : List UInt8 → Digest) (hcol : ¬ CollisionAmong h (TreeStr n K W h)) :
    Fresh n K nc nb W h ∨ n = 1 ∧ ∃ i, i < 2 ^ K ∧ (h (nodeStr h (W 0) K 0)).bytes = encodeLeaf (W 0 i) := by
  by_contra hc
  rw [not_or] at hc
  obtain ⟨h1, h2⟩ := hc
  unfold Fresh at h1
  push Not at h1
  obtain ⟨j, hj, r, ⟨⟨d, hd⟩, ⟨i, hi⟩⟩, e⟩ := h1
  simp only at e hi
  have hcr : ∀ r : Fin n, ¬ CollisionAmong h (fun x => ∃ p : Nodes K, x = nodeStr h (W r) p.1 p.2) := by
    rintro r ⟨x, y, ⟨p, hp⟩, ⟨q, hq⟩, hne, heq⟩
    exact hcol ⟨x, y, ⟨(r, p), hp⟩, ⟨(r, q), hq⟩, hne, heq⟩
  have hlen := congrArg List.length e
  rw [length_nodeStr hb, length_drawStr, length_baseStr] at hlen
  -- a node of height at least one has the root of its tree as a child
  have key : ∀ d i, d + 1 ≤ K → i < 2 ^ (K - (d + 1)) → ∀ x, x < 2 → h (nodeStr h (W r) d (2 * i + x)) ≠ h (nodeStr h (W r) K 0) := by
    intro d i hd hi x hx he
    have h1 : 2 ^ (K - d) = 2 * 2 ^ (K - (d + 1)) := by rw [← pow_succ']; congr 1; omega
    exact hcr r ⟨_, _, ⟨⟨⟨d, by omega⟩, ⟨2 * i + x, by show _ < 2 ^ (K - d); omega⟩⟩, rfl⟩, ⟨⟨⟨K, by omega⟩, ⟨0, by simp⟩⟩, rfl⟩,
      nodeStr_height K hb (W r) (hcr r) d K (2 * i + x) 0 (by omega) le_rfl (by omega) (by simp), he⟩
  cases d with
  | zero =>
    simp at hlen
    have hn1 : n = 1 := by omega
    have hj0 : j = 0 := by omega
    subst hn1 hj0
    refine h2 ⟨rfl, i, by simpa using hi, ?_⟩
    have hr : (r : ℕ) = 0 := by omega
    rw [hr] at e
    have : baseStr 1 K W h = (h (nodeStr h (W 0) K 0)).bytes := by simp [baseStr, tab]
    rw [drawStr, this] at e
    exact e.symm
  | succ d =>
    rw [if_neg (by omega)] at hlen
    have hcase : n = 1 ∧ j = 1 ∨ n = 2 ∧ j = 0 := by omega
    rcases hcase with ⟨rfl, rfl⟩ | ⟨rfl, rfl⟩
    · have hr : (r : ℕ) = 0 := by omega
      have hbs : baseStr 1 K W h = (h (nodeStr h (W 0) K 0)).bytes := by simp [baseStr, tab]
      have e1 := (List.append_inj e (by rw [Digest.len]; show 32 = (drawStr h _ 0).length; rw [length_drawStr, length_baseStr])).1
      have e1 : (h (nodeStr h (W r) d (2 * i))).bytes = baseStr 1 K W h := e1
      rw [hbs] at e1
      have := digest_ext e1
      refine key d i (by omega) hi 0 (by omega) ?_
      rw [hr] at this ⊢
      exact this
    · have hbs : baseStr 2 K W h = (h (nodeStr h (W 0) K 0)).bytes ++ (h (nodeStr h (W 1) K 0)).bytes := by simp [baseStr, tab, List.range_succ]
      have e' : (h (nodeStr h (W r) d (2 * i))).bytes ++ (h (nodeStr h (W r) d (2 * i + 1))).bytes = _ ++ _ := e.trans hbs
      obtain ⟨a1, a2⟩ := List.append_inj e' (by rw [Digest.len, Digest.len])
      have b1 := digest_ext a1
      have b2 := digest_ext a2
      have hr : (r : ℕ) = 0 ∨ (r : ℕ) = 1 := by omega
      rcases hr with hr | hr
      · refine key d i (by omega) hi 0 (by omega) ?_
        rw [hr] at b1 ⊢
        exact b1
      · refine key d i (by omega) hi 1 (by omega) ?_
        rw [hr] at b2 ⊢
        exact b2

omit [DecidableEq F] in
/-- The share of hash functions for which a challenge is drawn from a string hashed in a tree. -/
theorem share_not_fresh (hb : numBits F < 256) (hn : 0 < n) (H : List UInt8 → Digest) (B : ℕ) (hB : 64 ≤ B) :
    share (fun o : Oracle B => ¬ Fresh n K nc nb W (o.hash H)) ≤ ((n * 2 ^ (K + 1)) ^ 2 : ℚ) / 2 ^ 256 := by
  let s : Fin n × Nodes K → (List UInt8 → Digest) → List UInt8 := fun i h => nodeStr h (W i.1) i.2.1 i.2.2
  let rank : Fin n × Nodes K → ℕ := fun i => i.2.1
  have hlen : ∀ i h, (s i h).length ≤ B := fun i h => (length_nodeStr_le hb _ _ _ _).trans hB
  have hdep : ∀ i h h', (∀ a, rank a < rank i → h (s a h) = h' (s a h)) → s i h' = s i h := by
    rintro ⟨r, p⟩ h h' ha
    exact nodeStr_congr h h' (W r) K p.1 p.2 (by omega) p.2.2 (fun d' hd' j hj => ha (r, ⟨⟨d', by omega⟩, ⟨j, hj⟩⟩) hd')
  have hcol := share_collision H B s rank hlen hdep
  have hcard : Nat.card (Fin n × Nodes K) = n * Nat.card (Nodes K) := by rw [Nat.card_prod, Nat.card_fin]
  have hnodes := card_nodes K
  have hroot : share (fun o : Oracle B => ¬ CollisionAmong (o.hash H) (TreeStr n K W (o.hash H)) ∧ n = 1 ∧
      ∃ i, i < 2 ^ K ∧ (o.hash H (nodeStr (o.hash H) (W 0) K 0)).bytes = encodeLeaf (W 0 i)) ≤ (2 ^ K : ℕ) / Nat.card Digest := by
    let top : Fin n × Nodes K := (⟨0, hn⟩, ⟨⟨K, by omega⟩, ⟨0, by simp⟩⟩)
    have h1 : share (fun v : Fin n × Nodes K → Digest => ∃ i, i < 2 ^ K ∧ (v top).bytes = encodeLeaf (W 0 i)) ≤ (2 ^ K : ℕ) / Nat.card Digest := by
      classical
      refine share_le_of_part (fun v => v top) (fun v a => Function.update v top a) ?_ ?_ ?_ _ (2 ^ K) ?_
      · intro v a; simp
      · intro v; simp
      · intro v a b; simp
      · intro v
        simp only [Function.update_self]
        have : ∀ a : {a : Digest // ∃ i, i < 2 ^ K ∧ a.bytes = encodeLeaf (W 0 i)}, ∃ i : Fin (2 ^ K), a.1.bytes = encodeLeaf (W 0 i) :=
          fun a => by obtain ⟨i, hi, e⟩ := a.2; exact ⟨⟨i, hi⟩, e⟩
        choose g hg using this
        have := Nat.card_le_card_of_injective g (fun a b hab => Subtype.ext (digest_ext (by rw [hg a, hg b, hab])))
        simpa using this
    refine le_trans (share_ranked H B s rank hlen hdep _ (fun v => ∃ i, i < 2 ^ K ∧ (v top).bytes = encodeLeaf (W 0 i)) ?_) h1
    rintro ord hinj hmon o v ⟨hnc, hn1, i, hi, he⟩ hv
    refine ⟨i, hi, ?_⟩
    rw [hv top]
    · exact he
    · rintro ⟨r, ⟨⟨d, hd⟩, ⟨j, hj⟩⟩⟩ ha e
      have hr : (r : ℕ) = 0 := by omega
      simp only at hj
      have hdK : d ≠ K := by
        rintro rfl
        simp at hj
        subst hj
        have : r = ⟨0, hn⟩ := Fin.ext hr
        subst this
        exact lt_irrefl _ ha
      have e : nodeStr (o.hash H) (W r) d j = nodeStr (o.hash H) (W 0) K 0 := e
      rw [hr] at e
      refine nodeStr_height K hb (W 0) ?_ d K j 0 (by omega) le_rfl hj (by simp) e
      rintro ⟨x, y, ⟨p, hp⟩, ⟨q, hq⟩, hne, heq⟩
      exact hnc ⟨x, y, ⟨(⟨0, hn⟩, p), hp⟩, ⟨(⟨0, hn⟩, q), hq⟩, hne, heq⟩
  have hall : share (fun o : Oracle B => ¬ Fresh n K nc nb W (o.hash H)) ≤
      share (fun o : Oracle B => CollisionAmong (o.hash H) (TreeStr n K W (o.hash H)) ∨ (¬ CollisionAmong (o.hash H) (TreeStr n K W (o.hash H)) ∧ n = 1 ∧
      ∃ i, i < 2 ^ K ∧ (o.hash H (nodeStr (o.hash H) (W 0) K 0)).bytes = encodeLeaf (W 0 i))) := by
    refine share_mono (fun o ho => ?_)
    by_cases hc : CollisionAmong (o.hash H) (TreeStr n K W (o.hash H))
    · exact .inl hc
    · exact .inr ⟨hc, (fresh_or n K nc nb W hb hn _ hc).resolve_left ho⟩
  refine hall.trans ((share_or_le _ _).trans ((add_le_add hcol hroot).trans ?_))
  rw [card_digest, hcard]
  have e1 : (Nat.card (Nodes K) : ℚ) = 2 ^ (K + 1) - 1 := by
    have : ((Nat.card (Nodes K) + 1 : ℕ) : ℚ) = (2 ^ (K + 1) : ℕ) := by rw [hnodes]
    push_cast at this
    linarith
  simp only [Nat.cast_mul, Nat.cast_pow, Nat.cast_ofNat]
  rw [e1, ← add_div]
  have hn' : (1 : ℚ) ≤ n := by exact_mod_cast hn
  have hK : (1 : ℚ) ≤ 2 ^ K := one_le_pow₀ (by norm_num)
  gcongr
  rw [pow_succ]
  nlinarith [mul_nonneg (sub_nonneg.2 hn') (sub_nonneg.2 hK), mul_self_nonneg ((n : ℚ) - 1), mul_pos (show (0 : ℚ) < n by linarith) (show (0 : ℚ) < 2 ^ K by positivity)]

end

end Hodor

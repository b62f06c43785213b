import Verif.Lemmas.CostV
import Verif.Lemmas.Sizes
import Verif.Model.ProverCost
import Verif.Spec.ProverCost
import Verif.Props.Merkle

/-!
# Hash calls of the counted prover
-/

set_option linter.unusedSectionVars false

namespace Hodor

open Spec

namespace Tick

variable {α β σ : Type}

/-! ## Erasure of the loops -/

theorem res_collectN {n : ℕ} {f : ℕ → Tick α} {g : ℕ → Res α} (h : ∀ i < n, (f i).res = g i) :
    (collectN n f).res = Hodor.collectN n g := by
  induction n with
  | zero => rfl
  | succ n ih =>
    simp only [collectN, Hodor.collectN, res_bind, res_pure, ih fun i hi => h i (by omega), h n (by omega), Res.pure_def]

theorem res_forN {n lo : ℕ} {s : σ} {f : ℕ → σ → Tick σ} {g : ℕ → σ → Res σ} (h : ∀ i s, (f i s).res = g i s) :
    (forN n lo s f).res = Hodor.forN n lo s g := by
  induction n generalizing lo s with
  | zero => rfl
  | succ n ih =>
    simp only [forN, Hodor.forN, res_bind, h]
    congr 1
    funext s'
    exact ih

theorem res_map {l : List α} {f : α → Tick β} {g : α → Res β} (h : ∀ x ∈ l, (f x).res = g x) : (map f l).res = mapRes g l := by
  induction l with
  | nil => rfl
  | cons x l ih =>
    simp only [map, mapRes, res_bind, res_pure, h x (by simp), ih fun y hy => h y (by simp [hy]), Res.pure_def]

theorem res_zipUpdate {f : α → β → Tick α} {g : α → β → α} (h : ∀ a b, (f a b).res = .ok (g a b)) :
    ∀ (as : List α) (bs : List β), (zipUpdate f as bs).res = .ok (Hodor.zipUpdate g as bs)
  | [], _ => by cases ‹List β› <;> rfl
  | _ :: _, [] => rfl
  | a :: as, b :: bs => by
    simp only [zipUpdate, Hodor.zipUpdate, res_bind, h, Res.ok_bind, res_zipUpdate h as bs, res_pure]

/-! ## Exact numbers of hash calls -/

/-- If the computation returns `a`, it has made `φ a` hash calls. -/
def Pays (x : Tick α) (φ : α → ℕ) : Prop := ∀ a, x.res = .ok a → x.hashes = φ a

variable {φ : α → ℕ} {ψ : α → β → ℕ} {θ : β → ℕ}

theorem hashes_bind {x : Tick α} {f : α → Tick β} {b : β} (h : (x >>= f).res = .ok b) :
    ∃ a, x.res = .ok a ∧ (f a).res = .ok b ∧ (x >>= f).hashes = x.hashes + (f a).hashes := by
  rw [res_bind] at h
  obtain ⟨a, ha, hb⟩ := Res.bind_eq_ok.1 h
  refine ⟨a, ha, hb, ?_⟩
  show (bind x f).hashes = _
  unfold bind
  rw [ha]

theorem Pays.bind {x : Tick α} {f : α → Tick β} (hx : x.Pays φ) (hf : ∀ a, x.res = .ok a → (f a).Pays (ψ a))
    (h : ∀ a b, x.res = .ok a → (f a).res = .ok b → φ a + ψ a b = θ b) : (x >>= f).Pays θ := by
  intro b hb
  obtain ⟨a, ha, hb', e⟩ := hashes_bind hb
  rw [e, hx a ha, hf a ha b hb', h a b ha hb']

theorem pays_pure {a : α} (h : φ a = 0) : (pure a : Tick α).Pays φ := fun b hb => by cases hb; exact h.symm

theorem pays_lift_bind {x : Res α} {f : α → Tick β} (hf : ∀ a, x = .ok a → (f a).Pays θ) : (lift x >>= f).Pays θ :=
  Pays.bind (φ := fun _ => 0) (ψ := fun _ => θ) (fun _ _ => rfl) hf fun _ _ _ _ => Nat.zero_add _

theorem pays_hash_bind {a : α} {f : α → Tick β} {c : ℕ} (hf : (f a).Pays fun _ => c) : (hash a >>= f).Pays fun _ => c + 1 :=
  Pays.bind (φ := fun _ => 1) (ψ := fun _ _ => c) (fun _ _ => rfl) (fun b hb => by cases hb; exact hf) fun _ _ _ _ => Nat.add_comm _ _

theorem pays_const_bind {x : Tick α} {f : α → Tick β} {c d : ℕ} (hx : x.Pays fun _ => c) (hf : ∀ a, x.res = .ok a → (f a).Pays fun _ => d) :
    (x >>= f).Pays fun _ => c + d :=
  Pays.bind hx hf fun _ _ _ _ => rfl

theorem pays_collectN {n : ℕ} {f : ℕ → Tick α} {c : ℕ → ℕ} (hf : ∀ i < n, (f i).Pays fun _ => c i) :
    (collectN n f).Pays fun _ => ∑ i ∈ Finset.range n, c i := by
  induction n with
  | zero => exact pays_pure (by simp)
  | succ n ih =>
    refine Pays.bind (φ := fun _ => ∑ i ∈ Finset.range n, c i) (ψ := fun _ _ => c n) (ih fun i hi => hf i (by omega)) (fun l _ => ?_)
      (fun _ _ _ _ => (Finset.sum_range_succ _ _).symm)
    exact Pays.bind (φ := fun _ => c n) (ψ := fun _ _ => 0) (hf n (by omega)) (fun _ _ => pays_pure rfl) fun _ _ _ _ => rfl

theorem pays_map {l : List α} {f : α → Tick β} {c : β → ℕ} (hf : ∀ x ∈ l, (f x).Pays c) : (map f l).Pays fun ys => (ys.map c).sum := by
  induction l with
  | nil => exact pays_pure (by simp)
  | cons x l ih =>
    refine Pays.bind (φ := c) (ψ := fun y (ys : List β) => (ys.map c).sum - c y) (hf x (by simp)) (fun y _ => ?_) ?_
    · refine Pays.bind (φ := fun ys => (ys.map c).sum) (ψ := fun _ _ => 0) (ih fun y hy => hf y (by simp [hy])) (fun _ _ => pays_pure rfl) ?_
      intro ys zs _ hz
      cases hz
      simp
    · intro y ys _ hy
      obtain ⟨zs, -, e, -⟩ := hashes_bind hy
      cases e
      simp

theorem pays_zipUpdate {f : α → β → Tick α} (h : ∀ a b, (f a b).Pays fun _ => 1) :
    ∀ (as : List α) (bs : List β), (zipUpdate f as bs).Pays fun _ => min as.length bs.length
  | [], _ => by cases ‹List β› <;> exact pays_pure (by simp)
  | _ :: _, [] => pays_pure (by simp)
  | a :: as, b :: bs => by
    refine Pays.bind (φ := fun _ => 1) (ψ := fun _ _ => min as.length bs.length) (h a b) (fun x _ => ?_) (fun _ _ _ _ => by simp [Nat.add_comm])
    exact Pays.bind (φ := fun _ => min as.length bs.length) (ψ := fun _ _ => 0) (pays_zipUpdate h as bs) (fun _ _ => pays_pure rfl) fun _ _ _ _ => rfl

/-- A loop with an invariant; `φ` measures what has been paid so far. -/
theorem pays_forN {n lo : ℕ} {s : σ} {f : ℕ → σ → Tick σ} {P : ℕ → σ → Prop} {φ : ℕ → σ → ℕ} (h0 : P lo s)
    (hf : ∀ i s, P i s → lo ≤ i → i < lo + n → ∀ s', (f i s).res = .ok s' → P (i + 1) s' ∧ φ i s + (f i s).hashes = φ (i + 1) s') :
    ∀ s', (forN n lo s f).res = .ok s' → P (lo + n) s' ∧ φ lo s + (forN n lo s f).hashes = φ (lo + n) s' := by
  induction n generalizing lo s with
  | zero => intro s' h; cases h; exact ⟨h0, rfl⟩
  | succ n ih =>
    intro s' h
    obtain ⟨s1, h1, h2, e⟩ := hashes_bind h
    obtain ⟨p1, e1⟩ := hf lo s h0 (le_refl _) (by omega) s1 h1
    obtain ⟨p2, e2⟩ := ih p1 (fun i s hP hi hi' => hf i s hP (by omega) (by omega)) s' h2
    rw [show lo + (n + 1) = lo + 1 + n by omega]
    refine ⟨p2, ?_⟩
    rw [← e2, ← e1]
    show _ + (_ >>= _ : Tick σ).hashes = _
    rw [e]
    ring

theorem pays_forEach {xs : List α} {s : σ} {body : α → σ → Tick σ} {P : α → Prop} {φ : σ → ℕ} (h0 : ∀ x ∈ xs, P x)
    (hf : ∀ x s, P x → ∀ s', (body x s).res = .ok s' → φ s + (body x s).hashes = φ s') :
    ∀ s', (forEach xs s body).res = .ok s' → φ s + (forEach xs s body).hashes = φ s' := by
  induction xs generalizing s with
  | nil => intro s' h; cases h; rfl
  | cons x xs ih =>
    intro s' h
    obtain ⟨s1, h1, h2, e⟩ := hashes_bind h
    have e1 := hf x s (h0 x (by simp)) s1 h1
    have e2 := ih (fun y hy => h0 y (by simp [hy])) s' h2
    rw [← e2, ← e1]
    show _ + (_ >>= _ : Tick σ).hashes = _
    rw [e]
    ring

theorem pays_forEach_const {xs : List α} {s : σ} {body : α → σ → Tick σ} {c : ℕ} (hf : ∀ x s, (body x s).Pays fun _ => c) :
    (forEach xs s body).Pays fun _ => xs.length * c := by
  induction xs generalizing s with
  | nil => exact pays_pure (by simp)
  | cons x xs ih =>
    exact Pays.bind (φ := fun _ => c) (ψ := fun _ _ => xs.length * c) (hf x s) (fun s' _ => ih) fun _ _ _ _ => by
      rw [List.length_cons]; ring

end Tick

open Tick

variable {F : Type} [Field F] [DecidableEq F] [StarkField F] (H : List UInt8 → Digest)

/-! ## Merkle trees -/

theorem res_hashLevelT (w : Worker) (outputs inputs : List Digest) : (hashLevelT H w outputs inputs).res = .ok (hashLevel H w outputs inputs) := by
  unfold hashLevelT hashLevel
  simp only [res_bind, res_pure]
  set c := w.chunkSize outputs.length
  rw [res_collectN (g := fun i => .ok (((chunks c outputs).mapIdx (fun i o =>
    ((chunks (c * 2) inputs)[i]?.map
      (fun v => zipUpdate (fun _ pair => hashNode H pair) o (chunks 2 v))).getD o)).getD i []))]
  · rw [collectN_eq _ _ _ (fun i hi => rfl), Res.ok_bind]
    congr 2
    conv_rhs => rw [eq_tab_getD (List.mapIdx _ _) []]
    rw [List.length_mapIdx]
  · intro i hi
    simp only [res_bind, res_lift]
    rw [rd, List.getElem?_eq_getElem hi, Res.expect_some, Res.ok_bind]
    rw [List.getD_eq_getElem?_getD, List.getElem?_mapIdx, List.getElem?_eq_getElem hi]
    cases (chunks (c * 2) inputs)[i]? with
    | none => rfl
    | some v => exact res_zipUpdate (fun _ _ => rfl) _ _

theorem sum_min_chunks {n c : ℕ} (hc : 0 < c) : ∑ i ∈ Finset.range (numChunks n c), min c (n - i * c) = n := by
  have h : ∀ m, ∑ i ∈ Finset.range m, min c (n - i * c) = min (m * c) n := by
    intro m
    induction m with
    | zero => simp
    | succ m ih => rw [Finset.sum_range_succ, ih, Nat.add_mul, Nat.one_mul]; omega
  rw [h]
  exact min_eq_right (numChunks_le hc)

theorem pays_hashLevelT (w : Worker) (outputs inputs : List Digest) (h : outputs.length * 2 = inputs.length) :
    (hashLevelT H w outputs inputs).Pays fun _ => outputs.length := by
  unfold hashLevelT
  set n := outputs.length with hn
  have hc := w.chunkSize_pos n
  set c := w.chunkSize n
  obtain ⟨g, hg⟩ : ∃ g, outputs = tab n g := ⟨_, eq_tab_getD outputs zeroDigest⟩
  obtain ⟨g', hg'⟩ : ∃ g, inputs = tab (2 * n) g := ⟨_, by rw [show 2 * n = inputs.length by omega]; exact eq_tab_getD inputs zeroDigest⟩
  have hch : chunks c outputs = tab (numChunks n c) (fun i => tab (min c (n - i * c)) (fun j => g (i * c + j))) := by rw [hg, chunks_tab]
  refine Pays.bind (φ := fun _ => ∑ i ∈ Finset.range (numChunks n c), min c (n - i * c)) (ψ := fun _ _ => 0) ?_ (fun _ _ => pays_pure rfl) ?_
  · rw [hch, length_tab]
    refine pays_collectN fun i hi => ?_
    refine pays_lift_bind fun o ho => ?_
    rw [rd_tab hi] at ho
    cases ho
    have e : min (c * 2) (2 * n - i * (c * 2)) = 2 * min c (n - i * c) := by
      have : i * (c * 2) = 2 * (i * c) := by ring
      rw [this]; omega
    rw [hg', chunks_tab, getElem?_tab, numChunks_double hc, if_pos hi, e]
    simp only
    have := pays_zipUpdate (f := fun (_ : Digest) pair => Tick.hash (hashNode H pair)) (fun _ _ _ _ => rfl)
      (tab (min c (n - i * c)) (fun j => g (i * c + j))) (chunks 2 (tab (2 * min c (n - i * c)) fun j => g' (i * (c * 2) + j)))
    have hnc : numChunks (2 * min c (n - i * c)) 2 = min c (n - i * c) := by unfold numChunks; omega
    simpa [length_chunks, hnc] using this
  · intro l b _ _
    rw [Nat.add_zero, sum_min_chunks hc]

theorem length_hashLevel (w : Worker) (outputs inputs : List Digest) (h : outputs.length * 2 = inputs.length) :
    (hashLevel H w outputs inputs).length = outputs.length := by
  rw [eq_tab_getD outputs zeroDigest, eq_tab_getD inputs zeroDigest, ← h, Nat.mul_comm, hashLevel_tab, length_tab, length_tab]

theorem res_createLevelT (w : Worker) (s : List Digest × ℕ) : (createLevelT H w s).res = createLevel H w s := by
  unfold createLevelT createLevel
  simp only [res_bind, res_lift, res_hashLevelT, res_pure, Res.ok_bind, Res.pure_def]

theorem res_hashLeafsT (w : Worker) (leafs : List F) : (hashLeafsT H w leafs).res = hashLeafs H w leafs := by
  unfold hashLeafsT hashLeafs
  simp only [res_bind, res_pure, Res.pure_def]
  congr 1
  refine res_collectN fun i hi => ?_
  simp only [res_bind, res_lift]
  congr 1
  funext lh
  exact res_collectN fun j hj => by simp only [res_bind, res_lift, res_hash]

theorem pays_hashLeafsT (w : Worker) (leafs : List F) : (hashLeafsT H w leafs).Pays fun _ => leafs.length := by
  unfold hashLeafsT
  set n := leafs.length with hn
  have hc := w.chunkSize_pos n
  set c := w.chunkSize n
  have hch : chunks c (List.replicate n zeroDigest) = tab (numChunks n c) (fun i => tab (min c (n - i * c)) (fun _ => zeroDigest)) := by
    rw [replicate_eq_tab, chunks_tab]
  refine Pays.bind (φ := fun _ => ∑ i ∈ Finset.range (numChunks n c), min c (n - i * c)) (ψ := fun _ _ => 0) ?_ (fun _ _ => pays_pure rfl)
    fun _ _ _ _ => by rw [Nat.add_zero, sum_min_chunks hc]
  rw [hch, length_tab]
  refine pays_collectN fun i hi => ?_
  refine pays_lift_bind fun o ho => ?_
  rw [rd_tab hi] at ho
  cases ho
  rw [length_tab]
  have := pays_collectN (n := min c (n - i * c)) (c := fun _ => 1) (f := fun j => (Tick.lift (rd leafs (i * c + j)) >>= fun leaf => Tick.hash (hashLeaf H leaf)))
    fun j _ => pays_lift_bind fun leaf _ => fun _ _ => rfl
  simpa using this

theorem res_createT (w : Worker) (leafs : List F) : (createT H w leafs).res = IopTree.create H w leafs := by
  unfold createT IopTree.create
  simp only [res_bind, res_lift, res_hashLeafsT, res_hashLevelT, res_pure, Res.ok_bind, Res.pure_def, res_forN (fun _ s => res_createLevelT H w s)]

/-- The shape of a tree made by `create`. -/
structure TreeDepth (t : IopTree) (L : ℕ) : Prop where
  pos : 1 ≤ L
  size : t.size = 2 ^ L
  nodes : t.nodes.length = 2 ^ L

theorem create_depth {w : Worker} {leafs : List F} {t : IopTree} (h : IopTree.create H w leafs = .ok t) :
    ∃ L, leafs.length = 2 ^ L ∧ TreeDepth t L := by
  by_cases hL : ∃ k, 1 ≤ k ∧ leafs.length = 2 ^ k
  · obtain ⟨k, hk, hl⟩ := hL
    refine ⟨k, hl, ?_⟩
    obtain ⟨k, rfl⟩ : ∃ k', k = k' + 1 := ⟨k - 1, by omega⟩
    obtain ⟨g, rfl, -⟩ := exists_tab_pow leafs 0 hl
    rw [create_tab] at h
    cases h
    exact ⟨hk, rfl, by simp [honestTree]⟩
  · rw [C18_bad_sizes H w leafs hL] at h
    cases h

theorem pays_createLevelT (w : Worker) (nodes : List Digest) (m : ℕ) (hm : 2 ^ (m + 2) ≤ nodes.length) (s' : List Digest × ℕ)
    (h : (createLevelT H w (nodes, 2 ^ (m + 2))).res = .ok s') :
    s'.1.length = nodes.length ∧ s'.2 = 2 ^ (m + 1) ∧ (createLevelT H w (nodes, 2 ^ (m + 2))).hashes = 2 ^ m := by
  have e1 : 2 ^ (m + 2) = 4 * 2 ^ m := by ring
  have e2 : 2 ^ (m + 1) = 2 * 2 ^ m := by ring
  have e3 : 2 ^ (m + 2) / 2 = 2 * 2 ^ m := by omega
  have e4 : 2 * 2 ^ m / 2 = 2 ^ m := by omega
  have hp : (createLevelT H w (nodes, 2 ^ (m + 2))).Pays fun _ => 2 ^ m := by
    unfold createLevelT
    simp only
    refine pays_lift_bind fun _ ha => pays_lift_bind fun _ _ => ?_
    have ha := of_decide_eq_true (Res.assert_eq_ok.1 ha)
    refine Pays.bind (ψ := fun _ _ => 0) (pays_hashLevelT H w _ _ ha) (fun _ _ => pays_pure rfl) fun _ _ _ _ => ?_
    rw [e3, e4, List.length_drop, List.length_take]
    omega
  refine ⟨?_, ?_, hp _ h⟩
  · rw [res_createLevelT] at h
    unfold createLevel at h
    simp only at h
    obtain ⟨_, ha, h⟩ := Res.bind_eq_ok.1 h
    obtain ⟨_, -, h⟩ := Res.bind_eq_ok.1 h
    cases h
    have ha := of_decide_eq_true (Res.assert_eq_ok.1 ha)
    simp only [List.length_append, length_hashLevel H w _ _ ha]
    simp only [List.length_drop, List.length_take, e3, e4]
    omega
  · rw [res_createLevelT] at h
    unfold createLevel at h
    simp only at h
    obtain ⟨_, ha, h⟩ := Res.bind_eq_ok.1 h
    obtain ⟨_, -, h⟩ := Res.bind_eq_ok.1 h
    cases h
    simp only [e3, e2]

theorem pays_createT (w : Worker) (leafs : List F) : (createT H w leafs).Pays fun t => treeHashes (Nat.log 2 t.size) := by
  intro t ht
  obtain ⟨L, hl, d⟩ := create_depth H (leafs := leafs) (w := w) (t := t) (by rw [← res_createT]; exact ht)
  dsimp only
  rw [d.size, Nat.log_pow (by norm_num)]
  obtain ⟨K, rfl⟩ : ∃ K, L = K + 1 := ⟨L - 1, by have := d.pos; omega⟩
  have e1 : 2 ^ (K + 1) = 2 * 2 ^ K := by ring
  have hpos : 0 < 2 ^ K := by positivity
  suffices hs : (createT H w leafs).Pays fun _ => treeHashes (K + 1) from hs t ht
  unfold createT
  simp only
  refine pays_lift_bind fun _ _ => ?_
  refine Pays.bind (φ := fun _ => leafs.length) (ψ := fun _ _ => 2 ^ (K + 1) - 1) (pays_hashLeafsT H w leafs) (fun lh hlh => ?_) ?_
  swap
  · intro _ _ _ _
    rw [hl]
    rfl
  refine pays_lift_bind fun n hn => pays_lift_bind fun _ _ => pays_lift_bind fun _ ha => pays_lift_bind fun _ _ => ?_
  rw [hl, log2Floor_pow] at hn
  cases hn
  have ha := of_decide_eq_true (Res.assert_eq_ok.1 ha)
  refine Pays.bind (φ := fun _ => 2 ^ K) (ψ := fun _ _ => 2 ^ K - 1) ?_ (fun level hlev => ?_) fun _ _ _ _ => by omega
  · have := pays_hashLevelT H w _ _ ha
    rw [List.length_drop, List.length_replicate, hl, show 2 ^ (K + 1) - 2 ^ (K + 1) / 2 = 2 ^ K by omega] at this
    rw [List.length_replicate, hl]
    exact this
  · rw [res_hashLevelT] at hlev
    cases hlev
    have hlen := length_hashLevel H w _ _ ha
    rw [List.length_drop, List.length_replicate, hl, show 2 ^ (K + 1) - 2 ^ (K + 1) / 2 = 2 ^ K by omega] at hlen
    have hnodes : ((List.replicate leafs.length zeroDigest).take ((List.replicate leafs.length zeroDigest).length / 2) ++
        hashLevel H w ((List.replicate leafs.length zeroDigest).drop ((List.replicate leafs.length zeroDigest).length / 2)) lh).length = 2 ^ (K + 1) := by
      rw [List.length_append, List.length_take, List.length_replicate, hl]
      rw [hlen]
      omega
    refine Pays.bind (φ := fun _ => 2 ^ K - 1) (ψ := fun _ _ => 0) ?_ (fun _ _ => pays_pure rfl) fun _ _ _ _ => rfl
    intro s hs
    have := pays_forN (P := fun i (s : List Digest × ℕ) => s.1.length = 2 ^ (K + 1) ∧ s.2 = 2 ^ (K + 1 - i)) (φ := fun i _ => 2 ^ K - 2 ^ (K - i))
      ⟨hnodes, hnodes⟩ (by
        rintro i ⟨nodes, len⟩ ⟨h1, h2⟩ _ hi s' hs'
        dsimp only at h1 h2
        subst h2
        obtain ⟨m, hm⟩ : ∃ m, K = i + 1 + m := ⟨K - (i + 1), by omega⟩
        rw [show K + 1 - i = m + 2 by omega] at hs' ⊢
        obtain ⟨a1, a2, a3⟩ := pays_createLevelT H w nodes m (by rw [h1]; exact Nat.pow_le_pow_right (by norm_num) (by omega)) s' hs'
        refine ⟨⟨a1.trans h1, ?_⟩, ?_⟩
        · rw [a2]; congr 1; omega
        · rw [a3, show K - i = m + 1 by omega, show K - (i + 1) = m by omega]
          have : 2 ^ (m + 1) ≤ 2 ^ K := Nat.pow_le_pow_right (by norm_num) (by omega)
          have : 2 ^ (m + 1) = 2 * 2 ^ m := by ring
          omega) s hs
    have h2 := this.2
    simp only [Nat.sub_zero, Nat.sub_self, Nat.zero_add] at h2
    rw [show K - (K + 1 - 1) = 0 by omega] at h2
    simpa using h2

theorem res_getPathT (t : IopTree) (i : ℕ) (leafs : List F) : (getPathT H t i leafs).res = t.getPath H i leafs := by
  unfold getPathT IopTree.getPath
  simp only [res_bind, res_lift, res_hash, res_pure, Res.ok_bind, Res.pure_def]

theorem res_queryT (t : IopTree) (i : ℕ) (leafs : List F) : (queryT H t i leafs).res = t.query H i leafs := by
  unfold queryT IopTree.query
  simp only [res_bind, res_lift, res_getPathT, res_pure, Res.pure_def]

theorem pays_queryT (t : IopTree) (i : ℕ) (leafs : List F) : (queryT H t i leafs).Pays fun _ => 1 := by
  unfold queryT
  refine pays_lift_bind fun _ _ => pays_lift_bind fun _ _ => pays_lift_bind fun _ _ => ?_
  refine Pays.bind (φ := fun _ => 1) (ψ := fun _ _ => 0) ?_ (fun _ _ => pays_pure rfl) fun _ _ _ _ => rfl
  unfold getPathT
  refine pays_lift_bind fun _ _ => pays_lift_bind fun _ _ => pays_hash_bind (c := 0) ?_
  exact pays_lift_bind fun _ _ => pays_lift_bind fun _ _ => pays_pure rfl

theorem query_depth {t : IopTree} {L : ℕ} (d : TreeDepth t L) {i : ℕ} {leafs : List F} {q : IopQuery F} (h : t.query H i leafs = .ok q) :
    q.path.length = L := by
  unfold IopTree.query at h
  obtain ⟨_, -, h⟩ := Res.bind_eq_ok.1 h
  obtain ⟨_, -, h⟩ := Res.bind_eq_ok.1 h
  obtain ⟨_, -, h⟩ := Res.bind_eq_ok.1 h
  obtain ⟨path, hp, h⟩ := Res.bind_eq_ok.1 h
  cases h
  unfold IopTree.getPath at hp
  obtain ⟨_, -, hp⟩ := Res.bind_eq_ok.1 hp
  obtain ⟨pair, -, hp⟩ := Res.bind_eq_ok.1 hp
  obtain ⟨r, hr, hp⟩ := Res.bind_eq_ok.1 hp
  obtain ⟨s, hs, hp⟩ := Res.bind_eq_ok.1 hp
  obtain ⟨L, rfl⟩ : ∃ K, L = K + 1 := ⟨L - 1, by have := d.pos; omega⟩
  rw [d.nodes, show 2 ^ (L + 1) / 2 = 2 ^ L by rw [pow_succ]; omega, log2Floor_pow] at hr
  cases hr
  cases hp
  have key : ∀ n lo (s s' : List Digest × ℕ × List Digest), forN n lo s (fun _ s => pathStep s) = .ok s' → s'.2.2.length = s.2.2.length + n := by
    intro n
    induction n with
    | zero => intro lo s s' h; cases h; rfl
    | succ n ih =>
      rintro lo ⟨s, i, p⟩ s' h
      obtain ⟨s1, h1, h2⟩ := Res.bind_eq_ok.1 h
      rw [ih _ _ _ h2]
      unfold pathStep at h1
      obtain ⟨v, -, h1⟩ := Res.bind_eq_ok.1 h1
      cases h1
      simp
      omega
  have := key _ _ _ _ hs
  simpa [Nat.add_comm] using this

end Hodor

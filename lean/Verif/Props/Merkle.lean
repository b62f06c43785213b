import Verif.Lemmas.Merkle
import Verif.Model.F257

/-! # C18, C19, C20: Merkle tree commitments -/

namespace Hodor

variable {F : Type} [Field F] [StarkField F] (H : List UInt8 → Digest)

theorem exists_tab_pow {α : Type} (l : List α) (d : α) {n : ℕ} (h : l.length = n) :
    ∃ g : ℕ → α, l = tab n g ∧ ∀ i, i < n → l[i]? = some (g i) := by
  refine ⟨fun i => l.getD i d, ?_, ?_⟩
  · subst h; exact eq_tab_getD l d
  · intro i hi
    simp [List.getElem?_eq_getElem (show i < l.length by omega)]

/-- **C18.** For every hash function, worker, leaf vector of length `2^k` (`k ≥ 1`) and index: the tree is
built, the query is answered, it carries the leaf and the index, its path has length `k`, and it verifies
against the root. -/
theorem C18_merkle_complete (w : Worker) (leafs : List F) (k i : ℕ) (hk : 1 ≤ k) (hl : leafs.length = 2 ^ k)
    (hi : i < 2 ^ k) :
    ∃ tree root q, IopTree.create H w leafs = .ok tree ∧ tree.getRoot = .ok root ∧
      tree.query H i leafs = .ok q ∧ q.index = i ∧ leafs[i]? = some q.value ∧ q.path.length = k ∧
      verifyQuery H q root = true := by
  obtain ⟨k, rfl⟩ : ∃ k', k = k' + 1 := ⟨k - 1, by omega⟩
  obtain ⟨g, rfl, hg⟩ := exists_tab_pow leafs 0 hl
  refine ⟨_, _, _, create_tab H w k g, getRoot_eq H k g, query_eq H k g hi, rfl, hg i hi, ?_, ?_⟩
  · simp [honestPath]
  · apply decide_eq_true
    exact verify_honest H (fun i => H (encodeLeaf (g i))) (k + 1) i hi

/-- **C18** (root): the root is the one of the textbook Merkle tree, whatever the number of CPUs. -/
theorem C18_root (w : Worker) (leafs : List F) (k : ℕ) (hk : 1 ≤ k) (hl : leafs.length = 2 ^ k) :
    ∃ tree, IopTree.create H w leafs = .ok tree ∧ tree.size = 2 ^ k ∧
      tree.getRoot = .ok (Spec.merkle H (fun i => H (encodeLeaf (leafs.getD i 0))) k 0) := by
  obtain ⟨k, rfl⟩ : ∃ k', k = k' + 1 := ⟨k - 1, by omega⟩
  have h := eq_tab_getD leafs 0
  rw [hl] at h
  refine ⟨_, ?_, ?_, getRoot_eq H k (fun i => leafs.getD i 0)⟩
  · conv_lhs => rw [h]
    exact create_tab H w k _
  · rfl

/-- **C18** (rejected sizes): `create` panics on fewer than two leaves or a length that is not a power of
two. -/
theorem C18_bad_sizes (w : Worker) (leafs : List F) (h : ¬ ∃ k, 1 ≤ k ∧ leafs.length = 2 ^ k) :
    IopTree.create H w leafs = .panic := by
  unfold IopTree.create
  by_cases hp : leafs.length = nextPow2 leafs.length
  · have h1 : leafs.length = 1 := by
      unfold nextPow2 at hp
      rcases Nat.eq_zero_or_pos (Nat.clog 2 leafs.length) with h0 | h0
      · rw [h0] at hp; simpa using hp
      · exact absurd ⟨_, h0, hp⟩ h
    simp [h1, hashLeafs_eq, log2Floor, nextPow2]
  · simp [hp]

/-- **C19.** An opening (value, path, index) — any path length, any index — that verifies against the root
of a tree built from `leafs` opens the leaf at position `index mod 2^k` with a path of length `k`, unless
two different strings among those hashed while building the tree and checking the opening collide. -/
theorem C19_merkle_binding (hb : numBits F < 256) (w : Worker) (leafs : List F) (k : ℕ)
    (hl : leafs.length = 2 ^ k) (tree : IopTree) (root : Digest)
    (hc : IopTree.create H w leafs = .ok tree) (hr : tree.getRoot = .ok root) (q : IopQuery F)
    (hv : verifyQuery H q root = true) :
    (q.path.length = k ∧ leafs[q.index % 2 ^ k]? = some q.value) ∨
    Spec.CollisionAmong H (fun s => Spec.TreeHashed H (fun i => leafs.getD i 0) k s ∨
      s ∈ Spec.openingHashed H q.value q.path q.index) := by
  have hk : 1 ≤ k := by
    by_contra h0
    have : k = 0 := by omega
    subst this
    rw [C18_bad_sizes H w leafs] at hc
    · cases hc
    · rintro ⟨j, hj, e⟩
      rw [hl] at e
      have := Nat.pow_right_injective (le_refl 2) e
      omega
  obtain ⟨k, rfl⟩ : ∃ k', k = k' + 1 := ⟨k - 1, by omega⟩
  have h := eq_tab_getD leafs 0
  rw [hl] at h
  set g : ℕ → F := fun i => leafs.getD i 0 with hg
  have hct : IopTree.create H w leafs = .ok (honestTree H g k) := by
    conv_lhs => rw [h]
    exact create_tab H w k g
  rw [hct] at hc
  cases hc
  rw [getRoot_eq] at hr
  cases hr
  replace hv := of_decide_eq_true hv
  by_cases hcol : Spec.CollisionAmong H (fun s => Spec.TreeHashed H g (k + 1) s ∨
      s ∈ Spec.openingHashed H q.value q.path q.index)
  · exact Or.inr hcol
  · left
    have := merkle_binding H _ hcol g encodeLeaf (length_encodeLeaf hb) q.value
      (Or.inr (by simp [Spec.openingHashed])) q.index q.path
      (fun s hs => Or.inr (List.mem_cons_of_mem _ hs)) (k + 1) 0
      (fun i _ hi => Or.inl (.leaf i (by omega)))
      (fun d i hd _ hi => Or.inl (.node d i hd (by omega)))
      hv
    refine ⟨this.1, ?_⟩
    have he := encodeLeaf_inj this.2
    rw [Nat.zero_mul, Nat.zero_add] at he
    rw [he]
    have hlt : q.index % 2 ^ (k + 1) < leafs.length := by rw [hl]; exact Nat.mod_lt _ (by positivity)
    simp [hg, List.getElem?_eq_getElem hlt]

/-- **C19** (two trees): leaf vectors of sizes `2^k`, `2^l` with the same root are equal, or two different
strings among those hashed while building the two trees collide. -/
theorem C19_same_root (hb : numBits F < 256) (w w' : Worker) (a b : List F) (k l : ℕ)
    (ha : a.length = 2 ^ k) (hbl : b.length = 2 ^ l) (ta tb : IopTree) (root : Digest)
    (hca : IopTree.create H w a = .ok ta) (hcb : IopTree.create H w' b = .ok tb)
    (hra : ta.getRoot = .ok root) (hrb : tb.getRoot = .ok root) :
    a = b ∨ Spec.CollisionAmong H (fun s => Spec.TreeHashed H (fun i => a.getD i 0) k s ∨
      Spec.TreeHashed H (fun i => b.getD i 0) l s) := by
  have pos : ∀ (w : Worker) (a : List F) (k : ℕ) (ta : IopTree), a.length = 2 ^ k →
      IopTree.create H w a = .ok ta → 1 ≤ k := by
    intro w a k ta ha hca
    by_contra h0
    have : k = 0 := by omega
    subst this
    rw [C18_bad_sizes H w a] at hca
    · cases hca
    · rintro ⟨j, hj, e⟩
      rw [ha] at e
      have := Nat.pow_right_injective (le_refl 2) e
      omega
  have hk := pos w a k ta ha hca
  have hl' := pos w' b l tb hbl hcb
  obtain ⟨k, rfl⟩ : ∃ k', k = k' + 1 := ⟨k - 1, by omega⟩
  obtain ⟨l, rfl⟩ : ∃ l', l = l' + 1 := ⟨l - 1, by omega⟩
  have h := eq_tab_getD a 0
  have h' := eq_tab_getD b 0
  rw [ha] at h
  rw [hbl] at h'
  set g : ℕ → F := fun i => a.getD i 0 with hg
  set g' : ℕ → F := fun i => b.getD i 0 with hg'
  have hct : IopTree.create H w a = .ok (honestTree H g k) := by
    conv_lhs => rw [h]
    exact create_tab H w k g
  have hct' : IopTree.create H w' b = .ok (honestTree H g' l) := by
    conv_lhs => rw [h']
    exact create_tab H w' l g'
  rw [hct] at hca; cases hca
  rw [hct'] at hcb; cases hcb
  rw [getRoot_eq] at hra hrb
  have hroot : Spec.merkle H (fun i => H (encodeLeaf (g i))) (k + 1) 0
      = Spec.merkle H (fun i => H (encodeLeaf (g' i))) (l + 1) 0 := by
    have := hra.trans hrb.symm
    injection this
  by_cases hcol : Spec.CollisionAmong H (fun s => Spec.TreeHashed H g (k + 1) s ∨
      Spec.TreeHashed H g' (l + 1) s)
  · exact Or.inr hcol
  left
  -- strings hashed along an honest path belong to the tree
  have hpath : ∀ (g : ℕ → F) (k i : ℕ), i < 2 ^ k →
      ∀ s ∈ Spec.pathHashed H (H (encodeLeaf (g i))) i
        (honestPath H (fun i => H (encodeLeaf (g i))) k i), Spec.TreeHashed H g k s := by
    intro g k i hi
    have gen : ∀ n h m, h + n = k → m < 2 ^ n → ∀ s ∈ Spec.pathHashed H
        (Spec.merkle H (fun i => H (encodeLeaf (g i))) h m) m
        (tab n (fun j => Spec.merkle H (fun i => H (encodeLeaf (g i))) (h + j) ((m / 2 ^ j) ^^^ 1))),
        Spec.TreeHashed H g k s := by
      intro n
      induction n with
      | zero => intro h m _ _ s hs; simp [Spec.pathHashed] at hs
      | succ n ih =>
        intro h m hh hm s hs
        set lh : ℕ → Digest := fun i => H (encodeLeaf (g i)) with hlh
        rw [tab_succ', Spec.pathHashed] at hs
        have es : (if m % 2 = 0 then (Spec.merkle H lh h m).bytes ++
              (Spec.merkle H lh (h + 0) ((m / 2 ^ 0) ^^^ 1)).bytes
            else (Spec.merkle H lh (h + 0) ((m / 2 ^ 0) ^^^ 1)).bytes ++ (Spec.merkle H lh h m).bytes)
            = (Spec.merkle H lh h (2 * (m / 2))).bytes ++ (Spec.merkle H lh h (2 * (m / 2) + 1)).bytes := by
          simp only [add_zero, pow_zero, Nat.div_one]
          rw [xor_one_eq]
          split
          · have : m = 2 * (m / 2) := by omega
            rw [← this]
          · have h2 : m - 1 = 2 * (m / 2) := by omega
            have h3 : 2 * (m / 2) + 1 = m := by omega
            rw [h2, h3]
        simp only [es] at hs
        rcases List.mem_cons.1 hs with rfl | hs
        · apply Spec.TreeHashed.node h (m / 2) (by omega)
          have : k - (h + 1) = n := by omega
          rw [this, Nat.div_lt_iff_lt_mul (by norm_num)]
          rw [pow_succ] at hm; exact hm
        · apply ih (h + 1) (m / 2) (by omega)
            (by rw [Nat.div_lt_iff_lt_mul (by norm_num)]; rw [pow_succ] at hm; exact hm) s
          have e2 : ∀ j, h + 1 + j = h + (j + 1) := by intro j; omega
          have e3 : ∀ j, m / 2 / 2 ^ j = m / 2 ^ (j + 1) := by
            intro j; rw [Nat.div_div_eq_div_mul, pow_succ, mul_comm]
          simp only [e2, e3]
          exact hs
    have := gen k 0 i (by omega) hi
    simpa [honestPath, Spec.merkle] using this
  have hopen : ∀ i, i < 2 ^ (k + 1) → k + 1 = l + 1 ∧ g i = g' (i % 2 ^ (l + 1)) := by
    intro i hi
    have hv := verify_honest H (fun i => H (encodeLeaf (g i))) (k + 1) i hi
    rw [hroot] at hv
    have := merkle_binding H _ hcol g' encodeLeaf (length_encodeLeaf hb) (g i)
      (Or.inl (.leaf i hi)) i (honestPath H (fun i => H (encodeLeaf (g i))) (k + 1) i)
      (fun s hs => Or.inl (hpath g (k + 1) i hi s hs)) (l + 1) 0
      (fun i _ hi => Or.inr (.leaf i (by omega)))
      (fun d i hd _ hi => Or.inr (.node d i hd (by omega)))
      hv
    refine ⟨by simpa [honestPath] using this.1, ?_⟩
    have he := encodeLeaf_inj this.2
    rwa [Nat.zero_mul, Nat.zero_add] at he
  have hkl := (hopen 0 (by positivity)).1
  have : k = l := by omega
  subst this
  rw [h, h']
  apply tab_congr
  intro i hi
  have := (hopen i hi).2
  rwa [Nat.mod_eq_of_lt hi] at this

/-- **C20.** Distinct field elements have distinct 32-byte encodings, and reading the encoding back gives
the element. -/
theorem C20_leaf_encoding (hb : numBits F < 256) (x y : F) :
    (encodeLeaf x).length = 32 ∧ (encodeLeaf x = encodeLeaf y → x = y) ∧
    StarkField.ofRawRepr (ofLeBytes ((encodeLeaf x).take (8 * limbs F))) = x := by
  refine ⟨length_encodeLeaf hb x, encodeLeaf_inj, ?_⟩
  unfold encodeLeaf
  rw [List.take_left' (length_leBytes _ _),
    ofLeBytes_leBytes _ _ (lt_trans (StarkField.rawRepr_lt x) modulus_lt_limbs), StarkField.ofRawRepr_rawRepr]

/-! ### Non-vacuity -/

/-- A toy hash: 32 bytes, eight copies of a four-byte polynomial checksum of the input. -/
def toyHash (s : List UInt8) : Digest :=
  let n := s.foldl (fun a b => (a * 263 + b.toNat + 1) % 4294967291) 7
  ⟨(List.replicate 8 (leBytes 4 n)).flatten, by simp [length_leBytes]⟩

/-- C18/C19/C20: a tree of four elements of `Fr` on three CPUs, its query 2 verifies, and the query with
another value does not. -/
example : ∃ (tree : IopTree) (root : Digest) (q : IopQuery Fr), IopTree.create toyHash ⟨3, by norm_num⟩ ([1, 2, 3, 200] : List Fr) = .ok tree ∧
    tree.getRoot = .ok root ∧ tree.query toyHash 2 ([1, 2, 3, 200] : List Fr) = .ok q ∧
    verifyQuery toyHash q root = true ∧ verifyQuery toyHash ({ q with value := (4 : Fr) } : IopQuery Fr) root = false ∧
    numBits Fr < 256 :=
  ⟨_, _, _, rfl, rfl, rfl, by decide +kernel, by decide +kernel, by decide +kernel⟩

end Hodor

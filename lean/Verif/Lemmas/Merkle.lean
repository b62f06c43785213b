import Verif.Model.Iop
import Verif.Spec.Merkle
import Verif.Lemmas.Chunks
import Verif.Lemmas.Poly
import Mathlib.Tactic.Ring

/-! # The Merkle tree of the model is the Merkle tree of the specification -/

namespace Hodor

open Spec (merkle)

theorem Digest.ext' {a b : Digest} (h : a.bytes = b.bytes) : a = b := by
  cases a; cases b; simp_all

theorem append_bytes_inj {a b c d : Digest} (h : a.bytes ++ b.bytes = c.bytes ++ d.bytes) :
    a = c ∧ b = d := by
  have := List.append_inj h (by rw [a.len, c.len])
  exact ⟨Digest.ext' this.1, Digest.ext' this.2⟩

theorem xor_one_eq (n : ℕ) : n ^^^ 1 = if n % 2 = 0 then n + 1 else n - 1 := by
  apply Nat.eq_of_testBit_eq
  intro i
  rw [Nat.testBit_xor]
  cases i with
  | zero =>
    simp only [Nat.testBit_zero]
    split
    · rename_i h; rw [h]; have : (n + 1) % 2 = 1 := by omega
      simp [this]
    · have h1 : n % 2 = 1 := by omega
      have h2 : (n - 1) % 2 = 0 := by omega
      simp [h1, h2]
  | succ i =>
    rw [Nat.testBit_succ, Nat.testBit_succ, Nat.testBit_succ]
    have : (if n % 2 = 0 then n + 1 else n - 1) / 2 = n / 2 := by split <;> omega
    rw [this]; simp

theorem xor_one_lt {n m : ℕ} (h : n < 2 * m) : n ^^^ 1 < 2 * m := by
  rw [xor_one_eq]; split <;> omega

variable {F : Type} [Field F] [StarkField F] (H : List UInt8 → Digest)

theorem hashNode_two (a b : Digest) : hashNode H [a, b] = H (a.bytes ++ b.bytes) := by
  simp [hashNode]

theorem numChunks_double {n c : ℕ} (hc : 0 < c) : numChunks (2 * n) (c * 2) = numChunks n c := by
  unfold numChunks
  have : 2 * n + c * 2 - 1 = 2 * (n + c - 1) + 1 := by omega
  rw [this, Nat.mul_comm c 2, ← Nat.div_div_eq_div_mul]
  congr 1
  omega

theorem tab_two {α : Type} (g : ℕ → α) : tab 2 g = [g 0, g 1] := rfl

theorem hashLevel_tab (w : Worker) (n : ℕ) (g h : ℕ → Digest) :
    hashLevel H w (tab n g) (tab (2 * n) h)
      = tab n (fun i => H ((h (2 * i)).bytes ++ (h (2 * i + 1)).bytes)) := by
  unfold hashLevel
  simp only [length_tab]
  have hc := w.chunkSize_pos n
  generalize w.chunkSize n = c at hc
  rw [chunks_tab c n, mapIdx_tab, chunks_tab (c * 2),
    ← flatten_chunks_tab hc n (fun i => H ((h (2 * i)).bytes ++ (h (2 * i + 1)).bytes))]
  congr 1
  apply tab_congr
  intro i hi
  have hlt := numChunks_lt hc hi
  rw [getElem?_tab, numChunks_double hc, if_pos hi]
  simp only [Option.map_some, Option.getD_some]
  have e : min (c * 2) (2 * n - i * (c * 2)) = 2 * min c (n - i * c) := by
    have : i * (c * 2) = 2 * (i * c) := by ring
    rw [this]; omega
  rw [e, chunks_tab, zipUpdate_tab]
  have hnc : numChunks (2 * min c (n - i * c)) 2 = min c (n - i * c) := by
    unfold numChunks; omega
  rw [hnc]
  apply tab_congr
  intro j hj
  rw [if_pos hj]
  have e2 : min 2 (2 * min c (n - i * c) - j * 2) = 2 := by omega
  rw [e2, tab_two, hashNode_two]
  have e3 : i * (c * 2) + (j * 2 + 0) = 2 * (i * c + j) := by ring
  have e4 : i * (c * 2) + (j * 2 + 1) = 2 * (i * c + j) + 1 := by ring
  rw [e3, e4]

/-- Content of `nodes[j]`. -/
def heap (lh : ℕ → Digest) (k j : ℕ) : Digest :=
  if j = 0 then zeroDigest else merkle H lh (k - Nat.log 2 j) (j - 2 ^ Nat.log 2 j)

theorem heap_at (lh : ℕ → Digest) {k e i : ℕ} (hi : i < 2 ^ e) :
    heap H lh k (2 ^ e + i) = merkle H lh (k - e) i := by
  have hlog : Nat.log 2 (2 ^ e + i) = e := by
    rw [Nat.log_eq_iff (Or.inr ⟨by norm_num, by positivity⟩)]
    constructor
    · omega
    · rw [pow_succ]; omega
  unfold heap
  rw [if_neg (by positivity), hlog]
  congr 1; omega

/-- The tree built over `leaf 0, …, leaf (2^(k+1) - 1)`. -/
def honestTree (leaf : ℕ → F) (k : ℕ) : IopTree :=
  ⟨2 ^ (k + 1), tab (2 ^ (k + 1)) (heap H (fun i => H (encodeLeaf (leaf i))) (k + 1))⟩

theorem isPow2_pow (k : ℕ) : isPow2 (2 ^ k) = true := isPow2_iff.2 ⟨k, rfl⟩

theorem log2Floor_pow (k : ℕ) : log2Floor (2 ^ k) = .ok k := by
  unfold log2Floor
  simp

theorem createLevel_tab (w : Worker) (lh : ℕ → Digest) {k t : ℕ} (ht : t < k) :
    createLevel H w (tab (2 ^ (k + 1)) (fun j => if 2 ^ (k - t) ≤ j then heap H lh (k + 1) j else zeroDigest),
        2 ^ (k + 1 - t))
      = .ok (tab (2 ^ (k + 1)) (fun j => if 2 ^ (k - (t + 1)) ≤ j then heap H lh (k + 1) j else zeroDigest),
        2 ^ (k + 1 - (t + 1))) := by
  obtain ⟨s, hs⟩ : ∃ s, k = t + 1 + s := ⟨k - (t + 1), by omega⟩
  have e1 : k - t = s + 1 := by omega
  have e2 : k + 1 - t = s + 2 := by omega
  have e3 : k - (t + 1) = s := by omega
  have e4 : k + 1 - (t + 1) = s + 1 := by omega
  rw [e1, e2, e3, e4]
  have hp : 0 < 2 ^ s := by positivity
  have h1 : 2 ^ (s + 1) = 2 * 2 ^ s := by ring
  have h2 : 2 ^ (s + 2) = 4 * 2 ^ s := by ring
  have hle : 2 ^ (s + 2) ≤ 2 ^ (k + 1) := Nat.pow_le_pow_right (by norm_num) (by omega)
  have hk1 : 2 ^ (k + 1) = 2 * 2 ^ k := by ring
  unfold createLevel
  simp only
  have d1 : 2 ^ (s + 2) / 2 = 2 ^ (s + 1) := by omega
  have d2 : 2 ^ (s + 1) / 2 = 2 ^ s := by omega
  rw [d1, d2, take_tab, take_tab, take_tab, drop_tab, drop_tab, drop_tab]
  have m1 : min (2 ^ (s + 2)) (2 ^ (k + 1)) - 2 ^ (s + 1) = 2 * 2 ^ s := by omega
  have m2 : min (2 ^ (s + 1)) (2 ^ (k + 1)) - 2 ^ s = 2 ^ s := by omega
  rw [m1, m2]
  simp only [length_tab]
  rw [show 2 ^ s * 2 = 2 * 2 ^ s by ring]
  simp only [decide_true, Res.assert_true, Res.ok_bind, isPow2_pow, Res.pure_def]
  rw [hashLevel_tab]
  congr 2
  have m3 : min (2 ^ s) (2 ^ (k + 1)) = 2 ^ s := by omega
  rw [m3]
  have split : 2 ^ (k + 1) = 2 ^ s + 2 ^ s + (2 ^ (k + 1) - 2 ^ (s + 1)) := by omega
  conv_rhs => rw [split, tab_add, tab_add]
  congr 1
  · congr 1
    · apply tab_congr
      intro j hj
      rw [if_neg (by omega), if_neg (by omega)]
    · apply tab_congr
      intro j hj
      rw [if_pos (by omega), if_pos (by omega), if_pos (by omega), heap_at H lh hj,
        heap_at H lh (show 2 * j < 2 ^ (s + 1) by omega), heap_at H lh (show 2 * j + 1 < 2 ^ (s + 1) by omega)]
      have : k + 1 - s = (k + 1 - (s + 1)) + 1 := by omega
      rw [this]; rfl
  · apply tab_congr
    intro j hj
    have : 2 ^ s + 2 ^ s + j = 2 ^ (s + 1) + j := by omega
    rw [this, if_pos (by omega), if_pos (by omega)]

theorem hashLeafs_tab (w : Worker) (n : ℕ) (leaf : ℕ → F) :
    hashLeafs H w (tab n leaf) = .ok (tab n (fun i => hashLeaf H (leaf i))) := by
  unfold hashLeafs
  simp only [length_tab, replicate_eq_tab]
  have hc := w.chunkSize_pos n
  set c := w.chunkSize n with hcd
  rw [chunks_tab, length_tab]
  rw [collectN_eq _ _ (fun i => tab (min c (n - i * c)) (fun j => hashLeaf H (leaf (i * c + j))))]
  · rw [Res.ok_bind, Res.pure_def, flatten_chunks_tab hc n (fun i => hashLeaf H (leaf i))]
  · intro i hi
    rw [rd_tab hi, Res.ok_bind, length_tab]
    apply collectN_eq
    intro j hj
    have := numChunks_lt hc hi
    rw [rd_tab (by omega), Res.ok_bind, Res.pure_def]

theorem hashLeafs_eq (w : Worker) (leafs : List F) : hashLeafs H w leafs = .ok (leafs.map (hashLeaf H)) := by
  conv_lhs => rw [eq_tab_getD leafs 0]
  rw [hashLeafs_tab]
  conv_rhs => rw [eq_tab_getD leafs 0, map_tab]

theorem create_tab (w : Worker) (k : ℕ) (leaf : ℕ → F) :
    IopTree.create H w (tab (2 ^ (k + 1)) leaf)
      = .ok (honestTree H leaf k) := by
  have hk1 : 2 ^ (k + 1) = 2 * 2 ^ k := by ring
  have hp : 0 < 2 ^ k := by positivity
  unfold IopTree.create
  simp only [length_tab, nextPow2_pow, decide_true, Res.assert_true, Res.ok_bind, log2Floor_pow,
    Nat.le_add_left]
  rw [hashLeafs_tab]
  simp only [Res.ok_bind]
  rw [replicate_eq_tab, length_tab]
  have d1 : 2 ^ (k + 1) / 2 = 2 ^ k := by omega
  rw [d1, drop_tab, take_tab]
  have m1 : 2 ^ (k + 1) - 2 ^ k = 2 ^ k := by omega
  have m2 : min (2 ^ k) (2 ^ (k + 1)) = 2 ^ k := by omega
  rw [m1, m2]
  simp only [length_tab]
  rw [show 2 ^ k * 2 = 2 ^ (k + 1) by ring]
  simp only [decide_true, Res.assert_true, Res.ok_bind, isPow2_pow]
  have hl : hashLevel H w (tab (2 ^ k) fun i => zeroDigest) (tab (2 ^ (k + 1)) fun i => hashLeaf H (leaf i))
      = tab (2 ^ k) (fun i => H ((hashLeaf H (leaf (2 * i))).bytes ++ (hashLeaf H (leaf (2 * i + 1))).bytes)) := by
    rw [hk1]; exact hashLevel_tab H w _ _ _
  rw [hl]
  set lh : ℕ → Digest := fun i => H (encodeLeaf (leaf i)) with hlh
  have e0 : tab (2 ^ k) (fun _ => zeroDigest) ++ tab (2 ^ k)
        (fun i => H ((hashLeaf H (leaf (2 * i))).bytes ++ (hashLeaf H (leaf (2 * i + 1))).bytes))
      = tab (2 ^ (k + 1)) (fun j => if 2 ^ (k - 0) ≤ j then heap H lh (k + 1) j else zeroDigest) := by
    have : 2 ^ (k + 1) = 2 ^ k + 2 ^ k := by omega
    rw [this, tab_add]
    congr 1
    · apply tab_congr
      intro j hj
      rw [if_neg (by simpa using hj)]
    · apply tab_congr
      intro j hj
      rw [if_pos (by simp), heap_at H lh hj]
      have : k + 1 - k = 0 + 1 := by omega
      rw [this]; rfl
  rw [e0]
  have loop := forN_eq (fun t => (tab (2 ^ (k + 1)) (fun j => if 2 ^ (k - t) ≤ j then heap H lh (k + 1) j
      else zeroDigest), 2 ^ (k + 1 - t))) (fun _ s => createLevel H w s) k 0
      (fun t _ ht => createLevel_tab H w lh (by omega))
  simp only [Nat.add_sub_cancel, length_tab]
  simp only [Nat.sub_zero, Nat.zero_add, Nat.sub_self] at loop
  simp only [Nat.sub_zero]
  rw [loop]
  simp only [Res.ok_bind, Res.pure_def]
  congr 2
  apply tab_congr
  intro j hj
  split
  · rfl
  · have : j = 0 := by simp at *; omega
    rw [this]; rfl

theorem getRoot_eq (k : ℕ) (leaf : ℕ → F) :
    (honestTree H leaf k).getRoot = .ok (merkle H (fun i => H (encodeLeaf (leaf i))) (k + 1) 0) := by
  unfold IopTree.getRoot honestTree
  rw [rd_tab (Nat.one_lt_two_pow (by omega))]
  have := heap_at H (fun i => H (encodeLeaf (leaf i))) (k := k + 1) (e := 0) (i := 0) (by norm_num)
  simpa using congrArg Res.ok this

/-- The authentication path of leaf `i`. -/
def honestPath (lh : ℕ → Digest) (k i : ℕ) : List Digest :=
  tab k (fun h => merkle H lh h ((i / 2 ^ h) ^^^ 1))

theorem getPath_eq (k : ℕ) (leaf : ℕ → F) {i : ℕ} (hi : i < 2 ^ (k + 1)) :
    IopTree.getPath H (honestTree H leaf k) i (tab (2 ^ (k + 1)) leaf)
      = .ok (honestPath H (fun i => H (encodeLeaf (leaf i))) (k + 1) i) := by
  have hk1 : 2 ^ (k + 1) = 2 * 2 ^ k := by ring
  set lh : ℕ → Digest := fun i => H (encodeLeaf (leaf i)) with hlh
  unfold IopTree.getPath honestTree
  simp only [length_tab, decide_true, Res.assert_true, Res.ok_bind]
  rw [rd_tab (by rw [hk1] at hi ⊢; exact xor_one_lt hi)]
  have d1 : 2 ^ (k + 1) / 2 = 2 ^ k := by omega
  rw [d1, log2Floor_pow]
  simp only [Res.ok_bind]
  have loop := forN_eq (fun t => (tab (2 ^ (k + 1 - t)) (heap H lh (k + 1)), i / 2 ^ (t + 1),
      tab (t + 1) (fun h => merkle H lh h ((i / 2 ^ h) ^^^ 1)))) (fun _ s => pathStep s) k 0 (by
    intro t _ ht
    unfold pathStep
    simp only [length_tab]
    obtain ⟨s, hs⟩ : ∃ s, k = t + 1 + s := ⟨k - (t + 1), by omega⟩
    have e2 : k + 1 - t = s + 2 := by omega
    have e4 : k + 1 - (t + 1) = s + 1 := by omega
    rw [e2, e4]
    have hps : 2 ^ (s + 2) = 2 * 2 ^ (s + 1) := by ring
    have d : 2 ^ (s + 2) / 2 = 2 ^ (s + 1) := by omega
    rw [d, drop_tab, take_tab]
    have m1 : 2 ^ (s + 2) - 2 ^ (s + 1) = 2 ^ (s + 1) := by omega
    have m2 : min (2 ^ (s + 1)) (2 ^ (s + 2)) = 2 ^ (s + 1) := by omega
    rw [m1, m2]
    have hlt : (i / 2 ^ (t + 1)) ^^^ 1 < 2 ^ (s + 1) := by
      have e5 : 2 ^ (s + 1) = 2 * 2 ^ s := by ring
      rw [e5]
      apply xor_one_lt
      rw [Nat.div_lt_iff_lt_mul (by positivity)]
      calc i < 2 ^ (k + 1) := hi
        _ = 2 * 2 ^ s * 2 ^ (t + 1) := by rw [hs]; ring
    rw [rd_tab hlt]
    simp only [Res.ok_bind, Res.pure_def]
    rw [heap_at H lh hlt, Nat.div_div_eq_div_mul, ← pow_succ]
    have : k + 1 - (s + 1) = t + 1 := by omega
    rw [this, tab_succ (t + 1)])
  simp only [Nat.sub_zero, Nat.zero_add, pow_one] at loop
  have hone : tab 1 (fun h => merkle H lh h ((i / 2 ^ h) ^^^ 1)) = [hashLeaf H (leaf (i ^^^ 1))] := by
    simp [tab, merkle, hlh, hashLeaf]
  rw [hone] at loop
  rw [loop]
  rfl

theorem verifyLoop_honest (lh : ℕ → Digest) (n : ℕ) : ∀ (h m : ℕ),
    verifyLoop H (merkle H lh h m) m (tab n (fun j => merkle H lh (h + j) ((m / 2 ^ j) ^^^ 1)))
      = merkle H lh (h + n) (m / 2 ^ n) := by
  induction n with
  | zero => intro h m; simp [verifyLoop]
  | succ n ih =>
    intro h m
    rw [tab_succ', verifyLoop]
    have e : (if m % 2 = 0 then hashNode H [merkle H lh h m, merkle H lh (h + 0) ((m / 2 ^ 0) ^^^ 1)]
        else hashNode H [merkle H lh (h + 0) ((m / 2 ^ 0) ^^^ 1), merkle H lh h m])
        = merkle H lh (h + 1) (m / 2) := by
      simp only [add_zero, pow_zero, Nat.div_one, hashNode_two]
      rw [xor_one_eq]
      split
      · rename_i hm
        have : m = 2 * (m / 2) := by omega
        conv_lhs => rw [this]
        rfl
      · rename_i hm
        have : m = 2 * (m / 2) + 1 := by omega
        have h2 : m - 1 = 2 * (m / 2) := by omega
        rw [h2]
        conv_lhs => enter [1, 2]; rw [this]
        rfl
    rw [e]
    have := ih (h + 1) (m / 2)
    have e2 : ∀ j, h + 1 + j = h + (j + 1) := by intro j; omega
    have e3 : ∀ j, m / 2 / 2 ^ j = m / 2 ^ (j + 1) := by
      intro j; rw [Nat.div_div_eq_div_mul, pow_succ, mul_comm]
    simp only [e2, e3] at this
    exact this

theorem verify_honest (lh : ℕ → Digest) (k i : ℕ) (hi : i < 2 ^ k) :
    verifyLoop H (lh i) i (honestPath H lh k i) = merkle H lh k 0 := by
  have := verifyLoop_honest H lh k 0 i
  simp only [Nat.zero_add, Nat.div_eq_of_lt hi] at this
  exact this

theorem query_eq (k : ℕ) (leaf : ℕ → F) {i : ℕ} (hi : i < 2 ^ (k + 1)) :
    IopTree.query H (honestTree H leaf k) i (tab (2 ^ (k + 1)) leaf)
      = .ok { index := i, value := leaf i,
              path := honestPath H (fun i => H (encodeLeaf (leaf i))) (k + 1) i } := by
  unfold IopTree.query
  have hs : (honestTree H leaf k).size = 2 ^ (k + 1) := rfl
  simp only [hs, length_tab, hi, decide_true, Res.assert_true, Res.ok_bind]
  rw [rd_tab hi, getPath_eq H k leaf hi]
  rfl

/-! ### Binding -/

theorem verifyLoop_append (el : Digest) (path : List Digest) : ∀ (h : Digest) (idx : ℕ),
    verifyLoop H h idx (path ++ [el]) =
      H (if (idx / 2 ^ path.length) % 2 = 0 then (verifyLoop H h idx path).bytes ++ el.bytes
        else el.bytes ++ (verifyLoop H h idx path).bytes) := by
  induction path with
  | nil =>
    intro h idx
    simp only [List.nil_append, verifyLoop, List.length_nil, pow_zero, Nat.div_one, hashNode_two]
    split <;> rfl
  | cons a path ih =>
    intro h idx
    have e : idx / 2 ^ (a :: path).length = idx / 2 / 2 ^ path.length := by
      rw [Nat.div_div_eq_div_mul, List.length_cons, pow_succ, mul_comm]
    simp only [List.cons_append, verifyLoop, ih, e]

theorem pathHashed_append (el : Digest) (path : List Digest) : ∀ (h : Digest) (idx : ℕ),
    Spec.pathHashed H h idx (path ++ [el]) = Spec.pathHashed H h idx path ++
      [if (idx / 2 ^ path.length) % 2 = 0 then (verifyLoop H h idx path).bytes ++ el.bytes
        else el.bytes ++ (verifyLoop H h idx path).bytes] := by
  induction path with
  | nil =>
    intro h idx
    simp [Spec.pathHashed, verifyLoop]
  | cons a path ih =>
    intro h idx
    have e : H (if idx % 2 = 0 then h.bytes ++ a.bytes else a.bytes ++ h.bytes)
      = if idx % 2 = 0 then hashNode H [h, a] else hashNode H [a, h] := by
      simp only [hashNode_two]; split <;> rfl
    have e2 : idx / 2 ^ (a :: path).length = idx / 2 / 2 ^ path.length := by
      rw [Nat.div_div_eq_div_mul, List.length_cons, pow_succ, mul_comm]
    simp only [List.cons_append, verifyLoop, ih, Spec.pathHashed, e, e2]

theorem merkle_binding (P : List UInt8 → Prop)
    (hnc : ¬ Spec.CollisionAmong H P) (leaf : ℕ → F) (enc : F → List UInt8)
    (henc : ∀ x, (enc x).length = 32) (v : F) (hv : P (enc v)) (idx : ℕ) (path : List Digest) :
    (∀ s ∈ Spec.pathHashed H (H (enc v)) idx path, P s) →
    ∀ h j, (∀ i, j * 2 ^ h ≤ i → i < (j + 1) * 2 ^ h → P (enc (leaf i))) →
    (∀ d i, d < h → j * 2 ^ (h - (d + 1)) ≤ i → i < (j + 1) * 2 ^ (h - (d + 1)) →
      P ((merkle H (fun i => H (enc (leaf i))) d (2 * i)).bytes
          ++ (merkle H (fun i => H (enc (leaf i))) d (2 * i + 1)).bytes)) →
    verifyLoop H (H (enc v)) idx path = merkle H (fun i => H (enc (leaf i))) h j →
    path.length = h ∧ enc v = enc (leaf (j * 2 ^ h + idx % 2 ^ h)) := by
  have hinj : ∀ x y, P x → P y → H x = H y → x = y := by
    intro x y hx hy e
    by_contra hne
    exact hnc ⟨x, y, hx, hy, hne, e⟩
  induction path using List.reverseRecOn with
  | nil =>
    intro _ h j hl hn e
    cases h with
    | zero =>
      simp only [verifyLoop, merkle] at e
      refine ⟨rfl, ?_⟩
      have := hinj _ _ hv (hl j (by simp) (by simp)) e
      simpa [Nat.mod_one] using this
    | succ h =>
      simp only [verifyLoop, merkle] at e
      have hP := hn h j (by omega) (by simp) (by simp)
      have := congrArg List.length (hinj _ _ hv hP e)
      rw [henc] at this
      simp [Digest.len] at this
  | append_singleton path el ih =>
    intro hp h j hl hn e
    rw [pathHashed_append] at hp
    have hpl := hp _ (List.mem_append_right _ (List.mem_singleton.2 rfl))
    have ih := ih (fun s hs => hp s (List.mem_append_left _ hs))
    rw [verifyLoop_append] at e
    cases h with
    | zero =>
      simp only [merkle] at e
      have := congrArg List.length (hinj _ _ hpl (hl j (by simp) (by simp)) e)
      rw [henc] at this
      split at this <;> simp [Digest.len] at this
    | succ h =>
      simp only [merkle] at e
      have hP := hn h j (by omega) (by simp) (by simp)
      have heq := hinj _ _ hpl hP e
      have hsub : ∀ b, b < 2 → (∀ i, (2 * j + b) * 2 ^ h ≤ i → i < (2 * j + b + 1) * 2 ^ h → P (enc (leaf i))) ∧
          (∀ d i, d < h → (2 * j + b) * 2 ^ (h - (d + 1)) ≤ i → i < (2 * j + b + 1) * 2 ^ (h - (d + 1)) →
            P ((merkle H (fun i => H (enc (leaf i))) d (2 * i)).bytes
              ++ (merkle H (fun i => H (enc (leaf i))) d (2 * i + 1)).bytes)) := by
        intro b hb
        constructor
        · intro i h1 h2
          apply hl i
          · calc j * 2 ^ (h + 1) = (2 * j) * 2 ^ h := by ring
              _ ≤ (2 * j + b) * 2 ^ h := Nat.mul_le_mul_right _ (by omega)
              _ ≤ i := h1
          · calc i < (2 * j + b + 1) * 2 ^ h := h2
              _ ≤ (2 * j + 2) * 2 ^ h := Nat.mul_le_mul_right _ (by omega)
              _ = (j + 1) * 2 ^ (h + 1) := by ring
        · intro d i hd h1 h2
          have e1 : h + 1 - (d + 1) = (h - (d + 1)) + 1 := by omega
          apply hn d i (by omega)
          · rw [e1]
            calc j * 2 ^ (h - (d + 1) + 1) = (2 * j) * 2 ^ (h - (d + 1)) := by ring
              _ ≤ (2 * j + b) * 2 ^ (h - (d + 1)) := Nat.mul_le_mul_right _ (by omega)
              _ ≤ i := h1
          · rw [e1]
            calc i < (2 * j + b + 1) * 2 ^ (h - (d + 1)) := h2
              _ ≤ (2 * j + 2) * 2 ^ (h - (d + 1)) := Nat.mul_le_mul_right _ (by omega)
              _ = (j + 1) * 2 ^ (h - (d + 1) + 1) := by ring
      have hmod : idx % 2 ^ (h + 1) = idx % 2 ^ h + 2 ^ h * ((idx / 2 ^ h) % 2) := by
        rw [pow_succ, Nat.mod_mul]
      by_cases hb : (idx / 2 ^ path.length) % 2 = 0
      · rw [if_pos hb] at heq
        have h1 := (append_bytes_inj heq).1
        obtain ⟨hl', he'⟩ := ih h (2 * j) (hsub 0 (by omega)).1 (hsub 0 (by omega)).2 h1
        rw [hl'] at hb
        refine ⟨by simp [hl'], ?_⟩
        rw [he', hmod, hb]
        congr 2
        ring
      · rw [if_neg hb] at heq
        have h1 := (append_bytes_inj heq).2
        obtain ⟨hl', he'⟩ := ih h (2 * j + 1) (hsub 1 (by omega)).1 (hsub 1 (by omega)).2 h1
        rw [hl'] at hb
        have hb1 : (idx / 2 ^ h) % 2 = 1 := by omega
        refine ⟨by simp [hl'], ?_⟩
        rw [he', hmod, hb1]
        congr 2
        ring

/-! ### Encodings -/

theorem ofLeBytes_leBytes (k : ℕ) : ∀ n, n < 256 ^ k → ofLeBytes (leBytes k n) = n := by
  induction k with
  | zero => intro n h; simp at h; simp [leBytes, ofLeBytes, h]
  | succ k ih =>
    intro n h
    simp only [leBytes, ofLeBytes]
    rw [ih (n / 256) (by rw [Nat.div_lt_iff_lt_mul (by norm_num)]; rw [pow_succ] at h; exact h)]
    have : (UInt8.ofNat (n % 256)).toNat = n % 256 := by
      simp [UInt8.toNat_ofNat']
    rw [this]
    omega

theorem length_leBytes (k n : ℕ) : (leBytes k n).length = k := by
  induction k generalizing n with
  | zero => rfl
  | succ k ih => simp [leBytes, ih]

theorem length_beBytes (k n : ℕ) : (beBytes k n).length = k := by
  simp [beBytes, length_leBytes]

theorem ofBeBytes_beBytes (k n : ℕ) (h : n < 256 ^ k) : ofBeBytes (beBytes k n) = n := by
  simp [ofBeBytes, beBytes, ofLeBytes_leBytes k n h]

theorem ofLeBytes_lt (l : List UInt8) : ofLeBytes l < 256 ^ l.length := by
  induction l with
  | nil => simp [ofLeBytes]
  | cons b l ih =>
    simp only [ofLeBytes, List.length_cons, pow_succ]
    have := b.toNat_lt
    omega

theorem modulus_lt_limbs : StarkField.modulus F < 256 ^ (8 * limbs F) := by
  have h1 : StarkField.modulus F < 2 ^ (numBits F) := by
    unfold numBits; exact Nat.lt_pow_succ_log_self (by norm_num) _
  have h2 : 2 ^ numBits F ≤ 256 ^ (8 * limbs F) := by
    rw [show (256 : ℕ) = 2 ^ 8 by norm_num, ← pow_mul]
    apply Nat.pow_le_pow_right (by norm_num)
    unfold limbs; omega
  omega

theorem limbs_le_four (hb : numBits F < 256) : 8 * limbs F ≤ 32 := by
  unfold limbs; omega

theorem length_encodeLeaf (hb : numBits F < 256) (x : F) : (encodeLeaf x).length = 32 := by
  have := limbs_le_four hb
  simp [encodeLeaf, length_leBytes]; omega

theorem encodeLeaf_inj {x y : F} (h : encodeLeaf x = encodeLeaf y) : x = y := by
  unfold encodeLeaf at h
  have h1 := (List.append_inj h (by simp [length_leBytes])).1
  have h2 := congrArg ofLeBytes h1
  rw [ofLeBytes_leBytes _ _ (lt_trans (StarkField.rawRepr_lt x) modulus_lt_limbs),
    ofLeBytes_leBytes _ _ (lt_trans (StarkField.rawRepr_lt y) modulus_lt_limbs)] at h2
  rw [← StarkField.ofRawRepr_rawRepr x, ← StarkField.ofRawRepr_rawRepr y, h2]

end Hodor

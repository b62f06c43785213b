import Verif.Model.Worker
import Mathlib.Tactic.Ring
import Mathlib.Tactic.Linarith

namespace Hodor

theorem Worker.chunkSize_pos (w : Worker) (n : ℕ) : 0 < w.chunkSize n := by
  unfold Worker.chunkSize
  split
  · exact Nat.one_pos
  · exact Nat.div_pos (by omega) w.pos

theorem numChunks_le {n c : ℕ} (hc : 0 < c) : n ≤ numChunks n c * c := by
  unfold numChunks
  have := Nat.div_add_mod (n + c - 1) c
  have h2 := Nat.mod_lt (n + c - 1) hc
  rw [Nat.mul_comm]
  omega

theorem numChunks_lt {n c i : ℕ} (hc : 0 < c) (hi : i < numChunks n c) : i * c < n := by
  unfold numChunks at hi
  have : (i + 1) * c ≤ n + c - 1 := by
    calc (i + 1) * c ≤ (n + c - 1) / c * c := Nat.mul_le_mul_right _ hi
      _ ≤ n + c - 1 := Nat.div_mul_le_self _ _
  rw [Nat.add_mul] at this
  omega

theorem lt_numChunks {n c i : ℕ} (hc : 0 < c) (hi : i < n) : i / c < numChunks n c := by
  rw [Nat.div_lt_iff_lt_mul hc]
  exact lt_of_lt_of_le hi (numChunks_le hc)

theorem length_chunks {α : Type} (c : ℕ) (l : List α) : (chunks c l).length = numChunks l.length c := by
  simp [chunks]

theorem chunks_tab {α : Type} (c n : ℕ) (g : ℕ → α) :
    chunks c (tab n g) =
      tab (numChunks n c) (fun i => tab (min c (n - i * c)) (fun j => g (i * c + j))) := by
  simp only [chunks, length_tab]
  apply tab_congr
  intro i _
  rw [drop_tab, take_tab]

theorem mapIdx_tab {α β : Type} (f : ℕ → α → β) (n : ℕ) (g : ℕ → α) :
    (tab n g).mapIdx f = tab n (fun i => f i (g i)) := by
  apply eq_tab_of_getElem? (by simp)
  intro i hi
  simp [getElem?_tab, hi]

/-- Chunks in order concatenate to the whole table. -/
theorem flatten_chunks_tab {β : Type} {c : ℕ} (hc : 0 < c) (n : ℕ) (h : ℕ → β) :
    (tab (numChunks n c) (fun i => tab (min c (n - i * c)) (fun j => h (i * c + j)))).flatten
      = tab n h := by
  -- prove: first k chunks give the first min (k*c) n elements
  have key : ∀ k, k ≤ numChunks n c →
      (tab k (fun i => tab (min c (n - i * c)) (fun j => h (i * c + j)))).flatten
        = tab (min (k * c) n) h := by
    intro k
    induction k with
    | zero => intro _; simp
    | succ k ih =>
      intro hk
      rw [tab_succ, List.flatten_append, ih (by omega)]
      have hlt : k * c < n := numChunks_lt hc (by omega)
      have e1 : min (k * c) n = k * c := by omega
      have e2 : min ((k + 1) * c) n = k * c + min c (n - k * c) := by
        rw [Nat.add_mul]; omega
      rw [e1, e2, tab_add]
      simp
  rw [key _ (le_refl _)]
  congr 1
  have := numChunks_le (n := n) hc
  omega

theorem parChunks_tab {α β : Type} (w : Worker) (n : ℕ) (g : ℕ → α) (f : ℕ → ℕ → List α → List β)
    (h : ℕ → β)
    (hf : ∀ c i, 0 < c → c = w.chunkSize n → i * c < n →
      f c i (tab (min c (n - i * c)) (fun j => g (i * c + j)))
        = tab (min c (n - i * c)) (fun j => h (i * c + j))) :
    parChunks w (tab n g) f = tab n h := by
  unfold parChunks
  simp only [length_tab]
  have hc := w.chunkSize_pos n
  rw [chunks_tab, mapIdx_tab, ← flatten_chunks_tab hc n h]
  congr 1
  apply tab_congr
  intro i hi
  exact hf _ i hc rfl (numChunks_lt hc hi)

theorem zipUpdate_tab {α β : Type} (f : α → β → α) (m n : ℕ) (g : ℕ → α) (h : ℕ → β) :
    zipUpdate f (tab m g) (tab n h) = tab m (fun i => if i < n then f (g i) (h i) else g i) := by
  induction m generalizing n g h with
  | zero => cases n <;> simp [zipUpdate, tab]
  | succ m ih =>
    cases n with
    | zero =>
      have : zipUpdate f (tab (m+1) g) (tab 0 h) = tab (m+1) g := by
        rw [tab_succ']; rfl
      rw [this]; apply tab_congr; intro i _; simp
    | succ n =>
      rw [tab_succ', tab_succ' n, zipUpdate, ih, tab_succ' m]
      simp

theorem parChunksZip_tab {α β : Type} (w : Worker) (e m n : ℕ) (g : ℕ → α) (h : ℕ → β)
    (f : α → β → α) :
    parChunksZip w e (tab m g) (tab n h) (zipUpdate f)
      = tab m (fun i => if i < n then f (g i) (h i) else g i) := by
  unfold parChunksZip
  have hc := w.chunkSize_pos e
  generalize w.chunkSize e = c at hc
  simp only
  rw [chunks_tab c m, mapIdx_tab, chunks_tab c n,
    ← flatten_chunks_tab hc m (fun i => if i < n then f (g i) (h i) else g i)]
  congr 1
  apply tab_congr
  intro i hi
  rw [getElem?_tab]
  have hm := numChunks_lt hc hi
  by_cases hin : i < numChunks n c
  · simp only [hin, if_true]
    rw [zipUpdate_tab]
    apply tab_congr
    intro j hj
    have : j < min c (n - i * c) ↔ i * c + j < n := by omega
    simp only [this]
  · simp only [hin, if_false]
    apply tab_congr
    intro j hj
    have hn : n ≤ i * c := by
      have h1 := numChunks_le (n := n) hc
      have h2 : numChunks n c * c ≤ i * c := Nat.mul_le_mul_right _ (by omega)
      omega
    have : ¬ (i * c + j < n) := by omega
    simp [this]

end Hodor

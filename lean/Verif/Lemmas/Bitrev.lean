import Verif.Model.Fft
import Mathlib.Tactic.Ring
import Mathlib.Tactic.Linarith

namespace Hodor

theorem bitrevLoop_eq (l n r : ℕ) : bitrevLoop l n r = r * 2 ^ l + bitrevLoop l n 0 := by
  induction l generalizing n r with
  | zero => simp [bitrevLoop]
  | succ l ih =>
    rw [bitrevLoop, bitrevLoop, ih, ih (n / 2) (2 * 0 + n % 2)]
    ring

@[simp] theorem bitreverse_zero (n : ℕ) : bitreverse n 0 = 0 := rfl

theorem bitreverse_succ (n l : ℕ) : bitreverse n (l + 1) = (n % 2) * 2 ^ l + bitreverse (n / 2) l := by
  unfold bitreverse
  rw [bitrevLoop, bitrevLoop_eq]
  simp

theorem bitreverse_lt (n l : ℕ) : bitreverse n l < 2 ^ l := by
  induction l generalizing n with
  | zero => simp
  | succ l ih =>
    rw [bitreverse_succ, Nat.pow_succ]
    have := ih (n / 2)
    have h2 : n % 2 < 2 := Nat.mod_lt _ (by omega)
    have : n % 2 = 0 ∨ n % 2 = 1 := by omega
    rcases this with h | h <;> rw [h] <;> omega

theorem bitreverse_succ' (n l : ℕ) :
    bitreverse n (l + 1) = 2 * bitreverse (n % 2 ^ l) l + (n / 2 ^ l) % 2 := by
  induction l generalizing n with
  | zero => simp [bitreverse_succ]
  | succ l ih =>
    rw [bitreverse_succ, ih (n / 2), bitreverse_succ (n % 2 ^ (l + 1)) l]
    have e1 : n % 2 ^ (l + 1) % 2 = n % 2 := by
      apply Nat.mod_mod_of_dvd
      exact ⟨2 ^ l, by ring⟩
    have e2 : n % 2 ^ (l + 1) / 2 = (n / 2) % 2 ^ l := by
      rw [Nat.pow_succ, Nat.mul_comm, Nat.mod_mul_right_div_self]
    have e3 : n / 2 / 2 ^ l = n / 2 ^ (l + 1) := by
      rw [Nat.div_div_eq_div_mul, Nat.pow_succ, Nat.mul_comm]
    rw [e1, e2, e3]
    ring

theorem bitreverse_bitreverse (n l : ℕ) (h : n < 2 ^ l) : bitreverse (bitreverse n l) l = n := by
  induction l generalizing n with
  | zero => simp at h; subst h; rfl
  | succ l ih =>
    have hq : n / 2 < 2 ^ l := by rw [Nat.pow_succ] at h; omega
    rw [bitreverse_succ n l, bitreverse_succ']
    have hlt := bitreverse_lt (n / 2) l
    have e1 : (n % 2 * 2 ^ l + bitreverse (n / 2) l) % 2 ^ l = bitreverse (n / 2) l := by
      rw [Nat.add_comm, Nat.add_mul_mod_self_right, Nat.mod_eq_of_lt hlt]
    have e2 : (n % 2 * 2 ^ l + bitreverse (n / 2) l) / 2 ^ l = n % 2 := by
      rw [Nat.add_comm, Nat.add_mul_div_right _ _ (by positivity), Nat.div_eq_of_lt hlt, Nat.zero_add]
    rw [e1, e2, ih _ hq]
    omega

theorem swapAt_tab {α : Type} {n : ℕ} {g : ℕ → α} {i j : ℕ} (hi : i < n) (hj : j < n) :
    swapAt (tab n g) i j = .ok (tab n (fun k => if k = i then g j else if k = j then g i else g k)) := by
  unfold swapAt
  simp only [rd_tab hi, rd_tab hj, wr_tab hi, wr_tab hj, Res.ok_bind]
  congr 1
  apply tab_congr
  intro k _
  by_cases h1 : k = j
  · subst h1
    by_cases h2 : k = i
    · subst h2; simp
    · simp [h2]
  · simp [h1]

/-- One iteration of the swap loop. -/
theorem bitrevPermute_step {α : Type} {L k : ℕ} {g : ℕ → α} (hk' : k < 2 ^ L) :
    (if k < bitreverse k L then swapAt (tab (2 ^ L) (fun i =>
        if i < k ∨ bitreverse i L < k then g (bitreverse i L) else g i)) (bitreverse k L) k
      else .ok (tab (2 ^ L) (fun i => if i < k ∨ bitreverse i L < k then g (bitreverse i L) else g i)))
    = .ok (tab (2 ^ L) (fun i => if i < k + 1 ∨ bitreverse i L < k + 1 then g (bitreverse i L) else g i)) := by
  have hrk := bitreverse_lt k L
  have hrr := bitreverse_bitreverse k L hk'
  split
  · rename_i hlt
    rw [swapAt_tab hrk hk']
    congr 1
    apply tab_congr
    intro i hi
    have hirr := bitreverse_bitreverse i L hi
    by_cases h1 : i = bitreverse k L
    · subst h1
      simp only [if_true]
      have : ¬ (k < k ∨ bitreverse k L < k) := by omega
      rw [if_neg this, hrr, if_pos (by right; omega)]
    · by_cases h2 : i = k
      · subst h2
        simp only [h1, if_false, if_true]
        rw [if_neg (by rw [hrr]; omega), if_pos (by omega)]
      · simp only [h1, h2, if_false]
        have h3 : bitreverse i L ≠ k := by
          intro h; apply h1; rw [← h, hirr]
        have : (i < k ∨ bitreverse i L < k) ↔ (i < k + 1 ∨ bitreverse i L < k + 1) := by omega
        simp only [this]
  · rename_i hlt
    congr 1
    apply tab_congr
    intro i hi
    have hirr := bitreverse_bitreverse i L hi
    by_cases h2 : i = k
    · subst h2
      rw [if_pos (show i < i + 1 ∨ _ by omega)]
      by_cases h3 : bitreverse i L = i
      · rw [h3]; simp
      · rw [if_pos (by right; omega)]
    · have : (i < k ∨ bitreverse i L < k) ↔ (i < k + 1 ∨ bitreverse i L < k + 1) := by
        by_cases h3 : bitreverse i L = k
        · have : i = bitreverse k L := by rw [← h3, hirr]
          have : i ≤ k := by omega
          omega
        · omega
      simp only [this]

/-- The swap loop applies the bit-reversal permutation. -/
theorem bitrevPermute_tab {α : Type} (L : ℕ) (g : ℕ → α) :
    bitrevPermute (tab (2 ^ L) g) (2 ^ L) L
      = .ok (tab (2 ^ L) (fun i => g (bitreverse i L))) := by
  unfold bitrevPermute
  have key := forN_eq
    (f := fun k => tab (2 ^ L) (fun i =>
      if i < k ∨ bitreverse i L < k then g (bitreverse i L) else g i))
    (fun k a => if k < bitreverse k L then swapAt a (bitreverse k L) k else .ok a) (2 ^ L) 0 ?_
  · simp only [Nat.not_lt_zero, or_self, if_false, Nat.zero_add] at key
    rw [key]
    congr 1
    apply tab_congr
    intro i hi
    simp [hi]
  · intro k _ hk
    exact bitrevPermute_step (by omega)

end Hodor

import Verif.Lemmas.FftKernels
import Mathlib.Tactic.LinearCombination

/-! # Radix-4 transform -/

namespace Hodor

open Finset

variable {F : Type} [Field F]

/-! ## Digit reversal -/

theorem digitrevLoop_eq (l n r : ℕ) : digitrevLoop l n r = r * 4 ^ l + digitrevLoop l n 0 := by
  induction l generalizing n r with
  | zero => simp [digitrevLoop]
  | succ l ih =>
    rw [digitrevLoop, digitrevLoop, ih, ih (n / 4) (4 * 0 + n % 4)]
    ring

@[simp] theorem digitReverse_zero (n : ℕ) : digitReverse n 0 = 0 := rfl

theorem digitReverse_succ (n l : ℕ) : digitReverse n (l + 1) = (n % 4) * 4 ^ l + digitReverse (n / 4) l := by
  unfold digitReverse
  rw [digitrevLoop, digitrevLoop_eq]
  simp

theorem digitReverse_lt (n l : ℕ) : digitReverse n l < 4 ^ l := by
  induction l generalizing n with
  | zero => simp
  | succ l ih =>
    rw [digitReverse_succ, Nat.pow_succ]
    have := ih (n / 4)
    have : n % 4 = 0 ∨ n % 4 = 1 ∨ n % 4 = 2 ∨ n % 4 = 3 := by omega
    rcases this with h | h | h | h <;> rw [h] <;> omega

theorem digitReverse_succ' (n l : ℕ) :
    digitReverse n (l + 1) = 4 * digitReverse (n % 4 ^ l) l + (n / 4 ^ l) % 4 := by
  induction l generalizing n with
  | zero => simp [digitReverse_succ]
  | succ l ih =>
    rw [digitReverse_succ, ih (n / 4), digitReverse_succ (n % 4 ^ (l + 1)) l]
    have e1 : n % 4 ^ (l + 1) % 4 = n % 4 := by
      apply Nat.mod_mod_of_dvd
      exact ⟨4 ^ l, by ring⟩
    have e2 : n % 4 ^ (l + 1) / 4 = (n / 4) % 4 ^ l := by
      rw [Nat.pow_succ, Nat.mul_comm, Nat.mod_mul_right_div_self]
    have e3 : n / 4 / 4 ^ l = n / 4 ^ (l + 1) := by
      rw [Nat.div_div_eq_div_mul, Nat.pow_succ, Nat.mul_comm]
    rw [e1, e2, e3]
    ring

theorem digitReverse_digitReverse (n l : ℕ) (h : n < 4 ^ l) : digitReverse (digitReverse n l) l = n := by
  induction l generalizing n with
  | zero => simp at h; subst h; rfl
  | succ l ih =>
    have hq : n / 4 < 4 ^ l := by rw [Nat.pow_succ] at h; omega
    rw [digitReverse_succ n l, digitReverse_succ']
    have hlt := digitReverse_lt (n / 4) l
    have e1 : (n % 4 * 4 ^ l + digitReverse (n / 4) l) % 4 ^ l = digitReverse (n / 4) l := by
      rw [Nat.add_comm, Nat.add_mul_mod_self_right, Nat.mod_eq_of_lt hlt]
    have e2 : (n % 4 * 4 ^ l + digitReverse (n / 4) l) / 4 ^ l = n % 4 := by
      rw [Nat.add_comm, Nat.add_mul_div_right _ _ (by positivity), Nat.div_eq_of_lt hlt, Nat.zero_add]
    rw [e1, e2, ih _ hq]
    omega

/-- A swap loop over an involution applies it. -/
theorem involPermute_tab {α : Type} (n : ℕ) (rev : ℕ → ℕ) (hlt : ∀ i, i < n → rev i < n)
    (hinv : ∀ i, i < n → rev (rev i) = i) (g : ℕ → α) :
    forN n 0 (tab n g) (fun k a => if k < rev k then swapAt a (rev k) k else .ok a)
      = .ok (tab n (fun i => g (rev i))) := by
  have key := forN_eq
    (f := fun k => tab n (fun i => if i < k ∨ rev i < k then g (rev i) else g i))
    (fun k a => if k < rev k then swapAt a (rev k) k else .ok a) n 0 ?_
  · simp only [Nat.not_lt_zero, or_self, if_false, Nat.zero_add] at key
    rw [key]
    congr 1
    apply tab_congr
    intro i hi
    simp [hi]
  · intro k _ hk
    have hk' : k < n := by omega
    have hrk := hlt k hk'
    have hrr := hinv k hk'
    split
    · rename_i hlt
      rw [swapAt_tab hrk hk']
      congr 1
      apply tab_congr
      intro i hi
      have hirr := hinv i hi
      by_cases h1 : i = rev k
      · subst h1
        simp only [if_true]
        have : ¬ (k < k ∨ rev k < k) := by omega
        rw [if_neg this, hrr, if_pos (by right; omega)]
      · by_cases h2 : i = k
        · subst h2
          simp only [h1, if_false, if_true]
          rw [if_neg (by rw [hrr]; omega), if_pos (by omega)]
        · simp only [h1, h2, if_false]
          have h3 : rev i ≠ k := by
            intro h; apply h1; rw [← h, hirr]
          have : (i < k ∨ rev i < k) ↔ (i < k + 1 ∨ rev i < k + 1) := by omega
          simp only [this]
    · rename_i hlt
      congr 1
      apply tab_congr
      intro i hi
      have hirr := hinv i hi
      by_cases h2 : i = k
      · subst h2
        rw [if_pos (show i < i + 1 ∨ _ by omega)]
        by_cases h3 : rev i = i
        · rw [h3]; simp
        · rw [if_pos (by right; omega)]
      · have : (i < k ∨ rev i < k) ↔ (i < k + 1 ∨ rev i < k + 1) := by
          by_cases h3 : rev i = k
          · have : i = rev k := by rw [← h3, hirr]
            have : i ≤ k := by omega
            omega
          · omega
        simp only [this]

theorem digitrevPermute_tab {α : Type} (K : ℕ) (g : ℕ → α) :
    digitrevPermute (tab (4 ^ K) g) (4 ^ K) K = .ok (tab (4 ^ K) (fun i => g (digitReverse i K))) :=
  involPermute_tab (4 ^ K) (digitReverse · K) (fun i _ => digitReverse_lt i K)
    (fun i hi => digitReverse_digitReverse i K hi) g

/-! ## Rounds -/

/-- Output `q` of the radix-4 butterfly on `x0, x1, x2, x3`. -/
def r4 (v x0 x1 x2 x3 : F) (q : ℕ) : F :=
  if q = 0 then x0 + x2 + (x1 + x3) else if q = 1 then x0 - x2 + (x1 - x3) * v
  else if q = 2 then x0 + x2 - (x1 + x3) else x0 - x2 - (x1 - x3) * v

theorem radix4Butterfly_tab {n m i : ℕ} {g : ℕ → F} {v w : F} (hm : 0 < m) (hi : i + 3 * m < n) :
    radix4Butterfly (tab n g) i m v w = .ok (tab n (fun k =>
      if k = i then r4 v (g i) (g (i + m) * w) (g (i + 2 * m) * (w * w)) (g (i + 3 * m) * (w * w * w)) 0
      else if k = i + m then r4 v (g i) (g (i + m) * w) (g (i + 2 * m) * (w * w)) (g (i + 3 * m) * (w * w * w)) 1
      else if k = i + 2 * m then r4 v (g i) (g (i + m) * w) (g (i + 2 * m) * (w * w)) (g (i + 3 * m) * (w * w * w)) 2
      else if k = i + 3 * m then r4 v (g i) (g (i + m) * w) (g (i + 2 * m) * (w * w)) (g (i + 3 * m) * (w * w * w)) 3
      else g k)) := by
  unfold radix4Butterfly
  have h0 : i < n := by omega
  have h1 : i + m < n := by omega
  have h2 : i + 2 * m < n := by omega
  simp only [rd_tab h0, rd_tab h1, rd_tab h2, rd_tab hi, wr_tab h0, wr_tab h1, wr_tab h2, wr_tab hi, Res.ok_bind, r4]
  congr 1
  apply tab_congr
  intro k _
  by_cases c0 : k = i
  · rw [if_neg (by omega), if_neg (by omega), if_neg (by omega)]; simp [c0]
  by_cases c1 : k = i + m
  · rw [if_neg (by omega), if_pos c1, if_neg c0, if_pos c1]; simp
  by_cases c2 : k = i + 2 * m
  · rw [if_neg (by omega), if_neg c1, if_pos c2, if_neg c0, if_neg c1, if_pos c2]; simp
  by_cases c3 : k = i + 3 * m
  · rw [if_pos c3, if_neg c0, if_neg c1, if_neg c2, if_pos c3]; simp
  simp [c0, c1, c2, c3]

/-- Output `q` of the butterfly at position `p`, with twiddle `w`. -/
def r4at (m : ℕ) (v w : F) (g : ℕ → F) (p q : ℕ) : F :=
  r4 v (g p) (g (p + m) * w) (g (p + 2 * m) * (w * w)) (g (p + 3 * m) * (w * w * w)) q

/-- Effect of one round. -/
def radix4F (m : ℕ) (v wm : F) (g : ℕ → F) (i : ℕ) : F :=
  r4at m v (wm ^ (i % (4 * m) % m)) g (i - i % (4 * m) / m * m) (i % (4 * m) / m)

theorem radix4Block_tab {n m b : ℕ} (hb : 4 * m * (b + 1) ≤ n) (g : ℕ → F) (v wm : F) :
    radix4Block (tab n g) (4 * m * b) m v wm = .ok (tab n (fun i =>
      if 4 * m * b ≤ i ∧ i < 4 * m * (b + 1) then radix4F m v wm g i else g i)) := by
  unfold radix4Block
  set k := 4 * m * b with hk
  have hk2 : 4 * m * (b + 1) = k + 4 * m := by rw [hk]; ring
  rw [hk2] at hb ⊢
  have key := forN_eq
    (f := fun j => (tab n (fun i =>
      if k ≤ i ∧ i < k + j then r4at m v (wm ^ (i - k)) g i 0
      else if k + m ≤ i ∧ i < k + m + j then r4at m v (wm ^ (i - m - k)) g (i - m) 1
      else if k + 2 * m ≤ i ∧ i < k + 2 * m + j then r4at m v (wm ^ (i - 2 * m - k)) g (i - 2 * m) 2
      else if k + 3 * m ≤ i ∧ i < k + 3 * m + j then r4at m v (wm ^ (i - 3 * m - k)) g (i - 3 * m) 3
      else g i), wm ^ j))
    (fun j (aw : List F × F) => do
      let a ← radix4Butterfly aw.1 (k + j) m v aw.2
      pure (a, aw.2 * wm)) m 0 ?_
  · have h0 : (fun i => if k ≤ i ∧ i < k + 0 then r4at m v (wm ^ (i - k)) g i 0
      else if k + m ≤ i ∧ i < k + m + 0 then r4at m v (wm ^ (i - m - k)) g (i - m) 1
      else if k + 2 * m ≤ i ∧ i < k + 2 * m + 0 then r4at m v (wm ^ (i - 2 * m - k)) g (i - 2 * m) 2
      else if k + 3 * m ≤ i ∧ i < k + 3 * m + 0 then r4at m v (wm ^ (i - 3 * m - k)) g (i - 3 * m) 3
      else g i) = g := by
      funext i
      rw [if_neg (by omega), if_neg (by omega), if_neg (by omega), if_neg (by omega)]
    rw [h0, pow_zero] at key
    simp only at key ⊢
    rw [key]
    simp only [Res.ok_bind, Res.pure_def, Nat.zero_add]
    congr 1
    apply tab_congr
    intro i hi
    by_cases h1 : k ≤ i ∧ i < k + 4 * m
    · rw [if_pos h1]
      have hmod : i % (4 * m) = i - k := by
        have : i = (i - k) + 4 * m * b := by omega
        conv_lhs => rw [this]
        rw [Nat.add_mul_mod_self_left, Nat.mod_eq_of_lt (by omega)]
      unfold radix4F
      rw [hmod]
      have hq : ∀ q r, r < m → (m * q + r) / m = q ∧ (m * q + r) % m = r := fun q r hr =>
        ⟨by rw [Nat.mul_add_div (by omega), Nat.div_eq_of_lt hr, Nat.add_zero], by
          rw [Nat.mul_add_mod, Nat.mod_eq_of_lt hr]⟩
      by_cases c0 : i < k + m
      · obtain ⟨a, b⟩ := hq 0 (i - k) (by omega)
        rw [if_pos (by omega)]
        rw [Nat.mul_zero, Nat.zero_add] at a b
        rw [a, b, Nat.zero_mul, Nat.sub_zero]
      by_cases c1 : i < k + 2 * m
      · obtain ⟨a, b⟩ := hq 1 (i - m - k) (by omega)
        rw [if_neg (by omega), if_pos (by omega)]
        rw [show m * 1 + (i - m - k) = i - k by omega] at a b
        rw [a, b, Nat.one_mul]
      by_cases c2 : i < k + 3 * m
      · obtain ⟨a, b⟩ := hq 2 (i - 2 * m - k) (by omega)
        rw [if_neg (by omega), if_neg (by omega), if_pos (by omega)]
        rw [show m * 2 + (i - 2 * m - k) = i - k by omega] at a b
        rw [a, b]
      · obtain ⟨a, b⟩ := hq 3 (i - 3 * m - k) (by omega)
        rw [if_neg (by omega), if_neg (by omega), if_neg (by omega), if_pos (by omega)]
        rw [show m * 3 + (i - 3 * m - k) = i - k by omega] at a b
        rw [a, b]
    · rw [if_neg h1, if_neg (by omega), if_neg (by omega), if_neg (by omega), if_neg (by omega)]
  · intro j _ hj
    have hj : j < m := by omega
    simp only
    rw [radix4Butterfly_tab (by omega) (by omega)]
    simp only [Res.ok_bind, Res.pure_def]
    rw [pow_succ]
    congr 2
    apply tab_congr
    intro i hi
    have G : ∀ c, c ≤ 3 → (if k ≤ k + j + c * m ∧ k + j + c * m < k + j then r4at m v (wm ^ (k + j + c * m - k)) g (k + j + c * m) 0
      else if k + m ≤ k + j + c * m ∧ k + j + c * m < k + m + j then r4at m v (wm ^ (k + j + c * m - m - k)) g (k + j + c * m - m) 1
      else if k + 2 * m ≤ k + j + c * m ∧ k + j + c * m < k + 2 * m + j then r4at m v (wm ^ (k + j + c * m - 2 * m - k)) g (k + j + c * m - 2 * m) 2
      else if k + 3 * m ≤ k + j + c * m ∧ k + j + c * m < k + 3 * m + j then r4at m v (wm ^ (k + j + c * m - 3 * m - k)) g (k + j + c * m - 3 * m) 3
      else g (k + j + c * m)) = g (k + j + c * m) := by
      intro c hc
      have : c = 0 ∨ c = 1 ∨ c = 2 ∨ c = 3 := by omega
      rcases this with rfl | rfl | rfl | rfl <;>
        rw [if_neg (by omega), if_neg (by omega), if_neg (by omega), if_neg (by omega)]
    have G0 := G 0 (by omega)
    have G1 := G 1 (by omega)
    have G2 := G 2 (by omega)
    have G3 := G 3 (by omega)
    rw [Nat.zero_mul, Nat.add_zero] at G0
    rw [Nat.one_mul] at G1
    rw [G0, G1, G2, G3]
    by_cases c0 : i = k + j
    · subst c0
      rw [if_pos rfl, if_pos (by omega), show k + j - k = j by omega]
      rfl
    rw [if_neg c0]
    by_cases c1 : i = k + j + m
    · subst c1
      rw [if_pos rfl, if_neg (by omega), if_pos (by omega), show k + j + m - m - k = j by omega,
        show k + j + m - m = k + j by omega]
      rfl
    rw [if_neg c1]
    by_cases c2 : i = k + j + 2 * m
    · subst c2
      rw [if_pos rfl, if_neg (by omega), if_neg (by omega), if_pos (by omega), show k + j + 2 * m - 2 * m - k = j by omega,
        show k + j + 2 * m - 2 * m = k + j by omega]
      rfl
    rw [if_neg c2]
    by_cases c3 : i = k + j + 3 * m
    · subst c3
      rw [if_pos rfl, if_neg (by omega), if_neg (by omega), if_neg (by omega), if_pos (by omega),
        show k + j + 3 * m - 3 * m - k = j by omega, show k + j + 3 * m - 3 * m = k + j by omega]
      rfl
    rw [if_neg c3]
    have e0 : (k ≤ i ∧ i < k + j) ↔ (k ≤ i ∧ i < k + (j + 1)) := by omega
    have e1 : (k + m ≤ i ∧ i < k + m + j) ↔ (k + m ≤ i ∧ i < k + m + (j + 1)) := by omega
    have e2 : (k + 2 * m ≤ i ∧ i < k + 2 * m + j) ↔ (k + 2 * m ≤ i ∧ i < k + 2 * m + (j + 1)) := by omega
    have e3 : (k + 3 * m ≤ i ∧ i < k + 3 * m + j) ↔ (k + 3 * m ≤ i ∧ i < k + 3 * m + (j + 1)) := by omega
    simp only [e0, e1, e2, e3]

theorem radix4Round_tab {n m B : ℕ} (hm : 0 < m) (hn : n = 4 * m * B) (g : ℕ → F) (v ω : F) :
    radix4Round (tab n g) n m v ω = .ok (tab n (radix4F m v (ω ^ (n / (4 * m))) g)) := by
  unfold radix4Round
  have hB : numChunks n (4 * m) = B := by
    unfold numChunks
    rw [hn]
    have : 4 * m * B + 4 * m - 1 = (4 * m - 1) + 4 * m * B := by omega
    rw [this, Nat.add_mul_div_left _ _ (by omega), Nat.div_eq_of_lt (by omega), Nat.zero_add]
  rw [hB]
  simp only
  set wm := ω ^ (n / (4 * m))
  have key := forN_eq
    (f := fun b => tab n (fun i => if i < 4 * m * b then radix4F m v wm g i else g i))
    (fun b a => radix4Block a (4 * m * b) m v wm) B 0 ?_
  · simp only [Nat.mul_zero, Nat.not_lt_zero, if_false, Nat.zero_add] at key
    rw [key]
    congr 1
    apply tab_congr
    intro i hi
    rw [if_pos (by omega)]
  · intro b _ hb
    have hle : 4 * m * (b + 1) ≤ n := by
      rw [hn]; exact Nat.mul_le_mul_left _ (by omega)
    rw [radix4Block_tab hle]
    congr 1
    apply tab_congr
    intro i hi
    have hk2 : 4 * m * (b + 1) = 4 * m * b + 4 * m := by ring
    by_cases h1 : i < 4 * m * b
    · rw [if_neg (by omega), if_pos h1, if_pos (by omega)]
    · by_cases h2 : i < 4 * m * (b + 1)
      · rw [if_pos (by omega), if_pos h2]
        unfold radix4F r4at
        have hmod : i % (4 * m) = i - 4 * m * b := by
          have : i = (i - 4 * m * b) + 4 * m * b := by omega
          conv_lhs => rw [this]
          rw [Nat.add_mul_mod_self_left, Nat.mod_eq_of_lt (by omega)]
        rw [hmod]
        have hdm := Nat.div_mul_le_self (i - 4 * m * b) m
        simp only
        rw [if_neg (by omega), if_neg (by omega), if_neg (by omega), if_neg (by omega)]
      · rw [if_neg (by omega), if_neg h1, if_neg h2]

theorem sum_range_four_mul {M : Type} [AddCommMonoid M] (m : ℕ) (f : ℕ → M) :
    ∑ t ∈ range (4 * m), f t = ∑ t ∈ range m, (f (4 * t) + f (4 * t + 1) + f (4 * t + 2) + f (4 * t + 3)) := by
  induction m with
  | zero => simp
  | succ m ih =>
    rw [show 4 * (m + 1) = 4 * m + 1 + 1 + 1 + 1 by ring, sum_range_succ, sum_range_succ, sum_range_succ, sum_range_succ,
      ih, sum_range_succ]
    simp only [add_assoc]

/-- State after `s` rounds. -/
def r4Inv (x : ℕ → F) (ω : F) (K s i : ℕ) : F :=
  ∑ t ∈ range (4 ^ s), x (t * 4 ^ (K - s) + digitReverse (i / 4 ^ s) (K - s))
    * ω ^ (4 ^ (K - s) * (t * (i % 4 ^ s)))

theorem r4Inv_step (x : ℕ → F) (ω : F) (K s : ℕ) (hs : s < K) (hω : ω ^ (2 * 4 ^ (K - 1)) = -1) (i : ℕ) :
    radix4F (4 ^ s) (ω ^ 4 ^ (K - 1)) (ω ^ (4 ^ K / (4 * 4 ^ s))) (r4Inv x ω K s) i = r4Inv x ω K (s + 1) i := by
  obtain ⟨d, rfl⟩ : ∃ d, K = s + 1 + d := ⟨K - s - 1, by omega⟩
  have hm : 0 < 4 ^ s := by positivity
  have hpw : 4 ^ (s + 1 + d) / (4 * 4 ^ s) = 4 ^ d := by
    rw [show 4 * 4 ^ s = 4 ^ (s + 1) by ring, pow_add, Nat.mul_div_cancel_left _ (by positivity)]
  rw [hpw]
  have hv : ω ^ 4 ^ (s + 1 + d - 1) = (ω ^ 4 ^ d) ^ 4 ^ s := by
    rw [← pow_mul, ← pow_add]; congr 2; omega
  have hv2 : ((ω ^ 4 ^ d) ^ 4 ^ s) ^ 2 = -1 := by
    rw [← hv, ← pow_mul, mul_comm]; exact hω
  rw [hv]
  set m := 4 ^ s with hmdef
  set W := ω ^ 4 ^ d with hW
  set v := W ^ m with hvdef
  have e1 : s + 1 + d - s = d + 1 := by omega
  have e2 : s + 1 + d - (s + 1) = d := by omega
  obtain ⟨b, q, r, hq, hr, rfl⟩ : ∃ b q r, q < 4 ∧ r < m ∧ i = 4 * m * b + (m * q + r) := by
    refine ⟨i / (4 * m), i % (4 * m) / m, i % (4 * m) % m, ?_, Nat.mod_lt _ hm, ?_⟩
    · rw [Nat.div_lt_iff_lt_mul hm]; exact Nat.mod_lt _ (by omega)
    · rw [Nat.div_add_mod, Nat.div_add_mod]
  have hqr : m * q + r < 4 * m := by
    calc m * q + r < m * q + m := by omega
      _ = m * (q + 1) := by ring
      _ ≤ m * 4 := Nat.mul_le_mul_left _ hq
      _ = 4 * m := by ring
  have hmod : (4 * m * b + (m * q + r)) % (4 * m) = m * q + r := by
    rw [Nat.mul_add_mod, Nat.mod_eq_of_lt hqr]
  have hdiv : (4 * m * b + (m * q + r)) / (4 * m) = b := by
    rw [Nat.mul_add_div (by omega), Nat.div_eq_of_lt hqr, Nat.add_zero]
  -- left-hand side values
  have hL : ∀ c, c < 4 → r4Inv x ω (s + 1 + d) s (m * (4 * b + c) + r)
      = ∑ t ∈ range m, x (t * 4 ^ (d + 1) + (c * 4 ^ d + digitReverse b d)) * W ^ (4 * t * r) := by
    intro c hc
    unfold r4Inv
    rw [e1, ← hmdef]
    apply sum_congr rfl
    intro t _
    have hdiv : (m * (4 * b + c) + r) / m = 4 * b + c := by
      rw [Nat.mul_add_div hm, Nat.div_eq_of_lt hr, Nat.add_zero]
    have hmod' : (m * (4 * b + c) + r) % m = r := by
      rw [Nat.mul_add_mod, Nat.mod_eq_of_lt hr]
    rw [hdiv, hmod', digitReverse_succ, show (4 * b + c) % 4 = c by omega, show (4 * b + c) / 4 = b by omega, hW]
    congr 1
    rw [← pow_mul]; congr 1; ring
  have hper : ∀ t, W ^ (4 * t * (m * q)) = 1 := by
    intro t
    rw [show 4 * t * (m * q) = m * (2 * (2 * (t * q))) by ring, pow_mul, ← hvdef, pow_mul, hv2, pow_mul]
    simp
  -- right-hand side
  have hR : r4Inv x ω (s + 1 + d) (s + 1) (4 * m * b + (m * q + r))
      = ∑ t ∈ range m, (x (t * 4 ^ (d + 1) + (0 * 4 ^ d + digitReverse b d)) * W ^ (4 * t * r)
        + x (t * 4 ^ (d + 1) + (1 * 4 ^ d + digitReverse b d)) * W ^ (4 * t * r) * (v ^ q * W ^ r)
        + x (t * 4 ^ (d + 1) + (2 * 4 ^ d + digitReverse b d)) * W ^ (4 * t * r) * (v ^ q * W ^ r) ^ 2
        + x (t * 4 ^ (d + 1) + (3 * 4 ^ d + digitReverse b d)) * W ^ (4 * t * r) * (v ^ q * W ^ r) ^ 3) := by
    unfold r4Inv
    rw [show 4 ^ (s + 1) = 4 * m by rw [hmdef]; ring, sum_range_four_mul, e2, hdiv, hmod]
    apply sum_congr rfl
    intro t _
    have P : ∀ c, ω ^ (4 ^ d * ((4 * t + c) * (m * q + r))) = W ^ (4 * t * r) * (v ^ q * W ^ r) ^ c := by
      intro c
      rw [pow_mul, ← hW, show (4 * t + c) * (m * q + r) = 4 * t * (m * q) + 4 * t * r + (m * q + r) * c by ring,
        pow_add, pow_add, hper, one_mul, pow_mul W (m * q + r), pow_add W (m * q), pow_mul W m]
    have P0 := P 0
    rw [Nat.add_zero] at P0
    rw [P0, P 1, P 2, P 3]
    have X : ∀ c, (4 * t + c) * 4 ^ d + digitReverse b d = t * 4 ^ (d + 1) + (c * 4 ^ d + digitReverse b d) := by
      intro c; ring
    have X0 := X 0
    rw [Nat.add_zero] at X0
    rw [X0, X 1, X 2, X 3]
    ring
  rw [hR]
  unfold radix4F
  rw [hmod, Nat.mul_add_div hm, Nat.div_eq_of_lt hr, Nat.add_zero q, Nat.mul_add_mod, Nat.mod_eq_of_lt hr]
  have hbase : 4 * m * b + (m * q + r) - q * m = m * (4 * b + 0) + r := by
    have h1 : 4 * m * b = m * (4 * b + 0) := by ring
    have h2 : q * m = m * q := by ring
    omega
  rw [hbase]
  unfold r4at
  rw [show m * (4 * b + 0) + r + m = m * (4 * b + 1) + r by ring,
    show m * (4 * b + 0) + r + 2 * m = m * (4 * b + 2) + r by ring,
    show m * (4 * b + 0) + r + 3 * m = m * (4 * b + 3) + r by ring,
    hL 0 (by omega), hL 1 (by omega), hL 2 (by omega), hL 3 (by omega)]
  simp only [sum_add_distrib, ← sum_mul]
  generalize (∑ t ∈ range m, x (t * 4 ^ (d + 1) + (0 * 4 ^ d + digitReverse b d)) * W ^ (4 * t * r)) = y0
  generalize (∑ t ∈ range m, x (t * 4 ^ (d + 1) + (1 * 4 ^ d + digitReverse b d)) * W ^ (4 * t * r)) = y1
  generalize (∑ t ∈ range m, x (t * 4 ^ (d + 1) + (2 * 4 ^ d + digitReverse b d)) * W ^ (4 * t * r)) = y2
  generalize (∑ t ∈ range m, x (t * 4 ^ (d + 1) + (3 * 4 ^ d + digitReverse b d)) * W ^ (4 * t * r)) = y3
  generalize W ^ r = z
  have h3 : v ^ 3 = -v := by rw [pow_succ, hv2]; ring
  have hcases : q = 0 ∨ q = 1 ∨ q = 2 ∨ q = 3 := by omega
  unfold r4
  rcases hcases with rfl | rfl | rfl | rfl
  · simp only [if_true, pow_zero, one_mul]
    ring
  · simp only [if_true, one_ne_zero, if_false, pow_one]
    linear_combination (-(y2 * z ^ 2) - y3 * z ^ 3 * v) * hv2
  · simp only [if_true, if_false, OfNat.ofNat_ne_zero, show (2 : ℕ) ≠ 1 by decide, hv2]
    ring
  · simp only [if_false, OfNat.ofNat_ne_zero, show (3 : ℕ) ≠ 1 by decide, show (3 : ℕ) ≠ 2 by decide, h3]
    linear_combination (-(y2 * z ^ 2) + y3 * z ^ 3 * v) * hv2

theorem serialRadix4_tab (K : ℕ) (hK : 2 * K < 64) (ω : F) (hω : HalfNeg ω (2 * K)) (x : ℕ → F) :
    serialRadix4 (tab (2 ^ (2 * K)) x) ω (2 * K) = .ok (tab (2 ^ (2 * K)) (dftF ω (2 ^ (2 * K)) x)) := by
  have h4 : 2 ^ (2 * K) = 4 ^ K := by rw [pow_mul]; norm_num
  unfold serialRadix4
  simp only [length_tab, hK, decide_true, Res.assert_true, Res.ok_bind, Nat.mul_mod_right,
    show 2 * K / 2 = K by omega]
  rw [h4, digitrevPermute_tab]
  simp only [Res.ok_bind]
  have key := forN_eq
    (f := fun s => (tab (4 ^ K) (r4Inv x ω K s), 4 ^ s))
    (fun _ (am : List F × ℕ) => do
      let a ← radix4Round am.1 (4 ^ K) am.2 (ω ^ (4 ^ K / 4)) ω
      pure (a, am.2 * 4)) K 0 ?_
  · have h0 : tab (4 ^ K) (r4Inv x ω K 0) = tab (4 ^ K) (fun i => x (digitReverse i K)) := by
      apply tab_congr
      intro i hi
      simp [r4Inv]
    rw [h0, pow_zero] at key
    rw [key]
    simp only [Res.ok_bind, Res.pure_def, Nat.zero_add]
    congr 1
    apply tab_congr
    intro i hi
    unfold r4Inv dftF
    apply sum_congr rfl
    intro t _
    rw [Nat.sub_self, Nat.mod_eq_of_lt hi]
    simp
  · intro s _ hs
    have hs : s < K := by omega
    have hn : 4 ^ K = 4 * 4 ^ s * 4 ^ (K - s - 1) := by
      rw [← pow_succ', ← pow_add]; congr 1; omega
    rw [radix4Round_tab (by positivity) hn]
    simp only [Res.ok_bind, Res.pure_def]
    rw [pow_succ]
    congr 2
    apply tab_congr
    intro i hi
    have hd : 4 ^ K / 4 = 4 ^ (K - 1) := by
      rw [show K = K - 1 + 1 by omega, pow_succ, Nat.mul_div_cancel _ (by norm_num)]; simp
    rw [hd]
    apply r4Inv_step x ω K s hs
    have := hω (by omega)
    rw [show 2 * K - 1 = 2 * (K - 1) + 1 by omega, pow_succ, pow_mul 2 2] at this
    rw [mul_comm]
    exact this

theorem parallelRadix4_tab (w : Worker) (K c : ℕ) (hK : 2 * K < 64) (hc : c ≤ K) (ω : F)
    (hω : HalfNeg ω (2 * K)) (h1 : ω ^ 2 ^ (2 * K) = 1) (x : ℕ → F) :
    parallelRadix4 w (tab (2 ^ (2 * K)) x) ω (2 * K) (2 * c) = .ok (tab (2 ^ (2 * K)) (dftF ω (2 ^ (2 * K)) x)) := by
  unfold parallelRadix4
  have hc' : 2 * c ≤ 2 * K := by omega
  simp only [hc', decide_true, Res.assert_true, Res.ok_bind, length_tab, Nat.mul_mod_right]
  apply collectRows_tab w (2 * K) (2 * c) hc' ω h1 x
  intro j
  rw [shuffleRow_tab (2 * K) (2 * c) j hc' ω h1 x _ (fun i s hi _ hlt g e' => plainAdd_tab (2 * K) (2 * c) x i s hi hlt g e'),
    Res.ok_bind]
  have := hω.pow (2 * c) hc'
  rw [show 2 * K - 2 * c = 2 * (K - c) by omega] at this ⊢
  have := serialRadix4_tab (K - c) (by omega) _ this (rowF (2 * K) (2 * c) ω x j)
  rw [← this]
  unfold rowF
  rw [show 2 * K - 2 * c = 2 * (K - c) by omega]

theorem bestRadix4_tab (w : Worker) (K : ℕ) (hK : 2 * K < 64) (ω : F) (hω : HalfNeg ω (2 * K)) (x : ℕ → F) :
    bestRadix4 w (tab (2 ^ (2 * K)) x) ω (2 * K) = .ok (tab (2 ^ (2 * K)) (dftF ω (2 ^ (2 * K)) x)) := by
  unfold bestRadix4
  simp only [Nat.mul_mod_right, decide_true, Res.assert_true, Res.ok_bind]
  obtain ⟨c, hc⟩ : ∃ c, (if w.logNumCpus % 2 ≠ 0 then w.logNumCpus - 1 else w.logNumCpus) = 2 * c := by
    split
    · exact ⟨(w.logNumCpus - 1) / 2, by omega⟩
    · exact ⟨w.logNumCpus / 2, by omega⟩
  rw [hc]
  split
  · exact serialRadix4_tab K hK ω hω x
  · exact parallelRadix4_tab w K c hK (by omega) ω hω (hω.pow_eq_one (by omega)) x

end Hodor

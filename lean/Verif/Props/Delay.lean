import Verif.Spec.Delay
import Verif.Props.Uniform
import Mathlib.FieldTheory.Finite.Basic
import Mathlib.Tactic.LinearCombination

/-!
# C87: the VDFs of the experiments have no delay
-/

namespace Hodor

open Spec

theorem fastPow_val {M : Type} [Monoid M] (x : M) (e : ℕ) : (fastPow x e).1 = x ^ e := by
  induction e using Nat.strong_induction_on generalizing x with
  | _ e ih =>
    rw [fastPow]
    split
    · next h => rw [h, pow_zero]
    · split
      · next h0 h =>
        simp only
        rw [ih (e / 2) (by omega), ← pow_two, ← pow_mul, ← pow_succ]
        congr 1
        omega
      · next h0 h =>
        simp only
        rw [ih (e / 2) (by omega), ← pow_two, ← pow_mul]
        congr 1
        omega

theorem fastPow_count {M : Type} [Monoid M] (x : M) (e : ℕ) : (fastPow x e).2 ≤ 2 * e.size := by
  induction e using Nat.strong_induction_on generalizing x with
  | _ e ih =>
    rw [fastPow]
    split
    · simp
    · next h0 =>
      have hs : e.size = (e / 2).size + 1 := by
        have := Nat.size_bit (b := e.bodd) (n := e.div2) (by rw [Nat.bit_bodd_div2]; exact h0)
        rw [Nat.bit_bodd_div2, Nat.div2_val] at this
        exact this
      have := ih (e / 2) (by omega) (x * x)
      split
      · simp only; omega
      · simp only; omega

variable {F : Type} [Field F] [StarkField F]

omit [StarkField F] in
/-- `c0 + i c1` is multiplicative on `F[u]/(u²+1)` when `i² = -1`. -/
theorem quad_coord (i : F) (hi : i * i = -1) (x : Quad F) (n : ℕ) : (x ^ n).re + i * (x ^ n).im = (x.re + i * x.im) ^ n := by
  induction n with
  | zero => rw [pow_zero, pow_zero, QuadraticAlgebra.re_one, QuadraticAlgebra.im_one, mul_zero, add_zero]
  | succ n ih =>
    rw [pow_succ, pow_succ, ← ih]
    simp only [QuadraticAlgebra.re_mul, QuadraticAlgebra.im_mul]
    linear_combination (-(x ^ n).im * x.im) * hi

/-- Fermat's theorem in the form the shortcut needs: exponents can be reduced, and stay positive. -/
theorem pow_reduced [CharP F (StarkField.modulus F)] (x : F) (e : ℕ) (he : 0 < e) :
    x ^ (((e : ZMod (StarkField.modulus F - 1)).val) + (StarkField.modulus F - 1)) = x ^ e := by
  obtain ⟨p, hp⟩ : ∃ p, p = StarkField.modulus F := ⟨_, rfl⟩
  have h1 := StarkField.modulus_pos (F := F)
  rw [← hp] at h1 ⊢
  have hch : CharP F p := by rw [hp]; infer_instance
  have hpp : p.Prime := (CharP.char_is_prime_or_zero F p).resolve_right (by omega)
  have := Fact.mk hpp
  rw [ZMod.val_natCast]
  by_cases hx : x = 0
  · rw [hx, zero_pow (by omega), zero_pow (by omega)]
  · have hf : x ^ (p - 1) = 1 := by
      have hy : x = ZMod.castHom (dvd_refl p) F (StarkField.repr x : ZMod p) := by
        rw [map_natCast, StarkField.cast_repr]
      have hne : (StarkField.repr x : ZMod p) ≠ 0 := by
        intro h
        rw [h, map_zero] at hy
        exact hx hy
      rw [hy, ← map_pow, ZMod.pow_card_sub_one_eq_one hne, map_one]
    rw [pow_add, hf, mul_one]
    conv_rhs => rw [← Nat.mod_add_div e (p - 1), pow_add, pow_mul, hf, one_pow, mul_one]

/-- The shortcut computes `start^(base^N)`. -/
theorem shortcut_output [CharP F (StarkField.modulus F)] (hS : 2 ≤ StarkField.S F) (base : ℕ) (hb : 0 < base) (v : Vdf F) :
    (shortcut (StarkField.modulus F) (genOf F 2) base v).output = v.start ^ base ^ v.numOperations := by
  have hprim := genOf_prim (F := F) hS
  obtain ⟨i, hi⟩ : ∃ i, i = genOf F 2 := ⟨_, rfl⟩
  rw [← hi] at hprim ⊢
  have h4 : i ^ 2 ≠ 1 := hprim.pow_ne_one_of_pos_of_lt (by norm_num) (by norm_num)
  have hii : i * i = -1 := by
    have : (i ^ 2 - 1) * (i ^ 2 + 1) = 0 := by
      have := hprim.pow_eq_one
      norm_num at this
      linear_combination this
    rcases mul_eq_zero.1 this with h | h
    · exact absurd (sub_eq_zero.1 h) h4
    · linear_combination h
  have h2 : (2 : F) ≠ 0 := by
    intro h
    apply h4
    linear_combination hii - h
  have hi0 : i ≠ 0 := by
    intro h
    rw [h] at hii
    have : (1 : F) = 0 := by linear_combination hii
    exact one_ne_zero this
  have hpos : 0 < base ^ v.numOperations := Nat.pow_pos hb
  have ha := quad_coord i hii v.start (base ^ v.numOperations)
  have hb' := quad_coord (-i) (by linear_combination hii) v.start (base ^ v.numOperations)
  simp only [shortcut, fastPow_val, ← Nat.cast_pow, pow_reduced _ _ hpos]
  have s0 : v.startC0 = v.start.re := rfl
  have s1 : v.startC1 = v.start.im := rfl
  rw [s0, s1, ← ha, show v.start.re - i * v.start.im = v.start.re + -i * v.start.im by ring, ← hb']
  ext
  · field_simp
    ring
  · simp only
    field_simp
    ring

/-- The work of the shortcut. -/
theorem shortcut_ops [CharP F (StarkField.modulus F)] (base : ℕ) (v : Vdf F) :
    (shortcut (StarkField.modulus F) (genOf F 2) base v).fieldOps ≤ 4 * (StarkField.modulus F).size + 8 ∧
      (shortcut (StarkField.modulus F) (genOf F 2) base v).integerOps ≤ 2 * v.numOperations.size := by
  refine ⟨?_, fastPow_count _ _⟩
  have h1 := StarkField.modulus_pos (F := F)
  have hne : NeZero (StarkField.modulus F - 1) := ⟨by omega⟩
  have hsz : ∀ x : ZMod (StarkField.modulus F - 1), (x.val + (StarkField.modulus F - 1)).size ≤ (StarkField.modulus F).size + 1 := by
    intro x
    rw [Nat.size_le]
    have a := x.val_lt
    have b := Nat.lt_size_self (StarkField.modulus F)
    rw [pow_succ]
    omega
  simp only [shortcut]
  have a := fastPow_count (v.startC0 + genOf F 2 * v.startC1) ((fastPow (base : ZMod (StarkField.modulus F - 1)) v.numOperations).1.val + (StarkField.modulus F - 1))
  have b := fastPow_count (v.startC0 - genOf F 2 * v.startC1) ((fastPow (base : ZMod (StarkField.modulus F - 1)) v.numOperations).1.val + (StarkField.modulus F - 1))
  have c := hsz (fastPow (base : ZMod (StarkField.modulus F - 1)) v.numOperations).1
  omega

/-- **C87** (squaring VDF). Whatever the number `N` of operations, the only output for which the instance returned by `into_arp` can be satisfied is computed with at most four multiplications per bit of the
modulus, and at most two multiplications of integers modulo `modulus - 1` per bit of `N`. -/
theorem C87_squaring_shortcut [DecidableEq F] [CharP F (StarkField.modulus F)] (hS : 2 ≤ StarkField.S F) (v : Vdf F) :
    ∃ wit inst, v.intoArp = .ok (wit, inst) ∧
      (∀ o, (∃ w, Satisfies (claimOutput inst o) w (v.numOperations + 1)) ↔ o = (shortcut (StarkField.modulus F) (genOf F 2) 2 v).output) ∧
      (shortcut (StarkField.modulus F) (genOf F 2) 2 v).fieldOps ≤ 4 * (StarkField.modulus F).size + 8 ∧
      (shortcut (StarkField.modulus F) (genOf F 2) 2 v).integerOps ≤ 2 * v.numOperations.size := by
  obtain ⟨wit, inst, h1, -, -, -, -, -, h2⟩ := C38_squaring_vdf v
  refine ⟨wit, inst, h1, ?_, shortcut_ops 2 v⟩
  rw [shortcut_output hS 2 (by norm_num)]
  exact h2

/-- **C87** (cubic VDF). The same with cubings. -/
theorem C87_cubic_shortcut [DecidableEq F] [CharP F (StarkField.modulus F)] (hS : 2 ≤ StarkField.S F) (v : Vdf F) :
    ∃ wit inst, v.intoArpCubic = .ok (wit, inst) ∧
      (∀ o, (∃ w, Satisfies (claimOutput inst o) w (v.numOperations + 1)) ↔ o = (shortcut (StarkField.modulus F) (genOf F 2) 3 v).output) ∧
      (shortcut (StarkField.modulus F) (genOf F 2) 3 v).fieldOps ≤ 4 * (StarkField.modulus F).size + 8 ∧
      (shortcut (StarkField.modulus F) (genOf F 2) 3 v).integerOps ≤ 2 * v.numOperations.size := by
  obtain ⟨wit, inst, h1, -, -, -, -, -, h2⟩ := C39_cubic_vdf v
  refine ⟨wit, inst, h1, ?_, shortcut_ops 3 v⟩
  rw [shortcut_output hS 3 (by norm_num)]
  exact h2

/-- **C87** (the extension). `-1`, which the VDFs take as the non-residue, is a square in every field with two-adicity at least 2, so `F[u]/(u²+1)` has zero divisors: it is not a field. -/
theorem C87_not_a_field (hS : 2 ≤ StarkField.S F) : ∃ x y : Quad F, x ≠ 0 ∧ y ≠ 0 ∧ x * y = 0 := by
  have hprim := genOf_prim (F := F) hS
  have h4 : genOf F 2 ^ 2 ≠ 1 := hprim.pow_ne_one_of_pos_of_lt (by norm_num) (by norm_num)
  have hii : genOf F 2 * genOf F 2 = -1 := by
    have : (genOf F 2 ^ 2 - 1) * (genOf F 2 ^ 2 + 1) = 0 := by
      have := hprim.pow_eq_one
      norm_num at this
      linear_combination this
    rcases mul_eq_zero.1 this with h | h
    · exact absurd (sub_eq_zero.1 h) h4
    · linear_combination h
  refine ⟨⟨genOf F 2, 1⟩, ⟨-genOf F 2, 1⟩, ?_, ?_, ?_⟩
  · intro h
    exact one_ne_zero (congrArg QuadraticAlgebra.im h)
  · intro h
    exact one_ne_zero (congrArg QuadraticAlgebra.im h)
  · ext
    · simp only [QuadraticAlgebra.re_mul, QuadraticAlgebra.re_zero]
      linear_combination -hii
    · simp only [QuadraticAlgebra.im_mul, QuadraticAlgebra.im_zero]
      ring

/-- A concrete case over the field of 257 elements: the fourth row of the table of `⟨1, 1, 3⟩` in `Props/Vdf` is `16`, and the shortcut finds it. -/
example : (shortcut (StarkField.modulus Fr) (genOf Fr 2) 2 ⟨1, 1, 3⟩).output = ⟨16, 0⟩ ∧
    (shortcut (StarkField.modulus Fr) (genOf Fr 2) 3 ⟨1, 1, 3⟩).output = ⟨32, 225⟩ ∧ 2 ≤ StarkField.S Fr := by
  refine ⟨?_, ?_, by decide⟩
  · rw [shortcut_output (by decide) 2 (by norm_num)]
    ext <;> decide +kernel
  · rw [shortcut_output (by decide) 3 (by norm_num)]
    ext <;> decide +kernel

/-- The field of the STARK curve: however many operations are asked for, 1016 multiplications and divisions in the field suffice; for a delay of `2^64` squarings, 130 multiplications of integers. -/
example (c0 c1 : FrStark) : (shortcut (StarkField.modulus FrStark) (genOf FrStark 2) 2 ⟨c0, c1, 2 ^ 64⟩).fieldOps ≤ 1016 ∧
    (shortcut (StarkField.modulus FrStark) (genOf FrStark 2) 2 ⟨c0, c1, 2 ^ 64⟩).integerOps ≤ 130 := by
  have h := shortcut_ops (F := FrStark) 2 ⟨c0, c1, 2 ^ 64⟩
  have hm : (StarkField.modulus FrStark).size ≤ 252 := by
    rw [Nat.size_le]
    show starkPrime < _
    norm_num [starkPrime]
  have hn : (2 ^ 64 : ℕ).size ≤ 65 := by
    rw [Nat.size_le]
    norm_num
  exact ⟨by omega, le_trans h.2 (by show 2 * (2 ^ 64 : ℕ).size ≤ 130; omega)⟩

end Hodor

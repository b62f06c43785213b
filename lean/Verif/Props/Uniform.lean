import Verif.Props.Transcript
import Verif.Props.Proximity
import Verif.Props.Sampling
import Verif.Model.F257
import Verif.Model.Fields
import Mathlib.Algebra.CharP.Lemmas

/-!
# C75: how challenges and query positions are distributed over the digests

Fiat–Shamir replaces random choices by functions of a digest. Counted over all digests, these functions are uniform.
-/

namespace Hodor

open Finset Spec

/-! ## Counting -/

/-- Numbers below `2^T` with given bits `s, …, s + c - 1`. -/
theorem card_bits (T s c m : ℕ) (hm : m < 2 ^ c) (h : s + c ≤ T) :
    ((range (2 ^ T)).filter (fun x => x / 2 ^ s % 2 ^ c = m)).card = 2 ^ (T - c) := by
  obtain ⟨u, rfl⟩ : ∃ u, T = s + c + u := ⟨T - (s + c), by omega⟩
  have hs : 0 < 2 ^ s := by positivity
  have hc : 0 < 2 ^ c := by positivity
  have e1 : 2 ^ (s + c + u) = 2 ^ s * (2 ^ c * 2 ^ u) := by rw [pow_add, pow_add, mul_assoc]
  have e2 : 2 ^ (s + c + u - c) = (range (2 ^ s) ×ˢ range (2 ^ u)).card := by
    rw [card_product, card_range, card_range, ← pow_add]
    congr 1
    omega
  rw [e2, e1]
  symm
  refine card_nbij' (fun p => p.1 + 2 ^ s * (m + 2 ^ c * p.2)) (fun x => (x % 2 ^ s, x / 2 ^ s / 2 ^ c)) ?_ ?_ ?_ ?_
  · intro p hp
    simp only [coe_product, coe_range, Set.mem_prod, Set.mem_Iio] at hp
    simp only [coe_filter, mem_range, Set.mem_ofPred_eq]
    constructor
    · have a : m + 2 ^ c * p.2 + 1 ≤ 2 ^ c * 2 ^ u := by
        calc m + 2 ^ c * p.2 + 1 ≤ 2 ^ c * (p.2 + 1) := by rw [mul_add]; omega
          _ ≤ 2 ^ c * 2 ^ u := Nat.mul_le_mul le_rfl hp.2
      calc p.1 + 2 ^ s * (m + 2 ^ c * p.2) < 2 ^ s * (m + 2 ^ c * p.2 + 1) := by rw [mul_add _ _ 1]; omega
        _ ≤ 2 ^ s * (2 ^ c * 2 ^ u) := Nat.mul_le_mul le_rfl a
    · rw [Nat.add_mul_div_left _ _ hs, Nat.div_eq_of_lt hp.1, Nat.zero_add, Nat.add_mul_mod_self_left, Nat.mod_eq_of_lt hm]
  · intro x hx
    simp only [coe_filter, mem_range, Set.mem_ofPred_eq] at hx
    simp only [coe_product, coe_range, Set.mem_prod, Set.mem_Iio]
    refine ⟨Nat.mod_lt _ hs, ?_⟩
    rw [Nat.div_lt_iff_lt_mul hc, Nat.div_lt_iff_lt_mul hs]
    calc x < _ := hx.1
      _ = _ := by ring
  · intro p hp
    simp only [coe_product, coe_range, Set.mem_prod, Set.mem_Iio] at hp
    refine Prod.ext ?_ ?_
    · simp only [Nat.add_mul_mod_self_left, Nat.mod_eq_of_lt hp.1]
    · simp only
      rw [Nat.add_mul_div_left _ _ hs, Nat.div_eq_of_lt hp.1, Nat.zero_add, Nat.add_mul_div_left _ _ hc, Nat.div_eq_of_lt hm, Nat.zero_add]
  · intro x hx
    simp only [coe_filter, mem_range, Set.mem_ofPred_eq] at hx
    simp only
    have a := Nat.mod_add_div (x / 2 ^ s) (2 ^ c)
    rw [hx.2] at a
    rw [a]
    exact Nat.mod_add_div x (2 ^ s)

theorem ofLeBytes_append (a b : List UInt8) : ofLeBytes (a ++ b) = ofLeBytes a + 256 ^ a.length * ofLeBytes b := by
  induction a with
  | nil => simp [ofLeBytes]
  | cons x a ih =>
    simp only [List.cons_append, ofLeBytes, ih, List.length_cons, pow_succ]
    ring

theorem ofBeBytes_append (a b : List UInt8) : ofBeBytes (a ++ b) = ofBeBytes a * 256 ^ b.length + ofBeBytes b := by
  unfold ofBeBytes
  rw [List.reverse_append, ofLeBytes_append, List.length_reverse]
  ring

theorem ofBeBytes_lt (l : List UInt8) : ofBeBytes l < 256 ^ l.length := by
  have := ofLeBytes_lt l.reverse
  rwa [List.length_reverse] at this

theorem ofLeBytes_inj : ∀ (a b : List UInt8), a.length = b.length → ofLeBytes a = ofLeBytes b → a = b := by
  intro a
  induction a with
  | nil => intro b hl _; exact (List.length_eq_zero_iff.1 hl.symm).symm
  | cons x a ih =>
    intro b hl he
    cases b with
    | nil => cases hl
    | cons y b =>
      simp only [ofLeBytes] at he
      have hx := x.toNat_lt
      have hy := y.toNat_lt
      have h1 : x.toNat = y.toNat := by omega
      have h2 : ofLeBytes a = ofLeBytes b := by omega
      rw [ih b (by simpa using hl) h2, UInt8.toNat_inj.1 h1]

/-- Digests are the numbers below `2^256`. -/
def digestEquiv : Digest ≃ {x : ℕ // x < 2 ^ 256} where
  toFun d := ⟨ofBeBytes d.bytes, by have := ofBeBytes_lt d.bytes; rw [d.len] at this; exact this⟩
  invFun x := ⟨beBytes 32 x.1, length_beBytes 32 x.1⟩
  left_inv d := by
    have hlt : ofBeBytes d.bytes < 256 ^ 32 := by have := ofBeBytes_lt d.bytes; rwa [d.len] at this
    have e : beBytes 32 (ofBeBytes d.bytes) = d.bytes := by
      have h1 := ofBeBytes_beBytes 32 _ hlt
      unfold ofBeBytes at h1
      have := ofLeBytes_inj _ _ (by simp [length_beBytes, d.len]) h1
      exact List.reverse_injective this
    cases d
    simp only at e
    simp only [Digest.mk.injEq]
    exact e
  right_inv x := by
    apply Subtype.ext
    exact ofBeBytes_beBytes 32 x.1 x.2

theorem card_digests (p : ℕ → Prop) [DecidablePred p] :
    Nat.card {d : Digest // p (ofBeBytes d.bytes)} = ((range (2 ^ 256)).filter p).card := by
  have e1 : {d : Digest // p (ofBeBytes d.bytes)} ≃ {x : {x : ℕ // x < 2 ^ 256} // p x.1} :=
    digestEquiv.subtypeEquiv (fun d => Iff.rfl)
  have e2 : {x : {x : ℕ // x < 2 ^ 256} // p x.1} ≃ {x : ℕ // x ∈ (range (2 ^ 256)).filter p} :=
    { toFun := fun x => ⟨x.1.1, mem_filter.2 ⟨mem_range.2 x.1.2, x.2⟩⟩
      invFun := fun x => ⟨⟨x.1, mem_range.1 (mem_filter.1 x.2).1⟩, (mem_filter.1 x.2).2⟩
      left_inv := fun _ => rfl
      right_inv := fun _ => rfl }
  rw [Nat.card_congr (e1.trans e2), Nat.card_eq_fintype_card, Fintype.card_coe]

theorem ofBeBytes_take (l : List UInt8) (p : ℕ) (hp : p ≤ l.length) :
    ofBeBytes (l.take p) = ofBeBytes l / 256 ^ (l.length - p) := by
  conv_rhs => rw [← List.take_append_drop p l]
  rw [ofBeBytes_append]
  have h1 : (l.drop p).length = l.length - p := List.length_drop
  have h2 := ofBeBytes_lt (l.drop p)
  simp only [List.take_append_drop]
  rw [h1] at h2 ⊢
  rw [mul_comm, Nat.mul_add_div (by positivity), Nat.div_eq_of_lt h2, Nat.add_zero]

theorem ofBeBytes_drop (l : List UInt8) (p : ℕ) (hp : p ≤ l.length) :
    ofBeBytes (l.drop p) = ofBeBytes l % 256 ^ (l.length - p) := by
  conv_rhs => rw [← List.take_append_drop p l]
  rw [ofBeBytes_append]
  have h1 : (l.drop p).length = l.length - p := List.length_drop
  have h2 := ofBeBytes_lt (l.drop p)
  simp only [List.take_append_drop]
  rw [h1] at h2 ⊢
  rw [mul_comm, Nat.mul_add_mod, Nat.mod_eq_of_lt h2]

/-- There are `2^256` digests. -/
theorem card_digest : Nat.card Digest = 2 ^ 256 := by
  rw [Nat.card_congr digestEquiv]
  exact Nat.card_eq_of_bijective (fun x : {x : ℕ // x < 2 ^ 256} => (⟨x.1, x.2⟩ : Fin (2 ^ 256)))
    ⟨fun a b h => Subtype.ext (Fin.mk.inj_iff.1 h), fun x => ⟨⟨x.1, x.2⟩, rfl⟩⟩ |>.trans (Nat.card_fin _)

/-! ## Challenges -/

section
variable {F : Type} [Field F] [StarkField F]

/-- **C75** (challenges are uniform). Of the `2^256` digests exactly `2^(256 - CAPACITY)` are turned into a given field element, if the element is below `2^CAPACITY`, and none if not. -/
theorem C75_challenge_uniform [CharP F (StarkField.modulus F)] (hc : ChallengeOk F) (x : F) :
    Nat.card Digest = 2 ^ 256 ∧
    Nat.card {d : Digest // (interpretHash d : Res F) = .ok x} =
      if StarkField.repr x < 2 ^ capacity F then 2 ^ (256 - capacity F) else 0 := by
  refine ⟨card_digest, ?_⟩
  have hlim := limbs_le_four hc.1
  have hk := kept_bits hc.1
  rw [if_neg hc.2.1, if_neg hc.2.2] at hk
  have hcap : 64 * (limbs F - 1) + (64 - shaveBits F % 64) = capacity F := hk
  have hle : 2 ^ capacity F ≤ StarkField.modulus F := by
    unfold capacity numBits
    rw [Nat.add_sub_cancel]
    exact Nat.pow_log_le_self 2 (by have := StarkField.modulus_pos (F := F); omega)
  have hiff : ∀ d : Digest, (interpretHash d : Res F) = .ok x ↔
      ofBeBytes d.bytes / 2 ^ (8 * (32 - 8 * limbs F)) % 2 ^ capacity F = StarkField.repr x := by
    intro d
    rw [interpretHash_ok hc]
    unfold challengeOf
    rw [hcap, ofBeBytes_take _ _ (by rw [d.len]; exact hlim), d.len, show (256 : ℕ) ^ (32 - 8 * limbs F) = 2 ^ (8 * (32 - 8 * limbs F)) by
      rw [pow_mul]; norm_num]
    set m := ofBeBytes d.bytes / 2 ^ (8 * (32 - 8 * limbs F)) % 2 ^ capacity F with hm
    have hlt : m < StarkField.modulus F := lt_of_lt_of_le (Nat.mod_lt _ (by positivity)) hle
    constructor
    · intro h
      injection h with h
      refine CharP.natCast_injOn_Iio F (StarkField.modulus F) hlt (StarkField.repr_lt x) ?_
      rw [h, StarkField.cast_repr]
    · intro h
      rw [h, StarkField.cast_repr]
  rw [Nat.card_congr (Equiv.subtypeEquivRight hiff), card_digests (fun y => y / 2 ^ (8 * (32 - 8 * limbs F)) % 2 ^ capacity F = StarkField.repr x)]
  split
  · rename_i hx
    refine card_bits 256 _ _ _ hx ?_
    have h1 : 1 ≤ numBits F := by unfold numBits; omega
    have := hc.2.1
    have := hc.1
    unfold capacity limbs at *
    omega
  · rename_i hx
    rw [Finset.card_eq_zero, Finset.filter_eq_empty_iff]
    intro y _ hy
    exact hx (hy ▸ Nat.mod_lt _ (by positivity))

/-- **C75** (challenges never drawn). The field elements that are never a challenge are the `modulus - 2^CAPACITY` elements not below `2^CAPACITY`. -/
theorem C75_never_drawn [CharP F (StarkField.modulus F)] (hc : ChallengeOk F) :
    (∀ x : F, (∀ d, (interpretHash d : Res F) ≠ .ok x) ↔ 2 ^ capacity F ≤ StarkField.repr x) ∧
    Nat.card {x : F // ∀ d, (interpretHash d : Res F) ≠ .ok x} = StarkField.modulus F - 2 ^ capacity F := by
  have hiff : ∀ x : F, (∀ d, (interpretHash d : Res F) ≠ .ok x) ↔ 2 ^ capacity F ≤ StarkField.repr x := by
    intro x
    have h := (C75_challenge_uniform hc x).2
    constructor
    · intro hn
      by_contra hlt
      rw [if_pos (not_le.1 hlt)] at h
      have : IsEmpty {d : Digest // (interpretHash d : Res F) = .ok x} := ⟨fun ⟨d, hd⟩ => hn d hd⟩
      rw [Nat.card_of_isEmpty] at h
      exact absurd h.symm (by positivity)
    · intro hle d hd
      rw [if_neg (not_lt.2 hle)] at h
      have hfin : Finite Digest := Nat.finite_of_card_ne_zero (by rw [card_digest]; positivity)
      rw [Finite.card_eq_zero_iff] at h
      exact h.false ⟨d, hd⟩
  refine ⟨hiff, ?_⟩
  have hrepr : ∀ m, m < StarkField.modulus F → StarkField.repr (m : F) = m := fun m hm =>
    CharP.natCast_injOn_Iio F (StarkField.modulus F) (StarkField.repr_lt _) hm (StarkField.cast_repr _)
  have e : {x : F // ∀ d, (interpretHash d : Res F) ≠ .ok x} ≃ {m // m ∈ Finset.Ico (2 ^ capacity F) (StarkField.modulus F)} :=
    { toFun := fun x => ⟨StarkField.repr x.1, Finset.mem_Ico.2 ⟨(hiff x.1).1 x.2, StarkField.repr_lt _⟩⟩
      invFun := fun m => ⟨(m.1 : F), (hiff _).2 (by rw [hrepr _ (Finset.mem_Ico.1 m.2).2]; exact (Finset.mem_Ico.1 m.2).1)⟩
      left_inv := fun x => Subtype.ext (StarkField.cast_repr x.1)
      right_inv := fun m => Subtype.ext (hrepr _ (Finset.mem_Ico.1 m.2).2) }
  rw [Nat.card_congr e, Nat.card_eq_fintype_card, Fintype.card_coe, Nat.card_Ico]

theorem card_union_le {α β : Type} [Finite α] (B : Finset β) (p : α → β → Prop) (c : ℕ)
    (h : ∀ x ∈ B, Nat.card {d : α // p d x} ≤ c) : Nat.card {d : α // ∃ x ∈ B, p d x} ≤ B.card * c := by
  classical
  induction B using Finset.induction_on with
  | empty => simp
  | insert a B ha ih =>
    rw [Finset.card_insert_of_notMem ha, Nat.add_mul, Nat.one_mul]
    have hsub : {d : α | ∃ x ∈ insert a B, p d x} ⊆ {d | ∃ x ∈ B, p d x} ∪ {d | p d a} := by
      rintro d ⟨x, hx, hp⟩
      rcases Finset.mem_insert.1 hx with rfl | hx
      · exact .inr hp
      · exact .inl ⟨x, hx, hp⟩
    have h1 := Set.ncard_le_ncard hsub (Set.toFinite _)
    have h2 := Set.ncard_union_le {d : α | ∃ x ∈ B, p d x} {d | p d a}
    have h3 := ih (fun x hx => h x (Finset.mem_insert_of_mem hx))
    have h4 := h a (Finset.mem_insert_self _ _)
    exact (h1.trans h2).trans (Nat.add_le_add h3 h4)

instance : Finite Digest := Nat.finite_of_card_ne_zero (by rw [card_digest]; positivity)

/-- **C75** (bad challenges). If `B` are the challenges that would let a cheating prover pass, at most the share `|B| / 2^CAPACITY` of the digests gives one of them. -/
theorem C75_challenge_hits [CharP F (StarkField.modulus F)] (hc : ChallengeOk F) (B : Finset F) :
    Nat.card {d : Digest // ∃ x ∈ B, (interpretHash d : Res F) = .ok x} * 2 ^ capacity F ≤ B.card * Nat.card Digest := by
  have h := card_union_le (α := Digest) B (fun d x => (interpretHash d : Res F) = .ok x) (2 ^ (256 - capacity F)) (fun x _ => by
    rw [(C75_challenge_uniform hc x).2]
    split
    · exact le_rfl
    · exact Nat.zero_le _)
  have hcap : capacity F ≤ 256 := by
    have := hc.1
    unfold capacity
    omega
  calc _ ≤ B.card * 2 ^ (256 - capacity F) * 2 ^ capacity F := Nat.mul_le_mul_right _ h
    _ = B.card * Nat.card Digest := by rw [mul_assoc, ← pow_add, Nat.sub_add_cancel hcap, card_digest]

end

/-! ## Query positions -/

theorem index_uniform_factor (N e : ℕ) (hN : N ≤ 64) (hN1 : 1 ≤ N) (he : 1 ≤ e) (i : ℕ) :
    Nat.card {d : Digest // bytesToChallengeIndex d.bytes (2 ^ N) (2 ^ e) = .ok i} =
      if i < 2 ^ N ∧ i % 2 = 1 then 2 ^ (257 - N) else 0 := by
  have e2 : 2 ^ e % 2 = 0 := by obtain ⟨m, rfl⟩ : ∃ m, e = m + 1 := ⟨e - 1, by omega⟩; rw [pow_succ]; omega
  have n2 : 2 ^ N % 2 = 0 := by obtain ⟨m, rfl⟩ : ∃ m, N = m + 1 := ⟨N - 1, by omega⟩; rw [pow_succ]; omega
  have epos : 0 < 2 ^ e := by positivity
  have npos : 0 < 2 ^ N := by positivity
  have hval : ∀ d : Digest, bytesToChallengeIndex d.bytes (2 ^ N) (2 ^ e) =
      .ok (if ofBeBytes d.bytes % 2 ^ N % 2 = 0 then ofBeBytes d.bytes % 2 ^ N + 1 else ofBeBytes d.bytes % 2 ^ N) := by
    intro d
    unfold bytesToChallengeIndex
    simp only [d.len, show (8 : ℕ) ≤ 32 by norm_num, npos, epos, decide_true, Res.assert_true, Res.ok_bind, Res.pure_def, show 32 - 8 = 24 by norm_num]
    rw [ofBeBytes_drop _ _ (by rw [d.len]; norm_num), d.len, show (256 : ℕ) ^ (32 - 24) = 2 ^ 64 by norm_num,
      Nat.mod_mod_of_dvd _ (pow_dvd_pow 2 hN)]
    set x := ofBeBytes d.bytes % 2 ^ N with hx
    have hlt : x < 2 ^ N := Nat.mod_lt _ npos
    have hdvd : x % 2 ^ e = 0 → x % 2 = 0 := by
      intro h0
      have h1 : 2 ^ e ∣ x := Nat.dvd_of_mod_eq_zero h0
      exact Nat.mod_eq_zero_of_dvd ((Nat.dvd_of_mod_eq_zero e2).trans h1)
    by_cases hev : x % 2 = 0
    · have hl1 : x + 1 < 2 ^ N := by clear_value x; omega
      rw [if_pos hev]
      by_cases h0 : x % 2 ^ e = 0
      · rw [if_pos h0, Nat.mod_eq_of_lt hl1, if_neg (by clear_value x; omega)]
      · rw [if_neg h0, if_pos hev, Nat.mod_eq_of_lt hl1]
    · rw [if_neg hev, if_neg (fun h0 => hev (hdvd h0)), if_neg hev]
  by_cases hi : i < 2 ^ N ∧ i % 2 = 1
  · rw [if_pos hi]
    have hiff : ∀ d : Digest, bytesToChallengeIndex d.bytes (2 ^ N) (2 ^ e) = .ok i ↔
        ofBeBytes d.bytes / 2 ^ 1 % 2 ^ (N - 1) = i / 2 := by
      intro d
      rw [hval d]
      have hm : ofBeBytes d.bytes % 2 ^ N / 2 = ofBeBytes d.bytes / 2 ^ 1 % 2 ^ (N - 1) := by
        obtain ⟨m, rfl⟩ : ∃ m, N = m + 1 := ⟨N - 1, by omega⟩
        rw [Nat.add_sub_cancel, pow_succ, mul_comm (2 ^ m) 2, pow_one, Nat.mod_mul_right_div_self]
      rw [← hm]
      set x := ofBeBytes d.bytes % 2 ^ N with hx
      clear_value x
      constructor
      · intro h
        injection h with h
        split at h <;> omega
      · intro h
        congr 1
        split <;> omega
    rw [Nat.card_congr (Equiv.subtypeEquivRight hiff), card_digests (fun y => y / 2 ^ 1 % 2 ^ (N - 1) = i / 2),
      card_bits 256 1 (N - 1) _ (by
        obtain ⟨m, rfl⟩ : ∃ m, N = m + 1 := ⟨N - 1, by omega⟩
        rw [pow_succ] at hi
        rw [Nat.add_sub_cancel]
        omega) (by omega)]
    congr 1
    omega
  · rw [if_neg hi]
    have : IsEmpty {d : Digest // bytesToChallengeIndex d.bytes (2 ^ N) (2 ^ e) = .ok i} := by
      refine ⟨fun ⟨d, hd⟩ => hi ?_⟩
      rw [hval d] at hd
      injection hd with hd
      have hlt : ofBeBytes d.bytes % 2 ^ N < 2 ^ N := Nat.mod_lt _ npos
      set x := ofBeBytes d.bytes % 2 ^ N with hx
      clear_value x
      split at hd <;> omega
    rw [Nat.card_of_isEmpty]

theorem card_fibres {α β : Type} [Finite α] (B : Finset β) (p : α → β → Prop) (c : ℕ) (hu : ∀ d x y, p d x → p d y → x = y)
    (h : ∀ x ∈ B, Nat.card {d : α // p d x} = c) : Nat.card {d : α // ∃ x ∈ B, p d x} = B.card * c := by
  classical
  induction B using Finset.induction_on with
  | empty => simp
  | insert a B ha ih =>
    rw [Finset.card_insert_of_notMem ha, Nat.add_mul, Nat.one_mul, ← ih (fun x hx => h x (Finset.mem_insert_of_mem hx))]
    have h1 := h a (Finset.mem_insert_self _ _)
    have hset : {d : α | ∃ x ∈ insert a B, p d x} = {d | ∃ x ∈ B, p d x} ∪ {d | p d a} := by
      ext d
      simp only [Set.mem_ofPred_eq, Set.mem_union, Finset.mem_insert]
      constructor
      · rintro ⟨x, rfl | hx, hp⟩
        · exact .inr hp
        · exact .inl ⟨x, hx, hp⟩
      · rintro (⟨x, hx, hp⟩ | hp)
        · exact ⟨x, .inr hx, hp⟩
        · exact ⟨a, .inl rfl, hp⟩
    have hdis : Disjoint {d : α | ∃ x ∈ B, p d x} {d | p d a} := by
      rw [Set.disjoint_left]
      rintro d ⟨x, hx, h⟩ h'
      exact ha (hu d x a h h' ▸ hx)
    have h2 := Set.ncard_union_eq hdis (Set.toFinite _) (Set.toFinite _)
    rw [← hset] at h2
    rw [← h1]
    exact h2

/-- The position with LDE factor 1: every remainder is moved by one, and by one more if it is then even. -/
theorem index_factor_one (N : ℕ) (hN : N ≤ 64) (hN1 : 1 ≤ N) (d : Digest) (i : ℕ) (hi : i < 2 ^ N) (hodd : i % 2 = 1) :
    bytesToChallengeIndex d.bytes (2 ^ N) 1 = .ok i ↔
      ∃ x ∈ ({i - 1, (i + 2 ^ N - 2) % 2 ^ N} : Finset ℕ), ofBeBytes d.bytes / 2 ^ 0 % 2 ^ N = x := by
  have n2 : 2 ^ N % 2 = 0 := by obtain ⟨m, rfl⟩ : ∃ m, N = m + 1 := ⟨N - 1, by omega⟩; rw [pow_succ]; omega
  have npos : 0 < 2 ^ N := by positivity
  unfold bytesToChallengeIndex
  simp only [d.len, show (8 : ℕ) ≤ 32 by norm_num, npos, decide_true, Res.assert_true, Res.ok_bind, Res.pure_def, show 32 - 8 = 24 by norm_num, Nat.mod_one,
    show (0 : ℕ) < 1 by norm_num, if_true, pow_zero, Nat.div_one]
  rw [ofBeBytes_drop _ _ (by rw [d.len]; norm_num), d.len, show (256 : ℕ) ^ (32 - 24) = 2 ^ 64 by norm_num,
    Nat.mod_mod_of_dvd _ (pow_dvd_pow 2 hN), Res.ok.injEq]
  have hlt : ofBeBytes d.bytes % 2 ^ N < 2 ^ N := Nat.mod_lt _ npos
  generalize ofBeBytes d.bytes % 2 ^ N = x at *
  generalize 2 ^ N = S at *
  simp only [Finset.mem_insert, Finset.mem_singleton, exists_eq_or_imp, exists_eq_left]
  have h1 : (x + 1) % S = if x + 1 = S then 0 else x + 1 := by
    split
    · rename_i h; rw [h, Nat.mod_self]
    · exact Nat.mod_eq_of_lt (by omega)
  have h2 : (i + S - 2) % S = if i = 1 then S - 1 else i - 2 := by
    split
    · rename_i h; rw [h, Nat.mod_eq_of_lt (by omega)]; omega
    · rw [show i + S - 2 = i - 2 + S by omega, Nat.add_mod_right, Nat.mod_eq_of_lt (by omega)]
  have h3 : ∀ y, y < S → y % 2 = 0 → (y + 1) % S = y + 1 := fun y hy h => Nat.mod_eq_of_lt (by omega)
  rw [h1, h2]
  by_cases hx : x + 1 = S
  · rw [if_pos hx, if_pos (by norm_num), h3 0 npos (by norm_num)]
    split <;> omega
  · rw [if_neg hx]
    by_cases hev : (x + 1) % 2 = 0
    · rw [if_pos hev, h3 _ (by omega) hev]
      split <;> omega
    · rw [if_neg hev]
      split <;> omega

/-- **C75** (query positions are uniform). In a domain of `2^N` points, whatever the LDE factor `2^e`, exactly `2^(257 - N)` of the `2^256` digests give a given odd position, and none an even
one: every odd position has the same share `1 / 2^(N-1)`. -/
theorem C75_index_uniform (N e : ℕ) (hN : N ≤ 64) (hN1 : 1 ≤ N) (i : ℕ) :
    Nat.card {d : Digest // bytesToChallengeIndex d.bytes (2 ^ N) (2 ^ e) = .ok i} =
      if i < 2 ^ N ∧ i % 2 = 1 then 2 ^ (257 - N) else 0 := by
  rcases Nat.eq_zero_or_pos e with rfl | he
  · rw [pow_zero]
    have n2 : 2 ^ N % 2 = 0 := by obtain ⟨m, rfl⟩ : ∃ m, N = m + 1 := ⟨N - 1, by omega⟩; rw [pow_succ]; omega
    have npos : 0 < 2 ^ N := by positivity
    by_cases hi : i < 2 ^ N ∧ i % 2 = 1
    · rw [if_pos hi, Nat.card_congr (Equiv.subtypeEquivRight (fun d => index_factor_one N hN hN1 d i hi.1 hi.2)),
        card_fibres _ (fun d x => ofBeBytes (Digest.bytes d) / 2 ^ 0 % 2 ^ N = x) (2 ^ (256 - N)) (fun d x y h h' => h.symm.trans h') (fun x hx => ?_),
        Finset.card_pair ?_, ← pow_succ']
      · congr 1
        omega
      · have h2 : (i + 2 ^ N - 2) % 2 ^ N % 2 = 1 := by
          rw [Nat.mod_mod_of_dvd _ (Nat.dvd_of_mod_eq_zero n2)]
          omega
        intro h
        rw [← h] at h2
        omega
      · have hxl : x < 2 ^ N := by
          rcases Finset.mem_insert.1 hx with rfl | hx
          · omega
          · rw [Finset.mem_singleton.1 hx]
            exact Nat.mod_lt _ npos
        rw [card_digests (fun y => y / 2 ^ 0 % 2 ^ N = x), card_bits 256 0 N x hxl (by omega)]
    · rw [if_neg hi]
      have : IsEmpty {d : Digest // bytesToChallengeIndex d.bytes (2 ^ N) 1 = .ok i} := by
        refine ⟨fun ⟨d, hd⟩ => hi ?_⟩
        obtain ⟨idx, h, h1, h2⟩ := C23_index_odd d.bytes (by rw [d.len]; norm_num) (2 ^ N) 1 npos n2 (by norm_num)
        rw [h] at hd
        injection hd with hd
        exact ⟨hd ▸ h1, hd ▸ h2⟩
      rw [Nat.card_of_isEmpty]
  · exact index_uniform_factor N e hN hN1 he i

/-- **C75** (answered positions). If answers are accepted for the odd positions in `A` only, exactly the share `|A| / 2^(N-1)` of the digests gives one of them. -/
theorem C75_index_hits (N e : ℕ) (hN : N ≤ 64) (hN1 : 1 ≤ N) (A : Finset ℕ) (hA : A ⊆ Spec.oddBelow (2 ^ N)) :
    Nat.card {d : Digest // ∃ i ∈ A, bytesToChallengeIndex d.bytes (2 ^ N) (2 ^ e) = .ok i} * 2 ^ (N - 1) = A.card * Nat.card Digest := by
  rw [card_fibres A (fun d i => bytesToChallengeIndex (Digest.bytes d) (2 ^ N) (2 ^ e) = .ok i) (2 ^ (257 - N))
      (fun d x y h h' => by rw [h] at h'; cases h'; rfl)
      (fun x hx => by rw [C75_index_uniform N e hN hN1 x, if_pos (mem_oddBelow.1 (hA hx))]),
    card_digest, mul_assoc, ← pow_add]
  congr 2
  omega

/-- **C75** (pairs of positions). The two positions the verifier queries are drawn from two digests. If answers are accepted for the pairs of odd positions in `B` only, exactly the share
`|B| / (2^(N-1) 2^(M-1))` of the pairs of digests gives one of them. -/
theorem C75_pair_hits (N M e : ℕ) (hN : N ≤ 64) (hM : M ≤ 64) (hN1 : 1 ≤ N) (hM1 : 1 ≤ M) (B : Finset (ℕ × ℕ))
    (hB : B ⊆ Spec.oddBelow (2 ^ N) ×ˢ Spec.oddBelow (2 ^ M)) :
    Nat.card {d : Digest × Digest // ∃ i ∈ B, bytesToChallengeIndex d.1.bytes (2 ^ N) (2 ^ e) = .ok i.1 ∧ bytesToChallengeIndex d.2.bytes (2 ^ M) (2 ^ e) = .ok i.2} *
      (2 ^ (N - 1) * 2 ^ (M - 1)) = B.card * Nat.card (Digest × Digest) := by
  rw [card_fibres B (fun (d : Digest × Digest) i => bytesToChallengeIndex (Digest.bytes d.1) (2 ^ N) (2 ^ e) = .ok i.1 ∧ bytesToChallengeIndex (Digest.bytes d.2) (2 ^ M) (2 ^ e) = .ok i.2)
      (2 ^ (257 - N) * 2 ^ (257 - M))
      (fun d x y h h' => by
        obtain ⟨a1, a2⟩ := h
        obtain ⟨b1, b2⟩ := h'
        rw [a1] at b1
        rw [a2] at b2
        injection b1 with b1
        injection b2 with b2
        exact Prod.ext b1 b2)
      (fun x hx => by
        have hx := Finset.mem_product.1 (hB hx)
        rw [Nat.card_congr (Equiv.subtypeProdEquivProd (p := fun d => bytesToChallengeIndex (Digest.bytes d) (2 ^ N) (2 ^ e) = .ok x.1)
            (q := fun d => bytesToChallengeIndex (Digest.bytes d) (2 ^ M) (2 ^ e) = .ok x.2)), Nat.card_prod,
          C75_index_uniform N e hN hN1, if_pos (mem_oddBelow.1 hx.1), C75_index_uniform M e hM hM1, if_pos (mem_oddBelow.1 hx.2)]),
    Nat.card_prod, card_digest]
  have h1 : 2 ^ 256 = 2 ^ (257 - N) * 2 ^ (N - 1) := by rw [← pow_add]; congr 1; omega
  have h2 : 2 ^ 256 = 2 ^ (257 - M) * 2 ^ (M - 1) := by rw [← pow_add]; congr 1; omega
  calc _ = B.card * ((2 ^ (257 - N) * 2 ^ (N - 1)) * (2 ^ (257 - M) * 2 ^ (M - 1))) := by ring
    _ = _ := by rw [← h1, ← h2]

/-! ## The soundness bounds, counted over digests -/

section
variable {F : Type} [Field F] [DecidableEq F] [StarkField F] (H : List UInt8 → Digest)

omit [DecidableEq F] in
theorem finite_starkField : Finite F := by
  refine Finite.of_injective (fun x : F => (⟨StarkField.repr x, StarkField.repr_lt x⟩ : Fin (StarkField.modulus F))) ?_
  intro x y h
  have h := Fin.mk.inj_iff.1 h
  rw [← StarkField.cast_repr x, ← StarkField.cast_repr y, h]

/-- **C75** (luck). If at most `K` field elements are lucky, at most the share `K / 2^CAPACITY` of the digests gives a lucky challenge. -/
theorem C75_luck [CharP F (StarkField.modulus F)] (hc : ChallengeOk F) (lucky : F → Prop) (K : ℕ) (hK : ∀ T : Finset F, (∀ β ∈ T, lucky β) → T.card ≤ K) :
    Nat.card {d : Digest // ∃ β, lucky β ∧ (interpretHash d : Res F) = .ok β} * 2 ^ capacity F ≤ K * Nat.card Digest := by
  classical
  have := finite_starkField (F := F)
  have := Fintype.ofFinite F
  have h := C75_challenge_hits hc ((Finset.univ : Finset F).filter lucky)
  simp only [Finset.mem_filter, Finset.mem_univ, true_and] at h
  refine h.trans (Nat.mul_le_mul_right _ (hK _ (fun β hβ => (Finset.mem_filter.1 hβ).2)))

/-- **C75** (luck in a FRI round). Whatever word a prover committed to in round `r`, at most the share `(E / 2^(r+1) + 1) / 2^CAPACITY` of the digests, as the round's root, gives a lucky challenge. -/
theorem C75_round_luck [CharP F (StarkField.modulus F)] (hc : ChallengeOk F) (n rounds fins E : ℕ) (hn : n ≤ StarkField.S F)
    (h2 : 3 * E + fins * 2 ^ rounds ≤ 2 ^ (n - 1)) (hr1 : rounds < n) (r : ℕ) (hr : r < rounds) (W : List F) :
    Nat.card {root : Digest // ∃ β, Spec.LuckyFold (genOf F n ^ 2 ^ r) (2 ^ (n - (r + 1))) W (fins * 2 ^ (rounds - (r + 1))) (E / 2 ^ (r + 1)) β ∧
        encodeRootIntoChallenge root = .ok β} * 2 ^ capacity F ≤ (E / 2 ^ (r + 1) + 1) * Nat.card Digest :=
  C75_luck hc _ _ (fun T hT => C68_round_luck n rounds fins E hn h2 hr1 r hr W T hT)

/-- **C75** (luck in a FRI round, up to half the distance). With `e = E / 2^(r+1)` and `N = 2^(n-r-2)`, at most the share `(e (N - e + 2) + 1) / 2^CAPACITY` of the digests gives a lucky challenge. -/
theorem C75_round_luck_half [CharP F (StarkField.modulus F)] (hc : ChallengeOk F) (n rounds fins E : ℕ) (hn : n ≤ StarkField.S F)
    (h2 : 2 * E + fins * 2 ^ rounds ≤ 2 ^ (n - 1)) (hr1 : rounds < n) (r : ℕ) (hr : r < rounds) (W : List F) :
    Nat.card {root : Digest // ∃ β, Spec.LuckyFold (genOf F n ^ 2 ^ r) (2 ^ (n - (r + 1))) W (fins * 2 ^ (rounds - (r + 1))) (E / 2 ^ (r + 1)) β ∧
        encodeRootIntoChallenge root = .ok β} * 2 ^ capacity F ≤ (E / 2 ^ (r + 1) * (2 ^ (n - r - 2) - E / 2 ^ (r + 1) + 2) + 1) * Nat.card Digest :=
  C75_luck hc _ _ (fun T hT => C68_round_luck_half n rounds fins E hn h2 hr1 r hr W T hT)

/-- **C75** (far words). If every polynomial of degree below `bound` differs from the oracle values at more than `E` odd positions, then, without luck and collisions, at most the share
`(2^(n-1) - E - 1) / 2^(n-1)` of the digests gives a position with an accepted answer. -/
theorem C75_far_rejected (hb : numBits F < 256) (hc : ChallengeOk F) (run : FriRun F) (n bound d e E : ℕ) (hn : n ≤ StarkField.S F) (hn64 : n ≤ 64)
    (hdf : d * 2 ^ e = 2 ^ n) (hcom : run.Committed H (2 ^ n) bound) (h1 : 1 ≤ bound) (h2 : 2 * E + bound ≤ 2 ^ (n - 1)) (hn1 : 1 ≤ n)
    (A : Finset ℕ) (hA : A ⊆ Spec.oddBelow (2 ^ n)) (proof : ℕ → FriProof F) (val : ℕ → F)
    (hacc : ∀ idx ∈ A, run.Proves (proof idx) d (2 ^ e) ∧ (proof idx).verify H idx (val idx) = .ok true)
    (hfar : ∀ p : Polynomial F, p.degree < (bound : ℕ) → E < ((Spec.oddBelow (2 ^ n)).filter (fun i => val i ≠ p.eval (genOf F n ^ i))).card)
    (hluck : ¬ run.LuckyWithin (genOf F n) n E)
    (hcol : ¬ CollisionAmong H (fun s => (∃ r, r < run.roots.length ∧ WordHashed H (run.words r) s) ∨
      ∃ idx ∈ A, ∃ q ∈ (proof idx).queries, s ∈ openingHashed H q.value q.path q.index)) :
    Nat.card {x : Digest // ∃ idx ∈ A, bytesToChallengeIndex x.bytes (2 ^ n) (2 ^ e) = .ok idx} * 2 ^ (n - 1) ≤ (2 ^ (n - 1) - (E + 1)) * Nat.card Digest := by
  rw [C75_index_hits n e hn64 hn1 A hA]
  exact Nat.mul_le_mul_right _ (C68_far_rejected H hb hc run n bound d (2 ^ e) E hn hdf hcom h1 h2 hn1 A hA proof val hacc hfar hluck hcol).1

/-- **C75** (instances without a witness). For an instance that no witness satisfies, and without luck and collisions, the share of the pairs of digests that give a pair of positions with an accepted answer is at most
the larger of `1 - (E₁ + 1) / 2^(N-1)` and `1 - (E₂ + 1) / 2^(M-1)`, where `2^N` and `2^M` are the sizes of the two domains. -/
theorem C75_query_error (hb : numBits F < 256) (hc : ChallengeOk F) (inst : InstanceProperties F) (n k e slack E1 E2 : ℕ) (h : Verifiable inst n k)
    (hs1 : 1 ≤ slack) (he : 1 ≤ e)
    (hdeg : ∀ c ∈ inst.constraints, ∀ t ∈ c.terms, termDegree t ≤ c.degree)
    (hspan : ∀ c ∈ inst.constraints, ∀ d, c.density = .dense d → ∀ t ∈ factors c, ∀ j, t.stepsDifference = .steps j → j ≤ d.span)
    (hrows : ∀ b ∈ inst.boundaryConstraints, b.atRow < inst.numRows)
    (hno : ¬ ∃ witness, IsTable witness n inst.numRows ∧ Satisfies inst (cellR witness) inst.numRows)
    (v : Verifier F) (hver : Verifier.new inst (2 ^ e) = .ok v) (N M : ℕ) (hN : N ≤ 64) (hM : M ≤ 64) (d1 d2 : Domain F)
    (hd1 : Domain.newForSize F (v.columnDomain.size * v.ldeFactor) = .ok d1) (hs1' : d1.size = 2 ^ N)
    (hd2 : Domain.newForSize F (v.constraintsDomain.size * v.ldeFactor) = .ok d2) (hs2' : d2.size = 2 ^ M)
    (hE1 : 2 * E1 + slack * v.columnDomain.size < 2 ^ (N - 1)) (hE2 : 2 * E2 + slack * v.constraintsDomain.size < 2 ^ (M - 1))
    (c : Commitments F) (hcom : c.Ok H v slack) (ch : Challenges F)
    (hcc : ch.constraintChallenges.length = inst.constraints.length)
    (hbc : ch.boundaryChallenges.length = inst.boundaryConstraints.length)
    (hα : ch.h1Challenges.length = v.allMasks.length) (hz : OutOfDomain v ch.z)
    (answer : ℕ → ℕ → InstanceProof F) (B : Finset (ℕ × ℕ)) (hB : B ⊆ oddBelow d1.size ×ˢ oddBelow d2.size)
    (hacc : c.AcceptedAt H v ch d1 d2 answer B)
    (l1 : ¬ LuckyMaskWithin v d1 slack E1 c.fWords ch.z (c.claimed.take v.allMasks.length) ch.h1Challenges)
    (l2 : ¬ (ch.z ∈ consistentPoints v d1 d2 slack E1 E2 c.fWords c.gWord ch.constraintChallenges ch.boundaryChallenges ∧
        LuckyPointWithin v d1 d2 slack E1 E2 c.fWords c.gWord ch.constraintChallenges ch.boundaryChallenges))
    (l3 : ¬ (WinnableWithin v d1 d2 slack E1 E2 c.fWords ch.constraintChallenges ch.boundaryChallenges ∧
        OnlyValue (WinnableWithin v d1 d2 slack E1 E2 c.fWords) ch.constraintChallenges ch.boundaryChallenges))
    (l4 : ¬ c.run1.LuckyWithin d1.generator (Nat.log 2 d1.size) E1) (l5 : ¬ c.run2.LuckyWithin d2.generator (Nat.log 2 d2.size) E2)
    (l6 : ¬ CollisionAmong H (c.HashedAt H answer B)) :
    Nat.card {x : Digest × Digest // ∃ i ∈ B, bytesToChallengeIndex x.1.bytes d1.size v.ldeFactor = .ok i.1 ∧ bytesToChallengeIndex x.2.bytes d2.size v.ldeFactor = .ok i.2} *
        (2 ^ (N - 1) * 2 ^ (M - 1)) ≤
      max ((2 ^ (N - 1) - (E1 + 1)) * 2 ^ (M - 1)) (2 ^ (N - 1) * (2 ^ (M - 1) - (E2 + 1))) * Nat.card (Digest × Digest) := by
  have hv : v.ldeFactor = 2 ^ e := by
    exact (h.built hver).factor
  have hb' := h.built hver
  obtain ⟨K, -, hdom, -⟩ := hb'.domain
  have heN : e ≤ N := by
    obtain ⟨m, hm, e1, e2⟩ := newForSize_inv hd1
    rw [hb'.column, hv, show (domOf F k).size * 2 ^ e = 2 ^ (k + e) from (pow_add _ _ _).symm, nextPow2_pow] at e2
    rw [e1, show (domOf F m).size = 2 ^ m from rfl, e2] at hs1'
    have := Nat.pow_right_injective (le_refl 2) hs1'
    omega
  have heM : e ≤ M := by
    obtain ⟨m, hm, e1, e2⟩ := newForSize_inv hd2
    rw [hdom, hv, show (domOf F K).size * 2 ^ e = 2 ^ (K + e) from (pow_add _ _ _).symm, nextPow2_pow] at e2
    rw [e1, show (domOf F m).size = 2 ^ m from rfl, e2] at hs2'
    have := Nat.pow_right_injective (le_refl 2) hs2'
    omega
  have hN1 : (oddBelow d1.size).card = 2 ^ (N - 1) := by rw [hs1', card_oddBelow_pow (by omega)]
  have hM1 : (oddBelow d2.size).card = 2 ^ (M - 1) := by rw [hs2', card_oddBelow_pow (by omega)]
  have key := C46_query_error_partial H hb hc inst n k e slack E1 E2 h hs1 he hdeg hspan hrows hno v hver d1 d2 hd1 hd2 (by rw [hN1]; exact hE1) (by rw [hM1]; exact hE2)
    c hcom ch hcc hbc hα hz answer B hB hacc l1 l2 l3 l4 l5 l6
  rw [hN1, hM1] at key
  rw [hs1', hs2'] at hB
  rw [hv, hs1', hs2', C75_pair_hits N M e hN hM (he.trans heN) (he.trans heM) B hB]
  exact Nat.mul_le_mul_right _ key

end

/-! ## The hypotheses are met -/

instance : CharP FrStark (StarkField.modulus FrStark) := inferInstanceAs (CharP (ZMod starkPrime) starkPrime)
instance : CharP FrBn (StarkField.modulus FrBn) := inferInstanceAs (CharP (ZMod bnPrime) bnPrime)
instance : CharP Fr (StarkField.modulus Fr) := inferInstanceAs (CharP (ZMod 257) 257)

/-- In the field of the experiments each element below `2^251` is the challenge of exactly 32 digests. -/
example (x : FrStark) (hx : StarkField.repr x < 2 ^ 251) : Nat.card {d : Digest // (interpretHash d : Res FrStark) = .ok x} = 32 := by
  have hn : numBits FrStark = 252 := by
    show Nat.log 2 starkPrime + 1 = 252
    rw [Nat.log_eq_of_pow_le_of_lt_pow (m := 251)] <;> decide +kernel
  have hc : capacity FrStark = 251 := by unfold capacity; rw [hn]
  have h := (C75_challenge_uniform (F := FrStark) ⟨by omega, by omega, by omega⟩ x).2
  rw [hc, if_pos hx] at h
  rw [h]; rfl

/-- In the 255-bit field each element below `2^254` is the challenge of exactly 4 digests; the others, more than 44 of 100 elements, are never drawn. -/
example : (∀ x : FrBn, StarkField.repr x < 2 ^ 254 → Nat.card {d : Digest // (interpretHash d : Res FrBn) = .ok x} = 4) ∧
    Nat.card {x : FrBn // ∀ d, (interpretHash d : Res FrBn) ≠ .ok x} * 100 > bnPrime * 44 := by
  have hn : numBits FrBn = 255 := by
    show Nat.log 2 bnPrime + 1 = 255
    rw [Nat.log_eq_of_pow_le_of_lt_pow (m := 254)] <;> decide +kernel
  have hc : capacity FrBn = 254 := by unfold capacity; rw [hn]
  have hok : ChallengeOk FrBn := ⟨by omega, by omega, by omega⟩
  refine ⟨fun x hx => ?_, ?_⟩
  · have h := (C75_challenge_uniform hok x).2
    rw [hc, if_pos hx] at h
    rw [h]; rfl
  · rw [(C75_never_drawn hok).2, hc]
    show (bnPrime - 2 ^ 254) * 100 > bnPrime * 44
    decide +kernel

/-- A domain of 32 points with LDE factor 8: every odd position is drawn from a sixteenth of the digests, and a prover who answers at 15 of the 16 positions is asked one of them by 15/16 of the digests. -/
example : Nat.card {d : Digest // bytesToChallengeIndex d.bytes (2 ^ 5) (2 ^ 3) = .ok 7} = 2 ^ 252 ∧
    Nat.card {d : Digest // ∃ i ∈ (oddBelow (2 ^ 5)).erase 1, bytesToChallengeIndex d.bytes (2 ^ 5) (2 ^ 3) = .ok i} * 16 = 15 * Nat.card Digest := by
  refine ⟨?_, ?_⟩
  · rw [C75_index_uniform 5 3 (by norm_num) (by norm_num), if_pos (by norm_num)]
  · have h := C75_index_hits 5 3 (by norm_num) (by norm_num) ((oddBelow (2 ^ 5)).erase 1) (erase_subset _ _)
    rw [card_erase_of_mem (mem_oddBelow.2 (by norm_num)), card_oddBelow_pow (by norm_num)] at h
    exact h

end Hodor

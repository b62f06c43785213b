import Verif.Model.Transcript
import Verif.Lemmas.Challenge
import Verif.Props.Merkle

/-! # C21, C22, C23: Fiat–Shamir transcript -/

namespace Hodor

variable {F : Type} [Field F] [StarkField F] (H : List UInt8 → Digest)

/-! ### C21: challenges are valid field elements -/

/-- **C21 (part).** When the bit length of the modulus is not 0 or 1 modulo 64 (and below 256, which the
code asserts), every digest is turned into a field element below `2^CAPACITY`: no panic. -/
theorem C21_challenge_valid_partial (hb : numBits F < 256) (h0 : numBits F % 64 ≠ 0)
    (h1 : numBits F % 64 ≠ 1) (d : Digest) :
    ∃ n, n < 2 ^ capacity F ∧ n < StarkField.modulus F ∧
      (interpretHash d : Res F) = .ok (n : F) ∧
      (encodeRootIntoChallenge d : Res F) = .ok (n : F) ∧
      ∀ t : Transcript, H t.absorbed = d →
        t.getChallenge H = .ok ((n : F), { absorbed := t.absorbed ++ d.bytes }) := by
  have hk := kept_bits hb
  rw [if_neg h0, if_neg h1] at hk
  set n := ofBeBytes (d.bytes.take (8 * limbs F)) % 2 ^ (64 * (limbs F - 1) + (64 - shaveBits F % 64)) with hn
  have hlt : n < 2 ^ capacity F := by
    rw [hn, hk]; exact Nat.mod_lt _ (by positivity)
  have hlt2 : n < StarkField.modulus F := by
    have : 2 ^ capacity F ≤ StarkField.modulus F := by
      unfold capacity numBits
      rw [Nat.add_sub_cancel]
      exact Nat.pow_log_le_self 2 (by have := StarkField.modulus_pos (F := F); omega)
    omega
  have hi : (interpretHash d : Res F) = .ok (n : F) := by
    unfold interpretHash
    have hlim := limbs_le_four hb
    simp only [d.len, hlim, decide_true, Res.assert_true, Res.ok_bind]
    rw [← hn]
    simp [fromRepr, hlt2]
  refine ⟨n, hlt, hlt2, hi, hi, ?_⟩
  rintro t rfl
  unfold Transcript.getChallenge
  simp only [hi, Res.ok_bind, Res.pure_def]

/-- **C21 is false for the remaining fields**: if the bit length of the modulus is 0 or 1 modulo 64 (for
example any 64-bit prime), there is a digest on which deriving a challenge panics. -/
theorem C21_challenge_panics (hb : numBits F < 256) (h : numBits F % 64 = 0 ∨ numBits F % 64 = 1) :
    ∃ d : Digest, (interpretHash d : Res F) = .panic ∧
      ∀ t : Transcript, H t.absorbed = d → (t.getChallenge H : Res (F × Transcript)) = .panic := by
  let d : Digest := ⟨List.replicate 32 255, by simp⟩
  have hk : 64 * (limbs F - 1) + (64 - shaveBits F % 64) = numBits F + 63 := by
    rw [kept_bits hb]; rcases h with h | h <;> simp [h]
  have hlim := limbs_le_four hb
  have hall : ∀ m, ofLeBytes (List.replicate m 255) = 256 ^ m - 1 := by
    intro m
    induction m with
    | zero => rfl
    | succ m ih =>
      rw [List.replicate_succ, ofLeBytes, ih, pow_succ]
      have : 1 ≤ 256 ^ m := Nat.one_le_pow _ _ (by norm_num)
      have h255 : (255 : UInt8).toNat = 255 := rfl
      rw [h255]
      omega
  have hv : ofBeBytes (d.bytes.take (8 * limbs F)) = 256 ^ (8 * limbs F) - 1 := by
    simp only [d, List.take_replicate, ofBeBytes, List.reverse_replicate]
    rw [hall]
    congr 2
    omega
  have hdvd : 2 ^ (numBits F + 63) ∣ 256 ^ (8 * limbs F) := by
    rw [show (256 : ℕ) = 2 ^ 8 by norm_num, ← pow_mul]
    apply pow_dvd_pow
    unfold limbs; omega
  have hmod : (256 ^ (8 * limbs F) - 1) % 2 ^ (numBits F + 63) = 2 ^ (numBits F + 63) - 1 := by
    obtain ⟨c, hc⟩ := hdvd
    have hp : 0 < 2 ^ (numBits F + 63) := by positivity
    have hcp : 0 < c := by
      rcases Nat.eq_zero_or_pos c with h0 | h0
      · rw [h0, Nat.mul_zero] at hc
        have : 0 < 256 ^ (8 * limbs F) := by positivity
        omega
      · exact h0
    rw [hc]
    obtain ⟨c, rfl⟩ : ∃ c', c = c' + 1 := ⟨c - 1, by omega⟩
    have : 2 ^ (numBits F + 63) * (c + 1) - 1
        = (2 ^ (numBits F + 63) - 1) + 2 ^ (numBits F + 63) * c := by
      rw [Nat.mul_add, Nat.mul_one]; omega
    rw [this, Nat.add_mul_mod_self_left, Nat.mod_eq_of_lt (by omega)]
  have hbig : StarkField.modulus F ≤ 2 ^ (numBits F + 63) - 1 := by
    have h1 : StarkField.modulus F < 2 ^ (numBits F) := by
      unfold numBits; exact Nat.lt_pow_succ_log_self (by norm_num) _
    have h2 : 2 ^ (numBits F) ≤ 2 ^ (numBits F + 63) := Nat.pow_le_pow_right (by norm_num) (by omega)
    omega
  have hi : (interpretHash d : Res F) = .panic := by
    unfold interpretHash
    simp only [d.len, hlim, decide_true, Res.assert_true, Res.ok_bind]
    rw [hv, hk, hmod]
    simp [fromRepr, Nat.not_lt.2 hbig]
  refine ⟨d, hi, ?_⟩
  intro t ht
  unfold Transcript.getChallenge
  simp only [ht, hi, Res.panic_bind]

/-- The fields of the repository satisfy the hypotheses of `C21_challenge_valid_partial`:
`src/lib.rs` (257), `src/experiments/mod.rs` (`2^251 + 17·2^192 + 1`),
`src/bn256.rs`. A 64-bit prime such as `2^64 - 2^32 + 1` does not. -/
example : (Nat.log 2 257 + 1 = 9 ∧ 9 % 64 ≠ 0 ∧ 9 % 64 ≠ 1) ∧
    (Nat.log 2 (2 ^ 251 + 17 * 2 ^ 192 + 1) + 1 = 252 ∧ 252 % 64 ≠ 0 ∧ 252 % 64 ≠ 1) ∧
    (Nat.log 2 (2 ^ 64 - 2 ^ 32 + 1) + 1) % 64 = 0 := by
  refine ⟨⟨by decide +kernel, by decide, by decide⟩, ⟨?_, by decide, by decide⟩, ?_⟩
  · rw [(Nat.log_eq_iff (m := 251) (Or.inr ⟨by norm_num, by norm_num⟩)).2 ⟨by norm_num, by norm_num⟩]
  · rw [(Nat.log_eq_iff (m := 63) (Or.inr ⟨by norm_num, by norm_num⟩)).2 ⟨by norm_num, by norm_num⟩]

/-- Concrete challenge in `Fr`. -/
example : ((⟨[]⟩ : Transcript).commitBytes [1, 2, 3]).getChallenge (F := Fr) toyHash
    = .ok (7, ⟨[1, 2, 3] ++ (toyHash [1, 2, 3]).bytes⟩) := by decide +kernel

/-! ### C22: the transcript binds its history -/

/-- One interaction with a transcript. -/
inductive TOp (F : Type) where
  | bytes (b : List UInt8)
  | element (x : F)
  | challengeBytes
  | challenge

/-- Perform one interaction on the model's transcript. -/
def TOp.run (t : Transcript) : TOp F → Res Transcript
  | .bytes b => .ok (t.commitBytes b)
  | .element x => .ok (t.commitFieldElement x)
  | .challengeBytes => .ok (t.getChallengeBytes H).2
  | .challenge => (t.getChallenge H : Res (F × Transcript)) >>= fun r => .ok r.2

/-- Perform a history. -/
def TOp.runAll (t : Transcript) (ops : List (TOp F)) : Res Transcript :=
  forEach ops t (fun o t => TOp.run H t o)

/-- What the protocol fixes about an interaction: its kind and, for raw bytes, their number. -/
def TOp.shape : TOp F → ℕ × ℕ
  | .bytes b => (0, b.length)
  | .element _ => (1, 0)
  | .challengeBytes => (2, 0)
  | .challenge => (3, 0)

theorem encodeElement_inj {x y : F} (h : encodeElement x = encodeElement y) : x = y := by
  have := congrArg ofBeBytes h
  unfold encodeElement at this
  rw [ofBeBytes_beBytes _ _ (lt_trans (StarkField.repr_lt x) modulus_lt_limbs),
    ofBeBytes_beBytes _ _ (lt_trans (StarkField.repr_lt y) modulus_lt_limbs)] at this
  rw [← StarkField.cast_repr x, ← StarkField.cast_repr y, this]

/-- One interaction appends a block whose length is fixed by the shape. -/
theorem TOp.run_append {t t' : Transcript} {o : TOp F} (h : TOp.run H t o = .ok t') :
    ∃ blk, t'.absorbed = t.absorbed ++ blk ∧
      blk.length = (match o with | .bytes b => b.length | .element _ => 8 * limbs F | _ => 32) := by
  cases o with
  | bytes b => cases h; exact ⟨b, rfl, rfl⟩
  | element x => cases h; exact ⟨encodeElement x, rfl, length_beBytes _ _⟩
  | challengeBytes => cases h; exact ⟨(H t.absorbed).bytes, rfl, (H t.absorbed).len⟩
  | challenge =>
    simp only [TOp.run, Res.bind_eq_ok] at h
    obtain ⟨r, hr, h⟩ := h
    cases h
    unfold Transcript.getChallenge at hr
    simp only [Res.bind_eq_ok, Res.pure_def] at hr
    obtain ⟨c, _, hr⟩ := hr
    cases hr
    exact ⟨(H t.absorbed).bytes, rfl, (H t.absorbed).len⟩

theorem TOp.runAll_inj (ops : List (TOp F)) : ∀ (ops' : List (TOp F)) (t s t' s' : Transcript),
    ops.map TOp.shape = ops'.map TOp.shape → t.absorbed.length = s.absorbed.length →
    TOp.runAll H t ops = .ok t' → TOp.runAll H s ops' = .ok s' →
    t'.absorbed = s'.absorbed → t.absorbed = s.absorbed ∧ ops = ops' := by
  induction ops with
  | nil =>
    intro ops' t s t' s' hsh hlen h1 h2 he
    have : ops' = [] := by simpa using hsh.symm
    subst this
    cases h1; cases h2
    exact ⟨he, rfl⟩
  | cons o ops ih =>
    intro ops' t s t' s' hsh hlen h1 h2 he
    cases ops' with
    | nil => simp at hsh
    | cons o' ops' =>
      simp only [List.map_cons, List.cons.injEq] at hsh
      obtain ⟨hso, hsh⟩ := hsh
      obtain ⟨t1, h11, h12⟩ := forEach_eq_ok_cons.1 h1
      obtain ⟨s1, h21, h22⟩ := forEach_eq_ok_cons.1 h2
      obtain ⟨b1, e1, l1⟩ := TOp.run_append H h11
      obtain ⟨b2, e2, l2⟩ := TOp.run_append H h21
      have hbl : b1.length = b2.length := by
        rw [l1, l2]
        cases o <;> cases o' <;> simp [TOp.shape] at hso ⊢ <;> exact hso
      have := ih ops' t1 s1 t' s' hsh (by rw [e1, e2]; simp [hlen, hbl]) h12 h22 he
      obtain ⟨he1, hops⟩ := this
      rw [e1, e2] at he1
      obtain ⟨ha, hb⟩ := List.append_inj he1 hlen
      refine ⟨ha, ?_⟩
      rw [hops]
      congr 1
      cases o with
      | bytes b =>
        cases o' with
        | bytes b' =>
          cases h11; cases h21
          have c1 := List.append_cancel_left e1
          have c2 := List.append_cancel_left e2
          rw [c1, c2, hb]
        | _ => simp [TOp.shape] at hso
      | element x =>
        cases o' with
        | element x' =>
          cases h11; cases h21
          have c1 := List.append_cancel_left e1
          have c2 := List.append_cancel_left e2
          congr 1
          apply encodeElement_inj
          rw [c1, c2, hb]
        | _ => simp [TOp.shape] at hso
      | challengeBytes => cases o' <;> simp [TOp.shape] at hso ⊢
      | challenge => cases o' <;> simp [TOp.shape] at hso ⊢

/-- **C22 (part).** Two histories in which the protocol fixes the kind of every message and the length of
raw byte messages: if they are different sequences, the strings fed to the hash for the next challenge are
different; so if the next challenge bytes agree, that pair of strings is a collision of the hash. -/
theorem C22_transcript_binding_partial (ops ops' : List (TOp F)) (hsh : ops.map TOp.shape = ops'.map TOp.shape)
    (t0 t t' : Transcript) (h0 : Transcript.new F = .ok t0) (h1 : TOp.runAll H t0 ops = .ok t)
    (h2 : TOp.runAll H t0 ops' = .ok t') :
    (ops ≠ ops' → t.absorbed ≠ t'.absorbed) ∧
    (ops ≠ ops' → (t.getChallengeBytes H).1 = (t'.getChallengeBytes H).1 →
      t.absorbed ≠ t'.absorbed ∧ H t.absorbed = H t'.absorbed) := by
  have hne : ops ≠ ops' → t.absorbed ≠ t'.absorbed := fun hne he =>
    hne (TOp.runAll_inj H ops ops' t0 t0 t t' hsh rfl h1 h2 he).2
  exact ⟨hne, fun hn he => ⟨hne hn, Digest.ext' he⟩⟩

/-- **C22** (what a challenge depends on): a challenge is a function of the absorbed bytes, these contain
the whole history (every interaction appends), and asking for a challenge absorbs its digest, so
consecutive challenges are taken on different strings. -/
theorem C22_challenge_depends_on_history (ops : List (TOp F)) : ∀ (t t' : Transcript),
    TOp.runAll H t ops = .ok t' → ∃ blk, t'.absorbed = t.absorbed ++ blk := by
  induction ops with
  | nil => intro t t' h; cases h; exact ⟨[], by simp⟩
  | cons o ops ih =>
    intro t t' h
    obtain ⟨t1, h11, h12⟩ := forEach_eq_ok_cons.1 h
    obtain ⟨b1, e1, _⟩ := TOp.run_append H h11
    obtain ⟨b2, e2⟩ := ih t1 t' h12
    exact ⟨b1 ++ b2, by rw [e2, e1, List.append_assoc]⟩

/-- **C22 is false without the fixed shape**: messages are not framed, so committing `ab` then `c` and
committing `a` then `bc` are different histories with the same state, for every hash function. -/
theorem C22_no_framing (t : Transcript) :
    ∃ ops ops' : List (TOp F), ops ≠ ops' ∧ ops.length = ops'.length ∧
      TOp.runAll H t ops = TOp.runAll H t ops' := by
  refine ⟨[.bytes [1, 2], .bytes [3]], [.bytes [1], .bytes [2, 3]], ?_, rfl, ?_⟩
  · intro h
    have := congrArg (fun l => l.map TOp.shape) h
    simp [TOp.shape] at this
  · simp [TOp.runAll, forEach, TOp.run, Transcript.commitBytes]

/-- Non-vacuity of C22: two runs of the same shape over `Fr` with different messages. -/
example : ∃ t t', Transcript.new Fr = .ok ⟨[]⟩ ∧
    TOp.runAll (F := Fr) toyHash ⟨[]⟩ [.bytes [1, 2], .challenge, .element 5] = .ok t ∧
    TOp.runAll (F := Fr) toyHash ⟨[]⟩ [.bytes [1, 3], .challenge, .element 5] = .ok t' ∧
    t.absorbed ≠ t'.absorbed :=
  ⟨_, _, by decide +kernel, rfl, rfl, by decide +kernel⟩

/-- What is left of a history when message boundaries and kinds are forgotten: the committed bytes in order (`some`), and where a challenge was drawn (`none`). -/
def Spec.events : List (TOp F) → List (Option UInt8)
  | [] => []
  | .bytes b :: l => b.map some ++ Spec.events l
  | .element x :: l => (encodeElement x).map some ++ Spec.events l
  | .challengeBytes :: l => none :: Spec.events l
  | .challenge :: l => none :: Spec.events l

/-- The string fed to the hash after these events, starting from `a`. -/
def feed : List UInt8 → List (Option UInt8) → List UInt8
  | a, [] => a
  | a, some b :: l => feed (a ++ [b]) l
  | a, none :: l => feed (a ++ (H a).bytes) l

theorem feed_some (b : List UInt8) : ∀ (a : List UInt8) (l : List (Option UInt8)), feed H a (b.map some ++ l) = feed H (a ++ b) l := by
  induction b with
  | nil => intro a l; simp
  | cons x b ih => intro a l; simp only [List.map_cons, List.cons_append, feed, ih, List.append_assoc, List.nil_append]

theorem TOp.runAll_feed (ops : List (TOp F)) : ∀ (t t' : Transcript), TOp.runAll H t ops = .ok t' →
    t'.absorbed = feed H t.absorbed (Spec.events ops) := by
  induction ops with
  | nil => intro t t' h; cases h; rfl
  | cons o ops ih =>
    intro t t' h
    obtain ⟨t1, h11, h12⟩ := forEach_eq_ok_cons.1 h
    rw [ih t1 t' h12]
    cases o with
    | bytes b => cases h11; simp only [Spec.events, feed_some]; rfl
    | element x => cases h11; simp only [Spec.events, feed_some]; rfl
    | challengeBytes => cases h11; rfl
    | challenge =>
      simp only [TOp.run, Res.bind_eq_ok] at h11
      obtain ⟨r, hr, h⟩ := h11
      cases h
      unfold Transcript.getChallenge at hr
      simp only [Res.bind_eq_ok, Res.pure_def] at hr
      obtain ⟨c, _, hr⟩ := hr
      cases hr
      rfl

theorem feed_inj : ∀ (l l' : List (Option UInt8)) (a a' : List UInt8), l.map Option.isSome = l'.map Option.isSome →
    a.length = a'.length → feed H a l = feed H a' l' → a = a' ∧ l = l' := by
  intro l
  induction l with
  | nil =>
    intro l' a a' hm _ he
    have : l' = [] := by simpa using hm.symm
    subst this
    exact ⟨he, rfl⟩
  | cons x l ih =>
    intro l' a a' hm hl he
    cases l' with
    | nil => simp at hm
    | cons x' l' =>
      simp only [List.map_cons, List.cons.injEq] at hm
      cases x with
      | some b =>
        cases x' with
        | none => simp at hm
        | some b' =>
          obtain ⟨e1, e2⟩ := ih l' _ _ hm.2 (by simp [hl]) he
          obtain ⟨e3, e4⟩ := List.append_inj e1 hl
          exact ⟨e3, by rw [e2, List.singleton_inj.1 e4]⟩
      | none =>
        cases x' with
        | some b' => simp at hm
        | none =>
          obtain ⟨e1, e2⟩ := ih l' _ _ hm.2 (by simp [hl, Digest.len]) he
          exact ⟨(List.append_inj e1 hl).1, by rw [e2]⟩

/-- **C22 (exactly).** Two histories in which challenges are drawn at the same byte positions feed the same string to the hash, hence get the same next challenge whatever the hash, if and only if
their committed bytes are the same; how the bytes are cut into messages, and whether they are raw or encode field elements, never matters. -/
theorem C22_binding_iff (ops ops' : List (TOp F)) (hsh : (Spec.events ops).map Option.isSome = (Spec.events ops').map Option.isSome)
    (t0 t t' : Transcript) (h0 : Transcript.new F = .ok t0) (h1 : TOp.runAll H t0 ops = .ok t)
    (h2 : TOp.runAll H t0 ops' = .ok t') :
    t.absorbed = t'.absorbed ↔ Spec.events ops = Spec.events ops' := by
  rw [TOp.runAll_feed H ops t0 t h1, TOp.runAll_feed H ops' t0 t' h2]
  exact ⟨fun h => (feed_inj H _ _ _ _ hsh rfl h).2, fun h => by rw [h]⟩

/-- **C22** (challenges are not marked): drawing a challenge and committing its 32 bytes leave the same state, so histories that draw challenges at different positions can feed the same string. -/
theorem C22_challenge_unmarked (t : Transcript) :
    TOp.runAll H t [(.challengeBytes : TOp F)] = TOp.runAll H t [(.bytes (t.getChallengeBytes H).1 : TOp F)] ∧
      Spec.events [(.challengeBytes : TOp F)] ≠ Spec.events [(.bytes (t.getChallengeBytes H).1 : TOp F)] := by
  refine ⟨rfl, fun h => ?_⟩
  have := congrArg List.length h
  simp [Spec.events, Transcript.getChallengeBytes, Digest.len] at this

/-- Non-vacuity of `C22_binding_iff`: a history with a field element and one with its bytes in two pieces, around a challenge. -/
example : ∃ t t', TOp.runAll (F := Fr) toyHash ⟨[]⟩ [.element 5, .challenge, .bytes [7]] = .ok t ∧
    TOp.runAll (F := Fr) toyHash ⟨[]⟩ [.bytes [0, 0, 0, 0, 0], .bytes [0, 0, 5], .challengeBytes, .bytes [7], .bytes []] = .ok t' ∧
    Spec.events (F := Fr) [.element 5, .challenge, .bytes [7]] =
      Spec.events (F := Fr) [.bytes [0, 0, 0, 0, 0], .bytes [0, 0, 5], .challengeBytes, .bytes [7], .bytes []] ∧ t.absorbed = t'.absorbed :=
  ⟨_, _, rfl, rfl, by decide +kernel, by decide +kernel⟩

/-! ### C23: challenge indices -/

/-- **C23** (every factor). For every byte string of at least 8 bytes, every even domain size and every LDE factor, one included, the derived index is inside
the domain and odd. -/
theorem C23_index_odd (bytes : List UInt8) (hb : 8 ≤ bytes.length) (ldeSize ldeFactor : ℕ)
    (hs : 0 < ldeSize) (hs2 : ldeSize % 2 = 0) (hf : 0 < ldeFactor) :
    ∃ idx, bytesToChallengeIndex bytes ldeSize ldeFactor = .ok idx ∧ idx < ldeSize ∧ idx % 2 = 1 := by
  unfold bytesToChallengeIndex
  simp only [hb, hs, hf, decide_true, Res.assert_true, Res.ok_bind, Res.pure_def]
  set n := ofBeBytes (bytes.drop (bytes.length - 8)) % ldeSize with hn
  have hlt : n < ldeSize := Nat.mod_lt _ hs
  set m := (if n % ldeFactor = 0 then (n + 1) % ldeSize else n) with hm
  have hmlt : m < ldeSize := by rw [hm]; split; exact Nat.mod_lt _ hs; exact hlt
  set r := (if m % 2 = 0 then (m + 1) % ldeSize else m) with hr
  have hr2 : r % 2 = 1 := by
    rw [hr]; split
    · rename_i h0
      have h1 : m + 1 < ldeSize := by clear_value m; omega
      rw [Nat.mod_eq_of_lt h1]; clear_value m; omega
    · clear_value m; omega
  refine ⟨r, rfl, ?_, hr2⟩
  rw [hr]; split; exact Nat.mod_lt _ hs; exact hmlt

/-- **C23.** For every byte string of at least 8 bytes, every even domain size and every even LDE factor,
the derived index is inside the domain, odd, and not a multiple of the LDE factor. -/
theorem C23_challenge_index (bytes : List UInt8) (hb : 8 ≤ bytes.length) (ldeSize ldeFactor : ℕ)
    (hs : 0 < ldeSize) (hs2 : ldeSize % 2 = 0) (hf : 0 < ldeFactor) (hf2 : ldeFactor % 2 = 0) :
    ∃ idx, bytesToChallengeIndex bytes ldeSize ldeFactor = .ok idx ∧ idx < ldeSize ∧ idx % 2 = 1 ∧
      idx % ldeFactor ≠ 0 := by
  obtain ⟨r, e1, e2, e3⟩ := C23_index_odd bytes hb ldeSize ldeFactor hs hs2 hf
  refine ⟨r, e1, e2, e3, fun h0 => ?_⟩
  have hd : ldeFactor ∣ r := Nat.dvd_of_mod_eq_zero h0
  have h2 : 2 ∣ ldeFactor := Nat.dvd_of_mod_eq_zero hf2
  have := Nat.mod_eq_zero_of_dvd (h2.trans hd)
  omega

/-- Challenge bytes always have 32 bytes, so the index computation never panics on them. -/
theorem C23_challenge_bytes_length (t : Transcript) : (t.getChallengeBytes H).1.length = 32 :=
  (H t.absorbed).len

/-- Non-vacuity of C23. -/
example : bytesToChallengeIndex (List.replicate 31 0 ++ [32]) 64 16 = .ok 33 := by decide +kernel

end Hodor

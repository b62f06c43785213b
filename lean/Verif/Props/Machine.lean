import Verif.Spec.Machine
import Verif.Props.Verify

/-!
# C62: does the verifier return?
-/

namespace Hodor

open Spec

section run
variable {α β : Type}

@[simp] theorem Run.bind_def (x : Run α) (f : α → Run β) : (x >>= f) = Run.bind x f := rfl
@[simp] theorem Run.pure_def (a : α) : (pure a : Run α) = Run.done (.ok a) := rfl
@[simp] theorem Run.bind_none (f : α → Run β) : Run.bind .running f = .running := rfl
@[simp] theorem Run.bind_ok (a : α) (f : α → Run β) : Run.bind (Run.done (.ok a)) f = f a := rfl
@[simp] theorem Run.bind_err (e : SynthesisError) (f : α → Run β) : Run.bind (Run.done (.err e)) f = Run.done (.err e) := rfl
@[simp] theorem Run.bind_panic (f : α → Run β) : Run.bind (Run.done .panic) f = Run.done .panic := rfl

theorem Run.bind_done (r : Res α) (f : α → Res β) :
    Run.bind (.done r) (fun a => (.done (f a) : Run β)) = Run.done (r >>= f) := by
  cases r <;> rfl

/-- An outcome is unique, and excludes that the call never returns. -/
theorem Returns.unique {run : ℕ → Run α} {r s : Res α} (h1 : Returns run r) (h2 : Returns run s) : r = s := by
  obtain ⟨n, h1⟩ := h1
  obtain ⟨m, h2⟩ := h2
  have e1 := h1 (max n m) (le_max_left _ _)
  rw [h2 (max n m) (le_max_right _ _)] at e1
  injection e1 with e
  exact e.symm

theorem Returns.not_never {run : ℕ → Run α} {r : Res α} (h : Returns run r) : ¬ NeverReturns run := by
  rintro hn
  obtain ⟨n, h⟩ := h
  have := h n le_rfl
  rw [hn n] at this
  cases this

end run

theorem shiftLoop_pow (k acc fuel : ℕ) (h : k ≤ fuel) : shiftLoop fuel (2 ^ k) acc = Run.done (.ok (acc + k)) := by
  induction k generalizing acc fuel with
  | zero => cases fuel <;> simp [shiftLoop]
  | succ k ih =>
    obtain ⟨fuel, rfl⟩ : ∃ m, fuel = m + 1 := ⟨fuel - 1, by omega⟩
    have h1 : 1 < 2 ^ (k + 1) := Nat.one_lt_two_pow (by omega)
    rw [shiftLoop, if_neg (by omega), pow_succ, Nat.mul_div_cancel _ (by norm_num), ih _ _ (by omega)]
    congr 2; omega

theorem shiftLoop_zero (fuel acc : ℕ) : shiftLoop fuel 0 acc = .running := by
  induction fuel generalizing acc with
  | zero => rfl
  | succ fuel ih => rw [shiftLoop, if_neg (by norm_num)]; exact ih _

section domain
variable {F : Type} [Field F] [StarkField F]

theorem newForSizeWord_small (p : Profile) {size fuel : ℕ} (hs : size ≤ 2 ^ 63) (hf : 63 ≤ fuel) :
    newForSizeWord p fuel size = (.done (Domain.newForSize F size) : Run (Domain F)) := by
  have hc : Nat.clog 2 size ≤ 63 := (Nat.clog_le_iff_le_pow (by norm_num)).2 hs
  unfold newForSizeWord nextPow2Word
  rw [if_pos hs]
  simp only [Run.bind_def, Run.bind_ok]
  unfold nextPow2
  rw [shiftLoop_pow _ _ _ (hc.trans hf)]
  simp only [Run.bind_ok, Nat.zero_add]
  congr 1
  rw [newForSize_eq]
  unfold domainOfPower
  by_cases h : Nat.clog 2 size ≤ StarkField.S F
  · rw [if_neg (by omega), if_pos h, squareN_eq]; rfl
  · rw [if_pos (by omega), if_neg h]

theorem newForSizeWord_debug {size : ℕ} (hs : 2 ^ 63 < size) (fuel : ℕ) :
    newForSizeWord .debug fuel size = (.done .panic : Run (Domain F)) := by
  unfold newForSizeWord nextPow2Word
  rw [if_neg (by omega)]; rfl

theorem newForSizeWord_release {size : ℕ} (hs : 2 ^ 63 < size) (fuel : ℕ) :
    newForSizeWord .release fuel size = (.running : Run (Domain F)) := by
  unfold newForSizeWord nextPow2Word
  rw [if_neg (by omega)]
  simp only [Run.bind_def, Run.bind_ok]
  rw [shiftLoop_zero]; rfl

/-- **C62** (domains): up to `2^63` a domain is created as the rest of the model says, in both profiles; above, a debug build panics and a release
build never returns. -/
theorem C62_domain_outcome (size : ℕ) :
    (size ≤ 2 ^ 63 → ∀ p, Returns (fun fuel => newForSizeWord p fuel size) (Domain.newForSize F size)) ∧
    (2 ^ 63 < size → Returns (fun fuel => (newForSizeWord .debug fuel size : Run (Domain F))) .panic ∧
      NeverReturns (fun fuel => (newForSizeWord .release fuel size : Run (Domain F)))) := by
  refine ⟨fun h p => ⟨63, fun fuel hf => newForSizeWord_small p h hf⟩, fun h => ⟨⟨0, fun fuel _ => newForSizeWord_debug h fuel⟩, ?_⟩⟩
  intro fuel
  exact newForSizeWord_release h fuel

end domain

section fri
variable {F : Type} [Field F] [DecidableEq F] [StarkField F]

theorem friStart_eq_in (d f idx : ℕ) : (friStart d f idx : Res (F × FriVState F)) = (do
    let twoInv ← Res.okOr (inverse (1 + 1 : F)) .divisionByZero
    let domain ← Domain.newForSize F (d * f)
    friStartIn twoInv domain idx) := rfl

theorem friStart_wrap (d f idx : ℕ) : (friStart d f idx : Res (F × FriVState F)) = friStart (d * f) 1 idx := by
  rw [friStart_eq_in, friStart_eq_in, Nat.mul_one]

theorem friStartWord_of_mul (p : Profile) {d f m fuel : ℕ} (idx : ℕ) (hm : mulWord p d f = .ok m) (hs : m ≤ 2 ^ 63) (hf : 63 ≤ fuel) :
    friStartWord p fuel d f idx = (.done (friStart m 1 idx) : Run (F × FriVState F)) := by
  unfold friStartWord
  rw [hm, friStart_eq_in, Nat.mul_one]
  simp only [Run.bind_def, Run.bind_ok]
  rw [newForSizeWord_small p hs hf]
  cases Res.okOr (inverse (1 + 1 : F)) .divisionByZero with
  | err e => rfl
  | panic => rfl
  | ok t =>
    simp only [Run.bind_ok, Res.ok_bind]
    exact Run.bind_done _ _

theorem two_inv_ok (hS : 1 ≤ StarkField.S F) :
    (Res.okOr (inverse (1 + 1 : F)) .divisionByZero : Res F) = .ok 2⁻¹ := by
  rw [one_add_one_eq_two, inverse_of_ne (two_ne_zero_of_S hS)]; rfl

theorem friStartWord_debug (hS : 1 ≤ StarkField.S F) {d f : ℕ} (h : 2 ^ 63 < d * f) (idx fuel : ℕ) :
    friStartWord .debug fuel d f idx = (.done .panic : Run (F × FriVState F)) := by
  unfold friStartWord mulWord
  rw [two_inv_ok hS]
  simp only [Run.bind_def, Run.bind_ok]
  split
  · simp only [Run.bind_ok]
    rw [newForSizeWord_debug h]; rfl
  · rfl

theorem mulWord_release (d f : ℕ) : mulWord .release d f = .ok (d * f % 2 ^ 64) := by
  unfold mulWord
  split
  · rename_i h; rw [Nat.mod_eq_of_lt h]
  · rfl

theorem mulWord_small (p : Profile) {d f : ℕ} (h : d * f ≤ 2 ^ 63) : mulWord p d f = .ok (d * f) := by
  unfold mulWord
  rw [if_pos (by omega)]

theorem friStartWord_release (hS : 1 ≤ StarkField.S F) {d f : ℕ} (h : 2 ^ 63 < d * f % 2 ^ 64) (idx fuel : ℕ) :
    friStartWord .release fuel d f idx = (.running : Run (F × FriVState F)) := by
  unfold friStartWord
  rw [mulWord_release, two_inv_ok hS]
  simp only [Run.bind_def, Run.bind_ok]
  rw [newForSizeWord_release h]; rfl

variable (H : List UInt8 → Digest)

theorem verify_eq_start (p : FriProof F) (idx : ℕ) (x : F) : p.verify H idx x = (do
    let ts ← friStart p.initialDegreePlusOne p.ldeFactor idx
    if p.queries.length % 2 ≠ 0 then .err .invalidValue
    else proofRounds H ts.1 p.finalCoefficients idx x 0 (p.roots.zip (chunksExact 2 p.queries)) ts.2) := rfl

theorem friVerifyWord_of_mul (p : Profile) {proof : FriProof F} {m fuel : ℕ} (idx : ℕ) (x : F)
    (hm : mulWord p proof.initialDegreePlusOne proof.ldeFactor = .ok m) (hs : m ≤ 2 ^ 63) (hf : 63 ≤ fuel) :
    proof.verifyWord H p fuel idx x = .done ({ proof with initialDegreePlusOne := m, ldeFactor := 1 }.verify H idx x) := by
  unfold FriProof.verifyWord
  rw [friStartWord_of_mul p idx hm hs hf, verify_eq_start]
  exact Run.bind_done _ _

theorem friVerify_wrap (p : FriProof F) (idx : ℕ) (x : F) :
    { p with initialDegreePlusOne := p.initialDegreePlusOne * p.ldeFactor, ldeFactor := 1 }.verify H idx x = p.verify H idx x := by
  rw [verify_eq_start, verify_eq_start, friStart_wrap p.initialDegreePlusOne]

theorem friVerifyWord_small (p : Profile) {proof : FriProof F} {fuel : ℕ} (idx : ℕ) (x : F) (hs : claimedSize proof ≤ 2 ^ 63) (hf : 63 ≤ fuel) :
    proof.verifyWord H p fuel idx x = .done (proof.verify H idx x) := by
  rw [friVerifyWord_of_mul H p idx x (mulWord_small p hs) hs hf, friVerify_wrap]

theorem friVerifyWord_wrapped {proof : FriProof F} {fuel : ℕ} (idx : ℕ) (x : F) (hs : claimedSize proof % 2 ^ 64 ≤ 2 ^ 63) (hf : 63 ≤ fuel) :
    proof.verifyWord H .release fuel idx x = .done ((wrapped proof).verify H idx x) :=
  friVerifyWord_of_mul H .release idx x (mulWord_release _ _) hs hf

theorem friVerifyWord_debug (hS : 1 ≤ StarkField.S F) {proof : FriProof F} (h : 2 ^ 63 < claimedSize proof) (idx fuel : ℕ) (x : F) :
    proof.verifyWord H .debug fuel idx x = .done .panic := by
  unfold FriProof.verifyWord
  rw [friStartWord_debug hS h]; rfl

theorem friVerifyWord_release (hS : 1 ≤ StarkField.S F) {proof : FriProof F} (h : 2 ^ 63 < claimedSize proof % 2 ^ 64) (idx fuel : ℕ) (x : F) :
    proof.verifyWord H .release fuel idx x = .running := by
  unfold FriProof.verifyWord
  rw [friStartWord_release hS h]; rfl

/-- **C62** (FRI): the exact behaviour of FRI verification with 64-bit words, for every claimed size. Up to `2^63` the verdict is that of the model. Above,
a debug build panics. A release build reduces the size modulo `2^64`: if the residue is above `2^63` it never returns, otherwise its verdict is that of
the model on the proof with the reduced size. -/
theorem C62_fri_outcome (hS : 1 ≤ StarkField.S F) (proof : FriProof F) (idx : ℕ) (x : F) :
    (claimedSize proof ≤ 2 ^ 63 → ∀ p, Returns (fun fuel => proof.verifyWord H p fuel idx x) (proof.verify H idx x)) ∧
    (2 ^ 63 < claimedSize proof → Returns (fun fuel => proof.verifyWord H .debug fuel idx x) .panic) ∧
    (claimedSize proof % 2 ^ 64 ≤ 2 ^ 63 →
      Returns (fun fuel => proof.verifyWord H .release fuel idx x) ((wrapped proof).verify H idx x)) ∧
    (2 ^ 63 < claimedSize proof % 2 ^ 64 → NeverReturns (fun fuel => proof.verifyWord H .release fuel idx x)) :=
  ⟨fun h p => ⟨63, fun fuel hf => friVerifyWord_small H p idx x h hf⟩,
   fun h => ⟨0, fun fuel _ => friVerifyWord_debug H hS h idx fuel x⟩,
   fun h => ⟨63, fun fuel hf => friVerifyWord_wrapped H idx x h hf⟩,
   fun h fuel => friVerifyWord_release H hS h idx fuel x⟩

/-- **C62** (prototypes): the same for `verify_prototype`. -/
theorem C62_prototype_outcome (hS : 1 ≤ StarkField.S F) (proof : FriPrototype F) (leaf : Poly F .values) (idx : ℕ) :
    (proof.initialDegreePlusOne * proof.ldeFactor ≤ 2 ^ 63 → ∀ p,
      Returns (fun fuel => proof.verifyWord p fuel leaf idx) (proof.verify leaf idx)) ∧
    (2 ^ 63 < proof.initialDegreePlusOne * proof.ldeFactor → Returns (fun fuel => proof.verifyWord .debug fuel leaf idx) .panic) ∧
    (2 ^ 63 < proof.initialDegreePlusOne * proof.ldeFactor % 2 ^ 64 → NeverReturns (fun fuel => proof.verifyWord .release fuel leaf idx)) := by
  refine ⟨fun h p => ⟨63, fun fuel hf => ?_⟩, fun h => ⟨0, fun fuel _ => ?_⟩, fun h fuel => ?_⟩
  · show FriPrototype.verifyWord p fuel proof leaf idx = _
    unfold FriPrototype.verifyWord FriPrototype.verify
    rw [friStartWord_of_mul p idx (mulWord_small p h) h hf, ← friStart_wrap]
    exact Run.bind_done _ _
  · show FriPrototype.verifyWord .debug fuel proof leaf idx = _
    unfold FriPrototype.verifyWord
    rw [friStartWord_debug hS h]; rfl
  · show FriPrototype.verifyWord .release fuel proof leaf idx = _
    unfold FriPrototype.verifyWord
    rw [friStartWord_release hS h]; rfl

end fri

section stark
variable {F : Type} [Field F] [DecidableEq F] [StarkField F] (H : List UInt8 → Digest)

/-- The verifier with words, given what its two FRI calls do. -/
theorem verifyWord_of_fri (p : Profile) (v : Verifier F) (proof proof' : InstanceProof F) (fuel : ℕ)
    (hp : proof' = { proof with friProofH1 := proof'.friProofH1, friProofH2 := proof'.friProofH2 })
    (hc1 : proof'.friProofH1.finalCoefficients = proof.friProofH1.finalCoefficients)
    (hc2 : proof'.friProofH2.finalCoefficients = proof.friProofH2.finalCoefficients)
    (h1 : ∀ idx x, proof.friProofH1.verifyWord H p fuel idx x = .done (proof'.friProofH1.verify H idx x))
    (h2 : ∀ idx x, proof.friProofH2.verifyWord H p fuel idx x = .done (proof'.friProofH2.verify H idx x)) :
    v.verifyWord H p fuel proof = .done (v.verify H proof') := by
  have e1 : v.deriveChallenges H proof' = v.deriveChallenges H proof := by
    unfold Verifier.deriveChallenges
    rw [hc1, hc2, hp]
  have e2 : proof'.fQueries = proof.fQueries := by rw [hp]
  have e3 : proof'.fIopRoots = proof.fIopRoots := by rw [hp]
  have e4 : proof'.gQuery = proof.gQuery := by rw [hp]
  have e5 : proof'.gIopRoot = proof.gIopRoot := by rw [hp]
  have e6 : proof'.fAtZM = proof.fAtZM := by rw [hp]
  unfold Verifier.verifyWord Verifier.verify
  rw [e1, e2, e3]
  cases v.deriveChallenges H proof with
  | err e => rfl
  | panic => rfl
  | ok s =>
    obtain ⟨ch, d1, d2⟩ := s
    simp only [Run.bind_def, Run.bind_ok, Res.ok_bind]
    split
    · rfl
    split
    · rfl
    unfold Verifier.verifyBodyWord Verifier.verifyBody
    rw [e2, e3]
    cases checkQueries H ch.idx1 (proof.fQueries.zip proof.fIopRoots) with
    | none => rfl
    | some l =>
      simp only
      rw [e6]
      cases v.simulateH1 ch.h1Challenges ch.idx1 d1 l proof.fAtZM ch.z with
      | err e => rfl
      | panic => rfl
      | ok a =>
        cases v.calculateGAtZ ch.constraintChallenges ch.boundaryChallenges proof.fAtZM ch.z with
        | err e => rfl
        | panic => rfl
        | ok b =>
          simp only [Run.bind_def, Run.bind_ok, Res.ok_bind]
          unfold verifyGWord Verifier.verifyG
          rw [e4, e5]
          split
          · rfl
          split
          · rfl
          cases simulateH2 ch.idx2 d2 proof.gQuery.value ch.z b with
          | err e => rfl
          | panic => rfl
          | ok c =>
            simp only [Run.bind_def, Run.bind_ok, Res.ok_bind]
            rw [h1]
            cases proof'.friProofH1.verify H ch.idx1 a with
            | err e => rfl
            | panic => rfl
            | ok valid =>
              simp only [Run.bind_ok, Res.ok_bind]
              cases valid with
              | false => rfl
              | true =>
                simp only [Bool.true_eq_false, if_false]
                exact h2 _ _

/-- **C62**, the part that holds: as long as the sizes claimed by the two FRI proofs are at most `2^63`, the verifier returns, in both profiles, and its verdict is
that of the model. Missing: larger claimed sizes (see `C62_never_returns`). -/
theorem C62_verify_returns_partial (p : Profile) (v : Verifier F) (proof : InstanceProof F)
    (h1 : claimedSize proof.friProofH1 ≤ 2 ^ 63) (h2 : claimedSize proof.friProofH2 ≤ 2 ^ 63) :
    Returns (fun fuel => v.verifyWord H p fuel proof) (v.verify H proof) :=
  ⟨63, fun fuel hf => verifyWord_of_fri H p v proof proof fuel rfl rfl rfl (fun idx x => friVerifyWord_small H p idx x h1 hf)
    (fun idx x => friVerifyWord_small H p idx x h2 hf)⟩

/-- **C62** (release verdict): a release build cannot tell claimed sizes apart that agree modulo `2^64`. -/
theorem C62_release_verdict (v : Verifier F) (proof : InstanceProof F)
    (h1 : claimedSize proof.friProofH1 % 2 ^ 64 ≤ 2 ^ 63) (h2 : claimedSize proof.friProofH2 % 2 ^ 64 ≤ 2 ^ 63) :
    Returns (fun fuel => v.verifyWord H .release fuel proof) (v.verify H (wrappedProof proof)) :=
  ⟨63, fun fuel hf => verifyWord_of_fri H .release v proof (wrappedProof proof) fuel rfl rfl rfl (fun idx x => friVerifyWord_wrapped H idx x h1 hf)
    (fun idx x => friVerifyWord_wrapped H idx x h2 hf)⟩

/-- The proof with another header of the first FRI proof. -/
def withHeader (proof : InstanceProof F) (degreePlusOne factor : ℕ) : InstanceProof F :=
  let fri := { proof.friProofH1 with initialDegreePlusOne := degreePlusOne, ldeFactor := factor }
  { proof with friProofH1 := fri }

/-- If a proof is accepted, then with any other header the verifier does what its first FRI call does, unless that accepts. -/
theorem verifyWord_withHeader (p : Profile) (v : Verifier F) (proof : InstanceProof F) (d f fuel : ℕ) (r : Run Bool)
    (hr : r = .running ∨ r = .done .panic) (hacc : v.verify H proof = .ok true)
    (h1 : ∀ idx x, (withHeader proof d f).friProofH1.verifyWord H p fuel idx x = r) :
    v.verifyWord H p fuel (withHeader proof d f) = r := by
  unfold Verifier.verify at hacc
  obtain ⟨⟨ch, d1, d2⟩, e1, hacc⟩ := Res.bind_eq_ok.1 hacc
  simp only at hacc
  have e1' : v.deriveChallenges H (withHeader proof d f) = .ok (ch, d1, d2) := e1
  by_cases c1 : proof.fQueries.length ≠ v.inst.numRegisters
  · rw [if_pos c1] at hacc; cases hacc
  rw [if_neg c1] at hacc
  by_cases c2 : proof.fQueries.length ≠ proof.fIopRoots.length
  · rw [if_pos c2] at hacc; cases hacc
  rw [if_neg c2] at hacc
  unfold Verifier.verifyWord
  rw [e1']
  simp only [Run.bind_def, Run.bind_ok]
  have c1' : ¬ (withHeader proof d f).fQueries.length ≠ v.inst.numRegisters := c1
  have c2' : ¬ (withHeader proof d f).fQueries.length ≠ (withHeader proof d f).fIopRoots.length := c2
  rw [if_neg c1', if_neg c2']
  unfold Verifier.verifyBody at hacc
  unfold Verifier.verifyBodyWord
  have e2 : checkQueries H ch.idx1 ((withHeader proof d f).fQueries.zip (withHeader proof d f).fIopRoots) =
      checkQueries H ch.idx1 (proof.fQueries.zip proof.fIopRoots) := rfl
  rw [e2]
  cases hq : checkQueries H ch.idx1 (proof.fQueries.zip proof.fIopRoots) with
  | none => rw [hq] at hacc; cases hacc
  | some l =>
    rw [hq] at hacc
    simp only at hacc ⊢
    obtain ⟨a, e3, hacc⟩ := Res.bind_eq_ok.1 hacc
    obtain ⟨b, e4, hacc⟩ := Res.bind_eq_ok.1 hacc
    have e3' : v.simulateH1 ch.h1Challenges ch.idx1 d1 l (withHeader proof d f).fAtZM ch.z = .ok a := e3
    have e4' : v.calculateGAtZ ch.constraintChallenges ch.boundaryChallenges (withHeader proof d f).fAtZM ch.z = .ok b := e4
    rw [e3', e4']
    simp only [Run.bind_def, Run.bind_ok]
    unfold Verifier.verifyG at hacc
    unfold verifyGWord
    by_cases c3 : verifyQuery H proof.gQuery proof.gIopRoot = false
    · rw [if_pos c3] at hacc; cases hacc
    rw [if_neg c3] at hacc
    by_cases c4 : proof.gQuery.index ≠ ch.idx2
    · rw [if_pos c4] at hacc; cases hacc
    rw [if_neg c4] at hacc
    have c3' : ¬ verifyQuery H (withHeader proof d f).gQuery (withHeader proof d f).gIopRoot = false := c3
    have c4' : ¬ (withHeader proof d f).gQuery.index ≠ ch.idx2 := c4
    rw [if_neg c3', if_neg c4']
    obtain ⟨c, e5, -⟩ := Res.bind_eq_ok.1 hacc
    have e5' : simulateH2 ch.idx2 d2 (withHeader proof d f).gQuery.value ch.z b = .ok c := e5
    rw [e5']
    simp only [Run.bind_def, Run.bind_ok]
    rw [h1]
    rcases hr with rfl | rfl <;> rfl

/-- **C62** is false of the code: take any accepted proof and replace two numbers in it, the header of its first FRI proof, by words `d` and `f`. If
`d * f` is above `2^63` modulo `2^64` the release build never returns, and if it is above `2^63` the debug build panics. -/
theorem C62_never_returns (hS : 1 ≤ StarkField.S F) (v : Verifier F) (proof : InstanceProof F) (hacc : v.verify H proof = .ok true) (d f : ℕ) :
    (2 ^ 63 < d * f % 2 ^ 64 → NeverReturns (fun fuel => v.verifyWord H .release fuel (withHeader proof d f))) ∧
    (2 ^ 63 < d * f → Returns (fun fuel => v.verifyWord H .debug fuel (withHeader proof d f)) .panic) :=
  ⟨fun h fuel => verifyWord_withHeader H .release v proof d f fuel _ (Or.inl rfl) hacc
      (fun idx x => friVerifyWord_release H hS (proof := (withHeader proof d f).friProofH1) h idx fuel x),
   fun h => ⟨0, fun fuel _ => verifyWord_withHeader H .debug v proof d f fuel _ (Or.inr rfl) hacc
      (fun idx x => friVerifyWord_debug H hS (proof := (withHeader proof d f).friProofH1) h idx fuel x)⟩⟩

/-- In particular the header `(2^63 + 1, 1)`, which consists of two words. -/
theorem C62_one_header (hS : 1 ≤ StarkField.S F) (v : Verifier F) (proof : InstanceProof F) (hacc : v.verify H proof = .ok true) :
    NeverReturns (fun fuel => v.verifyWord H .release fuel (withHeader proof (2 ^ 63 + 1) 1)) ∧
    Returns (fun fuel => v.verifyWord H .debug fuel (withHeader proof (2 ^ 63 + 1) 1)) .panic :=
  ⟨(C62_never_returns H hS v proof hacc _ _).1 (by norm_num), (C62_never_returns H hS v proof hacc _ _).2 (by norm_num)⟩

/-- An accepted proof stays accepted by a release build when `2^64` is added to the size claimed by its first FRI proof. -/
theorem C62_alias (v : Verifier F) (proof : InstanceProof F) (hacc : v.verify H proof = .ok true) (d f : ℕ)
    (h1 : claimedSize proof.friProofH1 ≤ 2 ^ 63) (h2 : claimedSize proof.friProofH2 ≤ 2 ^ 63)
    (hdf : d * f % 2 ^ 64 = claimedSize proof.friProofH1) :
    Returns (fun fuel => v.verifyWord H .release fuel (withHeader proof d f)) (.ok true) := by
  refine ⟨63, fun fuel hf => ?_⟩
  rw [← hacc]
  refine verifyWord_of_fri H .release v (withHeader proof d f) proof fuel rfl rfl rfl (fun idx x => ?_)
    (fun idx x => friVerifyWord_small H .release idx x h2 hf)
  rw [friVerifyWord_of_mul H .release idx x (mulWord_release _ _) (le_of_eq_of_le (b := claimedSize proof.friProofH1) hdf h1) hf]
  have e : d * f % 2 ^ 64 = proof.friProofH1.initialDegreePlusOne * proof.friProofH1.ldeFactor := hdf
  rw [← friVerify_wrap H proof.friProofH1]
  rw [← e]
  rfl

end stark

/-! ### Concrete instances -/

/-- Sizes claimed by the honest Fibonacci proof, the verdict of the word-level verifier on it, on the proof with header `(2^63 + 1, 1)` in both
profiles after 100 loop iterations, and with header `(2^61 + 1, 8)`, whose product is the claimed size plus `2^64`. -/
def wordVerdicts : Res (ℕ × ℕ × Bool × Bool × Bool × Bool) := do
  let inst := fibInst Fr 2 1 1
  let prover ← Prover.new ⟨1, by norm_num⟩ inst 2 1
  let v ← Verifier.new inst 2
  let proof ← prover.prove toyHash [[1, 1, 2, 3], [1, 2, 3, 5]]
  let bad := withHeader proof (2 ^ 63 + 1) 1
  let a := decide (v.verifyWord toyHash .debug 63 proof = .done (.ok true))
  let b := decide (v.verifyWord toyHash .debug 63 bad = .done .panic)
  let c := decide (v.verifyWord toyHash .release 100 bad = .running)
  let e := decide (v.verifyWord toyHash .release 63 (withHeader proof (2 ^ 61 + 1) 8) = .done (.ok true))
  pure (claimedSize proof.friProofH1, claimedSize proof.friProofH2, a, b, c, e)

example : wordVerdicts = .ok (8, 8, true, true, true, true) := by decide +kernel

end Hodor

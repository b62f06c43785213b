import Verif.Model.MachineVerifier
import Verif.Props.Machine
import Verif.Props.Profile
import Verif.Props.Cost

/-!
# C78: the whole verifier in the two build profiles
-/

namespace Hodor

open Spec

/-! ## Comparing the profiles with the unbounded model -/

/-- If the run with overflow checks ended without a panic, then the run without ended with the same outcome, which is that of the model. -/
def Run.Below {α : Type} (debug release : Run α) (model : Res α) : Prop :=
  debug = .running ∨ debug = .done .panic ∨ (debug = .done model ∧ release = .done model)

namespace Run.Below

variable {α β : Type}

theorem refl (r : Res α) : Below (.done r) (.done r) r := .inr (.inr ⟨rfl, rfl⟩)

theorem bind {x y : Run α} {z : Res α} {f g : α → Run β} {h : α → Res β} (hx : Below x y z) (hf : ∀ a, Below (f a) (g a) (h a)) :
    Below (x >>= f) (y >>= g) (z >>= h) := by
  rcases hx with rfl | rfl | ⟨rfl, rfl⟩
  · exact .inl rfl
  · exact .inr (.inl rfl)
  · cases z with
    | ok a => exact hf a
    | err e => exact refl (.err e)
    | panic => exact refl .panic

theorem of_refines {a b c : Res α} (h1 : a = c) (h2 : Refines a b) : Below (.done a) (.done b) c := by
  subst h1
  rcases h2 with h | h
  · rw [h]; exact .inr (.inl rfl)
  · rw [h]; exact refl a

theorem mul (a b : ℕ) : Below (.done (mulWord .debug a b)) (.done (mulWord .release a b)) (.ok (a * b)) := by
  unfold mulWord
  split
  · exact refl _
  · exact .inr (.inl rfl)

theorem nextPow2 (n : ℕ) : Below (.done (nextPow2Word .debug n)) (.done (nextPow2Word .release n)) (.ok (Hodor.nextPow2 n)) := by
  unfold nextPow2Word
  split
  · exact refl _
  · exact .inr (.inl rfl)

end Run.Below

theorem shiftLoop_short (k acc fuel : ℕ) (h : fuel < k) : shiftLoop fuel (2 ^ k) acc = .running := by
  induction fuel generalizing k acc with
  | zero =>
    have h1 : 1 < 2 ^ k := Nat.one_lt_two_pow (by omega)
    rw [shiftLoop, if_neg (by omega)]
  | succ fuel ih =>
    obtain ⟨k, rfl⟩ : ∃ m, k = m + 1 := ⟨k - 1, by omega⟩
    have h1 : 1 < 2 ^ (k + 1) := Nat.one_lt_two_pow (by omega)
    rw [shiftLoop, if_neg (by omega), pow_succ, Nat.mul_div_cancel _ (by norm_num), ih _ _ (by omega)]

section
variable {F : Type} [Field F] [StarkField F]

theorem newForSizeWord_fuel (p : Profile) {size : ℕ} (hs : size ≤ 2 ^ 63) (fuel : ℕ) :
    newForSizeWord p fuel size = (.running : Run (Domain F)) ∨ newForSizeWord p fuel size = .done (Domain.newForSize F size) := by
  have e : (newForSizeWord p fuel size : Run (Domain F)) = Run.bind (shiftLoop fuel (2 ^ Nat.clog 2 size) 0) (fun k => .done (domainOfPower (2 ^ Nat.clog 2 size) k)) := by
    unfold newForSizeWord nextPow2Word
    rw [if_pos hs]
    rfl
  by_cases h : fuel < Nat.clog 2 size
  · left
    rw [e, shiftLoop_short _ _ _ h]; rfl
  · right
    rw [e, shiftLoop_pow _ _ _ (by omega)]
    simp only [Run.bind_ok, Nat.zero_add]
    congr 1
    rw [newForSize_eq]
    unfold domainOfPower
    by_cases h : Nat.clog 2 size ≤ StarkField.S F
    · rw [if_neg (by omega), if_pos h, squareN_eq]; rfl
    · rw [if_pos (by omega), if_neg h]

theorem newForSizeWord_profile {size : ℕ} (hs : size ≤ 2 ^ 63) (fuel : ℕ) (p q : Profile) :
    (newForSizeWord p fuel size : Run (Domain F)) = newForSizeWord q fuel size := by
  unfold newForSizeWord nextPow2Word
  rw [if_pos hs, if_pos hs]

theorem Run.Below.domain (fuel size : ℕ) :
    Run.Below (newForSizeWord .debug fuel size) (newForSizeWord .release fuel size) (Domain.newForSize F size) := by
  by_cases h : size ≤ 2 ^ 63
  · rw [newForSizeWord_profile h fuel .release .debug]
    rcases newForSizeWord_fuel (F := F) .debug h fuel with e | e
    · exact .inl e
    · rw [e]; exact Run.Below.refl _
  · exact .inr (.inl (newForSizeWord_debug (by omega) fuel))

end

section
variable {F : Type} [Field F] [DecidableEq F] [StarkField F] (H : List UInt8 → Digest)

theorem below_new (fuel : ℕ) (inst : InstanceProperties F) (factor : ℕ) :
    Run.Below (Verifier.newWord .debug fuel inst factor) (Verifier.newWord .release fuel inst factor) (Verifier.new inst factor) := by
  unfold Verifier.newWord Verifier.new
  refine (Run.Below.bind (z := .ok (nextPow2 inst.numRows)) (Run.Below.nextPow2 _) fun n => Run.Below.bind (Run.Below.domain fuel n) fun d =>
    Run.Below.bind (Run.Below.refl _) fun cs => Run.Below.bind (z := .ok (nextPow2 (maxDegree cs))) (Run.Below.nextPow2 _) fun m =>
    Run.Below.bind (z := .ok (m * n)) (Run.Below.mul _ _) fun s => Run.Below.bind (Run.Below.domain fuel s) fun d2 =>
    Run.Below.bind (Run.Below.refl _) fun _ => Run.Below.refl _)

theorem inverseDivisorAtWord_debug (x : F) (d : Domain F) (c : DenseConstraint) (n : ℕ) :
    inverseDivisorAtWord .debug x d c n = inverseDivisorAt x d c n :=
  (C72_debug ⟨1, [], 0⟩ ⟨1, [], 0⟩ ⟨1, .register 0, .steps 0, 1⟩ ⟨0, 0, [], []⟩ [] x d c n (by simp)).2.2.2.2

theorem refines_inverseDivisor (x : F) (d : Domain F) (c : DenseConstraint) (n : ℕ) :
    Refines (inverseDivisorAtWord .debug x d c n) (inverseDivisorAtWord .release x d c n) :=
  (C72_refines ⟨1, [], 0⟩ ⟨1, [], 0⟩ ⟨1, .register 0, .steps 0, 1⟩ ⟨0, 0, [], []⟩ [] x d c n).2.2.2.2

theorem calculateGAtZWord_debug (v : Verifier F) (cc bc : List (F × F)) (l : List F) (z : F) :
    v.calculateGAtZWord .debug cc bc l z = v.calculateGAtZ cc bc l z := by
  have e : ∀ b : ConstraintDensity, densityDivisorAtWord .debug z v.columnDomain v.inst.numRows b = densityDivisorAt z v.columnDomain v.inst.numRows b := by
    intro b
    cases b with
    | dense d => exact inverseDivisorAtWord_debug _ _ _ _
    | repeated d => rfl
    | sparse d => rfl
  unfold Verifier.calculateGAtZWord Verifier.calculateGAtZ
  simp only [e]

theorem refines_calculateGAtZ (v : Verifier F) (cc bc : List (F × F)) (l : List F) (z : F) :
    Refines (v.calculateGAtZWord .debug cc bc l z) (v.calculateGAtZWord .release cc bc l z) := by
  refine Refines.bind (Refines.rfl' _) fun values => Refines.bind (Refines.forEach _ (fun b s => Refines.bind ?_ fun _ => Refines.rfl' _) _) fun _ => Refines.rfl' _
  cases b.1 with
  | dense d => exact refines_inverseDivisor _ _ _ _
  | repeated d => exact Refines.rfl' _
  | sparse d => exact Refines.rfl' _

theorem deriveChallenges_eq (v : Verifier F) (proof : InstanceProof F) : v.deriveChallenges H proof = (do
    let (cc, bc, z, h1c, t) ← v.transcriptPart H proof
    let fLdeSize ← Res.ok (v.columnDomain.size * v.ldeFactor)
    let gLdeSize ← Res.ok (v.constraintsDomain.size * v.ldeFactor)
    let fDomain ← Domain.newForSize F fLdeSize
    let gDomain ← Domain.newForSize F gLdeSize
    let (b1, t) := t.getChallengeBytes H
    let idx1 ← bytesToChallengeIndex b1 fLdeSize v.ldeFactor
    let (b2, _) := t.getChallengeBytes H
    let idx2 ← bytesToChallengeIndex b2 gLdeSize v.ldeFactor
    pure ({ constraintChallenges := cc, boundaryChallenges := bc, z := z, h1Challenges := h1c,
            idx1 := idx1, idx2 := idx2 }, fDomain, gDomain)) := by
  unfold Verifier.deriveChallenges Verifier.transcriptPart
  simp only [bind_assoc, pure_bind, Res.ok_bind]

theorem below_challenges (fuel : ℕ) (v : Verifier F) (proof : InstanceProof F) :
    Run.Below (v.deriveChallengesWord H .debug fuel proof) (v.deriveChallengesWord H .release fuel proof) (v.deriveChallenges H proof) := by
  rw [deriveChallenges_eq]
  unfold Verifier.deriveChallengesWord
  refine Run.Below.bind (Run.Below.refl _) fun x => Run.Below.bind (Run.Below.mul _ _) fun fs => Run.Below.bind (Run.Below.mul _ _) fun gs =>
    Run.Below.bind (Run.Below.domain fuel fs) fun d1 => Run.Below.bind (Run.Below.domain fuel gs) fun d2 =>
    Run.Below.bind (Run.Below.refl _) fun _ => Run.Below.bind (Run.Below.refl _) fun _ => Run.Below.refl _

theorem below_fri (fuel : ℕ) (p : FriProof F) (idx : ℕ) (x : F) :
    Run.Below (p.verifyWord H .debug fuel idx x) (p.verifyWord H .release fuel idx x) (p.verify H idx x) := by
  rw [verify_eq_start, friStart_eq_in]
  unfold FriProof.verifyWord friStartWord
  refine Run.Below.bind (Run.Below.bind (Run.Below.refl _) fun t => ?_) fun _ => Run.Below.refl _
  exact Run.Below.bind (z := .ok (p.initialDegreePlusOne * p.ldeFactor)) (Run.Below.mul _ _) fun s => Run.Below.bind (Run.Below.domain fuel s) fun d => Run.Below.refl _

theorem below_verify (fuel : ℕ) (v : Verifier F) (proof : InstanceProof F) :
    Run.Below (v.verifyMachine H .debug fuel proof) (v.verifyMachine H .release fuel proof) (v.verify H proof) := by
  unfold Verifier.verifyMachine Verifier.verify
  refine Run.Below.bind (below_challenges H fuel v proof) fun x => ?_
  obtain ⟨ch, d1, d2⟩ := x
  simp only
  split
  · exact Run.Below.refl _
  split
  · exact Run.Below.refl _
  unfold Verifier.verifyBodyMachine Verifier.verifyBody
  cases checkQueries H ch.idx1 (proof.fQueries.zip proof.fIopRoots) with
  | none => exact Run.Below.refl (.ok false)
  | some l =>
    refine Run.Below.bind (Run.Below.refl _) fun a => Run.Below.bind
      (Run.Below.of_refines (calculateGAtZWord_debug v _ _ _ _) (refines_calculateGAtZ v _ _ _ _)) fun b => ?_
    unfold verifyGWord Verifier.verifyG
    split
    · exact Run.Below.refl (.ok false)
    split
    · exact Run.Below.refl (.ok false)
    refine Run.Below.bind (Run.Below.refl _) fun c => Run.Below.bind (below_fri H fuel _ _ _) fun valid => ?_
    split
    · exact Run.Below.refl (.ok false)
    · exact below_fri H fuel _ _ _

/-- **C78** (what a debug build returns, every build returns). If a build with overflow checks ends its setup or a verification without a panic — after any number of loop iterations, for
any instance, LDE factor, verifier and proof —, then its outcome, a value or an error, is that of the model with unbounded numbers, and a build without overflow checks ends with the same
outcome. -/
theorem C78_debug_verdict (fuel : ℕ) :
    (∀ (inst : InstanceProperties F) (factor : ℕ) (r : Res (Verifier F)), Verifier.newWord .debug fuel inst factor = .done r → r ≠ .panic →
      Verifier.new inst factor = r ∧ Verifier.newWord .release fuel inst factor = .done r) ∧
    (∀ (v : Verifier F) (proof : InstanceProof F) (r : Res Bool), v.verifyMachine H .debug fuel proof = .done r → r ≠ .panic →
      v.verify H proof = r ∧ v.verifyMachine H .release fuel proof = .done r) := by
  refine ⟨fun inst factor r h hr => ?_, fun v proof r h hr => ?_⟩
  · rcases below_new fuel inst factor with e | e | ⟨e1, e2⟩
    · rw [e] at h; cases h
    · rw [e] at h; cases h; exact absurd rfl hr
    · rw [e1] at h; cases h; exact ⟨rfl, e2⟩
  · rcases below_verify H fuel v proof with e | e | ⟨e1, e2⟩
    · rw [e] at h; cases h
    · rw [e] at h; cases h; exact absurd rfl hr
    · rw [e1] at h; cases h; exact ⟨rfl, e2⟩

/-! ## When the sizes fit -/

theorem nextPow2_le_of_le {n k : ℕ} (h : n ≤ 2 ^ k) : nextPow2 n ≤ 2 ^ k :=
  Nat.pow_le_pow_right (by norm_num) ((Nat.clog_le_iff_le_pow (by norm_num)).2 h)

/-- The part of the setup after the domains. -/
def setupRest (inst : InstanceProperties F) (factor : ℕ) (cs : List (Constraint F)) (d1 d2 : Domain F) : Verifier F :=
  { inst := { inst with constraints := cs }, maxConstraintPower := maxDegree cs, columnDomain := d1, constraintsDomain := d2,
    allMasks := inst.boundaryConstraints.foldl getMaskFromBoundaryConstraint (cs.foldl getMasksFromConstraint []),
    allBoundaryConstrainedRegisters := inst.boundaryConstraints.foldl (fun s b => insertSet s b.register) [],
    constraintsBatchedByDensity := cs.foldl (fun m c => pushBatch c m) [], ldeFactor := factor }

theorem setup_assert (cs : List (Constraint F)) :
    forEach (cs.foldl (fun m c => pushBatch c m) []) () (fun b _ => forEach b.2 () (fun c _ => Res.assert (decide (c.degree ≤ maxDegree cs)))) = .ok () := by
  apply forEach_unit
  intro b hb
  apply forEach_unit
  intro c hc
  obtain ⟨-, hmem⟩ := batch_inv cs [] [] (by simp) b hb
  have : c.degree ≤ maxDegree cs := le_maxDegree (by simpa using (hmem c hc).1)
  rw [decide_eq_true this]
  rfl

theorem newWord_eq (p : Profile) (fuel : ℕ) (inst : InstanceProperties F) (factor : ℕ) : Verifier.newWord p fuel inst factor = (do
    let n ← Run.done (nextPow2Word p inst.numRows)
    let d1 ← newForSizeWord p fuel n
    let cs ← Run.done (mapRes (maskConstraint d1) inst.constraints)
    let m ← Run.done (nextPow2Word p (maxDegree cs))
    let s ← Run.done (mulWord p m n)
    let d2 ← newForSizeWord p fuel s
    pure (setupRest inst factor cs d1 d2)) := by
  unfold Verifier.newWord
  simp only [setup_assert]
  rfl

theorem new_eq (inst : InstanceProperties F) (factor : ℕ) : Verifier.new inst factor = (do
    let d1 ← Domain.newForSize F (nextPow2 inst.numRows)
    let cs ← mapRes (maskConstraint d1) inst.constraints
    let d2 ← Domain.newForSize F (nextPow2 (maxDegree cs) * nextPow2 inst.numRows)
    pure (setupRest inst factor cs d1 d2)) := by
  unfold Verifier.new
  simp only [setup_assert]
  rfl

/-- **C78** (setup). With at most `2^63` rows and constraints for which the product of degree and rows, each rounded up to a power of two, is at most `2^63`, the
setup returns what the model says, in both profiles. -/
theorem C78_setup (inst : InstanceProperties F) (factor : ℕ) (p : Profile) (hrows : inst.numRows ≤ 2 ^ 63)
    (hdeg : ∀ c ∈ inst.constraints, nextPow2 c.degree * nextPow2 inst.numRows ≤ 2 ^ 63) :
    Returns (fun fuel => Verifier.newWord p fuel inst factor) (Verifier.new inst factor) := by
  refine ⟨63, fun fuel hf => ?_⟩
  have hn : nextPow2 inst.numRows ≤ 2 ^ 63 := nextPow2_le_of_le hrows
  have e1 : nextPow2Word p inst.numRows = .ok (nextPow2 inst.numRows) := by unfold nextPow2Word; rw [if_pos hrows]
  show Verifier.newWord p fuel inst factor = _
  rw [newWord_eq, new_eq, e1]
  simp only [Run.bind_def, Run.bind_ok]
  rw [newForSizeWord_small p hn hf]
  cases Domain.newForSize F (nextPow2 inst.numRows) with
  | err e => rfl
  | panic => rfl
  | ok d1 =>
    simp only [Run.bind_ok, Res.ok_bind]
    cases hm : mapRes (maskConstraint d1) inst.constraints with
    | err e => rfl
    | panic => rfl
    | ok cs =>
      simp only [Run.bind_ok, Res.ok_bind]
      have hc : Nat.clog 2 inst.numRows ≤ 63 := (Nat.clog_le_iff_le_pow (by norm_num)).2 hrows
      have hsplit : (2 : ℕ) ^ (63 - Nat.clog 2 inst.numRows) * nextPow2 inst.numRows = 2 ^ 63 := by
        unfold nextPow2
        rw [← pow_add, Nat.sub_add_cancel hc]
      have hmax : maxDegree cs ≤ 2 ^ (63 - Nat.clog 2 inst.numRows) := by
        apply maxDegree_le
        rw [(maskConstraints_costs hm).2.2.2.1]
        intro x hx
        obtain ⟨c, hc', rfl⟩ := List.mem_map.1 hx
        have h1 := hdeg c hc'
        rw [← hsplit] at h1
        exact le_trans (Nat.le_pow_clog (by norm_num) _) (Nat.le_of_mul_le_mul_right h1 (Nat.two_pow_pos _))
      have hprod : nextPow2 (maxDegree cs) * nextPow2 inst.numRows ≤ 2 ^ 63 := by
        rw [← hsplit]
        exact Nat.mul_le_mul_right _ (nextPow2_le_of_le hmax)
      have e2 : nextPow2Word p (maxDegree cs) = .ok (nextPow2 (maxDegree cs)) := by
        unfold nextPow2Word
        rw [if_pos (le_trans hmax (Nat.pow_le_pow_right (by norm_num) (by omega)))]
      rw [e2]
      simp only [Run.bind_ok]
      rw [mulWord_small p hprod]
      simp only [Run.bind_ok]
      rw [newForSizeWord_small p hprod hf]
      exact Run.bind_done _ _

/-- **C78** (setup that does not fit). If there are more than `2^63` rows, or some constraint for which the product of degree and rows, each rounded up to a power of two, exceeds
`2^63`, then a debug build panics in the setup. A release build returns a verifier: its constraint domain has a single point, and with more than `2^63` rows its column domain as well. (If
the rows fit, the field must have a column domain; step differences are numbers of steps.) -/
theorem C78_setup_overflow (inst : InstanceProperties F) (factor : ℕ)
    (hsteps : ∀ c ∈ inst.constraints, ∀ u ∈ factors c, ∃ k, u.stepsDifference = .steps k) :
    (2 ^ 63 < inst.numRows →
      Returns (fun fuel => Verifier.newWord .debug fuel inst factor) .panic ∧
      ∃ v, Returns (fun fuel => Verifier.newWord .release fuel inst factor) (.ok v) ∧ v.columnDomain.size = 1 ∧ v.constraintsDomain.size = 1) ∧
    (inst.numRows ≤ 2 ^ 63 → Nat.clog 2 inst.numRows ≤ StarkField.S F →
      (∃ c ∈ inst.constraints, 2 ^ 63 < nextPow2 c.degree * nextPow2 inst.numRows) →
      Returns (fun fuel => Verifier.newWord .debug fuel inst factor) .panic ∧
      ∃ v, Returns (fun fuel => Verifier.newWord .release fuel inst factor) (.ok v) ∧
        v.columnDomain.size = nextPow2 inst.numRows ∧ v.constraintsDomain.size = 1) := by
  have hd0 : Domain.newForSize F 0 = .ok { size := 1, powerOfTwo := 0, generator := genOf F 0 } := by
    rw [newForSize_eq]; simp
  have hmask : ∀ d : Domain F, mapRes (maskConstraint d) inst.constraints = .ok (inst.constraints.map (maskC d.generator)) :=
    fun d => mapRes_ok _ _ _ (fun c hc => maskConstraint_ok d (hsteps c hc))
  constructor
  · intro h
    refine ⟨⟨0, fun fuel _ => ?_⟩, ?_⟩
    · show Verifier.newWord .debug fuel inst factor = _
      rw [newWord_eq]
      unfold nextPow2Word
      rw [if_neg (by omega)]
      rfl
    · refine ⟨setupRest inst factor (inst.constraints.map (maskC (genOf F 0))) ⟨1, 0, genOf F 0⟩ ⟨1, 0, genOf F 0⟩, ⟨63, fun fuel hf => ?_⟩, rfl, rfl⟩
      show Verifier.newWord .release fuel inst factor = _
      rw [newWord_eq]
      have e1 : nextPow2Word .release inst.numRows = .ok 0 := by unfold nextPow2Word; rw [if_neg (by omega)]
      rw [e1]
      simp only [Run.bind_def, Run.bind_ok]
      rw [newForSizeWord_small .release (by norm_num) hf, hd0]
      simp only [Run.bind_ok, hmask]
      obtain ⟨m, em⟩ : ∃ m, nextPow2Word .release (maxDegree (inst.constraints.map (maskC (genOf F 0)))) = .ok m := by
        unfold nextPow2Word
        split
        · exact ⟨_, rfl⟩
        · exact ⟨_, rfl⟩
      rw [em]
      simp only [Run.bind_ok]
      rw [mulWord_small _ (by norm_num), Nat.mul_zero]
      simp only [Run.bind_ok]
      rw [newForSizeWord_small .release (by norm_num) hf, hd0]
      rfl
  · rintro hrows hS ⟨c, hc, hbig⟩
    have hn : nextPow2 inst.numRows ≤ 2 ^ 63 := nextPow2_le_of_le hrows
    have hd1 : Domain.newForSize F (nextPow2 inst.numRows) = .ok (domOf F (Nat.clog 2 inst.numRows)) := newForSize_pow hS
    have hw : ∀ p, nextPow2Word p inst.numRows = .ok (nextPow2 inst.numRows) := by
      intro p
      unfold nextPow2Word; rw [if_pos hrows]
    set cs := inst.constraints.map (maskC (domOf F (Nat.clog 2 inst.numRows)).generator) with hcs
    have hmax : c.degree ≤ maxDegree cs := le_maxDegree (c := maskC _ c) (List.mem_map.2 ⟨c, hc, rfl⟩)
    have hbig' : 2 ^ 63 < nextPow2 (maxDegree cs) * nextPow2 inst.numRows :=
      lt_of_lt_of_le hbig (Nat.mul_le_mul_right _ (Nat.pow_le_pow_right (by norm_num) (Nat.clog_mono_right 2 hmax)))
    have hpow : nextPow2 (maxDegree cs) * nextPow2 inst.numRows = 2 ^ (Nat.clog 2 (maxDegree cs) + Nat.clog 2 inst.numRows) := by
      unfold nextPow2; rw [pow_add]
    have h64 : 64 ≤ Nat.clog 2 (maxDegree cs) + Nat.clog 2 inst.numRows := by
      rw [hpow] at hbig'
      exact (Nat.pow_lt_pow_iff_right (by norm_num : 1 < 2)).1 hbig'
    have hlt : ¬ nextPow2 (maxDegree cs) * nextPow2 inst.numRows < 2 ^ 64 := by
      rw [hpow, not_lt]
      exact Nat.pow_le_pow_right (by norm_num) h64
    have hmod : nextPow2 (maxDegree cs) * nextPow2 inst.numRows % 2 ^ 64 = 0 := by
      rw [hpow]
      exact Nat.mod_eq_zero_of_dvd (pow_dvd_pow 2 h64)
    refine ⟨⟨63, fun fuel hf => ?_⟩, setupRest inst factor cs (domOf F (Nat.clog 2 inst.numRows)) ⟨1, 0, genOf F 0⟩, ⟨63, fun fuel hf => ?_⟩, rfl, rfl⟩
    · show Verifier.newWord .debug fuel inst factor = _
      rw [newWord_eq, hw]
      simp only [Run.bind_def, Run.bind_ok]
      rw [newForSizeWord_small .debug hn hf, hd1]
      simp only [Run.bind_ok, hmask]
      rw [← hcs]
      by_cases h : maxDegree cs ≤ 2 ^ 63
      · have e2 : nextPow2Word .debug (maxDegree cs) = .ok (nextPow2 (maxDegree cs)) := by unfold nextPow2Word; rw [if_pos h]
        have e3 : mulWord .debug (nextPow2 (maxDegree cs)) (nextPow2 inst.numRows) = .panic := by unfold mulWord; rw [if_neg hlt]
        rw [e2]
        simp only [Run.bind_ok]
        rw [e3]
        rfl
      · have e2 : nextPow2Word .debug (maxDegree cs) = .panic := by unfold nextPow2Word; rw [if_neg h]
        rw [e2]
        rfl
    · show Verifier.newWord .release fuel inst factor = _
      rw [newWord_eq, hw]
      simp only [Run.bind_def, Run.bind_ok]
      rw [newForSizeWord_small .release hn hf, hd1]
      simp only [Run.bind_ok, hmask]
      rw [← hcs]
      have e3 : ∃ m, nextPow2Word .release (maxDegree cs) = .ok m ∧ mulWord .release m (nextPow2 inst.numRows) = .ok 0 := by
        by_cases h : maxDegree cs ≤ 2 ^ 63
        · exact ⟨_, by unfold nextPow2Word; rw [if_pos h], by rw [mulWord_release, hmod]⟩
        · exact ⟨0, by unfold nextPow2Word; rw [if_neg h], by rw [mulWord_release, Nat.zero_mul, Nat.zero_mod]⟩
      obtain ⟨m, e4, e5⟩ := e3
      rw [e4]
      simp only [Run.bind_ok]
      rw [e5]
      simp only [Run.bind_ok]
      rw [newForSizeWord_small .release (by norm_num) hf, hd0]
      rfl

omit [Field F] [DecidableEq F] [StarkField F] in
theorem forEach_body_congr {α σ : Type} (l : List α) {f g : α → σ → Res σ} (h : ∀ a ∈ l, ∀ s, f a s = g a s) (s : σ) : forEach l s f = forEach l s g := by
  induction l generalizing s with
  | nil => rfl
  | cons a l ih =>
    simp only [forEach, h a (by simp) s]
    congr 1
    funext t
    exact ih (fun b hb => h b (by simp [hb])) t

omit [StarkField F] in
theorem inverseDivisorAtWord_fits (p : Profile) (x : F) (d : Domain F) (c : DenseConstraint) (n : ℕ) (h1 : n ≤ d.size) (h2 : c.startAt + c.span ≤ n) :
    inverseDivisorAtWord p x d c n = inverseDivisorAt x d c n := by
  have e : ∀ a b, b ≤ a → subWord p a b = .ok (a - b) := by
    intro a b h; unfold subWord; rw [if_pos h]
  unfold inverseDivisorAtWord inverseDivisorAt divisorDegreeWord divisorDegree
  rw [e _ _ (show c.startAt ≤ d.size by omega), e _ _ h1]
  simp only [Res.ok_bind]
  rw [e _ _ (show d.size - n ≤ d.size - c.startAt by omega)]
  simp only [Res.ok_bind]
  rw [e _ _ (show c.span ≤ d.size - c.startAt - (d.size - n) by omega), e _ _ (show c.span ≤ n by omega)]
  simp only [Res.ok_bind, decide_eq_true (show c.startAt ≤ d.size by omega), decide_eq_true h1,
    decide_eq_true (show d.size - n ≤ d.size - c.startAt by omega), decide_eq_true (show c.span ≤ d.size - c.startAt - (d.size - n) by omega),
    decide_eq_true (show c.span ≤ n by omega), Res.assert_true, Res.pure_def]

/-- **C78** (verification). If the sizes of the extended domains and the sizes which the proof claims are at most `2^63`, a debug build returns the verdict
of the model. So does a release build, if in addition the densities fit in the trace. -/
theorem C78_verify (v : Verifier F) (proof : InstanceProof F)
    (hf : v.columnDomain.size * v.ldeFactor ≤ 2 ^ 63) (hg : v.constraintsDomain.size * v.ldeFactor ≤ 2 ^ 63)
    (h1 : claimedSize proof.friProofH1 ≤ 2 ^ 63) (h2 : claimedSize proof.friProofH2 ≤ 2 ^ 63) :
    Returns (fun fuel => v.verifyMachine H .debug fuel proof) (v.verify H proof) ∧
    (v.inst.numRows ≤ v.columnDomain.size → (∀ b ∈ v.constraintsBatchedByDensity, ∀ d, b.1 = .dense d → d.startAt + d.span ≤ v.inst.numRows) →
      Returns (fun fuel => v.verifyMachine H .release fuel proof) (v.verify H proof)) := by
  have key : ∀ p, (∀ cc bc l z, v.calculateGAtZWord p cc bc l z = v.calculateGAtZ cc bc l z) →
      Returns (fun fuel => v.verifyMachine H p fuel proof) (v.verify H proof) := by
    intro p hG
    refine ⟨63, fun fuel hfu => ?_⟩
    show v.verifyMachine H p fuel proof = _
    have e : v.deriveChallengesWord H p fuel proof = .done (v.deriveChallenges H proof) := by
      rw [deriveChallenges_eq]
      unfold Verifier.deriveChallengesWord
      rw [mulWord_small p hf, mulWord_small p hg]
      cases v.transcriptPart H proof with
      | err e => rfl
      | panic => rfl
      | ok x =>
        simp only [Run.bind_def, Run.bind_ok, Res.ok_bind]
        rw [newForSizeWord_small p hf hfu]
        cases Domain.newForSize F (v.columnDomain.size * v.ldeFactor) with
        | err e => rfl
        | panic => rfl
        | ok d1 =>
          simp only [Run.bind_ok, Res.ok_bind]
          rw [newForSizeWord_small p hg hfu]
          cases Domain.newForSize F (v.constraintsDomain.size * v.ldeFactor) with
          | err e => rfl
          | panic => rfl
          | ok d2 =>
            simp only [Run.bind_ok, Res.ok_bind]
            cases bytesToChallengeIndex (x.2.2.2.2.getChallengeBytes H).1 (v.columnDomain.size * v.ldeFactor) v.ldeFactor with
            | err e => rfl
            | panic => rfl
            | ok i1 =>
              simp only [Run.bind_ok, Res.ok_bind]
              exact Run.bind_done _ _
    rw [← verifyWord_of_fri H p v proof proof fuel rfl rfl rfl (fun idx x => friVerifyWord_small H p idx x h1 hfu)
      (fun idx x => friVerifyWord_small H p idx x h2 hfu)]
    unfold Verifier.verifyMachine Verifier.verifyWord
    rw [e]
    unfold Verifier.verifyBodyMachine Verifier.verifyBodyWord
    simp only [hG]
    rfl
  refine ⟨key _ (fun _ _ _ _ => calculateGAtZWord_debug _ _ _ _ _), fun hn hd => key _ fun cc bc l z => ?_⟩
  unfold Verifier.calculateGAtZWord Verifier.calculateGAtZ
  congr 1
  funext values
  congr 1
  refine forEach_body_congr _ (fun b hb s => ?_) _
  have e : densityDivisorAtWord .release z v.columnDomain v.inst.numRows b.1 = densityDivisorAt z v.columnDomain v.inst.numRows b.1 := by
    cases hb' : b.1 with
    | dense d => exact inverseDivisorAtWord_fits _ _ _ _ _ hn (hd b hb d hb')
    | repeated d => rfl
    | sparse d => rfl
  rw [e]

/-! ## A span greater than the trace -/

/-- The density with a span of more than `n` rows replaced by none. -/
def dropLongSpan (n : ℕ) : ConstraintDensity → ConstraintDensity
  | .dense d => if n < d.span then .dense ⟨d.startAt, 0⟩ else .dense d
  | d => d

/-- The verifier with spans longer than the trace replaced by none. -/
def dropLongSpans (v : Verifier F) : Verifier F :=
  { v with constraintsBatchedByDensity := v.constraintsBatchedByDensity.map (fun b => (dropLongSpan v.inst.numRows b.1, b.2)) }

omit [StarkField F] in
theorem inverseDivisorAtWord_dropLongSpan (x : F) (d : Domain F) (c : DenseConstraint) (n : ℕ) (hn : n = d.size) (hs : d.size ≤ 2 ^ 63) (h1 : n < c.span) (h2 : c.span ≤ 2 ^ 63) :
    inverseDivisorAtWord .release x d c n = inverseDivisorAtWord .release x d ⟨c.startAt, 0⟩ n := by
  have tot : ∀ a b, ∃ r, subWord .release a b = .ok r := by
    intro a b
    unfold subWord
    split
    · exact ⟨_, rfl⟩
    · exact ⟨_, rfl⟩
  have dd : ∀ c' : DenseConstraint, ∃ r, divisorDegreeWord .release d.size n c' = .ok r := by
    intro c'
    unfold divisorDegreeWord
    obtain ⟨a, ea⟩ := tot d.size c'.startAt
    obtain ⟨b, eb⟩ := tot d.size n
    obtain ⟨e, ee⟩ := tot a b
    rw [ea, eb]
    simp only [Res.ok_bind]
    rw [ee]
    exact tot e c'.span
  obtain ⟨r1, e1⟩ := dd c
  obtain ⟨r2, e2⟩ := dd ⟨c.startAt, 0⟩
  unfold inverseDivisorAtWord
  rw [e1, e2]
  dsimp only
  rw [subWord_release (show n < 2 ^ 64 by omega), subWord_release (show n < 2 ^ 64 by omega),
    show (2 ^ 64 + n - c.span) % 2 ^ 64 = 2 ^ 64 + n - c.span from Nat.mod_eq_of_lt (by omega),
    show (2 ^ 64 + n - 0) % 2 ^ 64 = n by rw [Nat.sub_zero, Nat.add_mod_left, Nat.mod_eq_of_lt (by omega)]]
  simp only [Res.ok_bind]
  rw [show d.size - (2 ^ 64 + n - c.span) = 0 by omega, show d.size - n = 0 by omega]
  rfl

/-- **C78** (a span greater than the trace). Let the number of rows be the size of the column domain. A constraint whose span exceeds the number of rows is checked by a release build as
if its span were zero, that is, on all rows, the last ones reading the first: verdict and errors are the same for every proof. -/
theorem C78_release_span (v : Verifier F) (fuel : ℕ) (proof : InstanceProof F) (hrows : v.inst.numRows = v.columnDomain.size) (hsize : v.columnDomain.size ≤ 2 ^ 63)
    (hspan : ∀ b ∈ v.constraintsBatchedByDensity, ∀ d, b.1 = .dense d → d.span ≤ 2 ^ 63) :
    v.verifyMachine H .release fuel proof = (dropLongSpans v).verifyMachine H .release fuel proof := by
  have hG : ∀ cc bc l z, v.calculateGAtZWord .release cc bc l z = (dropLongSpans v).calculateGAtZWord .release cc bc l z := by
    intro cc bc l z
    unfold Verifier.calculateGAtZWord
    simp only [dropLongSpans, forEach_map_arg]
    congr 1
    funext values
    congr 1
    refine forEach_body_congr _ (fun b hb s => ?_) _
    have e : densityDivisorAtWord .release z v.columnDomain v.inst.numRows b.1 =
        densityDivisorAtWord .release z v.columnDomain v.inst.numRows (dropLongSpan v.inst.numRows b.1) := by
      cases hb' : b.1 with
      | dense d =>
        unfold dropLongSpan
        by_cases h : v.inst.numRows < d.span
        · simp only [if_pos h]
          exact inverseDivisorAtWord_dropLongSpan _ _ _ _ hrows hsize h (hspan b hb d hb')
        · simp only [if_neg h]
      | repeated d => rfl
      | sparse d => rfl
    rw [e]
  have hT : v.transcriptPart H proof = (dropLongSpans v).transcriptPart H proof := by
    unfold Verifier.transcriptPart
    simp only [dropLongSpans, forEach_map_arg]
  unfold Verifier.verifyMachine Verifier.verifyBodyMachine Verifier.deriveChallengesWord
  simp only [hG, hT]
  rfl

end

/-! ## Concrete cases -/

/-- The register keeps its value, over four rows, not enforced on the last `span` rows. -/
def constantInst (span : ℕ) : InstanceProperties Fr :=
  { numRows := 4, numRegisters := 1,
    constraints := [{ ((Constraint.default.addUnivariate (UnivariateTerm.ofRegister (.register 0))).subUnivariate
      ((UnivariateTerm.ofRegister (.register 0)).setStepDifference 1)) with density := .dense ⟨0, span⟩ }],
    boundaryConstraints := [⟨.register 0, 0, some 5⟩] }

/-- A proof for the instance with span `made`, verified for the instance with span `read`, both on words. -/
def spanVerdict (p : Profile) (made read : ℕ) : Res (Run Bool) := do
  let prover ← Prover.new ⟨1, by norm_num⟩ (constantInst made) 2 1
  let proof ← prover.prove toyHash [[5, 5, 5, 5]]
  pure (Verifier.newWord p 63 (constantInst read) 2 >>= fun v => v.verifyMachine toyHash p 63 proof)

/-- **C78** (the profiles differ). A proof that the register is constant is accepted by both builds. Read with a span greater than the number of rows, it is accepted by a release build
and makes a debug build panic. -/
theorem C78_profiles_differ : spanVerdict .debug 0 0 = .ok (.done (.ok true)) ∧ spanVerdict .release 0 0 = .ok (.done (.ok true)) ∧
    spanVerdict .debug 0 5 = .ok (.done .panic) ∧ spanVerdict .release 0 5 = .ok (.done (.ok true)) := by decide +kernel

/-- The hypotheses of `C78_verify` are those of an honest run. -/
def sizesOfRun : Res (ℕ × ℕ × ℕ × ℕ × ℕ) := do
  let prover ← Prover.new ⟨1, by norm_num⟩ (fibInst Fr 2 1 1) 2 1
  let proof ← prover.prove toyHash [[1, 1, 2, 3], [1, 2, 3, 5]]
  let v ← Verifier.new (fibInst Fr 2 1 1) 2
  pure (v.columnDomain.size * v.ldeFactor, v.constraintsDomain.size * v.ldeFactor, claimedSize proof.friProofH1, claimedSize proof.friProofH2, v.inst.numRows)

example : sizesOfRun = .ok (8, 8, 8, 8, 4) := by decide +kernel

/-- `C78_setup`: the Fibonacci instance of any size up to `2^62` rows. -/
example (k : ℕ) (hk : k ≤ 62) : (fibInst Fr k 1 1).numRows ≤ 2 ^ 63 ∧
    ∀ c ∈ (fibInst Fr k 1 1).constraints, nextPow2 c.degree * nextPow2 (fibInst Fr k 1 1).numRows ≤ 2 ^ 63 := by
  have h : (2 : ℕ) ^ k ≤ 2 ^ 62 := Nat.pow_le_pow_right (by norm_num) hk
  refine ⟨le_trans h (by norm_num), fun c hc => ?_⟩
  simp only [fibInst, List.mem_cons, List.not_mem_nil, or_false] at hc ⊢
  rw [nextPow2_pow]
  have hd : c.degree = 1 := by rcases hc with rfl | rfl <;> rfl
  rw [hd, show nextPow2 1 = 1 by decide]
  omega

/-- Four rows and a constraint whose degree is `2^62`. -/
def steepInst : InstanceProperties Fr :=
  { numRows := 4, numRegisters := 1, boundaryConstraints := [],
    constraints := [Constraint.default.addUnivariate { (UnivariateTerm.ofRegister (F := Fr) (.register 0)) with power := 2 ^ 62 }] }

theorem steepInst_hyp : (∀ c ∈ steepInst.constraints, ∀ u ∈ factors c, ∃ k, u.stepsDifference = .steps k) ∧ steepInst.numRows ≤ 2 ^ 63 ∧
    Nat.clog 2 steepInst.numRows ≤ StarkField.S Fr ∧ ∃ c ∈ steepInst.constraints, 2 ^ 63 < nextPow2 c.degree * nextPow2 steepInst.numRows := by
  refine ⟨?_, by decide, by decide, _, List.mem_singleton.2 rfl, ?_⟩
  · intro c hc u hu
    simp only [steepInst, List.mem_singleton] at hc
    subst hc
    simp only [factors, Constraint.addUnivariate, Constraint.push, Constraint.default, List.nil_append, List.flatMap_cons, List.flatMap_nil, termFactors, List.append_nil,
      List.mem_singleton] at hu
    subst hu
    exact ⟨0, rfl⟩
  · show 2 ^ 63 < nextPow2 (2 ^ 62) * nextPow2 (2 ^ 2)
    rw [nextPow2_pow, nextPow2_pow]
    norm_num

/-- Its setup panics in a debug build and returns a verifier with a constraint domain of a single point in a release build. -/
example : Returns (fun fuel => Verifier.newWord .debug fuel steepInst 2) .panic ∧ ∃ v, Returns (fun fuel => Verifier.newWord .release fuel steepInst 2) (.ok v) ∧
    v.columnDomain.size = 4 ∧ v.constraintsDomain.size = 1 := by
  obtain ⟨h1, h2, h3, h4⟩ := steepInst_hyp
  have h := (C78_setup_overflow steepInst 2 h1).2 h2 h3 h4
  rwa [show nextPow2 steepInst.numRows = 4 by decide] at h

end Hodor

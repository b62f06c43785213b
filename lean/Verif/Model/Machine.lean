import Verif.Model.Stark

/-!
# The verifier with 64-bit words

The rest of the model computes sizes with natural numbers. Here the two places where a received proof feeds an
unchecked size computation are modelled with 64-bit words, in the two build profiles of Rust: the product
`initial_degree_plus_one * lde_factor` (`src/fri/verifier.rs` 24 and 146) and `Domain::new_for_size`
(`src/domains/mod.rs` 21-44). A word is a natural number below `2^64`.

The loop of `Domain::new_for_size` need not terminate, so that a run is indexed by the number of loop iterations it may
perform (`fuel`); the outcome is `running` as long as the loop is still running.
-/

namespace Hodor

/-- Build profile: `debug` has overflow checks, `release` wraps around. -/
inductive Profile where
  | debug
  | release
deriving DecidableEq

/-- Outcome of a run with a bounded number of loop iterations: it has ended, or a loop is still running. -/
inductive Run (α : Type) where
  | done (r : Res α)
  | running
deriving DecidableEq

namespace Run

/-- Sequencing: nothing follows a loop that is still running. -/
def bind {α β : Type} (x : Run α) (f : α → Run β) : Run β :=
  match x with
  | running => running
  | done (.ok a) => f a
  | done (.err e) => done (.err e)
  | done .panic => done .panic

instance : Monad Run where
  pure a := done (.ok a)
  bind := bind

end Run

/-- `a * b` on `usize` (`src/fri/verifier.rs` 24, 146): overflow panics with overflow checks and wraps without. -/
def mulWord (p : Profile) (a b : ℕ) : Res ℕ :=
  if a * b < 2 ^ 64 then .ok (a * b)
  else match p with
    | .debug => .panic
    | .release => .ok (a * b % 2 ^ 64)

/-- `u64::next_power_of_two` (`src/domains/mod.rs` 22): above `2^63` it panics with overflow checks and is 0 without. -/
def nextPow2Word (p : Profile) (n : ℕ) : Res ℕ :=
  if n ≤ 2 ^ 63 then .ok (nextPow2 n)
  else match p with
    | .debug => .panic
    | .release => .ok 0

/-- `src/domains/mod.rs` 25-28: `while k != 1 { k >>= 1; power_of_two += 1; }`, at most `fuel` iterations. -/
def shiftLoop : ℕ → ℕ → ℕ → Run ℕ
  | 0, k, acc => if k = 1 then .done (.ok acc) else .running
  | fuel + 1, k, acc => if k = 1 then .done (.ok acc) else shiftLoop fuel (k / 2) (acc + 1)

section
variable {F : Type} [Field F] [StarkField F]

/-- `src/domains/mod.rs` 29-43: the part of `Domain::new_for_size` after the loop. -/
def domainOfPower (size powerOfTwo : ℕ) : Res (Domain F) :=
  if powerOfTwo > StarkField.S F then .err .error
  else .ok { size := size, powerOfTwo := powerOfTwo,
             generator := squareN (StarkField.S F - powerOfTwo) (StarkField.root (F := F)) }

/-- `src/domains/mod.rs` 21-44 `Domain::new_for_size` -/
def newForSizeWord (p : Profile) (fuel size : ℕ) : Run (Domain F) := do
  let size ← Run.done (nextPow2Word p size)
  let powerOfTwo ← shiftLoop fuel size 0
  Run.done (domainOfPower size powerOfTwo)

variable [DecidableEq F]

/-- `src/fri/verifier.rs` 26-47 (and 148-168): the checks once the domain is there. -/
def friStartIn (twoInv : F) (domain : Domain F) (naturalElementIndex : ℕ) : Res (F × FriVState F) :=
  let domainElement := domain.generator ^ naturalElementIndex
  if domainElement ^ domain.size ≠ 1 then .err .invalidValue
  else if domainElement ^ (domain.size / 2) = 1 then .err .invalidValue
  else do
    let omegaInv ← Res.okOr (inverse domain.generator) .divisionByZero
    pure (twoInv, { expected := none, domainSize := domain.size, domainIdx := naturalElementIndex,
                    omega := domain.generator, omegaInv := omegaInv })

/-- `src/fri/verifier.rs` 15-47 (and 137-168) -/
def friStartWord (p : Profile) (fuel initialDegreePlusOne ldeFactor naturalElementIndex : ℕ) :
    Run (F × FriVState F) := do
  let twoInv ← Run.done (Res.okOr (inverse (1 + 1 : F)) .divisionByZero)
  let size ← Run.done (mulWord p initialDegreePlusOne ldeFactor)
  let domain ← newForSizeWord p fuel size
  Run.done (friStartIn twoInv domain naturalElementIndex)

/-- `src/fri/verifier.rs` 10-129 `verify_prototype` -/
def FriPrototype.verifyWord (p : Profile) (fuel : ℕ) (proof : FriPrototype F) (leafValues : Poly F .values)
    (naturalElementIndex : ℕ) : Run Bool := do
  let (twoInv, s) ← friStartWord p fuel proof.initialDegreePlusOne proof.ldeFactor naturalElementIndex
  Run.done (prototypeRounds twoInv proof.finalCoefficients
    ((leafValues :: proof.intermediateValues).zip proof.challenges) s)

variable (H : List UInt8 → Digest)

/-- `src/fri/verifier.rs` 131-289 `verify_proof_queries`, called with `degree = 2` by `verify_proof`
(`src/fri/mod.rs` 97-103). -/
def FriProof.verifyWord (p : Profile) (fuel : ℕ) (proof : FriProof F) (naturalElementIndex : ℕ)
    (expectedValue : F) : Run Bool := do
  let (twoInv, s) ← friStartWord p fuel proof.initialDegreePlusOne proof.ldeFactor naturalElementIndex
  Run.done (if proof.queries.length % 2 ≠ 0 then .err .invalidValue
    else proofRounds H twoInv proof.finalCoefficients naturalElementIndex expectedValue 0
      (proof.roots.zip (chunksExact 2 proof.queries)) s)

/-- `src/verifier/mod.rs` 365-401 -/
def verifyGWord (p : Profile) (fuel : ℕ) (proof : InstanceProof F) (ch : Challenges F) (gDomain : Domain F)
    (h1AtX gAtZ : F) : Run Bool :=
  if verifyQuery H proof.gQuery proof.gIopRoot = false then pure false
  else if proof.gQuery.index ≠ ch.idx2 then pure false
  else do
    let h2AtX ← Run.done (simulateH2 ch.idx2 gDomain proof.gQuery.value ch.z gAtZ)
    let valid ← proof.friProofH1.verifyWord H p fuel ch.idx1 h1AtX
    if valid = false then pure false
    else proof.friProofH2.verifyWord H p fuel ch.idx2 h2AtX

/-- `src/verifier/mod.rs` 336-401 -/
def Verifier.verifyBodyWord (p : Profile) (fuel : ℕ) (v : Verifier F) (proof : InstanceProof F) (ch : Challenges F)
    (fDomain gDomain : Domain F) : Run Bool :=
  match checkQueries H ch.idx1 (proof.fQueries.zip proof.fIopRoots) with
  | none => pure false
  | some fLdesAtX => do
    let h1AtX ← Run.done (v.simulateH1 ch.h1Challenges ch.idx1 fDomain fLdesAtX proof.fAtZM ch.z)
    let gAtZ ← Run.done (v.calculateGAtZ ch.constraintChallenges ch.boundaryChallenges proof.fAtZM ch.z)
    verifyGWord H p fuel proof ch gDomain h1AtX gAtZ

/-- `src/verifier/mod.rs` 265-402 `verify`. The sizes computed from the verifier's own parameters
(`src/verifier/mod.rs` 309-315) stay natural numbers; only sizes taken from the proof are words. -/
def Verifier.verifyWord (p : Profile) (fuel : ℕ) (v : Verifier F) (proof : InstanceProof F) : Run Bool := do
  let (ch, fDomain, gDomain) ← Run.done (v.deriveChallenges H proof)
  if proof.fQueries.length ≠ v.inst.numRegisters then Run.done (.err .unsatisfied)
  else if proof.fQueries.length ≠ proof.fIopRoots.length then Run.done (.err .unsatisfied)
  else v.verifyBodyWord H p fuel proof ch fDomain gDomain

end

end Hodor

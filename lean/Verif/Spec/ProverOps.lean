import Verif.Spec.SetupCost
import Verif.Spec.ProofShape

/-!
# What proving costs in field operations

The notation of `Verif/Spec/SetupCost.lean`: `S` is the two-adicity of the field, `w` says how vectors are split into chunks. The trace has `2^k` rows, the composition
polynomial `2^(k+f)` coefficients, the extension multiplies sizes by `2^e`, and `2^o` coefficients are left at the end.
-/

namespace Hodor.Spec

variable {F : Type}

/-! ## Polynomials -/

/-- A transform of `2^m` values on all CPUs: parallel if there are at least two CPUs and more than one value for each. -/
def fftOps (w : Worker) (m : ℕ) : ℕ :=
  if Nat.log 2 w.cpus = 0 ∨ m ≤ Nat.log 2 w.cpus then serialFftOps m else parallelFftOps m (Nat.log 2 w.cpus)

/-- Multiplying `n` entries by the powers of a number. -/
def distributeOps (w : Worker) (n : ℕ) : ℕ := startOps w n + 2 * n

/-- The power `p` of `n` values. -/
def powAllOps (n p : ℕ) : ℕ := if p = 2 then n else n * powExact p

/-- The value at a point of a polynomial with `n` coefficients. -/
def evalOps (w : Worker) (n : ℕ) : ℕ := startOps w n + 3 * n + w.numSpawnedThreads n

/-- Extending `2^k` coefficients to `2^(k+e)` values: a *serial* transform on each of the `2^e` cosets; `shift` operations for the first coset of every chunk. -/
def cosetsOps (S : ℕ) (w : Worker) (k e shift : ℕ) : ℕ :=
  domainOps S (2 ^ (k + e)) + (∑ i ∈ Finset.range (w.numSpawnedThreads (2 ^ e)), (powExact i + shift)) +
    2 ^ e * (distributeOps w (2 ^ k) + serialFftOps k + 1) + polyOps S (2 ^ (k + e))

/-- The extension to the domain of `2^(k+e)` points. -/
def ldeOps (S : ℕ) (w : Worker) (k e : ℕ) : ℕ := if e = 0 then fftOps w k else cosetsOps S w k e 0

/-- The extension to a coset of that domain. -/
def cosetLdeOps (S : ℕ) (w : Worker) (k e : ℕ) : ℕ := if e = 0 then distributeOps w (2 ^ k) + fftOps w k else cosetsOps S w k e 1

/-- The values of `1 / (x - root)` on the domain of `n` points: a linear polynomial, its values, their inverses. -/
def inverseLinearOps (S : ℕ) (w : Worker) (n : ℕ) : ℕ :=
  (polyOps S 2 + 1) + (domainOps S n + (startOps w n + 3 * n) + polyOps S n) + invertAllOps w n

/-! ## The stages -/

/-- Interpolating `n` registers: a *serial* transform for each. -/
def witnessOps (S n k : ℕ) : ℕ := domainOps S (2 ^ k) + 2 + decimalOps (2 ^ k) + n * (serialFftOps k + 2 ^ k + polyOps S (2 ^ k))

/-- A coefficient different from one is compared with minus one and multiplied into all values. -/
def coeffOps [One F] [DecidableEq F] (N : ℕ) (u : UnivariateTerm F) : ℕ := if u.coeff = 1 then 0 else N + 1

/-- One term on `N` points, apart from the powers of the registers: the coefficients and the products. -/
def pointTermOps [One F] [DecidableEq F] (N : ℕ) : ConstraintTerm F → ℕ
  | .univariate u => coeffOps N u
  | .polyvariate p => (p.terms.map (coeffOps N)).sum + (p.terms.length - 1) * N + N

/-- The polynomial `α * x^a + β` on `N` points; not needed if `a = 0`. -/
def adjustmentOps (S N a : ℕ) : ℕ := if a = 0 then 0 else polyOps S N + powAllOps N a + 2 * N

/-- One constraint of degree `d`: two challenges, the adjustment by `D - d`, the terms and their sum, the constant, the weight, the sum of all
constraints. -/
def pointConstraintOps [One F] [DecidableEq F] (S N D : ℕ) (c : Constraint F) : ℕ :=
  2 + adjustmentOps S N (D - c.degree) + (c.terms.map (fun t => pointTermOps N t + N)).sum + 3 * N

/-- The different powers of shifted registers in the constraints: register, number of steps modulo `T`, exponent. Each is extended once. -/
def readPowers (inst : InstanceProperties F) (T : ℕ) : List (Register × ℕ × ℕ) :=
  (inst.constraints.flatMap factors).filterMap (fun u => match u.stepsDifference with
    | .steps j => some (u.register, j % T, u.power)
    | .mask _ => none)

/-- One boundary constraint. -/
def pointBoundaryOps (S : ℕ) (w : Worker) (k f : ℕ) : ℕ :=
  2 + adjustmentOps S (2 ^ (k + f)) (2 ^ f - 1) + 1 + cosetLdeOps S w k f + 3 * 2 ^ (k + f)

/-- The composition polynomial: the shifted registers, their powers on the coset, the constraints, the divisors, the boundary constraints, interpolation. -/
def compositionProveOps [One F] [DecidableEq F] (S : ℕ) (w : Worker) (inst : InstanceProperties F) (k f : ℕ) : ℕ :=
  polyOps S (2 ^ (k + f)) + (readPairs inst (2 ^ k)).toFinset.card * distributeOps w (2 ^ k) +
  (∑ x ∈ (readPowers inst (2 ^ k)).toFinset, (cosetLdeOps S w k f + powAllOps (2 ^ (k + f)) x.2.2)) +
  (inst.constraints.map (pointConstraintOps S (2 ^ (k + f)) (2 ^ f))).sum + (densitiesOf inst.constraints).length * (2 * 2 ^ (k + f)) +
  inst.boundaryConstraints.length * pointBoundaryOps S w k f +
  (fftOps w (k + f) + 2 ^ (k + f) + distributeOps w (2 ^ (k + f)))

/-- The two quotients that are tested for low degree; `L = 2^(k+e)`, `M = 2^(k+f+e)`. For each claimed value: the point, the value, its negation, the challenge and four
operations for each point. The inverses are computed once for each number of steps. -/
def quotientOps (S : ℕ) (w : Worker) (inst : InstanceProperties F) (k f e : ℕ) : ℕ :=
  1 + polyOps S (2 ^ (k + e)) +
  (readPairs inst (2 ^ k)).toFinset.card * (evalOps w (2 ^ k) + 3 + 4 * 2 ^ (k + e)) +
  ((readPairs inst (2 ^ k)).map (fun x => x.2)).toFinset.card * inverseLinearOps S w (2 ^ (k + e)) +
  inverseLinearOps S w (2 ^ (k + f + e)) + evalOps w (2 ^ (k + f)) + 1 + 2 * 2 ^ (k + f + e)

/-- A FRI prototype for `2^K` values: two and its inverse, half of the powers of the generator, a challenge for each layer, six operations for each value of each
further layer, and the coefficients of the last layer, of `2^m` values. -/
def friProverOps (S : ℕ) (w : Worker) (K m : ℕ) : ℕ :=
  2 + (startOps w (2 ^ (K - 1)) + 2 ^ (K - 1)) + 1 +
  (∑ i ∈ Finset.range (K - m), (6 * 2 ^ (K - 1 - i) + 1 + polyOps S (2 ^ (K - 1 - i)))) +
  (polyOps S (2 ^ m) + (fftOps w m + 2 ^ m))

/-- All of `prove`: interpolation and extension of the registers, composition, its extension, the quotients, two FRI prototypes, and the final coefficients as bytes. -/
def proveOps [One F] [DecidableEq F] (S : ℕ) (w : Worker) (inst : InstanceProperties F) (n k f e o : ℕ) : ℕ :=
  witnessOps S n k + n * ldeOps S w k e + compositionProveOps S w inst k f + ldeOps S w (k + f) e + quotientOps S w inst k f e +
  friProverOps S w (k + e) (e + o) + friProverOps S w (k + f + e) (e + o) + 2 * 2 ^ o

end Hodor.Spec

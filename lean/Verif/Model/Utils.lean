import Verif.Model.Poly

/-!
# Helper functions on coefficient vectors (`src/utils/poly.rs`) and precomputed tables
(`src/precomputations/mod.rs`)
-/

namespace Hodor

variable {F : Type} [Field F]

/-- `src/utils/poly.rs` 5-20 `mul_polynomial_by_scalar`; `Worker::new()` (line 8) becomes a
parameter because its CPU count depends on the machine. -/
def mulPolynomialByScalar (w : Worker) (a : List F) (b : F) : List F :=
  parChunks w a (fun _ _ v => v.map (fun x => x * b))

/-- `src/utils/poly.rs` 24-44 `mul_add_polynomials` -/
def mulAddPolynomials (w : Worker) (a b : List F) (c : F) : Res (List F) := do
  Res.assert (a.length = b.length)
  pure (parChunksZip w a.length a b (zipUpdate (fun x y => x + y * c)))

/-- `src/utils/poly.rs` 66-77: accumulator of one task; `p` is the running power. -/
def accRunning (base : F) : F → F → List F → F
  | acc, _, [] => acc
  | acc, p, c :: l => accRunning base (acc + c * p) (p * base) l

/-- `src/utils/poly.rs` 61-82: the values sent on the channel, in chunk order. -/
def powerMessages (w : Worker) (coeffs : List F) (firstPower base : F) : List F :=
  let ch := w.chunkSize coeffs.length
  (chunks ch coeffs).mapIdx (fun i v => accRunning base 0 (base ^ (i * ch) * firstPower) v)

/-- `src/utils/poly.rs` 86-97: the receiving loop for the messages in the order of arrival. -/
def sumReceived (arrived : List F) : F := arrived.foldl (fun r v => r + v) 0

/-- `src/utils/poly.rs` 49-98 `evaluate_at_consequitive_powers` as a relation: `r` is a possible
result when the messages arrive in some order. -/
def EvaluatesAtConsequitivePowers (w : Worker) (coeffs : List F) (firstPower base r : F) : Prop :=
  ∃ arrived : List F, arrived.Perm (powerMessages w coeffs firstPower base) ∧ r = sumReceived arrived

section interpolate
variable [DecidableEq F]

/-- State of the inner loop of `interpolate` (113-115): `contribution`, `demoninator`,
and whether `max_contribution_degree != 0`. -/
structure InterpState (F : Type) where
  contribution : List F
  denominator : F
  started : Bool

/-- `src/utils/poly.rs` 143-146: `c[i] += other[i]` for all `i`. -/
def addOther (c other : List F) : Res (List F) :=
  forN c.length 0 c (fun i c => do
    let o ← rd other i
    let x ← rd c i
    wr c i (x + o))

/-- `src/utils/poly.rs` 116-148: inner loop body for point `j`. -/
def interpInner (n k : ℕ) (xk : F) (points : List (F × F)) (j : ℕ) (st : InterpState F) :
    Res (InterpState F) := do
  let pj ← rd points j
  let xj := pj.1
  if j = k then pure st
  else
    let d := st.denominator * (xk - xj)
    if st.started = false then do
      let c0 ← rd st.contribution 0
      let c ← wr st.contribution 0 (c0 - xj)
      let c1 ← rd c 1
      let c ← wr c 1 (c1 + 1)
      pure { contribution := c, denominator := d, started := true }
    else do
      let mulBy := st.contribution.map (fun el => -(el * xj))
      let c := (0 :: st.contribution).take n
      Res.assert (mulBy.length = n)
      let c ← addOther c mulBy
      pure { contribution := c, denominator := d, started := true }

/-- `src/utils/poly.rs` 151-157: add the scaled contribution to the coefficients. -/
def interpAdd (coeffs contribution : List F) (dinv yk : F) : Res (List F) :=
  forN contribution.length 0 coeffs (fun i coeffs => do
    let t ← rd contribution i
    let c ← rd coeffs i
    wr coeffs i (c + t * dinv * yk))

/-- `src/utils/poly.rs` 110-159: outer loop body for point `k`. -/
def interpOuter (n : ℕ) (points : List (F × F)) (k : ℕ) (coeffs : List F) : Res (List F) := do
  let pk ← rd points k
  let st ← forN n 0
    ({ contribution := List.replicate n (0 : F), denominator := 1, started := false } : InterpState F)
    (interpInner n k pk.1 points)
  let dinv ← Res.expect (inverse st.denominator)
  interpAdd coeffs st.contribution dinv pk.2

/-- `src/utils/poly.rs` 102-162 `interpolate` (the `Option` is always `Some`) -/
def interpolate (points : List (F × F)) : Res (List F) := do
  let n := points.length
  Res.assert (2 ≤ n)
  forN n 0 (List.replicate n (0 : F)) (interpOuter n points)

end interpolate

/-- `src/precomputations/mod.rs` 27-31: fill a chunk with running powers. -/
def powersRunning (g : F) : F → ℕ → List F
  | _, 0 => []
  | u, n + 1 => u :: powersRunning g (u * g) n

/-- `src/precomputations/mod.rs` 7-11 `struct PrecomputedOmegas` -/
structure PrecomputedOmegas (F : Type) where
  omegas : List F
  coset : List F
  omegasInv : List F

/-- `src/precomputations/mod.rs` 14-66 `new_for_domain` -/
def PrecomputedOmegas.newForDomain [DecidableEq F] [StarkField F] (domain : Domain F) (w : Worker) :
    Res (PrecomputedOmegas F) := do
  let omega := domain.generator
  let omegaInv ← Res.expect (inverse domain.generator)
  let omegas := parChunks w (List.replicate domain.size (0 : F)) (fun ch i v =>
    powersRunning omega (omega ^ (i * ch)) v.length)
  let omegasInv := parChunks w (List.replicate (domain.size / 2) (0 : F)) (fun ch i v =>
    powersRunning omegaInv (omegaInv ^ (i * ch)) v.length)
  let coset := parChunks w omegas (fun _ _ v => v.map (fun x => x * StarkField.mulGen))
  pure { omegas := omegas, coset := coset, omegasInv := omegasInv }

end Hodor

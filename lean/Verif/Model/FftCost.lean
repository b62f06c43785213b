import Verif.Model.ProverCost

/-!
# The transforms of `src/fft/fft.rs` with their field operations counted

In the counting monad of `Verif/Model/Cost.lean`: one operation for each `add_assign`, `sub_assign` and `mul_assign`, and the loop of crate `ff_ce` for
`pow`. Not counted: copies, swaps and index arithmetic.
-/

namespace Hodor

variable {F : Type} [Field F]

/-- `src/fft/fft.rs` 52-57: one butterfly: a product, a difference and a sum. -/
def butterflyT (a : List F) (i i' : ℕ) (w : F) : Tick (List F) := do
  let t ← Tick.lift (rd a i')
  let t ← Tick.op 1 (t * w)
  let tmp ← Tick.lift (rd a i)
  let tmp ← Tick.op 1 (tmp - t)
  let a ← Tick.lift (wr a i' tmp)
  let x ← Tick.lift (rd a i)
  let x ← Tick.op 1 (x + t)
  Tick.lift (wr a i x)

/-- `src/fft/fft.rs` 49-59: one block; the running twiddle takes one more product for each butterfly (58). -/
def fftBlockT (a : List F) (k m : ℕ) (wm : F) : Tick (List F) := do
  let (a, _) ← Tick.forN m 0 (a, (1 : F)) (fun j (a, w) => do
    let a ← butterflyT a (k + j) (k + j + m) w
    let w ← Tick.op 1 (w * wm)
    pure (a, w))
  pure a

/-- `src/fft/fft.rs` 45-62: one round, with one power (45). -/
def fftRoundT (a : List F) (n m : ℕ) (ω : F) : Tick (List F) := do
  let wm ← powT ω (n / (2 * m))
  Tick.forN (numChunks n (2 * m)) 0 a (fun b a => fftBlockT a (2 * m * b) m wm)

/-- `src/fft/fft.rs` 21-66 `serial_fft` -/
def serialFftT (a : List F) (ω : F) (logN : ℕ) : Tick (List F) := do
  let n := a.length % 2 ^ 32
  Tick.lift (Res.assert (logN < 32))
  Tick.lift (Res.assert (n = 2 ^ logN))
  let a ← Tick.lift (bitrevPermute a n logN)
  let (a, _) ← Tick.forN logN 0 (a, 1) (fun _ (a, m) => do
    let a ← fftRoundT a n m ω
    pure (a, m * 2))
  pure a

/-- `src/fft/fft.rs` 88-103: the shuffle of one task: two powers, three operations for each element read and one for each element written. -/
def fftShuffleT (a : List F) (ω : F) (logN logCpus j : ℕ) : Tick (List F) := do
  let numCpus := 2 ^ logCpus
  let logNewN := logN - logCpus
  let omegaJ ← powT ω j
  let omegaStep ← powT ω (j * 2 ^ logNewN)
  let (tmp, _) ← Tick.forN (2 ^ logNewN) 0 (List.replicate (2 ^ logNewN) (0 : F), (1 : F))
    (fun i (tmp, elt) => do
      let (tmp, elt) ← Tick.forN numCpus 0 (tmp, elt) (fun s (tmp, elt) => do
        let idx := (i + s * 2 ^ logNewN) % 2 ^ logN
        let t ← Tick.lift (rd a idx)
        let t ← Tick.op 1 (t * elt)
        let x ← Tick.lift (rd tmp i)
        let x ← Tick.op 1 (x + t)
        let tmp ← Tick.lift (wr tmp i x)
        let elt ← Tick.op 1 (elt * omegaStep)
        pure (tmp, elt))
      let elt ← Tick.op 1 (elt * omegaJ)
      pure (tmp, elt))
  pure tmp

/-- `src/fft/fft.rs` 86-107: one task of `parallel_fft`. -/
def fftTaskT (a : List F) (ω newOmega : F) (logN logCpus j : ℕ) : Tick (List F) := do
  let row ← fftShuffleT a ω logN logCpus j
  serialFftT row newOmega (logN - logCpus)

/-- `src/fft/fft.rs` 68-125 `parallel_fft`: the operations of all tasks together. -/
def parallelFftT (w : Worker) (a : List F) (ω : F) (logN logCpus : ℕ) : Tick (List F) := do
  Tick.lift (Res.assert (logCpus ≤ logN))
  let newOmega ← powT ω (2 ^ logCpus)
  let tmp ← Tick.collectN (2 ^ logCpus) (fun j => fftTaskT a ω newOmega logN logCpus j)
  Tick.lift (interleave w a.length tmp (2 ^ logCpus))

/-- `src/fft/fft.rs` 5-19 `best_fft` -/
def bestFftT (w : Worker) (a : List F) (ω : F) (logN : ℕ) (hint : Option ℕ) : Tick (List F) := do
  let logCpus ← Tick.lift (match hint with
    | some h => do
      Res.assert (h ≤ w.cpus)
      log2Floor h
    | none => pure w.logNumCpus)
  if logCpus = 0 ∨ logN ≤ logCpus then
    serialFftT a ω logN
  else
    parallelFftT w a ω logN logCpus

end Hodor

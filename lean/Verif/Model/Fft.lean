import Verif.Model.Worker

/-!
# Radix-2 FFT (`src/fft/fft.rs`) and `distribute_powers` (`src/fft/mod.rs`)

`src/fft/prefetch_fft.rs` is the same algorithm with prefetch hints (no-ops) and
the last butterfly of the inner loop unrolled, see `Verif/Model/FftKernels.lean`.
-/

namespace Hodor

variable {F : Type} [Field F]

/-- `src/fft/fft.rs` 24-31 `bitreverse`: `l` rounds of `r = (r << 1) | (n & 1); n >>= 1`
(`(r << 1) | (n & 1) = 2*r + n % 2`). -/
def bitrevLoop : ℕ → ℕ → ℕ → ℕ
  | 0, _, r => r
  | l + 1, n, r => bitrevLoop l (n / 2) (2 * r + n % 2)

/-- `src/fft/fft.rs` 24-31 `bitreverse(n, l)` -/
def bitreverse (n l : ℕ) : ℕ := bitrevLoop l n 0

/-- `slice::swap` (panics when out of bounds). -/
def swapAt {α : Type} (a : List α) (i j : ℕ) : Res (List α) := do
  let x ← rd a i
  let y ← rd a j
  let a ← wr a i y
  wr a j x

/-- `src/fft/fft.rs` 36-41: the bit-reversal permutation loop. -/
def bitrevPermute {α : Type} (a : List α) (n logN : ℕ) : Res (List α) :=
  forN n 0 a (fun k a =>
    let rk := bitreverse k logN
    if k < rk then swapAt a rk k else .ok a)

/-- `src/fft/fft.rs` 52-57: one butterfly on positions `i = k+j` and `i' = k+j+m`. -/
def butterfly (a : List F) (i i' : ℕ) (w : F) : Res (List F) := do
  let t ← rd a i'
  let t := t * w
  let tmp ← rd a i
  let a ← wr a i' (tmp - t)
  let x ← rd a i
  wr a i (x + t)

/-- `src/fft/fft.rs` 49-59: the `for j in 0..m` loop of one block starting at `k`,
state is the array and the running twiddle `w`. -/
def fftBlock (a : List F) (k m : ℕ) (wm : F) : Res (List F) := do
  let (a, _) ← forN m 0 (a, (1 : F)) (fun j (a, w) => do
    let a ← butterfly a (k + j) (k + j + m) w
    pure (a, w * wm))
  pure a

/-- `src/fft/fft.rs` 45-62: one round. `while k < n { …; k += 2*m }` runs `⌈n/(2m)⌉` times
with `k = 2*m*b`. -/
def fftRound (a : List F) (n m : ℕ) (ω : F) : Res (List F) :=
  let wm := ω ^ (n / (2 * m))
  forN (numChunks n (2 * m)) 0 a (fun b a => fftBlock a (2 * m * b) m wm)

/-- `src/fft/fft.rs` 21-66 `serial_fft`. `a.len() as u32` truncates; `1 << log_n` on `u32`
overflows (panics in a checked build) for `log_n ≥ 32`. -/
def serialFft (a : List F) (ω : F) (logN : ℕ) : Res (List F) := do
  let n := a.length % 2 ^ 32
  Res.assert (logN < 32)
  Res.assert (n = 2 ^ logN)
  let a ← bitrevPermute a n logN
  let (a, _) ← forN logN 0 (a, 1) (fun _ (a, m) => do
    let a ← fftRound a n m ω
    pure (a, m * 2))
  pure a

/-- `src/fft/fft.rs` 87-106: the task that fills `tmp[j]`: shuffle into a sub-problem.
State of the double loop: the row `tmp` and the running power `elt`. -/
def fftShuffle (a : List F) (ω : F) (logN logCpus j : ℕ) : Res (List F) := do
  let numCpus := 2 ^ logCpus
  let logNewN := logN - logCpus
  let omegaJ := ω ^ j
  let omegaStep := ω ^ (j * 2 ^ logNewN)
  let (tmp, _) ← forN (2 ^ logNewN) 0 (List.replicate (2 ^ logNewN) (0 : F), (1 : F))
    (fun i (tmp, elt) => do
      let (tmp, elt) ← forN numCpus 0 (tmp, elt) (fun s (tmp, elt) => do
        let idx := (i + s * 2 ^ logNewN) % 2 ^ logN
        let t ← rd a idx
        let x ← rd tmp i
        let tmp ← wr tmp i (x + t * elt)
        pure (tmp, elt * omegaStep))
      pure (tmp, elt * omegaJ))
  pure tmp

/-- Run `f 0, …, f (n-1)` and collect the results (spawned tasks joined in a scope;
a panicking task makes the scope panic: `.expect("must run")`, `multicore.rs` 69-71). -/
def collectN {α : Type} : ℕ → (ℕ → Res α) → Res (List α)
  | 0, _ => .ok []
  | n + 1, f => do
    let l ← collectN n f
    let x ← f n
    pure (l ++ [x])

/-- Gather rows back into one vector, chunk by chunk of the output:
`out[idx] = rows[idx % m][idx / m]`. Used by `parallel_fft` (`src/fft/fft.rs` 111-124, where
`m = 2^log_cpus`, `idx & mask = idx % m`, `idx >> log_cpus = idx / m`), by the other parallel
kernels and by the multi-coset LDEs (`src/polynomials/mod.rs` 400-413, 466-479, 525-538, 593-606,
where `m = factor`). -/
def interleave {α : Type} (w : Worker) (len : ℕ) (rows : List (List α)) (m : ℕ) :
    Res (List α) := do
  let c := w.chunkSize len
  let parts ← collectN (numChunks len c) (fun i =>
    collectN (min c (len - i * c)) (fun j => do
      let idx := i * c + j
      let row ← rd rows (idx % m)
      rd row (idx / m)))
  pure parts.flatten

/-- `src/fft/fft.rs` 68-125 `parallel_fft` -/
def parallelFft (w : Worker) (a : List F) (ω : F) (logN logCpus : ℕ) : Res (List F) := do
  Res.assert (logCpus ≤ logN)
  let newOmega := ω ^ (2 ^ logCpus)
  let tmp ← collectN (2 ^ logCpus) (fun j => do
    let row ← fftShuffle a ω logN logCpus j
    serialFft row newOmega (logN - logCpus))
  interleave w a.length tmp (2 ^ logCpus)

/-- `src/fft/fft.rs` 5-19 `best_fft`, reached through `src/fft/mod.rs` 50-52. -/
def bestFft (w : Worker) (a : List F) (ω : F) (logN : ℕ) (hint : Option ℕ) : Res (List F) := do
  let logCpus ← match hint with
    | some h => do
      Res.assert (h ≤ w.cpus)
      log2Floor h
    | none => pure w.logNumCpus
  if logCpus = 0 ∨ logN ≤ logCpus then
    serialFft a ω logN
  else
    parallelFft w a ω logN logCpus

/-- Body of the task of `distribute_powers` (`src/fft/mod.rs` 114-119): multiply the elements of a
chunk by `u, u*g, u*g², …`. -/
def mulRunning (u g : F) : List F → List F
  | [] => []
  | x :: l => x * u :: mulRunning (u * g) g l

/-- `src/fft/mod.rs` 110-123 `distribute_powers` -/
def distributePowers (w : Worker) (a : List F) (g : F) : List F :=
  parChunks w a (fun c i v => mulRunning (g ^ (i * c)) g v)

end Hodor

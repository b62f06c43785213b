import Verif.Model.Fft
import Verif.Model.Utils

/-!
# The other FFT and LDE kernels

* `src/fft/prefetch_fft.rs` (used instead of `fft.rs` with the feature `nightly`); `prefetch_index` is a hint to the
  processor without effect on values and is dropped; its bounds check concerns indices that the next butterfly reads or writes,
  so it panics only where that butterfly does,
* `src/fft/lde.rs` and `src/fft/prefetch_lde.rs` (`nightly`): transforms of zero-padded vectors,
* `src/fft/dit_fft/mod.rs`, `src/fft/radix4_fft/mod.rs`,
* `src/fft/recursive_fft.rs`, `src/fft/recursive_lde.rs` (in the repository, commented out in `src/fft/mod.rs` 13-14).
-/

namespace Hodor

variable {F : Type} [Field F]

/-! ## `prefetch_fft.rs` -/

/-- `src/fft/prefetch_fft.rs` 49-77: one block; the last butterfly (`j = m - 1`) is outside the loop. `m - 1` underflows (panics)
for `m = 0`. -/
def prefetchFftBlock (a : List F) (k m : ℕ) (wm : F) : Res (List F) := do
  Res.assert (1 ≤ m)
  let (a, w) ← forN (m - 1) 0 (a, (1 : F)) (fun j (a, w) => do
    let a ← butterfly a (k + j) (k + j + m) w
    pure (a, w * wm))
  butterfly a (k + (m - 1)) (k + (m - 1) + m) w

/-- `src/fft/prefetch_fft.rs` 45-80: one round. -/
def prefetchFftRound (a : List F) (n m : ℕ) (ω : F) : Res (List F) :=
  let wm := ω ^ (n / (2 * m))
  forN (numChunks n (2 * m)) 0 a (fun b a => prefetchFftBlock a (2 * m * b) m wm)

/-- `src/fft/prefetch_fft.rs` 22-81 `serial_fft` -/
def prefetchSerialFft (a : List F) (ω : F) (logN : ℕ) : Res (List F) := do
  let n := a.length % 2 ^ 32
  Res.assert (logN < 32)
  Res.assert (n = 2 ^ logN)
  let a ← bitrevPermute a n logN
  let (a, _) ← forN logN 0 (a, 1) (fun _ (a, m) => do
    let a ← prefetchFftRound a n m ω
    pure (a, m * 2))
  pure a

/-- `src/fft/prefetch_fft.rs` 83-139 `parallel_fft` -/
def prefetchParallelFft (w : Worker) (a : List F) (ω : F) (logN logCpus : ℕ) : Res (List F) := do
  Res.assert (logCpus ≤ logN)
  let newOmega := ω ^ (2 ^ logCpus)
  let tmp ← collectN (2 ^ logCpus) (fun j => do
    let row ← fftShuffle a ω logN logCpus j
    prefetchSerialFft row newOmega (logN - logCpus))
  interleave w a.length tmp (2 ^ logCpus)

/-- `src/fft/prefetch_fft.rs` 6-20 `best_fft` -/
def prefetchBestFft (w : Worker) (a : List F) (ω : F) (logN : ℕ) (hint : Option ℕ) : Res (List F) := do
  let logCpus ← match hint with
    | some h => do
      Res.assert (h ≤ w.cpus)
      log2Floor h
    | none => pure w.logNumCpus
  if logCpus = 0 ∨ logN ≤ logCpus then
    prefetchSerialFft a ω logN
  else
    prefetchParallelFft w a ω logN logCpus

/-! ## `lde.rs` -/

/-- `src/fft/lde.rs` 27-31 `is_non_zero`. `lde_factor - 1` cannot underflow: it is only called in a round that is not dense,
so `lde_factor > 1`. -/
def isNonZero (idx factor step : ℕ) : Bool := decide (idx &&& (factor - 1) < 2 ^ step)

/-- `src/fft/lde.rs` 33-41 `is_dense_round` -/
def isDenseRound (factor step : ℕ) : Bool := decide (factor / 2 ^ step ≤ 1)

/-- `src/fft/lde.rs` 81-116: the butterfly that skips operands known to be zero. -/
def sparseButterfly (a : List F) (even odd factor step : ℕ) (w : F) : Res (List F) :=
  match isNonZero odd factor step, isNonZero even factor step with
  | true, true => butterfly a even odd w
  | false, true => do
    let x ← rd a even
    wr a odd x
  | true, false => do
    let t ← rd a odd
    let t := t * w
    let a ← wr a odd (-t)
    wr a even t
  | false, false => .ok a

/-- `src/fft/lde.rs` 78-120: one block of a sparse round. -/
def sparseBlock (a : List F) (k m factor step : ℕ) (wm : F) : Res (List F) := do
  let (a, _) ← forN m 0 (a, (1 : F)) (fun j (a, w) => do
    let a ← sparseButterfly a (k + j) (k + j + m) factor step w
    pure (a, w * wm))
  pure a

/-- `src/fft/lde.rs` 58-125: one round, dense or sparse. -/
def ldeRound (a : List F) (n m factor step : ℕ) (ω : F) : Res (List F) :=
  let wm := ω ^ (n / (2 * m))
  if isDenseRound factor step then
    forN (numChunks n (2 * m)) 0 a (fun b a => fftBlock a (2 * m * b) m wm)
  else
    forN (numChunks n (2 * m)) 0 a (fun b a => sparseBlock a (2 * m * b) m factor step wm)

/-- `src/fft/lde.rs` 15-126 `serial_lde`; `step` is the loop counter. -/
def serialLde (a : List F) (ω : F) (logN factor : ℕ) : Res (List F) := do
  let n := a.length % 2 ^ 32
  Res.assert (logN < 32)
  Res.assert (n = 2 ^ logN)
  let a ← bitrevPermute a n logN
  let (a, _) ← forN logN 0 (a, 1) (fun step (a, m) => do
    let a ← ldeRound a n m factor step ω
    pure (a, m * 2))
  pure a

/-- The double loop by which the parallel kernels fill one row `tmp[j]` (e.g. `src/fft/lde.rs` 152-167); `add i s tmp elt` is the
update of the row made for the entry `i + (s << log_new_n)` with the running power `elt`. -/
def shuffleRow (numCpus newN : ℕ) (omegaJ omegaStep : F) (add : ℕ → ℕ → List F → F → Res (List F)) : Res (List F) := do
  let (tmp, _) ← forN newN 0 (List.replicate newN (0 : F), (1 : F)) (fun i (tmp, elt) => do
    let (tmp, elt) ← forN numCpus 0 (tmp, elt) (fun s (tmp, elt) => do
      let tmp ← add i s tmp elt
      pure (tmp, elt * omegaStep))
    pure (tmp, elt * omegaJ))
  pure tmp

/-- `src/fft/lde.rs` 158-163: entries past `non_trivial_len` are skipped. -/
def ldeAdd (a : List F) (logN logNewN nonTrivialLen i s : ℕ) (tmp : List F) (elt : F) : Res (List F) :=
  let idx := (i + s * 2 ^ logNewN) % 2 ^ logN
  if idx < nonTrivialLen then do
    let t ← rd a idx
    let x ← rd tmp i
    wr tmp i (x + t * elt)
  else .ok tmp

/-- `src/fft/lde.rs` 169-174: the transform of one row. -/
def ldeRowTransform (row : List F) (ω : F) (logN newFactor : ℕ) : Res (List F) :=
  if newFactor ≤ 1 then serialFft row ω logN else serialLde row ω logN newFactor

/-- `src/fft/lde.rs` 128-193 `parallel_lde`; `a.len() / lde_factor` panics for `lde_factor = 0`. -/
def parallelLde (w : Worker) (a : List F) (ω : F) (logN logCpus factor : ℕ) : Res (List F) := do
  Res.assert (logCpus ≤ logN)
  let newOmega := ω ^ (2 ^ logCpus)
  Res.assert (factor ≠ 0)
  let nonTrivialLen := a.length / factor
  let tmp ← collectN (2 ^ logCpus) (fun j => do
    let row ← shuffleRow (2 ^ logCpus) (2 ^ (logN - logCpus)) (ω ^ j) (ω ^ (j * 2 ^ (logN - logCpus)))
      (ldeAdd a logN (logN - logCpus) nonTrivialLen)
    ldeRowTransform row newOmega (logN - logCpus) (factor / 2 ^ logCpus))
  interleave w a.length tmp (2 ^ logCpus)

/-- `src/fft/lde.rs` 4-13 `best_lde` -/
def bestLde (w : Worker) (a : List F) (ω : F) (logN factor : ℕ) : Res (List F) :=
  if logN ≤ w.logNumCpus then serialLde a ω logN factor
  else parallelLde w a ω logN w.logNumCpus factor

/-! ## `prefetch_lde.rs` -/

/-- `src/fft/prefetch_lde.rs` 48-56: the bit-reversal loop, left at `k = non_trivial_len`. -/
def bitrevPermuteUpTo {α : Type} (a : List α) (n nonTrivialLen logN : ℕ) : Res (List α) :=
  forN (min n nonTrivialLen) 0 a (fun k a =>
    let rk := bitreverse k logN
    if k < rk then swapAt a rk k else .ok a)

/-- `src/fft/prefetch_lde.rs` 100-197: one block of a sparse round; the last butterfly is outside the loop. -/
def prefetchSparseBlock (a : List F) (k m factor step : ℕ) (wm : F) : Res (List F) := do
  Res.assert (1 ≤ m)
  let (a, w) ← forN (m - 1) 0 (a, (1 : F)) (fun j (a, w) => do
    let a ← sparseButterfly a (k + j) (k + j + m) factor step w
    pure (a, w * wm))
  sparseButterfly a (k + (m - 1)) (k + (m - 1) + m) factor step w

/-- `src/fft/prefetch_lde.rs` 63-202: one round, dense or sparse. -/
def prefetchLdeRound (a : List F) (n m factor step : ℕ) (ω : F) : Res (List F) :=
  let wm := ω ^ (n / (2 * m))
  if isDenseRound factor step then
    forN (numChunks n (2 * m)) 0 a (fun b a => prefetchFftBlock a (2 * m * b) m wm)
  else
    forN (numChunks n (2 * m)) 0 a (fun b a => prefetchSparseBlock a (2 * m * b) m factor step wm)

/-- `src/fft/prefetch_lde.rs` 16-203 `serial_lde` -/
def prefetchSerialLde (a : List F) (ω : F) (logN factor : ℕ) : Res (List F) := do
  let n := a.length % 2 ^ 32
  Res.assert (factor ≠ 0)
  let nonTrivialLen := (a.length / factor) % 2 ^ 32
  Res.assert (logN < 32)
  Res.assert (n = 2 ^ logN)
  let a ← bitrevPermuteUpTo a n nonTrivialLen logN
  let (a, _) ← forN logN 0 (a, 1) (fun step (a, m) => do
    let a ← prefetchLdeRound a n m factor step ω
    pure (a, m * 2))
  pure a

/-- `src/fft/prefetch_lde.rs` 246-251: the transform of one row. -/
def prefetchLdeRowTransform (row : List F) (ω : F) (logN newFactor : ℕ) : Res (List F) :=
  if newFactor ≤ 1 then prefetchSerialFft row ω logN else prefetchSerialLde row ω logN newFactor

/-- `src/fft/prefetch_lde.rs` 205-270 `parallel_lde` -/
def prefetchParallelLde (w : Worker) (a : List F) (ω : F) (logN logCpus factor : ℕ) : Res (List F) := do
  Res.assert (logCpus ≤ logN)
  let newOmega := ω ^ (2 ^ logCpus)
  Res.assert (factor ≠ 0)
  let nonTrivialLen := a.length / factor
  let tmp ← collectN (2 ^ logCpus) (fun j => do
    let row ← shuffleRow (2 ^ logCpus) (2 ^ (logN - logCpus)) (ω ^ j) (ω ^ (j * 2 ^ (logN - logCpus)))
      (ldeAdd a logN (logN - logCpus) nonTrivialLen)
    prefetchLdeRowTransform row newOmega (logN - logCpus) (factor / 2 ^ logCpus))
  interleave w a.length tmp (2 ^ logCpus)

/-- `src/fft/prefetch_lde.rs` 5-14 `best_lde` -/
def prefetchBestLde (w : Worker) (a : List F) (ω : F) (logN factor : ℕ) : Res (List F) :=
  if logN ≤ w.logNumCpus then prefetchSerialLde a ω logN factor
  else prefetchParallelLde w a ω logN w.logNumCpus factor

/-! ## `dit_fft/mod.rs` -/

/-- `src/fft/dit_fft/mod.rs` 31-37: one butterfly on positions `k` and `k + h`. -/
def ditButterfly (a : List F) (k h : ℕ) (w : F) : Res (List F) := do
  let t ← rd a (k + h)
  let tmp ← rd a k
  let a ← wr a (k + h) ((tmp - t) * w)
  let x ← rd a k
  wr a k (x + t)

/-- `src/fft/dit_fft/mod.rs` 28-38: `count` butterflies from position `start`, half block length `h`. -/
def ditBlock (a : List F) (start h count : ℕ) (wm : F) : Res (List F) := do
  let (a, _) ← forN count 0 (a, (1 : F)) (fun j (a, w) => do
    let a ← ditButterfly a (start + j) h w
    pure (a, w * wm))
  pure a

/-- `src/fft/dit_fft/mod.rs` 23-39: one round. -/
def ditRound (a : List F) (n m nonZero : ℕ) (ω : F) : Res (List F) :=
  let wm := ω ^ m
  let blockLen := n / m
  forN m 0 a (fun block a => ditBlock a (block * blockLen) (blockLen / 2) (min (blockLen / 2) nonZero) wm)

/-- `src/fft/dit_fft/mod.rs` 4-52 `serial_DIT_fft`; `1 << log_n` on `u64` panics for `log_n ≥ 64`. -/
def serialDitFft (a : List F) (ω : F) (logN nonZero : ℕ) : Res (List F) := do
  let n := a.length
  Res.assert (logN < 64)
  Res.assert (n = 2 ^ logN)
  let (a, _) ← forN logN 0 (a, 1) (fun _ (a, m) => do
    let a ← ditRound a n m nonZero ω
    pure (a, m * 2))
  bitrevPermute a n logN

/-- `src/fft/dit_fft/mod.rs` 83-86 and `src/fft/radix4_fft/mod.rs` 156-159: no reduction of the index. -/
def plainAdd (a : List F) (logNewN i s : ℕ) (tmp : List F) (elt : F) : Res (List F) := do
  let t ← rd a (i + s * 2 ^ logNewN)
  let x ← rd tmp i
  wr tmp i (x + t * elt)

/-- `src/fft/dit_fft/mod.rs` 54-111 `parallel_DIT_fft` -/
def parallelDitFft (w : Worker) (a : List F) (ω : F) (logN logCpus nonZero : ℕ) : Res (List F) := do
  Res.assert (logCpus ≤ logN)
  let newOmega := ω ^ (2 ^ logCpus)
  let tmp ← collectN (2 ^ logCpus) (fun j => do
    let row ← shuffleRow (2 ^ logCpus) (2 ^ (logN - logCpus)) (ω ^ j) (ω ^ (j * 2 ^ (logN - logCpus)))
      (plainAdd a (logN - logCpus))
    serialDitFft row newOmega (logN - logCpus) (min nonZero (2 ^ (logN - logCpus))))
  interleave w a.length tmp (2 ^ logCpus)

/-- `src/fft/dit_fft/mod.rs` 113-122 `best_DIT_fft` -/
def bestDitFft (w : Worker) (a : List F) (ω : F) (logN nonZero : ℕ) : Res (List F) :=
  if logN ≤ w.logNumCpus then serialDitFft a ω logN nonZero
  else parallelDitFft w a ω logN w.logNumCpus nonZero

/-! ## `radix4_fft/mod.rs` -/

/-- `src/fft/radix4_fft/mod.rs` 23-31 `base_4_digit_reverse`: `(r << 2) | (n & 3) = 4*r + n % 4`. -/
def digitrevLoop : ℕ → ℕ → ℕ → ℕ
  | 0, _, r => r
  | l + 1, n, r => digitrevLoop l (n / 4) (4 * r + n % 4)

/-- `src/fft/radix4_fft/mod.rs` 23-31 `base_4_digit_reverse(n, l)` -/
def digitReverse (n l : ℕ) : ℕ := digitrevLoop l n 0

/-- `src/fft/radix4_fft/mod.rs` 53-58: the digit-reversal permutation loop. -/
def digitrevPermute {α : Type} (a : List α) (n digits : ℕ) : Res (List α) :=
  forN n 0 a (fun k a =>
    let rk := digitReverse k digits
    if k < rk then swapAt a rk k else .ok a)

/-- `src/fft/radix4_fft/mod.rs` 77-113: one radix-4 butterfly on positions `i, i+m, i+2m, i+3m`. -/
def radix4Butterfly (a : List F) (i m : ℕ) (v w : F) : Res (List F) := do
  let x0 ← rd a i
  let x1 ← rd a (i + m)
  let x1 := x1 * w
  let x2 ← rd a (i + 2 * m)
  let u := w * w
  let x2 := x2 * u
  let x3 ← rd a (i + 3 * m)
  let u := u * w
  let x3 := x3 * u
  let x0PlusX2 := x0 + x2
  let x1PlusX3 := x1 + x3
  let a ← wr a i (x0PlusX2 + x1PlusX3)
  let a ← wr a (i + 2 * m) (x0PlusX2 - x1PlusX3)
  let x0MinusX2 := x0 - x2
  let x1MinusX3ByW4 := (x1 - x3) * v
  let a ← wr a (i + m) (x0MinusX2 + x1MinusX3ByW4)
  wr a (i + 3 * m) (x0MinusX2 - x1MinusX3ByW4)

/-- `src/fft/radix4_fft/mod.rs` 68-116: one block. -/
def radix4Block (a : List F) (k m : ℕ) (v wm : F) : Res (List F) := do
  let (a, _) ← forN m 0 (a, (1 : F)) (fun j (a, w) => do
    let a ← radix4Butterfly a (k + j) m v w
    pure (a, w * wm))
  pure a

/-- `src/fft/radix4_fft/mod.rs` 64-119: one round; `while k < n { …; k += 4*m }`. -/
def radix4Round (a : List F) (n m : ℕ) (v ω : F) : Res (List F) :=
  let wm := ω ^ (n / (4 * m))
  forN (numChunks n (4 * m)) 0 a (fun b a => radix4Block a (4 * m * b) m v wm)

/-- `src/fft/radix4_fft/mod.rs` 45-123 `serial_fft_radix_4` -/
def serialRadix4 (a : List F) (ω : F) (logN : ℕ) : Res (List F) := do
  let n := a.length
  Res.assert (logN < 64)
  Res.assert (n = 2 ^ logN)
  Res.assert (logN % 2 = 0)
  let a ← digitrevPermute a n (logN / 2)
  let v := ω ^ (n / 4)
  let (a, _) ← forN (logN / 2) 0 (a, 1) (fun _ (a, m) => do
    let a ← radix4Round a n m v ω
    pure (a, m * 4))
  pure a

/-- `src/fft/radix4_fft/mod.rs` 125-184 `parallel_fft_radix_4` -/
def parallelRadix4 (w : Worker) (a : List F) (ω : F) (logN logCpus : ℕ) : Res (List F) := do
  Res.assert (logCpus ≤ logN)
  Res.assert (logN % 2 = 0)
  Res.assert (logCpus % 2 = 0)
  let newOmega := ω ^ (2 ^ logCpus)
  let tmp ← collectN (2 ^ logCpus) (fun j => do
    let row ← shuffleRow (2 ^ logCpus) (2 ^ (logN - logCpus)) (ω ^ j) (ω ^ (j * 2 ^ (logN - logCpus)))
      (plainAdd a (logN - logCpus))
    serialRadix4 row newOmega (logN - logCpus))
  interleave w a.length tmp (2 ^ logCpus)

/-- `src/fft/radix4_fft/mod.rs` 5-20 `best_fft` -/
def bestRadix4 (w : Worker) (a : List F) (ω : F) (logN : ℕ) : Res (List F) := do
  Res.assert (logN % 2 = 0)
  let logCpus := w.logNumCpus
  let logCpus := if logCpus % 2 ≠ 0 then logCpus - 1 else logCpus
  if logN ≤ logCpus then serialRadix4 a ω logN
  else parallelRadix4 w a ω logN logCpus

/-! ## `recursive_fft.rs`, `recursive_lde.rs` -/

/-- `src/fft/recursive_fft.rs` 34-37 (and `recursive_lde.rs` 52-55): `for c in a.chunks(2) { even.push(c[0]); odd.push(c[1]) }`;
a last chunk of length one makes `c[1]` panic. -/
def evenOdd {α : Type} : List α → Res (List α × List α)
  | [] => .ok ([], [])
  | [_] => .panic
  | x :: y :: l => do
    let (e, o) ← evenOdd l
    pure (x :: e, y :: o)

/-- `src/fft/recursive_fft.rs` 50-63: write the two halves of the result; state is `result` and the running power. -/
def recombine (nHalf : ℕ) (ω : F) (i : ℕ) (y : F × F) (s : List F × F) : Res (List F × F) := do
  let tmp := y.2 * s.2
  let r ← wr s.1 i (y.1 + tmp)
  let r ← wr r (i + nHalf) (y.1 - tmp)
  pure (r, s.2 * ω)

/-- `for (i, y) in l.into_iter().enumerate() { s = body(i, y, s) }` -/
def forEnum {α σ : Type} : ℕ → List α → σ → (ℕ → α → σ → Res σ) → Res σ
  | _, [], s, _ => .ok s
  | i, x :: l, s, body => body i x s >>= fun s' => forEnum (i + 1) l s' body

/-- `src/fft/recursive_fft.rs` 15-66 `recursive_fft`; the recursion is on `log_n`. For `log_n = 0` and length 1 the split of `a` panics
(line 36). -/
def recursiveFft : ℕ → List F → F → Res (List F)
  | 0, a, _ => do
    if a.length = 2 then do
      let a0 ← rd a 0
      let a1 ← rd a 1
      pure [a0 + a1, a0 - a1]
    else .panic
  | logN + 1, a, ω => do
    if a.length = 2 then do
      let a0 ← rd a 0
      let a1 ← rd a 1
      pure [a0 + a1, a0 - a1]
    else do
      Res.assert (a.length = 2 ^ (logN + 1))
      let (e, o) ← evenOdd a
      let y0 ← recursiveFft logN e (ω ^ 2)
      let y1 ← recursiveFft logN o (ω ^ 2)
      let (r, _) ← forEnum 0 (y0.zip y1) (List.replicate a.length (0 : F), (1 : F)) (recombine (a.length / 2) ω)
      pure r

/-- `src/fft/recursive_fft.rs` 68-126 `parallel_fft` -/
def recursiveParallelFft (w : Worker) (a : List F) (ω : F) (logN logCpus : ℕ) : Res (List F) := do
  Res.assert (logCpus ≤ logN)
  let newOmega := ω ^ (2 ^ logCpus)
  let tmp ← collectN (2 ^ logCpus) (fun j => do
    let row ← fftShuffle a ω logN logCpus j
    recursiveFft (logN - logCpus) row newOmega)
  interleave w a.length tmp (2 ^ logCpus)

/-- `src/fft/recursive_fft.rs` 4-13 `best_fft` -/
def recursiveBestFft (w : Worker) (a : List F) (ω : F) (logN : ℕ) : Res (List F) :=
  if logN ≤ w.logNumCpus then recursiveFft logN a ω
  else recursiveParallelFft w a ω logN w.logNumCpus

section
variable [DecidableEq F]

/-- `src/fft/recursive_lde.rs` 68-86: as `recombine`, but zero operands are skipped. -/
def recombineSparse (nHalf : ℕ) (ω : F) (i : ℕ) (y : F × F) (s : List F × F) : Res (List F × F) :=
  if y.2 ≠ 0 then do
    let tmp := y.2 * s.2
    let r ← wr s.1 i (y.1 + tmp)
    let r ← wr r (i + nHalf) (y.1 - tmp)
    pure (r, s.2 * ω)
  else if y.1 ≠ 0 then do
    let r ← wr s.1 i y.1
    let r ← wr r (i + nHalf) y.1
    pure (r, s.2 * ω)
  else pure (s.1, s.2 * ω)

/-- `src/fft/recursive_lde.rs` 18-89 `recursive_lde` -/
def recursiveLde : ℕ → List F → F → Res (List F)
  | 0, a, _ => do
    if a.all (fun x => x = 0) then pure (List.replicate a.length 0)
    else if a.length = 2 then do
      let a0 ← rd a 0
      let a1 ← rd a 1
      pure [a0 + a1, a0 - a1]
    else .panic
  | logN + 1, a, ω => do
    if a.all (fun x => x = 0) then pure (List.replicate a.length 0)
    else if a.length = 2 then do
      let a0 ← rd a 0
      let a1 ← rd a 1
      pure [a0 + a1, a0 - a1]
    else do
      Res.assert (a.length = 2 ^ (logN + 1))
      let (e, o) ← evenOdd a
      let y0 ← recursiveLde logN e (ω ^ 2)
      let y1 ← recursiveLde logN o (ω ^ 2)
      let (r, _) ← forEnum 0 (y0.zip y1) (List.replicate a.length (0 : F), (1 : F)) (recombineSparse (a.length / 2) ω)
      pure r

/-- `src/fft/recursive_lde.rs` 118-123: zero entries are skipped. -/
def skipZeroAdd (a : List F) (logN logNewN i s : ℕ) (tmp : List F) (elt : F) : Res (List F) := do
  let t ← rd a ((i + s * 2 ^ logNewN) % 2 ^ logN)
  if t ≠ 0 then do
    let x ← rd tmp i
    wr tmp i (x + t * elt)
  else pure tmp

/-- `src/fft/recursive_lde.rs` 91-151 `parallel_lde` -/
def recursiveParallelLde (w : Worker) (a : List F) (ω : F) (logN logCpus : ℕ) : Res (List F) := do
  Res.assert (logCpus ≤ logN)
  let newOmega := ω ^ (2 ^ logCpus)
  let tmp ← collectN (2 ^ logCpus) (fun j => do
    let row ← shuffleRow (2 ^ logCpus) (2 ^ (logN - logCpus)) (ω ^ j) (ω ^ (j * 2 ^ (logN - logCpus)))
      (skipZeroAdd a logN (logN - logCpus))
    recursiveLde (logN - logCpus) row newOmega)
  interleave w a.length tmp (2 ^ logCpus)

/-- `src/fft/recursive_lde.rs` 7-16 `best_lde` -/
def recursiveBestLde (w : Worker) (a : List F) (ω : F) (logN : ℕ) : Res (List F) :=
  if logN ≤ w.logNumCpus then recursiveLde logN a ω
  else recursiveParallelLde w a ω logN w.logNumCpus

end

end Hodor

import Verif.Model.Field

/-!
# Worker (`src/fft/multicore.rs`)
-/

namespace Hodor

/-- `src/fft/multicore.rs` 16-20 `struct Worker` (the thread pool is not modelled).
`CpuPool::new` (line 29) panics on 0 threads, so a constructed worker has `cpus ≥ 1`. -/
structure Worker where
  cpus : ℕ
  pos : 0 < cpus

namespace Worker

/-- `src/fft/multicore.rs` 74-85 `get_chunk_size` -/
def chunkSize (w : Worker) (elements : ℕ) : ℕ :=
  if elements < w.cpus then 1 else elements / w.cpus

/-- `src/fft/multicore.rs` 87-102 `get_num_spawned_threads` -/
def numSpawnedThreads (w : Worker) (elements : ℕ) : ℕ :=
  if elements < w.cpus then elements
  else
    let c := w.chunkSize elements
    let n := elements / c
    if elements % c ≠ 0 then n + 1 else n

/-- `src/fft/multicore.rs` 38-40 `log_num_cpus`. `cpus > 0`, so `log2_floor` cannot panic. -/
def logNumCpus (w : Worker) : ℕ := Nat.log 2 w.cpus

end Worker

/-- Number of chunks of `slice::chunks(c)` on a slice of length `n`. -/
def numChunks (n c : ℕ) : ℕ := (n + c - 1) / c

/-- `slice::chunks(c)` / `chunks_mut(c)` for `c ≥ 1` (std; for `c = 0` Rust panics, the chunk
sizes in this code base are all `≥ 1`, theorem `C03`). -/
def chunks {α : Type} (c : ℕ) (l : List α) : List (List α) :=
  tab (numChunks l.length c) (fun i => (l.drop (i * c)).take c)

/-- The recurring pattern
`worker.scope(l.len(), |scope, chunk| for (i, v) in l.chunks_mut(chunk).enumerate() { spawn(f) })`
with a body that cannot panic: every chunk is replaced by `f chunk i v`.
(Sequential semantics; independence of the schedule is theorem `C03`.) -/
def parChunks {α β : Type} (w : Worker) (l : List α) (f : ℕ → ℕ → List α → List β) : List β :=
  let c := w.chunkSize l.length
  ((chunks c l).mapIdx (fun i v => f c i v)).flatten

/-- The same with a second slice split with the same chunk size and zipped:
`for (a, b) in a.chunks_mut(chunk).zip(b.chunks(chunk))`, where `chunk` comes from `elements`.
Chunks of `a` without partner are left as they are (`zip` stops, the data is in place). -/
def parChunksZip {α β : Type} (w : Worker) (elements : ℕ) (a : List α) (b : List β)
    (f : List α → List β → List α) : List α :=
  let c := w.chunkSize elements
  ((chunks c a).mapIdx (fun i v =>
    match (chunks c b)[i]? with
    | some u => f v u
    | none => v)).flatten

/-- `iter_mut().zip(b.iter())` with an element update: elements without partner stay. -/
def zipUpdate {α β : Type} (f : α → β → α) : List α → List β → List α
  | a :: as, b :: bs => f a b :: zipUpdate f as bs
  | as, _ => as

end Hodor

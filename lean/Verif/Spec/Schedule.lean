import Verif.Model.Worker

/-!
# Specification: interleaved execution of the tasks of a `worker.scope`

A scope splits a shared vector with `chunks_mut(chunk)` and spawns one task per chunk
(`src/fft/multicore.rs` 61-72 and its uses). A task may only touch its own chunk. Its execution is a
list of atomic writes; a schedule is any interleaving of the writes of all tasks on the shared vector.
-/

namespace Hodor.Spec

/-- One atomic action of a task: overwrite offset `pos` of its chunk with a value computed from the
current contents of the chunk. -/
structure Op (α : Type) where
  pos : ℕ
  val : List α → α

variable {α : Type}

/-- The part of the shared vector owned by task `i` (chunks of size `c`). -/
def view (c i : ℕ) (mem : List α) : List α := (mem.drop (i * c)).take c

/-- Effect on the shared vector of an action of task `i`; offsets outside the chunk are impossible
(slice bounds), such an action has no effect. -/
def execOp (c i : ℕ) (op : Op α) (mem : List α) : List α :=
  if op.pos < (view c i mem).length then mem.set (i * c + op.pos) (op.val (view c i mem)) else mem

/-- Run a schedule: a sequence of (task, action). -/
def runSchedule (c : ℕ) (sched : List (ℕ × Op α)) (mem : List α) : List α :=
  sched.foldl (fun m s => execOp c s.1 s.2 m) mem

/-- `sched` is an interleaving of the task programs: it contains for every task exactly the actions of
its program, in program order. -/
def Interleaves (tasks : ℕ → List (Op α)) (sched : List (ℕ × Op α)) : Prop :=
  ∀ i, (sched.filter (fun s => s.1 = i)).map (fun s => s.2) = tasks i

/-- Effect of an action on a chunk taken alone. -/
def localOp (op : Op α) (v : List α) : List α := if op.pos < v.length then v.set op.pos (op.val v) else v

/-- Run a task program alone on its chunk. -/
def runLocal (ops : List (Op α)) (v : List α) : List α := ops.foldl (fun v op => localOp op v) v

end Hodor.Spec

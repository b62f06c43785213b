import Verif.Model.Fft

/-!
# Specification: tasks spawned in a scope

`crossbeam::scope` (`src/fft/multicore.rs` 61-72) runs the spawned tasks concurrently and returns when all of them have ended; it fails, and `.expect("must run")` panics, if one of them panicked.
A task owns its state: the chunk handed to it, its local variables and read-only borrows (the borrow checker permits nothing else; the crate has no `unsafe` code).
-/

namespace Hodor.Spec

/-- One step of a task: go on with a new state, end with a result, or panic. -/
inductive TaskStep (σ ρ : Type) where
  | next (s : σ)
  | done (r : ρ)
  | panic

/-- A task: a first state and a step function. -/
structure Task (σ ρ : Type) where
  start : σ
  step : σ → TaskStep σ ρ

/-- What has become of a task. -/
inductive TaskStatus (σ ρ : Type) where
  | running (s : σ)
  | finished (r : ρ)
  | panicked

variable {σ ρ : Type}

/-- One step of a task that still runs; a task that has ended takes no further steps. -/
def Task.advance (t : Task σ ρ) : TaskStatus σ ρ → TaskStatus σ ρ
  | .running s => match t.step s with
    | .next s' => .running s'
    | .done r => .finished r
    | .panic => .panicked
  | .finished r => .finished r
  | .panicked => .panicked

/-- The task after `k` steps. -/
def Task.after (t : Task σ ρ) (k : ℕ) : TaskStatus σ ρ := t.advance^[k] (.running t.start)

/-- The task, run alone, ends with the result or the panic `r`. -/
def Task.Ends (t : Task σ ρ) (r : Res ρ) : Prop := (∃ v k, r = .ok v ∧ t.after k = .finished v) ∨ (r = .panic ∧ ∃ k, t.after k = .panicked)

/-- Run the tasks in the order given by the schedule: each entry is the number of the task that takes the next step. -/
def runTasks (tasks : ℕ → Task σ ρ) (sched : List ℕ) : ℕ → TaskStatus σ ρ :=
  sched.foldl (fun c i => Function.update c i ((tasks i).advance (c i))) (fun i => .running (tasks i).start)

/-- All of the first `n` tasks have ended: the scope can return. -/
def Joined (n : ℕ) (c : ℕ → TaskStatus σ ρ) : Prop := ∀ i < n, ∀ s, c i ≠ .running s

/-- What a scope with `n` tasks returns once they have ended: a panic if one of them panicked, otherwise their results. -/
def ScopeReturns (n : ℕ) (c : ℕ → TaskStatus σ ρ) (res : Res (List ρ)) : Prop :=
  Joined n c ∧ ((res = .panic ∧ ∃ i < n, c i = .panicked) ∨ (∃ l, res = .ok l ∧ l.length = n ∧ ∀ i (h : i < l.length), c i = .finished l[i]))

end Hodor.Spec

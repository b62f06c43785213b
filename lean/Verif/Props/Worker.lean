import Verif.Lemmas.Poly3
import Verif.Spec.Schedule

/-! # C03: worker chunks and schedules -/

namespace Hodor

open Spec

/-- **C03** (chunking): the chunk size is positive, the number of chunks is
`get_num_spawned_threads`, the chunks concatenate to the data, none is empty and none is longer than
the chunk size. -/
theorem C03_chunks {α : Type} (w : Worker) (l : List α) :
    0 < w.chunkSize l.length ∧
    (chunks (w.chunkSize l.length) l).length = w.numSpawnedThreads l.length ∧
    (chunks (w.chunkSize l.length) l).flatten = l ∧
    ∀ v ∈ chunks (w.chunkSize l.length) l, v ≠ [] ∧ v.length ≤ w.chunkSize l.length := by
  have hc := w.chunkSize_pos l.length
  refine ⟨hc, ?_, chunks_flatten hc l, ?_⟩
  · rw [length_chunks, numSpawnedThreads_eq]
  · intro v hv
    obtain ⟨i, hi, rfl⟩ := mem_tab.1 hv
    have := numChunks_lt hc hi
    constructor
    · intro h
      have := congrArg List.length h
      simp only [List.length_take, List.length_drop, List.length_nil] at this
      omega
    · simp

/-- **C03** (number of tasks): at most `2·cpus - 1` tasks are spawned, and at least one when there is data. -/
theorem C03_task_count (w : Worker) (n : ℕ) (hn : 0 < n) :
    0 < w.numSpawnedThreads n ∧ w.numSpawnedThreads n ≤ 2 * w.cpus - 1 := by
  have hp := w.pos
  constructor
  · rw [numSpawnedThreads_eq]
    exact lt_of_le_of_lt (Nat.zero_le _) (lt_numChunks (w.chunkSize_pos n) hn)
  · by_cases h : n < w.cpus
    · unfold Worker.numSpawnedThreads; rw [if_pos h]; omega
    · rw [numSpawnedThreads_eq]
      have hc := w.chunkSize_pos n
      have hce : w.chunkSize n = n / w.cpus := by unfold Worker.chunkSize; rw [if_neg h]
      by_contra hcon
      push_neg at hcon
      have hi : 2 * w.cpus - 1 < numChunks n (w.chunkSize n) := hcon
      have h1 := numChunks_lt hc hi
      rw [hce] at h1 hc
      have h2 := Nat.div_add_mod n w.cpus
      have h3 := Nat.mod_lt n hp
      have h4 : (2 * w.cpus - 1) * (n / w.cpus) = w.cpus * (n / w.cpus) + (w.cpus - 1) * (n / w.cpus) := by
        rw [← Nat.add_mul]; congr 1; omega
      have h5 : (w.cpus - 1) * 1 ≤ (w.cpus - 1) * (n / w.cpus) := Nat.mul_le_mul_left _ hc
      omega

theorem execOp_length {α : Type} (c i : ℕ) (op : Op α) (mem : List α) :
    (execOp c i op mem).length = mem.length := by
  unfold execOp; split <;> simp

theorem view_execOp_self {α : Type} (c i : ℕ) (op : Op α) (mem : List α) :
    view c i (execOp c i op mem) = localOp op (view c i mem) := by
  unfold execOp localOp
  split
  · rename_i h
    unfold view at *
    apply List.ext_getElem?
    intro j
    simp only [List.length_take, List.length_drop] at h
    simp only [List.getElem?_take, List.getElem?_drop, List.getElem?_set, List.length_take,
      List.length_drop]
    by_cases hj : j < c
    · by_cases e : op.pos = j
      · subst e
        have h2 : i * c + op.pos < mem.length := by omega
        simp [hj, h2, h]
      · have : ¬ (i * c + op.pos = i * c + j) := by omega
        simp [hj, e, this]
    · have : ¬ op.pos = j := by omega
      simp [hj, this]
  · rfl

theorem view_execOp_other {α : Type} {c i j : ℕ} (hij : i ≠ j) (op : Op α) (mem : List α) :
    view c j (execOp c i op mem) = view c j mem := by
  unfold execOp
  split
  · rename_i h
    unfold view at *
    simp only [List.length_take, List.length_drop] at h
    apply List.ext_getElem?
    intro t
    simp only [List.getElem?_take, List.getElem?_drop, List.getElem?_set]
    by_cases ht : t < c
    · have : ¬ (i * c + op.pos = j * c + t) := by
        intro e
        rcases Nat.lt_or_gt_of_ne hij with h1 | h1
        · have : (i + 1) * c ≤ j * c := Nat.mul_le_mul_right _ h1
          rw [Nat.add_mul] at this; omega
        · have : (j + 1) * c ≤ i * c := Nat.mul_le_mul_right _ h1
          rw [Nat.add_mul] at this; omega
      simp [ht, this]
    · simp [ht]
  · rfl

theorem runSchedule_length {α : Type} (c : ℕ) (sched : List (ℕ × Op α)) (mem : List α) :
    (runSchedule c sched mem).length = mem.length := by
  unfold runSchedule
  induction sched generalizing mem with
  | nil => rfl
  | cons s l ih => rw [List.foldl_cons, ih, execOp_length]

/-- Task `i`'s chunk evolves by the actions of task `i` alone. -/
theorem view_runSchedule {α : Type} (c : ℕ) (sched : List (ℕ × Op α)) (mem : List α) (i : ℕ) :
    view c i (runSchedule c sched mem)
      = runLocal ((sched.filter (fun s => s.1 = i)).map (fun s => s.2)) (view c i mem) := by
  unfold runSchedule runLocal
  induction sched generalizing mem with
  | nil => rfl
  | cons s l ih =>
    rw [List.foldl_cons, ih]
    by_cases h : s.1 = i
    · subst h
      simp [view_execOp_self]
    · rw [view_execOp_other h]
      simp [h]

theorem eq_of_views {α : Type} {c : ℕ} (hc : 0 < c) {a b : List α} (hl : a.length = b.length)
    (h : ∀ i, view c i a = view c i b) : a = b := by
  rw [← chunks_flatten hc a, ← chunks_flatten hc b]
  unfold chunks
  rw [hl]
  congr 1
  apply tab_congr
  intro i _
  exact h i

/-- **C03** (schedules): two interleavings of the same per-chunk tasks leave the same data, whatever the
tasks do inside their chunks. -/
theorem C03_any_schedule {α : Type} (w : Worker) (mem : List α) (tasks : ℕ → List (Op α))
    (sched sched' : List (ℕ × Op α)) (h : Interleaves tasks sched) (h' : Interleaves tasks sched') :
    runSchedule (w.chunkSize mem.length) sched mem = runSchedule (w.chunkSize mem.length) sched' mem := by
  apply eq_of_views (w.chunkSize_pos mem.length)
  · rw [runSchedule_length, runSchedule_length]
  · intro i
    rw [view_runSchedule, view_runSchedule, h i, h' i]

/-- **C03** (link to the sequential model): if task `i`, run alone, turns its chunk `v` into `f i v` of
the same length, then every interleaving produces the chunk-wise result used throughout the model. -/
theorem C03_schedule_eq_parChunks {α : Type} (w : Worker) (mem : List α) (tasks : ℕ → List (Op α))
    (sched : List (ℕ × Op α)) (h : Interleaves tasks sched) (f : ℕ → ℕ → List α → List α)
    (hf : ∀ i, i < w.numSpawnedThreads mem.length →
      runLocal (tasks i) (view (w.chunkSize mem.length) i mem)
        = f (w.chunkSize mem.length) i (view (w.chunkSize mem.length) i mem)) :
    runSchedule (w.chunkSize mem.length) sched mem = parChunks w mem f := by
  have hc := w.chunkSize_pos mem.length
  rw [numSpawnedThreads_eq] at hf
  unfold parChunks
  simp only
  rw [← chunks_flatten hc (runSchedule (w.chunkSize mem.length) sched mem)]
  generalize w.chunkSize mem.length = c at *
  unfold chunks
  rw [mapIdx_tab, runSchedule_length]
  congr 1
  apply tab_congr
  intro i hi
  have e := view_runSchedule c sched mem i
  rw [h i, hf i hi] at e
  exact e

/-- Non-vacuity: 5 elements on 2 CPUs, chunks of size 2 (three tasks); each task doubles its elements; a
schedule that alternates between the tasks is an interleaving. -/
example :
    let w : Worker := ⟨2, by norm_num⟩
    let dbl (p : ℕ) : Op ℕ := { pos := p, val := fun v => 2 * v.getD p 0 }
    let tasks : ℕ → List (Op ℕ) := fun i => if i < 2 then [dbl 0, dbl 1] else if i = 2 then [dbl 0] else []
    let sched := [(2, dbl 0), (0, dbl 0), (1, dbl 0), (1, dbl 1), (0, dbl 1)]
    w.numSpawnedThreads 5 = 3 ∧ Interleaves tasks sched ∧
      runSchedule (w.chunkSize 5) sched [1, 2, 3, 4, 5] = [2, 4, 6, 8, 10] := by
  refine ⟨by decide, ?_, by decide⟩
  intro i
  rcases i with _ | _ | _ | i
  · simp
  · simp
  · simp
  · simp [show ¬ (i + 1 + 1 + 1 < 2) by omega]

end Hodor

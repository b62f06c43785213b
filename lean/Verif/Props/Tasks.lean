import Verif.Spec.Tasks
import Verif.Props.Fft
import Verif.Model.F257

/-!
# C76: the outcome of a scope does not depend on the schedule, also when tasks panic
-/

namespace Hodor

open Spec

section
variable {σ ρ : Type}

theorem runTasks_eq (tasks : ℕ → Task σ ρ) (sched : List ℕ) (i : ℕ) : runTasks tasks sched i = (tasks i).after (sched.count i) := by
  unfold runTasks Task.after
  induction sched using List.reverseRecOn with
  | nil => rfl
  | append_singleton l j ih =>
    rw [List.foldl_append, List.foldl_cons, List.foldl_nil, List.count_append]
    by_cases h : j = i
    · subst h
      rw [Function.update_self, ih, List.count_singleton_self, Function.iterate_succ_apply']
    · rw [Function.update_of_ne (Ne.symm h), ih, List.count_singleton]
      simp [h]

theorem Spec.Task.after_add (t : Task σ ρ) (k m : ℕ) : t.after (k + m) = t.advance^[m] (t.after k) := by
  unfold Task.after
  rw [Nat.add_comm, Function.iterate_add_apply]

theorem advance_finished (t : Task σ ρ) (v : ρ) (m : ℕ) : t.advance^[m] (.finished v) = .finished v :=
  Function.iterate_fixed rfl m

theorem advance_panicked (t : Task σ ρ) (m : ℕ) : t.advance^[m] .panicked = .panicked :=
  Function.iterate_fixed rfl m

/-- Two ended states of a task are equal. -/
theorem Spec.Task.after_unique (t : Task σ ρ) {k m : ℕ} (hk : ∀ s, t.after k ≠ .running s) (hm : ∀ s, t.after m ≠ .running s) : t.after k = t.after m := by
  wlog hle : k ≤ m generalizing k m
  · exact (this hm hk (by omega)).symm
  obtain ⟨d, rfl⟩ := Nat.exists_eq_add_of_le hle
  rw [t.after_add]
  cases h : t.after k with
  | running s => exact absurd h (hk s)
  | finished v => rw [advance_finished]
  | panicked => rw [advance_panicked]

theorem collectN_outcome (n : ℕ) (r : ℕ → Res ρ) (he : ∀ i < n, ∀ e, r i ≠ .err e) :
    (∃ i < n, r i = .panic) ∧ collectN n r = .panic ∨ ∃ l, collectN n r = .ok l ∧ l.length = n ∧ ∀ i (h : i < l.length), r i = .ok l[i] := by
  induction n with
  | zero => exact .inr ⟨[], rfl, rfl, fun i h => by cases h⟩
  | succ n ih =>
    have ih := ih (fun i hi => he i (by omega))
    unfold collectN
    rcases ih with ⟨⟨i, hi, hp⟩, hc⟩ | ⟨l, hc, hl, hv⟩
    · exact .inl ⟨⟨i, by omega, hp⟩, by rw [hc]; rfl⟩
    · rw [hc]
      cases hr : r n with
      | err e => exact absurd hr (he n (by omega) e)
      | panic => exact .inl ⟨⟨n, by omega, hr⟩, rfl⟩
      | ok x =>
        refine .inr ⟨l ++ [x], rfl, by rw [List.length_append, hl]; rfl, ?_⟩
        intro i hi
        rw [List.getElem_append]
        split
        · exact hv i _
        · have : i = n := by simp only [List.length_append, List.length_singleton] at hi; omega
          subst this
          simpa using hr

/-- **C76** (any schedule). Whatever the order in which the tasks of a scope take their steps, the scope returns what running the tasks one after the other returns: their results, or a panic if one of them panics. -/
theorem C76_any_schedule (n : ℕ) (tasks : ℕ → Task σ ρ) (r : ℕ → Res ρ) (hr : ∀ i < n, (tasks i).Ends (r i)) (sched : List ℕ) (res : Res (List ρ)) :
    ScopeReturns n (runTasks tasks sched) res → res = collectN n r := by
  rintro ⟨hj, h⟩
  have hstat : ∀ i < n, (∀ v, r i = .ok v → runTasks tasks sched i = .finished v) ∧ (r i = .panic → runTasks tasks sched i = .panicked) := by
    intro i hi
    have hrun := hj i hi
    rw [runTasks_eq] at hrun ⊢
    rcases hr i hi with ⟨v, k, h1, h2⟩ | ⟨h1, k, h2⟩
    · have := (tasks i).after_unique hrun (m := k) (by rw [h2]; intro s hs; cases hs)
      rw [this, h2, h1]
      exact ⟨fun v' hv => by cases hv; rfl, fun hp => by cases hp⟩
    · have := (tasks i).after_unique hrun (m := k) (by rw [h2]; intro s hs; cases hs)
      rw [this, h2, h1]
      exact ⟨fun v' hv => (by cases hv), fun _ => rfl⟩
  have he : ∀ i < n, ∀ e, r i ≠ .err e := by
    intro i hi e h0
    rcases hr i hi with ⟨v, k, h1, -⟩ | ⟨h1, -⟩ <;> rw [h0] at h1 <;> cases h1
  rcases collectN_outcome n r he with ⟨⟨i, hi, hp⟩, hc⟩ | ⟨l, hc, hl, hv⟩
  · rw [hc]
    rcases h with ⟨h, -⟩ | ⟨l, -, hl, hf⟩
    · exact h
    · have := (hstat i hi).2 hp
      rw [hf i (by omega)] at this
      cases this
  · rw [hc]
    rcases h with ⟨-, i, hi, hp⟩ | ⟨l', h, hl', hf⟩
    · have := (hstat i hi).1 _ (hv i (by omega))
      rw [hp] at this
      cases this
    · rw [h]
      congr 1
      refine List.ext_getElem (by omega) ?_
      intro i h1 h2
      have := (hstat i (by omega)).1 _ (hv i h2)
      rw [hf i h1] at this
      injection this

/-- **C76** (the scope returns). If every task, run alone, ends, there is a number of steps such that every schedule that gives each task this many steps makes the scope return. No task waits for another. -/
theorem C76_returns (n : ℕ) (tasks : ℕ → Task σ ρ) (r : ℕ → Res ρ) (hr : ∀ i < n, (tasks i).Ends (r i)) :
    ∃ steps, ∀ sched : List ℕ, (∀ i < n, steps ≤ sched.count i) → ScopeReturns n (runTasks tasks sched) (collectN n r) := by
  have hk : ∀ i, ∃ k, i < n → ∀ s, (tasks i).after k ≠ .running s := by
    intro i
    by_cases hi : i < n
    · rcases hr i hi with ⟨v, k, h1, h2⟩ | ⟨h1, k, h2⟩
      · exact ⟨k, fun _ s => by rw [h2]; intro hs; cases hs⟩
      · exact ⟨k, fun _ s => by rw [h2]; intro hs; cases hs⟩
    · exact ⟨0, fun h => absurd h hi⟩
  choose k hk using hk
  refine ⟨(Finset.range n).sup k, fun sched hs => ?_⟩
  have hend : ∀ i < n, runTasks tasks sched i = (tasks i).after (k i) := by
    intro i hi
    rw [runTasks_eq]
    have hle : k i ≤ sched.count i := (Finset.le_sup (f := k) (Finset.mem_range.2 hi)).trans (hs i hi)
    obtain ⟨d, hd⟩ := Nat.exists_eq_add_of_le hle
    rw [hd, Spec.Task.after_add]
    cases h : (tasks i).after (k i) with
    | running s => exact absurd h (hk i hi s)
    | finished v => rw [advance_finished]
    | panicked => rw [advance_panicked]
  have hj : Joined n (runTasks tasks sched) := by
    intro i hi s
    rw [hend i hi]
    exact hk i hi s
  refine ⟨hj, ?_⟩
  have hval : ∀ i < n, ∀ x, (tasks i).after x = .panicked → r i = .panic := by
    intro i hi x hx
    rcases hr i hi with ⟨v, m, h1, h2⟩ | ⟨h1, -⟩
    · have := (tasks i).after_unique (k := x) (m := m) (by rw [hx]; intro s hs; cases hs) (by rw [h2]; intro s hs; cases hs)
      rw [hx, h2] at this
      cases this
    · exact h1
  have he : ∀ i < n, ∀ e, r i ≠ .err e := by
    intro i hi e h0
    rcases hr i hi with ⟨v, k, h1, -⟩ | ⟨h1, -⟩ <;> rw [h0] at h1 <;> cases h1
  have hstat : ∀ i < n, (∀ v, r i = .ok v → runTasks tasks sched i = .finished v) ∧ (r i = .panic → runTasks tasks sched i = .panicked) := by
    intro i hi
    rw [hend i hi]
    rcases hr i hi with ⟨v, m, h1, h2⟩ | ⟨h1, m, h2⟩
    · have := (tasks i).after_unique (hk i hi) (m := m) (by rw [h2]; intro s hs; cases hs)
      rw [this, h2, h1]
      exact ⟨fun v' hv => by cases hv; rfl, fun hp => by cases hp⟩
    · have := (tasks i).after_unique (hk i hi) (m := m) (by rw [h2]; intro s hs; cases hs)
      rw [this, h2, h1]
      exact ⟨fun v' hv => (by cases hv), fun _ => rfl⟩
  rcases collectN_outcome n r he with ⟨⟨i, hi, hp⟩, hc⟩ | ⟨l, hc, hl, hv⟩
  · exact .inl ⟨hc, i, hi, (hstat i hi).2 hp⟩
  · exact .inr ⟨l, hc, hl, fun i hi => (hstat i (by omega)).1 _ (hv i hi)⟩

end

/-- **C76** (one task per chunk). The pattern of all other parallel loops of the crate: one task per chunk, which turns its chunk `v`, the `i`-th, into `f chunk i v`. For any implementation of the tasks as steps
and any schedule, the data after the scope is the one of the sequential model. -/
theorem C76_chunks {σ α β : Type} (w : Worker) (l : List α) (f : ℕ → ℕ → List α → List β) (tasks : ℕ → Task σ (List β))
    (h : ∀ i (hi : i < (chunks (w.chunkSize l.length) l).length), (tasks i).Ends (.ok (f (w.chunkSize l.length) i (chunks (w.chunkSize l.length) l)[i])))
    (sched : List ℕ) (res : Res (List (List β))) (hs : ScopeReturns (chunks (w.chunkSize l.length) l).length (runTasks tasks sched) res) :
    ∃ parts, res = .ok parts ∧ parts.flatten = parChunks w l f := by
  have e := C76_any_schedule _ tasks (fun i => match (chunks (w.chunkSize l.length) l)[i]? with
    | some v => .ok (f (w.chunkSize l.length) i v)
    | none => .panic) (fun i hi => by simp only [List.getElem?_eq_getElem hi]; exact h i hi) sched _ hs
  refine ⟨(chunks (w.chunkSize l.length) l).mapIdx (fun i v => f (w.chunkSize l.length) i v), ?_, rfl⟩
  rw [e]
  generalize chunks (w.chunkSize l.length) l = cs
  generalize w.chunkSize l.length = c
  have key : ∀ n, n ≤ cs.length → collectN n (fun i => match cs[i]? with
      | some v => .ok (f c i v)
      | none => .panic) = .ok ((cs.mapIdx (fun i v => f c i v)).take n) := by
    intro n
    induction n with
    | zero => intro _; rw [List.take_zero]; rfl
    | succ n ih =>
      intro hn
      unfold collectN
      rw [ih (by omega), List.take_succ, List.getElem?_mapIdx, List.getElem?_eq_getElem (show n < cs.length by omega)]
      simp only [List.getElem?_eq_getElem (show n < cs.length by omega)]
      rfl
  rw [key _ le_rfl, List.take_of_length_le (by rw [List.length_mapIdx])]

section
variable {F : Type} [Field F] {σ τ : Type}

/-- **C76** (parallel FFT). `parallel_fft` spawns one task per sub-transform, waits, and spawns one task per chunk of the output. For any implementation of the tasks as steps and any two schedules, the output is the
one of the sequential model. -/
theorem C76_parallel_fft (w : Worker) (a : List F) (ω : F) (logN logCpus : ℕ) (hle : logCpus ≤ logN)
    (tasks : ℕ → Task σ (List F)) (h1 : ∀ j < 2 ^ logCpus, (tasks j).Ends (do
      let row ← fftShuffle a ω logN logCpus j
      serialFft row (ω ^ 2 ^ logCpus) (logN - logCpus)))
    (sched : List ℕ) (tmp : List (List F)) (hs : ScopeReturns (2 ^ logCpus) (runTasks tasks sched) (.ok tmp))
    (tasks' : ℕ → Task τ (List F)) (h2 : ∀ i < numChunks a.length (w.chunkSize a.length), (tasks' i).Ends
      (collectN (min (w.chunkSize a.length) (a.length - i * w.chunkSize a.length)) (fun j => do
        let row ← rd tmp ((i * w.chunkSize a.length + j) % 2 ^ logCpus)
        rd row ((i * w.chunkSize a.length + j) / 2 ^ logCpus))))
    (sched' : List ℕ) (parts : List (List F))
    (hs' : ScopeReturns (numChunks a.length (w.chunkSize a.length)) (runTasks tasks' sched') (.ok parts)) :
    parallelFft w a ω logN logCpus = .ok parts.flatten := by
  have e1 := C76_any_schedule _ tasks _ h1 sched _ hs
  have e2 := C76_any_schedule _ tasks' _ h2 sched' _ hs'
  unfold parallelFft
  simp only [hle, decide_true, Res.assert_true, Res.ok_bind]
  rw [← e1]
  simp only [Res.ok_bind]
  unfold interleave
  simp only
  rw [← e2]
  rfl

/-- **C05, C76**: so, for an admissible root, whatever the schedules of the two scopes, the written vector is the discrete Fourier
transform of the input. -/
theorem C05_any_schedule (w : Worker) (a : List F) (ω : F) (k c : ℕ) (hk : k < 32) (hc : c ≤ k) (ha : a.length = 2 ^ k)
    (hω : k ≠ 0 → ω ^ 2 ^ (k - 1) = -1) (hω1 : k = 0 → ω = 1)
    (tasks : ℕ → Task σ (List F)) (h1 : ∀ j < 2 ^ c, (tasks j).Ends (do
      let row ← fftShuffle a ω k c j
      serialFft row (ω ^ 2 ^ c) (k - c)))
    (sched : List ℕ) (tmp : List (List F)) (hs : ScopeReturns (2 ^ c) (runTasks tasks sched) (.ok tmp))
    (tasks' : ℕ → Task τ (List F)) (h2 : ∀ i < numChunks a.length (w.chunkSize a.length), (tasks' i).Ends
      (collectN (min (w.chunkSize a.length) (a.length - i * w.chunkSize a.length)) (fun j => do
        let row ← rd tmp ((i * w.chunkSize a.length + j) % 2 ^ c)
        rd row ((i * w.chunkSize a.length + j) / 2 ^ c))))
    (sched' : List ℕ) (parts : List (List F))
    (hs' : ScopeReturns (numChunks a.length (w.chunkSize a.length)) (runTasks tasks' sched') (.ok parts)) :
    Spec.IsDft a ω parts.flatten := by
  have e := C76_parallel_fft w a ω k c hc tasks h1 sched tmp hs tasks' h2 sched' parts hs'
  obtain ⟨b, hb, hd⟩ := C05_parallel_fft w k c hk hc a ha ω hω hω1
  rw [e] at hb
  injection hb with hb
  rw [hb]
  exact hd

end

/-! ## The hypotheses are met -/

/-- A task that sums a list, one element per step, and panics on a zero. -/
def sumTask (l : List ℕ) : Task (List ℕ × ℕ) ℕ where
  start := (l, 0)
  step := fun s => match s with
    | ([], acc) => .done acc
    | (x :: l, acc) => if x = 0 then .panic else .next (l, acc + x)

/-- Three tasks, interleaved in two different ways: the same results, and a panic if one panics. -/
example :
    let tasks : ℕ → Task (List ℕ × ℕ) ℕ := fun i => sumTask [i + 1, 2]
    let bad : ℕ → Task (List ℕ × ℕ) ℕ := fun i => sumTask [i, 2]
    (∀ i < 3, (tasks i).Ends (.ok (i + 3))) ∧ (bad 0).Ends .panic ∧
    ScopeReturns 3 (runTasks tasks [0, 1, 2, 0, 1, 2, 0, 1, 2]) (.ok [3, 4, 5]) ∧
    ScopeReturns 3 (runTasks tasks [2, 2, 2, 0, 1, 0, 1, 1, 0, 0]) (.ok [3, 4, 5]) ∧
    ScopeReturns 2 (runTasks bad [1, 1, 0, 0, 1]) .panic := by
  refine ⟨?_, .inr ⟨rfl, 1, rfl⟩, ?_, ?_, ?_⟩
  · intro i hi
    refine .inl ⟨i + 3, 3, rfl, ?_⟩
    interval_cases i <;> rfl
  · refine ⟨?_, .inr ⟨_, rfl, rfl, ?_⟩⟩
    · intro i hi s
      interval_cases i <;> (intro h; cases h)
    · intro i hi
      have : i < 3 := hi
      interval_cases i <;> rfl
  · refine ⟨?_, .inr ⟨_, rfl, rfl, ?_⟩⟩
    · intro i hi s
      interval_cases i <;> (intro h; cases h)
    · intro i hi
      have : i < 3 := hi
      interval_cases i <;> rfl
  · refine ⟨?_, .inl ⟨rfl, 0, by norm_num, rfl⟩⟩
    intro i hi s
    interval_cases i <;> (intro h; cases h)

end Hodor

/-!
# Outcomes of Rust functions

`Res` is the outcome of a Rust call: a value, a returned `Err(SynthesisError)`
(`src/lib.rs` lines 40-46, error texts dropped), or a panic (failed assertion,
out-of-bounds index, `expect`/`unwrap` on the wrong variant).
-/

namespace Hodor

/-- `src/lib.rs` lines 40-46 `enum SynthesisError`; the message strings are dropped. -/
inductive SynthesisError where
  | error
  | unsatisfied
  | invalidValue
  | divisionByZero
deriving DecidableEq, Repr

/-- Outcome of a Rust function: normal return, `Err`, or panic. -/
inductive Res (α : Type) where
  | ok (a : α)
  | err (e : SynthesisError)
  | panic
deriving DecidableEq, Repr

namespace Res

/-- Sequencing: `?` on `Err`, unwinding on panic. -/
@[inline] def bind {α β : Type} (x : Res α) (f : α → Res β) : Res β :=
  match x with
  | ok a => f a
  | err e => err e
  | panic => panic

instance : Monad Res where
  pure := ok
  bind := bind

@[simp] theorem pure_def {α : Type} (a : α) : (pure a : Res α) = ok a := rfl
@[simp] theorem ok_bind {α β : Type} (a : α) (f : α → Res β) : (ok a >>= f) = f a := rfl
@[simp] theorem err_bind {α β : Type} (e : SynthesisError) (f : α → Res β) :
    ((err e : Res α) >>= f) = err e := rfl
@[simp] theorem panic_bind {α β : Type} (f : α → Res β) :
    ((panic : Res α) >>= f) = panic := rfl

instance : LawfulMonad Res := LawfulMonad.mk'
  (id_map := by intro α x; cases x <;> rfl)
  (pure_bind := by intros; rfl)
  (bind_assoc := by intro α β γ x f g; cases x <;> rfl)

theorem bind_eq_ok {α β : Type} {x : Res α} {f : α → Res β} {b : β} :
    (x >>= f) = ok b ↔ ∃ a, x = ok a ∧ f a = ok b := by
  cases x <;> simp

theorem map_eq_ok {α β : Type} {x : Res α} {f : α → β} {b : β} :
    (f <$> x) = ok b ↔ ∃ a, x = ok a ∧ f a = b := by
  cases x <;> simp [Functor.map, bind]

/-- `assert!(b)` -/
def assert (b : Bool) : Res Unit := if b then ok () else panic

@[simp] theorem assert_true : assert true = ok () := rfl
@[simp] theorem assert_false : assert false = panic := rfl
theorem assert_eq_ok {b : Bool} {u : Unit} : assert b = ok u ↔ b = true := by
  cases b <;> simp [assert]

/-- `Option::expect` / `unwrap` -/
def expect {α : Type} : Option α → Res α
  | some a => ok a
  | none => panic

@[simp] theorem expect_some {α : Type} (a : α) : expect (some a) = ok a := rfl
@[simp] theorem expect_none {α : Type} : expect (none : Option α) = panic := rfl
theorem expect_eq_ok {α : Type} {o : Option α} {a : α} : expect o = ok a ↔ o = some a := by
  cases o <;> simp [expect]

/-- `Option::ok_or(e)?` -/
def okOr {α : Type} (o : Option α) (e : SynthesisError) : Res α :=
  match o with
  | some a => ok a
  | none => err e

@[simp] theorem okOr_some {α : Type} (a : α) (e) : okOr (some a) e = ok a := rfl
@[simp] theorem okOr_none {α : Type} (e) : okOr (none : Option α) e = err e := rfl
theorem okOr_eq_ok {α : Type} {o : Option α} {e} {a : α} : okOr o e = ok a ↔ o = some a := by
  cases o <;> simp [okOr]

end Res

/-- Slice indexing `a[i]` (panics when out of bounds). -/
def rd {α : Type} (a : List α) (i : Nat) : Res α := Res.expect a[i]?

/-- Slice store `a[i] = x` (panics when out of bounds). -/
def wr {α : Type} (a : List α) (i : Nat) (x : α) : Res (List α) :=
  if i < a.length then .ok (a.set i x) else .panic

/-- `for i in lo..lo+n { s = body(i, s) }` -/
def forN {σ : Type} : Nat → Nat → σ → (Nat → σ → Res σ) → Res σ
  | 0, _, s, _ => .ok s
  | n + 1, lo, s, body => body lo s >>= fun s' => forN n (lo + 1) s' body

/-- `for x in l { s = body(x, s) }` -/
def forEach {α σ : Type} : List α → σ → (α → σ → Res σ) → Res σ
  | [], s, _ => .ok s
  | x :: l, s, body => body x s >>= fun s' => forEach l s' body

/-- Total-correctness invariant rule for counted loops. -/
theorem forN_inv {σ : Type} (I : Nat → σ → Prop) (body : Nat → σ → Res σ) :
    ∀ (n lo : Nat) (s : σ), I lo s →
      (∀ i s, lo ≤ i → i < lo + n → I i s → ∃ s', body i s = .ok s' ∧ I (i + 1) s') →
      ∃ s', forN n lo s body = .ok s' ∧ I (lo + n) s' := by
  intro n
  induction n with
  | zero => intro lo s h _; exact ⟨s, rfl, h⟩
  | succ n ih =>
    intro lo s h hb
    obtain ⟨s', e, h'⟩ := hb lo s (Nat.le_refl _) (by omega) h
    obtain ⟨s'', e', h''⟩ := ih (lo + 1) s' h' (fun i t h1 h2 h3 => hb i t (by omega) (by omega) h3)
    refine ⟨s'', ?_, ?_⟩
    · simp [forN, e, e']
    · have : lo + 1 + n = lo + (n + 1) := by omega
      rw [← this]; exact h''

/-- A counted loop whose state is, at each step, a known function of the counter. -/
theorem forN_eq {σ : Type} (f : Nat → σ) (body : Nat → σ → Res σ) (n lo : Nat)
    (hb : ∀ i, lo ≤ i → i < lo + n → body i (f i) = .ok (f (i + 1))) :
    forN n lo (f lo) body = .ok (f (lo + n)) := by
  obtain ⟨s', e, h⟩ := forN_inv (fun i s => s = f i) body n lo (f lo) rfl
    (fun i s h1 h2 h3 => ⟨f (i + 1), by rw [h3]; exact hb i h1 h2, rfl⟩)
  rw [e, h]

theorem forN_congr {σ : Type} (body body' : Nat → σ → Res σ) (n lo : Nat) (s : σ)
    (hb : ∀ i s, lo ≤ i → i < lo + n → body i s = body' i s) :
    forN n lo s body = forN n lo s body' := by
  induction n generalizing lo s with
  | zero => rfl
  | succ n ih =>
    simp only [forN]
    rw [hb lo s (Nat.le_refl _) (by omega)]
    congr 1
    funext s'
    exact ih (lo + 1) s' (fun i t h1 h2 => hb i t (by omega) (by omega))

theorem forEach_eq_ok_cons {α σ : Type} {x : α} {l : List α} {s t : σ} {body : α → σ → Res σ} :
    forEach (x :: l) s body = .ok t ↔ ∃ s', body x s = .ok s' ∧ forEach l s' body = .ok t := by
  simp [forEach, Res.bind_eq_ok]

/-- `vec![..]` holding `g 0, …, g (n-1)`. -/
def tab {α : Type} (n : Nat) (g : Nat → α) : List α := (List.range n).map g

section tab
variable {α β : Type}

@[simp] theorem length_tab (n : Nat) (g : Nat → α) : (tab n g).length = n := by simp [tab]

theorem getElem?_tab (n : Nat) (g : Nat → α) (i : Nat) :
    (tab n g)[i]? = if i < n then some (g i) else none := by
  simp only [tab, List.getElem?_map, List.getElem?_range]
  split <;> simp_all

@[simp] theorem getElem_tab (n : Nat) (g : Nat → α) (i : Nat) (h : i < (tab n g).length) :
    (tab n g)[i] = g i := by
  simp [tab]

theorem tab_congr {n : Nat} {g h : Nat → α} (e : ∀ i, i < n → g i = h i) : tab n g = tab n h := by
  simp only [tab]
  apply List.map_congr_left
  intro i hi
  exact e i (List.mem_range.1 hi)

theorem tab_inj {n : Nat} {g h : Nat → α} : tab n g = tab n h ↔ ∀ i, i < n → g i = h i := by
  constructor
  · intro e i hi
    have := congrArg (fun l => l[i]?) e
    simpa [getElem?_tab, hi] using this
  · exact tab_congr

theorem eq_tab_of_getElem? {l : List α} {n : Nat} {g : Nat → α} (hl : l.length = n)
    (h : ∀ i, i < n → l[i]? = some (g i)) : l = tab n g := by
  apply List.ext_getElem?
  intro i
  rw [getElem?_tab]
  split
  · exact h i ‹_›
  · exact List.getElem?_eq_none (by omega)

theorem eq_tab_getD (l : List α) (d : α) : l = tab l.length (fun i => l.getD i d) := by
  apply eq_tab_of_getElem? rfl
  intro i hi
  simp [List.getD, List.getElem?_eq_getElem hi]

theorem rd_tab {n : Nat} {g : Nat → α} {i : Nat} (h : i < n) : rd (tab n g) i = .ok (g i) := by
  simp [rd, getElem?_tab, h]

theorem wr_tab {n : Nat} {g : Nat → α} {i : Nat} {x : α} (h : i < n) :
    wr (tab n g) i x = .ok (tab n (fun j => if j = i then x else g j)) := by
  simp only [wr, length_tab, h, if_true]
  congr 1
  apply eq_tab_of_getElem? (by simp)
  intro j hj
  rw [List.getElem?_set, getElem?_tab]
  by_cases e : j = i
  · subst e; simp [h]
  · have : ¬ i = j := fun h => e h.symm
    simp [this, e, hj]

theorem map_tab (f : α → β) (n : Nat) (g : Nat → α) : (tab n g).map f = tab n (fun i => f (g i)) := by
  simp [tab, Function.comp_def]

@[simp] theorem tab_zero (g : Nat → α) : tab 0 g = [] := rfl

theorem tab_succ (n : Nat) (g : Nat → α) : tab (n + 1) g = tab n g ++ [g n] := by
  simp [tab, List.range_succ]

theorem tab_succ' (n : Nat) (g : Nat → α) : tab (n + 1) g = g 0 :: tab n (fun i => g (i + 1)) := by
  simp [tab, List.range_succ_eq_map, Function.comp_def]

theorem tab_add (m n : Nat) (g : Nat → α) :
    tab (m + n) g = tab m g ++ tab n (fun i => g (m + i)) := by
  induction n with
  | zero => simp
  | succ n ih => rw [← Nat.add_assoc, tab_succ, ih, tab_succ, List.append_assoc]

theorem take_tab (m n : Nat) (g : Nat → α) : (tab n g).take m = tab (min m n) g := by
  simp [tab, ← List.map_take, List.take_range]

theorem drop_tab (m n : Nat) (g : Nat → α) :
    (tab n g).drop m = tab (n - m) (fun i => g (m + i)) := by
  apply List.ext_getElem?
  intro i
  rw [List.getElem?_drop, getElem?_tab, getElem?_tab]
  have : m + i < n ↔ i < n - m := by omega
  simp [this]

theorem zipWith_tab {γ : Type} (f : α → β → γ) (m n : Nat) (g : Nat → α) (h : Nat → β) :
    List.zipWith f (tab m g) (tab n h) = tab (min m n) (fun i => f (g i) (h i)) := by
  apply List.ext_getElem?
  intro i
  rw [List.getElem?_zipWith, getElem?_tab, getElem?_tab, getElem?_tab]
  by_cases h1 : i < m <;> by_cases h2 : i < n <;> simp [h1, h2] <;> omega

theorem mem_tab {n : Nat} {g : Nat → α} {x : α} : x ∈ tab n g ↔ ∃ i, i < n ∧ g i = x := by
  simp [tab]

end tab

end Hodor

import Verif.Lemmas.VerifyH
import Verif.Lemmas.Lde
import Verif.Lemmas.Trace

/-! # Lengths of the vectors returned by successful calls, for all inputs -/

namespace Hodor

variable {F : Type} [Field F]

theorem wr_length {α : Type} {a b : List α} {i : ℕ} {x : α} (h : wr a i x = .ok b) : b.length = a.length := by
  unfold wr at h
  split at h
  · cases h; simp
  · cases h

theorem swapAt_length {α : Type} {a b : List α} {i j : ℕ} (h : swapAt a i j = .ok b) : b.length = a.length := by
  unfold swapAt at h
  obtain ⟨x, -, h⟩ := Res.bind_eq_ok.1 h
  obtain ⟨y, -, h⟩ := Res.bind_eq_ok.1 h
  obtain ⟨c, h1, h⟩ := Res.bind_eq_ok.1 h
  rw [wr_length h, wr_length h1]

theorem butterfly_length {a b : List F} {i j : ℕ} {w : F} (h : butterfly a i j w = .ok b) : b.length = a.length := by
  unfold butterfly at h
  obtain ⟨x, -, h⟩ := Res.bind_eq_ok.1 h
  obtain ⟨y, -, h⟩ := Res.bind_eq_ok.1 h
  obtain ⟨c, h1, h⟩ := Res.bind_eq_ok.1 h
  obtain ⟨z, -, h⟩ := Res.bind_eq_ok.1 h
  rw [wr_length h, wr_length h1]

theorem fftBlock_length {a b : List F} {k m : ℕ} {wm : F} (h : fftBlock a k m wm = .ok b) : b.length = a.length := by
  unfold fftBlock at h
  obtain ⟨x, h1, h⟩ := Res.bind_eq_ok.1 h
  cases h
  refine forN_ok_inv (fun s : List F × F => s.1.length = a.length) _ _ _ ?_ _ _ rfl h1
  intro i s s' hs e
  obtain ⟨y, e1, e⟩ := Res.bind_eq_ok.1 e
  cases e
  exact (butterfly_length e1).trans hs

theorem fftRound_length {a b : List F} {n m : ℕ} {w : F} (h : fftRound a n m w = .ok b) : b.length = a.length := by
  unfold fftRound at h
  exact forN_ok_inv (fun s : List F => s.length = a.length) _ _ _ (fun i s s' hs e => (fftBlock_length e).trans hs) _ _ rfl h

theorem serialFft_length {a b : List F} {w : F} {l : ℕ} (h : serialFft a w l = .ok b) : b.length = a.length := by
  unfold serialFft at h
  obtain ⟨_, -, h⟩ := Res.bind_eq_ok.1 h
  obtain ⟨_, -, h⟩ := Res.bind_eq_ok.1 h
  obtain ⟨c, h1, h⟩ := Res.bind_eq_ok.1 h
  obtain ⟨x, h2, h⟩ := Res.bind_eq_ok.1 h
  cases h
  have e1 : c.length = a.length := by
    unfold bitrevPermute at h1
    refine forN_ok_inv (fun s : List F => s.length = a.length) _ _ _ ?_ _ _ rfl h1
    intro i s s' hs e
    simp only at e
    split at e
    · exact (swapAt_length e).trans hs
    · cases e; exact hs
  refine (forN_ok_inv (fun s : List F × ℕ => s.1.length = c.length) _ _ _ ?_ _ _ rfl h2).trans e1
  intro i s s' hs e
  obtain ⟨y, e1, e⟩ := Res.bind_eq_ok.1 e
  cases e
  exact (fftRound_length e1).trans hs

theorem collectN_inv {α : Type} {n : ℕ} {f : ℕ → Res α} {l : List α} (h : collectN n f = .ok l) :
    l.length = n ∧ ∀ i x, l[i]? = some x → f i = .ok x := by
  induction n generalizing l with
  | zero => cases h; exact ⟨rfl, fun i x e => by simp at e⟩
  | succ n ih =>
    obtain ⟨l1, h1, h⟩ := Res.bind_eq_ok.1 h
    obtain ⟨x, h2, h⟩ := Res.bind_eq_ok.1 h
    cases h
    obtain ⟨e1, e2⟩ := ih h1
    refine ⟨by simp [e1], ?_⟩
    intro i y hy
    rw [List.getElem?_append] at hy
    split at hy
    · exact e2 i y hy
    · rename_i hi
      rw [List.getElem?_singleton] at hy
      split at hy
      · cases hy
        rw [show i = n by omega]; exact h2
      · cases hy

theorem flatten_length_of {α : Type} {c n : ℕ} (hc : 0 < c) {parts : List (List α)} (h : parts.length = numChunks n c)
    (hp : ∀ i x, parts[i]? = some x → x.length = min c (n - i * c)) : parts.flatten.length = n := by
  have e : parts.map List.length = (tab (numChunks n c) (fun i => tab (min c (n - i * c)) (fun j => i * c + j))).map List.length := by
    apply List.ext_getElem?
    intro i
    rw [List.getElem?_map, List.getElem?_map, getElem?_tab]
    by_cases hi : i < numChunks n c
    · obtain ⟨x, hx⟩ : ∃ x, parts[i]? = some x := ⟨_, List.getElem?_eq_getElem (by omega)⟩
      rw [hx, if_pos hi]
      simp [hp i x hx]
    · rw [if_neg hi, List.getElem?_eq_none (by omega)]
      rfl
  rw [List.length_flatten, e, ← List.length_flatten, flatten_chunks_tab hc n (fun i => i), length_tab]

theorem interleave_length {α : Type} {w : Worker} {len m : ℕ} {rows : List (List α)} {l : List α} (h : interleave w len rows m = .ok l) :
    l.length = len := by
  unfold interleave at h
  obtain ⟨parts, h1, h⟩ := Res.bind_eq_ok.1 h
  cases h
  obtain ⟨e1, e2⟩ := collectN_inv h1
  exact flatten_length_of (w.chunkSize_pos len) e1 (fun i x hx => (collectN_inv (e2 i x hx)).1)

theorem bestFft_length {w : Worker} {a b : List F} {ω : F} {l : ℕ} {hint : Option ℕ} (h : bestFft w a ω l hint = .ok b) :
    b.length = a.length := by
  have key : ∀ c, (if c = 0 ∨ l ≤ c then serialFft a ω l else parallelFft w a ω l c) = .ok b → b.length = a.length := by
    intro c h
    split at h
    · exact serialFft_length h
    · unfold parallelFft at h
      obtain ⟨_, -, h⟩ := Res.bind_eq_ok.1 h
      obtain ⟨t, -, h⟩ := Res.bind_eq_ok.1 h
      exact interleave_length h
  unfold bestFft at h
  cases hint with
  | none => exact key _ h
  | some n =>
    obtain ⟨_, -, h⟩ := Res.bind_eq_ok.1 h
    obtain ⟨c, -, h⟩ := Res.bind_eq_ok.1 h
    exact key _ h

theorem parMap_length {α β : Type} (w : Worker) (l : List α) (f : α → β) : (parChunks w l (fun _ _ v => v.map f)).length = l.length := by
  cases l with
  | nil =>
    simp [parChunks, chunks, numChunks]
    have hc := w.chunkSize_pos 0
    rw [Nat.div_eq_of_lt (by omega)]
    simp
  | cons a l =>
    have e := eq_tab_getD (a :: l) a
    generalize (a :: l) = l' at e
    rw [e, parMap_tab]
    simp

theorem parMulRunning_length (w : Worker) (a : List F) (g : F) : (distributePowers w a g).length = a.length := by
  conv_lhs => rw [eq_tab_getD a 0]
  rw [distributePowers_tab]
  simp

theorem parZip_length (w : Worker) (e : ℕ) (a b : List F) (f : F → F → F) : (parChunksZip w e a b (zipUpdate f)).length = a.length := by
  conv_lhs => rw [eq_tab_getD a 0, eq_tab_getD b 0]
  rw [parChunksZip_tab]
  simp

namespace Poly

theorem addAssignV_size {w : Worker} {p q r : Poly F .values} (h : p.addAssignV w q = .ok r) : r.size = p.size := by
  unfold addAssignV at h
  obtain ⟨_, -, h⟩ := Res.bind_eq_ok.1 h
  cases h
  exact parZip_length _ _ _ _ _

theorem mulAssign_size {w : Worker} {p q r : Poly F .values} (h : p.mulAssign w q = .ok r) : r.size = p.size := by
  unfold mulAssign at h
  obtain ⟨_, -, h⟩ := Res.bind_eq_ok.1 h
  cases h
  exact parZip_length _ _ _ _ _

theorem addConstant_size (w : Worker) (p : Poly F .values) (c : F) : (p.addConstant w c).size = p.size := parMap_length _ _ _

theorem icosetFft_size {w : Worker} {p : Poly F .values} {q : Poly F .coefficients} (h : p.icosetFft w = .ok q) : q.size = p.size := by
  unfold icosetFft ifft at h
  obtain ⟨r, h1, h⟩ := Res.bind_eq_ok.1 h
  obtain ⟨c, h2, h1⟩ := Res.bind_eq_ok.1 h1
  cases h
  cases h1
  show (Hodor.distributePowers w _ _).length = _
  rw [parMulRunning_length]
  show (parChunks w c (fun _ _ v => v.map (fun x => x * p.minv))).length = _
  rw [parMap_length, bestFft_length h2]
  rfl

theorem fft_size {w : Worker} {p : Poly F .coefficients} {q : Poly F .values} (h : p.fft w = .ok q) : q.size = p.size := by
  unfold fft at h
  obtain ⟨c, h2, h⟩ := Res.bind_eq_ok.1 h
  cases h
  exact bestFft_length h2

variable [DecidableEq F] [StarkField F]

theorem ofVec_size {P : Form} {l : List F} {p : Poly F P} (h : ofVec l = .ok p) : p.size = nextPow2 l.length := by
  rw [eq_tab_getD l 0, ofVec_tab] at h
  split at h
  · cases h
    simp [nextPow2]
  · cases h

theorem lde_size {w : Worker} {p : Poly F .coefficients} {q : Poly F .values} {factor : ℕ} (hp : nextPow2 p.size = p.size) (h : p.lde w factor = .ok q) :
    q.size = p.size * factor := by
  unfold lde ldeUsingMultipleCosets at h
  split at h
  · rename_i e
    rw [fft_size h, e, Nat.mul_one]
  · unfold multiCosetLde at h
    obtain ⟨_, h1, h⟩ := Res.bind_eq_ok.1 h
    obtain ⟨d, -, h⟩ := Res.bind_eq_ok.1 h
    obtain ⟨r, -, h⟩ := Res.bind_eq_ok.1 h
    obtain ⟨v, h3, h⟩ := Res.bind_eq_ok.1 h
    rw [ofVec_size h, interleave_length h3]
    obtain ⟨f, rfl⟩ := isPow2_iff.1 (Res.assert_eq_ok.1 h1)
    show nextPow2 (p.size * 2 ^ f) = p.size * 2 ^ f
    obtain ⟨k, hk⟩ : ∃ k, p.size = 2 ^ k := ⟨_, hp.symm⟩
    rw [hk, ← pow_add, nextPow2_pow]

end Poly

end Hodor

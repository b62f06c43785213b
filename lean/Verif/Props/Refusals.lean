import Verif.Lemmas.Sizes
import Verif.Props.FftKernels
import Verif.Props.Merkle
import Verif.Props.Supported
import Verif.Model.Transcript
import Verif.Model.Tensor

/-!
# C70: arguments of the wrong size are refused

A call whose arguments do not fit together (vectors of different lengths, a length that is not the declared power of two, an index outside the
vector, a factor that is not a power of two) does not return a result computed from a part of the data: it panics or returns an error.
-/

namespace Hodor

variable {F : Type} [Field F]

/-- **C70** (coefficient form): `add_assign`, `sub_assign` and `add_assign_scaled` return a result exactly when the second operand is not longer than
the first; a longer one is not truncated, the call panics. -/
theorem C70_coefficients (w : Worker) (p q : Poly F .coefficients) (c : F) :
    ((∃ r, p.addAssignC w q = .ok r) ↔ q.size ≤ p.size) ∧ ((∃ r, p.subAssignC w q = .ok r) ↔ q.size ≤ p.size) ∧
    ((∃ r, p.addAssignScaledC w q c = .ok r) ↔ q.size ≤ p.size) ∧
    (p.size < q.size → p.addAssignC w q = .panic ∧ p.subAssignC w q = .panic ∧ p.addAssignScaledC w q c = .panic) := by
  unfold Poly.size Poly.addAssignC Poly.subAssignC Poly.addAssignScaledC
  by_cases h : q.coeffs.length ≤ p.coeffs.length
  · simp [h]
  · have h' : decide (q.coeffs.length ≤ p.coeffs.length) = false := decide_eq_false h
    simp [h]

/-- **C70** (value form): the four binary operations return a result exactly when the two vectors have the same length. -/
theorem C70_values (w : Worker) (p q : Poly F .values) (c : F) :
    ((∃ r, p.addAssignV w q = .ok r) ↔ p.size = q.size) ∧ ((∃ r, p.subAssignV w q = .ok r) ↔ p.size = q.size) ∧
    ((∃ r, p.mulAssign w q = .ok r) ↔ p.size = q.size) ∧ ((∃ r, p.addAssignScaledV w q c = .ok r) ↔ p.size = q.size) := by
  unfold Poly.size Poly.addAssignV Poly.subAssignV Poly.mulAssign Poly.addAssignScaledV
  by_cases h : p.coeffs.length = q.coeffs.length
  · simp [h]
  · have h' : decide (p.coeffs.length = q.coeffs.length) = false := decide_eq_false h
    simp [h]

/-- **C70** (`mul_add_polynomials`): vectors of different lengths make it panic. -/
theorem C70_mul_add (w : Worker) (a b : List F) (c : F) :
    ((∃ r, mulAddPolynomials w a b c = .ok r) ↔ a.length = b.length) ∧ (a.length ≠ b.length → mulAddPolynomials w a b c = .panic) := by
  unfold mulAddPolynomials
  by_cases h : a.length = b.length
  · simp [h]
  · simp [h]

section
variable [DecidableEq F] [StarkField F]

/-- **C70** (evaluation of degree one polynomials): a polynomial with any other number of coefficients than two is refused. -/
theorem C70_degree_one (w : Worker) (p : Poly F .coefficients) (n : ℕ) (h : p.size ≠ 2) :
    p.evaluateAtDomainForDegreeOne w n = .panic ∧ p.cosetEvaluateAtDomainForDegreeOne w n = .panic := by
  unfold Poly.size at h
  unfold Poly.evaluateAtDomainForDegreeOne Poly.cosetEvaluateAtDomainForDegreeOne
  simp [h]

/-- **C70** (extension): an LDE factor that is not a power of two (zero included) makes every one of the six low degree extensions panic, for every
polynomial, worker and build. -/
theorem C70_lde_factor (nightly : Bool) (w : Worker) (p : Poly F .coefficients) (factor : ℕ) (h : ∀ k, factor ≠ 2 ^ k) :
    p.lde w factor = .panic ∧ p.cosetLde w factor = .panic ∧ p.ldeNaive w factor = .panic ∧ p.cosetLdeNaive w factor = .panic ∧
    p.filteringLde nightly w factor = .panic ∧ p.cosetFilteringLde nightly w factor = .panic := by
  have h1 : factor ≠ 1 := h 0
  have h2 : isPow2 factor = false := by
    rw [← Bool.not_eq_true, isPow2_iff]
    rintro ⟨k, e⟩
    exact h k e
  unfold Poly.lde Poly.cosetLde Poly.ldeUsingMultipleCosets Poly.cosetLdeUsingMultipleCosets Poly.multiCosetLde Poly.ldeNaive Poly.cosetLdeNaive
    Poly.filteringLde Poly.cosetFilteringLde
  simp only [if_neg h1, h2, Res.assert_false, Res.panic_bind, and_self]

end

/-! ## Transforms -/

/-- If the gathering step succeeds with `m` rows of length at most `q`, the output is not longer than the rows together. -/
theorem interleave_bound {α : Type} {w : Worker} {len q m : ℕ} {rows : List (List α)} {l : List α} (hm : 0 < m)
    (h : interleave w len rows m = .ok l) (hr : ∀ (i : ℕ) (row : List α), rows[i]? = some row → row.length ≤ q) : len ≤ m * q := by
  by_contra hlt
  unfold interleave at h
  obtain ⟨parts, h1, -⟩ := Res.bind_eq_ok.1 h
  obtain ⟨e1, e2⟩ := collectN_inv h1
  have hc := w.chunkSize_pos len
  set c := w.chunkSize len with hcdef
  have hi : m * q / c < numChunks len c := lt_numChunks hc (by omega)
  obtain ⟨x, hx⟩ : ∃ x, parts[m * q / c]? = some x := ⟨_, List.getElem?_eq_getElem (by omega)⟩
  obtain ⟨e3, e4⟩ := collectN_inv (e2 _ _ hx)
  have hmod := Nat.mod_lt (m * q) hc
  have hdm := Nat.div_add_mod (m * q) c
  have hj : m * q % c < x.length := by
    rw [e3, Nat.mul_comm (m * q / c) c]
    omega
  obtain ⟨y, hy⟩ : ∃ y, x[m * q % c]? = some y := ⟨_, List.getElem?_eq_getElem hj⟩
  have e5 := e4 _ _ hy
  rw [Nat.mul_comm (m * q / c) c, hdm] at e5
  obtain ⟨row, e6, e7⟩ := Res.bind_eq_ok.1 e5
  rw [Nat.mul_div_cancel_left q hm] at e7
  have := rd_ok_lt e7
  have e8 : rows[m * q % m]? = some row := by
    unfold rd at e6
    exact Res.expect_eq_ok.1 e6
  have := hr _ _ e8
  omega

/-- The row filled by the double loop keeps its length, and every entry of `a` up to the last one has been read. -/
theorem fftShuffle_bound {a row : List F} {ω : F} {logN logCpus j : ℕ} (hc : logCpus ≤ logN) (h : fftShuffle a ω logN logCpus j = .ok row) :
    row.length = 2 ^ (logN - logCpus) ∧ 2 ^ logN ≤ a.length := by
  unfold fftShuffle at h
  obtain ⟨s, h1, h⟩ := Res.bind_eq_ok.1 h
  cases h
  have hlen : ∀ (i : ℕ) (s s' : List F × F), (do
      let (tmp, elt) ← forN (2 ^ logCpus) 0 (s.1, s.2) (fun t (tmp, elt) => do
        let idx := (i + t * 2 ^ (logN - logCpus)) % 2 ^ logN
        let t ← rd a idx
        let x ← rd tmp i
        let tmp ← wr tmp i (x + t * elt)
        pure (tmp, elt * ω ^ (j * 2 ^ (logN - logCpus))))
      pure (tmp, elt * ω ^ j)) = .ok s' → s'.1.length = s.1.length := by
    intro i s s' e
    obtain ⟨u, e1, e⟩ := Res.bind_eq_ok.1 e
    cases e
    refine forN_ok_inv (fun u : List F × F => u.1.length = s.1.length) _ _ _ ?_ (s.1, s.2) u rfl e1
    intro t v v' hv e
    obtain ⟨_, -, e⟩ := Res.bind_eq_ok.1 e
    obtain ⟨_, -, e⟩ := Res.bind_eq_ok.1 e
    obtain ⟨_, e2, e⟩ := Res.bind_eq_ok.1 e
    cases e
    exact (wr_length e2).trans hv
  constructor
  · refine (forN_ok_inv (fun s : List F × F => s.1.length = 2 ^ (logN - logCpus)) _ _ _ ?_ _ _ (by simp) h1)
    intro i s s' hs e
    exact (hlen i s s' e).trans hs
  · obtain ⟨n, hn⟩ : ∃ n, 2 ^ (logN - logCpus) = n + 1 := ⟨2 ^ (logN - logCpus) - 1, by have := Nat.two_pow_pos (logN - logCpus); omega⟩
    obtain ⟨m, hm⟩ : ∃ m, 2 ^ logCpus = m + 1 := ⟨2 ^ logCpus - 1, by have := Nat.two_pow_pos logCpus; omega⟩
    have hprod : (m + 1) * (n + 1) = 2 ^ logN := by
      rw [← hm, ← hn, ← pow_add]
      congr 1; omega
    rw [hn, forN_succ_last] at h1
    obtain ⟨s1, -, h1⟩ := Res.bind_eq_ok.1 h1
    obtain ⟨s2, h2, -⟩ := Res.bind_eq_ok.1 h1
    rw [hm, forN_succ_last] at h2
    obtain ⟨s3, -, h2⟩ := Res.bind_eq_ok.1 h2
    obtain ⟨x, h3, -⟩ := Res.bind_eq_ok.1 h2
    have h4 := rd_ok_lt h3
    have h5 : 0 + n + (0 + m) * (n + 1) = 2 ^ logN - 1 := by
      rw [← hprod]
      have : (m + 1) * (n + 1) = m * (n + 1) + (n + 1) := by ring
      rw [this]
      simp only [Nat.zero_add]
      omega
    rw [h5, Nat.mod_eq_of_lt (by have := Nat.two_pow_pos logN; omega)] at h4
    omega

theorem parallelFft_length_eq {w : Worker} {a r : List F} {ω : F} {logN logCpus : ℕ} (h : parallelFft w a ω logN logCpus = .ok r) :
    a.length = 2 ^ logN := by
  unfold parallelFft at h
  obtain ⟨_, h0, h⟩ := Res.bind_eq_ok.1 h
  have hc : logCpus ≤ logN := of_decide_eq_true (Res.assert_eq_ok.1 h0)
  obtain ⟨tmp, h1, h⟩ := Res.bind_eq_ok.1 h
  obtain ⟨e1, e2⟩ := collectN_inv h1
  have hpow : 2 ^ logCpus * 2 ^ (logN - logCpus) = 2 ^ logN := by
    rw [← pow_add]; congr 1; omega
  have hrow : ∀ (i : ℕ) (row : List F), tmp[i]? = some row → row.length ≤ 2 ^ (logN - logCpus) ∧ 2 ^ logN ≤ a.length := by
    intro i row hi
    obtain ⟨t, h2, h3⟩ := Res.bind_eq_ok.1 (e2 i row hi)
    obtain ⟨h4, h5⟩ := fftShuffle_bound hc h2
    exact ⟨by rw [serialFft_length h3, h4], h5⟩
  apply le_antisymm
  · have := interleave_bound (Nat.two_pow_pos logCpus) h (fun i row hi => (hrow i row hi).1)
    rwa [hpow] at this
  · have := Nat.two_pow_pos logCpus
    obtain ⟨row, hrw⟩ : ∃ row, tmp[0]? = some row := ⟨_, List.getElem?_eq_getElem (by omega)⟩
    exact (hrow 0 row hrw).2

theorem serialFft_length_eq {a r : List F} {ω : F} {logN : ℕ} (h32 : a.length < 2 ^ 32) (h : serialFft a ω logN = .ok r) : a.length = 2 ^ logN := by
  unfold serialFft at h
  obtain ⟨_, -, h⟩ := Res.bind_eq_ok.1 h
  obtain ⟨_, h1, -⟩ := Res.bind_eq_ok.1 h
  have := of_decide_eq_true (Res.assert_eq_ok.1 h1)
  rwa [Nat.mod_eq_of_lt h32] at this

/-- **C70** (FFT): for every worker, CPU hint and build, `best_fft` returns a result only for a vector of exactly `2^log_n` elements and a hint between 1
and the number of CPUs; in particular neither a longer nor a shorter vector is transformed in part. (Vectors of less than `2^32` elements: `serial_fft`
truncates the length to 32 bits, see `C70_length_truncated`.) -/
theorem C70_fft_length (nightly : Bool) (w : Worker) (a r : List F) (ω : F) (logN : ℕ) (hint : Option ℕ) (h32 : a.length < 2 ^ 32)
    (h : kernelFft nightly w a ω logN hint = .ok r) : a.length = 2 ^ logN ∧ ∀ n, hint = some n → 1 ≤ n ∧ n ≤ w.cpus := by
  rw [C07_prefetch_fft] at h
  have key : ∀ c, (if c = 0 ∨ logN ≤ c then serialFft a ω logN else parallelFft w a ω logN c) = .ok r → a.length = 2 ^ logN := by
    intro c h
    split at h
    · exact serialFft_length_eq h32 h
    · exact parallelFft_length_eq h
  unfold bestFft at h
  cases hint with
  | none => exact ⟨key _ h, fun n e => by cases e⟩
  | some n =>
    obtain ⟨_, h0, h⟩ := Res.bind_eq_ok.1 h
    obtain ⟨c, h1, h⟩ := Res.bind_eq_ok.1 h
    unfold log2Floor at h1
    obtain ⟨_, h2, -⟩ := Res.bind_eq_ok.1 h1
    have h3 := of_decide_eq_true (Res.assert_eq_ok.1 h0)
    have h4 := of_decide_eq_true (Res.assert_eq_ok.1 h2)
    exact ⟨key _ h, fun m e => by cases e; exact ⟨h4, h3⟩⟩

/-- The exception to `C70_fft_length`: a vector of `2^32 + 1` elements passes the check for length 1 (`a.len() as u32`) and is returned unchanged. -/
theorem C70_length_truncated (w : Worker) (a : List F) (ω : F) (h : a.length = 2 ^ 32 + 1) : bestFft w a ω 0 none = .ok a := by
  have h1 : a.length % 2 ^ 32 = 1 := by rw [h]; norm_num
  unfold bestFft
  simp only [Res.pure_def, Res.ok_bind, Nat.zero_le, or_true, if_true]
  unfold serialFft
  simp only [h1]
  rfl

theorem shuffleRow_inv {numCpus newN : ℕ} {oj os : F} {add : ℕ → ℕ → List F → F → Res (List F)} {row : List F}
    (hadd : ∀ i s tmp elt tmp', add i s tmp elt = .ok tmp' → tmp'.length = tmp.length) (hn : 0 < newN) (hm : 0 < numCpus)
    (h : shuffleRow numCpus newN oj os add = .ok row) :
    row.length = newN ∧ ∃ tmp elt tmp', add (newN - 1) (numCpus - 1) tmp elt = .ok tmp' := by
  unfold shuffleRow at h
  obtain ⟨s, h1, h⟩ := Res.bind_eq_ok.1 h
  cases h
  constructor
  · refine (forN_ok_inv (fun s : List F × F => s.1.length = newN) _ _ _ ?_ _ _ (by simp) h1)
    intro i s s' hs e
    obtain ⟨u, e1, e⟩ := Res.bind_eq_ok.1 e
    cases e
    refine forN_ok_inv (fun u : List F × F => u.1.length = newN) _ _ _ ?_ (s.1, s.2) u hs e1
    intro t v v' hv e
    obtain ⟨_, e2, e⟩ := Res.bind_eq_ok.1 e
    cases e
    exact (hadd _ _ _ _ _ e2).trans hv
  · obtain ⟨n, rfl⟩ : ∃ n, newN = n + 1 := ⟨newN - 1, by omega⟩
    obtain ⟨m, rfl⟩ : ∃ m, numCpus = m + 1 := ⟨numCpus - 1, by omega⟩
    rw [forN_succ_last] at h1
    obtain ⟨s1, -, h1⟩ := Res.bind_eq_ok.1 h1
    obtain ⟨s2, h2, -⟩ := Res.bind_eq_ok.1 h1
    rw [forN_succ_last] at h2
    obtain ⟨s3, -, h2⟩ := Res.bind_eq_ok.1 h2
    obtain ⟨x, h3, -⟩ := Res.bind_eq_ok.1 h2
    rw [Nat.zero_add, Nat.zero_add] at h3
    exact ⟨_, _, _, h3⟩

theorem plainAdd_inv {a tmp tmp' : List F} {l i s : ℕ} {elt : F} (h : plainAdd a l i s tmp elt = .ok tmp') :
    tmp'.length = tmp.length ∧ i + s * 2 ^ l < a.length := by
  unfold plainAdd at h
  obtain ⟨_, h1, h⟩ := Res.bind_eq_ok.1 h
  obtain ⟨_, -, h⟩ := Res.bind_eq_ok.1 h
  exact ⟨wr_length h, rd_ok_lt h1⟩

/-- A parallel kernel that fills its rows with `plainAdd` and transforms them by a length preserving map accepts only `2^log_n` elements. -/
theorem plain_parallel_length {w : Worker} {a r : List F} {logN logCpus : ℕ} (hc : logCpus ≤ logN) {oj os : ℕ → F} {tr : List F → Res (List F)}
    (htr : ∀ row r, tr row = .ok r → r.length = row.length)
    (h : (do
      let tmp ← collectN (2 ^ logCpus) (fun j => do
        let row ← shuffleRow (2 ^ logCpus) (2 ^ (logN - logCpus)) (oj j) (os j) (plainAdd a (logN - logCpus))
        tr row)
      interleave w a.length tmp (2 ^ logCpus)) = .ok r) : a.length = 2 ^ logN := by
  obtain ⟨tmp, h1, h⟩ := Res.bind_eq_ok.1 h
  obtain ⟨e1, e2⟩ := collectN_inv h1
  have hpow : 2 ^ logCpus * 2 ^ (logN - logCpus) = 2 ^ logN := by
    rw [← pow_add]; congr 1; omega
  have p1 := Nat.two_pow_pos logCpus
  have p2 := Nat.two_pow_pos (logN - logCpus)
  have hrow : ∀ (i : ℕ) (row : List F), tmp[i]? = some row → row.length ≤ 2 ^ (logN - logCpus) ∧ 2 ^ logN ≤ a.length := by
    intro i row hi
    obtain ⟨t, h2, h3⟩ := Res.bind_eq_ok.1 (e2 i row hi)
    obtain ⟨h4, _, _, _, h5⟩ := shuffleRow_inv (fun i s tmp elt tmp' e => (plainAdd_inv e).1) p2 p1 h2
    refine ⟨by rw [htr _ _ h3, h4], ?_⟩
    have h6 := (plainAdd_inv h5).2
    have h7 : (2 ^ logCpus - 1) * 2 ^ (logN - logCpus) + 2 ^ (logN - logCpus) = 2 ^ logN := by
      rw [← hpow]
      obtain ⟨m, hm⟩ : ∃ m, 2 ^ logCpus = m + 1 := ⟨2 ^ logCpus - 1, by omega⟩
      rw [hm, Nat.add_sub_cancel]; ring
    omega
  apply le_antisymm
  · have := interleave_bound p1 h (fun i row hi => (hrow i row hi).1)
    rwa [hpow] at this
  · obtain ⟨row, hrw⟩ : ∃ row, tmp[0]? = some row := ⟨_, List.getElem?_eq_getElem (by omega)⟩
    exact (hrow 0 row hrw).2

theorem serialDitFft_inv {a r : List F} {ω : F} {logN nonZero : ℕ} (h : serialDitFft a ω logN nonZero = .ok r) :
    r.length = a.length ∧ a.length = 2 ^ logN := by
  unfold serialDitFft at h
  obtain ⟨_, -, h⟩ := Res.bind_eq_ok.1 h
  obtain ⟨_, h1, h⟩ := Res.bind_eq_ok.1 h
  obtain ⟨s, h2, h⟩ := Res.bind_eq_ok.1 h
  refine ⟨?_, of_decide_eq_true (Res.assert_eq_ok.1 h1)⟩
  have e1 : s.1.length = a.length := by
    refine (forN_ok_inv (fun s : List F × ℕ => s.1.length = a.length) _ _ _ ?_ _ _ rfl h2)
    intro i s s' hs e
    obtain ⟨y, e1, e⟩ := Res.bind_eq_ok.1 e
    cases e
    refine (forN_ok_inv (fun b : List F => b.length = s.1.length) _ _ _ ?_ s.1 y rfl e1).trans hs
    intro b t t' ht e
    unfold ditBlock at e
    obtain ⟨u, e1, e⟩ := Res.bind_eq_ok.1 e
    cases e
    refine (forN_ok_inv (fun b : List F × F => b.1.length = s.1.length) _ _ _ ?_ (t, (1 : F)) u ht e1)
    intro c v v' hv e
    obtain ⟨y, e2, e⟩ := Res.bind_eq_ok.1 e
    cases e
    refine Eq.trans ?_ hv
    unfold ditButterfly at e2
    obtain ⟨_, -, e2⟩ := Res.bind_eq_ok.1 e2
    obtain ⟨_, -, e2⟩ := Res.bind_eq_ok.1 e2
    obtain ⟨_, e3, e2⟩ := Res.bind_eq_ok.1 e2
    obtain ⟨_, -, e2⟩ := Res.bind_eq_ok.1 e2
    rw [wr_length e2, wr_length e3]
  refine Eq.trans ?_ e1
  unfold bitrevPermute at h
  refine forN_ok_inv (fun t : List F => t.length = s.1.length) _ _ _ ?_ s.1 r rfl h
  intro i t t' ht e
  simp only at e
  split at e
  · exact (swapAt_length e).trans ht
  · cases e; exact ht

theorem serialRadix4_inv {a r : List F} {ω : F} {logN : ℕ} (h : serialRadix4 a ω logN = .ok r) : r.length = a.length ∧ a.length = 2 ^ logN := by
  unfold serialRadix4 at h
  obtain ⟨_, -, h⟩ := Res.bind_eq_ok.1 h
  obtain ⟨_, h1, h⟩ := Res.bind_eq_ok.1 h
  obtain ⟨_, -, h⟩ := Res.bind_eq_ok.1 h
  obtain ⟨c, h3, h⟩ := Res.bind_eq_ok.1 h
  obtain ⟨s, h2, h⟩ := Res.bind_eq_ok.1 h
  cases h
  refine ⟨?_, of_decide_eq_true (Res.assert_eq_ok.1 h1)⟩
  have e0 : c.length = a.length := by
    unfold digitrevPermute at h3
    refine forN_ok_inv (fun t : List F => t.length = a.length) _ _ _ ?_ a c rfl h3
    intro i t t' ht e
    simp only at e
    split at e
    · exact (swapAt_length e).trans ht
    · cases e; exact ht
  refine (forN_ok_inv (fun s : List F × ℕ => s.1.length = a.length) _ _ _ ?_ (c, 1) s e0 h2)
  intro i s s' hs e
  obtain ⟨y, e1, e⟩ := Res.bind_eq_ok.1 e
  cases e
  refine (forN_ok_inv (fun b : List F => b.length = s.1.length) _ _ _ ?_ s.1 y rfl e1).trans hs
  intro b t t' ht e
  unfold radix4Block at e
  obtain ⟨u, e1, e⟩ := Res.bind_eq_ok.1 e
  cases e
  refine (forN_ok_inv (fun b : List F × F => b.1.length = s.1.length) _ _ _ ?_ (t, (1 : F)) u ht e1)
  intro c v v' hv e
  obtain ⟨y, e2, e⟩ := Res.bind_eq_ok.1 e
  cases e
  refine Eq.trans ?_ hv
  unfold radix4Butterfly at e2
  obtain ⟨_, -, e2⟩ := Res.bind_eq_ok.1 e2
  obtain ⟨_, -, e2⟩ := Res.bind_eq_ok.1 e2
  obtain ⟨_, -, e2⟩ := Res.bind_eq_ok.1 e2
  obtain ⟨_, -, e2⟩ := Res.bind_eq_ok.1 e2
  obtain ⟨_, e3, e2⟩ := Res.bind_eq_ok.1 e2
  obtain ⟨_, e4, e2⟩ := Res.bind_eq_ok.1 e2
  obtain ⟨_, e5, e2⟩ := Res.bind_eq_ok.1 e2
  rw [wr_length e2, wr_length e5, wr_length e4, wr_length e3]

/-- **C70** (other kernels): the decimation-in-time and the radix-4 transform return a result only for a vector of exactly `2^log_n` elements, radix 4
only for even `log_n`; no bound on the length. -/
theorem C70_other_kernels (w : Worker) (a r : List F) (ω : F) (logN nonZero : ℕ) :
    (bestDitFft w a ω logN nonZero = .ok r → a.length = 2 ^ logN) ∧
    (bestRadix4 w a ω logN = .ok r → a.length = 2 ^ logN ∧ logN % 2 = 0) := by
  constructor
  · intro h
    unfold bestDitFft at h
    split at h
    · exact (serialDitFft_inv h).2
    · unfold parallelDitFft at h
      obtain ⟨_, h0, h⟩ := Res.bind_eq_ok.1 h
      exact plain_parallel_length (of_decide_eq_true (Res.assert_eq_ok.1 h0)) (fun row r e => (serialDitFft_inv e).1) h
  · intro h
    unfold bestRadix4 at h
    obtain ⟨_, he, h⟩ := Res.bind_eq_ok.1 h
    refine ⟨?_, of_decide_eq_true (Res.assert_eq_ok.1 he)⟩
    simp only at h
    generalize (if w.logNumCpus % 2 ≠ 0 then w.logNumCpus - 1 else w.logNumCpus) = c at h
    split at h
    · exact (serialRadix4_inv h).2
    · unfold parallelRadix4 at h
      obtain ⟨_, h0, h⟩ := Res.bind_eq_ok.1 h
      obtain ⟨_, -, h⟩ := Res.bind_eq_ok.1 h
      obtain ⟨_, -, h⟩ := Res.bind_eq_ok.1 h
      exact plain_parallel_length (of_decide_eq_true (Res.assert_eq_ok.1 h0)) (fun row r e => (serialRadix4_inv e).1) h

/-! ## The LDE kernels -/

theorem ldeAdd_length {a tmp tmp' : List F} {logN l n i s : ℕ} {elt : F} (h : ldeAdd a logN l n i s tmp elt = .ok tmp') : tmp'.length = tmp.length := by
  unfold ldeAdd at h
  simp only at h
  split at h
  · obtain ⟨_, -, h⟩ := Res.bind_eq_ok.1 h
    obtain ⟨_, -, h⟩ := Res.bind_eq_ok.1 h
    exact wr_length h
  · cases h; rfl

theorem sparseButterfly_length {a b : List F} {even odd factor step : ℕ} {w : F} (h : sparseButterfly a even odd factor step w = .ok b) :
    b.length = a.length := by
  unfold sparseButterfly at h
  split at h
  · exact butterfly_length h
  · obtain ⟨_, -, h⟩ := Res.bind_eq_ok.1 h
    exact wr_length h
  · obtain ⟨_, -, h⟩ := Res.bind_eq_ok.1 h
    obtain ⟨_, h1, h⟩ := Res.bind_eq_ok.1 h
    rw [wr_length h, wr_length h1]
  · cases h; rfl

theorem ldeRound_length {a b : List F} {n m factor step : ℕ} {ω : F} (h : ldeRound a n m factor step ω = .ok b) : b.length = a.length := by
  unfold ldeRound at h
  simp only at h
  split at h
  · exact forN_ok_inv (fun s : List F => s.length = a.length) _ _ _ (fun i s s' hs e => (fftBlock_length e).trans hs) _ _ rfl h
  · refine forN_ok_inv (fun s : List F => s.length = a.length) _ _ _ ?_ _ _ rfl h
    intro i s s' hs e
    unfold sparseBlock at e
    obtain ⟨u, e1, e⟩ := Res.bind_eq_ok.1 e
    cases e
    refine (forN_ok_inv (fun b : List F × F => b.1.length = a.length) _ _ _ ?_ (s, (1 : F)) u hs e1)
    intro c v v' hv e
    obtain ⟨y, e2, e⟩ := Res.bind_eq_ok.1 e
    cases e
    exact (sparseButterfly_length e2).trans hv

theorem serialLde_inv {a r : List F} {ω : F} {logN factor : ℕ} (h : serialLde a ω logN factor = .ok r) :
    r.length = a.length ∧ (a.length < 2 ^ 32 → a.length = 2 ^ logN) := by
  unfold serialLde at h
  obtain ⟨_, -, h⟩ := Res.bind_eq_ok.1 h
  obtain ⟨_, h0, h⟩ := Res.bind_eq_ok.1 h
  obtain ⟨c, h1, h⟩ := Res.bind_eq_ok.1 h
  obtain ⟨x, h2, h⟩ := Res.bind_eq_ok.1 h
  cases h
  refine ⟨?_, fun h32 => ?_⟩
  · have e1 : c.length = a.length := by
      unfold bitrevPermute at h1
      refine forN_ok_inv (fun s : List F => s.length = a.length) _ _ _ ?_ _ _ rfl h1
      intro i s s' hs e
      simp only at e
      split at e
      · exact (swapAt_length e).trans hs
      · cases e; exact hs
    refine (forN_ok_inv (fun s : List F × ℕ => s.1.length = c.length) _ _ _ ?_ _ _ rfl h2).trans e1
    intro i s s' hs e
    obtain ⟨y, e1, e⟩ := Res.bind_eq_ok.1 e
    cases e
    exact (ldeRound_length e1).trans hs
  · have := of_decide_eq_true (Res.assert_eq_ok.1 h0)
    rwa [Nat.mod_eq_of_lt h32] at this

/-- **C70** (pruned transform, part): the default LDE kernel refuses a vector of more than `2^log_n` elements and the factor 0 on the parallel path; on the
serial path (`log_n` not above the logarithm of the number of CPUs) it also refuses shorter vectors. On the parallel path shorter vectors are *not*
refused: `C70_lde_short_accepted`. -/
theorem C70_lde_length_partial (w : Worker) (a r : List F) (ω : F) (logN factor : ℕ) (h32 : a.length < 2 ^ 32) (h : bestLde w a ω logN factor = .ok r) :
    a.length ≤ 2 ^ logN ∧ (logN ≤ w.logNumCpus → a.length = 2 ^ logN) ∧ (w.logNumCpus < logN → factor ≠ 0) := by
  unfold bestLde at h
  split at h
  · have := (serialLde_inv h).2 h32
    exact ⟨this.le, fun _ => this, fun _ => by omega⟩
  · rename_i hlt
    unfold parallelLde at h
    obtain ⟨_, h0, h⟩ := Res.bind_eq_ok.1 h
    have hc : w.logNumCpus ≤ logN := of_decide_eq_true (Res.assert_eq_ok.1 h0)
    obtain ⟨_, h1, h⟩ := Res.bind_eq_ok.1 h
    have hf : factor ≠ 0 := of_decide_eq_true (Res.assert_eq_ok.1 h1)
    obtain ⟨tmp, h1, h⟩ := Res.bind_eq_ok.1 h
    obtain ⟨e1, e2⟩ := collectN_inv h1
    refine ⟨?_, fun _ => by omega, fun _ => hf⟩
    have hrow : ∀ (i : ℕ) (row : List F), tmp[i]? = some row → row.length ≤ 2 ^ (logN - w.logNumCpus) := by
      intro i row hi
      obtain ⟨t, h2, h3⟩ := Res.bind_eq_ok.1 (e2 i row hi)
      have h4 := (shuffleRow_inv (fun i s tmp elt tmp' e => ldeAdd_length e) (Nat.two_pow_pos _) (Nat.two_pow_pos _) h2).1
      unfold ldeRowTransform at h3
      split at h3
      · rw [serialFft_length h3, h4]
      · rw [(serialLde_inv h3).1, h4]
    have := interleave_bound (Nat.two_pow_pos w.logNumCpus) h hrow
    rwa [← pow_add, show w.logNumCpus + (logN - w.logNumCpus) = logN by omega] at this

/-- The gap in `C70_lde_length_partial`: with two CPUs, three elements declared as four are transformed without complaint; the result has three elements. -/
theorem C70_lde_short_accepted : ∃ r : List Fr, bestLde ⟨2, by norm_num⟩ [5, 6, 7] (3 ^ 64) 2 2 = .ok r ∧ r.length = 3 := by
  refine ⟨[5, 5, 5], ?_, rfl⟩
  decide +kernel

/-! ## Indices, challenges, trees -/

/-- **C70** (cosets and halving): the pair of an index exists only for an index inside the domain; the next domain only for a size that is a power of two
above 1. -/
theorem C70_cosets (i n : ℕ) :
    (cosetForNaturalIndex i n = .panic ↔ n ≤ i) ∧ (cosetForNaturalIndexAndSize i n = .panic ↔ ∀ k, n ≠ 2 ^ (k + 1)) ∧
    (indexAndSizeForNextDomain i n = .panic ↔ ∀ k, n ≠ 2 ^ (k + 1)) := by
  have key : (1 < n ∧ isPow2 n = true) ↔ ∃ k, n = 2 ^ (k + 1) := by
    rw [isPow2_iff]
    constructor
    · rintro ⟨h, k, rfl⟩
      cases k with
      | zero => simp at h
      | succ k => exact ⟨k, rfl⟩
    · rintro ⟨k, rfl⟩
      exact ⟨Nat.one_lt_two_pow (by omega), _, rfl⟩
  refine ⟨?_, ?_, ?_⟩
  · unfold cosetForNaturalIndex
    by_cases h : i < n
    · simp [h]
    · simp [h]; omega
  · rw [show (∀ k, n ≠ 2 ^ (k + 1)) ↔ ¬ (1 < n ∧ isPow2 n = true) by rw [key]; push Not; rfl]
    unfold cosetForNaturalIndexAndSize
    by_cases h : 1 < n
    · by_cases h2 : isPow2 n = true
      · simp [h, h2]
      · rw [Bool.not_eq_true] at h2; simp [h, h2]
    · simp [h]
  · rw [show (∀ k, n ≠ 2 ^ (k + 1)) ↔ ¬ (1 < n ∧ isPow2 n = true) by rw [key]; push Not; rfl]
    unfold indexAndSizeForNextDomain
    by_cases h : 1 < n
    · by_cases h2 : isPow2 n = true
      · simp [h, h2]
      · rw [Bool.not_eq_true] at h2; simp [h, h2]
    · simp [h]

/-- **C70** (challenge index): fewer than 8 bytes, an empty domain or the factor 0 make the derivation panic, nothing else does. -/
theorem C70_challenge_index (bytes : List UInt8) (ldeSize ldeFactor : ℕ) :
    bytesToChallengeIndex bytes ldeSize ldeFactor = .panic ↔ bytes.length < 8 ∨ ldeSize = 0 ∨ ldeFactor = 0 := by
  unfold bytesToChallengeIndex
  by_cases h1 : 8 ≤ bytes.length
  · by_cases h2 : 0 < ldeSize
    · by_cases h3 : 0 < ldeFactor
      · simp [h1, h2, h3]; omega
      · simp [h1, h2, h3]; omega
    · simp [h1, h2]; omega
  · simp [h1]; omega

/-- **C70** (challenge): a digest becomes a field element unless it has fewer bytes than the representation of an element, or the number left after shaving the
surplus bits is not below the modulus; then the derivation panics. -/
theorem C70_challenge_value [StarkField F] (value : Digest) :
    ((interpretHash value : Res F) = .panic ↔ value.bytes.length < 8 * limbs F ∨
      StarkField.modulus F ≤ ofBeBytes (value.bytes.take (8 * limbs F)) % 2 ^ (64 * (limbs F - 1) + (64 - shaveBits F % 64))) ∧
    ∀ e, (interpretHash value : Res F) ≠ .err e := by
  unfold interpretHash
  by_cases h1 : 8 * limbs F ≤ value.bytes.length
  · by_cases h2 : ofBeBytes (value.bytes.take (8 * limbs F)) % 2 ^ (64 * (limbs F - 1) + (64 - shaveBits F % 64)) < StarkField.modulus F
    · simp [h1, h2, fromRepr, Res.expect]
    · simp [h1, h2, fromRepr, Res.expect]; omega
  · simp [h1]; omega

/-- **C70** (transcript): a field of 256 bits or more is refused when the transcript is created. -/
theorem C70_transcript_new [StarkField F] : (Transcript.new F = .panic ↔ 256 ≤ numBits F) ∧ (numBits F < 256 → Transcript.new F = .ok ⟨[]⟩) := by
  unfold Transcript.new
  by_cases h : numBits F < 256
  · simp [h]
  · simp [h]; omega

/-- **C70** (openings): a tree answers a query only for an index inside the tree and inside the vector of leaves it is given. -/
theorem C70_query_index [StarkField F] (H : List UInt8 → Digest) (t : IopTree) (i : ℕ) (leafs : List F) :
    (∀ q, t.query H i leafs = .ok q → i < t.size ∧ i < leafs.length ∧ leafs[i]? = some q.value ∧ q.index = i) ∧
    (t.size ≤ i ∨ leafs.length ≤ i → t.query H i leafs = .panic) := by
  unfold IopTree.query
  constructor
  · intro q h
    obtain ⟨_, h1, h⟩ := Res.bind_eq_ok.1 h
    obtain ⟨_, h2, h⟩ := Res.bind_eq_ok.1 h
    obtain ⟨v, h3, h⟩ := Res.bind_eq_ok.1 h
    obtain ⟨_, -, h⟩ := Res.bind_eq_ok.1 h
    cases h
    exact ⟨of_decide_eq_true (Res.assert_eq_ok.1 h1), of_decide_eq_true (Res.assert_eq_ok.1 h2), Res.expect_eq_ok.1 h3, rfl⟩
  · rintro (h | h)
    · rw [decide_eq_false (by omega)]; rfl
    · by_cases h1 : i < t.size
      · rw [decide_eq_true h1, decide_eq_false (by omega)]; rfl
      · rw [decide_eq_false h1]; rfl

/-- **C70** (tensor queries): a recorded dimension of zero is refused; a product of vectors is queried only below the product of the two recorded
lengths. -/
theorem C70_tensor (l d : List F) (m n s s' idx : ℕ) (ij : ℕ × ℕ) :
    (m = 0 ∨ n = 0 → queryOverIdentity (l, m, n) ij = .panic ∧ queryOverDiagonal (l, m, n) (d, s) ij = .panic) ∧
    (∀ x, queryVectorOverVector (l, s) (d, s') idx = .ok x → idx < s * s') := by
  constructor
  · intro h
    unfold queryOverIdentity queryOverDiagonal
    by_cases h1 : m = 0
    · simp [h1]
    · have h2 : n = 0 := h.resolve_left h1
      simp [h1, h2]
  · intro x h
    unfold queryVectorOverVector at h
    obtain ⟨_, h1, h⟩ := Res.bind_eq_ok.1 h
    obtain ⟨_, h2, h⟩ := Res.bind_eq_ok.1 h
    have e1 := of_decide_eq_true (Res.assert_eq_ok.1 h1)
    have e2 := of_decide_eq_true (Res.assert_eq_ok.1 h2)
    simp only at e1 e2
    rw [Nat.div_lt_iff_lt_mul (by omega)] at e2
    rwa [Nat.mul_comm] at e2

/-- **C70** (tracing): a step of zero is an error and does not advance; reading a register succeeds exactly for an ordinary register with a value at the
current step. -/
theorem C70_tracing (t : TraceSystem F) (n : ℕ) (rows : List (List F)) (step : ℕ) (r : Register) :
    t.step 0 = .err .error ∧ (0 < n → t.step n = .ok { t with currentStep := t.currentStep + n }) ∧
    (∀ x, TraceSystem.getRegister rows step r = .ok x ↔ ∃ i row, r = .register i ∧ rows[i]? = some row ∧ row[step]? = some x) ∧
    ((∀ x, TraceSystem.getRegister rows step r ≠ .ok x) → TraceSystem.getRegister rows step r = .err .error) := by
  refine ⟨rfl, fun h => by unfold TraceSystem.step; rw [if_neg (by omega)], ?_, ?_⟩
  · intro x
    cases r <;> simp only [TraceSystem.getRegister]
    case register i =>
      cases h : rows[i]? with
      | none => simp [h]
      | some row => simp [h, Res.okOr_eq_ok]
    all_goals simp
  · cases r <;> simp only [TraceSystem.getRegister]
    case register i =>
      cases h : rows[i]? with
      | none => simp
      | some row => cases h2 : row[step]? <;> simp [h2]
    all_goals simp

section
variable [DecidableEq F] [StarkField F] (H : List UInt8 → Digest)

/-- **C70** (composition): the composition is not computed for a number of witness polynomials different from the number of registers. -/
theorem C70_witness_count (inst : AliInstance F) (t : Transcript) (witness : List (Poly F .coefficients)) (w : Worker)
    (h : witness.length ≠ inst.properties.numRegisters) : inst.calculateG H t witness w = .panic := by
  unfold AliInstance.calculateG
  rw [decide_eq_false h]; rfl

/-- **C70** (FRI provers): either prover returns a prototype only if the word has a power of two elements, the factor and the number of final coefficients
are powers of two and at least one folding step remains. -/
theorem C70_fri_provers (w : Worker) (v : Poly F .values) (lde out : ℕ) (r : FriPrototype F)
    (h : friProofByValues H w v lde out = .ok r ∨ friProofThroughCoefficients H w v lde out = .ok r) :
    (∃ k, 1 ≤ k ∧ v.size = 2 ^ k) ∧ (∃ k, out = 2 ^ k) ∧ (∃ k, lde = 2 ^ k) ∧ 2 * out * lde ≤ v.size := by
  have size : ∀ t, IopTree.create H w v.coeffs = .ok t → ∃ k, 1 ≤ k ∧ v.size = 2 ^ k := by
    intro t ht
    by_contra hk
    rw [C18_bad_sizes H w v.coeffs hk] at ht
    cases ht
  have steps : ∀ n, log2Floor (v.size / lde / out) = .ok n → (∃ k, out = 2 ^ k) → (∃ k, lde = 2 ^ k) → n ≠ 0 → 2 * out * lde ≤ v.size := by
    rintro n hn ⟨a, rfl⟩ ⟨b, rfl⟩ h0
    unfold log2Floor at hn
    obtain ⟨_, -, hn⟩ := Res.bind_eq_ok.1 hn
    cases hn
    have h1 : 2 ≤ v.size / 2 ^ b / 2 ^ a := by
      by_contra hlt
      exact h0 (Nat.log_of_lt (by omega))
    rw [Nat.le_div_iff_mul_le (by positivity), Nat.le_div_iff_mul_le (by positivity)] at h1
    exact h1
  rcases h with h | h
  · unfold friProofByValues at h
    obtain ⟨t, ht, h⟩ := Res.bind_eq_ok.1 h
    obtain ⟨_, -, h⟩ := Res.bind_eq_ok.1 h
    obtain ⟨_, h1, h⟩ := Res.bind_eq_ok.1 h
    obtain ⟨_, h2, h⟩ := Res.bind_eq_ok.1 h
    obtain ⟨n, hn, h⟩ := Res.bind_eq_ok.1 h
    obtain ⟨_, -, h⟩ := Res.bind_eq_ok.1 h
    obtain ⟨s, hs, h⟩ := Res.bind_eq_ok.1 h
    obtain ⟨root, hr, -⟩ := Res.bind_eq_ok.1 h
    have e1 := isPow2_iff.1 (Res.assert_eq_ok.1 h1)
    have e2 := isPow2_iff.1 (Res.assert_eq_ok.1 h2)
    refine ⟨size t ht, e1, e2, steps n hn e1 e2 ?_⟩
    rintro rfl
    cases hs
    cases hr
  · unfold friProofThroughCoefficients at h
    obtain ⟨t, ht, h⟩ := Res.bind_eq_ok.1 h
    obtain ⟨_, h1, h⟩ := Res.bind_eq_ok.1 h
    obtain ⟨_, h2, h⟩ := Res.bind_eq_ok.1 h
    obtain ⟨n, hn, h⟩ := Res.bind_eq_ok.1 h
    obtain ⟨_, -, h⟩ := Res.bind_eq_ok.1 h
    obtain ⟨_, -, h⟩ := Res.bind_eq_ok.1 h
    obtain ⟨s, hs, h⟩ := Res.bind_eq_ok.1 h
    obtain ⟨root, hr, -⟩ := Res.bind_eq_ok.1 h
    have e1 := isPow2_iff.1 (Res.assert_eq_ok.1 h1)
    have e2 := isPow2_iff.1 (Res.assert_eq_ok.1 h2)
    refine ⟨size t ht, e1, e2, steps n hn e1 e2 ?_⟩
    rintro rfl
    cases hs
    cases hr

/-- **C70** (FRI queries): a proof is produced only for a position inside the first domain, from a first tree and a first word that contain it. -/
theorem C70_produce_proof (p : FriPrototype F) (v : Poly F .values) (i : ℕ) (r : FriProof F) (h : p.produceProof H v i = .ok r) :
    i < p.initialDegreePlusOne * p.ldeFactor ∧ i < p.l0Commitment.size ∧ i < v.size := by
  unfold FriPrototype.produceProof at h
  obtain ⟨s, h, -⟩ := Res.bind_eq_ok.1 h
  rw [List.zip_cons_cons] at h
  obtain ⟨s1, h1, -⟩ := forEach_eq_ok_cons.1 h
  unfold produceStep at h1
  obtain ⟨coset, h2, h1⟩ := Res.bind_eq_ok.1 h1
  have hi : i < p.initialDegreePlusOne * p.ldeFactor := by
    by_contra hn
    rw [(C70_cosets i _).1.2 (by omega)] at h2
    cases h2
  have hmem : i ∈ coset := by
    unfold cosetForNaturalIndex at h2
    obtain ⟨_, -, h2⟩ := Res.bind_eq_ok.1 h2
    cases h2
    unfold sortPair
    split <;> simp
  refine ⟨hi, ?_⟩
  split at h1
  · cases h1
  · obtain ⟨qs, h3, -⟩ := Res.bind_eq_ok.1 h1
    obtain ⟨_, _, h4⟩ := forEach_mem_ok h3 i hmem
    obtain ⟨q, h5, -⟩ := Res.bind_eq_ok.1 h4
    have := (C70_query_index H _ _ _).1 q h5
    exact ⟨this.1, this.2.1⟩

/-- **C70** (FRI verification): no verdict for the degree 0 or for a number of queries that the degree does not divide. -/
theorem C70_verify_queries (p : FriProof F) (i degree : ℕ) (x : F) (b : Bool) (h : p.verifyQueries H i degree x = .ok b) :
    degree ≠ 0 ∧ degree ∣ p.queries.length := by
  unfold FriProof.verifyQueries at h
  obtain ⟨s, -, h⟩ := Res.bind_eq_ok.1 h
  obtain ⟨_, h1, h⟩ := Res.bind_eq_ok.1 h
  refine ⟨of_decide_eq_true (Res.assert_eq_ok.1 h1), ?_⟩
  split at h
  · cases h
  · rename_i h2
    exact Nat.dvd_of_mod_eq_zero (not_not.1 h2)

end

/-- Non-vacuity of C70: operands, lengths and indices that fit are accepted, and ones that do not are refused. -/
example :
    (∃ p q : Poly Fr .coefficients, Poly.fromCoeffs [1, 2, 3] = .ok p ∧ Poly.fromCoeffs [5, 6] = .ok q ∧ q.size < p.size) ∧
    (∃ r, bestFft ⟨4, by norm_num⟩ ([1, 2, 3, 4, 5, 6, 7, 8] : List Fr) (3 ^ 32) 3 (some 4) = .ok r) ∧
    bestFft ⟨4, by norm_num⟩ ([1, 2, 3, 4, 5, 6, 7] : List Fr) (3 ^ 32) 3 (some 4) = .panic ∧
    bestFft ⟨4, by norm_num⟩ ([1, 2, 3, 4, 5, 6, 7, 8, 9] : List Fr) (3 ^ 32) 3 (some 4) = .panic ∧
    mulAddPolynomials ⟨2, by norm_num⟩ ([1, 2] : List Fr) [1, 2, 3] 5 = .panic := by
  refine ⟨⟨_, _, rfl, rfl, by decide +kernel⟩, ⟨_, rfl⟩, ?_, ?_, ?_⟩ <;> decide +kernel

end Hodor

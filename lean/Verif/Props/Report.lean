import Verif.Model.Report
import Verif.Model.F257
import Verif.Props.Air
import Verif.Props.Supported
import Verif.Lemmas.Arp
import Verif.Lemmas.ProverRun

/-!
# C71: printed constraints and the texts of the witness check

The text of a constraint determines its polynomial; printing panics exactly for constraints that read something
else than numbered registers by steps; the error of a failed witness check names the first violation.
-/

namespace Hodor

open Spec

variable {F : Type} [Field F]

/-! ## Specification -/

/-- The constraint only reads numbered registers, by step differences. -/
def Printable (c : Constraint F) : Prop :=
  ∀ u ∈ factors c, (∃ r, u.register = .register r) ∧ ∃ k, u.stepsDifference = .steps k

/-- The factors of every product have coefficient 1 (the coefficient is that of the product). -/
def PlainProducts (c : Constraint F) : Prop :=
  ∀ p, ConstraintTerm.polyvariate p ∈ c.terms → ∀ u ∈ p.terms, u.coeff = 1

/-- The text starts with none of the ten digits. -/
def NoDigit (s : List Char) : Prop := ∀ ch ∈ s.head?, ch.isDigit = false

/-! ## Printing succeeds or panics -/

theorem fmtFactor_ok {t : UnivariateTerm F} {r k : ℕ} (h1 : t.register = .register r) (h2 : t.stepsDifference = .steps k) :
    fmtFactor t = .ok ("(R_".toList ++ fmtNat r ++ "(t+".toList ++ fmtNat k ++ "))^".toList ++ fmtNat t.power) := by
  unfold fmtFactor
  rw [h1, h2]
  rfl

theorem fmtFactor_panic {t : UnivariateTerm F}
    (h : ¬ ((∃ r, t.register = .register r) ∧ ∃ k, t.stepsDifference = .steps k)) : fmtFactor t = .panic := by
  unfold fmtFactor
  cases hk : t.stepsDifference with
  | mask m => rfl
  | steps k =>
    cases hr : t.register with
    | register r => exact absurd ⟨⟨r, hr⟩, k, hk⟩ h
    | programCounter i => rfl
    | constant i => rfl
    | aux i => rfl

theorem fmtFactors_outcome (ts : List (UnivariateTerm F)) :
    ((∀ u ∈ ts, (∃ r, u.register = .register r) ∧ ∃ k, u.stepsDifference = .steps k) → ∃ s, fmtFactors ts = .ok s) ∧
      ((¬ ∀ u ∈ ts, (∃ r, u.register = .register r) ∧ ∃ k, u.stepsDifference = .steps k) → fmtFactors ts = .panic) := by
  induction ts with
  | nil => exact ⟨fun _ => ⟨[], rfl⟩, fun h => absurd (by simp) h⟩
  | cons t ts ih =>
    by_cases ht : (∃ r, t.register = .register r) ∧ ∃ k, t.stepsDifference = .steps k
    · obtain ⟨⟨r, h1⟩, k, h2⟩ := ht
      have e := fmtFactor_ok h1 h2
      cases ts with
      | nil =>
        refine ⟨fun _ => ⟨_, e⟩, fun h => absurd ?_ h⟩
        intro u hu
        rw [List.mem_singleton.1 hu]
        exact ⟨⟨r, h1⟩, k, h2⟩
      | cons t' ts =>
        simp only [fmtFactors, e, Res.ok_bind]
        constructor
        · intro h
          obtain ⟨s, hs⟩ := ih.1 (fun u hu => h u (List.mem_cons_of_mem _ hu))
          exact ⟨_, by rw [hs]; rfl⟩
        · intro h
          rw [ih.2 (fun hh => h (fun u hu => by
            rcases List.mem_cons.1 hu with rfl | hu
            · exact ⟨⟨r, h1⟩, k, h2⟩
            · exact hh u hu))]
          rfl
    · have e := fmtFactor_panic ht
      refine ⟨fun h => absurd (h t (by simp)) ht, fun _ => ?_⟩
      cases ts with
      | nil => exact e
      | cons t' ts => simp only [fmtFactors, e, Res.panic_bind]

section
variable [DecidableEq F] [StarkField F]

theorem fmtTerm_outcome (name : List Char) (t : ConstraintTerm F) :
    ((∀ u ∈ termFactors t, (∃ r, u.register = .register r) ∧ ∃ k, u.stepsDifference = .steps k) →
        ∃ s, fmtTerm name t = .ok s) ∧
      ((¬ ∀ u ∈ termFactors t, (∃ r, u.register = .register r) ∧ ∃ k, u.stepsDifference = .steps k) →
        fmtTerm name t = .panic) := by
  cases t with
  | univariate t =>
    simp only [termFactors, List.mem_singleton, forall_eq, fmtTerm, fmtUnivariate]
    constructor
    · rintro ⟨⟨r, h1⟩, k, h2⟩
      exact ⟨_, by rw [fmtFactor_ok h1 h2]; rfl⟩
    · intro h
      rw [fmtFactor_panic h]
      rfl
  | polyvariate p =>
    obtain ⟨h1, h2⟩ := fmtFactors_outcome p.terms
    simp only [termFactors, fmtTerm]
    constructor
    · intro h
      obtain ⟨s, hs⟩ := h1 h
      exact ⟨_, by rw [hs]; rfl⟩
    · intro h
      rw [h2 h]
      rfl

theorem fmtTerms_outcome (name : List Char) (ts : List (ConstraintTerm F)) :
    ((∀ t ∈ ts, ∀ u ∈ termFactors t, (∃ r, u.register = .register r) ∧ ∃ k, u.stepsDifference = .steps k) →
        ∃ s, fmtTerms name ts = .ok s) ∧
      ((¬ ∀ t ∈ ts, ∀ u ∈ termFactors t, (∃ r, u.register = .register r) ∧ ∃ k, u.stepsDifference = .steps k) →
        fmtTerms name ts = .panic) := by
  induction ts with
  | nil => exact ⟨fun _ => ⟨[], rfl⟩, fun h => absurd (by simp) h⟩
  | cons t ts ih =>
    obtain ⟨a1, a2⟩ := fmtTerm_outcome name t
    by_cases ht : ∀ u ∈ termFactors t, (∃ r, u.register = .register r) ∧ ∃ k, u.stepsDifference = .steps k
    · obtain ⟨s, e⟩ := a1 ht
      cases ts with
      | nil =>
        refine ⟨fun _ => ⟨_, e⟩, fun h => absurd ?_ h⟩
        intro u hu
        rw [List.mem_singleton.1 hu]
        exact ht
      | cons t' ts =>
        simp only [fmtTerms, e, Res.ok_bind]
        constructor
        · intro h
          obtain ⟨s, hs⟩ := ih.1 (fun u hu => h u (List.mem_cons_of_mem _ hu))
          exact ⟨_, by rw [hs]; rfl⟩
        · intro h
          rw [ih.2 (fun hh => h (fun u hu => by
            rcases List.mem_cons.1 hu with rfl | hu
            · exact ht
            · exact hh u hu))]
          rfl
    · have e := a2 ht
      refine ⟨fun h => absurd (h t (by simp)) ht, fun _ => ?_⟩
      cases ts with
      | nil => exact e
      | cons t' ts => simp only [fmtTerms, e, Res.panic_bind]

/-- **C71** (which constraints can be printed). Printing gives a text exactly if the constraint only reads numbered
registers by step differences, and panics otherwise (in particular after the registers have been routed, when every
factor carries a mask). -/
theorem C71_prints_iff (name : List Char) (c : Constraint F) :
    ((∃ s, fmtConstraint name c = .ok s) ↔ Printable c) ∧ (fmtConstraint name c = .panic ↔ ¬ Printable c) := by
  have hp : Printable c ↔
      ∀ t ∈ c.terms, ∀ u ∈ termFactors t, (∃ r, u.register = .register r) ∧ ∃ k, u.stepsDifference = .steps k := by
    unfold Printable factors
    simp only [List.mem_flatMap]
    exact ⟨fun h t ht u hu => h u ⟨t, ht, hu⟩, fun h u ⟨t, ht, hu⟩ => h t ht u hu⟩
  obtain ⟨h1, h2⟩ := fmtTerms_outcome name c.terms
  rw [hp]
  unfold fmtConstraint
  by_cases h : ∀ t ∈ c.terms, ∀ u ∈ termFactors t, (∃ r, u.register = .register r) ∧ ∃ k, u.stepsDifference = .steps k
  · obtain ⟨s, hs⟩ := h1 h
    rw [hs]
    simp only [Res.ok_bind, Res.pure_def]
    exact ⟨⟨fun _ => h, fun _ => ⟨_, rfl⟩⟩, ⟨fun hh => (by cases hh), fun hh => absurd h hh⟩⟩
  · rw [h2 h]
    simp only [Res.panic_bind]
    refine ⟨⟨?_, fun hh => absurd hh h⟩, by simpa using h⟩
    rintro ⟨_, hh⟩
    cases hh

end

/-! ## The text determines the polynomial -/

theorem read_digits : ∀ (a b r1 r2 : List Char), (∀ ch ∈ a, ch.isDigit = true) → (∀ ch ∈ b, ch.isDigit = true) →
    NoDigit r1 → NoDigit r2 → a ++ r1 = b ++ r2 → a = b ∧ r1 = r2 := by
  intro a
  induction a with
  | nil =>
    intro b r1 r2 _ hb h1 _ h
    cases b with
    | nil => exact ⟨rfl, h⟩
    | cons x b =>
      rw [List.nil_append] at h
      have := h1 x (by rw [h]; simp)
      rw [hb x (by simp)] at this
      cases this
  | cons y a ih =>
    intro b r1 r2 ha hb h1 h2 h
    cases b with
    | nil =>
      rw [List.nil_append] at h
      have := h2 y (by rw [← h]; simp)
      rw [ha y (by simp)] at this
      cases this
    | cons x b =>
      rw [List.cons_append, List.cons_append, List.cons.injEq] at h
      obtain ⟨e1, e2⟩ := ih b r1 r2 (fun c hc => ha c (by simp [hc])) (fun c hc => hb c (by simp [hc])) h1 h2 h.2
      rw [h.1, e1]
      exact ⟨rfl, e2⟩

theorem fmtNat_digits (n : ℕ) : ∀ ch ∈ fmtNat n, ch.isDigit = true :=
  fun _ h => Nat.isDigit_of_mem_toDigits (by norm_num) (by norm_num) h

theorem fmtNat_inj {a b : ℕ} (h : fmtNat a = fmtNat b) : a = b := by
  have h1 := Nat.ofDigitChars_ten_toDigits (n := a)
  have h2 := Nat.ofDigitChars_ten_toDigits (n := b)
  unfold fmtNat at h
  rw [h, h2] at h1
  exact h1.symm

theorem read_nat {a b : ℕ} {r1 r2 : List Char} (h1 : NoDigit r1) (h2 : NoDigit r2) (h : fmtNat a ++ r1 = fmtNat b ++ r2) :
    a = b ∧ r1 = r2 := by
  obtain ⟨e1, e2⟩ := read_digits _ _ _ _ (fmtNat_digits a) (fmtNat_digits b) h1 h2 h
  exact ⟨fmtNat_inj e1, e2⟩

/-- The text of a factor: register `f.1`, steps `f.2.1`, power `f.2.2`. -/
def factorText (f : ℕ × ℕ × ℕ) : List Char :=
  "(R_".toList ++ fmtNat f.1 ++ "(t+".toList ++ fmtNat f.2.1 ++ "))^".toList ++ fmtNat f.2.2

/-- The text of several factors. -/
def factorsText : List (ℕ × ℕ × ℕ) → List Char
  | [] => []
  | [f] => factorText f
  | f :: fs => factorText f ++ "*".toList ++ factorsText fs

theorem read_factor {f g : ℕ × ℕ × ℕ} {r1 r2 : List Char} (h1 : NoDigit r1) (h2 : NoDigit r2)
    (h : factorText f ++ r1 = factorText g ++ r2) : f = g ∧ r1 = r2 := by
  obtain ⟨f1, f2, f3⟩ := f
  obtain ⟨g1, g2, g3⟩ := g
  simp only [factorText, List.append_assoc] at h
  have h := List.append_cancel_left h
  obtain ⟨e1, h⟩ := read_nat (by simp [NoDigit]) (by simp [NoDigit]) h
  have h := List.append_cancel_left h
  obtain ⟨e2, h⟩ := read_nat (by simp [NoDigit]) (by simp [NoDigit]) h
  have h := List.append_cancel_left h
  obtain ⟨e3, h⟩ := read_nat h1 h2 h
  rw [e1, e2, e3]
  exact ⟨rfl, h⟩

/-- What follows a term: a blank or a semicolon. -/
def AfterTerm (s : List Char) : Prop := ∃ r, s = ' ' :: r ∨ s = ';' :: r

theorem AfterTerm.noDigit {s : List Char} (h : AfterTerm s) : NoDigit s := by
  obtain ⟨r, rfl | rfl⟩ := h <;> simp [NoDigit]

theorem factorText_head (f : ℕ × ℕ × ℕ) : ∃ s, factorText f = '(' :: s := ⟨_, rfl⟩

theorem factorsText_head (f : ℕ × ℕ × ℕ) (fs : List (ℕ × ℕ × ℕ)) : ∃ s, factorsText (f :: fs) = '(' :: s := by
  obtain ⟨s, hs⟩ := factorText_head f
  cases fs with
  | nil => exact ⟨s, hs⟩
  | cons g fs =>
    refine ⟨s ++ "*".toList ++ factorsText (g :: fs), ?_⟩
    simp only [factorsText, hs, List.cons_append]

theorem read_factors : ∀ (fs gs : List (ℕ × ℕ × ℕ)) (r1 r2 : List Char), AfterTerm r1 → AfterTerm r2 →
    factorsText fs ++ r1 = factorsText gs ++ r2 → fs = gs ∧ r1 = r2 := by
  intro fs
  induction fs with
  | nil =>
    intro gs r1 r2 h1 h2 h
    cases gs with
    | nil => exact ⟨rfl, h⟩
    | cons g gs =>
      obtain ⟨s, hs⟩ := factorsText_head g gs
      rw [hs] at h
      obtain ⟨r, rfl | rfl⟩ := h1 <;> simp [factorsText] at h
  | cons f fs ih =>
    intro gs r1 r2 h1 h2 h
    cases gs with
    | nil =>
      obtain ⟨s, hs⟩ := factorsText_head f fs
      rw [hs] at h
      obtain ⟨r, rfl | rfl⟩ := h2 <;> simp [factorsText] at h
    | cons g gs =>
      have star : ∀ r : List Char, NoDigit ("*".toList ++ r) := fun r => by simp [NoDigit]
      cases fs with
      | nil =>
        cases gs with
        | nil =>
          obtain ⟨e1, e2⟩ := read_factor h1.noDigit h2.noDigit h
          rw [e1]
          exact ⟨rfl, e2⟩
        | cons g' gs =>
          simp only [factorsText, List.append_assoc] at h
          obtain ⟨-, e⟩ := read_factor h1.noDigit (star _) h
          obtain ⟨r, rfl | rfl⟩ := h1 <;> simp at e
      | cons f' fs =>
        cases gs with
        | nil =>
          simp only [factorsText, List.append_assoc] at h
          obtain ⟨-, e⟩ := read_factor (star _) h2.noDigit h
          obtain ⟨r, rfl | rfl⟩ := h2 <;> simp at e
        | cons g' gs =>
          simp only [factorsText, List.append_assoc] at h
          obtain ⟨e1, e⟩ := read_factor (star _) (star _) h
          have e := List.append_cancel_left e
          obtain ⟨e2, e3⟩ := ih (g' :: gs) r1 r2 h1 h2 e
          rw [e1, e2]
          exact ⟨rfl, e3⟩

/-! ### Field elements -/

theorem hexDigits_length (k n : ℕ) : (hexDigits k n).length = k := by
  induction k generalizing n with
  | zero => rfl
  | succ k ih => simp [hexDigits, ih]

theorem digitChar_inj : ∀ a < 16, ∀ b < 16, Nat.digitChar a = Nat.digitChar b → a = b := by decide

theorem hexDigits_inj (k : ℕ) : ∀ a b : ℕ, a < 16 ^ k → b < 16 ^ k → hexDigits k a = hexDigits k b → a = b := by
  induction k with
  | zero => intro a b ha hb _; simp at ha hb; omega
  | succ k ih =>
    intro a b ha hb h
    simp only [hexDigits] at h
    obtain ⟨h1, h2⟩ := List.append_inj h (by rw [hexDigits_length, hexDigits_length])
    have e1 := ih (a / 16) (b / 16) (by rw [pow_succ] at ha; omega) (by rw [pow_succ] at hb; omega) h1
    have e2 := digitChar_inj _ (Nat.mod_lt a (by norm_num)) _ (Nat.mod_lt b (by norm_num)) (by simpa using h2)
    omega

section
variable [DecidableEq F] [StarkField F]

theorem repr_lt_hex (x : F) : StarkField.repr x < 16 ^ (16 * limbs F) := by
  have h1 := StarkField.repr_lt x
  have h2 : StarkField.modulus F < 2 ^ numBits F := by
    unfold numBits
    exact Nat.lt_pow_succ_log_self (by norm_num) _
  have h3 : (2 : ℕ) ^ numBits F ≤ 16 ^ (16 * limbs F) := by
    rw [show (16 : ℕ) = 2 ^ 4 by norm_num, ← pow_mul]
    apply Nat.pow_le_pow_right (by norm_num)
    unfold limbs
    omega
  omega

theorem read_field {name : List Char} {x y : F} {r1 r2 : List Char} (h : fmtField name x ++ r1 = fmtField name y ++ r2) :
    x = y ∧ r1 = r2 := by
  unfold fmtField at h
  simp only [List.append_assoc] at h
  have h := List.append_cancel_left (List.append_cancel_left h)
  obtain ⟨e, h⟩ := List.append_inj h (by rw [hexDigits_length, hexDigits_length])
  have e := hexDigits_inj _ _ _ (repr_lt_hex x) (repr_lt_hex y) e
  refine ⟨?_, List.append_cancel_left h⟩
  rw [← StarkField.cast_repr x, e, StarkField.cast_repr]

/-- What a term means: its coefficient and its factors (register, steps, power). `sep` says which text of the
coefficient was used. -/
def termText (name sep : List Char) (c : F) (fs : List (ℕ × ℕ × ℕ)) : List Char := fmtSign name sep c ++ factorsText fs

/-- The type's name does not start like a factor, a blank or a semicolon. -/
def NameOk (name : List Char) : Prop := ∃ ch s, name = ch :: s ∧ ch ≠ '(' ∧ ch ≠ ' ' ∧ ch ≠ ';'

/-- The separators in use: after a coefficient, `*` in front of a single factor and `* ` in front of a product. -/
def SepOk (sep : List Char) (fs : List (ℕ × ℕ × ℕ)) : Prop :=
  (sep = "*".toList ∧ ∃ f, fs = [f]) ∨ sep = "* ".toList

theorem read_after_sep {sep sep' : List Char} {fs gs : List (ℕ × ℕ × ℕ)} {r1 r2 : List Char} (hs : SepOk sep fs)
    (hs' : SepOk sep' gs) (h1 : AfterTerm r1) (h2 : AfterTerm r2)
    (h : sep ++ (factorsText fs ++ r1) = sep' ++ (factorsText gs ++ r2)) : fs = gs ∧ r1 = r2 := by
  rcases hs with ⟨rfl, f, rfl⟩ | rfl
  · obtain ⟨s, hf⟩ := factorsText_head f []
    rcases hs' with ⟨rfl, g, rfl⟩ | rfl
    · exact read_factors _ _ _ _ h1 h2 (List.append_cancel_left h)
    · rw [hf] at h
      simp at h
  · rcases hs' with ⟨rfl, g, rfl⟩ | rfl
    · obtain ⟨s, hf⟩ := factorsText_head g []
      rw [hf] at h
      simp at h
    · exact read_factors _ _ _ _ h1 h2 (List.append_cancel_left h)

theorem start_ne_name {name : List Char} (hn : NameOk name) (fs : List (ℕ × ℕ × ℕ)) {r : List Char} (hr : AfterTerm r)
    (t : List Char) : factorsText fs ++ r ≠ name ++ t := by
  obtain ⟨ch, s, rfl, n1, n2, n3⟩ := hn
  intro h
  cases fs with
  | nil =>
    obtain ⟨r, rfl | rfl⟩ := hr
    · simp [factorsText] at h
      exact n2 h.1.symm
    · simp [factorsText] at h
      exact n3 h.1.symm
  | cons f fs =>
    obtain ⟨s', hs⟩ := factorsText_head f fs
    rw [hs] at h
    simp at h
    exact n1 h.1.symm

theorem read_term {name sep sep' : List Char} (hn : NameOk name) {c d : F} {fs gs : List (ℕ × ℕ × ℕ)}
    (hs : SepOk sep fs) (hs' : SepOk sep' gs) {r1 r2 : List Char} (h1 : AfterTerm r1) (h2 : AfterTerm r2)
    (h : termText name sep c fs ++ r1 = termText name sep' d gs ++ r2) : c = d ∧ fs = gs ∧ r1 = r2 := by
  unfold termText fmtSign fmtField at h
  by_cases c1 : c = 1
  · rw [if_pos c1] at h
    by_cases d1 : d = 1
    · rw [if_pos d1, List.append_assoc, List.append_assoc] at h
      obtain ⟨e1, e2⟩ := read_factors _ _ _ _ h1 h2 (List.append_cancel_left h)
      exact ⟨c1.trans d1.symm, e1, e2⟩
    · rw [if_neg d1] at h
      by_cases d2 : d = -1
      · rw [if_pos d2] at h
        simp at h
      · rw [if_neg d2] at h
        simp only [List.append_assoc] at h
        exact absurd (List.append_cancel_left h) (start_ne_name hn fs h1 _)
  · rw [if_neg c1] at h
    by_cases c2 : c = -1
    · rw [if_pos c2] at h
      by_cases d1 : d = 1
      · rw [if_pos d1] at h
        simp at h
      · rw [if_neg d1] at h
        by_cases d2 : d = -1
        · rw [if_pos d2, List.append_assoc, List.append_assoc] at h
          obtain ⟨e1, e2⟩ := read_factors _ _ _ _ h1 h2 (List.append_cancel_left h)
          exact ⟨c2.trans d2.symm, e1, e2⟩
        · rw [if_neg d2] at h
          simp at h
    · rw [if_neg c2] at h
      by_cases d1 : d = 1
      · rw [if_pos d1] at h
        simp only [List.append_assoc] at h
        exact absurd (List.append_cancel_left h).symm (start_ne_name hn gs h2 _)
      · rw [if_neg d1] at h
        by_cases d2 : d = -1
        · rw [if_pos d2] at h
          simp at h
        · rw [if_neg d2] at h
          have h' : "+ ".toList ++ (fmtField name c ++ (sep ++ (factorsText fs ++ r1)))
              = "+ ".toList ++ (fmtField name d ++ (sep' ++ (factorsText gs ++ r2))) := by
            simpa only [fmtField, List.append_assoc] using h
          obtain ⟨e1, h'⟩ := read_field (List.append_cancel_left h')
          exact ⟨e1, read_after_sep hs hs' h1 h2 h'⟩

/-! ### Whole constraints -/

/-- Register number and steps of a factor that can be printed. -/
def factorOf (u : UnivariateTerm F) : ℕ × ℕ × ℕ :=
  (match u.register with | .register r => r | _ => 0, match u.stepsDifference with | .steps k => k | _ => 0, u.power)

/-- Coefficient and factors of a term. -/
def meaningOf : ConstraintTerm F → F × List (ℕ × ℕ × ℕ)
  | .univariate t => (t.coeff, [factorOf t])
  | .polyvariate p => (p.coeff, p.terms.map factorOf)

/-- The separator of a term. -/
def sepOf : ConstraintTerm F → List Char
  | .univariate _ => "*".toList
  | .polyvariate _ => "* ".toList

omit [DecidableEq F] [StarkField F] in
theorem fmtFactor_text {u : UnivariateTerm F} {s : List Char} (h : fmtFactor u = .ok s) :
    s = factorText (factorOf u) ∧ ∃ r k, u.register = .register r ∧ u.stepsDifference = .steps k := by
  by_cases hh : (∃ r, u.register = .register r) ∧ ∃ k, u.stepsDifference = .steps k
  · obtain ⟨⟨r, h1⟩, k, h2⟩ := hh
    rw [fmtFactor_ok h1 h2] at h
    cases h
    refine ⟨?_, r, k, h1, h2⟩
    unfold factorText factorOf
    rw [h1, h2]
  · rw [fmtFactor_panic hh] at h
    cases h

omit [DecidableEq F] [StarkField F] in
theorem fmtFactors_text : ∀ (ts : List (UnivariateTerm F)) (s : List Char), fmtFactors ts = .ok s →
    s = factorsText (ts.map factorOf) := by
  intro ts
  induction ts with
  | nil => intro s h; cases h; rfl
  | cons t ts ih =>
    intro s h
    cases ts with
    | nil => exact (fmtFactor_text h).1
    | cons t' ts =>
      simp only [fmtFactors] at h
      obtain ⟨a, h1, h⟩ := Res.bind_eq_ok.1 h
      obtain ⟨b, h2, h⟩ := Res.bind_eq_ok.1 h
      cases h
      rw [(fmtFactor_text h1).1, ih b h2]
      rfl

theorem fmtTerm_text {name : List Char} {t : ConstraintTerm F} {s : List Char} (h : fmtTerm name t = .ok s) :
    s = termText name (sepOf t) (meaningOf t).1 (meaningOf t).2 ∧ SepOk (sepOf t) (meaningOf t).2 := by
  cases t with
  | univariate t =>
    simp only [fmtTerm, fmtUnivariate] at h
    obtain ⟨a, h1, h⟩ := Res.bind_eq_ok.1 h
    cases h
    rw [(fmtFactor_text h1).1]
    exact ⟨rfl, Or.inl ⟨rfl, _, rfl⟩⟩
  | polyvariate p =>
    simp only [fmtTerm] at h
    obtain ⟨a, h1, h⟩ := Res.bind_eq_ok.1 h
    cases h
    rw [fmtFactors_text _ _ h1]
    exact ⟨rfl, Or.inr rfl⟩

theorem termText_head (name sep : List Char) (c : F) (fs : List (ℕ × ℕ × ℕ)) (r : List Char) :
    ∀ s, termText name sep c fs ++ r ≠ ';' :: s := by
  intro s h
  unfold termText fmtSign at h
  split at h
  · simp at h
  · split at h <;> simp at h

theorem read_terms {name : List Char} (hn : NameOk name) : ∀ (ts us : List (ConstraintTerm F)) (s : List Char) (s' : List Char),
    fmtTerms name ts = .ok s → fmtTerms name us = .ok s' → s ++ ";".toList = s' ++ ";".toList →
      ts.map meaningOf = us.map meaningOf := by
  intro ts
  induction ts with
  | nil =>
    intro us s s' h1 h2 h
    cases h1
    cases us with
    | nil => rfl
    | cons u us =>
      exfalso
      have hu : ∃ a r, fmtTerm name u = .ok a ∧ s' = a ++ r := by
        cases us with
        | nil => exact ⟨s', [], h2, by simp⟩
        | cons u' us =>
          simp only [fmtTerms] at h2
          obtain ⟨a, h3, h2⟩ := Res.bind_eq_ok.1 h2
          obtain ⟨b, -, h2⟩ := Res.bind_eq_ok.1 h2
          cases h2
          exact ⟨a, " ".toList ++ b, h3, by simp⟩
      obtain ⟨a, r, h3, rfl⟩ := hu
      rw [(fmtTerm_text h3).1, List.append_assoc] at h
      exact termText_head _ _ _ _ _ _ h.symm
  | cons t ts ih =>
    intro us s s' h1 h2 h
    cases us with
    | nil =>
      exfalso
      cases h2
      have hu : ∃ a r, fmtTerm name t = .ok a ∧ s = a ++ r := by
        cases ts with
        | nil => exact ⟨s, [], h1, by simp⟩
        | cons u' us =>
          simp only [fmtTerms] at h1
          obtain ⟨a, h3, h1⟩ := Res.bind_eq_ok.1 h1
          obtain ⟨b, -, h1⟩ := Res.bind_eq_ok.1 h1
          cases h1
          exact ⟨a, " ".toList ++ b, h3, by simp⟩
      obtain ⟨a, r, h3, rfl⟩ := hu
      rw [(fmtTerm_text h3).1, List.append_assoc] at h
      exact termText_head _ _ _ _ _ _ h
    | cons u us =>
      have blank : ∀ r : List Char, AfterTerm (" ".toList ++ r) := fun r => ⟨r, Or.inl rfl⟩
      have semi : AfterTerm ";".toList := ⟨[], Or.inr rfl⟩
      cases ts with
      | nil =>
        obtain ⟨rfl, k1⟩ := fmtTerm_text (show fmtTerm name t = .ok s from h1)
        cases us with
        | nil =>
          obtain ⟨rfl, k2⟩ := fmtTerm_text (show fmtTerm name u = .ok s' from h2)
          obtain ⟨e1, e2, -⟩ := read_term hn k1 k2 semi semi h
          simp only [List.map_cons, List.map_nil, List.cons.injEq, and_true]
          exact Prod.ext e1 e2
        | cons u' us =>
          simp only [fmtTerms] at h2
          obtain ⟨a, h3, h2⟩ := Res.bind_eq_ok.1 h2
          obtain ⟨b, -, h2⟩ := Res.bind_eq_ok.1 h2
          cases h2
          obtain ⟨rfl, k2⟩ := fmtTerm_text h3
          rw [List.append_assoc, List.append_assoc] at h
          obtain ⟨-, -, e⟩ := read_term hn k1 k2 semi (blank _) h
          simp at e
      | cons t' ts =>
        simp only [fmtTerms] at h1
        obtain ⟨a, h3, h1⟩ := Res.bind_eq_ok.1 h1
        obtain ⟨b, h4, h1⟩ := Res.bind_eq_ok.1 h1
        cases h1
        obtain ⟨rfl, k1⟩ := fmtTerm_text h3
        cases us with
        | nil =>
          obtain ⟨rfl, k2⟩ := fmtTerm_text (show fmtTerm name u = .ok s' from h2)
          rw [List.append_assoc, List.append_assoc] at h
          obtain ⟨-, -, e⟩ := read_term hn k1 k2 (blank _) semi h
          simp at e
        | cons u' us =>
          simp only [fmtTerms] at h2
          obtain ⟨a', h5, h2⟩ := Res.bind_eq_ok.1 h2
          obtain ⟨b', h6, h2⟩ := Res.bind_eq_ok.1 h2
          cases h2
          obtain ⟨rfl, k2⟩ := fmtTerm_text h5
          rw [List.append_assoc, List.append_assoc, List.append_assoc, List.append_assoc] at h
          obtain ⟨e1, e2, e⟩ := read_term hn k1 k2 (blank _) (blank _) h
          have e3 := ih (u' :: us) b b' h4 h6 (List.append_cancel_left e)
          rw [List.map_cons, List.map_cons (l := u' :: us), e3]
          congr 1
          exact Prod.ext e1 e2

omit [DecidableEq F] [StarkField F] in
/-- The value of a printable term is given by its meaning. -/
theorem termValue_meaning (e : Env F) {t : ConstraintTerm F}
    (hp : ∀ u ∈ termFactors t, (∃ r, u.register = .register r) ∧ ∃ k, u.stepsDifference = .steps k)
    (h1 : ∀ p, t = .polyvariate p → ∀ u ∈ p.terms, u.coeff = 1) :
    termValue e t = (meaningOf t).1 * ((meaningOf t).2.map (fun f => e (.register f.1) (.steps f.2.1) ^ f.2.2)).prod := by
  have key : ∀ u : UnivariateTerm F, ((∃ r, u.register = .register r) ∧ ∃ k, u.stepsDifference = .steps k) →
      e (.register (factorOf u).1) (.steps (factorOf u).2.1) ^ (factorOf u).2.2 = e u.register u.stepsDifference ^ u.power := by
    rintro u ⟨⟨r, h1⟩, k, h2⟩
    simp only [factorOf, h1, h2]
  cases t with
  | univariate t =>
    have := key t (hp t (by simp [termFactors]))
    simp only [termValue, uniValue, meaningOf, List.map_cons, List.map_nil, List.prod_cons, List.prod_nil, mul_one, this]
  | polyvariate p =>
    simp only [termValue, polyTermValue, meaningOf, List.map_map]
    congr 2
    apply List.map_congr_left
    intro u hu
    simp only [Function.comp_apply, uniValue]
    rw [key u (hp u hu), h1 p rfl u hu, one_mul]

/-- **C71** (the text determines the polynomial). Two constraints with the same text have the same declared degree,
the same constant, and the same value for every assignment of values to the registers, provided the factors inside
their products have coefficient 1. -/
theorem C71_text_determines {name : List Char} (hn : NameOk name) {c d : Constraint F} {s : List Char}
    (hc : fmtConstraint name c = .ok s) (hd : fmtConstraint name d = .ok s) (pc : PlainProducts c) (pd : PlainProducts d) :
    c.degree = d.degree ∧ c.constantTerm = d.constantTerm ∧ ∀ e : Env F, constraintValue e c = constraintValue e d := by
  have qc : Printable c := ((C71_prints_iff name c).1).1 ⟨s, hc⟩
  have qd : Printable d := ((C71_prints_iff name d).1).1 ⟨s, hd⟩
  unfold fmtConstraint at hc hd
  obtain ⟨a, h1, hc⟩ := Res.bind_eq_ok.1 hc
  obtain ⟨b, h2, hd⟩ := Res.bind_eq_ok.1 hd
  simp only [Res.pure_def, Res.ok.injEq] at hc hd
  rw [← hd] at hc
  simp only [List.append_assoc] at hc
  have h := List.append_cancel_left hc
  obtain ⟨e1, h⟩ := read_nat (by simp [NoDigit]) (by simp [NoDigit]) h
  obtain ⟨e2, h⟩ := read_field (List.append_cancel_left h)
  have e3 := read_terms hn _ _ _ _ h1 h2 (List.append_cancel_left h)
  refine ⟨e1, e2, fun e => ?_⟩
  have val : ∀ x : Constraint F, Printable x → PlainProducts x → (x.terms.map (termValue e)) =
      (x.terms.map meaningOf).map (fun m => m.1 * (m.2.map (fun f => e (.register f.1) (.steps f.2.1) ^ f.2.2)).prod) := by
    intro x hx px
    rw [List.map_map]
    apply List.map_congr_left
    intro t ht
    exact termValue_meaning e (fun u hu => hx u (List.mem_flatMap.2 ⟨t, ht, hu⟩)) (fun p hp => px p (hp ▸ ht))
  unfold constraintValue
  rw [val c qc pc, val d qd pd, e2, e3]

omit [DecidableEq F] [StarkField F] in
theorem BuiltPoly.plain {p : PolyvariateTerm F} (h : BuiltPoly p) : ∀ u ∈ p.terms, u.coeff = 1 := by
  induction h with
  | ofPair x t => simp [PolyvariateTerm.ofPair]
  | default => simp [PolyvariateTerm.default]
  | mulUnivariate t hp hq ih =>
    simp only [PolyvariateTerm.mulUnivariate, checkedAdd64] at hq
    split at hq
    swap; · cases hq
    cases hq
    intro u hu
    rcases List.mem_append.1 hu with hu | hu
    · exact ih u hu
    · rw [List.mem_singleton.1 hu]
  | mulScalar x hp ih => exact ih
  | mulPolyvariate hp hp' hq ih ih' =>
    simp only [PolyvariateTerm.mulPolyvariate, checkedAdd64] at hq
    split at hq
    swap; · cases hq
    cases hq
    intro u hu
    rcases List.mem_append.1 hu with hu | hu
    · exact ih u hu
    · exact ih' u hu

omit [DecidableEq F] [StarkField F] in
/-- **C71.** The operators of the constraint builder only make products whose factors have coefficient 1. -/
theorem C71_built_plain {c : Constraint F} (h : Built c) : PlainProducts c := by
  have push : ∀ {c : Constraint F} (d : ℕ) {t : ConstraintTerm F}, PlainProducts c →
      (∀ p, t = .polyvariate p → ∀ u ∈ p.terms, u.coeff = 1) → PlainProducts (c.push d t) := by
    intro c d t hc ht p hp
    simp only [Constraint.push, List.mem_append, List.mem_singleton] at hp
    rcases hp with hp | hp
    · exact hc p hp
    · exact ht p hp.symm
  induction h with
  | default => intro p hp; simp [Constraint.default] at hp
  | addPolyvariate hc ht ih => exact push _ ih (fun p hp => by cases hp; exact BuiltPoly.plain ht)
  | subPolyvariate hc ht ih =>
    have := BuiltPoly.plain ht
    exact push _ ih (fun p hp => by cases hp; exact this)
  | addUnivariate t hc ih => exact push _ ih (fun p hp => by cases hp)
  | subUnivariate t hc ih => exact push _ ih (fun p hp => by cases hp)
  | addConstant x hc ih => exact ih
  | subConstant x hc ih => exact ih
  | setDensity d hc ih => exact ih

/-! ## The texts of the witness check -/

section report

omit [DecidableEq F] [StarkField F] [Field F]

theorem Rep.forget_bind {α β : Type} (x : Rep α) (f : α → Rep β) :
    (x >>= f).forget = (x.forget >>= fun a => (f a).forget) := by
  cases x <;> rfl

theorem Rep.forget_ofRes {α : Type} {x : Res α} (h : ∀ e, x ≠ .err e) : (Rep.ofRes x).forget = x := by
  cases x with
  | ok a => rfl
  | err e => exact absurd rfl (h e)
  | panic => rfl

theorem Rep.forget_forEach {α σ : Type} (l : List α) (body : α → σ → Rep σ) (body' : α → σ → Res σ)
    (h : ∀ a s, (body a s).forget = body' a s) : ∀ s, (Rep.forEach l s body).forget = Hodor.forEach l s body' := by
  induction l with
  | nil => intro s; rfl
  | cons a l ih =>
    intro s
    simp only [Rep.forEach, Hodor.forEach, Rep.forget_bind, h]
    congr 1
    funext s'
    exact ih s'

theorem rd_noErr {α : Type} (l : List α) (i : ℕ) : ∀ e, rd l i ≠ .err e := by
  intro e
  unfold rd Res.expect
  cases l[i]? <;> simp

theorem num_noErr (r : Register) : ∀ e, r.num ≠ .err e := by
  intro e
  cases r <;> simp [Register.num]

theorem denseRows_noErr (d : DenseConstraint) (n : ℕ) : ∀ e, denseRows d n ≠ .err e := by
  intro e
  unfold denseRows Res.assert
  split <;> simp

end report

omit [DecidableEq F] [StarkField F] in
theorem evaluateUnivariateReport_forget (t : UnivariateTerm F) (witness : List (List F)) (row : ℕ) :
    (evaluateUnivariateReport t witness row).forget = evaluateUnivariateTermOnWitness t witness row := by
  unfold evaluateUnivariateReport evaluateUnivariateTermOnWitness
  simp only [Rep.forget_bind, Rep.forget_ofRes (rd_noErr _ _), Rep.forget_ofRes (num_noErr _)]
  cases t.stepsDifference with
  | mask m => rfl
  | steps k =>
    simp only [Rep.forget, Res.ok_bind]
    congr 1; funext n
    congr 1; funext r
    cases r[row + k]? <;> rfl

omit [DecidableEq F] [StarkField F] in
theorem evaluateTermReport_forget (t : ConstraintTerm F) (witness : List (List F)) (row : ℕ) :
    (evaluateTermReport witness row t).forget = evaluateTermOnWitness witness row t := by
  cases t with
  | univariate t => exact evaluateUnivariateReport_forget t witness row
  | polyvariate p =>
    simp only [evaluateTermReport, evaluateTermOnWitness, Rep.forget_bind]
    rw [Rep.forget_forEach p.terms _ (fun t r => do
      let v ← evaluateUnivariateTermOnWitness t witness row
      pure (r * v))]
    · rfl
    · intro a s
      rw [Rep.forget_bind, evaluateUnivariateReport_forget]
      rfl

omit [DecidableEq F] [StarkField F] in
theorem evaluateConstraintReport_forget (c : Constraint F) (witness : List (List F)) (row : ℕ) :
    (evaluateConstraintReport c witness row).forget = evaluateConstraintOnWitness c witness row := by
  unfold evaluateConstraintReport evaluateConstraintOnWitness
  apply Rep.forget_forEach
  intro t v
  rw [Rep.forget_bind, evaluateTermReport_forget]
  rfl

omit [DecidableEq F] [StarkField F] [Field F] in
theorem Rep.forget_eq_ok {α : Type} {x : Rep α} {a : α} (h : x.forget = .ok a) : x = .ok a := by
  cases x <;> simp_all [Rep.forget]

omit [DecidableEq F] [StarkField F] in
theorem evaluated_printable {c : Constraint F} {witness : List (List F)} {row : ℕ} {v : F}
    (h : evaluateConstraintOnWitness c witness row = .ok v) : Printable c := by
  intro u hu
  obtain ⟨⟨r, -, hr⟩, k⟩ := evaluateConstraintOnWitness_reads h u hu
  exact ⟨⟨r, hr⟩, k⟩

theorem checkRowReport_forget (name : List Char) (c : Constraint F) (witness : List (List F)) (row : ℕ) :
    (checkRowReport name c witness row).forget = checkRow c witness row := by
  unfold checkRowReport checkRow
  rw [Rep.forget_bind, evaluateConstraintReport_forget]
  cases hv : evaluateConstraintOnWitness c witness row with
  | err e => rfl
  | panic => rfl
  | ok v =>
    simp only [Res.ok_bind]
    by_cases h0 : v = 0
    · rw [if_neg (not_not.2 h0), if_neg (not_not.2 h0)]
      rfl
    · rw [if_pos h0, if_pos h0]
      obtain ⟨s, hs⟩ := ((C71_prints_iff name c).1).2 (evaluated_printable hv)
      rw [hs]
      rfl

theorem checkConstraintReport_forget (name : List Char) (c : Constraint F) (witness : List (List F)) (T : ℕ) :
    (checkConstraintReport name witness T c).forget = checkConstraint witness T c := by
  unfold checkConstraintReport checkConstraint
  cases c.density with
  | dense d =>
    simp only [Rep.forget_bind, Rep.forget_ofRes (denseRows_noErr _ _)]
    congr 1
    funext rows
    exact Rep.forget_forEach _ _ _ (fun row _ => checkRowReport_forget name c witness row) _
  | repeated d => rfl
  | sparse d => rfl

omit [StarkField F] [Field F] in
theorem checkBoundaryReport_forget (witness : List (List F)) (b : BoundaryConstraint F) :
    (checkBoundaryReport witness b).forget = checkBoundary witness b := by
  unfold checkBoundaryReport checkBoundary
  rw [Rep.forget_bind, Rep.forget_ofRes (num_noErr _)]
  congr 1
  funext n
  cases b.value with
  | none => rfl
  | some expected =>
    simp only [Rep.forget_bind, Rep.forget_ofRes (rd_noErr _ _)]
    congr 1; funext r
    congr 1; funext v
    split <;> rfl

/-- **C71** (the texts do no harm): for every instance and witness, the check with its texts has the outcome described
in C33 and C69. In particular printing the violated constraint never panics. -/
theorem C71_same_outcome (name : List Char) (inst : InstanceProperties F) (witness : List (List F)) :
    (isSatisfiedReport name inst witness).forget = isSatisfied inst witness := by
  unfold isSatisfiedReport isSatisfied
  rw [Rep.forget_bind, Rep.forget_ofRes (rd_noErr _ _)]
  congr 1
  funext row0
  rw [Rep.forget_bind]
  have h1 := Rep.forget_forEach inst.constraints (fun c (_ : Unit) => checkConstraintReport name witness row0.length c) _
    (fun c _ => checkConstraintReport_forget name c witness row0.length) ()
  have h2 := Rep.forget_forEach inst.boundaryConstraints (fun b (_ : Unit) => checkBoundaryReport witness b) _
    (fun b _ => checkBoundaryReport_forget witness b) ()
  simp only [h1, h2]

omit [DecidableEq F] [StarkField F] [Field F] in
theorem Rep.forEach_err_unit {α : Type} {body : α → Unit → Rep Unit} {e : Report} : ∀ (l : List α),
    Rep.forEach l () body = .err e →
      ∃ pre a post, l = pre ++ a :: post ∧ (∀ a' ∈ pre, body a' () = .ok ()) ∧ body a () = .err e := by
  intro l
  induction l with
  | nil => intro h; cases h
  | cons a l ih =>
    intro h
    simp only [Rep.forEach] at h
    cases ha : body a () with
    | ok u =>
      rw [ha] at h
      obtain ⟨pre, b, post, h1, h2, h3⟩ := ih h
      refine ⟨a :: pre, b, post, by rw [h1]; rfl, ?_, h3⟩
      intro a' ha'
      rcases List.mem_cons.1 ha' with rfl | ha'
      · exact ha
      · exact h2 a' ha'
    | err e' =>
      rw [ha] at h
      cases h
      exact ⟨[], a, l, rfl, by simp, ha⟩
    | panic => rw [ha] at h; cases h

omit [DecidableEq F] [StarkField F] [Field F] in
theorem Rep.forEach_ok_unit {α : Type} {body : α → Unit → Rep Unit} : ∀ (l : List α),
    Rep.forEach l () body = .ok () → ∀ a ∈ l, body a () = .ok () := by
  intro l
  induction l with
  | nil => simp
  | cons a l ih =>
    intro h
    simp only [Rep.forEach] at h
    cases ha : body a () with
    | ok u =>
      rw [ha] at h
      intro a' ha'
      rcases List.mem_cons.1 ha' with rfl | ha'
      · exact ha
      · exact ih h a' ha'
    | err e' => rw [ha] at h; cases h
    | panic => rw [ha] at h; cases h

omit [DecidableEq F] [StarkField F] [Field F] in
theorem Rep.forEach_err {α σ : Type} {body : α → σ → Rep σ} {e : Report} : ∀ (l : List α) (s : σ),
    Rep.forEach l s body = .err e → ∃ a ∈ l, ∃ s', body a s' = .err e := by
  intro l
  induction l with
  | nil => intro s h; cases h
  | cons a l ih =>
    intro s h
    simp only [Rep.forEach] at h
    cases ha : body a s with
    | ok u =>
      rw [ha] at h
      obtain ⟨b, hb, s', h'⟩ := ih u h
      exact ⟨b, List.mem_cons_of_mem _ hb, s', h'⟩
    | err e' =>
      rw [ha] at h
      cases h
      exact ⟨a, by simp, s, ha⟩
    | panic => rw [ha] at h; cases h

omit [DecidableEq F] [StarkField F] [Field F] in
theorem Rep.bind_eq_err {α β : Type} {x : Rep α} {f : α → Rep β} {e : Report} (h : (x >>= f) = .err e) :
    x = .err e ∨ ∃ a, x = .ok a ∧ f a = .err e := by
  cases x with
  | ok a => exact Or.inr ⟨a, rfl, h⟩
  | err e' =>
    have : (Rep.err e' : Rep β) = .err e := h
    cases this
    exact Or.inl rfl
  | panic => cases (show (Rep.panic : Rep β) = .err e from h)

omit [DecidableEq F] [StarkField F] [Field F] in
theorem Rep.ofRes_ne_err {α : Type} (x : Res α) (e : Report) : Rep.ofRes x ≠ .err e := by
  cases x <;> simp [Rep.ofRes]

/-- The text of a read outside the trace. -/
def outOfTrace (row : ℕ) : Report := .invalidValue ("access to the value out of the trace at row ".toList ++ fmtNat row)

omit [DecidableEq F] [StarkField F] in
theorem evaluateUnivariateReport_err {witness : List (List F)} {n T : ℕ} (ht : IsTable witness n T) {u : UnivariateTerm F}
    {row : ℕ} {e : Report} (h : evaluateUnivariateReport u witness row = .err e) :
    ∃ k, u.stepsDifference = .steps k ∧ T ≤ row + k ∧ e = outOfTrace (row + k) := by
  unfold evaluateUnivariateReport at h
  cases hk : u.stepsDifference with
  | mask m => rw [hk] at h; cases h
  | steps k =>
    rw [hk] at h
    refine ⟨k, rfl, ?_⟩
    rcases Rep.bind_eq_err h with h | ⟨k', hk', h⟩
    · cases h
    cases hk'
    rcases Rep.bind_eq_err h with h | ⟨r, hr, h⟩
    · exact absurd h (Rep.ofRes_ne_err _ _)
    rcases Rep.bind_eq_err h with h | ⟨cells, hcells, h⟩
    · exact absurd h (Rep.ofRes_ne_err _ _)
    have hmem : cells ∈ witness := by
      unfold rd at hcells
      cases hw : witness[r]? with
      | none => rw [hw] at hcells; cases hcells
      | some x =>
        rw [hw] at hcells
        cases hcells
        exact List.mem_of_getElem? hw
    have hlen := ht.2 cells hmem
    cases hc : cells[row + k]? with
    | none =>
      rw [hc] at h
      rcases Rep.bind_eq_err h with h | ⟨v, hv, h⟩
      · cases h
        refine ⟨?_, rfl⟩
        rw [List.getElem?_eq_none_iff] at hc
        omega
      · cases hv
    | some v =>
      rw [hc] at h
      rcases Rep.bind_eq_err h with h | ⟨v', hv, h⟩
      · cases h
      · cases h

omit [DecidableEq F] [StarkField F] in
theorem evaluateConstraintReport_err {witness : List (List F)} {n T : ℕ} (ht : IsTable witness n T) {c : Constraint F}
    {row : ℕ} {e : Report} (h : evaluateConstraintReport c witness row = .err e) :
    ∃ u ∈ factors c, ∃ k, u.stepsDifference = .steps k ∧ T ≤ row + k ∧ e = outOfTrace (row + k) := by
  unfold evaluateConstraintReport at h
  obtain ⟨t, htm, s', h⟩ := Rep.forEach_err _ _ h
  rcases Rep.bind_eq_err h with h | ⟨v, -, h⟩
  swap; · cases h
  have hf : ∀ u ∈ termFactors t, u ∈ factors c := fun u hu => List.mem_flatMap.2 ⟨t, htm, hu⟩
  cases t with
  | univariate t =>
    exact ⟨t, hf t (by simp [termFactors]), evaluateUnivariateReport_err ht h⟩
  | polyvariate p =>
    unfold evaluateTermReport at h
    rcases Rep.bind_eq_err h with h | ⟨v, -, h⟩
    swap; · cases h
    obtain ⟨u, hu, s', h⟩ := Rep.forEach_err _ _ h
    rcases Rep.bind_eq_err h with h | ⟨v, -, h⟩
    swap; · cases h
    exact ⟨u, hf u hu, evaluateUnivariateReport_err ht h⟩

/-- The report of a constraint `c` that is violated at row `row`: either it reads a row outside the trace, and the report
gives that row, or its value is not zero, and the report gives the constraint's text and `row`. -/
def ReportsViolation (name : List Char) (w : Register → ℕ → F) (T : ℕ) (c : Constraint F) (row : ℕ) (e : Report) : Prop :=
  (∃ u ∈ factors c, ∃ k, u.stepsDifference = .steps k ∧ T ≤ row + k ∧
      e = .invalidValue ("access to the value out of the trace at row ".toList ++ fmtNat (row + k))) ∨
    ((∀ u ∈ factors c, ∀ k, u.stepsDifference = .steps k → row + k < T) ∧ constraintValue (rowEnv w row) c ≠ 0 ∧
      ∃ text, fmtConstraint name c = .ok text ∧
        e = .unsatisfied ("constraint:\n".toList ++ text ++ "\nis unsatisfied at the row ".toList ++ fmtNat row))

theorem checkRowReport_err {name : List Char} {witness : List (List F)} {n T : ℕ} (ht : IsTable witness n T)
    {c : Constraint F} {row : ℕ} {e : Report}
    (hc : ∀ u ∈ factors c, (∃ r, r < n ∧ u.register = .register r) ∧ ∃ k, u.stepsDifference = .steps k)
    (h : checkRowReport name c witness row = .err e) : ReportsViolation name (cellR witness) T c row e := by
  classical
  unfold checkRowReport at h
  rcases Rep.bind_eq_err h with h | ⟨v, hv, h⟩
  · exact Or.inl (evaluateConstraintReport_err ht h)
  · right
    have hv' := evaluateConstraintReport_forget c witness row
    rw [hv, evalConstraint_if ht row hc] at hv'
    by_cases h0 : v = 0
    · rw [if_neg (not_not.2 h0)] at h
      cases h
    rw [if_pos h0] at h
    by_cases hin : ∀ u ∈ factors c, InTrace T row u
    · rw [if_pos hin] at hv'
      have hvv : v = constraintValue (rowEnv (cellR witness) row) c := by
        simpa [Rep.forget] using hv'
      refine ⟨hin, hvv ▸ h0, ?_⟩
      rcases Rep.bind_eq_err h with h | ⟨text, htx, h⟩
      · exact absurd h (Rep.ofRes_ne_err _ _)
      · refine ⟨text, ?_, ?_⟩
        · cases hf : fmtConstraint name c with
          | ok a => rw [hf] at htx; cases htx; rfl
          | err _ => rw [hf] at htx; cases htx
          | panic => rw [hf] at htx; cases htx
        · cases h; rfl
    · rw [if_neg hin] at hv'
      cases hv'

/-- **C71** (what a failed check reports). If the check of a table against a well-formed instance fails, the error is
about the first constraint, in the order of the instance, that is violated at an enforced row, and about the first such
row; if no constraint is violated, it is the general error, and some boundary value is wrong. -/
theorem C71_first_violation (name : List Char) (inst : InstanceProperties F) (witness : List (List F)) (n T : ℕ) (hn : 0 < n)
    (ht : IsTable witness n T) (hwf : WellFormed inst n T) {e : Report} (h : isSatisfiedReport name inst witness = .err e) :
    (∃ pre c post row, inst.constraints = pre ++ c :: post ∧
      (∀ c' ∈ pre, ∀ row', Enforced c' T row' → HoldsAt (cellR witness) T c' row') ∧
      Enforced c T row ∧ (∀ row' < row, Enforced c T row' → HoldsAt (cellR witness) T c row') ∧
      ReportsViolation name (cellR witness) T c row e) ∨
    ((∀ c ∈ inst.constraints, ∀ row, Enforced c T row → HoldsAt (cellR witness) T c row) ∧ e = .error ∧
      ∃ b ∈ inst.boundaryConstraints, ∃ v, b.value = some v ∧ cellR witness b.register b.atRow ≠ v) := by
  obtain ⟨e1, e2⟩ := ht.rd_row hn
  have hok : ∀ c ∈ inst.constraints, checkConstraintReport name witness T c = .ok () →
      ∀ row, Enforced c T row → HoldsAt (cellR witness) T c row := by
    intro c hc hr
    have := checkConstraintReport_forget name c witness T
    rw [hr] at this
    by_contra hh
    obtain ⟨er, he⟩ := (checkConstraint_spec ht (hwf.dense c hc) (hwf.factors c hc)).2 hh
    rw [he] at this
    cases this
  unfold isSatisfiedReport at h
  rw [e1] at h
  rcases Rep.bind_eq_err h with h | ⟨row0, hr0, h⟩
  · cases h
  cases hr0
  rw [e2] at h
  rcases Rep.bind_eq_err h with h | ⟨u, hu, h⟩
  · left
    obtain ⟨pre, c, post, hl, hpre, hc⟩ := Rep.forEach_err_unit _ h
    have hmem : c ∈ inst.constraints := by rw [hl]; simp
    obtain ⟨d, ed, hs⟩ := hwf.dense c hmem
    have hrows : checkConstraintReport name witness T c
        = Rep.forEach ((List.range (T - d.span - d.startAt)).map (fun i => d.startAt + i)) ()
            (fun row _ => checkRowReport name c witness row) := by
      unfold checkConstraintReport denseRows
      rw [ed]
      simp only [decide_eq_true hs, Res.assert_true, Res.ok_bind, Res.pure_def]
      rfl
    rw [hrows] at hc
    obtain ⟨rpre, row, rpost, hrl, hrpre, hrow⟩ := Rep.forEach_err_unit _ hc
    have henf : ∀ r, r ∈ (List.range (T - d.span - d.startAt)).map (fun i => d.startAt + i) ↔ Enforced c T r := by
      intro r
      simp only [List.mem_map, List.mem_range, Enforced, ed, ConstraintDensity.dense.injEq]
      constructor
      · rintro ⟨i, hi, rfl⟩
        exact ⟨d, rfl, by omega, by omega⟩
      · rintro ⟨d', rfl, h1, h2⟩
        exact ⟨r - d.startAt, by omega, by omega⟩
    have hsorted : ((List.range (T - d.span - d.startAt)).map (fun i => d.startAt + i)).Pairwise (· < ·) := by
      rw [List.pairwise_map]
      exact List.pairwise_lt_range.imp (by intro a b hab; omega)
    refine ⟨pre, c, post, row, hl, fun c' hc' => hok c' (by rw [hl]; simp [hc']) (hpre c' hc'), ?_, ?_, ?_⟩
    · exact (henf row).1 (by rw [hrl]; simp)
    · intro row' hlt he'
      have hm := (henf row').2 he'
      rw [hrl] at hm hsorted
      have hin : row' ∈ rpre := by
        rcases List.mem_append.1 hm with hm | hm
        · exact hm
        · rcases List.mem_cons.1 hm with rfl | hm
          · omega
          · have := (List.pairwise_append.1 hsorted).2.1
            have := (List.pairwise_cons.1 this).1 row' hm
            omega
      have h1 := checkRowReport_forget name c witness row'
      rw [hrpre row' hin] at h1
      by_contra hh
      obtain ⟨er, he⟩ := (checkRow_spec ht row' (hwf.factors c hmem)).2 hh
      rw [he] at h1
      cases h1
    · exact checkRowReport_err ht (hwf.factors c hmem) hrow
  · right
    obtain ⟨pre, b, post, hl, hpre, hb⟩ := Rep.forEach_err_unit _ h
    have hmem : b ∈ inst.boundaryConstraints := by rw [hl]; simp
    refine ⟨fun c hc => hok c hc (Rep.forEach_ok_unit _ hu c hc), ?_, b, hmem, ?_⟩
    · unfold checkBoundaryReport at hb
      rcases Rep.bind_eq_err hb with hb | ⟨m, -, hb⟩
      · exact absurd hb (Rep.ofRes_ne_err _ _)
      cases hv : b.value with
      | none => rw [hv] at hb; cases hb
      | some v =>
        rw [hv] at hb
        rcases Rep.bind_eq_err hb with hb | ⟨r, -, hb⟩
        · exact absurd hb (Rep.ofRes_ne_err _ _)
        rcases Rep.bind_eq_err hb with hb | ⟨x, -, hb⟩
        · exact absurd hb (Rep.ofRes_ne_err _ _)
        split at hb
        · cases hb; rfl
        · cases hb
    · have h1 := checkBoundaryReport_forget witness b
      rw [hb] at h1
      by_contra hh
      push Not at hh
      rw [(checkBoundary_spec ht (hwf.boundary b hmem)).1 hh] at h1
      cases h1

/-- **C71** (after routing). A constraint that reads any register cannot be printed once its step differences have been
replaced by masks (the form it has in an `ARPInstance`). -/
theorem C71_routed_panics (name : List Char) (d : Domain F) {c c' : Constraint F} (h : maskConstraint d c = .ok c')
    (hf : factors c ≠ []) : fmtConstraint name c' = .panic := by
  rw [(C71_prints_iff name c').2]
  intro hp
  obtain ⟨u, hu⟩ := List.exists_mem_of_ne_nil _ hf
  obtain ⟨t, ht, hu⟩ := List.mem_flatMap.1 hu
  obtain ⟨ts, h1, h⟩ := Res.bind_eq_ok.1 h
  cases h
  have h2 := mapRes_eq_ok h1
  obtain ⟨i, hi, rfl⟩ := List.getElem_of_mem ht
  have hl : i < ts.length := h2.length_eq ▸ hi
  have h3 : maskTerm d c.terms[i] = .ok ts[i] := h2.get hi hl
  have hmask : ∀ (u v : UnivariateTerm F), maskUnivariateTerm d u = .ok v → ∃ m, v.stepsDifference = .mask m := by
    intro u v huv
    unfold maskUnivariateTerm at huv
    split at huv
    · cases huv; exact ⟨_, rfl⟩
    · cases huv
  have : ∃ v ∈ termFactors ts[i], ∃ m, v.stepsDifference = .mask m := by
    cases hti : c.terms[i] with
    | univariate t =>
      rw [hti] at h3
      simp only [maskTerm] at h3
      obtain ⟨v, hv, h3⟩ := Res.bind_eq_ok.1 h3
      have h3 : ConstraintTerm.univariate v = ts[i] := by simpa using h3
      exact ⟨v, by rw [← h3]; simp [termFactors], hmask _ _ hv⟩
    | polyvariate p =>
      rw [hti] at h3 hu
      simp only [maskTerm] at h3
      obtain ⟨vs, hv, h3⟩ := Res.bind_eq_ok.1 h3
      have h3 : ConstraintTerm.polyvariate { p with terms := vs } = ts[i] := by simpa using h3
      obtain ⟨j, hj, rfl⟩ := List.getElem_of_mem (show u ∈ p.terms from hu)
      have h4 := mapRes_eq_ok hv
      have hj' : j < vs.length := h4.length_eq ▸ hj
      exact ⟨vs[j], by rw [← h3]; simp [termFactors], hmask _ _ (h4.get hj hj')⟩
  obtain ⟨v, hv, m, hm⟩ := this
  obtain ⟨-, k, hk⟩ := hp v (List.mem_flatMap.2 ⟨ts[i], List.getElem_mem hl, hv⟩)
  rw [hm] at hk
  cases hk

end

/-- **C71** (printed errors). What `Display` prints for an error determines the error: its kind and its text. -/
theorem C71_message_determines (e e' : Report) (h : e.fmt = e'.fmt) : e = e' := by
  have hg : ∃ g, Report.fmt .error = 'G' :: g := ⟨_, rfl⟩
  have hu : ∀ d, ∃ g, Report.fmt (.unsatisfied d) = 'U' :: g := fun d => ⟨_, rfl⟩
  have hi : ∀ d, ∃ g, Report.fmt (.invalidValue d) = 'I' :: g := fun d => ⟨_, rfl⟩
  have hd : ∀ d, ∃ g, Report.fmt (.divisionByZero d) = 'D' :: g := fun d => ⟨_, rfl⟩
  have ne : ∀ {a b : Char} {e e' : Report}, (∃ g, e.fmt = a :: g) → (∃ g, e'.fmt = b :: g) → e.fmt = e'.fmt → a = b := by
    rintro a b e e' ⟨g, hg⟩ ⟨g', hg'⟩ h
    rw [hg, hg'] at h
    exact (List.cons.inj h).1
  cases e with
  | error =>
    cases e' with
    | error => rfl
    | unsatisfied d' => exact absurd (ne hg (hu d') h) (by decide)
    | invalidValue d' => exact absurd (ne hg (hi d') h) (by decide)
    | divisionByZero d' => exact absurd (ne hg (hd d') h) (by decide)
  | unsatisfied d =>
    cases e' with
    | error => exact absurd (ne (hu d) hg h) (by decide)
    | unsatisfied d' => rw [show d = d' from List.append_cancel_left h]
    | invalidValue d' => exact absurd (ne (hu d) (hi d') h) (by decide)
    | divisionByZero d' => exact absurd (ne (hu d) (hd d') h) (by decide)
  | invalidValue d =>
    cases e' with
    | error => exact absurd (ne (hi d) hg h) (by decide)
    | unsatisfied d' => exact absurd (ne (hi d) (hu d') h) (by decide)
    | invalidValue d' => rw [show d = d' from List.append_cancel_left h]
    | divisionByZero d' => exact absurd (ne (hi d) (hd d') h) (by decide)
  | divisionByZero d =>
    cases e' with
    | error => exact absurd (ne (hd d) hg h) (by decide)
    | unsatisfied d' => exact absurd (ne (hd d) (hu d') h) (by decide)
    | invalidValue d' => exact absurd (ne (hd d) (hi d') h) (by decide)
    | divisionByZero d' => rw [show d = d' from List.append_cancel_left h]

/-- **C71** (printed violations). From the printed error of a violated constraint one reads the row and the text of the constraint. -/
theorem C71_message_row (text text' : List Char) (row row' : ℕ)
    (h : (Report.unsatisfied ("constraint:\n".toList ++ text ++ "\nis unsatisfied at the row ".toList ++ fmtNat row)).fmt =
      (Report.unsatisfied ("constraint:\n".toList ++ text' ++ "\nis unsatisfied at the row ".toList ++ fmtNat row')).fmt) :
    row = row' ∧ text = text' := by
  have h := C71_message_determines _ _ h
  simp only [Report.unsatisfied.injEq] at h
  have hr := congrArg List.reverse h
  simp only [List.reverse_append] at hr
  have d : ∀ n, ∀ ch ∈ (fmtNat n).reverse, ch.isDigit = true := fun n ch hch => fmtNat_digits n ch (by simpa using hch)
  have nd : ∀ r : List Char, NoDigit ("\nis unsatisfied at the row ".toList.reverse ++ r) := by
    intro r ch hch
    have : ("\nis unsatisfied at the row ".toList.reverse ++ r).head? = some ' ' := rfl
    rw [this] at hch
    cases hch
    rfl
  obtain ⟨e1, e2⟩ := read_digits _ _ _ _ (d row) (d row') (nd _) (nd _) hr
  refine ⟨fmtNat_inj (List.reverse_injective e1), ?_⟩
  have e3 := List.append_cancel_left e2
  exact List.reverse_injective (List.append_cancel_right e3)

/-- `1 * (2 * R_0)` as a product with an inner coefficient, which the builder does not make. -/
def innerTwo : Constraint Fr :=
  { constantTerm := 0, degree := 1, density := .default,
    terms := [.polyvariate ⟨1, [⟨2, .register 0, .steps 0, 1⟩], 1⟩] }

/-- `1 * R_0` -/
def innerOne : Constraint Fr :=
  { constantTerm := 0, degree := 1, density := .default,
    terms := [.polyvariate ⟨1, [⟨1, .register 0, .steps 0, 1⟩], 1⟩] }

/-- **C71** needs the hypothesis on products: coefficients inside a product are not printed, so these two constraints
have the same text and different values. -/
theorem C71_inner_hidden : fmtConstraint "Fr".toList innerTwo = fmtConstraint "Fr".toList innerOne ∧
    constraintValue (fun _ _ => 1) innerTwo ≠ constraintValue (fun _ _ => 1) innerOne := by
  refine ⟨by decide +kernel, by decide +kernel⟩

/-! ## Concrete cases -/

example : NameOk "Fr".toList := ⟨'F', ['r'], rfl, by decide, by decide, by decide⟩

example : isSatisfiedReport "Fr".toList airDemo [[2, 12, 175, 125]] =
    .err (.unsatisfied ("constraint:\nPolynomial constraint of degree 2\n0 = Fr(0x0000000000000000) + (R_0(t+1))^1 + Fr(0x00000000000000fe)*(R_0(t+0))^2;\nis unsatisfied at the row 2").toList) := by
  decide +kernel

example : isSatisfiedReport "Fr".toList airDemo [[2, 12, 175, 126]] = .ok () := by decide +kernel

example : ∃ d : Domain Fr, ∃ c', maskConstraint d ((Constraint.default (F := Fr)).addUnivariate (.ofRegister (.register 0))) = .ok c' ∧
    factors ((Constraint.default (F := Fr)).addUnivariate (.ofRegister (.register 0))) ≠ [] :=
  ⟨⟨4, 2, 16⟩, _, rfl, by decide⟩

end Hodor

import Verif.Lemmas.ProveOutcome
import Verif.Props.Ali
import Verif.Lemmas.NoErr
import Verif.Props.Verify
import Verif.Props.HonestRun

/-!
# C65: when proving ends in a panic

The user's expectation is that `prove`, on a witness of the declared shape, returns a proof or an error. It does so, on every machine, for instances whose
row count and largest constraint degree are powers of two (`C65_prove_no_panic_partial`, and `C65_outcome` for which of the two it returns); when one
of the two is not, it panics (`C65_rows_panics`, `C65_degree_panics`), and with too many final FRI coefficients it never returns a proof (`C65_no_proof`).
-/

namespace Hodor

open Polynomial Finset Spec

variable {F : Type} [Field F] [DecidableEq F] [StarkField F] (H : List UInt8 → Digest)

/-- What `prove` does on an instance whose row count and largest constraint degree are powers of two, on every machine, for every witness table and hash
function: it draws the opening point `z`; it fails, with `SynthesisError::Error`, exactly when `z` lies in the evaluation domain of the combined polynomial;
otherwise it returns a proof if there are fewer final FRI coefficients than rows, and panics if not. -/
theorem C65_outcome (w : Worker) (inst : InstanceProperties F) (n k f e o : ℕ) (h : Runnable inst n k f)
    (hp : ProverParams F k f e o) (witness : List (List F)) (ht : IsTable witness n (2 ^ k)) :
    ∃ prover z, Prover.new w inst (2 ^ e) (2 ^ o) = .ok prover ∧ OpenedAt H prover w witness e z ∧
      (z ^ 2 ^ (k + f + e) = 1 → prover.prove H witness = .err .error) ∧
      (z ^ 2 ^ (k + f + e) ≠ 1 → o < k → ∃ proof, prover.prove H witness = .ok proof) ∧
      (z ^ 2 ^ (k + f + e) ≠ 1 → k ≤ o → prover.prove H witness = .panic) :=
  prove_outcome H w inst n k f e o h hp witness ht

/-- The row count of an instance and its largest constraint degree are powers of two (`Runnable`): whatever the number of CPUs, the witness and the hash
function, `prove` returns a proof or an error. -/
theorem C65_prove_no_panic_partial (w : Worker) (inst : InstanceProperties F) (n k f e o : ℕ) (h : Runnable inst n k f)
    (hp : ProverParams F k f e o) (hout : o < k) (witness : List (List F)) (ht : IsTable witness n (2 ^ k)) :
    ∃ prover, Prover.new w inst (2 ^ e) (2 ^ o) = .ok prover ∧ prover.prove H witness ≠ .panic := by
  obtain ⟨prover, z, e1, -, h1, h2, -⟩ := C65_outcome H w inst n k f e o h hp witness ht
  refine ⟨prover, e1, ?_⟩
  by_cases hz : z ^ 2 ^ (k + f + e) = 1
  · rw [h1 hz]; exact fun h => by cases h
  · obtain ⟨proof, he⟩ := h2 hz hout
    rw [he]; exact fun h => by cases h

/-- With at least as many final FRI coefficients as rows, `prove` never returns a proof. -/
theorem C65_no_proof (w : Worker) (inst : InstanceProperties F) (n k f e o : ℕ) (h : Runnable inst n k f)
    (hp : ProverParams F k f e o) (hout : k ≤ o) (witness : List (List F)) (ht : IsTable witness n (2 ^ k)) :
    ∃ prover, Prover.new w inst (2 ^ e) (2 ^ o) = .ok prover ∧ ∀ proof, prover.prove H witness ≠ .ok proof := by
  obtain ⟨prover, z, e1, -, h1, -, h3⟩ := C65_outcome H w inst n k f e o h hp witness ht
  refine ⟨prover, e1, fun proof => ?_⟩
  by_cases hz : z ^ 2 ^ (k + f + e) = 1
  · rw [h1 hz]; exact fun h => by cases h
  · rw [h3 hz hout]; exact fun h => by cases h

/-- A row count that is not a power of two: `prove` panics on every witness of the declared shape, whatever the constraints and parameters. -/
theorem C65_rows_panics (w : Worker) (inst : InstanceProperties F) (hpos : 0 < inst.numRegisters) (hrows : ∀ k, inst.numRows ≠ 2 ^ k)
    (ldeFactor out : ℕ) (prover : Prover F) (hnew : Prover.new w inst ldeFactor out = .ok prover) (witness : List (List F))
    (ht : IsTable witness inst.numRegisters inst.numRows) : prover.prove H witness = .panic := by
  unfold Prover.new at hnew
  obtain ⟨arp, e1, hnew⟩ := Res.bind_eq_ok.1 hnew
  obtain ⟨ali, e2, hnew⟩ := Res.bind_eq_ok.1 hnew
  cases hnew
  unfold fromInstance at e1
  obtain ⟨d, e3, e1⟩ := Res.bind_eq_ok.1 e1
  obtain ⟨cs, e4, e1⟩ := Res.bind_eq_ok.1 e1
  cases e1
  have hS : Nat.clog 2 inst.numRows ≤ StarkField.S F := by
    obtain ⟨K, hK, -, hk⟩ := newForSize_inv e3
    rw [nextPow2_idem] at hk
    unfold nextPow2 at hk
    rw [← Nat.pow_right_injective (le_refl 2) hk]; exact hK
  have hp := makeWitness_panics w hpos ht hrows hS
  obtain ⟨hl, hr⟩ := ht
  obtain ⟨r, rs, rfl⟩ := List.exists_cons_of_ne_nil (l := witness) (by intro e; subst e; simp at hl; omega)
  have hc : calculateWitnessPolys ({ inst with constraints := cs } : InstanceProperties F) (r :: rs) w = .panic := by
    unfold calculateWitnessPolys
    have e0 : rd (r :: rs) 0 = .ok r := rfl
    have eall : (r :: rs).all (fun x => decide (r.length = x.length)) = true := by
      rw [List.all_eq_true]
      intro x hx
      rw [decide_eq_true_iff, hr r List.mem_cons_self, hr x hx]
    simp only [e0, Res.ok_bind, eall, Res.assert_true]
    rw [if_neg (by rw [hl]; simp), if_neg (by rw [hr r List.mem_cons_self]; simp)]
    exact hp
  unfold Prover.prove
  simp only [hc]
  unfold Transcript.new Res.assert
  split <;> rfl

/-- A largest declared degree that is not a power of two (3, say): if some constraint has a term, `prove` panics on every witness of the declared shape. -/
theorem C65_degree_panics (w : Worker) (inst : InstanceProperties F) (hpos : 0 < inst.numRegisters)
    (hdeg : ∀ j, ¬ ((∀ c ∈ inst.constraints, c.degree ≤ 2 ^ j) ∧ ∃ c ∈ inst.constraints, c.degree = 2 ^ j))
    (hterm : ∃ c ∈ inst.constraints, c.terms ≠ []) (k e out : ℕ) (hrows : inst.numRows = 2 ^ k) (he : 1 ≤ e)
    (hS : k + e ≤ StarkField.S F) (h32 : k < 32) (hch : ChallengeOk F)
    (prover : Prover F) (hnew : Prover.new w inst (2 ^ e) out = .ok prover) (witness : List (List F))
    (ht : IsTable witness inst.numRegisters inst.numRows) : prover.prove H witness = .panic := by
  unfold Prover.new at hnew
  obtain ⟨arp, e1, hnew⟩ := Res.bind_eq_ok.1 hnew
  obtain ⟨ali, e2, hnew⟩ := Res.bind_eq_ok.1 hnew
  cases hnew
  unfold fromInstance at e1
  obtain ⟨d, e3, e1⟩ := Res.bind_eq_ok.1 e1
  obtain ⟨cs, e4, e1⟩ := Res.bind_eq_ok.1 e1
  cases e1
  obtain ⟨hm1, hm2⟩ := maskConstraints_inv e4
  obtain ⟨c0, hc0, ht0⟩ := hm2 hterm
  have hD : ∀ j, maxDegree cs ≠ 2 ^ j := by
    intro j hj
    have hmap : ∀ p : ℕ → Prop, (∃ c ∈ cs, p c.degree) ↔ ∃ c ∈ inst.constraints, p c.degree := by
      intro p
      have h1 : ∀ l : List (Constraint F), (∃ c ∈ l, p c.degree) ↔ ∃ x ∈ l.map (fun c => c.degree), p x := by
        intro l; simp
      rw [h1, h1, hm1]
    have hle : ∀ c ∈ cs, c.degree ≤ 2 ^ j := fun c hc => hj ▸ le_maxDegree hc
    refine hdeg j ⟨?_, ?_⟩
    · intro c hc
      by_contra hlt
      obtain ⟨c', hc', h'⟩ := (hmap (fun x => ¬ x ≤ 2 ^ j)).2 ⟨c, hc, hlt⟩
      exact h' (hle c' hc')
    · refine (hmap (fun x => x = 2 ^ j)).1 ?_
      by_contra hno
      push Not at hno
      have : maxDegree cs ≤ 2 ^ j - 1 := by
        have hmd : ∀ (l : List (Constraint F)) (m b : ℕ), m ≤ b → (∀ c ∈ l, c.degree ≤ b) →
            l.foldl (fun m c => if c.degree > m then c.degree else m) m ≤ b := by
          intro l
          induction l with
          | nil => intro m b hm _; exact hm
          | cons c l ih =>
            intro m b hm hl
            rw [List.foldl_cons]
            refine ih _ b ?_ (fun c' hc' => hl c' (List.mem_cons_of_mem _ hc'))
            split
            · exact hl c List.mem_cons_self
            · exact hm
        refine hmd cs 0 _ (Nat.zero_le _) (fun c hc => ?_)
        have h1 := hle c hc
        have h2 := hno c hc
        omega
      have hpos' := Nat.two_pow_pos j
      omega
  rw [hrows] at ht
  obtain ⟨P, ew, -, -, -⟩ := witnessPolys_ok w (inst := { inst with constraints := cs }) hpos ht (by omega) h32 rfl hrows
  generalize hn : inst.numRegisters = n at *
  have hl : ∃ Q : ℕ → F[X], mapRes (fun q => q.lde w (2 ^ e)) (tab n (fun r => mkPoly .coefficients k (P r).coeff))
      = .ok (tab n (fun r => mkPoly .values (k + e) (fun i => (Q r).eval (genOf F (k + e) ^ i)))) := by
    have : ∀ r, ∃ q : F[X], (mkPoly .coefficients k (P r).coeff).lde w (2 ^ e)
        = .ok (mkPoly .values (k + e) (fun i => q.eval (genOf F (k + e) ^ i))) := by
      intro r
      rw [lde_exact w hS h32]
      obtain ⟨q, -, hq⟩ := shaped_poly (p := mkPoly .values (k + e) (fun idx => evalF (2 ^ k) (P r).coeff
        (genOf F (k + e) ^ ldeExp w e idx))) hS ⟨_, rfl⟩
      exact ⟨q, by rw [hq]⟩
    choose Q hQ using this
    exact ⟨Q, mapRes_tab _ _ _ _ (fun i _ => hQ i)⟩
  obtain ⟨Q, m1⟩ := hl
  have m2 : mapRes (fun l : Poly F .values => IopTree.create H w l.coeffs)
      (tab n (fun r => mkPoly .values (k + e) (fun i => (Q r).eval (genOf F (k + e) ^ i))))
      = .ok (tab n (fun r => friTree H (k + e) (Q r) 0)) :=
    mapRes_tab _ _ _ _ (fun i _ => friTree_create H w (k + e) (Q i) (i := 0) (by omega))
  have m3 : mapRes (fun o : IopTree => o.getRoot) (tab n (fun r => friTree H (k + e) (Q r) 0))
      = .ok (tab n (fun r => friRoot H (k + e) (Q r) 0)) :=
    mapRes_tab _ _ _ _ (fun i _ => friTree_root H (k + e) (Q i) (i := 0) (by omega))
  have m4 : ∀ t ps, ali.calculateG H t ps w = .panic := by
    intro t ps
    unfold AliInstance.fromArp at e2
    obtain ⟨d1, f1, e2⟩ := Res.bind_eq_ok.1 e2
    obtain ⟨d2, f2, e2⟩ := Res.bind_eq_ok.1 e2
    obtain ⟨pre, f3, e2⟩ := Res.bind_eq_ok.1 e2
    obtain ⟨div, f4, e2⟩ := Res.bind_eq_ok.1 e2
    obtain ⟨bdiv, f5, e2⟩ := Res.bind_eq_ok.1 e2
    cases e2
    obtain ⟨K, hK, rfl, -⟩ := newForSize_inv f2
    unfold AliInstance.calculateG
    refine panic_bind (NoErr.assert _) (fun _ _ => ?_)
    have hnew : (Poly.newForSizeValues (domOf F K).size : Res (Poly F .values)) = .ok (mkPoly .values K (fun _ => 0)) :=
      newForSizeValues_pow hK
    simp only [hnew, Res.ok_bind]
    refine panic_bind ?_ (fun sub _ => ?_)
    · unfold maskedPolynomials
      refine NoErr.forEach (fun m _ acc => ?_)
      refine NoErr.bind ?_ (fun _ => NoErr.bind (NoErr.rd _ _) (fun _ => NoErr.bind ?_ (fun _ => NoErr.ok _)))
      · cases m.register <;> exact fun e h => by cases h
      · cases m.stepsDifference <;> exact fun e h => by cases h
    · rw [forEach_panics (fun b _ s => (noErr_gBatch H hch hD b s).1)]
      · rfl
      · obtain ⟨b, hb, hcb⟩ : ∃ b ∈ batchesOf cs, c0 ∈ b.2 := by
          have := (batchesOf_perm cs).mem_iff.2 hc0
          exact List.mem_flatMap.1 this
        exact ⟨b, hb, fun s => (noErr_gBatch H hch hD b s).2 ⟨c0, hcb, ht0⟩⟩
  unfold Prover.prove
  refine panic_bind (NoErr.bind (NoErr.assert _) (fun _ => NoErr.ok _)) (fun _ _ => ?_)
  simp only [ew, m1, m2, m3, Res.ok_bind, m4]
  rfl

/-- Whether a call returned a value. -/
def Res.isOk {α : Type} : Res α → Bool
  | .ok _ => true
  | _ => false

/-- `r(next) = r³`, a constraint of degree 3. -/
def cubing : Constraint Fr :=
  ((Constraint.default : Constraint Fr).subUnivariate { coeff := (1 : Fr), register := .register 0, stepsDifference := .steps 0, power := 3 }).addUnivariate
    { coeff := (1 : Fr), register := .register 0, stepsDifference := .steps 1, power := 1 }

/-- Four rows, starting at 2. -/
def cubingInst : InstanceProperties Fr :=
  { numRows := 4, numRegisters := 1, constraints := [cubing], boundaryConstraints := [⟨.register 0, 0, some 2⟩] }

/-- Both panics happen with a witness that satisfies the instance: three rows, or a cubic constraint; the prover accepts both instances. -/
theorem C65_satisfied_but_panics :
    (∃ prover, Prover.new ⟨1, by norm_num⟩ threeRows 8 2 = .ok prover ∧ isSatisfied threeRows [[1, 2, 4]] = .ok () ∧
      prover.prove H [[1, 2, 4]] = .panic) ∧
    ∃ prover, Prover.new ⟨1, by norm_num⟩ cubingInst 8 2 = .ok prover ∧
      isSatisfied cubingInst [[2, 8, 255, 249]] = .ok () ∧
      prover.prove H [[2, 8, 255, 249]] = .panic := by
  have hok : ∀ {α : Type} {r : Res α}, r.isOk = true → ∃ a, r = .ok a := by
    intro α r h
    cases r with
    | ok a => exact ⟨a, rfl⟩
    | err e => cases h
    | panic => cases h
  constructor
  · obtain ⟨p, hp⟩ := hok (show (Prover.new (F := Fr) ⟨1, by norm_num⟩ threeRows 8 2).isOk = true by decide +kernel)
    refine ⟨p, hp, by decide +kernel, ?_⟩
    apply C65_rows_panics H _ threeRows (by decide) _ 8 2 p hp
    · exact ⟨rfl, by intro r hr; simp at hr; subst hr; rfl⟩
    · intro k hk
      have hk : 3 = 2 ^ k := hk
      match k, hk with
      | 0, h => omega
      | k + 1, h => omega
  · obtain ⟨p, hp⟩ := hok (show (Prover.new (F := Fr) ⟨1, by norm_num⟩ cubingInst 8 2).isOk = true by decide +kernel)
    refine ⟨p, hp, by decide +kernel, ?_⟩
    apply C65_degree_panics H _ cubingInst (by decide) _ ⟨cubing, by simp [cubingInst], by decide⟩ 2 3 2 rfl
      (by norm_num) (by decide) (by norm_num) (by unfold ChallengeOk; decide +kernel) p hp
    · exact ⟨rfl, by intro r hr; simp at hr; subst hr; rfl⟩
    · rintro j ⟨-, c, hc, hd⟩
      have hc : c = cubing := by simpa [cubingInst] using hc
      subst hc
      have hd : 3 = 2 ^ j := hd
      match j, hd with
      | 0, h => omega
      | j + 1, h => omega

/-- Two CPUs and LDE factor 8, where the extension of C09 is wrong: `prove` still does not panic. -/
example : Runnable (mixedInst [doubling, quadrupling]) 1 2 0 ∧ ProverParams Fr 2 0 3 1 ∧ IsTable [[(1 : Fr), 2, 4, 8]] 1 (2 ^ 2) :=
  ⟨mixedInst_runnable, ⟨by decide, by norm_num, by norm_num, by norm_num, by decide +kernel, by decide +kernel⟩, ⟨rfl, by decide⟩⟩

end Hodor

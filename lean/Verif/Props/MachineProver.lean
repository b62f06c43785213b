import Verif.Model.MachineProver
import Verif.Props.MachineVerifier
import Verif.Lemmas.ProverRun

/-!
# C92: the whole prover in the two build profiles
-/

namespace Hodor

open Spec

namespace Run.Below

variable {α β σ : Type}

theorem each {f g : α → σ → Run σ} {h : α → σ → Res σ} (H : ∀ a s, Below (f a s) (g a s) (h a s)) (l : List α) :
    ∀ s, Below (Run.each l s f) (Run.each l s g) (forEach l s h) := by
  induction l with
  | nil => intro s; exact refl _
  | cons a l ih => intro s; exact bind (H a s) ih

theorem collect {f g : α → Run β} {h : α → Res β} (H : ∀ a, Below (f a) (g a) (h a)) (l : List α) :
    Below (Run.collect f l) (Run.collect g l) (mapRes h l) := by
  induction l with
  | nil => exact refl _
  | cons a l ih => exact bind (H a) fun y => bind ih fun ys => refl _

theorem mulBind {a b : ℕ} {f g : ℕ → Run β} {z : Res β} (h : Below (f (a * b)) (g (a * b)) z) :
    Below (Run.done (mulWord .debug a b) >>= f) (Run.done (mulWord .release a b) >>= g) z := by
  unfold mulWord
  by_cases h1 : a * b < 2 ^ 64
  · rw [if_pos h1, if_pos h1]; exact h
  · rw [if_neg h1, if_neg h1]; exact .inr (.inl rfl)

theorem subBind {a b : ℕ} {f g : ℕ → Run β} {h : Res β} (hf : b ≤ a → Below (f (a - b)) (g (a - b)) h) :
    Below (Run.done (subWord .debug a b) >>= f) (Run.done (subWord .release a b) >>= g) (Res.assert (decide (b ≤ a)) >>= fun _ => h) := by
  unfold subWord
  by_cases h1 : b ≤ a
  · rw [if_pos h1, if_pos h1, decide_eq_true h1]; exact hf h1
  · rw [if_neg h1, if_neg h1]; exact .inr (.inl rfl)

end Run.Below

section
variable {F : Type} [Field F] [DecidableEq F] [StarkField F] (H : List UInt8 → Digest)

theorem below_fromInstance (fuel : ℕ) (inst : InstanceProperties F) :
    Run.Below (fromInstanceWord .debug fuel inst) (fromInstanceWord .release fuel inst) (fromInstance inst) := by
  unfold fromInstanceWord fromInstance
  exact Run.Below.bind (z := .ok (nextPow2 inst.numRows)) (Run.Below.nextPow2 _) fun n => Run.Below.bind (Run.Below.domain fuel n) fun d =>
    Run.Below.bind (Run.Below.refl _) fun cs => Run.Below.refl _

theorem excludedRootsWord_debug (d : Domain F) (c : DenseConstraint) (n : ℕ) : excludedRootsWord .debug d c n = excludedRoots d c n := by
  unfold excludedRootsWord excludedRoots subWord
  by_cases h : c.span ≤ n
  · simp [h, Res.assert]
  · simp [h, Res.assert]

theorem inverseDivisorInCosetWord_debug (d e : Domain F) (c : DenseConstraint) (n : ℕ) (w : Worker) :
    inverseDivisorInCosetWord .debug d e c n w = inverseDivisorInCoset d e c n w := by
  unfold inverseDivisorInCosetWord inverseDivisorInCoset
  rw [divisorDegreeWord_debug, excludedRootsWord_debug]

theorem refines_divisorDegree (size n : ℕ) (c : DenseConstraint) : Refines (divisorDegreeWord .debug size n c) (divisorDegreeWord .release size n c) :=
  Refines.bind (Refines.subWord _ _) fun _ => Refines.bind (Refines.subWord _ _) fun _ => Refines.bind (Refines.subWord _ _) fun _ => Refines.subWord _ _

theorem refines_inverseDivisorInCoset (d e : Domain F) (c : DenseConstraint) (n : ℕ) (w : Worker) :
    Refines (inverseDivisorInCosetWord .debug d e c n w) (inverseDivisorInCosetWord .release d e c n w) :=
  Refines.bind (refines_divisorDegree _ _ _) fun _ => Refines.bind (Refines.bind (Refines.subWord _ _) fun _ => Refines.rfl' _) fun _ => Refines.rfl' _

theorem densityDivisorWord_debug (d e : Domain F) (n : ℕ) (w : Worker) (b : ConstraintDensity) :
    densityDivisorWord .debug d e n w b = densityDivisor d e n w b := by
  cases b with
  | dense c => exact inverseDivisorInCosetWord_debug _ _ _ _ _
  | repeated c => rfl
  | sparse c => rfl

theorem refines_densityDivisor (d e : Domain F) (n : ℕ) (w : Worker) (b : ConstraintDensity) :
    Refines (densityDivisorWord .debug d e n w b) (densityDivisorWord .release d e n w b) := by
  cases b with
  | dense c => exact refines_inverseDivisorInCoset _ _ _ _ _
  | repeated c => exact Refines.rfl' _
  | sparse c => exact Refines.rfl' _

theorem below_fromArp (fuel : ℕ) (arp : InstanceProperties F) (w : Worker) :
    Run.Below (AliInstance.fromArpWord .debug fuel arp w) (AliInstance.fromArpWord .release fuel arp w) (AliInstance.fromArp arp w) := by
  unfold AliInstance.fromArpWord AliInstance.fromArp
  refine Run.Below.bind (Run.Below.domain fuel _) fun d => ?_
  refine Run.Below.mulBind ?_
  refine Run.Below.bind (Run.Below.domain fuel _) fun e => ?_
  refine Run.Below.bind (Run.Below.refl _) fun pre => ?_
  refine Run.Below.bind ?_ fun divs => ?_
  · refine Run.Below.of_refines ?_ (Refines.forEach _ (fun b m => Refines.bind (refines_densityDivisor _ _ _ _ _) fun _ => Refines.rfl' _) _)
    simp only [densityDivisorWord_debug]
  · exact Run.Below.bind (Run.Below.refl _) fun bd => Run.Below.refl _

theorem below_proverNew (fuel : ℕ) (w : Worker) (inst : InstanceProperties F) (factor out : ℕ) :
    Run.Below (Prover.newWord .debug fuel w inst factor out) (Prover.newWord .release fuel w inst factor out) (Prover.new w inst factor out) := by
  unfold Prover.newWord Prover.new
  exact Run.Below.bind (below_fromInstance fuel inst) fun arp => Run.Below.bind (below_fromArp fuel arp w) fun ali => Run.Below.refl _

theorem below_multiCosetLde (fuel : ℕ) (w : Worker) (q : Poly F .coefficients) (factor : ℕ) (shift : F) :
    Run.Below (q.multiCosetLdeWord .debug fuel w factor shift) (q.multiCosetLdeWord .release fuel w factor shift) (Poly.multiCosetLde w q factor shift) := by
  unfold Poly.multiCosetLdeWord Poly.multiCosetLde
  exact Run.Below.bind (Run.Below.refl _) fun _ => Run.Below.bind (z := .ok (q.coeffs.length * factor)) (Run.Below.mul _ _) fun s =>
    Run.Below.bind (Run.Below.domain fuel s) fun d => Run.Below.refl _

theorem below_lde (fuel : ℕ) (w : Worker) (q : Poly F .coefficients) (factor : ℕ) :
    Run.Below (q.ldeWord .debug fuel w factor) (q.ldeWord .release fuel w factor) (q.lde w factor) := by
  unfold Poly.ldeWord Poly.lde Poly.ldeUsingMultipleCosets
  split
  · exact Run.Below.refl _
  · exact below_multiCosetLde fuel w q factor 1

theorem below_cosetLde (fuel : ℕ) (w : Worker) (q : Poly F .coefficients) (factor : ℕ) :
    Run.Below (q.cosetLdeWord .debug fuel w factor) (q.cosetLdeWord .release fuel w factor) (q.cosetLde w factor) := by
  unfold Poly.cosetLdeWord Poly.cosetLde Poly.cosetLdeUsingMultipleCosets
  split
  · exact Run.Below.refl _
  · exact below_multiCosetLde fuel w q factor _

theorem below_univariateTerm (fuel : ℕ) (t : UnivariateTerm F) (subst : List (MaskProperties F × Poly F .coefficients))
    (cache : TermCache F) (hint : ℕ) (w : Worker) :
    Run.Below (evaluateUnivariateTermWord .debug fuel t subst cache hint w) (evaluateUnivariateTermWord .release fuel t subst cache hint w)
      (evaluateUnivariateTerm t subst cache hint w) := by
  unfold evaluateUnivariateTermWord evaluateUnivariateTerm
  refine Run.Below.bind (Run.Below.refl _) fun _ => Run.Below.bind (Run.Below.refl _) fun base =>
    Run.Below.mulBind ?_
  dsimp only
  cases assocGet cache { mask := t.maskProperties, power := t.power, totalLdeLength := hint * base.size } with
  | some e => exact Run.Below.refl _
  | none =>
    unfold evaluateFreshWord evaluateFresh
    exact Run.Below.bind (Run.Below.refl _) fun _ => Run.Below.bind (below_cosetLde fuel w base hint) fun v => Run.Below.refl _

theorem below_constraintTerm (fuel : ℕ) (t : ConstraintTerm F) (subst : List (MaskProperties F × Poly F .coefficients))
    (cache : TermCache F) (hint : ℕ) (w : Worker) :
    Run.Below (evaluateConstraintTermWord .debug fuel t subst cache hint w) (evaluateConstraintTermWord .release fuel t subst cache hint w)
      (evaluateConstraintTerm t subst cache hint w) := by
  unfold evaluateConstraintTermWord evaluateConstraintTerm
  refine Run.Below.bind (Run.Below.refl _) fun _ => ?_
  cases t with
  | univariate t => exact below_univariateTerm fuel t subst cache hint w
  | polyvariate q =>
    refine Run.Below.bind (Run.Below.each (fun t s => ?_) _ _) fun x => Run.Below.bind (Run.Below.refl _) fun v => Run.Below.refl _
    exact Run.Below.bind (below_univariateTerm fuel t subst s.2 hint w) fun x => Run.Below.bind (Run.Below.refl _) fun _ => Run.Below.refl _

theorem below_gConstraint (fuel : ℕ) (inst : AliInstance F) (w : Worker) (subst : List (MaskProperties F × Poly F .coefficients))
    (gValues : Poly F .values) (c : Constraint F) (s : GState F) :
    Run.Below (gConstraintWord H .debug fuel inst w subst gValues c s) (gConstraintWord H .release fuel inst w subst gValues c s)
      (gConstraint H inst w subst gValues c s) := by
  unfold gConstraintWord gConstraint
  refine Run.Below.bind (Run.Below.refl _) fun _ => Run.Below.bind (Run.Below.refl _) fun a => Run.Below.bind (Run.Below.refl _) fun b =>
    Run.Below.bind (Run.Below.refl _) fun adj => Run.Below.bind (Run.Below.each (fun t s => ?_) _ _) fun x =>
    Run.Below.bind (Run.Below.refl _) fun _ => Run.Below.bind (Run.Below.refl _) fun _ => Run.Below.refl _
  exact Run.Below.bind (below_constraintTerm fuel t subst s.2 _ w) fun x => Run.Below.bind (Run.Below.refl _) fun _ => Run.Below.refl _

theorem below_gBatch (fuel : ℕ) (inst : AliInstance F) (w : Worker) (subst : List (MaskProperties F × Poly F .coefficients))
    (b : ConstraintDensity × List (Constraint F)) (s : GState F) :
    Run.Below (gBatchWord H .debug fuel inst w subst b s) (gBatchWord H .release fuel inst w subst b s) (gBatch H inst w subst b s) := by
  unfold gBatchWord gBatch
  exact Run.Below.bind (Run.Below.each (below_gConstraint H fuel inst w subst s.batch) _ _) fun r => Run.Below.bind (Run.Below.refl _) fun _ =>
    Run.Below.bind (Run.Below.refl _) fun _ => Run.Below.bind (Run.Below.refl _) fun _ => Run.Below.refl _

theorem below_gBoundary (fuel : ℕ) (inst : AliInstance F) (w : Worker) (witness : List (Poly F .coefficients))
    (b : BoundaryConstraint F) (s : GState F) :
    Run.Below (gBoundaryWord H .debug fuel inst w witness b s) (gBoundaryWord H .release fuel inst w witness b s) (gBoundary H inst w witness b s) := by
  unfold gBoundaryWord gBoundary
  refine Run.Below.bind (Run.Below.refl _) fun x => Run.Below.bind (Run.Below.refl _) fun y => ?_
  exact Run.Below.subBind fun _ => Run.Below.bind (Run.Below.refl _) fun adj => Run.Below.bind (Run.Below.refl _) fun r =>
    Run.Below.bind (Run.Below.refl _) fun q => Run.Below.bind (Run.Below.refl _) fun value => Run.Below.bind (Run.Below.refl _) fun c0 =>
    Run.Below.bind (Run.Below.refl _) fun c => Run.Below.bind (below_cosetLde fuel w _ _) fun v => Run.Below.bind (Run.Below.refl _) fun v =>
    Run.Below.bind (Run.Below.refl _) fun ds => Run.Below.bind (Run.Below.refl _) fun v => Run.Below.bind (Run.Below.refl _) fun g => Run.Below.refl _

theorem below_calculateG (fuel : ℕ) (inst : AliInstance F) (t : Transcript) (witness : List (Poly F .coefficients)) (w : Worker) :
    Run.Below (inst.calculateGWord H .debug fuel t witness w) (inst.calculateGWord H .release fuel t witness w) (inst.calculateG H t witness w) := by
  unfold AliInstance.calculateGWord AliInstance.calculateG
  exact Run.Below.bind (Run.Below.refl _) fun _ => Run.Below.bind (Run.Below.refl _) fun g => Run.Below.bind (Run.Below.refl _) fun subst =>
    Run.Below.bind (Run.Below.each (below_gBatch H fuel inst w subst) _ _) fun s =>
    Run.Below.bind (Run.Below.each (below_gBoundary H fuel inst w witness) _ _) fun s => Run.Below.bind (Run.Below.refl _) fun q => Run.Below.refl _

theorem prove_eq_finish (q : Prover F) (witness : List (List F)) : q.prove H witness = (do
    let t ← Transcript.new F
    let witnessPolys ← calculateWitnessPolys q.arp witness q.worker
    let fLdes ← mapRes (fun f => f.lde q.worker q.ldeFactor) witnessPolys
    let fOracles ← mapRes (fun l => IopTree.create H q.worker l.coeffs) fLdes
    let fIopRoots ← mapRes (fun o => o.getRoot) fOracles
    let x ← q.ali.calculateG H (fIopRoots.foldl (fun t r => t.commitBytes r.bytes) t) witnessPolys q.worker
    let gLde ← x.1.lde q.worker q.ldeFactor
    q.finish H witnessPolys fLdes fOracles fIopRoots x.1 gLde x.2) := rfl

theorem below_prove (fuel : ℕ) (q : Prover F) (witness : List (List F)) :
    Run.Below (q.proveWord H .debug fuel witness) (q.proveWord H .release fuel witness) (q.prove H witness) := by
  rw [prove_eq_finish]
  unfold Prover.proveWord
  exact Run.Below.bind (Run.Below.refl _) fun t => Run.Below.bind (Run.Below.refl _) fun wp =>
    Run.Below.bind (Run.Below.collect (fun f => below_lde fuel q.worker f q.ldeFactor) _) fun fl => Run.Below.bind (Run.Below.refl _) fun fo =>
    Run.Below.bind (Run.Below.refl _) fun fr => Run.Below.bind (below_calculateG H fuel q.ali _ wp q.worker) fun x =>
    Run.Below.bind (below_lde fuel q.worker x.1 q.ldeFactor) fun gl => Run.Below.refl _

/-- **C92** (what a debug build of the prover returns, every build returns). If a build with overflow checks ends the setup of a prover or a proof without a panic — after any number of
loop iterations, for any instance, parameters, prover and witness —, then its outcome, a value or an error, is that of the model with unbounded numbers, and a build without overflow
checks ends with the same outcome. -/
theorem C92_debug_outcome (fuel : ℕ) :
    (∀ (w : Worker) (inst : InstanceProperties F) (factor out : ℕ) (r : Res (Prover F)), Prover.newWord .debug fuel w inst factor out = .done r → r ≠ .panic →
      Prover.new w inst factor out = r ∧ Prover.newWord .release fuel w inst factor out = .done r) ∧
    (∀ (q : Prover F) (witness : List (List F)) (r : Res (InstanceProof F)), q.proveWord H .debug fuel witness = .done r → r ≠ .panic →
      q.prove H witness = r ∧ q.proveWord H .release fuel witness = .done r) := by
  refine ⟨fun w inst factor out r h hr => ?_, fun q witness r h hr => ?_⟩
  · rcases below_proverNew fuel w inst factor out with e | e | ⟨e1, e2⟩
    · rw [e] at h; cases h
    · rw [e] at h; cases h; exact absurd rfl hr
    · rw [e1] at h; cases h; exact ⟨rfl, e2⟩
  · rcases below_prove H fuel q witness with e | e | ⟨e1, e2⟩
    · rw [e] at h; cases h
    · rw [e] at h; cases h; exact absurd rfl hr
    · rw [e1] at h; cases h; exact ⟨rfl, e2⟩

/-! ## A debug build always ends -/

omit [DecidableEq F] in
theorem newForSizeWord_debug_const {fuel : ℕ} (hf : 63 ≤ fuel) (size : ℕ) : (newForSizeWord .debug fuel size : Run (Domain F)) = newForSizeWord .debug 63 size := by
  by_cases h : size ≤ 2 ^ 63
  · rw [newForSizeWord_small .debug h hf, newForSizeWord_small .debug h le_rfl]
  · rw [newForSizeWord_debug (by omega), newForSizeWord_debug (by omega)]

theorem proverNew_debug_const {fuel : ℕ} (hf : 63 ≤ fuel) (w : Worker) (inst : InstanceProperties F) (factor out : ℕ) :
    Prover.newWord .debug fuel w inst factor out = Prover.newWord .debug 63 w inst factor out := by
  simp only [Prover.newWord, fromInstanceWord, AliInstance.fromArpWord, newForSizeWord_debug_const hf]

theorem lde_debug_const {fuel : ℕ} (hf : 63 ≤ fuel) (w : Worker) (q : Poly F .coefficients) (factor : ℕ) :
    q.ldeWord .debug fuel w factor = q.ldeWord .debug 63 w factor ∧ q.cosetLdeWord .debug fuel w factor = q.cosetLdeWord .debug 63 w factor := by
  simp only [Poly.ldeWord, Poly.cosetLdeWord, Poly.multiCosetLdeWord, newForSizeWord_debug_const hf, and_self]

theorem prove_debug_const {fuel : ℕ} (hf : 63 ≤ fuel) (q : Prover F) (witness : List (List F)) :
    q.proveWord H .debug fuel witness = q.proveWord H .debug 63 witness := by
  have e1 : ∀ (t : UnivariateTerm F) subst (cache : TermCache F) hint w,
      evaluateUnivariateTermWord .debug fuel t subst cache hint w = evaluateUnivariateTermWord .debug 63 t subst cache hint w := by
    intros
    simp only [evaluateUnivariateTermWord, evaluateFreshWord, (lde_debug_const hf _ _ _).2]
  have e2 : ∀ (t : ConstraintTerm F) subst (cache : TermCache F) hint w,
      evaluateConstraintTermWord .debug fuel t subst cache hint w = evaluateConstraintTermWord .debug 63 t subst cache hint w := by
    intros
    simp only [evaluateConstraintTermWord, e1]
  have e3 : ∀ (inst : AliInstance F) w subst g c s, gConstraintWord H .debug fuel inst w subst g c s = gConstraintWord H .debug 63 inst w subst g c s := by
    intros
    simp only [gConstraintWord, e2]
  have e4 : ∀ (inst : AliInstance F) w subst b s, gBatchWord H .debug fuel inst w subst b s = gBatchWord H .debug 63 inst w subst b s := by
    intros inst w subst b s
    unfold gBatchWord
    rw [show gConstraintWord H .debug fuel inst w subst s.batch = gConstraintWord H .debug 63 inst w subst s.batch from funext₂ fun c s' => e3 _ _ _ _ _ _]
  have e5 : ∀ (inst : AliInstance F) w wit b s, gBoundaryWord H .debug fuel inst w wit b s = gBoundaryWord H .debug 63 inst w wit b s := by
    intros
    simp only [gBoundaryWord, (lde_debug_const hf _ _ _).2]
  have e6 : ∀ (inst : AliInstance F) t wit w, inst.calculateGWord H .debug fuel t wit w = inst.calculateGWord H .debug 63 t wit w := by
    intros inst t wit w
    unfold AliInstance.calculateGWord
    simp only [show ∀ subst, gBatchWord H .debug fuel inst w subst = gBatchWord H .debug 63 inst w subst from fun subst => funext₂ fun b s => e4 _ _ _ _ _,
      show gBoundaryWord H .debug fuel inst w wit = gBoundaryWord H .debug 63 inst w wit from funext₂ fun b s => e5 _ _ _ _ _]
  unfold Prover.proveWord
  simp only [e6, (lde_debug_const hf _ _ _).1]

omit [Field F] [DecidableEq F] [StarkField F] in
theorem Run.Below.sure_ended {α : Type} {x y : Run α} {z : Res α} (h : Run.Below x y z) (hx : x ≠ .running) : ∃ r, x = .done r ∧ (r = z ∨ r = .panic) := by
  rcases h with h | h | ⟨h, -⟩
  · exact absurd h hx
  · exact ⟨_, h, .inr rfl⟩
  · exact ⟨_, h, .inl rfl⟩

/-- The run has ended. -/
def Run.Ended {α : Type} (x : Run α) : Prop := x ≠ .running

namespace Run.Ended

variable {α β σ : Type}

omit [Field F] [DecidableEq F] [StarkField F] in
theorem done (r : Res α) : Ended (.done r) := by intro h; cases h

omit [Field F] [DecidableEq F] [StarkField F] in
theorem bind {x : Run α} {f : α → Run β} (hx : Ended x) (hf : ∀ a, Ended (f a)) : Ended (x >>= f) := by
  cases x with
  | running => exact absurd rfl hx
  | done r =>
    cases r with
    | ok a => exact hf a
    | err e => exact done _
    | panic => exact done _

omit [Field F] [DecidableEq F] [StarkField F] in
theorem each {f : α → σ → Run σ} (H : ∀ a s, Ended (f a s)) (l : List α) : ∀ s, Ended (Run.each l s f) := by
  induction l with
  | nil => intro s; exact done _
  | cons a l ih => intro s; exact bind (H a s) ih

omit [Field F] [DecidableEq F] [StarkField F] in
theorem collect {f : α → Run β} (H : ∀ a, Ended (f a)) (l : List α) : Ended (Run.collect f l) := by
  induction l with
  | nil => exact done _
  | cons a l ih => exact bind (H a) fun y => bind ih fun ys => done _

omit [DecidableEq F] in
theorem domain (size : ℕ) : Ended (newForSizeWord .debug 63 size : Run (Domain F)) := by
  by_cases h : size ≤ 2 ^ 63
  · rw [newForSizeWord_small .debug h le_rfl]; exact done _
  · rw [newForSizeWord_debug (by omega)]; exact done _

theorem cosetLde (w : Worker) (q : Poly F .coefficients) (factor : ℕ) : Ended (q.cosetLdeWord .debug 63 w factor) := by
  unfold Poly.cosetLdeWord
  split
  · exact done _
  · exact bind (done _) fun _ => bind (done _) fun _ => bind (domain _) fun _ => done _

theorem lde (w : Worker) (q : Poly F .coefficients) (factor : ℕ) : Ended (q.ldeWord .debug 63 w factor) := by
  unfold Poly.ldeWord
  split
  · exact done _
  · exact bind (done _) fun _ => bind (done _) fun _ => bind (domain _) fun _ => done _

theorem proverNew (w : Worker) (inst : InstanceProperties F) (factor out : ℕ) : Ended (Prover.newWord .debug 63 w inst factor out) := by
  unfold Prover.newWord
  refine bind ?_ fun arp => bind ?_ fun ali => done _
  · unfold fromInstanceWord
    exact bind (done _) fun _ => bind (domain _) fun _ => bind (done _) fun _ => done _
  · unfold AliInstance.fromArpWord
    exact bind (domain _) fun _ => bind (done _) fun _ => bind (domain _) fun _ => bind (done _) fun _ => bind (done _) fun _ => bind (done _) fun _ => done _

theorem univariateTerm (t : UnivariateTerm F) (subst : List (MaskProperties F × Poly F .coefficients)) (cache : TermCache F) (hint : ℕ) (w : Worker) :
    Ended (evaluateUnivariateTermWord .debug 63 t subst cache hint w) := by
  unfold evaluateUnivariateTermWord
  refine bind (done _) fun _ => bind (done _) fun base => bind (done _) fun total => ?_
  dsimp only
  split
  · exact done _
  · unfold evaluateFreshWord
    exact bind (done _) fun _ => bind (cosetLde _ _ _) fun _ => done _

theorem gConstraint (inst : AliInstance F) (w : Worker) (subst : List (MaskProperties F × Poly F .coefficients)) (g : Poly F .values) (c : Constraint F) (s : GState F) :
    Ended (gConstraintWord H .debug 63 inst w subst g c s) := by
  unfold gConstraintWord
  refine bind (done _) fun _ => bind (done _) fun _ => bind (done _) fun _ => bind (done _) fun _ => bind (each (fun t s => bind ?_ fun _ => bind (done _) fun _ => done _) _ _) fun _ =>
    bind (done _) fun _ => bind (done _) fun _ => done _
  unfold evaluateConstraintTermWord
  refine bind (done _) fun _ => ?_
  cases t with
  | univariate t => exact univariateTerm _ _ _ _ _
  | polyvariate q => exact bind (each (fun t s => bind (univariateTerm _ _ _ _ _) fun _ => bind (done _) fun _ => done _) _ _) fun _ => bind (done _) fun _ => done _

theorem gBoundary (inst : AliInstance F) (w : Worker) (witness : List (Poly F .coefficients)) (b : BoundaryConstraint F) (s : GState F) :
    Ended (gBoundaryWord H .debug 63 inst w witness b s) := by
  unfold gBoundaryWord
  exact bind (done _) fun _ => bind (done _) fun _ => bind (done _) fun _ => bind (done _) fun _ => bind (done _) fun _ => bind (done _) fun _ => bind (done _) fun _ =>
    bind (done _) fun _ => bind (done _) fun _ => bind (cosetLde _ _ _) fun _ => bind (done _) fun _ => bind (done _) fun _ => bind (done _) fun _ => bind (done _) fun _ => done _

theorem prove (q : Prover F) (witness : List (List F)) : Ended (q.proveWord H .debug 63 witness) := by
  unfold Prover.proveWord
  refine bind (done _) fun _ => bind (done _) fun _ => bind (collect (fun f => lde _ _ _) _) fun _ => bind (done _) fun _ => bind (done _) fun _ => bind ?_ fun _ => bind (lde _ _ _) fun _ => done _
  unfold AliInstance.calculateGWord
  refine bind (done _) fun _ => bind (done _) fun _ => bind (done _) fun subst => bind (each (fun b s => ?_) _ _) fun _ => bind (each (fun b s => gBoundary H _ _ _ _ _) _ _) fun _ =>
    bind (done _) fun _ => done _
  unfold gBatchWord
  exact bind (each (fun c s => gConstraint H _ _ _ _ _ _) _ _) fun _ => bind (done _) fun _ => bind (done _) fun _ => bind (done _) fun _ => done _

end Run.Ended

/-- **C92** (a debug build always ends). For every instance, parameters, prover and witness, a build with overflow checks ends the setup of a prover and a proof after finitely many loop
iterations, with the outcome of the model or with a panic. -/
theorem C92_debug_ends :
    (∀ (w : Worker) (inst : InstanceProperties F) (factor out : ℕ), ∃ r, Returns (fun fuel => Prover.newWord .debug fuel w inst factor out) r ∧
      (r = Prover.new w inst factor out ∨ r = .panic)) ∧
    (∀ (q : Prover F) (witness : List (List F)), ∃ r, Returns (fun fuel => q.proveWord H .debug fuel witness) r ∧ (r = q.prove H witness ∨ r = .panic)) := by
  refine ⟨fun w inst factor out => ?_, fun q witness => ?_⟩
  · obtain ⟨r, h1, h2⟩ := (below_proverNew 63 w inst factor out).sure_ended (Run.Ended.proverNew w inst factor out)
    exact ⟨r, ⟨63, fun fuel hf => by show Prover.newWord .debug fuel w inst factor out = _; rw [proverNew_debug_const hf, h1]⟩, h2⟩
  · obtain ⟨r, h1, h2⟩ := (below_prove H 63 q witness).sure_ended (Run.Ended.prove H q witness)
    exact ⟨r, ⟨63, fun fuel hf => by show q.proveWord H .debug fuel witness = _; rw [prove_debug_const H hf, h1]⟩, h2⟩

/-! ## When the model does not panic -/

/-- Unless the model panics, the run has ended with the outcome of the model. -/
def Run.Sure {α : Type} (x : Run α) (z : Res α) : Prop := z ≠ .panic → x = .done z

namespace Run.Sure

variable {α β σ : Type}

omit [Field F] [DecidableEq F] [StarkField F] in
theorem refl (r : Res α) : Sure (.done r) r := fun _ => rfl

omit [Field F] [DecidableEq F] [StarkField F] in
theorem bind {x : Run α} {z : Res α} {f : α → Run β} {h : α → Res β} (hx : Sure x z) (hf : ∀ a, z = .ok a → Sure (f a) (h a)) :
    Sure (x >>= f) (z >>= h) := by
  intro hb
  cases z with
  | ok a => rw [hx (by intro h; cases h)]; exact hf a rfl hb
  | err e => rw [hx (by intro h; cases h)]; rfl
  | panic => exact absurd rfl hb

omit [Field F] [DecidableEq F] [StarkField F] in
theorem doneBind {x z : Res α} {f h : α → Res β} (hx : Sure (.done x) z) (hf : ∀ a, z = .ok a → Sure (.done (f a)) (h a)) :
    Sure (.done (x >>= f)) (z >>= h) := by
  intro hb
  cases z with
  | ok a =>
    have : x = .ok a := Run.done.inj (hx (by intro h; cases h))
    rw [this]; exact hf a rfl hb
  | err e =>
    have : x = .err e := Run.done.inj (hx (by intro h; cases h))
    rw [this]; rfl
  | panic => exact absurd rfl hb

omit [Field F] [DecidableEq F] [StarkField F] in
theorem doneEach {f h : α → σ → Res σ} (H : ∀ a s, Sure (.done (f a s)) (h a s)) (l : List α) :
    ∀ s, Sure (.done (forEach l s f)) (forEach l s h) := by
  induction l with
  | nil => intro s; exact refl _
  | cons a l ih => intro s; exact doneBind (H a s) fun s' _ => ih s'

omit [Field F] [DecidableEq F] [StarkField F] in
theorem each {f : α → σ → Run σ} {h : α → σ → Res σ} (H : ∀ a s, Sure (f a s) (h a s)) (l : List α) :
    ∀ s, Sure (Run.each l s f) (forEach l s h) := by
  induction l with
  | nil => intro s; exact refl _
  | cons a l ih => intro s; exact bind (H a s) fun s' _ => ih s'

omit [Field F] [DecidableEq F] [StarkField F] in
theorem collect {f : α → Run β} {h : α → Res β} (l : List α) (H : ∀ a ∈ l, Sure (f a) (h a)) : Sure (Run.collect f l) (mapRes h l) := by
  induction l with
  | nil => exact refl _
  | cons a l ih => exact bind (H a (.head _)) fun y _ => bind (ih fun b hb => H b (.tail _ hb)) fun ys _ => refl _

omit [DecidableEq F] in
theorem domain (p : Profile) {fuel : ℕ} (hf : 63 ≤ fuel) {size : ℕ} (h : size ≤ 2 ^ 63) : Sure (newForSizeWord p fuel size) (Domain.newForSize F size) := by
  intro _
  rw [newForSizeWord_small p h hf]

end Run.Sure

omit [DecidableEq F] in
theorem Run.Sure.mulDomain (p : Profile) {fuel : ℕ} (hf : 63 ≤ fuel) {a b : ℕ} {β : Type} {f : ℕ → Domain F → Run β} {h : Domain F → Res β}
    (hab : a * b ≤ 2 ^ 63) (H : ∀ d, Run.Sure (f (a * b) d) (h d)) :
    Run.Sure (Run.done (mulWord p a b) >>= fun s => newForSizeWord p fuel s >>= f s) (Domain.newForSize F (a * b) >>= h) := by
  rw [mulWord_small p hab]
  exact Run.Sure.bind (Run.Sure.domain p hf hab) fun d _ => H d

omit [Field F] [DecidableEq F] [StarkField F] in
theorem nextPow2Word_small (p : Profile) {n : ℕ} (h : n ≤ 2 ^ 63) : nextPow2Word p n = .ok (nextPow2 n) := by
  unfold nextPow2Word; rw [if_pos h]

theorem sure_fromInstance (p : Profile) {fuel : ℕ} (hf : 63 ≤ fuel) (inst : InstanceProperties F) (h : nextPow2 inst.numRows ≤ 2 ^ 63) :
    Run.Sure (fromInstanceWord p fuel inst) (fromInstance inst) := by
  unfold fromInstanceWord fromInstance
  rw [nextPow2Word_small p (le_trans (Nat.le_pow_clog (by norm_num) _) h)]
  exact Run.Sure.bind (Run.Sure.domain p hf h) fun d _ => Run.Sure.bind (Run.Sure.refl _) fun cs _ => Run.Sure.refl _

omit [Field F] [DecidableEq F] [StarkField F] in
theorem subWord_small (p : Profile) {a b : ℕ} (h : b ≤ a) : subWord p a b = .ok (a - b) := by
  unfold subWord; rw [if_pos h]

omit [Field F] [DecidableEq F] [StarkField F] in
theorem divisorDegreeWord_fits (p : Profile) (size n : ℕ) (c : DenseConstraint) : Run.Sure (.done (divisorDegreeWord p size n c)) (divisorDegree size n c) := by
  unfold divisorDegree divisorDegreeWord
  by_cases h1 : c.startAt ≤ size
  swap
  · rw [decide_eq_false h1]; exact fun h => absurd rfl h
  by_cases h2 : n ≤ size
  swap
  · rw [decide_eq_false h2, decide_eq_true h1]; exact fun h => absurd rfl h
  rw [decide_eq_true h1, decide_eq_true h2, subWord_small p h1, subWord_small p h2]
  by_cases h3 : size - n ≤ size - c.startAt
  swap
  · rw [decide_eq_false h3]; exact fun h => absurd rfl h
  simp only [Res.ok_bind]
  rw [decide_eq_true h3, subWord_small p h3]
  by_cases h4 : c.span ≤ size - c.startAt - (size - n)
  swap
  · rw [decide_eq_false h4]; exact fun h => absurd rfl h
  simp only [Res.ok_bind]
  rw [decide_eq_true h4, subWord_small p h4]
  exact Run.Sure.refl _

omit [DecidableEq F] [StarkField F] in
theorem excludedRootsWord_fits (p : Profile) (d : Domain F) (c : DenseConstraint) (n : ℕ) : Run.Sure (.done (excludedRootsWord p d c n)) (excludedRoots d c n) := by
  unfold excludedRoots excludedRootsWord
  by_cases h1 : c.span ≤ n
  · rw [decide_eq_true h1, subWord_small p h1]; exact Run.Sure.refl _
  · rw [decide_eq_false h1]; exact fun h => absurd rfl h

theorem densityDivisorWord_fits (p : Profile) (d e : Domain F) (n : ℕ) (w : Worker) (b : ConstraintDensity) :
    Run.Sure (.done (densityDivisorWord p d e n w b)) (densityDivisor d e n w b) := by
  cases b with
  | dense c =>
    simp only [densityDivisor, densityDivisorWord, inverseDivisorInCoset, inverseDivisorInCosetWord]
    exact Run.Sure.doneBind (divisorDegreeWord_fits p _ _ _) fun _ _ => Run.Sure.doneBind (excludedRootsWord_fits p _ _ _) fun _ _ => Run.Sure.refl _
  | repeated c => exact Run.Sure.refl _
  | sparse c => exact Run.Sure.refl _

theorem sure_fromArp (p : Profile) {fuel : ℕ} (hf : 63 ≤ fuel) (arp : InstanceProperties F) (w : Worker) (h1 : arp.numRows ≤ 2 ^ 63)
    (h2 : nextPow2 arp.numRows * maxDegree arp.constraints ≤ 2 ^ 63) :
    Run.Sure (AliInstance.fromArpWord p fuel arp w) (AliInstance.fromArp arp w) := by
  unfold AliInstance.fromArpWord AliInstance.fromArp
  refine Run.Sure.bind (Run.Sure.domain p hf h1) fun d hd => ?_
  refine Run.Sure.mulDomain p hf (by rw [domain_size hd]; exact h2) fun e => ?_
  refine Run.Sure.bind (Run.Sure.refl _) fun pre _ => ?_
  refine Run.Sure.bind ?_ fun divs _ => ?_
  · exact Run.Sure.doneEach (fun b m => Run.Sure.doneBind (densityDivisorWord_fits p _ _ _ _ _) fun _ _ => Run.Sure.refl _) _ _
  · exact Run.Sure.bind (Run.Sure.refl _) fun bd _ => Run.Sure.refl _

/-- What the setup of a prover says about the sizes. -/
theorem proverNew_sizes {w : Worker} {inst : InstanceProperties F} {factor out : ℕ} {q : Prover F} (h : Prover.new w inst factor out = .ok q) :
    fromInstance inst = .ok q.arp ∧ AliInstance.fromArp q.arp w = .ok q.ali ∧ q.arp.numRows = inst.numRows ∧ q.ldeFactor = factor ∧
      nextPow2 q.arp.numRows = q.ali.columnDomain.size ∧ q.ali.maxConstraintPower = maxDegree q.arp.constraints ∧
      q.ali.constraintsDomain.size = nextPow2 (q.ali.columnDomain.size * q.ali.maxConstraintPower) := by
  unfold Prover.new at h
  obtain ⟨arp, h1, h⟩ := Res.bind_eq_ok.1 h
  obtain ⟨ali, h2, h⟩ := Res.bind_eq_ok.1 h
  cases h
  have hrows : arp.numRows = inst.numRows := by
    unfold fromInstance at h1
    obtain ⟨d, -, h1⟩ := Res.bind_eq_ok.1 h1
    obtain ⟨cs, -, h1⟩ := Res.bind_eq_ok.1 h1
    cases h1; rfl
  refine ⟨h1, h2, hrows, rfl, ?_⟩
  unfold AliInstance.fromArp at h2
  obtain ⟨d, hd, h2⟩ := Res.bind_eq_ok.1 h2
  obtain ⟨e, he, h2⟩ := Res.bind_eq_ok.1 h2
  obtain ⟨_, -, h2⟩ := Res.bind_eq_ok.1 h2
  obtain ⟨_, -, h2⟩ := Res.bind_eq_ok.1 h2
  obtain ⟨_, -, h2⟩ := Res.bind_eq_ok.1 h2
  cases h2
  exact ⟨(domain_size hd).symm, rfl, domain_size he⟩

theorem sure_proverNew (p : Profile) {fuel : ℕ} (hf : 63 ≤ fuel) (w : Worker) (inst : InstanceProperties F) (factor out D : ℕ) (h1 : nextPow2 inst.numRows ≤ 2 ^ 63)
    (hD : ∀ c ∈ inst.constraints, c.degree ≤ D) (h2 : nextPow2 inst.numRows * D ≤ 2 ^ 63) :
    Run.Sure (Prover.newWord p fuel w inst factor out) (Prover.new w inst factor out) := by
  have hle : ∀ n, n ≤ nextPow2 n := fun n => Nat.le_pow_clog (by norm_num) _
  unfold Prover.newWord Prover.new
  refine Run.Sure.bind (sure_fromInstance p hf inst h1) fun arp ha => ?_
  unfold fromInstance at ha
  obtain ⟨d, -, ha⟩ := Res.bind_eq_ok.1 ha
  obtain ⟨cs, hcs, ha⟩ := Res.bind_eq_ok.1 ha
  cases ha
  refine Run.Sure.bind (sure_fromArp p hf _ w ((hle _).trans h1) (le_trans (Nat.mul_le_mul_left _ (maxDegree_le ?_)) h2)) fun ali _ => Run.Sure.refl _
  rw [(maskConstraints_costs hcs).2.2.2.1]
  intro x hx
  obtain ⟨c', hc', rfl⟩ := List.mem_map.1 hx
  exact hD c' hc'

theorem sure_multiCosetLde (p : Profile) {fuel : ℕ} (hf : 63 ≤ fuel) (w : Worker) (q : Poly F .coefficients) (factor : ℕ) (shift : F) (h : q.size * factor ≤ 2 ^ 63) :
    Run.Sure (q.multiCosetLdeWord p fuel w factor shift) (Poly.multiCosetLde w q factor shift) := by
  unfold Poly.multiCosetLdeWord Poly.multiCosetLde
  exact Run.Sure.bind (Run.Sure.refl _) fun _ _ => Run.Sure.mulDomain p hf h fun d => Run.Sure.refl _

theorem sure_lde (p : Profile) {fuel : ℕ} (hf : 63 ≤ fuel) (w : Worker) (q : Poly F .coefficients) (factor : ℕ) (h : q.size * factor ≤ 2 ^ 63) :
    Run.Sure (q.ldeWord p fuel w factor) (q.lde w factor) := by
  unfold Poly.ldeWord Poly.lde Poly.ldeUsingMultipleCosets
  split
  · exact Run.Sure.refl _
  · exact sure_multiCosetLde p hf w q factor 1 h

theorem sure_cosetLde (p : Profile) {fuel : ℕ} (hf : 63 ≤ fuel) (w : Worker) (q : Poly F .coefficients) (factor : ℕ) (h : q.size * factor ≤ 2 ^ 63) :
    Run.Sure (q.cosetLdeWord p fuel w factor) (q.cosetLde w factor) := by
  unfold Poly.cosetLdeWord Poly.cosetLde Poly.cosetLdeUsingMultipleCosets
  split
  · exact Run.Sure.refl _
  · exact sure_multiCosetLde p hf w q factor _ h

variable {subst : List (MaskProperties F × Poly F .coefficients)} {hint : ℕ}

theorem sure_univariateTerm (p : Profile) {fuel : ℕ} (hf : 63 ≤ fuel) (t : UnivariateTerm F)
    (hsub : ∀ m q, assocGet subst m = some q → hint * q.size ≤ 2 ^ 63) (cache : TermCache F) (w : Worker) :
    Run.Sure (evaluateUnivariateTermWord p fuel t subst cache hint w) (evaluateUnivariateTerm t subst cache hint w) := by
  unfold evaluateUnivariateTermWord evaluateUnivariateTerm
  refine Run.Sure.bind (Run.Sure.refl _) fun _ _ => Run.Sure.bind (Run.Sure.refl _) fun base hb => ?_
  have hb : assocGet subst t.maskProperties = some base := by
    cases e : assocGet subst t.maskProperties with
    | none => rw [e] at hb; cases hb
    | some q => rw [e] at hb; cases hb; rfl
  rw [mulWord_small p (hsub _ _ hb)]
  show Run.Sure (Run.bind (.done (.ok (hint * base.size))) _) _
  simp only [Run.bind]
  cases assocGet cache { mask := t.maskProperties, power := t.power, totalLdeLength := hint * base.size } with
  | some e => exact Run.Sure.refl _
  | none =>
    unfold evaluateFreshWord evaluateFresh
    exact Run.Sure.bind (Run.Sure.refl _) fun _ _ => Run.Sure.bind (sure_cosetLde p hf w base hint (by rw [Nat.mul_comm]; exact hsub _ _ hb)) fun v _ => Run.Sure.refl _

theorem sure_constraintTerm (p : Profile) {fuel : ℕ} (hf : 63 ≤ fuel) (t : ConstraintTerm F)
    (hsub : ∀ m q, assocGet subst m = some q → hint * q.size ≤ 2 ^ 63) (cache : TermCache F) (w : Worker) :
    Run.Sure (evaluateConstraintTermWord p fuel t subst cache hint w) (evaluateConstraintTerm t subst cache hint w) := by
  unfold evaluateConstraintTermWord evaluateConstraintTerm
  refine Run.Sure.bind (Run.Sure.refl _) fun _ _ => ?_
  cases t with
  | univariate t => exact sure_univariateTerm p hf t hsub cache w
  | polyvariate q =>
    refine Run.Sure.bind (Run.Sure.each (fun t s => ?_) _ _) fun x _ => Run.Sure.bind (Run.Sure.refl _) fun v _ => Run.Sure.refl _
    exact Run.Sure.bind (sure_univariateTerm p hf t hsub s.2 w) fun x _ => Run.Sure.bind (Run.Sure.refl _) fun _ _ => Run.Sure.refl _

theorem sure_gConstraint (p : Profile) {fuel : ℕ} (hf : 63 ≤ fuel) (inst : AliInstance F) (w : Worker)
    (hsub : ∀ m q, assocGet subst m = some q → inst.maxConstraintPower * q.size ≤ 2 ^ 63) (gValues : Poly F .values) (c : Constraint F) (s : GState F) :
    Run.Sure (gConstraintWord H p fuel inst w subst gValues c s) (gConstraint H inst w subst gValues c s) := by
  unfold gConstraintWord gConstraint
  refine Run.Sure.bind (Run.Sure.refl _) fun _ _ => Run.Sure.bind (Run.Sure.refl _) fun a _ => Run.Sure.bind (Run.Sure.refl _) fun b _ =>
    Run.Sure.bind (Run.Sure.refl _) fun adj _ => Run.Sure.bind (Run.Sure.each (fun t s => ?_) _ _) fun x _ =>
    Run.Sure.bind (Run.Sure.refl _) fun _ _ => Run.Sure.bind (Run.Sure.refl _) fun _ _ => Run.Sure.refl _
  exact Run.Sure.bind (sure_constraintTerm p hf t hsub s.2 w) fun x _ => Run.Sure.bind (Run.Sure.refl _) fun _ _ => Run.Sure.refl _

theorem sure_gBatch (p : Profile) {fuel : ℕ} (hf : 63 ≤ fuel) (inst : AliInstance F) (w : Worker)
    (hsub : ∀ m q, assocGet subst m = some q → inst.maxConstraintPower * q.size ≤ 2 ^ 63) (b : ConstraintDensity × List (Constraint F)) (s : GState F) :
    Run.Sure (gBatchWord H p fuel inst w subst b s) (gBatch H inst w subst b s) := by
  unfold gBatchWord gBatch
  exact Run.Sure.bind (Run.Sure.each (sure_gConstraint H p hf inst w hsub s.batch) _ _) fun r _ => Run.Sure.bind (Run.Sure.refl _) fun _ _ =>
    Run.Sure.bind (Run.Sure.refl _) fun _ _ => Run.Sure.bind (Run.Sure.refl _) fun _ _ => Run.Sure.refl _

omit [Field F] [DecidableEq F] [StarkField F] in
theorem Run.Sure.subBind {β : Type} (p : Profile) {a b : ℕ} {f : ℕ → Run β} {h : Res β} (hf : b ≤ a → Run.Sure (f (a - b)) h) :
    Run.Sure (Run.done (subWord p a b) >>= f) (Res.assert (decide (b ≤ a)) >>= fun _ => h) := by
  by_cases h1 : b ≤ a
  · rw [subWord_small p h1, decide_eq_true h1]; exact hf h1
  · rw [decide_eq_false h1]; exact fun h => absurd rfl h

omit [Field F] [DecidableEq F] [StarkField F] in
theorem rd_some_of_ok {α : Type} {l : List α} {i : ℕ} {v : α} (h : rd l i = .ok v) : l[i]? = some v := by
  unfold rd at h
  cases e : l[i]? with
  | none => rw [e] at h; cases h
  | some x => rw [e] at h; cases h; rfl

theorem sure_gBoundary (p : Profile) {fuel : ℕ} (hf : 63 ≤ fuel) (inst : AliInstance F) (w : Worker) (witness : List (Poly F .coefficients))
    (hw : ∀ q ∈ witness, q.size * inst.maxConstraintPower ≤ 2 ^ 63) (b : BoundaryConstraint F) (s : GState F) :
    Run.Sure (gBoundaryWord H p fuel inst w witness b s) (gBoundary H inst w witness b s) := by
  unfold gBoundaryWord gBoundary
  refine Run.Sure.bind (Run.Sure.refl _) fun x _ => Run.Sure.bind (Run.Sure.refl _) fun y _ => ?_
  exact Run.Sure.subBind p fun _ => Run.Sure.bind (Run.Sure.refl _) fun adj _ => Run.Sure.bind (Run.Sure.refl _) fun r _ =>
    Run.Sure.bind (Run.Sure.refl _) fun q hq => Run.Sure.bind (Run.Sure.refl _) fun value _ => Run.Sure.bind (Run.Sure.refl _) fun c0 _ =>
    Run.Sure.bind (Run.Sure.refl _) fun c hc => Run.Sure.bind (sure_cosetLde p hf w _ _ (by show c.length * _ ≤ _; rw [wr_length hc]; exact hw q (List.mem_of_getElem? (rd_some_of_ok hq)))) fun v _ => Run.Sure.bind (Run.Sure.refl _) fun v _ =>
    Run.Sure.bind (Run.Sure.refl _) fun ds _ => Run.Sure.bind (Run.Sure.refl _) fun v _ => Run.Sure.bind (Run.Sure.refl _) fun g _ => Run.Sure.refl _

theorem masked_size {masks : List (MaskProperties F)} {witness : List (Poly F .coefficients)} {w : Worker} {n : ℕ} (hw : ∀ q ∈ witness, q.size = n)
    (h : maskedPolynomials masks witness w = .ok subst) : ∀ m q, assocGet subst m = some q → q.size = n := by
  unfold maskedPolynomials at h
  refine forEach_ok_inv (fun s : List (MaskProperties F × Poly F .coefficients) => ∀ m q, assocGet s m = some q → q.size = n) _ _ ?_ _ _ (by simp [assocGet]) h
  intro m _ s s' hs hb m' q' hq
  obtain ⟨r, -, hb⟩ := Res.bind_eq_ok.1 hb
  obtain ⟨f, hf, hb⟩ := Res.bind_eq_ok.1 hb
  obtain ⟨g, hg, hb⟩ := Res.bind_eq_ok.1 hb
  cases hb
  rw [assocGet_insert] at hq
  split at hq
  · cases hq
    have hfw : f ∈ witness := by
      unfold rd at hf
      cases e : witness[r]? with
      | none => rw [e] at hf; cases hf
      | some f' => rw [e] at hf; cases hf; exact List.mem_of_getElem? e
    cases hm : m.stepsDifference with
    | steps j => rw [hm] at hg; cases hg
    | mask x =>
      rw [hm] at hg
      cases hg
      rw [← hw f hfw]
      exact parMulRunning_length _ _ _
  · exact hs _ _ hq

theorem sure_calculateG (p : Profile) {fuel : ℕ} (hf : 63 ≤ fuel) (inst : AliInstance F) (t : Transcript) (witness : List (Poly F .coefficients))
    (w : Worker) (hw : ∀ q ∈ witness, q.size = inst.columnDomain.size) (hsize : inst.maxConstraintPower * inst.columnDomain.size ≤ 2 ^ 63) :
    Run.Sure (inst.calculateGWord H p fuel t witness w) (inst.calculateG H t witness w) := by
  unfold AliInstance.calculateGWord AliInstance.calculateG
  refine Run.Sure.bind (Run.Sure.refl _) fun _ _ => Run.Sure.bind (Run.Sure.refl _) fun g _ => Run.Sure.bind (Run.Sure.refl _) fun subst hsub =>
    Run.Sure.bind (Run.Sure.each (sure_gBatch H p hf inst w fun m q hq => ?_) _ _) fun s _ =>
    Run.Sure.bind (Run.Sure.each (sure_gBoundary H p hf inst w witness fun q hq => by rw [hw q hq, Nat.mul_comm]; exact hsize) _ _) fun s _ => Run.Sure.bind (Run.Sure.refl _) fun q _ => Run.Sure.refl _
  rw [masked_size hw hsub m q hq]
  exact hsize

theorem sure_prove (p : Profile) {fuel : ℕ} (hf : 63 ≤ fuel) (q : Prover F) (witness : List (List F))
    (hrows : nextPow2 q.arp.numRows = q.ali.columnDomain.size) (hsize : q.ali.maxConstraintPower * q.ali.columnDomain.size ≤ 2 ^ 63)
    (hlf : q.ali.columnDomain.size * q.ldeFactor ≤ 2 ^ 63) (hlg : nextPow2 q.ali.constraintsDomain.size * q.ldeFactor ≤ 2 ^ 63) :
    Run.Sure (q.proveWord H p fuel witness) (q.prove H witness) := by
  rw [prove_eq_finish]
  unfold Prover.proveWord
  refine Run.Sure.bind (Run.Sure.refl _) fun t _ => Run.Sure.bind (Run.Sure.refl _) fun wp hwp => ?_
  have hw : ∀ f ∈ wp, f.size = q.ali.columnDomain.size := hrows ▸ witnessPolys_size hwp
  exact Run.Sure.bind (Run.Sure.collect _ fun f hf' => sure_lde p hf q.worker f q.ldeFactor (by rw [hw f hf']; exact hlf)) fun fl _ => Run.Sure.bind (Run.Sure.refl _) fun fo _ =>
    Run.Sure.bind (Run.Sure.refl _) fun fr _ => Run.Sure.bind (sure_calculateG H p hf q.ali _ wp q.worker hw hsize) fun x hx =>
    Run.Sure.bind (sure_lde p hf q.worker x.1 q.ldeFactor (by rw [calculateG_size hx]; exact hlg)) fun gl _ => Run.Sure.refl _

omit [Field F] [DecidableEq F] [StarkField F] in
theorem mapRes_mem_inv {α β : Type} {f : α → Res β} {l : List α} {ys : List β} (h : mapRes f l = .ok ys) : ∀ y ∈ ys, ∃ x ∈ l, f x = .ok y := by
  induction l generalizing ys with
  | nil => cases h; simp
  | cons a l ih =>
    obtain ⟨b, h1, h⟩ := Res.bind_eq_ok.1 h
    obtain ⟨bs, h2, h⟩ := Res.bind_eq_ok.1 h
    cases h
    intro y hy
    rcases List.mem_cons.1 hy with rfl | hy
    · exact ⟨a, .head _, h1⟩
    · obtain ⟨x, hx, e⟩ := ih h2 y hy
      exact ⟨x, .tail _ hx, e⟩

/-- The sizes which the FRI proofs of an honest run claim. -/
theorem prove_claimed {q : Prover F} {witness : List (List F)} {proof : InstanceProof F} (h : q.prove H witness = .ok proof) :
    isPow2 q.ldeFactor = true ∧ claimedSize proof.friProofH1 ≤ nextPow2 q.arp.numRows * q.ldeFactor ∧
      claimedSize proof.friProofH2 ≤ nextPow2 q.ali.constraintsDomain.size * q.ldeFactor := by
  rw [prove_eq_finish] at h
  obtain ⟨t, -, h⟩ := Res.bind_eq_ok.1 h
  obtain ⟨wp, ew, h⟩ := Res.bind_eq_ok.1 h
  obtain ⟨fl, el, h⟩ := Res.bind_eq_ok.1 h
  obtain ⟨fo, -, h⟩ := Res.bind_eq_ok.1 h
  obtain ⟨fr, -, h⟩ := Res.bind_eq_ok.1 h
  obtain ⟨g, eg, h⟩ := Res.bind_eq_ok.1 h
  obtain ⟨gl, egl, h⟩ := Res.bind_eq_ok.1 h
  unfold Prover.finish at h
  obtain ⟨_, -, h⟩ := Res.bind_eq_ok.1 h
  obtain ⟨_, -, h⟩ := Res.bind_eq_ok.1 h
  obtain ⟨deep, ed, h⟩ := Res.bind_eq_ok.1 h
  obtain ⟨p1, e1, h⟩ := Res.bind_eq_ok.1 h
  obtain ⟨p2, e2, h⟩ := Res.bind_eq_ok.1 h
  obtain ⟨_, -, h⟩ := Res.bind_eq_ok.1 h
  obtain ⟨_, -, h⟩ := Res.bind_eq_ok.1 h
  obtain ⟨_, -, h⟩ := Res.bind_eq_ok.1 h
  obtain ⟨_, -, h⟩ := Res.bind_eq_ok.1 h
  obtain ⟨q1, e3, h⟩ := Res.bind_eq_ok.1 h
  obtain ⟨q2, e4, h⟩ := Res.bind_eq_ok.1 h
  obtain ⟨_, -, h⟩ := Res.bind_eq_ok.1 h
  obtain ⟨_, -, h⟩ := Res.bind_eq_ok.1 h
  cases h
  have hclaim : ∀ {v : Poly F .values} {pr : FriPrototype F} {i : ℕ} {fp : FriProof F},
      friProofByValues H q.worker v q.ldeFactor q.friFinalDegreePlusOne = .ok pr → pr.produceProof H v i = .ok fp → claimedSize fp ≤ v.size := by
    intro v pr i fp hv hpr
    unfold FriPrototype.produceProof at hpr
    obtain ⟨_, -, hpr⟩ := Res.bind_eq_ok.1 hpr
    cases hpr
    unfold friProofByValues at hv
    obtain ⟨_, -, hv⟩ := Res.bind_eq_ok.1 hv
    obtain ⟨_, -, hv⟩ := Res.bind_eq_ok.1 hv
    obtain ⟨_, -, hv⟩ := Res.bind_eq_ok.1 hv
    obtain ⟨_, -, hv⟩ := Res.bind_eq_ok.1 hv
    obtain ⟨_, -, hv⟩ := Res.bind_eq_ok.1 hv
    obtain ⟨_, -, hv⟩ := Res.bind_eq_ok.1 hv
    obtain ⟨_, -, hv⟩ := Res.bind_eq_ok.1 hv
    obtain ⟨_, -, hv⟩ := Res.bind_eq_ok.1 hv
    obtain ⟨_, -, hv⟩ := Res.bind_eq_ok.1 hv
    obtain ⟨_, -, hv⟩ := Res.bind_eq_ok.1 hv
    obtain ⟨_, -, hv⟩ := Res.bind_eq_ok.1 hv
    obtain ⟨_, -, hv⟩ := Res.bind_eq_ok.1 hv
    obtain ⟨_, -, hv⟩ := Res.bind_eq_ok.1 hv
    cases hv
    exact Nat.div_mul_le_self _ _
  have hpow : isPow2 q.ldeFactor = true := (friProof_inv e1).2.1
  obtain ⟨⟨f0, hf0, hs1, -⟩, hs2, -⟩ := calculateDeep_size ed
  refine ⟨hpow, (hclaim e1 e3).trans ?_, (hclaim e2 e4).trans ?_⟩
  · obtain ⟨f, hf, ef⟩ := mapRes_mem_inv el f0 hf0
    have hsz := witnessPolys_size ew f hf
    rw [hs1, Poly.lde_size (by rw [hsz, nextPow2_idem]) ef, hsz]
    obtain ⟨e, he⟩ := isPow2_iff.1 hpow
    rw [he]
    show nextPow2 (2 ^ _ * 2 ^ e) ≤ _
    rw [← pow_add, nextPow2_pow, pow_add]
    rfl
  · have hg := calculateG_size eg
    rw [hs2, Poly.lde_size (by rw [hg, nextPow2_idem]) egl, hg]

/-- **C92** (when the sizes fit, setup). If the number of rows, rounded to a power of two, times the largest degree is at most `2^63`, setting up the prover with overflow checks has the outcome of the
model, and so it has without overflow checks, unless the model panics. For every field, instance, parameters and CPU count. -/
theorem C92_setup (w : Worker) (inst : InstanceProperties F) (factor out D : ℕ) (h1 : nextPow2 inst.numRows ≤ 2 ^ 63) (hD : ∀ c ∈ inst.constraints, c.degree ≤ D)
    (h2 : nextPow2 inst.numRows * D ≤ 2 ^ 63) :
    Returns (fun fuel => Prover.newWord .debug fuel w inst factor out) (Prover.new w inst factor out) ∧
    (Prover.new w inst factor out ≠ .panic → Returns (fun fuel => Prover.newWord .release fuel w inst factor out) (Prover.new w inst factor out)) := by
  refine ⟨?_, fun h => ⟨63, fun fuel hf => sure_proverNew .release hf w inst factor out D h1 hD h2 h⟩⟩
  obtain ⟨r, hr, rfl | rfl⟩ := (C92_debug_ends toyHash).1 w inst factor out
  · exact hr
  · by_cases h : Prover.new w inst factor out = .panic
    · rw [h]; exact hr
    · exact ⟨63, fun fuel hf => sure_proverNew .debug hf w inst factor out D h1 hD h2 h⟩

/-- **C92** (when the sizes fit, `prove`). If the extended domains of a prover have at most `2^63` elements, `prove` with overflow checks has the outcome of the model — the proof or the error — for
every table, and so it has without overflow checks, unless the model panics. -/
theorem C92_prove (w : Worker) (inst : InstanceProperties F) (factor out : ℕ) (q : Prover F) (h : Prover.new w inst factor out = .ok q) (hfac : 1 ≤ factor)
    (hlf : q.ali.columnDomain.size * factor ≤ 2 ^ 63) (hlg : q.ali.constraintsDomain.size * factor ≤ 2 ^ 63) (witness : List (List F)) :
    Returns (fun fuel => q.proveWord H .debug fuel witness) (q.prove H witness) ∧
    (q.prove H witness ≠ .panic → Returns (fun fuel => q.proveWord H .release fuel witness) (q.prove H witness)) := by
  obtain ⟨-, -, -, e3, e4, e5, e6⟩ := proverNew_sizes h
  have h2 := (Nat.le_mul_of_pos_right _ hfac).trans hlg
  have key : ∀ p fuel, 63 ≤ fuel → Run.Sure (q.proveWord H p fuel witness) (q.prove H witness) := by
    intro p fuel hf
    refine sure_prove H p hf q witness e4 ?_ (by rw [e3]; exact hlf) (by rw [e3, e6, nextPow2_idem, ← e6]; exact hlg)
    rw [Nat.mul_comm]
    rw [e6] at h2
    exact le_trans (Nat.le_pow_clog (b := 2) (by norm_num) _) h2
  refine ⟨?_, fun h => ⟨63, fun fuel hf => key .release fuel hf h⟩⟩
  obtain ⟨r, hr, rfl | rfl⟩ := (C92_debug_ends H).2 q witness
  · exact hr
  · by_cases h : q.prove H witness = .panic
    · rw [h]; exact hr
    · exact ⟨63, fun fuel hf => key .debug fuel hf h⟩

/-! ## The same for the verifier -/

theorem sure_challenges (p : Profile) {fuel : ℕ} (hf : 63 ≤ fuel) (v : Verifier F) (proof : InstanceProof F)
    (h1 : v.columnDomain.size * v.ldeFactor ≤ 2 ^ 63) (h2 : v.constraintsDomain.size * v.ldeFactor ≤ 2 ^ 63) :
    Run.Sure (v.deriveChallengesWord H p fuel proof) (v.deriveChallenges H proof) := by
  rw [deriveChallenges_eq]
  unfold Verifier.deriveChallengesWord
  refine Run.Sure.bind (Run.Sure.refl _) fun x _ => ?_
  obtain ⟨cc, bc, z, h1c, t⟩ := x
  simp only [Res.ok_bind]
  rw [mulWord_small p h1, mulWord_small p h2]
  refine (?_ : Run.Sure ((newForSizeWord p fuel (v.columnDomain.size * v.ldeFactor) : Run (Domain F)) >>= _) _)
  exact Run.Sure.bind (Run.Sure.domain p hf h1) fun d1 _ => Run.Sure.bind (Run.Sure.domain p hf h2) fun d2 _ =>
    Run.Sure.bind (Run.Sure.refl _) fun _ _ => Run.Sure.bind (Run.Sure.refl _) fun _ _ => Run.Sure.refl _

theorem sure_fri (p : Profile) {fuel : ℕ} (hf : 63 ≤ fuel) (q : FriProof F) (h : claimedSize q ≤ 2 ^ 63) (idx : ℕ) (x : F) :
    Run.Sure (q.verifyWord H p fuel idx x) (q.verify H idx x) := by
  rw [verify_eq_start, friStart_eq_in]
  unfold FriProof.verifyWord friStartWord
  exact Run.Sure.bind (Run.Sure.bind (Run.Sure.refl _) fun t _ => Run.Sure.mulDomain p hf h fun d => Run.Sure.refl _) fun _ _ => Run.Sure.refl _

omit [StarkField F] in
theorem densityDivisorAtWord_fits (p : Profile) (z : F) (d : Domain F) (n : ℕ) (b : ConstraintDensity) :
    Run.Sure (.done (densityDivisorAtWord p z d n b)) (densityDivisorAt z d n b) := by
  cases b with
  | dense c =>
    simp only [densityDivisorAt, densityDivisorAtWord, inverseDivisorAt, inverseDivisorAtWord]
    refine Run.Sure.doneBind (divisorDegreeWord_fits p _ _ _) fun _ _ => Run.Sure.doneBind (Run.Sure.refl _) fun inv _ => ?_
    by_cases h1 : c.span ≤ n
    · rw [decide_eq_true h1, subWord_small p h1]; exact Run.Sure.refl _
    · rw [decide_eq_false h1]; exact fun h => absurd rfl h
  | repeated c => exact Run.Sure.refl _
  | sparse c => exact Run.Sure.refl _

omit [StarkField F] in
theorem calculateGAtZWord_fits (p : Profile) (v : Verifier F) (cc bc : List (F × F)) (l : List F) (z : F) :
    Run.Sure (.done (v.calculateGAtZWord p cc bc l z)) (v.calculateGAtZ cc bc l z) := by
  unfold Verifier.calculateGAtZ Verifier.calculateGAtZWord
  exact Run.Sure.doneBind (Run.Sure.refl _) fun _ _ => Run.Sure.doneBind
    (Run.Sure.doneEach (fun b s => Run.Sure.doneBind (densityDivisorAtWord_fits p _ _ _ _) fun _ _ => Run.Sure.refl _) _ _) fun _ _ => Run.Sure.refl _

theorem sure_verify (p : Profile) {fuel : ℕ} (hf : 63 ≤ fuel) (v : Verifier F) (proof : InstanceProof F)
    (h1 : v.columnDomain.size * v.ldeFactor ≤ 2 ^ 63) (h2 : v.constraintsDomain.size * v.ldeFactor ≤ 2 ^ 63)
    (h3 : claimedSize proof.friProofH1 ≤ 2 ^ 63) (h4 : claimedSize proof.friProofH2 ≤ 2 ^ 63) :
    Run.Sure (v.verifyMachine H p fuel proof) (v.verify H proof) := by
  unfold Verifier.verifyMachine Verifier.verify
  refine Run.Sure.bind (sure_challenges H p hf v proof h1 h2) fun x _ => ?_
  obtain ⟨ch, d1, d2⟩ := x
  simp only
  split
  · exact Run.Sure.refl _
  split
  · exact Run.Sure.refl _
  unfold Verifier.verifyBodyMachine Verifier.verifyBody
  cases checkQueries H ch.idx1 (proof.fQueries.zip proof.fIopRoots) with
  | none => exact Run.Sure.refl (.ok false)
  | some l =>
    refine Run.Sure.bind (Run.Sure.refl _) fun a _ => Run.Sure.bind (calculateGAtZWord_fits p _ _ _ _ _) fun b _ => ?_
    unfold verifyGWord Verifier.verifyG
    split
    · exact Run.Sure.refl (.ok false)
    split
    · exact Run.Sure.refl (.ok false)
    refine Run.Sure.bind (Run.Sure.refl _) fun c _ => Run.Sure.bind (sure_fri H p hf _ h3 _ _) fun valid _ => ?_
    split
    · exact Run.Sure.refl (.ok false)
    · exact sure_fri H p hf _ h4 _ _

/-- **C92** (the verdict). If the extended domains and the sizes claimed in the proof are at most `2^63`, and the model gives a verdict or an error, then both builds give it, for every verifier and
proof. (`C78_verify` has the release build under the condition that the densities fit; this is not needed where the model does not panic.) -/
theorem C92_verdict (p : Profile) (v : Verifier F) (proof : InstanceProof F) (h1 : v.columnDomain.size * v.ldeFactor ≤ 2 ^ 63)
    (h2 : v.constraintsDomain.size * v.ldeFactor ≤ 2 ^ 63) (h3 : claimedSize proof.friProofH1 ≤ 2 ^ 63) (h4 : claimedSize proof.friProofH2 ≤ 2 ^ 63)
    (h : v.verify H proof ≠ .panic) : Returns (fun fuel => v.verifyMachine H p fuel proof) (v.verify H proof) :=
  ⟨63, fun _ hf => sure_verify H p hf v proof h1 h2 h3 h4 h⟩

/-- **C92** (proving in one build, verifying in another). For every suitable instance and satisfying witness, with parameters without defect and one final FRI coefficient, whatever the builds `p` of
the prover and `p'` of the verifier: there are a prover and a verifier which these builds return, and if the out-of-domain point `z` drawn by the prover lies in the LDE domain of `g`, `prove`
returns an error in both builds, and otherwise the build of the prover returns a proof which the build of the verifier accepts. The prover, the verifier and the proof do not depend on the builds. -/
theorem C92_round_trip (w : Worker) (inst : InstanceProperties F) (n k f e : ℕ) (h : Suitable inst n k f)
    (hp : RunParams F w k f e 0) (witness : List (List F)) (hw : IsTable witness n (2 ^ k)) (hsat : Satisfies inst (cellR witness) (2 ^ k)) :
    ∃ prover v z, OpenedAt H prover w witness e z ∧ (∀ p, Returns (fun fuel => Prover.newWord p fuel w inst (2 ^ e) 1) (.ok prover)) ∧
      (∀ p, Returns (fun fuel => Verifier.newWord p fuel inst (2 ^ e)) (.ok v)) ∧
      (z ^ 2 ^ (k + f + e) = 1 → ∀ p, Returns (fun fuel => prover.proveWord H p fuel witness) (.err .error)) ∧
      (z ^ 2 ^ (k + f + e) ≠ 1 → ∃ proof, ∀ p p', Returns (fun fuel => prover.proveWord H p fuel witness) (.ok proof) ∧
        Returns (fun fuel => v.verifyMachine H p' fuel proof) (.ok true)) := by
  have hS := hp.size
  have h32 := hp.size32
  have he32 := hp.factor32
  obtain ⟨prover, v, z, e1, e2, hz, hbad, hgood⟩ := C45_complete_partial H w inst n k f e h hp witness hw hsat
  obtain ⟨v', e2', hv⟩ := h.newVerifier (by omega) (2 ^ e)
  rw [e2] at e2'
  cases e2'
  obtain ⟨a1, -, a2, a3, a4, a5, a6⟩ := proverNew_sizes e1
  rw [h.fromInstance (by omega)] at a1
  have a1 := (Res.ok.inj a1).symm
  have hrow : nextPow2 prover.arp.numRows = 2 ^ k := by rw [a2, h.rows, nextPow2_pow]
  rw [hrow] at a4
  rw [a1, h.maxDeg] at a5
  rw [← a4, a5, ← pow_add, nextPow2_pow] at a6
  have hle : ∀ j, j ≤ 63 → 2 ^ j ≤ 2 ^ 63 := fun j hj => Nat.pow_le_pow_right (by norm_num) hj
  have b1 : prover.ali.columnDomain.size * 2 ^ e ≤ 2 ^ 63 := by rw [← a4, ← pow_add]; exact hle _ (by omega)
  have b2 : prover.ali.constraintsDomain.size * 2 ^ e ≤ 2 ^ 63 := by rw [a6, ← pow_add]; exact hle _ (by omega)
  have d1 : v.columnDomain.size = 2 ^ k := by rw [hv.column]; rfl
  have d2 : v.constraintsDomain.size = 2 ^ (k + f) := by rw [hv.domain]; rfl
  have hsetup : ∀ p, Returns (fun fuel => Prover.newWord p fuel w inst (2 ^ e) 1) (.ok prover) := by
    have := C92_setup w inst (2 ^ e) 1 (2 ^ f) (by rw [h.rows, nextPow2_pow]; exact hle _ (by omega)) h.degrees.1 (by rw [h.rows, nextPow2_pow, ← pow_add]; exact hle _ (by omega))
    rw [e1] at this
    intro p
    cases p
    · exact this.1
    · exact this.2 (by intro h; cases h)
  have hprove : ∀ p, prover.prove H witness ≠ .panic → Returns (fun fuel => prover.proveWord H p fuel witness) (prover.prove H witness) := by
    have := C92_prove H w inst (2 ^ e) 1 prover e1 Nat.one_le_two_pow b1 b2 witness
    intro p hne
    cases p
    · exact this.1
    · exact this.2 hne
  refine ⟨prover, v, z, hz, hsetup, fun p => ?_, fun heq p => ?_, fun hne => ?_⟩
  · have := C78_setup inst (2 ^ e) p (by rw [h.rows]; exact hle _ (by omega)) fun c hc => ?_
    · rwa [e2] at this
    · rw [h.rows, nextPow2_pow]
      refine le_trans (Nat.mul_le_mul_right _ (nextPow2_le_of_le (h.degrees.1 c hc))) ?_
      rw [← pow_add]
      exact hle _ (by omega)
  · have := hprove p
    rw [hbad heq] at this
    exact this (by intro h; cases h)
  obtain ⟨proof, e3, e4⟩ := hgood hne
  obtain ⟨-, g1, g2⟩ := prove_claimed H e3
  rw [hrow, a3, ← pow_add] at g1
  rw [a6, nextPow2_pow, a3, ← pow_add] at g2
  refine ⟨proof, fun p p' => ⟨?_, ?_⟩⟩
  · have := hprove p
    rw [e3] at this
    exact this (by intro h; cases h)
  rw [← e4]
  refine C92_verdict H p' v proof ?_ ?_ ?_ ?_ (by rw [e4]; intro h; cases h)
  · rw [d1, hv.factor, ← pow_add]; exact hle _ (by omega)
  · rw [d2, hv.factor, ← pow_add]; exact hle _ (by omega)
  · exact g1.trans (hle _ (by omega))
  · exact g2.trans (hle _ (by omega))

/-! ## Sizes that do not fit -/

omit [Field F] [DecidableEq F] [StarkField F] in
theorem Run.bind_eq_ok {α β : Type} {x : Run α} {f : α → Run β} {b : β} (h : Run.bind x f = .done (.ok b)) : ∃ a, x = .done (.ok a) ∧ f a = .done (.ok b) := by
  cases x with
  | running => cases h
  | done r =>
    cases r with
    | ok a => exact ⟨a, rfl, h⟩
    | err e => cases h
    | panic => cases h

/-- **C92** (sizes that do not fit in the setup). Let `P` be the product of the size of the column domain and the greatest degree `D` of a constraint, greater than `2^63`. A debug build panics in the
setup. A release build computes `P` modulo `2^64`: if this exceeds `2^63` its setup never returns, otherwise every prover it returns has a constraints domain of this size, rounded up to a power of two.
(The field has a column domain; step differences are numbers of steps.) -/
theorem C92_setup_overflow (w : Worker) (inst : InstanceProperties F) (factor out D : ℕ) (hrows : inst.numRows ≤ 2 ^ 63) (hdom : Nat.clog 2 inst.numRows ≤ StarkField.S F)
    (hsteps : ∀ c ∈ inst.constraints, ∀ u ∈ factors c, ∃ k, u.stepsDifference = .steps k)
    (hD : (∀ c ∈ inst.constraints, c.degree ≤ D) ∧ ∃ c ∈ inst.constraints, c.degree = D) (hbig : 2 ^ 63 < nextPow2 inst.numRows * D) :
    Returns (fun fuel => Prover.newWord .debug fuel w inst factor out) .panic ∧
    (2 ^ 63 < nextPow2 inst.numRows * D % 2 ^ 64 → NeverReturns (fun fuel => Prover.newWord .release fuel w inst factor out)) ∧
    (nextPow2 inst.numRows * D % 2 ^ 64 ≤ 2 ^ 63 → ∀ q, Returns (fun fuel => Prover.newWord .release fuel w inst factor out) (.ok q) →
      q.ali.constraintsDomain.size = nextPow2 (nextPow2 inst.numRows * D % 2 ^ 64)) := by
  have hn : nextPow2 inst.numRows ≤ 2 ^ 63 := nextPow2_le_of_le hrows
  have hd1 : Domain.newForSize F (nextPow2 inst.numRows) = .ok (domOf F (Nat.clog 2 inst.numRows)) := newForSize_pow hdom
  have hd2 : Domain.newForSize F inst.numRows = .ok (domOf F (Nat.clog 2 inst.numRows)) := by
    rw [← hd1, newForSize_eq, newForSize_eq]
    unfold nextPow2
    rw [Nat.clog_pow _ _ (by norm_num)]
  set cs := inst.constraints.map (maskC (domOf F (Nat.clog 2 inst.numRows)).generator) with hcs
  have hmask : mapRes (maskConstraint (domOf F (Nat.clog 2 inst.numRows))) inst.constraints = .ok cs :=
    mapRes_ok _ _ _ (fun c hc => maskConstraint_ok _ (hsteps c hc))
  have hmax : maxDegree cs = D := by
    obtain ⟨hle, c, hc, e⟩ := hD
    apply le_antisymm
    · apply maxDegree_le
      rw [(maskConstraints_costs hmask).2.2.2.1]
      intro x hx
      obtain ⟨c', hc', rfl⟩ := List.mem_map.1 hx
      exact hle c' hc'
    · rw [← e]
      exact le_maxDegree (c := maskC _ c) (List.mem_map.2 ⟨c, hc, rfl⟩)
  have hnew : ∀ p fuel, 63 ≤ fuel → Prover.newWord p fuel w inst factor out = Run.bind (AliInstance.fromArpWord p fuel { inst with constraints := cs } w)
      (fun ali => .done (.ok { arp := { inst with constraints := cs }, ali := ali, ldeFactor := factor, friFinalDegreePlusOne := out, worker := w })) := by
    intro p fuel hf
    have : fromInstanceWord p fuel inst = .done (.ok { inst with constraints := cs }) := by
      unfold fromInstanceWord
      rw [nextPow2Word_small p hrows]
      simp only [Run.bind_def, Run.bind_ok]
      rw [newForSizeWord_small p hn hf, hd1]
      simp only [Run.bind_ok]
      rw [hmask]
      rfl
    unfold Prover.newWord
    rw [this]
    rfl
  have hdsz : (domOf F (Nat.clog 2 inst.numRows)).size = nextPow2 inst.numRows := rfl
  refine ⟨⟨63, fun fuel hf => ?_⟩, fun hr => ?_, fun hr q hq => ?_⟩
  · show Prover.newWord .debug fuel w inst factor out = _
    rw [hnew _ _ hf]
    unfold AliInstance.fromArpWord
    simp only [Run.bind_def]
    rw [newForSizeWord_small .debug hrows hf, hd2]
    simp only [Run.bind_ok, hmax, hdsz]
    unfold mulWord
    split
    · simp only [Run.bind_ok]
      rw [newForSizeWord_debug hbig]
      rfl
    · rfl
  · intro fuel
    show Prover.newWord .release fuel w inst factor out = .running
    have harp : fromInstanceWord .release fuel inst = .running ∨ fromInstanceWord .release fuel inst = .done (.ok { inst with constraints := cs }) := by
      unfold fromInstanceWord
      rw [nextPow2Word_small .release hrows]
      simp only [Run.bind_def, Run.bind_ok]
      rcases newForSizeWord_fuel (F := F) .release hn fuel with e | e
      · left; rw [e]; rfl
      · right; rw [e, hd1]
        simp only [Run.bind_ok]
        rw [hmask]
        rfl
    unfold Prover.newWord
    rcases harp with e | e
    · rw [e]; rfl
    rw [e]
    simp only [Run.bind_def, Run.bind_ok]
    unfold AliInstance.fromArpWord
    simp only [Run.bind_def]
    rcases newForSizeWord_fuel (F := F) .release hrows fuel with e | e
    · rw [e]; rfl
    rw [e, hd2]
    simp only [Run.bind_ok, hmax, hdsz]
    rw [mulWord_release]
    simp only [Run.bind_ok]
    rw [newForSizeWord_release hr]
    rfl
  · obtain ⟨m, hm⟩ := hq
    have hq := hm (max m 63) (le_max_left _ _)
    simp only at hq
    have hf : 63 ≤ max m 63 := le_max_right _ _
    rw [hnew _ _ hf] at hq
    unfold AliInstance.fromArpWord at hq
    simp only [Run.bind_def] at hq
    rw [newForSizeWord_small .release hrows hf, hd2] at hq
    simp only [Run.bind_ok, hmax, hdsz] at hq
    rw [mulWord_release] at hq
    simp only [Run.bind_ok] at hq
    rw [newForSizeWord_small .release hr hf, newForSize_eq] at hq
    split at hq
    swap
    · cases hq
    simp only [Run.bind_ok] at hq
    obtain ⟨ali, hq, e⟩ := Run.bind_eq_ok hq
    obtain ⟨pre, -, hq⟩ := Run.bind_eq_ok hq
    obtain ⟨divs, -, hq⟩ := Run.bind_eq_ok hq
    obtain ⟨bd, -, hq⟩ := Run.bind_eq_ok hq
    cases hq
    cases e
    rfl

/-! ## A span greater than the trace -/

/-- **C92** (a span greater than the trace). Let the number of rows be the size of the column domain. For a density whose span exceeds the number of rows, a debug build panics in the setup, and a
release build computes the divisor of the density with the same first row and span zero: the constraint is enforced on all rows from there on, the last ones reading the first. -/
theorem C92_release_span (d e : Domain F) (c : DenseConstraint) (w : Worker) (hsize : d.size ≤ 2 ^ 63) (h1 : d.size < c.span) (h2 : c.span ≤ 2 ^ 63) :
    densityDivisorWord .debug d e d.size w (.dense c) = .panic ∧
    densityDivisorWord .release d e d.size w (.dense c) = densityDivisorWord .release d e d.size w (.dense ⟨c.startAt, 0⟩) := by
  constructor
  · rw [densityDivisorWord_debug]
    show inverseDivisorInCoset d e c d.size w = .panic
    unfold inverseDivisorInCoset
    rw [show divisorDegree d.size d.size c = .panic from ?_]
    · rfl
    unfold divisorDegree
    by_cases h : c.startAt ≤ d.size
    · rw [decide_eq_true h, decide_eq_true (le_refl d.size), decide_eq_true (show d.size - d.size ≤ d.size - c.startAt by omega),
        decide_eq_false (show ¬ c.span ≤ d.size - c.startAt - (d.size - d.size) by omega)]
      rfl
    · rw [decide_eq_false h]
      rfl
  · have tot : ∀ a b, ∃ r, subWord .release a b = .ok r := by
      intro a b
      unfold subWord
      split
      · exact ⟨_, rfl⟩
      · exact ⟨_, rfl⟩
    have dd : ∀ c' : DenseConstraint, ∃ r, divisorDegreeWord .release d.size d.size c' = .ok r := by
      intro c'
      unfold divisorDegreeWord
      obtain ⟨a, ea⟩ := tot d.size c'.startAt
      obtain ⟨b, eb⟩ := tot d.size d.size
      obtain ⟨e, ee⟩ := tot a b
      rw [ea, eb]
      simp only [Res.ok_bind]
      rw [ee]
      exact tot e c'.span
    obtain ⟨r1, e1⟩ := dd c
    obtain ⟨r2, e2⟩ := dd ⟨c.startAt, 0⟩
    have hroots : excludedRootsWord .release d c d.size = excludedRootsWord .release d ⟨c.startAt, 0⟩ d.size := by
      unfold excludedRootsWord
      dsimp only
      rw [subWord_release (show d.size < 2 ^ 64 by omega), subWord_release (show d.size < 2 ^ 64 by omega),
        show (2 ^ 64 + d.size - c.span) % 2 ^ 64 = 2 ^ 64 + d.size - c.span from Nat.mod_eq_of_lt (by omega),
        show (2 ^ 64 + d.size - 0) % 2 ^ 64 = d.size by rw [Nat.sub_zero, Nat.add_mod_left, Nat.mod_eq_of_lt (by omega)]]
      simp only [Res.ok_bind]
      rw [show d.size - (2 ^ 64 + d.size - c.span) = 0 by omega, show d.size - d.size = 0 by omega]
      rfl
    show inverseDivisorInCosetWord .release d e c d.size w = inverseDivisorInCosetWord .release d e ⟨c.startAt, 0⟩ d.size w
    unfold inverseDivisorInCosetWord
    rw [e1, e2, hroots]
    rfl

end

/-! ## Concrete cases -/

/-- Prove in build `p` that the register is constant, for the instance with span `made`, and verify in build `p'` for the instance with span `read`. -/
def builds (p p' : Profile) (made read : ℕ) : Run Bool := do
  let prover ← Prover.newWord p 63 ⟨1, by norm_num⟩ (constantInst made) 2 1
  let proof ← prover.proveWord toyHash p 63 [[5, 5, 5, 5]]
  let v ← Verifier.newWord p' 63 (constantInst read) 2
  v.verifyMachine toyHash p' 63 proof

/-- **C92** (the builds differ). The constant register is proved and accepted in every combination of builds. With a span greater than the number of rows the debug prover panics, and the release
prover returns a proof, which a release verifier accepts for this span and every verifier accepts for span zero. -/
theorem C92_builds_differ :
    (∀ p p', builds p p' 0 0 = .done (.ok true)) ∧ (∀ p', builds .debug p' 5 0 = .done .panic) ∧
    builds .release .release 5 5 = .done (.ok true) ∧ ∀ p', builds .release p' 5 0 = .done (.ok true) := by
  refine ⟨?_, ?_, by decide +kernel, ?_⟩
  · intro p p'; cases p <;> cases p' <;> decide +kernel
  · intro p'; cases p' <;> decide +kernel
  · intro p'; cases p' <;> decide +kernel

/-- The hypotheses of C92_round_trip are met by Fibonacci with four rows, and of its part for the prover: both builds return this prover, whose domains are small. -/
example : ∃ prover v z, OpenedAt toyHash prover ⟨1, by norm_num⟩ [[(1 : Fr), 1, 2, 3], [1, 2, 3, 5]] 1 z ∧
    (∀ p, Returns (fun fuel => Prover.newWord p fuel ⟨1, by norm_num⟩ (fibInst Fr 2 1 1) (2 ^ 1) 1) (.ok prover)) ∧
    (∀ p, Returns (fun fuel => Verifier.newWord p fuel (fibInst Fr 2 1 1) (2 ^ 1)) (.ok v)) ∧
    (z ^ 2 ^ (2 + 0 + 1) = 1 → ∀ p, Returns (fun fuel => prover.proveWord toyHash p fuel [[1, 1, 2, 3], [1, 2, 3, 5]]) (.err .error)) ∧
    (z ^ 2 ^ (2 + 0 + 1) ≠ 1 → ∃ proof, ∀ p p', Returns (fun fuel => prover.proveWord toyHash p fuel [[1, 1, 2, 3], [1, 2, 3, 5]]) (.ok proof) ∧
      Returns (fun fuel => v.verifyMachine toyHash p' fuel proof) (.ok true)) := by
  have h := fibInst_suitable (F := Fr) 2 (by norm_num) 1 1
  have ht : IsTable [[(1 : Fr), 1, 2, 3], [1, 2, 3, 5]] 2 (2 ^ 2) := ⟨rfl, by decide⟩
  exact C92_round_trip toyHash ⟨1, by norm_num⟩ (fibInst Fr 2 1 1) 2 2 0 1 h
    ⟨by decide, by norm_num, by norm_num, by norm_num, by norm_num, .inl rfl, .inl rfl, by decide +kernel, by decide +kernel⟩ _ ht
    (((C33_is_satisfied_iff _ _ 2 (2 ^ 2) (by norm_num) ht h.wellFormed).1).1 (by decide +kernel))

/-- A register with four rows whose constraint has degree `2^61 + 1`. -/
def steeperInst : InstanceProperties Fr :=
  { numRows := 4, numRegisters := 1, boundaryConstraints := [],
    constraints := [Constraint.default.addUnivariate { (UnivariateTerm.ofRegister (F := Fr) (.register 0)) with power := 2 ^ 61 + 1 }] }

/-- The hypotheses of C92_setup_overflow are met in both of its cases: with degree `2^62` the release build returns a prover whose constraints domain has one element, with degree `2^61 + 1` it
does not return. -/
example : Returns (fun fuel => Prover.newWord .debug fuel ⟨1, by norm_num⟩ steepInst 2 1) .panic ∧
    (match Prover.newWord .release 63 ⟨1, by norm_num⟩ steepInst 2 1 with | .done (.ok q) => q.ali.constraintsDomain.size | _ => 0) = 1 ∧
    Returns (fun fuel => Prover.newWord .debug fuel ⟨1, by norm_num⟩ steeperInst 2 1) .panic ∧
    NeverReturns (fun fuel => Prover.newWord .release fuel ⟨1, by norm_num⟩ steeperInst 2 1) := by
  obtain ⟨h1, h2, h3, -⟩ := steepInst_hyp
  have e : nextPow2 4 = 4 := by decide
  refine ⟨(C92_setup_overflow _ steepInst 2 1 (2 ^ 62) h2 h3 h1 ⟨?_, _, .head _, rfl⟩ ?_).1, by decide +kernel, ?_⟩
  · intro c hc
    rw [List.mem_singleton.1 hc]
    exact le_rfl
  · show 2 ^ 63 < nextPow2 4 * 2 ^ 62
    rw [e]; norm_num
  · have h := C92_setup_overflow ⟨1, by norm_num⟩ steeperInst 2 1 (2 ^ 61 + 1) (by decide) (by decide) ?_ ⟨?_, _, .head _, rfl⟩ ?_
    · refine ⟨h.1, h.2.1 ?_⟩
      show 2 ^ 63 < nextPow2 4 * (2 ^ 61 + 1) % 2 ^ 64
      rw [e]; norm_num
    · intro c hc u hu
      rw [List.mem_singleton.1 hc] at hu
      simp only [factors, Constraint.addUnivariate, Constraint.push, Constraint.default, List.nil_append, List.flatMap_cons, List.flatMap_nil, termFactors, List.append_nil,
        List.mem_singleton] at hu
      subst hu
      exact ⟨0, rfl⟩
    · intro c hc
      rw [List.mem_singleton.1 hc]
      exact le_rfl
    · show 2 ^ 63 < nextPow2 4 * (2 ^ 61 + 1)
      rw [e]; norm_num

end Hodor

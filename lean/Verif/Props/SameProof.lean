import Verif.Props.AnyWorker
import Verif.Props.IopEq

/-!
# C74: when the proof depends on the machine
-/

namespace Hodor

open Polynomial Finset Spec

variable {F : Type} [Field F] [DecidableEq F] [StarkField F] (H : List UInt8 → Digest)

section
variable {inst : InstanceProperties F} {n k f e o : ℕ}

/-- The polynomials of the registers are determined by the table. -/
theorem witnessPolys_unique {witness : List (List F)} {P P' : ℕ → F[X]} (hk : k ≤ StarkField.S F)
    (hP : ∀ r, (P r).degree < (2 ^ k : ℕ)) (hP' : ∀ r, (P' r).degree < (2 ^ k : ℕ)) (h0 : ∀ r, n ≤ r → P r = 0) (h0' : ∀ r, n ≤ r → P' r = 0)
    (hv : ∀ r, r < n → ∀ i, i < 2 ^ k → (P r).eval (genOf F k ^ i) = cell witness r i)
    (hv' : ∀ r, r < n → ∀ i, i < 2 ^ k → (P' r).eval (genOf F k ^ i) = cell witness r i) : P = P' := by
  funext r
  by_cases hr : r < n
  · refine eq_of_eval_coset (genOf_prim hk) one_ne_zero (hP r) (hP' r) ?_
    intro i hi
    rw [one_mul, hv r hr i hi, hv' r hr i hi]
  · rw [h0 r (by omega), h0' r (by omega)]

/-- **C74** (same result). On all machines with one CPU, or more CPUs than half the LDE factor and half the largest degree, `prove` returns the same for the same table, satisfying or
not: the same proof, or the same error. -/
theorem C74_same_proof (w w' : Worker) (h : Runnable inst n k f) (hp : RunParams F w k f e o) (hp' : RunParams F w' k f e o)
    (witness : List (List F)) (hw : IsTable witness n (2 ^ k)) :
    ∃ prover prover', Prover.new w inst (2 ^ e) (2 ^ o) = .ok prover ∧ Prover.new w' inst (2 ^ e) (2 ^ o) = .ok prover' ∧
      prover.prove H witness = prover'.prove H witness := by
  have hS := hp.size
  have h32 := hp.size32
  obtain ⟨P, e2, hP, h0, hv⟩ := witnessPolys_ok w (inst := arpOf inst k) h.pos hw (by omega) (by omega) h.registers h.rows
  obtain ⟨P', e2', hP', h0', hv'⟩ := witnessPolys_ok w' (inst := arpOf inst k) h.pos hw (by omega) (by omega) h.registers h.rows
  have hPP : P = P' := witnessPolys_unique (by omega) hP hP' h0 h0' hv hv'
  subst hPP
  obtain ⟨G, hG, hGv⟩ := exists_poly_values (F := F) (show k + f ≤ StarkField.S F by omega) (StarkField.mulGen_ne_zero (F := F)) (fun i =>
      gFold H P (2 ^ f) (cosetPt F (k + f) i) (dinvAt (genOf F k) inst.numRows (cosetPt F (k + f) i))
        (batchesOf (arpOf inst k).constraints) (runT1 H n k e P) 0 +
      boundarySum P (2 ^ f) (genOf F k) (cosetPt F (k + f) i) (inst.boundaryConstraints.zip
        (pairsAt F H inst.boundaryConstraints.length (afterN H inst.constraints.length (runT1 H n k e P)))))
  obtain ⟨prover, ep, ps, eps, hps, -, hbad, hgood⟩ := prove_run H w h hp e2 hP hG hGv
  obtain ⟨prover', ep', ps', eps', hps', -, hbad', hgood'⟩ := prove_run H w' h hp' e2' hP hG hGv
  have hpp : ps = ps' := by
    rw [eps] at eps'
    have hinj : Function.Injective (toMask (F := F)) := by
      intro a b hab
      simp only [toMask, MaskProperties.mk.injEq, Register.register.injEq, StepDifference.mask.injEq] at hab
      exact Prod.ext hab.1 hab.2
    exact List.map_injective_iff.2 hinj eps'
  subst hpp
  refine ⟨prover, prover', ep, ep', ?_⟩
  by_cases hz : runZ H inst n k f e P G ^ 2 ^ (k + f + e) = 1
  · rw [hbad hz, hbad' hz]
  · obtain ⟨Q1, Q2, idx1, idx2, d1, d2, v1, v2, i1, i2, -, -, -, -, epr⟩ := hgood hz
    obtain ⟨Q1', Q2', idx1', idx2', d1', d2', v1', v2', i1', i2', -, -, -, -, epr'⟩ := hgood' hz
    have hle : ∀ {a b : ℕ} {p : F[X]}, p.degree < (2 ^ a : ℕ) → p.degree < (2 ^ (a + b) : ℕ) := by
      intro a b p hp
      exact lt_of_lt_of_le hp (by exact_mod_cast Nat.pow_le_pow_right (by norm_num) (by omega))
    have q1 : Q1 = Q1' := eq_of_eval_coset (genOf_prim (show k + e ≤ StarkField.S F by omega)) one_ne_zero (hle d1) (hle d1')
      (fun i _ => by rw [one_mul, v1, v1'])
    have q2 : Q2 = Q2' := eq_of_eval_coset (genOf_prim hS) one_ne_zero (hle d2) (hle d2') (fun i _ => by rw [one_mul, v2, v2'])
    subst q1 q2
    rw [i1] at i1'
    rw [i2] at i2'
    cases i1'
    cases i2'
    rw [epr, epr']

/-- The committed words of the registers and their roots, from a returned proof. -/
theorem prove_roots {prover : Prover F} {witness : List (List F)} {proof : InstanceProof F} (hproof : prover.prove H witness = .ok proof) :
    ∃ ps ls ts, calculateWitnessPolys prover.arp witness prover.worker = .ok ps ∧
      List.Forall₂ (fun (p : Poly F .coefficients) l => p.lde prover.worker prover.ldeFactor = .ok l) ps ls ∧
      List.Forall₂ (fun (l : Poly F .values) t => IopTree.create H prover.worker l.coeffs = .ok t) ls ts ∧
      List.Forall₂ (fun (t : IopTree) r => t.getRoot = .ok r) ts proof.fIopRoots := by
  unfold Prover.prove at hproof
  obtain ⟨t, -, hproof⟩ := Res.bind_eq_ok.1 hproof
  obtain ⟨ps, a1, hproof⟩ := Res.bind_eq_ok.1 hproof
  obtain ⟨ls, a2, hproof⟩ := Res.bind_eq_ok.1 hproof
  obtain ⟨ts, a3, hproof⟩ := Res.bind_eq_ok.1 hproof
  obtain ⟨rs, a4, hproof⟩ := Res.bind_eq_ok.1 hproof
  obtain ⟨g, -, hproof⟩ := Res.bind_eq_ok.1 hproof
  obtain ⟨gl, -, hproof⟩ := Res.bind_eq_ok.1 hproof
  obtain ⟨gt, -, hproof⟩ := Res.bind_eq_ok.1 hproof
  obtain ⟨gr, -, hproof⟩ := Res.bind_eq_ok.1 hproof
  obtain ⟨deep, -, hproof⟩ := Res.bind_eq_ok.1 hproof
  obtain ⟨p1, -, hproof⟩ := Res.bind_eq_ok.1 hproof
  obtain ⟨p2, -, hproof⟩ := Res.bind_eq_ok.1 hproof
  obtain ⟨r1, -, hproof⟩ := Res.bind_eq_ok.1 hproof
  obtain ⟨r2, -, hproof⟩ := Res.bind_eq_ok.1 hproof
  obtain ⟨i1, -, hproof⟩ := Res.bind_eq_ok.1 hproof
  obtain ⟨i2, -, hproof⟩ := Res.bind_eq_ok.1 hproof
  obtain ⟨f1, -, hproof⟩ := Res.bind_eq_ok.1 hproof
  obtain ⟨f2, -, hproof⟩ := Res.bind_eq_ok.1 hproof
  obtain ⟨fq, -, hproof⟩ := Res.bind_eq_ok.1 hproof
  obtain ⟨gq, -, hproof⟩ := Res.bind_eq_ok.1 hproof
  cases hproof
  exact ⟨ps, ls, ts, a1, mapRes_eq_ok a2, mapRes_eq_ok a3, mapRes_eq_ok a4⟩

omit [DecidableEq F] in
/-- A polynomial of degree below `2^k` is constant if its values on the domain are. -/
theorem const_iff_values {k : ℕ} (hk : k ≤ StarkField.S F) {p : F[X]} (hp : p.degree < (2 ^ k : ℕ)) :
    p = C (p.coeff 0) ↔ ∀ i, i < 2 ^ k → p.eval (genOf F k ^ i) = p.eval (genOf F k ^ 0) := by
  constructor
  · intro h i _
    rw [h]
    simp
  · intro h
    have : p = C (p.eval (genOf F k ^ 0)) := by
      refine eq_of_eval_coset (genOf_prim hk) one_ne_zero hp (lt_of_le_of_lt degree_C_le (by exact_mod_cast pow_pos (by norm_num) k)) ?_
      intro i hi
      rw [one_mul, eval_C]
      exact h i hi
    rw [this]
    simp

/-- **C74** (different machines). The LDE factor is at least twice the number of CPUs of the second machine (which has several), not of the first. Then the commitments to the registers in the proofs of the two machines for the same
table are the same if all columns are constant; and only then, unless the hash function collides on strings hashed for the two commitments to some register. -/
theorem C74_machines_differ (hb : numBits F < 256) (w w' : Worker) (h : Runnable inst n k f) (hS : k + e ≤ StarkField.S F) (h32 : k < 32)
    (hok : w.cpus = 1 ∨ 2 ^ e < 2 * w.cpus) (hbad : ¬ (w'.cpus = 1 ∨ 2 ^ e < 2 * w'.cpus))
    (witness : List (List F)) (hw : IsTable witness n (2 ^ k)) (out out' : ℕ) (prover prover' : Prover F)
    (hprover : Prover.new w inst (2 ^ e) out = .ok prover) (hprover' : Prover.new w' inst (2 ^ e) out' = .ok prover')
    (proof proof' : InstanceProof F) (hproof : prover.prove H witness = .ok proof) (hproof' : prover'.prove H witness = .ok proof') :
    ((∀ r, r < n → ∀ i, i < 2 ^ k → cell witness r i = cell witness r 0) → proof.fIopRoots = proof'.fIopRoots) ∧
    (proof.fIopRoots = proof'.fIopRoots → (∀ r, r < n → ∀ i, i < 2 ^ k → cell witness r i = cell witness r 0) ∨
      ∃ ps, calculateWitnessPolys prover.arp witness w = .ok ps ∧ ∃ p ∈ ps, ∃ a b : Poly F .values,
        p.lde w (2 ^ e) = .ok a ∧ p.lde w' (2 ^ e) = .ok b ∧
        CollisionAmong H (fun s => TreeHashed H (fun i => a.coeffs.getD i 0) (k + e) s ∨ TreeHashed H (fun i => b.coeffs.getD i 0) (k + e) s)) := by
  have he : 1 ≤ e := by
    by_contra hc
    have : e = 0 := by omega
    subst this
    apply hbad
    right
    have := w'.pos
    omega
  obtain ⟨P, e2, hP, h0, hv⟩ := witnessPolys_ok w (inst := arpOf inst k) h.pos hw (by omega) (by omega) h.registers h.rows
  obtain ⟨P', e2', hP', h0', hv'⟩ := witnessPolys_ok w' (inst := arpOf inst k) h.pos hw (by omega) (by omega) h.registers h.rows
  have hPP : P = P' := witnessPolys_unique (by omega) hP hP' h0 h0' hv hv'
  subst hPP
  have hnew : ∀ {w : Worker} {out : ℕ} {p : Prover F}, Prover.new w inst (2 ^ e) out = .ok p → p.arp = arpOf inst k ∧ p.worker = w ∧ p.ldeFactor = 2 ^ e := by
    intro w out p hn
    unfold Prover.new at hn
    rw [h.fromInstance (by omega), Res.ok_bind] at hn
    obtain ⟨ali, -, hn⟩ := Res.bind_eq_ok.1 hn
    cases hn
    exact ⟨rfl, rfl, rfl⟩
  have word : ∀ w : Worker, ∀ r, (mkPoly .coefficients k (P r).coeff).lde w (2 ^ e)
      = .ok (mkPoly .values (k + e) (fun i => (P r).eval (genOf F (k + e) ^ ldeExp w e i))) := by
    intro w r
    rw [lde_exact w hS h32]
    congr 1
    apply mkPoly_congr
    intro i _
    rw [evalF_coeff (hP r)]
  have roots : ∀ {w : Worker} {out : ℕ} {p : Prover F} {pr : InstanceProof F}, Prover.new w inst (2 ^ e) out = .ok p →
      p.prove H witness = .ok pr → calculateWitnessPolys (arpOf inst k) witness w = .ok (tab n (fun r => mkPoly .coefficients k (P r).coeff)) →
      pr.fIopRoots = tab n (fun r => merkle H (fun i => H (encodeLeaf ((P r).eval (genOf F (k + e) ^ ldeExp w e i)))) (k + e) 0) := by
    intro w out p pr hn hpr hwp
    obtain ⟨n1, n2, n3⟩ := hnew hn
    obtain ⟨ps, ls, ts, a1, a2, a3, a4⟩ := prove_roots H hpr
    rw [n1, n2, hwp] at a1
    cases a1
    rw [n2, n3] at a2
    rw [n2] at a3
    apply List.ext_getElem?
    intro r
    have l2 := a2.length_eq
    have l3 := a3.length_eq
    have l4 := a4.length_eq
    rw [length_tab] at l2
    rw [getElem?_tab]
    split
    · rename_i hr
      rw [List.forall₂_iff_get] at a2 a3 a4
      have b2 := a2.2 r (by rw [length_tab]; exact hr) (by omega)
      have b3 := a3.2 r (by omega) (by omega)
      have b4 := a4.2 r (by omega) (by omega)
      rw [List.get_eq_getElem, getElem_tab, word w r] at b2
      injection b2 with b2
      rw [← b2] at b3
      obtain ⟨k', hk'⟩ : ∃ k', k + e = k' + 1 := ⟨k + e - 1, by omega⟩
      rw [mkPoly_coeffs, hk', create_tab] at b3
      injection b3 with b3
      rw [← b3, getRoot_eq] at b4
      injection b4 with b4
      rw [List.getElem?_eq_getElem (by omega), hk']
      congr 1
      exact b4.symm
    · rw [List.getElem?_eq_none (by omega)]
  rw [roots hprover hproof e2, roots hprover' hproof' e2']
  have hcol : (∀ r, r < n → ∀ i, i < 2 ^ k → cell witness r i = cell witness r 0) ↔ ∀ r, r < n → P r = C ((P r).coeff 0) := by
    apply forall_congr'; intro r
    apply forall_congr'; intro hr
    rw [const_iff_values (show k ≤ StarkField.S F by omega) (hP r)]
    apply forall_congr'; intro i
    apply forall_congr'; intro hi
    rw [hv r hr i hi, hv r hr 0 (by positivity)]
  rw [hcol]
  constructor
  · intro hc
    apply tab_congr
    intro r hr
    rw [hc r hr]
    simp
  · intro heq
    by_contra hno
    rw [not_or] at hno
    obtain ⟨h1, h2⟩ := hno
    apply h1
    intro r hr
    have hroot := congrArg (fun l => l[r]?) heq
    simp only [getElem?_tab, if_pos hr, Option.some.injEq] at hroot
    obtain ⟨k', hk'⟩ : ∃ k', k + e = k' + 1 := ⟨k + e - 1, by omega⟩
    have ct : ∀ w w0 : Worker, IopTree.create H w0 (mkPoly .values (k + e) (fun i => (P r).eval (genOf F (k + e) ^ ldeExp w e i))).coeffs
        = .ok (honestTree H (fun i => (P r).eval (genOf F (k + e) ^ ldeExp w e i)) k') := by
      intro w w0
      rw [mkPoly_coeffs, hk', create_tab]
    have gr : ∀ w : Worker, (honestTree H (fun i => (P r).eval (genOf F (k + e) ^ ldeExp w e i)) k').getRoot
        = .ok (merkle H (fun i => H (encodeLeaf ((P r).eval (genOf F (k + e) ^ ldeExp w e i)))) (k + e) 0) := by
      intro w
      rw [getRoot_eq, hk']
    have := C19_same_root H hb w w' _ _ (k + e) (k + e) (by simp) (by simp) _ _ _ (ct w w) (ct w' w') (gr w) (by rw [gr w', hroot])
    rcases this with hsame | hcoll
    · refine codeword_const (w := w') (s := 1) (q := P r) hS hbad one_ne_zero (hP r) (hP r) ?_
      intro i hi
      have := congrArg (fun l => l[i]?) hsame
      simp only [mkPoly_coeffs, getElem?_tab, if_pos hi, Option.some.injEq] at this
      rw [one_mul, one_mul, ← this, ldeExp_of_ok hok]
    · have harp := (hnew hprover).1
      exfalso
      apply h2
      refine ⟨tab n (fun r => mkPoly .coefficients k (P r).coeff), by rw [harp]; exact e2, mkPoly .coefficients k (P r).coeff,
        mem_tab.2 ⟨r, hr, rfl⟩, _, _, word w r, word w' r, hcoll⟩

end

/-- Non-vacuity: a run of the instance with four rows on one CPU and on two, with LDE factor 4 (too large for two CPUs): the proofs differ in the root of the register. -/
def rootsOn (w : Worker) (witness : List (List Fr)) : Res (List Digest) := do
  let prover ← Prover.new w (fibInst Fr 2 1 1) 4 1
  let proof ← prover.prove toyHash witness
  pure proof.fIopRoots

example : Runnable (fibInst Fr 2 1 1) 2 2 0 ∧ IsTable [[(1 : Fr), 1, 2, 3], [1, 2, 3, 5]] 2 (2 ^ 2) ∧
    (∃ a b, rootsOn ⟨1, by norm_num⟩ [[1, 1, 2, 3], [1, 2, 3, 5]] = .ok a ∧ rootsOn ⟨2, by norm_num⟩ [[1, 1, 2, 3], [1, 2, 3, 5]] = .ok b ∧ a ≠ b) ∧
    ∃ a, rootsOn ⟨1, by norm_num⟩ [[3, 3, 3, 3], [3, 3, 3, 3]] = .ok a ∧ rootsOn ⟨2, by norm_num⟩ [[3, 3, 3, 3], [3, 3, 3, 3]] = .ok a := by
  refine ⟨(fibInst_suitable (F := Fr) 2 (by norm_num) 1 1).runnable, ⟨rfl, by decide⟩, ?_, ?_⟩
  · have key : (match rootsOn ⟨1, by norm_num⟩ [[1, 1, 2, 3], [1, 2, 3, 5]], rootsOn ⟨2, by norm_num⟩ [[1, 1, 2, 3], [1, 2, 3, 5]] with
      | .ok a, .ok b => decide (a ≠ b)
      | _, _ => false) = true := by decide +kernel
    revert key
    cases rootsOn ⟨1, by norm_num⟩ [[1, 1, 2, 3], [1, 2, 3, 5]] with
    | err e => intro h; cases h
    | panic => intro h; cases h
    | ok a =>
      cases rootsOn ⟨2, by norm_num⟩ [[1, 1, 2, 3], [1, 2, 3, 5]] with
      | err e => intro h; cases h
      | panic => intro h; cases h
      | ok b => intro h; exact ⟨a, b, rfl, rfl, by simpa using h⟩
  · have key : (match rootsOn ⟨1, by norm_num⟩ [[3, 3, 3, 3], [3, 3, 3, 3]], rootsOn ⟨2, by norm_num⟩ [[3, 3, 3, 3], [3, 3, 3, 3]] with
      | .ok a, .ok b => decide (a = b)
      | _, _ => false) = true := by decide +kernel
    revert key
    cases rootsOn ⟨1, by norm_num⟩ [[3, 3, 3, 3], [3, 3, 3, 3]] with
    | err e => intro h; cases h
    | panic => intro h; cases h
    | ok a =>
      cases rootsOn ⟨2, by norm_num⟩ [[3, 3, 3, 3], [3, 3, 3, 3]] with
      | err e => intro h; cases h
      | panic => intro h; cases h
      | ok b => intro h; exact ⟨b, by rw [show a = b by simpa using h], rfl⟩

end Hodor

import Verif.Lemmas.Forge
import Verif.Lemmas.SoundV
import Verif.Props.Stark
import Verif.Props.Verify

/-!
# C46: soundness of the whole proof system

C46 is false of the code: `C46_forgery`. What the checks do guarantee when FRI is replaced by an ideal low-degree test is
`C46_ideal_soundness_partial`.
-/

namespace Hodor

open Polynomial Finset Spec

variable {F : Type} [Field F] [DecidableEq F] [StarkField F] (H : List UInt8 → Digest)

/-- **C46 is false.** For every suitable instance, satisfiable or not, every witness table — no relation between the two is required —
every coefficient vector `gs` of the size of the constraints domain, every hash function and CPU count: the attacker `forge`
returns a proof which `verify` accepts, unless the out-of-domain point which it draws after committing to the witness and to `gs` lies in the LDE domain of `g` (the case in which the
honest prover fails too; the attacker can then retry with other `gs`). -/
theorem C46_forgery (w : Worker) (inst : InstanceProperties F) (n k f e o : ℕ) (h : Suitable inst n k f)
    (hp : RunParams F w k f e o) (h33 : k + f + e ≤ 32) (witness : List (List F)) (hw : IsTable witness n (2 ^ k))
    (gs : List F) (hgs : gs.length = 2 ^ (k + f)) :
    ∃ v z, Verifier.new inst (2 ^ e) = .ok v ∧ forgePoint H w inst (2 ^ e) witness gs = .ok z ∧
      (z ^ 2 ^ (k + f + e) ≠ 1 → ∃ proof, forge H w inst (2 ^ e) witness gs = .ok proof ∧ v.verify H proof = .ok true) := by
  have hS := hp.size
  have h32 := hp.size32
  obtain ⟨P, e2, hP, h0, hv⟩ := witnessPolys_ok w (inst := arpOf inst k) h.pos hw (by omega) (by omega) h.registers h.rows
  obtain ⟨v, e3, hver⟩ := h.newVerifier (by omega) (2 ^ e)
  have hG : (polyOfList gs).degree < (2 ^ (k + f) : ℕ) := by
    rw [← hgs]; exact polyOf_degree _ _
  have egs : gs = tab (2 ^ (k + f)) (polyOfList gs).coeff := by
    rw [← hgs]
    refine (eq_tab_getD gs 0).trans (tab_congr ?_)
    intro i _
    rw [polyOfList_coeff]
  have ez := forgePoint_eq H w h hp e3 hver e2 hP hG
  rw [← egs] at ez
  refine ⟨v, _, e3, ez, fun hz => ?_⟩
  rw [egs]
  exact forge_accepted H w h hp h33 e3 hver e2 hP hG hz

/-- Two contradictory boundary constraints on the same cell. -/
def contradictoryInst : InstanceProperties Fr :=
  { fibInst Fr 2 1 1 with boundaryConstraints := [⟨.register 0, 0, some 1⟩, ⟨.register 0, 0, some 2⟩] }

theorem contradictory_suitable : Suitable contradictoryInst 2 2 0 where
  rows := rfl
  registers := rfl
  pos := by norm_num
  two_rows := by norm_num
  terms := (fibInst_suitable (F := Fr) 2 (by norm_num) 1 1).terms
  density := (fibInst_suitable (F := Fr) 2 (by norm_num) 1 1).density
  degrees := (fibInst_suitable (F := Fr) 2 (by norm_num) 1 1).degrees
  boundary := by
    intro b' hb
    simp only [contradictoryInst, List.mem_cons, List.not_mem_nil, or_false] at hb
    rcases hb with rfl | rfl
    · exact ⟨⟨0, by norm_num, rfl⟩, by norm_num, _, rfl⟩
    · exact ⟨⟨0, by norm_num, rfl⟩, by norm_num, _, rfl⟩

/-- Forge a proof and verify it, with the toy hash over the field of 257 elements. -/
def forgeVerify (inst : InstanceProperties Fr) (witness : List (List Fr)) (gs : List Fr) (w : Worker) (factor : ℕ) : Res Bool := do
  let v ← Verifier.new inst factor
  let proof ← forge toyHash w inst factor witness gs
  v.verify toyHash proof

/-- **C46 is false**, concretely: an instance that no trace satisfies — hence `is_satisfied` rejects every table —, for which a forged
proof is accepted. -/
theorem C46_accepts_unsatisfiable :
    (∀ trace, ¬ Satisfies contradictoryInst trace (2 ^ 2)) ∧
    (∀ witness, IsTable witness 2 (2 ^ 2) → isSatisfied contradictoryInst witness ≠ .ok ()) ∧
    forgeVerify contradictoryInst [[0, 0, 0, 0], [0, 0, 0, 0]] [1, 2, 3, 4] ⟨1, by norm_num⟩ 2 = .ok true := by
  have no : ∀ trace, ¬ Satisfies contradictoryInst trace (2 ^ 2) := by
    intro trace hs
    have h1 := hs.2 ⟨.register 0, 0, some 1⟩ (by simp [contradictoryInst]) 1 rfl
    have h2 := hs.2 ⟨.register 0, 0, some 2⟩ (by simp [contradictoryInst]) 2 rfl
    exact absurd (h1.symm.trans h2) (by decide)
  refine ⟨no, ?_, by decide +kernel⟩
  intro witness ht hs
  exact no _ (((C33_is_satisfied_iff _ _ 2 (2 ^ 2) (by norm_num) ht contradictory_suitable.wellFormed).1).1 hs)

/-- The hypotheses of `C46_forgery` are met by the contradictory instance. -/
example : Suitable contradictoryInst 2 2 0 ∧ IsTable [[(0 : Fr), 0, 0, 0], [0, 0, 0, 0]] 2 (2 ^ 2) ∧
    RunParams Fr ⟨1, by norm_num⟩ 2 0 1 0 ∧ 2 + 0 + 1 ≤ 32 ∧ [(1 : Fr), 2, 3, 4].length = 2 ^ (2 + 0) :=
  ⟨contradictory_suitable, ⟨rfl, by decide⟩,
    ⟨by decide, by norm_num, by norm_num, by norm_num, by norm_num, .inl rfl, .inl rfl, by decide +kernel, by decide +kernel⟩,
    by norm_num, rfl⟩

/-! ### What the checks guarantee with an ideal low-degree test -/

/-- **C46** (partial: FRI, Merkle openings and the transcript are replaced by an ideal low-degree test and fresh challenges; the real `verify` is
unsound, see `C46_forgery`). Suppose the words of the registers (`fWords`, arbitrary) and of `g` (arbitrary) pass the verifier's
two DEEP tests at an out-of-domain point `z`, with openings `y`, for the constraint challenges `cc`, `bc` and the mask challenges
`αs`. The instance may have any number of rows, any
densities and degrees, the LDE factor must be above twice the slack of the tests (otherwise they accept everything,
`C46_slack_vacuous`). Then a trace exists that satisfies the instance — or one of the challenges was lucky:
* some mask challenge was the only value, the others being the same, for which the test of `h1` passes;
* `z` was one of at most `slack · constraints domain size + column domain size` winning points;
* the constraint challenges admit a `g` with more winning points than that, but changing one given coordinate of them to any
other value would not. -/
theorem C46_ideal_soundness_partial (inst : InstanceProperties F) (n k e slack : ℕ) (h : Verifiable inst n k)
    (hs1 : 1 ≤ slack) (hsl : 2 * slack < 2 ^ e)
    (hdeg : ∀ c ∈ inst.constraints, ∀ t ∈ c.terms, termDegree t ≤ c.degree)
    (hspan : ∀ c ∈ inst.constraints, ∀ d, c.density = .dense d → ∀ t ∈ factors c, ∀ j, t.stepsDifference = .steps j → j ≤ d.span)
    (hrows : ∀ b ∈ inst.boundaryConstraints, b.atRow < inst.numRows)
    (v : Verifier F) (hver : Verifier.new inst (2 ^ e) = .ok v)
    (fWords : List (List F)) (hf : IsTable fWords n (v.columnDomain.size * v.ldeFactor))
    (gWord : List F) (hg : gWord.length = v.constraintsDomain.size * v.ldeFactor)
    (cc bc : List (F × F)) (hcc : cc.length = inst.constraints.length) (hbc : bc.length = inst.boundaryConstraints.length)
    (z : F) (hz : OutOfDomain v z) (y αs : List F) (hy : y.length = v.allMasks.length) (hα : αs.length = v.allMasks.length)
    (h1 : LowH1 v slack fWords z y αs) (h2 : LowH2 v slack gWord cc bc z y) :
    (∃ witness, IsTable witness n inst.numRows ∧ Satisfies inst (cellR witness) inst.numRows) ∨
      LuckyMask v slack fWords z y αs ∨
      (z ∈ winningPoints v slack fWords gWord cc bc ∧ LuckyPoint v slack fWords gWord cc bc) ∨
      (Winnable v slack fWords cc bc ∧ LuckyConstraint v slack fWords cc bc) := by
  by_cases hm : LuckyMask v slack fWords z y αs
  · exact .inr (.inl hm)
  by_cases hp : LuckyPoint v slack fWords gWord cc bc
  · exact .inr (.inr (.inl ⟨⟨hz, y, αs, hy, hα, h1, h2, hm⟩, hp⟩))
  have he : 1 ≤ e := by
    by_contra hc
    have : e = 0 := by omega
    subst this
    omega
  have hsl' : slack < 2 ^ (e - 1) := by
    have : 2 ^ e = 2 * 2 ^ (e - 1) := by rw [← pow_succ']; congr 1; omega
    omega
  have hv := h.built hver
  obtain ⟨K, -, hdom, hK⟩ := hv.domain
  have hw : Winnable v slack fWords cc bc := ⟨gWord, hg, hp⟩
  have s2 : v.constraintsDomain.size * v.ldeFactor = 2 ^ (K + e) := by rw [hdom, hv.factor]; exact (pow_add _ _ _).symm
  have hS : K + e ≤ StarkField.S F := by
    obtain ⟨-, dom, -, -, hd, -⟩ := h2
    rw [s2] at hd
    obtain ⟨M, hM, -, e'⟩ := newForSize_inv hd
    rw [nextPow2_pow] at e'
    have := Nat.pow_right_injective (le_refl 2) e'
    omega
  have hkK := (domain_large hK).2
  rw [hv.column, hv.factor, show (domOf F k).size * 2 ^ e = 2 ^ (k + e) from (pow_add _ _ _).symm] at hf
  obtain ⟨I, hI⟩ := exists_interp_odd (F := F) (show 1 ≤ k + e by omega) (show k + e ≤ StarkField.S F by omega)
  rcases winnable_sound h hdeg hrows he hs1 hsl' hS hv hdom hK hf hspan hI hcc hbc hw with hsat | hl
  · exact .inl ⟨_, extracted_table n k _ _, hsat⟩
  · exact .inr (.inr (.inr ⟨hw, hl⟩))

/-- The ideal tests are passable: for a satisfying trace there are words of the registers, and for all constraint challenges a word of
`g`, that pass both at every out-of-domain point for all mask challenges. So the hypotheses of
`C46_ideal_soundness_partial` are met, and the luck it speaks of is not needed. -/
theorem C46_ideal_complete (inst : InstanceProperties F) (n k e slack : ℕ) (h : Verifiable inst n k) (hs1 : 1 ≤ slack)
    (h2 : 2 ≤ inst.numRows) (hd1 : ∃ c ∈ inst.constraints, 1 ≤ c.degree)
    (hdeg : ∀ c ∈ inst.constraints, ∀ t ∈ c.terms, termDegree t ≤ c.degree)
    (hrows : ∀ b ∈ inst.boundaryConstraints, b.atRow < inst.numRows)
    (v : Verifier F) (hver : Verifier.new inst (2 ^ e) = .ok v)
    (hS : v.constraintsDomain.size * v.ldeFactor ≤ 2 ^ StarkField.S F)
    (witness : List (List F)) (hw : IsTable witness n inst.numRows) (hsat : Satisfies inst (cellR witness) inst.numRows) :
    ∃ fWords, IsTable fWords n (v.columnDomain.size * v.ldeFactor) ∧
      ∀ cc bc : List (F × F), cc.length = inst.constraints.length → bc.length = inst.boundaryConstraints.length →
      ∃ gWord : List F, gWord.length = v.constraintsDomain.size * v.ldeFactor ∧
      ∀ z, OutOfDomain v z → ∃ y : List F, y.length = v.allMasks.length ∧
      LowH2 v slack gWord cc bc z y ∧ ∀ αs, LowH1 v slack fWords z y αs := by
  have hv := h.built hver
  obtain ⟨K, -, hdom, hK⟩ := hv.domain
  obtain ⟨hKD, hkK⟩ := domain_large hK
  have s1 : v.columnDomain.size * v.ldeFactor = 2 ^ (k + e) := by rw [hv.column, hv.factor]; exact (pow_add _ _ _).symm
  have s2 : v.constraintsDomain.size * v.ldeFactor = 2 ^ (K + e) := by
    rw [hdom, hv.factor]; exact (pow_add _ _ _).symm
  rw [s2] at hS
  replace hS : K + e ≤ StarkField.S F := (Nat.pow_le_pow_iff_right (by norm_num)).1 hS
  rw [s1, s2]
  obtain ⟨I, hI⟩ := exists_interp (F := F) (show k ≤ StarkField.S F by omega)
  obtain ⟨P, hPd⟩ : ∃ P : ℕ → F[X], P = fun r => I (witness.getD r []) := ⟨_, rfl⟩
  have hP : ∀ r, (P r).degree < (2 ^ k : ℕ) := fun r => by rw [hPd]; exact (hI _).1
  have hPv : ∀ r, ∀ i, i < inst.numRows → (P r).eval (genOf F k ^ i) = cell witness r i := by
    intro r i hi
    rw [hPd]
    exact (hI _).2 i (lt_of_lt_of_le hi h.rows.1)
  obtain ⟨ps, eps, hps⟩ := h.maskPairs hv.order
  have hm : v.allMasks = ps.map toMask := hv.masks.trans eps
  refine ⟨tab n (fun r => tab (2 ^ (k + e)) (fun i => (P r).eval (genOf F (k + e) ^ i))), ⟨by simp, ?_⟩, ?_⟩
  · intro row hr
    obtain ⟨r, -, rfl⟩ := List.mem_map.1 hr
    simp
  intro cc bc hcc hbc
  obtain ⟨G, hG, hGv⟩ := exists_composition (genOf_prim hv.order) (h2.trans h.rows.1) hP (numRows := inst.numRows)
    (D := degOf inst k) h.rows.1 (by
      obtain ⟨c, hc, hd⟩ := hd1
      have hm : maskC (genOf F k) c ∈ (arpOf inst k).constraints := List.mem_map.2 ⟨c, hc, rfl⟩
      exact le_trans (show 1 ≤ (maskC (genOf F k) c).degree from hd) (le_maxDegree hm))
    ((batched inst k).zip cc) (inst.boundaryConstraints.zip bc)
    (by
      intro c hc
      have hc' := mem_batched.1 (List.of_mem_zip hc).1
      obtain ⟨d, hd, -⟩ := h.dense _ hc'
      refine ⟨d, hd, le_maxDegree hc', ?_, ?_⟩
      · obtain ⟨c0, hc0, e0⟩ := List.mem_map.1 hc'
        rw [← e0]
        intro t ht
        obtain ⟨t0, ht0, rfl⟩ := List.mem_map.1 ht
        rw [termDegree_maskT]
        exact hdeg c0 hc0 t0 ht0
      · exact h.holds hPv hsat _ hc' d hd)
    (by
      intro b hb
      have hb' := (List.of_mem_zip hb).1
      obtain ⟨⟨r, hr, er⟩, v, ev⟩ := h.boundary _ hb'
      refine ⟨r, er, ?_⟩
      rw [hPv r _ (hrows _ hb'), ev, Option.getD_some, ← hsat.2 _ hb' v ev, er]
      rfl)
  replace hG : G.degree < (2 ^ K : ℕ) := lt_of_lt_of_le hG (by exact_mod_cast hKD)
  refine ⟨tab (2 ^ (K + e)) (fun i => G.eval (genOf F (K + e) ^ i)), by simp, ?_⟩
  intro z hz
  unfold OutOfDomain at hz
  rw [s2] at hz
  have hzN : z ^ 2 ^ (k + e) ≠ 1 := by
    intro hc
    apply hz
    rw [show 2 ^ (K + e) = 2 ^ (k + e) * 2 ^ (K - k) by rw [← pow_add]; congr 1; omega, pow_mul, hc, one_pow]
  have hzk : z ^ 2 ^ k ≠ 1 := by
    intro hc
    apply hzN
    rw [pow_add, pow_mul, hc, one_pow]
  have hpz : ∀ p ∈ ps, p.1 < n ∧ (p.2 * z) ^ 2 ^ (k + e) ≠ 1 := by
    intro p hp'
    refine ⟨(hps p hp').1, ?_⟩
    rw [mul_pow]
    have : p.2 ^ 2 ^ (k + e) = 1 := by rw [pow_add, pow_mul, (hps p hp').2, one_pow]
    rw [this, one_mul]
    exact hzN
  refine ⟨ps.map (fun p => (P p.1).eval (p.2 * z)), by rw [hm]; simp, ?_, ?_⟩
  · obtain ⟨Q2, hQ2, hQ2v⟩ := exists_deepG hG (by positivity) z
    refine ⟨G.eval z, domOf F (K + e), Q2, ?_, by rw [s2]; exact newForSize_pow hS, by
      rw [hdom]
      exact lt_of_lt_of_le hQ2 (by exact_mod_cast Nat.le_mul_of_pos_left _ hs1), ?_⟩
    · have hc := calculateGAtZ_poly h hv P hzk cc bc hcc hbc
      rw [eps, List.map_map] at hc
      rw [hGv z hzk, ← hc]
      rfl
    · intro idx hi _
      replace hi : idx < 2 ^ (K + e) := hi
      refine ⟨_, rd_tab hi, ?_⟩
      rw [simulateH2_ok hS G hz idx]
      congr 1
      exact (hQ2v _ (sub_ne_zero.1 (domain_ne hS hz idx))).symm
  · intro αs
    obtain ⟨Q1, hQ1, hQ1v⟩ := exists_deep hP (by positivity) z (ps.zip αs)
    refine ⟨domOf F (k + e), Q1, by rw [s1]; exact newForSize_pow (by omega), by
      rw [hv.column]
      exact lt_of_lt_of_le hQ1 (by exact_mod_cast Nat.le_mul_of_pos_left _ hs1), ?_⟩
    intro idx hi _
    replace hi : idx < 2 ^ (k + e) := hi
    refine ⟨tab n (fun r => (P r).eval (genOf F (k + e) ^ idx)), mapRes_tab _ _ _ _ (fun r _ => rd_tab hi), ?_⟩
    rw [simulateH1_ok v (by omega) P ps hpz hm]
    congr 1
    refine (hQ1v _ ?_).symm
    intro q hq
    exact sub_ne_zero.1 (domain_ne (by omega) (hpz _ (List.of_mem_zip hq).1).2 idx)

/-- With an LDE factor of at most twice the slack the tests accept everything: all words of registers and of `g`, at every out-of-domain point, with any openings and
challenges. With the slack 2 of the code's FRI this is the case for the factors 2 and 4. -/
theorem C46_slack_vacuous (inst : InstanceProperties F) (n k e slack : ℕ) (h : Verifiable inst n k) (he : 1 ≤ e)
    (hsl : 2 ^ e ≤ 2 * slack) (v : Verifier F) (hver : Verifier.new inst (2 ^ e) = .ok v)
    (hS : v.constraintsDomain.size * v.ldeFactor ≤ 2 ^ StarkField.S F)
    (fWords : List (List F)) (hf : IsTable fWords n (v.columnDomain.size * v.ldeFactor))
    (gWord : List F) (hg : gWord.length = v.constraintsDomain.size * v.ldeFactor)
    (cc bc : List (F × F)) (hcc : cc.length = inst.constraints.length) (hbc : bc.length = inst.boundaryConstraints.length)
    (z : F) (hz : OutOfDomain v z) (y αs : List F) (hy : y.length = v.allMasks.length) :
    LowH1 v slack fWords z y αs ∧ LowH2 v slack gWord cc bc z y := by
  have hv := h.built hver
  obtain ⟨K, -, hdom, hK⟩ := hv.domain
  obtain ⟨hKD, hkK⟩ := domain_large hK
  have s1 : v.columnDomain.size * v.ldeFactor = 2 ^ (k + e) := by rw [hv.column, hv.factor]; exact (pow_add _ _ _).symm
  have s2 : v.constraintsDomain.size * v.ldeFactor = 2 ^ (K + e) := by
    rw [hdom, hv.factor]; exact (pow_add _ _ _).symm
  rw [s2] at hS hg
  rw [s1] at hf
  replace hS : K + e ≤ StarkField.S F := (Nat.pow_le_pow_iff_right (by norm_num)).1 hS
  unfold OutOfDomain at hz
  rw [s2] at hz
  have hzN : z ^ 2 ^ (k + e) ≠ 1 := by
    intro hc
    apply hz
    rw [show 2 ^ (K + e) = 2 ^ (k + e) * 2 ^ (K - k) by rw [← pow_add]; congr 1; omega, pow_mul, hc, one_pow]
  have hzk : z ^ 2 ^ k ≠ 1 := by
    intro hc
    apply hzN
    rw [pow_add, pow_mul, hc, one_pow]
  have half : ∀ m, 2 ^ (m + e - 1) ≤ slack * 2 ^ m := by
    intro m
    have e1 : 2 ^ e = 2 * 2 ^ (e - 1) := by rw [← pow_succ']; congr 1; omega
    rw [show m + e - 1 = (e - 1) + m by omega, pow_add]
    exact Nat.mul_le_mul_right _ (by omega)
  obtain ⟨ps, eps, hps⟩ := h.maskPairs hv.order
  have hm : v.allMasks = ps.map toMask := hv.masks.trans eps
  have hpz : ∀ p ∈ ps, p.1 < n ∧ (p.2 * z) ^ 2 ^ (k + e) ≠ 1 := by
    intro p hp'
    refine ⟨(hps p hp').1, ?_⟩
    rw [mul_pow]
    have : p.2 ^ 2 ^ (k + e) = 1 := by rw [pow_add, pow_mul, (hps p hp').2, one_pow]
    rw [this, one_mul]
    exact hzN
  constructor
  · obtain ⟨I, hI⟩ := exists_interp_odd (F := F) (show 1 ≤ k + e by omega) (show k + e ≤ StarkField.S F by omega)
    obtain ⟨val, hval⟩ : ∃ val : ℕ → F, ∀ idx, idx < 2 ^ (k + e) →
        ∃ opened, mapRes (fun word => rd word idx) fWords = .ok opened ∧
          v.simulateH1 αs idx (domOf F (k + e)) opened y z = .ok (val idx) :=
      ⟨_, fun idx hi => ⟨_, opened_ok hf hi, simulateH1_any v (by omega) ps hpz hm _ y αs idx⟩⟩
    refine ⟨domOf F (k + e), I (tab (2 ^ (k + e)) val), by rw [s1]; exact newForSize_pow (by omega), ?_, ?_⟩
    · rw [hv.column]
      exact lt_of_lt_of_le (hI _).1 (by exact_mod_cast half k)
    · intro idx hi ho
      replace hi : idx < 2 ^ (k + e) := hi
      obtain ⟨opened, h1, h2⟩ := hval idx hi
      refine ⟨opened, h1, h2.trans ?_⟩
      have := (hI (tab (2 ^ (k + e)) val)).2 idx hi ho
      rw [List.getD_eq_getElem?_getD, getElem?_tab, if_pos hi, Option.getD_some] at this
      exact congrArg Res.ok this.symm
  · obtain ⟨I, hI⟩ := exists_interp_odd (F := F) (show 1 ≤ K + e by omega) (show K + e ≤ StarkField.S F by omega)
    have hbat : v.constraintsBatchedByDensity.flatMap (fun b => b.2) = batched inst k := by rw [hv.batches]; rfl
    obtain ⟨c, hgz⟩ : ∃ c, v.calculateGAtZ cc bc y z = .ok c := ⟨_, (calculateGAtZ_iff h hv (cc := cc) (bc := bc) (by rw [hbat, length_batched]; exact hcc) hbc y z _).2
      ⟨⟨by omega, fun _ => by rw [hv.column]; exact hzk, by
        intro b _ e'
        apply hzk
        rw [e', hv.column]
        show (genOf F k ^ b.atRow) ^ 2 ^ k = 1
        rw [← pow_mul, mul_comm, pow_mul, genOf_pow_card hv.order, one_pow]⟩, rfl⟩⟩
    refine ⟨_, domOf F (K + e), I (tab (2 ^ (K + e)) (fun idx => (gWord.getD idx 0 - c) * (genOf F (K + e) ^ idx - z)⁻¹)), hgz,
      by rw [s2]; exact newForSize_pow hS, ?_, ?_⟩
    · rw [hdom]
      exact lt_of_lt_of_le (hI _).1 (by exact_mod_cast half K)
    · intro idx hi ho
      replace hi : idx < 2 ^ (K + e) := hi
      refine ⟨gWord.getD idx 0, ?_, ?_⟩
      · unfold rd
        rw [List.getD_eq_getElem?_getD, List.getElem?_eq_getElem (by omega), Res.expect_some, Option.getD_some]
      · have := (hI (tab (2 ^ (K + e)) (fun idx => (gWord.getD idx 0 - c) * (genOf F (K + e) ^ idx - z)⁻¹))).2 idx hi ho
        rw [List.getD_eq_getElem?_getD, getElem?_tab, if_pos hi, Option.getD_some] at this
        unfold simulateH2
        have hne : (domOf F (K + e)).generator ^ idx - z ≠ 0 := domain_ne hS hz idx
        simp only [inverse_of_ne hne, Res.okOr_some, Res.ok_bind, Res.pure_def]
        exact congrArg Res.ok this.symm

/-- An instance with two densities and three rows, with LDE factor 8, meets what `C46_ideal_soundness_partial` asks of the instance, and the trace `1, 2, 4`
satisfies it. -/
theorem threeRows_setup : ∃ v, Verifier.new threeRows (2 ^ 3) = .ok v ∧ OutOfDomain v 3 ∧ v.constraintsDomain.size = 4 ∧
      (∀ c ∈ threeRows.constraints, ∀ t ∈ c.terms, termDegree t ≤ c.degree) ∧
      (∀ c ∈ threeRows.constraints, ∀ d, c.density = .dense d → ∀ t ∈ factors c, ∀ j, t.stepsDifference = .steps j → j ≤ d.span) ∧
      (∀ b ∈ threeRows.boundaryConstraints, b.atRow < threeRows.numRows) ∧
      IsTable [[(1 : Fr), 2, 4]] 1 threeRows.numRows ∧ Satisfies threeRows (cellR [[(1 : Fr), 2, 4]]) threeRows.numRows := by
  have h := threeRows_verifiable
  have hcs : ∀ c ∈ threeRows.constraints, c = doubling ∨ c = quadrupling := by
    intro c hc; simpa [threeRows, mixedInst] using hc
  obtain ⟨v, e3⟩ : ∃ v, Verifier.new threeRows (2 ^ 3) = .ok v := by
    cases e : Verifier.new threeRows (2 ^ 3) with
    | ok v => exact ⟨v, rfl⟩
    | err x => exact absurd e (by
        intro e
        have : setupSizes threeRows 8 = .err x := by unfold setupSizes; rw [show (8 : ℕ) = 2 ^ 3 from rfl, e]; rfl
        rw [show setupSizes threeRows 8 = .ok (2, 3, 4, 4) by decide +kernel] at this
        cases this)
    | panic => exact absurd e (by
        intro e
        have : setupSizes threeRows 8 = .panic := by unfold setupSizes; rw [show (8 : ℕ) = 2 ^ 3 from rfl, e]; rfl
        rw [show setupSizes threeRows 8 = .ok (2, 3, 4, 4) by decide +kernel] at this
        cases this)
  have hsz : v.constraintsDomain.size = 4 := by
    have : setupSizes threeRows 8 = .ok (2, 3, 4, 4) := by decide +kernel
    unfold setupSizes at this
    rw [show (8 : ℕ) = 2 ^ 3 from rfl, e3] at this
    simp only [Res.ok_bind, Res.pure_def, Res.ok.injEq, Prod.mk.injEq] at this
    exact this.2.2.2
  have hz : OutOfDomain v 3 := by
    unfold OutOfDomain
    rw [hsz, (h.built e3).factor]
    show (3 : Fr) ^ (4 * 8) ≠ 1
    decide +kernel
  have hdeg : ∀ c ∈ threeRows.constraints, ∀ t ∈ c.terms, termDegree t ≤ c.degree := by
    intro c hc
    rcases hcs c hc with rfl | rfl <;> decide
  have hspan : ∀ c ∈ threeRows.constraints, ∀ d, c.density = .dense d → ∀ t ∈ factors c, ∀ j,
      t.stepsDifference = .steps j → j ≤ d.span := by
    intro c hc d hd t ht j hj
    rcases hcs c hc with rfl | rfl
    · cases hd
      simp only [factors, termFactors, doubling, Constraint.addUnivariate, Constraint.subUnivariate, Constraint.push, Constraint.default,
        List.nil_append, List.cons_append, List.flatMap_cons, List.flatMap_nil, List.append_nil, List.mem_cons, List.not_mem_nil, or_false] at ht
      rcases ht with rfl | rfl <;> cases hj <;> decide
    · cases hd
      simp only [factors, termFactors, quadrupling, Constraint.addUnivariate, Constraint.subUnivariate, Constraint.push, Constraint.default,
        List.nil_append, List.cons_append, List.flatMap_cons, List.flatMap_nil, List.append_nil, List.mem_cons, List.not_mem_nil, or_false] at ht
      rcases ht with rfl | rfl <;> cases hj <;> decide
  have hrows : ∀ b ∈ threeRows.boundaryConstraints, b.atRow < threeRows.numRows := by
    intro b hb
    have hb : b = ⟨.register 0, 0, some 1⟩ := by simpa [threeRows, mixedInst] using hb
    subst hb
    decide
  have ht : IsTable [[(1 : Fr), 2, 4]] 1 threeRows.numRows := ⟨rfl, by decide⟩
  have hsat : Satisfies threeRows (cellR [[(1 : Fr), 2, 4]]) threeRows.numRows :=
    ((C33_is_satisfied_iff _ _ 1 3 (by norm_num) ht ⟨fun c hc => by
      obtain ⟨d, e, hd⟩ := h.density c hc
      exact ⟨d, e, by have : threeRows.numRows = 3 := rfl; omega⟩, h.reads, fun b hb => ⟨(h.boundary b hb).1, hrows b hb⟩⟩).1).1 (by decide +kernel)
  exact ⟨v, e3, hz, hsz, hdeg, hspan, hrows, ht, hsat⟩

/-- The hypotheses of `C46_ideal_soundness_partial` are met by an instance with two densities and three rows, the words of the trace
`1, 2, 4`, the point `3` and any challenges. -/
example (slack : ℕ) (hs1 : 1 ≤ slack) (hs2 : slack ≤ 2) (cc bc : List (Fr × Fr)) (hcc : cc.length = 2) (hbc : bc.length = 1) :
    2 * slack < 2 ^ 3 ∧ ∃ v, Verifier.new threeRows (2 ^ 3) = .ok v ∧ OutOfDomain v 3 ∧
      (∀ c ∈ threeRows.constraints, ∀ t ∈ c.terms, termDegree t ≤ c.degree) ∧
      (∀ c ∈ threeRows.constraints, ∀ d, c.density = .dense d → ∀ t ∈ factors c, ∀ j, t.stepsDifference = .steps j → j ≤ d.span) ∧
      (∀ b ∈ threeRows.boundaryConstraints, b.atRow < threeRows.numRows) ∧
      ∃ fWords gWord y αs, IsTable fWords 1 (v.columnDomain.size * v.ldeFactor) ∧
        gWord.length = v.constraintsDomain.size * v.ldeFactor ∧ y.length = v.allMasks.length ∧
        αs.length = v.allMasks.length ∧ LowH1 v slack fWords 3 y αs ∧ LowH2 v slack gWord cc bc 3 y := by
  have h := threeRows_verifiable
  obtain ⟨v, e3, hz, hsz, hdeg, hspan, hrows, ht, hsat⟩ := threeRows_setup
  obtain ⟨fWords, hf, hrest⟩ := C46_ideal_complete _ 1 2 3 slack h hs1 (by decide) ⟨doubling, by simp [threeRows, mixedInst], by decide⟩ hdeg hrows v e3
    (by rw [hsz, (h.built e3).factor]; decide) _ ht hsat
  obtain ⟨gWord, hg, hrest⟩ := hrest cc bc hcc hbc
  obtain ⟨y, hy, h2, h1⟩ := hrest 3 hz
  exact ⟨by omega, v, e3, hz, hdeg, hspan, hrows, fWords, gWord, y, List.replicate v.allMasks.length 0, hf, hg, hy, List.length_replicate, h1 _, h2⟩

end Hodor

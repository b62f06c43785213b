import Verif.Lemmas.Hiding
import Verif.Props.ProofShape
import Verif.Props.SameProof
import Verif.Props.LdeExact

/-!
# C82: What a proof reveals about the witness
-/

namespace Hodor

open Polynomial Spec

variable {F : Type} [Field F] [DecidableEq F] [StarkField F] (H : List UInt8 → Digest)

/-- The exponent of the point opened for an odd index is not a multiple of the factor, whatever the worker. -/
theorem ldePoint_mod (w : Worker) {e idx : ℕ} (he : 1 ≤ e) (hodd : idx % 2 = 1) :
    ldePoint (w.chunkSize (2 ^ e)) (2 ^ e) idx % 2 ^ e ≠ 0 := by
  have hdvd : 2 ∣ 2 ^ e := dvd_pow_self 2 (by omega)
  have hr : idx % 2 ^ e % 2 = 1 := by rw [Nat.mod_mod_of_dvd _ hdvd, hodd]
  have hlt : idx % 2 ^ e < 2 ^ e := Nat.mod_lt _ (by positivity)
  unfold ldePoint
  rw [Nat.add_mul_mod_self_left]
  generalize idx % 2 ^ e = r at *
  have hd := Nat.div_add_mod r (w.chunkSize (2 ^ e))
  rcases Nat.eq_zero_or_pos (w.chunkSize (2 ^ e)) with h0 | hc
  · rw [h0, Nat.div_zero, Nat.mod_zero, Nat.zero_add, Nat.mod_eq_of_lt hlt]
    omega
  · have hle : r / w.chunkSize (2 ^ e) ≤ w.chunkSize (2 ^ e) * (r / w.chunkSize (2 ^ e)) := Nat.le_mul_of_pos_left _ hc
    generalize r / w.chunkSize (2 ^ e) = a at *
    generalize r % w.chunkSize (2 ^ e) = b at *
    have ha : a = 0 → w.chunkSize (2 ^ e) * a = 0 := by rintro rfl; rw [Nat.mul_zero]
    generalize w.chunkSize (2 ^ e) * a = m at *
    rw [Nat.mod_eq_of_lt (by omega)]
    omega

/-- The word that is committed for a register: the values of its polynomial at the points that the LDE uses. -/
noncomputable def Spec.registerWord (g ω : F) (N factor chunk : ℕ) (witness : List (List F)) (r : Register) : List F :=
  (List.range (N * factor)).map (fun i => columnAt g N (column witness N r) (ω ^ ldePoint chunk factor i))

section
variable {inst : InstanceProperties F} {n k f e o : ℕ}

/-- **C82** (what is shown). Whatever the number of CPUs, the instance, the witness table and the parameters: if `prove` returns a proof for a runnable instance with LDE factor `2^e ≥ 2`, then
* the claimed values are, in some order, the values of the register polynomials at the points `g^j z`, one for each different pair of register and offset `j` that is read, and nothing else;
* the opening of each register is the value of its polynomial at one and the same point `x`;
* `x` is none of the `g^j z`, and none of them is a point of the trace domain: no cell of the table is shown. -/
theorem C82_shown (w : Worker) (h : Runnable inst n k f) (hp : ProverParams F k f e o) (hfac : 1 ≤ e) (hout : o < k) (witness : List (List F))
    (hw : IsTable witness n (2 ^ k)) (prover : Prover F) (hprover : Prover.new w inst (2 ^ e) (2 ^ o) = .ok prover)
    (v : Verifier F) (hver : Verifier.new inst (2 ^ e) = .ok v) (proof : InstanceProof F)
    (hproof : prover.prove H witness = .ok proof) :
    ∃ ch fDom gDom dom x, v.deriveChallenges H proof = .ok (ch, fDom, gDom) ∧ Domain.newForSize F (2 ^ k) = .ok dom ∧
      fDom.size = 2 ^ (k + e) ∧ x = fDom.generator ^ ldePoint (w.chunkSize (2 ^ e)) (2 ^ e) ch.idx1 ∧
      List.Perm proof.fAtZM ((readPairs inst (2 ^ k)).dedup.map (fun p => columnAt dom.generator (2 ^ k) (column witness (2 ^ k) p.1) (dom.generator ^ p.2 * ch.z))) ∧
      proof.fQueries.length = n ∧
      (∀ r, r < n → ∃ q, proof.fQueries[r]? = some q ∧ q.index = ch.idx1 ∧
        q.value = columnAt dom.generator (2 ^ k) (column witness (2 ^ k) (.register r)) x) ∧
      (∀ i, x ≠ dom.generator ^ i) ∧ (∀ i j, dom.generator ^ j * ch.z ≠ dom.generator ^ i) ∧ (∀ j, dom.generator ^ j * ch.z ≠ x) := by
  have hS := hp.size
  have h32 := hp.size32
  obtain ⟨P, e2, hP, h0, hv⟩ := witnessPolys_ok w (inst := arpOf inst k) h.pos hw (by omega) (by omega) h.registers h.rows
  obtain ⟨v', e3, hver'⟩ := h.newVerifier (by omega) (2 ^ e)
  rw [hver] at e3
  cases e3
  obtain ⟨Q, G, L, ps, Q1, Q2, idx1, idx2, hlink, eps, hps, hG, -, hl, hz, -, -, v1, v2, i1, i2, i1l, i1o, i2l, i2o, rfl⟩ :=
    prove_word_lde H w h hp hout e2 hP hprover hproof
  have hg : IsPrimitiveRoot (genOf F k) (2 ^ k) := genOf_prim (by omega)
  have hω : IsPrimitiveRoot (genOf F (k + e)) (2 ^ (k + e)) := genOf_prim (by omega)
  have hcol : ∀ r, r < n → ∀ x, columnAt (genOf F k) (2 ^ k) (column witness (2 ^ k) (.register r)) x = (P r).eval x := by
    intro r hr x
    exact columnAt_eq hg _ (hP r) (fun i => hv r hr i i.2) x
  set z := runZ H inst n k f e Q L with hzdef
  have hzk : ∀ j, (genOf F k ^ j * z) ^ 2 ^ (k + e) ≠ 1 := by
    intro j hc
    rw [mul_pow, ← pow_mul, mul_comm j, pow_mul, show 2 ^ (k + e) = 2 ^ k * 2 ^ e from pow_add _ _ _, pow_mul (genOf F k), hg.pow_eq_one,
      one_pow, one_pow, one_mul, ← pow_add] at hc
    apply hz
    rw [show 2 ^ (k + f + e) = 2 ^ (k + e) * 2 ^ f by rw [← pow_add]; congr 1; omega, pow_mul, hc, one_pow]
  refine ⟨_, _, _, domOf F k, _, derive_word H hp hver' eps i1 i2, newForSize_pow (by omega), rfl, rfl, ?_, by simp [wordProof], ?_, ?_, ?_, ?_⟩
  · simp only [wordProof, domOf, ← hzdef]
    have hnd : (ps.map (toMask (F := F))).Nodup := by rw [← eps]; exact nodup_masksOf _
    have hreg : ∀ p ∈ readPairs inst (2 ^ k), ∃ r, r < n ∧ p.1 = .register r := by
      intro p hp'
      have := (mem_masksOf_iff h (by omega) ⟨p.1, .mask (genOf F k ^ p.2)⟩).2 ⟨p, hp', rfl⟩
      rw [eps] at this
      obtain ⟨q, hq, eq⟩ := List.mem_map.1 this
      simp only [toMask, MaskProperties.mk.injEq] at eq
      exact ⟨q.1, (hps q hq).1, eq.1.symm⟩
    have hperm : List.Perm (ps.map (toMask (F := F))) ((readPairs inst (2 ^ k)).dedup.map (fun x => (⟨x.1, .mask (genOf F k ^ x.2)⟩ : MaskProperties F))) := by
      refine (List.perm_ext_iff_of_nodup hnd ?_).2 ?_
      · refine List.Nodup.map_on ?_ (List.nodup_dedup _)
        intro x hx y hy exy
        rw [List.mem_dedup] at hx hy
        simp only [MaskProperties.mk.injEq, StepDifference.mask.injEq] at exy
        exact Prod.ext exy.1 (hg.pow_inj (readPairs_lt x hx) (readPairs_lt y hy) exy.2)
      · intro m
        rw [← eps, mem_masksOf_iff h (by omega)]
        simp only [List.mem_map, List.mem_dedup]
    have := hperm.map (fun m : MaskProperties F => match m.register, m.stepsDifference with
      | .register r, .mask a => (P r).eval (a * z)
      | _, _ => 0)
    rw [List.map_map, List.map_map] at this
    refine this.trans (List.Perm.of_eq ?_)
    apply List.map_congr_left
    intro p hp'
    obtain ⟨r, hr, er⟩ := hreg p (List.mem_dedup.1 hp')
    simp only [Function.comp, er, hcol r hr]
  · intro r hr
    refine ⟨friQuery H (k + e) (Q r) 0 idx1, by simp [wordProof, hr], rfl, ?_⟩
    simp only [domOf]
    rw [hcol r hr]
    exact hlink r idx1 i1l
  · intro i hc
    have : (genOf F (k + e) ^ ldePoint (w.chunkSize (2 ^ e)) (2 ^ e) idx1) ^ 2 ^ k = 1 := by
      rw [show genOf F (k + e) ^ ldePoint (w.chunkSize (2 ^ e)) (2 ^ e) idx1 = genOf F k ^ i from hc, ← pow_mul, mul_comm, pow_mul, hg.pow_eq_one, one_pow]
    rw [← pow_mul, hω.pow_eq_one_iff_dvd, pow_add, mul_comm] at this
    exact ldePoint_mod w hfac i1o (Nat.mod_eq_zero_of_dvd (Nat.dvd_of_mul_dvd_mul_right (by positivity) this))
  · intro i j hc
    apply hzk j
    rw [show genOf F k ^ j * z = genOf F k ^ i from hc, ← pow_mul, mul_comm, pow_add, mul_assoc, pow_mul, hg.pow_eq_one, one_pow]
  · intro j hc
    apply hzk j
    rw [show genOf F k ^ j * z = genOf F (k + e) ^ _ from hc, ← pow_mul, mul_comm, pow_mul, hω.pow_eq_one, one_pow]

/-- **C82** (how much is hidden). In the run of `C82_shown`, if `z` is not 0, take any register `r` and any set `S` of its cells. The columns that agree with the column of `r` outside `S`, and would give the same claimed values and the same opening for `r`, number
`|F|` to the power of `|S|` less the number of different offsets at which `r` is read and the one opening. So free cells hide each other as long as there are more of them than that, and otherwise the rest of the column and the proof determine them. -/
theorem C82_hidden [Finite F] (w : Worker) (h : Runnable inst n k f) (hp : ProverParams F k f e o) (hfac : 1 ≤ e) (hout : o < k) (witness : List (List F))
    (hw : IsTable witness n (2 ^ k)) (prover : Prover F) (hprover : Prover.new w inst (2 ^ e) (2 ^ o) = .ok prover)
    (v : Verifier F) (hver : Verifier.new inst (2 ^ e) = .ok v) (proof : InstanceProof F)
    (hproof : prover.prove H witness = .ok proof) (ch : Challenges F) (fDom gDom dom : Domain F)
    (hch : v.deriveChallenges H proof = .ok (ch, fDom, gDom)) (hdom : Domain.newForSize F (2 ^ k) = .ok dom)
    (hz : ch.z ≠ 0) (r : Register) (S : Finset (Fin (2 ^ k))) :
    Nat.card {c : Fin (2 ^ k) → F // (∀ i ∉ S, c i = column witness (2 ^ k) r i) ∧
      (∀ j, (r, j) ∈ readPairs inst (2 ^ k) → columnAt dom.generator (2 ^ k) c (dom.generator ^ j * ch.z)
        = columnAt dom.generator (2 ^ k) (column witness (2 ^ k) r) (dom.generator ^ j * ch.z)) ∧
      columnAt dom.generator (2 ^ k) c (fDom.generator ^ ldePoint (w.chunkSize (2 ^ e)) (2 ^ e) ch.idx1)
        = columnAt dom.generator (2 ^ k) (column witness (2 ^ k) r) (fDom.generator ^ ldePoint (w.chunkSize (2 ^ e)) (2 ^ e) ch.idx1)}
      = Nat.card F ^ (S.card - (((readPairs inst (2 ^ k)).toFinset.filter (fun p => p.1 = r)).card + 1)) := by
  classical
  obtain ⟨ch', fDom', gDom', dom', x, d1, d2, -, ex, -, -, -, hx, hzg, hzx⟩ := C82_shown H w h hp hfac hout witness hw prover hprover v hver proof hproof
  rw [hch] at d1
  cases d1
  rw [hdom] at d2
  cases d2
  rw [← ex]
  have hS := hp.size
  have hdk : dom = domOf F k := by
    rw [newForSize_pow (show k ≤ StarkField.S F by omega)] at hdom
    cases hdom
    rfl
  have hg : IsPrimitiveRoot dom.generator (2 ^ k) := by rw [hdk]; exact genOf_prim (by omega)
  set T : Finset F := insert x (((readPairs inst (2 ^ k)).toFinset.filter (fun p => p.1 = r)).image (fun p => dom.generator ^ p.2 * ch.z)) with hT
  have hcard : T.card = ((readPairs inst (2 ^ k)).toFinset.filter (fun p => p.1 = r)).card + 1 := by
    rw [hT, Finset.card_insert_of_notMem, Finset.card_image_of_injOn]
    · intro p hp' q hq epq
      simp only [Finset.coe_filter, List.mem_toFinset, Set.mem_setOf_eq] at hp' hq
      exact Prod.ext (hp'.2.trans hq.2.symm) (hg.pow_inj (readPairs_lt p hp'.1) (readPairs_lt q hq.1) (mul_right_cancel₀ hz epq))
    · rw [Finset.mem_image]
      rintro ⟨p, -, hp'⟩
      exact hzx _ hp'
  rw [← hcard, ← card_columns hg S T ?_ (column witness (2 ^ k) r)]
  · refine Nat.card_congr (Equiv.subtypeEquivRight fun c => and_congr Iff.rfl ?_)
    constructor
    · rintro ⟨h1, h2⟩ y hy
      rcases Finset.mem_insert.1 hy with rfl | hy
      · exact h2
      · obtain ⟨p, hp', rfl⟩ := Finset.mem_image.1 hy
        rw [Finset.mem_filter, List.mem_toFinset] at hp'
        exact h1 p.2 (by rw [← hp'.2]; exact hp'.1)
    · intro hall
      refine ⟨fun j hj => hall _ (Finset.mem_insert_of_mem (Finset.mem_image.2 ⟨(r, j), ?_, rfl⟩)), hall _ (Finset.mem_insert_self _ _)⟩
      rw [Finset.mem_filter, List.mem_toFinset]
      exact ⟨hj, rfl⟩
  · intro y hy i
    rcases Finset.mem_insert.1 hy with rfl | hy
    · exact hx i
    · obtain ⟨p, -, rfl⟩ := Finset.mem_image.1 hy
      exact hzg i p.2

/-- **C82** (the neighbour). In the run of `C82_shown`, if the position that is opened leaves the remainder 1 modulo the LDE factor — with factor 2 it always does — then the first digest of the path of each register is the
hash of one cell of the table, with nothing added to it: anyone can check a guess of that cell, and every wrong guess fails the check, unless it is a collision. -/
theorem C82_neighbour (hb : numBits F < 256) (w : Worker) (h : Runnable inst n k f) (hp : ProverParams F k f e o) (hout : o < k) (witness : List (List F))
    (hw : IsTable witness n (2 ^ k)) (prover : Prover F) (hprover : Prover.new w inst (2 ^ e) (2 ^ o) = .ok prover)
    (proof : InstanceProof F) (hproof : prover.prove H witness = .ok proof) :
    ∃ idx, idx < 2 ^ (k + e) ∧ idx % 2 = 1 ∧ (∀ q ∈ proof.fQueries, q.index = idx) ∧ (e = 1 → idx % 2 ^ e = 1) ∧
      (idx % 2 ^ e = 1 → ∀ r, r < n → ∃ q, proof.fQueries[r]? = some q ∧
        q.path.head? = some (H (encodeLeaf (cell witness r (idx / 2 ^ e))))) ∧
      (idx % 2 ^ e = 1 → ∀ r, r < n → ∀ y : F, (∃ q, proof.fQueries[r]? = some q ∧ q.path.head? = some (H (encodeLeaf y))) →
        y = cell witness r (idx / 2 ^ e) ∨ CollisionAmong H (fun s => s = encodeLeaf y ∨ s = encodeLeaf (cell witness r (idx / 2 ^ e)))) := by
  have hS := hp.size
  have hfac := hp.factor
  have h32 := hp.size32
  obtain ⟨P, e2, hP, h0, hv⟩ := witnessPolys_ok w (inst := arpOf inst k) h.pos hw (by omega) (by omega) h.registers h.rows
  obtain ⟨Q, G, L, ps, Q1, Q2, idx1, idx2, hlink, eps, hps, hG, -, hl, hz, -, -, v1, v2, i1, i2, i1l, i1o, i2l, i2o, rfl⟩ :=
    prove_word_lde H w h hp hout e2 hP hprover hproof
  have hleaf : idx1 % 2 ^ e = 1 → ∀ r, r < n → ∃ q, (wordProof H inst n k f e o P Q L ps Q1 Q2 idx1 idx2).fQueries[r]? = some q ∧
      q.path.head? = some (H (encodeLeaf (cell witness r (idx1 / 2 ^ e)))) := by
    intro hmod r hr
    refine ⟨friQuery H (k + e) (Q r) 0 idx1, by simp [wordProof, hr], ?_⟩
    have hfac : e ≠ 0 := by rintro rfl; simp [Nat.mod_one] at hmod
    have hx : idx1 ^^^ 1 = 2 ^ e * (idx1 / 2 ^ e) := by
      have h1 := Nat.div_add_mod idx1 (2 ^ e)
      rw [hmod] at h1
      have h2 : (2 ^ e * (idx1 / 2 ^ e)) % 2 = 0 := by
        rw [Nat.mul_mod, Nat.mod_eq_zero_of_dvd (dvd_pow_self 2 hfac), Nat.zero_mul, Nat.zero_mod]
      rw [xor_one_eq, if_neg (by omega)]
      omega
    have hhd : (honestPath H (fun t => H (encodeLeaf (friVals (k + e) (Q r) t))) (k + e) idx1).head?
        = some (H (encodeLeaf (friVals (k + e) (Q r) (idx1 ^^^ 1)))) := by
      rw [List.head?_eq_getElem?, honestPath, getElem?_tab, if_pos (by omega)]
      simp [merkle]
    refine hhd.trans ?_
    rw [hx]
    congr 3
    have hlt : idx1 / 2 ^ e < 2 ^ k := by
      rw [Nat.div_lt_iff_lt_mul (by positivity), ← pow_add]
      exact i1l
    rw [friVals, hlink r _ (by rw [pow_add, mul_comm]; exact Nat.mul_lt_mul_of_pos_right hlt (by positivity)), ← hv r hr _ hlt]
    congr 1
    have : ldeExp w e (2 ^ e * (idx1 / 2 ^ e)) = 2 ^ e * (idx1 / 2 ^ e) := by
      unfold ldeExp ldeStart
      simp
    rw [this, pow_mul]
    rw [genOf_pow (by omega)]
  refine ⟨idx1, i1l, i1o, ?_, ?_, ?_, ?_⟩
  · intro q hq
    obtain ⟨r, -, rfl⟩ := mem_tab.1 (show q ∈ tab n _ from hq)
    rfl
  · rintro rfl
    simpa using i1o
  · exact hleaf
  · rintro hmod r hr y ⟨q, hq, hh⟩
    obtain ⟨q', hq', hh'⟩ := hleaf hmod r hr
    rw [hq] at hq'
    cases hq'
    rw [hh] at hh'
    injection hh' with hh'
    by_cases hy : y = cell witness r (idx1 / 2 ^ e)
    · exact .inl hy
    · exact .inr ⟨_, _, .inl rfl, .inr rfl, fun hc => hy ((C20_leaf_encoding hb _ _).2.1 hc), hh'⟩

/-- **C82** (no extension). With LDE factor 1 nothing of this holds: the opening of each register is a cell of the table, all of one and the same row. -/
theorem C82_factor_one (w : Worker) (h : Runnable inst n k f) (hp : ProverParams F k f 0 o) (hout : o < k) (witness : List (List F))
    (hw : IsTable witness n (2 ^ k)) (prover : Prover F) (hprover : Prover.new w inst 1 (2 ^ o) = .ok prover)
    (proof : InstanceProof F) (hproof : prover.prove H witness = .ok proof) :
    ∃ row, row < 2 ^ k ∧ row % 2 = 1 ∧ ∀ r, r < n → ∃ q, proof.fQueries[r]? = some q ∧ q.index = row ∧ q.value = cell witness r row := by
  have hS := hp.size
  have h32 := hp.size32
  obtain ⟨P, e2, hP, h0, hv⟩ := witnessPolys_ok w (inst := arpOf inst k) h.pos hw (by omega) (by omega) h.registers h.rows
  obtain ⟨Q, G, L, ps, Q1, Q2, idx1, idx2, hlink, eps, hps, hG, -, hl, hz, -, -, v1, v2, i1, i2, i1l, i1o, i2l, i2o, rfl⟩ :=
    prove_word_lde H w h hp hout e2 hP (by rw [pow_zero]; exact hprover) hproof
  refine ⟨idx1, i1l, i1o, fun r hr => ⟨friQuery H (k + 0) (Q r) 0 idx1, by simp [wordProof, hr], rfl, ?_⟩⟩
  have hval := hlink r idx1 i1l
  have : ldeExp w 0 idx1 = idx1 := by
    unfold ldeExp ldeStart
    simp [Nat.mod_one]
  rw [this] at hval
  rw [← hv r hr idx1 i1l]
  exact hval

/-- **C82** (guessing the whole table). `prove` is a function of the table: it adds nothing random. If the same prover returns proofs with the same roots of the registers for two tables, then the tables are the same, or the hash function
collides on strings that are hashed for the two commitments to one register. So the roots in a proof tell whether a guess of the whole table is right. -/
theorem C82_guess (hb : numBits F < 256) (w : Worker) (h : Runnable inst n k f) (hp : ProverParams F k f e o) (hout : o < k) (witness witness' : List (List F))
    (hw : IsTable witness n (2 ^ k)) (hw' : IsTable witness' n (2 ^ k)) (prover : Prover F) (hprover : Prover.new w inst (2 ^ e) (2 ^ o) = .ok prover)
    (proof proof' : InstanceProof F) (hproof : prover.prove H witness = .ok proof) (hproof' : prover.prove H witness' = .ok proof')
    (dom fDom : Domain F) (hdom : Domain.newForSize F (2 ^ k) = .ok dom) (hfdom : Domain.newForSize F (2 ^ (k + e)) = .ok fDom)
    (hroots : proof.fIopRoots = proof'.fIopRoots) :
    witness = witness' ∨ ∃ r, r < n ∧ CollisionAmong H (fun s =>
      TreeHashed H (fun i => (registerWord dom.generator fDom.generator (2 ^ k) (2 ^ e) (w.chunkSize (2 ^ e)) witness (.register r)).getD i 0) (k + e) s ∨
      TreeHashed H (fun i => (registerWord dom.generator fDom.generator (2 ^ k) (2 ^ e) (w.chunkSize (2 ^ e)) witness' (.register r)).getD i 0) (k + e) s) := by
  have hS := hp.size
  have hfac := hp.factor
  have h32 := hp.size32
  rw [newForSize_pow (show k ≤ StarkField.S F by omega)] at hdom
  cases hdom
  rw [newForSize_pow (show k + e ≤ StarkField.S F by omega)] at hfdom
  cases hfdom
  have hg : IsPrimitiveRoot (genOf F k) (2 ^ k) := genOf_prim (by omega)
  have run : ∀ (witness : List (List F)) (proof : InstanceProof F), IsTable witness n (2 ^ k) → prover.prove H witness = .ok proof →
      ∃ Q : ℕ → F[X], proof.fIopRoots = tab n (fun r => friRoot H (k + e) (Q r) 0) ∧
        (∀ r, r < n → ∀ i, i < 2 ^ k → (Q r).eval (genOf F (k + e) ^ (2 ^ e * i)) = cell witness r i) ∧
        ∀ r, r < n → tab (2 ^ (k + e)) (friVals (k + e) (Q r)) =
          registerWord (genOf F k) (genOf F (k + e)) (2 ^ k) (2 ^ e) (w.chunkSize (2 ^ e)) witness (.register r) := by
    intro witness proof hw hproof
    obtain ⟨P, e2, hP, h0, hv⟩ := witnessPolys_ok w (inst := arpOf inst k) h.pos hw (by omega) (by omega) h.registers h.rows
    obtain ⟨Q, G, L, ps, Q1, Q2, idx1, idx2, hlink, eps, hps, hG, -, hl, hz, -, -, v1, v2, i1, i2, i1l, i1o, i2l, i2o, rfl⟩ :=
      prove_word_lde H w h hp hout e2 hP hprover hproof
    refine ⟨Q, rfl, ?_, ?_⟩
    · intro r hr i hi
      rw [hlink r _ (by rw [pow_add, mul_comm]; exact Nat.mul_lt_mul_of_pos_right hi (by positivity)), ← hv r hr _ hi]
      have : ldeExp w e (2 ^ e * i) = 2 ^ e * i := by
        unfold ldeExp ldeStart
        simp
      rw [this, pow_mul, genOf_pow (by omega)]
    · intro r hr
      unfold registerWord
      rw [← pow_add]
      apply tab_congr
      intro i hi
      rw [friVals, hlink r i hi]
      exact (columnAt_eq hg _ (hP r) (fun i => hv r hr i i.2) _).symm
  obtain ⟨Q, hQ1, hQ2, hQ3⟩ := run witness proof hw hproof
  obtain ⟨Q', hQ1', hQ2', hQ3'⟩ := run witness' proof' hw' hproof'
  rw [hQ1, hQ1'] at hroots
  by_contra hno
  rw [not_or] at hno
  obtain ⟨h1, h2⟩ := hno
  apply h1
  have hcell : ∀ r, r < n → ∀ i, i < 2 ^ k → cell witness r i = cell witness' r i := by
    intro r hr i hi
    have hroot := congrArg (fun l => l[r]?) hroots
    simp only [getElem?_tab, if_pos hr, Option.some.injEq] at hroot
    rcases C19_same_root H hb w w _ _ (k + e) (k + e) (by simp) (by simp) _ _ _ (friTree_create H w (k + e) (Q r) (i := 0) (by omega))
      (friTree_create H w (k + e) (Q' r) (i := 0) (by omega)) (friTree_root H (k + e) (Q r) (i := 0) (by omega))
      (by rw [friTree_root H (k + e) (Q' r) (i := 0) (by omega), hroot]) with hsame | hcoll
    · have hlt : 2 ^ e * i < 2 ^ (k + e) := by rw [pow_add, mul_comm]; exact Nat.mul_lt_mul_of_pos_right hi (by positivity)
      have := congrArg (fun l => l[2 ^ e * i]?) hsame
      simp only [getElem?_tab, Nat.sub_zero, if_pos hlt, Option.some.injEq] at this
      rw [← hQ2 r hr i hi, ← hQ2' r hr i hi]
      exact this
    · exfalso
      apply h2
      refine ⟨r, hr, ?_⟩
      have e1 := hQ3 r hr
      have e1' := hQ3' r hr
      dsimp only
      rw [← e1, ← e1']
      exact hcoll
  apply List.ext_getElem
  · rw [hw.1, hw'.1]
  · intro r hr hr'
    have hrn : r < n := by rw [← hw.1]; exact hr
    have l1 := hw.2 _ (List.getElem_mem hr)
    have l2 := hw'.2 _ (List.getElem_mem hr')
    apply List.ext_getElem
    · rw [l1, l2]
    · intro i hi hi'
      have := hcell r hrn i (by rw [← l1]; exact hi)
      unfold cell at this
      simpa [hr, hr', hi, hi'] using this

end

/-- A run: the Fibonacci instance with 4 rows, 2 CPUs, LDE factor 2. The point `z`, the position that is opened, the remainder, and whether the first digest of the path of register 1 is the hash of a given value. -/
def hidingRun (table : List (List Fr)) (guess : Fr) : Res (Fr × ℕ × ℕ × Bool) := do
  let prover ← Prover.new ⟨2, by norm_num⟩ (fibInst Fr 2 1 1) 2 1
  let verifier ← Verifier.new (fibInst Fr 2 1 1) 2
  let proof ← prover.prove toyHash table
  let (ch, _, _) ← verifier.deriveChallenges toyHash proof
  let q ← rd proof.fQueries 1
  pure (ch.z, ch.idx1, ch.idx1 % 2, q.path.head? == some (toyHash (encodeLeaf guess)))

/-- The opened position is 5, so the first digest of the path is the hash of row 2 of register 1, which is 3; the guess 4 fails the check. -/
example : hidingRun [[1, 1, 2, 3], [1, 2, 3, 5]] 3 = .ok (3, 5, 1, true) ∧ hidingRun [[1, 1, 2, 3], [1, 2, 3, 5]] 4 = .ok (3, 5, 1, false) := by
  decide +kernel

example : Runnable (fibInst Fr 2 1 1) 2 2 0 ∧ ProverParams Fr 2 0 1 0 ∧ IsTable [[(1 : Fr), 1, 2, 3], [1, 2, 3, 5]] 2 (2 ^ 2) ∧ numBits Fr < 256 :=
  ⟨(fibInst_suitable (F := Fr) 2 (by norm_num) 1 1).runnable,
    ⟨by decide, by norm_num, by norm_num, by norm_num, by decide +kernel, by decide +kernel⟩, ⟨rfl, by decide⟩, by decide +kernel⟩

/-- The same instance with LDE factor 1 and two final coefficients, or one: the position that is opened, the opened values, and the verifier's answer. -/
def noExtensionRun (table : List (List Fr)) (out : ℕ) : Res (ℕ × List Fr × Bool) := do
  let prover ← Prover.new ⟨2, by norm_num⟩ (fibInst Fr 2 1 1) 1 out
  let verifier ← Verifier.new (fibInst Fr 2 1 1) 1
  let proof ← prover.prove toyHash table
  let (ch, _, _) ← verifier.deriveChallenges toyHash proof
  let b ← verifier.verify toyHash proof
  pure (ch.idx1, proof.fQueries.map (fun q => q.value), b)

/-- Row 1 of the table, 1 and 2, is shown, and the honest proof is rejected (C45 needs one final coefficient, with which `prove` panics here, C65). -/
example : noExtensionRun [[1, 1, 2, 3], [1, 2, 3, 5]] 2 = .ok (1, [1, 2], false) ∧ noExtensionRun [[1, 1, 2, 3], [1, 2, 3, 5]] 1 = .panic ∧
    ProverParams Fr 2 0 0 1 :=
  ⟨by decide +kernel, by decide +kernel, ⟨by decide, by norm_num, by norm_num, by norm_num, by decide +kernel, by decide +kernel⟩⟩

/-- In that instance register 0 is read at two offsets, and register 1 at two: with the opening, three values for each register are shown. Three free cells or fewer in a column are determined by the rest; for four
free cells exactly `|F|` columns remain. -/
example : ((readPairs (fibInst Fr 2 1 1) (2 ^ 2)).toFinset.filter (fun p => p.1 = .register 0)).card + 1 = 3 ∧
    ((readPairs (fibInst Fr 2 1 1) (2 ^ 2)).toFinset.filter (fun p => p.1 = .register 1)).card + 1 = 3 := by
  decide +kernel

end Hodor

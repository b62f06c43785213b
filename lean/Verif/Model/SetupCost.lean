import Verif.Model.FftCost

/-!
# Setting up a prover, with the field operations counted

`Prover::new` and what it calls, once more, in the counting monad of `Verif/Model/Cost.lean`: one operation for each `add_assign`, `sub_assign`, `mul_assign`,
`square`, `inverse` and conversion from an integer, the loop of crate `ff_ce` for `pow`, and its loop over the decimal digits for `from_str`. Not counted: copies,
comparisons and index arithmetic. The operations of all spawned tasks are added up.
-/

namespace Hodor

/-- `for (i, v) in l.enumerate()`, collecting the results. -/
def mapIdxT {α β : Type} (l : List α) (f : ℕ → α → Tick β) : Tick (List β) :=
  Tick.collectN l.length (fun i => do
    let v ← Tick.lift (rd l i)
    f i v)

/-- `parChunks` with the operations of the tasks counted. -/
def parChunksT {α β : Type} (w : Worker) (l : List α) (f : ℕ → ℕ → List α → Tick (List β)) : Tick (List β) := do
  let c := w.chunkSize l.length
  let parts ← mapIdxT (chunks c l) (fun i v => f c i v)
  pure parts.flatten

variable {F : Type} [Field F] [DecidableEq F] [StarkField F]

/-- `F::inverse()` with `unwrap`/`expect` -/
def inverseUnwrapT (x : F) : Tick F := do
  let o ← Tick.op 1 (inverse x)
  Tick.lift (Res.expect o)

/-- `F::from_str` of a decimal number (crate `ff_ce`): the constant ten, and for each digit a product, a conversion and a sum. -/
def fromStrT (F : Type) [Field F] (m : ℕ) : Tick F := Tick.op (1 + 3 * (Nat.digits 10 m).length) ((m : ℕ) : F)

/-- `src/polynomials/mod.rs` 146-166 `from_coeffs`, 722-742 `from_values` -/
def ofVecT {P : Form} (l : List F) : Tick (Poly F P) := do
  let domain ← newForSizeT F l.length
  let omegainv ← inverseUnwrapT domain.generator
  let geninv ← inverseUnwrapT (StarkField.mulGen (F := F))
  let m ← fromStrT F domain.size
  let minv ← inverseUnwrapT m
  pure { coeffs := resize l domain.size 0
         exp := domain.powerOfTwo
         omega := domain.generator
         omegainv := omegainv
         geninv := geninv
         minv := minv }

/-- `src/precomputations/mod.rs` 27-31: a product for each value. -/
def powersRunningT (g : F) : F → ℕ → Tick (List F)
  | _, 0 => pure []
  | u, n + 1 => do
    let u' ← Tick.op 1 (u * g)
    let l ← powersRunningT g u' n
    pure (u :: l)

/-- `slice.iter_mut()` with one operation for each element. -/
def mapOpT (f : F → F) : List F → Tick (List F)
  | [] => pure []
  | x :: l => do
    let y ← Tick.op 1 (f x)
    let r ← mapOpT f l
    pure (y :: r)

/-- `src/precomputations/mod.rs` 14-66 `new_for_domain` -/
def newForDomainT (domain : Domain F) (w : Worker) : Tick (PrecomputedOmegas F) := do
  let omega := domain.generator
  let omegaInv ← inverseUnwrapT domain.generator
  let omegas ← parChunksT w (List.replicate domain.size (0 : F)) (fun ch i v => do
    let u ← powT omega (i * ch)
    powersRunningT omega u v.length)
  let omegasInv ← parChunksT w (List.replicate (domain.size / 2) (0 : F)) (fun ch i v => do
    let u ← powT omegaInv (i * ch)
    powersRunningT omegaInv u v.length)
  let coset ← parChunksT w omegas (fun _ _ v => mapOpT (fun x => x * StarkField.mulGen) v)
  pure { omegas := omegas, coset := coset, omegasInv := omegasInv }

/-- `src/polynomials/mod.rs` 900-903: a product for each element. -/
def prefixProdsT : F → List F → Tick (List F × F)
  | s, [] => pure ([], s)
  | s, a :: l => do
    let s ← Tick.op 1 (s * a)
    let r ← prefixProdsT s l
    pure (s :: r.1, r.2)

/-- `src/polynomials/mod.rs` 939-948: two products for each element. -/
def invBackT : F → List F → List F → Tick (List F)
  | s, a :: as, g :: gs => do
    let x ← Tick.op 1 (g * s)
    let s ← Tick.op 1 (s * a)
    let r ← invBackT s as gs
    pure (x :: r)
  | _, as, _ => pure as

/-- `src/polynomials/mod.rs` 912-915: the product of the sub-products. -/
def prodT : F → List F → Tick F
  | s, [] => pure s
  | s, a :: l => do
    let s ← Tick.op 1 (s * a)
    prodT s l

/-- `src/polynomials/mod.rs` 924-929: a product, unless it is the own sub-product. -/
def subInverseStepT (subproducts : List F) (i j : ℕ) (tmp : F) : Tick F :=
  if i = j then pure tmp else
    match subproducts[j]? with
    | some p => Tick.op 1 (tmp * p)
    | none => pure tmp

/-- `src/polynomials/mod.rs` 922-932: a product for each of the other sub-products. -/
def subInverseT (productInverse : F) (subproducts : List F) (i : ℕ) : Tick F :=
  Tick.forEach (List.range subproducts.length) productInverse (subInverseStepT subproducts i)

/-- `src/polynomials/mod.rs` 934-950: the task of one chunk; a chunk without partner stays. -/
def invTaskT (a : List F) : Option (List F × F) → Option F → Tick (List F)
  | some (g, _), some s => do
    let r ← invBackT s a.reverse (g.reverse.drop 1 ++ [1])
    pure r.reverse
  | _, _ => pure a

/-- `src/polynomials/mod.rs` 889-954 `batch_inversion` -/
def batchInversionT (w : Worker) (p : Poly F .values) : Tick (Poly F .values) := do
  let n := p.coeffs.length
  let numThreads := w.numSpawnedThreads n
  let c := w.chunkSize n
  let phase1 ← mapIdxT (chunks c p.coeffs) (fun i a =>
    if i < numThreads then prefixProdsT 1 a else pure (List.replicate a.length 1, 1))
  let subproducts := tab numThreads (fun i => ((phase1[i]?).map Prod.snd).getD 1)
  let full ← prodT 1 subproducts
  let o ← Tick.op 1 (inverse full)
  let productInverse ← Tick.lift (Res.okOr o .error)
  let subinverses ← Tick.collectN numThreads (fun i => subInverseT productInverse subproducts i)
  let parts ← mapIdxT (chunks c p.coeffs) (fun i a => invTaskT a phase1[i]? subinverses[i]?)
  pure { p with coeffs := parts.flatten }

/-- `src/ali/per_register/mod.rs` 122-127: a power, a difference and a product for each value. -/
def vanishingRunningT (T : ℕ) (g : F) : F → ℕ → Tick (List F)
  | _, 0 => pure []
  | x, n + 1 => do
    let v ← powT x T
    let v ← Tick.op 1 (v - 1)
    let x ← Tick.op 1 (x * g)
    let l ← vanishingRunningT T g x n
    pure (v :: l)

/-- `src/ali/per_register/mod.rs` 146-151: a difference and a product for each root. -/
def mulRootsT (x : F) : F → List F → Tick F
  | d, [] => pure d
  | d, r :: roots => do
    let t ← Tick.op 1 (x - r)
    let d ← Tick.op 1 (d * t)
    mulRootsT x d roots

/-- `src/ali/per_register/mod.rs` 144-156 -/
def mulRootsRunningT (roots : List F) (g : F) : F → List F → Tick (List F)
  | _, [] => pure []
  | x, v :: l => do
    let v ← mulRootsT x v roots
    let x ← Tick.op 1 (x * g)
    let r ← mulRootsRunningT roots g x l
    pure (v :: r)

/-- `src/ali/per_register/mod.rs` 76-94: the excluded points. -/
def excludedRootsT (columnDomain : Domain F) (d : DenseConstraint) (numRows : ℕ) : Tick (List F) := do
  let g := columnDomain.generator
  let l1 ← powersRunningT g 1 d.startAt
  Tick.lift (Res.assert (d.span ≤ numRows))
  let lastStep := numRows - d.span
  let u ← powT g lastStep
  let l2 ← powersRunningT g u (columnDomain.size - lastStep)
  pure (l1 ++ l2)

/-- `src/ali/per_register/mod.rs` 60-162 `inverse_divisor_for_dense_constraint_in_coset` -/
def inverseDivisorInCosetT (columnDomain evaluationDomain : Domain F) (d : DenseConstraint) (numRows : ℕ) (w : Worker) : Tick (Poly F .values) := do
  let _ ← Tick.lift (divisorDegree columnDomain.size numRows d)
  let roots ← excludedRootsT columnDomain d numRows
  let g := evaluationDomain.generator
  let p ← (ofVecT (List.replicate evaluationDomain.size 0) : Tick (Poly F .values))
  let v ← parChunksT w p.coeffs (fun ch i v => do
    let x ← powT g (i * ch)
    let x ← Tick.op 1 (x * StarkField.mulGen)
    vanishingRunningT columnDomain.size g x v.length)
  let p ← batchInversionT w { p with coeffs := v }
  let v ← parChunksT w p.coeffs (fun ch i v => do
    let x ← powT g (i * ch)
    let x ← Tick.op 1 (x * StarkField.mulGen)
    mulRootsRunningT roots g x v)
  pure { p with coeffs := v }

/-- `src/ali/per_register/mod.rs` 216-219: the polynomial `X - root`; one difference. -/
def linearPolyT (root : F) : Tick (Poly F .coefficients) := do
  let q ← (ofVecT (List.replicate 2 0) : Tick (Poly F .coefficients))
  let c ← Tick.lift (wr q.coeffs 1 1)
  let c0 ← Tick.lift (rd c 0)
  let x ← Tick.op 1 (c0 - root)
  let c ← Tick.lift (wr c 0 x)
  pure { q with coeffs := c }

/-- `src/polynomials/mod.rs` 278-284: two products and a sum for each value. -/
def affineRunningT (alpha c g : F) : F → ℕ → Tick (List F)
  | _, 0 => pure []
  | u, n + 1 => do
    let v ← Tick.op 1 (alpha * u)
    let v ← Tick.op 1 (v + c)
    let u ← Tick.op 1 (u * g)
    let l ← affineRunningT alpha c g u n
    pure (v :: l)

/-- `src/polynomials/mod.rs` 260-290 `coset_evaluate_at_domain_for_degree_one` -/
def cosetEvaluateT (w : Worker) (p : Poly F .coefficients) (domainSize : ℕ) : Tick (Poly F .values) := do
  Tick.lift (Res.assert (p.coeffs.length = 2))
  let alpha ← Tick.lift (rd p.coeffs 1)
  let c ← Tick.lift (rd p.coeffs 0)
  let domain ← newForSizeT F domainSize
  let g := domain.generator
  let v ← parChunksT w (List.replicate domain.size (0 : F)) (fun ch i v => do
    let u ← powT g (i * ch)
    let u ← Tick.op 1 (u * StarkField.mulGen)
    affineRunningT alpha c g u v.length)
  ofVecT v

/-- `src/ali/per_register/mod.rs` 214-227: one boundary divisor. -/
def boundaryDivisorT (columnDomain constraintsDomain : Domain F) (row : ℕ) (w : Worker) : Tick (Poly F .values) := do
  let root ← powT columnDomain.generator row
  let q ← linearPolyT root
  let v ← cosetEvaluateT w q constraintsDomain.size
  batchInversionT w v

/-- `src/ali/per_register/mod.rs` 176-192 -/
def densityDivisorT (columnDomain constraintsDomain : Domain F) (numRows : ℕ) (w : Worker) : ConstraintDensity → Tick (Poly F .values)
  | .dense d => inverseDivisorInCosetT columnDomain constraintsDomain d numRows w
  | _ => Tick.lift .panic

/-- `src/ali/per_register/mod.rs` 36-244 `from_arp` -/
def fromArpT (arp : InstanceProperties F) (w : Worker) : Tick (AliInstance F) := do
  let maxConstraintPower := maxDegree arp.constraints
  let columnDomain ← newForSizeT F arp.numRows
  let constraintsDomain ← newForSizeT F (columnDomain.size * maxConstraintPower)
  let precomputed ← newForDomainT constraintsDomain w
  let masks := arp.constraints.foldl getMasksFromConstraint []
  let batches := arp.constraints.foldl (fun m c => pushBatch c m) []
  let divisors ← Tick.forEach batches [] (fun b m => do
    let p ← densityDivisorT columnDomain constraintsDomain arp.numRows w b.1
    pure (assocInsert m b.1 p))
  let boundaryRegisters := arp.boundaryConstraints.foldl (fun s b => insertSet s b.register) []
  let masks := arp.boundaryConstraints.foldl getMaskFromBoundaryConstraint masks
  let rows := arp.boundaryConstraints.foldl (fun s b => insertSet s b.atRow) []
  let boundaryDivisors ← Tick.forEach rows [] (fun row m => do
    let p ← boundaryDivisorT columnDomain constraintsDomain row w
    pure (assocInsert m row p))
  pure { properties := arp, maxConstraintPower := maxConstraintPower, columnDomain := columnDomain,
         constraintsDomain := constraintsDomain, allMasks := masks,
         allBoundaryConstrainedRegisters := boundaryRegisters, constraintDivisors := divisors,
         boundaryConstraintDivisors := boundaryDivisors, constraintsBatchedByDensity := batches,
         precomputations := precomputed }

/-- `src/arp/mappings.rs` 6-22 `remap_univariate_term`: one power. -/
def maskUnivariateTermT (d : Domain F) (t : UnivariateTerm F) : Tick (UnivariateTerm F) :=
  match t.stepsDifference with
  | .steps n => do
    let m ← powT d.generator n
    pure { t with stepsDifference := .mask m }
  | .mask _ => Tick.lift .panic

/-- `src/arp/mappings.rs` 24-44 `remap_term` -/
def maskTermT (d : Domain F) : ConstraintTerm F → Tick (ConstraintTerm F)
  | .univariate t => do
    let t ← maskUnivariateTermT d t
    pure (.univariate t)
  | .polyvariate p => do
    let ts ← Tick.map (maskUnivariateTermT d) p.terms
    pure (.polyvariate { p with terms := ts })

/-- `src/arp/mappings.rs` 46-56 `remap_constraint` -/
def maskConstraintT (d : Domain F) (c : Constraint F) : Tick (Constraint F) := do
  let ts ← Tick.map (maskTermT d) c.terms
  pure { c with terms := ts }

/-- `src/arp/per_register/mod.rs` 93-105 `from_instance`, 120-133 `route` -/
def fromInstanceT (inst : InstanceProperties F) : Tick (InstanceProperties F) := do
  let numRowsSup := nextPow2 inst.numRows
  let columnDomain ← newForSizeT F numRowsSup
  let cs ← Tick.map (maskConstraintT columnDomain) inst.constraints
  pure { inst with constraints := cs }

/-- `src/prover/mod.rs` 46-64 `new` -/
def proverNewT (w : Worker) (inst : InstanceProperties F) (ldeFactor friFinalDegreePlusOne : ℕ) : Tick (Prover F) := do
  let arp ← fromInstanceT inst
  let ali ← fromArpT arp w
  pure { arp := arp, ali := ali, ldeFactor := ldeFactor, friFinalDegreePlusOne := friFinalDegreePlusOne, worker := w }

end Hodor

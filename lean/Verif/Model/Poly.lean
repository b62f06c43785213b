import Verif.Model.Fft
import Verif.Model.Domain

/-!
# Polynomials (`src/polynomials/mod.rs`)

The in-place methods return the new value. Every `worker.scope` is modelled by its chunk
decomposition (`parChunks`, `parChunksZip`, …).
-/

namespace Hodor

/-- `src/polynomials/mod.rs` 14-23: the type-level tag of a polynomial. -/
inductive Form where
  | coefficients
  | values
deriving DecidableEq

/-- `src/polynomials/mod.rs` 26-34 `struct Polynomial` -/
structure Poly (F : Type) (P : Form) where
  coeffs : List F
  exp : ℕ
  omega : F
  omegainv : F
  geninv : F
  minv : F
deriving DecidableEq

/-- `Vec::resize(m, x)` -/
def resize {α : Type} (l : List α) (m : ℕ) (x : α) : List α :=
  l.take m ++ List.replicate (m - l.length) x

namespace Poly

variable {F : Type} [Field F]

/-- `src/polynomials/mod.rs` 38-40 `size` -/
def size {P : Form} (p : Poly F P) : ℕ := p.coeffs.length

section any
variable {P : Form}

/-- `src/polynomials/mod.rs` 54-57 `distribute_powers` -/
def distributePowers (w : Worker) (p : Poly F P) (g : F) : Poly F P :=
  { p with coeffs := Hodor.distributePowers w p.coeffs g }

/-- `src/polynomials/mod.rs` 59-70 `scale` -/
def scale (w : Worker) (p : Poly F P) (g : F) : Poly F P :=
  { p with coeffs := parChunks w p.coeffs (fun _ _ v => v.map (fun x => x * g)) }

/-- `src/polynomials/mod.rs` 72-83 `negate` -/
def negate (w : Worker) (p : Poly F P) : Poly F P :=
  { p with coeffs := parChunks w p.coeffs (fun _ _ v => v.map (fun x => -x)) }

/-- `src/polynomials/mod.rs` 127-136 `trim_to_degree` (always `Ok`) -/
def trimToDegree (p : Poly F P) (degree : ℕ) : Poly F P :=
  let size := p.coeffs.length
  if size ≤ degree + 1 then p
  else { p with coeffs := resize (p.coeffs.take (degree + 1)) size 0 }

variable [DecidableEq F] [StarkField F]

/-- Common tail of `pad_by_factor` / `pad_to_size` (`src/polynomials/mod.rs` 95-104, 115-124):
the coefficients are resized first, the domain is computed afterwards and may fail.
Returns the state of `self` together with the outcome. -/
def padTail (p : Poly F P) (newSize : ℕ) : Poly F P × Res Unit :=
  let p := { p with coeffs := resize p.coeffs newSize 0 }
  match Domain.newForSize F newSize with
  | .ok domain =>
    let p := { p with exp := domain.powerOfTwo, omega := domain.generator }
    match inverse domain.generator with
    | none => (p, .panic)
    | some oi =>
      let p := { p with omegainv := oi }
      match inverse ((domain.size : ℕ) : F) with
      | none => (p, .panic)
      | some mi => ({ p with minv := mi }, .ok ())
  | .err e => (p, .err e)
  | .panic => (p, .panic)

/-- `src/polynomials/mod.rs` 85-105 `pad_by_factor` -/
def padByFactor (p : Poly F P) (factor : ℕ) : Poly F P × Res Unit :=
  if factor = 1 then (p, .ok ())
  else if factor ≠ nextPow2 factor then (p, .err .error)
  else padTail p (p.coeffs.length * factor)

/-- `src/polynomials/mod.rs` 107-125 `pad_to_size` -/
def padToSize (p : Poly F P) (newSize : ℕ) : Poly F P × Res Unit :=
  if newSize < p.coeffs.length then (p, .err .error)
  else if newSize ≠ nextPow2 newSize then (p, .err .error)
  else padTail p newSize

/-- Body of `from_coeffs` (146-166) and `from_values` (722-742): the same code for both forms. -/
def ofVec (l : List F) : Res (Poly F P) := do
  let domain ← Domain.newForSize F l.length
  let omegainv ← Res.expect (inverse domain.generator)
  let geninv ← Res.expect (inverse (StarkField.mulGen (F := F)))
  let minv ← Res.expect (inverse ((domain.size : ℕ) : F))
  pure { coeffs := resize l domain.size 0
         exp := domain.powerOfTwo
         omega := domain.generator
         omegainv := omegainv
         geninv := geninv
         minv := minv }

end any

/-- Re-tagging done when building the result struct of `fft` (615-623) and `ifft` (789-797). -/
def retag {P : Form} (Q : Form) (p : Poly F P) (c : List F) : Poly F Q :=
  { coeffs := c, exp := p.exp, omega := p.omega, omegainv := p.omegainv,
    geninv := p.geninv, minv := p.minv }

/-- `src/polynomials/mod.rs` 611-624 `fft` -/
def fft (w : Worker) (p : Poly F .coefficients) : Res (Poly F .values) := do
  let c ← bestFft w p.coeffs p.omega p.exp none
  pure (retag _ p c)

/-- `src/polynomials/mod.rs` 633-638 `coset_fft_for_generator` -/
def cosetFftForGenerator (w : Worker) (p : Poly F .coefficients) (gen : F) : Res (Poly F .values) :=
  fft w (p.distributePowers w gen)

/-- `src/polynomials/mod.rs` 626-631 `coset_fft` -/
def cosetFft [StarkField F] (w : Worker) (p : Poly F .coefficients) : Res (Poly F .values) :=
  fft w (p.distributePowers w (StarkField.mulGen))

/-- `src/polynomials/mod.rs` 773-798 `ifft` -/
def ifft (w : Worker) (p : Poly F .values) : Res (Poly F .coefficients) := do
  let c ← bestFft w p.coeffs p.omegainv p.exp none
  let c := parChunks w c (fun _ _ v => v.map (fun x => x * p.minv))
  pure (retag _ p c)

/-- `src/polynomials/mod.rs` 809-815 `icoset_fft_for_generator` -/
def icosetFftForGenerator (w : Worker) (p : Poly F .values) (geninv : F) :
    Res (Poly F .coefficients) := do
  let res ← ifft w p
  pure (res.distributePowers w geninv)

/-- `src/polynomials/mod.rs` 800-807 `icoset_fft` -/
def icosetFft (w : Worker) (p : Poly F .values) : Res (Poly F .coefficients) := do
  let res ← ifft w p
  pure (res.distributePowers w p.geninv)

section construct
variable [DecidableEq F] [StarkField F]

/-- `src/polynomials/mod.rs` 146-166 `from_coeffs` -/
def fromCoeffs (l : List F) : Res (Poly F .coefficients) := ofVec l

/-- `src/polynomials/mod.rs` 722-742 `from_values` -/
def fromValues (l : List F) : Res (Poly F .values) := ofVec l

/-- `src/polynomials/mod.rs` 140-144 `new_for_size` -/
def newForSizeCoeffs (size : ℕ) : Res (Poly F .coefficients) := fromCoeffs (List.replicate size 0)

/-- `src/polynomials/mod.rs` 716-720 `new_for_size` -/
def newForSizeValues (size : ℕ) : Res (Poly F .values) := fromValues (List.replicate size 0)

/-- `src/polynomials/mod.rs` 246-252 / 278-284: fill a chunk with `alpha*u + c`, `u *= g`. -/
def affineRunning (alpha c g : F) : F → ℕ → List F
  | _, 0 => []
  | u, n + 1 => (alpha * u + c) :: affineRunning alpha c g (u * g) n

/-- `src/polynomials/mod.rs` 229-258 `evaluate_at_domain_for_degree_one` -/
def evaluateAtDomainForDegreeOne (w : Worker) (p : Poly F .coefficients) (domainSize : ℕ) :
    Res (Poly F .values) := do
  Res.assert (p.coeffs.length = 2)
  let alpha ← rd p.coeffs 1
  let c ← rd p.coeffs 0
  let domain ← Domain.newForSize F domainSize
  let g := domain.generator
  fromValues (parChunks w (List.replicate domain.size (0 : F)) (fun ch i v =>
    affineRunning alpha c g (g ^ (i * ch)) v.length))

/-- `src/polynomials/mod.rs` 260-290 `coset_evaluate_at_domain_for_degree_one` -/
def cosetEvaluateAtDomainForDegreeOne (w : Worker) (p : Poly F .coefficients) (domainSize : ℕ) :
    Res (Poly F .values) := do
  Res.assert (p.coeffs.length = 2)
  let alpha ← rd p.coeffs 1
  let c ← rd p.coeffs 0
  let domain ← Domain.newForSize F domainSize
  let g := domain.generator
  fromValues (parChunks w (List.replicate domain.size (0 : F)) (fun ch i v =>
    affineRunning alpha c g (g ^ (i * ch) * StarkField.mulGen) v.length))

/-- `src/polynomials/mod.rs` 423-432 and 549-558: the CPU hint of the multi-coset LDEs. -/
def ldeHint (w : Worker) (factor : ℕ) : Option ℕ :=
  if w.cpus ≤ factor then some 1
  else
    let t := factor / w.cpus
    some (if factor % w.cpus ≠ 0 then t + 1 else t)

/-- `src/polynomials/mod.rs` 451-457 and 578-584: the loop of one spawned task over its chunk of
`results` (of length `len`), state: rows produced so far and the running coset generator. -/
def ldeChunk (w : Worker) (p : Poly F .coefficients) (hint : Option ℕ) (cosetOmega start : F)
    (len : ℕ) : Res (List (List F)) := do
  let (rows, _) ← forN len 0 (([] : List (List F)), start) (fun _ (rows, g) => do
    let c ← bestFft w (Hodor.distributePowers w p.coeffs g) p.omega p.exp hint
    pure (rows ++ [c], g * cosetOmega))
  pure rows

/-- Common body of `lde_using_multiple_cosets` (434-481, `shift = 1`) and
`coset_lde_using_multiple_cosets` (560-608, `shift = multiplicative_generator`). The start
generator of chunk `i` is `coset_omega.pow(i)` (times the shift), as in lines 450 and 576-577. -/
def multiCosetLde (w : Worker) (p : Poly F .coefficients) (factor : ℕ) (shift : F) :
    Res (Poly F .values) := do
  let hint := ldeHint w factor
  Res.assert (isPow2 factor)
  let newSize := p.coeffs.length * factor
  let domain ← Domain.newForSize F newSize
  let cosetOmega := domain.generator
  let ch := w.chunkSize factor
  let results ← collectN (numChunks factor ch) (fun i =>
    ldeChunk w p hint cosetOmega (cosetOmega ^ i * shift) (min ch (factor - i * ch)))
  let finalValues ← interleave w newSize results.flatten factor
  fromValues finalValues

/-- `src/polynomials/mod.rs` 418-482 `lde_using_multiple_cosets` -/
def ldeUsingMultipleCosets (w : Worker) (p : Poly F .coefficients) (factor : ℕ) :
    Res (Poly F .values) :=
  if factor = 1 then p.fft w else multiCosetLde w p factor 1

/-- `src/polynomials/mod.rs` 544-609 `coset_lde_using_multiple_cosets` -/
def cosetLdeUsingMultipleCosets (w : Worker) (p : Poly F .coefficients) (factor : ℕ) :
    Res (Poly F .values) :=
  if factor = 1 then p.cosetFft w else multiCosetLde w p factor StarkField.mulGen

/-- `src/polynomials/mod.rs` 343-346 `lde` -/
def lde (w : Worker) (p : Poly F .coefficients) (factor : ℕ) : Res (Poly F .values) :=
  ldeUsingMultipleCosets w p factor

/-- `src/polynomials/mod.rs` 349-352 `coset_lde` -/
def cosetLde (w : Worker) (p : Poly F .coefficients) (factor : ℕ) : Res (Poly F .values) :=
  cosetLdeUsingMultipleCosets w p factor

/-- `src/polynomials/mod.rs` 370-416 `lde_using_multiple_cosets_naive` -/
def ldeNaive (w : Worker) (p : Poly F .coefficients) (factor : ℕ) : Res (Poly F .values) :=
  if factor = 1 then p.fft w
  else do
    Res.assert (isPow2 factor)
    let newSize := p.coeffs.length * factor
    let domain ← Domain.newForSize F newSize
    let (results, _) ← forN factor 0 (([] : List (List F)), (1 : F)) (fun _ (rs, g) => do
      let r ← if g = 1 then p.fft w else p.cosetFftForGenerator w g
      pure (rs ++ [r.coeffs], g * domain.generator))
    let finalValues ← interleave w newSize results factor
    fromValues finalValues

/-- `src/polynomials/mod.rs` 501-542 `coset_lde_using_multiple_cosets_naive` -/
def cosetLdeNaive (w : Worker) (p : Poly F .coefficients) (factor : ℕ) : Res (Poly F .values) :=
  if factor = 1 then p.cosetFft w
  else do
    Res.assert (isPow2 factor)
    let newSize := p.coeffs.length * factor
    let domain ← Domain.newForSize F newSize
    let (results, _) ← forN factor 0 (([] : List (List F)), (StarkField.mulGen : F))
      (fun _ (rs, g) => do
        let r ← p.cosetFftForGenerator w g
        pure (rs ++ [r.coeffs], g * domain.generator))
    let finalValues ← interleave w newSize results factor
    fromValues finalValues

end construct

/-- `src/polynomials/mod.rs` 640-652 `add_assign` (coefficient form) -/
def addAssignC (w : Worker) (p q : Poly F .coefficients) : Res (Poly F .coefficients) := do
  Res.assert (q.coeffs.length ≤ p.coeffs.length)
  pure { p with coeffs := parChunksZip w q.coeffs.length p.coeffs q.coeffs
                  (zipUpdate (fun a b => a + b)) }

/-- `src/polynomials/mod.rs` 654-668 `add_assign_scaled` (coefficient form) -/
def addAssignScaledC (w : Worker) (p q : Poly F .coefficients) (scaling : F) :
    Res (Poly F .coefficients) := do
  Res.assert (q.coeffs.length ≤ p.coeffs.length)
  pure { p with coeffs := parChunksZip w q.coeffs.length p.coeffs q.coeffs
                  (zipUpdate (fun a b => a + b * scaling)) }

/-- `src/polynomials/mod.rs` 671-683 `sub_assign` (coefficient form) -/
def subAssignC (w : Worker) (p q : Poly F .coefficients) : Res (Poly F .coefficients) := do
  Res.assert (q.coeffs.length ≤ p.coeffs.length)
  pure { p with coeffs := parChunksZip w q.coeffs.length p.coeffs q.coeffs
                  (zipUpdate (fun a b => a - b)) }

/-- `src/polynomials/mod.rs` 694-700: partial sum of one chunk, `s` accumulator, `x` running power. -/
def evalRunning (g : F) : F → F → List F → F
  | s, _, [] => s
  | s, x, a :: l => evalRunning g (s + x * a) (x * g) l

/-- `src/polynomials/mod.rs` 685-711 `evaluate_at`. `subvalues` has `num_threads` entries and is
zipped with the chunks; the sum runs over all of `subvalues`. -/
def evaluateAt (w : Worker) (p : Poly F .coefficients) (g : F) : F :=
  let n := p.coeffs.length
  let c := w.chunkSize n
  let numThreads := w.numSpawnedThreads n
  let sub := tab numThreads (fun i =>
    match (chunks c p.coeffs)[i]? with
    | some a => evalRunning g 0 (g ^ (i * c)) a
    | none => 0)
  sub.foldl (fun r v => r + v) 0

/-- `src/polynomials/mod.rs` 760-771 `square` -/
def square (w : Worker) (p : Poly F .values) : Poly F .values :=
  { p with coeffs := parChunks w p.coeffs (fun _ _ v => v.map (fun x => x * x)) }

/-- `src/polynomials/mod.rs` 744-758 `pow` -/
def pow (w : Worker) (p : Poly F .values) (e : ℕ) : Poly F .values :=
  if e = 2 then p.square w
  else { p with coeffs := parChunks w p.coeffs (fun _ _ v => v.map (fun x => x ^ e)) }

/-- `src/polynomials/mod.rs` 817-829 `add_assign` (value form) -/
def addAssignV (w : Worker) (p q : Poly F .values) : Res (Poly F .values) := do
  Res.assert (p.coeffs.length = q.coeffs.length)
  pure { p with coeffs := parChunksZip w p.coeffs.length p.coeffs q.coeffs
                  (zipUpdate (fun a b => a + b)) }

/-- `src/polynomials/mod.rs` 831-841 `add_constant` -/
def addConstant (w : Worker) (p : Poly F .values) (c : F) : Poly F .values :=
  { p with coeffs := parChunks w p.coeffs (fun _ _ v => v.map (fun x => x + c)) }

/-- `src/polynomials/mod.rs` 843-857 `add_assign_scaled` (value form) -/
def addAssignScaledV (w : Worker) (p q : Poly F .values) (scaling : F) : Res (Poly F .values) := do
  Res.assert (p.coeffs.length = q.coeffs.length)
  pure { p with coeffs := parChunksZip w q.coeffs.length p.coeffs q.coeffs
                  (zipUpdate (fun a b => a + b * scaling)) }

/-- `src/polynomials/mod.rs` 860-872 `sub_assign` (value form) -/
def subAssignV (w : Worker) (p q : Poly F .values) : Res (Poly F .values) := do
  Res.assert (p.coeffs.length = q.coeffs.length)
  pure { p with coeffs := parChunksZip w p.coeffs.length p.coeffs q.coeffs
                  (zipUpdate (fun a b => a - b)) }

/-- `src/polynomials/mod.rs` 875-887 `mul_assign` -/
def mulAssign (w : Worker) (p q : Poly F .values) : Res (Poly F .values) := do
  Res.assert (p.coeffs.length = q.coeffs.length)
  pure { p with coeffs := parChunksZip w p.coeffs.length p.coeffs q.coeffs
                  (zipUpdate (fun a b => a * b)) }

/-- `src/polynomials/mod.rs` 900-903: running products of one chunk (`*g = s[0]` after
`s[0] *= a`), together with the final value of `s[0]`. -/
def prefixProds : F → List F → List F × F
  | s, [] => ([], s)
  | s, a :: l =>
    let r := prefixProds (s * a) l
    (s * a :: r.1, r.2)

/-- `src/polynomials/mod.rs` 939-948: backward pass over a chunk, both lists already reversed;
`gs` is `g.iter().rev().skip(1).chain(Some(1))`. Elements without partner stay. -/
def invBack : F → List F → List F → List F
  | s, a :: as, g :: gs => (g * s) :: invBack (s * a) as gs
  | _, as, _ => as

/-- `src/polynomials/mod.rs` 922-932: `tmp = product_inverse * ∏_{j ≠ i} subproducts[j]`. -/
def subInverse (productInverse : F) (subproducts : List F) (i : ℕ) : F :=
  (List.range subproducts.length).foldl (fun tmp j =>
    if i = j then tmp else
      match subproducts[j]? with
      | some p => tmp * p
      | none => tmp) productInverse

/-- `src/polynomials/mod.rs` 889-954 `batch_inversion`. Returns the new vector, or `Err` (the vector
is not modified before the `?` on line 918). -/
def batchInversion [DecidableEq F] (w : Worker) (p : Poly F .values) : Res (Poly F .values) := do
  let n := p.coeffs.length
  let numThreads := w.numSpawnedThreads n
  let c := w.chunkSize n
  -- first scope: chunks zipped with `numThreads` one-element chunks of `subproducts`
  let phase1 := (chunks c p.coeffs).mapIdx (fun i a =>
    if i < numThreads then prefixProds 1 a else (List.replicate a.length 1, 1))
  let subproducts := tab numThreads (fun i => ((phase1[i]?).map Prod.snd).getD 1)
  let full := subproducts.foldl (fun r v => r * v) 1
  let productInverse ← Res.okOr (inverse full) .error
  let subinverses := tab numThreads (fun i => subInverse productInverse subproducts i)
  -- last scope
  let parts := (chunks c p.coeffs).mapIdx (fun i a =>
    match phase1[i]?, subinverses[i]? with
    | some (g, _), some s => (invBack s a.reverse (g.reverse.drop 1 ++ [1])).reverse
    | _, _ => a)
  pure { p with coeffs := parts.flatten }

/-- `src/polynomials/mod.rs` 889-954 `batch_inversion` as a method on `&mut self`: what is in `self` after the call, and the
returned `Result`. -/
def batchInversionMut [DecidableEq F] (w : Worker) (p : Poly F .values) : Poly F .values × Res Unit :=
  let n := p.coeffs.length
  let numThreads := w.numSpawnedThreads n
  let c := w.chunkSize n
  let phase1 := (chunks c p.coeffs).mapIdx (fun i a =>
    if i < numThreads then prefixProds 1 a else (List.replicate a.length 1, 1))
  let subproducts := tab numThreads (fun i => ((phase1[i]?).map Prod.snd).getD 1)
  let full := subproducts.foldl (fun r v => r * v) 1
  match inverse full with
  | none => (p, .err .error)
  | some productInverse =>
    let subinverses := tab numThreads (fun i => subInverse productInverse subproducts i)
    let parts := (chunks c p.coeffs).mapIdx (fun i a =>
      match phase1[i]?, subinverses[i]? with
      | some (g, _), some s => (invBack s a.reverse (g.reverse.drop 1 ++ [1])).reverse
      | _, _ => a)
    ({ p with coeffs := parts.flatten }, .ok ())

section roots
variable [DecidableEq F] [StarkField F]

/-- `src/polynomials/mod.rs` 183-199: multiply the sub-product by `(X - r)`; the first root gives
`[-r, 1]`. -/
def mulRoot (s : List F) (r : F) : List F :=
  if s.length = 0 then [-r, 1]
  else zipUpdate (fun n c => n - c * r) (0 :: s) s

/-- `src/polynomials/mod.rs` 206-221: body of the loop over the sub-products: extend to the result
domain and multiply into the accumulator. -/
def fromRootsStep (w : Worker) (resultLen : ℕ) (s : List F) (res : Option (Poly F .values)) :
    Res (Option (Poly F .values)) :=
  if s.length = 0 then .ok res
  else do
    let t ← fromCoeffs s
    let factor := resultLen / t.size
    let t ← t.lde w factor
    match res with
    | some r => do
      let r ← mulAssign w r t
      pure (some r)
    | none => pure (some t)

/-- `src/polynomials/mod.rs` 168-227 `from_roots` -/
def fromRoots (w : Worker) (roots : List F) : Res (Poly F .coefficients) := do
  let domain ← Domain.newForSize F (roots.length + 1)
  let numThreads := w.numSpawnedThreads roots.length
  let c := w.chunkSize roots.length
  let subterms := tab numThreads (fun i =>
    (((chunks c roots)[i]?).map (fun r => r.foldl mulRoot [])).getD [])
  let result ← forEach subterms (none : Option (Poly F .values)) (fromRootsStep w domain.size)
  let result ← Res.expect result
  ifft w result

end roots

end Poly

end Hodor

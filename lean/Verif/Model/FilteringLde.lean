import Verif.Model.Poly
import Verif.Model.FftKernels

/-! # LDE by a pruned transform (`src/polynomials/mod.rs`) and the kernel selection of `src/fft/mod.rs` -/

namespace Hodor

variable {F : Type} [Field F]

/-- `src/fft/mod.rs` 29-33 and 46-49: `best_lde` with and without the feature `nightly`. -/
def kernelLde (nightly : Bool) (w : Worker) (a : List F) (ω : F) (logN factor : ℕ) : Res (List F) :=
  if nightly then prefetchBestLde w a ω logN factor else bestLde w a ω logN factor

/-- `src/fft/mod.rs` 35-38 and 50-53: `best_fft` with and without the feature `nightly`. -/
def kernelFft (nightly : Bool) (w : Worker) (a : List F) (ω : F) (logN : ℕ) (hint : Option ℕ) : Res (List F) :=
  if nightly then prefetchBestFft w a ω logN hint else bestFft w a ω logN hint

namespace Poly

variable [StarkField F] [DecidableEq F]

/-- `src/polynomials/mod.rs` 360-367 and 490-498: extend by zeroes and transform. The product
`coeffs.len() * factor` is exact (no machine overflow). -/
def extendAndTransform (nightly : Bool) (w : Worker) (coeffs : List F) (factor : ℕ) : Res (Poly F .values) := do
  let newSize := coeffs.length * factor
  let domain ← Domain.newForSize F newSize
  let lde := resize coeffs newSize 0
  let lde ← kernelLde nightly w lde domain.generator domain.powerOfTwo factor
  fromValues lde

/-- `src/polynomials/mod.rs` 355-368 `filtering_lde` -/
def filteringLde (nightly : Bool) (w : Worker) (p : Poly F .coefficients) (factor : ℕ) : Res (Poly F .values) :=
  if factor = 1 then p.fft w
  else do
    Res.assert (isPow2 factor)
    extendAndTransform nightly w p.coeffs factor

/-- `src/polynomials/mod.rs` 484-499 `coset_filtering_lde` -/
def cosetFilteringLde (nightly : Bool) (w : Worker) (p : Poly F .coefficients) (factor : ℕ) : Res (Poly F .values) :=
  if factor = 1 then p.cosetFft w
  else do
    Res.assert (isPow2 factor)
    let p := p.distributePowers w StarkField.mulGen
    extendAndTransform nightly w p.coeffs factor

end Poly

end Hodor

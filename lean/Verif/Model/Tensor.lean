import Verif.Model.Field
import Verif.Model.Res

/-!
# Queries into tensor products (`src/experiments/tensor_lde.rs`)
-/

namespace Hodor

variable {F : Type} [Field F]

/-- `src/experiments/tensor_lde.rs` 3-25 `query_tensor_decomposition_element_matrix_over_identyty_matrix`; `/` and `%` by zero panic. -/
def queryOverIdentity (submatrix : List F × ℕ × ℕ) (idx : ℕ × ℕ) : Res F := do
  Res.assert (submatrix.2.1 ≠ 0)
  Res.assert (submatrix.2.2 ≠ 0)
  if idx.1 / submatrix.2.1 ≠ idx.2 / submatrix.2.2 then pure 0
  else do
    let subRow := idx.1 % submatrix.2.1
    let subColumn := idx.2 % submatrix.2.2
    let rowLen := submatrix.2.2
    rd submatrix.1 (rowLen * subRow + subColumn)

/-- `src/experiments/tensor_lde.rs` 27-56 `query_tensor_decomposition_element_matrix_over_diagonal_matrix` (the recorded size of the diagonal
matrix is not read). -/
def queryOverDiagonal (submatrix : List F × ℕ × ℕ) (diagonal : List F × ℕ) (idx : ℕ × ℕ) : Res F := do
  Res.assert (submatrix.2.1 ≠ 0)
  Res.assert (submatrix.2.2 ≠ 0)
  if idx.1 / submatrix.2.1 ≠ idx.2 / submatrix.2.2 then pure 0
  else do
    let diagonalIndex := idx.1 / submatrix.2.1
    let subRow := idx.1 % submatrix.2.1
    let subColumn := idx.2 % submatrix.2.2
    let rowLen := submatrix.2.2
    let subelement ← rd submatrix.1 (rowLen * subRow + subColumn)
    let d ← rd diagonal.1 diagonalIndex
    pure (subelement * d)

/-- `src/experiments/tensor_lde.rs` 58-80 `query_tensor_decomposition_element_vector_over_vector` -/
def queryVectorOverVector (subvector1 subvector2 : List F × ℕ) (idx : ℕ) : Res F := do
  Res.assert (subvector1.2 ≠ 0)
  let index0 := idx % subvector1.2
  let index1 := idx / subvector1.2
  Res.assert (index1 < subvector2.2)
  let subelement ← rd subvector1.1 index0
  let y ← rd subvector2.1 index1
  pure (subelement * y)

/-- `src/experiments/tensor_lde.rs` 82-135 `decompose_lde_generator_for_vector_over_vector`: for each part the coset generator, the domain
generator and the LDE factor. `domain_size / subvector_domain_size` panics for a zero size. -/
def decomposeLdeGenerator (ldeFactor domainSize : ℕ) (decomposition : ℕ × ℕ) (omega cosetGenerator : F) :
    Res ((F × F × ℕ) × (F × F × ℕ)) := do
  let size1 := decomposition.1
  let size2 := decomposition.2
  Res.assert (size1 * size2 = domainSize)
  let cosetGenerator1 := cosetGenerator
  Res.assert (size1 ≠ 0)
  let omega1 := omega ^ (domainSize / size1)
  let ldeFactor1 := ldeFactor
  let cosetGenerator2 := omega
  Res.assert (size2 ≠ 0)
  let omega2 := omega ^ (domainSize / size2)
  let ldeFactor2 := domainSize / size2
  pure ((cosetGenerator1, omega1, ldeFactor1), (cosetGenerator2, omega2, ldeFactor2))

end Hodor

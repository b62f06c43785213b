import Verif.Spec.ProverOps

/-!
# An upper bound for the field operations of proving

`2^L` is the size of the largest vector, the extension of the composition polynomial.
-/

namespace Hodor.Spec

variable {F : Type}

/-- The number of passes over a vector: for the registers, the cells and powers of cells which are read, the densities, the boundary constraints, and the constraints, terms and factors. -/
def provePasses (inst : InstanceProperties F) (n k : ℕ) : ℕ :=
  2 * n + 2 * (readPairs inst (2 ^ k)).toFinset.card + (readPowers inst (2 ^ k)).toFinset.card + (densitiesOf inst.constraints).length +
  inst.boundaryConstraints.length + (inst.constraints.map (fun c => 1 + 2 * (factors c).length + 2 * c.terms.length)).sum + 7

/-- The cost of a pass: for each of at most `2^L` values a number of operations linear in `L`, in the number of CPUs and in the number `P` of binary digits of the exponents, and what depends
on the size only through its logarithm. -/
def passOps (S cpus L P : ℕ) : ℕ :=
  2 ^ L * (4 * L + 4 * cpus + 2 * P + 16) + ((L + 4) * (S + 3 * L + 20) + 16 * (cpus * L) + 4 * cpus ^ 2 + 4 * cpus)

end Hodor.Spec

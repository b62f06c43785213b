import Verif.Model.Poly

/-!
# Specification: well-formed polynomial objects

A polynomial object as built by the public constructors: its vector has the size of its domain and the
cached constants are those of that domain.
-/

namespace Hodor

variable {F : Type} [Field F] [StarkField F]

/-- The cached fields agree with the domain of the vector's length. -/
def Poly.Valid {P : Form} (p : Poly F P) : Prop :=
  ∃ d, Domain.newForSize F p.coeffs.length = .ok d ∧ p.coeffs.length = d.size ∧
    p.exp = d.powerOfTwo ∧ p.omega = d.generator ∧ p.omegainv = d.generator⁻¹ ∧
    p.geninv = StarkField.mulGen⁻¹ ∧ p.minv = ((d.size : ℕ) : F)⁻¹

end Hodor

import Verif.Spec.Game
import Verif.Spec.Opened
import Verif.Spec.Interactive

/-!
# Specification: random hash functions

A hash function drawn uniformly among all hash functions: on the byte strings of at most `B` bytes, of which there are finitely many, its values are drawn; longer strings, which the
computations in question do not hash, are left to a given function.
-/

namespace Hodor.Spec

/-- A table of digests for all byte strings of at most `B` bytes. -/
abbrev Oracle (B : ℕ) : Type := {s : List UInt8 // s.length ≤ B} → Digest

/-- The hash function which looks up short strings in the table and hashes longer ones with `H`. -/
def Oracle.hash {B : ℕ} (o : Oracle B) (H : List UInt8 → Digest) (s : List UInt8) : Digest :=
  if h : s.length ≤ B then o ⟨s, h⟩ else H s

end Hodor.Spec

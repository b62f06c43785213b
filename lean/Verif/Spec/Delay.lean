import Verif.Props.Vdf
import Mathlib.Data.ZMod.Basic
import Mathlib.Data.Nat.Size

/-!
# Specification: computing the output of the VDFs without the delay

Square-and-multiply with a count of the multiplications, and the evaluation of `start^(base^N)` in `F[u]/(u²+1)` by way of a square root of `-1`.
-/

namespace Hodor.Spec

/-- `x^e` by square-and-multiply, and the number of multiplications made. -/
def fastPow {M : Type} [Monoid M] (x : M) (e : ℕ) : M × ℕ :=
  if e = 0 then (1, 0)
  else if e % 2 = 1 then ((fastPow (x * x) (e / 2)).1 * x, (fastPow (x * x) (e / 2)).2 + 2)
  else ((fastPow (x * x) (e / 2)).1, (fastPow (x * x) (e / 2)).2 + 1)
termination_by e
decreasing_by all_goals omega

/-- What the shortcut returns: the output, the number of multiplications and divisions in the field, and the number of multiplications of integers modulo `modulus - 1`. -/
structure Shortcut (F : Type) [Field F] where
  output : Quad F
  fieldOps : ℕ
  integerOps : ℕ

/-- `start^(base^N)` in `F[u]/(u²+1)`, where `i² = -1` and `p` is the number of elements of the field: the exponent is reduced modulo `p - 1` (and made positive), and the two coordinates `c0 + i c1` and `c0 - i c1` are
raised to it. -/
def shortcut {F : Type} [Field F] (p : ℕ) (i : F) (base : ℕ) (v : Vdf F) : Shortcut F :=
  let e := fastPow (base : ZMod (p - 1)) v.numOperations
  let ic := i * v.startC1
  let a := fastPow (v.startC0 + ic) (e.1.val + (p - 1))
  let b := fastPow (v.startC0 - ic) (e.1.val + (p - 1))
  { output := ⟨(a.1 + b.1) / 2, (a.1 - b.1) / (2 * i)⟩, fieldOps := 1 + a.2 + b.2 + 3, integerOps := e.2 }

end Hodor.Spec

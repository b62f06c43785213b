import Verif.Model.Fields

/-!
# The quadratic extension of the square root experiment

`src/experiments/square_root_calculator/fp2.rs`. Base field: `FrStark` (`super::super::Fr`, line 5). Constants are written in the source as
the four limbs of the Montgomery residue, least significant first, and are modelled as such.
-/

namespace Hodor

open StarkField

/-- The integer of a limb array, least significant limb first. -/
def limbInt : List ℕ → ℕ
  | [] => 0
  | l :: ls => l + 2 ^ 64 * limbInt ls

/-- `Fq(FqRepr([..]))`: an element from the limbs of its Montgomery residue. -/
def rawFq (l : List ℕ) : FrStark := ofRawRepr (limbInt l)

/-- fp2.rs 10-15 `NON_RESIDUE` -/
def nonResidue : FrStark :=
  rawFq [0xffffffffffffffa1, 0xffffffffffffffff, 0xffffffffffffffff, 0x07fffffffffff9b0]

/-- fp2.rs 17-22 `MINUS_ONE` -/
def minusOne : FrStark :=
  rawFq [0x0000000000000020, 0x0000000000000000, 0x0000000000000000, 0x0000000000000220]

/-- fp2.rs 26-35 `Q_SQUARED_MINUT_ONE_BY_TWO` -/
def qSquaredMinusOneByTwo : List ℕ :=
  [0x0, 0x0, 0x0, 0x0800000000000011, 0x0, 0x8000000000000000, 0x8800000000000090, 0x20000000000000]

/-- fp2.rs 37-42 `Q_MINUS_ONE_BY_TWO` -/
def qMinusOneByTwo : List ℕ := [0x0, 0x0, 0x8000000000000000, 0x400000000000008]

/-- fp2.rs 44-49 `Q_MINUS_ONE_BY_FOUR` -/
def qMinusOneByFour : List ℕ := [0x0, 0x0, 0x4000000000000000, 0x200000000000004]

/-- `Fq::char()` (derive macro): the limbs of the modulus. -/
def fqChar : List ℕ := [0x1, 0x0, 0x0, 0x0800000000000011]

/-- fp2.rs 94-99 `struct Fq2` -/
@[ext] structure Fq2 where
  c0 : FrStark
  c1 : FrStark
deriving DecidableEq

/-- fp2.rs 51-65 `E_PRECOMPUTED` -/
def ePrecomputed : Fq2 :=
  { c0 := rawFq [0, 0, 0, 0],
    c1 := rawFq [0xb11079dbfdb6981f, 0x701bb8e5e5b53751, 0x6fe88e46d707bcab, 0x02365bb6d67e6298] }

/-- fp2.rs 67-81 `F_PRECOMPUTED` -/
def fPrecomputed : Fq2 :=
  { c0 := rawFq [0xffffffffffffff41, 0xffffffffffffffff, 0xffffffffffffffff, 0x07fffffffffff350],
    c1 := rawFq [0, 0, 0, 0] }

/-- fp2.rs 83-92 `MINUS_ONE_FP2` -/
def minusOneFp2 : Fq2 := { c0 := minusOne, c1 := rawFq [0, 0, 0, 0] }

namespace Fq2

/-- `Fq::cmp` (derive macro, external): the canonical representations compared as integers. -/
def fqCmp (x y : FrStark) : Ordering := compare (StarkField.repr x) (StarkField.repr y)

/-- fp2.rs 108-118 `cmp` (`partial_cmp`, 120-125, is `Some` of it) -/
def cmp (x y : Fq2) : Ordering :=
  match fqCmp x.c1 y.c1 with
  | .gt => .gt
  | .lt => .lt
  | .eq => fqCmp x.c0 y.c0

/-- fp2.rs 127-137 `norm` -/
def norm (x : Fq2) : FrStark :=
  let t0 := x.c0
  let t1 := x.c1
  let t0 := t0 * t0
  let t1 := t1 * t1
  let t1 := t1 * nonResidue
  let t1 := t1 + t0
  t1

/-- fp2.rs 150-155 `zero` -/
def zero : Fq2 := { c0 := 0, c1 := 0 }

/-- fp2.rs 157-162 `one` -/
def one : Fq2 := { c0 := 1, c1 := 0 }

/-- fp2.rs 164-166 `is_zero` -/
def isZero (x : Fq2) : Bool := decide (x.c0 = 0) && decide (x.c1 = 0)

/-- fp2.rs 168-190 `square` -/
def square (x : Fq2) : Fq2 :=
  let v0 := x.c0
  let v0 := v0 - x.c1
  let v3 := x.c0
  let t0 := x.c1
  let t0 := t0 * nonResidue
  let v3 := v3 - t0
  let v2 := x.c0
  let v2 := v2 * x.c1
  let v0 := v0 * v3
  let v0 := v0 + v2
  let c1 := v2
  let c1 := c1 + c1
  let c0 := v0
  let v2 := v2 * nonResidue
  let c0 := c0 + v2
  { c0 := c0, c1 := c1 }

/-- fp2.rs 192-195 `double` -/
def double (x : Fq2) : Fq2 := { c0 := x.c0 + x.c0, c1 := x.c1 + x.c1 }

/-- fp2.rs 197-200 `negate` -/
def negate (x : Fq2) : Fq2 := { c0 := -x.c0, c1 := -x.c1 }

/-- fp2.rs 202-205 `add_assign` -/
def add (x y : Fq2) : Fq2 := { c0 := x.c0 + y.c0, c1 := x.c1 + y.c1 }

/-- fp2.rs 207-210 `sub_assign` -/
def sub (x y : Fq2) : Fq2 := { c0 := x.c0 - y.c0, c1 := x.c1 - y.c1 }

/-- fp2.rs 212-228 `mul_assign` -/
def mul (x y : Fq2) : Fq2 :=
  let aa := x.c0
  let aa := aa * y.c0
  let bb := x.c1
  let bb := bb * y.c1
  let o := y.c0
  let o := o + y.c1
  let c1 := x.c1 + x.c0
  let c1 := c1 * o
  let c1 := c1 - aa
  let c1 := c1 - bb
  let c0 := aa
  let bb := bb * nonResidue
  let c0 := c0 + bb
  { c0 := c0, c1 := c1 }

/-- fp2.rs 230-255 `inverse` -/
def inv (x : Fq2) : Option Fq2 :=
  if x.isZero then none
  else
    let v0 := x.c0
    let v0 := v0 * v0
    let v1 := x.c1
    let v1 := v1 * v1
    let v1ByNonresidue := v1 * nonResidue
    let v0 := v0 - v1ByNonresidue
    (Hodor.inverse v0).map fun v1 =>
      let c0 := x.c0 * v1
      let c1 := x.c1 * v1
      let c1 := -c1
      { c0 := c0, c1 := c1 }

/-- One bit of the loop of `pow`. -/
def powBit (x : Fq2) (bit : Bool) (s : Fq2 × Bool) : Fq2 × Bool :=
  let s := if s.2 then (s.1.square, s.2) else (s.1, bit)
  if bit then (s.1.mul x, s.2) else s

/-- `Field::pow` (provided method of the external crate `ff_ce`, which `fp2.rs` does not override): square-and-multiply over all bits of the
limbs from the most significant one, squaring only once a set bit was seen. -/
def pow (x : Fq2) (exp : List ℕ) : Fq2 :=
  (((List.range (64 * exp.length)).reverse.map fun i => (limbInt exp).testBit i).foldl (fun s bit => powBit x bit s) (one, false)).1

/-- fp2.rs 264-266 `xi` -/
def xi (x : Fq2) : Fq2 := x.pow qSquaredMinusOneByTwo

/-- fp2.rs 268-271 `mul_by_0` -/
def mulBy0 (x : Fq2) (fq : FrStark) : Fq2 := { c0 := x.c0 * fq, c1 := x.c1 * fq }

/-- fp2.rs 273-284 `mul_by_1` -/
def mulBy1 (x : Fq2) (fq : FrStark) : Fq2 :=
  let bb := x.c1
  let bb := bb * fq
  let c1 := x.c1 + x.c0
  let c1 := c1 * fq
  let c1 := c1 - bb
  let bb := bb * nonResidue
  let c0 := bb
  { c0 := c0, c1 := c1 }

/-- `Fq::legendre()` (derive macro, external): 0 for zero, otherwise `x^((q-1)/2)` compared with 1. -/
def fqLegendre (x : FrStark) : ℤ := if x = 0 then 0 else if x ^ ((starkPrime - 1) / 2) = 1 then 1 else -1

/-- fp2.rs 288-290 `legendre` -/
def legendre (x : Fq2) : ℤ := fqLegendre x.norm

/-- fp2.rs 292-348 `sqrt`. `fqSqrt` is `Fq::sqrt` of the derive macro (external). The `debug_assert!`s are modelled as assertions. -/
def sqrt (fqSqrt : FrStark → Option FrStark) (x : Fq2) : Res (Option Fq2) :=
  if x.isZero then pure (some zero)
  else do
    let b := x.pow qMinusOneByFour
    let bSquared := b.square
    let bInQ := b.pow fqChar
    let bInQByB := bInQ.mul b
    let a0 := bInQByB.square
    if a0 = minusOneFp2 then pure none
    else if bInQByB = one then do
      let bSquaredByA := bSquared.mul x
      Res.assert (decide (bSquaredByA.c1 = 0))
      match fqSqrt bSquaredByA.c0 with
      | none => pure none
      | some x0 => pure (some (bInQ.mulBy0 x0))
    else do
      let bSquaredByAByF := bSquared.mul x
      Res.assert (decide (fPrecomputed.c1 = 0))
      let bSquaredByAByF := bSquaredByAByF.mulBy0 fPrecomputed.c0
      Res.assert (decide (bSquaredByAByF.c1 = 0))
      match fqSqrt bSquaredByAByF.c0 with
      | none => pure none
      | some x0 => do
        let r := bInQ.mulBy0 x0
        Res.assert (decide (ePrecomputed.c0 = 0))
        pure (some (r.mulBy1 ePrecomputed.c1))

/-- fp2.rs 362-369, the loop of `find_c`: the first of `c`, `c + 1`, `c + 2`, ... that `xi` does not map to one. The loop of the code has no
bound; `fuel` bounds the number of elements tried, `none` standing for a loop that goes on. -/
def findC : ℕ → Fq2 → Option Fq2
  | 0, _ => none
  | fuel + 1, c => if c.xi = one then findC fuel (c.add one) else some c

/-- fp2.rs 354-386 `find_c`, which computes the constants `E_PRECOMPUTED` and `F_PRECOMPUTED` and prints them (387-420, not modelled). The
search starts from `1 + u`; `unwrap` of the inverse and the final assertion panic. -/
def findConstants (fuel : ℕ) : Res (Option (Fq2 × Fq2)) :=
  match findC fuel { c0 := 1, c1 := 1 } with
  | none => pure none
  | some c => do
    let d := c.pow qMinusOneByTwo
    let dc := d.mul c
    match dc.inv with
    | none => .panic
    | some e => do
      let f := dc.square
      let mayBeOne := e.mul dc
      Res.assert (decide (mayBeOne = one))
      pure (some (e, f))

end Fq2

end Hodor

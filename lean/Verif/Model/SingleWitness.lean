import Verif.Model.Arp

/-!
# The single witness polynomial (`src/arp/single_witness/mod.rs`)

The file is commented out of the crate's module list (`src/arp/mod.rs`); its argument `IntoARPInstance` is modelled by what `into_arp` returns today, the optional witness and the
`InstanceProperties`.
-/

namespace Hodor

variable {F : Type} [Field F]

/-- `src/arp/single_witness/mod.rs` 44-46: copy one cell of register `reg` into a chunk that starts with row `start`. -/
def swCell (rs start reg : ℕ) (row : List F) (j : ℕ) (f : List F) : Res (List F) := do
  let x ← rd row (j + start)
  wr f (j * rs + reg) x

/-- `src/arp/single_witness/mod.rs` 36-48: the task of chunk `i`. `end - start` (line 42) panics in debug builds when the chunk starts after the last row; in release builds it wraps, and the
first read of line 45 is out of bounds, so both panic. -/
def swChunk (witness : List (List F)) (numRows rs chunk i : ℕ) (f : List F) : Res (List F) := do
  let start := chunk * i
  let end_ := if numRows < chunk * (i + 1) then numRows else chunk * (i + 1)
  Res.assert (start ≤ end_)
  forN witness.length 0 f (fun reg f => do
    let row ← rd witness reg
    forN (end_ - start) 0 f (swCell rs start reg row))

variable [DecidableEq F] [StarkField F]

/-- `src/arp/single_witness/mod.rs` 20-55 `make_single_witness_polymonial` -/
def makeSingleWitnessPolynomial (witness : List (List F)) (w : Worker) : Res (Poly F .coefficients) := do
  let row0 ← rd witness 0
  let numRows := row0.length
  let rs := nextPow2 witness.length
  let rowsSup := nextPow2 numRows
  let chunk := w.chunkSize numRows
  let parts ← mapRes (fun p => swChunk witness numRows rs chunk p.1 p.2)
    ((chunks (chunk * rs) (List.replicate (rs * rowsSup) (0 : F))).mapIdx (fun i v => (i, v)))
  let poly ← Poly.fromValues parts.flatten
  poly.ifft w

/-- `src/arp/single_witness/mod.rs` 11-18 `SingleWitnessARPInstance` -/
structure SingleWitnessArp (F : Type) where
  witnessPoly : Option (Poly F .coefficients)
  properties : InstanceProperties F

/-- `src/arp/single_witness/mod.rs` 58-78 `from_instance` -/
def SingleWitnessArp.fromInstance (witness : Option (List (List F))) (inst : InstanceProperties F) (w : Worker) :
    Res (SingleWitnessArp F) :=
  match witness with
  | none => .ok { witnessPoly := none, properties := inst }
  | some t => do
    let p ← makeSingleWitnessPolynomial t w
    pure { witnessPoly := some p, properties := inst }

/-- `src/arp/single_witness/mod.rs` 95-124 `remap_univariate_term`; the caller passes the witness domain as `row_domain` and the rows domain as `column_domain` (166-170). -/
def swMaskUnivariateTerm (rowDomain columnDomain : Domain F) (t : UnivariateTerm F) : Res (UnivariateTerm F) := do
  let registerDelta ← t.register.num
  match t.stepsDifference with
  | .steps n => .ok { t with stepsDifference := .mask (columnDomain.generator ^ n * rowDomain.generator ^ registerDelta) }
  | .mask _ => .panic

/-- `src/arp/single_witness/mod.rs` 126-149 `remap_term` -/
def swMaskTerm (rowDomain columnDomain : Domain F) : ConstraintTerm F → Res (ConstraintTerm F)
  | .univariate t => do
    let t ← swMaskUnivariateTerm rowDomain columnDomain t
    pure (.univariate t)
  | .polyvariate p => do
    let ts ← mapRes (swMaskUnivariateTerm rowDomain columnDomain) p.terms
    pure (.polyvariate { p with terms := ts })

/-- `src/arp/single_witness/mod.rs` 151-163 `remap_constraint` -/
def swMaskConstraint (rowDomain columnDomain : Domain F) (c : Constraint F) : Res (Constraint F) := do
  let ts ← mapRes (swMaskTerm rowDomain columnDomain) c.terms
  pure { c with terms := ts }

/-- `src/arp/single_witness/mod.rs` 85-174 `route` -/
def SingleWitnessArp.route (a : SingleWitnessArp F) : Res (SingleWitnessArp F) := do
  let rs := nextPow2 a.properties.numRegisters
  let rowsSup := nextPow2 a.properties.numRows
  let witnessDomain ← Domain.newForSize F (rs * rowsSup)
  let rowsDomain ← Domain.newForSize F rowsSup
  let cs ← mapRes (swMaskConstraint witnessDomain rowsDomain) a.properties.constraints
  pure { a with properties := { a.properties with constraints := cs } }

end Hodor

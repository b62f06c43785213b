import Verif.Model.Air

/-!
# Constructors of repeated and sparse constraints (`src/air/mod.rs` 84-123)
-/

namespace Hodor

/-- `src/air/mod.rs` 85-95 `RepeatedConstraint::new` -/
def RepeatedConstraint.new (startingAt span interval : ℕ) : Res RepeatedConstraint := do
  Res.assert (interval ≠ 1 && interval ≠ 0 && 1 ≤ span)
  pure { startAt := startingAt, span := span, interval := interval }

/-- `src/air/mod.rs` 97-105 `RepeatedConstraint::default` -/
def RepeatedConstraint.default : RepeatedConstraint := { startAt := 0, span := 1, interval := 2 }

/-- `src/air/mod.rs` 107-115 `SparseConstraint::new` -/
def SparseConstraint.new (atRows : List ℕ) : Res SparseConstraint := do
  Res.assert (0 < atRows.length)
  pure { rows := atRows }

/-- `src/air/mod.rs` 117-123 `SparseConstraint::default` -/
def SparseConstraint.default : SparseConstraint := { rows := [] }

end Hodor

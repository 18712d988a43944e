import Verif.LatticeModel
import Verif.OptimizeActionSpec
import Mathlib.Algebra.Group.Subgroup.Lattice
import Mathlib.Algebra.Group.Pi.Basic
import Mathlib.Algebra.Group.Int.Defs

/-!
# Lattices and their texts
-/

namespace Frobby

/-- The text means the matrix with these rows and this number of columns. -/
def latticeG (f : LatticeFormat) (cols : ℕ) (rows : List (List ℤ)) : Gram := fun t r => (∀ row ∈ rows, row.length = cols) ∧
  match f with
  | .fourti2 => (sizeG rows.length ⊹ sizeG cols ⊹ Many (Many integerG) rows) t r
  | .fplll => (rows = [] → cols = 0) ∧ (lit t!"[" ⊹ Many (fun row => lit t!"[" ⊹ Many integerG row ⊹ lit t!"]") rows ⊹ lit t!"]") t r

/-- The lattice that is generated by the rows. -/
def latticeOf (cols : ℕ) (rows : List (List ℤ)) : AddSubgroup (Fin cols → ℤ) := AddSubgroup.closure {v | ∃ row ∈ rows, v = fun i : Fin cols => row.getD i 0}

/-- The number of entries that are zero. -/
def zeroCount (rows : List (List ℤ)) : ℕ := (rows.map fun row => row.count 0).sum

/-- The names of the formats. -/
def LatticeFormat.name : LatticeFormat → Text
  | .fourti2 => t!"4ti2"
  | .fplll => t!"fplll"

/-- No entry of the column is 1 or -1, or only one entry of it is not zero. -/
def ColumnDone (col : ℕ) (rows : List (List ℤ)) : Prop :=
  (∀ row ∈ rows, row.getD col 0 ≠ 1 ∧ row.getD col 0 ≠ -1) ∨ ∃ i < rows.length, ∀ j < rows.length, j ≠ i → (rows.getD j []).getD col 0 = 0

/-- The matrix fits into the counters of loops with 32 bits. -/
def FitsLoops (cols : ℕ) (rows : List (List ℤ)) : Prop := rows.length < 2 ^ 32 ∧ (cols < 2 ^ 32 ∨ rows = [])

end Frobby

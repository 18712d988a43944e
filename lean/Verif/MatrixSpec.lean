import Mathlib.Data.Matrix.Mul
import Mathlib.Algebra.Field.Rat
import Mathlib.LinearAlgebra.Span.Basic

/-!
# Specification for `Matrix`

Echelon forms, row spaces and areas, in the words of a text book.
-/

namespace Frobby

variable {r c : ℕ}

/-- The first entry of row `i` that is not zero is in column `j`. -/
def Leads (a : Matrix (Fin r) (Fin c) ℚ) (i : Fin r) (j : Fin c) : Prop := a i j ≠ 0 ∧ ∀ l < j, a i l = 0

/-- Row echelon form: above the leading entry of a row there is a row with a leading entry further to the left, and so on for all rows
above. In particular the rows that are zero come last. -/
def RowEchelon (a : Matrix (Fin r) (Fin c) ℚ) : Prop := ∀ i i' j', i < i' → Leads a i' j' → ∃ j < j', Leads a i j

/-- Reduced row echelon form: the leading entries are `1` and alone in their columns. -/
def ReducedEchelon (a : Matrix (Fin r) (Fin c) ℚ) : Prop :=
  RowEchelon a ∧ ∀ i j, Leads a i j → a i j = 1 ∧ ∀ i', i' ≠ i → a i' j = 0

/-- The space of the linear combinations of the rows. -/
def rowSpace (a : Matrix (Fin r) (Fin c) ℚ) : Submodule ℚ (Fin c → ℚ) := Submodule.span ℚ (Set.range fun i => fun j => a i j)

/-- The space of the linear combinations of the columns. -/
def colSpace (a : Matrix (Fin r) (Fin c) ℚ) : Submodule ℚ (Fin r → ℚ) := Submodule.span ℚ (Set.range fun j => fun i => a i j)

/-- The rows are the four vertices of a parallelogram, in some order: the diagonals have the same middle. -/
def ParallelogramRows (a : Matrix (Fin r) (Fin c) ℚ) : Prop :=
  ∃ p q s t : Fin r, [p, q, s, t].Nodup ∧ (∀ i, i ∈ [p, q, s, t]) ∧ ∀ j, a p j + a s j = a q j + a t j

/-- The square of the area of the parallelogram with a vertex at `p` and the vertices `q` and `t` next to it: the product of the squares
of the lengths of the sides minus the square of the scalar product. -/
def areaSq (p q t : Fin c → ℚ) : ℚ :=
  (∑ j, (q j - p j) ^ 2) * (∑ j, (t j - p j) ^ 2) - (∑ j, (q j - p j) * (t j - p j)) ^ 2

end Frobby

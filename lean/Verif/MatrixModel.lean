import Mathlib.Data.Matrix.Mul
import Mathlib.Data.Rat.Defs
import Mathlib.Algebra.Order.Ring.Unbundled.Rat
import Mathlib.Algebra.Field.Rat
import Verif.TranslatorModel

/-!
# Model of `Matrix`

Matrices of rational numbers. A matrix with `r` rows and `c` columns is a function of the row and the column, so that no entry outside of it
can be named; `storageIndex` models where an entry is stored. Arguments of a function that are passed by reference are different
objects here, so for example `product(a, a, b)` is not modelled.
-/

namespace Frobby

variable {r c : ℕ}

/-- `Matrix::toIndex` (Matrix.h:47-54). -/
def storageIndex (colCount row col : ℕ) : ℕ := col + row * colCount

/-- `product` (Matrix.cpp:116-127). -/
def matProduct {k : ℕ} (a : Matrix (Fin r) (Fin k) ℚ) (b : Matrix (Fin k) (Fin c) ℚ) : Matrix (Fin r) (Fin c) ℚ :=
  fun i j => (List.finRange k).foldl (fun s l => s + a i l * b l j) 0

/-- `transpose` (Matrix.cpp:129-144). -/
def matTranspose (a : Matrix (Fin r) (Fin c) ℚ) : Matrix (Fin c) (Fin r) ℚ := fun j i => a i j

/-- `addMultiplyRow` (Matrix.cpp:147-154). -/
def addMultiplyRow (a : Matrix (Fin r) (Fin c) ℚ) (resultRow sourceRow : Fin r) (mult : ℚ) : Matrix (Fin r) (Fin c) ℚ :=
  fun i j => if i = resultRow then a i j + a sourceRow j * mult else a i j

/-- `multiplyRow` (Matrix.cpp:156-159). -/
def multiplyRow (a : Matrix (Fin r) (Fin c) ℚ) (row : Fin r) (mult : ℚ) : Matrix (Fin r) (Fin c) ℚ :=
  fun i j => if i = row then a i j * mult else a i j

/-- `swapRows` (Matrix.cpp:161-167). -/
def swapRows (a : Matrix (Fin r) (Fin c) ℚ) (row1 row2 : Fin r) : Matrix (Fin r) (Fin c) ℚ :=
  fun i j => if i = row1 then a row2 j else if i = row2 then a row1 j else a i j

/-- The loop in `rowReduce` that clears the column below the pivot (Matrix.cpp:188-194). -/
def clearBelow (a : Matrix (Fin r) (Fin c) ℚ) (pivotRow : Fin r) (pivotCol : Fin c) : Matrix (Fin r) (Fin c) ℚ :=
  (List.finRange r).foldl (fun a row => if pivotRow < row ∧ a row pivotCol ≠ 0 then
    addMultiplyRow a row pivotRow (-a row pivotCol / a pivotRow pivotCol) else a) a

/-- One step of the loop in `rowReduce` (Matrix.cpp:174-194). The state is the matrix, `rowsDone` and `permutationOdd`. -/
def rowReduceStep (s : Matrix (Fin r) (Fin c) ℚ × ℕ × Bool) (pivotCol : Fin c) : Matrix (Fin r) (Fin c) ℚ × ℕ × Bool :=
  match (List.finRange r).find? fun i => decide (s.2.1 ≤ i.val ∧ s.1 i pivotCol ≠ 0) with
  | none => s
  | some pivotRow =>
    if h : s.2.1 < r then
      if s.2.1 ≠ pivotRow.val then (clearBelow (swapRows s.1 ⟨s.2.1, h⟩ pivotRow) ⟨s.2.1, h⟩ pivotCol, s.2.1 + 1, !s.2.2)
      else (clearBelow s.1 ⟨s.2.1, h⟩ pivotCol, s.2.1 + 1, s.2.2)
    else s

/-- `rowReduce` (Matrix.cpp:169-198). -/
def rowReduce (a : Matrix (Fin r) (Fin c) ℚ) : Matrix (Fin r) (Fin c) ℚ × Bool :=
  let s := (List.finRange c).foldl rowReduceStep (a, 0, false)
  (s.1, s.2.2)

/-- The loop in `rowReduceFully` that clears the column above the pivot (Matrix.cpp:213-218). -/
def clearAbove (a : Matrix (Fin r) (Fin c) ℚ) (pivotRow : Fin r) (pivotCol : Fin c) : Matrix (Fin r) (Fin c) ℚ :=
  (List.finRange r).foldl (fun a row => if row < pivotRow ∧ a row pivotCol ≠ 0 then
    addMultiplyRow a row pivotRow (-a row pivotCol) else a) a

/-- The loop in `rowReduceFully` (Matrix.cpp:206-222). The first argument is a bound for the number of steps. -/
def reduceUpLoop : ℕ → Matrix (Fin r) (Fin c) ℚ → (pivotRow pivotCol : ℕ) → Matrix (Fin r) (Fin c) ℚ
  | 0, a, _, _ => a
  | steps + 1, a, pivotRow, pivotCol =>
    if h : pivotRow < r ∧ pivotCol < c then
      if a ⟨pivotRow, h.1⟩ ⟨pivotCol, h.2⟩ = 0 then reduceUpLoop steps a pivotRow (pivotCol + 1)
      else reduceUpLoop steps (clearAbove (multiplyRow a ⟨pivotRow, h.1⟩ (1 / a ⟨pivotRow, h.1⟩ ⟨pivotCol, h.2⟩)) ⟨pivotRow, h.1⟩ ⟨pivotCol, h.2⟩)
        (pivotRow + 1) pivotCol
    else a

/-- `rowReduceFully` (Matrix.cpp:200-223). -/
def rowReduceFully (a : Matrix (Fin r) (Fin c) ℚ) : Matrix (Fin r) (Fin c) ℚ := reduceUpLoop (r + c) (rowReduce a).1 0 0

/-- The loop that finds the pivots in `matrixRank` and `nullSpace` (Matrix.cpp:281-291, 303-314), which gives the columns with a pivot.
The first argument is a bound for the number of steps. -/
def pivotLoop (a : Matrix (Fin r) (Fin c) ℚ) : ℕ → (row col : ℕ) → List (Fin c)
  | 0, _, _ => []
  | steps + 1, row, col =>
    if h : row < r ∧ col < c then
      if a ⟨row, h.1⟩ ⟨col, h.2⟩ = 0 then pivotLoop a steps row (col + 1)
      else ⟨col, h.2⟩ :: pivotLoop a steps (row + 1) col
    else []

/-- `matrixRank` (Matrix.cpp:276-294). -/
def matrixRank (a : Matrix (Fin r) (Fin c) ℚ) : ℕ := (pivotLoop (rowReduceFully a) (r + c) 0 0).length

/-- The columns of `b` are written after those of `a`, as in `inverse` and `solve` (Matrix.cpp:261-266, 351-357), with
`Matrix::resize` (Matrix.cpp:61-72). -/
def appendColumns {k : ℕ} (a : Matrix (Fin r) (Fin c) ℚ) (b : Matrix (Fin r) (Fin k) ℚ) : Matrix (Fin r) (Fin (c + k)) ℚ :=
  Matrix.of fun i j => Fin.append (fun l => a i l) (fun l => b i l) j

/-- `inverse` (Matrix.cpp:257-274). The entry `(size - 1, size - 1)` of a matrix without rows does not exist. -/
def matInverse (a : Matrix (Fin r) (Fin r) ℚ) : Outcome (Option (Matrix (Fin r) (Fin r) ℚ)) :=
  let inv : Matrix (Fin r) (Fin (r + r)) ℚ := rowReduceFully (appendColumns a (Matrix.of fun i j => if i = j then 1 else 0))
  if h : 0 < r then
    if inv ⟨r - 1, by omega⟩ ⟨r - 1, by omega⟩ = 0 then .ok none
    else .ok (some (Matrix.of fun i j => inv i (Fin.natAdd r j)))
  else .crash

/-- `makeColumnIntegralPrimitive` (Matrix.cpp:31-54) on the column. `none` is division by zero. -/
def integralPrimitive {m : ℕ} (v : Fin m → ℚ) : Option (Fin m → ℚ) :=
  match List.ofFn v with
  | [] => some v
  | q :: qs =>
    let numGcd : ℤ := qs.foldl (fun g p => (Int.gcd g p.num : ℤ)) q.num
    let denLcm : ℕ := qs.foldl (fun l p => Nat.lcm l p.den) q.den
    if numGcd = 0 then none else some fun i => v i / numGcd * denLcm

/-- The loop over the rows of the basis in `nullSpace` (Matrix.cpp:328-337) for the column `col` of the reduced matrix `a`. The
second argument is `row`; `none` is access to a row that does not exist. -/
def nullColumn (a : Matrix (Fin r) (Fin c) ℚ) (hasPivot : Fin c → Bool) (col : Fin c) : ℕ → List (Fin c) → Option (List ℚ)
  | _, [] => some []
  | row, nullRow :: rest =>
    if hasPivot nullRow then
      if h : row < r then (nullColumn a hasPivot col (row + 1) rest).map fun l => -a ⟨row, h⟩ col :: l else none
    else (nullColumn a hasPivot col row rest).map fun l => (if nullRow = col then 1 else 0) :: l

/-- `nullSpace` (Matrix.cpp:296-346). The result is the list of the columns of the basis. -/
def nullSpace (a : Matrix (Fin r) (Fin c) ℚ) : Option (List (Fin c → ℚ)) :=
  let mat := rowReduceFully a
  let pivots := pivotLoop mat (r + c) 0 0
  let hasPivot := fun col => decide (col ∈ pivots)
  ((List.finRange c).filter fun col => !hasPivot col).mapM fun col =>
    (nullColumn mat hasPivot col 0 (List.finRange c)).bind fun l => integralPrimitive fun i : Fin c => l.getD i 0

/-- The loop in `solve` that takes the solution from the reduced system (Matrix.cpp:375-386). The rows of the solution for the columns in
the list; the first argument is `row`. -/
def solutionRows {k : ℕ} (system : Matrix (Fin r) (Fin (c + k)) ℚ) : ℕ → List (Fin c) → List (Fin k → ℚ)
  | _, [] => []
  | row, col :: cols =>
    if h : row < r then
      if system ⟨row, h⟩ (Fin.castAdd k col) = 0 then (fun _ => 0) :: solutionRows system row cols
      else (fun j => system ⟨row, h⟩ (Fin.natAdd c j)) :: solutionRows system (row + 1) cols
    else (fun _ => 0) :: solutionRows system row cols

/-- `solve` (Matrix.cpp:348-388). The result is the solution, if there is one. -/
def matSolve {k : ℕ} (lhs : Matrix (Fin r) (Fin c) ℚ) (rhs : Matrix (Fin r) (Fin k) ℚ) : Option (Matrix (Fin c) (Fin k) ℚ) :=
  let system : Matrix (Fin r) (Fin (c + k)) ℚ := rowReduceFully (appendColumns lhs rhs)
  if (List.finRange r).any fun row => ((List.finRange c).all fun col => decide (system row (Fin.castAdd k col) = 0)) &&
      (List.finRange k).any fun col => decide (system row (Fin.natAdd c col) ≠ 0) then none
  else some (Matrix.of fun i j => (solutionRows system 0 (List.finRange c)).getD i (fun _ => 0) j)

/-- `hasSameColSpace` (Matrix.cpp:400-408). -/
def hasSameColSpace {r' c' : ℕ} (a : Matrix (Fin r) (Fin c) ℚ) (b : Matrix (Fin r') (Fin c') ℚ) : Bool :=
  if h : r = r' then (matSolve a (b.submatrix (Fin.cast h) id)).isSome && (matSolve (b.submatrix (Fin.cast h) id) a).isSome else false

/-- `hasSameRowSpace` (Matrix.cpp:390-398). -/
def hasSameRowSpace {r' c' : ℕ} (a : Matrix (Fin r) (Fin c) ℚ) (b : Matrix (Fin r') (Fin c') ℚ) : Bool :=
  hasSameColSpace (matTranspose a) (matTranspose b)

/-- `determinant` (Matrix.cpp:410-420). -/
def determinant (a : Matrix (Fin r) (Fin r) ℚ) : ℚ :=
  (List.finRange r).foldl (fun det i => det * (rowReduce a).1 i i) (if (rowReduce a).2 then -1 else 1)

/-- The test for one `opposite` in `getOppositeZeroRow` (Matrix.cpp:435-444), for a matrix with four rows. -/
def oppositeIs (a : Matrix (Fin 4) (Fin c) ℚ) (opposite : Fin 4) : Bool :=
  (List.finRange c).all fun col =>
    decide (([1, 2, 3] : List (Fin 4)).foldl (fun tmp row => if row ≠ opposite then tmp - a row col else tmp) (a 0 col + a opposite col) = 0)

/-- `getOppositeZeroRow` (Matrix.cpp:423-449). `none` is the number of rows. -/
def getOppositeZeroRow (a : Matrix (Fin r) (Fin c) ℚ) : Option (Fin 4) :=
  if h : r = 4 then ([1, 2, 3] : List (Fin 4)).find? fun opposite => oppositeIs (a.submatrix (Fin.cast h.symm) id) opposite else none

/-- `isParallelogram` (Matrix.cpp:452-454). -/
def isParallelogram (a : Matrix (Fin r) (Fin c) ℚ) : Bool := (getOppositeZeroRow a).isSome

/-- `getParallelogramAreaSq` (Matrix.cpp:456-486), where `none` is the case that the matrix is not a parallelogram. -/
def getParallelogramAreaSq (m : Matrix (Fin 4) (Fin c) ℚ) : Option ℚ :=
  (getOppositeZeroRow m).bind fun opposite =>
    (([1, 2, 3] : List (Fin 4)).find? fun i => decide (i ≠ opposite)).bind fun a =>
      (([1, 2, 3] : List (Fin 4)).find? fun i => decide (a < i ∧ i ≠ opposite)).map fun b =>
        let tmp : Matrix (Fin 2) (Fin c) ℚ := Matrix.of fun i col => if i = 0 then m a col - m 0 col else m b col - m 0 col
        determinant (matProduct tmp (matTranspose tmp))

end Frobby

import Verif.OptimizeActionModel
import Mathlib.Data.List.GetD

/-!
# Model of the action `latformat` (src/LatticeFormatAction.cpp)

A basis of a lattice is kept in a `BigIdeal` with the rows as generators. The names of the variables are not used. That the memory is enough is taken for granted.
-/

namespace Frobby

/-- The names of the formats of lattices (IOFacade.cpp:318-326). -/
inductive LatticeFormat
  | fourti2 | fplll
deriving DecidableEq

/-- `isValidLatticeFormat` (IOFacade.cpp:318-326), with the format. -/
def latticeFormat (x : Text) : Option LatticeFormat := if x = t!"4ti2" then some .fourti2 else if x = t!"fplll" then some .fplll else none

/-- The number of columns and the rows. -/
structure LatticeBasis where
  cols : ℕ
  rows : List (List ℤ)
deriving DecidableEq

/-- The loop over the rows (fourti2.cpp:73-77). -/
def readLatticeRows (cols : ℕ) : ℕ → Text → Option (List (List ℤ) × Text)
  | 0, t => some ([], t)
  | k + 1, t => (readVector cols t).bind fun p => (readLatticeRows cols k p.2).map fun q => (p.1 :: q.1, q.2)

/-- `fourti2::readLatticeBasis` (fourti2.cpp:63-78). The counters of the loops have 32 bits, so that a loop up to a larger number has no end. It goes on until an integer
cannot be read, or forever if there are none to read; this is `crash`. -/
def readLattice4ti2 (t : Text) : Outcome (LatticeBasis × Text) :=
  match readSizeT t with
  | none => .error
  | some (rowCount, t1) =>
    match readSizeT t1 with
    | none => .error
    | some (cols, t2) =>
      if rowCount < 4294967296 ∧ (cols < 4294967296 ∨ rowCount = 0) then
        match readLatticeRows cols rowCount t2 with
        | none => .error
        | some (rows, t3) => .ok (⟨cols, rows⟩, t3)
      else if cols = 0 then .crash else .error

/-- One more entry of a row (fplllIO.cpp:34-36). -/
def fplllEntry (row : List ℤ) (t : Text) : Option (List ℤ × Text) := (readInteger t).map fun p => (row ++ [p.1], p.2)

/-- One more row (fplllIO.cpp:31-49). -/
def fplllRow (rows : List (List ℤ)) (t : Text) : Option (List (List ℤ) × Text) :=
  (expectChar '[' t).bind fun t1 => (readUntil fplllEntry ']' (t1.length + 1) [] t1).bind fun p =>
    if ((rows ++ [p.1]).headD []).length ≠ p.1.length then none else some (rows ++ [p.1], p.2)

/-- `fplll::readLatticeBasis` (fplllIO.cpp:26-60). The loops that copy the entries have no end if there are too many rows or columns. -/
def readLatticeFplll (t : Text) : Outcome (LatticeBasis × Text) :=
  match (expectChar '[' t).bind fun t1 => readUntil fplllRow ']' (t1.length + 1) [] t1 with
  | none => .error
  | some (rows, r) => if rows.length < 4294967296 ∧ (rows.headD []).length < 4294967296 then .ok (⟨(rows.headD []).length, rows⟩, r) else .crash

/-- `IOFacade::readLattice` (IOFacade.cpp:328-341) and `expectEOF` (LatticeFormatAction.cpp:78). -/
def readLattice (f : LatticeFormat) (t : Text) : Outcome LatticeBasis :=
  match (match f with
    | .fourti2 => readLattice4ti2 t
    | .fplll => readLatticeFplll t) with
  | .ok (B, r) => if matchEOF r then .ok B else .error
  | .error => .error
  | .crash => .crash

/-- The entries of a row (fourti2.cpp:85-89, fplllIO.cpp:66-70). -/
def entriesText : List ℤ → Text
  | [] => []
  | x :: l => decimalInt x ++ l.flatMap fun y => ' ' :: decimalInt y

/-- `IOFacade::writeLattice` (IOFacade.cpp:343-356), `fourti2::writeLatticeBasis` (fourti2.cpp:80-92) and `fplll::writeLatticeBasis` (fplllIO.cpp:62-74). -/
def writeLattice (f : LatticeFormat) (B : LatticeBasis) : Text :=
  match f with
  | .fourti2 => decimal B.rows.length ++ t!" " ++ decimal B.cols ++ t!"\n" ++ B.rows.flatMap fun row => entriesText row ++ t!"\n"
  | .fplll => t!"[\n" ++ (B.rows.flatMap fun row => t!" [" ++ entriesText row ++ t!"]\n") ++ t!"]\n"

/-- `addMultiple` (lattice.cpp:22-31). -/
def addMultiple (rows : List (List ℤ)) (add addTo : ℕ) (mult : ℤ) : List (List ℤ) :=
  if mult = 0 then rows else rows.set addTo (List.zipWith (fun x y => x + y * mult) (rows.getD addTo []) (rows.getD add []))

/-- The loop that clears the column of all rows but one (lattice.cpp:49-53). -/
def clearColumn (col i : ℕ) (sign : ℤ) (rows : List (List ℤ)) : List (List ℤ) :=
  (List.range rows.length).foldl (fun B j => if j = i then B else addMultiple B i j (-1 * sign * (B.getD j []).getD col 0)) rows

/-- The loop that looks for a row (lattice.cpp:39-56). -/
def zeroColumn (rows : List (List ℤ)) (col : ℕ) : List (List ℤ) :=
  match (List.range rows.length).find? fun i => (rows.getD i []).getD col 0 = 1 || (rows.getD i []).getD col 0 = -1 with
  | none => rows
  | some i => clearColumn col i ((rows.getD i []).getD col 0) rows

/-- `makeZeroesInLatticeBasis` (lattice.cpp:33-57). Without rows there is no first row. Without columns the first column of the loop is 2^32 - 1. -/
def makeZeroes (B : LatticeBasis) : Outcome LatticeBasis :=
  if B.rows = [] ∨ B.cols = 0 then .crash else .ok { B with rows := ((List.range (B.cols - 1)).reverse.map (· + 1)).foldl zeroColumn B.rows }

/-- `LatticeFormatAction::perform` (LatticeFormatAction.cpp:61-86). -/
def latformatText (zero : Bool) (iformat oformat t : Text) : Outcome Text :=
  match latticeFormat iformat, latticeFormat (if oformat = t!"input" then iformat else oformat) with
  | some f, some g =>
    match readLattice f t with
    | .ok B =>
      match if zero then makeZeroes B else .ok B with
      | .ok B' => .ok (writeLattice g B')
      | .error => .error
      | .crash => .crash
    | .error => .error
    | .crash => .crash
  | _, _ => .error

end Frobby

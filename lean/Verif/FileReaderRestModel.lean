import Verif.FileReaderMoreModel
import Verif.LatticeModel
import Verif.SatBinomModel

/-!
# The readers of lists of ideals in the format of 4ti2, of lattices and of saturated binomial ideals, asking a scanner

As `FileReaderMoreModel`. The reader of lists in the format of 4ti2 asks for the end of the file itself if there is only a ring, and then the
action asks for it again. The reader of lattices can have no end.
-/

namespace Frobby

namespace ScanProg

/-! ## lists of ideals -/

/-- `Fourti2::readRing` (Fourti2IOHandler.cpp:328-332). -/
def ring4ti2P : ℕ → List Text → ScanProg (List Text)
  | 0, _ => .fail
  | n + 1, names => do
    if ← peekIdP then do
      let names' ← nameP names
      ring4ti2P n names'
    else pure names

/-- The loop of `Fourti2IOHandler::doReadIdeals` (Fourti2IOHandler.cpp:230-231). -/
def ideals4ti2LoopP : ℕ → List Text → List NamedIdeal → ScanProg (List NamedIdeal × List Text)
  | 0, _, _ => .fail
  | n + 1, names, Is => do
    if ← atEndP then pure (Is, names)
    else do
      let k ← consumerP false .fourti2
      ideals4ti2LoopP n k.names (Is ++ [k.release])

/-- Whether this is a ring without ideals (Fourti2IOHandler.cpp:216). -/
def ringOnlyP (generatorCount : ℕ) : ScanProg Bool := if generatorCount = 42 then peekIdP else pure false

/-- `Fourti2IOHandler::doReadIdeals` (Fourti2IOHandler.cpp:205-232), but for `in.expectEOF()` (221). The flag says whether that is to come. -/
def ideals4ti2P : ScanProg ((List NamedIdeal × List Text) × Bool) := do
  let generatorCount ← sizeP
  if ← ringOnlyP generatorCount then do
    textP t!"ring"
    let n ← leftP
    let names ← ring4ti2P (n + 1) []
    pure (([], names), true)
  else do
    let varCount ← sizeP
    let k ← fourti2P false generatorCount varCount
    let n ← leftP
    let x ← ideals4ti2LoopP (n + 1) k.names [k.release]
    pure (x, false)

/-- `doReadIdeals` (IOHandlerCommon.cpp:57-72, NewMonosIOHandler.cpp:101-113, Fourti2IOHandler.cpp:205-232), but for `in.expectEOF()`. -/
def listP (f : IOFormat) : ScanProg ((List NamedIdeal × List Text) × Bool) :=
  if f = .fourti2 then ideals4ti2P
  else do
    let x ← idealsP f
    pure (x, false)

/-! ## lattices -/

/-- The loop over the rows (fourti2.cpp:73-77). -/
def latticeRowsP (cols : ℕ) : ℕ → ScanProg (List (List ℤ))
  | 0 => pure []
  | k + 1 => do
    let row ← vectorP cols
    let rows ← latticeRowsP cols k
    pure (row :: rows)

/-- `fourti2::readLatticeBasis` (fourti2.cpp:63-78). The counters of the loops have 32 bits, so that a loop up to a larger number has no end: it
goes on until an integer cannot be read, which is so after as many integers as there are characters, or forever, which is `none`. -/
def lattice4ti2P : ScanProg (Option LatticeBasis) := do
  let rowCount ← sizeP
  let cols ← sizeP
  if rowCount < 4294967296 ∧ (cols < 4294967296 ∨ rowCount = 0) then do
    let rows ← latticeRowsP cols rowCount
    pure (some ⟨cols, rows⟩)
  else if cols = 0 then pure none
  else do
    let n ← leftP
    let _ ← vectorP (n + 1)
    .fail

/-- One more entry of a row (fplllIO.cpp:34-36). -/
def fplllEntryP (row : List ℤ) : ScanProg (List ℤ) := do
  let x ← integerP
  pure (row ++ [x])

/-- One more row (fplllIO.cpp:31-49). -/
def fplllRowP (rows : List (List ℤ)) : ScanProg (List (List ℤ)) := do
  expectP '['
  let n ← leftP
  let row ← untilP fplllEntryP ']' (n + 1) []
  if ((rows ++ [row]).headD []).length ≠ row.length then .fail else pure (rows ++ [row])

/-- `fplll::readLatticeBasis` (fplllIO.cpp:26-60). The loops that copy the entries have no end if there are too many rows or columns. -/
def latticeFplllP : ScanProg (Option LatticeBasis) := do
  expectP '['
  let n ← leftP
  let rows ← untilP fplllRowP ']' (n + 1) []
  if rows.length < 4294967296 ∧ (rows.headD []).length < 4294967296 then pure (some ⟨(rows.headD []).length, rows⟩) else pure none

/-- `IOFacade::readLattice` (IOFacade.cpp:328-341). -/
def latticeP : LatticeFormat → ScanProg (Option LatticeBasis)
  | .fourti2 => lattice4ti2P
  | .fplll => latticeFplllP

/-! ## saturated binomial ideals -/

/-- One entry in `Fourti2::readSatBinomIdeal` (Fourti2IOHandler.cpp:414-415). -/
def binomEntryP (row : List ℤ) : ScanProg (List ℤ) := do
  let x ← integerP
  pure (row ++ [x])

/-- One generator in `Fourti2::readSatBinomIdeal` (Fourti2IOHandler.cpp:411-416). -/
def binomP (varCount : ℕ) (gens : List (List ℤ)) : ScanProg (List (List ℤ)) := do
  let row ← timesP binomEntryP varCount []
  pure (gens ++ [row])

/-- `Fourti2IOHandler::doReadSatBinomIdeal` (Fourti2IOHandler.cpp:283-292) with `Fourti2::readSatBinomIdeal` (400-425). -/
def satBinomP : ScanProg NamedBinoms := do
  let generatorCount ← sizeP
  let varCount ← sizeP
  let gens ← timesP (binomP varCount) generatorCount []
  if ← peekIdP then do
    let names ← timesP nameP varCount []
    pure ⟨names, gens⟩
  else pure ⟨defaultNames varCount, gens⟩

end ScanProg

/-- `IOFacade::readIdeals` (IOFacade.cpp:132-154) and `expectEOF` (IntersectionAction.cpp:63-64, TransformAction.cpp:136-137), with the `expectEOF` of 4ti2
(Fourti2IOHandler.cpp:221). -/
def readListFile (format : Option IOFormat) (file : InFile) (capacity : ℕ) : Except ScanStop (List NamedIdeal × List Text) := do
  let r ← (ScanProg.formatP ScanProg.listP format).onFile (.start file capacity)
  if r.1.2 then do
    let e ← r.2.expectEnd
    let _ ← e.2.expectEnd
    pure r.1.1
  else do
    let _ ← r.2.expectEnd
    pure r.1.1

/-- `IOFacade::readLattice` (IOFacade.cpp:328-341) and `expectEOF` (LatticeFormatAction.cpp:78). If reading has no end, there is `none`. -/
def readLatticeFile (f : LatticeFormat) (file : InFile) (capacity : ℕ) : Except ScanStop (Option LatticeBasis) := do
  let r ← (ScanProg.latticeP f).onFile (.start file capacity)
  match r.1 with
  | none => pure none
  | some B => do
    let _ ← r.2.expectEnd
    pure (some B)

/-- `IOFacade::readSatBinomIdeal` (IOFacade.cpp:68-79) on a new scanner (LatticeAnalyzeAction.cpp:489). Nothing asks for the end of the file. -/
def readSatBinomFile (file : InFile) (capacity : ℕ) : Except ScanStop NamedBinoms := do
  let r ← ScanProg.satBinomP.onFile (.start file capacity)
  pure r.1

end Frobby

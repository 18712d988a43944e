import Verif.IOModel

/-!
# Model of reading and writing polynomials (src/*IOHandler.cpp, src/IOHandlerImpl.cpp, src/PolyWriter.cpp)

The formats for polynomials are Macaulay 2, CoCoA 4, Singular and 4ti2. Terms reach a writer in two ways: as a vector of
exponents, or as a `Term` with a `TermTranslator` that has strings for the exponents.
-/

namespace Frobby

/-- `BigPolynomial` (BigPolynomial.h). -/
structure NamedPoly where
  names : List Text
  terms : List (ℤ × List ℕ)
deriving DecidableEq

/-- The formats in which polynomials can be read and written. -/
inductive PolyFormat where
  | m2
  | cocoa4
  | singular
  | fourti2
deriving DecidableEq

/-- The format of the ring. -/
def PolyFormat.io : PolyFormat → IOFormat
  | .m2 => .m2
  | .cocoa4 => .cocoa4
  | .singular => .singular
  | .fourti2 => .fourti2

/-! ## the texts of a translator -/

/-- `TermTranslator::getVarExponentString` with `makeStrings(true)` (TermTranslator.cpp:346-374, 399-407), in terms of the
exponent that the translator gives. A null pointer is `none`. -/
def varExponentString (name : Text) (e : ℕ) : Option Text := if e ≠ 0 then some (name ++ if e ≠ 1 then '^' :: decimal e else []) else none

/-- `TermTranslator::getExponentString` with `makeStrings(false)` (TermTranslator.cpp:346-374, 409-417). -/
def exponentString (e : ℕ) : Option Text := some (decimal e)

/-- The loop of `IO::writeTermProduct` for a translator (IOHandlerImpl.cpp:170-190). -/
def writePowersTr : (seenNonZero : Bool) → List Text → List ℕ → Text
  | seen, x :: names, e :: es =>
    match varExponentString x e with
    | none => writePowersTr seen names es
    | some s => (if seen then t!"*" else []) ++ s ++ writePowersTr true names es
  | seen, _, _ => if seen then [] else t!"1"

/-- `IO::writeTermProduct` for a translator (IOHandlerImpl.cpp:170-190). -/
def writeTermProductTr (names : List Text) (term : List ℕ) : Text := writePowersTr false names term

/-- The loop of `CoCoA4::writeTermProduct` for a translator (CoCoA4IOHandler.cpp:289-309). -/
def writePowersCoCoATr : (seenNonZero : Bool) → (var : ℕ) → List ℕ → Text
  | seen, var, e :: es =>
    match exponentString e with
    | none => writePowersCoCoATr seen (var + 1) es
    | some s => t!"x[" ++ decimal (var + 1) ++ t!"]" ++ (if s ≠ t!"1" then '^' :: s else []) ++ writePowersCoCoATr true (var + 1) es
  | seen, _, [] => if seen then [] else t!"1"

/-- `CoCoA4::writeTermProduct` for a translator (CoCoA4IOHandler.cpp:289-309). -/
def writeTermCoCoATr (term : List ℕ) : Text := writePowersCoCoATr false 0 term

/-- `Fourti2::writeTerm` for a translator (Fourti2IOHandler.cpp:351-367). -/
def writeTerm4ti2Tr (term : List ℕ) : Text := (term.flatMap fun e => ' ' :: (exponentString e).getD t!"0") ++ if term = [] then [] else t!"\n"

/-- The text of a term in a product; `tr` says that the term comes with a translator. -/
def writeProduct (tr : Bool) (names : List Text) (term : List ℕ) : Text := if tr then writeTermProductTr names term else writeTermProduct names term

def writeProductCoCoA (tr : Bool) (term : List ℕ) : Text := if tr then writeTermCoCoATr term else writeTermCoCoA term

def writeProduct4ti2 (tr : Bool) (term : List ℕ) : Text := if tr then writeTerm4ti2Tr term else writeTerm4ti2 term

/-! ## writing -/

/-- `IO::writeCoefTermProduct` (IOHandlerImpl.cpp:123-168). -/
def writeCoefTerm (tr : Bool) (names : List Text) (hidePlus : Bool) (c : ℤ) (term : List ℕ) : Text :=
  (if 0 ≤ c ∧ hidePlus = false then t!"+" else []) ++
    if term.all (fun e => decide (e = 0)) then decimalInt c
    else (if c = -1 then t!"-" else if c ≠ 1 then decimalInt c ++ t!"*" else []) ++ writeProduct tr names term

/-- `CoCoA4PolyWriter::doWriteTerm` after the new line (CoCoA4IOHandler.cpp:96-141). -/
def writeCoefTermCoCoA (tr first : Bool) (c : ℤ) (term : List ℕ) : Text :=
  (if 0 ≤ c ∧ first = false then t!"+" else []) ++
    if term.all (fun e => decide (e = 0)) then decimalInt c
    else (if c = -1 then t!"-" else if c ≠ 1 then decimalInt c else []) ++ writeProductCoCoA tr term

/-- `doWriteTerm` (Macaulay2IOHandler.cpp:104-125, CoCoA4IOHandler.cpp:96-141, SingularIOHandler.cpp:84-97,
Fourti2IOHandler.cpp:112-139). -/
def writePolyTerm (tr : Bool) (names : List Text) (first : Bool) (p : ℤ × List ℕ) : PolyFormat → Text
  | .m2 => (if first then t!"\n " else t!" +\n ") ++ writeCoefTerm tr names true p.1 p.2
  | .cocoa4 => t!"\n " ++ writeCoefTermCoCoA tr first p.1 p.2
  | .singular => t!"\n " ++ writeCoefTerm tr names first p.1 p.2
  | .fourti2 => decimalInt p.1 ++ if p.2 ≠ [] then ' ' :: writeProduct4ti2 tr p.2 else t!"\n"

/-- `doWriteHeader` (Macaulay2IOHandler.cpp:99-102, CoCoA4IOHandler.cpp:91-94, SingularIOHandler.cpp:79-82,
Fourti2IOHandler.cpp:106-110). -/
def writePolyHeader (names : List Text) (termCount : ℕ) : PolyFormat → Text
  | .m2 => writeRing names .m2 ++ t!"p ="
  | .cocoa4 => writeRing names .cocoa4 ++ t!"p :="
  | .singular => writeRing names .singular ++ t!"poly p ="
  | .fourti2 => decimal termCount ++ t!" " ++ decimal (names.length + 1) ++ t!"\n"

/-- `doWriteFooter` (Macaulay2IOHandler.cpp:127-131, CoCoA4IOHandler.cpp:143-147, SingularIOHandler.cpp:99-103,
Fourti2IOHandler.cpp:141-147). -/
def writePolyFooter (names : List Text) (wasZero : Bool) : PolyFormat → Text
  | .fourti2 => t!"(coefficient)" ++ if names = defaultNames names.length then t!"\n" else writeRing4ti2 names
  | _ => (if wasZero then t!"\n 0" else []) ++ t!";\n"

/-- `PolyWriter::consume` in a loop (PolyWriter.cpp:39-53, 63-64). -/
def writePolyTerms (tr : Bool) (f : PolyFormat) (names : List Text) : (first : Bool) → List (ℤ × List ℕ) → Text
  | _, [] => []
  | first, p :: ps => writePolyTerm tr names first p f ++ writePolyTerms tr f names false ps

/-- `PolyWriter` (PolyWriter.cpp:30-66): the terms come with a translator (39-46) if `tr`, and otherwise from a
`BigPolynomial` (59-66). For 4ti2 a `PolynomialConsolidator` collects the terms in a `BigPolynomial` first
(PolynomialConsolidator.cpp:33-52), so `tr` makes no difference there. -/
def writePolyFrom (tr : Bool) (f : PolyFormat) (P : NamedPoly) : Text :=
  writePolyHeader P.names P.terms.length f ++ writePolyTerms (tr && f ≠ .fourti2) f P.names true P.terms ++ writePolyFooter P.names P.terms.isEmpty f

/-- `IOFacade::writePolynomial` (IOFacade.cpp:205-216). -/
def writePoly (f : PolyFormat) (P : NamedPoly) : Text := writePolyFrom false f P

/-- A polynomial that is written while it is computed (TranslatingCoefTermConsumer.cpp:55-59). -/
def writePolyTr (f : PolyFormat) (P : NamedPoly) : Text := writePolyFrom true f P

/-! ## ideals that are written while they are computed -/

/-- `doWriteTerm` for a translator (Macaulay2IOHandler.cpp:50-63, CoCoA4IOHandler.cpp:64-69, SingularIOHandler.cpp:50-55,
MonosIOHandler.cpp:46-51, NewMonosIOHandler.cpp:49-54). For 4ti2 an `IdealConsolidator` collects the generators in a `BigIdeal`
first (IdealConsolidator.cpp:60-82), so there it is `writeGen`. -/
def writeGenTr (names : List Text) (first : Bool) (term : List ℕ) : IOFormat → Text
  | .m2 =>
    (if first then t!"\n " else t!",\n ") ++ writeTermProductTr names term ++
      if term.any (fun e => decide (e ≠ 0)) then [] else '_' :: ringName names
  | .cocoa4 => (if first then t!"\n " else t!",\n ") ++ writeTermCoCoATr term
  | .singular => (if first then t!"\n " else t!",\n ") ++ writeTermProductTr names term
  | .monos => (if first then t!"\n " else t!",\n ") ++ writeTermProductTr names term
  | .newmonos => t!"\n " ++ writeTermProductTr names term
  | .fourti2 => writeGen names first term .fourti2

/-- `IdealWriter::consume(const Term&, const TermTranslator&)` in a loop (IdealWriter.cpp:47-52). -/
def writeGensTr (f : IOFormat) (names : List Text) : (firstGenerator : Bool) → List (List ℕ) → Text
  | _, [] => []
  | first, e :: es => writeGenTr names first e f ++ writeGensTr f names false es

/-- An ideal that is written while it is computed (IdealWriter.cpp:36-52, 61-64, TranslatingTermConsumer.cpp:50-54). -/
def writeIdealTr (f : IOFormat) (I : NamedIdeal) : Text :=
  writeHeader true I.names I.terms.length f ++ writeGensTr f I.names true I.terms ++ writeFooter I.names I.terms.isEmpty f

/-! ## reading -/

/-- The exponent after a variable (IOHandlerImpl.cpp:277-292, CoCoA4IOHandler.cpp:371-388). -/
def readExponent (var : ℕ) (term : List ℕ) (t : Text) : Option (List ℕ × Text) :=
  if term.getD var 0 ≠ 0 then none
  else
    match matchChar '^' t with
    | (true, r) =>
      match readInteger r with
      | none => none
      | some (e, r) => if e ≤ 0 then none else some (term.set var e.toNat, r)
    | (false, r) => some (term.set var 1, r)

/-- `IO::readVarPower` (IOHandlerImpl.cpp:272-293). -/
def readVarPower (names : List Text) (term : List ℕ) (t : Text) : Option (List ℕ × Text) :=
  match readIdentifier t with
  | none => none
  | some (x, r) =>
    match names.idxOf? x with
    | none => none
    | some var => readExponent var term r

/-- `CoCoA4::readVarPower` (CoCoA4IOHandler.cpp:356-389). -/
def readVarPowerCoCoA (term : List ℕ) (t : Text) : Option (List ℕ × Text) :=
  match (expectChar 'x' t).bind (expectChar '[') with
  | none => none
  | some r =>
    match readSizeT r with
    | none => none
    | some (var, r) =>
      if var = 0 ∨ var > term.length then none
      else
        match expectChar ']' r with
        | none => none
        | some r => readExponent (var - 1) term r

/-- `while (in.match('*')) item` (IOHandlerImpl.cpp:254-255). -/
def readWhileStar {σ : Type} (item : σ → Text → Option (σ × Text)) : ℕ → σ → Text → Option (σ × Text)
  | 0, _, _ => none
  | fuel + 1, s, t =>
    match matchChar '*' t with
    | (true, r) =>
      match item s r with
      | none => none
      | some (s', r') => readWhileStar item fuel s' r'
    | (false, r) => some (s, r)

/-- `while (in.peek() == 'x') item` (CoCoA4IOHandler.cpp:426-430). -/
def readWhilePeekX {σ : Type} (item : σ → Text → Option (σ × Text)) : ℕ → σ → Text → Option (σ × Text)
  | 0, _, _ => none
  | fuel + 1, s, t =>
    if peekChar 'x' t then
      match item s t with
      | none => none
      | some (s', r') => readWhilePeekX item fuel s' r'
    else some (s, t)

/-- The signs in front of a term (IOHandlerImpl.cpp:237-246, CoCoA4IOHandler.cpp:409-418). The result is `positive`. -/
def readSign (first : Bool) (t : Text) : Option (Bool × Text) :=
  let res : Option (Bool × Text) :=
    if first = false ∧ (matchChar '+' t).1 then some (! (matchChar '-' (matchChar '+' t).2).1, (matchChar '-' (matchChar '+' t).2).2)
    else if (matchChar '-' t).1 then some (false, (matchChar '-' t).2)
    else if first = false then none
    else some (true, t)
  match res with
  | none => none
  | some (positive, r) => if peekChar '+' r || peekChar '-' r then none else some (positive, r)

/-- `IO::readCoefTerm` after the signs (IOHandlerImpl.cpp:248-255). -/
def readCoefBody (names : List Text) (t : Text) : Option ((ℤ × List ℕ) × Text) := do
  let ((c, term), r) ←
    if peekIdentifier t then (readVarPower names (List.replicate names.length 0) t).map fun p => (((1 : ℤ), p.1), p.2)
    else (readInteger t).map fun p => ((p.1, List.replicate names.length 0), p.2)
  let (term, r) ← readWhileStar (readVarPower names) (r.length + 1) term r
  some ((c, term), r)

/-- `CoCoA4::readCoefTerm` after the signs (CoCoA4IOHandler.cpp:420-430). -/
def readCoefBodyCoCoA (names : List Text) (t : Text) : Option ((ℤ × List ℕ) × Text) := do
  let ((c, term), r) ←
    if peekIdentifier t then (readVarPowerCoCoA (List.replicate names.length 0) t).map fun p => (((1 : ℤ), p.1), p.2)
    else (readInteger t).map fun p => ((p.1, List.replicate names.length 0), p.2)
  let (term, r) ← readWhilePeekX readVarPowerCoCoA (r.length + 1) term r
  some ((c, term), r)

/-- `readCoefTerm` with the given `body` (IOHandlerImpl.cpp:228-260, CoCoA4IOHandler.cpp:402-435). -/
def readSigned (body : Text → Option ((ℤ × List ℕ) × Text)) (first : Bool) (t : Text) : Option ((ℤ × List ℕ) × Text) :=
  match readSign first t with
  | none => none
  | some (positive, r) => (body r).map fun p => ((if positive then p.1.1 else -p.1.1, p.1.2), p.2)

/-- `IO::readCoefTerm` (IOHandlerImpl.cpp:228-260). -/
def readCoefTerm (names : List Text) (first : Bool) (t : Text) : Option ((ℤ × List ℕ) × Text) := readSigned (readCoefBody names) first t

/-- `CoCoA4::readCoefTerm` (CoCoA4IOHandler.cpp:402-435). -/
def readCoefTermCoCoA (names : List Text) (first : Bool) (t : Text) : Option ((ℤ × List ℕ) × Text) := readSigned (readCoefBodyCoCoA names) first t

/-- `do { item } while (!in.match(';'))` (Macaulay2IOHandler.cpp:251-256, CoCoA4IOHandler.cpp:260-265,
SingularIOHandler.cpp:245-249). -/
def readPolyTerms (item : Bool → Text → Option ((ℤ × List ℕ) × Text)) : ℕ → Bool → List (ℤ × List ℕ) → Text → Option (List (ℤ × List ℕ) × Text)
  | 0, _, _, _ => none
  | fuel + 1, first, ps, t =>
    match item first t with
    | none => none
    | some (p, r) =>
      match matchChar ';' r with
      | (true, r') => some (ps ++ [p], r')
      | (false, r') => readPolyTerms item fuel false (ps ++ [p]) r'

/-- `doReadBarePolynomial` (Macaulay2IOHandler.cpp:240-258, CoCoA4IOHandler.cpp:249-267, SingularIOHandler.cpp:233-252). -/
def readBarePoly (names : List Text) (t : Text) : PolyFormat → Option (List (ℤ × List ℕ) × Text)
  | .m2 => do
    let r ← expectChar 'p' t
    let r ← expectChar '=' r
    readPolyTerms (readCoefTerm names) (r.length + 1) true [] r
  | .cocoa4 => do
    let r ← expectChar 'p' t
    let r ← expectText t!":=" r
    readPolyTerms (readCoefTermCoCoA names) (r.length + 1) true [] r
  | .singular => do
    let r ← expectText t!"poly" t
    let r ← expectChar 'p' r
    let r ← expectChar '=' r
    readPolyTerms (readCoefTerm names) (r.length + 1) true [] r
  | .fourti2 => none

/-- One exponent in `Fourti2IOHandler::doReadPolynomial` (Fourti2IOHandler.cpp:259-262). -/
def readExponentNonNegative (term : List ℕ) (t : Text) : Option (List ℕ × Text) := (readNonNegative t).map fun p => (term ++ [p.1], p.2)

/-- One term in `Fourti2IOHandler::doReadPolynomial` (Fourti2IOHandler.cpp:253-263). -/
def readPolyTerm4ti2 (varCount : ℕ) (ps : List (ℤ × List ℕ)) (t : Text) : Option (List (ℤ × List ℕ) × Text) := do
  let (c, r) ← readInteger t
  let (term, r) ← readTimes readExponentNonNegative varCount [] r
  some (ps ++ [(c, term)], r)

/-- Reading a name with `VarNames::addVar` (Fourti2IOHandler.cpp:275-276, VarNames.cpp:44-66), where a name that is there
already is not added again. -/
def readNameAdd (names : List Text) (t : Text) : Option (List Text × Text) :=
  (readIdentifier t).map fun p => (if p.1 ∈ names then names else names ++ [p.1], p.2)

/-- `Fourti2IOHandler::doReadPolynomial` (Fourti2IOHandler.cpp:234-281). -/
def readPoly4ti2 (t : Text) : Option (NamedPoly × Text) := do
  let (termCount, r) ← readSizeT t
  let (columns, r) ← readSizeT r
  if columns = 0 then none
  let (terms, r) ← readTimes (readPolyTerm4ti2 (columns - 1)) termCount [] r
  let r ← if (matchChar '(' r).1 then some (matchChar '(' r).2 else expectText t!"(coefficient)" r
  let r ← expectText t!"coefficient" r
  let r ← expectChar ')' r
  if peekIdentifier r then do
    let (names, r) ← readTimes readNameAdd (columns - 1) [] r
    some ({ names := names, terms := terms }, r)
  else some ({ names := defaultNames (columns - 1), terms := terms }, r)

/-- `IOFacade::readPolynomial` (IOFacade.cpp:192-203) with `doReadPolynomial` (IOHandlerCommon.cpp:74-79) and then `expectEOF`. -/
def readPoly (f : PolyFormat) (t : Text) : Option NamedPoly := do
  let (P, r) ←
    if f = .fourti2 then readPoly4ti2 t
    else do
      let (names, r) ← readRing f.io t
      let (terms, r) ← readBarePoly names r f
      some ({ names := names, terms := terms }, r)
  if matchEOF r then some P else none

end Frobby

import Verif.ScanModel
import Verif.IntersectModel

/-!
# Model of reading and writing ideals (src/*IOHandler.cpp, src/InputConsumer.cpp, src/IdealWriter.cpp)

All formats that can be read and written: Macaulay 2, CoCoA 4, Singular, the two formats of Monos and 4ti2.
-/

namespace Frobby

inductive IOFormat where
  | m2
  | cocoa4
  | singular
  | monos
  | newmonos
  | fourti2
deriving DecidableEq

/-! ## writing -/

/-- The power of a variable (IOHandlerImpl.cpp:206-210). -/
def writePower (name : Text) (e : ℕ) : Text := name ++ if e = 1 then [] else '^' :: decimal e

/-- The loop of `IO::writeTermProduct` (IOHandlerImpl.cpp:192-215). -/
def writePowers : (seenNonZero : Bool) → List Text → List ℕ → Text
  | seen, x :: names, e :: es =>
    if e = 0 then writePowers seen names es else (if seen then t!"*" else []) ++ writePower x e ++ writePowers true names es
  | seen, _, _ => if seen then [] else t!"1"

/-- `IO::writeTermProduct` (IOHandlerImpl.cpp:192-215). -/
def writeTermProduct (names : List Text) (term : List ℕ) : Text := writePowers false names term

/-- The loop of `CoCoA4::writeTermProduct` (CoCoA4IOHandler.cpp:311-330) from the variable with number `var`. -/
def writePowersCoCoA : (seenNonZero : Bool) → (var : ℕ) → List ℕ → Text
  | seen, var, e :: es =>
    if e = 0 then writePowersCoCoA seen (var + 1) es
    else t!"x[" ++ decimal (var + 1) ++ t!"]" ++ (if e = 1 then [] else '^' :: decimal e) ++ writePowersCoCoA true (var + 1) es
  | seen, _, [] => if seen then [] else t!"1"

/-- `CoCoA4::writeTermProduct` (CoCoA4IOHandler.cpp:311-330). -/
def writeTermCoCoA (term : List ℕ) : Text := writePowersCoCoA false 0 term

/-- `Fourti2::writeTerm` (Fourti2IOHandler.cpp:340-349). -/
def writeTerm4ti2 (term : List ℕ) : Text := (term.flatMap fun e => ' ' :: decimal e) ++ if term = [] then [] else t!"\n"

/-- The names with something between them. -/
def writeNames (sep : Text) : List Text → Text
  | [] => []
  | [x] => x
  | x :: names => x ++ sep ++ writeNames sep names

/-- The loop of `m2GetRingName` (Macaulay2IOHandler.cpp:266-270). Among `names.length + 1` names there is one that is not a
variable. -/
def ringNameFrom (names : List Text) : ℕ → ℕ → Text
  | 0, i => 'R' :: decimal i
  | fuel + 1, i => if 'R' :: decimal i ∈ names then ringNameFrom names fuel (i + 1) else 'R' :: decimal i

/-- `m2GetRingName` (Macaulay2IOHandler.cpp:261-271). -/
def ringName (names : List Text) : Text := if t!"R" ∈ names then ringNameFrom names names.length 1 else t!"R"

/-- `VarNames(n)` (VarNames.cpp:28-34). -/
def defaultNames (n : ℕ) : List Text := (List.range n).map fun i => 'x' :: decimal (i + 1)

/-- `Fourti2::writeRingWithoutHeader` (Fourti2IOHandler.cpp:299-310). -/
def writeRing4ti2 (names : List Text) : Text := if names = [] then [] else ' ' :: writeNames t!" " names ++ t!"\n"

/-- `m2WriteRing` (Macaulay2IOHandler.cpp:273-291), `CoCoA4::writeRing` (CoCoA4IOHandler.cpp:269-287), `Singular::writeRing`
(SingularIOHandler.cpp:254-268), `Monos::writeRing` (MonosIOHandler.cpp:130-139), `NewMonos::writeRing`
(NewMonosIOHandler.cpp:115-122), `Fourti2::writeRing` (Fourti2IOHandler.cpp:294-297). -/
def writeRing (names : List Text) : IOFormat → Text
  | .m2 => ringName names ++ t!" = QQ[" ++ writeNames t!", " names ++ t!"];\n"
  | .cocoa4 =>
    if names = [] then t!"Use R ::= Q[x];\nNames := [];\n"
    else t!"Use R ::= Q[x[1.." ++ decimal names.length ++ t!"]];\n" ++ t!"Names := [" ++ t!"\"" ++ writeNames t!"\", \"" names ++ t!"\"];\n"
  | .singular =>
    if names = [] then t!"ring R = 0, (dummy), lp;\nint noVars = 1;\n"
    else t!"ring R = 0, (" ++ writeNames t!", " names ++ t!"), lp;\nint noVars = 0;\n"
  | .monos => t!"vars " ++ writeNames t!", " names ++ t!";\n"
  | .newmonos => t!"(lex-order" ++ (names.flatMap fun x => ' ' :: x) ++ t!")"
  | .fourti2 => t!"42 ring\n" ++ writeRing4ti2 names

/-- `doWriteHeader` of the writers; `first` is `_firstIdeal`. -/
def writeHeader (first : Bool) (names : List Text) (generatorCount : ℕ) : IOFormat → Text
  | .m2 => (if first then writeRing names .m2 else []) ++ t!"I = monomialIdeal("
  | .cocoa4 => writeRing names .cocoa4 ++ t!"I := Ideal("
  | .singular => writeRing names .singular ++ t!"ideal I ="
  | .monos => writeRing names .monos ++ t!"["
  | .newmonos => t!"(monomial-ideal-with-order\n " ++ writeRing names .newmonos
  | .fourti2 => decimal generatorCount ++ t!" " ++ decimal names.length ++ t!"\n"

/-- `doWriteTerm` of the writers; `first` is `_firstGenerator`. -/
def writeGen (names : List Text) (first : Bool) (term : List ℕ) : IOFormat → Text
  | .m2 =>
    (if first then t!"\n " else t!",\n ") ++ writeTermProduct names term ++
      if term.any (fun e => decide (e ≠ 0)) then [] else '_' :: ringName names
  | .cocoa4 => (if first then t!"\n " else t!",\n ") ++ writeTermCoCoA term
  | .singular => (if first then t!"\n " else t!",\n ") ++ writeTermProduct names term
  | .monos => (if first then t!"\n " else t!",\n ") ++ writeTermProduct names term
  | .newmonos => t!"\n " ++ writeTermProduct names term
  | .fourti2 => writeTerm4ti2 term

/-- `doWriteFooter` of the writers. -/
def writeFooter (names : List Text) (wasZeroIdeal : Bool) : IOFormat → Text
  | .m2 => if wasZeroIdeal then t!"0_" ++ ringName names ++ t!");\n" else t!"\n);\n"
  | .cocoa4 => t!"\n);\n"
  | .singular => (if wasZeroIdeal then t!"\n 0" else []) ++ t!";\n"
  | .monos => t!"\n];\n"
  | .newmonos => t!"\n)\n"
  | .fourti2 => if names = defaultNames names.length then [] else writeRing4ti2 names

/-- `IdealWriter::consume(const vector<mpz_class>&)` in a loop (IdealWriter.cpp:54-59). -/
def writeGens (f : IOFormat) (names : List Text) : (firstGenerator : Bool) → List (List ℕ) → Text
  | _, [] => []
  | first, e :: es => writeGen names first e f ++ writeGens f names false es

/-- `IdealWriter::consume(const BigIdeal&)` (IdealWriter.cpp:71-79). -/
def writeIdealFrom (first : Bool) (f : IOFormat) (I : NamedIdeal) : Text :=
  writeHeader first I.names I.terms.length f ++ writeGens f I.names true I.terms ++ writeFooter I.names I.terms.isEmpty f

/-- `IOFacade::writeIdeal` (IOFacade.cpp:156-166). -/
def writeIdeal (f : IOFormat) (I : NamedIdeal) : Text := writeIdealFrom true f I

/-- The loop of `IOFacade::writeIdeals` (IOFacade.cpp:182-184); `names` and `first` are the state of the writer
(IdealWriter.cpp:36-45, 61-64). -/
def writeIdealsFrom (f : IOFormat) : (first : Bool) → (names : List Text) → List NamedIdeal → Text
  | first, names, [] => if first then writeRing names f else []
  | first, names, I :: Is => writeIdealFrom (first || decide (names ≠ I.names)) f I ++ writeIdealsFrom f false I.names Is

/-- `IOFacade::writeIdeals` (IOFacade.cpp:168-190). -/
def writeIdeals (f : IOFormat) (names : List Text) (Is : List NamedIdeal) : Text := writeIdealsFrom f true names Is

/-! ## reading -/

/-- `InputConsumer` while it reads an ideal (InputConsumer.h:105-114). `big` says that the generators are in `_bigIdeal` and
not in `_sqfIdeal`. The generators are in reverse order, so the one being read is the first. -/
structure InputConsumer where
  names : List Text
  big : Bool
  gens : List (List ℕ)

/-- `InputConsumer::beginIdeal` (InputConsumer.cpp:50-55). -/
def InputConsumer.beginIdeal (names : List Text) : InputConsumer := { names := names, big := false, gens := [] }

/-- `InputConsumer::beginTerm` (InputConsumer.cpp:62-74). -/
def InputConsumer.beginTerm (k : InputConsumer) : InputConsumer := { k with gens := List.replicate k.names.length 0 :: k.gens }

/-- The exponent of a variable in the last generator. -/
def InputConsumer.exponent (k : InputConsumer) (var : ℕ) : ℕ :=
  match k.gens with
  | [] => 0
  | g :: _ => g.getD var 0

/-- Setting an exponent in the last generator. -/
def InputConsumer.setExponent (k : InputConsumer) (var e : ℕ) : InputConsumer :=
  { k with gens := match k.gens with | [] => [] | g :: gs => g.set var e :: gs }

/-- `InputConsumer::consumeVarExponentOne` (InputConsumer.cpp:102-120). -/
def InputConsumer.consumeOne (k : InputConsumer) (var : ℕ) : Option InputConsumer :=
  if k.exponent var = 0 then some (k.setExponent var 1) else none

/-- `InputConsumer::consumeVarExponent` (InputConsumer.cpp:122-146); `requireSquareFree` is `_requireSquareFree`. -/
def InputConsumer.consumeExponent (requireSquareFree : Bool) (k : InputConsumer) (var : ℕ) (t : Text) : Option (InputConsumer × Text) :=
  if k.big then
    if k.exponent var = 0 then
      match readIntegerStringNoSign t with
      | none => none
      | some (s, r) => (digitsValue0 s).map fun e => (k.setExponent var e, r)
    else none
  else
    match readIntegerStringNoSign t with
    | none => none
    | some (s, r) =>
      if k.exponent var = 0 then
        if s = t!"1" then some (k.setExponent var 1, r)
        else if s = t!"0" then some (k, r)
        else if requireSquareFree then none
        else (digitsValue0 s).map fun e => ({ k with big := true }.setExponent var e, r)
      else none

/-- One power in the loop of `consumeTermProductNotation` (InputConsumer.cpp:154-158) with `consumeVar` (90-100). -/
def InputConsumer.readPower (sf : Bool) (k : InputConsumer) (t : Text) : Option (InputConsumer × Text) :=
  match readIdentifier t with
  | none => none
  | some (x, r) =>
    match k.names.idxOf? x with
    | none => none
    | some var =>
      match matchChar '^' r with
      | (true, r') => k.consumeExponent sf var r'
      | (false, r') => (k.consumeOne var).map fun k' => (k', r')

/-- `InputConsumer::consumeTermProductNotation` (InputConsumer.cpp:148-162). -/
def InputConsumer.readTermProduct (sf : Bool) (k : InputConsumer) (t : Text) : Option (InputConsumer × Text) :=
  match matchChar '1' t with
  | (true, r) => some (k.beginTerm, r)
  | (false, r) => readSep (InputConsumer.readPower sf) '*' r.length k.beginTerm r

/-- A term followed by an optional name of a ring (Macaulay2IOHandler.cpp:230-232). -/
def InputConsumer.readTermM2 (sf : Bool) (k : InputConsumer) (t : Text) : Option (InputConsumer × Text) :=
  match k.readTermProduct sf t with
  | none => none
  | some (k', r) =>
    match matchChar '_' r with
    | (true, r') => (readIdentifier r').map fun p => (k', p.2)
    | (false, r') => some (k', r')

/-- `CoCoA4::readVarPower` (CoCoA4IOHandler.cpp:391-400) with `consumeVarNumber` (InputConsumer.cpp:76-88). -/
def InputConsumer.readPowerCoCoA (sf : Bool) (k : InputConsumer) (t : Text) : Option (InputConsumer × Text) :=
  match (expectChar 'x' t).bind (expectChar '[') with
  | none => none
  | some r =>
    match readSizeT r with
    | none => none
    | some (var, r) =>
      if var = 0 ∨ var > k.names.length then none
      else
        match expectChar ']' r with
        | none => none
        | some r =>
          match matchChar '^' r with
          | (true, r') => k.consumeExponent sf (var - 1) r'
          | (false, r') => (k.consumeOne (var - 1)).map fun k' => (k', r')

/-- `do { item } while (in.peek() == 'x')` (CoCoA4IOHandler.cpp:348-351). -/
def readWhileX {σ : Type} (item : σ → Text → Option (σ × Text)) : ℕ → σ → Text → Option (σ × Text)
  | 0, _, _ => none
  | fuel + 1, s, t =>
    match item s t with
    | none => none
    | some (s', r) => if peekChar 'x' r then readWhileX item fuel s' r else some (s', r)

/-- `CoCoA4::readTerm` (CoCoA4IOHandler.cpp:345-354). -/
def InputConsumer.readTermCoCoA (sf : Bool) (k : InputConsumer) (t : Text) : Option (InputConsumer × Text) :=
  match matchChar '1' t with
  | (true, r) => some (k.beginTerm, r)
  | (false, r) => readWhileX (InputConsumer.readPowerCoCoA sf) r.length k.beginTerm r

/-- One exponent in `Fourti2::readTerm` (Fourti2IOHandler.cpp:319-322); the state has the number of the variable. -/
def InputConsumer.readExponent4ti2 (sf : Bool) (s : ℕ × InputConsumer) (t : Text) : Option ((ℕ × InputConsumer) × Text) :=
  match matchChar '-' t with
  | (true, r) => (readIntegerStringNoSign r).map fun p => ((s.1 + 1, s.2), p.2)
  | (false, r) => (s.2.consumeExponent sf s.1 r).map fun p => ((s.1 + 1, p.1), p.2)

/-- `Fourti2::readTerm` (Fourti2IOHandler.cpp:312-326) when there are variables. -/
def InputConsumer.readTerm4ti2 (sf : Bool) (k : InputConsumer) (t : Text) : Option (InputConsumer × Text) :=
  (readTimes (InputConsumer.readExponent4ti2 sf) k.names.length (0, k.beginTerm) t).map fun p => (p.1.2, p.2)

/-- Reading a name of a variable (`addVarSyntaxCheckUnique`, VarNames.cpp:68-73). -/
def readName (names : List Text) (t : Text) : Option (List Text × Text) :=
  match readIdentifier t with
  | none => none
  | some (x, r) => if x ∈ names then none else some (names ++ [x], r)

/-- One name in the ring of CoCoA 4 (CoCoA4IOHandler.cpp:206-219). The state is the number of names that are still to be
read and the names. -/
def readNameCoCoA (s : ℕ × List Text) (t : Text) : Option ((ℕ × List Text) × Text) :=
  match expectChar '"' t with
  | none => none
  | some r =>
    if peekWhite r then none
    else
      match readName s.2 r with
      | none => none
      | some (names, r) =>
        if peekWhite r then none
        else
          match expectChar '"' r with
          | none => none
          | some r => if s.1 ≤ 1 then some ((s.1 - 1, names), r) else (expectChar ',' r).map fun r' => ((s.1 - 1, names), r')

/-- `Macaulay2IOHandler::doReadRing` (Macaulay2IOHandler.cpp:169-210). -/
def readRingM2 (t : Text) : Option (List Text × Text) := do
  let (name, r) ← readIdentifier t
  if name.head? ≠ some 'R' then none
  let r ← expectChar '=' r
  let r ← if peekChar 'Z' r then expectText t!"ZZ" r else expectText t!"QQ" r
  let r ← expectChar '[' r
  let brace := (matchChar '{' r).1
  let r := (matchChar '{' r).2
  let (names, r) ← if peekIdentifier r then readSep readName ',' r.length [] r else some ([], r)
  let r ← if brace then expectChar '}' r else some r
  let r ← expectChar ']' r
  let r ← expectChar ';' r
  some (names, r)

/-- `CoCoA4IOHandler::doReadRing` (CoCoA4IOHandler.cpp:182-223). -/
def readRingCoCoA (t : Text) : Option (List Text × Text) := do
  let r ← expectText t!"Use" t
  let r ← expectChar 'R' r
  let r ← expectText t!"::=" r
  let r ← expectChar 'Q' r
  let r ← expectChar '[' r
  let r ← expectChar 'x' r
  let (varCount, r) ←
    if (matchChar '[' r).1 then do
      let r ← expectChar '1' (matchChar '[' r).2
      let r ← expectText t!".." r
      let (varCount, r) ← readSizeT r
      let r ← expectChar ']' r
      some (varCount, r)
    else some (0, (matchChar '[' r).2)
  let r ← expectChar ']' r
  let r ← expectChar ';' r
  let r ← expectText t!"Names" r
  let r ← expectText t!":=" r
  let r ← expectChar '[' r
  let (s, r) ← readTimes readNameCoCoA varCount (varCount, []) r
  let r ← expectChar ']' r
  let r ← expectChar ';' r
  some (s.2, r)

/-- `SingularIOHandler::doReadRing` (SingularIOHandler.cpp:145-189). -/
def readRingSingular (t : Text) : Option (List Text × Text) := do
  let r ← expectText t!"ring" t
  let r ← expectChar 'R' r
  let r ← expectChar '=' r
  let r ← expectChar '0' r
  let r ← expectChar ',' r
  let r ← expectChar '(' r
  let (names, r) ← readSep readName ',' r.length [] r
  let r ← expectChar ')' r
  let r ← expectChar ',' r
  let r ← expectText t!"lp" r
  let r ← expectChar ';' r
  let r ← expectText t!"int" r
  let r ← expectText t!"noVars" r
  let r ← expectText t!"=" r
  let (names, r) ←
    if (matchChar '1' r).1 then (if names = [t!"dummy"] then some ([], (matchChar '1' r).2) else none)
    else if (matchChar '0' (matchChar '1' r).2).1 then some (names, (matchChar '0' (matchChar '1' r).2).2)
    else none
  let r ← expectChar ';' r
  some (names, r)

/-- `MonosIOHandler::doReadRing` (MonosIOHandler.cpp:95-104). -/
def readRingMonos (t : Text) : Option (List Text × Text) := do
  let r ← expectText t!"vars" t
  if (matchChar ';' r).1 then some ([], (matchChar ';' r).2)
  else do
    let r := (matchChar ';' r).2
    let (names, r) ← readSep readName ',' r.length [] r
    let r ← expectChar ';' r
    some (names, r)

/-- `NewMonos::readRingNoLeftParen` (NewMonosIOHandler.cpp:124-128). -/
def readRingNewMonos (t : Text) : Option (List Text × Text) := do
  let r ← expectText t!"lex-order" t
  readUntil readName ')' (r.length + 1) [] r

/-- `Fourti2::readRing` (Fourti2IOHandler.cpp:328-332). -/
def readRing4ti2 : ℕ → List Text → Text → Option (List Text × Text)
  | 0, _, _ => none
  | fuel + 1, names, t =>
    if peekIdentifier t then
      match readName names t with
      | none => none
      | some (names', r) => readRing4ti2 fuel names' r
    else some (names, t)

/-- `Macaulay2IOHandler::doReadBareIdeal` (Macaulay2IOHandler.cpp:216-238). -/
def readBareM2 (sf : Bool) (names : List Text) (t : Text) : Option (InputConsumer × Text) := do
  let r ← expectChar 'I' t
  let r ← expectChar '=' r
  let r ← expectText t!"monomialIdeal" r
  let r ← expectChar '(' r
  let (k, r) ←
    if (matchChar '0' r).1 then do
      let r := (matchChar '0' r).2
      if (matchChar '_' r).1 then (readIdentifier (matchChar '_' r).2).map fun p => (InputConsumer.beginIdeal names, p.2)
      else some (InputConsumer.beginIdeal names, (matchChar '_' r).2)
    else readSep (InputConsumer.readTermM2 sf) ',' r.length (.beginIdeal names) (matchChar '0' r).2
  let r ← expectChar ')' r
  let r ← expectChar ';' r
  some (k, r)

/-- `CoCoA4IOHandler::doReadBareIdeal` (CoCoA4IOHandler.cpp:229-247). -/
def readBareCoCoA (sf : Bool) (names : List Text) (t : Text) : Option (InputConsumer × Text) := do
  let r ← expectChar 'I' t
  let r ← expectText t!":=" r
  let r ← expectText t!"Ideal" r
  let r ← expectChar '(' r
  let (k, r) ←
    if (matchChar ')' r).1 then some (InputConsumer.beginIdeal names, (matchChar ')' r).2)
    else do
      let (k, r) ← readSep (InputConsumer.readTermCoCoA sf) ',' r.length (.beginIdeal names) (matchChar ')' r).2
      let r ← expectChar ')' r
      some (k, r)
  some (k, (matchChar ';' r).2)

/-- `SingularIOHandler::doReadBareIdeal` (SingularIOHandler.cpp:215-231). -/
def readBareSingular (sf : Bool) (names : List Text) (t : Text) : Option (InputConsumer × Text) := do
  let r ← expectText t!"ideal" t
  let r ← expectChar 'I' r
  let r ← expectChar '=' r
  let (k, r) ←
    if (matchChar '0' r).1 then some (InputConsumer.beginIdeal names, (matchChar '0' r).2)
    else readSep (InputConsumer.readTermProduct sf) ',' r.length (.beginIdeal names) (matchChar '0' r).2
  let r ← expectChar ';' r
  some (k, r)

/-- `MonosIOHandler::doReadBareIdeal` (MonosIOHandler.cpp:110-128). -/
def readBareMonos (sf : Bool) (names : List Text) (t : Text) : Option (InputConsumer × Text) := do
  let r ← expectChar '[' t
  let (k, r) ←
    if (matchChar ']' r).1 then some (InputConsumer.beginIdeal names, (matchChar ']' r).2)
    else do
      let (k, r) ← readSep (InputConsumer.readTermProduct sf) ',' r.length (.beginIdeal names) (matchChar ']' r).2
      if (matchChar ']' r).1 then some (k, (matchChar ']' r).2)
      else do
        let r ← if peekIdentifier r then expectChar '*' r else expectChar ']' r
        some (k, r)
  let r ← expectChar ';' r
  some (k, r)

/-- `NewMonos::readIdealNoLeftParen` (NewMonosIOHandler.cpp:130-142). -/
def readIdealNoLeftParen (sf : Bool) (t : Text) : Option (InputConsumer × Text) := do
  let r ← expectText t!"monomial-ideal-with-order" t
  let r ← expectChar '(' r
  let (names, r) ← readRingNewMonos r
  readUntil (InputConsumer.readTermProduct sf) ')' (r.length + 1) (.beginIdeal names) r

/-- `Fourti2::readIdeal` (Fourti2IOHandler.cpp:375-398); the names are read after the generators. -/
def readIdeal4ti2 (sf : Bool) (generatorCount varCount : ℕ) (t : Text) : Option (InputConsumer × Text) := do
  let (k, r) ←
    if varCount = 0 then some ({ InputConsumer.beginIdeal [] with gens := List.replicate generatorCount [] }, t)
    else readTimes (InputConsumer.readTerm4ti2 sf) generatorCount (.beginIdeal (defaultNames varCount)) t
  if peekIdentifier r then do
    let (names, r) ← readTimes readName varCount [] r
    some ({ k with names := names }, r)
  else some (k, r)

/-- `doReadRing` of the formats with `IOHandlerCommon`. -/
def readRing : IOFormat → Text → Option (List Text × Text)
  | .m2 => readRingM2
  | .cocoa4 => readRingCoCoA
  | .singular => readRingSingular
  | .monos => readRingMonos
  | _ => fun _ => none

/-- `doReadBareIdeal` of the formats with `IOHandlerCommon`. -/
def readBare (sf : Bool) : IOFormat → List Text → Text → Option (InputConsumer × Text)
  | .m2 => readBareM2 sf
  | .cocoa4 => readBareCoCoA sf
  | .singular => readBareSingular sf
  | .monos => readBareMonos sf
  | _ => fun _ _ => none

/-- `doPeekRing` of the formats with `IOHandlerCommon`. -/
def peekRing : IOFormat → Text → Bool
  | .m2, t => peekChar 'R' t || peekChar 'r' t
  | .cocoa4, t => peekChar 'U' t || peekChar 'u' t
  | .singular, t => peekChar 'r' t || peekChar 'R' t
  | .monos, t => peekChar 'v' t
  | _, _ => false

/-- `InputConsumer::releaseBigIdeal` (InputConsumer.cpp:209-216). -/
def InputConsumer.release (k : InputConsumer) : NamedIdeal := { names := k.names, terms := k.gens.reverse }

/-- `doReadIdeal` (IOHandlerCommon.cpp:50-55, NewMonosIOHandler.cpp:96-99, Fourti2IOHandler.cpp:195-203). -/
def readConsumer (sf : Bool) : IOFormat → Text → Option (InputConsumer × Text)
  | .newmonos, t => (expectChar '(' t).bind (readIdealNoLeftParen sf)
  | .fourti2, t => do
    let (generatorCount, r) ← readSizeT t
    let (varCount, r) ← readSizeT r
    readIdeal4ti2 sf generatorCount varCount r
  | f, t => do
    let (names, r) ← readRing f t
    readBare sf f names r

/-- `IOFacade::readIdeal` (IOFacade.cpp:98-113) and then `Scanner::expectEOF` (Scanner.cpp:77-85). -/
def readIdeal (f : IOFormat) (t : Text) : Option NamedIdeal := do
  let (k, r) ← readConsumer false f t
  if matchEOF r then some k.release else none

/-- `IOFacade::readSquareFreeIdeal` (IOFacade.cpp:115-130) and then `expectEOF`. -/
def readSquareFreeIdeal (f : IOFormat) (t : Text) : Option NamedIdeal := do
  let (k, r) ← readConsumer true f t
  if matchEOF r then some k.release else none

/-- The loop of `IOHandlerCommon::doReadIdeals` (IOHandlerCommon.cpp:65-71). -/
def readIdealsLoop (f : IOFormat) : ℕ → List Text → List NamedIdeal → Text → Option (List NamedIdeal × List Text × Text)
  | 0, _, _, _ => none
  | fuel + 1, names, Is, t =>
    if matchEOF t then some (Is, names, t)
    else
      match if peekRing f t then readRing f t else some (names, t) with
      | none => none
      | some (names', r) =>
        match readBare false f names' r with
        | none => none
        | some (k, r') => readIdealsLoop f fuel names' (Is ++ [k.release]) r'

/-- The loop of `NewMonosIOHandler::doReadIdeals` (NewMonosIOHandler.cpp:110-112). -/
def readIdealsNewMonos : ℕ → List NamedIdeal → Text → Option (List NamedIdeal × List Text × Text)
  | 0, _, _ => none
  | fuel + 1, Is, t =>
    match readIdealNoLeftParen false t with
    | none => none
    | some (k, r) =>
      match matchChar '(' r with
      | (true, r') => readIdealsNewMonos fuel (Is ++ [k.release]) r'
      | (false, r') => some (Is ++ [k.release], k.names, r')

/-- The loop of `Fourti2IOHandler::doReadIdeals` (Fourti2IOHandler.cpp:230-231). -/
def readIdeals4ti2 : ℕ → List Text → List NamedIdeal → Text → Option (List NamedIdeal × List Text × Text)
  | 0, _, _, _ => none
  | fuel + 1, names, Is, t =>
    if matchEOF t then some (Is, names, t)
    else
      match readConsumer false .fourti2 t with
      | none => none
      | some (k, r) => readIdeals4ti2 fuel k.names (Is ++ [k.release]) r

/-- `doReadIdeals` (IOHandlerCommon.cpp:57-72, NewMonosIOHandler.cpp:101-113, Fourti2IOHandler.cpp:205-232). -/
def readIdealsFrom : IOFormat → Text → Option (List NamedIdeal × List Text × Text)
  | .newmonos, t => do
    let r ← expectChar '(' t
    if peekChar 'l' r || peekChar 'L' r then do
      let (names, r) ← readRingNewMonos r
      some ([], names, r)
    else readIdealsNewMonos r.length [] r
  | .fourti2, t => do
    let (generatorCount, r) ← readSizeT t
    if generatorCount = 42 ∧ peekIdentifier r then do
      let r ← expectText t!"ring" r
      let (names, r) ← readRing4ti2 (r.length + 1) [] r
      some ([], names, r)
    else do
      let (varCount, r) ← readSizeT r
      let (k, r) ← readIdeal4ti2 false generatorCount varCount r
      readIdeals4ti2 (r.length + 1) k.names [k.release] r
  | f, t => do
    let (names, r) ← readRing f t
    if matchEOF r then some ([], names, r)
    else do
      let (k, r) ← readBare false f names r
      readIdealsLoop f (r.length + 1) names [k.release] r

/-- `IOFacade::readIdeals` (IOFacade.cpp:132-154) and then `expectEOF`: the ideals and the last ring. -/
def readIdeals (f : IOFormat) (t : Text) : Option (List NamedIdeal × List Text) := do
  let (Is, names, r) ← readIdealsFrom f t
  if matchEOF r then some (Is, names) else none

/-- `autoDetectFormat` (IOHandler.cpp:198-228). -/
def autoDetect (t : Text) : IOFormat :=
  match eatWhite t with
  | [] => .m2
  | c :: _ =>
    if c = 'U' ∨ c = 'u' then .cocoa4
    else if c = 'r' then .singular
    else if c = '(' ∨ c = 'l' ∨ c = ')' then .newmonos
    else if isDigit c = true ∨ c = '+' ∨ c = '-' then .fourti2
    else if c = 'v' then .monos
    else .m2

end Frobby

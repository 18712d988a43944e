import Verif.ScanBufModel
import Verif.IOModel

/-!
# The readers of ideals, asking a scanner

The functions of `IOModel` that read ideals, as readers that ask a scanner (`ScanProg`). They can be run on the bytes of a file.
-/

namespace Frobby

namespace ScanProg

/-- One reader and then another. -/
def andThen {α β : Type} : ScanProg α → (α → ScanProg β) → ScanProg β
  | .done a, k => k a
  | .fail, _ => .fail
  | .ask o g, k => .ask o fun b => (g b).andThen k

instance : Monad ScanProg where
  pure := .done
  bind := andThen

/-- Asking for one thing. -/
def op (o : ScanOp) : ScanProg o.Result := .ask o .done

/-- `in.match(c)` -/
def matchP (c : Char) : ScanProg Bool := op (.matchC c)

/-- `in.expect(c)` -/
def expectP (c : Char) : ScanProg Unit := op (.expectC c)

/-- `in.expect(text)` -/
def textP (s : Text) : ScanProg Unit := op (.expectT s)

/-- `in.readIdentifier()` -/
def identifierP : ScanProg Text := op .identifier

/-- `in.readIdentifier(str)` -/
def identifierStringP : ScanProg Text := op .identifierString

/-- `in.peekIdentifier()` -/
def peekIdP : ScanProg Bool := op .peekId

/-- `in.peek(c)` -/
def peekP (c : Char) : ScanProg Bool := op (.peekC c)

/-- `in.peekWhite()` -/
def peekWhiteP : ScanProg Bool := op .peekWhite

/-- `in.readIntegerStringNoSign()` -/
def digitsP : ScanProg Text := op .digits

/-- `in.readSizeT()` -/
def sizeP : ScanProg ℕ := op .sizeT

/-- A bound for loops. -/
def leftP : ScanProg ℕ := op .charsLeft

/-- An error if there is nothing. -/
def ofOption {α : Type} : Option α → ScanProg α
  | none => .fail
  | some a => .done a

/-- `do { item } while (in.match(sep))`. -/
def sepP {σ : Type} (item : σ → ScanProg σ) (sep : Char) : ℕ → σ → ScanProg σ
  | 0, _ => .fail
  | n + 1, s => do
    let s' ← item s
    if ← matchP sep then sepP item sep n s' else pure s'

/-- `while (!in.match(stop)) { item }`. -/
def untilP {σ : Type} (item : σ → ScanProg σ) (stop : Char) : ℕ → σ → ScanProg σ
  | 0, _ => .fail
  | n + 1, s => do
    if ← matchP stop then pure s
    else do
      let s' ← item s
      untilP item stop n s'

/-- `for (i = 0; i < count; ++i) { item }`. -/
def timesP {σ : Type} (item : σ → ScanProg σ) : ℕ → σ → ScanProg σ
  | 0, s => pure s
  | n + 1, s => do
    let s' ← item s
    timesP item n s'

/-- `do { item } while (in.peek() == 'x')` (CoCoA4IOHandler.cpp:348-351). White space has been skipped before each `in.peek()`. -/
def whileXP {σ : Type} (item : σ → ScanProg σ) : ℕ → σ → ScanProg σ
  | 0, _ => .fail
  | n + 1, s => do
    let s' ← item s
    if ← peekP 'x' then whileXP item n s' else pure s'

/-- `InputConsumer::consumeVarExponent` (InputConsumer.cpp:122-146). -/
def exponentP (sf : Bool) (k : InputConsumer) (var : ℕ) : ScanProg InputConsumer :=
  if k.big then
    if k.exponent var = 0 then do
      let s ← digitsP
      let e ← ofOption (digitsValue0 s)
      pure (k.setExponent var e)
    else .fail
  else do
    let s ← digitsP
    if k.exponent var = 0 then
      if s = t!"1" then pure (k.setExponent var 1)
      else if s = t!"0" then pure k
      else if sf then .fail
      else do
        let e ← ofOption (digitsValue0 s)
        pure ({ k with big := true }.setExponent var e)
    else .fail

/-- One power in the loop of `consumeTermProductNotation` (InputConsumer.cpp:154-158) with `consumeVar` (90-100). -/
def powerP (sf : Bool) (k : InputConsumer) : ScanProg InputConsumer := do
  let x ← identifierStringP
  let var ← ofOption (k.names.idxOf? x)
  if ← matchP '^' then exponentP sf k var else ofOption (k.consumeOne var)

/-- `InputConsumer::consumeTermProductNotation` (InputConsumer.cpp:148-162). -/
def termP (sf : Bool) (k : InputConsumer) : ScanProg InputConsumer := do
  if ← matchP '1' then pure k.beginTerm
  else do
    let n ← leftP
    sepP (powerP sf) '*' n k.beginTerm

/-- A term followed by an optional name of a ring (Macaulay2IOHandler.cpp:230-232). -/
def termM2P (sf : Bool) (k : InputConsumer) : ScanProg InputConsumer := do
  let k' ← termP sf k
  if ← matchP '_' then do
    let _ ← identifierP
    pure k'
  else pure k'

/-- `CoCoA4::readVarPower` (CoCoA4IOHandler.cpp:391-400) with `consumeVarNumber` (InputConsumer.cpp:76-88). -/
def powerCoCoAP (sf : Bool) (k : InputConsumer) : ScanProg InputConsumer := do
  expectP 'x'
  expectP '['
  let var ← sizeP
  if var = 0 ∨ var > k.names.length then .fail
  else do
    expectP ']'
    if ← matchP '^' then exponentP sf k (var - 1) else ofOption (k.consumeOne (var - 1))

/-- `CoCoA4::readTerm` (CoCoA4IOHandler.cpp:345-354). -/
def termCoCoAP (sf : Bool) (k : InputConsumer) : ScanProg InputConsumer := do
  if ← matchP '1' then pure k.beginTerm
  else do
    let n ← leftP
    whileXP (powerCoCoAP sf) n k.beginTerm

/-- One exponent in `Fourti2::readTerm` (Fourti2IOHandler.cpp:319-322). -/
def exponent4ti2P (sf : Bool) (s : ℕ × InputConsumer) : ScanProg (ℕ × InputConsumer) := do
  if ← matchP '-' then do
    let _ ← digitsP
    pure (s.1 + 1, s.2)
  else do
    let k ← exponentP sf s.2 s.1
    pure (s.1 + 1, k)

/-- `Fourti2::readTerm` (Fourti2IOHandler.cpp:312-326) when there are variables. -/
def term4ti2P (sf : Bool) (k : InputConsumer) : ScanProg InputConsumer := do
  let p ← timesP (exponent4ti2P sf) k.names.length (0, k.beginTerm)
  pure p.2

/-- Reading a name of a variable (`addVarSyntaxCheckUnique`, VarNames.cpp:68-73). -/
def nameP (names : List Text) : ScanProg (List Text) := do
  let x ← identifierP
  if x ∈ names then .fail else pure (names ++ [x])

/-- One name in the ring of CoCoA 4 (CoCoA4IOHandler.cpp:206-219). -/
def nameCoCoAP (s : ℕ × List Text) : ScanProg (ℕ × List Text) := do
  expectP '"'
  if ← peekWhiteP then .fail
  else do
    let names ← nameP s.2
    if ← peekWhiteP then .fail
    else do
      expectP '"'
      if s.1 ≤ 1 then pure (s.1 - 1, names)
      else do
        expectP ','
        pure (s.1 - 1, names)

/-- `Macaulay2IOHandler::doReadRing` (Macaulay2IOHandler.cpp:169-210). -/
def ringM2P : ScanProg (List Text) := do
  let name ← identifierP
  if name.head? ≠ some 'R' then .fail
  else do
    expectP '='
    let z ← peekP 'Z'
    textP (if z then t!"ZZ" else t!"QQ")
    expectP '['
    let brace ← matchP '{'
    let n ← leftP
    let id ← peekIdP
    let names ← if id then sepP nameP ',' n [] else pure []
    if brace then expectP '}' else pure ()
    expectP ']'
    expectP ';'
    pure names

/-- `[1..n]` (CoCoA4IOHandler.cpp:194-197). -/
def rangeCoCoAP : ScanProg ℕ := do
  expectP '1'
  textP t!".."
  let varCount ← sizeP
  expectP ']'
  pure varCount

/-- `CoCoA4IOHandler::doReadRing` (CoCoA4IOHandler.cpp:182-223). -/
def ringCoCoAP : ScanProg (List Text) := do
  textP t!"Use"
  expectP 'R'
  textP t!"::="
  expectP 'Q'
  expectP '['
  expectP 'x'
  let b ← matchP '['
  let varCount ← if b then rangeCoCoAP else pure 0
  expectP ']'
  expectP ';'
  textP t!"Names"
  textP t!":="
  expectP '['
  let s ← timesP nameCoCoAP varCount (varCount, [])
  expectP ']'
  expectP ';'
  pure s.2

/-- `noVars` (SingularIOHandler.cpp:167-186). -/
def noVarsP (names : List Text) : ScanProg (List Text) := do
  if ← matchP '1' then (if names = [t!"dummy"] then pure [] else .fail)
  else do
    if ← matchP '0' then pure names else .fail

/-- `SingularIOHandler::doReadRing` (SingularIOHandler.cpp:145-189). -/
def ringSingularP : ScanProg (List Text) := do
  textP t!"ring"
  expectP 'R'
  expectP '='
  expectP '0'
  expectP ','
  expectP '('
  let n ← leftP
  let names ← sepP nameP ',' n []
  expectP ')'
  expectP ','
  textP t!"lp"
  expectP ';'
  textP t!"int"
  textP t!"noVars"
  textP t!"="
  let names ← noVarsP names
  expectP ';'
  pure names

/-- `MonosIOHandler::doReadRing` (MonosIOHandler.cpp:95-104). -/
def ringMonosP : ScanProg (List Text) := do
  textP t!"vars"
  if ← matchP ';' then pure []
  else do
    let n ← leftP
    let names ← sepP nameP ',' n []
    expectP ';'
    pure names

/-- `NewMonos::readRingNoLeftParen` (NewMonosIOHandler.cpp:124-128). -/
def ringNewMonosP : ScanProg (List Text) := do
  textP t!"lex-order"
  let n ← leftP
  untilP nameP ')' (n + 1) []

/-- The generators in Macaulay 2 format (Macaulay2IOHandler.cpp:225-234). -/
def gensM2P (sf : Bool) (names : List Text) : ScanProg InputConsumer := do
  let n ← leftP
  if ← matchP '0' then do
    if ← matchP '_' then do
      let _ ← identifierP
      pure (.beginIdeal names)
    else pure (.beginIdeal names)
  else sepP (termM2P sf) ',' n (.beginIdeal names)

/-- `Macaulay2IOHandler::doReadBareIdeal` (Macaulay2IOHandler.cpp:216-238). -/
def bareM2P (sf : Bool) (names : List Text) : ScanProg InputConsumer := do
  expectP 'I'
  expectP '='
  textP t!"monomialIdeal"
  expectP '('
  let k ← gensM2P sf names
  expectP ')'
  expectP ';'
  pure k

/-- The generators in CoCoA 4 format (CoCoA4IOHandler.cpp:238-243). -/
def gensCoCoAP (sf : Bool) (names : List Text) : ScanProg InputConsumer := do
  let n ← leftP
  if ← matchP ')' then pure (.beginIdeal names)
  else do
    let k ← sepP (termCoCoAP sf) ',' n (.beginIdeal names)
    expectP ')'
    pure k

/-- `CoCoA4IOHandler::doReadBareIdeal` (CoCoA4IOHandler.cpp:229-247). -/
def bareCoCoAP (sf : Bool) (names : List Text) : ScanProg InputConsumer := do
  expectP 'I'
  textP t!":="
  textP t!"Ideal"
  expectP '('
  let k ← gensCoCoAP sf names
  let _ ← matchP ';'
  pure k

/-- The generators in Singular format (SingularIOHandler.cpp:223-227). -/
def gensSingularP (sf : Bool) (names : List Text) : ScanProg InputConsumer := do
  let n ← leftP
  if ← matchP '0' then pure (.beginIdeal names)
  else sepP (termP sf) ',' n (.beginIdeal names)

/-- `SingularIOHandler::doReadBareIdeal` (SingularIOHandler.cpp:215-231). -/
def bareSingularP (sf : Bool) (names : List Text) : ScanProg InputConsumer := do
  textP t!"ideal"
  expectP 'I'
  expectP '='
  let k ← gensSingularP sf names
  expectP ';'
  pure k

/-- The generators in Monos format (MonosIOHandler.cpp:114-124). -/
def gensMonosP (sf : Bool) (names : List Text) : ScanProg InputConsumer := do
  let n ← leftP
  if ← matchP ']' then pure (.beginIdeal names)
  else do
    let k ← sepP (termP sf) ',' n (.beginIdeal names)
    if ← matchP ']' then pure k
    else do
      let id ← peekIdP
      expectP (if id then '*' else ']')
      pure k

/-- `MonosIOHandler::doReadBareIdeal` (MonosIOHandler.cpp:110-128). -/
def bareMonosP (sf : Bool) (names : List Text) : ScanProg InputConsumer := do
  expectP '['
  let k ← gensMonosP sf names
  expectP ';'
  pure k

/-- `NewMonos::readIdealNoLeftParen` (NewMonosIOHandler.cpp:130-142). -/
def newMonosP (sf : Bool) : ScanProg InputConsumer := do
  textP t!"monomial-ideal-with-order"
  expectP '('
  let names ← ringNewMonosP
  let n ← leftP
  untilP (termP sf) ')' (n + 1) (.beginIdeal names)

/-- The generators in 4ti2 format (Fourti2IOHandler.cpp:379-389). -/
def gens4ti2P (sf : Bool) (generatorCount varCount : ℕ) : ScanProg InputConsumer :=
  if varCount = 0 then pure { InputConsumer.beginIdeal [] with gens := List.replicate generatorCount [] }
  else timesP (term4ti2P sf) generatorCount (.beginIdeal (defaultNames varCount))

/-- `Fourti2::readIdeal` (Fourti2IOHandler.cpp:375-398). -/
def fourti2P (sf : Bool) (generatorCount varCount : ℕ) : ScanProg InputConsumer := do
  let k ← gens4ti2P sf generatorCount varCount
  if ← peekIdP then do
    let names ← timesP nameP varCount []
    pure { k with names := names }
  else pure k

/-- `doReadIdeal` (IOHandlerCommon.cpp:50-55, NewMonosIOHandler.cpp:96-99, Fourti2IOHandler.cpp:195-203). -/
def consumerP (sf : Bool) : IOFormat → ScanProg InputConsumer
  | .m2 => do
    let names ← ringM2P
    bareM2P sf names
  | .cocoa4 => do
    let names ← ringCoCoAP
    bareCoCoAP sf names
  | .singular => do
    let names ← ringSingularP
    bareSingularP sf names
  | .monos => do
    let names ← ringMonosP
    bareMonosP sf names
  | .newmonos => do
    expectP '('
    newMonosP sf
  | .fourti2 => do
    let generatorCount ← sizeP
    let varCount ← sizeP
    fourti2P sf generatorCount varCount

/-- `IOFacade::readIdeal` (IOFacade.cpp:98-113), `IOFacade::readSquareFreeIdeal` (115-130). -/
def idealP (sf : Bool) (f : IOFormat) : ScanProg NamedIdeal := do
  let k ← consumerP sf f
  pure k.release

/-- Whether the next character is one of these. -/
def peekAnyP : List Char → ScanProg Bool
  | [] => pure false
  | c :: cs => do
    if ← peekP c then pure true else peekAnyP cs

/-- `autoDetectFormat` (IOHandler.cpp:198-228). The `switch` is a sequence of questions for single characters. In the code `_tmpString` is
not there yet, but nothing here uses it. -/
def detectP : ScanProg IOFormat := do
  if ← peekAnyP t!"Uu" then pure .cocoa4
  else do
    if ← peekAnyP t!"r" then pure .singular
    else do
      if ← peekAnyP t!"(l)" then pure .newmonos
      else do
        if ← peekAnyP t!"0123456789+-" then pure .fourti2
        else do
          if ← peekAnyP t!"v" then pure .monos else pure .m2

end ScanProg

/-- Reading an ideal from the bytes of a file in a format, or in the format that is found from the file. -/
def readIdealFile (sf : Bool) (format : Option IOFormat) (file : InFile) (capacity : ℕ) : Except ScanStop NamedIdeal :=
  ScanProg.readFile (match format with | some f => ScanProg.idealP sf f | none => ScanProg.detectP >>= ScanProg.idealP sf) file capacity

end Frobby

import Verif.FileReaderModel
import Verif.FrobActionModel
import Verif.PolyIOModel

/-!
# The readers of lists of ideals, of polynomials and of instances, asking a scanner

As `FileReaderModel`, for the functions of `IOModel`, `ActionModel`, `OptimizeActionModel`, `FrobActionModel` and `PolyIOModel` that read.
Lists of ideals in the format of 4ti2 are not here, since that reader asks for the end of the file itself.
-/

namespace Frobby

namespace ScanProg

/-- `in.readInteger()` -/
def integerP : ScanProg ℤ := op .integer

/-- `in.readIntegerAndNegativeAsZero()` or a number without sign, as in `readNonNegative`. -/
def nonNegativeP : ScanProg ℕ := op .nonNegative

/-- `in.matchEOF()` -/
def atEndP : ScanProg Bool := op .atEnd

/-! ## lists of ideals -/

/-- `doPeekRing` (Macaulay2IOHandler.cpp:212-214, CoCoA4IOHandler.cpp:225-227, SingularIOHandler.cpp:191-193, MonosIOHandler.cpp:106-108). -/
def peekRingP : IOFormat → ScanProg Bool
  | .m2 => peekAnyP t!"Rr"
  | .cocoa4 => peekAnyP t!"Uu"
  | .singular => peekAnyP t!"rR"
  | .monos => peekAnyP t!"v"
  | _ => pure false

/-- `doReadRing` of the formats that `IOHandlerCommon` is for (see `ringM2P` and the others). -/
def ringP : IOFormat → ScanProg (List Text)
  | .m2 => ringM2P
  | .cocoa4 => ringCoCoAP
  | .singular => ringSingularP
  | .monos => ringMonosP
  | _ => .fail

/-- `doReadBareIdeal` of the formats that `IOHandlerCommon` is for (see `bareM2P` and the others). -/
def bareP (names : List Text) : IOFormat → ScanProg InputConsumer
  | .m2 => bareM2P false names
  | .cocoa4 => bareCoCoAP false names
  | .singular => bareSingularP false names
  | .monos => bareMonosP false names
  | _ => .fail

/-- The loop of `IOHandlerCommon::doReadIdeals` (IOHandlerCommon.cpp:65-71). -/
def idealsLoopP (f : IOFormat) : ℕ → List Text → List NamedIdeal → ScanProg (List NamedIdeal × List Text)
  | 0, _, _ => .fail
  | n + 1, names, Is => do
    if ← atEndP then pure (Is, names)
    else do
      let ring ← peekRingP f
      let names' ← if ring then ringP f else pure names
      let k ← bareP names' f
      idealsLoopP f n names' (Is ++ [k.release])

/-- The loop of `NewMonosIOHandler::doReadIdeals` (NewMonosIOHandler.cpp:110-112). -/
def idealsNewMonosP : ℕ → List NamedIdeal → ScanProg (List NamedIdeal × List Text)
  | 0, _ => .fail
  | n + 1, Is => do
    let k ← newMonosP false
    if ← matchP '(' then idealsNewMonosP n (Is ++ [k.release]) else pure (Is ++ [k.release], k.names)

/-- `doReadIdeals` (IOHandlerCommon.cpp:57-72, NewMonosIOHandler.cpp:101-113). -/
def idealsP : IOFormat → ScanProg (List NamedIdeal × List Text)
  | .newmonos => do
    expectP '('
    let n ← leftP
    if ← peekAnyP t!"lL" then do
      let names ← ringNewMonosP
      pure ([], names)
    else idealsNewMonosP n []
  | .fourti2 => .fail
  | f => do
    let names ← ringP f
    if ← atEndP then pure ([], names)
    else do
      let k ← bareP names f
      let n ← leftP
      idealsLoopP f (n + 1) names [k.release]

/-! ## instances -/

/-- `doReadTerm` of the formats (see `readTermConsumer`). -/
def anyTermP : IOFormat → InputConsumer → ScanProg InputConsumer
  | .m2 => termM2P false
  | .cocoa4 => termCoCoAP false
  | .fourti2 => term4ti2P false
  | _ => termP false

/-- `IOFacade::readAlexanderDualInstance` (IOFacade.cpp:229-253) with `IOHandler::readTerm` (IOHandler.cpp:50-62). -/
def dualP (f : IOFormat) : ScanProg (NamedIdeal × Option (List ℕ)) := do
  let k ← consumerP false f
  if ← atEndP then pure (k.release, none)
  else do
    let q ← anyTermP f (.beginIdeal k.names)
    pure (k.release, some (q.gens.headD []))

/-- `IOFacade::readVector` (IOFacade.cpp:255-264). -/
def vectorP : ℕ → ScanProg (List ℤ)
  | 0 => pure []
  | k + 1 => do
    let x ← integerP
    let l ← vectorP k
    pure (x :: l)

/-- The input of `optimize` (OptimizeAction.cpp:108-123). -/
def optimizeP (f : IOFormat) : ScanProg (NamedIdeal × List ℤ) := do
  let k ← consumerP false f
  if ← atEndP then pure (k.release, List.replicate k.release.names.length 1)
  else do
    let v ← vectorP k.release.names.length
    pure (k.release, v)

/-- The loop of `readFrobeniusInstance` (IOHandler.cpp:165-177). -/
def bigIntegersP : ℕ → ScanProg (List ℤ)
  | 0 => .fail
  | n + 1 => do
    if ← atEndP then pure []
    else do
      let x ← integerP
      if x ≤ 1 then .fail
      else do
        let l ← bigIntegersP n
        pure (x :: l)

/-- `readFrobeniusInstance` (IOHandler.cpp:160-196). The errors for no numbers and for a greatest common divisor other than 1 are not
syntax errors in the code (180, 187-194). -/
def frobeniusP : ScanProg (List ℤ) := do
  let n ← leftP
  let l ← bigIntegersP (n + 1)
  if l = [] then .fail else if gcdLoop l ≠ 1 then .fail else pure l

/-- The second loop of `fourti2::readTerm` (fourti2.cpp:37-41). -/
def nonNegativesP : ℕ → ScanProg (List ℕ)
  | 0 => pure []
  | k + 1 => do
    let x ← nonNegativeP
    let l ← nonNegativesP k
    pure (x :: l)

/-- `fourti2::readTerm` (fourti2.cpp:26-42). -/
def grobnerTermP (varCount : ℕ) : ScanProg (List ℕ) := do
  let x ← nonNegativeP
  if 0 < x then .fail else nonNegativesP varCount

/-- The loop of `fourti2::readGrobnerBasis` (fourti2.cpp:59-60). -/
def grobnerTermsP (varCount : ℕ) : ℕ → ScanProg (List (List ℕ))
  | 0 => pure []
  | k + 1 => do
    let x ← grobnerTermP varCount
    let l ← grobnerTermsP varCount k
    pure (x :: l)

/-- `fourti2::readGrobnerBasis` (fourti2.cpp:44-61). -/
def grobnerP : ScanProg NamedIdeal := do
  let termCount ← sizeP
  let varCount ← sizeP
  if varCount = 0 then .fail
  else do
    let terms ← grobnerTermsP (varCount - 1) termCount
    pure { names := defaultNames (varCount - 1), terms := terms }

/-- `IOFacade::readFrobeniusInstanceWithGrobnerBasis` (IOFacade.cpp:274-301). -/
def grobnerInstanceP : ScanProg (NamedIdeal × List ℤ) := do
  let I ← grobnerP
  let a ← frobeniusP
  if a.length ≠ I.names.length + 1 then .fail else pure (I, a)

/-! ## polynomials -/

/-- The exponent after a variable (IOHandlerImpl.cpp:277-292, CoCoA4IOHandler.cpp:371-388). -/
def polyExponentP (var : ℕ) (term : List ℕ) : ScanProg (List ℕ) :=
  if term.getD var 0 ≠ 0 then .fail
  else do
    if ← matchP '^' then do
      let e ← integerP
      if e ≤ 0 then .fail else pure (term.set var e.toNat)
    else pure (term.set var 1)

/-- `IO::readVarPower` (IOHandlerImpl.cpp:272-293). -/
def varPowerP (names : List Text) (term : List ℕ) : ScanProg (List ℕ) := do
  let x ← identifierP
  let var ← ofOption (names.idxOf? x)
  polyExponentP var term

/-- `CoCoA4::readVarPower` (CoCoA4IOHandler.cpp:356-389). -/
def varPowerCoCoAP (term : List ℕ) : ScanProg (List ℕ) := do
  expectP 'x'
  expectP '['
  let var ← sizeP
  if var = 0 ∨ var > term.length then .fail
  else do
    expectP ']'
    polyExponentP (var - 1) term

/-- `while (in.match('*')) item` (IOHandlerImpl.cpp:254-255). -/
def starP {σ : Type} (item : σ → ScanProg σ) : ℕ → σ → ScanProg σ
  | 0, _ => .fail
  | n + 1, s => do
    if ← matchP '*' then do
      let s' ← item s
      starP item n s'
    else pure s

/-- `while (in.peek() == 'x') item` (CoCoA4IOHandler.cpp:426-430). -/
def peekXP {σ : Type} (item : σ → ScanProg σ) : ℕ → σ → ScanProg σ
  | 0, _ => .fail
  | n + 1, s => do
    if ← peekP 'x' then do
      let s' ← item s
      peekXP item n s'
    else pure s

/-- The signs in front of a term (IOHandlerImpl.cpp:237-244, CoCoA4IOHandler.cpp:409-416). -/
def oneSignP (first : Bool) : ScanProg Bool :=
  if first then do
    if ← matchP '-' then pure false else pure true
  else do
    if ← matchP '+' then do
      let minus ← matchP '-'
      pure (! minus)
    else do
      if ← matchP '-' then pure false
      else do
        expectP '+'
        pure true

/-- The signs in front of a term, and no more signs (IOHandlerImpl.cpp:237-246, CoCoA4IOHandler.cpp:409-418). -/
def signP (first : Bool) : ScanProg Bool := do
  let positive ← oneSignP first
  if ← matchP '+' then .fail
  else do
    if ← matchP '-' then .fail else pure positive

/-- `IO::readCoefTerm` after the signs (IOHandlerImpl.cpp:248-255). -/
def bodyP (names : List Text) : ScanProg (ℤ × List ℕ) := do
  if ← peekIdP then do
    let term ← varPowerP names (List.replicate names.length 0)
    let n ← leftP
    let term ← starP (varPowerP names) (n + 1) term
    pure (1, term)
  else do
    let c ← integerP
    let n ← leftP
    let term ← starP (varPowerP names) (n + 1) (List.replicate names.length 0)
    pure (c, term)

/-- `CoCoA4::readCoefTerm` after the signs (CoCoA4IOHandler.cpp:420-430). -/
def bodyCoCoAP (names : List Text) : ScanProg (ℤ × List ℕ) := do
  if ← peekIdP then do
    let term ← varPowerCoCoAP (List.replicate names.length 0)
    let n ← leftP
    let term ← peekXP varPowerCoCoAP (n + 1) term
    pure (1, term)
  else do
    let c ← integerP
    let n ← leftP
    let term ← peekXP varPowerCoCoAP (n + 1) (List.replicate names.length 0)
    pure (c, term)

/-- `readCoefTerm` (IOHandlerImpl.cpp:228-260, CoCoA4IOHandler.cpp:402-435). -/
def signedP (body : ScanProg (ℤ × List ℕ)) (first : Bool) : ScanProg (ℤ × List ℕ) := do
  let positive ← signP first
  let p ← body
  pure (if positive then p.1 else -p.1, p.2)

/-- `do { item } while (!in.match(';'))` (Macaulay2IOHandler.cpp:251-256, CoCoA4IOHandler.cpp:260-265, SingularIOHandler.cpp:245-249). -/
def polyTermsP (item : Bool → ScanProg (ℤ × List ℕ)) : ℕ → Bool → List (ℤ × List ℕ) → ScanProg (List (ℤ × List ℕ))
  | 0, _, _ => .fail
  | n + 1, first, ps => do
    let p ← item first
    if ← matchP ';' then pure (ps ++ [p]) else polyTermsP item n false (ps ++ [p])

/-- `doReadBarePolynomial` (Macaulay2IOHandler.cpp:240-258, CoCoA4IOHandler.cpp:249-267, SingularIOHandler.cpp:233-252). -/
def barePolyP (names : List Text) : PolyFormat → ScanProg (List (ℤ × List ℕ))
  | .m2 => do
    expectP 'p'
    expectP '='
    let n ← leftP
    polyTermsP (signedP (bodyP names)) (n + 1) true []
  | .cocoa4 => do
    expectP 'p'
    textP t!":="
    let n ← leftP
    polyTermsP (signedP (bodyCoCoAP names)) (n + 1) true []
  | .singular => do
    textP t!"poly"
    expectP 'p'
    expectP '='
    let n ← leftP
    polyTermsP (signedP (bodyP names)) (n + 1) true []
  | .fourti2 => .fail

/-- One exponent in `Fourti2IOHandler::doReadPolynomial` (Fourti2IOHandler.cpp:259-262). -/
def polyExponent4ti2P (term : List ℕ) : ScanProg (List ℕ) := do
  let e ← nonNegativeP
  pure (term ++ [e])

/-- One term in `Fourti2IOHandler::doReadPolynomial` (Fourti2IOHandler.cpp:253-263). -/
def polyTerm4ti2P (varCount : ℕ) (ps : List (ℤ × List ℕ)) : ScanProg (List (ℤ × List ℕ)) := do
  let c ← integerP
  let term ← timesP polyExponent4ti2P varCount []
  pure (ps ++ [(c, term)])

/-- Reading a name with `VarNames::addVar` (Fourti2IOHandler.cpp:275-276, VarNames.cpp:44-66). -/
def nameAddP (names : List Text) : ScanProg (List Text) := do
  let x ← identifierP
  pure (if x ∈ names then names else names ++ [x])

/-- `Fourti2IOHandler::doReadPolynomial` (Fourti2IOHandler.cpp:234-281). -/
def poly4ti2P : ScanProg NamedPoly := do
  let termCount ← sizeP
  let columns ← sizeP
  if columns = 0 then .fail
  else do
    let terms ← timesP (polyTerm4ti2P (columns - 1)) termCount []
    if ← matchP '(' then pure () else textP t!"(coefficient)"
    textP t!"coefficient"
    expectP ')'
    if ← peekIdP then do
      let names ← timesP nameAddP (columns - 1) []
      pure { names := names, terms := terms }
    else pure { names := defaultNames (columns - 1), terms := terms }

/-- `IOFacade::readPolynomial` (IOFacade.cpp:192-203) with `doReadPolynomial` (IOHandlerCommon.cpp:74-79). -/
def polyP (f : PolyFormat) : ScanProg NamedPoly :=
  if f = .fourti2 then poly4ti2P
  else do
    let names ← ringP f.io
    let terms ← barePolyP names f
    pure { names := names, terms := terms }

/-- A reader for a format, or for the format that is found from the file (IOParameters.cpp, autoDetectFormat). -/
def formatP {α : Type} (p : IOFormat → ScanProg α) : Option IOFormat → ScanProg α
  | some f => p f
  | none => do
    let f ← detectP
    p f

end ScanProg

/-- Reading a list of ideals from a file. -/
def readIdealsFile (format : Option IOFormat) (file : InFile) (capacity : ℕ) : Except ScanStop (List NamedIdeal × List Text) :=
  (ScanProg.formatP ScanProg.idealsP format).readFile file capacity

/-- Reading an ideal and a point for an Alexander dual from a file. -/
def readDualFile (format : Option IOFormat) (file : InFile) (capacity : ℕ) : Except ScanStop (NamedIdeal × Option (List ℕ)) :=
  (ScanProg.formatP ScanProg.dualP format).readFile file capacity

/-- Reading an ideal and a vector from a file. -/
def readOptimizeFile (format : Option IOFormat) (file : InFile) (capacity : ℕ) : Except ScanStop (NamedIdeal × List ℤ) :=
  (ScanProg.formatP ScanProg.optimizeP format).readFile file capacity

/-- Reading a Frobenius instance from a file (DynamicFrobeniusAction.cpp:44-47). -/
def readFrobeniusFile (file : InFile) (capacity : ℕ) : Except ScanStop (List ℤ) := ScanProg.frobeniusP.readFile file capacity

/-- Reading a Frobenius instance with a Gröbner basis from a file. -/
def readGrobnerFile (file : InFile) (capacity : ℕ) : Except ScanStop (NamedIdeal × List ℤ) := ScanProg.grobnerInstanceP.readFile file capacity

/-- Reading a polynomial from a file. -/
def readPolyFile (f : PolyFormat) (file : InFile) (capacity : ℕ) : Except ScanStop NamedPoly := (ScanProg.polyP f).readFile file capacity

end Frobby

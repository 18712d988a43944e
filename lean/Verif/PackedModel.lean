import Verif.EulerWordModel
import Verif.EulerActionModel

/-!
# Model of how an ideal is held in memory while it is read (src/InputConsumer.cpp, src/SquareFreeIdeal.cpp)

`IOModel` has the readers with a list of exponent vectors for the generators that have been read. In the code these are at first in
a `SquareFreeIdeal`, which packs a generator into words and gets a larger array when it is full, and they are moved to a `BigIdeal`
when the first exponent comes that is neither 0 nor 1. Here the readers run on that.
-/

namespace Frobby

/-- How reading ends without an ideal: an error is reported, an array of that many terms in that many variables is too large, or
an access outside of an array or through a null pointer. -/
inductive PackedStop
  | report
  | badAlloc (varCount capacity : ℕ)
  | outOfRange
deriving DecidableEq

/-- Go on if there was no error. -/
def orReport {α : Type} : Option α → Except PackedStop α
  | none => .error .report
  | some a => .ok a

/-- Go on if the access was inside of the array. -/
def orStop {α : Type} : Option α → Except PackedStop α
  | none => .error .outOfRange
  | some a => .ok a

/-- What the new array of a given capacity holds. -/
abbrev GrowJunk := ℕ → ℕ → Word

/-- `newRawSquareFreeIdeal` (RawSquareFreeIdeal.cpp:797-805). The number of bytes is that of `C49_bytesOfMemory`. -/
def newPacked (junk : GrowJunk) (varCount capacity : ℕ) : Except PackedStop RsfIdeal :=
  if 32 + 8 * (wordCount varCount * capacity) < 2 ^ 64 then
    .ok (rsfConstruct varCount ((List.range (wordCount varCount * capacity)).map (junk capacity)))
  else .error (.badAlloc varCount capacity)

/-- `SquareFreeIdeal` (SquareFreeIdeal.h:24-77). -/
structure SqfIdeal where
  names : List Text
  raw : RsfIdeal
  capacity : ℕ

/-- `SquareFreeIdeal(const BigIdeal&)` (SquareFreeIdeal.cpp:36-41) for the ideal without generators. -/
def SqfIdeal.ofNames (junk : GrowJunk) (names : List Text) : Except PackedStop SqfIdeal :=
  (newPacked junk names.length 0).map fun raw => ⟨names, raw, 0⟩

/-- `SquareFreeIdeal(const SquareFreeIdeal&, size_t)` (SquareFreeIdeal.cpp:26-34). -/
def SqfIdeal.copy (junk : GrowJunk) (I : SqfIdeal) (capacity : ℕ) : Except PackedStop SqfIdeal := do
  let capacity := if capacity < I.raw.genCount then I.raw.genCount else capacity
  let raw ← newPacked junk I.names.length capacity
  let raw ← orStop (raw.insertIdeal I.raw)
  pure ⟨I.names, raw, capacity⟩

/-- `SquareFreeIdeal::reserve` (SquareFreeIdeal.cpp:101-104). -/
def SqfIdeal.reserve (junk : GrowJunk) (I : SqfIdeal) (capacity : ℕ) : Except PackedStop SqfIdeal :=
  if I.capacity < capacity then I.copy junk capacity else .ok I

/-- `SquareFreeIdeal::insertIdentity` (SquareFreeIdeal.cpp:64-68). Doubling the capacity does not overflow, since the array has eight
bytes or more for every term. -/
def SqfIdeal.insertIdentity (junk : GrowJunk) (I : SqfIdeal) : Except PackedStop SqfIdeal := do
  let I ← if I.raw.genCount = I.capacity then I.reserve junk (if I.capacity = 0 then 16 else I.capacity * 2) else pure I
  let raw ← orStop I.raw.insertIdentity
  pure ⟨I.names, raw, I.capacity⟩

/-- `*back()` (RawSquareFreeIdeal.h:352-354 and 356-358). -/
def RsfIdeal.backWords (r : RsfIdeal) : Option (List Word) :=
  if r.memoryEnd < r.wordsPerTerm then none else readWords r.memory (r.memoryEnd - r.wordsPerTerm) r.wordsPerTerm

/-- Writing to `*back()`. -/
def RsfIdeal.putBack (r : RsfIdeal) (t : List Word) : Option RsfIdeal :=
  if r.memoryEnd < r.wordsPerTerm then none
  else (writeWords r.memory (r.memoryEnd - r.wordsPerTerm) t).map fun mem => ⟨r.varCount, r.wordsPerTerm, r.genCount, r.memoryEnd, mem⟩

/-- The exponents of a packed term (the inner loop at BigIdeal.cpp:89-90), from the variable `var` on. -/
def unpackFrom (a : List Word) (var : ℕ) : ℕ → Option (List ℕ)
  | 0 => some []
  | n + 1 =>
    match wGetExponent a var with
    | none => none
    | some b => (unpackFrom a (var + 1) n).map fun l => (if b then 1 else 0) :: l

/-- `BigIdeal::insert(const SquareFreeIdeal&)` (BigIdeal.cpp:83-92) into an ideal without generators. The last generator is the first of
the list, as in `InputConsumer`. -/
def SqfIdeal.toBig (I : SqfIdeal) : Option (List (List ℕ)) :=
  foldTerms I.raw.wordsPerTerm (fun terms a => (unpackFrom a 0 I.names.length).map fun e => e :: terms) [] I.raw.memory 0 I.raw.stop

/-- `InputConsumer` while it reads an ideal (InputConsumer.h:105-114): `_names`, `_sqfIdeal` and `_bigIdeal`, where `none` is the null pointer. -/
structure PackedConsumer where
  names : List Text
  sqf : Option SqfIdeal
  big : Option (List Text × List (List ℕ))

namespace PackedConsumer

/-- `InputConsumer::beginIdeal` (InputConsumer.cpp:50-55). -/
def beginIdeal (junk : GrowJunk) (names : List Text) : Except PackedStop PackedConsumer :=
  (SqfIdeal.ofNames junk names).map fun I => ⟨names, some I, none⟩

/-- `InputConsumer::consumeRing` while an ideal is read (InputConsumer.cpp:33-43). -/
def rename (k : PackedConsumer) (names : List Text) : Except PackedStop PackedConsumer :=
  match k.sqf, k.big with
  | some I, big => .ok ⟨names, some ⟨names, I.raw, I.capacity⟩, big⟩
  | none, some (_, terms) => .ok ⟨names, none, some (names, terms)⟩
  | none, none => .error .outOfRange

/-- `InputConsumer::beginTerm` (InputConsumer.cpp:62-74) and `BigIdeal::newLastTerm` (BigIdeal.cpp:104-110). -/
def beginTerm (junk : GrowJunk) (k : PackedConsumer) : Except PackedStop PackedConsumer :=
  match k.sqf, k.big with
  | some I, big => (I.insertIdentity junk).map fun I => ⟨k.names, some I, big⟩
  | none, some (names, terms) => .ok ⟨k.names, none, some (names, List.replicate names.length 0 :: terms)⟩
  | none, none => .error .outOfRange

/-- Setting a variable in `*back()` of `_sqfIdeal`, where `a` is what it holds. -/
def putOne (k : PackedConsumer) (I : SqfIdeal) (a : List Word) (var : ℕ) : Except PackedStop PackedConsumer := do
  let a ← orStop (wSetExponent a var true)
  let raw ← orStop (I.raw.putBack a)
  pure ⟨k.names, some ⟨I.names, raw, I.capacity⟩, k.big⟩

/-- `_bigIdeal->getLastTermExponentRef(var)` (BigIdeal.h:144-150). -/
def bigExponent (k : PackedConsumer) (var : ℕ) : Except PackedStop ℕ :=
  match k.big with
  | some (_, g :: _) => orStop g[var]?
  | _ => .error .outOfRange

/-- Writing to `_bigIdeal->getLastTermExponentRef(var)`. -/
def putBig (k : PackedConsumer) (var e : ℕ) : Except PackedStop PackedConsumer :=
  match k.big with
  | some (names, g :: gs) => if var < g.length then .ok ⟨k.names, k.sqf, some (names, g.set var e :: gs)⟩ else .error .outOfRange
  | _ => .error .outOfRange

/-- `InputConsumer::consumeVarExponentOne` (InputConsumer.cpp:102-120). -/
def consumeOne (k : PackedConsumer) (var : ℕ) : Except PackedStop PackedConsumer :=
  match k.sqf with
  | some I => do
    let a ← orStop I.raw.backWords
    let b ← orStop (wGetExponent a var)
    if b then .error .report else k.putOne I a var
  | none => do
    let e ← k.bigExponent var
    if e = 0 then k.putBig var 1 else .error .report

/-- `InputConsumer::toBigIdeal` (InputConsumer.cpp:247-254) while `_bigIdeal` is null. -/
def toBigIdeal (k : PackedConsumer) (I : SqfIdeal) : Except PackedStop PackedConsumer :=
  match k.big with
  | some b => .ok ⟨k.names, some I, some b⟩
  | none => (orStop I.toBig).map fun terms => ⟨k.names, none, some (I.names, terms)⟩

/-- `InputConsumer::consumeVarExponent` (InputConsumer.cpp:122-146) with `idealNotSquareFree` (241-245). -/
def consumeExponent (requireSquareFree : Bool) (k : PackedConsumer) (var : ℕ) (t : Text) : Except PackedStop (PackedConsumer × Text) :=
  match k.sqf with
  | some I => do
    let (s, r) ← orReport (readIntegerStringNoSign t)
    let a ← orStop I.raw.backWords
    let b ← orStop (wGetExponent a var)
    if b then .error .report
    else if s = t!"1" then (k.putOne I a var).map fun k => (k, r)
    else if s = t!"0" then .ok (k, r)
    else if requireSquareFree then .error .report
    else do
      let k ← k.toBigIdeal I
      let e ← orReport (digitsValue0 s)
      (k.putBig var e).map fun k => (k, r)
  | none => do
    let e ← k.bigExponent var
    if e = 0 then do
      let (s, r) ← orReport (readIntegerStringNoSign t)
      let e ← orReport (digitsValue0 s)
      (k.putBig var e).map fun k => (k, r)
    else .error .report

/-- One power in the loop of `consumeTermProductNotation` (InputConsumer.cpp:154-158) with `consumeVar` (90-100). -/
def readPower (sf : Bool) (k : PackedConsumer) (t : Text) : Except PackedStop (PackedConsumer × Text) :=
  match readIdentifier t with
  | none => .error .report
  | some (x, r) =>
    match k.names.idxOf? x with
    | none => .error .report
    | some var =>
      match matchChar '^' r with
      | (true, r') => k.consumeExponent sf var r'
      | (false, r') => (k.consumeOne var).map fun k' => (k', r')

end PackedConsumer

/-- `readSep` for an item that can stop in more than one way. -/
def sepE {σ : Type} (item : σ → Text → Except PackedStop (σ × Text)) (sep : Char) : ℕ → σ → Text → Except PackedStop (σ × Text)
  | 0, _, _ => .error .report
  | fuel + 1, s, t =>
    match item s t with
    | .error e => .error e
    | .ok (s', r) =>
      match matchChar sep r with
      | (true, r') => sepE item sep fuel s' r'
      | (false, r') => .ok (s', r')

/-- `readUntil` for an item that can stop in more than one way. -/
def untilE {σ : Type} (item : σ → Text → Except PackedStop (σ × Text)) (stop : Char) : ℕ → σ → Text → Except PackedStop (σ × Text)
  | 0, _, _ => .error .report
  | fuel + 1, s, t =>
    match matchChar stop t with
    | (true, r) => .ok (s, r)
    | (false, r) =>
      match item s r with
      | .error e => .error e
      | .ok (s', r') => untilE item stop fuel s' r'

/-- `readTimes` for an item that can stop in more than one way. -/
def timesE {σ : Type} (item : σ → Text → Except PackedStop (σ × Text)) : ℕ → σ → Text → Except PackedStop (σ × Text)
  | 0, s, t => .ok (s, t)
  | count + 1, s, t =>
    match item s t with
    | .error e => .error e
    | .ok (s', r) => timesE item count s' r

/-- `readWhileX` for an item that can stop in more than one way. -/
def whileXE {σ : Type} (item : σ → Text → Except PackedStop (σ × Text)) : ℕ → σ → Text → Except PackedStop (σ × Text)
  | 0, _, _ => .error .report
  | fuel + 1, s, t =>
    match item s t with
    | .error e => .error e
    | .ok (s', r) => if peekChar 'x' r then whileXE item fuel s' r else .ok (s', r)

namespace PackedConsumer

/-- `InputConsumer::consumeTermProductNotation` (InputConsumer.cpp:148-162). -/
def readTermProduct (junk : GrowJunk) (sf : Bool) (k : PackedConsumer) (t : Text) : Except PackedStop (PackedConsumer × Text) := do
  let k ← k.beginTerm junk
  match matchChar '1' t with
  | (true, r) => .ok (k, r)
  | (false, r) => sepE (readPower sf) '*' r.length k r

/-- A term followed by an optional name of a ring (Macaulay2IOHandler.cpp:230-232). -/
def readTermM2 (junk : GrowJunk) (sf : Bool) (k : PackedConsumer) (t : Text) : Except PackedStop (PackedConsumer × Text) := do
  let (k', r) ← k.readTermProduct junk sf t
  match matchChar '_' r with
  | (true, r') => orReport ((readIdentifier r').map fun p => (k', p.2))
  | (false, r') => .ok (k', r')

/-- `CoCoA4::readVarPower` (CoCoA4IOHandler.cpp:391-400) with `consumeVarNumber` (InputConsumer.cpp:76-88). -/
def readPowerCoCoA (sf : Bool) (k : PackedConsumer) (t : Text) : Except PackedStop (PackedConsumer × Text) :=
  match (expectChar 'x' t).bind (expectChar '[') with
  | none => .error .report
  | some r =>
    match readSizeT r with
    | none => .error .report
    | some (var, r) =>
      if var = 0 ∨ var > k.names.length then .error .report
      else
        match expectChar ']' r with
        | none => .error .report
        | some r =>
          match matchChar '^' r with
          | (true, r') => k.consumeExponent sf (var - 1) r'
          | (false, r') => (k.consumeOne (var - 1)).map fun k' => (k', r')

/-- `CoCoA4::readTerm` (CoCoA4IOHandler.cpp:345-354). -/
def readTermCoCoA (junk : GrowJunk) (sf : Bool) (k : PackedConsumer) (t : Text) : Except PackedStop (PackedConsumer × Text) := do
  let k ← k.beginTerm junk
  match matchChar '1' t with
  | (true, r) => .ok (k, r)
  | (false, r) => whileXE (readPowerCoCoA sf) r.length k r

/-- One exponent in `Fourti2::readTerm` (Fourti2IOHandler.cpp:319-322); the state has the number of the variable. -/
def readExponent4ti2 (sf : Bool) (s : ℕ × PackedConsumer) (t : Text) : Except PackedStop ((ℕ × PackedConsumer) × Text) :=
  match matchChar '-' t with
  | (true, r) => (orReport (readIntegerStringNoSign r)).map fun p => ((s.1 + 1, s.2), p.2)
  | (false, r) => (s.2.consumeExponent sf s.1 r).map fun p => ((s.1 + 1, p.1), p.2)

/-- `Fourti2::readTerm` (Fourti2IOHandler.cpp:312-326) when there are variables. -/
def readTerm4ti2 (junk : GrowJunk) (sf : Bool) (k : PackedConsumer) (t : Text) : Except PackedStop (PackedConsumer × Text) := do
  let k ← k.beginTerm junk
  (timesE (readExponent4ti2 sf) k.names.length (0, k) t).map fun p => (p.1.2, p.2)

end PackedConsumer

/-- `Macaulay2IOHandler::doReadBareIdeal` (Macaulay2IOHandler.cpp:216-238). -/
def packedBareM2 (junk : GrowJunk) (sf : Bool) (names : List Text) (t : Text) : Except PackedStop (PackedConsumer × Text) := do
  let k ← PackedConsumer.beginIdeal junk names
  let r ← orReport (expectChar 'I' t)
  let r ← orReport (expectChar '=' r)
  let r ← orReport (expectText t!"monomialIdeal" r)
  let r ← orReport (expectChar '(' r)
  let p ←
    if (matchChar '0' r).1 then
      if (matchChar '_' (matchChar '0' r).2).1 then
        orReport ((readIdentifier (matchChar '_' (matchChar '0' r).2).2).map fun p => (k, p.2))
      else .ok (k, (matchChar '_' (matchChar '0' r).2).2)
    else sepE (PackedConsumer.readTermM2 junk sf) ',' r.length k (matchChar '0' r).2
  let r ← orReport (expectChar ')' p.2)
  let r ← orReport (expectChar ';' r)
  pure (p.1, r)

/-- `CoCoA4IOHandler::doReadBareIdeal` (CoCoA4IOHandler.cpp:229-247). -/
def packedBareCoCoA (junk : GrowJunk) (sf : Bool) (names : List Text) (t : Text) : Except PackedStop (PackedConsumer × Text) := do
  let k ← PackedConsumer.beginIdeal junk names
  let r ← orReport (expectChar 'I' t)
  let r ← orReport (expectText t!":=" r)
  let r ← orReport (expectText t!"Ideal" r)
  let r ← orReport (expectChar '(' r)
  let p ←
    if (matchChar ')' r).1 then .ok (k, (matchChar ')' r).2)
    else do
      let p ← sepE (PackedConsumer.readTermCoCoA junk sf) ',' r.length k (matchChar ')' r).2
      let r ← orReport (expectChar ')' p.2)
      pure (p.1, r)
  pure (p.1, (matchChar ';' p.2).2)

/-- `SingularIOHandler::doReadBareIdeal` (SingularIOHandler.cpp:215-231). -/
def packedBareSingular (junk : GrowJunk) (sf : Bool) (names : List Text) (t : Text) : Except PackedStop (PackedConsumer × Text) := do
  let k ← PackedConsumer.beginIdeal junk names
  let r ← orReport (expectText t!"ideal" t)
  let r ← orReport (expectChar 'I' r)
  let r ← orReport (expectChar '=' r)
  let p ←
    if (matchChar '0' r).1 then .ok (k, (matchChar '0' r).2)
    else sepE (PackedConsumer.readTermProduct junk sf) ',' r.length k (matchChar '0' r).2
  let r ← orReport (expectChar ';' p.2)
  pure (p.1, r)

/-- `MonosIOHandler::doReadBareIdeal` (MonosIOHandler.cpp:110-128). -/
def packedBareMonos (junk : GrowJunk) (sf : Bool) (names : List Text) (t : Text) : Except PackedStop (PackedConsumer × Text) := do
  let k ← PackedConsumer.beginIdeal junk names
  let r ← orReport (expectChar '[' t)
  let p ←
    if (matchChar ']' r).1 then .ok (k, (matchChar ']' r).2)
    else do
      let p ← sepE (PackedConsumer.readTermProduct junk sf) ',' r.length k (matchChar ']' r).2
      if (matchChar ']' p.2).1 then pure (p.1, (matchChar ']' p.2).2)
      else do
        let r ← orReport (if peekIdentifier p.2 then expectChar '*' p.2 else expectChar ']' p.2)
        pure (p.1, r)
  let r ← orReport (expectChar ';' p.2)
  pure (p.1, r)

/-- `NewMonos::readIdealNoLeftParen` (NewMonosIOHandler.cpp:130-142). -/
def packedNoLeftParen (junk : GrowJunk) (sf : Bool) (t : Text) : Except PackedStop (PackedConsumer × Text) := do
  let r ← orReport (expectText t!"monomial-ideal-with-order" t)
  let r ← orReport (expectChar '(' r)
  let p ← orReport (readRingNewMonos r)
  let k ← PackedConsumer.beginIdeal junk p.1
  untilE (PackedConsumer.readTermProduct junk sf) ')' (p.2.length + 1) k p.2

/-- `Fourti2::readIdeal` (Fourti2IOHandler.cpp:375-398). -/
def packedIdeal4ti2 (junk : GrowJunk) (sf : Bool) (generatorCount varCount : ℕ) (t : Text) :
    Except PackedStop (PackedConsumer × Text) := do
  let k ← PackedConsumer.beginIdeal junk (defaultNames varCount)
  let p ←
    if varCount = 0 then timesE (fun k t => (PackedConsumer.beginTerm junk k).map fun k => (k, t)) generatorCount k t
    else timesE (PackedConsumer.readTerm4ti2 junk sf) generatorCount k t
  if peekIdentifier p.2 then do
    let q ← orReport (readTimes readName varCount [] p.2)
    (p.1.rename q.1).map fun k => (k, q.2)
  else pure p

/-- `doReadBareIdeal` of the formats with `IOHandlerCommon`. -/
def packedBare (junk : GrowJunk) (sf : Bool) : IOFormat → List Text → Text → Except PackedStop (PackedConsumer × Text)
  | .m2 => packedBareM2 junk sf
  | .cocoa4 => packedBareCoCoA junk sf
  | .singular => packedBareSingular junk sf
  | .monos => packedBareMonos junk sf
  | _ => fun _ _ => .error .report

/-- `doReadIdeal` (IOHandlerCommon.cpp:50-55, NewMonosIOHandler.cpp:96-99, Fourti2IOHandler.cpp:195-203). -/
def packedConsumer (junk : GrowJunk) (sf : Bool) : IOFormat → Text → Except PackedStop (PackedConsumer × Text)
  | .newmonos, t => do
    let r ← orReport (expectChar '(' t)
    packedNoLeftParen junk sf r
  | .fourti2, t => do
    let p ← orReport (readSizeT t)
    let q ← orReport (readSizeT p.2)
    packedIdeal4ti2 junk sf p.1 q.1 q.2
  | f, t => do
    let p ← orReport (readRing f t)
    packedBare junk sf f p.1 p.2

/-- `InputConsumer::releaseBigIdeal` (InputConsumer.cpp:209-216). -/
def PackedConsumer.releaseBig (k : PackedConsumer) : Except PackedStop NamedIdeal :=
  match k.big, k.sqf with
  | some (names, terms), _ => .ok { names := names, terms := terms.reverse }
  | none, some I => (orStop I.toBig).map fun terms => { names := I.names, terms := terms.reverse }
  | none, none => .error .outOfRange

/-- `IOFacade::readIdeal` (IOFacade.cpp:98-113) and then `Scanner::expectEOF` (Scanner.cpp:77-85). -/
def packedReadIdeal (junk : GrowJunk) (f : IOFormat) (t : Text) : Except PackedStop NamedIdeal := do
  let p ← packedConsumer junk false f t
  let I ← p.1.releaseBig
  if matchEOF p.2 then pure I else .error .report

/-- `IOFacade::readSquareFreeIdeal` (IOFacade.cpp:115-130) and then `expectEOF`; `releaseSquareFreeIdeal` is InputConsumer.cpp:218-225. -/
def packedReadSquareFree (junk : GrowJunk) (f : IOFormat) (t : Text) : Except PackedStop SqfIdeal := do
  let p ← packedConsumer junk true f t
  let I ← orStop p.1.sqf
  if matchEOF p.2 then pure I else .error .report

/-- What `eulerTextWords` can come to besides the outcomes of `eulerText`: too large an array, or an access outside of one. -/
inductive WordsOutcome
  | printed (s : Text)
  | error
  | badAlloc (varCount capacity : ℕ)
  | crash (why : Stop)

/-- `EulerAction::perform` (EulerAction.cpp:178-241), from the text to the number on words. -/
def eulerTextWords (o : EulerOptions) (grow : GrowJunk) (junk : ℕ → ℕ → Junk) (fuel : ℕ) (tape : List ℕ) (f : IOFormat) (t : Text) :
    WordsOutcome :=
  match packedReadSquareFree grow f t with
  | .error .report => .error
  | .error (.badAlloc v c) => .badAlloc v c
  | .error .outOfRange => .crash .outOfRange
  | .ok I =>
    match eulerConfig o with
    | none => .error
    | some cfg =>
      match eulerActionWords cfg o.swap01 junk fuel I.raw tape with
      | .error e => .crash e
      | .ok χ => .printed (numberLine χ)

end Frobby

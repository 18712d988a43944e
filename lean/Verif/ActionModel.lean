import Verif.OrderModel
import Verif.TransformModel
import Verif.SplitNameModel

/-!
# Model of the actions `irrdecom`, `maxstandard`, `alexdual`, `assoprimes` and `primdecom`

From the text that is read to the text that is written: `CommonParamsHelper`, the consumers between the algorithm and the
file (`CanonicalTermConsumer`, `TranslatingTermConsumer`, `IrreducibleIdealSplitter`, `IdealConsolidator`, `IdealWriter`), and the
`perform` functions of the actions. The input and output formats are arguments, so the choice of a format from the command line is not
modelled, nor is the null format. Strings in a `TermTranslator` (`makeStrings`) are made when a term is written; they are a
cache. What `Action::perform` prints about its progress is not modelled.
-/

namespace Frobby

variable {n : ℕ}

/-! ## VarSorter on a translator -/

/-- `TermTranslator::swapVariables` (TermTranslator.cpp:310-326), on one entry for each variable. -/
def swapEntries {α : Type} (A : Fin n → α) (i j : Fin n) : Fin n → α := fun v => if v = i then A j else if v = j then A i else A v

/-- The inner loop of `VarSorter::permute(TermTranslator*)` (VarSorter.cpp:78-88). The state is `done` and the entries. A cycle has at
most `n` variables. -/
def cycleLoop {α : Type} (p : Fin n → Fin n) : ℕ → (Fin n → Bool) × (Fin n → α) → Fin n → (Fin n → Bool) × (Fin n → α)
  | 0, s, _ => s
  | fuel + 1, s, v =>
    let done := fun w => if w = v then true else s.1 w
    if done (p v) then (done, s.2) else cycleLoop p fuel (done, swapEntries s.2 v (p v)) (p v)

/-- `VarSorter::permute(TermTranslator*)` (VarSorter.cpp:69-90). -/
def permuteEntries {α : Type} (p : Fin n → Fin n) (A : Fin n → α) : Fin n → α :=
  ((List.finRange n).foldl (fun s var => if s.1 var then s else cycleLoop p n s var) (fun _ => false, A)).2

/-- `_permutation` of a `VarSorter` (VarSorter.cpp:40-48), on the indices of the variables. -/
def sortedVar (names : List Text) (i : Fin names.length) : Fin names.length :=
  if h : (NamedIdeal.varPermutation names).getD i 0 < names.length then ⟨_, h⟩ else i

/-! ## CommonParamsHelper -/

/-- The options of the actions (SliceParameters.cpp:27-94): `-split`, `-simplify`, `-independence`, `-canon` and `-minimal`. -/
structure ActionOpts where
  split : Text := t!"median"
  simplify : Bool := true
  independence : Bool := true
  canon : Bool := false
  minimal : Bool := false

/-- The options of the Slice Algorithm (SliceParams.cpp:49-59, SliceFacade.cpp:53). The default for an unknown name is never used, since
`validateSplit` is called first. -/
def ActionOpts.slice (o : ActionOpts) : Opts :=
  { simp := o.simplify, indep := o.independence, split := (createSplit o.split).getD .median }

/-- `_translator` with its names, and `_ideal` of a `CommonParamsHelper`. -/
structure Prepared (n : ℕ) where
  names : List Text
  translator : Translator n
  ideal : List (Term n)

/-- `CommonParamsHelper::setIdeal` (CommonParamsHelper.cpp:176-203), with `VarSorter::permute(Exponent*)` (VarSorter.cpp:63-67). -/
def prepare (o : ActionOpts) (I : NamedIdeal) : Prepared I.names.length :=
  let T := Translator.ofGens I.gens
  let J := T.shrinkIdeal I.gens
  let J := if o.minimal then J else minimize J
  if o.canon then
    let A := permuteEntries (sortedVar I.names) fun v => (I.names.getD v [], T v)
    { names := List.ofFn fun v => (A v).1, translator := fun v => (A v).2, ideal := J.map fun t v => t (sortedVar I.names v) }
  else { names := I.names, translator := T, ideal := J }

/-! ## the consumers -/

/-- `getExponent` of a translator (TermTranslator.cpp:391-397), zero if out of range. -/
def Translator.exponent (T : Translator n) (v : Fin n) (i : ℕ) : ℤ := (T v).getD i 0

/-- The calls that pass an ideal to a consumer (SliceFacade.cpp:325-332, DecomRecorder.cpp, MsmStrategy.cpp). -/
def idealEvents (I : List (Term n)) : List (TermEvent n) := .begin :: I.map .term ++ [.done]

/-- The calls that pass a list of ideals to a consumer (SliceFacade.cpp:184-224). -/
def listEvents (Is : List (List (Term n))) : List (TermEvent n) := .beginList :: Is.flatMap idealEvents ++ [.doneList]

/-- The `CanonicalTermConsumer` in `makeTranslatedIdealConsumer` (CommonParamsHelper.cpp:140-146), if there is one. -/
def canonicalEvents (canon : Bool) (T : Translator n) (es : List (TermEvent n)) : Option (List (TermEvent n)) :=
  if canon then
    (Canon.mk false []).run (fun I => I.insertionSort fun a b => translatedLess T.exponent b a = false)
      (fun Is => Is.insertionSort fun a b => translatedIdealLess T.exponent b a = false) es
  else some es

/-- The calls that `IrreducibleIdealSplitter::consume` makes for a term (IrreducibleIdealSplitter.cpp:73-89). -/
def splitTerm (T : Translator n) (t : Term n) : List (TermEvent n) :=
  .begin :: ((List.finRange n).filter fun v => decide (T.exponent v (t v) ≠ 0)).map (fun v => .term (Term.single v (t v))) ++ [.done]

/-- `IrreducibleIdealSplitter` (IrreducibleIdealSplitter.cpp:45-116). The argument is `_inList`. -/
def splitEvents (T : Translator n) : Bool → List (TermEvent n) → List (TermEvent n)
  | _, [] => []
  | _, .beginList :: es => .beginList :: splitEvents T true es
  | inList, .begin :: es => (if inList then [] else [.beginList]) ++ splitEvents T inList es
  | inList, .term t :: es => splitTerm T t ++ splitEvents T inList es
  | inList, .done :: es => (if inList then [] else [.doneList]) ++ splitEvents T inList es
  | inList, .doneList :: es => .doneList :: splitEvents T inList es

/-- The calls of a `BigTermConsumer` without `consumeRing`. -/
inductive BigEvent
  | beginList
  | doneList
  | begin
  | done
  | term (t : List ℕ)

/-- The exponents of a term (`TermTranslator::getExponent`, TermTranslator.cpp:391-397). A negative exponent is `none` here; the actions do
not write any. -/
def Translator.bigTerm (T : Translator n) (t : Term n) : Option (List ℕ) :=
  (T.translate t).bind fun e => if ∀ v, 0 ≤ e v then some (List.ofFn fun v => (e v).toNat) else none

/-- `TranslatingTermConsumer` (TranslatingTermConsumer.cpp:38-71). -/
def translateEvent (T : Translator n) : TermEvent n → Option BigEvent
  | .beginList => some .beginList
  | .doneList => some .doneList
  | .begin => some .begin
  | .done => some .done
  | .term t => (T.bigTerm t).map .term

/-- The loop of `CoCoA4::writeTermProduct` with a translator (CoCoA4IOHandler.cpp:289-309). The strings of `getExponentString` are never
null (TermTranslator.cpp:359), so powers with exponent zero are written. -/
def writePowersCoCoATranslated : (var : ℕ) → List ℕ → Text
  | var, e :: es =>
    t!"x[" ++ decimal (var + 1) ++ t!"]" ++ (if e = 1 then [] else '^' :: decimal e) ++ writePowersCoCoATranslated (var + 1) es
  | _, [] => []

/-- `CoCoA4::writeTermProduct` with a translator (CoCoA4IOHandler.cpp:289-309). -/
def writeTermCoCoATranslated (term : List ℕ) : Text := if term = [] then t!"1" else writePowersCoCoATranslated 0 term

/-- `doWriteTerm` of the writers with a translator (Macaulay2IOHandler.cpp:50-63, CoCoA4IOHandler.cpp:64-69, SingularIOHandler.cpp:52-57,
MonosIOHandler.cpp:46-51, NewMonosIOHandler.cpp:49-54). Only CoCoA 4 differs from what is written without a translator. -/
def writeGenTranslated (names : List Text) (first : Bool) (term : List ℕ) : IOFormat → Text
  | .cocoa4 => (if first then t!"\n " else t!",\n ") ++ writeTermCoCoATranslated term
  | f => writeGen names first term f

/-- `IdealWriter` (IdealWriter.h:57-60) with the text so far, and `_ideal` of the `IdealConsolidator` that is in front of the writer for 4ti2
(Fourti2IOHandler.cpp:167-171). -/
structure Writer where
  names : List Text
  firstIdeal : Bool
  firstGenerator : Bool
  gens : List (List ℕ)
  out : Text

/-- The calls of `IdealWriter` (IdealWriter.cpp:38-69), and of `IdealConsolidator` for 4ti2 (IdealConsolidator.cpp:39-92). -/
def Writer.step (f : IOFormat) (s : Writer) : BigEvent → Writer
  | .beginList => { s with firstIdeal := true }
  | .begin =>
    if f = .fourti2 then s
    else { s with firstGenerator := true, out := s.out ++ writeHeader s.firstIdeal s.names 0 f }
  | .term t =>
    if f = .fourti2 then { s with gens := s.gens ++ [t] }
    else { s with firstGenerator := false, out := s.out ++ writeGenTranslated s.names s.firstGenerator t f }
  | .done =>
    if f = .fourti2 then
      { s with firstIdeal := false, gens := [], out := s.out ++ writeIdealFrom s.firstIdeal f { names := s.names, terms := s.gens } }
    else { s with firstIdeal := false, out := s.out ++ writeFooter s.names s.firstGenerator f }
  | .doneList => if s.firstIdeal then { s with out := s.out ++ writeRing s.names f } else s

/-- The text written by a writer that is given the ring and then the calls. -/
def runWriter (f : IOFormat) (names : List Text) (es : List BigEvent) : Text :=
  (es.foldl (Writer.step f) { names := names, firstIdeal := true, firstGenerator := true, gens := [], out := [] }).out

/-- A `BigTermConsumer` that writes: the text for a ring and the calls. -/
abbrev CallWriter := List Text → List BigEvent → Text

/-- The consumer made by `CommonParamsHelper::makeTranslatedIdealConsumer` (CommonParamsHelper.cpp:128-147) in front of the writer `w`, given
the ring and then the calls. -/
def outputWith (canon split : Bool) (w : CallWriter) (names : List Text) (T : Translator n) (es : List (TermEvent n)) : Option Text :=
  (canonicalEvents canon T es).bind fun es =>
    ((if split then splitEvents T false es else es).mapM (translateEvent T)).map (w names)

/-! ## the actions -/

/-- The formats that register the output of lists of ideals (Macaulay2IOHandler.cpp:141, MonosIOHandler.cpp:74,
Fourti2IOHandler.cpp:158). -/
def supportsList : IOFormat → Bool
  | .m2 => true
  | .monos => true
  | .fourti2 => true
  | _ => false

/-- `validateSplit(params, true, false)` raises an error (SliceParams.cpp:61-85). -/
def rejectsSplit (o : ActionOpts) : Bool := (validateSplit o.split true false).isNone

/-- `readIdealAndSetOutput` for an action (CommonParamsHelper.cpp:54-83, 168-174): `createIdealListWriter` (IOHandler.cpp:98-108)
raises an error if lists are not supported. The actions call `validateSplit` first. -/
def readAndRun (o : ActionOpts) (list : Bool) (f g : IOFormat) (t : Text) (run : NamedIdeal → Outcome Text) : Outcome Text :=
  if rejectsSplit o || (list && !supportsList g) then .error
  else
    match readIdeal f t with
    | none => .error
    | some I => run I

/-- `computeIrreducibleDecomposition` (SliceFacade.cpp:109-112) for the ideal that has been read, with the writer `w`. -/
def irrdecomRun (w : CallWriter) (o : ActionOpts) (encode : Bool) (rnd : List ℕ → ℕ → ℕ) (I : NamedIdeal) : Outcome Text :=
  let p := prepare o I
  .ofOption ((msmRun o.slice rnd (p.translator.addPurePowers p.ideal)).bind fun outs =>
    outputWith o.canon (!encode) w p.names p.translator (idealEvents outs))

/-- `IrreducibleDecomAction::perform` (IrreducibleDecomAction.cpp:50-58). -/
def irrdecomAction (o : ActionOpts) (encode : Bool) (rnd : List ℕ → ℕ → ℕ) (f g : IOFormat) (t : Text) : Outcome Text :=
  readAndRun o (!encode) f g t (irrdecomRun (runWriter g) o encode rnd)

/-- `computeMaximalStaircaseMonomials` and `computeMaximalStandardMonomials` (SliceFacade.cpp:229-248) for the ideal that has been read, with the
writer `w`. -/
def maxstandardRun (w : CallWriter) (o : ActionOpts) (increment : Bool) (rnd : List ℕ → ℕ → ℕ) (I : NamedIdeal) : Outcome Text :=
  let p := prepare o I
  .ofOption ((msmRun o.slice rnd p.ideal).bind fun outs =>
    outputWith o.canon false w p.names (if increment then p.translator else p.translator.decrement) (idealEvents outs))

/-- `MaximalStandardAction::perform` (MaximalStandardAction.cpp:54-62). -/
def maxstandardAction (o : ActionOpts) (increment : Bool) (rnd : List ℕ → ℕ → ℕ) (f g : IOFormat) (t : Text) : Outcome Text :=
  readAndRun o true f g t (maxstandardRun (runWriter g) o increment rnd)

/-- `computeAssociatedPrimes` (SliceFacade.cpp:286-334) for the ideal that has been read, with the writer `w`. -/
def assoprimesRun (w : CallWriter) (o : ActionOpts) (rnd : List ℕ → ℕ → ℕ) (I : NamedIdeal) : Outcome Text :=
  let p := prepare o I
  .ofOption ((msmRun o.slice rnd (p.translator.addPurePowers p.ideal)).bind fun decom =>
    (decom.mapM p.translator.translate).bind fun ds =>
      outputWith o.canon false w p.names Translator.zeroOne
        (idealEvents (removeDuplicates (ds.map fun d v => if d v = 0 then 0 else 1))))

/-- `AssociatedPrimesAction::perform` (AssociatedPrimesAction.cpp:45-50). -/
def assoprimesAction (o : ActionOpts) (rnd : List ℕ → ℕ → ℕ) (f g : IOFormat) (t : Text) : Outcome Text :=
  readAndRun o true f g t (assoprimesRun (runWriter g) o rnd)

/-- `computePrimaryDecomposition` (SliceFacade.cpp:150-227) for the ideal that has been read, with the writer `w`. -/
def primdecomRun (w : CallWriter) (o : ActionOpts) (rnd : List ℕ → ℕ → ℕ) (I : NamedIdeal) : Outcome Text :=
  let p := prepare o I
  .ofOption ((msmRun o.slice rnd (p.translator.addPurePowers p.ideal)).bind fun decom =>
    let decom := sortReverseLex (p.translator.infinityToZero decom)
    (primaryLoop o.slice rnd p.translator (lcmOf decom) decom).bind fun cs =>
      outputWith o.canon false w p.names p.translator (listEvents cs))

/-- `PrimaryDecomAction::perform` (PrimaryDecomAction.cpp:43-48). -/
def primdecomAction (o : ActionOpts) (rnd : List ℕ → ℕ → ℕ) (f g : IOFormat) (t : Text) : Outcome Text :=
  readAndRun o true f g t (primdecomRun (runWriter g) o rnd)

/-- `doReadTerm` of the formats (Macaulay2IOHandler.cpp:163-167, CoCoA4IOHandler.cpp:178-180, SingularIOHandler.cpp:141-143,
MonosIOHandler.cpp:91-93, NewMonosIOHandler.cpp:92-94, Fourti2IOHandler.cpp:191-193). -/
def readTermConsumer : IOFormat → InputConsumer → Text → Option (InputConsumer × Text)
  | .m2 => InputConsumer.readTermM2 false
  | .cocoa4 => InputConsumer.readTermCoCoA false
  | .fourti2 => InputConsumer.readTerm4ti2 false
  | _ => InputConsumer.readTermProduct false

/-- `IOHandler::readTerm` (IOHandler.cpp:50-62). -/
def readTerm (f : IOFormat) (names : List Text) (t : Text) : Option (List ℕ × Text) :=
  (readTermConsumer f (.beginIdeal names) t).map fun p => (p.1.gens.headD [], p.2)

/-- `IOFacade::readAlexanderDualInstance` (IOFacade.cpp:229-253) and then `expectEOF`. -/
def readDualInstance (f : IOFormat) (t : Text) : Option (NamedIdeal × Option (List ℕ)) :=
  (readConsumer false f t).bind fun p =>
    if matchEOF p.2 then some (p.1.release, none)
    else (readTerm f p.1.names p.2).bind fun q => if matchEOF q.2 then some (p.1.release, some q.1) else none

/-- `SliceFacade::computeAlexanderDual` (SliceFacade.cpp:250-284) with `getLcmOfIdeal` (455-465), on what `setIdeal` made. `point` is not in
the order of the variables of `p` if those were sorted. -/
def dualText (o : ActionOpts) (rnd : List ℕ → ℕ → ℕ) (w : CallWriter) (p : Prepared n) (point : Option (Fin n → ℤ)) : Outcome Text :=
  match p.translator.translate (lcmOf p.ideal) with
  | none => .crash
  | some lcm =>
    let a := point.getD lcm
    if ∃ v, a v < lcm v then .error
    else .ofOption ((msmRun o.slice rnd (p.translator.addPurePowers p.ideal)).bind fun outs =>
      outputWith o.canon false w p.names (p.translator.dualize a) (idealEvents outs))

/-- `AlexanderDualAction::perform` (AlexanderDualAction.cpp:48-74) with the writer `w`. -/
def alexdualWith (w : CallWriter) (o : ActionOpts) (rnd : List ℕ → ℕ → ℕ) (f : IOFormat) (t : Text) : Outcome Text :=
  if rejectsSplit o then .error
  else
    match readDualInstance f t with
    | none => .error
    | some (I, point) => dualText o rnd w (prepare o I) (point.map fun a v => (a.getD v 0 : ℤ))

/-- `AlexanderDualAction::perform` (AlexanderDualAction.cpp:48-74) with the writer of a format. -/
def alexdualAction (o : ActionOpts) (rnd : List ℕ → ℕ → ℕ) (f g : IOFormat) (t : Text) : Outcome Text := alexdualWith (runWriter g) o rnd f t

end Frobby

import Verif.ActionModel
import Verif.HilbertActionModel
import Verif.DimensionActionModel
import Verif.OptimizeActionModel
import Verif.EulerActionModel
import Verif.IntersectionActionModel
import Verif.TransformModel
import Verif.AnalyzeModel
import Verif.PolyTransformModel

/-!
# Model of the formats `null` and `count` (src/NullIOHandler.cpp, src/CountingIOHandler.cpp)

The actions are those of the other model files, with the reader and the writer of any format. Where a term is written with a translator, the exponents are looked up here
even though `NullTermConsumer` and `CountingConsumer` do not ask for them; that this does not fail is part of what is proved.
-/

namespace Frobby

/-- The formats (IOHandler.cpp:129-142). -/
inductive FormatKind
  | std (f : IOFormat)
  | null
  | count
deriving DecidableEq

/-! ## writing -/

/-- The state of a `CountingConsumer` is the number of terms and what has been written; these are the calls (CountingIOHandler.cpp:50-62, 91-93). `beginConsumingList` and
`doneConsumingList` are those of `TermConsumer` (TermConsumer.cpp:29-33), which do nothing. -/
def countStep (s : ℕ × Text) : BigEvent → ℕ × Text
  | .beginList => s
  | .doneList => s
  | .begin => (0, s.2)
  | .term _ => (s.1 + 1, s.2)
  | .done => (s.1, s.2 ++ decimal s.1 ++ t!"\n")

/-- What a `CountingConsumer` writes. The ring does not matter (CountingIOHandler.cpp:47-48). -/
def countWriter : CallWriter := fun _ es => (es.foldl countStep (0, [])).2

/-- The consumer of `createIdealWriter` (IOHandler.cpp:89-96, NullIOHandler.cpp:47-49, CountingIOHandler.cpp:112-114). All methods of `NullTermConsumer` are empty
(NullTermConsumer.cpp:20-46). -/
def FormatKind.callWriter : FormatKind → CallWriter
  | .std g => runWriter g
  | .null => fun _ _ => []
  | .count => countWriter

/-- The writers of ideals: `consume` of `IdealWriter`, of `NullTermConsumer` and of `CountingConsumer` (IdealWriter.cpp:71-79, NullTermConsumer.cpp:45-46,
CountingIOHandler.cpp:64-68, 91-93). -/
def FormatKind.idealWriter : FormatKind → NamedIdeal → Text
  | .std g, I => writeIdeal g I
  | .null, _ => []
  | .count, I => decimal I.terms.length ++ t!"\n"

/-- `IOFacade::writeIdeals` (IOFacade.cpp:168-190). -/
def FormatKind.idealsWriter : FormatKind → List Text → List NamedIdeal → Text
  | .std g, names, Is => writeIdeals g names Is
  | .null, _, _ => []
  | .count, _, Is => Is.flatMap (FormatKind.idealWriter .count)

/-- `createIdealListWriter` does not report an error (IOHandler.cpp:98-108, NullIOHandler.cpp:40, CountingIOHandler.cpp:105). -/
def FormatKind.supportsList : FormatKind → Bool
  | .std f => Frobby.supportsList f
  | _ => true

/-- `createPolynomialWriter` does not report an error (IOHandler.cpp:110-117, NullIOHandler.cpp:39, CountingIOHandler.cpp:104). -/
def FormatKind.supportsPoly : FormatKind → Bool
  | .std f => (polyFormat f).isSome
  | _ => true

/-- The writers of polynomials (PolyWriter.cpp:24-72, NullCoefTermConsumer.h:24-43, CountingIOHandler.cpp:70-93), for terms with or without a translator. -/
def FormatKind.polyWriter (tr : Bool) : FormatKind → NamedPoly → Text
  | .std g, P =>
    match polyFormat g with
    | none => []
    | some g => if tr then writePolyTr g P else writePoly g P
  | .null, _ => []
  | .count, P => decimal P.terms.length ++ t!"\n"

/-- `doWriteTerm` (NullIOHandler.cpp:55-58, CountingIOHandler.cpp:120-124). -/
def FormatKind.termWriter : FormatKind → List Text → List ℕ → Text
  | .std g, names, e => writeTermIn g names e
  | .null, _, _ => []
  | .count, _, _ => t!"1"

/-! ## reading -/

/-- `IOFacade::readIdeal` and then `expectEOF`. The format `null` gives the ideal without generators in the ring without variables (NullIOHandler.cpp:60-64). Reading in the
format `count` is an internal error, which is dealt with before. -/
def FormatKind.readIdeal : FormatKind → Text → Option NamedIdeal
  | .std f, t => Frobby.readIdeal f t
  | _, _ => some ⟨[], []⟩

/-- The same for `IOFacade::readSquareFreeIdeal`. -/
def FormatKind.readSquareFreeIdeal : FormatKind → Text → Option NamedIdeal
  | .std f, t => Frobby.readSquareFreeIdeal f t
  | _, _ => some ⟨[], []⟩

/-- The same for `IOFacade::readIdeals` (NullIOHandler.cpp:66-68). -/
def FormatKind.readIdeals : FormatKind → Text → Option (List NamedIdeal × List Text)
  | .std f, t => Frobby.readIdeals f t
  | _, _ => some ([], [])

/-- The same for `IOFacade::readPolynomial` (NullIOHandler.cpp:75-77). -/
def FormatKind.readPoly : FormatKind → Text → Option NamedPoly
  | .std f, t => (polyFormat f).bind fun f => Frobby.readPoly f t
  | _, _ => some ⟨[], []⟩

/-- The same for the input of `alexdual`. The format `null` never has more input (NullIOHandler.cpp:83-85). -/
def FormatKind.readDual : FormatKind → Text → Option (NamedIdeal × Option (List ℕ))
  | .std f, t => readDualInstance f t
  | _, _ => some (⟨[], []⟩, none)

/-- The same for the input of `optimize`. A vector of length zero is there in any case (OptimizeAction.cpp:117-120). -/
def FormatKind.readOptimize : FormatKind → Text → Option (NamedIdeal × List ℤ)
  | .std f, t => readOptimizeInstance f t
  | _, _ => some (⟨[], []⟩, [])

/-- What `expectEOF` says after input in the format `null`, where nothing has been read (Scanner.cpp:77-85). It is left out only if the name of the format is given in full. -/
def FormatKind.ends (name t : Text) : FormatKind → Bool
  | .null => decide (name = t!"null") || matchEOF t
  | _ => true

/-! ## the actions -/

/-- An action on the input. -/
def onInput {α : Type} (input : Option α) (run : α → Outcome Text) : Outcome Text :=
  match input with
  | none => .error
  | some I => run I

/-- `readIdealAndSetOutput` for an action after `validateSplit` (CommonParamsHelper.cpp:54-83, 168-174). -/
def readAndRunOn (o : ActionOpts) (list : Bool) (f g : FormatKind) (t : Text) (run : NamedIdeal → Outcome Text) : Outcome Text :=
  if rejectsSplit o || (list && !g.supportsList) then .error else onInput (f.readIdeal t) run

/-- `IrreducibleDecomAction::perform` (IrreducibleDecomAction.cpp:50-58). -/
def irrdecomOn (o : ActionOpts) (encode : Bool) (rnd : List ℕ → ℕ → ℕ) (f g : FormatKind) (t : Text) : Outcome Text :=
  readAndRunOn o (!encode) f g t (irrdecomRun g.callWriter o encode rnd)

/-- `PrimaryDecomAction::perform` (PrimaryDecomAction.cpp:43-48). -/
def primdecomOn (o : ActionOpts) (rnd : List ℕ → ℕ → ℕ) (f g : FormatKind) (t : Text) : Outcome Text :=
  readAndRunOn o true f g t (primdecomRun g.callWriter o rnd)

/-- `AssociatedPrimesAction::perform` (AssociatedPrimesAction.cpp:45-50). -/
def assoprimesOn (o : ActionOpts) (rnd : List ℕ → ℕ → ℕ) (f g : FormatKind) (t : Text) : Outcome Text :=
  readAndRunOn o true f g t (assoprimesRun g.callWriter o rnd)

/-- `MaximalStandardAction::perform` (MaximalStandardAction.cpp:54-62). -/
def maxstandardOn (o : ActionOpts) (increment : Bool) (rnd : List ℕ → ℕ → ℕ) (f g : FormatKind) (t : Text) : Outcome Text :=
  readAndRunOn o true f g t (maxstandardRun g.callWriter o increment rnd)

/-- `HilbertAction::perform` (HilbertAction.cpp:64-90). -/
def hilbertOn (o : HilbertOpts) (env : HilbertEnv) (f g : FormatKind) (t : Text) : Outcome Text :=
  match hilbertAlg o with
  | none => .error
  | some a => if !g.supportsPoly then .error else onInput (f.readIdeal t) (hilbertWith (g.polyWriter true) (g.polyWriter false) o env a)

/-- `EulerAction::perform` (EulerAction.cpp:178-241). -/
def eulerOn (o : EulerOptions) (fuel : ℕ) (tape : List ℕ) (f : FormatKind) (t : Text) : Outcome Text := onInput (f.readSquareFreeIdeal t) (eulerRun o fuel tape)

/-- `DimensionAction::perform` without `-useSlice` (DimensionAction.cpp:84-97). -/
def dimensionOn (codim squareFreeAndMinimal : Bool) (f : FormatKind) (t : Text) : Outcome Text :=
  onInput (f.readIdeal t) fun I => .ok (numberLine (computeDimension I.gens codim squareFreeAndMinimal))

/-- `AlexanderDualAction::perform` (AlexanderDualAction.cpp:48-74). -/
def alexdualOn (o : ActionOpts) (rnd : List ℕ → ℕ → ℕ) (f g : FormatKind) (t : Text) : Outcome Text :=
  if rejectsSplit o then .error else onInput (f.readDual t) fun p => dualText o rnd g.callWriter (prepare o p.1) (p.2.map fun a v => (a.getD v 0 : ℤ))

/-- `OptimizeAction::perform` (OptimizeAction.cpp:104-178). -/
def optimizeOn (o : OptimizeOpts) (rnd : List ℕ → ℕ → ℕ) (f g : FormatKind) (t : Text) : Outcome Text :=
  if (validateSplit o.split true true).isNone then .error else onInput (f.readOptimize t) fun p => optimizeIdeal o rnd g.callWriter p.1 p.2

/-- `TransformAction::perform` (TransformAction.cpp:125-221). -/
def transformOn (o : TransformOpts) (f g : FormatKind) (t : Text) : Outcome Text :=
  onInput (f.readIdeals t) fun p => (transformFamily o (p.2, p.1)).map fun s => g.idealsWriter s.1 s.2

/-- `PolyTransformAction::perform` (PolyTransformAction.cpp:55-74). `validateFormats` reports an error for formats without polynomials (IOParameters.cpp:160-183). -/
def ptransformOn (canon sort : Bool) (f g : FormatKind) (t : Text) : Outcome Text :=
  if !g.supportsPoly then .error else onInput (f.readPoly t) fun P => (polyTransform canon sort P).map (g.polyWriter false)

/-- `IntersectionAction::perform` (IntersectionAction.cpp:53-78). -/
def intersectionOn (canon : Bool) (f g : FormatKind) (t : Text) : Outcome Text :=
  onInput (f.readIdeals t) fun p => (intersectIdeals canon p).map g.idealWriter

/-- `AnalyzeAction::perform` (AnalyzeAction.cpp:143-167). -/
def analyzeOn (o : AnalyzeOpts) (f g : FormatKind) (t : Text) : Outcome Text := onInput (f.readIdeal t) (analyzeRun o g.termWriter)

end Frobby

import Verif.CommandModel
import Verif.FormatModel
import Verif.FrobActionModel
import Verif.GenActionModel
import Verif.HelpModel
import Verif.LatticeModel

/-!
# Model of the program from the command line and the input to the output (src/main.cpp)

What is written to the standard error is not modelled here: the messages, what `-time`, `-debug` and `-stats` print, and what `help` prints, for which there is
`helpText`. The actions `latanal` and `test` are left out; they are `none`.
-/

namespace Frobby

/-- `staticGetName` of the formats (Macaulay2IOHandler.cpp:145-147, CoCoA4IOHandler.cpp:160-162, SingularIOHandler.cpp:116-118, MonosIOHandler.cpp:77-79,
NewMonosIOHandler.cpp:78-80, Fourti2IOHandler.cpp:162-164). -/
def formatName : IOFormat → Text
  | .m2 => t!"m2"
  | .cocoa4 => t!"cocoa4"
  | .singular => t!"singular"
  | .monos => t!"monos"
  | .newmonos => t!"newmonos"
  | .fourti2 => t!"4ti2"

/-- `getIOHandlerFactory` (IOHandler.cpp:129-142). -/
def formatFactory : Factory FormatKind :=
  [(t!"m2", .std .m2), (t!"cocoa4", .std .cocoa4), (t!"singular", .std .singular), (t!"monos", .std .monos), (t!"newmonos", .std .newmonos),
    (t!"4ti2", .std .fourti2), (t!"null", .null), (t!"count", .count)]

/-- `createIOHandler` (IOHandler.cpp:145-147). `none` is that an error is reported. -/
def createIOHandler (name : Text) : Option FormatKind :=
  match formatFactory.createWithPrefix name with
  | .ok k => k
  | .error _ => none

/-- `Scanner::getFormat` after the constructor (Scanner.cpp:37-38). -/
def scannerFormat (iformat t : Text) : Text := if iformat = t!"autodetect" then formatName (autoDetect t) else iformat

/-- `createOHandler` (IOHandler.cpp:149-154), and the same in `IOParameters::getOutputFormat` (IOParameters.cpp:113-125). -/
def createOHandler (input output : Text) : Option FormatKind := if output = t!"input" then createIOHandler input else createIOHandler output

/-- What the runs depend on besides the tokens and the input: the random numbers, the hash tables, and bounds on the number of steps. -/
structure MainEnv extends HilbertEnv where
  tape : List ℕ
  eulerFuel : ℕ
  dynFuel : ℕ
  rand : ℕ → ℕ
  genFuel : ℕ

/-- `CommonParamsHelper::readIdealAndSetOutput` and `readIdealAndSetPolyOutput` (CommonParamsHelper.cpp:54-95, 168-174). `supports` is what the writer of the output is
asked for. The format of the input is only looked up, so that reading in the format `count` is an internal error (IOHandlerImpl.cpp:78-80). -/
def throughHelper (iformat oformat t : Text) (supports : FormatKind → Bool) (run : FormatKind → FormatKind → Outcome Text) : Outcome Text :=
  match createOHandler (scannerFormat iformat t) oformat with
  | none => .error
  | some g =>
    if !supports g then .error
    else
      match createIOHandler (scannerFormat iformat t) with
      | none => .error
      | some .count => .crash
      | some f => if f.ends (scannerFormat iformat t) t then run f g else .error

/-- `autoDetectInputFormat` and `validateFormats` for an action with an input (IOParameters.cpp:139-183): `count` does not support input, and all others do. -/
def throughIO (iformat : Text) (t : Text) (run : FormatKind → Outcome Text) : Outcome Text :=
  match createIOHandler (scannerFormat iformat t) with
  | none => .error
  | some .count => .error
  | some f => if f.ends (scannerFormat iformat t) t then run f else .error

/-- The same if there is an output, too. -/
def throughIO₂ (iformat oformat : Text) (t : Text) (run : FormatKind → FormatKind → Outcome Text) : Outcome Text :=
  throughIO iformat t fun f =>
    match createOHandler (scannerFormat iformat t) oformat with
    | none => .error
    | some g => run f g

/-- A run after the parameters have been looked up. A parameter that is not there is an internal error (CliParams.cpp:116-122). -/
def orCrash (r : Option (Outcome Text)) : Option (Outcome Text) := some (r.getD .crash)

/-- `SliceParams` from the command line, without what concerns bounds (SliceParams.cpp:50-59, SliceLikeParams.cpp:34-37, CommonParams.cpp:59-72). -/
def sliceOpts (P : Params) : Option ActionOpts :=
  (getString P t!"split").bind fun split => (getBool P t!"simplify").bind fun simplify => (getBool P t!"canon").bind fun canon =>
    (getBool P t!"minimal").map fun minimal =>
      { split := split, simplify := simplify, independence := (getBool P t!"independence").getD true, canon := canon, minimal := minimal }

/-- The parameters `-iformat` and `-oformat`. -/
def formats (P : Params) : Option (Text × Text) := (getString P t!"iformat").bind fun i => (getString P t!"oformat").map fun o => (i, o)

/-- The parameters of `hilbert` (HilbertAction.cpp:64-90, BigattiParams.cpp:39-44, ScarfParams.cpp:70-75). -/
def hilbertOpts (P : Params) : Option HilbertOpts :=
  (sliceOpts P).bind fun s => (getString P t!"algorithm").bind fun algorithm => (getBool P t!"univariate").bind fun univariate =>
    (getBool P t!"genericBase").bind fun genericBase => (getBool P t!"widenPivot").bind fun widenPivot =>
      (getString P t!"enum").bind fun enumeration => (getString P t!"deformationOrder").bind fun deformation =>
        (getBool P t!"deformStrong").map fun deformStrong =>
          { algorithm := algorithm, univariate := univariate, split := s.split, simplify := s.simplify, independence := s.independence,
            genericBase := genericBase, widenPivot := widenPivot, enumeration := enumeration, deformation := deformation, deformStrong := deformStrong,
            canon := s.canon, minimal := s.minimal }

/-- The parameters of `optimize` (OptimizeAction.cpp:95-104, SliceParams.cpp:50-59). -/
def optimizeOpts (P : Params) : Option OptimizeOpts :=
  (sliceOpts P).bind fun s => (getInt P t!"displayLevel").bind fun displayLevel => (getBool P t!"displayValue").bind fun displayValue =>
    (getBool P t!"maxStandard").bind fun maxStandard => (getBool P t!"chopFirstAndSubtract").bind fun chop => (getBool P t!"minValue").bind fun minValue =>
      (getBool P t!"bound").bind fun bound => (getBool P t!"boundSimplify").map fun boundSimplify =>
        { s with displayLevel := displayLevel, displayValue := displayValue, maxStandard := maxStandard, chopFirstAndSubtract := chop, minValue := minValue,
                 bound := bound, boundSimplify := boundSimplify }

/-- The parameters of `transform` (TransformAction.cpp:107-123). -/
def transformOpts (P : Params) : Option TransformOpts :=
  (getBool P t!"canon").bind fun canon => (getBool P t!"minimize").bind fun minimize => (getBool P t!"sort").bind fun sort =>
    (getBool P t!"unique").bind fun unique => (getBool P t!"deform").bind fun deform => (getBool P t!"radical").bind fun radical =>
      (getBool P t!"product").bind fun product => (getBool P t!"addPurePowers").bind fun pure => (getBool P t!"trimVariables").bind fun trim =>
        (getBool P t!"swap01").bind fun swap01 => (getInt P t!"projectVar").bind fun projectVar => (getBool P t!"transpose").map fun transpose =>
          { canon := canon, sort := sort, unique := unique, minimize := minimize, deform := deform, radical := radical, product := product,
            addPurePowers := pure, trimVariables := trim, transpose := transpose, swap01 := swap01, projectVar := projectVar }

/-- The parameters of `analyze` (AnalyzeAction.cpp:131-141). -/
def analyzeOpts (P : Params) : Option AnalyzeOpts :=
  (getInt P t!"summaryLevel").bind fun level => (getBool P t!"lcm").bind fun lcm => (getBool P t!"varCount").bind fun varCount =>
    (getBool P t!"genCount").bind fun genCount => (getBool P t!"maxExp").bind fun maxExp => (getBool P t!"minimal").map fun minimal =>
      { summaryLevel := level, lcm := lcm, varCount := varCount, genCount := genCount, maxExp := maxExp, minimal := minimal }

/-- The parameters of `euler` (EulerAction.cpp:163-176). -/
def eulerOpts (P : Params) : Option EulerOptions :=
  (getString P t!"pivot").bind fun pivot => (getString P t!"stdPivot").bind fun stdPivot => (getString P t!"genPivot").bind fun genPivot =>
    (getString P t!"autotranspose").bind fun auto => (getBool P t!"uniqueDiv").bind fun uniqueDiv => (getBool P t!"manyDiv").bind fun manyDiv =>
      (getBool P t!"impliedDiv").bind fun impliedDiv => (getBool P t!"swap01").map fun swap01 =>
        { pivot := pivot, stdPivot := stdPivot, genPivot := genPivot, autoTranspose := auto, uniqueDiv := uniqueDiv, manyDiv := manyDiv,
          impliedDiv := impliedDiv, swap01 := swap01 }

/-- The parameters of `genideal` (GenerateIdealAction.cpp:53-61). -/
def genOpts (P : Params) : Option GenOpts :=
  (getInt P t!"expRange").bind fun expRange => (getInt P t!"varCount").bind fun varCount => (getInt P t!"genCount").bind fun genCount =>
    (getString P t!"type").map fun type => { type := type, expRange := expRange, varCount := varCount, genCount := genCount }

/-- `Action::perform` of the actions, for parameters that have been parsed and for the input (IrreducibleDecomAction.cpp:50-58, PrimaryDecomAction.cpp:43-48,
AlexanderDualAction.cpp:48-74, AssociatedPrimesAction.cpp:45-50, MaximalStandardAction.cpp:54-62, DimensionAction.cpp:75-99, HilbertAction.cpp:64-90,
IntersectionAction.cpp:53-78, EulerAction.cpp:178-241, AnalyzeAction.cpp:143-167, OptimizeAction.cpp:106-178, TransformAction.cpp:125-221,
FrobeniusAction.cpp:60-103, DynamicFrobeniusAction.cpp:41-55, GenerateIdealAction.cpp:63-96, GenerateFrobeniusAction.cpp:51-69,
LatticeFormatAction.cpp:61-86). As `genideal` has no input, `input` is not
the name of a format of its output (IOParameters.cpp:113-125). -/
def ActionKind.perform (env : MainEnv) (k : ActionKind) (P : Params) (t : Text) : Option (Outcome Text) :=
  match k with
  | .hilbert => orCrash ((hilbertOpts P).bind fun o => (formats P).map fun (i, out) =>
      if (hilbertAlg o).isNone then .error else throughHelper i out t FormatKind.supportsPoly fun f g => hilbertOn o env.toHilbertEnv f g t)
  | .euler => orCrash ((eulerOpts P).bind fun o => (getString P t!"iformat").map fun i =>
      if (eulerConfig o).isNone then .error else throughIO i t fun f => eulerOn o env.eulerFuel env.tape f t)
  | .irrdecom => orCrash ((sliceOpts P).bind fun o => (getBool P t!"encode").bind fun encode => (formats P).map fun (i, out) =>
      if rejectsSplit o then .error
      else throughHelper i out t (fun g => encode || g.supportsList) fun f g => irrdecomOn o encode env.rnd f g t)
  | .primdecom => orCrash ((sliceOpts P).bind fun o => (formats P).map fun (i, out) =>
      if rejectsSplit o then .error else throughHelper i out t FormatKind.supportsList fun f g => primdecomOn o env.rnd f g t)
  | .assoprimes => orCrash ((sliceOpts P).bind fun o => (formats P).map fun (i, out) =>
      if rejectsSplit o then .error else throughHelper i out t FormatKind.supportsList fun f g => assoprimesOn o env.rnd f g t)
  | .maxstandard => orCrash ((sliceOpts P).bind fun o => (getBool P t!"increment").bind fun increment => (formats P).map fun (i, out) =>
      if rejectsSplit o then .error else throughHelper i out t FormatKind.supportsList fun f g => maxstandardOn o increment env.rnd f g t)
  | .alexdual => orCrash ((sliceOpts P).bind fun o => (formats P).map fun (i, out) =>
      if rejectsSplit o then .error else throughIO₂ i out t fun f g => alexdualOn o env.rnd f g t)
  | .dimension => orCrash ((getBool P t!"codim").bind fun codim => (getBool P t!"squareFreeAndMinimal").bind fun sq => (getBool P t!"useSlice").bind fun useSlice =>
      (getString P t!"iformat").map fun i =>
        if useSlice then dimensionAction codim sq true env.rnd none t
        else throughIO i t fun f => dimensionOn codim sq f t)
  | .optimize => orCrash ((optimizeOpts P).bind fun o => (formats P).map fun (i, out) =>
      if (validateSplit o.split true true).isNone then .error else throughIO₂ i out t fun f g => optimizeOn o env.rnd f g t)
  | .transform => orCrash ((transformOpts P).bind fun o => (formats P).map fun (i, out) => throughIO₂ i out t fun f g => transformOn o f g t)
  | .ptransform => orCrash ((getBool P t!"canon").bind fun canon => (getBool P t!"sort").bind fun sort => (formats P).map fun (i, out) =>
      throughIO₂ i out t fun f g => ptransformOn canon sort f g t)
  | .intersection => orCrash ((getBool P t!"canon").bind fun canon => (formats P).map fun (i, out) =>
      throughIO₂ i out t fun f g => intersectionOn canon f g t)
  | .analyze => orCrash ((analyzeOpts P).bind fun o => (formats P).map fun (i, out) => throughIO₂ i out t fun f g => analyzeOn o f g t)
  | .frobgrob => orCrash ((sliceOpts P).bind fun o => (getBool P t!"vector").map fun vector =>
      frobgrobAction { o with vector := vector } env.rnd t)
  | .frobdyn => some (frobdynAction env.dynFuel t)
  | .genideal => orCrash ((genOpts P).bind fun o => (getString P t!"oformat").map fun out =>
      match createIOHandler out with
      | none => .error
      | some g => genidealText o env.genFuel env.rand g.idealWriter)
  | .genfrob => orCrash ((getInt P t!"entryCount").bind fun entryCount => (getInt P t!"maxEntryDigits").map fun digits =>
      genfrobText entryCount digits env.rand)
  | .latformat => orCrash ((formats P).bind fun (i, out) => (getBool P t!"zero").map fun zero => latformatText zero i out t)
  | _ => none

/-- `HelpAction::perform` (HelpAction.cpp:147-192): it writes to the standard error only. Whether there is an error does not depend on the descriptions. -/
def helpOutcome (topic : Text) : Outcome Text := (helpText ⟨fun _ => [], fun _ _ => []⟩ formatFactory topic).map fun _ => []

/-- `frobbyMain` (main.cpp:35-49) with the handling of exceptions in `main` (main.cpp:91-111). The first argument of the program is not among the tokens. -/
def frobbyMain (env : MainEnv) (toks : List Text) (t : Text) : Option (Outcome Text) :=
  match createAction toks with
  | none => some .error
  | some (k, toks) =>
    match parseAction k toks with
    | .error => some .error
    | .crash => some .crash
    | .ok P => if k = .help then some (helpOutcome (helpTopic toks)) else k.perform env P t

end Frobby

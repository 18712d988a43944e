import Verif.FactoryModel
import Verif.ScanModel
import Verif.ActionModel

/-!
# Model of the command line (src/CliParams.cpp, src/Parameter.cpp, src/BoolParameter.cpp, src/IntegerParameter.cpp, src/StringParameter.cpp, src/Action.cpp)

A token is the text of one argument of the program. The texts of the error messages are not modelled: a reported error is `error`, and an
internal error is `crash`.
-/

namespace Frobby

/-- The value of a `BoolParameter`, `IntegerParameter` or `StringParameter`. -/
inductive PVal
  | bool (b : Bool)
  | int (n : ℕ)
  | str (s : Text)
deriving DecidableEq

/-- `Parameter` without its description. -/
structure Param where
  name : Text
  value : PVal
deriving DecidableEq

/-- `CliParams::_params`. -/
abbrev Params := List Param

/-- The digits that `mpz_set_str` of GMP accepts with base 10: digits and blanks of which the first is a digit. -/
def parseDigits (t : Text) : Option ℕ :=
  if nextIs isDigit t && t.all (fun c => isDigit c || isSpace c) then some (digitsValue (t.filter isDigit)) else none

/-- `FrobbyStringStream::parseInteger` (FrobbyStringStream.cpp:112-116), which is `mpz_set_str` of GMP with base 10: blanks at the beginning, perhaps a minus
sign, and then the digits. -/
def parseMpz (s : Text) : Option ℤ :=
  match eatWhite s with
  | '-' :: t => (parseDigits t).map fun x : ℕ => -(x : ℤ)
  | t => (parseDigits t).map fun x : ℕ => (x : ℤ)

/-- `Parameter::processArguments` (Parameter.cpp:35-48) with `doGetArgumentCountRange` and `doProcessArguments` of the three kinds
(BoolParameter.cpp:41-66, IntegerParameter.cpp:40-66, StringParameter.cpp:35-42). `none` is that an error is reported. -/
def PVal.process (v : PVal) (args : List Text) : Option PVal :=
  match v, args with
  | .bool _, [] => some (.bool true)
  | .bool _, [a] => if a = t!"off" then some (.bool false) else if a = t!"on" then some (.bool true) else none
  | .int _, [a] => (parseMpz a).bind fun z => if 0 ≤ z ∧ z < 4294967296 then some (.int z.toNat) else none
  | .str _, [a] => some (.str a)
  | _, _ => none

/-- `CliParams::processOption` (CliParams.cpp:74-86). -/
def processOption : Params → Text → List Text → Outcome Params
  | [], _, _ => .crash
  | p :: P, name, args =>
    if p.name = name then
      match p.value.process args with
      | none => .error
      | some v => .ok ({ p with value := v } :: P)
    else
      match processOption P name args with
      | .ok P' => .ok (p :: P')
      | .error => .error
      | .crash => .crash

/-- `tokens[i][0] == '-'` (CliParams.cpp:55, 65). -/
def isOption (t : Text) : Bool := nextIs (· = '-') t

/-- `getParamNames` (CliParams.cpp:32-43). -/
def paramNames (P : Params) : Factory Unit := P.map fun p => (p.name, ())

/-- The loop of `CliParams::parseCommandLine` (CliParams.cpp:53-71). The names are looked up once, before the loop. The first argument bounds the
number of options. -/
def parseTokens (names : Factory Unit) : ℕ → Params → List Text → Outcome Params
  | _, P, [] => .ok P
  | 0, _, _ => .crash
  | fuel + 1, P, tok :: toks =>
    if !isOption tok then .error
    else
      match names.uniqueName tok.tail with
      | .error _ => .error
      | .ok name =>
        match processOption P name (toks.takeWhile fun t => !isOption t) with
        | .error => .error
        | .crash => .crash
        | .ok P' => parseTokens names fuel P' (toks.dropWhile fun t => !isOption t)

/-- `CliParams::parseCommandLine` (CliParams.cpp:50-72). -/
def parseCommandLine (P : Params) (toks : List Text) : Outcome Params := parseTokens (paramNames P) toks.length P toks

/-- `CliParams::getParam` (CliParams.cpp:116-122). `none` is an internal error. -/
def getParam : Params → Text → Option PVal
  | [], _ => none
  | p :: P, name => if p.name = name then some p.value else getParam P name

/-- `getBool` (CliParams.cpp:124-128). `none` is that the parameter is not there or is of another kind. -/
def getBool (P : Params) (name : Text) : Option Bool :=
  match getParam P name with
  | some (.bool b) => some b
  | _ => none

/-- `getInt` (CliParams.cpp:136-140). -/
def getInt (P : Params) (name : Text) : Option ℕ :=
  match getParam P name with
  | some (.int n) => some n
  | _ => none

/-- `getString` (CliParams.cpp:130-134). -/
def getString (P : Params) (name : Text) : Option Text :=
  match getParam P name with
  | some (.str s) => some s
  | _ => none

/-- `CliParams::add` for those that are not there yet, in `Action::parseCommandLine` (Action.cpp:140-142). -/
def addParams : Params → Params → Params
  | P, [] => P
  | P, p :: l => addParams (if (getParam P p.name).isSome then P else P ++ [p]) l

/-- `_printActions` (Action.cpp:54). -/
def timeParam : Param := ⟨t!"time", .bool false⟩

/-- The parameters of `SliceParameters` (SliceParameters.cpp:30-111). The arguments are those of the constructor and the default of `-split`. -/
def sliceParameters (bound independence bigatti : Bool) (split : Text) : Params :=
  [⟨t!"minimal", .bool false⟩, ⟨t!"split", .str split⟩, ⟨t!"stats", .bool false⟩] ++
    (if independence then [⟨t!"independence", .bool true⟩] else []) ++
    [⟨t!"simplify", .bool true⟩, ⟨t!"debug", .bool false⟩] ++
    (if bound then [⟨t!"boundSimplify", .bool true⟩, ⟨t!"bound", .bool true⟩] else []) ++
    [⟨t!"canon", .bool false⟩] ++
    (if bigatti then [⟨t!"genericBase", .bool true⟩, ⟨t!"widenPivot", .bool true⟩] else [])

/-- `iformat` (IOParameters.cpp:60-74). -/
def iformatParam : Param := ⟨t!"iformat", .str t!"autodetect"⟩

/-- `oformat` of an action with input (IOParameters.cpp:76-91). -/
def oformatParam : Param := ⟨t!"oformat", .str t!"input"⟩

/-- The actions (Action.cpp:65-93). -/
inductive ActionKind
  | hilbert
  | euler
  | irrdecom
  | primdecom
  | alexdual
  | assoprimes
  | maxstandard
  | dimension
  | optimize
  | transform
  | ptransform
  | intersection
  | genideal
  | frobgrob
  | frobdyn
  | genfrob
  | analyze
  | latformat
  | latanal
  | help
  | test
deriving DecidableEq

/-- `getActionFactory` (Action.cpp:65-93) with the names of the actions. -/
def actionFactory : Factory ActionKind :=
  [(t!"hilbert", .hilbert), (t!"euler", .euler), (t!"irrdecom", .irrdecom), (t!"primdecom", .primdecom), (t!"alexdual", .alexdual),
    (t!"assoprimes", .assoprimes), (t!"maxstandard", .maxstandard), (t!"dimension", .dimension), (t!"optimize", .optimize),
    (t!"transform", .transform), (t!"ptransform", .ptransform), (t!"intersection", .intersection), (t!"genideal", .genideal),
    (t!"frobgrob", .frobgrob), (t!"frobdyn", .frobdyn), (t!"genfrob", .genfrob), (t!"analyze", .analyze), (t!"latformat", .latformat),
    (t!"latanal", .latanal), (t!"help", .help), (t!"test", .test)]

/-- `obtainParameters` of the actions: HilbertAction.cpp:42-61 with `addScarfParams` (ScarfParams.cpp:43-67), EulerAction.cpp:55-176,
IrreducibleDecomAction.cpp:36-48, PrimaryDecomAction.cpp:34-41, AlexanderDualAction.cpp:39-46, AssociatedPrimesAction.cpp:36-43,
MaximalStandardAction.cpp:34-52, DimensionAction.cpp:45-73, OptimizeAction.cpp:57-102, TransformAction.cpp:40-123, PolyTransformAction.cpp:35-51,
IntersectionAction.cpp:39-51, GenerateIdealAction.cpp:40-61, FrobeniusAction.cpp:45-58, DynamicFrobeniusAction.cpp:37-39,
GenerateFrobeniusAction.cpp:32-49, AnalyzeAction.cpp:95-141, LatticeFormatAction.cpp:36-59, LatticeAnalyzeAction.cpp:468-474, HelpAction.cpp:44-45,
TestAction.cpp:33-34. -/
def obtainParameters : ActionKind → Params
  | .hilbert => [timeParam, iformatParam, oformatParam] ++ sliceParameters false true true t!"median" ++
      [⟨t!"univariate", .bool false⟩, ⟨t!"algorithm", .str t!"bigatti"⟩, ⟨t!"deformStrong", .bool false⟩, ⟨t!"enum", .str t!"revlex"⟩,
        ⟨t!"deformationOrder", .str t!"tdeg_lex"⟩]
  | .euler => [iformatParam, ⟨t!"pivot", .str t!"gen"⟩, ⟨t!"stdPivot", .str t!"popvar"⟩, ⟨t!"genPivot", .str t!"raremax"⟩,
      ⟨t!"autotranspose", .str t!"on"⟩, ⟨t!"debug", .bool false⟩, ⟨t!"stats", .bool false⟩, ⟨t!"uniqueDiv", .bool true⟩,
      ⟨t!"manyDiv", .bool true⟩, ⟨t!"impliedDiv", .bool false⟩, ⟨t!"swap01", .bool false⟩, timeParam]
  | .irrdecom => [iformatParam, oformatParam, ⟨t!"encode", .bool false⟩] ++ sliceParameters false true false t!"median" ++ [timeParam]
  | .primdecom => [iformatParam, oformatParam] ++ sliceParameters false true false t!"median" ++ [timeParam]
  | .alexdual => [timeParam] ++ sliceParameters false true false t!"median" ++ [iformatParam, oformatParam]
  | .assoprimes => [iformatParam, oformatParam] ++ sliceParameters false true false t!"median" ++ [timeParam]
  | .maxstandard => [iformatParam, oformatParam] ++ sliceParameters false true false t!"median" ++ [⟨t!"increment", .bool false⟩, timeParam]
  | .dimension => [⟨t!"codim", .bool false⟩, ⟨t!"squareFreeAndMinimal", .bool false⟩, ⟨t!"useSlice", .bool false⟩, iformatParam, timeParam]
  | .optimize => [⟨t!"displayLevel", .int 0⟩, ⟨t!"displayValue", .bool true⟩, ⟨t!"maxStandard", .bool false⟩, ⟨t!"chopFirstAndSubtract", .bool false⟩,
      ⟨t!"minValue", .bool false⟩, iformatParam, oformatParam] ++ sliceParameters true false false t!"degree" ++ [timeParam]
  | .transform => [iformatParam, oformatParam, ⟨t!"canon", .bool false⟩, ⟨t!"minimize", .bool false⟩, ⟨t!"sort", .bool false⟩, ⟨t!"unique", .bool false⟩,
      ⟨t!"deform", .bool false⟩, ⟨t!"radical", .bool false⟩, ⟨t!"product", .bool false⟩, ⟨t!"addPurePowers", .bool false⟩,
      ⟨t!"trimVariables", .bool false⟩, ⟨t!"swap01", .bool false⟩, ⟨t!"projectVar", .int 0⟩, ⟨t!"transpose", .bool false⟩, timeParam]
  | .ptransform => [timeParam, iformatParam, oformatParam, ⟨t!"canon", .bool false⟩, ⟨t!"sort", .bool false⟩]
  | .intersection => [iformatParam, oformatParam, ⟨t!"canon", .bool false⟩, timeParam]
  | .genideal => [timeParam, ⟨t!"oformat", .str t!"m2"⟩, ⟨t!"expRange", .int 9⟩, ⟨t!"varCount", .int 3⟩, ⟨t!"genCount", .int 5⟩,
      ⟨t!"type", .str t!"random"⟩]
  | .frobgrob => [timeParam] ++ sliceParameters true false false t!"frob" ++ [⟨t!"vector", .bool false⟩]
  | .frobdyn => [timeParam]
  | .genfrob => [timeParam, ⟨t!"entryCount", .int 4⟩, ⟨t!"maxEntryDigits", .int 2⟩]
  | .analyze => [⟨t!"summaryLevel", .int 1⟩, ⟨t!"lcm", .bool false⟩, ⟨t!"varCount", .bool false⟩, ⟨t!"genCount", .bool false⟩, ⟨t!"maxExp", .bool false⟩,
      ⟨t!"minimal", .bool false⟩, iformatParam, oformatParam, timeParam]
  | .latformat => [timeParam, ⟨t!"iformat", .str t!"4ti2"⟩, ⟨t!"oformat", .str t!"input"⟩, ⟨t!"zero", .bool false⟩]
  | .latanal => [iformatParam, oformatParam, timeParam]
  | .help => []
  | .test => []

/-- The parameters against which the command line is parsed (Action.cpp:56, 138-142). For `hilbert` they are those that the constructor added. -/
def ActionKind.params (k : ActionKind) : Params :=
  if k = .hilbert then obtainParameters .hilbert else addParams [timeParam] (obtainParameters k)

/-- The lookup of the action (main.cpp:37-46, Action.cpp:109-111) and of the tokens after its name. Without tokens it is `help`. -/
def createAction : List Text → Option (ActionKind × List Text)
  | [] => match actionFactory.createWithPrefix t!"help" with
    | .ok (some k) => some (k, [])
    | _ => none
  | tok :: toks => match actionFactory.createWithPrefix tok with
    | .ok (some k) => some (k, toks)
    | _ => none

/-- `Action::parseCommandLine` (Action.cpp:137-151). Only `help` accepts a token that is not an option (HelpAction.cpp:41-49). -/
def parseAction (k : ActionKind) (toks : List Text) : Outcome Params :=
  match k, toks with
  | .help, tok :: toks => if isOption tok then parseCommandLine k.params (tok :: toks) else parseCommandLine k.params toks
  | _, _ => parseCommandLine k.params toks

end Frobby

import Verif.DisplayModel
import Verif.CommandModel
import Verif.FormatModel

/-!
# Model of the action `help` (src/HelpAction.cpp)

The output is what is written to the standard error. The descriptions of the actions and of their parameters are arbitrary texts here.
-/

namespace Frobby

/-- `getArgumentType` (BoolParameter.cpp:27-29, IntegerParameter.cpp:30-32, StringParameter.cpp:27-29). -/
def argumentType : PVal → Text
  | .bool _ => t!"[BOOL]"
  | .int _ => t!"INTEGER"
  | .str _ => t!"STRING"

/-- `getValueAsString` (BoolParameter.cpp:31-36, IntegerParameter.cpp:34-38, StringParameter.cpp:31-33). -/
def valueText : PVal → Text
  | .bool true => t!"on"
  | .bool false => t!"off"
  | .int n => decimal n
  | .str s => s

/-- The texts that the actions and their parameters are described with. -/
structure Descriptions where
  action : ActionKind → Text
  param : ActionKind → Text → Text

/-- `staticGetName` of the actions; a pointer to the name is `_name` (Action.cpp:47-57, 113-115). -/
def actionName (k : ActionKind) : Text := ((actionFactory.find? fun x => decide (x.2 = k)).map Prod.fst).getD []

/-- `paramCmp` (HelpAction.cpp:53-57), with which the parameters are sorted (HelpAction.cpp:67). -/
def sortParams (P : Params) : Params := P.insertionSort fun a b => textLess b.name a.name = false

/-- `HelpAction::displayActionHelp` (HelpAction.cpp:60-85). -/
def actionHelp (d : Descriptions) (k : ActionKind) : Text :=
  display (t!"Displaying information on action: " ++ actionName k ++ t!"\n\n" ++ d.action k ++ t!"\n") [] ++
    if obtainParameters k = [] then []
    else
      t!"\nThe parameters accepted by " ++ actionName k ++ t!" are as follows.\n" ++
        (sortParams (obtainParameters k)).flatMap fun p =>
          t!"\n -" ++ p.name ++ t!" " ++ argumentType p.value ++ t!"   (default is " ++ valueText p.value ++ t!")\n" ++ display (d.param k p.name) t!"   "

/-- `DataType` without the null type (DataType.cpp:45-62). -/
inductive DataKind
  | ideal
  | list
  | poly
  | binom
deriving DecidableEq

/-- `DataType::getTypes` (DataType.cpp:64-71). -/
def dataKinds : List DataKind := [.ideal, .list, .poly, .binom]

/-- `DataType::getName` (DataType.cpp:45-62). -/
def DataKind.name : DataKind → Text
  | .ideal => t!"a monomial ideal"
  | .list => t!"a list of monomial ideals"
  | .poly => t!"a polynomial"
  | .binom => t!"a saturated binomial ideal"

/-- What is registered with `registerInput` (Macaulay2IOHandler.cpp:137-139, CoCoA4IOHandler.cpp:153-155, SingularIOHandler.cpp:109-111, MonosIOHandler.cpp:71-72,
NewMonosIOHandler.cpp:73-74, Fourti2IOHandler.cpp:153-156, NullIOHandler.cpp:34-36). -/
def FormatKind.inputs : FormatKind → List DataKind
  | .std .m2 => [.ideal, .list, .poly]
  | .std .cocoa4 => [.ideal, .list, .poly]
  | .std .singular => [.ideal, .list, .poly]
  | .std .monos => [.ideal, .list]
  | .std .newmonos => [.ideal, .list]
  | .std .fourti2 => [.ideal, .list, .poly, .binom]
  | .null => [.ideal, .poly, .list]
  | .count => []

/-- What is registered with `registerOutput` (Macaulay2IOHandler.cpp:140-142, CoCoA4IOHandler.cpp:156-157, SingularIOHandler.cpp:112-113, MonosIOHandler.cpp:73-74,
NewMonosIOHandler.cpp:75, Fourti2IOHandler.cpp:157-159, NullIOHandler.cpp:38-40, CountingIOHandler.cpp:103-105). -/
def FormatKind.outputs : FormatKind → List DataKind
  | .std .m2 => [.ideal, .list, .poly]
  | .std .cocoa4 => [.ideal, .poly]
  | .std .singular => [.ideal, .poly]
  | .std .monos => [.ideal, .list]
  | .std .newmonos => [.ideal]
  | .std .fourti2 => [.ideal, .list, .poly]
  | .null => [.ideal, .poly, .list]
  | .count => [.ideal, .poly, .list]

/-- The constructors of the formats (Macaulay2IOHandler.cpp:134-136, CoCoA4IOHandler.cpp:150-152, SingularIOHandler.cpp:106-108, MonosIOHandler.cpp:68-70,
NewMonosIOHandler.cpp:71-72, Fourti2IOHandler.cpp:150-152, NullIOHandler.cpp:31-33, CountingIOHandler.cpp:101-102). -/
def FormatKind.description : FormatKind → Text
  | .std .m2 => t!"Format understandable by the program Macaulay 2."
  | .std .cocoa4 => t!"Format understandable by the program CoCoA 4."
  | .std .singular => t!"Format understandable by the program Singular."
  | .std .monos => t!"Older format used by the program Monos."
  | .std .newmonos => t!"Newer format used by the program Monos."
  | .std .fourti2 => t!"Format used by the software package 4ti2."
  | .null => t!"Ignores input and produces no output."
  | .count => t!"Writes the number of output terms."

/-- A line of the table (HelpAction.cpp:121-140). -/
def supportLine (f : FormatKind) (d : DataKind) : Text :=
  if f.inputs.contains d && f.outputs.contains d then t!"  - supports input and output of " ++ d.name ++ t!".\n"
  else if f.inputs.contains d then t!"  - supports input of " ++ d.name ++ t!".\n"
  else if f.outputs.contains d then t!"  - supports output of " ++ d.name ++ t!".\n"
  else []

/-- The text of `displayIOHelp` before the table (HelpAction.cpp:88-114). -/
def ioHeader : Text :=
  t!"Displaying information on topic: io\n\nFrobby understands several file formats. These are not documented, but they are simple enough that seeing an example should be enough to figure them out. Getting an example is as simple as making Frobby produce output in that format. \n\nIt is true of all the formats that white-space is insignificant, but other than that Frobby is quite fuzzy about how the input must look. E.g. a Macaulay 2 file containing a monomial ideal must start with \"R = \", so writing \"r = \" with a lower-case r is an error. To help with this, Frobby tries to say what is wrong if there is an error.\n\nIf no input format is specified, Frobby will guess at the format, and it will guess correctly if there are no errors in the input. If no output format is specified, Frobby will use the same format for output as for input. If you want to force Frobby to use a specific format, use the -iformat and -oformat options. Using these with the transform action allows translation between formats. \n\nThe formats available in Frobby and the types of data they support are as follows. \n"

/-- `HelpAction::displayIOHelp` (HelpAction.cpp:87-142). The formats come with their names, in the order of these. -/
def ioHelp (formats : Factory FormatKind) : Text :=
  display ioHeader [] ++ (formats.namesWithPrefix []).flatMap fun name =>
    match formats.createWithPrefix name with
    | .ok (some f) => t!"\n* The format " ++ name ++ t!": " ++ f.description ++ t!"\n" ++ dataKinds.flatMap (supportLine f)
    | _ => []

/-- `getShortDescription` (Action.cpp:117-119) with the constructors of the actions. -/
def shortDescription : ActionKind → Text
  | .hilbert => t!"Compute the Hilbert-Poincare series of the input ideal."
  | .euler => t!"Compute the Euler characteristic."
  | .irrdecom => t!"Compute the irreducible decomposition of the input ideal."
  | .primdecom => t!"Compute the primary decomposition of monomial ideals."
  | .alexdual => t!"Compute the Alexander dual of the input ideal."
  | .assoprimes => t!"Compute the associated primes of the input ideal."
  | .maxstandard => t!"Compute the maximal standard monomials of the input ideal."
  | .dimension => t!"Compute the (co)dimension of the input ideal."
  | .optimize => t!"Solve optimization problems related to the input ideal."
  | .transform => t!"Change the representation of the input ideal."
  | .ptransform => t!"Change the representation of the input polynomial."
  | .intersection => t!"Intersect the input ideals."
  | .genideal => t!"Generate a random monomial ideal."
  | .frobgrob => t!"Compute Frobenius number using a Grobner basis algorithm."
  | .frobdyn => t!"Compute Frobenius number using dynamic programming."
  | .genfrob => t!"Generate a random Frobenius problem instance."
  | .analyze => t!"Display information about the input ideal."
  | .latformat => t!"Change the representation of the input lattice."
  | .latanal => t!"Display information about the input ideal."
  | .help => t!"Display this help screen."
  | .test => t!"Perform tests of C++ Frobby library interface."

/-- `displayAction` (Action.cpp:97-99, FrobeniusAction.cpp:109-111, HelpAction.cpp:199-201, LatticeAnalyzeAction.cpp:476-478, TestAction.cpp:54-56). -/
def displayAction : ActionKind → Bool
  | .frobgrob => false
  | .help => false
  | .latanal => false
  | .test => false
  | _ => true

/-- The actions in the table (HelpAction.cpp:171-180). -/
def shownActions : List ActionKind :=
  (actionFactory.namesWithPrefix []).filterMap fun name =>
    match actionFactory.createWithPrefix name with
    | .ok (some k) => if displayAction k then some k else none
    | _ => none

/-- The text before the table (HelpAction.cpp:159-164, frobby.cpp:36). -/
def helpHeader : Text :=
  t!"Frobby version 0.9.9 Copyright (C) 2007 Bjarke Hammersholt Roune\nFrobby performs a number of computations related to monomial ideals.\nYou run it by typing `frobby ACTION', where ACTION is one of the following. \n\n"

/-- The text after the table (HelpAction.cpp:183-191). -/
def helpFooter : Text :=
  t!"\nType 'frobby help ACTION' to get more details on a specific action.\nNote that all input and output is done via the standard streams.\nType 'frobby help io' for more information on input and output formats.\nSee www.broune.com for further information and new versions of Frobby.\n\nFrobby is free software and you are welcome to redistribute it under certain conditions. Frobby comes with ABSOLUTELY NO WARRANTY. See the GNU General Public License version 2.0 in the file COPYING for details.\n"

/-- `HelpAction::perform` without a topic (HelpAction.cpp:157-192). -/
def generalHelp : Text :=
  display (helpHeader ++ printColumns [] [⟨false, t!" ", [], shownActions.flatMap fun k => actionName k ++ ['\n']⟩,
    ⟨true, t!" - ", [], shownActions.flatMap fun k => shortDescription k ++ ['\n']⟩] ++ helpFooter) []

/-- `_topic` (HelpAction.cpp:47-49, Action.cpp:144-148). -/
def helpTopic : List Text → Text
  | [] => []
  | tok :: _ => if isOption tok then [] else tok

/-- `HelpAction::perform` (HelpAction.cpp:147-192): what is written to the standard error. -/
def helpText (d : Descriptions) (formats : Factory FormatKind) (topic : Text) : Outcome Text :=
  if topic ≠ [] then
    if topic = t!"io" then .ok (ioHelp formats)
    else
      match actionFactory.createWithPrefix topic with
      | .ok (some k) => .ok (actionHelp d k)
      | _ => .error
  else .ok generalHelp

end Frobby

import Verif.TransformModel

/-!
# Model of the action `analyze`

`AnalyzeAction`, `IdealFacade::printAnalysis` and `Ideal::isStronglyGeneric`. The output is one text.
-/

namespace Frobby

variable {n : ℕ}

/-- The inner loop of `Ideal::isStronglyGeneric` (Ideal.cpp:110-116). -/
def strongScan (v : Fin n) : (lastExponent : ℕ) → List (Term n) → Bool
  | _, [] => true
  | last, g :: gs => if last ≠ 0 ∧ last = g v then false else strongScan v (g v) gs

/-- The outer loop of `Ideal::isStronglyGeneric` (Ideal.cpp:107-117). The generators are sorted on the way. -/
def strongGenericLoop : List (Fin n) → List (Term n) → Bool × List (Term n)
  | [], G => (true, G)
  | v :: vs, G => if strongScan v 0 (singleDegreeSort v G) then strongGenericLoop vs (singleDegreeSort v G) else (false, singleDegreeSort v G)

/-- `Ideal::isStronglyGeneric` (Ideal.cpp:106-119), with the generators that it leaves. -/
def isStronglyGeneric (G : List (Term n)) : Bool × List (Term n) := strongGenericLoop (List.finRange n) G

/-- `yes` or `no`. -/
def yesNo (b : Bool) : Text := if b then t!"yes" else t!"no"

/-- `IdealFacade::printAnalysis` (IdealFacade.cpp:253-275). -/
def printAnalysis (I : NamedIdeal) : Text :=
  let ideal := (Translator.ofGens I.gens).shrinkIdeal I.gens
  let minimized := minimize ideal
  let strong := isStronglyGeneric minimized
  t!"generators: " ++ decimal ideal.length ++ t!"\n" ++ t!"variables:  " ++ decimal I.names.length ++ t!"\n" ++
    t!"minimally generated: " ++ yesNo (decide (minimized.length = ideal.length)) ++ t!"\n" ++
    t!"strongly generic: " ++ yesNo strong.1 ++ t!"\n" ++ t!"weakly generic: " ++ yesNo (isWeaklyGeneric strong.2) ++ t!"\n"

/-- `doWriteTerm` of the formats (CoCoA4IOHandler.cpp:172-176, Fourti2IOHandler.cpp:178-189, Macaulay2IOHandler.cpp:157-161,
MonosIOHandler.cpp:85-89, NewMonosIOHandler.cpp:86-90, SingularIOHandler.cpp:129-133). -/
def writeTermIn : IOFormat → List Text → List ℕ → Text
  | .cocoa4, _, t => writeTermCoCoA t
  | .fourti2, _, t => (if t = [] then t!"_fourtitwo_identity" else []) ++ writeTerm4ti2 t
  | _, names, t => writeTermProduct names t

/-- `_generatorCount` and `_lcm` of the `AnalyzeConsumer` after all generators (AnalyzeAction.cpp:36-58). -/
def analyzeConsumer (I : NamedIdeal) : ℕ × List ℕ :=
  I.terms.foldl (fun s t => (s.1 + 1, List.zipWith (fun a b => if a < b then b else a) s.2 t)) (0, List.replicate I.names.length 0)

/-- `std::max_element` in `getMaximumExponent` (AnalyzeAction.cpp:75-78), from the largest element so far. -/
def maxElement : ℕ → List ℕ → ℕ
  | largest, [] => largest
  | largest, e :: es => maxElement (if largest < e then e else largest) es

/-- The parameters (AnalyzeAction.cpp:97-128). -/
structure AnalyzeOpts where
  summaryLevel : ℕ := 1
  lcm : Bool := false
  varCount : Bool := false
  genCount : Bool := false
  maxExp : Bool := false
  minimal : Bool := false

/-- `AnalyzeAction::analyzeStreaming` (AnalyzeAction.cpp:190-218) with the writer `w` of a term. -/
def analyzeStreaming (o : AnalyzeOpts) (w : List Text → List ℕ → Text) (names : List Text) (s : ℕ × List ℕ) : Text :=
  (if o.lcm then w names s.2 ++ t!"\n" else []) ++
    (if o.varCount then decimal names.length ++ t!"\n" else []) ++
    (if o.genCount then decimal s.1 ++ t!"\n" else []) ++
    (if o.maxExp then (match s.2 with | [] => t!"0\n" | e :: es => decimal (maxElement e es) ++ t!"\n") else []) ++
    (if o.summaryLevel = 1 then decimal s.1 ++ t!" generators\n" ++ decimal names.length ++ t!" variables\n" else [])

/-- `AnalyzeAction::analyzeIdeal` (AnalyzeAction.cpp:173-188). -/
def analyzeIdeal (o : AnalyzeOpts) (I : NamedIdeal) : Option Text :=
  (if o.minimal then I.facadeMinimize.map fun J => (if I.terms.length = J.terms.length then t!"1\n" else t!"0\n", J) else some ([], I)).map fun s =>
    s.1 ++ if o.summaryLevel ≥ 2 then printAnalysis s.2 else []

/-- `AnalyzeAction::perform` (AnalyzeAction.cpp:143-167) for the ideal that has been read, with the writer `w` of a term. -/
def analyzeRun (o : AnalyzeOpts) (w : List Text → List ℕ → Text) (I : NamedIdeal) : Outcome Text :=
  if o.minimal || decide (o.summaryLevel > 1) then
    match analyzeIdeal o I with
    | none => .crash
    | some u => .ok (analyzeStreaming o w I.names (analyzeConsumer I) ++ u)
  else .ok (analyzeStreaming o w I.names (analyzeConsumer I))

/-- `AnalyzeAction::perform` (AnalyzeAction.cpp:143-167) with input in the format `f` and output in the format `g`. -/
def analyzeText (o : AnalyzeOpts) (f g : IOFormat) (t : Text) : Outcome Text :=
  match readIdeal f t with
  | none => .error
  | some I => analyzeRun o (writeTermIn g) I

end Frobby

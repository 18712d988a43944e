import Verif.OptModel
import Verif.ActionModel
import Verif.DimensionActionModel

/-!
# Model of the action `optimize` (src/OptimizeAction.cpp)
-/

namespace Frobby

variable {n : ℕ}

/-- `IOFacade::readVector` (IOFacade.cpp:255-264). -/
def readVector : ℕ → Text → Option (List ℤ × Text)
  | 0, t => some ([], t)
  | k + 1, t => (readInteger t).bind fun p => (readVector k p.2).map fun q => (p.1 :: q.1, q.2)

/-- The input of `optimize` (OptimizeAction.cpp:108-123): an ideal, and a vector that can be left out. -/
def readOptimizeInstance (f : IOFormat) (t : Text) : Option (NamedIdeal × List ℤ) :=
  (readConsumer false f t).bind fun p =>
    if matchEOF p.2 then some (p.1.release, List.replicate p.1.release.names.length 1)
    else (readVector p.1.release.names.length p.2).bind fun q => if matchEOF q.2 then some (p.1.release, q.1) else none

/-- The options of `optimize` (OptimizeAction.cpp:57-90, SliceParameters.cpp:27-94). -/
structure OptimizeOpts extends ActionOpts where
  split := t!"degree"
  displayLevel : ℕ := 0
  displayValue : Bool := true
  maxStandard : Bool := false
  chopFirstAndSubtract : Bool := false
  minValue : Bool := false
  bound : Bool := true
  boundSimplify : Bool := true

/-- The parameters of the facade (SliceParams.cpp:49-59, SliceFacade.cpp:382-396). `-boundSimplify` is stored in place of `-bound`, so that
`getUseBoundSimplification` is always true. Independence splits are turned off. -/
def OptimizeOpts.params (o : OptimizeOpts) : OptParams :=
  { opts := { simp := o.simplify, indep := false, split := (createSplit o.split).getD .median }
    boundElimination := o.boundSimplify, boundSimplification := true, all := decide (2 ≤ o.displayLevel) }

/-- `BigIdeal::eraseVar(0)` (BigIdeal.cpp:233-251). -/
def NamedIdeal.eraseFirst (I : NamedIdeal) : NamedIdeal := { names := I.names.tail, terms := I.terms.map List.tail }

/-- The translator and the ideal for `solveProgram` (SliceFacade.cpp:336-360). -/
def programInput (maxStandard : Bool) (p : Prepared n) : Translator n × List (Term n) :=
  if maxStandard then (p.translator.decrement, p.ideal)
  else (p.translator, if contains p.ideal 0 then p.ideal else p.translator.addPurePowers p.ideal)

/-- `SliceFacade::solveProgram` (SliceFacade.cpp:375-427) with the consumer that writes the solutions: the value, and the text of the
solutions. `d` is not in the order of the variables of `p` if those were sorted. -/
def solveProgramText (p : OptParams) (rnd : List ℕ → ℕ → ℕ) (canon : Bool) (w : CallWriter) (names : List Text) (T : Translator n) (I : List (Term n))
    (d : Fin n → ℤ) : Option (Option ℤ × Text) :=
  (optRun { grader := Grader.new d T, opts := p.opts, all := p.all, bound := p.bound } rnd I).bind fun st =>
    (outputWith canon false w names T (idealEvents st.sols)).map fun s => (if st.sols.isEmpty then none else some st.maxValue, s)

/-- `OptimizeAction::perform` for the ideal and the vector of the program (OptimizeAction.cpp:138-178). With `-displayLevel 0` the solutions go
to a consumer that writes nothing. -/
def optimizeProgram (o : OptimizeOpts) (rnd : List ℕ → ℕ → ℕ) (w : CallWriter) (I : NamedIdeal) (v : List ℤ) (subtract : ℤ) : Outcome Text :=
  let v := if o.minValue then v.map fun x => -x else v
  let p := prepare o.toActionOpts I
  let q := programInput o.maxStandard p
  match solveProgramText o.params rnd o.canon w p.names q.1 q.2 fun i => v.getD i 0 with
  | none => .crash
  | some (value, s) =>
    .ok ((if o.displayLevel = 0 then [] else s) ++
      if o.displayValue then
        match value with
        | none => t!"no solution.\n"
        | some x => numberLine ((if o.minValue then -x else x) - subtract)
      else [])

/-- `OptimizeAction::perform` after the input has been read (OptimizeAction.cpp:125-136). -/
def optimizeIdeal (o : OptimizeOpts) (rnd : List ℕ → ℕ → ℕ) (w : CallWriter) (I : NamedIdeal) (v : List ℤ) : Outcome Text :=
  if o.chopFirstAndSubtract && !v.isEmpty then optimizeProgram o rnd w I.eraseFirst v.tail (v.headD 0)
  else optimizeProgram o rnd w I v 0

/-- `OptimizeAction::perform` (OptimizeAction.cpp:104-178) with the writer `w` for the solutions. -/
def optimizeWith (w : CallWriter) (o : OptimizeOpts) (rnd : List ℕ → ℕ → ℕ) (f : IOFormat) (t : Text) : Outcome Text :=
  if (validateSplit o.split true true).isNone then .error
  else
    match readOptimizeInstance f t with
    | none => .error
    | some (I, v) => optimizeIdeal o rnd w I v

/-- `OptimizeAction::perform` (OptimizeAction.cpp:104-178) with the writer of a format. -/
def optimizeAction (o : OptimizeOpts) (rnd : List ℕ → ℕ → ℕ) (f g : IOFormat) (t : Text) : Outcome Text := optimizeWith (runWriter g) o rnd f t

end Frobby

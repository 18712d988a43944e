import Verif.CommandSpec
import Verif.MainModel
import Verif.GrammarSpec

/-!
# What is asked for on the command line

The action, the values of its options and the formats, by names and their abbreviations.
-/

namespace Frobby

/-- The tokens ask for the action with these options. -/
def Invokes (toks : List Text) (k : ActionKind) (os : List (Text × List Text)) : Prop :=
  ∃ tok rest x, toks = tok :: rest ∧ StandsFor (actionFactory.map Prod.fst) tok x ∧ (x, k) ∈ actionFactory ∧ Accepts k.params rest os

/-- The action has the option, and its value is `v`. -/
def Given (k : ActionKind) (os : List (Text × List Text)) (name : Text) (v : PVal) : Prop := ∃ p ∈ k.params, p.name = name ∧ HasValue os p v

/-- The text stands for the format. -/
def NamesFormat (x : Text) (k : FormatKind) : Prop := ∃ name, StandsFor (formatFactory.map Prod.fst) x name ∧ (name, k) ∈ formatFactory

/-- The format of the input is the one that `-iformat` names, or the one guessed. -/
def InputIs (iformat t : Text) (k : FormatKind) : Prop :=
  iformat = t!"autodetect" ∧ k = .std (autoDetect t) ∨ iformat ≠ t!"autodetect" ∧ NamesFormat iformat k

/-- The format of the output is the one that `-oformat` names, or that of the input. -/
def OutputIs (iformat oformat t : Text) (k : FormatKind) : Prop :=
  oformat = t!"input" ∧ InputIs iformat t k ∨ oformat ≠ t!"input" ∧ NamesFormat oformat k

/-- The options `-iformat` and `-oformat` ask for these formats. -/
def Formats (k : ActionKind) (os : List (Text × List Text)) (t : Text) (f g : IOFormat) : Prop :=
  ∃ i out, Given k os t!"iformat" (.str i) ∧ Given k os t!"oformat" (.str out) ∧ InputIs i t (.std f) ∧ OutputIs i out t (.std g)

/-- The input is read in the format. Nothing may follow what is read, except with `-iformat null`. -/
def ReadsAs (iformat t : Text) (k : FormatKind) : Prop := InputIs iformat t k ∧ k ≠ .count ∧ (k = .null → iformat = t!"null" ∨ Blank t)

/-- The options `-iformat` and `-oformat` ask for these formats, which may be `null` and `count`. -/
def FormatsOf (k : ActionKind) (os : List (Text × List Text)) (t : Text) (f g : FormatKind) : Prop :=
  ∃ i out, Given k os t!"iformat" (.str i) ∧ Given k os t!"oformat" (.str out) ∧ ReadsAs i t f ∧ OutputIs i out t g

/-- The values of the options `-split`, `-simplify`, `-independence`, `-canon` and `-minimal`. -/
structure GivenSlice (k : ActionKind) (os : List (Text × List Text)) (o : ActionOpts) : Prop where
  split : Given k os t!"split" (.str o.split)
  simplify : Given k os t!"simplify" (.bool o.simplify)
  canon : Given k os t!"canon" (.bool o.canon)
  minimal : Given k os t!"minimal" (.bool o.minimal)
  independence : Given k os t!"independence" (.bool o.independence) ∨ t!"independence" ∉ k.params.map Param.name ∧ o.independence = true

/-- The values of the options of `hilbert`. -/
structure GivenHilbert (os : List (Text × List Text)) (o : HilbertOpts) : Prop where
  slice : GivenSlice .hilbert os ⟨o.split, o.simplify, o.independence, o.canon, o.minimal⟩
  algorithm : Given .hilbert os t!"algorithm" (.str o.algorithm)
  univariate : Given .hilbert os t!"univariate" (.bool o.univariate)
  genericBase : Given .hilbert os t!"genericBase" (.bool o.genericBase)
  widenPivot : Given .hilbert os t!"widenPivot" (.bool o.widenPivot)
  enumeration : Given .hilbert os t!"enum" (.str o.enumeration)
  deformation : Given .hilbert os t!"deformationOrder" (.str o.deformation)
  deformStrong : Given .hilbert os t!"deformStrong" (.bool o.deformStrong)

/-- The values of the options of `optimize`. -/
structure GivenOptimize (os : List (Text × List Text)) (o : OptimizeOpts) : Prop where
  slice : GivenSlice .optimize os o.toActionOpts
  displayLevel : Given .optimize os t!"displayLevel" (.int o.displayLevel)
  displayValue : Given .optimize os t!"displayValue" (.bool o.displayValue)
  maxStandard : Given .optimize os t!"maxStandard" (.bool o.maxStandard)
  chop : Given .optimize os t!"chopFirstAndSubtract" (.bool o.chopFirstAndSubtract)
  minValue : Given .optimize os t!"minValue" (.bool o.minValue)
  bound : Given .optimize os t!"bound" (.bool o.bound)
  boundSimplify : Given .optimize os t!"boundSimplify" (.bool o.boundSimplify)

/-- The values of the options of `transform`. -/
structure GivenTransform (os : List (Text × List Text)) (o : TransformOpts) : Prop where
  canon : Given .transform os t!"canon" (.bool o.canon)
  sort : Given .transform os t!"sort" (.bool o.sort)
  unique : Given .transform os t!"unique" (.bool o.unique)
  minimize : Given .transform os t!"minimize" (.bool o.minimize)
  deform : Given .transform os t!"deform" (.bool o.deform)
  radical : Given .transform os t!"radical" (.bool o.radical)
  product : Given .transform os t!"product" (.bool o.product)
  addPurePowers : Given .transform os t!"addPurePowers" (.bool o.addPurePowers)
  trimVariables : Given .transform os t!"trimVariables" (.bool o.trimVariables)
  transpose : Given .transform os t!"transpose" (.bool o.transpose)
  swap01 : Given .transform os t!"swap01" (.bool o.swap01)
  projectVar : Given .transform os t!"projectVar" (.int o.projectVar)

/-- The values of the options of `analyze`. -/
structure GivenAnalyze (os : List (Text × List Text)) (o : AnalyzeOpts) : Prop where
  summaryLevel : Given .analyze os t!"summaryLevel" (.int o.summaryLevel)
  lcm : Given .analyze os t!"lcm" (.bool o.lcm)
  varCount : Given .analyze os t!"varCount" (.bool o.varCount)
  genCount : Given .analyze os t!"genCount" (.bool o.genCount)
  maxExp : Given .analyze os t!"maxExp" (.bool o.maxExp)
  minimal : Given .analyze os t!"minimal" (.bool o.minimal)

/-- The values of the options of `euler`. -/
structure GivenEuler (os : List (Text × List Text)) (o : EulerOptions) : Prop where
  pivot : Given .euler os t!"pivot" (.str o.pivot)
  stdPivot : Given .euler os t!"stdPivot" (.str o.stdPivot)
  genPivot : Given .euler os t!"genPivot" (.str o.genPivot)
  autoTranspose : Given .euler os t!"autotranspose" (.str o.autoTranspose)
  uniqueDiv : Given .euler os t!"uniqueDiv" (.bool o.uniqueDiv)
  manyDiv : Given .euler os t!"manyDiv" (.bool o.manyDiv)
  impliedDiv : Given .euler os t!"impliedDiv" (.bool o.impliedDiv)
  swap01 : Given .euler os t!"swap01" (.bool o.swap01)

/-- The values of the options of `genideal`. -/
structure GivenGen (os : List (Text × List Text)) (o : GenOpts) : Prop where
  expRange : Given .genideal os t!"expRange" (.int o.expRange)
  varCount : Given .genideal os t!"varCount" (.int o.varCount)
  genCount : Given .genideal os t!"genCount" (.int o.genCount)
  type : Given .genideal os t!"type" (.str o.type)

end Frobby

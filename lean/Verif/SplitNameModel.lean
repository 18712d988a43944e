import Verif.FactoryModel
import Verif.StrategyModel

/-!
# Model of the names of split strategies on the command line
-/

namespace Frobby

/-- `getSplitFactory` (SplitStrategy.cpp:478-494). The strategy `frob` is `degree` under an old name (SplitStrategy.cpp:454-473). -/
def splitFactory : Factory Split :=
  [("maxlabel".toList, .maxlabel), ("minlabel".toList, .minlabel), ("varlabel".toList, .varlabel), ("minimum".toList, .minimum),
    ("median".toList, .median), ("maximum".toList, .maximum), ("mingen".toList, .mingen), ("indep".toList, .indep), ("gcd".toList, .gcd),
    ("degree".toList, .degree), ("frob".toList, .degree)]

/-- `SplitStrategy::createStrategy` (SplitStrategy.cpp:497-501). `none` is that an exception is thrown. -/
def createSplit (name : Text) : Option Split :=
  match splitFactory.createWithPrefix name with
  | .ok s => s
  | .error _ => none

/-- `validateSplit` (SliceParams.cpp:61-85). `none` is that an error is reported. The names `degree` and `frob` are compared with what was
given on the command line, which may be a prefix of a name. -/
def validateSplit (name : Text) (allowLabel allowDegree : Bool) : Option Split :=
  match createSplit name with
  | none => none
  | some s =>
    if !allowLabel && s.isLabel then none
    else if !allowDegree && decide (name = "degree".toList) then none
    else if !allowDegree && decide (name = "frob".toList) then none
    else some s

end Frobby

import Verif.GenModel
import Verif.FrobActionModel
import Verif.IOModel

/-!
# Model of the actions `genideal` and `genfrob` (src/GenerateIdealAction.cpp, src/GenerateFrobeniusAction.cpp)
-/

namespace Frobby

/-- The options of `genideal` (GenerateIdealAction.cpp:40-48). The numbers are of type `unsigned int`. -/
structure GenOpts where
  type : Text
  expRange : ℕ
  varCount : ℕ
  genCount : ℕ

/-- `BigIdeal::insert` of an ideal into an ideal with the given names (BigIdeal.cpp:60-69). -/
def bigIdealOf {n : ℕ} (names : List Text) (G : List (Term n)) : NamedIdeal := { names := names, terms := G.map fun g => List.ofFn g }

/-- The choice of the generator in `GenerateIdealAction::perform` (GenerateIdealAction.cpp:69-87, GenerateDataFacade.cpp:27-109). That the fuel runs out is the
outcome `crash`, as is the remainder of a division by zero in `generateRandomEdgeIdeal` (randomDataGenerators.cpp:402). -/
def generatedIdeal (o : GenOpts) (fuel : ℕ) (rnd : ℕ → ℕ) : Outcome NamedIdeal :=
  if o.type = t!"random" then .ok (bigIdealOf (defaultNames o.varCount) (randomIdeal rnd o.expRange o.varCount o.genCount).1)
  else if o.type = t!"list" then .ok (bigIdealOf (defaultNames o.varCount) (linkedListIdeal o.varCount))
  else if o.type = t!"edge" then
    match randomEdgeIdeal fuel rnd o.varCount o.genCount with
    | none => .crash
    | some x => .ok (bigIdealOf (defaultNames o.varCount) x.1)
  else if o.type = t!"king" then
    match kingIdeal o.varCount with
    | none => .error
    | some x => .ok (bigIdealOf x.1 x.2)
  else if o.type = t!"knight" then
    match knightIdeal o.varCount with
    | none => .error
    | some x => .ok (bigIdealOf x.1 x.2)
  else if o.type = t!"rook" then
    if o.varCount = 0 ∨ o.genCount = 0 ∨ o.varCount > 1000 ∨ o.genCount > 1000 then .error
    else
      match rookIdeal fuel o.varCount o.genCount with
      | none => .crash
      | some G => .ok (bigIdealOf (defaultNames (min o.varCount o.genCount * max o.varCount o.genCount)) G)
  else if o.type = t!"matching" then
    if o.varCount = 0 ∨ o.varCount > 1000 then .error
    else
      match matchingIdeal fuel o.varCount with
      | none => .crash
      | some G => .ok (bigIdealOf (defaultNames (o.varCount * (o.varCount - 1) / 2)) G)
  else if o.type = t!"tree" then
    match treeIdeal fuel o.varCount with
    | none => .crash
    | some G => .ok (bigIdealOf (defaultNames o.varCount) G)
  else .error

/-- `GenerateIdealAction::perform` (GenerateIdealAction.cpp:63-96), from the ideal on. `writer` is `consume` of the writer of the format (IOFacade.cpp:156-166). -/
def genidealText (o : GenOpts) (fuel : ℕ) (rnd : ℕ → ℕ) (writer : NamedIdeal → Text) : Outcome Text :=
  match generatedIdeal o fuel rnd with
  | .ok I => .ok (writer I)
  | .error => .error
  | .crash => .crash

/-- `GenerateFrobeniusAction::perform` (GenerateFrobeniusAction.cpp:51-69) with `generateRandomFrobeniusInstance` (randomDataGenerators.cpp:460-490). `z i` is the random
number in the call `random.get_z_range` with number `i`, before it is brought into the range. -/
def genfrobText (entryCount maxEntryDigits : ℕ) (z : ℕ → ℕ) : Outcome Text :=
  if entryCount < 1 then .error
  else if maxEntryDigits < 1 then .error
  else .ok (writeFrobeniusInstance (generateFrobenius ((List.range entryCount).map fun i => ((z i % 10 ^ maxEntryDigits : ℕ) : ℤ) + 1)))

end Frobby

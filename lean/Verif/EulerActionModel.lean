import Verif.EulerModel
import Verif.DimensionActionModel

/-!
# Model of the action `euler` on texts (src/EulerAction.cpp)
-/

namespace Frobby

/-- The `SquareFreeIdeal` that `InputConsumer` makes of the generators (InputConsumer.cpp:50-57, 103-136): the variables that divide a
generator are those with the exponent one. -/
def NamedIdeal.toSq (I : NamedIdeal) : SqIdeal :=
  ⟨I.names.length, I.terms.map fun e => (Finset.range I.names.length).filter fun i => e.getD i 0 ≠ 0⟩

/-- `EulerAction::perform` (EulerAction.cpp:178-241) for the ideal that has been read. `fuel` bounds the number of steps and `tape` is the random numbers; `crash` is also
that one of them ends. -/
def eulerRun (o : EulerOptions) (fuel : ℕ) (tape : List ℕ) (I : NamedIdeal) : Outcome Text :=
  match eulerAction o fuel I.toSq tape with
  | none => .error
  | some (.error _) => .crash
  | some (.ok χ) => .ok (numberLine χ)

/-- `EulerAction::perform` (EulerAction.cpp:178-241). -/
def eulerText (o : EulerOptions) (fuel : ℕ) (tape : List ℕ) (f : IOFormat) (t : Text) : Outcome Text :=
  match readSquareFreeIdeal f t with
  | none => .error
  | some I => eulerRun o fuel tape I

end Frobby

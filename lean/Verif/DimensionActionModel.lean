import Verif.IOModel
import Verif.DimModel
import Verif.OptModel
import Verif.ActionModel

/-!
# Model of the action `dimension` (src/DimensionAction.cpp)
-/

namespace Frobby

/-- The format in which the input is read: the one given, or the one guessed if none is given (Scanner.cpp:37-38,
IOParameters.cpp:137-148). -/
def inputFormat (f : Option IOFormat) (t : Text) : IOFormat := f.getD (autoDetect t)

/-- A number on a line of its own, as `gmp_fprintf` with `%Zd\n` prints it (DimensionAction.cpp:98). -/
def numberLine (x : ℤ) : Text := decimalInt x ++ t!"\n"

/-- `DimensionAction::perform` (DimensionAction.cpp:75-99). With `-useSlice` the parameters are the defaults (SliceParams.cpp:24-29,
CommonParams.cpp:24-32), so that the format is guessed even if one is given, and nothing but `-codim` has an effect. -/
def dimensionAction (codim squareFreeAndMinimal useSlice : Bool) (rnd : List ℕ → ℕ → ℕ) (f : Option IOFormat) (t : Text) : Outcome Text :=
  if useSlice then
    match readIdeal (inputFormat none t) t with
    | none => .error
    | some I => .ofOption ((sliceDimension apiOptParams rnd codim I.gens).map numberLine)
  else
    match readIdeal (inputFormat f t) t with
    | none => .error
    | some I => .ok (numberLine (computeDimension I.gens codim squareFreeAndMinimal))

end Frobby

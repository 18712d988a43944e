import Verif.TransformModel

/-!
# Model of the action `intersection` (src/IntersectionAction.cpp)
-/

namespace Frobby

/-- The intersection in `IntersectionAction::perform` (IntersectionAction.cpp:64-73). A `BigIdeal` has integers as exponents; those of an ideal are not negative. -/
def intersectIdeals (canon : Bool) (p : List NamedIdeal × List Text) : Outcome NamedIdeal :=
  match facadeIntersect p.1 p.2 with
  | none => .crash
  | some (N, ts) =>
    let R : NamedIdeal := ⟨N, ts.map fun e => e.map Int.toNat⟩
    .ok (if canon then R.sortVariables.sortGenerators else R)

/-- `IntersectionAction::perform` (IntersectionAction.cpp:53-78). -/
def intersectionAction (canon : Bool) (f g : IOFormat) (t : Text) : Outcome Text :=
  match readIdeals f t with
  | none => .error
  | some p => (intersectIdeals canon p).map (writeIdeal g)

end Frobby

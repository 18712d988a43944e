import Verif.PolyIOModel
import Verif.TransformModel
import Verif.HilbertActionModel

/-!
# Model of the action `ptransform` (src/PolyTransformAction.cpp)
-/

namespace Frobby

/-- `BigPolynomial::sortVariables` (BigPolynomial.cpp:50-55) with `VarSorter` (VarSorter.cpp:24-61). -/
def NamedPoly.sortVariables (P : NamedPoly) : NamedPoly :=
  { names := NamedIdeal.orderedNames P.names, terms := P.terms.map fun p => (p.1, (NamedIdeal.varPermutation P.names).map fun i => p.2.getD i 0) }

/-- The loop of `BigPolynomial::compareCoefTermsReverseLex` (BigPolynomial.cpp:153-155). `none` is that there is no difference. -/
def compareExponents : List ℕ → List ℕ → Option Bool
  | a :: as, b :: bs => if a ≠ b then some (decide (a > b)) else compareExponents as bs
  | _, _ => none

/-- `BigPolynomial::compareCoefTermsReverseLex` (BigPolynomial.cpp:151-157). -/
def compareCoefTerms (a b : ℤ × List ℕ) : Bool :=
  match compareExponents a.2 b.2 with
  | some r => r
  | none => decide (a.1 < b.1)

/-- `BigPolynomial::sortTermsReverseLex` (BigPolynomial.cpp:46-48). -/
def NamedPoly.sortTerms (P : NamedPoly) : NamedPoly := { P with terms := P.terms.insertionSort fun a b => compareCoefTerms b a = false }

/-- The polynomial that `PolyTransformAction::perform` writes (PolyTransformAction.cpp:60-70). A term whose length is not the number of variables
breaks the assertion in `BigPolynomial::add` (BigPolynomial.cpp:102), and without assertions the names are read past their end (VarNames.cpp:100-104).
For a polynomial without terms, the assertion on the number of names (BigPolynomial.cpp:96) is not modelled. -/
def polyTransform (canon sort : Bool) (P : NamedPoly) : Outcome NamedPoly :=
  if P.terms.all fun p => p.2.length = P.names.length then
    let P := if canon then P.sortVariables else P
    .ok (if sort || canon then P.sortTerms else P)
  else .crash

/-- `PolyTransformAction::perform` (PolyTransformAction.cpp:55-74), after the formats have been chosen. -/
def ptransformText (canon sort : Bool) (f g : IOFormat) (t : Text) : Outcome Text :=
  match polyFormat f, polyFormat g with
  | some f, some g =>
    match readPoly f t with
    | none => .error
    | some P => (polyTransform canon sort P).map (writePoly g)
  | _, _ => .error

end Frobby

import Verif.TransformSpec
import Verif.PolyIOModel

/-!
# Specification: the terms of a polynomial without regard to the order of the variables
-/

namespace Frobby

/-- The terms, each with its coefficient and with its exponents as a function of the name of the variable. -/
def NamedPoly.monomials (P : NamedPoly) : List (ℤ × (Text → ℕ)) := P.terms.map fun p => (p.1, expOf P.names p.2)

/-- The terms are in decreasing lexicographic order, and those with the same exponents in increasing order of the coefficients. -/
def NamedPoly.SortedTerms (P : NamedPoly) : Prop := P.terms.Pairwise fun a b => b.2 < a.2 ∨ a.2 = b.2 ∧ a.1 ≤ b.1

/-- Each term has an exponent for each variable. -/
def NamedPoly.FullTerms (P : NamedPoly) : Prop := ∀ p ∈ P.terms, p.2.length = P.names.length

end Frobby

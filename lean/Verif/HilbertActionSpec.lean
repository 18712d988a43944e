import Verif.Spec
import Verif.TransformSpec
import Verif.PolyIOModel
import Mathlib.SetTheory.Cardinal.Finite

/-!
# What the action `hilbert` is to print

Monomials are functions from names to exponents here, so that the order of the variables does not matter.
-/

namespace Frobby

namespace NamedIdeal

/-- The coefficient of the monomial in the power series of the polynomial divided by the product of `1 - x` for all variables `x`: the sum of
the coefficients of the terms that divide the monomial. -/
def seriesAt (P : NamedPoly) (m : Text → ℕ) : ℤ :=
  ((P.terms.filter fun x : ℤ × List ℕ => decide (∀ p ∈ P.names.zip x.2, p.2 ≤ m p.1)).map (·.1)).sum

/-- The polynomial is the numerator of the Hilbert-Poincaré series of the ideal, which is the sum of the monomials that are not in the ideal.
Each monomial occurs once in it and no coefficient is zero. -/
structure HilbertNumerator (I : NamedIdeal) (P : NamedPoly) : Prop where
  names : P.names.Perm I.names
  length : ∀ x ∈ P.terms, x.2.length = P.names.length
  reduced : Reduced P.terms
  inside : ∀ m, I.mem m → seriesAt P m = 0
  outside : ∀ m, ¬ I.mem m → seriesAt P m = 1

/-- The polynomial is what becomes of the numerator when `t` is put in for all variables. Its power series, divided by the product of `1 - t`
for all variables of the ring, has as coefficients the numbers of monomials of each degree that are not in the ideal. -/
structure UnivariateNumerator (I : NamedIdeal) (Q : NamedPoly) : Prop where
  names : Q.names = [t!"t"]
  length : ∀ x ∈ Q.terms, x.2.length = 1
  reduced : Reduced Q.terms
  subst : ∀ P, I.HilbertNumerator P → ∀ d, coefOf Q.terms [d] = coefOf (P.terms.map fun x => (x.1, x.2.sum)) d
  counts : ∀ d, uniSeriesCoef I.names.length (Q.terms.map fun x => (x.1, x.2.sum)) d =
    Nat.card { t : List ℕ // t.length = I.names.length ∧ t.sum = d ∧ ¬ I.mem (expOf I.names t) }

/-- The variables are in increasing order and the terms in decreasing lexicographic order. -/
structure CanonicalPoly (P : NamedPoly) : Prop where
  names : P.names.Pairwise (· < ·)
  terms : P.terms.Pairwise fun a b => b.2 < a.2

/-- Every exponent of a generator is an exponent of a generator that no other generator divides. -/
def TightGens (I : NamedIdeal) : Prop :=
  ∀ f ∈ I.monomials, ∀ x, 0 < f x → ∃ h ∈ I.monomials, (∀ k ∈ I.monomials, (∀ y, k y ≤ h y) → k = h) ∧ h x = f x

end NamedIdeal

end Frobby

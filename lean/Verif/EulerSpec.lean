import Mathlib.Data.Finset.Powerset
import Mathlib.Data.Finset.Range
import Mathlib.Algebra.BigOperators.Group.Finset.Basic
import Mathlib.Algebra.Ring.Int.Defs

/-!
# What an Euler characteristic is

Written without the model of the code. A square free monomial in `n` variables is a set of variables below `n`.
-/

namespace Frobby

/-- The faces of the simplicial complex `D` such that the ideal with the given generators is the dual of the Stanley-Reisner ideal
of `D`: a set is a face if the product of the variables that are not in it is in the ideal. -/
def dualFaces (n : ℕ) (gens : List (Finset ℕ)) : Finset (Finset ℕ) :=
  (Finset.range n).powerset.filter fun F => ∃ g ∈ gens, g ⊆ Finset.range n \ F

/-- The faces of the simplicial complex with the given facets: the subsets of facets. -/
def facetFaces (n : ℕ) (facets : List (Finset ℕ)) : Finset (Finset ℕ) :=
  (Finset.range n).powerset.filter fun F => ∃ f ∈ facets, F ⊆ f

/-- The (reduced) Euler characteristic: the sum of `(-1) ^ dim F` on the faces, where the dimension of a face is one less than the
number of its elements and the empty face counts, with dimension `-1`. -/
def eulerCharacteristic (faces : Finset (Finset ℕ)) : ℤ := ∑ F ∈ faces, (-1 : ℤ) ^ (F.card + 1)

end Frobby

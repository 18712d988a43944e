import Verif.OptimizeActionSpec
import Mathlib.NumberTheory.FrobeniusNumber

/-!
# Gröbner bases for the Frobenius problem

Lists of integers are read as differences of exponents: the vector `g` stands for the binomial `x^u - x^w` where `u` has the positive entries
of `g` and `w` the others.
-/

namespace Frobby

/-- The scalar product. -/
def dot (a v : List ℤ) : ℤ := (List.zipWith (· * ·) a v).sum

/-- The first nonzero entry is negative. Among binomials of degree zero, these are those with `x^u` greater than `x^w` in the reverse
lexicographic order where the first variable is the least one, the second is the next one, and so on. -/
def LeadsNeg (v : List ℤ) : Prop := ∃ k, (∀ j < k, v.getD j 0 = 0) ∧ v.getD k 0 < 0

/-- `x^u` for `g` divides `x^u` for `v`. -/
def LeadDivides (g v : List ℤ) : Prop := List.Forall₂ (fun x y => 0 < x → x ≤ y) g v

/-- `B` is a Gröbner basis of the ideal that is spanned by the binomials that are homogeneous of degree zero if the variables have the degrees
`a`, in the degree reverse lexicographic order: the binomials of `B` are in the ideal and are written with the leading term first, and the
leading term of each binomial in the ideal is a multiple of one of theirs. -/
structure RevLexBasis (a : List ℤ) (B : List (List ℤ)) : Prop where
  length : ∀ g ∈ B, g.length = a.length
  degree : ∀ g ∈ B, dot a g = 0
  leads : ∀ g ∈ B, LeadsNeg g
  reduces : ∀ v : List ℤ, v.length = a.length → dot a v = 0 → LeadsNeg v → ∃ g ∈ B, LeadDivides g v

/-- The input of `frobgrob`: the size of a matrix, its rows, and a list of numbers. -/
def frobgrobG (B : List (List ℤ)) (a : List ℤ) : Gram :=
  sizeG B.length ⊹ sizeG a.length ⊹ Many (Many integerG) B ⊹ Many integerG a

/-- The numbers are greater than one and have no common divisor. -/
structure Instance (a : List ℤ) : Prop where
  nonempty : a ≠ []
  big : ∀ x ∈ a, 1 < x
  coprime : ∀ d : ℕ, (∀ x ∈ a, (d : ℤ) ∣ x) → d = 1

/-- The number is the largest integer that is not a sum of numbers in the list. -/
def IsFrobenius (a : List ℤ) (F : ℤ) : Prop := ∃ f : ℕ, F = f ∧ FrobeniusNumber f {x | (x : ℤ) ∈ a}

end Frobby

import Verif.ActionSpec
import Verif.GrammarSpec

/-!
# What the action `optimize` is to print
-/

namespace Frobby

/-- An integer with an optional sign. -/
def integerG (x : ℤ) : Gram := fun t r => ∃ sign ds, digitsG sign ds t r ∧
  (sign = [] ∧ x = valueIn 10 ds ∨ sign = t!"+" ∧ x = valueIn 10 ds ∨ sign = t!"-" ∧ x = -(valueIn 10 ds : ℤ))

/-- The sum of the exponents of a monomial, each with the entry of the vector for its variable. -/
def weight (names : List Text) (v : List ℤ) (m : Text → ℕ) : ℤ := ((names.zip v).map fun p => p.2 * (m p.1 : ℤ)).sum

/-- The monomial stands for an irreducible component. -/
def NamedIdeal.Component (I : NamedIdeal) (m : Text → ℕ) : Prop := ∃ D, I.EncodedDecom D ∧ m ∈ D

/-- The value and the solutions of the program to optimize `w` on the monomials in `C`. -/
structure Optimizes (C : (Text → ℕ) → Prop) (w : (Text → ℕ) → ℤ) (minimize : Bool) (value : Option ℤ) (S : List (Text → ℕ)) : Prop where
  empty : (∀ m, ¬ C m) → value = none ∧ S = []
  found : (∃ m, C m) → ∃ x, value = some x ∧ S ≠ []
  optimal : ∀ x, value = some x → (∃ m, C m ∧ w m = x) ∧ ∀ m, C m → if minimize then x ≤ w m else w m ≤ x
  solutions : ∀ m ∈ S, C m ∧ value = some (w m)
  nodup : S.Nodup

/-- The ideal in one variable less: the first variable is set to 1. -/
def NamedIdeal.withoutFirst (I : NamedIdeal) : NamedIdeal := { names := I.names.drop 1, terms := I.terms.map (List.drop 1) }

end Frobby

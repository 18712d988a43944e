import Verif.Spec
import Mathlib.Order.Bounds.Basic
import Mathlib.Algebra.BigOperators.Group.Finset.Basic

/-!
# What solving an optimization program means
-/

namespace Frobby

variable {n : ℕ}

/-- The value and the solutions given for the program to maximize `d` on the vectors in `C`. -/
structure Solves (C : Term n → Prop) (d : Fin n → ℤ) (value : Option ℤ) (S : List (Term n)) : Prop where
  empty : (∀ t, ¬ C t) → value = none ∧ S = []
  found : (∃ t, C t) → ∃ x, value = some x ∧ S ≠ [] ∧ IsGreatest {y : ℤ | ∃ t, C t ∧ y = ∑ v, d v * (t v : ℤ)} x ∧
    ∀ t ∈ S, C t ∧ x = ∑ v, d v * (t v : ℤ)
  nodup : S.Nodup

/-- All solutions are given. -/
def AllSolutions (C : Term n → Prop) (d : Fin n → ℤ) (value : Option ℤ) (S : List (Term n)) : Prop :=
  ∀ x, value = some x → ∀ t, C t → x = ∑ v, d v * (t v : ℤ) → t ∈ S

end Frobby

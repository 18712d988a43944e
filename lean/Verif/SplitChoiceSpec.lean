import Verif.IdealModel

/-!
# What the comments say about the choice of splits

The comments of SplitStrategy.cpp (74-76, 95-97, 114-115, 134, 151, 172-173), as statements about the generators.
-/

namespace Frobby.SplitChoice

open Frobby

variable {n : ℕ}

/-- How many generators a variable divides. -/
def dividing (I : List (Term n)) (v : Fin n) : ℕ := (I.filter fun g => g v ≠ 0).length

/-- In how many generators that are not pure powers a variable has exponent one. -/
def ones (I : List (Term n)) (v : Fin n) : ℕ := (I.filter fun g => g v = 1 ∧ ∃ w, w ≠ v ∧ g w ≠ 0).length

/-- The square of the variable divides a generator. -/
def Squared (I : List (Term n)) (v : Fin n) : Prop := ∃ g ∈ I, 2 ≤ g v

/-- "The variable that divides the most minimal generators of those where some minimal generator is divisible by the square of
that variable." -/
def Best (I : List (Term n)) (v : Fin n) : Prop := Squared I v ∧ ∀ w, Squared I w → dividing I w ≤ dividing I v

instance (I : List (Term n)) (v : Fin n) : Decidable (Squared I v) := by unfold Squared; infer_instance
instance (I : List (Term n)) (v : Fin n) : Decidable (Best I v) := by unfold Best; infer_instance

/-- "The middle variable among those that are best." -/
def MiddleBest (I : List (Term n)) (v : Fin n) : Prop :=
  Best I v ∧ (Finset.univ.filter fun w => w < v ∧ Best I w).card = (Finset.univ.filter fun w => Best I w).card / 2

/-- A median of the positive exponents of a variable: the upper one of the two if their number is even. -/
def Median (I : List (Term n)) (v : Fin n) (e : ℕ) : Prop :=
  (∃ g ∈ I, g v = e) ∧ e ≠ 0 ∧
  (I.filter fun g => 0 < g v ∧ g v < e).length ≤ dividing I v / 2 ∧
  dividing I v / 2 < (I.filter fun g => 0 < g v ∧ g v ≤ e).length

/-- The variables with the least number of exponents equal to one, among those that have one. -/
def Least (I : List (Term n)) (v : Fin n) : Prop := 0 < ones I v ∧ ∀ w, 0 < ones I w → ones I v ≤ ones I w

/-- "Among those variables with least number of exponents equal to one, use the variable that divides the most minimal
generators", and the first one of them. -/
def MinLabel (I : List (Term n)) (v : Fin n) : Prop :=
  Least I v ∧ (∀ w, Least I w → dividing I w ≤ dividing I v) ∧ ∀ w < v, Least I w → dividing I w < dividing I v

/-- The exponent of a variable in the lcm is the largest one. -/
def Largest (I : List (Term n)) (v : Fin n) (e : ℕ) : Prop := (∃ g ∈ I, g v = e) ∧ ∀ g ∈ I, g v ≤ e

end Frobby.SplitChoice

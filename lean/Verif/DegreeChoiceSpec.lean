import Verif.IdealModel

/-!
# What the documentation says about the degrees that pivots depend on

The documentation of `getTypicalExponent`, `getMostNonGenericExponent`, `getTypicalNonGenericExponent` and
`getNonGenericExponent` (Ideal.h:132-188). A degree is a variable with a positive exponent.
-/

namespace Frobby.DegreeChoice

open Frobby

variable {n : ℕ}

/-- The generators that raise a variable to an exponent. -/
def at' (J : List (Term n)) (v : Fin n) (e : ℕ) : List (Term n) := J.filter fun g => g v = e

/-- `lcm(a,b)` is not strictly divisible by any generator. -/
def NG (J : List (Term n)) (a b : Term n) : Prop := ∀ c ∈ J, ¬ Term.strictlyDivides c (a ⊔ b)

instance (J : List (Term n)) (a b : Term n) : Decidable (NG J a b) := by unfold NG; infer_instance

/-- How many unordered pairs of generators are non-generic and have the degree in common: each is counted twice. -/
def pairs (J : List (Term n)) (v : Fin n) (e : ℕ) : ℕ :=
  ((at' J v e).map fun a => ((at' J v e).filter fun b => b ≠ a ∧ NG J a b).length).sum / 2

/-- "A degree is non-generic if it occurs as the shared degree for some non-generic pair." -/
def NGDegree (J : List (Term n)) (v : Fin n) (e : ℕ) : Prop :=
  e ≠ 0 ∧ ∃ a ∈ at' J v e, ∃ b ∈ at' J v e, a ≠ b ∧ NG J a b

instance (J : List (Term n)) (v : Fin n) (e : ℕ) : Decidable (NGDegree J v e) := by unfold NGDegree; infer_instance

/-- The degree has the largest weight of all, which is `count`. There is none if all weights are zero. -/
def Chosen (W : Fin n → ℕ → ℕ) (count : ℕ) (x : Option (Fin n × ℕ)) : Prop :=
  (∀ v e, e ≠ 0 → W v e ≤ count) ∧ (x = none → count = 0) ∧ ∀ v e, x = some (v, e) → e ≠ 0 ∧ count = W v e ∧ 0 < W v e

/-- A greatest common divisor of generators. -/
def IsGcd (l : List (Term n)) (p : Term n) : Prop := (∀ g ∈ l, p ≤ g) ∧ ∀ q, (∀ g ∈ l, q ≤ g) → q ≤ p

end Frobby.DegreeChoice

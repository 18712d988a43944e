import Verif.OrderModel

/-!
# Model of `equals` and what term orders are
-/

namespace Frobby.TermOrder

open Frobby

variable {n : ℕ}

/-- The loop of `equals` (TermPredicate.cpp:77-85), over the variables that are left. -/
def equalsLoop (a b : Term n) : List (Fin n) → Bool
  | [] => true
  | v :: vs => if a v ≠ b v then false else equalsLoop a b vs

/-- `equals` (TermPredicate.cpp:77-85) and `EqualsPredicate` (TermPredicate.h:159-162). -/
def equals (a b : Term n) : Bool := equalsLoop a b (List.finRange n)

/-! ## specification -/

/-- The variable `v` as a monomial. -/
def var (v : Fin n) : Term n := fun w => if w = v then 1 else 0

/-- A strict total order on the monomials that multiplication respects. -/
structure Compatible (lt : Term n → Term n → Prop) : Prop where
  irrefl : ∀ a, ¬ lt a a
  trans : ∀ a b c, lt a b → lt b c → lt a c
  total : ∀ a b, lt a b ∨ a = b ∨ lt b a
  mul : ∀ a b c, lt a b ↔ lt (a + c) (b + c)

/-- A term order: one is the least monomial, too. -/
structure IsTermOrder (lt : Term n → Term n → Prop) : Prop extends Compatible lt where
  one : ∀ a, a ≠ 0 → lt 0 a

end Frobby.TermOrder

import Mathlib.Data.List.MinMax
import Mathlib.Data.List.Sort
import Mathlib.Algebra.Order.Ring.Int
import Mathlib.Algebra.GCDMonoid.Nat

/-!
# Model of the Frobenius actions (src/dynamicFrobeniusAlgorithm.cpp, src/IOHandler.cpp, src/randomDataGenerators.cpp)
-/

namespace Frobby

/-- `mpz_gcd` over a list (IOHandler.cpp:183-185, randomDataGenerators.cpp:482-484). -/
def gcdLoop : List ℤ → ℤ
  | [] => 0
  | x :: l => l.foldl (fun g y => (Int.gcd g y : ℤ)) x

/-- What `readFrobeniusInstance` (IOHandler.cpp:160-196) accepts, for the numbers in the input. -/
def acceptsInstance (numbers : List ℤ) : Bool :=
  decide (∀ x ∈ numbers, 1 < x) && decide (numbers ≠ []) && decide (gcdLoop numbers = 1)

/-- The variables of the loop. `int representableRun` and the set have no bound here. -/
structure FrobState where
  representable : List ℤ
  maximum : ℤ
  run : ℤ
  number : ℤ

/-- The body of the loop (dynamicFrobeniusAlgorithm.cpp:36-55). -/
def frobStep (numbers : List ℤ) (s : FrobState) : FrobState :=
  if numbers.any fun a => decide (s.number - a ∈ s.representable) then
    { representable := s.number :: s.representable, maximum := s.maximum, run := s.run + 1, number := s.number + 1 }
  else { representable := s.representable, maximum := s.number, run := 0, number := s.number + 1 }

/-- The loop (dynamicFrobeniusAlgorithm.cpp:35-56); `none` if it does not end within the given number of iterations. -/
def frobLoop (numbers : List ℤ) (minNumber : ℤ) : ℕ → FrobState → Option ℤ
  | 0, _ => none
  | fuel + 1, s => if s.run < minNumber then frobLoop numbers minNumber fuel (frobStep numbers s) else some s.maximum

/-- `dynamicFrobeniusAlgorithm` (dynamicFrobeniusAlgorithm.cpp:23-58). `none` for the empty list is the access to
`*min_element`. -/
def dynamicFrobenius (fuel : ℕ) (numbers : List ℤ) : Option ℤ :=
  match numbers with
  | [a, b] => some (a * b - a - b)
  | _ =>
    match numbers.min? with
    | none => none
    | some minNumber => frobLoop numbers minNumber fuel { representable := [0], maximum := 0, run := 0, number := 1 }

/-- `generateRandomFrobeniusInstance` (randomDataGenerators.cpp:460-490), from the random numbers. -/
def generateFrobenius (random : List ℤ) : List ℤ :=
  match random with
  | [] => []
  | x :: l => (x / gcdLoop (x :: l) :: l).insertionSort (· ≤ ·)

end Frobby

import Verif.IdealModel
import Mathlib.Data.Int.Basic

/-!
# Model of the polynomial classes

`HashPolynomial` (src/HashPolynomial.cpp), `UniHashPolynomial` (src/UniHashPolynomial.cpp) and `Polynomial`
(src/Polynomial.cpp). The two hash polynomials differ only in the type of their keys, so they share a model.
-/

namespace Frobby

variable {n : ℕ} {κ : Type} [DecidableEq κ]

/-- `_terms[key]`: makes an entry with value zero if there is none. -/
def hashTouch (k : κ) (m : List (ℤ × κ)) : List (ℤ × κ) := if m.any fun x => decide (x.2 = k) then m else m ++ [(0, k)]

/-- `ref += coef` for the reference to the entry of `key`. -/
def hashIncrease (c : ℤ) (k : κ) (m : List (ℤ × κ)) : List (ℤ × κ) := m.map fun x => if x.2 = k then (x.1 + c, x.2) else x

/-- `if (ref == 0) _terms.erase(key)`. -/
def hashErase (k : κ) (m : List (ℤ × κ)) : List (ℤ × κ) :=
  if m.any fun x => decide (x.2 = k ∧ x.1 = 0) then m.filter fun x => decide (x.2 ≠ k) else m

/-- `HashPolynomial::add(coef, term)` (HashPolynomial.cpp:36-52) and `UniHashPolynomial::add(coef, exponent)`
(UniHashPolynomial.cpp:35-51). A hash map is a list of entries; where the order of the entries matters it is a parameter,
see `hashFeed`. -/
def hashAdd (c : ℤ) (k : κ) (m : List (ℤ × κ)) : List (ℤ × κ) :=
  if c = 0 then m else hashErase k (hashIncrease c k (hashTouch k m))

/-- `add(plus, key)` (HashPolynomial.cpp:54-63, UniHashPolynomial.cpp:25-33). -/
def hashAddSign (plus : Bool) (k : κ) (m : List (ℤ × κ)) : List (ℤ × κ) :=
  hashErase k (hashIncrease (if plus then 1 else -1) k (hashTouch k m))

/-- `feedTo` (HashPolynomial.cpp:76-115, UniHashPolynomial.cpp:64-108): the calls of `consume`. `order` is the order in
which the hash map is traversed, which is not specified. `before a b` is that `a` is output before `b`: greater terms
in lexicographic order and greater exponents come first. -/
def hashFeed (before : κ → κ → Prop) [DecidableRel before] (order : List (ℤ × κ) → List (ℤ × κ)) (canonical : Bool)
    (m : List (ℤ × κ)) : List (ℤ × κ) :=
  if canonical then (order m).insertionSort fun a b => before a.2 b.2 else order m

/-- `Polynomial::add` (Polynomial.cpp:54-68). -/
def polyAdd (c : ℤ) (t : Term n) (p : List (ℤ × Term n)) : List (ℤ × Term n) := if c = 0 then p else p ++ [(c, t)]

/-- The collecting loop of `Polynomial::sortTermsReverseLex` (Polynomial.cpp:81-95). `done` are the entries before index
`last`, in reverse. -/
def polyCollect (done : List (ℤ × Term n)) (last : ℤ × Term n) : List (ℤ × Term n) → List (ℤ × Term n)
  | [] => done.reverse ++ [last]
  | x :: xs =>
    if last.2 = x.2 then polyCollect done (last.1 + x.1, last.2) xs
    else if last.1 = 0 then polyCollect done x xs
    else polyCollect (last :: done) x xs

/-- `Polynomial::sortTermsReverseLex(collect)` (Polynomial.cpp:70-99). -/
def polySort (collect : Bool) (p : List (ℤ × Term n)) : List (ℤ × Term n) :=
  match p.insertionSort fun a b => lexLE b.2 a.2 with
  | [] => []
  | x :: xs => if collect then polyCollect [] x xs else x :: xs

end Frobby

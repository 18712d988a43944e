import Verif.Term

/-!
# Model of building an ideal through the API: `Frobby::Ideal::addExponent`
-/

namespace Frobby

variable {n : ℕ}

/-- `FrobbyIdealHelper` (frobby.cpp:182-201): the generators so far and `_atVariable`. -/
structure Builder (n : ℕ) where
  terms : List (Fin n → ℤ)
  pos : ℕ

/-- `FrobbyIdealHelper(variableCount)` (frobby.cpp:184-187). -/
def Builder.new (n : ℕ) : Builder n := { terms := [], pos := n }

/-- `BigIdeal::newLastTerm` (BigIdeal.cpp:104-110); the reservation of memory is not modelled. -/
def Builder.newLastTerm (b : Builder n) : Builder n := { b with terms := b.terms ++ [fun _ => 0] }

/-- Assignment to `getLastTermExponentRef(_atVariable)` (BigIdeal.h:126-131, frobby.cpp:235-237); `none` stands for
undefined behaviour: no term yet, or an index out of range. -/
def Builder.setLast (b : Builder n) (e : ℤ) : Option (Builder n) :=
  match b.terms.getLast? with
  | none => none
  | some t => if h : b.pos < n then
      some { terms := b.terms.dropLast ++ [Function.update t ⟨b.pos, h⟩ e], pos := b.pos + 1 }
    else none

/-- `Ideal::addExponent` (frobby.cpp:225-238). -/
def Builder.addExponent (b : Builder n) (e : ℤ) : Option (Builder n) :=
  if b.pos = n then
    let b1 := { b.newLastTerm with pos := 0 }
    if n = 0 then some b1 else b1.setLast e
  else b.setLast e

/-- A history of calls of `addExponent` on a new ideal. -/
def buildIdeal (n : ℕ) (es : List ℤ) : Option (Builder n) :=
  es.foldlM Builder.addExponent (Builder.new n)

end Frobby

import Verif.WrapModel

/-!
# What a consumer should see
-/

namespace Frobby

/-- What a consumer can know: the numbers and no addresses. -/
inductive Seen
  | begin (n : ℕ)
  | term (coef : Option ℤ) (es : List ℤ)
  | done
deriving DecidableEq

/-- A consumer that looks at all exponents and at the coefficient during the call. It knows the number of variables. `none` is undefined: a pointer that
has not been set, that is out of range, or to memory that is not there. -/
def UserCall.see (n : ℕ) : UserCall → Option Seen
  | .begin m => some (.begin m)
  | .consume mem coef arr =>
    match (List.range n).mapM fun v => (arr[v]?.join).bind mem, coef with
    | none, _ => none
    | some es, none => some (.term none es)
    | some es, some a => (mem a).map fun c => .term (some c) es
  | .done => some .done

/-- What a call of the wrapper is meant to tell. -/
def WrapCall.Tells (n : ℕ) : WrapCall → List Seen → Prop
  | .ring, evs => evs = []
  | .begin, evs => evs = [.begin n]
  | .translated mem coef table ids, evs => ∃ c es, evs = [.term c es] ∧ c = coef.bind mem ∧ (coef.isSome → c.isSome) ∧ es.length = n ∧
      ∀ v < n, ∃ row id a, table[v]? = some row ∧ ids[v]? = some id ∧ row[id]? = some a ∧ mem a = es[v]?
  | .vector mem coef addrs, evs => ∃ c es, evs = [.term c es] ∧ c = coef.bind mem ∧ (coef.isSome → c.isSome) ∧ es.length = n ∧
      addrs.length = n ∧ ∀ v < n, ∃ a, addrs[v]? = some a ∧ mem a = es[v]?
  | .done, evs => evs = [.done]

/-- The number at this address is zero at the time of the call. -/
def WrapCall.HasZero (z : ℕ) : WrapCall → Prop
  | .translated mem _ _ _ | .vector mem _ _ => mem z = some 0
  | _ => True

/-- An ideal. -/
def seenIdeal (n : ℕ) (gens : List (List ℤ)) : List Seen := .begin n :: gens.map (.term none) ++ [.done]

/-- The powers of variables that generate the irreducible ideal with an exponent vector. -/
def purePowers (n : ℕ) (es : List ℤ) : List (List ℤ) :=
  ((List.range n).filter fun v => es.getD v 0 ≠ 0).map fun v => (List.replicate n 0).set v (es.getD v 0)

end Frobby

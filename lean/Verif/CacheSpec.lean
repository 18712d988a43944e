import Verif.CacheModel

/-!
# Specification: texts are made when they are asked for

A translator has exponents and names, and nothing else.
-/

namespace Frobby

/-- The translators that live, and the texts that were asked for. -/
structure TextRequests where
  tr : ℕ → Option (List (List ℤ) × List Text)
  out : List (Option Text)

/-- Two entries change places. -/
def exchange {α : Type} (a b : ℕ) (l : List α) : List α := l.mapIdx fun i x => l.getD (if i = a then b else if i = b then a else i) x

/-- A power of a variable in the notation of most formats; there is none for exponent zero. -/
def powerNotation (name : Text) (x : ℤ) : Option Text :=
  if x = 0 then none else if x = 1 then some name else some (name ++ ['^'] ++ decimalInt x)

namespace TextRequests

def start : TextRequests := ⟨fun _ => none, []⟩

def set (R : TextRequests) (x : ℕ) (v : List (List ℤ) × List Text) : TextRequests := ⟨Function.update R.tr x (some v), R.out⟩

/-- What a step means. `none`: the step is not allowed. Names have no character zero. -/
def step (R : TextRequests) : CacheOp → Option TextRequests
  | .create x exps names =>
    if R.tr x = none ∧ exps.length = names.length ∧ ∀ n ∈ names, Char.ofNat 0 ∉ n then some (R.set x (exps, names)) else none
  | .copy x y => if R.tr x = none then (R.tr y).map fun v => R.set x v else none
  | .assign x y => (R.tr x).bind fun _ => (R.tr y).map fun v => R.set x v
  | .dualize x a => (R.tr x).bind fun v =>
    if v.1.length ≤ a.length then some (R.set x (List.zipWith (fun xs a => xs.map fun e => if e = 0 then 0 else a - e + 1) v.1 a, v.2)) else none
  | .decrement x => (R.tr x).map fun v => R.set x (v.1.map (List.map (· - 1)), v.2)
  | .rename x names => (R.tr x).bind fun v =>
    if names.length = v.2.length ∧ ∀ n ∈ names, Char.ofNat 0 ∉ n then some (R.set x (v.1, names)) else none
  | .swap x a b => (R.tr x).bind fun v =>
    if a < v.2.length ∧ b < v.2.length then some (R.set x (exchange a b v.1, exchange a b v.2)) else none
  | .getPower x var e => (R.tr x).bind fun v => (v.1[var]?).bind fun row => (row[e]?).bind fun c => (v.2[var]?).map fun name =>
    ⟨R.tr, R.out ++ [powerNotation name c]⟩
  | .getPlain x var e => (R.tr x).bind fun v => (v.1[var]?).bind fun row => (row[e]?).map fun c => ⟨R.tr, R.out ++ [some (decimalInt c)]⟩
  | .destroy x => (R.tr x).map fun _ => ⟨Function.update R.tr x none, R.out⟩

/-- A program. -/
def run : List CacheOp → TextRequests → Option TextRequests
  | [], R => some R
  | op :: ops, R => (R.step op).bind (run ops)

end TextRequests

end Frobby

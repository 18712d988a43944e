import Verif.TermPoolModel

/-!
# Specification: terms as values

To a program a term is a value: a list of exponents that only an operation on that very object changes.
-/

namespace Frobby

/-- The exponents of each object that exists. -/
abbrev TermVals := ℕ → Option (List ℕ)

/-- The operations a program may use: an object is made once, used while it exists, and read or written within its length. -/
def TermOp.Legal (v : TermVals) : TermOp → Prop
  | .empty h => v h = none
  | .one h _ => v h = none
  | .ofArray h _ => v h = none
  | .copy h g => v h = none ∧ v g ≠ none
  | .destroy h => v h ≠ none
  | .assign h g => v h ≠ none ∧ v g ≠ none
  | .assignArray h l => ∃ k, v h = some k ∧ l.length = k.length
  | .set h i _ => ∃ k, v h = some k ∧ i < k.length
  | .swap h g => v h ≠ none ∧ v g ≠ none
  | .reset h _ => v h ≠ none
  | .clear h => v h ≠ none

/-- What the operations mean. -/
def TermOp.effect (v : TermVals) : TermOp → TermVals
  | .empty h => Function.update v h (some [])
  | .one h n => Function.update v h (some (List.replicate n 0))
  | .ofArray h l => Function.update v h (some l)
  | .copy h g => Function.update v h (v g)
  | .destroy h => Function.update v h none
  | .assign h g => Function.update v h (v g)
  | .assignArray h l => Function.update v h (some l)
  | .set h i e => Function.update v h ((v h).map fun l => l.set i e)
  | .swap h g => Function.update (Function.update v h (v g)) g (v h)
  | .reset h n => Function.update v h (some (List.replicate n 0))
  | .clear h => Function.update v h (some [])

/-- The operations that give a term with variables no variables, other than by `clear`. -/
def TermOp.Empties (v : TermVals) : TermOp → Prop
  | .assign h g => v h ≠ some [] ∧ v g = some []
  | .reset h n => v h ≠ some [] ∧ n = 0
  | _ => False

/-- The states a program can reach, together with what it believes its terms to be. An operation that throws is believed to have had
no effect. -/
inductive TermHistory (debug : Bool) : TermHeap → TermVals → Prop
  | start : TermHistory debug TermHeap.start fun _ => none
  | done {s v f o t} : TermHistory debug s v → o.Legal v → TermHeap.step debug f o s = some (false, t) → TermHistory debug t (o.effect v)
  | threw {s v f o t} : TermHistory debug s v → o.Legal v → TermHeap.step debug f o s = some (true, t) → TermHistory debug t v

/-- Memory is available. -/
def MemFails.none : MemFails := ⟨false, false⟩

end Frobby

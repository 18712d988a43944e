import Verif.HandleModel

/-!
# What the objects of a program should be: values
-/

namespace Frobby

/-- Each object that lives is a number of variables and the exponents that were added. -/
abbrev HandleValues := ℕ → Option (ℕ × List ℤ)

/-- The next exponent begins a generator. -/
def Begins (p : ℕ × List ℤ) : Prop := p.1 = 0 ∨ p.1 ∣ p.2.length

instance (p : ℕ × List ℤ) : Decidable (Begins p) := inferInstanceAs (Decidable (_ ∨ _))

/-- One step of a program. If there is no memory, nothing changes. `none` if the program uses an object that does not live, or makes one that
lives already. -/
def HandleValues.step (v : HandleValues) : HandleOp → Option HandleValues
  | .create x n enough => if v x = none then some (if enough then Function.update v x (some (n, [])) else v) else none
  | .copy x y enough =>
    match v x, v y with
    | none, some p => some (if enough then Function.update v x (some p) else v)
    | _, _ => none
  | .assign x y enough =>
    match v x, v y with
    | some _, some p => some (if enough then Function.update v x (some p) else v)
    | _, _ => none
  | .add x e m =>
    match v x with
    | none => none
    | some p =>
      match m with
      | .enough => some (Function.update v x (some (p.1, p.2 ++ [e])))
      | _ => some (if Begins p then v else Function.update v x (some (p.1, p.2 ++ [e])))
  | .destroy x => if v x = none then none else some (Function.update v x none)

/-- A program. -/
def HandleValues.run (v : HandleValues) (ops : List HandleOp) : Option HandleValues := ops.foldlM HandleValues.step v

/-- The generators are those that the exponents describe, one after the other: the last one is filled up with zeros. -/
def GeneratorsOf (terms : List (List ℤ)) (n : ℕ) (es : List ℤ) : Prop :=
  (∀ t ∈ terms, t.length = n) ∧ if n = 0 then terms.length = es.length else ∃ k < n, terms.flatten = es ++ List.replicate k 0

/-- Memory does not run out between making a generator and giving it its entries. -/
def HandleOp.Whole : HandleOp → Prop
  | .add _ _ .noEntries => False
  | _ => True

end Frobby

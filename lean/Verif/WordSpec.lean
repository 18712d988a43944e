import Mathlib.Data.Finset.Range
import Mathlib.Data.Finset.Card
import Verif.WordModel

/-!
# What it means for an array of words to hold a square free term
-/

namespace Frobby

/-- The bit of an array of words that is the exponent of a variable: bit `v % 64` of word `v / 64`. -/
def bitOf (a : List Word) (v : ℕ) : Bool := (a.getD (v / 64) 0).getLsbD (v % 64)

/-- The array holds the square free term `s` in `varCount` variables: it has one word for every 64 variables or part thereof, and
at least one, the bits of the variables in `s` are set and all other bits are zero, the unused ones included. -/
structure Packs (varCount : ℕ) (a : List Word) (s : Finset ℕ) : Prop where
  length : a.length = max 1 ((varCount + 63) / 64)
  sub : s ⊆ Finset.range varCount
  bits : ∀ v, v < 64 * a.length → (bitOf a v = true ↔ v ∈ s)

/-- The smallest variable on which two terms differ is in the second. -/
def LexBelow (s t : Finset ℕ) : Prop := ∃ v, v ∈ t ∧ v ∉ s ∧ ∀ u < v, (u ∈ s ↔ u ∈ t)

/-- The term that is left when the variables in `remove` are taken out and the others numbered again in order. -/
def renumber (varCount : ℕ) (remove s : Finset ℕ) : Finset ℕ :=
  ((Finset.range varCount \ remove) ∩ s).image fun v => (Finset.range v \ remove).card

end Frobby

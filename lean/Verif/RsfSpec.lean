import Mathlib.Data.List.Perm.Basic
import Verif.RsfModel
import Verif.WordSpec

/-!
# Specification for ideals of packed terms
-/

namespace Frobby

/-- The object holds the list of square free terms in `V` variables: the terms follow each other in memory, each in as many words
as it needs. -/
structure Holds (r : RsfIdeal) (V : ℕ) (gens : List (Finset ℕ)) : Prop where
  varCount : r.varCount = V
  wordsPerTerm : r.wordsPerTerm = max 1 ((V + 63) / 64)
  genCount : r.genCount = gens.length
  memoryEnd : r.memoryEnd = r.wordsPerTerm * gens.length
  fits : r.memoryEnd ≤ r.memory.length
  terms : ∀ (i : ℕ) (h : i < gens.length), Packs V ((r.memory.drop (r.wordsPerTerm * i)).take r.wordsPerTerm) gens[i]

/-- The first list has those elements of the second that no other element is contained in, one of every group of equal ones. -/
structure MinimalPart (part gens : List (Finset ℕ)) : Prop where
  sub : part.Subperm gens
  minimal : part.Pairwise fun s t => ¬ s ⊆ t ∧ ¬ t ⊆ s
  all : ∀ g ∈ gens, ∃ d ∈ part, d ⊆ g

/-- The set of the variables whose exponent is one. -/
def supportOf (g : List ℕ) : Finset ℕ := (Finset.range g.length).filter fun v => g[v]? = some 1

/-- The generators that a variable divides. -/
def rowOf (gens : List (Finset ℕ)) (v : ℕ) : Finset ℕ := (Finset.range gens.length).filter fun i => v ∈ gens.getD i ∅

/-- A variable that divides the generator with the given index and no other. -/
def ExclusiveVar (gens : List (Finset ℕ)) (i v : ℕ) : Prop := ∀ j, ∀ h : j < gens.length, (v ∈ gens[j] ↔ j = i)

end Frobby

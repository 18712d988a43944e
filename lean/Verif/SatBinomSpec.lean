import Verif.SatBinomModel
import Verif.PolyGrammarSpec
import Verif.AnalyzeSpec
import Mathlib.Order.Bounds.Basic
import Mathlib.Logic.Relation

/-!
# Specification: bodies, edges and texts of saturated binomial ideals

A body is a set of the form `{x | x ≤ u}`, and its interior is the set of the `x` that are less than `u` in each entry. The smallest
body with given points in it is the one where `u` is the least upper bound of the points. There are no algorithms here.
-/

namespace Frobby

variable {n : ℕ}

/-- No generator is in the interior of the smallest body that has the points `S` in it. -/
def PointFree (G : List (Binom n)) (S : Set (Binom n)) : Prop := ∀ u, IsLUB S u → ∀ g ∈ G, ∃ v, u v ≤ g v

/-- Zero, `a` and `b` make a point-free body, and there are positive entries for each variable but the first. -/
def InteriorPair (G : List (Binom n)) (a b : Binom n) : Prop :=
  PointFree G {0, a, b} ∧ ∀ v : Fin n, v.val ≠ 0 → 0 < a v ∨ 0 < b v

/-- `b` and `a + b` are such a pair, and neither `a` nor `b` is on its own. -/
def InteriorEdge (G : List (Binom n)) (a b : Binom n) : Prop :=
  InteriorPair G b (a + b) ∧ ¬ InteriorPair G a a ∧ ¬ InteriorPair G b b

/-- An edge that does not terminate: `a` and `a + b` do not make a point-free body. -/
def ProperEdge (G : List (Binom n)) (a b : Binom n) : Prop := InteriorEdge G a b ∧ ¬ PointFree G {0, a, a + b}

/-- A cycle of the graph on the generators (the numbers of the generators). -/
def HasCycle (G : List (Binom n)) : Prop :=
  ∃ i : Fin G.length, Relation.TransGen (fun i j : Fin G.length => ProperEdge G (G.get i) (G.get j)) i i

/-- What `validate` is about: a generator that is not an interior pair on its own has exactly one edge that leaves it, and there is
no cycle of edges that do not terminate. -/
def GraphOk (G : List (Binom n)) : Prop :=
  ¬ HasCycle G ∧ ∀ i : Fin G.length, ¬ InteriorPair G (G.get i) (G.get i) → ∃! j : Fin G.length, InteriorEdge G (G.get i) (G.get j)

/-- The exponents of the first monomial of a binomial. -/
def leading (g : Binom n) : Fin n → ℕ := fun v => (g v).toNat

/-- The text of a saturated binomial ideal: the numbers of generators and of variables, the rows, and then the names or nothing. -/
def satBinomG (I : NamedBinoms) : Gram := sizeG I.gens.length ⊹ sizeG I.names.length ⊹
  Many (fun row t r => row.length = I.names.length ∧ Many integerG row t r) I.gens ⊹
    Gram.or (Gram.when (I.names = defaultNames I.names.length)) (manyNamesG I.names)

end Frobby

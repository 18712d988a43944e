import Verif.Term
import Mathlib.Order.Minimal
import Mathlib.Data.Finset.Card
import Mathlib.Data.Fintype.Prod

/-!
# Specification of the ideals that are generated

No function of the model is used here.
-/

namespace Frobby

/-- The product of the variables in a set. -/
def productOfVars {n : ℕ} (F : Finset (Fin n)) : Term n := fun i => if i ∈ F then 1 else 0

/-- Squares of a board. -/
abbrev Square (rows columns : ℕ) := Fin rows × Fin columns

/-- The variable for a square: the squares are numbered row by row. -/
def Square.var {rows columns : ℕ} (p : Square rows columns) : Fin (rows * columns) :=
  ⟨p.1 * columns + p.2, by
    have h1 := p.1.2
    have h2 := p.2.2
    calc (p.1 : ℕ) * columns + p.2 < p.1 * columns + columns := by omega
      _ = (p.1 + 1) * columns := by rw [Nat.add_mul, Nat.one_mul]
      _ ≤ rows * columns := Nat.mul_le_mul_right _ (by omega)⟩

/-- The distance of two rows or columns. -/
def dist {k : ℕ} (a b : Fin k) : ℕ := (a - b : ℕ) + (b - a : ℕ)

/-- A move of a king. -/
def KingMove {rows columns : ℕ} (p q : Square rows columns) : Prop := p ≠ q ∧ dist p.1 q.1 ≤ 1 ∧ dist p.2 q.2 ≤ 1

/-- A move of a knight. -/
def KnightMove {rows columns : ℕ} (p q : Square rows columns) : Prop :=
  dist p.1 q.1 = 1 ∧ dist p.2 q.2 = 2 ∨ dist p.1 q.1 = 2 ∧ dist p.2 q.2 = 1

/-- No rook can take another. -/
def NonAttacking {rows columns : ℕ} (S : Finset (Square rows columns)) : Prop :=
  ∀ p ∈ S, ∀ q ∈ S, p ≠ q → p.1 ≠ q.1 ∧ p.2 ≠ q.2

/-- Edges between the nodes of a clique. -/
abbrev Edge (count : ℕ) := {e : Fin count × Fin count // e.1 < e.2}

/-- The variable for an edge: the edges are numbered by their larger and then by their smaller node. -/
def Edge.var {count : ℕ} (e : Edge count) : ℕ := e.1.2 * (e.1.2 - 1) / 2 + e.1.1

/-- No two edges have a node in common. -/
def IsMatching {count : ℕ} (M : Finset (Edge count)) : Prop :=
  ∀ e ∈ M, ∀ f ∈ M, e ≠ f → e.1.1 ≠ f.1.1 ∧ e.1.1 ≠ f.1.2 ∧ e.1.2 ≠ f.1.1 ∧ e.1.2 ≠ f.1.2

/-- As many edges as possible. -/
def IsMaximumMatching {count : ℕ} (M : Finset (Edge count)) : Prop :=
  IsMatching M ∧ ∀ M' : Finset (Edge count), IsMatching M' → M'.card ≤ M.card

/-- The product of the variables of the edges. -/
def productOfEdges {count : ℕ} (M : Finset (Edge count)) : Term (count * (count - 1) / 2) :=
  fun i => if ∃ e ∈ M, (i : ℕ) = e.var then 1 else 0

/-- The generator of the tree ideal for a set of variables. -/
def treeGenerator {n : ℕ} (F : Finset (Fin n)) : Term n := fun i => if i ∈ F then n + 1 - F.card else 0

/-- The generators are minimal, and each is there once. -/
def MinimalGens {n : ℕ} (G : List (Term n)) : Prop := G.Nodup ∧ ∀ a ∈ G, ∀ b ∈ G, a ≤ b → a = b

end Frobby

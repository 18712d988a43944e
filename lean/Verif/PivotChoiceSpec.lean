import Verif.EulerModel

/-!
# What the help says about the choice of pivots

The help of the action euler (EulerAction.cpp:63-114), as statements about sets of variables. `d v` is the number of generators
that the variable `v` divides, and `V` is the number of variables.
-/

namespace Frobby.Choice

open Frobby

/-- A popular variable divides a maximum number of generators. -/
def Popular (d : ℕ → ℕ) (V v : ℕ) : Prop := v < V ∧ ∀ u < V, d u ≤ d v

/-- A rare variable divides a minimum number of generators, among those that divide one. -/
def Rare (d : ℕ → ℕ) (V v : ℕ) : Prop := v < V ∧ d v ≠ 0 ∧ ∀ u < V, d u ≠ 0 → d v ≤ d u

/-- By how many variables that divide exactly `c` generators a generator is divisible. -/
def prof (d : ℕ → ℕ) (V : ℕ) (g : SqTerm) (c : ℕ) : ℕ := (g.filter fun v => v < V ∧ d v = c).card

/-- A generator is divisible by more rare variables than another one, where ties are broken by the second-most-rare variables
and so on. -/
def Rarer (d : ℕ → ℕ) (V : ℕ) (h g : SqTerm) : Prop :=
  ∃ c, 0 < c ∧ prof d V g c < prof d V h c ∧ ∀ c', 0 < c' → c' < c → prof d V g c' = prof d V h c'

/-- Which of the candidates a strategy wants, where `v` is the rare variable that it picked. -/
def Wants (d : ℕ → ℕ) (V v : ℕ) : GenStrat → List SqTerm → SqTerm → Prop
  | .maxsupp, c, g => ∀ h ∈ c, h.card ≤ g.card
  | .minsupp, c, g => ∀ h ∈ c, g.card ≤ h.card
  | .popvar, _, g => ∃ u ∈ g, Popular d V u
  | .rarevar, _, g => v ∈ g
  | .raremax, c, g => v ∈ g ∧ ∀ h ∈ c, v ∈ h → h.card ≤ g.card
  | .rarest, c, g => ∀ h ∈ c, ¬ Rarer d V h g
  | .any, _, _ => True
  | .random, _, _ => True

/-- The candidates are divided into the selected and the rejected ones as the help says. -/
def Selects (d : ℕ → ℕ) (V : ℕ) (strat : GenStrat) (c sel rej : List SqTerm) : Prop :=
  (sel ++ rej).Perm c ∧
  match strat with
  | .any => sel.length = 1
  | .random => sel.length = 1
  | .rarevar => ∃ v, Rare d V v ∧ (∀ g ∈ sel, Wants d V v strat c g) ∧ ∀ g ∈ rej, ¬ Wants d V v strat c g
  | .raremax => ∃ v, Rare d V v ∧ (∀ g ∈ sel, Wants d V v strat c g) ∧ ∀ g ∈ rej, ¬ Wants d V v strat c g
  | _ => (∀ g ∈ sel, Wants d V 0 strat c g) ∧ ∀ g ∈ rej, ¬ Wants d V 0 strat c g

/-- `A_B_…`: each strategy breaks the ties of those before it. A strategy that would eliminate all the candidates preserves all of
them. -/
inductive Narrows (d : ℕ → ℕ) (V : ℕ) : List GenStrat → List SqTerm → List SqTerm → Prop
  | nil (c : List SqTerm) : Narrows d V [] c c
  | cons {g gs c sel rej k} : Selects d V g c sel rej → sel ≠ [] → Narrows d V gs sel k → Narrows d V (g :: gs) c k
  | keep {g gs c rej k} : Selects d V g c [] rej → Narrows d V gs c k → Narrows d V (g :: gs) c k

end Frobby.Choice

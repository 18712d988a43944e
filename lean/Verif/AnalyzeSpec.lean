import Verif.AnalyzeModel
import Verif.TransformSpec

/-!
# What the action `analyze` should print
-/

namespace Frobby

/-- The minimal elements of a list of monomials. -/
def MinimalIn {α : Type} (S : List (α → ℕ)) (f : α → ℕ) : Prop := f ∈ S ∧ ∀ g ∈ S, (∀ x, g x ≤ f x) → g = f

/-- Strongly generic: no two minimal generators have the same exponent of a variable, other than 0. -/
def StronglyGeneric {α : Type} (S : List (α → ℕ)) : Prop :=
  ∀ f g, MinimalIn S f → MinimalIn S g → f ≠ g → ∀ x, f x = g x → f x = 0

/-- Weakly generic: if two minimal generators have the same exponent of a variable, other than 0, then there is a minimal generator
that divides their least common multiple, with a smaller exponent for each variable that appears. -/
def WeaklyGeneric {α : Type} (S : List (α → ℕ)) : Prop :=
  ∀ f g, MinimalIn S f → MinimalIn S g → f ≠ g → (∃ x, f x = g x ∧ f x ≠ 0) →
    ∃ h, MinimalIn S h ∧ ∀ x, h x ≤ max (f x) (g x) ∧ (0 < max (f x) (g x) → h x < max (f x) (g x))

/-- The least common multiple of the generators, as the list of its exponents. -/
def NamedIdeal.LcmIs (I : NamedIdeal) (l : List ℕ) : Prop :=
  l.length = I.names.length ∧ ∀ m : Text → ℕ, (∀ x, expOf I.names l x ≤ m x) ↔ ∀ f ∈ I.monomials, ∀ x, f x ≤ m x

/-- The largest exponent that appears, 0 if there is none. -/
def NamedIdeal.LargestIs (I : NamedIdeal) (e : ℕ) : Prop :=
  (∀ f ∈ I.monomials, ∀ x, f x ≤ e) ∧ (e = 0 ∨ ∃ f ∈ I.monomials, ∃ x ∈ I.names, f x = e)

/-- The answer to a question. -/
def Answer (u : Text) (p : Prop) : Prop := (p → u = t!"yes") ∧ (¬ p → u = t!"no")

/-- The lines of the summary of level 2. -/
def NamedIdeal.SummaryIs (I : NamedIdeal) (u : Text) : Prop :=
  ∃ a b c, Answer a I.Minimal ∧ Answer b (StronglyGeneric I.monomials) ∧ Answer c (WeaklyGeneric I.monomials) ∧
    u = t!"generators: " ++ decimal I.terms.length ++ t!"\nvariables:  " ++ decimal I.names.length ++
      t!"\nminimally generated: " ++ a ++ t!"\nstrongly generic: " ++ b ++ t!"\nweakly generic: " ++ c ++ t!"\n"

/-- What is printed for the ideal `I` in the output format `g`, where `u` is the summary of level 2. -/
def NamedIdeal.AnalysisIs (o : AnalyzeOpts) (g : IOFormat) (I : NamedIdeal) (u out : Text) : Prop :=
  ∃ l e m, I.LcmIs l ∧ I.LargestIs e ∧ ((I.Minimal → m = t!"1\n") ∧ (¬ I.Minimal → m = t!"0\n")) ∧
    out = (if o.lcm then writeTermIn g I.names l ++ t!"\n" else []) ++ (if o.varCount then decimal I.names.length ++ t!"\n" else []) ++
      (if o.genCount then decimal I.terms.length ++ t!"\n" else []) ++ (if o.maxExp then decimal e ++ t!"\n" else []) ++
      (if o.summaryLevel = 1 then decimal I.terms.length ++ t!" generators\n" ++ decimal I.names.length ++ t!" variables\n" else []) ++
      (if o.minimal then m else []) ++ (if 2 ≤ o.summaryLevel then u else [])

end Frobby

import Verif.Term
import Mathlib.Data.Nat.Choose.Basic
import Mathlib.Data.Int.Basic

/-!
# Specification vocabulary

Small definitions in which the properties are stated. Nothing here refers to the model of the code.
-/

namespace Frobby

variable {n : ℕ}

/-- `m` lies in the monomial ideal generated by `G`. -/
def mem (G : List (Term n)) (m : Term n) : Prop := ∃ g ∈ G, g ≤ m

instance (G : List (Term n)) (m : Term n) : Decidable (mem G m) := by unfold mem; infer_instance

/-- No two entries are comparable: the list is duplicate free and minimally generates its ideal. -/
def Anti (G : List (Term n)) : Prop := G.Pairwise fun a b => ¬ a ≤ b ∧ ¬ b ≤ a

/-- `G` is a list of the minimal generators of the ideal generated by `L`. -/
structure MinGens (G L : List (Term n)) : Prop where
  mem_iff : ∀ m, mem G m ↔ mem L m
  anti : Anti G
  subset : ∀ g ∈ G, g ∈ L

/-- `m` is a maximal standard monomial: `m` is not in the ideal but `m * x_i` is, for every `i`. -/
def Msm (G : List (Term n)) (m : Term n) : Prop :=
  ¬ mem G m ∧ ∀ i, mem G (m + Term.single i 1)

instance (G : List (Term n)) (m : Term n) : Decidable (Msm G m) := by unfold Msm; infer_instance

/-- `m` lies in the irreducible ideal `⟨x_i ^ (d i) : d i > 0⟩`. -/
def memIrr (d m : Term n) : Prop := ∃ i, 0 < d i ∧ d i ≤ m i

instance (d m : Term n) : Decidable (memIrr d m) := by unfold memIrr; infer_instance

/-- `D` is the irredundant irreducible decomposition of the ideal generated by `G`,
each component listed exactly once. -/
structure IsIrrDecomp (D G : List (Term n)) : Prop where
  /-- the intersection of the components is the ideal -/
  inter : ∀ m, mem G m ↔ ∀ d ∈ D, memIrr d m
  /-- no component can be omitted -/
  irredundant : ∀ d ∈ D, ∃ m, ¬ memIrr d m ∧ ∀ d' ∈ D, d' ≠ d → memIrr d' m
  /-- no component is listed twice -/
  nodup : D.Nodup

/-- The prime ideal generated by the variables in `S` is associated to the ideal generated by `G`: it is the colon of
the ideal by a monomial. -/
def IsAssocPrime (G : List (Term n)) (S : Finset (Fin n)) : Prop :=
  ∃ m, ∀ x, mem G (m + x) ↔ ∃ v ∈ S, 0 < x v

/-- The coefficient of `x^m` in the power series `p / ∏ (1 - x_i)`, for the polynomial `p` given by a list of
coefficients and monomials: each term of `p` contributes to all its multiples. -/
def seriesCoef (p : List (ℤ × Term n)) (m : Term n) : ℤ := ((p.filter fun t => decide (t.2 ≤ m)).map (·.1)).sum

/-- `p` is the numerator of the multigraded Hilbert-Poincaré series of the ideal generated by `G`:
`p / ∏ (1 - x_i)` is the sum of the monomials outside the ideal. -/
def IsHilbertNumerator (p : List (ℤ × Term n)) (G : List (Term n)) : Prop :=
  ∀ m, seriesCoef p m = if mem G m then 0 else 1

/-- Every monomial occurs at most once in the polynomial, and with a nonzero coefficient. -/
def Reduced {κ : Type} (p : List (ℤ × κ)) : Prop := (p.map (·.2)).Nodup ∧ ∀ x ∈ p, x.1 ≠ 0

/-- The coefficient of a monomial in a polynomial given by a list of coefficients and monomials. -/
def coefOf {κ : Type} [DecidableEq κ] (p : List (ℤ × κ)) (k : κ) : ℤ := ((p.filter fun x => decide (x.2 = k)).map (·.1)).sum

/-- The polynomial with the same variable substituted for each variable. -/
def substT (p : List (ℤ × Term n)) : List (ℤ × ℕ) := p.map fun x => (x.1, ∑ v, x.2 v)

/-- The coefficient of `t^d` in the power series `p / (1 - t)^n`: the coefficient of `t^k` in `1 / (1 - t)^n` is the
number `n.multichoose k` of monomials of degree `k` in `n` variables. -/
def uniSeriesCoef (n : ℕ) (p : List (ℤ × ℕ)) (d : ℕ) : ℤ :=
  (p.map fun x => if x.2 ≤ d then x.1 * (n.multichoose (d - x.2) : ℤ) else 0).sum

/-! ## calls of a consumer -/

/-- An exponent vector as the vector of integers a consumer gets. -/
def toInt (t : Term n) : Fin n → ℤ := fun v => (t v : ℤ)

/-- A call of the `IdealConsumer` given to an API function (frobby.h:75-101). -/
inductive Event (n : ℕ) where
  /-- `idealBegin(n)` -/
  | begin
  /-- `consume(t)` -/
  | term (t : Fin n → ℤ)
  /-- `idealEnd()` -/
  | done
deriving DecidableEq

/-- The calls that report one ideal: `idealBegin`, `consume` for each generator, `idealEnd`. -/
def Event.block (ts : List (Fin n → ℤ)) : List (Event n) := [.begin] ++ ts.map .term ++ [.done]

/-- A call of the `PolynomialConsumer` given to an API function (frobby.h:103-126), for polynomials in `n` variables. -/
inductive PolyEvent (n : ℕ) where
  /-- `polynomialBegin(n)` -/
  | begin
  /-- `consume(coef, t)` -/
  | term (coef : ℤ) (t : Fin n → ℤ)
  /-- `polynomialEnd()` -/
  | done
deriving DecidableEq

/-- The calls that report one polynomial. -/
def PolyEvent.block (p : List (ℤ × (Fin n → ℤ))) : List (PolyEvent n) := [.begin] ++ p.map (fun x => .term x.1 x.2) ++ [.done]

end Frobby

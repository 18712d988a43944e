import Verif.ListGrammarSpec
import Verif.OptimizeActionSpec
import Verif.PolyIOModel

/-!
# Specification: what the texts of polynomials mean

The grammars of the formats of polynomials, as relations between a text, what it means and the text that is left, as in `GrammarSpec`.
-/

namespace Frobby

/-- An exponent after a variable: `^` and a positive number, or nothing. -/
def polyPowerG (e : ℕ) : Gram := Gram.or (Gram.when (e = 1)) (Gram.when (0 < e) ⊹ lit t!"^" ⊹ integerG e)

/-- A power of a variable. -/
def polyVarG (names : List Text) (p : ℕ × ℕ) : Gram := fun t r => ∃ x, names[p.1]? = some x ∧ (nameG x ⊹ polyPowerG p.2) t r

/-- A power of a variable in CoCoA 4. -/
def polyVarCoCoAG (n : ℕ) (p : ℕ × ℕ) : Gram := fun t r => p.1 < n ∧ (lit t!"x" ⊹ lit t!"[" ⊹ sizeG (p.1 + 1) ⊹ lit t!"]" ⊹ polyPowerG p.2) t r

/-- A coefficient without its sign. -/
def coefG (c : ℕ) : Gram := fun t r => ∃ ds, digitsG [] ds t r ∧ c = valueIn 10 ds

/-- A term without its sign: a coefficient, powers of different variables, or both. -/
def bodyG (names : List Text) (c : ℕ) (e : List ℕ) : Gram := fun t r => ∃ ps : List (ℕ × ℕ), (ps.map Prod.fst).Nodup ∧ e = productOf names.length ps ∧
  (c = 1 ∧ SepBy (polyVarG names) t!"*" ps t r ∨ (coefG c ⊹ Gram.or (Gram.when (ps = []) ⊹ lit []) (lit t!"*" ⊹ SepBy (polyVarG names) t!"*" ps)) t r)

/-- A term without its sign in CoCoA 4. -/
def bodyCoCoAG (names : List Text) (c : ℕ) (e : List ℕ) : Gram := fun t r => ∃ ps : List (ℕ × ℕ), (ps.map Prod.fst).Nodup ∧ e = productOf names.length ps ∧
  (c = 1 ∧ ps ≠ [] ∧ Many (polyVarCoCoAG names.length) ps t r ∨ (coefG c ⊹ Many (polyVarCoCoAG names.length) ps) t r)

/-- The sign of a term. The first term has no plus. -/
def signG (first negative : Bool) : Gram :=
  match first, negative with
  | true, false => lit []
  | true, true => lit t!"-"
  | false, false => lit t!"+"
  | false, true => Gram.or (lit t!"-") (lit t!"+" ⊹ lit t!"-")

/-- A term with its sign. -/
def signedTermG (body : ℕ → List ℕ → Gram) (first : Bool) (p : ℤ × List ℕ) : Gram := fun t r => ∃ (negative : Bool) (c : ℕ),
  p.1 = (if negative then -(c : ℤ) else c) ∧ (signG first negative ⊹ body c p.2) t r

/-- The sum of at least one term. -/
def sumG (body : ℕ → List ℕ → Gram) (ps : List (ℤ × List ℕ)) : Gram := fun t r => ∃ p qs, ps = p :: qs ∧ (signedTermG body true p ⊹ Many (signedTermG body false) qs ⊹ lit t!";") t r

/-- A row of 4ti2: the coefficient and the exponents. Negative exponents count as zero. -/
def polyRowG (n : ℕ) (p : ℤ × List ℕ) : Gram := fun t r => ∃ zs : List ℤ, zs.length = n ∧ p.2 = zs.map Int.toNat ∧ (integerG p.1 ⊹ Many integerG zs) t r

/-- The text of a polynomial in 4ti2. A name that is repeated counts once. -/
def poly4ti2G (P : NamedPoly) : Gram := fun t r => ∃ n,
  (sizeG P.terms.length ⊹ sizeG (n + 1) ⊹ Many (polyRowG n) P.terms ⊹ lit t!"(" ⊹ lit t!"coefficient" ⊹ lit t!")" ⊹
    Gram.or (Gram.when (P.names = (List.range n).map fun i => 'x' :: decimal (i + 1)))
      (fun t r => ∃ written : List Text, written.length = n ∧ Many nameG written t r ∧ P.names = written.eraseDups)) t r

/-- The text of a polynomial in a format. -/
def polyG (f : PolyFormat) (P : NamedPoly) : Gram :=
  match f with
  | .m2 => ringM2G P.names ⊹ lit t!"p" ⊹ lit t!"=" ⊹ sumG (bodyG P.names) P.terms
  | .cocoa4 => ringCoCoAG P.names ⊹ lit t!"p" ⊹ lit t!":=" ⊹ sumG (bodyCoCoAG P.names) P.terms
  | .singular => ringSingularG P.names ⊹ lit t!"poly" ⊹ lit t!"p" ⊹ lit t!"=" ⊹ sumG (bodyG P.names) P.terms
  | .fourti2 => poly4ti2G P

/-- A whole text that means a polynomial. -/
def MeansPoly (f : PolyFormat) (t : Text) (P : NamedPoly) : Prop := (polyG f P ⊹ lit []) t []

end Frobby

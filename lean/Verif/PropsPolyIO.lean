import Verif.PolyIOFormatLemmas
import Verif.PropsIO

/-!
# C43: polynomials, and ideals that are written while they are computed, are read as they were written

A polynomial is written from a `BigPolynomial` with `writePoly` and while it is computed with `writePolyTr`. An ideal is written
from a `BigIdeal` with `writeIdeal` (C32) and while it is computed with `writeIdealTr`.
-/

namespace Frobby

/-- A polynomial in a ring that the formats allow: one exponent for each variable in each term. The numbers of terms and
columns are `size_t`. -/
structure WellFormedPoly (P : NamedPoly) : Prop where
  ring : AllowedRing P.names
  exponents : ∀ p ∈ P.terms, p.2.length = P.names.length
  termCount : P.terms.length < 2 ^ 64
  columns : P.names.length + 1 < 2 ^ 64

/-- The coefficient of the monomial with the exponents `e`. -/
def NamedPoly.coef (P : NamedPoly) (e : List ℕ) : ℤ := (P.terms.map fun p => if p.2 = e then p.1 else 0).sum

/-- An example with coefficients 1, -1, 12 and a constant term. -/
def examplePoly : NamedPoly := { names := [t!"R", t!"R1_a"], terms := [(-1, [2, 1]), (1, [0, 3]), (12, [1, 0]), (-7, [0, 0])] }

theorem examplePoly_wellFormed : WellFormedPoly examplePoly := ⟨exampleIdeal_wellFormed.ring, by decide, by decide, by decide⟩

theorem zeroPoly_wellFormed : WellFormedPoly { names := examplePoly.names, terms := [] } :=
  ⟨exampleIdeal_wellFormed.ring, by simp, by decide, by decide⟩

/-- C43: in each of the formats, a polynomial with terms that is written and read back is the same: the same variables, and the same
terms in the same order. In the format of 4ti2 this is so without terms too. -/
theorem C43_round_trip (f : PolyFormat) {P : NamedPoly} (hP : WellFormedPoly P) (h : P.terms ≠ [] ∨ f = .fourti2) :
    readPoly f (writePoly f P) = some P := by
  by_cases hf : f = .fourti2
  · subst hf
    exact readPoly_4ti2 hP.ring.valid hP.columns hP.termCount hP.exponents
  · rw [readPoly_common hf hP.ring.valid hP.ring.varCount hP.exponents, readBack, if_neg (h.resolve_right hf)]

example (f : PolyFormat) : readPoly f (writePoly f examplePoly) = some examplePoly :=
  C43_round_trip f examplePoly_wellFormed (Or.inl (by decide))

/-- What is written in two of the formats. -/
example : writePoly .m2 examplePoly = t!"R1 = QQ[R, R1_a];\np =\n -R^2*R1_a +\n R1_a^3 +\n 12*R +\n -7;\n" := by decide +kernel
example : writePoly .cocoa4 examplePoly =
    t!"Use R ::= Q[x[1..2]];\nNames := [\"R\", \"R1_a\"];\np :=\n -x[1]^2x[2]\n +x[2]^3\n +12x[1]\n -7;\n" := by decide +kernel

/-- C43: the polynomial without terms is read back as one constant term with the coefficient zero, except in the format of 4ti2. -/
theorem C43_zero {f : PolyFormat} (hf : f ≠ .fourti2) {names : List Text} (hP : WellFormedPoly { names := names, terms := [] }) :
    readPoly f (writePoly f { names := names, terms := [] }) = some { names := names, terms := [(0, List.replicate names.length 0)] } := by
  rw [readPoly_common hf hP.ring.valid hP.ring.varCount hP.exponents]
  rfl

example : readPoly .singular (writePoly .singular { names := examplePoly.names, terms := [] }) =
    some { names := examplePoly.names, terms := [(0, [0, 0])] } := C43_zero (by decide) zeroPoly_wellFormed

/-- C43: so what is read back always has the same variables and the same coefficients. -/
theorem C43_coefficients (f : PolyFormat) {P : NamedPoly} (hP : WellFormedPoly P) :
    ∃ Q, readPoly f (writePoly f P) = some Q ∧ Q.names = P.names ∧ ∀ e, Q.coef e = P.coef e := by
  by_cases h : P.terms ≠ [] ∨ f = .fourti2
  · exact ⟨P, C43_round_trip f hP h, rfl, fun e => rfl⟩
  · obtain ⟨names, terms⟩ := P
    simp only [not_or, not_not] at h
    obtain ⟨rfl, hf⟩ := h
    refine ⟨_, C43_zero hf hP, rfl, fun e => ?_⟩
    simp [NamedPoly.coef]

example (f : PolyFormat) : ∃ Q, readPoly f (writePoly f { names := examplePoly.names, terms := [] }) = some Q ∧ Q.names = examplePoly.names ∧ ∀ e, Q.coef e = 0 :=
  C43_coefficients f zeroPoly_wellFormed

/-- C43: except in the format of CoCoA 4, what is written while a polynomial is computed is what is written for the polynomial. -/
theorem C43_computed_partial {f : PolyFormat} (hf : f ≠ .cocoa4) (P : NamedPoly) : writePolyTr f P = writePoly f P := writePolyTr_eq hf P

example : readPoly .singular (writePolyTr .singular examplePoly) = some examplePoly := by
  rw [C43_computed_partial (by decide)]
  exact C43_round_trip _ examplePoly_wellFormed (Or.inl (by decide))

/-- C43: in the format of CoCoA 4, the exponents zero are written too, and then the polynomial cannot be read. -/
theorem C43_computed_cocoa : ∃ P, WellFormedPoly P ∧ P.terms ≠ [] ∧ writePolyTr .cocoa4 P ≠ writePoly .cocoa4 P ∧
    readPoly .cocoa4 (writePolyTr .cocoa4 P) = none :=
  ⟨examplePoly, examplePoly_wellFormed, by decide, by decide +kernel, by decide +kernel⟩

/-- What is written there. -/
example : writePolyTr .cocoa4 { examplePoly with terms := [(1, [0, 3])] } =
    t!"Use R ::= Q[x[1..2]];\nNames := [\"R\", \"R1_a\"];\np :=\n x[1]^0x[2]^3;\n" := by decide +kernel

/-- C43: in each of the formats, an ideal that is written while it is computed is read back as it is. -/
theorem C43_ideal (f : IOFormat) {I : NamedIdeal} (hI : WellFormed I) : readIdeal f (writeIdealTr f I) = some I :=
  readIdealTr_spec (f := f) hI.readable

example (f : IOFormat) : readIdeal f (writeIdealTr f exampleIdeal) = some exampleIdeal := C43_ideal f exampleIdeal_wellFormed

/-- C43: and except in the format of CoCoA 4, it is what is written for the ideal. -/
theorem C43_ideal_text {f : IOFormat} (hf : f ≠ .cocoa4) (I : NamedIdeal) : writeIdealTr f I = writeIdeal f I := writeIdealTr_eq hf I

example : writeIdealTr .newmonos exampleIdeal = t!"(monomial-ideal-with-order\n (lex-order R R1_a)\n R^2*R1_a\n 1\n R1_a^10\n)\n" := by
  rw [C43_ideal_text (by decide)]
  decide +kernel

end Frobby

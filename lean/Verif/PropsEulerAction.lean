import Verif.EulerActionModel
import Verif.PropsEuler
import Verif.PropsIO
import Verif.PropsHilbertAction

/-!
# C58: the action `euler` from text to text
-/

namespace Frobby

/-- The sets of variables, given by their positions in the ring, that divide the generators. -/
def supports (I : NamedIdeal) : List (Finset ℕ) := I.terms.map fun e => (Finset.range I.names.length).filter fun i => e.getD i 0 ≠ 0

/-- The simplicial complex of the ideal: the one whose facets are the supports of the generators if `swap` is set, and otherwise the one whose faces
are the sets such that the product of the other variables is in the ideal. -/
def complexOf (swap : Bool) (I : NamedIdeal) : Finset (Finset ℕ) :=
  if swap then facetFaces I.names.length (supports I) else dualFaces I.names.length (supports I)

theorem toSq_range (I : NamedIdeal) : ∀ g ∈ I.toSq.gens, g ⊆ Finset.range I.toSq.varCount := by
  intro g hg
  obtain ⟨e, _, rfl⟩ := List.mem_map.1 hg
  exact Finset.filter_subset _ _

/-- C58: **if `euler` prints a number for a text, then the text is that of a square free ideal and the number is the Euler characteristic of its complex**,
for all options, strategies and random numbers, provided that `-impliedDiv` is not used while `-uniqueDiv` and `-manyDiv` are off. Without that
it is false (`C47_implied_wrong`). -/
theorem C58_euler_sound_partial {o : EulerOptions} {fuel : ℕ} {tape : List ℕ} {f : IOFormat} {t s : Text}
    (ho : o.uniqueDiv = true ∨ o.manyDiv = true ∨ o.impliedDiv = false) (h : eulerText o fuel tape f t = .ok s) :
    ∃ I, readIdeal f t = some I ∧ (∀ g ∈ I.terms, ∀ e ∈ g, e ≤ 1) ∧ s = decimalInt (eulerCharacteristic (complexOf o.swap01 I)) ++ t!"\n" := by
  unfold eulerText at h
  cases hr : readSquareFreeIdeal f t with
  | none => rw [hr] at h; exact nomatch h
  | some I =>
    obtain ⟨h1, h2⟩ := C32_square_free_sound hr
    rw [hr] at h
    simp only at h
    refine ⟨I, h1, h2, ?_⟩
    unfold eulerRun at h
    cases he : eulerAction o fuel I.toSq tape with
    | none => rw [he] at h; exact nomatch h
    | some r =>
      rw [he] at h
      cases r with
      | error e => exact nomatch h
      | ok χ =>
        obtain rfl := C47_euler_sound_partial (toSq_range I) ho he
        exact (Outcome.ok.inj h).symm

/-- C58: **`euler` prints the Euler characteristic** for each text that is read as a square free ideal, if the strategy does not use random numbers, and
`-uniqueDiv` is on or the strategy splits by variables. -/
theorem C58_euler_partial {o : EulerOptions} {cfg : EulerConfig} (hc : eulerConfig o = some cfg)
    (ho : o.uniqueDiv = true ∨ (o.manyDiv = true ∨ o.impliedDiv = false) ∧ cfg.pivot.usesTerms = false) (hr : cfg.pivot.isRandom = false)
    {f : IOFormat} {t : Text} {I : NamedIdeal} (h : readSquareFreeIdeal f t = some I) (tape : List ℕ) :
    ∃ K, ∀ fuel, K ≤ fuel → eulerText o fuel tape f t = .ok (decimalInt (eulerCharacteristic (complexOf o.swap01 I)) ++ t!"\n") := by
  refine ⟨(I.toSq.varCount + I.toSq.gens.length + 1) ^ 2 + 2 ^ (I.toSq.varCount + I.toSq.gens.length + 1), fun fuel hf => ?_⟩
  unfold eulerText
  rw [h]
  simp only [eulerRun, C47_euler_total_partial hc ho hr (toSq_range I) tape hf]
  rfl

/-- C58: with the default options `euler` prints the Euler characteristic of each ideal with exponents zero and one that was written in any format, and an error
is reported for each other ideal. -/
theorem C58_euler_default (swap : Bool) (f : IOFormat) {I : NamedIdeal} (hI : WellFormed I) (tape : List ℕ) :
    ((∀ g ∈ I.terms, ∀ e ∈ g, e ≤ 1) →
      ∃ K, ∀ fuel, K ≤ fuel → eulerText { swap01 := swap } fuel tape f (writeIdeal f I) = .ok (decimalInt (eulerCharacteristic (complexOf swap I)) ++ t!"\n")) ∧
    ((∃ g ∈ I.terms, ∃ e ∈ g, 1 < e) → ∀ fuel, eulerText { swap01 := swap } fuel tape f (writeIdeal f I) = .error) := by
  constructor
  · intro h
    have hc : eulerConfig { swap01 := swap } = some ⟨.gen .raremax, true, true, false, true, true⟩ := by
      cases swap <;> rfl
    exact C58_euler_partial hc (.inl rfl) rfl (by rw [C32_square_free f hI, if_pos h]) tape
  · rintro ⟨g, hg, e, he, h⟩ fuel
    unfold eulerText
    rw [C32_square_free f hI, if_neg fun h' => absurd (h' g hg e he) (by omega)]

/-- C58: an error is reported exactly if the text is not read as a square free ideal or one of the options is not known. -/
theorem C58_euler_error (o : EulerOptions) (fuel : ℕ) (tape : List ℕ) (f : IOFormat) (t : Text) :
    eulerText o fuel tape f t = .error ↔ readSquareFreeIdeal f t = none ∨ eulerConfig o = none := by
  unfold eulerText
  cases readSquareFreeIdeal f t with
  | none => simp
  | some I =>
    simp only [eulerRun, eulerAction]
    cases eulerConfig o with
    | none => simp
    | some cfg =>
      simp only [Option.map_some, reduceCtorEq, or_self, iff_false]
      split <;> simp_all

/-- C58: a text that is not that of an ideal, or of one that is not square free, is an error. -/
theorem C58_euler_reject (o : EulerOptions) (fuel : ℕ) (tape : List ℕ) {f : IOFormat} {t : Text}
    (h : ∀ I, readIdeal f t = some I → ∃ g ∈ I.terms, ∃ e ∈ g, 1 < e) : eulerText o fuel tape f t = .error := by
  rw [C58_euler_error]
  left
  cases hr : readSquareFreeIdeal f t with
  | none => rfl
  | some I =>
    obtain ⟨h1, h2⟩ := C32_square_free_sound hr
    obtain ⟨g, hg, e, he, h3⟩ := h I h1
    exact absurd (h2 g hg e he) (by omega)

/-! ## where the claim is wrong -/

/-- The exponent one can be written as `01` for the other actions, but for `euler` the ideal is then not square free. -/
theorem C58_leading_zero (o : EulerOptions) (fuel : ℕ) (tape : List ℕ) :
    readIdeal .m2 t!"R = QQ[a, b]; I = monomialIdeal(a^01*b);" = some { names := [t!"a", t!"b"], terms := [[1, 1]] } ∧
      eulerText o fuel tape .m2 t!"R = QQ[a, b]; I = monomialIdeal(a^01*b);" = .error := by
  refine ⟨by decide +kernel, ?_⟩
  rw [C58_euler_error]
  exact .inl (by decide +kernel)

/-! ## examples -/

/-- The boundary of a triangle, given by its facets. -/
example : printed (eulerText { swap01 := true } 300 [] .monos t!"vars a, b, c;\n[a*b, b*c, a*c];\n") = some t!"-1\n" := by decide +kernel

example : printed (eulerText {} 300 [] .m2 t!"R = QQ[x1, x2];\nI = monomialIdeal(\n x1,\n x2\n);\n") = some t!"1\n" := by decide +kernel

example : eulerCharacteristic (complexOf true { names := [t!"a", t!"b", t!"c"], terms := [[1, 1, 0], [0, 1, 1], [1, 0, 1]] }) = -1 := by decide +kernel

example : printed (eulerText { pivot := t!"std", stdPivot := t!"random", uniqueDiv := false, manyDiv := false, autoTranspose := t!"off" } 300 [0, 0, 0, 0, 0, 0, 0] .fourti2
    t!"3 3\n1 1 0\n0 1 1\n1 0 1\n") = some t!"2\n" := by decide +kernel

example : eulerText { pivot := t!"other" } 300 [] .monos t!"vars a;\n[a];\n" = .error :=
  (C58_euler_error _ _ _ _ _).2 (.inr (by decide +kernel))

example : eulerText {} 300 [] .monos t!"vars a;\n[a^2];\n" = .error := (C58_euler_error _ _ _ _ _).2 (.inl (by decide +kernel))

end Frobby

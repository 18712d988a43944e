import Verif.HilbertApiLemmas
import Verif.PropsApi

/-!
# C12, C13, C30: Hilbert-Poincaré series and the polynomial classes
-/

namespace Frobby

variable {n : ℕ}

theorem apiOpts_valid_hilbert : apiOpts.valid .hilbert := ⟨by simp [apiOpts], fun _ => rfl⟩

/-- C12: the consumer gets one polynomial; divided by `(1-x_1)...(1-x_n)` it is the sum of the monomials outside the
ideal; no monomial is emitted twice or with coefficient zero; every other polynomial with these properties is a
rearrangement. -/
theorem C12_multigradedHilbert (rnd : List ℕ → ℕ → ℕ) (G : List (Term n)) :
    ∃ p : List (ℤ × Term n), multigradedHilbertPoincareSeries rnd G =
        some ([.begin] ++ p.map (fun x => .term x.1 (toInt x.2)) ++ [.done]) ∧
      IsHilbertNumerator p G ∧ Reduced p ∧ ∀ q, IsHilbertNumerator q G → Reduced q → q.Perm p := by
  obtain ⟨p, h1, h2, h3, _⟩ := facadeMultigraded_spec apiOpts_valid_hilbert rnd G
  refine ⟨p, ?_, h2, h3, fun q hq hr => hr.perm h3 fun m => ?_⟩
  · unfold multigradedHilbertPoincareSeries
    rw [h1, Option.map_some, PolyEvent.block, List.map_map]; rfl
  · rw [← coefSum_eq_coefOf, ← coefSum_eq_coefOf]
    exact coefSum_eq_of_series (fun m => by rw [hq m, h2 m]) m

/-- C13: the consumer gets one polynomial in one variable, with the terms by decreasing degree, each degree once and no
zero coefficients; it is every numerator of the multigraded series with `t` substituted for each variable. -/
theorem C13_univariateHilbert (rnd : List ℕ → ℕ → ℕ) (order : List (ℤ × ℤ) → List (ℤ × ℤ))
    (hord : ∀ l, (order l).Perm l) (G : List (Term n)) :
    ∃ q : List (ℤ × ℕ), univariateHilbertPoincareSeries rnd order G =
        some ([.begin] ++ q.map (fun x => .term x.1 (fun _ => (x.2 : ℤ))) ++ [.done]) ∧
      (q.Pairwise fun a b => a.2 > b.2) ∧ (∀ x ∈ q, x.1 ≠ 0) ∧
      (∀ p, IsHilbertNumerator p G → ∀ d, coefOf q d = coefOf (substT p) d) ∧
      ∀ d, uniSeriesCoef n q d = ((Finset.Nat.antidiagonalTuple n d).filter fun m : Term n => ¬ mem G m).card := by
  obtain ⟨p, q, h1, h2, h3, h4, h5⟩ := facadeUnivariate_spec apiOpts_valid_hilbert rnd hord G
  refine ⟨q, ?_, h4, h3.2, fun p' hp' d => ?_, fun d => ?_⟩
  · unfold univariateHilbertPoincareSeries
    rw [h1, Option.map_some, PolyEvent.block, List.map_map, List.map_map]; rfl
  · rw [h5]
    have hco : ∀ m, coefOf p m = coefOf p' m := fun m => by
      rw [← coefSum_eq_coefOf, ← coefSum_eq_coefOf]
      exact coefSum_eq_of_series (fun m => by rw [hp' m, h2 m]) m
    exact coefOf_substT hco d
  · rw [← hilbert_function h2, uniSeriesCoef_eq, uniSeriesCoef_eq]
    exact Finset.sum_congr rfl fun e _ => by rw [h5]

/-! ## polynomial classes -/

/-- C30: after any sequence of additions to a hash polynomial (of terms or of exponents) the entries are exactly the
nonzero sums, and `feedTo` emits them once each; in canonical order they are strictly decreasing, whatever the order of
the hash table is. -/
theorem C30_hashPolynomial {κ : Type} [DecidableEq κ] (before : κ → κ → Prop) [DecidableRel before] [Std.Total before]
    [IsTrans κ before] (order : List (ℤ × κ) → List (ℤ × κ)) (hord : ∀ l, (order l).Perm l) (canonical : Bool)
    (adds : List (ℤ × κ)) :
    ∃ out, hashFeed before order canonical (adds.foldl (fun m x => hashAdd x.1 x.2 m) []) = out ∧
      (∀ c k, (c, k) ∈ out ↔ c ≠ 0 ∧ c = coefOf adds k) ∧ (out.map (·.2)).Nodup ∧
      (canonical = true → out.Pairwise fun a b => before a.2 b.2 ∧ a.2 ≠ b.2) := by
  obtain ⟨h1, h2⟩ := hashAddAll_spec adds
  have hp := hashFeed_perm before hord canonical (adds.foldl (fun m x => hashAdd x.1 x.2 m) [])
  have hr := reduced_of_perm hp.symm h1
  refine ⟨_, rfl, fun c k => ?_, hr.1, ?_⟩
  · rw [hr.mem_iff, coefOf_perm hp, h2]
    exact and_congr_right fun _ => eq_comm
  · rintro rfl
    have h3 := hr.1
    rw [List.Nodup, List.pairwise_map] at h3
    exact (hashFeed_sorted before order _).and h3

/-- C30: `add(plus, term)` is `add(±1, term)`. -/
theorem C30_addSign {κ : Type} [DecidableEq κ] (plus : Bool) (k : κ) (m : List (ℤ × κ)) :
    hashAddSign plus k m = hashAdd (if plus then 1 else -1) k m := by
  cases plus <;> simp [hashAddSign, hashAdd]

/-- C37: `Polynomial::sortTermsReverseLex` keeps all coefficients and sorts strictly by decreasing lexicographic order,
so that no monomial occurs twice. Missing from the documented behaviour: the last coefficient may be zero, see
`C37_trailing_zero`. -/
theorem C37_polynomialSort_partial (p : List (ℤ × Term n)) :
    (∀ t, coefOf (polySort true p) t = coefOf p t) ∧
      (polySort true p).Pairwise (fun a b => lexLE b.2 a.2 ∧ a.2 ≠ b.2) ∧
      ∀ x ∈ (polySort true p).dropLast, x.1 ≠ 0 := polySort_spec p

/-- C37: it is false that zero coefficients are removed (Polynomial.h:39-41): a zero sum of the last monomial stays. -/
theorem C37_trailing_zero : ¬ ∀ p : List (ℤ × Term 1), ∀ x ∈ polySort true p, x.1 ≠ 0 := by
  intro h
  have := h [(1, fun _ => 0), (-1, fun _ => 0)] (0, fun _ => 0) (by decide)
  exact this rfl

/-- C37: on what the Hilbert series algorithm emits (`Reduced`) the result is right. -/
theorem C37_polynomialSort_reduced (p : List (ℤ × Term n)) (hp : Reduced p) :
    (polySort true p).Perm p ∧ (polySort true p).Pairwise (fun a b => lexLE b.2 a.2 ∧ a.2 ≠ b.2) := by
  obtain ⟨h1, h2, h3⟩ := polySort_spec p
  refine ⟨?_, h2⟩
  exact polySort_perm hp

/-! ## examples -/

/-- C12, C13: the numerator for `⟨x^2, x y⟩` is `1 - x^2 - x y + x^2 y`, and with `t` it is `1 - 2 t^2 + t^3`. -/
example : IsHilbertNumerator [(1, ![0, 0]), (-1, ![2, 0]), (-1, ![1, 1]), (1, ![2, 1])] [(![2, 0] : Term 2), ![1, 1]] ∧
    Reduced [((1 : ℤ), (![0, 0] : Term 2)), (-1, ![2, 0]), (-1, ![1, 1]), (1, ![2, 1])] := by
  refine ⟨fun m => ?_, by unfold Reduced; decide⟩
  simp only [seriesCoef_cons, seriesCoef_nil, mem, Term.le_def, Fin.forall_fin_two]
  simp
  split_ifs <;> omega

example : coefOf (substT [(1, (![0, 0] : Term 2)), (-1, ![2, 0]), (-1, ![1, 1]), (1, ![2, 1])]) 2 = -2 := by decide

example (rnd : List ℕ → ℕ → ℕ) : ∃ p : List (ℤ × Term 2), multigradedHilbertPoincareSeries rnd [(![2, 0] : Term 2), ![1, 1]] =
        some ([.begin] ++ p.map (fun x => .term x.1 (toInt x.2)) ++ [.done]) ∧
      List.Perm [(1, ![0, 0]), (-1, ![2, 0]), (-1, ![1, 1]), (1, ![2, 1])] p := by
  obtain ⟨p, h1, _, _, h4⟩ := C12_multigradedHilbert rnd [(![2, 0] : Term 2), ![1, 1]]
  refine ⟨p, h1, h4 _ (fun m => ?_) (by unfold Reduced; decide)⟩
  simp only [seriesCoef_cons, seriesCoef_nil, mem, Term.le_def, Fin.forall_fin_two]
  simp
  split_ifs <;> omega

/-- C30: cancellation empties the polynomial. -/
example : ([(2, 5), (1, 3), (-2, 5)] : List (ℤ × ℤ)).foldl (fun m x => hashAdd x.1 x.2 m) [] = [(1, 3)] := by decide

/-- C37: collecting works in the middle. -/
example : polySort true [((1 : ℤ), (![0, 0] : Term 2)), (2, ![1, 0]), (-2, ![1, 0])] = [(1, ![0, 0])] := by decide

end Frobby

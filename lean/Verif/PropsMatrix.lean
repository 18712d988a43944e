import Verif.MatrixLemmas5

/-!
# C52: the linear algebra in `Matrix` is right

`Matrix` is used by the analysis of lattice ideals. The functions are compared with the notions of linear algebra in Mathlib (determinant,
rank, inverse, null space as kernel, linear independence) and with the text book definitions of `MatrixSpec`.
-/

namespace Frobby

open Matrix

variable {r c : ℕ}

/-- A matrix of rank two. -/
def matExample : Matrix (Fin 3) (Fin 4) ℚ := of ![![0, 2, 4, 1], ![0, 1, 2, 3], ![0, 3, 6, 4]]

/-- **C52.** Different entries of a matrix are stored at different places, all of which are inside the memory of the matrix. -/
theorem C52_storage (i j i' j' : ℕ) (hi : i < r) (hj : j < c) (hj' : j' < c) :
    storageIndex c i j < r * c ∧ (storageIndex c i j = storageIndex c i' j' → i = i' ∧ j = j') := by
  unfold storageIndex
  constructor
  · have : (i + 1) * c ≤ r * c := Nat.mul_le_mul_right c hi
    rw [Nat.add_mul] at this
    omega
  · intro h
    have h1 : (j + i * c) / c = i := by rw [Nat.add_mul_div_right _ _ (by omega), Nat.div_eq_of_lt hj, Nat.zero_add]
    have h2 : (j' + i' * c) / c = i' := by rw [Nat.add_mul_div_right _ _ (by omega), Nat.div_eq_of_lt hj', Nat.zero_add]
    have : i = i' := by rw [← h1, h, h2]
    subst this
    exact ⟨rfl, by omega⟩

example : storageIndex 4 2 3 = 11 := rfl

/-- **C52.** `product` and `transpose`. -/
theorem C52_product {k : ℕ} (a : Matrix (Fin r) (Fin k) ℚ) (b : Matrix (Fin k) (Fin c) ℚ) : matProduct a b = a * b ∧ matTranspose a = aᵀ :=
  ⟨matProduct_eq a b, rfl⟩

example : matProduct (of ![![(1 : ℚ), 2]]) (of ![![3], ![4]]) = of ![![11]] := by decide +kernel

/-- **C52.** `rowReduce` gives a matrix in row echelon form with the same row space. For a square matrix the determinant stays the same, except
for the sign when the answer is that the permutation of the rows is odd. -/
theorem C52_rowReduce (a : Matrix (Fin r) (Fin c) ℚ) : RowEchelon (rowReduce a).1 ∧ rowSpace (rowReduce a).1 = rowSpace a ∧
    ∃ P : Matrix (Fin r) (Fin r) ℚ, P.det = (if (rowReduce a).2 then -1 else 1) ∧ (rowReduce a).1 = P * a := by
  obtain ⟨⟨ps, h1⟩, h2⟩ := rowReduce_spec a
  refine ⟨h1.echelon, h2.rowSpace ?_, h2⟩
  split <;> norm_num

example : rowReduce matExample = (of ![![0, 2, 4, 1], ![0, 0, 0, 5/2], ![0, 0, 0, 0]], false) := by decide +kernel

/-- **C52.** `rowReduceFully` gives the reduced row echelon form: it has the form, it has the same row space, and it is the only such matrix. -/
theorem C52_rowReduceFully (a b : Matrix (Fin r) (Fin c) ℚ) : b = rowReduceFully a ↔ ReducedEchelon b ∧ rowSpace b = rowSpace a := by
  obtain ⟨ps, h1, s, hs, h2⟩ := rowReduceFully_spec a
  constructor
  · rintro rfl
    exact ⟨h1.reducedEchelon, h2.rowSpace hs⟩
  · rintro ⟨h3, h4⟩
    exact reducedEchelon_unique h3 h1.reducedEchelon (h4.trans (h2.rowSpace hs).symm)

example : rowReduceFully matExample = of ![![0, 1, 2, 0], ![0, 0, 0, 1], ![0, 0, 0, 0]] := by decide +kernel

/-- **C52.** Two matrices of the same size have the same row space exactly when `rowReduceFully` makes them equal. -/
theorem C52_canonical (a b : Matrix (Fin r) (Fin c) ℚ) : rowReduceFully a = rowReduceFully b ↔ rowSpace a = rowSpace b := by
  rw [C52_rowReduceFully b (rowReduceFully a)]
  obtain ⟨h1, h2⟩ := (C52_rowReduceFully a _).1 rfl
  rw [h2]
  exact ⟨fun h => h.2, fun h => ⟨h1, h⟩⟩

example : rowReduceFully (of ![![(2 : ℚ), 4], ![1, 3]]) = rowReduceFully (of ![![0, 5], ![1, 1]]) := by decide +kernel

/-- **C52, disagreement.** The documentation of `rowReduceFully` (Matrix.h:96-99) says that no column of the result contains two entries that
are not zero and that all entries are zero or one. Neither is so. -/
theorem C52_documentation : ∃ a : Matrix (Fin 2) (Fin 3) ℚ, (∃ j, rowReduceFully a 0 j ≠ 0 ∧ rowReduceFully a 1 j ≠ 0) ∧
    ∃ i j, rowReduceFully a i j ≠ 0 ∧ rowReduceFully a i j ≠ 1 :=
  ⟨of ![![1, 0, 2], ![0, 1, 3]], ⟨2, by decide +kernel, by decide +kernel⟩, 0, 2, by decide +kernel, by decide +kernel⟩

/-- **C52.** `matrixRank` is the rank, the number of dimensions of the space of the columns. -/
theorem C52_rank (a : Matrix (Fin r) (Fin c) ℚ) : matrixRank a = a.rank := matrixRank_eq a

example : matrixRank matExample = 2 := by decide +kernel

/-- **C52.** `determinant`. -/
theorem C52_determinant (a : Matrix (Fin r) (Fin r) ℚ) : determinant a = a.det := determinant_eq a

example : determinant (of ![![(0 : ℚ), 2], ![3, 5]]) = -6 := by decide +kernel

/-- **C52, part.** `inverse` for a matrix with at least one row: when there is an inverse then it is found, and otherwise the answer is that
there is none. What is missing is the matrix without rows, see `C52_inverse_empty`. -/
theorem C52_inverse_partial (a : Matrix (Fin r) (Fin r) ℚ) (hr : 0 < r) : ∃ res, matInverse a = .ok res ∧
    (∀ b, res = some b → a * b = 1 ∧ b * a = 1) ∧ (res = none → ¬ ∃ b, a * b = 1) := by
  obtain ⟨h1, h2⟩ := matInverse_spec a hr
  by_cases hu : IsUnit a.det
  · obtain ⟨b, h3, h4, h5⟩ := h1 hu
    refine ⟨some b, h3, ?_, fun h => nomatch h⟩
    rintro _ ⟨⟩
    exact ⟨h5, h4⟩
  · refine ⟨none, h2 hu, (fun _ h => nomatch h), fun _ ⟨b, hb⟩ => hu ?_⟩
    have := congrArg det hb
    rw [det_mul, det_one] at this
    exact IsUnit.of_mul_eq_one _ this

example : (match matInverse (of ![![(0 : ℚ), 2], ![3, 5]]) with
    | .ok (some b) => decide (b = of ![![-5/6, 1/3], ![1/2, 0]])
    | _ => false) = true := by decide +kernel

example : (match matInverse (of ![![(1 : ℚ), 2], ![2, 4]]) with
    | .ok none => true
    | _ => false) = true := by decide +kernel

/-- **C52, disagreement.** The matrix without rows is its own inverse, but `inverse` reads an entry outside of it. -/
theorem C52_inverse_empty (a : Matrix (Fin 0) (Fin 0) ℚ) : matInverse a = .crash ∧ a * a = 1 :=
  ⟨rfl, by ext i; exact i.elim0⟩

/-- **C52.** The columns that `nullSpace` gives are a basis of the null space. They consist of integers without a common prime factor. -/
theorem C52_nullSpace (a : Matrix (Fin r) (Fin c) ℚ) : ∃ vs, nullSpace a = some vs ∧ LinearIndependent ℚ (fun i : Fin vs.length => vs[i.val]) ∧
    Submodule.span ℚ {v | v ∈ vs} = LinearMap.ker a.mulVecLin ∧ vs.length + matrixRank a = c ∧
    ∀ v ∈ vs, ∃ w : Fin c → ℤ, (∀ j, v j = (w j : ℚ)) ∧ ∀ p : ℕ, p.Prime → ¬ ∀ i, (p : ℤ) ∣ w i := by
  obtain ⟨vs, h1, h2, h3, h4⟩ := nullSpace_basis a
  refine ⟨vs, h1, h2, h3, ?_, h4⟩
  have h5 : Module.finrank ℚ (Submodule.span ℚ {v | v ∈ vs}) = vs.length := by
    have := finrank_span_eq_card h2
    rw [Fintype.card_fin] at this
    rw [← this]
    have e : {v | v ∈ vs} = Set.range fun i : Fin vs.length => vs[i.val] := ?_
    · rw [e]
    ext v
    exact List.mem_iff_getElem.trans ⟨fun ⟨i, hi, e⟩ => ⟨⟨i, hi⟩, e⟩, fun ⟨i, e⟩ => ⟨i.val, i.2, e⟩⟩
  have h6 := a.mulVecLin.finrank_range_add_finrank_ker
  rw [Module.finrank_fin_fun] at h6
  rw [matrixRank_eq, ← h5, h3, Matrix.rank, add_comm]
  exact h6

example : nullSpace matExample = some [![1, 0, 0, 0], ![0, -2, 1, 0]] := by decide +kernel

/-- **C52.** When `solve` gives a matrix then it is a solution of the system, and when it gives none then there is no solution. -/
theorem C52_solve {k : ℕ} (lhs : Matrix (Fin r) (Fin c) ℚ) (rhs : Matrix (Fin r) (Fin k) ℚ) :
    (∀ x, matSolve lhs rhs = some x → lhs * x = rhs) ∧ (matSolve lhs rhs = none → ¬ ∃ x, lhs * x = rhs) := matSolve_spec lhs rhs

example : matSolve matExample (of ![![7], ![6], ![13]]) = some (of ![![0], ![3], ![0], ![1]]) := by decide +kernel

example : matSolve matExample (of ![![7], ![6], ![0]]) = none := by decide +kernel

/-- **C52.** `hasSameColSpace` and `hasSameRowSpace`. The matrices may have different numbers of columns or rows. -/
theorem C52_sameSpace {r' c' : ℕ} (a : Matrix (Fin r) (Fin c) ℚ) :
    (∀ b : Matrix (Fin r) (Fin c') ℚ, hasSameColSpace a b = true ↔ colSpace a = colSpace b) ∧
    (∀ b : Matrix (Fin r') (Fin c) ℚ, hasSameRowSpace a b = true ↔ rowSpace a = rowSpace b) ∧
    ∀ b : Matrix (Fin r') (Fin c') ℚ, (r ≠ r' → hasSameColSpace a b = false) ∧ (c ≠ c' → hasSameRowSpace a b = false) :=
  ⟨fun b => hasSameColSpace_iff a b, fun b => hasSameColSpace_iff aᵀ bᵀ, fun _ => ⟨fun h => dif_neg h, fun h => dif_neg h⟩⟩

example : hasSameRowSpace matExample (of ![![0, 1, 2, 0], ![0, 0, 0, 7]]) = true := by decide +kernel

example : hasSameColSpace matExample (of ![![1, 0], ![0, 0], ![0, 1]]) = false := by decide +kernel

/-- **C52.** `isParallelogram` finds out whether the rows are the vertices of a parallelogram, in any order. -/
theorem C52_isParallelogram (a : Matrix (Fin r) (Fin c) ℚ) : isParallelogram a = true ↔ ParallelogramRows a := by
  by_cases h : r = 4
  · subst h; exact isParallelogram_four a
  · rw [isParallelogram, getOppositeZeroRow_none a h]
    refine ⟨fun h => (nomatch h), ?_⟩
    rintro ⟨p, q, s, t, h1, h2, _⟩
    have h3 : (Finset.univ : Finset (Fin r)) = [p, q, s, t].toFinset := by
      ext i; simpa using h2 i
    have h4 := congrArg Finset.card h3
    rw [List.toFinset_card_of_nodup h1, Finset.card_univ, Fintype.card_fin] at h4
    exact absurd h4 h

example : isParallelogram (of ![![(0 : ℚ), 0], ![3, 1], ![1, 1], ![2, 0]]) = true := by decide +kernel

/-- **C52.** `getParallelogramAreaSq` gives the square of the area, whichever three of the vertices it is computed from. -/
theorem C52_area (m : Matrix (Fin 4) (Fin c) ℚ) (hm : ParallelogramRows m) {i j k : Fin 4} (hij : i ≠ j) (hik : i ≠ k) (hjk : j ≠ k) :
    getParallelogramAreaSq m = some (areaSq (fun l => m i l) (fun l => m j l) (fun l => m k l)) :=
  getParallelogramAreaSq_spec m ((isParallelogram_four m).2 hm) hij hik hjk

example : getParallelogramAreaSq (of ![![(0 : ℚ), 0], ![3, 1], ![1, 1], ![2, 0]]) = some 4 := by decide +kernel

end Frobby

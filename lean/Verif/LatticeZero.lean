import Verif.LatticeSpec
import Mathlib.Tactic.Ring
import Mathlib.Tactic.LinearCombination

/-!
# Making zeros in a basis of a lattice
-/

namespace Frobby

variable {c : ℕ} {rows : List (List ℤ)}

/-- A row as a vector. -/
def vecOf (c : ℕ) (row : List ℤ) : Fin c → ℤ := fun i => row.getD i 0

theorem vecOf_mem {row : List ℤ} (h : row ∈ rows) : vecOf c row ∈ latticeOf c rows := AddSubgroup.subset_closure ⟨row, h, rfl⟩

theorem latticeOf_le {rows' : List (List ℤ)} (h : ∀ row ∈ rows, vecOf c row ∈ latticeOf c rows') : latticeOf c rows ≤ latticeOf c rows' := by
  refine (AddSubgroup.closure_le _).2 ?_
  rintro v ⟨row, h1, rfl⟩
  exact h row h1

theorem rowAt_mem {j : ℕ} (h : j < rows.length) : rows.getD j [] ∈ rows := by
  rw [List.getD_eq_getElem _ _ h]
  exact List.getElem_mem h

/-- All rows have the same number of entries. -/
def HasCols (c : ℕ) (rows : List (List ℤ)) : Prop := ∀ row ∈ rows, row.length = c

theorem vecOf_zipWith {a b : List ℤ} (ha : a.length = c) (hb : b.length = c) (m : ℤ) : vecOf c (List.zipWith (fun x y => x + y * m) a b) = vecOf c a + m • vecOf c b := by
  funext i
  have h1 : (i : ℕ) < a.length := by omega
  have h2 : (i : ℕ) < b.length := by omega
  simp [vecOf, h1, h2, List.getElem_zipWith]
  ring

theorem addMultiple_length (rows : List (List ℤ)) (i j : ℕ) (m : ℤ) : (addMultiple rows i j m).length = rows.length := by
  unfold addMultiple
  split <;> simp

theorem addMultiple_cols (h : HasCols c rows) {i j : ℕ} (hi : i < rows.length) (hj : j < rows.length) (m : ℤ) : HasCols c (addMultiple rows i j m) := by
  unfold addMultiple
  split
  · exact h
  · intro row hrow
    rcases List.mem_or_eq_of_mem_set hrow with hrow | rfl
    · exact h row hrow
    · rw [List.length_zipWith, h _ (rowAt_mem hi), h _ (rowAt_mem hj), Nat.min_self]

theorem addMultiple_getD (rows : List (List ℤ)) (i j : ℕ) (m : ℤ) {k : ℕ} (hk : k ≠ j) : (addMultiple rows i j m).getD k [] = rows.getD k [] := by
  unfold addMultiple
  split
  · rfl
  · simp [List.getD_eq_getElem?_getD, List.getElem?_set_ne (Ne.symm hk)]

theorem addMultiple_getD_self {i j : ℕ} (h : HasCols c rows) (hi : i < rows.length) (hj : j < rows.length) (m : ℤ) :
    (addMultiple rows i j m).getD j [] = List.zipWith (fun x y => x + y * m) (rows.getD j []) (rows.getD i []) := by
  unfold addMultiple
  split
  · rename_i h0
    subst h0
    simp only [mul_zero, add_zero]
    have h1 := h _ (rowAt_mem hi)
    have h2 := h _ (rowAt_mem hj)
    refine List.ext_getElem (by rw [List.length_zipWith]; omega) fun k _ _ => by simp
  · simp [List.getD_eq_getElem?_getD, hj]

theorem addMultiple_lattice (h : HasCols c rows) {i j : ℕ} (hij : j ≠ i) (hi : i < rows.length) (hj : j < rows.length) (m : ℤ) :
    latticeOf c (addMultiple rows i j m) = latticeOf c rows := by
  have hv : vecOf c ((addMultiple rows i j m).getD j []) = vecOf c (rows.getD j []) + m • vecOf c (rows.getD i []) := by
    rw [addMultiple_getD_self h hi hj, vecOf_zipWith (h _ (rowAt_mem hj)) (h _ (rowAt_mem hi))]
  have hl := addMultiple_length rows i j m
  have hmem : ∀ {k : ℕ}, k < rows.length → (addMultiple rows i j m).getD k [] ∈ addMultiple rows i j m := fun hk => rowAt_mem (by omega)
  refine le_antisymm (latticeOf_le fun row hrow => ?_) (latticeOf_le fun row hrow => ?_)
  · obtain ⟨k, hk, rfl⟩ := List.getElem_of_mem hrow
    rw [← List.getD_eq_getElem _ [] hk]
    by_cases hkj : k = j
    · subst hkj
      rw [hv]
      exact add_mem (vecOf_mem (rowAt_mem hj)) (zsmul_mem (vecOf_mem (rowAt_mem hi)) m)
    · rw [addMultiple_getD _ _ _ _ hkj]
      exact vecOf_mem (rowAt_mem (by omega))
  · obtain ⟨k, hk, rfl⟩ := List.getElem_of_mem hrow
    rw [← List.getD_eq_getElem _ [] hk]
    by_cases hkj : k = j
    · subst hkj
      have h1 : vecOf c (rows.getD k []) = vecOf c ((addMultiple rows i k m).getD k []) - m • vecOf c ((addMultiple rows i k m).getD i []) := by
        rw [hv, addMultiple_getD _ _ _ _ (Ne.symm hij)]
        simp
      rw [h1]
      exact sub_mem (vecOf_mem (hmem hj)) (zsmul_mem (vecOf_mem (hmem hi)) m)
    · rw [← addMultiple_getD rows i j m hkj]
      exact vecOf_mem (hmem hk)

/-- What the loops keep. -/
structure SameLattice (c : ℕ) (rows rows' : List (List ℤ)) : Prop where
  cols : HasCols c rows'
  length : rows'.length = rows.length
  lattice : latticeOf c rows' = latticeOf c rows

theorem clearColumn_spec (h : HasCols c rows) {col i : ℕ} (hcol : col < c) (hi : i < rows.length) {sign : ℤ} (hs : sign = 1 ∨ sign = -1) (he : (rows.getD i []).getD col 0 = sign) :
    SameLattice c rows (clearColumn col i sign rows) ∧ (clearColumn col i sign rows).getD i [] = rows.getD i [] ∧
      ∀ j < rows.length, j ≠ i → ((clearColumn col i sign rows).getD j []).getD col 0 = 0 := by
  have key : ∀ k ≤ rows.length, ∃ B, (List.range k).foldl (fun B j => if j = i then B else addMultiple B i j (-1 * sign * (B.getD j []).getD col 0)) rows = B ∧
      SameLattice c rows B ∧ B.getD i [] = rows.getD i [] ∧ ∀ j < k, j ≠ i → (B.getD j []).getD col 0 = 0 := by
    intro k
    induction k with
    | zero => exact fun _ => ⟨rows, rfl, ⟨h, rfl, rfl⟩, rfl, fun j hj => by omega⟩
    | succ k ih =>
      intro hk
      obtain ⟨B, h1, h2, h3, h4⟩ := ih (by omega)
      rw [List.range_succ, List.foldl_append, h1]
      simp only [List.foldl_cons, List.foldl_nil]
      have hiB : i < B.length := by rw [h2.length]; exact hi
      have hkB : k < B.length := by rw [h2.length]; omega
      by_cases hki : k = i
      · rw [if_pos hki]
        exact ⟨B, rfl, h2, h3, fun j hj hji => h4 j (by omega) hji⟩
      · rw [if_neg hki]
        refine ⟨_, rfl, ⟨addMultiple_cols h2.cols hiB hkB _, by rw [addMultiple_length, h2.length], by rw [addMultiple_lattice h2.cols hki hiB hkB, h2.lattice]⟩,
          by rw [addMultiple_getD _ _ _ _ (Ne.symm hki), h3], fun j hj hji => ?_⟩
        by_cases hjk : j = k
        · subst hjk
          rw [addMultiple_getD_self h2.cols hiB hkB, h3]
          have hl1 := h2.cols _ (rowAt_mem hkB)
          have hl2 := h _ (rowAt_mem hi)
          have e1 : col < (B.getD j []).length := by omega
          have e2 : col < (rows.getD i []).length := by omega
          rw [List.getD_eq_getElem _ _ (by simp only [List.length_zipWith]; omega), List.getElem_zipWith, ← List.getD_eq_getElem _ 0 e1, ← List.getD_eq_getElem _ 0 e2, he]
          rcases hs with rfl | rfl <;> ring
        · rw [addMultiple_getD _ _ _ _ hjk]
          exact h4 j (by omega) hji
  obtain ⟨B, h1, h2⟩ := key rows.length (Nat.le_refl _)
  rw [clearColumn, h1]
  exact h2

theorem zeroColumn_spec (h : HasCols c rows) {col : ℕ} (hcol : col < c) : SameLattice c rows (zeroColumn rows col) ∧ ColumnDone col (zeroColumn rows col) := by
  unfold zeroColumn
  split
  · rename_i hf
    refine ⟨⟨h, rfl, rfl⟩, .inl fun row hrow => ?_⟩
    obtain ⟨k, hk, rfl⟩ := List.getElem_of_mem hrow
    have := List.find?_eq_none.1 hf k (by simpa using hk)
    rw [← List.getD_eq_getElem _ [] hk]
    simpa using this
  · rename_i i hf
    have hi : i < rows.length := by simpa using List.mem_of_find?_eq_some hf
    have hs := List.find?_some hf
    simp only [Bool.or_eq_true, decide_eq_true_eq] at hs
    obtain ⟨h1, -, h2⟩ := clearColumn_spec h hcol hi hs rfl
    exact ⟨h1, .inr ⟨i, by rw [h1.length]; exact hi, fun j hj => h2 j (by rw [← h1.length]; exact hj)⟩⟩

theorem zeroColumns_spec : ∀ (cols : List ℕ) (rows : List (List ℤ)), HasCols c rows → (∀ col ∈ cols, col < c) → SameLattice c rows (cols.foldl zeroColumn rows)
  | [], rows, h, _ => ⟨h, rfl, rfl⟩
  | col :: cols, rows, h, hc => by
    obtain ⟨h1, -⟩ := zeroColumn_spec h (hc col (by simp))
    have h2 := zeroColumns_spec cols (zeroColumn rows col) h1.cols fun x hx => hc x (by simp [hx])
    exact ⟨h2.cols, h2.length.trans h1.length, h2.lattice.trans h1.lattice⟩

theorem makeZeroes_spec (h : HasCols c rows) (h0 : rows ≠ []) (hc : c ≠ 0) : ∃ rows', makeZeroes ⟨c, rows⟩ = .ok ⟨c, rows'⟩ ∧ SameLattice c rows rows' ∧ (1 < c → ColumnDone 1 rows') := by
  refine ⟨_, by rw [makeZeroes, if_neg (by simp [h0, hc])], zeroColumns_spec _ rows h ?_, fun h1 => ?_⟩
  · simp only [List.mem_map, List.mem_reverse, List.mem_range]
    rintro col ⟨k, hk, rfl⟩
    omega
  · obtain ⟨k, rfl⟩ : ∃ k, c = k + 2 := ⟨c - 2, by omega⟩
    simp only [show k + 2 - 1 = k + 1 by omega]
    rw [List.range_succ_eq_map, List.reverse_cons, List.map_append, List.foldl_append]
    refine (zeroColumn_spec (c := k + 2) (zeroColumns_spec _ rows h ?_).cols (by omega)).2
    simp only [List.mem_map, List.mem_reverse, List.mem_range]
    rintro col ⟨_, ⟨j, hj, rfl⟩, rfl⟩
    omega

end Frobby

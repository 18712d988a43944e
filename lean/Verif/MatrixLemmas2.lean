import Mathlib.LinearAlgebra.Matrix.Rank
import Mathlib.LinearAlgebra.Matrix.Block
import Mathlib.Data.Nat.GCD.BigOperators
import Mathlib.Data.Int.GCD
import Mathlib.Algebra.GCDMonoid.Nat
import Mathlib.Algebra.GCDMonoid.Finset
import Mathlib.Data.List.Sort
import Verif.MatrixLemmas

/-!
# Rank, determinant, inverse, null space and linear systems
-/

namespace Frobby

open Matrix

variable {r c : ℕ}

/-! ## determinant and inverse -/

theorem PivotsTo.index_le {a : Matrix (Fin r) (Fin c) ℚ} {ps : List (Fin c)} {C : ℕ} (h : PivotsTo a ps C) : ∀ {i : ℕ} {p : Fin c}, ps[i]? = some p → i ≤ p.val := by
  intro i
  induction i with
  | zero => intro p _; omega
  | succ i ih =>
    intro p hp
    obtain ⟨h1, _⟩ := List.getElem?_eq_some_iff.1 hp
    have hq : ps[i]? = some (ps[i]'(by omega)) := List.getElem?_eq_getElem (by omega)
    have h2 := ih hq
    have h3 := h.lt hq hp (by omega)
    have : (ps[i]'(by omega)).val < p.val := h3
    omega

theorem PivotsTo.upper {a : Matrix (Fin r) (Fin c) ℚ} {ps : List (Fin c)} (h : PivotsTo a ps c) {i : Fin r} {j : Fin c} (hij : j.val < i.val) : a i j = 0 := by
  cases hp : ps[i.val]? with
  | none => exact h.zero i (List.getElem?_eq_none_iff.1 hp) j j.2
  | some p =>
    have := h.index_le hp
    exact (h.lead i p hp).2 j (show j.val < p.val by omega)

theorem foldl_mul (f : Fin r → ℚ) : ∀ (l : List (Fin r)) (x : ℚ), l.foldl (fun d i => d * f i) x = x * (l.map f).prod := by
  intro l
  induction l with
  | nil => intro x; simp
  | cons i l ih => intro x; rw [List.foldl_cons, ih, List.map_cons, List.prod_cons, mul_assoc]

theorem determinant_eq (a : Matrix (Fin r) (Fin r) ℚ) : determinant a = a.det := by
  obtain ⟨⟨ps, h1⟩, P, h2, h3⟩ := rowReduce_spec a
  unfold determinant
  rw [foldl_mul]
  have hd : ((rowReduce a).1).det = ((List.finRange r).map fun i => (rowReduce a).1 i i).prod := by
    rw [det_of_isUpperTriangular fun i j hij => h1.upper hij, ← List.prod_ofFn, List.ofFn_eq_map]
  rw [← hd]
  conv_lhs => rw [h3, det_mul, h2]
  split <;> ring

theorem MatReduced.eq_one {a : Matrix (Fin r) (Fin c) ℚ} {ps : List (Fin c)} (h : MatReduced a ps) {i k : Fin r} {p : Fin c} (hp : ps[i.val]? = some p) :
    a k p = if k = i then 1 else 0 := by
  split
  · rename_i hk; subst hk; exact (h.done k p hp).1
  · rename_i hk; exact (h.done i p hp).2 k hk

theorem appendColumns_left {k : ℕ} (a : Matrix (Fin r) (Fin c) ℚ) (b : Matrix (Fin r) (Fin k) ℚ) (i : Fin r) (j : Fin c) :
    appendColumns a b i (Fin.castAdd k j) = a i j := Fin.append_left _ _ j

theorem appendColumns_right {k : ℕ} (a : Matrix (Fin r) (Fin c) ℚ) (b : Matrix (Fin r) (Fin k) ℚ) (i : Fin r) (j : Fin k) :
    appendColumns a b i (Fin.natAdd c j) = b i j := Fin.append_right _ _ j

theorem mul_appendColumns_left {k : ℕ} (P : Matrix (Fin r) (Fin r) ℚ) (a : Matrix (Fin r) (Fin c) ℚ) (b : Matrix (Fin r) (Fin k) ℚ) (i : Fin r) (j : Fin c) :
    (P * appendColumns a b) i (Fin.castAdd k j) = (P * a) i j := by
  simp only [mul_apply, appendColumns_left]

theorem mul_appendColumns_right {k : ℕ} (P : Matrix (Fin r) (Fin r) ℚ) (a : Matrix (Fin r) (Fin c) ℚ) (b : Matrix (Fin r) (Fin k) ℚ) (i : Fin r) (j : Fin k) :
    (P * appendColumns a b) i (Fin.natAdd c j) = (P * b) i j := by
  simp only [mul_apply, appendColumns_right]

theorem matInverse_spec (a : Matrix (Fin r) (Fin r) ℚ) (hr : 0 < r) :
    (IsUnit a.det → ∃ b, matInverse a = .ok (some b) ∧ b * a = 1 ∧ a * b = 1) ∧ (¬ IsUnit a.det → matInverse a = .ok none) := by
  unfold matInverse
  simp only [dif_pos hr]
  obtain ⟨ps, h1, s, hs, P, h2, h3⟩ := rowReduceFully_spec (appendColumns a (of fun i j => if i = j then 1 else 0))
  generalize rowReduceFully (appendColumns a (of fun i j => if i = j then 1 else 0)) = b at h1 h3
  have hleft : ∀ i j, b i (Fin.castAdd r j) = (P * a) i j := by
    intro i j
    rw [h3, mul_appendColumns_left]
  have hright : ∀ i j, b i (Fin.natAdd r j) = P i j := by
    intro i j
    rw [h3, mul_appendColumns_right, mul_apply]
    simp
  have hP : IsUnit P.det := by rw [h2]; exact isUnit_iff_ne_zero.2 hs
  have hlast : (⟨r - 1, by omega⟩ : Fin (r + r)) = Fin.castAdd r ⟨r - 1, by omega⟩ := rfl
  generalize hL : (⟨r - 1, by omega⟩ : Fin r) = L at hlast ⊢
  have hLv : L.val = r - 1 := by rw [← hL]
  rw [hlast]
  by_cases h0 : b L (Fin.castAdd r L) = 0
  · have hdet : ¬ IsUnit a.det := by
      intro hu
      have hz : (P * a).det = 0 := by
        refine det_eq_zero_of_row_eq_zero L fun j => ?_
        rw [← hleft]
        by_cases hj : j = L
        · rw [hj]; exact h0
        · refine h1.pivots.upper ?_
          have : j.val ≠ L.val := fun e => hj (Fin.ext e)
          have := j.2
          show j.val < L.val
          omega
      rw [det_mul] at hz
      exact (mul_ne_zero hP.ne_zero hu.ne_zero) hz
    rw [if_pos h0]
    exact ⟨fun hu => absurd hu hdet, fun _ => rfl⟩
  · rw [if_neg h0]
    have hpiv : ∀ i : Fin r, ps[i.val]? = some (Fin.castAdd r i) := by
      have hL0 : ∃ p, ps[L.val]? = some p := by
        cases hp : ps[L.val]? with
        | none => exact absurd (h1.pivots.zero L (List.getElem?_eq_none_iff.1 hp) _ (Fin.castAdd r L).2) h0
        | some p => exact ⟨p, rfl⟩
      obtain ⟨p, hp⟩ := hL0
      have hpL : p.val ≤ r - 1 := by
        by_contra hc
        exact h0 ((h1.pivots.lead L p hp).2 _ (show L.val < p.val by omega))
      obtain ⟨hlen, _⟩ := List.getElem?_eq_some_iff.1 hp
      have key : ∀ k, k < r → ∀ q : Fin (r + r), ps[r - 1 - k]? = some q → q.val ≤ r - 1 - k := by
        intro k
        induction k with
        | zero =>
          intro _ q hq
          have : p = q := by
            rw [hLv] at hp
            simp only [Nat.sub_zero] at hq
            rw [hp] at hq
            exact Option.some.inj hq
          rw [← this]; omega
        | succ k ih =>
          intro hk q hq
          have hq' : ps[r - 1 - k]? = some (ps[r - 1 - k]'(by omega)) := List.getElem?_eq_getElem (by omega)
          have g1 := ih (by omega) _ hq'
          have g2 : q.val < (ps[r - 1 - k]'(by omega)).val := h1.pivots.lt hq hq' (by omega)
          omega
      intro i
      have hq : ps[i.val]? = some (ps[i.val]'(by have := i.2; omega)) := List.getElem?_eq_getElem (by have := i.2; omega)
      rw [hq]
      congr 1
      have g1 := key (r - 1 - i.val) (by omega) _ (by rw [show r - 1 - (r - 1 - i.val) = i.val by have := i.2; omega]; exact hq)
      have g2 := h1.pivots.index_le hq
      have := i.2
      refine Fin.ext ?_
      simp only [Fin.val_castAdd]
      omega
    have hone : P * a = 1 := by
      ext i j
      rw [← hleft, h1.eq_one (hpiv j), one_apply]
    have hb : (of fun i j => b i (Fin.natAdd r j) : Matrix (Fin r) (Fin r) ℚ) = P := by
      funext i j; exact hright i j
    rw [hb]
    have hone' := mul_eq_one_comm.1 hone
    refine ⟨fun _ => ⟨P, rfl, hone, hone'⟩, fun hn => absurd ?_ hn⟩
    have := congrArg det hone
    rw [det_mul, det_one] at this
    exact isUnit_iff_exists_inv'.2 ⟨_, this⟩

/-! ## rank -/

theorem MatReduced.rank {a : Matrix (Fin r) (Fin c) ℚ} {ps : List (Fin c)} (h : MatReduced a ps) : a.rank = ps.length := by
  have hlen := h.pivots.len
  refine le_antisymm ?_ ?_
  · have : a = (of fun i l => if i.val = l.val then 1 else 0 : Matrix (Fin r) (Fin ps.length) ℚ) * (of fun l j => a (Fin.castLE hlen l) j : Matrix (Fin ps.length) (Fin c) ℚ) := by
      ext i j
      rw [mul_apply]
      simp only [of_apply, ite_mul, one_mul, zero_mul]
      by_cases hi : i.val < ps.length
      · rw [Finset.sum_eq_single ⟨i.val, hi⟩]
        · simp only [if_true]; rfl
        · intro b _ hb
          rw [if_neg fun e => hb (Fin.ext e.symm)]
        · intro hn; exact absurd (Finset.mem_univ _) hn
      · rw [h.pivots.zero i (by omega) j j.2, Finset.sum_eq_zero]
        intro l _
        rw [if_neg]
        have := l.2
        omega
    rw [this]
    exact (rank_mul_le_left _ _).trans (rank_le_width _)
  · have : (a.submatrix (Fin.castLE hlen) fun l : Fin ps.length => ps[l.val]) = 1 := by
      ext i j
      rw [submatrix_apply, h.eq_one (i := Fin.castLE hlen j) (List.getElem?_eq_getElem j.2), one_apply]
      simp [Fin.ext_iff]
    have h2 := rank_submatrix_le a (Fin.castLE hlen) fun l : Fin ps.length => ps[l.val]
    rw [this, rank_one] at h2
    simpa using h2

theorem RowOps.rank {s : ℚ} (hs : s ≠ 0) {a b : Matrix (Fin r) (Fin c) ℚ} (h : RowOps s a b) : b.rank = a.rank := by
  obtain ⟨P, h1, rfl⟩ := h
  exact rank_mul_eq_right_of_det_ne_zero P a (by rw [h1]; exact hs)

theorem matrixRank_eq (a : Matrix (Fin r) (Fin c) ℚ) : matrixRank a = a.rank := by
  obtain ⟨ps, h1, s, hs, h2⟩ := rowReduceFully_spec a
  rw [matrixRank, pivotLoop_eq h1.pivots (r + c) 0 0 (by omega) fun _ _ _ _ => Nat.zero_le _, ← h2.rank hs, h1.rank]
  simp

end Frobby

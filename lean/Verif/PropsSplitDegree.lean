import Verif.OptLemmas
import Mathlib.Data.Fin.VecNotation
import Mathlib.Tactic.IntervalCases

/-!
# The split strategy for optimization chooses the largest change of degree
-/

namespace Frobby.SplitChoice

open Frobby Term

variable {n : ℕ} {N : Fin n → ℕ}

/-- By how much the degree of a variable changes from the multiplier to half the exponent in the lcm. The exponent `N v` stands for
an added pure power (SplitStrategy.cpp:418-421), so the one before it is used instead. -/
def gain (g : Grader n) (N : Fin n → ℕ) (mul lcm : Term n) (v : Fin n) : ℤ :=
  |g.gr v (min (mul v + lcm v / 2) (N v - 1)) - g.gr v (mul v)|

theorem degreeLoop_cons {g : Grader n} (hg : GraderOK g N) {mul lcm : Term n} (hb : ∀ v, mul v + lcm v ≤ N v + 1)
    (v : Fin n) (vs : List (Fin n)) (off : Fin n) (d : ℤ) : degreeLoop g mul lcm (v :: vs) off d =
      if lcm v ≤ 1 then degreeLoop g mul lcm vs off d
      else if d < gain g N mul lcm v then degreeLoop g mul lcm vs v (gain g N mul lcm v)
      else degreeLoop g mul lcm vs off d := by
  rw [degreeLoop]
  by_cases h1 : lcm v ≤ 1
  · rw [if_pos h1, if_pos h1]
  · rw [if_neg h1, if_neg h1]
    simp only
    have hbv := hb v
    rw [hg.maxExp]
    have hmid : (if mul v + lcm v / 2 = N v ∧ mul v < mul v + lcm v / 2 then mul v + lcm v / 2 - 1 else mul v + lcm v / 2) =
        min (mul v + lcm v / 2) (N v - 1) := by
      split <;> omega
    rw [hmid]
    have hm1 : mul v ≤ min (mul v + lcm v / 2) (N v - 1) ∧ min (mul v + lcm v / 2) (N v - 1) < N v := by omega
    have hgain : gain g N mul lcm v = if g.signs v < 0 then
        -(g.gr v (min (mul v + lcm v / 2) (N v - 1)) - g.gr v (mul v))
        else g.gr v (min (mul v + lcm v / 2) (N v - 1)) - g.gr v (mul v) := by
      unfold gain
      generalize min (mul v + lcm v / 2) (N v - 1) = mid at hm1 ⊢
      rcases lt_trichotomy (g.signs v) 0 with h2 | h2 | h2
      · rw [if_pos h2]
        have := hg.down v h2 (mul v) mid hm1.1 hm1.2
        exact abs_of_nonpos (by omega)
      · rw [if_neg (by omega), hg.zero v h2, hg.zero v h2]; simp
      · rw [if_neg (by omega)]
        have := hg.up v h2 (mul v) mid hm1.1 hm1.2
        exact abs_of_nonneg (by omega)
    rw [hg.grade? (by omega : min (mul v + lcm v / 2) (N v - 1) ≤ N v), hg.grade? (by omega : mul v ≤ N v)]
    simp only
    rw [← hgain]

theorem degreeLoop_first {g : Grader n} (hg : GraderOK g N) {mul lcm : Term n} (hb : ∀ v, mul v + lcm v ≤ N v + 1) :
    ∀ (vs : List (Fin n)) (off : Fin n) (d : ℤ), vs.Pairwise (· < ·) → ∃ v, degreeLoop g mul lcm vs off d = some v ∧
      ((v = off ∧ ∀ w ∈ vs, 2 ≤ lcm w → gain g N mul lcm w ≤ d) ∨
       (v ∈ vs ∧ 2 ≤ lcm v ∧ d < gain g N mul lcm v ∧ (∀ w ∈ vs, 2 ≤ lcm w → gain g N mul lcm w ≤ gain g N mul lcm v) ∧
        ∀ w ∈ vs, w < v → 2 ≤ lcm w → gain g N mul lcm w < gain g N mul lcm v)) := by
  intro vs
  induction vs with
  | nil => intro off d _; exact ⟨off, rfl, Or.inl ⟨rfl, by simp⟩⟩
  | cons x vs ih =>
    intro off d hp
    have hx := (List.pairwise_cons.1 hp).1
    have hp' := (List.pairwise_cons.1 hp).2
    rw [degreeLoop_cons hg hb]
    by_cases h1 : lcm x ≤ 1
    · rw [if_pos h1]
      obtain ⟨v, hv, h⟩ := ih off d hp'
      refine ⟨v, hv, ?_⟩
      rcases h with ⟨h2, h3⟩ | ⟨h2, h3, h4, h5, h6⟩
      · refine Or.inl ⟨h2, fun w hw hlw => ?_⟩
        rcases List.mem_cons.1 hw with rfl | hw
        · omega
        · exact h3 w hw hlw
      · refine Or.inr ⟨List.mem_cons_of_mem _ h2, h3, h4, fun w hw hlw => ?_, fun w hw hlt hlw => ?_⟩
        · rcases List.mem_cons.1 hw with rfl | hw
          · omega
          · exact h5 w hw hlw
        · rcases List.mem_cons.1 hw with rfl | hw
          · omega
          · exact h6 w hw hlt hlw
    · rw [if_neg h1]
      by_cases h2 : d < gain g N mul lcm x
      · rw [if_pos h2]
        obtain ⟨v, hv, h⟩ := ih x _ hp'
        refine ⟨v, hv, Or.inr ?_⟩
        rcases h with ⟨rfl, h3⟩ | ⟨h3, h4, h5, h6, h7⟩
        · refine ⟨by simp, by omega, h2, fun w hw hlw => ?_, fun w hw hlt hlw => ?_⟩
          · rcases List.mem_cons.1 hw with rfl | hw
            · exact le_refl _
            · exact h3 w hw hlw
          · rcases List.mem_cons.1 hw with rfl | hw
            · exact absurd hlt (lt_irrefl _)
            · exact absurd hlt (not_lt.2 (hx w hw).le)
        · refine ⟨List.mem_cons_of_mem _ h3, h4, h2.trans h5, fun w hw hlw => ?_, fun w hw hlt hlw => ?_⟩
          · rcases List.mem_cons.1 hw with rfl | hw
            · exact h5.le
            · exact h6 w hw hlw
          · rcases List.mem_cons.1 hw with rfl | hw
            · exact h5
            · exact h7 w hw hlt hlw
      · rw [if_neg h2]
        obtain ⟨v, hv, h⟩ := ih off d hp'
        refine ⟨v, hv, ?_⟩
        rcases h with ⟨h3, h4⟩ | ⟨h3, h4, h5, h6, h7⟩
        · refine Or.inl ⟨h3, fun w hw hlw => ?_⟩
          rcases List.mem_cons.1 hw with rfl | hw
          · omega
          · exact h4 w hw hlw
        · refine Or.inr ⟨List.mem_cons_of_mem _ h3, h4, h5, fun w hw hlw => ?_, fun w hw hlt hlw => ?_⟩
          · rcases List.mem_cons.1 hw with rfl | hw
            · omega
            · exact h6 w hw hlw
          · rcases List.mem_cons.1 hw with rfl | hw
            · omega
            · exact h7 w hw hlt hlw

/-- **C85**: the pivot of `degree` is half the exponent in the lcm of a variable whose degree changes the most by that, among the
variables whose square divides the lcm, and of the first one of them. -/
theorem C85_degree {g : Grader n} (hg : GraderOK g N) {mul lcm : Term n} (hb : ∀ v, mul v + lcm v ≤ N v + 1)
    (h : ∃ w, 2 ≤ lcm w) : ∃ v, degreePivot g mul lcm = some (single v (lcm v / 2)) ∧ 2 ≤ lcm v ∧
      (∀ w, 2 ≤ lcm w → gain g N mul lcm w ≤ gain g N mul lcm v) ∧
      ∀ w < v, 2 ≤ lcm w → gain g N mul lcm w < gain g N mul lcm v := by
  obtain ⟨w, hw⟩ := h
  obtain ⟨v, hv, h⟩ := degreeLoop_first hg hb (List.finRange n) ⟨0, w.pos⟩ (-1) (List.pairwise_lt_finRange n)
  refine ⟨v, by unfold degreePivot; rw [dif_pos w.pos, hv]; rfl, ?_⟩
  rcases h with ⟨_, h⟩ | ⟨_, h1, _, h2, h3⟩
  · have h4 := h w (List.mem_finRange w) hw
    have h5 : 0 ≤ gain g N mul lcm w := abs_nonneg _
    omega
  · exact ⟨h1, fun u => h2 u (List.mem_finRange u), fun u => h3 u (List.mem_finRange u)⟩

/-- The first variable has degree 1 and the second one degree -3. The last entry stands for an added pure power. -/
def sampleGrader : Grader 2 := ⟨![[0, 1, 2, 3, 0], [0, -3, -6, -9, 0]], ![1, -1]⟩

theorem sampleGrader_ok : GraderOK sampleGrader ![4, 4] where
  len := by decide
  pos := by decide
  up := by
    intro v hs i j hij hj
    have hv : v = 0 := (by decide : ∀ v, 0 < sampleGrader.signs v → v = 0) v hs
    subst hv
    change j < 4 at hj
    interval_cases j <;> interval_cases i <;> decide
  upMax := by
    intro v hs i hi
    have hv : v = 0 := (by decide : ∀ v, 0 < sampleGrader.signs v → v = 0) v hs
    subst hv
    change i < 4 at hi
    interval_cases i <;> decide
  down := by
    intro v hs i j hij hj
    have hv : v = 1 := (by decide : ∀ v, sampleGrader.signs v < 0 → v = 1) v hs
    subst hv
    change j < 4 at hj
    interval_cases j <;> interval_cases i <;> decide
  downMax := by
    intro v hs i hi
    have hv : v = 1 := (by decide : ∀ v, sampleGrader.signs v < 0 → v = 1) v hs
    subst hv
    change i < 4 at hi
    interval_cases i <;> decide
  zero := by
    intro v hs
    exact absurd hs (by revert v; decide)

example : ∃ v, degreePivot sampleGrader 0 ![4, 4] = some (single v ((![4, 4] : Term 2) v / 2)) ∧
    ∀ w, gain sampleGrader ![4, 4] 0 ![4, 4] w ≤ gain sampleGrader ![4, 4] 0 ![4, 4] v := by
  obtain ⟨v, h1, _, h2, _⟩ := C85_degree sampleGrader_ok (mul := 0) (lcm := ![4, 4]) (by decide) ⟨0, by decide⟩
  exact ⟨v, h1, fun w => h2 w (by revert w; decide)⟩

example : degreePivot sampleGrader 0 ![4, 4] = some ![0, 2] := by decide +kernel

/-- The square of the second variable does not divide the lcm. -/
example : degreePivot sampleGrader 0 ![4, 1] = some ![2, 0] := by decide +kernel

end Frobby.SplitChoice

import Verif.PropsSplitChoice
import Verif.Run

/-!
# A slice on which `minlabel` does not choose what its comment says
-/

namespace Frobby.SplitChoice

open Frobby Term

/-- `x²z`, `xy`, `yz` and pure powers of all the variables. -/
def lateIdeal : List (Term 3) := [![2, 0, 1], ![1, 1, 0], ![0, 1, 1], ![4, 0, 0], ![0, 4, 0], ![0, 0, 4]]

/-- The slice with that ideal, nothing subtracted and nothing multiplied. -/
def lateSlice : Slice 3 := ⟨lateIdeal, [], 0, lcmOf lateIdeal, true, 0⟩

theorem late_lcm : lcmOf lateIdeal = ![4, 4, 4] := by decide +kernel

theorem late_fix (v : Fin 3) : Fix .msm lateIdeal v := by
  have h : ∀ v : Fin 3, (∀ w, w ≠ v → ∃ g ∈ lateIdeal, (g v ≠ 0 ∧ ∀ u, u ≠ v → g u ≠ lcmOf lateIdeal u) ∧ g w = 0) ∧
      ∃ g ∈ lateIdeal, (g v ≠ 0 ∧ ∀ u, u ≠ v → g u ≠ lcmOf lateIdeal u) ∧ g v = 1 := by
    decide +kernel
  refine ⟨fun w hw => ?_, ?_⟩
  · obtain ⟨g, h1, h2, h3⟩ := (h v).1 w hw
    exact ⟨g, ⟨h1, h2⟩, h3⟩
  · obtain ⟨g, h1, h2, h3⟩ := (h v).2
    exact ⟨g, ⟨h1, h2⟩, h3⟩

/-- **C85**: the disagreement of `minlabel` with its comment is not limited to ideals that the algorithm never splits. There is a slice
with all the invariants of a slice that was simplified, to which no base case applies, on which `minlabel` chooses `y` and the comment
describes `x` only. -/
theorem C85_minlabel_slice : RInv .msm ⟨true, true, .minlabel⟩ lateSlice ∧ NonBase .msm lateSlice ∧
    labelVar .minlabel lateSlice.ideal = some 1 ∧ ∀ v, MinLabel lateSlice.ideal v ↔ v = 0 := by
  refine ⟨⟨⟨?_, List.Pairwise.nil, ?_, fun _ => rfl, ?_, ?_⟩, ?_, ?_, ?_, ?_⟩, ⟨?_, ?_, ?_, ?_⟩, ?_, ?_⟩
  · change Anti lateIdeal
    unfold Anti
    decide +kernel
  · intro t ht
    exact absurd ht (List.not_mem_nil)
  · intro _ _
    change ∀ g ∈ lateIdeal, ∀ i j, g i = lcmOf lateIdeal i → g j = lcmOf lateIdeal j → i = j
    rw [late_lcm]
    decide +kernel
  · exact Or.inl (by decide)
  · intro h; exact absurd h (by decide)
  · intro _ h; exact absurd h (by decide)
  · exact fun _ _ => Or.inr late_fix
  · intro _ _
    decide +kernel
  · intro _; decide
  · change ∀ i, lcmOf lateIdeal i ≠ 0
    rw [late_lcm]; decide +kernel
  · change ¬ isSquareFree (lcmOf lateIdeal)
    rw [late_lcm]; decide +kernel
  · intro _; decide +kernel
  · decide +kernel
  · unfold MinLabel Least
    decide +kernel

example : ones lateIdeal 0 = 1 ∧ ones lateIdeal 1 = 2 ∧ ones lateIdeal 2 = 2 := by decide +kernel

/-- No base case applies to the slice, and it is split. -/
example : (lateSlice.baseCase .msm true).isNone = true := by decide +kernel

/-- **C85**: what `minlabel` chooses instead. It takes the least number of exponents equal to one that a variable other than the first
one has. Among all the variables that have this number, it chooses the one that divides the most minimal generators, and the first one
of them. -/
theorem C85_minlabel_later {n : ℕ} (I : List (Term n)) (w : Fin n) (hw0 : w.val ≠ 0) (hw : 0 < ones I w)
    (hle : ∀ u : Fin n, u.val ≠ 0 → 0 < ones I u → ones I w ≤ ones I u) :
    ∃ v, labelVar .minlabel I = some v ∧ ones I v = ones I w ∧ (∀ u, ones I u = ones I w → dividing I u ≤ dividing I v) ∧
      ∀ u < v, ones I u = ones I w → dividing I u < dividing I v := by
  have hmg : mostGeneric (oneCounts I) = ones I w := by
    obtain ⟨-, h2, h3⟩ := mostGeneric_foldl (oneCounts I) ((List.finRange n).filter fun v => decide (1 ≤ v.val)) 0
    have hwl : w ∈ (List.finRange n).filter fun v => decide (1 ≤ v.val) := by simp; omega
    have h4 := h2 w hwl (by rw [oneCounts_ones]; exact hw)
    change mostGeneric (oneCounts I) ≠ 0 ∧ mostGeneric (oneCounts I) ≤ oneCounts I w at h4
    change mostGeneric (oneCounts I) = 0 ∨ ∃ v ∈ _, oneCounts I v = mostGeneric (oneCounts I) at h3
    rw [oneCounts_ones] at h4
    rcases h3 with h3 | ⟨v, hvl, hv⟩
    · exact absurd h3 h4.1
    · rw [oneCounts_ones] at hv
      have hv1 : 1 ≤ v.val := by simpa using hvl
      have := hle v (by omega) (by omega)
      omega
  obtain ⟨v, hv, _⟩ := firstMax_max
    (fun v => if oneCounts I v ≠ mostGeneric (oneCounts I) then 0 else supportCounts I v) w.pos
  obtain ⟨h1, h2⟩ := firstMax_first hv
  have hval : ∀ u, (if oneCounts I u ≠ mostGeneric (oneCounts I) then 0 else supportCounts I u) =
      if ones I u = ones I w then dividing I u else 0 := by
    intro u
    rw [hmg, oneCounts_ones, counts_dividing]
    by_cases hu : ones I u = ones I w <;> simp [hu]
  simp only [hval] at h1 h2
  have hpos : 0 < dividing I w := by
    have := oneCounts_le I w
    rw [oneCounts_ones, counts_dividing] at this
    omega
  have hvw : ones I v = ones I w := by
    by_contra hc
    have := h1 w
    rw [if_pos rfl, if_neg hc] at this
    omega
  rw [if_pos hvw] at h1 h2
  refine ⟨v, hv, hvw, fun u hu => ?_, fun u hlt hu => ?_⟩
  · have := h1 u
    rwa [if_pos hu] at this
  · have := h2 u hlt
    rwa [if_pos hu] at this

/-- On the slice above, that number is two. -/
example : ∃ v, labelVar .minlabel lateIdeal = some v ∧ ones lateIdeal v = 2 := by
  obtain ⟨v, h1, h2, -⟩ := C85_minlabel_later lateIdeal 1 (by decide) (by decide +kernel) (by decide +kernel)
  exact ⟨v, h1, h2.trans (by decide +kernel)⟩

end Frobby.SplitChoice

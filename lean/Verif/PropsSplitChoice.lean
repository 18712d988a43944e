import Verif.SplitChoiceLemmas
import Mathlib.Data.Fin.VecNotation

/-!
# The split strategies choose what their comments say
-/

namespace Frobby.SplitChoice

open Frobby Term

variable {n : ℕ}

/-- Generators for the examples: `x²y`, `yz³`, `x³z`, `y²z`, `xz⁴`. -/
def sample : List (Term 3) := [![2, 1, 0], ![0, 1, 3], ![3, 0, 1], ![0, 2, 1], ![1, 0, 4]]

theorem sample_best : bestVar sample (lcmOf sample) = some 2 := by decide +kernel

theorem sample_median : medianPivot sample (lcmOf sample) = some ![0, 0, 3] := by
  have h : medianPositive sample 2 = some 3 := by
    simp [medianPositive, sample, List.mergeSort, List.MergeSort.Internal.splitInTwo]
  simp only [medianPivot, sample_best, h]
  decide +kernel

/-- **C85**: the variable of the pivots is the middle one of the best variables, and there is one unless all generators are
square free. -/
theorem C85_best (I : List (Term n)) (h : ∃ w, Squared I w) : ∃ v, bestVar I (lcmOf I) = some v ∧ MiddleBest I v := by
  obtain ⟨w, hw⟩ := h
  obtain ⟨v, hv, _⟩ := bestVar_spec (I := I) fun hc => by
    have h1 := (squared_iff I w).1 hw
    have h2 := hc w
    omega
  exact ⟨v, hv, bestVar_middle hv ⟨w, hw⟩⟩

example : bestVar sample (lcmOf sample) = some 2 ∧ MiddleBest sample 2 :=
  ⟨sample_best, bestVar_middle sample_best ⟨2, by decide +kernel⟩⟩

/-- **C85**: the pivot of `minimum`, `median` and `maximum` is a power of that variable: the first power, one of a median of the
positive exponents, and the one just below the largest exponent. The median is decreased if it is the largest exponent. -/
theorem C85_power (rnd : ℕ → ℕ) (I : List (Term n)) (h : ∃ w, Squared I w) :
    ∃ v, MiddleBest I v ∧
      getPivot .minimum rnd I (lcmOf I) = some (single v 1) ∧
      (∃ e, Median I v e ∧ (¬ Largest I v e → getPivot .median rnd I (lcmOf I) = some (single v e)) ∧
        (Largest I v e → getPivot .median rnd I (lcmOf I) = some (single v (e - 1)))) ∧
      ∃ e, Largest I v e ∧ getPivot .maximum rnd I (lcmOf I) = some (single v (e - 1)) := by
  obtain ⟨v, hv, hm⟩ := C85_best I h
  have h2 := (squared_iff I v).1 hm.1.1
  have hlarge : ∀ e, 0 < e → (Largest I v e ↔ e = lcmOf I v) := by
    intro e he
    obtain ⟨g, hg, hge⟩ := lcmOf_attained (G := I) (i := v) (by omega)
    constructor
    · rintro ⟨⟨g', hg', he'⟩, hall⟩
      have h3 := hall g hg
      have h4 := le_def.1 (le_lcmOf hg') v
      omega
    · rintro rfl
      exact ⟨⟨g, hg, by omega⟩, fun g' hg' => le_def.1 (le_lcmOf hg') v⟩
  obtain ⟨e, he, h0, _⟩ := medianPositive_spec (I := I) (v := v) (by omega)
  refine ⟨v, hm, by simp [getPivot, hv], ⟨e, median_spec he, fun hl => ?_, fun hl => ?_⟩,
    lcmOf I v, (hlarge _ (by omega)).2 rfl, by simp [getPivot, hv]⟩
  · have : ¬ e = lcmOf I v := fun hc => hl ((hlarge e (by omega)).2 hc)
    simp [getPivot, medianPivot, hv, he, this]
  · have := (hlarge e (by omega)).1 hl
    simp [getPivot, medianPivot, hv, he, this]

example : getPivot .minimum (fun _ => 0) sample (lcmOf sample) = some ![0, 0, 1] ∧
    getPivot .median (fun _ => 0) sample (lcmOf sample) = some ![0, 0, 3] ∧
    getPivot .maximum (fun _ => 0) sample (lcmOf sample) = some ![0, 0, 3] :=
  ⟨by decide +kernel, sample_median, by decide +kernel⟩

/-- **C85**: the pivot of `gcd` comes from three generators that the square of that variable divides: it is
their gcd with each positive exponent decreased by one. -/
theorem C85_gcd (rnd : ℕ → ℕ) (I : List (Term n)) (h : ∃ w, Squared I w) :
    ∃ p v, getPivot .gcd rnd I (lcmOf I) = some p ∧ MiddleBest I v ∧
      ∃ a ∈ I, ∃ b ∈ I, ∃ c ∈ I, 2 ≤ a v ∧ 2 ≤ b v ∧ 2 ≤ c v ∧ ∀ w, p w = min (min (a w) (b w)) (c w) - 1 := by
  obtain ⟨v, hv, hm⟩ := C85_best I h
  have hne : (I.filter fun g => decide (2 ≤ g v)) ≠ [] := by
    obtain ⟨g, hg, h2⟩ := hm.1.1
    exact List.ne_nil_of_mem (List.mem_filter.2 ⟨hg, by simpa using h2⟩)
  obtain ⟨a, ha, ha'⟩ := getElem?_mod hne (rnd 0)
  obtain ⟨b, hb, hb'⟩ := getElem?_mod hne (rnd 1)
  obtain ⟨c, hc, hc'⟩ := getElem?_mod hne (rnd 2)
  rw [List.mem_filter] at ha' hb' hc'
  refine ⟨decrement (a ⊓ b ⊓ c), v, ?_, hm, a, ha'.1, b, hb'.1, c, hc'.1, by simpa using ha'.2, by simpa using hb'.2,
    by simpa using hc'.2, fun w => rfl⟩
  simp only [getPivot, hv, ha, hb, hc]

example : getPivot .gcd (fun k => k) sample (lcmOf sample) = some ![0, 0, 2] := by decide +kernel

/-- **C85**: the pivot of `mingen` is a generator that is not square free with each positive exponent decreased by one. -/
theorem C85_mingen (rnd : ℕ → ℕ) (I : List (Term n)) (h : ∃ w, Squared I w) :
    ∃ p, getPivot .mingen rnd I (lcmOf I) = some p ∧ ∃ g ∈ I, (∃ w, 2 ≤ g w) ∧ ∀ w, p w = g w - 1 := by
  have hne : (I.filter fun g => decide (¬ isSquareFree g)) ≠ [] := by
    obtain ⟨w, g, hg, h2⟩ := h
    refine List.ne_nil_of_mem (List.mem_filter.2 ⟨hg, ?_⟩)
    simp only [decide_eq_true_eq]
    exact fun hc => by have := hc w; omega
  obtain ⟨g, hg, hg'⟩ := getElem?_mod hne (rnd 0)
  rw [List.mem_filter] at hg'
  refine ⟨decrement g, by simp only [getPivot, hg, Option.map_some], g, hg'.1, ?_, fun w => rfl⟩
  have h1 : ¬ isSquareFree g := by simpa using hg'.2
  unfold isSquareFree at h1
  push Not at h1
  exact h1

example : getPivot .mingen (fun _ => 2) sample (lcmOf sample) = some ![2, 0, 0] := by decide +kernel

/-- **C85**: `maxlabel` chooses the variable that divides the most generators, and the first one of them. -/
theorem C85_maxlabel (I : List (Term n)) (hn : 0 < n) :
    ∃ v, labelVar .maxlabel I = some v ∧ (∀ w, dividing I w ≤ dividing I v) ∧ ∀ w < v, dividing I w < dividing I v := by
  obtain ⟨v, hv, _⟩ := firstMax_max (supportCounts I) hn
  have h := firstMax_first hv
  simp only [counts_dividing] at h
  exact ⟨v, hv, h⟩

example : labelVar .maxlabel sample = some 2 := by decide +kernel

/-- **C85**: `varlabel` chooses the first variable that has exponent one in a generator that is not a pure power. -/
theorem C85_varlabel (I : List (Term n)) (h : ∃ w, 0 < ones I w) :
    ∃ v, labelVar .varlabel I = some v ∧ 0 < ones I v ∧ ∀ w < v, ones I w = 0 := by
  obtain ⟨w, hw⟩ := h
  have hsome : ((List.finRange n).find? fun v => decide (0 < oneCounts I v)).isSome := by
    rw [List.find?_isSome]
    exact ⟨w, List.mem_finRange w, by simpa [oneCounts_ones] using hw⟩
  obtain ⟨v, hv⟩ := Option.isSome_iff_exists.1 hsome
  refine ⟨v, hv, ?_, fun u hu => ?_⟩
  · have := List.find?_some hv
    simpa [oneCounts_ones] using this
  · obtain ⟨_, as, bs, hl, hno⟩ := List.find?_eq_some_iff_append.1 hv
    have hp := List.pairwise_lt_finRange n
    rw [hl] at hp
    have hmem : u ∈ as ++ v :: bs := hl ▸ List.mem_finRange u
    rcases List.mem_append.1 hmem with hm | hm
    · have := hno u hm
      simpa [oneCounts_ones] using this
    · rcases List.mem_cons.1 hm with rfl | hm
      · exact absurd hu (lt_irrefl _)
      · have h1 := (List.pairwise_append.1 hp).2.1
        exact absurd hu (not_lt.2 ((List.pairwise_cons.1 h1).1 u hm).le)

example : labelVar .varlabel sample = some 0 := by decide +kernel

/-- **C85**: `minlabel` does not choose the variable that its comment describes: its first loop leaves out the first variable. Here
`x` has exponent one once, and `y` and `z` twice. -/
theorem C85_minlabel_witness : labelVar .minlabel sample = some 2 ∧ Least sample 0 ∧ ¬ Least sample 2 ∧ MinLabel sample 0 := by
  refine ⟨by decide +kernel, by unfold Least; decide +kernel, by unfold Least; decide +kernel, ?_⟩
  unfold MinLabel Least
  decide +kernel

/-- **C85**, partial: `minlabel` chooses the variable that its comment describes if another variable than the first one has the least
number of exponents equal to one. Missing is the case that only the first variable has it, where that is false
(`C85_minlabel_witness`). -/
theorem C85_minlabel_partial (I : List (Term n)) (h : ∃ w, w.val ≠ 0 ∧ Least I w) :
    ∃ v, labelVar .minlabel I = some v ∧ MinLabel I v := by
  obtain ⟨w, hw0, hw⟩ := h
  have hmg : mostGeneric (oneCounts I) = ones I w := by
    obtain ⟨-, h2, h3⟩ := mostGeneric_foldl (oneCounts I) ((List.finRange n).filter fun v => decide (1 ≤ v.val)) 0
    have hwl : w ∈ (List.finRange n).filter fun v => decide (1 ≤ v.val) := by simp; omega
    have h4 := h2 w hwl (by rw [oneCounts_ones]; exact hw.1)
    change mostGeneric (oneCounts I) ≠ 0 ∧ mostGeneric (oneCounts I) ≤ oneCounts I w at h4
    change mostGeneric (oneCounts I) = 0 ∨ ∃ v ∈ _, oneCounts I v = mostGeneric (oneCounts I) at h3
    rw [oneCounts_ones] at h4
    rcases h3 with h3 | ⟨v, _, hv⟩
    · exact absurd h3 h4.1
    · rw [oneCounts_ones] at hv
      have := hw.2 v (by omega)
      omega
  have hleast : ∀ u, ones I u = ones I w ↔ Least I u := by
    intro u
    constructor
    · intro hu
      exact ⟨hu ▸ hw.1, fun x hx => hu ▸ hw.2 x hx⟩
    · intro hu
      exact le_antisymm (hu.2 w hw.1) (hw.2 u hu.1)
  obtain ⟨v, hv, _⟩ := firstMax_max
    (fun v => if oneCounts I v ≠ mostGeneric (oneCounts I) then 0 else supportCounts I v) w.pos
  obtain ⟨h1, h2⟩ := firstMax_first hv
  have hval : ∀ u, (if oneCounts I u ≠ mostGeneric (oneCounts I) then 0 else supportCounts I u) =
      if ones I u = ones I w then dividing I u else 0 := by
    intro u
    rw [hmg, oneCounts_ones, counts_dividing]
    by_cases hu : ones I u = ones I w <;> simp [hu]
  simp only [hval] at h1 h2
  have hpos : 0 < dividing I w := by
    have := oneCounts_le I w
    rw [oneCounts_ones, counts_dividing] at this
    have := hw.1
    omega
  have hvw : ones I v = ones I w := by
    by_contra hc
    have := h1 w
    rw [if_pos rfl, if_neg hc] at this
    omega
  rw [if_pos hvw] at h1 h2
  refine ⟨v, hv, (hleast v).1 hvw, fun u hu => ?_, fun u hlt hu => ?_⟩
  · have := h1 u
    rwa [if_pos ((hleast u).2 hu)] at this
  · have := h2 u hlt
    rwa [if_pos ((hleast u).2 hu)] at this

example : ∃ v, labelVar .minlabel [![2, 1, 0], ![0, 2, 1], (![1, 0, 3] : Term 3)] = some v ∧
    MinLabel [![2, 1, 0], ![0, 2, 1], (![1, 0, 3] : Term 3)] v :=
  C85_minlabel_partial _ ⟨1, by decide, by unfold Least; decide +kernel⟩

/-- **C85**: `indep` never uses a pivot that makes two variables independent: whatever the random numbers are, its pivot is the one of
`median`, as its flag for the first generator is never cleared. -/
theorem C85_indep (rnd rnd' : ℕ → ℕ) (old : Term n) (I : List (Term n)) (lcm : Term n) :
    indepPivot rnd old I lcm = getPivot .median rnd' I lcm ∧ indepPivot rnd old I lcm = getPivot .indep rnd' I lcm := by
  unfold indepPivot
  rw [indepAttempts_none]
  simp only [ite_self]
  exact ⟨rfl, rfl⟩

example : indepPivot (fun k => k) 0 sample (lcmOf sample) = some ![0, 0, 3] :=
  (C85_indep _ (fun _ => 0) 0 sample _).1.trans sample_median

end Frobby.SplitChoice

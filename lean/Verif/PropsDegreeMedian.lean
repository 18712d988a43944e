import Verif.DegreeChoiceLemmas
import Verif.SplitChoiceLemmas
import Mathlib.Data.Fin.VecNotation

/-!
# The median pivot and the widened pivots of Bigatti's algorithm
-/

namespace Frobby.DegreeChoice

open Frobby Term SplitChoice

variable {n : ℕ}

theorem sorted_counts (v : Fin n) {l : List (Term n)} (hs : l.Pairwise fun a b => a v ≤ b v) {k : ℕ} (hk : k < l.length) :
    (l.countP fun g => decide (g v < l[k] v)) ≤ k ∧ k < l.countP fun g => decide (g v ≤ l[k] v) := by
  constructor
  · have hz : (l.drop k).countP (fun g => decide (g v < l[k] v)) = 0 := by
      rw [List.countP_eq_zero]
      intro x hx
      obtain ⟨i, hi, hix⟩ := List.mem_drop_iff_getElem.1 hx
      rcases Nat.eq_zero_or_pos i with h0 | h0
      · subst h0
        have : l[k] = x := by simpa using hix
        simp [this]
      · have := List.pairwise_iff_getElem.1 hs k (k + i) hk (by omega) (by omega)
        rw [hix] at this
        simpa using this
    have happ : (l.countP fun g => decide (g v < l[k] v)) = ((l.take k ++ l.drop k).countP fun g => decide (g v < l[k] v)) := by
      rw [List.take_append_drop]
    rw [happ, List.countP_append, hz, Nat.add_zero]
    refine (List.countP_le_length).trans ?_
    rw [List.length_take]
    omega
  · have hall : (l.take (k + 1)).countP (fun g => decide (g v ≤ l[k] v)) = (l.take (k + 1)).length := by
      rw [List.countP_eq_length]
      intro x hx
      obtain ⟨i, hi, hix⟩ := List.mem_take_iff_getElem.1 hx
      have hi' := lt_min_iff.1 hi
      rcases Nat.lt_or_eq_of_le (Nat.le_of_lt_succ hi'.1) with h0 | h0
      · have := List.pairwise_iff_getElem.1 hs i k hi'.2 hk h0
        rw [hix] at this
        simpa using this
      · subst h0
        simp [hix]
    have hle := (List.take_sublist (k + 1) l).countP_le (p := fun g => decide (g v ≤ l[k] v))
    rw [hall, List.length_take] at hle
    omega

/-- **C86**: the pivot `median` is a power of a variable that divides the most generators, and its exponent is a median of the positive
exponents of that variable: the lower one of the two if their number is even. -/
theorem C86_median (J H : List (Term n)) (p : Term n) (h : bigattiMedian J = some (H, p)) :
    ∃ v e, p = single v e ∧ (∀ w, dividing J w ≤ dividing J v) ∧ (∃ g ∈ J, g v = e) ∧ e ≠ 0 ∧
      (J.filter fun g => 0 < g v ∧ g v < e).length ≤ (dividing J v - 1) / 2 ∧
      (dividing J v - 1) / 2 < (J.filter fun g => 0 < g v ∧ g v ≤ e).length := by
  unfold bigattiMedian at h
  cases hv : firstMax? (supportCounts J) with
  | none => rw [hv] at h; simp at h
  | some v =>
    rw [hv] at h
    simp only at h
    have hmax := (firstMax_first hv).1
    simp only [counts_dividing] at hmax
    have hp := singleDegreeSort_perm v J
    have hs := singleDegreeSort_sorted v J
    generalize singleDegreeSort v J = K at h hp hs
    obtain ⟨e, he, hx⟩ := Option.map_eq_some_iff.1 h
    simp only [Prod.mk.injEq] at hx
    obtain ⟨_, rfl⟩ := hx
    unfold medianPositiveOf at he
    simp only at he
    rw [(while_filter v 0 K hs (fun _ _ => Nat.zero_le _)).2] at he
    set l := K.filter fun h => decide (h v ≠ 0) with hl
    obtain ⟨x, hx, hxe⟩ := Option.map_eq_some_iff.1 he
    obtain ⟨hk, hlx⟩ := List.getElem?_eq_some_iff.1 hx
    have hmem : x ∈ l := hlx ▸ List.getElem_mem hk
    rw [hl, List.mem_filter] at hmem
    obtain ⟨h1, h2⟩ := sorted_counts v (hs.sublist List.filter_sublist : l.Pairwise fun a b => a v ≤ b v) hk
    rw [hlx, hxe] at h1 h2
    have hcount : ∀ P : ℕ → Bool, (l.countP fun g => P (g v)) = (J.filter fun g => decide (g v ≠ 0) && P (g v)).length := by
      intro P
      rw [hl, List.countP_filter, hp.countP_eq, List.countP_eq_length_filter]
      congr 1
      refine List.filter_congr fun g _ => ?_
      rw [Bool.and_comm]
    have hlen : l.length = dividing J v := by
      have := hcount fun _ => true
      simpa [dividing] using this
    have hc1 := hcount fun d => decide (d < e)
    have hc2 := hcount fun d => decide (d ≤ e)
    rw [hc1, hlen] at h1
    rw [hc2, hlen] at h2
    refine ⟨v, e, rfl, hmax, ⟨x, hp.mem_iff.1 hmem.1, hxe⟩, ?_, ?_, ?_⟩
    · have := hmem.2
      simp only [ne_eq, decide_eq_true_eq] at this
      omega
    · convert h1 using 2
      refine List.filter_congr fun g _ => ?_
      simp [Nat.pos_iff_ne_zero]
    · convert h2 using 2
      refine List.filter_congr fun g _ => ?_
      simp [Nat.pos_iff_ne_zero]

example : (bigattiMedian [![2, 1], ![3, 0], (![1, 2] : Term 2)]).map Prod.snd = some ![2, 0] := by decide +kernel

/-- **C86**: a widened pivot is the greatest common divisor of the generators that the pivot divides. -/
theorem C86_widen (q : BPivot) (J H : List (Term n)) (p p' : Term n) (h : q.run J = some (H, p)) (hp : H.Perm J)
    (hd : ∃ g ∈ J, p ≤ g) (h' : q.get true J = some (H, p')) : IsGcd (J.filter fun g => p ≤ g) p' := by
  unfold BPivot.get at h'
  rw [h] at h'
  simp only [Option.map_some, if_true, Option.some.injEq, Prod.mk.injEq, true_and] at h'
  subst h'
  have hq : ∀ g, g ∈ H.filter (fun g => decide (p ≤ g)) ↔ g ∈ J.filter fun g => decide (p ≤ g) :=
    fun g => (hp.filter _).mem_iff
  refine ⟨fun g hg => gcdOf_le ((hq g).2 hg), fun r hr => le_gcdOf ?_ fun g hg => hr g ((hq g).1 hg)⟩
  obtain ⟨g, hg, hpg⟩ := hd
  exact List.ne_nil_of_mem ((hq g).2 (List.mem_filter.2 ⟨hg, by simpa using hpg⟩))

example : (BPivot.get .median true [![2, 1], ![3, 1], (![1, 2] : Term 2)]).map Prod.snd = some ![2, 1] := by decide +kernel

end Frobby.DegreeChoice

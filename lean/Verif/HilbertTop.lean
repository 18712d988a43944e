import Verif.Run
import Mathlib.Data.Nat.Choose.Sum

/-!
# From coefficients to the Hilbert-Poincaré series
-/

namespace Frobby

open Term

variable {n : ℕ}

/-- The monomials dividing `m`. -/
def box (m : Term n) : Finset (Term n) := Fintype.piFinset fun i => Finset.range (m i + 1)

theorem mem_box {m u : Term n} : u ∈ box m ↔ u ≤ m := by
  simp [box, le_def]

theorem seriesCoef_cons (t : ℤ × Term n) (p : List (ℤ × Term n)) (m : Term n) :
    seriesCoef (t :: p) m = (if t.2 ≤ m then t.1 else 0) + seriesCoef p m := by
  unfold seriesCoef
  rw [List.filter_cons]
  by_cases h : t.2 ≤ m <;> simp [h]

theorem seriesCoef_nil (m : Term n) : seriesCoef [] m = 0 := rfl

theorem seriesCoef_append (p q : List (ℤ × Term n)) (m : Term n) :
    seriesCoef (p ++ q) m = seriesCoef p m + seriesCoef q m := by
  simp [seriesCoef]

theorem seriesCoef_eq_sum (p : List (ℤ × Term n)) (m : Term n) : seriesCoef p m = ∑ u ∈ box m, coefSum p u := by
  induction p with
  | nil => simp [seriesCoef, coefSum]
  | cons t p ih =>
    rw [seriesCoef_cons, ih]
    simp only [coefSum_cons, Finset.sum_add_distrib]
    congr 1
    rw [Finset.sum_ite_eq]
    simp only [mem_box]

/-- A polynomial is determined by its series. -/
theorem coefSum_eq_of_series {p q : List (ℤ × Term n)} (h : ∀ m, seriesCoef p m = seriesCoef q m) (m : Term n) :
    coefSum p m = coefSum q m := by
  induction hd : deg m using Nat.strong_induction_on generalizing m with
  | _ d ih =>
    have h1 := h m
    rw [seriesCoef_eq_sum, seriesCoef_eq_sum] at h1
    have hm : m ∈ box m := mem_box.2 (le_refl _)
    rw [← Finset.add_sum_erase _ _ hm, ← Finset.add_sum_erase _ _ hm] at h1
    have h2 : ∑ u ∈ (box m).erase m, coefSum p u = ∑ u ∈ (box m).erase m, coefSum q u := by
      refine Finset.sum_congr rfl fun u hu => ?_
      obtain ⟨hne, hu⟩ := Finset.mem_erase.1 hu
      rw [mem_box] at hu
      refine ih (deg u) ?_ u rfl
      rw [← hd]
      have ⟨i, hi⟩ : ∃ i, u i < m i := by
        by_contra hc
        push Not at hc
        exact hne (le_antisymm hu (le_def.2 hc))
      exact Term.deg_lt hu hi
    omega

theorem ind_val (τ : Finset (Fin n)) (i : Fin n) : ind τ i = if i ∈ τ then 1 else 0 := rfl

/-- Move one unit in direction `i` between the monomial and the set. -/
def toggle (i : Fin n) (a : Term n × Finset (Fin n)) : Term n × Finset (Fin n) :=
  if i ∈ a.2 then (a.1 + single i 1, a.2.erase i) else (a.1 - single i 1, insert i a.2)

theorem toggle_sum {i : Fin n} {a : Term n × Finset (Fin n)} (h : 1 ≤ (a.1 + ind a.2) i) :
    (toggle i a).1 + ind (toggle i a).2 = a.1 + ind a.2 := by
  unfold toggle
  split
  · rename_i hi
    funext j
    by_cases hj : j = i
    · subst hj; simp [ind_val, hi]
    · simp [ind_val, hj]
  · rename_i hi
    funext j
    by_cases hj : j = i
    · subst hj
      simp only [Pi.add_apply, ind_val, hi, if_false, add_zero] at h
      simp [ind_val, hi]; omega
    · simp [ind_val, hj]

theorem toggle_toggle {i : Fin n} {a : Term n × Finset (Fin n)} (h : 1 ≤ (a.1 + ind a.2) i) :
    toggle i (toggle i a) = a := by
  by_cases hi : i ∈ a.2
  · have h1 : toggle i a = (a.1 + single i 1, a.2.erase i) := by simp [toggle, hi]
    rw [h1]
    unfold toggle
    rw [if_neg (by simp)]
    refine Prod.ext ?_ ?_
    · funext j; simp
    · simp [hi]
  · have h1 : toggle i a = (a.1 - single i 1, insert i a.2) := by simp [toggle, hi]
    rw [h1]
    unfold toggle
    rw [if_pos (by simp)]
    simp only [Pi.add_apply, ind_val, hi, if_false, add_zero] at h
    refine Prod.ext ?_ ?_
    · funext j
      by_cases hj : j = i
      · subst hj; simp; omega
      · simp [hj]
    · simp [hi]

/-- Summing the `n`-dimensional difference operator over a box. -/
theorem box_sum (f : Term n → ℤ) (hf : ∀ w, f w ≠ 0 → ∀ i, 1 ≤ w i) (m : Term n) :
    ∑ u ∈ box m, ∑ τ ∈ (Finset.univ : Finset (Fin n)).powerset, (-1) ^ (n - τ.card) * f (u + ind τ) = f (m + 1) := by
  classical
  rw [← Finset.sum_product']
  have hmem : ((m, Finset.univ) : Term n × Finset (Fin n)) ∈ box m ×ˢ (Finset.univ : Finset (Fin n)).powerset := by
    simp [mem_box]
  rw [← Finset.add_sum_erase _ _ hmem]
  have h1 : m + ind Finset.univ = m + 1 := by funext i; simp [ind_val]
  have h0 : ∀ s : Finset (Term n × Finset (Fin n)),
      ∑ x ∈ s, (-1) ^ (n - x.2.card) * f (x.1 + ind x.2) =
        ∑ x ∈ s.filter (fun x => f (x.1 + ind x.2) ≠ 0), (-1) ^ (n - x.2.card) * f (x.1 + ind x.2) := by
    intro s
    rw [Finset.sum_filter]
    refine Finset.sum_congr rfl fun x _ => ?_
    by_cases h : f (x.1 + ind x.2) = 0 <;> simp [h]
  rw [h0]
  set s := ((box m ×ˢ (Finset.univ : Finset (Fin n)).powerset).erase (m, Finset.univ)).filter
    (fun x => f (x.1 + ind x.2) ≠ 0) with hs
  have hprop : ∀ a ∈ s, a.1 ≤ m ∧ f (a.1 + ind a.2) ≠ 0 ∧ ∃ i, (a.1 + ind a.2) i ≤ m i := by
    intro a ha
    rw [hs, Finset.mem_filter, Finset.mem_erase, Finset.mem_product, mem_box] at ha
    refine ⟨ha.1.2.1, ha.2, ?_⟩
    by_contra hc
    push Not at hc
    apply ha.1.1
    have h2 : ∀ i, a.1 i = m i ∧ i ∈ a.2 := by
      intro i
      have h3 := hc i
      have h4 := le_def.1 ha.1.2.1 i
      simp only [Pi.add_apply, ind_val] at h3
      split at h3
      · rename_i hi; exact ⟨by omega, hi⟩
      · omega
    exact Prod.ext (funext fun i => (h2 i).1) (Finset.eq_univ_iff_forall.2 fun i => (h2 i).2)
  have hrest : ∑ x ∈ s, (-1) ^ (n - x.2.card) * f (x.1 + ind x.2) = 0 := by
    have pick : ∀ w : Term n, ∃ i? : Option (Fin n), ∀ h : (∃ i, w i ≤ m i), ∃ i, i? = some i ∧ w i ≤ m i := by
      intro w
      by_cases h : ∃ i, w i ≤ m i
      · obtain ⟨i, hi⟩ := h; exact ⟨some i, fun _ => ⟨i, rfl, hi⟩⟩
      · exact ⟨none, fun h' => absurd h' h⟩
    choose pk hpk using pick
    let g : ∀ a ∈ s, Term n × Finset (Fin n) := fun a _ =>
      match pk (a.1 + ind a.2) with
      | some i => toggle i a
      | none => a
    have hg : ∀ a (ha : a ∈ s), ∃ i, pk (a.1 + ind a.2) = some i ∧ (a.1 + ind a.2) i ≤ m i ∧ 1 ≤ (a.1 + ind a.2) i ∧
        g a ha = toggle i a := by
      intro a ha
      obtain ⟨_, h3, h4⟩ := hprop a ha
      obtain ⟨i, h5, h6⟩ := hpk _ h4
      exact ⟨i, h5, h6, hf _ h3 i, by simp only [g, h5]⟩
    refine Finset.sum_involution g ?_ ?_ ?_ ?_
    · intro a ha
      obtain ⟨i, _, h6, h7, h8⟩ := hg a ha
      rw [h8, toggle_sum h7, ← add_mul]
      have : (-1 : ℤ) ^ (n - a.2.card) + (-1) ^ (n - (toggle i a).2.card) = 0 := by
        have hle : ∀ τ : Finset (Fin n), τ.card ≤ n := fun τ => by simpa using Finset.card_le_univ τ
        unfold toggle
        split
        · rename_i hi
          simp only [Finset.card_erase_of_mem hi]
          have hpos : 0 < a.2.card := Finset.card_pos.2 ⟨i, hi⟩
          have hl := hle a.2
          have : n - (a.2.card - 1) = (n - a.2.card) + 1 := by omega
          rw [this, pow_succ]; ring
        · rename_i hi
          simp only [Finset.card_insert_of_notMem hi]
          have hl := hle (insert i a.2)
          rw [Finset.card_insert_of_notMem hi] at hl
          have : n - a.2.card = (n - (a.2.card + 1)) + 1 := by omega
          rw [this, pow_succ]; ring
      rw [this, zero_mul]
    · intro a ha _ he
      obtain ⟨i, _, h6, h7, h8⟩ := hg a ha
      rw [h8] at he
      have h9 := congrArg (fun x : Term n × Finset (Fin n) => decide (i ∈ x.2)) he
      simp only [toggle] at h9
      split at h9 <;> simp_all
    · intro a ha
      obtain ⟨i, _, h6, h7, h8⟩ := hg a ha
      obtain ⟨h2, h3, h4⟩ := hprop a ha
      rw [h8, hs, Finset.mem_filter, toggle_sum h7, Finset.mem_erase, Finset.mem_product, mem_box]
      refine ⟨⟨fun he => ?_, ?_, by simp⟩, h3⟩
      · have h10 := toggle_sum h7
        rw [he, h1] at h10
        have := congrFun h10 i
        simp only [Pi.add_apply, Pi.one_apply] at this h6
        omega
      · refine le_def.2 fun j => ?_
        have h11 := le_def.1 h2 j
        simp only [Pi.add_apply, ind_val] at h6
        unfold toggle
        split
        · rename_i hi
          by_cases hj : j = i
          · subst hj; simp [hi] at h6 ⊢; omega
          · simpa [hj] using h11
        · simp only [Pi.sub_apply]; omega
    · intro a ha
      obtain ⟨i, h5, h6, h7, h8⟩ := hg a ha
      simp only [h8]
      have h9 := toggle_sum h7
      simp only [g]
      rw [h9, h5]
      exact toggle_toggle h7
  rw [hrest]
  simp [h1]

theorem mem_map_one {I : List (Term n)} {w : Term n} : mem (I.map (· + 1)) w ↔ (∀ i, 1 ≤ w i) ∧ mem I (w - 1) := by
  unfold mem
  constructor
  · rintro ⟨g, hg, hle⟩
    obtain ⟨g', hg', rfl⟩ := List.mem_map.1 hg
    refine ⟨fun i => ?_, g', hg', le_def.2 fun i => ?_⟩
    all_goals
      have := le_def.1 hle i
      simp only [Pi.add_apply, Pi.one_apply, Pi.sub_apply] at *
      omega
  · rintro ⟨h1, g, hg, hle⟩
    refine ⟨g + 1, List.mem_map.2 ⟨g, hg, rfl⟩, le_def.2 fun i => ?_⟩
    have := le_def.1 hle i
    have := h1 i
    simp only [Pi.add_apply, Pi.one_apply, Pi.sub_apply] at *
    omega

theorem sum_hcoef {I : List (Term n)} (hn : 0 < n) (m : Term n) :
    ∑ u ∈ box m, hcoef (I.map (· + 1)) u = if mem I m then -1 else 0 := by
  have hz : ∑ τ ∈ (Finset.univ : Finset (Fin n)).powerset, (-1 : ℤ) ^ (n - τ.card) = 0 := by
    have h1 := Finset.sum_powerset_neg_one_pow_card_of_nonempty (x := (Finset.univ : Finset (Fin n)))
      ⟨⟨0, hn⟩, Finset.mem_univ _⟩
    have h2 : ∑ τ ∈ (Finset.univ : Finset (Fin n)).powerset, (-1 : ℤ) ^ (n - τ.card) =
        ∑ τ ∈ (Finset.univ : Finset (Fin n)).powerset, (-1 : ℤ) ^ n * (-1) ^ τ.card := by
      refine Finset.sum_congr rfl fun τ _ => ?_
      have hle : τ.card ≤ n := by simpa using Finset.card_le_univ τ
      have h3 : (-1 : ℤ) ^ n = (-1) ^ (n - τ.card) * (-1) ^ τ.card := by
        rw [← pow_add, Nat.sub_add_cancel hle]
      rw [h3, mul_assoc, ← mul_pow]; simp
    rw [h2, ← Finset.mul_sum, h1, mul_zero]
  have h1 : ∀ u : Term n, hcoef (I.map (· + 1)) u =
      - ∑ τ ∈ (Finset.univ : Finset (Fin n)).powerset,
        (-1) ^ (n - τ.card) * (if mem (I.map (· + 1)) (u + ind τ) then 1 else 0) := by
    intro u
    unfold hcoef
    rw [eq_neg_iff_add_eq_zero, ← Finset.sum_add_distrib]
    refine Eq.trans ?_ hz
    refine Finset.sum_congr rfl fun τ _ => ?_
    rw [← mul_add]
    split <;> simp
  simp only [h1, Finset.sum_neg_distrib]
  rw [box_sum (fun w => if mem (I.map (· + 1)) w then 1 else 0)]
  · have : m + 1 - 1 = m := by funext i; simp
    simp only [mem_map_one, this]
    have h2 : ∀ i, 1 ≤ (m + 1) i := fun i => by simp
    by_cases h : mem I m <;> simp [h]
  · intro w hw
    by_contra hc
    apply hw
    rw [if_neg]
    rw [mem_map_one]
    exact fun h => hc h.1

theorem hilbertRun_no_vars {o : Opts} (rnd : List ℕ → ℕ → ℕ) (I : List (Term 0)) :
    hilbertRun o rnd I = some (if contains I 0 then [] else [(1, 0)]) := by
  have h1 : ∀ s : Slice 0, s.hilbertBaseCase = some [] := by
    intro s
    unfold Slice.hilbertBaseCase
    rw [if_neg (by omega), if_neg, if_pos rfl]
    simp [isSquareFree]
  unfold hilbertRun
  simp only
  rw [simplifyWith_no_vars rfl]
  simp [process, sliceFuel, Slice.baseCase, h1]

/-- `HilbertStrategy::run` computes the numerator of the Hilbert-Poincaré series. -/
theorem hilbertRun_numerator {o : Opts} (ho : o.valid .hilbert) (rnd : List ℕ → ℕ → ℕ) {I : List (Term n)}
    (hI : Anti I) : ∃ outs, hilbertRun o rnd I = some outs ∧ IsHilbertNumerator outs I ∧
      Reduced outs ∧ ∀ x ∈ outs, x.2 ≤ lcmOf I := by
  rcases Nat.eq_zero_or_pos n with h0 | hn
  · subst h0
    refine ⟨_, hilbertRun_no_vars rnd I, fun m => ?_, by split <;> simp [Reduced],
      fun x _ => le_def.2 fun i => i.elim0⟩
    obtain rfl : m = 0 := Subsingleton.elim _ _
    rw [contains_eq_decide]
    by_cases h : mem I 0 <;> simp [h, seriesCoef]
  · obtain ⟨outs, h1, h2, h3⟩ := hilbertRun_spec ho rnd hI hn
    refine ⟨outs, h1, fun m => ?_, h3⟩
    rw [seriesCoef_eq_sum]
    simp only [h2]
    by_cases h0 : mem I 0
    · have hm : mem I m := mem_of_le h0 (le_def.2 fun i => by simp)
      simp [h0, hm]
    · simp only [h0, if_false, Finset.sum_add_distrib]
      rw [sum_hcoef hn, Finset.sum_ite_eq']
      have : (0 : Term n) ∈ box m := mem_box.2 (le_def.2 fun i => by simp)
      rw [if_pos this]
      split <;> simp

end Frobby

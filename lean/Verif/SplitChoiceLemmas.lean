import Verif.SplitChoiceModel
import Verif.SplitChoiceSpec
import Verif.SplitLemmas

/-!
# Lemmas about the choice of splits
-/

namespace Frobby.SplitChoice

open Frobby Term

variable {n : ℕ}

theorem firstMax_foldl_first (a : Term n) : ∀ (l : List (Fin n)) (m r : Fin n), (m :: l).Pairwise (· < ·) →
    l.foldl (fun acc v => match acc with
      | none => some v
      | some m => if a m < a v then some v else some m) (some m) = some r →
    r ∈ m :: l ∧ (∀ w ∈ m :: l, a w ≤ a r) ∧ ∀ w ∈ m :: l, w < r → a w < a r := by
  intro l
  induction l with
  | nil =>
    intro m r _ h
    simp only [List.foldl_nil, Option.some.injEq] at h
    subst h
    simp
  | cons x l ih =>
    intro m r hp h
    simp only [List.foldl_cons] at h
    have hmx : m < x := (List.pairwise_cons.1 hp).1 x (by simp)
    have hpx := (List.pairwise_cons.1 hp).2
    by_cases hlt : a m < a x
    · rw [if_pos hlt] at h
      obtain ⟨h1, h2, h3⟩ := ih x r hpx h
      have hx := h2 x (by simp)
      refine ⟨List.mem_cons_of_mem _ h1, fun w hw => ?_, fun w hw hwr => ?_⟩
      · rcases List.mem_cons.1 hw with rfl | hw
        · omega
        · exact h2 w hw
      · rcases List.mem_cons.1 hw with rfl | hw
        · omega
        · exact h3 w hw hwr
    · rw [if_neg hlt] at h
      have hpm : (m :: l).Pairwise (· < ·) :=
        List.pairwise_cons.2 ⟨fun w hw => (List.pairwise_cons.1 hp).1 w (List.mem_cons_of_mem _ hw),
          (List.pairwise_cons.1 hpx).2⟩
      obtain ⟨h1, h2, h3⟩ := ih m r hpm h
      have hm := h2 m (by simp)
      have hxl : x < r → a x < a r := by
        intro hxr
        have := h3 m (by simp) (hmx.trans hxr)
        omega
      refine ⟨?_, fun w hw => ?_, fun w hw hwr => ?_⟩
      · rcases List.mem_cons.1 h1 with h1 | h1
        · rw [h1]; simp
        · simp [h1]
      · rcases List.mem_cons.1 hw with rfl | hw
        · exact hm
        · rcases List.mem_cons.1 hw with rfl | hw
          · omega
          · exact h2 w (List.mem_cons_of_mem _ hw)
      · rcases List.mem_cons.1 hw with rfl | hw
        · exact h3 w (by simp) hwr
        · rcases List.mem_cons.1 hw with rfl | hw
          · exact hxl hwr
          · exact h3 w (List.mem_cons_of_mem _ hw) hwr

theorem firstMax_first {a : Term n} {r : Fin n} (h : firstMax? a = some r) :
    (∀ w, a w ≤ a r) ∧ ∀ w < r, a w < a r := by
  unfold firstMax? at h
  have hp : (List.finRange n).Pairwise (· < ·) := List.pairwise_lt_finRange n
  cases hl : List.finRange n with
  | nil => exact absurd (List.mem_finRange r) (by rw [hl]; simp)
  | cons m l =>
    rw [hl] at h hp
    rw [List.foldl_cons] at h
    obtain ⟨_, h2, h3⟩ := firstMax_foldl_first a l m r hp h
    have hm : ∀ w, w ∈ m :: l := fun w => hl ▸ List.mem_finRange w
    exact ⟨fun w => h2 w (hm w), fun w => h3 w (hm w)⟩

theorem counts_dividing (I : List (Term n)) (v : Fin n) : supportCounts I v = dividing I v := by
  unfold supportCounts dividing
  rw [List.countP_eq_length_filter]
  congr 1
  refine List.filter_congr fun g _ => ?_
  simp [Nat.pos_iff_ne_zero]

theorem support_one_iff {g : Term n} {v : Fin n} (hv : g v = 1) : sizeOfSupport g ≠ 1 ↔ ∃ w, w ≠ v ∧ g w ≠ 0 := by
  have hmem : v ∈ Finset.univ.filter fun i => g i ≠ 0 := by simp [hv]
  constructor
  · intro h
    by_contra hc
    push Not at hc
    refine h (Finset.card_eq_one.2 ⟨v, ?_⟩)
    ext w
    simp only [Finset.mem_filter, Finset.mem_univ, true_and, Finset.mem_singleton]
    refine ⟨fun hw => ?_, fun hw => by rw [hw, hv]; omega⟩
    by_contra hne
    exact hw (hc w hne)
  · rintro ⟨w, hne, hw⟩ h
    obtain ⟨x, hx⟩ := Finset.card_eq_one.1 h
    rw [hx] at hmem
    have hw' : w ∈ Finset.univ.filter fun i => g i ≠ 0 := by simp [hw]
    rw [hx] at hw'
    exact hne ((Finset.mem_singleton.1 hw').trans (Finset.mem_singleton.1 hmem).symm)

theorem oneCounts_ones (I : List (Term n)) (v : Fin n) : oneCounts I v = ones I v := by
  unfold oneCounts ones
  rw [List.countP_eq_length_filter]
  congr 1
  refine List.filter_congr fun g _ => ?_
  by_cases hv : g v = 1
  · simp only [hv, and_true, true_and]
    exact decide_eq_decide.2 (support_one_iff hv)
  · simp [hv]

theorem squared_iff (I : List (Term n)) (v : Fin n) : Squared I v ↔ 2 ≤ lcmOf I v := by
  constructor
  · rintro ⟨g, hg, h⟩
    exact h.trans (le_def.1 (le_lcmOf hg) v)
  · intro h
    obtain ⟨g, hg, he⟩ := lcmOf_attained (G := I) (i := v) (by omega)
    exact ⟨g, hg, by omega⟩

theorem squared_dividing {I : List (Term n)} {v : Fin n} (h : Squared I v) : 0 < dividing I v := by
  obtain ⟨g, hg, h2⟩ := h
  exact List.length_pos_of_mem (List.mem_filter.2 ⟨hg, by simp; omega⟩)

theorem filter_take_card (P : Fin n → Prop) [DecidablePred P] {k : ℕ} {v : Fin n}
    (h : ((List.finRange n).filter fun w => decide (P w))[k]? = some v) :
    P v ∧ (Finset.univ.filter fun w => w < v ∧ P w).card = k := by
  set L := (List.finRange n).filter fun w => decide (P w) with hL
  obtain ⟨hk, hv⟩ := List.getElem?_eq_some_iff.1 h
  have hp : L.Pairwise (· < ·) := (List.pairwise_lt_finRange n).filter _
  have hmem : ∀ w, w ∈ L ↔ P w := fun w => by simp [hL]
  refine ⟨(hmem v).1 (hv ▸ List.getElem_mem hk), ?_⟩
  have hset : (Finset.univ.filter fun w => w < v ∧ P w) = (L.take k).toFinset := by
    ext w
    simp only [Finset.mem_filter, Finset.mem_univ, true_and, List.mem_toFinset]
    rw [List.mem_take_iff_getElem]
    constructor
    · rintro ⟨hlt, hw⟩
      obtain ⟨i, hi, hiw⟩ := List.getElem_of_mem ((hmem w).2 hw)
      refine ⟨i, ?_, hiw⟩
      rw [lt_min_iff]
      refine ⟨?_, hi⟩
      by_contra hc
      rcases Nat.lt_or_eq_of_le (Nat.le_of_not_lt hc) with hki | hki
      · have := List.pairwise_iff_getElem.1 hp k i hk hi hki
        rw [hv, hiw] at this
        exact absurd hlt (not_lt.2 this.le)
      · subst hki
        rw [hv] at hiw
        exact absurd hlt (by rw [hiw]; exact lt_irrefl _)
    · rintro ⟨i, hi, hiw⟩
      have hi' := lt_min_iff.1 hi
      have := List.pairwise_iff_getElem.1 hp i k hi'.2 hk hi'.1
      rw [hv, hiw] at this
      exact ⟨this, (hmem w).1 (hiw ▸ List.getElem_mem hi'.2)⟩
  have hnd : (L.take k).Nodup := (((List.nodup_finRange n).filter _).sublist (List.take_sublist _ _))
  rw [hset, List.toFinset_card_of_nodup hnd, List.length_take]
  omega

theorem bestVar_middle {I : List (Term n)} {v : Fin n} (h : bestVar I (lcmOf I) = some v) (hs : ∃ w, Squared I w) :
    MiddleBest I v := by
  obtain ⟨w, hw⟩ := hs
  unfold bestVar at h
  simp only at h
  set co : Term n := fun v => if lcmOf I v ≤ 1 then 0 else supportCounts I v with hco
  have hcov : ∀ u, co u = if Squared I u then dividing I u else 0 := by
    intro u
    simp only [hco, squared_iff, counts_dividing]
    by_cases h2 : 2 ≤ lcmOf I u
    · rw [if_neg (by omega), if_pos h2]
    · rw [if_pos (by omega), if_neg h2]
  cases hm : firstMax? co with
  | none => rw [hm] at h; simp at h
  | some m =>
    rw [hm] at h
    simp only at h
    have hmax := (firstMax_first hm).1
    have hpos : 0 < co m := by
      have := hmax w
      rw [hcov w, if_pos hw] at this
      have := squared_dividing hw
      omega
    have hiff : ∀ u, (if co u < co m then 0 else co u) ≠ 0 ↔ Best I u := by
      intro u
      constructor
      · intro hu
        by_cases hlt : co u < co m
        · rw [if_pos hlt] at hu
          exact absurd rfl hu
        rw [if_neg hlt] at hu
        have hsq : Squared I u := by
          by_contra hc
          rw [hcov u, if_neg hc] at hu
          exact hu rfl
        refine ⟨hsq, fun x hx => ?_⟩
        have h1 := hmax x
        rw [hcov x, if_pos hx] at h1
        have h2 := hcov u
        rw [if_pos hsq] at h2
        omega
      · rintro ⟨hsq, hu⟩
        have hms : Squared I m := by
          by_contra hc
          rw [hcov m, if_neg hc] at hpos
          omega
        have h1 := hu m hms
        have h2 := hcov u
        rw [if_pos hsq] at h2
        have h3 := hcov m
        rw [if_pos hms] at h3
        rw [if_neg (by omega)]
        omega
    unfold middleNonZero at h
    have hfil : ((List.finRange n).filter fun u => decide ((if co u < co m then 0 else co u) ≠ 0)) =
        (List.finRange n).filter fun u => decide (Best I u) :=
      List.filter_congr fun u _ => decide_eq_decide.2 (hiff u)
    have hsz : sizeOfSupport (fun u => if co u < co m then 0 else co u) = (Finset.univ.filter fun u => Best I u).card := by
      unfold sizeOfSupport
      congr 1
      exact Finset.filter_congr fun u _ => hiff u
    rw [hfil, hsz] at h
    exact filter_take_card (Best I) h

theorem median_spec {I : List (Term n)} {v : Fin n} {e : ℕ} (h : medianPositive I v = some e) : Median I v e := by
  unfold medianPositive at h
  simp only at h
  set F := (I.map fun g => g v).filter fun e => decide (e ≠ 0) with hF
  set es := F.mergeSort (fun a b => decide (a ≤ b)) with hes
  have hperm : es.Perm F := List.mergeSort_perm _ _
  have hsort : es.Pairwise (· ≤ ·) := by
    have := List.pairwise_mergeSort (le := fun a b : ℕ => decide (a ≤ b)) (fun a b c => by simp; omega)
      (fun a b => by simp; omega) F
    exact this.imp fun h => by simpa using h
  obtain ⟨hk, he⟩ := List.getElem?_eq_some_iff.1 h
  have hcount : ∀ P : ℕ → Bool, es.countP P = (I.filter fun g => decide (g v ≠ 0) && P (g v)).length := by
    intro P
    rw [hperm.countP_eq, hF, List.countP_filter, List.countP_map, List.countP_eq_length_filter]
    congr 1
    refine List.filter_congr fun g _ => ?_
    simp [Bool.and_comm]
  have hlen : es.length = dividing I v := by
    have := hcount fun _ => true
    simpa [dividing] using this
  have hmem : e ∈ F := hperm.mem_iff.1 (he ▸ List.getElem_mem hk)
  rw [hF, List.mem_filter, List.mem_map] at hmem
  refine ⟨hmem.1, by simpa using hmem.2, ?_, ?_⟩
  · have h1 : es.countP (fun x => decide (x < e)) ≤ es.length / 2 := by
      rw [← List.take_append_drop (es.length / 2) es, List.countP_append]
      have hz : (es.drop (es.length / 2)).countP (fun x => decide (x < e)) = 0 := by
        rw [List.countP_eq_zero]
        intro x hx
        obtain ⟨i, hi, hix⟩ := List.mem_drop_iff_getElem.1 hx
        rcases Nat.eq_zero_or_pos i with h0 | h0
        · subst h0
          have : es[es.length / 2] = x := by simpa using hix
          simp; omega
        · have := List.pairwise_iff_getElem.1 hsort (es.length / 2) (es.length / 2 + i) hk (by omega) (by omega)
          simp; omega
      rw [hz, List.take_append_drop]
      refine (List.countP_le_length).trans ?_
      rw [List.length_take]
      omega
    rw [hcount, hlen] at h1
    convert h1 using 2
    refine List.filter_congr fun g _ => ?_
    simp [Nat.pos_iff_ne_zero]
  · have h1 : es.length / 2 < es.countP (fun x => decide (x ≤ e)) := by
      have hall : (es.take (es.length / 2 + 1)).countP (fun x => decide (x ≤ e)) = (es.take (es.length / 2 + 1)).length := by
        rw [List.countP_eq_length]
        intro x hx
        obtain ⟨i, hi, hix⟩ := List.mem_take_iff_getElem.1 hx
        have hi' := lt_min_iff.1 hi
        rcases Nat.lt_or_eq_of_le (Nat.le_of_lt_succ hi'.1) with h0 | h0
        · have := List.pairwise_iff_getElem.1 hsort i (es.length / 2) hi'.2 hk h0
          simp; omega
        · subst h0
          simp; omega
      have hle := (List.take_sublist (es.length / 2 + 1) es).countP_le (p := fun x => decide (x ≤ e))
      rw [hall, List.length_take] at hle
      omega
    rw [hcount, hlen] at h1
    convert h1 using 2
    refine List.filter_congr fun g _ => ?_
    simp [Nat.pos_iff_ne_zero]

theorem mostGeneric_foldl (oc : Term n) : ∀ (l : List (Fin n)) (m : ℕ),
    let r := l.foldl (fun m v => if m = 0 ∨ (oc v < m ∧ 0 < oc v) then oc v else m) m
    (m ≠ 0 → r ≠ 0 ∧ r ≤ m) ∧ (∀ v ∈ l, 0 < oc v → r ≠ 0 ∧ r ≤ oc v) ∧ (r = m ∨ ∃ v ∈ l, oc v = r) := by
  intro l
  induction l with
  | nil => intro m; simp
  | cons x l ih =>
    intro m
    simp only [List.foldl_cons]
    by_cases hc : m = 0 ∨ (oc x < m ∧ 0 < oc x)
    · rw [if_pos hc]
      obtain ⟨h1, h2, h3⟩ := ih (oc x)
      refine ⟨fun hm => ?_, fun v hv hpos => ?_, ?_⟩
      · have := h1 (by omega)
        exact ⟨this.1, by omega⟩
      · rcases List.mem_cons.1 hv with rfl | hv
        · exact h1 (by omega)
        · exact h2 v hv hpos
      · rcases h3 with h3 | ⟨v, hv, h3⟩
        · exact Or.inr ⟨x, by simp, h3.symm⟩
        · exact Or.inr ⟨v, by simp [hv], h3⟩
    · rw [if_neg hc]
      obtain ⟨h1, h2, h3⟩ := ih m
      refine ⟨h1, fun v hv hpos => ?_, ?_⟩
      · rcases List.mem_cons.1 hv with rfl | hv
        · have := h1 (by omega)
          exact ⟨this.1, by omega⟩
        · exact h2 v hv hpos
      · rcases h3 with h3 | ⟨v, hv, h3⟩
        · exact Or.inl h3
        · exact Or.inr ⟨v, by simp [hv], h3⟩

/-- The flag is never cleared. -/
theorem indepScan_first (v1 v2 : ℕ) (I : List (Term n)) (p : Term n) : (indepScan v1 v2 I p true).2 = true := by
  unfold indepScan
  induction I generalizing p with
  | nil => rfl
  | cons g I ih =>
    rw [List.foldl_cons]
    by_cases hc : at' g v1 = 0 ∨ at' g v2 = 0
    · rw [if_pos hc]; exact ih p
    · rw [if_neg hc]; exact ih g

theorem indepAttempts_none (rnd : ℕ → ℕ) (I : List (Term n)) : ∀ (k r : ℕ) (p : Term n), indepAttempts rnd I k r p = none := by
  intro k
  induction k with
  | zero => intro r p; rfl
  | succ k ih =>
    intro r p
    rw [indepAttempts]
    simp only
    rw [indepScan_first]
    simp [ih]

end Frobby.SplitChoice

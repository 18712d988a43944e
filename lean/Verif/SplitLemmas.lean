import Verif.ProjLemmas
import Verif.MsmBase
import Verif.HilbertBase

/-!
# The choice of pivots and labels
-/

namespace Frobby

open Term

variable {n : ℕ}

/-! ## the best variable -/

theorem length_filter_support (a : Term n) :
    ((List.finRange n).filter fun v => decide (a v ≠ 0)).length = sizeOfSupport a := by
  unfold sizeOfSupport
  rw [← List.toFinset_card_of_nodup ((List.nodup_finRange n).filter _)]
  congr 1
  ext v; simp

theorem middleNonZero_spec {a : Term n} (h : a ≠ 0) : ∃ v, middleNonZero a = some v ∧ a v ≠ 0 := by
  have h0 : sizeOfSupport a ≠ 0 := fun h0 => h ((sizeOfSupport_zero_iff a).1 h0)
  have hlt : sizeOfSupport a / 2 < ((List.finRange n).filter fun v => decide (a v ≠ 0)).length := by
    rw [length_filter_support]; omega
  refine ⟨_, List.getElem?_eq_getElem hlt, ?_⟩
  have := List.getElem_mem hlt
  rw [List.mem_filter] at this
  simpa using this.2

theorem bestVar_spec {I : List (Term n)} (hsq : ¬ isSquareFree (lcmOf I)) :
    ∃ v, bestVar I (lcmOf I) = some v ∧ 2 ≤ lcmOf I v := by
  have ⟨w, hw⟩ : ∃ w, 2 ≤ lcmOf I w := by
    by_contra hc
    push Not at hc
    exact hsq fun i => by have := hc i; omega
  obtain ⟨m, hm, hmax⟩ := firstMax_max (fun v => if lcmOf I v ≤ 1 then 0 else supportCounts I v) (n := n) w.pos
  have hpos : 0 < supportCounts I w := by
    obtain ⟨g, hg, he⟩ := lcmOf_attained (G := I) (i := w) (by omega)
    exact List.countP_pos_iff.2 ⟨g, hg, by simp; omega⟩
  have hmw := hmax w
  rw [if_neg (by omega : ¬ lcmOf I w ≤ 1)] at hmw
  unfold bestVar
  simp only [hm]
  obtain ⟨v, hv, hv0⟩ := middleNonZero_spec (a := fun v =>
    if (if lcmOf I v ≤ 1 then 0 else supportCounts I v) < (if lcmOf I m ≤ 1 then 0 else supportCounts I m) then 0
    else (if lcmOf I v ≤ 1 then 0 else supportCounts I v)) (by
      intro h0
      have := congrFun h0 m
      simp only [lt_self_iff_false, if_false, Pi.zero_apply] at this
      rw [this] at hmw; omega)
  refine ⟨v, hv, ?_⟩
  by_contra hc
  apply hv0
  have : lcmOf I v ≤ 1 := by omega
  simp [this]

/-! ## pivots -/

/-- What the algorithm needs of a pivot. -/
def ValidPivot (I : List (Term n)) (p : Term n) : Prop := p ≠ 0 ∧ ∃ g ∈ I, strictlyDivides p g

theorem validPivot_single {I : List (Term n)} {v : Fin n} {e : ℕ} (h0 : e ≠ 0) (he : e < lcmOf I v) :
    ValidPivot I (single v e) := by
  refine ⟨fun h => h0 (by simpa using congrFun h v), ?_⟩
  obtain ⟨g, hg, hgv⟩ := lcmOf_attained (G := I) (i := v) (by omega)
  refine ⟨g, hg, fun i => ?_, fun h => ?_⟩
  · by_cases hi : i = v
    · subst hi; left; simp; omega
    · right; simp [hi]
  · have := congrFun h v
    simp only [Pi.zero_apply] at this; omega

theorem validPivot_decrement {I : List (Term n)} {g p : Term n} (hg : g ∈ I) (hp : p ≤ g) {v : Fin n} (hv : 2 ≤ p v) :
    ValidPivot I (decrement p) := by
  refine ⟨fun h => ?_, g, hg, fun i => ?_, fun h => ?_⟩
  · have := congrFun h v
    simp only [decrement, Pi.zero_apply] at this; omega
  · have := le_def.1 hp i
    simp only [decrement]; omega
  · have := le_def.1 hp v
    have := congrFun h v
    simp only [Pi.zero_apply] at this; omega

theorem medianPositive_spec {I : List (Term n)} {v : Fin n} (h : lcmOf I v ≠ 0) :
    ∃ e, medianPositive I v = some e ∧ e ≠ 0 ∧ e ≤ lcmOf I v := by
  obtain ⟨g, hg, hgv⟩ := lcmOf_attained (G := I) (i := v) (Nat.pos_of_ne_zero h)
  unfold medianPositive
  simp only
  set es := ((I.map fun g => g v).filter fun e => decide (e ≠ 0)).mergeSort (fun a b => decide (a ≤ b)) with hes
  have hmem : ∀ e, e ∈ es ↔ (∃ g ∈ I, g v = e) ∧ e ≠ 0 := by
    intro e; rw [hes, List.mem_mergeSort, List.mem_filter]; simp
  have hne : es ≠ [] := by
    intro h0
    have := (hmem (g v)).2 ⟨⟨g, hg, rfl⟩, by omega⟩
    rw [h0] at this; simp at this
  have hlen : 0 < es.length := List.length_pos_iff.2 hne
  have hlt : es.length / 2 < es.length := by omega
  refine ⟨_, List.getElem?_eq_getElem hlt, ?_⟩
  obtain ⟨⟨g', hg', he⟩, h0⟩ := (hmem _).1 (List.getElem_mem hlt)
  exact ⟨h0, by rw [← he]; exact le_def.1 (le_lcmOf hg') v⟩

theorem medianPivot_spec {I : List (Term n)} (hsq : ¬ isSquareFree (lcmOf I)) :
    ∃ p, medianPivot I (lcmOf I) = some p ∧ ValidPivot I p := by
  obtain ⟨v, hv, h2⟩ := bestVar_spec hsq
  obtain ⟨e, he, h0, hle⟩ := medianPositive_spec (I := I) (v := v) (by omega)
  refine ⟨single v (if e = lcmOf I v then e - 1 else e), by unfold medianPivot; simp only [hv, he], ?_⟩
  split
  · exact validPivot_single (by omega) (by omega)
  · exact validPivot_single h0 (by omega)

theorem getElem?_mod {α : Type*} {L : List α} (h : L ≠ []) (r : ℕ) : ∃ a, L[r % L.length]? = some a ∧ a ∈ L := by
  have hlt : r % L.length < L.length := Nat.mod_lt _ (List.length_pos_iff.2 h)
  exact ⟨_, List.getElem?_eq_getElem hlt, List.getElem_mem hlt⟩

/-- Every pivot strategy succeeds on a slice that is not a base case, with a usable pivot. -/
theorem getPivot_spec {sp : Split} (hl : sp.isLabel = false) (hd : sp ≠ .degree) (rnd : ℕ → ℕ) {I : List (Term n)}
    (hsq : ¬ isSquareFree (lcmOf I)) : ∃ p, getPivot sp rnd I (lcmOf I) = some p ∧ ValidPivot I p := by
  obtain ⟨v, hv, h2⟩ := bestVar_spec hsq
  cases sp with
  | maxlabel => simp [Split.isLabel] at hl
  | varlabel => simp [Split.isLabel] at hl
  | minlabel => simp [Split.isLabel] at hl
  | degree => exact absurd rfl hd
  | minimum => exact ⟨single v 1, by simp only [getPivot, hv, Option.map_some], validPivot_single one_ne_zero (by omega)⟩
  | median => exact medianPivot_spec hsq
  | maximum =>
    exact ⟨single v (lcmOf I v - 1), by simp only [getPivot, hv, Option.map_some],
      validPivot_single (by omega) (by omega)⟩
  | indep => exact medianPivot_spec hsq
  | gcd =>
    have hne : (I.filter fun g => decide (2 ≤ g v)) ≠ [] := by
      obtain ⟨g, hg, hgv⟩ := lcmOf_attained (G := I) (i := v) (by omega)
      exact List.ne_nil_of_mem (List.mem_filter.2 ⟨hg, by simp; omega⟩)
    obtain ⟨a, ha, ham⟩ := getElem?_mod hne (rnd 0)
    obtain ⟨b, hb, hbm⟩ := getElem?_mod hne (rnd 1)
    obtain ⟨c, hc, hcm⟩ := getElem?_mod hne (rnd 2)
    refine ⟨decrement (a ⊓ b ⊓ c), by simp only [getPivot, hv, ha, hb, hc], ?_⟩
    simp only [List.mem_filter, decide_eq_true_eq] at ham hbm hcm
    refine validPivot_decrement ham.1 (le_trans inf_le_left inf_le_left) (v := v) ?_
    simp only [Pi.inf_apply, le_inf_iff]
    exact ⟨⟨ham.2, hbm.2⟩, hcm.2⟩
  | mingen =>
    have hne : (I.filter fun g => decide (¬ isSquareFree g)) ≠ [] := by
      obtain ⟨g, hg, hgv⟩ := lcmOf_attained (G := I) (i := v) (by omega)
      refine List.ne_nil_of_mem (List.mem_filter.2 ⟨hg, ?_⟩)
      have : ¬ isSquareFree g := fun h => by have := h v; omega
      simpa using this
    obtain ⟨a, ha, ham⟩ := getElem?_mod hne (rnd 0)
    refine ⟨decrement a, by simp only [getPivot, ha, Option.map_some], ?_⟩
    rw [List.mem_filter] at ham
    have hnsq : ¬ isSquareFree a := by simpa using ham.2
    have ⟨w, hw⟩ : ∃ w, 2 ≤ a w := by
      by_contra hcc
      push Not at hcc
      exact hnsq fun i => by have := hcc i; omega
    exact validPivot_decrement ham.1 (le_refl _) hw

/-! ## labels -/

/-- What the algorithm needs of the variable of a label split. -/
def ValidLabel (I : List (Term n)) (v : Fin n) : Prop := single v 1 ∉ I ∧ ∃ g ∈ I, g v = 1

theorem exists_one {I : List (Term n)} (hfull : ∀ i, lcmOf I i ≠ 0) (hl : ∀ v, Slice.leastPositive I v ≤ 1) (v : Fin n) :
    ∃ g ∈ I, g v = 1 := by
  have h0 : Slice.leastPositive I v ≠ 0 := by
    intro h0
    obtain ⟨g, hg, he⟩ := lcmOf_attained (G := I) (i := v) (Nat.pos_of_ne_zero (hfull v))
    have := leastPositive_zero h0 g hg
    have := hfull v
    omega
  obtain ⟨g, hg, he⟩ := leastPositive_attained h0
  exact ⟨g, hg, by have := hl v; omega⟩

theorem only_of_var_mem {I : List (Term n)} (hI : Anti I) {v : Fin n} (hv : single v 1 ∈ I) {g : Term n} (hg : g ∈ I)
    (h0 : g v ≠ 0) : g = single v 1 :=
  (hI.eq_of_le hv hg (single_le_iff.2 (by omega))).symm

theorem sizeOfSupport_single (v : Fin n) {e : ℕ} (he : e ≠ 0) : sizeOfSupport (single v e) = 1 := by
  unfold sizeOfSupport
  rw [Finset.card_eq_one]
  refine ⟨v, ?_⟩
  ext i
  by_cases hi : i = v <;> simp [hi, he]

theorem support_one_eq {g : Term n} {v : Fin n} (h : sizeOfSupport g = 1) (h1 : g v = 1) : g = single v 1 := by
  obtain ⟨w, _, _, h3⟩ := eq_single_of_support_one h
  have : v = w := by
    by_contra hc
    rw [h3, single_ne _ hc] at h1; omega
  subst this
  rw [h3, h1]

theorem oneCounts_pos {I : List (Term n)} {v : Fin n} :
    0 < oneCounts I v ↔ ∃ g ∈ I, sizeOfSupport g ≠ 1 ∧ g v = 1 := by
  unfold oneCounts
  rw [List.countP_pos_iff]
  simp

theorem validLabel_of_oneCounts {I : List (Term n)} (hI : Anti I) {v : Fin n} (h : 0 < oneCounts I v) :
    ValidLabel I v := by
  obtain ⟨g, hg, hs, h1⟩ := oneCounts_pos.1 h
  refine ⟨fun hv => ?_, g, hg, h1⟩
  have := only_of_var_mem hI hv hg (by omega)
  rw [this, sizeOfSupport_single v one_ne_zero] at hs
  exact hs rfl

theorem var_mem_of_oneCounts {I : List (Term n)} (hfull : ∀ i, lcmOf I i ≠ 0)
    (hl : ∀ v, Slice.leastPositive I v ≤ 1) {v : Fin n} (h : ¬ 0 < oneCounts I v) : single v 1 ∈ I := by
  obtain ⟨g, hg, h1⟩ := exists_one hfull hl v
  have : sizeOfSupport g = 1 := by
    by_contra hc; exact h (oneCounts_pos.2 ⟨g, hg, hc, h1⟩)
  rw [← support_one_eq this h1]; exact hg

theorem isSquareFree_of_vars {I : List (Term n)} (hI : Anti I) (h : ∀ v, single v 1 ∈ I) : isSquareFree (lcmOf I) := by
  intro i
  by_cases h0 : lcmOf I i = 0
  · omega
  · obtain ⟨g, hg, he⟩ := lcmOf_attained (G := I) (i := i) (Nat.pos_of_ne_zero h0)
    rw [← he, only_of_var_mem hI (h i) hg (by omega)]
    simp

theorem mostGeneric_aux (oc : Term n) : ∀ (l : List (Fin n)) (a : ℕ),
    let r := l.foldl (fun m v => if m = 0 ∨ (oc v < m ∧ 0 < oc v) then oc v else m) a
    (r = a ∨ ∃ v ∈ l, r = oc v) ∧ (r = 0 → a = 0 ∧ ∀ v ∈ l, oc v = 0) := by
  intro l
  induction l with
  | nil => intro a; simp
  | cons w l ih =>
    intro a
    simp only [List.foldl_cons]
    obtain ⟨h1, h2⟩ := ih (if a = 0 ∨ (oc w < a ∧ 0 < oc w) then oc w else a)
    constructor
    · rcases h1 with h1 | ⟨v, hv, h1⟩
      · split at h1
        · exact Or.inr ⟨w, by simp, by rw [if_pos (by assumption)]; exact h1⟩
        · left; rw [if_neg (by assumption)]; exact h1
      · exact Or.inr ⟨v, by simp [hv], h1⟩
    · intro hr
      obtain ⟨h3, h4⟩ := h2 hr
      split at h3
      · rename_i hc
        refine ⟨by omega, fun v hv => ?_⟩
        rcases List.mem_cons.1 hv with rfl | hv
        · exact h3
        · exact h4 v hv
      · rename_i hc
        omega

theorem mostGeneric_spec (oc : Term n) :
    (mostGeneric oc = 0 → ∀ v : Fin n, 1 ≤ v.val → oc v = 0) ∧
      (mostGeneric oc ≠ 0 → ∃ v, oc v = mostGeneric oc) := by
  obtain ⟨h1, h2⟩ := mostGeneric_aux oc ((List.finRange n).filter fun v => decide (1 ≤ v.val)) 0
  constructor
  · intro h v hv
    exact (h2 h).2 v (by simp [hv])
  · intro h
    rcases h1 with h1 | ⟨v, _, h1⟩
    · exact absurd h1 h
    · exact ⟨v, h1.symm⟩

theorem oneCounts_le (I : List (Term n)) (v : Fin n) : oneCounts I v ≤ supportCounts I v := by
  unfold oneCounts supportCounts
  apply List.countP_mono_left
  intro g _ h
  simp only [decide_eq_true_eq] at h ⊢
  omega

/-- If every variable divides at most one generator, there are at most `n` generators. -/
theorem length_le_of_counts {I : List (Term n)} (hI : Anti I) (h0 : (0 : Term n) ∉ I)
    (h : ∀ v, supportCounts I v ≤ 1) : I.length ≤ n := by
  have hcount : ∀ v : Fin n, ∀ g ∈ I, ∀ g' ∈ I, g v ≠ 0 → g' v ≠ 0 → g = g' := by
    intro v g hg g' hg' hgv hgv'
    by_contra hne
    have hlen : (I.filter fun g => decide (0 < g v)).length ≤ 1 := by
      have := h v
      rwa [supportCounts, List.countP_eq_length_filter] at this
    have m1 : g ∈ I.filter fun g => decide (0 < g v) := by simp [hg]; omega
    have m2 : g' ∈ I.filter fun g => decide (0 < g v) := by simp [hg']; omega
    match hL : I.filter (fun g => decide (0 < g v)), hlen with
    | [], _ => rw [hL] at m1; simp at m1
    | [a], _ =>
      rw [hL] at m1 m2
      exact hne ((List.mem_singleton.1 m1).trans (List.mem_singleton.1 m2).symm)
    | a :: b :: l, hl => rw [hL] at hlen; simp at hlen
  have hnil : n = 0 → I = [] := by
    rintro rfl
    refine List.eq_nil_iff_forall_not_mem.2 fun g hg => h0 ?_
    rwa [Subsingleton.elim (0 : Term 0) g]
  rcases Nat.eq_zero_or_pos n with hn | hn
  · rw [hnil hn]; simp
  rw [← List.toFinset_card_of_nodup hI.nodup]
  have hz : ∀ g ∈ I.toFinset, g ≠ 0 := fun g hg hz => h0 (by rw [← hz]; simpa using hg)
  classical
  have : I.toFinset.card ≤ (Finset.univ : Finset (Fin n)).card := by
    refine Finset.card_le_card_of_injOn
      (fun g => if hg : g ≠ 0 then ⟨firstNonZero g, firstNonZero_lt hg⟩ else ⟨0, ?_⟩) (fun _ _ => Finset.mem_coe.2 (Finset.mem_univ _)) ?_
    · exact hn
    · intro a ha b hb hab
      have ha' := hz a ha
      have hb' := hz b hb
      simp only [ne_eq, ha', hb', not_false_eq_true, dif_pos] at hab
      refine hcount ⟨firstNonZero a, firstNonZero_lt ha'⟩ a (by simpa using ha) b (by simpa using hb)
        (firstNonZero_spec _) ?_
      rw [hab]; exact firstNonZero_spec _
  simpa using this

/-- The label strategies succeed on a slice that is not a base case, with a usable variable. -/
theorem labelVar_spec {sp : Split} (hsp : sp.isLabel = true) {I : List (Term n)} (hI : Anti I) (hn : 2 ≤ n)
    (hfull : ∀ i, lcmOf I i ≠ 0) (hl : ∀ v, Slice.leastPositive I v ≤ 1) (hsq : ¬ isSquareFree (lcmOf I))
    (hlen : n < I.length) : ∃ v, labelVar sp I = some v ∧ ValidLabel I v := by
  have h0 : (0 : Term n) ∉ I := by
    intro h0
    obtain ⟨g, hg, he⟩ := lcmOf_attained (G := I) (i := ⟨0, by omega⟩) (Nat.pos_of_ne_zero (hfull _))
    have : g = 0 := (hI.eq_of_le h0 hg (le_def.2 fun i => by simp)).symm
    have h2 := hfull ⟨0, by omega⟩
    rw [← he, this] at h2
    exact h2 rfl
  have hex : ∃ v, 0 < oneCounts I v := by
    by_contra hc
    push Not at hc
    exact hsq (isSquareFree_of_vars hI fun v => var_mem_of_oneCounts hfull hl (by have := hc v; omega))
  cases sp with
  | maxlabel =>
    obtain ⟨r, hr, hmax⟩ := firstMax_max (supportCounts I) (by omega : 0 < n)
    refine ⟨r, hr, fun hv => ?_, exists_one hfull hl r⟩
    have h1 : supportCounts I r ≤ 1 := by
      rw [supportCounts, List.countP_eq_length_filter]
      have hsub : ∀ g ∈ I.filter (fun g => decide (0 < g r)), g = single r 1 := by
        intro g hg
        rw [List.mem_filter] at hg
        exact only_of_var_mem hI hv hg.1 (by have := hg.2; simp at this; omega)
      have hnd : (I.filter fun g => decide (0 < g r)).Nodup := hI.nodup.filter _
      match hL : I.filter (fun g => decide (0 < g r)) with
      | [] => rw [hL]; simp
      | [a] => rw [hL]; simp
      | a :: b :: l =>
        rw [hL] at hsub hnd
        have := (hsub a (by simp)).trans (hsub b (by simp)).symm
        simp [this] at hnd
    have := length_le_of_counts hI h0 fun v => (hmax v).trans h1
    omega
  | varlabel =>
    obtain ⟨v, hv⟩ := hex
    have : ((List.finRange n).find? fun v => decide (0 < oneCounts I v)).isSome := by
      rw [List.find?_isSome]; exact ⟨v, List.mem_finRange v, by simpa using hv⟩
    obtain ⟨w, hw⟩ := Option.isSome_iff_exists.1 this
    refine ⟨w, hw, validLabel_of_oneCounts hI ?_⟩
    simpa using List.find?_some hw
  | minlabel =>
    obtain ⟨hz, hp⟩ := mostGeneric_spec (oneCounts I)
    have hM : mostGeneric (oneCounts I) ≠ 0 := by
      intro hM
      have hvars : ∀ v : Fin n, 1 ≤ v.val → single v 1 ∈ I := fun v hv =>
        var_mem_of_oneCounts hfull hl (by rw [hz hM v hv]; omega)
      obtain ⟨v, hv⟩ := hex
      obtain ⟨g, hg, hs, h1⟩ := oneCounts_pos.1 hv
      by_cases hv1 : 1 ≤ v.val
      · rw [hz hM v hv1] at hv; omega
      · apply hs
        have hgs : g = single v 1 := by
          funext i
          by_cases hi : i = v
          · subst hi; simpa using h1
          · rw [single_ne _ hi]
            by_contra hgi
            have hi1 : 1 ≤ i.val := by
              rcases Nat.eq_zero_or_pos i.val with h | h
              · exact absurd (Fin.ext (by omega)) hi
              · exact h
            have := only_of_var_mem hI (hvars i hi1) hg hgi
            rw [this, single_ne _ (Ne.symm hi)] at h1
            omega
        rw [hgs, sizeOfSupport_single v one_ne_zero]
    obtain ⟨w, hw⟩ := hp hM
    obtain ⟨r, hr, hmax⟩ := firstMax_max
      (fun v => if oneCounts I v ≠ mostGeneric (oneCounts I) then 0 else supportCounts I v) (by omega : 0 < n)
    refine ⟨r, hr, validLabel_of_oneCounts hI ?_⟩
    have hmw := hmax w
    rw [if_neg (by simpa using hw)] at hmw
    have hle := oneCounts_le I w
    by_contra hc
    have hne : oneCounts I r ≠ mostGeneric (oneCounts I) := by omega
    rw [if_pos hne] at hmw
    omega
  | _ => simp [Split.isLabel] at hsp

end Frobby

import Verif.SqfModel
import Mathlib.Algebra.BigOperators.Ring.Finset
import Mathlib.Data.Nat.Choose.Sum
import Mathlib.Algebra.BigOperators.Group.Finset.Powerset
import Mathlib.Tactic.Ring
import Mathlib.Tactic.Linarith

/-!
# The alternating sum that the Euler characteristic algorithm keeps
-/

namespace Frobby

/-- The sum of `(-1)^|S|` over the sublists `S` of a list of sets that cover, together with `c`, the numbers below `V`. -/
def eSum (V : ℕ) : List SqTerm → SqTerm → ℤ
  | [], c => if Finset.range V ⊆ c then 1 else 0
  | g :: l, c => eSum V l c - eSum V l (c ∪ g)

variable {V : ℕ}

theorem eSum_perm {l l' : List SqTerm} (h : l.Perm l') (c : SqTerm) : eSum V l c = eSum V l' c := by
  induction h generalizing c with
  | nil => rfl
  | cons x _ ih => simp only [eSum, ih]
  | swap x y l =>
    simp only [eSum, Finset.union_assoc, Finset.union_comm y x]
    ring
  | trans _ _ ih1 ih2 => rw [ih1, ih2]

theorem eSum_zero {l : List SqTerm} {c : SqTerm} (h : ∃ g ∈ l, g ⊆ c) : eSum V l c = 0 := by
  induction l generalizing c with
  | nil => simp at h
  | cons x l ih =>
    obtain ⟨g, hg, hs⟩ := h
    rcases List.mem_cons.1 hg with rfl | hg
    · simp [eSum, Finset.union_eq_left.2 hs]
    · simp only [eSum]
      rw [ih ⟨g, hg, hs⟩, ih ⟨g, hg, hs.trans Finset.subset_union_left⟩]
      rfl

theorem eSum_congr {l : List SqTerm} {c : SqTerm} (f : SqTerm → SqTerm) (hf : ∀ g ∈ l, ∀ d, c ⊆ d → d ∪ f g = d ∪ g) :
    eSum V (l.map f) c = eSum V l c := by
  induction l generalizing c with
  | nil => rfl
  | cons x l ih =>
    simp only [List.map_cons, eSum]
    rw [ih fun g hg => hf g (by simp [hg]), hf x (by simp) c (fun _ h => h)]
    rw [ih fun g hg d hd => hf g (by simp [hg]) d (Finset.subset_union_left.trans hd)]

theorem eSum_sdiff {l : List SqTerm} {c p : SqTerm} (h : p ⊆ c) : eSum V (l.map fun g => g \ p) c = eSum V l c :=
  eSum_congr _ fun g _ d hd => by
    have := h.trans hd
    ext x
    simp only [Finset.mem_union, Finset.mem_sdiff]
    have := @this x
    tauto

theorem eSum_erase {l : List SqTerm} {c : SqTerm} {v : ℕ} (h : v ∈ c) : eSum V (l.map fun g => g.erase v) c = eSum V l c :=
  eSum_congr _ fun g _ d hd => by
    have := hd h
    ext x
    simp only [Finset.mem_union, Finset.mem_erase]
    constructor
    · tauto
    · rintro (h | h)
      · exact Or.inl h
      · by_cases hx : x = v
        · subst hx; exact Or.inl this
        · exact Or.inr ⟨hx, h⟩

theorem eSum_redundant {r d : List SqTerm} (h : ∀ m ∈ d, ∃ x ∈ r, x ⊆ m) (c : SqTerm) : eSum V (d ++ r) c = eSum V r c := by
  induction d with
  | nil => rfl
  | cons m d ih =>
    simp only [List.cons_append, eSum]
    rw [ih fun m hm => h m (by simp [hm])]
    obtain ⟨x, hx, hs⟩ := h m (by simp)
    rw [eSum_zero ⟨x, by simp [hx], hs.trans Finset.subset_union_right⟩]
    ring

theorem eSum_subperm {r m : List SqTerm} (hs : r.Subperm m) (h : ∀ g ∈ m, ∃ x ∈ r, x ⊆ g) (c : SqTerm) :
    eSum V r c = eSum V m c := by
  obtain ⟨r', hr, hs⟩ := hs
  obtain ⟨d, hd⟩ := hs.exists_perm_append
  replace hd := hd.trans (hr.append_right d)
  rw [eSum_perm hd, eSum_perm List.perm_append_comm, eSum_redundant]
  exact fun g hg => h g (hd.mem_iff.2 (by simp [hg]))

theorem eSum_var {l : List SqTerm} {c : SqTerm} {v : ℕ} (hv : v < V) (hc : v ∉ c) :
    eSum V l c = eSum V l (insert v c) - eSum V (l.filter fun g => v ∉ g) (insert v c) := by
  induction l generalizing c with
  | nil =>
    have : ¬ Finset.range V ⊆ c := fun h => hc (h (by simpa using hv))
    simp [eSum, this]
  | cons g l ih =>
    by_cases hg : v ∈ g
    · have h2 : insert v c ∪ g = c ∪ g := by ext x; simp only [Finset.mem_union, Finset.mem_insert]; constructor
                                             · rintro ((rfl | h) | h) <;> simp [*]
                                             · tauto
      simp only [eSum, List.filter_cons, hg, not_true_eq_false, decide_false, Bool.false_eq_true, if_false]
      rw [ih hc, h2]
      ring
    · have h2 : insert v c ∪ g = insert v (c ∪ g) := Finset.insert_union _ _ _
      simp only [eSum, List.filter_cons, hg, not_false_eq_true, decide_true, if_true]
      rw [ih hc, ih (c := c ∪ g) (by simp [hc, hg]), h2]
      ring

theorem eSum_not_full {l : List SqTerm} {c : SqTerm} (h : ¬ ∀ v < V, v ∈ c ∨ ∃ g ∈ l, v ∈ g) : eSum V l c = 0 := by
  induction l generalizing c with
  | nil =>
    rw [eSum, if_neg]
    intro h2
    exact h fun v hv => Or.inl (h2 (by simpa using hv))
  | cons g l ih =>
    simp only [eSum]
    rw [ih, ih]
    · rfl
    · intro h2
      refine h fun v hv => ?_
      rcases h2 v hv with h3 | ⟨g', hg', h3⟩
      · rcases Finset.mem_union.1 h3 with h3 | h3
        · exact Or.inl h3
        · exact Or.inr ⟨g, by simp, h3⟩
      · exact Or.inr ⟨g', by simp [hg'], h3⟩
    · intro h2
      refine h fun v hv => ?_
      rcases h2 v hv with h3 | ⟨g', hg', h3⟩
      · exact Or.inl h3
      · exact Or.inr ⟨g', by simp [hg'], h3⟩

/-- The sum over the sets that meet every set of the list. -/
theorem eSum_hit (l : List SqTerm) (c : SqTerm) :
    eSum V l c = ∑ T ∈ (Finset.range V \ c).powerset with ∀ g ∈ l, ¬ Disjoint T g, (-1 : ℤ) ^ T.card := by
  induction l generalizing c with
  | nil =>
    simp only [List.not_mem_nil, false_implies, implies_true, Finset.filter_true, eSum]
    rw [Finset.sum_powerset_neg_one_pow_card]
    simp [Finset.sdiff_eq_empty_iff_subset]
  | cons g l ih =>
    simp only [eSum]
    rw [ih, ih, sub_eq_iff_eq_add]
    have h2 : (Finset.range V \ (c ∪ g)).powerset.filter (fun T => ∀ g ∈ l, ¬ Disjoint T g) =
        ((Finset.range V \ c).powerset.filter (fun T => ∀ g ∈ l, ¬ Disjoint T g)).filter (fun T => ¬ ¬ Disjoint T g) := by
      ext T
      simp only [Finset.mem_filter, Finset.mem_powerset, not_not]
      constructor
      · rintro ⟨h1, h2⟩
        refine ⟨⟨fun x hx => ?_, h2⟩, ?_⟩
        · have := h1 hx
          simp only [Finset.mem_sdiff, Finset.mem_union, not_or] at this ⊢
          tauto
        · rw [Finset.disjoint_left]
          intro x hx
          have := h1 hx
          simp only [Finset.mem_sdiff, Finset.mem_union, not_or] at this
          tauto
      · rintro ⟨⟨h1, h2⟩, h3⟩
        refine ⟨fun x hx => ?_, h2⟩
        have := h1 hx
        have := Finset.disjoint_left.1 h3 hx
        simp only [Finset.mem_sdiff, Finset.mem_union, not_or] at *
        tauto
    have h3 : (Finset.range V \ c).powerset.filter (fun T => ∀ g' ∈ g :: l, ¬ Disjoint T g') =
        ((Finset.range V \ c).powerset.filter (fun T => ∀ g ∈ l, ¬ Disjoint T g)).filter (fun T => ¬ Disjoint T g) := by
      ext T
      simp only [Finset.mem_filter, List.forall_mem_cons]
      tauto
    rw [h2, h3, Finset.sum_filter_add_sum_filter_not]

/-- The sum over the sets of indices whose members cover. -/
theorem eSum_cover (l : List SqTerm) (c : SqTerm) :
    eSum V l c = ∑ U ∈ (Finset.range l.length).powerset with ∀ v < V, v ∈ c ∨ ∃ i ∈ U, v ∈ l.getD i ∅, (-1 : ℤ) ^ U.card := by
  induction l using List.reverseRecOn generalizing c with
  | nil =>
    simp only [eSum, List.length_nil, Finset.range_zero, Finset.powerset_empty, Finset.sum_filter, Finset.sum_singleton,
      Finset.card_empty, pow_zero]
    congr 1
    simp [Finset.subset_iff]
  | append_singleton l g ih =>
    rw [eSum_perm (List.perm_append_singleton g l)]
    simp only [eSum]
    rw [ih, ih, List.length_append, List.length_singleton, Finset.range_add_one]
    simp only [Finset.sum_filter]
    rw [Finset.sum_powerset_insert (by simp), sub_eq_add_neg, ← Finset.sum_neg_distrib]
    congr 1
    · refine Finset.sum_congr rfl fun U hU => ?_
      have hU := Finset.mem_powerset.1 hU
      have h1 : ∀ i ∈ U, (l ++ [g]).getD i ∅ = l.getD i ∅ := fun i hi => by
        have := Finset.mem_range.1 (hU hi)
        simp [List.getD_eq_getElem?_getD, List.getElem?_append_left this]
      congr 1
      apply propext
      refine forall₂_congr fun v _ => or_congr Iff.rfl ?_
      constructor
      · rintro ⟨i, hi, h⟩; exact ⟨i, hi, by rwa [h1 i hi]⟩
      · rintro ⟨i, hi, h⟩; exact ⟨i, hi, by rwa [h1 i hi] at h⟩
    · refine Finset.sum_congr rfl fun U hU => ?_
      have hU := Finset.mem_powerset.1 hU
      have h1 : ∀ i ∈ U, (l ++ [g]).getD i ∅ = l.getD i ∅ := fun i hi => by
        have := Finset.mem_range.1 (hU hi)
        simp [List.getD_eq_getElem?_getD, List.getElem?_append_left this]
      have h0 : l.length ∉ U := fun h => by simpa using hU h
      rw [Finset.card_insert_of_notMem h0, pow_succ]
      have : (∀ v < V, v ∈ c ∨ ∃ i ∈ insert l.length U, v ∈ (l ++ [g]).getD i ∅) ↔
          (∀ v < V, v ∈ c ∪ g ∨ ∃ i ∈ U, v ∈ l.getD i ∅) := by
        refine forall₂_congr fun v _ => ?_
        rw [Finset.mem_union, or_assoc]
        refine or_congr Iff.rfl ?_
        rw [Finset.exists_mem_insert]
        refine or_congr ?_ ?_
        · simp [List.getD_eq_getElem?_getD]
        · constructor
          · rintro ⟨i, hi, h⟩; exact ⟨i, hi, by rwa [h1 i hi] at h⟩
          · rintro ⟨i, hi, h⟩; exact ⟨i, hi, by rwa [h1 i hi]⟩
      rw [if_congr this rfl rfl]
      split <;> simp

end Frobby

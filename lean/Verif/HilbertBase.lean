import Verif.SimplifyLemmas
import Verif.HilbertModel
import Mathlib.Data.Finset.Card
import Mathlib.Algebra.BigOperators.Group.Finset.Powerset
import Mathlib.Data.Nat.Choose.Sum
import Mathlib.Tactic.Ring

/-!
# `HilbertBasecase` computes the coefficient
-/

namespace Frobby

variable {n : ℕ}

open Term

/-- The support of a term. -/
def supp (g : Term n) : Finset (Fin n) := Finset.univ.filter fun i => g i ≠ 0

theorem mem_supp {g : Term n} {i : Fin n} : i ∈ supp g ↔ g i ≠ 0 := by simp [supp]

theorem sizeOfSupport_eq_card (g : Term n) : sizeOfSupport g = (supp g).card := rfl

theorem ind_apply (τ : Finset (Fin n)) (i : Fin n) : ind τ i = if i ∈ τ then 1 else 0 := rfl

theorem le_ind {g : Term n} (hg : g ≤ 1) {τ : Finset (Fin n)} : g ≤ ind τ ↔ supp g ⊆ τ := by
  constructor
  · intro h i hi
    have h1 := le_def.1 h i
    rw [ind_apply] at h1
    rw [mem_supp] at hi
    by_contra hc
    simp only [hc, if_false] at h1
    omega
  · intro h
    refine le_def.2 fun i => ?_
    have h1 := le_def.1 hg i
    rw [ind_apply]
    split
    · simpa using h1
    · rename_i hc
      have : i ∉ supp g := fun hi => hc (h hi)
      rw [mem_supp] at this
      omega

/-- Signed count of the squarefree monomials between `a` and `W` outside the ideal. -/
def Cw (W a : Finset (Fin n)) (I : List (Term n)) : ℤ :=
  ∑ τ ∈ W.powerset, if a ⊆ τ ∧ ¬ mem I (ind τ) then (-1) ^ (W.card - τ.card) else 0

theorem Cw_congr {W a : Finset (Fin n)} {I J : List (Term n)}
    (h : ∀ τ, τ ⊆ W → (mem I (ind τ) ↔ mem J (ind τ))) : Cw W a I = Cw W a J := by
  unfold Cw
  refine Finset.sum_congr rfl fun τ hτ => ?_
  rw [if_congr (and_congr_right fun _ => not_congr (h τ (Finset.mem_powerset.1 hτ))) rfl rfl]

theorem hcoef_zero (I : List (Term n)) : hcoef I 0 = Cw Finset.univ ∅ I := by
  unfold hcoef Cw
  refine Finset.sum_congr rfl fun τ _ => ?_
  simp only [zero_add, Finset.empty_subset, true_and, Finset.card_univ, Fintype.card_fin]
  by_cases h : mem I (ind τ) <;> simp [h]

theorem Cw_cons {W a : Finset (Fin n)} {g : Term n} {I : List (Term n)} (hg : g ≤ 1) :
    Cw W a (g :: I) = Cw W a I - Cw W (a ∪ supp g) I := by
  unfold Cw
  rw [← Finset.sum_sub_distrib]
  refine Finset.sum_congr rfl fun τ _ => ?_
  simp only [mem_cons, le_ind hg, Finset.union_subset_iff]
  by_cases h1 : a ⊆ τ <;> by_cases h2 : supp g ⊆ τ <;> by_cases h3 : mem I (ind τ) <;> simp [h1, h2, h3]

theorem Cw_shift {W a : Finset (Fin n)} (ha : a ⊆ W) {I J : List (Term n)}
    (h : ∀ σ, σ ⊆ W \ a → (mem J (ind σ) ↔ mem I (ind (σ ∪ a)))) : Cw W a I = Cw (W \ a) ∅ J := by
  unfold Cw
  simp only [Finset.empty_subset, true_and]
  rw [← Finset.sum_filter, ← Finset.sum_filter]
  refine Finset.sum_nbij' (fun τ => τ \ a) (fun σ => σ ∪ a) ?_ ?_ ?_ ?_ ?_
  · intro τ hτ
    simp only [Finset.mem_filter, Finset.mem_powerset] at hτ ⊢
    refine ⟨Finset.sdiff_subset_sdiff hτ.1 (Finset.Subset.refl _), ?_⟩
    rw [h _ (Finset.sdiff_subset_sdiff hτ.1 (Finset.Subset.refl _)), Finset.sdiff_union_of_subset hτ.2.1]
    exact hτ.2.2
  · intro σ hσ
    simp only [Finset.mem_filter, Finset.mem_powerset] at hσ ⊢
    refine ⟨Finset.union_subset (hσ.1.trans Finset.sdiff_subset) ha, Finset.subset_union_right, ?_⟩
    rw [← h σ hσ.1]; exact hσ.2
  · intro τ hτ
    simp only [Finset.mem_filter] at hτ
    exact Finset.sdiff_union_of_subset hτ.2.1
  · intro σ hσ
    simp only [Finset.mem_filter, Finset.mem_powerset] at hσ
    rw [Finset.union_sdiff_cancel_right]
    exact Finset.disjoint_of_subset_left hσ.1 Finset.sdiff_disjoint
  · intro τ hτ
    simp only [Finset.mem_filter, Finset.mem_powerset] at hτ
    rw [Finset.card_sdiff_of_subset ha, Finset.card_sdiff_of_subset hτ.2.1]
    congr 1
    have := Finset.card_le_card hτ.1
    have := Finset.card_le_card hτ.2.1
    omega

theorem Cw_empty_nil (W : Finset (Fin n)) : Cw W ∅ [] = if W = ∅ then 1 else 0 := by
  unfold Cw
  have h : ∀ τ ∈ W.powerset, (if ∅ ⊆ τ ∧ ¬ mem [] (ind τ) then (-1 : ℤ) ^ (W.card - τ.card) else 0) =
      (-1) ^ W.card * (-1) ^ τ.card := by
    intro τ hτ
    rw [if_pos ⟨Finset.empty_subset _, mem_nil _⟩]
    have hle := Finset.card_le_card (Finset.mem_powerset.1 hτ)
    have : W.card = (W.card - τ.card) + τ.card := by omega
    conv_rhs => rw [this, pow_add, mul_assoc, ← pow_add, ← two_mul, pow_mul]
    simp
  rw [Finset.sum_congr rfl h, ← Finset.mul_sum, Finset.sum_powerset_neg_one_pow_card]
  split
  · rename_i h0; simp [h0]
  · simp

theorem Cw_nil (W a : Finset (Fin n)) : Cw W a [] = if a = W then 1 else 0 := by
  by_cases ha : a ⊆ W
  · rw [Cw_shift (J := []) ha fun σ _ => by simp [mem_nil], Cw_empty_nil]
    have : W \ a = ∅ ↔ a = W := by
      rw [Finset.sdiff_eq_empty_iff_subset]
      exact ⟨fun h => Finset.Subset.antisymm ha h, fun h => h ▸ Finset.Subset.refl _⟩
    simp only [this]
  · have hne : a ≠ W := fun h => ha (h ▸ Finset.Subset.refl _)
    rw [if_neg hne]
    unfold Cw
    refine Finset.sum_eq_zero fun τ hτ => if_neg ?_
    rintro ⟨h, _⟩
    exact ha (h.trans (Finset.mem_powerset.1 hτ))

theorem Cw_split {W : Finset (Fin n)} {v : Fin n} (hv : v ∈ W) {I J K : List (Term n)}
    (hJ : ∀ τ, τ ⊆ W.erase v → (mem J (ind τ) ↔ mem I (ind (insert v τ))))
    (hK : ∀ τ, τ ⊆ W.erase v → (mem K (ind τ) ↔ mem I (ind τ))) :
    Cw W ∅ I = Cw (W.erase v) ∅ J - Cw (W.erase v) ∅ K := by
  have hW : W = insert v (W.erase v) := (Finset.insert_erase hv).symm
  have hv' : v ∉ W.erase v := by simp
  have hc : W.card = (W.erase v).card + 1 := by
    rw [Finset.card_erase_of_mem hv]
    have : 0 < W.card := Finset.card_pos.2 ⟨v, hv⟩
    omega
  unfold Cw
  conv_lhs => rw [hW]
  rw [Finset.sum_powerset_insert hv', add_comm, sub_eq_add_neg, ← Finset.sum_neg_distrib]
  congr 1
  · refine Finset.sum_congr rfl fun τ hτ => ?_
    have hτ' := Finset.mem_powerset.1 hτ
    have hvτ : v ∉ τ := fun h => hv' (hτ' h)
    rw [← hW, hc, Finset.card_insert_of_notMem hvτ]
    simp only [Finset.empty_subset, true_and, hJ τ hτ']
    have : (W.erase v).card + 1 - (τ.card + 1) = (W.erase v).card - τ.card := by omega
    rw [this]
  · refine Finset.sum_congr rfl fun τ hτ => ?_
    have hτ' := Finset.mem_powerset.1 hτ
    have hle := Finset.card_le_card hτ'
    rw [← hW, hc]
    simp only [Finset.empty_subset, true_and, hK τ hτ']
    have : (W.erase v).card + 1 - τ.card = ((W.erase v).card - τ.card) + 1 := by omega
    rw [this, pow_succ]
    split <;> simp

theorem mem_ind_insert {v : Fin n} {I : List (Term n)} (h : ∀ g ∈ I, g v = 0) (τ : Finset (Fin n)) :
    mem I (ind τ) ↔ mem I (ind (insert v τ)) := by
  constructor
  · rintro ⟨g, hg, hle⟩
    refine ⟨g, hg, hle.trans (le_def.2 fun i => ?_)⟩
    rw [ind_apply, ind_apply]
    by_cases hi : i ∈ τ
    · simp [hi]
    · simp [hi]
  · rintro ⟨g, hg, hle⟩
    refine ⟨g, hg, le_def.2 fun i => ?_⟩
    have := le_def.1 hle i
    rw [ind_apply] at this ⊢
    by_cases hi : i = v
    · subst hi; rw [h g hg]; omega
    · simpa [hi] using this

theorem Cw_cone {W : Finset (Fin n)} {v : Fin n} (hv : v ∈ W) {I : List (Term n)} (h : ∀ g ∈ I, g v = 0) :
    Cw W ∅ I = 0 := by
  rw [Cw_split hv (J := I) (K := I) (fun τ _ => mem_ind_insert h τ) (fun _ _ => Iff.rfl), sub_self]

theorem Cw_perm {W a : Finset (Fin n)} {I J : List (Term n)} (h : I.Perm J) : Cw W a I = Cw W a J :=
  Cw_congr fun τ _ => mem_perm h _

/-! ## the state of the computation -/

/-- What holds for an entry: a minimal squarefree ideal with support in `W`, not the whole ring. -/
structure HB (I : List (Term n)) (W : Finset (Fin n)) : Prop where
  anti : Anti I
  sq : ∀ g ∈ I, g ≤ 1
  sub : ∀ g ∈ I, supp g ⊆ W
  ne : ∀ g ∈ I, g ≠ 0

theorem counts_pos {I : List (Term n)} {v : Fin n} : supportCounts I v ≠ 0 ↔ ∃ g ∈ I, g v ≠ 0 := by
  unfold supportCounts
  rw [← Nat.pos_iff_ne_zero, List.countP_pos_iff]
  simp [Nat.pos_iff_ne_zero]

theorem counts_cons {g : Term n} {I : List (Term n)} {v : Fin n} :
    supportCounts (g :: I) v = supportCounts I v + if g v ≠ 0 then 1 else 0 := by
  unfold supportCounts
  rw [List.countP_cons]
  simp [Nat.pos_iff_ne_zero]

theorem counts_perm {I J : List (Term n)} (h : I.Perm J) : supportCounts I = supportCounts J := by
  funext v; exact h.countP_eq _

/-- A variable that divides one of the generators only. -/
theorem counts_one {I J : List (Term n)} {g : Term n} {v : Fin n} (hp : I.Perm (g :: J)) (hg : g v ≠ 0)
    (h1 : supportCounts I v ≤ 1) : ∀ x ∈ J, x v = 0 := by
  rw [counts_perm hp, counts_cons, if_pos hg] at h1
  have h0 : supportCounts J v = 0 := by omega
  intro x hx
  by_contra hc
  exact (counts_pos.2 ⟨x, hx, hc⟩) h0

theorem HB.pos_lt {I : List (Term n)} {W : Finset (Fin n)} (h : HB I W) {g : Term n} (hg : g ∈ I) {i : Fin n} :
    g i = 0 ∨ g i = 1 := by
  have := le_def.1 (h.sq g hg) i
  simp at this; omega

theorem supp_counts_sub {I : List (Term n)} {W : Finset (Fin n)} (h : HB I W) : supp (supportCounts I) ⊆ W := by
  intro v hv
  rw [mem_supp, counts_pos] at hv
  obtain ⟨g, hg, hgv⟩ := hv
  exact h.sub g hg (mem_supp.2 hgv)

/-- Disjoint generators covering the variables. -/
theorem Cw_disjoint : ∀ (I : List (Term n)) (W : Finset (Fin n)), HB I W → supp (supportCounts I) = W →
    isSquareFree (supportCounts I) → Cw W ∅ I = (-1) ^ I.length := by
  intro I
  induction I with
  | nil =>
    intro W _ hW _
    rw [Cw_empty_nil, if_pos]
    · simp
    · rw [← hW]
      ext v; simp [supp, supportCounts]
  | cons g J ih =>
    intro W h hW hsq
    have hg1 := h.sq g (by simp)
    have hJ0 : ∀ v, g v ≠ 0 → ∀ x ∈ J, x v = 0 := fun v hv => counts_one (List.Perm.refl _) hv (hsq v)
    rw [Cw_cons hg1]
    obtain ⟨v, hv⟩ := exists_ne_zero (h.ne g (by simp))
    rw [Cw_cone (h.sub g (by simp) (mem_supp.2 hv)) (hJ0 v hv), Finset.empty_union]
    have hsub := h.sub g (by simp)
    rw [Cw_shift (J := J) hsub]
    · rw [ih (W \ supp g)]
      · rw [List.length_cons, pow_succ]; ring
      · refine ⟨(List.pairwise_cons.1 h.anti).2, fun x hx => h.sq x (by simp [hx]), fun x hx i hi => ?_,
          fun x hx => h.ne x (by simp [hx])⟩
        rw [Finset.mem_sdiff]
        refine ⟨h.sub x (by simp [hx]) hi, fun hgi => ?_⟩
        exact (mem_supp.1 hi) (hJ0 i (mem_supp.1 hgi) x hx)
      · ext i
        rw [Finset.mem_sdiff, ← hW, mem_supp, mem_supp, mem_supp, counts_cons]
        constructor
        · intro hi
          refine ⟨by omega, fun hgi => ?_⟩
          obtain ⟨x, hx, hxi⟩ := counts_pos.1 hi
          exact hxi (hJ0 i hgi x hx)
        · rintro ⟨h1, h2⟩
          rw [if_neg h2] at h1; simpa using h1
      · intro i
        have := hsq i
        rw [counts_cons] at this; omega
    · intro σ _
      constructor
      · rintro ⟨x, hx, hle⟩
        refine ⟨x, hx, ?_⟩
        rw [le_ind (h.sq x (by simp [hx]))] at hle ⊢
        exact hle.trans Finset.subset_union_left
      · rintro ⟨x, hx, hle⟩
        refine ⟨x, hx, ?_⟩
        rw [le_ind (h.sq x (by simp [hx]))] at hle ⊢
        intro i hi
        rcases Finset.mem_union.1 (hle hi) with h1 | h1
        · exact h1
        · exact absurd (hJ0 i (mem_supp.1 h1) x hx) (mem_supp.1 hi)

theorem supp_subset_iff_le {I : List (Term n)} {W : Finset (Fin n)} (h : HB I W) {a b : Term n} (ha : a ∈ I)
    (hb : b ∈ I) : supp a ⊆ supp b ↔ a ≤ b := by
  constructor
  · intro hs
    refine le_def.2 fun i => ?_
    rcases h.pos_lt ha (i := i) with h1 | h1
    · omega
    · have : i ∈ supp b := hs (mem_supp.2 (by omega))
      rw [mem_supp] at this
      omega
  · intro hle i hi
    rw [mem_supp] at hi ⊢
    have := le_def.1 hle i
    omega

/-- No generator covers all variables unless it is the only one. -/
theorem HB.supp_ne {I : List (Term n)} {W : Finset (Fin n)} (h : HB I W) {a b : Term n} (ha : a ∈ I) (hb : b ∈ I)
    (hne : a ≠ b) : supp a ≠ W := by
  intro he
  have : b ≤ a := (supp_subset_iff_le h hb ha).1 (he ▸ h.sub b hb)
  exact hne (h.anti.eq_of_le hb ha this).symm

theorem Cw_two {a b : Term n} {W : Finset (Fin n)} (h : HB [a, b] W) (hW : supp (supportCounts [a, b]) = W) :
    Cw W ∅ [a, b] = 1 := by
  have hab : a ≠ b := by
    have := h.anti.nodup; simpa using this
  have hA := h.supp_ne (a := a) (b := b) (by simp) (by simp) hab
  have hB := h.supp_ne (a := b) (b := a) (by simp) (by simp) hab.symm
  have hE : (∅ : Finset (Fin n)) ≠ W := by
    intro he
    obtain ⟨v, hv⟩ := exists_ne_zero (h.ne a (by simp))
    have := h.sub a (by simp) (mem_supp.2 hv)
    rw [← he] at this; simp at this
  have hU : supp a ∪ supp b = W := by
    rw [← hW]
    ext i
    rw [Finset.mem_union, mem_supp, mem_supp, mem_supp, counts_pos]
    simp
  rw [Cw_cons (h.sq a (by simp)), Cw_cons (h.sq b (by simp)), Cw_cons (h.sq b (by simp))]
  simp only [Cw_nil, Finset.empty_union, hA, hB, hE, hU, if_true, if_false]
  norm_num

theorem Cw_three {a b c : Term n} {W : Finset (Fin n)} (h : HB [a, b, c] W)
    (hW : supp (supportCounts [a, b, c]) = W) (h1 : ∀ v, supportCounts [a, b, c] v ≠ 1) :
    Cw W ∅ [a, b, c] = 2 := by
  have hnd := h.anti.nodup
  have hab : a ≠ b := by intro he; simp [he] at hnd
  have hac : a ≠ c := by intro he; simp [he] at hnd
  have hA := h.supp_ne (a := a) (b := b) (by simp) (by simp) hab
  have hB := h.supp_ne (a := b) (b := a) (by simp) (by simp) hab.symm
  have hC := h.supp_ne (a := c) (b := a) (by simp) (by simp) hac.symm
  have hE : (∅ : Finset (Fin n)) ≠ W := by
    intro he
    obtain ⟨v, hv⟩ := exists_ne_zero (h.ne a (by simp))
    have := h.sub a (by simp) (mem_supp.2 hv)
    rw [← he] at this; simp at this
  have hcnt : ∀ v, supportCounts [a, b, c] v =
      (if c v ≠ 0 then 1 else 0) + (if b v ≠ 0 then 1 else 0) + if a v ≠ 0 then 1 else 0 := by
    intro v
    rw [counts_cons, counts_cons, counts_cons]
    simp [supportCounts]
  have key : ∀ v, v ∈ W → (a v ≠ 0 ∨ b v ≠ 0) ∧ (a v ≠ 0 ∨ c v ≠ 0) ∧ (b v ≠ 0 ∨ c v ≠ 0) := by
    intro v hv
    rw [← hW, mem_supp] at hv
    have h2 := h1 v
    rw [hcnt] at hv h2
    by_cases ha : a v = 0 <;> by_cases hb : b v = 0 <;> by_cases hc : c v = 0 <;> simp_all
  have hAB : supp a ∪ supp b = W := by
    apply Finset.Subset.antisymm
    · exact Finset.union_subset (h.sub a (by simp)) (h.sub b (by simp))
    · intro v hv
      rw [Finset.mem_union, mem_supp, mem_supp]; exact (key v hv).1
  have hAC : supp a ∪ supp c = W := by
    apply Finset.Subset.antisymm
    · exact Finset.union_subset (h.sub a (by simp)) (h.sub c (by simp))
    · intro v hv
      rw [Finset.mem_union, mem_supp, mem_supp]; exact (key v hv).2.1
  have hBC : supp b ∪ supp c = W := by
    apply Finset.Subset.antisymm
    · exact Finset.union_subset (h.sub b (by simp)) (h.sub c (by simp))
    · intro v hv
      rw [Finset.mem_union, mem_supp, mem_supp]; exact (key v hv).2.2
  have hABC : W ∪ supp c = W := Finset.union_eq_left.2 (h.sub c (by simp))
  have ha1 := h.sq a (by simp)
  have hb1 := h.sq b (by simp)
  have hc1 := h.sq c (by simp)
  simp only [Cw_cons ha1, Cw_cons hb1, Cw_cons hc1, Cw_nil, Finset.empty_union, hA, hB, hC, hE, hAB, hAC, hBC, hABC,
    if_true, if_false]
  norm_num

theorem Cw_four {a b c d : Term n} {W : Finset (Fin n)} (h : HB [a, b, c, d] W)
    (hW : supp (supportCounts [a, b, c, d]) = W) (h2 : ∀ v ∈ W, supportCounts [a, b, c, d] v = 2)
    (hcard : W.card = 4) (hs : ∀ v, canSimplify [a, b, c, d] (supportCounts [a, b, c, d]) v = false) :
    Cw W ∅ [a, b, c, d] = -1 := by
  have hnd := h.anti.nodup
  have hab : a ≠ b := by intro he; simp [he] at hnd
  have hac : a ≠ c := by intro he; simp [he] at hnd
  have had : a ≠ d := by intro he; simp [he] at hnd
  have hA := h.supp_ne (a := a) (b := b) (by simp) (by simp) hab
  have hB := h.supp_ne (a := b) (b := a) (by simp) (by simp) hab.symm
  have hC := h.supp_ne (a := c) (b := a) (by simp) (by simp) hac.symm
  have hD := h.supp_ne (a := d) (b := a) (by simp) (by simp) had.symm
  have hE : (∅ : Finset (Fin n)) ≠ W := by
    intro he; rw [← he] at hcard; simp at hcard
  have hcnt : ∀ v, supportCounts [a, b, c, d] v = (if d v ≠ 0 then 1 else 0) +
      (if c v ≠ 0 then 1 else 0) + (if b v ≠ 0 then 1 else 0) + if a v ≠ 0 then 1 else 0 := by
    intro v
    rw [counts_cons, counts_cons, counts_cons, counts_cons]
    simp [supportCounts]
  have hsA := h.sub a (by simp)
  have hsB := h.sub b (by simp)
  have hsC := h.sub c (by simp)
  have hsD := h.sub d (by simp)
  -- the six pairs
  have key : ∀ v, v ∈ W →
      (a v ≠ 0 ∧ b v ≠ 0 ∧ c v = 0 ∧ d v = 0) ∨ (a v ≠ 0 ∧ b v = 0 ∧ c v ≠ 0 ∧ d v = 0) ∨
      (a v ≠ 0 ∧ b v = 0 ∧ c v = 0 ∧ d v ≠ 0) ∨ (a v = 0 ∧ b v ≠ 0 ∧ c v ≠ 0 ∧ d v = 0) ∨
      (a v = 0 ∧ b v ≠ 0 ∧ c v = 0 ∧ d v ≠ 0) ∨ (a v = 0 ∧ b v = 0 ∧ c v ≠ 0 ∧ d v ≠ 0) := by
    intro v hv
    have h3 := h2 v hv
    rw [hcnt] at h3
    by_cases ha : a v = 0 <;> by_cases hb : b v = 0 <;> by_cases hc : c v = 0 <;> by_cases hd : d v = 0 <;> simp_all
  -- at most one variable for each pair
  have huniq : ∀ x y : Term n, x ∈ [a, b, c, d] → y ∈ [a, b, c, d] → ∀ v w, x v ≠ 0 → x w ≠ 0 →
      (∀ g ∈ [a, b, c, d], g w ≠ 0 → g v ≠ 0) → v = w := by
    intro x y hx _ v w hv hw hall
    by_contra hne
    have := hs v
    unfold canSimplify at this
    rw [decide_eq_false_iff_not] at this
    apply this
    refine ⟨counts_pos.2 ⟨x, hx, hv⟩, w, Ne.symm hne, counts_pos.2 ⟨x, hx, hw⟩, ?_⟩
    rintro g hg ⟨h3, h4⟩
    exact hall g hg (by omega) h3
  set P : (Fin n → Prop) → Finset (Fin n) := fun p => by classical exact W.filter p with hP
  have hle1 : ∀ p : Fin n → Prop, (∀ v w, v ∈ W → w ∈ W → p v → p w → v = w) → (P p).card ≤ 1 := by
    intro p hp
    rw [Finset.card_le_one]
    intro v hv w hw
    simp only [hP, Finset.mem_filter] at hv hw
    exact hp v w hv.1 hw.1 hv.2 hw.2
  set ab := P fun v => a v ≠ 0 ∧ b v ≠ 0
  set ac := P fun v => a v ≠ 0 ∧ c v ≠ 0
  set ad := P fun v => a v ≠ 0 ∧ d v ≠ 0
  set bc := P fun v => b v ≠ 0 ∧ c v ≠ 0
  set bd := P fun v => b v ≠ 0 ∧ d v ≠ 0
  set cd := P fun v => c v ≠ 0 ∧ d v ≠ 0
  have mk : ∀ x y : Term n, x ∈ [a, b, c, d] → y ∈ [a, b, c, d] →
      (∀ v w, v ∈ W → w ∈ W → (x v ≠ 0 ∧ y v ≠ 0) → (x w ≠ 0 ∧ y w ≠ 0) →
        ∀ g ∈ [a, b, c, d], g w ≠ 0 → g v ≠ 0) → (P fun v => x v ≠ 0 ∧ y v ≠ 0).card ≤ 1 := by
    intro x y hx hy hh
    apply hle1
    intro v w hv hw h3 h4
    exact huniq x y hx hy v w h3.1 h4.1 (hh v w hv hw h3 h4)
  have lab : ab.card ≤ 1 := by
    apply mk a b (by simp) (by simp)
    intro v w hv hw h3 h4 g hg hgw
    have := key v hv; have := key w hw
    simp only [List.mem_cons, List.not_mem_nil, or_false] at hg
    rcases hg with rfl | rfl | rfl | rfl <;> omega
  have lac : ac.card ≤ 1 := by
    apply mk a c (by simp) (by simp)
    intro v w hv hw h3 h4 g hg hgw
    have := key v hv; have := key w hw
    simp only [List.mem_cons, List.not_mem_nil, or_false] at hg
    rcases hg with rfl | rfl | rfl | rfl <;> omega
  have lad : ad.card ≤ 1 := by
    apply mk a d (by simp) (by simp)
    intro v w hv hw h3 h4 g hg hgw
    have := key v hv; have := key w hw
    simp only [List.mem_cons, List.not_mem_nil, or_false] at hg
    rcases hg with rfl | rfl | rfl | rfl <;> omega
  have lbc : bc.card ≤ 1 := by
    apply mk b c (by simp) (by simp)
    intro v w hv hw h3 h4 g hg hgw
    have := key v hv; have := key w hw
    simp only [List.mem_cons, List.not_mem_nil, or_false] at hg
    rcases hg with rfl | rfl | rfl | rfl <;> omega
  have lbd : bd.card ≤ 1 := by
    apply mk b d (by simp) (by simp)
    intro v w hv hw h3 h4 g hg hgw
    have := key v hv; have := key w hw
    simp only [List.mem_cons, List.not_mem_nil, or_false] at hg
    rcases hg with rfl | rfl | rfl | rfl <;> omega
  have lcd : cd.card ≤ 1 := by
    apply mk c d (by simp) (by simp)
    intro v w hv hw h3 h4 g hg hgw
    have := key v hv; have := key w hw
    simp only [List.mem_cons, List.not_mem_nil, or_false] at hg
    rcases hg with rfl | rfl | rfl | rfl <;> omega
  have hsum : ab.card + ac.card + ad.card + bc.card + bd.card + cd.card = 4 := by
    classical
    have e : ∀ p : Fin n → Prop, (P p).card = ∑ v ∈ W, if p v then 1 else 0 := by
      intro p
      rw [Finset.sum_boole]
      simp [hP]
    rw [e, e, e, e, e, e, ← Finset.sum_add_distrib, ← Finset.sum_add_distrib, ← Finset.sum_add_distrib,
      ← Finset.sum_add_distrib, ← Finset.sum_add_distrib, ← hcard, Finset.card_eq_sum_ones]
    refine Finset.sum_congr rfl fun v hv => ?_
    rcases key v hv with h | h | h | h | h | h <;> obtain ⟨e1, e2, e3, e4⟩ := h <;> simp [e1, e2, e3, e4]
  -- the union of two supports is everything iff nothing lies in the other two
  have hun : ∀ x y : Term n, ∀ p : Fin n → Prop, supp x ⊆ W → supp y ⊆ W →
      (∀ v, v ∈ W → (p v ↔ x v = 0 ∧ y v = 0)) →
      (if supp x ∪ supp y = W then (1 : ℤ) else 0) = 1 - ((P p).card ⊓ 1 : ℕ) := by
    intro x y p hx hy hp
    by_cases hu : supp x ∪ supp y = W
    · rw [if_pos hu]
      have : P p = ∅ := by
        rw [Finset.eq_empty_iff_forall_notMem]
        intro v hv
        simp only [hP, Finset.mem_filter] at hv
        have h3 := (hp v hv.1).1 hv.2
        have h4 := hv.1
        rw [← hu, Finset.mem_union, mem_supp, mem_supp] at h4
        omega
      simp [this]
    · rw [if_neg hu]
      have : (P p).Nonempty := by
        by_contra hne
        rw [Finset.not_nonempty_iff_eq_empty] at hne
        apply hu
        apply Finset.Subset.antisymm (Finset.union_subset hx hy)
        intro v hv
        rw [Finset.mem_union, mem_supp, mem_supp]
        by_contra hc
        have : v ∈ P p := by
          simp only [hP, Finset.mem_filter]
          exact ⟨hv, (hp v hv).2 (by omega)⟩
        rw [hne] at this; simp at this
      have := this.card_pos
      have : (P p).card ⊓ 1 = 1 := by
        rw [inf_eq_right]; omega
      rw [this]; simp
  have uab := hun a b (fun v => c v ≠ 0 ∧ d v ≠ 0) hsA hsB (fun v hv => by have := key v hv; omega)
  have uac := hun a c (fun v => b v ≠ 0 ∧ d v ≠ 0) hsA hsC (fun v hv => by have := key v hv; omega)
  have uad := hun a d (fun v => b v ≠ 0 ∧ c v ≠ 0) hsA hsD (fun v hv => by have := key v hv; omega)
  have ubc := hun b c (fun v => a v ≠ 0 ∧ d v ≠ 0) hsB hsC (fun v hv => by have := key v hv; omega)
  have ubd := hun b d (fun v => a v ≠ 0 ∧ c v ≠ 0) hsB hsD (fun v hv => by have := key v hv; omega)
  have ucd := hun c d (fun v => a v ≠ 0 ∧ b v ≠ 0) hsC hsD (fun v hv => by have := key v hv; omega)
  have htri : ∀ x y z : Term n, supp x ⊆ W → supp y ⊆ W → supp z ⊆ W →
      (∀ v, v ∈ W → x v ≠ 0 ∨ y v ≠ 0 ∨ z v ≠ 0) → supp x ∪ supp y ∪ supp z = W := by
    intro x y z hx hy hz hh
    apply Finset.Subset.antisymm (Finset.union_subset (Finset.union_subset hx hy) hz)
    intro v hv
    rw [Finset.mem_union, Finset.mem_union, mem_supp, mem_supp, mem_supp]
    have := hh v hv
    tauto
  have tabc := htri a b c hsA hsB hsC (fun v hv => by have := key v hv; omega)
  have tabd := htri a b d hsA hsB hsD (fun v hv => by have := key v hv; omega)
  have tacd := htri a c d hsA hsC hsD (fun v hv => by have := key v hv; omega)
  have tbcd := htri b c d hsB hsC hsD (fun v hv => by have := key v hv; omega)
  have tq : W ∪ supp d = W := Finset.union_eq_left.2 hsD
  have ha1 := h.sq a (by simp)
  have hb1 := h.sq b (by simp)
  have hc1 := h.sq c (by simp)
  have hd1 := h.sq d (by simp)
  simp only [Cw_cons ha1, Cw_cons hb1, Cw_cons hc1, Cw_cons hd1, Cw_nil, Finset.empty_union, hA, hB, hC, hD, hE,
    tabc, tabd, tacd, tbcd, tq, if_true, if_false, uab, uac, uad, ubc, ubd, ucd]
  have m1 : ab.card ⊓ 1 = ab.card := inf_eq_left.2 lab
  have m2 : ac.card ⊓ 1 = ac.card := inf_eq_left.2 lac
  have m3 : ad.card ⊓ 1 = ad.card := inf_eq_left.2 lad
  have m4 : bc.card ⊓ 1 = bc.card := inf_eq_left.2 lbc
  have m5 : bd.card ⊓ 1 = bd.card := inf_eq_left.2 lbd
  have m6 : cd.card ⊓ 1 = cd.card := inf_eq_left.2 lcd
  change _ - _ = _
  have q1 : ((P fun v => a v ≠ 0 ∧ b v ≠ 0).card ⊓ 1) = ab.card := m1
  have q2 : ((P fun v => a v ≠ 0 ∧ c v ≠ 0).card ⊓ 1) = ac.card := m2
  have q3 : ((P fun v => a v ≠ 0 ∧ d v ≠ 0).card ⊓ 1) = ad.card := m3
  have q4 : ((P fun v => b v ≠ 0 ∧ c v ≠ 0).card ⊓ 1) = bc.card := m4
  have q5 : ((P fun v => b v ≠ 0 ∧ d v ≠ 0).card ⊓ 1) = bd.card := m5
  have q6 : ((P fun v => c v ≠ 0 ∧ d v ≠ 0).card ⊓ 1) = cd.card := m6
  omega

/-! ## taking colons -/

theorem ind_add_single {v : Fin n} {τ : Finset (Fin n)} (h : v ∉ τ) : ind τ + single v 1 = ind (insert v τ) := by
  funext i
  rw [Pi.add_apply, ind_apply, ind_apply, single_apply]
  by_cases hi : i = v
  · subst hi; simp [h]
  · simp [hi]

theorem HB.var_count {I : List (Term n)} {W : Finset (Fin n)} (h : HB I W) {v : Fin n} (hx : single v 1 ∈ I) :
    supportCounts I v = 1 := by
  have hp := List.perm_cons_erase hx
  rw [counts_perm hp, counts_cons]
  have h0 : supportCounts (I.erase (single v 1)) v = 0 := by
    by_contra hc
    obtain ⟨g, hg, hgv⟩ := counts_pos.1 hc
    have hle : single v 1 ≤ g := single_le_iff.2 (by omega)
    have := h.anti.eq_of_le hx (List.mem_of_mem_erase hg) hle
    exact (List.Nodup.mem_erase_iff h.anti.nodup).1 hg |>.1 this.symm
  simp [h0]

theorem colon_step {I : List (Term n)} {W : Finset (Fin n)} (h : HB I W) {v : Fin n}
    (hc : supportCounts I v ≠ 1) : HB (colonReminimizeVar v 1 I).1 (W.erase v) ∧
      ∀ τ, τ ⊆ W.erase v → (mem (colonReminimizeVar v 1 I).1 (ind τ) ↔ mem I (ind (insert v τ))) := by
  have hsp := colonReminimizeVar_spec v 1 I h.anti
  have hsub : ∀ g ∈ (colonReminimizeVar v 1 I).1, ∃ x ∈ I, g = x - single v 1 := by
    intro g hg
    obtain ⟨x, hx, rfl⟩ := List.mem_map.1 (hsp.minGens.subset g hg)
    exact ⟨x, hx, rfl⟩
  refine ⟨⟨hsp.minGens.anti, ?_, ?_, ?_⟩, ?_⟩
  · intro g hg
    obtain ⟨x, hx, rfl⟩ := hsub g hg
    refine le_def.2 fun i => ?_
    have := le_def.1 (h.sq x hx) i
    rw [Pi.sub_apply]; omega
  · intro g hg i hi
    obtain ⟨x, hx, rfl⟩ := hsub g hg
    rw [mem_supp, Pi.sub_apply] at hi
    rw [Finset.mem_erase]
    constructor
    · rintro rfl
      have := h.pos_lt hx (i := i)
      rw [single_same] at hi; omega
    · exact h.sub x hx (mem_supp.2 (by omega))
  · intro g hg h0
    obtain ⟨x, hx, rfl⟩ := hsub g hg
    obtain ⟨i, hi⟩ := exists_ne_zero (h.ne x hx)
    have hxs : x = single v 1 := by
      funext j
      have h1 := congrFun h0 j
      have h2 := h.pos_lt hx (i := j)
      rw [Pi.sub_apply, single_apply, Pi.zero_apply] at h1
      rw [single_apply]
      by_cases hj : j = v
      · subst hj
        simp only [if_true] at h1 ⊢
        have h3 := congrFun h0 i
        have h4 := h.pos_lt hx (i := i)
        rw [Pi.sub_apply, single_apply, Pi.zero_apply] at h3
        by_cases hij : i = j
        · subst hij; omega
        · simp only [hij, if_false] at h3; omega
      · simp only [hj, if_false] at h1 ⊢; omega
    exact hc (h.var_count (hxs ▸ hx))
  · intro τ hτ
    rw [hsp.mem_iff, ind_add_single]
    intro hv
    have := hτ hv
    simp at this

theorem filter_step {I : List (Term n)} {W : Finset (Fin n)} (h : HB I W) (v : Fin n) :
    HB (I.filter fun g => decide (g v < 1)) (W.erase v) ∧
      ∀ τ, τ ⊆ W.erase v → (mem (I.filter fun g => decide (g v < 1)) (ind τ) ↔ mem I (ind τ)) := by
  refine ⟨⟨h.anti.filter _, ?_, ?_, ?_⟩, ?_⟩
  · intro g hg; exact h.sq g (List.mem_filter.1 hg).1
  · intro g hg i hi
    rw [List.mem_filter] at hg
    rw [Finset.mem_erase]
    refine ⟨?_, h.sub g hg.1 hi⟩
    rintro rfl
    have := hg.2
    rw [mem_supp] at hi
    simp at this; omega
  · intro g hg; exact h.ne g (List.mem_filter.1 hg).1
  · intro τ hτ
    constructor
    · rintro ⟨g, hg, hle⟩
      exact ⟨g, (List.mem_filter.1 hg).1, hle⟩
    · rintro ⟨g, hg, hle⟩
      refine ⟨g, List.mem_filter.2 ⟨hg, ?_⟩, hle⟩
      have h1 := le_def.1 hle v
      rw [ind_apply, if_neg] at h1
      · simp; omega
      · intro hv; have := hτ hv; simp at this

theorem split_step {I : List (Term n)} {W : Finset (Fin n)} (h : HB I W) {v : Fin n} (hv : v ∈ W)
    (hc : supportCounts I v ≠ 1) :
    Cw W ∅ I = Cw (W.erase v) ∅ (colonReminimizeVar v 1 I).1 -
      Cw (W.erase v) ∅ (I.filter fun g => decide (g v < 1)) :=
  Cw_split hv (colon_step h hc).2 (filter_step h v).2

/-- The colon loop keeps the generator `it`. -/
theorem colonAll_spec : ∀ (os : List (Fin n)) (G : List (Term n)) (it : Term n), Anti G → it ∈ G → os.Nodup →
    (∀ o ∈ os, it o = 1) → ∃ G', colonAll os G = some G' ∧ Anti G' ∧
      (∀ m, mem G' m ↔ mem G (m + ind os.toFinset)) ∧ (it - ind os.toFinset) ∈ G' ∧
      ∀ g ∈ G', ∃ x ∈ G, g = x - ind os.toFinset := by
  intro os
  induction os with
  | nil =>
    intro G it hG hit _ _
    have h0 : ind (([] : List (Fin n)).toFinset) = 0 := by funext i; simp [ind_apply]
    have hsub0 : ∀ x : Term n, x - 0 = x := fun x => by funext i; simp
    refine ⟨G, rfl, hG, fun m => ?_, ?_, fun g hg => ⟨g, hg, ?_⟩⟩
    · rw [h0, add_zero]
    · rw [h0, hsub0]; exact hit
    · rw [h0, hsub0]
  | cons o os ih =>
    intro G it hG hit hnd hos
    have hsp := colonReminimizeVar_spec o 1 G hG
    have hno : o ∉ os := (List.nodup_cons.1 hnd).1
    have hflag : (colonReminimizeVar o 1 G).2 = true :=
      hsp.flag.2 ⟨it, hit, o, by rw [hos o (by simp)]; omega, by rw [hos o (by simp), single_same]⟩
    have hx1 : single o 1 ≤ it := single_le_iff.2 (by rw [hos o (by simp)])
    have hit' : it - single o 1 ∈ (colonReminimizeVar o 1 G).1 := by
      have hm : mem (colonReminimizeVar o 1 G).1 (it - single o 1) := by
        rw [hsp.mem_iff]
        refine ⟨it, hit, le_def.2 fun i => ?_⟩
        rw [Pi.add_apply, Pi.sub_apply]; omega
      obtain ⟨r, hr, hle⟩ := hm
      obtain ⟨x, hx, rfl⟩ := List.mem_map.1 (hsp.minGens.subset r hr)
      have : x ≤ it := by
        refine le_def.2 fun i => ?_
        have h1 := le_def.1 hle i
        have h2 := le_def.1 hx1 i
        rw [Pi.sub_apply, Pi.sub_apply] at h1; omega
      rw [← hG.eq_of_le hx hit this]; exact hr
    obtain ⟨G', h1, h2, h3, h4, h5⟩ := ih (colonReminimizeVar o 1 G).1 (it - single o 1) hsp.minGens.anti hit'
      (List.nodup_cons.1 hnd).2 (fun p hp => by
        have hne : p ≠ o := fun he => hno (he ▸ hp)
        rw [Pi.sub_apply, single_ne _ hne, hos p (by simp [hp])])
    have hind : ind (o :: os).toFinset = ind os.toFinset + single o 1 := by
      rw [ind_add_single (by simpa using hno), List.toFinset_cons]
    have hsub : ∀ x : Term n, x - single o 1 - ind os.toFinset = x - ind (o :: os).toFinset := by
      intro x
      rw [hind]; funext i
      simp only [Pi.sub_apply, Pi.add_apply]; omega
    refine ⟨G', ?_, h2, ?_, ?_, ?_⟩
    · simp only [colonAll, hflag, if_true]; exact h1
    · intro m
      rw [h3, hsp.mem_iff, hind, add_assoc]
    · rw [← hsub]; exact h4
    · intro g hg
      obtain ⟨r, hr, rfl⟩ := h5 g hg
      obtain ⟨x, hx, rfl⟩ := List.mem_map.1 (hsp.minGens.subset r hr)
      exact ⟨x, hx, hsub x⟩

theorem sgn_not (b : Bool) : sgn (!b) = - sgn b := by cases b <;> simp [sgn]

/-- `eliminate1Counts` keeps the coefficient. -/
theorem eliminate_spec {I : List (Term n)} {W : Finset (Fin n)} (h : HB I W) (hW : supp (supportCounts I) = W)
    (negate : Bool) :
    let e := eliminate1Counts I (supportCounts I) negate
    (e.2.2 = 0 ∧ (∀ v, supportCounts I v ≠ 1) ∧ ∀ v, canSimplify I (supportCounts I) v = false) ∨
    (e.2.2 ≠ 0 ∧ ∃ W', HB e.1 W' ∧ W'.card + e.2.2 = W.card ∧
      sgn e.2.1 * Cw W' ∅ e.1 = sgn negate * Cw W ∅ I) := by
  simp only
  unfold eliminate1Counts
  cases hf : (List.finRange n).find? fun v => decide (supportCounts I v = 1) with
  | some v =>
    simp only
    have hv1 : supportCounts I v = 1 := by simpa using List.find?_some hf
    cases hg : I.find? fun g => decide (0 < g v) with
    | none =>
      exfalso
      rw [List.find?_eq_none] at hg
      obtain ⟨g, hgI, hgv⟩ := counts_pos.1 (show supportCounts I v ≠ 0 by omega)
      have := hg g hgI
      simp at this; omega
    | some it =>
      simp only
      have hit : it ∈ I := List.mem_of_find?_eq_some hg
      have hitv : 0 < it v := by simpa using List.find?_some hg
      set others := (List.finRange n).filter fun o =>
        decide (0 < it o ∧ supportCounts I o ≠ 1 ∧ 0 < supportCounts I o) with hoth
      have hmo : ∀ o, o ∈ others ↔ 0 < it o ∧ supportCounts I o ≠ 1 := by
        intro o
        simp only [hoth, List.mem_filter, List.mem_finRange, true_and, decide_eq_true_eq]
        constructor
        · rintro ⟨a, b, _⟩; exact ⟨a, b⟩
        · rintro ⟨a, b⟩
          exact ⟨a, b, Nat.pos_of_ne_zero (counts_pos.2 ⟨it, hit, by omega⟩)⟩
      obtain ⟨G', e1, e2, e3, e4, e5⟩ := colonAll_spec others I it h.anti hit
        ((List.nodup_finRange n).filter _) (fun o ho => by
          have := (hmo o).1 ho
          have := h.pos_lt hit (i := o); omega)
      rw [e1]
      simp only
      have hvo : v ∉ others := by rw [hmo]; omega
      have hindv : ind others.toFinset v = 0 := by rw [ind_apply, if_neg]; simpa using hvo
      have hp := List.perm_cons_erase hit
      have hJ : ∀ i, it i ≠ 0 → supportCounts I i = 1 → ∀ x ∈ I.erase it, x i = 0 :=
        fun i hi h1 => counts_one hp hi (by omega)
      have huniq : ∀ x ∈ I, x v ≠ 0 → x = it := by
        intro x hx hxv
        by_contra hne
        exact hxv (hJ v (by omega) hv1 x ((List.Nodup.mem_erase_iff h.anti.nodup).2 ⟨hne, hx⟩))
      cases hg' : G'.find? fun g => decide (0 < g v) with
      | none =>
        exfalso
        rw [List.find?_eq_none] at hg'
        have := hg' _ e4
        simp only [decide_eq_true_eq, Pi.sub_apply, hindv] at this
        omega
      | some it' =>
        simp only
        have hit'G : it' ∈ G' := List.mem_of_find?_eq_some hg'
        have hit'v : 0 < it' v := by simpa using List.find?_some hg'
        have hit' : it' = it - ind others.toFinset := by
          obtain ⟨x, hx, rfl⟩ := e5 it' hit'G
          rw [huniq x hx]
          rw [Pi.sub_apply] at hit'v; omega
        right
        have hsize : sizeOfSupport it ≠ 0 := by
          rw [Ne, sizeOfSupport_zero_iff]; exact h.ne it hit
        refine ⟨hsize, W \ supp it, ?_, ?_, ?_⟩
        · have hcov : ∀ g ∈ G'.erase it', ∃ x ∈ I.erase it, g = x - ind others.toFinset := by
            intro g hgm
            rw [List.Nodup.mem_erase_iff e2.nodup] at hgm
            obtain ⟨x, hx, rfl⟩ := e5 g hgm.2
            refine ⟨x, (List.Nodup.mem_erase_iff h.anti.nodup).2 ⟨?_, hx⟩, rfl⟩
            rintro rfl
            exact hgm.1 hit'.symm
          refine ⟨e2.sublist List.erase_sublist, ?_, ?_, ?_⟩
          · intro g hgm
            obtain ⟨x, hx, rfl⟩ := hcov g hgm
            refine le_def.2 fun i => ?_
            have := le_def.1 (h.sq x (List.mem_of_mem_erase hx)) i
            rw [Pi.sub_apply]; omega
          · intro g hgm i hi
            obtain ⟨x, hx, rfl⟩ := hcov g hgm
            rw [mem_supp, Pi.sub_apply] at hi
            rw [Finset.mem_sdiff]
            refine ⟨h.sub x (List.mem_of_mem_erase hx) (mem_supp.2 (by omega)), ?_⟩
            rw [mem_supp]
            intro hii
            by_cases hci : supportCounts I i = 1
            · have := hJ i hii hci x hx; omega
            · have hio : i ∈ others := (hmo i).2 ⟨by omega, hci⟩
              rw [ind_apply, if_pos (by simpa using hio)] at hi
              have := h.pos_lt (List.mem_of_mem_erase hx) (i := i)
              omega
          · intro g hgm h0
            rw [List.Nodup.mem_erase_iff e2.nodup] at hgm
            have := e2.eq_of_le hgm.2 hit'G (by rw [h0]; exact le_def.2 fun i => Nat.zero_le _)
            exact hgm.1 this
        · rw [Finset.card_sdiff_of_subset (h.sub it hit), ← sizeOfSupport_eq_card]
          have := Finset.card_le_card (h.sub it hit)
          rw [← sizeOfSupport_eq_card] at this
          omega
        · rw [Cw_perm hp, Cw_cons (h.sq it hit), Finset.empty_union,
            Cw_cone (h.sub it hit (mem_supp.2 (by omega : it v ≠ 0))) (hJ v (by omega) hv1),
            Cw_shift (J := G'.erase it') (h.sub it hit), sgn_not]
          · ring
          · intro σ hσ
            have hvσ : v ∉ σ := by
              intro hv
              have := hσ hv
              rw [Finset.mem_sdiff, mem_supp] at this
              omega
            constructor
            · rintro ⟨g, hgm, hle⟩
              rw [List.Nodup.mem_erase_iff e2.nodup] at hgm
              obtain ⟨x, hx, rfl⟩ := e5 g hgm.2
              have hxne : x ≠ it := by rintro rfl; exact hgm.1 hit'.symm
              refine ⟨x, (List.Nodup.mem_erase_iff h.anti.nodup).2 ⟨hxne, hx⟩, ?_⟩
              rw [le_ind (h.sq x hx)]
              intro i hi
              rw [mem_supp] at hi
              have h1 := le_def.1 hle i
              rw [Pi.sub_apply] at h1
              rw [Finset.mem_union]
              by_cases hio : i ∈ others
              · right; rw [mem_supp]; have := (hmo i).1 hio; omega
              · left
                rw [ind_apply others.toFinset, if_neg (by simpa using hio), ind_apply] at h1
                by_contra hc
                rw [if_neg hc] at h1; omega
            · rintro ⟨x, hx, hle⟩
              have hxI := List.mem_of_mem_erase hx
              have hm : mem G' (ind σ) := by
                rw [e3]
                refine ⟨x, hxI, le_def.2 fun i => ?_⟩
                rw [Pi.add_apply]
                have h1 := le_def.1 hle i
                have h2 := h.pos_lt hxI (i := i)
                by_cases hi0 : x i = 0
                · omega
                rw [le_ind (h.sq x hxI)] at hle
                rcases Finset.mem_union.1 (hle (mem_supp.2 hi0)) with h3 | h3
                · rw [ind_apply σ, if_pos h3]; omega
                · have h4 : i ∈ others := by
                    rw [hmo]
                    rw [mem_supp] at h3
                    refine ⟨by omega, fun h5 => hi0 (hJ i h3 h5 x hx)⟩
                  rw [ind_apply others.toFinset, if_pos (by simpa using h4)]; omega
              obtain ⟨g, hgm, hgle⟩ := hm
              refine ⟨g, (List.Nodup.mem_erase_iff e2.nodup).2 ⟨?_, hgm⟩, hgle⟩
              rintro rfl
              have := le_def.1 hgle v
              rw [ind_apply, if_neg hvσ] at this
              omega
  | none =>
    simp only
    have hno1 : ∀ v, supportCounts I v ≠ 1 := by
      rw [List.find?_eq_none] at hf
      intro v; simpa using hf v (List.mem_finRange v)
    cases hc : (List.finRange n).find? fun v => canSimplify I (supportCounts I) v with
    | none =>
      left
      refine ⟨rfl, hno1, fun v => ?_⟩
      rw [List.find?_eq_none] at hc
      simpa using hc v (List.mem_finRange v)
    | some v =>
      right
      simp only
      have hcs : canSimplify I (supportCounts I) v = true := by simpa using List.find?_some hc
      unfold canSimplify at hcs
      rw [decide_eq_true_eq] at hcs
      obtain ⟨h0, o, hov, ho0, hall⟩ := hcs
      have hflag : (colonReminimizeVar v 1 I).2 = true := by
        rw [(colonReminimizeVar_spec v 1 I h.anti).flag]
        obtain ⟨g, hgI, hgv⟩ := counts_pos.1 h0
        refine ⟨g, hgI, v, by omega, ?_⟩
        have := h.pos_lt hgI (i := v)
        rw [single_same]; omega
      rw [if_pos hflag]
      have hvW : v ∈ W := by rw [← hW, mem_supp]; exact h0
      have hoW : o ∈ W := by rw [← hW, mem_supp]; exact ho0
      refine ⟨by omega, W.erase v, (colon_step h (hno1 v)).1, ?_, ?_⟩
      · rw [Finset.card_erase_of_mem hvW]
        have : 0 < W.card := Finset.card_pos.2 ⟨v, hvW⟩
        omega
      · rw [split_step h hvW (hno1 v), Cw_cone (v := o) (I := I.filter fun g => decide (g v < 1)), sub_zero]
        · rw [Finset.mem_erase]; exact ⟨hov, hoW⟩
        · intro g hgm
          rw [List.mem_filter] at hgm
          have h1 := hall g hgm.1
          have h2 := hgm.2
          rw [decide_eq_true_eq] at h2
          by_contra h3
          exact h1 ⟨by omega, by omega⟩

/-! ## `firstMax?` -/

theorem firstMax_foldl (a : Term n) : ∀ (l : List (Fin n)) (m : Fin n), ∃ r,
    l.foldl (fun acc v => match acc with
      | none => some v
      | some m => if a m < a v then some v else some m) (some m) = some r ∧ a m ≤ a r ∧ ∀ v ∈ l, a v ≤ a r := by
  intro l
  induction l with
  | nil => intro m; exact ⟨m, rfl, le_refl _, by simp⟩
  | cons w l ih =>
    intro m
    simp only [List.foldl_cons]
    by_cases hlt : a m < a w
    · rw [if_pos hlt]
      obtain ⟨r, h1, h2, h3⟩ := ih w
      refine ⟨r, h1, by omega, fun v hv => ?_⟩
      rcases List.mem_cons.1 hv with rfl | hv
      · exact h2
      · exact h3 v hv
    · rw [if_neg hlt]
      obtain ⟨r, h1, h2, h3⟩ := ih m
      refine ⟨r, h1, h2, fun v hv => ?_⟩
      rcases List.mem_cons.1 hv with rfl | hv
      · omega
      · exact h3 v hv

theorem firstMax_max (a : Term n) (hn : 0 < n) : ∃ r, firstMax? a = some r ∧ ∀ v, a v ≤ a r := by
  obtain ⟨k, rfl⟩ : ∃ k, n = k + 1 := ⟨n - 1, by omega⟩
  unfold firstMax?
  rw [List.finRange_succ, List.foldl_cons]
  obtain ⟨r, h1, h2, h3⟩ := firstMax_foldl a ((List.finRange k).map Fin.succ) 0
  refine ⟨r, h1, fun v => ?_⟩
  rcases Fin.eq_zero_or_eq_succ v with rfl | ⟨w, rfl⟩
  · exact h2
  · exact h3 _ (by simp)

/-- What one entry adds to the sum is its signed coefficient. -/
theorem hbCoef_spec : ∀ (fuel : ℕ) (negate : Bool) (extra : ℕ) (I : List (Term n)) (W : Finset (Fin n)),
    HB I W → W.card + extra = n → n + 2 ≤ fuel + extra →
    hbCoef fuel negate extra I = some (sgn negate * Cw W ∅ I) := by
  intro fuel
  induction fuel with
  | zero => intro negate extra I W _ h1 h2; omega
  | succ fuel ih =>
    intro negate extra I W h hcard hfuel
    rw [hbCoef]
    simp only
    have hsub := supp_counts_sub h
    by_cases hU : sizeOfSupport (supportCounts I) + extra ≠ n
    · rw [if_pos hU]
      have hne : ¬ W ⊆ supp (supportCounts I) := by
        intro hs
        have := Finset.Subset.antisymm hsub hs
        rw [sizeOfSupport_eq_card, this] at hU
        exact hU hcard
      obtain ⟨v, hvW, hv⟩ := Finset.not_subset.1 hne
      rw [Cw_cone hvW, mul_zero]
      intro g hg
      by_contra hc
      exact hv (mem_supp.2 (counts_pos.2 ⟨g, hg, hc⟩))
    rw [if_neg hU]
    push Not at hU
    have hW : supp (supportCounts I) = W := by
      apply Finset.eq_of_subset_of_card_le hsub
      rw [sizeOfSupport_eq_card] at hU
      omega
    by_cases hsq : isSquareFree (supportCounts I)
    · rw [if_pos hsq, Cw_disjoint I W h hW hsq]
      congr 1
      by_cases hodd : I.length % 2 = 1
      · rw [if_pos hodd, sgn_not, Odd.neg_one_pow (Nat.odd_iff.2 hodd)]; ring
      · rw [if_neg hodd, Even.neg_one_pow (Nat.even_iff.2 (by omega))]; ring
    rw [if_neg hsq]
    by_cases hl2 : I.length = 2
    · rw [if_pos hl2]
      obtain ⟨a, b, rfl⟩ := List.length_eq_two.1 hl2
      rw [Cw_two h hW, mul_one]
    rw [if_neg hl2]
    rcases eliminate_spec h hW negate with ⟨h0, hno1, hcan⟩ | ⟨hne0, W', hHB, hcard', heq⟩
    swap
    · rw [if_pos hne0, ih _ _ _ W' hHB (by omega) (by omega), heq]
    rw [if_neg (by rw [h0]; simp)]
    by_cases hl3 : I.length = 3
    · rw [if_pos hl3]
      obtain ⟨a, b, c, rfl⟩ := List.length_eq_three.1 hl3
      rw [Cw_three h hW hno1]
      congr 1; ring
    rw [if_neg hl3]
    have hbig : ∃ v, 1 < supportCounts I v := by
      unfold isSquareFree at hsq
      push Not at hsq
      exact hsq
    obtain ⟨w, hw⟩ := hbig
    obtain ⟨v, hv, hmax⟩ := firstMax_max (supportCounts I) (by have := w.isLt; omega)
    rw [hv]
    simp only
    have hv2 : 2 ≤ supportCounts I v := by have := hmax w; omega
    have hvW : v ∈ W := by rw [← hW, mem_supp]; omega
    by_cases h4 : I.length = 4 ∧ supportCounts I v = 2 ∧ sizeOfSupport (supportCounts I) = 4
    · rw [if_pos h4]
      obtain ⟨hl4, hc2, hs4⟩ := h4
      match I, hl4 with
      | [a, b, c, d], _ =>
        have h22 : ∀ u ∈ W, supportCounts [a, b, c, d] u = 2 := by
          intro u hu
          rw [← hW, mem_supp] at hu
          have := hmax u
          have := hno1 u
          omega
        rw [Cw_four h hW h22 (by rw [← hW, ← sizeOfSupport_eq_card, hs4]) hcan]
        congr 1; ring
    · rw [if_neg h4]
      have hpos : 0 < W.card := Finset.card_pos.2 ⟨v, hvW⟩
      have hce := Finset.card_erase_of_mem hvW
      rw [ih negate (extra + 1) _ _ (colon_step h (hno1 v)).1 (by omega) (by omega),
        ih (!negate) (extra + 1) _ _ (filter_step h v).1 (by omega) (by omega)]
      simp only
      rw [split_step h hvW (hno1 v), sgn_not]
      congr 1; ring

/-- `computeCoefficient` on a minimal squarefree ideal that is not the whole ring. -/
theorem computeCoefficient_spec {I : List (Term n)} (hI : Anti I) (hsq : ∀ g ∈ I, g ≤ 1) (hne : ∀ g ∈ I, g ≠ 0) :
    computeCoefficient I = some (hcoef I 0) := by
  unfold computeCoefficient
  rw [hbCoef_spec (n + 2) false 0 I Finset.univ ⟨hI, hsq, fun _ _ => Finset.subset_univ _, hne⟩ (by simp) (by omega),
    hcoef_zero]
  simp [sgn]

/-! ## the base case of the slice -/

/-- The coefficient of `m` in a list of terms. -/
def coefSum (outs : List (ℤ × Term n)) (m : Term n) : ℤ := (outs.map fun o => if o.2 = m then o.1 else 0).sum

theorem hilbertBaseCase_spec {s : Slice n} (hs : SliceInv .hilbert s) (hn : 0 < n) {outs : List (ℤ × Term n)}
    (hout : s.hilbertBaseCase = some outs) (m : Term n) : coefSum outs m = cval .hilbert s m := by
  have hlcm : s.getLcm = lcmOf s.ideal := hs.getLcm
  unfold Slice.hilbertBaseCase at hout
  rw [hlcm] at hout
  have hz : ∀ u, (∃ i, lcmOf s.ideal i ≤ u i) → val .hilbert s.ideal u = 0 := by
    rintro u ⟨i, hi⟩
    by_contra hc
    have := val_lt_lcm hc i
    omega
  by_cases h1 : sizeOfSupport (lcmOf s.ideal) < n
  · rw [if_pos h1] at hout
    have : ∃ i, lcmOf s.ideal i = 0 := by
      by_contra hc
      push Not at hc
      have := (sizeOfSupport_eq_iff _).2 hc
      omega
    obtain ⟨i, hi⟩ := this
    simp only [Option.some.injEq] at hout
    subst hout
    unfold cval
    rw [hz _ ⟨i, by omega⟩]
    simp [coefSum]
  rw [if_neg h1] at hout
  by_cases h2 : isSquareFree (lcmOf s.ideal)
  swap
  · rw [if_pos h2] at hout; simp at hout
  rw [if_neg (by simpa using h2), if_neg (by omega)] at hout
  have hfull : ∀ i, lcmOf s.ideal i = 1 := by
    intro i
    have := (sizeOfSupport_eq_iff (lcmOf s.ideal)).1 (by omega) i
    have := h2 i
    omega
  have hlab : ∀ i, ∃ g ∈ s.ideal, g i ≠ 0 := by
    intro i
    obtain ⟨g, hg, hgi⟩ := lcmOf_attained (G := s.ideal) (i := i) (by rw [hfull]; omega)
    exact ⟨g, hg, by rw [hgi, hfull]; omega⟩
  have hne : ∀ g ∈ s.ideal, g ≠ 0 := by
    rintro g hg rfl
    obtain ⟨x, hx, hxi⟩ := hlab ⟨0, hn⟩
    have := hs.antiI.eq_of_le hg hx (le_def.2 fun i => Nat.zero_le _)
    rw [← this] at hxi; simp at hxi
  rw [computeCoefficient_spec hs.antiI (fun g hg => le_def.2 fun i => by
    have := le_def.1 (le_lcmOf hg) i
    rw [hfull] at this; simpa using this) hne] at hout
  simp only at hout
  have hS0 : ¬ mem s.subtract 0 := by
    rintro ⟨t, ht, hle⟩
    have ht0 : t = 0 := by funext i; have := le_def.1 hle i; simpa using this
    obtain ⟨x, hx, _⟩ := hlab ⟨0, hn⟩
    exact hs.norm t ht x hx (by rw [ht0]; exact ⟨fun i => Or.inr rfl, hne x hx⟩)
  have hc : ∀ m, cval .hilbert s m = if s.multiply = m then hcoef s.ideal 0 else 0 := by
    intro m
    unfold cval
    by_cases hm : s.multiply = m
    · subst hm
      have : s.multiply - s.multiply = 0 := by funext i; simp
      rw [this, if_pos ⟨le_refl _, hS0⟩, if_pos rfl]
      rfl
    · rw [if_neg hm]
      split
      · rename_i h3
        apply hz
        by_contra hc
        push Not at hc
        apply hm
        funext i
        have h4 := hc i
        have h5 := le_def.1 h3.1 i
        rw [hfull, Pi.sub_apply] at h4
        omega
      · rfl
  rw [hc]
  by_cases h0 : hcoef s.ideal 0 = 0
  · rw [if_neg (by simpa using h0)] at hout
    simp only [Option.some.injEq] at hout
    subst hout
    simp [coefSum, h0]
  · rw [if_pos h0] at hout
    simp only [Option.some.injEq] at hout
    subst hout
    simp [coefSum]

end Frobby

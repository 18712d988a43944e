import Verif.IdealLemmas
import Verif.SliceModel
import Mathlib.Algebra.BigOperators.Ring.Finset
import Mathlib.Algebra.BigOperators.Intervals
import Mathlib.Data.Finset.Powerset
import Mathlib.Data.Int.Basic
import Mathlib.Tactic.Ring

/-!
# The value of an ideal at a monomial

`val k I u` is the quantity that a slice algorithm computes: for `msm` it is 1 exactly if `u` is a
maximal standard monomial of `I`, for `hilbert` it is the coefficient of `x^(u+1)` in the
numerator `∏ (1 - x_i) * Σ_{m ∉ I} x^m` of the Hilbert series.
-/

namespace Frobby

variable {n : ℕ}

open Term

/-- The squarefree monomial with support `τ`. -/
def ind (τ : Finset (Fin n)) : Term n := fun i => if i ∈ τ then 1 else 0

/-- Coefficient of `x^(u+1)` in `∏ (1 - x_i) * Σ_{m ∉ I} x^m`: choosing `-x_i` for `i ∉ τ`. -/
def hcoef (I : List (Term n)) (u : Term n) : ℤ :=
  ∑ τ ∈ (Finset.univ : Finset (Fin n)).powerset,
    (-1) ^ (n - τ.card) * (if mem I (u + ind τ) then 0 else 1)

/-- See the file header. -/
def val (k : Kind) (I : List (Term n)) (u : Term n) : ℤ :=
  match k with
  | .msm => if Msm I u then 1 else 0
  | .hilbert => hcoef I u

theorem ind_le_one (τ : Finset (Fin n)) : ind τ ≤ 1 := by
  refine le_def.2 fun i => ?_
  unfold ind; split <;> simp

theorem single_le_one (i : Fin n) : single i 1 ≤ (1 : Term n) := by
  rw [single_le_iff]; simp

theorem Msm.lt_lcm {G : List (Term n)} {u : Term n} (h : Msm G u) (i : Fin n) : u i < lcmOf G i := by
  obtain ⟨g, hg, hle⟩ := h.2 i
  have h1 : ¬ g ≤ u := fun h' => h.1 ⟨g, hg, h'⟩
  by_contra hc
  apply h1
  refine le_def.2 fun j => ?_
  have := le_def.1 hle j
  by_cases hj : j = i
  · subst hj; exact (le_lcmOf hg j).trans (not_lt.1 hc)
  · simpa [hj] using this

/-- The label of a maximal standard monomial in direction `i`. -/
theorem Msm.label {G : List (Term n)} {u : Term n} (h : Msm G u) (i : Fin n) :
    ∃ g ∈ G, g i = u i + 1 ∧ ∀ j, j ≠ i → g j ≤ u j := by
  obtain ⟨g, hg, hle⟩ := h.2 i
  refine ⟨g, hg, ?_, fun j hj => ?_⟩
  · have h1 : ¬ g ≤ u := fun h' => h.1 ⟨g, hg, h'⟩
    have h2 := le_def.1 hle i
    simp at h2
    by_contra hc
    apply h1
    refine le_def.2 fun j => ?_
    have := le_def.1 hle j
    by_cases hj : j = i
    · subst hj; omega
    · simpa [hj] using this
  · simpa [hj] using le_def.1 hle j

theorem msm_of_labels {G : List (Term n)} {u : Term n} (h0 : ¬ mem G u)
    (h : ∀ i, ∃ g ∈ G, g i = u i + 1 ∧ ∀ j, j ≠ i → g j ≤ u j) : Msm G u := by
  refine ⟨h0, fun i => ?_⟩
  obtain ⟨g, hg, h1, h2⟩ := h i
  refine ⟨g, hg, le_def.2 fun j => ?_⟩
  by_cases hj : j = i
  · subst hj; simp [h1]
  · simpa [hj] using h2 j hj

/-- `val` only looks at the box between `u` and `u + 1`. -/
theorem val_shift {k : Kind} {I I' : List (Term n)} {u v : Term n}
    (h : ∀ e : Term n, e ≤ 1 → (mem I' (u + e) ↔ mem I (v + e))) : val k I' u = val k I v := by
  cases k with
  | msm =>
    have : Msm I' u ↔ Msm I v := by
      unfold Msm
      have h0 := h 0 (le_def.2 fun _ => by simp)
      simp only [add_zero] at h0
      rw [h0]
      refine and_congr_right fun _ => forall_congr' fun i => h _ (single_le_one i)
    simp only [val, this]
  | hilbert =>
    simp only [val, hcoef]
    refine Finset.sum_congr rfl fun τ _ => ?_
    rw [if_congr (h (ind τ) (ind_le_one τ)) rfl rfl]

theorem val_congr {k : Kind} {I I' : List (Term n)} {u : Term n}
    (h : ∀ m, u ≤ m → m ≤ u + 1 → (mem I' m ↔ mem I m)) : val k I' u = val k I u := by
  apply val_shift
  intro e he
  apply h
  · exact le_def.2 fun i => by simp
  · exact le_def.2 fun i => by have := le_def.1 he i; simpa using this

/-- If adding `v` to a monomial between `u` and `u+1` never matters, then the coefficient is zero. -/
theorem hcoef_cone {I : List (Term n)} {u : Term n} (v : Fin n)
    (h : ∀ τ : Finset (Fin n), v ∉ τ → (mem I (u + ind τ) ↔ mem I (u + ind (insert v τ)))) :
    hcoef I u = 0 := by
  unfold hcoef
  refine Finset.sum_involution (fun τ _ => if v ∈ τ then τ.erase v else insert v τ) ?_ ?_ ?_ ?_
  · intro τ _
    by_cases hv : v ∈ τ
    · simp only [hv, if_true]
      have h1 := h (τ.erase v) (by simp)
      rw [Finset.insert_erase hv] at h1
      rw [if_congr h1 rfl rfl]
      have hc : (τ.erase v).card = τ.card - 1 := Finset.card_erase_of_mem hv
      have hpos : 0 < τ.card := Finset.card_pos.2 ⟨v, hv⟩
      have hle : τ.card ≤ n := by simpa using Finset.card_le_univ τ
      have : n - (τ.erase v).card = (n - τ.card) + 1 := by omega
      rw [this, pow_succ]; ring
    · simp only [hv, if_false]
      have h1 := h τ hv
      rw [if_congr h1.symm rfl rfl]
      have hc : (insert v τ).card = τ.card + 1 := Finset.card_insert_of_notMem hv
      have hle : (insert v τ).card ≤ n := by simpa using Finset.card_le_univ (insert v τ)
      have : n - τ.card = (n - (insert v τ).card) + 1 := by omega
      rw [this, pow_succ]; ring
  · intro τ _ _
    by_cases hv : v ∈ τ
    · simp only [hv, if_true]
      intro he
      have : v ∉ τ.erase v := by simp
      rw [he] at this; exact this hv
    · simp only [hv, if_false]
      intro he
      apply hv
      rw [← he]; simp
  · intro τ _; simp
  · intro τ _
    by_cases hv : v ∈ τ
    · simp [hv, Finset.insert_erase hv]
    · simp [hv]

/-- If the value is nonzero then every variable has a generator that is needed in its direction. -/
theorem val_label {k : Kind} {I : List (Term n)} {u : Term n} (h : val k I u ≠ 0) (v : Fin n) :
    ∃ g ∈ I, g v = u v + 1 ∧ g ≤ u + 1 := by
  cases k with
  | msm =>
    have hm : Msm I u := by
      by_contra hc; exact h (by simp [val, hc])
    obtain ⟨g, hg, h1, h2⟩ := hm.label v
    refine ⟨g, hg, h1, le_def.2 fun j => ?_⟩
    by_cases hj : j = v
    · subst hj; simp [h1]
    · have := h2 j hj; simp; omega
  | hilbert =>
    by_contra hc
    apply h
    simp only [val]
    apply hcoef_cone v
    intro τ hτ
    constructor
    · intro hm
      refine mem_of_le hm (le_def.2 fun i => ?_)
      simp only [Pi.add_apply, ind]
      by_cases hi : i ∈ τ <;> simp [hi]
    · rintro ⟨g, hg, hle⟩
      refine ⟨g, hg, le_def.2 fun i => ?_⟩
      have hi := le_def.1 hle i
      simp only [Pi.add_apply, ind] at hi ⊢
      by_cases hiv : i = v
      · subst hiv
        simp at hi
        simp only [hτ, if_false, add_zero]
        by_contra hlt
        apply hc
        refine ⟨g, hg, by omega, le_def.2 fun j => ?_⟩
        have hj := le_def.1 hle j
        simp only [Pi.add_apply, ind] at hj ⊢
        refine hj.trans ?_
        split <;> simp
      · simpa [hiv] using hi

theorem val_msm_eq {I : List (Term n)} {u : Term n} : val .msm I u = if Msm I u then 1 else 0 := rfl

theorem val_lt_lcm {k : Kind} {I : List (Term n)} {u : Term n} (h : val k I u ≠ 0) (i : Fin n) :
    u i < lcmOf I i := by
  obtain ⟨g, hg, h1, _⟩ := val_label h i
  have := le_def.1 (le_lcmOf hg) i
  omega

theorem val_nil {k : Kind} (hn : 0 < n) (u : Term n) : val k ([] : List (Term n)) u = 0 := by
  by_contra h
  obtain ⟨g, hg, _⟩ := val_label h ⟨0, hn⟩
  simp at hg

end Frobby

import Verif.FrobGrobLemmas
import Mathlib.Order.WellQuasiOrder
import Mathlib.Order.Minimal

/-!
# Each Frobenius instance has a Gröbner basis

The input of `frobgrob` has to have a Gröbner basis of the numbers. By Dickson's lemma there is one for all numbers.
-/

namespace Frobby

/-- The positive entries of a vector. -/
def positives (n : ℕ) (v : List ℤ) : Fin n → ℕ := fun i => (v.getD i 0).toNat

theorem leadDivides_iff {n : ℕ} {g v : List ℤ} (hg : g.length = n) (hv : v.length = n) : LeadDivides g v ↔ positives n g ≤ positives n v := by
  unfold LeadDivides
  rw [List.forall₂_iff_get]
  constructor
  · rintro ⟨-, h⟩ i
    have := h i (by omega) (by omega)
    show (g.getD i 0).toNat ≤ (v.getD i 0).toNat
    rw [List.getD_eq_getElem _ _ (by omega), List.getD_eq_getElem _ _ (by omega)]
    simp only [List.get_eq_getElem] at this
    omega
  · intro h
    refine ⟨by omega, fun i h1 h2 => ?_⟩
    have : (g.getD i 0).toNat ≤ (v.getD i 0).toNat := h ⟨i, by omega⟩
    rw [List.getD_eq_getElem _ _ h1, List.getD_eq_getElem _ _ h2] at this
    simp only [List.get_eq_getElem]
    omega

/-- The binomials in the ideal, with the leading term first. -/
def binomials (a : List ℤ) : Set (List ℤ) := {v | v.length = a.length ∧ dot a v = 0 ∧ LeadsNeg v}

/-- There is a Gröbner basis such that no leading term divides another one. -/
theorem RevLexBasis.finite (a : List ℤ) : ∃ B : List (List ℤ), RevLexBasis a B ∧ B.Nodup ∧ ∀ g ∈ B, ∀ h ∈ B, LeadDivides g h → g = h := by
  classical
  let P : (Fin a.length → ℕ) → Prop := fun u => ∃ v ∈ binomials a, positives a.length v = u
  have hfin : {u | Minimal P u}.Finite := WellQuasiOrderedLE.finite_of_isAntichain (setOfPred_minimal_antichain P)
  let pick : (Fin a.length → ℕ) → List ℤ := fun u => if h : P u then h.choose else []
  have hpick : ∀ u, P u → pick u ∈ binomials a ∧ positives a.length (pick u) = u := by
    intro u h
    simp only [pick, dif_pos h]
    exact h.choose_spec
  have hB : ∀ g, g ∈ hfin.toFinset.toList.map pick → ∃ u, Minimal P u ∧ g = pick u ∧ g ∈ binomials a ∧ positives a.length g = u := by
    intro g hg
    obtain ⟨u, hu, rfl⟩ := List.mem_map.1 hg
    have hu : Minimal P u := by simpa using hu
    exact ⟨u, hu, rfl, hpick u hu.1⟩
  refine ⟨hfin.toFinset.toList.map pick, ⟨fun g hg => ?_, fun g hg => ?_, fun g hg => ?_, fun v h1 h2 h3 => ?_⟩, ?_, fun g hg h hh hd => ?_⟩
  · obtain ⟨u, _, _, h, _⟩ := hB g hg
    exact h.1
  · obtain ⟨u, _, _, h, _⟩ := hB g hg
    exact h.2.1
  · obtain ⟨u, _, _, h, _⟩ := hB g hg
    exact h.2.2
  · obtain ⟨u, hle, hu⟩ := exists_minimal_le_of_wellFoundedLT P (positives a.length v) ⟨v, ⟨h1, h2, h3⟩, rfl⟩
    refine ⟨pick u, List.mem_map.2 ⟨u, by simpa using hu, rfl⟩, ?_⟩
    obtain ⟨h, e⟩ := hpick u hu.1
    rw [leadDivides_iff h.1 h1, e]
    exact hle
  · refine List.Nodup.map_on (fun u hu u' hu' e => ?_) (Finset.nodup_toList _)
    have h1 : Minimal P u := by simpa using hu
    have h2 : Minimal P u' := by simpa using hu'
    rw [← (hpick u h1.1).2, ← (hpick u' h2.1).2, e]
  · obtain ⟨u, h1, rfl, h2, h3⟩ := hB g hg
    obtain ⟨u', h1', rfl, h2', h3'⟩ := hB h hh
    rw [leadDivides_iff h2.1 h2'.1, h3, h3'] at hd
    rw [le_antisymm hd (h1'.2 h1.1 hd)]

end Frobby

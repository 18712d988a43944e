import Verif.DimLemmas
import Mathlib.Data.Fin.VecNotation
import Mathlib.Data.Fintype.Powerset

/-!
# C14: dimension and codimension
-/

namespace Frobby

variable {n : ℕ}

/-- C14: the unit ideal has dimension -1; the dimension of any other ideal is the largest size of a set of variables
that contains the support of no generator. -/
theorem C14_dimension (G : List (Term n)) :
    (mem G 0 → dimension G = -1) ∧
      (¬ mem G 0 → IsGreatest
        {k : ℤ | ∃ S : Finset (Fin n), (S.card : ℤ) = k ∧ ∀ g ∈ G, ∃ v, v ∉ S ∧ 0 < g v} (dimension G)) := by
  have h0 : mem G 0 ↔ (0 : Term n) ∈ G := by
    constructor
    · rintro ⟨g, hg, hle⟩
      have : g = 0 := by funext v; have := Term.le_def.1 hle v; simpa using this
      rw [← this]; exact hg
    · exact mem_self
  rw [h0]
  exact computeDimension_spec G false (by simp)

/-- C14: the dimension and the codimension add up to the number of variables. -/
theorem C14_sum (G : List (Term n)) : dimension G + codimension G = n := by
  unfold codimension; omega

/-- C14: the codimension is the smallest support among the irreducible components; the unit ideal, which has no
components, has codimension `n + 1`. -/
theorem C14_codimension (G D : List (Term n)) (hD : IsIrrDecomp D G) :
    (mem G 0 → codimension G = n + 1) ∧
      (¬ mem G 0 → IsLeast {k : ℤ | ∃ d ∈ D, (Term.sizeOfSupport d : ℤ) = k} (codimension G)) := by
  obtain ⟨h1, h2⟩ := C14_dimension G
  constructor
  · intro h; unfold codimension; rw [h1 h]; omega
  · intro h
    obtain ⟨⟨S, hS, hSG⟩, hmax⟩ := h2 h
    have hsum := C14_sum G
    have hcompl : ∀ S : Finset (Fin n), (Sᶜ.card : ℤ) = n - S.card := fun S => by
      have := Finset.card_compl_add_card S
      rw [Fintype.card_fin] at this
      omega
    -- the support of a component meets the support of every generator
    have hbound : ∀ d ∈ D, codimension G ≤ (Term.sizeOfSupport d : ℤ) := by
      intro d hd
      have := hmax ⟨(Finset.univ.filter fun v => d v ≠ 0)ᶜ, rfl, fun g hg => by
        obtain ⟨v, hv, hle⟩ := (hD.inter g).1 (mem_self hg) d hd
        exact ⟨v, by simp; omega, by omega⟩⟩
      rw [hcompl] at this
      unfold Term.sizeOfSupport
      omega
    -- some component has its support outside `S`
    have hex : ∃ d ∈ D, ∀ v, d v ≠ 0 → v ∉ S := by
      set m : Term n := fun v => if v ∈ S then ((D.map fun d => d v).sum + 1) else 0 with hm
      have hout : ¬ mem G m := by
        rintro ⟨g, hg, hle⟩
        obtain ⟨v, hv, h0⟩ := hSG g hg
        have := Term.le_def.1 hle v
        rw [hm] at this
        simp only [hv, if_false] at this
        omega
      rw [hD.inter] at hout
      push Not at hout
      obtain ⟨d, hd, hdm⟩ := hout
      refine ⟨d, hd, fun v hv hvS => hdm ⟨v, by omega, ?_⟩⟩
      rw [hm]
      simp only [hvS, if_true]
      have : d v ≤ (D.map fun d => d v).sum := List.single_le_sum (by simp) _ (List.mem_map.2 ⟨d, hd, rfl⟩)
      omega
    obtain ⟨d, hd, hdS⟩ := hex
    refine ⟨⟨d, hd, le_antisymm ?_ (hbound d hd)⟩, ?_⟩
    · have : (Term.sizeOfSupport d : ℤ) ≤ (Sᶜ.card : ℤ) := by
        unfold Term.sizeOfSupport
        exact_mod_cast Finset.card_le_card fun v hv => by simpa using hdS v (by simpa using hv)
      rw [hcompl] at this
      omega
    · rintro k ⟨d, hd, rfl⟩
      exact hbound d hd

/-- ⟨x²y, yz⟩ in three variables: dimension 2, codimension 1. -/
example : dimension [(![2, 1, 0] : Term 3), ![0, 1, 1]] = 2 ∧ codimension [(![2, 1, 0] : Term 3), ![0, 1, 1]] = 1 := by
  have h := (C14_dimension [(![2, 1, 0] : Term 3), ![0, 1, 1]]).2 (by decide)
  have h2 : dimension [(![2, 1, 0] : Term 3), ![0, 1, 1]] = 2 := by
    refine h.unique ⟨⟨{0, 2}, by decide, by decide⟩, ?_⟩
    rintro k ⟨S, rfl, hS⟩
    revert S
    decide
  exact ⟨h2, by have := C14_sum [(![2, 1, 0] : Term 3), ![0, 1, 1]]; omega⟩

/-- The unit ideal and the zero ideal. -/
example : dimension [(0 : Term 2), ![1, 0]] = -1 ∧ codimension [(0 : Term 2), ![1, 0]] = 3 ∧
    dimension ([] : List (Term 2)) = 2 := by
  have h := (C14_dimension [(0 : Term 2), ![1, 0]]).1 (by decide)
  have h' := C14_sum [(0 : Term 2), ![1, 0]]
  refine ⟨h, by omega, ?_⟩
  refine ((C14_dimension ([] : List (Term 2))).2 (by decide)).unique ⟨⟨{0, 1}, by decide, by simp⟩, ?_⟩
  rintro k ⟨S, rfl, -⟩
  revert S; decide

/-- ⟨x²y, yz⟩ = ⟨y⟩ ∩ ⟨x², z⟩ has a component with one variable. -/
example : IsIrrDecomp [(![0, 1, 0] : Term 3), ![2, 0, 1]] [![2, 1, 0], ![0, 1, 1]] := by
  refine ⟨fun m => ?_, ?_, by decide⟩
  · simp [mem, memIrr, Term.le_def, Fin.exists_fin_succ, Fin.forall_fin_succ]; omega
  · intro d hd
    simp only [List.mem_cons, List.not_mem_nil, or_false] at hd
    rcases hd with rfl | rfl
    · exact ⟨![2, 0, 1], by decide⟩
    · exact ⟨![0, 1, 0], by decide⟩

end Frobby

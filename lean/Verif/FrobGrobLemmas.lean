import Verif.FrobGrobSpec
import Verif.OptSpec
import Verif.Spec
import Mathlib.Data.Nat.ModEq
import Mathlib.Order.PiLex
import Mathlib.Data.Set.Finite.Lattice
import Mathlib.Order.Preorder.Finite
import Mathlib.Data.Fintype.Pi
import Mathlib.Data.Pi.Interval
import Mathlib.Algebra.BigOperators.Fin
import Mathlib.Algebra.Order.BigOperators.Group.Finset
import Mathlib.Tactic.Ring
import Mathlib.Tactic.LinearCombination

/-!
# The Frobenius number from the maximal standard monomials
-/

namespace Frobby

variable {n : ℕ}

open Term

/-- The degree of a monomial. -/
def deg (c : Fin n → ℕ) (u : Term n) : ℕ := ∑ i, c i * u i

theorem deg_add (c : Fin n → ℕ) (u w : Term n) : deg c (u + w) = deg c u + deg c w := by
  unfold deg
  rw [← Finset.sum_add_distrib]
  exact Finset.sum_congr rfl fun i _ => by rw [Pi.add_apply, Nat.mul_add]

theorem deg_single (c : Fin n → ℕ) (i : Fin n) (k : ℕ) : deg c (Term.single i k) = c i * k := by
  unfold deg
  rw [Finset.sum_eq_single i]
  · rw [Term.single_same]
  · intro j _ hj
    simp [Term.single, hj]
  · exact fun h => absurd (Finset.mem_univ _) h

theorem mem_closure_deg (b : ℕ) (c : Fin n → ℕ) (m : ℕ) :
    m ∈ AddSubmonoid.closure (insert b (Set.range c)) ↔ ∃ k w, m = k * b + deg c w := by
  constructor
  · intro h
    induction h using AddSubmonoid.closure_induction with
    | mem x hx =>
      rcases hx with rfl | ⟨i, rfl⟩
      · exact ⟨1, 0, by simp [deg]⟩
      · exact ⟨0, Term.single i 1, by simp [deg_single]⟩
    | zero => exact ⟨0, 0, by simp [deg]⟩
    | add x y _ _ hx hy =>
      obtain ⟨k, w, rfl⟩ := hx
      obtain ⟨k', w', rfl⟩ := hy
      exact ⟨k + k', w + w', by rw [deg_add]; ring⟩
  · rintro ⟨k, w, rfl⟩
    refine AddSubmonoid.add_mem _ ?_ ?_
    · rw [← smul_eq_mul]
      exact AddSubmonoid.nsmul_mem _ (AddSubmonoid.subset_closure (Set.mem_insert _ _)) _
    · refine AddSubmonoid.sum_mem _ fun i _ => ?_
      rw [mul_comm, ← smul_eq_mul]
      exact AddSubmonoid.nsmul_mem _ (AddSubmonoid.subset_closure (Set.mem_insert_of_mem _ (Set.mem_range_self i))) _

/-- If the standard monomials have the least degrees in their classes, and there is one in each class, then the Frobenius number is the largest degree of a
maximal standard monomial minus the first number. -/
theorem frobenius_of_standard {b : ℕ} {c : Fin n → ℕ} (hb : 0 < b) (hc : ∀ i, 0 < c i) {G : List (Term n)}
    (h1 : ∀ u w, ¬ mem G u → ∀ k, deg c u ≠ deg c w + (k + 1) * b)
    (h2 : ∀ w, ∃ u k, ¬ mem G u ∧ deg c w = deg c u + k * b)
    {f : ℕ} (hf : FrobeniusNumber f (insert b (Set.range c))) :
    IsGreatest {y : ℤ | ∃ t, Msm G t ∧ y = ∑ i, (c i : ℤ) * (t i : ℤ)} (f + b) := by
  rw [frobeniusNumber_iff] at hf
  obtain ⟨hf1, hf2⟩ := hf
  have hdeg : ∀ t : Term n, ∑ i, (c i : ℤ) * (t i : ℤ) = (deg c t : ℕ) := fun t => by simp [deg]
  have hle : ∀ u, ¬ mem G u → deg c u ≤ f + b := by
    intro u hu
    by_contra hlt
    obtain ⟨k, w, hk⟩ := (mem_closure_deg b c _).1 (hf2 (deg c u - b) (by omega))
    refine h1 u w hu k ?_
    rw [Nat.add_mul]
    omega
  obtain ⟨k, w, hk⟩ := (mem_closure_deg b c _).1 (hf2 (f + b) (by omega))
  have hk0 : k = 0 := by
    by_contra h0
    obtain ⟨k, rfl⟩ := Nat.exists_eq_succ_of_ne_zero h0
    refine hf1 ((mem_closure_deg b c _).2 ⟨k, w, ?_⟩)
    rw [Nat.succ_mul] at hk
    omega
  subst hk0
  obtain ⟨u, j, hu, hj⟩ := h2 w
  have hj0 : j = 0 := by
    by_contra h0
    obtain ⟨j, rfl⟩ := Nat.exists_eq_succ_of_ne_zero h0
    refine hf1 ((mem_closure_deg b c _).2 ⟨j, u, ?_⟩)
    rw [Nat.succ_mul] at hj
    omega
  subst hj0
  have hdu : deg c u = f + b := by omega
  refine ⟨⟨u, ⟨hu, fun i => ?_⟩, ?_⟩, ?_⟩
  · by_contra hi
    have := hle _ hi
    rw [deg_add, deg_single] at this
    have := hc i
    omega
  · rw [hdeg, hdu]
    push_cast
    rfl
  · rintro y ⟨t, ht, rfl⟩
    rw [hdeg]
    exact_mod_cast hle t ht.1

/-! ## from the basis -/

theorem dot_cons_ofFn (b : ℤ) (c : Fin n → ℤ) (x : ℤ) (v : Fin n → ℤ) : dot (b :: List.ofFn c) (x :: List.ofFn v) = b * x + ∑ i, c i * v i := by
  unfold dot
  rw [List.zipWith_cons_cons, List.sum_cons, ← List.sum_ofFn]
  congr 2
  refine List.ext_getElem (by simp) fun i h1 h2 => by simp

/-- The monomials for the rows, without the first variable. -/
def rowTerm (n : ℕ) (g : List ℤ) : Term n := fun i => (g.getD (i + 1) 0).toNat

theorem finite_deg {c : Fin n → ℕ} (hc : ∀ i, 0 < c i) (d : ℕ) : {w : Term n | deg c w = d}.Finite := by
  refine (Set.finite_Icc (0 : Fin n → ℕ) (fun _ : Fin n => d)).subset fun w hw => ⟨fun i => Nat.zero_le _, fun i => ?_⟩
  have h1 : c i * w i ≤ deg c w := Finset.single_le_sum (f := fun i => c i * w i) (fun _ _ => Nat.zero_le _) (Finset.mem_univ i)
  have h2 := Nat.le_mul_of_pos_left (w i) (hc i)
  have h3 : deg c w = d := hw
  show w i ≤ d
  omega


theorem leads_head {v : List ℤ} {x : ℤ} (hx : x < 0) : LeadsNeg (x :: v) := ⟨0, fun j hj => absurd hj (Nat.not_lt_zero _), by simpa using hx⟩

theorem LeadsNeg.head_le {v : List ℤ} (h : LeadsNeg v) : v.getD 0 0 ≤ 0 := by
  obtain ⟨k, h1, h2⟩ := h
  cases k with
  | zero => omega
  | succ k => exact (h1 0 (by omega)).le

theorem leadDivides_ofFn {g : List ℤ} {x : ℤ} {v : Fin n → ℤ} (h : LeadDivides g (x :: List.ofFn v)) (i : Fin n) : 0 < g.getD (i + 1) 0 → g.getD (i + 1) 0 ≤ v i := by
  have hl := h.length_eq
  have := List.forall₂_iff_get.1 h
  have := this.2 (i + 1) (by simp [hl]) (by simp)
  simpa [List.getD_eq_getElem?_getD, hl] using this

/-- The standard monomials have the least degrees in their classes. -/
theorem RevLexBasis.least {b : ℕ} {c : Fin n → ℕ} {B : List (List ℤ)} (hB : RevLexBasis ((b : ℤ) :: List.ofFn fun i => (c i : ℤ)) B) {u w : Term n}
    (hu : ¬ mem (B.map (rowTerm n)) u) (k : ℕ) : deg c u ≠ deg c w + (k + 1) * b := by
  intro he
  refine hu ?_
  have hd : dot ((b : ℤ) :: List.ofFn fun i => (c i : ℤ)) ((-(k + 1) : ℤ) :: List.ofFn fun i => (u i : ℤ) - w i) = 0 := by
    rw [dot_cons_ofFn]
    have h1 : ∑ i, (c i : ℤ) * ((u i : ℤ) - w i) = (deg c u : ℤ) - deg c w := by
      unfold deg
      push_cast
      rw [← Finset.sum_sub_distrib]
      exact Finset.sum_congr rfl fun i _ => by ring
    rw [h1, he]
    push_cast
    ring
  obtain ⟨g, hg, h⟩ := hB.reduces _ (by simp) hd (leads_head (by omega))
  refine ⟨rowTerm n g, List.mem_map.2 ⟨g, hg, rfl⟩, Term.le_def.2 fun i => ?_⟩
  have := leadDivides_ofFn h i
  show (g.getD (i + 1) 0).toNat ≤ u i
  omega

/-- There is a standard monomial in each class. -/
theorem RevLexBasis.exists {b : ℕ} (hb : 0 < b) {c : Fin n → ℕ} (hc : ∀ i, 0 < c i) {B : List (List ℤ)} (hB : RevLexBasis ((b : ℤ) :: List.ofFn fun i => (c i : ℤ)) B)
    (w : Term n) : ∃ u k, ¬ mem (B.map (rowTerm n)) u ∧ deg c w = deg c u + k * b := by
  have hstep : ∀ u : Term n, mem (B.map (rowTerm n)) u → ∃ u' : Term n, ∃ k, deg c u = deg c u' + k * b ∧ (k = 0 → toLex u < toLex u') := by
    intro u hu
    obtain ⟨_, ht, hle⟩ := hu
    obtain ⟨g, hg, rfl⟩ := List.mem_map.1 ht
    have hlen : g.length = n + 1 := by simpa using hB.length g hg
    have h0 := (hB.leads g hg).head_le
    have hle' : ∀ i : Fin n, g.getD (i + 1) 0 ≤ u i := fun i => by
      have := Term.le_def.1 hle i
      have : (g.getD (i + 1) 0).toNat ≤ u i := this
      omega
    have hgeq : g = g.getD 0 0 :: List.ofFn fun i : Fin n => g.getD (i + 1) 0 := by
      refine List.ext_getElem (by simp [hlen]) fun i h1 h2 => ?_
      cases i with
      | zero => simp [List.getD_eq_getElem?_getD, h1]
      | succ i => simp [List.getD_eq_getElem?_getD, h1]
    have hdot := hB.degree g hg
    rw [hgeq, dot_cons_ofFn] at hdot
    refine ⟨fun i => ((u i : ℤ) - g.getD (i + 1) 0).toNat, (-(g.getD 0 0)).toNat, ?_, fun hk => ?_⟩
    · have h3 : (deg c (fun i => ((u i : ℤ) - g.getD (i + 1) 0).toNat) : ℤ) = (deg c u : ℤ) - ∑ i : Fin n, (c i : ℤ) * g.getD (i + 1) 0 := by
        unfold deg
        push_cast
        rw [← Finset.sum_sub_distrib]
        refine Finset.sum_congr rfl fun i _ => ?_
        have := hle' i
        rw [Int.toNat_of_nonneg (by omega)]
        ring
      have h4 : ((-(g.getD 0 0)).toNat : ℤ) = -(g.getD 0 0) := by omega
      have h5 : (deg c u : ℤ) = deg c (fun i => ((u i : ℤ) - g.getD (i + 1) 0).toNat) + ((-(g.getD 0 0)).toNat : ℤ) * b := by
        rw [h3, h4]
        linear_combination hdot
      exact_mod_cast h5
    · obtain ⟨k, hk1, hk2⟩ := hB.leads g hg
      cases k with
      | zero => omega
      | succ k =>
        have hkn : k < n := by
          by_contra hkn
          rw [List.getD_eq_default _ _ (by omega)] at hk2
          omega
        refine ⟨⟨k, hkn⟩, fun j hj => ?_, ?_⟩
        · have : g.getD (j + 1) 0 = 0 := hk1 _ (by have : (j : ℕ) < k := hj; omega)
          show u j = ((u j : ℤ) - g.getD (j + 1) 0).toNat
          omega
        · show u ⟨k, hkn⟩ < ((u ⟨k, hkn⟩ : ℤ) - g.getD (k + 1) 0).toNat
          omega
  -- the least degree in the class, and then the greatest one in the order
  have hex : ∃ d, ∃ u : Term n, ∃ k, deg c u = d ∧ deg c w = deg c u + k * b := ⟨_, w, 0, rfl, by simp⟩
  classical
  obtain ⟨u₀, k₀, h1, h2⟩ := Nat.find_spec hex
  have hmin := fun d => Nat.find_min hex (m := d)
  rw [← h1] at hmin
  obtain ⟨u, hu⟩ := (finite_deg hc (deg c u₀)).exists_maximalFor (fun u => toLex u) _ ⟨u₀, rfl⟩
  refine ⟨u, k₀, fun hm => ?_, by rw [show deg c u = deg c u₀ from hu.1]; exact h2⟩
  obtain ⟨u', k, h3, h4⟩ := hstep u hm
  have h5 : deg c u = deg c u₀ := hu.1
  by_cases hk : k * b = 0
  · rcases Nat.mul_eq_zero.1 hk with hk0 | hb0
    · have := hu.2 (j := u') (show deg c u' = deg c u₀ by omega) (h4 hk0).le
      exact absurd (h4 hk0) (not_lt.2 this)
    · omega
  · exact hmin (deg c u') (by omega) ⟨u', k₀ + k, rfl, by rw [Nat.add_mul]; omega⟩

end Frobby

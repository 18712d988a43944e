import Mathlib.Tactic.LinearCombination
import Mathlib.LinearAlgebra.Matrix.Determinant.Basic
import Verif.MatrixSpec
import Verif.MatrixLemmas4

/-!
# From the lemmas about `Matrix` to the specification
-/

namespace Frobby

open Matrix

variable {r c : ℕ}

theorem PivotsTo.leads_iff {a : Matrix (Fin r) (Fin c) ℚ} {ps : List (Fin c)} (h : PivotsTo a ps c) {i : Fin r} {j : Fin c} :
    Leads a i j ↔ ps[i.val]? = some j := by
  constructor
  · rintro ⟨h1, h2⟩
    cases hp : ps[i.val]? with
    | none => exact absurd (h.zero i (List.getElem?_eq_none_iff.1 hp) j j.2) h1
    | some p =>
      obtain ⟨h3, h4⟩ := h.lead i p hp
      rcases lt_trichotomy j p with g | g | g
      · exact absurd (h4 j g) h1
      · rw [g]
      · exact absurd (h2 p g) h3
  · exact fun hp => h.lead i j hp

theorem PivotsTo.echelon {a : Matrix (Fin r) (Fin c) ℚ} {ps : List (Fin c)} (h : PivotsTo a ps c) : RowEchelon a := by
  intro i i' j' hi hl
  rw [h.leads_iff] at hl
  have hlen := (List.getElem?_eq_some_iff.1 hl).1
  have hp : ps[i.val]? = some (ps[i.val]'(by omega)) := List.getElem?_eq_getElem (by omega)
  exact ⟨_, h.lt hp hl hi, h.leads_iff.2 hp⟩

theorem MatReduced.reducedEchelon {a : Matrix (Fin r) (Fin c) ℚ} {ps : List (Fin c)} (h : MatReduced a ps) : ReducedEchelon a :=
  ⟨h.pivots.echelon, fun i j hl => h.done i j (h.pivots.leads_iff.1 hl)⟩

theorem mem_rowSpace {a : Matrix (Fin r) (Fin c) ℚ} {v : Fin c → ℚ} : v ∈ rowSpace a ↔ ∃ x : Fin r → ℚ, ∀ j, v j = ∑ i, x i * a i j := by
  unfold rowSpace
  rw [Submodule.mem_span_range_iff_exists_fun]
  refine exists_congr fun x => ⟨fun h j => ?_, fun h => funext fun j => ?_⟩
  · rw [← h, Finset.sum_apply]; rfl
  · rw [h j, Finset.sum_apply]; rfl

theorem rowSpace_mul (P : Matrix (Fin r) (Fin r) ℚ) (a : Matrix (Fin r) (Fin c) ℚ) : rowSpace (P * a) ≤ rowSpace a := by
  refine Submodule.span_le.2 ?_
  rintro _ ⟨i, rfl⟩
  exact mem_rowSpace.2 ⟨fun k => P i k, fun j => mul_apply⟩

theorem RowOps.rowSpace {s : ℚ} (hs : s ≠ 0) {a b : Matrix (Fin r) (Fin c) ℚ} (h : RowOps s a b) : rowSpace b = rowSpace a := by
  obtain ⟨P, h1, rfl⟩ := h
  refine le_antisymm (rowSpace_mul P a) ?_
  have hu : IsUnit P.det := by rw [h1]; exact isUnit_iff_ne_zero.2 hs
  have := rowSpace_mul P⁻¹ (P * a)
  rwa [← Matrix.mul_assoc, nonsing_inv_mul P hu, Matrix.one_mul] at this

theorem leads_unique {a : Matrix (Fin r) (Fin c) ℚ} {i : Fin r} {j j' : Fin c} (h : Leads a i j) (h' : Leads a i j') : j = j' := by
  rcases lt_trichotomy j j' with g | g | g
  · exact absurd (h'.2 j g) h.1
  · exact g
  · exact absurd (h.2 j' g) h'.1

theorem exists_leads {a : Matrix (Fin r) (Fin c) ℚ} {i : Fin r} {j : Fin c} (h : a i j ≠ 0) : ∃ p ≤ j, Leads a i p := by
  induction hn : j.val using Nat.strong_induction_on generalizing j with
  | _ n ih =>
    by_cases hz : ∀ l < j, a i l = 0
    · exact ⟨j, le_refl _, h, hz⟩
    · push Not at hz
      obtain ⟨l, h1, h2⟩ := hz
      obtain ⟨p, h3, h4⟩ := ih l.val (by rw [← hn]; exact h1) h2 rfl
      exact ⟨p, h3.trans h1.le, h4⟩

/-- The first entry of a vector of the row space of a reduced matrix is below a leading entry. -/
theorem ReducedEchelon.leads_of_mem {a : Matrix (Fin r) (Fin c) ℚ} (h : ReducedEchelon a) {v : Fin c → ℚ} (hv : v ∈ rowSpace a) {j : Fin c} (h1 : v j ≠ 0)
    (h2 : ∀ l < j, v l = 0) : ∃ i, Leads a i j := by
  obtain ⟨x, hx⟩ := mem_rowSpace.1 hv
  rw [hx j] at h1
  obtain ⟨i, _, hi⟩ := Finset.exists_ne_zero_of_sum_ne_zero h1
  obtain ⟨p, hp, hl⟩ := exists_leads (right_ne_zero_of_mul hi)
  obtain ⟨h3, h4⟩ := h.2 i p hl
  have hvp : v p = x i := by
    rw [hx p, Finset.sum_eq_single i, h3, mul_one]
    · intro k _ hk; rw [h4 k hk, mul_zero]
    · intro hn; exact absurd (Finset.mem_univ _) hn
  rcases lt_or_eq_of_le hp with g | g
  · exact absurd (hvp ▸ h2 p g) (left_ne_zero_of_mul hi)
  · exact ⟨i, g ▸ hl⟩

theorem row_mem (a : Matrix (Fin r) (Fin c) ℚ) (i : Fin r) : (fun j => a i j) ∈ rowSpace a := Submodule.subset_span ⟨i, rfl⟩

theorem leads_same {a b : Matrix (Fin r) (Fin c) ℚ} (hab : ∀ {i j}, Leads a i j → ∃ k, Leads b k j) (hba : ∀ {i j}, Leads b i j → ∃ k, Leads a k j)
    (ha : RowEchelon a) (hb : RowEchelon b) {i : Fin r} (ih : ∀ k < i, ∀ j, Leads a k j ↔ Leads b k j) {j : Fin c} (h : Leads a i j) : Leads b i j := by
  obtain ⟨k, hk⟩ := hab h
  rcases lt_trichotomy k i with g | g | g
  · obtain ⟨j', g1, g2⟩ := ha k i j g h
    have := leads_unique g2 ((ih k g j).2 hk)
    omega
  · exact g ▸ hk
  · obtain ⟨j', g1, g2⟩ := hb i k j g hk
    obtain ⟨m, hm⟩ := hba g2
    rcases lt_trichotomy m i with q | q | q
    · obtain ⟨j'', q1, q2⟩ := hb m i j' q g2
      have := leads_unique q2 ((ih m q j').1 hm)
      omega
    · subst q
      have := leads_unique hm h
      omega
    · obtain ⟨j'', q1, q2⟩ := ha i m j' q hm
      have := leads_unique q2 h
      omega

/-- There is only one reduced echelon form. -/
theorem reducedEchelon_unique {a b : Matrix (Fin r) (Fin c) ℚ} (ha : ReducedEchelon a) (hb : ReducedEchelon b) (h : rowSpace a = rowSpace b) : a = b := by
  have hab : ∀ {i j}, Leads a i j → ∃ k, Leads b k j := fun {i j} hl => hb.leads_of_mem (h ▸ row_mem a i) hl.1 hl.2
  have hba : ∀ {i j}, Leads b i j → ∃ k, Leads a k j := fun {i j} hl => ha.leads_of_mem (h ▸ row_mem b i) hl.1 hl.2
  have key : ∀ n (i : Fin r), i.val = n → ∀ j, Leads a i j ↔ Leads b i j := by
    intro n
    induction n using Nat.strong_induction_on with
    | _ n ih =>
      intro i hi j
      have ih' : ∀ k < i, ∀ j, Leads a k j ↔ Leads b k j := fun k hk j => ih k.val (by rw [← hi]; exact hk) k rfl j
      exact ⟨leads_same hab hba ha.1 hb.1 ih', leads_same hba hab hb.1 ha.1 fun k hk j => (ih' k hk j).symm⟩
  ext i j
  by_contra hne
  have hmem : (fun j => a i j - b i j) ∈ rowSpace a := Submodule.sub_mem _ (row_mem a i) (h ▸ row_mem b i)
  obtain ⟨l, h1, h2⟩ := exists_leads (a := of fun (i : Fin r) j => a i j - b i j) (i := i) (j := j) (by rw [of_apply]; exact sub_ne_zero.2 hne)
  obtain ⟨k, hk⟩ := ha.leads_of_mem hmem h2.1 h2.2
  have hk' := (key k.val k rfl l).1 hk
  apply h2.1
  rw [of_apply]
  by_cases hik : i = k
  · rw [hik, (ha.2 k l hk).1, (hb.2 k l hk').1, sub_self]
  · rw [(ha.2 k l hk).2 i hik, (hb.2 k l hk').2 i hik, sub_self]

theorem colSpace_eq_range (a : Matrix (Fin r) (Fin c) ℚ) : colSpace a = LinearMap.range a.mulVecLin := by
  rw [Matrix.range_mulVecLin]
  rfl

/-- A system has a solution when the columns on the right are in the column space. -/
theorem exists_solution_iff {k : ℕ} (a : Matrix (Fin r) (Fin c) ℚ) (b : Matrix (Fin r) (Fin k) ℚ) : (∃ x, a * x = b) ↔ colSpace b ≤ colSpace a := by
  constructor
  · rintro ⟨x, rfl⟩
    refine Submodule.span_le.2 ?_
    rintro _ ⟨j, rfl⟩
    rw [colSpace_eq_range]
    exact ⟨fun l => x l j, rfl⟩
  · intro h
    have : ∀ j, ∃ v : Fin c → ℚ, a *ᵥ v = fun i => b i j := fun j => by
      have h1 : (fun i => b i j) ∈ colSpace a := h (Submodule.subset_span ⟨j, rfl⟩)
      rw [colSpace_eq_range] at h1
      exact h1
    choose v hv using this
    refine ⟨of fun l j => v j l, ?_⟩
    ext i j
    exact congrFun (hv j) i

theorem matSolve_isSome {k : ℕ} (a : Matrix (Fin r) (Fin c) ℚ) (b : Matrix (Fin r) (Fin k) ℚ) : (matSolve a b).isSome = true ↔ colSpace b ≤ colSpace a := by
  rw [← exists_solution_iff]
  obtain ⟨h1, h2⟩ := matSolve_spec a b
  cases h : matSolve a b with
  | none => simpa using h2 h
  | some x => simpa using ⟨x, h1 x h⟩

theorem hasSameColSpace_iff {c' : ℕ} (a : Matrix (Fin r) (Fin c) ℚ) (b : Matrix (Fin r) (Fin c') ℚ) : hasSameColSpace a b = true ↔ colSpace a = colSpace b := by
  unfold hasSameColSpace
  rw [dif_pos rfl, Bool.and_eq_true]
  have : b.submatrix (Fin.cast rfl) id = b := rfl
  rw [this, matSolve_isSome, matSolve_isSome]
  exact ⟨fun h => le_antisymm h.2 h.1, fun h => ⟨h.ge, h.le⟩⟩

/-! ## parallelograms -/

theorem getOppositeZeroRow_none (a : Matrix (Fin r) (Fin c) ℚ) (h : r ≠ 4) : getOppositeZeroRow a = none := dif_neg h

theorem oppositeIs_iff (a : Matrix (Fin 4) (Fin c) ℚ) (o : Fin 4) : oppositeIs a o = true ↔
    ∀ j, ([1, 2, 3] : List (Fin 4)).foldl (fun tmp row => if row ≠ o then tmp - a row j else tmp) (a 0 j + a o j) = 0 := by
  simp [oppositeIs]

theorem oppositeIs_one (a : Matrix (Fin 4) (Fin c) ℚ) : oppositeIs a 1 = true ↔ ∀ j, a 0 j + a 1 j = a 2 j + a 3 j := by
  rw [oppositeIs_iff]
  refine forall_congr' fun j => ?_
  simp [sub_sub, sub_eq_zero]

theorem oppositeIs_two (a : Matrix (Fin 4) (Fin c) ℚ) : oppositeIs a 2 = true ↔ ∀ j, a 0 j + a 2 j = a 1 j + a 3 j := by
  rw [oppositeIs_iff]
  refine forall_congr' fun j => ?_
  simp [sub_sub, sub_eq_zero]

theorem oppositeIs_three (a : Matrix (Fin 4) (Fin c) ℚ) : oppositeIs a 3 = true ↔ ∀ j, a 0 j + a 3 j = a 1 j + a 2 j := by
  rw [oppositeIs_iff]
  refine forall_congr' fun j => ?_
  simp [sub_sub, sub_eq_zero]

theorem isParallelogram_four (a : Matrix (Fin 4) (Fin c) ℚ) : isParallelogram a = true ↔ ParallelogramRows a := by
  have h0 : getOppositeZeroRow a = ([1, 2, 3] : List (Fin 4)).find? fun o => oppositeIs a o := rfl
  rw [isParallelogram, h0, List.find?_isSome]
  constructor
  · rintro ⟨o, ho, h⟩
    simp only [List.mem_cons, List.not_mem_nil, or_false] at ho
    rcases ho with rfl | rfl | rfl
    · exact ⟨0, 2, 1, 3, by decide, by decide, (oppositeIs_one a).1 h⟩
    · exact ⟨0, 1, 2, 3, by decide, by decide, (oppositeIs_two a).1 h⟩
    · exact ⟨0, 1, 3, 2, by decide, by decide, (oppositeIs_three a).1 h⟩
  · rintro ⟨p, q, s, t, h1, _, h3⟩
    have h1' : (∀ j, a 0 j + a 1 j = a 2 j + a 3 j) ∨ (∀ j, a 0 j + a 2 j = a 1 j + a 3 j) ∨ (∀ j, a 0 j + a 3 j = a 1 j + a 2 j) := by
      have hd : ∀ p q s t : Fin 4, [p, q, s, t].Nodup → ∃ o ∈ ([(1, 2, 3), (2, 1, 3), (3, 1, 2)] : List (Fin 4 × Fin 4 × Fin 4)),
          (((p = 0 ∧ s = o.1 ∨ p = o.1 ∧ s = 0) ∧ (q = o.2.1 ∧ t = o.2.2 ∨ q = o.2.2 ∧ t = o.2.1)) ∨
            ((q = 0 ∧ t = o.1 ∨ q = o.1 ∧ t = 0) ∧ (p = o.2.1 ∧ s = o.2.2 ∨ p = o.2.2 ∧ s = o.2.1))) := by decide
      obtain ⟨o, ho, h⟩ := hd p q s t h1
      have key : ∀ j, a 0 j + a o.1 j = a o.2.1 j + a o.2.2 j := by
        intro j
        have := h3 j
        rcases h with ⟨⟨rfl, rfl⟩ | ⟨rfl, rfl⟩, ⟨rfl, rfl⟩ | ⟨rfl, rfl⟩⟩ | ⟨⟨rfl, rfl⟩ | ⟨rfl, rfl⟩, ⟨rfl, rfl⟩ | ⟨rfl, rfl⟩⟩ <;> linarith
      simp only [List.mem_cons, List.not_mem_nil, or_false] at ho
      rcases ho with rfl | rfl | rfl
      · exact .inl key
      · exact .inr (.inl key)
      · exact .inr (.inr key)
    rcases h1' with h | h | h
    · exact ⟨1, by simp, (oppositeIs_one a).2 h⟩
    · exact ⟨2, by simp, (oppositeIs_two a).2 h⟩
    · exact ⟨3, by simp, (oppositeIs_three a).2 h⟩

theorem areaSq_eq {p q t u v : Fin c → ℚ} {a b d e : ℚ} (h1 : ∀ j, q j - p j = a * u j + b * v j) (h2 : ∀ j, t j - p j = d * u j + e * v j)
    (h : (a * e - b * d) ^ 2 = 1) : areaSq p q t = (∑ j, u j ^ 2) * (∑ j, v j ^ 2) - (∑ j, u j * v j) ^ 2 := by
  unfold areaSq
  simp only [h1, h2]
  have e1 : ∀ x y : ℚ, ∑ j, (x * u j + y * v j) ^ 2 = x ^ 2 * (∑ j, u j ^ 2) + 2 * x * y * (∑ j, u j * v j) + y ^ 2 * ∑ j, v j ^ 2 := by
    intro x y
    rw [Finset.mul_sum, Finset.mul_sum, Finset.mul_sum, ← Finset.sum_add_distrib, ← Finset.sum_add_distrib]
    exact Finset.sum_congr rfl fun j _ => by ring
  have e2 : ∑ j, (a * u j + b * v j) * (d * u j + e * v j) = a * d * (∑ j, u j ^ 2) + (a * e + b * d) * (∑ j, u j * v j) + b * e * ∑ j, v j ^ 2 := by
    rw [Finset.mul_sum, Finset.mul_sum, Finset.mul_sum, ← Finset.sum_add_distrib, ← Finset.sum_add_distrib]
    exact Finset.sum_congr rfl fun j _ => by ring
  rw [e1, e1, e2]
  linear_combination ((∑ j, u j ^ 2) * (∑ j, v j ^ 2) - (∑ j, u j * v j) ^ 2) * h

/-- Any three vertices of a parallelogram span the same area. -/
theorem areaSq_rows (m : Matrix (Fin 4) (Fin c) ℚ) (α β : Fin 4 → ℤ) (hd : ∀ i j k : Fin 4, i ≠ j → i ≠ k → j ≠ k →
      ((α j - α i) * (β k - β i) - (β j - β i) * (α k - α i)) ^ 2 = 1) {u v : Fin c → ℚ} (h : ∀ i l, m i l = m 0 l + α i * u l + β i * v l)
    {i j k : Fin 4} (hij : i ≠ j) (hik : i ≠ k) (hjk : j ≠ k) :
    areaSq (fun l => m i l) (fun l => m j l) (fun l => m k l) = (∑ j, u j ^ 2) * (∑ j, v j ^ 2) - (∑ j, u j * v j) ^ 2 := by
  refine areaSq_eq (a := α j - α i) (b := β j - β i) (d := α k - α i) (e := β k - β i) (fun l => ?_) (fun l => ?_) ?_
  · rw [h j l, h i l]; ring
  · rw [h k l, h i l]; ring
  · exact_mod_cast hd i j k hij hik hjk

theorem determinant_gram (u v : Fin c → ℚ) :
    determinant (matProduct (of fun (i : Fin 2) col => if i = 0 then u col else v col) (matTranspose (of fun (i : Fin 2) col => if i = 0 then u col else v col))) =
      (∑ j, u j ^ 2) * (∑ j, v j ^ 2) - (∑ j, u j * v j) ^ 2 := by
  have ht : matTranspose (of fun (i : Fin 2) col => if i = 0 then u col else v col) = (of fun (i : Fin 2) col => if i = 0 then u col else v col)ᵀ := rfl
  rw [determinant_eq, matProduct_eq, ht, det_fin_two, mul_apply, mul_apply, mul_apply, mul_apply]
  simp only [transpose_apply, of_apply]
  have e : ∑ j, v j * u j = ∑ j, u j * v j := Finset.sum_congr rfl fun j _ => mul_comm _ _
  simp [← pow_two, e]

theorem getParallelogramAreaSq_spec (m : Matrix (Fin 4) (Fin c) ℚ) (hm : isParallelogram m = true) {i j k : Fin 4} (hij : i ≠ j) (hik : i ≠ k) (hjk : j ≠ k) :
    getParallelogramAreaSq m = some (areaSq (fun l => m i l) (fun l => m j l) (fun l => m k l)) := by
  rw [isParallelogram, Option.isSome_iff_exists] at hm
  obtain ⟨o, ho⟩ := hm
  have h0 : getOppositeZeroRow m = ([1, 2, 3] : List (Fin 4)).find? fun o => oppositeIs m o := rfl
  have hmem := List.mem_of_find?_eq_some (h0 ▸ ho)
  have hop : oppositeIs m o = true := by
    have := List.find?_some (h0 ▸ ho)
    exact this
  rw [getParallelogramAreaSq, ho]
  simp only [List.mem_cons, List.not_mem_nil, or_false] at hmem
  rcases hmem with rfl | rfl | rfl
  · rw [oppositeIs_one] at hop
    show some (determinant (matProduct (of fun (i : Fin 2) col => if i = 0 then m 2 col - m 0 col else m 3 col - m 0 col)
      (matTranspose (of fun (i : Fin 2) col => if i = 0 then m 2 col - m 0 col else m 3 col - m 0 col)))) = _
    rw [determinant_gram, areaSq_rows m ![0, 1, 1, 0] ![0, 1, 0, 1] (by decide) (u := fun l => m 2 l - m 0 l) (v := fun l => m 3 l - m 0 l) _ hij hik hjk]
    intro i l
    have := hop l
    fin_cases i <;> simp <;> linarith
  · rw [oppositeIs_two] at hop
    show some (determinant (matProduct (of fun (i : Fin 2) col => if i = 0 then m 1 col - m 0 col else m 3 col - m 0 col)
      (matTranspose (of fun (i : Fin 2) col => if i = 0 then m 1 col - m 0 col else m 3 col - m 0 col)))) = _
    rw [determinant_gram, areaSq_rows m ![0, 1, 1, 0] ![0, 0, 1, 1] (by decide) (u := fun l => m 1 l - m 0 l) (v := fun l => m 3 l - m 0 l) _ hij hik hjk]
    intro i l
    have := hop l
    fin_cases i <;> simp <;> linarith
  · rw [oppositeIs_three] at hop
    show some (determinant (matProduct (of fun (i : Fin 2) col => if i = 0 then m 1 col - m 0 col else m 2 col - m 0 col)
      (matTranspose (of fun (i : Fin 2) col => if i = 0 then m 1 col - m 0 col else m 2 col - m 0 col)))) = _
    rw [determinant_gram, areaSq_rows m ![0, 1, 0, 1] ![0, 0, 1, 1] (by decide) (u := fun l => m 1 l - m 0 l) (v := fun l => m 2 l - m 0 l) _ hij hik hjk]
    intro i l
    have := hop l
    fin_cases i <;> simp <;> linarith

end Frobby

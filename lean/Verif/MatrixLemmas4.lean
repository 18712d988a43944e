import Mathlib.LinearAlgebra.Matrix.ToLin
import Verif.MatrixLemmas3

/-!
# Bases of null spaces, linear systems, parallelograms
-/

namespace Frobby

open Matrix

variable {r c : ℕ}

theorem forall2_right {α β : Type} {R : α → β → Prop} {l : List α} {m : List β} (h : List.Forall₂ R l m) {y : β} (hy : y ∈ m) : ∃ x ∈ l, R x y := by
  induction h with
  | nil => simp at hy
  | @cons a b l m hab _ ih =>
    rcases List.mem_cons.1 hy with rfl | hy
    · exact ⟨a, by simp, hab⟩
    · obtain ⟨x, h1, h2⟩ := ih hy
      exact ⟨x, by simp [h1], h2⟩

theorem forall2_left {α β : Type} {R : α → β → Prop} {l : List α} {m : List β} (h : List.Forall₂ R l m) {x : α} (hx : x ∈ l) : ∃ y ∈ m, R x y := by
  induction h with
  | nil => simp at hx
  | @cons a b l m hab _ ih =>
    rcases List.mem_cons.1 hx with rfl | hx
    · exact ⟨b, by simp, hab⟩
    · obtain ⟨y, h1, h2⟩ := ih hx
      exact ⟨y, by simp [h1], h2⟩

theorem RowOps.mulVec_eq {s : ℚ} (hs : s ≠ 0) {a b : Matrix (Fin r) (Fin c) ℚ} (h : RowOps s a b) (x : Fin c → ℚ) : b *ᵥ x = 0 ↔ a *ᵥ x = 0 := by
  obtain ⟨P, h1, rfl⟩ := h
  rw [← mulVec_mulVec]
  constructor
  · intro h2
    have hu : IsUnit P.det := by rw [h1]; exact isUnit_iff_ne_zero.2 hs
    have := congrArg (P⁻¹ *ᵥ ·) h2
    simp only [mulVec_zero] at this
    rwa [mulVec_mulVec, nonsing_inv_mul P hu, one_mulVec] at this
  · intro h2; rw [h2, mulVec_zero]

theorem MatReduced.nullVector_mem {a : Matrix (Fin r) (Fin c) ℚ} {ps : List (Fin c)} (h : MatReduced a ps) {col : Fin c} (hc : col ∉ ps) :
    a *ᵥ nullVector a ps col = 0 := by
  funext i
  cases hp : ps[i.val]? with
  | none => exact h.mulVec_none _ hp
  | some p =>
    rw [h.mulVec _ hp, nullVector_pivot h.pivots hp, Finset.sum_eq_single col]
    · rw [nullVector, if_neg hc, if_pos rfl, Pi.zero_apply]; ring
    · intro j hj hjc
      have := (Finset.mem_filter.1 hj).2
      rw [nullVector, if_neg this, if_neg hjc, mul_zero]
    · intro hn
      exact absurd (by simpa using hc) hn

/-- Every vector of the null space is the combination of the vectors for the columns without a pivot. -/
theorem MatReduced.eq_sum {a : Matrix (Fin r) (Fin c) ℚ} {ps : List (Fin c)} (h : MatReduced a ps) {x : Fin c → ℚ} (hx : a *ᵥ x = 0) :
    x = ∑ col with col ∉ ps, x col • nullVector a ps col := by
  funext j
  rw [Finset.sum_apply]
  simp only [Pi.smul_apply, smul_eq_mul]
  by_cases hj : j ∈ ps
  · obtain ⟨k, hk⟩ := List.mem_iff_getElem?.1 hj
    have hkr : k < r := by
      have := (List.getElem?_eq_some_iff.1 hk).1
      have := h.pivots.len
      omega
    have h1 := congrFun hx ⟨k, hkr⟩
    rw [h.mulVec x (i := ⟨k, hkr⟩) hk, Pi.zero_apply] at h1
    rw [eq_neg_of_add_eq_zero_left h1, ← Finset.sum_neg_distrib]
    refine Finset.sum_congr rfl fun l _ => ?_
    rw [nullVector_pivot h.pivots (i := ⟨k, hkr⟩) hk]; ring
  · rw [Finset.sum_eq_single j]
    · rw [nullVector, if_neg hj, if_pos rfl, mul_one]
    · intro l _ hl
      rw [nullVector, if_neg hj, if_neg (Ne.symm hl), mul_zero]
    · intro hn
      exact absurd (by simpa using hj) hn

/-- The columns of `nullSpace` are a basis of the null space. -/
theorem nullSpace_basis (a : Matrix (Fin r) (Fin c) ℚ) : ∃ vs, nullSpace a = some vs ∧ LinearIndependent ℚ (fun i : Fin vs.length => vs[i.val]) ∧
    Submodule.span ℚ {v | v ∈ vs} = LinearMap.ker a.mulVecLin ∧
    ∀ v ∈ vs, ∃ w : Fin c → ℤ, (∀ j, v j = (w j : ℚ)) ∧ ∀ p : ℕ, p.Prime → ¬ ∀ i, (p : ℤ) ∣ w i := by
  obtain ⟨ps, vs, h1, h2, h3⟩ := nullSpace_spec a
  obtain ⟨_, _, s, hs, h4⟩ := rowReduceFully_spec a
  generalize rowReduceFully a = b at h1 h3 h4
  refine ⟨vs, h2, ?_, ?_, ?_⟩
  · have hlen := h3.length_eq
    rw [List.forall₂_iff_get] at h3
    have hget := h3.2
    rw [Fintype.linearIndependent_iff]
    intro g hg i
    have hi1 : i.val < ((List.finRange c).filter fun col => decide (col ∉ ps)).length := by rw [hlen]; exact i.2
    have hval := congrFun hg (((List.finRange c).filter fun col => decide (col ∉ ps))[i.val])
    rw [Finset.sum_apply, Finset.sum_eq_single i] at hval
    · obtain ⟨w, q, hq, _, e2, _⟩ := hget i.val hi1 i.2
      simp only [Pi.smul_apply, smul_eq_mul, Pi.zero_apply] at hval
      have e3 := e2 (((List.finRange c).filter fun col => decide (col ∉ ps))[i.val])
      rw [List.get_eq_getElem, List.get_eq_getElem] at e3
      simp only at e3
      rw [e3] at hval
      have hmem : ((List.finRange c).filter fun col => decide (col ∉ ps))[i.val] ∉ ps := by
        simpa using (List.mem_filter.1 (List.getElem_mem hi1)).2
      rw [nullVector, if_neg hmem, if_pos rfl, mul_one] at hval
      exact (mul_eq_zero.1 hval).resolve_right hq
    · intro k _ hk
      have hk1 : k.val < ((List.finRange c).filter fun col => decide (col ∉ ps)).length := by rw [hlen]; exact k.2
      obtain ⟨w, q, hq, _, e2, _⟩ := hget k.val hk1 k.2
      have e3 := e2 (((List.finRange c).filter fun col => decide (col ∉ ps))[i.val])
      rw [List.get_eq_getElem, List.get_eq_getElem] at e3
      simp only at e3
      simp only [Pi.smul_apply, smul_eq_mul]
      rw [e3]
      have hmem : ((List.finRange c).filter fun col => decide (col ∉ ps))[i.val] ∉ ps := by
        simpa using (List.mem_filter.1 (List.getElem_mem hi1)).2
      have hne : ((List.finRange c).filter fun col => decide (col ∉ ps))[i.val] ≠ ((List.finRange c).filter fun col => decide (col ∉ ps))[k.val] := by
        intro e
        have := (((List.nodup_finRange c).filter _).getElem_inj_iff).1 e
        exact hk (Fin.ext this.symm)
      rw [nullVector, if_neg hmem, if_neg hne, mul_zero, mul_zero]
    · intro hn; exact absurd (Finset.mem_univ _) hn
  · refine le_antisymm (Submodule.span_le.2 fun v hv => ?_) fun x hx => ?_
    · obtain ⟨col, hcol, w, q, hq, _, e2, _⟩ : ∃ col ∈ ((List.finRange c).filter fun col => decide (col ∉ ps)), ∃ (w : Fin c → ℤ) (q : ℚ), q ≠ 0 ∧
          (∀ j, v j = (w j : ℚ)) ∧ (∀ j, v j = q * nullVector b ps col j) ∧ ∀ p : ℕ, p.Prime → ¬ ∀ i, (p : ℤ) ∣ w i :=
        forall2_right h3 hv
      have hnp : col ∉ ps := by simpa using (List.mem_filter.1 hcol).2
      have hv2 : v = q • nullVector b ps col := funext e2
      show a.mulVecLin v = 0
      rw [mulVecLin_apply, hv2, mulVec_smul, (h4.mulVec_eq hs _).1 (h1.nullVector_mem hnp), smul_zero]
    · have hx' : b *ᵥ x = 0 := (h4.mulVec_eq hs x).2 hx
      rw [h1.eq_sum hx']
      refine Submodule.sum_mem _ fun col hcol => Submodule.smul_mem _ _ ?_
      have hcol' : col ∈ (List.finRange c).filter fun col => decide (col ∉ ps) := by
        simpa using hcol
      obtain ⟨v, hv, w, q, hq, _, e2, _⟩ : ∃ v ∈ vs, ∃ (w : Fin c → ℤ) (q : ℚ), q ≠ 0 ∧
          (∀ j, v j = (w j : ℚ)) ∧ (∀ j, v j = q * nullVector b ps col j) ∧ ∀ p : ℕ, p.Prime → ¬ ∀ i, (p : ℤ) ∣ w i :=
        forall2_left h3 hcol'
      have hv2 : nullVector b ps col = q⁻¹ • v := by
        funext j
        rw [Pi.smul_apply, smul_eq_mul, e2 j]
        field_simp
      rw [hv2]
      exact Submodule.smul_mem _ _ (Submodule.subset_span hv)
  · intro v hv
    obtain ⟨_, _, w, _, _, e1, _, e2⟩ := forall2_right h3 hv
    exact ⟨w, e1, e2⟩

/-! ## linear systems -/

/-- The row of the solution for a column. -/
def solutionRow {k : ℕ} (system : Matrix (Fin r) (Fin (c + k)) ℚ) (ps : List (Fin (c + k))) (col : Fin c) (j : Fin k) : ℚ :=
  if h : ps.idxOf (Fin.castAdd k col) < ps.length ∧ ps.idxOf (Fin.castAdd k col) < r then system ⟨ps.idxOf (Fin.castAdd k col), h.2⟩ (Fin.natAdd c j) else 0

theorem solutionRow_pivot {k : ℕ} {system : Matrix (Fin r) (Fin (c + k)) ℚ} {ps : List (Fin (c + k))} (h : PivotsTo system ps (c + k)) {col : Fin c} {i : Fin r}
    (hp : ps[i.val]? = some (Fin.castAdd k col)) (j : Fin k) : solutionRow system ps col j = system i (Fin.natAdd c j) := by
  obtain ⟨h1, h2⟩ := List.getElem?_eq_some_iff.1 hp
  have hidx : ps.idxOf (Fin.castAdd k col) = i.val := by rw [← h2, h.nodup.idxOf_getElem]
  rw [solutionRow, dif_pos (by rw [hidx]; exact ⟨h1, i.2⟩)]
  exact congrArg (fun t => system t (Fin.natAdd c j)) (Fin.ext hidx)

theorem solutionRow_free {k : ℕ} {system : Matrix (Fin r) (Fin (c + k)) ℚ} {ps : List (Fin (c + k))} {col : Fin c}
    (hp : Fin.castAdd k col ∉ ps) (j : Fin k) : solutionRow system ps col j = 0 := by
  rw [solutionRow, dif_neg]
  rintro ⟨h, _⟩
  exact hp (List.idxOf_lt_length_iff.1 h)

theorem solutionRows_eq {k : ℕ} {system : Matrix (Fin r) (Fin (c + k)) ℚ} {ps : List (Fin (c + k))} (h : PivotsTo system ps (c + k)) :
    ∀ (l : List (Fin c)) (row m : ℕ), l = (List.finRange c).drop m → (∀ (i : Fin r) p, row ≤ i.val → ps[i.val]? = some p → m ≤ p.val) →
      (∀ i p, i < row → ps[i]? = some p → p.val < m) → solutionRows system row l = l.map (solutionRow system ps) := by
  intro l
  induction l with
  | nil => intro row m _ _ _; rfl
  | cons col l ih =>
    intro row m hl h2 h3
    have hm : m < c := by
      by_contra hc
      rw [List.drop_eq_nil_of_le (by simp; omega)] at hl
      cases hl
    rw [List.drop_eq_getElem_cons (by simpa using hm)] at hl
    obtain ⟨hl1, hl2⟩ := List.cons.inj hl
    have hcol : col.val = m := by rw [hl1]; simp
    have hnot : ∀ i p, i < row → ps[i]? = some p → p ≠ Fin.castAdd k col := fun i p hi hp e => by
      have := h3 i p hi hp
      rw [e] at this
      simp only [Fin.val_castAdd] at this
      omega
    rw [solutionRows]
    by_cases hr : row < r
    · rw [dif_pos hr]
      generalize hR : (⟨row, hr⟩ : Fin r) = R
      have hRv : R.val = row := by rw [← hR]
      have hn := h.next (i := R) (j := Fin.castAdd k col) fun p hp => by
        have := h2 R p (by omega) hp
        show col.val ≤ p.val; omega
      split
      · rename_i h0
        have hfree : Fin.castAdd k col ∉ ps := by
          intro hmem
          obtain ⟨i, hi⟩ := List.mem_iff_getElem?.1 hmem
          rcases lt_trichotomy i row with q | q | q
          · exact hnot i _ q hi rfl
          · subst q; exact hn.2 (by rw [hRv]; exact hi) h0
          · obtain ⟨hil, _⟩ := List.getElem?_eq_some_iff.1 hi
            have hq : ps[row]? = some (ps[row]'(by omega)) := List.getElem?_eq_getElem (by omega)
            have g1 : (ps[row]'(by omega)).val < col.val := h.lt hq hi q
            have g2 := h2 R _ (by omega) (by rw [hRv]; exact hq)
            omega
        rw [ih row (m + 1) hl2 (fun i p hi hp => by
          have := h2 i p hi hp
          have : p ≠ Fin.castAdd k col := fun e => hfree (e ▸ List.mem_of_getElem? hp)
          have : p.val ≠ col.val := fun e => this (Fin.ext e)
          omega) fun i p hi hp => by have := h3 i p hi hp; omega, List.map_cons]
        congr 1
        funext j
        exact (solutionRow_free hfree j).symm
      · rename_i h0
        have hp0 := hn.1 h0
        rw [ih (row + 1) (m + 1) hl2 (fun i p hi hp => by
          have : (Fin.castAdd k col).val < p.val := h.lt hp0 hp (by omega)
          simp only [Fin.val_castAdd] at this
          omega) fun i p hi hp => by
            rcases Nat.lt_succ_iff_lt_or_eq.1 hi with hi | hi
            · have := h3 i p hi hp; omega
            · rw [hi, ← hRv, hp0] at hp
              have := Option.some.inj hp
              rw [← this]
              simp only [Fin.val_castAdd]
              omega, List.map_cons]
        congr 1
        funext j
        exact (solutionRow_pivot h hp0 j).symm
    · rw [dif_neg hr]
      have hfree : Fin.castAdd k col ∉ ps := by
        intro hmem
        obtain ⟨i, hi⟩ := List.mem_iff_getElem?.1 hmem
        obtain ⟨hil, _⟩ := List.getElem?_eq_some_iff.1 hi
        have := h.len
        exact hnot i _ (by omega) hi rfl
      rw [ih row (m + 1) hl2 (fun i p hi hp => by have := i.2; omega) fun i p hi hp => by have := h3 i p hi hp; omega, List.map_cons]
      congr 1
      funext j
      exact (solutionRow_free hfree j).symm

/-- What `solve` computes. -/
theorem matSolve_spec {k : ℕ} (lhs : Matrix (Fin r) (Fin c) ℚ) (rhs : Matrix (Fin r) (Fin k) ℚ) :
    (∀ x, matSolve lhs rhs = some x → lhs * x = rhs) ∧ (matSolve lhs rhs = none → ¬ ∃ x, lhs * x = rhs) := by
  unfold matSolve
  simp only
  obtain ⟨ps, h1, s, hs, P, h2, h3⟩ := rowReduceFully_spec (appendColumns lhs rhs)
  generalize rowReduceFully (appendColumns lhs rhs) = b at h1 h3
  have hleft : ∀ i j, b i (Fin.castAdd k j) = (P * lhs) i j := by
    intro i j; rw [h3, mul_appendColumns_left]
  have hright : ∀ i j, b i (Fin.natAdd c j) = (P * rhs) i j := by
    intro i j; rw [h3, mul_appendColumns_right]
  have hP : IsUnit P.det := by rw [h2]; exact isUnit_iff_ne_zero.2 hs
  split
  · rename_i hbad
    refine ⟨(fun x hx => nomatch hx), fun _ => ?_⟩
    rintro ⟨x, hx⟩
    simp only [List.any_eq_true, List.mem_finRange, true_and, Bool.and_eq_true, List.all_eq_true, forall_const, decide_eq_true_eq] at hbad
    obtain ⟨i, h4, j, h5⟩ := hbad
    apply h5
    rw [hright, ← hx, ← Matrix.mul_assoc, mul_apply]
    refine Finset.sum_eq_zero fun l _ => ?_
    rw [← hleft, h4 l, zero_mul]
  · rename_i hgood
    refine ⟨fun x hx => ?_, fun h => by cases h⟩
    rw [solutionRows_eq h1.pivots (List.finRange c) 0 0 (by simp) (fun _ _ _ _ => Nat.zero_le _) (fun _ _ h => absurd h (by omega))] at hx
    have hx : x = of fun i j => solutionRow b ps i j := by
      rw [← Option.some.inj hx]
      ext i j
      rw [of_apply, of_apply, List.getD_eq_getElem _ _ (by simp)]
      simp
    have key : P * (lhs * x) = P * rhs := by
      ext i j
      rw [← hright, ← Matrix.mul_assoc, mul_apply]
      simp only [← hleft]
      simp only [List.any_eq_true, List.mem_finRange, true_and, Bool.and_eq_true, List.all_eq_true, forall_const, decide_eq_true_eq, not_exists, not_and, not_not] at hgood
      have hz : (∀ l, b i (Fin.castAdd k l) = 0) → ∑ l, b i (Fin.castAdd k l) * x l j = b i (Fin.natAdd c j) := by
        intro h
        rw [hgood i h j]
        exact Finset.sum_eq_zero fun l _ => by rw [h l, zero_mul]
      cases hp : ps[i.val]? with
      | none => exact hz fun l => h1.pivots.zero i (List.getElem?_eq_none_iff.1 hp) _ (Fin.castAdd k l).2
      | some p =>
        by_cases hpc : p.val < c
        · obtain ⟨q, rfl⟩ : ∃ q : Fin c, p = Fin.castAdd k q := ⟨⟨p.val, hpc⟩, Fin.ext rfl⟩
          rw [Finset.sum_eq_single q]
          · rw [h1.eq_one hp, if_pos rfl, one_mul, hx, of_apply, solutionRow_pivot h1.pivots hp]
          · intro l _ hl
            by_cases hm : Fin.castAdd k l ∈ ps
            · obtain ⟨i', hi'⟩ := List.mem_iff_getElem?.1 hm
              have hir : i' < r := by
                have := (List.getElem?_eq_some_iff.1 hi').1
                have := h1.pivots.len
                omega
              have hne : i ≠ ⟨i', hir⟩ := fun e => hl (by
                rw [e] at hp
                simp only at hp
                rw [hi'] at hp
                have := Option.some.inj hp
                exact Fin.castAdd_injective c k this)
              rw [h1.eq_one (i := ⟨i', hir⟩) hi', if_neg hne, zero_mul]
            · rw [hx, of_apply, solutionRow_free hm, mul_zero]
          · intro hn; exact absurd (Finset.mem_univ _) hn
        · exact hz fun l => (h1.pivots.lead i p hp).2 _ (show l.val < p.val by have := l.2; omega)
    have := congrArg (P⁻¹ * ·) key
    simpa [← Matrix.mul_assoc, nonsing_inv_mul P hP] using this

theorem matProduct_eq {k : ℕ} (a : Matrix (Fin r) (Fin k) ℚ) (b : Matrix (Fin k) (Fin c) ℚ) : matProduct a b = a * b := by
  have key : ∀ (f : Fin k → ℚ) (l : List (Fin k)) (x : ℚ), l.foldl (fun s i => s + f i) x = x + (l.map f).sum := by
    intro f l
    induction l with
    | nil => intro x; simp
    | cons i l ih => intro x; rw [List.foldl_cons, ih, List.map_cons, List.sum_cons, add_assoc]
  ext i j
  rw [mul_apply]
  show (List.finRange k).foldl (fun s l => s + a i l * b l j) 0 = _
  rw [key fun l => a i l * b l j, zero_add, ← List.ofFn_eq_map, List.sum_ofFn]

end Frobby

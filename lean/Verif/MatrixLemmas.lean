import Mathlib.LinearAlgebra.Matrix.Transvection
import Mathlib.LinearAlgebra.Matrix.Swap
import Mathlib.LinearAlgebra.Matrix.NonsingularInverse
import Mathlib.Tactic.FieldSimp
import Mathlib.Tactic.Ring
import Verif.MatrixModel

/-!
# Lemmas about row reduction
-/

namespace Frobby

open Matrix

variable {r c : ℕ}

/-! ## operations on rows -/

/-- `b` is `a` multiplied from the left with a matrix of determinant `s`. -/
def RowOps (s : ℚ) (a b : Matrix (Fin r) (Fin c) ℚ) : Prop := ∃ P : Matrix (Fin r) (Fin r) ℚ, P.det = s ∧ b = P * a

theorem RowOps.refl (a : Matrix (Fin r) (Fin c) ℚ) : RowOps 1 a a := ⟨1, by simp, by simp⟩

theorem RowOps.trans {s t : ℚ} {a b d : Matrix (Fin r) (Fin c) ℚ} (h1 : RowOps s a b) (h2 : RowOps t b d) : RowOps (t * s) a d := by
  obtain ⟨P, p1, rfl⟩ := h1
  obtain ⟨Q, q1, rfl⟩ := h2
  exact ⟨Q * P, by rw [det_mul, p1, q1], by rw [Matrix.mul_assoc]⟩

theorem RowOps.add (a : Matrix (Fin r) (Fin c) ℚ) {i j : Fin r} (h : i ≠ j) (m : ℚ) : RowOps 1 a (addMultiplyRow a i j m) := by
  refine ⟨transvection i j m, det_transvection_of_ne i j h m, ?_⟩
  ext k l
  unfold addMultiplyRow
  split
  · rename_i hk
    subst hk
    rw [transvection_mul_apply_same]; ring
  · rename_i hk
    rw [transvection_mul_apply_of_ne i j k l hk]

theorem RowOps.mul (a : Matrix (Fin r) (Fin c) ℚ) (i : Fin r) (m : ℚ) : RowOps m a (multiplyRow a i m) := by
  refine ⟨diagonal fun k => if k = i then m else 1, ?_, ?_⟩
  · rw [det_diagonal, Finset.prod_ite_eq' Finset.univ i]; simp
  · ext k l
    rw [diagonal_mul]
    unfold multiplyRow
    split <;> ring

theorem RowOps.swap (a : Matrix (Fin r) (Fin c) ℚ) {i j : Fin r} (h : i ≠ j) : RowOps (-1) a (swapRows a i j) := by
  refine ⟨Matrix.swap ℚ i j, ?_, ?_⟩
  · rw [Matrix.swap, Equiv.Perm.permMatrix, det_permutation, Equiv.Perm.sign_swap h]; simp
  · ext k l
    unfold swapRows
    split
    · rename_i hk; subst hk; rw [swap_mul_apply_left]
    · split
      · rename_i hk; subst hk; rw [swap_mul_apply_right]
      · rename_i h1 h2; rw [swap_mul_of_ne h1 h2]

/-- The loops that clear a column. -/
theorem clear_fold (q : Fin r → Prop) [DecidablePred q] (pr : Fin r) (pc : Fin c) (hq : ¬ q pr) (m : ℚ → ℚ → ℚ) (hm : ∀ y, m 0 y = 0) :
    ∀ (l : List (Fin r)), l.Nodup → ∀ a : Matrix (Fin r) (Fin c) ℚ,
      (l.foldl (fun a row => if q row ∧ a row pc ≠ 0 then addMultiplyRow a row pr (m (a row pc) (a pr pc)) else a) a =
        fun i j => if i ∈ l ∧ q i then a i j + a pr j * m (a i pc) (a pr pc) else a i j) ∧
      RowOps 1 a (l.foldl (fun a row => if q row ∧ a row pc ≠ 0 then addMultiplyRow a row pr (m (a row pc) (a pr pc)) else a) a) := by
  intro l
  induction l with
  | nil => intro _ a; exact ⟨by simp, RowOps.refl a⟩
  | cons x l ih =>
    intro hl a
    obtain ⟨hx, hl⟩ := List.nodup_cons.1 hl
    rw [List.foldl_cons]
    obtain ⟨h1, h2⟩ := ih hl (if q x ∧ a x pc ≠ 0 then addMultiplyRow a x pr (m (a x pc) (a pr pc)) else a)
    have hstep : (if q x ∧ a x pc ≠ 0 then addMultiplyRow a x pr (m (a x pc) (a pr pc)) else a) =
        fun i j => if i = x ∧ q x then a i j + a pr j * m (a i pc) (a pr pc) else a i j := by
      funext i j
      by_cases hi : i = x
      · subst hi
        by_cases hq' : q i
        · by_cases h0 : a i pc = 0
          · simp [h0, hm]
          · simp [h0, hq', addMultiplyRow]
        · simp [hq']
      · simp only [hi, false_and, if_false]
        split
        · simp [addMultiplyRow, hi]
        · rfl
    constructor
    · rw [h1, hstep]
      funext i j
      have hpx : pr = x → ¬ q x := fun h => h ▸ hq
      by_cases hi : i = x
      · subst hi
        simp only [hx, false_and, if_false, List.mem_cons, true_or, true_and]
      · have e1 : (pr = x ∧ q x) = False := by
          simp only [eq_iff_iff, iff_false, not_and]; exact hpx
        simp only [hi, List.mem_cons, false_or, false_and, if_false, e1]
    · have h3 : RowOps 1 a (if q x ∧ a x pc ≠ 0 then addMultiplyRow a x pr (m (a x pc) (a pr pc)) else a) := by
        split
        · rename_i h
          exact RowOps.add a (fun e : x = pr => hq (e ▸ h.1)) _
        · exact RowOps.refl a
      have := h3.trans h2
      rwa [one_mul] at this

theorem clearBelow_eq (a : Matrix (Fin r) (Fin c) ℚ) (pr : Fin r) (pc : Fin c) :
    (clearBelow a pr pc = fun i j => if pr < i then a i j + a pr j * (-a i pc / a pr pc) else a i j) ∧ RowOps 1 a (clearBelow a pr pc) := by
  have h := clear_fold (fun i => pr < i) pr pc (lt_irrefl _) (fun x y => -x / y) (by simp) (List.finRange r) (List.nodup_finRange r) a
  simp only [List.mem_finRange, true_and] at h
  exact h

theorem clearAbove_eq (a : Matrix (Fin r) (Fin c) ℚ) (pr : Fin r) (pc : Fin c) :
    (clearAbove a pr pc = fun i j => if i < pr then a i j + a pr j * (-a i pc) else a i j) ∧ RowOps 1 a (clearAbove a pr pc) := by
  have h := clear_fold (fun i => i < pr) pr pc (lt_irrefl _) (fun x _ => -x) (by simp) (List.finRange r) (List.nodup_finRange r) a
  simp only [List.mem_finRange, true_and] at h
  exact h

/-! ## echelon form -/

/-- The rows `0, 1, …` have their first entries other than 0 in the columns of the list, for the columns before `C`. -/
structure PivotsTo (a : Matrix (Fin r) (Fin c) ℚ) (ps : List (Fin c)) (C : ℕ) : Prop where
  len : ps.length ≤ r
  sorted : ps.Pairwise (· < ·)
  before : ∀ p ∈ ps, p.val < C
  lead : ∀ (i : Fin r) (p : Fin c), ps[i.val]? = some p → a i p ≠ 0 ∧ ∀ j < p, a i j = 0
  zero : ∀ i : Fin r, ps.length ≤ i.val → ∀ j : Fin c, j.val < C → a i j = 0

theorem foldl_finRange {α : Type} {f : α → Fin c → α} {P : ℕ → α → Prop} (hs : ∀ (j : Fin c) s, P j s → P (j + 1) (f s j)) {s : α} (h0 : P 0 s) :
    P c ((List.finRange c).foldl f s) := by
  have key : ∀ k ≤ c, P k (((List.finRange c).take k).foldl f s) := by
    intro k
    induction k with
    | zero => intro _; exact h0
    | succ k ih =>
      intro hk
      rw [List.take_add_one, List.foldl_append]
      have : (List.finRange c)[k]? = some ⟨k, by omega⟩ := by
        rw [List.getElem?_eq_getElem (by simp; omega)]; simp
      rw [this]
      exact hs ⟨k, by omega⟩ _ (ih (by omega))
  have := key c le_rfl
  rwa [List.take_of_length_le (by simp)] at this

theorem rowReduceStep_spec {a : Matrix (Fin r) (Fin c) ℚ} {ps : List (Fin c)} {pc : Fin c} {odd : Bool} (h : PivotsTo a ps pc) :
    ∃ b qs odd', rowReduceStep (a, ps.length, odd) pc = (b, qs.length, odd') ∧ PivotsTo b qs (pc + 1) ∧
      RowOps (if odd' = odd then 1 else -1) a b := by
  unfold rowReduceStep
  simp only
  cases hf : (List.finRange r).find? fun i => decide (ps.length ≤ i.val ∧ a i pc ≠ 0) with
  | none =>
    refine ⟨a, ps, odd, rfl, ⟨h.len, h.sorted, fun p hp => by have := h.before p hp; omega, h.lead, fun i hi j hj => ?_⟩, by simpa using RowOps.refl a⟩
    rcases Nat.lt_succ_iff_lt_or_eq.1 hj with hj | hj
    · exact h.zero i hi j hj
    · have := List.find?_eq_none.1 hf i (List.mem_finRange i)
      simp only [decide_eq_true_eq, not_and, not_not] at this
      have hjp : j = pc := Fin.ext hj
      rw [hjp]; exact this hi
  | some pr =>
    have hp := List.find?_some hf
    simp only [decide_eq_true_eq] at hp
    have hlt : ps.length < r := by have := pr.2; omega
    simp only [dif_pos hlt]
    generalize hR : (⟨ps.length, hlt⟩ : Fin r) = R
    have hRv : R.val = ps.length := by rw [← hR]
    obtain ⟨a1, ha1, hz1, hr1, hodd⟩ : ∃ a1 : Matrix (Fin r) (Fin c) ℚ, a1 R pc ≠ 0 ∧ (∀ i : Fin r, ps.length ≤ i.val → ∀ j : Fin c, j.val < pc → a1 i j = 0) ∧
        (∀ i : Fin r, i.val < ps.length → a1 i = a i) ∧ ∃ odd', (if ps.length ≠ pr.val then (clearBelow (swapRows a R pr) R pc, ps.length + 1, !odd)
          else (clearBelow a R pc, ps.length + 1, odd)) = (clearBelow a1 R pc, ps.length + 1, odd') ∧ RowOps (if odd' = odd then 1 else -1) a a1 := by
      by_cases he : ps.length = pr.val
      · have : R = pr := Fin.ext (by omega)
        refine ⟨a, by rw [this]; exact hp.2, h.zero, fun _ _ => rfl, odd, by simp [he], by simpa using RowOps.refl a⟩
      · have hne : R ≠ pr := fun e => he (by rw [← e, hRv])
        refine ⟨swapRows a R pr, by simp [swapRows, hp.2], fun i hi j hj => ?_, fun i hi => ?_, !odd, by simp [he], ?_⟩
        · unfold swapRows
          split
          · exact h.zero pr hp.1 j hj
          · split
            · exact h.zero R (by omega) j hj
            · exact h.zero i hi j hj
        · funext j
          have e1 : i ≠ R := fun e => by rw [e] at hi; omega
          have e2 : i ≠ pr := fun e => by rw [e] at hi; omega
          simp [swapRows, e1, e2]
        · have : (!odd) ≠ odd := by cases odd <;> simp
          rw [if_neg this]
          exact RowOps.swap a hne
    obtain ⟨odd', ho1, ho2⟩ := hodd
    obtain ⟨hc1, hc2⟩ := clearBelow_eq a1 R pc
    refine ⟨clearBelow a1 R pc, ps ++ [pc], odd', by rw [ho1]; simp, ⟨by simp; omega, ?_, ?_, ?_, ?_⟩, by have := ho2.trans hc2; rwa [one_mul] at this⟩
    · refine List.pairwise_append.2 ⟨h.sorted, by simp, fun x hx y hy => ?_⟩
      rw [List.mem_singleton] at hy
      subst hy
      exact h.before x hx
    · intro p hp
      rcases List.mem_append.1 hp with hp | hp
      · have := h.before p hp; omega
      · rw [List.mem_singleton] at hp; subst hp; omega
    · intro i p hip
      rw [hc1]
      rcases lt_trichotomy i.val ps.length with hi | hi | hi
      · rw [List.getElem?_append_left hi] at hip
        have hnr : ¬ R < i := fun q => by have : R.val < i.val := q; omega
        simp only [hnr, if_false, hr1 i hi]
        exact h.lead i p hip
      · rw [List.getElem?_append_right (by omega), hi, Nat.sub_self] at hip
        have : pc = p := by simpa using hip
        subst this
        have hiR : i = R := Fin.ext (by omega)
        subst hiR
        simp only [lt_irrefl, if_false]
        exact ⟨ha1, fun j hj => hz1 i (by omega) j hj⟩
      · rw [List.getElem?_eq_none (by simp; omega)] at hip
        cases hip
    · intro i hi j hj
      rw [List.length_append, List.length_singleton] at hi
      rw [hc1]
      have hRi : R < i := by show R.val < i.val; omega
      simp only [hRi, if_true]
      rcases Nat.lt_succ_iff_lt_or_eq.1 hj with hj | hj
      · rw [hz1 i (by omega) j hj, hz1 R (by omega) j hj]; ring
      · have : j = pc := Fin.ext hj
        subst this
        field_simp
        ring

theorem rowReduce_spec (a : Matrix (Fin r) (Fin c) ℚ) : (∃ ps, PivotsTo (rowReduce a).1 ps c) ∧ RowOps (if (rowReduce a).2 then -1 else 1) a (rowReduce a).1 := by
  have h := foldl_finRange (f := rowReduceStep) (P := fun k (s : Matrix (Fin r) (Fin c) ℚ × ℕ × Bool) => ∃ ps, s.2.1 = ps.length ∧ PivotsTo s.1 ps k ∧
    RowOps (if s.2.2 then -1 else 1) a s.1) (s := (a, 0, false)) (fun j s hs => by
      obtain ⟨ps, h1, h2, h3⟩ := hs
      obtain ⟨s1, s2, s3⟩ := s
      simp only at h1 h2 h3
      subst h1
      obtain ⟨b, qs, odd', g1, g2, g3⟩ := rowReduceStep_spec (odd := s3) h2
      rw [g1]
      refine ⟨qs, rfl, g2, ?_⟩
      have := h3.trans g3
      cases odd' <;> cases s3 <;> simpa using this)
    ⟨[], rfl, ⟨by simp, by simp, by simp, by simp, fun _ _ j hj => absurd hj (by omega)⟩, by simpa using RowOps.refl a⟩
  obtain ⟨ps, _, h2, h3⟩ := h
  exact ⟨⟨ps, h2⟩, h3⟩

/-! ## reduced echelon form -/

/-- The entry of the pivot is 1 and it is the only entry other than 0 in its column. -/
def PivotDone (a : Matrix (Fin r) (Fin c) ℚ) (i : Fin r) (p : Fin c) : Prop := a i p = 1 ∧ ∀ k, k ≠ i → a k p = 0

/-- Reduced echelon form with pivots in the columns of the list. -/
structure MatReduced (a : Matrix (Fin r) (Fin c) ℚ) (ps : List (Fin c)) : Prop where
  pivots : PivotsTo a ps c
  done : ∀ (i : Fin r) (p : Fin c), ps[i.val]? = some p → PivotDone a i p

theorem PivotsTo.next {a : Matrix (Fin r) (Fin c) ℚ} {ps : List (Fin c)} (h : PivotsTo a ps c) {i : Fin r} {j : Fin c}
    (hj : ∀ p, ps[i.val]? = some p → j ≤ p) : a i j ≠ 0 ↔ ps[i.val]? = some j := by
  constructor
  · intro ha
    cases hp : ps[i.val]? with
    | none => exact absurd (h.zero i (List.getElem?_eq_none_iff.1 hp) j j.2) ha
    | some p =>
      have := hj p hp
      rcases lt_or_eq_of_le this with hlt | rfl
      · exact absurd ((h.lead i p hp).2 j hlt) ha
      · rfl
  · intro hp
    exact (h.lead i j hp).1

theorem PivotsTo.lt {a : Matrix (Fin r) (Fin c) ℚ} {ps : List (Fin c)} {C : ℕ} (h : PivotsTo a ps C) {i j : ℕ} {p q : Fin c} (hp : ps[i]? = some p)
    (hq : ps[j]? = some q) (hij : i < j) : p < q := by
  obtain ⟨h1, rfl⟩ := List.getElem?_eq_some_iff.1 hp
  obtain ⟨h2, rfl⟩ := List.getElem?_eq_some_iff.1 hq
  exact List.pairwise_iff_getElem.1 h.sorted i j h1 h2 hij

theorem reduceUpLoop_spec : ∀ (steps : ℕ) {a : Matrix (Fin r) (Fin c) ℚ} {ps : List (Fin c)} {pr pc : ℕ}, (r - pr) + (c - pc) ≤ steps → PivotsTo a ps c →
    (∀ (i : Fin r) (p : Fin c), i.val < pr → ps[i.val]? = some p → p.val ≤ pc ∧ PivotDone a i p) →
    (∀ (i : Fin r) (p : Fin c), pr ≤ i.val → ps[i.val]? = some p → pc ≤ p.val) →
    MatReduced (reduceUpLoop steps a pr pc) ps ∧ ∃ s, s ≠ 0 ∧ RowOps s a (reduceUpLoop steps a pr pc) := by
  intro steps
  induction steps with
  | zero =>
    intro a ps pr pc hs h h1 h2
    exact ⟨⟨h, fun i p hp => (h1 i p (by have := i.2; omega) hp).2⟩, 1, one_ne_zero, RowOps.refl a⟩
  | succ steps ih =>
    intro a ps pr pc hs h h1 h2
    rw [reduceUpLoop]
    split
    · rename_i hb
      generalize hR : (⟨pr, hb.1⟩ : Fin r) = R
      generalize hC : (⟨pc, hb.2⟩ : Fin c) = C
      have hRv : R.val = pr := by rw [← hR]
      have hCv : C.val = pc := by rw [← hC]
      have hn := h.next (i := R) (j := C) fun p hp => by
        have := h2 R p (by omega) hp
        show C.val ≤ p.val; omega
      split
      · rename_i h0
        refine ih (by omega) h (fun i p hi hp => ⟨by have := (h1 i p hi hp).1; omega, (h1 i p hi hp).2⟩) fun i p hi hp => ?_
        have hle := h2 i p hi hp
        by_contra hlt
        have hpc : p = C := Fin.ext (by omega)
        subst hpc
        rcases Nat.lt_or_eq_of_le hi with hi | hi
        · cases hq : ps[R.val]? with
          | none =>
            have := List.getElem?_eq_none_iff.1 hq
            obtain ⟨h3, _⟩ := List.getElem?_eq_some_iff.1 hp
            omega
          | some q =>
            have h4 := h.lt hq hp (by omega)
            have h5 := h2 R q (by omega) hq
            have : q.val < p.val := h4
            omega
        · have : i = R := Fin.ext (by omega)
          subst this
          exact hn.2 hp h0
      · rename_i h0
        have hp0 := hn.1 h0
        obtain ⟨hc1, hc2⟩ := clearAbove_eq (multiplyRow a R (1 / a R C)) R C
        have hRow : RowOps (1 * (1 / a R C)) a (clearAbove (multiplyRow a R (1 / a R C)) R C) := (RowOps.mul a R (1 / a R C)).trans hc2
        generalize hB : clearAbove (multiplyRow a R (1 / a R C)) R C = b at hc1 hRow
        have bR : ∀ j, b R j = a R j * (1 / a R C) := by
          intro j; rw [hc1]; simp [multiplyRow]
        have bBelow : ∀ i, R < i → ∀ j, b i j = a i j := by
          intro i hi j
          rw [hc1]; simp [multiplyRow, hi.ne', not_lt.2 hi.le]
        have bAbove : ∀ i, i < R → ∀ j, b i j = a i j + a R j * (1 / a R C) * (-a i C) := by
          intro i hi j
          rw [hc1]; simp [multiplyRow, hi.ne, hi]
        have hlead : ∀ j < C, a R j = 0 := (h.lead R C hp0).2
        have hbP : PivotsTo b ps c := by
          refine ⟨h.len, h.sorted, h.before, fun i p hp => ?_, fun i hi j hj => ?_⟩
          · rcases lt_trichotomy i R with hi | hi | hi
            · have hpC : p < C := h.lt hp hp0 hi
              rw [bAbove i hi, hlead p hpC]
              refine ⟨by simpa using (h.lead i p hp).1, fun j hj => ?_⟩
              rw [bAbove i hi, hlead j (hj.trans hpC), (h.lead i p hp).2 j hj]; ring
            · subst hi
              have : p = C := by rw [hp0] at hp; exact (Option.some.inj hp).symm
              subst this
              rw [bR]
              refine ⟨by field_simp; simp, fun j hj => ?_⟩
              rw [bR, hlead j hj]; ring
            · rw [bBelow i hi]
              refine ⟨(h.lead i p hp).1, fun j hj => ?_⟩
              rw [bBelow i hi]; exact (h.lead i p hp).2 j hj
          · have hlt : R < i := by
              obtain ⟨h3, _⟩ := List.getElem?_eq_some_iff.1 hp0
              show R.val < i.val; omega
            rw [bBelow i hlt]; exact h.zero i hi j hj
        have hdone : PivotDone b R C := by
          constructor
          · rw [bR]; field_simp
          · intro k hk
            rcases lt_or_gt_of_ne hk with hk | hk
            · rw [bAbove k hk]; field_simp; ring
            · rw [bBelow k hk]
              cases hq : ps[k.val]? with
              | none => exact h.zero k (List.getElem?_eq_none_iff.1 hq) C C.2
              | some q => exact (h.lead k q hq).2 C (h.lt hp0 hq hk)
        obtain ⟨g1, s, g2, g3⟩ := ih (a := b) (ps := ps) (pr := pr + 1) (pc := pc) (by omega) hbP (fun i p hi hp => by
          rcases Nat.lt_succ_iff_lt_or_eq.1 hi with hi | hi
          · obtain ⟨k1, k2, k3⟩ := h1 i p hi hp
            have hiR : i < R := by show i.val < R.val; omega
            have hpC : p < C := h.lt hp hp0 hiR
            refine ⟨k1, by rw [bAbove i hiR, hlead p hpC, k2]; ring, fun k hk => ?_⟩
            rcases lt_trichotomy k R with q | q | q
            · rw [bAbove k q, hlead p hpC, k3 k hk]; ring
            · subst q; rw [bR, hlead p hpC]; ring
            · rw [bBelow k q]; exact k3 k hk
          · have hiR : i = R := Fin.ext (by omega)
            subst hiR
            have : p = C := by rw [hp0] at hp; exact (Option.some.inj hp).symm
            subst this
            exact ⟨by omega, hdone⟩) (fun i p hi hp => by
          have := h.lt hp0 hp (by omega)
          have : C.val < p.val := this
          omega)
        refine ⟨g1, s * (1 * (1 / a R C)), ?_, hRow.trans g3⟩
        exact mul_ne_zero g2 (by simpa using h0)
    · rename_i hb
      refine ⟨⟨h, fun i p hp => ?_⟩, 1, one_ne_zero, RowOps.refl a⟩
      rcases Nat.lt_or_ge i.val pr with hi | hi
      · exact (h1 i p hi hp).2
      · have := h2 i p hi hp
        have := i.2
        have := p.2
        omega

theorem rowReduceFully_spec (a : Matrix (Fin r) (Fin c) ℚ) : ∃ ps, MatReduced (rowReduceFully a) ps ∧ ∃ s, s ≠ 0 ∧ RowOps s a (rowReduceFully a) := by
  obtain ⟨⟨ps, h1⟩, h2⟩ := rowReduce_spec a
  obtain ⟨g1, s, g2, g3⟩ := reduceUpLoop_spec (r + c) (pr := 0) (pc := 0) (by omega) h1 (fun _ _ h => absurd h (by omega)) (fun _ _ _ _ => Nat.zero_le _)
  refine ⟨ps, g1, _, ?_, h2.trans g3⟩
  refine mul_ne_zero g2 ?_
  split <;> norm_num

theorem pivotLoop_eq {a : Matrix (Fin r) (Fin c) ℚ} {ps : List (Fin c)} (h : PivotsTo a ps c) : ∀ (steps row col : ℕ), (r - row) + (c - col) ≤ steps →
    (∀ (i : Fin r) (p : Fin c), row ≤ i.val → ps[i.val]? = some p → col ≤ p.val) → pivotLoop a steps row col = ps.drop row := by
  intro steps
  induction steps with
  | zero =>
    intro row col hs h2
    rw [pivotLoop, eq_comm, List.drop_eq_nil_iff]
    have := h.len
    omega
  | succ steps ih =>
    intro row col hs h2
    rw [pivotLoop]
    split
    · rename_i hb
      generalize hR : (⟨row, hb.1⟩ : Fin r) = R
      generalize hC : (⟨col, hb.2⟩ : Fin c) = C
      have hRv : R.val = row := by rw [← hR]
      have hCv : C.val = col := by rw [← hC]
      have hn := h.next (i := R) (j := C) fun p hp => by
        have := h2 R p (by omega) hp
        show C.val ≤ p.val; omega
      split
      · rename_i h0
        refine ih row (col + 1) (by omega) fun i p hi hp => ?_
        have hle := h2 i p hi hp
        by_contra hlt
        have hpc : p = C := Fin.ext (by omega)
        subst hpc
        rcases Nat.lt_or_eq_of_le hi with hi | hi
        · cases hq : ps[R.val]? with
          | none =>
            have := List.getElem?_eq_none_iff.1 hq
            obtain ⟨h3, _⟩ := List.getElem?_eq_some_iff.1 hp
            omega
          | some q =>
            have h4 := h.lt hq hp (by omega)
            have h5 := h2 R q (by omega) hq
            have : q.val < p.val := h4
            omega
        · have : i = R := Fin.ext (by omega)
          subst this
          exact hn.2 hp h0
      · rename_i h0
        have hp0 := hn.1 h0
        rw [ih (row + 1) col (by omega) fun i p hi hp => ?_]
        · rw [hRv] at hp0
          obtain ⟨h3, h4⟩ := List.getElem?_eq_some_iff.1 hp0
          rw [List.drop_eq_getElem_cons h3, h4]
        · have := h.lt hp0 hp (by omega)
          have : C.val < p.val := this
          omega
    · rename_i hb
      rw [eq_comm, List.drop_eq_nil_iff]
      by_contra hc
      have hr : row < r := by have := h.len; omega
      have hp : ps[(⟨row, hr⟩ : Fin r).val]? = some (ps[row]'(by omega)) := List.getElem?_eq_getElem (by show row < ps.length; omega)
      have := h2 ⟨row, hr⟩ _ le_rfl hp
      have := (ps[row]'(by omega)).2
      omega

end Frobby

import Verif.OptModel
import Verif.FacadeLemmas

/-!
# Correctness of the optimization programs
-/

namespace Frobby

open Term

variable {n : ℕ}

theorem mkTerm_some {α : Type} {f : Fin n → Option α} {g : Fin n → α} (h : ∀ v, f v = some (g v)) : mkTerm f = some g := by
  unfold mkTerm
  rw [dif_pos fun v => by simp [h v]]
  congr 1
  funext v
  simp [h v]

/-! ## graders -/

/-- The grade as a total function. -/
def Grader.gr (g : Grader n) (v : Fin n) (e : ℕ) : ℤ := (g.grades v).getD e 0

/-- The degree as a total function. -/
def Grader.deg (g : Grader n) (t : Term n) : ℤ := ∑ v, g.gr v (t v)

/-- What a grader made from a translator satisfies. -/
structure GraderOK (g : Grader n) (N : Fin n → ℕ) : Prop where
  len : ∀ v, (g.grades v).length = N v + 1
  pos : ∀ v, 0 < N v
  up : ∀ v, 0 < g.signs v → ∀ i j, i ≤ j → j < N v → g.gr v i ≤ g.gr v j
  upMax : ∀ v, 0 < g.signs v → ∀ i, i < N v → g.gr v (N v) ≤ g.gr v i
  down : ∀ v, g.signs v < 0 → ∀ i j, i ≤ j → j < N v → g.gr v j ≤ g.gr v i
  downMax : ∀ v, g.signs v < 0 → ∀ i, i < N v → g.gr v i ≤ g.gr v (N v)
  zero : ∀ v, g.signs v = 0 → ∀ i, g.gr v i = 0

namespace GraderOK

variable {g : Grader n} {N : Fin n → ℕ}

theorem grade? (h : GraderOK g N) {v : Fin n} {e : ℕ} (he : e ≤ N v) : g.grade? v e = some (g.gr v e) := by
  unfold Grader.grade? Grader.gr
  have := h.len v
  rw [List.getD_eq_getElem?_getD, List.getElem?_eq_getElem (by omega)]
  rfl

theorem maxExp (h : GraderOK g N) (v : Fin n) : g.maxExp v = N v := by
  unfold Grader.maxExp
  rw [h.len]; rfl

theorem degree (h : GraderOK g N) {t : Term n} (ht : ∀ v, t v ≤ N v) : g.degree t = some (g.deg t) := by
  unfold Grader.degree
  rw [mkTerm_some (g := fun v => g.gr v (t v)) fun v => h.grade? (ht v)]
  rfl

/-- The value of the upper bound. -/
def ub (g : Grader n) (div dom : Term n) : ℤ :=
  ∑ v, if g.signs v = 0 then 0 else g.gr v (g.optimalExp v (div v) (dom v))

theorem upperBound (h : GraderOK g N) {div dom : Term n} (h1 : ∀ v, div v ≤ dom v + 1) (h2 : ∀ v, dom v ≤ N v) :
    g.upperBound div dom = some (ub g div dom) := by
  unfold Grader.upperBound
  rw [mkTerm_some (g := fun v => if g.signs v = 0 then 0 else g.gr v (g.optimalExp v (div v) (dom v)))]
  · rfl
  · intro v
    split
    · rfl
    · apply h.grade?
      unfold Grader.optimalExp
      rw [h.maxExp]
      have := h1 v
      have := h2 v
      split
      · omega
      · split <;> split <;> omega

theorem le_optimal (h : GraderOK g N) {v : Fin n} {div dom e : ℕ} (h1 : div ≤ e) (h2 : e ≤ dom) (h3 : dom ≤ N v)
    (hs : g.signs v ≠ 0) : g.gr v e ≤ g.gr v (g.optimalExp v div dom) := by
  unfold Grader.optimalExp
  rw [h.maxExp]
  have := h.pos v
  split
  · rw [show e = div by omega]
  · split
    · rename_i hsg
      split
      · rename_i hd
        rcases Nat.lt_or_ge e dom with h4 | h4
        · exact h.up v hsg e (dom - 1) (by omega) (by omega)
        · rw [show e = N v by omega]
          exact h.upMax v hsg _ (by omega)
      · exact h.up v hsg e dom h2 (by omega)
    · rename_i hsg
      have hsg : g.signs v < 0 := by omega
      split
      · rename_i hd
        rcases Nat.lt_or_ge e dom with h4 | h4
        · rw [hd]; exact h.downMax v hsg _ (by omega)
        · rw [show e = dom by omega]
      · exact h.down v hsg div e h1 (by omega)

/-- The upper bound is an upper bound, also if one grade is replaced. -/
theorem deg_le_ub (h : GraderOK g N) {div dom t : Term n} (h1 : div ≤ t) (h2 : t ≤ dom) (h3 : ∀ v, dom v ≤ N v) :
    g.deg t ≤ ub g div dom := by
  unfold Grader.deg ub
  refine Finset.sum_le_sum fun v _ => ?_
  split
  · rename_i hs; rw [h.zero v hs]
  · rename_i hs; exact h.le_optimal (le_def.1 h1 v) (le_def.1 h2 v) (h3 v) hs

theorem deg_le_ub_sub (h : GraderOK g N) {div dom t : Term n} (h1 : div ≤ t) (h2 : t ≤ dom) (h3 : ∀ v, dom v ≤ N v)
    (v : Fin n) (hs : g.signs v ≠ 0) :
    g.deg t ≤ ub g div dom - g.gr v (g.optimalExp v (div v) (dom v)) + g.gr v (t v) := by
  unfold Grader.deg ub
  rw [← Finset.add_sum_erase _ _ (Finset.mem_univ v), ← Finset.add_sum_erase _ _ (Finset.mem_univ v), if_neg hs]
  have : ∑ w ∈ Finset.univ.erase v, g.gr w (t w) ≤
      ∑ w ∈ Finset.univ.erase v, if g.signs w = 0 then 0 else g.gr w (g.optimalExp w (div w) (dom w)) := by
    refine Finset.sum_le_sum fun v _ => ?_
    split
    · rename_i hs; rw [h.zero v hs]
    · rename_i hs; exact h.le_optimal (le_def.1 h1 v) (le_def.1 h2 v) (h3 v) hs
  omega

theorem scan (h : GraderOK g N) (v : Fin n) (x : ℤ) : ∀ (l : List ℕ), (∀ e ∈ l, e ≤ N v) →
    ∃ r, g.scan v x l = some r ∧ ∀ e, r = some e → e ∈ l ∧ g.gr v e ≤ x := by
  intro l
  induction l with
  | nil => intro _; exact ⟨none, rfl, by simp⟩
  | cons a l ih =>
    intro hl
    unfold Grader.scan
    rw [h.grade? (hl a (by simp))]
    simp only
    split
    · rename_i hx
      refine ⟨some a, rfl, fun e he => ?_⟩
      obtain rfl := Option.some.inj he
      exact ⟨by simp, hx⟩
    · obtain ⟨r, h1, h2⟩ := ih fun e he => hl e (by simp [he])
      exact ⟨r, h1, fun e he => ⟨by simp [(h2 e he).1], (h2 e he).2⟩⟩

theorem minIndex (h : GraderOK g N) (v : Fin n) (lo hi : ℕ) (x : ℤ) (hhi : hi ≤ N v) :
    ∃ r, g.minIndexLessThan v lo hi x = some r ∧ ∀ e, r = some e → lo ≤ e ∧ e ≤ hi ∧ g.gr v e ≤ x := by
  obtain ⟨r, h1, h2⟩ := h.scan v x (List.range' lo (hi + 1 - lo)) (by
    intro e he
    simp only [List.mem_range'_1] at he
    omega)
  refine ⟨r, h1, fun e he => ?_⟩
  obtain ⟨h3, h4⟩ := h2 e he
  simp only [List.mem_range'_1] at h3
  exact ⟨h3.1, by omega, h4⟩

theorem maxIndex (h : GraderOK g N) (v : Fin n) (lo hi : ℕ) (x : ℤ) (hhi : hi ≤ N v) :
    ∃ r, g.maxIndexLessThan v lo hi x = some r ∧ ∀ e, r = some e → lo ≤ e ∧ e ≤ hi ∧ g.gr v e ≤ x := by
  obtain ⟨r, h1, h2⟩ := h.scan v x (List.range' lo (hi + 1 - lo)).reverse (by
    intro e he
    simp only [List.mem_reverse, List.mem_range'_1] at he
    omega)
  refine ⟨r, h1, fun e he => ?_⟩
  obtain ⟨h3, h4⟩ := h2 e he
  simp only [List.mem_reverse, List.mem_range'_1] at h3
  exact ⟨h3.1, by omega, h4⟩

/-! ## pivots from the bound -/

theorem innerEntryPos (h : GraderOK g N) (beat u : ℤ) (v : Fin n) (div B : ℕ) (hdB : div < B) (hB : B ≤ N v) :
    ∃ e, Frobby.innerEntryPos g beat u v div B = some e ∧ e ≤ B - div ∧
      (e = 0 ∨ g.gr v (div + e - 1) ≤ beat - u + g.gr v B) := by
  unfold Frobby.innerEntryPos
  rw [h.grade? hB]
  obtain ⟨r, h1, h2⟩ := h.maxIndex v div (B - 1) (beat - u + g.gr v B) (by omega)
  simp only [h1, Option.map_some]
  match r with
  | none => exact ⟨0, rfl, by omega, Or.inl rfl⟩
  | some t =>
    obtain ⟨h3, h4, h5⟩ := h2 t rfl
    refine ⟨t - div + 1, rfl, by omega, Or.inr ?_⟩
    rwa [show div + (t - div + 1) - 1 = t by omega]

/-- The exponents left out by the inner slice are not improving. -/
theorem innerEntry (h : GraderOK g N) (beat u : ℤ) (v : Fin n) (div dom : ℕ) (hdd : div ≤ dom) (hd : dom ≤ N v) :
    ∃ e, Frobby.innerEntry g beat u v div dom = some e ∧ e ≤ dom - div ∧
      ∀ x, div ≤ x → x < div + e → g.signs v ≠ 0 ∧ u - g.gr v (g.optimalExp v div dom) + g.gr v x ≤ beat := by
  unfold Frobby.innerEntry
  have hN := h.pos v
  rw [h.maxExp]
  by_cases h1 : div = dom
  · exact ⟨0, by rw [if_pos h1], by omega, fun x h3 h4 => by omega⟩
  rw [if_neg h1]
  by_cases h2 : 0 < g.signs v
  · rw [if_pos h2]
    by_cases h3 : dom ≠ N v
    · rw [if_pos h3]
      obtain ⟨e, he, h4, h5⟩ := h.innerEntryPos beat u v div dom (by omega) hd
      refine ⟨e, he, h4, fun x hx1 hx2 => ⟨by omega, ?_⟩⟩
      have ho : g.optimalExp v div dom = dom := by
        unfold Grader.optimalExp; rw [if_neg h1, if_pos h2, h.maxExp, if_neg h3]
      rw [ho]
      have h6 := h.up v h2 x (div + e - 1) (by omega) (by omega)
      rcases h5 with h5 | h5 <;> omega
    · rw [if_neg h3]
      push Not at h3
      by_cases h4 : div = dom - 1
      · exact ⟨0, by rw [if_pos h4], by omega, fun x h3 h4 => by omega⟩
      rw [if_neg h4]
      obtain ⟨e, he, h5, h6⟩ := h.innerEntryPos beat u v div (dom - 1) (by omega) (by omega)
      refine ⟨e, he, by omega, fun x hx1 hx2 => ⟨by omega, ?_⟩⟩
      have ho : g.optimalExp v div dom = dom - 1 := by
        unfold Grader.optimalExp; rw [if_neg h1, if_pos h2, h.maxExp, if_pos h3]
      rw [ho]
      have h7 := h.up v h2 x (div + e - 1) (by omega) (by omega)
      rcases h6 with h6 | h6 <;> omega
  · rw [if_neg h2]
    by_cases h3 : g.signs v < 0
    · rw [if_pos h3]
      by_cases h4 : dom ≠ N v
      · exact ⟨0, by rw [if_pos h4], by omega, fun x h3 h4 => by omega⟩
      rw [if_neg h4]
      push Not at h4
      rw [h.grade? hd, h.grade? (by omega : div ≤ N v)]
      refine ⟨_, rfl, by split <;> omega, fun x hx1 hx2 => ⟨by omega, ?_⟩⟩
      have ho : g.optimalExp v div dom = dom := by
        unfold Grader.optimalExp; rw [if_neg h1, if_neg h2, h.maxExp, if_pos h4]
      rw [ho]
      split at hx2
      · have := h.down v h3 div x (by omega) (by omega)
        omega
      · omega
    · rw [if_neg h3]
      exact ⟨0, rfl, by omega, fun x h3 h4 => by omega⟩

theorem innerPivot (h : GraderOK g N) (beat u : ℤ) {div dom : Term n} (hdd : div ≤ dom) (hd : ∀ v, dom v ≤ N v) :
    ∃ p, Frobby.innerPivot g beat u div dom = some p ∧ p ≤ dom - div ∧
      ∀ v x, div v ≤ x → x < div v + p v → g.signs v ≠ 0 ∧ u - g.gr v (g.optimalExp v (div v) (dom v)) + g.gr v x ≤ beat := by
  choose p h1 h2 h3 using fun v => h.innerEntry beat u v (div v) (dom v) (le_def.1 hdd v) (hd v)
  exact ⟨p, mkTerm_some h1, le_def.2 fun v => h2 v, h3⟩

theorem outerEntry (h : GraderOK g N) (beat u : ℤ) (v : Fin n) (div dom : ℕ) (hdd : div ≤ dom) (hd : dom ≤ N v) :
    ∃ e, Frobby.outerEntry g beat u v div dom = some e ∧ e ≤ dom - div ∧
      (e ≠ 0 → ∀ x, div + e ≤ x → x ≤ dom → g.signs v ≠ 0 ∧ u - g.gr v (g.optimalExp v div dom) + g.gr v x ≤ beat) := by
  unfold Frobby.outerEntry
  have hN := h.pos v
  rw [h.maxExp]
  by_cases h1 : div = dom
  · exact ⟨0, by rw [if_pos h1], by omega, by simp⟩
  rw [if_neg h1]
  by_cases h3 : g.signs v < 0
  · rw [if_pos h3]
    by_cases h4 : dom = N v
    · exact ⟨0, by rw [if_pos h4], by omega, by simp⟩
    rw [if_neg h4, h.grade? (by omega : div ≤ N v)]
    obtain ⟨r, h5, h6⟩ := h.minIndex v (div + 1) dom (beat - u + g.gr v div) hd
    simp only [h5, Option.map_some]
    match r with
    | none => exact ⟨0, rfl, by omega, by simp⟩
    | some t =>
      obtain ⟨h7, h8, h9⟩ := h6 t rfl
      refine ⟨t - div, rfl, by omega, fun _ x hx1 hx2 => ⟨by omega, ?_⟩⟩
      have ho : g.optimalExp v div dom = div := by
        unfold Grader.optimalExp; rw [if_neg h1, if_neg (by omega), h.maxExp, if_neg h4]
      rw [ho]
      have := h.down v h3 t x (by omega) (by omega)
      omega
  · rw [if_neg h3]
    by_cases h2 : 0 < g.signs v
    · rw [if_pos h2]
      by_cases h4 : dom ≠ N v
      · exact ⟨0, by rw [if_pos h4], by omega, by simp⟩
      rw [if_neg h4]
      push Not at h4
      rw [h.grade? (by omega : dom - 1 ≤ N v), h.grade? hd]
      refine ⟨_, rfl, by split <;> omega, fun he x hx1 hx2 => ⟨by omega, ?_⟩⟩
      have ho : g.optimalExp v div dom = dom - 1 := by
        unfold Grader.optimalExp; rw [if_neg h1, if_pos h2, h.maxExp, if_pos h4]
      rw [ho]
      split at hx1
      · rw [show x = dom by omega]; omega
      · rename_i hc; simp [hc] at he
    · rw [if_neg h2]
      exact ⟨0, rfl, by omega, by simp⟩

theorem outerPivot (h : GraderOK g N) (beat u : ℤ) {div dom : Term n} (hdd : div ≤ dom) (hd : ∀ v, dom v ≤ N v) :
    ∀ vs : List (Fin n), ∃ q, Frobby.outerPivot g beat u div dom vs = some q ∧
      (q = 0 ∨ ∃ v e, q = single v e ∧ e ≠ 0 ∧ e ≤ dom v - div v ∧
        ∀ x, div v + e ≤ x → x ≤ dom v → g.signs v ≠ 0 ∧ u - g.gr v (g.optimalExp v (div v) (dom v)) + g.gr v x ≤ beat) := by
  intro vs
  induction vs with
  | nil => exact ⟨0, rfl, Or.inl rfl⟩
  | cons v vs ih =>
    obtain ⟨e, h1, h2, h3⟩ := h.outerEntry beat u v (div v) (dom v) (le_def.1 hdd v) (hd v)
    unfold Frobby.outerPivot
    rw [h1]
    match e, h2, h3 with
    | 0, _, _ => exact ih
    | e + 1, h2, h3 => exact ⟨_, rfl, Or.inr ⟨v, e + 1, rfl, by omega, h2, h3 (by omega)⟩⟩

end GraderOK

/-! ## the divisor and the dominator of a slice -/

/-- The exponents of the content are in the range of the grader. -/
def Bd (N : Fin n → ℕ) (s : Slice n) : Prop := ∀ v, s.multiply v + lcmOf s.ideal v ≤ N v + 1

theorem Bd.reduces {N : Fin n → ℕ} {s s' : Slice n} (h : Bd N s) (hr : Reduces s s') : Bd N s' := by
  obtain ⟨p, h1, _, _, h4⟩ := hr.ex
  intro v
  have := h v
  have := le_def.1 h4 v
  rw [h1]
  simp only [Pi.add_apply] at *
  omega

theorem content_bounds {s : Slice n} {m : Term n} (h : cval .msm s m ≠ 0) (v : Fin n) :
    s.multiply v ≤ m v ∧ m v < s.multiply v + lcmOf s.ideal v := by
  obtain ⟨h1, _, h3⟩ := cval_ne_iff.1 h
  have h4 := h3.lt_lcm v
  have h5 := le_def.1 h1 v
  simp only [Pi.sub_apply] at h4
  omega

theorem OuterSpec.reduces {k : Kind} {p : Term n} {s r : Slice n} (h : OuterSpec k p s r) : Reduces s r :=
  ⟨⟨0, by rw [h.mul]; simp, fun g hg => ⟨g, h.sublist.subset hg, by funext i; simp⟩,
    fun u hu => by simpa using (h.room u hu).1, by
      rw [add_zero]; exact lcmOf_mono fun g hg => h.sublist.subset hg⟩, h.sublist.length_le⟩

theorem clear_reduces {s : Slice n} (hn : 0 < n) : Reduces s s.clear :=
  ⟨⟨0, by simp [Slice.clear], by simp [Slice.clear], fun u hu => by
    have := hu.1 ⟨0, hn⟩
    simp [Slice.clear, lcmOf_nil] at this, le_def.2 fun i => by simp [Slice.clear, lcmOf_nil]⟩, by simp [Slice.clear]⟩

theorem clear_inv {k : Kind} {s : Slice n} (hn : 0 < n) : SliceInv k s.clear :=
  ⟨by simp [Slice.clear, Anti], by simp [Slice.clear, Anti], by simp [Slice.clear], by simp [Slice.clear],
    fun _ _ g hg => by simp [Slice.clear] at hg, Or.inl hn⟩

theorem rinv_of_empty {k : Kind} {o : Opts} {s : Slice n} (hs : SliceInv k s) (h : s.ideal = [])
    (h0 : n = 0 → s.subtract = []) : RInv k o s :=
  ⟨hs, h0, fun _ _ v => by simp [h, Slice.leastPositive], fun _ _ => Or.inl h,
    fun _ _ v => by simp [h, Slice.leastPositive]⟩

theorem clear_cval {k : Kind} {s : Slice n} (hn : 0 < n) (m : Term n) : cval k s.clear m = 0 := by
  unfold cval
  simp [Slice.clear, val_nil hn]

/-- What is known to be useless may be gone from the slice. -/
structure Prune (c : OptConfig n) (st : OptState n) (s s' : Slice n) : Prop where
  inv : SliceInv .msm s'
  red : Reduces s s'
  sub : ∀ m, cval .msm s' m ≠ 0 → cval .msm s m ≠ 0
  lost : ∀ m, cval .msm s m ≠ 0 → cval .msm s' m = 0 → st.sols ≠ [] ∧ c.grader.deg m ≤ st.toBeat

theorem Prune.trans {c : OptConfig n} {st : OptState n} {s t r : Slice n} (h1 : Prune c st s t) (h2 : Prune c st t r) :
    Prune c st s r := by
  refine ⟨h2.inv, h1.red.trans h2.red, fun m hm => h1.sub m (h2.sub m hm), fun m hm hr => ?_⟩
  by_cases ht : cval .msm t m = 0
  · exact h1.lost m hm ht
  · exact h2.lost m ht hr

theorem SimpSpec.prune {c : OptConfig n} {st : OptState n} {s t : Slice n} (h : SimpSpec .msm s t) : Prune c st s t :=
  ⟨h.inv, h.red, fun m hm => by rwa [h.cval] at hm, fun m hm ht => by rw [h.cval] at ht; exact absurd ht hm⟩

theorem getDominator_spec {s : Slice n} (hs : SliceInv .msm s) (hn : 0 < n) (o : Opts) :
    (∃ t, s.getDominator = (t, none) ∧ SimpSpec .msm s t ∧ RInv .msm o t) ∨
    (s.getDominator = (s.touchLcm, some fun v => s.multiply v + lcmOf s.ideal v - 1) ∧ ∀ v, lcmOf s.ideal v ≠ 0) := by
  unfold Slice.getDominator
  rw [hs.getLcm]
  by_cases h : ∃ v, lcmOf s.ideal v = 0
  · left
    rw [if_pos h]
    refine ⟨_, rfl, ?_, rinv_of_empty (clear_inv hn) rfl fun _ => rfl⟩
    obtain ⟨v, hv⟩ := h
    refine (SimpSpec.touch hs).trans (clear_spec hn fun u => ?_)
    by_contra hc
    have := val_lt_lcm hc v
    simp only [touchLcm_ideal] at this
    omega
  · right
    rw [if_neg h]
    exact ⟨rfl, fun v hv => h ⟨v, hv⟩⟩

theorem relevantChange_same (g : Grader n) {d1 D1 d2 D2 : Term n} (h1 : d1 = d2) (h2 : D1 = D2) :
    ∀ vs, relevantChange g d1 D1 d2 D2 vs = false := by
  intro vs
  subst h1 h2
  induction vs with
  | nil => rfl
  | cons v vs ih => unfold relevantChange; simp [ih]

theorem Reduces.deg_lt_of_relevant {s r : Slice n} (h : Reduces s r) {g : Grader n} {vs}
    (hr : relevantChange g s.multiply (fun v => s.multiply v + lcmOf s.ideal v - 1) r.multiply
      (fun v => r.multiply v + lcmOf r.ideal v - 1) vs = true) : Term.deg (lcmOf r.ideal) < Term.deg (lcmOf s.ideal) := by
  obtain ⟨p, h1, _, _, h4⟩ := h.ex
  by_contra hc
  have hle : lcmOf r.ideal ≤ lcmOf s.ideal := le_def.2 fun i => by
    have := le_def.1 h4 i
    simp only [Pi.add_apply] at this
    omega
  have heq : lcmOf r.ideal = lcmOf s.ideal := by
    funext i
    by_contra hne
    exact hc (Term.deg_lt hle (i := i) (lt_of_le_of_ne (le_def.1 hle i) hne))
  have hp : p = 0 := by
    funext i
    have := le_def.1 h4 i
    rw [heq] at this
    simp only [Pi.add_apply] at this
    simp only [Pi.zero_apply]
    omega
  rw [hp, add_zero] at h1
  rw [relevantChange_same g h1.symm (by rw [h1, heq])] at hr
  simp at hr

theorem simplifyFlag_spec {o : Opts} {s : Slice n} (hs : SliceInv .msm s) (hn : 2 ≤ n) :
    ∃ r, s.simplifyFlag .msm o = some r ∧ SimpSpec .msm s r.1 ∧ RInv .msm o r.1 := by
  obtain ⟨r, h1, h2, h3⟩ := simplifyWith_spec (o := o) hs (by omega) fun _ => hn
  have : (s.simplifyFlag .msm o).map (·.1) = s.simplifyWith .msm o := by
    unfold Slice.simplifyFlag Slice.simplifyWith
    split
    · rfl
    · split <;> rfl
  rw [h1, Option.map_eq_some_iff] at this
  obtain ⟨a, ha, rfl⟩ := this
  exact ⟨a, ha, h2, h3⟩

variable {c : OptConfig n} {N : Fin n → ℕ}

theorem boundSimplify_spec (hg : GraderOK c.grader N) {st : OptState n} (hst : st.sols ≠ []) {s : Slice n}
    (hs : SliceInv .msm s) (hb : Bd N s) (hfull : ∀ v, lcmOf s.ideal v ≠ 0) {dom : Term n}
    (hdom : dom = fun v => s.multiply v + lcmOf s.ideal v - 1) :
    ∃ r, boundSimplify c.grader st.toBeat (GraderOK.ub c.grader s.multiply dom) dom s = some r ∧
      ∀ t, r = some t → Prune c st s t := by
  have hdd : s.multiply ≤ dom := le_def.2 fun v => by
    have := hfull v
    rw [hdom]; show _ ≤ _ + _ - 1; omega
  have hdN : ∀ v, dom v ≤ N v := fun v => by
    have := hb v
    rw [hdom]; show _ + _ - 1 ≤ _; omega
  have hcont : ∀ m, cval .msm s m ≠ 0 → s.multiply ≤ m ∧ m ≤ dom := fun m hm =>
    ⟨le_def.2 fun v => (content_bounds hm v).1, le_def.2 fun v => by
      have := content_bounds hm v
      rw [hdom]; show _ ≤ _ + _ - 1; omega⟩
  unfold boundSimplify
  obtain ⟨p, h1, h2, h3⟩ := hg.innerPivot st.toBeat (GraderOK.ub c.grader s.multiply dom) hdd hdN
  simp only [h1]
  split
  · refine ⟨_, rfl, fun t ht => ?_⟩
    obtain rfl := Option.some.inj ht
    have hi := inner_spec hs p
    refine ⟨hi.inv, hi.reduces (le_def.2 fun v => ?_), fun m hm => ?_, fun m hm hz => ⟨hst, ?_⟩⟩
    · have := le_def.1 h2 v
      rw [hdom] at this
      simp only [Pi.sub_apply] at this
      omega
    · rw [hi.cval] at hm
      split at hm
      · exact hm
      · exact absurd rfl hm
    · rw [hi.cval] at hz
      split at hz
      · exact absurd hz hm
      · rename_i hn
        rw [le_def] at hn
        push Not at hn
        obtain ⟨v, hv⟩ := hn
        obtain ⟨h4, h5⟩ := hcont m hm
        obtain ⟨h6, h7⟩ := h3 v (m v) (le_def.1 h4 v) hv
        have := hg.deg_le_ub_sub h4 h5 hdN v h6
        omega
  · obtain ⟨q, h4, h5⟩ := hg.outerPivot st.toBeat (GraderOK.ub c.grader s.multiply dom) hdd hdN (List.finRange n)
    simp only [h4]
    split
    · rename_i hq
      refine ⟨_, rfl, fun t ht => ?_⟩
      obtain rfl := Option.some.inj ht
      have ho := outer_spec hs hq
      refine ⟨ho.inv, ho.reduces, fun m hm => ?_, fun m hm hz => ⟨hst, ?_⟩⟩
      · rw [ho.cval] at hm
        split at hm
        · exact absurd rfl hm
        · exact hm
      · rw [ho.cval] at hz
        split at hz
        · rename_i hle
          rcases h5 with h5 | ⟨v, e, h5, _, h6, h7⟩
          · exact absurd h5 hq
          obtain ⟨h8, h9⟩ := hcont m hm
          have hle := le_def.1 hle v
          rw [h5] at hle
          simp only [Pi.add_apply, single_same] at hle
          obtain ⟨h10, h11⟩ := h7 (m v) hle (le_def.1 h9 v)
          have := hg.deg_le_ub_sub h8 h9 hdN v h10
          omega
        · exact absurd hz hm
    · exact ⟨_, rfl, by simp⟩

theorem prune_clear (hg : GraderOK c.grader N) {st : OptState n} (hst : st.sols ≠ []) {s : Slice n} (hn : 0 < n)
    {dom : Term n} (hdN : ∀ v, dom v ≤ N v) (hc : ∀ m, cval .msm s m ≠ 0 → m ≤ dom)
    (hub : GraderOK.ub c.grader s.multiply dom ≤ st.toBeat) : Prune c st s s.clear := by
  refine ⟨clear_inv hn, clear_reduces hn, fun m hm => absurd (clear_cval hn m) hm, fun m hm _ => ⟨hst, ?_⟩⟩
  exact (hg.deg_le_ub (le_def.2 fun v => (content_bounds hm v).1) (hc m hm) hdN).trans hub

theorem loop_eliminate (hg : GraderOK c.grader N) (hn : 2 ≤ n) {st : OptState n} (hst : st.sols ≠ [])
    (hbd : c.bound = .eliminate) {dom : Term n} (hdN : ∀ v, dom v ≤ N v) :
    ∀ (fuel : ℕ) (first : Bool) (s : Slice n), SliceInv .msm s → (∀ v, s.multiply v + lcmOf s.ideal v ≤ dom v + 1) →
      (if first then 2 else 1) ≤ fuel →
      ∃ r, optSimplifyLoop c st fuel first dom s = some r ∧ Prune c st s r ∧ RInv .msm c.opts r := by
  intro fuel
  induction fuel with
  | zero => intro first s _ _ h; split at h <;> omega
  | succ fuel ih =>
    intro first s hs hb hf
    unfold optSimplifyLoop
    rw [hg.upperBound (fun v => by have := hb v; omega) hdN]
    simp only
    split
    · rename_i hub
      refine ⟨_, rfl, prune_clear hg hst (by omega) hdN (fun m hm => le_def.2 fun v => ?_) hub,
        rinv_of_empty (clear_inv (by omega)) rfl fun _ => rfl⟩
      have := content_bounds hm v
      have := hb v
      omega
    · obtain ⟨r, h1, h2, h3⟩ := simplifyFlag_spec (o := c.opts) hs hn
      simp only [h1]
      split
      · rename_i hfst
        simp only [Bool.and_eq_true] at hfst
        rw [hfst.1] at hf
        obtain ⟨q, hq1, hq2, hq3⟩ := ih false r.1 h2.inv (by
          obtain ⟨p, h4, _, _, h5⟩ := h2.red.ex
          intro v
          have := hb v
          have := le_def.1 h5 v
          rw [h4]
          simp only [Pi.add_apply] at *
          omega) (by simp at hf ⊢; omega)
        exact ⟨q, hq1, h2.prune.trans hq2, hq3⟩
      · exact ⟨_, rfl, h2.prune, h3⟩

theorem loop_simplify (hg : GraderOK c.grader N) (hn : 2 ≤ n) {st : OptState n} (hst : st.sols ≠ [])
    (hbd : c.bound ≠ .eliminate) :
    ∀ (fuel : ℕ) (first : Bool) (dom : Term n) (s : Slice n), SliceInv .msm s → Bd N s → (∀ v, lcmOf s.ideal v ≠ 0) →
      (dom = fun v => s.multiply v + lcmOf s.ideal v - 1) → Term.deg (lcmOf s.ideal) < fuel →
      ∃ r, optSimplifyLoop c st fuel first dom s = some r ∧ Prune c st s r ∧ RInv .msm c.opts r := by
  intro fuel
  induction fuel with
  | zero => intro first dom s _ _ _ _ h; omega
  | succ fuel ih =>
    intro first dom s hs hb hfull hdom hf
    have hdN : ∀ v, dom v ≤ N v := fun v => by
      have := hb v
      rw [hdom]; show _ + _ - 1 ≤ _; omega
    unfold optSimplifyLoop
    rw [hg.upperBound (fun v => by have := hfull v; rw [hdom]; show _ ≤ _ + _ - 1 + 1; omega) hdN]
    simp only
    split
    · rename_i hub
      refine ⟨_, rfl, prune_clear hg hst (by omega) hdN (fun m hm => le_def.2 fun v => ?_) hub,
        rinv_of_empty (clear_inv (by omega)) rfl fun _ => rfl⟩
      have := content_bounds hm v
      rw [hdom]; show _ ≤ _ + _ - 1; omega
    · -- going on with the loop
      have hnext : ∀ t : Slice n, Prune c st s t → (∀ v, lcmOf t.ideal v ≠ 0) →
          relevantChange c.grader s.multiply dom t.multiply (fun v => t.multiply v + lcmOf t.ideal v - 1)
            (List.finRange n) = true →
          ∃ r, optSimplifyLoop c st fuel false (fun v => t.multiply v + lcmOf t.ideal v - 1) t.touchLcm = some r ∧
            Prune c st s r ∧ RInv .msm c.opts r := by
        intro t ht hfull' hrel
        rw [hdom] at hrel
        have hlt := ht.red.deg_lt_of_relevant hrel
        obtain ⟨r, h1, h2, h3⟩ := ih false (fun v => t.multiply v + lcmOf t.ideal v - 1) t.touchLcm
          (touchLcm_inv ht.inv) (show Bd N t from hb.reduces ht.red) hfull' rfl (by simp only [touchLcm_ideal]; omega)
        exact ⟨r, h1, (ht.trans (SimpSpec.touch ht.inv).prune).trans h2, h3⟩
      -- lines 142-153
      have hrest : ∀ t : Slice n, Prune c st s t → ∃ r,
          (match t.simplifyFlag .msm c.opts with
          | none => none
          | some (r, false) => some r
          | some (r, true) =>
            match r.getDominator with
            | (r, none) => some r
            | (r, some dom') =>
              if relevantChange c.grader s.multiply dom r.multiply dom' (List.finRange n) then
                optSimplifyLoop c st fuel false dom' r
              else some r) = some r ∧ Prune c st s r ∧ RInv .msm c.opts r := by
        intro t ht
        obtain ⟨⟨r, f⟩, h1, h2, h3⟩ := simplifyFlag_spec (o := c.opts) ht.inv hn
        simp only [h1]
        have hr := ht.trans (h2.prune (c := c) (st := st))
        cases f with
        | false => exact ⟨_, rfl, hr, h3⟩
        | true =>
          simp only
          rcases getDominator_spec h2.inv (by omega) c.opts with ⟨q, h4, h5, h6⟩ | ⟨h4, h5⟩
          · simp only [h4]
            exact ⟨_, rfl, hr.trans h5.prune, h6⟩
          · simp only [h4]
            split
            · rename_i hrel
              exact hnext r hr h5 hrel
            · exact ⟨_, rfl, hr.trans (SimpSpec.touch h2.inv).prune, touch_rinv h3⟩
      obtain ⟨q, hq, hqp⟩ := boundSimplify_spec hg hst hs hb hfull hdom
      simp only [hq]
      match q, hqp with
      | none, _ => exact hrest s (SimpSpec.refl hs).prune
      | some t, hqp =>
        have ht := hqp t rfl
        simp only
        rcases getDominator_spec ht.inv (by omega) c.opts with ⟨q, h4, h5, h6⟩ | ⟨h4, h5⟩
        · simp only [h4]
          exact ⟨_, rfl, ht.trans h5.prune, h6⟩
        · simp only [h4]
          split
          · rename_i hrel
            exact hnext t ht h5 hrel
          · exact hrest t.touchLcm (ht.trans (SimpSpec.touch ht.inv).prune)

theorem optSimplify_spec (hg : GraderOK c.grader N) (hn : 2 ≤ n) (st : OptState n) {s : Slice n} (hs : SliceInv .msm s)
    (hb : Bd N s) : ∃ r, optSimplify c st s = some r ∧ Prune c st s r ∧ RInv .msm c.opts r := by
  unfold optSimplify
  split
  · rename_i he
    exact ⟨_, rfl, (SimpSpec.refl hs).prune, rinv_of_empty hs (by simpa using he) (by omega)⟩
  · split
    · obtain ⟨r, h1, h2, h3⟩ := simplifyWith_spec (o := c.opts) hs (by omega) fun _ => hn
      exact ⟨r, h1, h2.prune, h3⟩
    · rename_i hc
      push Not at hc
      rcases getDominator_spec hs (by omega) c.opts with ⟨q, h4, h5, h6⟩ | ⟨h4, h5⟩
      · simp only [h4]
        exact ⟨_, rfl, h5.prune, h6⟩
      · simp only [h4]
        by_cases hbd : c.bound = .eliminate
        · obtain ⟨r, h6, h7, h8⟩ := loop_eliminate hg hn hc.2 hbd (dom := fun v => s.multiply v + lcmOf s.ideal v - 1)
            (fun v => by have := hb v; show _ + _ - 1 ≤ _; omega) (Term.deg (lcmOf s.touchLcm.ideal) + 2) true s.touchLcm
            (touchLcm_inv hs) (fun v => by
              simp only [touchLcm_ideal, touchLcm_multiply]; omega) (by simp)
          exact ⟨r, h6, (SimpSpec.touch hs).prune.trans h7, h8⟩
        · obtain ⟨r, h6, h7, h8⟩ := loop_simplify hg hn hc.2 hbd (Term.deg (lcmOf s.touchLcm.ideal) + 2) true
            (fun v => s.multiply v + lcmOf s.ideal v - 1) s.touchLcm (touchLcm_inv hs) hb h5 rfl (by omega)
          exact ⟨r, h6, (SimpSpec.touch hs).prune.trans h7, h8⟩

theorem optSimplify_start {s : Slice n} (hs : SliceInv .msm s) (hS : s.subtract = [])
    (h1 : n = 1 → c.opts.simp = false → c.opts.split.isLabel = false → ∀ v, Slice.leastPositive s.ideal v ≤ 1) :
    ∃ r, optSimplify c (OptState.init n) s = some r ∧ SimpSpec .msm s r ∧ RInv .msm c.opts r := by
  unfold optSimplify
  split
  · rename_i he
    exact ⟨_, rfl, SimpSpec.refl hs, rinv_of_empty hs (by simpa using he) fun _ => hS⟩
  · rw [if_pos (Or.inr (by rfl))]
    exact simplifyWith_start hs hS (by simp) fun _ => h1

/-! ## splits -/

theorem degreeLoop_spec {g : Grader n} (hg : GraderOK g N) {mul lcm : Term n} (hb : ∀ v, mul v + lcm v ≤ N v + 1) :
    ∀ (vs : List (Fin n)) (off : Fin n) (maxDiff : ℤ), (2 ≤ lcm off ∨ (maxDiff = -1 ∧ ∃ v ∈ vs, 2 ≤ lcm v)) →
      ∃ v, degreeLoop g mul lcm vs off maxDiff = some v ∧ 2 ≤ lcm v := by
  intro vs
  induction vs with
  | nil =>
    intro off maxDiff h
    refine ⟨off, rfl, ?_⟩
    simpa using h
  | cons v vs ih =>
    intro off maxDiff h
    unfold degreeLoop
    by_cases h1 : lcm v ≤ 1
    · rw [if_pos h1]
      apply ih
      rcases h with h | ⟨h, w, hw, h2⟩
      · exact Or.inl h
      · rcases List.mem_cons.1 hw with rfl | hw
        · omega
        · exact Or.inr ⟨h, w, hw, h2⟩
    · rw [if_neg h1]
      simp only
      have hbv := hb v
      rw [hg.maxExp]
      set mid := (if mul v + lcm v / 2 = N v ∧ mul v < mul v + lcm v / 2 then mul v + lcm v / 2 - 1 else mul v + lcm v / 2)
        with hmid
      have hm1 : mul v ≤ mid ∧ mid < N v := by
        rw [hmid]
        split <;> omega
      rw [hg.grade? (by omega : mid ≤ N v), hg.grade? (by omega : mul v ≤ N v)]
      simp only
      have hdiff : 0 ≤ if g.signs v < 0 then -(g.gr v mid - g.gr v (mul v)) else g.gr v mid - g.gr v (mul v) := by
        split
        · rename_i hs
          have := hg.down v hs (mul v) mid hm1.1 hm1.2
          omega
        · rename_i hs
          rcases lt_trichotomy (g.signs v) 0 with h2 | h2 | h2
          · omega
          · rw [hg.zero v h2, hg.zero v h2]; simp
          · have := hg.up v h2 (mul v) mid hm1.1 hm1.2
            omega
      generalize (if g.signs v < 0 then -(g.gr v mid - g.gr v (mul v)) else g.gr v mid - g.gr v (mul v)) = diff at hdiff ⊢
      split
      · exact ih v _ (Or.inl (by omega))
      · apply ih
        rcases h with h | ⟨h, _⟩
        · exact Or.inl h
        · omega

theorem optPivot_spec (hg : GraderOK c.grader N) (hl : c.opts.split.isLabel = false) (rnd : ℕ → ℕ) {s : Slice n}
    (hs : SliceInv .msm s) (hb : Bd N s) (hnb : NonBase .msm s) :
    ∃ p, optPivot c rnd s = some p ∧ ValidPivot s.ideal p := by
  unfold optPivot
  rw [hs.getLcm]
  split
  · unfold degreePivot
    rw [dif_pos hnb.pos]
    have hex : ∃ v, 2 ≤ lcmOf s.ideal v := by
      by_contra hc
      push Not at hc
      exact hnb.nsq fun v => by have := hc v; omega
    obtain ⟨w, hw⟩ := hex
    obtain ⟨v, h1, h2⟩ := degreeLoop_spec hg hb (List.finRange n) ⟨0, hnb.pos⟩ (-1)
      (Or.inr ⟨rfl, w, List.mem_finRange w, hw⟩)
    exact ⟨_, by rw [h1]; rfl, validPivot_single (by omega) (by omega)⟩
  · rename_i hd
    exact getPivot_spec hl hd rnd hnb.nsq

/-- The slices that a slice is split into have its content, but for what is known to be useless. -/
structure OptSplit (c : OptConfig n) (N : Fin n → ℕ) (st : OptState n) (s : Slice n) (r : Slice n × Option (Slice n)) : Prop where
  first : RInv .msm c.opts r.1 ∧ Bd N r.1 ∧ roomCard r.1 < roomCard s
  second : ∀ b, r.2 = some b → RInv .msm c.opts b ∧ Bd N b ∧ roomCard b < roomCard s
  subFirst : ∀ m, cval .msm r.1 m ≠ 0 → cval .msm s m ≠ 0
  subSecond : ∀ b, r.2 = some b → ∀ m, cval .msm b m ≠ 0 → cval .msm s m ≠ 0 ∧ cval .msm r.1 m = 0
  lost : ∀ m, cval .msm s m ≠ 0 → cval .msm r.1 m = 0 → (∀ b, r.2 = some b → cval .msm b m = 0) →
    st.sols ≠ [] ∧ c.grader.deg m ≤ st.toBeat

theorem labelSplit_bd {s : Slice n} (hs : SliceInv .msm s) (hnb : NonBase .msm s) (hb : Bd N s) {v : Fin n}
    (hv : ValidLabel s.ideal v) : Bd N (s.labelSplit .msm v).1 ∧ ∀ b, (s.labelSplit .msm v).2 = some b → Bd N b := by
  have hx : ∀ p, p ≤ lcmOf s.ideal → Bd N (s.inner .msm p).1 := fun p hp => hb.reduces ((inner_spec hs p).reduces hp)
  have hx1 : Bd N (s.inner .msm (single v 1)).1 := hx _ ((single_le_iff).2 (Nat.pos_of_ne_zero (hnb.full v)))
  have hg : ∀ g ∈ labels s v, Bd N (s.inner .msm (g - single v 1)).1 := fun g hg => hx _ <| le_def.2 fun i => by
    have := le_def.1 (le_lcmOf ((mem_labels hs).1 hg).1) i
    simp only [Pi.sub_apply]; omega
  unfold Slice.labelSplit
  split
  · exact ⟨hx1, by simp⟩
  · rename_i g hL
    refine ⟨hx1, fun b hb' => ?_⟩
    obtain rfl := Option.some.inj hb'
    exact hg g (by rw [hL]; simp)
  · rename_i g a l hL
    refine ⟨?_, fun b hb' => ?_⟩
    · have h0 : g - single v 1 ≠ 0 := by
        intro h
        obtain ⟨h1, h2, _⟩ := (mem_labels hs).1 (show g ∈ labels s v by rw [hL]; simp)
        apply hv.1
        have : g = single v 1 := by
          funext i
          have := congrFun h i
          simp only [Pi.sub_apply, Pi.zero_apply] at this
          by_cases hi : i = v
          · subst hi; simpa using h2
          · rw [single_ne _ hi] at this ⊢; omega
        rw [← this]; exact h1
      exact hb.reduces (outer_spec hs h0).reduces
    · obtain rfl := Option.some.inj hb'
      exact hg g (by rw [hL]; simp)

/-- Two slices simplified. -/
theorem optSplit_of {st : OptState n} {s a b a' b' : Slice n} (hba : Bd N a) (hbb : Bd N b) (hra : roomCard a < roomCard s)
    (hrb : roomCard b < roomCard s) (hc : ∀ m, cval .msm s m = cval .msm a m + cval .msm b m)
    (hd : ∀ m, cval .msm a m = 0 ∨ cval .msm b m = 0) (ha : Prune c st a a') (hb : Prune c st b b')
    (ha' : RInv .msm c.opts a') (hb' : RInv .msm c.opts b') : OptSplit c N st s (a', some b') := by
  refine ⟨⟨ha', hba.reduces ha.red, lt_of_le_of_lt ha.red.roomCard_le hra⟩, fun x hx => ?_, fun m hm => ?_,
    fun x hx m hm => ?_, fun m hm h1 h2 => ?_⟩
  · obtain rfl := Option.some.inj hx
    exact ⟨hb', hbb.reduces hb.red, lt_of_le_of_lt hb.red.roomCard_le hrb⟩
  · have := ha.sub m hm
    rw [hc]
    rcases hd m with h | h
    · exact absurd h this
    · rwa [h, add_zero]
  · obtain rfl := Option.some.inj hx
    have := hb.sub m hm
    rw [hc]
    rcases hd m with h | h
    · rw [h, zero_add]
      refine ⟨this, ?_⟩
      by_contra hne
      exact ha.sub m hne h
    · exact absurd h this
  · have h2 := h2 b' rfl
    rw [hc] at hm
    rcases hd m with h | h
    · rw [h, zero_add] at hm
      exact hb.lost m hm h2
    · rw [h, add_zero] at hm
      exact ha.lost m hm h1

theorem optChildren_spec (hg : GraderOK c.grader N) (st : OptState n) {s : Slice n} (hs : RInv .msm c.opts s)
    (hb : Bd N s) (hnb : NonBase .msm s) (rnd : ℕ → ℕ) :
    ∃ r, s.optChildren c st rnd = some r ∧ OptSplit c N st s r := by
  have hn := hnb.two rfl
  unfold Slice.optChildren
  by_cases hlab : c.opts.split.isLabel = true
  · rw [if_pos hlab]
    obtain ⟨v, hv, hvl⟩ := labelVar_spec hlab hs.inv.antiI hn hnb.full (hs.lab hlab hn) hnb.nsq (hnb.len rfl)
    simp only [hv]
    obtain ⟨h1, h2, h3, h4⟩ := labelSplit_spec hs.inv hnb hvl rfl
    obtain ⟨hb1, hb2⟩ := labelSplit_bd hs.inv hnb hb hvl
    match hc : s.labelSplit .msm v with
    | (a, none) =>
      rw [hc] at h1 h2 h4 hb1
      obtain ⟨r, hr, hr1, hr2⟩ := optSimplify_spec hg hn st h1 hb1
      simp only at hr
      refine ⟨(r, none), by simp [hr], ⟨hr2, hb1.reduces hr1.red, lt_of_le_of_lt hr1.red.roomCard_le h2⟩, by simp,
        fun m hm => ?_, by simp, fun m hm h5 _ => ?_⟩
      · have := hr1.sub m hm
        rw [h4]; simpa using this
      · rw [h4] at hm
        exact hr1.lost m (by simpa using hm) h5
    | (a, some b) =>
      rw [hc] at h1 h2 h3 h4 hb1 hb2
      obtain ⟨h5, h6⟩ := h3 b rfl
      obtain ⟨r, hr, hr1, hr2⟩ := optSimplify_spec hg hn st h1 hb1
      obtain ⟨t, ht, ht1, ht2⟩ := optSimplify_spec hg hn st h5 (hb2 b rfl)
      refine ⟨(r, some t), by simp only at hr ht; simp only [hr, ht], optSplit_of hb1 (hb2 b rfl) h2 h6 h4 (fun m => ?_)
        hr1 ht1 hr2 ht2⟩
      have h7 := h4 m
      simp only at h7 ⊢
      rcases cval_msm_zero_or_one s m with h8 | h8 <;> rcases cval_msm_zero_or_one a m with h9 | h9 <;>
        rcases cval_msm_zero_or_one b m with h10 | h10 <;> omega
  · rw [if_neg hlab]
    obtain ⟨p, hp, hpv⟩ := optPivot_spec hg (by simpa using hlab) rnd hs.inv hb hnb
    simp only [hp]
    have hi := inner_spec hs.inv p
    have hout := outer_spec hs.inv hpv.1
    have hri := hi.roomCard_lt hpv.1 (hnb.room_zero hs.inv)
    have hro := hout.roomCard_lt (hpv.room hs.inv hnb)
    have hple : p ≤ lcmOf s.ideal := by
      obtain ⟨_, g, hg, hd⟩ := hpv
      exact hd.le.trans (le_lcmOf hg)
    have hbi := hb.reduces (hi.reduces hple)
    have hbo := hb.reduces hout.reduces
    obtain ⟨r, hr, hr1, hr2⟩ := optSimplify_spec hg hn st hi.inv hbi
    obtain ⟨t, ht, ht1, ht2⟩ := optSimplify_spec hg hn st hout.inv hbo
    simp only [hr, ht]
    split
    · exact ⟨_, rfl, optSplit_of hbi hbo hri hro (pivot_cval hi hout) (pivot_disj hi hout) hr1 ht1 hr2 ht2⟩
    · exact ⟨_, rfl, optSplit_of hbo hbi hro hri (fun m => by rw [pivot_cval hi hout, add_comm])
        (fun m => (pivot_disj hi hout m).symm) ht1 hr1 ht2 hr2⟩

/-! ## the state -/

/-- The states that can occur. -/
def Good (c : OptConfig n) (st : OptState n) : Prop :=
  (st.sols = [] ∧ st.maxValue = 0 ∧ st.toBeat = 0) ∨
  (st.sols ≠ [] ∧ (∀ t ∈ st.sols, c.grader.deg t = st.maxValue) ∧ st.sols.Nodup ∧
    (c.all = false → st.toBeat = st.maxValue ∧ st.sols.length = 1) ∧
    (c.all = true → st.toBeat = st.maxValue - 1 ∨ (st.maxValue = 0 ∧ st.toBeat = 0)))

/-- The state after the terms in `C` have been looked at. -/
structure Adv (c : OptConfig n) (C : Term n → Prop) (st st' : OptState n) : Prop where
  good : Good c st'
  sub : ∀ t ∈ st'.sols, t ∈ st.sols ∨ C t
  mono : st.sols ≠ [] → st'.sols ≠ [] ∧ st.toBeat ≤ st'.toBeat
  cover : ∀ t, t ∈ st.sols ∨ C t → t ∈ st'.sols ∨ (st'.sols ≠ [] ∧ c.grader.deg t ≤ st'.toBeat)

theorem Adv.refl {st : OptState n} (h : Good c st) : Adv c (fun _ => False) st st :=
  ⟨h, fun t ht => Or.inl ht, fun h => ⟨h, le_rfl⟩, fun t ht => Or.inl (by simpa using ht)⟩

theorem Adv.trans {A B : Term n → Prop} {st st1 st2 : OptState n} (h1 : Adv c A st st1) (h2 : Adv c B st1 st2) :
    Adv c (fun t => A t ∨ B t) st st2 := by
  refine ⟨h2.good, fun t ht => ?_, fun h => ?_, fun t ht => ?_⟩
  · rcases h2.sub t ht with h | h
    · rcases h1.sub t h with h | h
      · exact Or.inl h
      · exact Or.inr (Or.inl h)
    · exact Or.inr (Or.inr h)
  · obtain ⟨h3, h4⟩ := h1.mono h
    obtain ⟨h5, h6⟩ := h2.mono h3
    exact ⟨h5, h4.trans h6⟩
  · have : t ∈ st1.sols ∨ (st1.sols ≠ [] ∧ c.grader.deg t ≤ st1.toBeat) ∨ B t := by
      rcases ht with h | h | h
      · rcases h1.cover t (Or.inl h) with h | h
        · exact Or.inl h
        · exact Or.inr (Or.inl h)
      · rcases h1.cover t (Or.inr h) with h | h
        · exact Or.inl h
        · exact Or.inr (Or.inl h)
      · exact Or.inr (Or.inr h)
    rcases this with h | ⟨h, h'⟩ | h
    · exact h2.cover t (Or.inl h)
    · obtain ⟨h5, h6⟩ := h2.mono h
      exact Or.inr ⟨h5, h'.trans h6⟩
    · exact h2.cover t (Or.inr h)

theorem Adv.congr {A B : Term n → Prop} {st st' : OptState n} (h : Adv c A st st') (hAB : ∀ t, A t → B t)
    (hBA : ∀ t, B t → A t ∨ (st.sols ≠ [] ∧ c.grader.deg t ≤ st.toBeat)) : Adv c B st st' := by
  refine ⟨h.good, fun t ht => (h.sub t ht).imp_right (hAB t), h.mono, fun t ht => ?_⟩
  rcases ht with ht | ht
  · exact h.cover t (Or.inl ht)
  · rcases hBA t ht with h1 | ⟨h1, h2⟩
    · exact h.cover t (Or.inr h1)
    · obtain ⟨h3, h4⟩ := h.mono h1
      exact Or.inr ⟨h3, h2.trans h4⟩

theorem optConsume_spec (hg : GraderOK c.grader N) {st : OptState n} (hst : Good c st) {t : Term n} (ht : ∀ v, t v ≤ N v)
    (hnew : t ∉ st.sols) : ∃ st', optConsume c st t = some st' ∧ Adv c (fun x => x = t) st st' := by
  unfold optConsume
  rw [hg.degree ht]
  simp only
  by_cases h1 : (st.sols.isEmpty || decide (st.toBeat < c.grader.deg t)) = true
  · rw [if_pos h1]
    by_cases h2 : (c.all && decide (c.grader.deg t = st.maxValue)) = true
    · rw [if_pos h2]
      simp only [Bool.and_eq_true, decide_eq_true_eq] at h2
      refine ⟨_, rfl, Or.inr ⟨by simp, ?_, ?_, ?_, ?_⟩, ?_, ?_, ?_⟩
      · intro x hx
        simp only [List.mem_append, List.mem_singleton] at hx
        rcases hx with hx | hx
        · rcases hst with h | h
          · rw [h.1] at hx; simp at hx
          · exact h.2.1 x hx
        · rw [hx]; exact h2.2
      · simp only
        rw [List.nodup_append]
        refine ⟨?_, by simp, ?_⟩
        · rcases hst with h | h
          · rw [h.1]; simp
          · exact h.2.2.1
        · intro a ha b hb
          simp only [List.mem_singleton] at hb
          rintro rfl
          rw [hb] at ha
          exact hnew ha
      · intro h; rw [h] at h2; simp at h2
      · intro _
        rcases hst with h | h
        · exact Or.inr h.2
        · exact h.2.2.2.2 h2.1
      · intro x hx
        simpa using hx
      · intro _
        exact ⟨by simp, le_rfl⟩
      · intro x hx
        left
        simpa using hx
    · rw [if_neg h2]
      refine ⟨_, rfl, Or.inr ⟨by simp, by simp, by simp, ?_, ?_⟩, ?_, ?_, ?_⟩
      · intro h; simp [h]
      · intro h; left; simp [h]
      · intro x hx
        simp only [List.mem_singleton] at hx
        exact Or.inr hx
      · intro hne
        refine ⟨by simp, ?_⟩
        have : st.toBeat < c.grader.deg t := by
          simp only [Bool.or_eq_true, List.isEmpty_iff, decide_eq_true_eq] at h1
          exact h1.resolve_left hne
        simp only
        split <;> omega
      · intro x hx
        rcases hx with hx | hx
        · right
          refine ⟨by simp, ?_⟩
          rcases hst with h | ⟨h3, h4, h5, h6, h7⟩
          · rw [h.1] at hx; simp at hx
          · have : st.toBeat < c.grader.deg t := by
              simp only [Bool.or_eq_true, List.isEmpty_iff, decide_eq_true_eq] at h1
              exact h1.resolve_left h3
            rw [h4 x hx]
            simp only [Bool.and_eq_true, decide_eq_true_eq] at h2
            cases hall : c.all with
            | false =>
              have := (h6 hall).1
              simp only [Bool.false_eq_true, if_false]
              omega
            | true =>
              have h8 : c.grader.deg t ≠ st.maxValue := fun h => h2 ⟨hall, h⟩
              simp only [if_true]
              rcases h7 hall with h9 | h9 <;> omega
        · left; simp [hx]
  · rw [if_neg h1]
    simp only [Bool.or_eq_true, List.isEmpty_iff, decide_eq_true_eq, not_or] at h1
    refine ⟨_, rfl, hst, fun x hx => Or.inl hx, fun h => ⟨h, le_rfl⟩, fun x hx => ?_⟩
    rcases hx with hx | rfl
    · exact Or.inl hx
    · exact Or.inr ⟨h1.1, by omega⟩

theorem optConsume_all (hg : GraderOK c.grader N) : ∀ (outs : List (Term n)) (st : OptState n), Good c st →
    (∀ t ∈ outs, ∀ v, t v ≤ N v) → outs.Nodup → (∀ t ∈ outs, t ∉ st.sols) →
    ∃ st', outs.foldlM (optConsume c) st = some st' ∧ Adv c (fun x => x ∈ outs) st st' := by
  intro outs
  induction outs with
  | nil => intro st h _ _ _; exact ⟨st, rfl, by simpa using Adv.refl h⟩
  | cons t ts ih =>
    intro st hst hN hnd hnew
    obtain ⟨st1, h1, h2⟩ := optConsume_spec hg hst (hN t (by simp)) (hnew t (by simp))
    rw [List.nodup_cons] at hnd
    obtain ⟨st2, h3, h4⟩ := ih st1 h2.good (fun x hx => hN x (by simp [hx])) hnd.2 (fun x hx hx1 => by
      rcases h2.sub x hx1 with h | rfl
      · exact hnew x (by simp [hx]) h
      · exact hnd.1 hx)
    refine ⟨st2, ?_, ?_⟩
    · rw [List.foldlM_cons, h1]
      exact h3
    · have := h2.trans h4
      refine this.congr (fun x hx => ?_) (fun x hx => Or.inl ?_)
      · rcases hx with rfl | hx
        · simp
        · simp [hx]
      · simpa using hx

/-- The state after a slice has been processed. -/
theorem optProcess_spec (hg : GraderOK c.grader N) (rnd : List ℕ → ℕ → ℕ) :
    ∀ (fuel : ℕ) (path : List ℕ) (st : OptState n) (s : Slice n), RInv .msm c.opts s → Bd N s → roomCard s < fuel →
      Good c st → (∀ t ∈ st.sols, cval .msm s t = 0) →
      ∃ st', optProcess c rnd fuel path st s = some st' ∧ Adv c (fun t => cval .msm s t ≠ 0) st st' := by
  intro fuel
  induction fuel with
  | zero => intro path st s _ _ h; omega
  | succ fuel ih =>
    intro path st s hs hb hf hst hdisj
    unfold optProcess
    match hbase : s.msmBaseCase c.opts.simp with
    | some outs =>
      have he := msmBaseCase_spec ⟨hs.inv, hs.zero, hs.one rfl, hs.fix⟩ hbase
      obtain ⟨st', h1, h2⟩ := optConsume_all hg outs st hst (fun t ht v => by
        have h3 := content_bounds ((he.mem_iff t).1 ht) v
        have := hb v
        omega) he.nodup (fun t ht hts => (he.mem_iff t).1 ht (hdisj t hts))
      exact ⟨st', h1, h2.congr (fun t ht => (he.mem_iff t).1 ht) fun t ht => Or.inl ((he.mem_iff t).2 ht)⟩
    | none =>
      have hnb : NonBase .msm s := nonBase (o := c.opts) hs (by simp [Slice.baseCase, hbase])
      obtain ⟨r, hr, hsp⟩ := optChildren_spec hg st (touch_rinv hs) hb (touch_nonBase hnb) (rnd path)
      have hroom : roomCard s.touchLcm = roomCard s := rfl
      have hcv : cval .msm s.touchLcm = cval .msm s := cval_touchLcm _ s
      simp only [hr]
      obtain ⟨h1, h2, h3⟩ := hsp.first
      obtain ⟨st1, ha1, ha2⟩ := ih (0 :: path) st r.1 h1 h2 (by omega) hst fun t ht => by
        by_contra hc
        have := hsp.subFirst t hc
        rw [hcv] at this
        exact this (hdisj t ht)
      match r, hsp with
      | (a, none), hsp =>
        simp only at ha1 ha2 ⊢
        refine ⟨st1, ha1, ha2.congr (fun t ht => by rw [← hcv]; exact hsp.subFirst t ht) fun t ht => ?_⟩
        by_cases hz : cval .msm a t = 0
        · rw [← hcv] at ht
          exact Or.inr (hsp.lost t ht hz (by simp))
        · exact Or.inl hz
      | (a, some b), hsp =>
        simp only at ha1 ha2 ⊢
        obtain ⟨h4, h5, h6⟩ := hsp.second b rfl
        obtain ⟨st2, hb1, hb2⟩ := ih (1 :: path) st1 b h4 h5 (by omega) ha2.good fun t ht => by
          by_contra hc
          obtain ⟨h7, h8⟩ := hsp.subSecond b rfl t hc
          rw [hcv] at h7
          rcases ha2.sub t ht with h | h
          · exact h7 (hdisj t h)
          · exact h h8
        refine ⟨st2, by simp only [ha1, hb1], (ha2.trans hb2).congr (fun t ht => ?_) fun t ht => ?_⟩
        · rw [← hcv]
          rcases ht with h | h
          · exact hsp.subFirst t h
          · exact (hsp.subSecond b rfl t h).1
        · rw [← hcv] at ht
          by_cases hz : cval .msm a t = 0
          · by_cases hz' : cval .msm b t = 0
            · exact Or.inr (hsp.lost t ht hz fun x hx => by rw [← Option.some.inj hx]; exact hz')
            · exact Or.inl (Or.inr hz')
          · exact Or.inl (Or.inl hz)

/-- What a run ends with. -/
structure RunSpec (c : OptConfig n) (C : Term n → Prop) (st : OptState n) : Prop where
  sub : ∀ t ∈ st.sols, C t
  none : st.sols = [] → ∀ t, ¬ C t
  value : ∀ t ∈ st.sols, c.grader.deg t = st.maxValue
  max : ∀ t, C t → c.grader.deg t ≤ st.maxValue
  nodup : st.sols.Nodup
  single : c.all = false → st.sols.length ≤ 1
  all : c.all = true → st.maxValue ≠ 0 → ∀ t, C t → c.grader.deg t = st.maxValue → t ∈ st.sols

theorem optRun_spec (hg : GraderOK c.grader N) (rnd : List ℕ → ℕ → ℕ) {I : List (Term n)} (hI : Anti I)
    (hN : ∀ v, lcmOf I v ≤ N v)
    (h1 : n = 1 → c.opts.simp = false → c.opts.split.isLabel = false → ∀ g ∈ I, ∀ v, g v ≤ 1) :
    ∃ st, optRun c rnd I = some st ∧ RunSpec c (fun m => (∀ i, 0 < m i) ∧ Msm I (fun i => m i - 1)) st := by
  have hd := removeDoubleLcm_spec (Slice.new I [] 1) (new_inv0 hI 1)
  set s := (Slice.new I [] (1 : Term n)).removeDoubleLcm.1 with hs
  have hsI : ∀ g ∈ s.ideal, g ∈ I := fun g hg => hd.sublist.subset hg
  have hinv : SliceInv .msm s :=
    ⟨hd.inv.antiI, hd.inv.antiS, hd.inv.norm, hd.inv.cache, fun _ _ => hd.noDouble, hd.inv.hint⟩
  obtain ⟨r, hr, hr1, hr2⟩ := optSimplify_start (c := c) hinv hd.sub (fun hn hs hl => leastPositive_mono_one hsI (h1 hn hs hl))
  have hbd : Bd N s := fun v => by
    have h2 := le_def.1 (lcmOf_mono hsI) v
    have h3 := hN v
    rw [hd.mul]
    show 1 + _ ≤ _
    omega
  have hroom := sliceFuel_spec r
  obtain ⟨st, hst1, hst2⟩ := optProcess_spec hg rnd (sliceFuel r) [] (OptState.init n) r hr2 (hbd.reduces hr1.red)
    (by omega) (Or.inl ⟨rfl, rfl, rfl⟩) (by simp [OptState.init])
  refine ⟨st, by simp only [optRun, ← hs, hr, hst1], ?_⟩
  have hC : ∀ m, cval .msm r m ≠ 0 ↔ (∀ i, 0 < m i) ∧ Msm I (fun i => m i - 1) := by
    intro m
    rw [hr1.cval, cval_ne_iff, hd.sub, hd.msm, hd.mul]
    have h4 : (Slice.new I [] (1 : Term n)).multiply = 1 := rfl
    have h5 : (Slice.new I [] (1 : Term n)).subtract = [] := rfl
    have h6 : (Slice.new I [] (1 : Term n)).ideal = I := rfl
    rw [h4, h5, h6]
    have h7 : (1 : Term n) ≤ m ↔ ∀ i, 0 < m i := by
      rw [le_def]; exact forall_congr' fun i => by simp [Nat.one_le_iff_ne_zero, Nat.pos_iff_ne_zero]
    have h8 : m - 1 = fun i => m i - 1 := by funext i; simp
    rw [h7, h8]
    simp [mem_nil]
  have hcov : ∀ t, (∀ i, 0 < t i) ∧ Msm I (fun i => t i - 1) →
      t ∈ st.sols ∨ (st.sols ≠ [] ∧ c.grader.deg t ≤ st.toBeat) := fun t ht => hst2.cover t (Or.inr ((hC t).2 ht))
  refine ⟨fun t ht => ?_, fun h t ht => ?_, fun t ht => ?_, fun t ht => ?_, ?_, fun h => ?_, fun h h0 t ht he => ?_⟩
  · rcases hst2.sub t ht with h | h
    · simp [OptState.init] at h
    · exact (hC t).1 h
  · rcases hcov t ht with h2 | h2
    · rw [h] at h2; simp at h2
    · exact h2.1 h
  · rcases hst2.good with h | h
    · rw [h.1] at ht; simp at ht
    · exact h.2.1 t ht
  · rcases hst2.good with h | ⟨h2, h3, _, h4, h5⟩
    · rcases hcov t ht with h2 | h2
      · rw [h.1] at h2; simp at h2
      · exact absurd h.1 h2.1
    · rcases hcov t ht with h6 | ⟨_, h6⟩
      · exact le_of_eq (h3 t h6)
      · cases hall : c.all with
        | false => have := (h4 hall).1; omega
        | true => rcases h5 hall with h7 | h7 <;> omega
  · rcases hst2.good with h | h
    · rw [h.1]; simp
    · exact h.2.2.1
  · rcases hst2.good with h2 | h2
    · rw [h2.1]; simp
    · exact le_of_eq (h2.2.2.2.1 h).2
  · rcases hcov t ht with h6 | ⟨h6, h7⟩
    · exact h6
    · rcases hst2.good with h2 | ⟨_, _, _, _, h5⟩
      · exact absurd h2.1 h6
      · rcases h5 h with h8 | h8
        · omega
        · exact absurd h8.1 h0

end Frobby

import Verif.DegreeChoiceSpec
import Verif.BigattiPivot

/-!
# Lemmas about the degrees that pivots depend on
-/

namespace Frobby.DegreeChoice

open Frobby Term

variable {n : ℕ}

/-! ## blocks -/

theorem while_filter (v : Fin n) (c : ℕ) : ∀ (l : List (Term n)), l.Pairwise (fun a b => a v ≤ b v) → (∀ g ∈ l, c ≤ g v) →
    l.takeWhile (fun h => decide (h v = c)) = l.filter (fun h => decide (h v = c)) ∧
    l.dropWhile (fun h => decide (h v = c)) = l.filter (fun h => decide (h v ≠ c)) := by
  intro l
  induction l with
  | nil => intro _ _; simp
  | cons g l ih =>
    intro hp hc
    have hp' := List.pairwise_cons.1 hp
    by_cases hg : g v = c
    · obtain ⟨h1, h2⟩ := ih hp'.2 fun x hx => hc x (List.mem_cons_of_mem _ hx)
      simp only [List.takeWhile_cons, List.dropWhile_cons, List.filter_cons, hg, decide_true, if_true, h1, h2, ne_eq,
        not_true_eq_false, decide_false, Bool.false_eq_true, if_false, true_and]
    · have hlt : ∀ x ∈ g :: l, x v ≠ c := by
        intro x hx
        have h1 := hc g (by simp)
        rcases List.mem_cons.1 hx with rfl | hx
        · exact hg
        · have := hp'.1 x hx
          omega
      constructor
      · rw [List.takeWhile_cons_of_neg (by simpa using hg)]
        symm
        rw [List.filter_eq_nil_iff]
        intro x hx
        simpa using hlt x hx
      · rw [List.dropWhile_cons_of_neg (by simpa using hg)]
        symm
        rw [List.filter_eq_self]
        intro x hx
        simpa using hlt x hx

theorem blocks_filter (v : Fin n) : ∀ (fuel : ℕ) (l : List (Term n)), l.length ≤ fuel →
    l.Pairwise (fun a b => a v ≤ b v) →
    (∀ b ∈ blocks v fuel l, b.2 = at' l v b.1 ∧ ∃ g ∈ l, g v = b.1) ∧ ∀ g ∈ l, ∃ b ∈ blocks v fuel l, b.1 = g v := by
  intro fuel
  induction fuel with
  | zero =>
    intro l hl _
    have : l = [] := List.length_eq_zero_iff.1 (by omega)
    subst this
    simp [blocks]
  | succ fuel ih =>
    intro l hl hp
    cases l with
    | nil => simp [blocks]
    | cons g gs =>
      have hp' := List.pairwise_cons.1 hp
      obtain ⟨ht, hd⟩ := while_filter v (g v) gs hp'.2 hp'.1
      have hlen : (gs.dropWhile fun h => decide (h v = g v)).length ≤ fuel :=
        ((List.dropWhile_sublist _).length_le).trans (by simpa using hl)
      obtain ⟨h1, h2⟩ := ih _ hlen (hp'.2.sublist (List.dropWhile_sublist _))
      unfold blocks
      refine ⟨fun b hb => ?_, fun x hx => ?_⟩
      · rcases List.mem_cons.1 hb with rfl | hb
        · refine ⟨?_, g, by simp, rfl⟩
          simp only [at', List.filter_cons, decide_true, if_true, ht]
        · obtain ⟨h3, y, hy, h4⟩ := h1 b hb
          rw [hd, List.mem_filter] at hy
          have hne : b.1 ≠ g v := by
            have := hy.2
            simp only [ne_eq, decide_eq_true_eq] at this
            omega
          refine ⟨?_, y, List.mem_cons_of_mem _ hy.1, h4⟩
          rw [h3, hd]
          unfold at'
          rw [List.filter_filter, List.filter_cons, if_neg (by simpa using Ne.symm hne)]
          refine List.filter_congr fun z _ => ?_
          by_cases hz : z v = b.1
          · simp [hz, hne]
          · simp [hz]
      · by_cases hxg : x v = g v
        · exact ⟨_, List.mem_cons_self, hxg.symm⟩
        · have hmem : x ∈ gs.dropWhile fun h => decide (h v = g v) := by
            rw [hd, List.mem_filter]
            refine ⟨?_, by simpa using hxg⟩
            rcases List.mem_cons.1 hx with rfl | hx
            · exact absurd rfl hxg
            · exact hx
          obtain ⟨b, hb, h3⟩ := h2 x hmem
          exact ⟨b, List.mem_cons_of_mem _ hb, h3⟩

/-! ## the largest weight -/

/-- The largest weight among the degrees seen. -/
def Max (W : Fin n → ℕ → ℕ) (S : Fin n → ℕ → Prop) (best : ℕ × Option (Fin n × ℕ)) : Prop :=
  (∀ v e, S v e → e ≠ 0 → W v e ≤ best.1) ∧ (best.2 = none → best.1 = 0) ∧
  ∀ v e, best.2 = some (v, e) → e ≠ 0 ∧ best.1 = W v e ∧ 0 < W v e

theorem Max.step {W : Fin n → ℕ → ℕ} {S : Fin n → ℕ → Prop} {best : ℕ × Option (Fin n × ℕ)} (h : Max W S best) (v : Fin n)
    (e : ℕ) : Max W (fun u d => S u d ∨ (u = v ∧ d = e))
      (if e ≠ 0 ∧ W v e > best.1 then (W v e, some (v, e)) else best) := by
  obtain ⟨h1, h2, h3⟩ := h
  by_cases hc : e ≠ 0 ∧ W v e > best.1
  · rw [if_pos hc]
    refine ⟨fun u d hs hd => ?_, by simp, fun u d hx => ?_⟩
    · rcases hs with hs | ⟨rfl, rfl⟩
      · exact (h1 u d hs hd).trans hc.2.le
      · exact le_refl _
    · simp only [Option.some.injEq, Prod.mk.injEq] at hx
      obtain ⟨rfl, rfl⟩ := hx
      exact ⟨hc.1, rfl, by omega⟩
  · rw [if_neg hc]
    refine ⟨fun u d hs hd => ?_, h2, h3⟩
    rcases hs with hs | ⟨rfl, rfl⟩
    · exact h1 u d hs hd
    · by_contra hlt
      exact hc ⟨hd, by omega⟩

theorem Max.blocks {W : Fin n → ℕ → ℕ} (v : Fin n)
    (f : ℕ × Option (Fin n × ℕ) → ℕ × List (Term n) → ℕ × Option (Fin n × ℕ)) :
    ∀ (bs : List (ℕ × List (Term n))),
      (∀ b ∈ bs, ∀ best, f best b = if b.1 ≠ 0 ∧ W v b.1 > best.1 then (W v b.1, some (v, b.1)) else best) →
      ∀ (S : Fin n → ℕ → Prop) (best : ℕ × Option (Fin n × ℕ)), Max W S best →
      Max W (fun u d => S u d ∨ (u = v ∧ ∃ b ∈ bs, b.1 = d)) (bs.foldl f best) := by
  intro bs
  induction bs with
  | nil =>
    intro _ S best h
    refine ⟨fun u d hs hd => ?_, h.2⟩
    rcases hs with hs | ⟨_, b, hb, _⟩
    · exact h.1 u d hs hd
    · simp at hb
  | cons b bs ih =>
    intro hf S best h
    rw [List.foldl_cons, hf b (by simp)]
    have h1 := ih (fun c hc => hf c (List.mem_cons_of_mem _ hc)) _ _ (h.step v b.1)
    refine ⟨fun u d hs hd => h1.1 u d ?_ hd, h1.2⟩
    rcases hs with hs | ⟨hu, c, hc, hd⟩
    · exact Or.inl (Or.inl hs)
    · rcases List.mem_cons.1 hc with rfl | hc
      · exact Or.inl (Or.inr ⟨hu, hd.symm⟩)
      · exact Or.inr ⟨hu, c, hc, hd⟩

theorem Max.vars {J : List (Term n)} {W : Fin n → ℕ → ℕ}
    (f : List (Term n) → Fin n → ℕ × Option (Fin n × ℕ) → ℕ × List (Term n) → ℕ × Option (Fin n × ℕ))
    (hf : ∀ H v, H.Perm J → H.Pairwise (fun a b => a v ≤ b v) → ∀ e best, f H v best (e, at' H v e) =
      if e ≠ 0 ∧ W v e > best.1 then (W v e, some (v, e)) else best) :
    ∀ (vs : List (Fin n)) (S : Fin n → ℕ → Prop) (y : List (Term n) × ℕ × Option (Fin n × ℕ)), y.1.Perm J → Max W S y.2 →
      Max W (fun u d => S u d ∨ (u ∈ vs ∧ ∃ g ∈ J, g u = d)) (vs.foldl (fun x v =>
        let H := singleDegreeSort v x.1
        (H, (Frobby.blocks v H.length H).foldl (f H v) x.2)) y).2 := by
  intro vs
  induction vs with
  | nil =>
    intro S y _ h
    refine ⟨fun u d hs hd => ?_, h.2⟩
    rcases hs with hs | ⟨hu, _⟩
    · exact h.1 u d hs hd
    · simp at hu
  | cons v vs ih =>
    intro S y hy h
    rw [List.foldl_cons]
    have hp : (singleDegreeSort v y.1).Perm J := (singleDegreeSort_perm v y.1).trans hy
    have hs := singleDegreeSort_sorted v y.1
    obtain ⟨h1, h2⟩ := blocks_filter v _ _ (le_refl _) hs
    have h3 := Max.blocks (W := W) v (f (singleDegreeSort v y.1) v) _ (fun b hb best => by
      have h4 := hf _ v hp hs b.1 best
      rw [← (h1 b hb).1] at h4
      exact h4) S y.2 h
    have h5 := ih _ (singleDegreeSort v y.1, _) hp h3
    refine ⟨fun u d hs hd => h5.1 u d ?_ hd, h5.2⟩
    rcases hs with hs | ⟨hu, g, hg, hgd⟩
    · exact Or.inl (Or.inl hs)
    · rcases List.mem_cons.1 hu with rfl | hu
      · obtain ⟨b, hb, hbg⟩ := h2 g (hp.mem_iff.2 hg)
        exact Or.inl (Or.inr ⟨rfl, b, hb, by omega⟩)
      · exact Or.inr ⟨hu, g, hg, hgd⟩

theorem Max.chosen {J : List (Term n)} {W : Fin n → ℕ → ℕ} (hW : ∀ v e, W v e ≠ 0 → ∃ g ∈ J, g v = e)
    {best : ℕ × Option (Fin n × ℕ)}
    (h : Max W (fun u d => False ∨ (u ∈ List.finRange n ∧ ∃ g ∈ J, g u = d)) best) : Chosen W best.1 best.2 := by
  refine ⟨fun v e he => ?_, h.2⟩
  by_cases h0 : W v e = 0
  · omega
  · exact h.1 v e (Or.inr ⟨List.mem_finRange v, hW v e h0⟩) he

/-! ## pairs -/

theorem nonGeneric_iff {H J : List (Term n)} (hp : H.Perm J) (a b : Term n) : nonGeneric H a b = true ↔ NG J a b := by
  unfold nonGeneric strictlyContains NG
  simp only [Bool.not_eq_true', List.any_eq_false, decide_eq_true_eq]
  exact ⟨fun h c hc => h c (hp.mem_iff.2 hc), fun h c hc => h c (hp.mem_iff.1 hc)⟩

theorem NG.symm {J : List (Term n)} {a b : Term n} (h : NG J a b) : NG J b a := by
  unfold NG at h ⊢
  rwa [sup_comm]

theorem anyPair_iff {H J : List (Term n)} (hp : H.Perm J) : ∀ {l : List (Term n)}, l.Nodup →
    (anyPair H l = true ↔ ∃ a ∈ l, ∃ b ∈ l, a ≠ b ∧ NG J a b) := by
  intro l
  induction l with
  | nil => intro _; simp [anyPair]
  | cons x l ih =>
    intro hn
    obtain ⟨hx, hn'⟩ := List.nodup_cons.1 hn
    unfold anyPair
    rw [Bool.or_eq_true, List.any_eq_true, ih hn']
    constructor
    · rintro (⟨b, hb, h⟩ | ⟨a, ha, b, hb, hne, h⟩)
      · exact ⟨x, by simp, b, by simp [hb], fun he => hx (he ▸ hb), (nonGeneric_iff hp x b).1 h⟩
      · exact ⟨a, by simp [ha], b, by simp [hb], hne, h⟩
    · rintro ⟨a, ha, b, hb, hne, h⟩
      rcases List.mem_cons.1 ha with h1 | h1
      · rcases List.mem_cons.1 hb with h2 | h2
        · exact absurd (h1.trans h2.symm) hne
        · exact Or.inl ⟨b, h2, (nonGeneric_iff hp _ _).2 (h1 ▸ h)⟩
      · rcases List.mem_cons.1 hb with h2 | h2
        · exact Or.inl ⟨a, h1, (nonGeneric_iff hp _ _).2 (h2 ▸ h.symm)⟩
        · exact Or.inr ⟨a, h1, b, h2, hne, h⟩

theorem pairCount_sum {H J : List (Term n)} (hp : H.Perm J) : ∀ {l : List (Term n)}, l.Nodup →
    (l.map fun a => l.countP fun b => decide (b ≠ a ∧ NG J a b)).sum = 2 * pairCount H l := by
  intro l
  induction l with
  | nil => intro _; simp [pairCount]
  | cons x l ih =>
    intro hn
    obtain ⟨hx, hn'⟩ := List.nodup_cons.1 hn
    have h1 : (x :: l).countP (fun b => decide (b ≠ x ∧ NG J x b)) = l.countP fun b => nonGeneric H x b := by
      rw [List.countP_cons, if_neg (by simp), Nat.add_zero]
      refine List.countP_congr fun b hb => ?_
      rw [nonGeneric_iff hp, decide_eq_true_eq]
      exact ⟨fun h => h.2, fun h => ⟨fun he => hx (he ▸ hb), h⟩⟩
    have h2 : ∀ (m : List (Term n)), (∀ a ∈ m, a ∈ l) →
        (m.map fun a => (x :: l).countP fun b => decide (b ≠ a ∧ NG J a b)).sum =
        (m.map fun a => l.countP fun b => decide (b ≠ a ∧ NG J a b)).sum + m.countP fun b => nonGeneric H x b := by
      intro m
      induction m with
      | nil => intro _; simp
      | cons a m ihm =>
        intro hm
        have h3 := ihm fun c hc => hm c (List.mem_cons_of_mem _ hc)
        rw [List.map_cons, List.sum_cons, List.map_cons, List.sum_cons, h3, List.countP_cons (a := x), List.countP_cons (a := a)]
        have hxa : x ≠ a := fun he => hx (he ▸ hm a (by simp))
        have h4 : decide (x ≠ a ∧ NG J a x) = nonGeneric H x a := by
          rw [Bool.eq_iff_iff, nonGeneric_iff hp, decide_eq_true_eq]
          exact ⟨fun h => h.2.symm, fun h => ⟨hxa, h.symm⟩⟩
        rw [h4]
        omega
    rw [List.map_cons, List.sum_cons, h1, h2 l (fun _ h => h), ih hn']
    have h5 : pairCount H (x :: l) = (l.countP fun b => nonGeneric H x b) + pairCount H l := rfl
    omega

theorem pairCount_le (H : List (Term n)) : ∀ l : List (Term n), 2 * pairCount H l ≤ l.length * (l.length + 1) := by
  intro l
  induction l with
  | nil => simp [pairCount]
  | cons x l ih =>
    unfold pairCount
    have h1 := List.countP_le_length (p := fun b => nonGeneric H x b) (l := l)
    simp only [List.length_cons]
    have h2 : (l.length + 1) * (l.length + 1 + 1) = l.length * (l.length + 1) + 2 * (l.length + 1) := by ring
    omega

theorem at_perm {H J : List (Term n)} (hp : H.Perm J) (v : Fin n) (e : ℕ) : (at' H v e).Perm (at' J v e) := hp.filter _

theorem pairCount_pairs {H J : List (Term n)} (hp : H.Perm J) (hJ : J.Nodup) (v : Fin n) (e : ℕ) :
    pairCount H (at' H v e) = pairs J v e := by
  have hn : (at' H v e).Nodup := (hp.nodup_iff.2 hJ).filter _
  have h1 := pairCount_sum hp hn
  have hq := at_perm hp v e
  have h2 : ((at' J v e).map fun a => ((at' J v e).filter fun b => b ≠ a ∧ NG J a b).length).sum =
      ((at' H v e).map fun a => (at' H v e).countP fun b => decide (b ≠ a ∧ NG J a b)).sum := by
    rw [(hq.map _).sum_eq]
    congr 1
    refine List.map_congr_left fun a _ => ?_
    rw [hq.countP_eq, List.countP_eq_length_filter]
  unfold pairs
  rw [h2, h1]
  omega

/-! ## the typical exponent -/

theorem typicalLoop_upper (v : Fin n) : ∀ (l done : List (Term n)) (last count : ℕ) (best : ℕ × Option (Fin n × ℕ)),
    l.Pairwise (fun a b => a v ≤ b v) → (∀ h ∈ done, h v ≤ last) → (∀ h ∈ l, last ≤ h v) →
    (last ≠ 0 → count = done.countP fun g => decide (g v = last)) →
    (∀ e, e ≠ 0 → (done.countP fun g => decide (g v = e)) ≤ best.1) →
    ((best.2 = none → best.1 = 0) ∧ (best.2 ≠ none → 0 < best.1)) →
    best.1 ≤ (typicalLoop v last count best l).1 ∧
    (∀ e, e ≠ 0 → ((done ++ l).countP fun g => decide (g v = e)) ≤ (typicalLoop v last count best l).1) ∧
    (((typicalLoop v last count best l).2 = none → (typicalLoop v last count best l).1 = 0) ∧
      ((typicalLoop v last count best l).2 ≠ none → 0 < (typicalLoop v last count best l).1)) := by
  intro l
  induction l with
  | nil => intro done last count best _ _ _ _ h5 h6; simpa [typicalLoop] using ⟨h5, h6⟩
  | cons g l ih =>
    intro done last count best h1 h2 h3 h4 h5 h6
    have h1' := List.pairwise_cons.1 h1
    have happ : done ++ g :: l = (done ++ [g]) ++ l := by simp
    have hlast := h3 g (by simp)
    rw [happ]
    unfold typicalLoop
    by_cases hg : g v = 0
    · rw [if_pos hg]
      refine ih (done ++ [g]) last count best h1'.2 (fun h hh => ?_) (fun h hh => h3 h (List.mem_cons_of_mem _ hh))
        (fun h => by omega) (fun e he => ?_) h6
      · rcases List.mem_append.1 hh with hh | hh
        · exact h2 h hh
        · rw [List.mem_singleton.1 hh]; omega
      · rw [List.countP_append]
        have : [g].countP (fun g => decide (g v = e)) = 0 := by simp; omega
        have := h5 e he
        omega
    · rw [if_neg hg]
      simp only
      have hc : (if last = g v then count + 1 else 1) = (done ++ [g]).countP fun h => decide (h v = g v) := by
        rw [List.countP_append]
        have : [g].countP (fun h => decide (h v = g v)) = 1 := by simp
        rw [this]
        by_cases he : last = g v
        · rw [if_pos he, h4 (by omega), he]
        · rw [if_neg he]
          have : done.countP (fun h => decide (h v = g v)) = 0 := by
            rw [List.countP_eq_zero]
            intro h hh
            have := h2 h hh
            simp; omega
          omega
      have hpos : 0 < (if last = g v then count + 1 else 1) := by split <;> omega
      generalize (if last = g v then count + 1 else 1) = c at hc hpos ⊢
      have hb : best.1 ≤ (if c > best.1 then (c, some (v, g v)) else best).1 ∧
          c ≤ (if c > best.1 then (c, some (v, g v)) else best).1 := by
        by_cases hgt : c > best.1
        · rw [if_pos hgt]; exact ⟨by simpa using hgt.le, le_refl _⟩
        · rw [if_neg hgt]; omega
      have hb6 : ((if c > best.1 then (c, some (v, g v)) else best).2 = none →
            (if c > best.1 then (c, some (v, g v)) else best).1 = 0) ∧
          ((if c > best.1 then (c, some (v, g v)) else best).2 ≠ none →
            0 < (if c > best.1 then (c, some (v, g v)) else best).1) := by
        by_cases hgt : c > best.1
        · rw [if_pos hgt]; exact ⟨by simp, fun _ => hpos⟩
        · rw [if_neg hgt]; exact h6
      generalize (if c > best.1 then (c, some (v, g v)) else best) = best' at hb hb6 ⊢
      obtain ⟨i1, i2, i3⟩ := ih (done ++ [g]) (g v) c best' h1'.2 (fun h hh => by
          rcases List.mem_append.1 hh with hh | hh
          · exact (h2 h hh).trans hlast
          · rw [List.mem_singleton.1 hh]) h1'.1 (fun _ => hc) (fun e he => by
          by_cases hge : g v = e
          · subst hge; omega
          · rw [List.countP_append]
            have : [g].countP (fun g => decide (g v = e)) = 0 := by simp [hge]
            have := h5 e he
            omega) hb6
      exact ⟨hb.1.trans i1, i2, i3⟩

theorem typicalExponent_upper (J : List (Term n)) :
    (∀ v e, e ≠ 0 → (J.countP fun g => decide (g v = e)) ≤ (typicalExponent J).2.1) ∧
    (((typicalExponent J).2.2 = none → (typicalExponent J).2.1 = 0) ∧
      ((typicalExponent J).2.2 ≠ none → 0 < (typicalExponent J).2.1)) := by
  unfold typicalExponent
  suffices ∀ (vs : List (Fin n)) (y : List (Term n) × ℕ × Option (Fin n × ℕ)), y.1.Perm J →
      ((y.2.2 = none → y.2.1 = 0) ∧ (y.2.2 ≠ none → 0 < y.2.1)) →
      let r := vs.foldl (fun x v => (singleDegreeSort v x.1, typicalLoop v 0 0 x.2 (singleDegreeSort v x.1))) y
      y.2.1 ≤ r.2.1 ∧ (∀ v ∈ vs, ∀ e, e ≠ 0 → (J.countP fun g => decide (g v = e)) ≤ r.2.1) ∧
      ((r.2.2 = none → r.2.1 = 0) ∧ (r.2.2 ≠ none → 0 < r.2.1)) by
    obtain ⟨_, h2, h3⟩ := this (List.finRange n) (J, 0, none) (List.Perm.refl _) (by simp)
    exact ⟨fun v => h2 v (List.mem_finRange v), h3⟩
  intro vs
  induction vs with
  | nil => intro y _ h; exact ⟨le_refl _, by simp, h⟩
  | cons v vs ih =>
    intro y hy h
    have hp : (singleDegreeSort v y.1).Perm J := (singleDegreeSort_perm v y.1).trans hy
    obtain ⟨i1, i2, i3⟩ := typicalLoop_upper v (singleDegreeSort v y.1) [] 0 0 y.2 (singleDegreeSort_sorted v y.1) (by simp)
      (by simp) (by simp) (by simp) h
    obtain ⟨j1, j2, j3⟩ := ih (singleDegreeSort v y.1, typicalLoop v 0 0 y.2 (singleDegreeSort v y.1)) hp i3
    simp only [List.foldl_cons]
    refine ⟨i1.trans j1, fun u hu e he => ?_, j3⟩
    rcases List.mem_cons.1 hu with rfl | hu
    · have h2 := i2 e he
      rw [List.nil_append, hp.countP_eq] at h2
      exact h2.trans j1
    · exact j2 u hu e he

/-! ## selection -/

theorem tightLoop_mono (G : List (Term n)) : ∀ (l : List (Term n)) (q : Term n), ∃ r, tightLoop G (some q) l = some r ∧ r ≤ q := by
  intro l
  induction l with
  | nil => intro q; exact ⟨q, rfl, le_refl _⟩
  | cons a l ih =>
    intro q
    unfold tightLoop
    split
    · exact ih q
    · rename_i b _
      obtain ⟨r, h1, h2⟩ := ih (q ⊓ a ⊓ b)
      exact ⟨r, h1, h2.trans (inf_le_left.trans inf_le_left)⟩

/-- Of each pair that is not generic the first one is a multiple of what the loop ends with. -/
theorem tightLoop_pairs (G : List (Term n)) : ∀ (l : List (Term n)) (acc : Option (Term n)),
    l.Pairwise fun a b => nonGeneric G a b = true → ∃ r, tightLoop G acc l = some r ∧ r ≤ a := by
  intro l
  induction l with
  | nil => intro acc; exact List.Pairwise.nil
  | cons a l ih =>
    intro acc
    rw [List.pairwise_cons]
    unfold tightLoop
    split
    · rename_i hnone
      refine ⟨fun b hb h => ?_, ih acc⟩
      exact absurd h (List.find?_eq_none.1 hnone b hb)
    · rename_i b hb
      refine ⟨fun c _ _ => ?_, ih _⟩
      obtain ⟨r, h1, h2⟩ := tightLoop_mono G l (match acc with | none => a ⊓ b | some p => p ⊓ a ⊓ b)
      refine ⟨r, h1, h2.trans ?_⟩
      cases acc with
      | none => exact inf_le_left
      | some p => exact inf_le_left.trans inf_le_right

theorem tightLoop_ge (G : List (Term n)) (q : Term n) : ∀ (l : List (Term n)) (acc : Option (Term n)), (∀ g ∈ l, q ≤ g) →
    (∀ p, acc = some p → q ≤ p) → ∀ r, tightLoop G acc l = some r → q ≤ r := by
  intro l
  induction l with
  | nil => intro acc _ h r hr; exact h r hr
  | cons a l ih =>
    intro acc hl hacc r hr
    unfold tightLoop at hr
    have hl' : ∀ g ∈ l, q ≤ g := fun g hg => hl g (List.mem_cons_of_mem _ hg)
    split at hr
    · exact ih acc hl' hacc r hr
    · rename_i b hb
      refine ih _ hl' (fun p hp => ?_) r hr
      have ha := hl a (by simp)
      have hb' := hl' b (List.mem_of_find?_eq_some hb)
      simp only [Option.some.injEq] at hp
      subst hp
      cases acc with
      | none => exact le_inf ha hb'
      | some p => exact le_inf (le_inf (hacc p rfl) ha) hb'

end Frobby.DegreeChoice

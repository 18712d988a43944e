import Verif.PivotChoiceSpec
import Verif.EulerPivot

/-!
# Lemmas about the choice of pivots
-/

namespace Frobby.Choice

open Frobby

/-! ## Popular and rare variables -/

theorem popVar_mem (d : ℕ → ℕ) (l : List ℕ) (b : ℕ) :
    l.foldl (fun best v => if d best < d v then v else best) b ∈ b :: l := by
  induction l generalizing b with
  | nil => simp
  | cons x l ih =>
    rw [List.foldl_cons]
    have := ih (if d b < d x then x else b)
    split_ifs at this ⊢
    · exact List.mem_cons_of_mem _ this
    · rcases List.mem_cons.1 this with h | h
      · rw [h]; exact List.mem_cons_self
      · exact List.mem_cons_of_mem _ (List.mem_cons_of_mem _ h)

theorem popular_getPopVar (d : ℕ → ℕ) (V : ℕ) (hV : 0 < V) : Popular d V (getPopVar d V) := by
  refine ⟨?_, getPopVar_max d V⟩
  rcases List.mem_cons.1 (popVar_mem d (List.range V) 0) with h | h
  · unfold getPopVar; rw [h]; exact hV
  · exact List.mem_range.1 h

theorem rareVar_min (d : ℕ → ℕ) (l : List ℕ) (b : Option ℕ) (r : ℕ)
    (hr : l.foldl (fun rare v =>
      if d v = 0 then rare
      else match rare with
        | none => some v
        | some r => if d v < d r then some v else some r) b = some r) :
    (b = some r ∨ r ∈ l) ∧ (∀ x, b = some x → d r ≤ d x) ∧ ∀ v ∈ l, d v ≠ 0 → d r ≤ d v := by
  induction l generalizing b with
  | nil =>
    simp only [List.foldl_nil] at hr
    exact ⟨Or.inl hr, fun x hx => by rw [hr] at hx; cases hx; exact le_refl _, by simp⟩
  | cons x l ih =>
    rw [List.foldl_cons] at hr
    by_cases hx : d x = 0
    · rw [if_pos hx] at hr
      obtain ⟨h1, h2, h3⟩ := ih b hr
      refine ⟨h1.imp_right (List.mem_cons_of_mem _), h2, fun v hv hv0 => ?_⟩
      rcases List.mem_cons.1 hv with rfl | hv
      · exact absurd hx hv0
      · exact h3 v hv hv0
    · rw [if_neg hx] at hr
      rcases b with _ | b
      · obtain ⟨h1, h2, h3⟩ := ih (some x) hr
        refine ⟨Or.inr ?_, by simp, fun v hv hv0 => ?_⟩
        · rcases h1 with h | h
          · cases h; exact List.mem_cons_self
          · exact List.mem_cons_of_mem _ h
        · rcases List.mem_cons.1 hv with rfl | hv
          · exact h2 _ rfl
          · exact h3 v hv hv0
      · simp only at hr
        by_cases hlt : d x < d b
        · rw [if_pos hlt] at hr
          obtain ⟨h1, h2, h3⟩ := ih (some x) hr
          have hx' := h2 x rfl
          refine ⟨Or.inr ?_, fun y hy => ?_, fun v hv hv0 => ?_⟩
          · rcases h1 with h | h
            · cases h; exact List.mem_cons_self
            · exact List.mem_cons_of_mem _ h
          · cases hy; omega
          · rcases List.mem_cons.1 hv with rfl | hv
            · exact hx'
            · exact h3 v hv hv0
        · rw [if_neg hlt] at hr
          obtain ⟨h1, h2, h3⟩ := ih (some b) hr
          have hb' := h2 b rfl
          refine ⟨h1.imp_right (List.mem_cons_of_mem _), h2, fun v hv hv0 => ?_⟩
          rcases List.mem_cons.1 hv with rfl | hv
          · omega
          · exact h3 v hv hv0

theorem rare_getRareVar {d : ℕ → ℕ} {V v : ℕ} (h : getRareVar d V = some v) : Rare d V v := by
  obtain ⟨h1, _, h3⟩ := rareVar_min d (List.range V) none v h
  have h4 := (rareVar_foldl d (List.range V) none (by simp)).1 v h
  refine ⟨?_, h4, fun u hu => h3 u (List.mem_range.2 hu)⟩
  rcases h1 with h | h
  · cases h
  · exact List.mem_range.1 h

/-! ## The loop of the filters -/

theorem swapAt_split (sel rej rest : List SqTerm) (x : SqTerm) :
    ∃ rej', rej'.Perm rej ∧
      swapAt (sel ++ rej ++ x :: rest) sel.length (sel.length + rej.length) = (sel ++ [x]) ++ rej' ++ rest := by
  cases rej with
  | nil =>
    refine ⟨[], List.Perm.refl _, ?_⟩
    simp [swapAt]
  | cons y B =>
    refine ⟨B ++ [y], List.perm_append_singleton y B, ?_⟩
    have e1 : (sel ++ y :: B ++ x :: rest).getD (sel.length + (y :: B).length) ∅ = x := by
      rw [List.getD_eq_getElem?_getD, List.getElem?_append_right (by simp)]
      simp
    have e2 : (sel ++ y :: B ++ x :: rest).getD sel.length ∅ = y := by
      rw [List.append_assoc, List.getD_eq_getElem?_getD, List.getElem?_append_right (le_refl _)]
      simp
    unfold swapAt
    rw [e1, e2, List.append_assoc, List.set_append_right _ _ (le_refl _), Nat.sub_self]
    rw [List.set_append_right _ _ (by omega), Nat.add_sub_cancel_left]
    show sel ++ (x :: (B ++ x :: rest)).set (B.length + 1) y = _
    rw [List.set_cons_succ, List.set_append_right _ _ (le_refl _), Nat.sub_self]
    simp

theorem pick_spec (key : SqTerm → Option ℕ) (worse : ℕ → ℕ → Bool)
    (tri : ∀ a b, worse a b = false → worse b a = false → a = b)
    (tr : ∀ a b c, worse a b = true → worse b c = true → worse a c = true) (todo : ℕ) :
    ∀ (sel rej rest : List SqTerm) (best : ℕ), todo ≤ rest.length →
      (∀ g ∈ sel, key g = some best) → (∀ g ∈ rej, ∀ k, key g = some k → worse k best = true) →
      ∃ sel' rej' best', pickLoop key worse todo (sel.length + rej.length) best sel.length (sel ++ rej ++ rest) =
          (sel' ++ rej' ++ rest.drop todo, sel'.length) ∧
        (sel' ++ rej').Perm (sel ++ rej ++ rest.take todo) ∧ (∀ g ∈ sel', key g = some best') ∧
        (∀ g ∈ rej', ∀ k, key g = some k → worse k best' = true) ∧ (sel ≠ [] → sel' ≠ []) ∧
        (best' = best ∨ sel' ≠ []) := by
  induction todo with
  | zero =>
    intro sel rej rest best _ hs hr
    exact ⟨sel, rej, best, by simp [pickLoop], by simp, hs, hr, id, Or.inl rfl⟩
  | succ todo ih =>
    intro sel rej rest best hlen hs hr
    cases rest with
    | nil => simp at hlen
    | cons x rest =>
      have hlen' : todo ≤ rest.length := by simpa using hlen
      have hx : (sel ++ rej ++ x :: rest).getD (sel.length + rej.length) ∅ = x := by
        rw [List.getD_eq_getElem?_getD, List.getElem?_append_right (by simp)]
        simp
      have skip : (∀ k, key x = some k → worse k best = true) →
          ∃ sel' rej' best', pickLoop key worse todo (sel.length + rej.length + 1) best sel.length (sel ++ rej ++ x :: rest) =
            (sel' ++ rej' ++ (x :: rest).drop (todo + 1), sel'.length) ∧
          (sel' ++ rej').Perm (sel ++ rej ++ (x :: rest).take (todo + 1)) ∧ (∀ g ∈ sel', key g = some best') ∧
          (∀ g ∈ rej', ∀ k, key g = some k → worse k best' = true) ∧ (sel ≠ [] → sel' ≠ []) ∧
          (best' = best ∨ sel' ≠ []) := by
        intro hk
        obtain ⟨sel', rej', best', h1, h2, h3⟩ := ih sel (rej ++ [x]) rest best hlen' hs (by
          intro g hg
          rcases List.mem_append.1 hg with hg | hg
          · exact hr g hg
          · rw [List.mem_singleton.1 hg]; exact hk)
        refine ⟨sel', rej', best', ?_, ?_, h3⟩
        · rw [List.drop_succ_cons, ← h1]
          simp [Nat.add_assoc]
        · rw [List.take_succ_cons]
          simpa using h2
      rw [pickLoop, hx]
      cases hkx : key x with
      | none => exact skip (by rw [hkx]; simp)
      | some k =>
        simp only
        cases hw : worse k best with
        | true =>
          rw [if_pos rfl]
          exact skip (by rw [hkx]; intro k' hk'; cases hk'; exact hw)
        | false =>
          rw [if_neg (by simp)]
          cases hb : worse best k with
          | false =>
            have hbk : best = k := tri _ _ hb hw
            subst hbk
            simp only [Bool.false_eq_true, if_false]
            obtain ⟨B, hB, hsw⟩ := swapAt_split sel rej rest x
            obtain ⟨sel', rej', best', h1, h2, h3, h4, h5, h6⟩ := ih (sel ++ [x]) B rest best hlen' (by
              intro g hg
              rcases List.mem_append.1 hg with hg | hg
              · exact hs g hg
              · rw [List.mem_singleton.1 hg]; exact hkx) (fun g hg => hr g (hB.mem_iff.1 hg))
            refine ⟨sel', rej', best', ?_, ?_, h3, h4, fun _ => h5 (by simp), h6⟩
            · rw [hsw, List.drop_succ_cons, ← h1]
              simp [hB.length_eq, Nat.add_right_comm]
            · refine h2.trans ?_
              rw [List.take_succ_cons]
              have : ((sel ++ [x]) ++ B ++ rest.take todo).Perm ((sel ++ [x]) ++ rej ++ rest.take todo) :=
                List.Perm.append_right _ (List.Perm.append_left _ hB)
              refine this.trans ?_
              simp only [List.append_assoc]
              refine List.Perm.append_left _ ?_
              simpa using (List.perm_middle (a := x) (l₁ := rej) (l₂ := rest.take todo)).symm
          | true =>
            simp only [if_true]
            obtain ⟨B, hB, hsw⟩ := swapAt_split [] (sel ++ rej) rest x
            simp only [List.length_nil, List.nil_append, List.length_append, Nat.zero_add] at hsw
            obtain ⟨sel', rej', best', h1, h2, h3, h4, h5, h6⟩ := ih [x] B rest k hlen' (by
              intro g hg
              rw [List.mem_singleton.1 hg]; exact hkx) (by
              intro g hg k' hk'
              rcases List.mem_append.1 (hB.mem_iff.1 hg) with hg | hg
              · rw [hs g hg] at hk'; cases hk'; exact hb
              · exact tr _ _ _ (hr g hg k' hk') hb)
            refine ⟨sel', rej', best', ?_, ?_, h3, h4, fun _ => h5 (by simp), Or.inr (h5 (by simp))⟩
            · rw [hsw, List.drop_succ_cons, ← h1]
              have : B.length = sel.length + rej.length := by rw [hB.length_eq]; simp
              simp [this, Nat.add_comm]
            · refine h2.trans ?_
              rw [List.take_succ_cons]
              have : ([x] ++ B ++ rest.take todo).Perm ([x] ++ (sel ++ rej) ++ rest.take todo) :=
                List.Perm.append_right _ (List.Perm.append_left _ hB)
              refine this.trans ?_
              simpa using (List.perm_middle (a := x) (l₁ := sel ++ rej) (l₂ := rest.take todo)).symm

/-- The result of a filter on the candidates `c`. -/
def Keeps (c tail : List SqTerm) (good : SqTerm → Prop) (r : List SqTerm × ℕ) : Prop :=
  ∃ sel rej, r = (sel ++ rej ++ tail, sel.length) ∧ (sel ++ rej).Perm c ∧ (∀ g ∈ sel, good g) ∧ ∀ g ∈ rej, ¬ good g

theorem keeps_congr {c tail : List SqTerm} {good good' : SqTerm → Prop} {r : List SqTerm × ℕ}
    (h : Keeps c tail good r) (e : ∀ g ∈ c, good g ↔ good' g) : Keeps c tail good' r := by
  obtain ⟨sel, rej, h1, h2, h3, h4⟩ := h
  refine ⟨sel, rej, h1, h2, fun g hg => ?_, fun g hg => ?_⟩
  · exact (e g (h2.mem_iff.1 (List.mem_append_left _ hg))).1 (h3 g hg)
  · exact fun hh => h4 g hg ((e g (h2.mem_iff.1 (List.mem_append_right _ hg))).2 hh)

theorem pick_keeps (key : SqTerm → Option ℕ) (worse : ℕ → ℕ → Bool) (irr : ∀ a, worse a a = false)
    (tri : ∀ a b, worse a b = false → worse b a = false → a = b)
    (tr : ∀ a b c, worse a b = true → worse b c = true → worse a c = true) (init : ℕ) (c tail : List SqTerm)
    (hinit : ∀ g ∈ c, ∀ k, key g = some k → worse k init = false) :
    Keeps c tail (fun g => ∃ k, key g = some k ∧ ∀ h ∈ c, ∀ k', key h = some k' → worse k k' = false)
      (pickLoop key worse c.length 0 init 0 (c ++ tail)) := by
  obtain ⟨sel, rej, best, h1, h2, h3, h4, _, h6⟩ := pick_spec key worse tri tr c.length [] [] (c ++ tail) init
    (by simp) (by simp) (by simp)
  simp only [List.length_nil, Nat.zero_add, List.nil_append, List.take_left, List.drop_left] at h1 h2
  refine ⟨sel, rej, h1, h2, fun g hg => ⟨best, h3 g hg, fun h hh k' hk' => ?_⟩, fun g hg => ?_⟩
  · rcases List.mem_append.1 (h2.mem_iff.2 hh) with hh | hh
    · rw [h3 h hh] at hk'; cases hk'; exact irr _
    · have := h4 h hh k' hk'
      cases hw : worse best k' with
      | false => rfl
      | true => have := tr _ _ _ hw this; rw [irr] at this; cases this
  · rintro ⟨k, hk, hall⟩
    have hkb := h4 g hg k hk
    rcases List.eq_nil_or_concat' sel with hs | ⟨s', x, hs⟩
    · rcases h6 with e | e
      · rw [e, hinit g (h2.mem_iff.1 (List.mem_append_right _ hg)) k hk] at hkb
        cases hkb
      · exact e hs
    · have hx : x ∈ sel := by rw [hs]; simp
      rw [hall x (h2.mem_iff.1 (List.mem_append_left _ hx)) best (h3 x hx)] at hkb
      cases hkb

theorem lt_tri (a b : ℕ) (h1 : decide (a < b) = false) (h2 : decide (b < a) = false) : a = b := by
  simp only [decide_eq_false_iff_not] at h1 h2; omega

theorem lt_tr (a b c : ℕ) (h1 : decide (a < b) = true) (h2 : decide (b < c) = true) : decide (a < c) = true := by
  simp only [decide_eq_true_eq] at h1 h2 ⊢; omega

theorem pick_keeps_lt (key : SqTerm → Option ℕ) (c tail : List SqTerm) :
    Keeps c tail (fun g => ∃ k, key g = some k ∧ ∀ h ∈ c, ∀ k', key h = some k' → k' ≤ k)
      (pickLoop key (fun a b => decide (a < b)) c.length 0 0 0 (c ++ tail)) := by
  refine keeps_congr (pick_keeps key (fun a b => decide (a < b)) (by simp) lt_tri lt_tr 0 c tail (by simp)) fun g _ => ?_
  simp

/-! ## The rarest generators -/

theorem list_max (f : SqTerm → ℕ) (l : List SqTerm) (hl : l ≠ []) : ∃ m ∈ l, ∀ h ∈ l, f h ≤ f m := by
  obtain ⟨m, hm, hmax⟩ := l.toFinset.exists_max_image f (by
    obtain ⟨x, hx⟩ := List.exists_mem_of_ne_nil _ hl
    exact ⟨x, List.mem_toFinset.2 hx⟩)
  exact ⟨m, List.mem_toFinset.1 hm, fun h hh => hmax h (List.mem_toFinset.2 hh)⟩

theorem prof_eq (d : ℕ → ℕ) (V : ℕ) (g : SqTerm) (c : ℕ) : (varsWithCount d V c ∩ g).card = prof d V g c := by
  unfold prof varsWithCount
  congr 1
  ext v
  simp only [Finset.mem_inter, Finset.mem_filter, Finset.mem_range]
  tauto

theorem rarestOne_keeps (d : ℕ → ℕ) (V count : ℕ) (c tail : List SqTerm) :
    Keeps c tail (fun g => ∀ h ∈ c, prof d V h count ≤ prof d V g count)
      (rarestFilterOne d V count c.length (c ++ tail)) := by
  have hdis : ∀ g : SqTerm, Disjoint (varsWithCount d V count) g ↔ prof d V g count = 0 := fun g => by
    rw [← prof_eq, Finset.card_eq_zero, Finset.disjoint_iff_inter_eq_empty]
  obtain ⟨sel, rej, h1, h2, h3, h4⟩ := pick_keeps_lt
    (fun g => if Disjoint (varsWithCount d V count) g then none else some (varsWithCount d V count ∩ g).card) c tail
  unfold rarestFilterOne
  simp only [h1]
  by_cases hs : sel.length = 0
  · have hs' : sel = [] := List.length_eq_zero_iff.1 hs
    subst hs'
    simp only [List.length_nil, ne_eq, not_true_eq_false, if_false, List.nil_append] at h2 ⊢
    have hz : ∀ n (g : SqTerm), g ∈ rej → prof d V g count = n → n = 0 := by
      by_contra hne
      push Not at hne
      obtain ⟨n, g, hg, hgn, hn0⟩ := hne
      obtain ⟨m, hm, hmax⟩ := list_max (prof d V · count) rej (List.ne_nil_of_mem hg)
      exact h4 m hm ⟨prof d V m count, by
        rw [if_neg (by rw [hdis]; have := hmax g hg; omega), prof_eq], fun h hh k' hk' => by
        split at hk'
        · cases hk'
        · cases hk'; rw [prof_eq]; exact hmax h (h2.mem_iff.2 hh)⟩
    refine ⟨rej, [], by simp [h2.length_eq], by simpa using h2, fun g hg h hh => ?_, by simp⟩
    rw [hz _ h (h2.mem_iff.2 hh) rfl]
    exact Nat.zero_le _
  · simp only [ne_eq, hs, not_false_eq_true, if_true]
    have hne : ∃ x, x ∈ sel := List.exists_mem_of_ne_nil _ (by intro e; rw [e] at hs; exact hs rfl)
    have good : ∀ g, (∃ k, (if Disjoint (varsWithCount d V count) g then none
          else some (varsWithCount d V count ∩ g).card) = some k ∧
        ∀ h ∈ c, ∀ k', (if Disjoint (varsWithCount d V count) h then none
          else some (varsWithCount d V count ∩ h).card) = some k' → k' ≤ k) →
        prof d V g count ≠ 0 ∧ ∀ h ∈ c, prof d V h count ≤ prof d V g count := by
      rintro g ⟨k, hk, hall⟩
      split at hk
      · cases hk
      · rename_i hd
        cases hk
        rw [hdis] at hd
        refine ⟨hd, fun h hh => ?_⟩
        by_cases hh0 : prof d V h count = 0
        · omega
        · have := hall h hh (prof d V h count) (by rw [if_neg (by rw [hdis]; exact hh0), prof_eq])
          rwa [prof_eq] at this
    refine ⟨sel, rej, rfl, h2, fun g hg => (good g (h3 g hg)).2, fun g hg hmax => ?_⟩
    obtain ⟨x, hx⟩ := hne
    obtain ⟨hx0, _⟩ := good x (h3 x hx)
    have hxg := hmax x (h2.mem_iff.1 (List.mem_append_left _ hx))
    refine h4 g hg ⟨prof d V g count, by rw [if_neg (by rw [hdis]; omega), prof_eq], fun h hh k' hk' => ?_⟩
    split at hk'
    · cases hk'
    · cases hk'; rw [prof_eq]; exact hmax h hh

theorem nextCount_fold (d : ℕ → ℕ) (last : ℕ) (l : List ℕ) (b : Option ℕ) (hb : ∀ x, b = some x → last < x) :
    let r := l.foldl (fun best v =>
      if d v > last then
        match best with
        | none => some (d v)
        | some b => if b > d v then some (d v) else some b
      else best) b
    (r = none → b = none ∧ ∀ v ∈ l, ¬ d v > last) ∧
    ∀ m, r = some m → last < m ∧ (b = some m ∨ ∃ v ∈ l, d v = m) ∧ (∀ x, b = some x → m ≤ x) ∧
      ∀ v ∈ l, d v > last → m ≤ d v := by
  induction l generalizing b with
  | nil =>
    refine ⟨fun h => ⟨h, by simp⟩, fun m hm => ⟨hb m hm, Or.inl hm, fun x hx => ?_, by simp⟩⟩
    simp only [List.foldl_nil] at hm
    rw [hm] at hx; cases hx; exact le_refl _
  | cons y l ih =>
    simp only [List.foldl_cons]
    by_cases hy : d y > last
    · rw [if_pos hy]
      rcases b with _ | b
      · obtain ⟨h1, h2⟩ := ih (some (d y)) (by intro x hx; cases hx; exact hy)
        refine ⟨fun h => absurd (h1 h).1 (by simp), fun m hm => ?_⟩
        obtain ⟨a1, a2, a3, a4⟩ := h2 m hm
        refine ⟨a1, Or.inr ?_, by simp, fun v hv hv1 => ?_⟩
        · rcases a2 with h | ⟨v, hv, e⟩
          · exact ⟨y, List.mem_cons_self, by simpa using h⟩
          · exact ⟨v, List.mem_cons_of_mem _ hv, e⟩
        · rcases List.mem_cons.1 hv with rfl | hv
          · exact a3 _ rfl
          · exact a4 v hv hv1
      · simp only
        by_cases hlt : b > d y
        · rw [if_pos hlt]
          obtain ⟨h1, h2⟩ := ih (some (d y)) (by intro x hx; cases hx; exact hy)
          refine ⟨fun h => absurd (h1 h).1 (by simp), fun m hm => ?_⟩
          obtain ⟨a1, a2, a3, a4⟩ := h2 m hm
          have a3' := a3 _ rfl
          refine ⟨a1, Or.inr ?_, fun x hx => by cases hx; omega, fun v hv hv1 => ?_⟩
          · rcases a2 with h | ⟨v, hv, e⟩
            · exact ⟨y, List.mem_cons_self, by simpa using h⟩
            · exact ⟨v, List.mem_cons_of_mem _ hv, e⟩
          · rcases List.mem_cons.1 hv with rfl | hv
            · exact a3'
            · exact a4 v hv hv1
        · rw [if_neg hlt]
          obtain ⟨h1, h2⟩ := ih (some b) hb
          refine ⟨fun h => absurd (h1 h).1 (by simp), fun m hm => ?_⟩
          obtain ⟨a1, a2, a3, a4⟩ := h2 m hm
          have a3' := a3 _ rfl
          refine ⟨a1, ?_, a3, fun v hv hv1 => ?_⟩
          · rcases a2 with h | ⟨v, hv, e⟩
            · exact Or.inl h
            · exact Or.inr ⟨v, List.mem_cons_of_mem _ hv, e⟩
          · rcases List.mem_cons.1 hv with rfl | hv
            · omega
            · exact a4 v hv hv1
    · rw [if_neg hy]
      obtain ⟨h1, h2⟩ := ih b hb
      refine ⟨fun h => ⟨(h1 h).1, fun v hv => ?_⟩, fun m hm => ?_⟩
      · rcases List.mem_cons.1 hv with rfl | hv
        · exact hy
        · exact (h1 h).2 v hv
      · obtain ⟨a1, a2, a3, a4⟩ := h2 m hm
        refine ⟨a1, a2.imp_right fun ⟨v, hv, e⟩ => ⟨v, List.mem_cons_of_mem _ hv, e⟩, a3, fun v hv hv1 => ?_⟩
        rcases List.mem_cons.1 hv with rfl | hv
        · exact absurd hv1 hy
        · exact a4 v hv hv1

theorem prof_zero {d : ℕ → ℕ} {V c : ℕ} (h : ∀ v < V, d v ≠ c) (g : SqTerm) : prof d V g c = 0 := by
  unfold prof
  rw [Finset.card_eq_zero, Finset.filter_eq_empty_iff]
  intro v _ hv
  exact h v hv.1 hv.2

theorem rarest_keeps (d : ℕ → ℕ) (V rounds : ℕ) : ∀ (last : ℕ) (K T : List SqTerm),
    (∀ g ∈ K, ∀ h ∈ K, ∀ c, 0 < c → c ≤ last → prof d V g c = prof d V h c) →
    ((Finset.range V).filter fun v => d v > last).card ≤ rounds →
    Keeps K T (fun g => ∀ h ∈ K, ¬ Rarer d V h g) (rarestFilter d V rounds last K.length (K ++ T)) := by
  have stop : ∀ (last : ℕ) (K T : List SqTerm),
      (∀ g ∈ K, ∀ h ∈ K, ∀ c, 0 < c → c ≤ last → prof d V g c = prof d V h c) →
      (∀ v < V, ¬ d v > last) → Keeps K T (fun g => ∀ h ∈ K, ¬ Rarer d V h g) (K ++ T, K.length) := by
    intro last K T hK hv
    refine ⟨K, [], by simp, by simp, fun g hg h hh => ?_, by simp⟩
    rintro ⟨c, hc0, hlt, _⟩
    by_cases hc : c ≤ last
    · rw [hK g hg h hh c hc0 hc] at hlt; exact lt_irrefl _ hlt
    · rw [prof_zero (fun v hvV e => hv v hvV (by omega)) h] at hlt
      exact absurd hlt (Nat.not_lt_zero _)
  induction rounds with
  | zero =>
    intro last K T hK hr
    refine stop last K T hK fun v hv hd => ?_
    have : v ∈ (Finset.range V).filter fun v => d v > last := by simp [hv, hd]
    rw [Finset.card_eq_zero.1 (Nat.le_zero.1 hr)] at this
    simp at this
  | succ rounds ih =>
    intro last K T hK hr
    rw [rarestFilter]
    by_cases h1 : K.length ≤ 1
    · rw [if_pos h1]
      refine ⟨K, [], by simp, by simp, fun g hg h hh => ?_, by simp⟩
      have e : g = h := by
        rcases K with _ | ⟨x, _ | ⟨y, K⟩⟩
        · cases hg
        · rw [List.mem_singleton.1 hg, List.mem_singleton.1 hh]
        · simp at h1
      subst e
      rintro ⟨c, _, hlt, _⟩
      exact lt_irrefl _ hlt
    · rw [if_neg h1]
      obtain ⟨n1, n2⟩ := nextCount_fold d last (List.range V) none (by simp)
      cases hn : nextCount d V last with
      | none => exact stop last K T hK fun v hv => (n1 hn).2 v (List.mem_range.2 hv)
      | some count =>
        obtain ⟨a1, a2, _, a4⟩ := n2 count hn
        have a4' : ∀ v < V, d v > last → count ≤ d v := fun v hv => a4 v (List.mem_range.2 hv)
        obtain ⟨w, hw, hwc⟩ : ∃ v ∈ List.range V, d v = count := by
          rcases a2 with h | h
          · cases h
          · exact h
        have between : ∀ c, last < c → c < count → ∀ g, prof d V g c = 0 := fun c hc1 hc2 g =>
          prof_zero (fun v hv e => by have := a4' v hv (by omega); omega) g
        obtain ⟨sel, rej, e1, e2, e3, e4⟩ := rarestOne_keeps d V count K T
        simp only [e1]
        have hselK : ∀ g ∈ sel, g ∈ K := fun g hg => e2.mem_iff.1 (List.mem_append_left _ hg)
        have below : ∀ g ∈ K, ∀ h ∈ K, ∀ c, 0 < c → c < count → prof d V g c = prof d V h c := by
          intro g hg h hh c hc0 hc
          by_cases hcl : c ≤ last
          · exact hK g hg h hh c hc0 hcl
          · rw [between c (by omega) hc g, between c (by omega) hc h]
        have := ih count sel (rej ++ T) (by
          intro g hg h hh c hc0 hc
          rcases Nat.lt_or_eq_of_le hc with hc | rfl
          · exact below g (hselK g hg) h (hselK h hh) c hc0 hc
          · exact le_antisymm (e3 h hh g (hselK g hg)) (e3 g hg h (hselK h hh))) (by
          have hlt : ((Finset.range V).filter fun v => d v > count).card <
              ((Finset.range V).filter fun v => d v > last).card := by
            refine Finset.card_lt_card ⟨fun v hv => ?_, fun hsub => ?_⟩
            · simp only [Finset.mem_filter] at hv ⊢
              exact ⟨hv.1, by omega⟩
            · have hm : w ∈ (Finset.range V).filter fun v => d v > last := by
                simp only [Finset.mem_filter, Finset.mem_range]
                exact ⟨List.mem_range.1 hw, by omega⟩
              have := hsub hm
              simp only [Finset.mem_filter] at this
              omega
          omega)
        obtain ⟨sel2, rej2, f1, f2, f3, f4⟩ := this
        rw [List.append_assoc sel rej T, f1]
        have hsel2 : ∀ g ∈ sel2, g ∈ sel := fun g hg => f2.mem_iff.1 (List.mem_append_left _ hg)
        refine ⟨sel2, rej2 ++ rej, by simp, ?_, fun g hg h hh => ?_, fun g hg => ?_⟩
        · rw [← List.append_assoc]
          exact (List.Perm.append_right rej f2).trans e2
        · have hgK := hselK g (hsel2 g hg)
          rcases List.mem_append.1 (e2.mem_iff.2 hh) with hs | hs
          · exact f3 g hg h hs
          · rintro ⟨c, hc0, hlt, heq⟩
            have hless : prof d V h count < prof d V g count := by
              by_contra hge
              exact e4 h hs fun x hx => (e3 g (hsel2 g hg) x hx).trans (not_lt.1 hge)
            rcases Nat.lt_trichotomy c count with hc | hc | hc
            · rw [below g hgK h hh c hc0 hc] at hlt; exact lt_irrefl _ hlt
            · subst hc; exact lt_asymm hlt hless
            · rw [heq count (by omega) hc] at hless; exact lt_irrefl _ hless
        · rcases List.mem_append.1 hg with hg | hg
          · exact fun hall => f4 g hg fun h hh => hall h (hselK h hh)
          · have hgK : g ∈ K := e2.mem_iff.1 (List.mem_append_right _ hg)
            intro hall
            refine e4 g hg fun x hx => ?_
            by_contra hlt
            exact hall x hx ⟨count, by omega, not_le.1 hlt, fun c' hc0 hc => below g hgK x hx c' hc0 hc⟩

theorem rarest_nonempty (d : ℕ → ℕ) (V rounds : ℕ) : ∀ (last : ℕ) (K T : List SqTerm), K ≠ [] →
    (rarestFilter d V rounds last K.length (K ++ T)).2 ≠ 0 := by
  induction rounds with
  | zero =>
    intro last K T hK
    simpa [rarestFilter] using hK
  | succ rounds ih =>
    intro last K T hK
    rw [rarestFilter]
    split
    · simpa using hK
    · split
      · simpa using hK
      · rename_i count _
        obtain ⟨sel, rej, e1, e2, e3, e4⟩ := rarestOne_keeps d V count K T
        simp only [e1]
        rw [List.append_assoc]
        refine ih count sel (rej ++ T) ?_
        rintro rfl
        obtain ⟨m, hm, hmax⟩ := list_max (prof d V · count) K hK
        exact e4 m (e2.mem_iff.2 hm) hmax

/-! ## The best index -/

theorem bestIndex_max (key : SqTerm → ℕ) (l : List SqTerm) : ∀ (i best bi : ℕ),
    (bestIndex key (fun b k => decide (b < k)) i best bi l = bi ∧ ∀ g ∈ l, key g ≤ best) ∨
    ∃ j, ∃ h : j < l.length, bestIndex key (fun b k => decide (b < k)) i best bi l = i + j ∧ best < key l[j] ∧
      ∀ g ∈ l, key g ≤ key l[j] := by
  induction l with
  | nil => intro i best bi; exact Or.inl ⟨rfl, by simp⟩
  | cons x l ih =>
    intro i best bi
    rw [bestIndex]
    by_cases hb : best < key x
    · rw [if_pos (by simpa using hb)]
      rcases ih (i + 1) (key x) i with ⟨h1, h2⟩ | ⟨j, hj, h1, h2, h3⟩
      · refine Or.inr ⟨0, by simp, by rw [h1]; rfl, hb, fun g hg => ?_⟩
        rcases List.mem_cons.1 hg with rfl | hg
        · exact le_refl _
        · exact h2 g hg
      · refine Or.inr ⟨j + 1, by simpa using hj, by rw [h1]; ring, ?_, fun g hg => ?_⟩
        · simp only [List.getElem_cons_succ]; omega
        · simp only [List.getElem_cons_succ]
          rcases List.mem_cons.1 hg with rfl | hg
          · omega
          · exact h3 g hg
    · rw [if_neg (by simpa using hb)]
      rcases ih (i + 1) best bi with ⟨h1, h2⟩ | ⟨j, hj, h1, h2, h3⟩
      · refine Or.inl ⟨h1, fun g hg => ?_⟩
        rcases List.mem_cons.1 hg with rfl | hg
        · omega
        · exact h2 g hg
      · refine Or.inr ⟨j + 1, by simpa using hj, by rw [h1]; ring, ?_, fun g hg => ?_⟩
        · simp only [List.getElem_cons_succ]; omega
        · simp only [List.getElem_cons_succ]
          rcases List.mem_cons.1 hg with rfl | hg
          · omega
          · exact h3 g hg

theorem bestIndex_min (key : SqTerm → ℕ) (l : List SqTerm) : ∀ (i best bi : ℕ),
    (bestIndex key (fun b k => decide (b > k)) i best bi l = bi ∧ ∀ g ∈ l, best ≤ key g) ∨
    ∃ j, ∃ h : j < l.length, bestIndex key (fun b k => decide (b > k)) i best bi l = i + j ∧ key l[j] < best ∧
      ∀ g ∈ l, key l[j] ≤ key g := by
  induction l with
  | nil => intro i best bi; exact Or.inl ⟨rfl, by simp⟩
  | cons x l ih =>
    intro i best bi
    rw [bestIndex]
    by_cases hb : best > key x
    · rw [if_pos (by simpa using hb)]
      rcases ih (i + 1) (key x) i with ⟨h1, h2⟩ | ⟨j, hj, h1, h2, h3⟩
      · refine Or.inr ⟨0, by simp, by rw [h1]; rfl, hb, fun g hg => ?_⟩
        rcases List.mem_cons.1 hg with rfl | hg
        · exact le_refl _
        · exact h2 g hg
      · refine Or.inr ⟨j + 1, by simpa using hj, by rw [h1]; ring, ?_, fun g hg => ?_⟩
        · simp only [List.getElem_cons_succ]; omega
        · simp only [List.getElem_cons_succ]
          rcases List.mem_cons.1 hg with rfl | hg
          · omega
          · exact h3 g hg
    · rw [if_neg (by simpa using hb)]
      rcases ih (i + 1) best bi with ⟨h1, h2⟩ | ⟨j, hj, h1, h2, h3⟩
      · refine Or.inl ⟨h1, fun g hg => ?_⟩
        rcases List.mem_cons.1 hg with rfl | hg
        · omega
        · exact h2 g hg
      · refine Or.inr ⟨j + 1, by simpa using hj, by rw [h1]; ring, ?_, fun g hg => ?_⟩
        · simp only [List.getElem_cons_succ]; omega
        · simp only [List.getElem_cons_succ]
          rcases List.mem_cons.1 hg with rfl | hg
          · omega
          · exact h3 g hg

end Frobby.Choice

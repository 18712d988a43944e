import Verif.PolyModel
import Verif.Spec
import Verif.IdealLemmas
import Mathlib.Tactic.Ring

/-!
# Lemmas about the polynomial classes
-/

namespace Frobby

variable {n : ℕ} {κ : Type} [DecidableEq κ]

theorem coefOf_nil (k : κ) : coefOf [] k = 0 := rfl

theorem coefOf_cons (x : ℤ × κ) (p : List (ℤ × κ)) (k : κ) : coefOf (x :: p) k = (if x.2 = k then x.1 else 0) + coefOf p k := by
  unfold coefOf
  rw [List.filter_cons]
  by_cases h : x.2 = k <;> simp [h]

theorem coefOf_append (p q : List (ℤ × κ)) (k : κ) : coefOf (p ++ q) k = coefOf p k + coefOf q k := by
  induction p with
  | nil => simp [coefOf_nil]
  | cons a l ih => rw [List.cons_append, coefOf_cons, coefOf_cons, ih, add_assoc]

theorem coefOf_perm {p q : List (ℤ × κ)} (h : p.Perm q) (k : κ) : coefOf p k = coefOf q k :=
  ((h.filter _).map _).sum_eq

theorem coefOf_notMem {p : List (ℤ × κ)} {k : κ} (h : k ∉ p.map (·.2)) : coefOf p k = 0 := by
  induction p with
  | nil => rfl
  | cons a l ih =>
    rw [List.map_cons, List.mem_cons] at h
    push Not at h
    rw [coefOf_cons, ih h.2, if_neg (Ne.symm h.1), zero_add]

theorem coefOf_mem {p : List (ℤ × κ)} (h : (p.map (·.2)).Nodup) {x : ℤ × κ} (hx : x ∈ p) : coefOf p x.2 = x.1 := by
  induction p with
  | nil => simp at hx
  | cons a l ih =>
    rw [List.map_cons, List.nodup_cons] at h
    rw [coefOf_cons]
    rcases List.mem_cons.1 hx with rfl | hx
    · rw [coefOf_notMem h.1]; simp
    · rw [ih h.2 hx, if_neg, zero_add]
      intro he
      exact h.1 (he ▸ List.mem_map.2 ⟨x, hx, rfl⟩)

/-- What is in a reduced polynomial is determined by its coefficients. -/
theorem Reduced.mem_iff {p : List (ℤ × κ)} (h : Reduced p) (x : ℤ × κ) : x ∈ p ↔ x.1 ≠ 0 ∧ coefOf p x.2 = x.1 := by
  constructor
  · intro hx; exact ⟨h.2 x hx, coefOf_mem h.1 hx⟩
  · rintro ⟨h0, h1⟩
    by_cases hk : x.2 ∈ p.map (·.2)
    · obtain ⟨y, hy, he⟩ := List.mem_map.1 hk
      have h2 := coefOf_mem h.1 hy
      rw [he, h1] at h2
      have : x = y := Prod.ext h2 he.symm
      rw [this]; exact hy
    · rw [coefOf_notMem hk] at h1; exact absurd h1.symm h0

theorem Reduced.perm {p q : List (ℤ × κ)} (hp : Reduced p) (hq : Reduced q) (h : ∀ k, coefOf p k = coefOf q k) : p.Perm q := by
  refine (List.perm_ext_iff_of_nodup hp.1.of_map hq.1.of_map).2 fun x => ?_
  rw [hp.mem_iff, hq.mem_iff, h]

omit [DecidableEq κ] in
theorem reduced_of_perm {p q : List (ℤ × κ)} (h : p.Perm q) (hp : Reduced p) : Reduced q :=
  ⟨(h.map _).nodup_iff.1 hp.1, fun x hx => hp.2 x (h.mem_iff.2 hx)⟩

/-! ## hash maps -/

theorem hashTouch_spec (k : κ) {m : List (ℤ × κ)} (hm : Reduced m) :
    ((hashTouch k m).map (·.2)).Nodup ∧ k ∈ (hashTouch k m).map (·.2) ∧ (∀ j, coefOf (hashTouch k m) j = coefOf m j) ∧
      ∀ x ∈ hashTouch k m, x.2 ≠ k → x.1 ≠ 0 := by
  unfold hashTouch
  split
  · rename_i h
    simp only [List.any_eq_true, decide_eq_true_eq] at h
    obtain ⟨x, hx, rfl⟩ := h
    exact ⟨hm.1, List.mem_map.2 ⟨x, hx, rfl⟩, fun _ => rfl, fun y hy _ => hm.2 y hy⟩
  · rename_i h
    simp only [List.any_eq_true, decide_eq_true_eq] at h
    have hk : k ∉ m.map (·.2) := by
      intro hc
      obtain ⟨x, hx, he⟩ := List.mem_map.1 hc
      exact h ⟨x, hx, he⟩
    refine ⟨?_, by simp, fun j => ?_, ?_⟩
    · rw [List.map_append, List.nodup_append]
      refine ⟨hm.1, by simp, ?_⟩
      intro a ha b hb
      simp only [List.map_cons, List.map_nil, List.mem_singleton] at hb
      rw [hb]; intro he; exact hk (he ▸ ha)
    · rw [coefOf_append, coefOf_cons, coefOf_nil]; simp
    · intro x hx hne
      rcases List.mem_append.1 hx with h1 | h1
      · exact hm.2 x h1
      · rw [List.mem_singleton] at h1
        rw [h1] at hne; exact absurd rfl hne

theorem hashIncrease_keys (c : ℤ) (k : κ) (m : List (ℤ × κ)) : (hashIncrease c k m).map (·.2) = m.map (·.2) := by
  unfold hashIncrease
  rw [List.map_map]
  refine List.map_congr_left fun x _ => ?_
  simp only [Function.comp_apply]
  split <;> rfl

theorem coefOf_hashIncrease (c : ℤ) (k : κ) {m : List (ℤ × κ)} (h : (m.map (·.2)).Nodup) (hk : k ∈ m.map (·.2)) (j : κ) :
    coefOf (hashIncrease c k m) j = coefOf m j + if k = j then c else 0 := by
  induction m with
  | nil => simp at hk
  | cons a l ih =>
    rw [List.map_cons, List.nodup_cons] at h
    rw [List.map_cons, List.mem_cons] at hk
    have hc : hashIncrease c k (a :: l) = (if a.2 = k then (a.1 + c, a.2) else a) :: hashIncrease c k l := rfl
    rw [hc, coefOf_cons, coefOf_cons]
    by_cases ha : a.2 = k
    · have hl : hashIncrease c k l = l := by
        unfold hashIncrease
        refine (List.map_congr_left (g := id) fun x hx => ?_).trans (List.map_id _)
        rw [if_neg]; rfl
        intro he
        exact h.1 (ha.trans he.symm ▸ List.mem_map.2 ⟨x, hx, rfl⟩)
      rw [hl, if_pos ha, ← ha]
      by_cases hj : a.2 = j
      · simp [hj]; ring
      · simp [hj]
    · rw [if_neg ha]
      rw [ih h.2 (hk.resolve_left (Ne.symm ha)), add_assoc]

theorem hashErase_spec {k : κ} {m : List (ℤ × κ)} (h : (m.map (·.2)).Nodup) (h0 : ∀ x ∈ m, x.2 ≠ k → x.1 ≠ 0) :
    Reduced (hashErase k m) ∧ ∀ j, coefOf (hashErase k m) j = coefOf m j := by
  unfold hashErase
  split
  · rename_i h1
    simp only [List.any_eq_true, decide_eq_true_eq] at h1
    obtain ⟨x, hx, hxk, hx0⟩ := h1
    refine ⟨⟨h.sublist (List.filter_sublist.map _), fun y hy => ?_⟩, fun j => ?_⟩
    · rw [List.mem_filter] at hy
      exact h0 y hy.1 (by simpa using hy.2)
    · by_cases hj : j = k
      · subst hj
        rw [coefOf_notMem, ← hxk, coefOf_mem h hx, hx0]
        intro hc
        obtain ⟨y, hy, he⟩ := List.mem_map.1 hc
        rw [List.mem_filter] at hy
        simp [he] at hy
      · unfold coefOf
        rw [List.filter_filter]
        congr 2
        refine List.filter_congr fun y _ => ?_
        by_cases hy : y.2 = j
        · simp [hy, hj]
        · simp [hy]
  · rename_i h1
    simp only [List.any_eq_true, decide_eq_true_eq] at h1
    push Not at h1
    refine ⟨⟨h, fun x hx => ?_⟩, fun _ => rfl⟩
    by_cases hk : x.2 = k
    · exact h1 x hx hk
    · exact h0 x hx hk

theorem hashStep_spec (c : ℤ) (k : κ) {m : List (ℤ × κ)} (hm : Reduced m) :
    Reduced (hashErase k (hashIncrease c k (hashTouch k m))) ∧
      ∀ j, coefOf (hashErase k (hashIncrease c k (hashTouch k m))) j = coefOf m j + if k = j then c else 0 := by
  obtain ⟨h1, h2, h3, h4⟩ := hashTouch_spec k hm
  have h5 : ∀ x ∈ hashIncrease c k (hashTouch k m), x.2 ≠ k → x.1 ≠ 0 := by
    intro x hx hne
    obtain ⟨y, hy, rfl⟩ := List.mem_map.1 hx
    split at hne
    · rename_i he; exact absurd he hne
    · rename_i he; rw [if_neg he]; exact h4 y hy hne
  obtain ⟨h6, h7⟩ := hashErase_spec (by rw [hashIncrease_keys]; exact h1) h5
  exact ⟨h6, fun j => by rw [h7, coefOf_hashIncrease c k h1 h2, h3]⟩

theorem hashAdd_spec (c : ℤ) (k : κ) {m : List (ℤ × κ)} (hm : Reduced m) :
    Reduced (hashAdd c k m) ∧ ∀ j, coefOf (hashAdd c k m) j = coefOf m j + if k = j then c else 0 := by
  unfold hashAdd
  split
  · rename_i h; exact ⟨hm, fun j => by simp [h]⟩
  · exact hashStep_spec c k hm

theorem hashAddAll_spec (adds : List (ℤ × κ)) : Reduced (adds.foldl (fun m x => hashAdd x.1 x.2 m) []) ∧
    ∀ j, coefOf (adds.foldl (fun m x => hashAdd x.1 x.2 m) []) j = coefOf adds j := by
  suffices ∀ m : List (ℤ × κ), Reduced m → Reduced (adds.foldl (fun m x => hashAdd x.1 x.2 m) m) ∧
      ∀ j, coefOf (adds.foldl (fun m x => hashAdd x.1 x.2 m) m) j = coefOf m j + coefOf adds j by
    obtain ⟨h1, h2⟩ := this [] (by simp [Reduced])
    exact ⟨h1, fun j => by rw [h2, coefOf_nil, zero_add]⟩
  induction adds with
  | nil => intro m hm; exact ⟨hm, fun j => by simp [coefOf_nil]⟩
  | cons a l ih =>
    intro m hm
    obtain ⟨h1, h2⟩ := hashAdd_spec a.1 a.2 hm
    obtain ⟨h3, h4⟩ := ih _ h1
    refine ⟨h3, fun j => ?_⟩
    rw [List.foldl_cons, h4, h2, coefOf_cons, add_assoc]

omit [DecidableEq κ] in
theorem hashFeed_perm (before : κ → κ → Prop) [DecidableRel before] {order : List (ℤ × κ) → List (ℤ × κ)}
    (ho : ∀ l, (order l).Perm l) (canonical : Bool) (m : List (ℤ × κ)) : (hashFeed before order canonical m).Perm m := by
  unfold hashFeed
  split
  · exact (List.perm_insertionSort _ _).trans (ho m)
  · exact ho m

omit [DecidableEq κ] in
theorem hashFeed_sorted (before : κ → κ → Prop) [DecidableRel before] [Std.Total before] [IsTrans κ before]
    (order : List (ℤ × κ) → List (ℤ × κ)) (m : List (ℤ × κ)) :
    (hashFeed before order true m).Pairwise fun a b => before a.2 b.2 := by
  unfold hashFeed
  rw [if_pos rfl]
  have : Std.Total fun a b : ℤ × κ => before a.2 b.2 := ⟨fun a b => Std.Total.total a.2 b.2⟩
  have : IsTrans (ℤ × κ) fun a b : ℤ × κ => before a.2 b.2 := ⟨fun _ _ _ h h' => _root_.trans h h'⟩
  exact List.pairwise_insertionSort _ _

/-! ## Polynomial -/

theorem polyCollect_spec (done : List (ℤ × Term n)) (last : ℤ × Term n) (xs : List (ℤ × Term n))
    (hsort : (done.reverse ++ [last] ++ xs).Pairwise fun a b => lexLE b.2 a.2)
    (hd : ((last :: done).map (·.2)).Nodup) (h0 : ∀ x ∈ done, x.1 ≠ 0) :
    (∀ t, coefOf (polyCollect done last xs) t = coefOf done t + (if last.2 = t then last.1 else 0) + coefOf xs t) ∧
      (polyCollect done last xs).Pairwise (fun a b => lexLE b.2 a.2 ∧ a.2 ≠ b.2) ∧
      (∀ x ∈ (polyCollect done last xs).dropLast, x.1 ≠ 0) := by
  induction xs generalizing done last with
  | nil =>
    unfold polyCollect
    refine ⟨fun t => ?_, ?_, ?_⟩
    · rw [coefOf_append, coefOf_perm (List.reverse_perm done), coefOf_cons, coefOf_nil]; ring
    · rw [List.append_nil] at hsort
      have h2 : (done.reverse ++ [last]).Pairwise fun a b => a.2 ≠ b.2 := by
        have h3 : ((done.reverse ++ [last]).map (·.2)).Nodup := by
          refine (List.Perm.nodup_iff (List.Perm.map _ ?_)).1 hd
          exact (List.perm_append_comm (l₁ := [last]) (l₂ := done)).trans
            (List.Perm.append_right _ (List.reverse_perm done).symm)
        rwa [List.Nodup, List.pairwise_map] at h3
      exact hsort.and h2
    · intro x hx
      rw [List.dropLast_concat] at hx
      exact h0 x (List.mem_reverse.1 hx)
  | cons x xs ih =>
    unfold polyCollect
    have hlx : lexLE x.2 last.2 := by
      have := List.pairwise_append.1 hsort
      exact this.2.2 last (by simp) x (by simp)
    have hdx : ∀ d ∈ done, lexLE x.2 d.2 := fun d hd' =>
      (List.pairwise_append.1 hsort).2.2 d (by simp [hd']) x (by simp)
    have hld : ∀ d ∈ done, lexLE last.2 d.2 := fun d hd' =>
      (List.pairwise_append.1 (List.pairwise_append.1 hsort).1).2.2 d (by simp [hd']) last (by simp)
    have hdl : ∀ d ∈ done, d.2 ≠ last.2 := by
      intro d hd' he
      rw [List.map_cons, List.nodup_cons] at hd
      exact hd.1 (he ▸ List.mem_map.2 ⟨d, hd', rfl⟩)
    have hne : last.2 ≠ x.2 → ∀ d ∈ done, d.2 ≠ x.2 := by
      intro h d hd' he
      have h1 : lexLE d.2 last.2 := he ▸ hlx
      exact hdl d hd' (lexLE_antisymm h1 (hld d hd'))
    split
    · rename_i he
      have := ih done (last.1 + x.1, last.2) ?_ hd h0
      · refine ⟨fun t => ?_, this.2⟩
        rw [this.1, coefOf_cons, ← he]
        by_cases ht : last.2 = t <;> simp [ht]; ring
      · simp only [List.append_assoc, List.singleton_append, List.pairwise_append, List.pairwise_cons, List.mem_cons] at hsort ⊢
        refine ⟨hsort.1, ⟨fun y hy => hsort.2.1.1 y (Or.inr hy), hsort.2.1.2.2⟩, fun d hd' y hy => ?_⟩
        rcases hy with rfl | hy
        · exact hsort.2.2 d hd' last (Or.inl rfl)
        · exact hsort.2.2 d hd' y (Or.inr (Or.inr hy))
    · rename_i he
      have hsub : (done.reverse ++ [x] ++ xs).Pairwise fun a b => lexLE b.2 a.2 :=
        hsort.sublist (by simp)
      split
      · rename_i hz
        have := ih done x hsub ?_ h0
        · refine ⟨fun t => ?_, this.2⟩
          rw [this.1, coefOf_cons, hz]
          by_cases ht : last.2 = t <;> simp [ht] <;> ring
        · rw [List.map_cons, List.nodup_cons] at hd ⊢
          refine ⟨fun hc => ?_, hd.2⟩
          obtain ⟨d, hd', h1⟩ := List.mem_map.1 hc
          exact hne he d hd' h1
      · rename_i hz
        have := ih (last :: done) x (by simpa using hsort) ?_ ?_
        · refine ⟨fun t => ?_, this.2⟩
          rw [this.1, coefOf_cons, coefOf_cons]; ring
        · rw [List.map_cons, List.nodup_cons]
          refine ⟨fun hc => ?_, hd⟩
          obtain ⟨d, hd', h1⟩ := List.mem_map.1 hc
          rcases List.mem_cons.1 hd' with rfl | hd'
          · exact he h1
          · exact hne he d hd' h1
        · intro y hy
          rcases List.mem_cons.1 hy with rfl | hy
          · exact hz
          · exact h0 y hy

instance : Std.Total fun a b : ℤ × Term n => lexLE b.2 a.2 := ⟨fun a b => (Std.Total.total (r := lexLE) b.2 a.2)⟩
instance : IsTrans (ℤ × Term n) fun a b : ℤ × Term n => lexLE b.2 a.2 := ⟨fun _ _ _ h h' => _root_.trans (r := lexLE) h' h⟩

theorem polySort_spec (p : List (ℤ × Term n)) :
    (∀ t, coefOf (polySort true p) t = coefOf p t) ∧
      (polySort true p).Pairwise (fun a b => lexLE b.2 a.2 ∧ a.2 ≠ b.2) ∧ (∀ x ∈ (polySort true p).dropLast, x.1 ≠ 0) := by
  have hp := List.perm_insertionSort (fun a b : ℤ × Term n => lexLE b.2 a.2) p
  have hs := List.pairwise_insertionSort (fun a b : ℤ × Term n => lexLE b.2 a.2) p
  unfold polySort
  match hc : p.insertionSort fun a b : ℤ × Term n => lexLE b.2 a.2 with
  | [] =>
    rw [hc] at hp
    obtain rfl := List.nil_perm.1 hp
    simp
  | x :: xs =>
    rw [hc] at hp hs
    simp only [if_true]
    have := polyCollect_spec [] x xs (by simpa using hs) (by simp) (by simp)
    refine ⟨fun t => ?_, this.2⟩
    rw [this.1, coefOf_nil, zero_add, ← coefOf_cons, coefOf_perm hp]

theorem polyCollect_reduced (done : List (ℤ × Term n)) (last : ℤ × Term n) (xs : List (ℤ × Term n))
    (h : Reduced (last :: xs)) : polyCollect done last xs = done.reverse ++ last :: xs := by
  induction xs generalizing done last with
  | nil => rfl
  | cons x xs ih =>
    have h1 := h.1
    rw [List.map_cons, List.map_cons, List.nodup_cons, List.mem_cons] at h1
    push Not at h1
    unfold polyCollect
    rw [if_neg h1.1.1, if_neg (h.2 last (by simp)), ih]
    · simp
    · exact ⟨by rw [List.map_cons]; exact h1.2, fun y hy => h.2 y (by simp only [List.mem_cons] at hy ⊢; tauto)⟩

theorem polySort_perm {p : List (ℤ × Term n)} (h : Reduced p) : (polySort true p).Perm p := by
  have hp := List.perm_insertionSort (fun a b : ℤ × Term n => lexLE b.2 a.2) p
  unfold polySort
  match hc : p.insertionSort fun a b : ℤ × Term n => lexLE b.2 a.2 with
  | [] => rw [hc] at hp; exact hp
  | x :: xs =>
    rw [hc] at hp
    simp only [if_true]
    rw [polyCollect_reduced [] x xs (reduced_of_perm hp.symm h)]
    exact hp

end Frobby

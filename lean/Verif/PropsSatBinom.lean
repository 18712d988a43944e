import Verif.SatBinomLemmas
import Verif.ReaderCompleteFormats
import Verif.PropsOptimizeAction
import Verif.PropsListReaderExact
import Verif.LatticeLemmas

/-!
# C71: saturated binomial ideals
-/

namespace Frobby

open SatBinom

variable {n : ℕ}

/-! ## Bodies -/

theorem isLUB_two (a b : Binom n) : IsLUB ({0, a, b} : Set (Binom n)) (rhs2 a b + 1) := by
  constructor
  · rintro x (rfl | rfl | rfl) v <;> simp only [rhs2, Pi.add_apply, Pi.one_apply, Pi.zero_apply] <;> split_ifs <;> omega
  · intro u hu v
    have h0 := hu (show (0 : Binom n) ∈ _ by simp) v
    have h1 : a v ≤ u v := hu (show a ∈ _ by simp) v
    have h2 : b v ≤ u v := hu (show b ∈ _ by simp) v
    simp only [rhs2, Pi.add_apply, Pi.one_apply, Pi.zero_apply] at h0 ⊢
    split_ifs <;> omega

theorem isLUB_three (a b c : Binom n) : IsLUB ({0, a, b, c} : Set (Binom n)) (rhs3 a b c + 1) := by
  constructor
  · rintro x (rfl | rfl | rfl | rfl) v <;> simp only [rhs3, Pi.add_apply, Pi.one_apply, Pi.zero_apply] <;> split_ifs <;> omega
  · intro u hu v
    have h0 := hu (show (0 : Binom n) ∈ _ by simp) v
    have h1 : a v ≤ u v := hu (show a ∈ _ by simp) v
    have h2 : b v ≤ u v := hu (show b ∈ _ by simp) v
    have h3 : c v ≤ u v := hu (show c ∈ _ by simp) v
    simp only [rhs3, Pi.add_apply, Pi.one_apply, Pi.zero_apply] at h0 ⊢
    split_ifs <;> omega

theorem pointFree_of_lub {G : List (Binom n)} {S : Set (Binom n)} {w : Binom n} (h : IsLUB S (w + 1)) :
    PointFree G S ↔ isDominating G w = false := by
  unfold isDominating
  rw [Bool.eq_false_iff, ne_eq, List.any_eq_true]
  simp only [List.all_eq_true, List.mem_finRange, forall_const, Bool.not_eq_true', decide_eq_false_iff_not, not_exists, not_and, not_forall,
    not_not]
  have key : PointFree G S ↔ ∀ g ∈ G, ∃ v, (w + 1) v ≤ g v :=
    ⟨fun hp g hg => hp _ h g hg, fun hp u hu g hg => by rw [hu.unique h]; exact hp g hg⟩
  rw [key]
  refine forall_congr' fun g => imp_congr_right fun _ => exists_congr fun v => ?_
  simp only [Pi.add_apply, Pi.one_apply]
  omega

/-- The tests for point-free bodies are right, for the smallest body with zero, `a` and `b` in it and for that with `c` too. -/
theorem C71_point_free (G : List (Binom n)) (a b c : Binom n) :
    (isPointFreeBody G a b = true ↔ PointFree G {0, a, b}) ∧ (isPointFreeBody3 G a b c = true ↔ PointFree G {0, a, b, c}) := by
  unfold isPointFreeBody isPointFreeBody3
  rw [pointFree_of_lub (isLUB_two a b), pointFree_of_lub (isLUB_three a b c)]
  simp

/-- `(3,1)` and `(1,3)`, with `(2,2)` in the interior of the body. -/
example : isPointFreeBody [![3, 1], ![1, 3], ![2, 2]] ![3, 1] ![1, 3] = false ∧ isPointFreeBody [![3, 1], ![1, 3], ![3, 3]] ![3, 1] ![1, 3] = true ∧
    isPointFreeBody3 [![3, 1], ![1, 3], ![3, 3]] ![3, 1] ![1, 3] ![4, 4] = false := by decide +kernel

/-- The test of `isDominating`. -/
theorem C71_dominating (G : List (Binom n)) (w : Binom n) : isDominating G w = true ↔ ∃ g ∈ G, g ≤ w := by
  unfold isDominating
  rw [List.any_eq_true]
  simp [Pi.le_def]

/-- A zero entry. -/
theorem C71_zero_entry (G : List (Binom n)) : hasZeroEntry G = true ↔ ∃ g ∈ G, ∃ v, g v = 0 := by
  simp [hasZeroEntry]

theorem isInterior_iff (G : List (Binom n)) (a b : Binom n) : isInterior G a b = true ↔ InteriorPair G a b := by
  unfold isInterior InteriorPair
  rw [Bool.and_eq_true, (C71_point_free G a b 0).1, List.all_eq_true]
  refine and_congr_right fun _ => ⟨fun h v hv => ?_, fun h v _ => ?_⟩
  · have := h v (List.mem_finRange v)
    simp only [Bool.or_eq_true, beq_iff_eq, hv, Bool.not_eq_true', Bool.and_eq_false_iff, decide_eq_false_iff_not, not_le, false_or] at this
    exact this
  · simp only [Bool.or_eq_true, beq_iff_eq, Bool.not_eq_true', Bool.and_eq_false_iff, decide_eq_false_iff_not, not_le]
    by_cases hv : v.val = 0
    · exact .inl hv
    · exact .inr (h v hv)

theorem isInteriorEdge_iff (G : List (Binom n)) (a b : Binom n) : isInteriorEdge G a b = true ↔ InteriorEdge G a b := by
  unfold isInteriorEdge InteriorEdge
  have : (fun v => a v + b v) = a + b := rfl
  rw [this, ← isInterior_iff, ← isInterior_iff, ← isInterior_iff]
  split_ifs with h1 h2
  · simp [h1]
  · simp [h2]
  · simp [h1, h2]

/-- The edges of the graph. -/
theorem C71_edges (G : List (Binom n)) (a b : Binom n) : (isInterior G a b = true ↔ InteriorPair G a b) ∧
    (isInteriorEdge G a b = true ↔ InteriorEdge G a b) ∧
    (isTerminatingEdge G a b = true ↔ InteriorEdge G a b ∧ PointFree G {0, a, a + b}) := by
  refine ⟨isInterior_iff G a b, isInteriorEdge_iff G a b, ?_⟩
  unfold isTerminatingEdge
  have : (fun v => a v + b v) = a + b := rfl
  rw [this, ← isInteriorEdge_iff, ← (C71_point_free G a (a + b) 0).1]
  cases isInteriorEdge G a b <;> simp

/-- The comment says that `isInterior` is true if `max(0,a,b)` is strictly positive in every element. The first element can be zero, -/
theorem C71_interior_first_false : ∃ (G : List (Binom 3)) (a b : Binom 3), a ∈ G ∧ b ∈ G ∧ isInterior G a b = true ∧ ¬ ∀ v, 0 < a v ∨ 0 < b v :=
  ⟨[![-1, 2, -1], ![-1, -1, 2]], ![-1, 2, -1], ![-1, -1, 2], by simp, by simp, by decide +kernel, fun h => by simpa using h 0⟩

/-- and it is false if all the elements are positive, but the body is not point-free. -/
theorem C71_interior_false : ∃ (G : List (Binom 2)) (a b : Binom 2), a ∈ G ∧ b ∈ G ∧ isInterior G a b = false ∧ ∀ v, 0 < a v ∨ 0 < b v :=
  ⟨[![3, 1], ![1, 3], ![2, 2]], ![3, 1], ![1, 3], by simp, by simp, by decide +kernel, by decide +kernel⟩

/-- The comment of `isTerminatingEdge` has the roles of the two generators the other way round, and that makes a difference. -/
theorem C71_terminating_roles_false : ∃ (G : List (Binom 3)) (a b : Binom 3), a ∈ G ∧ b ∈ G ∧ isTerminatingEdge G a b = true ∧
    ¬ (InteriorPair G a (a + b) ∧ PointFree G {0, b, a + b}) := by
  refine ⟨[![-2, -2, 2], ![-2, 1, -1]], ![-2, -2, 2], ![-2, 1, -1], by simp, by simp, by decide +kernel, ?_⟩
  rw [← (C71_edges _ _ _).1, ← (C71_point_free _ _ _ 0).1]
  decide +kernel

example : isInteriorEdge (n := 3) [![-1, 2, -1], ![-1, -1, 2]] ![-1, 2, -1] ![-1, -1, 2] = true ∧
    isTerminatingEdge (n := 3) [![-1, 2, -1], ![-1, -1, 2]] ![-1, 2, -1] ![-1, -1, 2] = true := by decide +kernel

/-! ## Generic -/

theorem allPairs_iff {α : Type} (f : α → α → Bool) (G : List α) : allPairs f G = true ↔ G.Pairwise fun a b => f a b = true := by
  induction G with
  | nil => simp [allPairs]
  | cons a G ih => simp [allPairs, List.pairwise_cons, ih]

theorem weaklyGeneric_iff (G : List (Binom n)) : initialIdealIsWeaklyGeneric G = true ↔
    G.Pairwise fun a b => (∃ v, a v = b v ∧ 0 < a v) → ¬ PointFree G {0, a, b} := by
  unfold initialIdealIsWeaklyGeneric
  rw [allPairs_iff]
  refine List.Pairwise.iff fun {a b} => ?_
  rw [← (C71_point_free G a b 0).1]
  simp only [sharesEntry, Bool.not_eq_true', Bool.and_eq_false_iff, List.any_eq_false, List.mem_finRange, forall_const, Bool.and_eq_true, beq_iff_eq,
    decide_eq_true_eq, gt_iff_lt, not_and, Bool.not_eq_true]
  constructor
  · rintro (h | h) ⟨v, h1, h2⟩
    · exact absurd h2 (h v h1)
    · exact h
  · intro h
    by_cases hs : ∃ v, a v = b v ∧ 0 < a v
    · exact .inr (h hs)
    · exact .inl fun v h1 h2 => hs ⟨v, h1, h2⟩

theorem initialIdeal_eq (G : List (Binom n)) : initialIdeal G = G.map leading := by
  unfold initialIdeal
  refine List.map_congr_left fun g _ => funext fun v => ?_
  simp only [leading]
  split_ifs <;> omega

theorem exists_minimalIn {α : Type} [Fintype α] {S : List (α → ℕ)} {f : α → ℕ} (hf : f ∈ S) : ∃ g, MinimalIn S g ∧ ∀ x, g x ≤ f x := by
  generalize hm : ∑ x, f x = m
  induction m using Nat.strong_induction_on generalizing f with
  | _ m ih =>
    by_cases hmin : ∀ g ∈ S, (∀ x, g x ≤ f x) → g = f
    · exact ⟨f, ⟨hf, hmin⟩, fun _ => le_rfl⟩
    · push Not at hmin
      obtain ⟨g, hg, hle, hne⟩ := hmin
      have hlt : ∑ x, g x < ∑ x, f x := by
        refine Finset.sum_lt_sum (fun x _ => hle x) ?_
        by_contra hc
        push Not at hc
        exact hne (funext fun x => le_antisymm (hle x) (hc x (Finset.mem_univ x)))
      obtain ⟨h, h1, h2⟩ := ih _ (hm ▸ hlt) hg rfl
      exact ⟨h, h1, fun x => (h2 x).trans (hle x)⟩

theorem not_pointFree {G : List (Binom n)} {a b : Binom n} : ¬ PointFree G {0, a, b} ↔ ∃ g ∈ G, ∀ v, g v < max 0 (max (a v) (b v)) := by
  have key : PointFree G {0, a, b} ↔ ∀ g ∈ G, ∃ v, (rhs2 a b + 1) v ≤ g v :=
    ⟨fun hp g hg => hp _ (isLUB_two a b) g hg, fun hp u hu g hg => by rw [hu.unique (isLUB_two a b)]; exact hp g hg⟩
  have hv : ∀ v, (rhs2 a b + 1) v = max 0 (max (a v) (b v)) := by
    intro v
    simp only [rhs2, Pi.add_apply, Pi.one_apply]
    split_ifs <;> omega
  rw [key]
  push Not
  simp only [hv]

/-- If the program says that the initial ideal is weakly generic then it is. -/
theorem C71_weakly_generic_sound (G : List (Binom n)) (h : initialIdealIsWeaklyGeneric G = true) : WeaklyGeneric (initialIdeal G) := by
  rw [weaklyGeneric_iff] at h
  rw [initialIdeal_eq]
  rintro f g hf hg hne ⟨x, hx, hx0⟩
  obtain ⟨a, ha, rfl⟩ := List.mem_map.1 hf.1
  obtain ⟨b, hb, rfl⟩ := List.mem_map.1 hg.1
  have hsym : Std.Symm fun a b : Binom n => (∃ v, a v = b v ∧ 0 < a v) → ¬ PointFree G {0, a, b} := by
    refine ⟨?_⟩
    rintro a b h ⟨v, h1, h2⟩ hp
    refine h ⟨v, h1.symm, h1 ▸ h2⟩ ?_
    have : ({0, a, b} : Set (Binom n)) = {0, b, a} := by ext; simp [or_comm]
    rwa [this]
  have hab : a ≠ b := fun hc => hne (by rw [hc])
  have hnp := h.forall ha hb hab ⟨x, by simp only [leading] at hx hx0; omega, by simp only [leading] at hx0; omega⟩
  obtain ⟨c, hc, hlt⟩ := not_pointFree.1 hnp
  obtain ⟨m, hm, hle⟩ := exists_minimalIn (List.mem_map_of_mem (f := leading) hc)
  refine ⟨m, hm, fun y => ?_⟩
  have h1 := hle y
  have h2 := hlt y
  simp only [leading] at h1 ⊢
  omega

/-- The program is right about an ideal whose vectors have no zero entry, when no initial monomial divides another one. -/
theorem C71_generic (G : List (Binom n)) (hmin : (G.map leading).Pairwise fun f g => ¬ (∀ v, f v ≤ g v) ∧ ¬ (∀ v, g v ≤ f v)) :
    isGeneric G = true ↔ (∀ g ∈ G, ∀ v, g v ≠ 0) ∧ WeaklyGeneric (initialIdeal G) := by
  unfold isGeneric
  rw [Bool.and_eq_true, Bool.not_eq_true', Bool.eq_false_iff, ne_eq, C71_zero_entry]
  have hz : (¬ ∃ g ∈ G, ∃ v, g v = 0) ↔ ∀ g ∈ G, ∀ v, g v ≠ 0 := by push Not; rfl
  rw [hz]
  refine and_congr_right fun hnz => ⟨C71_weakly_generic_sound G, fun h => ?_⟩
  rw [weaklyGeneric_iff]
  rw [initialIdeal_eq] at h
  have hsym : Std.Symm fun f g : Fin n → ℕ => ¬ (∀ v, f v ≤ g v) ∧ ¬ (∀ v, g v ≤ f v) := ⟨fun _ _ h => ⟨h.2, h.1⟩⟩
  have hminimal : ∀ g ∈ G, MinimalIn (G.map leading) (leading g) := by
    intro g hg
    refine ⟨List.mem_map_of_mem hg, fun f hf hle => ?_⟩
    by_contra hne
    exact (hmin.forall hf (List.mem_map_of_mem hg) hne).1 hle
  rw [List.pairwise_map] at hmin
  refine (List.pairwise_iff_forall_sublist).2 fun {a b} hs ⟨v, h1, h2⟩ => ?_
  have hp := (List.pairwise_iff_forall_sublist.1 hmin) hs
  have ha : a ∈ G := hs.subset (by simp)
  have hb : b ∈ G := hs.subset (by simp)
  obtain ⟨m, hm, hlt⟩ := h (leading a) (leading b) (hminimal a ha) (hminimal b hb) (fun hc => hp.1 fun v => by rw [hc])
    ⟨v, by simp only [leading]; omega, by simp only [leading]; omega⟩
  obtain ⟨c, hc, rfl⟩ := List.mem_map.1 hm.1
  refine not_pointFree.2 ⟨c, hc, fun y => ?_⟩
  have h3 := hlt y
  have h4 := hnz c hc y
  simp only [leading] at h3
  omega

/-- Generic and not generic. The generators of the second ideal have no zero entry, so the comment of `isGeneric` ("generic, i.e. no
generator has a zero entry") is not what the program does. -/
example : isGeneric (n := 3) [![2, -1, -1], ![-1, 2, -1], ![-1, -1, 2]] = true ∧ isGeneric (n := 3) [![1, 1, -2], ![1, -2, 1], ![-2, 1, 1]] = false := by
  decide +kernel

theorem C71_generic_no_zero_false : ∃ G : List (Binom 3), (∀ g ∈ G, ∀ v, g v ≠ 0) ∧ isGeneric G = false :=
  ⟨[![1, 1, -2], ![1, -2, 1], ![-2, 1, 1]], by decide +kernel, by decide +kernel⟩

/-- With a zero entry, the program can say that a weakly generic initial ideal is not weakly generic. Here the initial monomials are
`x^2y^2`, `x^2z^2` and `xyz`. The third divides the least common multiple of the others with smaller exponents for the variables that
appear in it, but the vector of the third has a zero entry for the last variable, which does not. -/
theorem C71_weakly_generic_complete_false : ∃ G : List (Binom 4),
    ((G.map leading).Pairwise fun f g => ¬ (∀ v, f v ≤ g v) ∧ ¬ (∀ v, g v ≤ f v)) ∧
      WeaklyGeneric (initialIdeal G) ∧ initialIdealIsWeaklyGeneric G = false := by
  refine ⟨[![2, 2, 0, -1], ![2, 0, 2, -1], ![1, 1, 1, 0]], by decide +kernel, ?_, by decide +kernel⟩
  rw [initialIdeal_eq]
  have hm : MinimalIn (List.map leading [![2, 2, 0, -1], ![2, 0, 2, -1], ![1, 1, 1, 0]]) (leading (n := 4) ![1, 1, 1, 0]) := by
    unfold MinimalIn
    decide +kernel
  rintro f g hf hg hne ⟨x, hx, hx0⟩
  refine ⟨leading ![1, 1, 1, 0], hm, ?_⟩
  have h1 := hf.1
  have h2 := hg.1
  simp only [List.map_cons, List.map_nil, List.mem_cons, List.not_mem_nil, or_false] at h1 h2
  rcases h1 with rfl | rfl | rfl <;> rcases h2 with rfl | rfl | rfl <;> first | exact absurd rfl hne | decide +kernel | skip
  all_goals exfalso; revert hx hx0; revert x; decide +kernel

/-! ## Counting and removing -/

theorem countPairs_spec {α : Type} (p : α → α → Bool) (G : List α) : ∃ pairs : List (ℕ × ℕ), pairs.Nodup ∧ pairs.length = countPairs p G ∧
    ∀ i j, (i, j) ∈ pairs ↔ i < j ∧ ∃ a b, G[i]? = some a ∧ G[j]? = some b ∧ p a b = true := by
  induction G with
  | nil => exact ⟨[], by simp, rfl, by simp⟩
  | cons x G ih =>
    obtain ⟨pairs, h1, h2, h3⟩ := ih
    refine ⟨(((List.range G.length).filter fun j => (G[j]?.map (p x)).getD false).map fun j => (0, j + 1)) ++ pairs.map fun q => (q.1 + 1, q.2 + 1),
      ?_, ?_, ?_⟩
    · rw [List.nodup_append]
      refine ⟨List.Nodup.map (fun a b h => by simpa using h) (List.nodup_range.filter _), List.Nodup.map (fun a b h => ?_) h1, ?_⟩
      · simp only [Prod.mk.injEq, Nat.add_right_cancel_iff] at h
        exact Prod.ext h.1 h.2
      · rintro a ha b hb rfl
        obtain ⟨j, -, rfl⟩ := List.mem_map.1 ha
        obtain ⟨q, -, hq⟩ := List.mem_map.1 hb
        simp at hq
    · rw [List.length_append, List.length_map, List.length_map, h2, countPairs]
      congr 1
      rw [← List.countP_eq_length_filter]
      have hG : G = (List.finRange G.length).map fun i => G[i] := by simp
      conv_rhs => rw [hG, List.countP_map]
      rw [← List.map_coe_finRange_eq_range, List.countP_map]
      refine List.countP_congr fun i _ => ?_
      simp
    · intro i j
      rw [List.mem_append, List.mem_map, List.mem_map]
      cases j with
      | zero => simp
      | succ j =>
        cases i with
        | zero =>
          simp only [List.mem_filter, List.mem_range, Prod.mk.injEq, true_and, Nat.add_right_cancel_iff, Nat.zero_lt_succ, List.getElem?_cons_zero,
            Option.some.injEq, List.getElem?_cons_succ, Nat.add_one_ne_zero, false_and, and_false, exists_const, or_false]
          constructor
          · rintro ⟨k, ⟨hk, hp⟩, rfl⟩
            rw [List.getElem?_eq_getElem hk] at hp ⊢
            exact ⟨x, G[k], rfl, rfl, by simpa using hp⟩
          · rintro ⟨a, b, rfl, hb, hp⟩
            obtain ⟨hj, -⟩ := List.getElem?_eq_some_iff.1 hb
            exact ⟨j, ⟨hj, by simp [hb, hp]⟩, rfl⟩
        | succ i =>
          simp only [Prod.mk.injEq, List.getElem?_cons_succ, Nat.add_lt_add_iff_right]
          rw [← h3]
          constructor
          · rintro (⟨_, -, h, -⟩ | ⟨⟨a, b⟩, h, h4, h5⟩)
            · omega
            · simp only [Nat.add_right_cancel_iff] at h4 h5
              rwa [← h4, ← h5]
          · intro h
            exact .inr ⟨(i, j), h, rfl, rfl⟩

/-- The number of pairs of generators for which zero, `a` and `a + b` make a point-free body, and zero, `b` and `a + b` too. -/
theorem C71_double_triangles (G : List (Binom n)) : ∃ pairs : List (ℕ × ℕ), pairs.Nodup ∧ pairs.length = doubleTriangleCount G ∧
    ∀ i j, (i, j) ∈ pairs ↔ i < j ∧ ∃ a b, G[i]? = some a ∧ G[j]? = some b ∧ PointFree G {0, a, a + b} ∧ PointFree G {0, b, a + b} := by
  obtain ⟨pairs, h1, h2, h3⟩ := countPairs_spec (fun a b => isPointFreeBody G a (fun v => a v + b v) && isPointFreeBody G b (fun v => a v + b v)) G
  refine ⟨pairs, h1, h2, fun i j => ?_⟩
  rw [h3]
  simp only [Bool.and_eq_true, (C71_point_free G _ _ 0).1]
  rfl

example : doubleTriangleCount (n := 3) [![2, -1, -1], ![-1, 2, -1], ![-1, -1, 2]] = 3 := by decide +kernel

theorem removeLoop_perm (p : Binom n → Bool) : ∀ (fuel : ℕ) (pre rest : List (Binom n)), rest.length ≤ fuel →
    (removeLoop p fuel pre.length (pre ++ rest)).Perm (pre ++ rest.filter fun g => !p g) := by
  intro fuel
  induction fuel with
  | zero =>
    intro pre rest h
    have : rest = [] := List.length_eq_zero_iff.1 (by omega)
    subst this
    simp [removeLoop]
  | succ fuel ih =>
    intro pre rest h
    cases rest with
    | nil => simp [removeLoop]
    | cons g rest =>
      have hg : (pre ++ g :: rest)[pre.length]? = some g := by simp
      simp only [List.length_cons] at h
      unfold removeLoop
      by_cases hp : p g = true
      · rcases List.eq_nil_or_concat rest with rfl | ⟨mid, last, rfl⟩
        · have hl : (pre ++ [g]).getLast? = some g := by simp
          rw [hg, hl]
          simp only [hp, if_true]
          have : ((pre ++ [g]).set pre.length g).dropLast = pre ++ [] := by simp
          rw [this]
          simpa [hp] using ih pre [] (by simp)
        · have hl : (pre ++ g :: (mid ++ [last])).getLast? = some last := by
            rw [← List.cons_append, ← List.append_assoc, List.getLast?_concat]
          rw [List.concat_eq_append] at hg h ⊢
          rw [hg, hl]
          simp only [hp, if_true]
          have : ((pre ++ g :: (mid ++ [last])).set pre.length last).dropLast = pre ++ last :: mid := by
            rw [List.set_append_right _ _ le_rfl]
            simp only [Nat.sub_self, List.set_cons_zero]
            rw [← List.cons_append, ← List.append_assoc, List.dropLast_concat]
          rw [this]
          refine (ih pre (last :: mid) (by simp at h ⊢; omega)).trans ?_
          refine List.Perm.append_left pre ?_
          rw [List.filter_cons_of_neg (a := g) (by simp [hp])]
          exact (List.perm_append_singleton last mid).symm.filter _
      · obtain ⟨l, hl⟩ : ∃ l, (pre ++ g :: rest).getLast? = some l := ⟨_, List.getLast?_eq_some_getLast (by simp)⟩
        rw [hg, hl]
        simp only [hp]
        have h1 := ih (pre ++ [g]) rest (by omega)
        rw [List.length_append, List.length_singleton, List.append_assoc, List.singleton_append] at h1
        refine h1.trans ?_
        simp [hp]

/-- What is left when the generators with a zero first entry are removed, and when those with another first entry are removed. -/
theorem C71_remove (G : List (Binom (n + 1))) :
    (removeWithLeadingZero G).Perm (G.filter fun g => g 0 ≠ 0) ∧ (removeWithoutLeadingZero G).Perm (G.filter fun g => g 0 = 0) := by
  have h1 := removeLoop_perm (fun g : Binom (n + 1) => g 0 == 0) G.length [] G le_rfl
  have h2 := removeLoop_perm (fun g : Binom (n + 1) => g 0 != 0) G.length [] G le_rfl
  simp only [List.nil_append, List.length_nil] at h1 h2
  refine ⟨?_, ?_⟩
  · unfold removeWithLeadingZero
    convert h1 using 2
    funext g
    by_cases h : g 0 = 0 <;> simp [h]
  · unfold removeWithoutLeadingZero
    convert h2 using 2
    funext g
    by_cases h : g 0 = 0 <;> simp [h]

example : removeWithLeadingZero (n := 1) [![0, 1], ![2, 1], ![0, 3], ![4, 1], ![5, 1]] = [![5, 1], ![2, 1], ![4, 1]] ∧
    removeWithoutLeadingZero (n := 1) [![0, 1], ![2, 1], ![0, 3], ![4, 1], ![5, 1]] = [![0, 1], ![0, 3]] := by decide +kernel

/-! ## The graph -/

theorem properEdge_iff (G : List (Binom n)) (i j : Fin G.length) : properEdge G i j = true ↔ ProperEdge G (G.get i) (G.get j) := by
  unfold properEdge ProperEdge
  rw [List.getElem?_eq_getElem i.2, List.getElem?_eq_getElem j.2]
  simp only [Bool.and_eq_true, Bool.not_eq_true', Bool.eq_false_iff, ne_eq, List.get_eq_getElem]
  have h := C71_edges G G[i.val] G[j.val]
  rw [h.2.1, h.2.2]
  tauto

theorem properEdge_lt {G : List (Binom n)} {i j : ℕ} (h : properEdge G i j = true) : i < G.length ∧ j < G.length := by
  unfold properEdge at h
  split at h
  · rename_i h1 h2
    exact ⟨(List.getElem?_eq_some_iff.1 h1).1, (List.getElem?_eq_some_iff.1 h2).1⟩
  · simp at h

theorem cycle_iff (G : List (Binom n)) : (∃ v, Relation.TransGen (SatBinom.Edge (properEdge G) G.length) v v) ↔ HasCycle G := by
  constructor
  · rintro ⟨v, hv⟩
    have key : ∀ w, Relation.TransGen (SatBinom.Edge (properEdge G) G.length) v w → ∃ (h1 : v < G.length) (h2 : w < G.length),
        Relation.TransGen (fun i j : Fin G.length => ProperEdge G (G.get i) (G.get j)) ⟨v, h1⟩ ⟨w, h2⟩ := by
      intro w hw
      induction hw with
      | single h =>
        have hl := properEdge_lt h.2
        exact ⟨hl.1, hl.2, .single ((properEdge_iff G ⟨_, hl.1⟩ ⟨_, hl.2⟩).1 h.2)⟩
      | tail _ h ih =>
        obtain ⟨h1, h2, h3⟩ := ih
        have hl := properEdge_lt h.2
        exact ⟨h1, hl.2, .tail h3 ((properEdge_iff G ⟨_, hl.1⟩ ⟨_, hl.2⟩).1 h.2)⟩
    obtain ⟨h1, _, h3⟩ := key v hv
    exact ⟨⟨v, h1⟩, h3⟩
  · rintro ⟨i, hi⟩
    exact ⟨i.val, Relation.TransGen.lift (p := SatBinom.Edge (properEdge G) G.length) Fin.val (fun a b h => ⟨b.2, (properEdge_iff G a b).2 h⟩) _ _ hi⟩

theorem countP_eq_one_iff {α : Type} (p : α → Bool) (G : List α) : G.countP p = 1 ↔ ∃! j : Fin G.length, p (G.get j) = true := by
  have hG : G = (List.finRange G.length).map G.get := by simp
  conv_lhs => rw [hG, List.countP_map, List.countP_eq_length_filter, List.length_eq_one_iff]
  constructor
  · rintro ⟨j, hj⟩
    have hm : ∀ x, x ∈ (List.finRange G.length).filter (p ∘ G.get) ↔ x = j := by rw [hj]; simp
    simp only [List.mem_filter, List.mem_finRange, true_and, Function.comp_apply] at hm
    exact ⟨j, (hm j).2 rfl, fun x hx => (hm x).1 hx⟩
  · rintro ⟨j, hj, hu⟩
    refine ⟨j, ?_⟩
    have hnd : ((List.finRange G.length).filter (p ∘ G.get)).Nodup := (List.nodup_finRange _).filter _
    have hm : ∀ x, x ∈ (List.finRange G.length).filter (p ∘ G.get) ↔ x = j := by
      intro x
      simp only [List.mem_filter, List.mem_finRange, true_and, Function.comp_apply]
      exact ⟨hu x, fun h => h ▸ hj⟩
    exact List.perm_singleton.1 ((List.perm_ext_iff_of_nodup hnd (by simp)).2 (by simpa using hm))

theorem degreeOk_iff (G : List (Binom n)) (a : Binom n) : degreeOk G a = true ↔
    (¬ InteriorPair G a a → ∃! j : Fin G.length, InteriorEdge G a (G.get j)) := by
  unfold degreeOk
  simp only [← isInterior_iff, ← isInteriorEdge_iff, ← countP_eq_one_iff (fun b => isInteriorEdge G a b)]
  by_cases h : isInterior G a a = true
  · have : ∀ b, isInteriorEdge G a b = false := by intro b; unfold isInteriorEdge; rw [if_pos h]
    simp [h, this]
  · simp [h]

/-- The search for cycles gives an answer and finds exactly the cycles of edges that do not terminate. -/
theorem C71_cycles (G : List (Binom n)) : ∃ b color, anyCycle G = some (b, color) ∧ (b = true ↔ HasCycle G) := by
  obtain ⟨b, color, h1, h2⟩ := search_spec (edge := properEdge G) (count := G.length) fun u v h => (properEdge_lt h).1
  exact ⟨b, color, h1, h2.trans (cycle_iff G)⟩

/-- `validate` gives an answer, and what the answer says. -/
theorem C71_validate (G : List (Binom n)) : ∃ b, validate G = some b ∧ (b = true ↔ (∃ g ∈ G, ∃ v, g v = 0) ∨ GraphOk G) := by
  unfold validate
  rw [← C71_zero_entry]
  by_cases hz : hasZeroEntry G = true
  · rw [if_pos hz]
    exact ⟨true, rfl, by simp [hz]⟩
  · rw [if_neg hz]
    obtain ⟨b, color, h1, h2⟩ := C71_cycles G
    rw [h1]
    cases b with
    | true => exact ⟨false, rfl, by simp [hz, GraphOk, h2.1 rfl]⟩
    | false =>
      have hn : ¬ HasCycle G := fun h => by simpa using h2.2 h
      refine ⟨_, rfl, ?_⟩
      simp only [hz, false_or, GraphOk, hn, not_false_eq_true, true_and, List.all_eq_true, degreeOk_iff, Bool.false_eq_true]
      constructor
      · intro h i
        exact h _ (List.get_mem G i)
      · intro h g hg
        obtain ⟨i, rfl⟩ := List.mem_iff_get.1 hg
        exact h i

/-- An edge that does not terminate is not a cycle of length 1, and is not part of one of length 2. -/
theorem C71_short_cycles (G : List (Binom n)) (a b : Binom n) : ¬ ProperEdge G a a ∧ ¬ (ProperEdge G a b ∧ ProperEdge G b a) := by
  refine ⟨fun h => h.2 h.1.1.1, fun h => h.1.2 ?_⟩
  have := h.2.1.1.1
  rwa [add_comm b a] at this

/-- There are cycles of length 3. -/
theorem C71_cycle_exists : ∃ G : List (Binom 4), (∀ g ∈ G, ∀ v, g v ≠ 0) ∧ HasCycle G ∧ validate G = some false := by
  refine ⟨[![1, -2, 3, 2], ![-3, 1, 2, -1], ![-1, -1, 4, 1], ![-1, 1, 1, -1], ![1, 3, -1, 1]], by decide +kernel, ?_, by decide +kernel⟩
  obtain ⟨b, color, h1, h2⟩ := C71_cycles (n := 4) [![1, -2, 3, 2], ![-3, 1, 2, -1], ![-1, -1, 4, 1], ![-1, 1, 1, -1], ![1, 3, -1, 1]]
  refine h2.1 ?_
  have h3 : (anyCycle (n := 4) [![1, -2, 3, 2], ![-3, 1, 2, -1], ![-1, -1, 4, 1], ![-1, 1, 1, -1], ![1, 3, -1, 1]]).map Prod.fst = some true := by
    decide +kernel
  rw [h1] at h3
  simpa using h3

example : validate (n := 3) [![-2, -1, 2], ![-2, 2, -1]] = some true ∧
    validate (n := 3) [![2, -1, -1], ![-1, 2, -1], ![-1, -1, 2], ![1, 1, -2], ![1, -2, 1]] = some false := by decide +kernel

/-- A zero entry anywhere makes `validate` true, although the graph is not as it should be. -/
theorem C71_validate_zero_false : ∃ G : List (Binom 3), validate G = some true ∧ ¬ GraphOk G := by
  refine ⟨[![1, 1, -1], ![0, 0, -1]], by decide +kernel, fun h => ?_⟩
  have h1 := h.2 ⟨0, by simp⟩
  rw [← degreeOk_iff] at h1
  revert h1
  decide +kernel

/-! ## The text -/

theorem readBinomEntry_sound (acc : List ℤ) (s : List ℤ) (t : Text) (s' : List ℤ) (r : Text) (h : s = acc) (h1 : readBinomEntry s t = some (s', r)) :
    ∃ a, integerG a t r ∧ s' = acc ++ [a] := by
  unfold readBinomEntry at h1
  simp only [Option.map_eq_some_iff, Prod.mk.injEq] at h1
  obtain ⟨⟨x, r1⟩, h2, rfl, rfl⟩ := h1
  exact ⟨x, readInteger_sound h2, by rw [h]⟩

theorem readBinom_sound (m : ℕ) (acc : List (List ℤ)) (s : List (List ℤ)) (t : Text) (s' : List (List ℤ)) (r : Text) (h : s = acc)
    (h1 : readBinom m s t = some (s', r)) : ∃ row, (row.length = m ∧ Many integerG row t r) ∧ s' = acc ++ [row] := by
  unfold readBinom at h1
  simp only [Option.map_eq_some_iff, Prod.mk.injEq] at h1
  obtain ⟨⟨row, r1⟩, h2, rfl, rfl⟩ := h1
  obtain ⟨as, h3, h4, h5⟩ := readTimes_sound (Inv := fun acc s => s = acc) readBinomEntry_sound _ [] _ _ _ _ rfl h2
  simp only [List.nil_append] at h5
  subst h5
  exact ⟨row, ⟨h3, h4⟩, by rw [h]⟩

theorem readSatBinom_sound {t r : Text} {I : NamedBinoms} (h : readSatBinom t = some (I, r)) : satBinomG I t r := by
  simp only [readSatBinom, Option.bind_eq_bind, Option.bind_eq_some_iff] at h
  obtain ⟨⟨g, r1⟩, h1, ⟨m, r2⟩, h2, ⟨gens, r3⟩, h3, h⟩ := h
  obtain ⟨as, h4, h5, h6⟩ := readTimes_sound (Inv := fun acc s => s = acc) (readBinom_sound m) _ [] _ _ _ _ rfl h3
  simp only [List.nil_append] at h6
  subst h6
  simp only at h4 h5 h2
  split at h
  · simp only [Option.bind_eq_some_iff, Option.some.injEq, Prod.mk.injEq] at h
    obtain ⟨⟨names, r4⟩, h7, rfl, rfl⟩ := h
    obtain ⟨as, h8, h9, h10, h11⟩ := readTimes_sound readName_sound _ [] _ _ _ _ ⟨rfl, by simp⟩ h7
    simp only [List.nil_append] at h10 h11
    subst h10
    exact ⟨r1, h4 ▸ readSizeT_sizeG h1, r2, h8 ▸ readSizeT_sizeG h2, r3, h8 ▸ h5, Or.inr ⟨h11, h9⟩⟩
  · simp only [Option.some.injEq, Prod.mk.injEq] at h
    obtain ⟨rfl, rfl⟩ := h
    refine ⟨r1, h4 ▸ readSizeT_sizeG h1, r2, ?_, r3, ?_, Or.inl ⟨?_, rfl⟩⟩
    · simp only [defaultNames_length]
      exact readSizeT_sizeG h2
    · simp only [defaultNames_length]
      exact h5
    · simp only [defaultNames_length]

theorem readBinomEntry_complete (total : List ℤ) : Reads readBinomEntry integerG (fun acc s => s = acc) (fun _ => True) total := by
  rintro acc a rest s t r t0 - rfl h - h0
  obtain ⟨r0, h1, h2⟩ := integer_complete h h0
  exact ⟨s ++ [a], r0, by simp [readBinomEntry, h1], rfl, h2⟩

theorem readBinom_complete (m : ℕ) (total : List (List ℤ)) :
    Reads (readBinom m) (fun row t r => row.length = m ∧ Many integerG row t r) (fun acc s => s = acc) (fun _ => True) total := by
  rintro acc row rest s t r t0 - rfl ⟨h, h'⟩ - h0
  obtain ⟨s', r0, h1, h2, h3⟩ := readTimes_complete (fun _ _ _ _ => next_true _) (readBinomEntry_complete row) h' [] [] t0 (by simp) rfl (next_true _) h0
  simp only [List.nil_append] at h2
  subst h2
  exact ⟨s ++ [s'], r0, by simp [readBinom, ← h, h1], rfl, h3⟩

theorem readSatBinom_complete {I : NamedBinoms} {t r t0 : Text} (h : satBinomG I t r) (hnx : Next (fun c => isAlpha c = false) r) (h0 : Alike t0 t) :
    ∃ r0, readSatBinom t0 = some (I, r0) ∧ Alike r0 r := by
  obtain ⟨names, gens⟩ := I
  obtain ⟨u1, h1, u2, h2, u3, h3, h4⟩ := h
  simp only at h1 h2 h3 h4
  obtain ⟨r1, a1, b1⟩ := readSizeT_complete h1 h0
  obtain ⟨r2, a2, b2⟩ := readSizeT_complete h2 b1
  obtain ⟨gens', r3, a3, hk, b3⟩ := readTimes_complete (fun _ _ _ _ => next_true _) (readBinom_complete names.length gens) h3 [] [] r2 (by simp) rfl
    (next_true _) b2
  simp only [List.nil_append] at hk
  subst hk
  have hno : Alike u3 r → names = defaultNames names.length → ∃ r0, readSatBinom t0 = some (⟨names, gens'⟩, r0) ∧ Alike r0 r := by
    intro hu hd
    have b4 := b3.trans hu
    have hp : peekIdentifier r3 = false := peekIdentifier_next (hnx.congr b4)
    refine ⟨r3, ?_, b4⟩
    simp only [readSatBinom, Option.bind_eq_bind, a1, a2, a3, Option.bind_some, hp]
    rw [if_neg (by simp), ← hd]
  rcases h4 with ⟨h4, rfl⟩ | ⟨hnd, h4⟩
  · exact hno (.refl _) h4
  · cases hnames : names with
    | nil =>
      subst hnames
      cases h4 with
      | nil h5 => exact hno (lit_nil_alike h5) rfl
    | cons x l =>
      rw [← hnames]
      have hp : peekIdentifier r3 = true := by
        rw [hnames] at h4
        cases h4 with
        | cons h5 _ => exact peekIdentifier_complete h5 b3
      obtain ⟨names', r4, a4, ⟨h6, _⟩, b4⟩ := readTimes_complete (fun _ _ _ _ => next_true _) (readName_complete hnd) h4 [] [] r3 (by simp)
        ⟨rfl, by simp⟩ (next_true _) b3
      simp only [List.nil_append] at h6
      subst h6
      refine ⟨r4, ?_, b4⟩
      simp only [readSatBinom, Option.bind_eq_bind, a1, a2, a3, Option.bind_some, hp, if_true, a4]

/-- The reader accepts exactly the texts of the format, and gives their meaning. -/
theorem C71_read_exact {t : Text} {I : NamedBinoms} : (∃ r, readSatBinom t = some (I, r) ∧ matchEOF r = true) ↔ (satBinomG I ⊹ lit []) t [] := by
  constructor
  · rintro ⟨r, h1, h2⟩
    exact ⟨r, readSatBinom_sound h1, matchEOF_iff.1 h2⟩
  · rintro ⟨u, h1, h2⟩
    have h3 : eatWhite u = [] := lit_nil_alike h2
    obtain ⟨r, h4, h5⟩ := readSatBinom_complete h1 (fun c hc => by rw [h3] at hc; simp at hc) (.refl t)
    refine ⟨r, h4, ?_⟩
    unfold matchEOF
    rw [h5, h3]
    rfl

theorem satBinomG_next {I : NamedBinoms} {t r : Text} (h : satBinomG I t r) : Next (fun c => isAlpha c = false) t := by
  obtain ⟨_, h2, _⟩ := h
  refine next_of_first (sizeG_first h2) ?_
  rintro c (hc | rfl | rfl)
  · have h3 : 48 ≤ c.toNat ∧ c.toNat ≤ 57 := by simpa [isDigit] using hc
    simp only [isAlpha, decide_eq_false_iff_not]
    omega
  · decide
  · decide

/-- So does a reader that reads two ideals from the same text, one after the other. -/
theorem C71_read_two_exact {t : Text} {I J : NamedBinoms} :
    (∃ u r, readSatBinom t = some (I, u) ∧ readSatBinom u = some (J, r) ∧ matchEOF r = true) ↔ (satBinomG I ⊹ satBinomG J ⊹ lit []) t [] := by
  constructor
  · rintro ⟨u, r, h0, h1, h2⟩
    exact ⟨u, readSatBinom_sound h0, r, readSatBinom_sound h1, matchEOF_iff.1 h2⟩
  · rintro ⟨u, h0, v, h1, h2⟩
    have h3 : eatWhite v = [] := lit_nil_alike h2
    obtain ⟨u0, a1, b1⟩ := readSatBinom_complete h0 (satBinomG_next h1) (.refl t)
    obtain ⟨r, h4, h5⟩ := readSatBinom_complete h1 (fun c hc => by rw [h3] at hc; simp at hc) b1
    refine ⟨u0, r, a1, h4, ?_⟩
    unfold matchEOF
    rw [h5, h3]
    rfl

example : readSatBinom t!"2 3\n 2 -1 -1\n-1 +2 -1\n x y z\n1 1 5" = some (⟨[t!"x", t!"y", t!"z"], [[2, -1, -1], [-1, 2, -1]]⟩, t!"\n1 1 5") ∧
    readSatBinom t!"\n1 1 5" = some (⟨[t!"x1"], [[5]]⟩, []) ∧ readSatBinom t!"1 2 3 4 x x" = none := by decide +kernel

end Frobby

import Verif.PartitionLemmas
import Mathlib.SetTheory.Cardinal.Finite

/-!
# C27: `Partition` is a correct union-find
-/

namespace Frobby

variable {n : ℕ}

/-- Two elements are connected by the joins of a history. -/
def Connected (ops : List (PartOp n)) (i j : Fin n) : Prop := Relation.EqvGen (fun a b => PartOp.join a b ∈ ops) i j

/-- C27: no history of calls goes wrong: `getRoot` always ends without leaving the array. -/
theorem C27_total (ops : List (PartOp n)) : ∃ P, Part.history ops = some P ∧
    (∀ i, ∃ r P', P.getRoot i = some (r, P')) ∧ (∀ i, ∃ c P', P.getSizeOfClassOf i = some (c, P')) ∧
      ∀ k, ∃ c P', P.getSetSize k = some (c, P') := by
  obtain ⟨P, h1, h2⟩ := history_rep ops
  refine ⟨P, h1, fun i => ?_, fun i => ?_, fun k => ?_⟩
  · obtain ⟨P', h, _⟩ := getRoot_spec h2 i; exact ⟨_, _, h⟩
  · obtain ⟨P', h, _⟩ := sizeOfClassOf_rep h2 i; exact ⟨_, _, h⟩
  · obtain ⟨P', h, _⟩ := setSize_rep h2 k; exact ⟨_, _, h⟩

/-- C27: after any history, two elements have the same root iff the joins connect them, and the root of an element is
connected to it. -/
theorem C27_roots {ops : List (PartOp n)} {P Pi Pj : Part n} (h : Part.history ops = some P) {i j ri rj : Fin n}
    (hi : P.getRoot i = some (ri, Pi)) (hj : P.getRoot j = some (rj, Pj)) :
    (ri = rj ↔ Connected ops i j) ∧ Connected ops i ri := by
  obtain ⟨P', h1, h2⟩ := history_rep ops
  rw [h] at h1
  obtain rfl := Option.some.inj h1
  obtain ⟨_, h3, _⟩ := getRoot_spec h2 i
  obtain ⟨_, h4, _⟩ := getRoot_spec h2 j
  rw [hi] at h3
  rw [hj] at h4
  simp only [Option.some.injEq, Prod.mk.injEq] at h3 h4
  rw [h3.1, h4.1]
  exact ⟨historyUF_conn ops i j, (historyUF_conn ops i _).1 (h2.wf.idem i).symm⟩

/-- C27: `join` says whether the two elements were in different sets. -/
theorem C27_join {ops : List (PartOp n)} {P P' : Part n} (h : Part.history ops = some P) {i j : Fin n} {b : Bool}
    (hj : P.join i j = some (b, P')) : b = true ↔ ¬ Connected ops i j := by
  obtain ⟨Q, h1, h2⟩ := history_rep ops
  rw [h] at h1
  obtain rfl := Option.some.inj h1
  obtain ⟨_, h3, _⟩ := join_rep h2 i j
  rw [hj] at h3
  simp only [Option.some.injEq, Prod.mk.injEq] at h3
  rw [h3.1]
  simp only [decide_eq_true_eq, ne_eq]
  exact not_congr (historyUF_conn ops i j)

/-- The sets that a history makes. -/
def setsOf (ops : List (PartOp n)) : Setoid (Fin n) :=
  ⟨Connected ops, fun i => .refl i, fun h => .symm _ _ h, fun h h' => .trans _ _ _ h h'⟩

/-- C27: `getSetCount` is the number of sets. -/
theorem C27_setCount {ops : List (PartOp n)} {P : Part n} (h : Part.history ops = some P) :
    P.count = Nat.card (Quotient (setsOf ops)) := by
  obtain ⟨Q, h1, h2⟩ := history_rep ops
  rw [h] at h1
  obtain rfl := Option.some.inj h1
  rw [h2.count, h2.wf.count]
  set p := historyUF ops
  have hq : ∀ i j, p.root i = p.root j ↔ Connected ops i j := historyUF_conn ops
  let f : Quotient (setsOf ops) → {r // r ∈ p.roots} :=
    Quotient.lift (fun i => ⟨p.root i, UF.mem_roots.2 (h2.wf.idem i)⟩)
      (fun i j hij => Subtype.ext ((hq i j).2 hij))
  have hf : Function.Bijective f := by
    constructor
    · intro a b
      induction a using Quotient.inductionOn with | _ a =>
      induction b using Quotient.inductionOn with | _ b =>
      intro hab
      exact Quotient.sound ((hq a b).1 (congrArg Subtype.val hab))
    · rintro ⟨r, hr⟩
      exact ⟨Quotient.mk _ r, Subtype.ext (UF.mem_roots.1 hr)⟩
  rw [Nat.card_congr (Equiv.ofBijective f hf)]
  rw [Nat.card_eq_fintype_card, Fintype.card_subtype]
  rw [← List.toFinset_card_of_nodup (UF.nodup_roots p)]
  congr 1
  ext r; simp

/-- C27: `getSizeOfClassOf` is one more than the number of calls of `addToSet` with an element of the set. -/
theorem C27_sizeOfClassOf {ops : List (PartOp n)} {P P' : Part n} (h : Part.history ops = some P) {i : Fin n} {c : ℕ}
    (hc : P.getSizeOfClassOf i = some (c, P')) (p : Fin n → Bool) (hp : ∀ x, p x = true ↔ Connected ops x i) :
    c = 1 + (ops.filterMap PartOp.added).countP p := by
  obtain ⟨Q, h1, h2⟩ := history_rep ops
  rw [h] at h1
  obtain rfl := Option.some.inj h1
  obtain ⟨_, h3, _⟩ := sizeOfClassOf_rep h2 i
  rw [hc] at h3
  simp only [Option.some.injEq, Prod.mk.injEq] at h3
  rw [h3.1, UF.sizeOfClassOf, historyUF_wt ops _ (h2.wf.idem i), addCount]
  congr 1
  refine List.countP_congr fun x _ => ?_
  rw [decide_eq_true_eq, hp]
  exact historyUF_conn ops x i

/-- C27: `getSetSize` of the set number `k`, the sets being ordered by their roots, is the number of calls of `addToSet`
with an element of the set. -/
theorem C27_setSize {ops : List (PartOp n)} {P P' : Part n} (h : Part.history ops = some P) {k c : ℕ} (hk : k < P.count)
    (hc : P.getSetSize k = some (c, P')) :
    ∃ r, (∃ Pr, P.getRoot r = some (r, Pr)) ∧
      ((List.finRange n).filter fun x => decide (x < r ∧ (P.getRoot x).map (·.1) = some x)).length = k ∧
      ∀ p : Fin n → Bool, (∀ x, p x = true ↔ Connected ops x r) → c = (ops.filterMap PartOp.added).countP p := by
  obtain ⟨Q, h1, h2⟩ := history_rep ops
  rw [h] at h1
  obtain rfl := Option.some.inj h1
  obtain ⟨_, h3, _⟩ := setSize_rep h2 k
  rw [hc] at h3
  simp only [Option.some.injEq, Prod.mk.injEq] at h3
  have hk' : k < (historyUF ops).roots.length := by rw [← h2.wf.count, ← h2.count]; exact hk
  set r := (historyUF ops).roots[k] with hr
  have hroot : (historyUF ops).root r = r := UF.mem_roots.1 (List.getElem_mem hk')
  obtain ⟨Pr, h4, _⟩ := getRoot_spec h2 r
  rw [hroot] at h4
  refine ⟨r, ⟨Pr, h4⟩, ?_, fun p hp => ?_⟩
  · have e1 : ((List.finRange n).filter fun x => decide (x < r ∧ (P.getRoot x).map (·.1) = some x)) =
        (historyUF ops).roots.filter fun x => decide (x < r) := by
      rw [UF.roots, List.filter_filter]
      refine List.filter_congr fun x _ => ?_
      obtain ⟨Px, h5, _⟩ := getRoot_spec h2 x
      rw [h5]
      simp [Bool.decide_and]
    rw [e1]
    have hs : (historyUF ops).roots.Pairwise (· < ·) := (List.pairwise_lt_finRange n).filter _
    have hsplit : (historyUF ops).roots.filter (fun x => decide (x < r)) = (historyUF ops).roots.take k := by
      conv_lhs => rw [← List.take_append_drop k (historyUF ops).roots]
      rw [List.filter_append]
      have ha : ((historyUF ops).roots.take k).filter (fun x => decide (x < r)) = (historyUF ops).roots.take k := by
        rw [List.filter_eq_self]
        intro x hx
        obtain ⟨i, hi, rfl⟩ := List.mem_take_iff_getElem.1 hx
        rw [decide_eq_true_eq, hr]
        exact List.pairwise_iff_getElem.1 hs i k _ _ (by omega)
      have hb : ((historyUF ops).roots.drop k).filter (fun x => decide (x < r)) = [] := by
        rw [List.filter_eq_nil_iff]
        intro x hx
        obtain ⟨i, hi, rfl⟩ := List.mem_drop_iff_getElem.1 hx
        rw [decide_eq_true_eq, hr, not_lt]
        rcases Nat.eq_zero_or_pos i with rfl | hpos
        · simp
        · exact le_of_lt (List.pairwise_iff_getElem.1 hs k (k + i) _ _ (by omega))
      rw [ha, hb, List.append_nil]
    rw [hsplit, List.length_take]; omega
  · rw [h3.1, UF.setSize, List.getElem?_eq_getElem hk']
    simp only [← hr]
    rw [historyUF_wt ops r hroot, addCount, Nat.add_sub_cancel_left]
    refine List.countP_congr fun x _ => ?_
    rw [decide_eq_true_eq, hp, ← hroot, historyUF_conn ops x, hroot]
    rfl

/-- A history with a path that is compressed: 0-1, 2-3, 1-3 joined, then the root of 3 is looked up. -/
example : ((Part.history (n := 5) [.join 0 1, .join 2 3, .addToSet 3, .join 1 3, .getRoot 3]).map
    fun P => (List.ofFn P.arr, P.count)) = some ([-2, 0, 0, 0, -1], 2) := by decide

example : Connected (n := 5) [.join 0 1, .join 2 3, .addToSet 3, .join 1 3, .getRoot 3] 0 2 :=
  .trans _ 1 _ (.rel _ _ (by simp)) (.trans _ 3 _ (.rel _ _ (by simp)) (.symm _ _ (.rel _ _ (by simp))))

end Frobby

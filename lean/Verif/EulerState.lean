import Verif.EulerModel
import Verif.EulerSum
import Verif.SqfLemmas
import Mathlib.Data.List.GetD

/-!
# What the operations on states do to the sum
-/

namespace Frobby

open EulerState

/-- What `EulerState::debugIsValid` checks, and that the terms have no variables outside of the ring. -/
structure StateOk (s : EulerState) : Prop where
  elim : s.eliminated ⊆ Finset.range s.varCount
  sub : ∀ g ∈ s.ideal.gens, g ⊆ Finset.range s.varCount
  disj : ∀ g ∈ s.ideal.gens, Disjoint g s.eliminated
  anti : Antichain s.ideal.gens

/-- The sum of a state without the sign. -/
def EulerState.sum (s : EulerState) : ℤ := eSum s.varCount s.ideal.gens s.eliminated

/-- The contribution of a state. -/
def EulerState.val (s : EulerState) : ℤ := s.sign * s.sum

/-- The size of a state. -/
def EulerState.size (s : EulerState) : ℕ := s.nonEliminated + s.genCount

theorem nonEliminated_eq {s : EulerState} (h : StateOk s) : s.nonEliminated = (Finset.range s.varCount \ s.eliminated).card := by
  rw [nonEliminated, Finset.card_sdiff_of_subset h.elim, Finset.card_range]

/-! ### Colon by a variable -/

theorem toColonVar_ok {s : EulerState} (h : StateOk s) {v : ℕ} (hv : v < s.varCount) : StateOk (s.toColonVar v) := by
  obtain ⟨h1, h2⟩ := sqColonReminimizeVar_spec h.anti v
  have hmem : ∀ g ∈ (s.toColonVar v).ideal.gens, ∃ x ∈ s.ideal.gens, g = x.erase v := fun g hg => by
    obtain ⟨x, hx, rfl⟩ := List.mem_map.1 (h2.sub.subset hg)
    exact ⟨x, hx, rfl⟩
  have hV : (s.toColonVar v).varCount = s.varCount := h1
  refine ⟨?_, ?_, ?_, h2.anti⟩
  · rw [hV]
    exact Finset.insert_subset (by simpa using hv) h.elim
  · intro g hg
    rw [hV]
    obtain ⟨x, hx, rfl⟩ := hmem g hg
    exact (Finset.erase_subset _ _).trans (h.sub x hx)
  · intro g hg
    obtain ⟨x, hx, rfl⟩ := hmem g hg
    show Disjoint _ (insert v s.eliminated)
    rw [Finset.disjoint_insert_right]
    exact ⟨by simp, (h.disj x hx).mono_left (Finset.erase_subset _ _)⟩

theorem toColonVar_sum {s : EulerState} (h : StateOk s) (v : ℕ) :
    (s.toColonVar v).sum = eSum s.varCount s.ideal.gens (insert v s.eliminated) := by
  obtain ⟨h1, h2⟩ := sqColonReminimizeVar_spec h.anti v
  unfold EulerState.sum
  rw [show (s.toColonVar v).varCount = s.varCount from h1]
  rw [show (s.toColonVar v).ideal = s.ideal.colonReminimizeVar v from rfl]
  rw [eSum_subperm h2.sub h2.cov]
  exact eSum_erase (Finset.mem_insert_self _ _)

theorem toColonVar_size {s : EulerState} (h : StateOk s) {v : ℕ} (hv : v < s.varCount) (hn : v ∉ s.eliminated) :
    (s.toColonVar v).size < s.size := by
  obtain ⟨h1, h2⟩ := sqColonReminimizeVar_spec h.anti v
  have h3 := h2.sub.length_le
  rw [List.length_map] at h3
  unfold EulerState.size
  rw [nonEliminated_eq h, nonEliminated_eq (toColonVar_ok h hv)]
  rw [show (s.toColonVar v).varCount = s.varCount from h1, show (s.toColonVar v).eliminated = insert v s.eliminated from rfl]
  have : (Finset.range s.varCount \ insert v s.eliminated).card < (Finset.range s.varCount \ s.eliminated).card := by
    apply Finset.card_lt_card
    rw [Finset.ssubset_iff_of_subset (Finset.sdiff_subset_sdiff (fun _ h => h) (Finset.subset_insert _ _))]
    exact ⟨v, by simp [hv, hn], by simp⟩
  have h4 : (s.toColonVar v).genCount ≤ s.genCount := h3
  omega

theorem toColonVarNo_ok {s : EulerState} (h : StateOk s) {v : ℕ} (hv : v < s.varCount) (hall : ∀ g ∈ s.ideal.gens, v ∈ g) :
    StateOk (s.toColonVarNoReminimize v) := by
  refine ⟨Finset.insert_subset (Finset.mem_range.2 hv) h.elim, ?_, ?_, ?_⟩
  · intro g hg
    obtain ⟨x, hx, rfl⟩ := List.mem_map.1 hg
    exact (Finset.erase_subset _ _).trans (h.sub x hx)
  · intro g hg
    obtain ⟨x, hx, rfl⟩ := List.mem_map.1 hg
    show Disjoint _ (insert v s.eliminated)
    rw [Finset.disjoint_insert_right]
    exact ⟨by simp, (h.disj x hx).mono_left (Finset.erase_subset _ _)⟩
  · show Antichain (s.ideal.gens.map fun g => g.erase v)
    unfold Antichain
    rw [List.pairwise_map]
    refine List.Pairwise.imp_of_mem (fun {x y} hx hy hxy => ⟨fun hs => hxy.1 ?_, fun hs => hxy.2 ?_⟩) h.anti
    · rw [← Finset.insert_erase (hall x hx), ← Finset.insert_erase (hall y hy)]
      exact Finset.insert_subset_insert v hs
    · rw [← Finset.insert_erase (hall x hx), ← Finset.insert_erase (hall y hy)]
      exact Finset.insert_subset_insert v hs

theorem toColonVarNo_sum (s : EulerState) (v : ℕ) :
    (s.toColonVarNoReminimize v).sum = eSum s.varCount s.ideal.gens (insert v s.eliminated) :=
  eSum_erase (by simp [toColonVarNoReminimize])

/-! ### Colon by a term -/

theorem toColon_ok {s : EulerState} (h : StateOk s) {p : SqTerm} (hp : p ⊆ Finset.range s.varCount) : StateOk (s.toColon p) := by
  obtain ⟨h1, h2⟩ := colonReminimize_spec h.anti p
  have hmem : ∀ g ∈ (s.toColon p).ideal.gens, ∃ x ∈ s.ideal.gens, g = x \ p := fun g hg => by
    obtain ⟨x, hx, rfl⟩ := List.mem_map.1 (h2.sub.subset hg)
    exact ⟨x, hx, rfl⟩
  have hV : (s.toColon p).varCount = s.varCount := h1
  refine ⟨?_, ?_, ?_, h2.anti⟩
  · rw [hV]
    exact Finset.union_subset h.elim hp
  · intro g hg
    rw [hV]
    obtain ⟨x, hx, rfl⟩ := hmem g hg
    exact Finset.sdiff_subset.trans (h.sub x hx)
  · intro g hg
    obtain ⟨x, hx, rfl⟩ := hmem g hg
    show Disjoint _ (s.eliminated ∪ p)
    rw [Finset.disjoint_union_right]
    exact ⟨(h.disj x hx).mono_left Finset.sdiff_subset, Finset.sdiff_disjoint⟩

theorem toColon_sum {s : EulerState} (h : StateOk s) (p : SqTerm) :
    (s.toColon p).sum = eSum s.varCount s.ideal.gens (s.eliminated ∪ p) := by
  obtain ⟨h1, h2⟩ := colonReminimize_spec h.anti p
  unfold EulerState.sum
  rw [show (s.toColon p).varCount = s.varCount from h1]
  rw [show (s.toColon p).ideal = s.ideal.colonReminimize p from rfl]
  rw [eSum_subperm h2.sub h2.cov]
  exact eSum_sdiff Finset.subset_union_right

theorem toColon_size {s : EulerState} (h : StateOk s) {p : SqTerm} (hp : p ⊆ Finset.range s.varCount) :
    (s.toColon p).size ≤ s.size ∧ (p.Nonempty → Disjoint p s.eliminated → (s.toColon p).size < s.size) := by
  obtain ⟨h1, h2⟩ := colonReminimize_spec h.anti p
  have h3 := h2.sub.length_le
  rw [List.length_map] at h3
  have h4 : (s.toColon p).genCount ≤ s.genCount := h3
  unfold EulerState.size
  rw [nonEliminated_eq h, nonEliminated_eq (toColon_ok h hp)]
  rw [show (s.toColon p).varCount = s.varCount from h1, show (s.toColon p).eliminated = s.eliminated ∪ p from rfl]
  have h5 : Finset.range s.varCount \ (s.eliminated ∪ p) ⊆ Finset.range s.varCount \ s.eliminated :=
    Finset.sdiff_subset_sdiff (fun _ h => h) Finset.subset_union_left
  have h6 := Finset.card_le_card h5
  refine ⟨by omega, ?_⟩
  rintro ⟨v, hv⟩ hd
  have : (Finset.range s.varCount \ (s.eliminated ∪ p)).card < (Finset.range s.varCount \ s.eliminated).card := by
    apply Finset.card_lt_card
    rw [Finset.ssubset_iff_of_subset h5]
    exact ⟨v, by
      have := hp hv
      simp only [Finset.mem_sdiff]
      exact ⟨this, Finset.disjoint_left.1 hd hv⟩, by simp [hv]⟩
  omega

/-! ### Removing a generator -/

theorem removeGenerator_ok {s : EulerState} (h : StateOk s) {i : ℕ} (hi : i < s.ideal.gens.length) :
    StateOk (s.removeGenerator i) := by
  have hp := removeGenerator_perm hi
  have hsub : ∀ g ∈ (s.ideal.removeGenerator i).gens, g ∈ s.ideal.gens := fun g hg => hp.mem_iff.2 (by simp [hg])
  exact ⟨h.elim, fun g hg => h.sub g (hsub g hg), fun g hg => h.disj g (hsub g hg),
    List.Pairwise.of_cons (h.anti.perm hp)⟩

theorem removeGenerator_genCount {s : EulerState} {i : ℕ} (hi : i < s.ideal.gens.length) :
    (s.removeGenerator i).genCount + 1 = s.genCount := by
  have := (removeGenerator_perm hi).length_eq
  simp only [List.length_cons] at this
  exact this.symm

theorem sum_removeGenerator {s : EulerState} {i : ℕ} (hi : i < s.ideal.gens.length) :
    s.sum = (s.removeGenerator i).sum - eSum s.varCount (s.removeGenerator i).ideal.gens (s.eliminated ∪ s.ideal.gens[i]) := by
  have hp := removeGenerator_perm hi
  unfold EulerState.sum
  rw [eSum_perm hp]
  rfl

/-! ### Splits -/

theorem flipSign_ok {s : EulerState} (h : StateOk s) : StateOk s.flipSign := ⟨h.elim, h.sub, h.disj, h.anti⟩

theorem sumVar_ok {s : EulerState} (h : StateOk s) {v : ℕ} (hv : v < s.varCount) : StateOk (s.sumVar v) := by
  have hmem : ∀ g ∈ s.ideal.gens.filter (fun g => v ∉ g), g ∈ s.ideal.gens ∧ v ∉ g := fun g hg => by
    simpa using List.mem_filter.1 hg
  refine ⟨Finset.insert_subset (Finset.mem_range.2 hv) h.elim, fun g hg => h.sub g (hmem g hg).1, fun g hg => ?_, ?_⟩
  · show Disjoint g (insert v s.eliminated)
    rw [Finset.disjoint_insert_right]
    exact ⟨(hmem g hg).2, h.disj g (hmem g hg).1⟩
  · exact List.Pairwise.sublist List.filter_sublist h.anti

theorem stdSplitVar_spec {s : EulerState} (h : StateOk s) {v : ℕ} (hv : v < s.varCount) (hn : v ∉ s.eliminated) :
    StateOk (s.stdSplitVar v).1 ∧ StateOk (s.stdSplitVar v).2 ∧
      (s.stdSplitVar v).1.val + (s.stdSplitVar v).2.val = s.val ∧
      (s.stdSplitVar v).1.size < s.size ∧ (s.stdSplitVar v).2.size < s.size := by
  refine ⟨sumVar_ok h hv, toColonVar_ok h hv, ?_, ?_, toColonVar_size h hv hn⟩
  · show -s.sign * eSum s.varCount (s.ideal.gens.filter fun g => v ∉ g) (insert v s.eliminated) + s.sign * (s.toColonVar v).sum = _
    rw [toColonVar_sum h, EulerState.val, EulerState.sum, eSum_var hv hn]
    ring
  · show (s.sumVar v).size < _
    unfold EulerState.size
    rw [nonEliminated_eq h, nonEliminated_eq (sumVar_ok h hv)]
    rw [show (s.sumVar v).varCount = s.varCount from rfl, show (s.sumVar v).eliminated = insert v s.eliminated from rfl]
    have h1 : (Finset.range s.varCount \ insert v s.eliminated).card < (Finset.range s.varCount \ s.eliminated).card := by
      apply Finset.card_lt_card
      rw [Finset.ssubset_iff_of_subset (Finset.sdiff_subset_sdiff (fun _ h => h) (Finset.subset_insert _ _))]
      exact ⟨v, by simp [hv, hn], by simp⟩
    have h2 : (s.sumVar v).genCount ≤ s.genCount := List.length_filter_le _ _
    omega

theorem stdSplit_spec {s : EulerState} (h : StateOk s) {p g : SqTerm} (hg : g ∈ s.ideal.gens) (hp : p ⊆ g) (hne : p.Nonempty) :
    StateOk (s.stdSplit p).1 ∧ StateOk (s.stdSplit p).2 ∧
      (s.stdSplit p).1.val + (s.stdSplit p).2.val = s.val ∧ (s.stdSplit p).2.size < s.size ∧
      ((s.stdSplit p).1.size + (s.ideal.gens.countP fun g => p ⊆ g) = s.size + 1) := by
  have hpr : p ⊆ Finset.range s.varCount := hp.trans (h.sub g hg)
  have hmem : ∀ x ∈ s.ideal.gens.filter (fun x => !decide (p ⊆ x)), x ∈ s.ideal.gens ∧ ¬ p ⊆ x := fun x hx => by
    simpa using List.mem_filter.1 hx
  have hok : StateOk (s.sumTerm p) := by
    refine ⟨h.elim, fun x hx => ?_, fun x hx => ?_, ?_⟩
    · rcases List.mem_append.1 hx with hx | hx
      · exact h.sub x (hmem x hx).1
      · rw [List.mem_singleton.1 hx]; exact hpr
    · rcases List.mem_append.1 hx with hx | hx
      · exact h.disj x (hmem x hx).1
      · rw [List.mem_singleton.1 hx]; exact (h.disj g hg).mono_left hp
    · show Antichain (_ ++ [p])
      unfold Antichain
      rw [List.pairwise_append]
      refine ⟨List.Pairwise.sublist List.filter_sublist h.anti, List.pairwise_singleton _ _, fun a ha b hb => ?_⟩
      rw [List.mem_singleton.1 hb]
      obtain ⟨h1, h2⟩ := hmem a ha
      refine ⟨fun hs => ?_, h2⟩
      have := h.anti.eq_of_subset h1 hg (hs.trans hp)
      subst this
      exact h2 hp
  refine ⟨hok, toColon_ok h hpr, ?_, (toColon_size h hpr).2 hne ((h.disj g hg).mono_left hp), ?_⟩
  · show s.sign * eSum s.varCount (_ ++ [p]) s.eliminated + s.sign * (s.toColon p).sum = _
    rw [toColon_sum h, EulerState.val, EulerState.sum]
    have h1 : eSum s.varCount (s.ideal.gens.filter (fun x => !decide (p ⊆ x)) ++ [p]) s.eliminated =
        eSum s.varCount (s.ideal.gens ++ [p]) s.eliminated := by
      refine eSum_subperm (List.filter_sublist.append (List.Sublist.refl _)).subperm (fun x hx => ?_) _
      rcases List.mem_append.1 hx with hx | hx
      · by_cases hs : p ⊆ x
        · exact ⟨p, by simp, hs⟩
        · exact ⟨x, List.mem_append_left _ (List.mem_filter.2 ⟨hx, by simpa using hs⟩), fun _ h => h⟩
      · exact ⟨x, List.mem_append_right _ hx, fun _ h => h⟩
    rw [h1, eSum_perm (List.perm_append_singleton p _)]
    simp only [eSum]
    ring
  · show (s.sumTerm p).nonEliminated + (s.sumTerm p).genCount + _ = s.nonEliminated + s.genCount + 1
    have h1 : (s.sumTerm p).nonEliminated = s.nonEliminated := rfl
    have h2 : (s.sumTerm p).genCount = (s.ideal.gens.filter (fun x => !decide (p ⊆ x))).length + 1 := by
      simp [sumTerm, EulerState.genCount]
    have h3 := List.length_eq_length_filter_add (l := s.ideal.gens) fun x => decide (p ⊆ x)
    rw [List.countP_eq_length_filter]
    have h4 : s.genCount = s.ideal.gens.length := rfl
    omega

theorem genSplit_spec {s : EulerState} (h : StateOk s) {i : ℕ} (hi : i < s.ideal.gens.length) :
    ∃ a b, s.genSplit i = .ok (a, b) ∧ StateOk a ∧ StateOk b ∧ a.val + b.val = s.val ∧ a.size < s.size ∧ b.size < s.size := by
  refine ⟨_, _, dif_pos hi, ?_, removeGenerator_ok h hi, ?_, ?_, ?_⟩
  · exact flipSign_ok (toColon_ok (removeGenerator_ok h hi) (h.sub _ (List.getElem_mem hi)))
  · show -s.sign * ((s.removeGenerator i).toColon _).sum + s.sign * (s.removeGenerator i).sum = _
    rw [toColon_sum (removeGenerator_ok h hi), EulerState.val, sum_removeGenerator hi]
    show -s.sign * eSum s.varCount _ _ + _ = _
    rw [show (s.removeGenerator i).eliminated = s.eliminated from rfl]
    ring
  · have h1 := (toColon_size (removeGenerator_ok h hi) (h.sub _ (List.getElem_mem hi))).1
    have h2 := removeGenerator_genCount hi
    have h3 : (s.removeGenerator i).size + 1 = s.size := by
      show (s.removeGenerator i).nonEliminated + _ + 1 = s.nonEliminated + _
      have : (s.removeGenerator i).nonEliminated = s.nonEliminated := rfl
      omega
    show ((s.removeGenerator i).toColon _).size < _
    omega
  · have h2 := removeGenerator_genCount hi
    show (s.removeGenerator i).nonEliminated + _ < s.nonEliminated + _
    have : (s.removeGenerator i).nonEliminated = s.nonEliminated := rfl
    omega

theorem withGens_spec {s : EulerState} (h : StateOk s) {l : List SqTerm} (hl : l.Perm s.ideal.gens) :
    StateOk (withGens s l) ∧ (withGens s l).val = s.val ∧ (withGens s l).size = s.size := by
  refine ⟨⟨h.elim, fun g hg => h.sub g (hl.mem_iff.1 hg), fun g hg => h.disj g (hl.mem_iff.1 hg), h.anti.perm hl.symm⟩, ?_, ?_⟩
  · show s.sign * eSum s.varCount l s.eliminated = _
    rw [eSum_perm hl]
    rfl
  · show s.nonEliminated + l.length = _
    rw [hl.length_eq]
    rfl

/-! ### Transpose and compaction -/

theorem transpose_ok (s : EulerState) : StateOk s.transpose := by
  have hm := sqMinimize_minimizes (s.ideal.transpose s.eliminated).gens
  refine ⟨by simp [transpose], fun g hg => ?_, fun g hg => by simp [transpose], hm.anti⟩
  obtain ⟨v, hv, rfl⟩ := List.mem_map.1 (hm.sub.subset hg)
  exact Finset.filter_subset _ _

theorem transpose_sum {s : EulerState} : s.transpose.sum = s.sum := by
  have hm := sqMinimize_minimizes (s.ideal.transpose s.eliminated).gens
  show eSum s.ideal.gens.length (sqMinimize (s.ideal.transpose s.eliminated).gens) ∅ = eSum s.varCount s.ideal.gens s.eliminated
  rw [eSum_subperm hm.sub hm.cov, eSum_hit, eSum_cover]
  refine Finset.sum_congr ?_ fun _ _ => rfl
  rw [Finset.sdiff_empty]
  refine Finset.filter_congr fun U hU => ?_
  have hU := Finset.mem_powerset.1 hU
  constructor
  · intro h v hv
    by_cases hve : v ∈ s.eliminated
    · exact Or.inl hve
    · right
      have := h _ (List.mem_map.2 ⟨v, mem_keptVars.2 ⟨hv, hve⟩, rfl⟩)
      rw [Finset.not_disjoint_iff] at this
      obtain ⟨i, hi, hi2⟩ := this
      exact ⟨i, hi, (Finset.mem_filter.1 hi2).2⟩
  · intro h g hg
    obtain ⟨v, hv, rfl⟩ := List.mem_map.1 hg
    obtain ⟨hv1, hv2⟩ := mem_keptVars.1 hv
    rcases h v hv1 with h | ⟨i, hi, h⟩
    · exact absurd h hv2
    · rw [Finset.not_disjoint_iff]
      exact ⟨i, hi, Finset.mem_filter.2 ⟨hU hi, h⟩⟩

theorem transpose_val {s : EulerState} : s.transpose.val = s.val := by
  show s.sign * s.transpose.sum = _
  rw [transpose_sum]
  rfl

theorem transpose_counts {s : EulerState} (h : StateOk s) :
    s.transpose.varCount = s.genCount ∧ s.transpose.nonEliminated = s.genCount ∧ s.transpose.genCount ≤ s.nonEliminated := by
  refine ⟨rfl, by simp [nonEliminated, transpose, SqIdeal.transpose, SqIdeal.minimize, EulerState.varCount, EulerState.genCount], ?_⟩
  rw [nonEliminated_eq h, ← keptVars_length]
  have hm := (sqMinimize_minimizes (s.ideal.transpose s.eliminated).gens).sub.length_le
  rw [SqIdeal.transpose, List.length_map] at hm
  exact hm

theorem getD_mem_keptVars {V : ℕ} {r : SqTerm} {i : ℕ} (h : i < (keptVars V r).length) :
    (keptVars V r).getD i 0 < V ∧ (keptVars V r).getD i 0 ∉ r := by
  rw [← mem_keptVars, List.getD_eq_getElem _ _ h]
  exact List.getElem_mem h

theorem exists_index_keptVars {V : ℕ} {r : SqTerm} {v : ℕ} (h : v < V) (hr : v ∉ r) :
    ∃ i < (keptVars V r).length, (keptVars V r).getD i 0 = v := by
  obtain ⟨i, hi, e⟩ := List.getElem_of_mem (mem_keptVars.2 ⟨h, hr⟩)
  exact ⟨i, hi, by rw [List.getD_eq_getElem _ _ hi, e]⟩

/-- A term without the variables that are removed. -/
def compactTerm (V : ℕ) (r g : SqTerm) : SqTerm := (Finset.range (keptVars V r).length).filter fun i => (keptVars V r).getD i 0 ∈ g

theorem compactTerm_sum (V : ℕ) (r : SqTerm) (l : List SqTerm) (c : SqTerm) :
    eSum (keptVars V r).length (l.map (compactTerm V r)) (compactTerm V r c) = eSum V l (r ∪ c) := by
  induction l generalizing c with
  | nil =>
    simp only [List.map_nil, eSum]
    congr 1
    apply propext
    constructor
    · intro h v hv
      by_cases hr : v ∈ r
      · simp [hr]
      · obtain ⟨i, hi, rfl⟩ := exists_index_keptVars (by simpa using hv) hr
        have := h (Finset.mem_range.2 hi)
        exact Finset.mem_union_right _ (Finset.mem_filter.1 this).2
    · intro h i hi
      obtain ⟨h1, h2⟩ := getD_mem_keptVars (Finset.mem_range.1 hi)
      rcases Finset.mem_union.1 (h (Finset.mem_range.2 h1)) with h3 | h3
      · exact absurd h3 h2
      · exact Finset.mem_filter.2 ⟨hi, h3⟩
  | cons g l ih =>
    simp only [List.map_cons, eSum]
    rw [ih]
    have : compactTerm V r c ∪ compactTerm V r g = compactTerm V r (c ∪ g) := by
      ext i
      simp only [compactTerm, Finset.mem_union, Finset.mem_filter]
      tauto
    rw [this, ih, Finset.union_assoc]

theorem compactIfProfitable_spec {s : EulerState} (h : StateOk s) :
    StateOk s.compactIfProfitable ∧ s.compactIfProfitable.val = s.val ∧ s.compactIfProfitable.size = s.size := by
  unfold compactIfProfitable
  split
  · refine ⟨⟨by simp, fun g hg => ?_, fun g hg => by simp, ?_⟩, ?_, ?_⟩
    · obtain ⟨x, hx, rfl⟩ := List.mem_map.1 hg
      exact Finset.filter_subset _ _
    · show Antichain (s.ideal.gens.map (compactTerm s.varCount s.eliminated))
      unfold Antichain
      rw [List.pairwise_map]
      have key : ∀ x ∈ s.ideal.gens, ∀ y, compactTerm s.varCount s.eliminated x ⊆ compactTerm s.varCount s.eliminated y → x ⊆ y := by
        intro x hx y hs v hv
        obtain ⟨i, hi, rfl⟩ := exists_index_keptVars (by simpa using h.sub x hx hv) (Finset.disjoint_left.1 (h.disj x hx) hv)
        exact (Finset.mem_filter.1 (hs (Finset.mem_filter.2 ⟨Finset.mem_range.2 hi, hv⟩))).2
      exact List.Pairwise.imp_of_mem (fun {x y} hx hy hxy => ⟨fun hs => hxy.1 (key x hx y hs), fun hs => hxy.2 (key y hy x hs)⟩) h.anti
    · show s.sign * eSum (keptVars s.varCount s.eliminated).length (s.ideal.gens.map (compactTerm s.varCount s.eliminated)) ∅ = _
      have := compactTerm_sum s.varCount s.eliminated s.ideal.gens ∅
      rw [Finset.union_empty, show compactTerm s.varCount s.eliminated ∅ = ∅ by simp [compactTerm]] at this
      rw [this]
      rfl
    · show (keptVars s.varCount s.eliminated).length - 0 + (s.ideal.gens.map _).length = _
      rw [keptVars_length, ← nonEliminated_eq h, List.length_map, Nat.sub_zero]
      rfl
  · exact ⟨h, rfl, rfl⟩

end Frobby

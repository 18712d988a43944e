import Verif.EulerState

/-!
# Base cases and simplifications of the Euler characteristic algorithm
-/

namespace Frobby

open EulerState

/-- Every variable has been eliminated or divides a generator. -/
def FullSupport (s : EulerState) : Prop := ∀ v < s.varCount, v ∈ s.eliminated ∨ ∃ g ∈ s.ideal.gens, v ∈ g

theorem hasFullSupport_iff {s : EulerState} (h : StateOk s) : s.ideal.hasFullSupport s.eliminated = true ↔ FullSupport s := by
  unfold SqIdeal.hasFullSupport FullSupport
  rw [decide_eq_true_eq]
  constructor
  · intro e v hv
    have : v ∈ s.eliminated ∪ unionAll s.ideal.gens := e ▸ Finset.mem_range.2 hv
    rcases Finset.mem_union.1 this with h | h
    · exact Or.inl h
    · exact Or.inr (mem_unionAll.1 h)
  · intro hf
    refine Finset.Subset.antisymm (Finset.union_subset h.elim fun v hv => ?_) fun v hv => ?_
    · obtain ⟨g, hg, hv⟩ := mem_unionAll.1 hv
      exact h.sub g hg hv
    · rcases hf v (Finset.mem_range.1 hv) with h | h
      · exact Finset.mem_union_left _ h
      · exact Finset.mem_union_right _ (mem_unionAll.2 h)

/-- A list of one element. -/
theorem eSum_one (V : ℕ) (a c : SqTerm) :
    eSum V [a] c = (if Finset.range V ⊆ c then 1 else 0) - (if Finset.range V ⊆ c ∪ a then 1 else 0) := rfl

theorem eSum_two (V : ℕ) (a b c : SqTerm) :
    eSum V [a, b] c = (if Finset.range V ⊆ c then 1 else 0) - (if Finset.range V ⊆ c ∪ b then 1 else 0) -
      ((if Finset.range V ⊆ c ∪ a then 1 else 0) - (if Finset.range V ⊆ c ∪ a ∪ b then 1 else 0)) := rfl

/-- A generator is contained in whatever covers the ring, but for what has been eliminated. -/
theorem subset_of_cover {s : EulerState} (h : StateOk s) {g d : SqTerm} (hg : g ∈ s.ideal.gens)
    (hc : Finset.range s.varCount ⊆ s.eliminated ∪ d) : g ⊆ d := by
  intro v hv
  rcases Finset.mem_union.1 (hc (h.sub g hg hv)) with h1 | h1
  · exact absurd h1 (Finset.disjoint_left.1 (h.disj g hg) hv)
  · exact h1

theorem baseCaseSimple1_some {s : EulerState} (h : StateOk s) {acc a : ℤ} (hb : baseCaseSimple1 acc s = some a) :
    a = acc + s.val := by
  unfold baseCaseSimple1 at hb
  split at hb
  · rename_i hf
    have : ¬ FullSupport s := fun h2 => by rw [(hasFullSupport_iff h).2 h2] at hf; simp at hf
    rw [EulerState.val, EulerState.sum, eSum_not_full this]
    simpa using hb.symm
  · rename_i hf
    have hfull : FullSupport s := (hasFullSupport_iff h).1 (by simpa using hf)
    have hcov : Finset.range s.varCount ⊆ s.eliminated ∪ unionAll s.ideal.gens := fun v hv => by
      rcases hfull v (Finset.mem_range.1 hv) with h | h
      · exact Finset.mem_union_left _ h
      · exact Finset.mem_union_right _ (mem_unionAll.2 h)
    split at hb
    · cases hb
    · rename_i hle
      rcases hl : s.ideal.gens with _ | ⟨x, _ | ⟨y, _ | ⟨z, l⟩⟩⟩
      · have h0 : s.genCount = 0 := by rw [EulerState.genCount, hl]; rfl
        rw [if_pos h0] at hb
        have : s.sum = 1 := by
          rw [EulerState.sum, hl, eSum, if_pos]
          simpa [hl, unionAll] using hcov
        rw [EulerState.val, this, mul_one]
        exact (Option.some.inj hb).symm
      · have h0 : s.genCount = 1 := by rw [EulerState.genCount, hl]; rfl
        rw [if_neg (by omega), if_neg (by omega)] at hb
        have h1 : Finset.range s.varCount ⊆ s.eliminated ∪ x := by simpa [hl, unionAll] using hcov
        have hs : s.sum = (if Finset.range s.varCount ⊆ s.eliminated then 1 else 0) - 1 := by
          rw [EulerState.sum, hl, eSum_one, if_pos h1]
        by_cases he : Finset.range s.varCount ⊆ s.eliminated
        · have : s.eliminated = Finset.range s.varCount := Finset.Subset.antisymm h.elim he
          rw [if_neg (by simp [termHasFullSupport, this])] at hb
          rw [EulerState.val, hs, if_pos he]
          simpa using hb.symm
        · have : s.eliminated ≠ Finset.range s.varCount := fun e => he e.ge
          rw [if_pos (by simp [termHasFullSupport, this])] at hb
          rw [EulerState.val, hs, if_neg he]
          have := Option.some.inj hb
          rw [← this]
          ring
      · have h0 : s.genCount = 2 := by rw [EulerState.genCount, hl]; rfl
        rw [if_neg (by omega), if_pos h0] at hb
        have hx : x ∈ s.ideal.gens := by simp [hl]
        have hy : y ∈ s.ideal.gens := by simp [hl]
        have hxy : Incomp x y := by
          have := h.anti
          rw [hl] at this
          exact (List.pairwise_cons.1 this).1 y (by simp)
        have h1 : Finset.range s.varCount ⊆ s.eliminated ∪ x ∪ y := by
          simpa [hl, unionAll, Finset.union_assoc] using hcov
        have h2 : ¬ Finset.range s.varCount ⊆ s.eliminated ∪ x := fun hc => hxy.2 (subset_of_cover h hy hc)
        have h3 : ¬ Finset.range s.varCount ⊆ s.eliminated ∪ y := fun hc => hxy.1 (subset_of_cover h hx hc)
        have h4 : ¬ Finset.range s.varCount ⊆ s.eliminated := fun hc => h2 (hc.trans Finset.subset_union_left)
        have hs : s.sum = 1 := by
          rw [EulerState.sum, hl, eSum_two, if_neg h2, if_neg h3, if_neg h4, if_pos h1]
          rfl
        rw [EulerState.val, hs, mul_one]
        exact (Option.some.inj hb).symm
      · exfalso
        apply hle
        rw [EulerState.genCount, hl]
        simp

theorem baseCaseSimple1_none {s : EulerState} (h : StateOk s) {acc : ℤ} (hb : baseCaseSimple1 acc s = none) :
    FullSupport s ∧ 2 < s.genCount := by
  unfold baseCaseSimple1 at hb
  split at hb
  · cases hb
  · rename_i hf
    refine ⟨(hasFullSupport_iff h).1 (by simpa using hf), ?_⟩
    split at hb
    · assumption
    · split at hb
      · cases hb
      · split at hb
        · cases hb
        · split at hb <;> cases hb

/-! ### The invariant of the simplifications -/

/-- The state is valid, has full support and the counts are those of the state. -/
structure OptOk (o : SimpState) : Prop where
  ok : StateOk o.state
  full : FullSupport o.state
  counts : ∀ v, o.divCounts v = o.state.ideal.gens.countP fun g => v ∈ g

/-- The sum that is left to be found out. -/
def SimpState.total (o : SimpState) : ℤ := o.acc + o.state.val

theorem notMem_of_two {s : EulerState} (h : StateOk s) (h2 : 1 < s.genCount) (v : ℕ) :
    ¬ Finset.range s.varCount ⊆ insert v s.eliminated := by
  intro hc
  rcases hl : s.ideal.gens with _ | ⟨x, _ | ⟨y, l⟩⟩
  · rw [EulerState.genCount, hl] at h2; simp at h2
  · rw [EulerState.genCount, hl] at h2; simp at h2
  · have hxy : Incomp x y := by
      have := h.anti
      rw [hl] at this
      exact (List.pairwise_cons.1 this).1 y (by simp)
    have hc' : Finset.range s.varCount ⊆ s.eliminated ∪ {v} := by rwa [Finset.union_comm, ← Finset.insert_eq]
    have hx := subset_of_cover h (g := x) (by simp [hl]) hc'
    have hy := subset_of_cover h (g := y) (by simp [hl]) hc'
    rcases Finset.subset_singleton_iff.1 hx with rfl | rfl
    · exact hxy.1 (by simp)
    · exact hxy.2 hy

theorem toColonVar_varCount {s : EulerState} (h : StateOk s) (v : ℕ) : (s.toColonVar v).varCount = s.varCount :=
  (sqColonReminimizeVar_spec h.anti v).1

theorem toColonVar_full {s : EulerState} (h : StateOk s) (hf : FullSupport s) (v : ℕ)
    (hl : (s.toColonVar v).genCount = s.genCount) : FullSupport (s.toColonVar v) := by
  obtain ⟨h1, h2⟩ := sqColonReminimizeVar_spec h.anti v
  have hp := h2.perm_of_length (by rw [List.length_map]; exact hl)
  intro u hu
  rw [toColonVar_varCount h] at hu
  show u ∈ insert v s.eliminated ∨ _
  by_cases e : u = v
  · simp [e]
  · rcases hf u hu with h3 | ⟨g, hg, h3⟩
    · simp [h3]
    · right
      exact ⟨g.erase v, hp.mem_iff.2 (List.mem_map.2 ⟨g, hg, rfl⟩), Finset.mem_erase.2 ⟨e, h3⟩⟩

theorem countP_erase (l : List SqTerm) (v u : ℕ) :
    (l.map fun g => g.erase v).countP (fun g => u ∈ g) = if u = v then 0 else l.countP fun g => u ∈ g := by
  rw [List.countP_map]
  split
  · rename_i e
    subst e
    rw [List.countP_eq_zero]
    intro g _
    simp
  · rename_i e
    refine List.countP_congr fun g _ => ?_
    simp [e]

theorem toColonVar_optOk {o : SimpState} (h : OptOk o) {v : ℕ} (hv : v < o.state.varCount) (acc : ℤ)
    (hl : (o.state.toColonVar v).genCount = o.state.genCount) : OptOk ⟨acc, o.state.toColonVar v, zeroAt o.divCounts v⟩ := by
  obtain ⟨h1, h2⟩ := sqColonReminimizeVar_spec h.ok.anti v
  have hp := h2.perm_of_length (by rw [List.length_map]; exact hl)
  refine ⟨toColonVar_ok h.ok hv, toColonVar_full h.ok h.full v hl, fun u => ?_⟩
  show zeroAt o.divCounts v u = (o.state.ideal.colonReminimizeVar v).gens.countP _
  rw [hp.countP_eq, countP_erase, zeroAt, h.counts u]

theorem exists_of_count {l : List SqTerm} {v : ℕ} (h : l.countP (fun g => v ∈ g) ≠ 0) : ∃ g ∈ l, v ∈ g := by
  rw [← Nat.pos_iff_ne_zero, List.countP_pos_iff] at h
  simpa using h

theorem notMem_elim_of_count {o : SimpState} (h : OptOk o) {v : ℕ} (hc : o.divCounts v ≠ 0) :
    v ∉ o.state.eliminated ∧ v < o.state.varCount := by
  rw [h.counts] at hc
  obtain ⟨g, hg, hv⟩ := exists_of_count hc
  exact ⟨Finset.disjoint_left.1 (h.ok.disj g hg) hv, Finset.mem_range.1 (h.ok.sub g hg hv)⟩

theorem filter_not_length {l : List SqTerm} {v : ℕ} :
    (l.filter fun g => v ∉ g).length + l.countP (fun g => v ∈ g) = l.length := by
  have := List.length_eq_length_filter_add (l := l) fun g => decide (v ∈ g)
  rw [List.countP_eq_length_filter]
  have e : (l.filter fun g => decide (v ∉ g)) = l.filter fun g => !decide (v ∈ g) := by
    congr 1
    funext g
    simp
  rw [e]
  omega

/-! ### Variables that divide all generators but up to two -/

/-- The result of a simplification that may stop early. -/
structure SimplifyOk (o : SimpState) (r : SimpState × Bool) : Prop where
  ok : StateOk r.1.state
  total : r.1.total = o.total
  size : r.1.state.size ≤ o.state.size
  genCount : r.1.state.genCount ≤ o.state.genCount
  vars : r.1.state.varCount = o.state.varCount
  again : r.2 = true → r.1.state.size < o.state.size
  done : r.2 = false → OptOk r.1 ∧ 2 < r.1.state.genCount

/-- A simplification that can only lower counts to zero. -/
def Lowers (d d' : ℕ → ℕ) : Prop := ∀ v, d' v = d v ∨ d' v = 0

theorem Lowers.refl (d : ℕ → ℕ) : Lowers d d := fun _ => Or.inl rfl

theorem Lowers.trans {d d' d'' : ℕ → ℕ} (h : Lowers d d') (h' : Lowers d' d'') : Lowers d d'' := fun v => by
  rcases h' v with e | e
  · rw [e]; exact h v
  · exact Or.inr e

theorem zeroAt_lowers (d : ℕ → ℕ) (v : ℕ) : Lowers d (zeroAt d v) := fun u => by
  unfold zeroAt
  split
  · exact Or.inr rfl
  · exact Or.inl rfl

theorem manyDiv_total {o : SimpState} (h : OptOk o) {v : ℕ} (hv : o.divCounts v ≠ 0) :
    o.state.sum = eSum o.state.varCount o.state.ideal.gens (insert v o.state.eliminated) -
        eSum o.state.varCount (o.state.ideal.gens.filter fun g => v ∉ g) (insert v o.state.eliminated) := by
  obtain ⟨h1, h2⟩ := notMem_elim_of_count h hv
  exact eSum_var h2 h1

/-- The step for a variable of which one generator is not a multiple. -/
theorem manyDiv_one {o : SimpState} (h : OptOk o) (hG : 2 < o.state.genCount) {v : ℕ} (hv : o.divCounts v = o.state.genCount - 1) :
    (if termHasFullSupport (insert v ((o.state.ideal.gens.getD (o.state.ideal.getNonMultiple v) ∅) ∪ o.state.eliminated))
        o.state.varCount then o.acc + o.state.sign else o.acc) + (o.state.toColonVar v).val = o.total := by
  obtain ⟨h1, h2⟩ := notMem_elim_of_count h (v := v) (by omega)
  have hlen : (o.state.ideal.gens.filter fun g => v ∉ g).length = 1 := by
    have := filter_not_length (l := o.state.ideal.gens) (v := v)
    rw [← h.counts v, hv] at this
    have e : o.state.genCount = o.state.ideal.gens.length := rfl
    omega
  obtain ⟨x, hx⟩ := List.length_eq_one_iff.1 hlen
  have hget : o.state.ideal.gens.getD (o.state.ideal.getNonMultiple v) ∅ = x := by
    have hex : ∃ g ∈ o.state.ideal.gens, decide (v ∉ g) = true := by
      have : x ∈ o.state.ideal.gens.filter fun g => v ∉ g := by rw [hx]; simp
      exact ⟨x, List.mem_filter.1 this⟩
    have hlt : o.state.ideal.getNonMultiple v < o.state.ideal.gens.length := List.findIdx_lt_length_of_exists hex
    rw [List.getD_eq_getElem _ _ hlt]
    have h3 := List.findIdx_getElem (w := hlt)
    have : o.state.ideal.gens[o.state.ideal.getNonMultiple v] ∈ o.state.ideal.gens.filter fun g => v ∉ g :=
      List.mem_filter.2 ⟨List.getElem_mem hlt, h3⟩
    rw [hx] at this
    simpa using this
  rw [hget]
  have hxm : x ∈ o.state.ideal.gens := List.mem_of_mem_filter (by rw [hx]; simp)
  have hnf := notMem_of_two h.ok (by omega) v
  have hsum := manyDiv_total h (v := v) (by omega)
  rw [hx, eSum_one, if_neg hnf] at hsum
  have hiff : termHasFullSupport (insert v (x ∪ o.state.eliminated)) o.state.varCount = true ↔
      Finset.range o.state.varCount ⊆ insert v o.state.eliminated ∪ x := by
    rw [termHasFullSupport, decide_eq_true_eq]
    have e : insert v (x ∪ o.state.eliminated) = insert v o.state.eliminated ∪ x := by
      rw [Finset.insert_union, Finset.union_comm]
    rw [e]
    constructor
    · exact fun e => e.ge
    · exact fun hs => Finset.Subset.antisymm (Finset.union_subset (Finset.insert_subset (Finset.mem_range.2 h2) h.ok.elim)
        (h.ok.sub x hxm)) hs
  rw [EulerState.val, show (o.state.toColonVar v).sign = o.state.sign from rfl, toColonVar_sum h.ok]
  rw [SimpState.total, EulerState.val, hsum]
  by_cases hf : Finset.range o.state.varCount ⊆ insert v o.state.eliminated ∪ x
  · rw [if_pos (hiff.2 hf), if_pos hf]; ring
  · rw [if_neg (fun h => hf (hiff.1 h)), if_neg hf]; ring

/-- The step for a variable of which two generators are not multiples. -/
theorem manyDiv_two {o : SimpState} (h : OptOk o) (hG : 2 < o.state.genCount) {v : ℕ} (hv : o.divCounts v = o.state.genCount - 2) :
    (if termHasFullSupport (insert v (o.state.ideal.lcmOfNonMultiples v ∪ o.state.eliminated))
        o.state.varCount then o.acc - o.state.sign else o.acc) + (o.state.toColonVar v).val = o.total := by
  obtain ⟨h1, h2⟩ := notMem_elim_of_count h (v := v) (by omega)
  have hlen : (o.state.ideal.gens.filter fun g => v ∉ g).length = 2 := by
    have := filter_not_length (l := o.state.ideal.gens) (v := v)
    rw [← h.counts v, hv] at this
    have e : o.state.genCount = o.state.ideal.gens.length := rfl
    omega
  obtain ⟨x, y, hxy⟩ := List.length_eq_two.1 hlen
  have hget : o.state.ideal.lcmOfNonMultiples v = x ∪ y := by
    rw [SqIdeal.lcmOfNonMultiples, hxy]
    simp [unionAll]
  rw [hget]
  have hxm : x ∈ o.state.ideal.gens ∧ v ∉ x := by
    have : x ∈ o.state.ideal.gens.filter fun g => v ∉ g := by rw [hxy]; simp
    simpa using List.mem_filter.1 this
  have hym : y ∈ o.state.ideal.gens ∧ v ∉ y := by
    have : y ∈ o.state.ideal.gens.filter fun g => v ∉ g := by rw [hxy]; simp
    simpa using List.mem_filter.1 this
  have hinc : Incomp x y := by
    have : Antichain [x, y] := by
      rw [← hxy]
      exact List.Pairwise.sublist List.filter_sublist h.ok.anti
    exact (List.pairwise_cons.1 this).1 y (by simp)
  have hnf := notMem_of_two h.ok (by omega) v
  have hcov : ∀ a b : SqTerm, b ∈ o.state.ideal.gens → v ∉ b → Finset.range o.state.varCount ⊆ insert v o.state.eliminated ∪ a →
      b ⊆ a := by
    intro a b hb hvb hc u hu
    rcases Finset.mem_union.1 (hc (h.ok.sub b hb hu)) with h3 | h3
    · rcases Finset.mem_insert.1 h3 with rfl | h3
      · exact absurd hu hvb
      · exact absurd h3 (Finset.disjoint_left.1 (h.ok.disj b hb) hu)
    · exact h3
  have hnx : ¬ Finset.range o.state.varCount ⊆ insert v o.state.eliminated ∪ x := fun hc => hinc.2 (hcov x y hym.1 hym.2 hc)
  have hny : ¬ Finset.range o.state.varCount ⊆ insert v o.state.eliminated ∪ y := fun hc => hinc.1 (hcov y x hxm.1 hxm.2 hc)
  have hsum := manyDiv_total h (v := v) (by omega)
  rw [hxy, eSum_two, if_neg hnf, if_neg hnx, if_neg hny] at hsum
  have hiff : termHasFullSupport (insert v (x ∪ y ∪ o.state.eliminated)) o.state.varCount = true ↔
      Finset.range o.state.varCount ⊆ insert v o.state.eliminated ∪ x ∪ y := by
    rw [termHasFullSupport, decide_eq_true_eq]
    have e : insert v (x ∪ y ∪ o.state.eliminated) = insert v o.state.eliminated ∪ x ∪ y := by
      ext u
      simp only [Finset.mem_insert, Finset.mem_union]
      tauto
    rw [e]
    constructor
    · exact fun e => e.ge
    · exact fun hs => Finset.Subset.antisymm (Finset.union_subset (Finset.union_subset
        (Finset.insert_subset (Finset.mem_range.2 h2) h.ok.elim) (h.ok.sub x hxm.1)) (h.ok.sub y hym.1)) hs
  rw [EulerState.val, show (o.state.toColonVar v).sign = o.state.sign from rfl, toColonVar_sum h.ok]
  rw [SimpState.total, EulerState.val, hsum]
  by_cases hf : Finset.range o.state.varCount ⊆ insert v o.state.eliminated ∪ x ∪ y
  · rw [if_pos (hiff.2 hf), if_pos hf]; ring
  · rw [if_neg (fun h => hf (hiff.1 h)), if_neg hf]; ring

/-- The step for a variable that divides all generators. -/
theorem manyDiv_all {o : SimpState} (h : OptOk o) (hG : 2 < o.state.genCount) {v : ℕ} (hv : o.divCounts v = o.state.genCount) :
    OptOk ⟨o.acc, o.state.toColonVarNoReminimize v, zeroAt o.divCounts v⟩ ∧
      o.acc + (o.state.toColonVarNoReminimize v).val = o.total ∧ (o.state.toColonVarNoReminimize v).size ≤ o.state.size := by
  obtain ⟨h1, h2⟩ := notMem_elim_of_count h (v := v) (by omega)
  have hall : ∀ g ∈ o.state.ideal.gens, v ∈ g := by
    rw [h.counts] at hv
    have := List.countP_eq_length.1 (show _ = o.state.ideal.gens.length from hv)
    simpa using this
  have hok := toColonVarNo_ok h.ok h2 hall
  refine ⟨⟨hok, fun u hu => ?_, fun u => ?_⟩, ?_, ?_⟩
  · show u ∈ insert v o.state.eliminated ∨ _
    by_cases e : u = v
    · simp [e]
    · rcases h.full u hu with h3 | ⟨g, hg, h3⟩
      · simp [h3]
      · exact Or.inr ⟨g.erase v, List.mem_map.2 ⟨g, hg, rfl⟩, Finset.mem_erase.2 ⟨e, h3⟩⟩
  · show zeroAt o.divCounts v u = (o.state.ideal.gens.map fun g => g.erase v).countP _
    rw [countP_erase, zeroAt, h.counts u]
  · have hsum := manyDiv_total h (v := v) (by omega)
    have hnil : (o.state.ideal.gens.filter fun g => v ∉ g) = [] := by
      rw [List.filter_eq_nil_iff]
      intro g hg
      simp [hall g hg]
    rw [hnil, eSum, if_neg (notMem_of_two h.ok (by omega) v), sub_zero] at hsum
    rw [SimpState.total, EulerState.val, EulerState.val, hsum, toColonVarNo_sum]
    rfl
  · show (o.state.toColonVarNoReminimize v).nonEliminated + _ ≤ _
    unfold EulerState.size
    rw [nonEliminated_eq h.ok, nonEliminated_eq hok]
    have h3 : (o.state.toColonVarNoReminimize v).genCount = o.state.genCount := List.length_map _
    rw [h3]
    exact Nat.add_le_add_right (Finset.card_le_card (Finset.sdiff_subset_sdiff (fun _ h => h) (Finset.subset_insert _ _))) _

theorem manyDivLoop_spec {G : ℕ} (hG : 2 < G) (vs : List ℕ) {o : SimpState} (h : OptOk o) (hg : o.state.genCount = G) :
    SimplifyOk o (manyDivLoop G vs o) ∧ Lowers o.divCounts (manyDivLoop G vs o).1.divCounts ∧
      ((manyDivLoop G vs o).2 = false → (manyDivLoop G vs o).1.state.genCount = G ∧
        ∀ v ∈ vs, (manyDivLoop G vs o).1.divCounts v < G - 2) := by
  induction vs generalizing o with
  | nil =>
    rw [manyDivLoop]
    exact ⟨⟨h.ok, rfl, le_refl _, le_refl _, rfl, by simp, fun _ => ⟨h, hg ▸ hG⟩⟩, Lowers.refl _, fun _ => ⟨hg, by simp⟩⟩
  | cons v vs ih =>
    -- what follows a step that does not stop
    have cont : ∀ (acc : ℤ) (state : EulerState), OptOk ⟨acc, state, zeroAt o.divCounts v⟩ → state.genCount = G →
        acc + state.val = o.total → state.size ≤ o.state.size → state.varCount = o.state.varCount →
        SimplifyOk o (manyDivLoop G vs ⟨acc, state, zeroAt o.divCounts v⟩) ∧
        Lowers o.divCounts (manyDivLoop G vs ⟨acc, state, zeroAt o.divCounts v⟩).1.divCounts ∧
        ((manyDivLoop G vs ⟨acc, state, zeroAt o.divCounts v⟩).2 = false →
          (manyDivLoop G vs ⟨acc, state, zeroAt o.divCounts v⟩).1.state.genCount = G ∧
          ∀ u ∈ v :: vs, (manyDivLoop G vs ⟨acc, state, zeroAt o.divCounts v⟩).1.divCounts u < G - 2) := by
      intro acc state h1 h2 h3 h4 h5
      obtain ⟨i1, i2, i3⟩ := ih h1 h2
      refine ⟨⟨i1.ok, i1.total.trans h3, i1.size.trans h4, i1.genCount.trans (by rw [h2, hg]), i1.vars.trans h5,
        fun e => (i1.again e).trans_le h4, i1.done⟩, (zeroAt_lowers _ _).trans i2, fun e => ⟨(i3 e).1, fun u hu => ?_⟩⟩
      rcases List.mem_cons.1 hu with rfl | hu
      · rcases i2 u with e | e
        · rw [e]; simp only [zeroAt, if_true]; omega
        · rw [e]; omega
      · exact (i3 e).2 u hu
    -- what follows a colon
    have colon : ∀ acc : ℤ, o.divCounts v ≠ 0 → acc + (o.state.toColonVar v).val = o.total →
        SimplifyOk o (if (o.state.toColonVar v).genCount ≠ o.state.genCount then
            (⟨acc, o.state.toColonVar v, o.divCounts⟩, true)
          else manyDivLoop G vs ⟨acc, o.state.toColonVar v, zeroAt o.divCounts v⟩) ∧
        Lowers o.divCounts (if (o.state.toColonVar v).genCount ≠ o.state.genCount then
            ((⟨acc, o.state.toColonVar v, o.divCounts⟩, true) : SimpState × Bool)
          else manyDivLoop G vs ⟨acc, o.state.toColonVar v, zeroAt o.divCounts v⟩).1.divCounts ∧
        ((if (o.state.toColonVar v).genCount ≠ o.state.genCount then
            ((⟨acc, o.state.toColonVar v, o.divCounts⟩, true) : SimpState × Bool)
          else manyDivLoop G vs ⟨acc, o.state.toColonVar v, zeroAt o.divCounts v⟩).2 = false →
          (if (o.state.toColonVar v).genCount ≠ o.state.genCount then
            ((⟨acc, o.state.toColonVar v, o.divCounts⟩, true) : SimpState × Bool)
          else manyDivLoop G vs ⟨acc, o.state.toColonVar v, zeroAt o.divCounts v⟩).1.state.genCount = G ∧
          ∀ u ∈ v :: vs, (if (o.state.toColonVar v).genCount ≠ o.state.genCount then
            ((⟨acc, o.state.toColonVar v, o.divCounts⟩, true) : SimpState × Bool)
          else manyDivLoop G vs ⟨acc, o.state.toColonVar v, zeroAt o.divCounts v⟩).1.divCounts u < G - 2) := by
      intro acc hc ht
      obtain ⟨h1, h2⟩ := notMem_elim_of_count h hc
      have hsz := toColonVar_size h.ok h2 h1
      split
      · refine ⟨⟨toColonVar_ok h.ok h2, ht, hsz.le, ?_, toColonVar_varCount h.ok v, fun _ => hsz, by simp⟩, Lowers.refl _, by simp⟩
        have := (sqColonReminimizeVar_spec h.ok.anti v).2.sub.length_le
        rw [List.length_map] at this
        exact this
      · rename_i hl
        push Not at hl
        exact cont _ _ (toColonVar_optOk h h2 _ hl) (hl.trans hg) ht hsz.le (toColonVar_varCount h.ok v)
    rw [manyDivLoop]
    split
    · rename_i hlt
      obtain ⟨i1, i2, i3⟩ := ih h hg
      refine ⟨i1, i2, fun e => ⟨(i3 e).1, fun u hu => ?_⟩⟩
      rcases List.mem_cons.1 hu with rfl | hu
      · rcases i2 u with e | e
        · rw [e]; exact hlt
        · rw [e]; omega
      · exact (i3 e).2 u hu
    · rename_i hge
      split
      · rename_i h1
        exact colon _ (by omega) (manyDiv_one h (by omega) (by omega))
      · split
        · rename_i h2
          exact colon _ (by omega) (manyDiv_two h (by omega) (by omega))
        · rename_i hn1 hn2
          have hle : o.divCounts v ≤ G := by
            rw [h.counts, ← hg]
            exact List.countP_le_length
          have hv : o.divCounts v = o.state.genCount := by omega
          obtain ⟨h1, h2, h3⟩ := manyDiv_all h (by omega) hv
          exact cont _ _ h1 ((List.length_map _).trans hg) h2 h3 rfl

theorem optimizeManyDiv_spec {o : SimpState} (h : OptOk o) (hG : 2 < o.state.genCount) :
    SimplifyOk o (optimizeManyDiv o) ∧ Lowers o.divCounts (optimizeManyDiv o).1.divCounts ∧
      ((optimizeManyDiv o).2 = false → ∀ v < o.state.varCount,
        (optimizeManyDiv o).1.divCounts v < (optimizeManyDiv o).1.state.genCount - 2) := by
  obtain ⟨h1, h2, h3⟩ := manyDivLoop_spec hG (List.range o.state.varCount) h rfl
  refine ⟨h1, h2, fun e v hv => ?_⟩
  have := (h3 e).2 v (by simpa using hv)
  rw [show (optimizeManyDiv o).1.state.genCount = o.state.genCount from (h3 e).1]
  exact this

/-! ### Variables that are implied by others -/

theorem varPairsLoop_spec (vs : List ℕ) {o : SimpState} (h : OptOk o) (hG : 2 < o.state.genCount)
    (hvs : ∀ v ∈ vs, v < o.state.varCount) :
    SimplifyOk o (varPairsLoop vs o) ∧ Lowers o.divCounts (varPairsLoop vs o).1.divCounts ∧
      ((varPairsLoop vs o).2 = false → (varPairsLoop vs o).1.state.genCount = o.state.genCount) := by
  induction vs generalizing o with
  | nil =>
    rw [varPairsLoop]
    exact ⟨⟨h.ok, rfl, le_refl _, le_refl _, rfl, by simp, fun _ => ⟨h, hG⟩⟩, Lowers.refl _, fun _ => rfl⟩
  | cons v vs ih =>
    have hv := hvs v (by simp)
    have hvs' : ∀ u ∈ vs, u < o.state.varCount := fun u hu => hvs u (by simp [hu])
    rw [varPairsLoop]
    split
    · exact ih h hG hvs'
    · rename_i hne
      split
      · exact ih h hG hvs'
      · rename_i hnf
        have hsum : o.state.sum = eSum o.state.varCount o.state.ideal.gens (insert v o.state.eliminated) := by
          rw [EulerState.sum, eSum_var hv hne]
          conv_rhs => rw [← sub_zero (eSum _ _ _)]
          congr 1
          apply eSum_not_full
          intro hf
          apply hnf
          rw [termHasFullSupport, decide_eq_true_eq]
          refine Finset.Subset.antisymm (Finset.insert_subset (Finset.mem_range.2 hv) (Finset.union_subset ?_ h.ok.elim)) ?_
          · intro u hu
            obtain ⟨g, hg, hu⟩ := mem_unionAll.1 hu
            exact h.ok.sub g (List.mem_of_mem_filter hg) hu
          · intro u hu
            rcases hf u (Finset.mem_range.1 hu) with h3 | h3
            · rcases Finset.mem_insert.1 h3 with rfl | h3
              · simp
              · simp [h3]
            · exact Finset.mem_insert_of_mem (Finset.mem_union_left _ (mem_unionAll.2 h3))
        have ht : o.acc + (o.state.toColonVar v).val = o.total := by
          rw [SimpState.total, EulerState.val, EulerState.val, hsum, toColonVar_sum h.ok]
          rfl
        have hsz := toColonVar_size h.ok hv hne
        have hgc : (o.state.toColonVar v).genCount ≤ o.state.genCount := by
          have := (sqColonReminimizeVar_spec h.ok.anti v).2.sub.length_le
          rw [List.length_map] at this
          exact this
        simp only
        split
        · exact ⟨⟨toColonVar_ok h.ok hv, ht, hsz.le, hgc, toColonVar_varCount h.ok v, fun _ => hsz, by simp⟩, Lowers.refl _, by simp⟩
        · rename_i hl
          push Not at hl
          obtain ⟨i1, i2, i3⟩ := ih (toColonVar_optOk h hv o.acc hl) (by show 2 < (o.state.toColonVar v).genCount; omega)
            (fun u hu => by show u < (o.state.toColonVar v).varCount; rw [toColonVar_varCount h.ok]; exact hvs' u hu)
          exact ⟨⟨i1.ok, i1.total.trans ht, i1.size.trans hsz.le, i1.genCount.trans hgc, i1.vars.trans (toColonVar_varCount h.ok v),
            fun e => (i1.again e).trans hsz, i1.done⟩, (zeroAt_lowers _ _).trans i2, fun e => (i3 e).trans hl⟩

theorem optimizeVarPairs_spec {o : SimpState} (h : OptOk o) (hG : 2 < o.state.genCount) :
    SimplifyOk o (optimizeVarPairs o) ∧ Lowers o.divCounts (optimizeVarPairs o).1.divCounts ∧
      ((optimizeVarPairs o).2 = false → (optimizeVarPairs o).1.state.genCount = o.state.genCount) :=
  varPairsLoop_spec _ h hG fun _ hv => List.mem_range.1 hv

/-! ### Variables that divide one generator only -/

/-- The sum while the colon by the term `tmp` is still to be done. -/
def pending (s : EulerState) (tmp : SqTerm) : ℤ := s.sign * eSum s.varCount s.ideal.gens (s.eliminated ∪ tmp)

/-- What holds between the removals and the colon. -/
structure PendingOk (d : ℕ → ℕ) (s : EulerState) (tmp : SqTerm) : Prop where
  ok : StateOk s
  sub : tmp ⊆ Finset.range s.varCount
  disj : Disjoint tmp s.eliminated
  full : ∀ v < s.varCount, v ∈ s.eliminated ∪ tmp ∨ ∃ g ∈ s.ideal.gens, v ∈ g
  counts : ∀ v, v ∉ tmp → d v = s.ideal.gens.countP fun g => v ∈ g

theorem getMultiple_spec {I : SqIdeal} {v : ℕ} (h : ∃ g ∈ I.gens, v ∈ g) :
    I.getMultiple v < I.gens.length ∧ I.gens.getD (I.getMultiple v) ∅ ∈ I.gens ∧ v ∈ I.gens.getD (I.getMultiple v) ∅ := by
  have hlt : I.getMultiple v < I.gens.length := List.findIdx_lt_length_of_exists (by simpa using h)
  refine ⟨hlt, ?_, ?_⟩
  · rw [List.getD_eq_getElem _ _ hlt]
    exact List.getElem_mem hlt
  · rw [List.getD_eq_getElem _ _ hlt]
    have h3 := List.findIdx_getElem (w := hlt)
    exact of_decide_eq_true h3

theorem removeUnique_spec {d : ℕ → ℕ} {s : EulerState} {tmp : SqTerm} (h : PendingOk d s tmp) {v : ℕ} (hd : d v = 1)
    (hv : v ∉ tmp) :
    PendingOk d (s.removeGenerator (s.ideal.getMultiple v)).flipSign (tmp ∪ s.ideal.gens.getD (s.ideal.getMultiple v) ∅) ∧
      pending (s.removeGenerator (s.ideal.getMultiple v)).flipSign (tmp ∪ s.ideal.gens.getD (s.ideal.getMultiple v) ∅) =
        pending s tmp ∧
      v ∈ s.ideal.gens.getD (s.ideal.getMultiple v) ∅ ∧
      (s.removeGenerator (s.ideal.getMultiple v)).flipSign.genCount + 1 = s.genCount := by
  have hc : s.ideal.gens.countP (fun g => v ∈ g) = 1 := by rw [← h.counts v hv, hd]
  obtain ⟨hi, hm, hvm⟩ := getMultiple_spec (I := s.ideal) (exists_of_count (v := v) (by omega))
  have hperm : s.ideal.gens.Perm (s.ideal.gens.getD (s.ideal.getMultiple v) ∅ ::
      (s.ideal.removeGenerator (s.ideal.getMultiple v)).gens) := by
    rw [List.getD_eq_getElem _ _ hi]
    exact removeGenerator_perm hi
  have hgc := removeGenerator_genCount hi
  generalize s.ideal.getMultiple v = i at *
  generalize s.ideal.gens.getD i ∅ = g at *
  have hvg : v ∉ s.eliminated := Finset.disjoint_left.1 (h.ok.disj g hm) hvm
  have hvV : v < s.varCount := Finset.mem_range.1 (h.ok.sub g hm hvm)
  refine ⟨⟨flipSign_ok (removeGenerator_ok h.ok hi), Finset.union_subset h.sub (h.ok.sub g hm), ?_, ?_, ?_⟩, ?_, hvm, ?_⟩
  · exact Finset.disjoint_union_left.2 ⟨h.disj, h.ok.disj g hm⟩
  · intro u hu
    show u ∈ s.eliminated ∪ (tmp ∪ g) ∨ ∃ x ∈ (s.ideal.removeGenerator i).gens, u ∈ x
    rcases h.full u hu with h3 | ⟨x, hx, h3⟩
    · rw [← Finset.union_assoc]
      exact Or.inl (Finset.mem_union_left _ h3)
    · rcases List.mem_cons.1 (hperm.mem_iff.1 hx) with rfl | hx
      · exact Or.inl (by simp [h3])
      · exact Or.inr ⟨x, hx, h3⟩
  · intro u hu
    show d u = (s.ideal.removeGenerator i).gens.countP _
    rw [h.counts u (fun h => hu (by simp [h])), hperm.countP_eq, List.countP_cons_of_neg]
    simpa using fun h => hu (by simp [h])
  · have hz : eSum s.varCount (s.ideal.removeGenerator i).gens (s.eliminated ∪ tmp) = 0 := by
      apply eSum_not_full
      intro hf
      rcases hf v hvV with h3 | ⟨x, hx, h3⟩
      · rcases Finset.mem_union.1 h3 with h3 | h3
        · exact hvg h3
        · exact hv h3
      · rw [hperm.countP_eq, List.countP_cons_of_pos (by simpa using hvm)] at hc
        have : (s.ideal.removeGenerator i).gens.countP (fun g => v ∈ g) = 0 := by omega
        rw [List.countP_eq_zero] at this
        exact absurd h3 (by simpa using this x hx)
    show -s.sign * eSum s.varCount (s.ideal.removeGenerator i).gens (s.eliminated ∪ (tmp ∪ g)) = pending s tmp
    rw [pending, eSum_perm hperm, eSum, hz, ← Finset.union_assoc]
    ring
  · exact hgc

theorem uniqueDivLoop_spec (d : ℕ → ℕ) (vs : List ℕ) {s : EulerState} {tmp : SqTerm} (h : PendingOk d s tmp) :
    PendingOk d (uniqueDivLoop d vs s tmp).1 (uniqueDivLoop d vs s tmp).2 ∧
      pending (uniqueDivLoop d vs s tmp).1 (uniqueDivLoop d vs s tmp).2 = pending s tmp ∧
      tmp ⊆ (uniqueDivLoop d vs s tmp).2 ∧ (∀ v ∈ vs, d v ≠ 1 ∨ v ∈ (uniqueDivLoop d vs s tmp).2) ∧
      (uniqueDivLoop d vs s tmp).1.genCount ≤ s.genCount ∧ (uniqueDivLoop d vs s tmp).1.eliminated = s.eliminated ∧
      (uniqueDivLoop d vs s tmp).1.varCount = s.varCount := by
  induction vs generalizing s tmp with
  | nil => exact ⟨h, rfl, fun _ h => h, by simp, le_refl _, rfl, rfl⟩
  | cons v vs ih =>
    rw [uniqueDivLoop]
    split
    · rename_i hc
      obtain ⟨h1, h2, h3, h4, h5⟩ := ih h
      refine ⟨h1, h2, h3, fun u hu => ?_, h5⟩
      rcases List.mem_cons.1 hu with rfl | hu
      · exact hc.imp id fun h => h3 h
      · exact h4 u hu
    · rename_i hc
      push Not at hc
      obtain ⟨i1, i2, i3, i4⟩ := removeUnique_spec h hc.1 hc.2
      obtain ⟨h1, h2, h3, h4, h5, h6, h7⟩ := ih i1
      refine ⟨h1, h2.trans i2, Finset.subset_union_left.trans h3, fun u hu => ?_, h5.trans (by omega), h6, h7⟩
      rcases List.mem_cons.1 hu with rfl | hu
      · exact Or.inr (h3 (Finset.mem_union_right _ i3))
      · exact h4 u hu

theorem countP_sdiff (l : List SqTerm) (t : SqTerm) (u : ℕ) :
    (l.map fun g => g \ t).countP (fun g => u ∈ g) = if u ∈ t then 0 else l.countP fun g => u ∈ g := by
  rw [List.countP_map]
  split
  · rename_i e
    rw [List.countP_eq_zero]
    intro g _
    simp [e]
  · rename_i e
    refine List.countP_congr fun g _ => ?_
    simp [e]

theorem optimizeUniqueDiv_spec {o : SimpState} (h : OptOk o) (hG : 2 < o.state.genCount) :
    SimplifyOk o (optimizeUniqueDiv o) ∧
      ((optimizeUniqueDiv o).2 = false → ∀ v < o.state.varCount, (optimizeUniqueDiv o).1.divCounts v ≠ 1) := by
  unfold optimizeUniqueDiv
  split
  · rename_i hd
    refine ⟨⟨h.ok, rfl, le_refl _, le_refl _, rfl, by simp, fun _ => ⟨h, hG⟩⟩, fun _ v hv => ?_⟩
    have := List.dropWhile_eq_nil_iff.1 hd v (by simpa using hv)
    simpa using this
  · rename_i v vs hd
    have hv1 : o.divCounts v = 1 := by
      have := List.head_dropWhile_not (p := fun v => decide (o.divCounts v ≠ 1)) (l := List.range o.state.varCount)
        (by rw [hd]; simp)
      simp only [hd, List.head_cons] at this
      simpa using this
    have h0 : PendingOk o.divCounts o.state ∅ := by
      refine ⟨h.ok, by simp, by simp, fun u hu => ?_, fun u _ => h.counts u⟩
      rcases h.full u hu with h | h
      · exact Or.inl (by simp [h])
      · exact Or.inr h
    have hp0 : pending o.state ∅ = o.state.val := by
      rw [pending, Finset.union_empty]; rfl
    obtain ⟨i1, i2, i3, i4⟩ := removeUnique_spec h0 hv1 (by simp)
    rw [Finset.empty_union] at i1 i2
    obtain ⟨j1, j2, j3, j4, j5, j6, j7⟩ := uniqueDivLoop_spec o.divCounts vs i1
    simp only
    generalize uniqueDivLoop o.divCounts vs (o.state.removeGenerator (o.state.ideal.getMultiple v)).flipSign
      (o.state.ideal.gens.getD (o.state.ideal.getMultiple v) ∅) = r at *
    have hok := toColon_ok j1.ok j1.sub
    have hV : (r.1.toColon r.2).varCount = o.state.varCount := by
      exact (colonReminimize_spec j1.ok.anti r.2).1.trans j7
    have htot : o.acc + (r.1.toColon r.2).val = o.total := by
      rw [SimpState.total, ← hp0, ← i2, ← j2, EulerState.val, toColon_sum j1.ok]
      rfl
    have hgc : (r.1.toColon r.2).genCount ≤ r.1.genCount := by
      have := (colonReminimize_spec j1.ok.anti r.2).2.sub.length_le
      rw [List.length_map] at this
      exact this
    have hsz : (r.1.toColon r.2).size < o.state.size := by
      have h1 : (r.1.toColon r.2).nonEliminated ≤ o.state.nonEliminated := by
        rw [nonEliminated_eq hok, nonEliminated_eq h.ok, hV]
        refine Finset.card_le_card (Finset.sdiff_subset_sdiff (fun _ h => h) ?_)
        rw [show o.state.eliminated = r.1.eliminated from j6.symm]
        exact Finset.subset_union_left
      unfold EulerState.size
      omega
    split
    · exact ⟨⟨hok, htot, hsz.le, by show (r.1.toColon r.2).genCount ≤ _; omega, hV, fun _ => hsz, by simp⟩, by simp⟩
    · rename_i hl
      push Not at hl
      have hp := (colonReminimize_spec j1.ok.anti r.2).2.perm_of_length (by rw [List.length_map]; exact hl.1)
      have hcounts : ∀ u, (if u ∈ r.2 then 0 else o.divCounts u) = (r.1.toColon r.2).ideal.gens.countP fun g => u ∈ g := by
        intro u
        show _ = (r.1.ideal.colonReminimize r.2).gens.countP _
        rw [hp.countP_eq, countP_sdiff]
        split
        · rfl
        · exact j1.counts u ‹_›
      refine ⟨⟨hok, htot, hsz.le, by show (r.1.toColon r.2).genCount ≤ _; omega, hV, by simp, fun _ =>
        ⟨⟨hok, fun u hu => ?_, hcounts⟩, hl.2⟩⟩, fun _ u hu => ?_⟩
      · show u ∈ r.1.eliminated ∪ r.2 ∨ ∃ g ∈ (r.1.ideal.colonReminimize r.2).gens, u ∈ g
        have hu' : u < r.1.varCount := by rw [j7]; rw [hV] at hu; exact hu
        by_cases hr : u ∈ r.2
        · exact Or.inl (by simp [hr])
        · rcases j1.full u hu' with h3 | ⟨g, hg, h3⟩
          · exact Or.inl h3
          · exact Or.inr ⟨g \ r.2, hp.mem_iff.2 (List.mem_map.2 ⟨g, hg, rfl⟩), Finset.mem_sdiff.2 ⟨h3, hr⟩⟩
      · show (if u ∈ r.2 then 0 else o.divCounts u) ≠ 1
        split
        · simp
        · rename_i hr
          have hmem : u ∈ (List.range o.state.varCount).takeWhile (fun v => decide (o.divCounts v ≠ 1)) ++ v :: vs := by
            rw [← hd, List.takeWhile_append_dropWhile]
            simpa using hu
          rcases List.mem_append.1 hmem with h3 | h3
          · have := List.mem_takeWhile_imp h3
            simpa using this
          · rcases List.mem_cons.1 h3 with rfl | h3
            · exact absurd (j3 i3) hr
            · exact (j4 u h3).resolve_right hr

/-! ### Three generators -/

theorem sum_three {s : EulerState} (h : StateOk s) (hf : FullSupport s) (h3 : s.genCount = 3)
    (hu : ∀ v < s.varCount, (s.ideal.gens.countP fun g => v ∈ g) ≠ 1) : s.sum = 2 := by
  rcases hl : s.ideal.gens with _ | ⟨x, _ | ⟨y, _ | ⟨z, _ | ⟨w, l⟩⟩⟩⟩ <;> rw [EulerState.genCount, hl] at h3 <;> simp at h3
  have hanti := h.anti
  rw [hl] at hanti
  have hx : x ∈ s.ideal.gens := by simp [hl]
  have hy : y ∈ s.ideal.gens := by simp [hl]
  have hz : z ∈ s.ideal.gens := by simp [hl]
  obtain ⟨hx', hanti⟩ := List.pairwise_cons.1 hanti
  obtain ⟨hy', -⟩ := List.pairwise_cons.1 hanti
  have hxy := hx' y (by simp)
  have hxz := hx' z (by simp)
  have hyz := hy' z (by simp)
  have n1 : ¬ Finset.range s.varCount ⊆ s.eliminated ∪ x := fun hc => hxy.2 (subset_of_cover h hy hc)
  have n2 : ¬ Finset.range s.varCount ⊆ s.eliminated ∪ y := fun hc => hxy.1 (subset_of_cover h hx hc)
  have n3 : ¬ Finset.range s.varCount ⊆ s.eliminated ∪ z := fun hc => hxz.1 (subset_of_cover h hx hc)
  have n0 : ¬ Finset.range s.varCount ⊆ s.eliminated := fun hc => n1 (hc.trans Finset.subset_union_left)
  have key : ∀ v < s.varCount, v ∈ s.eliminated ∨ (v ∈ x ∧ v ∈ y) ∨ (v ∈ x ∧ v ∈ z) ∨ (v ∈ y ∧ v ∈ z) := by
    intro v hv
    have h1 := hu v hv
    rw [hl] at h1
    rcases hf v hv with h2 | ⟨g, hg, h2⟩
    · exact Or.inl h2
    · right
      rw [hl] at hg
      by_cases a : v ∈ x <;> by_cases b : v ∈ y <;> by_cases c : v ∈ z <;>
        simp_all [List.countP_cons]
      rcases hg with rfl | rfl | rfl <;> contradiction
  have p1 : Finset.range s.varCount ⊆ s.eliminated ∪ x ∪ y := fun v hv => by
    have := key v (Finset.mem_range.1 hv); simp only [Finset.mem_union]; tauto
  have p2 : Finset.range s.varCount ⊆ s.eliminated ∪ x ∪ z := fun v hv => by
    have := key v (Finset.mem_range.1 hv); simp only [Finset.mem_union]; tauto
  have p3 : Finset.range s.varCount ⊆ s.eliminated ∪ y ∪ z := fun v hv => by
    have := key v (Finset.mem_range.1 hv); simp only [Finset.mem_union]; tauto
  have p4 : Finset.range s.varCount ⊆ s.eliminated ∪ x ∪ y ∪ z := p1.trans Finset.subset_union_left
  rw [EulerState.sum, hl]
  simp only [eSum]
  rw [if_neg n0, if_neg n1, if_neg n2, if_neg n3, if_pos p1, if_pos p2, if_pos p3, if_pos p4]
  rfl

theorem exists_var_of_two {s : EulerState} (h : StateOk s) (h2 : 1 < s.genCount) :
    ∃ v < s.varCount, ∃ g ∈ s.ideal.gens, v ∈ g := by
  by_contra hn
  push Not at hn
  refine notMem_of_two h h2 0 fun v hv => ?_
  exfalso
  rcases hl : s.ideal.gens with _ | ⟨x, _ | ⟨y, l⟩⟩
  · rw [EulerState.genCount, hl] at h2; simp at h2
  · rw [EulerState.genCount, hl] at h2; simp at h2
  · have hxy : Incomp x y := by
      have := h.anti
      rw [hl] at this
      exact (List.pairwise_cons.1 this).1 y (by simp)
    exact hxy.1 fun u hu => absurd hu (hn u (Finset.mem_range.1 (h.sub x (by simp [hl]) hu)) x (by simp [hl]))

/-! ### One round -/

/-- The second component of the measure: transposing makes it smaller. -/
def transposeMeasure : Pivot → EulerState → ℕ
  | .std _, s => s.varCount
  | .widen _, s => s.varCount
  | .gen _, s => s.genCount
  | .composite _, s => s.genCount
  | .hybrid _ _, _ => 0

/-- The answer to a base case is right only if one of these settings is such. -/
def Sound (cfg : EulerConfig) : Prop := cfg.uniqueDiv = true ∨ cfg.manyDiv = true ∨ cfg.allPairs = false

/-- What one round comes to. -/
def RoundOk (cfg : EulerConfig) (acc : ℤ) (s : EulerState) : Round → Prop
  | .base a => Sound cfg → a = acc + s.val
  | .again a s' => StateOk s' ∧ a + s'.val = acc + s.val ∧
      (s'.size < s.size ∨ s'.size ≤ s.size ∧ transposeMeasure cfg.pivot s' < transposeMeasure cfg.pivot s) ∧
      (s'.varCount ≤ s.varCount ∨ s'.varCount ≤ s.size)
  | .split o => OptOk o ∧ o.total = acc + s.val ∧ 2 < o.state.genCount ∧ o.state.size ≤ s.size ∧ o.state.varCount = s.varCount ∧
      (cfg.uniqueDiv = true → ∀ v < o.state.varCount, o.divCounts v ≠ 1)

theorem transpose_size {s : EulerState} (h : StateOk s) :
    s.transpose.size ≤ s.size ∧ s.transpose.varCount = s.genCount ∧ s.transpose.genCount ≤ s.nonEliminated := by
  obtain ⟨h1, h2, h3⟩ := transpose_counts h
  refine ⟨?_, h1, h3⟩
  unfold EulerState.size
  omega

theorem eulerRound_spec (cfg : EulerConfig) (acc : ℤ) {s : EulerState} (h : StateOk s) : RoundOk cfg acc s (eulerRound cfg acc s) := by
  unfold eulerRound
  rcases hb : baseCaseSimple1 acc s with _ | a
  swap
  · exact fun _ => baseCaseSimple1_some h hb
  obtain ⟨hfull, hG⟩ := baseCaseSimple1_none h hb
  simp only
  set o : SimpState := ⟨acc, s, s.ideal.varDividesCounts⟩ with ho
  have h0 : OptOk o := ⟨h, hfull, fun v => rfl⟩
  set r1 := (if cfg.uniqueDiv = true then optimizeUniqueDiv o else (o, false)) with hr1
  have s1 : SimplifyOk o r1 ∧ (cfg.uniqueDiv = true → r1.2 = false → ∀ v < s.varCount, r1.1.divCounts v ≠ 1) := by
    rw [hr1]
    split
    · obtain ⟨a, b⟩ := optimizeUniqueDiv_spec h0 hG
      exact ⟨a, fun _ => b⟩
    · exact ⟨⟨h, rfl, le_refl _, le_refl _, rfl, by simp, fun _ => ⟨h0, hG⟩⟩, fun e => absurd e ‹_›⟩
  clear_value r1
  obtain ⟨s1, u1⟩ := s1
  split
  · exact ⟨s1.ok, s1.total, Or.inl (s1.again ‹_›), Or.inl s1.vars.le⟩
  rename_i e1
  have e1 : r1.2 = false := by simpa using e1
  obtain ⟨k1, g1⟩ := s1.done e1
  set r2 := (if cfg.manyDiv = true then optimizeManyDiv r1.1 else (r1.1, false)) with hr2
  have s2 : SimplifyOk r1.1 r2 ∧ Lowers r1.1.divCounts r2.1.divCounts ∧ (cfg.manyDiv = true → r2.2 = false →
      ∀ v < r1.1.state.varCount, r2.1.divCounts v < r2.1.state.genCount - 2) := by
    rw [hr2]
    split
    · obtain ⟨a, b, c⟩ := optimizeManyDiv_spec k1 g1
      exact ⟨a, b, fun _ => c⟩
    · exact ⟨⟨k1.ok, rfl, le_refl _, le_refl _, rfl, by simp, fun _ => ⟨k1, g1⟩⟩, Lowers.refl _, fun e => absurd e ‹_›⟩
  clear_value r2
  obtain ⟨s2, l2, u2⟩ := s2
  have t2 : r2.1.total = acc + s.val := s2.total.trans s1.total
  have z2 : r2.1.state.size ≤ s.size := s2.size.trans s1.size
  split
  · exact ⟨s2.ok, t2, Or.inl ((s2.again ‹_›).trans_le s1.size), Or.inl (s2.vars.trans s1.vars).le⟩
  rename_i e2
  have e2 : r2.2 = false := by simpa using e2
  obtain ⟨k2, g2⟩ := s2.done e2
  set r3 := (if cfg.allPairs = true then optimizeVarPairs r2.1 else (r2.1, false)) with hr3
  have s3 : SimplifyOk r2.1 r3 ∧ Lowers r2.1.divCounts r3.1.divCounts ∧
      (r3.2 = false → r3.1.state.genCount = r2.1.state.genCount) := by
    rw [hr3]
    split
    · exact optimizeVarPairs_spec k2 g2
    · exact ⟨⟨k2.ok, rfl, le_refl _, le_refl _, rfl, by simp, fun _ => ⟨k2, g2⟩⟩, Lowers.refl _, fun _ => rfl⟩
  clear_value r3
  obtain ⟨s3, l3, c3⟩ := s3
  have t3 : r3.1.total = acc + s.val := s3.total.trans t2
  have z3 : r3.1.state.size ≤ s.size := s3.size.trans z2
  split
  · exact ⟨s3.ok, t3, Or.inl ((s3.again ‹_›).trans_le z2), Or.inl (s3.vars.trans (s2.vars.trans s1.vars)).le⟩
  rename_i e3
  have e3 : r3.2 = false := by simpa using e3
  obtain ⟨k3, g3⟩ := s3.done e3
  have v1 : r1.1.state.varCount = s.varCount := s1.vars
  have v2 : r2.1.state.varCount = s.varCount := s2.vars.trans v1
  have v3 : r3.1.state.varCount = s.varCount := s3.vars.trans v2
  have nu : cfg.uniqueDiv = true → ∀ v < r3.1.state.varCount, r3.1.divCounts v ≠ 1 := by
    intro hc v hv
    have h1 := u1 hc e1 v (by omega)
    rcases (l2.trans l3) v with e | e
    · rw [e]; exact h1
    · rw [e]; simp
  split
  · rename_i hc
    intro hs
    obtain ⟨hc1, hc2⟩ : cfg.allPairs = true ∧ r3.1.state.genCount = 3 := by simpa using hc
    have : r3.1.state.sum = 2 := by
      rcases hs with hs | hs | hs
      · exact sum_three k3.ok k3.full hc2 fun v hv => by rw [← k3.counts]; exact nu hs v hv
      · exfalso
        obtain ⟨v, hv, hg⟩ := exists_var_of_two k3.ok (by omega)
        have h1 := u2 hs e2 v (by omega)
        have h2 : r3.1.divCounts v ≠ 0 := by
          rw [k3.counts, ← Nat.pos_iff_ne_zero, List.countP_pos_iff]
          simpa using hg
        have hgc := c3 e3
        rcases l3 v with e | e <;> omega
      · rw [hs] at hc1; cases hc1
    rw [← t3, SimpState.total, EulerState.val, this]
    ring
  · split
    · rename_i hc
      obtain ⟨-, hc⟩ : cfg.autoTranspose = true ∧ shouldTranspose cfg.pivot r3.1.state = true := by simpa using hc
      obtain ⟨q1, q2, q3⟩ := transpose_size k3.ok
      have hgc : r3.1.state.genCount ≤ s.genCount := s3.genCount.trans (s2.genCount.trans s1.genCount)
      refine ⟨transpose_ok _, ?_, ?_, Or.inr ?_⟩
      · rw [transpose_val]; exact t3
      rotate_left
      · rw [q2]
        exact hgc.trans (Nat.le_add_left _ _)
      · right
        refine ⟨q1.trans z3, ?_⟩
        have hne : r3.1.state.nonEliminated ≤ r3.1.state.varCount := by
          rw [nonEliminated_eq k3.ok]
          exact (Finset.card_le_card Finset.sdiff_subset).trans (by rw [Finset.card_range])
        revert hc
        cases cfg.pivot <;> simp only [shouldTranspose, transposeMeasure, decide_eq_true_eq, Bool.false_eq_true, false_imp_iff]
          <;> omega
    · exact ⟨k3, t3, g3, z3, v3, nu⟩

end Frobby

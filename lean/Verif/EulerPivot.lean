import Verif.EulerLemmas

/-!
# The pivots of the Euler characteristic algorithm
-/

namespace Frobby

open EulerState

theorem popVar_foldl (d : ℕ → ℕ) (l : List ℕ) (b : ℕ) :
    let r := l.foldl (fun best v => if d best < d v then v else best) b
    d b ≤ d r ∧ ∀ v ∈ l, d v ≤ d r := by
  induction l generalizing b with
  | nil => simp
  | cons x l ih =>
    obtain ⟨h1, h2⟩ := ih (if d b < d x then x else b)
    rw [List.foldl_cons]
    have h3 : d b ≤ d (l.foldl (fun best v => if d best < d v then v else best) (if d b < d x then x else b)) ∧
        d x ≤ d (l.foldl (fun best v => if d best < d v then v else best) (if d b < d x then x else b)) := by
      split_ifs at h1 ⊢ <;> constructor <;> omega
    refine ⟨h3.1, fun v hv => ?_⟩
    rcases List.mem_cons.1 hv with rfl | hv
    · exact h3.2
    · exact h2 v hv

theorem getPopVar_max (d : ℕ → ℕ) (n : ℕ) : ∀ v < n, d v ≤ d (getPopVar d n) := fun v hv =>
  (popVar_foldl d (List.range n) 0).2 v (by simpa using hv)

theorem rareVar_foldl (d : ℕ → ℕ) (l : List ℕ) (b : Option ℕ) (hb : ∀ r, b = some r → d r ≠ 0) :
    let r := l.foldl (fun rare v =>
      if d v = 0 then rare
      else match rare with
        | none => some v
        | some r => if d v < d r then some v else some r) b
    (∀ x, r = some x → d x ≠ 0) ∧ (r = none → b = none ∧ ∀ v ∈ l, d v = 0) := by
  induction l generalizing b with
  | nil => exact ⟨hb, fun h => ⟨h, by simp⟩⟩
  | cons x l ih =>
    rw [List.foldl_cons]
    by_cases hx : d x = 0
    · rw [if_pos hx]
      obtain ⟨h1, h2⟩ := ih b hb
      refine ⟨h1, fun h => ⟨(h2 h).1, fun v hv => ?_⟩⟩
      rcases List.mem_cons.1 hv with rfl | hv
      · exact hx
      · exact (h2 h).2 v hv
    · rw [if_neg hx]
      rcases b with _ | b
      · obtain ⟨h1, h2⟩ := ih (some x) (fun r hr => by cases hr; exact hx)
        exact ⟨h1, fun h => absurd (h2 h).1 (by simp)⟩
      · simp only
        obtain ⟨h1, h2⟩ := ih (if d x < d b then some x else some b) (fun r hr => by
          split at hr
          · cases hr; exact hx
          · exact hb r hr)
        refine ⟨h1, fun h => absurd (h2 h).1 ?_⟩
        split <;> simp

theorem getRareVar_spec {o : SimpState} (h : OptOk o) (h2 : 1 < o.state.genCount) :
    ∃ v, getRareVar o.divCounts o.state.varCount = some v ∧ o.divCounts v ≠ 0 := by
  have := rareVar_foldl o.divCounts (List.range o.state.varCount) none (by simp)
  obtain ⟨v, hv, g, hg, hvg⟩ := exists_var_of_two h.ok h2
  have hc : o.divCounts v ≠ 0 := by
    rw [h.counts, ← Nat.pos_iff_ne_zero, List.countP_pos_iff]
    exact ⟨g, hg, by simpa using hvg⟩
  rcases hr : getRareVar o.divCounts o.state.varCount with _ | r
  · exact absurd ((this.2 hr).2 v (by simpa using hv)) hc
  · exact ⟨r, rfl, this.1 r hr⟩

theorem getPopVar_spec {o : SimpState} (h : OptOk o) (h2 : 1 < o.state.genCount) :
    o.divCounts (getPopVar o.divCounts o.state.varCount) ≠ 0 := by
  obtain ⟨v, hv, g, hg, hvg⟩ := exists_var_of_two h.ok h2
  have hc : o.divCounts v ≠ 0 := by
    rw [h.counts, ← Nat.pos_iff_ne_zero, List.countP_pos_iff]
    exact ⟨g, hg, by simpa using hvg⟩
  have := getPopVar_max o.divCounts o.state.varCount v hv
  omega

theorem count_of_notMem {o : SimpState} (h : OptOk o) {v : ℕ} (hv : v < o.state.varCount) (hn : v ∉ o.state.eliminated) :
    o.divCounts v ≠ 0 := by
  rcases h.full v hv with h1 | ⟨g, hg, h1⟩
  · exact absurd h1 hn
  · rw [h.counts, ← Nat.pos_iff_ne_zero, List.countP_pos_iff]
    exact ⟨g, hg, by simpa using h1⟩

theorem randomVar_spec (s : EulerState) (hV : s.varCount ≠ 0) (tape : List ℕ) :
    match randomVar s tape with
    | .ok (v, _) => v < s.varCount ∧ v ∉ s.eliminated
    | .error e => e = .tapeEnd := by
  induction tape with
  | nil => rfl
  | cons r tape ih =>
    rw [randomVar, if_neg hV]
    by_cases hr : r % s.varCount ∉ s.eliminated
    · rw [if_pos hr]
      exact ⟨Nat.mod_lt _ (Nat.pos_of_ne_zero hV), hr⟩
    · rw [if_neg hr]
      exact ih

/-- The strategy does not use random numbers. -/
def StdStrat.isRandom : StdStrat → Bool
  | .random => true
  | _ => false

theorem stdVar_spec {o : SimpState} (h : OptOk o) (h2 : 1 < o.state.genCount) (strat : StdStrat) (tape : List ℕ) :
    match stdVar strat o.state o.divCounts tape with
    | .ok (v, _) => v < o.state.varCount ∧ v ∉ o.state.eliminated ∧ o.divCounts v ≠ 0
    | .error e => strat.isRandom = true ∧ e = .tapeEnd := by
  obtain ⟨w, hw, g, hg, hwg⟩ := exists_var_of_two h.ok h2
  have hn := Finset.disjoint_left.1 (h.ok.disj g hg) hwg
  have of_count : ∀ v, o.divCounts v ≠ 0 → v < o.state.varCount ∧ v ∉ o.state.eliminated ∧ o.divCounts v ≠ 0 := fun v hc =>
    ⟨(notMem_elim_of_count h hc).2, (notMem_elim_of_count h hc).1, hc⟩
  cases strat with
  | random =>
    have := randomVar_spec o.state (by omega) tape
    show match randomVar o.state tape with
      | .ok (v, _) => _
      | .error e => _
    revert this
    rcases randomVar o.state tape with e | ⟨v, t⟩
    · exact fun h => ⟨rfl, h⟩
    · exact fun hv => ⟨hv.1, hv.2, count_of_notMem h hv.1 hv.2⟩
  | any =>
    rcases hf : (List.range o.state.varCount).find? fun v => v ∉ o.state.eliminated with _ | v
    · rw [List.find?_eq_none] at hf
      exact absurd (hf w (by simpa using hw)) (by simpa using hn)
    · have h1 : v < o.state.varCount := by simpa using List.mem_of_find?_eq_some hf
      have h3 : v ∉ o.state.eliminated := by simpa using List.find?_some hf
      simp only [stdVar, anyVar, hf, Except.map]
      exact ⟨h1, h3, count_of_notMem h h1 h3⟩
  | popvar => exact of_count _ (getPopVar_spec h h2)
  | popgcd => exact of_count _ (getPopVar_spec h h2)
  | rarevar =>
    obtain ⟨v, hv, hc⟩ := getRareVar_spec h h2
    simp only [stdVar, hv]
    exact of_count v hc

/-! ### Pivots that are terms -/

theorem foldl_inter_subset (l : List SqTerm) (a : SqTerm) :
    l.foldl (· ∩ ·) a ⊆ a ∧ ∀ g ∈ l, l.foldl (· ∩ ·) a ⊆ g := by
  induction l generalizing a with
  | nil => simp
  | cons x l ih =>
    obtain ⟨h1, h2⟩ := ih (a ∩ x)
    refine ⟨h1.trans Finset.inter_subset_left, fun g hg => ?_⟩
    rcases List.mem_cons.1 hg with rfl | hg
    · exact h1.trans Finset.inter_subset_right
    · exact h2 g hg

theorem subset_foldl_inter (l : List SqTerm) (a p : SqTerm) (ha : p ⊆ a) (h : ∀ g ∈ l, p ⊆ g) : p ⊆ l.foldl (· ∩ ·) a := by
  induction l generalizing a with
  | nil => exact ha
  | cons x l ih => exact ih (a ∩ x) (Finset.subset_inter ha (h x (by simp))) fun g hg => h g (by simp [hg])

/-- A pivot: it is not the identity and divides a generator. -/
structure PivotTerm (o : SimpState) (p : SqTerm) : Prop where
  nonempty : p.Nonempty
  dvd : ∃ g ∈ o.state.ideal.gens, p ⊆ g
  two : (∀ v < o.state.varCount, o.divCounts v ≠ 1) → 2 ≤ o.state.ideal.gens.countP fun g => p ⊆ g

theorem pivotTerm_singleton {o : SimpState} (h : OptOk o) {v : ℕ} (hc : o.divCounts v ≠ 0) : PivotTerm o {v} := by
  have hv := (notMem_elim_of_count h hc).2
  have hcount := h.counts v
  have e : (o.state.ideal.gens.countP fun g => {v} ⊆ g) = o.divCounts v := by
    rw [hcount]
    exact List.countP_congr fun g _ => by simp
  refine ⟨Finset.singleton_nonempty v, ?_, fun hu => ?_⟩
  · obtain ⟨g, hg, hvg⟩ := exists_of_count (l := o.state.ideal.gens) (v := v) (by rw [← hcount]; exact hc)
    exact ⟨g, hg, by simpa using hvg⟩
  · have := hu v hv
    omega

theorem popGcd_spec {o : SimpState} (h : OptOk o) (h2 : 1 < o.state.genCount) : PivotTerm o (popGcd o.state o.divCounts) := by
  have hc := getPopVar_spec h h2
  unfold popGcd
  simp only
  generalize getPopVar o.divCounts o.state.varCount = v at *
  split
  · exact pivotTerm_singleton h hc
  · rename_i h1
    have hlen : 2 ≤ ((o.state.ideal.gens.filter fun g => v ∈ g).take 3).length := by
      rw [List.length_take, ← List.countP_eq_length_filter, ← h.counts]
      omega
    have hsub : ((o.state.ideal.gens.filter fun g => v ∈ g).take 3).Sublist o.state.ideal.gens :=
      (List.take_sublist _ _).trans List.filter_sublist
    have hmem : ∀ g ∈ (o.state.ideal.gens.filter fun g => v ∈ g).take 3, v ∈ g := fun g hg => by
      simpa using (List.mem_filter.1 ((List.take_sublist _ _).subset hg)).2
    generalize (o.state.ideal.gens.filter fun g => v ∈ g).take 3 = t at *
    rcases t with _ | ⟨g, l⟩
    · simp at hlen
    · simp only
      obtain ⟨i1, i2⟩ := foldl_inter_subset l g
      have hall : ∀ x ∈ g :: l, l.foldl (· ∩ ·) g ⊆ x := fun x hx => by
        rcases List.mem_cons.1 hx with rfl | hx
        · exact i1
        · exact i2 x hx
      refine ⟨⟨v, ?_⟩, ⟨g, hsub.subset (by simp), i1⟩, fun _ => ?_⟩
      · have := subset_foldl_inter l g {v} (by simpa using hmem g (by simp)) (fun x hx => by simpa using hmem x (by simp [hx]))
        simpa using this
      · refine hlen.trans ((List.countP_eq_length.2 ?_).ge.trans (hsub.countP_le (p := fun x => decide (l.foldl (· ∩ ·) g ⊆ x))))
        exact fun x hx => by simpa using hall x hx

theorem widen_spec {o : SimpState} (h : OptOk o) {p : SqTerm} (hp : PivotTerm o p) : PivotTerm o (o.state.ideal.gcdOfMultiples p) := by
  have hsub : p ⊆ o.state.ideal.gcdOfMultiples p := by
    refine subset_foldl_inter _ _ _ ?_ fun g hg => by simpa using (List.mem_filter.1 hg).2
    obtain ⟨g, hg, h1⟩ := hp.dvd
    exact h1.trans (h.ok.sub g hg)
  have hdvd : ∀ g ∈ o.state.ideal.gens, p ⊆ g → o.state.ideal.gcdOfMultiples p ⊆ g := fun g hg h1 =>
    (foldl_inter_subset _ _).2 g (List.mem_filter.2 ⟨hg, by simpa using h1⟩)
  refine ⟨hp.nonempty.mono hsub, ?_, fun hu => (hp.two hu).trans ?_⟩
  · obtain ⟨g, hg, h1⟩ := hp.dvd
    exact ⟨g, hg, hdvd g hg h1⟩
  · exact List.countP_mono_left fun g hg h1 => by
      have : p ⊆ g := by simpa using h1
      simpa using hdvd g hg this

/-! ### The filters only change the order -/

theorem swapAt_perm (l : List SqTerm) {i j : ℕ} (hi : i < l.length) (hj : j < l.length) : (swapAt l i j).Perm l := by
  unfold swapAt
  rw [List.getD_eq_getElem _ _ hi, List.getD_eq_getElem _ _ hj]
  exact List.set_set_perm hi hj

theorem pickLoop_perm (key : SqTerm → Option ℕ) (worse : ℕ → ℕ → Bool) (todo it best newEnd : ℕ) (l : List SqTerm)
    (h1 : newEnd ≤ it) (h2 : it + todo ≤ l.length) :
    (pickLoop key worse todo it best newEnd l).1.Perm l ∧ (pickLoop key worse todo it best newEnd l).2 ≤ it + todo := by
  induction todo generalizing it best newEnd l with
  | zero => exact ⟨List.Perm.refl _, h1⟩
  | succ todo ih =>
    rw [pickLoop]
    split
    · obtain ⟨a, b⟩ := ih (it + 1) best newEnd l (by omega) (by omega)
      exact ⟨a, by omega⟩
    · rename_i k _
      split
      · obtain ⟨a, b⟩ := ih (it + 1) best newEnd l (by omega) (by omega)
        exact ⟨a, by omega⟩
      · simp only
        have hne : (if worse best k then 0 else newEnd) ≤ it := by split <;> omega
        generalize (if worse best k then 0 else newEnd) = e at *
        have hp := swapAt_perm l (i := e) (j := it) (by omega) (by omega)
        obtain ⟨a, b⟩ := ih (it + 1) k (e + 1) (swapAt l e it) (by omega) (by rw [hp.length_eq]; omega)
        exact ⟨a.trans hp, by omega⟩

theorem rarestFilter_perm (d : ℕ → ℕ) (n rounds last cand : ℕ) (l : List SqTerm) (h : cand ≤ l.length) :
    (rarestFilter d n rounds last cand l).1.Perm l ∧ (rarestFilter d n rounds last cand l).2 ≤ l.length := by
  induction rounds generalizing last cand l with
  | zero => exact ⟨List.Perm.refl _, h⟩
  | succ rounds ih =>
    rw [rarestFilter]
    split
    · exact ⟨List.Perm.refl _, h⟩
    · split
      · exact ⟨List.Perm.refl _, h⟩
      · rename_i count _
        simp only
        have hp : (rarestFilterOne d n count cand l).1.Perm l ∧ (rarestFilterOne d n count cand l).2 ≤ l.length := by
          unfold rarestFilterOne
          simp only
          obtain ⟨a, b⟩ := pickLoop_perm (fun g => if Disjoint (varsWithCount d n count) g then none
            else some (varsWithCount d n count ∩ g).card) (fun a b => decide (a < b)) cand 0 0 0 l (le_refl _) (by omega)
          split
          · exact ⟨a, by omega⟩
          · exact ⟨a, h⟩
        obtain ⟨a, b⟩ := ih count (rarestFilterOne d n count cand l).2 (rarestFilterOne d n count cand l).1
          (by rw [hp.1.length_eq]; exact hp.2)
        exact ⟨a.trans hp.1, by rw [← hp.1.length_eq]; exact b⟩

/-- The strategy uses random numbers. -/
def GenStrat.isRandom : GenStrat → Bool
  | .random => true
  | _ => false

theorem genFilter_spec {o : SimpState} (h : OptOk o) (h2 : 1 < o.state.genCount) (strat : GenStrat) (tape : List ℕ) (cand : ℕ)
    (l : List SqTerm) (hc : cand ≤ l.length) (hl : 0 < l.length) :
    match genFilter strat o.state.varCount o.divCounts tape cand l with
    | .ok ((l', cand'), _) => l'.Perm l ∧ cand' ≤ l'.length
    | .error e => strat.isRandom = true ∧ (e = .tapeEnd ∨ e = .divideByZero ∧ cand = 0) := by
  have pick : ∀ (key : SqTerm → Option ℕ) (worse : ℕ → ℕ → Bool) (best : ℕ),
      (pickLoop key worse cand 0 best 0 l).1.Perm l ∧
        (pickLoop key worse cand 0 best 0 l).2 ≤ (pickLoop key worse cand 0 best 0 l).1.length := by
    intro key worse best
    obtain ⟨a, b⟩ := pickLoop_perm key worse cand 0 best 0 l (le_refl _) (by omega)
    exact ⟨a, by rw [a.length_eq]; omega⟩
  obtain ⟨v, hv, -⟩ := getRareVar_spec h h2
  cases strat with
  | popvar => exact pick _ _ _
  | raremax =>
    simp only [genFilter, hv]
    exact pick _ _ _
  | rarevar =>
    simp only [genFilter, hv]
    exact pick _ _ _
  | rarest =>
    obtain ⟨a, b⟩ := rarestFilter_perm o.divCounts o.state.varCount o.state.varCount 0 cand l hc
    exact ⟨a, by rw [a.length_eq]; exact b⟩
  | maxsupp => exact pick _ _ _
  | minsupp => exact pick _ _ _
  | any => exact ⟨List.Perm.refl _, hl⟩
  | random =>
    rcases tape with _ | ⟨r, tape⟩
    · exact ⟨rfl, Or.inl rfl⟩
    · simp only [genFilter]
      by_cases e : cand = 0
      · rw [if_pos e]
        exact ⟨rfl, Or.inr ⟨rfl, e⟩⟩
      · rw [if_neg e]
        have hp := swapAt_perm l (i := 0) (j := r % cand) hl ((Nat.mod_lt _ (Nat.pos_of_ne_zero e)).trans_le hc)
        exact ⟨hp, by rw [hp.length_eq]; exact hl⟩

theorem compositeFilter_spec {o : SimpState} (h : OptOk o) (h2 : 1 < o.state.genCount) (gs : List GenStrat) (tape : List ℕ) (cand : ℕ)
    (l : List SqTerm) (hc : cand ≤ l.length) (hl : 0 < l.length) :
    match compositeFilter o.state.varCount o.divCounts gs tape cand l with
    | .ok (l', _) => l'.Perm l
    | .error e => (gs.any GenStrat.isRandom) = true ∧ (e = .tapeEnd ∨ e = .divideByZero ∧ (cand = 0 ∨ .random ∈ gs.tail)) := by
  induction gs generalizing tape cand l with
  | nil => exact List.Perm.refl _
  | cons g gs ih =>
    have hf := genFilter_spec h h2 g tape cand l hc hl
    rw [compositeFilter]
    revert hf
    rcases genFilter g o.state.varCount o.divCounts tape cand l with e | ⟨⟨l', cand'⟩, tape'⟩
    · intro hf
      refine ⟨by simp [hf.1], hf.2.imp id fun h => ⟨h.1, Or.inl h.2⟩⟩
    · intro hf
      have hr := ih tape' cand' l' hf.2 (by rw [hf.1.length_eq]; exact hl)
      simp only
      revert hr
      rcases compositeFilter o.state.varCount o.divCounts gs tape' cand' l' with e | ⟨l'', tape''⟩
      · intro hr
        refine ⟨by simp only [List.any_cons, hr.1, Bool.or_true], hr.2.imp id fun h => ⟨h.1, Or.inr ?_⟩⟩
        have := hr.1
        rw [List.any_eq_true] at this
        obtain ⟨x, hx, hxr⟩ := this
        cases x <;> simp_all [GenStrat.isRandom]
      · exact fun hr => hr.trans hf.1

/-! ### Indices -/

theorem bestIndex_range (key : SqTerm → ℕ) (better : ℕ → ℕ → Bool) (i best bi : ℕ) (l : List SqTerm) :
    (bestIndex key better i best bi l = bi ∨ bestIndex key better i best bi l < i + l.length) ∧
      ((∃ g ∈ l, better best (key g) = true) → bestIndex key better i best bi l < i + l.length) := by
  induction l generalizing i best bi with
  | nil => simp [bestIndex]
  | cons g l ih =>
    rw [bestIndex]
    simp only [List.length_cons]
    split
    · obtain ⟨h1, -⟩ := ih (i + 1) (key g) i
      have : bestIndex key better (i + 1) (key g) i l < i + (l.length + 1) := by omega
      exact ⟨Or.inr this, fun _ => this⟩
    · rename_i hb
      obtain ⟨h1, h2⟩ := ih (i + 1) best bi
      refine ⟨h1.imp id (by omega), ?_⟩
      rintro ⟨x, hx, hxb⟩
      rcases List.mem_cons.1 hx with rfl | hx
      · exact absurd hxb hb
      · have := h2 ⟨x, hx, hxb⟩
        omega

theorem maxSupportGen_lt {I : SqIdeal} (h : 0 < I.gens.length) : I.maxSupportGen < I.gens.length := by
  unfold SqIdeal.maxSupportGen
  rcases hl : I.gens with _ | ⟨g, l⟩
  · rw [hl] at h; simp at h
  · have := (bestIndex_range Finset.card (fun best supp => decide (best < supp)) 1 g.card 0 l).1
    simp only [List.length_cons]
    omega

theorem minSupportGen_lt {I : SqIdeal} (h : 0 < I.gens.length) : I.minSupportGen < I.gens.length := by
  unfold SqIdeal.minSupportGen
  rcases hl : I.gens with _ | ⟨g, l⟩
  · rw [hl] at h; simp at h
  · have := (bestIndex_range Finset.card (fun best supp => decide (best > supp)) 1 g.card 0 l).1
    simp only [List.length_cons]
    omega

theorem rareMaxIndex_lt {s : EulerState} {v : ℕ} (h : ∃ g ∈ s.ideal.gens, v ∈ g) : rareMaxIndex s v < s.ideal.gens.length := by
  have := (bestIndex_range (fun g : SqTerm => if v ∈ g then g.card else 0) (fun best supp => decide (best < supp)) 0 0 s.genCount
    s.ideal.gens).2
  obtain ⟨g, hg, hv⟩ := h
  have h2 := this ⟨g, hg, by simpa [hv] using ⟨v, hv⟩⟩
  rw [Nat.zero_add] at h2
  exact h2

/-! ### The pivots -/

namespace Pivot

/-- The strategy may use random numbers. -/
def isRandom : Pivot → Bool
  | .std s => s.isRandom
  | .widen s => s.isRandom
  | .gen g => g.isRandom
  | .composite gs => gs.any GenStrat.isRandom
  | .hybrid p q => p.isRandom || q.isRandom

/-- The strategy filters at random what other filters have left. -/
def filtersThenRandom : Pivot → Bool
  | .composite gs => decide (.random ∈ gs.tail)
  | .hybrid p q => p.filtersThenRandom || q.filtersThenRandom
  | _ => false

/-- The strategy may split by a term of more than one variable. -/
def usesTerms : Pivot → Bool
  | .std s => decide (s = .popgcd)
  | .widen _ => true
  | .hybrid p q => p.usesTerms || q.usesTerms
  | _ => false

end Pivot

/-- What a pivot comes to. -/
def PivotResult (p : Pivot) (o : SimpState) : Except Stop ((EulerState × EulerState) × List ℕ) → Prop
  | .ok ((a, b), _) => StateOk a ∧ StateOk b ∧ a.val + b.val = o.state.val ∧
      (a.varCount = o.state.varCount ∧ b.varCount = o.state.varCount) ∧
      ((p.usesTerms = true → ∀ v < o.state.varCount, o.divCounts v ≠ 1) → a.size < o.state.size ∧ b.size < o.state.size)
  | .error e => p.isRandom = true ∧ (e = .tapeEnd ∨ e = .divideByZero ∧ p.filtersThenRandom = true)

theorem genSplit_vars {s : EulerState} (h : StateOk s) {i : ℕ} (hi : i < s.ideal.gens.length) {a b : EulerState}
    (e : s.genSplit i = .ok (a, b)) : a.varCount = s.varCount ∧ b.varCount = s.varCount := by
  have : s.genSplit i = .ok (((s.removeGenerator i).toColon (s.ideal.gens[i])).flipSign, s.removeGenerator i) := dif_pos hi
  rw [this] at e
  cases e
  exact ⟨(colonReminimize_spec (removeGenerator_ok h hi).anti _).1, rfl⟩

theorem genSplit_result {p : Pivot} {o : SimpState} (h : OptOk o) {i : ℕ} (hi : i < o.state.ideal.gens.length) (tape : List ℕ) :
    PivotResult p o ((o.state.genSplit i).map fun r => (r, tape)) := by
  obtain ⟨a, b, e, h1, h2, h3, h4⟩ := genSplit_spec h.ok hi
  have hv := genSplit_vars h.ok hi e
  rw [e]
  exact ⟨h1, h2, h3, hv, fun _ => h4⟩

theorem withGens_result {p : Pivot} {o : SimpState} (h : OptOk o) (h2 : 1 < o.state.genCount) {l : List SqTerm}
    (hl : l.Perm o.state.ideal.gens) (tape : List ℕ) :
    PivotResult p o (((withGens o.state l).genSplit 0).map fun r => (r, tape)) := by
  obtain ⟨k1, k2, k3⟩ := withGens_spec h.ok hl
  have hpos : 0 < (withGens o.state l).ideal.gens.length := by
    show 0 < l.length
    rw [hl.length_eq]
    exact Nat.zero_lt_one.trans h2
  obtain ⟨a, b, e, h1, h2, h3, h4, h5⟩ := genSplit_spec k1 hpos
  have hv := genSplit_vars k1 hpos e
  rw [e]
  exact ⟨h1, h2, h3.trans k2, hv, fun _ => ⟨by rw [← k3]; exact h4, by rw [← k3]; exact h5⟩⟩

theorem stdSplit_result {p : Pivot} (hp : p.usesTerms = true) {o : SimpState} (h : OptOk o) {t : SqTerm} (ht : PivotTerm o t)
    (tape : List ℕ) : PivotResult p o (.ok (o.state.stdSplit t, tape)) := by
  obtain ⟨g, hg, h1⟩ := ht.dvd
  obtain ⟨k1, k2, k3, k4, k5⟩ := stdSplit_spec h.ok hg h1 ht.nonempty
  refine ⟨k1, k2, k3, ⟨rfl, (colonReminimize_spec h.ok.anti t).1⟩, fun hu => ⟨?_, k4⟩⟩
  have := ht.two (hu hp)
  show (o.state.stdSplit t).1.size < _
  omega

theorem genPivot_spec {o : SimpState} (h : OptOk o) (h2 : 1 < o.state.genCount) (strat : GenStrat) (tape : List ℕ) :
    PivotResult (.gen strat) o (genPivot strat o.state o.divCounts tape) := by
  have hpos : 0 < o.state.ideal.gens.length := Nat.zero_lt_one.trans h2
  have hex : ∀ v, o.divCounts v ≠ 0 → ∃ g ∈ o.state.ideal.gens, v ∈ g := fun v hc => by
    rw [h.counts] at hc
    exact exists_of_count hc
  obtain ⟨v, hv, hc⟩ := getRareVar_spec h h2
  cases strat with
  | popvar => exact genSplit_result h (getMultiple_spec (hex _ (getPopVar_spec h h2))).1 tape
  | raremax =>
    simp only [genPivot, hv]
    exact genSplit_result h (rareMaxIndex_lt (hex v hc)) tape
  | rarevar =>
    simp only [genPivot, hv]
    exact genSplit_result h (getMultiple_spec (hex v hc)).1 tape
  | rarest =>
    exact withGens_result h h2 (rarestFilter_perm o.divCounts o.state.varCount o.state.varCount 0 o.state.genCount o.state.ideal.gens
      (le_refl _)).1 tape
  | maxsupp => exact genSplit_result h (maxSupportGen_lt hpos) tape
  | minsupp => exact genSplit_result h (minSupportGen_lt hpos) tape
  | any => exact genSplit_result h hpos tape
  | random =>
    rcases tape with _ | ⟨r, tape⟩
    · exact ⟨rfl, Or.inl rfl⟩
    · simp only [genPivot]
      rw [if_neg (by omega)]
      exact genSplit_result h (Nat.mod_lt _ hpos) tape

theorem doPivot_spec (p : Pivot) {o : SimpState} (h : OptOk o) (h2 : 1 < o.state.genCount) (tape : List ℕ) :
    PivotResult p o (doPivot p o.state o.divCounts tape) := by
  induction p with
  | std strat =>
    rw [doPivot]
    split
    · rename_i e
      exact stdSplit_result (by simp [Pivot.usesTerms, e]) h (popGcd_spec h h2) tape
    · have := stdVar_spec h h2 strat tape
      revert this
      rcases stdVar strat o.state o.divCounts tape with e | ⟨v, t⟩
      · exact fun he => ⟨he.1, Or.inl he.2⟩
      · intro hv
        obtain ⟨k1, k2, k3, k4⟩ := stdSplitVar_spec h.ok hv.1 hv.2.1
        exact ⟨k1, k2, k3, ⟨rfl, toColonVar_varCount h.ok v⟩, fun _ => k4⟩
  | widen strat =>
    rw [doPivot, stdPivot]
    split
    · exact stdSplit_result rfl h (widen_spec h (popGcd_spec h h2)) tape
    · have := stdVar_spec h h2 strat tape
      revert this
      rcases stdVar strat o.state o.divCounts tape with e | ⟨v, t⟩
      · exact fun he => ⟨he.1, Or.inl he.2⟩
      · intro hv
        exact stdSplit_result rfl h (widen_spec h (pivotTerm_singleton h hv.2.2)) t
  | gen strat => exact genPivot_spec h h2 strat tape
  | composite gs =>
    rw [doPivot]
    have := compositeFilter_spec h h2 gs tape o.state.genCount o.state.ideal.gens (le_refl _) (Nat.zero_lt_one.trans h2)
    revert this
    rcases compositeFilter o.state.varCount o.divCounts gs tape o.state.genCount o.state.ideal.gens with e | ⟨l, t⟩
    · intro he
      refine ⟨he.1, he.2.imp id fun h3 => ⟨h3.1, ?_⟩⟩
      rcases h3.2 with h4 | h4
      · omega
      · simpa [Pivot.filtersThenRandom] using h4
    · exact fun hl => withGens_result h h2 hl t
  | hybrid p q ihp ihq =>
    have up : ∀ r, PivotResult p o r → PivotResult (.hybrid p q) o r := by
      rintro (e | ⟨⟨a, b⟩, t⟩) hr
      · exact ⟨by simp [Pivot.isRandom, hr.1], hr.2.imp id fun h => ⟨h.1, by simp [Pivot.filtersThenRandom, h.2]⟩⟩
      · exact ⟨hr.1, hr.2.1, hr.2.2.1, hr.2.2.2.1, fun hu => hr.2.2.2.2 fun e => hu (by simp [Pivot.usesTerms, e])⟩
    have uq : ∀ r, PivotResult q o r → PivotResult (.hybrid p q) o r := by
      rintro (e | ⟨⟨a, b⟩, t⟩) hr
      · exact ⟨by simp [Pivot.isRandom, hr.1], hr.2.imp id fun h => ⟨h.1, by simp [Pivot.filtersThenRandom, h.2]⟩⟩
      · exact ⟨hr.1, hr.2.1, hr.2.2.1, hr.2.2.2.1, fun hu => hr.2.2.2.2 fun e => hu (by simp [Pivot.usesTerms, e])⟩
    rw [doPivot]
    split
    · exact up _ ihp
    · exact uq _ ihq

end Frobby

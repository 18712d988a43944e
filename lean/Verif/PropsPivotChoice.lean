import Verif.PivotChoiceLemmas

/-!
# The pivots are the ones that the help describes
-/

namespace Frobby.Choice

open Frobby EulerState

/-- Generators for the examples: `4` is the only rare variable and `2` the only popular one. -/
def sample : List SqTerm := [{0, 1}, {2, 3}, {0, 2, 4}, {1, 2, 3}]

/-- How many of them each variable divides. -/
def sampleCounts : ℕ → ℕ := (⟨5, sample⟩ : SqIdeal).varDividesCounts

/-- **C84**: what one strategy for generators selects among the candidates is what the help says. -/
theorem C84_filter (strat : GenStrat) (V : ℕ) (d : ℕ → ℕ) (tape tape' : List ℕ) (c tail r : List SqTerm) (k : ℕ)
    (hc : c ≠ []) (hV : ∀ g ∈ c, g ⊆ Finset.range V)
    (h : genFilter strat V d tape c.length (c ++ tail) = .ok ((r, k), tape')) :
    ∃ sel rej, r = sel ++ rej ++ tail ∧ k = sel.length ∧ Selects d V strat c sel rej := by
  have use : ∀ {good : SqTerm → Prop}, Keeps c tail good (r, k) →
      ∃ sel rej, r = sel ++ rej ++ tail ∧ k = sel.length ∧ (sel ++ rej).Perm c ∧ (∀ g ∈ sel, good g) ∧ ∀ g ∈ rej, ¬ good g := by
    rintro good ⟨sel, rej, h1, h2⟩
    exact ⟨sel, rej, congrArg Prod.fst h1, congrArg Prod.snd h1, h2⟩
  cases strat with
  | popvar =>
    simp only [genFilter, Except.ok.injEq, Prod.mk.injEq] at h
    have hk := pick_keeps_lt (fun g => if Disjoint (varsWithCount d V (d (getPopVar d V))) g then none else some 0) c tail
    rw [h.1] at hk
    refine use (keeps_congr hk fun g _ => ?_)
    have hdis : ¬ Disjoint (varsWithCount d V (d (getPopVar d V))) g ↔ ∃ u ∈ g, Popular d V u := by
      rw [Finset.not_disjoint_iff]
      refine exists_congr fun u => ?_
      simp only [varsWithCount, Finset.mem_filter, Finset.mem_range]
      constructor
      · rintro ⟨⟨h1, h2⟩, h3⟩
        exact ⟨h3, h1, fun v hv => by rw [h2]; exact getPopVar_max d V v hv⟩
      · rintro ⟨h3, h1, h2⟩
        exact ⟨⟨h1, le_antisymm (getPopVar_max d V u h1) (h2 _ (popular_getPopVar d V (by omega)).1)⟩, h3⟩
    show _ ↔ ∃ u ∈ g, Popular d V u
    rw [← hdis]
    constructor
    · rintro ⟨k', hk', _⟩
      split at hk'
      · cases hk'
      · assumption
    · intro hg
      refine ⟨0, by rw [if_neg hg], fun h' _ k' hk' => ?_⟩
      split at hk'
      · cases hk'
      · cases hk'; exact le_refl _
  | raremax =>
    simp only [genFilter] at h
    cases hv : getRareVar d V with
    | none => rw [hv] at h; cases h
    | some v =>
      rw [hv] at h
      simp only [Except.ok.injEq, Prod.mk.injEq] at h
      have hk := pick_keeps_lt (fun g => if v ∈ g then some g.card else none) c tail
      rw [h.1] at hk
      have hk' : Keeps c tail (Wants d V v .raremax c) (r, k) := by
        refine keeps_congr hk fun g _ => ?_
        show _ ↔ v ∈ g ∧ ∀ h ∈ c, v ∈ h → h.card ≤ g.card
        constructor
        · rintro ⟨k', hk', hall⟩
          split at hk'
          · rename_i hm
            cases hk'
            exact ⟨hm, fun h hh hvh => hall h hh _ (by rw [if_pos hvh])⟩
          · cases hk'
        · rintro ⟨hm, hall⟩
          refine ⟨g.card, by rw [if_pos hm], fun h hh k'' hk'' => ?_⟩
          split at hk''
          · cases hk''; exact hall h hh (by assumption)
          · cases hk''
      obtain ⟨sel, rej, h1, h2, h3, h4⟩ := use hk'
      exact ⟨sel, rej, h1, h2, h3, v, rare_getRareVar hv, h4⟩
  | rarevar =>
    simp only [genFilter] at h
    cases hv : getRareVar d V with
    | none => rw [hv] at h; cases h
    | some v =>
      rw [hv] at h
      simp only [Except.ok.injEq, Prod.mk.injEq] at h
      have hk := pick_keeps_lt (fun g => if v ∈ g then some 0 else none) c tail
      rw [h.1] at hk
      have hk' : Keeps c tail (Wants d V v .rarevar c) (r, k) := by
        refine keeps_congr hk fun g _ => ?_
        show _ ↔ v ∈ g
        constructor
        · rintro ⟨k', hk', hall⟩
          split at hk'
          · assumption
          · cases hk'
        · intro hm
          refine ⟨0, by rw [if_pos hm], fun h hh k'' hk'' => ?_⟩
          split at hk''
          · cases hk''; exact le_refl _
          · cases hk''
      obtain ⟨sel, rej, h1, h2, h3, h4⟩ := use hk'
      exact ⟨sel, rej, h1, h2, h3, v, rare_getRareVar hv, h4⟩
  | rarest =>
    simp only [genFilter, Except.ok.injEq, Prod.mk.injEq] at h
    have hk := rarest_keeps d V V 0 c tail (fun _ _ _ _ c h1 h2 => by omega)
      ((Finset.card_filter_le _ _).trans (by simp))
    rw [h.1] at hk
    exact use hk
  | maxsupp =>
    simp only [genFilter, Except.ok.injEq, Prod.mk.injEq] at h
    have hk := pick_keeps_lt (fun g => some g.card) c tail
    rw [h.1] at hk
    refine use (keeps_congr hk fun g _ => ?_)
    show _ ↔ ∀ h ∈ c, h.card ≤ g.card
    simp
  | minsupp =>
    simp only [genFilter, Except.ok.injEq, Prod.mk.injEq] at h
    have hk := pick_keeps (fun g => some g.card) (fun a b => decide (a > b)) (by simp)
      (fun a b h1 h2 => by simp only [decide_eq_false_iff_not] at h1 h2; omega)
      (fun a b c h1 h2 => by simp only [decide_eq_true_eq] at h1 h2 ⊢; omega) V c tail (by
        intro g hg k' hk'
        cases hk'
        have := Finset.card_le_card (hV g hg)
        simpa using this)
    rw [h.1] at hk
    refine use (keeps_congr hk fun g _ => ?_)
    show _ ↔ ∀ h ∈ c, g.card ≤ h.card
    simp
  | any =>
    simp only [genFilter, Except.ok.injEq, Prod.mk.injEq] at h
    obtain ⟨⟨rfl, rfl⟩, _⟩ := h
    cases c with
    | nil => exact absurd rfl hc
    | cons x c => exact ⟨[x], c, by simp, rfl, by simp, rfl⟩
  | random =>
    cases tape with
    | nil => simp [genFilter] at h
    | cons t tape =>
      simp only [genFilter] at h
      have hlen : 0 < c.length := List.length_pos_iff.2 hc
      rw [if_neg (by omega)] at h
      simp only [Except.ok.injEq, Prod.mk.injEq] at h
      obtain ⟨⟨rfl, rfl⟩, _⟩ := h
      have hlt : t % c.length < c.length := Nat.mod_lt _ hlen
      generalize t % c.length = i at hlt
      have hcs : c = c.take i ++ c[i] :: c.drop (i + 1) := by
        rw [List.getElem_cons_drop, List.take_append_drop]
      obtain ⟨B, hB, hsw⟩ := swapAt_split [] (c.take i) (c.drop (i + 1) ++ tail) c[i]
      simp only [List.length_nil, Nat.zero_add, List.nil_append, List.length_take, Nat.min_eq_left hlt.le] at hsw
      have e : c ++ tail = c.take i ++ c[i] :: (c.drop (i + 1) ++ tail) := by
        refine (congrArg (· ++ tail) hcs).trans ?_
        rw [List.append_assoc, List.cons_append]
      refine ⟨[c[i]], B ++ c.drop (i + 1), ?_, rfl, ?_, rfl⟩
      · rw [e, hsw]; simp
      · conv_rhs => rw [hcs]
        refine (List.Perm.cons c[i] (List.Perm.append_right _ hB)).trans ?_
        exact List.perm_middle.symm

example : genFilter .rarest 5 sampleCounts [] 4 sample = .ok (([{0, 2, 4}, {2, 3}, {0, 1}, {1, 2, 3}], 1), []) ∧
    genFilter .minsupp 5 sampleCounts [] 4 sample = .ok ((sample, 2), []) := by decide +kernel

/-- **C84**: combined strategies. The generator that is split on is one that the help allows, unless some strategy that is not
the last one would eliminate all the candidates. Missing: that case, in which the code does not preserve the candidates for the
next strategy (`C84_combined_witness`). -/
theorem C84_combined_partial (V : ℕ) (d : ℕ → ℕ) (gs : List GenStrat) :
    ∀ (tape tape' : List ℕ) (c tail r : List SqTerm), c ≠ [] → (∀ g ∈ c, g ⊆ Finset.range V) →
      compositeFilter V d gs tape c.length (c ++ tail) = .ok (r, tape') →
      (∃ k, Narrows d V gs c k ∧ ∃ x ∈ k, r.head? = some x) ∨
      ∃ gs₁ g gs₂, gs = gs₁ ++ g :: gs₂ ∧ gs₂ ≠ [] ∧ ∃ k rej, Narrows d V gs₁ c k ∧ k ≠ [] ∧ Selects d V g k [] rej := by
  induction gs with
  | nil =>
    intro tape tape' c tail r hc _ h
    simp only [compositeFilter, Except.ok.injEq, Prod.mk.injEq] at h
    obtain ⟨rfl, _⟩ := h
    refine Or.inl ⟨c, .nil c, ?_⟩
    cases c with
    | nil => exact absurd rfl hc
    | cons x c => exact ⟨x, List.mem_cons_self, rfl⟩
  | cons g gs ih =>
    intro tape tape' c tail r hc hV h
    rw [compositeFilter] at h
    cases hf : genFilter g V d tape c.length (c ++ tail) with
    | error e => rw [hf] at h; cases h
    | ok q =>
      obtain ⟨⟨l, k⟩, t⟩ := q
      rw [hf] at h
      simp only at h
      obtain ⟨sel, rej, rfl, rfl, hsel⟩ := C84_filter g V d tape t c tail l k hc hV hf
      by_cases hs : sel = []
      · subst hs
        by_cases hgs : gs = []
        · subst hgs
          simp only [compositeFilter, Except.ok.injEq, Prod.mk.injEq] at h
          obtain ⟨rfl, _⟩ := h
          have hp : rej.Perm c := hsel.1
          refine Or.inl ⟨c, .keep hsel (.nil c), ?_⟩
          cases rej with
          | nil => exact absurd hp.symm.eq_nil hc
          | cons x rej => exact ⟨x, hp.mem_iff.1 List.mem_cons_self, rfl⟩
        · exact Or.inr ⟨[], g, gs, rfl, hgs, c, rej, .nil c, hc, hsel⟩
      · rw [List.append_assoc] at h
        have hsV : ∀ x ∈ sel, x ⊆ Finset.range V := fun x hx =>
          hV x (hsel.1.mem_iff.1 (List.mem_append_left _ hx))
        rcases ih t tape' sel (rej ++ tail) r hs hsV h with ⟨k, hk, hx⟩ | ⟨gs₁, g', gs₂, e, hne, k, rej', hk, hk0, hsel'⟩
        · exact Or.inl ⟨k, .cons hsel hs hk, hx⟩
        · exact Or.inr ⟨g :: gs₁, g', gs₂, by rw [e]; rfl, hne, k, rej', .cons hsel hs hk, hk0, hsel'⟩

example : compositeFilter 5 sampleCounts [.minsupp, .popvar] [] 4 sample = .ok ([{2, 3}, {0, 1}, {0, 2, 4}, {1, 2, 3}], []) := by
  decide +kernel

/-- **C84**: `minsupp_rarevar_popvar`. The strategy `rarevar` eliminates both candidates of `minsupp`. According to the help it
preserves them, and `popvar` then wants the one that the popular variable divides, and only that one. The code takes the other
one. -/
theorem C84_combined_witness :
    compositeFilter 5 sampleCounts [.minsupp, .rarevar, .popvar] [] 4 sample = .ok (sample, []) ∧
    sample.head? = some {0, 1} ∧
    (∃ k, Narrows sampleCounts 5 [.minsupp, .rarevar, .popvar] sample k) ∧
    ∀ k, Narrows sampleCounts 5 [.minsupp, .rarevar, .popvar] sample k → ∀ x ∈ k, x = {2, 3} := by
  have hrare : Rare sampleCounts 5 4 := by unfold Rare; decide +kernel
  have hrare' : ∀ v, Rare sampleCounts 5 v → v = 4 := by
    intro v hv
    have h5 := hv.1
    interval_cases v
    all_goals first | rfl | exact absurd hv (by unfold Rare; decide +kernel)
  have hpop : Popular sampleCounts 5 2 := by unfold Popular; decide +kernel
  have hpop' : ∀ v, Popular sampleCounts 5 v → v = 2 := by
    intro v hv
    have h5 := hv.1
    interval_cases v
    all_goals first | rfl | exact absurd hv (by unfold Popular; decide +kernel)
  refine ⟨by decide +kernel, rfl, ⟨[{2, 3}], ?_⟩, fun k hk x hx => ?_⟩
  · refine .cons (sel := [{0, 1}, {2, 3}]) (rej := [{0, 2, 4}, {1, 2, 3}]) ?_ (by simp) (.keep (rej := [{0, 1}, {2, 3}]) ?_
      (.cons (sel := [{2, 3}]) (rej := [{0, 1}]) ?_ (by simp) (.nil _)))
    · exact ⟨List.Perm.refl _, by simp only [Wants]; decide +kernel, by simp only [Wants]; decide +kernel⟩
    · exact ⟨List.Perm.refl _, 4, hrare, by simp, by simp only [Wants]; decide +kernel⟩
    · refine ⟨List.Perm.swap _ _ _, fun g hg => ⟨2, ?_, hpop⟩, fun g hg => ?_⟩
      · rw [List.mem_singleton.1 hg]; decide
      · rintro ⟨u, hu, hu'⟩
        rw [hpop' u hu', List.mem_singleton.1 hg] at hu
        revert hu; decide
  · have two : ∀ {sel rej : List SqTerm}, Selects sampleCounts 5 .minsupp sample sel rej →
        (∀ x ∈ sel, x = {0, 1} ∨ x = {2, 3}) ∧ ({2, 3} : SqTerm) ∈ sel := by
      intro sel rej h
      constructor
      · intro x hx
        have hm : x ∈ sample := h.1.mem_iff.1 (List.mem_append_left _ hx)
        have hw := h.2.1 x hx {0, 1} (by decide)
        simp only [sample, List.mem_cons, List.not_mem_nil, or_false] at hm
        rcases hm with rfl | rfl | rfl | rfl
        · exact Or.inl rfl
        · exact Or.inr rfl
        · exact absurd hw (by decide)
        · exact absurd hw (by decide)
      · rcases List.mem_append.1 (h.1.mem_iff.2 (show ({2, 3} : SqTerm) ∈ sample by decide)) with h' | h'
        · exact h'
        · exact absurd (show Wants sampleCounts 5 0 .minsupp sample {2, 3} by simp only [Wants]; decide +kernel) (h.2.2 _ h')
    have no4 : ∀ {sel : List SqTerm}, (∀ x ∈ sel, x = {0, 1} ∨ x = {2, 3}) → ∀ x ∈ sel, 4 ∉ x := by
      intro sel h x hx
      rcases h x hx with rfl | rfl <;> decide
    have last : ∀ {sel k : List SqTerm}, (∀ x ∈ sel, x = {0, 1} ∨ x = {2, 3}) → ({2, 3} : SqTerm) ∈ sel →
        Narrows sampleCounts 5 [.popvar] sel k → ∀ x ∈ k, x = {2, 3} := by
      intro sel k h1 h2 hn x hx
      cases hn with
      | cons hsel _ hn =>
        cases hn
        obtain ⟨u, hu, hu'⟩ := hsel.2.1 x hx
        rw [hpop' u hu'] at hu
        rcases h1 x (hsel.1.mem_iff.1 (List.mem_append_left _ hx)) with rfl | rfl
        · exact absurd hu (by decide)
        · rfl
      | keep hsel hn =>
        have hm := hsel.1.mem_iff.2 h2
        exact absurd ⟨2, by decide, hpop⟩ (hsel.2.2 _ hm)
    have mid : ∀ {sel k : List SqTerm}, (∀ x ∈ sel, x = {0, 1} ∨ x = {2, 3}) → ({2, 3} : SqTerm) ∈ sel →
        Narrows sampleCounts 5 [.rarevar, .popvar] sel k → ∀ x ∈ k, x = {2, 3} := by
      intro sel k h1 h2 hn
      cases hn with
      | cons hsel hne hn =>
        obtain ⟨v, hv, hs, _⟩ := hsel.2
        obtain ⟨y, hy⟩ := List.exists_mem_of_ne_nil _ hne
        have h4 : v ∈ y := hs y hy
        rw [hrare' v hv] at h4
        exact absurd h4 (no4 h1 y (hsel.1.mem_iff.1 (List.mem_append_left _ hy)))
      | keep hsel hn => exact last h1 h2 hn
    cases hk with
    | cons hsel _ hn => exact mid (two hsel).1 (two hsel).2 hn x hx
    | keep hsel hn => exact absurd (two hsel).2 (by simp)

/-- **C84**: a strategy for generators that is not combined. The generator that is split on is one that the help allows; for
`any` and `random` that is any generator. -/
theorem C84_single (strat : GenStrat) (s : EulerState) (tape : List ℕ) (hs : ∀ g ∈ s.ideal.gens, g ⊆ Finset.range s.varCount)
    (hne : ∃ g ∈ s.ideal.gens, g.Nonempty) (htape : tape ≠ []) :
    ∃ gens tape' i, ∃ h : i < gens.length, gens.Perm s.ideal.gens ∧
      genPivot strat s s.ideal.varDividesCounts tape = ((withGens s gens).genSplit i).map (fun r => (r, tape')) ∧
      ∃ v, Rare s.ideal.varDividesCounts s.varCount v ∧
        Wants s.ideal.varDividesCounts s.varCount v strat s.ideal.gens gens[i] := by
  obtain ⟨g0, hg0, u, hu⟩ := hne
  have hne0 : s.ideal.gens ≠ [] := List.ne_nil_of_mem hg0
  have huV : u < s.varCount := Finset.mem_range.1 (hs g0 hg0 hu)
  have hdu : s.ideal.varDividesCounts u ≠ 0 := by
    have : 0 < s.ideal.gens.countP fun g => u ∈ g := List.countP_pos_iff.2 ⟨g0, hg0, by simpa using hu⟩
    exact Nat.pos_iff_ne_zero.1 this
  obtain ⟨v, hv⟩ : ∃ v, getRareVar s.ideal.varDividesCounts s.varCount = some v := by
    cases hv : getRareVar s.ideal.varDividesCounts s.varCount with
    | some v => exact ⟨v, rfl⟩
    | none =>
      exact absurd ((rareVar_foldl _ (List.range s.varCount) none (by simp)).2 hv).2 fun h =>
        hdu (h u (List.mem_range.2 huV))
  have hrare := rare_getRareVar hv
  have mult : ∀ w, s.ideal.varDividesCounts w ≠ 0 → ∃ h : s.ideal.getMultiple w < s.ideal.gens.length,
      w ∈ s.ideal.gens[s.ideal.getMultiple w] := by
    intro w hw
    obtain ⟨g, hg, hwg⟩ := List.countP_pos_iff.1 (Nat.pos_iff_ne_zero.2 hw)
    have h : s.ideal.getMultiple w < s.ideal.gens.length := List.findIdx_lt_length_of_exists ⟨g, hg, hwg⟩
    exact ⟨h, of_decide_eq_true (List.findIdx_getElem (w := h))⟩
  have self : withGens s s.ideal.gens = s := rfl
  cases strat with
  | popvar =>
    have hp := popular_getPopVar s.ideal.varDividesCounts s.varCount (by omega)
    obtain ⟨h, hm⟩ := mult (getPopVar s.ideal.varDividesCounts s.varCount) (by have := hp.2 u huV; omega)
    exact ⟨s.ideal.gens, tape, _, h, List.Perm.refl _, rfl, v, hrare, _, hm, hp⟩
  | raremax =>
    obtain ⟨_, hm⟩ := mult v hrare.2.1
    have key := bestIndex_max (fun g => if v ∈ g then g.card else 0) s.ideal.gens 0 0 s.genCount
    rcases key with ⟨_, h2⟩ | ⟨j, hj, h1, h2, h3⟩
    · have h4 := h2 _ (List.getElem_mem (mult v hrare.2.1).1)
      rw [if_pos hm] at h4
      have := Finset.card_pos.2 ⟨v, hm⟩
      omega
    · have hvj : v ∈ s.ideal.gens[j] := by
        by_contra hn
        rw [if_neg hn] at h2
        exact absurd h2 (lt_irrefl _)
      refine ⟨s.ideal.gens, tape, j, hj, List.Perm.refl _, ?_, v, hrare, hvj, fun h hh hvh => ?_⟩
      · simp only [genPivot, hv, rareMaxIndex, h1, Nat.zero_add]
        rfl
      · have := h3 h hh
        rwa [if_pos hvh, if_pos hvj] at this
  | rarevar =>
    obtain ⟨h, hm⟩ := mult v hrare.2.1
    refine ⟨s.ideal.gens, tape, _, h, List.Perm.refl _, ?_, v, hrare, hm⟩
    simp only [genPivot, hv]
    rfl
  | rarest =>
    have hk := rarest_keeps s.ideal.varDividesCounts s.varCount s.varCount 0 s.ideal.gens [] (fun _ _ _ _ c h1 h2 => by omega)
      ((Finset.card_filter_le _ _).trans (by simp))
    have hn := rarest_nonempty s.ideal.varDividesCounts s.varCount s.varCount 0 s.ideal.gens [] hne0
    obtain ⟨sel, rej, e1, e2, e3, _⟩ := hk
    rw [e1] at hn
    cases sel with
    | nil => exact absurd rfl hn
    | cons x sel =>
      refine ⟨x :: sel ++ rej, tape, 0, by simp, e2, ?_, v, hrare, e3 x List.mem_cons_self⟩
      rw [List.append_nil, List.append_nil] at e1
      have e1' : rarestFilter s.ideal.varDividesCounts s.varCount s.varCount 0 s.genCount s.ideal.gens =
          (x :: sel ++ rej, (x :: sel).length) := e1
      simp only [genPivot, e1']
  | maxsupp =>
    obtain ⟨i, hi, e, hmax⟩ : ∃ i, ∃ h : i < s.ideal.gens.length, s.ideal.maxSupportGen = i ∧
        ∀ h ∈ s.ideal.gens, h.card ≤ (s.ideal.gens[i]).card := by
      unfold SqIdeal.maxSupportGen
      generalize s.ideal.gens = l at hne0
      cases l with
      | nil => exact absurd rfl hne0
      | cons x l =>
        simp only
        rcases bestIndex_max Finset.card l 1 x.card 0 with ⟨h1, h2⟩ | ⟨j, hj, h1, h2, h3⟩
        · exact ⟨0, by simp, h1, by simpa using h2⟩
        · exact ⟨j + 1, by simpa using hj, by rw [h1]; omega, by simpa using ⟨h2.le, h3⟩⟩
    refine ⟨s.ideal.gens, tape, i, hi, List.Perm.refl _, ?_, v, hrare, hmax⟩
    simp only [genPivot, e]
    rfl
  | minsupp =>
    obtain ⟨i, hi, e, hmax⟩ : ∃ i, ∃ h : i < s.ideal.gens.length, s.ideal.minSupportGen = i ∧
        ∀ h ∈ s.ideal.gens, (s.ideal.gens[i]).card ≤ h.card := by
      unfold SqIdeal.minSupportGen
      generalize s.ideal.gens = l at hne0
      cases l with
      | nil => exact absurd rfl hne0
      | cons x l =>
        simp only
        rcases bestIndex_min Finset.card l 1 x.card 0 with ⟨h1, h2⟩ | ⟨j, hj, h1, h2, h3⟩
        · exact ⟨0, by simp, h1, by simpa using h2⟩
        · exact ⟨j + 1, by simpa using hj, by rw [h1]; omega, by simpa using ⟨h2.le, h3⟩⟩
    refine ⟨s.ideal.gens, tape, i, hi, List.Perm.refl _, ?_, v, hrare, hmax⟩
    simp only [genPivot, e]
    rfl
  | any => exact ⟨s.ideal.gens, tape, 0, List.length_pos_iff.2 hne0, List.Perm.refl _, rfl, v, hrare, trivial⟩
  | random =>
    cases tape with
    | nil => exact absurd rfl htape
    | cons t tape =>
      have hlen : 0 < s.genCount := List.length_pos_iff.2 hne0
      refine ⟨s.ideal.gens, tape, t % s.genCount, Nat.mod_lt _ hlen, List.Perm.refl _, ?_, v, hrare, trivial⟩
      simp only [genPivot]
      rw [if_neg (by omega)]
      rfl

example : (genPivot .rarest ⟨⟨5, sample⟩, ∅, 1⟩ sampleCounts [0]).map (fun r => r.1.2.ideal.gens) =
    .ok [{1, 2, 3}, {2, 3}, {0, 1}] := by decide +kernel

/-- **C84**: the standard pivots. A popular or a rare variable, or one that is not eliminated. -/
theorem C84_standard (s : EulerState) (d : ℕ → ℕ) (tape : List ℕ) (hV : 0 < s.varCount) :
    (∃ v, Popular d s.varCount v ∧ stdPivot .popvar s d tape = .ok ({v}, tape)) ∧
    (∀ r, stdPivot .rarevar s d tape = .ok r → ∃ v, Rare d s.varCount v ∧ r = ({v}, tape)) ∧
    (∀ r, stdPivot .any s d tape = .ok r → ∃ v, v < s.varCount ∧ v ∉ s.eliminated ∧ r = ({v}, tape)) ∧
    ∀ r, stdPivot .random s d tape = .ok r → ∃ v, v < s.varCount ∧ v ∉ s.eliminated ∧ r.1 = {v} := by
  refine ⟨⟨_, popular_getPopVar d s.varCount hV, rfl⟩, fun r h => ?_, fun r h => ?_, fun r h => ?_⟩
  · simp only [stdPivot, stdVar, reduceCtorEq, if_false] at h
    cases hv : getRareVar d s.varCount with
    | none => rw [hv] at h; cases h
    | some v =>
      rw [hv] at h
      cases h
      exact ⟨v, rare_getRareVar hv, rfl⟩
  · simp only [stdPivot, stdVar, anyVar, reduceCtorEq, if_false] at h
    cases hv : (List.range s.varCount).find? fun v => v ∉ s.eliminated with
    | none => rw [hv] at h; cases h
    | some v =>
      rw [hv] at h
      cases h
      have h1 := List.find?_some hv
      exact ⟨v, List.mem_range.1 (List.mem_of_find?_eq_some hv), by simpa using h1, rfl⟩
  · simp only [stdPivot, stdVar, reduceCtorEq, if_false] at h
    induction tape with
    | nil => cases h
    | cons t tape ih =>
      rw [randomVar, if_neg (by omega)] at h
      by_cases he : t % s.varCount ∉ s.eliminated
      · rw [if_pos he] at h
        cases h
        exact ⟨_, Nat.mod_lt _ hV, he, rfl⟩
      · rw [if_neg he] at h
        exact ih h

example : stdPivot .rarevar ⟨⟨5, sample⟩, ∅, 1⟩ sampleCounts [] = .ok ({4}, []) ∧
    stdPivot .popvar ⟨⟨5, sample⟩, ∅, 1⟩ sampleCounts [] = .ok ({2}, []) := by decide +kernel

/-- The variables in all of some sets. -/
theorem mem_foldl_inter (l : List SqTerm) : ∀ (g : SqTerm) (x : ℕ), x ∈ l.foldl (· ∩ ·) g ↔ x ∈ g ∧ ∀ h ∈ l, x ∈ h := by
  induction l with
  | nil => simp
  | cons y l ih =>
    intro g x
    rw [List.foldl_cons, ih]
    simp only [Finset.mem_inter, List.mem_cons, forall_eq_or_imp]
    tauto

/-- **C84**: `popgcd`. If a popular variable divides more than one generator then the pivot is the gcd of three generators that it
divides, or of both if there are only two. -/
theorem C84_popgcd (s : EulerState) (hV : 0 < s.varCount)
    (h2 : ∃ v < s.varCount, 2 ≤ s.ideal.varDividesCounts v) :
    ∃ v, Popular s.ideal.varDividesCounts s.varCount v ∧ ∃ l : List SqTerm, l.Sublist s.ideal.gens ∧
      l.length = min 3 (s.ideal.varDividesCounts v) ∧ (∀ g ∈ l, v ∈ g) ∧
      ∀ x, x ∈ popGcd s s.ideal.varDividesCounts ↔ ∀ g ∈ l, x ∈ g := by
  have hp := popular_getPopVar s.ideal.varDividesCounts s.varCount hV
  refine ⟨_, hp, (s.ideal.gens.filter fun g => getPopVar s.ideal.varDividesCounts s.varCount ∈ g).take 3, ?_, ?_, ?_, ?_⟩
  · exact (List.take_sublist _ _).trans List.filter_sublist
  · rw [List.length_take, ← List.countP_eq_length_filter]
    rfl
  · intro g hg
    simpa using (List.mem_filter.1 (List.mem_of_mem_take hg)).2
  · intro x
    obtain ⟨v, hv, hv2⟩ := h2
    have hge := hp.2 v hv
    unfold popGcd
    simp only
    rw [if_neg (by omega)]
    cases hl : (s.ideal.gens.filter fun g => getPopVar s.ideal.varDividesCounts s.varCount ∈ g).take 3 with
    | nil =>
      have hlen : ((s.ideal.gens.filter fun g => getPopVar s.ideal.varDividesCounts s.varCount ∈ g).take 3).length =
          min 3 (s.ideal.varDividesCounts (getPopVar s.ideal.varDividesCounts s.varCount)) := by
        rw [List.length_take, ← List.countP_eq_length_filter]
        rfl
      rw [hl, List.length_nil] at hlen
      omega
    | cons g l =>
      simp only
      rw [mem_foldl_inter]
      simp

example : popGcd ⟨⟨5, sample⟩, ∅, 1⟩ sampleCounts = {2} ∧ popGcd ⟨⟨3, [{0, 1, 2}, {0, 1}, {0, 1}, {0}]⟩, ∅, 1⟩
    (⟨3, [{0, 1, 2}, {0, 1}, {0, 1}, {0}]⟩ : SqIdeal).varDividesCounts = {0, 1} := by decide +kernel

/-- **C84**: `widen_X`. The pivot is the gcd of all the generators that the preliminary pivot divides. -/
theorem C84_widen (strat : StdStrat) (s : EulerState) (d : ℕ → ℕ) (tape tape' : List ℕ) (p : SqTerm)
    (h : stdPivot strat s d tape = .ok (p, tape')) :
    ∃ q : SqTerm, doPivot (.widen strat) s d tape = .ok (s.stdSplit q, tape') ∧
      ∀ x, x ∈ q ↔ x < s.varCount ∧ ∀ g ∈ s.ideal.gens, p ⊆ g → x ∈ g := by
  refine ⟨s.ideal.gcdOfMultiples p, ?_, fun x => ?_⟩
  · simp only [doPivot, h]
    rfl
  · unfold SqIdeal.gcdOfMultiples
    rw [mem_foldl_inter]
    simp only [Finset.mem_range, List.mem_filter, decide_eq_true_eq, and_imp]
    rfl

example : (doPivot (.widen .rarevar) ⟨⟨5, sample⟩, ∅, 1⟩ sampleCounts []).map (fun r => r.1.1.ideal.gens) =
    .ok [{0, 1}, {2, 3}, {1, 2, 3}, {0, 2, 4}] := by decide +kernel

end Frobby.Choice

import Verif.EulerRun
import Verif.EulerSpec

/-!
# The Euler characteristic (C47)
-/

namespace Frobby

open EulerState

/-! ### The alternating sum is the Euler characteristic -/

theorem eSum_euler {n : ℕ} (hn : n ≠ 0) {gens : List SqTerm} (hg : ∀ g ∈ gens, g ⊆ Finset.range n) :
    eSum n gens ∅ = eulerCharacteristic (dualFaces n gens) := by
  rw [eSum_hit, Finset.sdiff_empty]
  have hall : ∑ T ∈ (Finset.range n).powerset, (-1 : ℤ) ^ T.card = 0 := by
    rw [Finset.sum_powerset_neg_one_pow_card, if_neg]
    simpa using hn
  rw [← Finset.sum_filter_add_sum_filter_not _ fun T => ∀ g ∈ gens, ¬ Disjoint T g] at hall
  have : eulerCharacteristic (dualFaces n gens) =
      - ∑ T ∈ (Finset.range n).powerset with ¬ ∀ g ∈ gens, ¬ Disjoint T g, (-1 : ℤ) ^ T.card := by
    unfold eulerCharacteristic dualFaces
    rw [← Finset.sum_neg_distrib]
    refine Finset.sum_congr (Finset.filter_congr fun T _ => ?_) fun T _ => by rw [pow_succ]; ring
    push Not
    refine exists_congr fun g => and_congr_right fun hgm => ?_
    rw [Finset.subset_sdiff, disjoint_comm]
    exact ⟨fun h => h.2, fun h => ⟨hg g hgm, h⟩⟩
  rw [this]
  linarith

theorem minimize_euler {n : ℕ} {gens : List SqTerm} : dualFaces n (sqMinimize gens) = dualFaces n gens := by
  have hm := sqMinimize_minimizes gens
  refine Finset.filter_congr fun F _ => ⟨?_, ?_⟩
  · rintro ⟨g, hg, h⟩
    exact ⟨g, hm.sub.subset hg, h⟩
  · rintro ⟨g, hg, h⟩
    obtain ⟨x, hx, hs⟩ := hm.cov g hg
    exact ⟨x, hx, hs.trans h⟩

theorem swap01_euler (I : SqIdeal) :
    dualFaces I.swap01.varCount I.swap01.gens = facetFaces I.varCount I.gens := by
  refine Finset.filter_congr fun F hF => ?_
  rw [Finset.mem_powerset] at hF
  constructor
  · rintro ⟨g, hg, h⟩
    obtain ⟨f, hf, rfl⟩ := List.mem_map.1 hg
    refine ⟨f, hf, fun v hv => ?_⟩
    by_contra hn
    exact (Finset.mem_sdiff.1 (h (Finset.mem_sdiff.2 ⟨hF hv, hn⟩))).2 hv
  · rintro ⟨f, hf, h⟩
    refine ⟨_, List.mem_map.2 ⟨f, hf, rfl⟩, ?_⟩
    exact Finset.sdiff_subset_sdiff (fun _ h => h) h

/-! ### The computation on an ideal with minimal generators -/

theorem computeEulerCharacteristic_spec (cfg : EulerConfig) (fuel : ℕ) {I : SqIdeal} (hI : ∀ g ∈ I.gens, g ⊆ Finset.range I.varCount)
    (ha : Antichain I.gens) (tape : List ℕ) :
    match computeEulerCharacteristic cfg fuel I tape with
    | .ok a => Sound cfg → a = eulerCharacteristic (dualFaces I.varCount I.gens)
    | .error e => e = .fuelEnd ∨ RandomStop cfg.pivot e := by
  unfold computeEulerCharacteristic
  by_cases h0 : I.gens.length = 0
  · rw [if_pos h0]
    intro _
    rw [List.length_eq_zero_iff.1 h0]
    simp [dualFaces, eulerCharacteristic]
  · rw [if_neg h0]
    by_cases hV : I.varCount = 0
    · rw [if_pos hV]
      intro _
      obtain ⟨g, hg⟩ := List.exists_mem_of_length_pos (Nat.pos_of_ne_zero h0)
      have : dualFaces I.varCount I.gens = {∅} := by
        rw [hV]
        unfold dualFaces
        rw [Finset.range_zero, Finset.powerset_empty, Finset.filter_singleton, if_pos]
        have := hI g hg
        rw [hV] at this
        exact ⟨g, hg, by simpa using this⟩
      rw [this]
      simp [eulerCharacteristic]
    · rw [if_neg hV]
      have hok := construct_ok hI ha
      have := computeEuler_spec cfg fuel hok tape
      revert this
      rcases computeEuler cfg fuel (construct I) tape with e | a
      · exact id
      · intro hr hs
        rw [hr hs, ← eSum_euler hV hI, EulerState.val]
        show 1 * eSum I.varCount I.gens ∅ = _
        rw [one_mul]

theorem computeEulerCharacteristic_fuel (cfg : EulerConfig) (hpr : Progress cfg) (fuel : ℕ) {I : SqIdeal}
    (hI : ∀ g ∈ I.gens, g ⊆ Finset.range I.varCount) (ha : Antichain I.gens) (tape : List ℕ) (hf : eulerFuel I ≤ fuel) :
    computeEulerCharacteristic cfg fuel I tape ≠ .error .fuelEnd := by
  unfold computeEulerCharacteristic
  split
  · simp
  · split
    · simp
    · exact computeEuler_fuel cfg hpr fuel (construct_ok hI ha) tape hf

/-! ### The action -/

/-- The complex that the action computes the Euler characteristic of. -/
def inputFaces (o : EulerOptions) (I : SqIdeal) : Finset (Finset ℕ) :=
  if o.swap01 then facetFaces I.varCount I.gens else dualFaces I.varCount I.gens

theorem action_ideal (o : EulerOptions) {I : SqIdeal} (hI : ∀ g ∈ I.gens, g ⊆ Finset.range I.varCount) :
    ∃ J : SqIdeal, J = (if o.swap01 then I.swap01 else I).minimize ∧ (∀ g ∈ J.gens, g ⊆ Finset.range J.varCount) ∧ Antichain J.gens ∧
      dualFaces J.varCount J.gens = inputFaces o I ∧ eulerFuel J ≤ eulerFuel I := by
  have key : ∀ K : SqIdeal, (∀ g ∈ K.gens, g ⊆ Finset.range K.varCount) → K.varCount = I.varCount → K.gens.length = I.gens.length →
      (∀ g ∈ K.minimize.gens, g ⊆ Finset.range K.minimize.varCount) ∧ Antichain K.minimize.gens ∧
        dualFaces K.minimize.varCount K.minimize.gens = dualFaces K.varCount K.gens ∧ eulerFuel K.minimize ≤ eulerFuel I := by
    intro K hK hv hl
    have hm := sqMinimize_minimizes K.gens
    refine ⟨fun g hg => hK g (hm.sub.subset hg), hm.anti, minimize_euler, ?_⟩
    have hle : K.minimize.varCount + K.minimize.gens.length ≤ I.varCount + I.gens.length := by
      rw [← hl, ← hv]
      exact Nat.add_le_add_left hm.sub.length_le _
    unfold eulerFuel
    exact Nat.add_le_add (Nat.pow_le_pow_left (Nat.succ_le_succ hle) 2) (Nat.pow_le_pow_right (by omega) (Nat.succ_le_succ hle))
  refine ⟨_, rfl, ?_⟩
  unfold inputFaces
  split
  · rw [← swap01_euler I]
    refine key I.swap01 (fun g hg => ?_) rfl (List.length_map _)
    obtain ⟨f, _, rfl⟩ := List.mem_map.1 hg
    exact Finset.sdiff_subset
  · exact key I hI rfl rfl

theorem eulerConfig_flags {o : EulerOptions} {cfg : EulerConfig} (h : eulerConfig o = some cfg) :
    cfg.uniqueDiv = o.uniqueDiv ∧ cfg.manyDiv = o.manyDiv ∧ cfg.allPairs = o.impliedDiv := by
  unfold eulerConfig at h
  split at h
  · simp only at h
    split at h
    · cases h
      exact ⟨rfl, rfl, rfl⟩
    · cases h
  · cases h

/-- C47: **whatever number the `euler` action prints is the Euler characteristic**, for every ideal, strategy, transposing option and
outcome of the random choices — of the dual complex of the ideal, or with `-swap01` of the complex whose facets are given —
provided that `-impliedDiv` is not used while both `-uniqueDiv` and `-manyDiv` are off. Without that it is false
(`C47_implied_wrong`). -/
theorem C47_euler_sound_partial {o : EulerOptions} {fuel : ℕ} {I : SqIdeal} {tape : List ℕ} {χ : ℤ}
    (hI : ∀ g ∈ I.gens, g ⊆ Finset.range I.varCount)
    (ho : o.uniqueDiv = true ∨ o.manyDiv = true ∨ o.impliedDiv = false)
    (h : eulerAction o fuel I tape = some (.ok χ)) :
    χ = eulerCharacteristic (if o.swap01 then facetFaces I.varCount I.gens else dualFaces I.varCount I.gens) := by
  obtain ⟨J, rfl, h1, h2, h3, -⟩ := action_ideal o hI
  unfold eulerAction at h
  rw [Option.map_eq_some_iff] at h
  obtain ⟨cfg, hc, h⟩ := h
  obtain ⟨f1, f2, f3⟩ := eulerConfig_flags hc
  have := computeEulerCharacteristic_spec cfg fuel h1 h2 tape
  rw [h] at this
  rw [this (by unfold Sound; rw [f1, f2, f3]; exact ho), h3]
  rfl

/-- C47: the action stops: a bound on the number of steps, whatever the input and the random choices, provided that the strategy
does not split by terms of several variables, or `-uniqueDiv` is on. Without that it is false (`C47_runs_on`). -/
theorem C47_euler_stops_partial {o : EulerOptions} {cfg : EulerConfig} (hc : eulerConfig o = some cfg)
    (hp : o.uniqueDiv = true ∨ cfg.pivot.usesTerms = false) {I : SqIdeal} (hI : ∀ g ∈ I.gens, g ⊆ Finset.range I.varCount)
    (tape : List ℕ) {fuel : ℕ}
    (hf : (I.varCount + I.gens.length + 1) ^ 2 + 2 ^ (I.varCount + I.gens.length + 1) ≤ fuel) :
    eulerAction o fuel I tape ≠ some (.error .fuelEnd) := by
  obtain ⟨J, rfl, h1, h2, -, h4⟩ := action_ideal o hI
  unfold eulerAction
  rw [hc, Option.map_some]
  intro h
  refine computeEulerCharacteristic_fuel cfg ?_ fuel h1 h2 tape (h4.trans hf) (Option.some.inj h)
  intro hu
  rw [(eulerConfig_flags hc).1]
  rcases hp with h | h
  · exact h
  · rw [hu] at h; cases h

/-- C47: no array is ever read outside of its bounds by a pivot strategy, and only a strategy that filters generators and then picks
one at random can divide by zero. It can (`C47_divides_by_zero`). -/
theorem C47_euler_errors {o : EulerOptions} {cfg : EulerConfig} (hc : eulerConfig o = some cfg) {I : SqIdeal}
    (hI : ∀ g ∈ I.gens, g ⊆ Finset.range I.varCount) {tape : List ℕ} {fuel : ℕ} {e : Stop}
    (h : eulerAction o fuel I tape = some (.error e)) :
    e ≠ .outOfRange ∧ (e = .tapeEnd → cfg.pivot.isRandom = true) ∧ (e = .divideByZero → cfg.pivot.filtersThenRandom = true) := by
  obtain ⟨J, rfl, h1, h2, -⟩ := action_ideal o hI
  unfold eulerAction at h
  rw [hc, Option.map_some] at h
  have := computeEulerCharacteristic_spec cfg fuel h1 h2 tape
  rw [Option.some.inj h] at this
  rcases this with rfl | ⟨h5, rfl | ⟨rfl, h6⟩⟩
  · simp
  · simp [h5]
  · simp [h6]

/-- C47: all together for the strategies that do not use random numbers. -/
theorem C47_euler_total_partial {o : EulerOptions} {cfg : EulerConfig} (hc : eulerConfig o = some cfg)
    (ho : o.uniqueDiv = true ∨ (o.manyDiv = true ∨ o.impliedDiv = false) ∧ cfg.pivot.usesTerms = false)
    (hr : cfg.pivot.isRandom = false) {I : SqIdeal} (hI : ∀ g ∈ I.gens, g ⊆ Finset.range I.varCount) (tape : List ℕ) {fuel : ℕ}
    (hf : (I.varCount + I.gens.length + 1) ^ 2 + 2 ^ (I.varCount + I.gens.length + 1) ≤ fuel) :
    eulerAction o fuel I tape =
      some (.ok (eulerCharacteristic (if o.swap01 then facetFaces I.varCount I.gens else dualFaces I.varCount I.gens))) := by
  have h1 : ∃ r, eulerAction o fuel I tape = some r := ⟨_, by unfold eulerAction; rw [hc, Option.map_some]⟩
  obtain ⟨e | χ, h⟩ := h1
  · obtain ⟨e1, e2, e3⟩ := C47_euler_errors hc hI h
    exfalso
    cases e with
    | divideByZero =>
      obtain ⟨J, rfl, h1, h2, -⟩ := action_ideal o hI
      unfold eulerAction at h
      rw [hc, Option.map_some] at h
      have := computeEulerCharacteristic_spec cfg fuel h1 h2 tape
      rw [Option.some.inj h] at this
      rcases this with h | ⟨h, -⟩
      · cases h
      · rw [hr] at h; cases h
    | outOfRange => exact e1 rfl
    | tapeEnd => rw [e2 rfl] at hr; cases hr
    | fuelEnd => exact C47_euler_stops_partial hc (ho.imp id And.right) hI tape hf h
  · rw [h, C47_euler_sound_partial hI (ho.imp id And.left) h]

/-- C47: the `euler` action with its default options prints the Euler characteristic of every complex. -/
theorem C47_euler_default {I : SqIdeal} (hI : ∀ g ∈ I.gens, g ⊆ Finset.range I.varCount) (swap : Bool) {fuel : ℕ}
    (hf : (I.varCount + I.gens.length + 1) ^ 2 + 2 ^ (I.varCount + I.gens.length + 1) ≤ fuel) :
    eulerAction { swap01 := swap } fuel I [] =
      some (.ok (eulerCharacteristic (if swap then facetFaces I.varCount I.gens else dualFaces I.varCount I.gens))) := by
  have hc : eulerConfig { swap01 := swap } = some ⟨.gen .raremax, true, true, false, true, true⟩ := by
    cases swap <;> rfl
  exact C47_euler_total_partial hc (Or.inl rfl) rfl hI [] hf

/-! ### Examples -/

/-- The boundary of a triangle, a circle, given by its facets. -/
example : eulerCharacteristic (facetFaces 3 [{0, 1}, {1, 2}, {0, 2}]) = -1 := by decide +kernel

example : eulerAction { swap01 := true } 300 ⟨3, [{0, 1}, {1, 2}, {0, 2}]⟩ [] = some (.ok (-1)) := by decide +kernel

/-- Two points have one component too many. -/
example : eulerAction { swap01 := true, pivot := t!"hybrid", stdPivot := t!"widen_popgcd", genPivot := t!"rarest_minsupp" } 300
    ⟨2, [{0}, {1}]⟩ [] = some (.ok 1) := by decide +kernel

example : eulerCharacteristic (facetFaces 2 [{0}, {1}]) = 1 := by decide +kernel

/-- The minimal triangulation of the projective plane, which has to be split. -/
example : eulerAction { swap01 := true, uniqueDiv := false, manyDiv := false } 300
    ⟨6, [{0, 1, 2}, {0, 1, 3}, {0, 2, 4}, {0, 3, 5}, {0, 4, 5}, {1, 2, 5}, {1, 3, 4}, {1, 4, 5}, {2, 3, 4}, {2, 3, 5}]⟩ [] =
      some (.ok 0) := by decide +kernel

/-! ### Where the code does something else -/

/-- C47: with `-impliedDiv` alone the action prints 2 for the ideal `⟨a, b, c⟩`, whose complex has Euler characteristic -1. -/
theorem C47_implied_wrong :
    eulerAction { impliedDiv := true, uniqueDiv := false, manyDiv := false } 100 ⟨3, [{0}, {1}, {2}]⟩ [] = some (.ok 2) ∧
      eulerCharacteristic (dualFaces 3 [{0}, {1}, {2}]) = -1 := by
  decide +kernel

/-- C47: a random choice after two filters divides by zero, although the documentation says that a filter that would leave no
candidates leaves all. -/
theorem C47_divides_by_zero :
    eulerAction { genPivot := t!"minsupp_rarevar_random" } 100
      ⟨8, [{4, 6}, {0, 1, 2, 3}, {0, 1, 7}, {4, 5}, {1, 2, 3, 6}, {0, 2, 3, 6, 7}, {1, 6}, {0, 2, 5, 7}]⟩ [0, 0, 0, 0, 0, 0, 0, 0] =
        some (.error .divideByZero) := by
  decide +kernel

/-- The state that comes back for ever. -/
def loopState : EulerState := ⟨⟨4, [{1}, {2}, {3}, {0}]⟩, ∅, 1⟩

/-- The settings that do not stop. -/
def loopConfig : EulerConfig := ⟨.std .popgcd, false, true, false, false, false⟩

theorem loopState_round (acc : ℤ) :
    eulerRound loopConfig acc loopState = .split ⟨acc, loopState, loopState.ideal.varDividesCounts⟩ := by
  have h1 : loopState.ideal.hasFullSupport loopState.eliminated = true := by decide +kernel
  have h2 : baseCaseSimple1 acc loopState = none := by
    unfold baseCaseSimple1
    rw [h1]
    rfl
  have h3 : ∀ v ∈ [0, 1, 2, 3], loopState.ideal.varDividesCounts v < 4 - 2 := by decide +kernel
  have h4 : optimizeManyDiv ⟨acc, loopState, loopState.ideal.varDividesCounts⟩ =
      (⟨acc, loopState, loopState.ideal.varDividesCounts⟩, false) := by
    show manyDivLoop 4 [0, 1, 2, 3] _ = _
    simp only [manyDivLoop]
    rw [if_pos (h3 0 (by simp)), if_pos (h3 1 (by simp)), if_pos (h3 2 (by simp)), if_pos (h3 3 (by simp))]
  unfold eulerRound
  rw [h2]
  simp [loopConfig, h4]

theorem loopState_pivot : popGcd loopState loopState.ideal.varDividesCounts = {0} := by decide +kernel

theorem loopState_process (fuel : ℕ) (acc : ℤ) (tape : List ℕ) :
    processState loopConfig (fuel + 1) acc loopState tape = .ok (acc, some (loopState, (loopState.stdSplit {0}).2), tape) := by
  have hc : loopState.compactIfProfitable = loopState := by decide +kernel
  rw [processState, hc, processLoop, loopState_round]
  simp only
  have : doPivot loopConfig.pivot loopState loopState.ideal.varDividesCounts tape = .ok (loopState.stdSplit {0}, tape) := by
    show (if StdStrat.popgcd = StdStrat.popgcd then _ else _) = _
    rw [if_pos rfl, loopState_pivot]
  rw [this]
  simp only
  congr 1

theorem loopState_forever (fuel : ℕ) (acc : ℤ) (st : List EulerState) (tape : List ℕ) :
    eulerLoop loopConfig fuel acc (loopState :: st) tape = .error .fuelEnd := by
  induction fuel generalizing acc st tape with
  | zero => rfl
  | succ fuel ih =>
    rw [eulerLoop, loopState_process]
    exact ih _ _ _

/-- C47: `-pivot std -stdPivot popgcd -uniqueDiv off -autotranspose off` never stops on the ideal `⟨b, c, d, a⟩`. -/
theorem C47_runs_on (fuel : ℕ) (tape : List ℕ) :
    eulerAction { pivot := t!"std", stdPivot := t!"popgcd", uniqueDiv := false, autoTranspose := t!"off" } fuel
      ⟨4, [{1}, {2}, {3}, {0}]⟩ tape = some (.error .fuelEnd) := by
  have hc : eulerConfig { pivot := t!"std", stdPivot := t!"popgcd", uniqueDiv := false, autoTranspose := t!"off" } =
      some loopConfig := rfl
  have hm : (SqIdeal.mk 4 [{1}, {2}, {3}, {0}]).minimize = loopState.ideal := by decide +kernel
  unfold eulerAction
  rw [hc, Option.map_some, if_neg (by simp), hm]
  exact congrArg some (loopState_forever fuel 0 [] tape)

/-- C47: the strategy that the algorithm makes for itself when it has not been given one does not exist. The action always gives
one. -/
theorem C47_default_strategy : newDefaultPivotStrategy = .error .unknown := rfl

end Frobby

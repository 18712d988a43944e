import Verif.PrimaryLemmas
import Mathlib.Data.Fin.VecNotation

/-!
# C01-C11, C20: irreducible decomposition, maximal standard monomials, Alexander duals, associated primes and primary
decomposition through the API

The statements use Spec.lean: membership in ideals, calls of the consumer (`Event`), and the API functions of
TranslatorModel.lean. `rnd` is the random number generator; the result holds for any of them. `G` is the list of
generators of the input ideal.
-/

namespace Frobby

variable {n : ℕ}

theorem apiOpts_valid : apiOpts.valid .msm := ⟨by simp [apiOpts], by simp⟩

/-! ## irreducible decomposition -/

theorem asMonomials_eq (rnd : List ℕ → ℕ → ℕ) (G : List (Term n)) (hG : G ≠ []) :
    ∃ D : List (Term n), irreducibleDecompositionAsMonomials rnd G = some (true, Event.block (D.map toInt)) ∧
      IsIrrDecomp D G := by
  obtain ⟨D, h1, h2⟩ := facadeIrrDecom_spec apiOpts_valid rnd G
  refine ⟨D, ?_, h2⟩
  unfold irreducibleDecompositionAsMonomials
  rw [if_neg (by simpa using hG), h1]
  rfl

/-- C01: the intersection of the irreducible components that are emitted is the ideal. -/
theorem C01_intersection (rnd : List ℕ → ℕ → ℕ) (G : List (Term n)) (hG : G ≠ []) :
    ∃ D : List (Term n), irreducibleDecompositionAsMonomials rnd G = some (true, Event.block (D.map toInt)) ∧
      ∀ m, mem G m ↔ ∀ d ∈ D, memIrr d m := by
  obtain ⟨D, h1, h2⟩ := asMonomials_eq rnd G hG
  exact ⟨D, h1, h2.inter⟩

/-- C02: no emitted component can be omitted, none is emitted twice, and every irredundant irreducible decomposition of
the ideal is a rearrangement of the output. -/
theorem C02_irredundant (rnd : List ℕ → ℕ → ℕ) (G : List (Term n)) (hG : G ≠ []) :
    ∃ D : List (Term n), irreducibleDecompositionAsMonomials rnd G = some (true, Event.block (D.map toInt)) ∧
      D.Nodup ∧ (∀ d ∈ D, ∃ m, ¬ mem G m ∧ ∀ d' ∈ D, d' ≠ d → memIrr d' m) ∧ ∀ D', IsIrrDecomp D' G → D'.Perm D := by
  obtain ⟨D, h1, h2⟩ := asMonomials_eq rnd G hG
  refine ⟨D, h1, h2.nodup, fun d hd => ?_, fun D' h' => irrDecomp_unique h' h2 fun _ => Iff.rfl⟩
  obtain ⟨m, h3, h4⟩ := h2.irredundant d hd
  exact ⟨m, fun hc => h3 ((h2.inter m).1 hc d hd), h4⟩

/-- C03: without generators the result is `false` and the consumer is not called; otherwise the result is `true` and
the consumer gets one ideal, which has no generators exactly when the ideal contains the identity. -/
theorem C03_return_value (rnd : List ℕ → ℕ → ℕ) (G : List (Term n)) :
    (G = [] → irreducibleDecompositionAsMonomials rnd G = some (false, [])) ∧
      (G ≠ [] → ∃ ts, irreducibleDecompositionAsMonomials rnd G = some (true, [.begin] ++ ts.map .term ++ [.done]) ∧
        (ts = [] ↔ (0 : Term n) ∈ G)) := by
  constructor
  · rintro rfl
    rfl
  · intro hG
    obtain ⟨D, h1, h2⟩ := asMonomials_eq rnd G hG
    refine ⟨D.map toInt, h1, ?_⟩
    rw [List.map_eq_nil_iff]
    constructor
    · rintro rfl
      obtain ⟨g, hg, hle⟩ := (h2.inter 0).2 (by simp)
      have : g = 0 := funext fun i => by have := Term.le_def.1 hle i; simpa using this
      exact this ▸ hg
    · intro h0
      by_contra hne
      obtain ⟨d, hd⟩ := List.exists_mem_of_ne_nil _ hne
      obtain ⟨i, h3, h4⟩ := (h2.inter 0).1 (mem_self h0) d hd
      simp only [Pi.zero_apply] at h4
      omega

/-- The generators of the component `d`: the powers `x_v ^ (d v)` with `d v` positive. -/
def componentGens (d : Term n) : List (Term n) :=
  ((List.finRange n).filter fun v => decide (0 < d v)).map fun v => Term.single v (d v)

theorem decodeTerm_toInt (d : Term n) : decodeTerm (toInt d) = Event.block ((componentGens d).map toInt) := by
  unfold decodeTerm componentGens
  have h1 : (fun v => decide (toInt d v ≠ 0)) = fun v => decide (0 < d v) := by
    funext v; simp [toInt, Nat.pos_iff_ne_zero]
  rw [h1, List.map_map]
  congr 1
  refine List.map_congr_left fun v _ => ?_
  funext w
  simp only [Function.comp, toInt, Term.single_apply]
  split <;> rfl

theorem decode_block (ts : List (Fin n → ℤ)) : decode (Event.block ts) = ts.flatMap decodeTerm := by
  unfold decode Event.block
  simp [List.flatMap_append, List.flatMap_map]

/-- C04: `irreducibleDecompositionAsIdeals` emits one ideal for each component of the irredundant irreducible
decomposition, generated by the powers of variables of that component: for the zero ideal one ideal without generators,
for the whole ring nothing. -/
theorem C04_asIdeals (rnd : List ℕ → ℕ → ℕ) (G : List (Term n)) :
    ∃ D : List (Term n), irreducibleDecompositionAsIdeals rnd G =
        some (D.flatMap fun d => Event.block ((componentGens d).map toInt)) ∧ IsIrrDecomp D G ∧
      (∀ d m : Term n, mem (componentGens d) m ↔ memIrr d m) ∧ (G = [] → D = [0]) ∧ ((0 : Term n) ∈ G → D = []) := by
  have hmem : ∀ d m : Term n, mem (componentGens d) m ↔ memIrr d m := by
    intro d m
    unfold mem componentGens memIrr
    simp only [List.mem_map, List.mem_filter, List.mem_finRange, true_and, decide_eq_true_eq]
    constructor
    · rintro ⟨_, ⟨v, hv, rfl⟩, hle⟩
      exact ⟨v, hv, Term.single_le_iff.1 hle⟩
    · rintro ⟨v, hv, hle⟩
      exact ⟨_, ⟨v, hv, rfl⟩, Term.single_le_iff.2 hle⟩
  by_cases hG : G = []
  · subst hG
    have h0 : IsIrrDecomp [(0 : Term n)] [] := by
      refine ⟨fun m => ?_, fun d hd => ⟨0, ?_, ?_⟩, by simp⟩
      · simp [mem, memIrr]
      · rw [List.mem_singleton.1 hd]; simp [memIrr]
      · intro d' hd' hne
        rw [List.mem_singleton.1 hd, List.mem_singleton.1 hd'] at hne
        exact absurd rfl hne
    refine ⟨[0], ?_, h0, hmem, fun _ => rfl, by simp⟩
    have h3 : componentGens (0 : Term n) = [] := by simp [componentGens]
    simp [irreducibleDecompositionAsIdeals, irreducibleDecompositionAsMonomials, decode, h3, Event.block]
  · obtain ⟨D, h1, h2⟩ := asMonomials_eq rnd G hG
    refine ⟨D, ?_, h2, hmem, fun h => absurd h hG, fun h0 => ?_⟩
    · unfold irreducibleDecompositionAsIdeals
      rw [h1]
      simp only [Option.map_some, if_true, decode_block, List.flatMap_map]
      congr 1
      exact congrArg (fun f => D.flatMap f) (funext decodeTerm_toInt)
    · by_contra hne
      obtain ⟨d, hd⟩ := List.exists_mem_of_ne_nil _ hne
      obtain ⟨i, h3, h4⟩ := (h2.inter 0).1 (mem_self h0) d hd
      simp only [Pi.zero_apply] at h4
      omega

/-! ## maximal standard monomials -/

/-- C05: exactly the maximal standard monomials are emitted, each once. -/
theorem C05_maximalStandardMonomials (rnd : List ℕ → ℕ → ℕ) (G : List (Term n)) :
    ∃ D : List (Term n), maximalStandardMonomials rnd G = some (Event.block (D.map toInt)) ∧ D.Nodup ∧
      ∀ m, m ∈ D ↔ Msm G m := by
  obtain ⟨D, h1, h2⟩ := facadeMsm_spec apiOpts_valid rnd G
  refine ⟨D, ?_, h2⟩
  unfold maximalStandardMonomials
  rw [h1]; rfl

/-! ## Alexander dual -/

/-- The exponents of the irreducible component that is dual to the generator `g` reflected in `a`. -/
def dualComponent (a g : Term n) : Term n := fun i => if g i = 0 then 0 else a i + 1 - g i

/-- `D` minimally generates the Alexander dual of the ideal with minimal generators `K`, reflected in `a`
(Miller and Sturmfels, Combinatorial Commutative Algebra, Definition 5.20). -/
structure IsAlexanderDual (D K : List (Term n)) (a : Term n) : Prop where
  anti : Anti D
  mem_iff : ∀ m, mem D m ↔ ∀ g ∈ K, memIrr (dualComponent a g) m

theorem dual_mem_iff {G K : List (Term n)} (hK : MinGens K G) {a : Term n} (ha : ∀ g ∈ K, g ≤ a) (m : Term n) :
    ¬ mem G (a - m) ↔ ∀ g ∈ K, memIrr (dualComponent a g) m := by
  rw [← hK.mem_iff]
  constructor
  · intro h g hg
    by_contra hc
    refine h ⟨g, hg, Term.le_def.2 fun i => ?_⟩
    unfold memIrr dualComponent at hc
    push Not at hc
    have h1 := hc i
    have h2 := Term.le_def.1 (ha g hg) i
    simp only [Pi.sub_apply]
    by_cases h0 : g i = 0
    · omega
    · rw [if_neg h0] at h1
      have := h1 (by omega)
      omega
  · rintro h ⟨g, hg, hle⟩
    obtain ⟨i, h1, h2⟩ := h g hg
    have h3 := Term.le_def.1 hle i
    unfold dualComponent at h1 h2
    simp only [Pi.sub_apply] at h3
    split at h2
    · rename_i h0; rw [if_pos h0] at h1; omega
    · have h4 := Term.le_def.1 (ha g hg) i
      omega

/-- C06: if every minimal generator divides the point, the minimal generators of the Alexander dual are emitted. -/
theorem C06_alexanderDual (rnd : List ℕ → ℕ → ℕ) (G K : List (Term n)) (hK : MinGens K G) (a : Term n)
    (ha : ∀ g ∈ K, g ≤ a) :
    ∃ D : List (Term n), alexanderDual rnd G (some (toInt a)) = .ok (true, Event.block (D.map toInt)) ∧
      IsAlexanderDual D K a := by
  obtain ⟨D, h1, h2, h3, _⟩ := facadeDual_ok apiOpts_valid rnd G a hK ha
  refine ⟨D, ?_, h2, fun m => by rw [h3, dual_mem_iff hK ha]⟩
  unfold alexanderDual
  simp only [h1]

/-- `l` is the least common multiple of `K`. -/
def IsLcm (K : List (Term n)) (l : Term n) : Prop := (∀ g ∈ K, g ≤ l) ∧ ∀ u, (∀ g ∈ K, g ≤ u) → l ≤ u

theorem isLcm_iff {K : List (Term n)} {l : Term n} : IsLcm K l ↔ l = lcmOf K := by
  constructor
  · rintro ⟨h1, h2⟩
    exact le_antisymm (h2 _ fun g hg => le_lcmOf hg) (lcmOf_le h1)
  · rintro rfl
    exact ⟨fun g hg => le_lcmOf hg, fun u hu => lcmOf_le hu⟩

/-- C07: `false` is returned exactly when the point is not divisible by the least common multiple of the minimal
generators, and then the consumer is not called. -/
theorem C07_return_value (rnd : List ℕ → ℕ → ℕ) (G K : List (Term n)) (hK : MinGens K G) (l : Term n)
    (hl : IsLcm K l) (a : Fin n → ℤ) :
    ((∃ v, a v < l v) → alexanderDual rnd G (some a) = .ok (false, [])) ∧
      ((∀ v, (l v : ℤ) ≤ a v) → ∃ ts, alexanderDual rnd G (some a) = .ok (true, Event.block ts)) := by
  rw [isLcm_iff] at hl
  subst hl
  constructor
  · intro ha
    unfold alexanderDual
    simp only [facadeDual_error rnd G a hK ha]
  · intro ha
    have h0 : ∀ v, 0 ≤ a v := fun v => by have := ha v; omega
    have h1 : a = toInt fun v => (a v).toNat := by
      funext v; have := h0 v; simp only [toInt]; omega
    obtain ⟨D, h2, _⟩ := C06_alexanderDual rnd G K hK (fun v => (a v).toNat) fun g hg =>
      (le_lcmOf hg).trans (Term.le_def.2 fun v => by have := ha v; omega)
    rw [h1]
    exact ⟨_, h2⟩

/-- C07: the null pointer stands for the least common multiple of the minimal generators. -/
theorem C07_null (rnd : List ℕ → ℕ → ℕ) (G K : List (Term n)) (hK : MinGens K G) (l : Term n) (hl : IsLcm K l) :
    alexanderDual rnd G none = alexanderDual rnd G (some (toInt l)) ∧
      ∃ D : List (Term n), alexanderDual rnd G none = .ok (true, Event.block (D.map toInt)) ∧ IsAlexanderDual D K l := by
  have hl' := isLcm_iff.1 hl
  obtain ⟨D, h2, h3⟩ := C06_alexanderDual rnd G K hK l hl.1
  have hG := setIdeal_spec G
  have h1 : facadeDualLcm apiOpts rnd G = facadeDual apiOpts rnd G (toInt l) := by
    unfold facadeDualLcm
    have hT : (setIdeal G).1 = Translator.ofGens G := rfl
    rw [hT, translate_ofGens G fun v => (hG.lcm_le v).le]
    simp only [hG.lcm_exp hK, ← hl']
    rfl
  have h4 : alexanderDual rnd G none = alexanderDual rnd G (some (toInt l)) := by
    obtain ⟨D', h5, _⟩ := facadeDual_ok apiOpts_valid rnd G l hK hl.1
    unfold alexanderDual
    simp only [h1, h5]
  exact ⟨h4, D, h4.trans h2, h3⟩

/-- C08: the overload with an ideal as the point returns `false` without calling the consumer unless the ideal has
exactly one generator and lies in as many variables, in which case it is the dual on that generator. -/
theorem C08_ideal_overload {m : ℕ} (rnd : List ℕ → ℕ → ℕ) (G : List (Term n)) (R : List (Term m)) :
    ((R.length ≠ 1 ∨ m ≠ n) → alexanderDualIdeal rnd G R = .ok (false, [])) ∧
      ∀ (r : Term n) (h : m = n), R = [h ▸ r] → alexanderDualIdeal rnd G R = alexanderDual rnd G (some (toInt r)) := by
  constructor
  · intro h
    unfold alexanderDualIdeal
    split
    · rename_i r
      rw [dif_neg]
      simpa using h
    · rfl
  · rintro r rfl rfl
    unfold alexanderDualIdeal
    simp only [dif_pos]
    split
    · rename_i h0
      subst h0
      have hK := minimize_minGens G
      have hr : r = lcmOf (minimize G) := funext fun v => v.elim0
      rw [(C07_null rnd G _ hK r (isLcm_iff.2 hr)).1]
    · rfl

/-- C09: the dual of the dual on the same point is the ideal. -/
theorem C09_involution (rnd : List ℕ → ℕ → ℕ) (G K : List (Term n)) (hK : MinGens K G) (a : Term n)
    (ha : ∀ g ∈ K, g ≤ a) :
    ∃ D D' : List (Term n), alexanderDual rnd G (some (toInt a)) = .ok (true, Event.block (D.map toInt)) ∧
      alexanderDual rnd D (some (toInt a)) = .ok (true, Event.block (D'.map toInt)) ∧ D'.Perm K := by
  obtain ⟨D, h1, h2, h3, h4⟩ := facadeDual_ok apiOpts_valid rnd G a hK ha
  obtain ⟨D', h5, h6, h7, h8⟩ := facadeDual_ok apiOpts_valid rnd D a ⟨fun _ => Iff.rfl, h2, fun _ h => h⟩ h4
  refine ⟨D, D', ?_, ?_, anti_unique_perm h6 hK.anti fun m => ?_⟩
  · unfold alexanderDual; simp only [h1]
  · unfold alexanderDual; simp only [h5]
  · rw [h7, h3, not_not]
    rw [← hK.mem_iff]
    constructor
    · intro h
      exact mem_of_le h (Term.le_def.2 fun i => by simp only [Pi.sub_apply]; omega)
    · rintro ⟨g, hg, hle⟩
      refine ⟨g, hg, Term.le_def.2 fun i => ?_⟩
      have h9 := Term.le_def.1 hle i
      have h10 := Term.le_def.1 (ha g hg) i
      simp only [Pi.sub_apply]; omega

/-! ## associated primes -/

/-- C10: exactly the associated primes are emitted, each once and generated by its variables. -/
theorem C10_associatedPrimes (rnd : List ℕ → ℕ → ℕ) (G : List (Term n)) :
    ∃ L : List (Finset (Fin n)), L.Nodup ∧ (∀ S, S ∈ L ↔ IsAssocPrime G S) ∧ associatedPrimes rnd G =
      some (L.flatMap fun S => Event.block
        (((List.finRange n).filter fun v => decide (v ∈ S)).map fun v => toInt (Term.single v 1))) := by
  obtain ⟨L, h1, h2, h3⟩ := facadeAssociatedPrimes_spec apiOpts_valid rnd G
  refine ⟨L, h2, h3, ?_⟩
  unfold associatedPrimes
  rw [h1]
  simp only [Option.map_some, decode_block, List.flatMap_map]
  congr 1
  refine congrArg (fun f => L.flatMap f) (funext fun S => ?_)
  rw [decodeTerm_toInt]
  unfold componentGens
  rw [List.map_map]
  have h4 : (fun v => decide (0 < indicator S v)) = fun v => decide (v ∈ S) := by
    funext v; unfold indicator; by_cases h : v ∈ S <;> simp [h]
  rw [h4]
  congr 1
  refine List.map_congr_left fun v hv => ?_
  have hv' : v ∈ S := by simpa using (List.mem_filter.1 hv).2
  simp [Function.comp, indicator, hv']

/-! ## primary decomposition -/

/-- C11, part: the ideals that are emitted correspond to a partition of the irreducible components into groups of the
same support; each is given by the minimal generators of the intersection of its group, so their intersection is the
ideal. Missing: components of the same support need not be in one group, see `C11_not_canonical`. -/
theorem C11_primaryDecomposition_partial (rnd : List ℕ → ℕ → ℕ) (G : List (Term n)) :
    ∃ cs : List (List (Term n) × List (Term n)),
      primaryDecomposition rnd G = some (cs.flatMap fun c => Event.block (c.2.map toInt)) ∧
      IsIrrDecomp (cs.map (·.1)).flatten G ∧
      (∀ c ∈ cs, c.1 ≠ [] ∧ (∀ d ∈ c.1, ∀ d' ∈ c.1, ∀ v, d v = 0 ↔ d' v = 0) ∧
        Anti c.2 ∧ ∀ m, mem c.2 m ↔ ∀ d ∈ c.1, memIrr d m) ∧
      ∀ m, mem G m ↔ ∀ c ∈ cs, mem c.2 m := by
  obtain ⟨ds, hc, _, f, h1, h2⟩ := facadePrimary_runs apiOpts_valid rnd G
  set φ : Term n → Term n := fun d v => tExp G v (d v) with hφ
  have hirr : IsIrrDecomp (((supportRuns ds).map fun g => (g.map φ, f g)).map (·.1)).flatten G := by
    have h3 : (((supportRuns ds).map fun g => (g.map φ, f g)).map (·.1)).flatten = ds.map φ := by
      conv_rhs => rw [← supportRuns_flatten ds]
      rw [List.map_map, List.map_flatten]
      rfl
    rw [h3]; exact hc.irr
  have hsub : ∀ g ∈ supportRuns ds, ∀ d ∈ g, d ∈ ds := by
    intro g hg d hd
    rw [← supportRuns_flatten ds]
    exact List.mem_flatten.2 ⟨g, hg, hd⟩
  have hcs : ∀ c ∈ (supportRuns ds).map fun g => (g.map φ, f g),
      c.1 ≠ [] ∧ (∀ d ∈ c.1, ∀ d' ∈ c.1, ∀ v, d v = 0 ↔ d' v = 0) ∧
        Anti c.2 ∧ ∀ m, mem c.2 m ↔ ∀ d ∈ c.1, memIrr d m := by
    intro c hc'
    obtain ⟨g, hg, rfl⟩ := List.mem_map.1 hc'
    obtain ⟨h4, h5⟩ := supportRuns_same ds g hg
    refine ⟨by simpa using h4, fun d hd d' hd' v => ?_, (h2 g hg).1, fun m => ?_⟩
    · obtain ⟨e, he, rfl⟩ := List.mem_map.1 hd
      obtain ⟨e', he', rfl⟩ := List.mem_map.1 hd'
      have h6 := hc.pos_iff (hsub g hg e he) v
      have h7 := hc.pos_iff (hsub g hg e' he') v
      have h8 := h5 e he e' he' v
      simp only [hφ]
      omega
    · rw [(h2 g hg).2]
      simp [hφ]
  refine ⟨(supportRuns ds).map fun g => (g.map φ, f g), ?_, hirr, hcs, fun m => ?_⟩
  · unfold primaryDecomposition
    rw [h1]
    simp only [Option.map_some, List.flatMap_map]
  · rw [hirr.inter]
    constructor
    · intro h c hc'
      refine ((hcs c hc').2.2.2 m).2 fun d hd => h d ?_
      exact List.mem_flatten.2 ⟨c.1, List.mem_map.2 ⟨c, hc', rfl⟩, hd⟩
    · intro h d hd
      obtain ⟨g, hg, hd'⟩ := List.mem_flatten.1 hd
      obtain ⟨c, hc', rfl⟩ := List.mem_map.1 hg
      exact ((hcs c hc').2.2.2 m).1 (h c hc') d hd'

/-- C11, part: if no two irreducible components have the same support then the emitted ideals are the components, so
there is one for each associated prime. -/
theorem C11_distinct_supports_partial (rnd : List ℕ → ℕ → ℕ) (G D : List (Term n)) (hD : IsIrrDecomp D G)
    (hd : ∀ d ∈ D, ∀ d' ∈ D, (∀ v, d v = 0 ↔ d' v = 0) → d = d') :
    ∃ cs : List (Term n × List (Term n)),
      primaryDecomposition rnd G = some (cs.flatMap fun c => Event.block (c.2.map toInt)) ∧
      (cs.map (·.1)).Perm D ∧ ∀ c ∈ cs, Anti c.2 ∧ ∀ m, mem c.2 m ↔ memIrr c.1 m := by
  obtain ⟨cs, h1, h2, h3, _⟩ := C11_primaryDecomposition_partial rnd G
  have hp := irrDecomp_unique h2 hD fun _ => Iff.rfl
  have hin : ∀ c ∈ cs, ∀ d ∈ c.1, d ∈ D := fun c hc d hd' =>
    hp.mem_iff.1 (List.mem_flatten.2 ⟨c.1, List.mem_map.2 ⟨c, hc, rfl⟩, hd'⟩)
  have hone : ∀ c ∈ cs, ∃ d, c.1 = [d] := by
    intro c hc
    obtain ⟨h4, h5, _⟩ := h3 c hc
    have hnd : c.1.Nodup := (List.nodup_flatten.1 h2.nodup).1 c.1 (List.mem_map.2 ⟨c, hc, rfl⟩)
    match hc1 : c.1 with
    | [] => exact absurd hc1 h4
    | [d] => exact ⟨d, rfl⟩
    | d :: d' :: l =>
      exfalso
      have e1 : d ∈ c.1 := by rw [hc1]; simp
      have e2 : d' ∈ c.1 := by rw [hc1]; simp
      have e3 := hd d (hin c hc d e1) d' (hin c hc d' e2) (h5 d e1 d' e2)
      rw [hc1, e3] at hnd
      simp at hnd
  refine ⟨cs.map fun c => (c.1.headD 0, c.2), ?_, ?_, ?_⟩
  · rw [h1]; simp only [List.flatMap_map]
  · have h4 : (cs.map fun c => (c.1.headD 0, c.2)).map (·.1) = (cs.map (·.1)).flatten := by
      have : ∀ l : List (List (Term n) × List (Term n)), (∀ c ∈ l, ∃ d, c.1 = [d]) →
          (l.map fun c => (c.1.headD 0, c.2)).map (·.1) = (l.map (·.1)).flatten := by
        intro l hl
        induction l with
        | nil => rfl
        | cons c l ih =>
          obtain ⟨d, hd'⟩ := hl c (by simp)
          simp only [List.map_cons, List.flatten_cons, hd']
          rw [ih fun c hc => hl c (by simp [hc])]
          simp
      exact this cs hone
    rw [h4]; exact hp
  · intro c hc
    obtain ⟨c', hc', rfl⟩ := List.mem_map.1 hc
    obtain ⟨_, _, h5, h6⟩ := h3 c' hc'
    obtain ⟨d, hd'⟩ := hone c' hc'
    refine ⟨h5, fun m => ?_⟩
    rw [h6, hd']; simp

/-- `⟨x^2, x y⟩ = ⟨x⟩ ∩ ⟨x^2, y⟩`, the components have different supports -/
example : IsIrrDecomp [(![1, 0] : Term 2), ![2, 1]] [![2, 0], ![1, 1]] ∧
    ∀ d ∈ [(![1, 0] : Term 2), ![2, 1]], ∀ d' ∈ [(![1, 0] : Term 2), ![2, 1]], (∀ v, d v = 0 ↔ d' v = 0) → d = d' := by
  refine ⟨⟨fun m => ?_, fun d hd => ?_, by decide⟩, by decide⟩
  · simp [mem, memIrr, Term.le_def, Fin.exists_fin_succ, Fin.forall_fin_succ]
    omega
  · simp only [List.mem_cons, List.not_mem_nil, or_false] at hd
    rcases hd with rfl | rfl
    · exact ⟨![0, 1], by decide, by decide⟩
    · exact ⟨![1, 0], by decide, by decide⟩

/-- `⟨x^3, x^2 y, x y^2, y^3, x y z⟩ = ⟨x^3, y⟩ ∩ ⟨x^2, y^2, z⟩ ∩ ⟨x, y^3⟩` -/
def primaryWitness : List (Term 3) := [![3, 0, 0], ![2, 1, 0], ![1, 2, 0], ![0, 3, 0], ![1, 1, 1]]

theorem primaryWitness_irr : IsIrrDecomp [![3, 1, 0], ![2, 2, 1], ![1, 3, 0]] primaryWitness := by
  refine ⟨fun m => ?_, fun d hd => ?_, by decide⟩
  · simp [mem, memIrr, primaryWitness, Term.le_def, Fin.exists_fin_succ, Fin.forall_fin_succ]
    omega
  · simp only [List.mem_cons, List.not_mem_nil, or_false] at hd
    rcases hd with rfl | rfl | rfl
    · exact ⟨![2, 0, 0], by decide, by decide⟩
    · exact ⟨![1, 1, 0], by decide, by decide⟩
    · exact ⟨![0, 2, 0], by decide, by decide⟩

theorem sortReverseLex_eq_of_perm {l l' : List (Term n)} (h : l.Perm l') : sortReverseLex l = sortReverseLex l' :=
  List.Perm.eq_of_pairwise (le := fun a b : Term n => lexLE b a) (fun _ _ _ _ h1 h2 => lexLE_antisymm h2 h1)
    (List.pairwise_insertionSort _ _) (List.pairwise_insertionSort _ _)
    ((sortReverseLex_perm l).trans (h.trans (sortReverseLex_perm l').symm))

/-- C11 fails: the documentation of `primaryDecomposition` promises that each ideal that is emitted is the intersection
of the irreducible components with the same support. For this ideal, `⟨x^3, y⟩` and `⟨x, y^3⟩` are emitted separately,
and their intersection is not emitted. The sorting in `computePrimaryDecomposition` does not bring components of the
same support together. -/
theorem C11_not_canonical (rnd : List ℕ → ℕ → ℕ) :
    ∃ A B C : List (Term 3), primaryDecomposition rnd primaryWitness =
        some (Event.block (A.map toInt) ++ Event.block (B.map toInt) ++ Event.block (C.map toInt)) ∧
      (∀ m, mem A m ↔ memIrr ![3, 1, 0] m) ∧ (∀ m, mem B m ↔ memIrr ![2, 2, 1] m) ∧
      (∀ m, mem C m ↔ memIrr ![1, 3, 0] m) ∧
      ∀ c ∈ [A, B, C], ¬ ∀ m, mem c m ↔ memIrr ![3, 1, 0] m ∧ memIrr ![1, 3, 0] m := by
  obtain ⟨ds, hc, hs, f, h1, h2⟩ := facadePrimary_runs apiOpts_valid rnd primaryWitness
  have h0 : ∀ v i, i < tNum primaryWitness v → tExp primaryWitness v i = i := by decide
  have h3 : ds.map (fun d v => tExp primaryWitness v (d v)) = ds := by
    conv_rhs => rw [← List.map_id ds]
    refine List.map_congr_left fun d hd => ?_
    funext v
    exact h0 v _ (hc.lt d hd v)
  have h4 : ds.Perm [![3, 1, 0], ![2, 2, 1], ![1, 3, 0]] :=
    irrDecomp_unique (h3 ▸ hc.irr) primaryWitness_irr fun _ => Iff.rfl
  have h5 : ds = [![3, 1, 0], ![2, 2, 1], ![1, 3, 0]] := by
    rw [hs, sortReverseLex_eq_of_perm h4]; decide
  have h6 : supportRuns ds = [[![3, 1, 0]], [![2, 2, 1]], [![1, 3, 0]]] := by
    rw [h5]
    have e1 : sameSupportPrefix (![3, 1, 0] : Term 3) [![2, 2, 1], ![1, 3, 0]] = [] := by decide
    have e2 : sameSupportPrefix (![2, 2, 1] : Term 3) [![1, 3, 0]] = [] := by decide
    have e3 : sameSupportPrefix (![1, 3, 0] : Term 3) [] = [] := by decide
    rw [supportRuns, e1, List.length_nil, List.drop_zero, supportRuns, e2, List.length_nil, List.drop_zero, supportRuns,
      e3, List.length_nil, List.drop_zero, supportRuns]
  rw [h6] at h1 h2
  have hexp : ∀ d ∈ ds, ∀ m, memIrr (fun v => tExp primaryWitness v (d v)) m ↔ memIrr d m := fun d hd m => by
    rw [funext fun v => h0 v _ (hc.lt d hd v)]
  have hm : ∀ d ∈ ds, [d] ∈ [[(![3, 1, 0] : Term 3)], [![2, 2, 1]], [![1, 3, 0]]] → ∀ m, mem (f [d]) m ↔ memIrr d m :=
    fun d hd hg m => by rw [(h2 [d] hg).2, List.forall_mem_singleton, hexp d hd]
  have hA := hm ![3, 1, 0] (by rw [h5]; simp) (by simp)
  have hB := hm ![2, 2, 1] (by rw [h5]; simp) (by simp)
  have hC := hm ![1, 3, 0] (by rw [h5]; simp) (by simp)
  refine ⟨f [![3, 1, 0]], f [![2, 2, 1]], f [![1, 3, 0]], ?_, hA, hB, hC, ?_⟩
  · unfold primaryDecomposition
    rw [h1]
    simp
  · intro c hc'
    simp only [List.mem_cons, List.not_mem_nil, or_false] at hc'
    rcases hc' with rfl | rfl | rfl
    · intro hcon
      have := (hA ![0, 1, 0]).symm.trans (hcon ![0, 1, 0])
      revert this; decide
    · intro hcon
      have := (hB ![0, 0, 1]).symm.trans (hcon ![0, 0, 1])
      revert this; decide
    · intro hcon
      have := (hC ![1, 0, 0]).symm.trans (hcon ![1, 0, 0])
      revert this; decide

/-! ## translation of exponents -/

/-- C20: the translator numbers the exponents of each variable in increasing order; translating a generator to
identifiers and back gives the generator, divisibility is the same, and the translated and minimized ideal stands for
the minimal generators. -/
theorem C20_translation (G : List (Term n)) :
    (∀ g ∈ G, (Translator.ofGens G).translate (fun v => (Translator.ofGens G).shrinkExponent v (g v)) =
        some (toInt g)) ∧
      (∀ g ∈ G, ∀ h ∈ G, g ≤ h ↔ ∀ v, (Translator.ofGens G).shrinkExponent v (g v) ≤
        (Translator.ofGens G).shrinkExponent v (h v)) ∧
      ∃ K, MinGens K G ∧ (setIdeal G).2.mapM (setIdeal G).1.translate = some (K.map toInt) := by
  refine ⟨fun g hg => ?_, fun g hg h hh => ?_, _, (setIdeal_spec G).minGens, ?_⟩
  · rw [translate_ofGens G fun v => (ofGens_shrink G hg v).1.le]
    congr 1
    funext v
    rw [(ofGens_shrink G hg v).2]
    rfl
  · rw [Term.le_def]
    refine forall_congr' fun v => ?_
    obtain ⟨h1, h2⟩ := ofGens_shrink G hg v
    obtain ⟨h3, h4⟩ := ofGens_shrink G hh v
    constructor
    · intro hle
      by_contra hc
      have := (tSys G).mono v _ _ (Nat.lt_of_not_le hc) h1
      omega
    · intro hle
      have := (tSys G).mono_le hle h3
      omega
  · have hT : (setIdeal G).1 = Translator.ofGens G := rfl
    rw [hT, mapM_some _ (fun t v => (tExp G v (t v) : ℤ)) _ fun (t : Term n) ht =>
      translate_ofGens G (t := t) fun v => ((setIdeal_spec G).lt t ht v).le, List.map_map]
    rfl

/-! ## concrete cases -/

/-- C01, C02 for `⟨x^2, x y⟩`: the output is `⟨x⟩` and `⟨x^2, y⟩` in some order. -/
example (rnd : List ℕ → ℕ → ℕ) : ∃ D : List (Term 2),
    irreducibleDecompositionAsMonomials rnd [![2, 0], ![1, 1]] = some (true, Event.block (D.map toInt)) ∧
      D.Perm [![1, 0], ![2, 1]] := by
  obtain ⟨D, h1, _, _, h2⟩ := C02_irredundant rnd [(![2, 0] : Term 2), ![1, 1]] (by simp)
  refine ⟨D, h1, (h2 _ ⟨fun m => ?_, fun d hd => ?_, by decide⟩).symm⟩
  · simp [mem, memIrr, Term.le_def, Fin.exists_fin_succ, Fin.forall_fin_succ]
    omega
  · simp only [List.mem_cons, List.not_mem_nil, or_false] at hd
    rcases hd with rfl | rfl
    · exact ⟨![0, 1], by decide, by decide⟩
    · exact ⟨![1, 0], by decide, by decide⟩

/-- C03: an ideal with the identity as a generator has no components. -/
example (rnd : List ℕ → ℕ → ℕ) :
    irreducibleDecompositionAsMonomials rnd [(![2, 0] : Term 2), 0] = some (true, [.begin, .done]) := by
  obtain ⟨ts, h1, h2⟩ := (C03_return_value rnd [(![2, 0] : Term 2), 0]).2 (by simp)
  rw [h1, h2.2 (by simp)]; rfl

/-- C05: `x` is a maximal standard monomial of `⟨x^2, x y⟩`, `y` is not. -/
example : Msm [(![2, 0] : Term 2), ![1, 1]] ![1, 0] ∧ ¬ Msm [(![2, 0] : Term 2), ![1, 1]] ![0, 1] := by decide

/-- C06, C07, C09: the hypotheses hold for `⟨x^2, x y, x^2 y⟩`, whose least common multiple is that of the two minimal
generators, and the point `x^2 y^3`. -/
example : MinGens [(![2, 0] : Term 2), ![1, 1]] [![2, 0], ![1, 1], ![2, 1]] ∧
    (∀ g ∈ [(![2, 0] : Term 2), ![1, 1]], g ≤ ![2, 3]) ∧ IsLcm [(![2, 0] : Term 2), ![1, 1]] ![2, 1] := by
  refine ⟨⟨fun m => ?_, by unfold Anti; decide, by decide⟩, by decide, isLcm_iff.2 (by decide)⟩
  simp [mem, Term.le_def, Fin.forall_fin_succ]
  omega

/-- C06: the dual of `⟨x^2, x y⟩` on `x^2 y^3` is `⟨x⟩ ∩ ⟨x^2, y^3⟩ = ⟨x^2, x y^3⟩`. -/
example : IsAlexanderDual [(![2, 0] : Term 2), ![1, 3]] [![2, 0], ![1, 1]] ![2, 3] := by
  refine ⟨by unfold Anti; decide, fun m => ?_⟩
  simp [mem, memIrr, dualComponent, Term.le_def, Fin.exists_fin_succ, Fin.forall_fin_succ]
  omega

/-- C10: the maximal ideal is associated to `⟨x^2, x y⟩`, `⟨y⟩` is not. -/
example : IsAssocPrime [(![2, 0] : Term 2), ![1, 1]] {0, 1} ∧ ¬ IsAssocPrime [(![2, 0] : Term 2), ![1, 1]] {1} := by
  constructor
  · refine ⟨![1, 0], fun x => ?_⟩
    simp [mem, Term.le_def, Fin.forall_fin_succ]
    omega
  · rintro ⟨m, hm⟩
    have h1 := hm 0
    have h2 := hm ![0, 1]
    have h3 := hm ![2, 0]
    simp [mem, Term.le_def, Fin.forall_fin_succ] at h1 h2 h3

end Frobby

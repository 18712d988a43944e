import Verif.OptSpec
import Verif.OptLemmas
import Verif.IrrLemmas
import Verif.DimLemmas

/-!
# The optimization programs of the facade
-/

namespace Frobby

open Term

variable {n : ℕ}

/-! ## graders made from a translator -/

/-- The translator gives the numbers `e` minus `δ`. -/
structure Shifted (e : Fin n → ℕ → ℕ) (N : Fin n → ℕ) (δ : ℤ) (T : Translator n) : Prop where
  len : ∀ v, (T v).length = N v + 1
  get : ∀ v i (hi : i < (T v).length), (T v)[i] = (e v i : ℤ) - δ

theorem shifted_ofGens (G : List (Term n)) : Shifted (tExp G) (tNum G) 0 (Translator.ofGens G) :=
  ⟨ofGens_length G, fun v i hi => by rw [ofGens_getElem G v i hi]; simp⟩

theorem shifted_decrement (G : List (Term n)) : Shifted (tExp G) (tNum G) 1 (Translator.ofGens G).decrement :=
  ⟨fun v => by simp [Translator.decrement, ofGens_length], fun v i hi => by
    simp only [Translator.decrement, List.getElem_map]
    rw [ofGens_getElem G v i (by simpa [Translator.decrement] using hi)]⟩

variable {e : Fin n → ℕ → ℕ} {N : Fin n → ℕ} {δ : ℤ} {T : Translator n}

theorem Shifted.translate (h : Shifted e N δ T) {t : Term n} (ht : ∀ v, t v ≤ N v) :
    T.translate t = some fun v => (e v (t v) : ℤ) - δ := by
  have hl : ∀ v, t v < (T v).length := fun v => by rw [h.len]; have := ht v; omega
  unfold Translator.translate
  rw [dif_pos hl]
  congr 1; funext v
  exact h.get v (t v) (hl v)

theorem Shifted.gr (h : Shifted e N δ T) (d : Fin n → ℤ) (v : Fin n) {i : ℕ} (hi : i ≤ N v) :
    (Grader.new d T).gr v i = d v * ((e v i : ℤ) - δ) := by
  have hl := h.len v
  unfold Grader.gr Grader.new
  simp only
  rw [List.getD_eq_getElem _ _ (by simp; omega), List.getElem_map, h.get]

theorem Shifted.graderOK (h : Shifted e N δ T) (hs : IdSys e N) (d : Fin n → ℤ) : GraderOK (Grader.new d T) N := by
  have hsign : ∀ v, (Grader.new d T).signs v = if 0 < d v then 1 else if d v < 0 then -1 else 0 := fun _ => rfl
  have hp : ∀ v, 0 < (Grader.new d T).signs v → 0 ≤ d v := by
    intro v; rw [hsign]; intro h; split at h
    · omega
    · split at h <;> omega
  have hm : ∀ v, (Grader.new d T).signs v < 0 → d v ≤ 0 := by
    intro v; rw [hsign]; intro h; split at h
    · omega
    · split at h <;> omega
  have hz : ∀ v, (Grader.new d T).signs v = 0 → d v = 0 := by
    intro v; rw [hsign]; intro h; split at h
    · omega
    · split at h <;> omega
  refine ⟨fun v => by simp [Grader.new, h.len], hs.pos, ?_, ?_, ?_, ?_, ?_⟩
  · intro v hv i j hij hj
    rw [h.gr d v (by omega), h.gr d v (by omega)]
    have := hs.mono_le hij hj
    exact Int.mul_le_mul_of_nonneg_left (by omega) (hp v hv)
  · intro v hv i hi
    rw [h.gr d v (by omega), h.gr d v (by omega), hs.top]
    exact Int.mul_le_mul_of_nonneg_left (by omega) (hp v hv)
  · intro v hv i j hij hj
    rw [h.gr d v (by omega), h.gr d v (by omega)]
    have := hs.mono_le hij hj
    exact Int.mul_le_mul_of_nonpos_left (hm v hv) (by omega)
  · intro v hv i hi
    rw [h.gr d v (by omega), h.gr d v (by omega), hs.top]
    exact Int.mul_le_mul_of_nonpos_left (hm v hv) (by omega)
  · intro v hv i
    unfold Grader.gr Grader.new
    simp only [hz v hv, zero_mul, List.map_const']
    rw [List.getD_eq_getElem?_getD, List.getElem?_replicate]
    split <;> rfl

theorem Shifted.deg (h : Shifted e N δ T) (d : Fin n → ℤ) {t : Term n} (ht : ∀ v, t v ≤ N v) :
    (Grader.new d T).deg t = ∑ v, d v * ((e v (t v) : ℤ) - δ) :=
  Finset.sum_congr rfl fun v _ => h.gr d v (ht v)

/-! ## programs -/

theorem Solves.congr {C C' : Term n → Prop} (hC : ∀ t, C t ↔ C' t) {d : Fin n → ℤ} {value : Option ℤ} {S : List (Term n)}
    (h : Solves C d value S) : Solves C' d value S := by
  have : C = C' := funext fun t => propext (hC t)
  rwa [← this]

/-- What the facade promises. -/
structure ProgSpec (C : Term n → Prop) (d : Fin n → ℤ) (all : Bool) (r : Option (Option ℤ × List (Fin n → ℤ))) : Prop where
  ex : ∃ value S, r = some (value, S.map toInt) ∧ Solves C d value S ∧ (all = false → S.length ≤ 1) ∧
    (all = true → value ≠ some 0 → AllSolutions C d value S)

theorem solveProgram_spec (hs : IdSys e N) (hT : Shifted e N δ T) (p : OptParams) (rnd : List ℕ → ℕ → ℕ)
    {I : List (Term n)} (d : Fin n → ℤ) (hI : Anti I) (hN : ∀ v, lcmOf I v ≤ N v)
    (h1 : n = 1 → p.opts.simp = false → p.opts.split.isLabel = false → ∀ g ∈ I, ∀ v, g v ≤ 1)
    {C : Term n → Prop} {f : Term n → Term n}
    (hle : ∀ t : Term n, (∀ i, 0 < t i) → Msm I (fun i => t i - 1) → ∀ v, t v ≤ N v)
    (hf : ∀ t : Term n, (∀ i, 0 < t i) → Msm I (fun i => t i - 1) → ∀ v, (f t v : ℤ) = (e v (t v) : ℤ) - δ)
    (hC : ∀ m, C m ↔ ∃ t : Term n, ((∀ i, 0 < t i) ∧ Msm I (fun i => t i - 1)) ∧ f t = m)
    (hinj : ∀ s t : Term n, (∀ i, 0 < s i) → Msm I (fun i => s i - 1) → (∀ i, 0 < t i) → Msm I (fun i => t i - 1) → f s = f t → s = t) :
    ProgSpec C d p.all (solveProgram p rnd T I d) := by
  have hg := hT.graderOK hs d
  obtain ⟨st, hst, hr⟩ := optRun_spec (c := { grader := Grader.new d T, opts := p.opts, all := p.all, bound := p.bound })
    hg rnd hI hN h1
  have hdeg : ∀ t : Term n, ((∀ i, 0 < t i) ∧ Msm I (fun i => t i - 1)) → (Grader.new d T).deg t = ∑ v, d v * (f t v : ℤ) := by
    rintro t ⟨h2, h3⟩
    rw [hT.deg d (hle t h2 h3)]
    exact Finset.sum_congr rfl fun v _ => by rw [hf t h2 h3]
  refine ⟨if st.sols.isEmpty then none else some st.maxValue, st.sols.map f, ?_, ⟨?_, ?_, ?_⟩, ?_, ?_⟩
  · unfold solveProgram
    rw [hst]
    simp only
    rw [mapM_some _ (fun t => toInt (f t)) _ fun t ht => by
      obtain ⟨h2, h3⟩ := hr.sub t ht
      rw [hT.translate (hle t h2 h3)]
      congr 1; funext v
      exact (hf t h2 h3 v).symm]
    simp [Function.comp_def]
  · intro h
    have : st.sols = [] := by
      rw [List.eq_nil_iff_forall_not_mem]
      intro t ht
      exact h (f t) ((hC _).2 ⟨t, hr.sub t ht, rfl⟩)
    simp [this]
  · rintro ⟨m, hm⟩
    obtain ⟨t, ht, rfl⟩ := (hC m).1 hm
    have hne : st.sols ≠ [] := fun h => hr.none h t ht
    refine ⟨st.maxValue, by simp [hne], by simpa using hne, ⟨?_, ?_⟩, ?_⟩
    · obtain ⟨t, ht⟩ := List.exists_mem_of_ne_nil _ hne
      exact ⟨f t, (hC _).2 ⟨t, hr.sub t ht, rfl⟩, by rw [← hdeg t (hr.sub t ht)]; exact (hr.value t ht).symm⟩
    · rintro y ⟨m', hm', rfl⟩
      obtain ⟨t', ht', rfl⟩ := (hC m').1 hm'
      rw [← hdeg t' ht']
      exact hr.max t' ht'
    · intro m' hm'
      obtain ⟨t', ht', rfl⟩ := List.mem_map.1 hm'
      exact ⟨(hC _).2 ⟨t', hr.sub t' ht', rfl⟩, by rw [← hdeg t' (hr.sub t' ht')]; exact (hr.value t' ht').symm⟩
  · refine List.Nodup.map_on ?_ hr.nodup
    intro s hs' t ht hst
    obtain ⟨h2, h3⟩ := hr.sub s hs'
    obtain ⟨h4, h5⟩ := hr.sub t ht
    exact hinj s t h2 h3 h4 h5 hst
  · intro h
    rw [List.length_map]
    exact hr.single h
  · intro h h0 x hx m hm hmx
    obtain ⟨t, ht, rfl⟩ := (hC m).1 hm
    have hx' : x = st.maxValue := by
      split at hx
      · simp at hx
      · exact (Option.some.inj hx).symm
    refine List.mem_map.2 ⟨t, hr.all h ?_ t ht ?_, rfl⟩
    · rintro h2
      apply h0
      rw [hx, hx', h2]
    · exact (hdeg t ht).trans (hmx.symm.trans hx')

/-- The program on maximal standard monomials. -/
theorem solveStandardProgram_spec (p : OptParams) (rnd : List ℕ → ℕ → ℕ) (G : List (Term n)) (d : Fin n → ℤ) :
    ProgSpec (Msm G) d p.all (solveStandardProgram p rnd G d) := by
  have hG := setIdeal_spec G
  have hs := hG.sys
  have hpos : ∀ t : Term n, (∀ i, 0 < t i) → Msm (setIdeal G).2 (fun i => t i - 1) → ∀ v, t v < tNum G v ∧ 0 < tExp G v (t v) := by
    intro t h1 h2 v
    have h3 := hG.lt_of_msm h2 v
    have h4 := h1 v
    exact ⟨by omega, (hs.pos_iff h4 (by omega)).2 (by omega)⟩
  refine solveProgram_spec hs (shifted_decrement G) p rnd d hG.anti (fun v => (hG.lcm_le v).le)
    (fun hn _ _ => hG.one_var (ofGens_used G) hn) (f := fun t v => tExp G v (t v) - 1) ?_ ?_ ?_ ?_
  · intro t h1 h2 v
    exact (hpos t h1 h2 v).1.le
  · intro t h1 h2 v
    have := (hpos t h1 h2 v).2
    show ((tExp G v (t v) - 1 : ℕ) : ℤ) = _
    omega
  · intro m
    rw [hG.msm_iff]
    constructor
    · rintro ⟨u, hu, hm⟩
      refine ⟨fun v => u v + 1, ⟨fun i => Nat.succ_pos _, by simpa using hu⟩, ?_⟩
      funext v
      have := hm v
      show tExp G v (u v + 1) - 1 = m v
      omega
    · rintro ⟨t, ⟨h1, h2⟩, rfl⟩
      refine ⟨_, h2, fun v => ?_⟩
      have := (hpos t h1 h2 v).2
      have := h1 v
      simp only
      rw [show t v - 1 + 1 = t v by omega]
      omega
  · intro s t h1 h2 h3 h4 he
    funext v
    have h5 := hpos s h1 h2 v
    have h6 := hpos t h3 h4 v
    have : tExp G v (s v) - 1 = tExp G v (t v) - 1 := congrFun he v
    exact hs.inj (h1 v) h5.1.le (h3 v) h6.1.le (by omega)

/-- The program on the irreducible components, for the state of the facade. -/
theorem solveIrrProgramAt_spec (p : OptParams) (rnd : List ℕ → ℕ → ℕ) {H G M : List (Term n)}
    (hG : IdSpec (tExp H) (tNum H) G M) (d : Fin n → ℤ)
    (h1 : n = 1 → p.opts.simp = false → p.opts.split.isLabel = false →
      ∀ g ∈ (Translator.ofGens H).addPurePowers M, ∀ v, g v ≤ 1) {D : List (Term n)} (hD : IsIrrDecomp D G) :
    ProgSpec (fun t => t ∈ D) d p.all (solveIrrProgramAt p rnd (Translator.ofGens H) M d) := by
  have hs := hG.sys
  have hN : (Translator.ofGens H).maxId = tNum H := funext (ofGens_maxId H)
  have hP := addPurePowers_spec (Translator.ofGens H) hG.anti (by rw [hN]; exact hG.lt) (by rw [hN]; exact hG.sys.pos)
  rw [hN] at hP
  have hsame : (if contains M 0 then M else (Translator.ofGens H).addPurePowers M) = (Translator.ofGens H).addPurePowers M := by
    split
    · rename_i hc
      obtain ⟨g, hg, hle⟩ := contains_iff.1 hc
      have hg0 : g = 0 := by funext v; have := le_def.1 hle v; simpa using this
      unfold Translator.addPurePowers
      rw [if_pos]
      simp only [List.any_eq_true, decide_eq_true_eq]
      refine ⟨g, hg, ?_, ?_⟩
      · rw [hg0]; simp [sizeOfSupport]
      · rw [hg0]
        unfold firstNonZero
        rw [List.find?_eq_none.2 (by simp)]
    · rfl
  unfold solveIrrProgramAt
  rw [hsame]
  set P := (Translator.ofGens H).addPurePowers M with hPdef
  -- all outputs there would be
  obtain ⟨outs, hout⟩ : ∃ outs : List (Term n), OutSpec (tNum H) P outs := by
    classical
    refine ⟨((Fintype.piFinset fun v => Finset.range (tNum H v + 1)).filter
      fun t : Term n => (∀ i, 0 < t i) ∧ Msm P (fun i => t i - 1)).toList, Finset.nodup_toList _, fun t => ?_, fun t ht v => ?_⟩
    · rw [Finset.mem_toList, Finset.mem_filter, Fintype.mem_piFinset]
      refine ⟨fun h => h.2, fun h => ⟨fun v => ?_, h⟩⟩
      have := hP.lt_of_not_mem h.2.1 v
      simp only [Finset.mem_range]
      omega
    · rw [Finset.mem_toList, Finset.mem_filter, Fintype.mem_piFinset] at ht
      have := Finset.mem_range.1 (ht.1 v)
      omega
  have hperm := irrDecomp_unique hD (hout.irrDecomp hP hG) fun _ => Iff.rfl
  refine solveProgram_spec hs (shifted_ofGens H) p rnd d hP.anti (fun v => ?_) h1 (f := fun t v => tExp H v (t v)) ?_ ?_ ?_ ?_
  · refine lcmOf_le (b := tNum H) (fun g hg => le_def.2 fun w => ?_) v
    rcases hP.mem_of g hg with h2 | ⟨x, rfl⟩
    · exact (hG.lt g h2 w).le
    · by_cases hw : w = x
      · subst hw; simp
      · simp [hw]
  · intro t h2 h3
    exact hout.le t ((hout.mem_iff t).2 ⟨h2, h3⟩)
  · intro t _ _ v
    simp
  · intro m
    rw [hperm.mem_iff, List.mem_map]
    exact exists_congr fun t => and_congr_left fun _ => hout.mem_iff t
  · intro s t h2 h3 h4 h5 he
    exact hout.exp_inj hs ((hout.mem_iff s).2 ⟨h2, h3⟩) ((hout.mem_iff t).2 ⟨h4, h5⟩) fun v => congrFun he v

/-- Pure powers at infinity in one variable. -/
theorem pure_one_var {G : List (Term n)} (hn : n = 1) :
    ∀ g ∈ (Translator.ofGens G).addPurePowers (setIdeal G).2, ∀ v, g v ≤ 1 := by
  have hG := setIdeal_spec G
  have hN : (Translator.ofGens G).maxId = tNum G := funext (ofGens_maxId G)
  have hP := addPurePowers_spec (Translator.ofGens G) hG.anti (by rw [hN]; exact hG.lt) (by rw [hN]; exact hG.sys.pos)
  rw [hN] at hP
  intro g hg v
  rcases hP.mem_of g hg with hg' | ⟨w, rfl⟩
  · exact hG.one_var (ofGens_used G) hn g hg' v
  · have hw : w = v := by subst hn; exact Subsingleton.elim _ _
    subst hw
    rw [Term.single_same]
    by_contra hc
    obtain ⟨g', hg', he⟩ := ofGens_used G w 1 (by omega) (by omega)
    obtain ⟨k, hk, hke⟩ := hG.complete g' hg'
    have hkP := hP.subset k hk
    have huniq : ∀ w' : Fin n, w' = w := fun w' => by subst hn; exact Subsingleton.elim _ _
    have hle : k ≤ Term.single w (tNum G w) := Term.le_def.2 fun w' => by
      rw [huniq w', Term.single_same]; exact (hG.lt k hk w).le
    have := hP.anti.eq_of_le hkP hg hle
    have h3 := hG.lt k hk w
    rw [this, Term.single_same] at h3
    omega

theorem solveIrrProgram_spec (p : OptParams) (rnd : List ℕ → ℕ → ℕ) (G : List (Term n)) (d : Fin n → ℤ)
    {D : List (Term n)} (hD : IsIrrDecomp D G) :
    ProgSpec (fun t => t ∈ D) d p.all (solveIrrProgram p rnd G d) :=
  solveIrrProgramAt_spec p rnd (setIdeal_spec G) d (fun hn _ _ => pure_one_var hn) hD

/-! ## dimension -/

theorem tExp_zeroOne (v : Fin n) : tNum ([0, 1] : List (Term n)) v = 2 ∧ tExp ([0, 1] : List (Term n)) v 0 = 0 ∧
    tExp ([0, 1] : List (Term n)) v 1 = 1 := by
  have hl : idList (([0, 1] : List (Term n)).map fun g : Term n => g v) = [0, 1] := by simpa using idList_zeroOne
  unfold tNum tExp
  rw [hl]
  simp

/-- The radical in the state of the facade. -/
structure RadSpec (G R : List (Term n)) : Prop where
  anti : Anti R
  le : ∀ g ∈ R, ∀ v, g v ≤ 1
  mem_iff : ∀ m, mem R m ↔ mem (G.map fun g v => if g v = 0 then 0 else 1) m

theorem facadeRadical_spec (G : List (Term n)) : RadSpec G (facadeRadical (setIdeal G).1 (setIdeal G).2) := by
  have hG := setIdeal_spec G
  have hN : (setIdeal G).1.maxId = tNum G := funext (ofGens_maxId G)
  have hinf : (setIdeal G).1.infinityToZero (setIdeal G).2 = (setIdeal G).2 := by
    unfold Translator.infinityToZero
    rw [hN]
    conv_rhs => rw [← List.map_id (setIdeal G).2]
    refine List.map_congr_left fun g hg => ?_
    funext v
    have := hG.lt g hg v
    rw [if_neg (by omega)]
    rfl
  have hz : ∀ g ∈ (setIdeal G).2, ∀ v, tExp G v (g v) = 0 ↔ g v = 0 := by
    intro g hg v
    constructor
    · intro h
      by_contra hne
      have := hG.sys.mono v 0 (g v) (by omega) (hG.lt g hg v)
      omega
    · intro h; rw [h]; exact hG.sys.zero v
  -- the radical of the translated ideal
  have hmem : ∀ m, mem ((setIdeal G).2.map fun g : Term n => (fun v => if g v = 0 then 0 else 1 : Term n)) m ↔
      mem (G.map fun g : Term n => (fun v => if g v = 0 then 0 else 1 : Term n)) m := by
    intro m
    constructor
    · rintro ⟨_, hx, hle⟩
      obtain ⟨g, hg, rfl⟩ := List.mem_map.1 hx
      refine ⟨_, List.mem_map.2 ⟨_, hG.sound g hg, rfl⟩, le_def.2 fun v => ?_⟩
      refine le_trans (le_of_eq ?_) (le_def.1 hle v)
      show (if tExp G v (g v) = 0 then 0 else 1) = if g v = 0 then 0 else 1
      simp only [hz g hg v]
    · rintro ⟨_, hx, hle⟩
      obtain ⟨g, hg, rfl⟩ := List.mem_map.1 hx
      obtain ⟨k, hk, hke⟩ := hG.complete g hg
      refine ⟨_, List.mem_map.2 ⟨k, hk, rfl⟩, le_def.2 fun v => ?_⟩
      refine le_trans ?_ (le_def.1 hle v)
      have := hz k hk v
      have := hke v
      show (if k v = 0 then 0 else 1) ≤ if g v = 0 then 0 else 1
      split <;> split <;> omega
  unfold facadeRadical
  split
  · rename_i hsq
    have hle1 : ∀ g ∈ (setIdeal G).2, ∀ v, g v ≤ 1 := fun g hg v =>
      (le_def.1 (le_lcmOf hg) v).trans (hsq v)
    refine ⟨hG.anti, hle1, fun m => ?_⟩
    rw [← hmem]
    have : ((setIdeal G).2.map fun g : Term n => (fun v => if g v = 0 then 0 else 1 : Term n)) = (setIdeal G).2 := by
      conv_rhs => rw [← List.map_id (setIdeal G).2]
      refine List.map_congr_left fun g hg => ?_
      funext v
      have := hle1 g hg v
      show (if g v = 0 then 0 else 1) = g v
      split <;> omega
    rw [this]
  · rw [hinf]
    have hm := minimize_minGens ((setIdeal G).2.map fun g : Term n => (fun v => if g v = 0 then 0 else 1 : Term n))
    refine ⟨hm.anti, fun g hg v => ?_, fun m => (hm.mem_iff m).trans (hmem m)⟩
    obtain ⟨g', _, rfl⟩ := List.mem_map.1 (hm.subset g hg)
    show (if g' v = 0 then 0 else 1) ≤ 1
    split <;> omega

theorem RadSpec.idSpec {G R : List (Term n)} (h : RadSpec G R) : IdSpec (tExp ([0, 1] : List (Term n))) (tNum [0, 1]) R R := by
  have he : ∀ g ∈ R, (fun v => tExp ([0, 1] : List (Term n)) v (g v)) = g := by
    intro g hg
    funext v
    have := h.le g hg v
    obtain ⟨_, h1, h2⟩ := tExp_zeroOne (n := n) v
    rcases Nat.le_one_iff_eq_zero_or_eq_one.1 this with h3 | h3
    · rw [h3, h1]
    · rw [h3, h2]
  refine ⟨tSys _, h.anti, fun g hg v => ?_, fun g hg => by rw [he g hg]; exact hg, fun g hg => ⟨g, hg, fun v => ?_⟩⟩
  · rw [(tExp_zeroOne v).1]; have := h.le g hg v; omega
  · exact le_of_eq (congrFun (he g hg) v)

end Frobby

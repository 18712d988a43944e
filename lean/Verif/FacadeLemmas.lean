import Verif.TranslatorLemmas
import Verif.Run

/-!
# The facade functions compute what they should

Everything is reduced to `floorId`: a monomial `m` is outside the component of the output `t` exactly when
`floorId m ≤ t - 1`.
-/

namespace Frobby

variable {n : ℕ}

theorem toInt_inj {a b : Term n} (h : toInt a = toInt b) : a = b := by
  funext v
  have := congrFun h v
  simpa [toInt] using this

/-! ## translation of the output -/

theorem translate_ofGens (G : List (Term n)) {t : Term n} (ht : ∀ v, t v ≤ tNum G v) :
    (Translator.ofGens G).translate t = some fun v => (tExp G v (t v) : ℤ) := by
  have hl : ∀ v, t v < (Translator.ofGens G v).length := fun v => by rw [ofGens_length]; have := ht v; omega
  unfold Translator.translate
  rw [dif_pos hl]
  congr 1; funext v
  exact ofGens_getElem G v (t v) (hl v)

theorem translate_decrement (G : List (Term n)) {t : Term n} (ht : ∀ v, t v ≤ tNum G v) :
    (Translator.ofGens G).decrement.translate t = some fun v => (tExp G v (t v) : ℤ) - 1 := by
  have hl : ∀ v, t v < (Translator.ofGens G v).length := fun v => by rw [ofGens_length]; have := ht v; omega
  have hl' : ∀ v, t v < ((Translator.ofGens G).decrement v).length := fun v => by
    simpa [Translator.decrement] using hl v
  unfold Translator.translate
  rw [dif_pos hl']
  congr 1; funext v
  simp only [Translator.decrement, List.getElem_map]
  rw [ofGens_getElem G v (t v) (hl v)]

theorem translate_dualize (G : List (Term n)) (a : Fin n → ℤ) {t : Term n} (ht : ∀ v, t v ≤ tNum G v) :
    ((Translator.ofGens G).dualize a).translate t =
      some fun v => if tExp G v (t v) ≠ 0 then a v - (tExp G v (t v) : ℤ) + 1 else 0 := by
  have hl : ∀ v, t v < (Translator.ofGens G v).length := fun v => by rw [ofGens_length]; have := ht v; omega
  have hl' : ∀ v, t v < ((Translator.ofGens G).dualize a v).length := fun v => by
    simpa [Translator.dualize] using hl v
  unfold Translator.translate
  rw [dif_pos hl']
  congr 1; funext v
  simp only [Translator.dualize, List.getElem_map]
  rw [ofGens_getElem G v (t v) (hl v)]
  by_cases h : tExp G v (t v) = 0 <;> simp [h]

theorem mapM_some {α β : Type} (f : α → Option β) (g : α → β) (l : List α) (h : ∀ x ∈ l, f x = some (g x)) :
    l.mapM f = some (l.map g) := by
  induction l with
  | nil => simp
  | cons a l ih =>
    rw [List.mapM_cons, h a (by simp), ih fun x hx => h x (by simp [hx])]
    simp

/-! ## minimal generators -/

namespace IdSpec

variable {e : Fin n → ℕ → ℕ} {N : Fin n → ℕ} {G M P : List (Term n)}

/-- The exponents of the generators that are kept are the minimal generators of the input. -/
theorem minGens (h : IdSpec e N G M) : MinGens (M.map fun g v => e v (g v)) G := by
  refine ⟨fun m => ?_, ?_, ?_⟩
  · rw [h.mem_floor]
    constructor
    · rintro ⟨g, hg, hle⟩
      obtain ⟨k, hk, rfl⟩ := List.mem_map.1 hg
      exact ⟨k, hk, Term.le_def.2 fun v => h.sys.le_floor (h.lt k hk v) (hle v)⟩
    · rintro ⟨k, hk, hle⟩
      exact ⟨_, List.mem_map.2 ⟨k, hk, rfl⟩, Term.le_def.2 fun v => (h.sys.le_floor_iff (h.lt k hk v)).1 (hle v)⟩
  · unfold Anti
    rw [List.pairwise_map]
    have hr : ∀ a ∈ M, ∀ b ∈ M, (fun v => e v (a v)) ≤ (fun v => e v (b v)) → a ≤ b := by
      intro a ha b hb hle
      refine Term.le_def.2 fun v => ?_
      by_contra hc
      have := h.sys.mono v (b v) (a v) (by omega) (h.lt a ha v)
      have := Term.le_def.1 hle v
      omega
    refine List.Pairwise.imp_of_mem ?_ h.anti
    intro a b ha hb hab
    exact ⟨fun hc => hab.1 (hr a ha b hb hc), fun hc => hab.2 (hr b hb a ha hc)⟩
  · intro g hg
    obtain ⟨k, hk, rfl⟩ := List.mem_map.1 hg
    exact h.sound k hk

theorem lcm_le (h : IdSpec e N G M) (v : Fin n) : lcmOf M v < N v := by
  rcases Nat.eq_zero_or_pos (lcmOf M v) with h0 | h0
  · rw [h0]; exact h.sys.pos v
  · obtain ⟨g, hg, h1⟩ := lcmOf_attained h0
    rw [← h1]; exact h.lt g hg v

theorem lcm_exp (h : IdSpec e N G M) {K : List (Term n)} (hK : MinGens K G) (v : Fin n) :
    e v (lcmOf M v) = lcmOf K v := by
  have hp : K.Perm (M.map fun g v => e v (g v)) := anti_unique_perm hK.anti h.minGens.anti fun m => by
    rw [hK.mem_iff, h.minGens.mem_iff]
  rw [lcmOf_perm hp]
  apply le_antisymm
  · rcases Nat.eq_zero_or_pos (lcmOf M v) with h0 | h0
    · rw [h0, h.sys.zero]; omega
    · obtain ⟨g, hg, h1⟩ := lcmOf_attained h0
      rw [← h1]
      exact le_lcmOf (g := fun v => e v (g v)) (List.mem_map.2 ⟨g, hg, rfl⟩) v
  · rcases Nat.eq_zero_or_pos (lcmOf (M.map fun g v => e v (g v)) v) with h0 | h0
    · rw [h0]; omega
    · obtain ⟨g, hg, h1⟩ := lcmOf_attained h0
      obtain ⟨k, hk, rfl⟩ := List.mem_map.1 hg
      rw [← h1]
      exact h.sys.mono_le (le_lcmOf hk v) (h.lcm_le v)

end IdSpec

/-! ## outputs of the algorithm with pure powers at infinity -/

/-- `outs` lists the maximal standard monomials of `P` times all variables. -/
structure OutSpec (N : Fin n → ℕ) (P outs : List (Term n)) : Prop where
  nodup : outs.Nodup
  mem_iff : ∀ t, t ∈ outs ↔ (∀ i, 0 < t i) ∧ Msm P (fun i => t i - 1)
  le : ∀ t ∈ outs, ∀ v, t v ≤ N v

namespace OutSpec

variable {e : Fin n → ℕ → ℕ} {N : Fin n → ℕ} {G M P outs : List (Term n)}

theorem pos (h : OutSpec N P outs) {t : Term n} (ht : t ∈ outs) (v : Fin n) : 0 < t v := ((h.mem_iff t).1 ht).1 v

/-- Outputs are not comparable. -/
theorem eq_of_le (h : OutSpec N P outs) {s t : Term n} (hs : s ∈ outs) (ht : t ∈ outs) (hle : s ≤ t) : s = t := by
  have h1 := ((h.mem_iff s).1 hs).2
  have h2 := ((h.mem_iff t).1 ht).2
  have h3 := Msm.eq_of_le h1 h2 (Term.le_def.2 fun v => Nat.sub_le_sub_right (hle v) 1)
  funext v
  have := congrFun h3 v
  have := h.pos hs v
  have := h.pos ht v
  omega

/-- The standard monomials (in identifiers) are those below an output. -/
theorem below_iff (h : OutSpec N P outs) (hP : PureSpec N M P) {u : Term n} (hu : ∀ v, u v < N v) :
    ¬ mem M u ↔ ∃ t ∈ outs, ∀ v, u v < t v := by
  rw [← hP.mem_iff hu]
  constructor
  · intro hm
    obtain ⟨u', h1, h2⟩ := hP.exists_msm hm
    refine ⟨fun v => u' v + 1, (h.mem_iff _).2 ⟨fun i => by omega, ?_⟩, fun v => ?_⟩
    · simpa using h1
    · have := Term.le_def.1 h2 v; show u v < u' v + 1; omega
  · rintro ⟨t, ht, hlt⟩ hm
    exact ((h.mem_iff t).1 ht).2.1 (mem_of_le hm (Term.le_def.2 fun v => by have := hlt v; omega))

theorem memIrr_iff (h : OutSpec N P outs) (hs : IdSys e N) {t : Term n} (ht : t ∈ outs) (m : Term n) :
    memIrr (fun v => e v (t v)) m ↔ ¬ ∀ v, floorId e N m v < t v := by
  unfold memIrr
  push Not
  exact exists_congr fun v => hs.comp_iff (h.pos ht v) (h.le t ht v)

theorem exp_inj (h : OutSpec N P outs) (hs : IdSys e N) {s t : Term n} (hs' : s ∈ outs) (ht : t ∈ outs)
    (he : ∀ v, e v (s v) = e v (t v)) : s = t :=
  funext fun v => hs.inj (h.pos hs' v) (h.le s hs' v) (h.pos ht v) (h.le t ht v) (he v)

theorem irrDecomp (h : OutSpec N P outs) (hP : PureSpec N M P) (hG : IdSpec e N G M) :
    IsIrrDecomp (outs.map fun t v => e v (t v)) G := by
  have hs := hG.sys
  refine ⟨fun m => ?_, fun d hd => ?_, ?_⟩
  · rw [hG.mem_floor]
    have hb := h.below_iff hP (hs.floor_lt m)
    constructor
    · intro hm d hd
      obtain ⟨t, ht, rfl⟩ := List.mem_map.1 hd
      rw [h.memIrr_iff hs ht]
      exact fun hc => hb.2 ⟨t, ht, hc⟩ hm
    · intro hm
      by_contra hc
      obtain ⟨t, ht, hlt⟩ := hb.1 hc
      exact (h.memIrr_iff hs ht m).1 (hm _ (List.mem_map.2 ⟨t, ht, rfl⟩)) hlt
  · obtain ⟨t, ht, rfl⟩ := List.mem_map.1 hd
    have hfl : ∀ v, floorId e N (fun v => e v (t v - 1)) v = t v - 1 := by
      intro v
      have h1 := h.pos ht v
      have h2 := h.le t ht v
      apply le_antisymm
      · by_contra hc
        have := hs.floor_lt (fun v => e v (t v - 1)) v
        have := hs.floor_le (fun v => e v (t v - 1)) v
        have := hs.mono v (t v - 1) _ (by omega) (hs.floor_lt (fun v => e v (t v - 1)) v)
        omega
      · exact hs.le_floor (by omega) (le_refl _)
    refine ⟨fun v => e v (t v - 1), ?_, fun d' hd' hne => ?_⟩
    · rw [h.memIrr_iff hs ht]
      push Not
      intro v
      rw [hfl]
      have h1 := h.pos ht v
      omega
    · obtain ⟨t', ht', rfl⟩ := List.mem_map.1 hd'
      rw [h.memIrr_iff hs ht']
      intro hc
      apply hne
      have : t = t' := h.eq_of_le ht ht' (Term.le_def.2 fun v => by
        have := hc v
        rw [hfl] at this
        have := h.pos ht v
        omega)
      rw [this]
  · refine List.Nodup.map_on ?_ h.nodup
    intro s hs' t ht he
    exact h.exp_inj hs hs' ht fun v => congrFun he v

/-- The output in the dual: `a + 1 - e` for the exponents other than zero. -/
theorem dual_spec (h : OutSpec N P outs) (hP : PureSpec N M P) (hG : IdSpec e N G M) {a : Term n}
    (ha : ∀ t ∈ outs, ∀ v, e v (t v) ≤ a v) :
    Anti (outs.map fun t v => if e v (t v) = 0 then 0 else a v + 1 - e v (t v)) ∧
      ∀ m, mem (outs.map fun t v => if e v (t v) = 0 then 0 else a v + 1 - e v (t v)) m ↔ ¬ mem G (a - m) := by
  have hs := hG.sys
  constructor
  · unfold Anti
    rw [List.pairwise_map]
    have key : ∀ s ∈ outs, ∀ t ∈ outs, ((fun v => if e v (s v) = 0 then 0 else a v + 1 - e v (s v)) : Term n)
        ≤ (fun v => if e v (t v) = 0 then 0 else a v + 1 - e v (t v)) → s = t := by
      intro s hs' t ht hle
      refine (h.eq_of_le ht hs' (Term.le_def.2 fun v => ?_)).symm
      have h1 := Term.le_def.1 hle v
      have h2 := h.pos hs' v
      have h3 := h.le s hs' v
      have h4 := h.pos ht v
      have h5 := h.le t ht v
      have h6 := hs.pos_iff h2 h3
      have h7 := hs.pos_iff h4 h5
      have h8 := ha s hs' v
      have h9 := ha t ht v
      by_contra hc
      have h10 : s v < N v := by omega
      have h11 := h6.2 h10
      rw [if_neg (by omega)] at h1
      split at h1
      · omega
      · have h12 : t v < N v := h7.1 (by omega)
        have := hs.mono v (s v) (t v) (by omega) h12
        omega
    refine List.Pairwise.imp_of_mem ?_ h.nodup
    intro s t hs' ht hne
    exact ⟨fun hc => hne (key s hs' t ht hc), fun hc => hne (key t ht s hs' hc).symm⟩
  · intro m
    rw [hG.mem_floor, h.below_iff hP (hs.floor_lt _)]
    constructor
    · rintro ⟨d, hd, hle⟩
      obtain ⟨t, ht, rfl⟩ := List.mem_map.1 hd
      refine ⟨t, ht, fun v => ?_⟩
      by_contra hc
      have h1 := (hs.comp_iff (m := a - m) (h.pos ht v) (h.le t ht v)).2 (by omega)
      have h2 := Term.le_def.1 hle v
      simp only [Pi.sub_apply] at h1 h2
      rw [if_neg (by omega)] at h2
      omega
    · rintro ⟨t, ht, hlt⟩
      refine ⟨_, List.mem_map.2 ⟨t, ht, rfl⟩, Term.le_def.2 fun v => ?_⟩
      have h1 := (hs.comp_iff (m := a - m) (h.pos ht v) (h.le t ht v)).not.2 (by have := hlt v; omega)
      simp only [Pi.sub_apply] at h1 ⊢
      split
      · omega
      · omega

end OutSpec

/-! ## maximal standard monomials -/

namespace IdSpec

variable {e : Fin n → ℕ → ℕ} {N : Fin n → ℕ} {G M P : List (Term n)}

theorem lt_of_msm (h : IdSpec e N G M) {u : Term n} (hu : Msm M u) (v : Fin n) : u v + 1 < N v := by
  obtain ⟨g, hg, hle⟩ := hu.2 v
  have h1 := h.lt g hg v
  by_contra hc
  refine hu.1 ⟨g, hg, Term.le_def.2 fun w => ?_⟩
  have h2 := Term.le_def.1 hle w
  by_cases hw : w = v
  · subst hw; omega
  · simpa [hw] using h2

/-- The maximal standard monomials of the input are those of the translated ideal, with each exponent replaced by the
exponent of the next identifier minus one. -/
theorem msm_iff (h : IdSpec e N G M) (m : Term n) :
    Msm G m ↔ ∃ u, Msm M u ∧ ∀ v, m v + 1 = e v (u v + 1) := by
  have hs := h.sys
  constructor
  · intro hm
    have hn : ¬ mem M (floorId e N m) := fun hc => hm.1 ((h.mem_floor m).2 hc)
    have key : ∀ v, mem M (floorId e N m + Term.single v 1) ∧ m v + 1 = e v (floorId e N m v + 1) := by
      intro v
      obtain ⟨g, hg, hle⟩ := (h.mem_floor _).1 (hm.2 v)
      have hw : ∀ w, w ≠ v → floorId e N (m + Term.single v 1) w = floorId e N m w := by
        intro w hw
        unfold floorId
        simp [hw]
      have hv : floorId e N m v < g v := by
        by_contra hc
        refine hn ⟨g, hg, Term.le_def.2 fun w => ?_⟩
        by_cases hwv : w = v
        · subst hwv; omega
        · have := Term.le_def.1 hle w
          rw [hw w hwv] at this; exact this
      have h1 := h.lt g hg v
      have h2 := (hs.le_floor_iff h1).1 (hle v)
      simp only [Pi.add_apply, Term.single_same] at h2
      have h3 : ¬ e v (floorId e N m v + 1) ≤ m v := fun hc => by
        have := hs.le_floor (m := m) (i := floorId e N m v + 1) (by omega) hc
        omega
      have h4 : e v (floorId e N m v + 1) ≤ e v (g v) := hs.mono_le (by omega) h1
      have h5 : m v + 1 = e v (floorId e N m v + 1) := by omega
      refine ⟨⟨g, hg, Term.le_def.2 fun w => ?_⟩, h5⟩
      by_cases hwv : w = v
      · subst hwv
        simp only [Pi.add_apply, Term.single_same]
        by_contra hc
        have := hs.mono w (floorId e N m w + 1) (g w) (by omega) h1
        omega
      · have := Term.le_def.1 hle w
        rw [hw w hwv] at this
        simpa [hwv] using this
    exact ⟨floorId e N m, ⟨hn, fun v => (key v).1⟩, fun v => (key v).2⟩
  · rintro ⟨u, hu, hm⟩
    have hlt := h.lt_of_msm hu
    have hf : ∀ x : Term n, ∀ v i, i + 1 < N v → e v i ≤ x v → x v < e v (i + 1) → floorId e N x v = i := by
      intro x v i hi h1 h2
      apply le_antisymm
      · by_contra hc
        have h3 := hs.floor_le x v
        have h4 : e v (i + 1) ≤ e v (floorId e N x v) := hs.mono_le (by omega) (hs.floor_lt x v)
        omega
      · exact hs.le_floor (by omega) h1
    have hfl : floorId e N m = u := by
      funext v
      have h1 := hm v
      have h2 := hs.mono v (u v) (u v + 1) (by omega) (hlt v)
      exact hf m v (u v) (hlt v) (by omega) (by omega)
    refine ⟨fun hc => hu.1 (hfl ▸ (h.mem_floor m).1 hc), fun v => (h.mem_floor _).2 ?_⟩
    refine mem_of_le (hu.2 v) (Term.le_def.2 fun w => ?_)
    by_cases hw : w = v
    · subst hw
      simp only [Pi.add_apply, Term.single_same]
      refine hs.le_floor (hlt w) ?_
      simp only [Pi.add_apply, Term.single_same]
      have := hm w; omega
    · have : floorId e N (m + Term.single v 1) w = floorId e N m w := by
        unfold floorId; simp [hw]
      rw [this, hfl]; simp [hw]

end IdSpec

/-! ## the facade -/

/-- The algorithm with pure powers at infinity. -/
theorem encoded_outs_of {o : Opts} (ho : o.valid .msm) (rnd : List ℕ → ℕ → ℕ) {G M : List (Term n)} (hG : IdSpec (tExp G) (tNum G) G M) :
    ∃ outs, msmRun o rnd ((Translator.ofGens G).addPurePowers M) = some outs ∧
      PureSpec (tNum G) M ((Translator.ofGens G).addPurePowers M) ∧ OutSpec (tNum G) ((Translator.ofGens G).addPurePowers M) outs := by
  have hN : (Translator.ofGens G).maxId = tNum G := funext (ofGens_maxId G)
  have hP := addPurePowers_spec (Translator.ofGens G) hG.anti (by rw [hN]; exact hG.lt) (by rw [hN]; exact hG.sys.pos)
  rw [hN] at hP
  have h1 : n = 1 → ∀ g ∈ (Translator.ofGens G).addPurePowers M, ∀ v, g v ≤ 1 := by
    intro hn g hg v
    rcases hP.mem_of g hg with hg' | ⟨w, rfl⟩
    · exact hG.one_var (ofGens_used G) hn g hg' v
    · have hw : w = v := by subst hn; exact Subsingleton.elim _ _
      subst hw
      rw [Term.single_same]
      -- the pure power was added, so no generator is there and zero is the only exponent
      by_contra hc
      obtain ⟨g', hg', he⟩ := ofGens_used G w 1 (by omega) (by omega)
      obtain ⟨k, hk, hke⟩ := hG.complete g' hg'
      have hkP := hP.subset k hk
      have huniq : ∀ w' : Fin n, w' = w := fun w' => by subst hn; exact Subsingleton.elim _ _
      have hle : k ≤ Term.single w (tNum G w) := Term.le_def.2 fun w' => by
        rw [huniq w', Term.single_same]; exact (hG.lt k hk w).le
      have := hP.anti.eq_of_le hkP hg hle
      have h3 := hG.lt k hk w
      rw [this, Term.single_same] at h3
      omega
  obtain ⟨outs, h2, h3, h4⟩ := msmRun_spec ho rnd hP.anti h1
  refine ⟨outs, h2, hP, h3, h4, fun t ht v => ?_⟩
  have := hP.lt_of_not_mem ((h4 t).1 ht).2.1 v
  omega

theorem encoded_outs {o : Opts} (ho : o.valid .msm) (rnd : List ℕ → ℕ → ℕ) (G : List (Term n)) :
    ∃ outs, msmRun o rnd ((Translator.ofGens G).addPurePowers (setIdeal G).2) = some outs ∧
      PureSpec (tNum G) (setIdeal G).2 ((Translator.ofGens G).addPurePowers (setIdeal G).2) ∧
      OutSpec (tNum G) ((Translator.ofGens G).addPurePowers (setIdeal G).2) outs := encoded_outs_of ho rnd (setIdeal_spec G)

theorem facadeIrrDecom_spec {o : Opts} (ho : o.valid .msm) (rnd : List ℕ → ℕ → ℕ) (G : List (Term n)) :
    ∃ D : List (Term n), facadeIrrDecom o rnd G = some (D.map toInt) ∧ IsIrrDecomp D G := by
  obtain ⟨outs, h1, hP, h2⟩ := encoded_outs ho rnd G
  refine ⟨outs.map fun t v => tExp G v (t v), ?_, h2.irrDecomp hP (setIdeal_spec G)⟩
  unfold facadeIrrDecom encodedIrrDecom runMsmTranslated
  have hT : (setIdeal G).1 = Translator.ofGens G := rfl
  rw [hT, h1]
  simp only
  rw [mapM_some _ (fun t v => (tExp G v (t v) : ℤ)) outs fun (t : Term n) ht => translate_ofGens G (t := t) (h2.le t ht), List.map_map]
  rfl

theorem msm_outs_of {o : Opts} (ho : o.valid .msm) (rnd : List ℕ → ℕ → ℕ) {G M : List (Term n)} (hG : IdSpec (tExp G) (tNum G) G M) :
    ∃ outs : List (Term n), msmRun o rnd M = some outs ∧ (∀ t ∈ outs, ∀ v, 0 < t v ∧ t v < tNum G v) ∧
      (∀ t ∈ outs, ∀ v, 0 < tExp G v (t v)) ∧ (outs.map fun t v => tExp G v (t v) - 1).Nodup ∧
      ∀ m, (m ∈ outs.map fun t v => tExp G v (t v) - 1) ↔ Msm G m := by
  obtain ⟨outs, h2, h3, h4⟩ := msmRun_spec ho rnd hG.anti (hG.one_var (ofGens_used G))
  have hlt : ∀ t ∈ outs, ∀ v, 0 < t v ∧ t v < tNum G v := by
    intro t ht v
    have h5 := (h4 t).1 ht
    have := h5.1 v
    have := hG.lt_of_msm h5.2 v
    omega
  have hpos : ∀ t ∈ outs, ∀ v, 0 < tExp G v (t v) := fun t ht v =>
    (hG.sys.pos_iff (hlt t ht v).1 (hlt t ht v).2.le).2 (hlt t ht v).2
  refine ⟨outs, h2, hlt, hpos, ?_, fun m => ?_⟩
  · refine List.Nodup.map_on ?_ h3
    intro s hs t ht he
    funext v
    have h5 := congrFun he v
    have h6 := hpos s hs v
    have h7 := hpos t ht v
    exact hG.sys.inj (hlt s hs v).1 (hlt s hs v).2.le (hlt t ht v).1 (hlt t ht v).2.le (by omega)
  · rw [hG.msm_iff]
    constructor
    · intro hm
      obtain ⟨t, ht, rfl⟩ := List.mem_map.1 hm
      refine ⟨_, ((h4 t).1 ht).2, fun v => ?_⟩
      have h6 := hpos t ht v
      have h7 := (hlt t ht v).1
      have h8 : t v - 1 + 1 = t v := by omega
      simp only [h8]
      omega
    · rintro ⟨u, hu, hm⟩
      refine List.mem_map.2 ⟨fun v => u v + 1, (h4 _).2 ⟨fun v => by omega, by simpa using hu⟩, ?_⟩
      funext v
      have := hm v
      simp only
      omega

theorem facadeMsm_spec {o : Opts} (ho : o.valid .msm) (rnd : List ℕ → ℕ → ℕ) (G : List (Term n)) :
    ∃ D : List (Term n), facadeMsm o rnd G = some (D.map toInt) ∧ D.Nodup ∧ ∀ m, m ∈ D ↔ Msm G m := by
  obtain ⟨outs, h2, hlt, hpos, h3, h4⟩ := msm_outs_of ho rnd (setIdeal_spec G)
  refine ⟨outs.map fun t v => tExp G v (t v) - 1, ?_, h3, h4⟩
  unfold facadeMsm runMsmTranslated
  have hT : (setIdeal G).1 = Translator.ofGens G := rfl
  rw [hT, h2]
  simp only
  rw [mapM_some _ (fun t v => (tExp G v (t v) : ℤ) - 1) outs fun t ht =>
    translate_decrement G (t := t) fun v => (hlt t ht v).2.le, List.map_map]
  congr 1
  refine List.map_congr_left fun t ht => ?_
  funext v
  have := hpos t ht v
  simp only [Function.comp, toInt]
  omega

/-- The dual is an error exactly when the point is not divisible by the least common multiple of the minimal
generators. -/
theorem facadeDual_error {o : Opts} (rnd : List ℕ → ℕ → ℕ) (G : List (Term n)) (a : Fin n → ℤ)
    {K : List (Term n)} (hK : MinGens K G) (ha : ∃ v, a v < lcmOf K v) : facadeDual o rnd G a = .error := by
  have hG := setIdeal_spec G
  unfold facadeDual
  have hT : (setIdeal G).1 = Translator.ofGens G := rfl
  rw [hT, translate_ofGens G fun v => (hG.lcm_le v).le]
  simp only [hG.lcm_exp hK]
  rw [if_pos ha]

theorem dual_outs_of {o : Opts} (ho : o.valid .msm) (rnd : List ℕ → ℕ → ℕ) {G M : List (Term n)} (hG : IdSpec (tExp G) (tNum G) G M) (a : Term n)
    {K : List (Term n)} (hK : MinGens K G) (ha : ∀ g ∈ K, g ≤ a) :
    ∃ outs, msmRun o rnd ((Translator.ofGens G).addPurePowers M) = some outs ∧ (∀ v, tExp G v (lcmOf M v) ≤ a v) ∧
      (∀ t ∈ outs, ∀ v, t v ≤ tNum G v) ∧ (∀ t ∈ outs, ∀ v, tExp G v (t v) ≤ a v) ∧
      Anti (outs.map fun t v => if tExp G v (t v) = 0 then 0 else a v + 1 - tExp G v (t v)) ∧
      ∀ m, mem (outs.map fun t v => if tExp G v (t v) = 0 then 0 else a v + 1 - tExp G v (t v)) m ↔ ¬ mem G (a - m) := by
  have hle : ∀ v, tExp G v (lcmOf M v) ≤ a v := fun v => by
    rw [hG.lcm_exp hK]; exact lcmOf_le ha v
  obtain ⟨outs, h1, hP, h2⟩ := encoded_outs_of ho rnd hG
  have hb : ∀ t ∈ outs, ∀ v, tExp G v (t v) ≤ a v := by
    intro t ht v
    rcases Nat.lt_or_eq_of_le (h2.le t ht v) with h3 | h3
    · -- the exponent occurs in a minimal generator
      refine le_trans ?_ (hle v)
      obtain ⟨g, hg, hgl⟩ := ((h2.mem_iff t).1 ht).2.2 v
      have h4 : t v ≤ g v := by
        by_contra hc
        refine ((h2.mem_iff t).1 ht).2.1 ⟨g, hg, Term.le_def.2 fun w => ?_⟩
        have h5 := Term.le_def.1 hgl w
        by_cases hw : w = v
        · subst hw; show g w ≤ t w - 1; omega
        · simpa [hw] using h5
      have h5 := Term.le_def.1 hgl v
      simp only [Pi.add_apply, Term.single_same] at h5
      have h6 := h2.pos ht v
      rcases hP.mem_of g hg with hgM | ⟨w, rfl⟩
      · exact hG.sys.mono_le (h4.trans (le_lcmOf hgM v)) (hG.lcm_le v)
      · exfalso
        by_cases hw : v = w
        · subst hw; rw [Term.single_same] at h5; omega
        · rw [Term.single_ne _ hw] at h4; omega
    · rw [h3, hG.sys.top]; omega
  obtain ⟨h3, h4⟩ := h2.dual_spec hP hG hb
  exact ⟨outs, h1, hle, h2.le, hb, h3, h4⟩

theorem facadeDual_ok {o : Opts} (ho : o.valid .msm) (rnd : List ℕ → ℕ → ℕ) (G : List (Term n)) (a : Term n)
    {K : List (Term n)} (hK : MinGens K G) (ha : ∀ g ∈ K, g ≤ a) :
    ∃ D : List (Term n), facadeDual o rnd G (toInt a) = .ok (D.map toInt) ∧ Anti D ∧ (∀ m, mem D m ↔ ¬ mem G (a - m)) ∧
      ∀ d ∈ D, d ≤ a := by
  obtain ⟨outs, h1, hle, h2, hb, h3, h4⟩ := dual_outs_of ho rnd (setIdeal_spec G) a hK ha
  refine ⟨_, ?_, h3, h4, fun d hd => ?_⟩
  · unfold facadeDual
    have hT : (setIdeal G).1 = Translator.ofGens G := rfl
    rw [hT, translate_ofGens G fun v => ((setIdeal_spec G).lcm_le v).le]
    simp only
    rw [if_neg (by push Not; intro v; have := hle v; simp only [toInt]; omega)]
    unfold encodedIrrDecom runMsmTranslated
    rw [h1]
    simp only
    rw [mapM_some _ _ outs fun t ht => translate_dualize G (toInt a) (h2 t ht), List.map_map]
    simp only [Outcome.ofOption]
    congr 1
    refine List.map_congr_left fun t ht => ?_
    funext v
    have := hb t ht v
    simp only [Function.comp, toInt]
    by_cases h0 : tExp G v (t v) = 0
    · simp [h0]
    · simp only [h0, ne_eq, not_false_eq_true, if_true, if_false]
      omega
  · obtain ⟨t, ht, rfl⟩ := List.mem_map.1 hd
    refine Term.le_def.2 fun v => ?_
    split
    · omega
    · omega

end Frobby

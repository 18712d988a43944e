import Verif.IrrLemmas
import Mathlib.Data.List.TakeWhile

/-!
# Primary decomposition: what `SliceFacade::computePrimaryDecomposition` computes

Every run of consecutive components with the same support (after sorting) becomes one primary component.
-/

namespace Frobby

variable {n : ℕ}

/-- The runs of consecutive terms with the same support. -/
def supportRuns : List (Term n) → List (List (Term n))
  | [] => []
  | t :: ts => (t :: sameSupportPrefix t ts) :: supportRuns (ts.drop (sameSupportPrefix t ts).length)
termination_by ts => ts.length
decreasing_by simp

theorem prefix_append_drop (t : Term n) (ts : List (Term n)) :
    sameSupportPrefix t ts ++ ts.drop (sameSupportPrefix t ts).length = ts := by
  unfold sameSupportPrefix
  conv_rhs => rw [← List.takeWhile_append_dropWhile (p := fun s => hasSameSupport t s) (l := ts)]
  congr 1
  have := List.takeWhile_append_dropWhile (p := fun s => hasSameSupport t s) (l := ts)
  have h2 := congrArg (List.drop (List.takeWhile (fun s => hasSameSupport t s) ts).length) this
  rw [List.drop_left] at h2
  exact h2.symm

theorem supportRuns_flatten (ts : List (Term n)) : (supportRuns ts).flatten = ts := by
  induction ts using supportRuns.induct with
  | case1 => simp [supportRuns]
  | case2 t ts ih =>
    rw [supportRuns, List.flatten_cons, ih, List.cons_append, prefix_append_drop]

theorem supportRuns_same (ts : List (Term n)) :
    ∀ g ∈ supportRuns ts, g ≠ [] ∧ ∀ a ∈ g, ∀ b ∈ g, ∀ v, a v = 0 ↔ b v = 0 := by
  induction ts using supportRuns.induct with
  | case1 => simp [supportRuns]
  | case2 t ts ih =>
    rw [supportRuns]
    intro g hg
    rcases List.mem_cons.1 hg with rfl | hg
    · refine ⟨by simp, ?_⟩
      have h1 : ∀ a ∈ t :: sameSupportPrefix t ts, ∀ v, t v = 0 ↔ a v = 0 := by
        intro a ha
        rcases List.mem_cons.1 ha with rfl | ha
        · exact fun _ => Iff.rfl
        · have := List.mem_takeWhile_imp ha
          simpa [hasSameSupport] using this
      exact fun a ha b hb v => (h1 a ha v).symm.trans (h1 b hb v)
    · exact ih g hg

theorem primaryLoop_eq (o : Opts) (rnd : List ℕ → ℕ → ℕ) (T : Translator n) (lcm : Term n) (f : List (Term n) → List (Term n))
    (ts : List (Term n)) (h : ∀ g ∈ supportRuns ts, primaryComponent o rnd T lcm g = some (f g)) :
    primaryLoop o rnd T lcm ts = some ((supportRuns ts).map f) := by
  induction ts using supportRuns.induct with
  | case1 => simp [primaryLoop, supportRuns]
  | case2 t ts ih =>
    rw [supportRuns] at h ⊢
    rw [primaryLoop, h _ (by simp)]
    simp only
    rw [ih fun g hg => h g (by simp [hg])]
    simp

/-! ## one component -/

/-- exponents of the identifiers themselves -/
def eId (N : Fin n → ℕ) (v : Fin n) (i : ℕ) : ℕ := if i = N v then 0 else i

theorem eId_sys {N : Fin n → ℕ} (hN : ∀ v, 0 < N v) : IdSys (eId N) N where
  pos := hN
  zero v := by unfold eId; split <;> rfl
  mono v i j hij hj := by
    unfold eId
    rw [if_neg (by omega), if_neg (by omega)]; exact hij
  top v := by simp [eId]

theorem OutSpec.le_bound {N : Fin n → ℕ} {M P outs : List (Term n)} (h : OutSpec N P outs) (hP : PureSpec N M P)
    {l : Term n} (hl : ∀ g ∈ M, g ≤ l) {t : Term n} (ht : t ∈ outs) (v : Fin n) : t v = N v ∨ t v ≤ l v := by
  obtain ⟨g, hg, hgl⟩ := ((h.mem_iff t).1 ht).2.2 v
  have h4 : t v ≤ g v := by
    by_contra hc
    refine ((h.mem_iff t).1 ht).2.1 ⟨g, hg, Term.le_def.2 fun w => ?_⟩
    have h5 := Term.le_def.1 hgl w
    by_cases hw : w = v
    · subst hw; show g w ≤ t w - 1; omega
    · simpa [hw] using h5
  have h6 := h.pos ht v
  rcases hP.mem_of g hg with hgM | ⟨w, rfl⟩
  · exact Or.inr (h4.trans (hl g hgM v))
  · by_cases hw : v = w
    · subst hw
      have h5 := Term.le_def.1 hgl v
      simp only [Pi.add_apply, Term.single_same] at h5
      have := h.le t ht v
      omega
    · rw [Term.single_ne _ hw] at h4; omega

theorem primaryComponent_spec {o : Opts} (ho : o.valid .msm) (rnd : List ℕ → ℕ → ℕ) (T : Translator n) {lcm : Term n}
    (hlcm : ∀ v, lcm v < T.maxId v) (h1 : n = 1 → ∀ v, lcm v ≤ 1) {group : List (Term n)} (hne : group ≠ [])
    (hle : ∀ d ∈ group, d ≤ lcm) (hsupp : ∀ a ∈ group, ∀ b ∈ group, ∀ v, a v = 0 ↔ b v = 0)
    (hnd : group.Nodup) (hirr : ∀ a ∈ group, ∀ b ∈ group, irrLe a b → a = b) :
    ∃ C, primaryComponent o rnd T lcm group = some C ∧ Anti C ∧ (∀ m, mem C m ↔ ∀ d ∈ group, memIrr d m) ∧
      ∀ c ∈ C, c ≤ lcm := by
  set N := T.maxId with hN
  have hNpos : ∀ v, 0 < N v := fun v => by have := hlcm v; omega
  set M := group.map fun t => encodedDual t lcm with hM
  have hMle : ∀ g ∈ M, g ≤ lcm := by
    intro g hg
    obtain ⟨d, hd, rfl⟩ := List.mem_map.1 hg
    refine Term.le_def.2 fun v => ?_
    have := Term.le_def.1 (hle d hd) v
    unfold encodedDual
    split <;> omega
  have hMlt : ∀ g ∈ M, ∀ v, g v < N v := fun g hg v => lt_of_le_of_lt (hMle g hg v) (hlcm v)
  have hMinj : ∀ a ∈ group, ∀ b ∈ group, encodedDual a lcm ≤ encodedDual b lcm → a = b := by
    intro a ha b hb hab
    refine hirr a ha b hb fun i hi => ?_
    have h2 := hsupp a ha b hb i
    have h3 := Term.le_def.1 hab i
    have h4 := Term.le_def.1 (hle a ha) i
    have h5 := Term.le_def.1 (hle b hb) i
    unfold encodedDual at h3
    rw [if_pos (by omega), if_pos (by omega)] at h3
    omega
  have hMa : Anti M := by
    unfold Anti
    rw [hM, List.pairwise_map]
    refine List.Pairwise.imp_of_mem ?_ hnd
    intro a b ha hb hab
    exact ⟨fun hc => hab (hMinj a ha b hb hc), fun hc => hab (hMinj b hb a ha hc).symm⟩
  have hP := addPurePowers_spec T hMa hMlt hNpos
  rw [← hN] at hP
  have hP1 : n = 1 → ∀ g ∈ T.addPurePowers M, ∀ v, g v ≤ 1 := by
    intro hn g hg v
    rcases hP.mem_of g hg with hgM | ⟨w, rfl⟩
    · exact (hMle g hgM v).trans (h1 hn v)
    · exfalso
      obtain ⟨d, hd⟩ := List.exists_mem_of_ne_nil _ hne
      have hdM : encodedDual d lcm ∈ M := List.mem_map.2 ⟨d, hd, rfl⟩
      have hle2 : encodedDual d lcm ≤ Term.single w (N w) := Term.le_def.2 fun w' => by
        have : w' = w := by subst hn; exact Subsingleton.elim _ _
        subst this
        rw [Term.single_same]
        exact (hMlt _ hdM _).le
      have h3 := hP.anti.eq_of_le (hP.subset _ hdM) hg hle2
      have h4 := hMlt _ hdM w
      rw [h3, Term.single_same] at h4
      omega
  obtain ⟨outs, h2, h3, h4⟩ := msmRun_spec ho rnd hP.anti hP1
  have hO : OutSpec N (T.addPurePowers M) outs := ⟨h3, h4, fun t ht v => by
    have := hP.lt_of_not_mem ((h4 t).1 ht).2.1 v
    omega⟩
  have hG : IdSpec (eId N) N M M := by
    have he : ∀ g ∈ M, ∀ v, eId N v (g v) = g v := fun g hg v => by
      unfold eId; rw [if_neg (by have := hMlt g hg v; omega)]
    refine ⟨eId_sys hNpos, hMa, hMlt, fun g hg => ?_, fun g hg => ⟨g, hg, fun v => (he g hg v).le⟩⟩
    rw [funext (he g hg)]; exact hg
  have hb : ∀ t ∈ outs, ∀ v, eId N v (t v) ≤ lcm v := by
    intro t ht v
    unfold eId
    rcases hO.le_bound hP hMle ht v with h | h
    · rw [if_pos h]; omega
    · split <;> omega
  obtain ⟨h5, h6⟩ := hO.dual_spec hP hG hb
  have heq : (T.infinityToZero outs).map (fun t => encodedDual t lcm) =
      outs.map fun t v => if eId N v (t v) = 0 then 0 else lcm v + 1 - eId N v (t v) := by
    unfold Translator.infinityToZero
    rw [List.map_map]
    refine List.map_congr_left fun t ht => ?_
    funext v
    have := hb t ht v
    have h7 : (if t v = T.maxId v then 0 else t v) = eId N v (t v) := rfl
    simp only [Function.comp, encodedDual, h7]
    by_cases h8 : eId N v (t v) = 0
    · simp [h8]
    · simp only [h8, ne_eq, not_false_eq_true, if_true, if_false]; omega
  refine ⟨(T.infinityToZero outs).map (fun t => encodedDual t lcm), ?_, ?_, fun m => ?_, fun c hc => ?_⟩
  · unfold primaryComponent
    rw [← hM, h2]; rfl
  · rw [heq]; exact h5
  · rw [heq, h6]
    constructor
    · intro hm d hd
      by_contra hc
      refine hm ⟨_, List.mem_map.2 ⟨d, hd, rfl⟩, Term.le_def.2 fun v => ?_⟩
      unfold memIrr at hc
      push Not at hc
      have h7 := hc v
      have h8 := Term.le_def.1 (hle d hd) v
      simp only [encodedDual, Pi.sub_apply]
      split
      · have := h7 (by omega); omega
      · omega
    · rintro hm ⟨g, hg, hgl⟩
      obtain ⟨d, hd, rfl⟩ := List.mem_map.1 hg
      obtain ⟨v, h7, h8⟩ := hm d hd
      have h9 := Term.le_def.1 hgl v
      have h10 := Term.le_def.1 (hle d hd) v
      simp only [encodedDual, Pi.sub_apply] at h9
      rw [if_pos (by omega)] at h9
      omega
  · rw [heq] at hc
    obtain ⟨t, ht, rfl⟩ := List.mem_map.1 hc
    refine Term.le_def.2 fun v => ?_
    have := hb t ht v
    split <;> omega

/-! ## the whole computation -/

theorem sortReverseLex_perm (G : List (Term n)) : (sortReverseLex G).Perm G := List.perm_insertionSort _ _

/-- The components as identifiers, with the powers at infinity set to zero: their exponents are the irreducible
decomposition. -/
structure CompSpec (G ds : List (Term n)) : Prop where
  lt : ∀ d ∈ ds, ∀ v, d v < tNum G v
  irr : IsIrrDecomp (ds.map fun d v => tExp G v (d v)) G

theorem CompSpec.perm {G ds ds' : List (Term n)} (h : CompSpec G ds) (hp : ds'.Perm ds) : CompSpec G ds' := by
  refine ⟨fun d hd => h.lt d (hp.mem_iff.1 hd), fun m => ?_, fun d hd => ?_, ?_⟩
  · rw [h.irr.inter]
    exact ⟨fun h' d hd => h' d ((hp.map _).mem_iff.1 hd), fun h' d hd => h' d ((hp.map _).mem_iff.2 hd)⟩
  · obtain ⟨m, h1, h2⟩ := h.irr.irredundant d ((hp.map _).mem_iff.1 hd)
    exact ⟨m, h1, fun d' hd' hne => h2 d' ((hp.map _).mem_iff.1 hd') hne⟩
  · exact (hp.map _).nodup_iff.2 h.irr.nodup

theorem infinity_exp (G : List (Term n)) (t : Term n) (v : Fin n) :
    tExp G v (if t v = (Translator.ofGens G).maxId v then 0 else t v) = tExp G v (t v) := by
  split
  · rename_i h
    rw [h, ofGens_maxId, (tSys G).top, (tSys G).zero]
  · rfl

theorem compSpec_of_outs {G M outs : List (Term n)} (hG : IdSpec (tExp G) (tNum G) G M)
    (hP : PureSpec (tNum G) M ((Translator.ofGens G).addPurePowers M))
    (h : OutSpec (tNum G) ((Translator.ofGens G).addPurePowers M) outs) :
    CompSpec G ((Translator.ofGens G).infinityToZero outs) := by
  constructor
  · intro d hd v
    obtain ⟨t, ht, rfl⟩ := List.mem_map.1 hd
    have h1 := h.le t ht v
    have h2 := (tSys G).pos v
    simp only [ofGens_maxId]
    split <;> omega
  · have h1 := h.irrDecomp hP hG
    have h2 : ((Translator.ofGens G).infinityToZero outs).map (fun d v => tExp G v (d v)) =
        outs.map fun t v => tExp G v (t v) := by
      unfold Translator.infinityToZero
      rw [List.map_map]
      refine List.map_congr_left fun t _ => ?_
      funext v
      exact infinity_exp G t v
    rw [h2]; exact h1

theorem CompSpec.pos_iff {G ds : List (Term n)} (h : CompSpec G ds) {d : Term n} (hd : d ∈ ds) (v : Fin n) :
    0 < tExp G v (d v) ↔ 0 < d v := by
  constructor
  · intro h1
    by_contra hc
    have : d v = 0 := by omega
    rw [this, (tSys G).zero] at h1; omega
  · intro h1
    have := (tSys G).mono v 0 (d v) h1 (h.lt d hd v)
    omega

theorem CompSpec.memIrr_iff {G ds : List (Term n)} (h : CompSpec G ds) {d : Term n} (hd : d ∈ ds) (m : Term n) :
    memIrr (fun v => tExp G v (d v)) m ↔ memIrr d (floorId (tExp G) (tNum G) m) := by
  unfold memIrr
  refine exists_congr fun v => ?_
  rw [h.pos_iff hd, (tSys G).le_floor_iff (h.lt d hd v)]

theorem CompSpec.eq_of_irrLe {G ds : List (Term n)} (h : CompSpec G ds) {a b : Term n} (ha : a ∈ ds) (hb : b ∈ ds)
    (hab : irrLe a b) : a = b := by
  have h1 : (fun v => tExp G v (a v)) = fun v => tExp G v (b v) := by
    refine h.irr.eq_of_irrLe (List.mem_map.2 ⟨a, ha, rfl⟩) (List.mem_map.2 ⟨b, hb, rfl⟩) fun v hv => ?_
    obtain ⟨h2, h3⟩ := hab v ((h.pos_iff ha v).1 hv)
    exact ⟨(h.pos_iff hb v).2 h2, (tSys G).mono_le h3 (h.lt a ha v)⟩
  funext v
  have h2 := congrFun h1 v
  rcases Nat.lt_trichotomy (a v) (b v) with h3 | h3 | h3
  · have := (tSys G).mono v _ _ h3 (h.lt b hb v); omega
  · exact h3
  · have := (tSys G).mono v _ _ h3 (h.lt a ha v); omega

/-- The primary components, in terms of the runs of the sorted components. -/
theorem primary_outs_of {o : Opts} (ho : o.valid .msm) (rnd : List ℕ → ℕ → ℕ) {G M : List (Term n)} (hG : IdSpec (tExp G) (tNum G) G M) :
    ∃ (outs ds : List (Term n)) (C : List (Term n) → List (Term n)), msmRun o rnd ((Translator.ofGens G).addPurePowers M) = some outs ∧
      sortReverseLex ((Translator.ofGens G).infinityToZero outs) = ds ∧ CompSpec G ds ∧ ds = sortReverseLex ds ∧
      primaryLoop o rnd (Translator.ofGens G) (lcmOf ds) ds = some ((supportRuns ds).map C) ∧
      ∀ g ∈ supportRuns ds, (∀ c ∈ C g, ∀ v, c v < tNum G v) ∧ Anti ((C g).map fun c v => tExp G v (c v)) ∧
        ∀ m, mem ((C g).map fun c v => tExp G v (c v)) m ↔ ∀ d ∈ g, memIrr (fun v => tExp G v (d v)) m := by
  obtain ⟨outs, h1, hP, h2⟩ := encoded_outs_of ho rnd hG
  have hc0 := compSpec_of_outs hG hP h2
  set ds := sortReverseLex ((Translator.ofGens G).infinityToZero outs) with hds
  have hc : CompSpec G ds := hc0.perm (sortReverseLex_perm _)
  have hsub : ∀ g ∈ supportRuns ds, ∀ d ∈ g, d ∈ ds := by
    intro g hg d hd
    rw [← supportRuns_flatten ds]
    exact List.mem_flatten.2 ⟨g, hg, hd⟩
  have hlcm : ∀ v, lcmOf ds v < (Translator.ofGens G).maxId v := by
    intro v
    rw [ofGens_maxId]
    rcases Nat.eq_zero_or_pos (lcmOf ds v) with h0 | h0
    · rw [h0]; exact (tSys G).pos v
    · obtain ⟨g, hg, h3⟩ := lcmOf_attained h0
      rw [← h3]; exact hc.lt g hg v
  have hone : n = 1 → ∀ v, lcmOf ds v ≤ 1 := by
    intro hn v
    rcases Nat.eq_zero_or_pos (lcmOf ds v) with h0 | h0
    · omega
    · obtain ⟨d, hd, h3⟩ := lcmOf_attained h0
      rw [← h3]
      -- the identifier comes from an output, which comes from a generator of exponent at most one
      by_contra hcon
      have huniq : ∀ w : Fin n, w = v := fun w => by subst hn; exact Subsingleton.elim _ _
      have h4 := hG.one_var (ofGens_used G) hn
      have h5 : ¬ mem G (fun w => tExp G w 1) := by
        rw [hc.irr.inter]
        intro hm
        obtain ⟨w, h6, h7⟩ := hm _ (List.mem_map.2 ⟨d, hd, rfl⟩)
        have hw := huniq w
        subst hw
        have := (tSys G).mono w 1 (d w) (by omega) (hc.lt d hd w)
        simp only at h7
        omega
      obtain ⟨g, hg, h6⟩ := ofGens_used G v 1 (by omega) (by have := hc.lt d hd v; omega)
      exact h5 ⟨g, hg, Term.le_def.2 fun w => by rw [huniq w, h6]⟩
  have hcomp : ∀ g ∈ supportRuns ds, ∃ C, primaryComponent o rnd (Translator.ofGens G) (lcmOf ds) g = some C ∧
      Anti C ∧ (∀ m, mem C m ↔ ∀ d ∈ g, memIrr d m) ∧ ∀ c ∈ C, c ≤ lcmOf ds := by
    intro g hg
    obtain ⟨h3, h4⟩ := supportRuns_same ds g hg
    refine primaryComponent_spec ho rnd _ hlcm hone h3 (fun d hd => le_lcmOf (hsub g hg d hd)) h4 ?_ ?_
    · have h5 : ds.Nodup := List.Nodup.of_map _ hc.irr.nodup
      rw [← supportRuns_flatten ds] at h5
      exact (List.nodup_flatten.1 h5).1 g hg
    · exact fun a ha b hb hab => hc.eq_of_irrLe (hsub g hg a ha) (hsub g hg b hb) hab
  choose! C hC using hcomp
  refine ⟨outs, ds, C, h1, hds.symm, hc, ?_, primaryLoop_eq o rnd _ _ C ds fun g hg => (hC g hg).1, fun g hg => ?_⟩
  · rw [hds]
    exact (List.Pairwise.insertionSort_eq (List.pairwise_insertionSort _ _)).symm
  · obtain ⟨_, h3, h4, h5⟩ := hC g hg
    have hlt : ∀ c ∈ C g, ∀ v, c v < tNum G v := fun c hc' v => by
      have h6 := Term.le_def.1 (h5 c hc') v
      have h7 := hlcm v
      rw [ofGens_maxId] at h7
      omega
    have hI : IdSpec (tExp G) (tNum G) ((C g).map fun c v => tExp G v (c v)) (C g) :=
      ⟨tSys G, h3, hlt, fun c hc' => List.mem_map.2 ⟨c, hc', rfl⟩, fun c hc' => by
        obtain ⟨c', hc'', rfl⟩ := List.mem_map.1 hc'
        exact ⟨c', hc'', fun v => le_refl _⟩⟩
    refine ⟨hlt, hI.minGens.anti, fun m => ?_⟩
    rw [hI.mem_floor, h4]
    exact forall₂_congr fun d hd => (hc.memIrr_iff (hsub g hg d hd) m).symm

/-- What `computePrimaryDecomposition` emits, in terms of the runs of the sorted components. -/
theorem facadePrimary_runs {o : Opts} (ho : o.valid .msm) (rnd : List ℕ → ℕ → ℕ) (G : List (Term n)) :
    ∃ ds : List (Term n), CompSpec G ds ∧ ds = sortReverseLex ds ∧ ∃ f : List (Term n) → List (Term n),
      facadePrimaryDecomposition o rnd G = some ((supportRuns ds).map fun g => (f g).map toInt) ∧
      ∀ g ∈ supportRuns ds, Anti (f g) ∧ ∀ m, mem (f g) m ↔ ∀ d ∈ g, memIrr (fun v => tExp G v (d v)) m := by
  obtain ⟨outs, ds, C, h1, h2, hc, hs, h3, h4⟩ := primary_outs_of ho rnd (setIdeal_spec G)
  refine ⟨ds, hc, hs, fun g => (C g).map fun c v => tExp G v (c v), ?_, fun g hg => (h4 g hg).2⟩
  unfold facadePrimaryDecomposition
  have hT : (setIdeal G).1 = Translator.ofGens G := rfl
  rw [hT, h1]
  simp only
  rw [h2, h3]
  simp only
  rw [mapM_some _ (fun c => c.map fun t v => (tExp G v (t v) : ℤ)), List.map_map]
  · congr 1
    refine List.map_congr_left fun g _ => ?_
    simp only [Function.comp, List.map_map]
    rfl
  · intro c hc'
    obtain ⟨g, hg, rfl⟩ := List.mem_map.1 hc'
    exact mapM_some _ _ _ fun t ht => translate_ofGens G fun v => ((h4 g hg).1 t ht v).le

end Frobby

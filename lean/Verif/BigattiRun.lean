import Verif.BigattiScarf
import Verif.ColonLemmas
import Mathlib.Algebra.BigOperators.Fin

/-!
# The algorithm of Bigatti et al. terminates with the Hilbert-Poincaré series
-/

namespace Frobby

open Term

variable {n : ℕ}

/-- What holds for every state. -/
structure BInv (L : Term n) (s : BState n) : Prop where
  anti : Anti s.ideal
  le : s.multiply + lcmOf s.ideal ≤ L

theorem contrib_perm {m x : Term n} {J H : List (Term n)} (h : H.Perm J) : contrib ⟨m, H⟩ x = contrib ⟨m, J⟩ x := by
  unfold contrib mem
  simp only [h.mem_iff]

theorem contrib_colon {s : BState n} (hs : Anti s.ideal) (p x : Term n) :
    contrib (s.colonStep p) x = if s.multiply + p ≤ x ∧ ¬ mem s.ideal (x - s.multiply) then 1 else 0 := by
  have h := (colonReminimize_colonSpec p s.ideal hs).mem_iff
  unfold contrib BState.colonStep
  simp only [h]
  refine if_congr (and_congr_right fun hle => ?_) rfl rfl
  have : x - (s.multiply + p) + p = x - s.multiply := by
    funext i
    have := le_def.1 hle i
    simp only [Pi.add_apply, Pi.sub_apply] at this ⊢
    omega
  rw [this]

theorem contrib_add {s : BState n} (hs : Anti s.ideal) (p x : Term n) :
    contrib (s.addStep p) x =
      if s.multiply ≤ x ∧ ¬ mem s.ideal (x - s.multiply) ∧ ¬ p ≤ x - s.multiply then 1 else 0 := by
  have h := (insertReminimize_spec p s.ideal hs).mem_iff
  unfold contrib BState.addStep
  simp only [h]
  refine if_congr (and_congr_right fun _ => ?_) rfl rfl
  simp only [mem, List.mem_append, List.mem_singleton, not_exists, not_and]
  constructor
  · intro h1
    exact ⟨fun g hg => h1 g (Or.inl hg), h1 p (Or.inr rfl)⟩
  · rintro ⟨h1, h2⟩ g (hg | rfl)
    · exact h1 g hg
    · exact h2

/-- The pivot split. -/
theorem contrib_split {s : BState n} (hs : Anti s.ideal) (p x : Term n) :
    contrib s x = contrib (s.addStep p) x + contrib (s.colonStep p) x := by
  rw [contrib_add hs, contrib_colon hs, contrib]
  simp only [add_le_iff']
  by_cases h1 : s.multiply ≤ x <;> by_cases h2 : mem s.ideal (x - s.multiply) <;> by_cases h3 : p ≤ x - s.multiply <;>
    simp [h1, h2, h3]

theorem BInv.colon {L : Term n} {s : BState n} (h : BInv L s) {p : Term n} (hp : p ≤ lcmOf s.ideal) : BInv L (s.colonStep p) := by
  have hc := colonReminimize_colonSpec p s.ideal h.anti
  refine ⟨hc.minGens.anti, ?_⟩
  have h1 : lcmOf (colonReminimize p s.ideal).1 ≤ lcmOf s.ideal - p := lcmOf_le fun r hr => by
    obtain ⟨g, hg, rfl⟩ := List.mem_map.1 (hc.minGens.subset r hr)
    exact Term.le_def.2 fun i => Nat.sub_le_sub_right (le_def.1 (le_lcmOf hg) i) _
  refine le_trans (Term.le_def.2 fun i => ?_) h.le
  have h2 := le_def.1 h1 i
  have h3 := le_def.1 hp i
  simp only [BState.colonStep, Pi.add_apply, Pi.sub_apply] at h2 ⊢
  omega

theorem BInv.add {L : Term n} {s : BState n} (h : BInv L s) {p : Term n} (hp : p ≤ lcmOf s.ideal) : BInv L (s.addStep p) := by
  have hc := insertReminimize_spec p s.ideal h.anti
  refine ⟨hc.anti, le_trans (add_le_add (le_refl _) (lcmOf_le fun g hg => ?_)) h.le⟩
  rcases List.mem_append.1 (hc.subset g hg) with hg | hg
  · exact le_lcmOf hg
  · rw [List.mem_singleton] at hg; subst hg; exact hp

/-! ## the simplification -/

theorem gcdOf_le_lcm (J : List (Term n)) : gcdOf J ≤ lcmOf J := by
  cases J with
  | nil => exact le_refl _
  | cons a J => exact (gcdOf_le (by simp)).trans (le_lcmOf (G := a :: J) (g := a) (by simp))

/-- The series of what simplification outputs. -/
def simpOut (s : BState n) (x : Term n) : ℤ := contrib s x - contrib (bigattiSimplify s).2 x

theorem bSimplify_spec {L : Term n} {s : BState n} (h : BInv L s) :
    BInv L (bigattiSimplify s).2 ∧ GoodOut L (simpOut s) (bigattiSimplify s).1 ∧ ∀ x, 0 ≤ simpOut s x := by
  unfold simpOut bigattiSimplify
  simp only
  have hm : s.multiply ≤ L := le_trans (Term.le_def.2 fun i => by simp) h.le
  by_cases hg : gcdOf s.ideal = 0
  · rw [if_pos hg]
    exact ⟨h, ⟨by simp, by simp [polyOf], fun x => by simp [polyOf, seriesCoef_nil]⟩, by simp⟩
  · rw [if_neg hg]
    have hgl := gcdOf_le_lcm s.ideal
    have hgm : s.multiply + gcdOf s.ideal ≤ L := (add_le_add (le_refl _) hgl).trans h.le
    have hmem : s.ideal ≠ [] → ∀ y, mem s.ideal y → gcdOf s.ideal ≤ y := by
      rintro _ y ⟨g, hg, hgy⟩
      exact (gcdOf_le hg).trans hgy
    have hne : s.ideal ≠ [] := by
      intro he; rw [he] at hg; exact hg rfl
    have key : ∀ x, contrib s x - contrib (s.colonStep (gcdOf s.ideal)) x =
        (if s.multiply ≤ x then 1 else 0) - if s.multiply + gcdOf s.ideal ≤ x then 1 else 0 := by
      intro x
      rw [contrib_colon h.anti, contrib]
      simp only [add_le_iff']
      have := hmem hne (x - s.multiply)
      by_cases h1 : s.multiply ≤ x <;> by_cases h2 : mem s.ideal (x - s.multiply) <;>
        by_cases h3 : gcdOf s.ideal ≤ x - s.multiply <;> simp [h1, h2, h3]
      exact h3 (this h2)
    refine ⟨h.colon hgl, ⟨by simp [BOut.isTerm], by simp [polyOf, BOut.toTerm, hm, hgm], fun x => ?_⟩, fun x => ?_⟩
    · simp only [key]
      simp only [polyOf_cons_term, polyOf_nil, seriesCoef_cons, seriesCoef_nil, sg]
      by_cases h1 : s.multiply ≤ x <;> by_cases h3 : s.multiply + gcdOf s.ideal ≤ x <;> simp [h1, h3]
    · simp only [key, add_le_iff']
      by_cases h1 : s.multiply ≤ x <;> by_cases h3 : gcdOf s.ideal ≤ x - s.multiply <;> simp [h1, h3]

/-! ## one step -/

/-- The number of monomials up to `L` that the state contributes. -/
def bRoom (L : Term n) (s : BState n) : ℤ := ∑ x ∈ box L, contrib s x

/-- An upper bound on the number of steps. -/
def bWeight (L : Term n) (s : BState n) : ℕ := max 1 (2 * (bRoom L s).toNat - 1)

theorem contrib_nonneg (s : BState n) (x : Term n) : 0 ≤ contrib s x := by
  unfold contrib; split <;> simp

theorem bRoom_pos {L : Term n} {s : BState n} {x : Term n} (hx : x ≤ L) (h : contrib s x = 1) : 1 ≤ bRoom L s := by
  rw [← h]
  exact Finset.single_le_sum (f := contrib s) (fun y _ => contrib_nonneg s y) (mem_box.2 hx)

theorem base_multi {L : Term n} {s : BState n} (h : BInv L s) (generic : Bool) :
    (∃ outs, bigattiBase none generic s = some (some outs) ∧ GoodOut L (contrib s) outs) ∨
    (bigattiBase none generic s = some none ∧ ∃ v, 2 ≤ supportCounts s.ideal v) := by
  unfold bigattiBase
  cases hsb : simpleBase s with
  | some outs => exact Or.inl ⟨outs, rfl, simpleBase_spec h.le hsb⟩
  | none =>
    simp only
    have hen : ∀ all, enumerateScarf none s all = some (faces s.ideal all s.multiply true 0 s.ideal) := by
      intro all
      unfold enumerateScarf
      simp only [scarf_faces]
    by_cases hu : uniqueMax s.ideal = true
    · rw [if_pos hu]
      exact Or.inl ⟨_, by rw [hen]; rfl, faces_spec h.anti.nodup h.le true⟩
    · rw [if_neg hu]
      by_cases hg : (generic && isWeaklyGeneric s.ideal) = true
      · rw [if_pos hg]
        exact Or.inl ⟨_, by rw [hen]; rfl, faces_spec h.anti.nodup h.le false⟩
      · rw [if_neg hg]
        refine Or.inr ⟨rfl, ?_⟩
        by_contra hc
        push Not at hc
        have := simpleBase_none hsb
        exact hu (uniqueMax_disjoint h.anti (by omega) fun v => by have := hc v; omega)

theorem step_multi (o : BOpts) {L : Term n} {s : BState n} (h : BInv L s) :
    ∃ outs new f, bigattiStep none o s = some (outs, new) ∧ (∀ t ∈ new, BInv L t) ∧ GoodOut L f outs ∧
      (∀ x, f x + (new.map fun t => contrib t x).sum = contrib s x) ∧ 1 + (new.map (bWeight L)).sum ≤ bWeight L s := by
  obtain ⟨outs0, s', f0, hx, hs', hg0, hf0, hf0n⟩ : ∃ (outs0 : List (BOut n)) (s' : BState n) (f0 : Term n → ℤ),
      (if o.simp then bigattiSimplify s else ([], s)) = (outs0, s') ∧ BInv L s' ∧ GoodOut L f0 outs0 ∧
      (∀ x, f0 x + contrib s' x = contrib s x) ∧ ∀ x, 0 ≤ f0 x := by
    obtain ⟨h1, h2, h3⟩ := bSimplify_spec h
    by_cases ho : o.simp = true
    · rw [if_pos ho]
      exact ⟨(bigattiSimplify s).1, (bigattiSimplify s).2, simpOut s, rfl, h1, h2, fun x => by simp [simpOut], h3⟩
    · rw [if_neg ho]
      exact ⟨_, _, fun _ => 0, rfl, h, ⟨by simp, by simp [polyOf], fun x => by simp [polyOf, seriesCoef_nil]⟩, by simp, by simp⟩
  have hroom : bRoom L s' ≤ bRoom L s := Finset.sum_le_sum fun x _ => by
    have := hf0 x
    have := hf0n x
    omega
  unfold bigattiStep
  simp only [hx]
  rcases base_multi hs' o.generic with ⟨outs, h1, h2⟩ | ⟨h1, h2⟩
  · simp only [h1]
    refine ⟨_, _, _, rfl, by simp, hg0.append h2, fun x => ?_, ?_⟩
    · simpa using hf0 x
    · simp [bWeight]
  · obtain ⟨H, p, h3, h4, h5⟩ := pivot_spec o.pivot o.widen hs'.anti h2
    simp only [h1, h3]
    have hH : Anti H := hs'.anti.perm h4.symm fun h => ⟨h.2, h.1⟩
    have hsH : BInv L (⟨s'.multiply, H⟩ : BState n) := ⟨hH, by rw [lcmOf_perm h4]; exact hs'.le⟩
    have hpl : p ≤ lcmOf H := by rw [lcmOf_perm h4]; exact h5.le_lcm
    have hsplit : ∀ x, contrib s' x = contrib (BState.addStep p ⟨s'.multiply, H⟩) x +
        contrib (BState.colonStep p ⟨s'.multiply, H⟩) x := fun x => by
      rw [← contrib_split hH]; exact (contrib_perm h4).symm
    refine ⟨_, _, f0, rfl, ?_, hg0, fun x => ?_, ?_⟩
    · intro t ht
      simp only [List.mem_cons, List.not_mem_nil, or_false] at ht
      rcases ht with rfl | rfl
      · exact hsH.add hpl
      · exact hsH.colon hpl
    · rw [← hf0 x, hsplit x]; simp
    · have hnm := (h5.perm h4.symm).notMem hH
      have hml : s'.multiply ≤ L := le_trans (Term.le_def.2 fun i => by simp) hs'.le
      have h6 : 1 ≤ bRoom L (BState.addStep p ⟨s'.multiply, H⟩) := by
        refine bRoom_pos hml ?_
        rw [contrib_add hH]
        have hz : s'.multiply - s'.multiply = 0 := by funext i; simp
        simp only [hz]
        rw [if_pos]
        refine ⟨le_refl _, ?_, ?_⟩
        · rintro ⟨g, hg, hg0⟩
          exact hnm ⟨g, hg, hg0.trans (Term.le_def.2 fun i => Nat.zero_le _)⟩
        · intro hp0
          exact h5.1 (le_antisymm hp0 (Term.le_def.2 fun i => Nat.zero_le _))
      have h7 : 1 ≤ bRoom L (BState.colonStep p ⟨s'.multiply, H⟩) := by
        refine bRoom_pos (x := s'.multiply + p) ((add_le_add (le_refl _) hpl).trans hsH.le) ?_
        rw [contrib_colon hH]
        have hz : s'.multiply + p - s'.multiply = p := by funext i; simp
        simp only [hz]
        rw [if_pos ⟨le_refl _, hnm⟩]
      have h8 : bRoom L s' = bRoom L (BState.addStep p ⟨s'.multiply, H⟩) + bRoom L (BState.colonStep p ⟨s'.multiply, H⟩) := by
        unfold bRoom
        rw [← Finset.sum_add_distrib]
        exact Finset.sum_congr rfl fun x _ => hsplit x
      simp only [List.map_cons, List.map_nil, List.sum_cons, List.sum_nil, bWeight]
      omega

/-! ## the loop -/

theorem loop_multi (o : BOpts) {L : Term n} : ∀ (fuel : ℕ) (ss : List (BState n)), (∀ s ∈ ss, BInv L s) →
    (ss.map (bWeight L)).sum < fuel →
    ∃ outs, bigattiLoop none o fuel ss = some outs ∧ GoodOut L (fun x => (ss.map fun s => contrib s x).sum) outs := by
  intro fuel
  induction fuel with
  | zero => intro ss _ h; omega
  | succ fuel ih =>
    intro ss hs hf
    cases ss with
    | nil => exact ⟨[], rfl, by simp, by simp [polyOf], fun x => by simp [polyOf, seriesCoef_nil]⟩
    | cons s ss =>
      obtain ⟨outs, new, f, h1, h2, h3, h4, h5⟩ := step_multi o (hs s (by simp))
      simp only [List.map_cons, List.sum_cons] at hf
      obtain ⟨r, h6, h7⟩ := ih (new ++ ss) (fun t ht => by
        rcases List.mem_append.1 ht with ht | ht
        · exact h2 t ht
        · exact hs t (by simp [ht])) (by rw [List.map_append, List.sum_append]; omega)
      refine ⟨outs ++ r, by simp [bigattiLoop, h1, h6], ?_⟩
      have h8 := h3.append h7
      refine ⟨h8.isTerm, h8.le, fun x => ?_⟩
      rw [h8.series]
      simp only [List.map_append, List.sum_append, List.map_cons, List.sum_cons, ← h4 x]
      ring

theorem bigattiRun_multi (o : BOpts) {G : List (Term n)} (hG : Anti G) :
    ∃ outs, bigattiRun none o G = some outs ∧ GoodOut (lcmOf G) (fun x => if mem G x then 0 else 1) outs := by
  have hi : BInv (lcmOf G) (⟨0, G⟩ : BState n) := ⟨hG, by simp⟩
  have hbox : (box (lcmOf G)).card = ((List.finRange n).map fun v => lcmOf G v + 1).prod := by
    rw [box, Fintype.card_piFinset, ← List.ofFn_eq_map, List.prod_ofFn]
    simp
  have hroom : bRoom (lcmOf G) (⟨0, G⟩ : BState n) ≤ (box (lcmOf G)).card := by
    unfold bRoom
    rw [Finset.card_eq_sum_ones]
    push_cast
    refine Finset.sum_le_sum fun x _ => ?_
    unfold contrib; split <;> simp
  obtain ⟨outs, h1, h2⟩ := loop_multi o (bigattiFuel G) [⟨0, G⟩] (by simpa using hi) (by
    rw [hbox] at hroom
    simp only [List.map_cons, List.map_nil, List.sum_cons, List.sum_nil, bWeight, bigattiFuel]
    omega)
  refine ⟨outs, h1, h2.isTerm, h2.le, fun x => ?_⟩
  rw [h2.series]
  have h0 : (0 : Term n) ≤ x := Term.le_def.2 fun i => Nat.zero_le _
  have hz : x - (0 : Term n) = x := by funext i; simp
  by_cases hm : mem G x <;> simp [contrib, hz, hm, h0]

end Frobby

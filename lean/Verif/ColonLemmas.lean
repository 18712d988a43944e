import Verif.IdealLemmas

/-! # `colonReminimize` computes the minimal generators of the colon ideal -/

namespace Frobby

variable {n : ℕ}

open Term

theorem colonVar_eq (v : Fin n) (e : ℕ) (g : Term n) : colonVar v e g = g - single v e := by
  funext i
  by_cases h : i = v
  · subst h; simp [colonVar]
  · simp [colonVar, h]

theorem mem_map_sub {G : List (Term n)} {p m : Term n} :
    mem (G.map (· - p)) m ↔ mem G (m + p) := by
  simp only [mem, List.mem_map]
  constructor
  · rintro ⟨_, ⟨g, hg, rfl⟩, hle⟩
    exact ⟨g, hg, sub_le_iff.1 hle⟩
  · rintro ⟨g, hg, hle⟩
    exact ⟨_, ⟨g, hg, rfl⟩, sub_le_iff.2 hle⟩

/-- If `a` loses no variable by the colon then divisibility after the colon implies it before. -/
theorem le_of_sub_le_of_notMiddle {p a b : Term n} (ha : ∀ i, a i = 0 ∨ p i < a i)
    (h : a - p ≤ b - p) : a ≤ b := by
  refine le_def.2 fun i => ?_
  have h1 := le_def.1 h i
  simp only [Pi.sub_apply] at h1
  rcases ha i with h2 | h2 <;> omega

/-- If `b` is strictly divisible by `p` then divisibility after the colon implies it before. -/
theorem le_of_sub_le_of_strict {p a b : Term n} (hb : ∀ i, p i = 0 ∨ p i < b i)
    (h : a - p ≤ b - p) : a ≤ b := by
  refine le_def.2 fun i => ?_
  have h1 := le_def.1 h i
  simp only [Pi.sub_apply] at h1
  rcases hb i with h2 | h2 <;> omega

theorem notMiddle_of_strict {p a : Term n} (ha : ∀ i, p i = 0 ∨ p i < a i) :
    ∀ i, a i = 0 ∨ p i < a i := by
  intro i
  rcases ha i with h | h
  · omega
  · exact Or.inr h

theorem notMiddle_iff {p a : Term n} : (¬ ∃ i, 0 < a i ∧ a i ≤ p i) ↔ ∀ i, a i = 0 ∨ p i < a i := by
  constructor
  · intro h i
    by_contra hc
    exact h ⟨i, by omega, by omega⟩
  · rintro h ⟨i, h1, h2⟩
    rcases h i with h3 | h3 <;> omega

theorem anti_map_sub {G : List (Term n)} {p : Term n} (hG : Anti G)
    (h : ∀ a ∈ G, ∀ b ∈ G, a - p ≤ b - p → a ≤ b) : Anti (G.map (· - p)) := by
  unfold Anti
  rw [List.pairwise_map]
  refine List.Pairwise.imp_of_mem ?_ hG
  intro a b ha hb hab
  exact ⟨fun hle => hab.1 (h a ha b hb hle), fun hle => hab.2 (h b hb a ha hle)⟩

theorem minGens_length_le {G L : List (Term n)} (h : MinGens G L) : G.length ≤ L.length :=
  (List.subperm_of_subset h.anti.nodup h.subset).length_le

/-- What `colonReminimize` promises. -/
structure ColonSpec (p : Term n) (G : List (Term n)) (R : List (Term n) × Bool) : Prop where
  minGens : MinGens R.1 (G.map (· - p))
  flag : R.2 = true ↔ ∃ g ∈ G, ∃ i, 0 < g i ∧ g i ≤ p i
  perm : R.2 = false → R.1.Perm (G.map (· - p))

theorem ColonSpec.mem_iff {p : Term n} {G : List (Term n)} {R} (h : ColonSpec p G R) (m : Term n) :
    mem R.1 m ↔ mem G (m + p) := (h.minGens.mem_iff m).trans mem_map_sub

theorem ColonSpec.length_le {p : Term n} {G : List (Term n)} {R} (h : ColonSpec p G R) :
    R.1.length ≤ G.length := by
  simpa using minGens_length_le h.minGens

/-! ## the loop of the single variable case -/

theorem blockLoop_spec (v : Fin n) : ∀ (ts done prev cur : List (Term n)) (block : ℕ),
    Anti (done ++ ts) → Anti (prev ++ cur) →
    (∀ d ∈ prev, ∃ g ∈ done, d = Function.update g v 0 ∧ block < g v) →
    (∀ d ∈ cur, ∃ g ∈ done, d = Function.update g v 0 ∧ block = g v) →
    ts.Pairwise (fun a b => b v ≤ a v) → (∀ t ∈ ts, t v ≤ block) →
    MinGens (blockLoop v prev cur block ts) (prev ++ cur ++ ts.map (Function.update · v 0)) := by
  intro ts
  induction ts with
  | nil =>
    intro done prev cur block _ hA _ _ _ _
    simp only [blockLoop, List.map_nil, List.append_nil]
    exact ⟨fun _ => Iff.rfl, hA, fun _ h => h⟩
  | cons t ts ih =>
    intro done prev cur block hG hA hprev hcur hsort hle
    rw [List.pairwise_cons] at hsort
    have hG' : Anti ((done ++ [t]) ++ ts) := by simpa using hG
    have hinc : ∀ g ∈ done, ¬ g ≤ t ∧ ¬ t ≤ g := by
      intro g hg
      exact (anti_append.1 hG).2.2 g hg t (by simp)
    -- the state after the possible block change
    have key : ∀ prev' cur' : List (Term n), prev' ++ cur' = prev ++ cur →
        (∀ d ∈ prev', ∃ g ∈ done, d = Function.update g v 0 ∧ t v < g v) →
        (∀ d ∈ cur', ∃ g ∈ done, d = Function.update g v 0 ∧ t v = g v) →
        MinGens (if prev'.any (fun d => decide (d ≤ Function.update t v 0)) then
            blockLoop v prev' cur' (t v) ts
          else blockLoop v prev' (cur' ++ [Function.update t v 0]) (t v) ts)
          (prev ++ cur ++ (t :: ts).map (Function.update · v 0)) := by
      intro prev' cur' heq hp' hc'
      split
      · rename_i hany
        obtain ⟨d, hd, hdt⟩ : ∃ d ∈ prev', d ≤ Function.update t v 0 := by simpa using hany
        have := ih (done ++ [t]) prev' cur' (t v) hG' (heq ▸ hA)
          (fun d hd => by
            obtain ⟨g, hg, h⟩ := hp' d hd
            exact ⟨g, by simp [hg], h⟩)
          (fun d hd => by
            obtain ⟨g, hg, h⟩ := hc' d hd
            exact ⟨g, by simp [hg], h⟩) hsort.2 hsort.1
        refine ⟨fun m => ?_, this.anti, fun g hg => ?_⟩
        · rw [this.mem_iff, heq]
          simp only [List.map_cons]
          rw [mem_append, mem_append (G := prev ++ cur), mem_cons]
          constructor
          · tauto
          · rintro (h | h | h)
            · exact Or.inl h
            · refine Or.inl ⟨d, ?_, hdt.trans h⟩
              rw [← heq]; simp [hd]
            · exact Or.inr h
        · have := this.subset g hg
          rw [heq] at this
          simp only [List.map_cons, List.mem_append, List.mem_cons] at this ⊢
          tauto
      · rename_i hany
        have hno : ∀ d ∈ prev', ¬ d ≤ Function.update t v 0 := by simpa using hany
        have hA' : Anti (prev' ++ (cur' ++ [Function.update t v 0])) := by
          rw [← List.append_assoc, anti_append, heq]
          refine ⟨hA, by simp [Anti], ?_⟩
          intro d hd b hb
          have hb' : b = Function.update t v 0 := by simpa using hb
          subst hb'
          rw [← heq] at hd
          rcases List.mem_append.1 hd with h | h
          · refine ⟨hno d h, fun hle' => ?_⟩
            obtain ⟨g, hg, rfl, hlt⟩ := hp' d h
            apply (hinc g hg).2
            refine le_def.2 fun i => ?_
            by_cases hi : i = v
            · subst hi; exact hlt.le
            · simpa [hi] using le_def.1 hle' i
          · obtain ⟨g, hg, rfl, heq'⟩ := hc' d h
            constructor
            · intro hle'
              apply (hinc g hg).1
              refine le_def.2 fun i => ?_
              by_cases hi : i = v
              · subst hi; exact heq'.ge
              · simpa [hi] using le_def.1 hle' i
            · intro hle'
              apply (hinc g hg).2
              refine le_def.2 fun i => ?_
              by_cases hi : i = v
              · subst hi; exact heq'.le
              · simpa [hi] using le_def.1 hle' i
        have := ih (done ++ [t]) prev' (cur' ++ [Function.update t v 0]) (t v) hG' hA'
          (fun d hd => by
            obtain ⟨g, hg, h⟩ := hp' d hd
            exact ⟨g, by simp [hg], h⟩)
          (fun d hd => by
            rcases List.mem_append.1 hd with h | h
            · obtain ⟨g, hg, h⟩ := hc' d h
              exact ⟨g, by simp [hg], h⟩
            · exact ⟨t, by simp, by simpa using h, rfl⟩) hsort.2 hsort.1
        have he : prev' ++ (cur' ++ [Function.update t v 0]) ++ ts.map (Function.update · v 0) =
            prev ++ cur ++ (t :: ts).map (Function.update · v 0) := by
          rw [← List.append_assoc, heq]; simp
        rwa [he] at this
    unfold blockLoop
    simp only
    by_cases hb : t v = block
    · simp only [hb, ne_eq, not_true_eq_false, if_false]
      rw [hb] at key
      exact key prev cur rfl hprev hcur
    · have hlt : t v < block := lt_of_le_of_ne (hle t (by simp)) hb
      simp only [ne_eq, hb, not_false_eq_true, if_true]
      refine key (prev ++ cur) [] (by simp) ?_ (by simp)
      intro d hd
      rcases List.mem_append.1 hd with h | h
      · obtain ⟨g, hg, h1, h2⟩ := hprev d h
        exact ⟨g, hg, h1, hlt.trans h2⟩
      · obtain ⟨g, hg, h1, h2⟩ := hcur d h
        exact ⟨g, hg, h1, h2 ▸ hlt⟩

theorem rsds_perm (v : Fin n) (G : List (Term n)) : (reverseSingleDegreeSort v G).Perm G :=
  List.perm_insertionSort _ _

theorem rsds_sorted (v : Fin n) (G : List (Term n)) :
    (reverseSingleDegreeSort v G).Pairwise (fun a b => b v ≤ a v) := by
  have : Std.Total (fun a b : Term n => b v ≤ a v) := ⟨fun a b => le_total (b v) (a v)⟩
  have : IsTrans (Term n) (fun a b : Term n => b v ≤ a v) := ⟨fun _ _ _ h h' => le_trans h' h⟩
  exact List.pairwise_insertionSort _ _

/-- Assemble strict part and the rest. -/
theorem minGens_strict_append {p : Term n} {G A B R : List (Term n)} (hG : Anti G)
    (hperm : (A ++ B).Perm G) (hA : ∀ a ∈ A, ∀ i, p i = 0 ∨ p i < a i)
    (hR : MinGens R (B.map (· - p))) : MinGens (A.map (· - p) ++ R) (G.map (· - p)) := by
  have hAB : Anti (A ++ B) := (anti_perm hperm).2 hG
  refine ⟨fun m => ?_, ?_, fun g hg => ?_⟩
  · rw [mem_append, hR.mem_iff, ← mem_append, ← List.map_append]
    exact mem_perm (hperm.map _) m
  · rw [anti_append]
    refine ⟨?_, hR.anti, ?_⟩
    · exact anti_map_sub (anti_append.1 hAB).1 fun a ha b hb h =>
        le_of_sub_le_of_strict (hA b hb) h
    · intro x hx y hy
      obtain ⟨a, ha, rfl⟩ := List.mem_map.1 hx
      obtain ⟨b, hb, rfl⟩ := List.mem_map.1 (hR.subset y hy)
      have := (anti_append.1 hAB).2.2 a ha b hb
      exact ⟨fun h => this.1 (le_of_sub_le_of_notMiddle (notMiddle_of_strict (hA a ha)) h),
        fun h => this.2 (le_of_sub_le_of_strict (hA a ha) h)⟩
  · rw [← (hperm.map (· - p)).mem_iff, List.map_append, List.mem_append]
    rcases List.mem_append.1 hg with h | h
    · exact Or.inl h
    · exact Or.inr (hR.subset g h)

theorem filter3_perm {α : Type*} (G : List α) (p q r : α → Bool)
    (h : ∀ g, (p g = true ∧ q g = false ∧ r g = false) ∨ (p g = false ∧ q g = true ∧ r g = false) ∨
      (p g = false ∧ q g = false ∧ r g = true)) :
    (G.filter p ++ (G.filter q ++ G.filter r)).Perm G := by
  induction G with
  | nil => simp
  | cons a G ih =>
    rcases h a with ⟨h1, h2, h3⟩ | ⟨h1, h2, h3⟩ | ⟨h1, h2, h3⟩
    · rw [List.filter_cons_of_pos h1, List.filter_cons_of_neg (by simp [h2]),
        List.filter_cons_of_neg (by simp [h3])]
      simpa using ih
    · rw [List.filter_cons_of_neg (by simp [h1]), List.filter_cons_of_pos h2,
        List.filter_cons_of_neg (by simp [h3])]
      exact List.perm_middle.trans (ih.cons a)
    · rw [List.filter_cons_of_neg (by simp [h1]), List.filter_cons_of_neg (by simp [h2]),
        List.filter_cons_of_pos h3]
      rw [← List.append_assoc]
      refine List.perm_middle.trans (List.Perm.cons a ?_)
      rwa [List.append_assoc]

theorem colonReminimizeVar_spec (v : Fin n) (e : ℕ) (G : List (Term n)) (hG : Anti G) :
    ColonSpec (single v e) G (colonReminimizeVar v e G) := by
  unfold colonReminimizeVar
  simp only
  set S := G.filter fun g => decide (e < g v) with hS
  set M := G.filter fun g => decide (g v ≤ e ∧ g v ≠ 0) with hM
  set Z := G.filter fun g => decide (g v ≤ e ∧ g v = 0) with hZ
  have hperm : (S ++ (M ++ Z)).Perm G := by
    apply filter3_perm
    intro g
    rcases lt_or_ge e (g v) with h | h
    · left; simp; omega
    · right
      by_cases h0 : g v = 0
      · right; simp; omega
      · left; simp; omega
  have hAS : ∀ a ∈ S, ∀ i, single v e i = 0 ∨ single v e i < a i := by
    intro a ha i
    have : e < a v := by simpa using (List.mem_filter.1 ha).2
    by_cases hi : i = v
    · subst hi; right; simpa using this
    · left; simp [hi]
  have hMv : ∀ a ∈ M, a v ≤ e ∧ a v ≠ 0 := by
    intro a ha; simpa using (List.mem_filter.1 ha).2
  have hZv : ∀ a ∈ Z, a v = 0 := by
    intro a ha
    have : a v ≤ e ∧ a v = 0 := by simpa using (List.mem_filter.1 ha).2
    exact this.2
  have hZmap : Z.map (· - single v e) = Z := by
    conv_rhs => rw [← List.map_id Z]
    apply List.map_congr_left
    intro a ha
    funext i
    by_cases hi : i = v
    · subst hi; simp [hZv a ha]
    · simp [hi]
  have hSmap : S.map (colonVar v e) = S.map (· - single v e) :=
    List.map_congr_left fun a _ => colonVar_eq v e a
  have hflag : (∃ g ∈ G, ∃ i, 0 < g i ∧ g i ≤ single v e i) ↔ M ≠ [] := by
    constructor
    · rintro ⟨g, hg, i, h1, h2⟩
      by_cases hi : i = v
      · subst hi
        refine List.ne_nil_of_mem (a := g) (List.mem_filter.2 ⟨hg, ?_⟩)
        simp at h2; simp; omega
      · simp [hi] at h2; omega
    · intro h
      obtain ⟨g, hg⟩ := List.exists_mem_of_ne_nil _ h
      refine ⟨g, List.mem_of_mem_filter hg, v, ?_, ?_⟩
      · have := (hMv g hg).2; omega
      · simpa using (hMv g hg).1
  have hGMZ : Anti (M ++ Z) := (anti_append.1 ((anti_perm hperm).2 hG)).2.1
  split
  · rename_i hm
    have hM0 : M = [] := by
      have := rsds_perm v M; rw [hm] at this; simpa using this.symm.eq_nil
    have hR : MinGens Z ((M ++ Z).map (· - single v e)) := by
      rw [hM0, List.nil_append, hZmap]
      exact ⟨fun _ => Iff.rfl, (anti_append.1 hGMZ).2.1, fun _ h => h⟩
    refine ⟨?_, ?_, ?_⟩
    · rw [hSmap]; exact minGens_strict_append hG hperm hAS hR
    · rw [hflag]; simp [hM0]
    · intro _
      simp only
      rw [hSmap]
      conv_lhs => rw [← hZmap, ← List.map_append]
      rw [hM0] at hperm
      exact hperm.map _
  · rename_i t ts hm
    have hpm := rsds_perm v M
    have hsm := rsds_sorted v M
    rw [hm] at hpm hsm
    have hMmem : ∀ a, a ∈ t :: ts ↔ a ∈ M := fun a => hpm.mem_iff
    have hsorted : (t :: ts ++ Z).Pairwise (fun a b => b v ≤ a v) := by
      rw [List.pairwise_append]
      refine ⟨hsm, ?_, ?_⟩
      · rw [List.pairwise_iff_forall_sublist]
        intro a b hab
        have hb : b ∈ Z := hab.subset (by simp)
        rw [hZv b hb]; exact Nat.zero_le _
      · intro a _ b hb
        rw [hZv b hb]; exact Nat.zero_le _
    have hperm2 : (t :: ts ++ Z).Perm (M ++ Z) := hpm.append_right Z
    have hB := blockLoop_spec v (t :: ts ++ Z) [] [] [] (t v)
      (by simpa using (anti_perm hperm2).2 hGMZ) (by simp [Anti]) (by simp) (by simp) hsorted (by
        intro a ha
        rcases List.mem_append.1 ha with h | h
        · rw [List.pairwise_cons] at hsm
          rcases List.mem_cons.1 h with rfl | h
          · exact le_rfl
          · exact hsm.1 a h
        · rw [hZv a h]; exact Nat.zero_le _)
    have hmap : (t :: ts ++ Z).map (Function.update · v 0) = (t :: ts ++ Z).map (· - single v e) := by
      apply List.map_congr_left
      intro a ha
      have hle : a v ≤ e := by
        rcases List.mem_append.1 ha with h | h
        · exact (hMv a ((hMmem a).1 h)).1
        · rw [hZv a h]; exact Nat.zero_le _
      funext i
      by_cases hi : i = v
      · subst hi; simp; omega
      · simp [hi]
    rw [List.nil_append, List.nil_append, hmap] at hB
    have hR : MinGens (blockLoop v [] [] (t v) (t :: ts ++ Z)) ((M ++ Z).map (· - single v e)) := by
      refine ⟨fun m => (hB.mem_iff m).trans (mem_perm (hperm2.map _) m), hB.anti, fun g hg => ?_⟩
      exact (hperm2.map _).mem_iff.1 (hB.subset g hg)
    refine ⟨?_, ?_, ?_⟩
    · rw [hSmap]; exact minGens_strict_append hG hperm hAS hR
    · rw [hflag]
      simp only [ne_eq, true_iff]
      refine List.ne_nil_of_mem (a := t) ((hMmem t).1 (by simp))
    · intro h; simp at h

theorem colonReminimize_colonSpec (p : Term n) (G : List (Term n)) (hG : Anti G) :
    ColonSpec p G (colonReminimize p G) := by
  unfold colonReminimize
  split
  · rename_i h1
    obtain ⟨w, hw1, hw2, hw3⟩ := eq_single_of_support_one h1
    have hf : (List.finRange n).find? (fun i => p i ≠ 0) = some w := by
      unfold firstNonZero at hw1
      cases hf : (List.finRange n).find? (fun i => p i ≠ 0) with
      | some j => rw [hf] at hw1; rw [Fin.ext hw1]
      | none =>
        rw [hf] at hw1
        exact absurd hw1 (by have := w.isLt; simp only; omega)
    rw [hf]
    simp only
    conv => arg 1; rw [hw3]
    exact colonReminimizeVar_spec w (p w) G hG
  · simp only
    set S := G.filter fun g => colonStrict p g with hS
    set M := G.filter fun g => !colonStrict p g && colonMiddle p g with hM
    set B := G.filter fun g => !colonStrict p g && !colonMiddle p g with hB
    have hperm : (S ++ (M ++ B)).Perm G := by
      apply filter3_perm
      intro g
      cases colonStrict p g <;> cases colonMiddle p g <;> simp
    have hAS : ∀ a ∈ S, ∀ i, p i = 0 ∨ p i < a i := by
      intro a ha
      simpa [colonStrict] using (List.mem_filter.1 ha).2
    have hBm : ∀ a ∈ B, ∀ i, a i = 0 ∨ p i < a i := by
      intro a ha
      have := (List.mem_filter.1 ha).2
      rw [Bool.and_eq_true, Bool.not_eq_true', Bool.not_eq_true'] at this
      exact notMiddle_iff.1 (by simpa [colonMiddle] using this.2)
    have hflag : (∃ g ∈ G, ∃ i, 0 < g i ∧ g i ≤ p i) ↔ M ≠ [] := by
      constructor
      · rintro ⟨g, hg, i, h1, h2⟩
        refine List.ne_nil_of_mem (a := g) (List.mem_filter.2 ⟨hg, ?_⟩)
        have hs : colonStrict p g = false := by
          unfold colonStrict
          simp only [decide_eq_false_iff_not, not_forall]
          exact ⟨i, by omega⟩
        have hm : colonMiddle p g = true := by
          unfold colonMiddle
          simp only [decide_eq_true_eq]
          exact ⟨i, h1, h2⟩
        simp [hs, hm]
      · intro h
        obtain ⟨g, hg⟩ := List.exists_mem_of_ne_nil _ h
        refine ⟨g, List.mem_of_mem_filter hg, ?_⟩
        have := (List.mem_filter.1 hg).2
        rw [Bool.and_eq_true] at this
        simpa [colonMiddle] using this.2
    have hGMB : Anti (M ++ B) := (anti_append.1 ((anti_perm hperm).2 hG)).2.1
    split
    · rename_i hm
      have hM0 : M = [] := by
        rw [List.isEmpty_iff, List.map_eq_nil_iff] at hm; exact hm
      have hR : MinGens (B.map (· - p)) ((M ++ B).map (· - p)) := by
        rw [hM0, List.nil_append]
        refine ⟨fun _ => Iff.rfl, ?_, fun _ h => h⟩
        exact anti_map_sub (anti_append.1 hGMB).2.1 fun a ha b hb h =>
          le_of_sub_le_of_notMiddle (hBm a ha) h
      refine ⟨minGens_strict_append hG hperm hAS hR, ?_, ?_⟩
      · rw [hflag]; simp [hM0]
      · intro _
        simp only
        rw [← List.map_append]
        rw [hM0, List.nil_append] at hperm
        exact hperm.map _
    · rename_i hm
      have hM0 : M ≠ [] := by
        intro h; exact hm (by rw [h]; rfl)
      have hmin := minimize_minGens (M.map (· - p))
      have hR : MinGens (minimize (M.map (· - p)) ++ (B.map (· - p)).filter
          (fun g => !((minimize (M.map (· - p))).any fun d => decide (d ≤ g))))
          ((M ++ B).map (· - p)) := by
        refine ⟨fun m => ?_, ?_, ?_⟩
        · rw [List.map_append, mem_append, mem_append, hmin.mem_iff]
          constructor
          · rintro (h | h)
            · exact Or.inl h
            · exact Or.inr (mem_subset (fun g hg => List.mem_of_mem_filter hg) h)
          · rintro (h | ⟨g, hg, hle⟩)
            · exact Or.inl h
            · by_cases hd : mem (minimize (M.map (· - p))) g
              · exact Or.inl (mem_of_le ((hmin.mem_iff g).1 hd) hle)
              · refine Or.inr ⟨g, List.mem_filter.2 ⟨hg, ?_⟩, hle⟩
                rw [← contains_iff] at hd
                simpa [contains] using hd
        · rw [anti_append]
          refine ⟨hmin.anti, Anti.filter ?_ _, ?_⟩
          · exact anti_map_sub (anti_append.1 hGMB).2.1 fun a ha b hb h =>
              le_of_sub_le_of_notMiddle (hBm a ha) h
          · intro x hx y hy
            obtain ⟨hy1, hy2⟩ := List.mem_filter.1 hy
            constructor
            · intro hle
              have : ∀ d ∈ minimize (M.map (· - p)), ¬ d ≤ y := by simpa using hy2
              exact this x hx hle
            · intro hle
              obtain ⟨a, ha, rfl⟩ := List.mem_map.1 (hmin.subset x hx)
              obtain ⟨b, hb, rfl⟩ := List.mem_map.1 hy1
              exact ((anti_append.1 hGMB).2.2 a ha b hb).2 (le_of_sub_le_of_notMiddle (hBm b hb) hle)
        · intro g hg
          rw [List.map_append, List.mem_append]
          rcases List.mem_append.1 hg with h | h
          · exact Or.inl (hmin.subset g h)
          · exact Or.inr (List.mem_of_mem_filter h)
      refine ⟨?_, ?_, ?_⟩
      · rw [List.append_assoc]; exact minGens_strict_append hG hperm hAS hR
      · rw [hflag]; simp [hM0]
      · intro h; simp at h

/-! ## other generator list operations -/

theorem insertReminimize_spec (t : Term n) (G : List (Term n)) (hG : Anti G) :
    MinGens (insertReminimize t G) (G ++ [t]) := by
  unfold insertReminimize removeMultiples
  split
  · rename_i h
    rw [contains_iff] at h
    refine ⟨fun m => ?_, hG, fun g hg => by simp [hg]⟩
    rw [mem_append]
    refine ⟨Or.inl, ?_⟩
    rintro (h' | ⟨g, hg, hle⟩)
    · exact h'
    · have : g = t := by simpa using hg
      subst this; exact mem_of_le h hle
  · rename_i h
    rw [contains_iff] at h
    refine ⟨fun m => ?_, ?_, ?_⟩
    · rw [mem_append, mem_append]
      constructor
      · rintro (h | h)
        · exact Or.inl (mem_subset (fun g hg => List.mem_of_mem_filter hg) h)
        · exact Or.inr h
      · rintro (⟨g, hg, hle⟩ | h)
        · by_cases htg : t ≤ g
          · exact Or.inr ⟨t, by simp, htg.trans hle⟩
          · exact Or.inl ⟨g, List.mem_filter.2 ⟨hg, by simpa using htg⟩, hle⟩
        · exact Or.inr h
    · rw [anti_append]
      refine ⟨hG.filter _, by simp [Anti], ?_⟩
      intro a ha b hb
      have : b = t := by simpa using hb
      subst this
      obtain ⟨h1, h2⟩ := List.mem_filter.1 ha
      exact ⟨fun hle => h ⟨a, h1, hle⟩, by simpa using h2⟩
    · intro g hg
      rcases List.mem_append.1 hg with h | h
      · simp [List.mem_of_mem_filter h]
      · exact List.mem_append.2 (Or.inr h)

end Frobby

import Verif.ActionModel
import Verif.FacadeLemmas
import Verif.TransformLemmas5
import Mathlib.Data.Fintype.Card

/-!
# Lemmas about the actions: the preparation of the ideal
-/

namespace Frobby

variable {n : ℕ}

/-! ## permuting a translator -/

/-- Between two cycles: the variables that are done have their new entry. -/
structure CyclesDone {α : Type} (p : Fin n → Fin n) (A0 : Fin n → α) (s : (Fin n → Bool) × (Fin n → α)) : Prop where
  new : ∀ i, s.1 i = true → s.2 i = A0 (p i)
  old : ∀ i, s.1 i = false → s.2 i = A0 i
  image : ∀ i, s.1 i = true → ∃ j, s.1 j = true ∧ p j = i
  closed : ∀ i, s.1 i = true → s.1 (p i) = true

/-- In a cycle from `var`: the entry of `v` is that of `var`. -/
structure InCycle {α : Type} (p : Fin n → Fin n) (A0 : Fin n → α) (var v : Fin n) (s : (Fin n → Bool) × (Fin n → α)) : Prop where
  open_ : s.1 v = false
  held : s.2 v = A0 var
  new : ∀ i, s.1 i = true → s.2 i = A0 (p i)
  old : ∀ i, s.1 i = false → i ≠ v → s.2 i = A0 i
  image : ∀ i, s.1 i = true ∨ i = v → i = var ∨ ∃ j, s.1 j = true ∧ p j = i
  closed : ∀ i, s.1 i = true → s.1 (p i) = true ∨ p i = v
  start : s.1 var = true ∨ var = v

theorem cycleLoop_spec {α : Type} {p : Fin n → Fin n} (hp : Function.Injective p) {A0 : Fin n → α} {var : Fin n} :
    ∀ (fuel : ℕ) (s : (Fin n → Bool) × (Fin n → α)) (v : Fin n), InCycle p A0 var v s →
      (Finset.univ.filter fun i => s.1 i = false).card ≤ fuel →
      CyclesDone p A0 (cycleLoop p fuel s v) ∧ (cycleLoop p fuel s v).1 v = true ∧
        ∀ i, s.1 i = true → (cycleLoop p fuel s v).1 i = true := by
  intro fuel
  induction fuel with
  | zero =>
    intro s v h hc
    have : v ∈ Finset.univ.filter fun i => s.1 i = false := by simp [h.open_]
    rw [Finset.card_eq_zero.1 (Nat.le_zero.1 hc)] at this
    exact absurd this (Finset.notMem_empty _)
  | succ fuel ih =>
    intro s v h hc
    unfold cycleLoop
    simp only
    by_cases hd : (if p v = v then true else s.1 (p v)) = true
    · rw [if_pos hd]
      have hd' : s.1 (p v) = true ∨ p v = v := by
        by_cases h1 : p v = v
        · exact Or.inr h1
        · rw [if_neg h1] at hd; exact Or.inl hd
      have hpv : p v = var := by
        rcases h.image _ hd' with h1 | ⟨j, h1, h2⟩
        · exact h1
        · rw [hp h2, h.open_] at h1
          exact absurd h1 (by simp)
      refine ⟨⟨fun i hi => ?_, fun i hi => ?_, fun i hi => ?_, fun i hi => ?_⟩, by simp, fun i hi => ?_⟩
      · by_cases hiv : i = v
        · subst hiv; simp only [h.held, hpv]
        · simp only [hiv, if_false] at hi
          exact h.new i hi
      · by_cases hiv : i = v
        · subst hiv; simp at hi
        · simp only [hiv, if_false] at hi
          exact h.old i hi hiv
      · have hi' : s.1 i = true ∨ i = v := by
          by_cases hiv : i = v
          · exact Or.inr hiv
          · simp only [hiv, if_false] at hi; exact Or.inl hi
        rcases h.image i hi' with h1 | ⟨j, h1, h2⟩
        · exact ⟨v, by simp, by rw [hpv, h1]⟩
        · exact ⟨j, by simp [h1], h2⟩
      · simp only
        by_cases hiv : i = v
        · subst hiv; rw [hd]
        · simp only [hiv, if_false] at hi
          rcases h.closed i hi with h1 | h1
          · simp [h1]
          · simp [h1]
      · simp only; split
        · rfl
        · exact hi
    · rw [if_neg hd]
      have hne : p v ≠ v := fun h1 => hd (by simp [h1])
      have hopen : s.1 (p v) = false := by
        rw [if_neg hne] at hd
        simpa using hd
      have hin : InCycle p A0 var (p v) ((fun w => if w = v then true else s.1 w), swapEntries s.2 v (p v)) := by
        refine ⟨by simp [hne, hopen], ?_, fun i hi => ?_, fun i hi hip => ?_, fun i hi => ?_, fun i hi => ?_, ?_⟩
        · simp only [swapEntries, if_neg hne, if_true]
          exact h.held
        · simp only at hi ⊢
          by_cases hiv : i = v
          · subst hiv
            simp only [swapEntries, if_true]
            exact h.old _ hopen hne
          · rw [if_neg hiv] at hi
            have hip : i ≠ p v := fun h1 => by rw [h1, hopen] at hi; exact absurd hi (by simp)
            simp only [swapEntries, if_neg hiv, if_neg hip]
            exact h.new i hi
        · simp only at hi ⊢
          have hiv : i ≠ v := fun h1 => by rw [if_pos h1] at hi; exact absurd hi (by simp)
          rw [if_neg hiv] at hi
          simp only [swapEntries, if_neg hiv, if_neg hip]
          exact h.old i hi hiv
        · simp only at hi ⊢
          rcases hi with hi | hi
          · have hi' : s.1 i = true ∨ i = v := by
              by_cases hiv : i = v
              · exact Or.inr hiv
              · rw [if_neg hiv] at hi; exact Or.inl hi
            rcases h.image i hi' with h1 | ⟨j, h1, h2⟩
            · exact Or.inl h1
            · exact Or.inr ⟨j, by simp [h1], h2⟩
          · exact Or.inr ⟨v, by simp, hi.symm⟩
        · simp only at hi ⊢
          by_cases hiv : i = v
          · exact Or.inr (by rw [hiv])
          · rw [if_neg hiv] at hi
            left
            rcases h.closed i hi with h1 | h1
            · simp [h1]
            · simp [h1]
        · simp only
          left
          rcases h.start with h1 | h1
          · simp [h1]
          · simp [h1]
      obtain ⟨h1, h2, h3⟩ := ih _ _ hin (by
        have hlt : (Finset.univ.filter fun i => (if i = v then true else s.1 i) = false) ⊂ Finset.univ.filter fun i => s.1 i = false := by
          refine Finset.ssubset_iff_of_subset (fun i hi => ?_) |>.2 ⟨v, by simp [h.open_], by simp⟩
          simp only [Finset.mem_filter, Finset.mem_univ, true_and] at hi ⊢
          split at hi
          · exact absurd hi (by simp)
          · exact hi
        have := Finset.card_lt_card hlt
        simp only
        omega)
      exact ⟨h1, h3 v (by simp), fun i hi => h3 i (by simp only; split <;> simp [hi])⟩

theorem CyclesDone.inCycle {α : Type} {p : Fin n → Fin n} {A0 : Fin n → α} {s : (Fin n → Bool) × (Fin n → α)} (h : CyclesDone p A0 s) {var : Fin n}
    (hv : s.1 var = false) : InCycle p A0 var var s where
  open_ := hv
  held := h.old var hv
  new := h.new
  old i hi _ := h.old i hi
  image i hi := by
    rcases hi with hi | hi
    · exact Or.inr (h.image i hi)
    · exact Or.inl hi
  closed i hi := Or.inl (h.closed i hi)
  start := Or.inr rfl

/-- The entries are permuted. -/
theorem permuteEntries_eq {α : Type} {p : Fin n → Fin n} (hp : Function.Injective p) (A : Fin n → α) : permuteEntries p A = fun v => A (p v) := by
  have key : ∀ (vs : List (Fin n)) (s : (Fin n → Bool) × (Fin n → α)), CyclesDone p A s →
      CyclesDone p A (vs.foldl (fun s var => if s.1 var then s else cycleLoop p n s var) s) ∧
        (∀ i ∈ vs, (vs.foldl (fun s var => if s.1 var then s else cycleLoop p n s var) s).1 i = true) ∧
        ∀ i, s.1 i = true → (vs.foldl (fun s var => if s.1 var then s else cycleLoop p n s var) s).1 i = true := by
    intro vs
    induction vs with
    | nil => exact fun s h => ⟨h, by simp, fun i hi => hi⟩
    | cons v vs ih =>
      intro s h
      rw [List.foldl_cons]
      by_cases hv : s.1 v = true
      · rw [if_pos hv]
        obtain ⟨h1, h2, h3⟩ := ih s h
        refine ⟨h1, fun i hi => ?_, h3⟩
        rcases List.mem_cons.1 hi with rfl | hi
        · exact h3 _ hv
        · exact h2 i hi
      · rw [if_neg hv]
        obtain ⟨c1, c2, c3⟩ := cycleLoop_spec hp n s v (h.inCycle (by simpa using hv))
          ((Finset.card_le_univ _).trans (by simp))
        obtain ⟨h1, h2, h3⟩ := ih _ c1
        refine ⟨h1, fun i hi => ?_, fun i hi => h3 i (c3 i hi)⟩
        rcases List.mem_cons.1 hi with rfl | hi
        · exact h3 _ c2
        · exact h2 i hi
  obtain ⟨h1, h2, _⟩ := key (List.finRange n) (fun _ => false, A)
    ⟨fun i hi => by simp at hi, fun i _ => rfl, fun i hi => by simp at hi, fun i hi => by simp at hi⟩
  funext v
  exact h1.new v (h2 v (List.mem_finRange v))

/-! ## the order of the variables -/

open NamedIdeal in
theorem varPermutation_perm (names : List Text) : (varPermutation names).Perm (List.range names.length) := List.perm_insertionSort _ _

open NamedIdeal in
theorem varPermutation_length (names : List Text) : (varPermutation names).length = names.length := by
  rw [(varPermutation_perm names).length_eq, List.length_range]

theorem sortedVar_val (names : List Text) (i : Fin names.length) : (sortedVar names i).val = (NamedIdeal.varPermutation names).getD i 0 := by
  have h : (NamedIdeal.varPermutation names).getD i 0 < names.length := by
    refine NamedIdeal.mem_varPermutation ?_
    rw [List.getD_eq_getElem _ _ (by rw [varPermutation_length]; exact i.2)]
    exact List.getElem_mem _
  unfold sortedVar
  rw [dif_pos h]

theorem sortedVar_injective (names : List Text) : Function.Injective (sortedVar names) := by
  intro i j h
  have h1 := congrArg Fin.val h
  rw [sortedVar_val, sortedVar_val] at h1
  have hi : i.val < (NamedIdeal.varPermutation names).length := by rw [varPermutation_length]; exact i.2
  have hj : j.val < (NamedIdeal.varPermutation names).length := by rw [varPermutation_length]; exact j.2
  rw [List.getD_eq_getElem _ _ hi, List.getD_eq_getElem _ _ hj] at h1
  exact Fin.ext (((varPermutation_perm names).nodup_iff.2 List.nodup_range).getElem_inj_iff.1 h1)

/-- A list of one entry for each sorted variable. -/
theorem ofFn_sortedVar {α : Type} (names : List Text) (f : ℕ → α) : List.ofFn (fun v => f (sortedVar names v)) = (NamedIdeal.varPermutation names).map f := by
  refine List.ext_getElem (by simp [varPermutation_length]) fun i h1 h2 => ?_
  have h3 : i < (NamedIdeal.varPermutation names).length := by simpa using h2
  rw [List.getElem_ofFn, List.getElem_map, sortedVar_val, List.getD_eq_getElem _ _ h3]

theorem IdSpec.permute {e : Fin n → ℕ → ℕ} {N : Fin n → ℕ} {G M : List (Term n)} (h : IdSpec e N G M) {p : Fin n → Fin n} (hp : Function.Injective p) :
    IdSpec (fun v => e (p v)) (fun v => N (p v)) (G.map fun g v => g (p v)) (M.map fun g v => g (p v)) := by
  have hsurj : Function.Surjective p := Finite.surjective_of_injective hp
  refine ⟨⟨fun v => h.sys.pos _, fun v => h.sys.zero _, fun v => h.sys.mono _, fun v => h.sys.top _⟩, ?_, fun g hg v => ?_, fun g hg => ?_, fun g hg => ?_⟩
  · unfold Anti
    rw [List.pairwise_map]
    have hle : ∀ a b : Term n, (fun v => a (p v)) ≤ (fun v => b (p v)) → a ≤ b := fun a b hab => Term.le_def.2 fun v => by
      obtain ⟨w, rfl⟩ := hsurj v
      exact hab w
    exact h.anti.imp fun {a b} hab => ⟨fun hc => hab.1 (hle a b hc), fun hc => hab.2 (hle b a hc)⟩
  · obtain ⟨g', hg', rfl⟩ := List.mem_map.1 hg
    exact h.lt g' hg' _
  · obtain ⟨g', hg', rfl⟩ := List.mem_map.1 hg
    exact List.mem_map.2 ⟨_, h.sound g' hg', rfl⟩
  · obtain ⟨g', hg', rfl⟩ := List.mem_map.1 hg
    obtain ⟨k, hk, hle⟩ := h.complete g' hg'
    exact ⟨_, List.mem_map.2 ⟨k, hk, rfl⟩, fun v => hle _⟩

theorem tExp_permute (G : List (Term n)) (p : Fin n → Fin n) (v : Fin n) : tExp (G.map fun g v => g (p v)) v = tExp G (p v) := by
  unfold tExp
  rw [List.map_map]
  rfl

theorem tNum_permute (G : List (Term n)) (p : Fin n → Fin n) (v : Fin n) : tNum (G.map fun g v => g (p v)) v = tNum G (p v) := by
  unfold tNum
  rw [List.map_map]
  rfl

theorem ofGens_permute (G : List (Term n)) (p : Fin n → Fin n) (v : Fin n) : Translator.ofGens (G.map fun g v => g (p v)) v = Translator.ofGens G (p v) := by
  unfold Translator.ofGens
  rw [List.map_map]
  rfl

/-! ## CommonParamsHelper -/

theorem anti_gens {I : NamedIdeal} (hI : I.Ok) (h : I.Minimal) : Anti I.gens := by
  unfold Anti NamedIdeal.gens
  rw [List.pairwise_map]
  refine h.imp_of_mem fun {a b} ha hb hab => ?_
  rw [← NamedIdeal.ofFn_getD (hI.length a ha), ← NamedIdeal.ofFn_getD (hI.length b hb), NamedIdeal.ofFn_forall₂, NamedIdeal.ofFn_forall₂] at hab
  exact hab

theorem shrink_spec {G : List (Term n)} (h : Anti G) : IdSpec (tExp G) (tNum G) G ((Translator.ofGens G).shrinkIdeal G) := by
  refine ⟨tSys G, ?_, fun g hg v => ?_, fun g hg => ?_, fun g hg => ?_⟩
  · unfold Anti Translator.shrinkIdeal
    rw [List.pairwise_map]
    have key : ∀ a ∈ G, ∀ b ∈ G, (fun v => (Translator.ofGens G).shrinkExponent v (a v) : Term n) ≤ (fun v => (Translator.ofGens G).shrinkExponent v (b v)) →
        a ≤ b := by
      intro a ha b hb hab
      refine Term.le_def.2 fun v => ?_
      have h1 := ofGens_shrink G ha v
      have h2 := ofGens_shrink G hb v
      rw [← h1.2, ← h2.2]
      exact (tSys G).mono_le (hab v) h2.1
    exact h.imp_of_mem fun {a b} ha hb hab => ⟨fun hc => hab.1 (key a ha b hb hc), fun hc => hab.2 (key b hb a ha hc)⟩
  · obtain ⟨g', hg', rfl⟩ := List.mem_map.1 hg
    exact (ofGens_shrink G hg' v).1
  · obtain ⟨g', hg', rfl⟩ := List.mem_map.1 hg
    rw [NamedIdeal.shrink_back G hg']
    exact hg'
  · exact ⟨_, List.mem_map.2 ⟨g, hg, rfl⟩, fun v => (ofGens_shrink G hg v).2.le⟩

/-- The names of the variables in the output. -/
def outNames (canon : Bool) (names : List Text) : List Text := if canon then NamedIdeal.orderedNames names else names

theorem outNames_perm (canon : Bool) (names : List Text) : (outNames canon names).Perm names := by
  unfold outNames
  split
  · exact NamedIdeal.orderedNames_perm names
  · exact List.Perm.refl _

/-- What is known about the ideal, its translator and its names: `G` are the generators in the order of the names. -/
structure PreparedSpec (I : NamedIdeal) (names : List Text) (T : Translator n) (M G : List (Term n)) : Prop where
  length : names.length = n
  nodup : names.Nodup
  perm : names.Perm I.names
  translator : T = Translator.ofGens G
  ideal : IdSpec (tExp G) (tNum G) G M
  gens : G.map (fun g => expOf names (List.ofFn g)) = I.monomials

theorem prepare_spec {o : ActionOpts} {I : NamedIdeal} (hI : I.Ok) (hm : o.minimal = true → I.Minimal) :
    (prepare o I).names = outNames o.canon I.names ∧ ∃ G, PreparedSpec I (prepare o I).names (prepare o I).translator (prepare o I).ideal G := by
  have hM : IdSpec (tExp I.gens) (tNum I.gens) I.gens
      (if o.minimal = true then (Translator.ofGens I.gens).shrinkIdeal I.gens else minimize ((Translator.ofGens I.gens).shrinkIdeal I.gens)) := by
    split
    · rename_i h
      exact shrink_spec (anti_gens hI (hm h))
    · exact setIdeal_spec I.gens
  unfold prepare outNames
  simp only
  generalize (if o.minimal = true then (Translator.ofGens I.gens).shrinkIdeal I.gens else minimize ((Translator.ofGens I.gens).shrinkIdeal I.gens)) = M at hM
  by_cases hc : o.canon = true
  · rw [if_pos hc, if_pos hc]
    have hp := sortedVar_injective I.names
    have hn : List.ofFn (fun v => (permuteEntries (sortedVar I.names) (fun v => (I.names.getD v [], Translator.ofGens I.gens v)) v).1) = NamedIdeal.orderedNames I.names := by
      rw [permuteEntries_eq hp]
      exact ofFn_sortedVar I.names fun i => I.names.getD i []
    refine ⟨hn, I.gens.map fun g v => g (sortedVar I.names v), ?_⟩
    have hpm := NamedIdeal.orderedNames_perm I.names
    refine ⟨?_, ?_, ?_, ?_, ?_, ?_⟩
    · simp only [hn]; exact hpm.length_eq
    · simp only [hn]; exact hpm.nodup_iff.2 hI.nodup
    · simp only [hn]; exact hpm
    · funext v
      simp only
      rw [permuteEntries_eq hp, ofGens_permute]
    · rw [funext (tExp_permute I.gens (sortedVar I.names)), funext (tNum_permute I.gens (sortedVar I.names))]
      exact hM.permute hp
    · simp only [hn]
      rw [← (NamedIdeal.sortVariables_spec hI).2.2]
      unfold NamedIdeal.monomials NamedIdeal.gens NamedIdeal.sortVariables
      simp only [List.map_map]
      refine List.map_congr_left fun t ht => ?_
      simp only [Function.comp]
      rw [ofFn_sortedVar I.names fun i => t.getD i 0]
  · rw [if_neg hc, if_neg hc]
    refine ⟨rfl, I.gens, rfl, hI.nodup, List.Perm.refl _, rfl, hM, ?_⟩
    unfold NamedIdeal.monomials
    rw [← NamedIdeal.gens_ofFn hI, List.map_map]
    rfl

end Frobby

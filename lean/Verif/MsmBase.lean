import Verif.SimplifyLemmas
import Verif.MsmModel

/-!
# The base cases of `MsmSlice` emit exactly the content of the slice
-/

namespace Frobby

variable {n : ℕ}

open Term

theorem cval_msm_ne {s : Slice n} {m : Term n} :
    cval .msm s m ≠ 0 ↔ s.multiply ≤ m ∧ ¬ mem s.subtract (m - s.multiply) ∧ Msm s.ideal (m - s.multiply) := by
  unfold cval
  rw [val_msm_eq]
  by_cases h1 : s.multiply ≤ m ∧ ¬ mem s.subtract (m - s.multiply)
  · rw [if_pos h1]
    by_cases h2 : Msm s.ideal (m - s.multiply)
    · simp [h1, h2]
    · simp [h2]
  · rw [if_neg h1]
    constructor
    · intro h; exact absurd rfl h
    · rintro ⟨h2, h3, _⟩; exact absurd ⟨h2, h3⟩ h1

theorem cval_msm_01 {s : Slice n} {m : Term n} : cval .msm s m = 0 ∨ cval .msm s m = 1 := by
  unfold cval
  rw [val_msm_eq]
  split
  · split
    · exact Or.inr rfl
    · exact Or.inl rfl
  · exact Or.inl rfl

/-- The list is exactly the content of the slice, without repetition. -/
structure Emits (s : Slice n) (outs : List (Term n)) : Prop where
  nodup : outs.Nodup
  mem_iff : ∀ m, m ∈ outs ↔ cval .msm s m ≠ 0

theorem emits_nil {s : Slice n} (h : ∀ u, ¬ mem s.subtract u → ¬ Msm s.ideal u) : Emits s [] := by
  refine ⟨by simp, fun m => ?_⟩
  rw [cval_msm_ne]
  constructor
  · intro h; simp at h
  · rintro ⟨_, h2, h3⟩; exact absurd h3 (h _ h2)

theorem term_add_sub {a b : Term n} (h : a ≤ b) : a + (b - a) = b := by
  funext i; have := le_def.1 h i; simp only [Pi.add_apply, Pi.sub_apply]; omega

theorem term_add_sub_cancel {a b : Term n} : a + b - a = b := by
  funext i; simp only [Pi.add_apply, Pi.sub_apply]; omega

theorem term_le_add {a b : Term n} : a ≤ a + b := le_def.2 fun i => by simp

theorem term_add_inj {q a b : Term n} (h : q + a = q + b) : a = b := by
  funext i; have := congrFun h i; simp only [Pi.add_apply] at this; omega

theorem emits_emit {s : Slice n} {cands : List (Term n)} (hnd : cands.Nodup)
    (h : ∀ u, ¬ mem s.subtract u → (u ∈ cands ↔ Msm s.ideal u)) : Emits s (s.emit cands) := by
  refine ⟨?_, fun m => ?_⟩
  · unfold Slice.emit
    exact (hnd.filter _).map fun a b hab => term_add_inj hab
  · rw [cval_msm_ne]
    unfold Slice.emit
    simp only [List.mem_map, List.mem_filter, Bool.not_eq_true', contains_eq_decide, decide_eq_false_iff_not]
    constructor
    · rintro ⟨u, ⟨hu, hS⟩, rfl⟩
      rw [term_add_sub_cancel]
      exact ⟨term_le_add, hS, (h u hS).1 hu⟩
    · rintro ⟨h1, h2, h3⟩
      exact ⟨m - s.multiply, ⟨(h _ h2).2 h3, h2⟩, term_add_sub h1⟩

theorem emits_one {s : Slice n} {u : Term n} (hS : ¬ mem s.subtract u) (h : ∀ v, Msm s.ideal v ↔ v = u) :
    Emits s [s.multiply + u] := by
  have h1 : s.emit [u] = [s.multiply + u] := by
    unfold Slice.emit
    simp [contains_eq_decide, hS]
  rw [← h1]
  exact emits_emit (by simp) fun v _ => by rw [h v]; simp

theorem emits_zero {s : Slice n} (hS : ¬ mem s.subtract 0) (h : ∀ v, Msm s.ideal v ↔ v = 0) :
    Emits s [s.multiply] := by
  have := emits_one hS h
  simpa using this

/-- If a nonzero generator remains then `1` is not in the subtract. -/
theorem not_mem_sub_zero {k : Kind} {s : Slice n} (hs : SliceInv k s) {i : Fin n} (hi : lcmOf s.ideal i ≠ 0) :
    ¬ mem s.subtract 0 := by
  rintro ⟨t, ht, hle⟩
  obtain ⟨g, hg, he⟩ := lcmOf_attained (Nat.pos_of_ne_zero hi)
  refine hs.norm t ht g hg ⟨fun j => Or.inr ?_, fun h0 => ?_⟩
  · have := le_def.1 hle j; simpa using this
  · rw [h0] at he; exact hi he.symm

/-- The maximal standard monomials have at least `n` labels. -/
theorem Msm.length_ge {I : List (Term n)} {u : Term n} (h : Msm I u) : n ≤ I.length := by
  choose γ h1 h2 h3 using h.label
  have hinj : Function.Injective γ := by
    intro i j hij
    by_contra hne
    have := h3 j i hne
    rw [← hij, h2 i] at this
    omega
  have hsub : (Finset.univ.image γ) ⊆ I.toFinset := by
    intro g hg
    obtain ⟨i, _, rfl⟩ := Finset.mem_image.1 hg
    exact List.mem_toFinset.2 (h1 i)
  have hc := Finset.card_le_card hsub
  rw [Finset.card_image_of_injective _ hinj, Finset.card_univ, Fintype.card_fin] at hc
  exact hc.trans (List.toFinset_card_le I)

theorem msm_vars {I : List (Term n)} (hanti : Anti I) (hn : 0 < n) (h : ∀ i, single i 1 ∈ I) (u : Term n) :
    Msm I u ↔ u = 0 := by
  constructor
  · intro hm
    funext i
    by_contra hc
    apply hm.1
    refine ⟨_, h i, single_le_iff.2 ?_⟩
    simp at hc; omega
  · rintro rfl
    refine msm_of_labels ?_ fun i => ⟨_, h i, by simp, fun j hj => by simp [hj]⟩
    rintro ⟨g, hg, hle⟩
    have h1 : g = single ⟨0, hn⟩ 1 := hanti.eq_of_le hg (h _) (hle.trans (le_def.2 fun i => by simp))
    rw [h1, single_le_iff] at hle
    simp at hle

theorem single_of_support {g : Term n} {i : Fin n} (h : ∀ j, j ≠ i → g j = 0) : g = single i (g i) := by
  funext j
  by_cases hj : j = i
  · subst hj; simp
  · rw [h j hj, single_ne _ hj]

section Max

variable {I : List (Term n)} (hanti : Anti I) (hfull : ∀ i, lcmOf I i ≠ 0) (hnd : NoDouble I)

include hfull in
theorem exists_max (i : Fin n) : ∃ g ∈ I, g i = lcmOf I i := lcmOf_attained (Nat.pos_of_ne_zero (hfull i))

include hanti hfull hnd in
/-- With exactly `n` generators each one is maximal in exactly one variable. -/
theorem max_surj {γ : Fin n → Term n} (h1 : ∀ i, γ i ∈ I) (h2 : ∀ i, γ i i = lcmOf I i) (hlen : I.length = n) :
    ∀ g ∈ I, ∃ i, g = γ i := by
  have hinj : Function.Injective γ := by
    intro i j hij
    exact hnd hfull (γ i) (h1 i) i j (h2 i) (by rw [hij]; exact h2 j)
  have hsub : (Finset.univ.image γ) ⊆ I.toFinset := by
    intro g hg
    obtain ⟨i, _, rfl⟩ := Finset.mem_image.1 hg
    exact List.mem_toFinset.2 (h1 i)
  have heq : (Finset.univ.image γ) = I.toFinset := by
    apply Finset.eq_of_subset_of_card_le hsub
    rw [Finset.card_image_of_injective _ hinj, Finset.card_univ, Fintype.card_fin,
      List.toFinset_card_of_nodup hanti.nodup, hlen]
  intro g hg
  have : g ∈ Finset.univ.image γ := by rw [heq]; exact List.mem_toFinset.2 hg
  obtain ⟨i, _, rfl⟩ := Finset.mem_image.1 this
  exact ⟨i, rfl⟩

include hanti hfull hnd in
/-- With exactly `n + 1` generators there is one more. -/
theorem max_surj_one {γ : Fin n → Term n} (h1 : ∀ i, γ i ∈ I) (h2 : ∀ i, γ i i = lcmOf I i)
    (hlen : I.length = n + 1) : ∃ h ∈ I, (∀ i, h ≠ γ i) ∧ ∀ g ∈ I, g = h ∨ ∃ i, g = γ i := by
  have hinj : Function.Injective γ := by
    intro i j hij
    exact hnd hfull (γ i) (h1 i) i j (h2 i) (by rw [hij]; exact h2 j)
  have hsub : (Finset.univ.image γ) ⊆ I.toFinset := by
    intro g hg
    obtain ⟨i, _, rfl⟩ := Finset.mem_image.1 hg
    exact List.mem_toFinset.2 (h1 i)
  have hc : (I.toFinset \ Finset.univ.image γ).card = 1 := by
    rw [Finset.card_sdiff_of_subset hsub, Finset.card_image_of_injective _ hinj, Finset.card_univ, Fintype.card_fin,
      List.toFinset_card_of_nodup hanti.nodup, hlen]
    omega
  obtain ⟨h, hh⟩ := Finset.card_eq_one.1 hc
  have hmem : ∀ g, g ∈ I ∧ (∀ i, γ i ≠ g) ↔ g = h := by
    intro g
    have : g ∈ I.toFinset \ Finset.univ.image γ ↔ g = h := by rw [hh]; simp
    rw [← this]; simp
  refine ⟨h, ((hmem h).2 rfl).1, fun i hi => ((hmem h).2 rfl).2 i hi.symm, fun g hg => ?_⟩
  by_cases hgi : ∃ i, g = γ i
  · exact Or.inr hgi
  · left
    apply (hmem g).1
    exact ⟨hg, fun i hi => hgi ⟨i, hi.symm⟩⟩

include hanti hfull hnd in
theorem msm_len_n (hlen : I.length = n) (u : Term n) : Msm I u ↔ u = decrement (lcmOf I) := by
  choose γ h1 h2 using exists_max hfull
  have hsurj := max_surj hanti hfull hnd h1 h2 hlen
  have hlt : ∀ i j, j ≠ i → γ i j < lcmOf I j := by
    intro i j hj
    refine lt_of_le_of_ne (le_def.1 (le_lcmOf (h1 i)) j) fun he => hj ?_
    exact hnd hfull (γ i) (h1 i) j i he (h2 i)
  constructor
  · intro hm
    funext i
    obtain ⟨g, hg, hl1, hl2⟩ := hm.label i
    obtain ⟨j, rfl⟩ := hsurj g hg
    have hj : j = i := by
      by_contra hne
      have h3 := hl2 j hne
      rw [h2 j] at h3
      have := hm.lt_lcm j
      omega
    subst hj
    rw [h2 j] at hl1
    simp only [decrement]; omega
  · rintro rfl
    refine msm_of_labels ?_ fun i => ⟨γ i, h1 i, ?_, fun j hj => ?_⟩
    · rintro ⟨g, hg, hle⟩
      obtain ⟨j, rfl⟩ := hsurj g hg
      have := le_def.1 hle j
      rw [h2 j] at this
      have h0 := hfull j
      simp only [decrement] at this; omega
    · rw [h2 i]
      have h0 := hfull i
      simp only [decrement]; omega
    · have := hlt i j hj
      simp only [decrement]; omega

include hfull hnd in
theorem squarefree_vars (hsq : isSquareFree (lcmOf I)) (i : Fin n) : single i 1 ∈ I := by
  obtain ⟨g, hg, he⟩ := exists_max hfull i
  have h1 : ∀ j, lcmOf I j = 1 := fun j => by
    have := hsq j; have := hfull j; omega
  have : g = single i (g i) := by
    apply single_of_support
    intro j hj
    have hle := le_def.1 (le_lcmOf hg) j
    rw [h1 j] at hle
    have hne : g j ≠ 1 := by
      intro h
      exact hj (hnd hfull g hg j i (by rw [h, h1]) he)
    omega
  rw [he, h1 i] at this
  rw [← this]; exact hg

include hanti hfull hnd in
theorem fix_len_n (hlen : I.length = n) (hfix : ∀ v, Fix .msm I v) (i : Fin n) : single i 1 ∈ I := by
  choose γ h1 h2 using exists_max hfull
  have hsurj := max_surj hanti hfull hnd h1 h2 hlen
  have hcand : ∀ g, Cand I i g → g = γ i := by
    rintro g ⟨hg, _, hc⟩
    obtain ⟨j, rfl⟩ := hsurj g hg
    by_cases hj : j = i
    · rw [hj]
    · exact absurd (h2 j) (hc j hj)
  have hz : ∀ j, j ≠ i → γ i j = 0 := by
    intro j hj
    obtain ⟨g, hg, h0⟩ := (hfix i).1 j hj
    rw [← hcand g hg]; exact h0
  obtain ⟨g, hg, h0⟩ := (hfix i).2
  rw [hcand g hg] at h0
  have := single_of_support hz
  rw [h0] at this
  rw [← this]; exact h1 i

end Max

theorem mem_update_inj {v w : Fin n} {d : Term n} {a b : ℕ} (ha : a ≠ d v)
    (h : Function.update d v a = Function.update d w b) : v = w := by
  by_contra hne
  have := congrFun h v
  rw [Function.update_self, Function.update_of_ne hne] at this
  exact ha this

theorem oneMore_spec {s : Slice n} (hs : SliceInv .msm s) (hfull : ∀ i, lcmOf s.ideal i ≠ 0)
    (hlen : s.ideal.length = n + 1) (hfix : ∀ v, Fix .msm s.ideal v) : Emits s s.oneMoreBaseCase := by
  have hanti := hs.antiI
  have hnd := hs.noDouble rfl
  have hl := hs.getLcm
  unfold Slice.oneMoreBaseCase
  rw [hl]
  set I := s.ideal with hI
  choose γ h1 h2 using exists_max hfull
  obtain ⟨h, hh, hne, hall⟩ := max_surj_one hanti hfull hnd h1 h2 hlen
  have hlt : ∀ i j, j ≠ i → γ i j < lcmOf I j := by
    intro i j hj
    refine lt_of_le_of_ne (le_def.1 (le_lcmOf (h1 i)) j) fun he => hj ?_
    exact hnd hfull (γ i) (h1 i) j i he (h2 i)
  have hcand : ∀ v g, Cand I v g → g = γ v ∨ g = h := by
    rintro v g ⟨hg, _, hc⟩
    rcases hall g hg with rfl | ⟨j, rfl⟩
    · exact Or.inr rfl
    · by_cases hj : j = v
      · exact Or.inl (by rw [hj])
      · exact absurd (h2 j) (hc j hj)
  -- if `h` is no candidate for `v` then `γ v = x_v`
  have hvar : ∀ v, ¬ Cand I v h → γ v = single v 1 := by
    intro v hv
    have hc : ∀ g, Cand I v g → g = γ v := by
      intro g hg
      rcases hcand v g hg with h' | h'
      · exact h'
      · rw [h'] at hg; exact absurd hg hv
    have hz : ∀ j, j ≠ v → γ v j = 0 := by
      intro j hj
      obtain ⟨g, hg, h0⟩ := (hfix v).1 j hj
      rw [← hc g hg]; exact h0
    obtain ⟨g, hg, h0⟩ := (hfix v).2
    rw [hc g hg] at h0
    have := single_of_support hz
    rw [h0] at this; exact this
  have hlcm1 : ∀ v, ¬ Cand I v h → lcmOf I v = 1 := by
    intro v hv
    rw [← h2 v, hvar v hv]; simp
  -- `h` is not maximal in any variable
  have hnm : ∀ u, h u < lcmOf I u := by
    intro u
    refine lt_of_le_of_ne (le_def.1 (le_lcmOf hh) u) fun he => ?_
    have hno : ∀ v, v ≠ u → ¬ Cand I v h := by
      rintro v hv ⟨_, _, hc⟩
      exact hc u hv.symm he
    have h0 : ∀ v, v ≠ u → h v = 0 := by
      intro v hv
      have h3 := hlcm1 v (hno v hv)
      have h4 : h v ≠ lcmOf I v := fun h4 => hv (hnd hfull h hh v u h4 he)
      have := le_def.1 (le_lcmOf hh) v
      omega
    have hle : h ≤ γ u := by
      refine le_def.2 fun j => ?_
      by_cases hj : j = u
      · subst hj; rw [h2, he]
      · rw [h0 j hj]; omega
    exact hne u (hanti.eq_of_le hh (h1 u) hle)
  have hcandh : ∀ v, h v ≠ 0 → Cand I v h := fun v hv => ⟨hh, hv, fun w _ => (hnm w).ne⟩
  have hpure : ∀ v, γ v = single v (lcmOf I v) := by
    intro v
    have : ∀ w, w ≠ v → γ v w = 0 := by
      intro w hw
      by_contra hc
      obtain ⟨g, hg, h0⟩ := (hfix v).1 w hw
      rcases hcand v g hg with rfl | rfl
      · exact hc h0
      · have h3 := hlcm1 w (fun h' => h'.2.1 h0)
        have := hlt v w hw
        omega
    rw [← h2 v]; exact single_of_support this
  have hle1 : ∀ v, h v ≤ 1 := by
    intro v
    obtain ⟨g, hg, h0⟩ := (hfix v).2
    rcases hcand v g hg with rfl | rfl
    · have := hnm v
      rw [← h2 v] at this; omega
    · omega
  have hsup : sizeOfSupport h ≠ 1 := by
    intro h3
    obtain ⟨v, _, hv, he⟩ := eq_single_of_support_one h3
    apply hne v
    apply hanti.eq_of_le hh (h1 v)
    rw [he, single_le_iff, h2 v]
    exact le_def.1 (le_lcmOf hh) v
  have hfind : I.find? (fun g => decide (sizeOfSupport g ≠ 1)) = some h := by
    cases hf : I.find? (fun g => decide (sizeOfSupport g ≠ 1)) with
    | none =>
      rw [List.find?_eq_none] at hf
      exact absurd (hf h hh) (by simpa using hsup)
    | some g =>
      have hg := List.find?_some hf
      rcases hall g (List.mem_of_find?_eq_some hf) with rfl | ⟨j, rfl⟩
      · rfl
      · exfalso
        simp only [decide_eq_true_eq] at hg
        apply hg
        rw [hpure j]
        unfold sizeOfSupport
        rw [Finset.card_eq_one]
        refine ⟨j, ?_⟩
        ext x
        simp only [Finset.mem_filter, Finset.mem_univ, true_and, Finset.mem_singleton]
        by_cases hx : x = j
        · subst hx; simp [hfull]
        · simp [hx]
  rw [hfind]
  simp only
  apply emits_emit
  · apply List.Nodup.map_on
    · intro v hv w _ hvw
      simp only [List.mem_filter, decide_eq_true_eq] at hv
      apply mem_update_inj ?_ hvw
      have := hnm v
      simp only [decrement]; omega
    · exact (List.nodup_finRange n).filter _
  · intro u _
    simp only [List.mem_map, List.mem_filter, List.mem_finRange, true_and, decide_eq_true_eq]
    constructor
    · rintro ⟨v, hv, rfl⟩
      have hlv := hnm v
      refine msm_of_labels ?_ fun i => ?_
      · rintro ⟨g, hg, hle⟩
        rcases hall g hg with rfl | ⟨j, rfl⟩
        · have := le_def.1 hle v
          rw [Function.update_self] at this; omega
        · have := le_def.1 hle j
          have h0 := hfull j
          rw [h2 j] at this
          by_cases hj : j = v
          · subst hj; rw [Function.update_self] at this; omega
          · rw [Function.update_of_ne hj] at this
            simp only [decrement] at this; omega
      · by_cases hi : i = v
        · subst hi
          refine ⟨h, hh, by simp [hv], fun j hj => ?_⟩
          rw [Function.update_of_ne hj]
          have := hnm j
          simp only [decrement]; omega
        · refine ⟨γ i, h1 i, ?_, fun j hj => ?_⟩
          · rw [Function.update_of_ne hi, h2 i]
            have := hfull i
            simp only [decrement]; omega
          · rw [hpure i, single_ne _ hj]; omega
    · intro hm
      have hlab : ∀ i, u i + 1 = lcmOf I i ∨ (u i + 1 = h i ∧ ∀ j, j ≠ i → h j ≤ u j) := by
        intro i
        obtain ⟨g, hg, hl1, hl2⟩ := hm.label i
        rcases hall g hg with rfl | ⟨j, rfl⟩
        · exact Or.inr ⟨hl1.symm, hl2⟩
        · left
          by_cases hj : j = i
          · subst hj; rw [← h2, hl1]
          · have := hl2 j hj
            have h3 : u j < lcmOf I j := hm.lt_lcm j
            rw [h2] at this; omega
      have hex : ∃ v, u v + 1 = h v ∧ ∀ j, j ≠ v → h j ≤ u j := by
        by_contra hc
        apply hm.1
        refine ⟨h, hh, le_def.2 fun i => ?_⟩
        rcases hlab i with h3 | h3
        · have := hnm i; omega
        · exact absurd ⟨i, h3⟩ hc
      obtain ⟨v, hv, hvj⟩ := hex
      have hv1 := hle1 v
      refine ⟨v, by omega, ?_⟩
      funext i
      by_cases hi : i = v
      · subst hi; rw [Function.update_self]; omega
      · rw [Function.update_of_ne hi]
        rcases hlab i with h3 | h3
        · simp only [decrement]; omega
        · have := hvj i hi; omega


/-! ## two variables -/

theorem msm_congr {I J : List (Term n)} (h : ∀ g, g ∈ I ↔ g ∈ J) (u : Term n) : Msm I u ↔ Msm J u := by
  unfold Msm
  rw [mem_congr h]
  simp only [mem_congr h]

theorem fin2_cases {v0 v1 : Fin n} (hn : n = 2) (h0 : v0.val = 0) (h1 : v1.val = 1) (i : Fin n) : i = v0 ∨ i = v1 := by
  have := i.isLt
  rcases Nat.lt_or_ge i.val 1 with h | h
  · left; apply Fin.ext; omega
  · right; apply Fin.ext; omega

theorem msm_two {v0 v1 : Fin n} (hn : n = 2) (h0 : v0.val = 0) (h1 : v1.val = 1) {I : List (Term n)} {u : Term n} :
    Msm I u ↔ (∀ g ∈ I, u v0 < g v0 ∨ u v1 < g v1) ∧ (∃ b ∈ I, b v0 = u v0 + 1 ∧ b v1 ≤ u v1) ∧
      ∃ a ∈ I, a v1 = u v1 + 1 ∧ a v0 ≤ u v0 := by
  have hne : v0 ≠ v1 := fun h => by rw [h] at h0; omega
  constructor
  · intro h
    refine ⟨fun g hg => ?_, ?_, ?_⟩
    · by_contra hc
      push Not at hc
      apply h.1
      refine ⟨g, hg, le_def.2 fun i => ?_⟩
      rcases fin2_cases hn h0 h1 i with rfl | rfl
      · exact hc.1
      · exact hc.2
    · obtain ⟨g, hg, h2, h3⟩ := h.label v0
      exact ⟨g, hg, h2, h3 v1 hne.symm⟩
    · obtain ⟨g, hg, h2, h3⟩ := h.label v1
      exact ⟨g, hg, h2, h3 v0 hne⟩
  · rintro ⟨hm, ⟨b, hb, hb1, hb2⟩, a, ha, ha1, ha2⟩
    refine msm_of_labels ?_ fun i => ?_
    · rintro ⟨g, hg, hle⟩
      have := le_def.1 hle v0
      have := le_def.1 hle v1
      rcases hm g hg with h | h <;> omega
    · rcases fin2_cases hn h0 h1 i with rfl | rfl
      · refine ⟨b, hb, hb1, fun j hj => ?_⟩
        rcases fin2_cases hn h0 h1 j with rfl | rfl
        · exact absurd rfl hj
        · exact hb2
      · refine ⟨a, ha, ha1, fun j hj => ?_⟩
        rcases fin2_cases hn h0 h1 j with rfl | rfl
        · exact ha2
        · exact absurd rfl hj

theorem twoVarMsms_spec {v0 v1 : Fin n} (hn : n = 2) (h0 : v0.val = 0) (h1 : v1.val = 1) (L : List (Term n))
    (hL : L.Pairwise fun a b => a v0 < b v0 ∧ b v1 < a v1) :
    (Slice.twoVarMsms v0 v1 L).Nodup ∧ ∀ u, u ∈ Slice.twoVarMsms v0 v1 L ↔ Msm L u := by
  have hne : v1 ≠ v0 := fun h => by rw [h] at h1; omega
  induction L with
  | nil =>
    refine ⟨by simp [Slice.twoVarMsms], fun u => ?_⟩
    rw [msm_two hn h0 h1]
    simp [Slice.twoVarMsms]
  | cons a L ih =>
    cases L with
    | nil =>
      refine ⟨by simp [Slice.twoVarMsms], fun u => ?_⟩
      rw [msm_two hn h0 h1]
      simp only [Slice.twoVarMsms, List.not_mem_nil, false_iff]
      rintro ⟨_, ⟨b, hb, hb1, hb2⟩, c, hc, hc1, hc2⟩
      simp only [List.mem_singleton] at hb hc
      subst hb; subst hc; omega
    | cons b l =>
      rw [List.pairwise_cons] at hL
      obtain ⟨ihn, ihm⟩ := ih hL.2
      have hab := hL.1 b (by simp)
      have hbl : ∀ c ∈ b :: l, b v0 ≤ c v0 ∧ c v1 ≤ b v1 := by
        intro c hc
        rcases List.mem_cons.1 hc with rfl | hc
        · exact ⟨le_rfl, le_rfl⟩
        · have := (List.pairwise_cons.1 hL.2).1 c hc
          exact ⟨this.1.le, this.2.le⟩
      unfold Slice.twoVarMsms
      set x : Term n := fun i => if i = v0 then b v0 - 1 else a v1 - 1 with hx
      have hx0 : x v0 = b v0 - 1 := by simp [hx]
      have hx1 : x v1 = a v1 - 1 := by simp [hx, hne]
      refine ⟨List.nodup_cons.2 ⟨fun hmem => ?_, ihn⟩, fun u => ?_⟩
      · have hm := (ihm x).1 hmem
        rw [msm_two hn h0 h1] at hm
        obtain ⟨_, _, c, hc, hc1, _⟩ := hm
        have := (hbl c hc).2
        omega
      · rw [List.mem_cons]
        constructor
        · rintro (rfl | hmem)
          · rw [msm_two hn h0 h1]
            refine ⟨fun g hg => ?_, ⟨b, by simp, by omega, by omega⟩, a, by simp, by omega, by omega⟩
            rcases List.mem_cons.1 hg with rfl | hg
            · right; omega
            · left
              have := (hbl g hg).1
              omega
          · have hm := (ihm u).1 hmem
            rw [msm_two hn h0 h1] at hm ⊢
            obtain ⟨hm1, ⟨β, hβ, hβ1, hβ2⟩, α, hα, hα1, hα2⟩ := hm
            refine ⟨fun g hg => ?_, ⟨β, List.mem_cons_of_mem _ hβ, hβ1, hβ2⟩, α, List.mem_cons_of_mem _ hα, hα1, hα2⟩
            rcases List.mem_cons.1 hg with rfl | hg
            · right
              have := (hL.1 α hα).2
              omega
            · exact hm1 g hg
        · intro hm
          rw [msm_two hn h0 h1] at hm
          obtain ⟨hm1, ⟨β, hβ, hβ1, hβ2⟩, α, hα, hα1, hα2⟩ := hm
          rcases List.mem_cons.1 hα with rfl | hα'
          · left
            have hβ' : β ∈ b :: l := by
              rcases List.mem_cons.1 hβ with rfl | h
              · omega
              · exact h
            have h3 := (hbl β hβ').1
            have h4 := hm1 b (by simp)
            funext i
            rcases fin2_cases hn h0 h1 i with rfl | rfl
            · rw [hx0]; omega
            · rw [hx1]; omega
          · right
            rw [ihm u, msm_two hn h0 h1]
            refine ⟨fun g hg => hm1 g (List.mem_cons_of_mem _ hg), ⟨β, ?_, hβ1, hβ2⟩, α, hα', hα1, hα2⟩
            rcases List.mem_cons.1 hβ with rfl | h
            · have := (hL.1 α hα').1
              omega
            · exact h

theorem singleDegreeSort_perm (v : Fin n) (G : List (Term n)) : (singleDegreeSort v G).Perm G :=
  List.perm_insertionSort _ _

theorem singleDegreeSort_sorted (v : Fin n) (G : List (Term n)) :
    (singleDegreeSort v G).Pairwise fun a b => a v ≤ b v := by
  have : Std.Total (fun a b : Term n => a v ≤ b v) := ⟨fun a b => le_total (a v) (b v)⟩
  have : IsTrans (Term n) (fun a b : Term n => a v ≤ b v) := ⟨fun _ _ _ h h' => le_trans h h'⟩
  exact List.pairwise_insertionSort _ _

theorem twoVar_spec {s : Slice n} (hs : SliceInv .msm s) (hn : n = 2) : Emits s (s.twoVarBaseCase hn) := by
  unfold Slice.twoVarBaseCase
  have hp := singleDegreeSort_perm (⟨0, by omega⟩ : Fin n) s.ideal
  have hsort := singleDegreeSort_sorted (⟨0, by omega⟩ : Fin n) s.ideal
  have ha : Anti (singleDegreeSort (⟨0, by omega⟩ : Fin n) s.ideal) := (anti_perm hp).2 hs.antiI
  have hL := twoVarMsms_spec (v0 := ⟨0, by omega⟩) (v1 := ⟨1, by omega⟩) hn rfl rfl
    (singleDegreeSort (⟨0, by omega⟩ : Fin n) s.ideal) (by
      refine List.Pairwise.imp₂ (fun a b h1 h2 => ?_) hsort ha
      have h3 := h2.1
      have h4 := h2.2
      rw [term2_le (h := hn)] at h3 h4
      constructor
      · by_contra hc
        apply h4
        constructor
        · omega
        · by_contra hc2
          apply h3
          constructor <;> omega
      · by_contra hc
        apply h3
        constructor <;> omega)
  exact emits_emit hL.1 fun u _ => (hL.2 u).trans (msm_congr (fun g => hp.mem_iff) u)

/-! ## two generators without maximal exponents -/

theorem update_self_le {d : Term n} {v : Fin n} {a : ℕ} {g : Term n} :
    g ≤ Function.update d v a ↔ g v ≤ a ∧ ∀ j, j ≠ v → g j ≤ d j := by
  rw [le_def]
  constructor
  · intro h
    refine ⟨by simpa using h v, fun j hj => by simpa [hj] using h j⟩
  · rintro ⟨h1, h2⟩ i
    by_cases hi : i = v
    · subst hi; simpa using h1
    · rw [Function.update_of_ne hi]; exact h2 i hi

theorem twoNonMax_spec {s : Slice n} (hs : SliceInv .msm s) (hfull : ∀ i, lcmOf s.ideal i ≠ 0)
    (hfix : ∀ v, Fix .msm s.ideal v) {outs : List (Term n)} (hout : s.twoNonMaxBaseCase = some outs) :
    Emits s outs := by
  have hanti := hs.antiI
  have hnd := hs.noDouble rfl
  have hl := hs.getLcm
  unfold Slice.twoNonMaxBaseCase at hout
  split at hout
  swap
  · simp at hout
  rename_i h1 h2 hnm
  simp only [Option.some.injEq] at hout
  subst hout
  have hmemN : ∀ g, (g ∈ s.ideal ∧ ∀ v, g v ≠ lcmOf s.ideal v) ↔ g = h1 ∨ g = h2 := by
    intro g
    have : g ∈ s.nonMax ↔ g = h1 ∨ g = h2 := by rw [hnm]; simp
    rw [← this]
    unfold Slice.nonMax
    rw [hl]; simp
  set I := s.ideal with hI
  have hh1 : h1 ∈ I := ((hmemN h1).2 (Or.inl rfl)).1
  have hh2 : h2 ∈ I := ((hmemN h2).2 (Or.inr rfl)).1
  have hlt1 : ∀ v, h1 v < lcmOf I v := fun v =>
    lt_of_le_of_ne (le_def.1 (le_lcmOf hh1) v) (((hmemN h1).2 (Or.inl rfl)).2 v)
  have hlt2 : ∀ v, h2 v < lcmOf I v := fun v =>
    lt_of_le_of_ne (le_def.1 (le_lcmOf hh2) v) (((hmemN h2).2 (Or.inr rfl)).2 v)
  have hmax : ∀ g ∈ I, g = h1 ∨ g = h2 ∨ ∃ v, g v = lcmOf I v ∧ ∀ w, w ≠ v → g w < lcmOf I w := by
    intro g hg
    by_cases hc : ∃ v, g v = lcmOf I v
    · obtain ⟨v, hv⟩ := hc
      refine Or.inr (Or.inr ⟨v, hv, fun w hw => ?_⟩)
      exact lt_of_le_of_ne (le_def.1 (le_lcmOf hg) w) fun he => hw (hnd hfull g hg w v he hv)
    · rcases (hmemN g).1 ⟨hg, fun v hv => hc ⟨v, hv⟩⟩ with h | h
      · exact Or.inl h
      · exact Or.inr (Or.inl h)
  have hne12 : h1 ≠ h2 := by
    have : s.nonMax.Nodup := hanti.nodup.filter _
    rw [hnm] at this
    simpa using this
  have hfind : ∀ g ∈ I, ∀ w, (List.finRange n).find? (fun v => decide (g v = s.getLcm v)) = some w ↔ g w = lcmOf I w := by
    intro g hg w
    rw [hl]
    constructor
    · intro h; simpa using List.find?_some h
    · intro h
      cases hf : (List.finRange n).find? (fun v => decide (g v = lcmOf s.ideal v)) with
      | none =>
        rw [List.find?_eq_none] at hf
        exact absurd (hf w (List.mem_finRange w)) (by simpa using h)
      | some v =>
        have := List.find?_some hf
        rw [hnd hfull g hg v w (by simpa using this) h]
  set d := decrement (lcmOf I) with hd
  have hdv : ∀ v, d v + 1 = lcmOf I v := by
    intro v; have := hfull v; simp only [hd, decrement]; omega
  have hld : decrement s.getLcm = d := by rw [hl]
  -- membership in the two candidate lists
  have hP : ∀ u, u ∈ s.twoNonMaxPairs h1 h2 ↔ ∃ v1 v2, v1 ≠ v2 ∧ h2 v1 < h1 v1 ∧ h1 v2 < h2 v2 ∧
      (∀ w, w = v1 ∨ w = v2 ∨ ∃ g ∈ I, g v1 < h1 v1 ∧ g v2 < h2 v2 ∧ g w = lcmOf I w) ∧
      u = Function.update (Function.update d v1 (h1 v1 - 1)) v2 (h2 v2 - 1) := by
    intro u
    unfold Slice.twoNonMaxPairs Slice.twoNonMaxLabels
    simp only [List.mem_flatMap, List.mem_filter, List.mem_finRange, true_and, decide_eq_true_eq, List.mem_map,
      Bool.and_eq_true, hl]
    constructor
    · rintro ⟨v1, ⟨_, h3⟩, v2, ⟨⟨h4, _, h5⟩, h6⟩, rfl⟩
      refine ⟨v1, v2, h4, h3, h5, fun w => ?_, rfl⟩
      rcases h6 w with h | h | ⟨g, hg, ⟨h7, h8⟩, h9⟩
      · exact Or.inl h
      · exact Or.inr (Or.inl h)
      · exact Or.inr (Or.inr ⟨g, hg, h7, h8, (hfind g hg w).1 (by rw [hl]; exact h9)⟩)
    · rintro ⟨v1, v2, h3, h4, h5, h6, rfl⟩
      refine ⟨v1, ⟨by omega, h4⟩, v2, ⟨⟨h3, by omega, h5⟩, fun w => ?_⟩, rfl⟩
      rcases h6 w with h | h | ⟨g, hg, h7, h8, h9⟩
      · exact Or.inl h
      · exact Or.inr (Or.inl h)
      · exact Or.inr (Or.inr ⟨g, hg, ⟨h7, h8⟩, by have := (hfind g hg w).2 h9; rwa [hl] at this⟩)
  have hQ : ∀ u, u ∈ s.twoNonMaxSingles h1 h2 ↔ ∃ v, min (h1 v) (h2 v) ≠ 0 ∧
      u = Function.update d v (min (h1 v) (h2 v) - 1) := by
    intro u
    unfold Slice.twoNonMaxSingles
    simp only [List.mem_map, List.mem_filter, List.mem_finRange, true_and, decide_eq_true_eq, hl]
    constructor
    · rintro ⟨v, h3, rfl⟩; exact ⟨v, h3, rfl⟩
    · rintro ⟨v, h3, rfl⟩; exact ⟨v, h3, rfl⟩
  apply emits_emit
  · -- no duplicates
    rw [List.nodup_append]
    refine ⟨?_, ?_, ?_⟩
    · unfold Slice.twoNonMaxPairs
      rw [List.nodup_flatMap]
      constructor
      · intro v1 hv1
        simp only [List.mem_filter, List.mem_finRange, true_and, decide_eq_true_eq] at hv1
        apply List.Nodup.map_on
        · intro v2 hv2 w2 hw2 he
          simp only [List.mem_filter, List.mem_finRange, true_and, decide_eq_true_eq, Bool.and_eq_true] at hv2 hw2
          rw [hld] at he
          by_contra hne
          have h3 := congrFun he v2
          rw [Function.update_self, Function.update_of_ne hne, Function.update_of_ne (Ne.symm hv2.1.1)] at h3
          have h4 := hdv v2
          have h5 := hlt2 v2
          omega
        · exact (List.nodup_finRange n).filter _
      · refine List.Pairwise.imp_of_mem ?_ ((List.nodup_finRange n).filter _)
        intro v1 w1 hv1 hw1 hne
        simp only [List.mem_filter, List.mem_finRange, true_and, decide_eq_true_eq] at hv1 hw1
        intro u hu hu'
        simp only [List.mem_map, List.mem_filter, List.mem_finRange, true_and, decide_eq_true_eq,
          Bool.and_eq_true] at hu hu'
        obtain ⟨v2, ⟨⟨hv2, _, hv2'⟩, _⟩, rfl⟩ := hu
        obtain ⟨w2, ⟨⟨hw2, _, hw2'⟩, _⟩, he⟩ := hu'
        rw [hld] at he
        -- position `v1` differs from `d`, so `v1 = w2`; then `h2 v1 < h1 v1` contradicts `h1 w2 < h2 w2`
        have h3 := congrFun he v1
        rw [Function.update_of_ne hv2, Function.update_self] at h3
        have h4 := hdv v1
        have h5 := hlt1 v1
        by_cases hvw : v1 = w2
        · subst hvw; omega
        · rw [Function.update_of_ne hvw, Function.update_of_ne hne] at h3
          omega
    · unfold Slice.twoNonMaxSingles
      apply List.Nodup.map_on
      · intro v hv w hw he
        simp only [List.mem_filter, List.mem_finRange, true_and, decide_eq_true_eq] at hv hw
        rw [hld] at he
        apply mem_update_inj ?_ he
        have h4 := hdv v
        have h5 := hlt1 v
        omega
      · exact (List.nodup_finRange n).filter _
    · intro a ha b hb he
      subst he
      obtain ⟨v1, v2, h3, h4, h5, _, rfl⟩ := (hP a).1 ha
      obtain ⟨v, hv, he⟩ := (hQ _).1 hb
      have e1 := congrFun he v1
      have e2 := congrFun he v2
      rw [Function.update_of_ne h3, Function.update_self] at e1
      rw [Function.update_self] at e2
      have := hdv v1
      have := hlt1 v1
      have := hdv v2
      have := hlt2 v2
      by_cases hv1 : v1 = v
      · subst hv1
        rw [Function.update_of_ne (Ne.symm h3)] at e2
        omega
      · rw [Function.update_of_ne hv1] at e1
        omega
  · intro u _
    rw [List.mem_append, hP, hQ]
    constructor
    · rintro (⟨v1, v2, h3, h4, h5, h6, rfl⟩ | ⟨v, hv, rfl⟩)
      · have e1 : Function.update (Function.update d v1 (h1 v1 - 1)) v2 (h2 v2 - 1) v1 = h1 v1 - 1 := by
          rw [Function.update_of_ne h3, Function.update_self]
        have e2 : Function.update (Function.update d v1 (h1 v1 - 1)) v2 (h2 v2 - 1) v2 = h2 v2 - 1 := by
          rw [Function.update_self]
        have e3 : ∀ w, w ≠ v1 → w ≠ v2 →
            Function.update (Function.update d v1 (h1 v1 - 1)) v2 (h2 v2 - 1) w = d w := by
          intro w hw1 hw2
          rw [Function.update_of_ne hw2, Function.update_of_ne hw1]
        have e4 : ∀ w, Function.update (Function.update d v1 (h1 v1 - 1)) v2 (h2 v2 - 1) w < lcmOf I w := by
          intro w
          have := hdv w
          have := hlt1 w
          have := hlt2 w
          by_cases hw1 : w = v1
          · subst hw1; rw [e1]; omega
          · by_cases hw2 : w = v2
            · subst hw2; rw [e2]; omega
            · rw [e3 w hw1 hw2]; omega
        set u := Function.update (Function.update d v1 (h1 v1 - 1)) v2 (h2 v2 - 1) with hu
        refine msm_of_labels ?_ fun i => ?_
        · rintro ⟨g, hg, hle⟩
          rcases hmax g hg with rfl | rfl | ⟨w, hw, _⟩
          · have := le_def.1 hle v1
            omega
          · have := le_def.1 hle v2
            omega
          · have := le_def.1 hle w
            have := e4 w
            omega
        · by_cases hi1 : i = v1
          · subst hi1
            refine ⟨h1, hh1, by omega, fun j hj => ?_⟩
            by_cases hj2 : j = v2
            · subst hj2; omega
            · rw [e3 j hj hj2]
              have := hlt1 j; have := hdv j; omega
          · by_cases hi2 : i = v2
            · subst hi2
              refine ⟨h2, hh2, by omega, fun j hj => ?_⟩
              by_cases hj1 : j = v1
              · subst hj1; omega
              · rw [e3 j hj1 hj]
                have := hlt2 j; have := hdv j; omega
            · rcases h6 i with h | h | ⟨g, hg, h7, h8, h9⟩
              · exact absurd h hi1
              · exact absurd h hi2
              · refine ⟨g, hg, ?_, fun j hj => ?_⟩
                · rw [h9, e3 i hi1 hi2, hdv]
                · by_cases hj1 : j = v1
                  · subst hj1; omega
                  · by_cases hj2 : j = v2
                    · subst hj2; omega
                    · rw [e3 j hj1 hj2]
                      have h10 : g j ≠ lcmOf I j := fun he => hj (hnd hfull g hg j i he h9)
                      have h11 := le_def.1 (le_lcmOf hg) j
                      have := hdv j
                      omega
      · have hb1 := hlt1 v
        have hb2 := hlt2 v
        have hb3 := hdv v
        refine msm_of_labels ?_ fun i => ?_
        · rintro ⟨g, hg, hle⟩
          rw [update_self_le] at hle
          rcases hmax g hg with rfl | rfl | ⟨w, hw, _⟩
          · omega
          · omega
          · have := hdv w
            by_cases hwv : w = v
            · subst hwv; omega
            · have := hle.2 w hwv; omega
        · by_cases hi : i = v
          · subst hi
            rw [Function.update_self]
            rcases le_total (h1 i) (h2 i) with hle | hle
            · refine ⟨h1, hh1, by rw [min_eq_left hle] at hv ⊢; omega, fun j hj => ?_⟩
              rw [Function.update_of_ne hj]
              have := hlt1 j; have := hdv j; omega
            · refine ⟨h2, hh2, by rw [min_eq_right hle] at hv ⊢; omega, fun j hj => ?_⟩
              rw [Function.update_of_ne hj]
              have := hlt2 j; have := hdv j; omega
          · -- the other labels exist since the lower bounds are trivial
            obtain ⟨g, ⟨hg, hgi, hgc⟩, hgv⟩ := (hfix i).1 v (Ne.symm hi)
            rcases hmax g hg with rfl | rfl | ⟨w, hw, hw2⟩
            · omega
            · omega
            · have hwi : w = i := by
                by_contra hne
                exact hgc w hne hw
              subst hwi
              refine ⟨g, hg, ?_, fun j hj => ?_⟩
              · rw [hw, Function.update_of_ne hi, hdv]
              · by_cases hjv : j = v
                · subst hjv; rw [hgv]; omega
                · rw [Function.update_of_ne hjv]
                  have := hw2 j hj; have := hdv j; omega
    · intro hm
      have hlab : ∀ i, (u i = d i ∧ ∃ g ∈ I, g i = lcmOf I i ∧ ∀ j, j ≠ i → g j ≤ u j) ∨
          (h1 i = u i + 1 ∧ ∀ j, j ≠ i → h1 j ≤ u j) ∨ (h2 i = u i + 1 ∧ ∀ j, j ≠ i → h2 j ≤ u j) := by
        intro i
        obtain ⟨g, hg, hl1, hl2⟩ := hm.label i
        rcases hmax g hg with rfl | rfl | ⟨w, hw, _⟩
        · exact Or.inr (Or.inl ⟨hl1, hl2⟩)
        · exact Or.inr (Or.inr ⟨hl1, hl2⟩)
        · left
          have hwi : w = i := by
            by_contra hne
            have h3 := hl2 w hne
            have h4 : u w < lcmOf I w := hm.lt_lcm w
            omega
          subst hwi
          have := hdv w
          exact ⟨by omega, g, hg, hw, hl2⟩
      have hn1 : ∃ v, u v < h1 v := by
        by_contra hc
        push Not at hc
        exact hm.1 ⟨h1, hh1, le_def.2 hc⟩
      have hn2 : ∃ v, u v < h2 v := by
        by_contra hc
        push Not at hc
        exact hm.1 ⟨h2, hh2, le_def.2 hc⟩
      by_cases hA : ∃ v, h1 v = u v + 1 ∧ ∀ j, j ≠ v → h1 j ≤ u j
      · obtain ⟨v1, hv1, hv1'⟩ := hA
        by_cases hB : ∃ v, v ≠ v1 ∧ h2 v = u v + 1 ∧ ∀ j, j ≠ v → h2 j ≤ u j
        · -- two labels
          obtain ⟨v2, hne, hv2, hv2'⟩ := hB
          left
          have h12 := hv1' v2 hne
          have h21 := hv2' v1 (Ne.symm hne)
          have hother : ∀ w, w ≠ v1 → w ≠ v2 → u w = d w ∧ ∃ g ∈ I, g w = lcmOf I w ∧ ∀ j, j ≠ w → g j ≤ u j := by
            intro w hw1 hw2
            rcases hlab w with h | h | h
            · exact h
            · have := hv1' w hw1; omega
            · have := hv2' w hw2; omega
          refine ⟨v1, v2, Ne.symm hne, by omega, by omega, fun w => ?_, ?_⟩
          · by_cases hw1 : w = v1
            · exact Or.inl hw1
            · by_cases hw2 : w = v2
              · exact Or.inr (Or.inl hw2)
              · obtain ⟨_, g, hg, hg1, hg2⟩ := hother w hw1 hw2
                have := hg2 v1 (Ne.symm hw1)
                have := hg2 v2 (Ne.symm hw2)
                exact Or.inr (Or.inr ⟨g, hg, by omega, by omega, hg1⟩)
          · funext w
            by_cases hw2 : w = v2
            · subst hw2; rw [Function.update_self]; omega
            · rw [Function.update_of_ne hw2]
              by_cases hw1 : w = v1
              · subst hw1; rw [Function.update_self]; omega
              · rw [Function.update_of_ne hw1]
                exact (hother w hw1 hw2).1
        · -- one label
          right
          have hother : ∀ w, w ≠ v1 → u w = d w := by
            intro w hw1
            rcases hlab w with h | h | h
            · exact h.1
            · have := hv1' w hw1; omega
            · exact absurd ⟨w, hw1, h⟩ hB
          have h2v : u v1 < h2 v1 := by
            obtain ⟨v, hv⟩ := hn2
            by_cases hvv : v = v1
            · rw [← hvv]; exact hv
            · have := hother v hvv
              have := hlt2 v
              have := hdv v
              omega
          have hmin : min (h1 v1) (h2 v1) = h1 v1 := min_eq_left (by omega)
          refine ⟨v1, by rw [hmin]; omega, ?_⟩
          rw [hmin]
          funext w
          by_cases hw1 : w = v1
          · subst hw1; rw [Function.update_self]; omega
          · rw [Function.update_of_ne hw1]; exact hother w hw1
      · right
        -- the label in a changed position must be `h2`
        have hB : ∃ v, h2 v = u v + 1 ∧ ∀ j, j ≠ v → h2 j ≤ u j := by
          obtain ⟨v, hv⟩ := hn1
          rcases hlab v with h | h | h
          · have := hlt1 v; have := hdv v; omega
          · exact absurd ⟨v, h⟩ hA
          · exact ⟨v, h⟩
        obtain ⟨v2, hv2, hv2'⟩ := hB
        have hother : ∀ w, w ≠ v2 → u w = d w := by
          intro w hw1
          rcases hlab w with h | h | h
          · exact h.1
          · exact absurd ⟨w, h⟩ hA
          · have := hv2' w hw1; omega
        have h1v : u v2 < h1 v2 := by
          obtain ⟨v, hv⟩ := hn1
          by_cases hvv : v = v2
          · rw [← hvv]; exact hv
          · have := hother v hvv
            have := hlt1 v
            have := hdv v
            omega
        have hmin : min (h1 v2) (h2 v2) = h2 v2 := min_eq_right (by omega)
        refine ⟨v2, by rw [hmin]; omega, ?_⟩
        rw [hmin]
        funext w
        by_cases hw1 : w = v2
        · subst hw1; rw [Function.update_self]; omega
        · rw [Function.update_of_ne hw1]; exact hother w hw1

/-! ## all base cases -/

/-- What is known about a slice when it is processed. -/
structure Ready (k : Kind) (simplified : Bool) (s : Slice n) : Prop where
  inv : SliceInv k s
  zero : n = 0 → s.subtract = []
  one : n = 1 → ∀ v, Slice.leastPositive s.ideal v ≤ 1
  fix : simplified = true → 2 ≤ n → AllFix k s

theorem msmBaseCase_spec {simplified : Bool} {s : Slice n} (hr : Ready .msm simplified s) {outs : List (Term n)}
    (hout : s.msmBaseCase simplified = some outs) : Emits s outs := by
  have hs := hr.inv
  have hanti := hs.antiI
  have hnd := hs.noDouble rfl
  have hl := hs.getLcm
  unfold Slice.msmBaseCase at hout
  rw [hl] at hout
  split at hout
  · rename_i hlen
    obtain rfl : [] = outs := by simpa using hout
    exact emits_nil fun u _ hm => absurd hm.length_ge (by omega)
  rename_i hlen
  split at hout
  · rename_i hsup
    obtain rfl : [] = outs := by simpa using hout
    refine emits_nil fun u _ hm => ?_
    have : n ≤ sizeOfSupport (lcmOf s.ideal) := (sizeOfSupport_eq_iff _).2 fun i => by
      have := hm.lt_lcm i; omega
    omega
  rename_i hsup
  have hfull : ∀ i, lcmOf s.ideal i ≠ 0 := (sizeOfSupport_eq_iff _).1 (by omega)
  split at hout
  · rename_i hn0
    subst hn0
    have hS := hr.zero rfl
    by_cases hI : s.ideal = []
    · have : [s.multiply] = outs := by simpa [hI] using hout
      subst this
      refine emits_zero (by simp [hS, mem]) fun v => ?_
      constructor
      · intro _; funext i; exact i.elim0
      · intro _; rw [hI]; exact ⟨by simp [mem], fun i => i.elim0⟩
    · have : [] = outs := by
        have h1 : s.ideal.isEmpty = false := by simpa using hI
        simpa [h1] using hout
      subst this
      refine emits_nil fun u _ hm => hm.1 ?_
      obtain ⟨g, hg⟩ := List.exists_mem_of_ne_nil _ hI
      exact ⟨g, hg, le_def.2 fun i => i.elim0⟩
  rename_i hn0
  have hpos : 0 < n := Nat.pos_of_ne_zero hn0
  have hS0 : ¬ mem s.subtract 0 := not_mem_sub_zero hs (hfull ⟨0, hpos⟩)
  have hvars : (∀ i, single i 1 ∈ s.ideal) → Emits s [s.multiply] := fun h =>
    emits_zero hS0 (msm_vars hanti hpos h)
  split at hout
  · rename_i hn1
    obtain rfl : [s.multiply] = outs := by simpa using hout
    apply hvars
    intro i
    have hlp := hr.one hn1 i
    obtain ⟨g, hg, he⟩ := exists_max hfull i
    have hlp0 : Slice.leastPositive s.ideal i ≠ 0 := by
      intro h0
      have := leastPositive_zero h0 g hg
      rw [he] at this; exact hfull i this
    obtain ⟨g', hg', he'⟩ := leastPositive_attained hlp0
    have : g' = single i 1 := by
      funext j
      have hj : j = i := Fin.ext (by have := j.isLt; have := i.isLt; omega)
      subst hj; simp; omega
    rw [← this]; exact hg'
  rename_i hn1
  split at hout
  · split at hout
    · rename_i hsq
      obtain rfl : [s.multiply] = outs := by simpa using hout
      exact hvars (squarefree_vars hfull hnd hsq)
    · rename_i hsq
      split at hout
      swap
      · simp at hout
      rename_i hlenn
      have hmsm := msm_len_n hanti hfull hnd hlenn
      split at hout
      · rename_i hSe
        obtain rfl : [s.multiply + decrement (lcmOf s.ideal)] = outs := by simpa using hout
        have hSe' : s.subtract = [] := by simpa using hSe
        exact emits_one (by simp [hSe', mem]) hmsm
      · simp only at hout
        have hin := inner_spec (k := .msm) (touchLcm_inv hs) (decrement (lcmOf s.ideal))
        set t := (s.touchLcm.inner .msm (decrement (lcmOf s.ideal))) with ht
        by_cases hmS : mem s.subtract (decrement (lcmOf s.ideal))
        · have h0S : mem t.1.subtract 0 := by
            rw [hin.sub]; simpa using hmS
          have hlt : t.1.ideal.length < n := by
            by_contra hc
            have hallz : ∀ g ∈ t.1.ideal, g = 0 := by
              intro g hg
              by_contra hg0
              obtain ⟨x, hx, hx0⟩ := h0S
              refine hin.inv.norm x hx g hg ⟨fun i => Or.inr ?_, hg0⟩
              have := le_def.1 hx0 i; simpa using this
            have hle1 : t.1.ideal.length ≤ 1 := by
              have hnd' := hin.inv.antiI.nodup
              by_contra hc1
              match hI' : t.1.ideal with
              | [] => rw [hI'] at hc1; simp at hc1
              | [_] => rw [hI'] at hc1; simp at hc1
              | a :: b :: l =>
                rw [hI'] at hallz hnd'
                have ha := hallz a (by simp)
                have hb := hallz b (by simp)
                rw [ha, hb] at hnd'
                simp at hnd'
            omega
          rw [if_pos hlt] at hout
          obtain rfl : [] = outs := by simpa using hout
          refine emits_nil fun u hu hm => ?_
          rw [(hmsm u).1 hm] at hu
          exact hu hmS
        · have hge : ¬ t.1.ideal.length < n := by
            have hc : cval .msm t.1 (t.1.multiply) ≠ 0 := by
              rw [hin.cval, hin.mul, if_pos (by exact le_rfl)]
              rw [cval_touchLcm, cval_msm_ne]
              simp only [touchLcm_multiply]
              rw [term_add_sub_cancel]
              exact ⟨term_le_add, hmS, (hmsm _).2 rfl⟩
            rw [cval_msm_ne] at hc
            have := hc.2.2.length_ge
            omega
          rw [if_neg hge] at hout
          have : [s.multiply + decrement (lcmOf s.ideal)] = outs := by
            rw [hin.mul] at hout
            simpa using hout
          subst this
          exact emits_one hmS hmsm
  · rename_i hsimp
    have hsimp' : simplified = true := by simpa using hsimp
    split at hout
    · rename_i hn2
      obtain rfl : s.twoVarBaseCase hn2 = outs := by simpa using hout
      exact twoVar_spec hs hn2
    · rename_i hn2
      have hfix : ∀ v, Fix .msm s.ideal v := by
        rcases hr.fix hsimp' (by omega) with h | h
        · rw [h] at hlen; simp at hlen; omega
        · exact h
      split at hout
      · split at hout
        · rename_i hlen1
          obtain rfl : s.oneMoreBaseCase = outs := by simpa using hout
          exact oneMore_spec hs hfull hlen1 hfix
        · exact twoNonMax_spec hs hfull hfix hout
      · obtain rfl : [s.multiply] = outs := by simpa using hout
        exact hvars (fix_len_n hanti hfull hnd (by omega) hfix)

end Frobby

import Verif.SplitLemmas
import Mathlib.Data.Set.Card

/-!
# Correctness and termination of the slice algorithm
-/

namespace Frobby

open Term

variable {n : ℕ}

/-! ## the size of the room -/

theorem room_subset (s : Slice n) :
    {u | Room s u} ⊆ (Fintype.piFinset fun i => Finset.range (lcmOf s.ideal i) : Finset (Term n)) := by
  intro u hu
  simp only [Finset.mem_coe, Fintype.mem_piFinset, Finset.mem_range]
  exact hu.1

theorem room_finite (s : Slice n) : {u | Room s u}.Finite :=
  Set.Finite.subset (Finset.finite_toSet _) (room_subset s)

/-- The number of monomials a slice has room for. -/
noncomputable def roomCard (s : Slice n) : ℕ := Set.ncard {u | Room s u}

theorem roomCard_le (s : Slice n) : roomCard s ≤ ∏ i, lcmOf s.ideal i := by
  have := Set.ncard_le_ncard (room_subset s) (Finset.finite_toSet _)
  rw [Set.ncard_coe_finset, Fintype.card_piFinset] at this
  simpa [roomCard] using this

theorem roomCard_le_of {s : Slice n} {n' : ℕ} {s' : Slice n'} (f : Term n' → Term n) (hf : Function.Injective f)
    (h : ∀ u, Room s' u → Room s (f u)) : roomCard s' ≤ roomCard s := by
  unfold roomCard
  rw [← Set.ncard_image_of_injective _ hf]
  exact Set.ncard_le_ncard (by rintro _ ⟨u, hu, rfl⟩; exact h u hu) (room_finite s)

theorem roomCard_lt_of {s s' : Slice n} (f : Term n → Term n) (hf : Function.Injective f)
    (h : ∀ u, Room s' u → Room s (f u)) {w : Term n} (hw : Room s w) (hne : ∀ u, Room s' u → f u ≠ w) :
    roomCard s' < roomCard s := by
  unfold roomCard
  rw [← Set.ncard_image_of_injective _ hf]
  refine Set.ncard_lt_ncard ⟨by rintro _ ⟨u, hu, rfl⟩; exact h u hu, fun hc => ?_⟩ (room_finite s)
  obtain ⟨u, hu, he⟩ := hc hw
  exact hne u hu he

theorem add_injective (p : Term n) : Function.Injective (fun u : Term n => u + p) := by
  intro a b h
  funext i
  have := congrFun h i
  simp only [Pi.add_apply] at this
  omega

theorem Reduces.roomCard_le {s s' : Slice n} (h : Reduces s s') : roomCard s' ≤ roomCard s := by
  obtain ⟨p, _, _, hr, _⟩ := h.ex
  exact roomCard_le_of _ (add_injective p) hr

theorem InnerSpec.roomCard_lt {k : Kind} {p : Term n} {s : Slice n} {r} (h : InnerSpec k p s r) (hp : p ≠ 0)
    (h0 : Room s 0) : roomCard r.1 < roomCard s := by
  refine roomCard_lt_of _ (add_injective p) h.room h0 fun u _ he => hp ?_
  funext i
  have := congrFun he i
  simp only [Pi.add_apply, Pi.zero_apply] at this
  simp only [Pi.zero_apply]; omega

theorem OuterSpec.roomCard_lt {k : Kind} {p : Term n} {s r : Slice n} (h : OuterSpec k p s r) (hp : Room s p) :
    roomCard r < roomCard s :=
  roomCard_lt_of id Function.injective_id (fun u hu => (h.room u hu).1) hp
    fun u hu he => (h.room u hu).2 (by rw [← he]; rfl)

theorem inverseProject_injective {vs : List (Fin n)} (h : vs.Nodup) : Function.Injective (inverseProject vs 0) := by
  intro a b hab
  rw [← proj_inverseProject h 0 a, ← proj_inverseProject h 0 b, hab]

/-! ## the invariant of a run -/

/-- What holds of every slice that the algorithm processes. -/
structure RInv (k : Kind) (o : Opts) (s : Slice n) : Prop where
  inv : SliceInv k s
  zero : n = 0 → s.subtract = []
  one : k = .msm → n = 1 → ∀ v, Slice.leastPositive s.ideal v ≤ 1
  fix : o.simp = true → 2 ≤ n → AllFix k s
  lab : o.split.isLabel = true → 2 ≤ n → ∀ v, Slice.leastPositive s.ideal v ≤ 1

/-- The split strategies that can be used: degree splits need a grading, and Hilbert slices have no labels
(SplitStrategy.cpp:36-53, 400-402). -/
def Opts.valid (k : Kind) (o : Opts) : Prop :=
  o.split ≠ .degree ∧ (k = .hilbert → o.split.isLabel = false)

theorem leastPositive_of_fix {k : Kind} {s : Slice n} (h : AllFix k s) (v : Fin n) :
    Slice.leastPositive s.ideal v ≤ 1 := by
  rcases h with h | h
  · rw [h]; simp [Slice.leastPositive]
  · cases k with
    | msm =>
      obtain ⟨_, g, hg, h1⟩ := h v
      have := leastPositive_le hg.1 hg.2.1
      omega
    | hilbert =>
      obtain ⟨g, hg, h0, h1⟩ := h v v
      have := leastPositive_le hg h0
      omega

theorem simplifyWith_spec {k : Kind} {o : Opts} {s : Slice n} (hs : SliceInv k s) (hn : 0 < n) (hn2 : k = .msm → 2 ≤ n) :
    ∃ r, s.simplifyWith k o = some r ∧ SimpSpec k s r ∧ RInv k o r := by
  unfold Slice.simplifyWith
  by_cases h1 : o.simp = true
  · obtain ⟨r, hr, h2, h3⟩ := simplify_spec hs hn
    exact ⟨r.1, by simp [h1, hr], h2, h2.inv, by omega, fun hk h => absurd (hn2 hk) (by omega), fun _ => h3.2,
      fun _ hn => leastPositive_of_fix (h3.2 hn)⟩
  · rw [if_neg h1]
    by_cases h2 : o.split.isLabel = true
    · rw [if_pos h2]
      obtain ⟨h3, h4⟩ := adjustMultiply_spec hs
      exact ⟨_, rfl, h3, h3.inv, by omega, fun hk h => absurd (hn2 hk) (by omega), fun h => absurd h h1, fun _ _ => h4⟩
    · rw [if_neg h2]
      exact ⟨_, rfl, SimpSpec.refl hs, hs, by omega, fun hk h => absurd (hn2 hk) (by omega), fun h => absurd h h1, fun h => absurd h h2⟩

/-- What is known of a slice that is not a base case. -/
structure NonBase (k : Kind) (s : Slice n) : Prop where
  two : k = .msm → 2 ≤ n
  full : ∀ i, lcmOf s.ideal i ≠ 0
  nsq : ¬ isSquareFree (lcmOf s.ideal)
  len : k = .msm → n < s.ideal.length

theorem length_of_vars {I : List (Term n)} (hI : Anti I) (h : ∀ v, single v 1 ∈ I) (h0 : (0 : Term n) ∉ I) :
    I.length ≤ n := by
  refine length_le_of_counts hI h0 fun v => ?_
  rw [supportCounts, List.countP_eq_length_filter]
  have hsub : ∀ g ∈ I.filter (fun g => decide (0 < g v)), g = single v 1 := by
    intro g hg
    rw [List.mem_filter] at hg
    exact only_of_var_mem hI (h v) hg.1 (by have := hg.2; simp at this; omega)
  have hnd : (I.filter fun g => decide (0 < g v)).Nodup := hI.nodup.filter _
  match hL : I.filter (fun g => decide (0 < g v)) with
  | [] => rw [hL]; simp
  | [a] => rw [hL]; simp
  | a :: b :: l =>
    rw [hL] at hsub hnd
    have := (hsub a (by simp)).trans (hsub b (by simp)).symm
    simp [this] at hnd

theorem zero_notMem_of_full {I : List (Term n)} (hI : Anti I) (hn : 0 < n) (hfull : ∀ i, lcmOf I i ≠ 0) :
    ¬ mem I 0 := by
  rintro ⟨z, hz, hz0⟩
  have hz0 : z = 0 := by
    funext i; have := le_def.1 hz0 i; simp only [Pi.zero_apply] at this ⊢; omega
  obtain ⟨g, hg, he⟩ := lcmOf_attained (G := I) (i := ⟨0, hn⟩) (Nat.pos_of_ne_zero (hfull _))
  have : z = g := hI.eq_of_le hz hg (by rw [hz0]; exact le_def.2 fun i => by simp)
  have h2 := hfull ⟨0, hn⟩
  rw [← he, ← this, hz0] at h2
  exact h2 rfl

theorem nonBase {k : Kind} {o : Opts} {s : Slice n} (hs : RInv k o s) (h : s.baseCase k o.simp = none) :
    NonBase k s := by
  have hl := hs.inv.getLcm
  cases k with
  | hilbert =>
    simp only [Slice.baseCase, Slice.hilbertBaseCase, hl] at h
    split at h
    · simp at h
    rename_i hsup
    split at h
    · rename_i hsq
      exact ⟨by simp, (sizeOfSupport_eq_iff _).1 (by omega), hsq, by simp⟩
    · split at h
      · simp at h
      · split at h
        · simp at h
        · split at h <;> simp at h
  | msm =>
    simp only [Slice.baseCase, Option.map_eq_none_iff, Slice.msmBaseCase, hl] at h
    split at h
    · simp at h
    rename_i hlen
    split at h
    · simp at h
    rename_i hsup
    have hfull : ∀ i, lcmOf s.ideal i ≠ 0 := (sizeOfSupport_eq_iff _).1 (by omega)
    split at h
    · simp at h
    rename_i hn0
    split at h
    · simp at h
    rename_i hn1
    split at h
    · rename_i hsimp
      split at h
      · simp at h
      rename_i hsq
      split at h
      · split at h
        · simp at h
        · split at h <;> simp at h
      · exact ⟨fun _ => by omega, hfull, hsq, fun _ => by omega⟩
    · split at h
      · simp at h
      split at h
      · rename_i hlt
        refine ⟨fun _ => by omega, hfull, fun hsq => ?_, fun _ => hlt⟩
        have h0 : (0 : Term n) ∉ s.ideal := fun h0 =>
          zero_notMem_of_full hs.inv.antiI (by omega) hfull (mem_self h0)
        have := length_of_vars hs.inv.antiI (fun v => squarefree_vars hfull (hs.inv.noDouble rfl) hsq v) h0
        omega
      · simp at h

theorem NonBase.pos {k : Kind} {s : Slice n} (h : NonBase k s) : 0 < n := by
  by_contra hc
  have : n = 0 := by omega
  subst this
  exact h.nsq fun i => i.elim0

theorem NonBase.room_zero {k : Kind} {s : Slice n} (hs : SliceInv k s) (h : NonBase k s) : Room s 0 := by
  have hI := zero_notMem_of_full hs.antiI h.pos h.full
  refine ⟨fun i => Nat.pos_of_ne_zero (h.full i), hI, ?_⟩
  rintro ⟨t, ht, ht0⟩
  obtain ⟨g, hg, he⟩ := lcmOf_attained (G := s.ideal) (i := ⟨0, h.pos⟩) (Nat.pos_of_ne_zero (h.full _))
  refine hs.norm t ht g hg ⟨fun i => ?_, fun h0 => hI ⟨g, hg, by rw [h0]⟩⟩
  right
  have := le_def.1 ht0 i
  simpa using this

theorem ValidPivot.room {k : Kind} {s : Slice n} (hs : SliceInv k s) (h : NonBase k s) {p : Term n}
    (hp : ValidPivot s.ideal p) : Room s p := by
  obtain ⟨h0, g, hg, hd⟩ := hp
  have hlt : ∀ i, p i < lcmOf s.ideal i := by
    intro i
    rcases hd.1 i with h1 | h1
    · exact lt_of_lt_of_le h1 (le_def.1 (le_lcmOf hg) i)
    · rw [h1]; exact Nat.pos_of_ne_zero (h.full i)
  refine ⟨hlt, ?_, ?_⟩
  · rintro ⟨g', hg', hle⟩
    have he : g' = g := hs.antiI.eq_of_le hg' hg (hle.trans hd.le)
    obtain ⟨i, hi⟩ := exists_ne_zero hd.2
    have := le_def.1 hle i
    rw [he] at this
    rcases hd.1 i with h1 | h1 <;> omega
  · rintro ⟨t, ht, hle⟩
    refine hs.norm t ht g hg ⟨fun i => ?_, hd.2⟩
    have := le_def.1 hle i
    rcases hd.1 i with h1 | h1
    · left; omega
    · right; omega

/-! ## splits -/

/-- The slices that a slice is split into have its content and less room. -/
structure SplitSpec (k : Kind) (o : Opts) (s : Slice n) (c : Slice n × Option (Slice n)) : Prop where
  first : RInv k o c.1
  roomFirst : roomCard c.1 < roomCard s
  second : ∀ b, c.2 = some b → RInv k o b ∧ roomCard b < roomCard s
  cval : ∀ m, cval k s m = cval k c.1 m + (match c.2 with | none => 0 | some b => cval k b m)
  disj : ∀ b, c.2 = some b → ∀ m, Frobby.cval k c.1 m = 0 ∨ Frobby.cval k b m = 0

theorem pivot_disj {k : Kind} {s : Slice n} {p : Term n} {r} {t : Slice n} (hi : InnerSpec k p s r)
    (ho : OuterSpec k p s t) (m : Term n) : cval k r.1 m = 0 ∨ cval k t m = 0 := by
  rw [hi.cval, ho.cval]
  split <;> simp

theorem cval_msm_zero_or_one (s : Slice n) (m : Term n) : cval .msm s m = 0 ∨ cval .msm s m = 1 := by
  unfold cval
  rw [val_msm_eq]
  split
  · split <;> simp
  · simp

theorem pivot_cval {k : Kind} {s : Slice n} {p : Term n} {r} {t : Slice n} (hi : InnerSpec k p s r)
    (ho : OuterSpec k p s t) (m : Term n) : cval k s m = cval k r.1 m + cval k t m := by
  rw [hi.cval, ho.cval]
  split <;> simp

theorem mem_labels {s : Slice n} {k : Kind} (hs : SliceInv k s) {v : Fin n} {g : Term n} :
    g ∈ labels s v ↔ g ∈ s.ideal ∧ g v = 1 ∧ ¬ mem s.subtract (g - single v 1) ∧
      ∀ w, (g - single v 1) w ≠ lcmOf s.ideal w := by
  unfold labels
  rw [List.mem_filter, hs.getLcm]
  simp [← contains_iff]

theorem label_of_content {s : Slice n} (hs : SliceInv .msm s) {v : Fin n} {u : Term n} (hu : Msm s.ideal u)
    (hS : ¬ mem s.subtract u) (h0 : u v = 0) : ∃ g ∈ labels s v, g - single v 1 ≤ u := by
  obtain ⟨g, hg, hgv, hle⟩ := hu.label v
  have h1 : g - single v 1 ≤ u := by
    refine le_def.2 fun j => ?_
    by_cases hj : j = v
    · subst hj; simp only [Pi.sub_apply, single_same]; omega
    · have := hle j hj; simp only [Pi.sub_apply]; omega
  refine ⟨g, (mem_labels hs).2 ⟨hg, by omega, fun h => hS (mem_of_le h h1), fun w hw => ?_⟩, h1⟩
  have := hu.lt_lcm w
  have := le_def.1 h1 w
  omega

theorem cval_ne_iff {s : Slice n} {m : Term n} :
    cval .msm s m ≠ 0 ↔ s.multiply ≤ m ∧ ¬ mem s.subtract (m - s.multiply) ∧ Msm s.ideal (m - s.multiply) := by
  unfold cval
  rw [val_msm_eq]
  by_cases h1 : s.multiply ≤ m ∧ ¬ mem s.subtract (m - s.multiply)
  · rw [if_pos h1]
    by_cases h2 : Msm s.ideal (m - s.multiply)
    · simp [h2, h1]
    · simp [h2]
  · rw [if_neg h1]
    constructor
    · intro h; exact absurd rfl h
    · intro h; exact absurd ⟨h.1, h.2.1⟩ h1

theorem add_le_iff_le_sub {a b m : Term n} (h : a ≤ m) : a + b ≤ m ↔ b ≤ m - a := by
  simp only [le_def, Pi.add_apply, Pi.sub_apply]
  constructor
  · intro h1 i; have := h1 i; omega
  · intro h1 i; have := h1 i; have := le_def.1 h i; omega

theorem labelSplit_spec {s : Slice n} (hs : SliceInv .msm s) (hnb : NonBase .msm s) {v : Fin n}
    (hv : ValidLabel s.ideal v) {c} (hc : s.labelSplit .msm v = c) :
    SliceInv .msm c.1 ∧ roomCard c.1 < roomCard s ∧
      (∀ b, c.2 = some b → SliceInv .msm b ∧ roomCard b < roomCard s) ∧
      ∀ m, cval .msm s m = cval .msm c.1 m + (match c.2 with | none => 0 | some b => cval .msm b m) := by
  have hx0 : single v 1 ≠ (0 : Term n) := fun h => by simpa using congrFun h v
  have hix := inner_spec hs (single v 1)
  have h0 := hnb.room_zero hs
  have hlab0 : ∀ g ∈ labels s v, g - single v 1 ≠ 0 := by
    intro g hg h
    obtain ⟨h1, h2, _⟩ := (mem_labels hs).1 hg
    apply hv.1
    have : g = single v 1 := by
      funext i
      have := congrFun h i
      simp only [Pi.sub_apply, Pi.zero_apply] at this
      by_cases hi : i = v
      · subst hi; simpa using h2
      · rw [single_ne _ hi] at this ⊢; omega
    rw [← this]; exact h1
  unfold Slice.labelSplit at hc
  split at hc
  · rename_i hL
    subst hc
    refine ⟨hix.inv, hix.roomCard_lt hx0 h0, by simp, fun m => ?_⟩
    simp only [add_zero]
    rw [hix.cval]
    split
    · rfl
    · rename_i hm
      by_contra hne
      obtain ⟨h1, h2, h3⟩ := cval_ne_iff.1 hne
      rw [add_le_iff_le_sub h1, single_le_iff] at hm
      obtain ⟨g, hg, _⟩ := label_of_content hs h3 h2 (v := v) (by omega)
      rw [hL] at hg; simp at hg
  · rename_i g hL
    subst hc
    have hg : g ∈ labels s v := by rw [hL]; simp
    have hig := inner_spec hs (g - single v 1)
    refine ⟨hix.inv, hix.roomCard_lt hx0 h0, ?_, fun m => ?_⟩
    · intro b hb
      obtain rfl := Option.some.inj hb
      exact ⟨hig.inv, hig.roomCard_lt (hlab0 g hg) h0⟩
    · simp only
      rw [hix.cval, hig.cval]
      by_cases hz : cval .msm s m = 0
      · rw [hz]; simp
      obtain ⟨h1, h2, h3⟩ := cval_ne_iff.1 hz
      rw [if_congr (add_le_iff_le_sub h1) rfl rfl, if_congr (add_le_iff_le_sub h1) rfl rfl,
        if_congr single_le_iff rfl rfl]
      by_cases hmv : 1 ≤ (m - s.multiply) v
      · rw [if_pos hmv, if_neg, add_zero]
        intro hle
        apply h3.1
        refine ⟨g, ((mem_labels hs).1 hg).1, le_def.2 fun j => ?_⟩
        have := le_def.1 hle j
        have hgv := ((mem_labels hs).1 hg).2.1
        by_cases hj : j = v
        · subst hj; omega
        · simpa [hj] using this
      · rw [if_neg hmv]
        obtain ⟨g', hg', hle⟩ := label_of_content hs h3 h2 (v := v) (by omega)
        rw [hL] at hg'
        obtain rfl := List.mem_singleton.1 hg'
        rw [if_pos hle, zero_add]
  · rename_i g g2 l hL
    subst hc
    have hg : g ∈ labels s v := by rw [hL]; simp
    have hig := inner_spec hs (g - single v 1)
    have hog := outer_spec hs (hlab0 g hg)
    obtain ⟨m1, m2, m3, m4⟩ := (mem_labels hs).1 hg
    have hroom : Room s (g - single v 1) := by
      refine ⟨fun i => ?_, ?_, m3⟩
      · have := m4 i
        have := le_def.1 (le_lcmOf m1) i
        simp only [Pi.sub_apply] at *
        omega
      · rintro ⟨g', hg', hle⟩
        have : g' = g := hs.antiI.eq_of_le hg' m1 (hle.trans (le_def.2 fun i => by simp))
        have h1 := le_def.1 hle v
        rw [this] at h1
        simp only [Pi.sub_apply, single_same] at h1
        omega
    refine ⟨hog.inv, hog.roomCard_lt hroom, ?_, fun m => ?_⟩
    · intro b hb
      obtain rfl := Option.some.inj hb
      exact ⟨hig.inv, hig.roomCard_lt (hlab0 g hg) h0⟩
    · simp only
      rw [pivot_cval hig hog, add_comm]

theorem children_spec {k : Kind} {o : Opts} (ho : o.valid k) {s : Slice n} (hs : RInv k o s) (hnb : NonBase k s)
    (rnd : ℕ → ℕ) : ∃ c, s.children k o rnd = some c ∧ SplitSpec k o s c := by
  unfold Slice.children
  by_cases hlab : k = .msm ∧ o.split.isLabel = true
  · rw [if_pos hlab]
    obtain ⟨rfl, hlab⟩ := hlab
    obtain ⟨v, hv, hvl⟩ := labelVar_spec hlab hs.inv.antiI (hnb.two rfl) hnb.full (hs.lab hlab (hnb.two rfl)) hnb.nsq (hnb.len rfl)
    simp only [hv]
    obtain ⟨h1, h2, h3, h4⟩ := labelSplit_spec hs.inv hnb hvl rfl
    match hc : s.labelSplit .msm v with
    | (a, none) =>
      rw [hc] at h1 h2 h4
      obtain ⟨r, hr, hr1, hr2⟩ := simplifyWith_spec (o := o) h1 hnb.pos hnb.two
      refine ⟨(r, none), by simp [hr], hr2, lt_of_le_of_lt hr1.red.roomCard_le h2, by simp, fun m => ?_, by simp⟩
      simp only [add_zero]
      rw [hr1.cval]; simpa using h4 m
    | (a, some b) =>
      rw [hc] at h1 h2 h3 h4
      obtain ⟨h5, h6⟩ := h3 b rfl
      obtain ⟨r, hr, hr1, hr2⟩ := simplifyWith_spec (o := o) h1 hnb.pos hnb.two
      obtain ⟨t, ht, ht1, ht2⟩ := simplifyWith_spec (o := o) h5 hnb.pos hnb.two
      refine ⟨(r, some t), by simp only at hr ht; simp only [hr, ht], hr2,
        lt_of_le_of_lt hr1.red.roomCard_le h2, ?_, fun m => ?_, ?_⟩
      · intro b' hb'
        obtain rfl := Option.some.inj hb'
        exact ⟨ht2, lt_of_le_of_lt ht1.red.roomCard_le h6⟩
      · simp only
        rw [hr1.cval, ht1.cval]; simpa using h4 m
      · intro b' hb' m
        obtain rfl := Option.some.inj hb'
        simp only
        rw [hr1.cval, ht1.cval]
        have h7 := h4 m
        simp only at h7 ⊢
        rcases cval_msm_zero_or_one s m with h8 | h8 <;> rcases cval_msm_zero_or_one a m with h9 | h9 <;>
          rcases cval_msm_zero_or_one b m with h10 | h10 <;> omega
  · rw [if_neg hlab]
    have hl : o.split.isLabel = false := by
      cases k with
      | msm => by_contra hc; exact hlab ⟨rfl, by simpa using hc⟩
      | hilbert => exact ho.2 rfl
    rw [hs.inv.getLcm]
    obtain ⟨p, hp, hpv⟩ := getPivot_spec hl ho.1 rnd hnb.nsq
    simp only [hp]
    have hi := inner_spec hs.inv p
    have hout := outer_spec hs.inv hpv.1
    have hri := hi.roomCard_lt hpv.1 (hnb.room_zero hs.inv)
    have hro := hout.roomCard_lt (hpv.room hs.inv hnb)
    obtain ⟨r, hr, hr1, hr2⟩ := simplifyWith_spec (o := o) hi.inv hnb.pos hnb.two
    obtain ⟨t, ht, ht1, ht2⟩ := simplifyWith_spec (o := o) hout.inv hnb.pos hnb.two
    simp only [hr, ht]
    split
    · refine ⟨_, rfl, hr2, lt_of_le_of_lt hr1.red.roomCard_le hri, ?_, fun m => ?_, ?_⟩
      · intro b hb
        obtain rfl := Option.some.inj hb
        exact ⟨ht2, lt_of_le_of_lt ht1.red.roomCard_le hro⟩
      · simp only
        rw [hr1.cval, ht1.cval, pivot_cval hi hout]
      · intro b hb m
        obtain rfl := Option.some.inj hb
        simp only
        rw [hr1.cval, ht1.cval]
        exact pivot_disj hi hout m
    · refine ⟨_, rfl, ht2, lt_of_le_of_lt ht1.red.roomCard_le hro, ?_, fun m => ?_, ?_⟩
      · intro b hb
        obtain rfl := Option.some.inj hb
        exact ⟨hr2, lt_of_le_of_lt hr1.red.roomCard_le hri⟩
      · simp only
        rw [hr1.cval, ht1.cval, pivot_cval hi hout, add_comm]
      · intro b hb m
        obtain rfl := Option.some.inj hb
        simp only
        rw [hr1.cval, ht1.cval]
        exact (pivot_disj hi hout m).symm

/-! ## the whole algorithm -/

theorem touch_rinv {k : Kind} {o : Opts} {s : Slice n} (h : RInv k o s) : RInv k o s.touchLcm :=
  ⟨touchLcm_inv h.inv, h.zero, h.one, h.fix, h.lab⟩

theorem touch_nonBase {k : Kind} {s : Slice n} (h : NonBase k s) : NonBase k s.touchLcm :=
  ⟨h.two, h.full, h.nsq, h.len⟩

theorem coefSum_map_one {outs : List (Term n)} (hnd : outs.Nodup) (m : Term n) :
    coefSum (outs.map fun t => ((1 : ℤ), t)) m = if m ∈ outs then 1 else 0 := by
  induction outs with
  | nil => simp [coefSum]
  | cons a l ih =>
    rw [List.nodup_cons] at hnd
    rw [List.map_cons, coefSum_cons, ih hnd.2]
    by_cases h1 : a = m
    · subst h1; simp [hnd.1]
    · simp [h1, Ne.symm h1]

theorem baseCase_spec {k : Kind} {o : Opts} {s : Slice n} (hs : RInv k o s) (hn : k = .hilbert → 0 < n)
    {outs : List (ℤ × Term n)} (h : s.baseCase k o.simp = some outs) :
    (∀ m, coefSum outs m = cval k s m) ∧ (k = .msm → ∀ x ∈ outs, x.1 = 1) ∧ Reduced outs := by
  cases k with
  | hilbert =>
    refine ⟨fun m => hilbertBaseCase_spec hs.inv (hn rfl) h m, by simp, ?_⟩
    simp only [Slice.baseCase, Slice.hilbertBaseCase] at h
    split at h
    · obtain rfl := Option.some.inj h; simp [Reduced]
    · split at h
      · simp at h
      · split at h
        · obtain rfl := Option.some.inj h; simp [Reduced]
        · split at h
          · obtain rfl := Option.some.inj h; simp [Reduced]
          · split at h
            · rename_i hc
              obtain rfl := Option.some.inj h; simp [Reduced, hc]
            · obtain rfl := Option.some.inj h; simp [Reduced]
  | msm =>
    simp only [Slice.baseCase, Option.map_eq_some_iff] at h
    obtain ⟨ts, hts, rfl⟩ := h
    have he := msmBaseCase_spec ⟨hs.inv, hs.zero, hs.one rfl, hs.fix⟩ hts
    refine ⟨fun m => ?_, fun _ x hx => ?_, ?_, ?_⟩
    · rw [coefSum_map_one he.nodup]
      have := he.mem_iff m
      rcases cval_msm_zero_or_one s m with h0 | h0
      · rw [h0] at this ⊢; rw [if_neg]; intro hm; exact (this.1 hm) rfl
      · rw [h0] at this ⊢; rw [if_pos]; exact this.2 one_ne_zero
    · obtain ⟨t, _, rfl⟩ := List.mem_map.1 hx; rfl
    · rw [List.map_map]; simpa [Function.comp_def] using he.nodup
    · intro x hx
      obtain ⟨t, _, rfl⟩ := List.mem_map.1 hx; simp

theorem coefSum_of_not_mem {outs : List (ℤ × Term n)} {m : Term n} (h : m ∉ outs.map (·.2)) : coefSum outs m = 0 := by
  induction outs with
  | nil => rfl
  | cons a l ih =>
    rw [List.map_cons, List.mem_cons] at h
    push Not at h
    rw [coefSum_cons, ih h.2, if_neg (Ne.symm h.1), zero_add]

/-- In a reduced polynomial the listed coefficients are the coefficients. -/
theorem Reduced.coefSum_eq {outs : List (ℤ × Term n)} (h : (outs.map (·.2)).Nodup) {x : ℤ × Term n} (hx : x ∈ outs) :
    coefSum outs x.2 = x.1 := by
  induction outs with
  | nil => simp at hx
  | cons a l ih =>
    rw [List.map_cons, List.nodup_cons] at h
    rw [coefSum_cons]
    rcases List.mem_cons.1 hx with rfl | hx
    · rw [coefSum_of_not_mem h.1]; simp
    · rw [ih h.2 hx, if_neg, zero_add]
      intro he
      exact h.1 (he ▸ List.mem_map.2 ⟨x, hx, rfl⟩)

theorem reduced_append {A B : List (ℤ × Term n)} (hA : Reduced A) (hB : Reduced B)
    (h : ∀ m, coefSum A m = 0 ∨ coefSum B m = 0) : Reduced (A ++ B) := by
  refine ⟨?_, fun x hx => ?_⟩
  · rw [List.map_append, List.nodup_append]
    refine ⟨hA.1, hB.1, ?_⟩
    intro a ha b hb he
    obtain ⟨x, hx, rfl⟩ := List.mem_map.1 ha
    obtain ⟨y, hy, rfl⟩ := List.mem_map.1 hb
    have h1 := Reduced.coefSum_eq hA.1 hx
    have h2 := Reduced.coefSum_eq hB.1 hy
    have h3 := hA.2 x hx
    have h4 := hB.2 y hy
    rw [he] at h1
    rcases h y.2 with h5 | h5 <;> omega
  · rcases List.mem_append.1 hx with h | h
    · exact hA.2 x h
    · exact hB.2 x h

theorem reduced_combine {G : List (Term n)} {big rest : List (Fin n)} (h : Sep G big rest)
    {L : List (ℤ × Term big.length)} {R : List (ℤ × Term rest.length)} (hL : Reduced L) (hR : Reduced R) :
    Reduced (combine big rest L R) := by
  constructor
  · rw [combine, List.map_flatMap]
    rw [List.nodup_flatMap]
    have hm := fun (l : ℤ × Term big.length) (r : ℤ × Term rest.length) =>
      (merge_eq_iff h l.2 r.2 _).1 rfl
    constructor
    · intro l _
      rw [List.map_map]
      refine List.Nodup.of_map (proj rest) ?_
      rw [List.map_map]
      have : (proj rest ∘ (Prod.snd ∘ fun r : ℤ × Term rest.length =>
          (l.1 * r.1, inverseProject rest (inverseProject big 0 l.2) r.2))) = fun r => r.2 := by
        funext r; exact ((hm l r).2).symm
      rw [this]; exact hR.1
    · have h1 := hL.1
      rw [List.Nodup, List.pairwise_map] at h1
      refine h1.imp ?_
      intro a b hab
      rw [Function.onFun, List.disjoint_left]
      intro t ht ht'
      simp only [List.map_map, List.mem_map, Function.comp_apply] at ht ht'
      obtain ⟨r, _, rfl⟩ := ht
      obtain ⟨r', _, he⟩ := ht'
      apply hab
      rw [(hm a r).1, ← he, ← (hm b r').1]
  · intro x hx
    simp only [combine, List.mem_flatMap, List.mem_map] at hx
    obtain ⟨l, hl, r, hr, rfl⟩ := hx
    exact mul_ne_zero (hL.2 l hl) (hR.2 r hr)

theorem rinv_proj {k : Kind} {o : Opts} {s : Slice n} {big rest : List (Fin n)} (hs : RInv k o s)
    (hnb : NonBase k s) (h : IndepSpec s.ideal s.subtract big rest) : RInv k o (s.setToProjOf big) := by
  have h2 := h.two_le hs.inv.antiI
  have h4 := h.sepI.length
  have h3 := h.symm.two_le hs.inv.antiI
  exact ⟨inv_proj hs.inv h hnb.full, by omega, by omega, fun hsimp _ => fix_proj h (hs.fix hsimp (by omega)),
    fun hl _ => leastPositive_proj h (hs.lab hl (by omega))⟩

theorem process_spec {k : Kind} {o : Opts} (ho : o.valid k) (rnd : List ℕ → ℕ → ℕ) :
    ∀ (fuel : ℕ) (path : List ℕ) (n : ℕ) (s : Slice n), RInv k o s → (k = .hilbert → 0 < n) →
      roomCard s + n < fuel →
      ∃ outs, process k o rnd fuel path n s = some outs ∧ (∀ m, coefSum outs m = cval k s m) ∧
        (k = .msm → ∀ x ∈ outs, x.1 = 1) ∧ Reduced outs := by
  intro fuel
  induction fuel with
  | zero => intro path n s _ _ h; omega
  | succ fuel ih =>
    intro path n s hs hn hf
    unfold process
    match hb : s.baseCase k o.simp with
    | some outs =>
      obtain ⟨h1, h2, h3⟩ := baseCase_spec hs hn hb
      exact ⟨outs, rfl, h1, h2, h3⟩
    | none =>
      have hnb := nonBase hs hb
      have hs' := touch_rinv hs
      have hnb' := touch_nonBase hnb
      have hroom : roomCard s.touchLcm = roomCard s := rfl
      simp only
      match ha : (if o.indep then analyze s.ideal s.subtract else none) with
      | some (big, rest) =>
        have hi : IndepSpec s.ideal s.subtract big rest := by
          split at ha
          · exact analyze_spec hs.inv.antiI ha
          · simp at ha
        have hi' : IndepSpec s.touchLcm.ideal s.touchLcm.subtract big rest := hi
        have hB := hi.two_le hs.inv.antiI
        have hR := hi.symm.two_le hs.inv.antiI
        have hlen := hi.sepI.length
        have hrB : roomCard (s.touchLcm.setToProjOf big) ≤ roomCard s.touchLcm :=
          roomCard_le_of _ (inverseProject_injective hi.nodupB) (room_proj hs'.inv hi' hnb'.full)
        have hrR : roomCard (s.touchLcm.setToProjOf rest) ≤ roomCard s.touchLcm :=
          roomCard_le_of _ (inverseProject_injective hi.nodupR) (room_proj hs'.inv hi'.symm hnb'.full)
        obtain ⟨R, hR1, hR2, hR3, hR4⟩ := ih (1 :: path) _ _ (rinv_proj hs' hnb' hi'.symm) (fun _ => by omega)
          (by omega)
        obtain ⟨L, hL1, hL2, hL3, hL4⟩ := ih (0 :: path) _ _ (rinv_proj hs' hnb' hi') (fun _ => by omega)
          (by omega)
        refine ⟨combine big rest L R, by simp only [hR1, hL1], fun m => ?_, fun hk x hx => ?_,
          reduced_combine hi.sepI hL4 hR4⟩
        · rw [coefSum_combine hi.sepI, hL2, hR2, ← cval_sep hi', cval_touchLcm]
        · simp only [combine, List.mem_flatMap, List.mem_map] at hx
          obtain ⟨l, hl, r, hr, rfl⟩ := hx
          simp [hL3 hk l hl, hR3 hk r hr]
      | none =>
        obtain ⟨c, hc, hsp⟩ := children_spec ho hs' hnb' (rnd path)
        have h1 := hsp.roomFirst
        obtain ⟨A, hA1, hA2, hA3, hA4⟩ := ih (0 :: path) _ _ hsp.first hn (by omega)
        match c, hsp with
        | (a, none), hsp =>
          refine ⟨A, by simpa only [hc] using hA1, fun m => ?_, hA3, hA4⟩
          rw [hA2, ← cval_touchLcm k s, hsp.cval]; simp
        | (a, some b), hsp =>
          obtain ⟨h3, h4⟩ := hsp.second b rfl
          obtain ⟨B, hB1, hB2, hB3, hB4⟩ := ih (1 :: path) _ _ h3 hn (by omega)
          refine ⟨A ++ B, by simp only at hA1; simp only [hc, hA1, hB1], fun m => ?_, fun hk x hx => ?_,
            reduced_append hA4 hB4 fun m => ?_⟩
          · rw [coefSum_append, hA2, hB2, ← cval_touchLcm k s, hsp.cval]
          · rcases List.mem_append.1 hx with h | h
            · exact hA3 hk x h
            · exact hB3 hk x h
          · rw [hA2, hB2]; exact hsp.disj b rfl m

/-! ## a run with an ideal -/

theorem new_inv0 {I : List (Term n)} (hI : Anti I) (q : Term n) : SliceInv0 (Slice.new I [] q) :=
  ⟨hI, List.Pairwise.nil, by simp [Slice.new], by simp [Slice.new], by simp only [Slice.new]; omega⟩

theorem coefSum_ones_nodup {outs : List (ℤ × Term n)} (h1 : ∀ x ∈ outs, x.1 = 1) :
    (∀ m, coefSum outs m = (outs.map (·.2)).count m) := by
  intro m
  induction outs with
  | nil => simp [coefSum]
  | cons a l ih =>
    rw [coefSum_cons, ih fun x hx => h1 x (by simp [hx]), List.map_cons, List.count_cons, h1 a (by simp)]
    by_cases h : a.2 = m <;> simp [h, add_comm]

theorem msm_outs_spec {outs : List (ℤ × Term n)} {s : Slice n} (hc : ∀ m, coefSum outs m = cval .msm s m)
    (h1 : ∀ x ∈ outs, x.1 = 1) :
    (outs.map (·.2)).Nodup ∧ ∀ m, m ∈ outs.map (·.2) ↔ cval .msm s m ≠ 0 := by
  have hcount := coefSum_ones_nodup h1
  constructor
  · rw [List.nodup_iff_count_le_one]
    intro m
    have := hcount m
    rw [hc] at this
    rcases cval_msm_zero_or_one s m with h | h <;> omega
  · intro m
    rw [← List.count_pos_iff]
    have := hcount m
    rw [hc] at this
    omega

theorem simplify_no_vars {k : Kind} {s : Slice 0} (hS : s.subtract = []) : s.simplify k = some (s, false) := by
  have h1 : s.applyLowerBound k = some (s, false) := by
    unfold Slice.applyLowerBound
    split
    · rfl
    · rw [if_neg (by omega)]
      unfold Slice.applyLowerBoundLoop
      simp
  unfold Slice.simplify
  simp [h1, Slice.pruneSubtract, hS]

theorem adjustMultiply_no_vars {k : Kind} {s : Slice 0} : s.adjustMultiply k = (s, false) := by
  unfold Slice.adjustMultiply Slice.adjustMultiplyLoop
  have : (fun v => Slice.leastPositive s.ideal v - 1 : Term 0) = 0 := Subsingleton.elim _ _
  simp [this]

theorem simplifyWith_no_vars {k : Kind} {o : Opts} {s : Slice 0} (hS : s.subtract = []) :
    s.simplifyWith k o = some s := by
  unfold Slice.simplifyWith
  rw [simplify_no_vars hS, adjustMultiply_no_vars]
  simp

/-- The start of a run. With one variable and without simplification the exponent must be one (MsmSlice.cpp:56-67 relies
on that). -/
theorem simplifyWith_start {k : Kind} {o : Opts} {s : Slice n} (hs : SliceInv k s) (hS : s.subtract = [])
    (hn : k = .hilbert → 0 < n) (h1 : k = .msm → n = 1 → o.simp = false → o.split.isLabel = false →
      ∀ v, Slice.leastPositive s.ideal v ≤ 1) :
    ∃ r, s.simplifyWith k o = some r ∧ SimpSpec k s r ∧ RInv k o r := by
  rcases Nat.eq_zero_or_pos n with h0 | h0
  · subst h0
    exact ⟨s, simplifyWith_no_vars hS, SimpSpec.refl hs, hs, fun _ => hS, by omega, by omega, by omega⟩
  by_cases h2 : k = .msm → 2 ≤ n
  · exact simplifyWith_spec hs h0 h2
  push Not at h2
  obtain ⟨hk, h2⟩ := h2
  have hn1 : n = 1 := by omega
  unfold Slice.simplifyWith
  by_cases hsimp : o.simp = true
  · obtain ⟨r, hr, h4, h3⟩ := simplify_spec hs (by omega : 0 < n)
    exact ⟨r.1, by simp [hsimp, hr], h4, h4.inv, by omega, fun _ => h3.1, fun _ => h3.2, by omega⟩
  · rw [if_neg hsimp]
    by_cases hlab : o.split.isLabel = true
    · rw [if_pos hlab]
      obtain ⟨h3, h4⟩ := adjustMultiply_spec hs
      exact ⟨_, rfl, h3, h3.inv, by omega, fun _ _ => h4, by omega, by omega⟩
    · rw [if_neg hlab]
      exact ⟨_, rfl, SimpSpec.refl hs, hs, by omega, fun hk hn => h1 hk hn (by simpa using hsimp) (by simpa using hlab),
        by omega, by omega⟩

theorem sliceFuel_spec (s : Slice n) : roomCard s + n < sliceFuel s := by
  have := roomCard_le s
  unfold sliceFuel
  omega

theorem leastPositive_mono_one {I J : List (Term n)} (h : ∀ g ∈ J, g ∈ I) (h1 : ∀ g ∈ I, ∀ v, g v ≤ 1) (v : Fin n) :
    Slice.leastPositive J v ≤ 1 := by
  by_cases h0 : Slice.leastPositive J v = 0
  · omega
  · obtain ⟨g, hg, he⟩ := leastPositive_attained h0
    rw [← he]; exact h1 g (h g hg) v

/-- `MsmStrategy::run` emits every `m * x_1 ... x_n` with `m` a maximal standard monomial of the ideal exactly once. -/
theorem msmRun_spec {o : Opts} (ho : o.valid .msm) (rnd : List ℕ → ℕ → ℕ) {I : List (Term n)} (hI : Anti I)
    (h1 : n = 1 → ∀ g ∈ I, ∀ v, g v ≤ 1) :
    ∃ outs, msmRun o rnd I = some outs ∧ outs.Nodup ∧
      ∀ m, m ∈ outs ↔ (∀ i, 0 < m i) ∧ Msm I (fun i => m i - 1) := by
  have hd := removeDoubleLcm_spec (Slice.new I [] 1) (new_inv0 hI 1)
  set s := (Slice.new I [] (1 : Term n)).removeDoubleLcm.1 with hs
  have hsI : ∀ g ∈ s.ideal, g ∈ I := fun g hg => hd.sublist.subset hg
  have hinv : SliceInv .msm s :=
    ⟨hd.inv.antiI, hd.inv.antiS, hd.inv.norm, hd.inv.cache, fun _ _ => hd.noDouble, hd.inv.hint⟩
  obtain ⟨r, hr, hr1, hr2⟩ := simplifyWith_start (o := o) hinv hd.sub (by simp)
    (fun _ hn _ _ => leastPositive_mono_one hsI (h1 hn))
  obtain ⟨outs, ho1, ho2, ho3, _⟩ := process_spec ho rnd (sliceFuel r) [] n r hr2 (by simp) (sliceFuel_spec r)
  obtain ⟨h2, h3⟩ := msm_outs_spec ho2 (ho3 rfl)
  refine ⟨outs.map (·.2), by simp only [msmRun, ← hs, hr, ho1, Option.map_some], h2, fun m => ?_⟩
  rw [h3, hr1.cval, cval_ne_iff, hd.sub, hd.msm, hd.mul]
  have h4 : (Slice.new I [] (1 : Term n)).multiply = 1 := rfl
  have h5 : (Slice.new I [] (1 : Term n)).subtract = [] := rfl
  have h6 : (Slice.new I [] (1 : Term n)).ideal = I := rfl
  rw [h4, h5, h6]
  have h7 : (1 : Term n) ≤ m ↔ ∀ i, 0 < m i := by
    rw [le_def]; exact forall_congr' fun i => by simp [Nat.one_le_iff_ne_zero, Nat.pos_iff_ne_zero]
  have h8 : m - 1 = fun i => m i - 1 := by funext i; simp
  rw [h7, h8]
  simp [mem_nil]

/-- `HilbertStrategy::run`: the coefficient at `m` of the polynomial that is output. -/
theorem hilbertRun_spec {o : Opts} (ho : o.valid .hilbert) (rnd : List ℕ → ℕ → ℕ) {I : List (Term n)} (hI : Anti I)
    (hn : 0 < n) :
    ∃ outs, hilbertRun o rnd I = some outs ∧
      (∀ m, coefSum outs m = (if mem I 0 then 0 else (if m = 0 then 1 else 0) + hcoef (I.map (· + 1)) m)) ∧
      Reduced outs ∧ ∀ x ∈ outs, x.2 ≤ lcmOf I := by
  set J := if contains I 0 then [] else I.map (· + 1) with hJ
  have hantiJ : Anti J := by
    rw [hJ]
    split
    · exact List.Pairwise.nil
    · rw [Anti, List.pairwise_map]
      refine hI.imp ?_
      intro a b h
      simpa [le_def] using h
  have hinv : SliceInv .hilbert (Slice.new J [] 0) := by
    have := new_inv0 hantiJ 0
    exact ⟨this.antiI, this.antiS, this.norm, this.cache, by simp, this.hint⟩
  obtain ⟨r, hr, hr1, hr2⟩ := simplifyWith_start (o := o) hinv rfl (fun _ => hn) (by simp)
  obtain ⟨outs, ho1, ho2, _, ho4⟩ := process_spec ho rnd (sliceFuel r) [] n r hr2 (fun _ => hn) (sliceFuel_spec r)
  have hc : ∀ m, cval .hilbert (Slice.new J [] 0) m = val .hilbert J m := by
    intro m
    have h1 : m - 0 = m := by funext i; simp
    have h2 : (0 : Term n) ≤ m := le_def.2 fun i => by simp
    simp [cval, Slice.new, h1, h2, mem_nil]
  have hco : ∀ m, coefSum outs m = val .hilbert J m := fun m => by rw [ho2, hr1.cval, hc]
  have hne : ∀ x ∈ outs, val .hilbert J x.2 ≠ 0 := fun x hx => by
    rw [← hco, Reduced.coefSum_eq ho4.1 hx]; exact ho4.2 x hx
  have hJg : ∀ g ∈ J, ∃ g' ∈ I, g = g' + 1 ∧ ¬ mem I 0 := by
    intro g hg
    rw [hJ] at hg
    split at hg
    · simp at hg
    · rename_i h0
      obtain ⟨g', hg', rfl⟩ := List.mem_map.1 hg
      exact ⟨g', hg', rfl, fun h => h0 (contains_iff.2 h)⟩
  refine ⟨(if contains I 0 then [] else [(1, 0)]) ++ outs, by simp only [hilbertRun, ← hJ, hr, ho1, Option.map_some],
    fun m => ?_, ?_, ?_⟩
  rotate_left
  · refine reduced_append ?_ ho4 ?_
    · split <;> simp [Reduced]
    · intro m
      by_cases hm : m = 0
      · right
        rw [hco, hm]
        by_contra hv
        obtain ⟨g, hg, _, h2⟩ := val_label hv ⟨0, hn⟩
        obtain ⟨g', hg', rfl, h0⟩ := hJg g hg
        refine h0 ⟨g', hg', le_def.2 fun i => ?_⟩
        have := le_def.1 h2 i
        simpa using this
      · left
        split <;> simp [coefSum, Ne.symm hm]
  · intro x hx
    rcases List.mem_append.1 hx with h | h
    · split at h
      · simp at h
      · rw [List.mem_singleton] at h
        rw [h]; exact le_def.2 fun i => by simp
    · refine le_def.2 fun i => ?_
      obtain ⟨g, hg, h1, _⟩ := val_label (hne x h) i
      obtain ⟨g', hg', rfl, _⟩ := hJg g hg
      have := le_def.1 (le_lcmOf hg') i
      simp only [Pi.add_apply, Pi.one_apply] at h1
      omega
  rw [coefSum_append, ho2, hr1.cval, hc]
  by_cases h0 : mem I 0
  · rw [if_pos h0]
    have : contains I 0 = true := contains_iff.2 h0
    rw [hJ]
    simp only [this, if_true]
    rw [val_nil hn]; simp [coefSum]
  · rw [if_neg h0]
    have : contains I 0 = false := by rw [contains_eq_decide]; simpa using h0
    rw [hJ]
    simp only [this]
    simp [coefSum, val, eq_comm]

end Frobby

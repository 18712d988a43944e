import Verif.SliceLemmas

/-!
# Simplification: lower bounds, `adjustMultiply`, `pruneSubtract`, `simplify`

All of them keep the content of the slice, terminate, and reach the fixpoint that the base cases rely on.
-/

namespace Frobby

variable {n : ℕ}

open Term

theorem val_of_mem {k : Kind} {I : List (Term n)} {u : Term n} (h : mem I u) : val k I u = 0 := by
  cases k with
  | msm =>
    have : ¬ Msm I u := fun hm => hm.1 h
    simp [val, this]
  | hilbert =>
    simp only [val, hcoef]
    refine Finset.sum_eq_zero fun τ _ => ?_
    rw [if_pos (mem_of_le h (le_def.2 fun i => by simp)), mul_zero]

/-! ## what simplification steps do -/

/-- `s'` is obtained from `s` by steps that only make the slice smaller. -/
structure Reduces (s s' : Slice n) : Prop where
  ex : ∃ p : Term n, s'.multiply = s.multiply + p ∧ (∀ g ∈ s'.ideal, ∃ g' ∈ s.ideal, g = g' - p) ∧
    (∀ u, Room s' u → Room s (u + p)) ∧ lcmOf s'.ideal + p ≤ lcmOf s.ideal
  length : s'.ideal.length ≤ s.ideal.length

theorem Reduces.refl (s : Slice n) : Reduces s s :=
  ⟨⟨0, by simp, fun g hg => ⟨g, hg, by funext i; simp⟩, fun u hu => by simpa using hu, by simp⟩, le_rfl⟩

theorem Reduces.trans {a b c : Slice n} (h1 : Reduces a b) (h2 : Reduces b c) : Reduces a c := by
  obtain ⟨p, hp1, hp2, hp3, hp4⟩ := h1.ex
  obtain ⟨q, hq1, hq2, hq3, hq4⟩ := h2.ex
  refine ⟨⟨p + q, ?_, ?_, ?_, ?_⟩, h2.length.trans h1.length⟩
  · rw [hq1, hp1, add_assoc]
  · intro g hg
    obtain ⟨g', hg', rfl⟩ := hq2 g hg
    obtain ⟨g'', hg'', rfl⟩ := hp2 g' hg'
    exact ⟨g'', hg'', by funext i; simp only [Pi.sub_apply, Pi.add_apply]; omega⟩
  · intro u hu
    have := hp3 _ (hq3 u hu)
    rwa [add_assoc, add_comm q p] at this
  · refine le_def.2 fun i => ?_
    have := le_def.1 hp4 i
    have := le_def.1 hq4 i
    simp only [Pi.add_apply] at *
    omega

theorem Reduces.deg_le {s s' : Slice n} (h : Reduces s s') : deg (lcmOf s'.ideal) ≤ deg (lcmOf s.ideal) := by
  obtain ⟨p, _, h2, _, _⟩ := h.ex
  apply deg_mono
  apply lcmOf_le
  intro g hg
  obtain ⟨g', hg', rfl⟩ := h2 g hg
  exact le_trans (le_def.2 fun i => by simp) (le_lcmOf hg')

theorem InnerSpec.lcm_le {k : Kind} {p : Term n} {s : Slice n} {r} (h : InnerSpec k p s r) :
    lcmOf r.1.ideal ≤ lcmOf s.ideal - p := by
  apply lcmOf_le
  intro g hg
  obtain ⟨g', hg', rfl⟩ := h.subset g hg
  refine le_def.2 fun i => ?_
  have := le_def.1 (le_lcmOf hg') i
  simp only [Pi.sub_apply]; omega

theorem InnerSpec.reduces {k : Kind} {p : Term n} {s : Slice n} {r} (h : InnerSpec k p s r) (hp : p ≤ lcmOf s.ideal) :
    Reduces s r.1 :=
  ⟨⟨p, h.mul, h.subset, h.room, le_def.2 fun i => by
    have h1 := le_def.1 h.lcm_le i
    have h2 := le_def.1 hp i
    simp only [Pi.add_apply, Pi.sub_apply] at *
    omega⟩, h.length⟩

theorem InnerSpec.deg_lt {k : Kind} {p : Term n} {s : Slice n} {r} (h : InnerSpec k p s r) (hp : p ≠ 0)
    (hle : p ≤ lcmOf s.ideal) : deg (lcmOf r.1.ideal) < deg (lcmOf s.ideal) := by
  obtain ⟨i, hi⟩ := exists_ne_zero hp
  have h1 := h.lcm_le
  refine Term.deg_lt (h1.trans (le_def.2 fun i => by simp)) (i := i) ?_
  have h2 := le_def.1 h1 i
  have h3 := le_def.1 hle i
  simp only [Pi.sub_apply] at h2
  omega

/-- Inner slice by a lower bound on the content keeps the content. -/
theorem InnerSpec.cval_bound {k : Kind} {p : Term n} {s : Slice n} {r} (h : InnerSpec k p s r)
    (hb : ∀ u, Frobby.val k s.ideal u ≠ 0 → p ≤ u) (m : Term n) : Frobby.cval k r.1 m = Frobby.cval k s m := by
  rw [h.cval]
  split
  · rfl
  · rename_i hn
    by_contra hne
    have hne' : Frobby.cval k s m ≠ 0 := fun h => hne h.symm
    unfold Frobby.cval at hne'
    split at hne'
    · rename_i hc
      apply hn
      have := hb _ hne'
      refine le_def.2 fun i => ?_
      have h1 := le_def.1 this i
      have h2 := le_def.1 hc.1 i
      simp only [Pi.add_apply, Pi.sub_apply] at *
      omega
    · exact hne' rfl

/-! ## adjustMultiply -/

theorem leastPositive_aux (v : Fin n) (G : List (Term n)) (a : ℕ) :
    let r := G.foldl (fun acc g => if g v = 0 then acc else if acc = 0 ∨ g v < acc then g v else acc) a
    (r = 0 → a = 0 ∧ ∀ g ∈ G, g v = 0) ∧ (r ≠ 0 → (r = a ∨ ∃ g ∈ G, g v = r) ∧ (a ≠ 0 → r ≤ a) ∧
      ∀ g ∈ G, g v ≠ 0 → r ≤ g v) := by
  induction G generalizing a with
  | nil => simp
  | cons g G ih =>
    simp only [List.foldl_cons]
    have := ih (if g v = 0 then a else if a = 0 ∨ g v < a then g v else a)
    revert this
    generalize (List.foldl (fun acc g => if g v = 0 then acc else if acc = 0 ∨ g v < acc then g v else acc)
      (if g v = 0 then a else if a = 0 ∨ g v < a then g v else a) G) = r
    intro this
    simp only at this ⊢
    obtain ⟨h1, h2⟩ := this
    constructor
    · intro hr
      obtain ⟨h3, h4⟩ := h1 hr
      split at h3
      · rename_i h0
        exact ⟨h3, by intro x hx; rcases List.mem_cons.1 hx with rfl | hx; exacts [h0, h4 x hx]⟩
      · split at h3 <;> omega
    · intro hr
      obtain ⟨h3, h4, h5⟩ := h2 hr
      refine ⟨?_, ?_, ?_⟩
      · rcases h3 with h3 | ⟨x, hx, h3⟩
        · split at h3
          · exact Or.inl h3
          · split at h3
            · exact Or.inr ⟨g, by simp, h3.symm⟩
            · exact Or.inl h3
        · exact Or.inr ⟨x, by simp [hx], h3⟩
      · intro ha
        split at h4
        · exact h4 ha
        · split at h4
          · have := h4 (by omega); omega
          · exact h4 ha
      · intro x hx hx0
        rcases List.mem_cons.1 hx with rfl | hx
        · rw [if_neg hx0] at h4
          split at h4
          · exact h4 hx0
          · have := h4 (by omega); omega
        · exact h5 x hx hx0

theorem leastPositive_zero {G : List (Term n)} {v : Fin n} (h : Slice.leastPositive G v = 0) :
    ∀ g ∈ G, g v = 0 := ((leastPositive_aux v G 0).1 h).2

theorem leastPositive_attained {G : List (Term n)} {v : Fin n} (h : Slice.leastPositive G v ≠ 0) :
    ∃ g ∈ G, g v = Slice.leastPositive G v := by
  rcases ((leastPositive_aux v G 0).2 h).1 with h1 | h1
  · exact absurd h1 h
  · exact h1

theorem leastPositive_le {G : List (Term n)} {v : Fin n} {g : Term n} (hg : g ∈ G) (h0 : g v ≠ 0) :
    Slice.leastPositive G v ≤ g v := by
  by_cases h : Slice.leastPositive G v = 0
  · omega
  · exact ((leastPositive_aux v G 0).2 h).2.2 g hg h0

/-- The content is unchanged and the slice is not bigger. -/
structure SimpSpec (k : Kind) (s s' : Slice n) : Prop where
  inv : SliceInv k s'
  cval : ∀ m, cval k s' m = cval k s m
  red : Reduces s s'

theorem SimpSpec.refl {k : Kind} {s : Slice n} (h : SliceInv k s) : SimpSpec k s s :=
  ⟨h, fun _ => rfl, Reduces.refl s⟩

theorem SimpSpec.trans {k : Kind} {a b c : Slice n} (h1 : SimpSpec k a b) (h2 : SimpSpec k b c) : SimpSpec k a c :=
  ⟨h2.inv, fun m => (h2.cval m).trans (h1.cval m), h1.red.trans h2.red⟩

theorem SimpSpec.touch {k : Kind} {s : Slice n} (h : SliceInv k s) : SimpSpec k s s.touchLcm :=
  ⟨touchLcm_inv h, fun _ => rfl, ⟨(Reduces.refl s).ex, le_rfl⟩⟩

theorem adjustMultiplyLoop_spec {k : Kind} : ∀ (fuel : ℕ) (changed : Bool) (s : Slice n), SliceInv k s →
    deg (lcmOf s.ideal) < fuel →
    SimpSpec k s (Slice.adjustMultiplyLoop k fuel changed s).1 ∧
      ∀ v, Slice.leastPositive (Slice.adjustMultiplyLoop k fuel changed s).1.ideal v ≤ 1 := by
  intro fuel
  induction fuel with
  | zero => intro _ s _ h; omega
  | succ fuel ih =>
    intro changed s hs hfuel
    unfold Slice.adjustMultiplyLoop
    simp only
    set b : Term n := fun v => Slice.leastPositive s.ideal v - 1 with hb
    split
    · rename_i h0
      refine ⟨SimpSpec.refl hs, fun v => ?_⟩
      have := congrFun h0 v
      simp only [hb, Pi.zero_apply] at this
      show Slice.leastPositive s.ideal v ≤ 1
      omega
    · rename_i h0
      have hi := inner_spec hs b
      have hble : b ≤ lcmOf s.ideal := by
        refine le_def.2 fun v => ?_
        simp only [hb]
        by_cases hz : Slice.leastPositive s.ideal v = 0
        · omega
        · obtain ⟨g, hg, he⟩ := leastPositive_attained hz
          have := le_def.1 (le_lcmOf hg) v
          omega
      have hbound : ∀ u, val k s.ideal u ≠ 0 → b ≤ u := by
        intro u hu
        refine le_def.2 fun v => ?_
        obtain ⟨g, hg, h1, _⟩ := val_label hu v
        have := leastPositive_le hg (v := v) (by omega)
        simp only [hb]; omega
      have hsp : SimpSpec k s (s.inner k b).1 := ⟨hi.inv, hi.cval_bound hbound, hi.reduces hble⟩
      have hdeg := hi.deg_lt h0 hble
      split
      · obtain ⟨h1, h2⟩ := ih true (s.inner k b).1 hi.inv (by omega)
        exact ⟨hsp.trans h1, h2⟩
      · rename_i hc
        refine ⟨hsp, fun v => ?_⟩
        have hun := hi.unchanged (by simpa using hc)
        by_contra hgt
        have hz : Slice.leastPositive (s.inner k b).1.ideal v ≠ 0 := by
          simp only at hgt; omega
        obtain ⟨g, hg, he⟩ := leastPositive_attained hz
        obtain ⟨g', hg', rfl⟩ := hi.subset g hg
        have hg'0 : g' v ≠ 0 := by
          intro h; simp [h] at he; omega
        have hl0 : Slice.leastPositive s.ideal v ≠ 0 := fun h => hg'0 (leastPositive_zero h g' hg')
        obtain ⟨x, hx, hxe⟩ := leastPositive_attained hl0
        have hx' : x - b ∈ (s.inner k b).1.ideal := hun.1.mem_iff.2 (List.mem_map.2 ⟨x, hx, rfl⟩)
        have hxv : (x - b) v = 1 := by
          simp only [Pi.sub_apply, hb]; omega
        have := leastPositive_le hx' (v := v) (by omega)
        simp only at hgt
        omega

theorem adjustMultiply_spec {k : Kind} {s : Slice n} (hs : SliceInv k s) :
    SimpSpec k s (s.adjustMultiply k).1 ∧ ∀ v, Slice.leastPositive (s.adjustMultiply k).1.ideal v ≤ 1 :=
  adjustMultiplyLoop_spec _ _ s hs (by omega)

/-! ## lower bounds -/

theorem foldl_inf_le (G : List (Term n)) (a : Term n) : G.foldl (· ⊓ ·) a ≤ a ∧ ∀ g ∈ G, G.foldl (· ⊓ ·) a ≤ g := by
  induction G generalizing a with
  | nil => simp
  | cons g G ih =>
    simp only [List.foldl_cons]
    obtain ⟨h1, h2⟩ := ih (a ⊓ g)
    refine ⟨h1.trans inf_le_left, fun x hx => ?_⟩
    rcases List.mem_cons.1 hx with rfl | hx
    · exact h1.trans inf_le_right
    · exact h2 x hx

theorem foldl_inf_attained (G : List (Term n)) (a : Term n) (i : Fin n) :
    G.foldl (· ⊓ ·) a i = a i ∨ ∃ g ∈ G, G.foldl (· ⊓ ·) a i = g i := by
  induction G generalizing a with
  | nil => simp
  | cons g G ih =>
    simp only [List.foldl_cons]
    rcases ih (a ⊓ g) with h | ⟨x, hx, h⟩
    · rw [h]
      simp only [Pi.inf_apply]
      rcases le_total (a i) (g i) with h' | h'
      · left; omega
      · right; exact ⟨g, by simp, by omega⟩
    · exact Or.inr ⟨x, by simp [hx], h⟩

/-- Candidates for `v`-labels, with the true lcm. -/
def Cand (I : List (Term n)) (v : Fin n) (g : Term n) : Prop :=
  g ∈ I ∧ g v ≠ 0 ∧ ∀ w, w ≠ v → g w ≠ lcmOf I w

/-- The lower bound of variable `v` is the identity. -/
def Fix (k : Kind) (I : List (Term n)) (v : Fin n) : Prop :=
  match k with
  | .msm => (∀ w, w ≠ v → ∃ g, Cand I v g ∧ g w = 0) ∧ ∃ g, Cand I v g ∧ g v = 1
  | .hilbert => ∀ w, ∃ g ∈ I, g v ≠ 0 ∧ g w ≤ 1

theorem mem_msmCandidates {s : Slice n} (hs : SliceInv0 s) {v : Fin n} {g : Term n} :
    g ∈ s.msmCandidates v ↔ Cand s.ideal v g := by
  unfold Slice.msmCandidates Cand
  rw [List.mem_filter, hs.getLcm]
  simp

/-- What `getLowerBound` promises. -/
structure BoundSpec (k : Kind) (s : Slice n) (v : Fin n) (r : Slice n × Option (Term n)) : Prop where
  simp : SimpSpec k s r.1
  same : r.1.ideal = s.ideal ∧ r.1.multiply = s.multiply
  empty : r.2 = none → ∀ u, val k s.ideal u = 0
  bound : ∀ b, r.2 = some b → (∀ u, val k s.ideal u ≠ 0 → b ≤ u) ∧ b ≤ lcmOf s.ideal
  fix : r.2 = some 0 → Fix k s.ideal v
  /-- after dividing by the bound without losing anything, the bound is the identity -/
  fix' : ∀ b, r.2 = some b → (∀ g ∈ s.ideal, ∀ i, g i = 0 ∨ b i < g i) → Fix k (s.ideal.map (· - b)) v

theorem cand_map_sub {I : List (Term n)} {v : Fin n} {g p : Term n} (h : Cand I v g)
    (hun : ∀ g ∈ I, ∀ i, g i = 0 ∨ p i < g i) : Cand (I.map (· - p)) v (g - p) := by
  obtain ⟨h1, h2, h3⟩ := h
  refine ⟨List.mem_map.2 ⟨g, h1, rfl⟩, ?_, ?_⟩
  · rcases hun g h1 v with h | h
    · exact absurd h h2
    · simp only [Pi.sub_apply]; omega
  · intro w hw
    have hlt : g w < lcmOf I w := lt_of_le_of_ne (le_def.1 (le_lcmOf h1) w) (h3 w hw)
    obtain ⟨x, hx, hxe⟩ := lcmOf_attained (G := I) (i := w) (by omega)
    rw [lcmOf_map_sub]
    rcases hun x hx w with h | h
    · omega
    · simp only [Pi.sub_apply]; omega

theorem fix_map_sub {k : Kind} {I : List (Term n)} {v : Fin n} {p : Term n} (h : Fix k I v)
    (hun : ∀ g ∈ I, ∀ i, g i = 0 ∨ p i < g i) : Fix k (I.map (· - p)) v := by
  cases k with
  | msm =>
    obtain ⟨h1, g, hg, hgv⟩ := h
    refine ⟨fun w hw => ?_, g - p, cand_map_sub hg hun, ?_⟩
    · obtain ⟨x, hx, hx0⟩ := h1 w hw
      exact ⟨x - p, cand_map_sub hx hun, by simp [hx0]⟩
    · rcases hun g hg.1 v with h | h
      · omega
      · simp only [Pi.sub_apply]; omega
  | hilbert =>
    intro w
    obtain ⟨g, hg, h0, h1⟩ := h w
    refine ⟨g - p, List.mem_map.2 ⟨g, hg, rfl⟩, ?_, ?_⟩
    · rcases hun g hg v with h | h
      · exact absurd h h0
      · simp only [Pi.sub_apply]; omega
    · simp only [Pi.sub_apply]; omega

theorem fix_perm {k : Kind} {I J : List (Term n)} {v : Fin n} (hp : I.Perm J) (h : Fix k I v) : Fix k J v := by
  have hc : ∀ g, Cand I v g → Cand J v g := by
    rintro g ⟨h1, h2, h3⟩
    refine ⟨hp.mem_iff.1 h1, h2, ?_⟩
    rw [← lcmOf_perm hp]; exact h3
  cases k with
  | msm =>
    obtain ⟨h1, g, hg, hgv⟩ := h
    exact ⟨fun w hw => (h1 w hw).imp fun x hx => ⟨hc x hx.1, hx.2⟩, g, hc g hg, hgv⟩
  | hilbert =>
    intro w
    obtain ⟨g, hg, h⟩ := h w
    exact ⟨g, hp.mem_iff.1 hg, h⟩

theorem msmLowerBound_spec {s : Slice n} (hs : SliceInv .msm s) (hn : 2 ≤ n) (v : Fin n) :
    BoundSpec .msm s v (s.lowerBound .msm v) := by
  have hl := hs.getLcm
  have hcand : ∀ g, g ∈ s.msmCandidates v ↔ Cand s.ideal v g := fun g => mem_msmCandidates hs.toInv0
  unfold Slice.lowerBound
  simp only
  unfold Slice.msmLowerBound
  simp only [hl]
  obtain ⟨hle1, hle2⟩ := foldl_inf_le (s.msmCandidates v) (lcmOf s.ideal)
  have hatt := foldl_inf_attained (s.msmCandidates v) (lcmOf s.ideal)
  set b := (s.msmCandidates v).foldl (· ⊓ ·) (lcmOf s.ideal) with hb
  have hlabel : ∀ u, val .msm s.ideal u ≠ 0 → ∃ g, Cand s.ideal v g ∧ g v = u v + 1 ∧ ∀ w, w ≠ v → g w ≤ u w := by
    intro u hu
    have hm : Msm s.ideal u := by
      by_contra hc; exact hu (by simp [val, hc])
    obtain ⟨g, hg, h1, h2⟩ := hm.label v
    refine ⟨g, ⟨hg, by omega, fun w hw => ?_⟩, h1, h2⟩
    have := h2 w hw
    have := hm.lt_lcm w
    omega
  -- the test in the code says exactly whether there is a candidate
  have hex : (∃ g, Cand s.ideal v g) ↔ ¬ ∀ i : Fin n, i.val < 2 → b i = lcmOf s.ideal i := by
    constructor
    · rintro ⟨g, hg⟩ hall
      have hcase : ∃ w : Fin n, w.val < 2 ∧ w ≠ v := by
        by_cases hv : v.val = 0
        · exact ⟨⟨1, by omega⟩, by simp, fun h => by rw [← h] at hv; simp at hv⟩
        · exact ⟨⟨0, by omega⟩, by simp, fun h => by rw [← h] at hv; simp at hv⟩
      obtain ⟨w, hw2, hwv⟩ := hcase
      have h1 := hall w hw2
      have h2 := le_def.1 (hle2 g ((hcand g).2 hg)) w
      have h3 := le_def.1 (le_lcmOf hg.1) w
      exact hg.2.2 w hwv (by omega)
    · intro h
      by_contra hc
      apply h
      intro i _
      rcases hatt i with h1 | ⟨g, hg, _⟩
      · exact h1
      · exact absurd ⟨g, (hcand g).1 hg⟩ hc
  -- attained by candidates as soon as there are any
  have hatt' : (∃ g, Cand s.ideal v g) → ∀ i, ∃ g, Cand s.ideal v g ∧ b i = g i := by
    rintro ⟨g, hg⟩ i
    rcases hatt i with h1 | ⟨x, hx, h1⟩
    · refine ⟨g, hg, le_antisymm (le_def.1 (hle2 g ((hcand g).2 hg)) i) ?_⟩
      rw [h1]; exact le_def.1 (le_lcmOf hg.1) i
    · exact ⟨x, (hcand x).1 hx, h1⟩
  refine ⟨SimpSpec.touch hs, ⟨rfl, rfl⟩, ?_, ?_, ?_, ?_⟩
  · intro hnone u
    by_contra hne
    obtain ⟨g, hg, _⟩ := hlabel u hne
    have := hex.1 ⟨g, hg⟩
    rw [if_neg this] at hnone; simp at hnone
  · intro b' hb'
    have hnot : ¬ ∀ i : Fin n, i.val < 2 → b i = lcmOf s.ideal i := by
      intro h; rw [if_pos h] at hb'; simp at hb'
    simp only [hnot, if_false, Option.some.injEq] at hb'
    subst hb'
    constructor
    · intro u hu
      obtain ⟨g, hg, h1, h2⟩ := hlabel u hu
      refine le_def.2 fun w => ?_
      have h3 := le_def.1 (hle2 g ((hcand g).2 hg)) w
      by_cases hw : w = v
      · subst hw; simp; omega
      · simp only [ne_eq, hw, not_false_eq_true, Function.update_of_ne]
        exact h3.trans (h2 w hw)
    · refine le_def.2 fun w => ?_
      have := le_def.1 hle1 w
      by_cases hw : w = v
      · subst hw; simp; omega
      · simpa [hw] using this
  · intro hz
    have hnot : ¬ ∀ i : Fin n, i.val < 2 → b i = lcmOf s.ideal i := by
      intro h; rw [if_pos h] at hz; simp at hz
    simp only [hnot, if_false, Option.some.injEq] at hz
    have ha := hatt' (hex.2 hnot)
    refine ⟨fun w hw => ?_, ?_⟩
    · obtain ⟨g, hg, h1⟩ := ha w
      refine ⟨g, hg, ?_⟩
      have := congrFun hz w
      simp [hw] at this
      omega
    · obtain ⟨g, hg, h1⟩ := ha v
      refine ⟨g, hg, ?_⟩
      have := congrFun hz v
      simp at this
      have := hg.2.1
      omega
  · intro b' hb' hun
    have hnot : ¬ ∀ i : Fin n, i.val < 2 → b i = lcmOf s.ideal i := by
      intro h; rw [if_pos h] at hb'; simp at hb'
    simp only [hnot, if_false, Option.some.injEq] at hb'
    have ha := hatt' (hex.2 hnot)
    refine ⟨fun w hw => ?_, ?_⟩
    · obtain ⟨g, hg, h1⟩ := ha w
      refine ⟨g - b', cand_map_sub hg hun, ?_⟩
      rw [← hb']
      simp [hw, h1]
    · obtain ⟨g, hg, h1⟩ := ha v
      refine ⟨g - b', cand_map_sub hg hun, ?_⟩
      have := hg.2.1
      rw [← hb']
      simp only [Pi.sub_apply, Function.update_self]
      omega

theorem hilbertLowerBound_spec {s : Slice n} (hs : SliceInv .hilbert s) (v : Fin n) :
    BoundSpec .hilbert s v (s.lowerBound .hilbert v) := by
  unfold Slice.lowerBound
  simp only
  unfold Slice.hilbertLowerBound
  have hmem : ∀ g, g ∈ (s.ideal.filter fun g => decide (g v ≠ 0)) ↔ g ∈ s.ideal ∧ g v ≠ 0 := by
    intro g; simp
  split
  · rename_i he
    refine ⟨SimpSpec.refl hs, ⟨rfl, rfl⟩, ?_, by simp, by simp, by simp⟩
    intro _ u
    by_contra hne
    obtain ⟨g, hg, h1, _⟩ := val_label hne v
    have := (hmem g).2 ⟨hg, by omega⟩
    rw [he] at this; simp at this
  · rename_i g gs he
    rw [he] at hmem
    obtain ⟨hle1, hle2⟩ := foldl_inf_le gs g
    have hatt := foldl_inf_attained gs g
    set b := gs.foldl (· ⊓ ·) g with hb
    have hleall : ∀ x ∈ s.ideal, x v ≠ 0 → b ≤ x := by
      intro x hx hx0
      rcases List.mem_cons.1 ((hmem x).2 ⟨hx, hx0⟩) with rfl | h
      · exact hle1
      · exact hle2 x h
    have hattall : ∀ i, ∃ x ∈ s.ideal, x v ≠ 0 ∧ b i = x i := by
      intro i
      rcases hatt i with h | ⟨x, hx, h⟩
      · have := (hmem g).1 (by simp)
        exact ⟨g, this.1, this.2, h⟩
      · have := (hmem x).1 (by simp [hx])
        exact ⟨x, this.1, this.2, h⟩
    refine ⟨SimpSpec.refl hs, ⟨rfl, rfl⟩, by simp, ?_, ?_, ?_⟩
    · intro b' hb'
      simp only [Option.some.injEq] at hb'
      subst hb'
      constructor
      · intro u hu
        obtain ⟨x, hx, h1, h2⟩ := val_label hu v
        have := hleall x hx (by omega)
        refine le_def.2 fun i => ?_
        have h3 := le_def.1 this i
        have h4 := le_def.1 h2 i
        simp only [decrement, Pi.add_apply, Pi.one_apply] at *
        omega
      · refine le_trans (le_def.2 fun i => ?_) (le_lcmOf ((hmem g).1 (by simp)).1)
        have := le_def.1 hle1 i
        simp only [decrement]; omega
    · intro hz w
      simp only [Option.some.injEq] at hz
      obtain ⟨x, hx, hx0, h⟩ := hattall w
      refine ⟨x, hx, hx0, ?_⟩
      have := congrFun hz w
      simp only [decrement, Pi.zero_apply] at this
      omega
    · intro b' hb' hun w
      simp only [Option.some.injEq] at hb'
      obtain ⟨x, hx, hx0, h⟩ := hattall w
      refine ⟨x - b', List.mem_map.2 ⟨x, hx, rfl⟩, ?_, ?_⟩
      · rcases hun x hx v with h | h
        · exact absurd h hx0
        · simp only [Pi.sub_apply]; omega
      · rw [← hb']
        simp only [Pi.sub_apply, decrement]; omega

theorem lowerBound_spec {k : Kind} {s : Slice n} (hs : SliceInv k s) (hn : 2 ≤ n) (v : Fin n) :
    BoundSpec k s v (s.lowerBound k v) := by
  cases k with
  | msm => exact msmLowerBound_spec hs hn v
  | hilbert => exact hilbertLowerBound_spec hs v

theorem clear_spec {k : Kind} {s : Slice n} (hn : 0 < n) (h : ∀ u, val k s.ideal u = 0) : SimpSpec k s s.clear := by
  refine ⟨⟨by simp [Slice.clear, Anti], by simp [Slice.clear, Anti], by simp [Slice.clear], by simp [Slice.clear],
    fun _ => ?_, Or.inl hn⟩, fun m => ?_, ⟨⟨0, by simp [Slice.clear], by simp [Slice.clear], ?_,
      le_def.2 fun i => by simp [Slice.clear, lcmOf_nil]⟩, by simp [Slice.clear]⟩⟩
  · intro _ g hg; simp [Slice.clear] at hg
  · unfold cval
    simp only [h]
    simp [Slice.clear, val_nil hn]
  · rintro u ⟨h1, _⟩
    have := h1 ⟨0, hn⟩
    simp [Slice.clear, lcmOf_nil] at this

/-- How many steps ago variable `w` was visited when the loop is about to visit `var`. -/
def stepsAgo (n var w : ℕ) : ℕ := if w < var then var - 1 - w else var + n - 1 - w

theorem stepsAgo_next {var w : ℕ} (hv : var < n) (hw : w < n) (h : w ≠ var) :
    stepsAgo n ((var + 1) % n) w = stepsAgo n var w + 1 := by
  unfold stepsAgo
  by_cases hvn : var + 1 = n
  · rw [hvn, Nat.mod_self]; split <;> split <;> omega
  · rw [Nat.mod_eq_of_lt (by omega)]; split <;> split <;> omega

theorem stepsAgo_lt {var w : ℕ} (hv : var < n) (hw : w < n) : stepsAgo n var w < n := by
  unfold stepsAgo; split <;> omega

/-- All lower bounds are the identity (or the ideal is zero). -/
def AllFix (k : Kind) (s : Slice n) : Prop := s.ideal = [] ∨ ∀ v, Fix k s.ideal v

theorem applyLowerBoundLoop_spec {k : Kind} (hn : 2 ≤ n) : ∀ (fuel steps : ℕ) (changed : Bool) (var : ℕ) (s : Slice n),
    SliceInv k s → var < n → steps ≤ n → deg (lcmOf s.ideal) * (n + 1) + (n + 1 - steps) ≤ fuel →
    (∀ w : Fin n, stepsAgo n var w < steps → Fix k s.ideal w) →
    ∃ r, Slice.applyLowerBoundLoop k fuel steps changed var s = some r ∧ SimpSpec k s r.1 ∧ AllFix k r.1 := by
  intro fuel
  induction fuel with
  | zero => intro steps _ _ s _ _ hst hf; omega
  | succ fuel ih =>
    intro steps changed var s hs hvar hst hf hfix
    unfold Slice.applyLowerBoundLoop
    split
    · rename_i hdone
      exact ⟨_, rfl, SimpSpec.refl hs, Or.inr fun v => hfix v (lt_of_lt_of_le (stepsAgo_lt hvar v.isLt) hdone)⟩
    · rename_i hnd
      have hlb := lowerBound_spec hs hn ⟨var, hvar⟩
      have hvar' : (var + 1) % n < n := Nat.mod_lt _ (by omega)
      generalize s.lowerBound k ⟨var, hvar⟩ = q at hlb
      obtain ⟨s', ob⟩ := q
      cases ob with
      | none =>
        refine ⟨_, rfl, ?_, Or.inl rfl⟩
        have he := hlb.empty rfl
        rw [← hlb.same.1] at he
        exact hlb.simp.trans (clear_spec (by omega) he)
      | some b =>
        have hb := hlb.bound b rfl
        have hs' := hlb.simp.inv
        simp only
        have hI : s'.ideal = s.ideal := hlb.same.1
        split
        · rename_i h0
          subst h0
          obtain ⟨r, h1, h2, h3⟩ := ih (steps + 1) changed ((var + 1) % n) s' hs' hvar' (by omega)
            (by rw [hI]; omega) (by
              intro w hw
              rw [hI]
              by_cases hwv : (w : ℕ) = var
              · have : w = ⟨var, hvar⟩ := Fin.ext hwv
                rw [this]; exact hlb.fix rfl
              · apply hfix
                rw [stepsAgo_next hvar w.isLt hwv] at hw
                omega)
          exact ⟨r, h1, hlb.simp.trans h2, h3⟩
        · rename_i h0
          have hi := inner_spec hs' b
          have hbound : ∀ u, val k s'.ideal u ≠ 0 → b ≤ u := by rw [hI]; exact hb.1
          have hsp : SimpSpec k s' (s'.inner k b).1 := ⟨hi.inv, hi.cval_bound hbound, hi.reduces (by rw [hI]; exact hb.2)⟩
          have hdeg := hi.deg_lt h0 (by rw [hI]; exact hb.2)
          rw [hI] at hdeg
          have hmul : (deg (lcmOf (s'.inner k b).1.ideal) + 1) * (n + 1) ≤ deg (lcmOf s.ideal) * (n + 1) :=
            Nat.mul_le_mul_right _ hdeg
          rw [Nat.add_mul] at hmul
          obtain ⟨r, h1, h2, h3⟩ := ih (if (s'.inner k b).2 then 0 else steps + 1) true ((var + 1) % n)
            (s'.inner k b).1 hi.inv hvar' (by split <;> omega)
            (by split <;> omega) (by
              intro w hw
              split at hw
              · omega
              · rename_i hc
                have hun := hi.unchanged (by simpa using hc)
                apply fix_perm hun.1.symm
                by_cases hwv : (w : ℕ) = var
                · have : w = ⟨var, hvar⟩ := Fin.ext hwv
                  rw [this, hI]
                  exact hlb.fix' b rfl (by rw [← hI]; exact hun.2.2)
                · apply fix_map_sub _ hun.2.2
                  rw [hI]
                  apply hfix
                  rw [stepsAgo_next hvar w.isLt hwv] at hw
                  omega)
          exact ⟨r, h1, (hlb.simp.trans hsp).trans h2, h3⟩

/-- The state reached by simplification. -/
def Simplified (k : Kind) (s : Slice n) : Prop :=
  (n = 1 → ∀ v, Slice.leastPositive s.ideal v ≤ 1) ∧ (2 ≤ n → AllFix k s)

theorem applyLowerBound_spec {k : Kind} {s : Slice n} (hs : SliceInv k s) (hn : 0 < n) :
    ∃ r, s.applyLowerBound k = some r ∧ SimpSpec k s r.1 ∧ Simplified k r.1 := by
  unfold Slice.applyLowerBound
  split
  · rename_i he
    have h0 : s.ideal = [] := by simpa using he
    exact ⟨_, rfl, SimpSpec.refl hs, fun _ v => by simp [h0, Slice.leastPositive], fun _ => Or.inl h0⟩
  · split
    · rename_i h1
      obtain ⟨h2, h3⟩ := adjustMultiply_spec hs
      exact ⟨_, rfl, h2, fun _ => h3, fun h => by omega⟩
    · rename_i h1
      obtain ⟨r, hr1, hr2, hr3⟩ := applyLowerBoundLoop_spec (k := k) (by omega)
        ((deg (lcmOf s.ideal) + 1) * (n + 1) + 1) 0 false s.hint s hs (by have := hs.hint; omega) (by omega)
        (by rw [Nat.add_mul]; omega) (by intro w hw; omega)
      exact ⟨r, hr1, hr2, fun h => absurd h h1, fun _ => hr3⟩

/-! ## pruneSubtract and simplify -/

theorem strictlyDivides_of_lt {t u l : Term n} (hn : 0 < n) (h : t ≤ u) (hu : ∀ i, u i < l i) : strictlyDivides t l := by
  refine ⟨fun i => Or.inl (lt_of_le_of_lt (le_def.1 h i) (hu i)), fun h0 => ?_⟩
  have := hu ⟨0, hn⟩
  simp [h0] at this

theorem pruneSubtract_spec {k : Kind} {s : Slice n} (hs : SliceInv k s) (hn : 0 < n) :
    SimpSpec k s s.pruneSubtract.1 ∧ s.pruneSubtract.1.ideal = s.ideal := by
  unfold Slice.pruneSubtract
  split
  · exact ⟨SimpSpec.refl hs, rfl⟩
  · simp only
    have hl : s.touchLcm.lcm = lcmOf s.ideal := hs.getLcm
    simp only [hl, touchLcm_subtract, touchLcm_ideal, and_true]
    set S := s.subtract.filter fun t => !(!decide (strictlyDivides t (lcmOf s.ideal)) || contains s.ideal t) with hS
    have hmemS : ∀ t, t ∈ S ↔ t ∈ s.subtract ∧ strictlyDivides t (lcmOf s.ideal) ∧ ¬ mem s.ideal t := by
      intro t
      rw [hS, List.mem_filter]
      simp [← contains_iff]
    -- below the lcm and outside the ideal, nothing changes
    have key : ∀ u, (∀ i, u i < lcmOf s.ideal i) → ¬ mem s.ideal u → (mem S u ↔ mem s.subtract u) := by
      intro u hu hI
      constructor
      · exact mem_subset fun t ht => ((hmemS t).1 ht).1
      · rintro ⟨t, ht, hle⟩
        refine ⟨t, (hmemS t).2 ⟨ht, strictlyDivides_of_lt hn hle hu, fun hm => hI (mem_of_le hm hle)⟩, hle⟩
    refine ⟨⟨hs.antiI, hs.antiS.filter _, fun t ht g hg => hs.norm t ((hmemS t).1 ht).1 g hg, fun _ => rfl, hs.noDouble,
      hs.hint⟩, fun m => ?_, ⟨⟨0, by simp, fun g hg => ⟨g, hg, by funext i; simp⟩, ?_, by simp⟩, le_rfl⟩⟩
    · unfold cval
      show (if s.multiply ≤ m ∧ ¬ mem S (m - s.multiply) then val k s.ideal (m - s.multiply) else 0) = _
      by_cases hv : val k s.ideal (m - s.multiply) = 0
      · simp [hv]
      · have h1 := val_lt_lcm hv
        have h2 : ¬ mem s.ideal (m - s.multiply) := fun h => hv (val_of_mem h)
        simp only [key _ h1 h2]
    · rintro u ⟨h1, h2, h3⟩
      rw [add_zero]
      exact ⟨h1, h2, fun h => h3 ((key u h1 h2).2 h)⟩

theorem simplify_spec {k : Kind} {s : Slice n} (hs : SliceInv k s) (hn : 0 < n) :
    ∃ r, s.simplify k = some r ∧ SimpSpec k s r.1 ∧ Simplified k r.1 := by
  obtain ⟨r, h1, h2, h3⟩ := applyLowerBound_spec hs hn
  obtain ⟨h4, h5⟩ := pruneSubtract_spec h2.inv hn
  refine ⟨(r.1.pruneSubtract.1, r.2 || r.1.pruneSubtract.2), ?_, h2.trans h4, ?_⟩
  · unfold Slice.simplify; rw [h1]
  · unfold Simplified AllFix at h3 ⊢
    rw [h5]; exact h3

end Frobby

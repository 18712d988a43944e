import Verif.ColonLemmas
import Verif.Val

/-!
# Slice operations: invariant, cached lcm, and preservation of the content
-/

namespace Frobby

variable {n : ℕ}

open Term

/-- No generator agrees with the lcm in two variables, unless the lcm lacks a variable. -/
def NoDouble (I : List (Term n)) : Prop :=
  (∀ i, lcmOf I i ≠ 0) → ∀ g ∈ I, ∀ i j, g i = lcmOf I i → g j = lcmOf I j → i = j

/-- The invariant of slices between operations. -/
structure SliceInv (k : Kind) (s : Slice n) : Prop where
  antiI : Anti s.ideal
  antiS : Anti s.subtract
  norm : ∀ t ∈ s.subtract, ∀ g ∈ s.ideal, ¬ strictlyDivides t g
  cache : s.lcmUpdated = true → s.lcm = lcmOf s.ideal
  noDouble : k = .msm → NoDouble s.ideal
  hint : s.hint < n ∨ n = 0

/-- The part of the invariant that holds inside an operation. -/
structure SliceInv0 (s : Slice n) : Prop where
  antiI : Anti s.ideal
  antiS : Anti s.subtract
  norm : ∀ t ∈ s.subtract, ∀ g ∈ s.ideal, ¬ strictlyDivides t g
  cache : s.lcmUpdated = true → s.lcm = lcmOf s.ideal
  hint : s.hint < n ∨ n = 0

theorem SliceInv.toInv0 {k : Kind} {s : Slice n} (h : SliceInv k s) : SliceInv0 s :=
  ⟨h.antiI, h.antiS, h.norm, h.cache, h.hint⟩

/-- The value of a slice at a monomial `m`: the content of the slice. -/
def cval (k : Kind) (s : Slice n) (m : Term n) : ℤ :=
  if s.multiply ≤ m ∧ ¬ mem s.subtract (m - s.multiply) then val k s.ideal (m - s.multiply) else 0

/-- The monomials a slice still has room for; termination measure. -/
def Room (s : Slice n) (u : Term n) : Prop :=
  (∀ i, u i < lcmOf s.ideal i) ∧ ¬ mem s.ideal u ∧ ¬ mem s.subtract u

/-! ## the cached lcm -/

theorem SliceInv0.getLcm {s : Slice n} (h : SliceInv0 s) : s.getLcm = lcmOf s.ideal := by
  unfold Slice.getLcm
  split
  · rename_i hu; exact h.cache hu
  · rfl

theorem SliceInv.getLcm {k : Kind} {s : Slice n} (h : SliceInv k s) : s.getLcm = lcmOf s.ideal :=
  h.toInv0.getLcm

theorem touchLcm_inv0 {s : Slice n} (h : SliceInv0 s) : SliceInv0 s.touchLcm :=
  ⟨h.antiI, h.antiS, h.norm, fun _ => h.getLcm, h.hint⟩

theorem touchLcm_inv {k : Kind} {s : Slice n} (h : SliceInv k s) : SliceInv k s.touchLcm :=
  ⟨h.antiI, h.antiS, h.norm, fun _ => h.getLcm, h.noDouble, h.hint⟩

@[simp] theorem touchLcm_ideal (s : Slice n) : s.touchLcm.ideal = s.ideal := rfl
@[simp] theorem touchLcm_subtract (s : Slice n) : s.touchLcm.subtract = s.subtract := rfl
@[simp] theorem touchLcm_multiply (s : Slice n) : s.touchLcm.multiply = s.multiply := rfl
@[simp] theorem touchLcm_hint (s : Slice n) : s.touchLcm.hint = s.hint := rfl
@[simp] theorem touchLcm_lcmUpdated (s : Slice n) : s.touchLcm.lcmUpdated = true := rfl

theorem cval_touchLcm (k : Kind) (s : Slice n) : cval k s.touchLcm = cval k s := rfl

/-! ## normalize -/

theorem filter_length_eq {α : Type*} {p : α → Bool} {l : List α} (h : (l.filter p).length = l.length) :
    l.filter p = l := List.filter_eq_self.2 (List.length_filter_eq_length_iff.1 h)

theorem normalize_ideal_mem {s : Slice n} {g : Term n} :
    g ∈ s.normalize.ideal ↔ g ∈ s.ideal ∧ ∀ t ∈ s.subtract, ¬ strictlyDivides t g := by
  simp [Slice.normalize]

/-- A generator strictly divisible by an element of the subtract lies outside the box of each `u` that counts. -/
theorem strict_not_le {t g u : Term n} (h : strictlyDivides t g) (hu : ¬ t ≤ u) : ¬ g ≤ u + 1 := by
  intro hle
  apply hu
  refine le_def.2 fun i => ?_
  have h1 := le_def.1 hle i
  simp at h1
  rcases h.1 i with h2 | h2 <;> omega

theorem normalize_agree {s : Slice n} {u : Term n} (hu : ¬ mem s.subtract u) {m : Term n} (hm : m ≤ u + 1) :
    mem s.normalize.ideal m ↔ mem s.ideal m := by
  constructor
  · exact mem_subset fun g hg => (normalize_ideal_mem.1 hg).1
  · rintro ⟨g, hg, hle⟩
    refine ⟨g, normalize_ideal_mem.2 ⟨hg, fun t ht hs => ?_⟩, hle⟩
    exact strict_not_le hs (fun h => hu ⟨t, ht, h⟩) (hle.trans hm)

/-! ## innerBase -/

structure InnerBaseSpec (p : Term n) (s : Slice n) (r : Slice n × Bool) : Prop where
  inv : SliceInv0 r.1
  mul : r.1.multiply = s.multiply + p
  sub : ∀ u, mem r.1.subtract u ↔ mem s.subtract (u + p)
  agree : ∀ u, ¬ mem r.1.subtract u → ∀ m, m ≤ u + 1 → (mem r.1.ideal m ↔ mem s.ideal (m + p))
  subset : ∀ g ∈ r.1.ideal, ∃ g' ∈ s.ideal, g = g' - p
  subsetS : ∀ g ∈ r.1.subtract, ∃ g' ∈ s.subtract, g = g' - p
  length : r.1.ideal.length ≤ s.ideal.length
  /-- if the cache is valid afterwards, no generator was lost -/
  updated : r.1.lcmUpdated = true → s.lcmUpdated = true ∧ r.1.ideal.Perm (s.ideal.map (· - p))
  unchanged : r.2 = false → r.1.ideal.Perm (s.ideal.map (· - p)) ∧
    r.1.subtract.Perm (s.subtract.map (· - p)) ∧ (∀ g ∈ s.ideal, ∀ i, g i = 0 ∨ p i < g i) ∧
    r.1.hint = s.hint ∧ r.1.lcmUpdated = s.lcmUpdated

theorem lcmOf_map_sub (G : List (Term n)) (p : Term n) : lcmOf (G.map (· - p)) = lcmOf G - p := by
  induction G with
  | nil =>
    funext i; simp [lcmOf_nil]
  | cons a G ih =>
    rw [List.map_cons, lcmOf_cons, lcmOf_cons, ih]
    funext i
    simp only [Pi.sup_apply, Pi.sub_apply]
    omega

theorem norm_of_unchanged {p : Term n} {t g : Term n} (ht : ∀ i, t i = 0 ∨ p i < t i)
    (h : strictlyDivides (t - p) (g - p)) : strictlyDivides t g := by
  refine ⟨fun i => ?_, fun h0 => h.2 ?_⟩
  · have h1 := h.1 i
    simp only [Pi.sub_apply] at h1
    rcases ht i with h2 | h2 <;> omega
  · subst h0; funext i; simp

theorem innerBase_spec {s : Slice n} (hs : SliceInv0 s) (p : Term n) :
    InnerBaseSpec p s (s.innerBase p) := by
  have hI := colonReminimize_colonSpec p s.ideal hs.antiI
  have hS := colonReminimize_colonSpec p s.subtract hs.antiS
  unfold Slice.innerBase
  simp only
  generalize hIe : colonReminimize p s.ideal = I at hI ⊢
  generalize hSe : colonReminimize p s.subtract = S at hS ⊢
  by_cases hc : (I.2 || S.2) = true
  · -- something changed, the slice is normalized
    simp only [hc, if_true]
    set s1 : Slice n := { s with ideal := I.1, subtract := S.1, multiply := s.multiply + p } with hs1
    have hnI : ∀ g, g ∈ s1.normalize.ideal → g ∈ I.1 := fun g hg => (normalize_ideal_mem.1 hg).1
    have hlen : s1.normalize.ideal.length ≤ I.1.length := List.length_filter_le _ _
    have hhint : firstNonZero p < n ∨ n = 0 := by
      rcases Nat.eq_zero_or_pos n with h0 | h0
      · exact Or.inr h0
      · left
        apply firstNonZero_lt
        intro hp0
        subst hp0
        rcases Bool.or_eq_true_iff.1 hc with h | h
        · obtain ⟨g, _, i, h1, h2⟩ := hI.flag.1 h; simp at h2; omega
        · obtain ⟨g, _, i, h1, h2⟩ := hS.flag.1 h; simp at h2; omega
    have hanti : Anti s1.normalize.ideal := hI.minGens.anti.filter _
    have hnorm : ∀ t ∈ S.1, ∀ g ∈ s1.normalize.ideal, ¬ strictlyDivides t g :=
      fun t ht g hg => (normalize_ideal_mem.1 hg).2 t ht
    have hagree : ∀ u, ¬ mem S.1 u → ∀ m, m ≤ u + 1 → (mem s1.normalize.ideal m ↔ mem s.ideal (m + p)) :=
      fun u hu m hm => (normalize_agree (s := s1) hu hm).trans (hI.mem_iff m)
    have hsubset : ∀ g ∈ s1.normalize.ideal, ∃ g' ∈ s.ideal, g = g' - p := by
      intro g hg
      obtain ⟨g', hg', he⟩ := List.mem_map.1 (hI.minGens.subset g (hnI g hg))
      exact ⟨g', hg', he.symm⟩
    have hsubsetS : ∀ g ∈ S.1, ∃ g' ∈ s.subtract, g = g' - p := by
      intro g hg
      obtain ⟨g', hg', he⟩ := List.mem_map.1 (hS.minGens.subset g hg)
      exact ⟨g', hg', he.symm⟩
    have hlenI := hI.length_le
    by_cases hl : s1.normalize.ideal.length = s.ideal.length
    · have hperm : s1.normalize.ideal.Perm (s.ideal.map (· - p)) := by
        have hsp : s1.normalize.ideal.Subperm (s.ideal.map (· - p)) :=
          List.subperm_of_subset hanti.nodup fun g hg => hI.minGens.subset g (hnI g hg)
        exact hsp.perm_of_length_le (by rw [List.length_map]; exact hl.ge)
      have hupd : s1.normalize.lcmUpdated = s.lcmUpdated := by
        have : s1.normalize.ideal.length = I.1.length := by omega
        simp only [Slice.normalize] at this ⊢
        rw [if_pos this]
      rw [if_pos hl]
      refine ⟨⟨hanti, hS.minGens.anti, hnorm, ?_, hhint⟩, rfl, hS.mem_iff, hagree, hsubset, hsubsetS, hl.le, ?_, ?_⟩
      · intro hu
        have hu' : s.lcmUpdated = true := by rw [← hupd]; exact hu
        show s.lcm - p = _
        rw [hs.cache hu', lcmOf_perm hperm, lcmOf_map_sub]
      · intro hu
        exact ⟨by rw [← hupd]; exact hu, hperm⟩
      · simp
    · rw [if_neg hl]
      refine ⟨⟨hanti, hS.minGens.anti, hnorm, by simp, hhint⟩, rfl, hS.mem_iff, hagree, hsubset, hsubsetS,
        hlen.trans hlenI, by simp, by simp⟩
  · -- nothing changed
    have hc' : I.2 = false ∧ S.2 = false := by
      simpa using hc
    have hcf : (I.2 || S.2) = false := by simpa using hc
    simp only [hcf, Bool.false_eq_true, if_false]
    have hIp := hI.perm hc'.1
    have hSp := hS.perm hc'.2
    have hl : I.1.length = s.ideal.length := by simpa using hIp.length_eq
    rw [if_pos hl]
    have hnm : ∀ g ∈ s.ideal, ∀ i, g i = 0 ∨ p i < g i := by
      intro g hg
      apply notMiddle_iff.1
      intro h
      have := hI.flag.2 ⟨g, hg, h⟩
      rw [hc'.1] at this; simp at this
    have hnmS : ∀ g ∈ s.subtract, ∀ i, g i = 0 ∨ p i < g i := by
      intro g hg
      apply notMiddle_iff.1
      intro h
      have := hS.flag.2 ⟨g, hg, h⟩
      rw [hc'.2] at this; simp at this
    refine ⟨⟨hI.minGens.anti, hS.minGens.anti, ?_, ?_, hs.hint⟩, rfl, hS.mem_iff, fun u _ m _ => hI.mem_iff m, ?_, ?_,
      hl.le, ?_, ?_⟩
    · intro t ht g hg hd
      obtain ⟨t', ht', rfl⟩ := List.mem_map.1 (hS.minGens.subset t ht)
      obtain ⟨g', hg', rfl⟩ := List.mem_map.1 (hI.minGens.subset g hg)
      exact hs.norm t' ht' g' hg' (norm_of_unchanged (hnmS t' ht') hd)
    · intro hu
      show s.lcm - p = _
      rw [hs.cache hu]
      show _ = lcmOf I.1
      rw [lcmOf_perm hIp, lcmOf_map_sub]
    · intro g hg
      obtain ⟨g', hg', he⟩ := List.mem_map.1 (hI.minGens.subset g hg)
      exact ⟨g', hg', he.symm⟩
    · intro g hg
      obtain ⟨g', hg', he⟩ := List.mem_map.1 (hS.minGens.subset g hg)
      exact ⟨g', hg', he.symm⟩
    · intro hu; exact ⟨hu, hIp⟩
    · intro _; exact ⟨hIp, hSp, hnm, rfl, rfl⟩

/-! ## removeDoubleLcm -/

theorem isDoubleLcm_iff {lcm g : Term n} :
    Slice.isDoubleLcm lcm g = true ↔ ∃ i j : Fin n, i ≠ j ∧ g i = lcm i ∧ g j = lcm j := by
  simp only [Slice.isDoubleLcm, decide_eq_true_eq]
  constructor
  · rintro ⟨i, j, h, h1, h2⟩; exact ⟨i, j, h.ne, h1, h2⟩
  · rintro ⟨i, j, h, h1, h2⟩
    rcases lt_or_gt_of_ne h with h | h
    · exact ⟨i, j, h, h1, h2⟩
    · exact ⟨j, i, h, h2, h1⟩

/-- Removing generators that agree with (a bound on) the lcm in two variables keeps the maximal standard
monomials. -/
theorem msm_filter_double {I : List (Term n)} {lcm u : Term n} (hl : lcmOf I = lcm) :
    Msm (I.filter fun g => !Slice.isDoubleLcm lcm g) u ↔ Msm I u := by
  set J := I.filter fun g => !Slice.isDoubleLcm lcm g with hJ
  have hsub : ∀ g ∈ J, g ∈ I := fun g hg => List.mem_of_mem_filter hg
  -- a removed generator does not divide `u * x_k` when `u` is strictly below the lcm
  have key : (∀ i, u i < lcm i) → ∀ g ∈ I, Slice.isDoubleLcm lcm g = true → ∀ k, ¬ g ≤ u + single k 1 := by
    intro hu g _ hd k hle
    obtain ⟨i, j, hij, h1, h2⟩ := isDoubleLcm_iff.1 hd
    have hi := le_def.1 hle i
    have hj := le_def.1 hle j
    have hui := hu i
    have huj := hu j
    simp only [Pi.add_apply, single_apply] at hi hj
    by_cases hik : i = k
    · have hjk : j ≠ k := fun h => hij (hik.trans h.symm)
      simp [hjk] at hj; omega
    · simp [hik] at hi; omega
  have hmem : (∀ i, u i < lcm i) → ∀ k, (mem J (u + single k 1) ↔ mem I (u + single k 1)) := by
    intro hu k
    constructor
    · exact mem_subset hsub
    · rintro ⟨g, hg, hle⟩
      refine ⟨g, List.mem_filter.2 ⟨hg, ?_⟩, hle⟩
      by_contra hc
      exact key hu g hg (by simpa using hc) k hle
  constructor
  · intro h
    have hu : ∀ i, u i < lcm i := fun i =>
      lt_of_lt_of_le (h.lt_lcm i) (hl ▸ le_def.1 (lcmOf_mono hsub) i)
    refine ⟨?_, fun k => (hmem hu k).1 (h.2 k)⟩
    rintro ⟨g, hg, hle⟩
    by_cases hd : Slice.isDoubleLcm lcm g = true
    · obtain ⟨i, _, _, h1, _⟩ := isDoubleLcm_iff.1 hd
      have := hu i; have := le_def.1 hle i; omega
    · exact h.1 ⟨g, List.mem_filter.2 ⟨hg, by simpa using hd⟩, hle⟩
  · intro h
    have hu : ∀ i, u i < lcm i := fun i => hl ▸ h.lt_lcm i
    exact ⟨fun hm => h.1 (mem_subset hsub hm), fun k => (hmem hu k).2 (h.2 k)⟩

structure DoubleSpec (s : Slice n) (r : Slice n × Bool) : Prop where
  inv : SliceInv0 r.1
  mul : r.1.multiply = s.multiply
  sub : r.1.subtract = s.subtract
  hint : r.1.hint = s.hint
  sublist : r.1.ideal.Sublist s.ideal
  noDouble : ∀ g ∈ r.1.ideal, ∀ i j, g i = lcmOf r.1.ideal i → g j = lcmOf r.1.ideal j → i = j
  msm : ∀ u, Msm r.1.ideal u ↔ Msm s.ideal u
  room : ∀ u, Room r.1 u → Room s u
  unchanged : r.2 = false → r.1.ideal = s.ideal

theorem removeDoubleLcmLoop_spec : ∀ (fuel : ℕ) (s : Slice n), SliceInv0 s → s.ideal.length < fuel →
    DoubleSpec s (Slice.removeDoubleLcmLoop fuel s) := by
  intro fuel
  induction fuel with
  | zero => intro s _ h; omega
  | succ fuel ih =>
    intro s hs hlen
    have hl : s.touchLcm.lcm = lcmOf s.ideal := hs.getLcm
    unfold Slice.removeDoubleLcmLoop
    simp only [touchLcm_ideal, hl]
    set J := s.ideal.filter fun g => !Slice.isDoubleLcm (lcmOf s.ideal) g with hJ
    split
    · rename_i he
      have hJe : J = s.ideal := filter_length_eq he
      refine ⟨touchLcm_inv0 hs, rfl, rfl, rfl, List.Sublist.refl _, ?_, fun _ => Iff.rfl, fun _ h => h, fun _ => rfl⟩
      intro g hg i j hi hj
      by_contra hij
      have hgJ : g ∈ J := by rw [hJe]; exact hg
      have := (List.mem_filter.1 hgJ).2
      have hd : Slice.isDoubleLcm (lcmOf s.ideal) g = true := isDoubleLcm_iff.2 ⟨i, j, hij, hi, hj⟩
      simp [hd] at this
    · rename_i hne
      have hsubl : J.Sublist s.ideal := List.filter_sublist
      have hlt : J.length < s.ideal.length := lt_of_le_of_ne hsubl.length_le hne
      set s' : Slice n := { s.touchLcm with ideal := J, lcm := lcmOf s.ideal, lcmUpdated := false } with hs'
      have hinv : SliceInv0 s' :=
        ⟨hs.antiI.filter _, hs.antiS, fun t ht g hg => hs.norm t ht g (hsubl.subset hg), by simp [hs'], hs.hint⟩
      have hr := ih s' hinv (by show J.length < fuel; omega)
      refine ⟨hr.inv, hr.mul, hr.sub, hr.hint, hr.sublist.trans hsubl, hr.noDouble, ?_, ?_, by simp⟩
      · intro u; rw [hr.msm]; exact msm_filter_double rfl
      · intro u hu
        obtain ⟨h1, h2, h3⟩ := hr.room u hu
        have hlt' : ∀ i, u i < lcmOf s.ideal i := fun i =>
          lt_of_lt_of_le (h1 i) (le_def.1 (lcmOf_mono fun g hg => hsubl.subset hg) i)
        refine ⟨hlt', ?_, h3⟩
        rintro ⟨g, hg, hle⟩
        by_cases hd : Slice.isDoubleLcm (lcmOf s.ideal) g = true
        · obtain ⟨i, _, _, h1, _⟩ := isDoubleLcm_iff.1 hd
          have := hlt' i; have := le_def.1 hle i; omega
        · exact h2 ⟨g, List.mem_filter.2 ⟨hg, by simpa using hd⟩, hle⟩

theorem removeDoubleLcm_spec (s : Slice n) (hs : SliceInv0 s) : DoubleSpec s s.removeDoubleLcm := by
  unfold Slice.removeDoubleLcm
  split
  · rename_i he
    have h0 : s.ideal = [] := by simpa using he
    refine ⟨hs, rfl, rfl, rfl, List.Sublist.refl _, ?_, fun _ => Iff.rfl, fun _ h => h, fun _ => rfl⟩
    simp [h0]
  · exact removeDoubleLcmLoop_spec _ s hs (by omega)

/-! ## inner and outer slices -/

/-- What `innerSlice(p)` does to a slice of either kind. -/
structure InnerSpec (k : Kind) (p : Term n) (s : Slice n) (r : Slice n × Bool) : Prop where
  inv : SliceInv k r.1
  mul : r.1.multiply = s.multiply + p
  sub : ∀ u, mem r.1.subtract u ↔ mem s.subtract (u + p)
  val : ∀ u, ¬ mem r.1.subtract u → val k r.1.ideal u = val k s.ideal (u + p)
  subset : ∀ g ∈ r.1.ideal, ∃ g' ∈ s.ideal, g = g' - p
  length : r.1.ideal.length ≤ s.ideal.length
  room : ∀ u, Room r.1 u → Room s (u + p)
  unchanged : r.2 = false → r.1.ideal.Perm (s.ideal.map (· - p)) ∧
    r.1.subtract.Perm (s.subtract.map (· - p)) ∧ (∀ g ∈ s.ideal, ∀ i, g i = 0 ∨ p i < g i)

theorem innerBase_room {p : Term n} {s : Slice n} {r : Slice n × Bool} (h : InnerBaseSpec p s r) (u : Term n)
    (hu : Room r.1 u) : Room s (u + p) := by
  obtain ⟨h1, h2, h3⟩ := hu
  refine ⟨fun i => ?_, ?_, ?_⟩
  · have hle : lcmOf r.1.ideal ≤ lcmOf s.ideal - p := by
      apply lcmOf_le
      intro g hg
      obtain ⟨g', hg', rfl⟩ := h.subset g hg
      refine le_def.2 fun i => ?_
      have := le_def.1 (le_lcmOf hg') i
      simp only [Pi.sub_apply]; omega
    have := h1 i
    have := le_def.1 hle i
    simp only [Pi.sub_apply, Pi.add_apply] at *
    omega
  · rw [← h.agree u h3 u (le_def.2 fun i => by simp)]; exact h2
  · rw [← h.sub]; exact h3

theorem noDouble_perm {I J : List (Term n)} (h : I.Perm J) : NoDouble I ↔ NoDouble J := by
  unfold NoDouble
  rw [lcmOf_perm h]
  simp [h.mem_iff]

theorem noDouble_map_sub {I : List (Term n)} {p : Term n} (h : NoDouble I) : NoDouble (I.map (· - p)) := by
  intro hf g hg i j hi hj
  rw [lcmOf_map_sub] at hf hi hj
  obtain ⟨g', hg', rfl⟩ := List.mem_map.1 hg
  have hf' : ∀ i, lcmOf I i ≠ 0 := by
    intro i h0
    apply hf i
    simp [h0]
  have key : ∀ i, (g' - p) i = (lcmOf I - p) i → g' i = lcmOf I i := by
    intro i h
    have := hf i
    have := le_def.1 (le_lcmOf hg') i
    simp only [Pi.sub_apply] at *
    omega
  exact h hf' g' hg' i j (key i hi) (key j hj)

theorem inner_spec {k : Kind} {s : Slice n} (hs : SliceInv k s) (p : Term n) :
    InnerSpec k p s (s.inner k p) := by
  have hb := innerBase_spec hs.toInv0 p
  have hval : ∀ u, ¬ mem (s.innerBase p).1.subtract u →
      val k (s.innerBase p).1.ideal u = val k s.ideal (u + p) := by
    intro u hu
    apply val_shift
    intro e he
    rw [hb.agree u hu (u + e) (le_def.2 fun i => by have := le_def.1 he i; simpa using this)]
    rw [add_right_comm]
  unfold Slice.inner
  cases k with
  | hilbert =>
    simp only
    exact ⟨⟨hb.inv.antiI, hb.inv.antiS, hb.inv.norm, hb.inv.cache, by simp, hb.inv.hint⟩, hb.mul, hb.sub, hval,
      hb.subset, hb.length, innerBase_room hb, fun h => ⟨(hb.unchanged h).1, (hb.unchanged h).2.1, (hb.unchanged h).2.2.1⟩⟩
  | msm =>
    simp only
    split
    · rename_i hu
      refine ⟨⟨hb.inv.antiI, hb.inv.antiS, hb.inv.norm, hb.inv.cache, fun _ => ?_, hb.inv.hint⟩, hb.mul, hb.sub, hval,
        hb.subset, hb.length, innerBase_room hb,
        fun h => ⟨(hb.unchanged h).1, (hb.unchanged h).2.1, (hb.unchanged h).2.2.1⟩⟩
      rw [noDouble_perm (hb.updated hu).2]
      exact noDouble_map_sub (hs.noDouble rfl)
    · have hd := removeDoubleLcm_spec _ hb.inv
      refine ⟨⟨hd.inv.antiI, hd.inv.antiS, hd.inv.norm, hd.inv.cache, fun _ _ => hd.noDouble, hd.inv.hint⟩,
        hd.mul.trans hb.mul, ?_, ?_, ?_, ?_, ?_, ?_⟩
      · intro u; rw [← hb.sub]; simp only [hd.sub]
      · intro u hu
        simp only [hd.sub] at hu
        rw [← hval u hu]
        simp only [val_msm_eq, hd.msm]
      · intro g hg; exact hb.subset g (hd.sublist.subset hg)
      · exact hd.sublist.length_le.trans hb.length
      · intro u hu; exact innerBase_room hb u (hd.room u hu)
      · intro h
        simp only [Bool.or_eq_false_iff] at h
        have := hb.unchanged h.2
        simp only [hd.sub, hd.unchanged h.1]
        exact ⟨this.1, this.2.1, this.2.2.1⟩

/-- The content of the inner slice is the part of the content divisible by `multiply * p`. -/
theorem InnerSpec.cval {k : Kind} {p : Term n} {s : Slice n} {r : Slice n × Bool} (h : InnerSpec k p s r)
    (m : Term n) : cval k r.1 m = if s.multiply + p ≤ m then cval k s m else 0 := by
  unfold Frobby.cval
  rw [h.mul]
  by_cases hm : s.multiply + p ≤ m
  · have hq : s.multiply ≤ m := le_trans (le_def.2 fun i => by simp) hm
    have he : m - (s.multiply + p) + p = m - s.multiply := by
      funext i
      have := le_def.1 hm i
      simp only [Pi.add_apply, Pi.sub_apply] at *
      omega
    rw [if_pos hm]
    simp only [hm, hq, true_and, h.sub, he]
    by_cases hS : mem s.subtract (m - s.multiply)
    · simp [hS]
    · simp only [hS, not_false_eq_true, if_true]
      rw [h.val, he]
      rw [h.sub, he]; exact hS
  · simp [hm]

structure OuterSpec (k : Kind) (p : Term n) (s : Slice n) (r : Slice n) : Prop where
  inv : SliceInv k r
  cval : ∀ m, cval k r m = if s.multiply + p ≤ m then 0 else cval k s m
  sublist : r.ideal.Sublist s.ideal
  mul : r.multiply = s.multiply
  room : ∀ u, Room r u → Room s u ∧ ¬ p ≤ u

theorem removeStrict_mem {p g : Term n} {I : List (Term n)} :
    g ∈ removeStrictMultiples p I ↔ g ∈ I ∧ ¬ strictlyDivides p g := by
  simp [removeStrictMultiples]

theorem removeStrict_agree {p : Term n} {I : List (Term n)} {u : Term n} (hu : ¬ p ≤ u) {m : Term n}
    (hm : m ≤ u + 1) : mem (removeStrictMultiples p I) m ↔ mem I m := by
  constructor
  · exact mem_subset fun g hg => (removeStrict_mem.1 hg).1
  · rintro ⟨g, hg, hle⟩
    exact ⟨g, removeStrict_mem.2 ⟨hg, fun hs => strict_not_le hs hu (hle.trans hm)⟩, hle⟩

/-- If the pivot is a pure power `x_w^e`, the remaining generators have exponent at most `e` at `w`. -/
theorem removeStrict_pure {p : Term n} {I : List (Term n)} (hp : p ≠ 0) (h1 : ¬ 1 < sizeOfSupport p) :
    ∃ w, p = single w (p w) ∧ p w ≠ 0 ∧ ∀ g ∈ removeStrictMultiples p I, g w ≤ p w := by
  have h2 : sizeOfSupport p = 1 := by
    have : sizeOfSupport p ≠ 0 := fun h => hp ((sizeOfSupport_zero_iff p).1 h)
    omega
  obtain ⟨w, _, hw, he⟩ := eq_single_of_support_one h2
  refine ⟨w, he, hw, ?_⟩
  intro g hg
  by_contra hc
  apply (removeStrict_mem.1 hg).2
  refine ⟨fun i => ?_, fun h0 => by simp [h0] at hc⟩
  by_cases hi : i = w
  · subst hi; left; omega
  · right; rw [he]; simp [hi]

theorem outerBase_props {s : Slice n} (hs : SliceInv0 s) {p : Term n} (hp : p ≠ 0) :
    SliceInv0 (s.outerBase p) ∧ (s.outerBase p).ideal.Sublist s.ideal ∧
      (∀ u, ¬ mem (s.outerBase p).subtract u → (∀ i, u i < lcmOf (s.outerBase p).ideal i) →
        ¬ mem s.subtract u ∧ ¬ p ≤ u) ∧
      (∀ u, ¬ mem s.subtract u → ¬ p ≤ u → ¬ mem (s.outerBase p).subtract u) := by
  have hsub : (removeStrictMultiples p s.ideal).Sublist s.ideal := List.filter_sublist
  have hspec := insertReminimize_spec p s.subtract hs.antiS
  refine ⟨⟨hs.antiI.sublist hsub, ?_, ?_, ?_, ?_⟩, hsub, ?_, ?_⟩
  · show Anti (if 1 < sizeOfSupport p then insertReminimize p s.subtract else s.subtract)
    split
    · exact hspec.anti
    · exact hs.antiS
  · intro t ht g hg
    obtain ⟨hg1, hg2⟩ := removeStrict_mem.1 hg
    have ht' : t ∈ (if 1 < sizeOfSupport p then insertReminimize p s.subtract else s.subtract) := ht
    split at ht'
    · have := hspec.subset t ht'
      rcases List.mem_append.1 this with h | h
      · exact hs.norm t h g hg1
      · have : t = p := by simpa using h
        subst this; exact hg2
    · exact hs.norm t ht' g hg1
  · intro hu
    have hu' : (if (removeStrictMultiples p s.ideal).length = s.ideal.length then s.lcmUpdated else false) = true := hu
    split at hu'
    · rename_i hl
      have : removeStrictMultiples p s.ideal = s.ideal := filter_length_eq hl
      show s.lcm = lcmOf (removeStrictMultiples p s.ideal)
      rw [this]; exact hs.cache hu'
    · simp at hu'
  · rcases Nat.eq_zero_or_pos n with h0 | h0
    · exact Or.inr h0
    · exact Or.inl (firstNonZero_lt hp)
  · intro u hu hlt
    have hu' : ¬ mem (if 1 < sizeOfSupport p then insertReminimize p s.subtract else s.subtract) u := hu
    split at hu'
    · rw [hspec.mem_iff, mem_append] at hu'
      push Not at hu'
      refine ⟨hu'.1, fun h => hu'.2 ⟨p, by simp, h⟩⟩
    · rename_i h1
      refine ⟨hu', fun hle => ?_⟩
      obtain ⟨w, _, _, h3⟩ := removeStrict_pure (I := s.ideal) hp h1
      have h4 : lcmOf (s.outerBase p).ideal w ≤ p w := by
        by_cases hz : lcmOf (s.outerBase p).ideal w = 0
        · omega
        · obtain ⟨g, hg, he⟩ := lcmOf_attained (Nat.pos_of_ne_zero hz)
          rw [← he]; exact h3 g hg
      have := hlt w
      have := le_def.1 hle w
      omega
  · intro u h1 h2 hm
    have hu' : mem (if 1 < sizeOfSupport p then insertReminimize p s.subtract else s.subtract) u := hm
    split at hu'
    · rw [hspec.mem_iff, mem_append] at hu'
      rcases hu' with h | ⟨g, hg, hle⟩
      · exact h1 h
      · have : g = p := by simpa using hg
        subst this; exact h2 hle
    · exact h1 hu'

/-- `outerSlice` seen through `val`. -/
theorem outer_core {k : Kind} {p : Term n} {s r : Slice n} (hb : SliceInv0 (s.outerBase p) ∧ (s.outerBase p).ideal.Sublist s.ideal ∧
      (∀ u, ¬ mem (s.outerBase p).subtract u → (∀ i, u i < lcmOf (s.outerBase p).ideal i) →
        ¬ mem s.subtract u ∧ ¬ p ≤ u) ∧
      (∀ u, ¬ mem s.subtract u → ¬ p ≤ u → ¬ mem (s.outerBase p).subtract u))
    (hmul : r.multiply = s.multiply) (hsub : r.subtract = (s.outerBase p).subtract)
    (hval : ∀ u, val k r.ideal u = val k (s.outerBase p).ideal u) (m : Term n) :
    cval k r m = if s.multiply + p ≤ m then 0 else cval k s m := by
  obtain ⟨_, _, h3, h4⟩ := hb
  unfold cval
  rw [hmul, hsub]
  by_cases hq : s.multiply ≤ m
  · have hpq : s.multiply + p ≤ m ↔ p ≤ m - s.multiply := by
      constructor
      · intro h
        refine le_def.2 fun i => ?_
        have := le_def.1 h i
        simp only [Pi.add_apply, Pi.sub_apply] at *; omega
      · intro h
        refine le_def.2 fun i => ?_
        have := le_def.1 h i
        have := le_def.1 hq i
        simp only [Pi.add_apply, Pi.sub_apply] at *; omega
    simp only [hq, true_and, hpq]
    set u := m - s.multiply with hu
    rw [hval u]
    by_cases hpu : p ≤ u
    · simp only [hpu, if_true]
      split
      · rename_i hS
        by_contra hne
        exact (h3 u hS (val_lt_lcm hne)).2 hpu
      · rfl
    · simp only [hpu, if_false]
      have hagree : val k (s.outerBase p).ideal u = val k s.ideal u :=
        val_congr fun m _ hm => removeStrict_agree hpu hm
      rw [hagree]
      by_cases hS : mem s.subtract u
      · rw [if_neg (not_not.2 hS : ¬ ¬ mem s.subtract u)]
        split
        · rename_i hS'
          by_contra hne
          rw [← hagree] at hne
          exact (h3 u hS' (val_lt_lcm hne)).1 hS
        · rfl
      · rw [if_pos hS, if_pos (h4 u hS hpu)]
  · simp [hq]

theorem outer_spec {k : Kind} {s : Slice n} (hs : SliceInv k s) {p : Term n} (hp : p ≠ 0) :
    OuterSpec k p s (s.outer k p) := by
  have hb := outerBase_props hs.toInv0 hp
  have hroomB : ∀ u, Room (s.outerBase p) u → Room s u ∧ ¬ p ≤ u := by
    rintro u ⟨h1, h2, h3⟩
    obtain ⟨h4, h5⟩ := hb.2.2.1 u h3 h1
    refine ⟨⟨fun i => lt_of_lt_of_le (h1 i) (le_def.1 (lcmOf_mono fun g hg => hb.2.1.subset hg) i), ?_, h4⟩, h5⟩
    rw [← removeStrict_agree (p := p) h5 (le_def.2 fun i => by simp : u ≤ u + 1)]
    exact h2
  unfold Slice.outer
  cases k with
  | hilbert =>
    simp only
    exact ⟨⟨hb.1.antiI, hb.1.antiS, hb.1.norm, hb.1.cache, by simp, hb.1.hint⟩,
      outer_core hb rfl rfl (fun _ => rfl), hb.2.1, rfl, hroomB⟩
  | msm =>
    simp only
    split
    · rename_i hu
      refine ⟨⟨hb.1.antiI, hb.1.antiS, hb.1.norm, hb.1.cache, fun _ => ?_, hb.1.hint⟩,
        outer_core hb rfl rfl (fun _ => rfl), hb.2.1, rfl, hroomB⟩
      have hu' : (if (removeStrictMultiples p s.ideal).length = s.ideal.length then s.lcmUpdated else false) = true := hu
      split at hu'
      · rename_i hl
        have : (s.outerBase p).ideal = s.ideal := filter_length_eq hl
        rw [this]; exact hs.noDouble rfl
      · simp at hu'
    · have hd := removeDoubleLcm_spec _ hb.1
      refine ⟨⟨hd.inv.antiI, hd.inv.antiS, hd.inv.norm, hd.inv.cache, fun _ _ => hd.noDouble, hd.inv.hint⟩,
        outer_core hb hd.mul hd.sub ?_, hd.sublist.trans hb.2.1, hd.mul, fun u hu => hroomB u (hd.room u hu)⟩
      intro u
      simp only [val_msm_eq, hd.msm]

end Frobby

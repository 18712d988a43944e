import Verif.Run
import Verif.PropsApi

/-!
# C21, C23 - C26: the slice algorithm
-/

namespace Frobby

variable {n : ℕ}

open Term

/-! ## specification -/

/-- The content of a slice `(I, S, q)`: the monomials `q * u` with `u` a maximal standard monomial of `I` outside `S`. -/
def Content (s : Slice n) : Set (Term n) :=
  {m | s.multiply ≤ m ∧ Msm s.ideal (m - s.multiply) ∧ ¬ mem s.subtract (m - s.multiply)}

/-- The slices that can be reached from any minimal generators by any sequence of the operations that the strategies
use. -/
inductive Reach (k : Kind) : {n : ℕ} → Slice n → Prop
  /-- the initial slice of `MsmStrategy::run` and of `HilbertStrategy::run` -/
  | start {n : ℕ} (I : List (Term n)) (q : Term n) (hI : Anti I) :
      Reach k (match k with | .msm => (Slice.new I [] q).removeDoubleLcm.1 | .hilbert => Slice.new I [] q)
  | getLcm {n : ℕ} {s : Slice n} : Reach k s → Reach k s.touchLcm
  | inner {n : ℕ} {s : Slice n} (p : Term n) : Reach k s → Reach k (s.inner k p).1
  | outer {n : ℕ} {s : Slice n} (p : Term n) (hp : p ≠ 0) : Reach k s → Reach k (s.outer k p)
  | adjustMultiply {n : ℕ} {s : Slice n} : Reach k s → Reach k (s.adjustMultiply k).1
  | prune {n : ℕ} {s : Slice n} : 0 < n → Reach k s → Reach k s.pruneSubtract.1
  | lowerBound {n : ℕ} {s : Slice n} {r : Slice n × Bool} : 0 < n → Reach k s → s.applyLowerBound k = some r → Reach k r.1
  | simplify {n : ℕ} {s : Slice n} {r : Slice n × Bool} : 0 < n → Reach k s → s.simplify k = some r → Reach k r.1
  | bigProjection {n : ℕ} {s : Slice n} {big rest : List (Fin n)} : Reach k s → analyze s.ideal s.subtract = some (big, rest) →
      (∀ i, s.getLcm i ≠ 0) → Reach k (s.setToProjOf big)
  | restProjection {n : ℕ} {s : Slice n} {big rest : List (Fin n)} : Reach k s → analyze s.ideal s.subtract = some (big, rest) →
      (∀ i, s.getLcm i ≠ 0) → Reach k (s.setToProjOf rest)

theorem Reach.inv {k : Kind} {n : ℕ} {s : Slice n} (h : Reach k s) : SliceInv k s := by
  induction h with
  | start I q hI =>
    have h0 := new_inv0 hI q
    cases k with
    | msm =>
      have hd := removeDoubleLcm_spec (Slice.new I [] q) h0
      exact ⟨hd.inv.antiI, hd.inv.antiS, hd.inv.norm, hd.inv.cache, fun _ _ => hd.noDouble, hd.inv.hint⟩
    | hilbert => exact ⟨h0.antiI, h0.antiS, h0.norm, h0.cache, by simp, h0.hint⟩
  | getLcm _ ih => exact touchLcm_inv ih
  | inner p _ ih => exact (inner_spec ih p).inv
  | outer p hp _ ih => exact (outer_spec ih hp).inv
  | adjustMultiply _ ih => exact (adjustMultiply_spec ih).1.inv
  | prune hn _ ih => exact (pruneSubtract_spec ih hn).1.inv
  | lowerBound hn _ h ih =>
    obtain ⟨r', h1, h2, _⟩ := applyLowerBound_spec ih hn
    rw [h] at h1; cases h1; exact h2.inv
  | simplify hn _ h ih =>
    obtain ⟨r', h1, h2, _⟩ := simplify_spec ih hn
    rw [h] at h1; cases h1; exact h2.inv
  | bigProjection _ h hf ih =>
    rw [ih.getLcm] at hf
    exact inv_proj ih (analyze_spec ih.antiI h) hf
  | restProjection _ h hf ih =>
    rw [ih.getLcm] at hf
    exact inv_proj ih (analyze_spec ih.antiI h).symm hf

theorem mem_content_iff {s : Slice n} {m : Term n} : m ∈ Content s ↔ cval .msm s m ≠ 0 := by
  rw [cval_ne_iff]
  exact ⟨fun h => ⟨h.1, h.2.2, h.2.1⟩, fun h => ⟨h.1, h.2.2, h.2.1⟩⟩

theorem content_eq_of_cval {s t : Slice n} (h : ∀ m, cval .msm s m = cval .msm t m) : Content s = Content t := by
  ext m; rw [mem_content_iff, mem_content_iff, h]

/-! ## C23 -/

/-- C23: in every reachable slice the cached lcm, if it is said to be up to date, is the lcm of the generators, and
`getLcm` returns the lcm. -/
theorem C23_cachedLcm {k : Kind} {s : Slice n} (h : Reach k s) :
    (s.lcmUpdated = true → IsLcm s.ideal s.lcm) ∧ IsLcm s.ideal s.getLcm := by
  rw [isLcm_iff, isLcm_iff]
  exact ⟨h.inv.cache, h.inv.getLcm⟩

/-- C21, C23: in every reachable slice with variables the hint for the next lower bound is a variable. -/
theorem C21_hint {k : Kind} {s : Slice n} (h : Reach k s) (hn : 0 < n) : s.hint < n := by
  have := h.inv.hint; omega

/-! ## C24 -/

/-- C24: simplification, which always ends, does not change the content. -/
theorem C24_simplify {s : Slice n} (h : Reach .msm s) (hn : 0 < n) :
    ∃ r, s.simplify .msm = some r ∧ Content r.1 = Content s := by
  obtain ⟨r, h1, h2, _⟩ := simplify_spec h.inv hn
  exact ⟨r, h1, content_eq_of_cval h2.cval⟩

/-- C24: neither do its parts. -/
theorem C24_steps {s : Slice n} (h : Reach .msm s) (hn : 0 < n) :
    (∃ r, s.applyLowerBound .msm = some r ∧ Content r.1 = Content s) ∧ Content s.pruneSubtract.1 = Content s ∧
      Content (s.adjustMultiply .msm).1 = Content s ∧ Content s.removeDoubleLcm.1 = Content s ∧
      Content s.normalize = Content s := by
  refine ⟨?_, content_eq_of_cval (pruneSubtract_spec h.inv hn).1.cval, content_eq_of_cval (adjustMultiply_spec h.inv).1.cval,
    ?_, ?_⟩
  · obtain ⟨r, h1, h2, _⟩ := applyLowerBound_spec h.inv hn
    exact ⟨r, h1, content_eq_of_cval h2.cval⟩
  · have hd := removeDoubleLcm_spec s h.inv.toInv0
    ext m
    simp only [Content, Set.mem_ofPred_eq, hd.mul, hd.sub, hd.msm]
  · refine content_eq_of_cval fun m => ?_
    unfold cval
    have h1 : s.normalize.multiply = s.multiply := rfl
    have h2 : s.normalize.subtract = s.subtract := rfl
    rw [h1, h2]
    by_cases hc : s.multiply ≤ m ∧ ¬ mem s.subtract (m - s.multiply)
    · rw [if_pos hc, if_pos hc]
      exact val_congr fun _ _ hm => normalize_agree hc.2 hm
    · rw [if_neg hc, if_neg hc]

/-- C24: normalisation keeps the content of any slice, also of those that no run meets. -/
theorem C24_normalize (s : Slice n) : Content s.normalize = Content s := by
  refine content_eq_of_cval fun m => ?_
  unfold cval
  have h1 : s.normalize.multiply = s.multiply := rfl
  have h2 : s.normalize.subtract = s.subtract := rfl
  rw [h1, h2]
  by_cases hc : s.multiply ≤ m ∧ ¬ mem s.subtract (m - s.multiply)
  · rw [if_pos hc, if_pos hc]
    exact val_congr fun _ _ hm => normalize_agree hc.2 hm
  · rw [if_neg hc, if_neg hc]

/-! ## C25 -/

/-- C25: the content of the inner slice is the part of the content divisible by `multiply * pivot`, the content of the
outer slice is the remainder; they are disjoint and together make up the content. -/
theorem C25_pivotSplit {s : Slice n} (h : Reach .msm s) (p : Term n) (hp : p ≠ 0) :
    Content (s.inner .msm p).1 = {m ∈ Content s | s.multiply + p ≤ m} ∧
      Content (s.outer .msm p) = {m ∈ Content s | ¬ s.multiply + p ≤ m} ∧
      Disjoint (Content (s.inner .msm p).1) (Content (s.outer .msm p)) ∧
      Content (s.inner .msm p).1 ∪ Content (s.outer .msm p) = Content s := by
  have h1 : Content (s.inner .msm p).1 = {m ∈ Content s | s.multiply + p ≤ m} := by
    ext m
    rw [Set.mem_ofPred_eq, mem_content_iff, mem_content_iff, (inner_spec h.inv p).cval]
    split <;> simp [*]
  have h2 : Content (s.outer .msm p) = {m ∈ Content s | ¬ s.multiply + p ≤ m} := by
    ext m
    rw [Set.mem_ofPred_eq, mem_content_iff, mem_content_iff, (outer_spec h.inv hp).cval]
    split <;> simp [*]
  refine ⟨h1, h2, ?_, ?_⟩
  · rw [h1, h2, Set.disjoint_left]
    rintro m ⟨_, h3⟩ ⟨_, h4⟩
    exact h4 h3
  · rw [h1, h2]
    ext m
    simp only [Set.mem_union, Set.mem_ofPred_eq]
    tauto

/-- C25: the contribution of a Hilbert slice to the coefficients is split in the same way. -/
theorem C25_pivotSplit_hilbert {s : Slice n} (h : Reach .hilbert s) (p : Term n) (hp : p ≠ 0) (m : Term n) :
    cval .hilbert (s.inner .hilbert p).1 m = (if s.multiply + p ≤ m then cval .hilbert s m else 0) ∧
      cval .hilbert (s.outer .hilbert p) m = (if s.multiply + p ≤ m then 0 else cval .hilbert s m) :=
  ⟨(inner_spec h.inv p).cval m, (outer_spec h.inv hp).cval m⟩

/-! ## C26 -/

/-- C26: the groups of variables that the splitter reports partition the variables, and no generator or element of the
subtract has variables of both groups. -/
theorem C26_groups {k : Kind} {s : Slice n} (h : Reach k s) {big rest : List (Fin n)}
    (ha : analyze s.ideal s.subtract = some (big, rest)) :
    (big ++ rest).Perm (List.finRange n) ∧ big ≠ [] ∧ rest ≠ [] ∧
      ∀ g, g ∈ s.ideal ∨ g ∈ s.subtract → (∀ v ∈ big, g v = 0) ∨ ∀ v ∈ rest, g v = 0 := by
  have hi := analyze_spec h.inv.antiI ha
  refine ⟨?_, ?_, ?_, fun g hg => ?_⟩
  · refine (List.perm_ext_iff_of_nodup ?_ (List.nodup_finRange n)).2 fun v => by simpa using hi.cover v
    rw [List.nodup_append]
    exact ⟨hi.nodupB, hi.nodupR, fun a ha b hb hab => hi.disj a ha (hab ▸ hb)⟩
  · intro h0
    have := hi.two_le h.inv.antiI
    rw [h0] at this; simp at this
  · intro h0
    have := hi.symm.two_le h.inv.antiI
    rw [h0] at this; simp at this
  · rcases hi.supp g (by simpa using hg) with h1 | h1
    · right
      intro v hv
      by_contra hc
      exact hi.disj v (h1 v hc) hv
    · left
      intro v hv
      by_contra hc
      exact hi.disj v hv (h1 v hc)

/-- C26: the content is the product of the contents of the projections. -/
theorem C26_content {s : Slice n} (h : Reach .msm s) {big rest : List (Fin n)}
    (ha : analyze s.ideal s.subtract = some (big, rest)) (m : Term n) :
    m ∈ Content s ↔ (fun i => m (big.get i)) ∈ Content (s.setToProjOf big) ∧
      (fun i => m (rest.get i)) ∈ Content (s.setToProjOf rest) := by
  have hi := analyze_spec h.inv.antiI ha
  have e1 : (fun i => m (big.get i)) = proj big m := rfl
  have e2 : (fun i => m (rest.get i)) = proj rest m := rfl
  rw [e1, e2, mem_content_iff, mem_content_iff, mem_content_iff, cval_sep hi]
  simp

/-- C26: the coefficients of a Hilbert slice are products too. -/
theorem C26_hilbert {s : Slice n} (h : Reach .hilbert s) {big rest : List (Fin n)}
    (ha : analyze s.ideal s.subtract = some (big, rest)) (m : Term n) :
    cval .hilbert s m = cval .hilbert (s.setToProjOf big) (fun i => m (big.get i)) *
      cval .hilbert (s.setToProjOf rest) (fun i => m (rest.get i)) :=
  cval_sep (analyze_spec h.inv.antiI ha) m

/-! ## examples -/

/-- An ideal with eight generators in six variables that splits into two groups of three. -/
def splitExample : List (Term 6) :=
  [![2, 0, 0, 0, 0, 0], ![0, 2, 0, 0, 0, 0], ![0, 0, 2, 0, 0, 0], ![1, 1, 1, 0, 0, 0],
    ![0, 0, 0, 2, 0, 0], ![0, 0, 0, 0, 2, 0], ![0, 0, 0, 0, 0, 2], ![0, 0, 0, 1, 1, 1]]

example : Anti splitExample := by unfold Anti splitExample; decide

example : analyze splitExample [] = some ([3, 4, 5], [0, 1, 2]) := by decide

/-- A reachable slice: ⟨x², xy, y²⟩ after an inner slice with `x` and the computation of the lcm. -/
example : Reach .hilbert ((Slice.new [(![2, 0] : Term 2), ![1, 1], ![0, 2]] [] 0).inner .hilbert ![1, 0]).1.touchLcm :=
  .getLcm (.inner _ (.start (k := .hilbert) _ _ (by unfold Anti; decide)))

/-- A monomial in the content of a slice. -/
example : (![2, 1] : Term 2) ∈ Content (Slice.new [(![2, 0] : Term 2), ![1, 1], ![0, 2]] [] 1) :=
  ⟨by decide, by decide, by decide⟩

end Frobby

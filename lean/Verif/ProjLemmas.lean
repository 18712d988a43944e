import Verif.IndepLemmas
import Verif.HilbertBase
import Verif.MsmBase

/-!
# Projections of slices onto independent sets of variables
-/

namespace Frobby

variable {n : ℕ}

open Term

/-! ## projecting terms -/

theorem inverseProject_aux (vs : List (Fin n)) (hnd : vs.Nodup) (t : Term vs.length) :
    ∀ (l : List (Fin vs.length)) (base : Term n),
    (∀ i, i ∈ l → l.foldl (fun acc i => Function.update acc (vs.get i) (t i)) base (vs.get i) = t i) ∧
    ∀ v, (∀ i ∈ l, vs.get i ≠ v) → l.foldl (fun acc i => Function.update acc (vs.get i) (t i)) base v = base v := by
  intro l
  induction l with
  | nil => intro base; simp
  | cons j l ih =>
    intro base
    simp only [List.foldl_cons]
    obtain ⟨h1, h2⟩ := ih (Function.update base (vs.get j) (t j))
    constructor
    · intro i hi
      by_cases hil : i ∈ l
      · exact h1 i hil
      · have hij : i = j := by
          rcases List.mem_cons.1 hi with h | h
          · exact h
          · exact absurd h hil
        subst hij
        rw [h2, Function.update_self]
        intro k hk he
        exact hil ((List.nodup_iff_injective_get.1 hnd he) ▸ hk)
    · intro v hv
      rw [h2 v (fun i hi => hv i (by simp [hi])), Function.update_of_ne (Ne.symm (hv j (by simp)))]

theorem inverseProject_get {vs : List (Fin n)} (hnd : vs.Nodup) (base : Term n) (t : Term vs.length)
    (i : Fin vs.length) : inverseProject vs base t (vs.get i) = t i :=
  (inverseProject_aux vs hnd t (List.finRange vs.length) base).1 i (List.mem_finRange i)

theorem inverseProject_of_notMem {vs : List (Fin n)} (hnd : vs.Nodup) (base : Term n) (t : Term vs.length) {v : Fin n}
    (hv : v ∉ vs) : inverseProject vs base t v = base v :=
  (inverseProject_aux vs hnd t (List.finRange vs.length) base).2 v fun i _ he => hv (he ▸ List.get_mem vs i)

theorem proj_inverseProject {vs : List (Fin n)} (hnd : vs.Nodup) (base : Term n) (t : Term vs.length) :
    proj vs (inverseProject vs base t) = t := by
  funext i; exact inverseProject_get hnd base t i

theorem proj_apply (vs : List (Fin n)) (t : Term n) (i : Fin vs.length) : proj vs t i = t (vs.get i) := rfl

theorem proj_mono {vs : List (Fin n)} {a b : Term n} (h : a ≤ b) : proj vs a ≤ proj vs b :=
  le_def.2 fun i => le_def.1 h (vs.get i)

theorem le_of_proj_le {vs : List (Fin n)} {g u : Term n} (hs : ∀ v, g v ≠ 0 → v ∈ vs) (h : proj vs g ≤ proj vs u) :
    g ≤ u := by
  refine le_def.2 fun v => ?_
  by_cases hv : g v = 0
  · omega
  · obtain ⟨i, hi⟩ := List.get_of_mem (hs v hv)
    have := le_def.1 h i
    rw [proj_apply, proj_apply, hi] at this
    exact this

/-! ## the situation after a successful `analyze` -/

/-- The two sets of variables partition the variables and separate the elements of `G`. -/
structure Sep (G : List (Term n)) (big rest : List (Fin n)) : Prop where
  nodupB : big.Nodup
  nodupR : rest.Nodup
  disj : ∀ v, v ∈ big → v ∉ rest
  cover : ∀ v, v ∈ big ∨ v ∈ rest
  supp : ∀ g ∈ G, (∀ v, g v ≠ 0 → v ∈ big) ∨ ∀ v, g v ≠ 0 → v ∈ rest

theorem Sep.symm {G : List (Term n)} {a b : List (Fin n)} (h : Sep G a b) : Sep G b a :=
  ⟨h.nodupR, h.nodupB, fun v h1 h2 => h.disj v h2 h1, fun v => (h.cover v).symm, fun g hg => (h.supp g hg).symm⟩

theorem IndepSpec.sepI {I S : List (Term n)} {a b : List (Fin n)} (h : IndepSpec I S a b) : Sep I a b :=
  ⟨h.nodupB, h.nodupR, h.disj, h.cover, fun g hg => h.supp g (List.mem_append_left _ hg)⟩

theorem IndepSpec.sepS {I S : List (Term n)} {a b : List (Fin n)} (h : IndepSpec I S a b) : Sep S a b :=
  ⟨h.nodupB, h.nodupR, h.disj, h.cover, fun g hg => h.supp g (List.mem_append_right _ hg)⟩

/-- The projected elements. -/
def projIdeal (vs : List (Fin n)) (G : List (Term n)) : List (Term vs.length) :=
  (G.filter fun g => hasProjection vs g).map (proj vs)

theorem hasProjection_iff {G : List (Term n)} {big rest : List (Fin n)} (h : Sep G big rest) {g : Term n} (hg : g ∈ G) :
    hasProjection big g = true ↔ ∀ v, g v ≠ 0 → v ∈ big := by
  unfold hasProjection
  rw [decide_eq_true_eq]
  by_cases h0 : g = 0
  · subst h0
    constructor
    · intro _ v hv; exact absurd rfl hv
    · intro _; left
      by_contra hc
      have hle : firstNonZero (0 : Term n) < n := by
        unfold firstNonZero at hc ⊢
        split at hc
        · rename_i i hi
          have := List.find?_some hi
          simp at this
        · simp at hc
      exact firstNonZero_spec hle rfl
  · have hlt := firstNonZero_lt h0
    have hnz := firstNonZero_spec hlt
    constructor
    · rintro (h1 | ⟨f, hf, h1⟩)
      · omega
      · have hfe : f = ⟨firstNonZero g, hlt⟩ := Fin.ext h1
        rcases h.supp g hg with h2 | h2
        · exact h2
        · exact absurd (h2 _ hnz) (h.disj _ (hfe ▸ hf))
    · intro h1
      exact Or.inr ⟨_, h1 _ hnz, rfl⟩

theorem mem_projIdeal {G : List (Term n)} {big rest : List (Fin n)} (h : Sep G big rest) {x : Term big.length} :
    x ∈ projIdeal big G ↔ ∃ g ∈ G, (∀ v, g v ≠ 0 → v ∈ big) ∧ x = proj big g := by
  unfold projIdeal
  rw [List.mem_map]
  constructor
  · rintro ⟨g, hg, rfl⟩
    rw [List.mem_filter] at hg
    exact ⟨g, hg.1, (hasProjection_iff h hg.1).1 hg.2, rfl⟩
  · rintro ⟨g, hg, h1, rfl⟩
    exact ⟨g, List.mem_filter.2 ⟨hg, (hasProjection_iff h hg).2 h1⟩, rfl⟩

theorem mem_proj {G : List (Term n)} {big rest : List (Fin n)} (h : Sep G big rest) (u : Term n) :
    mem (projIdeal big G) (proj big u) ↔ ∃ g ∈ G, (∀ v, g v ≠ 0 → v ∈ big) ∧ g ≤ u := by
  constructor
  · rintro ⟨x, hx, hle⟩
    obtain ⟨g, hg, h1, rfl⟩ := (mem_projIdeal h).1 hx
    exact ⟨g, hg, h1, le_of_proj_le h1 hle⟩
  · rintro ⟨g, hg, h1, hle⟩
    exact ⟨proj big g, (mem_projIdeal h).2 ⟨g, hg, h1, rfl⟩, proj_mono hle⟩

theorem mem_sep {G : List (Term n)} {big rest : List (Fin n)} (h : Sep G big rest) (u : Term n) :
    mem G u ↔ mem (projIdeal big G) (proj big u) ∨ mem (projIdeal rest G) (proj rest u) := by
  rw [mem_proj h, mem_proj h.symm]
  constructor
  · rintro ⟨g, hg, hle⟩
    rcases h.supp g hg with h1 | h1
    · exact Or.inl ⟨g, hg, h1, hle⟩
    · exact Or.inr ⟨g, hg, h1, hle⟩
  · rintro (⟨g, hg, _, hle⟩ | ⟨g, hg, _, hle⟩) <;> exact ⟨g, hg, hle⟩

theorem Sep.length {G : List (Term n)} {big rest : List (Fin n)} (h : Sep G big rest) :
    big.length + rest.length = n := by
  have hp : (big ++ rest).Perm (List.finRange n) := by
    rw [List.perm_ext_iff_of_nodup]
    · intro v; simpa using h.cover v
    · rw [List.nodup_append']
      exact ⟨h.nodupB, h.nodupR, fun v h1 h2 => h.disj v h1 h2⟩
    · exact List.nodup_finRange n
  have := hp.length_eq
  simpa using this

theorem proj_add (vs : List (Fin n)) (a b : Term n) : proj vs (a + b) = proj vs a + proj vs b := rfl

theorem proj_sub (vs : List (Fin n)) (a b : Term n) : proj vs (a - b) = proj vs a - proj vs b := rfl

theorem proj_single_mem {vs : List (Fin n)} (hnd : vs.Nodup) (j : Fin vs.length) (e : ℕ) :
    proj vs (single (vs.get j) e) = single j e := by
  funext i
  rw [proj_apply, single_apply, single_apply]
  by_cases h : i = j
  · subst h; simp
  · rw [if_neg h, if_neg (fun he => h (List.nodup_iff_injective_get.1 hnd he))]

theorem proj_single_notMem {vs : List (Fin n)} {v : Fin n} (hv : v ∉ vs) (e : ℕ) :
    proj vs (single v e) = 0 := by
  funext i
  rw [proj_apply, single_apply, if_neg]
  · rfl
  · intro he; exact hv (he ▸ List.get_mem vs i)

/-! ## the value of the ideal is a product -/

theorem msm_sep {I : List (Term n)} {big rest : List (Fin n)} (h : Sep I big rest) (u : Term n) :
    Msm I u ↔ Msm (projIdeal big I) (proj big u) ∧ Msm (projIdeal rest I) (proj rest u) := by
  unfold Msm
  constructor
  · rintro ⟨h1, h2⟩
    rw [mem_sep h, not_or] at h1
    refine ⟨⟨h1.1, fun j => ?_⟩, h1.2, fun j => ?_⟩
    · have := h2 (big.get j)
      rw [mem_sep h, proj_add, proj_add, proj_single_mem h.nodupB,
        proj_single_notMem (h.disj _ (List.get_mem big j)), add_zero] at this
      exact this.resolve_right h1.2
    · have := h2 (rest.get j)
      rw [mem_sep h, proj_add, proj_add, proj_single_mem h.nodupR,
        proj_single_notMem (fun hb => h.disj _ hb (List.get_mem rest j)), add_zero] at this
      exact this.resolve_left h1.1
  · rintro ⟨⟨h1, h2⟩, h3, h4⟩
    refine ⟨by rw [mem_sep h, not_or]; exact ⟨h1, h3⟩, fun v => ?_⟩
    rw [mem_sep h]
    rcases h.cover v with hv | hv
    · left
      obtain ⟨j, rfl⟩ := List.get_of_mem hv
      rw [proj_add, proj_single_mem h.nodupB]; exact h2 j
    · right
      obtain ⟨j, rfl⟩ := List.get_of_mem hv
      rw [proj_add, proj_single_mem h.nodupR]; exact h4 j

/-- The indices of the variables of `vs` in `τ`. -/
def projSet (vs : List (Fin n)) (τ : Finset (Fin n)) : Finset (Fin vs.length) :=
  Finset.univ.filter fun i => vs.get i ∈ τ

theorem proj_ind (vs : List (Fin n)) (τ : Finset (Fin n)) : proj vs (ind τ) = ind (projSet vs τ) := by
  funext i
  simp [proj_apply, ind_apply, projSet]

def joinSet (big rest : List (Fin n)) (p : Finset (Fin big.length) × Finset (Fin rest.length)) : Finset (Fin n) :=
  p.1.image big.get ∪ p.2.image rest.get

theorem projSet_joinSet {G : List (Term n)} {big rest : List (Fin n)} (h : Sep G big rest)
    (p : Finset (Fin big.length) × Finset (Fin rest.length)) :
    projSet big (joinSet big rest p) = p.1 ∧ projSet rest (joinSet big rest p) = p.2 := by
  have iB := List.nodup_iff_injective_get.1 h.nodupB
  have iR := List.nodup_iff_injective_get.1 h.nodupR
  constructor
  · ext i
    simp only [projSet, joinSet, Finset.mem_filter, Finset.mem_univ, true_and, Finset.mem_union, Finset.mem_image]
    constructor
    · rintro (⟨j, hj, he⟩ | ⟨j, hj, he⟩)
      · rw [← iB he]; exact hj
      · exact absurd (List.get_mem rest j) (h.disj _ (he ▸ List.get_mem big i))
    · intro hi; exact Or.inl ⟨i, hi, rfl⟩
  · ext i
    simp only [projSet, joinSet, Finset.mem_filter, Finset.mem_univ, true_and, Finset.mem_union, Finset.mem_image]
    constructor
    · rintro (⟨j, hj, he⟩ | ⟨j, hj, he⟩)
      · exact absurd (List.get_mem rest i) (h.disj _ (he ▸ List.get_mem big j))
      · rw [← iR he]; exact hj
    · intro hi; exact Or.inr ⟨i, hi, rfl⟩

theorem joinSet_projSet {G : List (Term n)} {big rest : List (Fin n)} (h : Sep G big rest) (τ : Finset (Fin n)) :
    joinSet big rest (projSet big τ, projSet rest τ) = τ := by
  ext v
  simp only [projSet, joinSet, Finset.mem_union, Finset.mem_image, Finset.mem_filter, Finset.mem_univ, true_and]
  constructor
  · rintro (⟨j, hj, rfl⟩ | ⟨j, hj, rfl⟩) <;> exact hj
  · intro hv
    rcases h.cover v with h1 | h1
    · obtain ⟨j, rfl⟩ := List.get_of_mem h1
      exact Or.inl ⟨j, hv, rfl⟩
    · obtain ⟨j, rfl⟩ := List.get_of_mem h1
      exact Or.inr ⟨j, hv, rfl⟩

theorem card_projSet {G : List (Term n)} {big rest : List (Fin n)} (h : Sep G big rest) (τ : Finset (Fin n)) :
    (projSet big τ).card + (projSet rest τ).card = τ.card := by
  have iB := List.nodup_iff_injective_get.1 h.nodupB
  have iR := List.nodup_iff_injective_get.1 h.nodupR
  conv_rhs => rw [← joinSet_projSet h τ]
  unfold joinSet
  rw [Finset.card_union_of_disjoint, Finset.card_image_of_injective _ iB, Finset.card_image_of_injective _ iR]
  rw [Finset.disjoint_left]
  intro v h1 h2
  obtain ⟨i, _, rfl⟩ := Finset.mem_image.1 h1
  obtain ⟨j, _, he⟩ := Finset.mem_image.1 h2
  exact h.disj _ (List.get_mem big i) (he ▸ List.get_mem rest j)

theorem hcoef_sep {I : List (Term n)} {big rest : List (Fin n)} (h : Sep I big rest) (u : Term n) :
    hcoef I u = hcoef (projIdeal big I) (proj big u) * hcoef (projIdeal rest I) (proj rest u) := by
  unfold hcoef
  rw [Finset.sum_mul_sum, ← Finset.sum_product']
  refine Finset.sum_nbij' (fun τ => (projSet big τ, projSet rest τ)) (fun p => joinSet big rest p) ?_ ?_ ?_ ?_ ?_
  · intro τ _; simp
  · intro p _; simp
  · intro τ _; exact joinSet_projSet h τ
  · intro p _
    obtain ⟨h1, h2⟩ := projSet_joinSet h p
    exact Prod.ext h1 h2
  · intro τ _
    have h1 := mem_sep h (u + ind τ)
    rw [proj_add, proj_add, proj_ind, proj_ind] at h1
    have hc := card_projSet h τ
    have hl := h.length
    have hB : (projSet big τ).card ≤ big.length := by simpa using Finset.card_le_univ (projSet big τ)
    have hR : (projSet rest τ).card ≤ rest.length := by simpa using Finset.card_le_univ (projSet rest τ)
    have he : n - τ.card = (big.length - (projSet big τ).card) + (rest.length - (projSet rest τ).card) := by omega
    rw [if_congr h1 rfl rfl, he, pow_add]
    simp only
    by_cases h2 : mem (projIdeal big I) (proj big u + ind (projSet big τ)) <;>
      by_cases h3 : mem (projIdeal rest I) (proj rest u + ind (projSet rest τ)) <;> simp [h2, h3]

theorem val_sep {k : Kind} {I : List (Term n)} {big rest : List (Fin n)} (h : Sep I big rest) (u : Term n) :
    val k I u = val k (projIdeal big I) (proj big u) * val k (projIdeal rest I) (proj rest u) := by
  cases k with
  | msm =>
    simp only [val, msm_sep h]
    by_cases h1 : Msm (projIdeal big I) (proj big u) <;>
      by_cases h2 : Msm (projIdeal rest I) (proj rest u) <;> simp [h1, h2]
  | hilbert => exact hcoef_sep h u

/-! ## the projected slice -/

theorem setToProjOf_ideal (s : Slice n) (vs : List (Fin n)) : (s.setToProjOf vs).ideal = projIdeal vs s.ideal := rfl

theorem setToProjOf_subtract (s : Slice n) (vs : List (Fin n)) :
    (s.setToProjOf vs).subtract = projIdeal vs s.subtract := rfl

theorem cval_sep {k : Kind} {s : Slice n} {big rest : List (Fin n)} (h : IndepSpec s.ideal s.subtract big rest)
    (m : Term n) : cval k s m = cval k (s.setToProjOf big) (proj big m) * cval k (s.setToProjOf rest) (proj rest m) := by
  unfold cval
  rw [setToProjOf_ideal, setToProjOf_ideal, setToProjOf_subtract, setToProjOf_subtract, val_sep h.sepI]
  have h1 : s.multiply ≤ m ↔ (s.setToProjOf big).multiply ≤ proj big m ∧ (s.setToProjOf rest).multiply ≤ proj rest m := by
    constructor
    · intro hle; exact ⟨proj_mono hle, proj_mono hle⟩
    · rintro ⟨ha, hb⟩
      refine le_def.2 fun v => ?_
      rcases h.cover v with hv | hv
      · obtain ⟨j, rfl⟩ := List.get_of_mem hv
        exact le_def.1 ha j
      · obtain ⟨j, rfl⟩ := List.get_of_mem hv
        exact le_def.1 hb j
  have h2 := mem_sep h.sepS (m - s.multiply)
  have e1 : proj big (m - s.multiply) = proj big m - (s.setToProjOf big).multiply := rfl
  have e2 : proj rest (m - s.multiply) = proj rest m - (s.setToProjOf rest).multiply := rfl
  rw [e1, e2] at h2 ⊢
  simp only [h1, h2]
  by_cases a1 : (s.setToProjOf big).multiply ≤ proj big m <;>
    by_cases a2 : (s.setToProjOf rest).multiply ≤ proj rest m <;>
    by_cases a3 : mem (projIdeal big s.subtract) (proj big m - (s.setToProjOf big).multiply) <;>
    by_cases a4 : mem (projIdeal rest s.subtract) (proj rest m - (s.setToProjOf rest).multiply) <;>
    simp [a1, a2, a3, a4]

theorem anti_proj {G : List (Term n)} {big rest : List (Fin n)} (h : Sep G big rest) (hG : Anti G) :
    Anti (projIdeal big G) := by
  unfold Anti projIdeal
  rw [List.pairwise_map]
  have h1 : (G.filter fun g => hasProjection big g).Pairwise fun a b => ¬ a ≤ b ∧ ¬ b ≤ a := hG.filter _
  refine List.Pairwise.imp_of_mem ?_ h1
  intro a b ha hb hab
  rw [List.mem_filter] at ha hb
  have sa := (hasProjection_iff h ha.1).1 ha.2
  have sb := (hasProjection_iff h hb.1).1 hb.2
  exact ⟨fun hle => hab.1 (le_of_proj_le sa hle), fun hle => hab.2 (le_of_proj_le sb hle)⟩

theorem lcmOf_proj {G : List (Term n)} {big rest : List (Fin n)} (h : Sep G big rest) :
    lcmOf (projIdeal big G) = proj big (lcmOf G) := by
  apply le_antisymm
  · apply lcmOf_le
    intro x hx
    obtain ⟨g, hg, _, rfl⟩ := (mem_projIdeal h).1 hx
    exact proj_mono (le_lcmOf hg)
  · refine le_def.2 fun j => ?_
    rw [proj_apply]
    by_cases h0 : lcmOf G (big.get j) = 0
    · omega
    · obtain ⟨g, hg, he⟩ := lcmOf_attained (Nat.pos_of_ne_zero h0)
      have hs : ∀ v, g v ≠ 0 → v ∈ big := by
        rcases h.supp g hg with h1 | h1
        · exact h1
        · exact absurd (h1 _ (by omega)) (h.disj _ (List.get_mem big j))
      have := le_def.1 (le_lcmOf ((mem_projIdeal h).2 ⟨g, hg, hs, rfl⟩)) j
      rw [proj_apply, he] at this
      exact this

theorem IndepSpec.two_le {I S : List (Term n)} {big rest : List (Fin n)} (h : IndepSpec I S big rest) (hI : Anti I) :
    2 ≤ big.length := by
  obtain ⟨g, hg, x, hx, hne, hgs, hxs⟩ := h.twoB
  by_contra hc
  have hsub : ∀ i j : Fin big.length, i = j := by
    intro i j; apply Fin.ext; have := i.isLt; have := j.isLt; omega
  rcases Nat.le_total (deg g) (deg x) with _ | _
  all_goals
    obtain ⟨v, hv⟩ := exists_ne_zero (h.nz g hg)
    have hall : ∀ w, w ∈ big → w = v := by
      intro w hw
      obtain ⟨i, rfl⟩ := List.get_of_mem hw
      obtain ⟨j, rfl⟩ := List.get_of_mem (hgs v hv)
      rw [hsub i j]
    rcases Nat.le_total (g v) (x v) with hle | hle
    · refine hne (hI.eq_of_le hg hx (le_def.2 fun w => ?_))
      by_cases hw : g w = 0
      · omega
      · rw [hall w (hgs w hw)]; exact hle
    · refine hne (hI.eq_of_le hx hg (le_def.2 fun w => ?_)).symm
      by_cases hw : x w = 0
      · omega
      · rw [hall w (hxs w hw)]; exact hle

theorem inv_proj {k : Kind} {s : Slice n} {big rest : List (Fin n)} (hs : SliceInv k s)
    (h : IndepSpec s.ideal s.subtract big rest) (hfull : ∀ i, lcmOf s.ideal i ≠ 0) :
    SliceInv k (s.setToProjOf big) := by
  refine ⟨anti_proj h.sepI hs.antiI, anti_proj h.sepS hs.antiS, ?_, ?_, ?_, ?_⟩
  · intro x hx y hy hd
    rw [setToProjOf_subtract] at hx
    rw [setToProjOf_ideal] at hy
    obtain ⟨t, ht, hts, rfl⟩ := (mem_projIdeal h.sepS).1 hx
    obtain ⟨g, hg, _, rfl⟩ := (mem_projIdeal h.sepI).1 hy
    refine hs.norm t ht g hg ⟨fun v => ?_, h.nz g hg⟩
    by_cases hv : t v = 0
    · exact Or.inr hv
    · obtain ⟨j, rfl⟩ := List.get_of_mem (hts v hv)
      rcases hd.1 j with h1 | h1
      · exact Or.inl h1
      · exact Or.inr h1
  · intro hu
    have hu' : s.lcmUpdated = true := hu
    rw [setToProjOf_ideal, lcmOf_proj h.sepI, ← hs.cache hu']
    simp [Slice.setToProjOf, hu']
  · intro hk _ x hx i j hi hj
    rw [setToProjOf_ideal] at hx hi hj
    obtain ⟨g, hg, _, rfl⟩ := (mem_projIdeal h.sepI).1 hx
    rw [lcmOf_proj h.sepI] at hi hj
    have := hs.noDouble hk hfull g hg (big.get i) (big.get j) hi hj
    exact List.nodup_iff_injective_get.1 h.nodupB this
  · left
    have := h.two_le hs.antiI
    show 0 < big.length
    omega

theorem fix_proj {k : Kind} {s : Slice n} {big rest : List (Fin n)} (h : IndepSpec s.ideal s.subtract big rest)
    (hf : AllFix k s) : AllFix k (s.setToProjOf big) := by
  have hne : s.ideal ≠ [] := by
    obtain ⟨g, hg, _⟩ := h.twoB
    exact List.ne_nil_of_mem hg
  have hfix := hf.resolve_left hne
  right
  intro j
  rw [setToProjOf_ideal]
  have hsupp : ∀ g ∈ s.ideal, g (big.get j) ≠ 0 → ∀ v, g v ≠ 0 → v ∈ big := by
    intro g hg h0
    rcases h.sepI.supp g hg with h1 | h1
    · exact h1
    · exact absurd (h1 _ h0) (h.disj _ (List.get_mem big j))
  have iB := List.nodup_iff_injective_get.1 h.nodupB
  cases k with
  | msm =>
    obtain ⟨h1, h2⟩ := hfix (big.get j)
    have hc : ∀ g, Cand s.ideal (big.get j) g → Cand (projIdeal big s.ideal) j (proj big g) := by
      rintro g ⟨c1, c2, c3⟩
      refine ⟨(mem_projIdeal h.sepI).2 ⟨g, c1, hsupp g c1 c2, rfl⟩, c2, fun w hw => ?_⟩
      rw [lcmOf_proj h.sepI]
      exact c3 (big.get w) fun he => hw (iB he)
    refine ⟨fun w hw => ?_, ?_⟩
    · obtain ⟨g, c, hg⟩ := h1 (big.get w) fun he => hw (iB he)
      exact ⟨proj big g, hc g c, hg⟩
    · obtain ⟨g, c, hg⟩ := h2
      exact ⟨proj big g, hc g c, hg⟩
  | hilbert =>
    intro w
    obtain ⟨g, hg, h1, h2⟩ := hfix (big.get j) (big.get w)
    exact ⟨proj big g, (mem_projIdeal h.sepI).2 ⟨g, hg, hsupp g hg h1, rfl⟩, h1, h2⟩

theorem leastPositive_proj {s : Slice n} {big rest : List (Fin n)} (h : IndepSpec s.ideal s.subtract big rest)
    (hl : ∀ v, Slice.leastPositive s.ideal v ≤ 1) (j : Fin big.length) :
    Slice.leastPositive (s.setToProjOf big).ideal j ≤ 1 := by
  rw [setToProjOf_ideal]
  by_cases h0 : Slice.leastPositive s.ideal (big.get j) = 0
  · by_contra hc
    obtain ⟨x, hx, hxj⟩ := leastPositive_attained (G := projIdeal big s.ideal) (v := j) (by omega)
    obtain ⟨g, hg, _, rfl⟩ := (mem_projIdeal h.sepI).1 hx
    have := leastPositive_zero h0 g hg
    rw [proj_apply] at hxj
    omega
  · obtain ⟨g, hg, hgj⟩ := leastPositive_attained h0
    have hs : ∀ v, g v ≠ 0 → v ∈ big := by
      rcases h.sepI.supp g hg with h1 | h1
      · exact h1
      · exact absurd (h1 _ (by omega)) (h.disj _ (List.get_mem big j))
    have := leastPositive_le ((mem_projIdeal h.sepI).2 ⟨g, hg, hs, rfl⟩) (v := j) (by rw [proj_apply]; omega)
    rw [proj_apply, hgj] at this
    exact this.trans (hl _)

theorem room_proj {k : Kind} {s : Slice n} {big rest : List (Fin n)} (hs : SliceInv k s)
    (h : IndepSpec s.ideal s.subtract big rest) (hfull : ∀ i, lcmOf s.ideal i ≠ 0) (w : Term big.length)
    (hw : Room (s.setToProjOf big) w) : Room s (inverseProject big 0 w) := by
  obtain ⟨h1, h2, h3⟩ := hw
  rw [setToProjOf_ideal] at h1 h2
  rw [setToProjOf_subtract] at h3
  have hz : ∀ v, v ∉ big → inverseProject big 0 w v = 0 := fun v hv => inverseProject_of_notMem h.nodupB 0 w hv
  have hsupp : ∀ (G : List (Term n)), Sep G big rest → mem G (inverseProject big 0 w) → mem (projIdeal big G) w := by
    rintro G hG ⟨g, hg, hle⟩
    have hs : ∀ v, g v ≠ 0 → v ∈ big := by
      intro v hv
      by_contra hc
      have := le_def.1 hle v
      rw [hz v hc] at this
      omega
    refine ⟨proj big g, (mem_projIdeal hG).2 ⟨g, hg, hs, rfl⟩, ?_⟩
    have := proj_mono (vs := big) hle
    rwa [proj_inverseProject h.nodupB] at this
  refine ⟨fun v => ?_, fun hm => h2 (hsupp _ h.sepI hm), fun hm => h3 (hsupp _ h.sepS hm)⟩
  by_cases hv : v ∈ big
  · obtain ⟨j, rfl⟩ := List.get_of_mem hv
    rw [inverseProject_get h.nodupB]
    have := h1 j
    rw [lcmOf_proj h.sepI] at this
    exact this
  · rw [hz v hv]; exact Nat.pos_of_ne_zero (hfull v)

/-! ## combining the results -/

theorem merge_eq_iff {G : List (Term n)} {big rest : List (Fin n)} (h : Sep G big rest) (l : Term big.length)
    (r : Term rest.length) (m : Term n) :
    inverseProject rest (inverseProject big 0 l) r = m ↔ l = proj big m ∧ r = proj rest m := by
  constructor
  · rintro rfl
    constructor
    · funext i
      rw [proj_apply, inverseProject_of_notMem h.nodupR _ _ (h.disj _ (List.get_mem big i)),
        inverseProject_get h.nodupB]
    · rw [proj_inverseProject h.nodupR]
  · rintro ⟨rfl, rfl⟩
    funext v
    by_cases hv : v ∈ rest
    · obtain ⟨j, rfl⟩ := List.get_of_mem hv
      rw [inverseProject_get h.nodupR]; rfl
    · rw [inverseProject_of_notMem h.nodupR _ _ hv]
      obtain ⟨j, rfl⟩ := List.get_of_mem ((h.cover v).resolve_right hv)
      rw [inverseProject_get h.nodupB]; rfl

theorem coefSum_nil (m : Term n) : coefSum [] m = 0 := rfl

theorem coefSum_cons (o : ℤ × Term n) (l : List (ℤ × Term n)) (m : Term n) :
    coefSum (o :: l) m = (if o.2 = m then o.1 else 0) + coefSum l m := by
  simp [coefSum]

theorem coefSum_append (l l' : List (ℤ × Term n)) (m : Term n) :
    coefSum (l ++ l') m = coefSum l m + coefSum l' m := by
  simp [coefSum]

theorem coefSum_combine_one {G : List (Term n)} {big rest : List (Fin n)} (h : Sep G big rest)
    (l : ℤ × Term big.length) (R : List (ℤ × Term rest.length)) (m : Term n) :
    coefSum (R.map fun r => (l.1 * r.1, inverseProject rest (inverseProject big 0 l.2) r.2)) m =
      (if l.2 = proj big m then l.1 else 0) * coefSum R (proj rest m) := by
  induction R with
  | nil => simp [coefSum]
  | cons r R ih =>
    rw [List.map_cons, coefSum_cons, coefSum_cons, ih, mul_add]
    congr 1
    simp only [merge_eq_iff h]
    by_cases h1 : l.2 = proj big m <;> by_cases h2 : r.2 = proj rest m <;> simp [h1, h2]

theorem coefSum_combine {G : List (Term n)} {big rest : List (Fin n)} (h : Sep G big rest)
    (L : List (ℤ × Term big.length)) (R : List (ℤ × Term rest.length)) (m : Term n) :
    coefSum (combine big rest L R) m = coefSum L (proj big m) * coefSum R (proj rest m) := by
  induction L with
  | nil => simp [combine, coefSum]
  | cons l L ih =>
    have hc : combine big rest (l :: L) R =
        (R.map fun r => (l.1 * r.1, inverseProject rest (inverseProject big 0 l.2) r.2)) ++ combine big rest L R := by
      simp [combine]
    rw [hc, coefSum_append, ih, coefSum_cons, add_mul, coefSum_combine_one h]

end Frobby

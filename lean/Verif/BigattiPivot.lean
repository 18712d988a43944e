import Verif.BigattiModel
import Verif.MsmBase
import Verif.HilbertBase
import Mathlib.Data.List.TakeWhile

/-!
# Lemmas about the pivots of the algorithm of Bigatti et al.
-/

namespace Frobby

open Term

variable {n : ℕ}

/-- A pivot that divides two different generators. -/
def GoodPivot (J : List (Term n)) (p : Term n) : Prop := p ≠ 0 ∧ ∃ a ∈ J, ∃ b ∈ J, a ≠ b ∧ p ≤ a ∧ p ≤ b

theorem GoodPivot.perm {J H : List (Term n)} {p : Term n} (h : GoodPivot H p) (hp : H.Perm J) : GoodPivot J p := by
  obtain ⟨h0, a, ha, b, hb, h1⟩ := h
  exact ⟨h0, a, hp.mem_iff.1 ha, b, hp.mem_iff.1 hb, h1⟩

theorem GoodPivot.notMem {J : List (Term n)} {p : Term n} (h : GoodPivot J p) (hJ : Anti J) : ¬ mem J p := by
  rintro ⟨g, hg, hgp⟩
  obtain ⟨_, a, ha, b, hb, hne, hpa, hpb⟩ := h
  have h1 := hJ.eq_of_le hg ha (hgp.trans hpa)
  have h2 := hJ.eq_of_le hg hb (hgp.trans hpb)
  exact hne (h1.symm.trans h2)

theorem GoodPivot.le_lcm {J : List (Term n)} {p : Term n} (h : GoodPivot J p) : p ≤ lcmOf J := by
  obtain ⟨_, a, ha, _, _, _, hpa, _⟩ := h
  exact hpa.trans (le_lcmOf ha)

/-! ## gcd -/

theorem foldl_gcd_le : ∀ (G : List (Term n)) (a : Term n), G.foldl (· ⊓ ·) a ≤ a ∧ ∀ g ∈ G, G.foldl (· ⊓ ·) a ≤ g := by
  intro G
  induction G with
  | nil => intro a; simp
  | cons g G ih =>
    intro a
    obtain ⟨h1, h2⟩ := ih (a ⊓ g)
    rw [List.foldl_cons]
    refine ⟨h1.trans inf_le_left, fun x hx => ?_⟩
    rcases List.mem_cons.1 hx with rfl | hx
    · exact h1.trans inf_le_right
    · exact h2 x hx

theorem le_foldl_inf {p : Term n} : ∀ (G : List (Term n)) (a : Term n), p ≤ a → (∀ g ∈ G, p ≤ g) → p ≤ G.foldl (· ⊓ ·) a := by
  intro G
  induction G with
  | nil => intro a h _; exact h
  | cons g G ih =>
    intro a h h2
    rw [List.foldl_cons]
    exact ih _ (le_inf h (h2 g (by simp))) fun x hx => h2 x (by simp [hx])

theorem gcdOf_le {G : List (Term n)} {g : Term n} (hg : g ∈ G) : gcdOf G ≤ g := by
  cases G with
  | nil => simp at hg
  | cons a G =>
    obtain ⟨h1, h2⟩ := foldl_gcd_le G a
    rcases List.mem_cons.1 hg with rfl | hg
    · exact h1
    · exact h2 g hg

theorem le_gcdOf {G : List (Term n)} {p : Term n} (hG : G ≠ []) (h : ∀ g ∈ G, p ≤ g) : p ≤ gcdOf G := by
  cases G with
  | nil => exact absurd rfl hG
  | cons a G => exact le_foldl_inf G a (h a (by simp)) fun g hg => h g (by simp [hg])

theorem GoodPivot.widen {J : List (Term n)} {p : Term n} (h : GoodPivot J p) : GoodPivot J (gcdOfMultiples p J) := by
  obtain ⟨h0, a, ha, b, hb, hne, hpa, hpb⟩ := h
  have hma : a ∈ J.filter fun g => decide (p ≤ g) := List.mem_filter.2 ⟨ha, by simpa using hpa⟩
  have hmb : b ∈ J.filter fun g => decide (p ≤ g) := List.mem_filter.2 ⟨hb, by simpa using hpb⟩
  have hle : p ≤ gcdOfMultiples p J := le_gcdOf (List.ne_nil_of_mem hma) fun g hg => by simpa using (List.mem_filter.1 hg).2
  refine ⟨fun hz => h0 ?_, a, ha, b, hb, hne, gcdOf_le hma, gcdOf_le hmb⟩
  rw [hz] at hle
  exact le_antisymm hle (Term.le_def.2 fun i => Nat.zero_le _)

/-! ## two entries with a property -/

theorem two_of_countP {P : Term n → Bool} {J : List (Term n)} (hJ : J.Nodup) (h : 2 ≤ J.countP P) :
    ∃ a ∈ J, ∃ b ∈ J, a ≠ b ∧ P a ∧ P b := by
  rw [List.countP_eq_length_filter] at h
  have hnd : (J.filter P).Nodup := hJ.filter P
  match hf : J.filter P, h, hnd with
  | [], h, _ => simp at h
  | [_], h, _ => simp at h
  | a :: b :: l, _, hnd =>
    have ha : a ∈ J.filter P := by rw [hf]; simp
    have hb : b ∈ J.filter P := by rw [hf]; simp
    rw [List.mem_filter] at ha hb
    refine ⟨a, ha.1, b, hb.1, ?_, ha.2, hb.2⟩
    rintro rfl
    simp at hnd

theorem countP_two {P : Term n → Bool} {a b : Term n} {l : List (Term n)} (ha : P a) (hb : b ∈ l) (hPb : P b) :
    2 ≤ (a :: l).countP P := by
  rw [List.countP_cons, if_pos ha]
  have : 0 < l.countP P := List.countP_pos_iff.2 ⟨b, hb, hPb⟩
  omega

/-! ## median -/

theorem bigattiMedian_spec {J : List (Term n)} (hJ : Anti J) (h : ∃ v, 2 ≤ supportCounts J v) :
    ∃ H p, bigattiMedian J = some (H, p) ∧ H.Perm J ∧ GoodPivot J p := by
  obtain ⟨w, hw⟩ := h
  obtain ⟨v, hv, hmax⟩ := firstMax_max (supportCounts J) (Nat.pos_of_ne_zero fun h => by subst h; exact w.elim0)
  have hc : 2 ≤ supportCounts J v := hw.trans (hmax w)
  set H := singleDegreeSort v J with hH
  have hp : H.Perm J := singleDegreeSort_perm v J
  have hs := singleDegreeSort_sorted v J
  rw [← hH] at hs
  set l := H.dropWhile (fun g => decide (g v = 0)) with hl
  have hsuf : l <:+ H := List.dropWhile_suffix _
  have hlen : l.length = supportCounts J v := by
    rw [← counts_perm hp, supportCounts, ← List.takeWhile_append_dropWhile (p := fun g : Term n => decide (g v = 0)) (l := H),
      List.countP_append, ← hl]
    have h1 : (H.takeWhile fun g : Term n => decide (g v = 0)).countP (fun g => decide (0 < g v)) = 0 := by
      rw [List.countP_eq_zero]
      intro g hg
      have := List.mem_takeWhile_imp hg
      simp at this
      simp [this]
    have h2 : l.countP (fun g => decide (0 < g v)) = l.length := by
      rw [List.countP_eq_length]
      intro g hg
      have hne : l ≠ [] := List.ne_nil_of_mem hg
      have hhd := List.head_dropWhile_not (p := fun g : Term n => decide (g v = 0)) (l := H) (by rw [← hl]; exact hne)
      simp only [decide_eq_false_iff_not] at hhd
      have hsl := hs.sublist hsuf.sublist
      cases hl2 : l with
      | nil => exact absurd hl2 hne
      | cons x xs =>
        have hx : x v ≠ 0 := by
          have : (H.dropWhile fun g : Term n => decide (g v = 0)).head (by rw [← hl]; exact hne) = x := by
            simp only [← hl, hl2, List.head_cons]
          rw [← this]; exact hhd
        rw [hl2] at hsl hg
        rcases List.mem_cons.1 hg with rfl | hg
        · simpa [Nat.pos_iff_ne_zero] using hx
        · have := List.rel_of_pairwise_cons hsl hg
          simp only [decide_eq_true_eq]; omega
    rw [h1, h2]; simp
  have hi : (l.length - 1) / 2 < l.length := by omega
  have hi2 : (l.length - 1) / 2 + 1 < l.length := by omega
  set i := (l.length - 1) / 2 with hidef
  have hsl := hs.sublist hsuf.sublist
  have hle : l[i] v ≤ l[i + 1] v := List.pairwise_iff_getElem.1 hsl i (i + 1) hi hi2 (by omega)
  have hnd : l.Nodup := (hp.nodup_iff.2 hJ.nodup).sublist hsuf.sublist
  have hpos : l[i] v ≠ 0 := by
    have h2 : l.countP (fun g => decide (0 < g v)) = l.length := by
      have h3 : H.countP (fun g => decide (0 < g v)) = supportCounts J v := hp.countP_eq _
      rw [← List.takeWhile_append_dropWhile (p := fun g : Term n => decide (g v = 0)) (l := H), List.countP_append, ← hl,
        List.countP_eq_zero.2, Nat.zero_add] at h3
      · rw [h3, hlen]
      · intro g hg
        have := List.mem_takeWhile_imp hg
        simp at this
        simp [this]
    have := List.countP_eq_length.1 h2 l[i] (List.getElem_mem hi)
    simpa [Nat.pos_iff_ne_zero] using this
  refine ⟨H, single v (l[i] v), ?_, hp, ?_, l[i], ?_, l[i + 1], ?_, ?_, ?_, ?_⟩
  · unfold bigattiMedian
    simp only [hv, medianPositiveOf, ← hH, ← hl, ← hidef]
    rw [List.getElem?_eq_getElem hi]; rfl
  · intro hz
    have := congrFun hz v
    simp at this; exact hpos this
  · exact hp.mem_iff.1 (hsuf.sublist.subset (List.getElem_mem hi))
  · exact hp.mem_iff.1 (hsuf.sublist.subset (List.getElem_mem hi2))
  · intro he
    have := (hnd.getElem_inj_iff).1 he
    omega
  · exact single_le_iff.2 (le_refl _)
  · exact single_le_iff.2 hle

/-! ## the exponents considered -/

/-- A positive exponent that occurs at least twice. -/
def GoodExp (J : List (Term n)) (x : Fin n × ℕ) : Prop := x.2 ≠ 0 ∧ 2 ≤ J.countP fun g => decide (g x.1 = x.2)

theorem GoodExp.perm {J H : List (Term n)} {x : Fin n × ℕ} (h : GoodExp H x) (hp : H.Perm J) : GoodExp J x :=
  ⟨h.1, by rw [← hp.countP_eq]; exact h.2⟩

theorem typicalLoop_spec (v : Fin n) : ∀ (l done : List (Term n)) (last count : ℕ) (best : ℕ × Option (Fin n × ℕ)),
    (last ≠ 0 → count ≤ done.countP fun g => decide (g v = last)) →
    (∀ x, best.2 = some x → x.2 ≠ 0 ∧ best.1 ≤ (done ++ l).countP fun g => decide (g x.1 = x.2)) →
    ∀ x, (typicalLoop v last count best l).2 = some x →
      x.2 ≠ 0 ∧ (typicalLoop v last count best l).1 ≤ (done ++ l).countP fun g => decide (g x.1 = x.2) := by
  intro l
  induction l with
  | nil => intro done last count best _ h2 x hx; exact h2 x hx
  | cons g l ih =>
    intro done last count best h1 h2 x hx
    have happ : done ++ g :: l = (done ++ [g]) ++ l := by simp
    unfold typicalLoop at hx ⊢
    by_cases hg : g v = 0
    · rw [if_pos hg] at hx ⊢
      rw [happ] at h2 ⊢
      refine ih (done ++ [g]) last count best (fun h => ?_) h2 x hx
      rw [List.countP_append]; exact (h1 h).trans (Nat.le_add_right _ _)
    · rw [if_neg hg] at hx ⊢
      rw [happ] at h2 ⊢
      simp only at hx ⊢
      have hc : (if last = g v then count + 1 else 1) ≤ (done ++ [g]).countP fun h => decide (h v = g v) := by
        rw [List.countP_append]
        have : [g].countP (fun h => decide (h v = g v)) = 1 := by simp
        rw [this]
        split
        · rename_i he
          have := h1 (by rw [he]; exact hg)
          rw [he] at this; omega
        · omega
      refine ih (done ++ [g]) (g v) _ _ (fun _ => hc) (fun y hy => ?_) x hx
      by_cases hgt : (if last = g v then count + 1 else 1) > best.1
      · rw [if_pos hgt] at hy ⊢
        simp only [Option.some.injEq] at hy
        subst hy
        refine ⟨hg, ?_⟩
        rw [List.countP_append]
        exact hc.trans (Nat.le_add_right _ _)
      · rw [if_neg hgt] at hy ⊢
        exact h2 y hy

theorem typicalExponent_spec (J : List (Term n)) :
    (typicalExponent J).1.Perm J ∧ ∀ x, (typicalExponent J).2.2 = some x →
      x.2 ≠ 0 ∧ (typicalExponent J).2.1 ≤ J.countP fun g => decide (g x.1 = x.2) := by
  unfold typicalExponent
  generalize List.finRange n = vs
  suffices ∀ (vs : List (Fin n)) (y : List (Term n) × ℕ × Option (Fin n × ℕ)), y.1.Perm J →
      (∀ x, y.2.2 = some x → x.2 ≠ 0 ∧ y.2.1 ≤ J.countP fun g => decide (g x.1 = x.2)) →
      (vs.foldl (fun x v => (singleDegreeSort v x.1, typicalLoop v 0 0 x.2 (singleDegreeSort v x.1))) y).1.Perm J ∧
      ∀ x, (vs.foldl (fun x v => (singleDegreeSort v x.1, typicalLoop v 0 0 x.2 (singleDegreeSort v x.1))) y).2.2 = some x →
        x.2 ≠ 0 ∧ (vs.foldl (fun x v => (singleDegreeSort v x.1, typicalLoop v 0 0 x.2 (singleDegreeSort v x.1))) y).2.1 ≤
          J.countP fun g => decide (g x.1 = x.2) from this vs _ (List.Perm.refl _) (by simp)
  intro vs
  induction vs with
  | nil => intro y h1 h2; exact ⟨h1, h2⟩
  | cons v vs ih =>
    intro y h1 h2
    rw [List.foldl_cons]
    have hp : (singleDegreeSort v y.1).Perm J := (singleDegreeSort_perm v y.1).trans h1
    refine ih _ hp fun x hx => ?_
    have := typicalLoop_spec v (singleDegreeSort v y.1) [] 0 0 y.2 (by simp) (fun z hz => by
      rw [List.nil_append, hp.countP_eq]; exact h2 z hz) x hx
    rw [List.nil_append, hp.countP_eq] at this
    exact this

theorem anyPair_two (G : List (Term n)) : ∀ {l : List (Term n)}, anyPair G l = true → 2 ≤ l.length := by
  intro l
  induction l with
  | nil => intro h; simp [anyPair] at h
  | cons a l ih =>
    intro h
    unfold anyPair at h
    rw [Bool.or_eq_true] at h
    rcases h with h | h
    · obtain ⟨b, hb, _⟩ := List.any_eq_true.1 h
      have := List.length_pos_of_mem hb
      simp; omega
    · have := ih h
      simp; omega

theorem pairCount_two (G : List (Term n)) : ∀ {l : List (Term n)}, 0 < pairCount G l → 2 ≤ l.length := by
  intro l
  induction l with
  | nil => intro h; simp [pairCount] at h
  | cons a l ih =>
    intro h
    unfold pairCount at h
    by_cases h0 : pairCount G l = 0
    · have h1 : 0 < l.countP fun b => nonGeneric G a b := by omega
      obtain ⟨b, hb, _⟩ := List.countP_pos_iff.1 h1
      have := List.length_pos_of_mem hb
      simp; omega
    · have := ih (by omega)
      simp; omega

theorem blocks_spec (v : Fin n) : ∀ (fuel : ℕ) (l : List (Term n)), ∀ b ∈ blocks v fuel l,
    b.2.length ≤ l.countP fun g => decide (g v = b.1) := by
  intro fuel
  induction fuel with
  | zero => intro l b hb; simp [blocks] at hb
  | succ fuel ih =>
    intro l b hb
    cases l with
    | nil => simp [blocks] at hb
    | cons g gs =>
      unfold blocks at hb
      rcases List.mem_cons.1 hb with rfl | hb
      · simp only [List.length_cons]
        rw [List.countP_cons, if_pos (by simp)]
        have h1 := List.takeWhile_append_dropWhile (p := fun h : Term n => decide (h v = g v)) (l := gs)
        have h2 : (gs.takeWhile fun h : Term n => decide (h v = g v)).countP (fun h => decide (h v = g v)) =
            (gs.takeWhile fun h : Term n => decide (h v = g v)).length := by
          rw [List.countP_eq_length]
          intro x hx
          simpa using List.mem_takeWhile_imp hx
        conv_rhs => rw [← h1, List.countP_append, h2]
        omega
      · refine (ih _ b hb).trans ?_
        rw [List.countP_cons]
        exact ((List.dropWhile_sublist _).countP_le).trans (Nat.le_add_right _ _)

theorem blocks_good {v : Fin n} {H J : List (Term n)} (hp : H.Perm J) {b : ℕ × List (Term n)} (hb : b ∈ blocks v H.length H)
    (h0 : b.1 ≠ 0) (h2 : 2 ≤ b.2.length) : GoodExp J (v, b.1) :=
  GoodExp.perm ⟨h0, h2.trans (blocks_spec v _ H b hb)⟩ hp

/-- A loop over variables and blocks in which only good exponents are stored. -/
theorem blockFold_good {J : List (Term n)}
    (f : List (Term n) → Fin n → ℕ × Option (Fin n × ℕ) → ℕ × List (Term n) → ℕ × Option (Fin n × ℕ))
    (hf : ∀ H v best b, b ∈ blocks v H.length H → H.Perm J → (∀ x, best.2 = some x → GoodExp J x) →
      ∀ x, (f H v best b).2 = some x → GoodExp J x) :
    ∀ (vs : List (Fin n)) (y : List (Term n) × ℕ × Option (Fin n × ℕ)), y.1.Perm J → (∀ x, y.2.2 = some x → GoodExp J x) →
      (vs.foldl (fun x v =>
        let H := singleDegreeSort v x.1
        (H, (blocks v H.length H).foldl (f H v) x.2)) y).1.Perm J ∧
      ∀ x, (vs.foldl (fun x v =>
        let H := singleDegreeSort v x.1
        (H, (blocks v H.length H).foldl (f H v) x.2)) y).2.2 = some x → GoodExp J x := by
  intro vs
  induction vs with
  | nil => intro y h1 h2; exact ⟨h1, h2⟩
  | cons v vs ih =>
    intro y h1 h2
    rw [List.foldl_cons]
    have hp : (singleDegreeSort v y.1).Perm J := (singleDegreeSort_perm v y.1).trans h1
    refine ih _ hp ?_
    simp only
    generalize singleDegreeSort v y.1 = H at hp
    have : ∀ (bs : List (ℕ × List (Term n))) (best : ℕ × Option (Fin n × ℕ)), (∀ b ∈ bs, b ∈ blocks v H.length H) →
        (∀ x, best.2 = some x → GoodExp J x) → ∀ x, (bs.foldl (f H v) best).2 = some x → GoodExp J x := by
      intro bs
      induction bs with
      | nil => intro best _ h; exact h
      | cons b bs ih2 =>
        intro best hb h
        rw [List.foldl_cons]
        exact ih2 _ (fun c hc => hb c (by simp [hc])) (hf H v best b (hb b (by simp)) hp h)
    exact this _ _ (fun _ h => h) h2

theorem mostNonGeneric_spec (J : List (Term n)) :
    (mostNonGeneric J).1.Perm J ∧ ∀ x, (mostNonGeneric J).2.2 = some x → GoodExp J x := by
  unfold mostNonGeneric
  refine blockFold_good (J := J) (fun H v best b => if b.1 = 0 ∨ b.2.length * (b.2.length + 1) / 2 ≤ best.1 then best
          else if pairCount H b.2 > best.1 then (pairCount H b.2, some (v, b.1)) else best) ?_ _ _ (List.Perm.refl _) (by simp)
  intro H v best b hb hp h x hx
  by_cases h1 : b.1 = 0 ∨ b.2.length * (b.2.length + 1) / 2 ≤ best.1
  · rw [if_pos h1] at hx; exact h x hx
  · rw [if_neg h1] at hx
    by_cases h2 : pairCount H b.2 > best.1
    · rw [if_pos h2] at hx
      simp only [Option.some.injEq] at hx
      subst hx
      push Not at h1
      exact blocks_good hp hb h1.1 (pairCount_two H (by omega))
    · rw [if_neg h2] at hx; exact h x hx

theorem typicalNonGeneric_spec (J : List (Term n)) :
    (typicalNonGeneric J).1.Perm J ∧ ∀ x, (typicalNonGeneric J).2.2 = some x → GoodExp J x := by
  unfold typicalNonGeneric
  refine blockFold_good (J := J) (fun H v best b => if b.1 = 0 ∨ b.2.length ≤ best.1 then best
          else if anyPair H b.2 then (b.2.length, some (v, b.1)) else best) ?_ _ _ (List.Perm.refl _) (by simp)
  intro H v best b hb hp h x hx
  by_cases h1 : b.1 = 0 ∨ b.2.length ≤ best.1
  · rw [if_pos h1] at hx; exact h x hx
  · rw [if_neg h1] at hx
    by_cases h2 : anyPair H b.2 = true
    · rw [if_pos h2] at hx
      simp only [Option.some.injEq] at hx
      subst hx
      push Not at h1
      exact blocks_good hp hb h1.1 (anyPair_two H h2)
    · rw [if_neg h2] at hx; exact h x hx

theorem someNonGeneric_spec (J : List (Term n)) :
    (someNonGeneric J).1.Perm J ∧ ∀ x, (someNonGeneric J).2 = some x → GoodExp J x := by
  unfold someNonGeneric
  generalize List.finRange n = vs
  suffices ∀ (vs : List (Fin n)) (y : List (Term n) × Option (Fin n × ℕ)), y.1.Perm J → (∀ x, y.2 = some x → GoodExp J x) →
      (vs.foldl (fun x v => match x.2 with
        | some _ => x
        | none =>
          let H := singleDegreeSort v x.1
          (H, ((blocks v H.length H).find? fun b => decide (b.1 ≠ 0) && anyPair H b.2).map fun b => (v, b.1))) y).1.Perm J ∧
      ∀ x, (vs.foldl (fun x v => match x.2 with
        | some _ => x
        | none =>
          let H := singleDegreeSort v x.1
          (H, ((blocks v H.length H).find? fun b => decide (b.1 ≠ 0) && anyPair H b.2).map fun b => (v, b.1))) y).2 = some x →
        GoodExp J x from this vs _ (List.Perm.refl _) (by simp)
  intro vs
  induction vs with
  | nil => intro y h1 h2; exact ⟨h1, h2⟩
  | cons v vs ih =>
    intro y h1 h2
    rw [List.foldl_cons]
    match hy : y.2, h2 with
    | some z, h2 => exact ih y h1 (by rw [hy]; exact h2)
    | none, h2 =>
      have hp : (singleDegreeSort v y.1).Perm J := (singleDegreeSort_perm v y.1).trans h1
      refine ih _ hp fun x hx => ?_
      simp only at hx
      generalize singleDegreeSort v y.1 = H at hp hx
      rw [Option.map_eq_some_iff] at hx
      obtain ⟨b, hb, rfl⟩ := hx
      have h3 := List.find?_some hb
      rw [Bool.and_eq_true, decide_eq_true_eq] at h3
      exact blocks_good hp (List.mem_of_find?_eq_some hb) h3.1 (anyPair_two H h3.2)

theorem consider_spec (J : List (Term n)) (c : BConsider) :
    (c.run J).1.Perm J ∧ ∀ x, (c.run J).2 = some x → GoodExp J x := by
  cases c with
  | typical =>
    refine ⟨(typicalExponent_spec J).1, fun x hx => ?_⟩
    simp only [BConsider.run] at hx
    split at hx
    · simp at hx
    · rename_i h
      have := (typicalExponent_spec J).2 x hx
      exact ⟨this.1, by omega⟩
  | typicalNG => exact typicalNonGeneric_spec J
  | mostNG => exact mostNonGeneric_spec J
  | someNG => exact someNonGeneric_spec J

/-! ## the selection -/

theorem tightLoop_spec (G : List (Term n)) {J : List (Term n)} {v : Fin n} {e : ℕ} : ∀ (l : List (Term n)) (acc : Option (Term n)),
    (∀ g ∈ l, g ∈ J ∧ g v = e) → l.Nodup →
    (∀ p, acc = some p → p v = e ∧ ∃ a ∈ J, ∃ b ∈ J, a ≠ b ∧ p ≤ a ∧ p ≤ b) →
    ∀ p, tightLoop G acc l = some p → p v = e ∧ ∃ a ∈ J, ∃ b ∈ J, a ≠ b ∧ p ≤ a ∧ p ≤ b := by
  intro l
  induction l with
  | nil => intro acc _ _ h; exact h
  | cons a l ih =>
    intro acc hl hnd h p hp
    rw [List.nodup_cons] at hnd
    unfold tightLoop at hp
    split at hp
    · exact ih acc (fun g hg => hl g (by simp [hg])) hnd.2 h p hp
    · rename_i b hb
      have hbl := List.mem_of_find?_eq_some hb
      have ha := hl a (by simp)
      have hb' := hl b (by simp [hbl])
      refine ih _ (fun g hg => hl g (by simp [hg])) hnd.2 (fun q hq => ?_) p hp
      cases acc with
      | none =>
        simp only [Option.some.injEq] at hq
        subst hq
        refine ⟨by simp [ha.2, hb'.2], a, ha.1, b, hb'.1, ?_, inf_le_left, inf_le_right⟩
        rintro rfl; exact hnd.1 hbl
      | some q' =>
        simp only [Option.some.injEq] at hq
        subst hq
        obtain ⟨h1, c, hc, d, hd, hne, h2, h3⟩ := h q' rfl
        exact ⟨by simp [ha.2, hb'.2, h1], c, hc, d, hd, hne, (inf_le_left.trans inf_le_left).trans h2,
          (inf_le_left.trans inf_le_left).trans h3⟩

theorem ne_zero_of_val {p : Term n} {v : Fin n} {e : ℕ} (h : p v = e) (he : e ≠ 0) : p ≠ 0 := by
  rintro rfl; exact he h.symm

theorem select_spec {J : List (Term n)} (hJ : J.Nodup) {v : Fin n} {e : ℕ} (h : GoodExp J (v, e)) (s : BSelect) :
    ∃ H p, s.run J v e = some (H, p) ∧ H.Perm J ∧ GoodPivot J p := by
  obtain ⟨he, hc⟩ := h
  simp only at he hc
  obtain ⟨a, ha, b, hb, hne, hav, hbv⟩ := two_of_countP hJ hc
  simp only [decide_eq_true_eq] at hav hbv
  cases s with
  | pure =>
    exact ⟨J, _, rfl, List.Perm.refl _, ne_zero_of_val (single_same v e) he, a, ha, b, hb, hne,
      single_le_iff.2 hav.ge, single_le_iff.2 hbv.ge⟩
  | gcd =>
    have hma : a ∈ J.filter fun g => decide (g v = e) := List.mem_filter.2 ⟨ha, by simpa using hav⟩
    have hmb : b ∈ J.filter fun g => decide (g v = e) := List.mem_filter.2 ⟨hb, by simpa using hbv⟩
    refine ⟨J, _, rfl, List.Perm.refl _, ?_, a, ha, b, hb, hne, gcdOf_le hma, gcdOf_le hmb⟩
    intro hz
    have : single v e ≤ gcdAtExponent v e J := le_gcdOf (List.ne_nil_of_mem hma) fun g hg => by
      have := (List.mem_filter.1 hg).2
      rw [decide_eq_true_eq] at this
      exact single_le_iff.2 this.ge
    rw [hz, single_le_iff] at this
    simp at this; exact he this
  | tight =>
    have hp : (singleDegreeSort v J).Perm J := singleDegreeSort_perm v J
    simp only [BSelect.run]
    generalize singleDegreeSort v J = H at hp
    have hmem : a ∈ H := hp.mem_iff.2 ha
    match hd : H.dropWhile fun g => decide (g v ≠ e) with
    | [] =>
      rw [List.dropWhile_eq_nil_iff] at hd
      have := hd a hmem
      simp [hav] at this
    | g :: gs =>
      simp only [hd]
      refine ⟨H, _, rfl, hp, ?_⟩
      have hsub : (g :: gs.takeWhile fun h : Term n => decide (h v = e)).Sublist H := by
        have h1 : (g :: gs).Sublist H := by rw [← hd]; exact List.dropWhile_sublist _
        exact ((List.takeWhile_sublist _).cons_cons g).trans h1
      have hg : g v = e := by
        have := List.head?_dropWhile_not (fun g : Term n => decide (g v ≠ e)) H
        rw [hd] at this
        simpa using this
      have h1 : ∀ x ∈ g :: gs.takeWhile fun h : Term n => decide (h v = e), x ∈ J ∧ x v = e := by
        intro x hx
        refine ⟨hp.mem_iff.1 (hsub.subset hx), ?_⟩
        rcases List.mem_cons.1 hx with rfl | hx
        · exact hg
        · simpa using List.mem_takeWhile_imp hx
      cases ht : tightLoop H none (g :: gs.takeWhile fun h : Term n => decide (h v = e)) with
      | none =>
        exact ⟨ne_zero_of_val (single_same v e) he, a, ha, b, hb, hne, single_le_iff.2 hav.ge, single_le_iff.2 hbv.ge⟩
      | some p =>
        obtain ⟨h2, h3⟩ := tightLoop_spec H _ none h1 ((hp.nodup_iff.2 hJ).sublist hsub) (by simp) p ht
        exact ⟨ne_zero_of_val h2 he, h3⟩

/-- Every strategy selects a pivot that divides two different generators. -/
theorem pivot_spec (q : BPivot) (widen : Bool) {J : List (Term n)} (hJ : Anti J) (h : ∃ v, 2 ≤ supportCounts J v) :
    ∃ H p, q.get widen J = some (H, p) ∧ H.Perm J ∧ GoodPivot J p := by
  have hrun : ∃ H p, q.run J = some (H, p) ∧ H.Perm J ∧ GoodPivot J p := by
    cases q with
    | median => exact bigattiMedian_spec hJ h
    | generic c s =>
      obtain ⟨h1, h2⟩ := consider_spec J c
      simp only [BPivot.run]
      match hc : c.run J, h1, h2 with
      | (H, none), h1, _ =>
        have hH : Anti H := hJ.perm h1.symm (fun h => ⟨h.2, h.1⟩)
        obtain ⟨K, p, h3, h4, h5⟩ := bigattiMedian_spec hH (by rw [counts_perm h1]; exact h)
        exact ⟨K, p, h3, h4.trans h1, h5.perm h1⟩
      | (H, some (v, e)), h1, h2 =>
        have hg := h2 (v, e) rfl
        obtain ⟨K, p, h3, h4, h5⟩ := select_spec (h1.nodup_iff.2 hJ.nodup) (hg.perm h1.symm) s
        exact ⟨K, p, h3, h4.trans h1, h5.perm h1⟩
  obtain ⟨H, p, h1, h2, h3⟩ := hrun
  refine ⟨H, if widen then gcdOfMultiples p H else p, by simp [BPivot.get, h1], h2, ?_⟩
  split
  · exact (h3.perm h2.symm).widen.perm h2
  · exact h3

end Frobby

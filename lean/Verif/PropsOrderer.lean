import Verif.ScarfModel
import Verif.PropsOrder
import Verif.PropsScarf

/-!
# C42: the orders of generators
-/

namespace Frobby

variable {n : ℕ} {α : Type}

/-! ## specification -/

/-- Neither comes before the other. -/
def Tied (less : α → α → Bool) (a b : α) : Bool := !less a b && !less b a

/-- `out` is `l` sorted, with those that are tied in the order they had. -/
structure IsStableSort (less : α → α → Bool) (l out : List α) : Prop where
  perm : out.Perm l
  sorted : out.Pairwise fun a b => less b a = false
  stable : ∀ x, out.filter (Tied less x) = l.filter (Tied less x)

/-- The number of other generators that share a positive exponent with `a`, and if `strong` is false without a generator
that strictly divides the lcm. -/
def degeneracyCount (G : List (Term n)) (strong : Bool) (a : Term n) : ℕ :=
  G.countP fun b => decide (b ≠ a ∧ (∃ v, a v ≠ 0 ∧ a v = b v) ∧ (strong = true ∨ ∀ c ∈ G, ¬ Term.strictlyDivides c (a ⊔ b)))

/-- What the orders compare. -/
def BaseOrder.less (G : List (Term n)) : BaseOrder → Term n → Term n → Bool
  | .random => fun _ _ => false
  | .null => fun _ _ => false
  | .lex => lexLess
  | .revlex => fun a b => lexLess b a
  | .tdeg => fun a b => decide (∑ v, a v < ∑ v, b v)
  | .median => fun a b => decide (medianOf a < medianOf b)
  | .posMedian => fun a b => decide (posMedianOf a < posMedianOf b)
  | .minPos => fun a b => decide (minPosOf a < minPosOf b)
  | .max => fun a b => decide (maxExpOf a < maxExpOf b)
  | .support => fun a b => decide (Term.sizeOfSupport a < Term.sizeOfSupport b)
  | .strongGenericity => fun a b => decide (degeneracyCount G true a < degeneracyCount G true b)
  | .weakGenericity => fun a b => decide (degeneracyCount G false a < degeneracyCount G false b)

/-- The other way around if reversed. -/
def PartOrder.less (G : List (Term n)) (o : PartOrder) (a b : Term n) : Bool :=
  if o.rev then o.base.less G b a else o.base.less G a b

/-- The first order that decides. -/
def firstLess (G : List (Term n)) : List PartOrder → Term n → Term n → Bool
  | [], _, _ => false
  | o :: os, a, b => if o.less G a b then true else if o.less G b a then false else firstLess G os a b

/-! ## lemmas -/

theorem stableSort_spec {less : α → α → Bool} (h : NegOn (fun _ => True) less) (l : List α) :
    IsStableSort less l (stableSort less l) := by
  have htot : Std.Total (fun a b => less b a = false) := ⟨fun a b => by
    cases hab : less b a
    · exact Or.inl rfl
    · exact Or.inr (h.asymm b a trivial trivial hab)⟩
  have htr : IsTrans α (fun a b => less b a = false) := ⟨fun a b c h1 h2 => by
    rw [Bool.eq_false_iff]
    intro h3
    rcases h.neg c b a trivial trivial trivial h3 with h4 | h4
    · rw [h2] at h4; simp at h4
    · rw [h1] at h4; simp at h4⟩
  have hperm : (stableSort less l).Perm l := List.perm_insertionSort _ l
  refine ⟨hperm, List.pairwise_insertionSort _ l, fun x => ?_⟩
  have hpw : (l.filter (Tied less x)).Pairwise (fun a b => less b a = false) := by
    refine List.Pairwise.imp_of_mem ?_ (List.pairwise_of_forall (R := fun _ _ => True) fun _ _ => trivial)
    intro a b ha hb _
    have ha := (List.mem_filter.1 ha).2
    have hb := (List.mem_filter.1 hb).2
    simp only [Tied, Bool.and_eq_true, Bool.not_eq_true'] at ha hb
    rw [Bool.eq_false_iff]
    intro h3
    rcases h.neg b x a trivial trivial trivial h3 with h4 | h4
    · rw [hb.2] at h4; simp at h4
    · rw [ha.1] at h4; simp at h4
  have hsub : (l.filter (Tied less x)).Sublist (stableSort less l) := List.sublist_insertionSort hpw List.filter_sublist
  have hsub2 := hsub.filter (Tied less x)
  rw [List.filter_filter] at hsub2
  simp only [Bool.and_self] at hsub2
  exact (hsub2.eq_of_length (hperm.filter _).length_eq.symm).symm

theorem tied_symm (less : α → α → Bool) (a b : α) : Tied less a b = Tied less b a := by
  unfold Tied; rw [Bool.and_comm]

/-- Sorting by one order after another one. -/
theorem IsStableSort.comb {l1 l2 : α → α → Bool} (h : NegOn (fun _ => True) l1) {l m out : List α} (h2 : IsStableSort l2 l m)
    (h1 : IsStableSort l1 m out) : IsStableSort (comb l1 l2) l out := by
  refine ⟨h1.perm.trans h2.perm, ?_, fun x => ?_⟩
  · rw [List.pairwise_iff_forall_sublist]
    intro a b hab
    rw [Bool.eq_false_iff, ne_eq, comb_true]
    have hs : l1 b a = false := List.pairwise_iff_forall_sublist.1 h1.sorted hab
    rintro (h3 | ⟨h3, h4⟩)
    · rw [hs] at h3; simp at h3
    · have ht : Tied l1 a b = true := by simp [Tied, hs, h3]
      have hta : Tied l1 a a = true := by simp [Tied, h.irrefl a trivial]
      have h5 := hab.filter (Tied l1 a)
      simp only [List.filter_cons, hta, ht, if_true, List.filter_nil] at h5
      rw [h1.stable a] at h5
      have h6 : l2 b a = false := List.pairwise_iff_forall_sublist.1 h2.sorted (h5.trans List.filter_sublist)
      rw [h6] at h4; simp at h4
  · have hteq : ∀ y, Tied (Frobby.comb l1 l2) x y = (Tied l1 x y && Tied l2 x y) := by
      intro y
      unfold Tied Frobby.comb
      cases h3 : l1 x y <;> cases h4 : l1 y x <;> simp
    have : Tied (Frobby.comb l1 l2) x = fun y => Tied l1 x y && Tied l2 x y := funext hteq
    rw [this]
    have e1 : out.filter (fun y => Tied l1 x y && Tied l2 x y) = (out.filter (Tied l1 x)).filter (Tied l2 x) := by
      rw [List.filter_filter]
      exact List.filter_congr fun y _ => Bool.and_comm _ _
    have e2 : m.filter (fun y => Tied l1 x y && Tied l2 x y) = (m.filter (Tied l1 x)).filter (Tied l2 x) := by
      rw [List.filter_filter]
      exact List.filter_congr fun y _ => Bool.and_comm _ _
    have e3 : m.filter (fun y => Tied l1 x y && Tied l2 x y) = (m.filter (Tied l2 x)).filter (Tied l1 x) := by
      rw [List.filter_filter]
    have e4 : l.filter (fun y => Tied l1 x y && Tied l2 x y) = (l.filter (Tied l2 x)).filter (Tied l1 x) := by
      rw [List.filter_filter]
    rw [e1, h1.stable, ← e2, e3, h2.stable, e4]

theorem IsStableSort.reverse {less : α → α → Bool} {l out : List α} (h : IsStableSort less l.reverse out) :
    IsStableSort (fun a b => less b a) l out.reverse := by
  refine ⟨(List.reverse_perm out).trans (h.perm.trans (List.reverse_perm l)), ?_, fun x => ?_⟩
  · rw [List.pairwise_reverse]
    exact h.sorted
  · have : Tied (fun a b => less b a) x = Tied less x := by
      funext y; unfold Tied; rw [Bool.and_comm]
    rw [this, List.filter_reverse, h.stable, List.filter_reverse, List.reverse_reverse]

/-- A stable sort is determined by its properties. -/
theorem IsStableSort.unique_of_decisive {less : α → α → Bool} (hd : TotalOn (fun _ => True) less) {l l' out out' : List α}
    (h : IsStableSort less l out) (h' : IsStableSort less l' out') (hp : l.Perm l') : out = out' := by
  refine List.Perm.eq_of_pairwise ?_ h.sorted h'.sorted (h.perm.trans (hp.trans h'.perm.symm))
  intro a b _ _ h1 h2
  exact (hd b a trivial trivial h1 h2).symm

theorem tdegOf_eq (a : Term n) : tdegOf a = ∑ v, a v := by
  unfold tdegOf
  rw [← List.ofFn_eq_map, List.sum_ofFn]

theorem sharesExponent_comm (a b : Term n) : sharesExponent a b = sharesExponent b a := by
  unfold sharesExponent
  rw [decide_eq_decide]
  constructor
  · rintro ⟨v, h1, h2⟩; exact ⟨v, by omega, h2.symm⟩
  · rintro ⟨v, h1, h2⟩; exact ⟨v, by omega, h2.symm⟩

theorem degenerate_comm (G : List (Term n)) (strong : Bool) (a b : Term n) : degenerate G strong a b = degenerate G strong b a := by
  unfold degenerate
  rw [sharesExponent_comm, sup_comm]

theorem degenerate_iff {G : List (Term n)} {strong : Bool} {a b : Term n} : degenerate G strong a b = true ↔
    (∃ v, a v ≠ 0 ∧ a v = b v) ∧ (strong = true ∨ ∀ c ∈ G, ¬ Term.strictlyDivides c (a ⊔ b)) := by
  unfold degenerate sharesExponent strictlyContains
  simp

theorem countP_getD (l : List α) (d : α) (p : α → Bool) : l.countP p = (List.range l.length).countP fun j => p (l.getD j d) := by
  have : l = (List.range l.length).map fun j => l.getD j d := by
    apply List.ext_getElem
    · simp
    · intro i h1 h2
      simp [List.getElem?_eq_getElem h1]
  conv_lhs => rw [this]
  rw [List.countP_map]
  rfl

theorem degeneracy_eq {G : List (Term n)} (hG : G.Nodup) (strong : Bool) {i : ℕ} (hi : i < G.length) :
    degeneracy G strong i = degeneracyCount G strong (G[i]) := by
  unfold degeneracy degeneracyCount
  rw [← List.countP_eq_length_filter, countP_getD G 0]
  refine List.countP_congr fun j hj => ?_
  rw [List.mem_range] at hj
  have h1 : degenerate G strong (G.getD (min i j) 0) (G.getD (Max.max i j) 0) = degenerate G strong G[i] G[j] := by
    rcases le_total i j with h | h
    · rw [min_eq_left h, max_eq_right h, List.getD_eq_getElem _ _ hi, List.getD_eq_getElem _ _ hj]
    · rw [min_eq_right h, max_eq_left h, List.getD_eq_getElem _ _ hi, List.getD_eq_getElem _ _ hj, degenerate_comm]
  rw [h1, List.getD_eq_getElem _ _ hj, Bool.and_eq_true, decide_eq_true_eq, decide_eq_true_eq, degenerate_iff]
  refine and_congr ?_ Iff.rfl
  rw [ne_eq, ne_eq, hG.getElem_inj_iff]

theorem degeneracyCount_perm {G H : List (Term n)} (h : G.Perm H) (strong : Bool) (a : Term n) :
    degeneracyCount G strong a = degeneracyCount H strong a := by
  unfold degeneracyCount
  rw [h.countP_eq]
  refine List.countP_congr fun b _ => ?_
  simp only [h.mem_iff]

theorem orderGenericity_eq {G : List (Term n)} (hG : G.Nodup) (strong : Bool) :
    orderGenericity strong G = stableSort (fun a b => decide (degeneracyCount G strong a < degeneracyCount G strong b)) G := by
  unfold orderGenericity stableSort
  have key : ∀ a ∈ G.zipIdx, degeneracy G strong a.2 = degeneracyCount G strong a.1 := by
    intro a ha
    obtain ⟨x, i⟩ := a
    have := List.mem_zipIdx_iff_getElem?.1 ha
    obtain ⟨h1, h2⟩ := List.getElem?_eq_some_iff.1 this
    simp only at h1 h2 ⊢
    rw [degeneracy_eq hG strong h1, h2]
  have := List.map_insertionSort (r := fun a b : Term n × ℕ => decide (degeneracy G strong b.2 < degeneracy G strong a.2) = false)
    (s := fun a b : Term n => decide (degeneracyCount G strong b < degeneracyCount G strong a) = false) Prod.fst G.zipIdx
    (fun a ha b hb => by rw [key a ha, key b hb])
  rw [this]
  simp

theorem BaseOrder.less_perm {G H : List (Term n)} (h : G.Perm H) (b : BaseOrder) : b.less G = b.less H := by
  cases b <;> simp only [BaseOrder.less, degeneracyCount_perm h]

theorem BaseOrder.negOn (G : List (Term n)) (b : BaseOrder) : NegOn (fun _ => True) (b.less G) := by
  cases b
  case lex => exact negOn_lex
  case revlex => exact negOn_lex.flip
  case random => exact ⟨fun _ _ => rfl, fun _ _ _ _ h => by simp [BaseOrder.less] at h, fun _ _ _ _ _ _ h => by simp [BaseOrder.less] at h⟩
  case null => exact ⟨fun _ _ => rfl, fun _ _ _ _ h => by simp [BaseOrder.less] at h, fun _ _ _ _ _ _ h => by simp [BaseOrder.less] at h⟩
  all_goals exact NegOn.of_key _ fun a b _ _ => decide_eq_true_iff

theorem stableSort_false (l : List α) : stableSort (fun _ _ => false) l = l := by
  unfold stableSort
  induction l with
  | nil => rfl
  | cons a l ih =>
    rw [List.insertionSort_cons, ih]
    cases l with
    | nil => rfl
    | cons b l => simp

theorem BaseOrder.run_eq (shuffle : List (Term n) → List (Term n)) {G : List (Term n)} (hG : G.Nodup) {b : BaseOrder}
    (hb : b ≠ .random) : b.run shuffle G = stableSort (b.less G) G := by
  cases b
  case random => exact absurd rfl hb
  case null => exact (stableSort_false G).symm
  case strongGenericity => exact orderGenericity_eq hG true
  case weakGenericity => exact orderGenericity_eq hG false
  case tdeg => simp only [BaseOrder.run, BaseOrder.less, tdegOf_eq]
  case revlex =>
    simp only [BaseOrder.run, BaseOrder.less]
    congr 1
    funext a b
    exact reverseLexLess_eq a b
  all_goals rfl

theorem PartOrder.run_spec (shuffle : List (Term n) → List (Term n)) {G : List (Term n)} (hG : G.Nodup) {o : PartOrder}
    (hb : o.base ≠ .random) : IsStableSort (o.less G) G (o.run shuffle G) := by
  unfold PartOrder.run PartOrder.less
  cases o.rev
  · simp only [Bool.false_eq_true, if_false]
    rw [o.base.run_eq shuffle hG hb]
    exact stableSort_spec (o.base.negOn G) G
  · simp only [if_true]
    have hr := List.reverse_perm G
    rw [o.base.run_eq shuffle (hr.nodup_iff.2 hG) hb, ← BaseOrder.less_perm hr]
    exact (stableSort_spec (o.base.negOn _) G.reverse).reverse

theorem PartOrder.less_perm {G H : List (Term n)} (h : G.Perm H) (o : PartOrder) : o.less G = o.less H := by
  funext a b
  simp only [PartOrder.less, BaseOrder.less_perm h]

theorem PartOrder.negOn (G : List (Term n)) (o : PartOrder) : NegOn (fun _ => True) (o.less G) := by
  unfold PartOrder.less
  cases o.rev
  · exact o.base.negOn G
  · exact (o.base.negOn G).flip

theorem firstLess_cons (G : List (Term n)) (o : PartOrder) (os : List PartOrder) :
    firstLess G (o :: os) = comb (o.less G) (firstLess G os) := by
  funext a b; rfl

theorem BaseOrder.run_perm {shuffle : List (Term n) → List (Term n)} (hs : ∀ l, (shuffle l).Perm l) (G : List (Term n))
    (b : BaseOrder) : (b.run shuffle G).Perm G := by
  have hg : ∀ strong, (orderGenericity strong G).Perm G := by
    intro strong
    unfold orderGenericity stableSort
    refine ((List.perm_insertionSort _ _).map _).trans ?_
    simp
  cases b
  case random => exact hs G
  case null => exact List.Perm.refl _
  case strongGenericity => exact hg true
  case weakGenericity => exact hg false
  all_goals exact List.perm_insertionSort _ _

/-! ## the properties -/

/-- C42: every order, also `random` and combinations of orders, only permutes the generators. -/
theorem C42_perm {shuffle : List (Term n) → List (Term n)} (hs : ∀ l, (shuffle l).Perm l) (os : List PartOrder)
    (G : List (Term n)) : (runOrders shuffle os G).Perm G := by
  unfold runOrders
  have : ∀ (l : List PartOrder) (H : List (Term n)), (l.foldl (PartOrder.run shuffle) H).Perm H := by
    intro l
    induction l with
    | nil => intro H; exact List.Perm.refl _
    | cons o l ih =>
      intro H
      rw [List.foldl_cons]
      refine (ih _).trans ?_
      unfold PartOrder.run
      split
      · exact (List.reverse_perm _).trans ((o.base.run_perm hs _).trans (List.reverse_perm H))
      · exact o.base.run_perm hs H
  exact this _ _

/-- C42: a combination of orders sorts by the first order that decides, and keeps the order of generators for which none
decides; a reversed order sorts in the opposite direction, but does not reverse those that are tied. -/
theorem C42_composite (shuffle : List (Term n) → List (Term n)) (os : List PartOrder) (hos : ∀ o ∈ os, o.base ≠ .random)
    (G : List (Term n)) (hG : G.Nodup) : IsStableSort (firstLess G os) G (runOrders shuffle os G) := by
  unfold runOrders
  induction os with
  | nil =>
    refine ⟨List.Perm.refl _, ?_, fun _ => rfl⟩
    exact List.pairwise_of_forall fun _ _ => rfl
  | cons o os ih =>
    have h2 := ih fun o ho => hos o (by simp [ho])
    rw [List.reverse_cons, List.foldl_append, List.foldl_cons, List.foldl_nil, firstLess_cons]
    have h1 := PartOrder.run_spec shuffle (h2.perm.nodup_iff.2 hG) (hos o (by simp))
    rw [PartOrder.less_perm h2.perm o] at h1
    exact h2.comb (o.negOn G) h1

/-- C42: if one of the orders is `lex` or `revlex` then the result does not depend on the order of the generators before. -/
theorem C42_deterministic (shuffle : List (Term n) → List (Term n)) (os : List PartOrder) (hos : ∀ o ∈ os, o.base ≠ .random)
    (hlex : ∃ o ∈ os, o.base = .lex ∨ o.base = .revlex) (G H : List (Term n)) (hG : G.Nodup) (hGH : G.Perm H) :
    runOrders shuffle os G = runOrders shuffle os H := by
  have h1 := C42_composite shuffle os hos G hG
  have h2 := C42_composite shuffle os hos H (hGH.nodup_iff.1 hG)
  have hless : ∀ os : List PartOrder, firstLess G os = firstLess H os := by
    intro os
    induction os with
    | nil => rfl
    | cons o os ih => rw [firstLess_cons, firstLess_cons, ih, PartOrder.less_perm hGH]
  rw [← hless] at h2
  refine h1.unique_of_decisive ?_ h2 hGH
  clear h1 h2 hos
  obtain ⟨o, ho, hb⟩ := hlex
  intro a b _ _ hab hba
  induction os with
  | nil => simp at ho
  | cons p os ih =>
    have e1 : ∀ x y, firstLess G (p :: os) x y = comb (p.less G) (firstLess G os) x y := fun _ _ => rfl
    rw [e1] at hab hba
    have h3 : p.less G a b = false := by
      cases h : p.less G a b
      · rfl
      · simp [comb, h] at hab
    have h4 : p.less G b a = false := by
      cases h : p.less G b a
      · rfl
      · simp [comb, h] at hba
    simp only [comb, h3, h4, Bool.false_eq_true, if_false] at hab hba
    rcases List.mem_cons.1 ho with rfl | ho
    · unfold PartOrder.less at h3 h4
      rcases hb with hb | hb <;> rw [hb] at h3 h4 <;> simp only [BaseOrder.less] at h3 h4 <;> cases ho : o.rev <;>
        simp only [ho, Bool.false_eq_true, if_false, if_true] at h3 h4
      · exact totalOn_lex a b trivial trivial h3 h4
      · exact totalOn_lex a b trivial trivial h4 h3
      · exact totalOn_lex a b trivial trivial h4 h3
      · exact totalOn_lex a b trivial trivial h3 h4
    · exact ih ho hab hba

/-- C42: the values compared by `max` and `minPos` are the largest exponent and the least positive exponent. -/
theorem C42_extremes (a : Term n) :
    (∀ v, a v ≤ maxExpOf a) ∧ (a ≠ 0 → ∃ v, a v = maxExpOf a) ∧
      (a ≠ 0 → 0 < minPosOf a ∧ ∃ v, a v = minPosOf a) ∧ ∀ v, 0 < a v → minPosOf a ≤ a v := by
  have hmax : ∀ (l : List ℕ) (m : ℕ), m ≤ l.foldl (fun m x => if x > m then x else m) m ∧
      (∀ x ∈ l, x ≤ l.foldl (fun m x => if x > m then x else m) m) ∧
      (l.foldl (fun m x => if x > m then x else m) m = m ∨ l.foldl (fun m x => if x > m then x else m) m ∈ l) := by
    intro l
    induction l with
    | nil => intro m; simp
    | cons x l ih =>
      intro m
      rw [List.foldl_cons]
      obtain ⟨h1, h2, h3⟩ := ih (if x > m then x else m)
      set r := l.foldl (fun m x => if x > m then x else m) (if x > m then x else m)
      have h4 : m ≤ r ∧ x ≤ r := by split at h1 <;> omega
      refine ⟨h4.1, fun y hy => ?_, ?_⟩
      · rcases List.mem_cons.1 hy with rfl | hy
        · exact h4.2
        · exact h2 y hy
      · rcases h3 with h3 | h3
        · split at h3
          · right; rw [h3]; simp
          · left; exact h3
        · right; simp [h3]
  have hmin : ∀ (l : List ℕ) (m : ℕ), (∀ y ∈ m :: l, 0 < y → 0 < l.foldl (fun m x => if x ≠ 0 ∧ (m = 0 ∨ x < m) then x else m) m ∧
        l.foldl (fun m x => if x ≠ 0 ∧ (m = 0 ∨ x < m) then x else m) m ≤ y) ∧
      (l.foldl (fun m x => if x ≠ 0 ∧ (m = 0 ∨ x < m) then x else m) m = m ∨
        l.foldl (fun m x => if x ≠ 0 ∧ (m = 0 ∨ x < m) then x else m) m ∈ l) := by
    intro l
    induction l with
    | nil => intro m; simp
    | cons x l ih =>
      intro m
      rw [List.foldl_cons]
      obtain ⟨h2, h3⟩ := ih (if x ≠ 0 ∧ (m = 0 ∨ x < m) then x else m)
      set r := l.foldl (fun m x => if x ≠ 0 ∧ (m = 0 ∨ x < m) then x else m) (if x ≠ 0 ∧ (m = 0 ∨ x < m) then x else m)
      have h5 := h2 _ (List.mem_cons_self)
      refine ⟨fun y hy hpos => ?_, ?_⟩
      · rcases List.mem_cons.1 hy with rfl | hy
        · split at h5
          · rename_i hc
            have := h5 (by omega); omega
          · exact h5 hpos
        · rcases List.mem_cons.1 hy with rfl | hy
          · split at h5
            · exact h5 hpos
            · rename_i hc
              have : 0 < m ∧ m ≤ y := by
                by_contra h6; apply hc; omega
              have := h5 this.1; omega
          · exact h2 y (by simp [hy]) hpos
      · rcases h3 with h3 | h3
        · split at h3
          · right; rw [h3]; simp
          · left; exact h3
        · right; simp [h3]
  have hm : ∀ v, a v ∈ (List.finRange n).map a := fun v => List.mem_map.2 ⟨v, List.mem_finRange v, rfl⟩
  have hm' : ∀ x ∈ (List.finRange n).map a, ∃ v, a v = x := fun x hx => by
    obtain ⟨v, _, h⟩ := List.mem_map.1 hx; exact ⟨v, h⟩
  obtain ⟨_, h2, h3⟩ := hmax ((List.finRange n).map a) 0
  obtain ⟨h4, h5⟩ := hmin ((List.finRange n).map a) 0
  have hpos : a ≠ 0 → ∃ v, 0 < a v := fun h => by
    obtain ⟨v, hv⟩ := Term.exists_ne_zero h; exact ⟨v, Nat.pos_of_ne_zero hv⟩
  refine ⟨fun v => h2 _ (hm v), fun h => ?_, fun h => ?_, fun v hv => (h4 _ (List.mem_cons_of_mem _ (hm v)) hv).2⟩
  · rcases h3 with h3 | h3
    · obtain ⟨v, hv⟩ := hpos h
      have := h2 _ (hm v)
      rw [h3] at this; omega
    · exact hm' _ h3
  · obtain ⟨v, hv⟩ := hpos h
    have h6 := (h4 _ (List.mem_cons_of_mem _ (hm v)) hv).1
    refine ⟨h6, ?_⟩
    rcases h5 with h5 | h5
    · rw [h5] at h6; omega
    · exact hm' _ h5

/-- The name of an order. -/
def BaseOrder.name : BaseOrder → Text
  | .random => "random".toList
  | .null => "null".toList
  | .lex => "lex".toList
  | .revlex => "revlex".toList
  | .tdeg => "tdeg".toList
  | .median => "median".toList
  | .posMedian => "posMedian".toList
  | .minPos => "minPos".toList
  | .max => "max".toList
  | .support => "support".toList
  | .strongGenericity => "strongGenericity".toList
  | .weakGenericity => "weakGenericity".toList

/-- The name with `rev` in front if reversed. -/
def PartOrder.name (o : PartOrder) : Text := (if o.rev then "rev".toList else []) ++ o.base.name

/-- C42: the name of each order is understood, and so is that of each reversed order and those of combinations with
underscores in between. The only exception is that `revlex` is taken as `lex` reversed. -/
theorem C42_names (os : List PartOrder) (hne : os ≠ []) (hr : ∀ o ∈ os, o ≠ ⟨false, .revlex⟩) :
    createIdealOrderer (List.intercalate ['_'] (os.map PartOrder.name)) = .ok (some os) := by
  have hname : ∀ o : PartOrder, '_' ∉ o.name := by
    rintro ⟨r, b⟩
    cases r <;> cases b <;> decide
  have hcreate : ∀ o : PartOrder, o ≠ ⟨false, .revlex⟩ → createPartOrder o.name = .ok (some o) := by
    rintro ⟨r, b⟩ h
    cases r <;> cases b <;> first | exact absurd rfl h | decide +kernel
  have hsplit1 : ∀ (t : Text), '_' ∉ t → splitUnderscore t = [t] := by
    intro t
    induction t with
    | nil => intro _; rfl
    | cons c t ih =>
      intro h
      simp only [List.mem_cons, not_or] at h
      unfold splitUnderscore
      rw [if_neg (fun h' => h.1 h'.symm), ih h.2]
  have hsplit2 : ∀ (t r : Text), '_' ∉ t → splitUnderscore (t ++ '_' :: r) = t :: splitUnderscore r := by
    intro t r
    induction t with
    | nil => intro _; simp [splitUnderscore]
    | cons c t ih =>
      intro h
      simp only [List.mem_cons, not_or] at h
      rw [List.cons_append]
      conv_lhs => unfold splitUnderscore
      rw [if_neg (fun h' => h.1 h'.symm), ih h.2]
  have hsplit : ∀ os : List PartOrder, os ≠ [] → splitUnderscore (List.intercalate ['_'] (os.map PartOrder.name)) =
      os.map PartOrder.name := by
    intro os
    induction os with
    | nil => intro h; exact absurd rfl h
    | cons o os ih =>
      intro _
      cases os with
      | nil =>
        have : List.intercalate ['_'] ([o].map PartOrder.name) = o.name := by simp [List.intercalate]
        rw [this, hsplit1 _ (hname o)]; rfl
      | cons o2 os =>
        have : List.intercalate ['_'] ((o :: o2 :: os).map PartOrder.name) =
            o.name ++ '_' :: List.intercalate ['_'] ((o2 :: os).map PartOrder.name) := by
          simp [List.intercalate]
        rw [this, hsplit2 _ _ (hname o), ih (by simp)]; rfl
  unfold createIdealOrderer
  rw [hsplit os hne]
  have hmap : ∀ os : List PartOrder, (∀ o ∈ os, o ≠ ⟨false, .revlex⟩) →
      (os.map PartOrder.name).mapM createPartOrder = .ok (os.map some) := by
    intro os
    induction os with
    | nil => intro _; rfl
    | cons o os ih =>
      intro h
      rw [List.map_cons, List.mapM_cons, hcreate o (h o (by simp)), ih fun o ho => h o (by simp [ho])]
      rfl
  rw [hmap os hr]
  show Except.ok _ = _
  congr 1
  show List.mapM id (os.map some) = some os
  clear hmap hsplit hsplit1 hsplit2 hcreate hname hne hr
  induction os with
  | nil => rfl
  | cons o os ih => rw [List.map_cons, List.mapM_cons, ih]; rfl

/-- C42: with any names of orders that are understood, strong deformation gives the Hilbert-Poincare numerator. -/
theorem C42_options {shuffle : List (Term n) → List (Term n)} (hs : ∀ l, (shuffle l).Perm l) (enum deform : Text)
    (o : ScarfOpts n) (ho : ScarfOpts.named shuffle true enum deform = some o)
    (order : List (ℤ × Term n) → List (ℤ × Term n)) (hord : ∀ l, (order l).Perm l) (canonical : Bool) (G : List (Term n)) :
    ∃ p : List (ℤ × Term n), facadeScarf o order canonical G = some (p.map fun x => (x.1, toInt x.2)) ∧
      IsHilbertNumerator p G ∧ Reduced p ∧ (canonical = true → p.Pairwise fun a b => LexGreater a.2 b.2) := by
  unfold ScarfOpts.named at ho
  split at ho
  · simp only [Option.some.injEq] at ho
    subst ho
    exact C41_strong _ rfl (fun l => C42_perm hs _ l) (fun l => C42_perm hs _ l) order hord canonical G
  · simp at ho

/-! Concrete cases. -/

/-- `tdeg_revlex` on `xy^2, x^2y, y, x`: the degree decides first, then `lex` reversed. -/
example : createIdealOrderer "tdeg_revlex".toList = .ok (some [⟨false, .tdeg⟩, ⟨true, .lex⟩]) ∧
    runOrders id [⟨false, .tdeg⟩, ⟨true, .lex⟩] [![1, 2], ![2, 1], ![0, 1], ![1, 0]] = [![1, 0], ![0, 1], ![2, 1], ![1, 2]] ∧
    runOrders id [⟨true, .tdeg⟩] [![1, 2], ![2, 1], ![0, 1], ![1, 0]] = [![1, 2], ![2, 1], ![0, 1], ![1, 0]] := by
  decide +kernel

/-- `x^2y` shares an exponent with `x^2y^3` and `x^4y`, and nothing strictly divides the lcms. -/
example : [true, false].map (fun s => [![2, 1], ![2, 3], ![4, 1], ![1, 5]].map (degeneracyCount (n := 2)
    [![2, 1], ![2, 3], ![4, 1], ![1, 5]] s)) = [[2, 1, 1, 0], [2, 1, 1, 0]] := by
  decide +kernel

/-- `x^2y` and `x^2z` share an exponent, but `x` strictly divides the lcm `x^2yz`. -/
example : [true, false].map (fun s => [![2, 1, 0], ![2, 0, 1], ![1, 0, 0]].map (degeneracyCount (n := 3)
    [![2, 1, 0], ![2, 0, 1], ![1, 0, 0]] s)) = [[1, 1, 0], [0, 0, 0]] := by
  decide +kernel

end Frobby

import Verif.IdealLemmas
import Verif.StrategyModel
import Mathlib.Data.List.Nodup
import Mathlib.Data.List.FinRange

/-!
# `IndependenceSplitter::analyze` finds two independent sets of variables
-/

namespace Frobby

variable {n : ℕ}

open Term

namespace UF

/-- The number of generators whose first variable is in the class of the root `r`. -/
def cnt (p : UF n) (I : List (Term n)) (r : Fin n) : ℕ :=
  I.countP fun g => decide (∃ f : Fin n, f.val = firstNonZero g ∧ p.root f = r)

structure WF (p : UF n) : Prop where
  idem : ∀ i, p.root (p.root i) = p.root i
  count : p.count = p.roots.length

/-- The weights count the generators. -/
def Wt (p : UF n) (I : List (Term n)) : Prop := ∀ r, p.root r = r → p.wt r = 1 + p.cnt I r

/-- `q` is coarser than `p`. -/
def Le (p q : UF n) : Prop := ∀ i j, p.root i = p.root j → q.root i = q.root j

theorem Le.refl (p : UF n) : Le p p := fun _ _ h => h

theorem Le.trans {p q r : UF n} (h1 : Le p q) (h2 : Le q r) : Le p r := fun i j h => h2 i j (h1 i j h)

theorem mem_roots {p : UF n} {r : Fin n} : r ∈ p.roots ↔ p.root r = r := by simp [roots]

theorem nodup_roots (p : UF n) : p.roots.Nodup := (List.nodup_finRange n).filter _

theorem init_wf : WF (init n) := ⟨fun _ => rfl, by simp [init, roots]⟩

theorem init_wt : Wt (init n) [] := fun r _ => by simp [init, cnt]

theorem join_root {p : UF n} {i j : Fin n} (h : p.root i ≠ p.root j) (x : Fin n) :
    (p.join i j).root x = if p.root x = p.root j then p.root i else p.root x := by
  simp [join, h]

theorem join_eq {p : UF n} {i j : Fin n} (h : p.root i = p.root j) : p.join i j = p := by simp [join, h]

theorem join_le (p : UF n) (i j : Fin n) : Le p (p.join i j) := by
  intro a b hab
  by_cases h : p.root i = p.root j
  · rw [join_eq h]; exact hab
  · rw [join_root h, join_root h, hab]

theorem join_same {p : UF n} (i j : Fin n) : (p.join i j).root i = (p.join i j).root j := by
  by_cases h : p.root i = p.root j
  · rw [join_eq h]; exact h
  · rw [join_root h, join_root h, if_neg h, if_pos rfl]

theorem join_isRoot {p : UF n} (hp : WF p) {i j : Fin n} (h : p.root i ≠ p.root j) (r : Fin n) :
    (p.join i j).root r = r ↔ p.root r = r ∧ r ≠ p.root j := by
  rw [join_root h]
  split
  · rename_i he
    constructor
    · intro h1
      exfalso
      apply h
      rw [← he, ← h1, hp.idem]
    · rintro ⟨h1, h2⟩
      exact absurd (h1 ▸ he) h2
  · rename_i he
    constructor
    · intro h1
      refine ⟨h1, fun h2 => he ?_⟩
      rw [h2, hp.idem]
    · exact fun h1 => h1.1

theorem join_wf {p : UF n} (hp : WF p) (i j : Fin n) : WF (p.join i j) := by
  by_cases h : p.root i = p.root j
  · rw [join_eq h]; exact hp
  refine ⟨fun x => ?_, ?_⟩
  · rw [join_isRoot hp h, join_root h]
    split
    · exact ⟨hp.idem i, h⟩
    · rename_i he; exact ⟨hp.idem x, he⟩
  · have h1 : (p.join i j).roots = p.roots.erase (p.root j) := by
      rw [(nodup_roots p).erase_eq_filter]
      unfold roots
      rw [List.filter_filter]
      refine List.filter_congr fun r _ => ?_
      rw [Bool.eq_iff_iff]
      simp only [decide_eq_true_eq, Bool.and_eq_true, bne_iff_ne]
      rw [join_isRoot hp h]
      tauto
    rw [h1, List.length_erase_of_mem (mem_roots.2 (hp.idem j)), ← hp.count]
    simp [join, h]

theorem cnt_split {p q : UF n} {I : List (Term n)} {r a b : Fin n} (hab : a ≠ b)
    (h : ∀ x, q.root x = r ↔ p.root x = a ∨ p.root x = b) : q.cnt I r = p.cnt I a + p.cnt I b := by
  induction I with
  | nil => simp [cnt]
  | cons g I ih =>
    unfold cnt at ih ⊢
    rw [List.countP_cons, List.countP_cons, List.countP_cons, ih]
    by_cases hg : ∃ f : Fin n, f.val = firstNonZero g
    · obtain ⟨f, hf⟩ := hg
      have key : ∀ (s : UF n) (c : Fin n), (∃ f : Fin n, f.val = firstNonZero g ∧ s.root f = c) ↔ s.root f = c := by
        intro s c
        constructor
        · rintro ⟨f', h1, h2⟩
          have : f' = f := Fin.ext (h1.trans hf.symm)
          rw [← this]; exact h2
        · intro h1; exact ⟨f, hf, h1⟩
      simp only [key, decide_eq_true_eq]
      have := h f
      by_cases h1 : p.root f = a
      · have h2 : p.root f ≠ b := fun h3 => hab (h1 ▸ h3)
        rw [if_pos (this.2 (Or.inl h1)), if_pos h1, if_neg h2]; omega
      · by_cases h2 : p.root f = b
        · rw [if_pos (this.2 (Or.inr h2)), if_neg h1, if_pos h2]; omega
        · rw [if_neg (fun h3 => (this.1 h3).elim h1 h2), if_neg h1, if_neg h2]; omega
    · have key : ∀ (s : UF n) (c : Fin n), ¬ (∃ f : Fin n, f.val = firstNonZero g ∧ s.root f = c) := by
        rintro s c ⟨f, h1, _⟩; exact hg ⟨f, h1⟩
      simp [key]

theorem cnt_congr {p q : UF n} {I : List (Term n)} {r a : Fin n} (h : ∀ x, q.root x = r ↔ p.root x = a) :
    q.cnt I r = p.cnt I a := by
  unfold cnt
  simp only [h]

theorem join_wt {p : UF n} (hp : WF p) {I : List (Term n)} (hw : Wt p I) (i j : Fin n) : Wt (p.join i j) I := by
  by_cases h : p.root i = p.root j
  · rw [join_eq h]; exact hw
  intro r hr
  have hr' := (join_isRoot hp h r).1 hr
  have hwt : (p.join i j).wt = Function.update p.wt (p.root i) (p.wt (p.root i) + p.wt (p.root j) - 1) := by
    simp [join, h]
  rw [hwt]
  by_cases hri : r = p.root i
  · subst hri
    have hc : (p.join i j).cnt I (p.root i) = p.cnt I (p.root i) + p.cnt I (p.root j) := by
      apply cnt_split h
      intro x
      rw [join_root h]
      split
      · rename_i he; simp [he]
      · rename_i he; simp [he]
    rw [Function.update_self, hw _ (hp.idem i), hw _ (hp.idem j), hc]
    omega
  · rw [Function.update_of_ne hri, hw r hr'.1, cnt_congr (p := p) (q := p.join i j) (r := r) (a := r)]
    intro x
    rw [join_root h]
    split
    · rename_i he
      rw [he]
      exact ⟨fun h1 => absurd h1.symm hri, fun h1 => absurd h1.symm hr'.2⟩
    · exact Iff.rfl

end UF

open UF

theorem firstNonZero_eq_of_zero {g : Term n} (h : firstNonZero g = n) : g = 0 := by
  by_contra hc
  have := firstNonZero_lt hc
  omega

theorem firstNonZero_min {g : Term n} {v : Fin n} (hv : g v ≠ 0) : firstNonZero g ≤ v.val := by
  unfold firstNonZero
  cases hf : (List.finRange n).find? (fun i => g i ≠ 0) with
  | none =>
    rw [List.find?_eq_none] at hf
    exact absurd hv (by simpa using hf v (List.mem_finRange v))
  | some i =>
    simp only
    rw [List.find?_eq_some_iff_append] at hf
    obtain ⟨_, as, bs, h1, h2⟩ := hf
    have hmem : v ∈ as ++ i :: bs := h1 ▸ List.mem_finRange v
    rcases List.mem_append.1 hmem with h | h
    · exact absurd hv (by simpa using h2 v h)
    · rcases List.mem_cons.1 h with h | h
      · rw [h]
      · have hp : (as ++ i :: bs).Pairwise (· < ·) := h1 ▸ List.pairwise_lt_finRange n
        have := (List.pairwise_append.1 hp).2.1
        have := (List.pairwise_cons.1 this).1 v h
        exact le_of_lt this

theorem joinFold_spec (f : Fin n) (c : Fin n → Prop) [DecidablePred c] : ∀ (l : List (Fin n)) (p : UF n), WF p →
    let q := l.foldl (fun q v => if c v then q.join f v else q) p
    WF q ∧ Le p q ∧ (∀ v ∈ l, c v → q.root f = q.root v) ∧ ∀ I, Wt p I → Wt q I := by
  intro l
  induction l with
  | nil => intro p hp; exact ⟨hp, Le.refl p, by simp, fun _ h => h⟩
  | cons w l ih =>
    intro p hp
    simp only [List.foldl_cons]
    by_cases hc : c w
    · rw [if_pos hc]
      obtain ⟨h1, h2, h3, h4⟩ := ih (p.join f w) (join_wf hp f w)
      refine ⟨h1, (join_le p f w).trans h2, ?_, fun I hI => h4 I (join_wt hp hI f w)⟩
      intro v hv hcv
      rcases List.mem_cons.1 hv with rfl | hv
      · exact h2 _ _ (join_same f v)
      · exact h3 v hv hcv
    · rw [if_neg hc]
      obtain ⟨h1, h2, h3, h4⟩ := ih p hp
      refine ⟨h1, h2, ?_, h4⟩
      intro v hv hcv
      rcases List.mem_cons.1 hv with rfl | hv
      · exact absurd hcv hc
      · exact h3 v hv hcv

theorem joinSupport_spec {p : UF n} (hp : WF p) (g : Term n) :
    WF (joinSupport p g) ∧ Le p (joinSupport p g) ∧
      (∀ v w, g v ≠ 0 → g w ≠ 0 → (joinSupport p g).root v = (joinSupport p g).root w) ∧
      ∀ I, Wt p I → Wt (joinSupport p g) I := by
  unfold joinSupport
  by_cases h : firstNonZero g < n
  · rw [dif_pos h]
    obtain ⟨h1, h2, h3, h4⟩ := joinFold_spec ⟨firstNonZero g, h⟩ (fun v => firstNonZero g < v.val ∧ 0 < g v)
      (List.finRange n) p hp
    refine ⟨h1, h2, ?_, h4⟩
    have key : ∀ v, g v ≠ 0 →
        ((List.finRange n).foldl (fun q v => if firstNonZero g < v.val ∧ 0 < g v
          then q.join ⟨firstNonZero g, h⟩ v else q) p).root ⟨firstNonZero g, h⟩ =
        ((List.finRange n).foldl (fun q v => if firstNonZero g < v.val ∧ 0 < g v
          then q.join ⟨firstNonZero g, h⟩ v else q) p).root v := by
      intro v hv
      by_cases he : v.val = firstNonZero g
      · have : v = ⟨firstNonZero g, h⟩ := Fin.ext he
        rw [this]
      · have := firstNonZero_min hv
        exact h3 v (List.mem_finRange v) ⟨by omega, by omega⟩
    intro v w hv hw
    rw [← key v hv, ← key w hw]
  · rw [dif_neg h]
    refine ⟨hp, Le.refl p, ?_, fun _ h => h⟩
    intro v w hv
    have := firstNonZero_min hv
    omega

theorem addToSet_wf {p : UF n} (hp : WF p) (i : Fin n) : WF (p.addToSet i) := ⟨hp.idem, hp.count⟩

theorem addGenerator_spec {p : UF n} (hp : WF p) (g : Term n) (hg : g ≠ 0) :
    WF (addGenerator p g) ∧ Le p (addGenerator p g) ∧
      (∀ v w, g v ≠ 0 → g w ≠ 0 → (addGenerator p g).root v = (addGenerator p g).root w) ∧
      ∀ I, Wt p I → Wt (addGenerator p g) (I ++ [g]) := by
  have h := firstNonZero_lt hg
  unfold addGenerator
  rw [dif_pos h]
  obtain ⟨h1, h2, h3, h4⟩ := joinSupport_spec (addToSet_wf hp ⟨firstNonZero g, h⟩) g
  refine ⟨h1, h2, h3, fun I hI => h4 _ ?_⟩
  intro r hr
  have hroot : (p.addToSet ⟨firstNonZero g, h⟩).root = p.root := rfl
  rw [hroot] at hr
  have hc : (p.addToSet ⟨firstNonZero g, h⟩).cnt (I ++ [g]) r =
      p.cnt I r + if p.root ⟨firstNonZero g, h⟩ = r then 1 else 0 := by
    unfold cnt
    rw [List.countP_append, List.countP_singleton, hroot]
    congr 1
    have : (∃ f : Fin n, f.val = firstNonZero g ∧ p.root f = r) ↔ p.root ⟨firstNonZero g, h⟩ = r := by
      constructor
      · rintro ⟨f, h5, h6⟩
        have : f = ⟨firstNonZero g, h⟩ := Fin.ext h5
        rw [← this]; exact h6
      · intro h5; exact ⟨_, rfl, h5⟩
    simp only [this, decide_eq_true_eq]
  rw [hc]
  show Function.update p.wt (p.root ⟨firstNonZero g, h⟩) (p.wt (p.root ⟨firstNonZero g, h⟩) + 1) r = _
  by_cases he : p.root ⟨firstNonZero g, h⟩ = r
  · subst he
    rw [Function.update_self, if_pos rfl, hI _ (hp.idem _)]; omega
  · rw [Function.update_of_ne (Ne.symm he), if_neg he, hI r hr, Nat.add_zero]

theorem gensFold_spec : ∀ (I : List (Term n)) (J : List (Term n)) (p : UF n), WF p → Wt p J → (∀ g ∈ I, g ≠ 0) →
    let q := I.foldl addGenerator p
    WF q ∧ Le p q ∧ (∀ g ∈ I, ∀ v w, g v ≠ 0 → g w ≠ 0 → q.root v = q.root w) ∧ Wt q (J ++ I) := by
  intro I
  induction I with
  | nil => intro J p hp hw _; simpa using ⟨hp, Le.refl p, hw⟩
  | cons g I ih =>
    intro J p hp hw hz
    simp only [List.foldl_cons]
    obtain ⟨h1, h2, h3, h4⟩ := addGenerator_spec hp g (hz g (by simp))
    obtain ⟨h5, h6, h7, h8⟩ := ih (J ++ [g]) _ h1 (h4 J hw) (fun x hx => hz x (by simp [hx]))
    refine ⟨h5, h2.trans h6, ?_, by simpa using h8⟩
    intro x hx v w hv hw'
    rcases List.mem_cons.1 hx with rfl | hx
    · exact h6 _ _ (h3 v w hv hw')
    · exact h7 x hx v w hv hw'

theorem subFold_spec : ∀ (S : List (Term n)) (p : UF n), WF p →
    let q := S.foldl joinSupport p
    WF q ∧ Le p q ∧ (∀ g ∈ S, ∀ v w, g v ≠ 0 → g w ≠ 0 → q.root v = q.root w) ∧ ∀ I, Wt p I → Wt q I := by
  intro S
  induction S with
  | nil => intro p hp; exact ⟨hp, Le.refl p, by simp, fun _ h => h⟩
  | cons g S ih =>
    intro p hp
    simp only [List.foldl_cons]
    obtain ⟨h1, h2, h3, h4⟩ := joinSupport_spec hp g
    obtain ⟨h5, h6, h7, h8⟩ := ih _ h1
    refine ⟨h5, h2.trans h6, ?_, fun I hI => h8 I (h4 I hI)⟩
    intro x hx v w hv hw'
    rcases List.mem_cons.1 hx with rfl | hx
    · exact h6 _ _ (h3 v w hv hw')
    · exact h7 x hx v w hv hw'

theorem indepPartition_spec (I S : List (Term n)) (hz : ∀ g ∈ I, g ≠ 0) :
    WF (indepPartition I S) ∧ (∀ g ∈ I ++ S, ∀ v w, g v ≠ 0 → g w ≠ 0 →
      (indepPartition I S).root v = (indepPartition I S).root w) ∧ Wt (indepPartition I S) I := by
  obtain ⟨h1, _, h3, h4⟩ := gensFold_spec I [] (UF.init n) init_wf init_wt hz
  obtain ⟨h5, h6, h7, h8⟩ := subFold_spec S _ h1
  refine ⟨h5, ?_, h8 I (by simpa using h4)⟩
  intro g hg v w hv hw
  rcases List.mem_append.1 hg with hg | hg
  · exact h6 _ _ (h3 g hg v w hv hw)
  · exact h7 g hg v w hv hw

/-! ## merging all but the largest set -/

theorem maxSet_foldl {p : UF n} (hp : WF p) : ∀ (l : List (Fin n)) (z : Fin n),
    let m := l.foldl (fun m v => if p.sizeOfClassOf m < p.sizeOfClassOf v then p.root v else m) z
    p.sizeOfClassOf z ≤ p.sizeOfClassOf m ∧ ∀ v ∈ l, p.sizeOfClassOf v ≤ p.sizeOfClassOf m := by
  intro l
  induction l with
  | nil => intro z; simp
  | cons w l ih =>
    intro z
    simp only [List.foldl_cons]
    have hr : p.sizeOfClassOf (p.root w) = p.sizeOfClassOf w := by unfold sizeOfClassOf; rw [hp.idem]
    by_cases hlt : p.sizeOfClassOf z < p.sizeOfClassOf w
    · rw [if_pos hlt]
      obtain ⟨h1, h2⟩ := ih (p.root w)
      refine ⟨by omega, fun v hv => ?_⟩
      rcases List.mem_cons.1 hv with rfl | hv
      · omega
      · exact h2 v hv
    · rw [if_neg hlt]
      obtain ⟨h1, h2⟩ := ih z
      refine ⟨h1, fun v hv => ?_⟩
      rcases List.mem_cons.1 hv with rfl | hv
      · omega
      · exact h2 v hv

theorem nonMax_foldl {p : UF n} (m : Fin n) : ∀ (l : List (Fin n)) (z : Fin n),
    (p.root m ≠ p.root z ∨ ∃ v ∈ l, p.root m ≠ p.root v) →
    p.root m ≠ p.root (l.foldl (fun acc v => if p.root m ≠ p.root v then v else acc) z) := by
  intro l
  induction l with
  | nil => intro z h; simpa using h
  | cons w l ih =>
    intro z h
    simp only [List.foldl_cons]
    apply ih
    by_cases hw : p.root m ≠ p.root w
    · left; rw [if_pos hw]; exact hw
    · rw [if_neg hw]
      rcases h with h | ⟨v, hv, h⟩
      · left; exact h
      · rcases List.mem_cons.1 hv with rfl | hv
        · exact absurd h hw
        · right; exact ⟨v, hv, h⟩

theorem mergeFold_spec {p : UF n} {m o : Fin n} (hmo : p.root m ≠ p.root o) : ∀ (l : List (Fin n)) (q : UF n), WF q →
    Le p q → (∀ x, q.root x = q.root m ↔ p.root x = p.root m) →
    let r := l.foldl (fun q v => if q.root v ≠ q.root m then q.join v o else q) q
    WF r ∧ Le p r ∧ (∀ x, r.root x = r.root m ↔ p.root x = p.root m) ∧ Le q r ∧
      ∀ v ∈ l, r.root v = r.root m ∨ r.root v = r.root o := by
  intro l
  induction l with
  | nil => intro q h1 h2 h3; exact ⟨h1, h2, h3, Le.refl q, by simp⟩
  | cons w l ih =>
    intro q h1 h2 h3
    simp only [List.foldl_cons]
    by_cases hw : q.root w ≠ q.root m
    · rw [if_pos hw]
      have hom : q.root o ≠ q.root m := fun h => hmo ((h3 o).1 h).symm
      have h3' : ∀ x, (q.join w o).root x = (q.join w o).root m ↔ p.root x = p.root m := by
        intro x
        by_cases he : q.root w = q.root o
        · rw [join_eq he]; exact h3 x
        · rw [join_root he, join_root he, if_neg (Ne.symm hom)]
          split
          · rename_i hx
            rw [← h3]
            exact ⟨fun h => absurd h hw, fun h => absurd (hx ▸ h) hom⟩
          · exact h3 x
      obtain ⟨g1, g2, g3, g4, g5⟩ := ih (q.join w o) (join_wf h1 w o) (h2.trans (join_le q w o)) h3'
      refine ⟨g1, g2, g3, (join_le q w o).trans g4, fun v hv => ?_⟩
      rcases List.mem_cons.1 hv with rfl | hv
      · right; exact g4 _ _ (join_same v o)
      · exact g5 v hv
    · rw [if_neg hw]
      push Not at hw
      obtain ⟨g1, g2, g3, g4, g5⟩ := ih q h1 h2 h3
      refine ⟨g1, g2, g3, g4, fun v hv => ?_⟩
      rcases List.mem_cons.1 hv with rfl | hv
      · left; exact g4 _ _ hw
      · exact g5 v hv

/-- What `analyze` finds: two sets of variables that cover all variables, such that every element of the ideal and of
the subtract lives in one of them, with at least two generators in each. -/
structure IndepSpec (I S : List (Term n)) (big rest : List (Fin n)) : Prop where
  nodupB : big.Nodup
  nodupR : rest.Nodup
  disj : ∀ v, v ∈ big → v ∉ rest
  cover : ∀ v, v ∈ big ∨ v ∈ rest
  supp : ∀ g ∈ I ++ S, (∀ v, g v ≠ 0 → v ∈ big) ∨ ∀ v, g v ≠ 0 → v ∈ rest
  nz : ∀ g ∈ I, g ≠ 0
  twoB : ∃ g ∈ I, ∃ h ∈ I, g ≠ h ∧ (∀ v, g v ≠ 0 → v ∈ big) ∧ ∀ v, h v ≠ 0 → v ∈ big
  twoR : ∃ g ∈ I, ∃ h ∈ I, g ≠ h ∧ (∀ v, g v ≠ 0 → v ∈ rest) ∧ ∀ v, h v ≠ 0 → v ∈ rest

theorem IndepSpec.symm {I S : List (Term n)} {a b : List (Fin n)} (h : IndepSpec I S a b) : IndepSpec I S b a :=
  ⟨h.nodupR, h.nodupB, fun v h1 h2 => h.disj v h2 h1, fun v => (h.cover v).symm, fun g hg => (h.supp g hg).symm,
    h.nz, h.twoR, h.twoB⟩

theorem two_of_length {α : Type*} {l : List α} (hn : l.Nodup) (h : 2 ≤ l.length) : ∃ a ∈ l, ∃ b ∈ l, a ≠ b := by
  match l, h with
  | a :: b :: l, _ =>
    refine ⟨a, by simp, b, by simp, ?_⟩
    rintro rfl
    simp at hn

theorem analyze_spec {I S : List (Term n)} (hI : Anti I) {big rest : List (Fin n)}
    (h : analyze I S = some (big, rest)) : IndepSpec I S big rest := by
  unfold analyze at h
  split at h
  · simp at h
  rename_i hid
  have hz : ∀ g ∈ I, g ≠ 0 := by
    rintro g hg rfl
    apply hid
    rw [List.any_eq_true]
    refine ⟨0, hg, ?_⟩
    rw [decide_eq_true_eq]
    by_contra hc
    have hle : firstNonZero (0 : Term n) < n := by
      unfold firstNonZero at hc ⊢
      split at hc
      · rename_i i hi
        have := List.find?_some hi
        simp at this
      · simp at hc
    exact firstNonZero_spec hle rfl
  obtain ⟨hwf, hsupp, hwt⟩ := indepPartition_spec I S hz
  set p := indepPartition I S with hp
  simp only at h
  split at h
  · simp at h
  rename_i hne1
  split at h
  · simp at h
  rename_i htwo
  split at h
  swap
  · simp at h
  rename_i hpos
  -- two roots with many generators
  have hroots : ∃ r1 r2, p.root r1 = r1 ∧ p.root r2 = r2 ∧ r1 ≠ r2 ∧ 3 ≤ p.wt r1 ∧ 3 ≤ p.wt r2 := by
    obtain ⟨k1, hk1, k2, hk2, hk⟩ := two_of_length (List.nodup_range.filter _) (Nat.le_of_not_lt htwo)
    simp only [List.mem_filter, List.mem_range, decide_eq_true_eq] at hk1 hk2
    have key : ∀ k, 2 ≤ p.setSize k → ∃ r, p.roots[k]? = some r ∧ p.root r = r ∧ 3 ≤ p.wt r := by
      intro k hk
      unfold setSize at hk
      split at hk
      · rename_i r hr
        exact ⟨r, hr, mem_roots.1 (List.mem_of_getElem? hr), by omega⟩
      · omega
    obtain ⟨r1, a1, a2, a3⟩ := key k1 hk1.2
    obtain ⟨r2, b1, b2, b3⟩ := key k2 hk2.2
    refine ⟨r1, r2, a2, b2, ?_, a3, b3⟩
    rintro rfl
    obtain ⟨c1, d1⟩ := List.getElem?_eq_some_iff.1 a1
    obtain ⟨c2, d2⟩ := List.getElem?_eq_some_iff.1 b1
    exact hk ((nodup_roots p).getElem_inj_iff.1 (d1.trans d2.symm))
  obtain ⟨r1, r2, hr1, hr2, hr12, hw1, hw2⟩ := hroots
  set q := if 2 < p.count then mergeRest p ⟨0, hpos⟩ else p with hq
  -- the two sets of the final partition
  have hfin : ∃ c1 c2, WF q ∧ Le p q ∧ c1 ≠ c2 ∧ (∀ v, q.root v = c1 ∨ q.root v = c2) ∧
      (∃ r, p.root r = r ∧ 3 ≤ p.wt r ∧ q.root r = c1) ∧ (∃ r, p.root r = r ∧ 3 ≤ p.wt r ∧ q.root r = c2) := by
    by_cases hc : 2 < p.count
    · rw [if_pos hc] at hq
      set m := maxSetOf p ⟨0, hpos⟩ with hm
      obtain ⟨_, hmax⟩ := maxSet_foldl hwf (List.finRange n) ⟨0, hpos⟩
      have hmax' : ∀ v, p.sizeOfClassOf v ≤ p.sizeOfClassOf m := fun v => hmax v (List.mem_finRange v)
      have hother : ∃ r, p.root r = r ∧ 3 ≤ p.wt r ∧ p.root m ≠ p.root r := by
        by_cases h1 : p.root m = r1
        · exact ⟨r2, hr2, hw2, by rw [h1, hr2]; exact hr12⟩
        · exact ⟨r1, hr1, hw1, by rw [hr1]; exact h1⟩
      obtain ⟨r, hr, hwr, hmr⟩ := hother
      have hmo := nonMax_foldl (p := p) m (List.finRange n) ⟨0, hpos⟩ (Or.inr ⟨r, List.mem_finRange r, hmr⟩)
      obtain ⟨g1, g2, g3, _, g5⟩ := mergeFold_spec hmo (List.finRange n) p hwf (Le.refl p) (fun _ => Iff.rfl)
      change WF (mergeRest p ⟨0, hpos⟩) at g1
      change Le p (mergeRest p ⟨0, hpos⟩) at g2
      change ∀ x, (mergeRest p ⟨0, hpos⟩).root x = (mergeRest p ⟨0, hpos⟩).root m ↔ p.root x = p.root m at g3
      change ∀ v ∈ List.finRange n, (mergeRest p ⟨0, hpos⟩).root v = (mergeRest p ⟨0, hpos⟩).root m ∨
        (mergeRest p ⟨0, hpos⟩).root v = (mergeRest p ⟨0, hpos⟩).root (nonMaxSetOf p m ⟨0, hpos⟩) at g5
      rw [← hq] at g1 g2 g3 g5
      have hall : ∀ v, q.root v = q.root m ∨ q.root v = q.root (nonMaxSetOf p m ⟨0, hpos⟩) :=
        fun v => g5 v (List.mem_finRange v)
      have hqr : q.root r = q.root (nonMaxSetOf p m ⟨0, hpos⟩) := by
        rcases hall r with h1 | h1
        · exact absurd ((g3 r).1 h1).symm hmr
        · exact h1
      refine ⟨q.root m, q.root (nonMaxSetOf p m ⟨0, hpos⟩), g1, g2, ?_, hall, ⟨p.root m, hwf.idem m, ?_, ?_⟩,
        ⟨r, hr, hwr, hqr⟩⟩
      · intro he
        exact hmo ((g3 _).1 he.symm).symm
      · have := hmax' r1
        unfold sizeOfClassOf at this
        rw [hr1] at this; omega
      · exact g2 _ _ (hwf.idem m)
    · rw [if_neg hc] at hq
      rw [hq]
      refine ⟨r1, r2, hwf, Le.refl p, hr12, fun v => ?_, ⟨r1, hr1, hw1, hr1⟩, ⟨r2, hr2, hw2, hr2⟩⟩
      by_contra hcon
      push Not at hcon
      have hsub : [p.root v, r1, r2] ⊆ p.roots := by
        intro x hx
        simp only [List.mem_cons, List.not_mem_nil, or_false] at hx
        rcases hx with rfl | rfl | rfl
        · exact mem_roots.2 (hwf.idem v)
        · exact mem_roots.2 hr1
        · exact mem_roots.2 hr2
      have hnd : [p.root v, r1, r2].Nodup := by simp [hcon.1, hcon.2, hr12]
      have := (List.subperm_of_subset hnd hsub).length_le
      rw [← hwf.count] at this
      simp at this; omega
  obtain ⟨c1, c2, hqw, hle, hc12, hall, ⟨s1, hs1, hws1, hqs1⟩, ⟨s2, hs2, hws2, hqs2⟩⟩ := hfin
  -- numbers of the two sets
  have hrc1 : q.root c1 = c1 := by rw [← hqs1]; exact hqw.idem _
  have hrc2 : q.root c2 = c2 := by rw [← hqs2]; exact hqw.idem _
  have hclass : ∃ a b, a ≠ b ∧ q.classVars 0 = (List.finRange n).filter (fun i => decide (q.root i = a)) ∧
      q.classVars 1 = (List.finRange n).filter (fun i => decide (q.root i = b)) ∧
      ((a = c1 ∧ b = c2) ∨ (a = c2 ∧ b = c1)) := by
    have hmem : ∀ x, x ∈ q.roots ↔ x = c1 ∨ x = c2 := by
      intro x
      rw [mem_roots]
      constructor
      · intro hx
        rcases hall x with h1 | h1
        · left; rw [← hx, h1]
        · right; rw [← hx, h1]
      · rintro (rfl | rfl)
        · exact hrc1
        · exact hrc2
    have hlen : q.roots.length = 2 := by
      have h1 : q.roots.Perm [c1, c2] := by
        rw [List.perm_ext_iff_of_nodup (nodup_roots q) (by simp [hc12])]
        intro x; rw [hmem]; simp
      rw [h1.length_eq]; rfl
    obtain ⟨a, b, hab⟩ := List.length_eq_two.1 hlen
    have hnd := nodup_roots q
    rw [hab] at hnd
    have hab' : a ≠ b := by simpa using hnd
    have ha := (hmem a).1 (by rw [hab]; simp)
    have hb := (hmem b).1 (by rw [hab]; simp)
    refine ⟨a, b, hab', ?_, ?_, ?_⟩
    · unfold classVars; rw [hab]; rfl
    · unfold classVars; rw [hab]; rfl
    · rcases ha with ha | ha <;> rcases hb with hb | hb
      · exact absurd (ha.trans hb.symm) hab'
      · exact Or.inl ⟨ha, hb⟩
      · exact Or.inr ⟨ha, hb⟩
      · exact absurd (ha.trans hb.symm) hab'
  obtain ⟨a, b, hab, hc0, hc1', hcab⟩ := hclass
  have hall' : ∀ v, q.root v = a ∨ q.root v = b := by
    intro v
    rcases hcab with ⟨h1, h2⟩ | ⟨h1, h2⟩
    · rw [h1, h2]; exact hall v
    · rw [h1, h2]; exact (hall v).symm
  have hgen : ∀ s c, p.root s = s → 3 ≤ p.wt s → q.root s = c →
      ∃ g ∈ I, ∃ h ∈ I, g ≠ h ∧ (∀ v, g v ≠ 0 → q.root v = c) ∧ ∀ v, h v ≠ 0 → q.root v = c := by
    intro s c hs hws hqs
    have hcnt : 2 ≤ p.cnt I s := by have := hwt s hs; omega
    unfold cnt at hcnt
    rw [List.countP_eq_length_filter] at hcnt
    obtain ⟨g, hg, h', hh, hgh⟩ := two_of_length (hI.nodup.filter _) hcnt
    rw [List.mem_filter, decide_eq_true_eq] at hg hh
    have key : ∀ x, x ∈ I → (∃ f : Fin n, f.val = firstNonZero x ∧ p.root f = s) →
        ∀ v, x v ≠ 0 → q.root v = c := by
      rintro x hx ⟨f, hf1, hf2⟩ v hv
      have hlt := firstNonZero_lt (hz x hx)
      have hfe : f = ⟨firstNonZero x, hlt⟩ := Fin.ext hf1
      have hfx : x f ≠ 0 := by rw [hfe]; exact firstNonZero_spec hlt
      rw [← hqs]
      apply hle
      rw [hs, ← hf2]
      exact hsupp x (List.mem_append_left _ hx) v f hv hfx
    exact ⟨g, hg.1, h', hh.1, hgh, key g hg.1 hg.2, key h' hh.1 hh.2⟩
  have hspec : IndepSpec I S (q.classVars 0) (q.classVars 1) := by
    rw [hc0, hc1']
    have hm : ∀ c v, v ∈ (List.finRange n).filter (fun i => decide (q.root i = c)) ↔ q.root v = c := by
      intro c v; simp
    have hga : ∃ g ∈ I, ∃ h ∈ I, g ≠ h ∧ (∀ v, g v ≠ 0 → q.root v = a) ∧ ∀ v, h v ≠ 0 → q.root v = a := by
      rcases hcab with ⟨h1, _⟩ | ⟨h1, _⟩
      · exact hgen s1 a hs1 hws1 (h1 ▸ hqs1)
      · exact hgen s2 a hs2 hws2 (h1 ▸ hqs2)
    have hgb : ∃ g ∈ I, ∃ h ∈ I, g ≠ h ∧ (∀ v, g v ≠ 0 → q.root v = b) ∧ ∀ v, h v ≠ 0 → q.root v = b := by
      rcases hcab with ⟨_, h1⟩ | ⟨_, h1⟩
      · exact hgen s2 b hs2 hws2 (h1 ▸ hqs2)
      · exact hgen s1 b hs1 hws1 (h1 ▸ hqs1)
    refine ⟨(List.nodup_finRange n).filter _, (List.nodup_finRange n).filter _, ?_, ?_, ?_, hz, ?_, ?_⟩
    · intro v h1 h2
      rw [hm] at h1 h2
      exact hab (h1 ▸ h2)
    · intro v; rw [hm, hm]; exact hall' v
    · intro g hg
      simp only [hm]
      by_cases hg0 : g = 0
      · left; intro v hv; rw [hg0] at hv; exact absurd rfl hv
      obtain ⟨w, hw⟩ := exists_ne_zero hg0
      have hsame : ∀ v, g v ≠ 0 → q.root v = q.root w := fun v hv => hle _ _ (hsupp g hg v w hv hw)
      rcases hall' w with h1 | h1
      · left; intro v hv; rw [hsame v hv, h1]
      · right; intro v hv; rw [hsame v hv, h1]
    · simpa only [hm] using hga
    · simpa only [hm] using hgb
  split at h
  · simp only [Option.some.injEq, Prod.mk.injEq] at h
    rw [← h.1, ← h.2]; exact hspec
  · simp only [Option.some.injEq, Prod.mk.injEq] at h
    rw [← h.1, ← h.2]; exact hspec.symm

end Frobby

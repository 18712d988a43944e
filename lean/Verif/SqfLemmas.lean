import Verif.SqfModel
import Mathlib.Data.List.Perm.Subperm
import Mathlib.Data.List.Pairwise
import Mathlib.Data.List.TakeWhile
import Mathlib.Data.Finset.Disjoint
import Mathlib.Tactic.Tauto

/-!
# Lemmas on the operations of square free ideals
-/

namespace Frobby

/-- Neither of two sets contains the other. -/
def Incomp (a b : SqTerm) : Prop := ¬ a ⊆ b ∧ ¬ b ⊆ a

theorem Incomp.symm {a b : SqTerm} (h : Incomp a b) : Incomp b a := ⟨h.2, h.1⟩

instance : Std.Symm Incomp := ⟨fun _ _ h => h.symm⟩

/-- No element of a list is contained in another. -/
def Antichain (l : List SqTerm) : Prop := l.Pairwise Incomp

theorem Antichain.perm {l l' : List SqTerm} (h : Antichain l) (p : l.Perm l') : Antichain l' :=
  p.pairwise h fun h => h.symm

theorem Antichain.subperm {l l' : List SqTerm} (h : Antichain l) (p : l'.Subperm l) : Antichain l' := by
  obtain ⟨m, hm, hs⟩ := p
  exact Antichain.perm (List.Pairwise.sublist hs h) hm

theorem Antichain.eq_of_subset {l : List SqTerm} (h : Antichain l) {a b : SqTerm} (ha : a ∈ l) (hb : b ∈ l) (hs : a ⊆ b) :
    a = b := by
  by_contra hne
  exact (List.Pairwise.forall h ha hb hne).1 hs

theorem takeLast_perm (l : List SqTerm) : (takeLast l).Perm l := by
  cases l with
  | nil => exact List.Perm.refl _
  | cons x l =>
    simp only [takeLast]
    refine (List.perm_append_singleton _ _).symm.trans ?_
    rw [List.dropLast_append_getLast]

theorem sqMinimizeLoop_spec (kept l : List SqTerm) (hk : Antichain kept) (hkl : ∀ k ∈ kept, ∀ y ∈ l, ¬ y ⊆ k) :
    (sqMinimizeLoop kept l).Subperm (kept ++ l) ∧ Antichain (sqMinimizeLoop kept l) ∧
      ∀ m ∈ kept ++ l, ∃ d ∈ sqMinimizeLoop kept l, d ⊆ m := by
  induction kept, l using sqMinimizeLoop.induct with
  | case1 kept =>
    rw [sqMinimizeLoop, List.append_nil]
    exact ⟨(List.Perm.refl _).subperm, hk, fun m hm => ⟨m, hm, fun _ h => h⟩⟩
  | case2 kept x l hany ih =>
    rw [sqMinimizeLoop, if_pos hany]
    have hp := takeLast_perm l
    obtain ⟨h1, h2, h3⟩ := ih hk fun k hk' y hy => hkl k hk' y (by simp [hp.mem_iff.1 hy])
    refine ⟨h1.trans ?_, h2, fun m hm => ?_⟩
    · refine ((hp.append_left kept).subperm).trans (List.Sublist.subperm ?_)
      exact List.Sublist.append_left (List.sublist_cons_self x l) kept
    · have key : ∀ m ∈ kept ++ l, ∃ d ∈ sqMinimizeLoop kept (takeLast l), d ⊆ m := fun m hm =>
        h3 m ((hp.append_left kept).mem_iff.2 hm)
      rcases List.mem_append.1 hm with hm | hm
      · exact key m (by simp [hm])
      · rcases List.mem_cons.1 hm with rfl | hm
        · obtain ⟨d, hd, hs⟩ := List.any_eq_true.1 hany
          obtain ⟨d', hd', hs'⟩ := key d hd
          exact ⟨d', hd', hs'.trans (by simpa using hs)⟩
        · exact key m (by simp [hm])
  | case3 kept x l hany ih =>
    rw [sqMinimizeLoop, if_neg hany]
    have hany' : ∀ d ∈ kept ++ l, ¬ d ⊆ x := fun d hd hs => hany (List.any_eq_true.2 ⟨d, hd, by simpa using hs⟩)
    have hk2 : Antichain (kept ++ [x]) := by
      unfold Antichain
      rw [List.pairwise_append]
      refine ⟨hk, List.pairwise_singleton _ _, fun a ha b hb => ?_⟩
      rw [List.mem_singleton.1 hb]
      exact ⟨hany' a (by simp [ha]), hkl a ha x (by simp)⟩
    obtain ⟨h1, h2, h3⟩ := ih hk2 fun k hk' y hy => by
      rcases List.mem_append.1 hk' with hk' | hk'
      · exact hkl k hk' y (by simp [hy])
      · rw [List.mem_singleton.1 hk']
        exact hany' y (by simp [hy])
    rw [List.append_assoc, List.singleton_append] at h1 h3
    exact ⟨h1, h2, h3⟩

theorem sqMinimize_spec (l : List SqTerm) :
    (sqMinimize l).Subperm l ∧ Antichain (sqMinimize l) ∧ ∀ m ∈ l, ∃ d ∈ sqMinimize l, d ⊆ m := by
  have := sqMinimizeLoop_spec [] l List.Pairwise.nil (by simp)
  simpa [sqMinimize] using this

theorem rsfPartition_spec (p : SqTerm → Bool) (l : List SqTerm) :
    ((rsfPartition p l).1 ++ (rsfPartition p l).2).Perm l ∧ (∀ x ∈ (rsfPartition p l).1, p x = true) ∧
      ∀ x ∈ (rsfPartition p l).2, p x = false := by
  induction l using rsfPartition.induct (p := p) with
  | case1 => simp [rsfPartition]
  | case2 x l hp ih =>
    rw [rsfPartition, if_pos hp]
    obtain ⟨h1, h2, h3⟩ := ih
    refine ⟨by simpa using h1, ?_, h3⟩
    intro y hy
    rcases List.mem_cons.1 hy with rfl | hy
    · exact hp
    · exact h2 y hy
  | case3 x l hp h =>
    rw [rsfPartition, if_neg hp]
    split
    · refine ⟨by simp, by simp, ?_⟩
      intro y hy
      rcases List.mem_cons.1 hy with rfl | hy
      · simpa using hp
      · simpa using List.dropWhile_eq_nil_iff.1 h y (by simpa using hy)
    · rename_i h'
      rw [h] at h'
      cases h'
  | case4 x l hp y before h ih =>
    rw [rsfPartition, if_neg hp]
    split
    · rename_i h'
      rw [h] at h'
      cases h'
    · rename_i y' before' h'
      rw [h] at h'
      injection h' with e1 e2
      subst e1 e2
      obtain ⟨h1, h2, h3⟩ := ih
      have hl : l = before.reverse ++ y :: (l.reverse.takeWhile fun y => !p y).reverse := by
        have := List.takeWhile_append_dropWhile (p := fun y => !p y) (l := l.reverse)
        rw [h] at this
        have := congrArg List.reverse this
        simp only [List.reverse_append, List.reverse_cons, List.reverse_reverse] at this
        rw [List.append_assoc, List.singleton_append] at this
        exact this.symm
      have htail : ∀ z ∈ (l.reverse.takeWhile fun y => !p y).reverse, p z = false := fun z hz => by
        simpa using List.mem_takeWhile_imp (List.mem_reverse.1 hz)
      have hy : p y = true := by
        have := List.head_dropWhile_not (fun y => !p y) (l := l.reverse) (by rw [h]; simp)
        simpa [h] using this
      generalize (l.reverse.takeWhile fun y => !p y).reverse = tail at *
      refine ⟨?_, ?_, ?_⟩
      · simp only [List.cons_append]
        rw [hl, ← List.append_assoc]
        refine List.Perm.trans (List.Perm.cons y (h1.append_right _)) ?_
        refine List.Perm.trans ?_ (List.Perm.cons x List.perm_middle.symm)
        refine List.Perm.trans (List.Perm.cons y List.perm_middle) ?_
        exact List.Perm.swap _ _ _
      · intro z hz
        rcases List.mem_cons.1 hz with rfl | hz
        · exact hy
        · exact h2 z hz
      · intro z hz
        rcases List.mem_append.1 hz with hz | hz
        · exact h3 z hz
        · rcases List.mem_cons.1 hz with rfl | hz
          · simpa using hp
          · exact htail z hz

/-- A list consists of minimal elements of another, without repetition, and has all of them. -/
structure Minimizes (r m : List SqTerm) : Prop where
  sub : r.Subperm m
  anti : Antichain r
  cov : ∀ g ∈ m, ∃ x ∈ r, x ⊆ g

theorem Minimizes.perm_right {r m m' : List SqTerm} (h : Minimizes r m) (p : m.Perm m') : Minimizes r m' :=
  ⟨h.sub.trans p.subperm, h.anti, fun g hg => h.cov g (p.mem_iff.2 hg)⟩

theorem Minimizes.perm_of_length {r m : List SqTerm} (h : Minimizes r m) (hl : r.length = m.length) : r.Perm m :=
  h.sub.perm_of_length_le hl.ge

theorem sqMinimize_minimizes (l : List SqTerm) : Minimizes (sqMinimize l) l :=
  ⟨(sqMinimize_spec l).1, (sqMinimize_spec l).2.1, (sqMinimize_spec l).2.2⟩

theorem colonVarLoop_spec (low kept l : List SqTerm) :
    (colonVarLoop low kept l).Perm (kept ++ l.filter fun g => !low.any fun d => d ⊆ g) := by
  induction kept, l using colonVarLoop.induct (low := low) with
  | case1 kept => rw [colonVarLoop]; simp
  | case2 kept x l hany ih =>
    rw [colonVarLoop, if_pos hany]
    refine ih.trans (List.Perm.append_left kept ?_)
    rw [List.filter_cons, if_neg (by simp [hany])]
    exact (takeLast_perm l).filter _
  | case3 kept x l hany ih =>
    rw [colonVarLoop, if_neg hany]
    refine ih.trans ?_
    rw [List.filter_cons, if_pos (by simpa using hany), List.append_assoc, List.singleton_append]

/-- Minimal elements of two ranges, the second of which has no element that divides one of the first. -/
theorem minimizes_append {low low0 high : List SqTerm} (h0 : Minimizes low low0) (hh : Antichain high)
    (hd : ∀ g ∈ high, ∀ d ∈ low0, ¬ g ⊆ d) :
    Minimizes (low ++ high.filter fun g => !low.any fun d => d ⊆ g) (low0 ++ high) := by
  have hf : ∀ g ∈ high.filter (fun g => !low.any fun d => d ⊆ g), g ∈ high ∧ ∀ d ∈ low, ¬ d ⊆ g := by
    intro g hg
    obtain ⟨h1, h2⟩ := List.mem_filter.1 hg
    refine ⟨h1, fun d hd hs => ?_⟩
    simp only [Bool.not_eq_true', List.any_eq_false] at h2
    exact h2 d hd (by simpa using hs)
  refine ⟨h0.sub.append List.filter_sublist.subperm, ?_, ?_⟩
  · unfold Antichain
    rw [List.pairwise_append]
    refine ⟨h0.anti, List.Pairwise.sublist List.filter_sublist hh, fun a ha b hb => ?_⟩
    obtain ⟨h1, h2⟩ := hf b hb
    exact ⟨h2 a ha, hd b h1 a (h0.sub.subset ha)⟩
  · intro g hg
    rcases List.mem_append.1 hg with hg | hg
    · obtain ⟨x, hx, hs⟩ := h0.cov g hg
      exact ⟨x, by simp [hx], hs⟩
    · by_cases h : low.any fun d => d ⊆ g
      · obtain ⟨d, hd, hs⟩ := List.any_eq_true.1 h
        exact ⟨d, by simp [hd], by simpa using hs⟩
      · exact ⟨g, List.mem_append_right _ (List.mem_filter.2 ⟨hg, by simpa using h⟩), fun _ h => h⟩

theorem antichain_append {a b : List SqTerm} (h : Antichain (a ++ b)) :
    Antichain a ∧ Antichain b ∧ ∀ x ∈ a, ∀ y ∈ b, Incomp x y := List.pairwise_append.1 h

theorem sqColonReminimizeVar_spec {I : SqIdeal} (h : Antichain I.gens) (v : ℕ) :
    (I.colonReminimizeVar v).varCount = I.varCount ∧
      Minimizes (I.colonReminimizeVar v).gens (I.gens.map fun g => g.erase v) := by
  obtain ⟨h1, h2, h3⟩ := rsfPartition_spec (fun g => decide (v ∈ g)) I.gens
  unfold SqIdeal.colonReminimizeVar
  generalize rsfPartition (fun g => decide (v ∈ g)) I.gens = parts at *
  obtain ⟨a, b⟩ := parts
  simp only [decide_eq_true_eq, decide_eq_false_iff_not] at h1 h2 h3 ⊢
  obtain ⟨ha, hb, hab⟩ := antichain_append (h.perm h1.symm)
  have hbmap : b.map (fun g => g.erase v) = b := by
    conv_rhs => rw [← List.map_id b]
    exact List.map_congr_left fun g hg => Finset.erase_eq_of_notMem (h3 g hg)
  have hmap : (a.map (fun g => g.erase v) ++ b).Perm (I.gens.map fun g => g.erase v) := by
    have := h1.map fun g => g.erase v
    rwa [List.map_append, hbmap] at this
  have hlow : Antichain (a.map fun g => g.erase v) := by
    unfold Antichain
    rw [List.pairwise_map]
    refine List.Pairwise.imp_of_mem (fun {x y} hx hy hxy => ⟨fun hs => hxy.1 ?_, fun hs => hxy.2 ?_⟩) ha
    · rw [← Finset.insert_erase (h2 x hx), ← Finset.insert_erase (h2 y hy)]
      exact Finset.insert_subset_insert v hs
    · rw [← Finset.insert_erase (h2 x hx), ← Finset.insert_erase (h2 y hy)]
      exact Finset.insert_subset_insert v hs
  have hlow' : Minimizes (a.map fun g => g.erase v) (a.map fun g => g.erase v) :=
    ⟨(List.Perm.refl _).subperm, hlow, fun g hg => ⟨g, hg, fun _ h => h⟩⟩
  have hfin := minimizes_append hlow' hb (fun g hg d hd => by
    obtain ⟨x, hx, rfl⟩ := List.mem_map.1 hd
    exact fun hs => (hab x hx g hg).2 (hs.trans (Finset.erase_subset v x)))
  split
  · rename_i ha0
    subst ha0
    refine ⟨rfl, ?_⟩
    have := hfin.perm_right hmap
    simpa using this
  · split
    · rename_i hb0
      subst hb0
      refine ⟨rfl, ?_⟩
      have := hfin.perm_right hmap
      simpa using this
    · refine ⟨rfl, ?_⟩
      have hp := colonVarLoop_spec (a.map fun g => g.erase v) [] b
      rw [List.nil_append] at hp
      have hp2 := hp.append_left (a.map fun g => g.erase v)
      have := hfin.perm_right hmap
      exact ⟨hp2.subperm.trans this.sub, this.anti.perm hp2.symm, fun g hg => by
        obtain ⟨x, hx, hs⟩ := this.cov g hg
        exact ⟨x, hp2.mem_iff.2 hx, hs⟩⟩

theorem colonReminimize_spec {I : SqIdeal} (h : Antichain I.gens) (p : SqTerm) :
    (I.colonReminimize p).varCount = I.varCount ∧
      Minimizes (I.colonReminimize p).gens (I.gens.map fun g => g \ p) := by
  obtain ⟨h1, h2, h3⟩ := rsfPartition_spec (fun g => !decide (Disjoint p g)) I.gens
  unfold SqIdeal.colonReminimize
  generalize rsfPartition (fun g => !decide (Disjoint p g)) I.gens = parts at *
  obtain ⟨a, b⟩ := parts
  simp only [Bool.not_eq_true', decide_eq_false_iff_not, Bool.not_eq_false', decide_eq_true_eq] at h1 h2 h3 ⊢
  obtain ⟨ha, hb, hab⟩ := antichain_append (h.perm h1.symm)
  have hbmap : b.map (fun g => g \ p) = b := by
    conv_rhs => rw [← List.map_id b]
    exact List.map_congr_left fun g hg => Finset.sdiff_eq_self_of_disjoint (h3 g hg).symm
  have hmap : (a.map (fun g => g \ p) ++ b).Perm (I.gens.map fun g => g \ p) := by
    have := h1.map fun g => g \ p
    rwa [List.map_append, hbmap] at this
  have hfin := (minimizes_append (sqMinimize_minimizes (a.map fun g => g \ p)) hb (fun g hg d hd => by
    obtain ⟨x, hx, rfl⟩ := List.mem_map.1 hd
    exact fun hs => (hab x hx g hg).2 (hs.trans Finset.sdiff_subset))).perm_right hmap
  split
  · rename_i ha0
    subst ha0
    refine ⟨rfl, ?_⟩
    have e : sqMinimize [] = [] := by rw [sqMinimize, sqMinimizeLoop]
    simpa [e] using hfin
  · exact ⟨rfl, hfin⟩

theorem removeGenerator_perm {I : SqIdeal} {i : ℕ} (h : i < I.gens.length) :
    I.gens.Perm (I.gens[i] :: (I.removeGenerator i).gens) := by
  obtain ⟨V, l⟩ := I
  simp only [SqIdeal.removeGenerator]
  simp only at h
  induction l using List.reverseRecOn with
  | nil => simp at h
  | append_singleton l x _ =>
    have hl : (l ++ [x]).getLastD ∅ = x := by simp
    rw [hl]
    by_cases hi : i < l.length
    · rw [List.set_append_left _ _ hi, List.dropLast_concat, List.getElem_append_left hi]
      refine (List.perm_append_singleton x l).trans ?_
      rw [List.set_eq_take_append_cons_drop, if_pos hi]
      have : l = l.take i ++ l[i] :: l.drop (i + 1) := by
        rw [List.getElem_cons_drop, List.take_append_drop]
      conv_lhs => rw [this]
      refine (List.Perm.cons x List.perm_middle).trans ?_
      refine (List.Perm.swap _ _ _).trans ?_
      exact List.Perm.cons _ List.perm_middle.symm
    · have hi' : i = l.length := by simp at h; omega
      subst hi'
      rw [List.set_append_right _ _ (le_refl _)]
      simp

theorem mem_unionAll {l : List SqTerm} {v : ℕ} : v ∈ unionAll l ↔ ∃ g ∈ l, v ∈ g := by
  have : ∀ (l : List SqTerm) (a : SqTerm), v ∈ l.foldl (· ∪ ·) a ↔ v ∈ a ∨ ∃ g ∈ l, v ∈ g := by
    intro l
    induction l with
    | nil => simp
    | cons g l ih =>
      intro a
      rw [List.foldl_cons, ih]
      simp [or_assoc]
  rw [unionAll, this]
  simp

theorem mem_keptVars {V v : ℕ} {r : SqTerm} : v ∈ keptVars V r ↔ v < V ∧ v ∉ r := by
  simp [keptVars]

theorem keptVars_length {V : ℕ} {r : SqTerm} : (keptVars V r).length = (Finset.range V \ r).card := by
  have : (keptVars V r).Nodup := List.Nodup.filter _ List.nodup_range
  rw [← List.toFinset_card_of_nodup this]
  congr 1
  ext v
  simp [mem_keptVars]

end Frobby

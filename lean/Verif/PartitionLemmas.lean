import Verif.PartitionModel
import Verif.IndepLemmas
import Mathlib.Logic.Relation

/-!
# The stored partition behaves like `UF`
-/

namespace Frobby

variable {n : ℕ}

/-- The array stores the partition `p`. `rank` is a bound for the length of the path to the root. -/
structure RepA (arr : Fin n → ℤ) (p : UF n) (rank : Fin n → ℕ) : Prop where
  idem : ∀ i, p.root (p.root i) = p.root i
  root : ∀ i, p.root i = i → arr i = -(p.wt i : ℤ) ∧ 0 < p.wt i ∧ rank i = 0
  link : ∀ i, p.root i ≠ i → ∃ j : Fin n, arr i = (j.val : ℤ) ∧ p.root j = p.root i ∧ rank j < rank i

theorem getRootAux_spec {p : UF n} {rank : Fin n → ℕ} : ∀ (fuel : ℕ) (arr : Fin n → ℤ) (i : Fin n), RepA arr p rank →
    rank i < fuel → ∃ arr', Part.getRootAux fuel arr i = some (p.root i, arr') ∧ RepA arr' p rank := by
  intro fuel
  induction fuel with
  | zero => intro arr i _ h; omega
  | succ fuel ih =>
    intro arr i hr hf
    unfold Part.getRootAux
    by_cases hi : p.root i = i
    · obtain ⟨h1, h2, h3⟩ := hr.root i hi
      rw [if_neg (by rw [h1]; omega)]
      exact ⟨arr, by rw [hi], hr⟩
    · obtain ⟨j, h1, h2, h3⟩ := hr.link i hi
      rw [if_pos (by rw [h1]; omega)]
      have h4 : (arr i).toNat = j.val := by rw [h1]; simp
      have h5 : (arr i).toNat < n := by rw [h4]; exact j.isLt
      rw [dif_pos h5]
      have h6 : (⟨(arr i).toNat, h5⟩ : Fin n) = j := Fin.ext h4
      rw [h6]
      obtain ⟨arr', h7, h8⟩ := ih arr j hr (by omega)
      rw [h7, h2]
      refine ⟨_, rfl, h8.idem, fun x hx => ?_, fun x hx => ?_⟩
      · have hne : x ≠ i := fun e => hi (e ▸ hx)
        rw [Function.update_of_ne hne]; exact h8.root x hx
      · by_cases hxi : x = i
        · subst hxi
          refine ⟨p.root x, by simp, hr.idem x, ?_⟩
          have := (hr.root _ (hr.idem x)).2.2
          omega
        · rw [Function.update_of_ne hxi]; exact h8.link x hx

/-- The fields store the partition `p`; the paths are no longer than the number of joins. -/
structure Rep (P : Part n) (p : UF n) : Prop where
  count : P.count = p.count
  wf : p.WF
  ex : ∃ rank, RepA P.arr p rank ∧ ∀ i, rank i + p.count ≤ n

theorem count_pos {p : UF n} (h : p.WF) (i : Fin n) : 0 < p.count := by
  rw [h.count]
  exact List.length_pos_of_mem (UF.mem_roots.2 (h.idem i))

theorem getRoot_spec {P : Part n} {p : UF n} (h : Rep P p) (i : Fin n) :
    ∃ P', P.getRoot i = some (p.root i, P') ∧ Rep P' p := by
  obtain ⟨rank, h1, h2⟩ := h.ex
  have := count_pos h.wf i
  have := h2 i
  obtain ⟨arr', h3, h4⟩ := getRootAux_spec n P.arr i h1 (by omega)
  exact ⟨{ P with arr := arr' }, by simp only [Part.getRoot, h3], h.count, h.wf, rank, h4, h2⟩

theorem reset_rep : Rep (Part.reset n) (UF.init n) :=
  ⟨rfl, UF.init_wf, fun _ => 0, ⟨fun _ => rfl, fun i _ => ⟨by simp [Part.reset, UF.init], by simp [UF.init], rfl⟩,
    fun i h => absurd rfl h⟩, fun i => by simp [UF.init]⟩

theorem join_rep {P : Part n} {p : UF n} (h : Rep P p) (i j : Fin n) :
    ∃ P', P.join i j = some (decide (p.root i ≠ p.root j), P') ∧ Rep P' (p.join i j) := by
  obtain ⟨P1, h1, h2⟩ := getRoot_spec h i
  obtain ⟨P2, h3, h4⟩ := getRoot_spec h2 j
  simp only [Part.join, h1, h3]
  by_cases he : p.root i = p.root j
  · rw [if_pos he, UF.join_eq he]
    exact ⟨P2, by simp [he], h4⟩
  · rw [if_neg he]
    refine ⟨⟨Function.update (Function.update P2.arr (p.root i) (P2.arr (p.root i) + (P2.arr (p.root j) + 1)))
      (p.root j) ((p.root i).val : ℤ), P2.count - 1⟩, by simp [he], ?_, UF.join_wf h.wf i j, ?_⟩
    · simp only [UF.join, he, if_false, h4.count]
    · obtain ⟨rank, h5, h6⟩ := h4.ex
      obtain ⟨w1, w2, w3⟩ := h5.root _ (h5.idem i)
      obtain ⟨v1, v2, v3⟩ := h5.root _ (h5.idem j)
      have hwf := UF.join_wf h.wf i j
      refine ⟨fun x => if p.root x = p.root j then rank x + 1 else rank x, ⟨hwf.idem, fun x hx => ?_, fun x hx => ?_⟩, fun x => ?_⟩
      · obtain ⟨hx1, hx2⟩ := (UF.join_isRoot h.wf he x).1 hx
        have hxr : ¬ p.root x = p.root j := by rw [hx1]; exact hx2
        simp only [Function.update_of_ne hx2]
        have hwt : (p.join i j).wt = Function.update p.wt (p.root i) (p.wt (p.root i) + p.wt (p.root j) - 1) := by
          simp [UF.join, he]
        rw [hwt, if_neg hxr]
        by_cases hxi : x = p.root i
        · subst hxi
          rw [Function.update_self, Function.update_self, w1, v1]
          exact ⟨by omega, by omega, w3⟩
        · rw [Function.update_of_ne hxi, Function.update_of_ne hxi]
          exact h5.root x hx1
      · by_cases hxj : x = p.root j
        · subst hxj
          refine ⟨p.root i, by simp, ?_, ?_⟩
          · rw [UF.join_root he, UF.join_root he, h5.idem, h5.idem]; simp [he]
          · simp only [h5.idem, if_neg he, if_true]; omega
        · have hx1 : p.root x ≠ x := fun hc => hx ((UF.join_isRoot h.wf he x).2 ⟨hc, hxj⟩)
          obtain ⟨y, y1, y2, y3⟩ := h5.link x hx1
          have hxi : x ≠ p.root i := fun hc => hx1 (by rw [hc]; exact h5.idem i)
          simp only [Function.update_of_ne hxj, Function.update_of_ne hxi]
          refine ⟨y, y1, ?_, ?_⟩
          · rw [UF.join_root he, UF.join_root he, y2]
          · rw [y2]; split <;> omega
      · have := h6 x
        have hc : (p.join i j).count = p.count - 1 := by simp [UF.join, he]
        have hpos := count_pos h.wf i
        rw [hc]
        simp only
        split <;> omega

theorem addToSet_rep {P : Part n} {p : UF n} (h : Rep P p) (i : Fin n) :
    ∃ P', P.addToSet i = some P' ∧ Rep P' (p.addToSet i) := by
  obtain ⟨P1, h1, h2⟩ := getRoot_spec h i
  simp only [Part.addToSet, h1]
  obtain ⟨rank, h3, h4⟩ := h2.ex
  refine ⟨_, rfl, h2.count, ⟨h.wf.idem, h.wf.count⟩, rank, ⟨h.wf.idem, fun x hx => ?_, fun x hx => ?_⟩, h4⟩
  · obtain ⟨r1, r2, r3⟩ := h3.root x hx
    simp only [UF.addToSet]
    by_cases hxi : x = p.root i
    · subst hxi
      rw [Function.update_self, Function.update_self, r1]
      exact ⟨by omega, by omega, r3⟩
    · rw [Function.update_of_ne hxi, Function.update_of_ne hxi]; exact ⟨r1, r2, r3⟩
  · have hxi : x ≠ p.root i := fun hc => hx (by
      show p.root x = x
      rw [hc]; exact h.wf.idem i)
    simp only [Function.update_of_ne hxi]
    exact h3.link x hx

theorem sizeOfClassOf_rep {P : Part n} {p : UF n} (h : Rep P p) (i : Fin n) :
    ∃ P', P.getSizeOfClassOf i = some (p.sizeOfClassOf i, P') ∧ Rep P' p := by
  obtain ⟨P1, h1, h2⟩ := getRoot_spec h i
  obtain ⟨rank, h3, _⟩ := h2.ex
  obtain ⟨r1, r2, r3⟩ := h3.root _ (h.wf.idem i)
  simp only [Part.getSizeOfClassOf, h1, UF.sizeOfClassOf, r1]
  rw [if_pos (by omega)]
  exact ⟨P1, by simp, h2⟩

theorem setSize_aux {p : UF n} : ∀ (l : List (Fin n)) (k : ℕ) (P : Part n), Rep P p →
    ∃ P', Part.getSetSizeAux l k P = some
      ((match (l.filter fun i => decide (p.root i = i))[k]? with | some r => p.wt r - 1 | none => 0), P') ∧ Rep P' p := by
  intro l
  induction l with
  | nil => intro k P h; exact ⟨P, by simp [Part.getSetSizeAux], h⟩
  | cons i l ih =>
    intro k P h
    obtain ⟨P1, h1, h2⟩ := getRoot_spec h i
    obtain ⟨rank, h3, _⟩ := h2.ex
    simp only [Part.getSetSizeAux, h1]
    by_cases hi : p.root i = i
    · rw [if_pos hi.symm, List.filter_cons_of_pos (by simpa using hi)]
      cases k with
      | zero =>
        obtain ⟨r1, r2, r3⟩ := h3.root i hi
        simp only [r1]
        rw [if_pos (by omega)]
        refine ⟨P1, ?_, h2⟩
        simp only [List.getElem?_cons_zero]
        have : (-(-(p.wt i : ℤ) + 1)).toNat = p.wt i - 1 := by omega
        rw [this]
      | succ k =>
        simp only [List.getElem?_cons_succ]
        exact ih k P1 h2
    · rw [if_neg (Ne.symm hi), List.filter_cons_of_neg (by simpa using hi)]
      exact ih k P1 h2

theorem setSize_rep {P : Part n} {p : UF n} (h : Rep P p) (k : ℕ) :
    ∃ P', P.getSetSize k = some (p.setSize k, P') ∧ Rep P' p := setSize_aux _ _ _ h

/-! ## histories -/

/-- One call on the abstract partition. -/
def PartOp.apply (p : UF n) : PartOp n → UF n
  | .join i j => p.join i j
  | .addToSet i => p.addToSet i
  | .getRoot _ => p

theorem run_rep {P : Part n} {p : UF n} (h : Rep P p) (op : PartOp n) : ∃ P', op.run P = some P' ∧ Rep P' (op.apply p) := by
  cases op with
  | join i j =>
    obtain ⟨P', h1, h2⟩ := join_rep h i j
    exact ⟨P', by simp [PartOp.run, h1], h2⟩
  | addToSet i => exact addToSet_rep h i
  | getRoot i =>
    obtain ⟨P', h1, h2⟩ := getRoot_spec h i
    exact ⟨P', by simp [PartOp.run, h1], h2⟩

theorem history_aux : ∀ (ops : List (PartOp n)) (P : Part n) (p : UF n), Rep P p →
    ∃ P', ops.foldlM (fun P op => PartOp.run P op) P = some P' ∧ Rep P' (ops.foldl PartOp.apply p) := by
  intro ops
  induction ops with
  | nil => intro P p h; exact ⟨P, by simp, h⟩
  | cons op ops ih =>
    intro P p h
    obtain ⟨P1, h1, h2⟩ := run_rep h op
    obtain ⟨P2, h3, h4⟩ := ih P1 _ h2
    exact ⟨P2, by simp [h1, h3], h4⟩

/-- The abstract partition after a history. -/
def historyUF (ops : List (PartOp n)) : UF n := ops.foldl PartOp.apply (UF.init n)

theorem history_rep (ops : List (PartOp n)) : ∃ P, Part.history ops = some P ∧ Rep P (historyUF ops) :=
  history_aux ops _ _ reset_rep

/-- The elements given to `addToSet`. -/
def PartOp.added : PartOp n → Option (Fin n)
  | .addToSet i => some i
  | _ => none

theorem historyUF_snoc (ops : List (PartOp n)) (op : PartOp n) :
    historyUF (ops ++ [op]) = op.apply (historyUF ops) := by simp [historyUF]

theorem historyUF_wf (ops : List (PartOp n)) : (historyUF ops).WF := by
  obtain ⟨_, _, h⟩ := history_rep ops
  exact h.wf

theorem historyUF_conn (ops : List (PartOp n)) (i j : Fin n) :
    (historyUF ops).root i = (historyUF ops).root j ↔ Relation.EqvGen (fun a b => PartOp.join a b ∈ ops) i j := by
  induction ops using List.reverseRecOn generalizing i j with
  | nil =>
    simp only [historyUF, List.foldl_nil, UF.init, id, List.not_mem_nil]
    constructor
    · rintro rfl; exact .refl _
    · intro h
      induction h with
      | rel _ _ h => exact h.elim
      | refl => rfl
      | symm _ _ _ ih => exact ih.symm
      | trans _ _ _ _ _ ih1 ih2 => exact ih1.trans ih2
  | append_singleton ops op ih =>
    rw [historyUF_snoc]
    have mono : ∀ a b, Relation.EqvGen (fun a b => PartOp.join a b ∈ ops) a b →
        Relation.EqvGen (fun a b => PartOp.join a b ∈ ops ++ [op]) a b :=
      fun a b h => h.mono fun a b h' => List.mem_append_left _ h'
    constructor
    · intro h
      cases op with
      | addToSet x => exact mono _ _ ((ih i j).1 h)
      | getRoot x => exact mono _ _ ((ih i j).1 h)
      | join a b =>
        simp only [PartOp.apply] at h
        have hab : Relation.EqvGen (fun c d => PartOp.join c d ∈ ops ++ [PartOp.join a b]) a b := .rel _ _ (by simp)
        by_cases he : (historyUF ops).root a = (historyUF ops).root b
        · rw [UF.join_eq he] at h; exact mono _ _ ((ih i j).1 h)
        · rw [UF.join_root he, UF.join_root he] at h
          split at h <;> split at h
          · rename_i h1 h2; exact mono _ _ ((ih i j).1 (h1.trans h2.symm))
          · rename_i h1 h2
            exact .trans _ _ _ (mono _ _ ((ih i b).1 h1)) (.trans _ _ _ hab.symm (mono _ _ ((ih a j).1 h)))
          · rename_i h1 h2
            exact .trans _ _ _ (mono _ _ ((ih i a).1 h)) (.trans _ _ _ hab (mono _ _ ((ih b j).1 h2.symm)))
          · exact mono _ _ ((ih i j).1 h)
    · intro h
      have hle : UF.Le (historyUF ops) (op.apply (historyUF ops)) := by
        cases op with
        | addToSet x => exact fun i j h => h
        | getRoot x => exact UF.Le.refl _
        | join a b => exact UF.join_le _ a b
      induction h with
      | rel a b h =>
        rcases List.mem_append.1 h with h | h
        · exact hle _ _ ((ih a b).2 (.rel _ _ h))
        · simp only [List.mem_singleton] at h
          subst h
          exact UF.join_same a b
      | refl => rfl
      | symm _ _ _ ih => exact ih.symm
      | trans _ _ _ _ _ ih1 ih2 => exact ih1.trans ih2

/-- The number of elements given to `addToSet` whose root is `r`. -/
def addCount (p : UF n) (ops : List (PartOp n)) (r : Fin n) : ℕ :=
  (ops.filterMap PartOp.added).countP fun x => decide (p.root x = r)

theorem historyUF_wt (ops : List (PartOp n)) (r : Fin n) (hr : (historyUF ops).root r = r) :
    (historyUF ops).wt r = 1 + addCount (historyUF ops) ops r := by
  induction ops using List.reverseRecOn generalizing r with
  | nil => simp [historyUF, UF.init, addCount]
  | append_singleton ops op ih =>
    rw [historyUF_snoc] at hr ⊢
    have hwf := historyUF_wf ops
    cases op with
    | getRoot x =>
      simp only [PartOp.apply] at hr ⊢
      rw [ih r hr]
      simp [addCount, PartOp.added]
    | addToSet x =>
      simp only [PartOp.apply, UF.addToSet] at hr ⊢
      simp only [addCount, List.filterMap_append, List.countP_append, PartOp.added, List.filterMap_cons, List.filterMap_nil,
        List.countP_cons, List.countP_nil]
      by_cases hx : r = (historyUF ops).root x
      · subst hx
        rw [Function.update_self, ih _ hr]
        simp [addCount]; omega
      · rw [Function.update_of_ne hx, ih r hr]
        simp [addCount, Ne.symm hx]
    | join a b =>
      simp only [PartOp.apply] at hr ⊢
      have hops : (ops ++ [PartOp.join a b]).filterMap PartOp.added = ops.filterMap PartOp.added := by simp [PartOp.added]
      simp only [addCount, hops]
      by_cases he : (historyUF ops).root a = (historyUF ops).root b
      · rw [UF.join_eq he] at hr ⊢; exact ih r hr
      obtain ⟨hr1, hr2⟩ := (UF.join_isRoot hwf he r).1 hr
      have hwt : ((historyUF ops).join a b).wt = Function.update (historyUF ops).wt ((historyUF ops).root a)
          ((historyUF ops).wt ((historyUF ops).root a) + (historyUF ops).wt ((historyUF ops).root b) - 1) := by
        simp [UF.join, he]
      rw [hwt]
      by_cases hra : r = (historyUF ops).root a
      · subst hra
        rw [Function.update_self, ih _ hr1, ih _ (hwf.idem b)]
        have key : ∀ l : List (Fin n), l.countP (fun x => decide (((historyUF ops).join a b).root x = (historyUF ops).root a)) =
            l.countP (fun x => decide ((historyUF ops).root x = (historyUF ops).root a)) +
            l.countP (fun x => decide ((historyUF ops).root x = (historyUF ops).root b)) := by
          intro l
          induction l with
          | nil => rfl
          | cons x l ihl =>
            rw [List.countP_cons, List.countP_cons, List.countP_cons, ihl, UF.join_root he]
            by_cases h1 : (historyUF ops).root x = (historyUF ops).root b
            · have h2 : ¬ (historyUF ops).root x = (historyUF ops).root a := fun h => he (h.symm.trans h1)
              simp [h1, Ne.symm he]; omega
            · by_cases h2 : (historyUF ops).root x = (historyUF ops).root a
              · simp [h2, he]; omega
              · simp [h1, h2]
        rw [key]
        simp only [addCount]; omega
      · rw [Function.update_of_ne hra, ih r hr1]
        congr 1
        refine List.countP_congr fun x _ => ?_
        simp only [decide_eq_true_eq]
        rw [UF.join_root he]
        split
        · rename_i h1
          rw [h1]
          exact ⟨fun h2 => absurd h2.symm hr2, fun h2 => absurd h2.symm hra⟩
        · exact Iff.rfl

end Frobby

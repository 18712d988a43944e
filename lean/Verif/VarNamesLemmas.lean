import Verif.VarNamesModel
import Mathlib.Data.List.Nodup

/-!
# `VarNames` behaves like a list of different names
-/

namespace Frobby

namespace VarNames

theorem idxOf?_getElem {L : List Text} (hL : L.Nodup) {i : ℕ} (hi : i < L.length) : L.idxOf? L[i] = some i := by
  unfold List.idxOf?
  rw [List.findIdx?_eq_some_iff_getElem]
  refine ⟨hi, by simp, fun j hj => ?_⟩
  have : L[j] ≠ L[i] := fun he => by
    have := (List.Nodup.getElem_inj_iff hL).1 he
    omega
  simpa using this

/-- The object stands for the list of names, and its nodes have addresses below `next`. -/
structure Rep (next : ℕ) (V : VarNames) (L : List Text) : Prop where
  len : V.ptrs.length = L.length
  nodup : L.Nodup
  ptrs : V.ptrs.Nodup
  node : ∀ i (h : i < L.length), ⟨V.ptrs[i]'(by omega), L[i], i⟩ ∈ V.nodes
  back : ∀ x ∈ V.nodes, ∃ h : x.index < L.length, V.ptrs[x.index]'(by omega) = x.addr ∧ L[x.index] = x.name
  fresh : ∀ x ∈ V.nodes, x.addr < next

variable {next : ℕ} {V : VarNames} {L : List Text}

theorem Rep.mono {next' : ℕ} (h : Rep next V L) (hle : next ≤ next') : Rep next' V L :=
  { h with fresh := fun x hx => (h.fresh x hx).trans_le hle }

theorem Rep.empty (next : ℕ) : Rep next .empty [] where
  len := rfl
  nodup := List.nodup_nil
  ptrs := List.nodup_nil
  node := fun i h => absurd h (by simp)
  back := fun x hx => by simp [VarNames.empty] at hx
  fresh := fun x hx => by simp [VarNames.empty] at hx

theorem Rep.count (h : Rep next V L) : V.count = L.length := h.len

/-- Nodes with the same address are equal. -/
theorem Rep.eq_of_addr (h : Rep next V L) {x y : NameNode} (hx : x ∈ V.nodes) (hy : y ∈ V.nodes) (he : x.addr = y.addr) :
    x = y := by
  obtain ⟨hx1, hx2, hx3⟩ := h.back x hx
  obtain ⟨hy1, hy2, hy3⟩ := h.back y hy
  have hi : x.index = y.index := by
    rw [← hx2, ← hy2] at he
    exact (List.Nodup.getElem_inj_iff h.ptrs).1 he
  cases x; cases y
  simp only at *
  subst hi
  subst he
  rw [hx3] at hy3
  subst hy3
  rfl

/-- Nodes with the same name are equal. -/
theorem Rep.eq_of_name (h : Rep next V L) {x y : NameNode} (hx : x ∈ V.nodes) (hy : y ∈ V.nodes) (he : x.name = y.name) :
    x = y := by
  refine h.eq_of_addr hx hy ?_
  obtain ⟨hx1, hx2, hx3⟩ := h.back x hx
  obtain ⟨hy1, hy2, hy3⟩ := h.back y hy
  have hi : x.index = y.index := by
    rw [← hx3, ← hy3] at he
    exact (List.Nodup.getElem_inj_iff h.nodup).1 he
  rw [← hx2, ← hy2]
  simp only [hi]

theorem Rep.find_addr (h : Rep next V L) (i : ℕ) (hi : i < L.length) :
    (V.nodes.find? fun x => decide (x.addr = V.ptrs[i]'(by rw [h.len]; exact hi))) =
      some ⟨V.ptrs[i]'(by rw [h.len]; exact hi), L[i], i⟩ := by
  have hn := h.node i hi
  match hf : V.nodes.find? fun x => decide (x.addr = V.ptrs[i]'(by rw [h.len]; exact hi)) with
  | none =>
    have := List.find?_eq_none.1 hf _ hn
    simp at this
  | some x =>
    have hx1 := List.mem_of_find?_eq_some hf
    have hx2 : x.addr = V.ptrs[i]'(by rw [h.len]; exact hi) := by simpa using List.find?_some hf
    rw [hf, h.eq_of_addr hx1 hn hx2]

theorem Rep.getName (h : Rep next V L) (i : ℕ) : V.getName i = L[i]? := by
  unfold VarNames.getName
  by_cases hi : i < L.length
  · rw [List.getElem?_eq_getElem (by rw [h.len]; exact hi), List.getElem?_eq_getElem hi]
    simp only [h.find_addr i hi, Option.map_some]
  · rw [List.getElem?_eq_none (by rw [h.len]; omega), List.getElem?_eq_none (by omega)]

theorem Rep.getIndex (h : Rep next V L) (name : Text) : V.getIndex name = L.idxOf? name := by
  unfold VarNames.getIndex
  match hf : V.nodes.find? fun x => decide (x.name = name) with
  | none =>
    rw [hf, eq_comm, Option.map_none, List.idxOf?_eq_none_iff]
    intro hmem
    obtain ⟨i, hi, rfl⟩ := List.mem_iff_getElem.1 hmem
    have := List.find?_eq_none.1 hf _ (h.node i hi)
    simp at this
  | some x =>
    have hx1 := List.mem_of_find?_eq_some hf
    have hx2 : x.name = name := by simpa using List.find?_some hf
    obtain ⟨hx3, _, hx4⟩ := h.back x hx1
    rw [hx2] at hx4
    rw [hf, Option.map_some, eq_comm, ← hx4, idxOf?_getElem h.nodup]

theorem Rep.any (h : Rep next V L) (name : Text) : (V.nodes.any fun x => decide (x.name = name)) = decide (name ∈ L) := by
  rw [Bool.eq_iff_iff, List.any_eq_true, decide_eq_true_iff]
  constructor
  · rintro ⟨x, hx, he⟩
    obtain ⟨h1, _, h2⟩ := h.back x hx
    rw [← of_decide_eq_true he, ← h2]
    exact List.getElem_mem _
  · intro hmem
    obtain ⟨i, hi, rfl⟩ := List.mem_iff_getElem.1 hmem
    exact ⟨_, h.node i hi, by simp⟩

/-- Adding a name to a list if it is new. -/
def addName (L : List Text) (name : Text) : List Text := if name ∈ L then L else L ++ [name]

theorem Rep.addVar (h : Rep next V L) (name : Text) :
    (V.addVar next name).1 = decide (name ∉ L) ∧ Rep (V.addVar next name).2.2 (V.addVar next name).2.1 (addName L name) ∧
      next ≤ (V.addVar next name).2.2 := by
  unfold VarNames.addVar addName
  rw [h.any]
  by_cases hm : name ∈ L
  · simp only [hm, decide_true, if_true, not_true, decide_false]
    exact ⟨trivial, h, le_refl _⟩
  · simp only [hm, decide_false, if_false, not_false_eq_true, decide_true, Bool.false_eq_true]
    refine ⟨trivial, ⟨?_, ?_, ?_, ?_, ?_, ?_⟩, Nat.le_succ _⟩
    · simp [h.len]
    · rw [List.nodup_append]
      exact ⟨h.nodup, by simp, fun a ha b hb => by simp only [List.mem_singleton] at hb; rintro rfl; exact hm (hb ▸ ha)⟩
    · rw [List.nodup_append]
      refine ⟨h.ptrs, by simp, fun a ha b hb => ?_⟩
      simp only [List.mem_singleton] at hb
      rintro rfl
      obtain ⟨i, hi, rfl⟩ := List.mem_iff_getElem.1 ha
      have := h.fresh _ (h.node i (by rw [← h.len]; exact hi))
      simp only at this
      omega
    · intro i hi
      simp only [List.length_append, List.length_cons, List.length_nil] at hi
      by_cases hlt : i < L.length
      · have := h.node i hlt
        have hp : i < V.ptrs.length := by rw [h.len]; exact hlt
        simp only [List.getElem_append_left hlt, List.getElem_append_left hp]
        exact List.mem_append_left _ this
      · have he : i = L.length := by omega
        subst he
        refine List.mem_append_right _ ?_
        simp [h.len]
    · intro x hx
      rcases List.mem_append.1 hx with hx | hx
      · obtain ⟨h1, h2, h3⟩ := h.back x hx
        have hp : x.index < V.ptrs.length := by rw [h.len]; exact h1
        refine ⟨by simp; omega, ?_, ?_⟩
        · simp only [List.getElem_append_left hp]; exact h2
        · simp only [List.getElem_append_left h1]; exact h3
      · simp only [List.mem_singleton] at hx
        subst hx
        refine ⟨by simp [h.len], ?_, ?_⟩
        · simp
        · simp [h.len]
    · intro x hx
      rcases List.mem_append.1 hx with hx | hx
      · exact (h.fresh x hx).trans (Nat.lt_succ_self _)
      · simp only [List.mem_singleton] at hx
        subst hx
        exact Nat.lt_succ_self _

theorem Rep.addVars : ∀ (M : List Text) {next : ℕ} {V : VarNames} {L : List Text}, Rep next V L →
    Rep (VarNames.addVars next V M).2 (VarNames.addVars next V M).1 (M.foldl addName L) ∧ next ≤ (VarNames.addVars next V M).2
  | [], _, _, _, h => ⟨h, le_refl _⟩
  | name :: M, _, _, _, h => by
    obtain ⟨_, h1, h2⟩ := h.addVar name
    obtain ⟨h3, h4⟩ := Rep.addVars M h1
    exact ⟨h3, h2.trans h4⟩

theorem foldl_addName {M : List Text} : ∀ {L : List Text}, (L ++ M).Nodup → M.foldl addName L = L ++ M := by
  induction M with
  | nil => intro L _; simp
  | cons a M ih =>
    intro L h
    have ha : a ∉ L := fun hm => by
      rw [List.nodup_append] at h
      exact h.2.2 a hm a (by simp) rfl
    rw [List.foldl_cons, addName, if_neg ha, ih (by simpa using h)]
    simp

/-- Adding different names to no names. -/
theorem Rep.addVars_empty {M : List Text} (hM : M.Nodup) (next : ℕ) :
    Rep (VarNames.addVars next .empty M).2 (VarNames.addVars next .empty M).1 M ∧
      next ≤ (VarNames.addVars next .empty M).2 := by
  have := Rep.addVars M (Rep.empty next)
  rwa [foldl_addName (by simpa using hM), List.nil_append] at this

theorem Rep.names (h : Rep next V L) : V.names = some L := by
  unfold VarNames.names
  rw [h.count]
  have : ∀ (m : ℕ), m ≤ L.length → (List.range m).mapM V.getName = some (L.take m) := by
    intro m
    induction m with
    | zero => intro _; simp
    | succ m ih =>
      intro hm
      rw [List.range_succ, List.mapM_append, ih (by omega)]
      have hg := h.getName m
      rw [List.getElem?_eq_getElem (show m < L.length by omega)] at hg
      rw [List.mapM_cons, hg, List.take_add_one, List.getElem?_eq_getElem (show m < L.length by omega)]
      rfl
  rw [this _ (le_refl _), List.take_length]

theorem Rep.assign (h : Rep next V L) (next' : ℕ) :
    ∃ r, VarNames.assign next' V = some r ∧ Rep r.2 r.1 L ∧ next' ≤ r.2 := by
  unfold VarNames.assign
  rw [h.names]
  exact ⟨_, rfl, Rep.addVars_empty h.nodup next'⟩

theorem Rep.projectVar (h : Rep next V L) (i : ℕ) (hi : i < L.length) :
    ∃ r, V.projectVar next i = some r ∧ Rep r.2 r.1 (L.eraseIdx i) ∧ next ≤ r.2 := by
  unfold VarNames.projectVar
  rw [if_pos (by rw [h.count]; exact hi), h.names]
  obtain ⟨h1, h2⟩ := Rep.addVars_empty (h.nodup.sublist (L.eraseIdx_sublist i)) next
  obtain ⟨r, h3, h4, h5⟩ := h1.assign (VarNames.addVars next .empty (L.eraseIdx i)).2
  exact ⟨r, h3, h4, h2.trans h5⟩

theorem Rep.projectVar_none (h : Rep next V L) (i : ℕ) (hi : ¬ i < L.length) : V.projectVar next i = none := by
  unfold VarNames.projectVar
  rw [if_neg (by rw [h.count]; exact hi)]

theorem default_nodup (n : ℕ) : ((List.range n).map fun i => 'x' :: decimal (i + 1)).Nodup := by
  refine List.Nodup.map_on (fun a _ b _ h => ?_) List.nodup_range
  have := decimal_injective (List.cons.inj h).2
  omega

theorem Rep.default (next n : ℕ) :
    Rep (VarNames.default next n).2 (VarNames.default next n).1 ((List.range n).map fun i => 'x' :: decimal (i + 1)) ∧
      next ≤ (VarNames.default next n).2 := Rep.addVars_empty (default_nodup n) next

/-- The nodes after `swapVariables`. -/
theorem Rep.swapVariables (h : Rep next V L) (a b : ℕ) (ha : a < L.length) (hb : b < L.length) :
    ∃ W, V.swapVariables a b = some W ∧ Rep next W ((L.set a L[b]).set b L[a]) := by
  have ha' : a < V.ptrs.length := by rw [h.len]; exact ha
  have hb' : b < V.ptrs.length := by rw [h.len]; exact hb
  unfold VarNames.swapVariables
  rw [List.getElem?_eq_getElem ha', List.getElem?_eq_getElem hb']
  by_cases hab : a = b
  · subst hab
    refine ⟨V, by simp, ?_⟩
    simpa using h
  · have hne : L[a] ≠ L[b] := fun he => hab ((List.Nodup.getElem_inj_iff h.nodup).1 he)
    simp only [if_neg hab]
    have h1 : VarNames.getName { V with ptrs := (V.ptrs.set a V.ptrs[b]).set b V.ptrs[a] } a = some L[b] := by
      unfold VarNames.getName
      have : ((V.ptrs.set a V.ptrs[b]).set b V.ptrs[a])[a]? = some V.ptrs[b] := by
        rw [List.getElem?_set_ne (Ne.symm hab), List.getElem?_set_self ha']
      simp only [this, h.find_addr b hb, Option.map_some]
    rw [h1]
    have h2 : (VarNames.setIndex { V with ptrs := (V.ptrs.set a V.ptrs[b]).set b V.ptrs[a] } L[b] a).getName b = some L[a] := by
      unfold VarNames.getName VarNames.setIndex
      have : ((V.ptrs.set a V.ptrs[b]).set b V.ptrs[a])[b]? = some V.ptrs[a] := by
        rw [List.getElem?_set_self (by simpa using hb')]
      simp only [this, List.find?_map]
      have hcongr : ((fun x : NameNode => decide (x.addr = V.ptrs[a])) ∘
          fun x => if x.name = L[b] then { x with index := a } else x) = fun x => decide (x.addr = V.ptrs[a]) := by
        funext x
        simp only [Function.comp]
        split <;> rfl
      rw [hcongr, h.find_addr a ha]
      simp [hne]
    simp only [h2]
    refine ⟨_, rfl, ?_⟩
    have hlen : ((L.set a L[b]).set b L[a]).length = L.length := by simp
    have hplen : ((V.ptrs.set a V.ptrs[b]).set b V.ptrs[a]).length = L.length := by simp [h.len]
    -- the index that a name moves to
    have hget : ∀ i (hi : i < L.length), ((L.set a L[b]).set b L[a])[i]'(by simpa using hi) =
        if i = b then L[a] else if i = a then L[b] else L[i] := by
      intro i hi
      rw [List.getElem_set]
      split
      · rename_i he; rw [if_pos he.symm]
      · rename_i he
        rw [if_neg (Ne.symm he), List.getElem_set]
        split
        · rename_i he; rw [if_pos he.symm]
        · rename_i he; rw [if_neg (Ne.symm he)]
    have hpget : ∀ i (hi : i < L.length), ((V.ptrs.set a V.ptrs[b]).set b V.ptrs[a])[i]'(by rw [hplen]; exact hi) =
        if i = b then V.ptrs[a] else if i = a then V.ptrs[b] else V.ptrs[i]'(by rw [h.len]; exact hi) := by
      intro i hi
      rw [List.getElem_set]
      split
      · rename_i he; rw [if_pos he.symm]
      · rename_i he
        rw [if_neg (Ne.symm he), List.getElem_set]
        split
        · rename_i he; rw [if_pos he.symm]
        · rename_i he; rw [if_neg (Ne.symm he)]
    have hperm : ∀ {α : Type} (M : List α) (ha : a < M.length) (hb : b < M.length), M.Nodup →
        ((M.set a M[b]).set b M[a]).Nodup := by
      intro α M ha hb hM
      rw [List.nodup_iff_injective_getElem] at hM ⊢
      intro ⟨i, hi⟩ ⟨j, hj⟩ he
      simp only [List.length_set] at hi hj
      have hinj : ∀ {x y : ℕ} (hx : x < M.length) (hy : y < M.length), M[x] = M[y] → x = y := fun hx hy he =>
        Fin.mk.inj (hM (a₁ := ⟨_, hx⟩) (a₂ := ⟨_, hy⟩) he)
      have key : ∀ k (hk : k < M.length), ((M.set a M[b]).set b M[a])[k]'(by simpa using hk) =
          M[if k = b then a else if k = a then b else k]'(by split; exact ha; split; exact hb; exact hk) := by
        intro k hk
        rw [List.getElem_set]
        split
        · rename_i he; simp [he.symm]
        · rename_i he
          rw [List.getElem_set]
          split
          · rename_i he'; simp [← he', hab]
          · rename_i he'; simp [Ne.symm he, Ne.symm he']
      simp only at he
      rw [key i hi, key j hj] at he
      have := hinj _ _ he
      simp only [Fin.mk.injEq]
      split at this <;> split at this <;> (try split at this) <;> (try split at this) <;> omega
    refine ⟨?_, hperm L ha hb h.nodup, hperm V.ptrs ha' hb' h.ptrs, ?_, ?_, ?_⟩
    · simp [VarNames.setIndex, h.len]
    · intro i hi
      rw [hlen] at hi
      simp only [VarNames.setIndex, List.map_map, List.mem_map, Function.comp]
      simp only [hget i hi, hpget i hi]
      by_cases hib : i = b
      · subst hib
        exact ⟨_, h.node a ha, by simp [hne]⟩
      · by_cases hia : i = a
        · subst hia
          exact ⟨_, h.node b hb, by simp [hne.symm, hib]⟩
        · refine ⟨_, h.node i hi, ?_⟩
          have e1 : L[i] ≠ L[a] := fun he => hia ((List.Nodup.getElem_inj_iff h.nodup).1 he)
          have e2 : L[i] ≠ L[b] := fun he => hib ((List.Nodup.getElem_inj_iff h.nodup).1 he)
          simp [e1, e2, hib, hia]
    · intro y hy
      simp only [VarNames.setIndex, List.map_map, List.mem_map, Function.comp] at hy
      obtain ⟨x, hx, rfl⟩ := hy
      obtain ⟨h3, h4, h5⟩ := h.back x hx
      by_cases hxb : x.name = L[b]
      · have hidx : x.index = b := by rw [← h5] at hxb; exact (List.Nodup.getElem_inj_iff h.nodup).1 hxb
        have e1 : x.name ≠ L[a] := by rw [hxb]; exact hne.symm
        simp only [if_pos hxb, if_neg e1]
        refine ⟨by rw [hlen]; exact ha, ?_, ?_⟩
        · refine (hpget a ha).trans ?_
          rw [if_neg hab, if_pos rfl, ← h4]
          simp only [hidx]
        · rw [hget a ha, if_neg hab, if_pos rfl, hxb]
      · by_cases hxa : x.name = L[a]
        · have hidx : x.index = a := by rw [← h5] at hxa; exact (List.Nodup.getElem_inj_iff h.nodup).1 hxa
          simp only [if_neg hxb, if_pos hxa]
          refine ⟨by rw [hlen]; exact hb, ?_, ?_⟩
          · refine (hpget b hb).trans ?_
            rw [if_pos rfl, ← h4]
            simp only [hidx]
          · rw [hget b hb, if_pos rfl, hxa]
        · have e1 : x.index ≠ a := fun he => hxa (by rw [← h5]; simp only [he])
          have e2 : x.index ≠ b := fun he => hxb (by rw [← h5]; simp only [he])
          simp only [if_neg hxb, if_neg hxa]
          refine ⟨by rw [hlen]; exact h3, ?_, ?_⟩
          · refine (hpget _ h3).trans ?_
            rw [if_neg e2, if_neg e1, h4]
          · rw [hget _ h3, if_neg e2, if_neg e1, h5]
    · intro y hy
      simp only [VarNames.setIndex, List.map_map, List.mem_map, Function.comp] at hy
      obtain ⟨x, hx, rfl⟩ := hy
      have := h.fresh x hx
      split <;> split <;> exact this

theorem Rep.swapVariables_none (h : Rep next V L) (a b : ℕ) (hab : ¬ (a < L.length ∧ b < L.length)) :
    V.swapVariables a b = none := by
  unfold VarNames.swapVariables
  rw [← h.len] at hab
  split
  · rename_i h1 h2
    exact absurd ⟨(List.getElem?_eq_some_iff.1 h1).1, (List.getElem?_eq_some_iff.1 h2).1⟩ hab
  · rfl

theorem Rep.beq {next' : ℕ} {W : VarNames} {M : List Text} (h : Rep next V L) (h' : Rep next' W M) :
    V.beq W = some (decide (L = M)) := by
  unfold VarNames.beq
  rw [h.count, h'.count, h.names, h'.names]
  split
  · rename_i hne
    rw [eq_comm, Option.some.injEq, decide_eq_false_iff_not]
    rintro rfl
    exact hne rfl
  · rfl

end VarNames

end Frobby

import Verif.EulerWordSimp

/-!
# The pivot strategies on words
-/

namespace Frobby

/-! ### States that keep a variable -/

theorem live_union {s : EulerState} (h : StateOk s) (h2 : 1 < s.genCount) {g t : SqTerm} (hg : g ∈ s.ideal.gens) (ht : t ⊆ g) :
    ∃ v < s.varCount, v ∉ s.eliminated ∪ t := by
  by_contra hno
  push Not at hno
  have hc : Finset.range s.varCount ⊆ s.eliminated ∪ t := fun v hv => hno v (Finset.mem_range.1 hv)
  rcases hl : s.ideal.gens with _ | ⟨x, _ | ⟨y, l⟩⟩
  · rw [EulerState.genCount, hl] at h2; simp at h2
  · rw [EulerState.genCount, hl] at h2; simp at h2
  · have hx := (subset_of_cover h (g := x) (by simp [hl]) hc).trans ht
    have hy := (subset_of_cover h (g := y) (by simp [hl]) hc).trans ht
    have ha := h.anti
    rw [hl] at ha hg
    have hxy := (List.pairwise_cons.1 ha).1
    rcases List.mem_cons.1 hg with rfl | hg
    · exact (hxy y (by simp)).2 hy
    · exact (hxy g hg).1 hx

theorem live_stdSplitVar {s : EulerState} (h : StateOk s) (h2 : 1 < s.genCount) (v : ℕ) :
    ELive (s.stdSplitVar v).1 ∧ ELive (s.stdSplitVar v).2 := by
  have hn := notMem_of_two h h2 v
  rw [Finset.subset_iff] at hn
  push Not at hn
  obtain ⟨u, hu, hne⟩ := hn
  refine ⟨⟨u, Finset.mem_range.1 hu, hne⟩, ⟨u, ?_, hne⟩⟩
  change u < (s.toColonVar v).varCount
  rw [toColonVar_varCount h]
  exact Finset.mem_range.1 hu

theorem live_stdSplit {s : EulerState} (h : StateOk s) (h2 : 1 < s.genCount) {g t : SqTerm} (hg : g ∈ s.ideal.gens) (ht : t ⊆ g) :
    ELive (s.stdSplit t).1 ∧ ELive (s.stdSplit t).2 := by
  obtain ⟨u, hu, hn⟩ := live_union h h2 hg ht
  refine ⟨⟨u, hu, fun hm => hn (Finset.mem_union_left _ hm)⟩, ⟨u, ?_, hn⟩⟩
  change u < (s.ideal.colonReminimize t).varCount
  rw [(colonReminimize_spec h.anti t).1]
  exact hu

theorem live_genSplit {s : EulerState} (h : StateOk s) (h2 : 1 < s.genCount) {i : ℕ} {a b : EulerState}
    (e : s.genSplit i = .ok (a, b)) : ELive a ∧ ELive b := by
  by_cases hi : i < s.ideal.gens.length
  · obtain ⟨v1, v2⟩ := genSplit_vars h hi e
    obtain ⟨u, hu, hn⟩ := live_union h h2 (List.getElem_mem hi) (Finset.Subset.refl _)
    unfold EulerState.genSplit at e
    rw [dif_pos hi] at e
    cases e
    exact ⟨⟨u, by rw [v1]; exact hu, hn⟩, ⟨u, by rw [v2]; exact hu, fun hm => hn (Finset.mem_union_left _ hm)⟩⟩
  · unfold EulerState.genSplit at e
    rw [dif_neg hi] at e
    cases e

/-! ### Results of steps that may stop -/

/-- Both stop for the same reason or both give related results. -/
def ESim {α β : Type} (R : α → β → Prop) : Except Stop α → Except Stop β → Prop
  | .ok a, .ok b => R a b
  | .error e, .error f => e = f
  | _, _ => False

/-- The states of a split, the tape, and that both states keep a variable. -/
def RepSplit (N : ℕ) (r : (EulerWords × EulerWords) × List ℕ) (q : (EulerState × EulerState) × List ℕ) : Prop :=
  ERep N r.1.1 q.1.1 ∧ ERep N r.1.2 q.1.2 ∧ r.2 = q.2 ∧ ELive q.1.1 ∧ ELive q.1.2

/-! ### The standard strategies -/

theorem RepO.popVar {N : ℕ} {o : SimpWords} {p : SimpState} (h : RepO N o p) :
    popVarWords o.divCounts p.state.varCount = .ok (getPopVar p.divCounts p.state.varCount) := by
  unfold popVarWords
  rw [h.countsOf]
  rfl

theorem RepO.rareVar {N : ℕ} {o : SimpWords} {p : SimpState} (h : RepO N o p) :
    rareVarWords o.divCounts p.state.varCount = checked (getRareVar p.divCounts p.state.varCount) := by
  unfold rareVarWords
  rw [h.countsOf]
  rfl

theorem ERep.getExponent {N : ℕ} {w : EulerWords} {s : EulerState} (h : ERep N w s) {v : ℕ} (hv : v < s.varCount) :
    wGetExponent w.eliminated v = some (decide (v ∈ s.eliminated)) := by
  obtain ⟨e, he, hp⟩ := h.elim
  rw [← C48_getExponent hp hv]
  obtain ⟨_, rfl⟩ := readWords_eq_some.1 he
  have hlt : v / bitsPerWord < wordCount s.varCount := by
    rw [wordCount_eq]
    unfold bitsPerWord
    omega
  unfold wGetExponent
  rw [List.drop_zero, List.getElem?_take_of_lt hlt]

theorem randomVar_rep {N : ℕ} {w : EulerWords} {s : EulerState} (h : ERep N w s) (tape : List ℕ) :
    randomVarWords w tape = randomVar s tape := by
  have hpos := h.pos
  induction tape with
  | nil => rfl
  | cons r tape ih =>
    unfold randomVarWords randomVar
    rw [h.varCount, if_neg (by omega), if_neg (by omega), h.getExponent (Nat.mod_lt _ hpos)]
    by_cases hm : r % s.varCount ∈ s.eliminated
    · simp only [hm, decide_true, not_true, if_false]
      exact ih
    · simp only [hm, decide_false, not_false_iff, if_true]

theorem anyVarLoop_rep {N : ℕ} {w : EulerWords} {s : EulerState} (h : ERep N w s) {u : ℕ} (hu : u < s.varCount)
    (hn : u ∉ s.eliminated) (hfirst : ∀ v < u, v ∈ s.eliminated) (n : ℕ) :
    ∀ k ≤ u, u < k + n → anyVarLoop w.eliminated k n = .ok u := by
  induction n with
  | zero => intro k h1 h2; omega
  | succ n ih =>
    intro k h1 h2
    unfold anyVarLoop
    rw [h.getExponent (by omega)]
    by_cases hk : k = u
    · subst hk
      simp only [hn, decide_false]
    · simp only [hfirst k (by omega), decide_true]
      exact ih (k + 1) (by omega) (by omega)

theorem anyVar_rep {N : ℕ} {w : EulerWords} {s : EulerState} (h : ERep N w s) (hlive : ELive s) :
    anyVarLoop w.eliminated 0 (64 * w.eliminated.length) = anyVar s := by
  unfold anyVar
  cases hf : (List.range s.varCount).find? fun v => v ∉ s.eliminated with
  | none =>
    obtain ⟨v, hv, hn⟩ := hlive
    have := List.find?_eq_none.1 hf v (by simpa using hv)
    simp [hn] at this
  | some u =>
    obtain ⟨h1, as, bs, h2, h3⟩ := List.find?_eq_some_iff_append.1 hf
    have hlen : u = as.length := by
      have := congrArg (fun l => l[as.length]?) h2
      have hlt : as.length < s.varCount := by
        have := congrArg List.length h2
        simp at this
        omega
      simpa [List.getElem?_range hlt] using this.symm
    have hu : u < s.varCount := by
      have : u ∈ List.range s.varCount := by rw [h2]; simp
      simpa using this
    refine anyVarLoop_rep h hu (by simpa using h1) (fun v hv => ?_) _ 0 (by omega) ?_
    · have hva : v ∈ as := by
        have hg : as[v]? = some v := by
          have := congrArg (fun l => l[v]?) h2
          simp only [List.getElem?_range (show v < s.varCount by omega)] at this
          rw [List.getElem?_append_left (by omega)] at this
          exact this.symm
        exact List.mem_of_getElem? hg
      simpa using h3 v hva
    · have := h.pre.wordsElim
      rw [wordCount_eq] at this
      omega

theorem stdVar_rep {N : ℕ} {o : SimpWords} {p : SimpState} (h : RepO N o p) (hlive : ELive p.state) (strat : StdStrat) (tape : List ℕ) :
    stdVarWords strat o.state o.divCounts tape = stdVar strat p.state p.divCounts tape := by
  cases strat with
  | random => exact randomVar_rep h.rep tape
  | any =>
    unfold stdVarWords stdVar
    simp only
    rw [anyVar_rep h.rep hlive]
  | popvar =>
    unfold stdVarWords stdVar
    simp only
    rw [h.rep.varCount, h.popVar]
    rfl
  | popgcd =>
    unfold stdVarWords stdVar
    simp only
    rw [h.rep.varCount, h.popVar]
    rfl
  | rarevar =>
    unfold stdVarWords stdVar
    simp only
    rw [h.rep.varCount, h.rareVar]
    cases getRareVar p.divCounts p.state.varCount <;> rfl

theorem singleVar_rep (junk : Junk) {V v : ℕ} (hv : v < V) : ∃ t, singleVar junk V v = .ok t ∧ Packs V t {v} := by
  have hV : 0 < V := by omega
  obtain ⟨a, ha, hap⟩ := (C48_setTo hV (junk_length junk 3 (wordCount V))).2.2.1
  obtain ⟨b, hb, hbp⟩ := (C48_setExponent hap hv).1
  refine ⟨b, ?_, by simpa using hbp⟩
  unfold singleVar pivotArray
  simp only [ha, hb, checked, bind, Except.bind]

theorem popGcdLoop_rep {V v : ℕ} (hv : v < V) {I : RsfIdeal} (hI : I.varCount = V) (L : List SqTerm) :
    ∀ (it seen : ℕ) (pivot : List Word) (cur : SqTerm), Along (Packs V) I.wordsPerTerm I.memory it L → 0 < seen → seen < 3 →
      Packs V pivot cur →
      ∃ r, popGcdLoop I v seen pivot it L.length = .ok r ∧
        Packs V r (((L.filter fun g => v ∈ g).take (3 - seen)).foldl (· ∩ ·) cur) := by
  have hV : 0 < V := by omega
  induction L with
  | nil => intro it seen pivot cur _ _ _ hp; exact ⟨pivot, rfl, by simpa using hp⟩
  | cons g L ih =>
    intro it seen pivot cur hA h1 h2 hp
    obtain ⟨⟨a, ha, hg⟩, hA⟩ := hA
    rw [List.length_cons]
    unfold popGcdLoop
    rw [ha]
    simp only
    rw [C48_getExponent hg hv]
    by_cases hm : v ∈ g
    · simp only [hm, decide_true]
      obtain ⟨r, hr, hrp⟩ := (C48_gcd hV hp hg rfl).2.2.2
      rw [if_neg (by omega), hI, hr]
      simp only
      rw [List.filter_cons_of_pos (by simpa using hm)]
      by_cases h3 : seen + 1 = 3
      · rw [if_pos h3]
        refine ⟨r, rfl, ?_⟩
        have e3 : 3 - seen = 1 := by omega
        rw [e3]
        simpa using hrp
      · rw [if_neg h3]
        obtain ⟨r', h4, h5⟩ := ih (it + 1) (seen + 1) r (cur ∩ g) hA (by omega) (by omega) hrp
        refine ⟨r', h4, ?_⟩
        have e3 : 3 - seen = (3 - (seen + 1)) + 1 := by omega
        rw [e3, List.take_succ_cons, List.foldl_cons]
        exact h5
    · simp only [hm, decide_false]
      rw [List.filter_cons_of_neg (by simpa using hm)]
      exact ih (it + 1) seen pivot cur hA h1 h2 hp

theorem popGcdLoop_first {V v : ℕ} (hv : v < V) {I : RsfIdeal} (hI : I.varCount = V) (L : List SqTerm) :
    ∀ (it : ℕ) (pivot : List Word), Along (Packs V) I.wordsPerTerm I.memory it L → pivot.length = wordCount V →
      (∃ g ∈ L, v ∈ g) →
      ∃ r, popGcdLoop I v 0 pivot it L.length = .ok r ∧
        Packs V r (match (L.filter fun g => v ∈ g).take 3 with
          | [] => ∅
          | g :: l => l.foldl (· ∩ ·) g) := by
  have hV : 0 < V := by omega
  induction L with
  | nil => rintro it pivot _ _ ⟨g, hg, _⟩; simp at hg
  | cons g L ih =>
    intro it pivot hA hl hex
    obtain ⟨⟨a, ha, hg⟩, hA⟩ := hA
    rw [List.length_cons]
    unfold popGcdLoop
    rw [ha]
    simp only
    rw [C48_getExponent hg hv]
    by_cases hm : v ∈ g
    · simp only [hm, decide_true]
      rw [if_pos True.intro, hI, (C48_assign hV (hl.trans (packs_length hg).symm) hg).2.1]
      simp only
      rw [if_neg (by omega), List.filter_cons_of_pos (by simpa using hm)]
      obtain ⟨r', h4, h5⟩ := popGcdLoop_rep hv hI L (it + 1) 1 a g hA (by omega) (by omega) hg
      exact ⟨r', h4, h5⟩
    · simp only [hm, decide_false]
      rw [List.filter_cons_of_neg (by simpa using hm)]
      refine ih (it + 1) pivot hA hl ?_
      obtain ⟨x, hx, hvx⟩ := hex
      rcases List.mem_cons.1 hx with rfl | hx
      · exact absurd hvx hm
      · exact ⟨x, hx, hvx⟩

theorem popGcd_rep {N : ℕ} {o : SimpWords} {p : SimpState} (h : RepO N o p) (ok : OptOk p) (h2 : 1 < p.state.genCount) (junk : Junk) :
    ∃ t, popGcdWords junk o.state o.divCounts = .ok t ∧ Packs p.state.varCount t (popGcd p.state p.divCounts) := by
  have hc := getPopVar_spec ok h2
  obtain ⟨_, hv⟩ := notMem_elim_of_count ok hc
  unfold popGcdWords popGcd
  simp only [h.rep.varCount, h.popVar, bind, Except.bind, h.get hv, checked]
  split
  · exact singleVar_rep junk hv
  · rw [h.rep.holds.stop_eq]
    exact popGcdLoop_first hv h.rep.holds.varCount p.state.ideal.gens 0 _ h.rep.holds.along (junk_length _ _ _)
      (exists_of_count (by rw [← ok.counts]; exact hc))

/-! ### The filters -/

theorem swap_rep {V i j : ℕ} (hV : 0 < V) {r : RsfIdeal} {gens : List (Finset ℕ)} (h : Holds r V gens) (hi : i < gens.length)
    (hj : j < gens.length) :
    ∃ r', r.swap i j = some r' ∧ Holds r' V (swapAt gens i j) ∧ r'.memory.length = r.memory.length := by
  by_cases hij : i = j
  · subst hij
    obtain ⟨a, ha, hs⟩ := along_get gens 0 h.along i hi
    rw [Nat.zero_add] at ha
    have hsw := (C48_assign hV rfl hs).2.2 hs
    obtain ⟨mem1, hp1⟩ := putTerm_isSome (termAt_le ha) (termAt_length ha)
    obtain ⟨hl1, hat1, hne1⟩ := termAt_put hp1 (termAt_length ha)
    obtain ⟨mem2, hp2⟩ := putTerm_isSome (mem := mem1) (by rw [hl1]; exact termAt_le ha) (termAt_length ha)
    obtain ⟨hl2, hat2, hne2⟩ := termAt_put hp2 (termAt_length ha)
    refine ⟨⟨r.varCount, r.wordsPerTerm, r.genCount, r.memoryEnd, mem2⟩, ?_, ?_, hl2.trans hl1⟩
    · unfold RsfIdeal.swap swapTerms
      rw [(holds_iff.1 h).1, ha]
      simp only [hsw, hp1, hp2]
      rfl
    · have e : swapAt gens i i = gens := by
        unfold swapAt
        rw [List.getD_eq_getElem _ _ hi, List.set_getElem_self, List.set_getElem_self]
      rw [e]
      refine h.of_along_same (hl2.trans hl1) rfl (along_of_get _ 0 fun k hk => ?_)
      rw [Nat.zero_add]
      by_cases hk' : k = i
      · subst hk'
        exact ⟨a, hat2, hs⟩
      · obtain ⟨b, hb, hbp⟩ := along_get gens 0 h.along k hk
        rw [Nat.zero_add] at hb
        exact ⟨b, by rw [hne2 k hk', hne1 k hk']; exact hb, hbp⟩
  · obtain ⟨r', h1, h2⟩ := C49_swap hV h hi hj hij
    refine ⟨r', h1, ?_, swap_len h1⟩
    unfold swapAt
    rw [List.getD_eq_getElem _ _ hi, List.getD_eq_getElem _ _ hj]
    exact h2

/-- The ideal after a filter, and the number of candidates. -/
structure RepF (V : ℕ) (I : RsfIdeal) (r : RsfIdeal × ℕ) (q : List SqTerm × ℕ) : Prop where
  holds : Holds r.1 V q.1
  len : r.1.memory.length = I.memory.length
  cand : r.2 = q.2

theorem pickWords_rep {V : ℕ} (hV : 0 < V) {key : List Word → Option (Option ℕ)} {keyS : SqTerm → Option ℕ}
    (hkey : ∀ a g, Packs V a g → key a = some (keyS g)) (worse : ℕ → ℕ → Bool) (todo : ℕ) :
    ∀ (it best newEnd : ℕ) (I : RsfIdeal) (l : List SqTerm), Holds I V l → newEnd ≤ it → it + todo ≤ l.length →
      ∃ r, pickWords key worse todo it best newEnd I = .ok r ∧ RepF V I r (pickLoop keyS worse todo it best newEnd l) := by
  induction todo with
  | zero => intro it best newEnd I l h _ _; exact ⟨_, rfl, h, rfl, rfl⟩
  | succ todo ih =>
    intro it best newEnd I l h h1 h2
    have hit : it < l.length := by omega
    obtain ⟨a, ha, hp⟩ := along_get l 0 h.along it hit
    rw [Nat.zero_add] at ha
    unfold pickWords pickLoop
    rw [ha, List.getD_eq_getElem _ _ hit]
    simp only [hkey a _ hp]
    cases keyS l[it] with
    | none => exact ih (it + 1) best newEnd I l h (by omega) (by omega)
    | some k =>
      simp only
      by_cases hw : worse k best = true
      · rw [if_pos hw, if_pos hw]
        exact ih (it + 1) best newEnd I l h (by omega) (by omega)
      · rw [if_neg hw, if_neg hw]
        have hn : (if worse best k = true then 0 else newEnd) ≤ it := by
          split
          · omega
          · exact h1
        generalize (if worse best k = true then 0 else newEnd) = m at *
        obtain ⟨I', e1, e2, e3⟩ := swap_rep hV h (show m < l.length by omega) hit
        rw [e1]
        simp only
        obtain ⟨r, e4, e5⟩ := ih (it + 1) k (m + 1) I' (swapAt l m it) e2 (by omega) (by simp [swapAt]; omega)
        exact ⟨r, e4, e5.holds, e5.len.trans e3, e5.cand⟩

theorem maskLoop_rep {V : ℕ} (d : ℕ → ℕ) (count : ℕ) (vs : List ℕ) :
    ∀ (a : List Word) (s : SqTerm), Packs V a s → (∀ v ∈ vs, v < V) →
      ∃ b, maskLoop d count vs a = some b ∧ Packs V b (s ∪ (vs.filter fun v => d v = count).toFinset) := by
  induction vs with
  | nil => intro a s h _; exact ⟨a, rfl, by simpa using h⟩
  | cons v vs ih =>
    intro a s h hvs
    unfold maskLoop
    by_cases hd : d v = count
    · rw [if_pos hd]
      obtain ⟨b, hb, hbp⟩ := (C48_setExponent h (hvs v (by simp))).1
      rw [hb]
      simp only
      obtain ⟨c, hc, hcp⟩ := ih b _ hbp fun u hu => hvs u (List.mem_cons_of_mem _ hu)
      refine ⟨c, hc, ?_⟩
      rw [List.filter_cons_of_pos (by simpa using hd), List.toFinset_cons, Finset.union_insert, ← Finset.insert_union]
      exact hcp
    · rw [if_neg hd, List.filter_cons_of_neg (by simpa using hd)]
      exact ih a s h fun u hu => hvs u (List.mem_cons_of_mem _ hu)

theorem maskWords_rep {V : ℕ} (hV : 0 < V) (junk : Junk) (d : ℕ → ℕ) (count : ℕ) :
    ∃ t, maskWords junk d V count = .ok t ∧ Packs V t (varsWithCount d V count) := by
  obtain ⟨a, ha, hap⟩ := (C48_setTo hV (junk_length junk 3 (wordCount V))).2.2.1
  obtain ⟨b, hb, hbp⟩ := maskLoop_rep d count (List.range V) a ∅ hap fun v hv => List.mem_range.1 hv
  refine ⟨b, ?_, ?_⟩
  · unfold maskWords pivotArray
    simp only [ha, hb, checked, bind, Except.bind]
  · have e : ∅ ∪ ((List.range V).filter fun v => d v = count).toFinset = varsWithCount d V count := by
      ext v
      simp [varsWithCount]
    rw [← e]
    exact hbp

theorem rarestKey_rep {V : ℕ} (hV : 0 < V) (junk : Junk) {b : List Word} {term : SqTerm} (hb : Packs V b term) (a : List Word)
    (g : SqTerm) (ha : Packs V a g) :
    rarestKey junk V b a = some (if Disjoint term g then none else some (term ∩ g).card) := by
  unfold rarestKey
  rw [(C48_relations hV hb ha).2.2.1]
  by_cases hd : Disjoint term g
  · rw [if_pos hd]
    simp only [hd, decide_true]
  · rw [if_neg hd]
    simp only [hd, decide_false]
    obtain ⟨r, hr, hrp⟩ := (C48_gcd hV hb ha ((junk_length junk 4 (wordCount V)).trans (packs_length hb).symm)).2.1
    unfold pivotArray
    rw [hr]
    simp only
    rw [(C48_support hV hrp).2.2.2]
    rfl

theorem rarestFilterOne_rep {V : ℕ} (hV : 0 < V) (junk : Junk) (d : ℕ → ℕ) (count cand : ℕ) {I : RsfIdeal} {l : List SqTerm}
    (h : Holds I V l) (hc : cand ≤ l.length) :
    ∃ r, rarestFilterOneWords junk d V count cand I = .ok r ∧ RepF V I r (rarestFilterOne d V count cand l) := by
  obtain ⟨t, ht, htp⟩ := maskWords_rep hV junk d count
  obtain ⟨r, h1, h2⟩ := pickWords_rep hV (rarestKey_rep hV junk htp) (fun a b => decide (a < b)) cand 0 0 0 I l h (by omega) (by omega)
  refine ⟨(r.1, if r.2 ≠ 0 then r.2 else cand), ?_, ?_⟩
  · unfold rarestFilterOneWords
    simp only [ht, h1, bind, Except.bind]
    rfl
  · unfold rarestFilterOne
    simp only
    rw [h2.cand]
    split
    · exact ⟨h2.holds, h2.len, rfl⟩
    · exact ⟨h2.holds, h2.len, rfl⟩

theorem rarestFilterOne_perm (d : ℕ → ℕ) (V count cand : ℕ) (l : List SqTerm) (hc : cand ≤ l.length) :
    (rarestFilterOne d V count cand l).1.Perm l ∧ (rarestFilterOne d V count cand l).2 ≤ l.length := by
  unfold rarestFilterOne
  simp only
  obtain ⟨h1, h2⟩ := pickLoop_perm (fun g => if Disjoint (varsWithCount d V count) g then none else
    some (varsWithCount d V count ∩ g).card) (fun a b => decide (a < b)) cand 0 0 0 l (by omega) (by omega)
  split
  · exact ⟨h1, by omega⟩
  · exact ⟨h1, hc⟩

theorem rarestFilter_rep {V : ℕ} (hV : 0 < V) (junk : Junk) (d : ℕ → ℕ) (rounds : ℕ) :
    ∀ (last cand : ℕ) (I : RsfIdeal) (l : List SqTerm), Holds I V l → cand ≤ l.length →
      ∃ r, rarestFilterWords junk d V rounds last cand I = .ok r ∧ RepF V I r (rarestFilter d V rounds last cand l) := by
  induction rounds with
  | zero => intro last cand I l h _; exact ⟨_, rfl, h, rfl, rfl⟩
  | succ rounds ih =>
    intro last cand I l h hc
    unfold rarestFilterWords rarestFilter
    by_cases h1 : cand ≤ 1
    · rw [if_pos h1, if_pos h1]
      exact ⟨_, rfl, h, rfl, rfl⟩
    · rw [if_neg h1, if_neg h1]
      cases nextCount d V last with
      | none => exact ⟨_, rfl, h, rfl, rfl⟩
      | some count =>
        obtain ⟨⟨I', c'⟩, h2, h3⟩ := rarestFilterOne_rep hV junk d count cand h hc
        obtain ⟨h4, h5⟩ := rarestFilterOne_perm d V count cand l hc
        simp only [h2]
        have hcand : c' = _ := h3.cand
        rw [hcand]
        obtain ⟨r, h6, h7⟩ := ih count (rarestFilterOne d V count cand l).2 I' (rarestFilterOne d V count cand l).1 h3.holds
          (by rw [h4.length_eq]; exact h5)
        exact ⟨r, h6, h7.holds, h7.len.trans h3.len, h7.cand⟩

/-- The ideal after a filter, the number of candidates and the tape. -/
def RepFT (V : ℕ) (I : RsfIdeal) (r : (RsfIdeal × ℕ) × List ℕ) (q : (List SqTerm × ℕ) × List ℕ) : Prop :=
  RepF V I r.1 q.1 ∧ r.2 = q.2

theorem varKey_rep {V v : ℕ} (hv : v < V) {size : List Word → Option ℕ} {sizeS : SqTerm → ℕ}
    (hs : ∀ a g, Packs V a g → size a = some (sizeS g)) (a : List Word) (g : SqTerm) (ha : Packs V a g) :
    varKey v size a = some (if v ∈ g then some (sizeS g) else none) := by
  unfold varKey
  rw [C48_getExponent ha hv]
  by_cases hm : v ∈ g
  · simp only [hm, decide_true, if_true, hs a g ha]
    rfl
  · simp only [hm, decide_false, if_false]

theorem genFilter_rep {N : ℕ} {o : SimpWords} {p : SimpState} (h : RepO N o p) (ok : OptOk p) (h2 : 1 < p.state.genCount)
    (junk : Junk) (strat : GenStrat) (tape : List ℕ) (cand : ℕ) {I : RsfIdeal} {l : List SqTerm} (hI : Holds I p.state.varCount l)
    (hc : cand ≤ l.length) (hl : 0 < l.length) :
    ESim (RepFT p.state.varCount I) (genFilterWords junk strat p.state.varCount o.divCounts tape cand I)
      (genFilter strat p.state.varCount p.divCounts tape cand l) := by
  have hV := h.rep.pos
  obtain ⟨rv, hrv, hrc⟩ := getRareVar_spec ok h2
  obtain ⟨_, hrlt⟩ := notMem_elim_of_count ok hrc
  have hrw := h.rareVar
  rw [hrv] at hrw
  have hsize : ∀ a g, Packs p.state.varCount a g → (fun a => (wSizeOfSupport a p.state.varCount).map some) a =
      some ((fun g : SqTerm => some g.card) g) := fun a g hag => by
    simp only
    rw [(C48_support hV hag).2.2.2]
    rfl
  cases strat with
  | popvar =>
    obtain ⟨t, ht, htp⟩ := maskWords_rep hV junk p.divCounts (p.divCounts (getPopVar p.divCounts p.state.varCount))
    obtain ⟨r, h3, h4⟩ := pickWords_rep hV (key := primeKey p.state.varCount t)
      (keyS := fun g => if Disjoint (varsWithCount p.divCounts p.state.varCount
        (p.divCounts (getPopVar p.divCounts p.state.varCount))) g then none else some 0) (fun a g hag => by
        unfold primeKey
        rw [(C48_relations hV htp hag).2.2.1]
        by_cases hd : Disjoint (varsWithCount p.divCounts p.state.varCount (p.divCounts (getPopVar p.divCounts p.state.varCount))) g
        · simp [hd]
        · simp [hd]) (fun a b => decide (a < b)) cand 0 0 0 I l hI (by omega) (by omega)
    unfold genFilterWords genFilter
    simp only [h.popVar, h.countsOf, ht, h3, bind, Except.bind]
    exact ⟨h4, rfl⟩
  | raremax =>
    obtain ⟨r, h3, h4⟩ := pickWords_rep hV (varKey_rep hrlt (size := fun a => wSizeOfSupport a p.state.varCount)
      (sizeS := Finset.card) fun a g hag => (C48_support hV hag).2.2.2) (fun a b => decide (a < b)) cand 0 0 0 I l hI (by omega) (by omega)
    unfold genFilterWords genFilter
    simp only [hrw, hrv, checked, h3, bind, Except.bind]
    exact ⟨h4, rfl⟩
  | rarevar =>
    obtain ⟨r, h3, h4⟩ := pickWords_rep hV (varKey_rep hrlt (size := fun _ => some 0)
      (sizeS := fun _ => 0) fun a g hag => rfl) (fun a b => decide (a < b)) cand 0 0 0 I l hI (by omega) (by omega)
    unfold genFilterWords genFilter
    simp only [hrw, hrv, checked, h3, bind, Except.bind]
    exact ⟨h4, rfl⟩
  | rarest =>
    obtain ⟨r, h3, h4⟩ := rarestFilter_rep hV junk p.divCounts p.state.varCount 0 cand I l hI hc
    unfold genFilterWords genFilter
    simp only [h.countsOf, h3, bind, Except.bind]
    exact ⟨h4, rfl⟩
  | maxsupp =>
    obtain ⟨r, h3, h4⟩ := pickWords_rep hV hsize (fun a b => decide (a < b)) cand 0 0 0 I l hI (by omega) (by omega)
    unfold genFilterWords genFilter
    simp only [h3, bind, Except.bind]
    exact ⟨h4, rfl⟩
  | minsupp =>
    obtain ⟨r, h3, h4⟩ := pickWords_rep hV hsize (fun a b => decide (a > b)) cand 0 p.state.varCount 0 I l hI (by omega) (by omega)
    unfold genFilterWords genFilter
    simp only [h3, bind, Except.bind]
    exact ⟨h4, rfl⟩
  | any => exact ⟨⟨hI, rfl, rfl⟩, rfl⟩
  | random =>
    unfold genFilterWords genFilter
    cases tape with
    | nil => exact rfl
    | cons r tape =>
      simp only
      by_cases hc0 : cand = 0
      · rw [if_pos hc0, if_pos hc0]
        exact rfl
      · rw [if_neg hc0, if_neg hc0]
        obtain ⟨I', h3, h4, h5⟩ := swap_rep hV hI hl (lt_of_lt_of_le (Nat.mod_lt r (by omega)) hc)
        rw [h3]
        exact ⟨⟨h4, h5, rfl⟩, rfl⟩

/-- The ideal after filters and the tape. -/
def RepC (V : ℕ) (I : RsfIdeal) (r : RsfIdeal × List ℕ) (q : List SqTerm × List ℕ) : Prop :=
  Holds r.1 V q.1 ∧ r.1.memory.length = I.memory.length ∧ r.2 = q.2

theorem compositeFilter_rep {N : ℕ} {o : SimpWords} {p : SimpState} (h : RepO N o p) (ok : OptOk p) (h2 : 1 < p.state.genCount)
    (junk : Junk) (gs : List GenStrat) : ∀ (tape : List ℕ) (cand : ℕ) {I : RsfIdeal} {l : List SqTerm},
      Holds I p.state.varCount l → cand ≤ l.length → 0 < l.length →
      ESim (RepC p.state.varCount I) (compositeFilterWords junk p.state.varCount o.divCounts gs tape cand I)
        (compositeFilter p.state.varCount p.divCounts gs tape cand l) := by
  induction gs with
  | nil => intro tape cand I l hI _ _; exact ⟨hI, rfl, rfl⟩
  | cons g gs ih =>
    intro tape cand I l hI hc hl
    have h3 := genFilter_rep h ok h2 junk g tape cand hI hc hl
    have h4 := genFilter_spec ok h2 g tape cand l hc hl
    unfold compositeFilterWords compositeFilter
    rcases e1 : genFilterWords junk g p.state.varCount o.divCounts tape cand I with e | ⟨⟨I', c'⟩, t'⟩ <;>
    rcases e2 : genFilter g p.state.varCount p.divCounts tape cand l with e' | ⟨⟨l', c''⟩, t''⟩ <;> rw [e1, e2] at h3
    · exact h3
    · exact h3.elim
    · exact h3.elim
    · rw [e2] at h4
      obtain ⟨h5, h6⟩ := h3
      have hcc : c' = c'' := h5.cand
      have htt : t' = t'' := h6
      subst hcc htt
      have h7 := ih t' c' h5.holds h4.2 (by rw [h4.1.length_eq]; exact hl)
      simp only
      rcases e3 : compositeFilterWords junk p.state.varCount o.divCounts gs t' c' I' with e | ⟨J, u⟩ <;>
      rcases e4 : compositeFilter p.state.varCount p.divCounts gs t' c' l' with e' | ⟨m, u'⟩ <;> rw [e3, e4] at h7
      · exact h7
      · exact h7.elim
      · exact h7.elim
      · exact ⟨h7.1, h7.2.1.trans h5.len, h7.2.2⟩

/-! ### The generator strategies -/

theorem genSplit_sim {N : ℕ} {w : EulerWords} {s : EulerState} (h : ERep N w s) (ok : StateOk s) (h2 : 1 < s.genCount) (junk : Junk)
    {i : ℕ} (hi : i < s.ideal.gens.length) (tape : List ℕ) :
    ESim (RepSplit N) ((w.genSplit junk i).map fun r => (r, tape)) ((s.genSplit i).map fun r => (r, tape)) := by
  obtain ⟨x, y, a, b, h3, h4, h5, h6⟩ := h.genSplit ok junk hi
  have hl := live_genSplit ok h2 h4
  rw [h3, h4]
  exact ⟨h5, h6, rfl, hl.1, hl.2⟩

theorem withGens_sim {N : ℕ} {w : EulerWords} {s : EulerState} (h : ERep N w s) (ok : StateOk s) (h2 : 1 < s.genCount) (junk : Junk)
    {I : RsfIdeal} {l : List SqTerm} (hI : Holds I s.varCount l) (hlen : I.memory.length = w.ideal.memory.length)
    (hp : l.Perm s.ideal.gens) (tape : List ℕ) :
    ESim (RepSplit N) ((EulerWords.genSplit junk ⟨I, w.eliminated, w.sign⟩ 0).map fun r => (r, tape))
      (((withGens s l).genSplit 0).map fun r => (r, tape)) := by
  have h3 := h.ideal hI hlen (by rw [hp.length_eq])
  have hG : 1 < (withGens s l).genCount := by
    change 1 < l.length
    rw [hp.length_eq]
    exact h2
  exact genSplit_sim (s := withGens s l) h3 (withGens_spec ok hp).1 hG junk (by
    change 0 < (withGens s l).genCount
    omega) tape

theorem rareMax_rep {N : ℕ} {w : EulerWords} {s : EulerState} (h : ERep N w s) {v : ℕ} (hv : v < s.varCount) :
    rareMaxWords w v = .ok (rareMaxIndex s v) := by
  have key : ∀ (L : List SqTerm) (i it best bi : ℕ), Along (Packs s.varCount) w.ideal.wordsPerTerm w.ideal.memory it L →
      (foldTerms w.ideal.wordsPerTerm (rareMaxStep s.varCount v) (i, best, bi) w.ideal.memory it L.length).map (·.2.2) =
        some (bestIndex (fun g => if v ∈ g then g.card else 0) (fun best supp => decide (best < supp)) i best bi L) := by
    intro L
    induction L with
    | nil => intro i it best bi _; rfl
    | cons g L ih =>
      intro i it best bi hA
      obtain ⟨⟨a, ha, hs⟩, hA⟩ := hA
      rw [List.length_cons]
      unfold foldTerms bestIndex
      rw [ha]
      simp only
      have hst : rareMaxStep s.varCount v (i, best, bi) a = some (if decide (best < if v ∈ g then g.card else 0) = true then
          (i + 1, (if v ∈ g then g.card else 0), i) else (i + 1, best, bi)) := by
        unfold rareMaxStep
        rw [C48_getExponent hs hv]
        by_cases hm : v ∈ g
        · simp only [hm, decide_true, if_true]
          unfold bestSupport
          rw [(C48_support h.pos hs).2.2.2]
          simp only
          split <;> rfl
        · simp only [hm, decide_false, if_false, Nat.not_lt_zero, Bool.false_eq_true]
      rw [hst]
      simp only
      generalize (if v ∈ g then g.card else 0) = k
      split
      · exact ih _ _ _ _ hA
      · exact ih _ _ _ _ hA
  have hk := key s.ideal.gens 0 0 0 s.ideal.gens.length h.holds.along
  unfold rareMaxWords rareMaxIndex
  rw [h.holds.stop_eq, h.varCount]
  rcases hf : foldTerms w.ideal.wordsPerTerm (rareMaxStep s.varCount v) (0, 0, s.ideal.gens.length) w.ideal.memory 0
    s.ideal.gens.length with _ | r
  · rw [hf] at hk
    cases hk
  · rw [hf] at hk
    have := Option.some.inj hk
    exact congrArg Except.ok this

theorem genPivot_rep {N : ℕ} {o : SimpWords} {p : SimpState} (h : RepO N o p) (ok : OptOk p) (h2 : 1 < p.state.genCount) (junk : Junk)
    (strat : GenStrat) (tape : List ℕ) :
    ESim (RepSplit N) (genPivotWords junk strat o.state o.divCounts tape) (genPivot strat p.state p.divCounts tape) := by
  have hV := h.rep.pos
  have hG : 0 < p.state.ideal.gens.length := by
    change 0 < p.state.genCount
    omega
  have hne : p.state.ideal.gens ≠ [] := List.ne_nil_of_length_pos hG
  obtain ⟨rv, hrv, hrc⟩ := getRareVar_spec ok h2
  obtain ⟨_, hrlt⟩ := notMem_elim_of_count ok hrc
  have hrw := h.rareVar
  rw [hrv] at hrw
  have hrex : ∃ g ∈ p.state.ideal.gens, rv ∈ g := exists_of_count (by rw [← ok.counts]; exact hrc)
  have hpc := getPopVar_spec ok h2
  obtain ⟨_, hplt⟩ := notMem_elim_of_count ok hpc
  have hpex : ∃ g ∈ p.state.ideal.gens, getPopVar p.divCounts p.state.varCount ∈ g :=
    exists_of_count (by rw [← ok.counts]; exact hpc)
  have hmult : ∀ v < p.state.varCount, o.state.ideal.getMultiple v = some (p.state.ideal.getMultiple v) :=
    fun v hv => rsfGetMultiple_spec hv h.rep.holds
  obtain ⟨hmax, hmin⟩ := (C49_refines hV h.rep.holds).2.2.2.2.2.2.2.2.2.2.2.2.1 hne
  unfold genPivotWords genPivot
  cases strat with
  | popvar =>
    simp only [h.rep.varCount, h.popVar, hmult _ hplt, checked, bind, Except.bind]
    exact genSplit_sim h.rep ok.ok h2 junk (getMultiple_spec hpex).1 tape
  | raremax =>
    simp only [h.rep.varCount, hrw, hrv, checked, bind, Except.bind, rareMax_rep h.rep hrlt]
    exact genSplit_sim h.rep ok.ok h2 junk (rareMaxIndex_lt hrex) tape
  | rarevar =>
    simp only [h.rep.varCount, hrw, hrv, checked, bind, Except.bind, hmult _ hrlt]
    exact genSplit_sim h.rep ok.ok h2 junk (getMultiple_spec hrex).1 tape
  | rarest =>
    obtain ⟨r, h3, h4⟩ := rarestFilter_rep hV junk p.divCounts p.state.varCount 0 p.state.ideal.gens.length o.state.ideal
      p.state.ideal.gens h.rep.holds (Nat.le_refl _)
    have h5 := (rarestFilter_perm p.divCounts p.state.varCount p.state.varCount 0 p.state.ideal.gens.length p.state.ideal.gens
      (Nat.le_refl _)).1
    simp only [h.rep.varCount, h.countsOf, h.rep.holds.stop_eq, h3, bind, Except.bind]
    exact withGens_sim h.rep ok.ok h2 junk h4.holds h4.len h5 tape
  | maxsupp =>
    have hmax' : o.state.ideal.bestSupportGen (fun best supp => decide (best < supp)) = some p.state.ideal.maxSupportGen := hmax
    simp only [hmax', checked, bind, Except.bind]
    exact genSplit_sim h.rep ok.ok h2 junk (maxSupportGen_lt hG) tape
  | minsupp =>
    have hmin' : o.state.ideal.bestSupportGen (fun best supp => decide (best > supp)) = some p.state.ideal.minSupportGen := hmin
    simp only [hmin', checked, bind, Except.bind]
    exact genSplit_sim h.rep ok.ok h2 junk (minSupportGen_lt hG) tape
  | any => exact genSplit_sim h.rep ok.ok h2 junk hG tape
  | random =>
    cases tape with
    | nil => exact rfl
    | cons r tape =>
      simp only [h.rep.genCount]
      rw [if_neg (by omega), if_neg (by omega)]
      exact genSplit_sim h.rep ok.ok h2 junk (Nat.mod_lt _ hG) tape

/-! ### All the strategies -/

theorem stdPivot_rep {N : ℕ} {o : SimpWords} {p : SimpState} (h : RepO N o p) (ok : OptOk p) (h2 : 1 < p.state.genCount)
    (hlive : ELive p.state) (junk : Junk) (strat : StdStrat) (tape : List ℕ) :
    ESim (fun r q => Packs p.state.varCount r.1 q.1 ∧ r.2 = q.2 ∧ PivotTerm p q.1) (stdPivotWords junk strat o.state o.divCounts tape)
      (stdPivot strat p.state p.divCounts tape) := by
  unfold stdPivotWords stdPivot
  by_cases hs : strat = .popgcd
  · rw [if_pos hs, if_pos hs]
    obtain ⟨t, h3, h4⟩ := popGcd_rep h ok h2 junk
    rw [h3]
    exact ⟨h4, rfl, popGcd_spec ok h2⟩
  · rw [if_neg hs, if_neg hs, stdVar_rep h hlive]
    have hsp := stdVar_spec ok h2 strat tape
    rcases e : stdVar strat p.state p.divCounts tape with e' | ⟨v, tape'⟩
    · exact rfl
    · rw [e] at hsp
      obtain ⟨h3, _, h5⟩ := hsp
      obtain ⟨t, h6, h7⟩ := singleVar_rep junk h3
      simp only [h.rep.varCount, h6]
      exact ⟨h7, rfl, pivotTerm_singleton ok h5⟩

theorem stdSplit_sim {N : ℕ} {o : SimpWords} {p : SimpState} (h : RepO N o p) (ok : OptOk p) (h2 : 1 < p.state.genCount) (junk : Junk)
    {b : List Word} {t : SqTerm} (hb : Packs p.state.varCount b t) (ht : PivotTerm p t) (tape : List ℕ) :
    ESim (RepSplit N) ((o.state.stdSplit junk b).map fun r => (r, tape)) (.ok (p.state.stdSplit t, tape)) := by
  obtain ⟨g, hg, htg⟩ := ht.dvd
  obtain ⟨x, y, h3, h4, h5⟩ := h.rep.stdSplit ok.ok junk hb hg htg
  obtain ⟨l1, l2⟩ := live_stdSplit ok.ok h2 hg htg
  rw [h3]
  exact ⟨h4, h5, rfl, l1, l2⟩

theorem doPivot_rep {N : ℕ} {o : SimpWords} {p : SimpState} (h : RepO N o p) (ok : OptOk p) (h2 : 1 < p.state.genCount) (junk : Junk)
    (pivot : Pivot) (tape : List ℕ) :
    ESim (RepSplit N) (doPivotWords junk pivot o.state o.divCounts tape) (doPivot pivot p.state p.divCounts tape) := by
  have hlive : ELive p.state := by
    obtain ⟨u, hu, hn⟩ := live_union ok.ok h2 (List.getElem_mem (show 0 < p.state.ideal.gens.length by
      change 0 < p.state.genCount
      omega)) (Finset.empty_subset _)
    exact ⟨u, hu, by simpa using hn⟩
  induction pivot with
  | std strat =>
    unfold doPivotWords doPivot
    by_cases hs : strat = .popgcd
    · rw [if_pos hs, if_pos hs]
      obtain ⟨t, h3, h4⟩ := popGcd_rep h ok h2 junk
      simp only [h3, bind, Except.bind]
      exact stdSplit_sim h ok h2 junk h4 (popGcd_spec ok h2) tape
    · rw [if_neg hs, if_neg hs, stdVar_rep h hlive]
      have hsp := stdVar_spec ok h2 strat tape
      rcases e : stdVar strat p.state p.divCounts tape with e' | ⟨v, tape'⟩
      · exact rfl
      · rw [e] at hsp
        obtain ⟨x, y, h3, h4, h5⟩ := h.rep.stdSplitVar ok.ok junk hsp.1
        obtain ⟨l1, l2⟩ := live_stdSplitVar ok.ok h2 v
        simp only [h3]
        exact ⟨h4, h5, rfl, l1, l2⟩
  | widen strat =>
    unfold doPivotWords doPivot
    have h3 := stdPivot_rep h ok h2 hlive junk strat tape
    rcases e1 : stdPivotWords junk strat o.state o.divCounts tape with e | ⟨b, t'⟩ <;>
    rcases e2 : stdPivot strat p.state p.divCounts tape with e' | ⟨t, t''⟩ <;> rw [e1, e2] at h3
    · exact h3
    · exact h3.elim
    · exact h3.elim
    · obtain ⟨h4, h5, h6⟩ := h3
      have h5' : t' = t'' := h5
      subst h5'
      obtain ⟨wide, h7, h8⟩ := gcdOfMultiples_packs h.rep.pos h.rep.holds (gcd := pivotArray junk 4 p.state.varCount) h4 (junk_length _ _ _)
      simp only [h.rep.varCount, h7, checked, bind, Except.bind]
      exact stdSplit_sim h ok h2 junk h8 (widen_spec ok h6) t'
  | gen strat => exact genPivot_rep h ok h2 junk strat tape
  | composite gs =>
    unfold doPivotWords doPivot
    have hG : 0 < p.state.ideal.gens.length := by
      change 0 < p.state.genCount
      omega
    have h3 := compositeFilter_rep h ok h2 junk gs tape p.state.ideal.gens.length h.rep.holds (Nat.le_refl _) hG
    have h4 := compositeFilter_spec ok h2 gs tape p.state.ideal.gens.length p.state.ideal.gens (Nat.le_refl _) hG
    rw [h.rep.varCount, h.rep.holds.stop_eq]
    change ESim _ _ (match compositeFilter p.state.varCount p.divCounts gs tape p.state.ideal.gens.length p.state.ideal.gens with
      | .error e => .error e
      | .ok (l, tape') => ((withGens p.state l).genSplit 0).map fun r => (r, tape'))
    rcases e1 : compositeFilterWords junk p.state.varCount o.divCounts gs tape p.state.ideal.gens.length o.state.ideal with e | ⟨I, t'⟩ <;>
    rcases e2 : compositeFilter p.state.varCount p.divCounts gs tape p.state.ideal.gens.length p.state.ideal.gens with e' | ⟨l, t''⟩ <;>
      rw [e1, e2] at h3
    · exact h3
    · exact h3.elim
    · exact h3.elim
    · rw [e2] at h4
      obtain ⟨h5, h6, h7⟩ := h3
      have h7' : t' = t'' := h7
      subst h7'
      exact withGens_sim h.rep ok.ok h2 junk h5 h6 h4 t'
  | hybrid q q' ih ih' =>
    unfold doPivotWords doPivot
    rw [h.rep.nonEliminated, h.rep.genCount]
    simp only
    split
    · exact ih
    · exact ih'

end Frobby

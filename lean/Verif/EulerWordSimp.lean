import Verif.EulerWordRep

/-!
# The simplifications on words
-/

namespace Frobby

/-- The words are those of the state, and the array of counts is the function. -/
structure RepO (N : ℕ) (o : SimpWords) (p : SimpState) : Prop where
  acc : o.acc = p.acc
  rep : ERep N o.state p.state
  len : o.divCounts.length = p.state.varCount
  counts : ∀ v, o.divCounts.getD v 0 = p.divCounts v

/-- The results of a simplification. -/
def RepR (N : ℕ) (r : SimpWords × Bool) (q : SimpState × Bool) : Prop := r.2 = q.2 ∧ RepO N r.1 q.1

theorem RepO.get {N : ℕ} {o : SimpWords} {p : SimpState} (h : RepO N o p) {v : ℕ} (hv : v < p.state.varCount) :
    o.divCounts[v]? = some (p.divCounts v) := by
  have h1 := h.counts v
  have h2 : v < o.divCounts.length := by rw [h.len]; exact hv
  rw [List.getElem?_eq_getElem h2, ← h1, List.getD_eq_getElem _ _ h2]

theorem RepO.countsOf {N : ℕ} {o : SimpWords} {p : SimpState} (h : RepO N o p) :
    Frobby.countsOf o.divCounts p.state.varCount = .ok p.divCounts := by
  unfold Frobby.countsOf
  rw [if_pos (by rw [h.len])]
  congr 1
  funext v
  exact h.counts v

theorem colonAndZero_rep {N : ℕ} {o : SimpWords} {p : SimpState} (h : RepO N o p) (ok : StateOk p.state) (acc : ℤ) {v : ℕ}
    (hv : v < p.state.varCount) :
    ∃ r, colonAndZero o acc v = .ok r ∧ RepR N r
      (if (p.state.toColonVar v).genCount ≠ p.state.genCount then (⟨acc, p.state.toColonVar v, p.divCounts⟩, true)
      else (⟨acc, p.state.toColonVar v, zeroAt p.divCounts v⟩, false)) := by
  obtain ⟨w, h1, h2⟩ := h.rep.toColonVar ok hv
  have hvc := toColonVar_varCount ok v
  unfold colonAndZero
  rw [h1]
  change ∃ r, (if w.genCount ≠ o.state.genCount then (Except.ok (⟨acc, w, o.divCounts⟩, true) : Except Stop (SimpWords × Bool)) else
    (zeroAtWords o.divCounts v >>= fun d => .ok (⟨acc, w, d⟩, false))) = .ok r ∧ _
  rw [h2.genCount, h.rep.genCount]
  by_cases hc : (p.state.toColonVar v).genCount ≠ p.state.genCount
  · rw [if_pos hc, if_pos hc]
    exact ⟨_, rfl, rfl, rfl, h2, h.len.trans hvc.symm, h.counts⟩
  · rw [if_neg hc, if_neg hc]
    have hvl : v < o.divCounts.length := by rw [h.len]; exact hv
    unfold zeroAtWords
    rw [if_pos hvl]
    refine ⟨_, rfl, rfl, rfl, h2, ?_, fun u => ?_⟩
    · change (o.divCounts.set v 0).length = _
      rw [List.length_set, h.len]
      exact hvc.symm
    · change (o.divCounts.set v 0).getD u 0 = if u = v then 0 else p.divCounts u
      rw [← h.counts u, List.getD_eq_getElem?_getD, List.getElem?_set]
      by_cases huv : u = v
      · subst huv
        simp [hvl]
      · rw [if_neg (Ne.symm huv), if_neg huv, List.getD_eq_getElem?_getD]

theorem termTmp_ok (junk : Junk) {size varCount : ℕ} (h : wordCount varCount ≤ size) :
    ∃ a, termTmp junk size varCount = .ok a ∧ a.length = wordCount varCount := by
  unfold termTmp
  rw [if_pos h]
  exact ⟨_, rfl, junk_length _ _ _⟩

theorem getNonMultiple_lt {I : SqIdeal} {v : ℕ} (h : ∃ g ∈ I.gens, v ∉ g) : I.getNonMultiple v < I.gens.length := by
  unfold SqIdeal.getNonMultiple
  rw [List.findIdx_lt_length]
  obtain ⟨g, hg, hn⟩ := h
  exact ⟨g, hg, by simpa using hn⟩

theorem fullWithNonMultiple_eq {N size : ℕ} {w : EulerWords} {s : EulerState} (h : ERep N w s) (hsize : wordCount N ≤ size) (junk : Junk)
    {v : ℕ} (hv : v < s.varCount) (hex : ∃ g ∈ s.ideal.gens, v ∉ g) :
    fullWithNonMultiple junk size w v =
      .ok (termHasFullSupport (insert v ((s.ideal.gens.getD (s.ideal.getNonMultiple v) ∅) ∪ s.eliminated)) s.varCount) := by
  have hi := getNonMultiple_lt hex
  obtain ⟨tmp, ht, htl⟩ := termTmp_ok junk ((wordCount_mono h.pre.bound.1).trans hsize)
  obtain ⟨g, hg, hgp⟩ := h.generator hi
  obtain ⟨e, he, hep⟩ := h.elim_ok
  obtain ⟨t1, ht1, hp1⟩ := (C48_lcm h.pos hgp hep (htl.trans (packs_length hgp).symm)).2.1
  obtain ⟨t2, ht2, hp2⟩ := (C48_setExponent hp1 hv).1
  unfold fullWithNonMultiple
  have hm : w.ideal.getNonMultiple v = some (s.ideal.getNonMultiple v) := rsfGetNonMultiple_spec hv h.holds
  simp only [hm, checked, bind, Except.bind, hg, h.varCount, ht, he, ht1, ht2, (C48_support h.pos hp2).2.2.1]
  rw [List.getD_eq_getElem _ _ hi]
  rfl

theorem fullWithLcm_eq {N size : ℕ} {w : EulerWords} {s : EulerState} (h : ERep N w s) (hsize : wordCount N ≤ size) (junk : Junk)
    {v : ℕ} (hv : v < s.varCount) :
    fullWithLcm junk size w v = .ok (termHasFullSupport (insert v (s.ideal.lcmOfNonMultiples v ∪ s.eliminated)) s.varCount) := by
  obtain ⟨tmp, ht, htl⟩ := termTmp_ok junk ((wordCount_mono h.pre.bound.1).trans hsize)
  obtain ⟨l, hl, hlp⟩ := lcmOfNonMultiples_packs h.pos hv h.holds
  obtain ⟨e, he, hep⟩ := h.elim_ok
  obtain ⟨t1, ht1, hp1⟩ := (C48_lcm h.pos hlp hep rfl).2.2.2
  obtain ⟨t2, ht2, hp2⟩ := (C48_setExponent hp1 hv).1
  unfold fullWithLcm
  simp only [checked, bind, Except.bind, h.varCount, ht, he, hl, ht1, ht2, (C48_support h.pos hp2).2.2.1]
  rfl

/-- One round of a loop that ends early. -/
theorem varLoop_step {N : ℕ} {step : SimpWords → ℕ → Except Stop (SimpWords × Bool)} {v : ℕ} {vs : List ℕ} {o : SimpWords}
    {r : SimpWords × Bool} {q q' : SimpState × Bool} (h1 : step o v = .ok r) (h2 : RepR N r q)
    (hq : q.2 = true → q' = q) (hnext : q.2 = false → ∃ r', varLoop step vs r.1 = .ok r' ∧ RepR N r' q') :
    ∃ r', varLoop step (v :: vs) o = .ok r' ∧ RepR N r' q' := by
  obtain ⟨o', b⟩ := r
  obtain ⟨p', b'⟩ := q
  obtain ⟨rfl, h2⟩ := h2
  unfold varLoop
  rw [h1]
  cases b with
  | true => exact ⟨_, rfl, by rw [hq rfl]; exact ⟨rfl, h2⟩⟩
  | false => exact hnext rfl

theorem manyDivLoop_rep {N size : ℕ} (junk : Junk) (hsize : wordCount N ≤ size) {G : ℕ} (hG : 2 < G) (vs : List ℕ) :
    ∀ {o : SimpWords} {p : SimpState}, RepO N o p → OptOk p → p.state.genCount = G → (∀ v ∈ vs, v < p.state.varCount) →
      ∃ r, varLoop (manyDivStep junk size G) vs o = .ok r ∧ RepR N r (manyDivLoop G vs p) := by
  induction vs with
  | nil => intro o p h _ _ _; exact ⟨_, rfl, rfl, h⟩
  | cons v vs ih =>
    intro o p h ok hg hvs
    have hv : v < p.state.varCount := hvs v (by simp)
    have hvs' : ∀ u ∈ vs, u < p.state.varCount := fun u hu => hvs u (List.mem_cons_of_mem _ hu)
    have hd := h.get hv
    unfold manyDivLoop
    by_cases h1 : p.divCounts v < G - 2
    · rw [if_pos h1]
      refine varLoop_step (r := (o, false)) (q := (p, false)) ?_ ⟨rfl, h⟩ (fun hh => by cases hh) fun _ => ih h ok hg hvs'
      unfold manyDivStep
      simp only [hd, checked, bind, Except.bind, if_pos h1]
      rfl
    · rw [if_neg h1]
      by_cases h2 : p.divCounts v = G - 1
      · rw [if_pos h2]
        have hex : ∃ g ∈ p.state.ideal.gens, v ∉ g := by
          by_contra hno
          push Not at hno
          have hc := ok.counts v
          rw [List.countP_eq_length.2 (by simpa using hno)] at hc
          unfold EulerState.genCount at hg
          omega
        have hf := fullWithNonMultiple_eq h.rep hsize junk hv hex
        obtain ⟨r, hr1, hr2⟩ := colonAndZero_rep h ok.ok (if termHasFullSupport (insert v ((p.state.ideal.gens.getD
          (p.state.ideal.getNonMultiple v) ∅) ∪ p.state.eliminated)) p.state.varCount then p.acc + p.state.sign else p.acc) hv
        refine varLoop_step (r := r) ?_ hr2 (fun hh => ?_) fun hh => ?_
        · unfold manyDivStep
          simp only [hd, checked, bind, Except.bind, if_neg h1, if_pos h2, hf, h.acc, h.rep.sign]
          exact hr1
        · split at hh
          · rename_i hne
            simp only [if_pos hne]
          · cases hh
        · split at hh
          · cases hh
          · rename_i hne
            rw [if_neg hne] at hr2
            simp only [if_neg hne]
            push Not at hne
            refine ih hr2.2 (toColonVar_optOk ok hv _ hne) (hne.trans hg) fun u hu => ?_
            change u < (p.state.toColonVar v).varCount
            rw [toColonVar_varCount ok.ok]
            exact hvs' u hu
      · rw [if_neg h2]
        by_cases h3 : p.divCounts v = G - 2
        · rw [if_pos h3]
          have hf := fullWithLcm_eq h.rep hsize junk hv
          obtain ⟨r, hr1, hr2⟩ := colonAndZero_rep h ok.ok (if termHasFullSupport (insert v (p.state.ideal.lcmOfNonMultiples v ∪
            p.state.eliminated)) p.state.varCount then p.acc - p.state.sign else p.acc) hv
          refine varLoop_step (r := r) ?_ hr2 (fun hh => ?_) fun hh => ?_
          · unfold manyDivStep
            simp only [hd, checked, bind, Except.bind, if_neg h1, if_neg h2, if_pos h3, hf, h.acc, h.rep.sign]
            exact hr1
          · split at hh
            · rename_i hne
              simp only [if_pos hne]
            · cases hh
          · split at hh
            · cases hh
            · rename_i hne
              rw [if_neg hne] at hr2
              simp only [if_neg hne]
              push Not at hne
              refine ih hr2.2 (toColonVar_optOk ok hv _ hne) (hne.trans hg) fun u hu => ?_
              change u < (p.state.toColonVar v).varCount
              rw [toColonVar_varCount ok.ok]
              exact hvs' u hu
        · rw [if_neg h3]
          have hall : p.divCounts v = p.state.genCount := by
            have hc := ok.counts v
            have hle : p.state.ideal.gens.countP (fun g => v ∈ g) ≤ p.state.ideal.gens.length := List.countP_le_length
            unfold EulerState.genCount at hg ⊢
            omega
          have hok := (manyDiv_all ok (by rw [hg]; exact hG) hall).1
          obtain ⟨w, hw1, hw2⟩ := h.rep.toColonVarNo hv
          have hvl : v < o.divCounts.length := by rw [h.len]; exact hv
          refine varLoop_step (r := (⟨o.acc, w, o.divCounts.set v 0⟩, false))
            (q := (⟨p.acc, p.state.toColonVarNoReminimize v, zeroAt p.divCounts v⟩, false)) ?_ ⟨rfl, ?_⟩ (fun hh => by cases hh)
            fun _ => ?_
          · unfold manyDivStep
            simp only [hd, checked, bind, Except.bind, if_neg h1, if_neg h2, if_neg h3, hw1, zeroAtWords, if_pos hvl]
            rfl
          · refine ⟨h.acc, hw2, ?_, fun u => ?_⟩
            · change (o.divCounts.set v 0).length = _
              rw [List.length_set, h.len]
              rfl
            · change (o.divCounts.set v 0).getD u 0 = if u = v then 0 else p.divCounts u
              rw [← h.counts u, List.getD_eq_getElem?_getD, List.getElem?_set]
              by_cases huv : u = v
              · subst huv
                simp [hvl]
              · rw [if_neg (Ne.symm huv), if_neg huv, List.getD_eq_getElem?_getD]
          · refine ih ⟨h.acc, hw2, ?_, fun u => ?_⟩ hok ?_ hvs'
            · change (o.divCounts.set v 0).length = _
              rw [List.length_set, h.len]
              rfl
            · change (o.divCounts.set v 0).getD u 0 = if u = v then 0 else p.divCounts u
              rw [← h.counts u, List.getD_eq_getElem?_getD, List.getElem?_set]
              by_cases huv : u = v
              · subst huv
                simp [hvl]
              · rw [if_neg (Ne.symm huv), if_neg huv, List.getD_eq_getElem?_getD]
            · rw [← hg]
              simp [EulerState.genCount, EulerState.toColonVarNoReminimize, SqIdeal.colonVar]

theorem optimizeManyDiv_rep {N size : ℕ} (junk : Junk) (hsize : wordCount N ≤ size) {o : SimpWords} {p : SimpState} (h : RepO N o p)
    (ok : OptOk p) (hG : 2 < p.state.genCount) :
    ∃ r, optimizeManyDivWords junk size o = .ok r ∧ RepR N r (optimizeManyDiv p) := by
  unfold optimizeManyDivWords optimizeManyDiv
  rw [h.rep.genCount, h.rep.varCount]
  exact manyDivLoop_rep junk hsize hG _ h ok rfl fun v hv => List.mem_range.1 hv

theorem varPairsLoop_rep {N size : ℕ} (junk : Junk) (hsize : wordCount N ≤ size) (vs : List ℕ) :
    ∀ {o : SimpWords} {p : SimpState}, RepO N o p → OptOk p → (∀ v ∈ vs, v < p.state.varCount) →
      ∃ r, varLoop (varPairsStep junk size) vs o = .ok r ∧ RepR N r (varPairsLoop vs p) := by
  induction vs with
  | nil => intro o p h _ _; exact ⟨_, rfl, rfl, h⟩
  | cons v vs ih =>
    intro o p h ok hvs
    have hv : v < p.state.varCount := hvs v (by simp)
    have hvs' : ∀ u ∈ vs, u < p.state.varCount := fun u hu => hvs u (List.mem_cons_of_mem _ hu)
    obtain ⟨e, he, hep⟩ := h.rep.elim_ok
    have hge := C48_getExponent hep hv
    have hf := fullWithLcm_eq h.rep hsize junk hv
    unfold varPairsLoop
    by_cases h1 : v ∈ p.state.eliminated
    · rw [if_pos h1]
      refine varLoop_step (r := (o, false)) (q := (p, false)) ?_ ⟨rfl, h⟩ (fun hh => by cases hh) fun _ => ih h ok hvs'
      unfold varPairsStep
      simp only [he, hge, checked, bind, Except.bind, h1, decide_true]
      rfl
    · rw [if_neg h1]
      by_cases h2 : termHasFullSupport (insert v (p.state.ideal.lcmOfNonMultiples v ∪ p.state.eliminated)) p.state.varCount = true
      · rw [if_pos h2]
        refine varLoop_step (r := (o, false)) (q := (p, false)) ?_ ⟨rfl, h⟩ (fun hh => by cases hh) fun _ => ih h ok hvs'
        unfold varPairsStep
        simp only [he, hge, checked, bind, Except.bind, h1, decide_false, hf, h2]
        rfl
      · rw [if_neg h2]
        obtain ⟨r, hr1, hr2⟩ := colonAndZero_rep h ok.ok p.acc hv
        refine varLoop_step (r := r) ?_ hr2 (fun hh => ?_) fun hh => ?_
        · unfold varPairsStep
          rw [Bool.not_eq_true] at h2
          simp only [he, hge, checked, bind, Except.bind, h1, decide_false, hf, h2, h.acc]
          exact hr1
        · split at hh
          · rename_i hne
            simp only [if_pos hne]
          · cases hh
        · split at hh
          · cases hh
          · rename_i hne
            rw [if_neg hne] at hr2
            simp only [if_neg hne]
            push Not at hne
            refine ih hr2.2 (toColonVar_optOk ok hv _ hne) fun u hu => ?_
            change u < (p.state.toColonVar v).varCount
            rw [toColonVar_varCount ok.ok]
            exact hvs' u hu

theorem optimizeVarPairs_rep {N size : ℕ} (junk : Junk) (hsize : wordCount N ≤ size) {o : SimpWords} {p : SimpState} (h : RepO N o p)
    (ok : OptOk p) : ∃ r, optimizeVarPairsWords junk size o = .ok r ∧ RepR N r (optimizeVarPairs p) := by
  unfold optimizeVarPairsWords optimizeVarPairs
  rw [h.rep.varCount]
  exact varPairsLoop_rep junk hsize _ h ok fun v hv => List.mem_range.1 hv

theorem dropGenerator_rep {N : ℕ} {w : EulerWords} {s : EulerState} (h : ERep N w s) {i : ℕ} (hi : i < s.ideal.gens.length) :
    ∃ w', dropGenerator w i = .ok w' ∧ ERep N w' (s.removeGenerator i).flipSign := by
  obtain ⟨w', h1, h2⟩ := h.removeGenerator hi
  refine ⟨w'.flipSign, ?_, h2.flipSign⟩
  unfold dropGenerator
  rw [h1]
  rfl

theorem uniqueDivLoop_rep {N : ℕ} (d : ℕ → ℕ) (vs : List ℕ) :
    ∀ {w : EulerWords} {s : EulerState} {b : List Word} {tmp : SqTerm}, ERep N w s → Packs s.varCount b tmp → PendingOk d s tmp →
      (∀ v ∈ vs, v < s.varCount) →
      ∃ w' b', uniqueDivLoopWords d vs w b = .ok (w', b') ∧ ERep N w' (uniqueDivLoop d vs s tmp).1 ∧
        Packs s.varCount b' (uniqueDivLoop d vs s tmp).2 := by
  induction vs with
  | nil => intro w s b tmp h hb _ _; exact ⟨w, b, rfl, h, hb⟩
  | cons v vs ih =>
    intro w s b tmp h hb hp hvs
    have hv : v < s.varCount := hvs v (by simp)
    have hvs' : ∀ u ∈ vs, u < s.varCount := fun u hu => hvs u (List.mem_cons_of_mem _ hu)
    unfold uniqueDivLoopWords uniqueDivLoop
    by_cases h1 : d v ≠ 1
    · rw [if_pos h1, if_pos (Or.inl h1)]
      exact ih h hb hp hvs'
    · rw [if_neg h1, C48_getExponent hb hv]
      by_cases h2 : v ∈ tmp
      · rw [if_pos (Or.inr h2)]
        simp only [h2, decide_true]
        exact ih h hb hp hvs'
      · rw [if_neg (by tauto)]
        simp only [h2, decide_false]
        push Not at h1
        have hm : ∃ g ∈ s.ideal.gens, v ∈ g := exists_of_count (by rw [← hp.counts v h2, h1]; omega)
        obtain ⟨hi, _, _⟩ := getMultiple_spec hm
        obtain ⟨g, hg, hgp⟩ := h.generator hi
        obtain ⟨t, ht, htp⟩ := (C48_lcm h.pos hb hgp rfl).2.2.2
        obtain ⟨w1, hw1, hw2⟩ := dropGenerator_rep h hi
        have hgm : w.ideal.getMultiple v = some (s.ideal.getMultiple v) := rsfGetMultiple_spec hv h.holds
        rw [← List.getD_eq_getElem _ ∅ hi] at htp
        obtain ⟨w', b', h3, h4, h5⟩ := ih hw2 htp (removeUnique_spec hp h1 h2).1 hvs'
        refine ⟨w', b', ?_, h4, h5⟩
        simp only [hgm, checked, bind, Except.bind, hg, h.varCount, ht, hw1]
        exact h3

theorem optimizeUniqueDiv_rep {N size : ℕ} (junk : Junk) (hsize : wordCount N ≤ size) {o : SimpWords} {p : SimpState} (h : RepO N o p)
    (ok : OptOk p) : ∃ r, optimizeUniqueDivWords junk size o = .ok r ∧ RepR N r (optimizeUniqueDiv p) := by
  unfold optimizeUniqueDivWords optimizeUniqueDiv
  rw [h.rep.varCount, h.countsOf]
  change ∃ r, (match (List.range p.state.varCount).dropWhile fun v => p.divCounts v ≠ 1 with
    | [] => Except.ok (o, false)
    | v :: vs => uniqueDivFrom junk size o p.divCounts v vs) = .ok r ∧ _
  cases hdw : (List.range p.state.varCount).dropWhile fun v => p.divCounts v ≠ 1 with
  | nil => exact ⟨_, rfl, rfl, h⟩
  | cons v vs =>
    have hd : p.divCounts v = 1 := by
      have := List.head_dropWhile_not (l := List.range p.state.varCount) (fun v => decide (p.divCounts v ≠ 1)) (by rw [hdw]; simp)
      simp only [hdw, List.head_cons] at this
      simpa using this
    have hmem : ∀ u ∈ v :: vs, u < p.state.varCount := fun u hu => by
      rw [← hdw] at hu
      exact List.mem_range.1 ((List.dropWhile_sublist _).subset hu)
    have hv := hmem v (by simp)
    have hvs : ∀ u ∈ vs, u < p.state.varCount := fun u hu => hmem u (List.mem_cons_of_mem _ hu)
    have hpend : PendingOk p.divCounts p.state ∅ := ⟨ok.ok, by simp, by simp, fun v hv => by
      have := ok.full v hv
      simpa using this, fun v _ => ok.counts v⟩
    have hm : ∃ g ∈ p.state.ideal.gens, v ∈ g := exists_of_count (by rw [← ok.counts v, hd]; omega)
    obtain ⟨hi, _, _⟩ := getMultiple_spec hm
    obtain ⟨g, hg, hgp⟩ := h.rep.generator hi
    obtain ⟨w1, hw1, hw2⟩ := dropGenerator_rep h.rep hi
    obtain ⟨tmp, ht, htl⟩ := termTmp_ok junk ((wordCount_mono h.rep.pre.bound.1).trans hsize)
    have hass := (C48_assign h.rep.pos (htl.trans (packs_length hgp).symm) hgp).2.1
    have hgm : o.state.ideal.getMultiple v = some (p.state.ideal.getMultiple v) := rsfGetMultiple_spec hv h.rep.holds
    rw [← List.getD_eq_getElem _ ∅ hi] at hgp
    have hp1 := (removeUnique_spec hpend hd (by simp)).1
    rw [Finset.empty_union] at hp1
    obtain ⟨w2, b2, h3, h4, h5⟩ := uniqueDivLoop_rep p.divCounts vs hw2 hgp hp1 hvs
    obtain ⟨hp2, _, _, _, _, _, hvc⟩ := uniqueDivLoop_spec p.divCounts vs hp1
    have h5' := h5
    rw [show (p.state.removeGenerator (p.state.ideal.getMultiple v)).flipSign.varCount = p.state.varCount from rfl] at h5 hvc
    rw [show (p.state.removeGenerator (p.state.ideal.getMultiple v)).flipSign.varCount = p.state.varCount from rfl, ← hvc] at h5'
    obtain ⟨w3, h6, h7⟩ := h4.toColon hp2.ok h5'
    have hvc3 : ((uniqueDivLoop p.divCounts vs (p.state.removeGenerator (p.state.ideal.getMultiple v)).flipSign
        (p.state.ideal.gens.getD (p.state.ideal.getMultiple v) ∅)).1.toColon
        (uniqueDivLoop p.divCounts vs (p.state.removeGenerator (p.state.ideal.getMultiple v)).flipSign
        (p.state.ideal.gens.getD (p.state.ideal.getMultiple v) ∅)).2).varCount = p.state.varCount :=
      (colonReminimize_spec hp2.ok.anti _).1.trans hvc
    obtain ⟨dd, hd1, hd2, hd3⟩ := (C48_atSupport h.rep.pos h5 h.len).1
    change ∃ r, uniqueDivFrom junk size o p.divCounts v vs = .ok r ∧ _
    unfold uniqueDivFrom
    simp only [hgm, checked, bind, Except.bind, hg, h.rep.varCount, ht, hass, hw1, h3, h6, h7.genCount, h4.genCount]
    split
    · rename_i hc
      exact ⟨_, rfl, rfl, h.acc, h7, h.len.trans hvc3.symm, h.counts⟩
    · rw [hd1]
      refine ⟨_, rfl, rfl, h.acc, h7, hd2.trans hvc3.symm, fun u => ?_⟩
      change dd.getD u 0 = if _ then 0 else p.divCounts u
      by_cases hu : u < p.state.varCount
      · rw [hd3 u hu, h.counts u]
      · rw [List.getD_eq_default _ _ (by omega)]
        have : p.divCounts u = 0 := by
          rw [← h.counts u, List.getD_eq_default _ _ (by rw [h.len]; omega)]
        rw [this]
        simp

theorem baseCase_rep {N : ℕ} {w : EulerWords} {s : EulerState} (h : ERep N w s) (acc : ℤ) :
    baseCaseWords acc w = .ok (baseCaseSimple1 acc s) := by
  obtain ⟨e, he, hep⟩ := h.elim_ok
  have hf : w.ideal.hasFullSupport e = some (s.ideal.hasFullSupport s.eliminated) :=
    (C49_refines h.pos h.holds).2.2.2.2.2.2.2.2.2.2.2.2.2 e s.eliminated hep
  unfold baseCaseWords baseCaseSimple1
  simp only [he, hf, checked, bind, Except.bind, h.genCount, h.varCount, h.sign, (C48_support h.pos hep).2.2.1]
  have e2 : termHasFullSupport s.eliminated s.varCount = decide (s.eliminated = Finset.range s.varCount) := rfl
  rw [e2]
  split
  · rfl
  split
  · rfl
  split
  · rfl
  split
  · rfl
  split <;> rfl

theorem shouldTranspose_rep {N : ℕ} {w : EulerWords} {s : EulerState} (h : ERep N w s) (p : Pivot) :
    shouldTransposeWords p w = shouldTranspose p s := by
  cases p <;> simp only [shouldTransposeWords, shouldTranspose, h.varCount, h.genCount]

/-- What the rounds come to is the same. -/
def RepRound (N : ℕ) : RoundWords → Round → Prop
  | .base a, .base b => a = b
  | .again a w, .again b s => a = b ∧ ERep N w s
  | .split o, .split p => RepO N o p
  | _, _ => False

theorem roundEnd_rep {N : ℕ} (cfg : EulerConfig) (junk : Junk) {o : SimpWords} {p : SimpState} (h : RepO N o p)
    (hG : 0 < p.state.genCount) :
    ∃ r, roundEnd cfg junk o = .ok r ∧ RepRound N r
      (if cfg.allPairs && decide (p.state.genCount = 3) then .base (p.acc + (p.state.sign + p.state.sign))
      else if cfg.autoTranspose && shouldTranspose cfg.pivot p.state then .again p.acc p.state.transpose else .split p) := by
  unfold roundEnd
  rw [h.rep.genCount, shouldTranspose_rep h.rep, h.acc, h.rep.sign]
  by_cases h1 : (cfg.allPairs && decide (p.state.genCount = 3)) = true
  · rw [if_pos h1, if_pos h1]
    exact ⟨_, rfl, rfl⟩
  · rw [if_neg h1, if_neg h1]
    by_cases h2 : (cfg.autoTranspose && shouldTranspose cfg.pivot p.state) = true
    · rw [if_pos h2, if_pos h2]
      obtain ⟨w, hw1, hw2⟩ := h.rep.transpose hG junk
      rw [hw1]
      exact ⟨_, rfl, rfl, hw2⟩
    · rw [if_neg h2, if_neg h2]
      exact ⟨_, rfl, h⟩

/-- The end of a round, on sets. -/
def afterPairs (cfg : EulerConfig) (p : SimpState) : Round :=
  if cfg.allPairs && decide (p.state.genCount = 3) then .base (p.acc + (p.state.sign + p.state.sign))
  else if cfg.autoTranspose && shouldTranspose cfg.pivot p.state then .again p.acc p.state.transpose else .split p

/-- A simplification and what follows, on sets. -/
def simplifyThenS (on : Bool) (g : SimpState → SimpState × Bool) (nextS : SimpState → Round) (p : SimpState) : Round :=
  if (if on then g p else (p, false)).2 then .again (if on then g p else (p, false)).1.acc (if on then g p else (p, false)).1.state
  else nextS (if on then g p else (p, false)).1

theorem simplifyThen_rep {N : ℕ} {on : Bool} {f : SimpWords → Except Stop (SimpWords × Bool)} {o : SimpWords} {p : SimpState}
    {next : SimpWords → Except Stop RoundWords} {g : SimpState → SimpState × Bool} {nextS : SimpState → Round} (h : RepO N o p)
    (hf : ∃ r, f o = .ok r ∧ RepR N r (g p))
    (hnext : ∀ o' p', RepO N o' p' → (if on then g p else (p, false)) = (p', false) →
      ∃ r, next o' = .ok r ∧ RepRound N r (nextS p')) :
    ∃ r, simplifyThen on f o next = .ok r ∧ RepRound N r (simplifyThenS on g nextS p) := by
  unfold simplifyThen simplifyThenS
  cases on with
  | false => exact hnext o p h rfl
  | true =>
    obtain ⟨⟨o', b⟩, h1, h2⟩ := hf
    rcases hg : g p with ⟨p', b'⟩
    rw [hg] at h2
    obtain ⟨e, h2⟩ := h2
    change b = b' at e
    subst e
    simp only [if_true, hg, h1] at hnext ⊢
    cases b with
    | true => exact ⟨_, rfl, h2.acc, h2.rep⟩
    | false => exact hnext o' p' h2 rfl

theorem eulerRound_rep {N size : ℕ} (cfg : EulerConfig) (junk : Junk) (hsize : wordCount N ≤ size) (acc : ℤ) {w : EulerWords}
    {s : EulerState} (h : ERep N w s) (ok : StateOk s) :
    ∃ r, eulerRoundWords cfg junk size acc w = .ok r ∧ RepRound N r (eulerRound cfg acc s) := by
  unfold eulerRoundWords eulerRound
  rw [baseCase_rep h]
  cases hb : baseCaseSimple1 acc s with
  | some a => exact ⟨_, rfl, rfl⟩
  | none =>
    obtain ⟨hfull, hG⟩ := baseCaseSimple1_none ok hb
    have hd : w.ideal.varDividesCounts ((junk.array 6 bitsPerWord).map BitVec.toNat) =
        some ((List.range s.varCount).map s.ideal.varDividesCounts) :=
      varDividesCounts_spec h.holds (by rw [List.length_map, junk_length]; rfl)
    simp only [hd]
    have ok1 : OptOk ⟨acc, s, s.ideal.varDividesCounts⟩ := ⟨ok, hfull, fun v => rfl⟩
    have h1 : RepO N ⟨acc, w, (List.range s.varCount).map s.ideal.varDividesCounts⟩ ⟨acc, s, s.ideal.varDividesCounts⟩ := by
      refine ⟨rfl, h, by simp, fun v => ?_⟩
      by_cases hv : v < s.varCount
      · simp [List.getD_eq_getElem?_getD, hv]
      · rw [List.getD_eq_default _ _ (by simp; omega)]
        change 0 = s.ideal.gens.countP fun g => v ∈ g
        symm
        rw [List.countP_eq_zero]
        intro g hg hvg
        exact hv (Finset.mem_range.1 (ok.sub g hg (by simpa using hvg)))
    change ∃ r, _ ∧ RepRound N r (simplifyThenS cfg.uniqueDiv optimizeUniqueDiv (simplifyThenS cfg.manyDiv optimizeManyDiv
      (simplifyThenS cfg.allPairs optimizeVarPairs (afterPairs cfg))) ⟨acc, s, s.ideal.varDividesCounts⟩)
    refine simplifyThen_rep h1 (optimizeUniqueDiv_rep junk hsize h1 ok1) fun o2 p2 h2 e2 => ?_
    have k2 : OptOk p2 ∧ 2 < p2.state.genCount := by
      cases hu : cfg.uniqueDiv with
      | false =>
        rw [hu] at e2
        cases e2
        exact ⟨ok1, hG⟩
      | true =>
        rw [hu, if_pos rfl] at e2
        have := (optimizeUniqueDiv_spec ok1 hG).1.done
        rw [e2] at this
        exact this rfl
    refine simplifyThen_rep h2 (optimizeManyDiv_rep junk hsize h2 k2.1 k2.2) fun o3 p3 h3 e3 => ?_
    have k3 : OptOk p3 ∧ 2 < p3.state.genCount := by
      cases hu : cfg.manyDiv with
      | false =>
        rw [hu] at e3
        cases e3
        exact k2
      | true =>
        rw [hu, if_pos rfl] at e3
        have := (optimizeManyDiv_spec k2.1 k2.2).1.done
        rw [e3] at this
        exact this rfl
    refine simplifyThen_rep h3 (optimizeVarPairs_rep junk hsize h3 k3.1) fun o4 p4 h4 e4 => ?_
    have k4 : OptOk p4 ∧ 2 < p4.state.genCount := by
      cases hu : cfg.allPairs with
      | false =>
        rw [hu] at e4
        cases e4
        exact k3
      | true =>
        rw [hu, if_pos rfl] at e4
        have := (optimizeVarPairs_spec k3.1 k3.2).1.done
        rw [e4] at this
        exact this rfl
    exact roundEnd_rep cfg junk h4 (by omega)

end Frobby

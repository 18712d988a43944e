import Verif.RsfCompact

/-!
# Asking about ideals of packed terms
-/

namespace Frobby

/-! ### Inserting terms of exponents -/

theorem encodeLoop_append {α : Type} (digit : α → Option Bool) (rest : List Word) (n : ℕ) :
    ∀ (enc : List Word) (l : List α) (o : Option (List Word)), l.length = n → encodeLoop digit enc l = some o →
      encodeLoop digit (enc ++ rest) l = some (o.map (· ++ rest)) := by
  induction n using Nat.strongRecOn with
  | _ n ih =>
    intro enc l o hn h
    match enc, l with
    | enc, [] =>
      rw [encodeLoop] at h ⊢
      cases h
      rfl
    | [], e :: l => rw [encodeLoop] at h; cases h
    | w0 :: enc, e :: l =>
      cases hw : encodeWord digit (e :: l) 1 0 with
      | none =>
        rw [encodeLoop_cons_none digit w0 enc e l hw] at h
        cases h
        exact encodeLoop_cons_none digit w0 (enc ++ rest) e l hw
      | some p =>
        obtain ⟨w, l'⟩ := p
        rw [encodeLoop_cons_some digit w0 enc e l w l' hw] at h
        rw [List.cons_append, encodeLoop_cons_some digit w0 (enc ++ rest) e l w l' hw]
        have hlt := encodeWord_length digit _ _ _ _ hw
        simp only [List.length_cons] at hlt hn
        cases hr : encodeLoop digit enc l' with
        | none => rw [hr] at h; cases h
        | some o' =>
          rw [hr] at h
          cases h
          rw [ih l'.length (by omega) enc l' o' rfl hr]
          cases o' <;> rfl

theorem encode_into {V : ℕ} {r : RsfIdeal} {gens : List (Finset ℕ)} (h : Holds r V gens)
    (hroom : r.wordsPerTerm * (gens.length + 1) ≤ r.memory.length) :
    ∃ enc rest, r.memory.drop r.memoryEnd = enc ++ rest ∧ enc.length = wordCount V ∧
      ∀ t s, Packs V t s → Holds ⟨r.varCount, r.wordsPerTerm, r.genCount + 1, r.memoryEnd + r.wordsPerTerm,
        r.memory.take r.memoryEnd ++ (t ++ rest)⟩ V (gens ++ [s]) ∧
        (r.memory.take r.memoryEnd ++ (t ++ rest)).length = r.memory.length := by
  obtain ⟨h1, h2, h3, h4, h5, h6⟩ := holds_iff.1 h
  rw [Nat.mul_succ] at hroom
  refine ⟨(r.memory.drop r.memoryEnd).take (wordCount V), (r.memory.drop r.memoryEnd).drop (wordCount V),
    (List.take_append_drop _ _).symm, ?_, fun t s ht => ?_⟩
  · rw [List.length_take, List.length_drop]
    omega
  · refine h.add ht (writeWords_eq_some.2 ⟨?_, ?_⟩)
    · rw [packs_length ht]
      omega
    · rw [packs_length ht, List.drop_drop, List.append_assoc]

theorem insertAll_spec {V : ℕ} (hV : 0 < V) (l : List (List ℕ)) : ∀ (r : RsfIdeal) (gens : List (Finset ℕ)), Holds r V gens →
    (∀ g ∈ l, g.length = V) → r.wordsPerTerm * (gens.length + l.length) ≤ r.memory.length →
    ∃ r', r.insertAll l = some (r', (l.takeWhile fun g => g.all (· ≤ 1)).length) ∧
      Holds r' V (gens ++ (l.takeWhile fun g => g.all (· ≤ 1)).map supportOf) ∧ r'.memory.length = r.memory.length := by
  induction l with
  | nil => intro r gens h _ _; exact ⟨r, rfl, by simpa using h, rfl⟩
  | cons g l ih =>
    intro r gens h hl hroom
    rw [List.length_cons] at hroom
    obtain ⟨enc, rest, he, hlen, hadd⟩ := encode_into h ((Nat.mul_le_mul_left _ (by omega)).trans hroom)
    have hgV := hl g (by simp)
    obtain ⟨hbad, hgood⟩ := C48_encodeTerm (encoded := enc) (term := g) (by omega) (by rw [hgV]; exact hlen)
    rw [RsfIdeal.insertAll, he, List.takeWhile_cons]
    by_cases hall : g.all (· ≤ 1) = true
    · obtain ⟨t, ht, hp⟩ := hgood (by simpa using hall)
      rw [hgV] at hp
      have : wEncodeTerm (enc ++ rest) g = some (some (t ++ rest)) := encodeLoop_append _ rest _ enc g _ rfl ht
      obtain ⟨hh, hml⟩ := hadd t (supportOf g) (by unfold supportOf; rw [hgV]; exact hp)
      have hw := h.words
      obtain ⟨r', e1, e2, e3⟩ := ih _ _ hh (fun g hg => hl g (by simp [hg])) (by
        simp only [hml, List.length_append, List.length_singleton]
        rw [Nat.add_assoc, Nat.add_comm 1]
        exact hroom)
      refine ⟨r', ?_, ?_, e3.trans hml⟩
      · simp only [this, e1, hall, if_true, List.length_cons]
      · rw [if_pos hall]
        simpa using e2
    · have hx : ∃ e ∈ g, 1 < e := by
        rw [Bool.not_eq_true, List.all_eq_false] at hall
        obtain ⟨e, he, h1⟩ := hall
        exact ⟨e, he, by simpa using h1⟩
      have : wEncodeTerm (enc ++ rest) g = some none := encodeLoop_append _ rest _ enc g _ rfl (hbad hx)
      refine ⟨r, ?_, ?_, rfl⟩
      · simp only [this]
        rw [if_neg hall]
        rfl
      · rw [if_neg hall]
        simpa using h

theorem insertTexts_spec {V : ℕ} (hV : 0 < V) {r : RsfIdeal} {gens : List (Finset ℕ)} (h : Holds r V gens)
    {term : List (List Char)} (hl : term.length = V) (hroom : r.wordsPerTerm * (gens.length + 1) ≤ r.memory.length) :
    ((∃ e ∈ term, e ≠ [] ∧ e ≠ ['0'] ∧ e ≠ ['1']) → r.insertTexts term = some none) ∧
    ((∀ e ∈ term, e = [] ∨ e = ['0'] ∨ e = ['1']) → ∃ r', r.insertTexts term = some (some r') ∧
      Holds r' V (gens ++ [(Finset.range V).filter fun v => term[v]? = some ['1']])) := by
  obtain ⟨enc, rest, he, hlen, hadd⟩ := encode_into h hroom
  obtain ⟨hbad, hgood⟩ := C48_encodeTexts (encoded := enc) (term := term) (by omega) (by rw [hl]; exact hlen)
  unfold RsfIdeal.insertTexts
  rw [he]
  refine ⟨fun hx => ?_, fun hx => ?_⟩
  · have : wEncodeTexts (enc ++ rest) term = some none := encodeLoop_append _ rest _ enc term _ rfl (hbad hx)
    simp only [this]
  · obtain ⟨t, ht, hp⟩ := hgood hx
    rw [hl] at hp
    have : wEncodeTexts (enc ++ rest) term = some (some (t ++ rest)) := encodeLoop_append _ rest _ enc term _ rfl ht
    simp only [this]
    exact ⟨_, rfl, (hadd t _ hp).1⟩

/-! ### Least common multiples and greatest common divisors -/

theorem foldl_filter {α β : Type} (G : β → α → β) (q : α → Bool) (L : List α) : ∀ b,
    (L.filter q).foldl G b = L.foldl (fun b s => if q s then G b s else b) b := by
  induction L with
  | nil => intro b; rfl
  | cons s L ih =>
    intro b
    rw [List.filter_cons]
    by_cases h : q s = true
    · rw [if_pos h]
      simp [h, ih]
    · rw [if_neg h]
      simp [h, ih]

theorem lcmOfNonMultiples_packs {V v : ℕ} (hV : 0 < V) (hv : v < V) {r : RsfIdeal} {gens : List (Finset ℕ)} (h : Holds r V gens) :
    ∃ a, r.lcmOfNonMultiples v = some a ∧ Packs V a (unionAll (gens.filter fun g => v ∉ g)) := by
  unfold unionAll
  rw [foldl_filter]
  unfold RsfIdeal.lcmOfNonMultiples
  rw [h.stop_eq]
  refine foldTerms_spec (P := Packs V) gens 0 _ ∅ h.along (by rw [h.words]; exact packs_empty V) fun acc b a s _ _ hs hb => ?_
  rw [C48_getExponent hs hv]
  obtain ⟨c, hc, hp⟩ := (C48_lcm hV hb hs rfl).2.2.1
  by_cases hvs : v ∈ s
  · exact ⟨acc, by simp [hvs], by simpa [hvs] using hb⟩
  · exact ⟨c, by simpa [hvs] using hc, by simpa [hvs] using hp⟩

theorem getLcm_packs {V : ℕ} (hV : 0 < V) {r : RsfIdeal} {gens : List (Finset ℕ)} (h : Holds r V gens) :
    ∃ a, r.getLcm = some a ∧ Packs V a (unionAll gens) := by
  unfold unionAll RsfIdeal.getLcm
  rw [h.stop_eq]
  exact foldTerms_spec (P := Packs V) gens 0 _ ∅ h.along (by rw [h.words]; exact packs_empty V) fun acc b a s _ _ hs hb =>
    (C48_lcm hV hb hs rfl).2.2.1

theorem gcdOfMultiplesVar_packs {V v : ℕ} (hV : 0 < V) (hv : v < V) {r : RsfIdeal} {gens : List (Finset ℕ)} (h : Holds r V gens)
    {gcd : List Word} (hg : gcd.length = wordCount V) :
    ∃ a, r.gcdOfMultiplesVar gcd v = some a ∧ Packs V a ((gens.filter fun g => v ∈ g).foldl (· ∩ ·) (Finset.range V)) := by
  rw [foldl_filter]
  obtain ⟨g, hg1, hg2⟩ := (C48_setTo hV hg).2.2.2
  unfold RsfIdeal.gcdOfMultiplesVar
  rw [(holds_iff.1 h).1, hg1, h.stop_eq]
  refine foldTerms_spec (P := Packs V) gens 0 _ _ h.along hg2 fun acc b a s _ _ hs hb => ?_
  rw [C48_getExponent hs hv]
  obtain ⟨c, hc, hp⟩ := (C48_gcd hV hb hs rfl).2.2.1
  by_cases hvs : v ∈ s
  · exact ⟨c, by simpa [hvs] using hc, by simpa [hvs] using hp⟩
  · exact ⟨acc, by simp [hvs], by simpa [hvs] using hb⟩

theorem gcdOfMultiples_packs {V : ℕ} (hV : 0 < V) {r : RsfIdeal} {gens : List (Finset ℕ)} (h : Holds r V gens)
    {gcd div : List Word} {t : Finset ℕ} (ht : Packs V div t) (hg : gcd.length = wordCount V) :
    ∃ a, r.gcdOfMultiples gcd div = some a ∧ Packs V a ((gens.filter fun g => t ⊆ g).foldl (· ∩ ·) (Finset.range V)) := by
  rw [foldl_filter]
  obtain ⟨g, hg1, hg2⟩ := (C48_setTo hV hg).2.2.2
  unfold RsfIdeal.gcdOfMultiples
  rw [(holds_iff.1 h).1, hg1, h.stop_eq]
  refine foldTerms_spec (P := Packs V) gens 0 _ _ h.along hg2 fun acc b a s _ _ hs hb => ?_
  rw [(C48_relations hV ht hs).1]
  obtain ⟨c, hc, hp⟩ := (C48_gcd hV hb hs rfl).2.2.1
  by_cases hvs : t ⊆ s
  · exact ⟨c, by simpa [hvs] using hc, by simpa [hvs] using hp⟩
  · exact ⟨acc, by simp [hvs], by simpa [hvs] using hb⟩

/-! ### Finding generators -/

theorem rsfGetMultiple_spec {V v : ℕ} (hv : v < V) {r : RsfIdeal} {gens : List (Finset ℕ)} (h : Holds r V gens) :
    r.getMultiple v = some (gens.findIdx fun g => v ∈ g) := by
  unfold RsfIdeal.getMultiple
  rw [h.stop_eq, findTerm_spec (q := fun g => decide (v ∈ g)) gens 0 h.along fun a s _ _ hs => C48_getExponent hs hv]
  simp only [Nat.zero_add]
  split
  · rename_i he
    rw [(holds_iff.1 h).2.2.1, he]
  · rfl

theorem rsfGetNonMultiple_spec {V v : ℕ} (hv : v < V) {r : RsfIdeal} {gens : List (Finset ℕ)} (h : Holds r V gens) :
    r.getNonMultiple v = some (gens.findIdx fun g => v ∉ g) := by
  unfold RsfIdeal.getNonMultiple
  rw [h.stop_eq, findTerm_spec (q := fun g => decide (v ∉ g)) gens 0 h.along fun a s _ _ hs => by
    rw [C48_getExponent hs hv]; simp]
  simp only [Nat.zero_add]
  split
  · rename_i he
    rw [(holds_iff.1 h).2.2.1, he]
  · rfl

theorem getNotRelativelyPrime_spec {V : ℕ} (hV : 0 < V) {r : RsfIdeal} {gens : List (Finset ℕ)} (h : Holds r V gens)
    {b : List Word} {t : Finset ℕ} (ht : Packs V b t) :
    r.getNotRelativelyPrime b = some (gens.findIdx fun g => ¬ Disjoint t g) := by
  unfold RsfIdeal.getNotRelativelyPrime
  rw [(holds_iff.1 h).2.2.1, findTerm_spec (q := fun g => decide (¬ Disjoint t g)) gens 0 h.along fun a s _ _ hs => by
    rw [(C48_relations hV ht hs).2.1]; simp]
  rw [Nat.zero_add]

theorem bestSupport_spec {V W : ℕ} (hV : 0 < V) (better : ℕ → ℕ → Bool) {mem : List Word} (L : List (Finset ℕ)) :
    ∀ (i it best bi : ℕ), Along (Packs V) W mem it L →
      (foldTerms W (bestSupport better V) (i, best, bi) mem it L.length).map (·.2.2) =
        some (bestIndex Finset.card better i best bi L) := by
  induction L with
  | nil => intro i it best bi _; rfl
  | cons s L ih =>
    intro i it best bi hA
    obtain ⟨⟨a, ha, hs⟩, hA⟩ := hA
    rw [List.length_cons, foldTerms, ha]
    simp only [bestSupport, (C48_support hV hs).2.2.2, bestIndex]
    by_cases hb : better best s.card = true
    · rw [if_pos hb, if_pos hb]
      exact ih (i + 1) (it + 1) s.card i hA
    · rw [if_neg hb, if_neg hb]
      exact ih (i + 1) (it + 1) best bi hA

theorem bestSupportGen_spec {V : ℕ} (hV : 0 < V) (better : ℕ → ℕ → Bool) {r : RsfIdeal} {g : Finset ℕ} {gens : List (Finset ℕ)}
    (h : Holds r V (g :: gens)) :
    r.bestSupportGen better = some (bestIndex Finset.card better 1 g.card 0 gens) := by
  unfold RsfIdeal.bestSupportGen
  rw [h.stop_eq, if_neg (by simp)]
  obtain ⟨⟨a, ha, hs⟩, hA⟩ := h.along
  rw [ha, (holds_iff.1 h).1]
  simp only [(C48_support hV hs).2.2.2]
  exact bestSupport_spec hV better gens 1 1 g.card 0 hA

/-! ### Minimality, equality and full support -/

theorem minimallyLoop_spec {V : ℕ} (hV : 0 < V) {r : RsfIdeal} {gens : List (Finset ℕ)} (h : Holds r V gens) :
    ∀ (n i : ℕ), i + n = gens.length → ∃ b, minimallyLoop r i n = some b ∧
      (b = true ↔ ∀ k, i ≤ k → ∀ hk : k < gens.length, ∀ j, ∀ hj : j < gens.length, j ≠ k → ¬ gens[j] ⊆ gens[k]) := by
  intro n
  induction n with
  | zero => intro i hi; exact ⟨true, rfl, by simp only [true_iff]; intro k h1 h2; omega⟩
  | succ n ih =>
    intro i hi
    obtain ⟨a, ha, hp⟩ := along_get gens 0 h.along i (by omega)
    rw [Nat.zero_add] at ha
    obtain ⟨b, hb, hiff⟩ := hasDivisor_spec hV ha hp gens 0 h.along
    rw [minimallyLoop, (holds_iff.1 h).2.2.1, hb]
    cases b with
    | true =>
      refine ⟨false, rfl, ?_⟩
      simp only [Bool.false_eq_true, false_iff, true_iff] at hiff ⊢
      obtain ⟨k, hk, h1, h2⟩ := hiff
      rw [Nat.zero_add] at h1
      exact fun hall => hall i (Nat.le_refl _) (by omega) k hk h1 h2
    | false =>
      obtain ⟨b, hb, hiff2⟩ := ih (i + 1) (by omega)
      refine ⟨b, hb, hiff2.trans ⟨fun hall k hk1 hk j hj hne => ?_, fun hall k hk1 hk => hall k (by omega) hk⟩⟩
      rcases Nat.eq_or_lt_of_le hk1 with rfl | hlt
      · simp only [Bool.false_eq_true, false_iff] at hiff
        exact fun hsub => hiff ⟨j, hj, by omega, hsub⟩
      · exact hall k hlt hk j hj hne

theorem isMinimallyGenerated_spec {V : ℕ} (hV : 0 < V) {r : RsfIdeal} {gens : List (Finset ℕ)} (h : Holds r V gens) :
    ∃ b, r.isMinimallyGenerated = some b ∧ (b = true ↔ gens.Pairwise fun s t => ¬ s ⊆ t ∧ ¬ t ⊆ s) := by
  obtain ⟨b, hb, hiff⟩ := minimallyLoop_spec hV h gens.length 0 (by omega)
  refine ⟨b, ?_, hiff.trans ?_⟩
  · unfold RsfIdeal.isMinimallyGenerated
    rw [(holds_iff.1 h).2.2.1, hb]
  · rw [List.pairwise_iff_getElem]
    constructor
    · intro hall i j hi hj hij
      exact ⟨hall j (by omega) hj i hi (by omega), hall i (by omega) hi j hj (by omega)⟩
    · intro hall k _ hk j hj hne
      rcases Nat.lt_or_gt_of_ne hne with hlt | hlt
      · exact (hall j k hj hk hlt).1
      · exact (hall k j hk hj hlt).2

theorem equalTerms_spec {V W : ℕ} (hV : 0 < V) {mem mem' : List Word} (A B : List (Finset ℕ)) : ∀ i, A.length = B.length →
    Along (Packs V) W mem i A → Along (Packs V) W mem' i B → equalTerms W V mem mem' i A.length = some (decide (A = B)) := by
  induction A generalizing B with
  | nil =>
    intro i hl _ _
    obtain rfl := List.length_eq_zero_iff.1 hl.symm
    rfl
  | cons s A ih =>
    intro i hl hA hB
    match B, hl with
    | t :: B, hl =>
      obtain ⟨⟨a, ha, hs⟩, hA⟩ := hA
      obtain ⟨⟨b, hb, ht⟩, hB⟩ := hB
      rw [List.length_cons, equalTerms, ha, hb]
      simp only [(C48_relations hV hs ht).2.2.2]
      by_cases hst : s = t
      · simp only [hst, decide_true, ih B (i + 1) (by simpa using hl) hA hB, List.cons.injEq, true_and]
      · simp [hst]

theorem equals_spec {V V' : ℕ} (hV : 0 < V) {r r' : RsfIdeal} {gens gens' : List (Finset ℕ)} (h : Holds r V gens)
    (h' : Holds r' V' gens') : r.equals r' = some (decide (V = V' ∧ gens = gens')) := by
  obtain ⟨h1, h2, h3, h4, h5, h6⟩ := holds_iff.1 h
  obtain ⟨k1, k2, k3, k4, k5, k6⟩ := holds_iff.1 h'
  unfold RsfIdeal.equals
  rw [h1, k1, h3, k3, h.stop_eq]
  by_cases hVV : V = V'
  · subst hVV
    rw [if_neg (by simp)]
    by_cases hg : gens.length = gens'.length
    · rw [if_neg (by simpa using hg), equalTerms_spec hV gens gens' 0 hg h6 (by rw [h2, ← k2]; exact k6)]
      simp
    · rw [if_pos (by simpa using hg)]
      have : gens ≠ gens' := fun e => hg (by rw [e])
      simp [this]
  · rw [if_pos hVV]
    simp [hVV]

theorem orWords_spec {V W o : ℕ} (ho : o < W) {mem : List Word} (L : List (Finset ℕ)) (i : ℕ) (w : Word)
    (u : Finset ℕ) (hA : Along (Packs V) W mem i L) (hw : ∀ j < 64, w.getLsbD j = decide (64 * o + j ∈ u)) :
    ∃ w', foldTerms W (fun support a => a[o]?.map (support ||| ·)) w mem i L.length = some w' ∧
      ∀ j < 64, w'.getLsbD j = decide (64 * o + j ∈ L.foldl (· ∪ ·) u) := by
  refine foldTerms_spec (P := fun w u => ∀ j < 64, w.getLsbD j = decide (64 * o + j ∈ u)) L i w u hA hw
    fun acc b a s _ hl hs hb => ?_
  have hlt : o < a.length := by omega
  rw [List.getElem?_eq_getElem hlt]
  refine ⟨_, rfl, fun j hj => ?_⟩
  have := hs.bitOf_eq (64 * o + j)
  unfold bitOf at this
  rw [show (64 * o + j) / 64 = o by omega, show (64 * o + j) % 64 = j by omega, List.getD_eq_getElem?_getD,
    List.getElem?_eq_getElem hlt] at this
  rw [BitVec.getLsbD_or, hb j hj, show a[o].getLsbD j = _ from this]
  simp

theorem fullSupportLoop_spec {V : ℕ} {r : RsfIdeal} {gens : List (Finset ℕ)} (h : Holds r V gens) {ignore : List Word}
    {e : Finset ℕ} (he : Packs V ignore e) (n : ℕ) : ∀ o, n + 64 * o = V → 0 < n →
    ∃ b, fullSupportLoop r ignore o n = some b ∧
      (b = true ↔ ∀ v, 64 * o ≤ v → v < V → v ∈ gens.foldl (· ∪ ·) e) := by
  have hsub : ∀ v ∈ gens.foldl (· ∪ ·) e, v < V := by
    have main : ∀ (L : List (Finset ℕ)) (b : Finset ℕ), (∀ s ∈ L, s ⊆ Finset.range V) → b ⊆ Finset.range V →
        L.foldl (· ∪ ·) b ⊆ Finset.range V := by
      intro L
      induction L with
      | nil => intro b _ hb; exact hb
      | cons s L ih =>
        intro b hL hb
        exact ih _ (fun s hs => hL s (by simp [hs])) (Finset.union_subset hb (hL s (by simp)))
    intro v hv
    refine Finset.mem_range.1 (main gens e (fun s hs => ?_) he.sub hv)
    obtain ⟨k, hk, rfl⟩ := List.getElem_of_mem hs
    obtain ⟨a, _, hp⟩ := along_get gens 0 h.along k hk
    exact hp.sub
  induction n using Nat.strongRecOn with
  | _ n ih =>
    intro o hn hpos
    have hfit := fits_wordCount (V := V) (by omega)
    unfold Fits at hfit
    have hel := packs_length he
    have ho : o < ignore.length := by omega
    obtain ⟨w', hw', hbits⟩ := orWords_spec (V := V) (W := r.wordsPerTerm) (o := o) (by rw [h.words]; omega) gens 0
      ignore[o] e h.along (fun j hj => by
        have := he.bitOf_eq (64 * o + j)
        unfold bitOf at this
        rw [show (64 * o + j) / 64 = o by omega, show (64 * o + j) % 64 = j by omega, List.getD_eq_getElem?_getD,
          List.getElem?_eq_getElem ho] at this
        exact this)
    generalize gens.foldl (· ∪ ·) e = u at *
    rw [fullSupportLoop, List.getElem?_eq_getElem ho]
    simp only
    rw [h.stop_eq, hw']
    change ∃ b, (if n > 64 then if w' ≠ ~~~0 then some false else fullSupportLoop r ignore (o + 1) (n - 64)
        else if n = 64 then some (w' == ~~~0) else some (w' == fullSupportWord n)) = some b ∧ _
    have hones : w' = ~~~0 ↔ ∀ j < 64, 64 * o + j ∈ u := by
      rw [word_eq_iff]
      constructor
      · intro hh j hj
        have := hh j hj
        rw [hbits j hj, BitVec.getLsbD_not] at this
        simpa [hj] using this
      · intro hh j hj
        rw [hbits j hj, BitVec.getLsbD_not]
        simp [hj, hh j hj]
    by_cases h1 : n > 64
    · rw [if_pos h1]
      by_cases h2 : w' = ~~~0
      · rw [if_neg (by simpa using h2)]
        obtain ⟨b, hb, hiff⟩ := ih (n - 64) (by omega) (o + 1) (by omega) (by omega)
        refine ⟨b, hb, hiff.trans ⟨fun hh v hv1 hv2 => ?_, fun hh v hv1 hv2 => hh v (by omega) hv2⟩⟩
        by_cases hv : v < 64 * (o + 1)
        · have := hones.1 h2 (v - 64 * o) (by omega)
          rwa [show 64 * o + (v - 64 * o) = v by omega] at this
        · exact hh v (by omega) hv2
      · rw [if_pos h2]
        refine ⟨false, rfl, ?_⟩
        simp only [Bool.false_eq_true, false_iff]
        exact fun hh => h2 (hones.2 fun j hj => hh _ (by omega) (by omega))
    · rw [if_neg h1]
      by_cases h2 : n = 64
      · rw [if_pos h2]
        refine ⟨_, rfl, ?_⟩
        rw [beq_iff_eq, hones]
        constructor
        · intro hh v hv1 hv2
          have := hh (v - 64 * o) (by omega)
          rwa [show 64 * o + (v - 64 * o) = v by omega] at this
        · intro hh j hj
          exact hh _ (by omega) (by omega)
      · rw [if_neg h2]
        refine ⟨_, rfl, ?_⟩
        rw [beq_iff_eq, word_eq_iff]
        constructor
        · intro hh v hv1 hv2
          have := hh (v - 64 * o) (by omega)
          rw [hbits _ (by omega), fullSupportWord_bits (by omega), show 64 * o + (v - 64 * o) = v by omega] at this
          simpa [show v - 64 * o < n by omega] using this
        · intro hh j hj
          rw [hbits j hj, fullSupportWord_bits (by omega), decide_eq_decide]
          exact ⟨fun hm => by have := hsub _ hm; omega, fun hm => hh _ (by omega) (by omega)⟩

theorem foldl_union (L : List (Finset ℕ)) : ∀ b, L.foldl (· ∪ ·) b = b ∪ unionAll L := by
  intro b
  ext v
  rw [Finset.mem_union, mem_unionAll]
  induction L generalizing b with
  | nil => simp
  | cons s L ih =>
    rw [List.foldl_cons, ih]
    simp [or_assoc]

theorem hasFullSupport_spec {V : ℕ} (hV : 0 < V) {r : RsfIdeal} {gens : List (Finset ℕ)} (h : Holds r V gens) {ignore : List Word}
    {e : Finset ℕ} (he : Packs V ignore e) :
    r.hasFullSupport ignore = some (decide (∀ v < V, v ∈ e ∨ ∃ g ∈ gens, v ∈ g)) := by
  obtain ⟨b, hb, hiff⟩ := fullSupportLoop_spec h he V 0 (by omega) hV
  unfold RsfIdeal.hasFullSupport
  rw [(holds_iff.1 h).1, hb, Option.some.injEq, Bool.eq_iff_iff, hiff, decide_eq_true_iff, foldl_union]
  simp only [Finset.mem_union, mem_unionAll, Nat.mul_zero, Nat.zero_le, true_implies]

/-! ### A variable that divides a single generator -/

theorem onceTwice_spec {V W o : ℕ} (ho : o < W) {mem : List Word} (L : List (Finset ℕ)) (i : ℕ)
    (hA : Along (Packs V) W mem i L) :
    ∃ s, foldTerms W (onceTwice o) (0, 0) mem i L.length = some s ∧
      ∀ j < 64, s.1.getLsbD j = decide (1 ≤ L.countP fun g => 64 * o + j ∈ g) ∧
        s.2.getLsbD j = decide (2 ≤ L.countP fun g => 64 * o + j ∈ g) := by
  obtain ⟨s, h1, h2⟩ := foldTerms_spec (R := Packs V) (W := W) (f := onceTwice o) (mem := mem)
    (P := fun (s : Word × Word) (c : ℕ → ℕ) => ∀ j < 64, s.1.getLsbD j = decide (1 ≤ c (64 * o + j)) ∧
      s.2.getLsbD j = decide (2 ≤ c (64 * o + j)))
    (G := fun c g v => c v + if v ∈ g then 1 else 0) L i (0, 0) (fun _ => 0) hA (fun j _ => by simp)
    (fun acc b a s _ hl hs hb => by
      have hlt : o < a.length := by omega
      unfold onceTwice
      rw [List.getElem?_eq_getElem hlt]
      refine ⟨_, rfl, fun j hj => ?_⟩
      have := hs.bitOf_eq (64 * o + j)
      unfold bitOf at this
      rw [show (64 * o + j) / 64 = o by omega, show (64 * o + j) % 64 = j by omega, List.getD_eq_getElem?_getD,
        List.getElem?_eq_getElem hlt] at this
      have hbit : a[o].getLsbD j = decide (64 * o + j ∈ s) := this
      obtain ⟨q1, q2⟩ := hb j hj
      simp only [BitVec.getLsbD_or, BitVec.getLsbD_and, q1, q2, hbit]
      by_cases hm : 64 * o + j ∈ s
      · simp only [hm, decide_true, Bool.or_true, Bool.and_true, if_true]
        refine ⟨by simp, ?_⟩
        rw [Bool.eq_iff_iff]
        simp only [Bool.or_eq_true, decide_eq_true_iff]
        omega
      · simp [hm])
  refine ⟨s, h1, ?_⟩
  have hc : ∀ (L : List (Finset ℕ)) (c : ℕ → ℕ) (v : ℕ),
      L.foldl (fun c g v => c v + if v ∈ g then 1 else 0) c v = c v + L.countP fun g => v ∈ g := by
    intro L
    induction L with
    | nil => intro c v; simp
    | cons g L ih =>
      intro c v
      rw [List.foldl_cons, ih, List.countP_cons]
      by_cases hm : v ∈ g <;> simp [hm, Nat.add_comm, Nat.add_assoc]
  simpa [hc] using h2

theorem countP_one {gens : List (Finset ℕ)} {v : ℕ} : gens.countP (fun g => decide (v ∈ g)) = 1 ↔
    ∃ i < gens.length, ExclusiveVar gens i v := by
  induction gens with
  | nil => simp
  | cons g gens ih =>
    rw [List.countP_cons]
    by_cases hv : v ∈ g
    · simp only [hv, decide_true, if_true]
      constructor
      · intro h
        refine ⟨0, by simp, fun j hj => ?_⟩
        have h0 : gens.countP (fun g => decide (v ∈ g)) = 0 := by omega
        rw [List.countP_eq_zero] at h0
        cases j with
        | zero => simpa using hv
        | succ j =>
          have := h0 (gens[j]'(by simpa using hj)) (List.getElem_mem _)
          simpa using this
      · rintro ⟨i, hi, hex⟩
        obtain rfl : 0 = i := (hex 0 (by simp)).1 (by simpa using hv)
        have h0 : gens.countP (fun g => decide (v ∈ g)) = 0 := by
          rw [List.countP_eq_zero]
          intro s hs
          obtain ⟨j, hj, rfl⟩ := List.getElem_of_mem hs
          have := hex (j + 1) (by simpa using hj)
          simpa using this
        omega
    · simp only [hv, decide_false, Bool.false_eq_true, if_false, Nat.add_zero, ih]
      constructor
      · rintro ⟨i, hi, hex⟩
        refine ⟨i + 1, by simpa using hi, fun j hj => ?_⟩
        cases j with
        | zero => simpa using hv
        | succ j =>
          have := hex j (by simpa using hj)
          simpa using this
      · rintro ⟨i, hi, hex⟩
        cases i with
        | zero => exact absurd ((hex 0 (by simp)).2 rfl) (by simpa using hv)
        | succ i =>
          refine ⟨i, by simpa using hi, fun j hj => ?_⟩
          have := hex (j + 1) (by simpa using hj)
          simpa using this

/-- One of the 64 variables from `64 * o` on divides this generator and is in one generator only. -/
def hasExclusive (gens : List (Finset ℕ)) (o : ℕ) (g : Finset ℕ) : Bool :=
  (List.range 64).any fun j => decide (64 * o + j ∈ g) && decide (gens.countP (fun g => decide (64 * o + j ∈ g)) = 1)

theorem hasExclusive_iff {gens : List (Finset ℕ)} {o : ℕ} {g : Finset ℕ} : hasExclusive gens o g = true ↔
    ∃ j < 64, 64 * o + j ∈ g ∧ gens.countP (fun g => decide (64 * o + j ∈ g)) = 1 := by
  unfold hasExclusive
  simp only [List.any_eq_true, List.mem_range, Bool.and_eq_true, decide_eq_true_iff]

theorem exclusiveLoop_spec {V : ℕ} {r : RsfIdeal} {gens : List (Finset ℕ)} (h : Holds r V gens) :
    ∀ (n o : ℕ), o + n = r.wordsPerTerm → ∃ i, exclusiveLoop r o n = some i ∧
      ((i = gens.length ∧ ∀ v, 64 * o ≤ v → v < 64 * r.wordsPerTerm → ∀ i < gens.length, ¬ ExclusiveVar gens i v) ∨
        (i < gens.length ∧ ∃ v, ExclusiveVar gens i v)) := by
  intro n
  induction n with
  | zero =>
    intro o ho
    exact ⟨r.genCount, rfl, Or.inl ⟨(holds_iff.1 h).2.2.1, fun v h1 h2 => by omega⟩⟩
  | succ n ih =>
    intro o ho
    have hg := (holds_iff.1 h).2.2.1
    obtain ⟨⟨once, twice⟩, h1, h2⟩ := onceTwice_spec (V := V) (o := o) (by omega) gens 0 h.along
    rw [exclusiveLoop, hg, h1]
    simp only at h2 ⊢
    have hbit : ∀ j < 64, (once &&& ~~~twice).getLsbD j = decide (gens.countP (fun g => decide (64 * o + j ∈ g)) = 1) := by
      intro j hj
      obtain ⟨q1, q2⟩ := h2 j hj
      rw [BitVec.getLsbD_and, BitVec.getLsbD_not, q1, q2, Bool.eq_iff_iff, decide_eq_true_iff]
      simp only [hj, decide_true, Bool.true_and, Bool.and_eq_true, decide_eq_true_iff, Bool.not_eq_true', decide_eq_false_iff_not]
      omega
    by_cases hz : once &&& ~~~twice = 0
    · rw [if_neg (by simpa using hz)]
      obtain ⟨i, hi, hor⟩ := ih (o + 1) (by omega)
      refine ⟨i, hi, hor.imp (fun hh => ⟨hh.1, fun v hv1 hv2 i hi => ?_⟩) id⟩
      by_cases hv : v < 64 * (o + 1)
      · have := word_eq_zero_iff.1 hz (v - 64 * o) (by omega)
        rw [hbit _ (by omega), show 64 * o + (v - 64 * o) = v by omega, decide_eq_false_iff_not] at this
        exact fun hex => this (countP_one.2 ⟨i, hi, hex⟩)
      · exact hh.2 v (by omega) hv2 i hi
    · rw [if_pos hz]
      obtain ⟨j, hj, hjbit, _⟩ := lowest_bit hz
      rw [hbit j hj, decide_eq_true_iff] at hjbit
      have hone := hjbit
      rw [countP_one] at hjbit
      obtain ⟨i0, hi0, hex0⟩ := hjbit
      have hfind := findTerm_spec (R := Packs V) (W := r.wordsPerTerm) (p := fun a =>
            match a[o]? with
            | none => none
            | some word => some (word &&& (once &&& ~~~twice) != 0))
          (q := hasExclusive gens o) gens 0 h.along
          (fun a s _ hl hs => by
            have hlt : o < a.length := by omega
            rw [List.getElem?_eq_getElem hlt]
            simp only [Option.some.injEq]
            rw [Bool.eq_iff_iff, bne_iff_ne, hasExclusive_iff, and_ne_zero_iff]
            refine exists_congr fun j => and_congr_right fun hj => ?_
            rw [hbit j hj, decide_eq_true_iff]
            have := hs.bitOf_eq (64 * o + j)
            unfold bitOf at this
            rw [show (64 * o + j) / 64 = o by omega, show (64 * o + j) % 64 = j by omega, List.getD_eq_getElem?_getD,
              List.getElem?_eq_getElem hlt] at this
            rw [show a[o].getLsbD j = _ from this, decide_eq_true_iff])
      have hlt : gens.findIdx (hasExclusive gens o) < gens.length := by
        rw [List.findIdx_lt_length]
        exact ⟨gens[i0], List.getElem_mem _, hasExclusive_iff.2 ⟨j, hj, (hex0 i0 hi0).2 rfl, hone⟩⟩
      refine ⟨gens.findIdx (hasExclusive gens o), ?_, Or.inr ⟨hlt, ?_⟩⟩
      · rw [Nat.zero_add] at hfind
        split
        · rename_i hx
          exact absurd (hx.symm.trans hfind) (by simp)
        · rename_i gen hx
          rw [Option.some.inj (hx.symm.trans hfind), if_pos hlt]
      · have := List.findIdx_getElem (w := hlt)
        rw [hasExclusive_iff] at this
        obtain ⟨j', hj', hm, hone'⟩ := this
        obtain ⟨i', hi', hex'⟩ := countP_one.1 hone'
        refine ⟨64 * o + j', ?_⟩
        have hii := (hex' _ hlt).1 hm
        rw [hii]
        exact hex'

theorem getExclusiveVarGenerator_spec {V : ℕ} {r : RsfIdeal} {gens : List (Finset ℕ)} (h : Holds r V gens) :
    ∃ i, r.getExclusiveVarGenerator = some i ∧
      ((i = gens.length ∧ ¬ ∃ i < gens.length, ∃ v, ExclusiveVar gens i v) ∨ (i < gens.length ∧ ∃ v, ExclusiveVar gens i v)) := by
  obtain ⟨i, hi, hor⟩ := exclusiveLoop_spec h r.wordsPerTerm 0 (by omega)
  refine ⟨i, hi, hor.imp (fun hh => ⟨hh.1, ?_⟩) id⟩
  rintro ⟨k, hk, v, hex⟩
  have hvg := (hex k hk).2 rfl
  obtain ⟨a, ha, hp⟩ := along_get gens 0 h.along k hk
  have hv := Finset.mem_range.1 (hp.sub hvg)
  have hl := hp.le
  rw [termAt_length ha] at hl
  exact hh.2 v (by omega) (by omega) k hk hex

/-! ### The size of the memory -/

theorem bytesOfMemoryFor_spec {V G : ℕ} (hV : V < 2 ^ 64) (hG : G < 2 ^ 64) :
    bytesOfMemoryFor V G = if 32 + 8 * (wordCount V * G) < 2 ^ 64 then 32 + 8 * (wordCount V * G) else 0 := by
  have hW : ∀ n, (if V = 0 then 1 else (V - 1) / 8 + 1) = n → (n - 1) / 8 + 1 = wordCount V := by
    intro n hn
    rw [wordCount_eq, ← hn]
    split <;> omega
  unfold bytesOfMemoryFor
  simp only
  rw [hW _ rfl]
  by_cases h0 : G = 0
  · rw [if_pos h0, h0]
    simp
  · rw [if_neg h0]
    have hwle : wordCount V ≤ (2 ^ 64 + 62) / 64 := by
      rw [wordCount_eq]
      omega
    have hwpos := wordCount_pos V
    generalize wordCount V = w at *
    rw [if_neg (by omega), Nat.mod_eq_of_lt (by omega)]
    by_cases h1 : w * 8 > (2 ^ 64 - 1) / G
    · rw [if_pos h1, if_neg]
      have := (Nat.div_lt_iff_lt_mul (by omega : 0 < G)).1 h1
      have e : w * 8 * G = 8 * (w * G) := by rw [Nat.mul_comm w 8, Nat.mul_assoc]
      omega
    · rw [if_neg h1]
      have := (Nat.le_div_iff_mul_le (by omega : 0 < G)).1 (Nat.le_of_not_gt h1)
      have e : w * 8 * G = 8 * (w * G) := by rw [Nat.mul_comm w 8, Nat.mul_assoc]
      rw [e] at this ⊢
      rw [Nat.mod_eq_of_lt (by omega)]
      by_cases h2 : 8 * (w * G) > 2 ^ 64 - 1 - (40 - 8)
      · rw [if_pos h2, if_neg (by omega)]
      · rw [if_neg h2, if_pos (by omega), Nat.mod_eq_of_lt (by omega)]

end Frobby

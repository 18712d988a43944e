import Verif.RsfLoops

/-!
# Changing ideals of packed terms
-/

namespace Frobby

/-! ### Inserting -/

theorem rsfConstruct_holds (V : ℕ) (mem : List Word) : Holds (rsfConstruct V mem) V [] :=
  holds_iff.2 ⟨rfl, rfl, rfl, by simp [rsfConstruct], by simp [rsfConstruct], trivial⟩

/-- What all the functions that insert a term do. -/
theorem Holds.add {r : RsfIdeal} {V : ℕ} {gens : List (Finset ℕ)} (h : Holds r V gens) {t mem : List Word} {s : Finset ℕ}
    (ht : Packs V t s) (hw : writeWords r.memory r.memoryEnd t = some mem) :
    Holds ⟨r.varCount, r.wordsPerTerm, r.genCount + 1, r.memoryEnd + r.wordsPerTerm, mem⟩ V (gens ++ [s]) ∧
      mem.length = r.memory.length := by
  obtain ⟨h1, h2, h3, h4, h5, h6⟩ := holds_iff.1 h
  have htl : t.length = r.wordsPerTerm := by rw [packs_length ht, h2]
  have hput : putTerm r.wordsPerTerm r.memory gens.length t = some mem := by rw [putTerm, ← h4]; exact hw
  obtain ⟨hl, hat, hne⟩ := termAt_put hput htl
  refine ⟨holds_iff.2 ⟨h1, h2, by simp [h3], ?_, ?_, ?_⟩, hl⟩
  · simp only [List.length_append, List.length_singleton, Nat.mul_add, h4, Nat.mul_one]
  · have := (writeWords_eq_some.1 hw).1
    simp only
    omega
  · rw [along_append]
    refine ⟨along_frame gens 0 (fun j _ hj => hne j (by omega)) h6, ⟨t, by simpa using hat, ht⟩, trivial⟩

theorem Holds.insert_spec {r : RsfIdeal} {V : ℕ} {gens : List (Finset ℕ)} (h : Holds r V gens) {t : List Word} {s : Finset ℕ}
    (hV : 0 < V) (ht : Packs V t s) (hroom : r.wordsPerTerm * (gens.length + 1) ≤ r.memory.length) :
    ∃ r', r.insert t = some r' ∧ Holds r' V (gens ++ [s]) ∧ r'.memory.length = r.memory.length := by
  obtain ⟨h1, h2, h3, h4, h5, h6⟩ := holds_iff.1 h
  have htl : t.length = r.wordsPerTerm := by rw [packs_length ht, h2]
  have hcopy : wAssignWords r.wordsPerTerm t = some t := by
    rw [← htl]
    exact (C48_assign hV rfl ht).1
  obtain ⟨mem, hw⟩ : ∃ mem, writeWords r.memory r.memoryEnd t = some mem := by
    refine ⟨_, writeWords_eq_some.2 ⟨?_, rfl⟩⟩
    rw [h4, htl, ← Nat.mul_succ]
    exact hroom
  obtain ⟨hh, hl⟩ := h.add ht hw
  refine ⟨_, ?_, hh, hl⟩
  unfold RsfIdeal.insert
  rw [hcopy]
  simp only [hw]

theorem Holds.insertIdentity_spec {r : RsfIdeal} {V : ℕ} {gens : List (Finset ℕ)} (h : Holds r V gens) (hV : 0 < V)
    (hroom : r.wordsPerTerm * (gens.length + 1) ≤ r.memory.length) :
    ∃ r', r.insertIdentity = some r' ∧ Holds r' V (gens ++ [∅]) ∧ r'.memory.length = r.memory.length := by
  obtain ⟨h1, h2, h3, h4, h5, h6⟩ := holds_iff.1 h
  have ht : Packs V (wSetToIdentityWords r.wordsPerTerm) ∅ := by
    rw [h2]
    exact (C48_setTo hV (res := List.replicate (wordCount V) 0) (by simp)).1
  obtain ⟨mem, hw⟩ : ∃ mem, writeWords r.memory r.memoryEnd (wSetToIdentityWords r.wordsPerTerm) = some mem := by
    refine ⟨_, writeWords_eq_some.2 ⟨?_, rfl⟩⟩
    rw [h4, packs_length ht, ← h2, ← Nat.mul_succ]
    exact hroom
  obtain ⟨hh, hl⟩ := h.add ht hw
  refine ⟨_, ?_, hh, hl⟩
  unfold RsfIdeal.insertIdentity
  rw [hw]

/-- Inserting those terms of another ideal that satisfy a condition. -/
theorem insertSome_spec {V W : ℕ} (hV : 0 < V) {f : RsfIdeal → List Word → Option RsfIdeal} {q : Finset ℕ → Bool}
    (hf : ∀ r a s, Packs V a s → f r a = if q s then r.insert a else some r) {mem : List Word} (L : List (Finset ℕ)) :
    ∀ (i : ℕ) (r : RsfIdeal) (gens : List (Finset ℕ)), Holds r V gens → Along (Packs V) W mem i L →
      r.wordsPerTerm * (gens.length + (L.filter q).length) ≤ r.memory.length →
      ∃ r', foldTerms W f r mem i L.length = some r' ∧ Holds r' V (gens ++ L.filter q) ∧
        r'.memory.length = r.memory.length := by
  induction L with
  | nil => intro i r gens h _ _; exact ⟨r, rfl, by simpa using h, rfl⟩
  | cons s L ih =>
    intro i r gens h hA hroom
    obtain ⟨⟨a, ha, hs⟩, hA⟩ := hA
    rw [List.length_cons, foldTerms, ha]
    simp only [hf r a s hs]
    cases hq : q s with
    | true =>
      rw [List.filter_cons, if_pos hq, List.length_cons] at hroom
      obtain ⟨r1, h1, hh1, hl1⟩ := h.insert_spec hV hs ((Nat.mul_le_mul_left _ (by omega)).trans hroom)
      have hw : r1.wordsPerTerm = r.wordsPerTerm := hh1.words.trans h.words.symm
      obtain ⟨r2, h2, hh2, hl2⟩ := ih (i + 1) r1 (gens ++ [s]) hh1 hA (by
        rw [hw, hl1]
        simpa [Nat.add_assoc, Nat.add_comm, Nat.add_left_comm] using hroom)
      refine ⟨r2, ?_, ?_, hl2.trans hl1⟩
      · simp only [if_true, h1, h2]
      · rw [List.filter_cons, if_pos hq]
        simpa using hh2
    | false =>
      have ef : (s :: L).filter q = L.filter q := by rw [List.filter_cons, if_neg (by simp [hq])]
      rw [ef] at hroom ⊢
      obtain ⟨r2, h2, hh2, hl2⟩ := ih (i + 1) r gens h hA hroom
      exact ⟨r2, by simpa using h2, hh2, hl2⟩

theorem insertIdeal_spec {V : ℕ} (hV : 0 < V) {r ideal : RsfIdeal} {gens L : List (Finset ℕ)} (h : Holds r V gens)
    (hi : Holds ideal V L) (hroom : r.wordsPerTerm * (gens.length + L.length) ≤ r.memory.length) :
    ∃ r', r.insertIdeal ideal = some r' ∧ Holds r' V (gens ++ L) ∧ r'.memory.length = r.memory.length := by
  have := insertSome_spec hV (f := fun r a => r.insert a) (q := fun _ => true) (fun r a s _ => by simp) L 0 r gens h hi.along
    (by simpa using hroom)
  unfold RsfIdeal.insertIdeal
  rw [hi.stop_eq]
  simpa using this

theorem insertNonMultiples_spec {V : ℕ} (hV : 0 < V) {r ideal : RsfIdeal} {gens L : List (Finset ℕ)} {term : List Word}
    {t : Finset ℕ} (ht : Packs V term t) (h : Holds r V gens) (hi : Holds ideal V L)
    (hroom : r.wordsPerTerm * (gens.length + (L.filter fun g => ¬ t ⊆ g).length) ≤ r.memory.length) :
    ∃ r', r.insertNonMultiples term ideal = some r' ∧ Holds r' V (gens ++ L.filter fun g => ¬ t ⊆ g) := by
  obtain ⟨r', h1, h2, _⟩ := insertSome_spec hV (W := ideal.wordsPerTerm) (q := fun g => decide (¬ t ⊆ g)) (f := fun r a =>
    match wDivides term a with
    | none => none
    | some true => some r
    | some false => r.insert a) (fun r a s hs => by
      rw [(C48_relations hV ht hs).1]
      by_cases hts : t ⊆ s <;> simp [hts]) L 0 r gens h hi.along hroom
  unfold RsfIdeal.insertNonMultiples
  rw [hi.stop_eq]
  exact ⟨r', h1, h2⟩

theorem insertNonMultiplesVar_spec {V : ℕ} (hV : 0 < V) {r ideal : RsfIdeal} {gens L : List (Finset ℕ)} {v : ℕ} (hv : v < V)
    (h : Holds r V gens) (hi : Holds ideal V L)
    (hroom : r.wordsPerTerm * (gens.length + (L.filter fun g => v ∉ g).length) ≤ r.memory.length) :
    ∃ r', r.insertNonMultiplesVar v ideal = some r' ∧ Holds r' V (gens ++ L.filter fun g => v ∉ g) := by
  obtain ⟨r', h1, h2, _⟩ := insertSome_spec hV (W := ideal.wordsPerTerm) (q := fun g => decide (v ∉ g)) (f := fun r a =>
    match wGetExponent a v with
    | none => none
    | some true => some r
    | some false => r.insert a) (fun r a s hs => by
      rw [C48_getExponent hs hv]
      by_cases hts : v ∈ s <;> simp [hts]) L 0 r gens h hi.along hroom
  unfold RsfIdeal.insertNonMultiplesVar
  rw [hi.stop_eq]
  exact ⟨r', h1, h2⟩

/-! ### Changing the generators in place -/

theorem minimize_holds {V : ℕ} (hV : 0 < V) {r : RsfIdeal} {gens : List (Finset ℕ)} (h : Holds r V gens) :
    ∃ r', r.minimize = some r' ∧ Holds r' V (sqMinimize gens) := by
  obtain ⟨mem, h1, hl, hA, _⟩ := rsfMinimize_spec hV gens r.memory h.along
  refine ⟨_, ?_, h.of_along hl ?_ hA⟩
  · unfold RsfIdeal.minimize
    rw [h.stop_eq, h1]
  · exact (sqMinimize_spec gens).1.length_le

theorem colon_holds {V : ℕ} {r : RsfIdeal} {gens : List (Finset ℕ)} {b : List Word} {t : Finset ℕ} (h : Holds r V gens)
    (ht : Packs V b t) : ∃ r', r.colon b = some r' ∧ Holds r' V (gens.map (· \ t)) := by
  obtain ⟨mem, h1, hl, hA, _⟩ := eachTerm_spec (R := Packs V) (R' := Packs V) (W := r.wordsPerTerm)
    (f := fun a => wColonInPlace a b) (F := (· \ t)) gens r.memory 0 h.along (fun a s _ _ hs => by
      obtain ⟨a', ha', hp⟩ := (C48_colon hs ht).2
      exact ⟨a', ha', by rw [packs_length hp, h.words], hp⟩)
  refine ⟨_, ?_, h.of_along_same hl (by simp) hA⟩
  unfold RsfIdeal.colon
  rw [h.stop_eq, h1]
  rfl

theorem colonVar_holds {V : ℕ} {r : RsfIdeal} {gens : List (Finset ℕ)} {v : ℕ} (hv : v < V) (h : Holds r V gens) :
    ∃ r', r.colonVar v = some r' ∧ Holds r' V (gens.map (·.erase v)) := by
  obtain ⟨mem, h1, hl, hA, _⟩ := eachTerm_spec (R := Packs V) (R' := Packs V) (W := r.wordsPerTerm)
    (f := fun a => wSetExponent a v false) (F := (·.erase v)) gens r.memory 0 h.along (fun a s _ _ hs => by
      obtain ⟨a', ha', hp⟩ := (C48_setExponent hs hv).2
      exact ⟨a', ha', by rw [packs_length hp, h.words], hp⟩)
  refine ⟨_, ?_, h.of_along_same hl (by simp) hA⟩
  unfold RsfIdeal.colonVar
  rw [h.stop_eq, h1]
  rfl

theorem swap01_holds {V : ℕ} (hV : 0 < V) {r : RsfIdeal} {gens : List (Finset ℕ)} (h : Holds r V gens) :
    ∃ r', r.swap01 = some r' ∧ Holds r' V (gens.map (Finset.range V \ ·)) := by
  obtain ⟨mem, h1, hl, hA, _⟩ := eachTerm_spec (R := Packs V) (R' := Packs V) (W := r.wordsPerTerm)
    (f := fun a => wInvert a r.varCount) (F := (Finset.range V \ ·)) gens r.memory 0 h.along (fun a s _ _ hs => by
      obtain ⟨a', ha', hp⟩ := C48_invert hV hs
      exact ⟨a', by rw [h.varCount]; exact ha', by rw [packs_length hp, h.words], hp⟩)
  refine ⟨_, ?_, h.of_along_same hl (by simp) hA⟩
  unfold RsfIdeal.swap01
  rw [h.stop_eq, h1]
  rfl

theorem removeGenerator_holds {V : ℕ} {r : RsfIdeal} {gens : List (Finset ℕ)} {i : ℕ} (hi : i < gens.length)
    (h : Holds r V gens) : ∃ r', r.removeGenerator i = some r' ∧ Holds r' V (gens.set i (gens.getLastD ∅)).dropLast := by
  obtain ⟨h1, h2, h3, h4, h5, h6⟩ := holds_iff.1 h
  have hpos : 0 < r.wordsPerTerm := by rw [h2]; exact wordCount_pos V
  obtain ⟨a, ha, hap⟩ := along_get gens 0 h6 (gens.length - 1) (by omega)
  rw [Nat.zero_add] at ha
  have hlast : r.memoryEnd - r.wordsPerTerm = r.wordsPerTerm * (gens.length - 1) := by
    rw [h4, Nat.mul_sub_one]
  obtain ⟨b, hb, _⟩ := along_get gens 0 h6 i hi
  rw [Nat.zero_add] at hb
  have hgl : gens.getLastD ∅ = gens[gens.length - 1]'(by omega) := by
    rw [List.getLastD_eq_getLast?, List.getLast?_eq_getElem?, List.getElem?_eq_getElem (by omega)]
    rfl
  have key : ∀ mem : List Word, mem.length = r.memory.length →
      (∀ j, j < gens.length - 1 → ∃ a, termAt r.wordsPerTerm mem j = some a ∧
        Packs V a (if i = j then gens.getLastD ∅ else gens.getD j ∅)) →
      Holds ⟨r.varCount, r.wordsPerTerm, r.genCount - 1, r.memoryEnd - r.wordsPerTerm, mem⟩ V
        (gens.set i (gens.getLastD ∅)).dropLast := by
    intro mem hl hmem
    refine holds_iff.2 ⟨h1, h2, by simp [h3], by simp [hlast], by simp only; omega, along_of_get _ 0 fun k hk => ?_⟩
    have hk' : k < gens.length - 1 := by simpa using hk
    obtain ⟨a, ha, hp⟩ := hmem k hk'
    refine ⟨a, by rwa [Nat.zero_add], ?_⟩
    rw [List.getElem_dropLast, List.getElem_set]
    rwa [List.getD_eq_getElem?_getD, List.getElem?_eq_getElem (by omega)] at hp
  unfold RsfIdeal.removeGenerator
  simp only [hlast]
  by_cases hil : r.wordsPerTerm * i = r.wordsPerTerm * (gens.length - 1)
  · rw [if_neg (by simpa using hil)]
    refine ⟨_, rfl, ?_⟩
    rw [← hlast]
    refine key r.memory rfl fun j hj => ?_
    have hie : i = gens.length - 1 := Nat.eq_of_mul_eq_mul_left hpos hil
    rw [if_neg (by omega)]
    obtain ⟨c, hc, hcp⟩ := along_get gens 0 h6 j (by omega)
    refine ⟨c, by rwa [Nat.zero_add] at hc, ?_⟩
    rwa [List.getD_eq_getElem?_getD, List.getElem?_eq_getElem (by omega)]
  · rw [if_pos (by simpa using hil)]
    obtain ⟨mem, hput⟩ := putTerm_isSome (termAt_le hb) (termAt_length ha)
    obtain ⟨hl, hat, hne⟩ := termAt_put hput (termAt_length ha)
    have hread : readWords r.memory (r.wordsPerTerm * (gens.length - 1)) r.wordsPerTerm = some a := ha
    simp only [hread, hput]
    refine ⟨_, rfl, ?_⟩
    rw [← hlast]
    refine key mem hl fun j hj => ?_
    by_cases hij : i = j
    · rw [if_pos hij, hgl, ← hij]
      exact ⟨a, hat, hap⟩
    · rw [if_neg hij, hne j (by omega)]
      obtain ⟨c, hc, hcp⟩ := along_get gens 0 h6 j (by omega)
      refine ⟨c, by rwa [Nat.zero_add] at hc, ?_⟩
      rwa [List.getD_eq_getElem?_getD, List.getElem?_eq_getElem (by omega)]

/-! ### `colonReminimize` -/

theorem findTerm_divides {V W : ℕ} (hV : 0 < V) {mem : List Word} {a : List Word} {x : Finset ℕ} (hx : Packs V a x)
    (low : List (Finset ℕ)) (h : Along (Packs V) W mem 0 low) :
    ∃ i, findTerm W (fun d => wDivides d a) mem 0 low.length = some i ∧ (i < low.length ↔ (low.any fun d => d ⊆ x) = true) := by
  refine ⟨_, findTerm_spec (q := fun d => decide (d ⊆ x)) low 0 h fun d s _ _ hs => (C48_relations hV hs hx).1, ?_⟩
  rw [Nat.zero_add, List.findIdx_lt_length]
  simp

theorem keepNonMultiples_spec {V W : ℕ} (hV : 0 < V) (low : List (Finset ℕ)) (rest : List (Finset ℕ)) :
    ∀ (mem : List Word) (kept : List (Finset ℕ)) (it : ℕ), low.length + kept.length ≤ it →
      Along (Packs V) W mem 0 (low ++ kept) → Along (Packs V) W mem it rest →
      ∃ mem', keepNonMultiples W low.length mem (low.length + kept.length) it rest.length =
          some (mem', (low ++ kept ++ rest.filter fun g => !low.any fun d => d ⊆ g).length) ∧ mem'.length = mem.length ∧
        Along (Packs V) W mem' 0 (low ++ kept ++ rest.filter fun g => !low.any fun d => d ⊆ g) := by
  induction rest with
  | nil => intro mem kept it _ h _; exact ⟨mem, by simp [keepNonMultiples], rfl, by simpa using h⟩
  | cons x rest ih =>
    intro mem kept it hle hA hr
    obtain ⟨⟨a, ha, hx⟩, hr⟩ := hr
    obtain ⟨i, hi, hiff⟩ := findTerm_divides hV hx low ((along_append _ _ _).1 hA).1
    cases hany : low.any fun d => decide (d ⊆ x) with
    | true =>
      rw [hany] at hiff
      obtain ⟨mem', h1, h2, h3⟩ := ih mem kept (it + 1) (by omega) hA hr
      have ef : ((x :: rest).filter fun g => !low.any fun d => d ⊆ g) = rest.filter fun g => !low.any fun d => d ⊆ g := by
        rw [List.filter_cons, if_neg (by simp [hany])]
      rw [ef]
      refine ⟨mem', ?_, h2, h3⟩
      rw [List.length_cons, keepNonMultiples, ha]
      simp only [hi]
      rw [if_pos (hiff.2 rfl)]
      exact h1
    | false =>
      rw [hany] at hiff
      have hle2 := termAt_le ha
      have hmul := Nat.mul_le_mul_left W hle
      obtain ⟨mem1, hput⟩ := putTerm_isSome (W := W) (i := low.length + kept.length) (mem := mem) (by omega) (termAt_length ha)
      obtain ⟨hl1, hat, hne⟩ := termAt_put hput (termAt_length ha)
      have ef : ((x :: rest).filter fun g => !low.any fun d => d ⊆ g) = x :: rest.filter fun g => !low.any fun d => d ⊆ g := by
        rw [List.filter_cons, if_pos (by simp [hany])]
      obtain ⟨mem', h1, h2, h3⟩ := ih mem1 (kept ++ [x]) (it + 1) (by simp; omega)
        (by
          rw [← List.append_assoc, along_append]
          exact ⟨along_frame _ 0 (fun j _ hj => hne j (by simp at hj; omega)) hA, ⟨a, by simpa using hat, hx⟩, trivial⟩)
        (along_frame rest _ (fun j hj _ => hne j (by omega)) hr)
      rw [ef]
      have ea : low ++ kept ++ (x :: rest.filter fun g => !low.any fun d => d ⊆ g) =
        low ++ (kept ++ [x]) ++ rest.filter fun g => !low.any fun d => d ⊆ g := by simp
      rw [ea]
      refine ⟨mem', ?_, h2.trans hl1, h3⟩
      rw [List.length_cons, keepNonMultiples, ha]
      simp only [hi]
      rw [if_neg (by rw [hiff]; simp)]
      simp only [hput]
      rw [List.length_append, List.length_singleton, ← Nat.add_assoc] at h1
      exact h1

theorem colonReminimize_holds {V : ℕ} (hV : 0 < V) {r : RsfIdeal} {gens : List (Finset ℕ)} {b : List Word} {t : Finset ℕ}
    (h : Holds r V gens) (ht : Packs V b t) :
    ∃ r', r.colonReminimize b = some r' ∧ Holds r' V (SqIdeal.colonReminimize ⟨V, gens⟩ t).gens := by
  have hp : ∀ a s, a.length = r.wordsPerTerm → Packs V a s →
      (fun a => (wIsRelativelyPrimeWords b a).map (!·)) a = some ((fun g => !decide (Disjoint t g)) s) := by
    intro a s _ hs
    simp only [(C48_relations hV ht hs).2.1]
    rfl
  obtain ⟨mem1, h1, hl1, hA1, _⟩ := rsfPartitionWords_spec hV hp gens.length gens r.memory 0 rfl h.along
  have hpart := rsfPartition_spec (fun g => !decide (Disjoint t g)) gens
  have hlp := hpart.1.length_eq
  unfold RsfIdeal.colonReminimize SqIdeal.colonReminimize
  simp only
  rw [Nat.zero_add, Nat.zero_add] at h1
  rw [h.stop_eq, h.varCount, h1]
  generalize rsfPartition (fun g => !decide (Disjoint t g)) gens = parts at *
  obtain ⟨A, B⟩ := parts
  simp only at hA1 hlp ⊢
  by_cases hA0 : A = []
  · subst hA0
    rw [if_pos rfl]
    simp only [List.length_nil, if_true]
    exact ⟨_, rfl, h.varCount ▸ h.of_along_same hl1 (by simpa using hlp) (by simpa using hA1)⟩
  · rw [if_neg hA0, if_neg (by simpa using hA0)]
    obtain ⟨hAA, hAB⟩ := (along_append _ _ _).1 hA1
    rw [Nat.zero_add] at hAB
    obtain ⟨mem2, h2, hl2, hA2, hf2⟩ := eachTerm_spec (R := Packs V) (R' := Packs V) (W := r.wordsPerTerm)
      (f := fun a => wColonInPlace a b) (F := (· \ t)) A mem1 0 hAA (fun a s _ _ hs => by
        obtain ⟨a', ha', hp⟩ := (C48_colon hs ht).2
        exact ⟨a', ha', by rw [packs_length hp, h.words], hp⟩)
    obtain ⟨mem3, h3, hl3, hA3, hf3⟩ := rsfMinimize_spec hV (A.map (· \ t)) mem2 hA2
    rw [List.length_map] at h3 hf3
    have hle := (sqMinimize_spec (A.map (· \ t))).1.length_le
    rw [List.length_map] at hle
    obtain ⟨mem4, h4, hl4, hA4⟩ := keepNonMultiples_spec hV (sqMinimize (A.map (· \ t))) B mem3 [] A.length (by simpa using hle)
      (by simpa using hA3) (along_frame B _ (fun j hj _ => by rw [hf3 j hj, hf2 j (by omega)]) hAB)
    have hB : gens.length - A.length = B.length := by
      rw [List.length_append] at hlp
      omega
    simp only [h2, h3, hB]
    simp only [List.length_nil, Nat.add_zero, List.append_nil] at h4 hA4
    rw [h4]
    refine ⟨_, rfl, ?_⟩
    rw [← h.varCount]
    refine h.varCount ▸ h.of_along (by rw [hl4, hl3, hl2, hl1]) ?_ hA4
    rw [List.length_append] at hlp ⊢
    refine (Nat.add_le_add hle (List.filter_sublist (l := B)).length_le).trans ?_
    omega

theorem colonVarWords_spec {V W : ℕ} (hV : 0 < V) (low : List (Finset ℕ)) (kept rest : List (Finset ℕ)) :
    ∀ (mem : List Word) (genCount : ℕ), genCount = (low ++ kept ++ rest).length →
      Along (Packs V) W mem 0 (low ++ kept ++ rest) →
      ∃ mem', colonVarWords W low.length mem genCount (low.length + kept.length) (low ++ kept ++ rest).length =
          some (mem', (low ++ colonVarLoop low kept rest).length, (low ++ colonVarLoop low kept rest).length) ∧
        mem'.length = mem.length ∧ Along (Packs V) W mem' 0 (low ++ colonVarLoop low kept rest) := by
  induction kept, rest using colonVarLoop.induct (low := low) with
  | case1 kept =>
    intro mem genCount hg hA
    refine ⟨mem, ?_, rfl, ?_⟩
    · rw [colonVarWords, if_neg (by simp), colonVarLoop, hg]
      simp
    · rw [colonVarLoop]
      simpa using hA
  | case2 kept x l hany ih =>
    intro mem genCount hg hA
    obtain ⟨a, ha, hxa⟩ := along_get _ 0 hA (low.length + kept.length) (by simp)
    rw [Nat.zero_add] at ha
    have hx : Packs V a x := by simpa using hxa
    obtain ⟨i, hi, hiff⟩ := findTerm_divides hV hx low (by
      rw [List.append_assoc, along_append] at hA; exact hA.1)
    rw [hany] at hiff
    obtain ⟨b, hb, hbl⟩ := along_get _ 0 hA (low.length + kept.length + l.length) (by simp; omega)
    rw [Nat.zero_add] at hb
    obtain ⟨mem1, hput⟩ := putTerm_isSome (termAt_le ha) (termAt_length hb)
    obtain ⟨hl1, hat, hne⟩ := termAt_put hput (termAt_length hb)
    have hlen : (low ++ kept ++ takeLast l).length + 1 = (low ++ kept ++ x :: l).length := by
      simp [takeLast_length]; omega
    obtain ⟨mem2, h2, hl2, hA2⟩ := ih mem1 (genCount - 1) (by omega) (by
      rw [along_append] at hA ⊢
      obtain ⟨hk, hx, hl⟩ := hA
      refine ⟨along_frame _ 0 (fun j _ hj => hne j (by simp at hj; omega)) hk, ?_⟩
      cases l with
      | nil => trivial
      | cons y l =>
        simp only [takeLast]
        refine ⟨⟨b, by simpa using hat, ?_⟩, ?_⟩
        · have e : (low ++ kept ++ x :: y :: l)[low.length + kept.length + (y :: l).length]'(by simp; omega) =
              (y :: l).getLast (by simp) := by
            rw [List.getElem_append_right (by simp), List.getLast_eq_getElem]
            simp
          rw [← e]
          exact hbl
        · have hsplit : (y :: l).dropLast ++ [(y :: l).getLast (by simp)] = y :: l := List.dropLast_append_getLast _
          rw [← hsplit, along_append] at hl
          exact along_frame _ _ (fun j h1 _ => hne j (by simp at h1; omega)) hl.1)
    have eL : colonVarLoop low kept (x :: l) = colonVarLoop low kept (takeLast l) := by
      conv_lhs => rw [colonVarLoop]
      rw [if_pos hany]
    rw [eL]
    refine ⟨mem2, ?_, hl2.trans hl1, hA2⟩
    rw [colonVarWords, if_pos (by simp), ha]
    simp only [hi]
    rw [if_pos (hiff.2 rfl)]
    have e2 : (low ++ kept ++ x :: l).length - 1 = low.length + kept.length + l.length := by simp; omega
    rw [e2, hb]
    simp only [hput]
    rw [← h2]
    congr 1
    simp [takeLast_length]
    omega
  | case3 kept x l hany ih =>
    intro mem genCount hg hA
    obtain ⟨a, ha, hxa⟩ := along_get _ 0 hA (low.length + kept.length) (by simp)
    rw [Nat.zero_add] at ha
    have hx : Packs V a x := by simpa using hxa
    obtain ⟨i, hi, hiff⟩ := findTerm_divides hV hx low (by
      rw [List.append_assoc, along_append] at hA; exact hA.1)
    have ea : low ++ kept ++ x :: l = low ++ (kept ++ [x]) ++ l := by simp
    obtain ⟨mem2, h2, hl2, hA2⟩ := ih mem genCount (by rw [hg, ea]) (by rw [← ea]; exact hA)
    have eL : colonVarLoop low kept (x :: l) = colonVarLoop low (kept ++ [x]) l := by
      conv_lhs => rw [colonVarLoop]
      rw [if_neg hany]
    rw [eL]
    refine ⟨mem2, ?_, hl2, hA2⟩
    rw [colonVarWords, if_pos (by simp), ha]
    simp only [hi]
    rw [if_neg (by rw [hiff]; exact hany), ea]
    rw [List.length_append (as := kept), List.length_singleton, ← Nat.add_assoc] at h2
    exact h2

theorem colonReminimizeVar_holds {V : ℕ} (hV : 0 < V) {r : RsfIdeal} {gens : List (Finset ℕ)} {v : ℕ} (hv : v < V)
    (h : Holds r V gens) :
    ∃ r', r.colonReminimizeVar v = some r' ∧ Holds r' V (SqIdeal.colonReminimizeVar ⟨V, gens⟩ v).gens := by
  have hp : ∀ a s, a.length = r.wordsPerTerm → Packs V a s →
      (fun a => wGetExponent a v) a = some ((fun g => decide (v ∈ g)) s) := fun a s _ hs => C48_getExponent hs hv
  obtain ⟨mem1, h1, hl1, hA1, _⟩ := rsfPartitionWords_spec hV hp gens.length gens r.memory 0 rfl h.along
  have hpart := rsfPartition_spec (fun g => decide (v ∈ g)) gens
  have hlp := hpart.1.length_eq
  unfold RsfIdeal.colonReminimizeVar SqIdeal.colonReminimizeVar
  simp only
  rw [Nat.zero_add, Nat.zero_add] at h1
  rw [h.stop_eq, h.varCount, h1]
  generalize rsfPartition (fun g => decide (v ∈ g)) gens = parts at *
  obtain ⟨A, B⟩ := parts
  simp only at hA1 hlp ⊢
  by_cases hA0 : A = []
  · subst hA0
    rw [if_pos rfl]
    simp only [List.length_nil, if_true]
    exact ⟨_, rfl, h.varCount ▸ h.of_along_same hl1 (by simpa using hlp) (by simpa using hA1)⟩
  · rw [if_neg hA0, if_neg (by simpa using hA0)]
    obtain ⟨hAA, hAB⟩ := (along_append _ _ _).1 hA1
    rw [Nat.zero_add] at hAB
    obtain ⟨mem2, h2, hl2, hA2, hf2⟩ := eachTerm_spec (R := Packs V) (R' := Packs V) (W := r.wordsPerTerm)
      (f := fun a => wSetExponent a v false) (F := (·.erase v)) A mem1 0 hAA (fun a s _ _ hs => by
        obtain ⟨a', ha', hp⟩ := (C48_setExponent hs hv).2
        exact ⟨a', ha', by rw [packs_length hp, h.words], hp⟩)
    rw [List.length_append] at hlp
    simp only [h2]
    by_cases hB0 : B = []
    · subst hB0
      rw [if_pos rfl, if_pos (by simpa using hlp)]
      exact ⟨_, rfl, h.varCount ▸ h.of_along_same (by rw [hl2, hl1]) (by simpa using hlp) hA2⟩
    · have hBpos := List.length_pos_iff.2 hB0
      rw [if_neg hB0, if_neg (by omega)]
      have hlen : (A.map (fun g : Finset ℕ => g.erase v) ++ [] ++ B).length = gens.length := by simp; omega
      obtain ⟨mem3, h3, hl3, hA3⟩ := colonVarWords_spec hV (A.map (fun g : Finset ℕ => g.erase v)) [] B mem2 r.genCount
        (by rw [hlen, h.genCount]) (by
          rw [List.append_nil, along_append]
          refine ⟨hA2, ?_⟩
          rw [List.length_map, Nat.zero_add]
          exact along_frame B _ (fun j hj _ => hf2 j (by omega)) hAB)
      rw [hlen] at h3
      simp only [List.length_map, List.length_nil, Nat.add_zero] at h3
      rw [h3]
      refine ⟨_, rfl, ?_⟩
      refine h.varCount ▸ h.of_along (by rw [hl3, hl2, hl1]) ?_ hA3
      have := (colonVarLoop_spec (A.map (fun g : Finset ℕ => g.erase v)) [] B).length_eq
      rw [List.length_append, this]
      rw [List.nil_append, List.length_map]
      exact (Nat.add_le_add_left (List.filter_sublist (l := B)).length_le _).trans (by omega)

end Frobby

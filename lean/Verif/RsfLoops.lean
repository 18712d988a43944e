import Verif.RsfLemmas
import Verif.RsfSpec

/-!
# The loops of `RawSquareFreeIdeal` on words and on sets
-/

namespace Frobby

theorem holds_iff {r : RsfIdeal} {V : ℕ} {gens : List (Finset ℕ)} :
    Holds r V gens ↔ r.varCount = V ∧ r.wordsPerTerm = wordCount V ∧ r.genCount = gens.length ∧
      r.memoryEnd = r.wordsPerTerm * gens.length ∧ r.memoryEnd ≤ r.memory.length ∧
      Along (Packs V) r.wordsPerTerm r.memory 0 gens := by
  constructor
  · rintro ⟨h1, h2, h3, h4, h5, h6⟩
    refine ⟨h1, by rw [h2, wordCount_eq], h3, h4, h5, along_of_get gens 0 fun k hk => ?_⟩
    rw [Nat.zero_add]
    refine ⟨_, readWords_eq_some.2 ⟨?_, rfl⟩, h6 k hk⟩
    have := Nat.mul_le_mul_left r.wordsPerTerm (show k + 1 ≤ gens.length from hk)
    rw [Nat.mul_add] at this
    omega
  · rintro ⟨h1, h2, h3, h4, h5, h6⟩
    refine ⟨h1, by rw [h2, wordCount_eq], h3, h4, h5, fun k hk => ?_⟩
    obtain ⟨a, ha, hp⟩ := along_get gens 0 h6 k hk
    rw [Nat.zero_add] at ha
    obtain ⟨_, rfl⟩ := readWords_eq_some.1 ha
    exact hp

theorem wordCount_pos (V : ℕ) : 0 < wordCount V := by
  unfold wordCount
  split
  · exact Nat.one_pos
  · exact Nat.succ_pos _

theorem Holds.stop_eq {r : RsfIdeal} {V : ℕ} {gens : List (Finset ℕ)} (h : Holds r V gens) : r.stop = gens.length := by
  obtain ⟨_, h2, _, h4, _, _⟩ := holds_iff.1 h
  unfold RsfIdeal.stop
  rw [h4, Nat.mul_div_cancel_left _ (by rw [h2]; exact wordCount_pos V)]

theorem Holds.along {r : RsfIdeal} {V : ℕ} {gens : List (Finset ℕ)} (h : Holds r V gens) :
    Along (Packs V) r.wordsPerTerm r.memory 0 gens := (holds_iff.1 h).2.2.2.2.2

theorem Holds.words {r : RsfIdeal} {V : ℕ} {gens : List (Finset ℕ)} (h : Holds r V gens) : r.wordsPerTerm = wordCount V :=
  (holds_iff.1 h).2.1

theorem packs_length {V : ℕ} {a : List Word} {s : Finset ℕ} (h : Packs V a s) : a.length = wordCount V := (packs_iff.1 h).1

/-- Rebuild after the memory of the generators was changed in place. -/
theorem Holds.of_along {r : RsfIdeal} {V : ℕ} {gens gens' : List (Finset ℕ)} (h : Holds r V gens) {mem : List Word}
    (hlen : mem.length = r.memory.length) (hle : gens'.length ≤ gens.length)
    (hA : Along (Packs V) r.wordsPerTerm mem 0 gens') :
    Holds ⟨r.varCount, r.wordsPerTerm, gens'.length, r.wordsPerTerm * gens'.length, mem⟩ V gens' := by
  obtain ⟨h1, h2, h3, h4, h5, _⟩ := holds_iff.1 h
  refine holds_iff.2 ⟨h1, h2, rfl, rfl, ?_, hA⟩
  have := Nat.mul_le_mul_left r.wordsPerTerm hle
  simp only
  omega

theorem Holds.of_along_same {r : RsfIdeal} {V : ℕ} {gens gens' : List (Finset ℕ)} (h : Holds r V gens) {mem : List Word}
    (hlen : mem.length = r.memory.length) (hle : gens'.length = gens.length)
    (hA : Along (Packs V) r.wordsPerTerm mem 0 gens') : Holds { r with memory := mem } V gens' := by
  have := h.of_along hlen (Nat.le_of_eq hle) hA
  obtain ⟨h1, h2, h3, h4, h5, _⟩ := holds_iff.1 h
  rw [hle, ← h4, ← h3] at this
  exact this

/-! ### Divisors and minimizing -/

theorem hasDivisor_spec {V W : ℕ} (hV : 0 < V) {mem : List Word} {it : ℕ} {x : Finset ℕ} {a : List Word}
    (ha : termAt W mem it = some a) (hx : Packs V a x) (L : List (Finset ℕ)) :
    ∀ i, Along (Packs V) W mem i L → ∃ b, hasDivisor W mem it i L.length = some b ∧
      (b = true ↔ ∃ k, ∃ h : k < L.length, i + k ≠ it ∧ L[k] ⊆ x) := by
  induction L with
  | nil => intro i _; exact ⟨false, rfl, by simp⟩
  | cons s L ih =>
    intro i hA
    obtain ⟨⟨d, hd, hs⟩, hA⟩ := hA
    obtain ⟨b, hb, hiff⟩ := ih (i + 1) hA
    have hstep : hasDivisor W mem it i (s :: L).length =
        if (decide (s ⊆ x) && i != it) = true then some true else hasDivisor W mem it (i + 1) L.length := by
      rw [List.length_cons, hasDivisor, hd, ha]
      simp only [(C48_relations hV hs hx).1]
    rw [hstep]
    by_cases hc : (decide (s ⊆ x) && i != it) = true
    · refine ⟨true, by rw [if_pos hc], ?_⟩
      simp only [Bool.and_eq_true, decide_eq_true_iff, bne_iff_ne, ne_eq] at hc
      simp only [true_iff]
      exact ⟨0, by simp, by simpa using hc.2, by simpa using hc.1⟩
    · refine ⟨b, by rw [if_neg hc]; exact hb, hiff.trans ⟨?_, ?_⟩⟩
      · rintro ⟨k, hk, h1, h2⟩
        exact ⟨k + 1, by simpa using hk, by omega, by simpa using h2⟩
      · rintro ⟨k, hk, h1, h2⟩
        cases k with
        | zero =>
          simp only [Bool.and_eq_true, decide_eq_true_iff, bne_iff_ne, ne_eq] at hc
          exact absurd ⟨by simpa using h2, by simpa using h1⟩ hc
        | succ k => exact ⟨k, by simpa using hk, by omega, by simpa using h2⟩

theorem hasDivisor_any {V W : ℕ} (hV : 0 < V) {mem : List Word} {kept l : List (Finset ℕ)} {x : Finset ℕ}
    (h : Along (Packs V) W mem 0 (kept ++ x :: l)) :
    hasDivisor W mem kept.length 0 (kept ++ x :: l).length = some ((kept ++ l).any fun d => d ⊆ x) := by
  obtain ⟨a, ha, hx⟩ := along_get _ 0 h kept.length (by simp)
  rw [Nat.zero_add] at ha
  have hx' : Packs V a x := by simpa using hx
  obtain ⟨b, hb, hiff⟩ := hasDivisor_spec hV ha hx' _ 0 h
  rw [hb, Option.some.injEq, Bool.eq_iff_iff, hiff]
  simp only [Nat.zero_add, List.any_eq_true, List.mem_append, decide_eq_true_iff]
  constructor
  · rintro ⟨k, hk, hne, hsub⟩
    rcases Nat.lt_or_gt_of_ne hne with h' | h'
    · rw [List.getElem_append_left h'] at hsub
      exact ⟨_, Or.inl (List.getElem_mem h'), hsub⟩
    · rw [List.getElem_append_right (by omega)] at hsub
      obtain ⟨m, hm⟩ : ∃ m, k - kept.length = m + 1 := ⟨k - kept.length - 1, by omega⟩
      simp only [hm, List.getElem_cons_succ] at hsub
      exact ⟨_, Or.inr (List.getElem_mem _), hsub⟩
  · rintro ⟨d, hd | hd, hsub⟩
    · obtain ⟨k, hk, rfl⟩ := List.getElem_of_mem hd
      exact ⟨k, by simp; omega, by omega, by rw [List.getElem_append_left hk]; exact hsub⟩
    · obtain ⟨k, hk, rfl⟩ := List.getElem_of_mem hd
      refine ⟨kept.length + (k + 1), by simp; omega, by omega, ?_⟩
      rw [List.getElem_append_right (by omega)]
      simpa using hsub

theorem rsfMinimizeLoop_spec {V W : ℕ} (hV : 0 < V) (kept l : List (Finset ℕ)) :
    ∀ mem : List Word, Along (Packs V) W mem 0 (kept ++ l) →
      ∃ mem', rsfMinimizeLoop W mem 0 kept.length (kept.length + l.length) = some (mem', (sqMinimizeLoop kept l).length) ∧
        mem'.length = mem.length ∧ Along (Packs V) W mem' 0 (sqMinimizeLoop kept l) ∧
        ∀ j, kept.length + l.length ≤ j → termAt W mem' j = termAt W mem j := by
  induction kept, l using sqMinimizeLoop.induct with
  | case1 kept =>
    intro mem h
    refine ⟨mem, ?_, rfl, ?_, fun _ _ => rfl⟩
    · rw [rsfMinimizeLoop, if_neg (by simp), sqMinimizeLoop]
      simp
    · rw [sqMinimizeLoop]
      simpa using h
  | case2 kept x l hany ih =>
    intro mem h
    have hdiv := hasDivisor_any hV h
    rw [hany] at hdiv
    obtain ⟨b, hb, hbl⟩ := along_get _ 0 h (kept.length + l.length) (by simp)
    rw [Nat.zero_add] at hb
    obtain ⟨a, ha, _⟩ := along_get _ 0 h kept.length (by simp)
    rw [Nat.zero_add] at ha
    obtain ⟨mem1, hput⟩ := putTerm_isSome (termAt_le ha) (termAt_length hb)
    obtain ⟨hl1, hat, hne⟩ := termAt_put hput (termAt_length hb)
    have hA1 : Along (Packs V) W mem1 0 (kept ++ takeLast l) := by
      rw [along_append] at h ⊢
      obtain ⟨hk, hx, hl⟩ := h
      refine ⟨along_frame kept 0 (fun j _ hj => hne j (by omega)) hk, ?_⟩
      cases l with
      | nil => trivial
      | cons y l =>
        simp only [takeLast]
        refine ⟨⟨b, by simpa using hat, ?_⟩, ?_⟩
        · have e : (kept ++ x :: y :: l)[kept.length + (y :: l).length]'(by simp) = (y :: l).getLast (by simp) := by
            rw [List.getElem_append_right (by omega), List.getLast_eq_getElem]
            simp
          rw [← e]
          exact hbl
        · have hsplit : (y :: l).dropLast ++ [(y :: l).getLast (by simp)] = y :: l := List.dropLast_append_getLast _
          rw [← hsplit, along_append] at hl
          exact along_frame _ _ (fun j h1 _ => hne j (by omega)) hl.1
    obtain ⟨mem2, h2, hl2, hA2, hfr⟩ := ih mem1 hA1
    rw [takeLast_length] at h2 hfr
    have eL : sqMinimizeLoop kept (x :: l) = sqMinimizeLoop kept (takeLast l) := by
      conv_lhs => rw [sqMinimizeLoop]
      rw [if_pos hany]
    refine ⟨mem2, ?_, hl2.trans hl1, by rw [eL]; exact hA2, fun j hj => ?_⟩
    · rw [eL, rsfMinimizeLoop, if_pos (by simp), List.length_cons]
      rw [List.length_append, List.length_cons] at hdiv
      simp only [Nat.sub_zero, hdiv]
      rw [show kept.length + (l.length + 1) - 1 = kept.length + l.length by omega]
      simp only [hb, hput, h2]
    · rw [List.length_cons] at hj
      rw [hfr j (by omega), hne j (by omega)]
  | case3 kept x l hany ih =>
    intro mem h
    have hdiv := hasDivisor_any hV h
    rw [Bool.not_eq_true] at hany
    rw [hany] at hdiv
    obtain ⟨mem2, h2, hl2, hA2, hfr⟩ := ih mem (by simpa using h)
    have eL : sqMinimizeLoop kept (x :: l) = sqMinimizeLoop (kept ++ [x]) l := by
      conv_lhs => rw [sqMinimizeLoop]
      rw [if_neg (by rw [hany]; simp)]
    refine ⟨mem2, ?_, hl2, by rw [eL]; exact hA2, fun j hj => hfr j (by simp at hj ⊢; omega)⟩
    rw [eL, rsfMinimizeLoop, if_pos (by simp), List.length_cons]
    rw [List.length_append, List.length_cons] at hdiv
    simp only [Nat.sub_zero, hdiv]
    rw [List.length_append, List.length_singleton] at h2
    rw [show kept.length + (l.length + 1) = kept.length + 1 + l.length by omega]
    exact h2

theorem rsfMinimize_spec {V W : ℕ} (hV : 0 < V) (l : List (Finset ℕ)) (mem : List Word)
    (h : Along (Packs V) W mem 0 l) :
    ∃ mem', rsfMinimizeLoop W mem 0 0 l.length = some (mem', (sqMinimize l).length) ∧ mem'.length = mem.length ∧
      Along (Packs V) W mem' 0 (sqMinimize l) ∧ ∀ j, l.length ≤ j → termAt W mem' j = termAt W mem j := by
  have := rsfMinimizeLoop_spec hV [] l mem (by simpa using h)
  simpa [sqMinimize] using this

/-! ### Partition -/

theorem rsfPartitionWords_unfold (W V : ℕ) (p : List Word → Option Bool) (mem : List Word) {b e b' : ℕ} (hbe : b < e)
    (hb : findTerm W (fun a => (p a).map (!·)) mem b (e - b) = some b') :
    rsfPartitionWords W V p mem b e = if b' = e then some (mem, e) else
      match skipBack W p mem b' (e - b') with
      | none => none
      | some e' =>
        if e' = b' then some (mem, b')
        else
          match swapTerms W V mem b' e' with
          | none => none
          | some mem => rsfPartitionWords W V p mem (b' + 1) e' := by
  conv_lhs => unfold rsfPartitionWords
  rw [if_pos hbe]
  split
  · rename_i h
    rw [hb] at h
    cases h
  · rename_i b'' h
    rw [hb] at h
    cases h
    by_cases he : b' = e
    · rw [if_pos he, if_pos he]
    · rw [if_neg he, if_neg he]
      split
      · rename_i h'
        rw [h']
      · rename_i e' h'
        simp only [h']
        by_cases heb : e' = b'
        · rw [if_pos heb, if_pos heb]
        · rw [if_neg heb, if_neg heb]
          cases swapTerms W V mem b' e' <;> rfl

theorem rsfPartition_append (p : SqTerm → Bool) (T L : List SqTerm) (hT : ∀ x ∈ T, p x = true) :
    rsfPartition p (T ++ L) = (T ++ (rsfPartition p L).1, (rsfPartition p L).2) := by
  induction T with
  | nil => simp
  | cons x T ih =>
    rw [List.cons_append, rsfPartition, if_pos (hT x (by simp)), ih fun y hy => hT y (by simp [hy])]
    simp

theorem rsfPartition_cons_none (p : SqTerm → Bool) (x : SqTerm) (l : List SqTerm) (hx : p x = false)
    (hl : ∀ y ∈ l, p y = false) : rsfPartition p (x :: l) = ([], x :: l) := by
  rw [rsfPartition, if_neg (by simp [hx])]
  split
  · rfl
  · rename_i y before h
    have : y ∈ l.reverse.dropWhile fun y => !p y := by rw [h]; simp
    have h2 : (l.reverse.dropWhile fun y => !p y) = [] := by
      rw [List.dropWhile_eq_nil_iff]
      intro z hz
      simp [hl z (by simpa using hz)]
    rw [h2] at this
    simp at this

theorem rsfPartition_cons_swap (p : SqTerm → Bool) (x y : SqTerm) (mid after : List SqTerm) (hx : p x = false)
    (hy : p y = true) (ha : ∀ z ∈ after, p z = false) :
    rsfPartition p (x :: (mid ++ y :: after)) = (y :: (rsfPartition p mid).1, (rsfPartition p mid).2 ++ x :: after) := by
  have hrev : (mid ++ y :: after).reverse = after.reverse ++ (y :: mid.reverse) := by simp
  have hdrop : ((mid ++ y :: after).reverse.dropWhile fun z => !p z) = y :: mid.reverse := by
    rw [hrev, List.dropWhile_append_of_pos (fun z hz => by simp [ha z (by simpa using hz)])]
    simp [hy]
  have htake : ((mid ++ y :: after).reverse.takeWhile fun z => !p z) = after.reverse := by
    rw [hrev, List.takeWhile_append_of_pos (fun z hz => by simp [ha z (by simpa using hz)])]
    simp [hy]
  rw [rsfPartition, if_neg (by simp [hx])]
  split
  · rename_i h
    rw [hdrop] at h
    cases h
  · rename_i y' before h
    rw [hdrop] at h
    cases h
    rw [htake]
    simp

theorem skipBack_spec {V W : ℕ} {p : List Word → Option Bool} {q : SqTerm → Bool} {mem : List Word} (b : ℕ) :
    ∀ l : List SqTerm, (∀ a, ∀ s ∈ l, a.length = W → Packs V a s → p a = some (q s)) →
      Along (Packs V) W mem (b + 1) l →
      (skipBack W p mem b (l.length + 1) = some b ∧ ∀ y ∈ l, q y = false) ∨
      ∃ mid y after, l = mid ++ y :: after ∧ q y = true ∧ (∀ z ∈ after, q z = false) ∧
        skipBack W p mem b (l.length + 1) = some (b + 1 + mid.length) := by
  intro l
  induction l using List.reverseRecOn with
  | nil => intro _ _; left; exact ⟨by simp [skipBack], by simp⟩
  | append_singleton l z ih =>
    intro hp hA
    have hA' := (along_append l [z] (b + 1)).1 hA
    obtain ⟨⟨a, ha, hz⟩, _⟩ := hA'.2
    have hpz := hp a z (by simp) (termAt_length ha) hz
    have hstep : skipBack W p mem b ((l ++ [z]).length + 1) =
        match q z with
        | true => some (b + 1 + l.length)
        | false => skipBack W p mem b (l.length + 1) := by
      rw [List.length_append, List.length_singleton, skipBack, if_neg (by omega),
        show b + (l.length + 1) = b + 1 + l.length by omega, ha]
      simp only [hpz]
      cases q z <;> rfl
    cases hq : q z with
    | true =>
      right
      refine ⟨l, z, [], rfl, hq, by simp, ?_⟩
      rw [hstep, hq]
    | false =>
      rw [hq] at hstep
      simp only at hstep
      rcases ih (fun a s hs => hp a s (by simp [hs])) hA'.1 with ⟨h1, h2⟩ | ⟨mid, y, after, h1, h2, h3, h4⟩
      · left
        refine ⟨hstep.trans h1, fun y hy => ?_⟩
        rcases List.mem_append.1 hy with h | h
        · exact h2 y h
        · rw [List.mem_singleton.1 h, hq]
      · right
        refine ⟨mid, y, after ++ [z], by simp [h1], h2, fun w hw => ?_, hstep.trans h4⟩
        rcases List.mem_append.1 hw with h | h
        · exact h3 w h
        · rw [List.mem_singleton.1 h, hq]

theorem swapTerms_spec {V W : ℕ} (hV : 0 < V) {mem : List Word} {i j : ℕ} (hij : i ≠ j) {a b : List Word} {s t : Finset ℕ}
    (ha : termAt W mem i = some a) (hs : Packs V a s) (hb : termAt W mem j = some b) (ht : Packs V b t) :
    ∃ mem', swapTerms W V mem i j = some mem' ∧ mem'.length = mem.length ∧ termAt W mem' i = some b ∧
      termAt W mem' j = some a ∧ ∀ k, k ≠ i → k ≠ j → termAt W mem' k = termAt W mem k := by
  have hlen : a.length = b.length := (packs_length hs).trans (packs_length ht).symm
  have hsw := (C48_assign hV hlen ht).2.2 hs
  obtain ⟨mem1, hp1⟩ := putTerm_isSome (termAt_le ha) (termAt_length hb)
  obtain ⟨hl1, hat1, hne1⟩ := termAt_put hp1 (termAt_length hb)
  obtain ⟨mem2, hp2⟩ := putTerm_isSome (mem := mem1) (by rw [hl1]; exact termAt_le hb) (termAt_length ha)
  obtain ⟨hl2, hat2, hne2⟩ := termAt_put hp2 (termAt_length ha)
  refine ⟨mem2, ?_, hl2.trans hl1, ?_, hat2, fun k hki hkj => ?_⟩
  · unfold swapTerms
    rw [ha, hb]
    simp only [hsw, hp1, hp2]
  · rw [hne2 i hij, hat1]
  · rw [hne2 k hkj, hne1 k hki]

theorem exists_prefix (q : SqTerm → Bool) (L : List SqTerm) :
    ∃ T L', L = T ++ L' ∧ (∀ x ∈ T, q x = true) ∧ L.findIdx (fun x => !q x) = T.length ∧
      (L' = [] ∨ ∃ x l, L' = x :: l ∧ q x = false) := by
  induction L with
  | nil => exact ⟨[], [], rfl, by simp, by simp, Or.inl rfl⟩
  | cons x L ih =>
    cases hq : q x with
    | true =>
      obtain ⟨T, L', h1, h2, h3, h4⟩ := ih
      refine ⟨x :: T, L', by simp [h1], ?_, ?_, h4⟩
      · intro y hy
        rcases List.mem_cons.1 hy with rfl | hy
        · exact hq
        · exact h2 y hy
      · rw [List.findIdx_cons]
        simp [hq, h3]
    | false => exact ⟨[], x :: L, rfl, by simp, by simp [List.findIdx_cons, hq], Or.inr ⟨x, L, rfl, hq⟩⟩

theorem rsfPartitionWords_spec {V W : ℕ} (hV : 0 < V) {p : List Word → Option Bool} {q : SqTerm → Bool}
    (hp : ∀ a s, a.length = W → Packs V a s → p a = some (q s)) :
    ∀ (n : ℕ) (L : List SqTerm) (mem : List Word) (b : ℕ), L.length = n → Along (Packs V) W mem b L →
      ∃ mem', rsfPartitionWords W V p mem b (b + L.length) = some (mem', b + (rsfPartition q L).1.length) ∧
        mem'.length = mem.length ∧ Along (Packs V) W mem' b ((rsfPartition q L).1 ++ (rsfPartition q L).2) ∧
        ∀ j, j < b ∨ b + L.length ≤ j → termAt W mem' j = termAt W mem j := by
  intro n
  induction n using Nat.strong_induction_on with
  | _ n ih =>
    intro L mem b hn hA
    by_cases hnil : L = []
    · subst hnil
      refine ⟨mem, ?_, rfl, by simp [rsfPartition, Along], fun _ _ => rfl⟩
      rw [rsfPartitionWords, if_neg (by simp), rsfPartition]
      simp
    have hpos := List.length_pos_iff.2 hnil
    have hfind : findTerm W (fun a => (p a).map (!·)) mem b (b + L.length - b) = some (b + L.findIdx fun x => !q x) := by
      rw [Nat.add_sub_cancel_left]
      exact findTerm_spec L b hA fun a s _ h1 h2 => by rw [hp a s h1 h2]; rfl
    obtain ⟨T, L', hL, hT, hidx, hcase⟩ := exists_prefix q L
    rw [hidx] at hfind
    rw [rsfPartitionWords_unfold W V p mem (by omega) hfind, hL, rsfPartition_append q T L' hT]
    rw [hL, along_append] at hA
    rcases hcase with rfl | ⟨x, l, rfl, hx⟩
    · refine ⟨mem, ?_, rfl, ?_, fun _ _ => rfl⟩
      · rw [if_pos (by simp), rsfPartition]
      · rw [rsfPartition, List.append_assoc, along_append]
        exact ⟨hA.1, trivial⟩
    · obtain ⟨hAT, ⟨a, ha, hxa⟩, hAl⟩ := hA
      rw [if_neg (by simp)]
      have e1 : b + (T ++ x :: l).length - (b + T.length) = l.length + 1 := by simp; omega
      rw [e1]
      rcases skipBack_spec (b + T.length) l (fun a s _ h1 h2 => hp a s h1 h2) hAl with
        ⟨h1, h2⟩ | ⟨mid, y, after, rfl, hy, haf, h4⟩
      · rw [h1]
        simp only [if_true]
        rw [rsfPartition_cons_none q x l hx h2]
        refine ⟨mem, by simp, rfl, ?_, fun _ _ => rfl⟩
        rw [List.append_assoc, along_append]
        exact ⟨hAT, ⟨a, ha, hxa⟩, hAl⟩
      · rw [h4]
        simp only
        rw [if_neg (by omega)]
        obtain ⟨hAmid, ⟨c, hc, hyc⟩, hAaf⟩ := (along_append _ _ _).1 hAl
        obtain ⟨mem1, hs1, hl1, hi1, hj1, hk1⟩ := swapTerms_spec hV (show b + T.length ≠ b + T.length + 1 + mid.length by omega)
          ha hxa hc hyc
        rw [hs1]
        simp only
        rw [rsfPartition_cons_swap q x y mid after hx hy haf]
        obtain ⟨mem2, h2, hl2, hA2, hfr2⟩ := ih mid.length (by rw [← hn, hL]; simp; omega) mid mem1 (b + T.length + 1) rfl
          (along_frame mid _ (fun j h1 h2 => hk1 j (by omega) (by omega)) hAmid)
        have hlenp : (rsfPartition q mid).1.length + (rsfPartition q mid).2.length = mid.length := by
          have := (rsfPartition_spec q mid).1.length_eq
          rwa [List.length_append] at this
        refine ⟨mem2, ?_, hl2.trans hl1, ?_, fun j hj => ?_⟩
        · rw [h2]
          simp only [List.length_append, List.length_cons, Option.some.injEq, Prod.mk.injEq, true_and]
          omega
        · have e2 : T ++ y :: (rsfPartition q mid).1 ++ ((rsfPartition q mid).2 ++ x :: after) =
              T ++ ([y] ++ ((rsfPartition q mid).1 ++ (rsfPartition q mid).2 ++ (x :: after))) := by simp
          simp only
          rw [e2, along_append]
          refine ⟨along_frame T b (fun j h1 h3 => ?_) hAT, ?_⟩
          · rw [hfr2 j (by omega), hk1 j (by omega) (by omega)]
          rw [along_append]
          refine ⟨⟨⟨c, ?_, hyc⟩, trivial⟩, ?_⟩
          · rw [hfr2 _ (by omega), hi1]
          rw [along_append]
          refine ⟨hA2, ⟨a, ?_, hxa⟩, ?_⟩
          · rw [List.length_append, hlenp, List.length_singleton, hfr2 _ (by omega), hj1]
          · rw [List.length_append, hlenp, List.length_singleton]
            exact along_frame after _ (fun j h1 h3 => by rw [hfr2 j (by omega), hk1 j (by omega) (by omega)]) hAaf
        · simp only [List.length_append, List.length_cons] at hj
          rw [hfr2 j (by omega), hk1 j (by omega) (by omega)]

end Frobby

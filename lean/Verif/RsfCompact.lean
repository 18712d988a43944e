import Verif.RsfOps

/-!
# `compact` and `transpose` of an ideal of packed terms
-/

namespace Frobby

/-- What the words of a term are after the variables below `var` were moved. -/
def Moved (W : ℕ) (R : ℕ → Bool) (var : ℕ) (a : List Word) (s : Finset ℕ) : Prop :=
  a.length = W ∧ (∀ v < var, R v = false → bitOf a (keptBelow R v) = decide (v ∈ s)) ∧
    ∀ u, var ≤ u → bitOf a u = decide (u ∈ s)

theorem moved_step {W V var : ℕ} {R : ℕ → Bool} {a : List Word} {s : Finset ℕ} (hV : V ≤ 64 * W) (hvar : var < V)
    (hR : R var = false) (h : Moved W R var a s) :
    ∃ a', (match wGetExponent a var with
          | none => none
          | some e => wSetExponent a (keptBelow R var) e) = some a' ∧ a'.length = W ∧ Moved W R (var + 1) a' s := by
  obtain ⟨hl, h1, h2⟩ := h
  have hk := keptBelow_le R var
  rw [wGetExponent_spec a var (by rw [hl]; omega), h2 var (Nat.le_refl _)]
  obtain ⟨a', ha', hlen, hbits⟩ := wSetExponent_spec (a := a) (v := keptBelow R var) (by rw [hl]; omega) (decide (var ∈ s))
  refine ⟨a', ha', hlen.trans hl, hlen.trans hl, fun v hv hRv => ?_, fun u hu => ?_⟩
  · rcases Nat.lt_succ_iff_lt_or_eq.1 hv with hlt | rfl
    · have hkv : keptBelow R v < keptBelow R var := by
        have := keptBelow_mono R (show v + 1 ≤ var from hlt)
        rw [keptBelow_succ, if_pos hRv] at this
        omega
      rw [hbits, if_neg (by omega), h1 v hlt hRv]
    · rw [hbits, if_pos rfl]
  · rw [hbits, if_neg (by omega), h2 u (by omega)]

theorem moved_skip {W var : ℕ} {R : ℕ → Bool} {a : List Word} {s : Finset ℕ} (hR : R var = true) (h : Moved W R var a s) :
    Moved W R (var + 1) a s := by
  obtain ⟨hl, h1, h2⟩ := h
  refine ⟨hl, fun v hv hRv => ?_, fun u hu => h2 u (by omega)⟩
  rcases Nat.lt_succ_iff_lt_or_eq.1 hv with hlt | rfl
  · exact h1 v hlt hRv
  · rw [hR] at hRv
    cases hRv

theorem rsfCompactVars_spec {W V : ℕ} {R : ℕ → Bool} {remove : List Word} (hV : V ≤ 64 * W) (hVr : V ≤ 64 * remove.length)
    (hrem : ∀ v < V, bitOf remove v = R v) (gens : List (Finset ℕ)) :
    ∀ (n var : ℕ) (mem : List Word), var + n = V → Along (Moved W R var) W mem 0 gens →
      ∃ mem', rsfCompactVars W remove gens.length mem (keptBelow R var) var n = some (mem', keptBelow R V) ∧
        mem'.length = mem.length ∧ Along (Moved W R V) W mem' 0 gens := by
  intro n
  induction n with
  | zero =>
    intro var mem hn hA
    obtain rfl : var = V := by omega
    exact ⟨mem, rfl, rfl, hA⟩
  | succ n ih =>
    intro var mem hn hA
    have hget : wGetExponent remove var = some (R var) := by
      rw [wGetExponent_spec remove var (by omega), hrem var (by omega)]
    cases hR : R var with
    | true =>
      obtain ⟨mem', h1, h2, h3⟩ := ih (var + 1) mem (by omega) (by
        have := along_mono (R' := Moved W R (var + 1)) id gens 0 (fun a s _ h => moved_skip hR h) hA
        simpa using this)
      refine ⟨mem', ?_, h2, h3⟩
      rw [rsfCompactVars, hget, hR]
      rw [keptBelow_succ, hR] at h1
      exact h1
    | false =>
      obtain ⟨mem1, e1, l1, A1, _⟩ := eachTerm_spec (R := Moved W R var) (R' := Moved W R (var + 1)) (F := id)
        (f := fun a =>
          match wGetExponent a var with
          | none => none
          | some e => wSetExponent a (keptBelow R var) e) gens mem 0 hA (fun a s _ _ h => moved_step hV (by omega) hR h)
      obtain ⟨mem', h1, h2, h3⟩ := ih (var + 1) mem1 (by omega) (by simpa using A1)
      refine ⟨mem', ?_, h2.trans l1, h3⟩
      rw [rsfCompactVars, hget, hR]
      rw [keptBelow_succ, hR] at h1
      simp only
      split
      · rename_i hx
        exact absurd (hx.symm.trans e1) (by simp)
      · rename_i mem' hx
        obtain rfl : mem' = mem1 := Option.some.inj (hx.symm.trans e1)
        exact h1

/-- The bits of the word with the number `n / 64` from `n` on are cleared. -/
theorem clear_bits {a : List Word} {n : ℕ} (hn : n / 64 < a.length) (w : Word) (hw : a[n / 64]? = some w) (u : ℕ) :
    bitOf (a.set (n / 64) (w &&& fullSupportWord (n % 64))) u = if u / 64 = n / 64 then (bitOf a u && decide (u < n)) else bitOf a u := by
  rw [bitOf_set hn]
  by_cases hu : u / 64 = n / 64
  · rw [if_pos hu, if_pos hu, BitVec.getLsbD_and, fullSupportWord_bits (Nat.mod_lt _ (by omega))]
    unfold bitOf
    rw [List.getD_eq_getElem?_getD, hu, hw]
    congr 1
    rw [decide_eq_decide]
    omega
  · rw [if_neg hu, if_neg hu]

theorem rsfMoveTerms_spec {σ : Type} {oldW newW : ℕ} (hW : newW ≤ oldW) {R : List Word → σ → Prop} (rest : List σ) :
    ∀ (mem : List Word) (done : List σ),
      Along R newW mem 0 done → Along (fun a s => R (a.take newW) s) oldW mem done.length rest →
      ∃ mem', rsfMoveTerms oldW newW mem done.length rest.length = some mem' ∧ mem'.length = mem.length ∧
        Along R newW mem' 0 (done ++ rest) := by
  induction rest with
  | nil => intro mem done h _; exact ⟨mem, rfl, rfl, by simpa using h⟩
  | cons s rest ih =>
    intro mem done hd hr
    obtain ⟨⟨a, ha, hs⟩, hr⟩ := hr
    have hle := termAt_le ha
    have hread : readWords mem (oldW * done.length) newW = some (a.take newW) := by
      obtain ⟨_, e⟩ := readWords_eq_some.1 ha
      rw [readWords_eq_some]
      refine ⟨by omega, ?_⟩
      rw [e, List.take_take, Nat.min_eq_left hW]
    have hmul : newW * done.length ≤ oldW * done.length := Nat.mul_le_mul_right _ hW
    obtain ⟨mem1, hput⟩ := putTerm_isSome (W := newW) (i := done.length) (mem := mem) (by omega) (readWords_length hread)
    obtain ⟨hl1, hat, hne⟩ := termAt_put hput (readWords_length hread)
    obtain ⟨mem2, h2, hl2, hA2⟩ := ih mem1 (done ++ [s])
      (by
        rw [along_append]
        exact ⟨along_frame _ 0 (fun j _ hj => hne j (by omega)) hd, ⟨_, by simpa using hat, hs⟩, trivial⟩)
      (by
        rw [List.length_append, List.length_singleton]
        refine along_frame rest _ (fun j hj _ => ?_) hr
        refine readWords_writeWords_of_ne hput (Or.inr ?_)
        rw [readWords_length hread]
        have := Nat.mul_le_mul_left oldW hj
        rw [Nat.mul_succ] at this
        omega)
    refine ⟨mem2, ?_, hl2.trans hl1, by simpa using hA2⟩
    rw [List.length_cons, rsfMoveTerms, hread]
    simp only [hput]
    rw [List.length_append, List.length_singleton] at h2
    exact h2

theorem card_kept_lt {V v : ℕ} {m : Finset ℕ} (hv : v < V) (hvm : v ∉ m) :
    (Finset.range v \ m).card < (Finset.range V \ m).card := by
  refine Finset.card_lt_card ⟨?_, fun h => ?_⟩
  · intro u hu
    rw [Finset.mem_sdiff, Finset.mem_range] at hu ⊢
    exact ⟨by omega, hu.2⟩
  · have := h (show v ∈ Finset.range V \ m from Finset.mem_sdiff.2 ⟨Finset.mem_range.2 hv, hvm⟩)
    simp at this

theorem card_kept_inj {u v : ℕ} {m : Finset ℕ} (hu : u ∉ m) (hv : v ∉ m)
    (h : (Finset.range u \ m).card = (Finset.range v \ m).card) : u = v := by
  rcases Nat.lt_trichotomy u v with hlt | rfl | hlt
  · have := card_kept_lt hlt hu
    omega
  · rfl
  · have := card_kept_lt hlt hv
    omega

/-- Every new number is that of a variable which is kept. -/
theorem exists_kept {m : Finset ℕ} : ∀ {V n : ℕ}, (Finset.range V \ m).card = n → ∀ u < n,
    ∃ v < V, v ∉ m ∧ (Finset.range v \ m).card = u := by
  intro V
  induction V with
  | zero => intro n hn u hu; simp at hn; omega
  | succ V ih =>
    intro n hn u hu
    rw [← keptBelow_eq_card, keptBelow_succ, keptBelow_eq_card] at hn
    by_cases hVm : V ∈ m
    · rw [if_neg (by simpa using hVm)] at hn
      obtain ⟨v, h1, h2, h3⟩ := ih (n := n) (by omega) u hu
      exact ⟨v, by omega, h2, h3⟩
    · rw [if_pos (by simpa using hVm)] at hn
      by_cases huV : u = (Finset.range V \ m).card
      · exact ⟨V, by omega, hVm, huV.symm⟩
      · obtain ⟨v, h1, h2, h3⟩ := ih rfl u (by omega)
        exact ⟨v, by omega, h2, h3⟩

theorem compact_holds {V : ℕ} {r : RsfIdeal} {gens : List (Finset ℕ)} {remove : List Word} {m : Finset ℕ} (h : Holds r V gens)
    (hm : Packs V remove m) (hleft : 0 < (Finset.range V \ m).card) :
    ∃ r', r.compact remove = some r' ∧ Holds r' (Finset.range V \ m).card (gens.map (renumber V m)) ∧
      r'.memory.length = r.memory.length := by
  obtain ⟨h1, h2, h3, h4, h5, h6⟩ := holds_iff.1 h
  have hVW : V ≤ 64 * r.wordsPerTerm := by rw [h2, ← packs_length hm]; exact hm.le
  have hkb : ∀ v, keptBelow (fun u => decide (u ∈ m)) v = (Finset.range v \ m).card := keptBelow_eq_card m
  obtain ⟨mem1, e1, l1, A1⟩ := rsfCompactVars_spec (R := fun u => decide (u ∈ m)) hVW hm.le (fun v _ => hm.bitOf_eq v) gens V 0
    r.memory (by omega) (by
      have := along_mono (R' := Moved r.wordsPerTerm (fun u => decide (u ∈ m)) 0) id gens 0 (fun a s _ h =>
        ⟨by rw [packs_length h, h2], fun v hv => absurd hv (by omega), fun u _ => h.bitOf_eq u⟩) h6
      simpa using this)
  rw [hkb V, show keptBelow (fun u => decide (u ∈ m)) 0 = 0 from rfl] at e1
  have hkV := hkb V
  have hcardle : (Finset.range V \ m).card ≤ V := (Finset.card_le_card Finset.sdiff_subset).trans (by simp)
  have hfit := fits_wordCount hleft
  have hnewW : wordCount (Finset.range V \ m).card ≤ r.wordsPerTerm := by
    rw [h2, wordCount_eq, wordCount_eq]
    omega
  generalize hn : (Finset.range V \ m).card = n at *
  have hmemk : ∀ v, v < V → v ∉ m → (Finset.range v \ m).card < n := fun v hv hvm => hn ▸ card_kept_lt hv hvm
  -- the terms after the last word is masked
  let R2 : List Word → Finset ℕ → Prop := fun a s => a.length = r.wordsPerTerm ∧
    (∀ v < V, v ∉ m → bitOf a (Finset.range v \ m).card = decide (v ∈ s)) ∧
    ∀ u, n ≤ u → u < 64 * wordCount n → bitOf a u = false
  have hmask : ∃ mem2, (if n % bitsPerWord ≠ 0 then
        eachTerm r.wordsPerTerm (fun a =>
          match a[n / bitsPerWord]? with
          | none => none
          | some word => some (a.set (n / bitsPerWord) (word &&& fullSupportWord (n % bitsPerWord)))) mem1 0 gens.length
      else some mem1) = some mem2 ∧ mem2.length = mem1.length ∧ Along R2 r.wordsPerTerm mem2 0 gens := by
    change ∃ mem2, (if n % 64 ≠ 0 then
        eachTerm r.wordsPerTerm (fun a =>
          match a[n / 64]? with
          | none => none
          | some word => some (a.set (n / 64) (word &&& fullSupportWord (n % 64)))) mem1 0 gens.length
      else some mem1) = some mem2 ∧ mem2.length = mem1.length ∧ Along R2 r.wordsPerTerm mem2 0 gens
    have hfit' := hfit
    unfold Fits at hfit'
    by_cases hmod : n % 64 = 0
    · rw [if_neg (by simpa using hmod)]
      refine ⟨mem1, rfl, rfl, ?_⟩
      have := along_mono (R' := R2) id gens 0 (fun a s _ hs => (by
        obtain ⟨q1, q2, q3⟩ := hs
        refine ⟨q1, fun v hv hvm => ?_, fun u hu1 hu2 => by omega⟩
        have := q2 v hv (by simpa using hvm)
        rwa [hkb] at this)) A1
      simpa using this
    · rw [if_pos hmod]
      obtain ⟨mem2, e2, l2, A2, _⟩ := eachTerm_spec (R := Moved r.wordsPerTerm (fun u => decide (u ∈ m)) V) (R' := R2) (F := id)
        (W := r.wordsPerTerm) (f := fun a =>
          match a[n / 64]? with
          | none => none
          | some word => some (a.set (n / 64) (word &&& fullSupportWord (n % 64)))) gens mem1 0 A1 (fun a s _ _ hs => by
            obtain ⟨q1, q2, q3⟩ := hs
            have hlt : n / 64 < a.length := by rw [q1]; omega
            have hw := List.getElem?_eq_getElem hlt
            rw [hw]
            refine ⟨_, rfl, by simpa using q1, by simpa using q1, fun v hv hvm => ?_, fun u hu1 hu2 => ?_⟩
            · have hlt' := hmemk v hv hvm
              rw [clear_bits hlt _ hw]
              have := q2 v hv (by simpa using hvm)
              rw [hkb] at this
              rw [this]
              simp [hlt']
            · rw [clear_bits hlt _ hw, if_pos (by omega)]
              simp [hu1])
      exact ⟨mem2, e2, l2, by simpa using A2⟩
  obtain ⟨mem2, e2, l2, A2⟩ := hmask
  obtain ⟨mem3, e3, l3, A3⟩ := rsfMoveTerms_spec (R := fun a s => Packs n a (renumber V m s)) hnewW gens mem2 [] trivial (by
    have := along_mono (R' := fun a s => Packs n (a.take (wordCount n)) (renumber V m s)) id gens 0 (fun a s _ hs => (by
      obtain ⟨q1, q2, q3⟩ := hs
      have hlen : (a.take (wordCount n)).length = wordCount n := by
        rw [List.length_take, q1]
        omega
      refine packs_iff.2 ⟨hlen, ?_, ?_⟩
      · intro u hu
        obtain ⟨v, hv, rfl⟩ := Finset.mem_image.1 hu
        rw [Finset.mem_inter, Finset.mem_sdiff, Finset.mem_range] at hv
        exact Finset.mem_range.2 (hmemk v hv.1.1 hv.1.2)
      · rw [bitsAre_iff]
        intro u hu
        rw [hlen] at hu
        have hbit : bitOf (a.take (wordCount n)) u = bitOf a u := by
          unfold bitOf
          rw [List.getD_eq_getElem?_getD, List.getD_eq_getElem?_getD, List.getElem?_take_of_lt (by omega)]
        rw [hbit, Bool.eq_iff_iff, decide_eq_true_iff]
        unfold renumber
        rw [Finset.mem_image]
        by_cases hun : u < n
        · obtain ⟨v, hv, hvm, rfl⟩ := exists_kept hn u hun
          rw [q2 v hv hvm, decide_eq_true_iff]
          constructor
          · intro hvs
            exact ⟨v, Finset.mem_inter.2 ⟨Finset.mem_sdiff.2 ⟨Finset.mem_range.2 hv, hvm⟩, hvs⟩, rfl⟩
          · rintro ⟨v', hv', e⟩
            rw [Finset.mem_inter, Finset.mem_sdiff, Finset.mem_range] at hv'
            rw [card_kept_inj hv'.1.2 hvm e] at hv'
            exact hv'.2
        · rw [q3 u (by omega) hu]
          simp only [Bool.false_eq_true, false_iff]
          rintro ⟨v, hv, rfl⟩
          rw [Finset.mem_inter, Finset.mem_sdiff, Finset.mem_range] at hv
          exact hun (hmemk v hv.1.1 hv.1.2))) A2
    simpa using this)
  refine ⟨⟨n, wordCount n, r.genCount, wordCount n * gens.length, mem3⟩, ?_, holds_iff.2 ⟨rfl, rfl, by simp [h3], by simp, ?_, ?_⟩, ?_⟩
  · unfold RsfIdeal.compact
    rw [h.stop_eq, h1, e1]
    rw [List.length_nil] at e3
    simp only
    split
    · rename_i hx
      exact absurd (hx.symm.trans e2) (by simp)
    · rename_i mem' hx
      obtain rfl : mem' = mem2 := Option.some.inj (hx.symm.trans e2)
      rw [e3]
  · have := Nat.mul_le_mul_right gens.length hnewW
    simp only
    omega
  · have := along_mono (R' := Packs n) (renumber V m) gens 0 (fun a s _ hs => hs) A3
    exact this
  · simp only
    omega

/-! ### `transpose` -/

theorem packs_empty (V : ℕ) : Packs V (List.replicate (wordCount V) 0) ∅ := by
  refine ⟨by rw [List.length_replicate, wordCount_eq], by simp, fun v hv => ?_⟩
  rw [List.length_replicate] at hv
  unfold bitOf
  rw [List.getD_eq_getElem?_getD, List.getElem?_replicate, if_pos (by omega)]
  simp

theorem transposeRow_spec {V v : ℕ} {ideal : RsfIdeal} {gens : List (Finset ℕ)} (hv : v < V) (h : Holds ideal V gens) :
    ∀ (n gen : ℕ) (term : List Word), gen + n = gens.length →
      Packs gens.length term ((Finset.range gen).filter fun i => v ∈ gens.getD i ∅) →
      ∃ t, transposeRow ideal v term gen n = some t ∧ Packs gens.length t (rowOf gens v) := by
  intro n
  induction n with
  | zero =>
    intro gen term hn hp
    obtain rfl : gen = gens.length := by omega
    exact ⟨term, rfl, hp⟩
  | succ n ih =>
    intro gen term hn hp
    obtain ⟨a, ha, hpa⟩ := along_get gens 0 h.along gen (by omega)
    rw [Nat.zero_add] at ha
    have hset := C48_setExponent hp (v := gen) (by omega)
    have hgd : gens.getD gen ∅ = gens[gen]'(by omega) := by
      rw [List.getD_eq_getElem?_getD, List.getElem?_eq_getElem (by omega)]
      rfl
    have key : ∃ t, wSetExponent term gen (decide (v ∈ gens[gen]'(by omega))) = some t ∧
        Packs gens.length t ((Finset.range (gen + 1)).filter fun i => v ∈ gens.getD i ∅) := by
      by_cases hvg : v ∈ gens[gen]'(by omega)
      · obtain ⟨t, ht, hpt⟩ := hset.1
        refine ⟨t, by simpa [hvg] using ht, ?_⟩
        rw [Finset.range_add_one, Finset.filter_insert, if_pos (by rw [hgd]; exact hvg)]
        exact hpt
      · obtain ⟨t, ht, hpt⟩ := hset.2
        refine ⟨t, by simpa [hvg] using ht, ?_⟩
        rw [Finset.range_add_one, Finset.filter_insert, if_neg (by rw [hgd]; exact hvg)]
        rwa [Finset.erase_eq_of_notMem (by simp)] at hpt
    obtain ⟨t, ht, hpt⟩ := key
    obtain ⟨t', ht', hpt'⟩ := ih (gen + 1) t (by omega) hpt
    refine ⟨t', ?_, hpt'⟩
    rw [transposeRow, ha]
    simp only [C48_getExponent hpa hv, ht]
    exact ht'

theorem transposeLoop_spec {V : ℕ} {ideal : RsfIdeal} {gens : List (Finset ℕ)} (h : Holds ideal V gens)
    {eraseVars : Option (List Word)} {E : ℕ → Bool}
    (hE : ∀ v < V, isErased eraseVars v = some (E v)) :
    ∀ (n var : ℕ) (r : RsfIdeal) (done : List (Finset ℕ)), var + n = V → Holds r gens.length done →
      r.wordsPerTerm * (done.length + ((List.range' var n).filter fun v => !E v).length) ≤ r.memory.length →
      ∃ r', transposeLoop ideal eraseVars r var n = some r' ∧
        Holds r' gens.length (done ++ ((List.range' var n).filter fun v => !E v).map (rowOf gens)) ∧
        r'.memory.length = r.memory.length := by
  intro n
  induction n with
  | zero => intro var r done _ hr _; exact ⟨r, rfl, by simpa using hr, rfl⟩
  | succ n ih =>
    intro var r done hn hr hroom
    rw [List.range'_succ, List.filter_cons] at hroom
    rw [List.range'_succ, List.filter_cons, transposeLoop]
    have hEv := hE var (by omega)
    cases hev : E var with
    | true =>
      rw [hev] at hEv
      rw [hev, if_neg (by simp)] at hroom
      obtain ⟨r', h1, h2, h3⟩ := ih (var + 1) r done (by omega) hr hroom
      refine ⟨r', ?_, by simpa using h2, h3⟩
      simp only [hEv]
      exact h1
    | false =>
      rw [hev] at hEv
      rw [hev, if_pos (by simp), List.length_cons] at hroom
      obtain ⟨q1, q2, q3, q4, q5, q6⟩ := holds_iff.1 hr
      have hpz : Packs gens.length (wSetToIdentityWords r.wordsPerTerm) ∅ := by rw [q2]; exact packs_empty _
      obtain ⟨mem1, hw⟩ : ∃ mem, writeWords r.memory r.memoryEnd (wSetToIdentityWords r.wordsPerTerm) = some mem := by
        refine ⟨_, writeWords_eq_some.2 ⟨?_, rfl⟩⟩
        rw [q4, packs_length hpz, ← q2, ← Nat.mul_succ]
        exact (Nat.mul_le_mul_left _ (by omega)).trans hroom
      obtain ⟨hh, hl⟩ := hr.add hpz hw
      obtain ⟨t, ht, hpt⟩ := transposeRow_spec (v := var) (by omega) h gens.length 0 (wSetToIdentityWords r.wordsPerTerm)
        (by omega) (by simpa using hpz)
      have hback : r.memoryEnd + r.wordsPerTerm - r.wordsPerTerm = r.memoryEnd := by omega
      have hread : readWords mem1 r.memoryEnd r.wordsPerTerm = some (wSetToIdentityWords r.wordsPerTerm) := by
        have := readWords_writeWords hw
        rwa [packs_length hpz, ← q2] at this
      obtain ⟨mem2, hw2⟩ : ∃ mem, writeWords mem1 r.memoryEnd t = some mem := by
        refine ⟨_, writeWords_eq_some.2 ⟨?_, rfl⟩⟩
        rw [packs_length hpt, ← packs_length hpz, hl]
        exact (writeWords_eq_some.1 hw).1
      have hh2 : Holds ⟨r.varCount, r.wordsPerTerm, r.genCount + 1, r.memoryEnd + r.wordsPerTerm, mem2⟩ gens.length
          (done ++ [rowOf gens var]) := by
        obtain ⟨p1, p2, p3, p4, p5, p6⟩ := holds_iff.1 hh
        have htl : t.length = r.wordsPerTerm := by rw [packs_length hpt, q2]
        have hput : putTerm r.wordsPerTerm mem1 done.length t = some mem2 := by rw [putTerm, ← q4]; exact hw2
        obtain ⟨hl2, hat, hne⟩ := termAt_put hput htl
        refine holds_iff.2 ⟨p1, p2, by simp [q3], by simpa using p4, by simp only at p5 ⊢; omega, ?_⟩
        rw [along_append] at p6 ⊢
        exact ⟨along_frame _ 0 (fun j _ hj => hne j (by omega)) p6.1, ⟨t, by simpa using hat, hpt⟩, trivial⟩
      have hl2 := writeWords_length hw2
      obtain ⟨r', e1, e2, e3⟩ := ih (var + 1) _ (done ++ [rowOf gens var]) (by omega) hh2 (by
        simp only [List.length_append, List.length_singleton, hl2, hl]
        rw [Nat.add_assoc, Nat.add_comm 1]
        exact hroom)
      refine ⟨r', ?_, by simpa using e2, e3.trans (hl2.trans hl)⟩
      simp only [hEv]
      unfold RsfIdeal.insertIdentity
      rw [hw]
      simp only [hback, hread]
      rw [(holds_iff.1 h).2.2.1, ht]
      simp only [hw2]
      exact e1

theorem setToTransposeOf_holds {V : ℕ} {r ideal : RsfIdeal} {gens : List (Finset ℕ)} (h : Holds ideal V gens)
    {eraseVars : Option (List Word)} {e : Finset ℕ}
    (he0 : eraseVars = none → e = ∅) (he : ∀ b, eraseVars = some b → Packs V b e)
    (hroom : wordCount gens.length * (Finset.range V \ e).card ≤ r.memory.length) :
    ∃ r', r.setToTransposeOf ideal eraseVars = some r' ∧ Holds r' gens.length ((keptVars V e).map (rowOf gens)) ∧
      r'.memory.length = r.memory.length := by
  have hE : ∀ v < V, isErased eraseVars v = some (decide (v ∈ e)) := by
    intro v hv
    cases eraseVars with
    | none => simp [isErased, he0 rfl]
    | some b => exact C48_getExponent (he b rfl) hv
  have hk : (List.range' 0 V).filter (fun v => !decide (v ∈ e)) = keptVars V e := by
    unfold keptVars
    rw [List.range_eq_range']
    congr 1
    funext v
    simp
  obtain ⟨h1, h2, h3, h4, h5, h6⟩ := holds_iff.1 h
  have := transposeLoop_spec h hE V 0 ⟨ideal.genCount, wordCount ideal.genCount, 0, 0, r.memory⟩ [] (by omega)
    (by rw [h3]; exact rsfConstruct_holds gens.length r.memory) (by
      rw [hk, keptVars_length, h3]
      simpa using hroom)
  rw [hk] at this
  unfold RsfIdeal.setToTransposeOf
  rw [h1]
  simpa using this

end Frobby

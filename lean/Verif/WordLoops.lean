import Verif.WordLemmas

/-!
# Lemmas on the longer functions on packed square free terms
-/

namespace Frobby

/-- The number of variables below `v` that are not removed. -/
def keptBelow (R : ℕ → Bool) (v : ℕ) : ℕ := Nat.count (fun u => R u = false) v

theorem keptBelow_succ (R : ℕ → Bool) (v : ℕ) : keptBelow R (v + 1) = keptBelow R v + if R v = false then 1 else 0 :=
  Nat.count_succ _ _

theorem keptBelow_le (R : ℕ → Bool) (v : ℕ) : keptBelow R v ≤ v := Nat.count_le _

theorem keptBelow_mono (R : ℕ → Bool) {u v : ℕ} (h : u ≤ v) : keptBelow R u ≤ keptBelow R v := Nat.count_monotone _ h

/-- The first loop of `compact`: the kept bits are moved to the front and the others are as they were. -/
theorem wCompactLoop_spec (src : List Word → List Word) (remove : List Word) (R T : ℕ → Bool) (c0 : List Word) (V : ℕ)
    (hrem : V ≤ 64 * remove.length) (hR : ∀ v < V, bitOf remove v = R v)
    (hsrc : ∀ (d : List Word) (v : ℕ), d.length = c0.length → v < V → (∀ u, v ≤ u → bitOf d u = bitOf c0 u) →
      v < 64 * (src d).length ∧ bitOf (src d) v = T v)
    (hfit : keptBelow R V ≤ 64 * c0.length) :
    ∀ (n var : ℕ) (c : List Word), var + n = V → c.length = c0.length →
      (∀ u < keptBelow R var, bitOf c u = true ↔ ∃ v < var, R v = false ∧ keptBelow R v = u ∧ T v = true) →
      (∀ u, keptBelow R var ≤ u → bitOf c u = bitOf c0 u) →
      ∃ r, wCompactLoop src remove c (keptBelow R var) var n = some (r, keptBelow R V) ∧ r.length = c0.length ∧
        (∀ u < keptBelow R V, bitOf r u = true ↔ ∃ v < V, R v = false ∧ keptBelow R v = u ∧ T v = true) ∧
        ∀ u, keptBelow R V ≤ u → bitOf r u = bitOf c0 u := by
  intro n
  induction n with
  | zero =>
    intro var c hvar hlen h1 h2
    obtain rfl : var = V := hvar
    exact ⟨c, rfl, hlen, h1, h2⟩
  | succ n ih =>
    intro var c hvar hclen h1 h2
    have hvarV : var < V := by omega
    unfold wCompactLoop
    rw [wGetExponent_spec remove var (by omega), hR var hvarV]
    have hsucc := keptBelow_succ R var
    cases hRv : R var with
    | true =>
      simp only
      rw [hRv] at hsucc
      simp only [Bool.true_eq_false, if_false, Nat.add_zero] at hsucc
      rw [← hsucc]
      refine ih (var + 1) c (by omega) hclen ?_ ?_
      · rw [hsucc]
        intro u hu
        rw [h1 u hu]
        constructor
        · rintro ⟨v, hv, h⟩; exact ⟨v, by omega, h⟩
        · rintro ⟨v, hv, h⟩
          refine ⟨v, ?_, h⟩
          by_contra hlt
          have : v = var := by omega
          rw [this, hRv] at h
          cases h.1
      · rw [hsucc]; exact h2
    | false =>
      simp only
      rw [hRv] at hsucc
      simp only [if_true] at hsucc
      obtain ⟨hlen, hbit⟩ := hsrc c var hclen hvarV (fun u hu => h2 u ((keptBelow_le R var).trans hu))
      rw [wGetExponent_spec _ var hlen, hbit]
      have hpos : keptBelow R var < 64 * c.length := by
        have := keptBelow_mono R (show var + 1 ≤ V by omega)
        omega
      obtain ⟨c', hc', hc'len, hc'bits⟩ := wSetExponent_spec hpos (T var)
      simp only [hc']
      rw [← hsucc]
      refine ih (var + 1) c' (by omega) (hc'len.trans hclen) ?_ ?_
      · intro u hu
        rw [hc'bits]
        rw [hsucc] at hu
        by_cases huk : u = keptBelow R var
        · rw [if_pos huk]
          constructor
          · intro hT
            exact ⟨var, by omega, hRv, huk.symm, hT⟩
          · rintro ⟨v, hv, hRv', hkv, hT⟩
            have : v = var := by
              by_contra hne
              have h3 := keptBelow_mono R (show v + 1 ≤ var by omega)
              rw [keptBelow_succ, hRv', if_pos rfl] at h3
              omega
            rwa [this] at hT
        · rw [if_neg huk, h1 u (by omega)]
          constructor
          · rintro ⟨v, hv, h⟩; exact ⟨v, by omega, h⟩
          · rintro ⟨v, hv, h⟩
            refine ⟨v, ?_, h⟩
            by_contra hlt
            have : v = var := by omega
            rw [this] at h
            exact huk h.2.1.symm
      · intro u hu
        rw [hsucc] at hu
        rw [hc'bits, if_neg (by omega), h2 u (by omega)]

/-- The second loop of `compact`: the bits up to the next multiple of 64 become zero. -/
theorem wCompactTail_spec : ∀ (m n : ℕ) (c : List Word), (64 - n % 64) % 64 = m → n ≤ 64 * c.length →
    ∃ r, wCompactTail c n = some r ∧ r.length = c.length ∧ (∀ u < n, bitOf r u = bitOf c u) ∧
      (∀ u, n ≤ u → u < n + m → bitOf r u = false) ∧ ∀ u, n + m ≤ u → bitOf r u = bitOf c u := by
  intro m
  induction m with
  | zero =>
    intro n c hm hn
    unfold wCompactTail
    rw [if_neg (by simp only [bitsPerWord]; omega)]
    exact ⟨c, rfl, rfl, fun _ _ => rfl, fun u h1 h2 => by omega, fun _ _ => rfl⟩
  | succ m ih =>
    intro n c hm hn
    unfold wCompactTail
    rw [if_pos (by simp only [bitsPerWord]; omega)]
    obtain ⟨c', hc', hlen, hbits⟩ := wSetExponent_spec (a := c) (v := n) (by omega) false
    rw [hc']
    obtain ⟨r, hr, hrlen, h1, h2, h3⟩ := ih (n + 1) c' (by omega) (by omega)
    refine ⟨r, hr, hrlen.trans hlen, fun u hu => ?_, fun u hu hu' => ?_, fun u hu => ?_⟩
    · rw [h1 u (by omega), hbits, if_neg (by omega)]
    · by_cases hun : u = n
      · rw [h1 u (by omega), hbits, if_pos hun]
      · exact h2 u (by omega) (by omega)
    · rw [h3 u (by omega), hbits, if_neg (by omega)]

theorem wCompact_spec (src : List Word → List Word) (remove : List Word) (R T : ℕ → Bool) (c0 : List Word) (V : ℕ)
    (hrem : V ≤ 64 * remove.length) (hR : ∀ v < V, bitOf remove v = R v)
    (hsrc : ∀ (d : List Word) (v : ℕ), d.length = c0.length → v < V → (∀ u, v ≤ u → bitOf d u = bitOf c0 u) →
      v < 64 * (src d).length ∧ bitOf (src d) v = T v)
    (hfit : keptBelow R V ≤ 64 * c0.length) :
    ∃ r, wCompact src remove c0 V = some r ∧ r.length = c0.length ∧
      (∀ u < keptBelow R V, bitOf r u = true ↔ ∃ v < V, R v = false ∧ keptBelow R v = u ∧ T v = true) ∧
      ∀ u, keptBelow R V ≤ u → bitOf r u =
        if u < keptBelow R V + (64 - keptBelow R V % 64) % 64 then false else bitOf c0 u := by
  obtain ⟨c, hc, hclen, h1, h2⟩ := wCompactLoop_spec src remove R T c0 V hrem hR hsrc hfit V 0 c0 (by omega) rfl
    (fun u hu => by simp [keptBelow] at hu) (fun _ _ => rfl)
  obtain ⟨r, hr, hrlen, h3, h4, h5⟩ := wCompactTail_spec _ (keptBelow R V) c rfl (by omega)
  have h0 : keptBelow R 0 = 0 := by simp [keptBelow]
  rw [h0] at hc
  refine ⟨r, ?_, hrlen.trans hclen, fun u hu => ?_, fun u hu => ?_⟩
  · unfold wCompact
    rw [hc]
    exact hr
  · rw [h3 u hu, h1 u hu]
  · split
    · exact h4 u hu ‹_›
    · rw [h5 u (by omega), h2 u hu]

theorem shiftLeft_one_succ {k : ℕ} : ((1 : Word) <<< k) <<< 1 = (1 : Word) <<< (k + 1) := by
  rw [BitVec.shiftLeft_add]

theorem shiftLeft_one_bits {k j : ℕ} (hj : j < 64) : ((1 : Word) <<< k).getLsbD j = decide (j = k) := by
  rw [BitVec.getLsbD_shiftLeft]
  have h1 : (1 : Word).getLsbD (j - k) = decide (j - k = 0) := by
    have : (1#64).getLsbD (j - k) = decide (j - k = 0) := by rw [BitVec.getLsbD_one]; simp
    exact this
  rw [h1]
  by_cases h : j < k
  · have : j ≠ k := by omega
    simp [h, this]
  · by_cases h2 : j = k
    · subst h2
      simp only [hj, h, Nat.sub_self, decide_true, decide_false, Bool.not_false, Bool.and_self]
    · have : ¬ j - k = 0 := by omega
      simp only [this, h2, decide_false, Bool.and_false]

theorem shiftLeft_one_ne_zero {k : ℕ} : (1 : Word) <<< k ≠ 0 ↔ k < 64 := by
  constructor
  · intro h
    by_contra hk
    refine h (word_eq_zero_iff.2 fun j hj => ?_)
    rw [shiftLeft_one_bits hj]
    simp
    omega
  · intro hk h
    rw [word_eq_zero_iff] at h
    have := h k hk
    rw [shiftLeft_one_bits hk] at this
    simp at this

/-- The word that `encodeTerm` makes of the next exponents. -/
theorem encodeWord_spec {α : Type} (digit : α → Option Bool) : ∀ (l : List α) (k : ℕ) (word : Word), k < 64 →
    (∀ j, k ≤ j → word.getLsbD j = false) →
    (((∃ e ∈ l.take (64 - k), digit e = none) ∧ encodeWord digit l ((1 : Word) <<< k) word = none) ∨
      ((∀ e ∈ l.take (64 - k), digit e ≠ none) ∧ ∃ w, encodeWord digit l ((1 : Word) <<< k) word = some (w, l.drop (64 - k)) ∧
        (∀ j < k, w.getLsbD j = word.getLsbD j) ∧
        ∀ j, k ≤ j → j < 64 → w.getLsbD j = match l[j - k]? with
          | none => false
          | some e => (digit e).getD false)) := by
  intro l
  induction l with
  | nil =>
    intro k word hk hword
    right
    refine ⟨by simp, word, by simp [encodeWord], fun _ _ => rfl, fun j hj _ => ?_⟩
    rw [hword j hj]
    rfl
  | cons e l ih =>
    intro k word hk hword
    have htake : (e :: l).take (64 - k) = e :: l.take (63 - k) := by
      rw [show 64 - k = 63 - k + 1 by omega]; rfl
    have hdrop : (e :: l).drop (64 - k) = l.drop (63 - k) := by
      rw [show 64 - k = 63 - k + 1 by omega]; rfl
    rw [htake, hdrop]
    unfold encodeWord
    cases hd : digit e with
    | none =>
      left
      exact ⟨⟨e, by simp, hd⟩, rfl⟩
    | some d =>
      simp only
      rw [shiftLeft_one_succ]
      have hbits : ∀ j < 64, (if d = true then word ||| (1 : Word) <<< k else word).getLsbD j =
          (word.getLsbD j || (d && decide (j = k))) := by
        intro j hj
        cases d with
        | true => rw [if_pos rfl, BitVec.getLsbD_or, shiftLeft_one_bits hj]; rfl
        | false => simp
      by_cases hk1 : k + 1 < 64
      · rw [if_pos (shiftLeft_one_ne_zero.2 hk1)]
        have hz : ∀ j, k + 1 ≤ j → (if d = true then word ||| (1 : Word) <<< k else word).getLsbD j = false := by
          intro j hj
          by_cases hj64 : j < 64
          · rw [hbits j hj64, hword j (by omega)]
            have : j ≠ k := by omega
            simp [this]
          · exact BitVec.getLsbD_of_ge _ j (by omega)
        rcases ih (k + 1) (if d = true then word ||| (1 : Word) <<< k else word) hk1 hz with ⟨h1, h2⟩ | ⟨h1, w, hw, hlow, hhigh⟩
        · left
          rw [show 64 - (k + 1) = 63 - k by omega] at h1
          obtain ⟨e', he', hne⟩ := h1
          exact ⟨⟨e', List.mem_cons_of_mem _ he', hne⟩, h2⟩
        · right
          rw [show 64 - (k + 1) = 63 - k by omega] at h1 hw
          refine ⟨?_, w, hw, fun j hj => ?_, fun j hj hj' => ?_⟩
          · intro e' he'
            rcases List.mem_cons.1 he' with rfl | he'
            · rw [hd]; simp
            · exact h1 e' he'
          · rw [hlow j (by omega), hbits j (by omega)]
            have : j ≠ k := by omega
            simp [this]
          · by_cases hjk : j = k
            · rw [hlow j (by omega), hbits j hj', hjk, hword k (Nat.le_refl k)]
              simp [hd]
            · rw [hhigh j (by omega) hj']
              rw [show j - k = j - (k + 1) + 1 by omega]
              rfl
      · rw [if_neg (fun h => hk1 (shiftLeft_one_ne_zero.1 h))]
        have hk63 : k = 63 := by omega
        subst hk63
        right
        refine ⟨?_, _, rfl, fun j hj => ?_, fun j hj hj' => ?_⟩
        · intro e' he'
          simp only [Nat.sub_self, List.take_zero, List.mem_singleton] at he'
          rw [he', hd]; simp
        · rw [hbits j (by omega)]
          have : j ≠ 63 := by omega
          simp [this]
        · have : j = 63 := by omega
          subst this
          rw [hbits 63 (by omega), hword 63 (Nat.le_refl _)]
          simp [hd]

theorem encodeLoop_cons_none {α : Type} (digit : α → Option Bool) (w0 : Word) (enc : List Word) (e : α) (l : List α)
    (h : encodeWord digit (e :: l) 1 0 = none) : encodeLoop digit (w0 :: enc) (e :: l) = some none := by
  unfold encodeLoop
  simp only
  split
  · rfl
  · rename_i h'; rw [h] at h'; cases h'

theorem encodeLoop_cons_some {α : Type} (digit : α → Option Bool) (w0 : Word) (enc : List Word) (e : α) (l : List α) (w : Word)
    (rest : List α) (h : encodeWord digit (e :: l) 1 0 = some (w, rest)) :
    encodeLoop digit (w0 :: enc) (e :: l) = (encodeLoop digit enc rest).map fun r => r.map (w :: ·) := by
  conv_lhs => unfold encodeLoop
  simp only
  split
  · rename_i h'; rw [h] at h'; cases h'
  · rename_i h'; rw [h] at h'; cases h'; rfl

/-- `encodeTerm` succeeds if all the exponents can be read, and then the words are the exponents. -/
theorem encodeLoop_spec {α : Type} (digit : α → Option Bool) : ∀ (n : ℕ) (enc : List Word) (l : List α), enc.length = n →
    Fits n l.length →
    (((∃ e ∈ l, digit e = none) ∧ encodeLoop digit enc l = some none) ∨
      ((∀ e ∈ l, digit e ≠ none) ∧ ∃ r, encodeLoop digit enc l = some (some r) ∧ r.length = n ∧
        BitsAre r fun v => match l[v]? with
          | none => false
          | some e => (digit e).getD false)) := by
  intro n
  induction n with
  | zero =>
    intro enc l hn hfit
    have hl : l = [] := List.eq_nil_of_length_eq_zero (by have := hfit.1; omega)
    subst hl
    right
    refine ⟨by simp, enc, by unfold encodeLoop; rfl, hn, ?_⟩
    rw [List.eq_nil_of_length_eq_zero hn]
    trivial
  | succ n ih =>
    intro enc l hn hfit
    unfold Fits at hfit
    match enc, l, hn with
    | w0 :: enc, [], _ => simp only [List.length_nil] at hfit; omega
    | w0 :: enc, e :: l, hn =>
      have h1 : ((1 : Word) <<< 0) = 1 := by simp
      have hspec := encodeWord_spec digit (e :: l) 0 0 (by omega) (by simp)
      rw [h1] at hspec
      simp only [Nat.sub_zero, Nat.zero_le, true_implies] at hspec
      rcases hspec with ⟨⟨e', he', hne⟩, hnone⟩ | ⟨hall, w, hw, _, hbits⟩
      · left
        exact ⟨⟨e', List.mem_of_mem_take he', hne⟩, encodeLoop_cons_none digit w0 enc e l hnone⟩
      · rw [encodeLoop_cons_some digit w0 enc e l w _ hw]
        have hmem : ∀ e', e' ∈ e :: l → e' ∈ (e :: l).take 64 ∨ e' ∈ (e :: l).drop 64 := by
          intro e' he'
          rw [← List.take_append_drop 64 (e :: l)] at he'
          exact List.mem_append.1 he'
        rcases ih enc ((e :: l).drop 64) (by simpa using hn) (by unfold Fits; rw [List.length_drop]; omega) with
          ⟨⟨e', he', hne⟩, hnone⟩ | ⟨hall2, r, hr, hrlen, hrbits⟩
        · left
          exact ⟨⟨e', List.mem_of_mem_drop he', hne⟩, by rw [hnone]; rfl⟩
        · right
          refine ⟨fun e' he' => ?_, w :: r, by rw [hr]; rfl, by simp [hrlen], fun j hj => ?_, ?_⟩
          · rcases hmem e' he' with h | h
            · exact hall e' h
            · exact hall2 e' h
          · exact hbits j hj
          · refine hrbits.congr fun v _ => ?_
            simp only [List.getElem?_drop, Nat.add_comm 64]

/-- What is done to the numbers at the bits of a word. -/
theorem atBits_spec (f : ℕ → ℕ) : ∀ (inc : List ℕ) (w : Word), (∀ j, w.getLsbD j = true → j < inc.length) →
    ∃ r, atBits f w inc = some r ∧ r.length = inc.length ∧
      ∀ j, r[j]? = (inc[j]?).map fun x => if w.getLsbD j then f x else x := by
  intro inc
  induction inc with
  | nil =>
    intro w h
    have hw : w = 0 := by
      rw [word_eq_zero_iff]
      intro j hj
      by_contra hne
      exact absurd (h j (by simpa using hne)) (by simp)
    unfold atBits
    rw [if_pos hw]
    exact ⟨[], rfl, rfl, by simp⟩
  | cons x inc ih =>
    intro w h
    unfold atBits
    by_cases hw : w = 0
    · rw [if_pos hw]
      refine ⟨_, rfl, rfl, fun j => ?_⟩
      subst hw
      simp
    · rw [if_neg hw]
      obtain ⟨r, hr, hlen, hbits⟩ := ih (w >>> 1) (fun j hj => by
        rw [BitVec.getLsbD_ushiftRight] at hj
        have := h _ hj
        simp only [List.length_cons] at this
        omega)
      simp only [hr, Option.map_some]
      refine ⟨_, rfl, by simp [hlen], fun j => ?_⟩
      cases j with
      | zero => simp only [List.getElem?_cons_zero, Option.map_some, and_one_ne_zero]
      | succ j =>
        simp only [List.getElem?_cons_succ]
        rw [hbits j]
        simp only [BitVec.getLsbD_ushiftRight, Nat.add_comm 1 j]

theorem wAtSupport_spec (f : ℕ → ℕ) : ∀ (a : List Word) (inc : List ℕ) (P : ℕ → Bool), Fits a.length inc.length → BitsAre a P →
    (∀ v < 64 * a.length, P v = true → v < inc.length) →
    ∃ r, wAtSupport f a inc inc.length = some r ∧ r.length = inc.length ∧
      ∀ v < inc.length, r[v]? = (inc[v]?).map fun x => if P v then f x else x := by
  intro a
  induction a with
  | nil =>
    intro inc P hfit _ _
    have hV : inc = [] := List.eq_nil_of_length_eq_zero (by have := hfit.1; simpa using this)
    subst hV
    exact ⟨[], by simp [wAtSupport], rfl, by simp⟩
  | cons w a ih =>
    intro inc P hfit hP hval
    unfold Fits at hfit
    simp only [List.length_cons] at hfit hval
    obtain ⟨r, hr, hlen, hbits⟩ := atBits_spec f inc w (fun j hj => by
      by_cases hj64 : j < 64
      · exact hval j (by omega) (by rw [← hP.1 j hj64]; exact hj)
      · rw [BitVec.getLsbD_of_ge _ j (by omega)] at hj; cases hj)
    obtain ⟨V, hV⟩ : ∃ V', inc.length = V' + 1 := ⟨inc.length - 1, by omega⟩
    rw [hV]
    unfold wAtSupport bitsPerWord
    rw [hr]
    simp only
    by_cases hle : V + 1 ≤ 64
    · rw [if_pos hle]
      refine ⟨r, rfl, by omega, fun v hv => ?_⟩
      rw [hbits v, hP.1 v (by omega)]
    · rw [if_neg hle]
      have hdl : (r.drop 64).length = V + 1 - 64 := by rw [List.length_drop]; omega
      obtain ⟨r2, hr2, hlen2, hbits2⟩ := ih (r.drop 64) _ (by unfold Fits; rw [hdl]; omega) hP.2 (fun v hv hPv => by
        rw [hdl]
        have := hval (v + 64) (by omega) hPv
        omega)
      rw [hdl] at hr2
      rw [hr2]
      refine ⟨_, rfl, ?_, fun v hv => ?_⟩
      · rw [List.length_append, hlen2, hdl, List.length_take]; omega
      · have htl : (r.take 64).length = 64 := by rw [List.length_take]; omega
        by_cases hv64 : v < 64
        · rw [List.getElem?_append_left (by omega), List.getElem?_take_of_lt hv64, hbits v, hP.1 v hv64]
        · rw [List.getElem?_append_right (by omega), htl, hbits2 (v - 64) (by rw [hdl]; omega), List.getElem?_drop,
            show 64 + (v - 64) = v by omega, show v - 64 + 64 = v by omega, hbits v]
          have : w.getLsbD v = false := BitVec.getLsbD_of_ge _ v (by omega)
          rw [this]
          cases inc[v]? <;> simp

/-- With a word already found, another one that is not zero ends the search. -/
theorem findHit_some : ∀ (a : List Word) (i V : ℕ) (h : ℕ × Word), Fits a.length V →
    findHit i (some h) a V = some (if ∀ w ∈ a, w = 0 then some (some h) else none) := by
  intro a
  induction a with
  | nil =>
    intro i V h hfit
    have hV : V = 0 := by have := hfit.1; simpa using this
    subst hV
    simp [findHit, bitsPerWord]
  | cons x a ih =>
    intro i V h hfit
    unfold Fits at hfit
    simp only [List.length_cons] at hfit
    unfold findHit
    simp only [bitsPerWord, Option.isSome_some, if_true]
    by_cases hV : V ≥ 64
    · rw [if_pos hV]
      by_cases hx : x = 0
      · rw [if_neg (by simpa using hx), ih _ _ _ (by unfold Fits; omega)]
        simp [hx]
      · rw [if_pos hx, if_neg fun h' => hx (h' x (by simp))]
    · rw [if_neg hV, if_pos (by omega)]
      have ha : a = [] := List.eq_nil_of_length_eq_zero (by omega)
      subst ha
      by_cases hx : x = 0
      · rw [if_neg (not_not.2 hx), if_pos (by simpa using hx)]
      · rw [if_pos hx, if_neg fun h' => hx (h' x (by simp))]

/-- The search for the only word that is not zero. -/
theorem findHit_none : ∀ (a : List Word) (i V : ℕ), Fits a.length V →
    ((∀ w ∈ a, w = 0) ∧ findHit i none a V = some (some none)) ∨
    (∃ k w, a[k]? = some w ∧ w ≠ 0 ∧ (∀ k' w', a[k']? = some w' → k' ≠ k → w' = 0) ∧
      findHit i none a V = some (some (some (i + k, w)))) ∨
    (∃ (k k' : ℕ) (w w' : Word), k ≠ k' ∧ a[k]? = some w ∧ a[k']? = some w' ∧ w ≠ 0 ∧ w' ≠ 0 ∧ findHit i none a V = some none) := by
  intro a
  induction a with
  | nil =>
    intro i V hfit
    have hV : V = 0 := by have := hfit.1; simpa using this
    subst hV
    left
    simp [findHit, bitsPerWord]
  | cons x a ih =>
    intro i V hfit
    unfold Fits at hfit
    simp only [List.length_cons] at hfit
    unfold findHit
    simp only [bitsPerWord, Option.isSome_none, Bool.false_eq_true, if_false]
    by_cases hV : V ≥ 64
    · rw [if_pos hV]
      by_cases hx : x = 0
      · rw [if_neg (by simpa using hx)]
        rcases ih (i + 1) (V - 64) (by unfold Fits; omega) with ⟨h1, h2⟩ | ⟨k, w, h1, h2, h3, h4⟩ | ⟨k, k', w, w', h0, h1, h2, h3, h4, h5⟩
        · left
          exact ⟨by simpa [hx] using h1, h2⟩
        · right; left
          refine ⟨k + 1, w, by simpa using h1, h2, fun k' w' hk' hne => ?_, by rw [h4, Nat.add_assoc, Nat.add_comm 1 k]⟩
          cases k' with
          | zero => simp only [List.getElem?_cons_zero, Option.some.injEq] at hk'; rw [← hk', hx]
          | succ k' => exact h3 k' w' (by simpa using hk') (by omega)
        · right; right
          exact ⟨k + 1, k' + 1, w, w', by omega, by simpa using h1, by simpa using h2, h3, h4, h5⟩
      · rw [if_pos hx, findHit_some _ _ _ _ (by unfold Fits; omega)]
        by_cases hall : ∀ w ∈ a, w = 0
        · right; left
          refine ⟨0, x, rfl, hx, fun k' w' hk' hne => ?_, by rw [if_pos hall]; rfl⟩
          cases k' with
          | zero => exact absurd rfl hne
          | succ k' =>
            simp only [List.getElem?_cons_succ] at hk'
            exact hall w' (List.mem_of_getElem? hk')
        · right; right
          rw [if_neg hall]
          simp only [not_forall] at hall
          obtain ⟨w', hw', hne⟩ := hall
          obtain ⟨k', hk'⟩ := List.mem_iff_getElem?.1 hw'
          exact ⟨0, k' + 1, x, w', by omega, rfl, by simpa using hk', hx, hne, rfl⟩
    · rw [if_neg hV, if_pos (by omega)]
      have ha : a = [] := List.eq_nil_of_length_eq_zero (by omega)
      subst ha
      by_cases hx : x = 0
      · left
        exact ⟨by simpa using hx, by simp [hx]⟩
      · right; left
        refine ⟨0, x, rfl, hx, fun k' w' hk' hne => ?_, by rw [if_pos hx]; rfl⟩
        cases k' with
        | zero => exact absurd rfl hne
        | succ k' => simp at hk'

/-- Shifting to the lowest bit that is set. -/
theorem shiftToOne_spec : ∀ (i n : ℕ) (w : Word), w.getLsbD i = true → (∀ j < i, w.getLsbD j = false) →
    shiftToOne w n = (w >>> i, n + i) := by
  intro i
  induction i with
  | zero =>
    intro n w hi _
    have hw : w ≠ 0 := by rintro rfl; simp at hi
    unfold shiftToOne
    rw [dif_neg hw, if_neg (and_one_ne_zero.2 hi)]
    simp
  | succ i ih =>
    intro n w hi hlow
    have hw : w ≠ 0 := by rintro rfl; simp at hi
    have h0 : w &&& 1 = 0 := by
      by_contra h
      rw [← Ne, and_one_ne_zero, hlow 0 (by omega)] at h
      cases h
    unfold shiftToOne
    rw [dif_neg hw, if_pos h0, ih (n + 1) (w >>> 1) (by rw [BitVec.getLsbD_ushiftRight, Nat.add_comm]; exact hi)
      (fun j hj => by rw [BitVec.getLsbD_ushiftRight]; exact hlow _ (by omega))]
    rw [← BitVec.shiftRight_add, Nat.add_comm 1 i, Nat.add_assoc, Nat.add_comm 1 i]

theorem shift_succ_ne_zero {w : Word} {i : ℕ} : (w >>> i) >>> 1 ≠ 0 ↔ ∃ j, i < j ∧ w.getLsbD j = true := by
  rw [Ne, word_eq_zero_iff]
  simp only [BitVec.getLsbD_ushiftRight, not_forall]
  constructor
  · rintro ⟨j, _, hj⟩
    exact ⟨i + (1 + j), by omega, by simpa using hj⟩
  · rintro ⟨j, hij, hj⟩
    have hj64 : j < 64 := by
      by_contra h
      rw [BitVec.getLsbD_of_ge _ j (by omega)] at hj
      cases hj
    refine ⟨j - i - 1, by omega, ?_⟩
    rw [show i + (1 + (j - i - 1)) = j by omega, hj]
    simp

theorem bitOf_of_getElem? {a : List Word} {k : ℕ} {w : Word} (h : a[k]? = some w) {j : ℕ} (hj : j < 64) :
    bitOf a (64 * k + j) = w.getLsbD j := by
  unfold bitOf
  rw [show (64 * k + j) / 64 = k by omega, show (64 * k + j) % 64 = j by omega, List.getD_eq_getElem?_getD, h]
  rfl

theorem wGetVarIfPure_spec (a : List Word) (V : ℕ) (hfit : Fits a.length V) :
    (∃ v < 64 * a.length, (∀ u < 64 * a.length, bitOf a u = true ↔ u = v) ∧ wGetVarIfPure a V = some v) ∨
    ((¬ ∃ v < 64 * a.length, ∀ u < 64 * a.length, bitOf a u = true ↔ u = v) ∧ wGetVarIfPure a V = some V) := by
  have hlt : ∀ {k : ℕ} {w : Word}, a[k]? = some w → k < a.length := fun h => by
    rw [List.getElem?_eq_some_iff] at h
    exact h.1
  unfold wGetVarIfPure
  rcases findHit_none a 0 V hfit with ⟨h1, h2⟩ | ⟨k, w, h1, h2, h3, h4⟩ | ⟨k, k', w, w', h0, h1, h2, h3, h4, h5⟩
  · right
    refine ⟨?_, by rw [h2]⟩
    rintro ⟨v, hv, h⟩
    have hk : v / 64 < a.length := by omega
    have := (h v hv).2 rfl
    rw [show v = 64 * (v / 64) + v % 64 by omega, bitOf_of_getElem? (List.getElem?_eq_getElem hk) (by omega),
      h1 _ (List.getElem_mem hk)] at this
    simp at this
  · obtain ⟨i, hi64, hi, hlow⟩ := lowest_bit h2
    have hk := hlt h1
    rw [h4]
    simp only [Nat.zero_add]
    rw [shiftToOne_spec i _ w hi hlow]
    simp only [bitsPerWord]
    by_cases hmore : (w >>> i) >>> 1 ≠ 0
    · right
      rw [if_pos hmore]
      obtain ⟨j, hij, hj⟩ := shift_succ_ne_zero.1 hmore
      have hj64 : j < 64 := by
        by_contra h
        rw [BitVec.getLsbD_of_ge _ j (by omega)] at hj
        cases hj
      refine ⟨?_, rfl⟩
      rintro ⟨v, hv, h⟩
      have e1 := (h (64 * k + i) (by omega)).1 (by rw [bitOf_of_getElem? h1 hi64]; exact hi)
      have e2 := (h (64 * k + j) (by omega)).1 (by rw [bitOf_of_getElem? h1 hj64]; exact hj)
      omega
    · left
      rw [if_neg hmore]
      refine ⟨64 * k + i, by omega, fun u hu => ?_, by rw [Nat.mul_comm]⟩
      have huk : u / 64 < a.length := by omega
      constructor
      · intro hbit
        rw [show u = 64 * (u / 64) + u % 64 by omega, bitOf_of_getElem? (List.getElem?_eq_getElem huk) (by omega)] at hbit
        by_cases hkk : u / 64 = k
        · have hw : a[u / 64] = w := by
            have h5 : a[u / 64]? = some w := by rw [hkk]; exact h1
            rw [List.getElem?_eq_getElem huk] at h5
            exact Option.some.inj h5
          rw [hw] at hbit
          have : u % 64 = i := by
            rcases Nat.lt_trichotomy (u % 64) i with h | h | h
            · rw [hlow _ h] at hbit; cases hbit
            · exact h
            · exact absurd (shift_succ_ne_zero.2 ⟨u % 64, h, hbit⟩) hmore
          omega
        · rw [h3 _ _ (List.getElem?_eq_getElem huk) hkk] at hbit
          simp at hbit
      · rintro rfl
        rw [bitOf_of_getElem? h1 hi64]
        exact hi
  · right
    refine ⟨?_, by rw [h5]⟩
    rintro ⟨v, hv, h⟩
    obtain ⟨i, hi64, hi, _⟩ := lowest_bit h3
    obtain ⟨j, hj64, hj, _⟩ := lowest_bit h4
    have := hlt h1
    have := hlt h2
    have e1 := (h (64 * k + i) (by omega)).1 (by rw [bitOf_of_getElem? h1 hi64]; exact hi)
    have e2 := (h (64 * k' + j) (by omega)).1 (by rw [bitOf_of_getElem? h2 hj64]; exact hj)
    omega

end Frobby

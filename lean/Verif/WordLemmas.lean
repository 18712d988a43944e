import Mathlib.Data.Finset.Image
import Mathlib.Data.Nat.Count
import Verif.WordSpec

/-!
# Lemmas on packed square free terms
-/

namespace Frobby

theorem wordCount_eq (V : ℕ) : wordCount V = max 1 ((V + 63) / 64) := by
  unfold wordCount bitsPerWord
  split <;> omega

/-- The bits of the words of a list, in order, are the values of a predicate. -/
def BitsAre : List Word → (ℕ → Bool) → Prop
  | [], _ => True
  | w :: a, P => (∀ j < 64, w.getLsbD j = P j) ∧ BitsAre a fun v => P (v + 64)

theorem BitsAre.congr {a : List Word} {P Q : ℕ → Bool} (h : BitsAre a P) (hPQ : ∀ v < 64 * a.length, P v = Q v) :
    BitsAre a Q := by
  induction a generalizing P Q with
  | nil => trivial
  | cons w a ih =>
    refine ⟨fun j hj => (h.1 j hj).trans (hPQ j (by simp; omega)), ih h.2 fun v hv => hPQ _ ?_⟩
    simp only [List.length_cons]
    omega

theorem bitOf_cons_lt {w : Word} {a : List Word} {v : ℕ} (h : v < 64) : bitOf (w :: a) v = w.getLsbD v := by
  unfold bitOf
  rw [Nat.div_eq_of_lt h, Nat.mod_eq_of_lt h]
  rfl

theorem bitOf_cons_add {w : Word} {a : List Word} {v : ℕ} : bitOf (w :: a) (v + 64) = bitOf a v := by
  unfold bitOf
  rw [show (v + 64) / 64 = v / 64 + 1 by omega, show (v + 64) % 64 = v % 64 by omega]
  rfl

theorem bitsAre_iff {a : List Word} {P : ℕ → Bool} : BitsAre a P ↔ ∀ v < 64 * a.length, bitOf a v = P v := by
  induction a generalizing P with
  | nil => simp [BitsAre]
  | cons w a ih =>
    simp only [BitsAre, ih, List.length_cons]
    constructor
    · rintro ⟨h1, h2⟩ v hv
      by_cases hv64 : v < 64
      · rw [bitOf_cons_lt hv64, h1 v hv64]
      · obtain ⟨u, rfl⟩ : ∃ u, v = u + 64 := ⟨v - 64, by omega⟩
        rw [bitOf_cons_add, h2 u (by omega)]
    · intro h
      refine ⟨fun j hj => ?_, fun v hv => ?_⟩
      · rw [← bitOf_cons_lt hj, h j (by omega)]
      · rw [← bitOf_cons_add (w := w), h (v + 64) (by omega)]

theorem packs_iff {V : ℕ} {a : List Word} {s : Finset ℕ} :
    Packs V a s ↔ a.length = wordCount V ∧ s ⊆ Finset.range V ∧ BitsAre a fun v => decide (v ∈ s) := by
  rw [bitsAre_iff, wordCount_eq]
  constructor
  · intro h
    exact ⟨h.length, h.sub, fun v hv => by rw [Bool.eq_iff_iff, h.bits v hv]; simp⟩
  · intro h
    exact ⟨h.1, h.2.1, fun v hv => by rw [h.2.2 v hv]; simp⟩

/-- The number of words fits the number of variables with no word left over. -/
def Fits (n V : ℕ) : Prop := V ≤ 64 * n ∧ 64 * n < V + 64

theorem fits_wordCount {V : ℕ} (h : 0 < V) : Fits (wordCount V) V := by
  rw [wordCount_eq]
  unfold Fits
  omega

theorem zipWords_spec {f : Word → Word → Word} {F : Bool → Bool → Bool}
    (hf : ∀ x y : Word, ∀ j < 64, (f x y).getLsbD j = F (x.getLsbD j) (y.getLsbD j)) :
    ∀ (n : ℕ) (a b : List Word) (P Q : ℕ → Bool), a.length = n → b.length = n → BitsAre a P → BitsAre b Q →
      ∃ r, zipWords f n a b = some r ∧ r.length = n ∧ BitsAre r fun v => F (P v) (Q v) := by
  intro n
  induction n with
  | zero => intro a b P Q _ _ _ _; exact ⟨[], by simp [zipWords], rfl, trivial⟩
  | succ n ih =>
    intro a b P Q ha hb hP hQ
    match a, b, ha, hb with
    | x :: a, y :: b, ha, hb =>
      obtain ⟨r, hr, hlen, hbits⟩ := ih a b _ _ (by simpa using ha) (by simpa using hb) hP.2 hQ.2
      refine ⟨f x y :: r, by simp [zipWords, hr], by simp [hlen], fun j hj => ?_, hbits⟩
      rw [hf x y j hj, hP.1 j hj, hQ.1 j hj]

theorem zipVars_same {f : Word → Word → Word} {F : Bool → Bool → Bool}
    (hf : ∀ x y : Word, ∀ j < 64, (f x y).getLsbD j = F (x.getLsbD j) (y.getLsbD j)) :
    ∀ (res a b : List Word) (V : ℕ) (P Q : ℕ → Bool), Fits res.length V → a.length = res.length → b.length = res.length →
      BitsAre a P → BitsAre b Q →
      ∃ r, zipVars f (fun _ => f) res a b V = some r ∧ r.length = res.length ∧ BitsAre r fun v => F (P v) (Q v) := by
  intro res
  induction res with
  | nil =>
    intro a b V P Q hfit _ _ _ _
    have hV : V = 0 := by have := hfit.1; simpa using this
    subst hV
    exact ⟨[], by simp [zipVars, bitsPerWord], rfl, trivial⟩
  | cons r0 res ih =>
    intro a b V P Q hfit ha hb hP hQ
    match a, b, ha, hb with
    | x :: a, y :: b, ha, hb =>
      simp only [List.length_cons, Nat.add_right_cancel_iff] at ha hb
      unfold Fits at hfit
      simp only [List.length_cons] at hfit
      by_cases hV : V ≥ 64
      · obtain ⟨r, hr, hlen, hbits⟩ := ih a b (V - 64) _ _ (by unfold Fits; omega) ha hb hP.2 hQ.2
        refine ⟨f x y :: r, by unfold zipVars; simp [bitsPerWord, hV, hr], by simp [hlen], fun j hj => ?_, hbits⟩
        rw [hf x y j hj, hP.1 j hj, hQ.1 j hj]
      · have hres : res = [] := List.eq_nil_of_length_eq_zero (by omega)
        subst hres
        refine ⟨[f x y], ?_, rfl, fun j hj => ?_, trivial⟩
        · unfold zipVars
          simp only [bitsPerWord, hV, if_false]
          rw [if_pos (by omega)]
        · rw [hf x y j hj, hP.1 j hj, hQ.1 j hj]

theorem zipVars_masked {f : Word → Word → Word} {g : ℕ → Word → Word → Word} {F : Bool → Bool → Bool}
    (hf : ∀ x y : Word, ∀ j < 64, (f x y).getLsbD j = F (x.getLsbD j) (y.getLsbD j))
    (hg : ∀ n x y, n < 64 → ∀ j < 64, (g n x y).getLsbD j = (decide (j < n) && F (x.getLsbD j) (y.getLsbD j))) :
    ∀ (res a b : List Word) (V : ℕ) (P Q : ℕ → Bool), Fits res.length V → a.length = res.length → b.length = res.length →
      BitsAre a P → BitsAre b Q →
      ∃ r, zipVars f g res a b V = some r ∧ r.length = res.length ∧
        BitsAre r fun v => decide (v < V) && F (P v) (Q v) := by
  intro res
  induction res with
  | nil =>
    intro a b V P Q hfit _ _ _ _
    have hV : V = 0 := by have := hfit.1; simpa using this
    subst hV
    exact ⟨[], by simp [zipVars, bitsPerWord], rfl, trivial⟩
  | cons r0 res ih =>
    intro a b V P Q hfit ha hb hP hQ
    match a, b, ha, hb with
    | x :: a, y :: b, ha, hb =>
      simp only [List.length_cons, Nat.add_right_cancel_iff] at ha hb
      unfold Fits at hfit
      simp only [List.length_cons] at hfit
      by_cases hV : V ≥ 64
      · obtain ⟨r, hr, hlen, hbits⟩ := ih a b (V - 64) _ _ (by unfold Fits; omega) ha hb hP.2 hQ.2
        refine ⟨f x y :: r, by unfold zipVars; simp [bitsPerWord, hV, hr], by simp [hlen], fun j hj => ?_,
          hbits.congr fun v _ => ?_⟩
        · rw [hf x y j hj, hP.1 j hj, hQ.1 j hj]
          have : j < V := by omega
          simp [this]
        · simp only
          congr 1
          exact decide_eq_decide.2 (by omega)
      · have hres : res = [] := List.eq_nil_of_length_eq_zero (by omega)
        subst hres
        refine ⟨[g V x y], ?_, rfl, fun j hj => ?_, trivial⟩
        · unfold zipVars
          simp only [bitsPerWord, hV, if_false]
          rw [if_pos (by omega)]
        · rw [hg V x y (by omega) j hj, hP.1 j hj, hQ.1 j hj]

/-- The bits of a word with the lowest `n` bits set. -/
theorem fullSupportWord_bits {n j : ℕ} (hn : n < 64) : (fullSupportWord n).getLsbD j = decide (j < n) := by
  unfold fullSupportWord
  have h : (((1 : Word) <<< n) - 1).toNat = 2 ^ n - 1 := by
    have hp : 2 ^ n < 2 ^ 64 := Nat.pow_lt_pow_right (by omega) hn
    have hp1 : 1 ≤ 2 ^ n := Nat.one_le_two_pow
    rw [BitVec.toNat_sub, BitVec.toNat_shiftLeft]
    simp only [BitVec.ofNat_eq_ofNat, BitVec.toNat_ofNat, Nat.shiftLeft_eq]
    omega
  rw [← BitVec.testBit_toNat, h, Nat.testBit_two_pow_sub_one]

theorem word_eq_zero_iff {w : Word} : w = 0 ↔ ∀ j < 64, w.getLsbD j = false := by
  constructor
  · rintro rfl j _; simp
  · intro h
    apply BitVec.eq_of_getLsbD_eq
    intro i hi
    rw [h i hi]; simp

theorem and_ne_zero_iff {x y : Word} : x &&& y ≠ 0 ↔ ∃ j < 64, x.getLsbD j = true ∧ y.getLsbD j = true := by
  rw [Ne, word_eq_zero_iff]
  simp

theorem word_eq_iff {x y : Word} : x = y ↔ ∀ j < 64, x.getLsbD j = y.getLsbD j :=
  ⟨fun h _ _ => by rw [h], fun h => BitVec.eq_of_getLsbD_eq fun i hi => h i hi⟩

theorem wGetExponent_spec : ∀ (a : List Word) (v : ℕ), v < 64 * a.length → wGetExponent a v = some (bitOf a v) := by
  intro a v hv
  unfold wGetExponent bitOf bitsPerWord
  have : v / 64 < a.length := by omega
  rw [List.getElem?_eq_getElem this, List.getD_eq_getElem?_getD, List.getElem?_eq_getElem this]
  simp only [Option.getD_some, Option.some.injEq]
  rw [Bool.eq_iff_iff, bne_iff_ne, and_ne_zero_iff]
  constructor
  · rintro ⟨j, hj, h1, h2⟩
    rw [BitVec.getLsbD_shiftLeft] at h2
    simp at h2
    have : j = v % 64 := by omega
    rw [← this]; exact h1
  · intro h
    refine ⟨v % 64, by omega, h, ?_⟩
    rw [BitVec.getLsbD_shiftLeft]
    simp
    omega

theorem bitOf_set {a : List Word} {i : ℕ} (hi : i < a.length) (w : Word) (u : ℕ) :
    bitOf (a.set i w) u = if u / 64 = i then w.getLsbD (u % 64) else bitOf a u := by
  unfold bitOf
  simp only [List.getD_eq_getElem?_getD, List.getElem?_set]
  by_cases h : i = u / 64
  · rw [if_pos h, if_pos h.symm, if_pos (h ▸ hi)]
    rfl
  · rw [if_neg h, if_neg (fun h' => h h'.symm)]

theorem wSetExponent_spec {a : List Word} {v : ℕ} (hv : v < 64 * a.length) (e : Bool) :
    ∃ r, wSetExponent a v e = some r ∧ r.length = a.length ∧ ∀ u, bitOf r u = if u = v then e else bitOf a u := by
  have hi : v / 64 < a.length := by omega
  unfold wSetExponent bitsPerWord
  rw [List.getElem?_eq_getElem hi]
  refine ⟨_, rfl, by simp, fun u => ?_⟩
  rw [bitOf_set hi]
  by_cases hu : u / 64 = v / 64
  · rw [if_pos hu]
    have hw : bitOf a u = (a[v / 64]).getLsbD (u % 64) := by
      unfold bitOf
      rw [hu, List.getD_eq_getElem?_getD, List.getElem?_eq_getElem hi]
      rfl
    rw [BitVec.getLsbD_or, BitVec.getLsbD_and, BitVec.getLsbD_not, BitVec.getLsbD_shiftLeft, BitVec.getLsbD_shiftLeft]
    have h64 : u % 64 < 64 := by omega
    by_cases huv : u = v
    · subst huv
      simp only [h64, if_true, Nat.lt_irrefl, decide_false, decide_true, Nat.sub_self, Bool.true_and, Bool.not_false]
      cases e <;> simp
    · rw [if_neg huv, hw]
      have hne : u % 64 ≠ v % 64 := by omega
      by_cases hlt : u % 64 < v % 64
      · simp [h64, hlt]
      · have hsub : u % 64 - v % 64 ≠ 0 := by omega
        cases e <;> simp [h64, hsub]
  · rw [if_neg hu, if_neg (by rintro rfl; exact hu rfl)]

theorem wIsIdentity_spec : ∀ (a : List Word) (V : ℕ) (P : ℕ → Bool), Fits a.length V → BitsAre a P →
    ∃ r, wIsIdentity a V = some r ∧ (r = true ↔ ∀ v < 64 * a.length, P v = false) := by
  intro a
  induction a with
  | nil =>
    intro V P hfit _
    have hV : V = 0 := by have := hfit.1; simpa using this
    subst hV
    exact ⟨true, by simp [wIsIdentity], by simp⟩
  | cons w a ih =>
    intro V P hfit hP
    unfold Fits at hfit
    simp only [List.length_cons] at hfit ⊢
    obtain ⟨V, rfl⟩ : ∃ V', V = V' + 1 := ⟨V - 1, by omega⟩
    unfold wIsIdentity bitsPerWord
    by_cases hw : w ≠ 0
    · rw [if_pos hw]
      refine ⟨false, rfl, by simp, fun h => absurd (word_eq_zero_iff.2 fun j hj => ?_) hw⟩
      rw [hP.1 j hj, h j (by omega)]
    · rw [if_neg hw]
      rw [not_not, word_eq_zero_iff] at hw
      by_cases hV : V + 1 ≤ 64
      · rw [if_pos hV]
        refine ⟨true, rfl, fun _ v hv => ?_, fun _ => rfl⟩
        rw [← hP.1 v (by omega), hw v (by omega)]
      · rw [if_neg hV]
        obtain ⟨r, hr, hiff⟩ := ih (V + 1 - 64) _ (by unfold Fits; omega) hP.2
        refine ⟨r, hr, hiff.trans ⟨fun h v hv => ?_, fun h v hv => h (v + 64) (by omega)⟩⟩
        by_cases hv64 : v < 64
        · rw [← hP.1 v hv64, hw v hv64]
        · have := h (v - 64) (by omega)
          rwa [show v - 64 + 64 = v by omega] at this

theorem wIsIdentityWords_spec : ∀ (a : List Word) (P : ℕ → Bool), BitsAre a P →
    (wIsIdentityWords a = true ↔ ∀ v < 64 * a.length, P v = false) := by
  intro a
  induction a with
  | nil => intro P _; simp [wIsIdentityWords]
  | cons w a ih =>
    intro P hP
    have hstep : wIsIdentityWords (w :: a) = (w == 0 && wIsIdentityWords a) := rfl
    rw [hstep, Bool.and_eq_true, beq_iff_eq, word_eq_zero_iff, ih _ hP.2, List.length_cons]
    constructor
    · rintro ⟨h1, h2⟩ v hv
      by_cases hv64 : v < 64
      · rw [← hP.1 v hv64, h1 v hv64]
      · have := h2 (v - 64) (by omega)
        rwa [show v - 64 + 64 = v by omega] at this
    · intro h
      exact ⟨fun j hj => by rw [hP.1 j hj, h j (by omega)], fun v hv => h _ (by omega)⟩

theorem and_one_ne_zero {w : Word} : w &&& 1 ≠ 0 ↔ w.getLsbD 0 = true := by
  rw [and_ne_zero_iff]
  constructor
  · rintro ⟨j, hj, h1, h2⟩
    have h2' : (1#64).getLsbD j = true := h2
    rw [BitVec.getLsbD_one] at h2'
    simp at h2'
    rwa [h2'] at h1
  · intro h
    exact ⟨0, by omega, h, by decide⟩

theorem countBits_spec : ∀ (n : ℕ) (w : Word), (∀ j, n ≤ j → w.getLsbD j = false) →
    countBits w = Nat.count (fun j => w.getLsbD j = true) n := by
  intro n
  induction n with
  | zero =>
    intro w h
    have hw : w = 0 := word_eq_zero_iff.2 fun j _ => h j (Nat.zero_le j)
    unfold countBits
    simp [hw]
  | succ n ih =>
    intro w h
    unfold countBits
    by_cases hw : w = 0
    · subst hw
      simp [Nat.count_eq_card_filter_range]
    · rw [dif_neg hw, ih (w >>> 1) (fun j hj => by rw [BitVec.getLsbD_ushiftRight]; exact h _ (by omega)), Nat.count_succ']
      simp only [BitVec.getLsbD_ushiftRight, and_one_ne_zero]
      rw [Nat.add_comm]
      simp only [Nat.add_comm 1]

theorem wSizeOfSupport_spec : ∀ (a : List Word) (V : ℕ) (P : ℕ → Bool), Fits a.length V → BitsAre a P →
    wSizeOfSupport a V = some (Nat.count (fun v => P v = true) (64 * a.length)) := by
  intro a
  induction a with
  | nil =>
    intro V P hfit _
    have hV : V = 0 := by have := hfit.1; simpa using this
    subst hV
    simp [wSizeOfSupport]
  | cons w a ih =>
    intro V P hfit hP
    unfold Fits at hfit
    simp only [List.length_cons] at hfit ⊢
    obtain ⟨V, rfl⟩ : ∃ V', V = V' + 1 := ⟨V - 1, by omega⟩
    have hw : countBits w = Nat.count (fun v => P v = true) 64 := by
      rw [countBits_spec 64 w fun j hj => BitVec.getLsbD_of_ge w j hj]
      simp only [Nat.count_eq_card_filter_range]
      congr 1
      apply Finset.filter_congr
      intro j hj
      rw [hP.1 j (Finset.mem_range.1 hj)]
    unfold wSizeOfSupport bitsPerWord
    by_cases hV : V + 1 ≤ 64
    · have : a.length = 0 := by omega
      rw [if_pos hV, hw, this]
    · rw [if_neg hV, ih (V + 1 - 64) _ (by unfold Fits; omega) hP.2, hw, show 64 * (a.length + 1) = 64 + 64 * a.length by omega,
        Nat.count_add]
      simp [Nat.add_comm]

theorem wEquals_spec : ∀ (a b : List Word) (V : ℕ) (P Q : ℕ → Bool), Fits a.length V → b.length = a.length → BitsAre a P →
    BitsAre b Q → ∃ r, wEquals a b V = some r ∧ (r = true ↔ ∀ v < 64 * a.length, P v = Q v) := by
  intro a
  induction a with
  | nil =>
    intro b V P Q hfit _ _ _
    have hV : V = 0 := by have := hfit.1; simpa using this
    subst hV
    exact ⟨true, by simp [wEquals], by simp⟩
  | cons x a ih =>
    intro b V P Q hfit hb hP hQ
    match b, hb with
    | y :: b, hb =>
      unfold Fits at hfit
      simp only [List.length_cons, Nat.add_right_cancel_iff] at hfit hb ⊢
      obtain ⟨V, rfl⟩ : ∃ V', V = V' + 1 := ⟨V - 1, by omega⟩
      unfold wEquals bitsPerWord
      by_cases hw : x ≠ y
      · rw [if_pos hw]
        refine ⟨false, rfl, by simp, fun h => absurd (word_eq_iff.2 fun j hj => ?_) hw⟩
        rw [hP.1 j hj, hQ.1 j hj, h j (by omega)]
      · rw [if_neg hw]
        rw [not_not, word_eq_iff] at hw
        by_cases hV : V + 1 ≤ 64
        · rw [if_pos hV]
          refine ⟨true, rfl, fun _ v hv => ?_, fun _ => rfl⟩
          rw [← hP.1 v (by omega), hw v (by omega), hQ.1 v (by omega)]
        · rw [if_neg hV]
          obtain ⟨r, hr, hiff⟩ := ih b (V + 1 - 64) _ _ (by unfold Fits; omega) hb hP.2 hQ.2
          refine ⟨r, hr, hiff.trans ⟨fun h v hv => ?_, fun h v hv => h (v + 64) (by omega)⟩⟩
          by_cases hv64 : v < 64
          · rw [← hP.1 v hv64, hw v hv64, hQ.1 v hv64]
          · have := h (v - 64) (by omega)
            rwa [show v - 64 + 64 = v by omega] at this

/-- The lowest bit that is set in a word. -/
theorem lowest_bit {x : Word} (h : x ≠ 0) : ∃ i < 64, x.getLsbD i = true ∧ ∀ j < i, x.getLsbD j = false := by
  classical
  have hex : ∃ i, i < 64 ∧ x.getLsbD i = true := by
    by_contra hno
    refine h (word_eq_zero_iff.2 fun j hj => ?_)
    by_contra hne
    exact hno ⟨j, hj, by simpa using hne⟩
  refine ⟨Nat.find hex, (Nat.find_spec hex).1, (Nat.find_spec hex).2, fun j hj => ?_⟩
  have := Nat.find_min hex hj
  have h64 := (Nat.find_spec hex).1
  by_contra hne
  exact this ⟨by omega, by simpa using hne⟩

theorem and_neg_bits {x : Word} {i : ℕ} (hi : x.getLsbD i = true) (hmin : ∀ j < i, x.getLsbD j = false) (j : ℕ) (hj : j < 64) :
    (x &&& -x).getLsbD j = decide (j = i) := by
  rw [BitVec.getLsbD_and, BitVec.getLsbD_neg]
  rcases Nat.lt_trichotomy j i with h | h | h
  · have hne : j ≠ i := by omega
    simp [hmin j h, hne]
  · subst h
    have hno : ¬ ∃ k < j, x.getLsbD k = true := by
      rintro ⟨k, hk, hk'⟩
      rw [hmin k hk] at hk'
      cases hk'
    simp only [hi, hno, decide_false, Bool.and_false, decide_true]
    rfl
  · have hex : ∃ k < j, x.getLsbD k = true := ⟨i, h, hi⟩
    have hne : j ≠ i := by omega
    simp only [hex, hne, decide_false, decide_true, hj, Bool.and_true]
    cases x.getLsbD j <;> rfl

theorem wLexLess_spec : ∀ (a b : List Word) (V : ℕ) (P Q : ℕ → Bool), Fits a.length V → b.length = a.length → BitsAre a P →
    BitsAre b Q → ∃ r, wLexLess a b V = some r ∧
      (r = true ↔ ∃ v < 64 * a.length, P v = false ∧ Q v = true ∧ ∀ u < v, P u = Q u) := by
  intro a
  induction a with
  | nil =>
    intro b V P Q hfit _ _ _
    have hV : V = 0 := by have := hfit.1; simpa using this
    subst hV
    exact ⟨false, by simp [wLexLess], by simp⟩
  | cons x a ih =>
    intro b V P Q hfit hb hP hQ
    match b, hb with
    | y :: b, hb =>
      unfold Fits at hfit
      simp only [List.length_cons, Nat.add_right_cancel_iff] at hfit hb ⊢
      obtain ⟨V, rfl⟩ : ∃ V', V = V' + 1 := ⟨V - 1, by omega⟩
      unfold wLexLess bitsPerWord
      by_cases hw : x ≠ y
      · rw [if_pos hw]
        refine ⟨_, rfl, ?_⟩
        have hxor : x ^^^ y ≠ 0 := by
          intro h
          rw [word_eq_zero_iff] at h
          refine hw (word_eq_iff.2 fun j hj => ?_)
          have := h j hj
          rw [BitVec.getLsbD_xor] at this
          simpa using this
        obtain ⟨i, hi64, hi, hmin⟩ := lowest_bit hxor
        have hbit := and_neg_bits hi hmin
        rw [BitVec.getLsbD_xor, hP.1 i hi64, hQ.1 i hi64] at hi
        have hmin' : ∀ j < i, P j = Q j := by
          intro j hj
          have := hmin j hj
          rw [BitVec.getLsbD_xor, hP.1 j (by omega), hQ.1 j (by omega)] at this
          simpa using this
        have hres : ((x &&& ((x ^^^ y) &&& -(x ^^^ y)) == 0) = true) ↔ P i = false := by
          rw [beq_iff_eq, word_eq_zero_iff]
          constructor
          · intro h
            have := h i hi64
            rw [BitVec.getLsbD_and, hbit i hi64, hP.1 i hi64] at this
            simpa using this
          · intro h j hj
            rw [BitVec.getLsbD_and, hbit j hj, hP.1 j hj]
            by_cases hji : j = i
            · subst hji; simp [h]
            · simp [hji]
        rw [hres]
        constructor
        · intro h
          refine ⟨i, by omega, h, ?_, hmin'⟩
          rw [h] at hi
          simpa using hi
        · rintro ⟨v, _, hv1, hv2, hv3⟩
          rcases Nat.lt_trichotomy v i with h | h | h
          · have := hmin' v h
            rw [hv1, hv2] at this
            cases this
          · rw [← h]; exact hv1
          · have := hv3 i h
            rw [this] at hi
            simp at hi
      · rw [if_neg hw]
        rw [not_not, word_eq_iff] at hw
        have hPQ : ∀ v < 64, P v = Q v := fun v hv => by rw [← hP.1 v hv, hw v hv, hQ.1 v hv]
        by_cases hV : V + 1 ≤ 64
        · rw [if_pos hV]
          refine ⟨false, rfl, by simp, ?_⟩
          rintro ⟨v, hv, h1, h2, _⟩
          rw [hPQ v (by omega), h2] at h1
          cases h1
        · rw [if_neg hV]
          obtain ⟨r, hr, hiff⟩ := ih b (V + 1 - 64) _ _ (by unfold Fits; omega) hb hP.2 hQ.2
          refine ⟨r, hr, hiff.trans ⟨?_, ?_⟩⟩
          · rintro ⟨v, hv, h1, h2, h3⟩
            refine ⟨v + 64, by omega, h1, h2, fun u hu => ?_⟩
            by_cases hu64 : u < 64
            · exact hPQ u hu64
            · have := h3 (u - 64) (by omega)
              rwa [show u - 64 + 64 = u by omega] at this
          · rintro ⟨v, hv, h1, h2, h3⟩
            have hv64 : ¬ v < 64 := by
              intro h
              rw [hPQ v h, h2] at h1
              cases h1
            refine ⟨v - 64, by omega, ?_, ?_, fun u hu => h3 _ (by omega)⟩
            · rwa [show v - 64 + 64 = v by omega]
            · rwa [show v - 64 + 64 = v by omega]

theorem wIsRelativelyPrimeWords_spec : ∀ (a b : List Word) (P Q : ℕ → Bool), b.length = a.length → BitsAre a P → BitsAre b Q →
    ∃ r, wIsRelativelyPrimeWords a b = some r ∧ (r = true ↔ ∀ v < 64 * a.length, (P v && Q v) = false) := by
  intro a
  induction a with
  | nil => intro b P Q _ _ _; exact ⟨true, by simp [wIsRelativelyPrimeWords], by simp⟩
  | cons x a ih =>
    intro b P Q hb hP hQ
    match b, hb with
    | y :: b, hb =>
      simp only [List.length_cons, Nat.add_right_cancel_iff] at hb ⊢
      unfold wIsRelativelyPrimeWords
      by_cases hw : x &&& y ≠ 0
      · rw [if_pos hw]
        obtain ⟨j, hj, h1, h2⟩ := and_ne_zero_iff.1 hw
        refine ⟨false, rfl, by simp, fun h => ?_⟩
        have := h j (by omega)
        rw [← hP.1 j hj, ← hQ.1 j hj, h1, h2] at this
        cases this
      · rw [if_neg hw]
        obtain ⟨r, hr, hiff⟩ := ih b _ _ hb hP.2 hQ.2
        refine ⟨r, hr, hiff.trans ⟨fun h v hv => ?_, fun h v hv => h (v + 64) (by omega)⟩⟩
        by_cases hv64 : v < 64
        · rw [not_not, word_eq_zero_iff] at hw
          rw [← hP.1 v hv64, ← hQ.1 v hv64, ← BitVec.getLsbD_and, hw v hv64]
        · have := h (v - 64) (by omega)
          rwa [show v - 64 + 64 = v by omega] at this

theorem wIsRelativelyPrime_spec : ∀ (a b : List Word) (V : ℕ) (P Q : ℕ → Bool), Fits a.length V → b.length = a.length →
    BitsAre a P → BitsAre b Q →
    ∃ r, wIsRelativelyPrime a b V = some r ∧ (r = true ↔ ∀ v < 64 * a.length, (P v && Q v) = false) := by
  intro a
  induction a with
  | nil =>
    intro b V P Q hfit _ _ _
    have hV : V = 0 := by have := hfit.1; simpa using this
    subst hV
    exact ⟨true, by simp [wIsRelativelyPrime, bitsPerWord], by simp⟩
  | cons x a ih =>
    intro b V P Q hfit hb hP hQ
    match b, hb with
    | y :: b, hb =>
      unfold Fits at hfit
      simp only [List.length_cons, Nat.add_right_cancel_iff] at hfit hb ⊢
      have hbad : x &&& y ≠ 0 → ¬ ∀ v < 64 * (a.length + 1), (P v && Q v) = false := by
        intro hw h
        obtain ⟨j, hj, h1, h2⟩ := and_ne_zero_iff.1 hw
        have := h j (by omega)
        rw [← hP.1 j hj, ← hQ.1 j hj, h1, h2] at this
        cases this
      have hgood : ¬ x &&& y ≠ 0 → ∀ v < 64, (P v && Q v) = false := by
        intro hw v hv64
        rw [not_not, word_eq_zero_iff] at hw
        rw [← hP.1 v hv64, ← hQ.1 v hv64, ← BitVec.getLsbD_and, hw v hv64]
      unfold wIsRelativelyPrime
      simp only [bitsPerWord]
      by_cases hV : V ≥ 64
      · rw [if_pos hV]
        by_cases hw : x &&& y ≠ 0
        · rw [if_pos hw]
          exact ⟨false, rfl, by simp, fun h => absurd h (hbad hw)⟩
        · rw [if_neg hw]
          obtain ⟨r, hr, hiff⟩ := ih b (V - 64) _ _ (by unfold Fits; omega) hb hP.2 hQ.2
          refine ⟨r, hr, hiff.trans ⟨fun h v hv => ?_, fun h v hv => h (v + 64) (by omega)⟩⟩
          by_cases hv64 : v < 64
          · exact hgood hw v hv64
          · have := h (v - 64) (by omega)
            rwa [show v - 64 + 64 = v by omega] at this
      · rw [if_neg hV, if_pos (by omega)]
        by_cases hw : x &&& y ≠ 0
        · rw [if_pos hw]
          exact ⟨false, rfl, by simp, fun h => absurd h (hbad hw)⟩
        · rw [if_neg hw]
          exact ⟨true, rfl, fun _ v hv => hgood hw v (by omega), fun _ => rfl⟩

theorem wDivides_spec : ∀ (a b : List Word) (P Q : ℕ → Bool), b.length = a.length → BitsAre a P → BitsAre b Q →
    ∃ r, wDivides a b = some r ∧ (r = true ↔ ∀ v < 64 * a.length, P v = true → Q v = true) := by
  intro a
  induction a with
  | nil => intro b P Q _ _ _; exact ⟨true, by simp [wDivides], by simp⟩
  | cons x a ih =>
    intro b P Q hb hP hQ
    match b, hb with
    | y :: b, hb =>
      simp only [List.length_cons, Nat.add_right_cancel_iff] at hb ⊢
      unfold wDivides
      by_cases hw : x &&& ~~~y ≠ 0
      · rw [if_pos hw]
        obtain ⟨j, hj, h1, h2⟩ := and_ne_zero_iff.1 hw
        refine ⟨false, rfl, by simp, fun h => ?_⟩
        have := h j (by omega)
        rw [← hP.1 j hj, ← hQ.1 j hj, h1] at this
        rw [BitVec.getLsbD_not, this rfl] at h2
        simp at h2
      · rw [if_neg hw]
        obtain ⟨r, hr, hiff⟩ := ih b _ _ hb hP.2 hQ.2
        refine ⟨r, hr, hiff.trans ⟨fun h v hv => ?_, fun h v hv => h (v + 64) (by omega)⟩⟩
        by_cases hv64 : v < 64
        · rw [not_not, word_eq_zero_iff] at hw
          have := hw v hv64
          rw [BitVec.getLsbD_and, BitVec.getLsbD_not, hP.1 v hv64, hQ.1 v hv64] at this
          simp [hv64] at this
          exact this
        · have := h (v - 64) (by omega)
          rwa [show v - 64 + 64 = v by omega] at this

theorem wHasFullSupport_spec : ∀ (a : List Word) (V : ℕ) (P : ℕ → Bool), Fits a.length V → BitsAre a P →
    ∃ r, wHasFullSupport a V = some r ∧ (r = true ↔ ∀ v < 64 * a.length, P v = decide (v < V)) := by
  intro a
  induction a with
  | nil =>
    intro V P hfit _
    have hV : V = 0 := by have := hfit.1; simpa using this
    subst hV
    exact ⟨true, by simp [wHasFullSupport, bitsPerWord], by simp⟩
  | cons x a ih =>
    intro V P hfit hP
    unfold Fits at hfit
    simp only [List.length_cons] at hfit ⊢
    unfold wHasFullSupport
    simp only [bitsPerWord]
    by_cases hV : V ≥ 64
    · rw [if_pos hV]
      by_cases hw : x ≠ ~~~0
      · rw [if_pos hw]
        refine ⟨false, rfl, by simp, fun h => absurd (word_eq_iff.2 fun j hj => ?_) hw⟩
        rw [hP.1 j hj, h j (by omega), BitVec.getLsbD_not]
        have : j < V := by omega
        simp [hj, this]
      · rw [if_neg hw]
        rw [not_not, word_eq_iff] at hw
        obtain ⟨r, hr, hiff⟩ := ih (V - 64) _ (by unfold Fits; omega) hP.2
        refine ⟨r, hr, hiff.trans ⟨fun h v hv => ?_, fun h v hv => ?_⟩⟩
        · by_cases hv64 : v < 64
          · rw [← hP.1 v hv64, hw v hv64, BitVec.getLsbD_not]
            have : v < V := by omega
            simp [hv64, this]
          · have := h (v - 64) (by omega)
            rw [show v - 64 + 64 = v by omega] at this
            rw [this]
            exact decide_eq_decide.2 (by omega)
        · rw [h (v + 64) (by omega)]
          exact decide_eq_decide.2 (by omega)
    · rw [if_neg hV, if_neg (by omega)]
      refine ⟨_, rfl, ?_⟩
      rw [beq_iff_eq, word_eq_iff]
      constructor
      · intro h v hv
        rw [← hP.1 v (by omega), h v (by omega), fullSupportWord_bits (by omega)]
      · intro h j hj
        rw [hP.1 j hj, h j (by omega), fullSupportWord_bits (by omega)]

end Frobby

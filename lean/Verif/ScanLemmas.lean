import Verif.ScanModel
import Mathlib.Tactic.Linarith
import Mathlib.Data.List.Infix
import Mathlib.Data.Nat.Digits.Defs
import Mathlib.Data.Nat.Digits.Lemmas

/-!
# Lemmas about the scanner

What is read does not depend on white space in front, and names and numbers are read as they are written.
-/

namespace Frobby

theorem eatWhite_nil : eatWhite [] = [] := rfl

theorem eatWhite_cons (c : Char) (r : Text) : eatWhite (c :: r) = if isSpace c then eatWhite r else c :: r := by
  unfold eatWhite
  rw [List.dropWhile_cons]

theorem eatWhite_eatWhite (t : Text) : eatWhite (eatWhite t) = eatWhite t := by
  induction t with
  | nil => rfl
  | cons c r ih =>
    rw [eatWhite_cons]
    split
    · exact ih
    · rename_i h
      rw [eatWhite_cons, if_neg h]

/-! ## white space in front -/

theorem matchChar_congr {t u : Text} (h : eatWhite t = eatWhite u) (c : Char) : matchChar c t = matchChar c u := by
  unfold matchChar
  rw [h]

theorem expectChar_congr {t u : Text} (h : eatWhite t = eatWhite u) (c : Char) : expectChar c t = expectChar c u := by
  unfold expectChar
  rw [h]

theorem expectText_congr {t u : Text} (h : eatWhite t = eatWhite u) (s : Text) : expectText s t = expectText s u := by
  unfold expectText
  rw [h]

theorem readIdentifier_congr {t u : Text} (h : eatWhite t = eatWhite u) : readIdentifier t = readIdentifier u := by
  unfold readIdentifier
  rw [h]

theorem peekIdentifier_congr {t u : Text} (h : eatWhite t = eatWhite u) : peekIdentifier t = peekIdentifier u := by
  unfold peekIdentifier
  rw [h]

theorem peekChar_congr {t u : Text} (h : eatWhite t = eatWhite u) (c : Char) : peekChar c t = peekChar c u := by
  unfold peekChar
  rw [h]

theorem matchEOF_congr {t u : Text} (h : eatWhite t = eatWhite u) : matchEOF t = matchEOF u := by
  unfold matchEOF
  rw [h]

theorem readIntegerStringNoSign_congr {t u : Text} (h : eatWhite t = eatWhite u) :
    readIntegerStringNoSign t = readIntegerStringNoSign u := by
  unfold readIntegerStringNoSign
  rw [h]

theorem readInteger_congr {t u : Text} (h : eatWhite t = eatWhite u) : readInteger t = readInteger u := by
  unfold readInteger
  rw [h]

theorem readSizeT_congr {t u : Text} (h : eatWhite t = eatWhite u) : readSizeT t = readSizeT u := by
  unfold readSizeT
  rw [readInteger_congr h]

/-! ## given characters -/

theorem matchChar_cons (c d : Char) (r : Text) :
    matchChar c (d :: r) = if isSpace d then matchChar c r else if d = c then (true, r) else (false, d :: r) := by
  unfold matchChar
  rw [eatWhite_cons]
  by_cases h : isSpace d = true <;> simp [h]

theorem matchChar_nil (c : Char) : matchChar c [] = (false, []) := rfl

theorem expectChar_cons (c d : Char) (r : Text) :
    expectChar c (d :: r) = if isSpace d then expectChar c r else if d = c then some r else none := by
  unfold expectChar
  rw [eatWhite_cons]
  by_cases h : isSpace d = true <;> simp [h]

theorem expectText_cons (s : Text) (d : Char) (r : Text) :
    expectText s (d :: r) = if isSpace d then expectText s r else stripText s (d :: r) := by
  unfold expectText
  rw [eatWhite_cons]
  by_cases h : isSpace d = true <;> simp [h]

theorem peekIdentifier_cons (d : Char) (r : Text) :
    peekIdentifier (d :: r) = if isSpace d then peekIdentifier r else isAlpha d := by
  unfold peekIdentifier
  rw [eatWhite_cons]
  by_cases h : isSpace d = true <;> simp [h, nextIs]

theorem peekIdentifier_nil : peekIdentifier [] = false := rfl

theorem peekChar_cons (c d : Char) (r : Text) :
    peekChar c (d :: r) = if isSpace d then peekChar c r else decide (d = c) := by
  unfold peekChar
  rw [eatWhite_cons]
  by_cases h : isSpace d = true <;> simp [h, nextIs]

theorem peekChar_nil (c : Char) : peekChar c [] = false := rfl

theorem matchEOF_cons (d : Char) (r : Text) : matchEOF (d :: r) = if isSpace d then matchEOF r else false := by
  unfold matchEOF
  rw [eatWhite_cons]
  by_cases h : isSpace d = true <;> simp [h]

theorem matchEOF_nil : matchEOF [] = true := rfl

/-- `match` when the character is not there. -/
theorem matchChar_false {c : Char} {t : Text} (h : peekChar c t = false) : matchChar c t = (false, eatWhite t) := by
  unfold matchChar
  unfold peekChar at h
  cases h1 : eatWhite t with
  | nil => rfl
  | cons d r =>
    rw [h1] at h
    simp only [nextIs, decide_eq_false_iff_not] at h
    simp [h]

theorem peekChar_false_of_matchChar {c : Char} {t : Text} (h : (matchChar c t).1 = false) : peekChar c t = false := by
  unfold matchChar at h
  unfold peekChar
  cases h1 : eatWhite t with
  | nil => rfl
  | cons d r =>
    rw [h1] at h
    simp only at h
    split at h
    · simp at h
    · rename_i h2
      simp [nextIs, h2]

theorem isSpace_of_isAlpha {c : Char} (h : isAlpha c = true) : isSpace c = false := by
  unfold isAlpha at h
  unfold isSpace
  simp only [decide_eq_true_eq] at h
  simp only [decide_eq_false_iff_not]
  omega

theorem isSpace_of_isDigit {c : Char} (h : isDigit c = true) : isSpace c = false := by
  unfold isDigit at h
  unfold isSpace
  simp only [decide_eq_true_eq] at h
  simp only [decide_eq_false_iff_not]
  omega

theorem isAlpha_of_isDigit {c : Char} (h : isDigit c = true) : isAlpha c = false := by
  unfold isDigit at h
  unfold isAlpha
  simp only [decide_eq_true_eq] at h
  simp only [decide_eq_false_iff_not]
  omega

/-! ## names -/

/-- Names that can be read: a letter and then letters, digits and `_`. -/
def ValidName (x : Text) : Prop := ∃ c l, x = c :: l ∧ isAlpha c = true ∧ ∀ d ∈ l, isIdChar d = true

theorem ValidName.all {x : Text} (h : ValidName x) : ∀ d ∈ x, isIdChar d = true := by
  obtain ⟨c, l, rfl, h1, h2⟩ := h
  intro d hd
  rcases List.mem_cons.1 hd with rfl | hd
  · simp [isIdChar, h1]
  · exact h2 d hd

theorem ValidName.ne_nil {x : Text} (h : ValidName x) : x ≠ [] := by
  obtain ⟨c, l, rfl, _⟩ := h
  simp

theorem ValidName.eatWhite {x : Text} (h : ValidName x) (r : Text) : eatWhite (x ++ r) = x ++ r := by
  obtain ⟨c, l, rfl, h1, h2⟩ := h
  rw [List.cons_append, eatWhite_cons, isSpace_of_isAlpha h1]
  simp

theorem ValidName.peekChar {x : Text} (h : ValidName x) {c : Char} (hc : isAlpha c = false) (r : Text) : peekChar c (x ++ r) = false := by
  obtain ⟨d, l, rfl, h1, h2⟩ := h
  rw [List.cons_append, peekChar_cons, isSpace_of_isAlpha h1]
  simp only [Bool.false_eq_true, if_false, decide_eq_false_iff_not]
  rintro rfl
  rw [h1] at hc
  simp at hc

theorem ValidName.peekIdentifier {x : Text} (h : ValidName x) (r : Text) : peekIdentifier (x ++ r) = true := by
  obtain ⟨d, l, rfl, h1, h2⟩ := h
  rw [List.cons_append, peekIdentifier_cons, isSpace_of_isAlpha h1]
  simpa using h1

theorem takeWhile_of_all {p : Char → Bool} {x r : Text} (h : ∀ d ∈ x, p d = true) (hr : nextIs p r = false) :
    (x ++ r).takeWhile p = x ∧ (x ++ r).dropWhile p = r := by
  have hr' : r.takeWhile p = [] ∧ r.dropWhile p = r := by
    cases r with
    | nil => simp
    | cons d r => simp only [nextIs] at hr; simp [hr]
  rw [List.takeWhile_append_of_pos h, List.dropWhile_append_of_pos h, hr'.1, hr'.2]
  simp

theorem ValidName.readIdentifier {x : Text} (h : ValidName x) {r : Text} (hr : nextIs isIdChar r = false) :
    readIdentifier (x ++ r) = some (x, r) := by
  have h1 : nextIs isAlpha (x ++ r) = true := by
    obtain ⟨d, l, rfl, h1, h2⟩ := h
    exact h1
  have := takeWhile_of_all h.all hr
  unfold Frobby.readIdentifier
  rw [h.eatWhite, if_pos h1, this.1, this.2]

/-! ## numbers -/

theorem decimal_cons (n : ℕ) : ∃ c l, decimal n = c :: l ∧ isDigit c = true := by
  cases h : decimal n with
  | nil => exact absurd h (decimal_ne_nil n)
  | cons c l => exact ⟨c, l, rfl, isDigit_of_mem_decimal (x := n) (by rw [h]; simp)⟩

theorem eatWhite_decimal (n : ℕ) (r : Text) : eatWhite (decimal n ++ r) = decimal n ++ r := by
  obtain ⟨c, l, h1, h2⟩ := decimal_cons n
  rw [h1, List.cons_append, eatWhite_cons, isSpace_of_isDigit h2]
  simp

theorem peekChar_decimal {c : Char} (hc : isDigit c = false) (n : ℕ) (r : Text) : peekChar c (decimal n ++ r) = false := by
  obtain ⟨d, l, h1, h2⟩ := decimal_cons n
  rw [h1, List.cons_append, peekChar_cons, isSpace_of_isDigit h2]
  simp only [Bool.false_eq_true, if_false, decide_eq_false_iff_not]
  rintro rfl
  rw [h2] at hc
  simp at hc

theorem readDigits_decimal (n : ℕ) {r : Text} (hr : nextIs isDigit r = false) : readDigits (decimal n ++ r) = some (decimal n, r) := by
  have := takeWhile_of_all (fun d hd => isDigit_of_mem_decimal (x := n) hd) hr
  unfold readDigits
  rw [this.1, this.2, if_neg (decimal_ne_nil n)]

theorem readIntegerStringNoSign_decimal (n : ℕ) {r : Text} (hr : nextIs isDigit r = false) :
    readIntegerStringNoSign (decimal n ++ r) = some (decimal n, r) := by
  unfold readIntegerStringNoSign
  rw [eatWhite_decimal, readDigits_decimal n hr]
  have : nextIs (fun c => c = '-' || c = '+') (decimal n ++ r) = false := by
    obtain ⟨d, l, h1, h2⟩ := decimal_cons n
    rw [h1]
    simp only [List.cons_append, nextIs]
    have h3 : d ≠ '-' := by rintro rfl; revert h2; decide
    have h4 : d ≠ '+' := by rintro rfl; revert h2; decide
    simp [h3, h4]
  rw [this]
  simp

theorem readInteger_decimal (n : ℕ) {r : Text} (hr : nextIs isDigit r = false) : readInteger (decimal n ++ r) = some ((n : ℤ), r) := by
  unfold readInteger
  rw [eatWhite_decimal]
  have hd := readDigits_decimal n hr
  obtain ⟨d, l, h1, h2⟩ := decimal_cons n
  have h3 : d ≠ '-' := by rintro rfl; revert h2; decide
  have h4 : d ≠ '+' := by rintro rfl; revert h2; decide
  have hv := digitsValue_decimal n
  rw [h1] at hd hv ⊢
  simp only [List.cons_append, h3, h4, if_false] at hd ⊢
  rw [hd]
  simp [hv]

theorem readInteger_minus (n : ℕ) {r : Text} (hr : nextIs isDigit r = false) : readInteger ('-' :: decimal n ++ r) = some (-(n : ℤ), r) := by
  unfold readInteger
  rw [List.cons_append, eatWhite_cons]
  have : isSpace '-' = false := by decide
  rw [this]
  simp [readDigits_decimal n hr, digitsValue_decimal]

theorem readInteger_decimalInt (x : ℤ) {r : Text} (hr : nextIs isDigit r = false) : readInteger (decimalInt x ++ r) = some (x, r) := by
  unfold decimalInt
  split
  · rw [readInteger_minus _ hr]
    congr 2
    omega
  · rw [readInteger_decimal _ hr]
    congr 2
    omega

theorem readSizeT_decimal {n : ℕ} (hn : n < 2 ^ 64) {r : Text} (hr : nextIs isDigit r = false) : readSizeT (decimal n ++ r) = some (n, r) := by
  unfold readSizeT
  rw [readInteger_decimal n hr]
  have : n < 18446744073709551616 := by simpa using hn
  simp [this]

theorem decimal_head_zero {n : ℕ} {l : Text} (h : decimal n = '0' :: l) : n = 0 := by
  by_contra hn
  unfold decimal at h
  rw [if_neg hn] at h
  have hne : Nat.digits 10 n ≠ [] := Nat.digits_ne_nil_iff_ne_zero.2 hn
  have hl := Nat.getLast_digit_ne_zero 10 hn
  have h1 : ((Nat.digits 10 n).reverse.map digitChar).head? = some (digitChar ((Nat.digits 10 n).getLast hne)) := by
    rw [List.head?_map, List.head?_reverse, List.getLast?_eq_some_getLast hne]
    rfl
  rw [h] at h1
  simp only [List.head?_cons, Option.some.injEq] at h1
  have h2 := congrArg Char.toNat h1
  have hlt : (Nat.digits 10 n).getLast hne < 10 := Nat.digits_lt_base (by norm_num) (List.getLast_mem hne)
  rw [digitChar_toNat hlt] at h2
  have : ('0' : Char).toNat = 48 := rfl
  omega

theorem decimal_zero : decimal 0 = t!"0" := rfl

theorem decimal_one : decimal 1 = t!"1" := by decide

theorem decimal_eq_zero_iff {n : ℕ} : decimal n = t!"0" ↔ n = 0 :=
  ⟨fun h => decimal_injective (h.trans decimal_zero.symm), fun h => h ▸ rfl⟩

theorem decimal_eq_one_iff {n : ℕ} : decimal n = t!"1" ↔ n = 1 :=
  ⟨fun h => decimal_injective (h.trans decimal_one.symm), fun h => h ▸ decimal_one⟩

/-- A number without a leading zero has the same value in base 0. -/
theorem digitsValue0_decimal (n : ℕ) : digitsValue0 (decimal n) = some n := by
  by_cases hn : n = 0
  · subst hn; rfl
  · cases h : decimal n with
    | nil => exact absurd h (decimal_ne_nil n)
    | cons c l =>
      have hc : c ≠ '0' := by rintro rfl; exact hn (decimal_head_zero h)
      unfold digitsValue0
      split
      · rename_i h1; simp at h1
      · rename_i h1
        simp only [List.cons.injEq] at h1
        exact absurd h1.1 hc
      · rw [← h, digitsValue_decimal]

theorem isIdChar_of_isDigit {c : Char} (h : isDigit c = true) : isIdChar c = true := by simp [isIdChar, h]

theorem nextIs_isDigit {r : Text} (h : nextIs isIdChar r = false) : nextIs isDigit r = false := by
  cases r with
  | nil => rfl
  | cons c r =>
    simp only [nextIs] at h ⊢
    cases h1 : isDigit c with
    | false => rfl
    | true => rw [isIdChar_of_isDigit h1] at h; simp at h

/-! ## loops -/

section Loops

variable {σ α : Type} {item : σ → Text → Option (σ × Text)} {tx : α → Text} {Inv : σ → List α → Prop} {Stop : Text → Prop}

/-- Reading items with separators between them. -/
theorem readSep_spec {sep : Char} (hsep : isSpace sep = false) {ws : Text} (hws : ∀ u, eatWhite (ws ++ u) = eatWhite u)
    (hcongr : ∀ s t u, eatWhite t = eatWhite u → item s t = item s u)
    (hitem : ∀ s x xs r, Inv s (x :: xs) → Stop r → ∃ s' r', item s (tx x ++ r) = some (s', r') ∧ Inv s' xs ∧ eatWhite r' = eatWhite r)
    (hstop : ∀ u, Stop (sep :: u)) {r : Text} (hr : Stop r) (hrs : peekChar sep r = false) :
    ∀ (xs : List α) (x : α) (fuel : ℕ) (s : σ) (t : Text), Inv s (x :: xs) → xs.length < fuel →
      eatWhite t = eatWhite (tx x ++ (xs.flatMap (fun y => sep :: (ws ++ tx y)) ++ r)) →
      ∃ s' r', readSep item sep fuel s t = some (s', r') ∧ Inv s' [] ∧ eatWhite r' = eatWhite r := by
  intro xs
  induction xs with
  | nil =>
    intro x fuel s t hInv hf ht
    obtain ⟨fuel, rfl⟩ : ∃ m, fuel = m + 1 := ⟨fuel - 1, by simp at hf; omega⟩
    obtain ⟨s', r', h1, h2, h3⟩ := hitem s x [] r hInv hr
    refine ⟨s', eatWhite r, ?_, h2, eatWhite_eatWhite r⟩
    have hm : matchChar sep r' = (false, eatWhite r) := by rw [matchChar_congr h3, matchChar_false hrs]
    simp only [readSep, hcongr s _ _ ht, List.flatMap_nil, List.nil_append, h1, hm]
  | cons y ys ih =>
    intro x fuel s t hInv hf ht
    obtain ⟨fuel, rfl⟩ : ∃ m, fuel = m + 1 := ⟨fuel - 1, by simp at hf; omega⟩
    obtain ⟨s', r', h1, h2, h3⟩ := hitem s x (y :: ys) _ hInv (hstop (ws ++ tx y ++ (ys.flatMap (fun y => sep :: (ws ++ tx y)) ++ r)))
    have hm : matchChar sep r' = (true, ws ++ tx y ++ (ys.flatMap (fun y => sep :: (ws ++ tx y)) ++ r)) := by
      rw [matchChar_congr h3, matchChar_cons, hsep]
      simp
    obtain ⟨s'', r'', g1, g2, g3⟩ := ih y fuel s' (ws ++ tx y ++ (ys.flatMap (fun y => sep :: (ws ++ tx y)) ++ r)) h2 (by simp at hf; omega)
      (by rw [List.append_assoc, hws])
    refine ⟨s'', r'', ?_, g2, g3⟩
    have ht' : eatWhite t = eatWhite (tx x ++ sep :: (ws ++ tx y ++ (ys.flatMap (fun y => sep :: (ws ++ tx y)) ++ r))) := by
      rw [ht]
      simp
    simp only [readSep, hcongr s _ _ ht', h1, hm, g1]

theorem length_le_flatMap (f : α → Text) (hf : ∀ x, f x ≠ []) (xs : List α) : xs.length ≤ (xs.flatMap f).length := by
  induction xs with
  | nil => simp
  | cons x xs ih =>
    rw [List.flatMap_cons, List.length_append, List.length_cons]
    have := List.length_pos_iff.2 (hf x)
    omega

/-- Reading items until a given character. -/
theorem readUntil_spec {stop : Char} (hcongr : ∀ s t u, eatWhite t = eatWhite u → item s t = item s u)
    {Good : α → Prop}
    (hitem : ∀ s x xs r, Inv s (x :: xs) → Stop r → ∃ s' r', item s (tx x ++ r) = some (s', r') ∧ Inv s' xs ∧ eatWhite r' = eatWhite r)
    (hstop : ∀ x u, Good x → Stop (tx x ++ u)) {r : Text} (hr : Stop r) (hns : ∀ x u, Good x → peekChar stop (tx x ++ u) = false) {r0 : Text}
    (hr0 : eatWhite r = stop :: r0) :
    ∀ (xs : List α) (fuel : ℕ) (s : σ) (t : Text), Inv s xs → (∀ x ∈ xs, Good x) → xs.length < fuel →
      eatWhite t = eatWhite (xs.flatMap tx ++ r) → ∃ s', readUntil item stop fuel s t = some (s', r0) ∧ Inv s' [] := by
  intro xs
  induction xs with
  | nil =>
    intro fuel s t hInv _ hf ht
    obtain ⟨fuel, rfl⟩ : ∃ m, fuel = m + 1 := ⟨fuel - 1, by simp at hf; omega⟩
    refine ⟨s, ?_, hInv⟩
    have hm : matchChar stop t = (true, r0) := by
      unfold matchChar
      rw [ht, List.flatMap_nil, List.nil_append, hr0]
      simp
    simp only [readUntil, hm]
  | cons x xs ih =>
    intro fuel s t hInv hg hf ht
    obtain ⟨fuel, rfl⟩ : ∃ m, fuel = m + 1 := ⟨fuel - 1, by simp at hf; omega⟩
    have hst : Stop (xs.flatMap tx ++ r) := by
      cases xs with
      | nil => exact hr
      | cons y ys =>
        rw [List.flatMap_cons, List.append_assoc]
        exact hstop y _ (hg y (by simp))
    obtain ⟨s', r', h1, h2, h3⟩ := hitem s x xs _ hInv hst
    obtain ⟨s'', g1, g2⟩ := ih fuel s' r' h2 (fun y hy => hg y (by simp [hy])) (by simp at hf; omega) h3
    refine ⟨s'', ?_, g2⟩
    have ht' : eatWhite t = eatWhite (tx x ++ (xs.flatMap tx ++ r)) := by rw [ht]; simp
    have hm : matchChar stop t = (false, eatWhite (tx x ++ (xs.flatMap tx ++ r))) := by
      rw [matchChar_congr ht', matchChar_false (hns x _ (hg x (by simp)))]
    simp only [readUntil, hm, hcongr s _ _ (eatWhite_eatWhite _), h1, g1]

/-- Reading a given number of items. -/
theorem readTimes_spec {Good : α → Prop}
    (hitem : ∀ s x xs r t, Inv s (x :: xs) → Stop r → eatWhite t = eatWhite (tx x ++ r) →
      ∃ s' r', item s t = some (s', r') ∧ Inv s' xs ∧ eatWhite r' = eatWhite r)
    (hstop : ∀ x u, Good x → Stop (tx x ++ u)) {r : Text} (hr : Stop r) :
    ∀ (xs : List α) (s : σ) (t : Text), Inv s xs → (∀ x ∈ xs, Good x) →
      eatWhite t = eatWhite (xs.flatMap tx ++ r) → ∃ s' r', readTimes item xs.length s t = some (s', r') ∧ Inv s' [] ∧ eatWhite r' = eatWhite r := by
  intro xs
  induction xs with
  | nil =>
    intro s t hInv _ ht
    exact ⟨s, t, rfl, hInv, by simpa using ht⟩
  | cons x xs ih =>
    intro s t hInv hg ht
    have hst : Stop (xs.flatMap tx ++ r) := by
      cases xs with
      | nil => exact hr
      | cons y ys =>
        rw [List.flatMap_cons, List.append_assoc]
        exact hstop y _ (hg y (by simp))
    obtain ⟨s', r', h1, h2, h3⟩ := hitem s x xs _ t hInv hst (by rw [ht]; simp)
    obtain ⟨s'', r'', g1, g2, g3⟩ := ih s' r' h2 (fun y hy => hg y (by simp [hy])) h3
    exact ⟨s'', r'', by simp only [readTimes, List.length_cons, h1, g1], g2, g3⟩

end Loops

end Frobby

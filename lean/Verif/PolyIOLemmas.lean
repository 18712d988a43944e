import Verif.IOFormatLemmas
import Verif.PolyIOModel

/-!
# Polynomials are read as they are written
-/

namespace Frobby

/-! ## powers -/

/-- What is known while the powers of a term are read; `xs` are the variables still to be read. -/
structure VecInv (e v xs : List ℕ) : Prop where
  length : v.length = e.length
  val : ∀ i, v.getD i 0 = if i ∈ xs then 0 else e.getD i 0
  nodup : xs.Nodup
  lt : ∀ i ∈ xs, i < e.length
  pos : ∀ i ∈ xs, e.getD i 0 ≠ 0

theorem VecInv.step {e v xs : List ℕ} {i : ℕ} (h : VecInv e v (i :: xs)) : VecInv e (v.set i (e.getD i 0)) xs := by
  have hnd := List.nodup_cons.1 h.nodup
  have hi : i < v.length := h.length ▸ h.lt i (by simp)
  refine ⟨by simpa using h.length, fun j => ?_, hnd.2, fun j hj => h.lt j (by simp [hj]), fun j hj => h.pos j (by simp [hj])⟩
  rw [getD_set _ _ _ _ hi]
  by_cases hj : j = i
  · subst hj
    simp [hnd.1]
  · rw [if_neg hj, h.val j]
    simp [hj]

theorem VecInv.done {e v : List ℕ} (h : VecInv e v []) : v = e := list_ext_getD h.length fun i => by simpa using h.val i

theorem VecInv.start {e : List ℕ} {n : ℕ} (hl : e.length = n) : VecInv e (List.replicate n 0) (nonZeros 0 e) := by
  refine ⟨by simp [hl], fun i => ?_, nodup_nonZeros _ _, fun i hi => ?_, fun i hi => ?_⟩
  · have h1 : (List.replicate n 0).getD i 0 = 0 := by
      rw [List.getD_eq_getElem?_getD, List.getElem?_replicate]
      split <;> rfl
    rw [h1]
    split
    · rfl
    · rename_i h
      rw [mem_nonZeros] at h
      simp only [Nat.zero_le, Nat.sub_zero, true_and, ne_eq, not_not] at h
      exact h.symm
  · rw [mem_nonZeros] at hi
    by_contra hlt
    refine hi.2 ?_
    simp only [Nat.sub_zero]
    exact List.getD_eq_default _ _ (by omega)
  · rw [mem_nonZeros] at hi
    simpa using hi.2

theorem readExponent_congr {i : ℕ} {v : List ℕ} {t u : Text} (h : eatWhite t = eatWhite u) : readExponent i v t = readExponent i v u := by
  unfold readExponent
  rw [matchChar_congr h]

theorem readExponent_spec {e v xs : List ℕ} {i : ℕ} (h : VecInv e v (i :: xs)) {r t : Text} (hr : nextIs isDigit r = false)
    (hr' : peekChar '^' r = false) (ht : eatWhite t = eatWhite ((if e.getD i 0 = 1 then [] else '^' :: decimal (e.getD i 0)) ++ r)) :
    ∃ r', readExponent i v t = some (v.set i (e.getD i 0), r') ∧ eatWhite r' = eatWhite r := by
  have h0 : v.getD i 0 = 0 := by rw [h.val i, if_pos (by simp)]
  have hp : e.getD i 0 ≠ 0 := h.pos i (by simp)
  rw [readExponent_congr ht]
  unfold readExponent
  rw [h0]
  simp only [ne_eq, not_true, if_false]
  generalize e.getD i 0 = a at hp ⊢
  by_cases h1 : a = 1
  · subst h1
    refine ⟨eatWhite r, ?_, eatWhite_eatWhite r⟩
    simp only [if_true, List.nil_append, matchChar_false hr']
  · refine ⟨r, ?_, rfl⟩
    have hs : isSpace '^' = false := by decide
    simp only [h1, if_false, List.cons_append, matchChar_cons, hs, Bool.false_eq_true, if_true, readInteger_decimal a hr]
    simp [hp]

theorem readVarPower_congr {names : List Text} {v : List ℕ} {t u : Text} (h : eatWhite t = eatWhite u) :
    readVarPower names v t = readVarPower names v u := by
  unfold readVarPower
  rw [readIdentifier_congr h]

theorem readVarPower_spec {names : List Text} (hn : ValidNames names) {e v xs : List ℕ} {i : ℕ} (hl : e.length = names.length)
    (h : VecInv e v (i :: xs)) {r t : Text} (hr : PowerStop r) (ht : eatWhite t = eatWhite (powerText names e i ++ r)) :
    ∃ v' r', readVarPower names v t = some (v', r') ∧ VecInv e v' xs ∧ eatWhite r' = eatWhite r := by
  have hi := hn.getD (hl ▸ h.lt i (by simp))
  obtain ⟨r', g1, g2⟩ := readExponent_spec h (nextIs_isDigit hr.1) hr.2 rfl
  refine ⟨_, r', ?_, h.step, g2⟩
  rw [readVarPower_congr ht]
  unfold readVarPower powerText writePower
  rw [List.append_assoc, hi.1.readIdentifier (nextIs_power hr.1)]
  simp only [hi.2]
  exact g1

theorem readVarPowerCoCoA_congr {v : List ℕ} {t u : Text} (h : eatWhite t = eatWhite u) : readVarPowerCoCoA v t = readVarPowerCoCoA v u := by
  unfold readVarPowerCoCoA
  rw [expectChar_congr h]

theorem readVarPowerCoCoA_spec {e v xs : List ℕ} {i : ℕ} (hbig : e.length < 2 ^ 64)
    (h : VecInv e v (i :: xs)) {r t : Text} (hr : PowerStopCoCoA r) (ht : eatWhite t = eatWhite (powerTextCoCoA e i ++ r)) :
    ∃ v' r', readVarPowerCoCoA v t = some (v', r') ∧ VecInv e v' xs ∧ eatWhite r' = eatWhite r := by
  have hi := h.lt i (by simp)
  have hl := h.length
  obtain ⟨r', g1, g2⟩ := readExponent_spec h hr.1 hr.2 rfl
  refine ⟨_, r', ?_, h.step, g2⟩
  have e1 : (expectChar 'x' t).bind (expectChar '[') = some (decimal (i + 1) ++ (']' :: ((if e.getD i 0 = 1 then [] else '^' :: decimal (e.getD i 0)) ++ r))) := by
    rw [expectChar_congr ht]
    unfold powerTextCoCoA
    simp [expectChar_cons, isSpace]
  have e2 : expectChar ']' (']' :: ((if e.getD i 0 = 1 then [] else '^' :: decimal (e.getD i 0)) ++ r)) =
      some ((if e.getD i 0 = 1 then [] else '^' :: decimal (e.getD i 0)) ++ r) := by
    simp [expectChar_cons, isSpace]
  unfold readVarPowerCoCoA
  rw [e1]
  simp only
  rw [readSizeT_decimal (n := i + 1) (by omega) (by simp [nextIs, isDigit])]
  simp only
  rw [if_neg (by omega), e2]
  exact g1

/-! ## loops -/

theorem readWhileStar_spec {σ α : Type} {item : σ → Text → Option (σ × Text)} {tx : α → Text} {Inv : σ → List α → Prop} {Stop : Text → Prop}
    (hitem : ∀ s x xs r t, Inv s (x :: xs) → Stop r → eatWhite t = eatWhite (tx x ++ r) →
      ∃ s' r', item s t = some (s', r') ∧ Inv s' xs ∧ eatWhite r' = eatWhite r)
    (hstop : ∀ u, Stop ('*' :: u)) {r : Text} (hr : Stop r) (hrs : peekChar '*' r = false) :
    ∀ (xs : List α) (fuel : ℕ) (s : σ) (t : Text), Inv s xs → xs.length < fuel →
      eatWhite t = eatWhite (xs.flatMap (fun y => '*' :: tx y) ++ r) →
      ∃ s' r', readWhileStar item fuel s t = some (s', r') ∧ Inv s' [] ∧ eatWhite r' = eatWhite r := by
  intro xs
  induction xs with
  | nil =>
    intro fuel s t hInv hf ht
    obtain ⟨fuel, rfl⟩ : ∃ m, fuel = m + 1 := ⟨fuel - 1, by simp at hf; omega⟩
    refine ⟨s, eatWhite r, ?_, hInv, eatWhite_eatWhite r⟩
    have hm : matchChar '*' t = (false, eatWhite r) := by rw [matchChar_congr ht, List.flatMap_nil, List.nil_append, matchChar_false hrs]
    simp only [readWhileStar, hm]
  | cons x xs ih =>
    intro fuel s t hInv hf ht
    obtain ⟨fuel, rfl⟩ : ∃ m, fuel = m + 1 := ⟨fuel - 1, by simp at hf; omega⟩
    have hst : Stop (xs.flatMap (fun y => '*' :: tx y) ++ r) := by
      cases xs with
      | nil => exact hr
      | cons y ys =>
        rw [List.flatMap_cons, List.cons_append, List.cons_append]
        exact hstop _
    have hm : matchChar '*' t = (true, tx x ++ (xs.flatMap (fun y => '*' :: tx y) ++ r)) := by
      rw [matchChar_congr ht, List.flatMap_cons, List.cons_append, List.cons_append, matchChar_cons, List.append_assoc]
      simp [isSpace]
    obtain ⟨s', r', h1, h2, h3⟩ := hitem s x xs _ _ hInv hst rfl
    obtain ⟨s'', r'', g1, g2, g3⟩ := ih fuel s' r' h2 (by simp at hf; omega) h3
    exact ⟨s'', r'', by simp only [readWhileStar, hm, h1, g1], g2, g3⟩

theorem readWhilePeekX_spec {σ α : Type} {item : σ → Text → Option (σ × Text)} {tx : α → Text} {Inv : σ → List α → Prop} {Stop : Text → Prop}
    (hitem : ∀ s x xs r t, Inv s (x :: xs) → Stop r → eatWhite t = eatWhite (tx x ++ r) →
      ∃ s' r', item s t = some (s', r') ∧ Inv s' xs ∧ eatWhite r' = eatWhite r)
    (hstop : ∀ x u, Stop (tx x ++ u)) (hx : ∀ x u, peekChar 'x' (tx x ++ u) = true) {r : Text} (hr : Stop r) (hrx : peekChar 'x' r = false) :
    ∀ (xs : List α) (fuel : ℕ) (s : σ) (t : Text), Inv s xs → xs.length < fuel →
      eatWhite t = eatWhite (xs.flatMap tx ++ r) →
      ∃ s' r', readWhilePeekX item fuel s t = some (s', r') ∧ Inv s' [] ∧ eatWhite r' = eatWhite r := by
  intro xs
  induction xs with
  | nil =>
    intro fuel s t hInv hf ht
    obtain ⟨fuel, rfl⟩ : ∃ m, fuel = m + 1 := ⟨fuel - 1, by simp at hf; omega⟩
    refine ⟨s, t, ?_, hInv, by simpa using ht⟩
    simp only [readWhilePeekX, peekChar_congr ht, List.flatMap_nil, List.nil_append, hrx, Bool.false_eq_true, if_false]
  | cons x xs ih =>
    intro fuel s t hInv hf ht
    obtain ⟨fuel, rfl⟩ : ∃ m, fuel = m + 1 := ⟨fuel - 1, by simp at hf; omega⟩
    rw [List.flatMap_cons, List.append_assoc] at ht
    have hst : Stop (xs.flatMap tx ++ r) := by
      cases xs with
      | nil => exact hr
      | cons y ys =>
        rw [List.flatMap_cons, List.append_assoc]
        exact hstop _ _
    obtain ⟨s', r', h1, h2, h3⟩ := hitem s x xs _ t hInv hst ht
    obtain ⟨s'', r'', g1, g2, g3⟩ := ih fuel s' r' h2 (by simp at hf; omega) h3
    exact ⟨s'', r'', by simp only [readWhilePeekX, peekChar_congr ht, hx, if_true, h1, g1], g2, g3⟩

/-! ## terms without sign -/

/-- Terms without sign, with the given text of a product. -/
def absText (star prod : Text) (a : ℕ) (e : List ℕ) : Text :=
  if nonZeros 0 e = [] then decimal a else (if a = 1 then [] else decimal a ++ star) ++ prod

theorem peekIdentifier_decimal (n : ℕ) (r : Text) : peekIdentifier (decimal n ++ r) = false := by
  obtain ⟨c, l, h, hc⟩ := decimal_cons n
  rw [h, List.cons_append, peekIdentifier_cons, isSpace_of_isDigit hc, isAlpha_of_isDigit hc]
  rfl

theorem length_eatWhite_le (t : Text) : (eatWhite t).length ≤ t.length := (List.dropWhile_sublist _).length_le

/-- The length of a text is enough for a loop. -/
theorem fuel_enough {α : Type} (f : α → Text) (hf : ∀ x, ∃ c l, f x = c :: l ∧ isSpace c = false) (xs : List α) {t r : Text}
    (h : eatWhite t = eatWhite (xs.flatMap f ++ r)) : xs.length < t.length + 1 := by
  cases xs with
  | nil => simp
  | cons x xs =>
    obtain ⟨c, l, hc, hs⟩ := hf x
    have h1 := length_le_flatMap f (fun x => by obtain ⟨c, l, h, _⟩ := hf x; simp [h]) (x :: xs)
    have h2 : eatWhite ((x :: xs).flatMap f ++ r) = (x :: xs).flatMap f ++ r := by
      rw [List.flatMap_cons, hc]
      simp [eatWhite_cons, hs]
    have h3 := length_eatWhite_le t
    rw [h, h2, List.length_append] at h3
    exact lt_of_le_of_lt (le_trans h1 (le_trans (Nat.le_add_right _ _) h3)) (Nat.lt_succ_self _)

theorem powerText_cons {names : List Text} (hn : ValidNames names) (e : List ℕ) {i : ℕ} (hi : i < names.length) :
    ∃ c l, powerText names e i = c :: l ∧ isAlpha c = true := by
  obtain ⟨c, l, h, ha, _⟩ := (hn.getD hi).1
  exact ⟨c, l ++ if e.getD i 0 = 1 then [] else '^' :: decimal (e.getD i 0), by unfold powerText writePower; rw [h]; rfl, ha⟩

theorem readCoefBody_congr {names : List Text} {t u : Text} (h : eatWhite t = eatWhite u) : readCoefBody names t = readCoefBody names u := by
  unfold readCoefBody
  rw [peekIdentifier_congr h, readVarPower_congr h, readInteger_congr h]

theorem powerStop_star (u : Text) : PowerStop ('*' :: u) := ⟨by simp [nextIs, isIdChar, isAlpha, isDigit], by simp [peekChar_cons, isSpace]⟩

theorem readCoefBody_spec {names : List Text} (hn : ValidNames names) {e : List ℕ} (hl : e.length = names.length) (a : ℕ) {r t : Text}
    (hr : TermStop r) (ht : eatWhite t = eatWhite (absText t!"*" (writeTermProduct names e) a e ++ r)) :
    ∃ r', readCoefBody names t = some (((a : ℤ), e), r') ∧ eatWhite r' = eatWhite r := by
  rw [readCoefBody_congr ht]
  have hw := (writePowers_eq (names := names) (e := e) e names 0 (fun j => by simp) (fun j => by simp) hl.symm).2
  have hstart := VecInv.start (e := e) hl
  have hloop : ∀ (xs v : List ℕ) (t : Text), VecInv e v xs → eatWhite t = eatWhite (xs.flatMap (fun j => '*' :: powerText names e j) ++ r) →
      ∃ r', readWhileStar (readVarPower names) (t.length + 1) v t = some (e, r') ∧ eatWhite r' = eatWhite r := by
    intro xs v t hInv ht
    obtain ⟨s', r', g1, g2, g3⟩ := readWhileStar_spec (item := readVarPower names) (tx := powerText names e) (Inv := VecInv e) (Stop := PowerStop)
      (fun s x xs r t hInv hr ht => readVarPower_spec hn hl hInv hr ht) powerStop_star hr.1 hr.2 xs (t.length + 1) v t hInv
      (fuel_enough _ (fun x => ⟨'*', _, rfl, by decide⟩) xs ht) ht
    exact ⟨r', by rw [g1, g2.done], g3⟩
  unfold absText readCoefBody
  unfold writeTermProduct
  rw [hw]
  cases hz : nonZeros 0 e with
  | nil =>
    rw [hz] at hstart
    obtain ⟨r', g1, g2⟩ := hloop [] _ r hstart rfl
    refine ⟨r', ?_, g2⟩
    simp only [if_true, peekIdentifier_decimal, Bool.false_eq_true, if_false]
    rw [readInteger_decimal a (nextIs_isDigit hr.1.1)]
    simp [g1]
  | cons j js =>
    rw [hz] at hstart
    have hj := powerText_cons hn e (hl ▸ hstart.lt j (by simp))
    simp only [reduceCtorEq, if_false]
    by_cases ha : a = 1
    · subst ha
      have hst : PowerStop (js.flatMap (fun j => '*' :: ([] ++ powerText names e j)) ++ r) := by
        cases js with
        | nil => exact hr.1
        | cons y ys => rw [List.flatMap_cons, List.cons_append, List.cons_append]; exact powerStop_star _
      obtain ⟨v', r', f1, f2, f3⟩ := readVarPower_spec hn hl hstart hst
        (t := powerText names e j ++ (js.flatMap (fun j => '*' :: ([] ++ powerText names e j)) ++ r)) rfl
      obtain ⟨r'', g1, g2⟩ := hloop js v' r' f2 f3
      refine ⟨r'', ?_, g2⟩
      have hp : peekIdentifier (powerText names e j ++ (js.flatMap (fun j => '*' :: ([] ++ powerText names e j)) ++ r)) = true := by
        obtain ⟨c, l, h, hc⟩ := hj
        rw [h, List.cons_append, peekIdentifier_cons, isSpace_of_isAlpha hc, hc]
        rfl
      simp only [if_true, List.nil_append, List.append_assoc]
      simp only [List.nil_append] at hp f1
      rw [hp, f1]
      simp [g1]
    · obtain ⟨r', g1, g2⟩ := hloop (j :: js) _ ((j :: js).flatMap (fun j => '*' :: powerText names e j) ++ r) hstart rfl
      refine ⟨r', ?_, g2⟩
      simp only [ha, if_false, List.append_assoc, peekIdentifier_decimal, Bool.false_eq_true]
      rw [readInteger_decimal a (by simp [nextIs, isDigit])]
      simp only [List.flatMap_cons, List.cons_append, List.append_assoc] at g1
      simp only [Option.bind_eq_bind, Option.map_some, Option.bind_some, List.cons_append, List.nil_append]
      rw [g1]
      rfl

theorem readCoefBodyCoCoA_congr {names : List Text} {t u : Text} (h : eatWhite t = eatWhite u) : readCoefBodyCoCoA names t = readCoefBodyCoCoA names u := by
  unfold readCoefBodyCoCoA
  rw [peekIdentifier_congr h, readVarPowerCoCoA_congr h, readInteger_congr h]

/-- What can follow a term of CoCoA 4. -/
def TermStopCoCoA (r : Text) : Prop := PowerStopCoCoA r ∧ peekChar 'x' r = false

theorem powerStop_powerTextCoCoA (e : List ℕ) (x : ℕ) (u : Text) : PowerStopCoCoA (powerTextCoCoA e x ++ u) := by
  simp [PowerStopCoCoA, powerTextCoCoA, nextIs, isDigit, peekChar_cons, isSpace]

theorem readCoefBodyCoCoA_spec {names : List Text} (hbig : names.length < 2 ^ 64) {e : List ℕ} (hl : e.length = names.length) (a : ℕ) {r t : Text}
    (hr : TermStopCoCoA r) (ht : eatWhite t = eatWhite (absText [] (writeTermCoCoA e) a e ++ r)) :
    ∃ r', readCoefBodyCoCoA names t = some (((a : ℤ), e), r') ∧ eatWhite r' = eatWhite r := by
  rw [readCoefBodyCoCoA_congr ht]
  have hw := (writePowersCoCoA_eq (e := e) e 0 (fun j => by simp)).2
  have hstart := VecInv.start (e := e) hl
  have hloop : ∀ (xs v : List ℕ) (t : Text), VecInv e v xs → eatWhite t = eatWhite (xs.flatMap (powerTextCoCoA e) ++ r) →
      ∃ r', readWhilePeekX readVarPowerCoCoA (t.length + 1) v t = some (e, r') ∧ eatWhite r' = eatWhite r := by
    intro xs v t hInv ht
    obtain ⟨s', r', g1, g2, g3⟩ := readWhilePeekX_spec (item := readVarPowerCoCoA) (tx := powerTextCoCoA e) (Inv := VecInv e) (Stop := PowerStopCoCoA)
      (fun s x xs r t hInv hr ht => readVarPowerCoCoA_spec (hl ▸ hbig) hInv hr ht) (powerStop_powerTextCoCoA e)
      (fun x u => by simp [powerTextCoCoA, peekChar_cons, isSpace]) hr.1 hr.2 xs (t.length + 1) v t hInv
      (fuel_enough _ (fun x => ⟨'x', _, rfl, by decide⟩) xs ht) ht
    exact ⟨r', by rw [g1, g2.done], g3⟩
  unfold absText readCoefBodyCoCoA
  unfold writeTermCoCoA
  rw [hw]
  cases hz : nonZeros 0 e with
  | nil =>
    rw [hz] at hstart
    obtain ⟨r', g1, g2⟩ := hloop [] _ r hstart rfl
    refine ⟨r', ?_, g2⟩
    simp only [if_true, peekIdentifier_decimal, Bool.false_eq_true, if_false]
    rw [readInteger_decimal a hr.1.1]
    simp [g1]
  | cons j js =>
    rw [hz] at hstart
    simp only [reduceCtorEq, if_false]
    by_cases ha : a = 1
    · subst ha
      have hst : PowerStopCoCoA (js.flatMap (powerTextCoCoA e) ++ r) := by
        cases js with
        | nil => exact hr.1
        | cons y ys => rw [List.flatMap_cons, List.append_assoc]; exact powerStop_powerTextCoCoA _ _ _
      obtain ⟨v', r', f1, f2, f3⟩ := readVarPowerCoCoA_spec (hl ▸ hbig) hstart hst
        (t := powerTextCoCoA e j ++ (js.flatMap (powerTextCoCoA e) ++ r)) rfl
      obtain ⟨r'', g1, g2⟩ := hloop js v' r' f2 f3
      refine ⟨r'', ?_, g2⟩
      have hp : peekIdentifier (powerTextCoCoA e j ++ (js.flatMap (powerTextCoCoA e) ++ r)) = true := by
        simp [powerTextCoCoA, peekIdentifier_cons, isSpace, isAlpha]
      simp only [if_true, List.nil_append, List.append_assoc]
      rw [hp, f1]
      simp [g1]
    · obtain ⟨r', g1, g2⟩ := hloop (j :: js) _ ((j :: js).flatMap (powerTextCoCoA e) ++ r) hstart rfl
      refine ⟨r', ?_, g2⟩
      simp only [ha, if_false, List.append_assoc, peekIdentifier_decimal, Bool.false_eq_true, List.nil_append]
      rw [readInteger_decimal a (by simp [powerTextCoCoA, nextIs, isDigit])]
      simp only [List.flatMap_cons, List.append_assoc] at g1
      simp only [Option.bind_eq_bind, Option.map_some, Option.bind_some]
      rw [g1]
      rfl

/-! ## signs -/

/-- Texts that do not begin with a sign. -/
def NoSign (u : Text) : Prop := peekChar '+' u = false ∧ peekChar '-' u = false

theorem matchChar_sign {t u : Text} {c : Char} (hc : isSpace c = false) (h : eatWhite t = eatWhite (c :: u)) : matchChar c t = (true, u) := by
  rw [matchChar_congr h, matchChar_cons, hc]
  simp

theorem matchChar_other {t u : Text} {c d : Char} (hd : isSpace d = false) (hcd : c ≠ d) (h : eatWhite t = eatWhite (d :: u)) : (matchChar c t).1 = false := by
  rw [matchChar_congr h, matchChar_cons, hd]
  have : ¬ d = c := fun h => hcd h.symm
  simp [this]

/-- What is written for the sign of a term, up to white space. -/
inductive SignText : (first positive : Bool) → (t u : Text) → Prop
  | firstMinus {t u : Text} (h : eatWhite t = eatWhite ('-' :: u)) : SignText true false t u
  | firstPlus {t u : Text} (h : eatWhite t = eatWhite u) : SignText true true t u
  | plusMinus {t t' u : Text} (h : eatWhite t = eatWhite ('+' :: t')) (h' : eatWhite t' = eatWhite ('-' :: u)) : SignText false false t u
  | plus {t t' u : Text} (h : eatWhite t = eatWhite ('+' :: t')) (h' : eatWhite t' = eatWhite u) : SignText false true t u
  | minus {t u : Text} (h : eatWhite t = eatWhite ('-' :: u)) : SignText false false t u

theorem readSign_spec {first positive : Bool} {t u : Text} (h : SignText first positive t u) (hu : NoSign u) :
    ∃ r, readSign first t = some (positive, r) ∧ eatWhite r = eatWhite u := by
  obtain ⟨hp, hm⟩ := hu
  cases h with
  | firstMinus h => exact ⟨u, by simp [readSign, matchChar_sign (c := '-') (by decide) h, hp, hm], rfl⟩
  | firstPlus h =>
    have h1 : matchChar '-' t = (false, eatWhite u) := by rw [matchChar_congr h, matchChar_false hm]
    exact ⟨t, by simp [readSign, h1, peekChar_congr h, hp, hm], h⟩
  | plusMinus h h' =>
    exact ⟨u, by simp [readSign, matchChar_sign (c := '+') (by decide) h, matchChar_sign (c := '-') (by decide) h', hp, hm], rfl⟩
  | @plus t t' u h h' =>
    have h1 : matchChar '-' t' = (false, eatWhite u) := by rw [matchChar_congr h', matchChar_false hm]
    refine ⟨eatWhite u, ?_, eatWhite_eatWhite u⟩
    simp [readSign, matchChar_sign (c := '+') (by decide) h, h1, peekChar_congr (eatWhite_eatWhite u), hp, hm]
  | minus h =>
    exact ⟨u, by simp [readSign, matchChar_other (c := '+') (by decide) (by decide) h, matchChar_sign (c := '-') (by decide) h, hp, hm], rfl⟩

theorem readSigned_spec {body : Text → Option ((ℤ × List ℕ) × Text)} {c : ℤ} {e : List ℕ} {u r : Text}
    (hbody : ∀ t, eatWhite t = eatWhite u → ∃ r', body t = some (((c.natAbs : ℤ), e), r') ∧ eatWhite r' = eatWhite r) (hu : NoSign u)
    {first : Bool} {t : Text} (ht : SignText first (decide (0 ≤ c)) t u) :
    ∃ r', readSigned body first t = some ((c, e), r') ∧ eatWhite r' = eatWhite r := by
  obtain ⟨r1, h1, h2⟩ := readSign_spec ht hu
  obtain ⟨r', h3, h4⟩ := hbody r1 h2
  refine ⟨r', ?_, h4⟩
  simp only [readSigned, h1, h3, Option.map_some]
  have : (if decide (0 ≤ c) = true then (c.natAbs : ℤ) else -(c.natAbs : ℤ)) = c := by
    split <;> rename_i h <;> simp only [decide_eq_true_eq] at h <;> omega
  rw [this]

theorem noSign_decimal (a : ℕ) (r : Text) : NoSign (decimal a ++ r) := ⟨peekChar_decimal (by decide) _ _, peekChar_decimal (by decide) _ _⟩

theorem noSign_alpha {c : Char} (hc : isAlpha c = true) (r : Text) : NoSign (c :: r) := by
  have h1 : c ≠ '+' := by rintro rfl; simp [isAlpha] at hc
  have h2 : c ≠ '-' := by rintro rfl; simp [isAlpha] at hc
  simp [NoSign, peekChar_cons, isSpace_of_isAlpha hc, h1, h2]

theorem noSign_absText {star prod : Text} {a : ℕ} {e : List ℕ} (h : nonZeros 0 e ≠ [] → ∃ c l, prod = c :: l ∧ isAlpha c = true) (r : Text) :
    NoSign (absText star prod a e ++ r) := by
  unfold absText
  split
  · exact noSign_decimal a r
  · rename_i hz
    obtain ⟨c, l, hc, ha⟩ := h hz
    split
    · rw [hc]
      exact noSign_alpha ha _
    · simp only [List.append_assoc]
      exact noSign_decimal a _

theorem all_iff_nonZeros (e : List ℕ) : e.all (fun a => decide (a = 0)) = true ↔ nonZeros 0 e = [] := by
  have := any_iff_nonZeros e
  rw [← not_iff_not, ← ne_eq (nonZeros 0 e), ← this]
  simp

/-- The text of a coefficient and a product is a sign and a text without sign. -/
theorem coefText_eq (star prod : Text) (c : ℤ) (e : List ℕ) :
    (if e.all (fun a => decide (a = 0)) then decimalInt c
      else (if c = -1 then t!"-" else if c ≠ 1 then decimalInt c ++ star else []) ++ prod) =
    (if 0 ≤ c then [] else t!"-") ++ absText star prod c.natAbs e := by
  unfold absText
  by_cases hz : nonZeros 0 e = []
  · rw [if_pos ((all_iff_nonZeros e).2 hz), if_pos hz, decimalInt]
    by_cases h : 0 ≤ c
    · rw [if_neg (by omega), if_pos h]; rfl
    · rw [if_pos (by omega), if_neg h]; rfl
  · rw [if_neg (fun h => hz ((all_iff_nonZeros e).1 h)), if_neg hz]
    by_cases h : 0 ≤ c
    · rw [if_neg (by omega), if_pos h]
      by_cases h1 : c = 1
      · subst h1; rfl
      · rw [if_pos h1, if_neg (by omega), decimalInt, if_neg (by omega)]
        rfl
    · rw [if_neg h]
      by_cases h1 : c = -1
      · subst h1; rfl
      · rw [if_neg h1, if_pos (by omega), if_neg (by omega), decimalInt, if_pos (by omega)]
        simp

/-! ## terms -/

/-- The terms are read as they are written. -/
def PolyReads (names : List Text) (item : Bool → Text → Option ((ℤ × List ℕ) × Text)) (tx : Bool → ℤ × List ℕ → Text) (Stop : Text → Prop) : Prop :=
  ∀ (first : Bool) (p : ℤ × List ℕ) (r t : Text), p.2.length = names.length → Stop r → eatWhite t = eatWhite (tx first p ++ r) →
    ∃ r', item first t = some (p, r') ∧ eatWhite r' = eatWhite r

theorem writeTermProduct_alpha {names : List Text} (hn : ValidNames names) {e : List ℕ} (hl : e.length = names.length) (hz : nonZeros 0 e ≠ []) :
    ∃ c l, writeTermProduct names e = c :: l ∧ isAlpha c = true := by
  have hw := (writePowers_eq (names := names) (e := e) e names 0 (fun j => by simp) (fun j => by simp) hl.symm).2
  have hstart := VecInv.start (e := e) hl
  unfold writeTermProduct
  rw [hw]
  cases h : nonZeros 0 e with
  | nil => exact absurd h hz
  | cons j js =>
    rw [h] at hstart
    obtain ⟨c, l, h1, h2⟩ := powerText_cons hn e (hl ▸ hstart.lt j (by simp))
    refine ⟨c, l ++ js.flatMap (fun j => '*' :: ([] ++ powerText names e j)), ?_, h2⟩
    simp only [h1, List.cons_append]

theorem writeTermCoCoA_alpha {e : List ℕ} (hz : nonZeros 0 e ≠ []) : ∃ c l, writeTermCoCoA e = c :: l ∧ isAlpha c = true := by
  have hw := (writePowersCoCoA_eq (e := e) e 0 (fun j => by simp)).2
  unfold writeTermCoCoA
  rw [hw]
  cases h : nonZeros 0 e with
  | nil => exact absurd h hz
  | cons j js => exact ⟨'x', _, rfl, by decide⟩

theorem signText_of_hidden {c : ℤ} {u t : Text} (ht : eatWhite t = eatWhite ((if 0 ≤ c then [] else t!"-") ++ u)) :
    SignText true (decide (0 ≤ c)) t u := by
  by_cases h : 0 ≤ c
  · rw [decide_eq_true h]
    exact .firstPlus (by rw [ht, if_pos h]; rfl)
  · rw [decide_eq_false h]
    exact .firstMinus (by rw [ht, if_neg h]; rfl)

theorem signText_of_plus {c : ℤ} {u t t' : Text} (ht : eatWhite t = eatWhite ('+' :: t')) (ht' : eatWhite t' = eatWhite ((if 0 ≤ c then [] else t!"-") ++ u)) :
    SignText false (decide (0 ≤ c)) t u := by
  by_cases h : 0 ≤ c
  · rw [decide_eq_true h]
    exact .plus ht (by rw [ht', if_pos h]; rfl)
  · rw [decide_eq_false h]
    exact .plusMinus ht (by rw [ht', if_neg h]; rfl)

theorem signText_of_shown {c : ℤ} {u t : Text} (ht : eatWhite t = eatWhite ((if 0 ≤ c then t!"+" else t!"-") ++ u)) :
    SignText false (decide (0 ≤ c)) t u := by
  by_cases h : 0 ≤ c
  · rw [decide_eq_true h]
    exact .plus (by rw [ht, if_pos h]; rfl) rfl
  · rw [decide_eq_false h]
    exact .minus (by rw [ht, if_neg h]; rfl)

theorem polyReads_m2 {names : List Text} (hn : ValidNames names) :
    PolyReads names (readCoefTerm names) (fun first p => writePolyTerm false names first p .m2) TermStop := by
  intro first p r t hl hr ht
  refine readSigned_spec (u := absText t!"*" (writeTermProduct names p.2) p.1.natAbs p.2 ++ r) (fun t ht => readCoefBody_spec hn hl _ hr ht)
    (noSign_absText (writeTermProduct_alpha hn hl) r) ?_
  simp only [writePolyTerm, writeCoefTerm, writeProduct, coefText_eq, Bool.true_eq_false, and_false, Bool.false_eq_true, if_false, List.nil_append] at ht
  cases first with
  | true =>
    refine signText_of_hidden ?_
    rw [ht]
    simp [eatWhite_cons, isSpace]
  | false =>
    refine signText_of_plus (t' := t!"\n " ++ (if 0 ≤ p.1 then [] else t!"-") ++ (absText t!"*" (writeTermProduct names p.2) p.1.natAbs p.2 ++ r)) ?_ ?_
    · rw [ht]
      simp [eatWhite_cons, isSpace]
    · simp [eatWhite_cons, isSpace]

theorem sign_text (first : Bool) (c : ℤ) : (if 0 ≤ c ∧ first = false then t!"+" else []) ++ (if 0 ≤ c then [] else t!"-") =
    if first then (if 0 ≤ c then [] else t!"-") else (if 0 ≤ c then t!"+" else t!"-") := by
  cases first <;> by_cases h : 0 ≤ c <;> simp [h]

theorem polyReads_singular {names : List Text} (hn : ValidNames names) :
    PolyReads names (readCoefTerm names) (fun first p => writePolyTerm false names first p .singular) TermStop := by
  intro first p r t hl hr ht
  refine readSigned_spec (u := absText t!"*" (writeTermProduct names p.2) p.1.natAbs p.2 ++ r) (fun t ht => readCoefBody_spec hn hl _ hr ht)
    (noSign_absText (writeTermProduct_alpha hn hl) r) ?_
  simp only [writePolyTerm, writeCoefTerm, writeProduct, coefText_eq, Bool.false_eq_true, if_false] at ht
  rw [← List.append_assoc (if 0 ≤ p.1 ∧ first = false then t!"+" else []), sign_text] at ht
  cases first with
  | true => exact signText_of_hidden (by rw [ht]; simp [eatWhite_cons, isSpace])
  | false => exact signText_of_shown (by rw [ht]; simp [eatWhite_cons, isSpace])

theorem polyReads_cocoa {names : List Text} (hbig : names.length < 2 ^ 64) :
    PolyReads names (readCoefTermCoCoA names) (fun first p => writePolyTerm false names first p .cocoa4) TermStopCoCoA := by
  intro first p r t hl hr ht
  refine readSigned_spec (u := absText [] (writeTermCoCoA p.2) p.1.natAbs p.2 ++ r) (fun t ht => readCoefBodyCoCoA_spec hbig hl _ hr ht)
    (noSign_absText writeTermCoCoA_alpha r) ?_
  have he := coefText_eq [] (writeTermCoCoA p.2) p.1 p.2
  simp only [List.append_nil] at he
  simp only [writePolyTerm, writeCoefTermCoCoA, writeProductCoCoA, Bool.false_eq_true, if_false, he] at ht
  rw [← List.append_assoc (if 0 ≤ p.1 ∧ first = false then t!"+" else []), sign_text] at ht
  cases first with
  | true => exact signText_of_hidden (by rw [ht]; simp [eatWhite_cons, isSpace])
  | false => exact signText_of_shown (by rw [ht]; simp [eatWhite_cons, isSpace])

end Frobby

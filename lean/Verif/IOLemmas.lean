import Verif.IOModel
import Verif.ScanLemmas
import Verif.VarNamesLemmas
import Mathlib.Data.List.GetD

/-!
# Lemmas about reading what was written
-/

namespace Frobby

/-! ## one power -/

theorem List.set_of_getD_eq {g : List ℕ} {i e : ℕ} (h : g.getD i 0 = e) : g.set i e = g := by
  by_cases hi : i < g.length
  · rw [List.getD_eq_getElem _ _ hi] at h
    rw [← h]
    exact List.set_getElem_self hi
  · exact List.set_eq_of_length_le (by omega)

theorem setExponent_zero {k : InputConsumer} {i : ℕ} (h : k.exponent i = 0) : (k.setExponent i 0).gens = k.gens := by
  unfold InputConsumer.setExponent
  unfold InputConsumer.exponent at h
  cases hk : k.gens with
  | nil => rfl
  | cons g gs =>
    rw [hk] at h
    simp only at h ⊢
    rw [List.set_of_getD_eq h]

theorem consumeExponent_spec {sf : Bool} {k : InputConsumer} {i e : ℕ} (h0 : k.exponent i = 0) (hsf : sf = true → e ≤ 1) {r : Text}
    (hr : nextIs isDigit r = false) {t : Text} (ht : eatWhite t = eatWhite (decimal e ++ r)) :
    ∃ k' : InputConsumer, k.consumeExponent sf i t = some (k', r) ∧ k'.names = k.names ∧ k'.gens = (k.setExponent i e).gens := by
  unfold InputConsumer.consumeExponent
  rw [readIntegerStringNoSign_congr ht, readIntegerStringNoSign_decimal e hr]
  simp only [h0, if_true, digitsValue0_decimal, Option.map_some, decimal_eq_one_iff, decimal_eq_zero_iff]
  by_cases hb : k.big = true
  · exact ⟨k.setExponent i e, by simp [hb], rfl, rfl⟩
  · simp only [hb, if_false, Bool.false_eq_true]
    by_cases h1 : e = 1
    · subst h1
      exact ⟨k.setExponent i 1, by simp, rfl, rfl⟩
    · by_cases h2 : e = 0
      · subst h2
        exact ⟨k, by simp, rfl, (setExponent_zero h0).symm⟩
      · have : sf = false := by
          cases sf with
          | false => rfl
          | true => have := hsf rfl; omega
        exact ⟨{ k with big := true }.setExponent i e, by simp only [h1, h2, this, if_false, Bool.false_eq_true], rfl, rfl⟩

/-- A power as it is written after the variable. -/
theorem consumePower_spec {sf : Bool} {k : InputConsumer} {i e : ℕ} (h0 : k.exponent i = 0) (hsf : sf = true → e ≤ 1) {r : Text}
    (hr : nextIs isDigit r = false) (hc : peekChar '^' r = false) :
    ∃ (k' : InputConsumer) (r' : Text),
      (match matchChar '^' ((if e = 1 then [] else '^' :: decimal e) ++ r) with
        | (true, r') => k.consumeExponent sf i r'
        | (false, r') => (k.consumeOne i).map fun k' => (k', r')) = some (k', r') ∧
      k'.names = k.names ∧ k'.gens = (k.setExponent i e).gens ∧ eatWhite r' = eatWhite r := by
  by_cases h1 : e = 1
  · subst h1
    refine ⟨k.setExponent i 1, eatWhite r, ?_, rfl, rfl, eatWhite_eatWhite r⟩
    simp only [if_true, List.nil_append, matchChar_false hc, InputConsumer.consumeOne, h0, Option.map_some]
  · obtain ⟨k', g1, g2, g3⟩ := consumeExponent_spec (t := decimal e ++ r) h0 hsf hr rfl
    refine ⟨k', r, ?_, g2, g3, rfl⟩
    have hm : matchChar '^' ('^' :: (decimal e ++ r)) = (true, decimal e ++ r) := by
      rw [matchChar_cons]
      simp [isSpace]
    simp only [h1, if_false, List.cons_append, hm, g1]

theorem nextIs_power {e : ℕ} {r : Text} (hr : nextIs isIdChar r = false) :
    nextIs isIdChar ((if e = 1 then [] else '^' :: decimal e) ++ r) = false := by
  split
  · exact hr
  · simp [nextIs, isIdChar, isAlpha, isDigit]

theorem readPower_congr {sf : Bool} {k : InputConsumer} {t u : Text} (h : eatWhite t = eatWhite u) : k.readPower sf t = k.readPower sf u := by
  unfold InputConsumer.readPower
  rw [readIdentifier_congr h]

theorem readPower_spec {sf : Bool} {k : InputConsumer} {x : Text} {i e : ℕ} (hx : ValidName x) (hi : k.names.idxOf? x = some i) (h0 : k.exponent i = 0)
    (hsf : sf = true → e ≤ 1) {r : Text} (hr : nextIs isIdChar r = false) (hc : peekChar '^' r = false) :
    ∃ (k' : InputConsumer) (r' : Text), k.readPower sf (writePower x e ++ r) = some (k', r') ∧ k'.names = k.names ∧
      k'.gens = (k.setExponent i e).gens ∧ eatWhite r' = eatWhite r := by
  obtain ⟨k', r', h1, h2⟩ := consumePower_spec h0 hsf (nextIs_isDigit hr) hc
  refine ⟨k', r', ?_, h2⟩
  unfold InputConsumer.readPower writePower
  rw [List.append_assoc, hx.readIdentifier (nextIs_power hr)]
  simp only [hi]
  exact h1

/-! ## the powers that are written -/

/-- The numbers of the variables with non-zero exponents, from the variable `i`. -/
def nonZeros : ℕ → List ℕ → List ℕ
  | _, [] => []
  | i, e :: es => if e = 0 then nonZeros (i + 1) es else i :: nonZeros (i + 1) es

theorem mem_nonZeros {es : List ℕ} {i j : ℕ} : j ∈ nonZeros i es ↔ i ≤ j ∧ es.getD (j - i) 0 ≠ 0 := by
  induction es generalizing i with
  | nil => simp [nonZeros]
  | cons e es ih =>
    have key : i ≤ j ∧ (e :: es).getD (j - i) 0 ≠ 0 ↔ (j = i ∧ e ≠ 0) ∨ (i + 1 ≤ j ∧ es.getD (j - (i + 1)) 0 ≠ 0) := by
      by_cases h : j = i
      · subst h; simp
      · by_cases h2 : i ≤ j
        · obtain ⟨d, rfl⟩ : ∃ d, j = i + 1 + d := ⟨j - i - 1, by omega⟩
          have : i + 1 + d - i = d + 1 := by omega
          rw [this, List.getD_cons_succ]
          simp
          omega
        · have : ¬ i + 1 ≤ j := by omega
          simp [h, h2, this]
    rw [key]
    unfold nonZeros
    split
    · rename_i h
      rw [ih]
      simp [h]
    · rename_i h
      rw [List.mem_cons, ih]
      simp [h]

theorem nodup_nonZeros (es : List ℕ) (i : ℕ) : (nonZeros i es).Nodup := by
  induction es generalizing i with
  | nil => simp [nonZeros]
  | cons e es ih =>
    unfold nonZeros
    split
    · exact ih _
    · rw [List.nodup_cons]
      refine ⟨?_, ih _⟩
      rw [mem_nonZeros]
      omega

/-- The power of the variable `i` of a term. -/
def powerText (names : List Text) (e : List ℕ) (i : ℕ) : Text := writePower (names.getD i []) (e.getD i 0)

theorem writePowers_eq {names : List Text} {e : List ℕ} : ∀ (es : List ℕ) (ns : List Text) (i : ℕ),
    (∀ j, es.getD j 0 = e.getD (i + j) 0) → (∀ j, ns.getD j [] = names.getD (i + j) []) → ns.length = es.length →
    writePowers true ns es = (nonZeros i es).flatMap (fun j => '*' :: ([] ++ powerText names e j)) ∧
    writePowers false ns es =
      match nonZeros i es with
      | [] => t!"1"
      | j :: js => powerText names e j ++ js.flatMap (fun j => '*' :: ([] ++ powerText names e j)) := by
  intro es
  induction es with
  | nil =>
    intro ns i _ _ hl
    have : ns = [] := List.length_eq_zero_iff.1 hl
    subst this
    simp [writePowers, nonZeros]
  | cons a es ih =>
    intro ns i he hn hl
    cases ns with
    | nil => simp at hl
    | cons x ns =>
      obtain ⟨g1, g2⟩ := ih ns (i + 1) (fun j => by have := he (j + 1); rw [List.getD_cons_succ] at this; rw [this]; congr 1; omega)
        (fun j => by have := hn (j + 1); rw [List.getD_cons_succ] at this; rw [this]; congr 1; omega) (by simpa using hl)
      have ha : powerText names e i = writePower x a := by
        have h1 := he 0
        have h2 := hn 0
        simp only [List.getD_cons_zero, Nat.add_zero] at h1 h2
        rw [powerText, ← h1, ← h2]
      unfold writePowers nonZeros
      by_cases h0 : a = 0
      · simp only [h0, if_true]
        exact ⟨g1, g2⟩
      · simp only [h0, if_false, Bool.false_eq_true, if_true, g1, List.flatMap_cons, ha]
        simp

/-- The power of the variable `i` of a term in the format of CoCoA 4. -/
def powerTextCoCoA (e : List ℕ) (i : ℕ) : Text :=
  t!"x[" ++ decimal (i + 1) ++ t!"]" ++ if e.getD i 0 = 1 then [] else '^' :: decimal (e.getD i 0)

theorem writePowersCoCoA_eq {e : List ℕ} : ∀ (es : List ℕ) (i : ℕ), (∀ j, es.getD j 0 = e.getD (i + j) 0) →
    writePowersCoCoA true i es = (nonZeros i es).flatMap (powerTextCoCoA e) ∧
    writePowersCoCoA false i es =
      match nonZeros i es with
      | [] => t!"1"
      | j :: js => powerTextCoCoA e j ++ js.flatMap (powerTextCoCoA e) := by
  intro es
  induction es with
  | nil => intro i _; simp [writePowersCoCoA, nonZeros]
  | cons a es ih =>
    intro i he
    obtain ⟨g1, g2⟩ := ih (i + 1) (fun j => by have := he (j + 1); rw [List.getD_cons_succ] at this; rw [this]; congr 1; omega)
    have ha : e.getD i 0 = a := by
      have h1 := he 0
      simp only [List.getD_cons_zero, Nat.add_zero] at h1
      exact h1.symm
    unfold writePowersCoCoA nonZeros
    by_cases h0 : a = 0
    · simp only [h0, if_true]
      exact ⟨g1, g2⟩
    · simp only [h0, if_false, g1, List.flatMap_cons, powerTextCoCoA, ha]
      simp

/-! ## terms -/

/-- What is known while the powers of a term are read; `xs` are the variables still to be read. -/
structure PowerInv (names : List Text) (e : List ℕ) (gs : List (List ℕ)) (k : InputConsumer) (xs : List ℕ) : Prop where
  hnames : k.names = names
  hgen : ∃ g, k.gens = g :: gs ∧ g.length = e.length ∧ ∀ i, g.getD i 0 = if i ∈ xs then 0 else e.getD i 0
  hnodup : xs.Nodup
  hlt : ∀ i ∈ xs, i < e.length

theorem PowerInv.exponent {names : List Text} {e : List ℕ} {gs : List (List ℕ)} {k : InputConsumer} {xs : List ℕ} {i : ℕ}
    (h : PowerInv names e gs k (i :: xs)) : k.exponent i = 0 := by
  obtain ⟨g, hg, _, hv⟩ := h.hgen
  unfold InputConsumer.exponent
  rw [hg]
  simp only
  rw [hv i, if_pos (by simp)]

theorem getD_set (g : List ℕ) (i j v : ℕ) (hi : i < g.length) : (g.set i v).getD j 0 = if j = i then v else g.getD j 0 := by
  rw [List.getD_eq_getElem?_getD, List.getD_eq_getElem?_getD, List.getElem?_set]
  by_cases h : i = j
  · subst h; simp [hi]
  · have : ¬ j = i := fun h' => h h'.symm
    simp [h, this]

theorem PowerInv.step {names : List Text} {e : List ℕ} {gs : List (List ℕ)} {k k' : InputConsumer} {xs : List ℕ} {i : ℕ}
    (h : PowerInv names e gs k (i :: xs)) (hn : k'.names = k.names) (hg : k'.gens = (k.setExponent i (e.getD i 0)).gens) :
    PowerInv names e gs k' xs := by
  obtain ⟨g, hk, hl, hv⟩ := h.hgen
  have hi : i < g.length := hl ▸ h.hlt i (by simp)
  have hnd := List.nodup_cons.1 h.hnodup
  refine ⟨hn.trans h.hnames, ⟨g.set i (e.getD i 0), ?_, by simpa using hl, fun j => ?_⟩, hnd.2, fun j hj => h.hlt j (by simp [hj])⟩
  · rw [hg]
    unfold InputConsumer.setExponent
    rw [hk]
  · rw [getD_set _ _ _ _ hi]
    by_cases hj : j = i
    · subst hj
      simp [hnd.1]
    · rw [if_neg hj, hv j]
      simp [hj]

theorem list_ext_getD {a b : List ℕ} (hl : a.length = b.length) (h : ∀ i, a.getD i 0 = b.getD i 0) : a = b := by
  refine List.ext_getElem hl fun i h1 h2 => ?_
  have := h i
  rwa [List.getD_eq_getElem _ _ h1, List.getD_eq_getElem _ _ h2] at this

theorem PowerInv.done {names : List Text} {e : List ℕ} {gs : List (List ℕ)} {k : InputConsumer} (h : PowerInv names e gs k []) :
    k.gens = e :: gs := by
  obtain ⟨g, hk, hl, hv⟩ := h.hgen
  rw [hk, list_ext_getD hl (fun i => by simpa using hv i)]

theorem PowerInv.start {e : List ℕ} {k : InputConsumer} (hl : e.length = k.names.length) : PowerInv k.names e k.gens k.beginTerm (nonZeros 0 e) := by
  refine ⟨rfl, ⟨List.replicate k.names.length 0, rfl, by simp [hl], fun i => ?_⟩, nodup_nonZeros _ _, fun i hi => ?_⟩
  · have h1 : (List.replicate k.names.length 0).getD i 0 = 0 := by
      rw [List.getD_eq_getElem?_getD, List.getElem?_replicate]
      split <;> rfl
    rw [h1]
    split
    · rfl
    · rename_i h
      rw [mem_nonZeros] at h
      simp only [Nat.zero_le, Nat.sub_zero, true_and, ne_eq, not_not] at h
      exact h.symm
  · rw [mem_nonZeros] at hi
    by_contra hlt
    refine hi.2 ?_
    simp only [Nat.sub_zero]
    exact List.getD_eq_default _ _ (by omega)

/-- What can follow a power. -/
def PowerStop (r : Text) : Prop := nextIs isIdChar r = false ∧ peekChar '^' r = false

/-- What can follow a term. -/
def TermStop (r : Text) : Prop := PowerStop r ∧ peekChar '*' r = false

/-- Names that can be read back. -/
structure ValidNames (names : List Text) : Prop where
  valid : ∀ x ∈ names, ValidName x
  nodup : names.Nodup

theorem ValidNames.getD {names : List Text} (h : ValidNames names) {i : ℕ} (hi : i < names.length) :
    ValidName (names.getD i []) ∧ names.idxOf? (names.getD i []) = some i := by
  rw [List.getD_eq_getElem _ _ hi]
  exact ⟨h.valid _ (List.getElem_mem hi), VarNames.idxOf?_getElem h.nodup hi⟩

theorem readTermProduct_congr {sf : Bool} {k : InputConsumer} {t u : Text} (h : eatWhite t = eatWhite u) :
    k.readTermProduct sf t = k.readTermProduct sf u := by
  unfold InputConsumer.readTermProduct
  rw [matchChar_congr h]

theorem readTermProduct_spec {sf : Bool} {k : InputConsumer} {names : List Text} {e : List ℕ} (hk : k.names = names) (hn : ValidNames names)
    (hl : e.length = names.length) (hsf : sf = true → ∀ i, e.getD i 0 ≤ 1) {r : Text} (hr : nonZeros 0 e ≠ [] → TermStop r) :
    ∃ (k' : InputConsumer) (r' : Text), k.readTermProduct sf (writeTermProduct names e ++ r) = some (k', r') ∧ k'.names = names ∧
      k'.gens = e :: k.gens ∧ eatWhite r' = eatWhite r := by
  subst hk
  have hw := (writePowers_eq (names := k.names) (e := e) e k.names 0 (fun j => by simp) (fun j => by simp) hl.symm).2
  have hstart := PowerInv.start (k := k) hl
  unfold writeTermProduct InputConsumer.readTermProduct
  rw [hw]
  cases hz : nonZeros 0 e with
  | nil =>
    rw [hz] at hstart
    refine ⟨k.beginTerm, r, ?_, rfl, hstart.done, rfl⟩
    simp [matchChar_cons, isSpace]
  | cons j js =>
    rw [hz] at hstart
    obtain ⟨hs1, hs2⟩ := hr (by simp [hz])
    simp only
    have hj := hn.getD (hl ▸ hstart.hlt j (by simp))
    have hne : ¬ isAlpha '1' := by decide
    have hm : matchChar '1' (powerText k.names e j ++ js.flatMap (fun j => '*' :: ([] ++ powerText k.names e j)) ++ r) =
        (false, powerText k.names e j ++ (js.flatMap (fun j => '*' :: ([] ++ powerText k.names e j)) ++ r)) := by
      unfold powerText writePower
      rw [List.append_assoc, List.append_assoc, matchChar_false (hj.1.peekChar (by decide) _), hj.1.eatWhite]
    rw [hm]
    simp only
    obtain ⟨k', r', g1, g2, g3⟩ := readSep_spec (item := InputConsumer.readPower sf) (tx := powerText k.names e) (Inv := PowerInv k.names e k.gens)
      (Stop := PowerStop) (sep := '*') (ws := []) (by decide) (fun u => rfl) (fun s t u h => readPower_congr h)
      (fun s x xs r hInv hr => by
        have hx := hn.getD (hl ▸ hInv.hlt x (by simp))
        obtain ⟨k', r', f1, f2, f3, f4⟩ := readPower_spec (k := s) (x := k.names.getD x []) (i := x) (e := e.getD x 0) hx.1 (by rw [hInv.hnames]; exact hx.2)
          hInv.exponent (fun h => hsf h x) hr.1 hr.2
        exact ⟨k', r', f1, hInv.step f2 f3, f4⟩)
      (fun u => ⟨by simp [nextIs, isIdChar, isAlpha, isDigit], by simp [peekChar_cons, isSpace]⟩) hs1 hs2 js j
      ((powerText k.names e j ++ (js.flatMap (fun j => '*' :: ([] ++ powerText k.names e j)) ++ r)).length) k.beginTerm _ hstart
      (by
        have := length_le_flatMap (fun j => '*' :: ([] ++ powerText k.names e j)) (by simp) js
        have h2 : 0 < (powerText k.names e j).length := by
          unfold powerText writePower
          rw [List.length_append]
          have := List.length_pos_iff.2 hj.1.ne_nil
          omega
        rw [List.length_append, List.length_append]
        omega) rfl
    exact ⟨k', r', g1, g2.hnames, g2.done, g3⟩

theorem readTermProduct_eat {sf : Bool} {k : InputConsumer} {names : List Text} {e : List ℕ} (hk : k.names = names) (hn : ValidNames names)
    (hl : e.length = names.length) (hsf : sf = true → ∀ i, e.getD i 0 ≤ 1) {r : Text} (hr : nonZeros 0 e ≠ [] → TermStop r) {t : Text}
    (ht : eatWhite t = eatWhite (writeTermProduct names e ++ r)) :
    ∃ (k' : InputConsumer) (r' : Text), k.readTermProduct sf t = some (k', r') ∧ k'.names = names ∧
      k'.gens = e :: k.gens ∧ eatWhite r' = eatWhite r := by
  rw [readTermProduct_congr ht]
  exact readTermProduct_spec hk hn hl hsf hr

/-- Terms that can be read. -/
structure GoodTerm (sf : Bool) (names : List Text) (e : List ℕ) : Prop where
  length : e.length = names.length
  sqf : sf = true → ∀ i, e.getD i 0 ≤ 1

/-- The terms are read as they are written. -/
def TermReads (sf : Bool) (names : List Text) (item : InputConsumer → Text → Option (InputConsumer × Text)) (tx : List ℕ → Text) (Stop : Text → Prop) : Prop :=
  ∀ (k : InputConsumer) (e : List ℕ) (r t : Text), k.names = names → GoodTerm sf names e → Stop r → eatWhite t = eatWhite (tx e ++ r) →
    ∃ (k' : InputConsumer) (r' : Text), item k t = some (k', r') ∧ k'.names = names ∧ k'.gens = e :: k.gens ∧ eatWhite r' = eatWhite r

theorem termReads_product {sf : Bool} {names : List Text} (hn : ValidNames names) :
    TermReads sf names (InputConsumer.readTermProduct sf) (writeTermProduct names) TermStop :=
  fun _ _ _ _ hk he hr ht => readTermProduct_eat hk hn he.length he.sqf (fun _ => hr) ht

/-! ## the name of the ring of Macaulay 2 -/

theorem isIdChar_decimal (n : ℕ) : ∀ d ∈ decimal n, isIdChar d = true := fun _ hd => isIdChar_of_isDigit (isDigit_of_mem_decimal hd)

theorem ringNameFrom_spec (names : List Text) (fuel i : ℕ) : ∃ j, ringNameFrom names fuel i = 'R' :: decimal j := by
  induction fuel generalizing i with
  | zero => exact ⟨i, rfl⟩
  | succ fuel ih =>
    unfold ringNameFrom
    split
    · exact ih _
    · exact ⟨i, rfl⟩

theorem ringName_spec (names : List Text) : ∃ l, ringName names = 'R' :: l ∧ ∀ d ∈ l, isIdChar d = true := by
  unfold ringName
  split
  · obtain ⟨j, hj⟩ := ringNameFrom_spec names names.length 1
    exact ⟨_, hj, isIdChar_decimal j⟩
  · exact ⟨[], rfl, by simp⟩

theorem ringName_valid (names : List Text) : ValidName (ringName names) := by
  obtain ⟨l, h1, h2⟩ := ringName_spec names
  exact ⟨'R', l, h1, by decide, h2⟩

theorem ringName_head (names : List Text) : (ringName names).head? = some 'R' := by
  obtain ⟨l, h1, h2⟩ := ringName_spec names
  rw [h1]
  rfl

/-- A term of an ideal in the format of Macaulay 2. -/
def termTextM2 (names : List Text) (e : List ℕ) : Text :=
  writeTermProduct names e ++ if e.any (fun a => decide (a ≠ 0)) then [] else '_' :: ringName names

theorem any_iff_nonZeros (e : List ℕ) : e.any (fun a => decide (a ≠ 0)) = true ↔ nonZeros 0 e ≠ [] := by
  constructor
  · intro h hz
    obtain ⟨a, ha, h0⟩ := List.any_eq_true.1 h
    obtain ⟨i, hi, rfl⟩ := List.getElem_of_mem ha
    have : i ∈ nonZeros 0 e := by
      rw [mem_nonZeros]
      simp only [Nat.zero_le, Nat.sub_zero, true_and]
      rw [List.getD_eq_getElem _ _ hi]
      simpa using h0
    rw [hz] at this
    simp at this
  · intro h
    obtain ⟨i, hi⟩ := List.exists_mem_of_ne_nil _ h
    rw [mem_nonZeros] at hi
    simp only [Nat.zero_le, Nat.sub_zero, true_and] at hi
    by_cases hlt : i < e.length
    · rw [List.getD_eq_getElem _ _ hlt] at hi
      exact List.any_eq_true.2 ⟨_, List.getElem_mem hlt, by simpa using hi⟩
    · exact absurd (List.getD_eq_default _ _ (by omega)) hi

theorem termReads_m2 {sf : Bool} {names : List Text} (hn : ValidNames names) :
    TermReads sf names (InputConsumer.readTermM2 sf) (termTextM2 names) (fun r => TermStop r ∧ peekChar '_' r = false) := by
  intro k e r t hk he hr ht
  unfold termTextM2 at ht
  unfold InputConsumer.readTermM2
  by_cases hz : nonZeros 0 e = []
  · have ha : e.any (fun a => decide (a ≠ 0)) = false := by
      rw [← Bool.not_eq_true, any_iff_nonZeros]
      simp [hz]
    rw [ha, List.append_assoc] at ht
    simp only [Bool.false_eq_true, if_false] at ht
    obtain ⟨k', r', h1, h2, h3, h4⟩ := readTermProduct_eat hk hn he.length he.sqf (fun h => absurd hz h) ht
    refine ⟨k', r, ?_, h2, h3, rfl⟩
    have hm : matchChar '_' r' = (true, ringName names ++ r) := by
      rw [matchChar_congr h4, List.cons_append, matchChar_cons]
      simp [isSpace]
    simp only [h1, hm, (ringName_valid names).readIdentifier hr.1.1.1, Option.map_some]
  · have ha : e.any (fun a => decide (a ≠ 0)) = true := (any_iff_nonZeros e).2 hz
    rw [ha] at ht
    simp only [if_true, List.append_nil] at ht
    obtain ⟨k', r', h1, h2, h3, h4⟩ := readTermProduct_eat hk hn he.length he.sqf (fun _ => hr.1) ht
    refine ⟨k', eatWhite r, ?_, h2, h3, eatWhite_eatWhite r⟩
    have hm : matchChar '_' r' = (false, eatWhite r) := by rw [matchChar_congr h4, matchChar_false hr.2]
    simp only [h1, hm]

/-! ## terms of CoCoA 4 -/

theorem readWhileX_spec {σ α : Type} {item : σ → Text → Option (σ × Text)} {tx : α → Text} {Inv : σ → List α → Prop} {Stop : Text → Prop}
    (hitem : ∀ s x xs r t, Inv s (x :: xs) → Stop r → eatWhite t = eatWhite (tx x ++ r) →
      ∃ s' r', item s t = some (s', r') ∧ Inv s' xs ∧ eatWhite r' = eatWhite r)
    (hstop : ∀ x u, Stop (tx x ++ u)) (hx : ∀ x u, peekChar 'x' (tx x ++ u) = true) {r : Text} (hr : Stop r) (hrx : peekChar 'x' r = false) :
    ∀ (xs : List α) (x : α) (fuel : ℕ) (s : σ) (t : Text), Inv s (x :: xs) → xs.length < fuel →
      eatWhite t = eatWhite (tx x ++ (xs.flatMap tx ++ r)) →
      ∃ s' r', readWhileX item fuel s t = some (s', r') ∧ Inv s' [] ∧ eatWhite r' = eatWhite r := by
  intro xs
  induction xs with
  | nil =>
    intro x fuel s t hInv hf ht
    obtain ⟨fuel, rfl⟩ : ∃ m, fuel = m + 1 := ⟨fuel - 1, by simp at hf; omega⟩
    obtain ⟨s', r', h1, h2, h3⟩ := hitem s x [] r t hInv hr (by simpa using ht)
    refine ⟨s', r', ?_, h2, h3⟩
    simp only [readWhileX, h1, peekChar_congr h3, hrx, Bool.false_eq_true, if_false]
  | cons y ys ih =>
    intro x fuel s t hInv hf ht
    obtain ⟨fuel, rfl⟩ : ∃ m, fuel = m + 1 := ⟨fuel - 1, by simp at hf; omega⟩
    rw [List.flatMap_cons, List.append_assoc] at ht
    obtain ⟨s', r', h1, h2, h3⟩ := hitem s x (y :: ys) _ t hInv (hstop y _) ht
    obtain ⟨s'', r'', g1, g2, g3⟩ := ih y fuel s' r' h2 (by simp at hf; omega) h3
    refine ⟨s'', r'', ?_, g2, g3⟩
    simp only [readWhileX, h1, peekChar_congr h3, hx, if_true, g1]

/-- What can follow a power of CoCoA 4. -/
def PowerStopCoCoA (r : Text) : Prop := nextIs isDigit r = false ∧ peekChar '^' r = false

theorem readPowerCoCoA_spec {sf : Bool} {k : InputConsumer} {e : List ℕ} {i : ℕ} (hi : i < k.names.length) (hbig : k.names.length < 2 ^ 64)
    (h0 : k.exponent i = 0) (hsf : sf = true → e.getD i 0 ≤ 1) {r : Text} (hr : PowerStopCoCoA r) {t : Text}
    (ht : eatWhite t = eatWhite (powerTextCoCoA e i ++ r)) :
    ∃ (k' : InputConsumer) (r' : Text), k.readPowerCoCoA sf t = some (k', r') ∧ k'.names = k.names ∧
      k'.gens = (k.setExponent i (e.getD i 0)).gens ∧ eatWhite r' = eatWhite r := by
  obtain ⟨k', r', h1, h2⟩ := consumePower_spec h0 hsf hr.1 hr.2
  refine ⟨k', r', ?_, h2⟩
  have e1 : (expectChar 'x' t).bind (expectChar '[') = some (decimal (i + 1) ++ (']' :: ((if e.getD i 0 = 1 then [] else '^' :: decimal (e.getD i 0)) ++ r))) := by
    rw [expectChar_congr ht]
    unfold powerTextCoCoA
    simp [expectChar_cons, isSpace]
  have e2 : expectChar ']' (']' :: ((if e.getD i 0 = 1 then [] else '^' :: decimal (e.getD i 0)) ++ r)) =
      some ((if e.getD i 0 = 1 then [] else '^' :: decimal (e.getD i 0)) ++ r) := by
    simp [expectChar_cons, isSpace]
  unfold InputConsumer.readPowerCoCoA
  rw [e1]
  simp only
  rw [readSizeT_decimal (n := i + 1) (by omega) (by simp [nextIs, isDigit])]
  simp only
  rw [if_neg (by omega), e2]
  exact h1

theorem termReads_cocoa {sf : Bool} {names : List Text} (hbig : names.length < 2 ^ 64) :
    TermReads sf names (InputConsumer.readTermCoCoA sf) writeTermCoCoA (fun r => PowerStopCoCoA r ∧ peekChar 'x' r = false) := by
  intro k e r t hk he hr ht
  subst hk
  have hw := (writePowersCoCoA_eq (e := e) e 0 (fun j => by simp)).2
  have hstart := PowerInv.start (k := k) he.length
  unfold writeTermCoCoA at ht
  unfold InputConsumer.readTermCoCoA
  rw [hw] at ht
  cases hz : nonZeros 0 e with
  | nil =>
    rw [hz] at hstart ht
    refine ⟨k.beginTerm, r, ?_, rfl, hstart.done, rfl⟩
    rw [matchChar_congr ht]
    simp [matchChar_cons, isSpace]
  | cons j js =>
    rw [hz] at hstart ht
    simp only [List.append_assoc] at ht
    have hm : matchChar '1' t = (false, powerTextCoCoA e j ++ (js.flatMap (powerTextCoCoA e) ++ r)) := by
      rw [matchChar_congr ht]
      simp [powerTextCoCoA, matchChar_cons, isSpace]
    rw [hm]
    simp only
    obtain ⟨k', r', g1, g2, g3⟩ := readWhileX_spec (item := InputConsumer.readPowerCoCoA sf) (tx := powerTextCoCoA e)
      (Inv := PowerInv k.names e k.gens) (Stop := PowerStopCoCoA)
      (fun s x xs r t hInv hr ht => by
        have hx : x < k.names.length := he.length ▸ hInv.hlt x (by simp)
        obtain ⟨k', r', f1, f2, f3, f4⟩ := readPowerCoCoA_spec (sf := sf) (k := s) (e := e) (i := x) (by rw [hInv.hnames]; exact hx)
          (by rw [hInv.hnames]; exact hbig) hInv.exponent (fun h => he.sqf h x) hr ht
        exact ⟨k', r', f1, hInv.step f2 f3, f4⟩)
      (fun x u => by simp [PowerStopCoCoA, powerTextCoCoA, nextIs, isDigit, peekChar_cons, isSpace])
      (fun x u => by simp [powerTextCoCoA, peekChar_cons, isSpace]) hr.1 hr.2 js j
      (powerTextCoCoA e j ++ (js.flatMap (powerTextCoCoA e) ++ r)).length k.beginTerm _ hstart
      (by
        have := length_le_flatMap (powerTextCoCoA e) (by simp [powerTextCoCoA]) js
        have h2 : 0 < (powerTextCoCoA e j).length := by simp [powerTextCoCoA]
        rw [List.length_append, List.length_append]
        omega) rfl
    exact ⟨k', r', g1, g2.hnames, g2.done, g3⟩

/-! ## terms of 4ti2 -/

/-- What is known while the exponents of a term are read. -/
structure ExponentInv (names : List Text) (e : List ℕ) (gs : List (List ℕ)) (s : ℕ × InputConsumer) (xs : List ℕ) : Prop where
  hnames : s.2.names = names
  hdrop : xs = e.drop s.1
  hgen : ∃ g, s.2.gens = g :: gs ∧ g.length = e.length ∧ ∀ i, g.getD i 0 = if i < s.1 then e.getD i 0 else 0

theorem termReads_4ti2 {sf : Bool} {names : List Text} (hne : names ≠ []) :
    TermReads sf names (InputConsumer.readTerm4ti2 sf) writeTerm4ti2 (fun _ => True) := by
  intro k e r t hk he _ ht
  subst hk
  have hene : e ≠ [] := by
    rintro rfl
    exact hne (List.length_eq_zero_iff.1 he.length.symm)
  unfold writeTerm4ti2 at ht
  simp only [hene, if_false, List.append_assoc] at ht
  have hstart : ExponentInv k.names e k.gens (0, k.beginTerm) e := by
    refine ⟨rfl, by simp, List.replicate k.names.length 0, rfl, by simp [he.length], fun i => ?_⟩
    rw [List.getD_eq_getElem?_getD, List.getElem?_replicate]
    simp only [Nat.not_lt_zero, if_false]
    split <;> rfl
  obtain ⟨s', r', g1, g2, g3⟩ := readTimes_spec (item := InputConsumer.readExponent4ti2 sf) (tx := fun a => ' ' :: decimal a)
    (Inv := ExponentInv k.names e k.gens) (Stop := fun r => nextIs isDigit r = false) (Good := fun _ => True)
    (fun s x xs r t hInv hr ht => by
      have hlt : s.1 < e.length := by
        by_contra hge
        have := hInv.hdrop
        rw [List.drop_eq_nil_of_le (by omega)] at this
        simp at this
      have hx : e.getD s.1 0 = x := by
        have h1 : (e.drop s.1)[0]? = some x := by rw [← hInv.hdrop]; rfl
        rw [List.getElem?_drop] at h1
        rw [List.getD_eq_getElem?_getD]
        simp only [Nat.add_zero] at h1
        rw [h1]
        rfl
      obtain ⟨g, hg, hl, hv⟩ := hInv.hgen
      have hexp : s.2.exponent s.1 = 0 := by
        unfold InputConsumer.exponent
        rw [hg]
        simp only
        rw [hv s.1]
        simp
      have ht' : eatWhite t = decimal x ++ r := by
        rw [ht, List.cons_append, eatWhite_cons, eatWhite_decimal]
        simp [isSpace]
      have hm : matchChar '-' t = (false, decimal x ++ r) := by
        rw [matchChar_congr (u := decimal x ++ r) (by rw [ht', eatWhite_decimal]), matchChar_false (peekChar_decimal (by decide) _ _), eatWhite_decimal]
      obtain ⟨k', f1, f2, f3⟩ := consumeExponent_spec (t := decimal x ++ r) hexp (fun h => hx ▸ he.sqf h s.1) hr rfl
      refine ⟨(s.1 + 1, k'), r, ?_, ⟨f2.trans hInv.hnames, ?_, g.set s.1 x, ?_, by simpa using hl, fun i => ?_⟩, rfl⟩
      · unfold InputConsumer.readExponent4ti2
        rw [hm]
        simp only [f1, Option.map_some]
      · have := congrArg List.tail hInv.hdrop
        simpa using this
      · rw [f3]
        unfold InputConsumer.setExponent
        rw [hg]
      · rw [getD_set _ _ _ _ (hl ▸ hlt), hv i]
        by_cases hi : i = s.1
        · subst hi
          simp only [if_true, Nat.lt_succ_self, hx]
        · have : i < s.1 + 1 ↔ i < s.1 := by omega
          simp only [hi, if_false, this])
    (fun x u _ => by simp [nextIs, isDigit]) (r := t!"\n" ++ r) (by simp [nextIs, isDigit]) e (0, k.beginTerm) t hstart (fun _ _ => trivial) ht
  have hd : s'.2.gens = e :: k.gens := by
    obtain ⟨g, hg, hl, hv⟩ := g2.hgen
    have hge : e.length ≤ s'.1 := by
      by_contra hlt
      have := g2.hdrop
      have h2 := congrArg List.length this
      rw [List.length_drop] at h2
      simp only [List.length_nil] at h2
      omega
    rw [hg, list_ext_getD hl fun i => ?_]
    rw [hv i]
    split
    · rfl
    · exact (List.getD_eq_default _ _ (by omega)).symm
  refine ⟨s'.2, r', ?_, g2.hnames, hd, ?_⟩
  · unfold InputConsumer.readTerm4ti2
    rw [← he.length, g1]
    rfl
  · rw [g3]
    simp [eatWhite_cons, isSpace]

/-! ## the names of the variables -/

theorem readName_congr {ns : List Text} {t u : Text} (h : eatWhite t = eatWhite u) : readName ns t = readName ns u := by
  unfold readName
  rw [readIdentifier_congr h]

/-- What is known while names are read. -/
def NameInv (names ns xs : List Text) : Prop := ns ++ xs = names

theorem readName_spec {names : List Text} (hn : ValidNames names) {ns xs : List Text} {x r t : Text} (h : NameInv names ns (x :: xs))
    (hr : nextIs isIdChar r = false) (ht : eatWhite t = eatWhite (x ++ r)) :
    readName ns t = some (ns ++ [x], r) ∧ NameInv names (ns ++ [x]) xs := by
  unfold NameInv at h
  have hx : ValidName x := hn.valid x (by rw [← h]; simp)
  have hnd := hn.nodup
  rw [← h, List.nodup_append] at hnd
  have hnot : x ∉ ns := fun hmem => hnd.2.2 x hmem x (by simp) rfl
  refine ⟨?_, by simp [NameInv, h]⟩
  unfold readName
  rw [readIdentifier_congr ht, hx.readIdentifier hr]
  simp [hnot]

theorem writeNames_eq (c : Char) (ws : Text) (x : Text) (xs : List Text) :
    writeNames (c :: ws) (x :: xs) = x ++ xs.flatMap (fun y => c :: (ws ++ y)) := by
  induction xs generalizing x with
  | nil => simp [writeNames]
  | cons y ys ih =>
    unfold writeNames
    rw [ih y]
    simp

theorem readNames_spec {names : List Text} (hn : ValidNames names) (hne : names ≠ []) {r : Text} (hr : nextIs isIdChar r = false)
    (hc : peekChar ',' r = false) {t : Text} {fuel : ℕ} (ht : eatWhite t = eatWhite (writeNames t!", " names ++ r))
    (hf : (writeNames t!", " names).length ≤ fuel) :
    ∃ r', readSep readName ',' fuel [] t = some (names, r') ∧ eatWhite r' = eatWhite r := by
  cases names with
  | nil => exact absurd rfl hne
  | cons x xs =>
    rw [writeNames_eq] at ht hf
    obtain ⟨s', r', g1, g2, g3⟩ := readSep_spec (item := readName) (tx := fun y : Text => y) (Inv := NameInv (x :: xs))
      (Stop := fun r => nextIs isIdChar r = false) (sep := ',') (ws := t!" ") (by decide)
      (fun u => by simp [eatWhite_cons, isSpace]) (fun s t u h => readName_congr h)
      (fun s y ys r hInv hr => by
        obtain ⟨h1, h2⟩ := readName_spec hn hInv hr (t := y ++ r) rfl
        exact ⟨_, _, h1, h2, rfl⟩)
      (fun u => by simp [nextIs, isIdChar, isAlpha, isDigit]) hr hc xs x fuel [] t rfl
      (by
        have := length_le_flatMap (fun y : Text => ',' :: (t!" " ++ y)) (by simp) xs
        have h2 := List.length_pos_iff.2 (hn.valid x (by simp)).ne_nil
        rw [List.length_append] at hf
        exact lt_of_lt_of_le (lt_of_le_of_lt this (Nat.lt_add_of_pos_left h2)) hf) (by simpa using ht)
    refine ⟨r', ?_, g3⟩
    rw [g1]
    have : s' = x :: xs := by simpa [NameInv] using g2
    rw [this]

end Frobby

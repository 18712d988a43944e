import Verif.ScanBufLemmas
import Verif.ScanBufSpec

/-!
# Each thing that can be asked of a scanner
-/

namespace Frobby

namespace BufScanner

/-- The same result with the same text left, and the line number counts the ends of lines before what is left. -/
def Agrees {β : Type} (s : BufScanner) : Except ScanStop (β × BufScanner) → Except Text (β × Text) → Prop
  | .ok (a, s'), .ok (b, t) => a = b ∧ Went s s' ∧ s'.text = t
  | .error (.syntaxError l), .error r => l + newlines r = s.line + newlines s.text
  | _, _ => False

theorem eatWhite_idem (t : Text) : eatWhite (eatWhite t) = eatWhite t := by
  unfold eatWhite
  induction t with
  | nil => rfl
  | cons c t ih =>
    by_cases h : isSpace c = true
    · rw [List.dropWhile_cons_of_pos h, ih]
    · rw [List.dropWhile_cons_of_neg h, List.dropWhile_cons_of_neg h]

theorem matchC_agrees {s : BufScanner} (h : Ok s) {c : Char} (hc : c.toNat < 128) : Agrees s (s.matchC c) (.ok (matchChar c s.text)) := by
  obtain ⟨s1, h1, h2, h3, h4⟩ := white_spec h
  unfold matchC matchChar
  simp only [h1, bind, Except.bind, ← h4]
  by_cases hm : intOfChar c = s1.char
  · have hne : s1.char ≠ -1 := by rw [← hm]; unfold intOfChar; omega
    obtain ⟨s2, e1, e2, e3, e4, -⟩ := getChar_next h2.ok hne
    have hce : charOfInt s1.char = c := (charOfInt_eq h2.ok.low h2.ok.high hne hc).1 hm.symm
    simp only [if_pos hm, e1, pure, Except.pure, e4, hce, if_true]
    exact ⟨rfl, h2.trans e2, rfl⟩
  · simp only [if_neg hm, pure, Except.pure]
    cases ht : s1.text with
    | nil => exact ⟨rfl, h2, ht⟩
    | cons d r =>
      have : ¬ d = c := fun e => hm ((h2.ok.isChar hc).2 (by rw [ht]; simpa [nextIs] using e)).symm
      simp only [if_neg this]
      exact ⟨rfl, h2, ht⟩

theorem expectC_agrees {s : BufScanner} (h : Ok s) {c : Char} (hc : c.toNat < 128) :
    Agrees s (s.expectC c) (orRest (eatWhite s.text).tail ((expectChar c s.text).map fun r => ((), r))) := by
  obtain ⟨s1, h1, h2, h3, h4⟩ := white_spec h
  unfold expectC expectChar
  simp only [h1, bind, Except.bind, ← h4]
  by_cases hne : s1.char = -1
  · obtain ⟨s2, e1, -, -, e4, -⟩ := getChar_spec h2.ok
    obtain ⟨e5, e6⟩ := e4 hne
    have : ¬ s1.char = intOfChar c := by rw [hne]; unfold intOfChar; omega
    simp only [e1, if_neg this, e5, Option.map, orRest]
    show s2.line + newlines [] = _
    rw [e6, ← h2.line, e5]
  · obtain ⟨s2, e1, e2, e3, e4, -⟩ := getChar_next h2.ok hne
    simp only [e1, e4]
    by_cases hm : s1.char = intOfChar c
    · have hce : charOfInt s1.char = c := (charOfInt_eq h2.ok.low h2.ok.high hne hc).1 hm
      simp only [if_pos hm, if_pos hce, Option.map, orRest, pure, Except.pure]
      exact ⟨rfl, h2.trans e2, rfl⟩
    · have hce : ¬ charOfInt s1.char = c := fun e => hm ((charOfInt_eq h2.ok.low h2.ok.high hne hc).2 e)
      simp only [if_neg hm, if_neg hce, Option.map, orRest]
      exact (h2.trans e2).line

theorem newlines_alnum (t : Text) : newlines (t.dropWhile fun c => isAlpha c || isDigit c) = newlines t := by
  induction t with
  | nil => rfl
  | cons c t ih =>
    by_cases hc : (isAlpha c || isDigit c) = true
    · rw [List.dropWhile_cons_of_pos (p := fun c => isAlpha c || isDigit c) hc, ih]
      unfold newlines
      rw [List.count_cons_of_ne]
      rintro rfl
      revert hc
      decide
    · rw [List.dropWhile_cons_of_neg (p := fun c => isAlpha c || isDigit c) hc]

theorem expectLoop_agrees : ∀ (u : Text) (first : Bool) {s : BufScanner}, Ok s → (∀ c ∈ u, c.toNat < 128) →
    Agrees s (expectLoop first u s) (orRest (stripRest u s.text) ((stripText u s.text).map fun r => ((), r)))
  | [], first, s, h, _ => by
    unfold expectLoop stripText
    exact ⟨rfl, .refl h, rfl⟩
  | c :: u, first, s, h, hu => by
    have hc : c.toNat < 128 := hu c (by simp)
    unfold expectLoop
    by_cases hne : s.char = -1
    · obtain ⟨s2, e1, e2, -, e4, -⟩ := getChar_spec h
      obtain ⟨e5, e6⟩ := e4 hne
      have hm : ¬ intOfChar c = s.char := by rw [hne]; unfold intOfChar; omega
      obtain ⟨s3, g1, g2, -, g4, -⟩ := skip_spec alnumInt_tests (s2.left + 1) e2 (.inl (Nat.lt_succ_self _))
      have hl : s3.line = s2.line := by
        have := g2.line
        rw [g4, newlines_alnum] at this
        omega
      simp only [e1, bind, Except.bind, if_neg hm, g1, e5, stripText, stripRest, Option.map, orRest]
      split
      · show s2.line + newlines [] = _
        rw [e5, e6]
      · show s3.line + newlines [] = _
        rw [e5, hl, e6]
    · obtain ⟨s2, e1, e2, e3, e4, -⟩ := getChar_next h hne
      simp only [e1, bind, Except.bind]
      by_cases hm : s.char = intOfChar c
      · have hce : charOfInt s.char = c := (charOfInt_eq h.low h.high hne hc).1 hm
        rw [if_pos hm.symm, e4, stripText, stripRest, hce, if_pos rfl, if_pos rfl]
        have ih := expectLoop_agrees u false e2.ok fun c hc => hu c (by simp [hc])
        revert ih
        cases expectLoop false u s2 with
        | error e =>
          cases e with
          | undefined => cases stripText u s2.text <;> exact id
          | syntaxError l =>
            cases stripText u s2.text with
            | none => exact fun ih => Eq.trans ih e2.line
            | some r => exact id
        | ok r =>
          cases stripText u s2.text with
          | none => exact id
          | some r => exact fun ih => ⟨ih.1, e2.trans ih.2.1, ih.2.2⟩
      · have hce : ¬ c = charOfInt s.char := fun e => hm ((charOfInt_eq h.low h.high hne hc).2 e.symm)
        obtain ⟨s3, g1, g2, -, g4, -⟩ := skip_spec alnumInt_tests (s2.left + 1) e2.ok (.inl (Nat.lt_succ_self _))
        rw [if_neg fun e => hm e.symm, if_neg (fun e => hne e.1), e4, stripText, stripRest, if_neg hce, if_neg hce, g1]
        show s3.line + newlines _ = _
        rw [← g4]
        exact (e2.trans g2).line

theorem Agrees.from_white {β : Type} {s s1 : BufScanner} (h : Went s s1) {x : Except ScanStop (β × BufScanner)} {y : Except Text (β × Text)}
    (hx : Agrees s1 x y) : Agrees s x y := by
  rcases x with (_ | _) | ⟨a, s'⟩ <;> rcases y with _ | ⟨b, t⟩
  · exact Eq.trans hx h.line
  · exact hx
  · exact hx
  · exact hx
  · exact hx
  · exact ⟨hx.1, h.trans hx.2.1, hx.2.2⟩

theorem expectT_agrees {s : BufScanner} (h : Ok s) {u : Text} (hu : ∀ c ∈ u, c.toNat < 128) :
    Agrees s (s.expectT u) (orRest (stripRest u (eatWhite s.text)) ((expectText u s.text).map fun r => ((), r))) := by
  obtain ⟨s1, h1, h2, h3, h4⟩ := white_spec h
  unfold expectT expectText
  simp only [h1, bind, Except.bind, ← h4]
  exact .from_white h2 (expectLoop_agrees u true h2.ok hu)

theorem identifier_agrees {s : BufScanner} (h : Ok s) : Agrees s s.identifier (orRest (eatWhite s.text) (readIdentifier s.text)) := by
  obtain ⟨s1, h1, h2, h3, h4⟩ := white_spec h
  unfold identifier readIdentifier
  simp only [h1, bind, Except.bind, ← h4, ← h2.ok.test alphaInt_tests]
  by_cases ha : alphaInt s1.char = true
  · obtain ⟨s2, xs, rest, e1, e2, e3, e4, e5, e6⟩ := gatherString_spec (size := 0) idInt_tests h2.ok (by have := h2.ok.tmp; omega)
    have hz : ∀ x ∈ xs, x ≠ 0 := fun x hx e => by
      have := (e5 x hx).1
      rw [e] at this
      exact absurd this (by decide)
    simp only [if_pos ha, e1, e6, List.take_zero, List.nil_append, cString_spec xs rest hz, pure, Except.pure, orRest]
    exact ⟨e4, h2.trans e2, e3⟩
  · simp only [if_neg ha, orRest]
    exact h2.line

theorem stringLoop_spec : ∀ (n : ℕ) (str : Text) {s : BufScanner}, Ok s → s.char ≠ -1 → s.left < n →
    ∃ s', stringLoop n str s = .ok (str ++ s.text.head?.toList ++ s.text.tail.takeWhile isIdChar, s') ∧ Went s s' ∧
      s'.text = s.text.tail.dropWhile isIdChar := by
  intro n
  induction n with
  | zero => intro str s _ _ hn; omega
  | succ n ih =>
    intro str s h hc hn
    obtain ⟨s1, h1, h2, -, h4, h5⟩ := getChar_next h hc
    unfold stringLoop
    simp only [h1, bind, Except.bind, h4, List.head?_cons, Option.toList, List.tail_cons]
    by_cases hp : idInt s1.char = true
    · have hc1 : s1.char ≠ -1 := fun e => by rw [e] at hp; exact absurd hp (by decide)
      obtain ⟨r, hr⟩ := text_head hc1
      have hq : isIdChar (charOfInt s1.char) = true := by rw [← idInt_tests.same _ h2.ok.low h2.ok.high hc1]; exact hp
      obtain ⟨s', e1, e2, e3⟩ := ih (str ++ [charOfInt s.char]) h2.ok hc1 (by rcases h5 with h5 | h5 <;> [omega; exact absurd h5 hc1])
      refine ⟨s', ?_, h2.trans e2, ?_⟩
      · rw [if_pos hp, e1, hr]
        simp [List.takeWhile_cons_of_pos hq]
      · rw [e3, hr, List.tail_cons, List.dropWhile_cons_of_pos hq]
    · rw [if_neg hp]
      have := h2.ok.test idInt_tests
      refine ⟨s1, ?_, h2, ?_⟩
      · cases ht : s1.text with
        | nil => simp [pure, Except.pure]
        | cons c r =>
          rw [ht] at this
          have hq : idInt s1.char = isIdChar c := this
          rw [List.takeWhile_cons_of_neg (by rw [← hq]; exact hp)]
          simp [pure, Except.pure]
      · cases ht : s1.text with
        | nil => rfl
        | cons c r =>
          rw [ht] at this
          have hq : idInt s1.char = isIdChar c := this
          rw [List.dropWhile_cons_of_neg (by rw [← hq]; exact hp)]

theorem isIdChar_of_isAlpha {c : Char} (h : isAlpha c = true) : isIdChar c = true := by simp [isIdChar, h]

theorem identifierString_agrees {s : BufScanner} (h : Ok s) : Agrees s s.identifierString (orRest (eatWhite s.text) (readIdentifier s.text)) := by
  obtain ⟨s1, h1, h2, h3, h4⟩ := white_spec h
  unfold identifierString readIdentifier
  simp only [h1, bind, Except.bind, ← h4, ← h2.ok.test alphaInt_tests]
  by_cases ha : alphaInt s1.char = true
  · have hc : s1.char ≠ -1 := fun e => by rw [e] at ha; exact absurd ha (by decide)
    obtain ⟨r, hr⟩ := text_head hc
    have hq : isIdChar (charOfInt s1.char) = true := isIdChar_of_isAlpha (by rw [← alphaInt_tests.same _ h2.ok.low h2.ok.high hc]; exact ha)
    obtain ⟨s2, e1, e2, e3⟩ := stringLoop_spec (s1.left + 1) [] h2.ok hc (Nat.lt_succ_self _)
    rw [if_pos ha, if_pos ha, e1]
    rw [hr] at e3 ⊢
    refine ⟨?_, h2.trans e2, ?_⟩
    · simp [List.takeWhile_cons_of_pos hq]
    · rw [e3, List.dropWhile_cons_of_pos hq]
      rfl
  · simp only [if_neg ha, orRest]
    exact h2.line

/-! ## numbers -/

/-- The sign that is put into the array. -/
def signInt : Text → ℤ
  | [] => 43
  | c :: _ => if c = '-' then 45 else 43

theorem digits_ne_zero {xs : List ℤ} (h : ∀ x ∈ xs, digitInt x = true ∧ -128 ≤ x ∧ x ≤ 127) : ∀ x ∈ xs, x ≠ 0 := fun x hx e => by
  have := (h x hx).1
  rw [e] at this
  exact absurd this (by decide)

theorem digits_empty {xs : List ℤ} {l : Text} (h : xs.map charOfInt = l) : xs.length = 0 ↔ l = [] := by
  rw [← h]
  simp

theorem integerString_spec {s : BufScanner} (h : Ok s) :
    ((afterSign (eatWhite s.text)).takeWhile isDigit = [] ∧ ∃ l, s.integerString = .error (.syntaxError l) ∧
      l + newlines (afterSign (eatWhite s.text)) = s.line + newlines s.text) ∨
    ∃ (s' : BufScanner) (xs : List ℤ) (rest : List (Option ℤ)), (afterSign (eatWhite s.text)).takeWhile isDigit ≠ [] ∧
      s.integerString = .ok (1 + xs.length, s') ∧ Went s s' ∧ s'.text = (afterSign (eatWhite s.text)).dropWhile isDigit ∧
      xs.map charOfInt = (afterSign (eatWhite s.text)).takeWhile isDigit ∧ (∀ x ∈ xs, digitInt x = true ∧ -128 ≤ x ∧ x ≤ 127) ∧
      s'.tmp = some (signInt (eatWhite s.text)) :: (xs.map some ++ some 0 :: rest) := by
  obtain ⟨s1, h1, h2, h3, h4⟩ := white_spec h
  -- the sign
  have sign : ∃ s2, (if s1.char = 45 ∨ s1.char = 43 then s1.getChar.bind fun r => r.2.putTmp 0 r.1 else s1.putTmp 0 43) = .ok s2 ∧ Went s s2 ∧
      s2.text = afterSign (eatWhite s.text) ∧ s2.tmp.take 1 = [some (signInt (eatWhite s.text))] := by
    have hm : s1.char = 45 ↔ nextIs (fun c => c = '-') s1.text = true := h2.ok.isChar (d := '-') (by decide)
    have hp : s1.char = 43 ↔ nextIs (fun c => c = '+') s1.text = true := h2.ok.isChar (d := '+') (by decide)
    have htake : ∀ (l : List (Option ℤ)) (x : ℤ), 2 ≤ l.length → (l.set 0 (some x)).take 1 = [some x] := by
      intro l x hl
      match l with
      | _ :: _ => rfl
    by_cases hs : s1.char = 45 ∨ s1.char = 43
    · have hne : s1.char ≠ -1 := by rcases hs with e | e <;> rw [e] <;> decide
      obtain ⟨s2, e1, e2, e3, e4, -⟩ := getChar_next h2.ok hne
      obtain ⟨s3, g1, g2, g3, -, -, g6⟩ := putTmp_spec e2.ok (i := 0) (by have := e2.ok.tmp; omega) s1.char
      refine ⟨s3, ?_, (h2.trans e2).trans g2, ?_, ?_⟩
      · rw [if_pos hs, e1]
        exact g1
      · rw [g3, ← h4, e4, afterSign, if_pos]
        rw [e4] at hm hp
        simp only [nextIs, decide_eq_true_eq] at hm hp
        exact hs.imp hm.1 hp.1
      · rw [g6, htake _ _ e2.ok.tmp, ← h4, e4, signInt]
        rw [e4] at hm hp
        simp only [nextIs, decide_eq_true_eq] at hm hp
        by_cases hc : charOfInt s1.char = '-'
        · rw [if_pos hc, hm.2 hc]
        · rw [if_neg hc, hs.resolve_left fun e => hc (hm.1 e)]
    · obtain ⟨s3, g1, g2, g3, -, -, g6⟩ := putTmp_spec h2.ok (i := 0) (by have := h2.ok.tmp; omega) 43
      refine ⟨s3, by rw [if_neg hs]; exact g1, h2.trans g2, ?_, ?_⟩
      · rw [g3, ← h4]
        cases ht : s1.text with
        | nil => rfl
        | cons c r =>
          rw [ht] at hm hp
          simp only [nextIs, decide_eq_true_eq] at hm hp
          rw [afterSign, if_neg]
          rw [← hm, ← hp]
          exact hs
      · rw [g6, htake _ _ h2.ok.tmp, ← h4]
        cases ht : s1.text with
        | nil => rfl
        | cons c r =>
          rw [ht] at hm
          simp only [nextIs, decide_eq_true_eq] at hm
          rw [signInt, if_neg fun e => hs (.inl (hm.2 e))]
  obtain ⟨s2, e1, e2, e3, e4⟩ := sign
  obtain ⟨s3, xs, rest, g1, g2, g3, g4, g5, g6⟩ := gatherString_spec (size := 1) digitInt_tests e2.ok (by have := e2.ok.tmp; omega)
  rw [e3] at g3 g4
  rw [e4] at g6
  have hrun : s.integerString = if (1 + xs.length, s3).1 = 1 then .error (.syntaxError s3.line) else pure (1 + xs.length, s3) := by
    unfold integerString
    simp only [h1, bind, Except.bind]
    by_cases hs : s1.char = 45 ∨ s1.char = 43
    · rw [if_pos hs] at e1 ⊢
      cases hg : s1.getChar with
      | error e =>
        rw [hg] at e1
        cases e1
      | ok r =>
        rw [hg] at e1
        have e1' : r.2.putTmp 0 r.1 = .ok s2 := e1
        simp only [e1', g1]
    · rw [if_neg hs] at e1 ⊢
      simp only [e1, g1]
  by_cases hx : xs.length = 0
  · have hd := (digits_empty g4).1 hx
    refine .inl ⟨hd, s3.line, by rw [hrun, if_pos (by simp [hx])], ?_⟩
    have := (e2.trans g2).line
    rw [g3] at this
    have hdrop : (afterSign (eatWhite s.text)).dropWhile isDigit = afterSign (eatWhite s.text) := by
      have := List.takeWhile_append_dropWhile (p := isDigit) (l := afterSign (eatWhite s.text))
      rwa [hd, List.nil_append] at this
    rwa [hdrop] at this
  · exact .inr ⟨s3, xs, rest, fun e => hx ((digits_empty g4).2 e), by rw [hrun, if_neg (by simp only; omega)]; rfl, e2.trans g2, g3, g4, g5, g6⟩

theorem smallLoop_spec (tmp : List (Option ℤ)) : ∀ (xs : List ℤ) (i : ℕ) (l : ℤ) (rest : List (Option ℤ)), tmp.drop i = xs.map some ++ rest →
    smallLoop tmp xs.length i l = .ok (xs.foldl (fun l c => 10 * l + (c - 48)) l)
  | [], _, _, _, _ => rfl
  | x :: xs, i, l, rest, h => by
    have h0 : tmp[i]? = some (some x) := by
      have : (tmp.drop i)[0]? = some (some x) := by rw [h]; rfl
      rwa [List.getElem?_drop, Nat.add_zero] at this
    rw [List.length_cons, smallLoop, h0]
    refine smallLoop_spec tmp xs (i + 1) _ rest ?_
    rw [← List.drop_drop, h]
    rfl

theorem foldl_digits : ∀ (xs : List ℤ) (k : ℕ), (∀ x ∈ xs, digitInt x = true ∧ -128 ≤ x ∧ x ≤ 127) →
    xs.foldl (fun l c => 10 * l + (c - 48)) (k : ℤ) = (((xs.map charOfInt).foldl (fun acc c => 10 * acc + (c.toNat - 48)) k : ℕ) : ℤ)
  | [], _, _ => rfl
  | x :: xs, k, h => by
    have hx := (h x (by simp)).1
    unfold digitInt at hx
    rw [decide_eq_true_eq] at hx
    have : (10 * (k : ℤ) + (x - 48)) = ((10 * k + ((charOfInt x).toNat - 48) : ℕ) : ℤ) := by
      rw [charOfInt_toNat]
      omega
    rw [List.foldl_cons, this, foldl_digits xs _ fun y hy => h y (by simp [hy])]
    rfl

theorem isDigit_charOfInt {x : ℤ} (h : digitInt x = true ∧ -128 ≤ x ∧ x ≤ 127) : isDigit (charOfInt x) = true := by
  rw [← digitInt_tests.same x h.2.1 h.2.2]
  · exact h.1
  · rintro rfl
    exact absurd h.1 (by decide)

theorem setStr10_digits {t : Text} (h1 : t ≠ []) (h2 : ∀ c ∈ t, isDigit c = true) : setStr10 t = .ok (digitsValue t : ℤ) := by
  unfold setStr10
  split
  · rename_i r
    exact absurd (h2 '-' (by simp)) (by decide)
  · rw [if_pos ⟨h1, by simpa using h2⟩]

theorem setStr10_minus {t : Text} (h1 : t ≠ []) (h2 : ∀ c ∈ t, isDigit c = true) : setStr10 ('-' :: t) = .ok (-(digitsValue t : ℤ)) := by
  rw [setStr10, if_pos ⟨h1, by simpa using h2⟩]

/-- Both ways to make a number of the digits give the value. -/
theorem parse_spec {sign : ℤ} (hs : sign = 45 ∨ sign = 43) {xs : List ℤ} (hx : ∀ x ∈ xs, digitInt x = true ∧ -128 ≤ x ∧ x ≤ 127) (hne : xs ≠ [])
    (rest : List (Option ℤ)) : parse (some sign :: (xs.map some ++ some 0 :: rest)) (1 + xs.length) =
      .ok (if sign = 45 then -(digitsValue (xs.map charOfInt) : ℤ) else digitsValue (xs.map charOfInt)) := by
  have hd : ∀ c ∈ xs.map charOfInt, isDigit c = true := by
    intro c hc
    obtain ⟨x, h, rfl⟩ := List.mem_map.1 hc
    exact isDigit_charOfInt (hx x h)
  have hne' : xs.map charOfInt ≠ [] := by simpa using hne
  unfold parse
  simp only [List.getElem?_cons_zero]
  by_cases hl : 1 + xs.length < 10
  · rw [if_pos hl, Nat.add_sub_cancel_left, smallLoop_spec _ xs 1 0 (some 0 :: rest) rfl]
    have := foldl_digits xs 0 hx
    rw [Nat.cast_zero] at this
    rw [this]
    rfl
  · rw [if_neg hl]
    rcases hs with rfl | rfl
    · rw [if_neg (by decide), if_pos rfl]
      have := cString_spec (45 :: xs) rest fun x h => by
        rcases List.mem_cons.1 h with rfl | h
        · decide
        · exact digits_ne_zero hx x h
      rw [List.map_cons, List.cons_append] at this
      rw [this]
      exact setStr10_minus hne' hd
    · rw [if_pos (by decide), if_neg (by decide), List.drop_one, List.tail_cons, cString_spec xs rest (digits_ne_zero hx)]
      exact setStr10_digits hne' hd

/-- The number in a text. -/
theorem readInteger_eq (t : Text) : readInteger t =
    if (afterSign (eatWhite t)).takeWhile isDigit = [] then none
    else some (if signInt (eatWhite t) = 45 then -(digitsValue ((afterSign (eatWhite t)).takeWhile isDigit) : ℤ)
      else digitsValue ((afterSign (eatWhite t)).takeWhile isDigit), (afterSign (eatWhite t)).dropWhile isDigit) := by
  unfold readInteger readDigits
  cases eatWhite t with
  | nil => rfl
  | cons c r =>
    by_cases h1 : c = '-'
    · subst h1
      simp only [afterSign, signInt, if_true, true_or]
      split <;> rfl
    · by_cases h2 : c = '+'
      · subst h2
        simp only [afterSign, signInt, if_true, or_true, h1, if_false]
        split <;> rfl
      · simp only [afterSign, signInt, h1, h2, if_false, or_self]
        split <;> rfl

theorem signInt_cases (t : Text) : signInt t = 45 ∨ signInt t = 43 := by
  cases t with
  | nil => exact .inr rfl
  | cons c r =>
    by_cases h : c = '-'
    · exact .inl (if_pos h)
    · exact .inr (if_neg h)

theorem integer_agrees {s : BufScanner} (h : Ok s) : Agrees s s.integer (orRest (afterSign (eatWhite s.text)) (readInteger s.text)) := by
  rw [readInteger_eq]
  unfold integer
  rcases integerString_spec h with ⟨h1, l, h2, h3⟩ | ⟨s', xs, rest, h1, h2, h3, h4, h5, h6, h7⟩
  · simp only [h2, bind, Except.bind, if_pos h1, orRest]
    exact h3
  · have hne : xs ≠ [] := fun e => h1 (by rw [← h5, e]; rfl)
    simp only [h2, bind, Except.bind, if_neg h1, orRest, h7, parse_spec (signInt_cases _) h6 hne, pure, Except.pure, h5]
    exact ⟨rfl, h3, h4⟩

theorem digits_agrees {s : BufScanner} (h : Ok s) : Agrees s s.digits (orRest (eatWhite s.text) (readIntegerStringNoSign s.text)) := by
  obtain ⟨s1, h1, h2, h3, h4⟩ := white_spec h
  unfold digits digitString readIntegerStringNoSign readDigits
  simp only [h1, bind, Except.bind, ← h4]
  have hm : s1.char = 45 ↔ nextIs (fun c => c = '-') s1.text = true := h2.ok.isChar (d := '-') (by decide)
  have hp : s1.char = 43 ↔ nextIs (fun c => c = '+') s1.text = true := h2.ok.isChar (d := '+') (by decide)
  have hs : (s1.char = 45 ∨ s1.char = 43) ↔ nextIs (fun c => c = '-' || c = '+') s1.text = true := by
    rw [hm, hp]
    cases s1.text <;> simp [nextIs]
  by_cases hc : s1.char = 45 ∨ s1.char = 43
  · simp only [if_pos hc, if_pos (hs.1 hc), orRest]
    exact h2.line
  · obtain ⟨s2, xs, rest, g1, g2, g3, g4, g5, g6⟩ := gatherString_spec (size := 0) digitInt_tests h2.ok (by have := h2.ok.tmp; omega)
    simp only [if_neg hc, if_neg (fun e => hc (hs.2 e)), g1, Nat.zero_add]
    by_cases hx : xs.length = 0
    · have hd := (digits_empty g4).1 hx
      simp only [if_pos hx, if_pos hd, orRest]
      have := (h2.trans g2).line
      rw [g3] at this
      have hdrop : s1.text.dropWhile isDigit = s1.text := by
        have := List.takeWhile_append_dropWhile (p := isDigit) (l := s1.text)
        rwa [hd, List.nil_append] at this
      rwa [hdrop] at this
    · simp only [if_neg hx, if_neg fun e => hx ((digits_empty g4).2 e), orRest, pure, Except.pure, g6, List.take_zero, List.nil_append,
        cString_spec xs rest (digits_ne_zero g5)]
      exact ⟨g4, h2.trans g2, g3⟩

theorem sizeT_agrees {s : BufScanner} (h : Ok s) :
    Agrees s s.sizeT (orRest (match readInteger s.text with | some p => p.2 | none => afterSign (eatWhite s.text)) (readSizeT s.text)) := by
  have hi := integer_agrees h
  unfold sizeT readSizeT
  rcases hx : s.integer with (_ | _) | ⟨x, s'⟩ <;> rcases hy : readInteger s.text with _ | ⟨y, r⟩ <;> rw [hx, hy] at hi <;> try exact hi.elim
  · exact hi
  · obtain ⟨e1, e2, e3⟩ := hi
    subst e1
    simp only [bind, Except.bind]
    by_cases hr : 0 ≤ x ∧ x < 2 ^ 64
    · simp only [if_pos hr]
      exact ⟨rfl, e2, e3⟩
    · simp only [if_neg hr, orRest]
      have := e2.line
      rwa [e3] at this

theorem signedAsZero_agrees {s : BufScanner} (h : Ok s) :
    Agrees s s.signedAsZero (orRest (afterSign (eatWhite s.text)) ((readInteger s.text).map fun p => (p.1.toNat, p.2))) := by
  rw [readInteger_eq]
  unfold signedAsZero
  rcases integerString_spec h with ⟨h1, l, h2, h3⟩ | ⟨s', xs, rest, h1, h2, h3, h4, h5, h6, h7⟩
  · simp only [h2, bind, Except.bind, if_pos h1, orRest, Option.map]
    exact h3
  · have hne : xs ≠ [] := fun e => h1 (by rw [← h5, e]; rfl)
    simp only [h2, bind, Except.bind, if_neg h1, orRest, h7, Option.map, List.getElem?_cons_zero, parse_spec (signInt_cases _) h6 hne, pure, Except.pure, h5]
    by_cases hs : signInt (eatWhite s.text) = 45
    · simp only [if_pos hs]
      refine ⟨?_, h3, h4⟩
      omega
    · simp only [if_neg hs]
      exact ⟨rfl, h3, h4⟩

theorem nonNegative_agrees {s : BufScanner} (h : Ok s) : Agrees s s.nonNegative (orRest (afterSign (eatWhite s.text)) (readNonNegative s.text)) := by
  have h0 : s.char = 48 ↔ nextIs (fun c => c = '0') s.text = true := h.isChar (d := '0') (by decide)
  unfold nonNegative
  by_cases hc : s.char = 48
  · have hne : s.char ≠ -1 := by rw [hc]; decide
    obtain ⟨s1, e1, e2, -, e4, -⟩ := getChar_next h hne
    have hz : charOfInt s.char = '0' := by rw [hc]; rfl
    rw [hz] at e4
    simp only [if_pos hc, e1, bind, Except.bind, e4]
    unfold readNonNegative
    simp only [e2.ok.test digitInt_tests]
    by_cases hd : nextIs isDigit s1.text = true
    · simp only [if_pos hd]
      have hsome : ∃ p, readInteger s1.text = some p := by
        rw [readInteger_eq]
        match ht : s1.text, hd with
        | c :: r, hd =>
          have hcd : isDigit c = true := hd
          have hsp : isSpace c = false := by
            unfold isDigit at hcd
            unfold isSpace
            simp only [decide_eq_true_eq, decide_eq_false_iff_not] at hcd ⊢
            omega
          have hsg : ¬ (c = '-' ∨ c = '+') := by
            rintro (rfl | rfl) <;> exact absurd hcd (by decide)
          have : afterSign (eatWhite (c :: r)) = c :: r := by
            unfold eatWhite
            rw [List.dropWhile_cons_of_neg (by simp [hsp]), afterSign, if_neg hsg]
          rw [this, List.takeWhile_cons_of_pos hcd, if_neg (by simp)]
          exact ⟨_, rfl⟩
      obtain ⟨p, hp⟩ := hsome
      have := signedAsZero_agrees e2.ok
      rw [hp] at this ⊢
      exact .from_white e2 this
    · simp only [if_neg hd, pure, Except.pure, orRest]
      exact ⟨rfl, e2, rfl⟩
  · simp only [if_neg hc]
    have : readNonNegative s.text = (readInteger s.text).map fun p => (p.1.toNat, p.2) := by
      unfold readNonNegative
      split
      · rename_i r ht
        rw [ht] at h0
        exact absurd (h0.2 rfl) hc
      · rfl
    rw [this]
    exact signedAsZero_agrees h

end BufScanner

/-- Everything that can be asked. -/
theorem ScanOp.agrees (o : ScanOp) (ho : o.Ascii) {s : BufScanner} (h : s.Ok) : s.Agrees (o.onFile s) (o.onText s.text) := by
  obtain ⟨s1, h1, h2, h3, h4⟩ := BufScanner.white_spec h
  cases o with
  | white =>
    simp only [onFile, onText, h1]
    exact ⟨rfl, h2, h4⟩
  | matchC c => exact BufScanner.matchC_agrees h ho
  | expectC c => exact BufScanner.expectC_agrees h ho
  | expectT u => exact BufScanner.expectT_agrees h ho
  | identifier => exact BufScanner.identifier_agrees h
  | identifierString => exact BufScanner.identifierString_agrees h
  | peekId =>
    simp only [onFile, onText, BufScanner.peekId, h1, bind, Except.bind]
    refine ⟨?_, h2, h4⟩
    rw [h2.ok.test alphaInt_tests, h4]
    rfl
  | peekC c =>
    simp only [onFile, onText, BufScanner.peekC, h1, bind, Except.bind]
    refine ⟨?_, h2, h4⟩
    show decide (s1.char = intOfChar c) = peekChar c s.text
    rw [Bool.eq_iff_iff, decide_eq_true_eq, h2.ok.isChar ho, h4]
    rfl
  | peekWhite =>
    simp only [onFile, onText]
    exact ⟨h.test spaceInt_tests, .refl h, rfl⟩
  | atEnd =>
    simp only [onFile, onText, BufScanner.atEnd, h1, bind, Except.bind]
    refine ⟨?_, h2, h4⟩
    unfold matchEOF
    rw [← h4]
    by_cases hc : s1.char = -1
    · rw [BufScanner.text_end hc, hc]
      rfl
    · obtain ⟨r, hr⟩ := BufScanner.text_head hc
      rw [hr]
      exact decide_eq_false hc
  | integer => exact BufScanner.integer_agrees h
  | digits => exact BufScanner.digits_agrees h
  | sizeT => exact BufScanner.sizeT_agrees h
  | nonNegative => exact BufScanner.nonNegative_agrees h
  | charsLeft => exact ⟨rfl, .refl h, rfl⟩

/-- Every reader. -/
theorem ScanProg.agrees {α : Type} : ∀ (p : ScanProg α), p.Ascii → ∀ {s : BufScanner}, s.Ok → s.Agrees (p.onFile s) (p.onText s.text)
  | .done a, _, s, h => ⟨rfl, .refl h, rfl⟩
  | .fail, _, s, h => rfl
  | .ask o k, hp, s, h => by
    have := o.agrees hp.1 h
    unfold ScanProg.onFile ScanProg.onText
    rcases hx : o.onFile s with (_ | _) | ⟨x, s'⟩ <;> rcases hy : o.onText s.text with _ | ⟨y, r⟩ <;> rw [hx, hy] at this <;> try exact this.elim
    · exact this
    · obtain ⟨e1, e2, e3⟩ := this
      subst e1 e3
      exact .from_white e2 (ScanProg.agrees (k x) (hp.2 x) e2.ok)

end Frobby

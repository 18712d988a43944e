import Verif.PolyIOLemmas

/-!
# Polynomials in each format
-/

namespace Frobby

/-! ## sums of terms -/

theorem readPolyTerms_spec {names : List Text} {item : Bool → Text → Option ((ℤ × List ℕ) × Text)} {tx : Bool → ℤ × List ℕ → Text} {Stop : Text → Prop}
    (hitem : PolyReads names item tx Stop) (hstop : ∀ p u, Stop (tx false p ++ u)) (hns : ∀ p u, peekChar ';' (tx false p ++ u) = false)
    (hend : ∀ u, Stop (';' :: u)) {r : Text} :
    ∀ (ps : List (ℤ × List ℕ)) (p : ℤ × List ℕ) (first : Bool) (acc : List (ℤ × List ℕ)) (fuel : ℕ) (t : Text),
      (∀ q ∈ p :: ps, q.2.length = names.length) → ps.length < fuel → eatWhite t = eatWhite (tx first p ++ (ps.flatMap (tx false) ++ ';' :: r)) →
      readPolyTerms item fuel first acc t = some (acc ++ p :: ps, r) := by
  intro ps
  induction ps with
  | nil =>
    intro p first acc fuel t hl hf ht
    obtain ⟨fuel, rfl⟩ : ∃ m, fuel = m + 1 := ⟨fuel - 1, by simp at hf; omega⟩
    obtain ⟨r', h1, h2⟩ := hitem first p (';' :: r) t (hl p (by simp)) (hend r) (by simpa using ht)
    simp only [readPolyTerms, h1, matchChar_sign (c := ';') (by decide) h2]
  | cons q qs ih =>
    intro p first acc fuel t hl hf ht
    obtain ⟨fuel, rfl⟩ : ∃ m, fuel = m + 1 := ⟨fuel - 1, by simp at hf; omega⟩
    rw [List.flatMap_cons, List.append_assoc] at ht
    obtain ⟨r', h1, h2⟩ := hitem first p _ t (hl p (by simp)) (hstop q _) ht
    have h3 : matchChar ';' r' = (false, eatWhite r') := matchChar_false (by rw [peekChar_congr h2, hns])
    have h4 := ih q false (acc ++ [p]) fuel (eatWhite r') (fun x hx => hl x (by simp only [List.mem_cons] at hx ⊢; tauto))
      (by simp at hf; omega) (by rw [eatWhite_eatWhite, h2])
    simp only [readPolyTerms, h1, h3, h4, List.append_assoc, List.cons_append, List.nil_append]

theorem writePolyTerms_false (tr : Bool) (f : PolyFormat) (names : List Text) (ps : List (ℤ × List ℕ)) :
    writePolyTerms tr f names false ps = ps.flatMap fun p => writePolyTerm tr names false p f := by
  induction ps with
  | nil => rfl
  | cons p ps ih => rw [writePolyTerms, ih, List.flatMap_cons]

/-- A term that is not the first begins with a sign. -/
theorem writePolyTerm_false {f : PolyFormat} (hf : f ≠ .fourti2) (names : List Text) (p : ℤ × List ℕ) :
    ∃ ws c u, writePolyTerm false names false p f = ws :: u ∧ isSpace ws = true ∧ (∀ v, eatWhite (u ++ v) = c :: (eatWhite (u ++ v)).tail) ∧ (c = '+' ∨ c = '-') := by
  have he := coefText_eq [] (writeTermCoCoA p.2) p.1 p.2
  simp only [List.append_nil] at he
  cases f with
  | m2 => exact ⟨' ', '+', _, rfl, by decide, fun v => by simp [eatWhite_cons, isSpace], Or.inl rfl⟩
  | cocoa4 =>
    simp only [writePolyTerm, writeCoefTermCoCoA, writeProductCoCoA, Bool.false_eq_true, if_false, he]
    by_cases h : 0 ≤ p.1
    · exact ⟨'\n', '+', _, rfl, by decide, fun v => by simp [eatWhite_cons, isSpace, h], Or.inl rfl⟩
    · exact ⟨'\n', '-', _, rfl, by decide, fun v => by simp [eatWhite_cons, isSpace, h], Or.inr rfl⟩
  | singular =>
    simp only [writePolyTerm, writeCoefTerm, writeProduct, coefText_eq, Bool.false_eq_true, if_false]
    by_cases h : 0 ≤ p.1
    · exact ⟨'\n', '+', _, rfl, by decide, fun v => by simp [eatWhite_cons, isSpace, h], Or.inl rfl⟩
    · exact ⟨'\n', '-', _, rfl, by decide, fun v => by simp [eatWhite_cons, isSpace, h], Or.inr rfl⟩
  | fourti2 => exact absurd rfl hf

theorem writePolyTerm_stop {f : PolyFormat} (hf : f ≠ .fourti2) (names : List Text) (p : ℤ × List ℕ) (v : Text) :
    TermStop (writePolyTerm false names false p f ++ v) ∧ TermStopCoCoA (writePolyTerm false names false p f ++ v) ∧
      peekChar ';' (writePolyTerm false names false p f ++ v) = false := by
  obtain ⟨ws, c, u, h1, h2, h3, h4⟩ := writePolyTerm_false hf names p
  have hp : ∀ d, d ≠ '+' → d ≠ '-' → peekChar d (ws :: (u ++ v)) = false := by
    intro d hd hd'
    unfold peekChar
    rw [eatWhite_cons, h2, if_pos rfl, h3 v]
    rcases h4 with rfl | rfl
    · exact decide_eq_false (fun h => hd h.symm)
    · exact decide_eq_false (fun h => hd' h.symm)
  have hi : isIdChar ws = false := by
    by_contra hi
    simp only [Bool.not_eq_false, isIdChar, Bool.or_eq_true, decide_eq_true_eq] at hi
    rcases hi with (hi | hi) | rfl
    · rw [isSpace_of_isAlpha hi] at h2; simp at h2
    · rw [isSpace_of_isDigit hi] at h2; simp at h2
    · simp [isSpace] at h2
  have hi' : nextIs isIdChar (ws :: (u ++ v)) = false := hi
  rw [h1, List.cons_append]
  exact ⟨⟨⟨hi', hp _ (by decide) (by decide)⟩, hp _ (by decide) (by decide)⟩,
    ⟨⟨nextIs_isDigit hi', hp _ (by decide) (by decide)⟩, hp _ (by decide) (by decide)⟩, hp _ (by decide) (by decide)⟩

/-- What is written for a polynomial after the equality sign. -/
def sumText (f : PolyFormat) (P : NamedPoly) : Text := writePolyTerms false f P.names true P.terms ++ writePolyFooter P.names P.terms.isEmpty f

/-- The terms that are read: the zero polynomial is one term with the coefficient zero. -/
def readBack (P : NamedPoly) : List (ℤ × List ℕ) := if P.terms = [] then [(0, List.replicate P.names.length 0)] else P.terms

theorem sum_spec {f : PolyFormat} (hf : f ≠ .fourti2) {P : NamedPoly} {item : Bool → Text → Option ((ℤ × List ℕ) × Text)} {Stop : Text → Prop}
    (hitem : PolyReads P.names item (fun first p => writePolyTerm false P.names first p f) Stop)
    (hstop : ∀ p u, Stop (writePolyTerm false P.names false p f ++ u)) (hend : ∀ u, Stop (';' :: u))
    (hzero : ∀ r t, eatWhite t = eatWhite (t!"\n 0" ++ ';' :: r) → ∃ r', item true t = some ((0, List.replicate P.names.length 0), r') ∧ eatWhite r' = eatWhite (';' :: r))
    (hl : ∀ q ∈ P.terms, q.2.length = P.names.length) (r : Text) :
    readPolyTerms item ((sumText f P ++ r).length + 1) true [] (sumText f P ++ r) = some (readBack P, '\n' :: r) := by
  have hfoot : writePolyFooter P.names P.terms.isEmpty f = (if P.terms.isEmpty then t!"\n 0" else []) ++ t!";\n" := by
    cases f <;> simp_all [writePolyFooter]
  unfold sumText readBack
  cases hP : P.terms with
  | nil =>
    obtain ⟨r', h1, h2⟩ := hzero ('\n' :: r) (sumText f P ++ r) (by rw [sumText, hfoot, hP]; simp [writePolyTerms])
    have h3 : writePolyTerms false f P.names true [] ++ writePolyFooter P.names ([] : List (ℤ × List ℕ)).isEmpty f = sumText f P := by simp [sumText, hP]
    rw [h3]
    simp only [readPolyTerms, h1, matchChar_sign (c := ';') (by decide) h2]
    simp
  | cons p ps =>
    rw [hP] at hl hfoot
    rw [hfoot]
    have := readPolyTerms_spec hitem hstop (fun p u => (writePolyTerm_stop hf P.names p u).2.2) hend (r := '\n' :: r) ps p true []
      ((writePolyTerms false f P.names true (p :: ps) ++ (t!";\n" ++ r)).length + 1) (writePolyTerms false f P.names true (p :: ps) ++ (t!";\n" ++ r)) hl
      (by
        have := length_le_flatMap (fun q => writePolyTerm false P.names false q f) (fun q => by
          obtain ⟨ws, c, u, h1, _⟩ := writePolyTerm_false hf P.names q
          simp [h1]) ps
        rw [writePolyTerms, writePolyTerms_false, List.length_append, List.length_append]
        omega)
      (by rw [writePolyTerms, writePolyTerms_false]; simp)
    simpa using this

theorem zero_spec (names : List Text) (r t : Text) (ht : eatWhite t = eatWhite (t!"\n 0" ++ ';' :: r)) :
    ∃ r', readCoefTerm names true t = some ((0, List.replicate names.length 0), r') ∧ eatWhite r' = eatWhite (';' :: r) := by
  have ht' : eatWhite t = eatWhite ('0' :: ';' :: r) := by rw [ht]; simp [eatWhite_cons, isSpace]
  have hs : readSign true t = some (true, t) := by
    simp [readSign, matchChar_congr ht', peekChar_congr ht', matchChar_cons, peekChar_cons, isSpace]
  have hi : readInteger t = some (0, ';' :: r) := by
    rw [readInteger_congr ht']
    exact readInteger_decimal 0 (by simp [nextIs, isDigit])
  have hp : peekIdentifier t = false := by
    rw [peekIdentifier_congr ht']
    simp [peekIdentifier_cons, isSpace, isAlpha]
  refine ⟨';' :: r, ?_, rfl⟩
  simp [readCoefTerm, readSigned, readCoefBody, hs, hi, hp, readWhileStar, matchChar_cons, isSpace]

theorem zero_spec_cocoa (names : List Text) (r t : Text) (ht : eatWhite t = eatWhite (t!"\n 0" ++ ';' :: r)) :
    ∃ r', readCoefTermCoCoA names true t = some ((0, List.replicate names.length 0), r') ∧ eatWhite r' = eatWhite (';' :: r) := by
  have ht' : eatWhite t = eatWhite ('0' :: ';' :: r) := by rw [ht]; simp [eatWhite_cons, isSpace]
  have hs : readSign true t = some (true, t) := by
    simp [readSign, matchChar_congr ht', peekChar_congr ht', matchChar_cons, peekChar_cons, isSpace]
  have hi : readInteger t = some (0, ';' :: r) := by
    rw [readInteger_congr ht']
    exact readInteger_decimal 0 (by simp [nextIs, isDigit])
  have hp : peekIdentifier t = false := by
    rw [peekIdentifier_congr ht']
    simp [peekIdentifier_cons, isSpace, isAlpha]
  refine ⟨';' :: r, ?_, rfl⟩
  simp [readCoefTermCoCoA, readSigned, readCoefBodyCoCoA, hs, hi, hp, readWhilePeekX, peekChar_cons, isSpace]

/-- What is written before the terms, without the ring. -/
def polyName : PolyFormat → Text
  | .m2 => t!"p ="
  | .cocoa4 => t!"p :="
  | .singular => t!"poly p ="
  | .fourti2 => []

theorem readBarePoly_spec {f : PolyFormat} (hf : f ≠ .fourti2) {P : NamedPoly} (hn : ValidNames P.names) (hbig : P.names.length < 2 ^ 64)
    (hl : ∀ q ∈ P.terms, q.2.length = P.names.length) {t : Text} (ht : eatWhite t = eatWhite (polyName f ++ (sumText f P))) :
    readBarePoly P.names t f = some (readBack P, t!"\n") := by
  have hstop : ∀ u, TermStop (';' :: u) := fun u => by
    simp [TermStop, PowerStop, nextIs, isIdChar, isAlpha, isDigit, peekChar_cons, isSpace]
  have hstop' : ∀ u, TermStopCoCoA (';' :: u) := fun u => by
    simp [TermStopCoCoA, PowerStopCoCoA, nextIs, isDigit, peekChar_cons, isSpace]
  cases f with
  | m2 =>
    have h := sum_spec hf (polyReads_m2 hn) (fun p u => (writePolyTerm_stop hf P.names p u).1) hstop (zero_spec P.names) hl []
    simp only [readBarePoly]
    rw [expectChar_congr ht]
    obtain ⟨u, hu⟩ : ∃ u, u = sumText .m2 P := ⟨_, rfl⟩
    rw [← hu, List.append_nil] at h
    rw [← hu]
    simp [polyName, expectChar_cons, isSpace, h]
  | cocoa4 =>
    have h := sum_spec hf (polyReads_cocoa hbig) (fun p u => (writePolyTerm_stop hf P.names p u).2.1) hstop' (zero_spec_cocoa P.names) hl []
    simp only [readBarePoly]
    rw [expectChar_congr ht]
    obtain ⟨u, hu⟩ : ∃ u, u = sumText .cocoa4 P := ⟨_, rfl⟩
    rw [← hu, List.append_nil] at h
    rw [← hu]
    simp [polyName, expectChar_cons, expectText_cons, stripText, isSpace, h]
  | singular =>
    have h := sum_spec hf (polyReads_singular hn) (fun p u => (writePolyTerm_stop hf P.names p u).1) hstop (zero_spec P.names) hl []
    simp only [readBarePoly]
    rw [expectText_congr ht]
    obtain ⟨u, hu⟩ : ∃ u, u = sumText .singular P := ⟨_, rfl⟩
    rw [← hu, List.append_nil] at h
    rw [← hu]
    simp [polyName, expectChar_cons, expectText_cons, stripText, isSpace, h]
  | fourti2 => exact absurd rfl hf

theorem readPoly_common {f : PolyFormat} (hf : f ≠ .fourti2) {P : NamedPoly} (hn : ValidNames P.names) (hbig : P.names.length < 2 ^ 64)
    (hl : ∀ q ∈ P.terms, q.2.length = P.names.length) : readPoly f (writePoly f P) = some { names := P.names, terms := readBack P } := by
  have hring : RingReads f.io P.names := ringReads_common (by cases f <;> simp_all [PolyFormat.io, IOFormat.common]) hn hbig
  have hw : writePoly f P = writeRing P.names f.io ++ (polyName f ++ sumText f P) := by
    cases f <;> simp_all [writePoly, writePolyFrom, writePolyHeader, polyName, sumText, PolyFormat.io]
  obtain ⟨r', h1, h2⟩ := hring (polyName f ++ sumText f P) (writePoly f P) (by rw [hw])
  have h3 := readBarePoly_spec hf hn hbig hl h2
  simp [readPoly, hf, h1, h3, matchEOF, eatWhite_cons, isSpace, eatWhite_nil]

/-! ## 4ti2 -/

theorem readNonNegative_spec (n : ℕ) {r t : Text} (hr : nextIs isDigit r = false) (ht : eatWhite t = eatWhite (decimal n ++ r)) :
    readNonNegative t = some (n, r) := by
  have hother : readInteger t = some ((n : ℤ), r) := by rw [readInteger_congr ht, readInteger_decimal n hr]
  unfold readNonNegative
  split
  · rename_i u
    have hs : isSpace '0' = false := by decide
    rw [eatWhite_decimal, eatWhite_cons, hs, if_neg (by simp)] at ht
    obtain ⟨c, l, h1, _⟩ := decimal_cons n
    rw [h1, List.cons_append, List.cons.injEq] at ht
    obtain ⟨rfl, rfl⟩ := ht
    have h0 := decimal_head_zero h1
    subst h0
    rw [decimal_zero] at h1
    obtain rfl : l = [] := by simpa using h1.symm
    simp [hr]
  · rw [hother]
    simp

theorem readExponents_spec {e : List ℕ} {r t : Text} (hr : nextIs isDigit r = false) (ht : eatWhite t = eatWhite ((e.flatMap fun a => ' ' :: decimal a) ++ r)) :
    ∃ r', readTimes readExponentNonNegative e.length [] t = some (e, r') ∧ eatWhite r' = eatWhite r := by
  obtain ⟨s', r', g1, g2, g3⟩ := readTimes_spec (item := readExponentNonNegative) (tx := fun a => ' ' :: decimal a) (Inv := fun s xs => s ++ xs = e)
    (Stop := fun r => nextIs isDigit r = false) (Good := fun _ => True)
    (fun s x xs r t hInv hr ht => ⟨s ++ [x], r, by
      unfold readExponentNonNegative
      rw [readNonNegative_spec x hr (by rw [ht, List.cons_append, eatWhite_cons]; simp [isSpace])]
      rfl, by simpa using hInv, rfl⟩)
    (fun x u _ => by simp [nextIs, isDigit]) hr e [] t rfl (fun _ _ => trivial) ht
  refine ⟨r', ?_, g3⟩
  rw [g1]
  simpa using g2

/-- The text of a term of a polynomial in the format of 4ti2. -/
def polyTermText4ti2 (p : ℤ × List ℕ) : Text := decimalInt p.1 ++ if p.2 ≠ [] then ' ' :: writeTerm4ti2 p.2 else t!"\n"

theorem readPolyTerm4ti2_spec {n : ℕ} {p : ℤ × List ℕ} (hl : p.2.length = n) (ps : List (ℤ × List ℕ)) {r t : Text}
    (ht : eatWhite t = eatWhite (polyTermText4ti2 p ++ r)) :
    ∃ r', readPolyTerm4ti2 n ps t = some (ps ++ [p], r') ∧ eatWhite r' = eatWhite r := by
  subst hl
  obtain ⟨c, e⟩ := p
  have hx : ∃ u, polyTermText4ti2 (c, e) ++ r = decimalInt c ++ u ∧ nextIs isDigit u = false ∧
      eatWhite u = eatWhite ((e.flatMap fun a => ' ' :: decimal a) ++ '\n' :: r) := by
    by_cases he : e = []
    · subst he
      exact ⟨'\n' :: r, by simp [polyTermText4ti2], by simp [nextIs, isDigit], by simp⟩
    · exact ⟨' ' :: (writeTerm4ti2 e ++ r), by simp [polyTermText4ti2, he], by simp [nextIs, isDigit], by
        rw [eatWhite_cons]
        simp [isSpace, writeTerm4ti2, he]⟩
  obtain ⟨u, h1, h2, h3⟩ := hx
  obtain ⟨r', g1, g2⟩ := readExponents_spec (r := '\n' :: r) (by simp [nextIs, isDigit]) h3
  refine ⟨r', ?_, by rw [g2, eatWhite_cons]; simp [isSpace]⟩
  rw [h1] at ht
  unfold readPolyTerm4ti2
  rw [readInteger_congr ht, readInteger_decimalInt c h2]
  simp only [Option.bind_eq_bind, Option.bind_some]
  rw [g1]
  rfl

theorem readNameAdd_spec {names ns xs : List Text} {x : Text} (hn : ValidNames names) (h : NameInv names ns (x :: xs)) {r t : Text}
    (hr : nextIs isIdChar r = false) (ht : eatWhite t = eatWhite (x ++ r)) : readNameAdd ns t = some (ns ++ [x], r) := by
  have hx : ValidName x := hn.valid x (by rw [← h]; simp)
  have hnot : x ∉ ns := by
    have := hn.nodup
    rw [← h, List.nodup_append] at this
    exact fun hx => this.2.2 x hx x (by simp) rfl
  unfold readNameAdd
  rw [readIdentifier_congr ht, hx.readIdentifier hr]
  simp [hnot]

theorem readNamesAdd_spec {names : List Text} (hn : ValidNames names) (hne : names ≠ []) {r t : Text} (ht : eatWhite t = eatWhite (writeRing4ti2 names ++ r)) :
    ∃ r', readTimes readNameAdd names.length [] t = some (names, r') ∧ eatWhite r' = eatWhite r := by
  rw [writeRing4ti2_eq hne, List.append_assoc] at ht
  obtain ⟨s', r', g1, g2, g3⟩ := readTimes_spec (item := readNameAdd) (tx := fun x : Text => ' ' :: x) (Inv := NameInv names)
    (Stop := fun r => nextIs isIdChar r = false) (Good := fun _ => True)
    (fun s x xs r t hInv hr ht => ⟨s ++ [x], r, readNameAdd_spec hn hInv hr (t := t) (by rw [ht, List.cons_append, eatWhite_cons]; simp [isSpace]),
      by simpa [NameInv] using hInv, rfl⟩)
    (fun x u _ => by simp [nextIs, isIdChar, isAlpha, isDigit]) (r := t!"\n" ++ r) (by simp [nextIs, isIdChar, isAlpha, isDigit]) names [] t rfl
    (fun _ _ => trivial) ht
  have : s' = names := by simpa [NameInv] using g2
  refine ⟨r', by rw [g1, this], ?_⟩
  rw [g3]
  simp [eatWhite_cons, isSpace]

theorem readPoly_4ti2 {P : NamedPoly} (hn : ValidNames P.names) (hbig : P.names.length + 1 < 2 ^ 64) (hbig' : P.terms.length < 2 ^ 64)
    (hl : ∀ q ∈ P.terms, q.2.length = P.names.length) : readPoly .fourti2 (writePoly .fourti2 P) = some P := by
  obtain ⟨v, hv⟩ : ∃ v, v = if P.names = defaultNames P.names.length then t!"\n" else writeRing4ti2 P.names := ⟨_, rfl⟩
  have hw : writePoly .fourti2 P = decimal P.terms.length ++ (' ' :: (decimal (P.names.length + 1) ++ ('\n' ::
      (P.terms.flatMap polyTermText4ti2 ++ (t!"(coefficient)" ++ v))))) := by
    have h1 : writePolyTerms false .fourti2 P.names true P.terms = P.terms.flatMap polyTermText4ti2 := by
      cases P.terms with
      | nil => rfl
      | cons p ps => rw [writePolyTerms, writePolyTerms_false]; rfl
    simp only [writePoly, writePolyFrom, Bool.false_and, h1, writePolyHeader, writePolyFooter, ← hv]
    simp
  obtain ⟨s', r', g1, g2, g3⟩ := readTimes_spec (item := readPolyTerm4ti2 P.names.length) (tx := polyTermText4ti2)
    (Inv := fun s xs => s ++ xs = P.terms ∧ ∀ q ∈ xs, q.2.length = P.names.length) (Stop := fun _ => True) (Good := fun _ => True)
    (fun s x xs r t hInv _ ht => by
      obtain ⟨r', h1, h2⟩ := readPolyTerm4ti2_spec (hInv.2 x (by simp)) s ht
      exact ⟨_, r', h1, ⟨by simpa using hInv.1, fun q hq => hInv.2 q (by simp [hq])⟩, h2⟩)
    (fun _ _ _ => trivial) (r := t!"(coefficient)" ++ v) trivial P.terms []
    ('\n' :: (P.terms.flatMap polyTermText4ti2 ++ (t!"(coefficient)" ++ v))) ⟨rfl, hl⟩ (fun _ _ => trivial) (by rw [eatWhite_cons]; simp [isSpace])
  have hs : s' = P.terms := by simpa using g2.1
  subst hs
  have h1 : readSizeT (writePoly .fourti2 P) = some (P.terms.length, ' ' :: (decimal (P.names.length + 1) ++ ('\n' ::
      (P.terms.flatMap polyTermText4ti2 ++ (t!"(coefficient)" ++ v))))) := by
    rw [hw, readSizeT_decimal hbig' (by simp [nextIs, isDigit])]
  have h2 : readSizeT (' ' :: (decimal (P.names.length + 1) ++ ('\n' :: (P.terms.flatMap polyTermText4ti2 ++ (t!"(coefficient)" ++ v))))) =
      some (P.names.length + 1, '\n' :: (P.terms.flatMap polyTermText4ti2 ++ (t!"(coefficient)" ++ v))) := by
    rw [readSizeT_congr (u := decimal (P.names.length + 1) ++ ('\n' :: (P.terms.flatMap polyTermText4ti2 ++ (t!"(coefficient)" ++ v))))
      (by rw [eatWhite_cons]; simp [isSpace]), readSizeT_decimal hbig (by simp [nextIs, isDigit])]
  have h3 : matchChar '(' r' = (true, t!"coefficient)" ++ v) := by
    rw [matchChar_congr g3]
    simp [matchChar_cons, isSpace]
  have h4 : expectText t!"coefficient" (t!"coefficient)" ++ v) = some (')' :: v) := by simp [expectText_cons, stripText, isSpace]
  have h5 : expectChar ')' (')' :: v) = some v := by simp [expectChar_cons, isSpace]
  have h6 : ∃ r'', readPoly4ti2 (writePoly .fourti2 P) = some (P, r'') ∧ eatWhite r'' = [] := by
    unfold readPoly4ti2
    simp only [h1, h2, g1, h3, h4, h5, Option.bind_eq_bind, Option.bind_some, if_true, Nat.add_sub_cancel, Nat.add_one_ne_zero, if_false]
    by_cases hd : P.names = defaultNames P.names.length
    · rw [if_pos hd] at hv
      subst hv
      refine ⟨t!"\n", ?_, by simp [eatWhite_cons, isSpace, eatWhite_nil]⟩
      rw [← hd]
      simp [peekIdentifier_cons, isSpace, peekIdentifier_nil]
    · rw [if_neg hd] at hv
      have hne : P.names ≠ [] := fun h => hd (by rw [h]; rfl)
      obtain ⟨r'', f1, f2⟩ := readNamesAdd_spec hn hne (r := []) (t := v) (by rw [hv]; simp)
      refine ⟨r'', ?_, by rw [f2]; rfl⟩
      have hp := peekIdentifier_writeRing4ti2 hn hne []
      rw [List.append_nil, ← hv] at hp
      rw [hp]
      simp [f1]
  obtain ⟨r'', h7, h8⟩ := h6
  simp [readPoly, h7, matchEOF, h8]

/-! ## terms with a translator -/

theorem writePowersTr_eq : ∀ (names : List Text) (seen : Bool) (e : List ℕ), writePowersTr seen names e = writePowers seen names e := by
  intro names
  induction names with
  | nil => intro seen e; cases e <;> rfl
  | cons x names ih =>
    intro seen e
    cases e with
    | nil => rfl
    | cons a e =>
      unfold writePowersTr writePowers varExponentString
      by_cases h : a = 0
      · simp [h, ih]
      · by_cases h1 : a = 1
        · simp [h1, ih, writePower]
        · simp [h, h1, ih, writePower]

theorem writeTermProductTr_eq (names : List Text) (e : List ℕ) : writeTermProductTr names e = writeTermProduct names e := writePowersTr_eq names false e

theorem writePolyTerms_tr {f : PolyFormat} (hf : f ≠ .cocoa4) (names : List Text) : ∀ (ps : List (ℤ × List ℕ)) (first : Bool),
    writePolyTerms true f names first ps = writePolyTerms false f names first ps := by
  intro ps
  induction ps with
  | nil => intro first; rfl
  | cons p ps ih =>
    intro first
    rw [writePolyTerms, writePolyTerms, ih]
    cases f with
    | m2 => simp [writePolyTerm, writeCoefTerm, writeProduct, writeTermProductTr_eq]
    | cocoa4 => exact absurd rfl hf
    | singular => simp [writePolyTerm, writeCoefTerm, writeProduct, writeTermProductTr_eq]
    | fourti2 => simp [writePolyTerm, writeProduct4ti2, writeTerm4ti2Tr, writeTerm4ti2, exponentString]

theorem writePolyTr_eq {f : PolyFormat} (hf : f ≠ .cocoa4) (P : NamedPoly) : writePolyTr f P = writePoly f P := by
  unfold writePolyTr writePoly writePolyFrom
  by_cases h : f = .fourti2
  · subst h; rfl
  · simp [h, writePolyTerms_tr hf]

theorem writeGensTr_eq {f : IOFormat} (hf : f ≠ .cocoa4) (names : List Text) : ∀ (es : List (List ℕ)) (first : Bool),
    writeGensTr f names first es = writeGens f names first es := by
  intro es
  induction es with
  | nil => intro first; rfl
  | cons e es ih =>
    intro first
    rw [writeGensTr, writeGens, ih]
    cases f <;> simp_all [writeGenTr, writeGen, writeTermProductTr_eq]

theorem writeIdealTr_eq {f : IOFormat} (hf : f ≠ .cocoa4) (I : NamedIdeal) : writeIdealTr f I = writeIdeal f I := by
  rw [writeIdealTr, writeGensTr_eq hf]
  rfl

/-! ## ideals with a translator in the format of CoCoA 4 -/

theorem writePowersCoCoATr_eq {e : List ℕ} : ∀ (es : List ℕ) (i : ℕ) (seen : Bool), (∀ j, es.getD j 0 = e.getD (i + j) 0) →
    writePowersCoCoATr seen i es = if es = [] ∧ seen = false then t!"1" else (List.range' i es.length).flatMap (powerTextCoCoA e) := by
  intro es
  induction es with
  | nil => intro i seen _; cases seen <;> simp [writePowersCoCoATr]
  | cons a es ih =>
    intro i seen he
    have h1 := ih (i + 1) true (fun j => by have := he (j + 1); rw [List.getD_cons_succ] at this; rw [this]; congr 1; omega)
    have ha : a = e.getD i 0 := by simpa using he 0
    have hd : decimal a ≠ t!"1" ↔ a ≠ 1 := not_congr decimal_eq_one_iff
    simp only [writePowersCoCoATr, exponentString, h1, List.length_cons, List.range'_succ, List.flatMap_cons, powerTextCoCoA, ← ha]
    by_cases h : a = 1
    · simp [h, decimal_one]
    · simp [h, decimal_eq_one_iff]

theorem PowerInv.start_all {e : List ℕ} {k : InputConsumer} (hl : e.length = k.names.length) :
    PowerInv k.names e k.gens k.beginTerm (List.range' 0 e.length) := by
  refine ⟨rfl, ⟨List.replicate k.names.length 0, rfl, by simp [hl], fun i => ?_⟩, List.nodup_range', fun i hi => by simpa using hi⟩
  have h1 : (List.replicate k.names.length 0).getD i 0 = 0 := by
    rw [List.getD_eq_getElem?_getD, List.getElem?_replicate]
    split <;> rfl
  rw [h1]
  split
  · rfl
  · rename_i h
    exact (List.getD_eq_default _ _ (by simpa using h)).symm

theorem termReads_cocoaTr {sf : Bool} {names : List Text} (hbig : names.length < 2 ^ 64) :
    TermReads sf names (InputConsumer.readTermCoCoA sf) writeTermCoCoATr (fun r => PowerStopCoCoA r ∧ peekChar 'x' r = false) := by
  intro k e r t hk he hr ht
  subst hk
  have hw := writePowersCoCoATr_eq (e := e) e 0 false (fun j => by simp)
  have hstart := PowerInv.start_all (k := k) he.length
  unfold writeTermCoCoATr at ht
  unfold InputConsumer.readTermCoCoA
  rw [hw] at ht
  by_cases hz : e = []
  · subst hz
    refine ⟨k.beginTerm, r, ?_, rfl, hstart.done, rfl⟩
    rw [matchChar_congr ht]
    simp [matchChar_cons, isSpace]
  · rw [if_neg (by simp [hz])] at ht
    obtain ⟨j, js, hjs⟩ : ∃ j js, List.range' 0 e.length = j :: js := List.exists_cons_of_ne_nil (by simpa using hz)
    rw [hjs] at hstart ht
    rw [List.flatMap_cons] at ht
    simp only [List.append_assoc] at ht
    have hm : matchChar '1' t = (false, powerTextCoCoA e j ++ (js.flatMap (powerTextCoCoA e) ++ r)) := by
      rw [matchChar_congr ht]
      simp [powerTextCoCoA, matchChar_cons, isSpace]
    rw [hm]
    simp only
    obtain ⟨k', r', g1, g2, g3⟩ := readWhileX_spec (item := InputConsumer.readPowerCoCoA sf) (tx := powerTextCoCoA e)
      (Inv := PowerInv k.names e k.gens) (Stop := PowerStopCoCoA)
      (fun s x xs r t hInv hr ht => by
        have hx : x < k.names.length := he.length ▸ hInv.hlt x (by simp)
        obtain ⟨k', r', f1, f2, f3, f4⟩ := readPowerCoCoA_spec (sf := sf) (k := s) (e := e) (i := x) (by rw [hInv.hnames]; exact hx)
          (by rw [hInv.hnames]; exact hbig) hInv.exponent (fun h => he.sqf h x) hr ht
        exact ⟨k', r', f1, hInv.step f2 f3, f4⟩)
      (powerStop_powerTextCoCoA e)
      (fun x u => by simp [powerTextCoCoA, peekChar_cons, isSpace]) hr.1 hr.2 js j
      (powerTextCoCoA e j ++ (js.flatMap (powerTextCoCoA e) ++ r)).length k.beginTerm _ hstart
      (by
        have := length_le_flatMap (powerTextCoCoA e) (by simp [powerTextCoCoA]) js
        have h2 : 0 < (powerTextCoCoA e j).length := by simp [powerTextCoCoA]
        rw [List.length_append, List.length_append]
        omega) rfl
    exact ⟨k', r', g1, g2.hnames, g2.done, g3⟩

theorem writeTermCoCoATr_head (e : List ℕ) : ∃ c l, writeTermCoCoATr e = c :: l ∧ (c = 'x' ∨ c = '1') := by
  unfold writeTermCoCoATr
  rw [writePowersCoCoATr_eq (e := e) e 0 false (fun j => by simp)]
  cases e with
  | nil => exact ⟨'1', [], rfl, Or.inr rfl⟩
  | cons a e => exact ⟨'x', _, rfl, Or.inl rfl⟩

theorem writeGensTr_cocoa (names : List Text) (e : List ℕ) (es : List (List ℕ)) :
    writeGensTr .cocoa4 names true (e :: es) = t!"\n " ++ gensText writeTermCoCoATr (e :: es) := by
  have h : ∀ es : List (List ℕ), writeGensTr .cocoa4 names false es = es.flatMap (fun y => ',' :: (t!"\n " ++ writeTermCoCoATr y)) := by
    intro es
    induction es with
    | nil => rfl
    | cons y ys ih =>
      rw [writeGensTr, ih, List.flatMap_cons]
      simp [writeGenTr]
  rw [writeGensTr, h]
  simp [gensText, writeGenTr]

theorem readBareCoCoATr_spec {sf : Bool} {I : NamedIdeal} (hbig : I.names.length < 2 ^ 64) (hgood : ∀ e ∈ I.terms, GoodTerm sf I.names e) {t : Text}
    (ht : eatWhite t = eatWhite (t!"I := Ideal(" ++ (writeGensTr .cocoa4 I.names true I.terms ++ writeFooter I.names I.terms.isEmpty .cocoa4))) :
    ∃ k r', readBare sf .cocoa4 I.names t = some (k, r') ∧ k.names = I.names ∧ k.gens.reverse = I.terms ∧ eatWhite r' = [] := by
  simp only [readBare, readBareCoCoA]
  rw [expectChar_congr ht]
  cases hI : I.terms with
  | nil =>
    refine ⟨.beginIdeal I.names, t!"\n", ?_, rfl, by simp [InputConsumer.beginIdeal], by simp [eatWhite_cons, isSpace, eatWhite_nil]⟩
    simp [writeGensTr, writeFooter, expectChar_cons, expectText_cons, stripText, matchChar_cons, isSpace]
  | cons e es =>
    rw [hI] at hgood
    obtain ⟨u, hu⟩ : ∃ u, u = gensText writeTermCoCoATr (e :: es) ++ t!"\n);\n" := ⟨_, rfl⟩
    have hm : matchChar ')' ('\n' :: ' ' :: u) = (false, u) := by
      obtain ⟨c, l, h1, h2⟩ := writeTermCoCoATr_head e
      rw [hu, gensText, h1]
      rcases h2 with rfl | rfl <;> simp [matchChar_cons, isSpace]
    obtain ⟨k', r', f1, f2, f3, f4⟩ := readTerms_spec (termReads_cocoaTr hbig) (fun k t u h => readTermCoCoA_congr h)
      (fun u => by simp [PowerStopCoCoA, nextIs, isDigit, peekChar_cons, isSpace]) (by simp) hgood (r := t!"\n);\n")
      (by simp [PowerStopCoCoA, nextIs, isDigit, peekChar_cons, isSpace]) (by simp [peekChar_cons, isSpace]) (t := u) (by rw [hu])
      (fuel := u.length + 2) (by simp only [hu, List.length_append, List.length_cons]; omega)
    refine ⟨k', t!"\n", ?_, f2, f3, by simp [eatWhite_cons, isSpace, eatWhite_nil]⟩
    have hb : t!"I := Ideal(" ++ (writeGensTr .cocoa4 I.names true (e :: es) ++ writeFooter I.names (e :: es).isEmpty .cocoa4) =
        t!"I := Ideal(" ++ '\n' :: ' ' :: u := by
      rw [writeGensTr_cocoa, hu]
      simp [writeFooter]
    rw [hb]
    simp [expectChar_cons, expectText_cons, stripText, isSpace, hm]
    rw [f1]
    simp only [Option.bind_some]
    rw [expectChar_congr f4]
    simp [expectChar_cons, isSpace, matchChar_cons]

theorem readIdealTr_spec {sf : Bool} {f : IOFormat} {I : NamedIdeal} (hI : Readable sf I) :
    (if sf then readSquareFreeIdeal f (writeIdealTr f I) else readIdeal f (writeIdealTr f I)) = some I := by
  by_cases hf : f = .cocoa4
  · subst hf
    obtain ⟨r1, h1, h2⟩ := ringReads_cocoa hI.names hI.varCount
      (t!"I := Ideal(" ++ (writeGensTr .cocoa4 I.names true I.terms ++ writeFooter I.names I.terms.isEmpty .cocoa4)) (writeIdealTr .cocoa4 I)
      (by simp [writeIdealTr, writeHeader])
    obtain ⟨k, r', h3, h4, h5, h6⟩ := readBareCoCoATr_spec hI.varCount hI.terms h2
    have hk : k.release = I := by
      unfold InputConsumer.release
      rw [h4, h5]
    have hc : readConsumer sf .cocoa4 (writeIdealTr .cocoa4 I) = some (k, r') := by
      simp [readConsumer, h1, h3]
    cases sf with
    | false => simp [readIdeal, hc, matchEOF, h6, hk]
    | true => simp [readSquareFreeIdeal, hc, matchEOF, h6, hk]
  · rw [writeIdealTr_eq hf]
    exact readIdeal_spec hI

end Frobby

import Verif.IOLemmas

/-!
# Rings and ideals are read as they are written
-/

namespace Frobby

/-! ## rings -/

/-- A ring is read as it is written. -/
def RingReads (f : IOFormat) (names : List Text) : Prop :=
  ∀ (r t : Text), eatWhite t = eatWhite (writeRing names f ++ r) → ∃ r', readRing f t = some (names, r') ∧ eatWhite r' = eatWhite r

theorem ringReads_m2 {names : List Text} (hn : ValidNames names) : RingReads .m2 names := by
  intro r t ht
  refine ⟨t!"\n" ++ r, ?_, by simp [eatWhite_cons, isSpace]⟩
  have h1 : readIdentifier t = some (ringName names, t!" = QQ[" ++ (writeNames t!", " names ++ (t!"];\n" ++ r))) := by
    rw [readIdentifier_congr ht]
    simp only [writeRing, List.append_assoc]
    exact (ringName_valid names).readIdentifier (by simp [nextIs, isIdChar, isAlpha, isDigit])
  simp only [readRing, readRingM2]
  rw [h1]
  simp only [Option.bind_eq_bind, Option.bind_some, ringName_head, ne_eq, not_true, if_false, List.cons_append, List.nil_append]
  simp only [expectChar_cons, expectText_cons, peekChar_cons, stripText, isSpace, Char.reduceToNat, Option.bind_some, Char.reduceEq,
    decide_false, decide_true, if_true, if_false, Nat.reduceEqDiff, Nat.reduceLeDiff, and_false, or_false, or_self,
    Bool.false_eq_true]
  by_cases hne : names = []
  · subst hne
    simp [writeNames, matchChar_cons, peekIdentifier_cons, expectChar_cons, isSpace, isAlpha]
  · cases names with
    | nil => exact absurd rfl hne
    | cons x xs =>
      have hx := hn.valid x (by simp)
      have e1 : writeNames [',', ' '] (x :: xs) ++ (']' :: ';' :: '\n' :: r) =
          x ++ (xs.flatMap (fun y => ',' :: ([' '] ++ y)) ++ (']' :: ';' :: '\n' :: r)) := by
        rw [writeNames_eq, List.append_assoc]
      have hm : matchChar '{' (writeNames [',', ' '] (x :: xs) ++ (']' :: ';' :: '\n' :: r)) =
          (false, writeNames [',', ' '] (x :: xs) ++ (']' :: ';' :: '\n' :: r)) := by
        rw [e1, matchChar_false (hx.peekChar (by decide) _), hx.eatWhite]
      have hp : peekIdentifier (writeNames [',', ' '] (x :: xs) ++ (']' :: ';' :: '\n' :: r)) = true := by
        rw [e1, hx.peekIdentifier]
      obtain ⟨r', g1, g2⟩ := readNames_spec hn hne (r := ']' :: ';' :: '\n' :: r) (by simp [nextIs, isIdChar, isAlpha, isDigit])
        (by simp [peekChar_cons, isSpace]) (t := writeNames [',', ' '] (x :: xs) ++ (']' :: ';' :: '\n' :: r))
        (fuel := (writeNames [',', ' '] (x :: xs) ++ (']' :: ';' :: '\n' :: r)).length) rfl (by rw [List.length_append]; omega)
      rw [hm]
      simp only [hp, if_true, g1, Option.bind_some, Bool.false_eq_true, if_false]
      rw [expectChar_congr g2]
      simp [expectChar_cons, isSpace]

theorem readNamesCoCoA_spec {names : List Text} (hn : ValidNames names) : ∀ (xs : List Text) (x : Text) (ns : List Text) (r t : Text),
    ns ++ x :: xs = names → eatWhite t = eatWhite (t!"\"" ++ writeNames t!"\", \"" (x :: xs) ++ t!"\"" ++ r) →
      readTimes readNameCoCoA (xs.length + 1) (xs.length + 1, ns) t = some ((0, names), r) := by
  intro xs
  induction xs with
  | nil =>
    intro x ns r t h ht
    have hx : ValidName x := hn.valid x (by rw [← h]; simp)
    obtain ⟨h1, h2⟩ := readName_spec hn (ns := ns) (xs := []) (x := x) (r := '"' :: r) (t := x ++ '"' :: r) h
      (by simp [nextIs, isIdChar, isAlpha, isDigit]) rfl
    have h3 : peekWhite (x ++ '"' :: r) = false := by
      obtain ⟨c, l, rfl, hc, _⟩ := hx
      simp [peekWhite, nextIs, isSpace_of_isAlpha hc]
    have h4 : expectChar '"' t = some (x ++ '"' :: r) := by
      rw [expectChar_congr ht]
      simp [writeNames, expectChar_cons, isSpace]
    have h5 : peekWhite ('"' :: r) = false := by simp [peekWhite, nextIs, isSpace]
    have h6 : expectChar '"' ('"' :: r) = some r := by simp [expectChar_cons, isSpace]
    have : ns ++ [x] = names := h
    simp [readTimes, readNameCoCoA, h4, h3, h1, h5, h6, this]
  | cons y ys ih =>
    intro x ns r t h ht
    have hx : ValidName x := hn.valid x (by rw [← h]; simp)
    obtain ⟨u, hu⟩ : ∃ u, u = t!"\"" ++ writeNames t!"\", \"" (y :: ys) ++ t!"\"" ++ r := ⟨_, rfl⟩
    obtain ⟨h1, h2⟩ := readName_spec hn (ns := ns) (xs := y :: ys) (x := x) (r := '"' :: ',' :: ' ' :: u) (t := x ++ '"' :: ',' :: ' ' :: u) h
      (by simp [nextIs, isIdChar, isAlpha, isDigit]) rfl
    have h3 : peekWhite (x ++ '"' :: ',' :: ' ' :: u) = false := by
      obtain ⟨c, l, rfl, hc, _⟩ := hx
      simp [peekWhite, nextIs, isSpace_of_isAlpha hc]
    have h4 : expectChar '"' t = some (x ++ '"' :: ',' :: ' ' :: u) := by
      rw [expectChar_congr ht, hu]
      rw [writeNames_eq, writeNames_eq]
      simp [expectChar_cons, isSpace]
    have h5 : peekWhite ('"' :: ',' :: ' ' :: u) = false := by simp [peekWhite, nextIs, isSpace]
    have h6 : expectChar '"' ('"' :: ',' :: ' ' :: u) = some (',' :: ' ' :: u) := by simp [expectChar_cons, isSpace]
    have h7 : expectChar ',' (',' :: ' ' :: u) = some (' ' :: u) := by simp [expectChar_cons, isSpace]
    have h8 := ih y (ns ++ [x]) r (' ' :: u) (by simpa using h) (by rw [eatWhite_cons, hu]; simp [isSpace])
    have h9 : ¬ (ys.length + 1 + 1 ≤ 1) := by omega
    have h10 : readNameCoCoA (ys.length + 1 + 1, ns) t = some ((ys.length + 1, ns ++ [x]), ' ' :: u) := by
      simp only [readNameCoCoA, h4, h3, h1, h5, h6, h7, h9, Bool.false_eq_true, if_false, Option.map_some, Nat.add_sub_cancel]
    rw [List.length_cons]
    unfold readTimes
    rw [h10]
    exact h8

theorem ringReads_cocoa {names : List Text} (hn : ValidNames names) (hbig : names.length < 2 ^ 64) : RingReads .cocoa4 names := by
  intro r t ht
  refine ⟨t!"\n" ++ r, ?_, by simp [eatWhite_cons, isSpace]⟩
  simp only [readRing, readRingCoCoA]
  rw [expectText_congr ht]
  by_cases hne : names = []
  · subst hne
    simp [writeRing, expectText_cons, expectChar_cons, stripText, matchChar_cons, isSpace, readTimes]
  · simp only [writeRing, hne, if_false, List.append_assoc, List.cons_append, List.nil_append]
    simp [expectText_cons, expectChar_cons, stripText, matchChar_cons, isSpace]
    rw [readSizeT_decimal hbig (by simp [nextIs, isDigit])]
    simp [expectText_cons, expectChar_cons, stripText, isSpace]
    cases names with
    | nil => exact absurd rfl hne
    | cons x xs =>
      rw [List.length_cons, readNamesCoCoA_spec hn xs x [] (']' :: ';' :: '\n' :: r) _ rfl (by simp)]
      simp [expectChar_cons, isSpace]

theorem ringReads_singular {names : List Text} (hn : ValidNames names) : RingReads .singular names := by
  intro r t ht
  refine ⟨t!"\n" ++ r, ?_, by simp [eatWhite_cons, isSpace]⟩
  simp only [readRing, readRingSingular]
  rw [expectText_congr ht]
  by_cases hne : names = []
  · subst hne
    have hd : ValidNames [t!"dummy"] := ⟨by simp; exact ⟨'d', _, rfl, by decide, by decide⟩, by simp⟩
    simp [writeRing, expectText_cons, expectChar_cons, stripText, isSpace]
    obtain ⟨r', g1, g2⟩ := readNames_spec hd (by simp) (r := t!"), lp;\nint noVars = 1;\n" ++ r) (by simp [nextIs, isIdChar, isAlpha, isDigit])
        (by simp [peekChar_cons, isSpace]) (t := t!"dummy), lp;\nint noVars = 1;\n" ++ r) (fuel := r.length + 28) rfl (by simp [writeNames])
    simp only [List.cons_append, List.nil_append] at g1
    simp only [Nat.add_assoc, Nat.reduceAdd]
    rw [g1]
    simp only [Option.bind_some]
    rw [expectChar_congr g2]
    simp [expectText_cons, expectChar_cons, stripText, isSpace, matchChar_cons]
  · simp only [writeRing, hne, if_false, List.append_assoc, List.cons_append, List.nil_append]
    simp [expectText_cons, expectChar_cons, stripText, isSpace]
    obtain ⟨r', g1, g2⟩ := readNames_spec hn hne (r := t!"), lp;\nint noVars = 0;\n" ++ r) (by simp [nextIs, isIdChar, isAlpha, isDigit])
        (by simp [peekChar_cons, isSpace]) (t := writeNames t!", " names ++ (t!"), lp;\nint noVars = 0;\n" ++ r))
        (fuel := (writeNames [',', ' '] names).length + (r.length + 23)) rfl (by omega)
    simp only [List.cons_append, List.nil_append] at g1
    simp only [Nat.add_assoc, Nat.reduceAdd]
    rw [g1]
    simp only [Option.bind_some]
    rw [expectChar_congr g2]
    simp [expectText_cons, expectChar_cons, stripText, isSpace, matchChar_cons]

theorem ringReads_monos {names : List Text} (hn : ValidNames names) : RingReads .monos names := by
  intro r t ht
  refine ⟨t!"\n" ++ r, ?_, by simp [eatWhite_cons, isSpace]⟩
  simp only [readRing, readRingMonos]
  rw [expectText_congr ht]
  by_cases hne : names = []
  · subst hne
    simp [writeRing, expectText_cons, stripText, isSpace, writeNames, matchChar_cons]
  · cases names with
    | nil => exact absurd rfl hne
    | cons x xs =>
      have hx := hn.valid x (by simp)
      have e1 : writeNames [',', ' '] (x :: xs) ++ (';' :: '\n' :: r) =
          x ++ (xs.flatMap (fun y => ',' :: ([' '] ++ y)) ++ (';' :: '\n' :: r)) := by
        rw [writeNames_eq, List.append_assoc]
      have hm : matchChar ';' (writeNames [',', ' '] (x :: xs) ++ (';' :: '\n' :: r)) =
          (false, writeNames [',', ' '] (x :: xs) ++ (';' :: '\n' :: r)) := by
        rw [e1, matchChar_false (hx.peekChar (by decide) _), hx.eatWhite]
      have hm' : matchChar ';' (' ' :: (writeNames [',', ' '] (x :: xs) ++ (';' :: '\n' :: r))) =
          (false, writeNames [',', ' '] (x :: xs) ++ (';' :: '\n' :: r)) := by
        rw [matchChar_cons, hm]
        simp [isSpace]
      obtain ⟨r', g1, g2⟩ := readNames_spec hn hne (r := ';' :: '\n' :: r) (by simp [nextIs, isIdChar, isAlpha, isDigit])
        (by simp [peekChar_cons, isSpace]) (t := writeNames [',', ' '] (x :: xs) ++ (';' :: '\n' :: r))
        (fuel := (writeNames [',', ' '] (x :: xs) ++ (';' :: '\n' :: r)).length) rfl (by rw [List.length_append]; omega)
      simp only [writeRing, List.append_assoc, List.cons_append, List.nil_append]
      simp only [expectText_cons, stripText, isSpace, Char.reduceToNat, if_true, Nat.reduceEqDiff, Nat.reduceLeDiff, and_false, or_self, decide_false,
        Bool.false_eq_true, if_false, Option.bind_eq_bind, Option.bind_some, hm', g1]
      rw [expectChar_congr g2]
      simp [expectChar_cons, isSpace]

/-! ## generators -/

/-- What is known while generators are read. -/
def TermInv (sf : Bool) (names : List Text) (terms : List (List ℕ)) (k : InputConsumer) (xs : List (List ℕ)) : Prop :=
  k.names = names ∧ k.gens.reverse ++ xs = terms ∧ ∀ e ∈ xs, GoodTerm sf names e

theorem TermInv.step {sf : Bool} {names : List Text} {terms xs : List (List ℕ)} {k k' : InputConsumer} {e : List ℕ} (h : TermInv sf names terms k (e :: xs))
    (hn : k'.names = names) (hg : k'.gens = e :: k.gens) : TermInv sf names terms k' xs := by
  refine ⟨hn, ?_, fun x hx => h.2.2 x (by simp [hx])⟩
  rw [hg, List.reverse_cons, List.append_assoc]
  exact h.2.1

theorem readTermM2_congr {sf : Bool} {k : InputConsumer} {t u : Text} (h : eatWhite t = eatWhite u) : k.readTermM2 sf t = k.readTermM2 sf u := by
  unfold InputConsumer.readTermM2
  rw [readTermProduct_congr h]

theorem readTermCoCoA_congr {sf : Bool} {k : InputConsumer} {t u : Text} (h : eatWhite t = eatWhite u) :
    k.readTermCoCoA sf t = k.readTermCoCoA sf u := by
  unfold InputConsumer.readTermCoCoA
  rw [matchChar_congr h]

/-- Generators with commas between them. -/
def gensText (tx : List ℕ → Text) : List (List ℕ) → Text
  | [] => []
  | e :: es => tx e ++ es.flatMap (fun y => ',' :: (t!"\n " ++ tx y))

theorem readTerms_spec {sf : Bool} {names : List Text} {item : InputConsumer → Text → Option (InputConsumer × Text)} {tx : List ℕ → Text} {Stop : Text → Prop}
    (hitem : TermReads sf names item tx Stop) (hcongr : ∀ k t u, eatWhite t = eatWhite u → item k t = item k u) (hstop : ∀ u, Stop (',' :: u))
    {terms : List (List ℕ)} (hne : terms ≠ []) (hgood : ∀ e ∈ terms, GoodTerm sf names e) {r : Text} (hr : Stop r) (hc : peekChar ',' r = false)
    {t : Text} (ht : eatWhite t = eatWhite (gensText tx terms ++ r)) {fuel : ℕ} (hf : (gensText tx terms).length < fuel) :
    ∃ k' r', readSep item ',' fuel (.beginIdeal names) t = some (k', r') ∧ k'.names = names ∧ k'.gens.reverse = terms ∧
      eatWhite r' = eatWhite r := by
  cases terms with
  | nil => exact absurd rfl hne
  | cons e es =>
    unfold gensText at ht hf
    obtain ⟨k', r', g1, g2, g3⟩ := readSep_spec (item := item) (tx := tx) (Inv := TermInv sf names (e :: es)) (Stop := Stop) (sep := ',')
      (ws := t!"\n ") (by decide) (fun u => by simp [eatWhite_cons, isSpace]) hcongr
      (fun s x xs r hInv hr => by
        obtain ⟨k', r', h1, h2, h3, h4⟩ := hitem s x r (tx x ++ r) hInv.1 (hInv.2.2 x (by simp)) hr rfl
        exact ⟨k', r', h1, hInv.step h2 h3, h4⟩)
      hstop hr hc es e fuel (.beginIdeal names) t ⟨rfl, rfl, hgood⟩
      (by
        have := length_le_flatMap (fun y => ',' :: (t!"\n " ++ tx y)) (by simp) es
        rw [List.length_append] at hf
        omega) (by rw [ht, List.append_assoc])
    exact ⟨k', r', g1, g2.1, by simpa using g2.2.1, g3⟩

/-- The text of a term of each format. -/
def termText (names : List Text) : IOFormat → List ℕ → Text
  | .m2 => termTextM2 names
  | .cocoa4 => writeTermCoCoA
  | .fourti2 => writeTerm4ti2
  | _ => writeTermProduct names

/-- The formats of `IOHandlerCommon`. -/
def IOFormat.common : IOFormat → Bool
  | .newmonos => false
  | .fourti2 => false
  | _ => true

theorem writeGens_common {f : IOFormat} (hf : f.common = true) (names : List Text) (e : List ℕ) (es : List (List ℕ)) :
    writeGens f names true (e :: es) = t!"\n " ++ gensText (termText names f) (e :: es) := by
  have h : ∀ es : List (List ℕ), writeGens f names false es = es.flatMap (fun y => ',' :: (t!"\n " ++ termText names f y)) := by
    intro es
    induction es with
    | nil => simp [writeGens]
    | cons y ys ih =>
      rw [writeGens, ih, List.flatMap_cons]
      cases f <;> simp_all [IOFormat.common, writeGen, termText, termTextM2]
  rw [writeGens, h]
  unfold gensText
  cases f <;> simp_all [IOFormat.common, writeGen, termText, termTextM2]

/-- A term in product notation starts with a letter or 1. -/
theorem writeTermProduct_head {names : List Text} (hn : ValidNames names) {e : List ℕ} (hl : e.length = names.length) :
    ∃ c l, writeTermProduct names e = c :: l ∧ (isAlpha c = true ∨ c = '1') := by
  have hw := (writePowers_eq (names := names) (e := e) e names 0 (fun j => by simp) (fun j => by simp) hl.symm).2
  unfold writeTermProduct
  rw [hw]
  cases hz : nonZeros 0 e with
  | nil => exact ⟨'1', [], rfl, Or.inr rfl⟩
  | cons j js =>
    have hj : j < names.length := by
      have : j ∈ nonZeros 0 e := by rw [hz]; simp
      rw [mem_nonZeros] at this
      by_contra hge
      exact this.2 (List.getD_eq_default _ _ (by omega))
    obtain ⟨c, l, h1, h2, _⟩ := (hn.getD hj).1
    refine ⟨c, ?_⟩
    simp only [powerText, writePower, h1, List.cons_append]
    exact ⟨_, rfl, Or.inl h2⟩

theorem isSpace_of_head {c : Char} (h : isAlpha c = true ∨ c = '1') : isSpace c = false := by
  rcases h with h | rfl
  · exact isSpace_of_isAlpha h
  · decide

theorem termText_head {names : List Text} (hn : ValidNames names) {e : List ℕ} (hl : e.length = names.length) {f : IOFormat} (hf : f ≠ .fourti2) :
    ∃ c l, termText names f e = c :: l ∧ (isAlpha c = true ∨ c = '1') := by
  obtain ⟨c, l, h1, h2⟩ := writeTermProduct_head hn hl
  cases f with
  | m2 => exact ⟨c, l ++ _, by simp only [termText, termTextM2, h1, List.cons_append]; rfl, h2⟩
  | cocoa4 =>
    have hw := (writePowersCoCoA_eq (e := e) e 0 (fun j => by simp)).2
    simp only [termText, writeTermCoCoA]
    rw [hw]
    cases hz : nonZeros 0 e with
    | nil => exact ⟨'1', [], rfl, Or.inr rfl⟩
    | cons j js =>
      refine ⟨'x', ?_⟩
      simp only [powerTextCoCoA, List.cons_append, List.nil_append, List.append_assoc]
      exact ⟨_, rfl, Or.inl (by decide)⟩
  | singular => exact ⟨c, l, h1, h2⟩
  | monos => exact ⟨c, l, h1, h2⟩
  | newmonos => exact ⟨c, l, h1, h2⟩
  | fourti2 => exact absurd rfl hf

theorem gensText_eat {names : List Text} (hn : ValidNames names) {terms : List (List ℕ)} (hl : ∀ e ∈ terms, e.length = names.length) (hne : terms ≠ [])
    {f : IOFormat} (hf : f ≠ .fourti2) (u : Text) :
    eatWhite (gensText (termText names f) terms ++ u) = gensText (termText names f) terms ++ u ∧
    ∀ c, isAlpha c = false → c ≠ '1' → peekChar c (gensText (termText names f) terms ++ u) = false := by
  cases terms with
  | nil => exact absurd rfl hne
  | cons e es =>
    obtain ⟨c, l, h1, h2⟩ := termText_head hn (hl e (by simp)) hf
    simp only [gensText, h1, List.cons_append]
    refine ⟨by rw [eatWhite_cons, isSpace_of_head h2]; simp, fun d hd hd1 => ?_⟩
    rw [peekChar_cons, isSpace_of_head h2]
    simp only [Bool.false_eq_true, if_false, decide_eq_false_iff_not]
    rintro rfl
    rcases h2 with h2 | h2
    · rw [h2] at hd; simp at hd
    · exact hd1 h2

/-- What is written for an ideal without the ring. -/
def bareText (f : IOFormat) (I : NamedIdeal) : Text :=
  (match f with
    | .m2 => t!"I = monomialIdeal("
    | .cocoa4 => t!"I := Ideal("
    | .singular => t!"ideal I ="
    | .monos => t!"["
    | _ => []) ++ writeGens f I.names true I.terms ++ writeFooter I.names I.terms.isEmpty f

/-- An ideal is read as it is written. -/
def BareReads (sf : Bool) (f : IOFormat) (I : NamedIdeal) : Prop :=
  ∀ (r t : Text), eatWhite t = eatWhite (bareText f I ++ r) →
    ∃ k r', readBare sf f I.names t = some (k, r') ∧ k.names = I.names ∧ k.gens.reverse = I.terms ∧ eatWhite r' = eatWhite r

theorem bareReads_m2 {sf : Bool} {I : NamedIdeal} (hn : ValidNames I.names) (hgood : ∀ e ∈ I.terms, GoodTerm sf I.names e) : BareReads sf .m2 I := by
  intro r t ht
  simp only [readBare, readBareM2]
  rw [expectChar_congr ht]
  by_cases hne : I.terms = []
  · refine ⟨.beginIdeal I.names, t!"\n" ++ r, ?_, rfl, by simp [InputConsumer.beginIdeal, hne], by simp [eatWhite_cons, isSpace]⟩
    have h1 := (ringName_valid I.names).readIdentifier (r := t!");\n" ++ r) (by simp [nextIs, isIdChar, isAlpha, isDigit])
    simp only [List.cons_append, List.nil_append] at h1
    simp [bareText, hne, writeGens, writeFooter, expectChar_cons, expectText_cons, stripText, matchChar_cons, isSpace, h1]
  · obtain ⟨g1, g2⟩ := gensText_eat hn (fun e h => (hgood e h).length) hne (f := .m2) (by simp) (t!"\n);\n" ++ r)
    obtain ⟨u, hu⟩ : ∃ u, u = t!"\n " ++ (gensText (termText I.names .m2) I.terms ++ (t!"\n);\n" ++ r)) := ⟨_, rfl⟩
    have hm : matchChar '0' u = (false, gensText (termText I.names .m2) I.terms ++ (t!"\n);\n" ++ r)) := by
      rw [hu, List.cons_append, List.cons_append, List.nil_append, matchChar_cons, matchChar_cons, matchChar_false (g2 '0' (by decide) (by decide)), g1]
      simp [isSpace]
    obtain ⟨k', r', f1, f2, f3, f4⟩ := readTerms_spec (termReads_m2 hn) (fun k t u h => readTermM2_congr h)
      (fun u => by simp [TermStop, PowerStop, nextIs, isIdChar, isAlpha, isDigit, peekChar_cons, isSpace]) hne hgood (r := t!"\n);\n" ++ r)
      (by simp [TermStop, PowerStop, nextIs, isIdChar, isAlpha, isDigit, peekChar_cons, isSpace]) (by simp [peekChar_cons, isSpace]) rfl
      (fuel := u.length) (by simp only [hu, List.length_append, termText, List.length_cons]; omega)
    refine ⟨k', t!"\n" ++ r, ?_, f2, f3, by simp [eatWhite_cons, isSpace]⟩
    obtain ⟨e, es, hes⟩ := List.exists_cons_of_ne_nil hne
    have hb : bareText .m2 I ++ r = t!"I = monomialIdeal(" ++ u := by
      simp only [hu, bareText, writeFooter, hes, writeGens_common (f := .m2) rfl]
      simp
    rw [hb]
    simp only [termText] at hm f1
    simp [expectChar_cons, expectText_cons, stripText, isSpace, hm]
    simp only [List.cons_append, List.nil_append] at f1
    rw [f1]
    simp only [Option.bind_some]
    rw [expectChar_congr f4]
    simp [expectChar_cons, isSpace]

theorem bareReads_cocoa {sf : Bool} {I : NamedIdeal} (hn : ValidNames I.names) (hbig : I.names.length < 2 ^ 64)
    (hgood : ∀ e ∈ I.terms, GoodTerm sf I.names e) : BareReads sf .cocoa4 I := by
  intro r t ht
  simp only [readBare, readBareCoCoA]
  rw [expectChar_congr ht]
  by_cases hne : I.terms = []
  · refine ⟨.beginIdeal I.names, t!"\n" ++ r, ?_, rfl, by simp [InputConsumer.beginIdeal, hne], by simp [eatWhite_cons, isSpace]⟩
    simp [bareText, hne, writeGens, writeFooter, expectChar_cons, expectText_cons, stripText, matchChar_cons, isSpace]
  · obtain ⟨g1, g2⟩ := gensText_eat hn (fun e h => (hgood e h).length) hne (f := .cocoa4) (by simp) (t!"\n);\n" ++ r)
    obtain ⟨u, hu⟩ : ∃ u, u = t!"\n " ++ (gensText (termText I.names .cocoa4) I.terms ++ (t!"\n);\n" ++ r)) := ⟨_, rfl⟩
    have hm : matchChar ')' u = (false, gensText (termText I.names .cocoa4) I.terms ++ (t!"\n);\n" ++ r)) := by
      rw [hu, List.cons_append, List.cons_append, List.nil_append, matchChar_cons, matchChar_cons, matchChar_false (g2 ')' (by decide) (by decide)), g1]
      simp [isSpace]
    obtain ⟨k', r', f1, f2, f3, f4⟩ := readTerms_spec (termReads_cocoa hbig) (fun k t u h => readTermCoCoA_congr h)
      (fun u => by simp [PowerStopCoCoA, nextIs, isDigit, peekChar_cons, isSpace]) hne hgood (r := t!"\n);\n" ++ r)
      (by simp [PowerStopCoCoA, nextIs, isDigit, peekChar_cons, isSpace]) (by simp [peekChar_cons, isSpace]) rfl
      (fuel := u.length) (by simp only [hu, List.length_append, termText, List.length_cons]; omega)
    refine ⟨k', t!"\n" ++ r, ?_, f2, f3, by simp [eatWhite_cons, isSpace]⟩
    obtain ⟨e, es, hes⟩ := List.exists_cons_of_ne_nil hne
    have hb : bareText .cocoa4 I ++ r = t!"I := Ideal(" ++ u := by
      simp only [hu, bareText, writeFooter, hes, writeGens_common (f := .cocoa4) rfl]
      simp
    rw [hb]
    simp only [termText] at hm f1
    simp [expectChar_cons, expectText_cons, stripText, isSpace, hm]
    simp only [List.cons_append, List.nil_append] at f1
    rw [f1]
    simp only [Option.bind_some]
    rw [expectChar_congr f4]
    simp [expectChar_cons, isSpace, matchChar_cons]

theorem bareReads_singular {sf : Bool} {I : NamedIdeal} (hn : ValidNames I.names)
    (hgood : ∀ e ∈ I.terms, GoodTerm sf I.names e) : BareReads sf .singular I := by
  intro r t ht
  simp only [readBare, readBareSingular]
  rw [expectText_congr ht]
  by_cases hne : I.terms = []
  · refine ⟨.beginIdeal I.names, t!"\n" ++ r, ?_, rfl, by simp [InputConsumer.beginIdeal, hne], by simp [eatWhite_cons, isSpace]⟩
    simp [bareText, hne, writeGens, writeFooter, expectChar_cons, expectText_cons, stripText, matchChar_cons, isSpace]
  · obtain ⟨g1, g2⟩ := gensText_eat hn (fun e h => (hgood e h).length) hne (f := .singular) (by simp) (t!";\n" ++ r)
    obtain ⟨u, hu⟩ : ∃ u, u = t!"\n " ++ (gensText (termText I.names .singular) I.terms ++ (t!";\n" ++ r)) := ⟨_, rfl⟩
    have hm : matchChar '0' u = (false, gensText (termText I.names .singular) I.terms ++ (t!";\n" ++ r)) := by
      rw [hu, List.cons_append, List.cons_append, List.nil_append, matchChar_cons, matchChar_cons, matchChar_false (g2 '0' (by decide) (by decide)), g1]
      simp [isSpace]
    obtain ⟨k', r', f1, f2, f3, f4⟩ := readTerms_spec (termReads_product hn) (fun k t u h => readTermProduct_congr h)
      (fun u => by simp [TermStop, PowerStop, nextIs, isIdChar, isAlpha, isDigit, peekChar_cons, isSpace]) hne hgood (r := t!";\n" ++ r)
      (by simp [TermStop, PowerStop, nextIs, isIdChar, isAlpha, isDigit, peekChar_cons, isSpace]) (by simp [peekChar_cons, isSpace]) rfl
      (fuel := u.length) (by simp only [hu, List.length_append, termText, List.length_cons]; omega)
    refine ⟨k', t!"\n" ++ r, ?_, f2, f3, by simp [eatWhite_cons, isSpace]⟩
    obtain ⟨e, es, hes⟩ := List.exists_cons_of_ne_nil hne
    have hb : bareText .singular I ++ r = t!"ideal I =" ++ u := by
      simp only [hu, bareText, writeFooter, hes, writeGens_common (f := .singular) rfl]
      simp
    rw [hb]
    simp only [termText] at hm f1
    simp [expectChar_cons, expectText_cons, stripText, isSpace, hm]
    simp only [List.cons_append, List.nil_append] at f1
    rw [f1]
    simp only [Option.bind_some]
    rw [expectChar_congr f4]
    simp [expectChar_cons, isSpace]

theorem bareReads_monos {sf : Bool} {I : NamedIdeal} (hn : ValidNames I.names)
    (hgood : ∀ e ∈ I.terms, GoodTerm sf I.names e) : BareReads sf .monos I := by
  intro r t ht
  simp only [readBare, readBareMonos]
  rw [expectChar_congr ht]
  by_cases hne : I.terms = []
  · refine ⟨.beginIdeal I.names, t!"\n" ++ r, ?_, rfl, by simp [InputConsumer.beginIdeal, hne], by simp [eatWhite_cons, isSpace]⟩
    simp [bareText, hne, writeGens, writeFooter, expectChar_cons, matchChar_cons, isSpace]
  · obtain ⟨g1, g2⟩ := gensText_eat hn (fun e h => (hgood e h).length) hne (f := .monos) (by simp) (t!"\n];\n" ++ r)
    obtain ⟨u, hu⟩ : ∃ u, u = t!"\n " ++ (gensText (termText I.names .monos) I.terms ++ (t!"\n];\n" ++ r)) := ⟨_, rfl⟩
    have hm : matchChar ']' u = (false, gensText (termText I.names .monos) I.terms ++ (t!"\n];\n" ++ r)) := by
      rw [hu, List.cons_append, List.cons_append, List.nil_append, matchChar_cons, matchChar_cons, matchChar_false (g2 ']' (by decide) (by decide)), g1]
      simp [isSpace]
    obtain ⟨k', r', f1, f2, f3, f4⟩ := readTerms_spec (termReads_product hn) (fun k t u h => readTermProduct_congr h)
      (fun u => by simp [TermStop, PowerStop, nextIs, isIdChar, isAlpha, isDigit, peekChar_cons, isSpace]) hne hgood (r := t!"\n];\n" ++ r)
      (by simp [TermStop, PowerStop, nextIs, isIdChar, isAlpha, isDigit, peekChar_cons, isSpace]) (by simp [peekChar_cons, isSpace]) rfl
      (fuel := u.length) (by simp only [hu, List.length_append, termText, List.length_cons]; omega)
    refine ⟨k', t!"\n" ++ r, ?_, f2, f3, by simp [eatWhite_cons, isSpace]⟩
    obtain ⟨e, es, hes⟩ := List.exists_cons_of_ne_nil hne
    have hb : bareText .monos I ++ r = t!"[" ++ u := by
      simp only [hu, bareText, writeFooter, hes, writeGens_common (f := .monos) rfl]
      simp
    rw [hb]
    simp only [termText] at hm f1
    simp [expectChar_cons, isSpace, hm]
    simp only [List.cons_append, List.nil_append] at f1
    rw [f1]
    simp only [Option.bind_some]
    rw [matchChar_congr f4]
    simp [expectChar_cons, isSpace, matchChar_cons]

/-! ## the new format of Monos -/

theorem readRingNewMonos_spec {names : List Text} (hn : ValidNames names) {r t : Text}
    (ht : eatWhite t = eatWhite (t!"lex-order" ++ (names.flatMap (fun x => ' ' :: x) ++ (t!")" ++ r)))) : readRingNewMonos t = some (names, r) := by
  obtain ⟨u, hu⟩ : ∃ u, u = names.flatMap (fun x => ' ' :: x) ++ (t!")" ++ r) := ⟨_, rfl⟩
  have h1 : expectText t!"lex-order" t = some u := by
    rw [expectText_congr ht, ← hu]
    simp [expectText_cons, stripText, isSpace]
  obtain ⟨s', g1, g2⟩ := readUntil_spec (item := readName) (tx := fun x : Text => ' ' :: x) (Inv := NameInv names)
    (Stop := fun r => nextIs isIdChar r = false) (stop := ')') (Good := ValidName) (fun s t u h => readName_congr h)
    (fun s x xs r hInv hr => by
      obtain ⟨h1, h2⟩ := readName_spec hn hInv hr (t := ' ' :: x ++ r) (by rw [List.cons_append, eatWhite_cons]; simp [isSpace])
      exact ⟨_, _, h1, h2, rfl⟩)
    (fun x u _ => by simp [nextIs, isIdChar, isAlpha, isDigit]) (r := t!")" ++ r) (r0 := r) (by simp [nextIs, isIdChar, isAlpha, isDigit])
    (fun x u hx => by rw [List.cons_append, peekChar_cons, hx.peekChar (by decide)]; simp [isSpace]) (by simp [eatWhite_cons, isSpace])
    names (u.length + 1) [] u rfl hn.valid
    (by
      have := length_le_flatMap (fun x : Text => ' ' :: x) (by simp) names
      rw [hu, List.length_append]
      exact Nat.lt_succ_of_le (le_trans this (Nat.le_add_right _ _))) (by rw [hu])
  have : s' = names := by simpa [NameInv] using g2
  unfold readRingNewMonos
  rw [h1]
  simp only [Option.bind_eq_bind, Option.bind_some, g1, this]

/-- What is written for an ideal in the new format of Monos after the parenthesis. -/
def newMonosText (I : NamedIdeal) : Text :=
  t!"monomial-ideal-with-order\n (lex-order" ++ (I.names.flatMap (fun x => ' ' :: x) ++
    (t!")" ++ (I.terms.flatMap (fun e => t!"\n " ++ writeTermProduct I.names e) ++ t!"\n)\n")))

theorem writeGens_newMonos (names : List Text) (b : Bool) (es : List (List ℕ)) :
    writeGens .newmonos names b es = es.flatMap (fun e => t!"\n " ++ writeTermProduct names e) := by
  induction es generalizing b with
  | nil => rfl
  | cons e es ih => rw [writeGens, ih, List.flatMap_cons]; rfl

theorem writeIdealFrom_newMonos (b : Bool) (I : NamedIdeal) : writeIdealFrom b .newmonos I = '(' :: newMonosText I := by
  simp [writeIdealFrom, writeGens_newMonos, writeHeader, writeRing, writeFooter, newMonosText]

theorem readIdealNoLeftParen_spec {sf : Bool} {I : NamedIdeal} (hn : ValidNames I.names) (hgood : ∀ e ∈ I.terms, GoodTerm sf I.names e) {r t : Text}
    (ht : eatWhite t = eatWhite (newMonosText I ++ r)) :
    ∃ k r', readIdealNoLeftParen sf t = some (k, r') ∧ k.names = I.names ∧ k.gens.reverse = I.terms ∧ eatWhite r' = eatWhite r := by
  obtain ⟨u, hu⟩ : ∃ u, u = I.terms.flatMap (fun e => t!"\n " ++ writeTermProduct I.names e) ++ (t!"\n)\n" ++ r) := ⟨_, rfl⟩
  obtain ⟨v, hv⟩ : ∃ v, v = t!"lex-order" ++ (I.names.flatMap (fun x => ' ' :: x) ++ (t!")" ++ u)) := ⟨_, rfl⟩
  have ht' : eatWhite t = eatWhite (t!"monomial-ideal-with-order\n (" ++ v) := by
    rw [ht, hv, hu, newMonosText]
    simp
  have h1 : expectText t!"monomial-ideal-with-order" t = some (t!"\n (" ++ v) := by
    rw [expectText_congr ht']
    simp [expectText_cons, stripText, isSpace]
  have h2 : expectChar '(' (t!"\n (" ++ v) = some v := by simp [expectChar_cons, isSpace]
  have h3 := readRingNewMonos_spec hn (r := u) (t := v) (by rw [hv])
  have hhead : ∀ (e : List ℕ) (w : Text) (c : Char), e.length = I.names.length → isAlpha c = false → c ≠ '1' →
      peekChar c (t!"\n " ++ writeTermProduct I.names e ++ w) = false := by
    intro e w c hl hc hc1
    obtain ⟨d, l, hd1, hd2⟩ := writeTermProduct_head hn hl
    rw [hd1]
    simp only [List.cons_append, List.nil_append]
    rw [peekChar_cons, peekChar_cons, peekChar_cons, isSpace_of_head hd2]
    have : d ≠ c := by
      rintro rfl
      rcases hd2 with hd2 | hd2
      · rw [hd2] at hc; simp at hc
      · exact hc1 hd2
    simp [isSpace, this]
  obtain ⟨k, g1, g2⟩ := readUntil_spec (item := InputConsumer.readTermProduct sf) (tx := fun e => t!"\n " ++ writeTermProduct I.names e)
    (Inv := TermInv sf I.names I.terms) (Stop := TermStop) (stop := ')') (Good := fun e => e.length = I.names.length)
    (fun s t u h => readTermProduct_congr h)
    (fun s x xs r hInv hr => by
      obtain ⟨k', r', f1, f2, f3, f4⟩ := termReads_product hn s x r (t!"\n " ++ writeTermProduct I.names x ++ r) hInv.1 (hInv.2.2 x (by simp)) hr
        (by simp [eatWhite_cons, isSpace])
      exact ⟨k', r', f1, hInv.step f2 f3, f4⟩)
    (fun x u hx => ⟨⟨by simp [nextIs, isIdChar, isAlpha, isDigit], hhead x u '^' hx (by decide) (by decide)⟩, hhead x u '*' hx (by decide) (by decide)⟩)
    (r := t!"\n)\n" ++ r) (r0 := t!"\n" ++ r)
    (by simp [TermStop, PowerStop, nextIs, isIdChar, isAlpha, isDigit, peekChar_cons, isSpace])
    (fun x u hx => hhead x u ')' hx (by decide) (by decide)) (by simp [eatWhite_cons, isSpace])
    I.terms (u.length + 1) (.beginIdeal I.names) u ⟨rfl, rfl, hgood⟩ (fun e he => (hgood e he).length)
    (by
      have := length_le_flatMap (fun e => t!"\n " ++ writeTermProduct I.names e) (by simp) I.terms
      rw [hu, List.length_append]
      omega) (by rw [hu])
  refine ⟨k, t!"\n" ++ r, ?_, g2.1, by simpa using g2.2.1, by simp [eatWhite_cons, isSpace]⟩
  unfold readIdealNoLeftParen
  rw [h1]
  simp only [Option.bind_eq_bind, Option.bind_some, h2, h3, g1]

/-! ## 4ti2 -/

theorem defaultNames_length (n : ℕ) : (defaultNames n).length = n := by simp [defaultNames]

theorem writeGens_4ti2 (names : List Text) (b : Bool) (es : List (List ℕ)) : writeGens .fourti2 names b es = es.flatMap writeTerm4ti2 := by
  induction es generalizing b with
  | nil => rfl
  | cons e es ih => rw [writeGens, ih, List.flatMap_cons]; rfl

theorem writeRing4ti2_eq {names : List Text} (hne : names ≠ []) : writeRing4ti2 names = names.flatMap (fun x => ' ' :: x) ++ t!"\n" := by
  cases names with
  | nil => exact absurd rfl hne
  | cons x xs =>
    unfold writeRing4ti2
    rw [if_neg hne, writeNames_eq]
    simp

theorem readNames4ti2_spec {names : List Text} (hn : ValidNames names) (hne : names ≠ []) {r t : Text} (ht : eatWhite t = eatWhite (writeRing4ti2 names ++ r)) :
    ∃ r', readTimes readName names.length [] t = some (names, r') ∧ eatWhite r' = eatWhite r := by
  rw [writeRing4ti2_eq hne, List.append_assoc] at ht
  obtain ⟨s', r', g1, g2, g3⟩ := readTimes_spec (item := readName) (tx := fun x : Text => ' ' :: x) (Inv := NameInv names)
    (Stop := fun r => nextIs isIdChar r = false) (Good := fun _ => True)
    (fun s x xs r t hInv hr ht => by
      obtain ⟨h1, h2⟩ := readName_spec hn hInv hr (t := t) (by rw [ht, List.cons_append, eatWhite_cons]; simp [isSpace])
      exact ⟨_, _, h1, h2, rfl⟩)
    (fun x u _ => by simp [nextIs, isIdChar, isAlpha, isDigit]) (r := t!"\n" ++ r) (by simp [nextIs, isIdChar, isAlpha, isDigit]) names [] t rfl
    (fun _ _ => trivial) ht
  have : s' = names := by simpa [NameInv] using g2
  refine ⟨r', by rw [g1, this], ?_⟩
  rw [g3]
  simp [eatWhite_cons, isSpace]

theorem GoodTerm.congr {sf : Bool} {names names' : List Text} {e : List ℕ} (h : GoodTerm sf names e) (hl : names.length = names'.length) :
    GoodTerm sf names' e := ⟨h.length.trans hl, h.sqf⟩

theorem peekIdentifier_writeRing4ti2 {names : List Text} (hn : ValidNames names) (hne : names ≠ []) (r : Text) :
    peekIdentifier (writeRing4ti2 names ++ r) = true := by
  rw [writeRing4ti2_eq hne]
  cases names with
  | nil => exact absurd rfl hne
  | cons x xs =>
    simp only [List.flatMap_cons, List.cons_append, List.append_assoc]
    rw [peekIdentifier_cons, (hn.valid x (by simp)).peekIdentifier]
    simp [isSpace]

theorem readIdeal4ti2_spec {sf : Bool} {I : NamedIdeal} (hn : ValidNames I.names) (hgood : ∀ e ∈ I.terms, GoodTerm sf I.names e) {r t : Text}
    (hr : peekIdentifier r = false)
    (ht : eatWhite t = eatWhite (I.terms.flatMap writeTerm4ti2 ++ (writeFooter I.names I.terms.isEmpty .fourti2 ++ r))) :
    ∃ k r', readIdeal4ti2 sf I.terms.length I.names.length t = some (k, r') ∧ k.names = I.names ∧ k.gens.reverse = I.terms ∧
      eatWhite r' = eatWhite r := by
  unfold readIdeal4ti2
  by_cases hz : I.names = []
  · have hall : ∀ e ∈ I.terms, e = [] := fun e he => by
      have := (hgood e he).length
      rw [hz] at this
      exact List.length_eq_zero_iff.1 this
    have hrep : I.terms = List.replicate I.terms.length [] := List.eq_replicate_iff.2 ⟨rfl, hall⟩
    have hflat : I.terms.flatMap writeTerm4ti2 = [] := by
      rw [List.flatMap_eq_nil_iff]
      intro e he
      rw [hall e he]
      rfl
    have ht' : eatWhite t = eatWhite r := by
      rw [ht, hflat, hz]
      simp [writeFooter, defaultNames]
    refine ⟨{ InputConsumer.beginIdeal [] with gens := List.replicate I.terms.length [] }, t, ?_, hz.symm, ?_, ht'⟩
    · rw [hz]
      simp [peekIdentifier_congr ht', hr]
    · simp only [List.reverse_replicate]
      exact hrep.symm
  · have hlen : I.names.length ≠ 0 := fun h => hz (List.length_eq_zero_iff.1 h)
    have hdl := defaultNames_length I.names.length
    have hdne : defaultNames I.names.length ≠ [] := fun h => hlen (by rw [h] at hdl; exact hdl.symm)
    obtain ⟨k, r', g1, g2, g3⟩ := readTimes_spec (item := InputConsumer.readTerm4ti2 sf) (tx := writeTerm4ti2)
      (Inv := TermInv sf (defaultNames I.names.length) I.terms) (Stop := fun _ => True) (Good := fun _ => True)
      (fun s x xs r t hInv hr ht => by
        obtain ⟨k', r', f1, f2, f3, f4⟩ := termReads_4ti2 hdne s x r t hInv.1 (hInv.2.2 x (by simp)) trivial ht
        exact ⟨k', r', f1, hInv.step f2 f3, f4⟩)
      (fun _ _ _ => trivial) trivial I.terms (.beginIdeal (defaultNames I.names.length)) t
      ⟨rfl, rfl, fun e he => (hgood e he).congr hdl.symm⟩ (fun _ _ => trivial) ht
    simp only [Option.bind_eq_bind, hlen, if_false, g1, Option.bind_some]
    unfold writeFooter at g3
    by_cases hd : I.names = defaultNames I.names.length
    · rw [if_pos hd, List.nil_append] at g3
      refine ⟨k, r', ?_, g2.1.trans hd.symm, by simpa using g2.2.1, g3⟩
      simp [peekIdentifier_congr g3, hr]
    · rw [if_neg hd] at g3
      obtain ⟨r'', f1, f2⟩ := readNames4ti2_spec hn hz g3
      refine ⟨{ k with names := I.names }, r'', ?_, rfl, by simpa using g2.2.1, f2⟩
      rw [peekIdentifier_congr g3, peekIdentifier_writeRing4ti2 hn hz]
      simp [f1]

/-! ## one ideal -/

/-- Ideals that can be written and read back, with square-free generators if `sf`. -/
structure Readable (sf : Bool) (I : NamedIdeal) : Prop where
  names : ValidNames I.names
  terms : ∀ e ∈ I.terms, GoodTerm sf I.names e
  varCount : I.names.length < 2 ^ 64
  genCount : I.terms.length < 2 ^ 64

theorem writeIdealFrom_common {f : IOFormat} (hf : f.common = true) (b : Bool) (I : NamedIdeal) :
    writeIdealFrom b f I = (if f = .m2 ∧ b = false then [] else writeRing I.names f) ++ bareText f I := by
  cases f <;> cases b <;> simp_all [IOFormat.common, writeIdealFrom, writeHeader, bareText]

theorem ringReads_common {f : IOFormat} (hf : f.common = true) {names : List Text} (hn : ValidNames names) (hbig : names.length < 2 ^ 64) : RingReads f names := by
  cases f with
  | m2 => exact ringReads_m2 hn
  | cocoa4 => exact ringReads_cocoa hn hbig
  | singular => exact ringReads_singular hn
  | monos => exact ringReads_monos hn
  | newmonos => simp [IOFormat.common] at hf
  | fourti2 => simp [IOFormat.common] at hf

theorem bareReads_common {sf : Bool} {f : IOFormat} (hf : f.common = true) {I : NamedIdeal} (hI : Readable sf I) : BareReads sf f I := by
  cases f with
  | m2 => exact bareReads_m2 hI.names hI.terms
  | cocoa4 => exact bareReads_cocoa hI.names hI.varCount hI.terms
  | singular => exact bareReads_singular hI.names hI.terms
  | monos => exact bareReads_monos hI.names hI.terms
  | newmonos => simp [IOFormat.common] at hf
  | fourti2 => simp [IOFormat.common] at hf

/-- What is written for an ideal in the format of 4ti2. -/
theorem writeIdealFrom_4ti2 (b : Bool) (I : NamedIdeal) :
    writeIdealFrom b .fourti2 I = decimal I.terms.length ++ (t!" " ++ (decimal I.names.length ++ (t!"\n" ++
      (I.terms.flatMap writeTerm4ti2 ++ writeFooter I.names I.terms.isEmpty .fourti2)))) := by
  simp [writeIdealFrom, writeGens_4ti2, writeHeader]

theorem readConsumer_4ti2_spec {sf : Bool} {I : NamedIdeal} (hI : Readable sf I) (b : Bool) {r t : Text} (hr : peekIdentifier r = false)
    (ht : eatWhite t = eatWhite (writeIdealFrom b .fourti2 I ++ r)) :
    ∃ k r', readConsumer sf .fourti2 t = some (k, r') ∧ k.names = I.names ∧ k.gens.reverse = I.terms ∧ eatWhite r' = eatWhite r := by
  rw [writeIdealFrom_4ti2] at ht
  simp only [List.append_assoc] at ht
  simp only [readConsumer]
  rw [readSizeT_congr ht, readSizeT_decimal hI.genCount (by simp [nextIs, isDigit])]
  simp only [Option.bind_eq_bind, Option.bind_some]
  rw [readSizeT_congr (u := decimal I.names.length ++ (t!"\n" ++
      (I.terms.flatMap writeTerm4ti2 ++ (writeFooter I.names I.terms.isEmpty .fourti2 ++ r)))) (by simp [eatWhite_cons, isSpace]),
    readSizeT_decimal hI.varCount (by simp [nextIs, isDigit])]
  simp only [Option.bind_some]
  exact readIdeal4ti2_spec hI.names hI.terms hr (by simp [eatWhite_cons, isSpace])

theorem readConsumer_spec {sf : Bool} {f : IOFormat} {I : NamedIdeal} (hI : Readable sf I) :
    ∃ k r', readConsumer sf f (writeIdeal f I) = some (k, r') ∧ k.names = I.names ∧ k.gens.reverse = I.terms ∧ eatWhite r' = [] := by
  have hcommon : ∀ f : IOFormat, f.common = true → ∃ k r', (readRing f (writeIdeal f I)).bind (fun p => readBare sf f p.1 p.2) = some (k, r') ∧
      k.names = I.names ∧ k.gens.reverse = I.terms ∧ eatWhite r' = [] := by
    intro f hf
    obtain ⟨r1, h1, h2⟩ := ringReads_common hf hI.names hI.varCount (bareText f I) (writeIdeal f I)
      (by rw [writeIdeal, writeIdealFrom_common hf]; simp)
    obtain ⟨k, r', h3, h4, h5, h6⟩ := bareReads_common hf hI [] r1 (by rw [h2]; simp)
    exact ⟨k, r', by rw [h1]; simpa using h3, h4, h5, h6⟩
  cases f with
  | m2 => exact hcommon .m2 rfl
  | cocoa4 => exact hcommon .cocoa4 rfl
  | singular => exact hcommon .singular rfl
  | monos => exact hcommon .monos rfl
  | newmonos =>
    obtain ⟨k, r', h1, h2, h3, h4⟩ := readIdealNoLeftParen_spec hI.names hI.terms (r := []) (t := newMonosText I) (by simp)
    refine ⟨k, r', ?_, h2, h3, h4⟩
    rw [writeIdeal, writeIdealFrom_newMonos]
    simp [readConsumer, expectChar_cons, isSpace, h1]
  | fourti2 =>
    obtain ⟨k, r', h⟩ := readConsumer_4ti2_spec hI true (r := []) (t := writeIdeal .fourti2 I) rfl (by simp [writeIdeal])
    exact ⟨k, r', h⟩

theorem readIdeal_spec {sf : Bool} {f : IOFormat} {I : NamedIdeal} (hI : Readable sf I) :
    (if sf then readSquareFreeIdeal f (writeIdeal f I) else readIdeal f (writeIdeal f I)) = some I := by
  obtain ⟨k, r', h1, h2, h3, h4⟩ := readConsumer_spec (f := f) hI
  have hk : k.release = I := by
    unfold InputConsumer.release
    rw [h2, h3]
  cases sf with
  | false => simp [readIdeal, h1, matchEOF, h4, hk]
  | true => simp [readSquareFreeIdeal, h1, matchEOF, h4, hk]

end Frobby

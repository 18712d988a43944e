import Verif.IOFormatLemmas

/-!
# Lists of ideals are read as they are written
-/

namespace Frobby

/-- The ring of the last ideal of a list. -/
def lastNames : List Text → List NamedIdeal → List Text
  | names, [] => names
  | _, I :: Is => lastNames I.names Is

/-- A text that starts with something other than white space, if it is not empty. -/
def NoSpace (t : Text) : Prop := ∀ c l, t = c :: l → isSpace c = false

theorem NoSpace.eatWhite {t : Text} (h : NoSpace t) : eatWhite t = t := by
  cases t with
  | nil => rfl
  | cons c l => rw [eatWhite_cons, h c l rfl]; simp

theorem writeRing_head {f : IOFormat} (hf : f.common = true) (names : List Text) : ∃ c l, writeRing names f = c :: l ∧ isSpace c = false ∧
    peekRing f (c :: l) = true ∧ ∀ u, peekRing f (c :: l ++ u) = true := by
  cases f with
  | m2 =>
    obtain ⟨l, h1, _⟩ := ringName_spec names
    simp only [writeRing, h1, List.cons_append]
    exact ⟨'R', _, rfl, by decide, by simp [peekRing, peekChar_cons, isSpace], fun u => by simp [peekRing, peekChar_cons, isSpace]⟩
  | cocoa4 =>
    simp only [writeRing]
    split
    · exact ⟨'U', _, rfl, by decide, by simp [peekRing, peekChar_cons, isSpace], fun u => by simp [peekRing, peekChar_cons, isSpace]⟩
    · exact ⟨'U', _, rfl, by decide, by simp [peekRing, peekChar_cons, isSpace], fun u => by simp [peekRing, peekChar_cons, isSpace]⟩
  | singular =>
    simp only [writeRing]
    split
    · exact ⟨'r', _, rfl, by decide, by simp [peekRing, peekChar_cons, isSpace], fun u => by simp [peekRing, peekChar_cons, isSpace]⟩
    · exact ⟨'r', _, rfl, by decide, by simp [peekRing, peekChar_cons, isSpace], fun u => by simp [peekRing, peekChar_cons, isSpace]⟩
  | monos => exact ⟨'v', _, rfl, by decide, by simp [peekRing, peekChar_cons, isSpace], fun u => by simp [peekRing, peekChar_cons, isSpace]⟩
  | newmonos => simp [IOFormat.common] at hf
  | fourti2 => simp [IOFormat.common] at hf

theorem bareText_m2_head (I : NamedIdeal) : ∃ l, bareText .m2 I = 'I' :: l := ⟨_, rfl⟩

/-- The text of an ideal starts with a character that is not white space. -/
theorem writeIdealFrom_head (b : Bool) (f : IOFormat) (I : NamedIdeal) : ∃ c l, writeIdealFrom b f I = c :: l ∧ isSpace c = false := by
  by_cases hf : f.common = true
  · rw [writeIdealFrom_common hf]
    split
    · rename_i h
      rw [h.1]
      obtain ⟨l, hl⟩ := bareText_m2_head I
      exact ⟨'I', l, by simp [hl], by decide⟩
    · obtain ⟨c, l, h1, h2, _⟩ := writeRing_head hf I.names
      exact ⟨c, l ++ bareText f I, by rw [h1]; rfl, h2⟩
  · cases f with
    | newmonos => exact ⟨'(', _, writeIdealFrom_newMonos b I, by decide⟩
    | fourti2 =>
      rw [writeIdealFrom_4ti2]
      obtain ⟨c, l, h1, h2⟩ := decimal_cons I.terms.length
      rw [h1]
      exact ⟨c, _, rfl, isSpace_of_isDigit h2⟩
    | m2 => simp [IOFormat.common] at hf
    | cocoa4 => simp [IOFormat.common] at hf
    | singular => simp [IOFormat.common] at hf
    | monos => simp [IOFormat.common] at hf

theorem writeIdealsFrom_noSpace (f : IOFormat) (names : List Text) (Is : List NamedIdeal) : NoSpace (writeIdealsFrom f false names Is) := by
  cases Is with
  | nil => intro c l h; simp [writeIdealsFrom] at h
  | cons I Is =>
    obtain ⟨c, l, h1, h2⟩ := writeIdealFrom_head (false || decide (names ≠ I.names)) f I
    intro d m h
    rw [writeIdealsFrom, h1, List.cons_append, List.cons.injEq] at h
    rw [← h.1]
    exact h2

theorem length_le_writeIdealsFrom (f : IOFormat) (names : List Text) (Is : List NamedIdeal) : Is.length ≤ (writeIdealsFrom f false names Is).length := by
  induction Is generalizing names with
  | nil => simp
  | cons I Is ih =>
    obtain ⟨c, l, h1, _⟩ := writeIdealFrom_head (false || decide (names ≠ I.names)) f I
    have := ih I.names
    rw [writeIdealsFrom, h1]
    simp only [List.cons_append, List.length_cons, List.length_append]
    omega

theorem eatWhite_length_le (t : Text) : (eatWhite t).length ≤ t.length := (List.dropWhile_sublist _).length_le

theorem length_lt_of_eatWhite {f : IOFormat} {names : List Text} {Is : List NamedIdeal} {t : Text}
    (ht : eatWhite t = eatWhite (writeIdealsFrom f false names Is)) : Is.length < t.length + 1 := by
  have h1 := length_le_writeIdealsFrom f names Is
  rw [(writeIdealsFrom_noSpace f names Is).eatWhite] at ht
  have h2 := eatWhite_length_le t
  rw [ht] at h2
  omega

theorem readIdealsLoop_spec {f : IOFormat} (hf : f.common = true) : ∀ (Js : List NamedIdeal) (fuel : ℕ) (names : List Text) (Is : List NamedIdeal) (t : Text),
    (∀ J ∈ Js, Readable false J) → Js.length < fuel → eatWhite t = eatWhite (writeIdealsFrom f false names Js) →
    ∃ r', readIdealsLoop f fuel names Is t = some (Is ++ Js, lastNames names Js, r') ∧ matchEOF r' = true := by
  intro Js
  induction Js with
  | nil =>
    intro fuel names Is t _ hfuel ht
    obtain ⟨fuel, rfl⟩ : ∃ m, fuel = m + 1 := ⟨fuel - 1, by simp at hfuel; omega⟩
    have h1 : matchEOF t = true := by rw [matchEOF_congr ht]; rfl
    exact ⟨t, by simp [readIdealsLoop, h1, lastNames], h1⟩
  | cons J Js ih =>
    intro fuel names Is t hv hfuel ht
    obtain ⟨fuel, rfl⟩ : ∃ m, fuel = m + 1 := ⟨fuel - 1, by simp at hfuel; omega⟩
    have hJ := hv J (by simp)
    rw [writeIdealsFrom, writeIdealFrom_common hf, List.append_assoc] at ht
    have h1 : matchEOF t = false := by
      rw [matchEOF_congr ht]
      split
      · rename_i h
        rw [h.1]
        obtain ⟨l, hl⟩ := bareText_m2_head J
        simp [hl, matchEOF_cons, isSpace]
      · obtain ⟨c, l, g1, g2, _⟩ := writeRing_head hf J.names
        simp [g1, matchEOF_cons, g2]
    have h2 : ∃ r1, (if peekRing f t then readRing f t else some (names, t)) = some (J.names, r1) ∧
        eatWhite r1 = eatWhite (bareText f J ++ writeIdealsFrom f false J.names Js) := by
      split at ht
      · rename_i h
        obtain ⟨rfl, hb⟩ := h
        obtain ⟨l, hl⟩ := bareText_m2_head J
        have hp : peekRing .m2 t = false := by
          have e1 : peekChar 'R' t = false := by rw [peekChar_congr ht]; simp [hl, peekChar_cons, isSpace]
          have e2 : peekChar 'r' t = false := by rw [peekChar_congr ht]; simp [hl, peekChar_cons, isSpace]
          simp [peekRing, e1, e2]
        have hnm : names = J.names := by simpa using hb
        exact ⟨t, by simp [hp, hnm], by simpa using ht⟩
      · obtain ⟨c, l, g1, g2, g3, g4⟩ := writeRing_head hf J.names
        have hp : peekRing f t = true := by
          have hu := g4 (bareText f J ++ writeIdealsFrom f false J.names Js)
          rw [← g1] at hu
          have hcong : peekRing f t = peekRing f (writeRing J.names f ++ (bareText f J ++ writeIdealsFrom f false J.names Js)) := by
            cases f <;> simp only [peekRing, peekChar_congr ht]
          rw [hcong, hu]
        obtain ⟨r1, e1, e2⟩ := ringReads_common hf hJ.names hJ.varCount _ t ht
        exact ⟨r1, by simp [hp, e1], e2⟩
    obtain ⟨r1, h3, h4⟩ := h2
    obtain ⟨k, r2, h5, h6, h7, h8⟩ := bareReads_common hf hJ _ r1 h4
    obtain ⟨r', h9, h10⟩ := ih fuel J.names (Is ++ [J]) r2 (fun K hK => hv K (by simp [hK])) (by simp at hfuel; omega) h8
    have hk : k.release = J := by unfold InputConsumer.release; rw [h6, h7]
    refine ⟨r', ?_, h10⟩
    simp only [readIdealsLoop, h1, Bool.false_eq_true, if_false, h3, h5, hk, h9, lastNames]
    simp

theorem readIdealsNewMonos_spec : ∀ (Js : List NamedIdeal) (J : NamedIdeal) (fuel : ℕ) (names : List Text) (Is : List NamedIdeal) (t : Text),
    (∀ K ∈ J :: Js, Readable false K) → Js.length < fuel → eatWhite t = eatWhite (newMonosText J ++ writeIdealsFrom .newmonos false names Js) →
    ∃ r', readIdealsNewMonos fuel Is t = some (Is ++ J :: Js, lastNames J.names Js, r') ∧ matchEOF r' = true := by
  intro Js
  induction Js with
  | nil =>
    intro J fuel names Is t hv hfuel ht
    obtain ⟨fuel, rfl⟩ : ∃ m, fuel = m + 1 := ⟨fuel - 1, by simp at hfuel; omega⟩
    have hJ := hv J (by simp)
    obtain ⟨k, r1, h1, h2, h3, h4⟩ := readIdealNoLeftParen_spec hJ.names hJ.terms ht
    have hk : k.release = J := by unfold InputConsumer.release; rw [h2, h3]
    have hm : matchChar '(' r1 = (false, []) := by rw [matchChar_congr h4]; rfl
    refine ⟨[], ?_, rfl⟩
    simp only [readIdealsNewMonos, h1, hm, hk, lastNames, h2]
  | cons J' Js ih =>
    intro J fuel names Is t hv hfuel ht
    obtain ⟨fuel, rfl⟩ : ∃ m, fuel = m + 1 := ⟨fuel - 1, by simp at hfuel; omega⟩
    have hJ := hv J (by simp)
    obtain ⟨k, r1, h1, h2, h3, h4⟩ := readIdealNoLeftParen_spec hJ.names hJ.terms ht
    have hk : k.release = J := by unfold InputConsumer.release; rw [h2, h3]
    rw [writeIdealsFrom, writeIdealFrom_newMonos] at h4
    have hm : matchChar '(' r1 = (true, newMonosText J' ++ writeIdealsFrom .newmonos false J'.names Js) := by
      rw [matchChar_congr h4, List.cons_append, matchChar_cons]
      simp [isSpace]
    obtain ⟨r', h9, h10⟩ := ih J' fuel J'.names (Is ++ [J]) _ (fun K hK => hv K (by simp at hK ⊢; tauto)) (by simp at hfuel; omega) rfl
    refine ⟨r', ?_, h10⟩
    simp only [readIdealsNewMonos, h1, hm, hk, h9, lastNames]
    simp

theorem peekIdentifier_4ti2 (names : List Text) (Js : List NamedIdeal) : peekIdentifier (writeIdealsFrom .fourti2 false names Js) = false := by
  cases Js with
  | nil => rfl
  | cons J Js =>
    rw [writeIdealsFrom, writeIdealFrom_4ti2]
    obtain ⟨c, l, h1, h2⟩ := decimal_cons J.terms.length
    rw [h1]
    simp [peekIdentifier_cons, isSpace_of_isDigit h2, isAlpha_of_isDigit h2]

theorem readIdeals4ti2_spec : ∀ (Js : List NamedIdeal) (fuel : ℕ) (names : List Text) (Is : List NamedIdeal) (t : Text),
    (∀ J ∈ Js, Readable false J) → Js.length < fuel → eatWhite t = eatWhite (writeIdealsFrom .fourti2 false names Js) →
    ∃ r', readIdeals4ti2 fuel names Is t = some (Is ++ Js, lastNames names Js, r') ∧ matchEOF r' = true := by
  intro Js
  induction Js with
  | nil =>
    intro fuel names Is t _ hfuel ht
    obtain ⟨fuel, rfl⟩ : ∃ m, fuel = m + 1 := ⟨fuel - 1, by simp at hfuel; omega⟩
    have h1 : matchEOF t = true := by rw [matchEOF_congr ht]; rfl
    exact ⟨t, by simp [readIdeals4ti2, h1, lastNames], h1⟩
  | cons J Js ih =>
    intro fuel names Is t hv hfuel ht
    obtain ⟨fuel, rfl⟩ : ∃ m, fuel = m + 1 := ⟨fuel - 1, by simp at hfuel; omega⟩
    have h1 : matchEOF t = false := by
      rw [matchEOF_congr ht, writeIdealsFrom]
      obtain ⟨c, l, g1, g2⟩ := writeIdealFrom_head (false || decide (names ≠ J.names)) .fourti2 J
      simp only [g1, List.cons_append, matchEOF_cons, g2]
      simp
    rw [writeIdealsFrom] at ht
    obtain ⟨k, r1, h2, h3, h4, h5⟩ := readConsumer_4ti2_spec (hv J (by simp)) _ (peekIdentifier_4ti2 J.names Js) ht
    have hk : k.release = J := by unfold InputConsumer.release; rw [h3, h4]
    obtain ⟨r', h9, h10⟩ := ih fuel J.names (Is ++ [J]) r1 (fun K hK => hv K (by simp [hK])) (by simp at hfuel; omega) h5
    refine ⟨r', ?_, h10⟩
    simp only [readIdeals4ti2, h1, Bool.false_eq_true, if_false, h2, hk, h3, h9, lastNames]
    simp

theorem readRing4ti2_spec {names : List Text} (hn : ValidNames names) {r : Text} (hr : peekIdentifier r = false) (hri : nextIs isIdChar r = false) :
    ∀ (xs : List Text) (fuel : ℕ) (ns : List Text) (t : Text), ns ++ xs = names → xs.length < fuel →
      eatWhite t = eatWhite (xs.flatMap (fun x => ' ' :: x) ++ r) → ∃ r', readRing4ti2 fuel ns t = some (names, r') ∧ eatWhite r' = eatWhite r := by
  intro xs
  induction xs with
  | nil =>
    intro fuel ns t h hfuel ht
    obtain ⟨fuel, rfl⟩ : ∃ m, fuel = m + 1 := ⟨fuel - 1, by simp at hfuel; omega⟩
    refine ⟨t, ?_, by simpa using ht⟩
    have hp : peekIdentifier t = false := by rw [peekIdentifier_congr ht]; simpa using hr
    have : ns = names := by simpa using h
    simp [readRing4ti2, hp, this]
  | cons x xs ih =>
    intro fuel ns t h hfuel ht
    obtain ⟨fuel, rfl⟩ : ∃ m, fuel = m + 1 := ⟨fuel - 1, by simp at hfuel; omega⟩
    have hx : ValidName x := hn.valid x (by rw [← h]; simp)
    have ht' : eatWhite t = eatWhite (x ++ (xs.flatMap (fun x => ' ' :: x) ++ r)) := by
      rw [ht, List.flatMap_cons, List.cons_append, List.cons_append, eatWhite_cons]
      simp [isSpace]
    have hnext : nextIs isIdChar (xs.flatMap (fun x => ' ' :: x) ++ r) = false := by
      cases xs with
      | nil => simpa using hri
      | cons y ys => simp [nextIs, isIdChar, isAlpha, isDigit]
    obtain ⟨h1, h2⟩ := readName_spec hn (ns := ns) (xs := xs) h hnext ht'
    obtain ⟨r', h3, h4⟩ := ih fuel (ns ++ [x]) _ (by simpa using h) (by simp at hfuel; omega) rfl
    refine ⟨r', ?_, h4⟩
    have hp : peekIdentifier t = true := by rw [peekIdentifier_congr ht', hx.peekIdentifier]
    simp only [readRing4ti2, hp, if_true, h1, h3]

theorem readIdealsFrom_common {f : IOFormat} (hf : f.common = true) (t : Text) :
    readIdealsFrom f t = (readRing f t).bind fun p => if matchEOF p.2 then some ([], p.1, p.2)
      else (readBare false f p.1 p.2).bind fun q => readIdealsLoop f (q.2.length + 1) p.1 [q.1.release] q.2 := by
  cases f <;> first | rfl | simp [IOFormat.common] at hf

theorem readIdeals_spec (f : IOFormat) {names : List Text} (hn : ValidNames names) (hbig : names.length < 2 ^ 64) {Is : List NamedIdeal}
    (hIs : ∀ I ∈ Is, Readable false I) : readIdeals f (writeIdeals f names Is) = some (Is, lastNames names Is) := by
  have main : ∃ r', readIdealsFrom f (writeIdeals f names Is) = some (Is, lastNames names Is, r') ∧ matchEOF r' = true := by
    by_cases hf : f.common = true
    · rw [readIdealsFrom_common hf]
      cases Is with
      | nil =>
        obtain ⟨r1, h1, h2⟩ := ringReads_common hf hn hbig [] (writeIdeals f names []) (by simp [writeIdeals, writeIdealsFrom])
        have h3 : matchEOF r1 = true := by rw [matchEOF_congr h2]; rfl
        exact ⟨r1, by simp [h1, h3, lastNames], h3⟩
      | cons I Is =>
        have hI := hIs I (by simp)
        have ht : writeIdeals f names (I :: Is) = writeRing I.names f ++ (bareText f I ++ writeIdealsFrom f false I.names Is) := by
          simp [writeIdeals, writeIdealsFrom, writeIdealFrom_common hf]
        obtain ⟨r1, h1, h2⟩ := ringReads_common hf hI.names hI.varCount _ (writeIdeals f names (I :: Is)) (by rw [ht])
        have h3 : matchEOF r1 = false := by
          rw [matchEOF_congr h2]
          cases f <;> simp_all [IOFormat.common, bareText, matchEOF_cons, isSpace]
        obtain ⟨k, r2, h5, h6, h7, h8⟩ := bareReads_common hf hI _ r1 h2
        have hk : k.release = I := by unfold InputConsumer.release; rw [h6, h7]
        obtain ⟨r', h9, h10⟩ := readIdealsLoop_spec hf Is (r2.length + 1) I.names [I] r2 (fun J hJ => hIs J (by simp [hJ])) (length_lt_of_eatWhite h8) h8
        refine ⟨r', ?_, h10⟩
        simp [h1, h3, h5, hk, h9, lastNames]
    · cases f with
      | newmonos =>
        cases Is with
        | nil =>
          have h1 : expectChar '(' (writeIdeals .newmonos names []) = some (t!"lex-order" ++ (names.flatMap (fun x => ' ' :: x) ++ (t!")" ++ []))) := by
            simp [writeIdeals, writeIdealsFrom, writeRing, expectChar_cons, isSpace]
          refine ⟨[], ?_, rfl⟩
          have h2 := readRingNewMonos_spec hn (r := []) (t := t!"lex-order" ++ (names.flatMap (fun x => ' ' :: x) ++ (t!")" ++ []))) rfl
          have h3 : peekChar 'l' (t!"lex-order" ++ (names.flatMap (fun x => ' ' :: x) ++ (t!")" ++ []))) = true := by simp [peekChar_cons, isSpace]
          simp only [readIdealsFrom, h1, Option.bind_eq_bind, Option.bind_some, h3, Bool.true_or, if_true, h2, lastNames]
        | cons I Is =>
          obtain ⟨u, hu⟩ : ∃ u, u = newMonosText I ++ writeIdealsFrom .newmonos false I.names Is := ⟨_, rfl⟩
          have h1 : expectChar '(' (writeIdeals .newmonos names (I :: Is)) = some u := by
            rw [writeIdeals, writeIdealsFrom, writeIdealFrom_newMonos, List.cons_append, expectChar_cons, hu]
            simp [isSpace]
          have h3 : peekChar 'l' u = false := by rw [hu]; simp [newMonosText, peekChar_cons, isSpace]
          have h4 : peekChar 'L' u = false := by rw [hu]; simp [newMonosText, peekChar_cons, isSpace]
          obtain ⟨r', h5, h6⟩ := readIdealsNewMonos_spec Is I u.length I.names [] u hIs
            (by
              have := length_le_writeIdealsFrom .newmonos I.names Is
              rw [hu, List.length_append]
              have : 0 < (newMonosText I).length := by simp [newMonosText]
              omega) (by rw [hu])
          refine ⟨r', ?_, h6⟩
          simp [readIdealsFrom, h1, h3, h4, h5, lastNames]
      | fourti2 =>
        cases Is with
        | nil =>
          have h1 : readSizeT (writeIdeals .fourti2 names []) = some (42, t!" ring\n" ++ writeRing4ti2 names) := by
            have hd : decimal 42 = t!"42" := by decide
            have := readSizeT_decimal (n := 42) (by norm_num) (r := t!" ring\n" ++ writeRing4ti2 names) (by simp [nextIs, isDigit])
            rw [hd] at this
            simpa [writeIdeals, writeIdealsFrom, writeRing] using this
          have h2 : peekIdentifier (t!" ring\n" ++ writeRing4ti2 names) = true := by simp [peekIdentifier_cons, isSpace, isAlpha]
          have h3 : expectText t!"ring" (t!" ring\n" ++ writeRing4ti2 names) = some (t!"\n" ++ writeRing4ti2 names) := by
            simp [expectText_cons, stripText, isSpace]
          have h4 : ∃ r', readRing4ti2 ((t!"\n" ++ writeRing4ti2 names).length + 1) [] (t!"\n" ++ writeRing4ti2 names) = some (names, r') ∧
              eatWhite r' = eatWhite t!"\n" := by
            by_cases hne : names = []
            · subst hne
              exact ⟨t!"\n", by decide, rfl⟩
            · refine readRing4ti2_spec hn (r := t!"\n") (by decide) (by decide) names _ [] _ rfl ?_ ?_
              · have := length_le_flatMap (fun x : Text => ' ' :: x) (by simp) names
                rw [writeRing4ti2_eq hne]
                rw [List.length_append, List.length_append]
                exact lt_of_le_of_lt this (Nat.lt_succ_of_le (le_trans (Nat.le_add_right _ _) (Nat.le_add_left _ _)))
              · rw [writeRing4ti2_eq hne]
                simp [eatWhite_cons, isSpace]
          obtain ⟨r', h5, h6⟩ := h4
          refine ⟨r', ?_, by rw [matchEOF_congr h6]; decide⟩
          simp only [readIdealsFrom, h1, Option.bind_eq_bind, Option.bind_some, h2, and_self, if_true, h3, h5, lastNames]
        | cons I Is =>
          have hI := hIs I (by simp)
          have hw : writeIdeals .fourti2 names (I :: Is) = writeIdealFrom true .fourti2 I ++ writeIdealsFrom .fourti2 false I.names Is := by
            simp [writeIdeals, writeIdealsFrom]
          obtain ⟨u, hu⟩ : ∃ u, u = t!" " ++ (decimal I.names.length ++ (t!"\n" ++ (I.terms.flatMap writeTerm4ti2 ++
            (writeFooter I.names I.terms.isEmpty .fourti2 ++ writeIdealsFrom .fourti2 false I.names Is)))) := ⟨_, rfl⟩
          have h1 : readSizeT (writeIdeals .fourti2 names (I :: Is)) = some (I.terms.length, u) := by
            rw [hw, writeIdealFrom_4ti2]
            simp only [List.append_assoc]
            rw [← hu]
            exact readSizeT_decimal hI.genCount (by rw [hu]; simp [nextIs, isDigit])
          have h2 : peekIdentifier u = false := by
            obtain ⟨c, l, g1, g2⟩ := decimal_cons I.names.length
            rw [hu, g1]
            simp only [List.cons_append, List.nil_append, peekIdentifier_cons, isSpace_of_isDigit g2, isAlpha_of_isDigit g2]
            simp [isAlpha]
          obtain ⟨k, r1, h3, h4, h5, h6⟩ := readConsumer_4ti2_spec hI true (peekIdentifier_4ti2 I.names Is) (t := writeIdeals .fourti2 names (I :: Is))
            (by rw [hw])
          have hk : k.release = I := by unfold InputConsumer.release; rw [h4, h5]
          obtain ⟨r', h9, h10⟩ := readIdeals4ti2_spec Is (r1.length + 1) I.names [I] r1 (fun J hJ => hIs J (by simp [hJ])) (length_lt_of_eatWhite h6) h6
          refine ⟨r', ?_, h10⟩
          simp only [readConsumer, h1, Option.bind_eq_bind, Option.bind_some] at h3
          simp only [readIdealsFrom, h1, Option.bind_eq_bind, Option.bind_some, h2, Bool.false_eq_true, and_false, if_false]
          cases h11 : readSizeT u with
          | none => simp [h11] at h3
          | some p =>
            simp only [h11, Option.bind_some] at h3 ⊢
            simp only [h3, Option.bind_some, hk, h4, h9, lastNames]
            simp
      | m2 => simp [IOFormat.common] at hf
      | cocoa4 => simp [IOFormat.common] at hf
      | singular => simp [IOFormat.common] at hf
      | monos => simp [IOFormat.common] at hf
  obtain ⟨r', h1, h2⟩ := main
  simp [readIdeals, h1, h2]

/-! ## the format is recognised -/

theorem autoDetect_spec (f : IOFormat) (I : NamedIdeal) : autoDetect (writeIdeal f I) = f := by
  have hcommon : ∀ c l u, isSpace c = false → autoDetect (c :: l ++ u) = autoDetect [c] := by
    intro c l u h
    simp [autoDetect, eatWhite_cons, h]
  cases f with
  | m2 =>
    obtain ⟨l, h1, _⟩ := ringName_spec I.names
    have : writeIdeal .m2 I = 'R' :: l ++ (t!" = QQ[" ++ writeNames t!", " I.names ++ t!"];\n" ++ bareText .m2 I) := by
      rw [writeIdeal, writeIdealFrom_common rfl]
      simp [writeRing, h1]
    rw [this, hcommon _ _ _ (by decide)]
    decide
  | cocoa4 =>
    rw [writeIdeal, writeIdealFrom_common rfl]
    simp only [writeRing]
    simp
    split <;> simp [autoDetect, eatWhite_cons, isSpace]
  | singular =>
    rw [writeIdeal, writeIdealFrom_common rfl]
    simp only [writeRing]
    simp
    split <;> simp [autoDetect, eatWhite_cons, isSpace]
  | monos =>
    rw [writeIdeal, writeIdealFrom_common rfl]
    simp [writeRing, autoDetect, eatWhite_cons, isSpace, isDigit]
  | newmonos =>
    rw [writeIdeal, writeIdealFrom_newMonos]
    simp [autoDetect, eatWhite_cons, isSpace]
  | fourti2 =>
    rw [writeIdeal, writeIdealFrom_4ti2]
    obtain ⟨c, l, h1, h2⟩ := decimal_cons I.terms.length
    rw [h1, List.cons_append]
    simp only [autoDetect, eatWhite_cons, isSpace_of_isDigit h2, Bool.false_eq_true, if_false, h2]
    have hne : ∀ d : Char, isDigit d = false → c ≠ d := by
      rintro d hd rfl
      rw [h2] at hd
      simp at hd
    simp [hne 'U' (by decide), hne 'u' (by decide), hne 'r' (by decide), hne '(' (by decide), hne 'l' (by decide), hne ')' (by decide)]

end Frobby

import Verif.PropsAction
import Verif.AnalyzeModel

/-!
# C51 and C53: monomials are read as they are written

`analyze -lcm` writes a monomial and `alexdual` reads one after the ideal.
-/

namespace Frobby

theorem newline_stop : TermStop t!"\n" ∧ peekChar '_' t!"\n" = false ∧ PowerStopCoCoA t!"\n" ∧ peekChar 'x' t!"\n" = false := by
  unfold TermStop PowerStop PowerStopCoCoA
  decide +kernel

theorem readTerm_written {f : IOFormat} {names : List Text} {e : List ℕ} (hr : AllowedRing names) (he : e.length = names.length) (hf : f = .fourti2 → names ≠ []) {t : Text}
    (ht : eatWhite t = eatWhite (writeTermIn f names e ++ t!"\n")) : ∃ r, readTerm f names t = some (e, r) ∧ matchEOF r = true := by
  have key : ∀ {item : InputConsumer → Text → Option (InputConsumer × Text)} {tx : List ℕ → Text} {Stop : Text → Prop}, TermReads false names item tx Stop →
      readTermConsumer f = item → writeTermIn f names e = tx e → Stop t!"\n" → ∃ r, readTerm f names t = some (e, r) ∧ matchEOF r = true := by
    intro item tx Stop h1 h2 h3 h4
    obtain ⟨k', r', h5, _, h6, h7⟩ := h1 (.beginIdeal names) e t!"\n" t rfl ⟨he, by simp⟩ h4 (by rw [ht, h3])
    refine ⟨r', by simp [readTerm, h2, h5, h6], ?_⟩
    rw [matchEOF, h7]
    decide
  obtain ⟨s1, s2, s3, s4⟩ := newline_stop
  have hp := termReads_product (sf := false) hr.valid
  cases f with
  | monos => exact key hp rfl rfl s1
  | singular => exact key hp rfl rfl s1
  | newmonos => exact key hp rfl rfl s1
  | cocoa4 => exact key (termReads_cocoa hr.varCount) rfl rfl ⟨s3, s4⟩
  | fourti2 =>
    refine key (termReads_4ti2 (hf rfl)) rfl ?_ trivial
    have : e ≠ [] := by
      rintro rfl
      exact hf rfl (List.length_eq_zero_iff.1 he.symm)
    simp [writeTermIn, this]
  | m2 =>
    obtain ⟨k', r', h5, _, h6, h7⟩ := hp (.beginIdeal names) e t!"\n" t rfl ⟨he, by simp⟩ s1 ht
    have h8 : eatWhite r' = [] := by rw [h7]; decide
    have h9 : matchChar '_' r' = (false, []) := by simp [matchChar, h8]
    refine ⟨[], ?_, by decide⟩
    simp [readTerm, readTermConsumer, InputConsumer.readTermM2, h5, h9, h6]

/-- C51: the least common multiple that `analyze -lcm` prints is read back, in every format. There has to be a variable for 4ti2, where a
monomial without exponents is written as a word. -/
theorem C51_term_read {f : IOFormat} {names : List Text} {e : List ℕ} (hr : AllowedRing names) (he : e.length = names.length) (hf : f = .fourti2 → names ≠ []) :
    ∃ r, readTerm f names (writeTermIn f names e ++ t!"\n") = some (e, r) ∧ matchEOF r = true :=
  readTerm_written hr he hf rfl

example : readTerm .cocoa4 [t!"a", t!"b"] (writeTermIn .cocoa4 [t!"a", t!"b"] [2, 0] ++ t!"\n") = some ([2, 0], t!"\n") := by decide +kernel

theorem readConsumer_rest {f : IOFormat} {I : NamedIdeal} (hI : Readable false I) (r : Text) (hr : f = .fourti2 → peekIdentifier r = false) :
    ∃ k r', readConsumer false f (writeIdeal f I ++ r) = some (k, r') ∧ k.release = I ∧ eatWhite r' = eatWhite r := by
  have hk : ∀ {k : InputConsumer}, k.names = I.names → k.gens.reverse = I.terms → k.release = I := fun h2 h3 => by
    unfold InputConsumer.release
    rw [h2, h3]
  have hcommon : ∀ f : IOFormat, f.common = true → ∃ k r', (readRing f (writeIdeal f I ++ r)).bind (fun p => readBare false f p.1 p.2) = some (k, r') ∧
      k.release = I ∧ eatWhite r' = eatWhite r := by
    intro f hf
    obtain ⟨r1, h1, h2⟩ := ringReads_common hf hI.names hI.varCount (bareText f I ++ r) (writeIdeal f I ++ r)
      (by rw [writeIdeal, writeIdealFrom_common hf]; simp)
    obtain ⟨k, r', h3, h4, h5, h6⟩ := bareReads_common hf hI r r1 (by rw [h2])
    exact ⟨k, r', by rw [h1]; simpa using h3, hk h4 h5, h6⟩
  cases f with
  | m2 => exact hcommon .m2 rfl
  | cocoa4 => exact hcommon .cocoa4 rfl
  | singular => exact hcommon .singular rfl
  | monos => exact hcommon .monos rfl
  | newmonos =>
    obtain ⟨k, r', h1, h2, h3, h4⟩ := readIdealNoLeftParen_spec hI.names hI.terms (r := r) (t := newMonosText I ++ r) (by simp)
    refine ⟨k, r', ?_, hk h2 h3, h4⟩
    rw [writeIdeal, writeIdealFrom_newMonos]
    simp [readConsumer, expectChar_cons, isSpace, h1]
  | fourti2 =>
    obtain ⟨k, r', h1, h2, h3, h4⟩ := readConsumer_4ti2_spec hI true (hr rfl) (t := writeIdeal .fourti2 I ++ r) (by simp [writeIdeal])
    exact ⟨k, r', h1, hk h2 h3, h4⟩

/-- C53: every ideal and every point can be given to `alexdual`: the text of the ideal and then the text of the monomial are read as the
ideal and the point. -/
theorem C53_dual_input_written {f : IOFormat} {I : NamedIdeal} (hI : WellFormed I) {a : List ℕ} (ha : a.length = I.names.length) (hf : f = .fourti2 → I.names ≠ []) :
    readDualInstance f (writeIdeal f I ++ writeTermIn f I.names a ++ t!"\n") = some (I, some a) := by
  have hne : ∃ c u, eatWhite (writeTermIn f I.names a ++ t!"\n") = c :: u ∧ (f = .fourti2 → isAlpha c = false) := by
    by_cases hf' : f = .fourti2
    · subst hf'
      cases a with
      | nil => exact absurd (List.length_eq_zero_iff.1 ha.symm) (hf rfl)
      | cons x xs =>
        obtain ⟨c, l, h1, h2⟩ := decimal_cons x
        refine ⟨c, l ++ ((xs.flatMap fun e => ' ' :: decimal e) ++ (t!"\n" ++ t!"\n")), ?_, fun _ => ?_⟩
        · have h3 := eatWhite_decimal x ((xs.flatMap fun e => ' ' :: decimal e) ++ (t!"\n" ++ t!"\n"))
          rw [h1] at h3
          simpa [writeTermIn, writeTerm4ti2, eatWhite_cons, isSpace, h1] using h3
        · exact isAlpha_of_isDigit h2
    · obtain ⟨c, l, h1, h2⟩ : ∃ c l, writeTermIn f I.names a = c :: l ∧ (isAlpha c = true ∨ c = '1') := by
        cases f with
        | m2 => exact writeTermProduct_head hI.ring.valid ha
        | cocoa4 => exact termText_head hI.ring.valid ha (f := .cocoa4) nofun
        | fourti2 => exact absurd rfl hf'
        | monos => exact writeTermProduct_head hI.ring.valid ha
        | newmonos => exact writeTermProduct_head hI.ring.valid ha
        | singular => exact writeTermProduct_head hI.ring.valid ha
      refine ⟨c, l ++ t!"\n", ?_, fun h => absurd h hf'⟩
      rw [h1, List.cons_append, eatWhite_cons, isSpace_of_head h2]
      rfl
  obtain ⟨c, u, h1, h2⟩ := hne
  obtain ⟨k, r', h3, h4, h5⟩ := readConsumer_rest (f := f) hI.readable (writeTermIn f I.names a ++ t!"\n") (by
    intro hf'
    simp [peekIdentifier, h1, nextIs, h2 hf'])
  obtain ⟨r, h6, h7⟩ := readTerm_written hI.ring ha hf h5
  have h8 : matchEOF r' = false := by simp [matchEOF, h5, h1]
  have h9 : k.names = I.names := by rw [← h4]; rfl
  simp [readDualInstance, h3, h8, h9, h6, h7, h4]

example : readDualInstance .fourti2 (writeIdeal .fourti2 dualIdeal ++ writeTermIn .fourti2 dualIdeal.names [2, 3] ++ t!"\n") = some (dualIdeal, some [2, 3]) :=
  C53_dual_input_written ⟨(dualText1_accepted false).ring, by decide, by decide⟩ rfl (by decide)

end Frobby

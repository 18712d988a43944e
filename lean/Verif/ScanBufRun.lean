import Verif.ScanBufOps

/-!
# From the first byte to the end of a file
-/

namespace Frobby

theorem signedChar_end (b : FileByte) : signedChar b = -1 ↔ b.val = 255 := by
  have := b.isLt
  unfold signedChar
  split <;> omega

theorem charOfInt_signedChar (b : FileByte) : charOfInt (signedChar b) = Char.ofNat b.val := by
  have := b.isLt
  unfold charOfInt signedChar
  congr 1
  split <;> omega

theorem textOfInts_file (l : List FileByte) : textOfInts (l.map signedChar) = fileText l := by
  induction l with
  | nil => rfl
  | cons b l ih =>
    by_cases hb : b.val = 255
    · rw [List.map_cons, (signedChar_end b).2 hb, textOfInts_end, fileText, List.takeWhile_cons_of_neg (by simp [hb])]
      rfl
    · rw [List.map_cons, textOfInts_cons (fun e => hb ((signedChar_end b).1 e)), ih, charOfInt_signedChar, fileText, fileText,
        List.takeWhile_cons_of_pos (by simp [hb])]
      rfl

theorem start_text (file : InFile) (capacity : ℕ) : (BufScanner.start file capacity).text = ' ' :: fileText file.rest := by
  unfold BufScanner.text BufScanner.start
  simp only
  rw [List.drop_of_length_le (by simp), List.nil_append, textOfInts_cons (by decide), textOfInts_file]
  rfl

/-- `expectEOF`: the first character that is not white must be the end. -/
theorem expectEnd_spec {s : BufScanner} (h : s.Ok) :
    (matchEOF s.text = true ∧ ∃ s', s.expectEnd = .ok ((), s')) ∨
      matchEOF s.text = false ∧ ∃ l, s.expectEnd = .error (.syntaxError l) ∧ l + BufScanner.newlines (eatWhite s.text).tail = s.line + BufScanner.newlines s.text := by
  obtain ⟨s1, h1, h2, h3, h4⟩ := BufScanner.white_spec h
  unfold BufScanner.expectEnd matchEOF
  simp only [h1, bind, Except.bind, ← h4]
  by_cases hc : s1.char = -1
  · obtain ⟨s2, e1, -⟩ := BufScanner.getChar_spec h2.ok
    refine .inl ⟨by rw [BufScanner.text_end hc]; rfl, s2, ?_⟩
    simp only [e1, if_pos hc]
    rfl
  · obtain ⟨s2, e1, e2, -, e4, -⟩ := BufScanner.getChar_next h2.ok hc
    refine .inr ⟨by rw [e4]; rfl, s2.line, ?_, ?_⟩
    · simp only [e1, if_neg hc]
    · rw [e4, List.tail_cons]
      exact (h2.trans e2).line

/-- A reader gets from a file what it gets from the text of the file. -/
theorem readFile_spec {α : Type} (p : ScanProg α) (hp : p.Ascii) (bytes : List FileByte) (fails : Bool) {capacity : ℕ} (hc : 0 < capacity) :
    (∃ a, p.readText (' ' :: fileText bytes) = .ok a ∧ p.readFile ⟨bytes, fails, false, false⟩ capacity = .ok a) ∨
      ∃ r l, p.readText (' ' :: fileText bytes) = .error r ∧ p.readFile ⟨bytes, fails, false, false⟩ capacity = .error (.syntaxError l) ∧
        l + BufScanner.newlines r = 1 + BufScanner.newlines (fileText bytes) := by
  have hs := BufScanner.start_ok (file := ⟨bytes, fails, false, false⟩) hc ⟨rfl, rfl⟩
  have ht := start_text ⟨bytes, fails, false, false⟩ capacity
  have hl : (BufScanner.start ⟨bytes, fails, false, false⟩ capacity).line = 1 := rfl
  have ha := p.agrees hp hs
  have hn : BufScanner.newlines (' ' :: fileText bytes) = BufScanner.newlines (fileText bytes) := List.count_cons_of_ne (by decide)
  simp only at ht
  unfold ScanProg.readText ScanProg.readFile
  rw [ht] at ha
  rcases hx : p.onFile (.start ⟨bytes, fails, false, false⟩ capacity) with (l | _) | ⟨a, s'⟩ <;>
    rcases hy : p.onText (' ' :: fileText bytes) with r | ⟨b, t⟩ <;> rw [hx, hy] at ha <;> try exact ha.elim
  · refine .inr ⟨r, l, rfl, rfl, ?_⟩
    have : l + BufScanner.newlines r = _ := ha
    rw [this, ht, hn, hl]
  · obtain ⟨e1, e2, e3⟩ := ha
    subst e1 e3
    have e4 := e2.line
    rw [ht, hn, hl] at e4
    rcases expectEnd_spec e2.ok with ⟨g1, s2, g2⟩ | ⟨g1, l, g2, g3⟩
    · refine .inl ⟨a, by simp only [g1, if_true], ?_⟩
      simp only [bind, Except.bind, g2, pure, Except.pure]
    · refine .inr ⟨(eatWhite s'.text).tail, l, by simp only [g1]; rfl, ?_, ?_⟩
      · simp only [bind, Except.bind, g2]
      · rw [g3, e4]

end Frobby

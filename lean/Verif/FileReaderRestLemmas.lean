import Verif.FileReaderRestModel
import Verif.FileReaderMoreLemmas

/-!
# Asking for the end of a file twice, and the readers of `FileReaderRestModel`
-/

namespace Frobby

/-! ## What scanners keep -/

theorem except_bind_ok {ε α β : Type} {x : Except ε α} {f : α → Except ε β} {b : β} (h : x.bind f = .ok b) : ∃ a, x = .ok a ∧ f a = .ok b := by
  cases x with
  | error e => cases h
  | ok a => exact ⟨a, rfl, h⟩

namespace BufScanner

/-- What `getChar` and writing to `_tmpString` do not change. -/
structure Keeps (I : BufScanner → Prop) : Prop where
  getChar : ∀ {s : BufScanner} {r}, I s → s.getChar = .ok r → I r.2
  tmp : ∀ {s : BufScanner} (l : List (Option ℤ)), s.tmp.length ≤ l.length → I s → I ⟨s.file, s.line, s.char, l, s.buffer, s.capacity, s.pos⟩

variable {I : BufScanner → Prop}

theorem Keeps.skip (k : Keeps I) (p : ℤ → Bool) : ∀ (n : ℕ) {s s' : BufScanner}, I s → BufScanner.skip p n s = .ok s' → I s'
  | 0, _, _, _, e => by cases e
  | n + 1, s, s', h, e => by
    unfold BufScanner.skip at e
    split at e
    · obtain ⟨r, e1, e2⟩ := except_bind_ok e
      exact k.skip p n (k.getChar h e1) e2
    · cases e
      exact h

theorem Keeps.white (k : Keeps I) {s s' : BufScanner} (h : I s) (e : s.white = .ok s') : I s' := k.skip _ _ h e

theorem Keeps.putTmp (k : Keeps I) {s s' : BufScanner} {i : ℕ} {c : ℤ} (h : I s) (e : s.putTmp i c = .ok s') : I s' := by
  unfold BufScanner.putTmp at e
  split at e
  · cases e
    exact k.tmp _ (by simp) h
  · cases e

theorem Keeps.growTmp (k : Keeps I) {s : BufScanner} (h : I s) : I s.growTmp := k.tmp _ (by simp) h

theorem Keeps.gather (k : Keeps I) (p : ℤ → Bool) : ∀ (n size : ℕ) {s : BufScanner} {r}, I s → BufScanner.gather p n size s = .ok r → I r.2
  | 0, _, _, _, _, e => by cases e
  | n + 1, size, s, r, h, e => by
    unfold BufScanner.gather at e
    split at e
    · obtain ⟨a, e1, e⟩ := except_bind_ok e
      obtain ⟨b, e2, e⟩ := except_bind_ok e
      refine k.gather p n _ ?_ e
      split
      · exact k.growTmp (k.putTmp (k.getChar h e1) e2)
      · exact k.putTmp (k.getChar h e1) e2
    · cases e
      exact h

theorem Keeps.gatherString (k : Keeps I) {p : ℤ → Bool} {size : ℕ} {s : BufScanner} {r} (h : I s) (e : BufScanner.gatherString p size s = .ok r) : I r.2 := by
  obtain ⟨a, e1, e⟩ := except_bind_ok e
  obtain ⟨b, e2, e⟩ := except_bind_ok e
  cases e
  exact k.putTmp (k.gather _ _ _ h e1) e2

theorem Keeps.matchC (k : Keeps I) {c : Char} {s : BufScanner} {r} (h : I s) (e : s.matchC c = .ok r) : I r.2 := by
  obtain ⟨a, e1, e⟩ := except_bind_ok e
  split at e
  · obtain ⟨b, e2, e⟩ := except_bind_ok e
    cases e
    exact k.getChar (k.white h e1) e2
  · cases e
    exact k.white h e1

theorem Keeps.expectC (k : Keeps I) {c : Char} {s : BufScanner} {r} (h : I s) (e : s.expectC c = .ok r) : I r.2 := by
  obtain ⟨a, e1, e⟩ := except_bind_ok e
  obtain ⟨b, e2, e⟩ := except_bind_ok e
  split at e
  · cases e
    exact k.getChar (k.white h e1) e2
  · cases e

theorem Keeps.expectLoop (k : Keeps I) : ∀ (l : Text) (first : Bool) {s : BufScanner} {r}, I s → BufScanner.expectLoop first l s = .ok r → I r.2
  | [], _, _, _, h, e => by
    cases e
    exact h
  | c :: l, first, s, r, h, e => by
    unfold BufScanner.expectLoop at e
    obtain ⟨a, e1, e⟩ := except_bind_ok e
    split at e
    · exact k.expectLoop l _ (k.getChar h e1) e
    · split at e
      · cases e
      · obtain ⟨b, -, e⟩ := except_bind_ok e
        cases e

theorem Keeps.expectT (k : Keeps I) {t : Text} {s : BufScanner} {r} (h : I s) (e : s.expectT t = .ok r) : I r.2 := by
  obtain ⟨a, e1, e⟩ := except_bind_ok e
  exact k.expectLoop _ _ (k.white h e1) e

theorem Keeps.identifier (k : Keeps I) {s : BufScanner} {r} (h : I s) (e : s.identifier = .ok r) : I r.2 := by
  obtain ⟨a, e1, e⟩ := except_bind_ok e
  split at e
  · obtain ⟨b, e2, e⟩ := except_bind_ok e
    obtain ⟨t, e3, e⟩ := except_bind_ok e
    cases e
    exact k.gatherString (k.white h e1) e2
  · cases e

theorem Keeps.stringLoop (k : Keeps I) : ∀ (n : ℕ) (str : Text) {s : BufScanner} {r}, I s → BufScanner.stringLoop n str s = .ok r → I r.2
  | 0, _, _, _, _, e => by cases e
  | n + 1, str, s, r, h, e => by
    unfold BufScanner.stringLoop at e
    obtain ⟨a, e1, e⟩ := except_bind_ok e
    dsimp only at e
    split at e
    · exact k.stringLoop n _ (k.getChar h e1) e
    · cases e
      exact k.getChar h e1

theorem Keeps.identifierString (k : Keeps I) {s : BufScanner} {r} (h : I s) (e : s.identifierString = .ok r) : I r.2 := by
  obtain ⟨a, e1, e⟩ := except_bind_ok e
  split at e
  · exact k.stringLoop _ _ (k.white h e1) e
  · cases e

theorem Keeps.whiteThen (k : Keeps I) {β : Type} {f : BufScanner → β} {s : BufScanner} {r : β × BufScanner} (h : I s)
    (e : (s.white.bind fun s => .ok (f s, s)) = .ok r) : I r.2 := by
  obtain ⟨a, e1, e⟩ := except_bind_ok e
  cases e
  exact k.white h e1

theorem Keeps.integerString (k : Keeps I) {s : BufScanner} {r} (h : I s) (e : s.integerString = .ok r) : I r.2 := by
  obtain ⟨a, e1, e⟩ := except_bind_ok e
  have ha := k.white h e1
  have tail : ∀ {b : BufScanner}, I b →
      ((BufScanner.gatherString digitInt 1 b).bind fun r => if r.1 = 1 then .error (.syntaxError r.2.line) else .ok r) = .ok r → I r.2 := by
    intro b hb e
    obtain ⟨c, e3, e⟩ := except_bind_ok e
    split at e
    · cases e
    · cases e
      exact k.gatherString hb e3
  dsimp only at e
  split at e
  · obtain ⟨c, e3, e⟩ := except_bind_ok e
    obtain ⟨b, e2, e⟩ := except_bind_ok e
    exact tail (k.putTmp (k.getChar ha e3) e2) e
  · obtain ⟨b, e2, e⟩ := except_bind_ok e
    exact tail (k.putTmp ha e2) e

theorem Keeps.digitString (k : Keeps I) {s : BufScanner} {r} (h : I s) (e : s.digitString = .ok r) : I r.2 := by
  obtain ⟨a, e1, e⟩ := except_bind_ok e
  have ha := k.white h e1
  split at e
  · cases e
  · obtain ⟨c, e3, e⟩ := except_bind_ok e
    split at e
    · cases e
    · cases e
      exact k.gatherString ha e3

theorem Keeps.integer (k : Keeps I) {s : BufScanner} {r} (h : I s) (e : s.integer = .ok r) : I r.2 := by
  obtain ⟨a, e1, e⟩ := except_bind_ok e
  obtain ⟨b, -, e⟩ := except_bind_ok e
  cases e
  exact k.integerString h e1

theorem Keeps.digits (k : Keeps I) {s : BufScanner} {r} (h : I s) (e : s.digits = .ok r) : I r.2 := by
  obtain ⟨a, e1, e⟩ := except_bind_ok e
  obtain ⟨b, -, e⟩ := except_bind_ok e
  cases e
  exact k.digitString h e1

theorem Keeps.sizeT (k : Keeps I) {s : BufScanner} {r} (h : I s) (e : s.sizeT = .ok r) : I r.2 := by
  obtain ⟨a, e1, e⟩ := except_bind_ok e
  split at e
  · cases e
    exact k.integer h e1
  · cases e

theorem Keeps.signedAsZero (k : Keeps I) {s : BufScanner} {r} (h : I s) (e : s.signedAsZero = .ok r) : I r.2 := by
  obtain ⟨a, e1, e⟩ := except_bind_ok e
  have ha := k.integerString h e1
  split at e
  · split at e
    · cases e
      exact ha
    · obtain ⟨b, -, e⟩ := except_bind_ok e
      cases e
      exact ha
  · cases e

theorem Keeps.nonNegative (k : Keeps I) {s : BufScanner} {r} (h : I s) (e : s.nonNegative = .ok r) : I r.2 := by
  unfold BufScanner.nonNegative at e
  split at e
  · obtain ⟨a, e1, e⟩ := except_bind_ok e
    have ha := k.getChar h e1
    split at e
    · exact k.signedAsZero ha e
    · cases e
      exact ha
  · exact k.signedAsZero h e

theorem Keeps.onFile (k : Keeps I) : ∀ (o : ScanOp) {s : BufScanner} {r}, I s → o.onFile s = .ok r → I r.2
  | .white, s, r, h, e => by
    have e' : (s.white.map fun s => ((), s)) = .ok r := e
    rcases hw : s.white with _ | s'
    · rw [hw] at e'; cases e'
    · rw [hw] at e'
      cases e'
      exact k.white h hw
  | .matchC _, _, _, h, e => k.matchC h e
  | .expectC _, _, _, h, e => k.expectC h e
  | .expectT _, _, _, h, e => k.expectT h e
  | .identifier, _, _, h, e => k.identifier h e
  | .identifierString, _, _, h, e => k.identifierString h e
  | .peekId, _, _, h, e => k.whiteThen (f := fun s => alphaInt s.char) h e
  | .peekC c, _, _, h, e => k.whiteThen (f := fun s => decide (s.char = intOfChar c)) h e
  | .peekWhite, _, _, h, e => by cases e; exact h
  | .atEnd, _, _, h, e => k.whiteThen (f := fun s => decide (s.char = -1)) h e
  | .integer, _, _, h, e => k.integer h e
  | .digits, _, _, h, e => k.digits h e
  | .sizeT, _, _, h, e => k.sizeT h e
  | .nonNegative, _, _, h, e => k.nonNegative h e
  | .charsLeft, _, _, h, e => by cases e; exact h

theorem Keeps.run (k : Keeps I) {α : Type} : ∀ (p : ScanProg α) {s : BufScanner} {r}, I s → p.onFile s = .ok r → I r.2
  | .done a, s, r, h, e => by cases e; exact h
  | .fail, s, r, h, e => by cases e
  | .ask o g, s, r, h, e => by
    unfold ScanProg.onFile at e
    rcases ho : o.onFile s with _ | ⟨a, s'⟩
    · rw [ho] at e; cases e
    · rw [ho] at e
      exact k.run (g a) (k.onFile o h ho) e

/-- There is no byte that is taken for the end of the file. -/
structure Clean (s : BufScanner) : Prop where
  ok : Ok s
  rest : ∀ b ∈ s.buffer.drop s.pos ++ s.file.rest, b.val ≠ 255
  ends : s.char = -1 → s.buffer.drop s.pos ++ s.file.rest = []

theorem Clean.next {s : BufScanner} {r} (h : Clean s) (e : s.getChar = .ok r) :
    Clean r.2 ∧ r.1 = s.char ∧ (s.buffer.drop s.pos ++ s.file.rest = [] → r.2.char = -1) := by
  obtain ⟨s', h1, h2, -, -⟩ := getChar_spec h.ok
  have hr := h.rest
  rw [h1] at e
  cases e
  have key : (s.buffer.drop s.pos ++ s.file.rest = [] ∧ s'.char = -1 ∧ s'.buffer.drop s'.pos ++ s'.file.rest = []) ∨
      ∃ b, s'.char = signedChar b ∧ s.buffer.drop s.pos ++ s.file.rest = b :: (s'.buffer.drop s'.pos ++ s'.file.rest) := by
    unfold BufScanner.getChar at h1
    by_cases hp : s.pos = s.buffer.length
    · simp only [if_pos hp] at h1
      obtain ⟨-, -, -, -, -, h6⟩ := readBuffer_spec h.ok hp
      cases h1
      rw [hp, List.drop_length, List.nil_append]
      exact h6
    · simp only [if_neg hp] at h1
      have hl : s.pos < s.buffer.length := lt_of_le_of_ne h.ok.pos hp
      rw [List.getElem?_eq_getElem hl] at h1
      cases h1
      refine .inr ⟨s.buffer[s.pos], rfl, ?_⟩
      rw [List.drop_eq_getElem_cons hl]
      rfl
  rcases key with ⟨g1, g2, g3⟩ | ⟨b, g1, g2⟩
  · exact ⟨⟨h2, by rw [g3]; simp, fun _ => g3⟩, rfl, fun _ => g2⟩
  · rw [g2] at hr
    refine ⟨⟨h2, fun c hc => hr c (List.mem_cons_of_mem _ hc), fun hc => ?_⟩, rfl, fun hc => ?_⟩
    · rw [g1, signedChar_end] at hc
      exact absurd hc (hr b (by simp))
    · rw [g2] at hc
      cases hc

theorem keeps_clean : Keeps Clean where
  getChar h e := (h.next e).1
  tmp _ hl h := ⟨⟨h.ok.pos, h.ok.buffer, h.ok.capacity, h.ok.ended, h.ok.low, h.ok.high, h.ok.tmp.trans hl⟩, h.rest, h.ends⟩

/-- At the end of a file without such a byte, one can ask for the end again. -/
theorem Clean.end_again {s : BufScanner} {r} (h : Clean s) (e : s.expectEnd = .ok r) : ∃ r', r.2.expectEnd = .ok r' := by
  obtain ⟨s1, e1, e⟩ := except_bind_ok e
  have h1 := keeps_clean.white h e1
  obtain ⟨a, e2, e⟩ := except_bind_ok e
  obtain ⟨g1, g2, g3⟩ := h1.next e2
  split at e
  · rename_i hc
    cases e
    have he := g3 (h1.ends (g2 ▸ hc))
    rcases expectEnd_spec g1.ok with ⟨-, s', h'⟩ | ⟨h', -⟩
    · exact ⟨_, h'⟩
    · rw [text_end he] at h'
      cases h'
  · cases e

theorem start_clean {bytes : List FileByte} (hb : ∀ b ∈ bytes, b.val ≠ 255) (fails : Bool) {capacity : ℕ} (hc : 0 < capacity) :
    Clean (start ⟨bytes, fails, false, false⟩ capacity) where
  ok := start_ok hc ⟨rfl, rfl⟩
  rest := by
    unfold start
    simp only
    rw [List.drop_of_length_le (by simp), List.nil_append]
    exact hb
  ends h := by cases h

end BufScanner

namespace ScanProg

/-! ## lists of ideals -/

theorem run_ring4ti2 : ∀ (n : ℕ) (names : List Text) (t u : Text), eatWhite t = eatWhite u →
    SameUpTo ((ring4ti2P n names).run t) (readRing4ti2 n names u)
  | 0, _, _, _, _ => rfl
  | n + 1, names, t, u, e => by
    unfold ring4ti2P readRing4ti2
    simp only [run_bind, run_peekId, run_ite, run_pure, Option.bind_some]
    rw [upTo_of_white peekIdentifier_white e]
    by_cases hp : peekIdentifier u = true
    · rw [if_pos hp, if_pos hp, e, run_name, readName_white]
      rcases readName names u with _ | ⟨names', r⟩
      · rfl
      · exact run_ring4ti2 n names' r r rfl
    · rw [if_neg hp, if_neg hp]
      show some (names, eatWhite (eatWhite t)) = some (names, eatWhite u)
      rw [eatWhite_twice, e]

theorem run_suffix {α : Type} {p : ScanProg α} {t : Text} {x : α × Text} (h : p.run t = some x) : x.2 <:+ t := by
  have hs := onText_suffix p t
  unfold run at h
  rcases ho : p.onText t with r | ⟨a, r⟩ <;> rw [ho] at h hs <;> cases h
  exact hs

theorem readSizeT_shorter {t : Text} {p : ℕ × Text} (h : readSizeT t = some p) : p.2.length < t.length := by
  unfold readSizeT at h
  rcases hx : readInteger t with _ | q
  · rw [hx] at h; cases h
  · rw [hx] at h
    have := readInteger_shorter hx
    simp only at h
    split at h
    · cases h
      exact this
    · cases h

/-- An ideal takes at least one character. -/
theorem run_consumer_shorter {t : Text} {x : InputConsumer × Text} (h : (consumerP false .fourti2).run t = some x) : x.2.length < t.length := by
  unfold consumerP at h
  rw [run_bind, run_size] at h
  obtain ⟨q, h1, h2⟩ := Option.bind_eq_some_iff.1 h
  exact lt_of_le_of_lt (run_suffix h2).length_le (readSizeT_shorter h1)

theorem run_ideals4ti2Loop : ∀ (n m : ℕ) (names : List Text) (Is : List NamedIdeal) (t u : Text), eatWhite t = eatWhite u →
    (eatWhite u).length < n → (eatWhite u).length < m →
    SameUpTo ((ideals4ti2LoopP n names Is).run t) ((readIdeals4ti2 m names Is u).map pairOf)
  | 0, _, _, _, _, _, _, h, _ => by omega
  | _ + 1, 0, _, _, _, _, _, _, h => by omega
  | n + 1, m + 1, names, Is, t, u, e, hn, hm' => by
    unfold ideals4ti2LoopP readIdeals4ti2
    simp only [run_bind, run_atEnd, run_ite, run_pure, Option.bind_some]
    rw [upTo_of_white matchEOF_white e, e]
    by_cases hm : matchEOF u = true
    · rw [if_pos hm, if_pos hm]
      show some ((Is, names), eatWhite (eatWhite u)) = some ((Is, names), eatWhite u)
      rw [eatWhite_twice]
    · rw [if_neg hm, if_neg hm]
      rcases (run_consumer false .fourti2 u).cases with ⟨h1, h2⟩ | ⟨k, v, w, h1, h2, h3⟩
      · rw [run_consumer_white, h1, h2]
        rfl
      · have hv : v.length < (eatWhite u).length := run_consumer_shorter (x := (k, v)) ((run_consumer_white _ _).trans h1)
        have hw := (eatWhite_suffix v).length_le
        rw [run_consumer_white, h1, h2]
        exact run_ideals4ti2Loop n m k.names _ v w h3 (by rw [← h3]; omega) (by rw [← h3]; omega)

theorem run_ideals4ti2 (t : Text) : SameUpTo ((do let x ← ideals4ti2P; pure x.1 : ScanProg _).run t) ((readIdealsFrom .fourti2 t).map pairOf) := by
  unfold ideals4ti2P readIdealsFrom
  simp only [run_bind, run_size, Option.bind_eq_bind, Option.bind_assoc]
  rcases readSizeT t with _ | ⟨g, r⟩
  · rfl
  · simp only [Option.bind_some]
    have hrest : ∀ v, eatWhite v = eatWhite r → SameUpTo
        ((readSizeT v).bind fun x => ((fourti2P false g x.1).run x.2).bind fun x =>
          ((ideals4ti2LoopP (x.2.length + 1) x.1.names [x.1.release]).run x.2).bind fun x => some (x.1, x.2))
        (Option.map pairOf ((readSizeT r).bind fun x => (readIdeal4ti2 false g x.1 x.2).bind fun x =>
          readIdeals4ti2 (x.2.length + 1) x.1.names [x.1.release] x.2)) := by
      intro v hv
      rw [upTo_of_white readSizeT_white hv]
      rcases readSizeT r with _ | ⟨n, r'⟩
      · rfl
      · simp only [Option.bind_some]
        rcases (run_fourti2 false g n r').cases with ⟨h1, h2⟩ | ⟨k, v', w, h1, h2, h3⟩
        · rw [h1, h2]
          rfl
        · rw [h1, h2]
          simp only [Option.bind_some]
          have e1 := (eatWhite_suffix v').length_le
          have e2 := (eatWhite_suffix w).length_le
          rw [h3] at e1
          have := run_ideals4ti2Loop (v'.length + 1) (w.length + 1) k.names [k.release] v' w h3 (by omega) (by omega)
          rcases hx : (ideals4ti2LoopP (v'.length + 1) k.names [k.release]).run v' with _ | x <;> rw [hx] at this <;> exact this
    unfold ringOnlyP
    by_cases hg : g = 42
    · simp only [hg, if_true, true_and, run_peekId, Option.bind_some, run_ite, run_bind, run_text, run_left, run_size]
      by_cases hp : peekIdentifier r = true
      · simp only [hp, if_true, expectText_white]
        rcases expectText t!"ring" r with _ | r'
        · rfl
        · simp only [Option.map_some, Option.bind_some, run_pure]
          rcases (run_ring4ti2 (r'.length + 1) [] r' r' rfl).cases with ⟨h1, h2⟩ | ⟨names, v, w, h1, h2, h3⟩
          · rw [h1, h2]
            rfl
          · rw [h1, h2]
            show some (([], names), eatWhite v) = some (([], names), eatWhite w)
            rw [h3]
      · subst hg
        simp only [hp, if_false, Bool.false_eq_true, Option.bind_assoc, run_pure, Option.bind_some]
        exact hrest _ (eatWhite_twice r)
    · simp only [hg, if_false, false_and, run_pure, Option.bind_some, run_ite, run_bind, run_size, run_left, Bool.false_eq_true, Option.bind_assoc]
      exact hrest r rfl

/-- The list without the flag. -/
def bareListP (f : IOFormat) : ScanProg (List NamedIdeal × List Text) := do
  let x ← listP f
  pure x.1

theorem run_bareList {f : IOFormat} (hf : f ≠ .fourti2) (t : Text) : (bareListP f).run t = (idealsP f).run t := by
  unfold bareListP listP
  rw [if_neg hf]
  simp only [run_bind, run_pure]
  cases (idealsP f).run t <;> rfl

theorem run_bareList_white (f : IOFormat) (t : Text) : (bareListP f).run (eatWhite t) = (bareListP f).run t := by
  by_cases hf : f = .fourti2
  · unfold bareListP listP ideals4ti2P
    simp only [if_pos hf, run_bind, run_size, readSizeT_white]
  · rw [run_bareList hf, run_bareList hf, run_ideals_white]

theorem readText_bareList (f : IOFormat) (t : Text) : dropRest ((bareListP f).readText (' ' :: t)) = readIdeals f t := by
  by_cases hf : f = .fourti2
  · subst hf
    rw [readText_run, ← space_of_white (g := readIdeals .fourti2) (fun t => ?_)]
    · refine (run_ideals4ti2 (' ' :: t)).atEndOnly.trans ?_
      unfold readIdeals atEndOnly
      cases readIdealsFrom .fourti2 (' ' :: t) <;> rfl
    · unfold readIdeals
      simp only [readIdealsFrom, readSizeT_white]
  · rw [← readText_ideals f hf, readText_run, readText_run, run_bareList hf]

theorem readText_list (format : Option IOFormat) (t : Text) :
    (dropRest ((formatP listP format).readText (' ' :: t))).map Prod.fst = readIdeals (format.getD (autoDetect t)) t := by
  rw [← readText_bareList, ← readText_format run_bareList_white, readText_run, readText_run]
  have : ∀ u, (formatP bareListP format).run u = ((formatP listP format).run u).bind fun x => some (x.1.1, x.2) := by
    intro u
    cases format with
    | some f => exact run_bind _ _ _
    | none =>
      unfold formatP bareListP
      simp only [run_bind, run_pure, Option.bind_assoc]
  rw [this]
  rcases (formatP listP format).run (' ' :: t) with _ | ⟨x, r⟩
  · rfl
  · show Option.map _ (if matchEOF r = true then _ else _) = if matchEOF r = true then _ else _
    split <;> rfl

theorem ascii_ring4ti2 : ∀ (n : ℕ) (names : List Text), (ring4ti2P n names).Ascii
  | 0, _ => ascii_fail
  | n + 1, names => by
    unfold ring4ti2P
    exact ascii_bind ascii_peekId fun _ => ascii_ite (ascii_bind (ascii_name _) fun _ => ascii_ring4ti2 n _) (ascii_pure _)

theorem ascii_ideals4ti2Loop : ∀ (n : ℕ) (names : List Text) (Is : List NamedIdeal), (ideals4ti2LoopP n names Is).Ascii
  | 0, _, _ => ascii_fail
  | n + 1, names, Is => by
    unfold ideals4ti2LoopP
    exact ascii_bind ascii_atEnd fun _ => ascii_ite (ascii_pure _) (ascii_bind (ascii_consumer _ _) fun _ => ascii_ideals4ti2Loop n _ _)

theorem ascii_fourti2 (generatorCount varCount : ℕ) : (fourti2P false generatorCount varCount).Ascii := by
  unfold fourti2P gens4ti2P
  ascii_more
  · exact ascii_times (ascii_term4ti2 false) _ _
  · exact ascii_times ascii_name _ _

theorem ascii_list (f : IOFormat) : (listP f).Ascii := by
  unfold listP ideals4ti2P ringOnlyP
  ascii_more
  · exact ascii_ring4ti2 _ _
  · exact ascii_fourti2 _ _
  · exact ascii_ideals4ti2Loop _ _ _
  · exact ascii_ideals f

/-! ## lattices -/

theorem run_latticeRows (cols : ℕ) : ∀ (n : ℕ) (t : Text), (latticeRowsP cols n).run t = readLatticeRows cols n t
  | 0, _ => rfl
  | n + 1, t => by
    unfold latticeRowsP readLatticeRows
    simp only [run_bind, run_vector, run_pure]
    refine congrArg _ (funext fun x => ?_)
    rw [run_latticeRows cols n]
    cases readLatticeRows cols n x.2 <;> rfl

/-- There are not more integers than characters. -/
theorem readVector_none : ∀ (n : ℕ) (t : Text), t.length < n → readVector n t = none
  | 0, _, h => by omega
  | n + 1, t, h => by
    unfold readVector
    rcases hx : readInteger t with _ | p
    · rfl
    · have := readInteger_shorter hx
      show Option.map _ (readVector n p.2) = none
      rw [readVector_none n p.2 (by omega)]
      rfl

theorem run_fplllEntry : Runs fplllEntryP fplllEntry := by
  intro row t
  unfold fplllEntryP fplllEntry
  simp only [run_bind, run_integer, run_pure]
  cases readInteger t <;> rfl

theorem run_fplllRow : Runs fplllRowP fplllRow := by
  intro rows t
  unfold fplllRowP fplllRow
  simp only [run_bind, run_expect, run_left, run_ite, run_fail, run_pure, Option.bind_some, Option.bind_map, Function.comp_def, run_until run_fplllEntry]

/-- What a reader of lattices gets from a text. -/
def latticeOutcome : Option (Option LatticeBasis × Text) → Outcome (LatticeBasis × Text)
  | none => .error
  | some (none, _) => .crash
  | some (some B, r) => .ok (B, r)

theorem run_lattice (f : LatticeFormat) (t : Text) : latticeOutcome ((latticeP f).run t) = match f with
    | .fourti2 => readLattice4ti2 t
    | .fplll => readLatticeFplll t := by
  cases f with
  | fourti2 =>
    unfold latticeP lattice4ti2P readLattice4ti2
    simp only [run_bind, run_size, run_ite, run_pure, run_latticeRows, run_left, run_vector, run_fail, Option.bind_some]
    rcases readSizeT t with _ | ⟨n, t1⟩
    · rfl
    · simp only [Option.bind_some]
      rcases readSizeT t1 with _ | ⟨m, t2⟩
      · rfl
      · simp only [Option.bind_some]
        split
        · rcases readLatticeRows m n t2 with _ | ⟨rows, t3⟩ <;> rfl
        · split
          · rfl
          · rw [readVector_none _ _ (Nat.lt_succ_self _)]
            rfl
  | fplll =>
    unfold latticeP latticeFplllP readLatticeFplll
    simp only [run_bind, run_expect, run_left, run_ite, run_pure, Option.bind_some, Option.bind_map, Function.comp_def, run_until run_fplllRow]
    rcases expectChar '[' t with _ | t1
    · rfl
    · simp only [Option.bind_some]
      rcases readUntil fplllRow ']' (t1.length + 1) [] t1 with _ | ⟨rows, r⟩
      · rfl
      · simp only [Option.bind_some]
        split <;> rfl

theorem readLattice_run (f : LatticeFormat) (t : Text) : readLattice f t = match latticeOutcome ((latticeP f).run t) with
    | .ok (B, r) => if matchEOF r then .ok B else .error
    | .error => .error
    | .crash => .crash := by
  rw [run_lattice]
  unfold readLattice
  cases f <;> rfl

theorem readLattice_white (f : LatticeFormat) (t : Text) : readLattice f (eatWhite t) = readLattice f t := by
  unfold readLattice readLattice4ti2 readLatticeFplll
  rw [readSizeT_white, expectChar_white]

theorem ascii_latticeRows (cols : ℕ) : ∀ n : ℕ, (latticeRowsP cols n).Ascii
  | 0 => ascii_pure _
  | n + 1 => by
    unfold latticeRowsP
    exact ascii_bind (ascii_vector _) fun _ => ascii_bind (ascii_latticeRows cols n) fun _ => ascii_pure _

theorem ascii_fplllRow (rows : List (List ℤ)) : (fplllRowP rows).Ascii := by
  unfold fplllRowP
  ascii_more
  exact ascii_until (fun row => ascii_bind ascii_integer fun _ => ascii_pure _) (by decide) _ _

theorem ascii_lattice (f : LatticeFormat) : (latticeP f).Ascii := by
  cases f with
  | fourti2 =>
    unfold latticeP lattice4ti2P
    ascii_more
    · exact ascii_latticeRows _ _
    · exact ascii_vector _
  | fplll =>
    unfold latticeP latticeFplllP
    ascii_more
    exact ascii_until ascii_fplllRow (by decide) _ _

/-! ## saturated binomial ideals -/

theorem run_binomEntry : Runs binomEntryP readBinomEntry := by
  intro row t
  unfold binomEntryP readBinomEntry
  simp only [run_bind, run_integer, run_pure]
  cases readInteger t <;> rfl

theorem run_binom (varCount : ℕ) : Runs (binomP varCount) (readBinom varCount) := by
  intro gens t
  unfold binomP readBinom
  simp only [run_bind, run_times run_binomEntry, run_pure]
  cases readTimes readBinomEntry varCount [] t <;> rfl

theorem run_satBinom (t : Text) : SameUpTo (satBinomP.run t) (readSatBinom t) := by
  unfold satBinomP readSatBinom
  simp only [run_bind, run_size, run_times (run_binom _), run_times run_name, run_peekId, run_ite, run_pure, Option.bind_eq_bind, Option.bind_some]
  rcases readSizeT t with _ | ⟨g, r⟩
  · rfl
  · simp only [Option.bind_some]
    rcases readSizeT r with _ | ⟨n, r⟩
    · rfl
    · simp only [Option.bind_some]
      rcases readTimes (readBinom n) g [] r with _ | ⟨gens, r⟩
      · rfl
      · simp only [Option.bind_some]
        split
        · rcases (readTimes_name_white n [] r).cases with ⟨h1, h2⟩ | ⟨a, v, u, h1, h2, h3⟩
          · rw [h1, h2]
            rfl
          · rw [h1, h2]
            show some (NamedBinoms.mk a gens, eatWhite v) = some (NamedBinoms.mk a gens, eatWhite u)
            rw [h3]
        · show some (NamedBinoms.mk (defaultNames n) gens, eatWhite (eatWhite r)) = some (NamedBinoms.mk (defaultNames n) gens, eatWhite r)
          rw [eatWhite_twice]

theorem readSatBinom_white (t : Text) : readSatBinom (eatWhite t) = readSatBinom t := by
  unfold readSatBinom
  rw [readSizeT_white]

theorem ascii_satBinom : satBinomP.Ascii := by
  unfold satBinomP
  ascii_more
  · exact ascii_times (fun gens => ascii_bind (ascii_times (fun row => ascii_bind ascii_integer fun _ => ascii_pure _) _ _) fun _ => ascii_pure _) _ _
  · exact ascii_times ascii_name _ _

end ScanProg

/-! ## files -/

/-- A reader gets from a file what it gets from the text of the file, without asking for the end. -/
theorem onFile_as {α : Type} {p : ScanProg α} (hp : p.Ascii) (bytes : List FileByte) {capacity : ℕ} (hc : 0 < capacity) :
    match (generalizing := false) p.run (' ' :: fileText bytes) with
    | some x => ∃ s, p.onFile (.start ⟨bytes, false, false, false⟩ capacity) = .ok (x.1, s) ∧ s.Ok ∧ s.text = x.2 ∧
        s.line + BufScanner.newlines s.text = 1 + (fileText bytes).count '\n' ∧ x.2 <:+ ' ' :: fileText bytes
    | none => ∃ l, p.onFile (.start ⟨bytes, false, false, false⟩ capacity) = .error (.syntaxError l) ∧ 1 ≤ l ∧ l ≤ 1 + (fileText bytes).count '\n' := by
  have hs := BufScanner.start_ok (file := ⟨bytes, false, false, false⟩) hc ⟨rfl, rfl⟩
  have ht := start_text ⟨bytes, false, false, false⟩ capacity
  have hl : (BufScanner.start ⟨bytes, false, false, false⟩ capacity).line = 1 := rfl
  have ha := p.agrees hp hs
  have hn : BufScanner.newlines (' ' :: fileText bytes) = (fileText bytes).count '\n' := List.count_cons_of_ne (by decide)
  have hx := ScanProg.onText_suffix p (' ' :: fileText bytes)
  simp only at ht
  rw [ht] at ha
  unfold ScanProg.run
  rcases he : p.onFile (.start ⟨bytes, false, false, false⟩ capacity) with (l | _) | ⟨a, s'⟩ <;>
    rcases hy : p.onText (' ' :: fileText bytes) with r | ⟨b, t⟩ <;> rw [he, hy] at ha <;> rw [hy] at hx <;> try exact ha.elim
  · have e : l + BufScanner.newlines r = _ := ha
    rw [ht, hn, hl] at e
    have hcount : r.count '\n' ≤ (' ' :: fileText bytes).count '\n' := List.IsSuffix.count_le '\n' hx
    rw [List.count_cons_of_ne (by decide)] at hcount
    unfold BufScanner.newlines at e
    exact ⟨l, rfl, by omega, by omega⟩
  · obtain ⟨e1, e2, e3⟩ := ha
    subst e1 e3
    have e4 := e2.line
    rw [ht, hn, hl] at e4
    exact ⟨s', rfl, e2.ok, rfl, e4, hx⟩

end Frobby

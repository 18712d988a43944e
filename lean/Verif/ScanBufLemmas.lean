import Verif.ScanBufModel

/-!
# The scanner on the bytes of a file does what the scanner on a text does
-/

namespace Frobby

/-! ## characters -/

theorem signedChar_range (b : FileByte) : -128 ≤ signedChar b ∧ signedChar b ≤ 127 := by
  unfold signedChar
  have := b.isLt
  split <;> omega

theorem charOfInt_toNat (c : ℤ) : (charOfInt c).toNat = (c % 256).toNat := by
  unfold charOfInt
  have h : (c % 256).toNat < 256 := by omega
  rw [Char.ofNat, dif_pos (Or.inl (by omega))]
  rfl

/-- The tests of an `int` and the tests of a character agree. -/
structure TestsAs (p : ℤ → Bool) (q : Char → Bool) : Prop where
  end_ : p (-1) = false
  same : ∀ c, -128 ≤ c → c ≤ 127 → c ≠ -1 → p c = q (charOfInt c)

theorem spaceInt_tests : TestsAs spaceInt isSpace := by
  refine ⟨by decide, fun c h1 h2 h3 => ?_⟩
  unfold spaceInt isSpace
  rw [charOfInt_toNat]
  exact decide_eq_decide.2 (by omega)

theorem digitInt_tests : TestsAs digitInt isDigit := by
  refine ⟨by decide, fun c h1 h2 h3 => ?_⟩
  unfold digitInt isDigit
  rw [charOfInt_toNat]
  exact decide_eq_decide.2 (by omega)

theorem alphaInt_tests : TestsAs alphaInt isAlpha := by
  refine ⟨by decide, fun c h1 h2 h3 => ?_⟩
  unfold alphaInt isAlpha
  rw [charOfInt_toNat]
  exact decide_eq_decide.2 (by omega)

theorem char_eq_iff {a b : Char} : a = b ↔ a.toNat = b.toNat := by
  constructor
  · rintro rfl
    rfl
  · intro h
    exact Char.ext (UInt32.toNat_inj.1 h)

theorem charOfInt_eq {c : ℤ} (h1 : -128 ≤ c) (h2 : c ≤ 127) (_ : c ≠ -1) {d : Char} (hd : d.toNat < 128) :
    c = intOfChar d ↔ charOfInt c = d := by
  rw [char_eq_iff, charOfInt_toNat]
  unfold intOfChar
  omega

theorem alnumInt_tests : TestsAs alnumInt fun c => isAlpha c || isDigit c := by
  refine ⟨by decide, fun c h1 h2 h3 => ?_⟩
  unfold alnumInt
  rw [alphaInt_tests.same c h1 h2 h3, digitInt_tests.same c h1 h2 h3]

theorem idInt_tests : TestsAs idInt isIdChar := by
  refine ⟨by decide, fun c h1 h2 h3 => ?_⟩
  unfold idInt isIdChar
  rw [alnumInt_tests.same c h1 h2 h3]
  have : decide (c = 95) = decide (charOfInt c = '_') := decide_eq_decide.2 (charOfInt_eq h1 h2 h3 (d := '_') (by decide))
  rw [this]

/-! ## states -/

theorem textOfInts_end (l : List ℤ) : textOfInts (-1 :: l) = [] := by simp [textOfInts]

theorem textOfInts_cons {c : ℤ} (h : c ≠ -1) (l : List ℤ) : textOfInts (c :: l) = charOfInt c :: textOfInts l := by simp [textOfInts, h]

namespace BufScanner

/-- What is true of all scanners. -/
structure Ok (s : BufScanner) : Prop where
  pos : s.pos ≤ s.buffer.length
  buffer : s.buffer.length ≤ s.capacity
  capacity : 0 < s.capacity
  ended : s.file.eof = true ∨ s.file.err = true → s.file.rest = []
  low : -128 ≤ s.char
  high : s.char ≤ 127
  tmp : 2 ≤ s.tmp.length

/-- The number of ends of lines. -/
abbrev newlines (t : Text) : ℕ := t.count '\n'

/-- The scanner has gone on: the line number counts the ends of lines. -/
structure Went (s s' : BufScanner) : Prop where
  ok : Ok s'
  line : s'.line + newlines s'.text = s.line + newlines s.text

theorem Went.trans {a b c : BufScanner} (h : Went a b) (h' : Went b c) : Went a c := ⟨h'.ok, h'.line.trans h.line⟩

theorem Went.refl {s : BufScanner} (h : Ok s) : Went s s := ⟨h, rfl⟩

theorem start_ok {file : InFile} {capacity : ℕ} (hc : 0 < capacity) (hf : file.eof = false ∧ file.err = false) : Ok (start file capacity) :=
  ⟨by simp [start], by simp [start], hc, by simp [start, hf], by simp [start], by simp [start], by simp [start]⟩

/-- Filling the buffer. -/
theorem readBuffer_spec {s : BufScanner} (h : Ok s) (hp : s.pos = s.buffer.length) :
    s.readBuffer.2.pos ≤ s.readBuffer.2.buffer.length ∧ s.readBuffer.2.buffer.length ≤ s.capacity ∧
      (s.readBuffer.2.file.eof = true ∨ s.readBuffer.2.file.err = true → s.readBuffer.2.file.rest = []) ∧
      -128 ≤ s.readBuffer.1 ∧ s.readBuffer.1 ≤ 127 ∧
      (s.file.rest = [] ∧ s.readBuffer.1 = -1 ∧ s.readBuffer.2.buffer.drop s.readBuffer.2.pos ++ s.readBuffer.2.file.rest = [] ∨
        ∃ b, s.readBuffer.1 = signedChar b ∧ s.file.rest = b :: (s.readBuffer.2.buffer.drop s.readBuffer.2.pos ++ s.readBuffer.2.file.rest)) := by
  have hr : ∀ f : InFile, (f.eof = true ∨ f.err = true → f.rest = []) →
      ((f.read s.capacity).2.eof = true ∨ (f.read s.capacity).2.err = true → (f.read s.capacity).2.rest = []) ∧
      f.rest = (f.read s.capacity).1 ++ (f.read s.capacity).2.rest ∧ (f.read s.capacity).1.length ≤ s.capacity ∧
      ((f.read s.capacity).1 = [] → f.rest = []) := by
    intro f hf
    unfold InFile.read
    split
    · rename_i hlt
      exact ⟨fun _ => rfl, by simp, hlt.le, id⟩
    · rename_i hlt
      refine ⟨fun he => ?_, by simp, by simp, fun he => ?_⟩
      · simp [hf he]
      · have := h.capacity
        have := congrArg List.length he
        simp only [List.length_take, List.length_nil] at this
        exact List.eq_nil_of_length_eq_zero (by omega)
  unfold readBuffer
  split
  · rename_i hc
    have := h.ended hc.2
    refine ⟨h.pos, h.buffer, h.ended, by simp, by simp, .inl ⟨this, rfl, ?_⟩⟩
    simp [hp, this]
  · obtain ⟨h1, h2, h3, h4⟩ := hr s.file h.ended
    split
    · rename_i f hf
      rw [hf] at h1 h2 h3 h4
      have := h4 rfl
      refine ⟨Nat.le_refl _, Nat.zero_le _, h1, by simp, by simp, .inl ⟨this, rfl, ?_⟩⟩
      rw [this] at h2
      simpa using h2.symm
    · rename_i b got f hf
      rw [hf] at h1 h2 h3 h4
      have := signedChar_range b
      exact ⟨by simp, h3, h1, this.1, this.2, .inr ⟨b, rfl, by simpa using h2⟩⟩

/-- One character. -/
theorem getChar_spec {s : BufScanner} (h : Ok s) : ∃ s', s.getChar = .ok (s.char, s') ∧ Ok s' ∧ s'.tmp = s.tmp ∧
    (s.char = -1 → s.text = [] ∧ s'.line = s.line) ∧
    (s.char ≠ -1 → s.text = charOfInt s.char :: s'.text ∧ s'.line = s.line + (if s.char = 10 then 1 else 0) ∧
      (s'.left < s.left ∨ s'.char = -1)) := by
  have hline : (if s.char = 10 then s.line + 1 else s.line) = s.line + (if s.char = 10 then 1 else 0) := by split <;> rfl
  have hend : s.char = -1 → s.text = [] ∧ (if s.char = 10 then s.line + 1 else s.line) = s.line := fun he => by
    unfold text
    rw [he]
    exact ⟨textOfInts_end _, by simp⟩
  unfold getChar
  by_cases hp : s.pos = s.buffer.length
  · simp only [if_pos hp]
    obtain ⟨h1, h2, h3, h4, h5, h6⟩ := readBuffer_spec h hp
    refine ⟨_, rfl, ⟨h1, h2, h.capacity, h3, h4, h5, h.tmp⟩, rfl, hend, fun hc => ⟨?_, hline, ?_⟩⟩
    · unfold text
      rw [textOfInts_cons hc]
      refine congrArg _ ?_
      rcases h6 with ⟨e1, e2, e3⟩ | ⟨b, e1, e2⟩
      · simp only [e1, e2, e3, hp]
        simp [textOfInts]
      · simp only [e1, e2, hp]
        simp
    · rcases h6 with ⟨e1, e2, e3⟩ | ⟨b, e1, e2⟩
      · exact .inr e2
      · left
        have := congrArg List.length e2
        simp only [List.length_cons, List.length_append, List.length_drop] at this
        simp only [left]
        omega
  · have hlt : s.pos < s.buffer.length := by have := h.pos; omega
    simp only [if_neg hp, List.getElem?_eq_getElem hlt]
    have hr := signedChar_range s.buffer[s.pos]
    refine ⟨_, rfl, ⟨hlt, h.buffer, h.capacity, h.ended, hr.1, hr.2, h.tmp⟩, rfl, hend, fun hc => ⟨?_, hline, .inl ?_⟩⟩
    · unfold text
      rw [textOfInts_cons hc, List.drop_eq_getElem_cons hlt]
      rfl
    · simp only [left]
      omega

theorem text_end {s : BufScanner} (h : s.char = -1) : s.text = [] := by
  unfold text
  rw [h]
  exact textOfInts_end _

theorem text_head {s : BufScanner} (h : s.char ≠ -1) : ∃ r, s.text = charOfInt s.char :: r := ⟨_, textOfInts_cons h _⟩

/-- A test of the next character. -/
theorem Ok.test {s : BufScanner} (h : Ok s) {p : ℤ → Bool} {q : Char → Bool} (hpq : TestsAs p q) : p s.char = nextIs q s.text := by
  by_cases hc : s.char = -1
  · rw [text_end hc, hc]
    exact hpq.end_
  · obtain ⟨r, e⟩ := text_head hc
    rw [e]
    exact hpq.same _ h.low h.high hc

theorem Ok.isChar {s : BufScanner} (h : Ok s) {d : Char} (hd : d.toNat < 128) : s.char = intOfChar d ↔ nextIs (fun c => c = d) s.text = true := by
  by_cases hc : s.char = -1
  · rw [text_end hc, hc]
    simp only [nextIs, Bool.false_eq_true, iff_false]
    unfold intOfChar
    omega
  · obtain ⟨r, e⟩ := text_head hc
    rw [e, charOfInt_eq h.low h.high hc hd]
    simp [nextIs]

theorem newline_iff {s : BufScanner} (h : Ok s) (hc : s.char ≠ -1) : s.char = 10 ↔ charOfInt s.char = '\n' :=
  charOfInt_eq h.low h.high hc (d := '\n') (by decide)

/-- One character, that is not the end. -/
theorem getChar_next {s : BufScanner} (h : Ok s) (hc : s.char ≠ -1) : ∃ s', s.getChar = .ok (s.char, s') ∧ Went s s' ∧ s'.tmp = s.tmp ∧
    s.text = charOfInt s.char :: s'.text ∧ (s'.left < s.left ∨ s'.char = -1) := by
  obtain ⟨s', h1, h2, h3, -, h4⟩ := getChar_spec h
  obtain ⟨h5, h6, h7⟩ := h4 hc
  refine ⟨s', h1, ⟨h2, ?_⟩, h3, h5, h7⟩
  unfold newlines
  rw [h6, h5, List.count_cons]
  by_cases hn : s.char = 10
  · rw [if_pos hn, if_pos (by simpa using (newline_iff h hc).1 hn)]
    omega
  · rw [if_neg hn, if_neg (by simpa using fun e => hn ((newline_iff h hc).2 e))]
    omega

theorem left_pos (s : BufScanner) : 0 < s.left := Nat.succ_pos _

/-- Skipping characters. -/
theorem skip_spec {p : ℤ → Bool} {q : Char → Bool} (hpq : TestsAs p q) : ∀ (n : ℕ) {s : BufScanner}, Ok s → (s.left < n ∨ s.char = -1 ∧ 0 < n) →
    ∃ s', skip p n s = .ok s' ∧ Went s s' ∧ s'.tmp = s.tmp ∧ s'.text = s.text.dropWhile q ∧ p s'.char = false := by
  intro n
  induction n with
  | zero => intro s _ hn; omega
  | succ n ih =>
    intro s h hn
    unfold skip
    by_cases hp : p s.char = true
    · have hc : s.char ≠ -1 := fun e => by rw [e, hpq.end_] at hp; cases hp
      obtain ⟨s', h1, h2, h3, h4, h5⟩ := getChar_next h hc
      obtain ⟨s'', e1, e2, e3, e4, e5⟩ := ih h2.ok (by
        have := left_pos s
        rcases h5 with h5 | h5 <;> omega)
      rw [if_pos hp, h1]
      refine ⟨s'', e1, h2.trans e2, e3.trans h3, ?_, e5⟩
      rw [e4, h4, List.dropWhile_cons_of_pos]
      rw [← hpq.same _ h.low h.high hc]
      exact hp
    · rw [if_neg hp]
      refine ⟨s, rfl, .refl h, rfl, ?_, by simpa using hp⟩
      have := h.test hpq
      cases ht : s.text with
      | nil => rfl
      | cons c r =>
        rw [ht] at this
        have hq : p s.char = q c := this
        rw [List.dropWhile_cons_of_neg]
        rw [← hq]
        exact hp

theorem white_spec {s : BufScanner} (h : Ok s) : ∃ s', s.white = .ok s' ∧ Went s s' ∧ s'.tmp = s.tmp ∧ s'.text = eatWhite s.text := by
  obtain ⟨s', h1, h2, h3, h4, _⟩ := skip_spec spaceInt_tests (s.left + 1) h (.inl (Nat.lt_succ_self _))
  exact ⟨s', h1, h2, h3, h4⟩

/-! ## the array for numbers and identifiers -/

theorem putTmp_spec {s : BufScanner} (h : Ok s) {i : ℕ} (hi : i < s.tmp.length) (c : ℤ) :
    ∃ s', s.putTmp i c = .ok s' ∧ Went s s' ∧ s'.text = s.text ∧ s'.char = s.char ∧ s'.left = s.left ∧ s'.tmp = s.tmp.set i (some c) := by
  unfold putTmp
  rw [if_pos hi]
  exact ⟨_, rfl, ⟨⟨h.pos, h.buffer, h.capacity, h.ended, h.low, h.high, by simpa using h.tmp⟩, rfl⟩, rfl, rfl, rfl, rfl⟩

theorem growTmp_spec {s : BufScanner} (h : Ok s) : Went s s.growTmp ∧ s.growTmp.text = s.text ∧ s.growTmp.char = s.char ∧ s.growTmp.left = s.left ∧
    s.growTmp.tmp = s.tmp ++ List.replicate s.tmp.length none :=
  ⟨⟨⟨h.pos, h.buffer, h.capacity, h.ended, h.low, h.high, by have := h.tmp; simp only [growTmp, List.length_append]; omega⟩, rfl⟩, rfl, rfl, rfl, rfl⟩

theorem gather_spec {p : ℤ → Bool} {q : Char → Bool} (hpq : TestsAs p q) : ∀ (n : ℕ) {size : ℕ} {s : BufScanner}, Ok s →
    (s.left < n ∨ s.char = -1 ∧ 0 < n) → size < s.tmp.length →
    ∃ (s' : BufScanner) (xs : List ℤ), gather p n size s = .ok (size + xs.length, s') ∧ Went s s' ∧ s'.text = s.text.dropWhile q ∧ xs.map charOfInt = s.text.takeWhile q ∧
      (∀ x ∈ xs, p x = true ∧ -128 ≤ x ∧ x ≤ 127) ∧ s'.tmp.take (size + xs.length) = s.tmp.take size ++ xs.map some ∧
      size + xs.length < s'.tmp.length := by
  intro n
  induction n with
  | zero => intro size s _ hn; omega
  | succ n ih =>
    intro size s h hn hs
    unfold gather
    by_cases hp : p s.char = true
    · have hc : s.char ≠ -1 := fun e => by rw [e, hpq.end_] at hp; cases hp
      have hq : q (charOfInt s.char) = true := by rw [← hpq.same _ h.low h.high hc]; exact hp
      obtain ⟨s1, h1, h2, h3, h4, h5⟩ := getChar_next h hc
      obtain ⟨s2, e1, e2, e3, e4, e5, e6⟩ := putTmp_spec h2.ok (by rw [h3]; exact hs) s.char
      have grown : ∃ s3, (if size + 1 = s2.tmp.length then s2.growTmp else s2) = s3 ∧ Went s2 s3 ∧ s3.text = s2.text ∧ s3.char = s2.char ∧ s3.left = s2.left ∧
          s3.tmp.take (size + 1) = s2.tmp.take (size + 1) ∧ size + 1 < s3.tmp.length := by
        have hl : s2.tmp.length = s.tmp.length := by rw [e6, List.length_set, h3]
        by_cases hg : size + 1 = s2.tmp.length
        · obtain ⟨g1, g2, g3, g4, g5⟩ := growTmp_spec e2.ok
          refine ⟨_, if_pos hg, g1, g2, g3, g4, ?_, ?_⟩
          · rw [g5, List.take_append_of_le_length (by omega)]
          · rw [g5, List.length_append, List.length_replicate]
            omega
        · exact ⟨_, if_neg hg, .refl e2.ok, rfl, rfl, rfl, rfl, by omega⟩
      obtain ⟨s3, g0, g1, g2, g3, g4, g5, g6⟩ := grown
      obtain ⟨s', xs, i1, i2, i3, i4, i5, i6, i7⟩ := ih g1.ok (by
        have := left_pos s
        rw [g4, g3, e5, e4]
        rcases h5 with h5 | h5 <;> omega) g6
      refine ⟨s', s.char :: xs, ?_, ((h2.trans e2).trans g1).trans i2, ?_, ?_, ?_, ?_, ?_⟩
      · rw [if_pos hp]
        simp only [h1, bind, Except.bind, e1, g0, i1, List.length_cons]
        rw [Nat.add_comm xs.length 1, Nat.add_assoc]
      · rw [i3, g2, e3, h4, List.dropWhile_cons_of_pos hq]
      · rw [List.map_cons, i4, g2, e3, h4, List.takeWhile_cons_of_pos hq]
      · intro x hx
        rcases List.mem_cons.1 hx with rfl | hx
        · exact ⟨hp, h.low, h.high⟩
        · exact i5 x hx
      · rw [List.length_cons, Nat.add_comm xs.length 1, ← Nat.add_assoc, i6, g5, e6, h3, List.map_cons]
        rw [List.take_add_one, List.take_set_of_le (Nat.le_refl _), List.getElem?_set_self hs]
        simp
      · rw [List.length_cons]
        omega
    · rw [if_neg hp]
      have := h.test hpq
      have hd : s.text.dropWhile q = s.text ∧ s.text.takeWhile q = [] := by
        cases ht : s.text with
        | nil => exact ⟨rfl, rfl⟩
        | cons c r =>
          rw [ht] at this
          have hq : p s.char = q c := this
          rw [List.dropWhile_cons_of_neg (by rw [← hq]; exact hp), List.takeWhile_cons_of_neg (by rw [← hq]; exact hp)]
          exact ⟨rfl, rfl⟩
      exact ⟨s, [], rfl, .refl h, hd.1.symm, hd.2.symm, by simp, by simp, by simpa using hs⟩

theorem gatherString_spec {p : ℤ → Bool} {q : Char → Bool} (hpq : TestsAs p q) {size : ℕ} {s : BufScanner} (h : Ok s) (hs : size < s.tmp.length) :
    ∃ (s' : BufScanner) (xs : List ℤ) (rest : List (Option ℤ)), gatherString p size s = .ok (size + xs.length, s') ∧ Went s s' ∧ s'.text = s.text.dropWhile q ∧
      xs.map charOfInt = s.text.takeWhile q ∧ (∀ x ∈ xs, p x = true ∧ -128 ≤ x ∧ x ≤ 127) ∧
      s'.tmp = s.tmp.take size ++ (xs.map some ++ some 0 :: rest) := by
  obtain ⟨s1, xs, h1, h2, h3, h4, h5, h6, h7⟩ := gather_spec hpq (s.left + 1) h (.inl (Nat.lt_succ_self _)) hs
  obtain ⟨s2, e1, e2, e3, _, _, e6⟩ := putTmp_spec h2.ok h7 0
  refine ⟨s2, xs, s1.tmp.drop (size + xs.length + 1), ?_, h2.trans e2, e3.trans h3, h4, h5, ?_⟩
  · unfold gatherString
    simp only [h1, bind, Except.bind, e1, pure, Except.pure]
  · rw [e6, List.set_eq_take_append_cons_drop, if_pos h7, h6, List.append_assoc]

theorem cString_spec : ∀ (xs : List ℤ) (rest : List (Option ℤ)), (∀ x ∈ xs, x ≠ 0) → cString (xs.map some ++ some 0 :: rest) = .ok (xs.map charOfInt)
  | [], rest, _ => rfl
  | x :: xs, rest, h => by
    rw [List.map_cons, List.cons_append, cString, if_neg (h x (by simp)), cString_spec xs rest fun y hy => h y (by simp [hy])]
    rfl

end BufScanner

end Frobby

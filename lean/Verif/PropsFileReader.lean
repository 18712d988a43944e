import Verif.FileReaderLemmas

/-!
# C75: reading from the bytes of a file

A reader asks a scanner, and the scanner has the file, a buffer and an array for numbers and names. What is read must be what is in the
file: no matter how large the buffer is, how long a name or a number is, and where the parts that fit into the buffer end. No access may
be outside of an array. An error must be reported with the line where it is.

The specification uses `fileText` and functions on texts: `readIdeal`, `readSquareFreeIdeal` and `autoDetect` (which have claims of their
own: C44 and C70) and, for readers in general, `ScanProg.readText`.
-/

namespace Frobby

/-- The bytes of a text. -/
def bytesOf (t : Text) : List FileByte := t.map fun c => ⟨c.toNat % 256, Nat.mod_lt _ (by decide)⟩

/-- A file with some bytes, that can be read to the end. -/
def goodFile (bytes : List FileByte) : InFile := ⟨bytes, false, false, false⟩

/-- A file where reading fails after some bytes. -/
def badFile (bytes : List FileByte) : InFile := ⟨bytes, true, false, false⟩

/-- The whole file is its text if no byte is 255. -/
theorem C75_text {bytes : List FileByte} (h : ∀ b ∈ bytes, b.val ≠ 255) : fileText bytes = bytes.map fun b => Char.ofNat b.val := by
  unfold fileText
  congr 1
  induction bytes with
  | nil => rfl
  | cons b bytes ih => rw [List.takeWhile_cons_of_pos (by simpa using h b (by simp)), ih fun c hc => h c (by simp [hc])]

/-- Every reader that asks for characters of ASCII, for every size of the buffer: nothing undefined happens, the result is the one for the
text of the file, and if there is an error, the line number is one more than the number of ends of lines before the place of the error. -/
theorem C75_reader_partial {α : Type} (p : ScanProg α) (hp : p.Ascii) (bytes : List FileByte) {capacity : ℕ} (hc : 0 < capacity) :
    match p.readFile (goodFile bytes) capacity with
    | .ok a => p.readText (' ' :: fileText bytes) = .ok a
    | .error .undefined => False
    | .error (.syntaxError l) => ∃ before after, ' ' :: fileText bytes = before ++ after ∧ p.readText (' ' :: fileText bytes) = .error after ∧
        l = 1 + before.count '\n' := by
  unfold goodFile
  rcases readFile_spec p hp bytes false hc with ⟨a, h1, h2⟩ | ⟨r, l, h1, h2, h3⟩
  · rw [h2]
    exact h1
  · rw [h2]
    obtain ⟨before, hb⟩ := ScanProg.readText_suffix p _ h1
    refine ⟨before, r, hb.symm, h1, ?_⟩
    have := congrArg (List.count '\n') hb
    rw [List.count_append, List.count_cons_of_ne (by decide)] at this
    unfold BufScanner.newlines at h3
    omega

/-- Reading an ideal in a format, or in the format that is found: exactly the ideal that the text of the file describes. If there is none,
there is a syntax error with a line number that the file has. -/
theorem C75_ideal_partial (sf : Bool) (format : Option IOFormat) (bytes : List FileByte) {capacity : ℕ} (hc : 0 < capacity) :
    match if sf then readSquareFreeIdeal (format.getD (autoDetect (fileText bytes))) (fileText bytes)
      else readIdeal (format.getD (autoDetect (fileText bytes))) (fileText bytes) with
    | some I => readIdealFile sf format (goodFile bytes) capacity = .ok I
    | none => ∃ l, readIdealFile sf format (goodFile bytes) capacity = .error (.syntaxError l) ∧ 1 ≤ l ∧ l ≤ 1 + (fileText bytes).count '\n' := by
  rw [← ScanProg.readText_ideal sf format]
  unfold readIdealFile goodFile
  rcases readFile_spec _ (ScanProg.ascii_format sf format) bytes false hc with ⟨a, h1, h2⟩ | ⟨r, l, h1, h2, h3⟩
  · rw [h1]
    exact h2
  · rw [h1]
    refine ⟨l, h2, ?_, by unfold BufScanner.newlines at h3; omega⟩
    have := (ScanProg.readText_suffix _ _ h1).count_le '\n'
    rw [List.count_cons_of_ne (by decide)] at this
    unfold BufScanner.newlines at h3
    omega

/-- The size of the buffer makes no difference, not even to the line number of an error. -/
theorem C75_capacity {α : Type} (p : ScanProg α) (hp : p.Ascii) (file : InFile) (he : file.eof = false) (hr : file.err = false)
    {capacity capacity' : ℕ} (hc : 0 < capacity) (hc' : 0 < capacity') : p.readFile file capacity = p.readFile file capacity' := by
  obtain ⟨bytes, fails, eof, err⟩ := file
  simp only at he hr
  subst he hr
  rcases readFile_spec p hp bytes fails hc with ⟨a, h1, h2⟩ | ⟨r, l, h1, h2, h3⟩ <;>
    rcases readFile_spec p hp bytes fails hc' with ⟨a', h1', h2'⟩ | ⟨r', l', h1', h2', h3'⟩ <;> rw [h1] at h1' <;> cases h1'
  · rw [h2, h2']
  · rw [h2, h2']
    congr 2
    omega

/-- The claim is false for files with a byte that is 255: everything after it is ignored. -/
theorem C75_byte255_ignored {α : Type} (p : ScanProg α) (hp : p.Ascii) (bytes more : List FileByte) {capacity : ℕ} (hc : 0 < capacity) :
    p.readFile (goodFile (bytes ++ 255 :: more)) capacity = p.readFile (goodFile bytes) capacity := by
  have ht : fileText (bytes ++ 255 :: more) = fileText bytes := by
    unfold fileText
    congr 1
    induction bytes with
    | nil => rfl
    | cons b bytes ih =>
      by_cases hb : b.val = 255
      · rw [List.cons_append, List.takeWhile_cons_of_neg (by simp [hb]), List.takeWhile_cons_of_neg (by simp [hb])]
      · rw [List.cons_append, List.takeWhile_cons_of_pos (by simp [hb]), List.takeWhile_cons_of_pos (by simp [hb]), ih]
  have h := readFile_spec p hp (bytes ++ 255 :: more) false hc
  rw [ht] at h
  unfold goodFile
  rcases readFile_spec p hp bytes false hc with ⟨a, h1, h2⟩ | ⟨r, l, h1, h2, h3⟩ <;>
    rcases h with ⟨a', h1', h2'⟩ | ⟨r', l', h1', h2', h3'⟩ <;> rw [h1] at h1' <;> cases h1'
  · rw [h2, h2']
  · rw [h2, h2']
    congr 2
    omega

/-- The claim is false when reading fails: nothing makes a difference between that and the end of the file. -/
theorem C75_failure_ignored {α : Type} (p : ScanProg α) (hp : p.Ascii) (bytes : List FileByte) {capacity : ℕ} (hc : 0 < capacity) :
    p.readFile (badFile bytes) capacity = p.readFile (goodFile bytes) capacity := by
  unfold goodFile badFile
  rcases readFile_spec p hp bytes false hc with ⟨a, h1, h2⟩ | ⟨r, l, h1, h2, h3⟩ <;>
    rcases readFile_spec p hp bytes true hc with ⟨a', h1', h2'⟩ | ⟨r', l', h1', h2', h3'⟩ <;> rw [h1] at h1' <;> cases h1'
  · rw [h2, h2']
  · rw [h2, h2']
    congr 2
    omega

/-! ## Cases -/

/-- An ideal, with a buffer of four bytes. -/
example : readIdealFile false none (goodFile (bytesOf t!"R = QQ[a, b];\nI = monomialIdeal(a^12*b, b^3);\n")) 4 =
    .ok ⟨[t!"a", t!"b"], [[12, 1], [0, 3]]⟩ := by
  have := C75_ideal_partial false none (bytesOf t!"R = QQ[a, b];\nI = monomialIdeal(a^12*b, b^3);\n") (capacity := 4) (by decide)
  rw [show (if false = true then _ else readIdeal ((none : Option IOFormat).getD
      (autoDetect (fileText (bytesOf t!"R = QQ[a, b];\nI = monomialIdeal(a^12*b, b^3);\n"))))
      (fileText (bytesOf t!"R = QQ[a, b];\nI = monomialIdeal(a^12*b, b^3);\n"))) = some ⟨[t!"a", t!"b"], [[12, 1], [0, 3]]⟩ by decide +kernel] at this
  exact this

/-- The same, by running the model on the bytes. -/
example : (match readIdealFile false none (goodFile (bytesOf t!"R = QQ[a, b];\nI = monomialIdeal(a^12*b, b^3);\n")) 4 with
    | .ok I => decide (I.terms = [[12, 1], [0, 3]]) | .error _ => false) = true := by decide +kernel

/-- An error in the third line. -/
example : (match readIdealFile false (some .fourti2) (goodFile (bytesOf t!"2 2\n1 2\n3 x\n4")) 1024 with
    | .ok _ => false | .error e => decide (e = .syntaxError 3)) = true := by decide +kernel

/-- A name that does not fit into the array at first. -/
example : (match readIdealFile true (some .monos) (goodFile (bytesOf t!"vars abcdefghijklmnopqrstuvwxyz;\n[abcdefghijklmnopqrstuvwxyz];")) 7 with
    | .ok I => decide (I.names = [t!"abcdefghijklmnopqrstuvwxyz"] ∧ I.terms = [[1]]) | .error _ => false) = true := by decide +kernel

/-- A file that is not an ideal in the format of 4ti2 is accepted, since a byte is 255. -/
theorem C75_byte255_witness : (match readIdealFile false (some .fourti2) (goodFile (bytesOf t!"1 1\n5" ++ 255 :: bytesOf t!"what?")) 1024 with
    | .ok I => decide (I.terms = [[5]]) | .error _ => false) = true := by decide +kernel

/-- If reading fails after the first digit of 57, then the exponent is 5. -/
theorem C75_failure_witness : (match readIdealFile false (some .fourti2) (badFile (bytesOf t!"1 1\n5")) 1024 with
    | .ok I => decide (I.terms = [[5]]) | .error _ => false) = true := by decide +kernel

end Frobby

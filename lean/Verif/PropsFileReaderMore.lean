import Verif.PropsFileReader
import Verif.FileReaderMoreLemmas

/-!
# C76: reading lists of ideals, polynomials and instances from the bytes of a file

As C75, for everything else that the actions read: what is read from a file is what the text of the file describes, no matter how large the
buffer of the scanner is, and if the text describes nothing, there is an error with a line number that the file has.

The specification uses `fileText` and the functions on texts, which have claims of their own: `readIdeals`, `readDualInstance`,
`readOptimizeInstance`, `readFrobeniusInstance`, `readFrobeniusInstanceWithGrobnerBasis` and `readPoly`.
-/

namespace Frobby

/-- `read` gets from every file, with every size of the buffer, what `f` gets from its text, and reports an error in a line of the file if
there is nothing. -/
def FileReadsAs {α : Type} (read : InFile → ℕ → Except ScanStop α) (bytes : List FileByte) (x : Option α) : Prop :=
  ∀ capacity, 0 < capacity →
    match (generalizing := false) x with
    | some a => read (goodFile bytes) capacity = .ok a
    | none => ∃ l, read (goodFile bytes) capacity = .error (.syntaxError l) ∧ 1 ≤ l ∧ l ≤ 1 + (fileText bytes).count '\n'

/-- Lists of ideals, in all formats but that of 4ti2. -/
theorem C76_ideals_partial (format : Option IOFormat) (bytes : List FileByte) (h : format.getD (autoDetect (fileText bytes)) ≠ .fourti2) :
    FileReadsAs (readIdealsFile format) bytes (readIdeals (format.getD (autoDetect (fileText bytes))) (fileText bytes)) := fun _ hc =>
  readFile_as (ScanProg.ascii_formatP ScanProg.ascii_ideals format)
    ((ScanProg.readText_format ScanProg.run_ideals_white format _).trans (ScanProg.readText_ideals _ h _)) hc

/-- An ideal and a point. -/
theorem C76_dual_partial (format : Option IOFormat) (bytes : List FileByte) :
    FileReadsAs (readDualFile format) bytes (readDualInstance (format.getD (autoDetect (fileText bytes))) (fileText bytes)) := fun _ hc =>
  readFile_as (ScanProg.ascii_formatP ScanProg.ascii_dual format)
    ((ScanProg.readText_format ScanProg.run_dual_white format _).trans (ScanProg.readText_dual _ _)) hc

/-- An ideal and a vector. -/
theorem C76_optimize_partial (format : Option IOFormat) (bytes : List FileByte) :
    FileReadsAs (readOptimizeFile format) bytes (readOptimizeInstance (format.getD (autoDetect (fileText bytes))) (fileText bytes)) := fun _ hc =>
  readFile_as (ScanProg.ascii_formatP ScanProg.ascii_optimize format)
    ((ScanProg.readText_format ScanProg.run_optimize_white format _).trans (ScanProg.readText_optimize _ _)) hc

/-- A Frobenius instance. -/
theorem C76_frobenius_partial (bytes : List FileByte) : FileReadsAs readFrobeniusFile bytes (readFrobeniusInstance (fileText bytes)) := fun _ hc =>
  readFile_as ScanProg.ascii_frobenius (ScanProg.readText_frobenius _) hc

/-- A Frobenius instance with a Gröbner basis. -/
theorem C76_grobner_partial (bytes : List FileByte) : FileReadsAs readGrobnerFile bytes (readFrobeniusInstanceWithGrobnerBasis (fileText bytes)) := fun _ hc =>
  readFile_as ScanProg.ascii_grobner (ScanProg.readText_grobner _) hc

/-- A polynomial. -/
theorem C76_poly_partial (f : PolyFormat) (bytes : List FileByte) : FileReadsAs (readPolyFile f) bytes (readPoly f (fileText bytes)) := fun _ hc =>
  readFile_as (ScanProg.ascii_poly f) (ScanProg.readText_poly f _) hc

/-! ## Cases -/

/-- Two ideals, with a buffer of three bytes. -/
example : (match readIdealsFile none (goodFile (bytesOf t!"vars a, b;\n[a^2, b];\n[a*b];")) 3 with
    | .ok x => decide (x.1.map NamedIdeal.terms = [[[2, 0], [0, 1]], [[1, 1]]]) | .error _ => false) = true := by decide +kernel

/-- The hypothesis of `C76_ideals_partial` for it. -/
example : (none : Option IOFormat).getD (autoDetect (fileText (bytesOf t!"vars a, b;\n[a^2, b];\n[a*b];"))) ≠ .fourti2 := by decide +kernel

/-- An ideal and a point. -/
example : (match readDualFile none (goodFile (bytesOf t!"vars a, b;\n[a^2, b];\na^5*b^7")) 3 with
    | .ok x => decide (x.1.terms = [[2, 0], [0, 1]] ∧ x.2 = some [5, 7]) | .error _ => false) = true := by decide +kernel

/-- An ideal and a vector. -/
example : (match readOptimizeFile (some .fourti2) (goodFile (bytesOf t!"2 2\n2 0\n0 1\n-5 12")) 1024 with
    | .ok x => decide (x.1.terms = [[2, 0], [0, 1]] ∧ x.2 = [-5, 12]) | .error _ => false) = true := by decide +kernel

/-- A Frobenius instance. -/
example : (match readFrobeniusFile (goodFile (bytesOf t!"12 13\n14\n")) 2 with
    | .ok x => decide (x = [12, 13, 14]) | .error _ => false) = true := by decide +kernel

/-- A Frobenius instance with a Gröbner basis. -/
example : (match readGrobnerFile (goodFile (bytesOf t!"1 2\n-2 3\n4\n5")) 2 with
    | .ok x => decide (x.1.terms = [[3]] ∧ x.2 = [4, 5]) | .error _ => false) = true := by decide +kernel

/-- A polynomial. -/
example : (match readPolyFile .m2 (goodFile (bytesOf t!"R = QQ[a, b];\np = 3*a^2 -\n b;\n")) 5 with
    | .ok P => decide (P.terms = [(3, [2, 0]), (-1, [0, 1])]) | .error _ => false) = true := by decide +kernel

/-- An error in the third line. -/
example : (match readPolyFile .m2 (goodFile (bytesOf t!"R = QQ[a, b];\np = 3*a^2 -\n c;\n")) 5 with
    | .ok _ => false | .error e => decide (e = .syntaxError 3)) = true := by decide +kernel

/-- The claim is false when reading fails. If that happens before the last digit of 12 and 137, then 12 and 13 are read. -/
theorem C76_failure_witness : (match readFrobeniusFile (badFile (bytesOf t!"12 13")) 1024 with
    | .ok x => decide (x = [12, 13]) | .error _ => false) = true := by decide +kernel

/-- The claim is false for files with a byte that is 255. -/
theorem C76_byte255_witness : (match readFrobeniusFile (goodFile (bytesOf t!"12 13" ++ 255 :: bytesOf t!"x")) 1024 with
    | .ok x => decide (x = [12, 13]) | .error _ => false) = true := by decide +kernel

end Frobby

import Verif.PropsFileReaderMore
import Verif.FileReaderRestLemmas

/-!
# C76: reading lists of ideals in all formats, lattices and saturated binomial ideals from the bytes of a file

What `PropsFileReaderMore` leaves out. The functions on texts are `readIdeals`, `readLattice` and `readSatBinom`.
-/

namespace Frobby

/-- Lists of ideals in all formats, if there is no byte that the scanner takes for the end of the file. -/
theorem C76_lists_partial (format : Option IOFormat) (bytes : List FileByte) (h : ∀ b ∈ bytes, b.val ≠ 255) :
    FileReadsAs (readListFile format) bytes (readIdeals (format.getD (autoDetect (fileText bytes))) (fileText bytes)) := by
  intro capacity hc
  have key := readFile_as (ScanProg.ascii_formatP ScanProg.ascii_list format) (bytes := bytes) rfl hc
  have same : readListFile format (goodFile bytes) capacity =
      ((ScanProg.formatP ScanProg.listP format).readFile (goodFile bytes) capacity).map Prod.fst := by
    unfold readListFile ScanProg.readFile
    rcases hx : (ScanProg.formatP ScanProg.listP format).onFile (.start (goodFile bytes) capacity) with e | ⟨⟨a, flag⟩, s⟩
    · rfl
    · have hs : s.Clean := BufScanner.keeps_clean.run _ (BufScanner.start_clean h false hc) hx
      show (if flag = true then s.expectEnd.bind _ else s.expectEnd.bind _) = Except.map _ (s.expectEnd.bind _)
      rcases he : s.expectEnd with e | r
      · cases flag <;> rfl
      · obtain ⟨r', h'⟩ := hs.end_again he
        cases flag
        · rfl
        · show r.2.expectEnd.bind _ = _
          rw [h']
          rfl
  rw [← ScanProg.readText_list, same]
  rcases hr : ScanProg.dropRest ((ScanProg.formatP ScanProg.listP format).readText (' ' :: fileText bytes)) with _ | a <;> rw [hr] at key
  · obtain ⟨l, h1, h2⟩ := key
    exact ⟨l, by rw [show goodFile bytes = ⟨bytes, false, false, false⟩ from rfl, h1]; rfl, h2⟩
  · show Except.map _ (ScanProg.readFile _ (goodFile bytes) capacity) = _
    rw [show goodFile bytes = ⟨bytes, false, false, false⟩ from rfl, key]
    rfl

/-- Lattices: what is read is what the text describes, reading has no end if and only if this is so for the text, and otherwise there is an error
in a line of the file. -/
theorem C76_lattice_partial (f : LatticeFormat) (bytes : List FileByte) {capacity : ℕ} (hc : 0 < capacity) :
    match readLattice f (fileText bytes) with
    | .ok B => readLatticeFile f (goodFile bytes) capacity = .ok (some B)
    | .crash => readLatticeFile f (goodFile bytes) capacity = .ok none
    | .error => ∃ l, readLatticeFile f (goodFile bytes) capacity = .error (.syntaxError l) ∧ 1 ≤ l ∧ l ≤ 1 + (fileText bytes).count '\n' := by
  have key := onFile_as (ScanProg.ascii_lattice f) bytes hc
  rw [← ScanProg.space_of_white (ScanProg.readLattice_white f), ScanProg.readLattice_run]
  unfold readLatticeFile
  rw [show goodFile bytes = ⟨bytes, false, false, false⟩ from rfl]
  rcases hx : (ScanProg.latticeP f).run (' ' :: fileText bytes) with _ | ⟨_ | B, r⟩ <;> rw [hx] at key
  · obtain ⟨l, h1, h2⟩ := key
    simp only [ScanProg.latticeOutcome, h1, bind, Except.bind]
    exact ⟨l, rfl, h2⟩
  · obtain ⟨s, h1, -⟩ := key
    simp only [ScanProg.latticeOutcome, h1, bind, Except.bind]
    rfl
  · obtain ⟨s, h1, h2, h3, h4, h5⟩ := key
    simp only at h3 h5
    simp only [ScanProg.latticeOutcome, h1, bind, Except.bind]
    rcases expectEnd_spec h2 with ⟨g1, s', g2⟩ | ⟨g1, l, g2, g3⟩
    · rw [← h3, g1, g2]
      rfl
    · rw [← h3, g1, g2]
      refine ⟨l, rfl, ?_⟩
      rw [h4] at g3
      rw [← h3] at h5
      have e1 := (((List.tail_suffix _).trans (ScanProg.eatWhite_suffix s.text)).trans h5).count_le '\n'
      rw [List.count_cons_of_ne (by decide)] at e1
      unfold BufScanner.newlines at g3
      omega

/-- Saturated binomial ideals. Nothing asks for the end of the file. -/
theorem C76_satbinom_partial (bytes : List FileByte) :
    FileReadsAs readSatBinomFile bytes ((readSatBinom (fileText bytes)).map Prod.fst) := by
  intro capacity hc
  have key := onFile_as ScanProg.ascii_satBinom bytes hc
  have hrun := ScanProg.run_satBinom (' ' :: fileText bytes)
  rw [← ScanProg.space_of_white ScanProg.readSatBinom_white]
  unfold readSatBinomFile
  rw [show goodFile bytes = ⟨bytes, false, false, false⟩ from rfl]
  rcases hrun.cases with ⟨h1, h2⟩ | ⟨I, v, u, h1, h2, -⟩ <;> rw [h1] at key
  · obtain ⟨l, h3, h4⟩ := key
    rw [h2]
    exact ⟨l, by simp only [h3, bind, Except.bind], h4⟩
  · obtain ⟨s, h3, -⟩ := key
    rw [h2]
    simp only [Option.map_some, h3, bind, Except.bind, pure, Except.pure]

/-! ## Cases -/

/-- Two ideals in the format of 4ti2, with a buffer of three bytes. -/
example : (match readListFile none (goodFile (bytesOf t!"2 2\n2 0\n0 1\na b\n1 1\n3")) 3 with
    | .ok x => decide (x.1.map NamedIdeal.terms = [[[2, 0], [0, 1]], [[3]]] ∧ x.2 = [t!"x1"]) | .error _ => false) = true := by decide +kernel

/-- A ring without ideals, for which the end of the file is asked for twice. -/
example : (match readListFile none (goodFile (bytesOf t!"42 ring\n a b c\n")) 4 with
    | .ok x => decide (x.1.map NamedIdeal.terms = [] ∧ x.2 = [t!"a", t!"b", t!"c"]) | .error _ => false) = true := by decide +kernel

/-- An error in the third line. -/
example : (match readListFile (some .fourti2) (goodFile (bytesOf t!"42 ring\n a b\n a")) 4 with
    | .ok _ => 0 | .error (.syntaxError l) => l | .error _ => 99) = 3 := by decide +kernel

/-- The hypothesis of `C76_lists_partial` for these. -/
example : ∀ b ∈ bytesOf t!"42 ring\n a b c\n", b.val ≠ 255 := by decide +kernel

/-- A lattice in each of the formats. -/
example : (match readLatticeFile .fourti2 (goodFile (bytesOf t!"2 3\n1 -2 3\n0 1 +1\n")) 2 with
    | .ok (some B) => decide (B = ⟨3, [[1, -2, 3], [0, 1, 1]]⟩) | _ => false) = true := by decide +kernel

example : (match readLatticeFile .fplll (goodFile (bytesOf t!"[ [1 -2 3]\n [0 1 1] ]")) 5 with
    | .ok (some B) => decide (B = ⟨3, [[1, -2, 3], [0, 1, 1]]⟩) | _ => false) = true := by decide +kernel

/-- More rows than a counter can count: an error if there are entries to read, and no end if there are none. -/
example : (match readLatticeFile .fourti2 (goodFile (bytesOf t!"4294967296 2\n1 2\n3\n")) 5 with
    | .error (.syntaxError l) => decide (l = 4) | _ => false) = true := by decide +kernel

example : (match readLatticeFile .fourti2 (goodFile (bytesOf t!"4294967296 0\n")) 5 with | .ok none => true | _ => false) = true := by decide +kernel

/-- A saturated binomial ideal, and something after it. -/
example : (match readSatBinomFile (goodFile (bytesOf t!"2 2\n1 -2\n0 1\na b 17")) 5 with
    | .ok I => decide (I.names = [t!"a", t!"b"] ∧ I.gens = [[1, -2], [0, 1]]) | _ => false) = true := by decide +kernel

/-! ## What is missing -/

/-- The byte 255 is taken for the end of the file, but asking for the end again finds what comes after it: then it matters that there is a ring
without ideals. -/
theorem C76_twice_witness : (match readListFile (some .fourti2) (goodFile (bytesOf t!"42 ring a" ++ 255 :: bytesOf t!"x")) 1024 with
      | .ok _ => false | .error (.syntaxError l) => decide (l = 1) | .error _ => false) = true ∧
    readIdeals .fourti2 (fileText (bytesOf t!"42 ring a" ++ 255 :: bytesOf t!"x")) = some ([], [t!"a"]) ∧
    (match readListFile (some .fourti2) (goodFile (bytesOf t!"1 1 2 a" ++ 255 :: bytesOf t!"x")) 1024 with
      | .ok x => decide (x.1.map NamedIdeal.terms = [[[2]]]) | .error _ => false) = true := by decide +kernel

end Frobby

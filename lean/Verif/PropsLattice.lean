import Verif.LatticeLemmas
import Verif.LatticeZero
import Verif.PropsAction

/-!
# C66: what the action `latformat` prints
-/

namespace Frobby

variable {f g : LatticeFormat} {t out : Text} {c : ℕ} {rows : List (List ℤ)}

/-- The option `-oformat` asks for the format: it is its name, or `input`. -/
def OutputLattice (f g : LatticeFormat) (out : Text) : Prop := out = t!"input" ∧ g = f ∨ out = g.name

theorem latticeFormat_name (f : LatticeFormat) : latticeFormat f.name = some f := by cases f <;> rfl

theorem latticeFormat_eq {x : Text} (h : latticeFormat x = some f) : x = f.name := by
  unfold latticeFormat at h
  split at h
  · simp only [Option.some.injEq] at h
    subst h
    assumption
  · split at h
    · simp only [Option.some.injEq] at h
      subst h
      assumption
    · exact nomatch h

theorem latticeFormat_out (h : OutputLattice f g out) : latticeFormat (if out = t!"input" then f.name else out) = some g := by
  rcases h with ⟨rfl, rfl⟩ | rfl
  · rw [if_pos rfl, latticeFormat_name]
  · rw [if_neg (by cases g <;> decide), latticeFormat_name]

theorem latticeG_small (h : latticeG f c rows t []) (hf : FitsLoops c rows) : rows.length < 2 ^ 64 ∧ c < 2 ^ 64 := by
  obtain ⟨h1, h2⟩ := hf
  refine ⟨by omega, ?_⟩
  rcases h2 with h2 | h2
  · omega
  · obtain ⟨-, h⟩ := h
    cases f with
    | fourti2 =>
      obtain ⟨_, _, _, ⟨h3, _⟩, _⟩ := h
      exact h3
    | fplll => rw [h.1 h2]; decide

/-- **C66.** A text is read as the matrix that it means, and only texts that mean a matrix are read. The numbers of rows and columns must fit into 32 bits. -/
theorem C66_reads (f : LatticeFormat) (t : Text) (c : ℕ) (rows : List (List ℤ)) : readLattice f t = .ok ⟨c, rows⟩ ↔ latticeG f c rows t [] ∧ FitsLoops c rows :=
  ⟨fun h => readLattice_sound h, fun h => readLattice_complete h.1 h.2⟩

/-- **C66, the part that holds.** `latformat` prints the matrix of the input in the format of the output. Missing: matrices without rows in the format `fplll`
(`C66_empty_wrong`), and what does not fit into 32 bits (`C66_endless`). -/
theorem C66_format_partial (h : latticeG f c rows t []) (hf : FitsLoops c rows) (ho : OutputLattice f g out) (he : g = .fplll → rows = [] → c = 0) :
    ∃ u, latformatText false f.name out t = .ok u ∧ latticeG g c rows u [] := by
  refine ⟨writeLattice g ⟨c, rows⟩, ?_, lattice_written g h.1 (fun _ => latticeG_small h hf) he⟩
  rw [latformatText, latticeFormat_name, latticeFormat_out ho]
  simp only
  rw [(C66_reads ..).2 ⟨h, hf⟩]
  rfl

/-- **C66.** If it prints something, then the formats are known and the input means a matrix. -/
theorem C66_only {zero : Bool} {i u : Text} (h : latformatText zero i out t = .ok u) : ∃ f g c rows, i = LatticeFormat.name f ∧ OutputLattice f g out ∧ latticeG f c rows t [] := by
  unfold latformatText at h
  split at h
  · rename_i f g hf hg
    obtain rfl := latticeFormat_eq hf
    split at h
    · rename_i B hB
      refine ⟨f, g, B.cols, B.rows, rfl, ?_, (readLattice_sound hB).1⟩
      split at hg
      · rw [latticeFormat_name, Option.some.injEq] at hg
        exact .inl ⟨‹_›, hg.symm⟩
      · exact .inr (latticeFormat_eq hg)
    · exact nomatch h
    · exact nomatch h
  · exact nomatch h

theorem latformat_zero_eq (h : latticeG f c rows t []) (hf : FitsLoops c rows) (ho : OutputLattice f g out) : latformatText true f.name out t =
    match makeZeroes ⟨c, rows⟩ with
    | .ok B' => .ok (writeLattice g B')
    | .error => .error
    | .crash => .crash := by
  rw [latformatText, latticeFormat_name, latticeFormat_out ho]
  simp only
  rw [(C66_reads ..).2 ⟨h, hf⟩]
  rfl

/-- **C66, the part that holds.** With `-zero`, it prints a matrix of the same size whose rows generate the same lattice. If there is a second column, then in that column no entry is
1 or -1, or all entries but one are zero. Missing: there need not be more zeros than before (`C66_zero_wrong`), and it crashes if there are no rows or no columns
(`C66_zero_crash`). -/
theorem C66_zero_partial (h : latticeG f c rows t []) (hf : FitsLoops c rows) (ho : OutputLattice f g out) (hr : rows ≠ []) (hc : c ≠ 0) :
    ∃ u rows', latformatText true f.name out t = .ok u ∧ latticeG g c rows' u [] ∧ rows'.length = rows.length ∧ latticeOf c rows' = latticeOf c rows ∧ (1 < c → ColumnDone 1 rows') := by
  obtain ⟨rows', h1, h2, h3⟩ := makeZeroes_spec h.1 hr hc
  refine ⟨writeLattice g ⟨c, rows'⟩, rows', by rw [latformat_zero_eq h hf ho, h1], lattice_written g h2.cols (fun _ => ?_) (fun _ h => ?_), h2.length, h2.lattice, h3⟩
  · rw [h2.length]
    exact latticeG_small h hf
  · have := h2.length
    rw [h, List.length_nil] at this
    exact absurd (List.length_eq_zero_iff.1 this.symm) hr

/-- Two rows and three columns. -/
def exampleLattice : Text := t!"2 3\n5 7 1\n0 0 3\n"

theorem exampleLattice_means : latticeG .fourti2 3 [[5, 7, 1], [0, 0, 3]] exampleLattice [] ∧ FitsLoops 3 [[5, 7, 1], [0, 0, 3]] :=
  (C66_reads ..).1 (by decide +kernel)

example : latformatText false t!"4ti2" t!"fplll" exampleLattice = .ok t!"[\n [5 7 1]\n [0 0 3]\n]\n" := by decide +kernel
example : latformatText false t!"fplll" t!"4ti2" t!"[[5 7 1][0 0 +3]]" = .ok exampleLattice := by decide +kernel
example : latformatText true t!"4ti2" t!"input" t!"2 2\n1 1\n0 2\n" = .ok t!"2 2\n1 1\n-2 0\n" := by decide +kernel

/-! ## What is wrong -/

/-- **C66: what is wrong.** `-zero` is documented to increase the number of zero entries, but it can make it smaller. -/
theorem C66_zero_wrong : ∃ t u rows rows', latticeG .fourti2 3 rows t [] ∧ latformatText true t!"4ti2" t!"input" t = .ok u ∧ latticeG .fourti2 3 rows' u [] ∧
    zeroCount rows' < zeroCount rows :=
  ⟨exampleLattice, t!"2 3\n5 7 1\n-15 -21 0\n", _, [[5, 7, 1], [-15, -21, 0]], exampleLattice_means.1, by decide +kernel, ((C66_reads ..).1 (by decide +kernel)).1, by decide⟩

/-- **C66: what is wrong.** With `-zero`, it crashes for each matrix without rows or without columns. -/
theorem C66_zero_crash (h : latticeG f c rows t []) (hf : FitsLoops c rows) (ho : OutputLattice f g out) (hr : rows = [] ∨ c = 0) : latformatText true f.name out t = .crash := by
  rw [latformat_zero_eq h hf ho, makeZeroes, if_pos hr]

example : latformatText true t!"4ti2" t!"input" t!"0 3\n" = .crash ∧ latformatText true t!"fplll" t!"input" t!"[]" = .crash :=
  ⟨C66_zero_crash (f := .fourti2) (g := .fourti2) ((C66_reads .fourti2 _ 3 []).1 (by decide +kernel)).1 ⟨by decide, .inr rfl⟩ (.inl ⟨rfl, rfl⟩) (.inl rfl),
    C66_zero_crash (f := .fplll) (g := .fplll) ((C66_reads .fplll _ 0 []).1 (by decide +kernel)).1 ⟨by decide, .inr rfl⟩ (.inl ⟨rfl, rfl⟩) (.inl rfl)⟩

/-- **C66: what is wrong.** The number of columns of a matrix without rows is lost in the format `fplll`: going there and back gives a matrix without columns. -/
theorem C66_empty_wrong (h : latticeG .fourti2 c [] t []) : ∃ u, latformatText false t!"4ti2" t!"fplll" t = .ok u ∧
    latformatText false t!"fplll" t!"4ti2" u = .ok t!"0 0\n" := by
  refine ⟨t!"[\n]\n", ?_, by decide +kernel⟩
  have h1 := latticeFormat_out (f := .fourti2) (g := .fplll) (out := t!"fplll") (.inr rfl)
  rw [latformatText, show latticeFormat t!"4ti2" = some .fourti2 from rfl]
  simp only [LatticeFormat.name] at h1
  rw [h1]
  simp only
  rw [(C66_reads ..).2 ⟨h, by decide, .inr rfl⟩]
  rfl

example : latformatText false t!"4ti2" t!"fplll" t!"0 3" = .ok t!"[\n]\n" := by decide +kernel

/-- **C66: what is wrong.** A short text for a matrix with 2^32 rows and no columns is never read to its end. -/
theorem C66_endless : (∃ rows, rows.length = 2 ^ 32 ∧ latticeG .fourti2 0 rows t!"4294967296 0" []) ∧ readLattice .fourti2 t!"4294967296 0" = .crash := by
  refine ⟨⟨List.replicate (2 ^ 32) [], List.length_replicate, fun row h => ?_, ?_⟩, by decide +kernel⟩
  · rw [List.eq_of_mem_replicate h]
    rfl
  · rw [List.length_replicate]
    have hm : ∀ k, Many (Many integerG) (List.replicate k []) [] [] := by
      intro k
      induction k with
      | zero => exact .nil (lit_refl _)
      | succ k ih => exact .cons (.nil (lit_refl _)) ih
    exact ⟨t!" 0", readSizeT_sizeG (by decide +kernel), [], readSizeT_sizeG (by decide +kernel), hm _⟩

end Frobby

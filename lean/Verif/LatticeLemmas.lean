import Verif.LatticeSpec
import Verif.FrobReadLemmas
import Verif.PropsFrobAction
import Verif.PolyReaderLemmas

/-!
# Reading and writing lattices
-/

namespace Frobby

theorem readVector_complete {v : List ℤ} {t r : Text} (h : Many integerG v t r) : ∀ {s : Text}, eatWhite s = eatWhite t →
    ∃ r', readVector v.length s = some (v, r') ∧ eatWhite r' = eatWhite r := by
  induction h with
  | nil h => exact fun {s} hs => ⟨s, rfl, hs.trans (lit_eatWhite h)⟩
  | cons h1 _ ih =>
    intro s hs
    obtain ⟨r', h2, h3⟩ := readInteger_complete_at h1 hs
    obtain ⟨r'', h4, h5⟩ := ih h3
    exact ⟨r'', by simp [readVector, h2, h4], h5⟩

theorem readLatticeRows_sound {c : ℕ} : ∀ {k : ℕ} {t r : Text} {rows : List (List ℤ)}, readLatticeRows c k t = some (rows, r) →
    rows.length = k ∧ (∀ row ∈ rows, row.length = c) ∧ Many (Many integerG) rows t r := by
  intro k
  induction k with
  | zero =>
    intro t r rows h
    simp only [readLatticeRows, Option.some.injEq, Prod.mk.injEq] at h
    obtain ⟨rfl, rfl⟩ := h
    exact ⟨rfl, by simp, .nil (lit_refl t)⟩
  | succ k ih =>
    intro t r rows h
    obtain ⟨⟨x, u⟩, h1, h2⟩ := Option.bind_eq_some_iff.1 h
    obtain ⟨⟨vs, u'⟩, h3, h4⟩ := Option.map_eq_some_iff.1 h2
    simp only [Prod.mk.injEq] at h4
    obtain ⟨rfl, rfl⟩ := h4
    obtain ⟨rfl, h5, h6⟩ := ih h3
    obtain ⟨h7, h8⟩ := readVector_sound h1
    exact ⟨rfl, by simpa using ⟨h7, h5⟩, .cons h8 h6⟩

theorem readLatticeRows_complete {c : ℕ} {rows : List (List ℤ)} {t r : Text} (h : Many (Many integerG) rows t r) : (∀ row ∈ rows, row.length = c) → ∀ {s : Text},
    eatWhite s = eatWhite t → ∃ r', readLatticeRows c rows.length s = some (rows, r') ∧ eatWhite r' = eatWhite r := by
  induction h with
  | nil h => exact fun _ {s} hs => ⟨s, rfl, hs.trans (lit_eatWhite h)⟩
  | cons h1 _ ih =>
    intro hc s hs
    obtain ⟨r', h2, h3⟩ := readVector_complete h1 hs
    rw [hc _ (by simp)] at h2
    obtain ⟨r'', h4, h5⟩ := ih (fun row hr => hc row (by simp [hr])) h3
    exact ⟨r'', by simp [readLatticeRows, h2, h4], h5⟩

/-! ## fplll -/

/-- Everything up to blank space. -/
theorem lit_char {c : Char} (hc : isSpace c = false) {t s r : Text} (h : lit [c] t r) (hs : eatWhite s = eatWhite t) : ∃ r', eatWhite s = c :: r' ∧ eatWhite r' = eatWhite r := by
  obtain ⟨w, w', hw, hw', rfl⟩ := h
  refine ⟨w' ++ r, ?_, dropBlank hw' r⟩
  rw [hs, List.append_assoc, List.append_assoc, dropBlank hw, List.singleton_append, eatWhite_cons, if_neg (by simp [hc])]

theorem eatWhite_length (t : Text) : (eatWhite t).length ≤ t.length := (List.dropWhile_sublist _).length_le

theorem integerG_first {x : ℤ} {t r : Text} (h : integerG x t r) : ∃ c l, eatWhite t = c :: l ∧ (c = '+' ∨ c = '-' ∨ isDigit c = true) := by
  obtain ⟨sign, ds, ⟨h0, hd, w, w', hw, hw', rfl, hr⟩, hx⟩ := h
  obtain ⟨d, ds, rfl⟩ := List.exists_cons_of_ne_nil h0
  have hd' : isDigit d = true := isDigit_iff.2 (hd d (by simp))
  rw [List.append_assoc, List.append_assoc, List.append_assoc, dropBlank hw]
  rcases hx with ⟨rfl, _⟩ | ⟨rfl, _⟩ | ⟨rfl, _⟩
  · refine ⟨d, ds ++ (w' ++ r), ?_, .inr (.inr hd')⟩
    rw [List.nil_append, List.cons_append, eatWhite_cons, if_neg (by simp [isDigit_not_space hd'])]
  · exact ⟨'+', _, by rw [List.cons_append, eatWhite_cons, if_neg (by decide)], .inl rfl⟩
  · exact ⟨'-', _, by rw [List.cons_append, eatWhite_cons, if_neg (by decide)], .inr (.inl rfl)⟩

theorem matchChar_integer {x : ℤ} {t s r : Text} (h : integerG x t r) (hs : eatWhite s = eatWhite t) : matchChar ']' s = (false, eatWhite s) := by
  obtain ⟨c, l, h1, h2⟩ := integerG_first h
  unfold matchChar
  rw [hs, h1]
  simp only
  rw [if_neg]
  rintro rfl
  revert h2
  decide

theorem fplllEntries_sound {t r : Text} {row : List ℤ} {fuel : ℕ} (h : readUntil fplllEntry ']' fuel [] t = some (row, r)) : (Many integerG row ⊹ lit t!"]") t r := by
  obtain ⟨as, h1, h2⟩ := readUntil_sound (P := integerG) (Inv := fun acc s => s = acc) (item := fplllEntry) integerG_starts (by
    rintro acc s t s' r rfl h
    obtain ⟨p, h1, h2⟩ := Option.map_eq_some_iff.1 h
    simp only [Prod.mk.injEq] at h2
    obtain ⟨rfl, rfl⟩ := h2
    exact ⟨p.1, readInteger_sound h1, rfl⟩) fuel [] [] t row r rfl h
  rw [List.nil_append] at h2
  rw [h2]
  exact h1

theorem fplllEntries_complete {row : List ℤ} {t u : Text} (h : Many integerG row t u) : ∀ {r s : Text} {fuel : ℕ} {acc : List ℤ}, lit t!"]" u r → eatWhite s = eatWhite t → s.length < fuel →
    ∃ r', readUntil fplllEntry ']' fuel acc s = some (acc ++ row, r') ∧ eatWhite r' = eatWhite r ∧ r'.length < s.length := by
  induction h with
  | nil h =>
    intro r s fuel acc h1 hs hf
    obtain ⟨r', h2, h3⟩ := lit_char (by decide) h1 (hs.trans (lit_eatWhite h))
    obtain ⟨fuel, rfl⟩ : ∃ m, fuel = m + 1 := ⟨fuel - 1, by omega⟩
    have := eatWhite_length s
    rw [h2] at this
    refine ⟨r', ?_, h3, by simpa using this⟩
    rw [readUntil, matchChar, h2]
    simp
  | @cons x row t u v h1 _ ih =>
    intro r s fuel acc h2 hs hf
    obtain ⟨fuel, rfl⟩ : ∃ m, fuel = m + 1 := ⟨fuel - 1, by omega⟩
    obtain ⟨r', h3, h4⟩ := readInteger_complete_at h1 (s := eatWhite s) (by rw [← hs, eatWhite_eatWhite])
    have h5 := readInteger_length h3
    have h6 := eatWhite_length s
    obtain ⟨r'', h7, h8, h9⟩ := ih (fuel := fuel) (acc := acc ++ [x]) h2 h4 (by omega)
    refine ⟨r'', ?_, h8, by omega⟩
    rw [readUntil, matchChar_integer h1 hs]
    simp only [fplllEntry, h3, Option.map_some]
    rw [h7]
    simp

/-- The rows of a text. -/
abbrev fplllRowG : List ℤ → Gram := fun row => lit t!"[" ⊹ Many integerG row ⊹ lit t!"]"

theorem fplllRows_sound {t r : Text} {rows : List (List ℤ)} {fuel : ℕ} (h : readUntil fplllRow ']' fuel [] t = some (rows, r)) :
    (Many fplllRowG rows ⊹ lit t!"]") t r ∧ ∀ row ∈ rows, row.length = (rows.headD []).length := by
  obtain ⟨as, h1, h2, h3⟩ := readUntil_sound (P := fplllRowG) (Inv := fun acc s => s = acc ∧ ∀ row ∈ acc, row.length = (acc.headD []).length) (item := fplllRow)
    (fun row => (lit_starts _).seq _) (by
    rintro acc s t s' r ⟨rfl, ha⟩ h
    obtain ⟨t1, h1, h2⟩ := Option.bind_eq_some_iff.1 h
    obtain ⟨p, h3, h4⟩ := Option.bind_eq_some_iff.1 h2
    split at h4
    · exact nomatch h4
    · rename_i h5
      simp only [Option.some.injEq, Prod.mk.injEq] at h4
      obtain ⟨rfl, rfl⟩ := h4
      refine ⟨p.1, ⟨t1, expectChar_lit h1, fplllEntries_sound h3⟩, rfl, fun row hrow => ?_⟩
      rw [List.mem_append, List.mem_singleton] at hrow
      rcases hrow with hrow | rfl
      · cases s with
        | nil => simp at hrow
        | cons y s => exact ha row hrow
      · simpa using (not_not.1 h5).symm) fuel [] [] t rows r ⟨rfl, by simp⟩ h
  rw [List.nil_append] at h2 h3
  subst h2
  exact ⟨h1, h3⟩

theorem fplllRows_complete {c : ℕ} {rows : List (List ℤ)} {t u : Text} (h : Many fplllRowG rows t u) : ∀ {r s : Text} {fuel : ℕ} {acc : List (List ℤ)}, lit t!"]" u r → eatWhite s = eatWhite t →
    s.length < fuel → (∀ row ∈ acc ++ rows, row.length = c) → ∃ r', readUntil fplllRow ']' fuel acc s = some (acc ++ rows, r') ∧ eatWhite r' = eatWhite r := by
  induction h with
  | nil h =>
    intro r s fuel acc h1 hs hf _
    obtain ⟨r', h2, h3⟩ := lit_char (by decide) h1 (hs.trans (lit_eatWhite h))
    obtain ⟨fuel, rfl⟩ : ∃ m, fuel = m + 1 := ⟨fuel - 1, by omega⟩
    refine ⟨r', ?_, h3⟩
    rw [readUntil, matchChar, h2]
    simp
  | @cons row rows t u v h1 _ ih =>
    intro r s fuel acc h2 hs hf hc
    obtain ⟨fuel, rfl⟩ : ∃ m, fuel = m + 1 := ⟨fuel - 1, by omega⟩
    obtain ⟨u1, h3, u2, h4, h5⟩ := h1
    obtain ⟨s1, h6, h7⟩ := lit_char (by decide) h3 hs
    obtain ⟨s2, h8, h9, h10⟩ := fplllEntries_complete h4 (acc := []) h5 h7 (Nat.lt_succ_self _)
    have h11 := eatWhite_length s
    rw [h6, List.length_cons] at h11
    obtain ⟨s3, h12, h13⟩ := ih (fuel := fuel) (acc := acc ++ [row]) h2 h9 (by omega) (by simpa using hc)
    refine ⟨s3, ?_, h13⟩
    have hm : matchChar ']' s = (false, eatWhite s) := by
      unfold matchChar
      rw [h6]
      rfl
    have hrow : fplllRow acc (eatWhite s) = some (acc ++ [row], s2) := by
      have he : expectChar '[' (eatWhite s) = some s1 := by
        rw [expectChar_congr (u := s) (eatWhite_eatWhite s)]
        unfold expectChar
        rw [h6]
        simp
      rw [fplllRow, he, Option.bind_some, h8, Option.bind_some, List.nil_append, if_neg]
      simp only [ne_eq, not_not]
      cases acc with
      | nil => rfl
      | cons y acc => rw [hc row (by simp)]; exact hc y (by simp)
    rw [readUntil, hm]
    simp only [hrow]
    rw [h12]
    simp

/-! ## both formats -/

theorem matchEOF_iff {t : Text} : matchEOF t = true ↔ lit [] t [] := by
  constructor
  · intro h
    have h7 : eatWhite t = [] := by simpa [matchEOF] using h
    have h8 := skip t
    rwa [h7] at h8
  · intro h
    have := lit_eatWhite h
    rw [matchEOF, this]
    rfl

theorem readLattice_sound {f : LatticeFormat} {t : Text} {B : LatticeBasis} (h : readLattice f t = .ok B) : latticeG f B.cols B.rows t [] ∧ FitsLoops B.cols B.rows := by
  unfold readLattice at h
  split at h
  · rename_i B' r hB
    split at h
    · rename_i hr
      simp only [Outcome.ok.injEq] at h
      subst h
      cases f with
      | fourti2 =>
        simp only [readLattice4ti2] at hB
        split at hB
        · exact nomatch hB
        · rename_i rc t1 h1
          split at hB
          · exact nomatch hB
          · rename_i c t2 h2
            split at hB
            · rename_i hf
              split at hB
              · exact nomatch hB
              · rename_i rows t3 h3
                simp only [Outcome.ok.injEq, Prod.mk.injEq] at hB
                obtain ⟨rfl, rfl⟩ := hB
                obtain ⟨rfl, h4, h5⟩ := readLatticeRows_sound h3
                rw [List.length_eq_zero_iff] at hf
                exact ⟨⟨h4, t1, readSizeT_sizeG h1, t2, readSizeT_sizeG h2, Many.ends _ _ _ _ h5 (matchEOF_iff.1 hr)⟩, hf⟩
            · split at hB <;> exact nomatch hB
      | fplll =>
        simp only [readLatticeFplll] at hB
        split at hB
        · exact nomatch hB
        · rename_i rows r' hb
          split at hB
          · rename_i hf
            simp only [Outcome.ok.injEq, Prod.mk.injEq] at hB
            obtain ⟨rfl, rfl⟩ := hB
            obtain ⟨t1, h1, h3⟩ := Option.bind_eq_some_iff.1 hb
            obtain ⟨⟨u, h5, h6⟩, h7⟩ := fplllRows_sound h3
            exact ⟨⟨h7, fun h => by simp only at h; simp [h], t1, expectChar_lit h1, u, h5, lit_trans h6 (matchEOF_iff.1 hr)⟩, hf.1, .inl hf.2⟩
          · exact nomatch hB
    · exact nomatch h
  · exact nomatch h
  · exact nomatch h

theorem readLattice_complete {f : LatticeFormat} {t : Text} {c : ℕ} {rows : List (List ℤ)} (h : latticeG f c rows t []) (hf : FitsLoops c rows) :
    readLattice f t = .ok ⟨c, rows⟩ := by
  obtain ⟨hc, h⟩ := h
  cases f with
  | fourti2 =>
    obtain ⟨t1, h1, t2, h2, h3⟩ := h
    obtain ⟨s1, g1, g2⟩ := readSizeT_complete_at h1 rfl
    obtain ⟨s2, g3, g4⟩ := readSizeT_complete_at h2 g2
    obtain ⟨s3, g5, g6⟩ := readLatticeRows_complete h3 hc g4
    have g7 : matchEOF s3 = true := by rw [matchEOF, g6]; rfl
    simp only [readLattice, readLattice4ti2, g1, g3]
    rw [if_pos ⟨hf.1, by rw [List.length_eq_zero_iff]; exact hf.2⟩, g5]
    simp only [g7, if_true]
  | fplll =>
    obtain ⟨h0, t1, h1, t2, h2, h3⟩ := h
    obtain ⟨s1, g1, g2⟩ := lit_char (s := t) (by decide) h1 rfl
    obtain ⟨s2, g3, g4⟩ := fplllRows_complete (c := c) (acc := []) h2 h3 g2 (Nat.lt_succ_self _) (by simpa using hc)
    have g7 : matchEOF s2 = true := by rw [matchEOF, g4]; rfl
    have ge : expectChar '[' t = some s1 := by
      unfold expectChar
      rw [g1]
      simp
    have hcols : (rows.headD []).length = c := by
      cases rows with
      | nil => exact (h0 rfl).symm
      | cons row rows => exact hc row (by simp)
    have hlt : c < 2 ^ 32 := by
      rcases hf.2 with h | h
      · exact h
      · rw [h0 h]; decide
    have gr : (expectChar '[' t).bind (fun t1 => readUntil fplllRow ']' (t1.length + 1) [] t1) = some (rows, s2) := by
      rw [ge, Option.bind_some, g3, List.nil_append]
    simp only [readLattice, readLatticeFplll, gr, hcols]
    rw [if_pos ⟨hf.1, hlt⟩]
    simp only [g7, if_true]

/-! ## writing -/

theorem entries_written (row : List ℤ) {r : Text} (hr : nextIs isDigit r = false) : Many integerG row (entriesText row ++ r) r := by
  have hI : ∀ (x : ℤ) (r : Text), nextIs isDigit r = false → integerG x (decimalInt x ++ r) r := fun x r hr => readInteger_sound (readInteger_decimalInt x hr)
  have hmany : ∀ l : List ℤ, Many integerG l (l.flatMap (fun y => ' ' :: decimalInt y) ++ r) r := by
    intro l
    induction l with
    | nil => exact .nil (lit_refl r)
    | cons y l ih =>
      refine .cons (u := l.flatMap (fun y => ' ' :: decimalInt y) ++ r) ?_ ih
      rw [List.flatMap_cons, List.cons_append, List.cons_append, List.append_assoc]
      refine integerG_starts y _ (decimalInt y ++ (l.flatMap (fun y => ' ' :: decimalInt y) ++ r)) _ ⟨t!" ", [], by simp [Blank], .nil, by simp⟩ (hI y _ ?_)
      cases l with
      | nil => exact hr
      | cons z l => rfl
  cases row with
  | nil => exact .nil (lit_refl r)
  | cons x l =>
    rw [entriesText, List.append_assoc]
    refine .cons (hI x _ ?_) (hmany l)
    cases l with
    | nil => exact hr
    | cons z l => rfl

theorem sizeG_starts (x : ℕ) : StartsBlank (sizeG x) := fun _ _ _ h ⟨h1, s, ds, h', h''⟩ => ⟨h1, s, ds, trans_digitsG h h', h''⟩

theorem lattice_written (f : LatticeFormat) {c : ℕ} {rows : List (List ℤ)} (hc : ∀ row ∈ rows, row.length = c) (hs : f = .fourti2 → rows.length < 2 ^ 64 ∧ c < 2 ^ 64)
    (he : f = .fplll → rows = [] → c = 0) : latticeG f c rows (writeLattice f ⟨c, rows⟩) [] := by
  refine ⟨hc, ?_⟩
  cases f with
  | fourti2 =>
    obtain ⟨h1, h2⟩ := hs rfl
    have hmany : ∀ l : List (List ℤ), Many (Many integerG) l (l.flatMap fun row => entriesText row ++ t!"\n") [] := by
      intro l
      induction l with
      | nil => exact .nil (lit_refl [])
      | cons row l ih =>
        rw [List.flatMap_cons, List.append_assoc]
        refine .cons (Many.ends _ _ _ _ (entries_written row (r := t!"\n" ++ l.flatMap fun row => entriesText row ++ t!"\n") rfl) ?_) ih
        exact ⟨t!"\n", [], by simp [Blank], .nil, by simp⟩
    simp only [writeLattice, List.append_assoc]
    refine ⟨_, readSizeT_sizeG (readSizeT_decimal h1 rfl), t!"\n" ++ rows.flatMap fun row => entriesText row ++ t!"\n", ?_, ?_⟩
    · exact sizeG_starts _ _ _ _ ⟨t!" ", [], by simp [Blank], .nil, by simp⟩ (readSizeT_sizeG (readSizeT_decimal h2 rfl))
    · exact Many.starts (fun row => Many.starts integerG_starts row) rows _ _ _ ⟨t!"\n", [], by simp [Blank], .nil, by simp⟩ (hmany rows)
  | fplll =>
    refine ⟨he rfl, ?_⟩
    have hmany : ∀ l : List (List ℤ), Many fplllRowG l ((l.flatMap fun row => t!" [" ++ entriesText row ++ t!"]\n") ++ t!"]\n") t!"]\n" := by
      intro l
      induction l with
      | nil => exact .nil (lit_refl _)
      | cons row l ih =>
        rw [List.flatMap_cons, List.append_assoc]
        refine .cons ?_ ih
        simp only [List.append_assoc]
        refine ⟨entriesText row ++ (t!"]\n" ++ ((l.flatMap fun row => t!" [" ++ (entriesText row ++ t!"]\n")) ++ t!"]\n")), ⟨t!" ", [], by simp [Blank], .nil, by simp⟩, _,
          entries_written row rfl, ⟨[], t!"\n", .nil, by simp [Blank], by simp⟩⟩
    simp only [writeLattice]
    exact ⟨(rows.flatMap fun row => t!" [" ++ entriesText row ++ t!"]\n") ++ t!"]\n", ⟨[], t!"\n", .nil, by simp [Blank], by simp⟩, t!"]\n", hmany rows,
      ⟨[], t!"\n", .nil, by simp [Blank], by simp⟩⟩

end Frobby

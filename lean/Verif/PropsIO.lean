import Verif.IOListLemmas
import Verif.IOSquareFreeLemmas

/-!
# C32: reading returns what was written

For every format in which ideals can be read, that is all but the null format.
-/

namespace Frobby

/-- A letter. -/
def IsLetter (c : Char) : Prop := 'a' ≤ c ∧ c ≤ 'z' ∨ 'A' ≤ c ∧ c ≤ 'Z'

/-- The names that the formats allow: letters, digits and underscores, with a letter first. -/
def AllowedName (x : Text) : Prop :=
  ∃ c l, x = c :: l ∧ IsLetter c ∧ ∀ d ∈ l, IsLetter d ∨ ('0' ≤ d ∧ d ≤ '9') ∨ d = '_'

/-- Distinct names that the formats allow. The number of variables is a `size_t`. -/
structure AllowedRing (names : List Text) : Prop where
  allowed : ∀ x ∈ names, AllowedName x
  distinct : names.Nodup
  varCount : names.length < 2 ^ 64

/-- An ideal in such a ring: one exponent for each variable in each generator. The number of generators is a `size_t`. -/
structure WellFormed (I : NamedIdeal) : Prop where
  ring : AllowedRing I.names
  exponents : ∀ e ∈ I.terms, e.length = I.names.length
  genCount : I.terms.length < 2 ^ 64

theorem isAlpha_of_isLetter {c : Char} (h : IsLetter c) : isAlpha c = true := by
  simp only [isAlpha, decide_eq_true_eq]
  rcases h with ⟨h1, h2⟩ | ⟨h1, h2⟩
  · right
    exact ⟨h1, h2⟩
  · left
    exact ⟨h1, h2⟩

theorem AllowedName.valid {x : Text} (h : AllowedName x) : ValidName x := by
  obtain ⟨c, l, rfl, h1, h2⟩ := h
  refine ⟨c, l, rfl, isAlpha_of_isLetter h1, fun d hd => ?_⟩
  rcases h2 d hd with h3 | h3 | h3
  · simp [isIdChar, isAlpha_of_isLetter h3]
  · have : isDigit d = true := by
      simp only [isDigit, decide_eq_true_eq]
      exact h3
    simp [isIdChar, this]
  · simp [isIdChar, h3]

theorem AllowedRing.valid {names : List Text} (h : AllowedRing names) : ValidNames names := ⟨fun x hx => (h.allowed x hx).valid, h.distinct⟩

theorem WellFormed.readable {I : NamedIdeal} (h : WellFormed I) : Readable false I :=
  ⟨h.ring.valid, fun e he => ⟨h.exponents e he, by simp⟩, h.ring.varCount, h.genCount⟩

/-- An example of an ideal: two variables, the names of which look like a ring of Macaulay 2, and a constant generator. -/
def exampleIdeal : NamedIdeal := { names := [t!"R", t!"R1_a"], terms := [[2, 1], [0, 0], [0, 10]] }

theorem exampleIdeal_wellFormed : WellFormed exampleIdeal := by
  refine ⟨⟨fun x hx => ?_, by decide, by decide⟩, by decide, by decide⟩
  have hR : IsLetter 'R' := by unfold IsLetter; decide
  have ha : IsLetter 'a' := by unfold IsLetter; decide
  simp only [exampleIdeal, List.mem_cons, List.not_mem_nil, or_false] at hx
  rcases hx with rfl | rfl
  · exact ⟨'R', [], rfl, hR, by simp⟩
  · refine ⟨'R', t!"1_a", rfl, hR, fun d hd => ?_⟩
    simp only [List.mem_cons, List.not_mem_nil, or_false] at hd
    rcases hd with rfl | rfl | rfl
    · exact Or.inr (Or.inl (by decide))
    · exact Or.inr (Or.inr rfl)
    · exact Or.inl ha

/-- C32: in each of the formats, an ideal that is written and read back is the same: the same variables and the same
generators in the same order, and nothing is left over. -/
theorem C32_round_trip (f : IOFormat) {I : NamedIdeal} (hI : WellFormed I) : readIdeal f (writeIdeal f I) = some I :=
  readIdeal_spec (f := f) hI.readable

example (f : IOFormat) : readIdeal f (writeIdeal f exampleIdeal) = some exampleIdeal := C32_round_trip f exampleIdeal_wellFormed

/-- The text that is written in the format of Macaulay 2. -/
example : writeIdeal .m2 exampleIdeal =
      t!"R1 = QQ[R, R1_a];\nI = monomialIdeal(\n R^2*R1_a,\n 1_R1,\n R1_a^10\n);\n" := by decide +kernel

/-- C32: so different ideals are written differently. -/
theorem C32_injective (f : IOFormat) {I J : NamedIdeal} (hI : WellFormed I) (hJ : WellFormed J) (h : writeIdeal f I = writeIdeal f J) : I = J := by
  have h1 := C32_round_trip f hI
  rw [h, C32_round_trip f hJ, Option.some.injEq] at h1
  exact h1.symm

example : writeIdeal .monos exampleIdeal ≠ writeIdeal .monos { exampleIdeal with terms := [[2, 1], [0, 10]] } := fun h =>
  absurd (congrArg List.length h) (by decide +kernel)

/-- C32: a list of ideals that is written and read back is the same list. With it comes the ring of the last ideal, or the
ring that was given to the writer if the list is empty. -/
theorem C32_round_trip_list (f : IOFormat) {names : List Text} (hn : AllowedRing names) {Is : List NamedIdeal} (hIs : ∀ I ∈ Is, WellFormed I) :
    readIdeals f (writeIdeals f names Is) = some (Is, ((Is.getLast?).map NamedIdeal.names).getD names) := by
  rw [readIdeals_spec f hn.valid hn.varCount fun I hI => (hIs I hI).readable]
  have : ∀ (Is : List NamedIdeal) (names : List Text), lastNames names Is = ((Is.getLast?).map NamedIdeal.names).getD names := by
    intro Is
    induction Is with
    | nil => intro names; rfl
    | cons I Is ih =>
      intro names
      rw [lastNames, ih I.names]
      cases Is with
      | nil => rfl
      | cons J Js => rw [List.getLast?_cons_cons, List.getLast?_eq_some_getLast (by simp : J :: Js ≠ [])]; rfl
  rw [this]

example (f : IOFormat) : readIdeals f (writeIdeals f [] [exampleIdeal, { names := [], terms := [[], []] }, exampleIdeal, exampleIdeal]) =
    some ([exampleIdeal, { names := [], terms := [[], []] }, exampleIdeal, exampleIdeal], exampleIdeal.names) :=
  C32_round_trip_list f ⟨by simp, by simp, by decide⟩ fun I hI => by
    simp only [List.mem_cons, List.not_mem_nil, or_false] at hI
    rcases hI with rfl | rfl | rfl | rfl
    · exact exampleIdeal_wellFormed
    · exact ⟨⟨by simp, by simp, by decide⟩, by simp, by decide⟩
    · exact exampleIdeal_wellFormed
    · exact exampleIdeal_wellFormed

/-- C32: the format of an ideal that was written is recognised. -/
theorem C32_auto_detect (f : IOFormat) (I : NamedIdeal) : autoDetect (writeIdeal f I) = f := autoDetect_spec f I

example : autoDetect (writeIdeal .singular exampleIdeal) = .singular := C32_auto_detect _ _

/-- C32: reading an ideal that was written with square-free generators required gives the ideal if all exponents are at most
one and an error otherwise. -/
theorem C32_square_free (f : IOFormat) {I : NamedIdeal} (hI : WellFormed I) :
    readSquareFreeIdeal f (writeIdeal f I) = if ∀ g ∈ I.terms, ∀ e ∈ g, e ≤ 1 then some I else none := by
  split
  · rename_i h
    refine readIdeal_spec (sf := true) (f := f) ⟨hI.ring.valid, fun e he => ⟨hI.exponents e he, fun _ i => ?_⟩, hI.ring.varCount, hI.genCount⟩
    by_cases hi : i < e.length
    · rw [List.getD_eq_getElem _ _ hi]
      exact h e he _ (List.getElem_mem hi)
    · rw [List.getD_eq_default _ _ (by omega)]
      omega
  · rename_i h
    cases h1 : readSquareFreeIdeal f (writeIdeal f I) with
    | none => rfl
    | some J =>
      obtain ⟨h2, h3⟩ := readSquareFreeIdeal_refines h1
      rw [C32_round_trip f hI, Option.some.injEq] at h2
      exact absurd (h2 ▸ h3) h

example (f : IOFormat) : readSquareFreeIdeal f (writeIdeal f exampleIdeal) = none := by
  rw [C32_square_free f exampleIdeal_wellFormed]
  decide

/-- C32: whatever the text, what is read with square-free generators required is square free, and it is what is read
without the requirement. -/
theorem C32_square_free_sound {f : IOFormat} {t : Text} {I : NamedIdeal} (h : readSquareFreeIdeal f t = some I) :
    readIdeal f t = some I ∧ ∀ g ∈ I.terms, ∀ e ∈ g, e ≤ 1 := readSquareFreeIdeal_refines h

example : readSquareFreeIdeal .monos t!"vars a,b;[a*b^01,a*b^1*1];" = none ∧
    readSquareFreeIdeal .monos t!"vars a,b; [a*b^1, b,a^0];" = some { names := [t!"a", t!"b"], terms := [[1, 1], [0, 1], [0, 0]] } := by decide +kernel

end Frobby

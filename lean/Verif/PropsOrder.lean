import Verif.OrderLemmas
import Mathlib.Data.Fin.VecNotation

/-!
# Properties of the comparison functions and of canonical output: C35, C40
-/

namespace Frobby

variable {n : ℕ} {α : Type}

/-- What `std::sort` needs of a comparison: it is irreflexive and transitive, and so is being not comparable. -/
structure StrictWeakOrder (less : α → α → Bool) : Prop where
  irrefl : ∀ a, less a a = false
  trans : ∀ a b c, less a b = true → less b c = true → less a c = true
  incomp : ∀ a b c, less a b = false → less b a = false → less b c = false → less c b = false →
    less a c = false ∧ less c a = false

/-- Only equal elements are not comparable. -/
def Decisive (less : α → α → Bool) : Prop := ∀ a b, less a b = false → less b a = false → a = b

theorem StrictWeakOrder.of_negOn {less : α → α → Bool} (h : NegOn (fun _ => True) less) : StrictWeakOrder less where
  irrefl a := h.irrefl a trivial
  trans a b c hab hbc := by
    rcases h.neg a c b trivial trivial trivial hab with h1 | h1
    · exact h1
    · rw [h.asymm b c trivial trivial hbc] at h1; simp at h1
  incomp a b c h1 h2 h3 h4 := by
    constructor <;> rw [Bool.eq_false_iff] <;> intro h5
    · rcases h.neg a b c trivial trivial trivial h5 with h6 | h6
      · rw [h1] at h6; simp at h6
      · rw [h3] at h6; simp at h6
    · rcases h.neg c b a trivial trivial trivial h5 with h6 | h6
      · rw [h4] at h6; simp at h6
      · rw [h2] at h6; simp at h6

theorem NegOn.subtype {P : α → Prop} {less : α → α → Bool} (h : NegOn P less) :
    StrictWeakOrder fun a b : { x // P x } => less a.1 b.1 :=
  .of_negOn ⟨fun a _ => h.irrefl _ a.2, fun a b _ _ => h.asymm _ _ a.2 b.2, fun a b c _ _ _ => h.neg _ _ _ a.2 b.2 c.2⟩

/-- C35: the comparisons of terms are strict weak orders. -/
theorem C35_terms : StrictWeakOrder (lexLess : Term n → Term n → Bool) ∧
    StrictWeakOrder (reverseLexLess : Term n → Term n → Bool) ∧
    StrictWeakOrder (refLess : Term n → Term n → Bool) ∧
    (∀ v : Fin n, StrictWeakOrder (singleDegreeLess v) ∧ StrictWeakOrder (reverseSingleDegreeLess v)) ∧
    ∀ e : Fin n → ℕ → ℤ, StrictWeakOrder (translatedLess e) :=
  ⟨.of_negOn negOn_lex, .of_negOn negOn_reverseLex, .of_negOn (negOn_lex.flip.congr fun a b _ _ => refLess_eq a b),
    fun v => ⟨.of_negOn (NegOn.of_key (fun a : Term n => a v) fun a b _ _ => by simp [singleDegreeLess]),
      .of_negOn ((NegOn.of_key (fun a : Term n => a v) (less := fun a b => decide (a v < b v)) fun a b _ _ => by simp).flip.congr
        fun a b _ _ => by simp [reverseSingleDegreeLess])⟩,
    fun e => .of_negOn (negOn_translated e)⟩

/-- C35: the lexicographic comparisons are decided by the first variable with different exponents. -/
theorem C35_firstDifference (a b : Term n) :
    (lexLess a b = true ↔ ∃ v, (∀ w, w < v → a w = b w) ∧ a v < b v) ∧
      (reverseLexLess a b = true ↔ ∃ v, (∀ w, w < v → a w = b w) ∧ a v > b v) ∧
      (∀ e : Fin n → ℕ → ℤ, translatedLess e a b = true ↔
        ∃ v, (∀ w, w < v → e w (a w) = e w (b w)) ∧ e v (a v) > e v (b v)) :=
  ⟨lexLess_iff a b, reverseLexLess_iff a b, fun e => translatedLess_iff e a b⟩

/-- C35: only equal terms are not comparable in the lexicographic orders, so that equal terms are adjacent after sorting. -/
theorem C35_terms_decisive : Decisive (lexLess : Term n → Term n → Bool) ∧
    Decisive (reverseLexLess : Term n → Term n → Bool) :=
  ⟨fun a b => totalOn_lex a b trivial trivial, fun a b => totalOn_reverseLex a b trivial trivial⟩

/-- C35: the comparisons of big terms of the same length, without and with coefficients. -/
theorem C35_bigTerms (k : ℕ) :
    StrictWeakOrder (fun a b : { l : List ℤ // l.length = k } => bigTermLess a.1 b.1) ∧
      Decisive (fun a b : { l : List ℤ // l.length = k } => bigTermLess a.1 b.1) ∧
      StrictWeakOrder (fun a b : { x : ℤ × List ℤ // x.2.length = k } => bigCoefTermLess a.1.1 b.1.1 a.1.2 b.1.2) :=
  ⟨(negOn_bigTerm k).subtype, fun a b h1 h2 => Subtype.ext (totalOn_bigTerm k _ _ a.2 b.2 h1 h2), (negOn_bigCoefTerm k).subtype⟩

/-- C35: the comparisons of texts and of lists of names. -/
theorem C35_names : StrictWeakOrder textLess ∧ Decisive textLess ∧ StrictWeakOrder namesLess ∧ Decisive namesLess :=
  ⟨.of_negOn negOn_text, fun a b => totalOn_text a b trivial trivial, .of_negOn negOn_names,
    fun a b => totalOn_names a b trivial trivial⟩

/-- C35: the comparisons of ideals, also of translated ideals. -/
theorem C35_ideals : StrictWeakOrder (idealLess : List (Term n) → List (Term n) → Bool) ∧
    Decisive (idealLess : List (Term n) → List (Term n) → Bool) ∧
    ∀ e : Fin n → ℕ → ℤ, StrictWeakOrder (translatedIdealLess e) :=
  ⟨.of_negOn ((negOn_idealLess negOn_reverseLex).mono fun _ _ _ _ => trivial),
    fun a b => totalOn_idealLess totalOn_reverseLex a b (fun _ _ => trivial) (fun _ _ => trivial),
    fun e => .of_negOn ((negOn_idealLess (negOn_translated e)).mono fun _ _ _ _ => trivial)⟩

/-- C35: both comparisons of big ideals, whose terms have one exponent for each name. They agree, although they are
implemented separately. -/
theorem C35_bigIdeals :
    StrictWeakOrder (fun a b : { x : List Text × List (List ℤ) // ∀ g ∈ x.2, g.length = x.1.length } => bigIdealLess a.1 b.1) ∧
      Decisive (fun a b : { x : List Text × List (List ℤ) // ∀ g ∈ x.2, g.length = x.1.length } => bigIdealLess a.1 b.1) ∧
      ∀ a b, bigIdealOpLess a b = bigIdealLess a b :=
  ⟨negOn_bigIdeal.subtype, fun a b h1 h2 => Subtype.ext (totalOn_bigIdeal _ _ a.2 b.2 h1 h2),
    fun a b => by unfold bigIdealOpLess bigIdealLess; rw [bigIdealOp_eq]⟩

/-- C35: the loop over the terms needs the terms to have the same length: else being not comparable is not transitive. -/
theorem C35_bigTerms_length : ¬ StrictWeakOrder bigTermLess := fun h => by
  have := (h.incomp [2] [] [1] rfl rfl rfl rfl).1
  simp [bigTermLess] at this

/-! ## C40 -/

/-- C40: a single ideal is passed on with its generators in canonical order: the output is a rearrangement of the input, it
starts with the terms that have the largest exponent in the first variable, and so on, and after translation it depends only
on the translated generators with their multiplicities. -/
theorem C40_ideal (e : Fin n → ℕ → ℤ) (srt srt' : List (Term n) → List (Term n))
    (srtI srtI' : List (List (Term n)) → List (List (Term n)))
    (h : IsSort (translatedLess e) srt) (h' : IsSort (translatedLess e) srt') (I J : List (Term n))
    (hIJ : (I.map (translate e)).Perm (J.map (translate e))) :
    ∃ O O', (Canon.mk false []).run srt srtI (idealCalls I) = some (idealCalls O) ∧
      (Canon.mk false []).run srt' srtI' (idealCalls J) = some (idealCalls O') ∧ O.Perm I ∧
      (O.Pairwise fun a b => ¬ ∃ v, (∀ w, w < v → e w (b w) = e w (a w)) ∧ e v (b v) > e v (a v)) ∧
      O.map (translate e) = O'.map (translate e) := by
  refine ⟨srt I, srt' J, Canon.run_single _ _ _, Canon.run_single _ _ _, h.perm I, ?_, sort_translate h h' hIJ⟩
  refine (h.sorted I).imp fun {a b} hab => ?_
  rw [Bool.eq_false_iff, ne_eq, translatedLess_iff] at hab
  exact hab

/-- C40: a list of ideals is passed on in canonical order: the output is a rearrangement of the input, and after translation
it depends only on which ideals there are, up to the order of the ideals and of their generators. -/
theorem C40_list (e : Fin n → ℕ → ℤ) (srt srt' : List (Term n) → List (Term n))
    (srtI srtI' : List (List (Term n)) → List (List (Term n)))
    (h : IsSort (translatedLess e) srt) (h' : IsSort (translatedLess e) srt')
    (hI : IsSort (translatedIdealLess e) srtI) (hI' : IsSort (translatedIdealLess e) srtI')
    (Is Js : List (List (Term n))) (hIJ : SameFamily (translate e) Is Js) :
    ∃ Os Os', (Canon.mk false []).run srt srtI (listCalls Is) = some (listCalls Os) ∧
      (Canon.mk false []).run srt' srtI' (listCalls Js) = some (listCalls Os') ∧ SameFamily id Os Is ∧
      Os.map (List.map (translate e)) = Os'.map (List.map (translate e)) :=
  ⟨_, _, Canon.run_list _ _ _, Canon.run_list _ _ _, family_same h.perm hI.perm Is, family_translate h h' hI hI' hIJ⟩

/-- The case without translator: the comparison is the translated one with the exponents themselves. -/
theorem C40_untranslated (a b : Term n) (I J : List (Term n)) :
    reverseLexLess a b = translatedLess (fun _ i => (i : ℤ)) a b ∧
      idealLess I J = translatedIdealLess (fun _ i => (i : ℤ)) I J ∧
      (translate (fun _ i => (i : ℤ)) a = translate (fun _ i => (i : ℤ)) b → a = b) := by
  refine ⟨reverseLexLess_translated a b, ?_, fun h => funext fun v => ?_⟩
  · unfold idealLess translatedIdealLess
    congr 1
    funext a b
    exact reverseLexLess_translated a b
  · have := congrFun h v
    unfold translate at this
    simpa using this

/-! ## examples -/

/-- Insertion sort is a sorting function for every strict weak order. -/
theorem isSort_insertionSort {less : α → α → Bool} (h : NegOn (fun _ => True) less) :
    IsSort less fun l => l.insertionSort fun a b => less b a = false where
  perm l := List.perm_insertionSort _ l
  sorted l := by
    have : Std.Total fun a b => less b a = false := ⟨fun a b => by
      cases hab : less b a with
      | false => exact .inl rfl
      | true => exact .inr (h.asymm b a trivial trivial hab)⟩
    have : IsTrans α fun a b => less b a = false := ⟨fun a b c hab hbc => by
      rw [Bool.eq_false_iff]
      intro hca
      rcases h.neg c b a trivial trivial trivial hca with h1 | h1
      · rw [hbc] at h1; simp at h1
      · rw [hab] at h1; simp at h1⟩
    exact List.pairwise_insertionSort _ l

/-- C40: two ways to give `⟨x^2, y⟩` and `⟨x, y^2⟩` agree, and the output is not the input. -/
example :
    let e : Fin 2 → ℕ → ℤ := fun _ i => (i : ℤ)
    let Is : List (List (Term 2)) := [[![0, 2], ![1, 0]], [![0, 1], ![2, 0]]]
    let Js : List (List (Term 2)) := [[![2, 0], ![0, 1]], [![0, 2], ![1, 0]]]
    SameFamily (translate e) Is Js ∧ Is ≠ Js ∧
      (Canon.mk false []).run (fun l => l.insertionSort fun a b => translatedLess e b a = false)
        (fun l => l.insertionSort fun a b => translatedIdealLess e b a = false) (listCalls Is) =
      some (listCalls [[![2, 0], ![0, 1]], [![1, 0], ![0, 2]]]) := by
  refine ⟨⟨[[![0, 2], ![1, 0]], [![2, 0], ![0, 1]]], List.Perm.swap _ _ _,
    .cons (List.Perm.refl _) (.cons (List.Perm.swap _ _ _) .nil)⟩, by decide, ?_⟩
  rw [Canon.run_list]
  exact congrArg (fun l => some (listCalls l)) (by decide +kernel)

/-- C40: there are sorting functions. -/
example (e : Fin n → ℕ → ℤ) : ∃ srt srtI, IsSort (translatedLess e) srt ∧ IsSort (translatedIdealLess e) srtI :=
  ⟨_, _, isSort_insertionSort (negOn_translated e),
    isSort_insertionSort ((negOn_idealLess (negOn_translated e)).mono fun _ _ _ _ => trivial)⟩

/-- C35: the order of ideals puts the longer one first. -/
example : idealLess [(![1, 0] : Term 2), ![0, 1]] [![1, 0]] = true ∧ idealLess [(![1, 0] : Term 2)] [![2, 0]] = false := by
  decide

end Frobby

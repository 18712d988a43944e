import Verif.DimensionActionModel
import Verif.PropsAction
import Verif.PropsOpt

/-!
# C55: what the action `dimension` prints
-/

namespace Frobby

namespace NamedIdeal

/-- A set of variables such that every monomial in the ideal has a variable outside of it. -/
def Independent (I : NamedIdeal) (S : Finset Text) : Prop := (∀ x ∈ S, x ∈ I.names) ∧ ∀ m, I.mem m → ∃ x, x ∉ S ∧ 0 < m x

/-- The dimension: -1 for the whole ring, otherwise the largest size of an independent set of variables. -/
structure IsDimension (I : NamedIdeal) (d : ℤ) : Prop where
  unit : I.mem (fun _ => 0) → d = -1
  greatest : ¬ I.mem (fun _ => 0) → IsGreatest {k : ℤ | ∃ S, I.Independent S ∧ (S.card : ℤ) = k} d

/-- No exponent is larger than one. -/
def SquareFree (I : NamedIdeal) : Prop := ∀ t ∈ I.terms, ∀ e ∈ t, e ≤ 1

end NamedIdeal

/-! ## the format -/

theorem dropBlank {w : Text} (hw : Blank w) (t : Text) : eatWhite (w ++ t) = eatWhite t := by
  induction w with
  | nil => rfl
  | cons c w ih =>
    have hc : isSpace c = true := by
      unfold isSpace
      rcases hw c (by simp) with rfl | h
      · decide
      · simp [h]
    rw [List.cons_append, eatWhite_cons, if_pos hc, ih fun d hd => hw d (by simp [hd])]

theorem head_of_lit {c : Char} {s t r : Text} (hc : isSpace c = false) (h : lit (c :: s) t r) : ∃ u, eatWhite t = c :: u := by
  obtain ⟨w, w', hw, _, rfl, _⟩ := h
  refine ⟨s ++ w' ++ r, ?_⟩
  rw [List.append_assoc, List.append_assoc, dropBlank hw, List.cons_append, eatWhite_cons, if_neg (by simp [hc])]
  simp

/-- C55: if a text is read as an ideal in some format, then this is the format that is guessed for it. -/
theorem C55_detect {f : IOFormat} {t : Text} {I : NamedIdeal} (h : readIdeal f t = some I) : autoDetect t = f := by
  obtain ⟨u, h1, _⟩ := C44_sound h
  cases f with
  | m2 =>
    obtain ⟨_, h2, _⟩ := h1
    obtain ⟨R, hR, _, _, h3, _⟩ := h2
    obtain ⟨_, w, w', hw, _, rfl, _⟩ := h3
    cases R with
    | nil => exact nomatch hR
    | cons c R =>
      obtain rfl : c = 'R' := by simpa using hR
      unfold autoDetect
      rw [List.append_assoc, List.append_assoc, dropBlank hw, List.cons_append, eatWhite_cons, if_neg (by decide)]
      rfl
  | cocoa4 =>
    obtain ⟨_, h2, _⟩ := h1
    obtain ⟨_, _, h3, _⟩ := h2
    obtain ⟨u, hu⟩ := head_of_lit (by decide) h3
    unfold autoDetect
    rw [hu]
    rfl
  | singular =>
    obtain ⟨_, h2, _⟩ := h1
    obtain ⟨_, _, _, _, h3, _⟩ := h2
    obtain ⟨u, hu⟩ := head_of_lit (by decide) h3
    unfold autoDetect
    rw [hu]
    rfl
  | monos =>
    obtain ⟨_, h2, _⟩ := h1
    obtain ⟨_, h3, _⟩ := h2
    obtain ⟨u, hu⟩ := head_of_lit (by decide) h3
    unfold autoDetect
    rw [hu]
    rfl
  | newmonos =>
    obtain ⟨_, h3, _⟩ := h1
    obtain ⟨u, hu⟩ := head_of_lit (by decide) h3
    unfold autoDetect
    rw [hu]
    rfl
  | fourti2 =>
    obtain ⟨_, h3, _⟩ := h1
    obtain ⟨_, sign, ds, ⟨hne, hds, w, w', hw, _, rfl, _⟩, _, hs⟩ := h3
    have key : ∀ c u, (isDigit c = true ∨ c = '+' ∨ c = '-') → isSpace c = false → autoDetect (w ++ (c :: u)) = .fourti2 := by
      intro c u hc hsp
      unfold autoDetect
      rw [dropBlank hw, eatWhite_cons, if_neg (by simp [hsp])]
      have h1 : c ≠ 'U' ∧ c ≠ 'u' ∧ c ≠ 'r' ∧ c ≠ '(' ∧ c ≠ 'l' ∧ c ≠ ')' := by
        rcases hc with hc | rfl | rfl
        · refine ⟨?_, ?_, ?_, ?_, ?_, ?_⟩ <;> (rintro rfl; revert hc; decide)
        · decide
        · decide
      simp [h1, hc]
    simp only [List.append_assoc]
    rcases hs with rfl | rfl | ⟨rfl, _⟩
    · cases ds with
      | nil => exact absurd rfl hne
      | cons c ds =>
        have hc := hds c (by simp)
        have hd : isDigit c = true := isDigit_iff.2 hc
        exact key c _ (.inl hd) (isSpace_of_isDigit hd)
    · exact key '+' _ (.inr (.inl rfl)) (by decide)
    · exact key '-' _ (.inr (.inr rfl)) (by decide)

/-! ## sets of variables -/

namespace NamedIdeal

variable {I : NamedIdeal}

theorem independent_sizes (hI : I.Ok) : {k : ℤ | ∃ S, I.Independent S ∧ (S.card : ℤ) = k} = indepSizes I.gens := by
  have hinj : Function.Injective fun v : Fin I.names.length => I.names.getD v [] := fun v w h => (var_inj rfl hI.nodup).1 h
  ext k
  constructor
  · rintro ⟨S, ⟨hS, h⟩, rfl⟩
    refine ⟨Finset.univ.filter fun v => I.names.getD v [] ∈ S, ?_, fun g hg => ?_⟩
    · rw [← Finset.card_image_of_injective _ hinj]
      congr 2
      ext x
      simp only [Finset.mem_image, Finset.mem_filter, Finset.mem_univ, true_and]
      constructor
      · rintro ⟨v, hv, rfl⟩; exact hv
      · intro hx
        obtain ⟨v, rfl⟩ := exists_var rfl (hS x hx)
        exact ⟨v, hx, rfl⟩
    · obtain ⟨x, hx, h0⟩ := h (nm I.names g) ((mem_gens hI _).2 ⟨g, hg, le_of_eq (on_nm rfl hI.nodup g).symm⟩)
      have hN : x ∈ I.names := by
        by_contra hc
        rw [nm_zero rfl g hc] at h0
        omega
      obtain ⟨v, rfl⟩ := exists_var rfl hN
      rw [nm_at rfl hI.nodup] at h0
      exact ⟨v, by simpa using hx, h0⟩
  · rintro ⟨S, rfl, h⟩
    refine ⟨S.image fun v : Fin I.names.length => I.names.getD v [], ⟨fun x hx => ?_, fun m hm => ?_⟩, ?_⟩
    · obtain ⟨v, _, rfl⟩ := Finset.mem_image.1 hx
      exact var_mem rfl v
    · obtain ⟨g, hg, hle⟩ := (mem_gens hI m).1 hm
      obtain ⟨v, hv, h0⟩ := h g hg
      refine ⟨I.names.getD v [], fun hc => ?_, lt_of_lt_of_le h0 (hle v)⟩
      obtain ⟨w, hw, he⟩ := Finset.mem_image.1 hc
      exact hv (hinj he ▸ hw)
    · rw [Finset.card_image_of_injective _ hinj]

theorem mem_zero (hI : I.Ok) : I.mem (fun _ => 0) ↔ (0 : Term I.names.length) ∈ I.gens := by
  rw [mem_gens hI]
  constructor
  · rintro ⟨g, hg, hle⟩
    have : g = 0 := by
      funext v
      have := hle v
      simpa using this
    exact this ▸ hg
  · exact fun h => ⟨0, h, le_refl _⟩

theorem radical_gens (hs : I.SquareFree) : (I.gens.map fun g v => if g v = 0 then 0 else 1 : List (Term I.names.length)) = I.gens := by
  refine (List.map_congr_left fun g hg => ?_).trans (List.map_id _)
  obtain ⟨t, ht, rfl⟩ := List.mem_map.1 hg
  funext v
  have h1 : t.getD v 0 ≤ 1 := by
    rcases Nat.lt_or_ge v t.length with h | h
    · rw [List.getD_eq_getElem _ _ h]
      exact hs t ht _ (List.getElem_mem h)
    · rw [List.getD_eq_default _ _ h]
      omega
  show (if t.getD v 0 = 0 then 0 else 1) = t.getD v 0
  split <;> omega

theorem isDimension {sf : Bool} (hI : I.Ok) (hsf : sf = true → I.SquareFree ∧ I.Minimal) : I.IsDimension (computeDimension I.gens false sf) := by
  obtain ⟨h1, h2⟩ := computeDimension_spec I.gens sf fun h => by
    rw [radical_gens (hsf h).1]
    exact anti_gens hI (hsf h).2
  refine ⟨fun h => h1 ((mem_zero hI).1 h), fun h => ?_⟩
  rw [independent_sizes hI]
  exact h2 fun hc => h ((mem_zero hI).2 hc)

end NamedIdeal

theorem readIdeal_ok {f : IOFormat} {t : Text} {I : NamedIdeal} (h : readIdeal f t = some I) : I.Ok :=
  ⟨(C44_well_formed h).2.1, (C44_well_formed h).2.2⟩

/-! ## what is printed -/

/-- There is one dimension only. -/
theorem NamedIdeal.IsDimension.unique {I : NamedIdeal} {d e : ℤ} (h : I.IsDimension d) (h' : I.IsDimension e) : d = e := by
  by_cases h0 : I.mem (fun _ => 0)
  · rw [h.unit h0, h'.unit h0]
  · exact (h.greatest h0).unique (h'.greatest h0)

/-- C55: a text that is an ideal in the format given, or in any format if none is given or the Slice Algorithm is asked for, is read, and what is printed is the dimension,
or the number of variables minus the dimension, with both algorithms. With `-squareFreeAndMinimal` the generators must be as promised
unless `-useSlice` is given, too. -/
theorem C55_dimension (codim squareFreeAndMinimal useSlice : Bool) (rnd : List ℕ → ℕ → ℕ) {f : Option IOFormat} {g : IOFormat} {t : Text} {I : NamedIdeal}
    (hf : useSlice = true ∨ f = none ∨ f = some g) (hr : readIdeal g t = some I)
    (hp : squareFreeAndMinimal = true → useSlice = false → I.SquareFree ∧ I.Minimal) :
    ∃ d, I.IsDimension d ∧
      dimensionAction codim squareFreeAndMinimal useSlice rnd f t =
        .ok (decimalInt (if codim then (I.names.length : ℤ) - d else d) ++ t!"\n") := by
  have hI := readIdeal_ok hr
  have hd := C55_detect hr
  unfold dimensionAction
  cases useSlice with
  | true =>
    refine ⟨_, NamedIdeal.isDimension (sf := false) hI (by simp), ?_⟩
    simp only [if_true, inputFormat, Option.getD_none, hd, hr]
    rw [C39_sliceDimension _ _ _ _ rfl]
    rfl
  | false =>
    refine ⟨_, NamedIdeal.isDimension hI fun h => hp h rfl, ?_⟩
    have hg : inputFormat f t = g := by rcases hf with h | rfl | rfl <;> simp_all [inputFormat]
    simp only [Bool.false_eq_true, if_false, hg, hr]
    cases codim <;> rfl

/-- C55: a number is printed exactly if the text is an ideal in some format, which must be the one given if there is one, unless
`-useSlice` is given; in that case the format given is ignored. Otherwise an error is reported. -/
theorem C55_errors (codim squareFreeAndMinimal useSlice : Bool) (rnd : List ℕ → ℕ → ℕ) (f : Option IOFormat) (t : Text) :
    dimensionAction codim squareFreeAndMinimal useSlice rnd f t = .error ↔
      ∀ g I, readIdeal g t = some I → useSlice = false ∧ f ≠ none ∧ f ≠ some g := by
  constructor
  · intro h g I hr
    have hd := C55_detect hr
    unfold dimensionAction at h
    cases useSlice with
    | true =>
      simp only [if_true, inputFormat, Option.getD_none, hd, hr] at h
      rw [C39_sliceDimension _ _ _ _ rfl] at h
      exact nomatch h
    | false =>
      refine ⟨rfl, fun hf => ?_, fun hf => ?_⟩
      · subst hf
        simp [inputFormat, hd, hr] at h
      · subst hf
        simp [inputFormat, hr] at h
  · intro h
    unfold dimensionAction
    cases useSlice with
    | true =>
      cases hr : readIdeal (inputFormat none t) t with
      | none => rfl
      | some I => exact absurd (h _ I hr).1 (by decide)
    | false =>
      cases hr : readIdeal (inputFormat f t) t with
      | none => simp
      | some I =>
        obtain ⟨_, h1, h2⟩ := h _ I hr
        cases f with
        | none => exact absurd rfl h1
        | some f => exact absurd rfl h2

/-- C55: the algorithm does not matter for the number printed. -/
theorem C55_slice (codim : Bool) (rnd : List ℕ → ℕ → ℕ) (t : Text) :
    dimensionAction codim false true rnd none t = dimensionAction codim false false rnd none t := by
  unfold dimensionAction
  cases h : readIdeal (inputFormat none t) t with
  | none => simp
  | some I =>
    simp only [if_true, Bool.false_eq_true, if_false]
    rw [C39_sliceDimension _ _ _ _ rfl]
    cases codim <;> rfl

/-! ## examples -/

/-- The ideal ⟨a²b, bc⟩ in three variables. -/
def dimensionInput : Text := t!"vars a, b, c;\n[a^2*b, b*c];\n"

example : autoDetect dimensionInput = .monos := by decide +kernel
example : ∃ I, readIdeal .monos dimensionInput = some I ∧ I.names = [t!"a", t!"b", t!"c"] ∧ I.terms = [[2, 1, 0], [0, 1, 1]] :=
  ⟨⟨[t!"a", t!"b", t!"c"], [[2, 1, 0], [0, 1, 1]]⟩, by decide +kernel, rfl, rfl⟩
example : dimensionAction false false false (fun _ _ => 0) none dimensionInput = .ok t!"2\n" := by rfl
example : dimensionAction true false false (fun _ _ => 0) none dimensionInput = .ok t!"1\n" := by rfl
-- another format is an error unless `-useSlice` is given
example : dimensionAction true false false (fun _ _ => 0) (some .m2) dimensionInput = .error := by rfl
example : ∃ s, dimensionAction true false true (fun _ _ => 0) (some .m2) dimensionInput = .ok s := by
  obtain ⟨d, _, h⟩ := C55_dimension true false true (fun _ _ => 0) (f := some .m2) (.inl rfl) (t := dimensionInput) (g := .monos)
    (I := ⟨[t!"a", t!"b", t!"c"], [[2, 1, 0], [0, 1, 1]]⟩) (by decide +kernel) (by simp)
  exact ⟨_, h⟩
-- the promise of `-squareFreeAndMinimal` is met by ⟨ab, bc⟩, and the whole ring has dimension -1
example : NamedIdeal.SquareFree ⟨[t!"a", t!"b", t!"c"], [[1, 1, 0], [0, 1, 1]]⟩ ∧ NamedIdeal.Minimal ⟨[t!"a", t!"b", t!"c"], [[1, 1, 0], [0, 1, 1]]⟩ := by
  unfold NamedIdeal.SquareFree NamedIdeal.Minimal
  decide
example : dimensionAction false true false (fun _ _ => 0) none t!"vars a, b, c;\n[a*b, b*c];\n" = .ok t!"2\n" := by rfl
example : dimensionAction false false false (fun _ _ => 0) none t!"vars a;\n[1];\n" = .ok t!"-1\n" := by rfl

end Frobby

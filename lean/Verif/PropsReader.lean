import Verif.ReaderCompleteFormats

/-!
# C44: what is read is what the text means

For arbitrary text, not just text that frobby has written.
-/

namespace Frobby

/-- C44: whatever the text, if it is read as an ideal then the text means that ideal: the names of the variables, the number of
generators, and in each generator the product of all the powers that are written down. In particular there is no text
that is accepted although a variable occurs twice with an exponent in a way that some of the powers are lost, and no
text after the ideal is ignored. -/
theorem C44_sound {f : IOFormat} {t : Text} {I : NamedIdeal} (h : readIdeal f t = some I) : Means f t I := by
  unfold readIdeal at h
  obtain ⟨⟨k, r⟩, h1, h2⟩ := Option.bind_eq_some_iff.1 h
  simp only at h2
  split at h2
  · rename_i h3
    simp only [Option.some.injEq] at h2
    subst h2
    refine ⟨r, readConsumer_sound h1, ?_⟩
    have : eatWhite r = [] := by simpa [matchEOF] using h3
    have h4 := skip r
    rwa [this] at h4
  · simp at h2

example : Means .monos t!"vars a , b;\n[a *b^3, 1,b] ;\n" { names := [t!"a", t!"b"], terms := [[1, 3], [0, 0], [0, 1]] } :=
  C44_sound (by decide +kernel)

example : Means .fourti2 t!"2 2\n 1 -3 0 5" { names := [t!"x1", t!"x2"], terms := [[1, 0], [0, 5]] } := C44_sound (by decide +kernel)

example : readIdeal .monos t!"vars a;[a*a];" = none ∧ readIdeal .monos t!"vars a,a;[a];" = none ∧ readIdeal .monos t!"vars a;[a]; b" = none ∧
    readIdeal .singular t!"ring R = 0, (a), lp;\nint noVars = 0;\nideal I = a^2*b;" = none := by decide +kernel

/-- C70: and the other way round, every text of the format is read, with its meaning, however blank space is used in it. So the
grammar says exactly which texts are accepted. -/
theorem C70_ideal_exact {f : IOFormat} {t : Text} {I : NamedIdeal} : readIdeal f t = some I ↔ Means f t I := by
  refine ⟨C44_sound, ?_⟩
  rintro ⟨u, h1, h2⟩
  have h3 : eatWhite u = [] := lit_nil_alike h2
  obtain ⟨k, r, h4, h5, h6⟩ := readConsumer_complete h1 (fun c hc => by rw [h3] at hc; simp at hc) (.refl t)
  have h7 : matchEOF r = true := by
    unfold matchEOF
    rw [h6, h3]
    rfl
  unfold readIdeal
  simp only [Option.bind_eq_bind, h4, Option.bind_some, h7, if_true, Option.some.injEq]
  obtain ⟨names, terms⟩ := I
  simp [InputConsumer.release, h5.1, h5.2]

example : readIdeal .cocoa4 t!" Use R::=Q[x[1..2]];Names:=[ \"a\",\"b\" ] ;I:=Ideal(x[1]^2 x[2],1)" =
    some { names := [t!"a", t!"b"], terms := [[2, 1], [0, 0]] } := by decide +kernel

/-- C70: no text means two ideals. -/
theorem C70_ideal_unambiguous {f : IOFormat} {t : Text} {I J : NamedIdeal} (hI : Means f t I) (hJ : Means f t J) : I = J := by
  have h1 := C70_ideal_exact.2 hI
  rw [C70_ideal_exact.2 hJ] at h1
  exact (Option.some.inj h1).symm

example (J : NamedIdeal) (h : Means .newmonos t!"(monomial-ideal-with-order\n (lex-order a b)\n a^2 11b\n)" J) :
    J = { names := [t!"a", t!"b"], terms := [[2, 0], [0, 0], [0, 0], [0, 1]] } :=
  C70_ideal_unambiguous h (C44_sound (by decide +kernel))

/-! ## The ideals that can be read -/

theorem SepBy.forall {α : Type} {P : α → Gram} {sep : Text} {Q : α → Prop} (hQ : ∀ a t r, P a t r → Q a) {as : List α} {t r : Text}
    (h : SepBy P sep as t r) : ∀ a ∈ as, Q a := by
  induction h with
  | one h1 => simpa using hQ _ _ _ h1
  | cons h1 _ _ ih => simpa using ⟨hQ _ _ _ h1, ih⟩

theorem Many.forall {α : Type} {P : α → Gram} {Q : α → Prop} (hQ : ∀ a t r, P a t r → Q a) {as : List α} {t r : Text}
    (h : Many P as t r) : ∀ a ∈ as, Q a := by
  induction h with
  | nil => simp
  | cons h1 _ ih => simpa using ⟨hQ _ _ _ h1, ih⟩

theorem productG_length {names : List Text} (e : List ℕ) (t r : Text) (h : productG names e t r) : e.length = names.length := by
  rcases h with ⟨_, rfl⟩ | ⟨ps, _, _, rfl⟩ <;> exact productOf_length _ _

theorem productM2G_length {names : List Text} (e : List ℕ) (t r : Text) (h : productM2G names e t r) : e.length = names.length := by
  rcases h with h | ⟨x, v, h, _⟩ <;> exact productG_length _ _ _ h

theorem productCoCoAG_length {names : List Text} (e : List ℕ) (t r : Text) (h : productCoCoAG names e t r) : e.length = names.length := by
  rcases h with ⟨_, rfl⟩ | ⟨ps, _, _, _, rfl⟩ <;> exact productOf_length _ _

theorem nameG_allowed (x t r : Text) (h : nameG x t r) : AllowedName x := h.1

theorem namesG_allowed {sep : Text} {names : List Text} {t r : Text} (h : namesG sep names t r) : (∀ x ∈ names, AllowedName x) ∧ names.Nodup :=
  ⟨SepBy.forall nameG_allowed h.2, h.1⟩

theorem manyNamesG_allowed {names : List Text} {t r : Text} (h : manyNamesG names t r) : (∀ x ∈ names, AllowedName x) ∧ names.Nodup :=
  ⟨Many.forall nameG_allowed h.2, h.1⟩

theorem nil_allowed : (∀ x ∈ ([] : List Text), AllowedName x) ∧ ([] : List Text).Nodup := by simp

theorem defaultNames_allowed (n : ℕ) : (∀ x ∈ (List.range n).map fun i => 'x' :: decimal (i + 1), AllowedName x) ∧
    ((List.range n).map fun i => 'x' :: decimal (i + 1)).Nodup := by
  constructor
  · intro x hx
    simp only [List.mem_map, List.mem_range] at hx
    obtain ⟨i, _, rfl⟩ := hx
    refine ⟨'x', _, rfl, Or.inl (by decide), fun d hd => Or.inr (Or.inl (isDigit_iff.1 (isDigit_of_mem_decimal hd)))⟩
  · refine List.Nodup.map (fun i j h => ?_) List.nodup_range
    simp only [List.cons.injEq, true_and] at h
    have := decimal_injective h
    omega

theorem idealG_well_formed {f : IOFormat} {t u : Text} {I : NamedIdeal} (h1 : idealG f I t u) :
    (∀ x ∈ I.names, AllowedName x) ∧ I.names.Nodup ∧ ∀ e ∈ I.terms, e.length = I.names.length := by
  rw [← and_assoc]
  cases f with
  | m2 =>
    obtain ⟨v, ⟨R, _, brace, _, _, _, _, _, _, _, _, _, _, _, h2, _⟩, _, _, _, _, _, _, _, _, _, h3, _⟩ := h1
    refine ⟨?_, ?_⟩
    · rcases h2 with ⟨h2, _⟩ | h2
      · rw [h2]; exact nil_allowed
      · exact namesG_allowed h2
    · rcases h3 with ⟨h3, _⟩ | h3
      · simp [h3]
      · exact SepBy.forall productM2G_length h3
  | cocoa4 =>
    obtain ⟨v, ⟨hn, _, _, _, _, _, _, _, _, _, _, _, _, _, _, _, _, _, _, _, _, _, _, _, _, _, h2, _⟩, _, _, _, _, _, _, _, _, _, h3, _⟩ := h1
    refine ⟨⟨?_, hn⟩, ?_⟩
    · rcases h2 with ⟨h2, _⟩ | h2
      · rw [h2]; exact nil_allowed.1
      · exact SepBy.forall (fun x t r h => h.1) h2
    · rcases h3 with ⟨h3, _⟩ | h3
      · simp [h3]
      · exact SepBy.forall productCoCoAG_length h3
  | singular =>
    obtain ⟨v, ⟨w, d, hd, _, _, _, _, _, _, _, _, _, _, _, _, _, h2, _⟩, _, _, _, _, _, _, _, h3, _⟩ := h1
    refine ⟨?_, ?_⟩
    · rcases hd with ⟨_, hd⟩ | ⟨_, _, hd⟩
      · rw [hd]
        exact namesG_allowed h2
      · rw [hd]; exact nil_allowed
    · rcases h3 with ⟨_, ⟨h3, _⟩, _⟩ | h3
      · simp [h3]
      · exact SepBy.forall productG_length h3
  | monos =>
    obtain ⟨v, ⟨_, _, _, h2, _⟩, _, _, _, h3, _⟩ := h1
    refine ⟨?_, ?_⟩
    · rcases h2 with ⟨h2, _⟩ | h2
      · rw [h2]; exact nil_allowed
      · exact namesG_allowed h2
    · rcases h3 with ⟨h3, _⟩ | h3
      · simp [h3]
      · exact SepBy.forall productG_length h3
  | newmonos =>
    obtain ⟨_, _, _, _, _, _, _, _, _, h2, _, _, _, h3, _⟩ := h1
    exact ⟨manyNamesG_allowed h2, Many.forall productG_length h3⟩
  | fourti2 =>
    obtain ⟨_, _, _, _, _, h3, h2⟩ := h1
    refine ⟨?_, Many.forall (fun e t r h => h.1) h3⟩
    rcases h2 with ⟨h2, _⟩ | h2
    · rw [h2]
      exact defaultNames_allowed _
    · exact manyNamesG_allowed h2

/-- C44: what is read is an ideal of a polynomial ring: the names are different from each other and allowed, and every generator has
one exponent for each variable. -/
theorem C44_well_formed {f : IOFormat} {t : Text} {I : NamedIdeal} (h : readIdeal f t = some I) :
    (∀ x ∈ I.names, AllowedName x) ∧ I.names.Nodup ∧ ∀ e ∈ I.terms, e.length = I.names.length := by
  obtain ⟨u, h1, _⟩ := C44_sound h
  exact idealG_well_formed h1

example : readIdeal .newmonos t!"(monomial-ideal-with-order (lex-order z y) z^2*y y ) " = some { names := [t!"z", t!"y"], terms := [[2, 1], [0, 1]] } := by
  decide +kernel

/-- C44: what is read in one format, from whatever text, can be written in any format, and is then read as the same ideal. -/
theorem C44_convert {f : IOFormat} {t : Text} {I : NamedIdeal} (h : readIdeal f t = some I) (h1 : I.names.length < 2 ^ 64)
    (h2 : I.terms.length < 2 ^ 64) (g : IOFormat) : readIdeal g (writeIdeal g I) = some I :=
  have h3 := C44_well_formed h
  C32_round_trip g ⟨⟨h3.1, h3.2.1, h1⟩, h3.2.2, h2⟩

example : readIdeal .m2 (writeIdeal .m2 { names := [t!"x1", t!"x2"], terms := [[1, 0], [0, 5]] }) =
    some { names := [t!"x1", t!"x2"], terms := [[1, 0], [0, 5]] } :=
  C44_convert (f := .fourti2) (t := t!"2 2\n 1 -3 0 5") (by decide +kernel) (by decide) (by decide) _

/-- The meaning with decimal exponents, leading zeros or not, which is what users expect. -/
def decimalG (e : ℕ) : Gram := fun t r => ∃ ds, digitsG [] ds t r ∧ e = valueIn 10 ds

/-- C44: exponents are decimal numbers if they have no leading zeros. -/
theorem C44_decimal_partial {e : ℕ} {t r : Text} (h : exponentG e t r) (h0 : ∀ w s, Blank w → t ≠ w ++ '0' :: s) : decimalG e t r := by
  obtain ⟨ds, h1, h2⟩ := h
  refine ⟨ds, h1, ?_⟩
  rwa [if_neg] at h2
  intro h3
  obtain ⟨_, _, w, w', hw, _, rfl, _⟩ := h1
  cases ds with
  | nil => simp at h3
  | cons c ds =>
    simp only [List.head?_cons, Option.some.injEq] at h3
    subst h3
    exact h0 w (ds ++ w' ++ r) hw (by simp)

example : exponentG 12 t!" 12*b" t!"*b" :=
  ⟨t!"12", ⟨by decide, by decide, t!" ", [], by unfold Blank; simp, .nil, rfl, by decide⟩, by decide⟩

/-- C44, the rest of the claim is false: with a leading zero exponents are octal numbers, or not accepted at all. -/
theorem C44_octal : readIdeal .monos t!"vars a;[a^010];" = some { names := [t!"a"], terms := [[8]] } ∧
    readIdeal .monos t!"vars a;[a^08];" = none ∧ readIdeal .fourti2 t!"1 1 010" = some { names := [t!"x1"], terms := [[8]] } := by
  decide +kernel

end Frobby

import Verif.PolyReaderCompleteLemmas
import Verif.PropsPolyTransform

/-!
# C70: the texts of polynomials that are accepted
-/

namespace Frobby

/-! ## 4ti2 -/

theorem valueIn_zero_cons (ds : Text) : valueIn 10 ('0' :: ds) = valueIn 10 ds := by simp [valueIn]

theorem nonNegative_complete {x : ℤ} {t r t0 : Text} (h : integerG x t r) (h0 : Alike t0 t) :
    ∃ r0, readNonNegative t0 = some (x.toNat, r0) ∧ Alike r0 r := by
  obtain ⟨r1, a1, b1⟩ := integer_complete h h0
  by_cases hz : ∃ l, t0 = '0' :: l
  · obtain ⟨l, rfl⟩ := hz
    obtain ⟨sign, ds, h1, h2⟩ := h
    have he : eatWhite t = '0' :: l := by rw [← h0]; rfl
    have hsign : sign = [] := by
      obtain ⟨hne, hds, w, w', h3, h4, rfl, h5⟩ := h1
      rcases h2 with ⟨rfl, _⟩ | ⟨rfl, _⟩ | ⟨rfl, _⟩
      · rfl
      · simp only [List.append_assoc] at he
        rw [eatWhite_blanks h3] at he
        simp [eatWhite, isSpace] at he
      · simp only [List.append_assoc] at he
        rw [eatWhite_blanks h3] at he
        simp [eatWhite, isSpace] at he
    subst hsign
    have hx : x = valueIn 10 ds := by
      rcases h2 with ⟨_, h2⟩ | ⟨h2, _⟩ | ⟨h2, _⟩
      · exact h2
      · simp at h2
      · simp at h2
    obtain ⟨w', h3, h4, h5, h6, h7⟩ := digitsG_eat h1
    rw [he] at h4
    cases ds with
    | nil => simp at h6
    | cons d ds =>
      simp only [List.cons_append, List.cons.injEq] at h4
      obtain ⟨rfl, rfl⟩ := h4
      rw [valueIn_zero_cons] at hx
      cases ds with
      | nil =>
        refine ⟨w' ++ r, ?_, alike_append h3 _⟩
        have : nextIs isDigit (w' ++ r) = false := by
          by_contra hc
          rw [Bool.not_eq_false, nextIs_iff] at hc
          obtain ⟨c, h8, h9⟩ := hc
          exact h7 c h8 h9
        simp only [readNonNegative, List.nil_append, this, Bool.false_eq_true, if_false, hx]
        simp [valueIn]
      | cons d ds =>
        have hd : ∀ c ∈ d :: ds, isDigit c = true := fun c hc => h5 c (by simp [List.mem_cons.1 hc])
        have h8 : digitsG [] (d :: ds) (d :: ds ++ (w' ++ r)) r :=
          ⟨by simp, fun c hc => isDigit_iff.1 (hd c hc), [], w', by simp [Blank], h3, by simp, fun c hc h9 => h7 c hc (isDigit_iff.2 h9)⟩
        obtain ⟨r2, a2, b2⟩ := integer_complete (x := (valueIn 10 (d :: ds) : ℤ)) ⟨[], _, h8, .inl ⟨rfl, rfl⟩⟩ (.refl _)
        refine ⟨r2, ?_, b2⟩
        have : nextIs isDigit (d :: ds ++ (w' ++ r)) = true := hd d (by simp)
        simp only [readNonNegative, this, if_true, a2, Option.map_some, hx]
  · refine ⟨r1, ?_, b1⟩
    unfold readNonNegative
    split
    · rename_i l
      exact absurd ⟨l, rfl⟩ hz
    · rw [a1]
      rfl

theorem exponentNonNegative_complete (total : List ℤ) :
    Reads readExponentNonNegative integerG (fun acc s => s = acc.map Int.toNat) (fun _ => True) total := by
  rintro acc a rest s t r t0 - rfl h - h0
  obtain ⟨r0, a1, b1⟩ := nonNegative_complete h h0
  refine ⟨acc.map Int.toNat ++ [a.toNat], r0, ?_, ?_, b1⟩
  · unfold readExponentNonNegative
    rw [a1]
    rfl
  · simp

theorem readPolyTerm4ti2_complete (n : ℕ) (total : List (ℤ × List ℕ)) :
    Reads (readPolyTerm4ti2 n) (polyRowG n) (fun acc s => s = acc) (fun _ => True) total := by
  rintro acc ⟨c, e⟩ rest s t r t0 - rfl ⟨zs, rfl, h1, u, h2, h3⟩ - h0
  simp only at h1 h2
  subst h1
  obtain ⟨r1, a1, b1⟩ := integer_complete h2 h0
  obtain ⟨s2, r2, a2, b2, c2⟩ := readTimes_complete (fun _ _ _ _ => next_true _) (exponentNonNegative_complete zs) h3 [] [] r1 rfl rfl (next_true _) b1
  refine ⟨_, r2, ?_, rfl, c2⟩
  unfold readPolyTerm4ti2
  simp only [Option.bind_eq_bind, a1, Option.bind_some, a2]
  rw [b2]
  rfl

theorem readNameAdd_complete (total : List Text) : Reads readNameAdd nameG (fun acc s => s = acc.eraseDups) (fun _ => True) total := by
  rintro acc a rest s t r t0 - rfl h - h0
  obtain ⟨r0, a1, b1⟩ := readIdentifier_complete h h0
  refine ⟨_, r0, ?_, rfl, b1⟩
  unfold readNameAdd
  rw [a1, eraseDups_add]
  simp only [Option.map_some, List.mem_eraseDups]

theorem readPoly4ti2_complete {P : NamedPoly} {t r t0 : Text} (h : poly4ti2G P t r) (hnx : Next (fun c => isAlpha c = false) r) (h0 : Alike t0 t) :
    ∃ r0, readPoly4ti2 t0 = some (P, r0) ∧ Alike r0 r := by
  obtain ⟨names, terms⟩ := P
  obtain ⟨n, u1, h1, u2, h2, u3, h3, u4, h4, u5, h5, u6, h6, h7⟩ := h
  simp only at h1 h3 h7
  obtain ⟨r1, a1, b1⟩ := readSizeT_complete h1 h0
  obtain ⟨r2, a2, b2⟩ := readSizeT_complete h2 b1
  obtain ⟨s3, r3, a3, b3, c3⟩ := readTimes_complete (fun _ _ _ _ => next_true _) (readPolyTerm4ti2_complete n terms) h3 [] [] r2 rfl rfl (next_true _) b2
  rw [List.nil_append] at b3
  subst b3
  obtain ⟨r4, a4, b4⟩ := matchChar_complete (by decide) h4 c3
  obtain ⟨r5, a5, b5⟩ := expectText_complete (s := t!"coefficient") ⟨_, _, rfl, by decide⟩ h5 b4
  obtain ⟨r6, a6, b6⟩ := expectChar_complete (c := ')') (by decide) h6 b5
  have hrun : ∀ x : Option (NamedPoly × Text), (if peekIdentifier r6 then (readTimes readNameAdd n [] r6).bind fun p => some (({ names := p.1, terms := s3 } : NamedPoly), p.2)
      else some ({ names := defaultNames n, terms := s3 }, r6)) = x → readPoly4ti2 t0 = x := by
    rintro x rfl
    unfold readPoly4ti2
    simp only [Option.bind_eq_bind, a1, a2, a3, a4, a5, a6, Option.bind_some, Nat.add_sub_cancel, Nat.add_eq_zero_iff, Nat.one_ne_zero, and_false,
      if_false, if_true]
  rcases h7 with ⟨h7, rfl⟩ | ⟨written, hw, h7, h8⟩
  · refine ⟨r6, hrun _ ?_, b6⟩
    rw [peekIdentifier_next (hnx.congr b6), if_neg (by simp), h7]
    rfl
  · cases h7 with
    | nil h9 =>
      have hr := b6.trans (lit_nil_alike h9)
      refine ⟨r6, hrun _ ?_, hr⟩
      simp only [List.length_nil] at hw
      subst hw
      rw [peekIdentifier_next (hnx.congr hr), if_neg (by simp), h8]
      rfl
    | @cons x xs _ _ v h9 h10 =>
      obtain ⟨s7, r7, a7, b7, c7⟩ := readTimes_complete (fun _ _ _ _ => next_true _) (readNameAdd_complete (x :: xs)) (.cons h9 h10) [] [] r6 rfl rfl
        (next_true _) b6
      refine ⟨r7, hrun _ ?_, c7⟩
      rw [peekIdentifier_complete h9 b6, if_pos rfl, ← hw, a7, Option.bind_some, b7, h8]
      rfl

/-! ## All formats -/

theorem readPolyFrom_complete {f : PolyFormat} (hf : f ≠ .fourti2) {P : NamedPoly} {t r : Text} (h : polyG f P t r) :
    ∃ u r0, readRing f.io t = some (P.names, u) ∧ readBarePoly P.names u f = some (P.terms, r0) ∧ Alike r0 r := by
  cases f with
  | m2 =>
    obtain ⟨u1, h1, u2, h2, u3, h3, h4⟩ := h
    have hn := (ringG_allowed (f := .m2) h1).2
    obtain ⟨r1, a1, b1⟩ := readRing_complete (f := .m2) rfl h1 (.refl t)
    obtain ⟨r2, a2, b2⟩ := expectChar_complete (c := 'p') (by decide) h2 b1
    obtain ⟨r3, a3, b3⟩ := expectChar_complete (c := '=') (by decide) h3 b2
    obtain ⟨r4, a4, b4⟩ := readSum_complete (readCoefBody_complete hn) (bodyG_first _) h4 b3
    refine ⟨r1, r4, a1, ?_, b4⟩
    simp only [readBarePoly, Option.bind_eq_bind, a2, a3, Option.bind_some]
    exact a4
  | cocoa4 =>
    obtain ⟨u1, h1, u2, h2, u3, h3, h4⟩ := h
    obtain ⟨r1, a1, b1⟩ := readRing_complete (f := .cocoa4) rfl h1 (.refl t)
    obtain ⟨r2, a2, b2⟩ := expectChar_complete (c := 'p') (by decide) h2 b1
    obtain ⟨r3, a3, b3⟩ := expectText_complete (s := t!":=") ⟨_, _, rfl, by decide⟩ h3 b2
    obtain ⟨r4, a4, b4⟩ := readSum_complete (readCoefBodyCoCoA_complete _) (bodyCoCoAG_first _) h4 b3
    refine ⟨r1, r4, a1, ?_, b4⟩
    simp only [readBarePoly, Option.bind_eq_bind, a2, a3, Option.bind_some]
    exact a4
  | singular =>
    obtain ⟨u1, h1, u2, h2, u3, h3, u4, h4, h5⟩ := h
    have hn := (ringG_allowed (f := .singular) h1).2
    obtain ⟨r1, a1, b1⟩ := readRing_complete (f := .singular) rfl h1 (.refl t)
    obtain ⟨r2, a2, b2⟩ := expectText_complete (s := t!"poly") ⟨_, _, rfl, by decide⟩ h2 b1
    obtain ⟨r3, a3, b3⟩ := expectChar_complete (c := 'p') (by decide) h3 b2
    obtain ⟨r4, a4, b4⟩ := expectChar_complete (c := '=') (by decide) h4 b3
    obtain ⟨r5, a5, b5⟩ := readSum_complete (readCoefBody_complete hn) (bodyG_first _) h5 b4
    refine ⟨r1, r5, a1, ?_, b5⟩
    simp only [readBarePoly, Option.bind_eq_bind, a2, a3, a4, Option.bind_some]
    exact a5
  | fourti2 => exact absurd rfl hf

/-- C70: **a text is read as a polynomial exactly if it means that polynomial.** -/
theorem C70_poly_exact {f : PolyFormat} {t : Text} {P : NamedPoly} : readPoly f t = some P ↔ MeansPoly f t P := by
  refine ⟨C63_sound, ?_⟩
  rintro ⟨u, h1, h2⟩
  have he : eatWhite u = [] := by rw [lit_nil_alike h2]; rfl
  have heof : ∀ {r0}, Alike r0 u → matchEOF r0 = true := fun {r0} h => by
    have : eatWhite r0 = [] := by rw [h, he]
    simp [matchEOF, this]
  unfold readPoly
  by_cases hf : f = .fourti2
  · subst hf
    obtain ⟨r0, a1, b1⟩ := readPoly4ti2_complete h1 (fun c hc => by rw [he] at hc; simp at hc) (.refl t)
    simp only [Option.bind_eq_bind, if_true, a1, Option.bind_some, heof b1]
  · obtain ⟨v, r0, a1, a2, b2⟩ := readPolyFrom_complete hf h1
    simp only [Option.bind_eq_bind, hf, if_false, a1, Option.bind_some, a2, heof b2, if_true]

example : readPoly .cocoa4 t!"Use R ::= Q[x[1..2]]; Names := [\"a\",\"b\"]; p := - 3 x[ 1]^ 2x[2] + - x[2]x[+1]^1 - 05 ;\n" =
    some { names := [t!"a", t!"b"], terms := [(-3, [2, 1]), (-1, [1, 1]), (-5, [0, 0])] } := by decide +kernel

/-- C70: no text means two polynomials. -/
theorem C70_poly_unambiguous {f : PolyFormat} {t : Text} {P Q : NamedPoly} (hP : MeansPoly f t P) (hQ : MeansPoly f t Q) : P = Q := by
  have h1 := C70_poly_exact.2 hP
  rw [C70_poly_exact.2 hQ] at h1
  exact (Option.some.inj h1).symm

example (P : NamedPoly) (h : MeansPoly .fourti2 t!"2 4 +7 1 00 -4 05 0 0 03 (coefficient) a b a" P) :
    P = { names := [t!"a", t!"b"], terms := [(7, [1, 0, 0]), (5, [0, 0, 3])] } :=
  C70_poly_unambiguous h (C63_sound (by decide +kernel))

end Frobby

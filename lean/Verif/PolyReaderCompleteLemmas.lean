import Verif.PolyReaderLemmas
import Verif.PropsListReaderExact

/-!
# Lemmas: every text of a polynomial is read
-/

namespace Frobby

/-! ## Integers -/

theorem integer_complete {x : ℤ} {t r t0 : Text} (h : integerG x t r) (h0 : Alike t0 t) : ∃ r0, readInteger t0 = some (x, r0) ∧ Alike r0 r := by
  obtain ⟨s, ds, h1, h2⟩ := h
  obtain ⟨r0, h3, h4⟩ := signed_complete (by tauto) h1 h0
  refine ⟨r0, ?_, h4⟩
  rw [h3]
  rcases h2 with ⟨rfl, rfl⟩ | ⟨rfl, rfl⟩ | ⟨rfl, rfl⟩
  · rw [if_neg (by decide)]
  · rw [if_neg (by decide)]
  · rw [if_pos rfl]

theorem coef_complete {c : ℕ} {t r t0 : Text} (h : coefG c t r) (h0 : Alike t0 t) : ∃ r0, readInteger t0 = some ((c : ℤ), r0) ∧ Alike r0 r := by
  obtain ⟨ds, h1, rfl⟩ := h
  exact integer_complete ⟨[], ds, h1, .inl ⟨rfl, rfl⟩⟩ h0

theorem integerG_shrinks (x : ℤ) : Shrinks (integerG x) := by
  rintro t r ⟨sign, ds, ⟨h1, h2, w, w', h3, h4, rfl, h5⟩, h6⟩
  have hs : Solidly (sign ++ ds) := by
    rcases h6 with ⟨rfl, _⟩ | ⟨rfl, _⟩ | ⟨rfl, _⟩
    · cases ds with
      | nil => simp at h1
      | cons c l => exact ⟨c, l, rfl, isSpace_false_of_isDigit (isDigit_iff.2 (h2 c (by simp)))⟩
    · exact ⟨_, _, rfl, by decide⟩
    · exact ⟨_, _, rfl, by decide⟩
  exact lit_shrinks hs _ _ ⟨w, w', h3, h4, by simp⟩

/-! ## Powers of variables -/

theorem productOf_fresh {n : ℕ} {acc : List (ℕ × ℕ)} {v : ℕ} (hv : v ∉ acc.map Prod.fst) : (productOf n acc).getD v 0 = 0 := by
  by_cases h : v < n
  · rw [List.getD_eq_getElem _ _ (by simpa [productOf] using h)]
    have : acc.filter (fun p => p.1 = v) = [] := by
      rw [List.filter_eq_nil_iff]
      intro p hp
      simp only [decide_eq_true_eq]
      rintro rfl
      exact hv (List.mem_map_of_mem hp)
    simp [productOf, this]
  · rw [List.getD_eq_default]
    simpa [productOf] using h

theorem productOf_set {n : ℕ} {acc : List (ℕ × ℕ)} {v e : ℕ} (hv : v ∉ acc.map Prod.fst) :
    (productOf n acc).set v e = productOf n (acc ++ [(v, e)]) := by
  have hf := productOf_fresh (n := n) hv
  apply List.ext_getElem
  · simp [productOf]
  · intro i hi hi'
    have hin : i < n := by simpa [productOf] using hi'
    rw [List.getElem_set]
    simp only [productOf, List.getElem_map, List.getElem_range, List.filter_append, List.map_append, List.sum_append]
    split
    · rename_i hv'
      subst hv'
      rw [List.getD_eq_getElem _ _ (by simpa [productOf] using hin)] at hf
      simp only [productOf, List.getElem_map, List.getElem_range] at hf
      rw [hf]
      simp
    · rename_i hv'
      simp [hv']

theorem readExponent_complete {n v e : ℕ} {acc : List (ℕ × ℕ)} (hv : v ∉ acc.map Prod.fst) {t r t0 : Text} (h : polyPowerG e t r)
    (hn : Next (· ≠ '^') r) (h0 : Alike t0 t) :
    ∃ r0, readExponent v (productOf n acc) t0 = some (productOf n (acc ++ [(v, e)]), r0) ∧ Alike r0 r := by
  unfold readExponent
  rw [if_neg (by rw [productOf_fresh hv]; simp)]
  rcases h with ⟨rfl, rfl⟩ | ⟨u, ⟨he, rfl⟩, w, h1, h2⟩
  · rw [matchChar_next (hn.congr h0)]
    exact ⟨_, by rw [productOf_set hv], (eatWhite_idem _).trans h0⟩
  · obtain ⟨r1, a1, b1⟩ := matchChar_complete (by decide) h1 h0
    obtain ⟨r2, a2, b2⟩ := integer_complete h2 b1
    refine ⟨r2, ?_, b2⟩
    simp only [a1, a2]
    rw [if_neg (by omega), Int.toNat_natCast, productOf_set hv]

theorem fst_fresh {acc rest : List (ℕ × ℕ)} {p : ℕ × ℕ} (h : ((acc ++ p :: rest).map Prod.fst).Nodup) : p.1 ∉ acc.map Prod.fst := by
  rw [List.map_append, List.nodup_append] at h
  intro hm
  exact h.2.2 p.1 hm p.1 (by simp) rfl

theorem readVarPower_complete {names : List Text} (hn : names.Nodup) {total : List (ℕ × ℕ)} (hf : (total.map Prod.fst).Nodup) :
    Reads (readVarPower names) (polyVarG names) (fun acc s => s = productOf names.length acc) (· ≠ '^') total := by
  rintro acc ⟨v, e⟩ rest s t r t0 rfl rfl ⟨x, h1, u, h2, h3⟩ hnx h0
  simp only at h1 h3
  obtain ⟨r1, a1, b1⟩ := readIdentifier_complete h2 h0
  obtain ⟨r2, a2, b2⟩ := readExponent_complete (n := names.length) (fst_fresh hf) h3 hnx b1
  refine ⟨_, r2, ?_, rfl, b2⟩
  unfold readVarPower
  simp only [a1, names_idxOf? hn h1]
  exact a2

theorem readVarPowerCoCoA_complete {n : ℕ} {total : List (ℕ × ℕ)} (hf : (total.map Prod.fst).Nodup) :
    Reads readVarPowerCoCoA (polyVarCoCoAG n) (fun acc s => s = productOf n acc) (· ≠ '^') total := by
  rintro acc ⟨v, e⟩ rest s t r t0 rfl rfl ⟨hv, u1, h1, u2, h2, u3, h3, u4, h4, h5⟩ hnx h0
  simp only at hv h3 h5
  obtain ⟨r1, a1, b1⟩ := expectChar_complete (c := 'x') (by decide) h1 h0
  obtain ⟨r2, a2, b2⟩ := expectChar_complete (c := '[') (by decide) h2 b1
  obtain ⟨r3, a3, b3⟩ := readSizeT_complete h3 b2
  obtain ⟨r4, a4, b4⟩ := expectChar_complete (c := ']') (by decide) h4 b3
  obtain ⟨r5, a5, b5⟩ := readExponent_complete (n := n) (fst_fresh hf) h5 hnx b4
  refine ⟨_, r5, ?_, rfl, b5⟩
  unfold readVarPowerCoCoA
  simp only [a1, Option.bind_some, a2, a3]
  rw [if_neg (by rw [productOf_length]; omega)]
  simp only [a4, Nat.add_sub_cancel]
  exact a5

theorem polyPowerG_weakens (e : ℕ) : Weakens (polyPowerG e) := by
  rintro t r (⟨_, rfl⟩ | ⟨u, ⟨_, rfl⟩, w, h1, h2⟩)
  · exact le_refl _
  · have h3 := shrinks_text rfl (by decide) _ _ h1
    have h4 := integerG_shrinks _ _ _ h2
    omega

theorem polyVarG_shrinks (names : List Text) (p : ℕ × ℕ) : Shrinks (polyVarG names p) := by
  rintro t r ⟨x, _, h⟩
  exact (nameG_shrinks x).seq (polyPowerG_weakens _) t r h

theorem polyVarCoCoAG_shrinks (n : ℕ) (p : ℕ × ℕ) : Shrinks (polyVarCoCoAG n p) := by
  rintro t r ⟨_, h⟩
  exact (shrinks_text rfl (by decide)).seq ((shrinks_text rfl (by decide)).weakens.seq ((sizeG_shrinks _).weakens.seq
    ((shrinks_text rfl (by decide)).weakens.seq (polyPowerG_weakens _)))) t r h

/-! ## Loops -/

section loops

variable {σ α : Type} {item : σ → Text → Option (σ × Text)} {P : α → Gram} {Inv : List α → σ → Prop} {F : Char → Prop}

theorem itemStar_complete (hF : F '*') (hP : ∀ a, Shrinks (P a)) {total : List α} (h : Reads item P Inv F total) {as : List α} {t r : Text}
    (h1 : SepBy P t!"*" as t r) : ∀ fuel acc s t0, total = acc ++ as → Inv acc s → Next F r → Next (· ≠ '*') r → Alike t0 t →
      (eatWhite t).length ≤ fuel → ∃ s1 r1 s' r0, item s t0 = some (s1, r1) ∧ readWhileStar item fuel s1 r1 = some (s', r0) ∧
        Inv (acc ++ as) s' ∧ Alike r0 r := by
  induction h1 with
  | @one a t r h2 =>
    intro fuel acc s t0 ht hs hn hn' h0 hl
    obtain ⟨s1, r1, a1, b1, c1⟩ := h acc a [] s t r t0 ht hs h2 hn h0
    have := hP _ _ _ h2
    obtain ⟨fuel, rfl⟩ : ∃ m, fuel = m + 1 := ⟨fuel - 1, by omega⟩
    refine ⟨s1, r1, s1, eatWhite r1, a1, ?_, b1, (eatWhite_idem _).trans c1⟩
    simp only [readWhileStar, matchChar_next (hn'.congr c1)]
  | @cons a as t r u v h2 h3 _ ih =>
    intro fuel acc s t0 ht hs hn hn' h0 hl
    obtain ⟨s1, r1, a1, b1, c1⟩ := h acc a as s t u t0 ht hs h2 (lit_next rfl (by decide) h3 hF) h0
    have := hP _ _ _ h2
    have := shrinks_text rfl (by decide) _ _ h3
    obtain ⟨fuel, rfl⟩ : ∃ m, fuel = m + 1 := ⟨fuel - 1, by omega⟩
    obtain ⟨r2, a2, b2⟩ := matchChar_complete (by decide) h3 c1
    obtain ⟨s3, r3, s4, r4, a3, a4, a5, a6⟩ := ih fuel (acc ++ [a]) s1 r2 (by simpa using ht) b1 hn hn' b2 (by omega)
    refine ⟨s1, r1, s4, r4, a1, ?_, by simpa using a5, a6⟩
    simp only [readWhileStar, a2, a3, a4]

theorem readWhileStar_complete (hF : F '*') (hP : ∀ a, Shrinks (P a)) {total : List α} (h : Reads item P Inv F total) {as : List α} {t r : Text}
    (h1 : Gram.or (Gram.when (as = []) ⊹ lit []) (lit t!"*" ⊹ SepBy P t!"*" as) t r) {fuel : ℕ} {acc : List α} {s : σ} {t0 : Text}
    (ht : total = acc ++ as) (hs : Inv acc s) (hn : Next F r) (hn' : Next (· ≠ '*') r) (h0 : Alike t0 t) (hl : (eatWhite t).length < fuel) :
    ∃ s' r0, readWhileStar item fuel s t0 = some (s', r0) ∧ Inv (acc ++ as) s' ∧ Alike r0 r := by
  obtain ⟨fuel, rfl⟩ : ∃ m, fuel = m + 1 := ⟨fuel - 1, by omega⟩
  rcases h1 with ⟨u, ⟨rfl, rfl⟩, h2⟩ | ⟨u, h2, h3⟩
  · have h3 := h0.trans (lit_nil_alike h2)
    refine ⟨s, eatWhite t0, ?_, by simpa using hs, (eatWhite_idem _).trans h3⟩
    simp only [readWhileStar, matchChar_next (hn'.congr h3)]
  · obtain ⟨r2, a2, b2⟩ := matchChar_complete (by decide) h2 h0
    have := shrinks_text rfl (by decide) _ _ h2
    obtain ⟨s3, r3, s4, r4, a3, a4, a5, a6⟩ := itemStar_complete hF hP h h3 fuel acc s r2 ht hs hn hn' b2 (by omega)
    refine ⟨s4, r4, ?_, a5, a6⟩
    simp only [readWhileStar, a2, a3, a4]

theorem readWhilePeekX_complete (hF : F 'x') (hP : ∀ a, Shrinks (P a)) (hfirst : ∀ a t r, P a t r → (eatWhite t).head? = some 'x')
    {total : List α} (h : Reads item P Inv F total) {as : List α} {t r : Text} (h1 : Many P as t r) :
    ∀ fuel acc s t0, total = acc ++ as → Inv acc s → Next F r → Next (· ≠ 'x') r → Alike t0 t → (eatWhite t).length < fuel →
      ∃ s' r0, readWhilePeekX item fuel s t0 = some (s', r0) ∧ Inv (acc ++ as) s' ∧ Alike r0 r := by
  induction h1 with
  | nil h2 =>
    intro fuel acc s t0 ht hs hn hn' h0 hl
    obtain ⟨fuel, rfl⟩ : ∃ m, fuel = m + 1 := ⟨fuel - 1, by omega⟩
    have h3 := h0.trans (lit_nil_alike h2)
    refine ⟨s, t0, ?_, by simpa using hs, h3⟩
    rw [readWhilePeekX, if_neg (by rw [peekChar_next (hn'.congr h3)]; simp)]
  | @cons a as t r u h2 h3 ih =>
    intro fuel acc s t0 ht hs hn hn' h0 hl
    obtain ⟨fuel, rfl⟩ : ∃ m, fuel = m + 1 := ⟨fuel - 1, by omega⟩
    have hu : Next F u := by
      cases h3 with
      | nil h4 => exact hn.congr (lit_nil_alike h4)
      | cons h4 _ =>
        refine next_of_first (p := (· = 'x')) ⟨'x', hfirst _ _ _ h4, rfl⟩ ?_
        rintro c rfl
        exact hF
    obtain ⟨s1, r1, a1, b1, c1⟩ := h acc a as s t u t0 ht hs h2 hu h0
    have := hP _ _ _ h2
    obtain ⟨s2, r2, a2, b2, c2⟩ := ih fuel (acc ++ [a]) s1 r1 (by simpa using ht) b1 hn hn' c1 (by omega)
    refine ⟨s2, r2, ?_, by simpa using b2, c2⟩
    have hp : peekChar 'x' t0 = true := by
      unfold peekChar
      rw [h0, nextIs_iff]
      exact ⟨'x', hfirst _ _ _ h2, by simp⟩
    rw [readWhilePeekX, if_pos hp]
    simp only [a1, a2]

end loops

/-! ## Terms -/

/-- What can follow a term. -/
def AfterTerm (c : Char) : Prop := c = '+' ∨ c = '-' ∨ c = ';'

/-- How a term without its sign can start. -/
def TermFirst (t : Text) : Prop := ∃ c, (eatWhite t).head? = some c ∧ (isDigit c = true ∨ isAlpha c = true)

theorem TermFirst.ne {t : Text} (h : TermFirst t) {d : Char} (h1 : isDigit d = false) (h2 : isAlpha d = false) : Next (· ≠ d) t := by
  refine next_of_first h ?_
  rintro c (hc | hc) rfl
  · rw [h1] at hc; exact nomatch hc
  · rw [h2] at hc; exact nomatch hc

theorem AfterTerm.ne {c d : Char} (h : AfterTerm c) (hd : d ≠ '+' ∧ d ≠ '-' ∧ d ≠ ';') : c ≠ d := by
  rintro rfl
  rcases h with h | h | h
  · exact hd.1 h
  · exact hd.2.1 h
  · exact hd.2.2 h

/-- The parts of a term are read. -/
def BodyComplete (body : Text → Option ((ℤ × List ℕ) × Text)) (G : ℕ → List ℕ → Gram) : Prop :=
  ∀ {c : ℕ} {e : List ℕ} {t r t0 : Text}, G c e t r → Next AfterTerm r → Alike t0 t → ∃ r0, body t0 = some (((c : ℤ), e), r0) ∧ Alike r0 r

/-- How the parts of a term start, and that they are something. -/
def BodyFirst (G : ℕ → List ℕ → Gram) : Prop := ∀ {c : ℕ} {e : List ℕ} {t r : Text}, G c e t r →
  TermFirst t ∧ (eatWhite r).length < (eatWhite t).length

theorem coefG_first {c : ℕ} {t r : Text} (h : coefG c t r) : ∃ d, (eatWhite t).head? = some d ∧ isDigit d = true := by
  obtain ⟨ds, h1, _⟩ := h
  exact digitsG_first h1

theorem coefG_shrinks (c : ℕ) : Shrinks (coefG c) := by
  rintro t r ⟨ds, h1, _⟩
  exact digitsG_shrinks ds t r h1

theorem not_alpha_of_digit {c : Char} (h : isDigit c = true) : isAlpha c = false := by
  have h3 : 48 ≤ c.toNat ∧ c.toNat ≤ 57 := by simpa [isDigit] using h
  simp only [isAlpha, decide_eq_false_iff_not]
  omega

theorem coef_not_name {c : ℕ} {t r t0 : Text} (h : coefG c t r) (h0 : Alike t0 t) : peekIdentifier t0 = false :=
  peekIdentifier_next ((next_of_first (coefG_first h) fun _ => not_alpha_of_digit).congr h0)

theorem polyVars_first {names : List Text} {ps : List (ℕ × ℕ)} {t r : Text} (h : SepBy (polyVarG names) t!"*" ps t r) :
    ∃ c, (eatWhite t).head? = some c ∧ isAlpha c = true := by
  cases h with
  | one h1 =>
    obtain ⟨x, _, u, h2, _⟩ := h1
    exact nameG_first h2
  | cons h1 _ _ =>
    obtain ⟨x, _, u, h2, _⟩ := h1
    exact nameG_first h2

theorem polyVarCoCoA_first {n : ℕ} {p : ℕ × ℕ} {t r : Text} (h : polyVarCoCoAG n p t r) : (eatWhite t).head? = some 'x' := by
  obtain ⟨_, u, h1, _⟩ := h
  exact lit_first rfl (by decide) h1

theorem bodyG_first (names : List Text) : BodyFirst (bodyG names) := by
  rintro c e t r ⟨ps, _, _, ⟨_, h⟩ | ⟨u, h1, h2⟩⟩
  · obtain ⟨d, h1, h2⟩ := polyVars_first h
    exact ⟨⟨d, h1, .inr h2⟩, SepBy.shrinks ⟨_, _, rfl, by decide⟩ (polyVarG_shrinks names) _ _ _ h⟩
  · obtain ⟨d, h3, h4⟩ := coefG_first h1
    refine ⟨⟨d, h3, .inl h4⟩, lt_of_le_of_lt ?_ (coefG_shrinks _ _ _ h1)⟩
    rcases h2 with ⟨v, ⟨_, rfl⟩, h2⟩ | h2
    · exact weakens_skip _ _ h2
    · exact ((shrinks_text rfl (by decide)).seq (Shrinks.weakens (SepBy.shrinks ⟨_, _, rfl, by decide⟩ (polyVarG_shrinks names) _)) _ _ h2).le

theorem bodyCoCoAG_first (names : List Text) : BodyFirst (bodyCoCoAG names) := by
  have hm := fun ps => weakens_many (fun p => (polyVarCoCoAG_shrinks names.length p).weakens) ps
  rintro c e t r ⟨ps, _, _, ⟨_, hne, h⟩ | ⟨u, h1, h2⟩⟩
  · cases h with
    | nil _ => exact absurd rfl hne
    | cons h1 h2 => exact ⟨⟨'x', polyVarCoCoA_first h1, .inr (by decide)⟩, lt_of_le_of_lt (hm _ _ _ h2) (polyVarCoCoAG_shrinks _ _ _ _ h1)⟩
  · obtain ⟨d, h3, h4⟩ := coefG_first h1
    exact ⟨⟨d, h3, .inl h4⟩, lt_of_le_of_lt (hm _ _ _ h2) (coefG_shrinks _ _ _ h1)⟩

theorem productOf_nil_replicate (n : ℕ) : List.replicate n 0 = productOf n [] := (productOf_nil n).symm

theorem readCoefBody_complete {names : List Text} (hn : names.Nodup) : BodyComplete (readCoefBody names) (bodyG names) := by
  rintro c e t r t0 ⟨ps, hps, rfl, h⟩ hnx h0
  have hr := readVarPower_complete hn hps
  have hF := hnx.mono fun c hc => hc.ne (d := '^') (by decide)
  have hS := hnx.mono fun c hc => hc.ne (d := '*') (by decide)
  have hfuel : ∀ {r1 u : Text}, Alike r1 u → (eatWhite u).length < r1.length + 1 := fun h => by
    rw [← h.length]; exact Nat.lt_succ_of_le (eatWhite_length_le _)
  unfold readCoefBody
  rcases h with ⟨rfl, h⟩ | ⟨u, h1, h2⟩
  · have hp := peekIdentifier_first (polyVars_first h) h0
    have key : ∃ p qs u, ps = p :: qs ∧ polyVarG names p t u ∧ Gram.or (Gram.when (qs = []) ⊹ lit []) (lit t!"*" ⊹ SepBy (polyVarG names) t!"*" qs) u r := by
      cases h with
      | one h1 => exact ⟨_, [], r, rfl, h1, .inl ⟨r, ⟨rfl, rfl⟩, lit_refl _⟩⟩
      | cons h1 h2 h3 => exact ⟨_, _, _, rfl, h1, .inr ⟨_, h2, h3⟩⟩
    obtain ⟨p, qs, u, rfl, h1, h2⟩ := key
    have hu : Next (· ≠ '^') u := by
      rcases h2 with ⟨v, ⟨_, rfl⟩, h2⟩ | ⟨v, h2, _⟩
      · exact hF.congr (lit_nil_alike h2)
      · exact lit_next rfl (by decide) h2 (by decide)
    obtain ⟨s1, r1, a1, b1, c1⟩ := hr [] p qs _ t u t0 rfl rfl h1 hu h0
    obtain ⟨s2, r2, a2, b2, c2⟩ := readWhileStar_complete (by decide) (polyVarG_shrinks names) hr h2 (fuel := r1.length + 1) (acc := [p]) rfl b1 hF hS
      c1 (hfuel c1)
    refine ⟨r2, ?_, c2⟩
    simp only [hp, if_true, Option.bind_eq_bind]
    rw [productOf_nil_replicate, a1]
    simp only [Option.map_some, Option.bind_some, a2]
    rw [b2]
    rfl
  · have hp := coef_not_name h1 h0
    obtain ⟨r1, a1, b1⟩ := coef_complete h1 h0
    obtain ⟨s2, r2, a2, b2, c2⟩ := readWhileStar_complete (by decide) (polyVarG_shrinks names) hr h2 (fuel := r1.length + 1) (acc := []) rfl rfl hF hS
      b1 (hfuel b1)
    refine ⟨r2, ?_, c2⟩
    simp only [hp, Bool.false_eq_true, if_false, Option.bind_eq_bind, a1]
    rw [productOf_nil_replicate]
    simp only [Option.map_some, Option.bind_some, a2]
    rw [b2]
    rfl

theorem readCoefBodyCoCoA_complete (names : List Text) : BodyComplete (readCoefBodyCoCoA names) (bodyCoCoAG names) := by
  rintro c e t r t0 ⟨ps, hps, rfl, h⟩ hnx h0
  have hr := readVarPowerCoCoA_complete (n := names.length) hps
  have hF := hnx.mono fun c hc => hc.ne (d := '^') (by decide)
  have hX := hnx.mono fun c hc => hc.ne (d := 'x') (by decide)
  have hfuel : ∀ {r1 u : Text}, Alike r1 u → (eatWhite u).length < r1.length + 1 := fun h => by
    rw [← h.length]; exact Nat.lt_succ_of_le (eatWhite_length_le _)
  have hloop := fun {as : List (ℕ × ℕ)} {t r : Text} (h1 : Many (polyVarCoCoAG names.length) as t r) =>
    readWhilePeekX_complete (F := (· ≠ '^')) (by decide) (polyVarCoCoAG_shrinks names.length) (fun _ _ _ h => polyVarCoCoA_first h) hr h1
  unfold readCoefBodyCoCoA
  rcases h with ⟨rfl, hne, h⟩ | ⟨u, h1, h2⟩
  · cases h with
    | nil _ => exact absurd rfl hne
    | @cons p qs _ _ u h1 h2 =>
      have hp := peekIdentifier_first ⟨'x', polyVarCoCoA_first h1, by decide⟩ h0
      have hu : Next (· ≠ '^') u := by
        cases h2 with
        | nil h3 => exact hF.congr (lit_nil_alike h3)
        | cons h3 _ =>
          refine next_of_first (p := (· = 'x')) ⟨'x', polyVarCoCoA_first h3, rfl⟩ ?_
          rintro c rfl
          decide
      obtain ⟨s1, r1, a1, b1, c1⟩ := hr [] p qs _ t u t0 rfl rfl h1 hu h0
      obtain ⟨s2, r2, a2, b2, c2⟩ := hloop h2 (r1.length + 1) [p] s1 r1 rfl b1 hF hX c1 (hfuel c1)
      refine ⟨r2, ?_, c2⟩
      simp only [hp, if_true, Option.bind_eq_bind]
      rw [productOf_nil_replicate, a1]
      simp only [Option.map_some, Option.bind_some, a2]
      rw [b2]
      rfl
  · have hp := coef_not_name h1 h0
    obtain ⟨r1, a1, b1⟩ := coef_complete h1 h0
    obtain ⟨s2, r2, a2, b2, c2⟩ := hloop h2 (r1.length + 1) [] _ r1 rfl rfl hF hX b1 (hfuel b1)
    refine ⟨r2, ?_, c2⟩
    simp only [hp, Bool.false_eq_true, if_false, Option.bind_eq_bind, a1]
    rw [productOf_nil_replicate]
    simp only [Option.map_some, Option.bind_some, a2]
    rw [b2]
    rfl

/-! ## Signs and sums -/

theorem readSign_complete {first neg : Bool} {t u t0 : Text} (h : signG first neg t u) (hu : TermFirst u) (h0 : Alike t0 t) :
    ∃ r0, readSign first t0 = some (!neg, r0) ∧ Alike r0 u := by
  have hp : ∀ {r0}, Alike r0 u → (peekChar '+' r0 || peekChar '-' r0) = false := fun {r0} h => by
    rw [peekChar_next ((hu.ne (d := '+') (by decide) (by decide)).congr h), peekChar_next ((hu.ne (d := '-') (by decide) (by decide)).congr h)]
    rfl
  have hm : ∀ {r0}, Alike r0 u → matchChar '-' r0 = (false, eatWhite r0) := fun {r0} h =>
    matchChar_next ((hu.ne (d := '-') (by decide) (by decide)).congr h)
  have plus : ∀ {v}, lit t!"-" t v → (matchChar '+' t0).1 = false := fun hv => by
    rw [matchChar_next ((lit_next (p := (· ≠ '+')) rfl (by decide) hv (by decide)).congr h0)]
  unfold readSign
  cases first <;> cases neg
  · obtain ⟨r1, a1, b1⟩ := matchChar_complete (by decide) (h : lit t!"+" t u) h0
    have h2 := (eatWhite_idem r1).trans b1
    refine ⟨eatWhite r1, ?_, h2⟩
    simp only [a1, hm b1, and_self, if_true, hp h2, Bool.false_eq_true, if_false]
  · rcases (h : Gram.or (lit t!"-") (lit t!"+" ⊹ lit t!"-") t u) with h | ⟨v, h1, h2⟩
    · obtain ⟨r1, a1, b1⟩ := matchChar_complete (by decide) h h0
      refine ⟨r1, ?_, b1⟩
      simp only [plus h, a1, Bool.false_eq_true, and_false, if_false, if_true, hp b1]
      rfl
    · obtain ⟨r1, a1, b1⟩ := matchChar_complete (by decide) h1 h0
      obtain ⟨r2, a2, b2⟩ := matchChar_complete (by decide) h2 b1
      refine ⟨r2, ?_, b2⟩
      simp only [a1, a2, and_self, if_true, hp b2, Bool.false_eq_true, if_false]
  · have h1 := h0.trans (lit_nil_alike (h : lit [] t u))
    refine ⟨t0, ?_, h1⟩
    simp [hm h1, hp h1]
  · obtain ⟨r1, a1, b1⟩ := matchChar_complete (by decide) (h : lit t!"-" t u) h0
    refine ⟨r1, ?_, b1⟩
    simp [a1, hp b1]

theorem signG_weakens (first neg : Bool) : Weakens (signG first neg) := by
  have h1 : Weakens (lit t!"-") := (shrinks_text rfl (by decide)).weakens
  have h2 : Weakens (lit t!"+") := (shrinks_text rfl (by decide)).weakens
  cases first <;> cases neg
  · exact h2
  · exact h1.or (h2.seq h1)
  · exact weakens_skip
  · exact h1

theorem signedTermG_shrinks {G : ℕ → List ℕ → Gram} (hG : BodyFirst G) (first : Bool) (p : ℤ × List ℕ) : Shrinks (signedTermG G first p) := by
  rintro t r ⟨neg, c, _, u, h1, h2⟩
  exact lt_of_lt_of_le (hG h2).2 (signG_weakens _ _ _ _ h1)

theorem readSigned_complete {body : Text → Option ((ℤ × List ℕ) × Text)} {G : ℕ → List ℕ → Gram} (hb : BodyComplete body G) (hG : BodyFirst G)
    {first : Bool} {p : ℤ × List ℕ} {t r t0 : Text} (h : signedTermG G first p t r) (hn : Next AfterTerm r) (h0 : Alike t0 t) :
    ∃ r0, readSigned body first t0 = some (p, r0) ∧ Alike r0 r := by
  obtain ⟨z, e⟩ := p
  obtain ⟨neg, c, h1, u, h2, h3⟩ := h
  simp only at h1 h3
  obtain ⟨r1, a1, b1⟩ := readSign_complete h2 (hG h3).1 h0
  obtain ⟨r2, a2, b2⟩ := hb h3 hn b1
  refine ⟨r2, ?_, b2⟩
  unfold readSigned
  simp only [a1, a2, Option.map_some, h1]
  cases neg <;> rfl

theorem signedTermG_first {G : ℕ → List ℕ → Gram} {p : ℤ × List ℕ} {t r : Text} (h : signedTermG G false p t r) :
    ∃ c, (eatWhite t).head? = some c ∧ (c = '+' ∨ c = '-') := by
  obtain ⟨neg, c, h1, u, h2, h3⟩ := h
  cases neg
  · exact ⟨'+', lit_first rfl (by decide) (h2 : lit t!"+" t u), .inl rfl⟩
  · rcases (h2 : Gram.or (lit t!"-") (lit t!"+" ⊹ lit t!"-") t u) with h2 | ⟨v, h2, _⟩
    · exact ⟨'-', lit_first rfl (by decide) h2, .inr rfl⟩
    · exact ⟨'+', lit_first rfl (by decide) h2, .inl rfl⟩

theorem readPolyTerms_complete {body : Text → Option ((ℤ × List ℕ) × Text)} {G : ℕ → List ℕ → Gram} (hb : BodyComplete body G) (hG : BodyFirst G)
    {qs : List (ℤ × List ℕ)} {u v : Text} (h : Many (signedTermG G false) qs u v) {r : Text} (hr : lit t!";" v r) :
    ∀ (fuel : ℕ) (first : Bool) (acc : List (ℤ × List ℕ)) (p : ℤ × List ℕ) (t t0 : Text), signedTermG G first p t u → Alike t0 t →
      (eatWhite t).length ≤ fuel → ∃ r0, readPolyTerms (readSigned body) fuel first acc t0 = some (acc ++ p :: qs, r0) ∧ Alike r0 r := by
  induction h with
  | nil h1 =>
    intro fuel first acc p t t0 h2 h0 hl
    have := signedTermG_shrinks hG _ _ _ _ h2
    obtain ⟨fuel, rfl⟩ : ∃ m, fuel = m + 1 := ⟨fuel - 1, by omega⟩
    have hnx : Next AfterTerm _ := (lit_next (p := AfterTerm) rfl (by decide) hr (.inr (.inr rfl))).congr (lit_nil_alike h1)
    obtain ⟨r1, a1, b1⟩ := readSigned_complete hb hG h2 hnx h0
    obtain ⟨r2, a2, b2⟩ := matchChar_complete (by decide) hr (b1.trans (lit_nil_alike h1))
    refine ⟨r2, ?_, b2⟩
    simp only [readPolyTerms, a1, a2]
  | @cons q qs u v w h1 h2 ih =>
    intro fuel first acc p t t0 h3 h0 hl
    have := signedTermG_shrinks hG _ _ _ _ h3
    obtain ⟨fuel, rfl⟩ : ∃ m, fuel = m + 1 := ⟨fuel - 1, by omega⟩
    have hq := signedTermG_first h1
    obtain ⟨r1, a1, b1⟩ := readSigned_complete hb hG h3 (next_of_first hq (by rintro c (h | h); exacts [.inl h, .inr (.inl h)])) h0
    have hs : matchChar ';' r1 = (false, eatWhite r1) := by
      refine matchChar_next ((next_of_first hq ?_).congr b1)
      rintro c (rfl | rfl) <;> decide
    obtain ⟨r2, a2, b2⟩ := ih hr fuel false (acc ++ [p]) q u (eatWhite r1) h1 ((eatWhite_idem _).trans b1) (by omega)
    refine ⟨r2, ?_, b2⟩
    simp only [readPolyTerms, a1, hs, a2]
    simp

theorem readSum_complete {body : Text → Option ((ℤ × List ℕ) × Text)} {G : ℕ → List ℕ → Gram} (hb : BodyComplete body G) (hG : BodyFirst G)
    {ps : List (ℤ × List ℕ)} {t r t0 : Text} (h : sumG G ps t r) (h0 : Alike t0 t) :
    ∃ r0, readPolyTerms (readSigned body) (t0.length + 1) true [] t0 = some (ps, r0) ∧ Alike r0 r := by
  obtain ⟨p, qs, rfl, u, h1, v, h2, h3⟩ := h
  exact readPolyTerms_complete hb hG h2 h3 _ true [] p t t0 h1 h0 (by rw [← h0.length]; exact (eatWhite_length_le _).trans (Nat.le_succ _))

end Frobby

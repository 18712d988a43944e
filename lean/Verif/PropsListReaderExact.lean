import Verif.PropsListReader

/-!
# C70: the lists of ideals that are accepted
-/

namespace Frobby

/-! ## Nothing is put back -/

/-- The text does not get longer. -/
def Weakens (P : Gram) : Prop := ∀ t r, P t r → (eatWhite r).length ≤ (eatWhite t).length

theorem Shrinks.weakens {P : Gram} (h : Shrinks P) : Weakens P := fun t r h1 => (h t r h1).le

theorem Weakens.seq {P Q : Gram} (h : Weakens P) (h' : Weakens Q) : Weakens (P ⊹ Q) := by
  rintro t r ⟨u, h1, h2⟩
  exact (h' _ _ h2).trans (h _ _ h1)

theorem Shrinks.seq {P Q : Gram} (h : Shrinks P) (h' : Weakens Q) : Shrinks (P ⊹ Q) := by
  rintro t r ⟨u, h1, h2⟩
  exact lt_of_le_of_lt (h' _ _ h2) (h _ _ h1)

theorem Weakens.or {P Q : Gram} (h : Weakens P) (h' : Weakens Q) : Weakens (Gram.or P Q) := by
  rintro t r (h1 | h1)
  · exact h _ _ h1
  · exact h' _ _ h1

theorem weakens_when (p : Prop) : Weakens (Gram.when p) := by
  rintro t r ⟨_, rfl⟩
  exact le_refl _

theorem weakens_skip : Weakens (lit []) := fun _ _ h => (lit_nil_alike h).length.symm.le

theorem weakens_many {α : Type} {P : α → Gram} (hP : ∀ a, Weakens (P a)) (as : List α) : Weakens (Many P as) := by
  intro t r h
  induction h with
  | nil h1 => exact weakens_skip _ _ h1
  | cons h1 _ ih => exact ih.trans (hP _ _ _ h1)

theorem weakens_exponent4ti2 (e : ℕ) : Weakens (exponent4ti2G e) := by
  rintro t r (⟨ds, h1, _⟩ | ⟨_, ds, u, h1, h2⟩)
  · exact (digitsG_shrinks _ _ _ h1).le
  · have := lit_shrinks ⟨_, _, rfl, by decide⟩ _ _ h1
    have := digitsG_shrinks _ _ _ h2
    omega

theorem sizeG_shrinks (x : ℕ) : Shrinks (sizeG x) := by
  rintro t r ⟨_, sign, ds, ⟨h1, h2, w, w', h3, h4, rfl, h5⟩, _, h6⟩
  have hs : Solidly (sign ++ ds) := by
    rcases h6 with rfl | rfl | ⟨rfl, _⟩
    · cases ds with
      | nil => simp at h1
      | cons c l => exact ⟨c, l, rfl, isSpace_false_of_isDigit (isDigit_iff.2 (h2 c (by simp)))⟩
    · exact ⟨_, _, rfl, by decide⟩
    · exact ⟨_, _, rfl, by decide⟩
  exact lit_shrinks hs _ _ ⟨w, w', h3, h4, by simp⟩

theorem sizeG_first {x : ℕ} {t r : Text} (h : sizeG x t r) : ∃ c, (eatWhite t).head? = some c ∧ (isDigit c = true ∨ c = '+' ∨ c = '-') := by
  obtain ⟨_, sign, ds, ⟨h1, h2, w, w', h3, h4, rfl, h5⟩, _, h6⟩ := h
  rcases h6 with rfl | rfl | ⟨rfl, _⟩
  · cases ds with
    | nil => simp at h1
    | cons c l =>
      have hc := isDigit_iff.2 (h2 c (by simp))
      exact ⟨c, lit_first (s := c :: l) rfl (r := r) (isSpace_false_of_isDigit hc) ⟨w, w', h3, h4, by simp⟩, Or.inl hc⟩
  · exact ⟨'+', lit_first (s := '+' :: ds) rfl (r := r) (by decide) ⟨w, w', h3, h4, by simp⟩, Or.inr (Or.inl rfl)⟩
  · exact ⟨'-', lit_first (s := '-' :: ds) rfl (r := r) (by decide) ⟨w, w', h3, h4, by simp⟩, Or.inr (Or.inr rfl)⟩

theorem shrinks_text {s : Text} {c : Char} {l : Text} (hs : s = c :: l) (hc : isSpace c = false) : Shrinks (lit s) := lit_shrinks ⟨c, l, hs, hc⟩

theorem terms_weakens {α : Type} {P : α → Gram} (hP : ∀ e, Shrinks (P e)) (terms : List α) : Weakens (SepBy P t!"," terms) :=
  (SepBy.shrinks ⟨_, _, rfl, by decide⟩ hP terms).weakens

theorem bareG_shrinks (f : IOFormat) (names : List Text) (terms : List (List ℕ)) : Shrinks (bareG f names terms) := by
  have w : ∀ {s : Text} {c : Char} {l : Text}, s = c :: l → isSpace c = false → Weakens (lit s) := fun h1 h2 => (shrinks_text h1 h2).weakens
  cases f with
  | m2 =>
    refine (shrinks_text rfl (by decide)).seq ((w rfl (by decide)).seq ((w rfl (by decide)).seq ((w rfl (by decide)).seq (Weakens.seq
      (Weakens.or ?_ (terms_weakens (productM2G_shrinks names) terms)) ((w rfl (by decide)).seq (w rfl (by decide)))))))
    rintro t r ⟨_, h | ⟨x, u, h1, v, h2, h3⟩⟩
    · exact (shrinks_text rfl (by decide) _ _ h).le
    · have := shrinks_text rfl (by decide) _ _ h1
      have := shrinks_text rfl (by decide) _ _ h2
      have := nameG_shrinks _ _ _ h3
      omega
  | cocoa4 =>
    exact (shrinks_text rfl (by decide)).seq ((w rfl (by decide)).seq ((w rfl (by decide)).seq ((w rfl (by decide)).seq (Weakens.seq
      ((weakens_when _).or (terms_weakens (productCoCoAG_shrinks names) terms)) ((w rfl (by decide)).seq (weakens_skip.or (w rfl (by decide))))))))
  | singular =>
    exact (shrinks_text rfl (by decide)).seq ((w rfl (by decide)).seq ((w rfl (by decide)).seq (Weakens.seq
      (((weakens_when _).seq (w rfl (by decide))).or (terms_weakens (productG_shrinks names) terms)) (w rfl (by decide)))))
  | monos =>
    exact (shrinks_text rfl (by decide)).seq (Weakens.seq
      ((weakens_when _).or (terms_weakens (productG_shrinks names) terms)) ((w rfl (by decide)).seq (w rfl (by decide))))
  | newmonos => exact fun _ _ h => h.elim
  | fourti2 => exact fun _ _ h => h.elim

theorem weakens_manyNames (names : List Text) : Weakens (manyNamesG names) := fun t r h =>
  weakens_many (fun a => (nameG_shrinks a).weakens) _ t r h.2

theorem newMonosG_tail (I : NamedIdeal) : Shrinks (lit t!"monomial-ideal-with-order" ⊹ lit t!"(" ⊹ lit t!"lex-order" ⊹ manyNamesG I.names ⊹
    lit t!")" ⊹ Many (productG I.names) I.terms ⊹ lit t!")") := by
  have w : ∀ {s : Text} {c : Char} {l : Text}, s = c :: l → isSpace c = false → Weakens (lit s) := fun h1 h2 => (shrinks_text h1 h2).weakens
  exact (shrinks_text rfl (by decide)).seq ((w rfl (by decide)).seq ((w rfl (by decide)).seq ((weakens_manyNames _).seq ((w rfl (by decide)).seq
    ((weakens_many (fun e => (productG_shrinks _ e).weakens) _).seq (w rfl (by decide)))))))

theorem newMonosG_shrinks (I : NamedIdeal) : Shrinks (newMonosG I) := (shrinks_text rfl (by decide)).seq (newMonosG_tail I).weakens

theorem fourti2G_shrinks (I : NamedIdeal) : Shrinks (fourti2G I) := by
  refine (sizeG_shrinks _).seq ((sizeG_shrinks _).weakens.seq (Weakens.seq (weakens_many ?_ _) ((weakens_when _).or (weakens_manyNames _))))
  rintro e t r ⟨_, h⟩
  exact weakens_many weakens_exponent4ti2 _ _ _ h

theorem ringG_weakens {f : IOFormat} (hf : f.common = true) (names : List Text) : Weakens (ringG f names) := by
  have w : ∀ {s : Text} {c : Char} {l : Text}, s = c :: l → isSpace c = false → Weakens (lit s) := fun h1 h2 => (shrinks_text h1 h2).weakens
  have n : ∀ l, Weakens (namesG t!"," l) := fun l t r h => (SepBy.shrinks ⟨_, _, rfl, by decide⟩ nameG_shrinks l _ _ h.2).le
  have q : ∀ x, Shrinks (quotedG x) := by
    rintro x t r ⟨_, h⟩
    exact lit_shrinks ⟨'"', x ++ ['"'], rfl, by decide⟩ _ _ h
  cases f with
  | m2 =>
    rintro t r ⟨R, _, brace, h⟩
    have b : ∀ {s : Text} {c : Char} {l : Text}, s = c :: l → isSpace c = false → Weakens (lit (if brace = true then s else [])) := by
      intro s c l h1 h2
      cases brace
      · exact weakens_skip
      · exact w h1 h2
    exact Weakens.seq (nameG_shrinks R).weakens ((w rfl (by decide)).seq (((w rfl (by decide)).or (w rfl (by decide))).seq ((w rfl (by decide)).seq
      ((b rfl (by decide)).seq (((weakens_when _).or (n names)).seq ((b rfl (by decide)).seq ((w rfl (by decide)).seq (w rfl (by decide))))))))) t r h
  | cocoa4 =>
    rintro t r ⟨_, h⟩
    exact ((w rfl (by decide)).seq ((w rfl (by decide)).seq ((w rfl (by decide)).seq ((w rfl (by decide)).seq ((w rfl (by decide)).seq
      ((w rfl (by decide)).seq (((weakens_when _).or ((w rfl (by decide)).seq ((w rfl (by decide)).seq ((w rfl (by decide)).seq
        ((sizeG_shrinks _).weakens.seq (w rfl (by decide))))))).seq ((w rfl (by decide)).seq ((w rfl (by decide)).seq ((w rfl (by decide)).seq
        ((w rfl (by decide)).seq ((w rfl (by decide)).seq (((weakens_when _).or (terms_weakens q names)).seq
        ((w rfl (by decide)).seq (w rfl (by decide)))))))))))))))) t r h
  | singular =>
    rintro t r ⟨l, d, hd, h⟩
    have b : Weakens (lit d) := by
      rcases hd with ⟨rfl, _⟩ | ⟨rfl, _⟩
      · exact w rfl (by decide)
      · exact w rfl (by decide)
    exact ((w rfl (by decide)).seq ((w rfl (by decide)).seq ((w rfl (by decide)).seq ((w rfl (by decide)).seq ((w rfl (by decide)).seq
      ((w rfl (by decide)).seq ((n l).seq ((w rfl (by decide)).seq ((w rfl (by decide)).seq ((w rfl (by decide)).seq ((w rfl (by decide)).seq
      ((w rfl (by decide)).seq ((w rfl (by decide)).seq ((w rfl (by decide)).seq (b.seq (w rfl (by decide))))))))))))))))) t r h
  | monos => exact (w rfl (by decide)).seq (((weakens_when _).or (n names)).seq (w rfl (by decide)))
  | newmonos => exact nomatch hf
  | fourti2 => exact nomatch hf

/-! ## The formats with rings before the ideals -/

theorem readRing_complete {f : IOFormat} (hf : f.common = true) {names : List Text} {t r t0 : Text} (h : ringG f names t r) (h0 : Alike t0 t) :
    ∃ r0, readRing f t0 = some (names, r0) ∧ Alike r0 r := by
  cases f with
  | m2 => exact readRingM2_complete h h0
  | cocoa4 => exact readRingCoCoA_complete h h0
  | singular => exact readRingSingular_complete h h0
  | monos => exact readRingMonos_complete h h0
  | newmonos => exact nomatch hf
  | fourti2 => exact nomatch hf

theorem readBare_complete {f : IOFormat} {names : List Text} (hn : names.Nodup) {terms : List (List ℕ)} {t r t0 : Text}
    (h : bareG f names terms t r) (hnx : Next (· ≠ ';') r) (h0 : Alike t0 t) :
    ∃ k r0, readBare false f names t0 = some (k, r0) ∧ k.release = ⟨names, terms⟩ ∧ Alike r0 r := by
  have e : ∀ {k : InputConsumer}, TermsInv names terms k → k.release = ⟨names, terms⟩ := by
    intro k hk
    simp [InputConsumer.release, hk.1, hk.2]
  cases f with
  | m2 => obtain ⟨k, r0, h1, h2, h3⟩ := readBareM2_complete hn h h0; exact ⟨k, r0, h1, e h2, h3⟩
  | cocoa4 => obtain ⟨k, r0, h1, h2, h3⟩ := readBareCoCoA_complete h hnx h0; exact ⟨k, r0, h1, e h2, h3⟩
  | singular => obtain ⟨k, r0, h1, h2, h3⟩ := readBareSingular_complete hn h h0; exact ⟨k, r0, h1, e h2, h3⟩
  | monos => obtain ⟨k, r0, h1, h2, h3⟩ := readBareMonos_complete hn h h0; exact ⟨k, r0, h1, e h2, h3⟩
  | newmonos => exact h.elim
  | fourti2 => exact h.elim

/-- The first character of a ring. -/
def ringStart : IOFormat → Char
  | .m2 => 'R'
  | .cocoa4 => 'U'
  | .singular => 'r'
  | .monos => 'v'
  | _ => '('

/-- The first character of an ideal without its ring. -/
def bareStart : IOFormat → Char
  | .m2 => 'I'
  | .cocoa4 => 'I'
  | .singular => 'i'
  | .monos => '['
  | _ => '('

theorem bareG_first {f : IOFormat} {names : List Text} {terms : List (List ℕ)} {t r : Text} (h : bareG f names terms t r) :
    (eatWhite t).head? = some (bareStart f) := by
  cases f with
  | m2 => obtain ⟨_, h, _⟩ := h; exact lit_first rfl (by decide) h
  | cocoa4 => obtain ⟨_, h, _⟩ := h; exact lit_first rfl (by decide) h
  | singular => obtain ⟨_, h, _⟩ := h; exact lit_first rfl (by decide) h
  | monos => obtain ⟨_, h, _⟩ := h; exact lit_first rfl (by decide) h
  | newmonos => exact h.elim
  | fourti2 => exact h.elim

theorem ringG_first {f : IOFormat} (hf : f.common = true) {names : List Text} {t r : Text} (h : ringG f names t r) :
    (eatWhite t).head? = some (ringStart f) := by
  cases f with
  | m2 =>
    obtain ⟨R, hR, _, _, h, _⟩ := h
    obtain ⟨w', _, h1, _⟩ := nameG_eat h
    rw [h1, List.head?_append, hR]
    rfl
  | cocoa4 => obtain ⟨_, _, h, _⟩ := h; exact lit_first rfl (by decide) h
  | singular => obtain ⟨_, _, _, _, h, _⟩ := h; exact lit_first rfl (by decide) h
  | monos => obtain ⟨_, h, _⟩ := h; exact lit_first rfl (by decide) h
  | newmonos => exact nomatch hf
  | fourti2 => exact nomatch hf

theorem peekRing_eq {f : IOFormat} {t : Text} {c : Char} (h : (eatWhite t).head? = some c) : peekRing f t =
    match f with
    | .m2 => decide (c = 'R') || decide (c = 'r')
    | .cocoa4 => decide (c = 'U') || decide (c = 'u')
    | .singular => decide (c = 'r') || decide (c = 'R')
    | .monos => decide (c = 'v')
    | _ => false := by
  have e : ∀ d, peekChar d t = decide (c = d) := by
    intro d
    unfold peekChar
    cases h1 : eatWhite t with
    | nil => rw [h1] at h; simp at h
    | cons a l =>
      rw [h1] at h
      simp only [List.head?_cons, Option.some.injEq] at h
      simp [nextIs, h]
  cases f <;> simp [peekRing, e]

theorem peekRing_ring {f : IOFormat} (hf : f.common = true) {t : Text} (h : (eatWhite t).head? = some (ringStart f)) : peekRing f t = true := by
  rw [peekRing_eq h]
  cases f with
  | newmonos => exact nomatch hf
  | fourti2 => exact nomatch hf
  | _ => rfl

theorem peekRing_bare {f : IOFormat} {t : Text} (h : (eatWhite t).head? = some (bareStart f)) : peekRing f t = false := by
  rw [peekRing_eq h]
  cases f <;> rfl

theorem ring_bare_of_idealG {f : IOFormat} (hf : f.common = true) {I : NamedIdeal} {t r : Text} (h : idealG f I t r) :
    ∃ u, ringG f I.names t u ∧ bareG f I.names I.terms u r := by
  cases f with
  | m2 => exact h
  | cocoa4 => exact h
  | singular => exact h
  | monos => exact h
  | newmonos => exact nomatch hf
  | fourti2 => exact nomatch hf

/-- After an ideal there is another one, or its ring, or nothing. -/
theorem MoreG.next {f : IOFormat} (hf : f.common = true) {names : List Text} {Is : List NamedIdeal} {t r : Text} (h : MoreG f names Is t r)
    (hr : eatWhite r = []) : Next (· ≠ ';') t := by
  have e : ∀ {t : Text} {c : Char}, (eatWhite t).head? = some c → c ≠ ';' → Next (· ≠ ';') t := by
    intro t c h hc
    exact next_of_first (p := fun d => d = c) ⟨c, h, rfl⟩ (by rintro d rfl; exact hc)
  cases h with
  | nil =>
    intro c hc
    rw [hr] at hc
    simp at hc
  | same h1 _ => exact e (bareG_first h1) (by cases f <;> decide)
  | ring h1 _ =>
    obtain ⟨u, h2, _⟩ := ring_bare_of_idealG hf h1
    exact e (ringG_first hf h2) (by cases f <;> decide)

theorem not_matchEOF {t : Text} {c : Char} (h : (eatWhite t).head? = some c) : matchEOF t = false := by
  unfold matchEOF
  cases h1 : eatWhite t with
  | nil => rw [h1] at h; simp at h
  | cons => rfl

theorem readIdealsLoop_complete {f : IOFormat} (hf : f.common = true) {names : List Text} {Is : List NamedIdeal} {t r : Text}
    (h : MoreG f names Is t r) (hr : eatWhite r = []) : ∀ (fuel : ℕ) (Js : List NamedIdeal) (t0 : Text), Alike t0 t → names.Nodup →
      (eatWhite t).length < fuel → ∃ r0, readIdealsLoop f fuel names Js t0 = some (Js ++ Is, lastRing names Is, r0) ∧ eatWhite r0 = [] := by
  induction h with
  | nil =>
    intro fuel Js t0 h0 hn hl
    obtain ⟨fuel, rfl⟩ : ∃ m, fuel = m + 1 := ⟨fuel - 1, by omega⟩
    have h1 : eatWhite t0 = [] := by rw [h0, hr]
    refine ⟨t0, ?_, h1⟩
    rw [readIdealsLoop, if_pos (by simp [matchEOF, h1])]
    simp [lastRing]
  | @same names terms Is t u r h1 h2 ih =>
    intro fuel Js t0 h0 hn hl
    obtain ⟨fuel, rfl⟩ : ∃ m, fuel = m + 1 := ⟨fuel - 1, by omega⟩
    have hb : (eatWhite t0).head? = some (bareStart f) := by rw [h0]; exact bareG_first h1
    obtain ⟨k, r1, a1, b1, c1⟩ := readBare_complete hn h1 (h2.next hf hr) h0
    have hl1 := bareG_shrinks f names terms _ _ h1
    obtain ⟨r2, a2, b2⟩ := ih hr fuel (Js ++ [k.release]) r1 c1 hn (by omega)
    refine ⟨r2, ?_, b2⟩
    rw [readIdealsLoop, if_neg (by simp [not_matchEOF hb]), peekRing_bare hb]
    simp only [Bool.false_eq_true, if_false, a1, a2]
    rw [lastRing_cons, b1]
    simp
  | @ring names I Is t u r h1 h2 ih =>
    intro fuel Js t0 h0 hn hl
    obtain ⟨fuel, rfl⟩ : ∃ m, fuel = m + 1 := ⟨fuel - 1, by omega⟩
    obtain ⟨v, h3, h4⟩ := ring_bare_of_idealG hf h1
    have hn' := (ringG_allowed h3).2
    have hb : (eatWhite t0).head? = some (ringStart f) := by rw [h0]; exact ringG_first hf h3
    obtain ⟨r1, a1, b1⟩ := readRing_complete hf h3 h0
    obtain ⟨k, r2, a2, b2, c2⟩ := readBare_complete hn' h4 (h2.next hf hr) b1
    have hl1 := bareG_shrinks f I.names I.terms _ _ h4
    have hl2 : (eatWhite v).length ≤ (eatWhite t).length := ringG_weakens hf _ _ _ h3
    obtain ⟨r3, a3, b3⟩ := ih hr fuel (Js ++ [k.release]) r2 c2 hn' (by omega)
    refine ⟨r3, ?_, b3⟩
    rw [readIdealsLoop, if_neg (by simp [not_matchEOF hb]), peekRing_ring hf hb]
    simp only [if_true, a1, a2, a3]
    rw [lastRing_cons, b2]
    simp

/-! ## The new format of Monos, and 4ti2 -/

theorem release_of {names : List Text} {terms : List (List ℕ)} {k : InputConsumer} (hk : TermsInv names terms k) :
    k.release = ⟨names, terms⟩ := by
  simp [InputConsumer.release, hk.1, hk.2]

theorem readNoLeftParen_complete {I : NamedIdeal} {t u : Text} (h1 : newMonosG I t u) {t1 t0 : Text} (h : Alike t1 t)
    (h0 : expectChar '(' t1 = some t0) : ∃ k r0, readIdealNoLeftParen false t0 = some (k, r0) ∧ k.release = I ∧ Alike r0 u := by
  obtain ⟨k, r0, h2, h3, h4⟩ := readNewMonos_complete h1 h
  simp only [readConsumer, h0, Option.bind_some] at h2
  exact ⟨k, r0, h2, release_of h3, h4⟩

theorem readIdealsNewMonos_complete {names : List Text} {Is : List NamedIdeal} {u r : Text} (h : MoreG .newmonos names Is u r)
    (hr : eatWhite r = []) : ∀ (I : NamedIdeal) (fuel : ℕ) (Js : List NamedIdeal) (t t1 t0 : Text), I.names = names → newMonosG I t u →
      Alike t1 t → expectChar '(' t1 = some t0 → (eatWhite u).length < fuel →
      ∃ r0, readIdealsNewMonos fuel Js t0 = some (Js ++ I :: Is, lastRing I.names Is, r0) ∧ eatWhite r0 = [] := by
  induction h with
  | nil =>
    rintro I fuel Js t t1 t0 rfl h1 h h0 hl
    obtain ⟨fuel, rfl⟩ : ∃ m, fuel = m + 1 := ⟨fuel - 1, by omega⟩
    obtain ⟨k, r0, a1, b1, c1⟩ := readNoLeftParen_complete h1 h h0
    have he : eatWhite r0 = [] := by rw [c1, hr]
    refine ⟨eatWhite r0, ?_, by rw [he]; rfl⟩
    have hm : matchChar '(' r0 = (false, eatWhite r0) := matchChar_next (fun c hc => by rw [he] at hc; simp at hc)
    simp only [readIdealsNewMonos, a1, hm]
    rw [← b1]
    rfl
  | same h1 _ _ => exact h1.elim
  | @ring names J Is u v r h1 h2 ih =>
    rintro I fuel Js t t1 t0 rfl h3 h h0 hl
    obtain ⟨fuel, rfl⟩ : ∃ m, fuel = m + 1 := ⟨fuel - 1, by omega⟩
    obtain ⟨k, r0, a1, b1, c1⟩ := readNoLeftParen_complete h3 h h0
    have hl2 := newMonosG_shrinks J _ _ h1
    obtain ⟨r1, a2, b2⟩ : ∃ r1, expectChar '(' r0 = some r1 ∧ True := by
      obtain ⟨u1, g1, g2⟩ := (h1 : newMonosG J u v)
      obtain ⟨r1, a2, b2⟩ := expectChar_complete (c := '(') (by decide) g1 c1
      exact ⟨r1, a2, trivial⟩
    obtain ⟨r2, a3, b3⟩ := ih hr J fuel (Js ++ [k.release]) u r0 r1 rfl h1 c1 a2 (by omega)
    refine ⟨r2, ?_, b3⟩
    simp only [readIdealsNewMonos, a1, matchChar_of_expect a2, a3]
    rw [b1, lastRing_cons]
    simp

theorem fourti2_more_next {names : List Text} {Is : List NamedIdeal} {t r : Text} (h : MoreG .fourti2 names Is t r) (hr : eatWhite r = []) :
    Next (fun c => isAlpha c = false) t := by
  cases h with
  | nil =>
    intro c hc
    rw [hr] at hc
    simp at hc
  | same h1 _ => exact h1.elim
  | ring h1 _ =>
    obtain ⟨_, h2, _⟩ := h1
    refine next_of_first (sizeG_first h2) ?_
    rintro c (hc | rfl | rfl)
    · have h3 : 48 ≤ c.toNat ∧ c.toNat ≤ 57 := by simpa [isDigit] using hc
      simp only [isAlpha, decide_eq_false_iff_not]
      omega
    · decide
    · decide

theorem readIdeals4ti2_complete {names : List Text} {Is : List NamedIdeal} {t r : Text} (h : MoreG .fourti2 names Is t r) (hr : eatWhite r = []) :
    ∀ (fuel : ℕ) (Js : List NamedIdeal) (t0 : Text), Alike t0 t → (eatWhite t).length < fuel →
      ∃ r0, readIdeals4ti2 fuel names Js t0 = some (Js ++ Is, lastRing names Is, r0) ∧ eatWhite r0 = [] := by
  induction h with
  | nil =>
    intro fuel Js t0 h0 hl
    obtain ⟨fuel, rfl⟩ : ∃ m, fuel = m + 1 := ⟨fuel - 1, by omega⟩
    have h1 : eatWhite t0 = [] := by rw [h0, hr]
    refine ⟨t0, ?_, h1⟩
    rw [readIdeals4ti2, if_pos (by simp [matchEOF, h1])]
    simp [lastRing]
  | same h1 _ _ => exact h1.elim
  | @ring names I Is t u r h1 h2 ih =>
    intro fuel Js t0 h0 hl
    obtain ⟨fuel, rfl⟩ : ∃ m, fuel = m + 1 := ⟨fuel - 1, by omega⟩
    obtain ⟨k, r1, a1, b1, c1⟩ := read4ti2_complete h1 (fourti2_more_next h2 hr) h0
    have hl1 := fourti2G_shrinks I _ _ h1
    have hb := release_of b1
    obtain ⟨r2, a2, b2⟩ := ih hr fuel (Js ++ [k.release]) r1 c1 (by omega)
    refine ⟨r2, ?_, b2⟩
    have hne : matchEOF t0 = false := by
      obtain ⟨_, h3, _⟩ := h1
      obtain ⟨c, h4, _⟩ := sizeG_first h3
      exact not_matchEOF (by rw [h0]; exact h4)
    rw [readIdeals4ti2, if_neg (by simp [hne])]
    simp only [a1]
    rw [b1.1, a2, lastRing_cons, hb]
    simp

theorem readRing4ti2_complete {as : List Text} {t r : Text} (h : Many nameG as t r) (hr : eatWhite r = []) : ∀ (fuel : ℕ) (acc : List Text)
    (t0 : Text), Alike t0 t → (acc ++ as).Nodup → (eatWhite t).length < fuel →
      ∃ r0, readRing4ti2 fuel acc t0 = some (acc ++ as, r0) ∧ eatWhite r0 = [] := by
  induction h with
  | nil h1 =>
    intro fuel acc t0 h0 hn hl
    obtain ⟨fuel, rfl⟩ : ∃ m, fuel = m + 1 := ⟨fuel - 1, by omega⟩
    have he : eatWhite t0 = [] := by rw [h0, lit_nil_alike h1, hr]
    refine ⟨t0, ?_, he⟩
    rw [readRing4ti2, if_neg (by simp [peekIdentifier, he, nextIs])]
    simp
  | @cons a as t u v h1 h2 ih =>
    intro fuel acc t0 h0 hn hl
    obtain ⟨fuel, rfl⟩ : ∃ m, fuel = m + 1 := ⟨fuel - 1, by omega⟩
    have hl1 := nameG_shrinks _ _ _ h1
    obtain ⟨s, r0, a1, ⟨rfl, hs⟩, c1⟩ := readName_complete hn acc a as acc t v t0 rfl ⟨rfl, hn.sublist (by simp)⟩ h1 (next_true _) h0
    obtain ⟨r1, a2, b2⟩ := ih hr fuel (acc ++ [a]) r0 c1 (by simpa using hn) (by omega)
    refine ⟨r1, ?_, b2⟩
    rw [readRing4ti2, if_pos (peekIdentifier_complete h1 h0)]
    simp only [a1, a2]
    simp

theorem peekIdentifier_size {x : ℕ} {t r t0 : Text} (h : sizeG x t r) (h0 : Alike t0 t) : peekIdentifier t0 = false := by
  refine peekIdentifier_next ((next_of_first (sizeG_first h) ?_).congr h0)
  rintro c (hc | rfl | rfl)
  · have h3 : 48 ≤ c.toNat ∧ c.toNat ≤ 57 := by simpa [isDigit] using hc
    simp only [isAlpha, decide_eq_false_iff_not]
    omega
  · decide
  · decide

theorem list_complete_common {f : IOFormat} (hf : f.common = true) {t : Text} {Is : List NamedIdeal} {names : List Text}
    (h : MeansList f t Is names) (hl : names = lastRing names Is) : ∃ r, readIdealsFrom f t = some (Is, names, r) ∧ eatWhite r = [] := by
  rw [readIdealsFrom_common hf]
  cases Is with
  | nil =>
    obtain ⟨u, h1, h2⟩ := h
    obtain ⟨r1, a1, b1⟩ := readRing_complete hf h1 (.refl t)
    have he : eatWhite r1 = [] := by rw [b1, lit_nil_alike h2]; rfl
    refine ⟨r1, ?_, he⟩
    rw [a1]
    simp [matchEOF, he]
  | cons I Is =>
    obtain ⟨u, h1, v, h2, h3⟩ := h
    have hr : eatWhite v = [] := by rw [lit_nil_alike h3]; rfl
    obtain ⟨w, h4, h5⟩ := ring_bare_of_idealG hf h1
    have hn := (ringG_allowed h4).2
    obtain ⟨r1, a1, b1⟩ := readRing_complete hf h4 (.refl t)
    obtain ⟨k, r2, a2, b2, c2⟩ := readBare_complete hn h5 (h2.next hf hr) b1
    obtain ⟨r3, a3, b3⟩ := readIdealsLoop_complete hf h2 hr (r2.length + 1) [k.release] r2 c2 hn
      (by rw [← c2.length]; exact Nat.lt_succ_of_le (eatWhite_length_le _))
    refine ⟨r3, ?_, b3⟩
    have hne : matchEOF r1 = false := not_matchEOF (by rw [b1]; exact bareG_first h5)
    rw [a1]
    simp only [Option.bind_some, hne, Bool.false_eq_true, if_false, a2, a3]
    rw [hl, lastRing_cons, b2]
    rfl

/-- C70: **and every text that means a list of ideals is read, with its meaning**. So the grammar says exactly which texts are accepted. -/
theorem C70_list_exact {f : IOFormat} {t : Text} {Is : List NamedIdeal} {names : List Text} :
    readIdeals f t = some (Is, names) ↔ MeansList f t Is names ∧ names = lastRing names Is := by
  refine ⟨C59_list_sound, ?_⟩
  rintro ⟨h, hl⟩
  have key : ∃ r, readIdealsFrom f t = some (Is, names, r) ∧ eatWhite r = [] := by
    cases f with
    | m2 => exact list_complete_common rfl h hl
    | cocoa4 => exact list_complete_common rfl h hl
    | singular => exact list_complete_common rfl h hl
    | monos => exact list_complete_common rfl h hl
    | newmonos =>
      cases Is with
      | nil =>
        obtain ⟨u, ⟨u1, h1, h2⟩, h3⟩ := h
        obtain ⟨r1, a1, b1⟩ := expectChar_complete (c := '(') (by decide) h1 (.refl t)
        obtain ⟨r2, a2, b2⟩ := readRingNewMonos_complete h2 b1
        obtain ⟨_, h4, _⟩ := h2
        have hp := peekChar_complete (c := 'l') rfl (by decide) h4 b1
        refine ⟨r2, ?_, by rw [b2, lit_nil_alike h3]; rfl⟩
        simp only [readIdealsFrom, Option.bind_eq_bind, a1, Option.bind_some, hp, Bool.true_or, if_true, a2]
      | cons I Is =>
        obtain ⟨u, h1, v, h2, h3⟩ := h
        have hr : eatWhite v = [] := by rw [lit_nil_alike h3]; rfl
        obtain ⟨u1, g1, g2⟩ := (h1 : newMonosG I t u)
        obtain ⟨r1, a1, b1⟩ := expectChar_complete (c := '(') (by decide) g1 (.refl t)
        have hl1 := newMonosG_tail I _ _ g2
        obtain ⟨r2, a2, b2⟩ := readIdealsNewMonos_complete h2 hr I r1.length [] t t r1 rfl (show newMonosG I t u from ⟨u1, g1, g2⟩) (.refl t) a1
          (lt_of_lt_of_le hl1 (by rw [← b1.length]; exact eatWhite_length_le _))
        obtain ⟨_, g3, _⟩ := g2
        have hp : ∀ d, d ≠ 'm' → peekChar d r1 = false := fun d hd => peekChar_next ((lit_next rfl (by decide) g3 hd.symm).congr b1)
        refine ⟨r2, ?_, b2⟩
        simp only [readIdealsFrom, Option.bind_eq_bind, a1, Option.bind_some, hp 'l' (by decide), hp 'L' (by decide), Bool.or_self, Bool.false_eq_true,
          if_false, a2]
        rw [hl, lastRing_cons]
        rfl
    | fourti2 =>
      cases Is with
      | nil =>
        obtain ⟨u, ⟨u1, h1, u2, h2, h4, h5⟩, h3⟩ := h
        have hr : eatWhite u = [] := by rw [lit_nil_alike h3]; rfl
        obtain ⟨r1, a1, b1⟩ := readSizeT_complete h1 (.refl t)
        obtain ⟨r2, a2, b2⟩ := expectText_complete (s := t!"ring") ⟨_, _, rfl, by decide⟩ h2 b1
        obtain ⟨r3, a3, b3⟩ := readRing4ti2_complete h5 hr (r2.length + 1) [] r2 b2 (by simpa using h4)
          (by rw [← b2.length]; exact Nat.lt_succ_of_le (eatWhite_length_le _))
        have hp : peekIdentifier r1 = true := peekIdentifier_first ⟨'r', lit_first rfl (by decide) h2, by decide⟩ b1
        refine ⟨r3, ?_, b3⟩
        simp only [readIdealsFrom, Option.bind_eq_bind, a1, Option.bind_some, hp, and_self, if_true, a2, a3, List.nil_append]
      | cons I Is =>
        obtain ⟨u, h1, v, h2, h3⟩ := h
        have hr : eatWhite v = [] := by rw [lit_nil_alike h3]; rfl
        obtain ⟨k, r1, a1, b1, c1⟩ := read4ti2_complete h1 (fourti2_more_next h2 hr) (.refl t)
        obtain ⟨r2, a2, b2⟩ := readIdeals4ti2_complete h2 hr (r1.length + 1) [k.release] r1 c1
          (by rw [← c1.length]; exact Nat.lt_succ_of_le (eatWhite_length_le _))
        obtain ⟨u1, g1, u2, g2, _⟩ := (h1 : fourti2G I t u)
        obtain ⟨s1, d1, e1⟩ := readSizeT_complete g1 (.refl t)
        obtain ⟨s2, d2, e2⟩ := readSizeT_complete g2 e1
        have hp : peekIdentifier s1 = false := peekIdentifier_size g2 e1
        simp only [readConsumer, Option.bind_eq_bind, d1, d2, Option.bind_some] at a1
        refine ⟨r2, ?_, b2⟩
        simp only [readIdealsFrom, Option.bind_eq_bind, d1, Option.bind_some, hp, Bool.false_eq_true, and_false, if_false, d2, a1]
        rw [b1.1, a2, hl, lastRing_cons, release_of b1]
        rfl
  obtain ⟨r, h1, h2⟩ := key
  simp only [readIdeals, Option.bind_eq_bind, h1, Option.bind_some, matchEOF, h2, List.isEmpty_nil, if_true]

example : readIdeals .cocoa4 t!"Use R::=Q[x[1..1]];Names:=[\"a\"];I:=Ideal(x[1]) I:=Ideal(1);Use R::=Q[x];Names:=[];I:=Ideal()" =
    some ([⟨[t!"a"], [[1]]⟩, ⟨[t!"a"], [[0]]⟩, ⟨[], []⟩], []) := by decide +kernel

/-- C70: no text means two lists of ideals. -/
theorem C70_list_unambiguous {f : IOFormat} {t : Text} {Is Js : List NamedIdeal} {names names' : List Text}
    (hI : MeansList f t Is names) (hJ : MeansList f t Js names') : Is = Js := by
  have h : ∀ {Ks : List NamedIdeal} {l : List Text}, MeansList f t Ks l → ∃ l', readIdeals f t = some (Ks, l') := by
    intro Ks l hK
    cases Ks with
    | nil => exact ⟨l, C70_list_exact.2 ⟨hK, rfl⟩⟩
    | cons K Ks =>
      refine ⟨lastRing l (K :: Ks), C70_list_exact.2 ⟨hK, ?_⟩⟩
      rw [lastRing_cons, lastRing_cons]
  obtain ⟨l, h1⟩ := h hI
  obtain ⟨l', h2⟩ := h hJ
  rw [h1] at h2
  exact congrArg Prod.fst (Option.some.inj h2)

example (Is : List NamedIdeal) (names : List Text) (h : MeansList .fourti2 t!"1 1 2 a 0 0 +1 2 3 0" Is names) :
    Is = [⟨[t!"a"], [[2]]⟩, ⟨[], []⟩, ⟨[t!"x1", t!"x2"], [[3, 0]]⟩] :=
  C70_list_unambiguous h (C59_list_sound (names := [t!"x1", t!"x2"]) (by decide +kernel)).1

end Frobby

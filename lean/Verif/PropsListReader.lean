import Verif.ListGrammarSpec
import Verif.PropsReader
import Verif.IOListLemmas

/-!
# C59: the readers of lists of ideals
-/

namespace Frobby

theorem readRing_sound {f : IOFormat} (hf : f.common = true) {t r : Text} {names : List Text} (h : readRing f t = some (names, r)) :
    ringG f names t r := by
  cases f with
  | m2 => exact readRingM2_sound h
  | cocoa4 => exact readRingCoCoA_sound h
  | singular => exact readRingSingular_sound h
  | monos => exact readRingMonos_sound h
  | newmonos => exact nomatch hf
  | fourti2 => exact nomatch hf

theorem readBare_sound {f : IOFormat} {t r : Text} {names : List Text} {k : InputConsumer} (h : readBare false f names t = some (k, r)) :
    k.release = ⟨names, k.gens.reverse⟩ ∧ bareG f names k.gens.reverse t r := by
  cases f with
  | m2 => obtain ⟨rfl, h⟩ := readBareM2_sound h; exact ⟨rfl, h⟩
  | cocoa4 => obtain ⟨rfl, h⟩ := readBareCoCoA_sound h; exact ⟨rfl, h⟩
  | singular => obtain ⟨rfl, h⟩ := readBareSingular_sound h; exact ⟨rfl, h⟩
  | monos => obtain ⟨rfl, h⟩ := readBareMonos_sound h; exact ⟨rfl, h⟩
  | newmonos => exact nomatch h
  | fourti2 => exact nomatch h

theorem idealG_of_ring_bare {f : IOFormat} (hf : f.common = true) {names : List Text} {terms : List (List ℕ)} {t u r : Text}
    (h1 : ringG f names t u) (h2 : bareG f names terms u r) : idealG f ⟨names, terms⟩ t r := by
  cases f with
  | m2 => exact ⟨u, h1, h2⟩
  | cocoa4 => exact ⟨u, h1, h2⟩
  | singular => exact ⟨u, h1, h2⟩
  | monos => exact ⟨u, h1, h2⟩
  | newmonos => exact nomatch hf
  | fourti2 => exact nomatch hf

/-- The names of the last ring. -/
def lastRing (names : List Text) (Is : List NamedIdeal) : List Text := (Is.getLast?.map NamedIdeal.names).getD names

theorem lastRing_cons (names : List Text) (I : NamedIdeal) (Is : List NamedIdeal) : lastRing names (I :: Is) = lastRing I.names Is := by
  cases Is with
  | nil => rfl
  | cons J Is => rw [lastRing, lastRing, List.getLast?_cons_cons, List.getLast?_eq_some_getLast (List.cons_ne_nil J Is)]; rfl

theorem readIdealsLoop_sound {f : IOFormat} (hf : f.common = true) : ∀ (fuel : ℕ) (names : List Text) (Is : List NamedIdeal) (t : Text)
    (Js : List NamedIdeal) (names' : List Text) (r : Text), readIdealsLoop f fuel names Is t = some (Js, names', r) →
      ∃ Ks, Js = Is ++ Ks ∧ names' = lastRing names Ks ∧ MoreG f names Ks t r := by
  intro fuel
  induction fuel with
  | zero => intro names Is t Js names' r h; exact nomatch h
  | succ fuel ih =>
    intro names Is t Js names' r h
    rw [readIdealsLoop] at h
    split at h
    · simp only [Option.some.injEq, Prod.mk.injEq] at h
      obtain ⟨rfl, rfl, rfl⟩ := h
      exact ⟨[], (List.append_nil _).symm, rfl, .nil⟩
    · split at h
      · exact nomatch h
      · rename_i names1 r1 h1
        split at h
        · exact nomatch h
        · rename_i k r2 h2
          obtain ⟨h3, h4⟩ := readBare_sound h2
          obtain ⟨Ks, rfl, rfl, h5⟩ := ih _ _ _ _ _ _ h
          refine ⟨k.release :: Ks, by simp, by rw [lastRing_cons, h3], ?_⟩
          rw [h3]
          split at h1
          · exact .ring (idealG_of_ring_bare hf (readRing_sound hf h1) h4) h5
          · simp only [Option.some.injEq, Prod.mk.injEq] at h1
            obtain ⟨rfl, rfl⟩ := h1
            exact .same h4 h5

theorem readIdealsNewMonos_sound : ∀ (fuel : ℕ) (Is : List NamedIdeal) (t t0 : Text) (Js : List NamedIdeal) (names' : List Text) (r : Text),
    readIdealsNewMonos fuel Is t = some (Js, names', r) → expectChar '(' t0 = some t ∨ (matchChar '(' t0) = (true, t) →
      ∃ I Ks u, Js = Is ++ I :: Ks ∧ names' = lastRing I.names Ks ∧ newMonosG I t0 u ∧ (MoreG .newmonos I.names Ks ⊹ lit []) u r := by
  intro fuel
  induction fuel with
  | zero => intro Is t t0 Js names' r h; exact nomatch h
  | succ fuel ih =>
    intro Is t t0 Js names' r h h0
    have h0' : expectChar '(' t0 = some t := by
      rcases h0 with h0 | h0
      · exact h0
      · unfold matchChar at h0
        unfold expectChar
        split at h0
        · simp at h0
        · rename_i d l he
          split at h0
          · rename_i hd
            rw [if_pos hd]
            simp_all
          · simp at h0
    rw [readIdealsNewMonos] at h
    split at h
    · exact nomatch h
    · rename_i k r1 h1
      have h2 : newMonosG k.release t0 r1 := readNewMonos_sound (by
        simp only [readConsumer, h0', Option.bind_some]
        exact h1)
      split at h
      · rename_i r2 h3
        obtain ⟨I, Ks, u, rfl, rfl, h4, v, h5, h6⟩ := ih _ _ r1 _ _ _ h (.inr h3)
        exact ⟨k.release, I :: Ks, r1, by simp, by rw [lastRing_cons], h2, v, .ring h4 h5, h6⟩
      · rename_i r2 h3
        simp only [Option.some.injEq, Prod.mk.injEq] at h
        obtain ⟨rfl, rfl, rfl⟩ := h
        exact ⟨k.release, [], r1, rfl, rfl, h2, r1, .nil, matchChar_skip h3⟩

theorem readIdeals4ti2_sound : ∀ (fuel : ℕ) (names : List Text) (Is : List NamedIdeal) (t : Text)
    (Js : List NamedIdeal) (names' : List Text) (r : Text), readIdeals4ti2 fuel names Is t = some (Js, names', r) →
      ∃ Ks, Js = Is ++ Ks ∧ names' = lastRing names Ks ∧ MoreG .fourti2 names Ks t r := by
  intro fuel
  induction fuel with
  | zero => intro names Is t Js names' r h; exact nomatch h
  | succ fuel ih =>
    intro names Is t Js names' r h
    rw [readIdeals4ti2] at h
    split at h
    · simp only [Option.some.injEq, Prod.mk.injEq] at h
      obtain ⟨rfl, rfl, rfl⟩ := h
      exact ⟨[], (List.append_nil _).symm, rfl, .nil⟩
    · split at h
      · exact nomatch h
      · rename_i k r1 h1
        obtain ⟨Ks, rfl, rfl, h2⟩ := ih _ _ _ _ _ _ h
        exact ⟨k.release :: Ks, by simp, by rw [lastRing_cons]; rfl, .ring (read4ti2_sound h1) h2⟩

theorem readRing4ti2_sound : ∀ (fuel : ℕ) (acc names : List Text) (t r : Text), acc.Nodup → readRing4ti2 fuel acc t = some (names, r) →
    ∃ as, names = acc ++ as ∧ names.Nodup ∧ Many nameG as t r := by
  intro fuel
  induction fuel with
  | zero => intro acc names t r _ h; exact nomatch h
  | succ fuel ih =>
    intro acc names t r ha h
    rw [readRing4ti2] at h
    split at h
    · split at h
      · exact nomatch h
      · rename_i names1 r1 h1
        obtain ⟨a, h2, rfl, h3⟩ := readName_sound acc acc t names1 r1 ⟨rfl, ha⟩ h1
        obtain ⟨as, h4, h5, h6⟩ := ih _ _ _ _ h3 h
        exact ⟨a :: as, by simp [h4], h5, .cons h2 h6⟩
    · simp only [Option.some.injEq, Prod.mk.injEq] at h
      obtain ⟨rfl, rfl⟩ := h
      exact ⟨[], by simp, ha, .nil (lit_refl t)⟩

theorem blank_of_matchEOF {r : Text} (h : matchEOF r = true) : lit [] r [] := by
  have h1 : eatWhite r = [] := by simpa [matchEOF] using h
  have := skip r
  rwa [h1] at this

theorem MeansList.mk {f : IOFormat} {I : NamedIdeal} {Is : List NamedIdeal} {t u v names} (h1 : idealG f I t u) (h2 : MoreG f I.names Is u v)
    (h3 : lit [] v []) : MeansList f t (I :: Is) names := ⟨u, h1, v, h2, h3⟩

theorem list_of_common {f : IOFormat} (hf : f.common = true) {t r : Text} {Is : List NamedIdeal} {names : List Text}
    (h : readIdealsFrom f t = some (Is, names, r)) (he : matchEOF r = true) : MeansList f t Is names ∧ names = lastRing names Is := by
  rw [readIdealsFrom_common hf] at h
  obtain ⟨⟨names1, r1⟩, h1, h⟩ := Option.bind_eq_some_iff.1 h
  have h1 := readRing_sound hf h1
  simp only at h
  split at h
  · simp only [Option.some.injEq, Prod.mk.injEq] at h
    obtain ⟨rfl, rfl, rfl⟩ := h
    exact ⟨⟨_, h1, blank_of_matchEOF he⟩, rfl⟩
  · obtain ⟨⟨k, r2⟩, h2, h⟩ := Option.bind_eq_some_iff.1 h
    obtain ⟨h3, h4⟩ := readBare_sound h2
    obtain ⟨Ks, rfl, h5, h6⟩ := readIdealsLoop_sound hf _ _ _ _ _ _ _ h
    have h7 := idealG_of_ring_bare hf h1 h4
    simp only [h3, List.singleton_append]
    exact ⟨.mk h7 h6 (blank_of_matchEOF he), by rw [lastRing_cons]; exact h5⟩

/-- C59: **whatever the text, if it is read as a list of ideals then the text means that list**: each ideal is in the ring that is written before it, none of
them is lost, and no text is ignored. The ring that is returned is that of the last ideal, or the one that is written if there is no ideal. -/
theorem C59_list_sound {f : IOFormat} {t : Text} {Is : List NamedIdeal} {names : List Text} (h : readIdeals f t = some (Is, names)) :
    MeansList f t Is names ∧ names = lastRing names Is := by
  unfold readIdeals at h
  obtain ⟨⟨Is', names', r⟩, h1, h2⟩ := Option.bind_eq_some_iff.1 h
  simp only at h2
  split at h2
  · rename_i he
    simp only [Option.some.injEq, Prod.mk.injEq] at h2
    obtain ⟨rfl, rfl⟩ := h2
    have hb := blank_of_matchEOF he
    cases f with
    | m2 => exact list_of_common rfl h1 he
    | cocoa4 => exact list_of_common rfl h1 he
    | singular => exact list_of_common rfl h1 he
    | monos => exact list_of_common rfl h1 he
    | newmonos =>
      simp only [readIdealsFrom, Option.bind_eq_bind] at h1
      obtain ⟨r1, h2, h1⟩ := Option.bind_eq_some_iff.1 h1
      split at h1
      · obtain ⟨⟨names1, r2⟩, h3, h1⟩ := Option.bind_eq_some_iff.1 h1
        simp only [Option.some.injEq, Prod.mk.injEq] at h1
        obtain ⟨rfl, rfl, rfl⟩ := h1
        exact ⟨⟨_, ⟨r1, expectChar_lit h2, readRingNewMonos_sound h3⟩, hb⟩, rfl⟩
      · obtain ⟨I, Ks, u, rfl, h5, h6, v, h7, h8⟩ := readIdealsNewMonos_sound _ _ _ t _ _ _ h1 (.inl h2)
        exact ⟨.mk h6 h7 (lit_trans h8 hb), by rw [List.nil_append, lastRing_cons]; exact h5⟩
    | fourti2 =>
      simp only [readIdealsFrom, Option.bind_eq_bind] at h1
      obtain ⟨⟨g, r1⟩, h2, h1⟩ := Option.bind_eq_some_iff.1 h1
      simp only at h1
      split at h1
      · rename_i hg
        obtain ⟨r2, h3, h1⟩ := Option.bind_eq_some_iff.1 h1
        obtain ⟨⟨names1, r3⟩, h4, h1⟩ := Option.bind_eq_some_iff.1 h1
        simp only [Option.some.injEq, Prod.mk.injEq] at h1
        obtain ⟨rfl, rfl, rfl⟩ := h1
        obtain ⟨as, h5, h6, h7⟩ := readRing4ti2_sound _ _ _ _ _ List.nodup_nil h4
        rw [List.nil_append] at h5
        subst h5
        obtain ⟨rfl, -⟩ := hg
        exact ⟨⟨_, ⟨r1, readSizeT_sizeG h2, r2, expectText_lit h3, h6, h7⟩, hb⟩, rfl⟩
      · obtain ⟨⟨m, r2⟩, h3, h1⟩ := Option.bind_eq_some_iff.1 h1
        obtain ⟨⟨k, r3⟩, h4, h1⟩ := Option.bind_eq_some_iff.1 h1
        have h5 : idealG .fourti2 k.release t r3 := read4ti2_sound (by
          simp only [readConsumer, h2, h3, Option.bind_eq_bind, Option.bind_some]
          exact h4)
        obtain ⟨Ks, rfl, h6, h7⟩ := readIdeals4ti2_sound _ _ _ _ _ _ _ h1
        exact ⟨.mk h5 h7 hb, by rw [List.singleton_append, lastRing_cons]; exact h6⟩
  · exact nomatch h2

/-! ## the ideals that can be read -/

theorem bareG_length {f : IOFormat} {names : List Text} {terms : List (List ℕ)} {t r : Text} (h : bareG f names terms t r) :
    ∀ e ∈ terms, e.length = names.length := by
  cases f with
  | m2 =>
    obtain ⟨_, _, _, _, _, _, _, _, _, h, _⟩ := h
    rcases h with ⟨h, _⟩ | h
    · simp [h]
    · exact SepBy.forall productM2G_length h
  | cocoa4 =>
    obtain ⟨_, _, _, _, _, _, _, _, _, h, _⟩ := h
    rcases h with ⟨h, _⟩ | h
    · simp [h]
    · exact SepBy.forall productCoCoAG_length h
  | singular =>
    obtain ⟨_, _, _, _, _, _, _, h, _⟩ := h
    rcases h with ⟨_, ⟨h, _⟩, _⟩ | h
    · simp [h]
    · exact SepBy.forall productG_length h
  | monos =>
    obtain ⟨_, _, _, h, _⟩ := h
    rcases h with ⟨h, _⟩ | h
    · simp [h]
    · exact SepBy.forall productG_length h
  | newmonos => exact h.elim
  | fourti2 => exact h.elim

/-- An ideal of a polynomial ring whose names are allowed. -/
def GoodIdeal (I : NamedIdeal) : Prop := (∀ x ∈ I.names, AllowedName x) ∧ I.names.Nodup ∧ ∀ e ∈ I.terms, e.length = I.names.length

theorem MoreG.good {f : IOFormat} {names : List Text} {Is : List NamedIdeal} {t r : Text} (h : MoreG f names Is t r)
    (hn : (∀ x ∈ names, AllowedName x) ∧ names.Nodup) : ∀ I ∈ Is, GoodIdeal I := by
  induction h with
  | nil => simp
  | same h1 _ ih =>
    intro I hI
    rcases List.mem_cons.1 hI with rfl | hI
    · exact ⟨hn.1, hn.2, bareG_length h1⟩
    · exact ih hn I hI
  | ring h1 _ ih =>
    have h2 := idealG_well_formed h1
    intro I hI
    rcases List.mem_cons.1 hI with rfl | hI
    · exact h2
    · exact ih ⟨h2.1, h2.2.1⟩ I hI

theorem ringG_allowed {f : IOFormat} {names : List Text} {t r : Text} (h : ringG f names t r) : (∀ x ∈ names, AllowedName x) ∧ names.Nodup := by
  cases f with
  | m2 =>
    obtain ⟨R, _, brace, _, _, _, _, _, _, _, _, _, _, _, h, _⟩ := h
    rcases h with ⟨h, _⟩ | h
    · rw [h]; exact nil_allowed
    · exact namesG_allowed h
  | cocoa4 =>
    obtain ⟨hn, _, _, _, _, _, _, _, _, _, _, _, _, _, _, _, _, _, _, _, _, _, _, _, _, _, h, _⟩ := h
    refine ⟨?_, hn⟩
    rcases h with ⟨h, _⟩ | h
    · rw [h]; exact nil_allowed.1
    · exact SepBy.forall (fun x t r h => h.1) h
  | singular =>
    obtain ⟨w, d, hd, _, _, _, _, _, _, _, _, _, _, _, _, _, h, _⟩ := h
    rcases hd with ⟨_, hd⟩ | ⟨_, _, hd⟩
    · rw [hd]
      exact namesG_allowed h
    · rw [hd]; exact nil_allowed
  | monos =>
    obtain ⟨_, _, _, h, _⟩ := h
    rcases h with ⟨h, _⟩ | h
    · rw [h]; exact nil_allowed
    · exact namesG_allowed h
  | newmonos =>
    obtain ⟨_, _, _, _, _, h, _⟩ := h
    exact manyNamesG_allowed h
  | fourti2 =>
    obtain ⟨_, _, _, _, h⟩ := h
    exact manyNamesG_allowed h

/-- C59: what is read is a list of ideals of polynomial rings, and the names of the ring that is returned are allowed and different from each other. -/
theorem C59_list_good {f : IOFormat} {t : Text} {Is : List NamedIdeal} {names : List Text} (h : readIdeals f t = some (Is, names)) :
    (∀ I ∈ Is, GoodIdeal I) ∧ (∀ x ∈ names, AllowedName x) ∧ names.Nodup := by
  obtain ⟨h1, h2⟩ := C59_list_sound h
  cases Is with
  | nil =>
    obtain ⟨u, h1, _⟩ := h1
    exact ⟨by simp, ringG_allowed h1⟩
  | cons I Is =>
    obtain ⟨u, h3, v, h4, _⟩ := h1
    have h5 := idealG_well_formed h3
    have h6 : ∀ J ∈ I :: Is, GoodIdeal J := by
      intro J hJ
      rcases List.mem_cons.1 hJ with rfl | hJ
      · exact h5
      · exact h4.good ⟨h5.1, h5.2.1⟩ J hJ
    refine ⟨h6, ?_⟩
    rw [h2, lastRing, List.getLast?_eq_some_getLast (List.cons_ne_nil I Is)]
    have := h6 _ (List.getLast_mem (List.cons_ne_nil I Is))
    exact ⟨this.1, this.2.1⟩

/-- C59: what is read in one format can be written in any format, and is then read as the same list. -/
theorem C59_list_convert {f : IOFormat} {t : Text} {Is : List NamedIdeal} {names : List Text} (h : readIdeals f t = some (Is, names))
    (h1 : names.length < 2 ^ 64) (h2 : ∀ I ∈ Is, I.names.length < 2 ^ 64 ∧ I.terms.length < 2 ^ 64) (g : IOFormat) :
    readIdeals g (writeIdeals g names Is) = some (Is, names) := by
  obtain ⟨h3, h4, h5⟩ := C59_list_good h
  rw [C32_round_trip_list g ⟨h4, h5, h1⟩ fun I hI => ⟨⟨(h3 I hI).1, (h3 I hI).2.1, (h2 I hI).1⟩, (h3 I hI).2.2, (h2 I hI).2⟩]
  have := (C59_list_sound h).2
  rw [lastRing] at this
  rw [← this]

/-! ## lists of one ideal -/

theorem eatWhite_of_expectChar {c : Char} {t r : Text} (h : expectChar c t = some r) : eatWhite t = c :: r := by
  unfold expectChar at h
  split at h
  · exact nomatch h
  · rename_i d l he
    split at h
    · rename_i hd
      rw [he, hd, Option.some.inj h]
    · exact nomatch h

theorem eatWhite_of_expectText {s t r : Text} (h : expectText s t = some r) : eatWhite t = s ++ r := stripText_eq h

theorem bare_not_end {f : IOFormat} {names : List Text} {t r : Text} {k : InputConsumer} (h : readBare false f names t = some (k, r)) :
    matchEOF t = false := by
  have : ∃ c l, eatWhite t = c :: l := by
    cases f with
    | m2 =>
      simp only [readBare, readBareM2, Option.bind_eq_bind] at h
      obtain ⟨r1, h1, -⟩ := Option.bind_eq_some_iff.1 h
      exact ⟨_, _, eatWhite_of_expectChar h1⟩
    | cocoa4 =>
      simp only [readBare, readBareCoCoA, Option.bind_eq_bind] at h
      obtain ⟨r1, h1, -⟩ := Option.bind_eq_some_iff.1 h
      exact ⟨_, _, eatWhite_of_expectChar h1⟩
    | singular =>
      simp only [readBare, readBareSingular, Option.bind_eq_bind] at h
      obtain ⟨r1, h1, -⟩ := Option.bind_eq_some_iff.1 h
      exact ⟨_, _, eatWhite_of_expectText h1⟩
    | monos =>
      simp only [readBare, readBareMonos, Option.bind_eq_bind] at h
      obtain ⟨r1, h1, -⟩ := Option.bind_eq_some_iff.1 h
      exact ⟨_, _, eatWhite_of_expectChar h1⟩
    | newmonos => exact nomatch h
    | fourti2 => exact nomatch h
  obtain ⟨c, l, h1⟩ := this
  simp [matchEOF, h1]

theorem consumer_names {f : IOFormat} {names : List Text} {t r : Text} {k : InputConsumer} (h : readBare false f names t = some (k, r)) :
    k.release.names = names := by rw [(readBare_sound h).1]

theorem single_common {f : IOFormat} (hf : f.common = true) {t r : Text} {k : InputConsumer}
    (h : ((readRing f t).bind fun p => readBare false f p.1 p.2) = some (k, r)) (he : matchEOF r = true) :
    readIdealsFrom f t = some ([k.release], k.release.names, r) := by
  obtain ⟨⟨names, u⟩, h1, h2⟩ := Option.bind_eq_some_iff.1 h
  rw [readIdealsFrom_common hf, h1, Option.bind_some, bare_not_end h2, if_neg (by decide), h2, Option.bind_some, readIdealsLoop, he, if_pos rfl,
    consumer_names h2]

theorem readSizeT_of_peekIdentifier {t : Text} (h : peekIdentifier t = true) : readSizeT t = none := by
  unfold peekIdentifier at h
  cases h1 : eatWhite t with
  | nil => rw [h1] at h; exact nomatch h
  | cons c l =>
    rw [h1] at h
    simp only [nextIs] at h
    have h2 : isDigit c = false := by
      by_contra h3
      rw [Bool.not_eq_false] at h3
      rw [isAlpha_of_isDigit h3] at h
      exact nomatch h
    have h4 : c ≠ '-' := by rintro rfl; exact nomatch h
    have h5 : c ≠ '+' := by rintro rfl; exact nomatch h
    simp [readSizeT, readInteger, h1, h4, h5, readDigits, h2]

/-- C59: a text that is read as an ideal is read as the list of that ideal. -/
theorem C59_list_single {f : IOFormat} {t : Text} {I : NamedIdeal} (h : readIdeal f t = some I) : readIdeals f t = some ([I], I.names) := by
  unfold readIdeal at h
  obtain ⟨⟨k, r⟩, h1, h⟩ := Option.bind_eq_some_iff.1 h
  simp only at h
  split at h
  · rename_i he
    simp only [Option.some.injEq] at h
    subst h
    suffices hs : ∃ r', readIdealsFrom f t = some ([k.release], k.release.names, r') ∧ matchEOF r' = true by
      obtain ⟨r', hs, he'⟩ := hs
      simp [readIdeals, hs, he']
    cases f with
    | m2 => exact ⟨r, single_common rfl h1 he, he⟩
    | cocoa4 => exact ⟨r, single_common rfl h1 he, he⟩
    | singular => exact ⟨r, single_common rfl h1 he, he⟩
    | monos => exact ⟨r, single_common rfl h1 he, he⟩
    | newmonos =>
      simp only [readConsumer] at h1
      obtain ⟨r1, h2, h1⟩ := Option.bind_eq_some_iff.1 h1
      have h3 := h1
      simp only [readIdealNoLeftParen, Option.bind_eq_bind] at h3
      obtain ⟨r2, h4, -⟩ := Option.bind_eq_some_iff.1 h3
      have h5 := eatWhite_of_expectText h4
      have h6 : r1 ≠ [] := by
        rintro rfl
        exact nomatch h4
      have h7 : eatWhite r = [] := by simpa [matchEOF] using he
      obtain ⟨n, hn⟩ := Nat.exists_eq_succ_of_ne_zero (mt List.length_eq_zero_iff.1 h6)
      have h8 : readIdealsNewMonos r1.length [] r1 = some ([k.release], k.names, []) := by
        rw [hn, readIdealsNewMonos, h1]
        simp only [matchChar, h7, List.nil_append]
      refine ⟨[], ?_, rfl⟩
      simp only [readIdealsFrom, Option.bind_eq_bind, h2, Option.bind_some, peekChar, h5, List.cons_append, nextIs]
      rw [if_neg (by decide)]
      exact h8
    | fourti2 =>
      simp only [readConsumer, Option.bind_eq_bind] at h1
      obtain ⟨⟨g, r1⟩, h2, h1⟩ := Option.bind_eq_some_iff.1 h1
      obtain ⟨⟨m, r2⟩, h3, h4⟩ := Option.bind_eq_some_iff.1 h1
      have h5 : peekIdentifier r1 = false := by
        by_contra hp
        rw [Bool.not_eq_false] at hp
        rw [readSizeT_of_peekIdentifier hp] at h3
        exact nomatch h3
      refine ⟨r, ?_, he⟩
      simp only [readIdealsFrom, Option.bind_eq_bind, h2, Option.bind_some, h5, Bool.false_eq_true, and_false, if_false, h3, h4]
      rw [readIdeals4ti2, he, if_pos rfl]
      rfl
  · exact nomatch h

/-! ## examples -/

example : MeansList .monos t!"vars a;[a];[1];vars b;[b^2]; " [⟨[t!"a"], [[1]]⟩, ⟨[t!"a"], [[0]]⟩, ⟨[t!"b"], [[2]]⟩] [t!"b"] :=
  (C59_list_sound (by decide +kernel)).1

example : readIdeals .fourti2 t!"1 2\n1 0\n2 1\n3 4\ny\n" =
    some ([⟨[t!"x1", t!"x2"], [[1, 0]]⟩, ⟨[t!"y"], [[3], [4]]⟩], [t!"y"]) := by decide +kernel

example : readIdeals .singular (writeIdeals .singular [t!"y"] [⟨[t!"x1", t!"x2"], [[1, 0]]⟩, ⟨[t!"y"], [[3], [4]]⟩]) =
    some ([⟨[t!"x1", t!"x2"], [[1, 0]]⟩, ⟨[t!"y"], [[3], [4]]⟩], [t!"y"]) :=
  C59_list_convert (f := .fourti2) (t := t!"1 2\n1 0\n2 1\n3 4\ny\n") (by decide +kernel) (by decide) (by decide) _

example : readIdeals .newmonos t!"(lex-order a b)" = some ([], [t!"a", t!"b"]) ∧ readIdeals .fourti2 t!"42 ring a" = some ([], [t!"a"]) ∧
    readIdeals .fourti2 t!"41 ring a" = none ∧ readIdeals .m2 t!"R = QQ[a];" = some ([], [t!"a"]) ∧ readIdeals .m2 t!"" = none := by decide +kernel

example : readIdeals .monos t!"vars a;[a^2,a];" = some ([⟨[t!"a"], [[2], [1]]⟩], [t!"a"]) := C59_list_single (by decide +kernel)

end Frobby

import Verif.ReaderSoundLemmas

/-!
# Lemmas: the formats are read with their meaning
-/

namespace Frobby

theorem matchChar_yes {c : Char} {t : Text} (h : (matchChar c t).1 = true) : lit [c] t (matchChar c t).2 :=
  matchChar_true (by rw [← h])

theorem matchChar_no {c : Char} {t : Text} (h : ¬ (matchChar c t).1 = true) : lit [] t (matchChar c t).2 :=
  matchChar_skip (c := c) (by
    cases h1 : matchChar c t with
    | mk b r =>
      cases b with
      | true => simp [h1] at h
      | false => rfl)

theorem readRingM2_sound {t r : Text} {names : List Text} (h : readRingM2 t = some (names, r)) : ringM2G names t r := by
  unfold readRingM2 at h
  obtain ⟨⟨R, r0⟩, h0, h⟩ := Option.bind_eq_some_iff.1 h
  simp only [Option.bind_eq_bind] at h
  by_cases hR : R.head? ≠ some 'R'
  · rw [if_pos hR] at h
    simp at h
  · rw [if_neg hR] at h
    simp only [ne_eq, not_not] at hR
    simp only [Option.bind_eq_some_iff] at h
    obtain ⟨r1, h1, h⟩ := h
    have key : ∃ u, (Gram.or (lit t!"ZZ") (lit t!"QQ")) r1 u ∧ ∃ r3, expectChar '[' u = some r3 ∧ ∃ v names', 
        (if peekIdentifier (matchChar '{' r3).2 = true then
          readSep readName ',' (List.length (matchChar '{' r3).2) [] (matchChar '{' r3).2
          else some ([], (matchChar '{' r3).2)) = some (names', v) ∧
        ∃ r4, (if (matchChar '{' r3).1 = true then expectChar '}' v else some v) = some r4 ∧
        ∃ r5, expectChar ']' r4 = some r5 ∧ expectChar ';' r5 = some r ∧ names' = names := by
      split at h
      all_goals
        simp only [Option.bind_eq_some_iff] at h
        obtain ⟨u, h2, r3, h3, h⟩ := h
        refine ⟨u, ?_, r3, h3, ?_⟩
        · first | exact Or.inl (expectText_lit h2) | exact Or.inr (expectText_lit h2)
        · split at h
          · rename_i hp
            simp only [Option.bind_eq_some_iff] at h
            obtain ⟨⟨names', v⟩, h4, h⟩ := h
            refine ⟨v, names', by rw [if_pos hp]; exact h4, ?_⟩
            split at h
            · rename_i hb
              simp only [Option.bind_eq_some_iff, Option.some.injEq, Prod.mk.injEq] at h
              obtain ⟨r4, h5, r5, h6, r6, h7, h8, rfl⟩ := h
              exact ⟨r4, by rw [if_pos hb]; exact h5, r5, h6, h7, h8⟩
            · rename_i hb
              simp only [Option.bind_eq_some_iff, Option.some.injEq, Prod.mk.injEq, exists_eq_left'] at h
              obtain ⟨r5, h6, r6, h7, h8, rfl⟩ := h
              exact ⟨v, by rw [if_neg hb], r5, h6, h7, h8⟩
          · rename_i hp
            simp only [Option.bind_some] at h
            refine ⟨_, [], by rw [if_neg hp], ?_⟩
            split at h
            · rename_i hb
              simp only [Option.bind_eq_some_iff, Option.some.injEq, Prod.mk.injEq] at h
              obtain ⟨r4, h5, r5, h6, r6, h7, h8, rfl⟩ := h
              exact ⟨r4, by rw [if_pos hb]; exact h5, r5, h6, h7, h8⟩
            · rename_i hb
              simp only [Option.bind_eq_some_iff, Option.some.injEq, Prod.mk.injEq] at h
              obtain ⟨r5, h6, r6, h7, h8, rfl⟩ := h
              exact ⟨_, by rw [if_neg hb], r5, h6, h7, h8⟩
    obtain ⟨u, h2, r3, h3, v, names', h4, r4, h5, r5, h6, h7, rfl⟩ := key
    have h8 : (Gram.or (Gram.when (names' = [])) (namesG t!"," names')) (matchChar '{' r3).2 v := by
      split at h4
      · exact Or.inr (readNames_sound h4)
      · simp only [Option.some.injEq, Prod.mk.injEq] at h4
        exact Or.inl ⟨h4.1.symm, h4.2⟩
    by_cases hb : (matchChar '{' r3).1 = true
    · rw [if_pos hb] at h5
      exact ⟨R, hR, true, r0, readIdentifier_nameG h0, r1, expectChar_lit h1, u, h2, r3, expectChar_lit h3, _, matchChar_yes hb, v, h8, r4,
        expectChar_lit h5, r5, expectChar_lit h6, expectChar_lit h7⟩
    · rw [if_neg hb, Option.some.injEq] at h5
      subst h5
      exact ⟨R, hR, false, r0, readIdentifier_nameG h0, r1, expectChar_lit h1, u, h2, r3, expectChar_lit h3, _, matchChar_no hb, v, h8, v,
        lit_refl v, r5, expectChar_lit h6, expectChar_lit h7⟩

/-! ## CoCoA 4 -/

theorem expectChar_eq {c : Char} {t r : Text} (h : expectChar c t = some r) : eatWhite t = c :: r := by
  unfold expectChar at h
  split at h
  · simp at h
  · rename_i d l h1
    split at h
    · rename_i hd
      simp only [Option.some.injEq] at h
      rw [h1, hd, h]
    · simp at h

theorem eatWhite_of_peekWhite {t : Text} (h : ¬ peekWhite t = true) : eatWhite t = t := by
  cases t with
  | nil => rfl
  | cons c l =>
    simp only [peekWhite, nextIs] at h
    rw [eatWhite_cons, if_neg h]

theorem readNameCoCoA_sound {m : ℕ} {acc names : List Text} {t r : Text} {s' : ℕ × List Text} (hk : NamesInv acc names)
    (h : readNameCoCoA (m, names) t = some (s', r)) : ∃ a u, quotedG a t u ∧ NamesInv (acc ++ [a]) s'.2 ∧ s'.1 = m - 1 ∧
      if m ≤ 1 then u = r else lit t!"," u r := by
  unfold readNameCoCoA at h
  cases h1 : expectChar '"' t with
  | none => simp [h1] at h
  | some r1 =>
    simp only [h1] at h
    split at h
    · simp at h
    · rename_i hw
      cases h2 : readName names r1 with
      | none => simp [h2] at h
      | some p =>
        obtain ⟨names', r2⟩ := p
        simp only [h2] at h
        split at h
        · simp at h
        · rename_i hw2
          cases h3 : expectChar '"' r2 with
          | none => simp [h3] at h
          | some r3 =>
            simp only [h3] at h
            obtain ⟨a, h4, h5⟩ := readName_sound _ _ _ _ _ hk h2
            have ha : r1 = a ++ r2 := by
              unfold readName at h2
              cases h6 : readIdentifier r1 with
              | none => simp [h6] at h2
              | some p =>
                obtain ⟨x, r'⟩ := p
                simp only [h6] at h2
                split at h2
                · simp at h2
                · simp only [Option.some.injEq, Prod.mk.injEq] at h2
                  obtain ⟨rfl, rfl⟩ := h2
                  have := h5.1
                  rw [hk.1] at this
                  have hx : x = a := by simpa using this
                  subst hx
                  unfold readIdentifier at h6
                  rw [eatWhite_of_peekWhite hw] at h6
                  split at h6
                  · simp only [Option.some.injEq, Prod.mk.injEq] at h6
                    obtain ⟨rfl, rfl⟩ := h6
                    simp
                  · simp at h6
            have hr2 : r2 = '"' :: r3 := by rw [← expectChar_eq h3, eatWhite_of_peekWhite hw2]
            have hq : quotedG a t r3 := by
              refine ⟨h4.1, ?_⟩
              obtain ⟨w, hb, ht⟩ := eatWhite_blank t
              refine ⟨w, [], hb, .nil, ?_⟩
              rw [ht, expectChar_eq h1, ha, hr2]
              simp
            split at h
            · rename_i hm
              simp only [Option.some.injEq, Prod.mk.injEq] at h
              obtain ⟨rfl, rfl⟩ := h
              exact ⟨a, r3, hq, h5, rfl, by rw [if_pos hm]⟩
            · rename_i hm
              simp only [Option.map_eq_some_iff, Prod.mk.injEq] at h
              obtain ⟨r', h7, rfl, rfl⟩ := h
              exact ⟨a, r3, hq, h5, rfl, by rw [if_neg hm]; exact expectChar_lit h7⟩

theorem readNamesCoCoA_sound : ∀ (m : ℕ) (acc names : List Text) (t r : Text) (s' : ℕ × List Text), NamesInv acc names →
    readTimes readNameCoCoA m (m, names) t = some (s', r) →
      ∃ as, as.length = m ∧ NamesInv (acc ++ as) s'.2 ∧ (Gram.or (Gram.when (as = [])) (SepBy quotedG t!"," as)) t r := by
  intro m
  induction m with
  | zero =>
    intro acc names t r s' h1 h2
    simp only [readTimes, Option.some.injEq, Prod.mk.injEq] at h2
    obtain ⟨rfl, rfl⟩ := h2
    exact ⟨[], rfl, by simpa using h1, Or.inl ⟨rfl, rfl⟩⟩
  | succ m ih =>
    intro acc names t r s' h1 h2
    simp only [readTimes] at h2
    cases h3 : readNameCoCoA (m + 1, names) t with
    | none => simp [h3] at h2
    | some p =>
      obtain ⟨⟨m', names'⟩, r1⟩ := p
      simp only [h3] at h2
      obtain ⟨a, u, h4, h5, h6, h7⟩ := readNameCoCoA_sound h1 h3
      simp only [Nat.add_sub_cancel] at h6
      subst h6
      obtain ⟨as, h8, h9, h10⟩ := ih _ _ _ _ _ h5 h2
      refine ⟨a :: as, by simp [h8], by simpa using h9, Or.inr ?_⟩
      rcases h10 with ⟨h11, rfl⟩ | h11
      · rw [h11, List.length_nil] at h8
        rw [if_pos (by omega)] at h7
        subst h7 h11
        exact .one h4
      · rw [if_neg] at h7
        · exact .cons h4 h7 h11
        · intro hm
          have : as = [] := List.length_eq_zero_iff.1 (by omega)
          subst this
          cases h11

theorem readRingCoCoA_sound {t r : Text} {names : List Text} (h : readRingCoCoA t = some (names, r)) : ringCoCoAG names t r := by
  unfold readRingCoCoA at h
  obtain ⟨r1, h1, h⟩ := Option.bind_eq_some_iff.1 h
  obtain ⟨r2, h2, h⟩ := Option.bind_eq_some_iff.1 h
  obtain ⟨r3, h3, h⟩ := Option.bind_eq_some_iff.1 h
  obtain ⟨r4, h4, h⟩ := Option.bind_eq_some_iff.1 h
  obtain ⟨r5, h5, h⟩ := Option.bind_eq_some_iff.1 h
  obtain ⟨r6, h6, h⟩ := Option.bind_eq_some_iff.1 h
  simp only [Option.bind_eq_bind] at h
  by_cases hb : (matchChar '[' r6).1 = true
  · rw [if_pos hb] at h
    simp only [Option.bind_eq_some_iff, Option.some.injEq, Prod.mk.injEq, Option.bind_some] at h
    obtain ⟨r7, h7, r8, h8, ⟨m, r9⟩, h9, r10, h10, r11, h11, r12, h12, r13, h13, r14, h14, r15, h15, ⟨s, r16⟩, h16, r17, h17, r18, h18, rfl, rfl⟩ := h
    obtain ⟨as, h19, h20, h21⟩ := readNamesCoCoA_sound _ [] _ _ _ _ ⟨rfl, by simp⟩ h16
    obtain ⟨h22, h23⟩ := h20
    simp only [List.nil_append] at h22 h23
    subst h22
    simp only at h19
    refine ⟨h23, r1, expectText_lit h1, r2, expectChar_lit h2, r3, expectText_lit h3, r4, expectChar_lit h4, r5, expectChar_lit h5,
      r6, expectChar_lit h6, r10, Or.inr ⟨_, matchChar_yes hb, r7, expectChar_lit h7, r8, expectText_lit h8, r9, ?_, expectChar_lit h10⟩, r11,
      expectChar_lit h11, r12, expectChar_lit h12, r13, expectText_lit h13, r14, expectText_lit h14, r15, expectChar_lit h15, r16, h21, r17,
      expectChar_lit h17, expectChar_lit h18⟩
    rw [h19]
    exact readSizeT_sizeG h9
  · rw [if_neg hb] at h
    simp only [Option.bind_eq_some_iff, Option.some.injEq, Prod.mk.injEq, Option.bind_some] at h
    obtain ⟨r11, h11, r12, h12, r13, h13, r14, h14, r15, h15, ⟨s, r16⟩, h16, r17, h17, r18, h18, rfl, rfl⟩ := h
    obtain ⟨as, h19, h20, h21⟩ := readNamesCoCoA_sound _ [] _ _ _ _ ⟨rfl, by simp⟩ h16
    obtain ⟨h22, h23⟩ := h20
    simp only [List.nil_append] at h22 h23
    subst h22
    exact ⟨h23, r1, expectText_lit h1, r2, expectChar_lit h2, r3, expectText_lit h3, r4, expectChar_lit h4, r5, expectChar_lit h5,
      _, lit_trans (expectChar_lit h6) (matchChar_no hb), _, Or.inl ⟨List.length_eq_zero_iff.1 h19, rfl⟩, r11,
      expectChar_lit h11, r12, expectChar_lit h12, r13, expectText_lit h13, r14, expectText_lit h14, r15, expectChar_lit h15, r16, h21, r17,
      expectChar_lit h17, expectChar_lit h18⟩

/-! ## The other rings -/

theorem readRingSingular_sound {t r : Text} {names : List Text} (h : readRingSingular t = some (names, r)) : ringSingularG names t r := by
  simp only [readRingSingular, Option.bind_eq_bind, Option.bind_eq_some_iff] at h
  obtain ⟨r1, h1, r2, h2, r3, h3, r4, h4, r5, h5, r6, h6, ⟨w, r7⟩, h7, r8, h8, r9, h9, r10, h10, r11, h11, r12, h12, r13, h13, r14, h14, h⟩ := h
  have key : ∃ digit u, (digit = t!"0" ∧ names = w ∨ digit = t!"1" ∧ w = [t!"dummy"] ∧ names = []) ∧ lit digit r14 u ∧ lit t!";" u r := by
    split at h
    · rename_i hd
      simp only [Option.bind_eq_some_iff] at h
      obtain ⟨p, h15, r16, h16, h⟩ := h
      split at h15
      · rename_i hw
        simp only [Option.some.injEq] at h15
        subst h15
        simp only [Option.some.injEq, Prod.mk.injEq] at h
        obtain ⟨rfl, rfl⟩ := h
        exact ⟨t!"1", _, Or.inr ⟨rfl, hw, rfl⟩, matchChar_yes hd, expectChar_lit h16⟩
      · simp at h15
    · rename_i hd
      split at h
      · rename_i hd2
        simp only [Option.bind_some, Option.bind_eq_some_iff, Option.some.injEq, Prod.mk.injEq] at h
        obtain ⟨r16, h16, rfl, rfl⟩ := h
        exact ⟨t!"0", _, Or.inl ⟨rfl, rfl⟩, trans_lit (matchChar_no hd) (matchChar_yes hd2), expectChar_lit h16⟩
      · simp at h
  obtain ⟨digit, u, h15, h16, h17⟩ := key
  exact ⟨w, digit, h15, r1, expectText_lit h1, r2, expectChar_lit h2, r3, expectChar_lit h3, r4, expectChar_lit h4, r5, expectChar_lit h5, r6,
    expectChar_lit h6, r7, readNames_sound h7, r8, expectChar_lit h8, r9, expectChar_lit h9, r10, expectText_lit h10, r11, expectChar_lit h11, r12,
    expectText_lit h12, r13, expectText_lit h13, r14, expectText_lit h14, u, h16, h17⟩

theorem readRingMonos_sound {t r : Text} {names : List Text} (h : readRingMonos t = some (names, r)) : ringMonosG names t r := by
  simp only [readRingMonos, Option.bind_eq_bind, Option.bind_eq_some_iff] at h
  obtain ⟨r1, h1, h⟩ := h
  split at h
  · rename_i hm
    simp only [Option.some.injEq, Prod.mk.injEq] at h
    obtain ⟨rfl, rfl⟩ := h
    exact ⟨r1, expectText_lit h1, r1, Or.inl ⟨rfl, rfl⟩, matchChar_yes hm⟩
  · rename_i hm
    simp only [Option.bind_eq_some_iff, Option.some.injEq, Prod.mk.injEq] at h
    obtain ⟨⟨names', r2⟩, h2, r3, h3, rfl, rfl⟩ := h
    exact ⟨_, lit_trans (expectText_lit h1) (matchChar_no hm), r2, Or.inr (readNames_sound h2), expectChar_lit h3⟩

theorem readRingNewMonos_sound {t r : Text} {names : List Text} (h : readRingNewMonos t = some (names, r)) :
    (lit t!"lex-order" ⊹ manyNamesG names ⊹ lit t!")") t r := by
  simp only [readRingNewMonos, Option.bind_eq_bind, Option.bind_eq_some_iff] at h
  obtain ⟨r1, h1, h2⟩ := h
  obtain ⟨as, ⟨u, h3, h4⟩, h5, h6⟩ := readUntil_sound nameG_starts readName_sound _ [] _ _ _ _ ⟨rfl, by simp⟩ h2
  simp only [List.nil_append] at h5 h6
  subst h5
  exact ⟨r1, expectText_lit h1, u, ⟨h6, h3⟩, h4⟩

/-! ## Ideals -/

theorem readBareM2_sound {t r : Text} {names : List Text} {k : InputConsumer} (h : readBareM2 false names t = some (k, r)) :
    k.names = names ∧ bareM2G names k.gens.reverse t r := by
  simp only [readBareM2, Option.bind_eq_bind, Option.bind_eq_some_iff] at h
  obtain ⟨r1, h1, r2, h2, r3, h3, r4, h4, h⟩ := h
  have key : ∃ es u, TermsInv names es k ∧ (Gram.or (fun t r => es = [] ∧ (lit t!"0" t r ∨ ∃ x, (lit t!"0" ⊹ lit t!"_" ⊹ nameG x) t r))
      (SepBy (productM2G names) t!"," es)) r4 u ∧ ∃ v, expectChar ')' u = some v ∧ expectChar ';' v = some r := by
    split at h
    · rename_i hz
      split at h
      · rename_i hu
        simp only [Option.bind_eq_some_iff, Option.map_eq_some_iff] at h
        obtain ⟨p, ⟨⟨x, q⟩, h5, rfl⟩, v, h6, w, h7, h8⟩ := h
        simp only [Option.some.injEq, Prod.mk.injEq] at h8
        obtain ⟨rfl, rfl⟩ := h8
        exact ⟨[], _, .begin names, Or.inl ⟨rfl, Or.inr ⟨x, _, matchChar_yes hz, _, matchChar_yes hu, readIdentifier_nameG h5⟩⟩, v, h6, h7⟩
      · rename_i hu
        simp only [Option.bind_some, Option.bind_eq_some_iff, Option.some.injEq, Prod.mk.injEq] at h
        obtain ⟨v, h6, w, h7, rfl, rfl⟩ := h
        exact ⟨[], _, .begin names, Or.inl ⟨rfl, Or.inl (lit_trans (matchChar_yes hz) (matchChar_no hu))⟩, v, h6, h7⟩
    · rename_i hz
      simp only [Option.bind_eq_some_iff, Option.some.injEq, Prod.mk.injEq] at h
      obtain ⟨⟨k', u⟩, h5, v, h6, w, h7, rfl, rfl⟩ := h
      obtain ⟨es, h8, h9⟩ := readSep_sound (productM2G_ends names) (readTermM2_sound (names := names)) _ [] _ _ _ _ (.begin names) h5
      exact ⟨es, u, h9, Or.inr (SepBy.starts (productM2G_starts names) _ _ _ _ (matchChar_no hz) h8), v, h6, h7⟩
  obtain ⟨es, u, ⟨h5, h6⟩, h7, v, h8, h9⟩ := key
  rw [h6, List.reverse_reverse]
  exact ⟨h5, r1, expectChar_lit h1, r2, expectChar_lit h2, r3, expectText_lit h3, r4, expectChar_lit h4, u, h7, v, expectChar_lit h8, expectChar_lit h9⟩

theorem readBareCoCoA_sound {t r : Text} {names : List Text} {k : InputConsumer} (h : readBareCoCoA false names t = some (k, r)) :
    k.names = names ∧ bareCoCoAG names k.gens.reverse t r := by
  simp only [readBareCoCoA, Option.bind_eq_bind, Option.bind_eq_some_iff] at h
  obtain ⟨r1, h1, r2, h2, r3, h3, r4, h4, h⟩ := h
  have key : ∃ es u, TermsInv names es k ∧ (Gram.or (Gram.when (es = [])) (SepBy (productCoCoAG names) t!"," es) ⊹ lit t!")") r4 u ∧
      (matchChar ';' u).2 = r := by
    split at h
    · rename_i hz
      simp only [Option.bind_some, Option.some.injEq, Prod.mk.injEq] at h
      obtain ⟨rfl, h⟩ := h
      exact ⟨[], _, .begin names, ⟨r4, Or.inl ⟨rfl, rfl⟩, matchChar_yes hz⟩, h⟩
    · rename_i hz
      simp only [Option.bind_eq_some_iff, Option.bind_some, Option.some.injEq, Prod.mk.injEq] at h
      obtain ⟨⟨k', u⟩, h5, v, h6, rfl, rfl⟩ := h
      obtain ⟨es, h8, h9⟩ := readSep_sound (productCoCoAG_ends names) (readTermCoCoA_sound (names := names)) _ [] _ _ _ _ (.begin names) h5
      exact ⟨es, v, h9, ⟨u, Or.inr (SepBy.starts (productCoCoAG_starts names) _ _ _ _ (matchChar_no hz) h8), expectChar_lit h6⟩, rfl⟩
  obtain ⟨es, u, ⟨h5, h6⟩, ⟨v, h7, h8⟩, h9⟩ := key
  rw [h6, List.reverse_reverse]
  refine ⟨h5, r1, expectChar_lit h1, r2, expectText_lit h2, r3, expectText_lit h3, r4, expectChar_lit h4, v, h7, u, h8, ?_⟩
  by_cases hs : (matchChar ';' u).1 = true
  · exact Or.inr (h9 ▸ matchChar_yes hs)
  · exact Or.inl (h9 ▸ matchChar_no hs)

theorem readBareSingular_sound {t r : Text} {names : List Text} {k : InputConsumer} (h : readBareSingular false names t = some (k, r)) :
    k.names = names ∧ bareSingularG names k.gens.reverse t r := by
  simp only [readBareSingular, Option.bind_eq_bind, Option.bind_eq_some_iff] at h
  obtain ⟨r1, h1, r2, h2, r3, h3, h⟩ := h
  have key : ∃ es u, TermsInv names es k ∧ (Gram.or (Gram.when (es = []) ⊹ lit t!"0") (SepBy (productG names) t!"," es)) r3 u ∧
      expectChar ';' u = some r := by
    split at h
    · rename_i hz
      simp only [Option.bind_some, Option.bind_eq_some_iff, Option.some.injEq, Prod.mk.injEq] at h
      obtain ⟨v, h4, rfl, rfl⟩ := h
      exact ⟨[], _, .begin names, Or.inl ⟨r3, ⟨rfl, rfl⟩, matchChar_yes hz⟩, h4⟩
    · rename_i hz
      simp only [Option.bind_eq_some_iff, Option.some.injEq, Prod.mk.injEq] at h
      obtain ⟨⟨k', u⟩, h5, v, h6, rfl, rfl⟩ := h
      obtain ⟨es, h8, h9⟩ := readSep_sound (productG_ends names) (readTermProduct_sound (names := names)) _ [] _ _ _ _ (.begin names) h5
      exact ⟨es, u, h9, Or.inr (SepBy.starts (productG_starts names) _ _ _ _ (matchChar_no hz) h8), h6⟩
  obtain ⟨es, u, ⟨h5, h6⟩, h7, h8⟩ := key
  rw [h6, List.reverse_reverse]
  exact ⟨h5, r1, expectText_lit h1, r2, expectChar_lit h2, r3, expectChar_lit h3, u, h7, expectChar_lit h8⟩

theorem expectChar_of_peekIdentifier {c : Char} (hc : isAlpha c = false) {t : Text} (h : peekIdentifier t = true) : expectChar c t = none := by
  unfold peekIdentifier at h
  unfold expectChar
  cases h1 : eatWhite t with
  | nil => rfl
  | cons d l =>
    simp only [h1, nextIs] at h
    simp only
    rw [if_neg]
    rintro rfl
    rw [h] at hc
    simp at hc

theorem readBareMonos_sound {t r : Text} {names : List Text} {k : InputConsumer} (h : readBareMonos false names t = some (k, r)) :
    k.names = names ∧ bareMonosG names k.gens.reverse t r := by
  simp only [readBareMonos, Option.bind_eq_bind, Option.bind_eq_some_iff] at h
  obtain ⟨r1, h1, h⟩ := h
  have key : ∃ es u, TermsInv names es k ∧ (Gram.or (Gram.when (es = [])) (SepBy (productG names) t!"," es) ⊹ lit t!"]") r1 u ∧
      expectChar ';' u = some r := by
    split at h
    · rename_i hz
      simp only [Option.bind_some, Option.bind_eq_some_iff, Option.some.injEq, Prod.mk.injEq] at h
      obtain ⟨v, h4, rfl, rfl⟩ := h
      exact ⟨[], _, .begin names, ⟨r1, Or.inl ⟨rfl, rfl⟩, matchChar_yes hz⟩, h4⟩
    · rename_i hz
      simp only [Option.bind_eq_some_iff] at h
      obtain ⟨⟨k', u⟩, h5, h⟩ := h
      obtain ⟨es, h8, h9⟩ := readSep_sound (productG_ends names) (readTermProduct_sound (names := names)) _ [] _ _ _ _ (.begin names) h5
      have hs := SepBy.starts (productG_starts names) _ _ _ _ (matchChar_no hz) h8
      split at h
      · rename_i hb
        simp only [Option.bind_some, Option.bind_eq_some_iff, Option.some.injEq, Prod.mk.injEq] at h
        obtain ⟨v, h6, rfl, rfl⟩ := h
        exact ⟨es, _, h9, ⟨u, Or.inr hs, matchChar_yes hb⟩, h6⟩
      · split at h
        · rename_i hp
          rw [expectChar_of_peekIdentifier (by decide) hp] at h
          simp at h
        · simp only [Option.bind_some, Option.bind_eq_some_iff, Option.some.injEq, Prod.mk.injEq] at h
          obtain ⟨v, h6, w, h7, rfl, rfl⟩ := h
          exact ⟨es, v, h9, ⟨u, Or.inr hs, expectChar_lit h6⟩, h7⟩
  obtain ⟨es, u, ⟨h5, h6⟩, ⟨v, h7, h8⟩, h9⟩ := key
  rw [h6, List.reverse_reverse]
  exact ⟨h5, r1, expectChar_lit h1, v, h7, u, h8, expectChar_lit h9⟩

theorem readNewMonos_sound {t r : Text} {k : InputConsumer} (h : readConsumer false .newmonos t = some (k, r)) :
    newMonosG k.release t r := by
  simp only [readConsumer, readIdealNoLeftParen, Option.bind_eq_bind, Option.bind_eq_some_iff] at h
  obtain ⟨r1, h1, r2, h2, r3, h3, ⟨names, r4⟩, h4, h5⟩ := h
  obtain ⟨u, h6, v, h7, h8⟩ := readRingNewMonos_sound h4
  obtain ⟨es, ⟨w, h9, h10⟩, h11, h12⟩ := readUntil_sound (productG_starts names) (readTermProduct_sound (names := names)) _ [] _ _ _ _ (.begin names) h5
  simp only [List.nil_append] at h12
  have h13 : k.release = { names := names, terms := es } := by simp [InputConsumer.release, h11, h12]
  rw [h13]
  exact ⟨r1, expectChar_lit h1, r2, expectText_lit h2, r3, expectChar_lit h3, u, h6, v, h7, r4, h8, w, h9, h10⟩

theorem many_rows_nil : ∀ (m : ℕ) (t : Text), Many (row4ti2G 0) (List.replicate m []) t t
  | 0, t => .nil (lit_refl t)
  | m + 1, t => .cons ⟨rfl, .nil (lit_refl t)⟩ (many_rows_nil m t)

theorem read4ti2_sound {t r : Text} {k : InputConsumer} (h : readConsumer false .fourti2 t = some (k, r)) : fourti2G k.release t r := by
  simp only [readConsumer, readIdeal4ti2, Option.bind_eq_bind, Option.bind_eq_some_iff] at h
  obtain ⟨⟨g, r1⟩, h1, ⟨m, r2⟩, h2, h⟩ := h
  have key : ∃ es k' u, (es.length = g ∧ Many (row4ti2G m) es r2 u ∧ TermsInv (defaultNames m) es k') ∧
      (if peekIdentifier u = true then (readTimes readName m [] u).bind fun p => some ({ k' with names := p.1 }, p.2) else some (k', u)) = some (k, r) := by
    split at h
    · rename_i hm
      simp only [Option.bind_some] at h
      simp only at hm
      subst hm
      refine ⟨List.replicate g [], _, r2, ⟨by simp, many_rows_nil g r2, rfl, ?_⟩, h⟩
      simp
    · simp only [Option.bind_eq_some_iff] at h
      obtain ⟨⟨k', u⟩, h3, h⟩ := h
      obtain ⟨es, h4, h5, h6⟩ := readTimes_sound (readTerm4ti2_sound (names := defaultNames m)) _ [] _ _ _ _ (.begin _) h3
      rw [defaultNames_length] at h5
      refine ⟨es, k', u, ⟨h4, h5, h6⟩, ?_⟩
      simpa only [Option.bind_eq_some_iff] using h
  obtain ⟨es, k', u, ⟨h3, h4, h5, h6⟩, h⟩ := key
  split at h
  · simp only [Option.bind_eq_some_iff, Option.some.injEq, Prod.mk.injEq] at h
    obtain ⟨⟨names, r3⟩, h7, rfl, rfl⟩ := h
    obtain ⟨as, h8, h9, h10, h11⟩ := readTimes_sound readName_sound _ [] _ _ _ _ ⟨rfl, by simp⟩ h7
    simp only [List.nil_append] at h10 h11
    subst h10
    have h13 : InputConsumer.release { k' with names := names } = { names := names, terms := es } := by simp [InputConsumer.release, h6]
    rw [h13]
    exact ⟨r1, h3 ▸ readSizeT_sizeG h1, r2, h8 ▸ readSizeT_sizeG h2, u, h8 ▸ h4, Or.inr ⟨h11, h9⟩⟩
  · simp only [Option.some.injEq, Prod.mk.injEq] at h
    obtain ⟨rfl, rfl⟩ := h
    have h13 : k'.release = { names := defaultNames m, terms := es } := by simp [InputConsumer.release, h5, h6]
    rw [h13]
    refine ⟨r1, h3 ▸ readSizeT_sizeG h1, r2, ?_, u, ?_, Or.inl ⟨?_, rfl⟩⟩
    · simp only [defaultNames_length]
      exact readSizeT_sizeG h2
    · simp only [defaultNames_length]
      exact h4
    · simp only [defaultNames_length]
      rfl

theorem readConsumer_sound {f : IOFormat} {t r : Text} {k : InputConsumer} (h : readConsumer false f t = some (k, r)) : idealG f k.release t r := by
  cases f with
  | newmonos => exact readNewMonos_sound h
  | fourti2 => exact read4ti2_sound h
  | m2 =>
    simp only [readConsumer, Option.bind_eq_bind, Option.bind_eq_some_iff] at h
    obtain ⟨⟨names, u⟩, h1, h2⟩ := h
    obtain ⟨rfl, h3⟩ := readBareM2_sound h2
    exact ⟨u, readRingM2_sound h1, h3⟩
  | cocoa4 =>
    simp only [readConsumer, Option.bind_eq_bind, Option.bind_eq_some_iff] at h
    obtain ⟨⟨names, u⟩, h1, h2⟩ := h
    obtain ⟨rfl, h3⟩ := readBareCoCoA_sound h2
    exact ⟨u, readRingCoCoA_sound h1, h3⟩
  | singular =>
    simp only [readConsumer, Option.bind_eq_bind, Option.bind_eq_some_iff] at h
    obtain ⟨⟨names, u⟩, h1, h2⟩ := h
    obtain ⟨rfl, h3⟩ := readBareSingular_sound h2
    exact ⟨u, readRingSingular_sound h1, h3⟩
  | monos =>
    simp only [readConsumer, Option.bind_eq_bind, Option.bind_eq_some_iff] at h
    obtain ⟨⟨names, u⟩, h1, h2⟩ := h
    obtain ⟨rfl, h3⟩ := readBareMonos_sound h2
    exact ⟨u, readRingMonos_sound h1, h3⟩

end Frobby

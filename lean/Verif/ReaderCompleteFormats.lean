import Verif.ReaderCompleteLemmas

/-!
# Lemmas: every text of a format is read
-/

namespace Frobby

/-! ## Rows of 4ti2 -/

theorem next_true (t : Text) : Next (fun _ => True) t := fun _ _ => trivial

theorem readExponent4ti2_complete {names : List Text} {gs : List (List ℕ)} {total : List ℕ} (ht : total.length = names.length) :
    Reads (InputConsumer.readExponent4ti2 false) exponent4ti2G (RowInv names gs) (fun _ => True) total := by
  rintro acc a rest ⟨i, k⟩ t r t0 rfl ⟨h1, h2, h3⟩ h - h0
  simp only at h1 h2 h3
  subst h1
  have hlt : acc.length < names.length := by
    simp only [List.length_append, List.length_cons] at ht
    omega
  have hrep : List.replicate (names.length - acc.length) 0 = 0 :: List.replicate (names.length - (acc.length + 1)) 0 := by
    rw [← List.replicate_succ]
    congr 1
    omega
  unfold InputConsumer.readExponent4ti2
  rcases h with h | ⟨rfl, ds, u, h4, h5⟩
  · have hfirst : Next (· ≠ '-') t := by
      obtain ⟨ds, h4, _⟩ := h
      refine next_of_first (digitsG_first h4) ?_
      rintro c hc rfl
      simp [isDigit] at hc
    have hz : k.exponent acc.length = 0 := by
      unfold InputConsumer.exponent
      rw [h3, hrep]
      simp
    obtain ⟨k', r0, h6, h7, h8⟩ := consumeExponent_complete hz h ((eatWhite_idem t0).trans h0)
    rw [matchChar_next (hfirst.congr h0)]
    simp only [h6, Option.map_some]
    refine ⟨_, r0, rfl, ⟨by simp, by rw [h7.1]; exact h2, ?_⟩, h8⟩
    rw [h7.2, InputConsumer.setExponent, h3, hrep]
    simp
  · obtain ⟨r1, h6, h7⟩ := matchChar_complete (by decide) h4 h0
    obtain ⟨r2, h8, h9⟩ := readIntegerStringNoSign_complete h5 h7
    simp only [h6, h8, Option.map_some]
    refine ⟨_, r2, rfl, ⟨by simp, h2, ?_⟩, h9⟩
    simp only [h3, hrep]
    simp

theorem readTerm4ti2_complete {names : List Text} (total : List (List ℕ)) :
    Reads (InputConsumer.readTerm4ti2 false) (row4ti2G names.length) (TermsInv names) (fun _ => True) total := by
  rintro acc a rest k t r t0 - hk ⟨h1, h2⟩ - h0
  obtain ⟨s', r0, h3, ⟨h4, h5, h6⟩, h7⟩ := readTimes_complete (fun _ _ _ _ => next_true _)
    (readExponent4ti2_complete (names := k.names) (gs := k.gens) (by rw [h1, hk.1])) h2 [] (0, k.beginTerm) t0 (by simp)
    ⟨rfl, rfl, by simp [InputConsumer.beginTerm]⟩ (next_true _) h0
  unfold InputConsumer.readTerm4ti2
  rw [hk.1, ← h1, h3]
  refine ⟨s'.2, r0, rfl, ⟨by rw [h5, hk.1], ?_⟩, h7⟩
  rw [h6, hk.1, hk.2]
  simp [h1]

/-! ## Names -/

theorem readName_complete {total : List Text} (hn : total.Nodup) : Reads readName nameG NamesInv (fun _ => True) total := by
  rintro acc a rest names t r t0 rfl ⟨rfl, h1⟩ h - h0
  obtain ⟨r0, h2, h3⟩ := readIdentifier_complete h h0
  have h4 : a ∉ names := by
    intro hc
    rw [List.nodup_append] at hn
    exact hn.2.2 a hc a (by simp) rfl
  refine ⟨names ++ [a], r0, by simp [readName, h2, h4], ⟨rfl, ?_⟩, h3⟩
  exact hn.sublist (by simp)

theorem readNames_complete {names : List Text} {t r t0 : Text} (h : namesG t!"," names t r) (hn : Next (· ≠ ',') r) (h0 : Alike t0 t)
    {fuel : ℕ} (hf : (eatWhite t).length ≤ fuel) : ∃ r0, readSep readName ',' fuel [] t0 = some (names, r0) ∧ Alike r0 r := by
  obtain ⟨names', r0, h1, ⟨h2, _⟩, h3⟩ := readSep_complete (sep := ',') (by decide) trivial nameG_shrinks (readName_complete h.1) h.2 fuel []
    [] t0 (by simp) ⟨rfl, by simp⟩ (next_true _) hn h0 hf
  simp only [List.nil_append] at h2
  subst h2
  exact ⟨r0, h1, h3⟩

theorem namesG_first {sep : Text} {names : List Text} {t r : Text} (h : namesG sep names t r) :
    ∃ c, (eatWhite t).head? = some c ∧ isAlpha c = true := by
  obtain ⟨_, h⟩ := h
  cases h with
  | one h1 => exact nameG_first h1
  | cons h1 _ _ => exact nameG_first h1

theorem peekIdentifier_first {t t0 : Text} (h : ∃ c, (eatWhite t).head? = some c ∧ isAlpha c = true) (h0 : Alike t0 t) :
    peekIdentifier t0 = true := by
  unfold peekIdentifier
  rw [h0, nextIs_iff]
  obtain ⟨c, h5, h6⟩ := h
  exact ⟨c, h5, h6⟩

theorem readIdentifier_exact {x r : Text} (hx : AllowedName x) (h : ∀ c ∈ r.head?, ¬ isIdChar c = true) :
    readIdentifier (x ++ r) = some (x, r) := by
  have h4 := takeWhile_stop (allowed_chars hx) h
  unfold readIdentifier
  rw [(allowed_solid hx).eat, if_pos, h4.1, h4.2]
  obtain ⟨c, l, rfl, h1, _⟩ := hx
  simpa [nextIs] using isAlpha_of_isLetter h1

theorem readNameCoCoA_complete {m : ℕ} {a : Text} {names : List Text} {t r t0 : Text} (h : quotedG a t r) (ha : a ∉ names)
    (h0 : Alike t0 t) : ∃ r0, Alike r0 r ∧ readNameCoCoA (m, names) t0 =
      if m ≤ 1 then some ((m - 1, names ++ [a]), r0) else (expectChar ',' r0).map fun r' => ((m - 1, names ++ [a]), r') := by
  obtain ⟨h1, w, w', h2, h3, rfl⟩ := h
  refine ⟨w' ++ r, alike_append h3 _, ?_⟩
  have h4 : expectChar '"' t0 = some (a ++ '"' :: (w' ++ r)) := by
    unfold expectChar
    rw [h0, List.append_assoc, List.append_assoc, eatWhite_blanks h2, Solidly.eat (s := '"' :: a ++ ['"']) ⟨'"', a ++ ['"'], rfl, by decide⟩]
    simp
  have h5 : peekWhite (a ++ '"' :: (w' ++ r)) = false := by
    obtain ⟨c, l, rfl, h6⟩ := allowed_solid h1
    simpa [peekWhite, nextIs] using h6
  have h6 : readName names (a ++ '"' :: (w' ++ r)) = some (names ++ [a], '"' :: (w' ++ r)) := by
    unfold readName
    rw [readIdentifier_exact h1 (by
      intro c hc
      simp only [List.head?_cons, Option.mem_def, Option.some.injEq] at hc
      subst hc
      decide)]
    simp [ha]
  have h7 : peekWhite ('"' :: (w' ++ r)) = false := by simp [peekWhite, nextIs]; decide
  have h8 : expectChar '"' ('"' :: (w' ++ r)) = some (w' ++ r) := by
    unfold expectChar
    rw [eatWhite_cons, if_neg (by decide)]
    simp
  unfold readNameCoCoA
  simp only [h4, h5, h6, h7, h8, Bool.false_eq_true, if_false]

theorem readNamesCoCoA_complete {as : List Text} {t r : Text} (h : SepBy quotedG t!"," as t r) : ∀ (names : List Text) (t0 : Text),
    (names ++ as).Nodup → Alike t0 t →
      ∃ r0, readTimes readNameCoCoA as.length (as.length, names) t0 = some ((0, names ++ as), r0) ∧ Alike r0 r := by
  have hmem : ∀ {names as : List Text} {a : Text}, (names ++ a :: as).Nodup → a ∉ names := by
    intro names as a hn hc
    rw [List.nodup_append] at hn
    exact hn.2.2 a hc a (by simp) rfl
  induction h with
  | one h1 =>
    intro names t0 hn h0
    obtain ⟨r0, h2, h3⟩ := readNameCoCoA_complete (m := 1) h1 (hmem hn) h0
    exact ⟨r0, by simp [readTimes, h3], h2⟩
  | @cons a as t r u v h1 h2 h3 ih =>
    intro names t0 hn h0
    obtain ⟨r0, h4, h5⟩ := readNameCoCoA_complete (m := as.length + 1) h1 (hmem hn) h0
    have hpos : 0 < as.length := by cases h3 <;> simp
    obtain ⟨r1, h6, h7⟩ := expectChar_complete (c := ',') (by decide) h2 h4
    obtain ⟨r2, h8, h9⟩ := ih (names ++ [a]) r1 (by simpa using hn) h7
    rw [if_neg (by omega), h6] at h5
    refine ⟨r2, ?_, h9⟩
    simp only [List.length_cons, readTimes, h5, Option.map_some, Nat.add_sub_cancel]
    rw [h8]
    simp

/-! ## Rings -/

theorem readRingM2_complete {names : List Text} {t r t0 : Text} (h : ringM2G names t r) (h0 : Alike t0 t) :
    ∃ r0, readRingM2 t0 = some (names, r0) ∧ Alike r0 r := by
  obtain ⟨R, hR, brace, u1, h1, u2, h2, u3, h3, u4, h4, u5, h5, u6, h6, u7, h7, u8, h8, h9⟩ := h
  obtain ⟨r1, a1, b1⟩ := readIdentifier_complete h1 h0
  obtain ⟨r2, a2, b2⟩ := expectChar_complete (c := '=') (by decide) h2 b1
  have key3 : ∃ r3, (if peekChar 'Z' r2 = true then expectText t!"ZZ" r2 else expectText t!"QQ" r2) = some r3 ∧ Alike r3 u3 := by
    rcases h3 with h3 | h3
    · rw [if_pos (peekChar_complete rfl (by decide) h3 b2)]
      exact expectText_complete ⟨_, _, rfl, by decide⟩ h3 b2
    · have : peekChar 'Z' r2 = false := peekChar_next ((lit_next rfl (by decide) h3 (by decide)).congr b2)
      rw [if_neg (by simp [this])]
      exact expectText_complete ⟨_, _, rfl, by decide⟩ h3 b2
  obtain ⟨r3, a3, b3⟩ := key3
  obtain ⟨r4, a4, b4⟩ := expectChar_complete (c := '[') (by decide) h4 b3
  have hclose : Next (fun c => c = '}' ∨ c = ']') u6 := by
    cases brace with
    | true => exact lit_next rfl (by decide) h7 (Or.inl rfl)
    | false => exact (lit_next rfl (by decide) h8 (Or.inr rfl)).congr (lit_nil_alike h7)
  have hclose' : Next (· ≠ '{') u5 := by
    rcases h6 with ⟨_, rfl⟩ | h6
    · exact hclose.mono (by rintro c (rfl | rfl) <;> decide)
    · refine next_of_first (namesG_first h6) ?_
      rintro c hc rfl
      simp [isAlpha] at hc
  have key5 : ∃ r5, matchChar '{' r4 = (brace, r5) ∧ Alike r5 u5 := by
    cases brace with
    | true => exact matchChar_complete (by decide) h5 b4
    | false =>
      have : Alike r4 u5 := b4.trans (lit_nil_alike h5)
      exact ⟨eatWhite r4, matchChar_next (hclose'.congr this), (eatWhite_idem r4).trans this⟩
  obtain ⟨r5, a5, b5⟩ := key5
  have key6 : ∃ r6, (if peekIdentifier r5 = true then readSep readName ',' r5.length [] r5 else some ([], r5)) = some (names, r6) ∧ Alike r6 u6 := by
    rcases h6 with ⟨rfl, rfl⟩ | h6
    · have : peekIdentifier r5 = false := peekIdentifier_next ((hclose.mono (by rintro c (rfl | rfl) <;> decide)).congr b5)
      exact ⟨r5, by rw [if_neg (by simp [this])], b5⟩
    · rw [if_pos (peekIdentifier_first (namesG_first h6) b5)]
      exact readNames_complete h6 (hclose.mono (by rintro c (rfl | rfl) <;> decide)) b5 (by rw [← b5.length]; exact eatWhite_length_le _)
  obtain ⟨r6, a6, b6⟩ := key6
  have key7 : ∃ r7, (if brace = true then expectChar '}' r6 else some r6) = some r7 ∧ Alike r7 u7 := by
    cases brace with
    | true =>
      rw [if_pos rfl]
      exact expectChar_complete (by decide) h7 b6
    | false => exact ⟨r6, rfl, b6.trans (lit_nil_alike h7)⟩
  obtain ⟨r7, a7, b7⟩ := key7
  obtain ⟨r8, a8, b8⟩ := expectChar_complete (c := ']') (by decide) h8 b7
  obtain ⟨r9, a9, b9⟩ := expectChar_complete (c := ';') (by decide) h9 b8
  refine ⟨r9, ?_, b9⟩
  unfold readRingM2
  have e : ∀ {α : Type} (p : Prop) [Decidable p] (x y : Option α) (f : α → Option (List Text × Text)), 
      (if p then x else y).bind f = if p then x.bind f else y.bind f := by
    intros
    split <;> rfl
  rw [a1]
  simp only [Option.bind_eq_bind, Option.bind_some, hR, ne_eq, not_true_eq_false, if_false, a2]
  rw [← e, a3]
  simp only [Option.bind_some, a4, a5]
  by_cases hp : peekIdentifier r5 = true
  · simp only [if_pos hp] at a6 ⊢
    rw [a6, Option.bind_some]
    cases brace with
    | true =>
      simp only [if_true] at a7 ⊢
      simp only [a7, Option.bind_some, a8, a9]
    | false =>
      simp only [Bool.false_eq_true, if_false, Option.some.injEq] at a7 ⊢
      subst a7
      simp only [Option.bind_some, a8, a9]
  · simp only [if_neg hp, Option.some.injEq, Prod.mk.injEq] at a6 ⊢
    obtain ⟨rfl, rfl⟩ := a6
    cases brace with
    | true =>
      simp only [if_true] at a7 ⊢
      simp only [a7, Option.bind_some, a8, a9]
    | false =>
      simp only [Bool.false_eq_true, if_false, Option.some.injEq] at a7 ⊢
      subst a7
      simp only [Option.bind_some, a8, a9]

theorem readRingCoCoA_complete {names : List Text} {t r t0 : Text} (h : ringCoCoAG names t r) (h0 : Alike t0 t) :
    ∃ r0, readRingCoCoA t0 = some (names, r0) ∧ Alike r0 r := by
  obtain ⟨hn, u1, h1, u2, h2, u3, h3, u4, h4, u5, h5, u6, h6, u7, h7, u8, h8, u9, h9, u10, h10, u11, h11, u12, h12, u13, h13, u14, h14, h15⟩ := h
  obtain ⟨r1, a1, b1⟩ := expectText_complete (s := t!"Use") ⟨_, _, rfl, by decide⟩ h1 h0
  obtain ⟨r2, a2, b2⟩ := expectChar_complete (c := 'R') (by decide) h2 b1
  obtain ⟨r3, a3, b3⟩ := expectText_complete (s := t!"::=") ⟨_, _, rfl, by decide⟩ h3 b2
  obtain ⟨r4, a4, b4⟩ := expectChar_complete (c := 'Q') (by decide) h4 b3
  obtain ⟨r5, a5, b5⟩ := expectChar_complete (c := '[') (by decide) h5 b4
  obtain ⟨r6, a6, b6⟩ := expectChar_complete (c := 'x') (by decide) h6 b5
  have key : ∃ r7, (if (matchChar '[' r6).1 = true then
        (expectChar '1' (matchChar '[' r6).2).bind fun r => (expectText t!".." r).bind fun r => (readSizeT r).bind fun p =>
          (expectChar ']' p.2).bind fun r => some (p.1, r)
      else some (0, (matchChar '[' r6).2)) = some (names.length, r7) ∧ Alike r7 u7 := by
    rcases h7 with ⟨rfl, rfl⟩ | ⟨v1, g1, v2, g2, v3, g3, v4, g4, g5⟩
    · have hm := matchChar_next (c := '[') ((lit_next rfl (by decide) h8 (by decide : (']' : Char) ≠ '[')).congr b6)
      rw [hm]
      exact ⟨_, rfl, (eatWhite_idem r6).trans b6⟩
    · obtain ⟨s1, c1, d1⟩ := matchChar_complete (c := '[') (by decide) g1 b6
      obtain ⟨s2, c2, d2⟩ := expectChar_complete (c := '1') (by decide) g2 d1
      obtain ⟨s3, c3, d3⟩ := expectText_complete (s := t!"..") ⟨_, _, rfl, by decide⟩ g3 d2
      obtain ⟨s4, c4, d4⟩ := readSizeT_complete g4 d3
      obtain ⟨s5, c5, d5⟩ := expectChar_complete (c := ']') (by decide) g5 d4
      rw [c1]
      exact ⟨s5, by simp [c2, c3, c4, c5], d5⟩
  obtain ⟨r7, a7, b7⟩ := key
  obtain ⟨r8, a8, b8⟩ := expectChar_complete (c := ']') (by decide) h8 b7
  obtain ⟨r9, a9, b9⟩ := expectChar_complete (c := ';') (by decide) h9 b8
  obtain ⟨r10, a10, b10⟩ := expectText_complete (s := t!"Names") ⟨_, _, rfl, by decide⟩ h10 b9
  obtain ⟨r11, a11, b11⟩ := expectText_complete (s := t!":=") ⟨_, _, rfl, by decide⟩ h11 b10
  obtain ⟨r12, a12, b12⟩ := expectChar_complete (c := '[') (by decide) h12 b11
  have key13 : ∃ s r13, readTimes readNameCoCoA names.length (names.length, []) r12 = some ((s, names), r13) ∧ Alike r13 u13 := by
    rcases h13 with ⟨rfl, rfl⟩ | h13
    · exact ⟨_, r12, rfl, b12⟩
    · obtain ⟨r13, g1, g2⟩ := readNamesCoCoA_complete h13 [] r12 (by simpa using hn) b12
      exact ⟨0, r13, by simpa using g1, g2⟩
  obtain ⟨s, r13, a13, b13⟩ := key13
  obtain ⟨r14, a14, b14⟩ := expectChar_complete (c := ']') (by decide) h14 b13
  obtain ⟨r15, a15, b15⟩ := expectChar_complete (c := ';') (by decide) h15 b14
  refine ⟨r15, ?_, b15⟩
  unfold readRingCoCoA
  simp only [Option.bind_eq_bind, a1, a2, a3, a4, a5, a6, Option.bind_some]
  have e : ∀ {α : Type} (p : Prop) [Decidable p] (x y : Option α) (f : α → Option (List Text × Text)), 
      (if p then x else y).bind f = if p then x.bind f else y.bind f := by
    intros
    split <;> rfl
  have fin : ∀ (x : Option (ℕ × Text)), x = some (names.length, r7) → (x.bind fun x => (expectChar ']' x.2).bind fun r =>
      (expectChar ';' r).bind fun r => (expectText t!"Names" r).bind fun r => (expectText t!":=" r).bind fun r =>
      (expectChar '[' r).bind fun r => (readTimes readNameCoCoA x.1 (x.1, []) r).bind fun y => (expectChar ']' y.2).bind fun r =>
      (expectChar ';' r).bind fun r => some (y.1.2, r)) = some (names, r15) := by
    rintro x rfl
    simp only [a8, a9, a10, a11, a12, a13, a14, a15, Option.bind_some]
  have g := fin _ a7
  rw [e] at g
  by_cases hm : (matchChar '[' r6).1 = true
  · rw [if_pos hm] at g ⊢
    simpa only [Option.bind_assoc, Option.bind_some] using g
  · rw [if_neg hm] at g ⊢
    exact g

theorem readRingSingular_complete {names : List Text} {t r t0 : Text} (h : ringSingularG names t r) (h0 : Alike t0 t) :
    ∃ r0, readRingSingular t0 = some (names, r0) ∧ Alike r0 r := by
  obtain ⟨w, digit, hd, u1, h1, u2, h2, u3, h3, u4, h4, u5, h5, u6, h6, u7, h7, u8, h8, u9, h9, u10, h10, u11, h11, u12, h12, u13, h13, u14, h14,
    u15, h15, h16⟩ := h
  obtain ⟨r1, a1, b1⟩ := expectText_complete (s := t!"ring") ⟨_, _, rfl, by decide⟩ h1 h0
  obtain ⟨r2, a2, b2⟩ := expectChar_complete (c := 'R') (by decide) h2 b1
  obtain ⟨r3, a3, b3⟩ := expectChar_complete (c := '=') (by decide) h3 b2
  obtain ⟨r4, a4, b4⟩ := expectChar_complete (c := '0') (by decide) h4 b3
  obtain ⟨r5, a5, b5⟩ := expectChar_complete (c := ',') (by decide) h5 b4
  obtain ⟨r6, a6, b6⟩ := expectChar_complete (c := '(') (by decide) h6 b5
  obtain ⟨r7, a7, b7⟩ := readNames_complete h7 (lit_next rfl (by decide) h8 (by decide)) b6 (fuel := r6.length)
    (by rw [← b6.length]; exact eatWhite_length_le _)
  obtain ⟨r8, a8, b8⟩ := expectChar_complete (c := ')') (by decide) h8 b7
  obtain ⟨r9, a9, b9⟩ := expectChar_complete (c := ',') (by decide) h9 b8
  obtain ⟨r10, a10, b10⟩ := expectText_complete (s := t!"lp") ⟨_, _, rfl, by decide⟩ h10 b9
  obtain ⟨r11, a11, b11⟩ := expectChar_complete (c := ';') (by decide) h11 b10
  obtain ⟨r12, a12, b12⟩ := expectText_complete (s := t!"int") ⟨_, _, rfl, by decide⟩ h12 b11
  obtain ⟨r13, a13, b13⟩ := expectText_complete (s := t!"noVars") ⟨_, _, rfl, by decide⟩ h13 b12
  obtain ⟨r14, a14, b14⟩ := expectText_complete (s := t!"=") ⟨_, _, rfl, by decide⟩ h14 b13
  rcases hd with ⟨rfl, rfl⟩ | ⟨rfl, rfl, rfl⟩
  · have hm := matchChar_next (c := '1') ((lit_next rfl (by decide) h15 (by decide : ('0' : Char) ≠ '1')).congr b14)
    obtain ⟨r15, a15, b15⟩ := matchChar_complete (c := '0') (by decide) h15 ((eatWhite_idem r14).trans b14)
    obtain ⟨r16, a16, b16⟩ := expectChar_complete (c := ';') (by decide) h16 b15
    refine ⟨r16, ?_, b16⟩
    simp only [readRingSingular, Option.bind_eq_bind, a1, a2, a3, a4, a5, a6, a7, a8, a9, a10, a11, a12, a13, a14, hm, a15, a16, Option.bind_some,
      if_true, Bool.false_eq_true, if_false]
  · obtain ⟨r15, a15, b15⟩ := matchChar_complete (c := '1') (by decide) h15 b14
    obtain ⟨r16, a16, b16⟩ := expectChar_complete (c := ';') (by decide) h16 b15
    refine ⟨r16, ?_, b16⟩
    simp only [readRingSingular, Option.bind_eq_bind, a1, a2, a3, a4, a5, a6, a7, a8, a9, a10, a11, a12, a13, a14, a15, a16, Option.bind_some,
      if_true]

theorem readRingMonos_complete {names : List Text} {t r t0 : Text} (h : ringMonosG names t r) (h0 : Alike t0 t) :
    ∃ r0, readRingMonos t0 = some (names, r0) ∧ Alike r0 r := by
  obtain ⟨u1, h1, u2, h2, h3⟩ := h
  obtain ⟨r1, a1, b1⟩ := expectText_complete (s := t!"vars") ⟨_, _, rfl, by decide⟩ h1 h0
  rcases h2 with ⟨rfl, rfl⟩ | h2
  · obtain ⟨r2, a2, b2⟩ := matchChar_complete (c := ';') (by decide) h3 b1
    exact ⟨r2, by simp only [readRingMonos, Option.bind_eq_bind, a1, a2, Option.bind_some, if_true], b2⟩
  · have hm := matchChar_next (c := ';') ((next_of_first (namesG_first h2) (q := (· ≠ ';')) (by
      rintro c hc rfl
      simp [isAlpha] at hc)).congr b1)
    have b1' := (eatWhite_idem r1).trans b1
    obtain ⟨r2, a2, b2⟩ := readNames_complete h2 (lit_next rfl (by decide) h3 (by decide)) b1' (fuel := (eatWhite r1).length)
      (by rw [← b1'.length]; exact eatWhite_length_le _)
    obtain ⟨r3, a3, b3⟩ := expectChar_complete (c := ';') (by decide) h3 b2
    refine ⟨r3, ?_, b3⟩
    simp only [readRingMonos, Option.bind_eq_bind, a1, hm, a2, a3, Option.bind_some, Bool.false_eq_true, if_false]

/-! ## Ideals -/

theorem readBareM2_complete {names : List Text} (hn : names.Nodup) {terms : List (List ℕ)} {t r t0 : Text} (h : bareM2G names terms t r)
    (h0 : Alike t0 t) : ∃ k r0, readBareM2 false names t0 = some (k, r0) ∧ TermsInv names terms k ∧ Alike r0 r := by
  obtain ⟨u1, h1, u2, h2, u3, h3, u4, h4, u5, h5, u6, h6, h7⟩ := h
  obtain ⟨r1, a1, b1⟩ := expectChar_complete (c := 'I') (by decide) h1 h0
  obtain ⟨r2, a2, b2⟩ := expectChar_complete (c := '=') (by decide) h2 b1
  obtain ⟨r3, a3, b3⟩ := expectText_complete (s := t!"monomialIdeal") ⟨_, _, rfl, by decide⟩ h3 b2
  obtain ⟨r4, a4, b4⟩ := expectChar_complete (c := '(') (by decide) h4 b3
  rcases h5 with ⟨rfl, h5 | ⟨x, v1, g1, v2, g2, g3⟩⟩ | h5
  · obtain ⟨r5, a5, b5⟩ := matchChar_complete (c := '0') (by decide) h5 b4
    have hm := matchChar_next (c := '_') ((lit_next rfl (by decide) h6 (by decide : (')' : Char) ≠ '_')).congr b5)
    obtain ⟨r6, a6, b6⟩ := expectChar_complete (c := ')') (by decide) h6 ((eatWhite_idem r5).trans b5)
    obtain ⟨r7, a7, b7⟩ := expectChar_complete (c := ';') (by decide) h7 b6
    refine ⟨_, r7, ?_, .begin names, b7⟩
    simp only [readBareM2, Option.bind_eq_bind, a1, a2, a3, a4, a5, hm, a6, a7, Option.bind_some, if_true, Bool.false_eq_true, if_false]
  · obtain ⟨s1, c1, d1⟩ := matchChar_complete (c := '0') (by decide) g1 b4
    obtain ⟨s2, c2, d2⟩ := matchChar_complete (c := '_') (by decide) g2 d1
    obtain ⟨s3, c3, d3⟩ := readIdentifier_complete g3 d2
    obtain ⟨r6, a6, b6⟩ := expectChar_complete (c := ')') (by decide) h6 d3
    obtain ⟨r7, a7, b7⟩ := expectChar_complete (c := ';') (by decide) h7 b6
    refine ⟨_, r7, ?_, .begin names, b7⟩
    simp only [readBareM2, Option.bind_eq_bind, a1, a2, a3, a4, c1, c2, c3, a6, a7, Option.bind_some, Option.map_some, if_true]
  · have hfirst : Next (· ≠ '0') u4 := by
      refine next_of_first (p := fun c => c = '1' ∨ isAlpha c = true) ?_ (ne_of_first (by decide) (by decide))
      cases h5 with
      | one h => exact productM2G_first h
      | cons h _ _ => exact productM2G_first h
    have hm := matchChar_next (hfirst.congr b4)
    obtain ⟨k, r5, a5, hk, b5⟩ := readSep_complete (sep := ',') (by decide) ⟨by decide, by decide, by decide⟩ (productM2G_shrinks names)
      (readTermM2_complete hn terms) h5 r4.length [] (.beginIdeal names) (eatWhite r4) (by simp) (.begin names)
      (lit_next rfl (by decide) h6 ⟨by decide, by decide, by decide⟩) (lit_next rfl (by decide) h6 (by decide))
      ((eatWhite_idem r4).trans b4) (by rw [← b4.length]; exact eatWhite_length_le _)
    obtain ⟨r6, a6, b6⟩ := expectChar_complete (c := ')') (by decide) h6 b5
    obtain ⟨r7, a7, b7⟩ := expectChar_complete (c := ';') (by decide) h7 b6
    refine ⟨k, r7, ?_, by simpa using hk, b7⟩
    simp only [readBareM2, Option.bind_eq_bind, a1, a2, a3, a4, hm, a5, a6, a7, Option.bind_some, Bool.false_eq_true, if_false]

theorem readBareCoCoA_complete {names : List Text} {terms : List (List ℕ)} {t r t0 : Text} (h : bareCoCoAG names terms t r)
    (hnx : Next (· ≠ ';') r) (h0 : Alike t0 t) : ∃ k r0, readBareCoCoA false names t0 = some (k, r0) ∧ TermsInv names terms k ∧ Alike r0 r := by
  obtain ⟨u1, h1, u2, h2, u3, h3, u4, h4, u5, h5, u6, h6, h7⟩ := h
  obtain ⟨r1, a1, b1⟩ := expectChar_complete (c := 'I') (by decide) h1 h0
  obtain ⟨r2, a2, b2⟩ := expectText_complete (s := t!":=") ⟨_, _, rfl, by decide⟩ h2 b1
  obtain ⟨r3, a3, b3⟩ := expectText_complete (s := t!"Ideal") ⟨_, _, rfl, by decide⟩ h3 b2
  obtain ⟨r4, a4, b4⟩ := expectChar_complete (c := '(') (by decide) h4 b3
  have hsemi : ∀ r6, Alike r6 u6 → Alike (matchChar ';' r6).2 r := by
    intro r6 b6
    rcases h7 with h7 | h7
    · have b7 := b6.trans (lit_nil_alike h7)
      rw [matchChar_next (hnx.congr b7)]
      exact (eatWhite_idem r6).trans b7
    · obtain ⟨r7, a7, b7⟩ := matchChar_complete (c := ';') (by decide) h7 b6
      rw [a7]
      exact b7
  rcases h5 with ⟨rfl, rfl⟩ | h5
  · obtain ⟨r6, a6, b6⟩ := matchChar_complete (c := ')') (by decide) h6 b4
    refine ⟨_, _, ?_, .begin names, hsemi _ b6⟩
    simp only [readBareCoCoA, Option.bind_eq_bind, a1, a2, a3, a4, a6, Option.bind_some, if_true]
  · have hfirst : Next (· ≠ ')') u4 := by
      refine next_of_first (p := fun c => c = '1' ∨ isAlpha c = true) ?_ (ne_of_first (by decide) (by decide))
      cases h5 with
      | one h => exact productCoCoAG_first h
      | cons h _ _ => exact productCoCoAG_first h
    have hm := matchChar_next (hfirst.congr b4)
    obtain ⟨k, r5, a5, hk, b5⟩ := readSep_complete (sep := ',') (by decide) ⟨by decide, by decide⟩ (productCoCoAG_shrinks names)
      (readTermCoCoA_complete terms) h5 r4.length [] (.beginIdeal names) (eatWhite r4) (by simp) (.begin names)
      (lit_next rfl (by decide) h6 ⟨by decide, by decide⟩) (lit_next rfl (by decide) h6 (by decide))
      ((eatWhite_idem r4).trans b4) (by rw [← b4.length]; exact eatWhite_length_le _)
    obtain ⟨r6, a6, b6⟩ := expectChar_complete (c := ')') (by decide) h6 b5
    refine ⟨k, _, ?_, by simpa using hk, hsemi _ b6⟩
    simp only [readBareCoCoA, Option.bind_eq_bind, a1, a2, a3, a4, hm, a5, a6, Option.bind_some, Bool.false_eq_true, if_false]

theorem terms_first {names : List Text} {terms : List (List ℕ)} {sep t r : Text} (h : SepBy (productG names) sep terms t r) {d : Char}
    (h1 : d ≠ '1') (h2 : isAlpha d = false) : Next (· ≠ d) t := by
  refine next_of_first (p := fun c => c = '1' ∨ isAlpha c = true) ?_ (ne_of_first h1 h2)
  cases h with
  | one h => exact productG_first h
  | cons h _ _ => exact productG_first h

theorem readTerms_complete {names : List Text} (hn : names.Nodup) {terms : List (List ℕ)} {t r t0 : Text}
    (h : SepBy (productG names) t!"," terms t r) (hnx : Next (fun c => AfterProduct c ∧ c ≠ ',') r) (h0 : Alike t0 t) {fuel : ℕ}
    (hf : (eatWhite t).length ≤ fuel) : ∃ k r0, readSep (InputConsumer.readTermProduct false) ',' fuel (.beginIdeal names) t0 = some (k, r0) ∧
      TermsInv names terms k ∧ Alike r0 r := by
  obtain ⟨k, r5, a5, hk, b5⟩ := readSep_complete (sep := ',') (by decide) ⟨by decide, by decide⟩ (productG_shrinks names)
    (readTermProduct_complete hn terms) h fuel [] (.beginIdeal names) t0 (by simp) (.begin names)
    (hnx.mono fun _ h => h.1) (hnx.mono fun _ h => h.2) h0 hf
  exact ⟨k, r5, a5, by simpa using hk, b5⟩

theorem readBareSingular_complete {names : List Text} (hn : names.Nodup) {terms : List (List ℕ)} {t r t0 : Text}
    (h : bareSingularG names terms t r) (h0 : Alike t0 t) :
    ∃ k r0, readBareSingular false names t0 = some (k, r0) ∧ TermsInv names terms k ∧ Alike r0 r := by
  obtain ⟨u1, h1, u2, h2, u3, h3, u4, h4, h5⟩ := h
  obtain ⟨r1, a1, b1⟩ := expectText_complete (s := t!"ideal") ⟨_, _, rfl, by decide⟩ h1 h0
  obtain ⟨r2, a2, b2⟩ := expectChar_complete (c := 'I') (by decide) h2 b1
  obtain ⟨r3, a3, b3⟩ := expectChar_complete (c := '=') (by decide) h3 b2
  rcases h4 with ⟨_, ⟨rfl, rfl⟩, h4⟩ | h4
  · obtain ⟨r4, a4, b4⟩ := matchChar_complete (c := '0') (by decide) h4 b3
    obtain ⟨r5, a5, b5⟩ := expectChar_complete (c := ';') (by decide) h5 b4
    refine ⟨_, r5, ?_, .begin names, b5⟩
    simp only [readBareSingular, Option.bind_eq_bind, a1, a2, a3, a4, a5, Option.bind_some, if_true]
  · have hm := matchChar_next (c := '0') ((terms_first h4 (by decide) (by decide)).congr b3)
    obtain ⟨k, r4, a4, hk, b4⟩ := readTerms_complete hn h4 (lit_next rfl (by decide) h5 ⟨⟨by decide, by decide⟩, by decide⟩)
      ((eatWhite_idem r3).trans b3) (fuel := r3.length) (by rw [← b3.length]; exact eatWhite_length_le _)
    obtain ⟨r5, a5, b5⟩ := expectChar_complete (c := ';') (by decide) h5 b4
    refine ⟨k, r5, ?_, hk, b5⟩
    simp only [readBareSingular, Option.bind_eq_bind, a1, a2, a3, hm, a4, a5, Option.bind_some, Bool.false_eq_true, if_false]

theorem readBareMonos_complete {names : List Text} (hn : names.Nodup) {terms : List (List ℕ)} {t r t0 : Text}
    (h : bareMonosG names terms t r) (h0 : Alike t0 t) :
    ∃ k r0, readBareMonos false names t0 = some (k, r0) ∧ TermsInv names terms k ∧ Alike r0 r := by
  obtain ⟨u1, h1, u2, h2, u3, h3, h4⟩ := h
  obtain ⟨r1, a1, b1⟩ := expectChar_complete (c := '[') (by decide) h1 h0
  rcases h2 with ⟨rfl, rfl⟩ | h2
  · obtain ⟨r3, a3, b3⟩ := matchChar_complete (c := ']') (by decide) h3 b1
    obtain ⟨r4, a4, b4⟩ := expectChar_complete (c := ';') (by decide) h4 b3
    refine ⟨_, r4, ?_, .begin names, b4⟩
    simp only [readBareMonos, Option.bind_eq_bind, a1, a3, a4, Option.bind_some, if_true]
  · have hm := matchChar_next (c := ']') ((terms_first h2 (by decide) (by decide)).congr b1)
    obtain ⟨k, r2, a2, hk, b2⟩ := readTerms_complete hn h2 (lit_next rfl (by decide) h3 ⟨⟨by decide, by decide⟩, by decide⟩)
      ((eatWhite_idem r1).trans b1) (fuel := r1.length) (by rw [← b1.length]; exact eatWhite_length_le _)
    obtain ⟨r3, a3, b3⟩ := matchChar_complete (c := ']') (by decide) h3 b2
    obtain ⟨r4, a4, b4⟩ := expectChar_complete (c := ';') (by decide) h4 b3
    refine ⟨k, r4, ?_, hk, b4⟩
    simp only [readBareMonos, Option.bind_eq_bind, a1, hm, a2, a3, a4, Option.bind_some, Bool.false_eq_true, if_false, if_true]

theorem readRingNewMonos_complete {names : List Text} {t r t0 : Text} (h : (lit t!"lex-order" ⊹ manyNamesG names ⊹ lit t!")") t r)
    (h0 : Alike t0 t) : ∃ r0, readRingNewMonos t0 = some (names, r0) ∧ Alike r0 r := by
  obtain ⟨u1, h1, u2, h2, h3⟩ := h
  obtain ⟨r1, a1, b1⟩ := expectText_complete (s := t!"lex-order") ⟨_, _, rfl, by decide⟩ h1 h0
  obtain ⟨names', r2, a2, ⟨hk, _⟩, b2⟩ := readUntil_complete (stop := ')') (by decide) trivial nameG_shrinks
    (fun a t r h => next_of_first (nameG_first h) (by
      rintro c hc
      exact ⟨trivial, by rintro rfl; simp [isAlpha] at hc⟩)) (readName_complete h2.1) h2.2 h3 (r1.length + 1) [] [] r1 (by simp)
    ⟨rfl, by simp⟩ b1 (by rw [← b1.length]; exact Nat.lt_succ_of_le (eatWhite_length_le _))
  simp only [List.nil_append] at hk
  subst hk
  exact ⟨r2, by simp only [readRingNewMonos, Option.bind_eq_bind, a1, Option.bind_some, a2], b2⟩

theorem readNewMonos_complete {I : NamedIdeal} {t r t0 : Text} (h : newMonosG I t r) (h0 : Alike t0 t) :
    ∃ k r0, readConsumer false .newmonos t0 = some (k, r0) ∧ TermsInv I.names I.terms k ∧ Alike r0 r := by
  obtain ⟨u1, h1, u2, h2, u3, h3, u4, h4, u5, h5, u6, h6, u7, h7, h8⟩ := h
  have hn : I.names.Nodup := h5.1
  obtain ⟨r1, a1, b1⟩ := expectChar_complete (c := '(') (by decide) h1 h0
  obtain ⟨r2, a2, b2⟩ := expectText_complete (s := t!"monomial-ideal-with-order") ⟨_, _, rfl, by decide⟩ h2 b1
  obtain ⟨r3, a3, b3⟩ := expectChar_complete (c := '(') (by decide) h3 b2
  obtain ⟨r4, a4, b4⟩ := readRingNewMonos_complete ⟨u4, h4, u5, h5, h6⟩ b3
  obtain ⟨k, r5, a5, hk, b5⟩ := readUntil_complete (stop := ')') (by decide) ⟨by decide, by decide⟩ (productG_shrinks I.names)
    (fun a t r h => next_of_first (productG_first h) (by
      rintro c hc
      exact ⟨⟨ne_of_first (by decide) (by decide) c hc, ne_of_first (by decide) (by decide) c hc⟩, ne_of_first (by decide) (by decide) c hc⟩))
    (readTermProduct_complete hn I.terms) h7 h8 (r4.length + 1) [] (.beginIdeal I.names) r4 (by simp)
    (.begin _) b4 (by rw [← b4.length]; exact Nat.lt_succ_of_le (eatWhite_length_le _))
  refine ⟨k, r5, ?_, by simpa using hk, b5⟩
  simp only [readConsumer, readIdealNoLeftParen, Option.bind_eq_bind, a1, a2, a3, a4, Option.bind_some, a5]

theorem rows_nil {es : List (List ℕ)} {t r : Text} (h : Many (row4ti2G 0) es t r) : es = List.replicate es.length [] ∧ Alike t r := by
  induction h with
  | nil h1 => exact ⟨rfl, lit_nil_alike h1⟩
  | cons h1 _ ih =>
    obtain ⟨h2, h3⟩ := h1
    have := List.length_eq_zero_iff.1 h2
    subst this
    cases h3 with
    | nil h4 => exact ⟨by rw [List.length_cons, List.replicate_succ, ← ih.1], (lit_nil_alike h4).trans ih.2⟩

theorem read4ti2_complete {I : NamedIdeal} {t r t0 : Text} (h : fourti2G I t r) (hnx : Next (fun c => isAlpha c = false) r) (h0 : Alike t0 t) :
    ∃ k r0, readConsumer false .fourti2 t0 = some (k, r0) ∧ TermsInv I.names I.terms k ∧ Alike r0 r := by
  obtain ⟨names, terms⟩ := I
  obtain ⟨u1, h1, u2, h2, u3, h3, h4⟩ := h
  simp only at h1 h2 h3 h4
  obtain ⟨r1, a1, b1⟩ := readSizeT_complete h1 h0
  obtain ⟨r2, a2, b2⟩ := readSizeT_complete h2 b1
  have key : ∃ k r3, (if names.length = 0 then some ({ InputConsumer.beginIdeal [] with gens := List.replicate terms.length [] }, r2)
      else readTimes (InputConsumer.readTerm4ti2 false) terms.length (.beginIdeal (defaultNames names.length)) r2) = some (k, r3) ∧
      TermsInv (defaultNames names.length) terms k ∧ Alike r3 u3 := by
    split
    · rename_i hz
      rw [hz] at h3 ⊢
      obtain ⟨h5, h6⟩ := rows_nil h3
      refine ⟨_, r2, rfl, ⟨rfl, ?_⟩, b2.trans h6⟩
      rw [h5]
      simp
    · obtain ⟨k, r3, a3, hk, b3⟩ := readTimes_complete (fun _ _ _ _ => next_true _) (readTerm4ti2_complete (names := defaultNames names.length) terms)
        (by rw [defaultNames_length]; exact h3) [] (.beginIdeal (defaultNames names.length)) r2 (by simp) (.begin _) (next_true _) b2
      exact ⟨k, r3, a3, by simpa using hk, b3⟩
  obtain ⟨k, r3, a3, hk, b3⟩ := key
  have fin : ∃ k' r4, (if peekIdentifier r3 = true then
      (readTimes readName names.length [] r3).bind fun p => some ({ k with names := p.1 }, p.2) else some (k, r3)) = some (k', r4) ∧
      TermsInv names terms k' ∧ Alike r4 r := by
    have hno : Alike u3 r → names = defaultNames names.length → ∃ k' r4, (if peekIdentifier r3 = true then
      (readTimes readName names.length [] r3).bind fun p => some ({ k with names := p.1 }, p.2) else some (k, r3)) = some (k', r4) ∧
      TermsInv names terms k' ∧ Alike r4 r := by
      intro hu hd
      have b4 := b3.trans hu
      have : peekIdentifier r3 = false := peekIdentifier_next (hnx.congr b4)
      rw [if_neg (by simp [this])]
      exact ⟨k, r3, rfl, ⟨by rw [hk.1, ← hd], hk.2⟩, b4⟩
    rcases h4 with ⟨h4, rfl⟩ | ⟨hnd, h4⟩
    · exact hno (.refl _) h4
    · cases hnames : names with
      | nil =>
        subst hnames
        cases h4 with
        | nil h5 => exact hno (lit_nil_alike h5) rfl
      | cons x l =>
        rw [← hnames]
        have hp : peekIdentifier r3 = true := by
          rw [hnames] at h4
          cases h4 with
          | cons h5 _ => exact peekIdentifier_complete h5 b3
        obtain ⟨names', r4, a4, ⟨h6, _⟩, b4⟩ := readTimes_complete (fun _ _ _ _ => next_true _) (readName_complete hnd) h4 [] [] r3 (by simp)
          ⟨rfl, by simp⟩ (next_true _) b3
        simp only [List.nil_append] at h6
        subst h6
        rw [if_pos hp, a4]
        exact ⟨_, r4, rfl, ⟨rfl, hk.2⟩, b4⟩
  obtain ⟨k', r4, a4, hk', b4⟩ := fin
  refine ⟨k', r4, ?_, hk', b4⟩
  simp only [readConsumer, readIdeal4ti2, Option.bind_eq_bind, a1, a2, Option.bind_some]
  split at a3
  · rename_i hz
    rw [if_pos hz]
    simp only [Option.some.injEq, Prod.mk.injEq] at a3
    obtain ⟨rfl, rfl⟩ := a3
    exact a4
  · rename_i hz
    rw [if_neg hz, a3]
    exact a4

theorem readConsumer_complete {f : IOFormat} {I : NamedIdeal} {t r t0 : Text} (h : idealG f I t r)
    (hnx : Next (fun c => isAlpha c = false ∧ c ≠ ';') r) (h0 : Alike t0 t) :
    ∃ k r0, readConsumer false f t0 = some (k, r0) ∧ TermsInv I.names I.terms k ∧ Alike r0 r := by
  cases f with
  | newmonos => exact readNewMonos_complete h h0
  | fourti2 => exact read4ti2_complete h (hnx.mono fun _ h => h.1) h0
  | m2 =>
    obtain ⟨u, h1, h2⟩ := h
    obtain ⟨r1, a1, b1⟩ := readRingM2_complete h1 h0
    have hn : I.names.Nodup := by
      obtain ⟨_, _, _, _, _, _, _, _, _, _, _, _, _, _, h6, _⟩ := h1
      rcases h6 with ⟨h6, _⟩ | h6
      · simp [h6]
      · exact h6.1
    obtain ⟨k, r2, a2, hk, b2⟩ := readBareM2_complete hn h2 b1
    exact ⟨k, r2, by simp only [readConsumer, Option.bind_eq_bind, readRing, readBare, a1, a2, Option.bind_some], hk, b2⟩
  | cocoa4 =>
    obtain ⟨u, h1, h2⟩ := h
    obtain ⟨r1, a1, b1⟩ := readRingCoCoA_complete h1 h0
    obtain ⟨k, r2, a2, hk, b2⟩ := readBareCoCoA_complete h2 (hnx.mono fun _ h => h.2) b1
    exact ⟨k, r2, by simp only [readConsumer, Option.bind_eq_bind, readRing, readBare, a1, a2, Option.bind_some], hk, b2⟩
  | singular =>
    obtain ⟨u, h1, h2⟩ := h
    obtain ⟨r1, a1, b1⟩ := readRingSingular_complete h1 h0
    have hn : I.names.Nodup := by
      obtain ⟨w, digit, hd, _, _, _, _, _, _, _, _, _, _, _, _, _, h7, _⟩ := h1
      rcases hd with ⟨_, hd⟩ | ⟨_, _, hd⟩
      · rw [hd]
        exact h7.1
      · simp [hd]
    obtain ⟨k, r2, a2, hk, b2⟩ := readBareSingular_complete hn h2 b1
    exact ⟨k, r2, by simp only [readConsumer, Option.bind_eq_bind, readRing, readBare, a1, a2, Option.bind_some], hk, b2⟩
  | monos =>
    obtain ⟨u, h1, h2⟩ := h
    obtain ⟨r1, a1, b1⟩ := readRingMonos_complete h1 h0
    have hn : I.names.Nodup := by
      obtain ⟨_, _, _, h6, _⟩ := h1
      rcases h6 with ⟨h6, _⟩ | h6
      · simp [h6]
      · exact h6.1
    obtain ⟨k, r2, a2, hk, b2⟩ := readBareMonos_complete hn h2 b1
    exact ⟨k, r2, by simp only [readConsumer, Option.bind_eq_bind, readRing, readBare, a1, a2, Option.bind_some], hk, b2⟩

end Frobby

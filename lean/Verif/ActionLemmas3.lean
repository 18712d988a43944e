import Verif.ActionLemmas2

/-!
# Lemmas about the actions: the text that is written is read back

CoCoA 4 is different from the other formats here, since powers with exponent zero are written.
-/

namespace Frobby

variable {n : ℕ}

theorem PowerInv.startAll {e : List ℕ} {k : InputConsumer} (hl : e.length = k.names.length) :
    PowerInv k.names e k.gens k.beginTerm (List.range' 0 e.length) := by
  refine ⟨rfl, ⟨List.replicate k.names.length 0, rfl, by simp [hl], fun i => ?_⟩, List.nodup_range', fun i hi => ?_⟩
  · have h1 : (List.replicate k.names.length 0).getD i 0 = 0 := by
      rw [List.getD_eq_getElem?_getD, List.getElem?_replicate]
      split <;> rfl
    rw [h1]
    split
    · rfl
    · rename_i h
      simp only [List.mem_range'_1, Nat.zero_le, Nat.zero_add, true_and, not_lt] at h
      rw [List.getD_eq_default _ _ h]
  · simp only [List.mem_range'_1] at hi
    omega

theorem writePowersCoCoATranslated_eq {e : List ℕ} : ∀ (es : List ℕ) (i : ℕ), (∀ j, es.getD j 0 = e.getD (i + j) 0) →
    writePowersCoCoATranslated i es = (List.range' i es.length).flatMap (powerTextCoCoA e) := by
  intro es
  induction es with
  | nil => intro i _; rfl
  | cons a es ih =>
    intro i he
    have ha : e.getD i 0 = a := by
      have h1 := he 0
      simp only [List.getD_cons_zero, Nat.add_zero] at h1
      exact h1.symm
    rw [writePowersCoCoATranslated, ih (i + 1) (fun j => by have := he (j + 1); rw [List.getD_cons_succ] at this; rw [this]; congr 1; omega),
      List.length_cons, List.range'_succ, List.flatMap_cons, powerTextCoCoA, ha]

theorem termReads_cocoaTranslated {sf : Bool} {names : List Text} (hbig : names.length < 2 ^ 64) :
    TermReads sf names (InputConsumer.readTermCoCoA sf) writeTermCoCoATranslated (fun r => PowerStopCoCoA r ∧ peekChar 'x' r = false) := by
  intro k e r t hk he hr ht
  subst hk
  have hstart := PowerInv.startAll (k := k) he.length
  have hw := writePowersCoCoATranslated_eq (e := e) e 0 (fun j => by simp)
  unfold writeTermCoCoATranslated at ht
  unfold InputConsumer.readTermCoCoA
  rw [hw] at ht
  cases he0 : e with
  | nil =>
    rw [he0] at hstart ht
    refine ⟨k.beginTerm, r, ?_, rfl, hstart.done, rfl⟩
    rw [matchChar_congr ht]
    simp [matchChar_cons, isSpace]
  | cons a es =>
    have hz : List.range' 0 e.length = 0 :: List.range' 1 es.length := by rw [he0, List.length_cons, List.range'_succ]
    rw [← he0]
    rw [if_neg (by rw [he0]; simp), hz] at ht
    rw [hz] at hstart
    generalize List.range' 1 es.length = js at ht hstart hz
    rw [List.flatMap_cons, List.append_assoc] at ht
    have hm : matchChar '1' t = (false, powerTextCoCoA e 0 ++ (js.flatMap (powerTextCoCoA e) ++ r)) := by
      rw [matchChar_congr ht]
      simp [powerTextCoCoA, matchChar_cons, isSpace]
    rw [hm]
    simp only
    obtain ⟨k', r', g1, g2, g3⟩ := readWhileX_spec (item := InputConsumer.readPowerCoCoA sf) (tx := powerTextCoCoA e)
      (Inv := PowerInv k.names e k.gens) (Stop := PowerStopCoCoA)
      (fun s x xs r t hInv hr ht => by
        have hx : x < k.names.length := he.length ▸ hInv.hlt x (by simp)
        obtain ⟨k', r', f1, f2, f3, f4⟩ := readPowerCoCoA_spec (sf := sf) (k := s) (e := e) (i := x) (by rw [hInv.hnames]; exact hx)
          (by rw [hInv.hnames]; exact hbig) hInv.exponent (fun h => he.sqf h x) hr ht
        exact ⟨k', r', f1, hInv.step f2 f3, f4⟩)
      (fun x u => by simp [PowerStopCoCoA, powerTextCoCoA, nextIs, isDigit, peekChar_cons, isSpace])
      (fun x u => by simp [powerTextCoCoA, peekChar_cons, isSpace]) hr.1 hr.2 js 0
      (powerTextCoCoA e 0 ++ (js.flatMap (powerTextCoCoA e) ++ r)).length k.beginTerm _ hstart
      (by
        have := length_le_flatMap (powerTextCoCoA e) (by simp [powerTextCoCoA]) js
        have h2 : 0 < (powerTextCoCoA e 0).length := by simp [powerTextCoCoA]
        rw [List.length_append, List.length_append]
        omega) rfl
    exact ⟨k', r', g1, g2.hnames, g2.done, g3⟩

theorem gensTextTranslated_eq (e : List ℕ) (es : List (List ℕ)) :
    gensTextTranslated true (e :: es) = t!"\n " ++ gensText writeTermCoCoATranslated (e :: es) := by
  have h : ∀ es : List (List ℕ), gensTextTranslated false es = es.flatMap (fun y => ',' :: (t!"\n " ++ writeTermCoCoATranslated y)) := by
    intro es
    induction es with
    | nil => simp [gensTextTranslated]
    | cons y ys ih =>
      rw [gensTextTranslated, ih, List.flatMap_cons]
      simp
  rw [gensTextTranslated, h]
  simp [gensText]

theorem writeTermCoCoATranslated_head (e : List ℕ) : ∃ c l, writeTermCoCoATranslated e = c :: l ∧ (c = 'x' ∨ c = '1') := by
  unfold writeTermCoCoATranslated
  cases e with
  | nil => exact ⟨'1', [], rfl, Or.inr rfl⟩
  | cons a es => exact ⟨'x', _, rfl, Or.inl rfl⟩

theorem readBare_cocoaTranslated {sf : Bool} {I : NamedIdeal} (hbig : I.names.length < 2 ^ 64)
    (hgood : ∀ e ∈ I.terms, GoodTerm sf I.names e) (r t : Text)
    (ht : eatWhite t = eatWhite (t!"I := Ideal(" ++ gensTextTranslated true I.terms ++ t!"\n);\n" ++ r)) :
    ∃ k r', readBare sf .cocoa4 I.names t = some (k, r') ∧ k.names = I.names ∧ k.gens.reverse = I.terms ∧ eatWhite r' = eatWhite r := by
  simp only [readBare, readBareCoCoA]
  rw [expectChar_congr ht]
  by_cases hne : I.terms = []
  · refine ⟨.beginIdeal I.names, t!"\n" ++ r, ?_, rfl, by simp [InputConsumer.beginIdeal, hne], by simp [eatWhite_cons, isSpace]⟩
    simp [hne, gensTextTranslated, expectChar_cons, expectText_cons, stripText, matchChar_cons, isSpace]
  · obtain ⟨e, es, hes⟩ := List.exists_cons_of_ne_nil hne
    obtain ⟨u, hu⟩ : ∃ u, u = t!"\n " ++ (gensText writeTermCoCoATranslated I.terms ++ (t!"\n);\n" ++ r)) := ⟨_, rfl⟩
    have hm : matchChar ')' u = (false, gensText writeTermCoCoATranslated I.terms ++ (t!"\n);\n" ++ r)) := by
      obtain ⟨c, l, h1, h2⟩ := writeTermCoCoATranslated_head e
      rw [hu, hes]
      rcases h2 with rfl | rfl <;> simp [gensText, h1, matchChar_cons, isSpace]
    obtain ⟨k', r', f1, f2, f3, f4⟩ := readTerms_spec (termReads_cocoaTranslated hbig) (fun k t u h => readTermCoCoA_congr h)
      (fun u => by simp [PowerStopCoCoA, nextIs, isDigit, peekChar_cons, isSpace]) hne hgood (r := t!"\n);\n" ++ r)
      (by simp [PowerStopCoCoA, nextIs, isDigit, peekChar_cons, isSpace]) (by simp [peekChar_cons, isSpace]) rfl
      (fuel := u.length) (by simp only [hu, List.length_append, List.length_cons]; omega)
    refine ⟨k', t!"\n" ++ r, ?_, f2, f3, by simp [eatWhite_cons, isSpace]⟩
    have hb : t!"I := Ideal(" ++ gensTextTranslated true I.terms ++ t!"\n);\n" ++ r = t!"I := Ideal(" ++ u := by
      simp only [hu, hes, gensTextTranslated_eq]
      simp
    rw [hb]
    simp [expectChar_cons, expectText_cons, stripText, isSpace, hm]
    simp only [List.cons_append, List.nil_append] at f1
    rw [f1]
    simp only [Option.bind_some]
    rw [expectChar_congr f4]
    simp [expectChar_cons, isSpace, matchChar_cons]

theorem readIdeal_idealText (g : IOFormat) {I : NamedIdeal} (hI : WellFormed I) : readIdeal g (idealText g I) = some I := by
  unfold idealText
  split
  · rename_i hg
    subst hg
    have hR := hI.readable
    obtain ⟨r1, h1, h2⟩ := ringReads_cocoa hR.names hR.varCount (t!"I := Ideal(" ++ gensTextTranslated true I.terms ++ t!"\n);\n")
      (writeRing I.names .cocoa4 ++ t!"I := Ideal(" ++ gensTextTranslated true I.terms ++ t!"\n);\n") (by simp only [List.append_assoc])
    obtain ⟨k, r', h3, h4, h5, h6⟩ := readBare_cocoaTranslated hR.varCount hR.terms [] r1 (by rw [h2]; simp)
    have hk : k.release = I := by
      unfold InputConsumer.release
      rw [h4, h5]
    have h7 : readConsumer false .cocoa4 (writeRing I.names .cocoa4 ++ t!"I := Ideal(" ++ gensTextTranslated true I.terms ++ t!"\n);\n") = some (k, r') := by
      change ((readRing .cocoa4 _).bind fun p => readBare false .cocoa4 p.1 p.2) = _
      rw [h1]
      exact h3
    have h8 : eatWhite r' = [] := h6
    unfold readIdeal
    rw [h7]
    simp [matchEOF, h8, hk]
  · exact C32_round_trip g hI

theorem toNamed_wellFormed {names : List Text} (hr : AllowedRing names) (hn : names.length = n) {I : List (Term n)} (hc : I.length < 2 ^ 64) :
    WellFormed (toNamed names I) := by
  refine ⟨hr, fun e he => ?_, by simpa [toNamed] using hc⟩
  obtain ⟨t, _, rfl⟩ := List.mem_map.1 he
  simp [toNamed, hn]

theorem read_ideal (g : IOFormat) {names : List Text} (hr : AllowedRing names) (hn : names.length = n) {I : List (Term n)} (hc : I.length < 2 ^ 64) :
    readIdeal g (runWriter g names (bigIdeal I)) = some (toNamed names I) := by
  rw [runWriter_ideal]
  exact readIdeal_idealText g (toNamed_wellFormed hr hn hc)

theorem read_list {g : IOFormat} (hg : supportsList g = true) {names : List Text} (hr : AllowedRing names) (hn : names.length = n) {Is : List (List (Term n))}
    (hc : ∀ I ∈ Is, I.length < 2 ^ 64) : readIdeals g (runWriter g names (bigList Is)) = some (Is.map (toNamed names), names) := by
  rw [runWriter_list hg, C32_round_trip_list g hr fun J hJ => ?_]
  · congr 2
    cases h : (Is.map (toNamed names)).getLast? with
    | none => rfl
    | some J =>
      obtain ⟨I, _, rfl⟩ := List.mem_map.1 (List.mem_of_getLast? h)
      rfl
  · obtain ⟨I, hI, rfl⟩ := List.mem_map.1 hJ
    exact toNamed_wellFormed hr hn (hc I hI)

end Frobby

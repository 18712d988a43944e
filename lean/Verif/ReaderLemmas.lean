import Verif.GrammarSpec

/-!
# Lemmas: what is read has the meaning of the text
-/

namespace Frobby

theorem Blank.nil : Blank [] := by simp [Blank]

theorem Blank.append {a b : Text} (ha : Blank a) (hb : Blank b) : Blank (a ++ b) := by
  intro c hc
  rcases List.mem_append.1 hc with h | h
  · exact ha c h
  · exact hb c h

theorem mem_takeWhile {p : Char → Bool} {c : Char} {t : Text} (h : c ∈ t.takeWhile p) : p c = true := by
  have := List.all_takeWhile (p := p) (l := t)
  rw [List.all_eq_true] at this
  exact this c h

theorem blank_of_isSpace {c : Char} (h : isSpace c = true) : c = ' ' ∨ 9 ≤ c.toNat ∧ c.toNat ≤ 13 := by
  simp only [isSpace, decide_eq_true_eq] at h
  rcases h with h | h
  · left
    apply Char.ext
    apply UInt32.toNat_inj.1
    exact h
  · exact Or.inr h

/-- The blank space at the start. -/
theorem eatWhite_blank (t : Text) : ∃ w, Blank w ∧ t = w ++ eatWhite t :=
  ⟨t.takeWhile isSpace, fun c hc => blank_of_isSpace (mem_takeWhile hc), by simp [eatWhite]⟩

theorem skip (t : Text) : lit [] t (eatWhite t) := by
  obtain ⟨w, h1, h2⟩ := eatWhite_blank t
  exact ⟨w, [], h1, .nil, by simpa using h2⟩

theorem lit_refl (t : Text) : lit [] t t := ⟨[], [], .nil, .nil, by simp⟩

theorem lit_trans {s t r u : Text} (h : lit s t r) (h' : lit [] r u) : lit s t u := by
  obtain ⟨w, w', h1, h2, rfl⟩ := h
  obtain ⟨v, v', h3, h4, rfl⟩ := h'
  exact ⟨w, w' ++ v ++ v', h1, (h2.append h3).append h4, by simp⟩

theorem trans_lit {s t r u : Text} (h : lit [] t r) (h' : lit s r u) : lit s t u := by
  obtain ⟨w, w', h1, h2, rfl⟩ := h
  obtain ⟨v, v', h3, h4, rfl⟩ := h'
  exact ⟨w ++ w' ++ v, v', (h1.append h2).append h3, h4, by simp⟩

theorem nameG_trans {x t r u : Text} (h : nameG x t r) (h' : lit [] r u) : nameG x t u := by
  obtain ⟨h0, w, w', h1, h2, rfl, h5⟩ := h
  obtain ⟨v, v', h3, h4, rfl⟩ := h'
  exact ⟨h0, w, w' ++ v ++ v', h1, (h2.append h3).append h4, by simp, by simpa using h5⟩

theorem trans_nameG {x t r u : Text} (h : lit [] t r) (h' : nameG x r u) : nameG x t u := by
  obtain ⟨w, w', h1, h2, rfl⟩ := h
  obtain ⟨h0, v, v', h3, h4, rfl, h5⟩ := h'
  exact ⟨h0, w ++ w' ++ v, v', (h1.append h2).append h3, h4, by simp, h5⟩

theorem digitsG_trans {s ds t r u : Text} (h : digitsG s ds t r) (h' : lit [] r u) : digitsG s ds t u := by
  obtain ⟨h0, h00, w, w', h1, h2, rfl, h5⟩ := h
  obtain ⟨v, v', h3, h4, rfl⟩ := h'
  exact ⟨h0, h00, w, w' ++ v ++ v', h1, (h2.append h3).append h4, by simp, by simpa using h5⟩

theorem trans_digitsG {s ds t r u : Text} (h : lit [] t r) (h' : digitsG s ds r u) : digitsG s ds t u := by
  obtain ⟨w, w', h1, h2, rfl⟩ := h
  obtain ⟨h0, h00, v, v', h3, h4, rfl, h5⟩ := h'
  exact ⟨h0, h00, w ++ w' ++ v, v', (h1.append h2).append h3, h4, by simp, h5⟩

/-- Blank space at the start can be skipped. -/
def StartsBlank (P : Gram) : Prop := ∀ t u r, lit [] t u → P u r → P t r

/-- Blank space at the end can be skipped. -/
def EndsBlank (P : Gram) : Prop := ∀ t u r, P t u → lit [] u r → P t r

theorem lit_starts (s : Text) : StartsBlank (lit s) := fun _ _ _ h h' => trans_lit h h'
theorem lit_ends (s : Text) : EndsBlank (lit s) := fun _ _ _ h h' => lit_trans h h'
theorem nameG_starts (s : Text) : StartsBlank (nameG s) := fun _ _ _ h h' => trans_nameG h h'
theorem nameG_ends (s : Text) : EndsBlank (nameG s) := fun _ _ _ h h' => nameG_trans h h'

theorem exponentG_starts (e : ℕ) : StartsBlank (exponentG e) := fun _ _ _ h ⟨ds, h', h''⟩ => ⟨ds, trans_digitsG h h', h''⟩
theorem exponentG_ends (e : ℕ) : EndsBlank (exponentG e) := fun _ _ _ ⟨ds, h', h''⟩ h => ⟨ds, digitsG_trans h' h, h''⟩

theorem StartsBlank.seq {P : Gram} (h : StartsBlank P) (Q : Gram) : StartsBlank (P ⊹ Q) :=
  fun _ _ _ h1 ⟨v, h2, h3⟩ => ⟨v, h _ _ _ h1 h2, h3⟩
theorem EndsBlank.seq {Q : Gram} (h : EndsBlank Q) (P : Gram) : EndsBlank (P ⊹ Q) :=
  fun _ _ _ ⟨v, h2, h3⟩ h1 => ⟨v, h2, h _ _ _ h3 h1⟩

theorem SepBy.starts {α : Type} {P : α → Gram} {sep : Text} (h : ∀ a, StartsBlank (P a)) (as : List α) : StartsBlank (SepBy P sep as) := by
  intro t u r h1 h2
  cases h2 with
  | one h3 => exact .one (h _ _ _ _ h1 h3)
  | cons h3 h4 h5 => exact .cons (h _ _ _ _ h1 h3) h4 h5

theorem SepBy.ends {α : Type} {P : α → Gram} {sep : Text} (h : ∀ a, EndsBlank (P a)) (as : List α) : EndsBlank (SepBy P sep as) := by
  intro t u r h1 h2
  induction h1 with
  | one h3 => exact .one (h _ _ _ _ h3 h2)
  | cons h3 h4 h5 ih => exact .cons h3 h4 (ih h2)

theorem Many.starts {α : Type} {P : α → Gram} (h : ∀ a, StartsBlank (P a)) (as : List α) : StartsBlank (Many P as) := by
  intro t u r h1 h2
  cases h2 with
  | nil h3 => exact .nil (lit_trans h1 h3)
  | cons h3 h4 => exact .cons (h _ _ _ _ h1 h3) h4

theorem Many.ends {α : Type} {P : α → Gram} (as : List α) : EndsBlank (Many P as) := by
  intro t u r h1 h2
  induction h1 with
  | nil h3 => exact .nil (lit_trans h3 h2)
  | cons h3 h4 ih => exact .cons h3 (ih h2)

/-! ## Words, names and numbers -/

theorem matchChar_true {c : Char} {t r : Text} (h : matchChar c t = (true, r)) : lit [c] t r := by
  obtain ⟨w, h1, h2⟩ := eatWhite_blank t
  unfold matchChar at h
  split at h
  · simp at h
  · rename_i d r' h3
    split at h
    · rename_i h4
      obtain rfl := h4
      simp only [Prod.mk.injEq, true_and] at h
      subst h
      exact ⟨w, [], h1, .nil, by rw [h2, h3]; simp⟩
    · simp at h

theorem matchChar_rest {c : Char} {t r : Text} (h : matchChar c t = (false, r)) : r = eatWhite t := by
  unfold matchChar at h
  split at h
  · rename_i h3
    simp only [Prod.mk.injEq, true_and] at h
    rw [← h, h3]
  · rename_i d r' h3
    split at h
    · simp at h
    · simp only [Prod.mk.injEq, true_and] at h
      rw [← h, h3]

theorem matchChar_skip {c : Char} {t r : Text} (h : matchChar c t = (false, r)) : lit [] t r := by
  rw [matchChar_rest h]
  exact skip t

theorem expectChar_lit {c : Char} {t r : Text} (h : expectChar c t = some r) : lit [c] t r := by
  apply matchChar_true
  unfold expectChar at h
  unfold matchChar
  split at h
  · simp at h
  · split at h
    · rename_i h4
      rw [if_pos h4]
      simpa using h
    · simp at h

theorem stripText_eq {s t r : Text} (h : stripText s t = some r) : t = s ++ r := by
  induction s generalizing t with
  | nil => simpa [stripText] using h
  | cons c s ih =>
    cases t with
    | nil => simp [stripText] at h
    | cons d t =>
      simp only [stripText] at h
      split at h
      · rename_i hcd
        rw [hcd, ih h]
        rfl
      · simp at h

theorem expectText_lit {s t r : Text} (h : expectText s t = some r) : lit s t r := by
  obtain ⟨w, h1, h2⟩ := eatWhite_blank t
  exact ⟨w, [], h1, .nil, by rw [h2, stripText_eq h]; simp⟩

theorem isLetter_of_isAlpha {c : Char} (h : isAlpha c = true) : IsLetter c := by
  simp only [isAlpha, decide_eq_true_eq] at h
  rcases h with h | h
  · exact Or.inr h
  · exact Or.inl h

theorem isNameChar_iff {c : Char} : isIdChar c = true ↔ IsNameChar c := by
  constructor
  · intro h
    simp only [isIdChar, Bool.or_eq_true, decide_eq_true_eq] at h
    rcases h with (h | h) | h
    · exact Or.inl (isLetter_of_isAlpha h)
    · simp only [isDigit, decide_eq_true_eq] at h
      exact Or.inr (Or.inl h)
    · exact Or.inr (Or.inr h)
  · rintro (h | h | h)
    · simp [isIdChar, isAlpha_of_isLetter h]
    · have : isDigit c = true := by
        simp only [isDigit, decide_eq_true_eq]
        exact h
      simp [isIdChar, this]
    · simp [isIdChar, h]

theorem isDigit_iff {c : Char} : isDigit c = true ↔ '0' ≤ c ∧ c ≤ '9' := by
  simp only [isDigit, decide_eq_true_eq]
  rfl

theorem head_dropWhile {p : Char → Bool} {t : Text} : ∀ c ∈ (t.dropWhile p).head?, ¬ p c = true := by
  intro c hc
  have := List.head?_dropWhile_not p t
  rw [Option.mem_def.1 hc] at this
  simpa using this

theorem readIdentifier_nameG {x t r : Text} (h : readIdentifier t = some (x, r)) : nameG x t r := by
  obtain ⟨w, h1, h2⟩ := eatWhite_blank t
  unfold readIdentifier at h
  split at h
  · rename_i h3
    simp only [Option.some.injEq, Prod.mk.injEq] at h
    obtain ⟨rfl, rfl⟩ := h
    refine ⟨?_, w, [], h1, .nil, ?_, ?_⟩
    · cases h4 : eatWhite t with
      | nil => simp [h4, nextIs] at h3
      | cons c l =>
        simp only [h4, nextIs] at h3
        refine ⟨c, l.takeWhile isIdChar, ?_, isLetter_of_isAlpha h3, fun d hd => isNameChar_iff.1 (mem_takeWhile hd)⟩
        rw [List.takeWhile_cons, if_pos (by simp [isIdChar, h3])]
    · conv_lhs => rw [h2]
      simp
    · intro c hc h5
      exact head_dropWhile c (by simpa using hc) (isNameChar_iff.2 h5)
  · simp at h

theorem readDigits_digitsG {w s ds t r : Text} (hw : Blank w) (h : readDigits t = some (ds, r)) : digitsG s ds (w ++ s ++ t) r := by
  unfold readDigits at h
  split at h
  · simp at h
  · rename_i h1
    simp only [Option.some.injEq, Prod.mk.injEq] at h
    obtain ⟨rfl, rfl⟩ := h
    refine ⟨h1, fun c hc => isDigit_iff.1 (mem_takeWhile hc), w, [], hw, .nil, by simp, ?_⟩
    intro c hc h5
    exact head_dropWhile c (by simpa using hc) (isDigit_iff.2 h5)

theorem readIntegerStringNoSign_digitsG {ds t r : Text} (h : readIntegerStringNoSign t = some (ds, r)) : digitsG [] ds t r := by
  obtain ⟨w, h1, h2⟩ := eatWhite_blank t
  unfold readIntegerStringNoSign at h
  split at h
  · simp at h
  · rw [h2]
    have := readDigits_digitsG (s := []) h1 h
    simpa using this

theorem foldl_valueIn (b : ℕ) (ds : Text) : ds.foldl (fun acc c => b * acc + (c.toNat - 48)) 0 = valueIn b ds := by
  have : ∀ (l : Text) (a : ℕ), l.foldl (fun acc c => b * acc + (c.toNat - 48)) a =
      Nat.ofDigits b (l.reverse.map fun c => c.toNat - 48) + b ^ l.length * a := by
    intro l
    induction l with
    | nil => intro a; simp
    | cons c l ih =>
      intro a
      rw [List.foldl_cons, ih]
      simp only [List.reverse_cons, List.map_append, List.map_cons, List.map_nil, Nat.ofDigits_append, List.length_map,
        List.length_reverse, List.length_cons, Nat.ofDigits_singleton]
      ring
  rw [this, valueIn]
  simp

theorem digitsValue_valueIn (ds : Text) : digitsValue ds = valueIn 10 ds := foldl_valueIn 10 ds

theorem readSizeT_sizeG {x : ℕ} {t r : Text} (h : readSizeT t = some (x, r)) : sizeG x t r := by
  obtain ⟨w, h1, h2⟩ := eatWhite_blank t
  unfold readSizeT at h
  split at h
  · simp at h
  · rename_i z r' h3
    split at h
    · rename_i hz
      simp only [Option.some.injEq, Prod.mk.injEq] at h
      obtain ⟨rfl, rfl⟩ := h
      refine ⟨by omega, ?_⟩
      unfold readInteger at h3
      rw [h2]
      split at h3
      · simp at h3
      · rename_i c l h4
        rw [h4]
        split at h3
        · rename_i hc
          subst hc
          simp only [Option.map_eq_some_iff] at h3
          obtain ⟨p, h5, h6⟩ := h3
          simp only [Prod.mk.injEq] at h6
          obtain ⟨rfl, rfl⟩ := h6
          refine ⟨t!"-", p.1, ?_, ?_, ?_⟩
          · have := readDigits_digitsG (s := t!"-") h1 h5
            simpa using this
          · rw [← digitsValue_valueIn]
            omega
          · exact Or.inr (Or.inr ⟨rfl, by omega⟩)
        · split at h3
          · rename_i hc
            subst hc
            simp only [Option.map_eq_some_iff] at h3
            obtain ⟨p, h5, h6⟩ := h3
            simp only [Prod.mk.injEq] at h6
            obtain ⟨rfl, rfl⟩ := h6
            refine ⟨t!"+", p.1, ?_, ?_, ?_⟩
            · have := readDigits_digitsG (s := t!"+") h1 h5
              simpa using this
            · rw [← digitsValue_valueIn]
              omega
            · exact Or.inr (Or.inl rfl)
          · simp only [Option.map_eq_some_iff] at h3
            obtain ⟨p, h5, h6⟩ := h3
            simp only [Prod.mk.injEq] at h6
            obtain ⟨rfl, rfl⟩ := h6
            refine ⟨[], p.1, ?_, ?_, ?_⟩
            · have := readDigits_digitsG (s := []) h1 h5
              simpa using this
            · rw [← digitsValue_valueIn]
              omega
            · exact Or.inl rfl
    · simp at h

theorem sizeG_trans {x : ℕ} {t r u : Text} (h : sizeG x t r) (h' : lit [] r u) : sizeG x t u := by
  obtain ⟨h0, s, ds, h1, h2⟩ := h
  exact ⟨h0, s, ds, digitsG_trans h1 h', h2⟩

theorem digitsValue0_spec {ds : Text} {e : ℕ} (h : digitsValue0 ds = some e) :
    if ds.head? = some '0' then (∀ c ∈ ds, c ≤ '7') ∧ e = valueIn 8 ds else e = valueIn 10 ds := by
  cases ds with
  | nil => simp [digitsValue0] at h
  | cons c l =>
    by_cases hc : c = '0'
    · subst hc
      simp only [List.head?_cons, if_true]
      simp only [digitsValue0] at h
      split at h
      · rename_i h1
        simp only [Option.some.injEq] at h
        simp only [List.all_eq_true, decide_eq_true_eq] at h1
        constructor
        · intro d hd
          rcases List.mem_cons.1 hd with rfl | hd
          · decide
          · exact h1 d hd
        · rw [← h, foldl_valueIn, valueIn, valueIn]
          simp [Nat.ofDigits_append]
      · simp at h
    · rw [if_neg (by simpa using hc)]
      have : digitsValue0 (c :: l) = some (digitsValue (c :: l)) := by
        unfold digitsValue0
        split
        · simp_all
        · simp_all
        · rfl
      rw [this, Option.some.injEq] at h
      rw [← h, digitsValue_valueIn]

end Frobby

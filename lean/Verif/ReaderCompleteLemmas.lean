import Verif.ReaderFormatLemmas

/-!
# Lemmas: every text with a meaning is read

The readers see a text only after its leading blank space. `Alike t u` is that there is no other difference.
-/

namespace Frobby

/-- The same text apart from leading blank space. -/
def Alike (t u : Text) : Prop := eatWhite t = eatWhite u

theorem Alike.refl (t : Text) : Alike t t := rfl
theorem Alike.symm {t u : Text} (h : Alike t u) : Alike u t := Eq.symm h
theorem Alike.trans {t u v : Text} (h : Alike t u) (h' : Alike u v) : Alike t v := Eq.trans h h'

/-- What is after leading blank space, if there is anything. -/
def Next (p : Char → Prop) (t : Text) : Prop := ∀ c ∈ (eatWhite t).head?, p c

theorem Next.congr {p : Char → Prop} {t u : Text} (h : Alike t u) (hn : Next p u) : Next p t := by
  unfold Next at hn ⊢
  rwa [h]

theorem Next.mono {p q : Char → Prop} {t : Text} (h : Next p t) (hpq : ∀ c, p c → q c) : Next q t := fun c hc => hpq c (h c hc)

theorem isSpace_of_blank {c : Char} (h : c = ' ' ∨ 9 ≤ c.toNat ∧ c.toNat ≤ 13) : isSpace c = true := by
  simp only [isSpace, decide_eq_true_eq]
  rcases h with rfl | h
  · exact Or.inl rfl
  · exact Or.inr h

theorem eatWhite_blanks {w : Text} (hw : Blank w) (t : Text) : eatWhite (w ++ t) = eatWhite t := by
  induction w with
  | nil => rfl
  | cons c w ih =>
    rw [List.cons_append, eatWhite_cons, if_pos (isSpace_of_blank (hw c (by simp)))]
    exact ih fun d hd => hw d (by simp [hd])

theorem eatWhite_idem (t : Text) : Alike (eatWhite t) t := by
  obtain ⟨w, h1, h2⟩ := eatWhite_blank t
  unfold Alike
  conv_rhs => rw [h2]
  rw [eatWhite_blanks h1]

theorem alike_append {w : Text} (hw : Blank w) (t : Text) : Alike (w ++ t) t := eatWhite_blanks hw t

theorem lit_nil_alike {t r : Text} (h : lit [] t r) : Alike t r := by
  obtain ⟨w, w', h1, h2, rfl⟩ := h
  rw [List.append_nil, List.append_assoc]
  exact (alike_append h1 _).trans (alike_append h2 _)

/-- The first character is no blank space. -/
def Solidly (s : Text) : Prop := ∃ c l, s = c :: l ∧ isSpace c = false

theorem Solidly.eat {s : Text} (h : Solidly s) (t : Text) : eatWhite (s ++ t) = s ++ t := by
  obtain ⟨c, l, rfl, h⟩ := h
  rw [List.cons_append, eatWhite_cons, if_neg (by simp [h])]

theorem stripText_append (s t : Text) : stripText s (s ++ t) = some t := by
  induction s with
  | nil => rfl
  | cons c s ih => simpa [stripText] using ih

theorem expectText_complete {s t r t0 : Text} (hs : Solidly s) (h : lit s t r) (h0 : Alike t0 t) :
    ∃ r0, expectText s t0 = some r0 ∧ Alike r0 r := by
  obtain ⟨w, w', h1, h2, rfl⟩ := h
  refine ⟨w' ++ r, ?_, alike_append h2 _⟩
  unfold expectText
  rw [h0, List.append_assoc, List.append_assoc, eatWhite_blanks h1, hs.eat, stripText_append]

theorem expectChar_eq_text (c : Char) (t : Text) : expectChar c t = expectText [c] t := by
  unfold expectChar expectText
  cases eatWhite t with
  | nil => rfl
  | cons d l =>
    by_cases h : d = c
    · simp [stripText, h]
    · simp [stripText, h, Ne.symm h]

theorem solidly_char {c : Char} (hc : isSpace c = false) : Solidly [c] := ⟨c, [], rfl, hc⟩

theorem expectChar_complete {c : Char} {t r t0 : Text} (hc : isSpace c = false) (h : lit [c] t r) (h0 : Alike t0 t) :
    ∃ r0, expectChar c t0 = some r0 ∧ Alike r0 r := by
  obtain ⟨r0, h1, h2⟩ := expectText_complete (solidly_char hc) h h0
  exact ⟨r0, by rw [expectChar_eq_text, h1], h2⟩

theorem matchChar_of_expect {c : Char} {t r : Text} (h : expectChar c t = some r) : matchChar c t = (true, r) := by
  unfold matchChar
  rw [expectChar_eq h]
  simp

theorem matchChar_complete {c : Char} {t r t0 : Text} (hc : isSpace c = false) (h : lit [c] t r) (h0 : Alike t0 t) :
    ∃ r0, matchChar c t0 = (true, r0) ∧ Alike r0 r := by
  obtain ⟨r0, h1, h2⟩ := expectChar_complete hc h h0
  exact ⟨r0, matchChar_of_expect h1, h2⟩

theorem matchChar_next {c : Char} {t : Text} (h : Next (· ≠ c) t) : matchChar c t = (false, eatWhite t) := by
  unfold matchChar
  unfold Next at h
  cases h1 : eatWhite t with
  | nil => rfl
  | cons d l =>
    rw [h1] at h
    have : d ≠ c := h d (by simp)
    simp [this]

theorem lit_first {s t r : Text} {c : Char} {l : Text} (hs : s = c :: l) (hc : isSpace c = false) (h : lit s t r) :
    (eatWhite t).head? = some c := by
  obtain ⟨w, w', h1, h2, rfl⟩ := h
  rw [List.append_assoc, List.append_assoc, eatWhite_blanks h1, Solidly.eat ⟨c, l, hs, hc⟩, hs]
  rfl

theorem lit_next {s t r : Text} {c : Char} {l : Text} (hs : s = c :: l) (hc : isSpace c = false) (h : lit s t r) {p : Char → Prop}
    (hp : p c) : Next p t := by
  intro d hd
  rw [lit_first hs hc h] at hd
  simp only [Option.mem_def, Option.some.injEq] at hd
  rwa [← hd]

theorem nextIs_iff {p : Char → Bool} {t : Text} : nextIs p t = true ↔ ∃ c ∈ t.head?, p c = true := by
  cases t <;> simp [nextIs]

/-! ## Names and numbers -/

theorem isSpace_false_of_isAlpha {c : Char} (h : isAlpha c = true) : isSpace c = false := by
  simp only [isAlpha, decide_eq_true_eq] at h
  simp only [isSpace, decide_eq_false_iff_not]
  omega

theorem isSpace_false_of_isDigit {c : Char} (h : isDigit c = true) : isSpace c = false := by
  have h1 : 48 ≤ c.toNat ∧ c.toNat ≤ 57 := by simpa [isDigit] using h
  simp only [isSpace, decide_eq_false_iff_not]
  omega

theorem takeWhile_stop {p : Char → Bool} {x r : Text} (h : ∀ c ∈ x, p c = true) (h' : ∀ c ∈ r.head?, ¬ p c = true) :
    (x ++ r).takeWhile p = x ∧ (x ++ r).dropWhile p = r := by
  induction x with
  | nil =>
    cases r with
    | nil => simp
    | cons c r =>
      have : ¬ p c = true := h' c (by simp)
      simp [this]
  | cons c x ih =>
    have h1 := ih fun d hd => h d (by simp [hd])
    have h2 := h c (by simp)
    simp [h2, h1]

theorem allowed_chars {x : Text} (h : AllowedName x) : ∀ c ∈ x, isIdChar c = true := by
  obtain ⟨c, l, rfl, h1, h2⟩ := h
  intro d hd
  rw [isNameChar_iff]
  rcases List.mem_cons.1 hd with rfl | hd
  · exact Or.inl h1
  · exact h2 d hd

theorem allowed_solid {x : Text} (h : AllowedName x) : Solidly x := by
  obtain ⟨c, l, rfl, h1, _⟩ := h
  exact ⟨c, l, rfl, isSpace_false_of_isAlpha (isAlpha_of_isLetter h1)⟩

theorem nameG_eat {x t r : Text} (h : nameG x t r) :
    ∃ w', Blank w' ∧ eatWhite t = x ++ (w' ++ r) ∧ ∀ c ∈ (w' ++ r).head?, ¬ isIdChar c = true := by
  obtain ⟨h0, w, w', h1, h2, rfl, h3⟩ := h
  refine ⟨w', h2, ?_, fun c hc h4 => h3 c hc (isNameChar_iff.1 h4)⟩
  rw [List.append_assoc, List.append_assoc, eatWhite_blanks h1, (allowed_solid h0).eat]

theorem nameG_first {x t r : Text} (h : nameG x t r) : ∃ c, (eatWhite t).head? = some c ∧ isAlpha c = true := by
  obtain ⟨w', _, h1, _⟩ := nameG_eat h
  obtain ⟨c, l, rfl, h2, _⟩ := h.1
  exact ⟨c, by rw [h1]; rfl, isAlpha_of_isLetter h2⟩

theorem readIdentifier_complete {x t r t0 : Text} (h : nameG x t r) (h0 : Alike t0 t) :
    ∃ r0, readIdentifier t0 = some (x, r0) ∧ Alike r0 r := by
  obtain ⟨w', h1, h2, h3⟩ := nameG_eat h
  refine ⟨w' ++ r, ?_, alike_append h1 _⟩
  unfold readIdentifier
  rw [h0]
  have h4 := takeWhile_stop (allowed_chars h.1) h3
  rw [if_pos, h2, h4.1, h4.2]
  rw [nextIs_iff]
  obtain ⟨c, h5, h6⟩ := nameG_first h
  exact ⟨c, h5, h6⟩

theorem peekIdentifier_complete {x t r t0 : Text} (h : nameG x t r) (h0 : Alike t0 t) : peekIdentifier t0 = true := by
  unfold peekIdentifier
  rw [h0, nextIs_iff]
  obtain ⟨c, h5, h6⟩ := nameG_first h
  exact ⟨c, h5, h6⟩

theorem peekIdentifier_next {t : Text} (h : Next (fun c => isAlpha c = false) t) : peekIdentifier t = false := by
  unfold peekIdentifier
  by_contra hc
  rw [Bool.not_eq_false, nextIs_iff] at hc
  obtain ⟨c, h1, h2⟩ := hc
  rw [h c h1] at h2
  simp at h2

theorem peekChar_complete {c : Char} {t r t0 l s : Text} (hs : s = c :: l) (hc : isSpace c = false) (h : lit s t r) (h0 : Alike t0 t) :
    peekChar c t0 = true := by
  unfold peekChar
  rw [h0, nextIs_iff]
  exact ⟨c, lit_first hs hc h, by simp⟩

theorem peekChar_next {c : Char} {t : Text} (h : Next (· ≠ c) t) : peekChar c t = false := by
  unfold peekChar
  by_contra hc
  rw [Bool.not_eq_false, nextIs_iff] at hc
  obtain ⟨d, h1, h2⟩ := hc
  exact h d h1 (by simpa using h2)

theorem digitsG_eat {ds t r : Text} (h : digitsG [] ds t r) :
    ∃ w', Blank w' ∧ eatWhite t = ds ++ (w' ++ r) ∧ (∀ c ∈ ds, isDigit c = true) ∧ ds ≠ [] ∧ ∀ c ∈ (w' ++ r).head?, ¬ isDigit c = true := by
  obtain ⟨h0, h00, w, w', h1, h2, rfl, h3⟩ := h
  have h5 : ∀ c ∈ ds, isDigit c = true := fun c hc => isDigit_iff.2 (h00 c hc)
  refine ⟨w', h2, ?_, h5, h0, fun c hc h4 => h3 c hc (isDigit_iff.1 h4)⟩
  rw [List.append_nil, List.append_assoc, List.append_assoc, eatWhite_blanks h1, Solidly.eat]
  cases ds with
  | nil => simp at h0
  | cons c l => exact ⟨c, l, rfl, isSpace_false_of_isDigit (h5 c (by simp))⟩

theorem digitsG_first {ds t r : Text} (h : digitsG [] ds t r) : ∃ c, (eatWhite t).head? = some c ∧ isDigit c = true := by
  obtain ⟨w', _, h1, h2, h3, _⟩ := digitsG_eat h
  cases ds with
  | nil => simp at h3
  | cons c l => exact ⟨c, by rw [h1]; rfl, h2 c (by simp)⟩

theorem digits_complete {ds r : Text} (h1 : ∀ c ∈ ds, isDigit c = true) (h2 : ds ≠ []) (h3 : ∀ c ∈ r.head?, ¬ isDigit c = true) :
    readDigits (ds ++ r) = some (ds, r) := by
  have h4 := takeWhile_stop h1 h3
  unfold readDigits
  rw [h4.1, h4.2, if_neg h2]

theorem readIntegerStringNoSign_complete {ds t r t0 : Text} (h : digitsG [] ds t r) (h0 : Alike t0 t) :
    ∃ r0, readIntegerStringNoSign t0 = some (ds, r0) ∧ Alike r0 r := by
  obtain ⟨w', h1, h2, h3, h4, h5⟩ := digitsG_eat h
  refine ⟨w' ++ r, ?_, alike_append h1 _⟩
  unfold readIntegerStringNoSign
  rw [h0, if_neg, h2, digits_complete h3 h4 h5]
  rw [nextIs_iff]
  rintro ⟨c, h6, h7⟩
  obtain ⟨d, h8, h9⟩ := digitsG_first h
  rw [h8] at h6
  simp only [Option.mem_def, Option.some.injEq] at h6
  subst h6
  simp only [Bool.or_eq_true, decide_eq_true_eq] at h7
  rcases h7 with rfl | rfl <;> simp [isDigit] at h9

theorem signed_complete {sign ds t r t0 : Text} (hs : sign = [] ∨ sign = t!"+" ∨ sign = t!"-") (h : digitsG sign ds t r)
    (h0 : Alike t0 t) : ∃ r0, readInteger t0 = some ((if sign = t!"-" then - (valueIn 10 ds : ℤ) else valueIn 10 ds), r0) ∧ Alike r0 r := by
  obtain ⟨h2, h3, w, w', h4, h5, h6, h7⟩ := h
  have hd : ∀ c ∈ ds, isDigit c = true := fun c hc => isDigit_iff.2 (h3 c hc)
  have he : ∀ c ∈ (w' ++ r).head?, ¬ isDigit c = true := fun c hc h8 => h7 c hc (isDigit_iff.1 h8)
  refine ⟨w' ++ r, ?_, alike_append h5 _⟩
  unfold readInteger
  have h9 : eatWhite t0 = sign ++ (ds ++ (w' ++ r)) := by
    rw [h0, h6, List.append_assoc, List.append_assoc, List.append_assoc, eatWhite_blanks h4]
    rcases hs with rfl | rfl | rfl
    · cases ds with
      | nil => simp at h2
      | cons c l => exact Solidly.eat (s := c :: l) ⟨c, l, rfl, isSpace_false_of_isDigit (hd c (by simp))⟩ _
    · exact Solidly.eat ⟨_, [], rfl, by decide⟩ _
    · exact Solidly.eat ⟨_, [], rfl, by decide⟩ _
  have h8 := digits_complete hd h2 he
  rw [h9]
  rcases hs with rfl | rfl | rfl
  · cases ds with
    | nil => simp at h2
    | cons c l =>
      have hc := hd c (by simp)
      have h10 : c ≠ '-' := by rintro rfl; simp [isDigit] at hc
      have h11 : c ≠ '+' := by rintro rfl; simp [isDigit] at hc
      simp only [List.nil_append, List.cons_append] at h8 ⊢
      rw [if_neg h10, if_neg h11, h8]
      simp [digitsValue_valueIn]
  · simp only [List.cons_append, List.nil_append]
    rw [if_neg (by decide), if_pos trivial, h8]
    simp [digitsValue_valueIn]
  · simp only [List.cons_append, List.nil_append]
    rw [if_pos trivial, h8]
    simp [digitsValue_valueIn]

theorem readSizeT_complete {x : ℕ} {t r t0 : Text} (h : sizeG x t r) (h0 : Alike t0 t) : ∃ r0, readSizeT t0 = some (x, r0) ∧ Alike r0 r := by
  obtain ⟨h1, sign, ds, h2, h3, h4⟩ := h
  obtain ⟨r0, h5, h6⟩ := signed_complete (by tauto) h2 h0
  refine ⟨r0, ?_, h6⟩
  unfold readSizeT
  rw [h5]
  have h7 : (if sign = t!"-" then - (valueIn 10 ds : ℤ) else valueIn 10 ds) = x := by
    rcases h4 with rfl | rfl | ⟨rfl, h4⟩
    · simp [h3]
    · simp [h3]
    · rw [h4] at h3
      simp [← h3, h4]
  rw [h7]
  have : (0 : ℤ) ≤ x ∧ (x : ℤ) < 2 ^ 64 := ⟨by omega, by omega⟩
  simp only
  rw [if_pos this]
  simp

theorem digitsValue0_complete {ds : Text} {e : ℕ} (h : ds ≠ [])
    (he : if ds.head? = some '0' then (∀ c ∈ ds, c ≤ '7') ∧ e = valueIn 8 ds else e = valueIn 10 ds) : digitsValue0 ds = some e := by
  have key : ∃ e', digitsValue0 ds = some e' := by
    cases ds with
    | nil => simp at h
    | cons c l =>
      by_cases hc : c = '0'
      · subst hc
        simp only [List.head?_cons, if_true] at he
        refine ⟨_, if_pos ?_⟩
        simp only [List.all_eq_true, decide_eq_true_eq]
        intro d hd
        exact he.1 d (by simp [hd])
      · refine ⟨digitsValue (c :: l), ?_⟩
        unfold digitsValue0
        split
        · simp_all
        · simp_all
        · rfl
  obtain ⟨e', h1⟩ := key
  have h2 := digitsValue0_spec h1
  rw [h1, Option.some.injEq]
  split at h2
  · rename_i h3
    rw [if_pos h3] at he
    rw [h2.2, he.2]
  · rename_i h3
    rw [if_neg h3] at he
    rw [h2, he]

/-! ## Loops -/

section loops

variable {σ α : Type} {item : σ → Text → Option (σ × Text)} {P : α → Gram} {Inv : List α → σ → Prop} {F : Char → Prop}

/-- Something is used up. -/
def Shrinks (P : Gram) : Prop := ∀ t r, P t r → (eatWhite r).length < (eatWhite t).length

/-- Items are read if they are followed by what `F` allows, and the state is then that after the item. -/
def Reads (item : σ → Text → Option (σ × Text)) (P : α → Gram) (Inv : List α → σ → Prop) (F : Char → Prop) (total : List α) : Prop :=
  ∀ acc a rest s t r t0, total = acc ++ a :: rest → Inv acc s → P a t r → Next F r → Alike t0 t →
    ∃ s' r0, item s t0 = some (s', r0) ∧ Inv (acc ++ [a]) s' ∧ Alike r0 r

theorem readSep_complete {sep : Char} (hsep : isSpace sep = false) (hF : F sep) (hP : ∀ a, Shrinks (P a)) {total : List α}
    (h : Reads item P Inv F total) {as : List α} {t r : Text} (h1 : SepBy P [sep] as t r) :
    ∀ fuel acc s t0, total = acc ++ as → Inv acc s → Next F r → Next (· ≠ sep) r → Alike t0 t → (eatWhite t).length ≤ fuel →
      ∃ s' r0, readSep item sep fuel s t0 = some (s', r0) ∧ Inv (acc ++ as) s' ∧ Alike r0 r := by
  induction h1 with
  | one h2 =>
    intro fuel acc s t0 ht hi hn hn' h0 hf
    obtain ⟨s', r0, h3, h4, h5⟩ := h acc _ [] _ _ _ _ ht hi h2 hn h0
    have := hP _ _ _ h2
    obtain ⟨fuel, rfl⟩ : ∃ m, fuel = m + 1 := ⟨fuel - 1, by omega⟩
    refine ⟨s', eatWhite r0, ?_, h4, (eatWhite_idem r0).trans h5⟩
    simp only [readSep, h3]
    rw [matchChar_next (hn'.congr h5)]
  | @cons a as t r u v h2 h3 h4 ih =>
    intro fuel acc s t0 ht hi hn hn' h0 hf
    obtain ⟨s', r0, h5, h6, h7⟩ := h acc _ _ _ _ _ _ ht hi h2 (lit_next rfl hsep h3 hF) h0
    have h8 := hP _ _ _ h2
    obtain ⟨fuel, rfl⟩ : ∃ m, fuel = m + 1 := ⟨fuel - 1, by omega⟩
    obtain ⟨r1, h9, h10⟩ := matchChar_complete hsep h3 h7
    have h11 : (eatWhite v).length ≤ (eatWhite u).length := by
      obtain ⟨w, w', h12, h13, rfl⟩ := h3
      rw [List.append_assoc, List.append_assoc, eatWhite_blanks h12, Solidly.eat (solidly_char hsep)]
      have : (eatWhite (w' ++ v)).length ≤ (w' ++ v).length := eatWhite_length_le _
      rw [eatWhite_blanks h13] at this
      simp at this ⊢
      omega
    obtain ⟨s2, r2, h14, h15, h16⟩ := ih fuel (acc ++ [a]) s' r1 (by simp [ht]) h6 hn hn' h10 (by omega)
    refine ⟨s2, r2, ?_, by simpa using h15, h16⟩
    simp only [readSep, h5, h9]
    exact h14

theorem readUntil_complete {stop : Char} (hstop : isSpace stop = false) (hF : F stop) (hP : ∀ a, Shrinks (P a))
    (hfirst : ∀ a t r, P a t r → Next (fun c => F c ∧ c ≠ stop) t) {total : List α}
    (h : Reads item P Inv F total) {as : List α} {t u : Text} (h1 : Many P as t u) {r : Text} (h2 : lit [stop] u r) :
    ∀ fuel acc s t0, total = acc ++ as → Inv acc s → Alike t0 t → (eatWhite t).length < fuel →
      ∃ s' r0, readUntil item stop fuel s t0 = some (s', r0) ∧ Inv (acc ++ as) s' ∧ Alike r0 r := by
  induction h1 with
  | nil h3 =>
    intro fuel acc s t0 ht hi h0 hf
    obtain ⟨fuel, rfl⟩ : ∃ m, fuel = m + 1 := ⟨fuel - 1, by omega⟩
    obtain ⟨r1, h9, h10⟩ := matchChar_complete hstop h2 (h0.trans (lit_nil_alike h3))
    exact ⟨s, r1, by simp only [readUntil, h9], by simpa using hi, h10⟩
  | @cons a as t u v h3 h4 ih =>
    intro fuel acc s t0 ht hi h0 hf
    have hn : Next F v := by
      cases h4 with
      | nil h5 => exact (lit_next rfl hstop h2 hF).congr (lit_nil_alike h5)
      | cons h5 _ => exact (hfirst _ _ _ h5).mono fun _ h => h.1
    have h8 := hP _ _ _ h3
    obtain ⟨fuel, rfl⟩ : ∃ m, fuel = m + 1 := ⟨fuel - 1, by omega⟩
    have h9 := matchChar_next (((hfirst _ _ _ h3).mono fun _ h => h.2).congr h0)
    obtain ⟨s', r0, h5, h6, h7⟩ := h acc _ _ _ _ _ _ ht hi h3 hn ((eatWhite_idem t0).trans h0)
    obtain ⟨s2, r2, h14, h15, h16⟩ := ih h2 fuel (acc ++ [a]) s' r0 (by simp [ht]) h6 h7 (by omega)
    refine ⟨s2, r2, ?_, by simpa using h15, h16⟩
    simp only [readUntil, h9, h5]
    exact h14

theorem readTimes_complete (hfirst : ∀ a t r, P a t r → Next F t) {total : List α} (h : Reads item P Inv F total) {as : List α} {t r : Text}
    (h1 : Many P as t r) : ∀ acc s t0, total = acc ++ as → Inv acc s → Next F r → Alike t0 t →
      ∃ s' r0, readTimes item as.length s t0 = some (s', r0) ∧ Inv (acc ++ as) s' ∧ Alike r0 r := by
  induction h1 with
  | nil h3 =>
    intro acc s t0 ht hi hn h0
    exact ⟨s, t0, rfl, by simpa using hi, h0.trans (lit_nil_alike h3)⟩
  | @cons a as t u v h3 h4 ih =>
    intro acc s t0 ht hi hn h0
    have hn' : Next F v := by
      cases h4 with
      | nil h5 => exact hn.congr (lit_nil_alike h5)
      | cons h5 _ => exact hfirst _ _ _ h5
    obtain ⟨s', r0, h5, h6, h7⟩ := h acc _ _ _ _ _ _ ht hi h3 hn' h0
    obtain ⟨s2, r2, h14, h15, h16⟩ := ih (acc ++ [a]) s' r0 (by simp [ht]) h6 hn h7
    refine ⟨s2, r2, ?_, by simpa using h15, h16⟩
    simp only [List.length_cons, readTimes, h5]
    exact h14

theorem readWhileX_complete (hF : F 'x') (hP : ∀ a, Shrinks (P a)) (hfirst : ∀ a t r, P a t r → (eatWhite t).head? = some 'x')
    {total : List α} (h : Reads item P Inv F total) {as : List α} {t r : Text} (h1 : Many P as t r) (h2 : as ≠ []) :
    ∀ fuel acc s t0, total = acc ++ as → Inv acc s → Next F r → Next (· ≠ 'x') r → Alike t0 t → (eatWhite t).length ≤ fuel →
      ∃ s' r0, readWhileX item fuel s t0 = some (s', r0) ∧ Inv (acc ++ as) s' ∧ Alike r0 r := by
  induction h1 with
  | nil h3 => simp at h2
  | @cons a as t u v h3 h4 ih =>
    intro fuel acc s t0 ht hi hn hn' h0 hf
    have h8 := hP _ _ _ h3
    obtain ⟨fuel, rfl⟩ : ∃ m, fuel = m + 1 := ⟨fuel - 1, by omega⟩
    have hnx : Next F v := by
      cases h4 with
      | nil h5 => exact hn.congr (lit_nil_alike h5)
      | cons h5 _ =>
        intro c hc
        rw [hfirst _ _ _ h5] at hc
        simp only [Option.mem_def, Option.some.injEq] at hc
        rwa [← hc]
    obtain ⟨s', r0, h5, h6, h7⟩ := h acc _ _ _ _ _ _ ht hi h3 hnx h0
    cases h4 with
    | nil h9 =>
      have h10 : peekChar 'x' r0 = false := peekChar_next ((hn'.congr (lit_nil_alike h9)).congr h7)
      refine ⟨s', r0, ?_, by simpa using h6, h7.trans (lit_nil_alike h9)⟩
      simp [readWhileX, h5, h10]
    | cons h9 h10 =>
      have h11 : peekChar 'x' r0 = true := by
        unfold peekChar
        rw [h7, nextIs_iff]
        exact ⟨'x', hfirst _ _ _ h9, by simp⟩
      obtain ⟨s2, r2, h14, h15, h16⟩ := ih (by simp) fuel (acc ++ [a]) s' r0 (by simp [ht]) h6 hn hn' h7 (by omega)
      refine ⟨s2, r2, ?_, by simpa using h15, h16⟩
      simp only [readWhileX, h5, h11, if_true]
      exact h14

end loops

/-! ## Products -/

theorem Alike.length {t u : Text} (h : Alike t u) : (eatWhite t).length = (eatWhite u).length := by rw [h]

theorem shrinks_of_eat {t r s : Text} (hs : s ≠ []) {w' : Text} (hw : Blank w') (h : eatWhite t = s ++ (w' ++ r)) :
    (eatWhite r).length < (eatWhite t).length := by
  have h1 := eatWhite_length_le (w' ++ r)
  rw [eatWhite_blanks hw] at h1
  rw [h]
  have := List.length_pos_iff.2 hs
  simp only [List.length_append] at h1 ⊢
  omega

theorem lit_shrinks {s : Text} (hs : Solidly s) : Shrinks (lit s) := by
  rintro t r ⟨w, w', h1, h2, rfl⟩
  have hn : s ≠ [] := by
    obtain ⟨c, l, rfl, _⟩ := hs
    simp
  refine shrinks_of_eat hn h2 ?_
  rw [List.append_assoc, List.append_assoc, eatWhite_blanks h1, hs.eat]

theorem nameG_shrinks (x : Text) : Shrinks (nameG x) := by
  intro t r h
  obtain ⟨w', h1, h2, _⟩ := nameG_eat h
  refine shrinks_of_eat ?_ h1 h2
  obtain ⟨c, l, rfl, _⟩ := h.1
  simp

theorem digitsG_shrinks (ds : Text) : Shrinks (digitsG [] ds) := by
  intro t r h
  obtain ⟨w', h1, h2, _, h3, _⟩ := digitsG_eat h
  exact shrinks_of_eat h3 h1 h2

theorem powerG_weak {e : ℕ} {t r : Text} (h : powerG e t r) : (eatWhite r).length ≤ (eatWhite t).length := by
  rcases h with ⟨_, rfl⟩ | ⟨u, h1, ds, h2, _⟩
  · exact le_refl _
  · have h3 := lit_shrinks ⟨_, _, rfl, by decide⟩ _ _ h1
    have h4 := digitsG_shrinks _ _ _ h2
    omega

theorem varPowerG_shrinks (names : List Text) (p : ℕ × ℕ) : Shrinks (varPowerG names p) := by
  rintro t r ⟨x, _, u, h1, h2⟩
  have h3 := nameG_shrinks _ _ _ h1
  have h4 := powerG_weak h2
  omega

theorem consumeExponent_complete {k : InputConsumer} {v e : ℕ} {t r t0 : Text} (hk : k.exponent v = 0) (h : exponentG e t r)
    (h0 : Alike t0 t) : ∃ k' r0, k.consumeExponent false v t0 = some (k', r0) ∧ InputConsumer.Same k' (k.setExponent v e) ∧ Alike r0 r := by
  obtain ⟨ds, h1, h2⟩ := h
  obtain ⟨r0, h3, h4⟩ := readIntegerStringNoSign_complete h1 h0
  have h5 : digitsValue0 ds = some e := digitsValue0_complete h1.1 h2
  unfold InputConsumer.consumeExponent
  rw [h3]
  simp only [hk, if_true]
  split
  · exact ⟨k.setExponent v e, r0, by simp [h5], ⟨rfl, rfl⟩, h4⟩
  · split
    · rename_i h6
      rw [h6] at h5
      have : e = 1 := by
        have h7 : digitsValue0 t!"1" = some 1 := rfl
        rw [h7, Option.some.injEq] at h5
        exact h5.symm
      subst this
      exact ⟨_, r0, rfl, ⟨rfl, rfl⟩, h4⟩
    · split
      · rename_i h6
        rw [h6] at h5
        have : e = 0 := by
          have h7 : digitsValue0 t!"0" = some 0 := rfl
          rw [h7, Option.some.injEq] at h5
          exact h5.symm
        subst this
        exact ⟨_, r0, rfl, by rw [InputConsumer.setExponent_same hk]; exact ⟨rfl, rfl⟩, h4⟩
      · exact ⟨{ k with big := true }.setExponent v e, r0, by simp [h5], ⟨rfl, rfl⟩, h4⟩

theorem power_complete {k : InputConsumer} {v e : ℕ} {t r t0 : Text} (hk : k.exponent v = 0) (h : powerG e t r) (hn : Next (· ≠ '^') r)
    (h0 : Alike t0 t) : ∃ k' r0, (match matchChar '^' t0 with
      | (true, r') => k.consumeExponent false v r'
      | (false, r') => (k.consumeOne v).map fun k' => (k', r')) = some (k', r0) ∧ InputConsumer.Same k' (k.setExponent v e) ∧ Alike r0 r := by
  rcases h with ⟨rfl, rfl⟩ | ⟨u, h1, h2⟩
  · refine ⟨k.setExponent v 1, eatWhite t0, ?_, ⟨rfl, rfl⟩, (eatWhite_idem t0).trans h0⟩
    rw [matchChar_next (hn.congr h0)]
    simp [InputConsumer.consumeOne, hk]
  · obtain ⟨r1, h3, h4⟩ := matchChar_complete (by decide) h1 h0
    rw [h3]
    exact consumeExponent_complete hk h2 h4

theorem exponent_of_fresh {names : List Text} {gs : List (List ℕ)} {acc rest : List (ℕ × ℕ)} {k : InputConsumer} {p : ℕ × ℕ}
    (hk : ProductInv names gs acc k) (hf : Fresh (acc ++ p :: rest)) (hp : p.1 < names.length) : k.exponent p.1 = 0 := by
  obtain ⟨h1, h2, h3⟩ := hk
  unfold InputConsumer.exponent
  rw [h2]
  simp only
  rw [productOf_getD _ hp]
  have : Fresh (acc ++ [(p.1, p.2)]) := by
    unfold Fresh at hf ⊢
    exact hf.sublist (by simp)
  exact (fresh_append.1 this).2

theorem names_idxOf? {names : List Text} (hn : names.Nodup) {v : ℕ} {x : Text} (h : names[v]? = some x) : names.idxOf? x = some v := by
  rw [List.getElem?_eq_some_iff] at h
  obtain ⟨hv, rfl⟩ := h
  rw [List.idxOf?, List.findIdx?_eq_some_iff_getElem]
  refine ⟨hv, by simp, ?_⟩
  intro j hj hc
  simp only [beq_iff_eq] at hc
  have := (List.Nodup.getElem_inj_iff hn).1 hc
  omega

theorem readPower_complete {names : List Text} (hn : names.Nodup) {gs : List (List ℕ)} {total : List (ℕ × ℕ)} (hf : Fresh total) :
    Reads (InputConsumer.readPower false) (varPowerG names) (ProductInv names gs) (· ≠ '^') total := by
  rintro acc ⟨v, e⟩ rest k t r t0 rfl hk ⟨x, h1, u, h2, h3⟩ hnx h0
  simp only at h1 h3
  have hv : v < names.length := by
    rw [List.getElem?_eq_some_iff] at h1
    exact h1.1
  have hz := exponent_of_fresh hk hf hv
  obtain ⟨r1, h4, h5⟩ := readIdentifier_complete h2 h0
  obtain ⟨k', r0, h6, h7, h8⟩ := power_complete hz h3 hnx h5
  refine ⟨k', r0, ?_, hk.step hv hz h7, h8⟩
  unfold InputConsumer.readPower
  rw [h4]
  simp only
  rw [hk.1, names_idxOf? hn h1]
  exact h6

/-- What can follow a product. -/
def AfterProduct (c : Char) : Prop := c ≠ '^' ∧ c ≠ '*'

theorem productG_first {names : List Text} {e : List ℕ} {t r : Text} (h : productG names e t r) :
    ∃ c, (eatWhite t).head? = some c ∧ (c = '1' ∨ isAlpha c = true) := by
  rcases h with ⟨h1, _⟩ | ⟨ps, h1, _⟩
  · exact ⟨'1', lit_first rfl (by decide) h1, Or.inl rfl⟩
  · cases h1 with
    | one h2 =>
      obtain ⟨x, _, u, h3, _⟩ := h2
      obtain ⟨c, h4, h5⟩ := nameG_first h3
      exact ⟨c, h4, Or.inr h5⟩
    | cons h2 _ _ =>
      obtain ⟨x, _, u, h3, _⟩ := h2
      obtain ⟨c, h4, h5⟩ := nameG_first h3
      exact ⟨c, h4, Or.inr h5⟩

theorem next_of_first {t : Text} {p q : Char → Prop} (h : ∃ c, (eatWhite t).head? = some c ∧ p c) (hpq : ∀ c, p c → q c) : Next q t := by
  obtain ⟨c, h1, h2⟩ := h
  intro d hd
  rw [h1] at hd
  simp only [Option.mem_def, Option.some.injEq] at hd
  exact hd ▸ hpq c h2

theorem ne_of_first {d : Char} (h1 : d ≠ '1') (h2 : isAlpha d = false) (c : Char) (h : c = '1' ∨ isAlpha c = true) : c ≠ d := by
  rintro rfl
  rcases h with h | h
  · exact h1 h
  · rw [h2] at h
    simp at h

theorem SepBy.shrinks {α : Type} {P : α → Gram} {sep : Text} (hs : Solidly sep) (hP : ∀ a, Shrinks (P a)) (as : List α) :
    Shrinks (SepBy P sep as) := by
  intro t r h
  induction h with
  | one h1 => exact hP _ _ _ h1
  | cons h1 h2 _ ih =>
    have := hP _ _ _ h1
    have := lit_shrinks hs _ _ h2
    omega

theorem productG_shrinks (names : List Text) (e : List ℕ) : Shrinks (productG names e) := by
  rintro t r (⟨h1, _⟩ | ⟨ps, h1, _⟩)
  · exact lit_shrinks ⟨_, _, rfl, by decide⟩ _ _ h1
  · exact SepBy.shrinks ⟨_, _, rfl, by decide⟩ (varPowerG_shrinks names) _ _ _ h1

theorem readTermProduct_complete {names : List Text} (hn : names.Nodup) (total : List (List ℕ)) :
    Reads (InputConsumer.readTermProduct false) (productG names) (TermsInv names) AfterProduct total := by
  rintro acc a rest k t r t0 - hk h hnx h0
  unfold InputConsumer.readTermProduct
  rcases h with ⟨h1, rfl⟩ | ⟨ps, h1, hf, rfl⟩
  · obtain ⟨r1, h3, h4⟩ := matchChar_complete (by decide) h1 h0
    rw [h3]
    exact ⟨_, r1, rfl, hk.of_product .begin, h4⟩
  · have hfirst : Next (· ≠ '1') t := by
      refine next_of_first (p := fun c => isAlpha c = true) ?_ ?_
      · cases h1 with
        | one h2 => obtain ⟨x, _, u, h3, _⟩ := h2; exact nameG_first h3
        | cons h2 _ _ => obtain ⟨x, _, u, h3, _⟩ := h2; exact nameG_first h3
      · rintro c hc rfl
        simp [isAlpha] at hc
    rw [matchChar_next (hfirst.congr h0)]
    simp only
    obtain ⟨k', r0, h3, h4, h5⟩ := readSep_complete (sep := '*') (by decide) (by decide) (varPowerG_shrinks names)
      (readPower_complete (gs := k.gens) hn hf) h1 (eatWhite t0).length [] k.beginTerm (eatWhite t0) (by simp)
      (hk.1 ▸ ProductInv.begin) (hnx.mono fun _ h => h.1) (hnx.mono fun _ h => h.2) ((eatWhite_idem t0).trans h0)
      (by rw [h0])
    refine ⟨k', r0, h3, hk.of_product ?_, h5⟩
    rw [hk.1]
    exact h4

/-- What can follow a product in Macaulay 2. -/
def AfterProductM2 (c : Char) : Prop := c ≠ '^' ∧ c ≠ '*' ∧ c ≠ '_'

theorem productM2G_first {names : List Text} {e : List ℕ} {t r : Text} (h : productM2G names e t r) :
    ∃ c, (eatWhite t).head? = some c ∧ (c = '1' ∨ isAlpha c = true) := by
  rcases h with h | ⟨x, u, h, _⟩ <;> exact productG_first h

theorem productM2G_shrinks (names : List Text) (e : List ℕ) : Shrinks (productM2G names e) := by
  rintro t r (h | ⟨x, u, h, v, h1, h2⟩)
  · exact productG_shrinks _ _ _ _ h
  · have := productG_shrinks _ _ _ _ h
    have := lit_shrinks ⟨_, _, rfl, by decide⟩ _ _ h1
    have := nameG_shrinks _ _ _ h2
    omega

theorem readTermM2_complete {names : List Text} (hn : names.Nodup) (total : List (List ℕ)) :
    Reads (InputConsumer.readTermM2 false) (productM2G names) (TermsInv names) AfterProductM2 total := by
  rintro acc a rest k t r t0 ht hk h hnx h0
  unfold InputConsumer.readTermM2
  rcases h with h | ⟨x, u, h, v, h1, h2⟩
  · obtain ⟨k', r0, h3, h4, h5⟩ := readTermProduct_complete hn total acc a rest k t r t0 ht hk h (hnx.mono fun _ h => ⟨h.1, h.2.1⟩) h0
    rw [h3]
    simp only
    rw [matchChar_next ((hnx.mono fun _ h => h.2.2).congr h5)]
    exact ⟨k', _, rfl, h4, (eatWhite_idem r0).trans h5⟩
  · obtain ⟨k', r0, h3, h4, h5⟩ := readTermProduct_complete hn total acc a rest k t u t0 ht hk h
      (lit_next rfl (by decide) h1 ⟨by decide, by decide⟩) h0
    obtain ⟨r1, h6, h7⟩ := matchChar_complete (by decide) h1 h5
    obtain ⟨r2, h8, h9⟩ := readIdentifier_complete h2 h7
    rw [h3]
    simp only [h6, h8]
    exact ⟨k', r2, rfl, h4, h9⟩

theorem varPowerCoCoAG_first {n : ℕ} (p : ℕ × ℕ) (t r : Text) (h : varPowerCoCoAG n p t r) : (eatWhite t).head? = some 'x' := by
  obtain ⟨_, u, h1, _⟩ := h
  exact lit_first rfl (by decide) h1

theorem sizeG_weak {x : ℕ} {t r : Text} (h : sizeG x t r) : (eatWhite r).length ≤ (eatWhite t).length := by
  obtain ⟨_, sign, ds, ⟨h1, h2, w, w', h3, h4, rfl, h5⟩, _, h6⟩ := h
  have hs : Solidly (sign ++ ds) := by
    rcases h6 with rfl | rfl | ⟨rfl, _⟩
    · cases ds with
      | nil => simp at h1
      | cons c l => exact ⟨c, l, rfl, isSpace_false_of_isDigit (isDigit_iff.2 (h2 c (by simp)))⟩
    · exact ⟨_, _, rfl, by decide⟩
    · exact ⟨_, _, rfl, by decide⟩
  exact (lit_shrinks hs _ _ ⟨w, w', h3, h4, by simp⟩).le

theorem varPowerCoCoAG_shrinks (n : ℕ) (p : ℕ × ℕ) : Shrinks (varPowerCoCoAG n p) := by
  rintro t r ⟨_, u, h1, v, h2, w, h3, y, h4, h5⟩
  have := lit_shrinks ⟨_, _, rfl, by decide⟩ _ _ h1
  have := lit_shrinks ⟨_, _, rfl, by decide⟩ _ _ h2
  have := sizeG_weak h3
  have := lit_shrinks ⟨_, _, rfl, by decide⟩ _ _ h4
  have := powerG_weak h5
  omega

theorem readPowerCoCoA_complete {names : List Text} {gs : List (List ℕ)} {total : List (ℕ × ℕ)} (hf : Fresh total) :
    Reads (InputConsumer.readPowerCoCoA false) (varPowerCoCoAG names.length) (ProductInv names gs) (· ≠ '^') total := by
  rintro acc ⟨v, e⟩ rest k t r t0 rfl hk ⟨hv, u1, h1, u2, h2, u3, h3, u4, h4, h5⟩ hnx h0
  simp only at hv h3 h5
  have hz := exponent_of_fresh hk hf hv
  obtain ⟨r1, h6, h7⟩ := expectChar_complete (by decide) h1 h0
  obtain ⟨r2, h8, h9⟩ := expectChar_complete (by decide) h2 h7
  obtain ⟨r3, h10, h11⟩ := readSizeT_complete h3 h9
  obtain ⟨r4, h12, h13⟩ := expectChar_complete (by decide) h4 h11
  obtain ⟨k', r0, h14, h15, h16⟩ := power_complete hz h5 hnx h13
  refine ⟨k', r0, ?_, hk.step hv hz h15, h16⟩
  unfold InputConsumer.readPowerCoCoA
  rw [h6, Option.bind_some, h8]
  simp only [h10]
  rw [if_neg (by rw [hk.1]; omega), h12]
  exact h14

/-- What can follow a product in CoCoA 4. -/
def AfterProductCoCoA (c : Char) : Prop := c ≠ '^' ∧ c ≠ 'x'

theorem Many.shrinks {α : Type} {P : α → Gram} (hP : ∀ a, Shrinks (P a)) {as : List α} {t r : Text} (h : Many P as t r) :
    (eatWhite r).length + as.length ≤ (eatWhite t).length := by
  induction h with
  | nil h1 => rw [(lit_nil_alike h1).length]; simp
  | cons h1 _ ih =>
    have := hP _ _ _ h1
    simp only [List.length_cons]
    omega

theorem productCoCoAG_shrinks (names : List Text) (e : List ℕ) : Shrinks (productCoCoAG names e) := by
  rintro t r (⟨h1, _⟩ | ⟨ps, h1, h2, _⟩)
  · exact lit_shrinks ⟨_, _, rfl, by decide⟩ _ _ h1
  · have := Many.shrinks (varPowerCoCoAG_shrinks _) h2
    have := List.length_pos_iff.2 h1
    omega

theorem productCoCoAG_first {names : List Text} {e : List ℕ} {t r : Text} (h : productCoCoAG names e t r) :
    ∃ c, (eatWhite t).head? = some c ∧ (c = '1' ∨ isAlpha c = true) := by
  rcases h with ⟨h1, _⟩ | ⟨ps, h1, h2, _⟩
  · exact ⟨'1', lit_first rfl (by decide) h1, Or.inl rfl⟩
  · cases h2 with
    | nil => simp at h1
    | cons h3 _ => exact ⟨'x', varPowerCoCoAG_first _ _ _ h3, Or.inr (by decide)⟩

theorem readTermCoCoA_complete {names : List Text} (total : List (List ℕ)) :
    Reads (InputConsumer.readTermCoCoA false) (productCoCoAG names) (TermsInv names) AfterProductCoCoA total := by
  rintro acc a rest k t r t0 - hk h hnx h0
  unfold InputConsumer.readTermCoCoA
  rcases h with ⟨h1, rfl⟩ | ⟨ps, hne, h1, hf, rfl⟩
  · obtain ⟨r1, h3, h4⟩ := matchChar_complete (by decide) h1 h0
    rw [h3]
    exact ⟨_, r1, rfl, hk.of_product .begin, h4⟩
  · have hfirst : Next (· ≠ '1') t := by
      refine next_of_first (p := fun c => c = 'x') ?_ (by rintro c rfl; decide)
      cases h1 with
      | nil => simp at hne
      | cons h3 _ => exact ⟨'x', varPowerCoCoAG_first _ _ _ h3, rfl⟩
    rw [matchChar_next (hfirst.congr h0)]
    simp only
    obtain ⟨k', r0, h3, h4, h5⟩ := readWhileX_complete (by decide) (varPowerCoCoAG_shrinks _) varPowerCoCoAG_first
      (readPowerCoCoA_complete (names := names) (gs := k.gens) hf) h1 hne (eatWhite t0).length [] k.beginTerm (eatWhite t0) (by simp)
      (hk.1 ▸ ProductInv.begin) (hnx.mono fun _ h => h.1) (hnx.mono fun _ h => h.2) ((eatWhite_idem t0).trans h0)
      (by rw [h0])
    refine ⟨k', r0, h3, hk.of_product ?_, h5⟩
    rw [hk.1]
    exact h4

end Frobby

import Verif.OrderModel

/-!
# Lemmas on comparison functions
-/

namespace Frobby

variable {n : ℕ} {α β : Type}

/-- A form of strict weak orders that is easy to prove, on the elements with `P`. -/
structure NegOn (P : α → Prop) (less : α → α → Bool) : Prop where
  irrefl : ∀ a, P a → less a a = false
  asymm : ∀ a b, P a → P b → less a b = true → less b a = false
  neg : ∀ a b c, P a → P b → P c → less a c = true → less a b = true ∨ less b c = true

/-- Elements that are not comparable are equal. -/
def TotalOn (P : α → Prop) (less : α → α → Bool) : Prop :=
  ∀ a b, P a → P b → less a b = false → less b a = false → a = b

theorem NegOn.of_key [LinearOrder β] {P : α → Prop} {less : α → α → Bool} (f : α → β)
    (h : ∀ a b, P a → P b → (less a b = true ↔ f a < f b)) : NegOn P less where
  irrefl a ha := by
    rw [Bool.eq_false_iff, ne_eq, h a a ha ha]; exact lt_irrefl _
  asymm a b ha hb hab := by
    rw [Bool.eq_false_iff, ne_eq, h b a hb ha]; exact lt_asymm ((h a b ha hb).1 hab)
  neg a b c ha hb hc hac := by
    rw [h a b ha hb, h b c hb hc]
    exact lt_or_lt_of_lt (h a c ha hc |>.1 hac)
where
  lt_or_lt_of_lt {x y z : β} (hxz : x < z) : x < y ∨ y < z := by
    rcases lt_or_ge x y with h | h
    · exact .inl h
    · exact .inr (h.trans_lt hxz)

/-- First one comparison, then another one if it does not decide. -/
def comb (l1 l2 : α → α → Bool) (a b : α) : Bool := if l1 a b then true else if l1 b a then false else l2 a b

theorem comb_true {l1 l2 : α → α → Bool} {a b : α} :
    comb l1 l2 a b = true ↔ l1 a b = true ∨ (l1 b a = false ∧ l2 a b = true) := by
  unfold comb
  cases h1 : l1 a b <;> cases h2 : l1 b a <;> simp

theorem NegOn.comb {P : α → Prop} {l1 l2 : α → α → Bool} (h1 : NegOn P l1)
    (h2 : ∀ z, P z → NegOn (fun x => P x ∧ l1 z x = false ∧ l1 x z = false) l2) : NegOn P (comb l1 l2) where
  irrefl a ha := by
    have e1 := h1.irrefl a ha
    have e2 := (h2 a ha).irrefl a ⟨ha, e1, e1⟩
    simp [Frobby.comb, e1, e2]
  asymm a b ha hb h := by
    rw [Bool.eq_false_iff, ne_eq, comb_true]
    rcases comb_true.1 h with h | ⟨h, h'⟩
    · rintro (h3 | ⟨h3, _⟩)
      · rw [h1.asymm a b ha hb h] at h3; simp at h3
      · rw [h] at h3; simp at h3
    · rintro (h3 | ⟨h3, h4⟩)
      · rw [h] at h3; simp at h3
      · have e := h1.irrefl a ha
        rw [(h2 a ha).asymm a b ⟨ha, e, e⟩ ⟨hb, h3, h⟩ h'] at h4
        simp at h4
  neg a b c ha hb hc h := by
    rw [comb_true, comb_true]
    rcases comb_true.1 h with h | ⟨h, h'⟩
    · rcases h1.neg a b c ha hb hc h with h | h
      · exact .inl (.inl h)
      · exact .inr (.inl h)
    · by_cases hab : l1 a b = true
      · exact .inl (.inl hab)
      · by_cases hbc : l1 b c = true
        · exact .inr (.inl hbc)
        · have hba : l1 b a = false := by
            rw [Bool.eq_false_iff]
            intro hba
            rcases h1.neg b c a hb hc ha hba with h4 | h4
            · exact hbc h4
            · rw [h] at h4; simp at h4
          have hcb : l1 c b = false := by
            rw [Bool.eq_false_iff]
            intro hcb
            rcases h1.neg c a b hc ha hb hcb with h4 | h4
            · rw [h] at h4; simp at h4
            · exact hab h4
          have hac : l1 a c = false := by
            rw [Bool.eq_false_iff]
            intro hac
            rcases h1.neg a b c ha hb hc hac with h4 | h4
            · exact hab h4
            · exact hbc h4
          have e := h1.irrefl a ha
          rw [Bool.not_eq_true] at hab hbc
          rcases (h2 a ha).neg a b c ⟨ha, e, e⟩ ⟨hb, hab, hba⟩ ⟨hc, hac, h⟩ h' with h4 | h4
          · exact .inl (.inr ⟨hba, h4⟩)
          · exact .inr (.inr ⟨hcb, h4⟩)

theorem NegOn.mono {P Q : α → Prop} {l : α → α → Bool} (h : NegOn P l) (hQ : ∀ a, Q a → P a) : NegOn Q l where
  irrefl a ha := h.irrefl a (hQ a ha)
  asymm a b ha hb := h.asymm a b (hQ a ha) (hQ b hb)
  neg a b c ha hb hc := h.neg a b c (hQ a ha) (hQ b hb) (hQ c hc)

theorem NegOn.combAll {P : α → Prop} {l1 l2 : α → α → Bool} (h1 : NegOn P l1) (h2 : NegOn P l2) : NegOn P (Frobby.comb l1 l2) :=
  h1.comb fun _ _ => h2.mono fun _ h => h.1

theorem NegOn.flip {P : α → Prop} {l : α → α → Bool} (h : NegOn P l) : NegOn P fun a b => l b a where
  irrefl a ha := h.irrefl a ha
  asymm a b ha hb hab := h.asymm b a hb ha hab
  neg a b c ha hb hc hac := (h.neg c b a hc hb ha hac).symm

theorem NegOn.const {P : α → Prop} : NegOn P fun _ _ => false where
  irrefl _ _ := rfl
  asymm _ _ _ _ _ := rfl
  neg _ _ _ _ _ _ h := by simp at h

theorem NegOn.congr {P : α → Prop} {l l' : α → α → Bool} (h : NegOn P l) (he : ∀ a b, P a → P b → l' a b = l a b) : NegOn P l' where
  irrefl a ha := by rw [he a a ha ha]; exact h.irrefl a ha
  asymm a b ha hb := by rw [he a b ha hb, he b a hb ha]; exact h.asymm a b ha hb
  neg a b c ha hb hc := by rw [he a b ha hb, he a c ha hc, he b c hb hc]; exact h.neg a b c ha hb hc

/-! ## terms -/

theorem lexLoop_comb (v : Fin n) (vs : List (Fin n)) (a b : Term n) :
    decide (lexCompareLoop a b (v :: vs) < 0) =
      comb (fun a b : Term n => decide (a v < b v)) (fun a b => decide (lexCompareLoop a b vs < 0)) a b := by
  unfold comb
  rw [lexCompareLoop]
  rcases lt_trichotomy (a v) (b v) with h | h | h
  · simp [h, h.ne]
  · simp [h]
  · simp [h, h.ne', h.not_gt]

theorem negOn_lexLoop (vs : List (Fin n)) : NegOn (fun _ : Term n => True) fun a b => decide (lexCompareLoop a b vs < 0) := by
  induction vs with
  | nil => exact NegOn.const.congr fun a b _ _ => by simp [lexCompareLoop]
  | cons v vs ih =>
    exact ((NegOn.of_key (fun a : Term n => a v) fun a b _ _ => by simp).combAll ih).congr fun a b _ _ => lexLoop_comb v vs a b

theorem lexCompareLoop_swap (a b : Term n) (vs : List (Fin n)) : lexCompareLoop b a vs = -lexCompareLoop a b vs := by
  induction vs with
  | nil => rfl
  | cons v vs ih =>
    unfold lexCompareLoop
    rcases lt_trichotomy (a v) (b v) with h | h | h
    · simp [h, h.ne, h.ne', h.not_gt]
    · simp [h, ih]
    · simp [h, h.ne, h.ne', h.not_gt]

theorem lexCompareLoop_zero {a b : Term n} {vs : List (Fin n)} (h : lexCompareLoop a b vs = 0) : ∀ v ∈ vs, a v = b v := by
  induction vs with
  | nil => simp
  | cons v vs ih =>
    unfold lexCompareLoop at h
    split at h
    · rename_i he
      intro w hw
      rcases List.mem_cons.1 hw with rfl | hw
      · exact he
      · exact ih h w hw
    · split at h <;> simp at h

theorem lexCompare_swap (a b : Term n) : lexCompare b a = -lexCompare a b := lexCompareLoop_swap a b _

theorem lexCompare_zero {a b : Term n} (h : lexCompare a b = 0) : a = b :=
  funext fun v => lexCompareLoop_zero h v (List.mem_finRange v)

theorem negOn_lex : NegOn (fun _ : Term n => True) lexLess := negOn_lexLoop _

theorem totalOn_lex : TotalOn (fun _ : Term n => True) lexLess := fun a b _ _ h1 h2 => by
  unfold lexLess at h1 h2
  rw [lexCompare_swap a b] at h2
  simp only [decide_eq_false_iff_not] at h1 h2
  exact lexCompare_zero (by omega)

theorem reverseLexLess_eq (a b : Term n) : reverseLexLess a b = lexLess b a := by
  unfold reverseLexLess lexLess reverseLexCompare
  rw [lexCompare_swap a b]

theorem refLess_eq (a b : Term n) : refLess a b = lexLess b a := by
  unfold refLess lexLess
  rw [lexCompare_swap a b, decide_eq_decide]
  omega

theorem negOn_reverseLex : NegOn (fun _ : Term n => True) reverseLexLess :=
  negOn_lex.flip.congr fun a b _ _ => reverseLexLess_eq a b

theorem totalOn_reverseLex : TotalOn (fun _ : Term n => True) reverseLexLess := fun a b ha hb h1 h2 => by
  rw [reverseLexLess_eq] at h1 h2
  exact totalOn_lex a b ha hb h2 h1

theorem translatedLoop_comb (e : Fin n → ℕ → ℤ) (v : Fin n) (vs : List (Fin n)) (a b : Term n) :
    translatedLessLoop e a b (v :: vs) =
      comb (fun a b : Term n => decide (e v (a v) > e v (b v))) (fun a b => translatedLessLoop e a b vs) a b := by
  unfold comb
  rw [translatedLessLoop]
  rcases lt_trichotomy (e v (a v)) (e v (b v)) with h | h | h
  · simp [h, h.ne, h.not_gt]
  · simp [h]
  · simp [h, h.ne']

theorem negOn_translated (e : Fin n → ℕ → ℤ) : NegOn (fun _ : Term n => True) (translatedLess e) := by
  unfold translatedLess
  induction List.finRange n with
  | nil => exact NegOn.const.congr fun a b _ _ => by simp [translatedLessLoop]
  | cons v vs ih =>
    exact ((NegOn.of_key (fun a : Term n => e v (a v)) fun a b _ _ => by simp).flip.combAll ih).congr
      fun a b _ _ => translatedLoop_comb e v vs a b

theorem translated_eq {e : Fin n → ℕ → ℤ} {a b : Term n} (h1 : translatedLess e a b = false) (h2 : translatedLess e b a = false) :
    ∀ v, e v (a v) = e v (b v) := by
  intro v
  have : ∀ vs : List (Fin n), translatedLessLoop e a b vs = false → translatedLessLoop e b a vs = false →
      ∀ v ∈ vs, e v (a v) = e v (b v) := by
    intro vs
    induction vs with
    | nil => simp
    | cons w vs ih =>
      intro h1 h2 v hv
      unfold translatedLessLoop at h1 h2
      by_cases he : e w (a w) = e w (b w)
      · simp only [he, ne_eq, not_true_eq_false, if_false] at h1 h2
        rcases List.mem_cons.1 hv with rfl | hv
        · exact he
        · exact ih h1 h2 v hv
      · simp only [ne_eq, he, Ne.symm he, not_false_eq_true, if_true, decide_eq_false_iff_not] at h1 h2
        exact absurd (by omega) he
  exact this _ h1 h2 v (List.mem_finRange v)

/-! ## vectors of integers -/

theorem bigTermLess_comb (x y : ℤ) (xs ys : List ℤ) :
    bigTermLess (x :: xs) (y :: ys) = if x > y then true else if x < y then false else bigTermLess xs ys := rfl

theorem negOn_bigTerm (k : ℕ) : NegOn (fun l : List ℤ => l.length = k) bigTermLess := by
  induction k with
  | zero =>
    refine NegOn.const.congr fun a b ha hb => ?_
    rw [List.length_eq_zero_iff] at ha hb
    subst ha; subst hb; rfl
  | succ k ih =>
    constructor
    · intro a ha
      match a, ha with
      | x :: xs, ha => simp [bigTermLess, ih.irrefl xs (by simpa using ha)]
    · intro a b ha hb h
      match a, b, ha, hb with
      | x :: xs, y :: ys, ha, hb =>
        rw [bigTermLess_comb] at h ⊢
        rcases lt_trichotomy x y with h1 | h1 | h1
        · simp [h1, h1.not_gt] at h
        · subst h1
          simp only [lt_irrefl, if_false] at h ⊢
          exact ih.asymm xs ys (by simpa using ha) (by simpa using hb) h
        · simp [h1, h1.not_gt]
    · intro a b c ha hb hc h
      match a, b, c, ha, hb, hc with
      | x :: xs, y :: ys, z :: zs, ha, hb, hc =>
        rw [bigTermLess_comb] at h ⊢
        rw [bigTermLess_comb]
        rcases lt_trichotomy x y with h1 | h1 | h1
        · right
          rcases lt_trichotomy x z with h2 | h2 | h2
          · simp [h2, h2.not_gt] at h
          · subst h2; simp [h1]
          · simp [h2.trans h1]
        · subst h1
          rcases lt_trichotomy x z with h2 | h2 | h2
          · simp [h2, h2.not_gt] at h
          · subst h2
            simp only [lt_irrefl, if_false] at h ⊢
            exact ih.neg xs ys zs (by simpa using ha) (by simpa using hb) (by simpa using hc) h
          · right; simp [h2]
        · left; simp [h1]

theorem totalOn_bigTerm (k : ℕ) : TotalOn (fun l : List ℤ => l.length = k) bigTermLess := by
  induction k with
  | zero =>
    intro a b ha hb _ _
    rw [List.length_eq_zero_iff] at ha hb
    rw [ha, hb]
  | succ k ih =>
    intro a b ha hb h1 h2
    match a, b, ha, hb with
    | x :: xs, y :: ys, ha, hb =>
      rw [bigTermLess_comb] at h1 h2
      rcases lt_trichotomy x y with h3 | h3 | h3
      · simp [h3] at h2
      · subst h3
        simp only [lt_irrefl, if_false] at h1 h2
        rw [ih xs ys (by simpa using ha) (by simpa using hb) h1 h2]
      · simp [h3] at h1

theorem bigCoefTermLess_eq (c d : ℤ) : ∀ (xs ys : List ℤ), xs.length = ys.length →
    bigCoefTermLess c d xs ys = if bigTermLess xs ys then true else if bigTermLess ys xs then false else decide (c < d)
  | [], [], _ => by simp [bigCoefTermLess, bigTermLess]
  | x :: xs, y :: ys, h => by
    rw [bigCoefTermLess, bigTermLess_comb, bigTermLess_comb, bigCoefTermLess_eq c d xs ys (by simpa using h)]
    rcases lt_trichotomy x y with h3 | h3 | h3
    · simp [h3, h3.ne, h3.not_gt]
    · subst h3; simp
    · simp [h3, h3.ne']

theorem negOn_bigCoefTerm (k : ℕ) :
    NegOn (fun x : ℤ × List ℤ => x.2.length = k) fun a b => bigCoefTermLess a.1 b.1 a.2 b.2 := by
  have h1 : NegOn (fun x : ℤ × List ℤ => x.2.length = k) fun a b => bigTermLess a.2 b.2 :=
    ⟨fun a ha => (negOn_bigTerm k).irrefl _ ha, fun a b ha hb => (negOn_bigTerm k).asymm _ _ ha hb,
      fun a b c ha hb hc => (negOn_bigTerm k).neg _ _ _ ha hb hc⟩
  have h2 : NegOn (fun x : ℤ × List ℤ => x.2.length = k) fun a b => decide (a.1 < b.1) :=
    NegOn.of_key (fun x : ℤ × List ℤ => x.1) fun a b _ _ => by simp
  exact (h1.combAll h2).congr fun a b ha hb => bigCoefTermLess_eq _ _ _ _ (ha.trans hb.symm)

/-! ## lists -/

theorem negOn_idealLess {P : α → Prop} {less : α → α → Bool} (h : NegOn P less) :
    NegOn (fun l : List α => ∀ x ∈ l, P x) (idealLessImpl less) := by
  have key : ∀ (a b : α) (as bs : List α), idealLessImpl less (a :: as) (b :: bs) = true ↔
      less a b = true ∨ (less b a = false ∧ idealLessImpl less as bs = true) := by
    intro a b as bs
    rw [idealLessImpl]
    cases h1 : less a b <;> cases h2 : less b a <;> simp
  refine ⟨?_, ?_, ?_⟩
  · intro l hl
    induction l with
    | nil => rfl
    | cons a l ih => simp [idealLessImpl, h.irrefl a (hl a (by simp)), ih fun x hx => hl x (by simp [hx])]
  · intro a
    induction a with
    | nil => intro b _ _ h1; simp [idealLessImpl] at h1
    | cons x xs ih =>
      intro b ha hb h1
      match b with
      | [] => rfl
      | y :: ys =>
        rw [Bool.eq_false_iff, ne_eq, key]
        have hx := ha x (by simp)
        have hy := hb y (by simp)
        rcases (key x y xs ys).1 h1 with h2 | ⟨h2, h3⟩
        · rintro (h4 | ⟨h4, _⟩)
          · rw [h.asymm x y hx hy h2] at h4; simp at h4
          · rw [h2] at h4; simp at h4
        · rintro (h4 | ⟨h4, h5⟩)
          · rw [h2] at h4; simp at h4
          · rw [ih ys (fun z hz => ha z (by simp [hz])) (fun z hz => hb z (by simp [hz])) h3] at h5
            simp at h5
  · intro a
    induction a with
    | nil => intro b c _ _ _ h1; simp [idealLessImpl] at h1
    | cons x xs ih =>
      intro b c ha hb hc h1
      match b, c with
      | [], _ => left; rfl
      | y :: ys, [] => right; rfl
      | y :: ys, z :: zs =>
        have hx := ha x (by simp)
        have hy := hb y (by simp)
        have hz := hc z (by simp)
        rw [key, key]
        rcases (key x z xs zs).1 h1 with h2 | ⟨h2, h3⟩
        · rcases h.neg x y z hx hy hz h2 with h4 | h4
          · exact .inl (.inl h4)
          · exact .inr (.inl h4)
        · by_cases hxy : less x y = true
          · exact .inl (.inl hxy)
          · by_cases hyz : less y z = true
            · exact .inr (.inl hyz)
            · have e1 : less y x = false := by
                rw [Bool.eq_false_iff]
                intro h5
                rcases h.neg y z x hy hz hx h5 with h6 | h6
                · exact hyz h6
                · rw [h2] at h6; simp at h6
              have e2 : less z y = false := by
                rw [Bool.eq_false_iff]
                intro h5
                rcases h.neg z x y hz hx hy h5 with h6 | h6
                · rw [h2] at h6; simp at h6
                · exact hxy h6
              rcases ih ys zs (fun w hw => ha w (by simp [hw])) (fun w hw => hb w (by simp [hw]))
                (fun w hw => hc w (by simp [hw])) h3 with h4 | h4
              · exact .inl (.inr ⟨e1, h4⟩)
              · exact .inr (.inr ⟨e2, h4⟩)

theorem totalOn_idealLess {P : α → Prop} {less : α → α → Bool} (h : TotalOn P less) :
    TotalOn (fun l : List α => ∀ x ∈ l, P x) (idealLessImpl less) := by
  intro a
  induction a with
  | nil =>
    intro b _ _ _ h2
    match b with
    | [] => rfl
    | y :: ys => simp [idealLessImpl] at h2
  | cons x xs ih =>
    intro b ha hb h1 h2
    match b with
    | [] => simp [idealLessImpl] at h1
    | y :: ys =>
      rw [idealLessImpl] at h1 h2
      cases h3 : less x y with
      | true => simp [h3] at h1
      | false =>
        cases h4 : less y x with
        | true => simp [h4] at h2
        | false =>
          simp only [h3, h4, Bool.false_eq_true, if_false] at h1 h2
          rw [h x y (ha x (by simp)) (hb y (by simp)) h3 h4,
            ih ys (fun w hw => ha w (by simp [hw])) (fun w hw => hb w (by simp [hw])) h1 h2]

theorem lexicographical_eq (less : α → α → Bool) (a b : List α) :
    lexicographicalCompare less a b = idealLessImpl (fun x y => less y x) b a := by
  induction a generalizing b with
  | nil => cases b <;> rfl
  | cons x xs ih =>
    cases b with
    | nil => rfl
    | cons y ys => rw [lexicographicalCompare, idealLessImpl, ih]

theorem negOn_lexicographical {P : α → Prop} {less : α → α → Bool} (h : NegOn P less) :
    NegOn (fun l : List α => ∀ x ∈ l, P x) (lexicographicalCompare less) :=
  (negOn_idealLess h.flip).flip.congr fun a b _ _ => lexicographical_eq less a b

theorem totalOn_lexicographical {P : α → Prop} {less : α → α → Bool} (h : TotalOn P less) :
    TotalOn (fun l : List α => ∀ x ∈ l, P x) (lexicographicalCompare less) := by
  have hf : TotalOn P fun x y => less y x := fun a b ha hb h1 h2 => h a b ha hb h2 h1
  intro a b ha hb h1 h2
  rw [lexicographical_eq] at h1 h2
  exact totalOn_idealLess hf a b ha hb h2 h1

theorem negOn_text : NegOn (fun _ : Text => True) textLess :=
  (negOn_lexicographical (NegOn.of_key (P := fun _ : Char => True) (fun c : Char => c.toNat) fun a b _ _ => by simp)).mono
    fun _ _ _ _ => trivial

theorem totalOn_text : TotalOn (fun _ : Text => True) textLess := by
  have : TotalOn (fun _ : Char => True) fun c d : Char => decide (c.toNat < d.toNat) := fun a b _ _ h1 h2 => by
    simp only [decide_eq_false_iff_not] at h1 h2
    have h3 : a.toNat = b.toNat := by omega
    rw [← Char.ofNat_toNat a, h3, Char.ofNat_toNat]
  intro a b _ _ h1 h2
  exact totalOn_lexicographical this a b (fun _ _ => trivial) (fun _ _ => trivial) h1 h2

theorem negOn_names : NegOn (fun _ : List Text => True) namesLess :=
  (negOn_lexicographical negOn_text).mono fun _ _ _ _ => trivial

theorem totalOn_names : TotalOn (fun _ : List Text => True) namesLess := fun a b _ _ h1 h2 =>
  totalOn_lexicographical totalOn_text a b (fun _ _ => trivial) (fun _ _ => trivial) h1 h2

theorem bigIdealOp_eq (a b : List (List ℤ)) : bigIdealOpLoop a b = idealLessImpl bigTermLess a b := by
  induction a generalizing b with
  | nil => rfl
  | cons x xs ih =>
    cases b with
    | nil => rfl
    | cons y ys => rw [bigIdealOpLoop, idealLessImpl, ih]

/-- The terms have as many entries as there are names. -/
def BigIdealOK (a : List Text × List (List ℤ)) : Prop := ∀ g ∈ a.2, g.length = a.1.length

theorem negOn_bigIdeal : NegOn BigIdealOK bigIdealLess := by
  have h1 : NegOn BigIdealOK fun a b : List Text × List (List ℤ) => namesLess a.1 b.1 :=
    ⟨fun a _ => negOn_names.irrefl _ trivial, fun a b _ _ => negOn_names.asymm _ _ trivial trivial,
      fun a b c _ _ _ => negOn_names.neg _ _ _ trivial trivial trivial⟩
  refine (h1.comb (l2 := fun a b => idealLessImpl bigTermLess a.2 b.2) fun z hz => ?_).congr fun a b _ _ => rfl
  have hlen : ∀ x : List Text × List (List ℤ), BigIdealOK x ∧ namesLess z.1 x.1 = false ∧ namesLess x.1 z.1 = false →
      ∀ g ∈ x.2, g.length = z.1.length := by
    rintro x ⟨hx, h2, h3⟩ g hg
    rw [totalOn_names z.1 x.1 trivial trivial h2 h3]
    exact hx g hg
  have h2 := negOn_idealLess (negOn_bigTerm z.1.length)
  exact ⟨fun a ha => h2.irrefl _ (hlen a ha), fun a b ha hb => h2.asymm _ _ (hlen a ha) (hlen b hb),
    fun a b c ha hb hc => h2.neg _ _ _ (hlen a ha) (hlen b hb) (hlen c hc)⟩

theorem totalOn_bigIdeal : TotalOn BigIdealOK bigIdealLess := by
  intro a b ha hb h1 h2
  unfold bigIdealLess at h1 h2
  cases h3 : namesLess a.1 b.1 with
  | true => simp [h3] at h1
  | false =>
    cases h4 : namesLess b.1 a.1 with
    | true => simp [h4] at h2
    | false =>
      simp only [h3, h4, Bool.false_eq_true, if_false] at h1 h2
      have hn := totalOn_names a.1 b.1 trivial trivial h3 h4
      have ht := totalOn_idealLess (totalOn_bigTerm a.1.length) a.2 b.2 ha
        (fun g hg => by rw [hn]; exact hb g hg) h1 h2
      exact Prod.ext hn ht

/-! ## sorting -/

/-- What is known of a sorting function: it permutes, and the result has no element before a smaller one. -/
structure IsSort (less : α → α → Bool) (srt : List α → List α) : Prop where
  perm : ∀ l, (srt l).Perm l
  sorted : ∀ l, (srt l).Pairwise fun a b => less b a = false

/-- Sorted lists with the same elements agree in any function that only depends on the class of equivalent elements. -/
theorem map_eq_of_sorted {less : α → α → Bool} (h : NegOn (fun _ : α => True) less) (f : α → β)
    (hf : ∀ a b, less a b = false → less b a = false → f a = f b) :
    ∀ (l m : List α), (l.map f).Perm (m.map f) → (∀ a b, f a = f b → less a b = false) →
      l.Pairwise (fun a b => less b a = false) → m.Pairwise (fun a b => less b a = false) → l.map f = m.map f := by
  intro l
  induction l with
  | nil => intro m hp _ _ _; simpa using (List.nil_perm.1 hp).symm
  | cons a l ih =>
    intro m hp hc hl hm
    match m with
    | [] => simp at hp
    | b :: m =>
      have hl' := List.pairwise_cons.1 hl
      have hm' := List.pairwise_cons.1 hm
      -- both are smallest
      have e1 : less b a = false := by
        have hb : f b ∈ (a :: l).map f := hp.mem_iff.2 (by simp)
        obtain ⟨x, hx, hxb⟩ := List.mem_map.1 hb
        rw [Bool.eq_false_iff]
        intro hlt
        have h1 : less b x = false := hc b x hxb.symm
        have h2 : less x a = true := by
          rcases h.neg b x a trivial trivial trivial hlt with h3 | h3
          · rw [h1] at h3; simp at h3
          · exact h3
        rcases List.mem_cons.1 hx with rfl | hx
        · rw [h.irrefl _ trivial] at h2; simp at h2
        · rw [hl'.1 x hx] at h2; simp at h2
      have e2 : less a b = false := by
        have ha : f a ∈ (b :: m).map f := hp.mem_iff.1 (by simp)
        obtain ⟨x, hx, hxa⟩ := List.mem_map.1 ha
        rw [Bool.eq_false_iff]
        intro hlt
        have h1 : less a x = false := hc a x hxa.symm
        have h2 : less x b = true := by
          rcases h.neg a x b trivial trivial trivial hlt with h3 | h3
          · rw [h1] at h3; simp at h3
          · exact h3
        rcases List.mem_cons.1 hx with rfl | hx
        · rw [h.irrefl _ trivial] at h2; simp at h2
        · rw [hm'.1 x hx] at h2; simp at h2
      have hfab := hf a b e2 e1
      rw [List.map_cons, List.map_cons, hfab] at hp ⊢
      rw [ih m (List.Perm.cons_inv hp) hc hl'.2 hm'.2]

/-! ## `CanonicalTermConsumer` -/

/-- The calls that give one ideal. -/
def idealCalls (I : List (Term n)) : List (TermEvent n) := .begin :: I.map .term ++ [.done]

/-- The calls that give a list of ideals. -/
def listCalls (Is : List (List (Term n))) : List (TermEvent n) := .beginList :: Is.flatMap idealCalls ++ [.doneList]

theorem Canon.run_append (srt : List (Term n) → List (Term n)) (srtI : List (List (Term n)) → List (List (Term n)))
    (s : Canon n) (e : TermEvent n) (s' : Canon n) (h : s.step srt srtI e = some (s', [])) (es : List (TermEvent n)) :
    s.run srt srtI (e :: es) = s'.run srt srtI es := by
  rw [Canon.run, h]
  simp

theorem Canon.run_terms (srt : List (Term n) → List (Term n)) (srtI : List (List (Term n)) → List (List (Term n)))
    (b : Bool) (Is : List (List (Term n))) (ts : List (Term n)) :
    ∀ (I : List (Term n)) (es : List (TermEvent n)), (Canon.mk b (I :: Is)).run srt srtI (ts.map .term ++ es) =
      (Canon.mk b ((I ++ ts) :: Is)).run srt srtI es := by
  induction ts with
  | nil => simp
  | cons t ts ih =>
    intro I es
    rw [List.map_cons, List.cons_append, Canon.run_append srt srtI _ _ ⟨b, (I ++ [t]) :: Is⟩ rfl, ih]
    simp

theorem Canon.run_single (srt : List (Term n) → List (Term n)) (srtI : List (List (Term n)) → List (List (Term n)))
    (I : List (Term n)) : (Canon.mk false []).run srt srtI (idealCalls I) = some (idealCalls (srt I)) := by
  unfold idealCalls
  rw [List.cons_append, Canon.run_append srt srtI _ _ ⟨false, [[]]⟩ rfl, Canon.run_terms]
  simp [Canon.run, Canon.step, passIdeal]

theorem Canon.run_ideals (srt : List (Term n) → List (Term n)) (srtI : List (List (Term n)) → List (List (Term n)))
    (Is : List (List (Term n))) :
    ∀ (Js : List (List (Term n))) (es : List (TermEvent n)), (Canon.mk true Js).run srt srtI (Is.flatMap idealCalls ++ es) =
      (Canon.mk true (Is.reverse ++ Js)).run srt srtI es := by
  induction Is with
  | nil => simp
  | cons I Is ih =>
    intro Js es
    rw [List.flatMap_cons, idealCalls, List.append_assoc, List.cons_append, List.cons_append,
      Canon.run_append srt srtI _ _ ⟨true, [] :: Js⟩ rfl, List.append_assoc, Canon.run_terms, List.singleton_append,
      Canon.run_append srt srtI _ _ ⟨true, I :: Js⟩ (by simp [Canon.step]), ih]
    simp

theorem Canon.run_list (srt : List (Term n) → List (Term n)) (srtI : List (List (Term n)) → List (List (Term n)))
    (Is : List (List (Term n))) : (Canon.mk false []).run srt srtI (listCalls Is) =
      some (listCalls ((srtI (Is.reverse.map srt)).map srt)) := by
  unfold listCalls
  rw [List.cons_append, Canon.run_append srt srtI _ _ ⟨true, []⟩ rfl, Canon.run_ideals]
  simp only [List.append_nil, Canon.run, Canon.step, Option.map_some, List.flatMap_map, Option.some.injEq]
  congr 1

/-- The ideals agree up to the order of their generators and the order of the ideals, after the translation `f`. -/
def SameFamily (f : Term n → β) (Is Js : List (List (Term n))) : Prop :=
  ∃ Ks, List.Perm Ks Js ∧ List.Forall₂ (fun I K => (List.map f I).Perm (List.map f K)) Is Ks

theorem forall₂_perm {γ δ : Type} {R : γ → δ → Prop} {l l' : List γ} (hp : l.Perm l') :
    ∀ {m : List δ}, List.Forall₂ R l m → ∃ m', m'.Perm m ∧ List.Forall₂ R l' m' := by
  induction hp with
  | nil => intro m h; exact ⟨m, List.Perm.refl _, h⟩
  | cons x _ ih =>
    intro m h
    cases h with
    | cons h1 h2 =>
      obtain ⟨m', h3, h4⟩ := ih h2
      exact ⟨_, List.Perm.cons _ h3, .cons h1 h4⟩
  | swap x y l =>
    intro m h
    cases h with
    | cons h1 h2 =>
      cases h2 with
      | cons h3 h4 => exact ⟨_, List.Perm.swap _ _ _, .cons h3 (.cons h1 h4)⟩
  | trans _ _ ih1 ih2 =>
    intro m h
    obtain ⟨m1, h1, h2⟩ := ih1 h
    obtain ⟨m2, h3, h4⟩ := ih2 h2
    exact ⟨m2, h3.trans h1, h4⟩

theorem SameFamily.congr_left {f : Term n → β} {Is Is' Js : List (List (Term n))} (h : SameFamily f Is Js) (hp : Is.Perm Is') :
    SameFamily f Is' Js := by
  obtain ⟨Ks, h1, h2⟩ := h
  obtain ⟨Ks', h3, h4⟩ := forall₂_perm hp h2
  exact ⟨Ks', h3.trans h1, h4⟩

theorem SameFamily.congr_right {f : Term n → β} {Is Js Js' : List (List (Term n))} (h : SameFamily f Is Js) (hp : Js.Perm Js') :
    SameFamily f Is Js' := by
  obtain ⟨Ks, h1, h2⟩ := h
  exact ⟨Ks, h1.trans hp, h2⟩

theorem idealLess_eq_of_map {less : α → α → Bool} {f : α → β}
    (hf : ∀ a b, less a b = false → less b a = false → f a = f b) :
    ∀ a b : List α, idealLessImpl less a b = false → idealLessImpl less b a = false → a.map f = b.map f := by
  intro a
  induction a with
  | nil =>
    intro b _ h2
    match b with
    | [] => rfl
    | y :: ys => simp [idealLessImpl] at h2
  | cons x xs ih =>
    intro b h1 h2
    match b with
    | [] => simp [idealLessImpl] at h1
    | y :: ys =>
      rw [idealLessImpl] at h1 h2
      cases h3 : less x y with
      | true => simp [h3] at h1
      | false =>
        cases h4 : less y x with
        | true => simp [h4] at h2
        | false =>
          simp only [h3, h4, Bool.false_eq_true, if_false] at h1 h2
          rw [List.map_cons, List.map_cons, hf x y h3 h4, ih ys h1 h2]

theorem idealLess_false_of_map {less : α → α → Bool} {f : α → β} (hc : ∀ a b, f a = f b → less a b = false) :
    ∀ a b : List α, a.map f = b.map f → idealLessImpl less a b = false := by
  intro a
  induction a with
  | nil => intro b _; rfl
  | cons x xs ih =>
    intro b h
    match b with
    | [] => simp at h
    | y :: ys =>
      simp only [List.map_cons, List.cons.injEq] at h
      rw [idealLessImpl, hc x y h.1, hc y x h.1.symm, ih ys h.2]
      rfl

theorem translatedLoop_iff (e : Fin n → ℕ → ℤ) (a b : Term n) (vs : List (Fin n)) (hvs : vs.Pairwise (· < ·)) :
    translatedLessLoop e a b vs = true ↔
      ∃ v ∈ vs, (∀ w ∈ vs, w < v → e w (a w) = e w (b w)) ∧ e v (b v) < e v (a v) := by
  induction vs with
  | nil => simp [translatedLessLoop]
  | cons u vs ih =>
    obtain ⟨h1, h2⟩ := List.pairwise_cons.1 hvs
    rw [translatedLessLoop]
    by_cases he : e u (a u) = e u (b u)
    · rw [if_neg (by simpa using he), ih h2]
      constructor
      · rintro ⟨v, hv, h3, h4⟩
        refine ⟨v, List.mem_cons_of_mem _ hv, fun w hw hwv => ?_, h4⟩
        rcases List.mem_cons.1 hw with rfl | hw
        · exact he
        · exact h3 w hw hwv
      · rintro ⟨v, hv, h3, h4⟩
        rcases List.mem_cons.1 hv with rfl | hv
        · omega
        · exact ⟨v, hv, fun w hw hwv => h3 w (List.mem_cons_of_mem _ hw) hwv, h4⟩
    · rw [if_pos (by simpa using he), decide_eq_true_eq]
      constructor
      · intro h
        refine ⟨u, by simp, fun w hw hwu => ?_, h⟩
        rcases List.mem_cons.1 hw with rfl | hw
        · exact absurd hwu (lt_irrefl _)
        · exact absurd (hwu.trans (h1 w hw)) (lt_irrefl _)
      · rintro ⟨v, hv, h3, h4⟩
        rcases List.mem_cons.1 hv with rfl | hv
        · exact h4
        · exact absurd (h3 u (by simp) (h1 v hv)) he

theorem translatedLess_iff (e : Fin n → ℕ → ℤ) (a b : Term n) : translatedLess e a b = true ↔
    ∃ v, (∀ w, w < v → e w (a w) = e w (b w)) ∧ e v (b v) < e v (a v) := by
  unfold translatedLess
  rw [translatedLoop_iff e a b _ (List.pairwise_lt_finRange n)]
  simp

theorem reverseLexLess_translated (a b : Term n) : reverseLexLess a b = translatedLess (fun _ i => (i : ℤ)) a b := by
  unfold reverseLexLess reverseLexCompare lexCompare translatedLess
  induction List.finRange n with
  | nil => rfl
  | cons v vs ih =>
    unfold lexCompareLoop translatedLessLoop
    by_cases he : a v = b v
    · simp only [he, if_true, ne_eq, not_true_eq_false, if_false, ih]
    · have he' : (a v : ℤ) ≠ b v := by exact_mod_cast he
      simp only [he, he', ne_eq, not_false_eq_true, if_true, if_false]
      by_cases hl : a v < b v
      · simp [hl, hl.le]
      · simp [hl]; omega

theorem reverseLexLess_iff (a b : Term n) : reverseLexLess a b = true ↔ ∃ v, (∀ w, w < v → a w = b w) ∧ b v < a v := by
  rw [reverseLexLess_translated, translatedLess_iff]
  simp

theorem lexLess_iff (a b : Term n) : lexLess a b = true ↔ ∃ v, (∀ w, w < v → a w = b w) ∧ a v < b v := by
  rw [← reverseLexLess_eq, reverseLexLess_iff]
  constructor <;> rintro ⟨v, h1, h2⟩ <;> exact ⟨v, fun w hw => (h1 w hw).symm, h2⟩

/-- The exponents of a term. -/
def translate (e : Fin n → ℕ → ℤ) (t : Term n) : Fin n → ℤ := fun v => e v (t v)

theorem translatedLess_of_translate {e : Fin n → ℕ → ℤ} {a b : Term n} (h : translate e a = translate e b) :
    translatedLess e a b = false := by
  rw [Bool.eq_false_iff, ne_eq, translatedLess_iff]
  rintro ⟨v, _, h2⟩
  have := congrFun h v
  unfold translate at this
  omega

theorem sort_translate {e : Fin n → ℕ → ℤ} {srt srt' : List (Term n) → List (Term n)} (h : IsSort (translatedLess e) srt)
    (h' : IsSort (translatedLess e) srt') {I J : List (Term n)} (hp : (I.map (translate e)).Perm (J.map (translate e))) :
    (srt I).map (translate e) = (srt' J).map (translate e) :=
  map_eq_of_sorted (negOn_translated e) (translate e) (fun _ _ h1 h2 => funext (translated_eq h1 h2)) _ _
    ((((h.perm I).map _).trans hp).trans ((h'.perm J).map _).symm) (fun _ _ => translatedLess_of_translate)
    (h.sorted I) (h'.sorted J)

theorem family_translate {e : Fin n → ℕ → ℤ} {srt srt' : List (Term n) → List (Term n)}
    {srtI srtI' : List (List (Term n)) → List (List (Term n))} (h : IsSort (translatedLess e) srt)
    (h' : IsSort (translatedLess e) srt') (hI : IsSort (translatedIdealLess e) srtI)
    (hI' : IsSort (translatedIdealLess e) srtI') {Is Js : List (List (Term n))} (hs : SameFamily (translate e) Is Js) :
    ((srtI (Is.reverse.map srt)).map srt).map (List.map (translate e)) =
      ((srtI' (Js.reverse.map srt')).map srt').map (List.map (translate e)) := by
  have hs' := (hs.congr_left (List.reverse_perm Is).symm).congr_right (List.reverse_perm Js).symm
  obtain ⟨Ks, h1, h2⟩ := hs'
  have h3 : (Is.reverse.map srt).map (List.map (translate e)) = (Ks.map srt').map (List.map (translate e)) := by
    clear h1 hs
    generalize Is.reverse = Rs at h2
    induction h2 with
    | nil => rfl
    | cons hab _ ih => simp only [List.map_cons, ih, sort_translate h h' hab]
  have h4 : ((srtI (Is.reverse.map srt)).map (List.map (translate e))).Perm
      ((srtI' (Js.reverse.map srt')).map (List.map (translate e))) := by
    refine ((hI.perm _).map _).trans ?_
    rw [h3]
    exact ((h1.map _).map _).trans ((hI'.perm _).map _).symm
  have hneg : NegOn (fun _ : List (Term n) => True) (translatedIdealLess e) :=
    (negOn_idealLess (negOn_translated e)).mono fun _ _ _ _ => trivial
  have h5 := map_eq_of_sorted hneg (List.map (translate e))
    (fun a b => idealLess_eq_of_map (less := translatedLess e) (f := translate e)
      (fun _ _ h1 h2 => funext (translated_eq h1 h2)) a b) _ _ h4
    (fun a b => idealLess_false_of_map (fun _ _ => translatedLess_of_translate) a b) (hI.sorted _) (hI'.sorted _)
  generalize srtI (Is.reverse.map srt) = A at h5
  generalize srtI' (Js.reverse.map srt') = B at h5
  induction A generalizing B with
  | nil =>
    match B with
    | [] => rfl
    | b :: B => simp at h5
  | cons a A ih =>
    match B with
    | [] => simp at h5
    | b :: B =>
      simp only [List.map_cons, List.cons.injEq] at h5 ⊢
      exact ⟨sort_translate h h' (by rw [h5.1]), ih B h5.2⟩

theorem family_same {srt : List (Term n) → List (Term n)} {srtI : List (List (Term n)) → List (List (Term n))}
    (h : ∀ l, (srt l).Perm l) (hI : ∀ l, (srtI l).Perm l) (Is : List (List (Term n))) :
    SameFamily id ((srtI (Is.reverse.map srt)).map srt) Is := by
  have h1 : SameFamily id ((Is.map srt).map srt) Is := by
    refine ⟨Is, List.Perm.refl _, ?_⟩
    induction Is with
    | nil => exact .nil
    | cons I Is ih =>
      refine .cons ?_ ih
      rw [List.map_id, List.map_id]
      exact (h _).trans (h _)
  refine h1.congr_left ?_
  exact (((List.reverse_perm Is).symm.map srt).trans (hI _).symm).map srt

end Frobby

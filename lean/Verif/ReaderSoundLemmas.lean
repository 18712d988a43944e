import Verif.ReaderLemmas

/-!
# Lemmas: loops, products and rings are read with their meaning
-/

namespace Frobby

section loops

variable {σ α : Type} {item : σ → Text → Option (σ × Text)} {P : α → Gram} {Inv : List α → σ → Prop}

theorem readSep_sound {sep : Char} (hP : ∀ a, EndsBlank (P a))
    (h : ∀ acc s t s' r, Inv acc s → item s t = some (s', r) → ∃ a, P a t r ∧ Inv (acc ++ [a]) s') :
    ∀ fuel acc s t s' r, Inv acc s → readSep item sep fuel s t = some (s', r) → ∃ as, SepBy P [sep] as t r ∧ Inv (acc ++ as) s' := by
  intro fuel
  induction fuel with
  | zero => intro acc s t s' r _ h2; simp [readSep] at h2
  | succ fuel ih =>
    intro acc s t s' r h1 h2
    simp only [readSep] at h2
    cases h3 : item s t with
    | none => simp [h3] at h2
    | some p =>
      obtain ⟨s1, r1⟩ := p
      obtain ⟨a, h4, h5⟩ := h _ _ _ _ _ h1 h3
      simp only [h3] at h2
      cases h6 : matchChar sep r1 with
      | mk b r2 =>
        cases b with
        | true =>
          simp only [h6] at h2
          obtain ⟨as, h7, h8⟩ := ih _ _ _ _ _ h5 h2
          exact ⟨a :: as, .cons h4 (matchChar_true h6) h7, by simpa using h8⟩
        | false =>
          simp only [h6, Option.some.injEq, Prod.mk.injEq] at h2
          obtain ⟨rfl, rfl⟩ := h2
          exact ⟨[a], .one (hP _ _ _ _ h4 (matchChar_skip h6)), h5⟩

theorem readUntil_sound {stop : Char} (hP : ∀ a, StartsBlank (P a))
    (h : ∀ acc s t s' r, Inv acc s → item s t = some (s', r) → ∃ a, P a t r ∧ Inv (acc ++ [a]) s') :
    ∀ fuel acc s t s' r, Inv acc s → readUntil item stop fuel s t = some (s', r) →
      ∃ as, (Many P as ⊹ lit [stop]) t r ∧ Inv (acc ++ as) s' := by
  intro fuel
  induction fuel with
  | zero => intro acc s t s' r _ h2; simp [readUntil] at h2
  | succ fuel ih =>
    intro acc s t s' r h1 h2
    simp only [readUntil] at h2
    cases h6 : matchChar stop t with
    | mk b r2 =>
      cases b with
      | true =>
        simp only [h6, Option.some.injEq, Prod.mk.injEq] at h2
        obtain ⟨rfl, rfl⟩ := h2
        exact ⟨[], ⟨t, .nil (lit_refl t), matchChar_true h6⟩, by simpa using h1⟩
      | false =>
        simp only [h6] at h2
        cases h3 : item s r2 with
        | none => simp [h3] at h2
        | some p =>
          obtain ⟨s1, r1⟩ := p
          obtain ⟨a, h4, h5⟩ := h _ _ _ _ _ h1 h3
          simp only [h3] at h2
          obtain ⟨as, ⟨u, h7, h9⟩, h8⟩ := ih _ _ _ _ _ h5 h2
          exact ⟨a :: as, ⟨u, .cons (hP _ _ _ _ (matchChar_skip h6) h4) h7, h9⟩, by simpa using h8⟩

theorem readTimes_sound
    (h : ∀ acc s t s' r, Inv acc s → item s t = some (s', r) → ∃ a, P a t r ∧ Inv (acc ++ [a]) s') :
    ∀ n acc s t s' r, Inv acc s → readTimes item n s t = some (s', r) →
      ∃ as, as.length = n ∧ Many P as t r ∧ Inv (acc ++ as) s' := by
  intro n
  induction n with
  | zero =>
    intro acc s t s' r h1 h2
    simp only [readTimes, Option.some.injEq, Prod.mk.injEq] at h2
    obtain ⟨rfl, rfl⟩ := h2
    exact ⟨[], rfl, .nil (lit_refl t), by simpa using h1⟩
  | succ n ih =>
    intro acc s t s' r h1 h2
    simp only [readTimes] at h2
    cases h3 : item s t with
    | none => simp [h3] at h2
    | some p =>
      obtain ⟨s1, r1⟩ := p
      obtain ⟨a, h4, h5⟩ := h _ _ _ _ _ h1 h3
      simp only [h3] at h2
      obtain ⟨as, h6, h7, h8⟩ := ih _ _ _ _ _ h5 h2
      exact ⟨a :: as, by simp [h6], .cons h4 h7, by simpa using h8⟩

theorem readWhileX_sound
    (h : ∀ acc s t s' r, Inv acc s → item s t = some (s', r) → ∃ a, P a t r ∧ Inv (acc ++ [a]) s') :
    ∀ fuel acc s t s' r, Inv acc s → readWhileX item fuel s t = some (s', r) →
      ∃ as, as ≠ [] ∧ Many P as t r ∧ Inv (acc ++ as) s' := by
  intro fuel
  induction fuel with
  | zero => intro acc s t s' r _ h2; simp [readWhileX] at h2
  | succ fuel ih =>
    intro acc s t s' r h1 h2
    simp only [readWhileX] at h2
    cases h3 : item s t with
    | none => simp [h3] at h2
    | some p =>
      obtain ⟨s1, r1⟩ := p
      obtain ⟨a, h4, h5⟩ := h _ _ _ _ _ h1 h3
      simp only [h3] at h2
      split at h2
      · obtain ⟨as, _, h7, h8⟩ := ih _ _ _ _ _ h5 h2
        exact ⟨a :: as, by simp, .cons h4 h7, by simpa using h8⟩
      · simp only [Option.some.injEq, Prod.mk.injEq] at h2
        obtain ⟨rfl, rfl⟩ := h2
        exact ⟨[a], by simp, .cons h4 (.nil (lit_refl _)), h5⟩

end loops

/-! ## Exponents -/

theorem InputConsumer.setExponent_same {k : InputConsumer} {v : ℕ} (h : k.exponent v = 0) : k.setExponent v 0 = k := by
  obtain ⟨names, big, gens⟩ := k
  cases gens with
  | nil => rfl
  | cons g gs =>
    simp only [InputConsumer.exponent] at h
    simp only [InputConsumer.setExponent, InputConsumer.mk.injEq, true_and, List.cons.injEq, and_true]
    apply List.ext_getElem
    · simp
    · intro i h1 h2
      rw [List.getElem_set]
      split
      · rename_i hv
        subst hv
        rw [List.getD_eq_getElem _ _ h2] at h
        exact h.symm
      · rfl

/-- The names and the generators. -/
def InputConsumer.Same (k k' : InputConsumer) : Prop := k.names = k'.names ∧ k.gens = k'.gens

theorem consumeExponent_sound {k k' : InputConsumer} {v : ℕ} {t r : Text} (h : k.consumeExponent false v t = some (k', r)) :
    k.exponent v = 0 ∧ ∃ e, exponentG e t r ∧ InputConsumer.Same k' (k.setExponent v e) := by
  unfold InputConsumer.consumeExponent at h
  split at h
  · split at h
    · rename_i h0
      refine ⟨h0, ?_⟩
      cases h1 : readIntegerStringNoSign t with
      | none => simp [h1] at h
      | some p =>
        obtain ⟨ds, r'⟩ := p
        simp only [h1, Option.map_eq_some_iff, Prod.mk.injEq] at h
        obtain ⟨e, h2, rfl, rfl⟩ := h
        exact ⟨e, ⟨ds, readIntegerStringNoSign_digitsG h1, digitsValue0_spec h2⟩, rfl, rfl⟩
    · simp at h
  · cases h1 : readIntegerStringNoSign t with
    | none => simp [h1] at h
    | some p =>
      obtain ⟨ds, r'⟩ := p
      simp only [h1] at h
      split at h
      · rename_i h0
        refine ⟨h0, ?_⟩
        split at h
        · rename_i h2
          simp only [Option.some.injEq, Prod.mk.injEq] at h
          obtain ⟨rfl, rfl⟩ := h
          exact ⟨1, ⟨ds, readIntegerStringNoSign_digitsG h1, digitsValue0_spec (by rw [h2]; rfl)⟩, rfl, rfl⟩
        · split at h
          · rename_i h2
            simp only [Option.some.injEq, Prod.mk.injEq] at h
            obtain ⟨rfl, rfl⟩ := h
            exact ⟨0, ⟨ds, readIntegerStringNoSign_digitsG h1, digitsValue0_spec (by rw [h2]; rfl)⟩,
              by rw [InputConsumer.setExponent_same h0]; exact ⟨rfl, rfl⟩⟩
          · simp only [Bool.false_eq_true, if_false, Option.map_eq_some_iff, Prod.mk.injEq] at h
            obtain ⟨e, h2, rfl, rfl⟩ := h
            exact ⟨e, ⟨ds, readIntegerStringNoSign_digitsG h1, digitsValue0_spec h2⟩, rfl, rfl⟩
      · simp at h

theorem consumeOne_sound {k k' : InputConsumer} {v : ℕ} (h : k.consumeOne v = some k') :
    k.exponent v = 0 ∧ k' = k.setExponent v 1 := by
  unfold InputConsumer.consumeOne at h
  split at h
  · rename_i h0
    simp only [Option.some.injEq] at h
    exact ⟨h0, h.symm⟩
  · simp at h

theorem power_sound {k k' : InputConsumer} {v : ℕ} {t r : Text}
    (h : (match matchChar '^' t with
      | (true, r') => k.consumeExponent false v r'
      | (false, r') => (k.consumeOne v).map fun k' => (k', r')) = some (k', r)) :
    k.exponent v = 0 ∧ ∃ e, (lit [] ⊹ powerG e) t r ∧ InputConsumer.Same k' (k.setExponent v e) := by
  cases h6 : matchChar '^' t with
  | mk b r2 =>
    cases b with
    | true =>
      simp only [h6] at h
      obtain ⟨h1, e, h2, h3⟩ := consumeExponent_sound h
      exact ⟨h1, e, ⟨t, lit_refl t, Or.inr ⟨r2, matchChar_true h6, h2⟩⟩, h3⟩
    | false =>
      simp only [h6, Option.map_eq_some_iff, Prod.mk.injEq] at h
      obtain ⟨k1, h1, rfl, rfl⟩ := h
      obtain ⟨h2, rfl⟩ := consumeOne_sound h1
      exact ⟨h2, 1, ⟨_, matchChar_skip h6, Or.inl ⟨rfl, rfl⟩⟩, rfl, rfl⟩

/-! ## Products -/

theorem productOf_length (n : ℕ) (ps : List (ℕ × ℕ)) : (productOf n ps).length = n := by simp [productOf]

theorem productOf_getD {n : ℕ} (ps : List (ℕ × ℕ)) {v : ℕ} (hv : v < n) :
    (productOf n ps).getD v 0 = ((ps.filter fun p => p.1 = v).map Prod.snd).sum := by
  rw [List.getD_eq_getElem _ _ (by simpa [productOf] using hv)]
  simp [productOf]

theorem productOf_nil (n : ℕ) : productOf n [] = List.replicate n 0 := by
  apply List.ext_getElem
  · simp [productOf]
  · intro i h1 h2
    simp [productOf]

theorem productOf_append {n : ℕ} {ps : List (ℕ × ℕ)} {v e : ℕ} (hv : v < n) (h : (productOf n ps).getD v 0 = 0) :
    productOf n (ps ++ [(v, e)]) = (productOf n ps).set v e := by
  rw [productOf_getD ps hv] at h
  apply List.ext_getElem
  · simp [productOf]
  · intro i h1 h2
    rw [List.getElem_set]
    split
    · rename_i hi
      subst hi
      simp [productOf, List.filter_append, h]
    · rename_i hi
      simp [productOf, List.filter_append, hi]

/-- What has been read of a product. -/
def ProductInv (names : List Text) (gs : List (List ℕ)) (ps : List (ℕ × ℕ)) (k : InputConsumer) : Prop :=
  k.names = names ∧ k.gens = productOf names.length ps :: gs ∧ Fresh ps

theorem ProductInv.begin {k : InputConsumer} : ProductInv k.names k.gens [] k.beginTerm :=
  ⟨rfl, by simp [InputConsumer.beginTerm, productOf_nil], .nil⟩

theorem fresh_append {ps : List (ℕ × ℕ)} {v e : ℕ} :
    Fresh (ps ++ [(v, e)]) ↔ Fresh ps ∧ ((ps.filter fun p => p.1 = v).map Prod.snd).sum = 0 := by
  unfold Fresh
  rw [List.pairwise_append]
  simp only [List.pairwise_singleton, List.mem_singleton, forall_eq, true_and, List.sum_eq_zero_iff, List.mem_map, List.mem_filter,
    decide_eq_true_eq, forall_exists_index, and_imp, and_congr_right_iff]
  intro _
  constructor
  · rintro h x p h1 h2 rfl
    exact h p h1 h2
  · intro h p h1 h2
    exact h _ p h1 h2 rfl

theorem ProductInv.step {names : List Text} {gs : List (List ℕ)} {ps : List (ℕ × ℕ)} {k k' : InputConsumer} {v e : ℕ}
    (h : ProductInv names gs ps k) (hv : v < names.length) (h0 : k.exponent v = 0) (h1 : InputConsumer.Same k' (k.setExponent v e)) :
    ProductInv names gs (ps ++ [(v, e)]) k' := by
  obtain ⟨names', big, gens⟩ := k
  obtain ⟨h2, h3, hf⟩ := h
  obtain ⟨h4, h5⟩ := h1
  simp only at h2 h3
  subst h2 h3
  simp only [InputConsumer.exponent] at h0
  refine ⟨h4, ?_, ?_⟩
  · rw [h5, productOf_append hv h0]
    rfl
  · rw [productOf_getD _ hv] at h0
    exact fresh_append.2 ⟨hf, h0⟩

theorem idxOf?_getElem {l : List Text} {x : Text} {v : ℕ} (h : l.idxOf? x = some v) : l[v]? = some x := by
  rw [List.idxOf?, List.findIdx?_eq_some_iff_getElem] at h
  obtain ⟨h1, h2, _⟩ := h
  rw [List.getElem?_eq_getElem h1]
  simpa using h2

theorem readPower_sound {names : List Text} {gs : List (List ℕ)} (acc : List (ℕ × ℕ)) (k : InputConsumer) (t : Text)
    (k' : InputConsumer) (r : Text) (hk : ProductInv names gs acc k) (h : k.readPower false t = some (k', r)) :
    ∃ a, varPowerG names a t r ∧ ProductInv names gs (acc ++ [a]) k' := by
  unfold InputConsumer.readPower at h
  cases h1 : readIdentifier t with
  | none => simp [h1] at h
  | some p =>
    obtain ⟨x, r1⟩ := p
    simp only [h1] at h
    cases h2 : k.names.idxOf? x with
    | none => simp [h2] at h
    | some v =>
      simp only [h2] at h
      obtain ⟨h3, e, ⟨u, h4, h5⟩, h6⟩ := power_sound h
      have h7 := idxOf?_getElem h2
      rw [hk.1] at h7
      have hv : v < names.length := by
        by_contra hc
        rw [List.getElem?_eq_none (by omega)] at h7
        simp at h7
      exact ⟨(v, e), ⟨x, h7, u, nameG_trans (readIdentifier_nameG h1) h4, h5⟩, hk.step hv h3 h6⟩

theorem readPowerCoCoA_sound {names : List Text} {gs : List (List ℕ)} (acc : List (ℕ × ℕ)) (k : InputConsumer) (t : Text)
    (k' : InputConsumer) (r : Text) (hk : ProductInv names gs acc k) (h : k.readPowerCoCoA false t = some (k', r)) :
    ∃ a, varPowerCoCoAG names.length a t r ∧ ProductInv names gs (acc ++ [a]) k' := by
  unfold InputConsumer.readPowerCoCoA at h
  cases h1 : (expectChar 'x' t).bind (expectChar '[') with
  | none => simp [h1] at h
  | some r1 =>
    simp only [h1] at h
    obtain ⟨r0, h2, h3⟩ := Option.bind_eq_some_iff.1 h1
    cases h4 : readSizeT r1 with
    | none => simp [h4] at h
    | some p =>
      obtain ⟨v, r2⟩ := p
      simp only [h4] at h
      split at h
      · simp at h
      · rename_i hv
        cases h5 : expectChar ']' r2 with
        | none => simp [h5] at h
        | some r3 =>
          simp only [h5] at h
          obtain ⟨h6, e, ⟨u, h7, h8⟩, h9⟩ := power_sound h
          have h10 : v - 1 < names.length := by
            rw [← hk.1]
            omega
          refine ⟨(v - 1, e), ⟨h10, ?_⟩, hk.step h10 h6 h9⟩
          have hv1 : v - 1 + 1 = v := by omega
          simp only [hv1]
          exact ⟨r0, expectChar_lit h2, r1, expectChar_lit h3, r2, readSizeT_sizeG h4, u, lit_trans (expectChar_lit h5) h7, h8⟩

theorem powerG_ends (e : ℕ) : ∀ t u r, powerG e t u → lit [] u r → (lit [] ⊹ powerG e) t r := by
  rintro t u r (⟨h1, rfl⟩ | ⟨v, h1, h2⟩) h3
  · exact ⟨r, h3, Or.inl ⟨h1, rfl⟩⟩
  · exact ⟨t, lit_refl t, Or.inr ⟨v, h1, exponentG_ends e _ _ _ h2 h3⟩⟩

theorem varPowerG_ends (names : List Text) (p : ℕ × ℕ) : EndsBlank (varPowerG names p) := by
  rintro t u r ⟨x, h1, v, h2, h3⟩ h4
  obtain ⟨w, h5, h6⟩ := powerG_ends _ _ _ _ h3 h4
  exact ⟨x, h1, w, nameG_trans h2 h5, h6⟩

theorem varPowerG_starts (names : List Text) (p : ℕ × ℕ) : StartsBlank (varPowerG names p) := by
  rintro t u r h4 ⟨x, h1, v, h2, h3⟩
  exact ⟨x, h1, v, trans_nameG h4 h2, h3⟩

theorem productG_ends (names : List Text) (e : List ℕ) : EndsBlank (productG names e) := by
  rintro t u r (⟨h1, h2⟩ | ⟨ps, h1, h2⟩) h4
  · exact Or.inl ⟨lit_trans h1 h4, h2⟩
  · exact Or.inr ⟨ps, SepBy.ends (varPowerG_ends names) ps _ _ _ h1 h4, h2⟩

theorem productG_starts (names : List Text) (e : List ℕ) : StartsBlank (productG names e) := by
  rintro t u r h4 (⟨h1, h2⟩ | ⟨ps, h1, h2⟩)
  · exact Or.inl ⟨trans_lit h4 h1, h2⟩
  · exact Or.inr ⟨ps, SepBy.starts (varPowerG_starts names) ps _ _ _ h4 h1, h2⟩

/-- The generators that have been read. -/
def TermsInv (names : List Text) (es : List (List ℕ)) (k : InputConsumer) : Prop := k.names = names ∧ k.gens = es.reverse

theorem TermsInv.begin (names : List Text) : TermsInv names [] (.beginIdeal names) := ⟨rfl, rfl⟩

theorem TermsInv.of_product {names : List Text} {acc : List (List ℕ)} {k k' : InputConsumer} {ps : List (ℕ × ℕ)} (hk : TermsInv names acc k)
    (h : ProductInv k.names k.gens ps k') : TermsInv names (acc ++ [productOf names.length ps]) k' := by
  obtain ⟨h1, h2⟩ := hk
  obtain ⟨h3, h4, _⟩ := h
  exact ⟨by rw [h3, h1], by rw [h4, h1, h2]; simp⟩

theorem readTermProduct_sound {names : List Text} (acc : List (List ℕ)) (k : InputConsumer) (t : Text)
    (k' : InputConsumer) (r : Text) (hk : TermsInv names acc k) (h : k.readTermProduct false t = some (k', r)) :
    ∃ a, productG names a t r ∧ TermsInv names (acc ++ [a]) k' := by
  unfold InputConsumer.readTermProduct at h
  cases h6 : matchChar '1' t with
  | mk b r2 =>
    cases b with
    | true =>
      simp only [h6, Option.some.injEq, Prod.mk.injEq] at h
      obtain ⟨rfl, rfl⟩ := h
      exact ⟨_, Or.inl ⟨matchChar_true h6, rfl⟩, hk.of_product .begin⟩
    | false =>
      simp only [h6] at h
      obtain ⟨ps, h7, h8⟩ := readSep_sound (varPowerG_ends k.names) (readPower_sound (names := k.names) (gs := k.gens)) _ [] _ _ _ _ .begin h
      rw [hk.1] at h7
      exact ⟨_, Or.inr ⟨ps, SepBy.starts (varPowerG_starts names) ps _ _ _ (matchChar_skip h6) h7, h8.2.2, rfl⟩, hk.of_product h8⟩

theorem readTermM2_sound {names : List Text} (acc : List (List ℕ)) (k : InputConsumer) (t : Text)
    (k' : InputConsumer) (r : Text) (hk : TermsInv names acc k) (h : k.readTermM2 false t = some (k', r)) :
    ∃ a, productM2G names a t r ∧ TermsInv names (acc ++ [a]) k' := by
  unfold InputConsumer.readTermM2 at h
  cases h1 : k.readTermProduct false t with
  | none => simp [h1] at h
  | some p =>
    obtain ⟨k1, r1⟩ := p
    obtain ⟨a, h2, h3⟩ := readTermProduct_sound _ _ _ _ _ hk h1
    simp only [h1] at h
    cases h6 : matchChar '_' r1 with
    | mk b r2 =>
      cases b with
      | true =>
        simp only [h6, Option.map_eq_some_iff, Prod.mk.injEq] at h
        obtain ⟨p, h7, rfl, rfl⟩ := h
        exact ⟨a, Or.inr ⟨p.1, r1, h2, r2, matchChar_true h6, readIdentifier_nameG h7⟩, h3⟩
      | false =>
        simp only [h6, Option.some.injEq, Prod.mk.injEq] at h
        obtain ⟨rfl, rfl⟩ := h
        exact ⟨a, Or.inl (productG_ends _ _ _ _ _ h2 (matchChar_skip h6)), h3⟩

theorem productM2G_ends (names : List Text) (e : List ℕ) : EndsBlank (productM2G names e) := by
  rintro t u r (h1 | ⟨x, v, h1, w, h2, h3⟩) h4
  · exact Or.inl (productG_ends _ _ _ _ _ h1 h4)
  · exact Or.inr ⟨x, v, h1, w, h2, nameG_trans h3 h4⟩

theorem productM2G_starts (names : List Text) (e : List ℕ) : StartsBlank (productM2G names e) := by
  rintro t u r h4 (h1 | ⟨x, v, h1, w, h2, h3⟩)
  · exact Or.inl (productG_starts _ _ _ _ _ h4 h1)
  · exact Or.inr ⟨x, v, productG_starts _ _ _ _ _ h4 h1, w, h2, h3⟩

theorem varPowerCoCoAG_starts (n : ℕ) (p : ℕ × ℕ) : StartsBlank (varPowerCoCoAG n p) :=
  fun _ _ _ h ⟨h1, h2⟩ => ⟨h1, (lit_starts _).seq _ _ _ _ h h2⟩

theorem readTermCoCoA_sound {names : List Text} (acc : List (List ℕ)) (k : InputConsumer) (t : Text)
    (k' : InputConsumer) (r : Text) (hk : TermsInv names acc k) (h : k.readTermCoCoA false t = some (k', r)) :
    ∃ a, productCoCoAG names a t r ∧ TermsInv names (acc ++ [a]) k' := by
  unfold InputConsumer.readTermCoCoA at h
  cases h6 : matchChar '1' t with
  | mk b r2 =>
    cases b with
    | true =>
      simp only [h6, Option.some.injEq, Prod.mk.injEq] at h
      obtain ⟨rfl, rfl⟩ := h
      exact ⟨_, Or.inl ⟨matchChar_true h6, rfl⟩, hk.of_product .begin⟩
    | false =>
      simp only [h6] at h
      obtain ⟨ps, h7, h8, h9⟩ := readWhileX_sound (readPowerCoCoA_sound (names := k.names) (gs := k.gens)) _ [] _ _ _ _ .begin h
      rw [hk.1] at h8
      exact ⟨_, Or.inr ⟨ps, h7, Many.starts (varPowerCoCoAG_starts _) ps _ _ _ (matchChar_skip h6) h8, h9.2.2, rfl⟩, hk.of_product h9⟩

theorem productCoCoAG_ends (names : List Text) (e : List ℕ) : EndsBlank (productCoCoAG names e) := by
  rintro t u r (⟨h1, h2⟩ | ⟨ps, h1, h2, h3⟩) h4
  · exact Or.inl ⟨lit_trans h1 h4, h2⟩
  · exact Or.inr ⟨ps, h1, Many.ends ps _ _ _ h2 h4, h3⟩

theorem productCoCoAG_starts (names : List Text) (e : List ℕ) : StartsBlank (productCoCoAG names e) := by
  rintro t u r h4 (⟨h1, h2⟩ | ⟨ps, h1, h2, h3⟩)
  · exact Or.inl ⟨trans_lit h4 h1, h2⟩
  · exact Or.inr ⟨ps, h1, Many.starts (varPowerCoCoAG_starts _) ps _ _ _ h4 h2, h3⟩

/-! ## Rows of 4ti2 -/

/-- What has been read of a row. -/
def RowInv (names : List Text) (gs : List (List ℕ)) (es : List ℕ) (s : ℕ × InputConsumer) : Prop :=
  s.1 = es.length ∧ s.2.names = names ∧ s.2.gens = (es ++ List.replicate (names.length - es.length) 0) :: gs

theorem readExponent4ti2_sound {names : List Text} {gs : List (List ℕ)} (acc : List ℕ) (s : ℕ × InputConsumer) (t : Text)
    (s' : ℕ × InputConsumer) (r : Text) (hk : RowInv names gs acc s ∨ names.length < acc.length)
    (h : InputConsumer.readExponent4ti2 false s t = some (s', r)) :
    ∃ a, exponent4ti2G a t r ∧ (RowInv names gs (acc ++ [a]) s' ∨ names.length < (acc ++ [a]).length) := by
  obtain ⟨i, k⟩ := s
  have hrow : acc.length < names.length → ∀ a, (acc ++ List.replicate (names.length - acc.length) 0).set acc.length a =
      acc ++ [a] ++ List.replicate (names.length - (acc ++ [a]).length) 0 := by
    intro hlt a
    have : names.length - acc.length = (names.length - (acc.length + 1)) + 1 := by omega
    rw [List.set_append_right _ _ (le_refl _), this, Nat.sub_self, List.replicate_succ, List.set_cons_zero]
    simp
  unfold InputConsumer.readExponent4ti2 at h
  cases h6 : matchChar '-' t with
  | mk b r2 =>
    cases b with
    | true =>
      simp only [h6, Option.map_eq_some_iff, Prod.mk.injEq] at h
      obtain ⟨p, h7, h8⟩ := h
      obtain ⟨rfl, rfl⟩ := h8
      refine ⟨0, Or.inr ⟨rfl, p.1, r2, matchChar_true h6, readIntegerStringNoSign_digitsG h7⟩, ?_⟩
      rcases hk with ⟨h1, h2, h3⟩ | hk
      · by_cases hlt : acc.length < names.length
        · left
          refine ⟨by simpa using h1, h2, ?_⟩
          rw [← hrow hlt 0, h3]
          congr 1
          have : names.length - acc.length = (names.length - (acc.length + 1)) + 1 := by omega
          rw [List.set_append_right _ _ (le_refl _), this, Nat.sub_self, List.replicate_succ, List.set_cons_zero]
        · right
          simp
          omega
      · right
        simp
        omega
    | false =>
      simp only [h6, Option.map_eq_some_iff, Prod.mk.injEq] at h
      obtain ⟨p, h7, h8⟩ := h
      obtain ⟨rfl, rfl⟩ := h8
      obtain ⟨h8, e, h9, h10⟩ := consumeExponent_sound (k' := p.1) (r := p.2) h7
      refine ⟨e, Or.inl (exponentG_starts _ _ _ _ (matchChar_skip h6) h9), ?_⟩
      rcases hk with ⟨h1, h2, h3⟩ | hk
      · by_cases hlt : acc.length < names.length
        · left
          simp only at h1 h2 h3
          refine ⟨by simpa using h1, by rw [h10.1]; exact h2, ?_⟩
          rw [← hrow hlt e, h10.2, InputConsumer.setExponent, h3, h1]
        · right
          simp
          omega
      · right
        simp
        omega

theorem readTerm4ti2_sound {names : List Text} (acc : List (List ℕ)) (k : InputConsumer) (t : Text)
    (k' : InputConsumer) (r : Text) (hk : TermsInv names acc k) (h : k.readTerm4ti2 false t = some (k', r)) :
    ∃ a, row4ti2G names.length a t r ∧ TermsInv names (acc ++ [a]) k' := by
  unfold InputConsumer.readTerm4ti2 at h
  simp only [Option.map_eq_some_iff, Prod.mk.injEq] at h
  obtain ⟨p, h1, rfl, rfl⟩ := h
  obtain ⟨es, h2, h3, h4⟩ := readTimes_sound (Inv := fun acc s => RowInv k.names k.gens acc s ∨ k.names.length < acc.length)
    readExponent4ti2_sound _ [] _ _ _ _
    (Or.inl ⟨rfl, rfl, by simp [InputConsumer.beginTerm]⟩) h1
  rw [hk.1] at h2
  simp only [List.nil_append] at h4
  rcases h4 with ⟨_, h5, h6⟩ | h4
  · refine ⟨es, ⟨h2, h3⟩, by rw [h5, hk.1], ?_⟩
    rw [h6, hk.1, h2, hk.2]
    simp
  · rw [hk.1] at h4
    omega

/-! ## Names -/

/-- The names that have been read. -/
def NamesInv (acc : List Text) (names : List Text) : Prop := names = acc ∧ acc.Nodup

theorem readName_sound (acc : List Text) (names : List Text) (t : Text) (names' : List Text) (r : Text) (hk : NamesInv acc names)
    (h : readName names t = some (names', r)) : ∃ a, nameG a t r ∧ NamesInv (acc ++ [a]) names' := by
  obtain ⟨rfl, hn⟩ := hk
  unfold readName at h
  cases h1 : readIdentifier t with
  | none => simp [h1] at h
  | some p =>
    obtain ⟨x, r1⟩ := p
    simp only [h1] at h
    split at h
    · simp at h
    · rename_i hx
      simp only [Option.some.injEq, Prod.mk.injEq] at h
      obtain ⟨rfl, rfl⟩ := h
      refine ⟨x, readIdentifier_nameG h1, rfl, ?_⟩
      rw [List.nodup_append]
      refine ⟨hn, by simp, ?_⟩
      rintro a ha b hb rfl
      simp only [List.mem_singleton] at hb
      exact hx (hb ▸ ha)

theorem readNames_sound {sep : Char} {fuel : ℕ} {t : Text} {names : List Text} {r : Text}
    (h : readSep readName sep fuel [] t = some (names, r)) : namesG [sep] names t r := by
  obtain ⟨as, h1, h2, h3⟩ := readSep_sound nameG_ends readName_sound _ [] _ _ _ _ ⟨rfl, by simp⟩ h
  simp only [List.nil_append] at h2 h3
  subst h2
  exact ⟨h3, h1⟩

theorem namesG_starts (sep : Text) (names : List Text) : StartsBlank (namesG sep names) :=
  fun _ _ _ h ⟨h1, h2⟩ => ⟨h1, SepBy.starts nameG_starts _ _ _ _ h h2⟩

end Frobby

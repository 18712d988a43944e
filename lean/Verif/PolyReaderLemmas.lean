import Verif.PolyGrammarSpec
import Verif.FrobReadLemmas
import Verif.PropsListReader

/-!
# Lemmas: polynomials are read with their meaning
-/

namespace Frobby

theorem integerG_ends (x : ℤ) : EndsBlank (integerG x) := fun _ _ _ ⟨s, ds, h', h''⟩ h => ⟨s, ds, digitsG_trans h' h, h''⟩
theorem coefG_starts (c : ℕ) : StartsBlank (coefG c) := fun _ _ _ h ⟨ds, h', h''⟩ => ⟨ds, trans_digitsG h h', h''⟩
theorem coefG_ends (c : ℕ) : EndsBlank (coefG c) := fun _ _ _ ⟨ds, h', h''⟩ h => ⟨ds, digitsG_trans h' h, h''⟩

/-! ## powers of variables -/

/-- The state after some powers of variables. -/
def PowersInv (n : ℕ) (ps : List (ℕ × ℕ)) (term : List ℕ) : Prop :=
  (ps.map Prod.fst).Nodup ∧ term = productOf n ps ∧ ∀ p ∈ ps, 0 < p.2

theorem PowersInv.empty (n : ℕ) : PowersInv n [] (List.replicate n 0) := ⟨by simp, (productOf_nil n).symm, by simp⟩

theorem PowersInv.add {n : ℕ} {ps : List (ℕ × ℕ)} {term : List ℕ} (h : PowersInv n ps term) {v e : ℕ} (hv : v < n) (h0 : term.getD v 0 = 0) (he : 0 < e) :
    PowersInv n (ps ++ [(v, e)]) (term.set v e) := by
  obtain ⟨h1, rfl, h3⟩ := h
  have hg : ∀ w, w < n → (productOf n ps).getD w 0 = ((ps.filter fun p => p.1 = w).map Prod.snd).sum := by
    intro w hw
    rw [List.getD_eq_getElem _ _ (by simpa [productOf] using hw)]
    simp [productOf]
  have hn : v ∉ ps.map Prod.fst := by
    intro hm
    obtain ⟨p, hp, rfl⟩ := List.mem_map.1 hm
    rw [hg _ hv] at h0
    have := List.single_le_sum (l := (ps.filter fun q => q.1 = p.1).map Prod.snd) (by simp) p.2
      (List.mem_map.2 ⟨p, List.mem_filter.2 ⟨hp, by simp⟩, rfl⟩)
    have := h3 p hp
    omega
  refine ⟨?_, ?_, ?_⟩
  · rw [List.map_append, List.nodup_append]
    refine ⟨h1, by simp, ?_⟩
    rintro a ha b hb rfl
    simp only [List.map_cons, List.map_nil, List.mem_singleton] at hb
    exact hn (hb ▸ ha)
  · apply List.ext_getElem
    · simp [productOf]
    · intro i hi hi'
      have hin : i < n := by simpa [productOf] using hi'
      rw [List.getElem_set]
      simp only [productOf, List.getElem_map, List.getElem_range, List.filter_append, List.map_append, List.sum_append]
      split
      · rename_i hv'
        subst hv'
        rw [hg _ hv] at h0
        rw [h0]
        simp
      · rename_i hv'
        simp [hv']
  · intro p hp
    rcases List.mem_append.1 hp with hp | hp
    · exact h3 p hp
    · simp only [List.mem_singleton] at hp
      subst hp
      exact he

theorem readExponent_sound {v : ℕ} {term term' : List ℕ} {t r : Text} (h : readExponent v term t = some (term', r)) :
    term.getD v 0 = 0 ∧ ∃ e, 0 < e ∧ term' = term.set v e ∧ ∃ r0, (r0 = r ∨ lit [] r0 r) ∧ polyPowerG e t r0 := by
  unfold readExponent at h
  split at h
  · exact nomatch h
  · rename_i h0
    refine ⟨not_not.1 h0, ?_⟩
    split at h
    · rename_i r1 h1
      split at h
      · exact nomatch h
      · rename_i e r2 h2
        split at h
        · exact nomatch h
        · rename_i he
          simp only [Option.some.injEq, Prod.mk.injEq] at h
          obtain ⟨rfl, rfl⟩ := h
          refine ⟨e.toNat, by omega, rfl, r2, .inl rfl, .inr ⟨t, ⟨by omega, rfl⟩, r1, matchChar_true h1, ?_⟩⟩
          rw [Int.toNat_of_nonneg (by omega)]
          exact readInteger_sound h2
    · rename_i r1 h1
      simp only [Option.some.injEq, Prod.mk.injEq] at h
      obtain ⟨rfl, rfl⟩ := h
      exact ⟨1, by omega, rfl, t, .inr (matchChar_skip h1), .inl ⟨rfl, rfl⟩⟩

theorem power_end {P : Gram} (hP : EndsBlank P) {e : ℕ} {t u r0 r : Text} (h : P t u) (hr : r0 = r ∨ lit [] r0 r) (hp : polyPowerG e u r0) : (P ⊹ polyPowerG e) t r := by
  rcases hr with rfl | hr
  · exact ⟨u, h, hp⟩
  · rcases hp with ⟨he, rfl⟩ | ⟨a, ha, b, hb, hi⟩
    · exact ⟨r, hP _ _ _ h hr, .inl ⟨he, rfl⟩⟩
    · exact ⟨u, h, .inr ⟨a, ha, b, hb, integerG_ends _ _ _ _ hi hr⟩⟩

theorem polyPowerG_ends {P : Gram} (hP : EndsBlank P) (e : ℕ) : EndsBlank (P ⊹ polyPowerG e) := by
  rintro t r r' ⟨u, h, hp⟩ hr
  exact power_end hP h (.inr hr) hp

theorem polyVarG_ends (names : List Text) (p : ℕ × ℕ) : EndsBlank (polyVarG names p) := by
  rintro t r r' ⟨x, hx, h⟩ hr
  exact ⟨x, hx, polyPowerG_ends (nameG_ends _) _ _ _ _ h hr⟩

theorem polyVarG_starts (names : List Text) (p : ℕ × ℕ) : StartsBlank (polyVarG names p) := by
  rintro t r r' hr ⟨x, hx, h⟩
  exact ⟨x, hx, (nameG_starts x).seq _ _ _ _ hr h⟩

theorem polyVarCoCoAG_starts (n : ℕ) (p : ℕ × ℕ) : StartsBlank (polyVarCoCoAG n p) := by
  rintro t r r' hr ⟨hx, h⟩
  exact ⟨hx, (lit_starts _).seq _ _ _ _ hr h⟩

theorem readVarPower_sound {names : List Text} {acc : List (ℕ × ℕ)} {term term' : List ℕ} {t r : Text} (hI : PowersInv names.length acc term)
    (h : readVarPower names term t = some (term', r)) : ∃ p, polyVarG names p t r ∧ PowersInv names.length (acc ++ [p]) term' := by
  unfold readVarPower at h
  split at h
  · exact nomatch h
  · rename_i x r1 h1
    split at h
    · exact nomatch h
    · rename_i v h2
      obtain ⟨h0, e, he, rfl, r0, hr0, hp⟩ := readExponent_sound h
      obtain ⟨hv, hx, -⟩ := List.idxOf?_eq_some_iff.1 h2
      have hx' : names[v]? = some x := by rw [List.getElem?_eq_getElem hv]; simpa using hx
      exact ⟨(v, e), ⟨x, hx', power_end (nameG_ends x) (readIdentifier_nameG h1) hr0 hp⟩, hI.add hv h0 he⟩

theorem readVarPowerCoCoA_sound {n : ℕ} {acc : List (ℕ × ℕ)} {term term' : List ℕ} {t r : Text} (hI : PowersInv n acc term)
    (h : readVarPowerCoCoA term t = some (term', r)) : ∃ p, polyVarCoCoAG n p t r ∧ PowersInv n (acc ++ [p]) term' := by
  have hl : term.length = n := by rw [hI.2.1, productOf_length]
  unfold readVarPowerCoCoA at h
  split at h
  · exact nomatch h
  · rename_i r1 h1
    obtain ⟨r0, h0, h1⟩ := Option.bind_eq_some_iff.1 h1
    split at h
    · exact nomatch h
    · rename_i v r2 h2
      split at h
      · exact nomatch h
      · rename_i hv
        rw [hl] at hv
        split at h
        · exact nomatch h
        · rename_i r3 h3
          obtain ⟨h4, e, he, rfl, r4, hr4, hp⟩ := readExponent_sound h
          refine ⟨(v - 1, e), ⟨by simp only; omega, r0, expectChar_lit h0, r1, expectChar_lit h1, r2, ?_, power_end (lit_ends _) (expectChar_lit h3) hr4 hp⟩,
            hI.add (by omega) h4 he⟩
          simp only
          rw [show v - 1 + 1 = v by omega]
          exact readSizeT_sizeG h2

/-! ## loops -/

section loops

variable {σ α : Type} {item : σ → Text → Option (σ × Text)} {P : α → Gram} {Inv : List α → σ → Prop}

theorem readWhileStar_sound (hP : ∀ a, EndsBlank (P a)) (h : ∀ acc s t s' r, Inv acc s → item s t = some (s', r) → ∃ a, P a t r ∧ Inv (acc ++ [a]) s') :
    ∀ fuel acc s t s' r, Inv acc s → readWhileStar item fuel s t = some (s', r) → ∃ as, (as = [] ∧ lit [] t r ∨ (lit t!"*" ⊹ SepBy P t!"*" as) t r) ∧ Inv (acc ++ as) s' := by
  intro fuel
  induction fuel with
  | zero => intro acc s t s' r _ h2; simp [readWhileStar] at h2
  | succ fuel ih =>
    intro acc s t s' r h1 h2
    simp only [readWhileStar] at h2
    cases h6 : matchChar '*' t with
    | mk b r2 =>
      cases b with
      | false =>
        simp only [h6, Option.some.injEq, Prod.mk.injEq] at h2
        obtain ⟨rfl, rfl⟩ := h2
        exact ⟨[], .inl ⟨rfl, matchChar_skip h6⟩, by simpa using h1⟩
      | true =>
        simp only [h6] at h2
        cases h3 : item s r2 with
        | none => simp [h3] at h2
        | some p =>
          obtain ⟨s1, r1⟩ := p
          obtain ⟨a, h4, h5⟩ := h _ _ _ _ _ h1 h3
          simp only [h3] at h2
          obtain ⟨as, h7, h8⟩ := ih _ _ _ _ _ h5 h2
          refine ⟨a :: as, .inr ⟨r2, matchChar_true h6, ?_⟩, by simpa using h8⟩
          rcases h7 with ⟨rfl, h7⟩ | ⟨u, h7, h9⟩
          · exact .one (hP _ _ _ _ h4 h7)
          · exact .cons h4 h7 h9

theorem readWhilePeekX_sound (h : ∀ acc s t s' r, Inv acc s → item s t = some (s', r) → ∃ a, P a t r ∧ Inv (acc ++ [a]) s') :
    ∀ fuel acc s t s' r, Inv acc s → readWhilePeekX item fuel s t = some (s', r) → ∃ as, Many P as t r ∧ Inv (acc ++ as) s' := by
  intro fuel
  induction fuel with
  | zero => intro acc s t s' r _ h2; simp [readWhilePeekX] at h2
  | succ fuel ih =>
    intro acc s t s' r h1 h2
    simp only [readWhilePeekX] at h2
    split at h2
    · cases h3 : item s t with
      | none => simp [h3] at h2
      | some p =>
        obtain ⟨s1, r1⟩ := p
        obtain ⟨a, h4, h5⟩ := h _ _ _ _ _ h1 h3
        simp only [h3] at h2
        obtain ⟨as, h7, h8⟩ := ih _ _ _ _ _ h5 h2
        exact ⟨a :: as, .cons h4 h7, by simpa using h8⟩
    · simp only [Option.some.injEq, Prod.mk.injEq] at h2
      obtain ⟨rfl, rfl⟩ := h2
      exact ⟨[], .nil (lit_refl _), by simpa using h1⟩

end loops

/-! ## terms -/

theorem readInteger_unsigned {x : ℤ} {t r : Text} (h : readInteger t = some (x, r)) (hp : peekChar '+' t = false) (hm : peekChar '-' t = false) :
    ∃ c : ℕ, x = c ∧ coefG c t r := by
  obtain ⟨w, hw, ht⟩ := eatWhite_blank t
  unfold readInteger at h
  unfold peekChar at hp hm
  split at h
  · exact nomatch h
  · rename_i c l he
    rw [he] at hp hm ht
    simp only [nextIs, decide_eq_false_iff_not] at hp hm
    rw [if_neg hm, if_neg hp, Option.map_eq_some_iff] at h
    obtain ⟨⟨ds, r'⟩, h1, h2⟩ := h
    simp only [Prod.mk.injEq] at h2
    obtain ⟨rfl, rfl⟩ := h2
    refine ⟨_, rfl, ds, ?_, digitsValue_valueIn ds⟩
    have := readDigits_digitsG (s := []) hw h1
    rw [ht]
    simpa using this

theorem readCoefBody_sound {names : List Text} {c : ℤ} {e : List ℕ} {t r : Text} (hp : peekChar '+' t = false) (hm : peekChar '-' t = false)
    (h : readCoefBody names t = some ((c, e), r)) : ∃ c0 : ℕ, c = c0 ∧ bodyG names c0 e t r := by
  unfold readCoefBody at h
  simp only at h
  split at h
  · obtain ⟨⟨⟨c1, e1⟩, r1⟩, h1, h2⟩ := Option.bind_eq_some_iff.1 h
    obtain ⟨⟨e2, r2⟩, h3, h4⟩ := Option.bind_eq_some_iff.1 h2
    simp only [Option.some.injEq, Prod.mk.injEq] at h3 h4
    obtain ⟨⟨rfl, rfl⟩, rfl⟩ := h4
    obtain ⟨⟨e3, r3⟩, h5, h6⟩ := Option.map_eq_some_iff.1 h1
    simp only [Prod.mk.injEq] at h6
    obtain ⟨⟨rfl, rfl⟩, rfl⟩ := h6
    obtain ⟨p, h7, h8⟩ := readVarPower_sound (PowersInv.empty _) h5
    obtain ⟨ps, h9, h10⟩ := readWhileStar_sound (Inv := PowersInv names.length) (polyVarG_ends names) (fun _ _ _ _ _ hI h => readVarPower_sound hI h) _ _ _ _ _ _ h8 h3
    refine ⟨1, rfl, p :: ps, h10.1, h10.2.1, .inl ⟨rfl, ?_⟩⟩
    rcases h9 with ⟨rfl, h9⟩ | ⟨u, h9, h11⟩
    · exact .one (polyVarG_ends _ _ _ _ _ h7 h9)
    · exact .cons h7 h9 h11
  · obtain ⟨⟨⟨c1, e1⟩, r1⟩, h1, h2⟩ := Option.bind_eq_some_iff.1 h
    obtain ⟨⟨e2, r2⟩, h3, h4⟩ := Option.bind_eq_some_iff.1 h2
    simp only [Option.some.injEq, Prod.mk.injEq] at h3 h4
    obtain ⟨⟨rfl, rfl⟩, rfl⟩ := h4
    obtain ⟨⟨c3, r3⟩, h5, h6⟩ := Option.map_eq_some_iff.1 h1
    simp only [Prod.mk.injEq] at h6
    obtain ⟨⟨rfl, rfl⟩, rfl⟩ := h6
    obtain ⟨c0, rfl, h7⟩ := readInteger_unsigned h5 hp hm
    obtain ⟨ps, h9, h10⟩ := readWhileStar_sound (Inv := PowersInv names.length) (polyVarG_ends names) (fun _ _ _ _ _ hI h => readVarPower_sound hI h) _ _ _ _ _ _
      (PowersInv.empty _) h3
    refine ⟨c0, rfl, ps, h10.1, h10.2.1, .inr ⟨_, h7, ?_⟩⟩
    rcases h9 with ⟨rfl, h9⟩ | h9
    · exact .inl ⟨_, ⟨rfl, rfl⟩, h9⟩
    · exact .inr h9

theorem readCoefBodyCoCoA_sound {names : List Text} {c : ℤ} {e : List ℕ} {t r : Text} (hp : peekChar '+' t = false) (hm : peekChar '-' t = false)
    (h : readCoefBodyCoCoA names t = some ((c, e), r)) : ∃ c0 : ℕ, c = c0 ∧ bodyCoCoAG names c0 e t r := by
  unfold readCoefBodyCoCoA at h
  simp only at h
  split at h
  · obtain ⟨⟨⟨c1, e1⟩, r1⟩, h1, h2⟩ := Option.bind_eq_some_iff.1 h
    obtain ⟨⟨e2, r2⟩, h3, h4⟩ := Option.bind_eq_some_iff.1 h2
    simp only [Option.some.injEq, Prod.mk.injEq] at h3 h4
    obtain ⟨⟨rfl, rfl⟩, rfl⟩ := h4
    obtain ⟨⟨e3, r3⟩, h5, h6⟩ := Option.map_eq_some_iff.1 h1
    simp only [Prod.mk.injEq] at h6
    obtain ⟨⟨rfl, rfl⟩, rfl⟩ := h6
    obtain ⟨p, h7, h8⟩ := readVarPowerCoCoA_sound (PowersInv.empty _) h5
    obtain ⟨ps, h9, h10⟩ := readWhilePeekX_sound (item := readVarPowerCoCoA) (Inv := PowersInv names.length) (fun _ _ _ _ _ hI h => readVarPowerCoCoA_sound hI h) _ _ _ _ _ _ h8 h3
    exact ⟨1, rfl, p :: ps, h10.1, h10.2.1, .inl ⟨rfl, by simp, .cons h7 h9⟩⟩
  · obtain ⟨⟨⟨c1, e1⟩, r1⟩, h1, h2⟩ := Option.bind_eq_some_iff.1 h
    obtain ⟨⟨e2, r2⟩, h3, h4⟩ := Option.bind_eq_some_iff.1 h2
    simp only [Option.some.injEq, Prod.mk.injEq] at h3 h4
    obtain ⟨⟨rfl, rfl⟩, rfl⟩ := h4
    obtain ⟨⟨c3, r3⟩, h5, h6⟩ := Option.map_eq_some_iff.1 h1
    simp only [Prod.mk.injEq] at h6
    obtain ⟨⟨rfl, rfl⟩, rfl⟩ := h6
    obtain ⟨c0, rfl, h7⟩ := readInteger_unsigned h5 hp hm
    obtain ⟨ps, h9, h10⟩ := readWhilePeekX_sound (item := readVarPowerCoCoA) (Inv := PowersInv names.length) (fun _ _ _ _ _ hI h => readVarPowerCoCoA_sound hI h) _ _ _ _ _ _
      (PowersInv.empty _) h3
    exact ⟨c0, rfl, ps, h10.1, h10.2.1, .inr ⟨_, h7, h9⟩⟩

theorem readSign_sound {first positive : Bool} {t r : Text} (h : readSign first t = some (positive, r)) :
    signG first (!positive) t r ∧ peekChar '+' r = false ∧ peekChar '-' r = false := by
  have hmc : ∀ c t, matchChar c t = ((matchChar c t).1, (matchChar c t).2) := fun _ _ => rfl
  unfold readSign at h
  simp only at h
  split at h
  · exact nomatch h
  · rename_i p r' hres
    split at h
    · exact nomatch h
    · rename_i hpeek
      simp only [Option.some.injEq, Prod.mk.injEq] at h
      obtain ⟨rfl, rfl⟩ := h
      simp only [Bool.or_eq_true, not_or, Bool.not_eq_true] at hpeek
      refine ⟨?_, hpeek⟩
      split at hres
      · rename_i hc
        obtain ⟨rfl, hplus⟩ := hc
        simp only [Option.some.injEq, Prod.mk.injEq] at hres
        obtain ⟨rfl, rfl⟩ := hres
        have h1 : lit t!"+" t (matchChar '+' t).2 := matchChar_true (by rw [← hplus])
        cases hb : (matchChar '-' (matchChar '+' t).2).1 with
        | true => exact .inr ⟨_, h1, matchChar_true (by rw [← hb])⟩
        | false => exact lit_trans h1 (matchChar_skip (c := '-') (by rw [← hb]))
      · split at hres
        · rename_i hminus
          simp only [Option.some.injEq, Prod.mk.injEq] at hres
          obtain ⟨rfl, rfl⟩ := hres
          have h1 : lit t!"-" t (matchChar '-' t).2 := matchChar_true (by rw [← hminus])
          cases first
          · exact .inl h1
          · exact h1
        · split at hres
          · exact nomatch hres
          · rename_i hf
            simp only [Option.some.injEq, Prod.mk.injEq] at hres
            obtain ⟨rfl, rfl⟩ := hres
            simp only [Bool.not_eq_false] at hf
            subst hf
            exact lit_refl _

/-- The parts of a term are read with their meaning. -/
def BodySound (body : Text → Option ((ℤ × List ℕ) × Text)) (G : ℕ → List ℕ → Gram) : Prop :=
  ∀ {c : ℤ} {e : List ℕ} {t r : Text}, peekChar '+' t = false → peekChar '-' t = false → body t = some ((c, e), r) → ∃ c0 : ℕ, c = c0 ∧ G c0 e t r

theorem readSigned_sound {body : Text → Option ((ℤ × List ℕ) × Text)} {G : ℕ → List ℕ → Gram} (hb : BodySound body G) {first : Bool} {p : ℤ × List ℕ} {t r : Text}
    (h : readSigned body first t = some (p, r)) : signedTermG G first p t r := by
  unfold readSigned at h
  split at h
  · exact nomatch h
  · rename_i positive r1 h1
    obtain ⟨h2, h3, h4⟩ := readSign_sound h1
    obtain ⟨⟨⟨c, e⟩, r2⟩, h5, h6⟩ := Option.map_eq_some_iff.1 h
    simp only [Prod.mk.injEq] at h6
    obtain ⟨rfl, rfl⟩ := h6
    obtain ⟨c0, rfl, h7⟩ := hb h3 h4 h5
    refine ⟨!positive, c0, ?_, r1, h2, h7⟩
    cases positive <;> rfl

theorem StartsBlank.term {G : ℕ → List ℕ → Gram} {p : ℤ × List ℕ} : StartsBlank (signedTermG G false p) := by
  rintro t r r' hr ⟨neg, c, h1, u, h2, h3⟩
  refine ⟨neg, c, h1, u, ?_, h3⟩
  cases neg
  · exact trans_lit hr h2
  · rcases h2 with h2 | ⟨v, h2, h4⟩
    · exact .inl (trans_lit hr h2)
    · exact .inr ⟨v, trans_lit hr h2, h4⟩

theorem readPolyTerms_sound {body : Text → Option ((ℤ × List ℕ) × Text)} {G : ℕ → List ℕ → Gram} (hb : BodySound body G) :
    ∀ fuel (first : Bool) (acc ps : List (ℤ × List ℕ)) (t r : Text), readPolyTerms (readSigned body) fuel first acc t = some (ps, r) →
      ∃ p qs, ps = acc ++ p :: qs ∧ (signedTermG G first p ⊹ Many (signedTermG G false) qs ⊹ lit t!";") t r := by
  intro fuel
  induction fuel with
  | zero => intro first acc ps t r h; simp [readPolyTerms] at h
  | succ fuel ih =>
    intro first acc ps t r h
    rw [readPolyTerms] at h
    split at h
    · exact nomatch h
    · rename_i p r1 h1
      have h2 := readSigned_sound hb h1
      split at h
      · rename_i r2 h3
        simp only [Option.some.injEq, Prod.mk.injEq] at h
        obtain ⟨rfl, rfl⟩ := h
        exact ⟨p, [], rfl, r1, h2, r1, .nil (lit_refl _), matchChar_true h3⟩
      · rename_i r2 h3
        obtain ⟨q, qs, h4, u, h5, v, h6, h7⟩ := ih _ _ _ _ _ h
        refine ⟨p, q :: qs, by simp [h4], r1, h2, v, .cons (StartsBlank.term _ _ _ (matchChar_skip h3) h5) h6, h7⟩

theorem readSum_sound {body : Text → Option ((ℤ × List ℕ) × Text)} {G : ℕ → List ℕ → Gram} (hb : BodySound body G) {fuel : ℕ} {ps : List (ℤ × List ℕ)} {t r : Text}
    (h : readPolyTerms (readSigned body) fuel true [] t = some (ps, r)) : sumG G ps t r := by
  obtain ⟨p, qs, h1, h2⟩ := readPolyTerms_sound hb _ _ _ _ _ _ h
  exact ⟨p, qs, by simpa using h1, h2⟩

end Frobby

import Verif.FrobActionModel
import Verif.FrobGrobSpec
import Verif.PropsOptimizeAction
import Verif.PropsFrob

/-!
# What `frobgrob` and `frobdyn` read
-/

namespace Frobby

theorem isDigit_not_space {c : Char} (h : isDigit c = true) : isSpace c = false := by
  simp only [isDigit, decide_eq_true_eq] at h
  simp only [isSpace, decide_eq_false_iff_not]
  omega

theorem readDigits_complete {ds r : Text} (h0 : ds ≠ []) (hd : ∀ c ∈ ds, isDigit c = true) (hr : nextIs isDigit r = false) : readDigits (ds ++ r) = some (ds, r) := by
  have h1 : (ds ++ r).takeWhile isDigit = ds := by
    rw [List.takeWhile_append_of_pos hd]
    cases r with
    | nil => simp
    | cons c r =>
      have : isDigit c = false := hr
      simp [this]
  have h2 : (ds ++ r).dropWhile isDigit = r := by
    rw [List.dropWhile_append_of_pos hd]
    cases r with
    | nil => simp
    | cons c r =>
      have : isDigit c = false := hr
      simp [this]
  unfold readDigits
  rw [h1, h2, if_neg h0]

theorem readInteger_complete {x : ℤ} {t r : Text} (h : integerG x t r) : ∃ r', readInteger t = some (x, r') ∧ eatWhite r' = eatWhite r := by
  obtain ⟨sign, ds, ⟨h0, hd, w, w', hw, hw', rfl, hr⟩, hx⟩ := h
  have hd' : ∀ c ∈ ds, isDigit c = true := fun c hc => isDigit_iff.2 (hd c hc)
  have hr' : nextIs isDigit (w' ++ r) = false := by
    cases hh : w' ++ r with
    | nil => rfl
    | cons c l =>
      have := hr c (by simp [hh])
      have hn : ¬ isDigit c = true := fun h => this (isDigit_iff.1 h)
      simpa [nextIs] using hn
  have hR := readDigits_complete h0 hd' hr'
  refine ⟨w' ++ r, ?_, dropBlank hw' r⟩
  have he : readInteger (w ++ sign ++ ds ++ w' ++ r) = readInteger (sign ++ (ds ++ (w' ++ r))) := by
    refine readInteger_congr ?_
    rw [List.append_assoc, List.append_assoc, List.append_assoc, dropBlank hw]
  rw [he]
  have hne : ∀ c l, ds = c :: l → isSpace c = false ∧ c ≠ '-' ∧ c ≠ '+' := by
    intro c l hc
    have h1 := hd' c (by simp [hc])
    exact ⟨isDigit_not_space h1, by rintro rfl; exact absurd h1 (by decide), by rintro rfl; exact absurd h1 (by decide)⟩
  rcases hx with ⟨rfl, rfl⟩ | ⟨rfl, rfl⟩ | ⟨rfl, rfl⟩
  · obtain ⟨c, l, rfl⟩ := List.exists_cons_of_ne_nil h0
    obtain ⟨h1, h2, h3⟩ := hne c l rfl
    unfold readInteger
    rw [List.nil_append, List.cons_append, eatWhite_cons, if_neg (by simp [h1])]
    simp only [h2, h3, if_false]
    rw [List.cons_append] at hR
    rw [hR, Option.map_some, digitsValue_valueIn]
  · unfold readInteger
    rw [List.cons_append, eatWhite_cons, if_neg (by decide)]
    simp only [List.nil_append]
    rw [if_neg (by decide), if_pos trivial, hR, Option.map_some, digitsValue_valueIn]
  · unfold readInteger
    rw [List.cons_append, eatWhite_cons, if_neg (by decide)]
    simp only [List.nil_append]
    rw [if_pos trivial, hR, Option.map_some, digitsValue_valueIn]

theorem integerG_starts (x : ℤ) : StartsBlank (integerG x) := fun _ _ _ h ⟨s, ds, h', h''⟩ => ⟨s, ds, trans_digitsG h h', h''⟩

theorem readInteger_length {x : ℤ} {t r : Text} (h : readInteger t = some (x, r)) : r.length < t.length := by
  obtain ⟨_, ds, ⟨h0, _, w, w', _, _, rfl, _⟩, _⟩ := readInteger_sound h
  have := List.length_pos_iff.2 h0
  simp only [List.length_append]
  omega

/-- The same up to blank space. -/
theorem readInteger_complete_at {x : ℤ} {t s r : Text} (h : integerG x t r) (hs : eatWhite s = eatWhite t) : ∃ r', readInteger s = some (x, r') ∧ eatWhite r' = eatWhite r := by
  rw [readInteger_congr hs]
  exact readInteger_complete h

theorem sizeG_integerG {x : ℕ} {t r : Text} (h : sizeG x t r) : integerG x t r ∧ x < 2 ^ 64 := by
  obtain ⟨h1, s, ds, h2, h3, h4⟩ := h
  refine ⟨⟨s, ds, h2, ?_⟩, h1⟩
  rcases h4 with rfl | rfl | ⟨rfl, h5⟩
  · exact .inl ⟨rfl, by rw [h3]⟩
  · exact .inr (.inl ⟨rfl, by rw [h3]⟩)
  · exact .inr (.inr ⟨rfl, by rw [← h3, h5]; rfl⟩)

theorem readSizeT_complete_at {x : ℕ} {t s r : Text} (h : sizeG x t r) (hs : eatWhite s = eatWhite t) : ∃ r', readSizeT s = some (x, r') ∧ eatWhite r' = eatWhite r := by
  obtain ⟨h1, h2⟩ := sizeG_integerG h
  obtain ⟨r', h3, h4⟩ := readInteger_complete_at h1 hs
  refine ⟨r', ?_, h4⟩
  unfold readSizeT
  rw [h3]
  simp only
  rw [if_pos (by omega), Int.toNat_natCast]

/-! ## the entries -/

theorem readNonNegative_eq {t : Text} : readNonNegative t = (readInteger t).map fun p => (p.1.toNat, p.2) := by
  unfold readNonNegative
  split
  · rename_i r
    split
    · rename_i hd
      cases r with
      | nil => simp [nextIs] at hd
      | cons c r =>
        have hd : isDigit c = true := hd
        have h1 := isDigit_not_space hd
        have hm : c ≠ '-' := by rintro rfl; exact absurd hd (by decide)
        have hp : c ≠ '+' := by rintro rfl; exact absurd hd (by decide)
        have hz : isDigit '0' = true := by decide
        unfold readInteger
        rw [eatWhite_cons, if_neg (by simp [h1]), eatWhite_cons, if_neg (by decide)]
        simp only [hm, hp, if_false, show ¬ ('0' = '-') by decide, show ¬ ('0' = '+') by decide]
        unfold readDigits
        simp [hd, hz, digitsValue]
    · rename_i hd
      unfold readInteger
      rw [eatWhite_cons, if_neg (by decide)]
      simp only [if_false, show ¬ ('0' = '-') by decide, show ¬ ('0' = '+') by decide]
      have hR := readDigits_complete (ds := t!"0") (r := r) (by simp) (by decide) (by simpa using hd)
      rw [show t!"0" ++ r = '0' :: r from rfl] at hR
      rw [hR]
      simp [digitsValue]
  · rfl

theorem lit_eatWhite {t r : Text} (h : lit [] t r) : eatWhite t = eatWhite r := by
  obtain ⟨w, w', hw, hw', rfl⟩ := h
  rw [List.append_nil, List.append_assoc, dropBlank hw, dropBlank hw']

theorem readNonNegative_sound {k : ℕ} {t r : Text} (h : readNonNegative t = some (k, r)) : ∃ x, integerG x t r ∧ k = x.toNat := by
  rw [readNonNegative_eq, Option.map_eq_some_iff] at h
  obtain ⟨⟨x, u⟩, h1, h2⟩ := h
  simp only [Prod.mk.injEq] at h2
  obtain ⟨rfl, rfl⟩ := h2
  exact ⟨x, readInteger_sound h1, rfl⟩

theorem readNonNegative_complete {x : ℤ} {t s r : Text} (h : integerG x t r) (hs : eatWhite s = eatWhite t) : ∃ r', readNonNegative s = some (x.toNat, r') ∧ eatWhite r' = eatWhite r := by
  obtain ⟨r', h1, h2⟩ := readInteger_complete_at h hs
  exact ⟨r', by rw [readNonNegative_eq, h1]; rfl, h2⟩

theorem readNonNegatives_sound {k : ℕ} : ∀ {t r : Text} {l : List ℕ}, readNonNegatives k t = some (l, r) → ∃ v, v.length = k ∧ l = v.map Int.toNat ∧ Many integerG v t r := by
  induction k with
  | zero =>
    intro t r l h
    simp only [readNonNegatives, Option.some.injEq, Prod.mk.injEq] at h
    obtain ⟨rfl, rfl⟩ := h
    exact ⟨[], rfl, rfl, .nil (lit_refl t)⟩
  | succ k ih =>
    intro t r l h
    obtain ⟨⟨x, u⟩, h1, h2⟩ := Option.bind_eq_some_iff.1 h
    obtain ⟨⟨vs, u'⟩, h3, h4⟩ := Option.map_eq_some_iff.1 h2
    simp only [Prod.mk.injEq] at h4
    obtain ⟨rfl, rfl⟩ := h4
    obtain ⟨v, rfl, rfl, h6⟩ := ih h3
    obtain ⟨x, h7, rfl⟩ := readNonNegative_sound h1
    exact ⟨x :: v, rfl, rfl, .cons h7 h6⟩

theorem readNonNegatives_complete {v : List ℤ} {t r : Text} (h : Many integerG v t r) : ∀ {s : Text}, eatWhite s = eatWhite t →
    ∃ r', readNonNegatives v.length s = some (v.map Int.toNat, r') ∧ eatWhite r' = eatWhite r := by
  induction h with
  | nil h => exact fun {s} hs => ⟨s, rfl, hs.trans (lit_eatWhite h)⟩
  | cons h1 _ ih =>
    intro s hs
    obtain ⟨r', h2, h3⟩ := readNonNegative_complete h1 hs
    obtain ⟨r'', h4, h5⟩ := ih h3
    exact ⟨r'', by simp [readNonNegatives, h2, h4], h5⟩

/-- A row of the matrix. -/
structure Row (k : ℕ) (g : List ℤ) : Prop where
  length : g.length = k + 1
  head : g.headD 0 ≤ 0

/-- The exponents in a row. -/
def rowExponents (g : List ℤ) : List ℕ := g.tail.map Int.toNat

theorem readGrobnerTerm_sound {k : ℕ} {t r : Text} {l : List ℕ} (h : readGrobnerTerm k t = some (l, r)) : ∃ g, Row k g ∧ l = rowExponents g ∧ Many integerG g t r := by
  obtain ⟨⟨x, u⟩, h1, h2⟩ := Option.bind_eq_some_iff.1 h
  simp only at h2
  split at h2
  · exact nomatch h2
  · obtain ⟨v, rfl, rfl, h3⟩ := readNonNegatives_sound h2
    obtain ⟨x, h4, rfl⟩ := readNonNegative_sound h1
    exact ⟨x :: v, ⟨rfl, by simp; omega⟩, rfl, .cons h4 h3⟩

theorem readGrobnerTerm_complete {k : ℕ} {g : List ℤ} (hg : Row k g) {t r s : Text} (h : Many integerG g t r) (hs : eatWhite s = eatWhite t) :
    ∃ r', readGrobnerTerm k s = some (rowExponents g, r') ∧ eatWhite r' = eatWhite r := by
  cases h with
  | nil _ => exact absurd hg.length (by simp)
  | @cons x v _ _ _ h1 h2 =>
    obtain ⟨r', h3, h4⟩ := readNonNegative_complete h1 hs
    obtain ⟨r'', h5, h6⟩ := readNonNegatives_complete h2 h4
    have h7 : x ≤ 0 := hg.head
    have h8 : v.length = k := by simpa using hg.length
    rw [h8] at h5
    exact ⟨r'', by simp [readGrobnerTerm, h3, h5, rowExponents, h7], h6⟩

theorem readGrobnerTerms_sound {k : ℕ} : ∀ {c : ℕ} {t r : Text} {l : List (List ℕ)}, readGrobnerTerms k c t = some (l, r) →
    ∃ B : List (List ℤ), B.length = c ∧ (∀ g ∈ B, Row k g) ∧ l = B.map rowExponents ∧ Many (Many integerG) B t r := by
  intro c
  induction c with
  | zero =>
    intro t r l h
    simp only [readGrobnerTerms, Option.some.injEq, Prod.mk.injEq] at h
    obtain ⟨rfl, rfl⟩ := h
    exact ⟨[], rfl, by simp, rfl, .nil (lit_refl t)⟩
  | succ c ih =>
    intro t r l h
    obtain ⟨⟨x, u⟩, h1, h2⟩ := Option.bind_eq_some_iff.1 h
    obtain ⟨⟨vs, u'⟩, h3, h4⟩ := Option.map_eq_some_iff.1 h2
    simp only [Prod.mk.injEq] at h4
    obtain ⟨rfl, rfl⟩ := h4
    obtain ⟨B, rfl, h5, rfl, h6⟩ := ih h3
    obtain ⟨g, h7, rfl, h8⟩ := readGrobnerTerm_sound h1
    exact ⟨g :: B, rfl, by simpa using ⟨h7, h5⟩, rfl, .cons h8 h6⟩

theorem readGrobnerTerms_complete {k : ℕ} {B : List (List ℤ)} {t r : Text} (h : Many (Many integerG) B t r) : (∀ g ∈ B, Row k g) → ∀ {s : Text}, eatWhite s = eatWhite t →
    ∃ r', readGrobnerTerms k B.length s = some (B.map rowExponents, r') ∧ eatWhite r' = eatWhite r := by
  induction h with
  | nil h => exact fun _ s hs => ⟨s, rfl, hs.trans (lit_eatWhite h)⟩
  | cons h1 _ ih =>
    intro hB s hs
    obtain ⟨r', h2, h3⟩ := readGrobnerTerm_complete (hB _ (by simp)) h1 hs
    obtain ⟨r'', h4, h5⟩ := ih (fun g hg => hB g (by simp [hg])) h3
    exact ⟨r'', by simp [readGrobnerTerms, h2, h4], h5⟩

/-! ## the numbers -/

theorem readBigIntegers_sound : ∀ {fuel : ℕ} {t : Text} {l : List ℤ}, readBigIntegers fuel t = some l → Many integerG l t [] ∧ ∀ x ∈ l, 1 < x := by
  intro fuel
  induction fuel with
  | zero => exact fun h => nomatch h
  | succ fuel ih =>
    intro t l h
    unfold readBigIntegers at h
    split at h
    · rename_i h1
      obtain rfl : [] = l := by simpa using h
      have h7 : eatWhite t = [] := by simpa [matchEOF] using h1
      have h8 := skip t
      rw [h7] at h8
      exact ⟨.nil h8, by simp⟩
    · obtain ⟨⟨x, u⟩, h1, h2⟩ := Option.bind_eq_some_iff.1 h
      simp only at h2
      split at h2
      · exact nomatch h2
      · obtain ⟨l, h3, rfl⟩ := Option.map_eq_some_iff.1 h2
        obtain ⟨h4, h5⟩ := ih h3
        exact ⟨.cons (readInteger_sound h1) h4, by simpa using ⟨by omega, h5⟩⟩

theorem readBigIntegers_complete {l : List ℤ} {t r : Text} (h : Many integerG l t r) : eatWhite r = [] → (∀ x ∈ l, 1 < x) → ∀ {fuel : ℕ} {s : Text}, s.length < fuel → eatWhite s = eatWhite t →
    readBigIntegers fuel s = some l := by
  induction h with
  | nil h =>
    intro hr _ fuel s hf hs
    cases fuel with
    | zero => omega
    | succ fuel =>
      have : matchEOF s = true := by simp [matchEOF, hs, lit_eatWhite h, hr]
      simp [readBigIntegers, this]
  | cons h1 _ ih =>
    intro hr hl fuel s hf hs
    cases fuel with
    | zero => omega
    | succ fuel =>
      obtain ⟨r', h2, h3⟩ := readInteger_complete_at h1 hs
      have h4 : matchEOF s = false := by
        by_contra hc
        have h5 : eatWhite s = [] := by simpa [matchEOF] using hc
        unfold readInteger at h2
        rw [h5] at h2
        exact nomatch h2
      have h6 := readInteger_length h2
      have h7 := ih hr (fun x hx => hl x (by simp [hx])) (fuel := fuel) (s := r') (by omega) h3
      have h8 := hl _ (List.mem_cons_self ..)
      simp [readBigIntegers, h4, h2, h7, h8]

theorem accepts_instance (l : List ℤ) : acceptsInstance l = true ↔ Instance l := by
  rw [acceptsInstance_iff]
  constructor
  · rintro ⟨A, rfl, h1, h2, h3⟩
    refine ⟨by simpa using h2, fun x hx => ?_, fun d hd => h3 d fun a ha => ?_⟩
    · obtain ⟨a, ha, rfl⟩ := List.mem_map.1 hx
      exact Int.ofNat_lt.2 (h1 a ha)
    · exact Int.natCast_dvd_natCast.1 (hd _ (List.mem_map.2 ⟨a, ha, rfl⟩))
  · intro h
    have he : l = (l.map Int.toNat).map Int.ofNat := by
      rw [List.map_map]
      refine (List.map_id _).symm.trans (List.map_congr_left fun x hx => ?_)
      have := h.big x hx
      simp only [id, Function.comp_apply, Int.ofNat_eq_natCast]
      omega
    refine ⟨_, he, fun a ha => ?_, by simpa using h.nonempty, fun d hd => h.coprime d fun x hx => ?_⟩
    · obtain ⟨x, hx, rfl⟩ := List.mem_map.1 ha
      have := h.big x hx
      omega
    · have h1 := hd _ (List.mem_map.2 ⟨x, hx, rfl⟩)
      have h2 := h.big x hx
      have h3 : ((x.toNat : ℕ) : ℤ) = x := by omega
      rw [← h3]
      exact Int.natCast_dvd_natCast.2 h1

theorem readFrobeniusInstance_sound {t : Text} {a : List ℤ} (h : readFrobeniusInstance t = some a) : Many integerG a t [] ∧ Instance a := by
  obtain ⟨l, h1, h2⟩ := Option.bind_eq_some_iff.1 h
  split at h2
  · exact nomatch h2
  · split at h2
    · exact nomatch h2
    · rename_i h3 h4
      obtain rfl : l = a := by simpa using h2
      obtain ⟨h5, h6⟩ := readBigIntegers_sound h1
      refine ⟨h5, (accepts_instance l).1 ?_⟩
      rw [acceptsInstance]
      simp only [Bool.and_eq_true, decide_eq_true_eq]
      exact ⟨⟨h6, h3⟩, not_not.1 h4⟩

theorem readFrobeniusInstance_complete {t r s : Text} {a : List ℤ} (h : Many integerG a t r) (hr : eatWhite r = []) (ha : Instance a) (hs : eatWhite s = eatWhite t) :
    readFrobeniusInstance s = some a := by
  have h1 := readBigIntegers_complete h hr ha.big (fuel := s.length + 1) (by omega) hs
  have h2 := (accepts_instance a).2 ha
  rw [acceptsInstance] at h2
  simp only [Bool.and_eq_true, decide_eq_true_eq] at h2
  unfold readFrobeniusInstance
  rw [h1, Option.bind_some, if_neg h2.1.2, if_neg (not_not.2 h2.2)]

end Frobby

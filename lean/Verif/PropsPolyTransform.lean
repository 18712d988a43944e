import Verif.PolyTransformModel
import Verif.PolyTransformSpec
import Mathlib.Data.Prod.Lex
import Verif.PolyReaderLemmas
import Verif.TransformLemmas4
import Verif.PropsHilbertAction

/-!
# C63: what is read as a polynomial is what the text means, and what `ptransform` prints
-/

namespace Frobby

theorem eraseDups_add (acc : List Text) (x : Text) : (acc ++ [x]).eraseDups = if x ∈ acc then acc.eraseDups else acc.eraseDups ++ [x] := by
  rw [List.eraseDups_append]
  split
  · rename_i hx
    simp [List.removeAll, hx]
  · rename_i hx
    simp [List.removeAll, hx, List.eraseDups_cons]

theorem eraseDups_of_nodup {l : List Text} (h : l.Nodup) : l.eraseDups = l := by
  induction l using List.reverseRecOn with
  | nil => rfl
  | append_singleton l x ih =>
    rw [List.nodup_append] at h
    rw [eraseDups_add, if_neg (fun hx => h.2.2 x hx x (by simp) rfl), ih h.1]

theorem readNames4ti2_sound (n : ℕ) : ∀ (acc names : List Text) (t r : Text), readTimes readNameAdd n acc t = some (names, r) →
    ∃ written, written.length = n ∧ Many nameG written t r ∧ (acc.eraseDups = acc → names = (acc ++ written).eraseDups) ∧ (acc.Nodup → names.Nodup) ∧
      (∀ x ∈ names, x ∈ acc ∨ x ∈ written) ∧ names.length ≤ acc.length + n := by
  induction n with
  | zero =>
    intro acc names t r h
    simp only [readTimes, Option.some.injEq, Prod.mk.injEq] at h
    obtain ⟨rfl, rfl⟩ := h
    exact ⟨[], rfl, .nil (lit_refl _), fun h => by rw [List.append_nil, h], id, by simp, by simp⟩
  | succ n ih =>
    intro acc names t r h
    simp only [readTimes] at h
    cases h1 : readNameAdd acc t with
    | none => simp [h1] at h
    | some p =>
      obtain ⟨acc', r1⟩ := p
      simp only [h1] at h
      obtain ⟨⟨x, r2⟩, h2, h3⟩ := Option.map_eq_some_iff.1 h1
      simp only [Prod.mk.injEq] at h3
      obtain ⟨rfl, rfl⟩ := h3
      obtain ⟨w, h4, h5, h6, h7, h8, h9⟩ := ih _ _ _ _ h
      refine ⟨x :: w, by simp [h4], .cons (readIdentifier_nameG h2) h5, ?_, ?_, ?_, ?_⟩
      · intro hn
        have h10 := eraseDups_add acc x
        rw [hn] at h10
        have h11 : ∀ l : List Text, (acc ++ [x] ++ l).eraseDups = ((if x ∈ acc then acc else acc ++ [x]) ++ l).eraseDups := by
          intro l
          split
          · rename_i hx
            rw [List.append_assoc, List.eraseDups_append, List.eraseDups_append (bs := l)]
            simp [List.removeAll, hx]
          · rfl
        rw [h6 ?_, ← h11]
        · simp
        · split
          · exact hn
          · rename_i hx
            rw [h10, if_neg hx]
      · intro hn
        apply h7
        split
        · exact hn
        · rename_i hx
          rw [List.nodup_append]
          refine ⟨hn, by simp, ?_⟩
          rintro a ha b hb rfl
          simp only [List.mem_singleton] at hb
          exact hx (hb ▸ ha)
      · intro y hy
        rcases h8 y hy with hy | hy
        · split at hy
          · exact .inl hy
          · rcases List.mem_append.1 hy with hy | hy
            · exact .inl hy
            · exact .inr (by simp at hy; simp [hy])
        · exact .inr (by simp [hy])
      · split at h9
        · omega
        · simp at h9; omega

theorem readRow_sound (n : ℕ) : ∀ (acc e : List ℕ) (t r : Text), readTimes readExponentNonNegative n acc t = some (e, r) →
    ∃ zs : List ℤ, zs.length = n ∧ e = acc ++ zs.map Int.toNat ∧ Many integerG zs t r := by
  induction n with
  | zero =>
    intro acc e t r h
    simp only [readTimes, Option.some.injEq, Prod.mk.injEq] at h
    obtain ⟨rfl, rfl⟩ := h
    exact ⟨[], rfl, by simp, .nil (lit_refl _)⟩
  | succ n ih =>
    intro acc e t r h
    simp only [readTimes] at h
    cases h1 : readExponentNonNegative acc t with
    | none => simp [h1] at h
    | some p =>
      obtain ⟨acc', r1⟩ := p
      simp only [h1] at h
      unfold readExponentNonNegative at h1
      rw [readNonNegative_eq, Option.map_map] at h1
      obtain ⟨⟨z, r2⟩, h2, h3⟩ := Option.map_eq_some_iff.1 h1
      simp only [Function.comp, Prod.mk.injEq] at h3
      obtain ⟨rfl, rfl⟩ := h3
      obtain ⟨zs, h4, rfl, h6⟩ := ih _ _ _ _ h
      exact ⟨z :: zs, by simp [h4], by simp, .cons (readInteger_sound h2) h6⟩

theorem readRows_sound (n k : ℕ) : ∀ (acc ps : List (ℤ × List ℕ)) (t r : Text), readTimes (readPolyTerm4ti2 n) k acc t = some (ps, r) →
    ∃ qs, qs.length = k ∧ ps = acc ++ qs ∧ Many (polyRowG n) qs t r ∧ ∀ q ∈ qs, q.2.length = n := by
  induction k with
  | zero =>
    intro acc ps t r h
    simp only [readTimes, Option.some.injEq, Prod.mk.injEq] at h
    obtain ⟨rfl, rfl⟩ := h
    exact ⟨[], rfl, by simp, .nil (lit_refl _), by simp⟩
  | succ k ih =>
    intro acc ps t r h
    simp only [readTimes] at h
    cases h1 : readPolyTerm4ti2 n acc t with
    | none => simp [h1] at h
    | some p =>
      obtain ⟨acc', r1⟩ := p
      simp only [h1] at h
      obtain ⟨⟨c, r2⟩, h2, h3⟩ := Option.bind_eq_some_iff.1 h1
      obtain ⟨⟨e, r3⟩, h4, h5⟩ := Option.bind_eq_some_iff.1 h3
      simp only [Option.some.injEq, Prod.mk.injEq] at h4 h5
      obtain ⟨rfl, rfl⟩ := h5
      obtain ⟨zs, hz, rfl, h6⟩ := readRow_sound _ _ _ _ _ h4
      obtain ⟨qs, h7, rfl, h8, h9⟩ := ih _ _ _ _ h
      refine ⟨(c, zs.map Int.toNat) :: qs, by simp [h7], by simp, .cons ⟨zs, hz, rfl, r2, readInteger_sound h2, h6⟩ h8, ?_⟩
      intro q hq
      rcases List.mem_cons.1 hq with rfl | hq
      · simp [hz]
      · exact h9 q hq

theorem readPoly4ti2_sound {P : NamedPoly} {t r : Text} (h : readPoly4ti2 t = some (P, r)) :
    poly4ti2G P t r ∧ P.names.Nodup ∧ (∀ x ∈ P.names, AllowedName x) := by
  unfold readPoly4ti2 at h
  obtain ⟨⟨k, r1⟩, h1, h⟩ := Option.bind_eq_some_iff.1 h
  obtain ⟨⟨columns, r2⟩, h2, h⟩ := Option.bind_eq_some_iff.1 h
  simp only at h1 h2 h
  split at h
  · simp at h
  rename_i h0
  obtain ⟨⟨terms, r3⟩, h3, h⟩ := Option.bind_eq_some_iff.1 h
  simp only at h3 h
  obtain ⟨n, rfl⟩ : ∃ n, columns = n + 1 := ⟨columns - 1, by omega⟩
  rw [Nat.add_sub_cancel] at h3 h
  obtain ⟨qs, hk, hq, h4, h5⟩ := readRows_sound _ _ _ _ _ _ h3
  rw [List.nil_append] at hq
  subst hq
  have key : ∃ u v w, lit t!"(" r3 u ∧ lit t!"coefficient" u v ∧ lit t!")" v w ∧
      (if peekIdentifier w then do
        let (names, r) ← readTimes readNameAdd n [] w
        some (({ names := names, terms := terms } : NamedPoly), r)
      else some ({ names := defaultNames n, terms := terms }, w)) = some (P, r) := by
    split at h
    · rename_i hm
      rw [Option.bind_eq_bind, Option.bind_some] at h
      obtain ⟨v, h6, h⟩ := Option.bind_eq_some_iff.1 h
      obtain ⟨w, h7, h⟩ := Option.bind_eq_some_iff.1 h
      refine ⟨_, v, w, ?_, expectText_lit h6, expectChar_lit h7, h⟩
      refine expectChar_lit (c := '(') ?_
      unfold matchChar at hm ⊢
      unfold expectChar
      cases he : eatWhite r3 with
      | nil => simp [he] at hm
      | cons d u =>
        rw [he] at hm
        by_cases hd : d = '('
        · simp [hd]
        · simp [hd] at hm
    · rename_i hm
      obtain ⟨v, h6, h⟩ := Option.bind_eq_some_iff.1 h
      exfalso
      apply hm
      unfold matchChar
      have h7 := stripText_eq h6
      rw [h7]
      rfl
  obtain ⟨u, v, w, h6, h7, h8, h⟩ := key
  have hG : ∀ N r', Gram.or (Gram.when (N = (List.range n).map fun i => 'x' :: decimal (i + 1)))
      (fun t r => ∃ written : List Text, written.length = n ∧ Many nameG written t r ∧ N = written.eraseDups) w r' → poly4ti2G ⟨N, terms⟩ t r' :=
    fun N r' hN => ⟨n, r1, by rw [hk]; exact readSizeT_sizeG h1, r2, readSizeT_sizeG h2, r3, h4, u, h6, v, h7, w, h8, hN⟩
  split at h
  · obtain ⟨⟨names, r4⟩, h9, h10⟩ := Option.bind_eq_some_iff.1 h
    simp only [Option.some.injEq, Prod.mk.injEq] at h9 h10
    obtain ⟨rfl, rfl⟩ := h10
    obtain ⟨written, w1, w2, w3, w4, w5, _⟩ := readNames4ti2_sound _ _ _ _ _ h9
    refine ⟨hG _ _ (.inr ⟨written, w1, w2, by simpa using w3⟩), w4 List.nodup_nil, fun x hx => ?_⟩
    exact Many.forall nameG_allowed w2 x ((w5 x hx).resolve_left (by simp))
  · simp only [Option.some.injEq, Prod.mk.injEq] at h
    obtain ⟨rfl, rfl⟩ := h
    exact ⟨hG _ _ (.inl ⟨rfl, rfl⟩), (defaultNames_allowed n).2, (defaultNames_allowed n).1⟩

theorem readBarePoly_sound {f : PolyFormat} {names : List Text} {terms : List (ℤ × List ℕ)} {t u r : Text} (h : readRing f.io t = some (names, u))
    (h' : readBarePoly names u f = some (terms, r)) : polyG f ⟨names, terms⟩ t r := by
  have hb : BodySound (readCoefBody names) (bodyG names) := fun hp hm h => readCoefBody_sound hp hm h
  have hb' : BodySound (readCoefBodyCoCoA names) (bodyCoCoAG names) := fun hp hm h => readCoefBodyCoCoA_sound hp hm h
  cases f with
  | m2 =>
    obtain ⟨r1, h1, h'⟩ := Option.bind_eq_some_iff.1 h'
    obtain ⟨r2, h2, h'⟩ := Option.bind_eq_some_iff.1 h'
    exact ⟨u, readRing_sound (f := .m2) rfl h, r1, expectChar_lit h1, r2, expectChar_lit h2, readSum_sound hb h'⟩
  | cocoa4 =>
    obtain ⟨r1, h1, h'⟩ := Option.bind_eq_some_iff.1 h'
    obtain ⟨r2, h2, h'⟩ := Option.bind_eq_some_iff.1 h'
    exact ⟨u, readRing_sound (f := .cocoa4) rfl h, r1, expectChar_lit h1, r2, expectText_lit h2, readSum_sound hb' h'⟩
  | singular =>
    obtain ⟨r1, h1, h'⟩ := Option.bind_eq_some_iff.1 h'
    obtain ⟨r2, h2, h'⟩ := Option.bind_eq_some_iff.1 h'
    obtain ⟨r3, h3, h'⟩ := Option.bind_eq_some_iff.1 h'
    exact ⟨u, readRing_sound (f := .singular) rfl h, r1, expectText_lit h1, r2, expectChar_lit h2, r3, expectChar_lit h3, readSum_sound hb h'⟩
  | fourti2 => exact nomatch h'

theorem readPoly_split {f : PolyFormat} {t : Text} {P : NamedPoly} (h : readPoly f t = some P) : ∃ r, lit [] r [] ∧
    (f = .fourti2 ∧ readPoly4ti2 t = some (P, r) ∨ f ≠ .fourti2 ∧ ∃ u, readRing f.io t = some (P.names, u) ∧ readBarePoly P.names u f = some (P.terms, r)) := by
  unfold readPoly at h
  simp only at h
  split at h
  · rename_i hf
    obtain ⟨⟨Q, r⟩, h1, h2⟩ := Option.bind_eq_some_iff.1 h
    simp only at h2
    split at h2
    · rename_i h3
      simp only [Option.some.injEq] at h2
      subst h2
      have : eatWhite r = [] := by simpa [matchEOF] using h3
      exact ⟨r, by simpa [this] using skip r, .inl ⟨hf, h1⟩⟩
    · exact nomatch h2
  · rename_i hf
    obtain ⟨⟨names, u⟩, h1, h⟩ := Option.bind_eq_some_iff.1 h
    obtain ⟨⟨terms, r⟩, h2, h⟩ := Option.bind_eq_some_iff.1 h
    simp only [Option.bind_eq_bind, Option.bind_some] at h1 h2 h
    split at h
    · rename_i h3
      simp only [Option.some.injEq] at h
      subst h
      have : eatWhite r = [] := by simpa [matchEOF] using h3
      exact ⟨r, by simpa [this] using skip r, .inr ⟨hf, u, h1, h2⟩⟩
    · exact nomatch h

/-- C63: **whatever the text, if it is read as a polynomial then the text means that polynomial.** -/
theorem C63_sound {f : PolyFormat} {t : Text} {P : NamedPoly} (h : readPoly f t = some P) : MeansPoly f t P := by
  obtain ⟨r, h1, ⟨rfl, h2⟩ | ⟨hf, u, h2, h3⟩⟩ := readPoly_split h
  · exact ⟨r, (readPoly4ti2_sound h2).1, h1⟩
  · exact ⟨r, readBarePoly_sound h2 h3, h1⟩

theorem productOf_len (n : ℕ) (ps : List (ℕ × ℕ)) : (productOf n ps).length = n := by simp [productOf]

/-! ## what is read is well formed -/

theorem signedTermG_length {body : ℕ → List ℕ → Gram} {n : ℕ} (hb : ∀ c e t r, body c e t r → e.length = n) {first : Bool} {p : ℤ × List ℕ} {t r : Text}
    (h : signedTermG body first p t r) : p.2.length = n := by
  obtain ⟨_, c, _, _, _, h⟩ := h
  exact hb c _ _ _ h

theorem sumG_length {body : ℕ → List ℕ → Gram} {n : ℕ} (hb : ∀ c e t r, body c e t r → e.length = n) {ps : List (ℤ × List ℕ)} {t r : Text}
    (h : sumG body ps t r) : ∀ p ∈ ps, p.2.length = n := by
  obtain ⟨p, qs, rfl, u, h1, v, h2, _⟩ := h
  intro q hq
  rcases List.mem_cons.1 hq with rfl | hq
  · exact signedTermG_length hb h1
  · exact Many.forall (fun q t r h => signedTermG_length hb h) h2 q hq

theorem bodyG_length {names : List Text} {c : ℕ} {e : List ℕ} {t r : Text} (h : bodyG names c e t r) : e.length = names.length := by
  obtain ⟨ps, _, rfl, _⟩ := h
  exact productOf_len _ _

theorem bodyCoCoAG_length {names : List Text} {c : ℕ} {e : List ℕ} {t r : Text} (h : bodyCoCoAG names c e t r) : e.length = names.length := by
  obtain ⟨ps, _, rfl, _⟩ := h
  exact productOf_len _ _

/-- C63: the names of the variables of what is read are allowed and different, and in all formats but 4ti2 each term has an exponent for each variable. -/
theorem C63_well_formed {f : PolyFormat} {t : Text} {P : NamedPoly} (h : readPoly f t = some P) :
    (∀ x ∈ P.names, AllowedName x) ∧ P.names.Nodup ∧ (f ≠ .fourti2 → P.FullTerms) := by
  obtain ⟨r, h1, ⟨rfl, h2⟩ | ⟨hf, u, h2, h3⟩⟩ := readPoly_split h
  · exact ⟨(readPoly4ti2_sound h2).2.2, (readPoly4ti2_sound h2).2.1, fun h => absurd rfl h⟩
  · have h4 := readBarePoly_sound h2 h3
    cases f with
    | m2 =>
      obtain ⟨u, h5, _, _, _, _, h6⟩ := h4
      obtain ⟨h7, h8⟩ := ringG_allowed (f := .m2) h5
      exact ⟨h7, h8, fun _ => sumG_length (fun _ _ _ _ h => bodyG_length h) h6⟩
    | cocoa4 =>
      obtain ⟨u, h5, _, _, _, _, h6⟩ := h4
      obtain ⟨h7, h8⟩ := ringG_allowed (f := .cocoa4) h5
      exact ⟨h7, h8, fun _ => sumG_length (fun _ _ _ _ h => bodyCoCoAG_length h) h6⟩
    | singular =>
      obtain ⟨u, h5, _, _, _, _, _, _, h6⟩ := h4
      obtain ⟨h7, h8⟩ := ringG_allowed (f := .singular) h5
      exact ⟨h7, h8, fun _ => sumG_length (fun _ _ _ _ h => bodyG_length h) h6⟩
    | fourti2 => exact absurd rfl hf

theorem C63_well_formed_4ti2 {t : Text} {P : NamedPoly} (h : readPoly .fourti2 t = some P) : P.FullTerms ∨
    ∃ (n : ℕ) (written : List Text), written.length = n ∧ ¬ written.Nodup ∧
      (sizeG P.terms.length ⊹ sizeG (n + 1) ⊹ Many (polyRowG n) P.terms ⊹ lit t!"(" ⊹ lit t!"coefficient" ⊹ lit t!")" ⊹ Many nameG written ⊹ lit []) t [] := by
  obtain ⟨r, ⟨n, u1, h1, u2, h2, u3, h3, u4, h4, u5, h5, u6, h6, h7⟩, h8⟩ := C63_sound h
  have hrow : ∀ p ∈ P.terms, p.2.length = n := by
    refine Many.forall ?_ h3
    rintro p t r ⟨zs, hz, hp, _⟩
    rw [hp, List.length_map, hz]
  rcases h7 with ⟨hN, _⟩ | ⟨written, hw, h9, h10⟩
  · left; intro p hp; rw [hrow p hp, hN]; simp
  · by_cases hn : written.Nodup
    · left; intro p hp; rw [hrow p hp, h10, eraseDups_of_nodup hn, hw]
    · right; exact ⟨n, written, hw, hn, u1, h1, u2, h2, u3, h3, u4, h4, u5, h5, u6, h6, r, h9, h8⟩

/-! ## the order of the terms -/

theorem compareExponents_spec : ∀ {a b : List ℕ}, a.length = b.length → (compareExponents a b = none ↔ a = b) ∧ (compareExponents a b = some true ↔ b < a) := by
  intro a
  induction a with
  | nil => intro b h; cases b with
    | nil => simp [compareExponents]
    | cons y ys => simp at h
  | cons x xs ih =>
    intro b h
    cases b with
    | nil => simp at h
    | cons y ys =>
      have := ih (b := ys) (by simpa using h)
      by_cases hxy : x = y
      · subst hxy
        simpa [compareExponents] using this
      · simp only [compareExponents, ne_eq, hxy, not_false_eq_true, if_true, List.cons_lt_cons_iff, Option.some.injEq, decide_eq_true_eq, reduceCtorEq, List.cons.injEq, false_and, true_and]
        refine ⟨fun h => .inl h, ?_⟩
        rintro (h | ⟨h, _⟩)
        · exact h
        · exact absurd h.symm hxy

theorem compareCoefTerms_iff {a b : ℤ × List ℕ} (h : a.2.length = b.2.length) : compareCoefTerms a b = true ↔ b.2 < a.2 ∨ a.2 = b.2 ∧ a.1 < b.1 := by
  obtain ⟨h1, h2⟩ := compareExponents_spec h
  unfold compareCoefTerms
  split
  · rename_i r hr
    rw [hr] at h1 h2
    cases r with
    | true => simp at h1 h2; simp [h2]
    | false =>
      simp at h1 h2
      simp [h1, h2]
  · rename_i hr
    have := h1.1 hr
    simp [this]

theorem negOn_coefTerms (k : ℕ) : NegOn (fun p : ℤ × List ℕ => p.2.length = k) compareCoefTerms :=
  NegOn.of_key (fun p => toLex (OrderDual.toDual p.2, p.1)) fun a b ha hb => by
    rw [compareCoefTerms_iff (ha.trans hb.symm), Prod.Lex.toLex_lt_toLex]
    simp [OrderDual.toDual_lt_toDual]

theorem totalOn_coefTerms (k : ℕ) : TotalOn (fun p : ℤ × List ℕ => p.2.length = k) compareCoefTerms := by
  intro a b ha hb h1 h2
  rw [Bool.eq_false_iff, ne_eq, compareCoefTerms_iff (ha.trans hb.symm)] at h1
  rw [Bool.eq_false_iff, ne_eq, compareCoefTerms_iff (hb.trans ha.symm)] at h2
  have h3 : a.2 = b.2 := le_antisymm (not_lt.1 fun h => h1 (.inl h)) (not_lt.1 fun h => h2 (.inl h))
  have h4 : a.1 = b.1 := le_antisymm (not_lt.1 fun h => h2 (.inr ⟨h3.symm, h⟩)) (not_lt.1 fun h => h1 (.inr ⟨h3, h⟩))
  exact Prod.ext h4 h3

theorem sortTerms_sorted {P : NamedPoly} (h : P.FullTerms) : P.sortTerms.SortedTerms := by
  have h1 := NamedIdeal.insertionSort_on (negOn_coefTerms P.names.length) P.terms h
  refine List.Pairwise.imp_of_mem ?_ h1
  intro a b ha hb hab
  have ha := h a ((List.mem_insertionSort _).1 ha)
  have hb := h b ((List.mem_insertionSort _).1 hb)
  rw [Bool.eq_false_iff, ne_eq, compareCoefTerms_iff (hb.trans ha.symm)] at hab
  rcases lt_trichotomy b.2 a.2 with h | h | h
  · exact .inl h
  · exact .inr ⟨h.symm, not_lt.1 fun h' => hab (.inr ⟨h, h'⟩)⟩
  · exact absurd (.inl h) hab

theorem sortTerms_perm (P : NamedPoly) : P.sortTerms.terms.Perm P.terms := List.perm_insertionSort _ _

theorem sortVariables_terms {P : NamedPoly} (hn : P.names.Nodup) :
    P.sortVariables.terms = P.monomials.map fun q => (q.1, (NamedIdeal.orderedNames P.names).map q.2) := by
  simp only [NamedPoly.sortVariables, NamedPoly.monomials, List.map_map]
  refine List.map_congr_left fun p _ => ?_
  simp only [Function.comp_apply]
  rw [NamedIdeal.permuted_term hn]

theorem sortVariables_monomials {P : NamedPoly} (hn : P.names.Nodup) (h : P.FullTerms) : P.sortVariables.monomials = P.monomials := by
  have : P.sortVariables.names = NamedIdeal.orderedNames P.names := rfl
  rw [NamedPoly.monomials, sortVariables_terms hn, this, NamedPoly.monomials, List.map_map, List.map_map]
  refine List.map_congr_left fun p hp => ?_
  simp only [Function.comp_apply, Prod.mk.injEq, true_and]
  funext x
  rw [expOf_map]
  split
  · rfl
  · rename_i hx
    rw [expOf_not_mem (h p hp) fun h => hx ((NamedIdeal.orderedNames_perm _).mem_iff.2 h)]

theorem sortVariables_full {P : NamedPoly} : P.sortVariables.FullTerms := by
  intro p hp
  obtain ⟨q, _, rfl⟩ := List.mem_map.1 hp
  simp [NamedPoly.sortVariables, NamedIdeal.orderedNames]

theorem sortTerms_full {P : NamedPoly} (h : P.FullTerms) : P.sortTerms.FullTerms := fun p hp => h p ((sortTerms_perm P).mem_iff.1 hp)

theorem sortTerms_monomials (P : NamedPoly) : P.sortTerms.monomials.Perm P.monomials := (sortTerms_perm P).map _

/-- The polynomial that `ptransform` writes. -/
def ptransformed (canon sort : Bool) (P : NamedPoly) : NamedPoly :=
  if sort || canon then (if canon then P.sortVariables else P).sortTerms else if canon then P.sortVariables else P

theorem polyTransform_ok (canon sort : Bool) {P : NamedPoly} (hP : P.FullTerms) : polyTransform canon sort P = .ok (ptransformed canon sort P) := by
  rw [polyTransform, if_pos (by simpa [NamedPoly.FullTerms] using hP)]
  rfl

theorem ptransformText_ok {canon sort : Bool} {f g : IOFormat} {f' g' : PolyFormat} {t : Text} {P : NamedPoly} (hf : polyFormat f = some f') (hg : polyFormat g = some g')
    (hr : readPoly f' t = some P) (hP : P.FullTerms) : ptransformText canon sort f g t = .ok (writePoly g' (ptransformed canon sort P)) := by
  unfold ptransformText
  rw [hf, hg]
  simp only [hr, polyTransform_ok canon sort hP, Outcome.map]

/-- C63, **what `ptransform` prints for every text that it can read**: a polynomial with the same terms, in the same variables. Missing: a text in the format of 4ti2
in which names of variables are repeated (`C63_repeated_names`), and with `-canon` polynomials that are equal need not print the same (`C63_canonical_wrong`). -/
theorem C63_ptransform_partial (canon sort : Bool) {f g : IOFormat} {f' g' : PolyFormat} {t : Text} {P : NamedPoly} (hf : polyFormat f = some f') (hg : polyFormat g = some g')
    (hr : readPoly f' t = some P) (hP : P.FullTerms) :
    ∃ Q, ptransformText canon sort f g t = .ok (writePoly g' Q) ∧ Q.monomials.Perm P.monomials ∧ Q.names.Perm P.names ∧ Q.FullTerms ∧
      (canon = false → Q.names = P.names) ∧ (canon = false → sort = false → Q = P) ∧ (canon = true ∨ sort = true → Q.SortedTerms) ∧
      (canon = true → Q.names.Pairwise (· < ·)) ∧
      (P.terms.length < 2 ^ 64 → P.names.length + 1 < 2 ^ 64 → ReadsPoly g' (writePoly g' Q) Q) := by
  obtain ⟨ha, hn, _⟩ := C63_well_formed hr
  have hperm : (ptransformed canon sort P).names.Perm P.names := by
    cases canon <;> cases sort <;> first | exact .refl _ | exact NamedIdeal.orderedNames_perm _
  have hfull : (ptransformed canon sort P).FullTerms := by
    cases canon <;> cases sort
    · exact hP
    · exact sortTerms_full hP
    · exact sortTerms_full sortVariables_full
    · exact sortTerms_full sortVariables_full
  have hmon : (ptransformed canon sort P).monomials.Perm P.monomials := by
    cases canon <;> cases sort
    · exact .refl _
    · exact sortTerms_monomials P
    · exact (sortTerms_monomials _).trans (by rw [if_pos rfl, sortVariables_monomials hn hP])
    · exact (sortTerms_monomials _).trans (by rw [if_pos rfl, sortVariables_monomials hn hP])
  refine ⟨_, ptransformText_ok hf hg hr hP, hmon, hperm, hfull, ?_, ?_, ?_, ?_, ?_⟩
  · rintro rfl; cases sort <;> rfl
  · rintro rfl rfl; rfl
  · intro h
    cases canon <;> cases sort
    · simp at h
    · exact sortTerms_sorted hP
    · exact sortTerms_sorted sortVariables_full
    · exact sortTerms_sorted sortVariables_full
  · rintro rfl
    cases sort <;> exact NamedIdeal.orderedNames_sorted hn
  · intro h1 h2
    have h3 : (ptransformed canon sort P).terms.length = P.terms.length := by simpa [NamedPoly.monomials] using hmon.length_eq
    exact reads_of ⟨⟨fun x hx => ha x (hperm.mem_iff.1 hx), hperm.nodup_iff.2 hn, by rw [hperm.length_eq]; omega⟩, hfull, by omega, by rw [hperm.length_eq]; exact h2⟩ g'

/-- C63: with `-canon` neither the order of the variables nor that of the terms makes a difference. -/
theorem C63_canonical {sort sort' : Bool} {f f₁ g : IOFormat} {f' f₁' g' : PolyFormat} {t t₁ : Text} {P P₁ : NamedPoly} (hf : polyFormat f = some f') (hf₁ : polyFormat f₁ = some f₁')
    (hg : polyFormat g = some g') (hr : readPoly f' t = some P) (hr₁ : readPoly f₁' t₁ = some P₁) (hP : P.FullTerms) (hP₁ : P₁.FullTerms)
    (hn : P.names.Perm P₁.names) (hm : P.monomials.Perm P₁.monomials) : ptransformText true sort f g t = ptransformText true sort' f₁ g t₁ := by
  rw [ptransformText_ok hf hg hr hP, ptransformText_ok hf₁ hg hr₁ hP₁]
  have h1 := (C63_well_formed hr).2.1
  have h2 := (C63_well_formed hr₁).2.1
  have key : P.sortVariables.sortTerms = P₁.sortVariables.sortTerms := by
    have h3 : P.sortVariables.names = P₁.sortVariables.names := NamedIdeal.orderedNames_congr hn
    have h4 : P.sortVariables.terms.Perm P₁.sortVariables.terms := by
      rw [sortVariables_terms h1, sortVariables_terms h2, NamedIdeal.orderedNames_congr hn]
      exact hm.map _
    have h5 := NamedIdeal.insertionSort_perm_eq (negOn_coefTerms _) (totalOn_coefTerms _) sortVariables_full h4
    unfold NamedPoly.sortTerms
    rw [h3, h5]
  have : ∀ s Q, ptransformed true s Q = Q.sortVariables.sortTerms := by intro s Q; cases s <;> rfl
  rw [this, this, key]

/-- C63: when it reports an error, and when it does not finish. -/
theorem C63_errors (canon sort : Bool) (f g : IOFormat) (t : Text) :
    (ptransformText canon sort f g t = .error ↔ polyFormat f = none ∨ polyFormat g = none ∨ ∃ f', polyFormat f = some f' ∧ readPoly f' t = none) ∧
    (ptransformText canon sort f g t = .crash ↔ polyFormat g ≠ none ∧ ∃ f' P, polyFormat f = some f' ∧ readPoly f' t = some P ∧ ¬ P.FullTerms) := by
  cases hf : polyFormat f with
  | none => simp [ptransformText, hf]
  | some f' =>
    cases hg : polyFormat g with
    | none => simp [ptransformText, hf, hg]
    | some g' =>
      cases hr : readPoly f' t with
      | none => simp [ptransformText, hf, hg, hr]
      | some P =>
        by_cases hP : P.FullTerms
        · rw [ptransformText_ok hf hg hr hP]
          simp [hr, hP]
        · have : ptransformText canon sort f g t = .crash := by
            unfold ptransformText
            rw [hf, hg]
            simp only [hr]
            rw [polyTransform, if_neg (by simpa [NamedPoly.FullTerms] using hP)]
            rfl
          rw [this]
          simp [hr, hP]

/-! ## examples and counterexamples -/

/-- `y*x^2 - 3 + x`. -/
def ptransformExample : Text := t!"R = QQ[y, x];\np = y*x^2-3 + x;"

theorem ptransformExample_read : readPoly .m2 ptransformExample = some { names := [t!"y", t!"x"], terms := [(1, [1, 2]), (-3, [0, 0]), (1, [0, 1])] } := by decide +kernel

example : MeansPoly .m2 ptransformExample { names := [t!"y", t!"x"], terms := [(1, [1, 2]), (-3, [0, 0]), (1, [0, 1])] } := C63_sound ptransformExample_read

example : ptransformText true false .m2 .fourti2 ptransformExample = .ok t!"3 3\n1  2 1\n1  1 0\n-3  0 0\n(coefficient) x y\n" := by decide +kernel

example : ptransformText false true .m2 .singular ptransformExample = .ok t!"ring R = 0, (y, x), lp;\nint noVars = 0;\npoly p =\n y*x^2\n +x\n -3;\n" := by decide +kernel

example : ∃ Q, ptransformText true true .m2 .cocoa4 ptransformExample = .ok (writePoly .cocoa4 Q) ∧ Q.SortedTerms ∧ Q.names.Pairwise (· < ·) := by
  obtain ⟨Q, h1, _, _, _, _, _, h2, h3, _⟩ := C63_ptransform_partial true true (f := .m2) (g := .cocoa4) rfl rfl ptransformExample_read (by unfold NamedPoly.FullTerms; decide)
  exact ⟨Q, h1, h2 (.inl rfl), h3 rfl⟩

example : ptransformText true false .m2 .m2 ptransformExample = ptransformText true true .singular .m2 t!"ring R = 0, (x, y), lp;\nint noVars = 0;\npoly p = x - 3 + x^2*y;" :=
  C63_canonical (f' := .m2) (f₁' := .singular) rfl rfl rfl ptransformExample_read (P₁ := { names := [t!"x", t!"y"], terms := [(1, [1, 0]), (-3, [0, 0]), (1, [2, 1])] }) (by decide +kernel)
    (by unfold NamedPoly.FullTerms; decide) (by unfold NamedPoly.FullTerms; decide) (by decide) (by
      have h1 : ∀ a b : ℕ, expOf [t!"y", t!"x"] [a, b] = expOf [t!"x", t!"y"] [b, a] := by
        intro a b
        funext z
        by_cases hx : z = t!"x"
        · subst hx; rfl
        by_cases hy : z = t!"y"
        · subst hy; rfl
        rw [expOf_not_mem rfl (by simp [hx, hy]), expOf_not_mem rfl (by simp [hx, hy])]
      simp only [NamedPoly.monomials, List.map_cons, List.map_nil, h1]
      exact (List.reverse_perm _).symm)

/-- C63, **counterexample**: `x + x` and `2*x` are the same polynomial, but `-canon` prints them differently. -/
theorem C63_canonical_wrong : ∃ t t₁ P P₁, readPoly .m2 t = some P ∧ readPoly .m2 t₁ = some P₁ ∧ P.names = P₁.names ∧ (∀ e, P.coef e = P₁.coef e) ∧
    ptransformText true true .m2 .m2 t ≠ ptransformText true true .m2 .m2 t₁ := by
  refine ⟨t!"R = QQ[x];\np = x + x;", t!"R = QQ[x];\np = 2*x;", { names := [t!"x"], terms := [(1, [1]), (1, [1])] }, { names := [t!"x"], terms := [(2, [1])] },
    by decide +kernel, by decide +kernel, rfl, ?_, by decide +kernel⟩
  intro e
  simp only [NamedPoly.coef, List.map_cons, List.map_nil, List.sum_cons, List.sum_nil]
  split <;> rfl

/-- C63, **counterexample**: a text in the format of 4ti2 with a repeated name is read, and then the action ends in an internal error or undefined behaviour. -/
theorem C63_repeated_names : ∃ t, (∃ P, readPoly .fourti2 t = some P ∧ P.names.length = 1 ∧ P.terms = [(5, [1, 2])]) ∧
    ∀ canon sort g, polyFormat g ≠ none → ptransformText canon sort .fourti2 g t = .crash := by
  have h : readPoly .fourti2 t!"1 3\n5 1 2\n(coefficient) a a\n" = some { names := [t!"a"], terms := [(5, [1, 2])] } := by decide +kernel
  refine ⟨_, ⟨_, h, rfl, rfl⟩, fun canon sort g hg => ?_⟩
  exact ((C63_errors canon sort .fourti2 g _).2).2 ⟨hg, _, _, rfl, h, by unfold NamedPoly.FullTerms; decide⟩

example : ptransformText false false .monos .m2 ptransformExample = .error := ((C63_errors _ _ _ _ _).1).2 (.inl rfl)

end Frobby

import Verif.FileReaderMoreModel
import Verif.FileReaderLemmas

/-!
# Readers of lists of ideals, of polynomials and of instances read from a scanner what they read from texts
-/

namespace Frobby

namespace ScanProg

theorem run_integer (t : Text) : integerP.run t = readInteger t := (run_op _ _).trans (run_orRest _ _)

theorem run_nonNegative (t : Text) : nonNegativeP.run t = readNonNegative t := (run_op _ _).trans (run_orRest _ _)

theorem run_atEnd (t : Text) : atEndP.run t = some (matchEOF t, eatWhite t) := run_op _ _

theorem readInteger_white (t : Text) : readInteger (eatWhite t) = readInteger t := by unfold readInteger; rw [eatWhite_twice]

theorem readSizeT_white (t : Text) : readSizeT (eatWhite t) = readSizeT t := by unfold readSizeT; rw [readInteger_white]

/-- A reader that makes no difference between texts that are the same up to white space in front. -/
theorem upTo_of_white {β : Type} {g : Text → β} (h : ∀ t, g (eatWhite t) = g t) {t u : Text} (e : eatWhite t = eatWhite u) : g t = g u := by
  rw [← h t, e, h]

/-- A result, if the text ends after it. -/
def atEndOnly {α : Type} (x : Option (α × Text)) : Option α := x.bind fun x => if matchEOF x.2 then some x.1 else none

theorem SameUpTo.atEndOnly {α : Type} {x y : Option (α × Text)} (h : SameUpTo x y) : ScanProg.atEndOnly x = ScanProg.atEndOnly y := by
  rcases h.cases with ⟨h1, h2⟩ | ⟨a, v, u, h1, h2, h3⟩
  · rw [h1, h2]
  · rw [h1, h2]
    show (if matchEOF v = true then _ else _) = if matchEOF u = true then _ else _
    rw [upTo_of_white matchEOF_white h3]

/-! ## lists of ideals -/

theorem run_peekTwo (c d : Char) (t : Text) : ∃ r, (peekAnyP [c, d]).run t = some (peekChar c t || peekChar d t, r) ∧ eatWhite r = eatWhite t := by
  unfold peekAnyP
  simp only [run_bind, run_peek, run_ite, run_pure, Option.bind_some]
  cases peekChar c t
  · unfold peekAnyP
    simp only [run_bind, run_peek, run_ite, run_pure, Option.bind_some, peekChar_white]
    cases hd : peekChar d t
    · exact ⟨_, rfl, by rw [eatWhite_twice, eatWhite_twice]⟩
    · exact ⟨_, rfl, by rw [eatWhite_twice, eatWhite_twice]⟩
  · exact ⟨_, rfl, eatWhite_twice t⟩

theorem run_peekOne (c : Char) (t : Text) : ∃ r, (peekAnyP [c]).run t = some (peekChar c t, r) ∧ eatWhite r = eatWhite t := by
  unfold peekAnyP
  simp only [run_bind, run_peek, run_ite, run_pure, Option.bind_some]
  cases peekChar c t
  · exact ⟨_, rfl, eatWhite_twice t⟩
  · exact ⟨_, rfl, eatWhite_twice t⟩

theorem run_peekRing (f : IOFormat) (t : Text) : ∃ r, (peekRingP f).run t = some (peekRing f t, r) ∧ eatWhite r = eatWhite t := by
  cases f
  · exact run_peekTwo _ _ t
  · exact run_peekTwo _ _ t
  · exact run_peekTwo _ _ t
  · exact run_peekOne _ t
  · exact ⟨t, rfl, rfl⟩
  · exact ⟨t, rfl, rfl⟩

theorem run_ring (f : IOFormat) (hf : f ≠ .newmonos ∧ f ≠ .fourti2) (t : Text) : (ringP f).run t = readRing f t := by
  cases f
  · exact run_ringM2 t
  · exact run_ringCoCoA t
  · exact run_ringSingular t
  · exact run_ringMonos t
  · exact absurd rfl hf.1
  · exact absurd rfl hf.2

theorem run_bare (f : IOFormat) (hf : f ≠ .newmonos ∧ f ≠ .fourti2) (names : List Text) (t : Text) : (bareP names f).run t = readBare false f names t := by
  cases f
  · exact run_bareM2 _ names t
  · exact run_bareCoCoA _ names t
  · exact run_bareSingular _ names t
  · exact run_bareMonos _ names t
  · exact absurd rfl hf.1
  · exact absurd rfl hf.2

theorem readRing_white (f : IOFormat) (hf : f ≠ .newmonos ∧ f ≠ .fourti2) (t : Text) : readRing f (eatWhite t) = readRing f t := by
  cases f
  · unfold readRing readRingM2
    simp only [readIdentifier_white]
  · unfold readRing readRingCoCoA
    simp only [expectText_white]
  · unfold readRing readRingSingular
    simp only [expectText_white]
  · unfold readRing readRingMonos
    simp only [expectText_white]
  · exact absurd rfl hf.1
  · exact absurd rfl hf.2

theorem readBare_white (f : IOFormat) (hf : f ≠ .newmonos ∧ f ≠ .fourti2) (names : List Text) (t : Text) :
    readBare false f names (eatWhite t) = readBare false f names t := by
  cases f
  · unfold readBare readBareM2
    simp only [expectChar_white]
  · unfold readBare readBareCoCoA
    simp only [expectChar_white]
  · unfold readBare readBareSingular
    simp only [expectText_white]
  · unfold readBare readBareMonos
    simp only [expectChar_white]
  · exact absurd rfl hf.1
  · exact absurd rfl hf.2

theorem peekRing_white (f : IOFormat) (t : Text) : peekRing f (eatWhite t) = peekRing f t := by
  cases f <;> unfold peekRing <;> simp only [peekChar_white]

/-- A list of ideals and a ring with what is left. -/
def pairOf (x : List NamedIdeal × List Text × Text) : (List NamedIdeal × List Text) × Text := ((x.1, x.2.1), x.2.2)

theorem run_idealsLoop (f : IOFormat) (hf : f ≠ .newmonos ∧ f ≠ .fourti2) : ∀ (n : ℕ) (names : List Text) (Is : List NamedIdeal) (t u : Text),
    eatWhite t = eatWhite u → SameUpTo ((idealsLoopP f n names Is).run t) ((readIdealsLoop f n names Is u).map pairOf)
  | 0, _, _, _, _, _ => rfl
  | n + 1, names, Is, t, u, e => by
    unfold idealsLoopP readIdealsLoop
    simp only [run_bind, run_atEnd, run_ite, run_pure, Option.bind_some]
    rw [upTo_of_white matchEOF_white e]
    by_cases hm : matchEOF u = true
    · rw [if_pos hm, if_pos hm]
      show some ((Is, names), eatWhite (eatWhite t)) = some ((Is, names), eatWhite u)
      rw [eatWhite_twice, e]
    · rw [if_neg hm, if_neg hm]
      obtain ⟨r, h1, h2⟩ := run_peekRing f (eatWhite t)
      rw [eatWhite_twice, e] at h2
      rw [h1, e, peekRing_white, Option.bind_some]
      dsimp only
      have key : ∀ names', SameUpTo (((bareP names' f).run r).bind fun x => (idealsLoopP f n names' (Is ++ [x.1.release])).run x.2)
          (Option.map pairOf (match readBare false f names' u with
            | none => none
            | some (k, r') => readIdealsLoop f n names' (Is ++ [k.release]) r')) := by
        intro names'
        rw [run_bare f hf, upTo_of_white (readBare_white f hf names') h2]
        rcases readBare false f names' u with _ | ⟨k, r'⟩
        · rfl
        · exact run_idealsLoop f hf n names' _ r' r' rfl
      by_cases hp : peekRing f u = true
      · simp only [hp, if_true, run_ring f hf]
        rw [upTo_of_white (readRing_white f hf) h2]
        rcases readRing f u with _ | ⟨names', r'⟩
        · rfl
        · simp only [Option.bind_some, run_bare f hf]
          rcases readBare false f names' r' with _ | ⟨k, r''⟩
          · rfl
          · exact run_idealsLoop f hf n names' _ r'' r'' rfl
      · simp only [Bool.not_eq_true] at hp
        simp only [hp, Bool.false_eq_true, if_false]
        exact key names

theorem run_idealsNewMonos : ∀ (n : ℕ) (Is : List NamedIdeal) (t : Text),
    (idealsNewMonosP n Is).run t = (readIdealsNewMonos n Is t).map pairOf
  | 0, _, _ => rfl
  | n + 1, Is, t => by
    unfold idealsNewMonosP readIdealsNewMonos
    simp only [run_bind, run_newMonos, run_match, run_ite, run_pure, Option.bind_some]
    rcases readIdealNoLeftParen false t with _ | ⟨k, r⟩
    · rfl
    · simp only [Option.bind_some]
      rcases matchChar '(' r with ⟨_ | _, r'⟩
      · rfl
      · exact run_idealsNewMonos n _ r'

theorem readIdealNoLeftParen_white (t : Text) : readIdealNoLeftParen false (eatWhite t) = readIdealNoLeftParen false t := by
  unfold readIdealNoLeftParen
  simp only [expectText_white]

theorem run_ideals (f : IOFormat) (hf : f ≠ .fourti2) (t : Text) : SameUpTo ((idealsP f).run t) ((readIdealsFrom f t).map pairOf) := by
  have common : ∀ f : IOFormat, f ≠ .newmonos ∧ f ≠ .fourti2 → SameUpTo ((do
      let names ← ringP f
      if ← atEndP then pure ([], names)
      else do
        let k ← bareP names f
        let n ← leftP
        idealsLoopP f (n + 1) names [k.release] : ScanProg (List NamedIdeal × List Text)).run t) (Option.map pairOf (do
      let (names, r) ← readRing f t
      if matchEOF r then some ([], names, r)
      else do
        let (k, r) ← readBare false f names r
        readIdealsLoop f (r.length + 1) names [k.release] r)) := by
    intro f hf
    simp only [run_bind, run_ring f hf, Option.bind_eq_bind]
    rcases readRing f t with _ | ⟨names, r⟩
    · rfl
    · simp only [Option.bind_some, run_atEnd, run_ite, run_pure, run_bind, run_bare f hf, readBare_white f hf, run_left]
      by_cases hm : matchEOF r = true
      · rw [if_pos hm, if_pos hm]
        show some (([], names), eatWhite (eatWhite r)) = some (([], names), eatWhite r)
        rw [eatWhite_twice]
      · rw [if_neg hm, if_neg hm]
        rcases readBare false f names r with _ | ⟨k, r'⟩
        · rfl
        · exact run_idealsLoop f hf _ _ _ _ _ rfl
  cases f
  · exact common .m2 (by decide)
  · exact common .cocoa4 (by decide)
  · exact common .singular (by decide)
  · exact common .monos (by decide)
  · unfold idealsP readIdealsFrom
    simp only [run_bind, run_expect, Option.bind_eq_bind, Option.bind_map, Function.comp_def]
    cases expectChar '(' t with
    | none => rfl
    | some r =>
      simp only [Option.bind_some, run_left]
      obtain ⟨v, h1, h2⟩ := run_peekTwo 'l' 'L' r
      rw [h1]
      simp only [Option.bind_some, run_ite, run_bind, run_ringNewMonos, run_pure]
      have hw : ∀ t, readRingNewMonos (eatWhite t) = readRingNewMonos t := fun t => by
        unfold readRingNewMonos
        simp only [expectText_white]
      rw [upTo_of_white hw h2]
      by_cases hp : (peekChar 'l' r || peekChar 'L' r) = true
      · rw [if_pos hp, if_pos hp]
        rcases readRingNewMonos r with _ | ⟨names, r'⟩ <;> rfl
      · rw [if_neg hp, if_neg hp, run_idealsNewMonos]
        refine .of_eq ?_
        cases r.length with
        | zero => rfl
        | succ n =>
          unfold readIdealsNewMonos
          rw [upTo_of_white readIdealNoLeftParen_white h2]
  · exact absurd rfl hf

/-! ## instances -/

theorem run_anyTerm (f : IOFormat) : RunsUpTo (anyTermP f) (readTermConsumer f) := by
  cases f
  · exact (run_termM2 false).upTo
  · exact run_termCoCoA false
  · exact (run_term false).upTo
  · exact (run_term false).upTo
  · exact (run_term false).upTo
  · exact (run_term4ti2 false).upTo

theorem readTermConsumer_white (f : IOFormat) (k : InputConsumer) (t : Text) : SameUpTo (readTermConsumer f k (eatWhite t)) (readTermConsumer f k t) := by
  have hp : InputConsumer.readTermProduct false k (eatWhite t) = InputConsumer.readTermProduct false k t := by
    unfold InputConsumer.readTermProduct
    rw [matchChar_white]
  cases f
  · refine .of_eq ?_
    show InputConsumer.readTermM2 false k (eatWhite t) = InputConsumer.readTermM2 false k t
    unfold InputConsumer.readTermM2
    rw [hp]
  · refine .of_eq ?_
    show InputConsumer.readTermCoCoA false k (eatWhite t) = InputConsumer.readTermCoCoA false k t
    unfold InputConsumer.readTermCoCoA
    rw [matchChar_white]
  · exact .of_eq hp
  · exact .of_eq hp
  · exact .of_eq hp
  · show SameUpTo (InputConsumer.readTerm4ti2 false k (eatWhite t)) (InputConsumer.readTerm4ti2 false k t)
    unfold InputConsumer.readTerm4ti2
    cases k.names.length with
    | zero =>
      show some (k.beginTerm, eatWhite (eatWhite t)) = some (k.beginTerm, eatWhite t)
      rw [eatWhite_twice]
    | succ n =>
      refine .of_eq ?_
      unfold readTimes
      rw [show InputConsumer.readExponent4ti2 false (0, k.beginTerm) (eatWhite t) = InputConsumer.readExponent4ti2 false (0, k.beginTerm) t by
        unfold InputConsumer.readExponent4ti2
        rw [matchChar_white]]

theorem run_dual (f : IOFormat) (t : Text) : atEndOnly ((dualP f).run t) = readDualInstance f t := by
  unfold dualP readDualInstance readTerm
  simp only [run_bind, run_ite, run_pure, run_atEnd]
  rcases (run_consumer false f t).cases with ⟨h1, h2⟩ | ⟨k, v, u, h1, h2, h3⟩
  · rw [h1, h2]
    rfl
  · rw [h1, h2]
    simp only [Option.bind_some]
    rw [upTo_of_white matchEOF_white h3]
    by_cases hm : matchEOF u = true
    · rw [if_pos hm, if_pos hm]
      show (if matchEOF (eatWhite v) = true then _ else _) = _
      rw [matchEOF_white, upTo_of_white matchEOF_white h3, if_pos hm]
    · rw [if_neg hm, if_neg hm]
      have hs : SameUpTo ((anyTermP f (.beginIdeal k.names)).run (eatWhite v)) (readTermConsumer f (.beginIdeal k.names) u) := by
        rw [h3]
        exact (run_anyTerm f _ _).trans (readTermConsumer_white f _ u)
      rcases hs.cases with ⟨g1, g2⟩ | ⟨q, v', u', g1, g2, g3⟩
      · rw [g1, g2]
        rfl
      · rw [g1, g2]
        show (if matchEOF v' = true then _ else _) = if matchEOF u' = true then _ else _
        rw [upTo_of_white matchEOF_white g3]

theorem run_vector : ∀ (n : ℕ) (t : Text), (vectorP n).run t = readVector n t
  | 0, _ => rfl
  | n + 1, t => by
    unfold vectorP readVector
    simp only [run_bind, run_integer, run_pure]
    refine congrArg _ (funext fun x => ?_)
    rw [run_vector n]
    cases readVector n x.2 <;> rfl

theorem readVector_white (n : ℕ) (t : Text) : SameUpTo (readVector n (eatWhite t)) (readVector n t) := by
  cases n with
  | zero =>
    show some (_, eatWhite (eatWhite t)) = some (_, eatWhite t)
    rw [eatWhite_twice]
  | succ n =>
    unfold readVector
    rw [readInteger_white]
    exact .of_eq rfl

theorem run_optimize (f : IOFormat) (t : Text) : atEndOnly ((optimizeP f).run t) = readOptimizeInstance f t := by
  unfold optimizeP readOptimizeInstance
  simp only [run_bind, run_ite, run_pure, run_atEnd, run_vector]
  rcases (run_consumer false f t).cases with ⟨h1, h2⟩ | ⟨k, v, u, h1, h2, h3⟩
  · rw [h1, h2]
    rfl
  · rw [h1, h2]
    simp only [Option.bind_some]
    rw [upTo_of_white matchEOF_white h3]
    by_cases hm : matchEOF u = true
    · rw [if_pos hm, if_pos hm]
      show (if matchEOF (eatWhite v) = true then _ else _) = _
      rw [matchEOF_white, upTo_of_white matchEOF_white h3, if_pos hm]
    · rw [if_neg hm, if_neg hm, h3]
      rcases (readVector_white k.release.names.length u).cases with ⟨g1, g2⟩ | ⟨q, v', u', g1, g2, g3⟩
      · rw [g1, g2]
        rfl
      · rw [g1, g2]
        show (if matchEOF v' = true then _ else _) = if matchEOF u' = true then _ else _
        rw [upTo_of_white matchEOF_white g3]

theorem run_bigIntegers : ∀ (n : ℕ) (t : Text), ((bigIntegersP n).run t).map Prod.fst = readBigIntegers n t ∧
    ∀ x, (bigIntegersP n).run t = some x → matchEOF x.2 = true
  | 0, _ => ⟨rfl, fun _ h => by cases h⟩
  | n + 1, t => by
    unfold bigIntegersP readBigIntegers
    simp only [run_bind, run_atEnd, run_ite, run_pure, run_integer, run_fail, Option.bind_some, readInteger_white]
    by_cases hm : matchEOF t = true
    · rw [if_pos hm, if_pos hm]
      refine ⟨rfl, fun x h => ?_⟩
      cases h
      rw [matchEOF_white]
      exact hm
    · rw [if_neg hm, if_neg hm]
      rcases readInteger t with _ | ⟨z, r⟩
      · exact ⟨rfl, fun _ h => by cases h⟩
      · simp only [Option.bind_some]
        by_cases hz : z ≤ 1
        · rw [if_pos hz, if_pos hz]
          exact ⟨rfl, fun _ h => by cases h⟩
        · rw [if_neg hz, if_neg hz]
          obtain ⟨h1, h2⟩ := run_bigIntegers n r
          rw [← h1]
          rcases hx : (bigIntegersP n).run r with _ | ⟨l, r'⟩
          · exact ⟨rfl, fun _ h => by cases h⟩
          · refine ⟨rfl, fun x h => ?_⟩
            cases h
            exact h2 (l, r') hx

/-- A number takes at least one character. -/
theorem readInteger_shorter {t : Text} {p : ℤ × Text} (h : readInteger t = some p) : p.2.length < t.length := by
  rw [BufScanner.readInteger_eq] at h
  split at h
  · cases h
  · rename_i hn
    cases h
    have h1 := congrArg List.length (List.takeWhile_append_dropWhile (p := isDigit) (l := afterSign (eatWhite t)))
    rw [List.length_append] at h1
    have h2 := List.length_pos_iff.2 hn
    have h3 := (afterSign_suffix (eatWhite t)).length_le
    have h4 := (eatWhite_suffix t).length_le
    show (List.dropWhile isDigit (afterSign (eatWhite t))).length < _
    omega

/-- The bound on the number of integers makes no difference if it is large enough. -/
theorem readBigIntegers_bound : ∀ (n m : ℕ) (t : Text), t.length < n → t.length < m → readBigIntegers n t = readBigIntegers m t
  | 0, _, _, h, _ => absurd h (Nat.not_lt_zero _)
  | _, 0, _, _, h => absurd h (Nat.not_lt_zero _)
  | n + 1, m + 1, t, hn, hm => by
    unfold readBigIntegers
    split
    · rfl
    · cases hi : readInteger t with
      | none => rfl
      | some p =>
        have := readInteger_shorter hi
        simp only [Option.bind_some]
        rw [readBigIntegers_bound n m p.2 (by omega) (by omega)]

theorem readBigIntegers_space (n : ℕ) (t : Text) : readBigIntegers n (' ' :: t) = readBigIntegers n t := by
  cases n with
  | zero => rfl
  | succ n =>
    unfold readBigIntegers
    rfl

theorem readFrobenius_space (t : Text) : readFrobeniusInstance (' ' :: t) = readFrobeniusInstance t := by
  unfold readFrobeniusInstance
  rw [readBigIntegers_space, List.length_cons, readBigIntegers_bound (t.length + 1 + 1) (t.length + 1) t (by omega) (by omega)]

theorem run_frobenius (t : Text) : (frobeniusP.run t).map Prod.fst = readFrobeniusInstance t ∧ ∀ x, frobeniusP.run t = some x → matchEOF x.2 = true := by
  unfold frobeniusP readFrobeniusInstance
  simp only [run_bind, run_left, run_ite, run_pure, run_fail, Option.bind_some]
  obtain ⟨h1, h2⟩ := run_bigIntegers (t.length + 1) t
  rw [← h1]
  rcases hx : (bigIntegersP (t.length + 1)).run t with _ | ⟨l, r⟩
  · exact ⟨rfl, fun _ h => by cases h⟩
  · simp only [Option.bind_some, Option.map_some]
    by_cases hl : l = []
    · rw [if_pos hl, if_pos hl]
      exact ⟨rfl, fun _ h => by cases h⟩
    · rw [if_neg hl, if_neg hl]
      by_cases hg : gcdLoop l ≠ 1
      · rw [if_pos hg, if_pos hg]
        exact ⟨rfl, fun _ h => by cases h⟩
      · rw [if_neg hg, if_neg hg]
        refine ⟨rfl, fun x h => ?_⟩
        cases h
        exact h2 _ hx

theorem atEndOnly_of_end {α : Type} {x : Option (α × Text)} {y : Option α} (h : x.map Prod.fst = y) (he : ∀ p, x = some p → matchEOF p.2 = true) :
    atEndOnly x = y := by
  subst h
  rcases x with _ | ⟨a, r⟩
  · rfl
  · show (if matchEOF r = true then some a else none) = some a
    rw [if_pos (he _ rfl)]

theorem run_nonNegatives : ∀ (n : ℕ) (t : Text), (nonNegativesP n).run t = readNonNegatives n t
  | 0, _ => rfl
  | n + 1, t => by
    unfold nonNegativesP readNonNegatives
    simp only [run_bind, run_nonNegative, run_pure]
    refine congrArg _ (funext fun x => ?_)
    rw [run_nonNegatives n]
    cases readNonNegatives n x.2 <;> rfl

theorem run_grobnerTerm (n : ℕ) (t : Text) : (grobnerTermP n).run t = readGrobnerTerm n t := by
  unfold grobnerTermP readGrobnerTerm
  simp only [run_bind, run_nonNegative, run_ite, run_fail, run_nonNegatives]

theorem run_grobnerTerms (n : ℕ) : ∀ (k : ℕ) (t : Text), (grobnerTermsP n k).run t = readGrobnerTerms n k t
  | 0, _ => rfl
  | k + 1, t => by
    unfold grobnerTermsP readGrobnerTerms
    simp only [run_bind, run_grobnerTerm, run_pure]
    refine congrArg _ (funext fun x => ?_)
    rw [run_grobnerTerms n k]
    cases readGrobnerTerms n k x.2 <;> rfl

theorem run_grobner (t : Text) : grobnerP.run t = readGrobnerBasis t := by
  unfold grobnerP readGrobnerBasis
  simp only [run_bind, run_size, run_ite, run_fail, run_pure, run_grobnerTerms]
  refine congrArg _ (funext fun x => congrArg _ (funext fun y => if_congr Iff.rfl rfl ?_))
  cases readGrobnerTerms (y.1 - 1) x.1 y.2 <;> rfl

theorem run_grobnerInstance (t : Text) : (grobnerInstanceP.run t).map Prod.fst = readFrobeniusInstanceWithGrobnerBasis t ∧
    ∀ x, grobnerInstanceP.run t = some x → matchEOF x.2 = true := by
  unfold grobnerInstanceP readFrobeniusInstanceWithGrobnerBasis
  simp only [run_bind, run_grobner, run_ite, run_fail, run_pure]
  rcases readGrobnerBasis t with _ | ⟨I, r⟩
  · exact ⟨rfl, fun _ h => by cases h⟩
  · simp only [Option.bind_some]
    obtain ⟨h1, h2⟩ := run_frobenius r
    rw [← h1]
    rcases hx : frobeniusP.run r with _ | ⟨a, r'⟩
    · exact ⟨rfl, fun _ h => by cases h⟩
    · simp only [Option.bind_some, Option.map_some]
      by_cases hl : a.length ≠ I.names.length + 1
      · rw [if_pos hl, if_pos hl]
        exact ⟨rfl, fun _ h => by cases h⟩
      · rw [if_neg hl, if_neg hl]
        refine ⟨rfl, fun x h => ?_⟩
        cases h
        exact h2 _ hx

/-! ## polynomials -/

theorem run_polyExponent (var : ℕ) (term : List ℕ) (t : Text) : (polyExponentP var term).run t = readExponent var term t := by
  unfold polyExponentP readExponent
  simp only [run_ite, run_bind, run_match, run_integer, run_fail, run_pure, Option.bind_some]
  refine if_congr Iff.rfl rfl ?_
  rcases matchChar '^' t with ⟨_ | _, r⟩
  · rfl
  · simp only [if_true]
    rcases readInteger r with _ | ⟨e, r⟩ <;> rfl

theorem run_varPower (names : List Text) : Runs (varPowerP names) (readVarPower names) := by
  intro term t
  unfold varPowerP readVarPower
  simp only [run_bind, run_identifier, run_ofOption, run_polyExponent]
  rcases readIdentifier t with _ | ⟨x, r⟩
  · rfl
  · simp only [Option.bind_some]
    cases names.idxOf? x <;> rfl

theorem run_varPowerCoCoA : Runs varPowerCoCoAP readVarPowerCoCoA := by
  intro term t
  unfold varPowerCoCoAP readVarPowerCoCoA
  simp only [run_bind, run_expect, run_size, run_fail, run_ite, run_polyExponent]
  cases expectChar 'x' t with
  | none => rfl
  | some r1 =>
    simp only [Option.map_some, Option.bind_some]
    cases expectChar '[' r1 with
    | none => rfl
    | some r2 =>
      simp only [Option.map_some, Option.bind_some]
      rcases readSizeT r2 with _ | ⟨var, r⟩
      · rfl
      · simp only [Option.bind_some]
        cases expectChar ']' r <;> rfl

theorem run_star {σ : Type} {p : σ → ScanProg σ} {f : σ → Text → Option (σ × Text)} (h : Runs p f) :
    ∀ (n : ℕ) (s : σ) (t : Text), (starP p n s).run t = readWhileStar f n s t
  | 0, _, _ => rfl
  | n + 1, s, t => by
    unfold starP readWhileStar
    simp only [run_bind, run_match, run_ite, run_pure, Option.bind_some]
    rcases matchChar '*' t with ⟨_ | _, r⟩
    · rfl
    · simp only [if_true, h s r]
      rcases f s r with _ | ⟨s', r'⟩
      · rfl
      · exact run_star h n s' r'

theorem run_peekX {σ : Type} {p : σ → ScanProg σ} {f : σ → Text → Option (σ × Text)} (h : Runs p f) (hw : ∀ s t, f s (eatWhite t) = f s t) :
    ∀ (n : ℕ) (s : σ) (t : Text), SameUpTo ((peekXP p n s).run t) (readWhilePeekX f n s t)
  | 0, _, _ => rfl
  | n + 1, s, t => by
    unfold peekXP readWhilePeekX
    simp only [run_bind, run_peek, run_ite, run_pure, Option.bind_some, h s _, hw]
    cases peekChar 'x' t
    · show some (s, eatWhite (eatWhite t)) = some (s, eatWhite t)
      rw [eatWhite_twice]
    · simp only [if_true]
      rcases f s t with _ | ⟨s', r⟩
      · rfl
      · exact run_peekX h hw n s' r

theorem peekChar_iff (c : Char) (t : Text) : (matchChar c t).1 = peekChar c t := by
  unfold matchChar peekChar nextIs
  cases eatWhite t with
  | nil => rfl
  | cons d r =>
    by_cases hd : d = c
    · simp [hd]
    · simp [hd]

theorem run_sign (first : Bool) (t : Text) : SameUpTo ((signP first).run t) (readSign first t) := by
  have tail : ∀ (positive : Bool) (u v : Text), eatWhite u = eatWhite v →
      SameUpTo (if (matchChar '+' u).1 = true then none else if (matchChar '-' (matchChar '+' u).2).1 = true then none
          else some (positive, (matchChar '-' (matchChar '+' u).2).2))
        (if peekChar '+' v || peekChar '-' v then none else some (positive, v)) := by
    intro positive u v e
    rw [matchChar_upTo e, peekChar_iff]
    by_cases hp : peekChar '+' v = true
    · simp only [hp, if_true, Bool.true_or]
      rfl
    · have h1 : (matchChar '+' v).2 = eatWhite v := matchChar_no (by rw [peekChar_iff]; exact hp)
      rw [if_neg hp, h1, matchChar_white, peekChar_iff]
      simp only [Bool.not_eq_true] at hp
      simp only [hp, Bool.false_or]
      by_cases hm : peekChar '-' v = true
      · rw [if_pos hm, if_pos hm]
        rfl
      · have h2 : (matchChar '-' v).2 = eatWhite v := matchChar_no (by rw [peekChar_iff]; exact hm)
        rw [if_neg hm, if_neg hm, h2]
        show some (positive, eatWhite (eatWhite v)) = some (positive, eatWhite v)
        rw [eatWhite_twice]
  unfold signP readSign
  rw [run_bind]
  cases first
  · unfold oneSignP
    simp only [run_bind, run_match, run_ite, run_pure, run_fail, run_expect, Option.bind_some, Bool.false_eq_true, if_false, true_and, if_true]
    by_cases hp : (matchChar '+' t).1 = true
    · rw [if_pos hp, if_pos hp]
      exact tail _ _ _ rfl
    · rw [if_neg hp, if_neg hp, matchChar_no hp, matchChar_white]
      by_cases hm : (matchChar '-' t).1 = true
      · rw [if_pos hm, if_pos hm]
        exact tail _ _ _ rfl
      · rw [if_neg hm, if_neg hm, matchChar_no hm]
        have : expectChar '+' (eatWhite t) = none := by
          rw [expectChar_white]
          unfold expectChar
          unfold matchChar at hp
          revert hp
          cases eatWhite t with
          | nil => exact fun _ => rfl
          | cons d r =>
            intro hp
            by_cases hd : d = '+'
            · simp [hd] at hp
            · simp [hd]
        rw [this]
        rfl
  · unfold oneSignP
    simp only [run_bind, run_match, run_ite, run_pure, run_fail, Option.bind_some, if_true, false_and, if_false, Bool.true_eq_false]
    by_cases hm : (matchChar '-' t).1 = true
    · rw [if_pos hm, if_pos hm]
      exact tail _ _ _ rfl
    · rw [if_neg hm, if_neg hm, matchChar_no hm]
      exact tail _ _ _ (eatWhite_twice t)

theorem readVarPower_white (names : List Text) (term : List ℕ) (t : Text) : readVarPower names term (eatWhite t) = readVarPower names term t := by
  unfold readVarPower
  rw [readIdentifier_white]

theorem readVarPowerCoCoA_white (term : List ℕ) (t : Text) : readVarPowerCoCoA term (eatWhite t) = readVarPowerCoCoA term t := by
  unfold readVarPowerCoCoA
  rw [expectChar_white]

theorem run_body (names : List Text) (t : Text) : (bodyP names).run t = readCoefBody names t := by
  unfold bodyP readCoefBody
  simp only [run_bind, run_peekId, run_ite, run_pure, run_left, run_integer, Option.bind_some, run_varPower names _ _, run_star (run_varPower names),
    readVarPower_white, readInteger_white, Option.bind_eq_bind, Option.bind_map, Function.comp_def]

theorem run_bodyCoCoA (names : List Text) (t : Text) : SameUpTo ((bodyCoCoAP names).run t) (readCoefBodyCoCoA names t) := by
  unfold bodyCoCoAP readCoefBodyCoCoA
  simp only [run_bind, run_peekId, run_ite, run_pure, run_left, run_integer, Option.bind_some, run_varPowerCoCoA _ _,
    readVarPowerCoCoA_white, readInteger_white, Option.bind_eq_bind, Option.bind_map, Function.comp_def]
  have tail : ∀ (c : ℤ) (n : ℕ) (term : List ℕ) (r : Text),
      SameUpTo (((peekXP varPowerCoCoAP n term).run r).bind fun x => some ((c, x.1), x.2))
        ((readWhilePeekX readVarPowerCoCoA n term r).bind fun x => some ((c, x.1), x.2)) := by
    intro c n term r
    rcases (run_peekX run_varPowerCoCoA readVarPowerCoCoA_white n term r).cases with ⟨g1, g2⟩ | ⟨q, v', u', g1, g2, g3⟩
    · rw [g1, g2]
      rfl
    · rw [g1, g2]
      show some (_, eatWhite v') = some (_, eatWhite u')
      rw [g3]
  split
  · rcases readVarPowerCoCoA (List.replicate names.length 0) t with _ | ⟨term, r⟩
    · rfl
    · exact tail _ _ _ _
  · rcases readInteger t with _ | ⟨c, r⟩
    · rfl
    · exact tail _ _ _ _

theorem readCoefBody_white (names : List Text) (t : Text) : readCoefBody names (eatWhite t) = readCoefBody names t := by
  unfold readCoefBody
  rw [peekIdentifier_white, readVarPower_white, readInteger_white]

theorem readCoefBodyCoCoA_white (names : List Text) (t : Text) : readCoefBodyCoCoA names (eatWhite t) = readCoefBodyCoCoA names t := by
  unfold readCoefBodyCoCoA
  rw [peekIdentifier_white, readVarPowerCoCoA_white, readInteger_white]

theorem run_signed {p : ScanProg (ℤ × List ℕ)} {f : Text → Option ((ℤ × List ℕ) × Text)} (h : ∀ t, SameUpTo (p.run t) (f t))
    (hw : ∀ t, f (eatWhite t) = f t) (first : Bool) (t : Text) : SameUpTo ((signedP p first).run t) (readSigned f first t) := by
  unfold signedP readSigned
  simp only [run_bind, run_pure]
  rcases (run_sign first t).cases with ⟨g1, g2⟩ | ⟨q, v, u, g1, g2, g3⟩
  · rw [g1, g2]
    rfl
  · rw [g1, g2]
    simp only [Option.bind_some]
    have := h v
    rw [upTo_of_white hw g3] at this
    rcases this.cases with ⟨k1, k2⟩ | ⟨x, v', u', k1, k2, k3⟩
    · rw [k1, k2]
      rfl
    · rw [k1, k2]
      show some (_, eatWhite v') = some (_, eatWhite u')
      rw [k3]

theorem run_polyTerms {p : Bool → ScanProg (ℤ × List ℕ)} {f : Bool → Text → Option ((ℤ × List ℕ) × Text)} (h : ∀ b t, SameUpTo ((p b).run t) (f b t)) :
    ∀ (n : ℕ) (first : Bool) (ps : List (ℤ × List ℕ)) (t : Text), (polyTermsP p n first ps).run t = readPolyTerms f n first ps t
  | 0, _, _, _ => rfl
  | n + 1, first, ps, t => by
    unfold polyTermsP readPolyTerms
    simp only [run_bind, run_match, run_ite, run_pure, Option.bind_some]
    rcases (h first t).cases with ⟨g1, g2⟩ | ⟨q, v, u, g1, g2, g3⟩
    · rw [g1, g2]
      rfl
    · rw [g1, g2]
      simp only [Option.bind_some, matchChar_upTo g3]
      rcases matchChar ';' u with ⟨_ | _, r⟩
      · exact run_polyTerms h n false _ r
      · rfl

theorem run_barePoly (names : List Text) (f : PolyFormat) (t : Text) : (barePolyP names f).run t = readBarePoly names t f := by
  have h1 := run_signed (fun t => .of_eq (run_body names t)) (readCoefBody_white names)
  have h2 := run_signed (run_bodyCoCoA names) (readCoefBodyCoCoA_white names)
  cases f <;> unfold barePolyP readBarePoly readCoefTerm readCoefTermCoCoA <;>
    simp only [run_bind, run_expect, run_text, run_left, run_fail, Option.bind_some, Option.bind_map, Function.comp_def, Option.bind_eq_bind,
      run_polyTerms h1, run_polyTerms h2]

theorem run_polyExponent4ti2 : Runs polyExponent4ti2P readExponentNonNegative := by
  intro term t
  unfold polyExponent4ti2P readExponentNonNegative
  simp only [run_bind, run_nonNegative, run_pure]
  cases readNonNegative t <;> rfl

theorem run_polyTerm4ti2 (n : ℕ) : Runs (polyTerm4ti2P n) (readPolyTerm4ti2 n) := by
  intro ps t
  unfold polyTerm4ti2P readPolyTerm4ti2
  simp only [run_bind, run_integer, run_pure, run_times run_polyExponent4ti2, Option.bind_eq_bind]

theorem run_nameAdd : Runs nameAddP readNameAdd := by
  intro names t
  unfold nameAddP readNameAdd
  simp only [run_bind, run_identifier, run_pure]
  cases readIdentifier t <;> rfl

theorem readTimes_nameAdd_white (n : ℕ) (names : List Text) (t : Text) :
    SameUpTo (readTimes readNameAdd n names (eatWhite t)) (readTimes readNameAdd n names t) := by
  cases n with
  | zero =>
    show some (names, eatWhite (eatWhite t)) = some (names, eatWhite t)
    rw [eatWhite_twice]
  | succ n =>
    unfold readTimes
    rw [show readNameAdd names (eatWhite t) = readNameAdd names t by unfold readNameAdd; rw [readIdentifier_white]]
    exact .of_eq rfl

theorem run_poly4ti2 (t : Text) : SameUpTo (poly4ti2P.run t) (readPoly4ti2 t) := by
  unfold poly4ti2P readPoly4ti2
  simp only [run_bind, run_size, Option.bind_eq_bind]
  rcases readSizeT t with _ | ⟨n, r⟩
  · rfl
  simp only [Option.bind_some]
  rcases readSizeT r with _ | ⟨m, r⟩
  · rfl
  simp only [Option.bind_some]
  by_cases hm : m = 0
  · rw [if_pos hm, if_pos hm]
    rfl
  rw [if_neg hm, if_neg hm]
  simp only [run_bind, run_times (run_polyTerm4ti2 (m - 1)), pure]
  rcases readTimes (readPolyTerm4ti2 (m - 1)) n [] r with _ | ⟨terms, r⟩
  · rfl
  simp only [Option.bind_some, run_match, run_ite, run_bind, run_done, run_text, run_expect, run_peekId, run_times run_nameAdd]
  have tail : ∀ r, SameUpTo
      (if peekIdentifier r = true then (readTimes readNameAdd (m - 1) [] (eatWhite r)).bind fun x => some (({ names := x.1, terms := terms } : NamedPoly), x.2)
        else some ({ names := defaultNames (m - 1), terms := terms }, eatWhite r))
      (if peekIdentifier r = true then (readTimes readNameAdd (m - 1) [] r).bind fun x => some (({ names := x.1, terms := terms } : NamedPoly), x.2)
        else some ({ names := defaultNames (m - 1), terms := terms }, r)) := by
    intro r
    split
    · rcases (readTimes_nameAdd_white (m - 1) [] r).cases with ⟨h1, h2⟩ | ⟨a, v, u, h1, h2, h3⟩
      · rw [h1, h2]
        rfl
      · rw [h1, h2]
        show some (_, eatWhite v) = some (_, eatWhite u)
        rw [h3]
    · show some (_, eatWhite (eatWhite r)) = some (_, eatWhite r)
      rw [eatWhite_twice]
  by_cases h : (matchChar '(' r).1 = true
  · rw [if_pos h, if_pos h]
    cases expectText t!"coefficient" (matchChar '(' r).2 with
    | none => rfl
    | some r1 =>
      simp only [Option.map_some, Option.bind_some]
      cases expectChar ')' r1 with
      | none => rfl
      | some r2 => exact tail r2
  · rw [if_neg h, if_neg h, matchChar_no h, expectText_white]
    cases expectText t!"(coefficient)" r with
    | none => rfl
    | some r0 =>
      simp only [Option.map_some, Option.bind_some]
      cases expectText t!"coefficient" r0 with
      | none => rfl
      | some r1 =>
        simp only [Option.map_some, Option.bind_some]
        cases expectChar ')' r1 with
        | none => rfl
        | some r2 => exact tail r2

theorem run_poly (f : PolyFormat) (t : Text) : atEndOnly ((polyP f).run t) = readPoly f t := by
  unfold polyP readPoly
  by_cases hf : f = .fourti2
  · rw [if_pos hf, if_pos hf]
    exact (run_poly4ti2 t).atEndOnly
  · rw [if_neg hf, if_neg hf]
    have hr : ∀ t, (ringP f.io).run t = readRing f.io t := run_ring _ (by cases f <;> first | exact absurd rfl hf | decide)
    unfold atEndOnly
    simp only [run_bind, run_pure, hr, run_barePoly, Option.bind_eq_bind, Option.bind_assoc]

/-! ## white space in front -/

theorem readIdeals_white (f : IOFormat) (hf : f ≠ .fourti2) (t : Text) : readIdeals f (eatWhite t) = readIdeals f t := by
  unfold readIdeals
  congr 1
  cases f
  · simp only [readIdealsFrom, readRing_white .m2 (by decide)]
  · simp only [readIdealsFrom, readRing_white .cocoa4 (by decide)]
  · simp only [readIdealsFrom, readRing_white .singular (by decide)]
  · simp only [readIdealsFrom, readRing_white .monos (by decide)]
  · simp only [readIdealsFrom, expectChar_white]
  · exact absurd rfl hf

theorem readPoly_white (f : PolyFormat) (t : Text) : readPoly f (eatWhite t) = readPoly f t := by
  unfold readPoly readPoly4ti2
  rw [readSizeT_white]
  by_cases hf : f = .fourti2
  · rw [if_pos hf, if_pos hf]
  · rw [if_neg hf, if_neg hf, readRing_white _ (by cases f <;> first | exact absurd rfl hf | decide)]

theorem space_of_white {β : Type} {g : Text → β} (h : ∀ t, g (eatWhite t) = g t) (t : Text) : g (' ' :: t) = g t := upTo_of_white h rfl

theorem run_ideals_white (f : IOFormat) (t : Text) : (idealsP f).run (eatWhite t) = (idealsP f).run t := by
  cases f
  · simp only [idealsP, run_bind, run_ring .m2 (by decide), readRing_white .m2 (by decide)]
  · simp only [idealsP, run_bind, run_ring .cocoa4 (by decide), readRing_white .cocoa4 (by decide)]
  · simp only [idealsP, run_bind, run_ring .singular (by decide), readRing_white .singular (by decide)]
  · simp only [idealsP, run_bind, run_ring .monos (by decide), readRing_white .monos (by decide)]
  · simp only [idealsP, run_bind, run_expect, expectChar_white]
  · rfl

theorem run_consumer_white (f : IOFormat) (t : Text) : (consumerP false f).run (eatWhite t) = (consumerP false f).run t := by
  cases f <;> unfold consumerP
  · unfold ringM2P
    simp only [run_bind, run_identifier, readIdentifier_white]
  · unfold ringCoCoAP
    simp only [run_bind, run_text, expectText_white]
  · unfold ringSingularP
    simp only [run_bind, run_text, expectText_white]
  · unfold ringMonosP
    simp only [run_bind, run_text, expectText_white]
  · simp only [run_bind, run_expect, expectChar_white]
  · simp only [run_bind, run_size, readSizeT_white]

theorem readText_format {α : Type} {p : IOFormat → ScanProg α} (h : ∀ f t, (p f).run (eatWhite t) = (p f).run t) (format : Option IOFormat) (t : Text) :
    dropRest ((formatP p format).readText (' ' :: t)) = dropRest ((p (format.getD (autoDetect t))).readText (' ' :: t)) := by
  cases format with
  | some f => rfl
  | none =>
    obtain ⟨r, h1, h2⟩ := run_detect (' ' :: t)
    rw [readText_run, readText_run]
    show (((detectP >>= p).run (' ' :: t)).bind _) = _
    rw [run_bind, h1, Option.bind_some, upTo_of_white (h _) h2, show autoDetect (' ' :: t) = autoDetect t from rfl]
    rfl

theorem run_dual_white (f : IOFormat) (t : Text) : (dualP f).run (eatWhite t) = (dualP f).run t := by
  unfold dualP
  simp only [run_bind, run_consumer_white]

theorem run_optimize_white (f : IOFormat) (t : Text) : (optimizeP f).run (eatWhite t) = (optimizeP f).run t := by
  unfold optimizeP
  simp only [run_bind, run_consumer_white]

theorem readText_ideals (f : IOFormat) (hf : f ≠ .fourti2) (t : Text) : dropRest ((idealsP f).readText (' ' :: t)) = readIdeals f t := by
  rw [readText_run, ← space_of_white (readIdeals_white f hf)]
  refine (run_ideals f hf (' ' :: t)).atEndOnly.trans ?_
  unfold readIdeals atEndOnly
  cases readIdealsFrom f (' ' :: t) <;> rfl

theorem readText_dual (f : IOFormat) (t : Text) : dropRest ((dualP f).readText (' ' :: t)) = readDualInstance f t := by
  rw [readText_run, ← run_dual, space_of_white (run_dual_white f)]
  rfl

theorem readText_optimize (f : IOFormat) (t : Text) : dropRest ((optimizeP f).readText (' ' :: t)) = readOptimizeInstance f t := by
  rw [readText_run, ← run_optimize, space_of_white (run_optimize_white f)]
  rfl

theorem readText_frobenius (t : Text) : dropRest (frobeniusP.readText (' ' :: t)) = readFrobeniusInstance t := by
  obtain ⟨h1, h2⟩ := run_frobenius (' ' :: t)
  rw [readText_run, ← readFrobenius_space]
  exact atEndOnly_of_end h1 h2

theorem readText_grobner (t : Text) : dropRest (grobnerInstanceP.readText (' ' :: t)) = readFrobeniusInstanceWithGrobnerBasis t := by
  obtain ⟨h1, h2⟩ := run_grobnerInstance (' ' :: t)
  rw [readText_run, ← space_of_white (g := readFrobeniusInstanceWithGrobnerBasis) (fun t => ?_)]
  · exact atEndOnly_of_end h1 h2
  · unfold readFrobeniusInstanceWithGrobnerBasis readGrobnerBasis
    rw [readSizeT_white]

theorem readText_poly (f : PolyFormat) (t : Text) : dropRest ((polyP f).readText (' ' :: t)) = readPoly f t := by
  rw [readText_run, ← space_of_white (readPoly_white f), ← run_poly]
  rfl

/-! ## only characters of ASCII -/

theorem ascii_integer : integerP.Ascii := ascii_op trivial

theorem ascii_nonNegative : nonNegativeP.Ascii := ascii_op trivial

theorem ascii_atEnd : atEndP.Ascii := ascii_op trivial

/-- Go through a reader, with the questions of this file. -/
macro "ascii_more" : tactic => `(tactic| repeat' (first
  | exact ascii_integer
  | exact ascii_nonNegative
  | exact ascii_atEnd
  | exact ascii_fail
  | exact ascii_pure _
  | exact ascii_identifier
  | exact ascii_peekId
  | exact ascii_size
  | exact ascii_left
  | exact ascii_ofOption _
  | exact ascii_match (by decide)
  | exact ascii_expect (by decide)
  | exact ascii_peek (by decide)
  | exact ascii_text (by decide)
  | assumption
  | with_reducible refine ascii_ite ?_ ?_
  | with_reducible refine ascii_bind ?_ fun _ => ?_))

theorem ascii_peekRing (f : IOFormat) : (peekRingP f).Ascii := by
  cases f
  · exact ascii_peekAny (by decide)
  · exact ascii_peekAny (by decide)
  · exact ascii_peekAny (by decide)
  · exact ascii_peekAny (by decide)
  · trivial
  · trivial

theorem ascii_ring (f : IOFormat) : (ringP f).Ascii := by
  cases f
  · exact ascii_ringM2
  · exact ascii_ringCoCoA
  · exact ascii_ringSingular
  · exact ascii_ringMonos
  · trivial
  · trivial

theorem ascii_bare (names : List Text) (f : IOFormat) : (bareP names f).Ascii := by
  cases f
  · show (bareM2P false names).Ascii
    unfold bareM2P gensM2P
    ascii_steps
    exact ascii_sep (ascii_termM2 false) (by decide) _ _
  · show (bareCoCoAP false names).Ascii
    unfold bareCoCoAP gensCoCoAP
    ascii_steps
    exact ascii_sep (ascii_termCoCoA false) (by decide) _ _
  · show (bareSingularP false names).Ascii
    unfold bareSingularP gensSingularP
    ascii_steps
    exact ascii_sep (ascii_term false) (by decide) _ _
  · show (bareMonosP false names).Ascii
    unfold bareMonosP gensMonosP
    ascii_steps
    · exact ascii_sep (ascii_term false) (by decide) _ _
    · refine ascii_expect ?_
      split <;> decide
  · trivial
  · trivial

theorem ascii_idealsLoop (f : IOFormat) : ∀ (n : ℕ) (names : List Text) (Is : List NamedIdeal), (idealsLoopP f n names Is).Ascii
  | 0, _, _ => trivial
  | n + 1, names, Is => by
    unfold idealsLoopP
    have rest : ∀ names', (bareP names' f >>= fun k => idealsLoopP f n names' (Is ++ [k.release])).Ascii := fun names' =>
      ascii_bind (ascii_bare _ f) fun _ => ascii_idealsLoop f n _ _
    exact ascii_bind ascii_atEnd fun _ => ascii_ite (ascii_pure _) (ascii_bind (ascii_peekRing f) fun _ =>
      ascii_ite (ascii_bind (ascii_ring f) rest) (ascii_bind (ascii_pure _) rest))

theorem ascii_newMonos : (newMonosP false).Ascii := by
  unfold newMonosP ringNewMonosP
  ascii_steps
  · exact ascii_until ascii_name (by decide) _ _
  · exact ascii_until (ascii_term false) (by decide) _ _

theorem ascii_idealsNewMonos : ∀ (n : ℕ) (Is : List NamedIdeal), (idealsNewMonosP n Is).Ascii
  | 0, _ => trivial
  | n + 1, Is => by
    unfold idealsNewMonosP
    exact ascii_bind ascii_newMonos fun _ => ascii_bind (ascii_match (by decide)) fun _ => ascii_ite (ascii_idealsNewMonos n _) (ascii_pure _)

theorem ascii_ideals (f : IOFormat) : (idealsP f).Ascii := by
  have common : ∀ f : IOFormat, (do
      let names ← ringP f
      if ← atEndP then pure ([], names)
      else do
        let k ← bareP names f
        let n ← leftP
        idealsLoopP f (n + 1) names [k.release] : ScanProg (List NamedIdeal × List Text)).Ascii := fun f =>
    ascii_bind (ascii_ring f) fun _ => ascii_bind ascii_atEnd fun _ => ascii_ite (ascii_pure _) (ascii_bind (ascii_bare _ f) fun _ =>
      ascii_bind ascii_left fun _ => ascii_idealsLoop f _ _ _)
  cases f
  · exact common .m2
  · exact common .cocoa4
  · exact common .singular
  · exact common .monos
  · unfold idealsP ringNewMonosP
    ascii_steps
    · exact ascii_peekAny (by decide)
    · exact ascii_until ascii_name (by decide) _ _
    · exact ascii_idealsNewMonos _ _
  · trivial

theorem ascii_anyTerm (f : IOFormat) (k : InputConsumer) : (anyTermP f k).Ascii := by
  cases f
  · exact ascii_termM2 false k
  · exact ascii_termCoCoA false k
  · exact ascii_term false k
  · exact ascii_term false k
  · exact ascii_term false k
  · exact ascii_term4ti2 false k

theorem ascii_dual (f : IOFormat) : (dualP f).Ascii :=
  ascii_bind (ascii_consumer false f) fun _ => ascii_bind ascii_atEnd fun _ => ascii_ite (ascii_pure _) (ascii_bind (ascii_anyTerm f _) fun _ => ascii_pure _)

theorem ascii_vector : ∀ n : ℕ, (vectorP n).Ascii
  | 0 => trivial
  | n + 1 => ascii_bind ascii_integer fun _ => ascii_bind (ascii_vector n) fun _ => ascii_pure _

theorem ascii_optimize (f : IOFormat) : (optimizeP f).Ascii :=
  ascii_bind (ascii_consumer false f) fun _ => ascii_bind ascii_atEnd fun _ => ascii_ite (ascii_pure _) (ascii_bind (ascii_vector _) fun _ => ascii_pure _)

theorem ascii_bigIntegers : ∀ n : ℕ, (bigIntegersP n).Ascii
  | 0 => trivial
  | n + 1 => ascii_bind ascii_atEnd fun _ => ascii_ite (ascii_pure _) (ascii_bind ascii_integer fun _ => ascii_ite ascii_fail
      (ascii_bind (ascii_bigIntegers n) fun _ => ascii_pure _))

theorem ascii_frobenius : frobeniusP.Ascii :=
  ascii_bind ascii_left fun _ => ascii_bind (ascii_bigIntegers _) fun _ => ascii_ite ascii_fail (ascii_ite ascii_fail (ascii_pure _))

theorem ascii_nonNegatives : ∀ n : ℕ, (nonNegativesP n).Ascii
  | 0 => trivial
  | n + 1 => ascii_bind ascii_nonNegative fun _ => ascii_bind (ascii_nonNegatives n) fun _ => ascii_pure _

theorem ascii_grobnerTerm (n : ℕ) : (grobnerTermP n).Ascii := ascii_bind ascii_nonNegative fun _ => ascii_ite ascii_fail (ascii_nonNegatives n)

theorem ascii_grobnerTerms (n : ℕ) : ∀ k : ℕ, (grobnerTermsP n k).Ascii
  | 0 => trivial
  | k + 1 => ascii_bind (ascii_grobnerTerm n) fun _ => ascii_bind (ascii_grobnerTerms n k) fun _ => ascii_pure _

theorem ascii_grobner : grobnerInstanceP.Ascii :=
  ascii_bind (ascii_bind ascii_size fun _ => ascii_bind ascii_size fun _ => ascii_ite ascii_fail (ascii_bind (ascii_grobnerTerms _ _) fun _ => ascii_pure _))
    fun _ => ascii_bind ascii_frobenius fun _ => ascii_ite ascii_fail (ascii_pure _)

theorem ascii_polyExponent (var : ℕ) (term : List ℕ) : (polyExponentP var term).Ascii := by
  unfold polyExponentP
  ascii_more

theorem ascii_varPower (names : List Text) (term : List ℕ) : (varPowerP names term).Ascii :=
  ascii_bind ascii_identifier fun _ => ascii_bind (ascii_ofOption _) fun _ => ascii_polyExponent _ _

theorem ascii_varPowerCoCoA (term : List ℕ) : (varPowerCoCoAP term).Ascii := by
  unfold varPowerCoCoAP
  ascii_more
  exact ascii_polyExponent _ _

theorem ascii_star {σ : Type} {p : σ → ScanProg σ} (h : ∀ s, (p s).Ascii) : ∀ (n : ℕ) (s : σ), (starP p n s).Ascii
  | 0, _ => trivial
  | n + 1, s => by
    unfold starP
    exact ascii_bind (ascii_match (by decide)) fun _ => ascii_ite (ascii_bind (h s) fun _ => ascii_star h n _) (ascii_pure _)

theorem ascii_peekX {σ : Type} {p : σ → ScanProg σ} (h : ∀ s, (p s).Ascii) : ∀ (n : ℕ) (s : σ), (peekXP p n s).Ascii
  | 0, _ => trivial
  | n + 1, s => by
    unfold peekXP
    exact ascii_bind (ascii_peek (by decide)) fun _ => ascii_ite (ascii_bind (h s) fun _ => ascii_peekX h n _) (ascii_pure _)

theorem ascii_body (names : List Text) : (bodyP names).Ascii := by
  unfold bodyP
  ascii_more
  · exact ascii_varPower _ _
  · exact ascii_star (ascii_varPower names) _ _
  · exact ascii_star (ascii_varPower names) _ _

theorem ascii_bodyCoCoA (names : List Text) : (bodyCoCoAP names).Ascii := by
  unfold bodyCoCoAP
  ascii_more
  · exact ascii_varPowerCoCoA _
  · exact ascii_peekX ascii_varPowerCoCoA _ _
  · exact ascii_peekX ascii_varPowerCoCoA _ _

theorem ascii_signed {body : ScanProg (ℤ × List ℕ)} (h : body.Ascii) (first : Bool) : (signedP body first).Ascii := by
  unfold signedP signP oneSignP
  ascii_more

theorem ascii_polyTerms {item : Bool → ScanProg (ℤ × List ℕ)} (h : ∀ b, (item b).Ascii) :
    ∀ (n : ℕ) (first : Bool) (ps : List (ℤ × List ℕ)), (polyTermsP item n first ps).Ascii
  | 0, _, _ => trivial
  | n + 1, first, ps => by
    unfold polyTermsP
    exact ascii_bind (h first) fun _ => ascii_bind (ascii_match (by decide)) fun _ => ascii_ite (ascii_pure _) (ascii_polyTerms h n _ _)

theorem ascii_barePoly (names : List Text) (f : PolyFormat) : (barePolyP names f).Ascii := by
  cases f <;> unfold barePolyP <;> ascii_more
  · exact ascii_polyTerms (ascii_signed (ascii_body names)) _ _ _
  · exact ascii_polyTerms (ascii_signed (ascii_bodyCoCoA names)) _ _ _
  · exact ascii_polyTerms (ascii_signed (ascii_body names)) _ _ _

theorem ascii_poly (f : PolyFormat) : (polyP f).Ascii := by
  unfold polyP
  refine ascii_ite ?_ (ascii_bind (ascii_ring _) fun _ => ascii_bind (ascii_barePoly _ f) fun _ => ascii_pure _)
  unfold poly4ti2P
  ascii_more
  · exact ascii_times (fun ps => ascii_bind ascii_integer fun _ =>
      ascii_bind (ascii_times (fun s => ascii_bind ascii_nonNegative fun _ => ascii_pure _) _ _) fun _ => ascii_pure _) _ _
  all_goals exact ascii_times (fun s => ascii_bind ascii_identifier fun _ => ascii_pure _) _ _

theorem ascii_formatP {α : Type} {p : IOFormat → ScanProg α} (h : ∀ f, (p f).Ascii) (format : Option IOFormat) : (formatP p format).Ascii := by
  cases format with
  | some f => exact h f
  | none => exact ascii_bind ascii_detect h

end ScanProg

/-- What a reader of files should do: the result is the one for the text of the file, and if there is none, there is an error with a line number
that the file has. -/
theorem readFile_as {α : Type} {p : ScanProg α} (hp : p.Ascii) {bytes : List FileByte} {x : Option α}
    (h : ScanProg.dropRest (p.readText (' ' :: fileText bytes)) = x) {capacity : ℕ} (hc : 0 < capacity) :
    match (generalizing := false) x with
    | some a => p.readFile ⟨bytes, false, false, false⟩ capacity = .ok a
    | none => ∃ l, p.readFile ⟨bytes, false, false, false⟩ capacity = .error (.syntaxError l) ∧ 1 ≤ l ∧ l ≤ 1 + (fileText bytes).count '\n' := by
  subst h
  rcases readFile_spec p hp bytes false hc with ⟨a, h1, h2⟩ | ⟨r, l, h1, h2, h3⟩
  · rw [h1]
    exact h2
  · rw [h1]
    refine ⟨l, h2, ?_, by unfold BufScanner.newlines at h3; omega⟩
    have := (ScanProg.readText_suffix _ _ h1).count_le '\n'
    rw [List.count_cons_of_ne (by decide)] at this
    unfold BufScanner.newlines at h3
    omega

end Frobby

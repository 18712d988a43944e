import Verif.IOFormatLemmas

/-!
# Reading with square-free generators required

Whatever is read is also read without the requirement, with the same result, and it is square free.
-/

namespace Frobby

/-- Only square-free generators. -/
def SqfConsumer (k : InputConsumer) : Prop := k.big = false ∧ ∀ g ∈ k.gens, ∀ e ∈ g, e ≤ 1

/-- The reader `a` agrees with `b` when it succeeds, and keeps the property `P`. -/
def Refines {σ : Type} (P : σ → Prop) (a b : σ → Text → Option (σ × Text)) : Prop :=
  ∀ s t s' r, P s → a s t = some (s', r) → b s t = some (s', r) ∧ P s'

section Loops

variable {σ : Type} {P : σ → Prop} {a b : σ → Text → Option (σ × Text)}

theorem Refines.readSep (h : Refines P a b) (sep : Char) (fuel : ℕ) : Refines P (readSep a sep fuel) (readSep b sep fuel) := by
  induction fuel with
  | zero => intro s t s' r _ h1; simp [Frobby.readSep] at h1
  | succ fuel ih =>
    intro s t s' r hs h1
    simp only [Frobby.readSep] at h1 ⊢
    cases h2 : a s t with
    | none => simp [h2] at h1
    | some p =>
      obtain ⟨g1, g2⟩ := h s t p.1 p.2 hs h2
      simp only [h2] at h1
      simp only [g1]
      cases h3 : matchChar sep p.2 with
      | mk c u =>
        simp only [h3] at h1 ⊢
        cases c with
        | true => exact ih p.1 u s' r g2 h1
        | false =>
          simp only [Option.some.injEq, Prod.mk.injEq] at h1 ⊢
          exact ⟨h1, h1.1 ▸ g2⟩

theorem Refines.readUntil (h : Refines P a b) (stop : Char) (fuel : ℕ) : Refines P (readUntil a stop fuel) (readUntil b stop fuel) := by
  induction fuel with
  | zero => intro s t s' r _ h1; simp [Frobby.readUntil] at h1
  | succ fuel ih =>
    intro s t s' r hs h1
    simp only [Frobby.readUntil] at h1 ⊢
    cases h3 : matchChar stop t with
    | mk c u =>
      simp only [h3] at h1 ⊢
      cases c with
      | true =>
        simp only [Option.some.injEq, Prod.mk.injEq] at h1 ⊢
        exact ⟨h1, h1.1 ▸ hs⟩
      | false =>
        simp only at h1 ⊢
        cases h2 : a s u with
        | none => simp [h2] at h1
        | some p =>
          obtain ⟨g1, g2⟩ := h s u p.1 p.2 hs h2
          simp only [h2] at h1
          simp only [g1]
          exact ih p.1 p.2 s' r g2 h1

theorem Refines.readTimes (h : Refines P a b) (n : ℕ) : Refines P (readTimes a n) (readTimes b n) := by
  induction n with
  | zero =>
    intro s t s' r hs h1
    simp only [Frobby.readTimes, Option.some.injEq, Prod.mk.injEq] at h1 ⊢
    exact ⟨h1, h1.1 ▸ hs⟩
  | succ n ih =>
    intro s t s' r hs h1
    simp only [Frobby.readTimes] at h1 ⊢
    cases h2 : a s t with
    | none => simp [h2] at h1
    | some p =>
      obtain ⟨g1, g2⟩ := h s t p.1 p.2 hs h2
      simp only [h2] at h1
      simp only [g1]
      exact ih p.1 p.2 s' r g2 h1

theorem Refines.readWhileX (h : Refines P a b) (fuel : ℕ) : Refines P (readWhileX a fuel) (readWhileX b fuel) := by
  induction fuel with
  | zero => intro s t s' r _ h1; simp [Frobby.readWhileX] at h1
  | succ fuel ih =>
    intro s t s' r hs h1
    simp only [Frobby.readWhileX] at h1 ⊢
    cases h2 : a s t with
    | none => simp [h2] at h1
    | some p =>
      obtain ⟨g1, g2⟩ := h s t p.1 p.2 hs h2
      simp only [h2] at h1
      simp only [g1]
      split
      · rename_i h3
        rw [if_pos h3] at h1
        exact ih p.1 p.2 s' r g2 h1
      · rename_i h3
        rw [if_neg h3] at h1
        simp only [Option.some.injEq, Prod.mk.injEq] at h1 ⊢
        exact ⟨h1, h1.1 ▸ g2⟩

end Loops

theorem SqfConsumer.beginIdeal (names : List Text) : SqfConsumer (.beginIdeal names) := ⟨rfl, by simp [InputConsumer.beginIdeal]⟩

theorem SqfConsumer.beginTerm {k : InputConsumer} (h : SqfConsumer k) : SqfConsumer k.beginTerm := by
  refine ⟨h.1, fun g hg e he => ?_⟩
  rcases List.mem_cons.1 hg with rfl | hg
  · rw [List.eq_of_mem_replicate he]
    omega
  · exact h.2 g hg e he

theorem SqfConsumer.setExponent {k : InputConsumer} (h : SqfConsumer k) (i : ℕ) : SqfConsumer (k.setExponent i 1) := by
  refine ⟨h.1, fun g hg e he => ?_⟩
  unfold InputConsumer.setExponent at hg
  cases hk : k.gens with
  | nil => simp [hk] at hg
  | cons a as =>
    simp only [hk, List.mem_cons] at hg
    rcases hg with rfl | hg
    · rcases List.mem_or_eq_of_mem_set he with he | rfl
      · exact h.2 a (by simp [hk]) e he
      · exact le_rfl
    · exact h.2 g (by simp [hk, hg]) e he

theorem consumeOne_refines {k k' : InputConsumer} {i : ℕ} (h : SqfConsumer k) (h1 : k.consumeOne i = some k') : SqfConsumer k' := by
  unfold InputConsumer.consumeOne at h1
  split at h1
  · simp only [Option.some.injEq] at h1
    exact h1 ▸ h.setExponent i
  · simp at h1

theorem consumeExponent_refines (i : ℕ) : Refines SqfConsumer (fun k t => k.consumeExponent true i t) (fun k t => k.consumeExponent false i t) := by
  intro k t k' r h h1
  simp only [InputConsumer.consumeExponent, h.1, Bool.false_eq_true, if_false] at h1 ⊢
  cases h2 : readIntegerStringNoSign t with
  | none => simp [h2] at h1
  | some p =>
    simp only [h2] at h1 ⊢
    split at h1
    · rename_i h3
      rw [if_pos h3]
      split at h1
      · rename_i h4
        simp only [Option.some.injEq, Prod.mk.injEq] at h1
        rw [if_pos h4]
        exact ⟨by rw [← h1.1, ← h1.2], h1.1 ▸ h.setExponent i⟩
      · rename_i h4
        rw [if_neg h4]
        split at h1
        · rename_i h5
          simp only [Option.some.injEq, Prod.mk.injEq] at h1
          rw [if_pos h5]
          exact ⟨by rw [← h1.1, ← h1.2], h1.1 ▸ h⟩
        · simp at h1
    · simp at h1

theorem power_refines {k k' : InputConsumer} (i : ℕ) {t r : Text} (h : SqfConsumer k)
    (h1 : (match matchChar '^' t with
      | (true, r') => k.consumeExponent true i r'
      | (false, r') => (k.consumeOne i).map fun k' => (k', r')) = some (k', r)) :
    (match matchChar '^' t with
      | (true, r') => k.consumeExponent false i r'
      | (false, r') => (k.consumeOne i).map fun k' => (k', r')) = some (k', r) ∧ SqfConsumer k' := by
  cases h2 : matchChar '^' t with
  | mk c u =>
    simp only [h2] at h1 ⊢
    cases c with
    | true => exact consumeExponent_refines i k u k' r h h1
    | false =>
      simp only at h1 ⊢
      refine ⟨h1, ?_⟩
      obtain ⟨k1, h3, h4⟩ := Option.map_eq_some_iff.1 h1
      simp only [Prod.mk.injEq] at h4
      exact h4.1 ▸ consumeOne_refines h h3

theorem readPower_refines : Refines SqfConsumer (InputConsumer.readPower true) (InputConsumer.readPower false) := by
  intro k t k' r h h1
  unfold InputConsumer.readPower at h1 ⊢
  cases h2 : readIdentifier t with
  | none => simp [h2] at h1
  | some p =>
    simp only [h2] at h1 ⊢
    cases h3 : k.names.idxOf? p.1 with
    | none => simp [h3] at h1
    | some var =>
      simp only [h3] at h1 ⊢
      exact power_refines var h h1

theorem readPowerCoCoA_refines : Refines SqfConsumer (InputConsumer.readPowerCoCoA true) (InputConsumer.readPowerCoCoA false) := by
  intro k t k' r h h1
  unfold InputConsumer.readPowerCoCoA at h1 ⊢
  cases h2 : (expectChar 'x' t).bind (expectChar '[') with
  | none => simp [h2] at h1
  | some u =>
    simp only [h2] at h1 ⊢
    cases h3 : readSizeT u with
    | none => simp [h3] at h1
    | some p =>
      simp only [h3] at h1 ⊢
      split at h1
      · simp at h1
      · rename_i h4
        rw [if_neg h4]
        cases h5 : expectChar ']' p.2 with
        | none => simp [h5] at h1
        | some v =>
          simp only [h5] at h1 ⊢
          exact power_refines _ h h1

theorem readTermProduct_refines : Refines SqfConsumer (InputConsumer.readTermProduct true) (InputConsumer.readTermProduct false) := by
  intro k t k' r h h1
  unfold InputConsumer.readTermProduct at h1 ⊢
  cases h2 : matchChar '1' t with
  | mk c u =>
    simp only [h2] at h1 ⊢
    cases c with
    | true =>
      simp only [Option.some.injEq, Prod.mk.injEq] at h1 ⊢
      exact ⟨h1, h1.1 ▸ h.beginTerm⟩
    | false => exact readPower_refines.readSep '*' _ _ _ _ _ h.beginTerm h1

theorem readTermM2_refines : Refines SqfConsumer (InputConsumer.readTermM2 true) (InputConsumer.readTermM2 false) := by
  intro k t k' r h h1
  unfold InputConsumer.readTermM2 at h1 ⊢
  cases h2 : k.readTermProduct true t with
  | none => simp [h2] at h1
  | some p =>
    obtain ⟨g1, g2⟩ := readTermProduct_refines k t p.1 p.2 h h2
    simp only [h2] at h1
    simp only [g1]
    cases h3 : matchChar '_' p.2 with
    | mk c u =>
      simp only [h3] at h1 ⊢
      refine ⟨h1, ?_⟩
      cases c with
      | true =>
        obtain ⟨q, _, h5⟩ := Option.map_eq_some_iff.1 h1
        simp only [Prod.mk.injEq] at h5
        exact h5.1 ▸ g2
      | false =>
        simp only [Option.some.injEq, Prod.mk.injEq] at h1
        exact h1.1 ▸ g2

theorem readTermCoCoA_refines : Refines SqfConsumer (InputConsumer.readTermCoCoA true) (InputConsumer.readTermCoCoA false) := by
  intro k t k' r h h1
  unfold InputConsumer.readTermCoCoA at h1 ⊢
  cases h2 : matchChar '1' t with
  | mk c u =>
    simp only [h2] at h1 ⊢
    cases c with
    | true =>
      simp only [Option.some.injEq, Prod.mk.injEq] at h1 ⊢
      exact ⟨h1, h1.1 ▸ h.beginTerm⟩
    | false => exact readPowerCoCoA_refines.readWhileX _ _ _ _ _ h.beginTerm h1

theorem readExponent4ti2_refines : Refines (fun s : ℕ × InputConsumer => SqfConsumer s.2) (InputConsumer.readExponent4ti2 true) (InputConsumer.readExponent4ti2 false) := by
  intro s t s' r h h1
  unfold InputConsumer.readExponent4ti2 at h1 ⊢
  cases h2 : matchChar '-' t with
  | mk c u =>
    simp only [h2] at h1 ⊢
    cases c with
    | true =>
      refine ⟨h1, ?_⟩
      obtain ⟨q, _, h5⟩ := Option.map_eq_some_iff.1 h1
      simp only [Prod.mk.injEq] at h5
      rw [← h5.1]
      exact h
    | false =>
      simp only at h1 ⊢
      obtain ⟨q, h4, h5⟩ := Option.map_eq_some_iff.1 h1
      obtain ⟨g1, g2⟩ := consumeExponent_refines s.1 s.2 u q.1 q.2 h h4
      simp only at g1
      rw [g1]
      simp only [Prod.mk.injEq] at h5
      refine ⟨by simp [h5.1, h5.2], ?_⟩
      rw [← h5.1]
      exact g2

theorem readTerm4ti2_refines : Refines SqfConsumer (InputConsumer.readTerm4ti2 true) (InputConsumer.readTerm4ti2 false) := by
  intro k t k' r h h1
  unfold InputConsumer.readTerm4ti2 at h1 ⊢
  obtain ⟨q, h4, h5⟩ := Option.map_eq_some_iff.1 h1
  obtain ⟨g1, g2⟩ := readExponent4ti2_refines.readTimes k.names.length (0, k.beginTerm) t q.1 q.2 h.beginTerm h4
  rw [g1]
  simp only [Prod.mk.injEq] at h5
  refine ⟨by simp [h5.1, h5.2], ?_⟩
  rw [← h5.1]
  exact g2

/-- `Refines` for a reader that starts an ideal. -/
def Refines' (a b : Option (InputConsumer × Text)) : Prop := ∀ p, a = some p → b = some p ∧ SqfConsumer p.1

theorem Refines'.bind {α : Type} (x : Option α) {a b : α → Option (InputConsumer × Text)} (h : ∀ y, Refines' (a y) (b y)) : Refines' (x.bind a) (x.bind b) := by
  cases x with
  | none => intro p hp; simp at hp
  | some y => exact h y

theorem Refines'.bind2 {a b : Option (InputConsumer × Text)} {c : InputConsumer × Text → Option (InputConsumer × Text)} (h : Refines' a b)
    (hc : ∀ p q, SqfConsumer p.1 → c p = some q → SqfConsumer q.1) : Refines' (a.bind c) (b.bind c) := by
  intro p hp
  obtain ⟨q, h1, h2⟩ := Option.bind_eq_some_iff.1 hp
  obtain ⟨g1, g2⟩ := h q h1
  exact ⟨by rw [g1]; exact h2, hc q p g2 h2⟩

theorem Refines'.ite {P : Prop} [Decidable P] {a b c d : Option (InputConsumer × Text)} (h1 : Refines' a c) (h2 : Refines' b d) :
    Refines' (if P then a else b) (if P then c else d) := by
  split
  · exact h1
  · exact h2

theorem Refines'.same {a : Option (InputConsumer × Text)} (h : ∀ p, a = some p → SqfConsumer p.1) : Refines' a a := fun p hp => ⟨hp, h p hp⟩

theorem Refines.start {a b : InputConsumer → Text → Option (InputConsumer × Text)} (h : Refines SqfConsumer a b) (names : List Text) (t : Text) :
    Refines' (a (.beginIdeal names) t) (b (.beginIdeal names) t) :=
  fun p hp => h _ t p.1 p.2 (.beginIdeal names) hp

theorem SqfConsumer.of_some {names : List Text} {r : Text} (p : InputConsumer × Text) (h : some (InputConsumer.beginIdeal names, r) = some p) : SqfConsumer p.1 := by
  simp only [Option.some.injEq] at h
  rw [← h]
  exact .beginIdeal names

/-- What is done after reading keeps the consumer. -/
local macro "keep" : tactic => `(tactic| (
  rintro ⟨k, r⟩ q hp hq
  simp only [Option.bind_eq_bind, Option.bind_eq_some_iff, Option.some.injEq] at hq
  first
  | (rw [← hq]; exact hp)
  | (obtain ⟨_, _, hq⟩ := hq; rw [← hq]; exact hp)
  | (obtain ⟨_, _, _, _, hq⟩ := hq; rw [← hq]; exact hp)))

theorem readBareM2_refines (names : List Text) (t : Text) : Refines' (readBareM2 true names t) (readBareM2 false names t) := by
  unfold readBareM2
  refine .bind _ fun r => .bind _ fun r => .bind _ fun r => .bind _ fun r => .ite (.ite (.bind2 (.same ?_) ?_) (.bind2 (.same .of_some) ?_))
    (.bind2 ((readTermM2_refines.readSep ',' _).start names _) ?_)
  · intro p hp
    obtain ⟨q, _, h5⟩ := Option.map_eq_some_iff.1 hp
    rw [← h5]
    exact .beginIdeal names
  · keep
  · keep
  · keep

theorem readBareCoCoA_refines (names : List Text) (t : Text) : Refines' (readBareCoCoA true names t) (readBareCoCoA false names t) := by
  unfold readBareCoCoA
  refine .bind _ fun r => .bind _ fun r => .bind _ fun r => .bind _ fun r => .ite (.bind2 (.same .of_some) ?_)
    (.bind2 ((readTermCoCoA_refines.readSep ',' _).start names _) ?_)
  · keep
  · rintro ⟨k, r⟩ q hp hq
    simp only [Option.bind_eq_bind, Option.bind_eq_some_iff, Option.some.injEq] at hq
    obtain ⟨_, _, _, rfl, hq⟩ := hq
    rw [← hq]
    exact hp

theorem readBareSingular_refines (names : List Text) (t : Text) : Refines' (readBareSingular true names t) (readBareSingular false names t) := by
  unfold readBareSingular
  refine .bind _ fun r => .bind _ fun r => .bind _ fun r => .ite (.bind2 (.same .of_some) ?_)
    (.bind2 ((readTermProduct_refines.readSep ',' _).start names _) ?_)
  · keep
  · keep

theorem readBareMonos_refines (names : List Text) (t : Text) : Refines' (readBareMonos true names t) (readBareMonos false names t) := by
  unfold readBareMonos
  refine .bind _ fun r => .ite (.bind2 (.same .of_some) ?_)
    (.bind2 ((readTermProduct_refines.readSep ',' _).start names _) ?_)
  · keep
  · rintro ⟨k, r⟩ q hp hq
    simp only [Option.bind_eq_bind] at hq
    split at hq
    · simp only [Option.bind_eq_some_iff, Option.some.injEq] at hq
      obtain ⟨_, rfl, _, _, hq⟩ := hq
      rw [← hq]
      exact hp
    · split at hq
      · simp only [Option.bind_eq_some_iff, Option.some.injEq] at hq
        obtain ⟨_, _, _, rfl, _, _, hq⟩ := hq
        rw [← hq]
        exact hp
      · simp only [Option.bind_eq_some_iff, Option.some.injEq] at hq
        obtain ⟨_, _, _, rfl, _, _, hq⟩ := hq
        rw [← hq]
        exact hp

theorem readIdealNoLeftParen_refines (t : Text) : Refines' (readIdealNoLeftParen true t) (readIdealNoLeftParen false t) := by
  unfold readIdealNoLeftParen
  exact .bind _ fun r => .bind _ fun r => .bind _ fun p => (readTermProduct_refines.readUntil ')' _).start p.1 _

theorem readIdeal4ti2_refines (g n : ℕ) (t : Text) : Refines' (readIdeal4ti2 true g n t) (readIdeal4ti2 false g n t) := by
  unfold readIdeal4ti2
  refine .ite (.bind2 (.same ?_) ?_) (.bind2 ((readTerm4ti2_refines.readTimes _).start _ _) ?_)
  · intro p hp
    simp only [Option.some.injEq] at hp
    rw [← hp]
    refine ⟨rfl, fun g hg e he => ?_⟩
    rw [List.eq_of_mem_replicate hg] at he
    simp at he
  all_goals
    rintro ⟨k, r⟩ q hp hq
    simp only [Option.bind_eq_bind] at hq
    split at hq
    · simp only [Option.bind_eq_some_iff, Option.some.injEq] at hq
      obtain ⟨_, _, hq⟩ := hq
      rw [← hq]
      exact hp
    · simp only [Option.some.injEq] at hq
      rw [← hq]
      exact hp

theorem readConsumer_refines (f : IOFormat) (t : Text) : Refines' (readConsumer true f t) (readConsumer false f t) := by
  cases f with
  | m2 => exact .bind _ fun p => readBareM2_refines p.1 p.2
  | cocoa4 => exact .bind _ fun p => readBareCoCoA_refines p.1 p.2
  | singular => exact .bind _ fun p => readBareSingular_refines p.1 p.2
  | monos => exact .bind _ fun p => readBareMonos_refines p.1 p.2
  | newmonos => exact .bind _ fun p => readIdealNoLeftParen_refines p
  | fourti2 => exact .bind _ fun p => .bind _ fun q => readIdeal4ti2_refines p.1 q.1 q.2

theorem readSquareFreeIdeal_refines {f : IOFormat} {t : Text} {I : NamedIdeal} (h : readSquareFreeIdeal f t = some I) :
    readIdeal f t = some I ∧ ∀ g ∈ I.terms, ∀ e ∈ g, e ≤ 1 := by
  unfold readSquareFreeIdeal at h
  simp only [Option.bind_eq_bind, Option.bind_eq_some_iff] at h
  obtain ⟨p, h1, h2⟩ := h
  obtain ⟨g1, g2⟩ := readConsumer_refines f t p h1
  split at h2
  · rename_i h3
    simp only [Option.some.injEq] at h2
    refine ⟨by simp [readIdeal, g1, h3, h2], fun g hg => ?_⟩
    rw [← h2] at hg
    simp only [InputConsumer.release, List.mem_reverse] at hg
    exact g2.2 g hg
  · simp at h2

end Frobby

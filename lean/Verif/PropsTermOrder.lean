import Verif.TermOrderModel
import Verif.PropsOrder

/-!
# The term orders are the documented ones, but for one
-/

namespace Frobby.TermOrder

open Frobby

variable {n : ℕ}

theorem loop_range (a b : Term n) (vs : List (Fin n)) :
    lexCompareLoop a b vs = -1 ∨ lexCompareLoop a b vs = 0 ∨ lexCompareLoop a b vs = 1 := by
  induction vs with
  | nil => simp [lexCompareLoop]
  | cons v vs ih =>
    unfold lexCompareLoop
    split
    · exact ih
    · split <;> simp

theorem neg_iff (a b : Term n) : lexCompare a b = -1 ↔ ∃ v, (∀ w, w < v → a w = b w) ∧ a v < b v := by
  rw [← (C35_firstDifference a b).1]
  unfold lexLess
  rw [decide_eq_true_iff]
  have : lexCompare a b = -1 ∨ lexCompare a b = 0 ∨ lexCompare a b = 1 := loop_range a b _
  omega

theorem loop_self (a : Term n) (vs : List (Fin n)) : lexCompareLoop a a vs = 0 := by
  induction vs with
  | nil => rfl
  | cons v vs ih => simp [lexCompareLoop, ih]

theorem zero_iff (a b : Term n) : lexCompare a b = 0 ↔ a = b :=
  ⟨lexCompare_zero, fun h => h ▸ loop_self a _⟩

theorem compatible_lex : Compatible fun a b : Term n => lexCompare a b = -1 where
  irrefl a := by
    rw [(zero_iff a a).2 rfl]
    decide
  trans a b c := by
    simp only [neg_iff]
    rintro ⟨v, h1, h2⟩ ⟨w, h3, h4⟩
    rcases lt_trichotomy v w with h | h | h
    · exact ⟨v, fun u hu => (h1 u hu).trans (h3 u (hu.trans h)), (h3 v h) ▸ h2⟩
    · subst h
      exact ⟨v, fun u hu => (h1 u hu).trans (h3 u hu), h2.trans h4⟩
    · exact ⟨w, fun u hu => (h1 u (hu.trans h)).trans (h3 u hu), (h1 w h) ▸ h4⟩
  total a b := by
    rw [← zero_iff, lexCompare_swap a b]
    have : lexCompare a b = -1 ∨ lexCompare a b = 0 ∨ lexCompare a b = 1 := loop_range a b _
    omega
  mul a b c := by
    simp only [neg_iff, Pi.add_apply, add_left_inj, add_lt_add_iff_right]

/-- **C87**: `lexCompare` tells how two monomials relate in the lexicographic term order where `x_1 > ... > x_n`, as documented: its
value is -1, 0 or 1, for less, equal and greater. -/
theorem C87_lex : IsTermOrder (fun a b : Term n => lexCompare a b = -1) ∧
    (∀ v w : Fin n, v < w → ∀ k : ℕ, lexCompare (k • var w) (var v) = -1) ∧
    ∀ a b : Term n, (lexCompare a b = 0 ↔ a = b) ∧ (lexCompare a b = 1 ↔ lexCompare b a = -1) := by
  refine ⟨⟨compatible_lex, fun a ha => ?_⟩, fun v w hvw k => ?_, fun a b => ⟨zero_iff a b, ?_⟩⟩
  · rcases compatible_lex.total 0 a with h | h | h
    · exact h
    · exact absurd h.symm ha
    · obtain ⟨v, -, h⟩ := (neg_iff a 0).1 h
      exact absurd h (Nat.not_lt_zero _)
  · refine (neg_iff _ _).2 ⟨v, fun u hu => ?_, ?_⟩
    · simp [var, hu.ne, (hu.trans hvw).ne]
    · simp [var, hvw.ne]
  · rw [lexCompare_swap a b]
    omega

/-- The documented example: `x^(0,0) < x^(0,1) < x^(1,0)`. -/
example : lexCompare ![0, 0] ![0, 1] = -1 ∧ lexCompare ![0, 1] ![1, 0] = -1 := by decide +kernel

/-- **C87**: `reverseLexCompare` is an order that multiplication respects, with `x_1 < ... < x_n`. It is the lexicographic order turned
around, so one is the greatest monomial. -/
theorem C87_reverse : Compatible (fun a b : Term n => reverseLexCompare a b = -1) ∧
    (∀ v w : Fin n, v < w → reverseLexCompare (var v) (var w) = -1) ∧
    (∀ a b : Term n, (reverseLexCompare a b = 0 ↔ a = b) ∧ (reverseLexCompare a b = 1 ↔ reverseLexCompare b a = -1)) ∧
    ∀ a : Term n, a ≠ 0 → reverseLexCompare a 0 = -1 := by
  have hs : ∀ a b : Term n, reverseLexCompare a b = lexCompare b a := fun a b => (lexCompare_swap a b).symm
  simp only [hs]
  obtain ⟨h1, h2, h3⟩ := C87_lex (n := n)
  refine ⟨⟨h1.irrefl, fun a b c hab hbc => h1.trans c b a hbc hab, fun a b => ?_, fun a b c => h1.mul b a c⟩, fun v w hvw => ?_,
    fun a b => ⟨(h3 b a).1.trans eq_comm, (h3 b a).2⟩, fun a ha => h1.one a ha⟩
  · rcases h1.total a b with h | h | h
    · exact Or.inr (Or.inr h)
    · exact Or.inr (Or.inl h)
    · exact Or.inl h
  · have := h2 v w hvw 1
    rwa [show (1 : ℕ) • var w = var w from funext fun u => Nat.one_mul _] at this

example : reverseLexCompare ![1, 0] ![0, 1] = -1 ∧ reverseLexCompare ![0, 1] ![0, 0] = -1 := by decide +kernel

/-- **C87**: it is not a term order as it is documented to be, whenever there is a variable. -/
theorem C87_reverse_false (v : Fin n) : ¬ IsTermOrder fun a b : Term n => reverseLexCompare a b = -1 := by
  intro h
  have hv : var v ≠ 0 := fun h0 => by
    have := congrFun h0 v
    simp [var] at this
  have h1 := h.one (var v) hv
  have h2 := (C87_reverse (n := n)).2.2.2 (var v) hv
  exact h.irrefl 0 (h.trans 0 (var v) 0 h1 h2)

/-- The documented example, `x^(0,0) < x^(1,0) < x^(0,1)`, is wrong in its first part. -/
example : reverseLexCompare ![0, 0] ![1, 0] = 1 ∧ reverseLexCompare ![1, 0] ![0, 1] = -1 := by decide +kernel

/-- **C87**: `equals` returns whether the entries are equal, and agrees with the comparisons. -/
theorem C87_equals (a b : Term n) : (equals a b = true ↔ a = b) ∧ (equals a b = true ↔ lexCompare a b = 0) ∧
    (equals a b = true ↔ reverseLexCompare a b = 0) := by
  have h : ∀ vs : List (Fin n), equalsLoop a b vs = true ↔ ∀ v ∈ vs, a v = b v := by
    intro vs
    induction vs with
    | nil => simp [equalsLoop]
    | cons v vs ih =>
      unfold equalsLoop
      by_cases hv : a v = b v <;> simp [hv, ih]
  have h' : equals a b = true ↔ a = b :=
    (h _).trans ⟨fun hv => funext fun v => hv v (List.mem_finRange v), fun he v _ => by rw [he]⟩
  exact ⟨h', h'.trans (zero_iff a b).symm, h'.trans ((C87_reverse (n := n)).2.2.1 a b).1.symm⟩

example : equals ![1, 2] ![1, 2] = true ∧ equals ![1, 2] ![1, 3] = false := by decide +kernel

end Frobby.TermOrder

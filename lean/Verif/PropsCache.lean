import Verif.CacheStepLemmas
import Verif.PolyIOModel

/-!
# C80: the texts that a translator keeps are never out of date
-/

namespace Frobby

theorem run_texts : ∀ (ops : List CacheOp) (s : CacheState) (R R' : TextRequests), s.Inv → s.Agrees R → R.run ops = some R' → TextStepped (s.run ops) R'
  | [], s, R, R', hs, hV, h => by cases h; exact ⟨s, rfl, hs, hV⟩
  | op :: ops, s, R, R', hs, hV, h => by
    rw [TextRequests.run, Option.bind_eq_some_iff] at h
    obtain ⟨W, h1, h2⟩ := h
    obtain ⟨s', h3, hs', hW⟩ := step_texts hs hV op h1
    rw [CacheState.run, h3]
    exact run_texts ops s' W R' hs' hW h2

theorem run_texts_start {ops : List CacheOp} {R : TextRequests} (h : TextRequests.start.run ops = some R) : TextStepped (CacheState.start.run ops) R :=
  run_texts ops _ _ _ ⟨fun _ _ h => by (cases h), fun _ _ _ _ _ h => by (cases h), fun _ h => absurd rfl h, fun _ h => absurd rfl h⟩
    ⟨rfl, fun _ _ => rfl, fun _ _ h => by (cases h), fun _ _ h => by (cases h)⟩ h

/-- Any program on translators is defined where it makes sense, and each text that it asks for is that of the names and exponents at that time. -/
theorem C80_texts (ops : List CacheOp) (R : TextRequests) (h : TextRequests.start.run ops = some R) :
    ∃ s, CacheState.start.run ops = some s ∧ s.out = R.out := by
  obtain ⟨s, e, _, hV⟩ := run_texts_start h
  exact ⟨s, e, hV.out⟩

/-- Each text in memory belongs to exactly one translator that lives. When there are no translators any more, there are no texts. -/
theorem C80_memory (ops : List CacheOp) (R : TextRequests) (h : TextRequests.start.run ops = some R) :
    ∃ s, CacheState.start.run ops = some s ∧
      (∀ a, s.heap.cell a ≠ none ↔ ∃ x c, s.tr x = some c ∧ a ∈ c.owned) ∧
      (∀ x y c d a, s.tr x = some c → s.tr y = some d → a ∈ c.owned → a ∈ d.owned → x = y) ∧
      ((∀ x, R.tr x = none) → ∀ a, s.heap.cell a = none) := by
  obtain ⟨s, e, hs, hV⟩ := run_texts_start h
  refine ⟨s, e, fun a => ⟨hs.kept a, fun ⟨x, c, hx, ha⟩ => (hs.good x c hx).holds a ha⟩, ?_, ?_⟩
  · intro x y c d a hx hy ha hd
    by_contra hne
    exact hs.apart x y c d hne hx hy a ha hd
  · intro hall a
    by_contra hne
    obtain ⟨x, c, hx, _⟩ := hs.kept a hne
    rw [hV.dead x (hall x)] at hx
    cases hx

/-- The texts are those that the models of the writers of terms start from (PolyIOModel). -/
theorem C80_writers (name : Text) (e : ℕ) : powerNotation name e = varExponentString name e ∧ some (decimalInt e) = exponentString e := by
  constructor
  · unfold powerNotation varExponentString
    by_cases h0 : e = 0
    · simp [h0]
    · by_cases h1 : e = 1
      · subst h1; simp
      · have : ¬ (e : ℤ) = 1 := by omega
        simp [h0, h1, this, decimalInt]
  · simp [exponentString, decimalInt]

/-- Texts are asked for before and after all changes, also through a copy and after an assignment to itself. -/
def cacheExample : List CacheOp :=
  [.create 0 [[0, 1, 3, 0], [0, 12, 0]] [t!"x", t!"yy"], .getPower 0 0 2, .getPower 0 1 0, .getPlain 0 1 1, .copy 1 0, .swap 0 0 1, .getPower 0 0 1, .getPlain 0 1 2,
    .dualize 0 [13, 3], .getPower 0 0 1, .getPower 0 1 1, .getPower 1 0 1, .rename 1 [t!"a", t!"b"], .getPower 1 0 1, .decrement 1, .getPower 1 0 0, .assign 0 1,
    .getPlain 0 1 1, .assign 0 0, .getPower 0 1 1, .destroy 1, .getPower 0 0 2, .destroy 0]

example : (TextRequests.start.run cacheExample).map (fun R => R.out) =
    some [some t!"x^3", none, some t!"12", some t!"yy^12", some t!"3", some t!"yy^2", some t!"x^3", some t!"x", some t!"a", some t!"a^-1", some t!"11",
      some t!"b^11", some t!"a^2"] := by decide +kernel

example : (CacheState.start.run cacheExample).map (fun s => s.out) = (TextRequests.start.run cacheExample).map fun R => R.out := by decide +kernel

end Frobby
